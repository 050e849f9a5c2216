import Mathlib.Analysis.Convex.KreinMilman
import Mathlib.Analysis.Normed.Module.FiniteDimension
import Mathlib.Analysis.InnerProductSpace.Basic
import Mathlib.Tactic.Linarith

/-!
# A convex function on an intersection of half-planes is negative if it is negative at the corners
-/

namespace Foronoi

/-- The value of the affine function with coefficients `c`. -/
def affine (c : ℝ × ℝ × ℝ) (z : ℝ × ℝ) : ℝ := c.1 * z.1 + c.2.1 * z.2 + c.2.2

theorem small_step (cs : List (ℝ × ℝ × ℝ)) (e v : ℝ × ℝ) (h : ∀ c ∈ cs, 0 < affine c e ∨ (affine c e = 0 ∧ c.1 * v.1 + c.2.1 * v.2 = 0)) :
    ∃ ε > 0, ∀ c ∈ cs, ∀ t : ℝ, |t| ≤ ε → 0 ≤ affine c (e.1 + t * v.1, e.2 + t * v.2) := by
  induction cs with
  | nil => exact ⟨1, one_pos, by simp⟩
  | cons c cs ih =>
    obtain ⟨ε, h0, hε⟩ := ih fun d hd => h d (List.mem_cons_of_mem _ hd)
    rcases h c List.mem_cons_self with hc | ⟨hc, hv⟩
    · obtain ⟨s, hs⟩ : ∃ s, s = |c.1 * v.1 + c.2.1 * v.2| := ⟨_, rfl⟩
      have s0 : 0 ≤ s := hs ▸ abs_nonneg _
      refine ⟨min ε (affine c e / (s + 1)), lt_min h0 (by positivity), fun d hd t ht => ?_⟩
      rcases List.mem_cons.mp hd with rfl | hd
      · have h1 : |t| ≤ affine d e / (s + 1) := ht.trans (min_le_right _ _)
        rw [le_div_iff₀ (by positivity)] at h1
        have h2 : |t * (d.1 * v.1 + d.2.1 * v.2)| ≤ affine d e := by
          rw [abs_mul, ← hs]
          nlinarith [abs_nonneg t]
        have h3 := (abs_le.mp h2).1
        have e1 : affine d (e.1 + t * v.1, e.2 + t * v.2) = affine d e + t * (d.1 * v.1 + d.2.1 * v.2) := by unfold affine; ring
        rw [e1]
        linarith
      · exact hε d hd t (ht.trans (min_le_left _ _))
    · refine ⟨ε, h0, fun d hd t ht => ?_⟩
      rcases List.mem_cons.mp hd with rfl | hd
      · have e1 : affine d (e.1 + t * v.1, e.2 + t * v.2) = affine d e + t * (d.1 * v.1 + d.2.1 * v.2) := by unfold affine; ring
        rw [e1, hc, hv]
        simp
      · exact hε d hd t ht

theorem negative_at_corners {cs : List (ℝ × ℝ × ℝ)} {K : Set (ℝ × ℝ)} (hK : ∀ z, z ∈ K ↔ ∀ c ∈ cs, 0 ≤ affine c z) (hcomp : IsCompact K) (a β γ : ℝ)
    (h : ∀ c ∈ cs, ∀ d ∈ cs, c.1 * d.2.1 - c.2.1 * d.1 ≠ 0 → ∀ z ∈ K, affine c z = 0 → affine d z = 0 → (z.1 - a) ^ 2 + β * z.2 + γ < 0) :
    ∀ z ∈ K, (z.1 - a) ^ 2 + β * z.2 + γ < 0 := by
  intro z0 hz0
  by_contra hneg
  push Not at hneg
  let g : ℝ × ℝ → ℝ := fun z => (z.1 - a) ^ 2 + β * z.2 + γ
  have hg : Continuous g := by fun_prop
  obtain ⟨x, hx, hmax⟩ := hcomp.exists_isMaxOn ⟨z0, hz0⟩ hg.continuousOn
  have hmax : ∀ z ∈ K, g z ≤ g x := fun z hz => hmax hz
  have hx0 : 0 ≤ g x := hneg.trans (hmax z0 hz0)
  have hMc : IsCompact (K ∩ {z | g x ≤ g z}) := hcomp.inter_right (isClosed_le continuous_const hg)
  obtain ⟨e, he⟩ := hMc.extremePoints_nonempty ⟨x, hx, le_refl (g x)⟩
  rw [mem_extremePoints] at he
  obtain ⟨⟨heK, heg⟩, hext⟩ := he
  have heg : g x ≤ g e := heg
  have hv : ∃ v : ℝ × ℝ, v ≠ 0 ∧ ∀ c ∈ cs, affine c e = 0 → c.1 * v.1 + c.2.1 * v.2 = 0 := by
    by_cases hex : ∃ c ∈ cs, affine c e = 0 ∧ (c.1 ≠ 0 ∨ c.2.1 ≠ 0)
    · obtain ⟨c, hc, hc0, hn⟩ := hex
      refine ⟨(-c.2.1, c.1), fun hh => ?_, fun d hd hd0 => ?_⟩
      · rw [Prod.mk_eq_zero] at hh
        rcases hn with hn | hn
        · exact hn hh.2
        · exact hn (by linarith [hh.1])
      · by_contra hne
        have := h c hc d hd (fun h0 => hne (by simp only; linarith)) e heK hc0 hd0
        have : g e < 0 := this
        linarith
    · push Not at hex
      refine ⟨(1, 0), by simp, fun c hc hc0 => ?_⟩
      obtain ⟨h1, h2⟩ := hex c hc hc0
      rw [h1, h2]; simp
  obtain ⟨v, hv0, hv⟩ := hv
  obtain ⟨ε, h0, hε⟩ := small_step cs e v fun c hc => by
    rcases ((hK e).mp heK c hc).lt_or_eq with h1 | h1
    · exact Or.inl h1
    · exact Or.inr ⟨h1.symm, hv c hc h1.symm⟩
  have k1 : (e.1 + ε * v.1, e.2 + ε * v.2) ∈ K := (hK _).mpr fun c hc => hε c hc ε (by rw [abs_of_pos h0])
  have k2 : (e.1 + (-ε) * v.1, e.2 + (-ε) * v.2) ∈ K := (hK _).mpr fun c hc => hε c hc (-ε) (by rw [abs_neg, abs_of_pos h0])
  have m1 := hmax _ k1
  have m2 := hmax _ k2
  have e1 := hmax _ heK
  have hsum : g (e.1 + ε * v.1, e.2 + ε * v.2) + g (e.1 + (-ε) * v.1, e.2 + (-ε) * v.2) = 2 * g e + 2 * (ε * v.1) ^ 2 := by
    simp only [g]; ring
  have hsq := sq_nonneg (ε * v.1)
  have := hext _ ⟨k1, show g x ≤ _ by linarith⟩ _ ⟨k2, show g x ≤ _ by linarith⟩
    ⟨1 / 2, 1 / 2, by norm_num, by norm_num, by norm_num, by
      ext <;> simp <;> ring⟩
  have h2 := this.1
  apply hv0
  have hε' := h0.ne'
  have p1 := congrArg Prod.fst h2
  have p2 := congrArg Prod.snd h2
  simp only at p1 p2
  ext
  · rcases mul_eq_zero.mp (show ε * v.1 = 0 by linarith) with h | h
    · exact absurd h hε'
    · exact h
  · rcases mul_eq_zero.mp (show ε * v.2 = 0 by linarith) with h | h
    · exact absurd h hε'
    · exact h

end Foronoi
