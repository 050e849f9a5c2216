import Verif.Proof.BorderGeo
import Verif.Proof.Nearby

/-!
# Closed chains that turn clockwise around a point
-/

namespace Foronoi

open scoped List

/-! ### potentials on closed chains -/

theorem chain_le {g : Nat → ℝ} : ∀ (k : Nat), (∀ i < k, g i ≤ g (i + 1)) → ∀ i ≤ k, g i ≤ g k := by
  intro k
  induction k with
  | zero => intro _ i hi; rw [Nat.le_zero.mp hi]
  | succ k ih =>
    intro h i hi
    rcases Nat.lt_or_ge i (k + 1) with h' | h'
    · exact le_trans (ih (fun i hi => h i (by omega)) i (by omega)) (h k (by omega))
    · have : i = k + 1 := by omega
      rw [this]

/-- A quantity that does not decrease along a closed chain is constant. -/
theorem chain_const {g : Nat → ℝ} {k : Nat} (h : ∀ i < k, g i ≤ g (i + 1)) (hc : g k = g 0) {i : Nat} (hi : i < k) : g i = g (i + 1) := by
  have h1 := chain_le k h (i + 1) (by omega)
  have h2 := chain_le i (fun j hj => h j (by omega)) 0 (by omega)
  have h3 := h i hi
  linarith

/-! ### winding -/

/-- The direction of `z` as seen from `c` is between those of `x` and `y`. -/
def InCone (c x y z : Pt) : Prop := 0 < rightOf c x y ∧ 0 ≤ rightOf c x z ∧ 0 ≤ rightOf c z y

/-- A closed chain that never turns back and does not stand still sees every direction. -/
theorem winding {c : Pt} {P : Nat → Pt} {k : Nat} (hc : P k = P 0) (hs : ∀ i < k, P i = P (i + 1) ∨ 0 < rightOf c (P i) (P (i + 1)))
    (hn : ∃ i < k, P i ≠ P (i + 1)) (z : Pt) : ∃ i < k, InCone c (P i) (P (i + 1)) z := by
  by_contra hcon
  push Not at hcon
  set g : Pt → ℝ := fun w => if orderKey c z ≤ orderKey c w then orderKey c w - orderKey c z else orderKey c w - orderKey c z + 360 with hg
  have step : ∀ i < k, 0 < rightOf c (P i) (P (i + 1)) → g (P i) < g (P (i + 1)) := by
    intro i hi h
    have hno := hcon i hi
    have ht := key_of_turn h
    have h1 : ((orderKey c (P i) ≤ orderKey c z ∧ orderKey c z ≤ orderKey c (P i) + 180) ∨ orderKey c z + 180 ≤ orderKey c (P i)) →
        ¬ ((orderKey c z ≤ orderKey c (P (i + 1)) ∧ orderKey c (P (i + 1)) ≤ orderKey c z + 180) ∨ orderKey c (P (i + 1)) + 180 ≤ orderKey c z) :=
      fun a b => hno ⟨h, turn_of_key a, turn_of_key b⟩
    obtain ⟨x0, x1⟩ := key_range c (P i)
    obtain ⟨y0, y1⟩ := key_range c (P (i + 1))
    obtain ⟨z0, z1⟩ := key_range c z
    simp only [hg]
    clear hno hcon hs hg g
    generalize orderKey c (P i) = kx at *
    generalize orderKey c (P (i + 1)) = ky at *
    generalize orderKey c z = kz at *
    rcases ht with ⟨a, b⟩ | a
    · have : kz < kx ∨ ky < kz := by
        by_contra hh
        push Not at hh
        exact h1 (Or.inl ⟨by linarith, by linarith⟩) (Or.inl ⟨by linarith, by linarith⟩)
      rcases this with h | h
      · rw [if_pos h.le, if_pos (by linarith)]; linarith
      · rw [if_neg (by linarith), if_neg (by linarith)]; linarith
    · have h2 : kz < kx := by
        by_contra hh
        push Not at hh
        exact h1 (Or.inl ⟨by linarith, by linarith⟩) (Or.inr (by linarith))
      have h3 : ky < kz := by
        by_contra hh
        push Not at hh
        exact h1 (Or.inr (by linarith)) (Or.inl ⟨by linarith, by linarith⟩)
      rw [if_pos h2.le, if_neg (by linarith)]; linarith
  obtain ⟨i, hi, hne⟩ := hn
  have hmono : ∀ i < k, g (P i) ≤ g (P (i + 1)) := by
    intro i hi
    rcases hs i hi with h | h
    · rw [h]
    · exact (step i hi h).le
  have := chain_const (g := fun i => g (P i)) hmono (by simp only [hc]) hi
  exact absurd this (step i hi ((hs i hi).resolve_left hne)).ne

/-- The ray from `c` through `z` meets the segment. -/
theorem InCone.meets {c x y z : Pt} (h : InCone c x y z) (hz : z ≠ c) : ∃ w t, 0 < t ∧ Between x y w ∧ w.1 - c.1 = t * (z.1 - c.1) ∧ w.2 - c.2 = t * (z.2 - c.2) := by
  obtain ⟨h0, h1, h2⟩ := h
  have hsum : 0 < rightOf c x z + rightOf c z y := by
    rcases eq_or_lt_of_le (add_nonneg h1 h2) with h | h
    · exfalso
      have e1 : rightOf c x z = 0 := by linarith
      have e2 : rightOf c z y = 0 := by linarith
      apply hz
      have k1 : (z.1 - c.1) * rightOf c x y = 0 := by
        have : (z.1 - c.1) * rightOf c x y = (y.1 - c.1) * rightOf c x z + (x.1 - c.1) * rightOf c z y := by unfold rightOf; ring
        rw [this, e1, e2]; ring
      have k2 : (z.2 - c.2) * rightOf c x y = 0 := by
        have : (z.2 - c.2) * rightOf c x y = (y.2 - c.2) * rightOf c x z + (x.2 - c.2) * rightOf c z y := by unfold rightOf; ring
        rw [this, e1, e2]; ring
      have k1 := (mul_eq_zero.mp k1).resolve_right h0.ne'
      have k2 := (mul_eq_zero.mp k2).resolve_right h0.ne'
      exact Prod.ext (by linarith) (by linarith)
    · exact h
  set S := rightOf c x z + rightOf c z y with hS
  refine ⟨((1 - rightOf c x z / S) * x.1 + rightOf c x z / S * y.1, (1 - rightOf c x z / S) * x.2 + rightOf c x z / S * y.2), rightOf c x y / S, div_pos h0 hsum,
    ⟨rightOf c x z / S, div_nonneg h1 hsum.le, (div_le_one hsum).mpr (by linarith), rfl⟩, ?_, ?_⟩
  · have hS' := hsum.ne'
    simp only
    field_simp
    rw [hS]; unfold rightOf; ring
  · have hS' := hsum.ne'
    simp only
    field_simp
    rw [hS]; unfold rightOf; ring

/-! ### points of a circle seen from one of them -/

/-- Points on a circle around `z` through `a`: turning right around `a` cannot come back. -/
theorem circle_order {a z : Pt} {O : Nat → Pt} {k : Nat} (hk : 0 < k) (ho : ∀ i ≤ k, O i ≠ a ∧ dsq (O i) z = dsq a z)
    (hs : ∀ i < k, 0 < rightOf a (O i) (O (i + 1))) : O k ≠ O 0 := by
  intro hc
  set D : Pt → ℝ := fun o => (o.1 - a.1) * (z.1 - a.1) + (o.2 - a.2) * (z.2 - a.2) with hD
  set X : Pt → ℝ := fun o => rightOf a z o with hX
  have hpos : ∀ i ≤ k, 0 < D (O i) := by
    intro i hi
    obtain ⟨h1, h2⟩ := ho i hi
    have := dsq_pos h1
    have e : D (O i) = dsq (O i) a / 2 := by
      simp only [hD]
      unfold dsq at h2 ⊢
      linear_combination (-1 / 2) * h2
    rw [e]; linarith
  have hlt : ∀ i < k, X (O i) / D (O i) < X (O (i + 1)) / D (O (i + 1)) := by
    intro i hi
    have d1 := hpos i (by omega)
    have d2 := hpos (i + 1) (by omega)
    rw [div_lt_div_iff₀ d1 d2]
    have hza : a ≠ z := by
      intro h
      simp only [hD, h, sub_self, mul_zero, add_zero] at d1
      exact absurd d1 (lt_irrefl _)
    have e : X (O (i + 1)) * D (O i) - X (O i) * D (O (i + 1)) = dsq a z * rightOf a (O i) (O (i + 1)) := by
      simp only [hD, hX]
      unfold rightOf dsq
      ring
    have := mul_pos (dsq_pos hza) (hs i hi)
    linarith
  have := chain_const (g := fun i => X (O i) / D (O i)) (fun i hi => (hlt i hi).le) (by simp only [hc]) hk
  exact absurd this (hlt 0 hk).ne

end Foronoi
