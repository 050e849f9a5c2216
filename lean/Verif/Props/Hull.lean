import Mathlib.Topology.MetricSpace.Sequences
import Mathlib.Topology.MetricSpace.ProperSpace.Real
import Mathlib.Topology.Instances.Real.Lemmas
import Mathlib.Analysis.Normed.Module.Basic
import Mathlib.Tactic.IntervalCases
import Verif.Spec.Clipping
import Verif.Props.Planar
import Verif.Props.Whole

/-!
# C140: which cells are unbounded

A site has a half-edge that starts at infinity if and only if its cell is unbounded, and this is so if and only if it is the furthest site
in some direction: if it is on the border of the convex hull of the sites.
-/

namespace Foronoi

open scoped List
open Filter

variable {pts : Nat → ℝ × ℝ} {q : PQ (QE ℝ)} {ok : List (QE ℝ) → Prop} {n : Nat} {poly : Poly ℝ} {s : St ℝ}

/-- The furthest site in a direction has an unbounded cell. -/
theorem unbounded_of_furthest {p : Nat} {d : ℝ × ℝ} (hd : d ≠ 0) (h : Furthest pts n d p) : FarCell pts n p := by
  intro R
  have hD : 0 < d.1 ^ 2 + d.2 ^ 2 := by
    by_contra hcon
    have h1 : d.1 ^ 2 = 0 := by nlinarith [sq_nonneg d.1, sq_nonneg d.2]
    have h2 : d.2 ^ 2 = 0 := by nlinarith [sq_nonneg d.1, sq_nonneg d.2]
    exact hd (Prod.ext (pow_eq_zero_iff two_ne_zero |>.mp h1) (pow_eq_zero_iff two_ne_zero |>.mp h2))
  set D := d.1 ^ 2 + d.2 ^ 2 with hDd
  set t := (|R| + 1) / D + 1 with ht
  have ht1 : 1 ≤ t := by have : 0 ≤ (|R| + 1) / D := by positivity
                         linarith
  have htD : |R| + 1 ≤ t * D := by rw [ht]; have : (|R| + 1) / D * D = |R| + 1 := by field_simp
                                   nlinarith
  refine ⟨((pts p).1 + t * d.1, (pts p).2 + t * d.2), ⟨h.1, fun c hc => ?_⟩, ?_⟩
  · have := mul_nonneg (by linarith : 0 ≤ t) (sub_nonneg.mpr (h.2 c hc))
    unfold sqDist
    simp only
    nlinarith [sq_nonneg ((pts c).1 - (pts p).1), sq_nonneg ((pts c).2 - (pts p).2)]
  · have e : sqDist (pts p) ((pts p).1 + t * d.1, (pts p).2 + t * d.2) = t * (t * D) := by unfold sqDist; simp only [hDd]; ring
    rw [e]
    nlinarith [le_abs_self R, abs_nonneg R]

/-- A site with an unbounded cell is the furthest in some direction. -/
theorem furthest_of_unbounded {p : Nat} (h : FarCell pts n p) : ∃ d : ℝ × ℝ, d ≠ 0 ∧ Furthest pts n d p := by
  have hp : p < n := by obtain ⟨z, hz, _⟩ := h 0; exact hz.1
  choose z hz hzR using fun k : Nat => h (2 * ((k : ℝ) + 1) ^ 2)
  set N : Nat → ℝ := fun k => ‖z k - pts p‖ with hN
  have hNk : ∀ k : Nat, (k : ℝ) + 1 < N k := by
    intro k
    have h1 := hzR k
    have a1 : |(z k).1 - (pts p).1| ≤ N k := by simpa [hN] using norm_fst_le (z k - pts p)
    have a2 : |(z k).2 - (pts p).2| ≤ N k := by simpa [hN] using norm_snd_le (z k - pts p)
    have b1 := sq_le_sq' (by linarith [neg_abs_le ((z k).1 - (pts p).1)]) ((le_abs_self _).trans a1)
    have b2 := sq_le_sq' (by linarith [neg_abs_le ((z k).2 - (pts p).2)]) ((le_abs_self _).trans a2)
    have hN0 : 0 ≤ N k := norm_nonneg _
    have e : sqDist (pts p) (z k) = ((z k).1 - (pts p).1) ^ 2 + ((z k).2 - (pts p).2) ^ 2 := by unfold sqDist; ring
    rw [e] at h1
    have : ((k : ℝ) + 1) ^ 2 < N k ^ 2 := by linarith
    exact lt_of_pow_lt_pow_left₀ 2 hN0 this
  have hNpos : ∀ k, 0 < N k := fun k => lt_trans (by positivity) (hNk k)
  set u : Nat → ℝ × ℝ := fun k => (N k)⁻¹ • (z k - pts p) with hu
  have hsph : ∀ k, u k ∈ Metric.sphere (0 : ℝ × ℝ) 1 := by
    intro k
    rw [mem_sphere_zero_iff_norm, hu]
    simp only [norm_smul, norm_inv, Real.norm_eq_abs, abs_of_pos (hNpos k)]
    exact inv_mul_cancel₀ (hNpos k).ne'
  obtain ⟨d, hd, φ, hφ, hlim⟩ := (isCompact_sphere (0 : ℝ × ℝ) 1).tendsto_subseq hsph
  refine ⟨d, ?_, hp, fun r hr => ?_⟩
  · rintro rfl
    simp at hd
  · have h1 : Tendsto (fun k => (u (φ k)).1) atTop (nhds d.1) := (continuous_fst.tendsto d).comp hlim
    have h2 : Tendsto (fun k => (u (φ k)).2) atTop (nhds d.2) := (continuous_snd.tendsto d).comp hlim
    have h3 : Tendsto (fun k => (u (φ k)).1 * ((pts r).1 - (pts p).1) + (u (φ k)).2 * ((pts r).2 - (pts p).2)) atTop
        (nhds (d.1 * ((pts r).1 - (pts p).1) + d.2 * ((pts r).2 - (pts p).2))) := (h1.mul_const _).add (h2.mul_const _)
    have h4 : Tendsto (fun k : Nat => sqDist (pts r) (pts p) * (1 / ((k : ℝ) + 1))) atTop (nhds (sqDist (pts r) (pts p) * 0)) :=
      (tendsto_one_div_add_atTop_nhds_zero_nat).const_mul _
    have h5 := le_of_tendsto_of_tendsto' h3 (h4.comp hφ.tendsto_atTop) (fun k => by
      have hk := (hz (φ k)).2 r hr
      have hn := hNpos (φ k)
      have hq : 1 / N (φ k) ≤ 1 / ((φ k : ℝ) + 1) := one_div_le_one_div_of_le (by positivity) (hNk (φ k)).le
      have e : (u (φ k)).1 * ((pts r).1 - (pts p).1) + (u (φ k)).2 * ((pts r).2 - (pts p).2) =
          (1 / N (φ k)) * (((z (φ k)).1 - (pts p).1) * ((pts r).1 - (pts p).1) + ((z (φ k)).2 - (pts p).2) * ((pts r).2 - (pts p).2)) := by
        simp only [hu, Prod.smul_fst, Prod.smul_snd, Prod.fst_sub, Prod.snd_sub, smul_eq_mul]; ring
      rw [e]
      have hs : 0 ≤ sqDist (pts r) (pts p) := by unfold sqDist; positivity
      have hle : ((z (φ k)).1 - (pts p).1) * ((pts r).1 - (pts p).1) + ((z (φ k)).2 - (pts p).2) * ((pts r).2 - (pts p).2) ≤ sqDist (pts r) (pts p) := by
        unfold sqDist at hk hs ⊢
        nlinarith
      calc _ ≤ (1 / N (φ k)) * sqDist (pts r) (pts p) := mul_le_mul_of_nonneg_left hle (by positivity)
        _ ≤ (1 / ((φ k : ℝ) + 1)) * sqDist (pts r) (pts p) := mul_le_mul_of_nonneg_right hq hs
        _ = _ := by simp [mul_comm])
    rw [mul_zero] at h5
    linarith

/-- A half-edge that starts at infinity belongs to an unbounded cell. -/
theorem unbounded_of_fromInfinity (hd : Distinct pts n) (hq : q.Spec evLt ok) (h : Reach pts q n poly s) (hend : s.queue = []) {e p : Nat}
    (he : FromInfinity s.d e p) : FarCell pts n p := by
  obtain ⟨h1, h2, b, h3⟩ := he
  obtain ⟨t, p', r, g1, g2, g3, g4, g5, g6, _⟩ := (C09_sides hq h).1 e h1
  rw [h2, Option.some.injEq] at g2
  subst g2
  have hne : pts p ≠ pts r := fun hh => g4 (hd p g5 r g6 hh)
  set w : ℝ × ℝ := ((pts r).2 - (pts p).2, (pts p).1 - (pts r).1) with hw
  have hW : 0 < w.1 ^ 2 + w.2 ^ 2 := by
    by_contra hcon
    have k1 : w.1 ^ 2 = 0 := by nlinarith [sq_nonneg w.1, sq_nonneg w.2]
    have k2 : w.2 ^ 2 = 0 := by nlinarith [sq_nonneg w.1, sq_nonneg w.2]
    have k1 := pow_eq_zero_iff two_ne_zero |>.mp k1
    have k2 := pow_eq_zero_iff two_ne_zero |>.mp k2
    simp only [hw] at k1 k2
    exact hne (Prod.ext (by linarith) (by linarith))
  set W := w.1 ^ 2 + w.2 ^ 2 with hWd
  have key : ∀ (R c : ℝ), ∃ τ : ℝ, c ≤ τ * W ∧ R < τ ^ 2 * W := by
    intro R c
    refine ⟨(|R| + |c| + 1) / W + 1, ?_, ?_⟩
    · have : (|R| + |c| + 1) / W * W = |R| + |c| + 1 := by field_simp
      nlinarith [le_abs_self c, abs_nonneg R]
    · have e : (|R| + |c| + 1) / W * W = |R| + |c| + 1 := by field_simp
      have e0 : 0 ≤ (|R| + |c| + 1) / W := by positivity
      nlinarith [le_abs_self R, abs_nonneg c, mul_nonneg e0 (by positivity : 0 ≤ |R| + |c| + 1), abs_nonneg R]
  intro R
  have hpos : ∀ τ : ℝ, sqDist (pts p) (((pts p).1 + (pts r).1) / 2 - τ * w.1, ((pts p).2 + (pts r).2) / 2 - τ * w.2) =
      sqDist (pts p) (pts r) / 4 + τ ^ 2 * W := by intro τ; unfold sqDist; simp only [hWd, hw]; ring
  have hs0 : 0 ≤ sqDist (pts p) (pts r) := by unfold sqDist; positivity
  obtain ⟨c, hc⟩ : ∃ c : ℝ, ∀ x zx, EndsAt s.d e x → (s.d.vs x).pos = some zx →
      (((pts p).1 + (pts r).1) / 2 - zx.1) * w.1 + (((pts p).2 + (pts r).2) / 2 - zx.2) * w.2 ≤ c := by
    by_cases hx : ∃ x zx, EndsAt s.d e x ∧ (s.d.vs x).pos = some zx
    · obtain ⟨x, zx, ⟨t', ht', hx1⟩, hx2⟩ := hx
      refine ⟨(((pts p).1 + (pts r).1) / 2 - zx.1) * w.1 + (((pts p).2 + (pts r).2) / 2 - zx.2) * w.2, fun y zy ⟨t'', ht'', hy1⟩ hy2 => le_of_eq ?_⟩
      · rw [ht', Option.some.injEq] at ht''
        subst ht''
        rw [hx1] at hy1
        cases hy1
        rw [hx2] at hy2
        cases hy2
        rfl
    · exact ⟨0, fun y zy hy1 hy2 => (hx ⟨y, zy, hy1, hy2⟩).elim⟩
  obtain ⟨τ, t1, t2⟩ := key R c
  refine ⟨_, (C64_points_nearest hd hq h hend h1 ⟨h2, t, g1, g3⟩ (z := (((pts p).1 + (pts r).1) / 2 - τ * w.1, ((pts p).2 + (pts r).2) / 2 - τ * w.2))
    ⟨?_, fun v zv hv _ => ?_, fun x zx hx hzx => ?_⟩).1, ?_⟩
  · unfold sqDist; simp only [hw]; ring
  · unfold StartsAt at hv; rw [h3] at hv; cases hv
  · have := hc x zx hx hzx
    have e : ahead (pts p) (pts r) zx (((pts p).1 + (pts r).1) / 2 - τ * w.1, ((pts p).2 + (pts r).2) / 2 - τ * w.2) =
        (((pts p).1 + (pts r).1) / 2 - zx.1) * w.1 + (((pts p).2 + (pts r).2) / 2 - zx.2) * w.2 - τ * W := by
      unfold ahead; simp only [hWd, hw]; ring
    rw [e]
    linarith
  · rw [hpos]; linarith

/-- For every `c`, `k c ≤ y * m c` with `m c` positive, once `y` is large enough. -/
private theorem eventually_line {m k : Nat → ℝ} {P : Nat → Prop} (hm : ∀ c < n, P c → 0 < m c) : ∀ᶠ y : ℝ in atTop, ∀ c < n, P c → k c ≤ y * m c := by
  have : ∀ᶠ y : ℝ in atTop, ∀ c ∈ Finset.range n, P c → k c ≤ y * m c := by
    rw [Filter.eventually_all_finset]
    intro c hc
    by_cases hP : P c
    · filter_upwards [(tendsto_id.atTop_mul_const (hm c (Finset.mem_range.mp hc) hP)).eventually_ge_atTop (k c)] with y hy _
      exact hy
    · exact Filter.Eventually.of_forall fun y h => (hP h).elim
  filter_upwards [this] with y hy c hc
  exact hy c (Finset.mem_range.mpr hc)

/-- The furthest site in a direction has a half-edge that starts at infinity. -/
theorem fromInfinity_of_furthest (hd : Distinct pts n) (hn : 2 ≤ n) (hq : q.Spec evLt ok) (h : Reach pts q n poly s) (hend : s.queue = [])
    {p : Nat} {d : ℝ × ℝ} (hd0 : d ≠ 0) (hf : Furthest pts n d p) : ∃ e, FromInfinity s.d e p := by
  have hout : Outermost pts n p → ∃ e, FromInfinity s.d e p := by
    intro ho
    obtain ⟨L, hI, hp⟩ := outermost_arc hd hq h hend ho
    obtain ⟨hnn, _⟩ := hI.done hend
    exact open_of_arc hI (by omega) hp
  by_cases hv : d.1 ≠ 0 ∨ d.2 < 0
  · exact hout ⟨d, hv, hf⟩
  push Not at hv
  have hd2 : 0 < d.2 := lt_of_le_of_ne hv.2 fun h0 => hd0 (Prod.ext hv.1 h0.symm)
  have htop : ∀ c < n, (pts c).2 ≤ (pts p).2 := by
    intro c hc
    have := hf.2 c hc
    rw [hv.1] at this
    nlinarith
  by_cases hu : ∃ c < n, c ≠ p ∧ (pts c).2 = (pts p).2
  · obtain ⟨c0, hc0, hc0p, hc02⟩ := hu
    obtain ⟨r, hr, hmin⟩ := Finset.exists_min_image ((Finset.range n).filter fun c => c ≠ p ∧ (pts c).2 = (pts p).2)
      (fun c => |(pts c).1 - (pts p).1|) ⟨c0, by simp [hc0, hc0p, hc02]⟩
    simp only [Finset.mem_filter, Finset.mem_range] at hr hmin
    obtain ⟨hrn, hrp, hr2⟩ := hr
    have hx : (pts p).1 ≠ (pts r).1 := fun hh => hrp (hd r hrn p hf.1 (Prod.ext hh.symm hr2))
    set mx := ((pts p).1 + (pts r).1) / 2 with hmx
    have hnear : ∀ᶠ y : ℝ in atTop, Nearest pts n p (mx, y) ∧ Nearest pts n r (mx, y) := by
      have hl := eventually_line (n := n) (P := fun c => (pts c).2 < (pts p).2) (m := fun c => 2 * ((pts p).2 - (pts c).2))
        (k := fun c => (pts p).2 ^ 2 - (pts c).2 ^ 2 + ((pts p).1 - mx) ^ 2) (fun c _ hc => by linarith)
      filter_upwards [hl] with y hy
      have hp : Nearest pts n p (mx, y) := by
        refine ⟨hf.1, fun c hc => ?_⟩
        rcases lt_or_eq_of_le (htop c hc) with hlt | heq
        · have := hy c hc hlt
          unfold sqDist
          simp only
          nlinarith [sq_nonneg ((pts c).1 - mx)]
        · by_cases hcp : c = p
          · rw [hcp]
          have hm := hmin c ⟨hc, hcp, heq⟩
          have hm2 := sq_le_sq.mpr hm
          have key : ((pts p).1 - mx) ^ 2 ≤ ((pts c).1 - mx) ^ 2 := by
            have e1 : ((pts c).1 - mx) ^ 2 - ((pts p).1 - mx) ^ 2 = ((pts c).1 - (pts p).1) * ((pts c).1 - (pts r).1) := by rw [hmx]; ring
            have e2 : 0 ≤ ((pts c).1 - (pts p).1) * ((pts c).1 - (pts r).1) := by
              have h3 : ((pts r).1 - (pts p).1) * ((pts c).1 - (pts p).1) ≤ ((pts c).1 - (pts p).1) ^ 2 := by
                nlinarith [sq_nonneg (((pts r).1 - (pts p).1) - ((pts c).1 - (pts p).1))]
              nlinarith
            linarith
          unfold sqDist
          simp only
          rw [heq]
          linarith
      refine ⟨hp, hrn, fun c hc => le_trans (le_of_eq ?_) (hp.2 c hc)⟩
      unfold sqDist
      simp only [hmx]
      rw [hr2]
      ring
    obtain ⟨Y, hY⟩ := Filter.eventually_atTop.mp hnear
    obtain ⟨e, he, hsep, hlen⟩ := C64_edge_exists hd hq h hend (Ne.symm hrp) (z := (mx, Y)) (w := (mx, Y + 1)) (by simp)
      (hY Y le_rfl).1 (hY Y le_rfl).2 (hY (Y + 1) (by linarith)).1 (hY (Y + 1) (by linarith)).2
    have hon : ∀ y, Y ≤ y → OnEdge pts s.d e p r (mx, y) := fun y hy => (C64_edge_exact hd hq h hend he hsep hlen _).mpr (hY y hy)
    obtain ⟨L, hI⟩ := reach_inv hq h
    obtain ⟨h1, t, h2, h3⟩ := hsep
    have hpos : ∀ f < s.d.heCnt, ∀ v, (s.d.he f).origin = .vtx v → ∃ zv, (s.d.vs v).pos = some zv := by
      intro f hf v hv
      obtain ⟨_, _, a, b, c, e1, e2, e3, hV⟩ := hI.dinv.vts v (hI.dinv.ovt f hf v hv).1
      obtain ⟨_, _, _, hc⟩ := hV.pos
      exact ⟨_, hc⟩
    have hah : ∀ zv : ℝ × ℝ, ∀ y, ahead (pts p) (pts r) zv (mx, y) = (y - zv.2) * ((pts p).1 - (pts r).1) := by
      intro zv y; unfold ahead; simp only; rw [hr2]; ring
    rcases lt_or_gt_of_ne hx with hlt | hgt
    · cases ho : (s.d.he e).origin with
      | bp b => exact ⟨e, he, h1, b, ho⟩
      | vtx v =>
        obtain ⟨zv, hzv⟩ : ∃ zv, (s.d.vs v).pos = some zv := hpos _ he v ho
        have := (hon (max Y (zv.2 + 1)) (le_max_left _ _)).start v zv ho hzv
        rw [hah] at this
        have := le_max_right Y (zv.2 + 1)
        nlinarith
    · obtain ⟨t', k1, k2, k3, k4⟩ := hI.dinv.tw e he
      rw [h2, Option.some.injEq] at k1
      subst k1
      cases ho : (s.d.he t).origin with
      | bp b => exact open_twin hI k2 ⟨b, ho⟩ k4 h1
      | vtx v =>
        obtain ⟨zv, hzv⟩ : ∃ zv, (s.d.vs v).pos = some zv := hpos _ k2 v ho
        have := (hon (max Y (zv.2 + 1)) (le_max_left _ _)).stop v zv ⟨t, h2, ho⟩ hzv
        rw [hah] at this
        have := le_max_right Y (zv.2 + 1)
        nlinarith
  · push Not at hu
    have hl := eventually_line (n := n) (P := fun c => c ≠ p) (m := fun c => (pts p).2 - (pts c).2) (k := fun c => (pts c).1 - (pts p).1)
      (fun c hc hcp => sub_pos.mpr (lt_of_le_of_ne (htop c hc) (hu c hc hcp)))
    obtain ⟨y, hy⟩ := hl.exists
    refine hout ⟨(1, y), Or.inl one_ne_zero, hf.1, fun c hc => ?_⟩
    by_cases hcp : c = p
    · rw [hcp]
    have := hy c hc hcp
    simp only
    linarith

/-- C140: after the sweep a site has a half-edge that starts at infinity if and only if its cell is unbounded. -/
theorem C140_unbounded (hd : Distinct pts n) (hn : 2 ≤ n) (hq : q.Spec evLt ok) (h : Reach pts q n poly s) (hend : s.queue = []) (p : Nat) :
    (∃ e, FromInfinity s.d e p) ↔ FarCell pts n p := by
  refine ⟨fun ⟨e, he⟩ => unbounded_of_fromInfinity hd hq h hend he, fun hu => ?_⟩
  obtain ⟨d, hd0, hf⟩ := furthest_of_unbounded hu
  exact fromInfinity_of_furthest hd hn hq h hend hd0 hf

/-- C140: after the sweep a site has a half-edge that starts at infinity if and only if no other site is further in some direction. -/
theorem C140_hull (hd : Distinct pts n) (hn : 2 ≤ n) (hq : q.Spec evLt ok) (h : Reach pts q n poly s) (hend : s.queue = []) (p : Nat) :
    (∃ e, FromInfinity s.d e p) ↔ ∃ d : ℝ × ℝ, d ≠ 0 ∧ Furthest pts n d p :=
  (C140_unbounded hd hn hq h hend p).trans ⟨furthest_of_unbounded, fun ⟨_, hd0, hf⟩ => unbounded_of_furthest hd0 hf⟩

/-- Three corners of a triangle and a site in its interior. -/
noncomputable def inner4 : Nat → ℝ × ℝ := fun i => if i = 0 then (0, 4) else if i = 1 then (-4, -4) else if i = 2 then (4, -4) else (0, 0)

theorem inner4_distinct : Distinct inner4 4 := by
  intro i hi j hj hij
  interval_cases i <;> interval_cases j <;> first | rfl | (exfalso; simp [inner4, Prod.ext_iff] at hij; try norm_num at hij)

/-- The hypotheses can be met: with these four sites the three corners have half-edges that start at infinity and the inner one has none. -/
example (poly : Poly ℝ) : ∃ s, Reach inner4 heapq 4 poly s ∧ s.queue = [] ∧ (∀ p < 3, ∃ e, FromInfinity s.d e p) ∧ ¬ ∃ e, FromInfinity s.d e 3 := by
  obtain ⟨s, _, _, hr, hend⟩ := C23_no_errors (poly := poly) inner4_distinct C45_event_queue (fuel := 40) (by norm_num)
  refine ⟨s, hr, hend, fun p hp => (C140_hull inner4_distinct (by norm_num) C45_event_queue hr hend p).mpr
    ⟨inner4 p, fun h0 => ?_, by omega, fun r hr => ?_⟩, fun hex => ?_⟩
  · interval_cases p <;> simp [inner4, Prod.ext_iff] at h0
  · interval_cases p <;> interval_cases r <;> simp [inner4] <;> norm_num
  · obtain ⟨d, hd0, _, hf⟩ := (C140_hull inner4_distinct (by norm_num) C45_event_queue hr hend 3).mp hex
    have h0 := hf 0 (by norm_num)
    have h1 := hf 1 (by norm_num)
    have h2 := hf 2 (by norm_num)
    simp [inner4] at h0 h1 h2
    exact hd0 (Prod.ext (by simp only [Prod.fst_zero]; linarith) (by simp only [Prod.snd_zero]; linarith))

end Foronoi
