import Mathlib.Tactic.IntervalCases
import Verif.Props.ExactSize

/-!
# C142: the two sites of an unbounded edge

A half-edge that starts at infinity separates two sites that follow each other on the border of the convex hull.
-/

namespace Foronoi

open scoped List
open Filter

/-- `r` follows `p` on the way round the sites, clockwise: no site is on the left of the way from `p` to `r`, and none is between them. -/
def FollowsOnHull (pts : Nat → ℝ × ℝ) (n p r : Nat) : Prop :=
  p < n ∧ r < n ∧ p ≠ r ∧ ∀ c < n, 0 ≤ rightOf (pts p) (pts r) (pts c) ∧ ∀ t : ℝ, 0 < t → t < 1 →
    pts c ≠ ((pts p).1 + t * ((pts r).1 - (pts p).1), (pts p).2 + t * ((pts r).2 - (pts p).2))

variable {pts : Nat → ℝ × ℝ} {q : PQ (QE ℝ)} {ok : List (QE ℝ) → Prop} {n : Nat} {poly : Poly ℝ} {s : St ℝ}

/-- A point of the line of two others that is not between them. -/
private theorem not_between {p r c : ℝ × ℝ} (hne : 0 < (r.1 - p.1) ^ 2 + (r.2 - p.2) ^ 2) (h0 : rightOf p r c = 0)
    (hb : ∀ t : ℝ, 0 < t → t < 1 → c ≠ (p.1 + t * (r.1 - p.1), p.2 + t * (r.2 - p.2))) : 0 ≤ (c.1 - p.1) * (c.1 - r.1) + (c.2 - p.2) * (c.2 - r.2) := by
  unfold rightOf at h0
  set W := (r.1 - p.1) ^ 2 + (r.2 - p.2) ^ 2 with hW
  set D := (c.1 - p.1) * (r.1 - p.1) + (c.2 - p.2) * (r.2 - p.2) with hD
  have e1 : W * (c.1 - p.1) = D * (r.1 - p.1) := by rw [hW, hD]; linear_combination (r.2 - p.2) * h0
  have e2 : W * (c.2 - p.2) = D * (r.2 - p.2) := by rw [hW, hD]; linear_combination (-(r.1 - p.1)) * h0
  have e3 : W * ((c.1 - p.1) * (c.1 - r.1) + (c.2 - p.2) * (c.2 - r.2)) = D * (D - W) := by
    have : W * ((c.1 - p.1) * (c.1 - r.1) + (c.2 - p.2) * (c.2 - r.2)) =
        D * ((r.1 - p.1) * (c.1 - r.1) + (r.2 - p.2) * (c.2 - r.2)) := by linear_combination (c.1 - r.1) * e1 + (c.2 - r.2) * e2
    rw [this, hW, hD]
    ring
  by_contra hneg
  push Not at hneg
  have h1 : D * (D - W) < 0 := by rw [← e3]; exact mul_neg_of_pos_of_neg hne hneg
  have h2 : 0 < D := by nlinarith
  have h3 : D < W := by nlinarith
  refine hb (D / W) (by positivity) ((div_lt_one hne).mpr h3) (Prod.ext ?_ ?_)
  · simp only; field_simp; linarith
  · simp only; field_simp; linarith

private theorem between_neg {p r c : ℝ × ℝ} (hne : 0 < (r.1 - p.1) ^ 2 + (r.2 - p.2) ^ 2) {t : ℝ} (h0 : 0 < t) (h1 : t < 1)
    (hc : c = (p.1 + t * (r.1 - p.1), p.2 + t * (r.2 - p.2))) :
    rightOf p r c = 0 ∧ (c.1 - p.1) * (c.1 - r.1) + (c.2 - p.2) * (c.2 - r.2) < 0 := by
  subst hc
  refine ⟨by unfold rightOf; ring, ?_⟩
  have e : (p.1 + t * (r.1 - p.1) - p.1) * (p.1 + t * (r.1 - p.1) - r.1) + (p.2 + t * (r.2 - p.2) - p.2) * (p.2 + t * (r.2 - p.2) - r.2) =
      (t * (t - 1)) * ((r.1 - p.1) ^ 2 + (r.2 - p.2) ^ 2) := by ring
  simp only
  rw [e]
  exact mul_neg_of_neg_of_pos (mul_neg_of_pos_of_neg h0 (by linarith)) hne

/-- C142: after the sweep there is a half-edge that starts at infinity with `p` on its side and `r` on the other one if and only if `r`
follows `p` on the border of the convex hull. -/
theorem C142_follows (hd : Distinct pts n) (hq : q.Spec evLt ok) (h : Reach pts q n poly s) (hend : s.queue = []) (p r : Nat) :
    (∃ e, FromInfinity s.d e p ∧ Separates s.d e p r) ↔ FollowsOnHull pts n p r := by
  have hpos : ∀ p r, p < n → r < n → p ≠ r → 0 < ((pts r).1 - (pts p).1) ^ 2 + ((pts r).2 - (pts p).2) ^ 2 := by
    intro p r hp hr hne
    by_contra hcon
    have h1 : ((pts r).1 - (pts p).1) ^ 2 = 0 := by nlinarith [sq_nonneg ((pts r).1 - (pts p).1), sq_nonneg ((pts r).2 - (pts p).2)]
    have h2 : ((pts r).2 - (pts p).2) ^ 2 = 0 := by nlinarith [sq_nonneg ((pts r).1 - (pts p).1), sq_nonneg ((pts r).2 - (pts p).2)]
    have h1 := pow_eq_zero_iff two_ne_zero |>.mp h1
    have h2 := pow_eq_zero_iff two_ne_zero |>.mp h2
    exact hne (hd p hp r hr (Prod.ext (by linarith) (by linarith)))
  constructor
  · rintro ⟨e, he, hs⟩
    obtain ⟨t, p', r', g1, g2, g3, g4, g5, g6, _⟩ := (C09_sides hq h).1 e he.1
    rw [he.2.1, Option.some.injEq] at g2
    subst g2
    obtain ⟨_, t', k1, k2⟩ := hs
    rw [g1, Option.some.injEq] at k1
    subst k1
    rw [g3, Option.some.injEq] at k2
    subst k2
    refine ⟨g5, g6, g4, fun c hc => ?_⟩
    have hne : pts r' - pts p ≠ 0 := fun hh => g4 (hd p g5 r' g6 (sub_eq_zero.mp hh).symm)
    obtain ⟨a1, a2⟩ := ray_side hd hq h hend he ⟨he.2.1, t, g1, g3⟩ hne hc
    refine ⟨a1, fun τ t0 t1 hcc => ?_⟩
    obtain ⟨b1, b2⟩ := between_neg (hpos p r' g5 g6 g4) t0 t1 hcc
    have := a2 b1
    linarith
  · rintro ⟨hp, hr, hpr, hall⟩
    have hW := hpos p r hp hr hpr
    set W := ((pts r).1 - (pts p).1) ^ 2 + ((pts r).2 - (pts p).2) ^ 2 with hWd
    set z : ℝ → ℝ × ℝ := fun τ => (((pts p).1 + (pts r).1) / 2 - τ * ((pts r).2 - (pts p).2), ((pts p).2 + (pts r).2) / 2 - τ * ((pts p).1 - (pts r).1)) with hz
    have hdiff : ∀ τ c, sqDist (pts c) (z τ) - sqDist (pts p) (z τ) =
        (((pts c).1 - (pts p).1) * ((pts c).1 - (pts r).1) + ((pts c).2 - (pts p).2) * ((pts c).2 - (pts r).2)) + 2 * τ * rightOf (pts p) (pts r) (pts c) := by
      intro τ c; unfold sqDist rightOf; simp only [hz]; ring
    have hev : ∀ᶠ τ : ℝ in atTop, ∀ c ∈ Finset.range n, sqDist (pts p) (z τ) ≤ sqDist (pts c) (z τ) := by
      rw [Filter.eventually_all_finset]
      intro c hc
      obtain ⟨h1, h2⟩ := hall c (Finset.mem_range.mp hc)
      rcases h1.eq_or_lt with h0 | h0
      · refine Filter.Eventually.of_forall fun τ => ?_
        have := hdiff τ c
        have h3 := not_between hW h0.symm h2
        rw [← h0] at this
        linarith
      · filter_upwards [(tendsto_id.atTop_mul_const (by linarith : 0 < 2 * rightOf (pts p) (pts r) (pts c))).eventually_ge_atTop
          (-(((pts c).1 - (pts p).1) * ((pts c).1 - (pts r).1) + ((pts c).2 - (pts p).2) * ((pts c).2 - (pts r).2)))] with τ hτ
        have := hdiff τ c
        simp only [id] at hτ
        linarith
    obtain ⟨T, hT⟩ := Filter.eventually_atTop.mp hev
    have hnp : ∀ τ, T ≤ τ → Nearest pts n p (z τ) := fun τ hτ => ⟨hp, fun c hc => hT τ hτ c (Finset.mem_range.mpr hc)⟩
    have hnr : ∀ τ, T ≤ τ → Nearest pts n r (z τ) := fun τ hτ => ⟨hr, fun c hc => by
      refine le_trans (le_of_eq ?_) ((hnp τ hτ).2 c hc)
      unfold sqDist; simp only [hz]; ring⟩
    have hzz : z T ≠ z (T + 1) := by
      intro hh
      have h1 := congrArg Prod.fst hh
      have h2 := congrArg Prod.snd hh
      simp only [hz] at h1 h2
      have h3 : (pts r).2 - (pts p).2 = 0 := by linarith
      have h4 : (pts r).1 - (pts p).1 = 0 := by linarith
      rw [hWd, h3, h4] at hW
      norm_num at hW
    have hT1 : T ≤ T + 1 := by linarith
    obtain ⟨e, he, hsep, hlen⟩ := C64_edge_exists hd hq h hend hpr hzz (hnp T le_rfl) (hnr T le_rfl) (hnp _ hT1) (hnr _ hT1)
    refine ⟨e, ⟨he, hsep.1, ?_⟩, hsep⟩
    cases ho : (s.d.he e).origin with
    | bp b => exact ⟨b, rfl⟩
    | vtx v =>
      exfalso
      obtain ⟨L, hI⟩ := reach_inv hq h
      obtain ⟨_, _, _, _, _, _, _, _, hV⟩ := hI.dinv.vts v (hI.dinv.ovt e he v ho).1
      obtain ⟨_, ev, _, hv⟩ := hV.pos
      set κ := ahead (pts p) (pts r) ev.center (z 0) with hκ
      have hτ := le_max_left T ((κ + 1) / W)
      have hτ2 := le_max_right T ((κ + 1) / W)
      have h1 := ((C64_edge_exact hd hq h hend he hsep hlen _).mpr ⟨hnp _ hτ, hnr _ hτ⟩).start v _ ho hv
      have h2 : ahead (pts p) (pts r) ev.center (z (max T ((κ + 1) / W))) = κ - max T ((κ + 1) / W) * W := by
        rw [hκ]; unfold ahead; simp only [hz, hWd]; ring
      rw [h2] at h1
      have h3 := (div_le_iff₀ hW).mp hτ2
      linarith

/-- C142: unless all sites are on one line, every site of the border of the convex hull has exactly one site that follows it, and the
half-edges that start at infinity lead from each to the next. -/
theorem C142_next_unique (hd : Distinct pts n) (hq : q.Spec evLt ok) (h : Reach pts q n poly s) (hend : s.queue = []) (hline : ¬ AllOnLine pts n)
    {p : Nat} {d : ℝ × ℝ} (hd0 : d ≠ 0) (hf : Furthest pts n d p) : ∃! r, FollowsOnHull pts n p r := by
  have hn : 2 ≤ n := by
    by_contra hn
    refine hline ⟨(1, 0), fun hh => one_ne_zero (congrArg Prod.fst hh), (pts 0).1, fun c hc => ?_⟩
    obtain rfl : c = 0 := by omega
    simp
  obtain ⟨e, he⟩ := fromInfinity_of_furthest hd hn hq h hend hd0 hf
  obtain ⟨t, p', r, g1, g2, g3, _⟩ := (C09_sides hq h).1 e he.1
  rw [he.2.1, Option.some.injEq] at g2
  subst g2
  refine ⟨r, (C142_follows hd hq h hend p r).mp ⟨e, he, he.2.1, t, g1, g3⟩, fun r' hr' => ?_⟩
  obtain ⟨f, hf1, _, t', k1, k2⟩ := (C142_follows hd hq h hend p r').mpr hr'
  obtain rfl := C141_one_ray hd hq h hend hline he hf1
  rw [g1, Option.some.injEq] at k1
  subst k1
  rw [g3, Option.some.injEq] at k2
  exact k2.symm

/-- The hypotheses can be met: from the upper corner the way leads to the lower right one, past the inner site. -/
example (poly : Poly ℝ) : ∃ s, Reach inner4 heapq 4 poly s ∧ s.queue = [] ∧ (∃ e, FromInfinity s.d e 0 ∧ Separates s.d e 0 2) ∧
    ¬ ∃ e, FromInfinity s.d e 0 ∧ Separates s.d e 0 1 := by
  obtain ⟨s, _, _, hr, hend⟩ := C23_no_errors (poly := poly) inner4_distinct C45_event_queue (fuel := 40) (by norm_num)
  refine ⟨s, hr, hend, (C142_follows inner4_distinct C45_event_queue hr hend 0 2).mpr ⟨by norm_num, by norm_num, by norm_num, fun c hc => ?_⟩, fun hex => ?_⟩
  · refine ⟨by interval_cases c <;> simp [rightOf, inner4] <;> norm_num, fun t t0 t1 => ?_⟩
    interval_cases c <;> simp only [inner4] <;> norm_num <;> intros <;> first | linarith | (intro; linarith)
  · obtain ⟨_, _, _, hall⟩ := (C142_follows inner4_distinct C45_event_queue hr hend 0 1).mp hex
    have := (hall 2 (by norm_num)).1
    simp [rightOf, inner4] at this
    norm_num at this

end Foronoi
