import Verif.Proof.Exit
import Verif.Props.Poly
import Verif.Props.Formulas
import Verif.Props.ClipExamples

/-!
# Cutting an edge at the border (C28, C29), with exact arithmetic
-/

namespace Foronoi

open Real

/-- C28: `_get_intersection_point` raises nothing.  A point it returns is on the border and on the ray; it returns `None` exactly if
no crossing of the ray with the border is within the length of the ray. -/
theorem C28_on_border (l : List (ℝ × ℝ)) (o e : ℝ × ℝ) :
    ∃ r, intersectionPoint l (some (o.1, .fin o.2)) (some (e.1, .fin e.2)) = some r ∧
      (∀ z, r = some z → OnBoundary l z ∧ OnRay o e z) ∧
      (r = none ↔ ∀ i z, ¬ Parallel o e (corner l i) (corner l (i + 1)) → OnRay o e z → OnSide l i z → sqDist o e < sqDist o z) := by
  obtain ⟨r, h, h1, _, h3⟩ := intersectionPoint_real l o e
  refine ⟨r, h, ?_, ?_⟩
  · intro z hz
    obtain ⟨i, _, h5, h6⟩ := h1 z hz
    exact ⟨⟨i, h6⟩, h5⟩
  · rw [h3]
    constructor
    · intro h i z h4 h5 h6
      exact h z ⟨i, h4, h5, h6⟩
    · rintro h z ⟨i, h4, h5, h6⟩
      exact h i z h4 h5 h6

/-- C28: if no crossing is beyond the end of the ray, the returned point is the furthest one from its start.  (Without this condition
it need not be: `C49_beyond_end`.) -/
theorem C28_furthest_partial {l : List (ℝ × ℝ)} {o e z : ℝ × ℝ} (h : intersectionPoint l (some (o.1, .fin o.2)) (some (e.1, .fin e.2)) = some (some z))
    (hin : ∀ i w, ¬ Parallel o e (corner l i) (corner l (i + 1)) → OnRay o e w → OnSide l i w → sqDist o w ≤ sqDist o e) :
    ∀ i w, ¬ Parallel o e (corner l i) (corner l (i + 1)) → OnRay o e w → OnSide l i w → sqDist o w ≤ sqDist o z := by
  obtain ⟨r, h', _, h2, _⟩ := intersectionPoint_real l o e
  have hr : r = some z := by
    have := h'.symm.trans h
    exact Option.some.inj this
  intro i w h4 h5 h6
  exact h2 z hr (fun w ⟨i, h4, h5, h6⟩ => hin i w h4 h5 h6) w ⟨i, h4, h5, h6⟩

theorem between_dsq {o e z : Pt} (h : Between o e z) : dsq o z ≤ dsq o e := by
  obtain ⟨t, h0, h1, rfl⟩ := h
  have : dsq o ((1 - t) * o.1 + t * e.1, (1 - t) * o.2 + t * e.2) = t ^ 2 * dsq o e := by unfold dsq; ring
  rw [this]
  have h2 : t ^ 2 ≤ 1 := by nlinarith
  nlinarith [dsq_nonneg o e]

/-- C28: on a convex polygon, for a ray from a strictly interior point to a point that is not strictly inside, the result is the one
point where the segment leaves the polygon. -/
theorem C28_exit {l : List (ℝ × ℝ)} (hc : ClockwiseConvex l) {o e : ℝ × ℝ} (ho : StrictlyInside l o) (he : ¬ StrictlyInside l e) :
    ∃ z, intersectionPoint l (some (o.1, .fin o.2)) (some (e.1, .fin e.2)) = some (some z) ∧ OnBoundary l z ∧ Between o e z ∧
      ∀ w, OnBoundary l w → Between o e w → w = z := by
  obtain ⟨z, h1, h2, h3⟩ := convex_exit hc ho he
  obtain ⟨r, h, g1, _, g3⟩ := intersectionPoint_real l o e
  cases r with
  | none =>
    exfalso
    have := g3.mp rfl z ((h1 z).mpr rfl)
    exact absurd this (not_lt.mpr (between_dsq h2))
  | some z' =>
    have hz : z' = z := (h1 z').mp (g1 z' rfl)
    subst hz
    refine ⟨z', h, h3, h2, ?_⟩
    rintro w ⟨i, hs⟩ ⟨t, h0, h1', rfl⟩
    rw [← h1]
    have e0 := rightOf_side hs.2
    have hA := ho i hs.1
    rw [rightOf_affine] at e0
    have ht : 0 < t := by
      rcases h0.eq_or_lt with h' | h'
      · rw [← h'] at e0; linarith
      · exact h'
    refine ⟨i, ?_, ⟨t, ht, by apply Prod.ext <;> simp <;> ring⟩, hs⟩
    rw [parallel_iff]
    intro h'
    rw [← h'] at e0
    have : rightOf (corner l i) (corner l (i + 1)) o = 0 := by linarith
    linarith

theorem dabs_real (x : ℝ) : dabs x = |x| := by
  unfold dabs
  have : (lit 0 : ℝ) = 0 := by simp [lit, rI]
  rw [this, rNeg]
  split
  · rename_i h; rw [abs_of_neg h]
  · rename_i h; rw [abs_of_nonneg (not_lt.mp h)]

/-- C29, where it holds: if the height `t` of the top of the box exceeds the diagonal of the box, then the breakpoint used for clipping
is outside the box.  (In general it is not: `C46_lost_edge`.) -/
theorem C29_box_partial {l r b t : ℝ} (hlr : l < r) (hbt : b < t) (hd : (r - l) ^ 2 + (t - b) ^ 2 < t ^ 2) {a c : ℝ × ℝ}
    (ha : l ≤ a.1 ∧ a.1 ≤ r ∧ b ≤ a.2 ∧ a.2 ≤ t) (hc : b ≤ c.2) (ho : a.2 = c.2 → a.1 < c.1) :
    ∃ poly z, boundingBox l r b t = .ok poly ∧
      getIntersection a c (Arith.sub poly.minY (dabs poly.maxY)) (some poly.maxY) = some (z.1, .fin z.2) ∧
      ¬ (l ≤ z.1 ∧ z.1 ≤ r ∧ b ≤ z.2 ∧ z.2 ≤ t) ∧ ¬ StrictlyInside poly.points z := by
  have ht0 : 0 < |t| := by
    rw [abs_pos]
    rintro rfl
    nlinarith [sq_nonneg (r - l), sq_nonneg (0 - b)]
  have hbx := box_points hlr hbt
  obtain ⟨z, hz, hp, _⟩ := C21_breakpoint (a := a) (b := c) (l := b - |t|) (by linarith [ha.2.2.1]) (by linarith) ho (some t)
  have hout : ¬ (l ≤ z.1 ∧ z.1 ≤ r ∧ b ≤ z.2 ∧ z.2 ≤ t) := by
    rintro ⟨h1, h2, h3, h4⟩
    have h5 := hp.2
    unfold sqDist at h5
    have h6 : |t| ^ 2 = t ^ 2 := sq_abs t
    have h7 : |t| ≤ z.2 - (b - |t|) := by linarith
    have h8 : t ^ 2 ≤ (z.2 - (b - |t|)) ^ 2 := by rw [← h6]; nlinarith
    have h9 : (a.1 - z.1) ^ 2 ≤ (r - l) ^ 2 := by nlinarith [ha.1, ha.2.1]
    have h10 : (a.2 - z.2) ^ 2 ≤ (t - b) ^ 2 := by nlinarith [ha.2.2.1, ha.2.2.2]
    linarith
  refine ⟨_, z, hbx, ?_, hout, ?_⟩
  · rw [dabs_real]; exact hz
  · intro hs
    apply hout
    have s0 := hs 0 (by simp)
    have s1 := hs 1 (by simp)
    have s2 := hs 2 (by simp)
    have s3 := hs 3 (by simp)
    simp only [corner, rightOf, List.length_cons, List.length_nil] at s0 s1 s2 s3
    norm_num at s0 s1 s2 s3
    refine ⟨?_, ?_, ?_, ?_⟩ <;> nlinarith

/-- A box and sites that meet the hypotheses. -/
example : ∃ poly z, boundingBox (0 : ℝ) 3 46 50 = .ok poly ∧
    getIntersection ((1, 48) : ℝ × ℝ) (2, 48) (Arith.sub poly.minY (dabs poly.maxY)) (some poly.maxY) = some (z.1, .fin z.2) ∧
    ¬ (0 ≤ z.1 ∧ z.1 ≤ 3 ∧ 46 ≤ z.2 ∧ z.2 ≤ 50) ∧ ¬ StrictlyInside poly.points z :=
  C29_box_partial (by norm_num) (by norm_num) (by norm_num) (by norm_num) (by norm_num) (by norm_num)

/-- C29, the effect on an edge: a half-edge that ends at a vertex strictly inside a convex polygon, and whose breakpoint is not strictly
inside, is cut by `_finish_edge` where it leaves the polygon; its other end stays. -/
theorem C29_cut {pts : Nat → ℝ × ℝ} {poly : Poly ℝ} (hc : ClockwiseConvex poly.points) {s : St ℝ} {e t bp : Nat} {o z : ℝ × ℝ}
    (htw : (s.d.he e).twin = some t) (hte : t ≠ e) (ho : OriginAt s.d t o) (hlt : ∀ v, StartsAt s.d t v → v < s.d.vCnt)
    (hb : (s.d.he e).origin = .bp bp)
    (hz : getIntersection (pts (s.bps bp).pair.1) (pts (s.bps bp).pair.2) (Arith.sub poly.minY (dabs poly.maxY)) (some poly.maxY) =
      some (z.1, .fin z.2))
    (hin : StrictlyInside poly.points o) (hout : ¬ StrictlyInside poly.points z) :
    ∃ s' w, finishEdge pts poly e s = .ok ((), s') ∧ OriginAt s'.d e w ∧ TargetAt s'.d e o ∧
      OnBoundary poly.points w ∧ Between o z w ∧ ∀ w', OnBoundary poly.points w' → Between o z w' → w' = w := by
  obtain ⟨w, h1, h2, h3, h4⟩ := C28_exit hc hin hout
  obtain ⟨v, hv, hp⟩ := ho
  have g1 : getOrigin pts s.bps s.d e (some (Arith.sub poly.minY (dabs poly.maxY))) (some poly.maxY) = some (some (z.1, .fin z.2)) := by
    unfold getOrigin; rw [hb]; simp only; rw [hz]; rfl
  have g2 : getOrigin pts s.bps s.d t (some (Arith.sub poly.minY (dabs poly.maxY))) (some poly.maxY) = some (some (o.1, .fin o.2)) := by
    unfold getOrigin; rw [hv]; simp only; rw [hp]; rfl
  have hw : Wp (fun _ => False) (finishEdge pts poly e) s (fun _ s' => s' = { s with d := cutD s.d e (some w), polyVerts := s.polyVerts ++ [s.d.vCnt] }) := by
    simp only [finishEdge, getOriginSt, wp_bind, wp_get, wp_liftA, wp_deref, wp_zD, wp_newV, wp_appendConn, wp_updE, wp_modify]
    refine ⟨?_, fun h => by rw [g1] at h; cases h⟩
    intro o1 ho1
    rw [g1] at ho1
    obtain rfl := Option.some.inj ho1
    left
    refine ⟨t, htw, ?_, fun h => by rw [g2] at h; cases h⟩
    intro o2 ho2
    rw [g2] at ho2
    obtain rfl := Option.some.inj ho2
    refine ⟨?_, fun h => by rw [h1] at h; cases h⟩
    intro p hp'
    rw [h1] at hp'
    obtain rfl := Option.some.inj hp'
    simp only [cutD, Function.update_self, List.nil_append, Function.update_idem, Option.map_some, rOfF, rToF]
  cases hr : finishEdge pts poly e s with
  | error err => exact (hw.err hr).elim
  | ok x =>
    obtain ⟨_, s'⟩ := x
    have hs := hw.ok hr
    subst hs
    refine ⟨_, w, rfl, ?_, ?_, h2, h3, h4⟩
    · exact ⟨s.d.vCnt, by simp [cutD], by simp [cutD]⟩
    · refine ⟨t, ?_, v, ?_, ?_⟩
      · simp [cutD, htw]
      · simp [cutD, Function.update_of_ne hte, hv]
      · have : v ≠ s.d.vCnt := (hlt v hv).ne
        simp [cutD, Function.update_of_ne this, hp]

/-- C49: the index of the furthest crossing within the length of the ray is looked up in the list of all crossings, so that the point
returned can be beyond the end of the ray: the segment from `(-20, 0)` to `(0, 0)` enters the box at `(-10, 0)`; the result is
`(10, 0)`, outside the segment. -/
theorem C49_beyond_end : intersectionPoint exBox.points (some (-20, .fin 0)) (some (0, .fin 0)) = some (some (10, 0)) ∧
    (-10, 0) ∈ borderHits (some (-20, .fin 0)) (some (0, .fin 0)) (exBox.points ++ exBox.points.take 1) := by
  constructor <;> decide +kernel

end Foronoi
