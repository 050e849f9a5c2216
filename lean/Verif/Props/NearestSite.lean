import Verif.Props.Neighbours

/-!
# C143: the nearest other site is a neighbour

Two sites with no other one in the disc whose diameter they are have neighbouring cells; so have a site and the one nearest to it.
-/

namespace Foronoi

open scoped List

variable {pts : Nat → ℝ × ℝ} {q : PQ (QE ℝ)} {ok : List (QE ℝ) → Prop} {n : Nat} {poly : Poly ℝ} {s s' : St ℝ} {fuel : Nat}

/-- No other site is in the disc of which `p` and `r` are a diameter, nor on its circle. -/
def EmptyDisc (pts : Nat → ℝ × ℝ) (n p r : Nat) : Prop :=
  ∀ c < n, c ≠ p → c ≠ r → sqDist (pts p) (along (pts p) (pts r) (1 / 2)) < sqDist (pts c) (along (pts p) (pts r) (1 / 2))

/-- `r` is a site nearest to `p` among the others. -/
def NearestOther (pts : Nat → ℝ × ℝ) (n p r : Nat) : Prop := r < n ∧ r ≠ p ∧ ∀ c < n, c ≠ p → sqDist (pts p) (pts r) ≤ sqDist (pts p) (pts c)

theorem NearestOther.emptyDisc (hd : Distinct pts n) {p r : Nat} (h : NearestOther pts n p r) : EmptyDisc pts n p r := by
  intro c hc hcp hcr
  have h1 := h.2.2 c hc hcp
  have h2 : 0 < sqDist (pts c) (pts r) := by
    by_contra hcon
    unfold sqDist at hcon
    have k1 : ((pts c).1 - (pts r).1) ^ 2 = 0 := by nlinarith [sq_nonneg ((pts c).1 - (pts r).1), sq_nonneg ((pts c).2 - (pts r).2)]
    have k2 : ((pts c).2 - (pts r).2) ^ 2 = 0 := by nlinarith [sq_nonneg ((pts c).1 - (pts r).1), sq_nonneg ((pts c).2 - (pts r).2)]
    have k1 := pow_eq_zero_iff two_ne_zero |>.mp k1
    have k2 := pow_eq_zero_iff two_ne_zero |>.mp k2
    exact hcr (hd c hc r h.1 (Prod.ext (by linarith) (by linarith)))
  unfold sqDist along at *
  simp only at *
  nlinarith

/-- The middle of two sites in whose disc there is no other site is nearest to these two only. -/
theorem EmptyDisc.middle {p r : Nat} (hp : p < n) (hr : r < n) (h : EmptyDisc pts n p r) :
    Nearest pts n p (along (pts p) (pts r) (1 / 2)) ∧ Nearest pts n r (along (pts p) (pts r) (1 / 2)) ∧
      ∀ o, Nearest pts n o (along (pts p) (pts r) (1 / 2)) → o = p ∨ o = r := by
  have e : sqDist (pts r) (along (pts p) (pts r) (1 / 2)) = sqDist (pts p) (along (pts p) (pts r) (1 / 2)) := by
    unfold sqDist along; simp only; ring
  have hle : ∀ c < n, sqDist (pts p) (along (pts p) (pts r) (1 / 2)) ≤ sqDist (pts c) (along (pts p) (pts r) (1 / 2)) := by
    intro c hc
    by_cases h1 : c = p
    · rw [h1]
    by_cases h2 : c = r
    · rw [h2, e]
    exact (h c hc h1 h2).le
  refine ⟨⟨hp, hle⟩, ⟨hr, fun c hc => e.trans_le (hle c hc)⟩, fun o ho => ?_⟩
  by_contra hcon
  push Not at hcon
  exact absurd (ho.2 p hp) (not_le.mpr (h o ho.1 hcon.1 hcon.2))

/-- C143: two sites inside the polygon, with no other site in the disc of which they are a diameter, are neighbours in the result. -/
theorem C143_empty_disc (hF : FitsCorners pts n poly) (hd : Distinct pts n) (hq : q.Spec evLt ok)
    (h : createDiagram pts q n fuel poly true (initSt poly) = .ok ((), s')) {p r : Nat} (hp : p < n) (hr : r < n) (hpr : p ≠ r)
    (hpi : StrictlyInside poly.points (pts p)) (hri : StrictlyInside poly.points (pts r)) (he : EmptyDisc pts n p r) {fuel' : Nat} (hfuel : s'.d.heCnt ≤ fuel') :
    ∃ l, borders fuel' p s'.d = .ok (l, s'.d) ∧ r ∈ across s'.d l := by
  have pos : ∀ a b, a < n → b < n → a ≠ b → 0 < sqDist (pts a) (pts b) := by
    intro a b ha hb hab
    by_contra hcon
    unfold sqDist at hcon
    have k1 : ((pts a).1 - (pts b).1) ^ 2 = 0 := by nlinarith [sq_nonneg ((pts a).1 - (pts b).1), sq_nonneg ((pts a).2 - (pts b).2)]
    have k2 : ((pts a).2 - (pts b).2) ^ 2 = 0 := by nlinarith [sq_nonneg ((pts a).1 - (pts b).1), sq_nonneg ((pts a).2 - (pts b).2)]
    have k1 := pow_eq_zero_iff two_ne_zero |>.mp k1
    have k2 := pow_eq_zero_iff two_ne_zero |>.mp k2
    exact hab (hd a ha b hb (Prod.ext (by linarith) (by linarith)))
  have self : ∀ a, sqDist (pts a) (pts a) = 0 := by intro a; unfold sqDist; ring
  have hS : Shown pts n poly p := ⟨hp, ⟨pts p, hpi, fun o ho hop => by rw [self]; exact pos o p ho hp hop⟩,
    Or.inl ⟨pts r, hri, fun hn => by have h1 := hn.2 r hr; rw [self] at h1; exact absurd h1 (not_le.mpr (pos p r hp hr hpr))⟩⟩
  obtain ⟨l, hl, _⟩ := C71_borders hF hd hq h hS hfuel
  obtain ⟨m1, m2, m3⟩ := he.middle hp hr
  refine ⟨l, hl, ((C128_across hF hd hq h hS hfuel hl).2 r).mpr ⟨hpr, _, fun i hi => ?_, m1, m2, m3⟩⟩
  have h1 := hpi i hi
  have h2 := hri i hi
  unfold rightOf along at *
  simp only at *
  nlinarith

/-- C143: a site inside the polygon has the nearest of the others among its neighbours, if that one is inside too. -/
theorem C143_nearest (hF : FitsCorners pts n poly) (hd : Distinct pts n) (hq : q.Spec evLt ok)
    (h : createDiagram pts q n fuel poly true (initSt poly) = .ok ((), s')) {p r : Nat} (hp : p < n)
    (hpi : StrictlyInside poly.points (pts p)) (hri : StrictlyInside poly.points (pts r)) (hr : NearestOther pts n p r) {fuel' : Nat} (hfuel : s'.d.heCnt ≤ fuel') :
    ∃ l, borders fuel' p s'.d = .ok (l, s'.d) ∧ r ∈ across s'.d l :=
  C143_empty_disc hF hd hq h hp hr.1 hr.2.1.symm hpi hri (hr.emptyDisc hd) hfuel

/-- The hypotheses can be met: four sites on a circle, (0, 101) and (1, 100) are nearest to each other. -/
example : ∃ poly s' l, boundingBox (-3 : ℝ) 4 98 106 = .ok poly ∧ createDiagram square4 heapq 4 30 poly true (initSt poly) = .ok ((), s') ∧
    borders s'.d.heCnt 0 s'.d = .ok (l, s'.d) ∧ 1 ∈ across s'.d l := by
  have hp := box_points (show (-3 : ℝ) < 4 by norm_num) (show (98 : ℝ) < 106 by norm_num)
  have hB := square4_border hp
  obtain ⟨_, s', _, h, _⟩ := C74_cleanup_succeeds (fuel := 30) hB.toFitsCorners square4_distinct C45_event_queue (by norm_num) (by norm_num)
  obtain ⟨l, hl, h1⟩ := C143_nearest (p := 0) (r := 1) hB.toFitsCorners square4_distinct C45_event_queue h (by norm_num)
    ((box_inside (by norm_num) (by norm_num) _).mpr (by norm_num [square4])) ((box_inside (by norm_num) (by norm_num) _).mpr (by norm_num [square4]))
    ⟨by norm_num, by norm_num, fun c hc hc0 => by
      rcases (by omega : c = 1 ∨ c = 2 ∨ c = 3) with rfl | rfl | rfl <;> norm_num [square4, sqDist]⟩ le_rfl
  exact ⟨_, s', l, hp, h, hl, h1⟩

end Foronoi
