import Verif.Proof.Corners
import Verif.Props.CleanTotal

/-!
# C94: the constructor of a polygon; C95, C96: inputs the theorems about the result apply to
-/

namespace Foronoi

open scoped List

variable {pts : Nat → ℝ × ℝ} {q : PQ (QE ℝ)} {ok : List (QE ℝ) → Prop} {n fuel : Nat} {poly : Poly ℝ} {l m : List Pt} {z : Pt}

theorem BoxOf.perm {l' : List Pt} (h : BoxOf l poly) (hl : l ~ l') : BoxOf l' poly := by
  obtain ⟨⟨a, ha, ea⟩, ⟨b, hb, eb⟩, ⟨c, hc, ec⟩, ⟨d, hd, ed⟩, h5, h6⟩ := h
  exact ⟨⟨a, hl.mem_iff.mp ha, ea⟩, ⟨b, hl.mem_iff.mp hb, eb⟩, ⟨c, hl.mem_iff.mp hc, ec⟩, ⟨d, hl.mem_iff.mp hd, ed⟩,
    fun p hp => h5 p (hl.mem_iff.mpr hp), h6⟩

theorem BoxOf.diagonal_iff (h : BoxOf m poly) {a b : Pt} (ha : a ∈ m) (hb : b ∈ m) : BoxDiagonal m a b ↔ Diagonal poly a b := by
  obtain ⟨L, hL, eL⟩ := h.left
  obtain ⟨R, hR, eR⟩ := h.right
  obtain ⟨B, hB, eB⟩ := h.bottom
  obtain ⟨T, hT, eT⟩ := h.top
  obtain ⟨a1, a2, a3, a4⟩ := h.inside a ha
  obtain ⟨b1, b2, b3, b4⟩ := h.inside b hb
  constructor
  · rintro ⟨h1, h2⟩
    have k1 := (h1 L hL).1
    have k2 := (h1 R hR).2
    have k3 := (h2 B hB).1
    have k4 := (h2 T hT).2
    constructor
    · rcases le_total a.1 b.1 with hab | hab
      · rw [min_eq_left hab] at k1
        rw [max_eq_right hab] at k2
        left; constructor <;> linarith
      · rw [min_eq_right hab] at k1
        rw [max_eq_left hab] at k2
        right; constructor <;> linarith
    · rcases le_total a.2 b.2 with hab | hab
      · rw [min_eq_left hab] at k3
        rw [max_eq_right hab] at k4
        left; constructor <;> linarith
      · rw [min_eq_right hab] at k3
        rw [max_eq_left hab] at k4
        right; constructor <;> linarith
  · rintro ⟨h1, h2⟩
    refine ⟨fun p hp => ?_, fun p hp => ?_⟩
    · obtain ⟨p1, p2, _, _⟩ := h.inside p hp
      rcases h1 with ⟨e1, e2⟩ | ⟨e1, e2⟩ <;> rw [e1, e2]
      · exact ⟨(min_le_left _ _).trans p1, p2.trans (le_max_right _ _)⟩
      · exact ⟨(min_le_right _ _).trans p1, p2.trans (le_max_left _ _)⟩
    · obtain ⟨_, _, p1, p2⟩ := h.inside p hp
      rcases h2 with ⟨e1, e2⟩ | ⟨e1, e2⟩ <;> rw [e1, e2]
      · exact ⟨(min_le_left _ _).trans p1, p2.trans (le_max_right _ _)⟩
      · exact ⟨(min_le_right _ _).trans p1, p2.trans (le_max_left _ _)⟩

theorem rotate_side {r : Nat} (hm : 0 < m.length) (P : Pt → Pt → Prop) :
    (∀ i < (m.rotate r).length, P (corner (m.rotate r) i) (corner (m.rotate r) (i + 1))) ↔ ∀ i < m.length, P (corner m i) (corner m (i + 1)) := by
  have hlen : (m.rotate r).length = m.length := List.length_rotate ..
  have all : ∀ {l : List Pt}, 0 < l.length → (∀ i < l.length, P (corner l i) (corner l (i + 1))) → ∀ i, P (corner l i) (corner l (i + 1)) := by
    intro l hl h i
    have := h (i % l.length) (Nat.mod_lt _ hl)
    rw [corner_mod, ← corner_mod l (_ + 1), Nat.mod_add_mod, corner_mod] at this
    exact this
  constructor
  · intro h i _
    have h' := all (by rw [hlen]; exact hm) h (i + (m.length - 1) * r)
    rw [corner_rotate m r _ hm, corner_rotate m r _ hm] at h'
    have e : ∀ j, corner m (j + m.length * r) = corner m j := by
      intro j
      rw [← corner_mod m (j + _), Nat.add_mul_mod_self_left, corner_mod]
    have e1 : i + (m.length - 1) * r + r = i + m.length * r := by
      obtain ⟨k, hk⟩ : ∃ k, m.length = k + 1 := ⟨m.length - 1, by omega⟩
      rw [hk]
      simp only [Nat.add_sub_cancel]
      ring
    rw [show i + (m.length - 1) * r + 1 + r = (i + (m.length - 1) * r + r) + 1 by ring, e1, e, show i + m.length * r + 1 = (i + 1) + m.length * r by ring, e] at h'
    exact h'
  · intro h i _
    have h' := all hm h (i + r)
    rw [corner_rotate m r _ hm, corner_rotate m r _ hm, show i + 1 + r = i + r + 1 by ring]
    exact h'

/-- C94: the constructor puts the corners of a convex polygon into clockwise order, in whatever order they are given. -/
theorem C94_clockwise (hm : ClockwiseConvex m) (hl : l ~ m) : ∃ poly, mkPoly l = .ok poly ∧ (∃ r, poly.points = m.rotate r) ∧
    ClockwiseConvex poly.points ∧ BoxOf m poly := by
  have h3 := hm.1
  have hne : l ≠ [] := by
    rintro rfl
    have := hl.length_eq
    simp only [List.length_nil] at this
    omega
  obtain ⟨poly, hp, hB⟩ := mkPoly_box hne
  obtain ⟨h1, h2⟩ := mkPoly_ok hp
  have hB' := hB.perm hl
  obtain ⟨s1, s2⟩ := hB'.size hm
  obtain ⟨B, hBm, eB⟩ := hB'.bottom
  obtain ⟨r, hr⟩ := sorted_rotated hm (hB'.closed hm) (hB'.not_corner hm) ⟨B, hBm, by rw [eB, hB'.center]; simp only; linarith⟩ (h1.trans hl) h2
  exact ⟨poly, hp, ⟨r, hr⟩, by rw [hr]; exact hm.rotate r, hB'⟩

/-- C94: the centre is in the polygon, and strictly inside unless a side is a diagonal of the box around the polygon. -/
theorem C94_center (hm : ClockwiseConvex m) (hl : l ~ m) (hp : mkPoly l = .ok poly) : InClosed m poly.center ∧
    (StrictlyInside m poly.center ↔ ∀ i < m.length, ¬ BoxDiagonal m (corner m i) (corner m (i + 1))) := by
  have h3 := hm.1
  obtain ⟨poly', hp', _, _, hB⟩ := C94_clockwise hm hl
  rw [hp, Except.ok.injEq] at hp'
  subst hp'
  refine ⟨hB.closed hm, fun hs i hi hD => ?_, fun hd => hB.inside_center hm fun i hi hD =>
    hd i hi ((hB.diagonal_iff (corner_mem (by omega)) (corner_mem (by omega))).mpr hD)⟩
  rw [hB.diagonal_iff (corner_mem (by omega)) (corner_mem (by omega))] at hD
  have := hs i hi
  rw [hB.center] at this
  obtain ⟨h1, h2⟩ := hD
  unfold rightOf at this
  rcases h1 with ⟨e1, e2⟩ | ⟨e1, e2⟩ <;> rcases h2 with ⟨e3, e4⟩ | ⟨e3, e4⟩ <;> rw [e1, e2, e3, e4] at this <;> linarith

/-- C94: the polygon is in the box, which is the smallest one. -/
theorem C94_box (hm : ClockwiseConvex m) (hl : l ~ m) (hp : mkPoly l = .ok poly) : BoxOf m poly ∧ poly.minX < poly.maxX ∧ poly.minY < poly.maxY ∧
    ∀ z, InClosed m z → poly.minX ≤ z.1 ∧ z.1 ≤ poly.maxX ∧ poly.minY ≤ z.2 ∧ z.2 ≤ poly.maxY := by
  obtain ⟨poly', hp', _, _, hB⟩ := C94_clockwise hm hl
  rw [hp, Except.ok.injEq] at hp'
  subst hp'
  exact ⟨hB, (hB.size hm).1, (hB.size hm).2, fun z hz => hB.bounds hm hz⟩

theorem closed_rotate {r : Nat} (hm : 0 < m.length) : InClosed (m.rotate r) z ↔ InClosed m z :=
  rotate_side hm fun a b => 0 ≤ rightOf a b z

theorem boundary_rotate {r : Nat} (hm : 0 < m.length) : OnBoundary (m.rotate r) z ↔ OnBoundary m z := by
  have h := rotate_side (r := r) hm fun a b => ¬ Between a b z
  unfold OnBoundary OnSide
  rw [← not_iff_not]
  push Not
  exact h

theorem inside_rotate {r : Nat} (hm : 0 < m.length) : StrictlyInside (m.rotate r) z ↔ StrictlyInside m z :=
  rotate_side hm fun a b => 0 < rightOf a b z

/-- C95: sites in general position, with the conditions on the heights as they are needed. -/
theorem C95_fits_heights (hG : GeneralPosition pts n m) (hl : l ~ m) (hp : mkPoly l = .ok poly) (ht0 : poly.maxY ≠ 0)
    (hlow : ∀ p < n, clipLine poly < (pts p).2)
    (hverts : ∀ p r z, p ≠ r → FarBorder pts n p r → VoronoiVertex pts n z → Nearest pts n p z → Nearest pts n r z →
      (clipLine poly < z.2 ∧ sqDist (pts p) z < (z.2 - clipLine poly) ^ 2) ∨
      ∀ w, InClosed m w → sqDist (pts p) w = sqDist (pts r) w → sqDist (pts p) w < (w.2 - clipLine poly) ^ 2)
    (hcover : ∀ z, InClosed m z → clipLine poly < z.2 ∧ ∃ p < n, sqDist (pts p) z < (z.2 - clipLine poly) ^ 2) :
    FitsCorners pts n poly ∧ (AllMeet pts n m → FitsBorder pts n poly) := by
  have hm := hG.convex
  have h3 := hm.1
  obtain ⟨poly', hp', ⟨r, hr⟩, hconv, hB⟩ := C94_clockwise hm hl
  rw [hp, Except.ok.injEq] at hp'
  subst hp'
  obtain ⟨s1, s2⟩ := hB.size hm
  have hcl : ∀ z, InClosed poly.points z ↔ InClosed m z := fun z => by rw [hr]; exact closed_rotate (by omega)
  have hbd : ∀ z, OnBoundary poly.points z ↔ OnBoundary m z := fun z => by rw [hr]; exact boundary_rotate (by omega)
  have hin : ∀ z, StrictlyInside poly.points z ↔ StrictlyInside m z := fun z => by rw [hr]; exact inside_rotate (by omega)
  suffices hC : FitsCorners pts n poly from ⟨hC, fun hM => ⟨hC, fun p hp => by
    obtain ⟨c, h1, h2⟩ := hM p hp
    exact ⟨c, (hin c).mpr h1, h2⟩⟩⟩
  refine ⟨⟨hconv, fun z hz => (hB.bounds hm ((hcl z).mp hz)).2.2.2, hlow, fun p r' z hne hz h1 h2 => ?_, fun z hz => ?_, ?_, ?_, ?_⟩, ⟨l, hp⟩, ?_, ?_⟩
  · obtain ⟨u, u1, u2⟩ := hG.touch p r' z hne ((hbd z).mp hz) h1 h2
    exact ⟨u, (hin u).mpr u1, u2⟩
  · rw [hbd]
    exact hG.border z hz
  · intro p r' z hne hf hv h1 h2
    simp only [hcl]
    exact hverts p r' z hne hf hv h1 h2
  · intro z hz
    exact hcover z ((hcl z).mp hz)
  · intro p hp r' hr' hpr
    refine ⟨ht0, fun z hz h1 h2 => Or.inl ?_⟩
    obtain ⟨c, hc, hzc⟩ := hG.top p hp r' hr' hpr z hz h1 h2
    exact hzc.trans (hB.inside c hc).2.2.2
  · have h1 := (C94_center hm hl hp).2.mpr hG.diagonal
    rw [hr]
    exact (rotate_side (by omega) fun a b => 0 < rightOf a b poly.center).mpr h1
  · intro p r' h1 h2
    have hside := (rotate_side (r := r) (by omega) fun a b => LeftSide m a b → ∀ p r, Nearest pts n p b → Nearest pts n r b → p = r).mpr hG.first
    rw [← hr] at hside
    have hlen : 0 < poly.points.length := by have := hconv.1; omega
    have hw : corner poly.points (poly.points.length - 1 + 1) = corner poly.points 0 := by
      rw [Nat.sub_add_cancel hlen, ← corner_mod, Nat.mod_self]
    have hs := hside (poly.points.length - 1) (by omega)
    rw [hw] at hs
    refine hs ?_ p r' h1 h2
    obtain ⟨lo, m1, e1⟩ := hB.bottom
    obtain ⟨hi, m2, e2⟩ := hB.top
    have hcy : poly.center.2 = (lo.2 + hi.2) / 2 := by rw [hB.center, e1, e2]; ring
    have hk : KeySorted poly.center poly.points := (mkPoly_ok hp).2
    have hidx : ∀ c ∈ m, ∃ i < poly.points.length, corner poly.points i = c := by
      intro c hc
      have : c ∈ poly.points := by rw [hr]; exact List.mem_rotate.mpr hc
      obtain ⟨i, hi, e⟩ := List.getElem_of_mem this
      exact ⟨i, hi, by rw [corner_eq hi, e]⟩
    refine ⟨lo, m1, hi, m2, fun c hc => ?_, ?_, ?_⟩
    · have := hB.inside c hc
      rw [e1, e2]
      exact this.2.2
    · rw [← hcy]
      refine key_height ?_
      obtain ⟨i, hi, ei⟩ := hidx lo m1
      have h1 : 180 < orderKey poly.center (corner poly.points i) := by
        by_contra hh
        have := key_height' (not_lt.mp hh)
        rw [ei, hB.center, e1] at this
        simp only at this
        linarith
      rcases Nat.lt_or_ge i (poly.points.length - 1) with h | h
      · exact h1.trans_le (hk.le (by omega) (by omega))
      · rw [show poly.points.length - 1 = i by omega]
        exact h1
    · rw [← hcy]
      refine key_height' ?_
      obtain ⟨i, hi, ei⟩ := hidx hi m2
      have h1 : orderKey poly.center (corner poly.points i) ≤ 180 := by
        by_contra hh
        have := key_height (not_le.mp hh)
        rw [ei, hB.center, e2] at this
        simp only at this
        linarith
      rcases Nat.eq_zero_or_pos i with rfl | h
      · exact h1
      · exact (hk.le (Nat.zero_le i) (by assumption)).trans h1

/-- C95: sites in general position, and a polygon whose top is higher above the axis than any of its points is away from any site. -/
theorem C95_fits (hG : GeneralPosition pts n m) (hn : 0 < n) (hl : l ~ m) (hp : mkPoly l = .ok poly)
    (hhigh : ∀ p < n, ∀ z, InClosed m z → sqDist (pts p) z < poly.maxY ^ 2) : FitsCorners pts n poly ∧ (AllMeet pts n m → FitsBorder pts n poly) := by
  have hm := hG.convex
  have h3 := hm.1
  obtain ⟨poly', hp', ⟨r, hr⟩, hconv, hB⟩ := C94_clockwise hm hl
  rw [hp, Except.ok.injEq] at hp'
  subst hp'
  obtain ⟨s1, s2⟩ := hB.size hm
  obtain ⟨lo, hlo, elo⟩ := hB.bottom
  have hlc := corners_closed hm hlo
  have ht0 : poly.maxY ≠ 0 := by
    intro h0
    have := hhigh 0 hn lo hlc
    rw [h0] at this
    unfold sqDist at this
    nlinarith [sq_nonneg ((pts 0).1 - lo.1), sq_nonneg ((pts 0).2 - lo.2)]
  have ht1 := abs_pos.mpr ht0
  have hfar : ∀ z : ℝ × ℝ, InClosed m z → ∀ p < n, clipLine poly < z.2 ∧ sqDist (pts p) z < (z.2 - clipLine poly) ^ 2 := by
    intro z hz p hp
    obtain ⟨h1, h2, h3, h4⟩ := hB.bounds hm hz
    have g := hhigh p hp z hz
    unfold clipLine
    refine ⟨by linarith, ?_⟩
    have h6 : |poly.maxY| ^ 2 = poly.maxY ^ 2 := sq_abs _
    have h7 : |poly.maxY| ≤ z.2 - (poly.minY - |poly.maxY|) := by linarith
    have h8 : poly.maxY ^ 2 ≤ (z.2 - (poly.minY - |poly.maxY|)) ^ 2 := by rw [← h6]; nlinarith
    linarith
  refine C95_fits_heights hG hl hp ht0 (fun p hp => ?_) (fun p _ _ _ _ _ hp _ => Or.inr fun w hw _ => (hfar w hw p hp.1).2) fun z hz => ?_
  · have g := hhigh p hp lo hlc
    unfold sqDist at g
    have : |(pts p).2 - lo.2| < |poly.maxY| := sq_lt_sq.mp (by nlinarith [sq_nonneg ((pts p).1 - lo.1)])
    have := (abs_lt.mp this).1
    unfold clipLine
    linarith
  · have h1 := hfar z hz 0 hn
    exact ⟨h1.1, 0, hn, h1.2⟩

/-! ### moving up -/

theorem up_up (h : ℝ) (z : Pt) : up h (up (-h) z) = z := Prod.ext rfl (by simp [up])

theorem up_down (h : ℝ) (z : Pt) : up (-h) (up h z) = z := Prod.ext rfl (by simp [up])

theorem sqDist_up (h : ℝ) (a b : Pt) : sqDist (up h a) (up h b) = sqDist a b := by unfold sqDist up; ring

theorem rightOf_up (h : ℝ) (a b c : Pt) : rightOf (up h a) (up h b) (up h c) = rightOf a b c := by unfold rightOf up; ring

theorem corner_up (h : ℝ) (hm : 0 < m.length) (i : Nat) : corner (m.map (up h)) i = up h (corner m i) := by
  have hlen : (m.map (up h)).length = m.length := List.length_map ..
  rw [← corner_mod, ← corner_mod m, hlen, corner_eq (by rw [hlen]; exact Nat.mod_lt _ hm), corner_eq (Nat.mod_lt _ hm), List.getElem_map]

theorem nearest_up (h : ℝ) {p : Nat} : Nearest (fun p => up h (pts p)) n p (up h z) ↔ Nearest pts n p z := by
  unfold Nearest
  simp only [sqDist_up]

theorem vertex_up (h : ℝ) : VoronoiVertex (fun p => up h (pts p)) n (up h z) ↔ VoronoiVertex pts n z := by
  unfold VoronoiVertex
  simp only [nearest_up]

theorem closed_up (h : ℝ) (hm : 0 < m.length) : InClosed (m.map (up h)) (up h z) ↔ InClosed m z := by
  unfold InClosed
  simp only [corner_up h hm, rightOf_up, List.length_map]

theorem inside_up (h : ℝ) (hm : 0 < m.length) : StrictlyInside (m.map (up h)) (up h z) ↔ StrictlyInside m z := by
  unfold StrictlyInside
  simp only [corner_up h hm, rightOf_up, List.length_map]

theorem between_up (h : ℝ) {a b : Pt} : Between (up h a) (up h b) (up h z) ↔ Between a b z := by
  unfold Between
  refine exists_congr fun t => and_congr_right fun _ => and_congr_right fun _ => ?_
  simp only [up, Prod.ext_iff]
  refine and_congr_right fun _ => ⟨fun e => by linarith, fun e => by linarith⟩

theorem boundary_up (h : ℝ) (hm : 0 < m.length) : OnBoundary (m.map (up h)) (up h z) ↔ OnBoundary m z := by
  unfold OnBoundary OnSide
  simp only [corner_up h hm, between_up, List.length_map]

theorem convex_up (h : ℝ) (hm : ClockwiseConvex m) : ClockwiseConvex (m.map (up h)) := by
  obtain ⟨h3, hc⟩ := hm
  unfold ClockwiseConvex
  simp only [corner_up h (show 0 < m.length by omega), rightOf_up, List.length_map]
  exact ⟨h3, hc⟩

/-- Where all cells have a part in the interior, all bisectors between two cells pass through it. -/
theorem AllMeet.touch (hM : AllMeet pts n m) : ∀ p r z, p ≠ r → OnBoundary m z → Nearest pts n p z → Nearest pts n r z →
    ∃ u, StrictlyInside m u ∧ sqDist (pts p) u = sqDist (pts r) u := by
  intro p r z hne _ h1 h2
  obtain ⟨c, c1, c2⟩ := hM p h1.1
  obtain ⟨d, d1, d2⟩ := hM r h2.1
  exact touch_of_meets c1 d1 (c2 r h2.1 hne.symm) (d2 p h1.1 hne)

theorem AllMeet.moved (hM : AllMeet pts n m) (hm : 0 < m.length) (h : ℝ) : AllMeet (fun p => up h (pts p)) n (m.map (up h)) := by
  intro p hp
  obtain ⟨c, h1, h2⟩ := hM p hp
  refine ⟨up h c, (inside_up h hm).mpr h1, fun o ho hne => ?_⟩
  have := h2 o ho hne
  unfold sqDist up at *
  simp only [add_sub_add_right_eq_sub]
  exact this

/-- C96: general position does not depend on the height. -/
theorem C96_moved (hG : GeneralPosition pts n m) (h : ℝ) : GeneralPosition (fun p => up h (pts p)) n (m.map (up h)) := by
  have hm := hG.convex
  have h3 := hm.1
  have hpos : 0 < m.length := by omega
  refine ⟨convex_up h hm, ?_, ?_, ?_, ?_, ?_⟩
  · intro i hi hD
    rw [List.length_map] at hi
    rw [corner_up h hpos, corner_up h hpos] at hD
    refine hG.diagonal i hi ⟨fun p hp => ?_, fun p hp => ?_⟩
    · have := hD.1 _ (List.mem_map_of_mem (f := up h) hp)
      exact this
    · have := hD.2 _ (List.mem_map_of_mem (f := up h) hp)
      simp only [up, min_add_add_right, max_add_add_right] at this
      constructor <;> linarith
  · intro p r z hne hz h1 h2
    rw [← up_up h z] at hz h1 h2
    obtain ⟨u, u1, u2⟩ := hG.touch p r _ hne ((boundary_up h hpos).mp hz) ((nearest_up h).mp h1) ((nearest_up h).mp h2)
    refine ⟨up h u, (inside_up h hpos).mpr u1, ?_⟩
    unfold sqDist up at *
    simp only [add_sub_add_right_eq_sub]
    exact u2
  · intro z hz
    rw [← up_up h z] at hz ⊢
    rw [boundary_up h hpos]
    exact hG.border _ ((vertex_up h).mp hz)
  · intro i hi hL p r h1 h2
    rw [List.length_map] at hi
    rw [corner_up h hpos, corner_up h hpos] at hL
    rw [corner_up h hpos] at h1 h2
    obtain ⟨lo, l1, hi', l2, l3, l4, l5⟩ := hL
    obtain ⟨lo, m1, rfl⟩ := List.mem_map.mp l1
    obtain ⟨hi', m2, rfl⟩ := List.mem_map.mp l2
    refine hG.first i hi ⟨lo, m1, hi', m2, fun c hc => ?_, ?_, ?_⟩ p r ((nearest_up h).mp h1) ((nearest_up h).mp h2)
    · have := l3 _ (List.mem_map_of_mem (f := up h) hc)
      simp only [up] at this
      constructor <;> linarith
    · simp only [up] at l4
      linarith
    · simp only [up] at l5
      linarith
  · intro p hp r hr hT z hz h1 h2
    rw [← up_up h z] at hz h1 h2 ⊢
    have hT' : TopRowPair pts n p r := by
      obtain ⟨t1, t2, t3⟩ := hT
      simp only [up] at t1 t2
      refine ⟨by linarith, t2, fun c hc => ?_⟩
      have := t3 c hc
      simp only [up] at this
      rcases this with h | ⟨h, h'⟩
      · left; linarith
      · right; exact ⟨by linarith, h'⟩
    obtain ⟨c, hc, hcz⟩ := hG.top p hp r hr hT' _ ((vertex_up h).mp hz) ((nearest_up h).mp h1) ((nearest_up h).mp h2)
    refine ⟨up h c, List.mem_map_of_mem hc, ?_⟩
    simp only [up] at hcz ⊢
    linarith

/-- C95: with sites in the polygon it is enough that the top is higher above the axis than the box around the polygon is large. -/
theorem C95_fits_inside (hG : GeneralPosition pts n m) (hn : 0 < n) (hl : l ~ m) (hp : mkPoly l = .ok poly) (hs : ∀ p < n, InClosed m (pts p))
    (hhigh : (poly.maxX - poly.minX) ^ 2 + (poly.maxY - poly.minY) ^ 2 < poly.maxY ^ 2) :
    FitsCorners pts n poly ∧ (AllMeet pts n m → FitsBorder pts n poly) := by
  have hm := hG.convex
  refine C95_fits hG hn hl hp fun p hpn z hz => ?_
  obtain ⟨poly', hp', _, _, hB⟩ := C94_clockwise hm hl
  rw [hp, Except.ok.injEq] at hp'
  subst hp'
  obtain ⟨h1, h2, h3, h4⟩ := hB.bounds hm hz
  obtain ⟨g1, g2, g3, g4⟩ := hB.bounds hm (hs p hpn)
  have h9 : ((pts p).1 - z.1) ^ 2 ≤ (poly.maxX - poly.minX) ^ 2 := by nlinarith
  have h10 : ((pts p).2 - z.2) ^ 2 ≤ (poly.maxY - poly.minY) ^ 2 := by nlinarith
  unfold sqDist
  linarith

theorem sites_bounded (pts : Nat → Pt) (n : Nat) : ∃ M : ℝ, 0 ≤ M ∧ ∀ p < n, |(pts p).1| ≤ M ∧ |(pts p).2| ≤ M := by
  induction n with
  | zero => exact ⟨0, le_rfl, fun p hp => absurd hp (by omega)⟩
  | succ n ih =>
    obtain ⟨M, h0, h⟩ := ih
    refine ⟨M + |(pts n).1| + |(pts n).2|, by positivity, fun p hp => ?_⟩
    have a1 := abs_nonneg (pts n).1
    have a2 := abs_nonneg (pts n).2
    rcases Nat.lt_succ_iff_lt_or_eq.mp hp with hp | rfl
    · obtain ⟨h1, h2⟩ := h p hp
      exact ⟨by linarith, by linarith⟩
    · exact ⟨by linarith, by linarith⟩

/-- C96: moved up far enough, every input in general position fits. -/
theorem C96_fits (hG : GeneralPosition pts n m) (hn : 0 < n) (hl : l ~ m) : ∃ H, ∀ h ≥ H, ∃ poly, mkPoly (l.map (up h)) = .ok poly ∧
    FitsCorners (fun p => up h (pts p)) n poly ∧ (AllMeet pts n m → FitsBorder (fun p => up h (pts p)) n poly) := by
  have hm := hG.convex
  have h3 := hm.1
  have hpos : 0 < m.length := by omega
  obtain ⟨poly0, _, _, _, hB⟩ := C94_clockwise hm hl
  obtain ⟨M, M0, hM⟩ := sites_bounded pts n
  obtain ⟨K, hK⟩ : ∃ K, K = |poly0.minX| + |poly0.maxX| + |poly0.minY| + |poly0.maxY| := ⟨_, rfl⟩
  have k1 := abs_nonneg poly0.minX
  have k2 := abs_nonneg poly0.maxX
  have k3 := abs_nonneg poly0.minY
  have k4 := abs_nonneg poly0.maxY
  refine ⟨2 * (M + K) + 1 - poly0.maxY, fun h hh => ?_⟩
  obtain ⟨poly, hp, _, _, hB'⟩ := C94_clockwise (convex_up h hm) (hl.map (up h))
  suffices hh : ∀ p < n, ∀ z, InClosed (m.map (up h)) z → sqDist (up h (pts p)) z < poly.maxY ^ 2 by
    obtain ⟨g1, g2⟩ := C95_fits (C96_moved hG h) hn (hl.map (up h)) hp hh
    exact ⟨poly, hp, g1, fun hM => g2 (hM.moved hpos h)⟩
  intro p hp z hz
  rw [← up_up h z] at hz ⊢
  rw [closed_up h hpos] at hz
  obtain ⟨w, hw⟩ : ∃ w, w = up (-h) z := ⟨_, rfl⟩
  rw [← hw] at hz ⊢
  obtain ⟨b1, b2, b3, b4⟩ := hB.bounds hm hz
  obtain ⟨T, hT, eT⟩ := hB.top
  have e4 : poly0.maxY + h ≤ poly.maxY := by
    have := (hB'.inside _ (List.mem_map_of_mem (f := up h) hT)).2.2.2
    simp only [up] at this
    linarith
  obtain ⟨m1, m2⟩ := hM p hp
  have hX : |(pts p).1 - w.1| ≤ M + K := by
    have := abs_sub (pts p).1 w.1
    have : |w.1| ≤ K := abs_le.mpr ⟨by linarith [neg_abs_le poly0.minX], by linarith [le_abs_self poly0.maxX]⟩
    linarith
  have hY : |(pts p).2 - w.2| ≤ M + K := by
    have := abs_sub (pts p).2 w.2
    have : |w.2| ≤ K := abs_le.mpr ⟨by linarith [neg_abs_le poly0.minY], by linarith [le_abs_self poly0.maxY]⟩
    linarith
  have hMK : 0 ≤ M + K := by rw [hK]; linarith
  have q1 : ((pts p).1 - w.1) ^ 2 ≤ (M + K) ^ 2 := sq_le_sq.mpr (by rwa [abs_of_nonneg hMK])
  have q2 : ((pts p).2 - w.2) ^ 2 ≤ (M + K) ^ 2 := sq_le_sq.mpr (by rwa [abs_of_nonneg hMK])
  unfold sqDist up
  simp only [add_sub_add_right_eq_sub]
  nlinarith

/-- C96: moved up far enough, the default run succeeds on every input in general position, and the areas it yields are those of the Voronoi
cells of the input before moving. -/
theorem C96_areas (hG : GeneralPosition pts n m) (hM : AllMeet pts n m) (hd : Distinct pts n) (hn : 0 < n) (hl : l ~ m) (hq : q.Spec evLt ok) :
    ∃ H, ∀ h ≥ H, ∃ poly, mkPoly (l.map (up h)) = .ok poly ∧ ∀ fuel > 7 * n, ∃ s', createDiagram (fun p => up h (pts p)) q n fuel poly true (initSt poly) = .ok ((), s') ∧
      ∀ p < n, ∃ a, area s'.d.heCnt p s'.d = .ok (a, s'.d) ∧ 0 < a ∧ MeasureTheory.volume {z | InClosed m z ∧ Nearest pts n p z} = ENNReal.ofReal a := by
  have h3 := hG.convex.1
  obtain ⟨H, hH⟩ := C96_fits hG hn hl
  refine ⟨H, fun h hh => ?_⟩
  obtain ⟨poly, hp, hF⟩ := hH h hh
  refine ⟨poly, hp, fun fuel hf => ?_⟩
  have hd' : Distinct (fun p => up h (pts p)) n := by
    intro p hp r hr e
    refine hd p hp r hr ?_
    rw [← up_down h (pts p), ← up_down h (pts r)]
    exact congrArg _ e
  obtain ⟨s', hs', hA⟩ := C74_default_areas (hF.2 hM) hd' hq hn hf
  refine ⟨s', hs', fun p hp' => ?_⟩
  obtain ⟨a, a1, a2, a3⟩ := hA p hp'
  refine ⟨a, a1, a2, ?_⟩
  rw [← a3]
  obtain ⟨poly', hp2, ⟨r, hr⟩, _, _⟩ := C94_clockwise (convex_up h hG.convex) (hl.map (up h))
  rw [hp, Except.ok.injEq] at hp2
  subst hp2
  have e : {z | InClosed m z ∧ Nearest pts n p z} = (fun z : Pt => z + ((0, h) : Pt)) ⁻¹' {z | InClosed poly.points z ∧ Nearest (fun p => up h (pts p)) n p z} := by
    ext z
    have ez : z + ((0, h) : Pt) = up h z := Prod.ext (by simp [up]) (by simp [up])
    simp only [Set.mem_setOf_eq, Set.mem_preimage, ez, nearest_up, hr]
    rw [closed_rotate (by rw [List.length_map]; omega), closed_up h (by omega)]
  haveI : (MeasureTheory.volume : MeasureTheory.Measure Pt).IsAddLeftInvariant :=
    inferInstanceAs (((MeasureTheory.volume : MeasureTheory.Measure ℝ).prod (MeasureTheory.volume : MeasureTheory.Measure ℝ)).IsAddLeftInvariant)
  rw [e]
  exact (MeasureTheory.measurePreserving_add_right MeasureTheory.volume ((0, h) : Pt)).measure_preimage_emb
    (MeasurableEquiv.addRight ((0, h) : Pt)).measurableEmbedding _

/-! ### an example: three sites in a triangle, the corners of which are not given in clockwise order -/

noncomputable def low3 : Nat → ℝ × ℝ := fun p => up (-100) (high3 p)

theorem low3_distinct : Distinct low3 3 := by
  intro p hp r hr e
  refine high3_distinct p hp r hr ?_
  rw [← up_up (-100) (high3 p), ← up_up (-100) (high3 r)]
  have : high3 p = high3 r := by
    have := congrArg (up (- -100)) e
    simp only [low3] at this
    rwa [up_down (-100), up_down (-100)] at this
  rw [this]

theorem low3_inside {p : Nat} (hp : p < 3) : InClosed [((-3, -1) : ℝ × ℝ), (0, 7), (6, -2)] (low3 p) := by
  intro i hi
  have hi : i < 3 := hi
  rcases (by omega : p = 0 ∨ p = 1 ∨ p = 2) with rfl | rfl | rfl <;> rcases (by omega : i = 0 ∨ i = 1 ∨ i = 2) with rfl | rfl | rfl <;>
    norm_num [rightOf, corner, low3, up, high3]

theorem low3_meet : AllMeet low3 3 [((-3, -1) : ℝ × ℝ), (0, 7), (6, -2)] := by
  have hlen : [((-3, -1) : ℝ × ℝ), (0, 7), (6, -2)].length = 3 := rfl
  have c0 : corner [((-3, -1) : ℝ × ℝ), (0, 7), (6, -2)] 0 = (-3, -1) := rfl
  have c1 : corner [((-3, -1) : ℝ × ℝ), (0, 7), (6, -2)] 1 = (0, 7) := rfl
  have c2 : corner [((-3, -1) : ℝ × ℝ), (0, 7), (6, -2)] 2 = (6, -2) := rfl
  have c3 : corner [((-3, -1) : ℝ × ℝ), (0, 7), (6, -2)] 3 = (-3, -1) := rfl
  refine fun p hp => meets_of_sites (w := (1, 1)) ?_ ?_ low3_distinct hp
  · intro i hi
    rw [hlen] at hi
    rcases (by omega : i = 0 ∨ i = 1 ∨ i = 2) with rfl | rfl | rfl <;> simp only [c0, c1, c2, c3] <;> norm_num [rightOf]
  exact fun p hp => low3_inside hp

theorem low3_general : GeneralPosition low3 3 [((-3, -1) : ℝ × ℝ), (0, 7), (6, -2)] := by
  have hlen : [((-3, -1) : ℝ × ℝ), (0, 7), (6, -2)].length = 3 := rfl
  have c0 : corner [((-3, -1) : ℝ × ℝ), (0, 7), (6, -2)] 0 = (-3, -1) := rfl
  have c1 : corner [((-3, -1) : ℝ × ℝ), (0, 7), (6, -2)] 1 = (0, 7) := rfl
  have c2 : corner [((-3, -1) : ℝ × ℝ), (0, 7), (6, -2)] 2 = (6, -2) := rfl
  have c3 : corner [((-3, -1) : ℝ × ℝ), (0, 7), (6, -2)] 3 = (-3, -1) := rfl
  have hv : ∀ z, VoronoiVertex low3 3 z → z = (1, 1) := by
    intro z hz
    have := high3_vertex ((vertex_up (-100)).mp (by rw [up_up (-100) z]; exact hz : VoronoiVertex (fun p => up (-100) (high3 p)) 3 (up (-100) (up (- -100) z))))
    rw [← up_up (-100) z, this]
    exact Prod.ext rfl (by norm_num [up])
  have h0 : low3 0 = (0, 0) := by norm_num [low3, up, high3]
  have h1 : low3 1 = (2, 0) := by norm_num [low3, up, high3]
  have h2 : low3 2 = (0, 2) := by norm_num [low3, up, high3]
  refine ⟨⟨le_rfl, ?_⟩, ?_, ?_, ?_, ?_, ?_⟩
  · intro i j k hij hjk hk
    rw [hlen] at hk
    obtain ⟨rfl, rfl, rfl⟩ : i = 0 ∧ j = 1 ∧ k = 2 := by omega
    rw [c0, c1, c2]
    norm_num [rightOf]
  · intro i hi hD
    rw [hlen] at hi
    obtain ⟨g1, g2⟩ := hD
    simp only [List.mem_cons, List.not_mem_nil, or_false, forall_eq_or_imp, forall_eq] at g1 g2
    rcases (by omega : i = 0 ∨ i = 1 ∨ i = 2) with rfl | rfl | rfl <;> simp only [c0, c1, c2, c3] at g1 g2 <;> revert g1 g2 <;> norm_num
  · exact low3_meet.touch
  · intro z hz hb
    rw [hv z hz] at hb
    refine hb.not_inside ?_
    intro i hi
    rw [hlen] at hi
    rcases (by omega : i = 0 ∨ i = 1 ∨ i = 2) with rfl | rfl | rfl <;> simp only [c0, c1, c2, c3] <;> norm_num [rightOf]
  · intro i hi _ p r g1 g2
    have hz : corner [((-3 : ℝ), (-1 : ℝ)), (0, 7), (6, -2)] (i + 1) ∈ [((-3 : ℝ), (-1 : ℝ)), (0, 7), (6, -2)] := corner_mem (by simp)
    generalize corner [((-3 : ℝ), (-1 : ℝ)), (0, 7), (6, -2)] (i + 1) = z at hz g1 g2
    by_contra hne
    have hp := g1.1
    have hr := g2.1
    have k0 := g1.2 0 (by norm_num)
    have k1 := g1.2 1 (by norm_num)
    have k2 := g1.2 2 (by norm_num)
    have m0 := g2.2 0 (by norm_num)
    have m1 := g2.2 1 (by norm_num)
    have m2 := g2.2 2 (by norm_num)
    simp only [List.mem_cons, List.not_mem_nil, or_false] at hz
    rcases (by omega : p = 0 ∨ p = 1 ∨ p = 2) with rfl | rfl | rfl <;> rcases (by omega : r = 0 ∨ r = 1 ∨ r = 2) with rfl | rfl | rfl <;>
      first
      | exact hne rfl
      | (rcases hz with rfl | rfl | rfl <;> revert k0 k1 k2 m0 m1 m2 <;> simp only [h0, h1, h2] <;> norm_num [sqDist])
  · intro p hp r hr _ z hz _ _
    exact ⟨(0, 7), by simp, by rw [hv z hz]; norm_num⟩

/-- The hypotheses of C96 can be met. -/
example : ∃ H, ∀ h ≥ H, ∃ poly, mkPoly ([((0, 7) : ℝ × ℝ), (-3, -1), (6, -2)].map (up h)) = .ok poly ∧
    ∃ s', createDiagram (fun p => up h (low3 p)) heapq 3 22 poly true (initSt poly) = .ok ((), s') ∧ ∀ p < 3, ∃ a, area s'.d.heCnt p s'.d = .ok (a, s'.d) ∧
      MeasureTheory.volume {z | InClosed [((-3, -1) : ℝ × ℝ), (0, 7), (6, -2)] z ∧ Nearest low3 3 p z} = ENNReal.ofReal a := by
  obtain ⟨H, hH⟩ := C96_areas low3_general low3_meet low3_distinct (by norm_num) (List.Perm.swap ((-3, -1) : ℝ × ℝ) (0, 7) [(6, -2)]) C45_event_queue
  refine ⟨H, fun h hh => ?_⟩
  obtain ⟨poly, hp, h1⟩ := hH h hh
  obtain ⟨s', hs', hA⟩ := h1 22 (by norm_num)
  refine ⟨poly, hp, s', hs', fun p hp => ?_⟩
  obtain ⟨a, a1, _, a2⟩ := hA p hp
  exact ⟨a, a1, a2⟩

/-- And those of C95, moved up by 100. -/
example : ∃ poly, mkPoly ([((0, 7) : ℝ × ℝ), (-3, -1), (6, -2)].map (up 100)) = .ok poly ∧ FitsBorder (fun p => up 100 (low3 p)) 3 poly := by
  have hG := C96_moved low3_general 100
  have hl : [((0, 7) : ℝ × ℝ), (-3, -1), (6, -2)].map (up 100) ~ [((-3, -1) : ℝ × ℝ), (0, 7), (6, -2)].map (up 100) := (List.Perm.swap ((-3, -1) : ℝ × ℝ) (0, 7) [(6, -2)]).map _
  obtain ⟨poly, hp, _, _, hB⟩ := C94_clockwise hG.convex hl
  refine ⟨poly, hp, (C95_fits_inside hG (by norm_num) hl hp (fun p hp => (closed_up 100 (by simp)).mpr (low3_inside hp)) ?_).2 (low3_meet.moved (by simp) 100)⟩
  have e0 : ([((-3, -1) : ℝ × ℝ), (0, 7), (6, -2)].map (up 100)) = [(-3, 99), (0, 107), (6, 98)] := by norm_num [up]
  rw [e0] at hB
  have b0 := hB.inside (0, 107) (by simp)
  obtain ⟨⟨a, ha, ea⟩, ⟨b, hb, eb⟩, ⟨c, hc, ec⟩, ⟨d, hd, ed⟩, _, _⟩ := hB
  simp only [List.mem_cons, List.not_mem_nil, or_false] at ha hb hc hd
  have x1 : -3 ≤ poly.minX := by rw [← ea]; rcases ha with rfl | rfl | rfl <;> norm_num
  have x2 : poly.maxX ≤ 6 := by rw [← eb]; rcases hb with rfl | rfl | rfl <;> norm_num
  have x3 : 98 ≤ poly.minY := by rw [← ec]; rcases hc with rfl | rfl | rfl <;> norm_num
  have x4 : poly.maxY ≤ 107 := by rw [← ed]; rcases hd with rfl | rfl | rfl <;> norm_num
  obtain ⟨b1, b2, b3, b4⟩ := b0
  simp only at b1 b2 b3 b4
  have : poly.maxY = 107 := by linarith
  rw [this]
  nlinarith

end Foronoi
