import Verif.Proof.Convex
import Verif.Props.Single

/-!
# Bounding polygons and boxes with exact arithmetic (C30, C31)
-/

namespace Foronoi

open Real

/-- C31: `inside` raises nothing, and holds if the ray to the right meets an odd number of sides. -/
theorem C31_even_odd (l : List (ℝ × ℝ)) (z : ℝ × ℝ) :
    ∃ b, inside l z = some b ∧ (b = true ↔ Odd (Set.ncard {i | i < l.length ∧ RayHits z (corner l i) (corner l (i + 1))})) := by
  classical
  refine ⟨_, inside_real l z, ?_⟩
  rw [decide_eq_true_iff]
  unfold hitCount
  rw [countP_range, ← Set.ncard_coe_finset]
  have : (((Finset.range l.length).filter fun i => RayHits z (corner l i) (corner l (i + 1)) : Finset ℕ) : Set ℕ) =
      {i | i < l.length ∧ RayHits z (corner l i) (corner l (i + 1))} := by
    ext j; simp
  rw [this]

/-- C31: on a convex polygon listed clockwise, `inside` holds strictly inside and does not hold strictly outside. -/
theorem C31_convex {l : List (ℝ × ℝ)} (hc : ClockwiseConvex l) (z : ℝ × ℝ) :
    (StrictlyInside l z → inside l z = some true) ∧ (StrictlyOutside l z → inside l z = some false) := by
  classical
  rw [inside_real]
  constructor
  · intro h
    rw [hitCount_inside hc h]
    simp
  · intro h
    rw [decide_eq_false]
    rw [Nat.not_odd_iff_even]
    exact hitCount_outside hc h

/-- A clockwise triangle and points inside and outside of it. -/
example : inside [((0, 3) : ℝ × ℝ), (2, 0), (-2, 0)] (0, 1) = some true ∧ inside [((0, 3) : ℝ × ℝ), (2, 0), (-2, 0)] (2, 2) = some false := by
  have hc : ClockwiseConvex [((0, 3) : ℝ × ℝ), (2, 0), (-2, 0)] := by
    refine ⟨by simp, ?_⟩
    intro i j k hij hjk hk
    have : i = 0 ∧ j = 1 ∧ k = 2 := by simp at hk; omega
    obtain ⟨rfl, rfl, rfl⟩ := this
    norm_num [corner, rightOf]
  constructor
  · refine (C31_convex hc _).1 ?_
    intro i hi
    simp at hi
    obtain rfl | rfl | rfl : i = 0 ∨ i = 1 ∨ i = 2 := by omega
    all_goals norm_num [corner, rightOf]
  · refine (C31_convex hc _).2 ⟨0, by simp, ?_⟩
    norm_num [corner, rightOf]

/-! ### The box -/

theorem keys_box {w h : ℝ} (hw : 0 < w) (hh : 0 < h) :
    Complex.arg ⟨w, h⟩ ≤ Complex.arg ⟨-w, h⟩ ∧ Complex.arg ⟨w, -h⟩ ≤ Complex.arg ⟨w, h⟩ ∧ Complex.arg ⟨-w, -h⟩ ≤ Complex.arg ⟨w, -h⟩ := by
  have a1 : |Complex.arg ⟨w, h⟩| ≤ π / 2 := Complex.abs_arg_le_pi_div_two_iff.mpr hw.le
  have a2 : ¬ |Complex.arg ⟨-w, h⟩| ≤ π / 2 := fun h' => by have := Complex.abs_arg_le_pi_div_two_iff.mp h'; simp at this; linarith
  have a3 : 0 ≤ Complex.arg ⟨-w, h⟩ := Complex.arg_nonneg_iff.mpr hh.le
  have b1 : 0 ≤ Complex.arg ⟨w, h⟩ := Complex.arg_nonneg_iff.mpr hh.le
  have b2 : Complex.arg ⟨w, -h⟩ < 0 := Complex.arg_neg_iff.mpr (by simpa using hh)
  have c1 : |Complex.arg ⟨w, -h⟩| ≤ π / 2 := Complex.abs_arg_le_pi_div_two_iff.mpr hw.le
  have c2 : ¬ |Complex.arg ⟨-w, -h⟩| ≤ π / 2 := fun h' => by have := Complex.abs_arg_le_pi_div_two_iff.mp h'; simp at this; linarith
  have c3 : Complex.arg ⟨-w, -h⟩ < 0 := Complex.arg_neg_iff.mpr (by simpa using hh)
  refine ⟨?_, by linarith, ?_⟩
  · rw [abs_of_nonneg a3] at a2
    have := (abs_le.mp a1).2
    linarith
  · rw [abs_of_neg c3] at c2
    have := (abs_le.mp c1).1
    linarith

theorem box_points {l r b t : ℝ} (hlr : l < r) (hbt : b < t) :
    boundingBox l r b t = .ok ⟨[(l, t), (r, t), (r, b), (l, b)], b, l, t, r, ((r + l) / 2, (t + b) / 2)⟩ := by
  have e1 : listMin ([(l, t), (r, t), (r, b), (l, b)].map (·.2)) = some b := by
    simp [listMin, min_eq_left, min_eq_right, hbt.le]
  have e2 : listMin ([(l, t), (r, t), (r, b), (l, b)].map (·.1)) = some l := by
    simp [listMin, hlr.le]
  have e3 : listMax ([(l, t), (r, t), (r, b), (l, b)].map (·.2)) = some t := by
    simp [listMax, hbt.le]
  have e4 : listMax ([(l, t), (r, t), (r, b), (l, b)].map (·.1)) = some r := by
    simp [listMax, hlr.le]
  have h2 : (lit 2 : ℝ) ≠ 0 := by simp [lit, rI]
  unfold boundingBox mkPoly
  rw [e1, e2, e3, e4]
  simp only [rAdd, rDiv _ _ h2]
  have h2' : (lit 2 : ℝ) = 2 := by simp [lit, rI]
  rw [h2']
  congr 2
  obtain ⟨k1, k2, k3⟩ := keys_box (w := (r - l) / 2) (h := (t - b) / 2) (by linarith) (by linarith)
  have x1 : l - (r + l) / 2 = -((r - l) / 2) := by ring
  have x2 : r - (r + l) / 2 = (r - l) / 2 := by ring
  have y1 : t - (t + b) / 2 = (t - b) / 2 := by ring
  have y2 : b - (t + b) / 2 = -((t - b) / 2) := by ring
  refine List.Pairwise.insertionSort_eq ?_
  simp only [List.pairwise_cons, List.mem_cons, List.not_mem_nil, or_false, forall_eq_or_imp, forall_eq, orderKey_le_iff, x1, x2, y1, y2,
    List.Pairwise.nil, and_true, false_imp_iff, implies_true]
  exact ⟨⟨k1, k2.trans k1, k3.trans (k2.trans k1)⟩, ⟨k2, k3.trans k2⟩, k3⟩

theorem hits_vert {z : Pt} {a y1 y2 : ℝ} : RayHits z (a, y1) (a, y2) ↔ z.1 < a ∧ min y1 y2 ≤ z.2 ∧ z.2 < max y1 y2 := by
  constructor
  · rintro ⟨w, ⟨u, hu0, hu1, rfl⟩, hw2, hw1, hw3⟩
    simp only at hw1 hw2 hw3
    have : (1 - u) * a + u * a = a := by ring
    rw [this] at hw1
    refine ⟨hw1, ?_, by rw [← hw2]; exact hw3⟩
    rw [← hw2, min_le_iff]
    rcases le_total y1 y2 with h | h
    · left; nlinarith
    · right; nlinarith
  · rintro ⟨h1, h2, h3⟩
    have hne : y2 - y1 ≠ 0 := by
      intro h0
      have : y2 = y1 := by linarith
      rw [this, min_self] at h2; rw [this, max_self] at h3; linarith
    set u := (z.2 - y1) / (y2 - y1) with hu
    have hum : u * (y2 - y1) = z.2 - y1 := by rw [hu]; field_simp
    have hu0 : 0 ≤ u ∧ u ≤ 1 := by
      rcases lt_or_gt_of_ne hne with hn | hn
      · have : y2 < y1 := by linarith
        rw [min_eq_right this.le] at h2; rw [max_eq_left this.le] at h3
        exact ⟨by rw [hu]; exact div_nonneg_of_nonpos (by linarith) hn.le, by rw [hu, div_le_one_of_neg hn]; linarith⟩
      · have : y1 < y2 := by linarith
        rw [min_eq_left this.le] at h2; rw [max_eq_right this.le] at h3
        exact ⟨by rw [hu]; exact div_nonneg (by linarith) hn.le, by rw [hu, div_le_one hn]; linarith⟩
    have hy : (1 - u) * y1 + u * y2 = z.2 := by linarith
    refine ⟨((1 - u) * a + u * a, (1 - u) * y1 + u * y2), ⟨u, hu0.1, hu0.2, rfl⟩, hy, ?_, ?_⟩
    · show z.1 < (1 - u) * a + u * a
      have : (1 - u) * a + u * a = a := by ring
      rw [this]; exact h1
    · show (1 - u) * y1 + u * y2 < _
      rw [hy]; exact h3

theorem hits_horiz {z : Pt} {x1 x2 y : ℝ} : ¬ RayHits z (x1, y) (x2, y) := by
  rintro ⟨w, ⟨u, hu0, hu1, rfl⟩, hw2, hw1, hw3⟩
  simp only [max_self] at hw3
  have : (1 - u) * y + u * y = y := by ring
  rw [this] at hw3
  exact lt_irrefl _ hw3

/-- C30: the points of a bounding box are its corners clockwise from the top left, and `inside` is the half-open rectangle. -/
theorem C30_box {l r b t : ℝ} (hlr : l < r) (hbt : b < t) :
    ∃ poly, boundingBox l r b t = .ok poly ∧ poly.points = [(l, t), (r, t), (r, b), (l, b)] ∧
      (poly.minX = l ∧ poly.maxX = r ∧ poly.minY = b ∧ poly.maxY = t ∧ poly.center = ((r + l) / 2, (t + b) / 2)) ∧
      ∀ z : ℝ × ℝ, ∃ c, inside poly.points z = some c ∧ (c = true ↔ l ≤ z.1 ∧ z.1 < r ∧ b ≤ z.2 ∧ z.2 < t) := by
  classical
  refine ⟨_, box_points hlr hbt, rfl, ⟨rfl, rfl, rfl, rfl, rfl⟩, ?_⟩
  intro z
  unfold inside
  simp only [List.take_succ_cons, List.take_zero, List.cons_append, List.nil_append, insideLoop, crosses_real, Option.bind_eq_bind,
    Option.bind_some, hits_horiz, hits_vert, min_eq_left hbt.le, min_eq_right hbt.le, max_eq_left hbt.le, max_eq_right hbt.le]
  refine ⟨_, rfl, ?_⟩
  by_cases h1 : z.1 < r <;> by_cases h2 : z.1 < l <;> by_cases h3 : b ≤ z.2 <;> by_cases h4 : z.2 < t <;>
    simp [h1, h2, h3, h4] <;> linarith

/-- C33: the sort key of the border vertices is the direction from the centre, clockwise from the left. -/
theorem C33_angular (c p : ℝ × ℝ) : ClockwiseFromWest c p (orderKey c p) := orderKey_dir c p

end Foronoi
