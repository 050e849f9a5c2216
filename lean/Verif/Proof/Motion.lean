import Verif.Spec.Motion
import Verif.Props.AnySites
import Verif.Props.FinalVertices
import Verif.Props.Corners
import Mathlib.MeasureTheory.Measure.Lebesgue.EqHaar
import Mathlib.LinearAlgebra.Matrix.ToLin
import Mathlib.LinearAlgebra.Determinant

/-!
# Sites in another system of coordinates
-/

namespace Foronoi

open scoped List

variable {pts : Nat → ℝ × ℝ} {n : Nat} {poly poly2 : Poly ℝ} {g : Motion} {m : List Pt}

theorem Motion.scale_pos (g : Motion) : 0 < g.scale := g.pos

theorem Motion.sq (g : Motion) : g.s * g.s = 1 := by rcases g.sign with h | h <;> rw [h] <;> norm_num

theorem sqDist_motion (a b : Pt) : sqDist (g.apply a) (g.apply b) = g.scale * sqDist a b := by
  have := g.sq
  simp only [sqDist, Motion.apply, Motion.scale]
  linear_combination ((g.b ^ 2 + g.a ^ 2) * (a.2 - b.2) ^ 2) * this

theorem rightOf_motion (a b z : Pt) : rightOf (g.apply a) (g.apply b) (g.apply z) = g.s * g.scale * rightOf a b z := by
  simp only [rightOf, Motion.apply, Motion.scale]; ring

theorem motion_inj {a b : Pt} (h : g.apply a = g.apply b) : a = b := by
  have e := sqDist_motion (g := g) a b
  rw [h] at e
  have e0 : sqDist (g.apply b) (g.apply b) = 0 := by simp [sqDist]
  rw [e0] at e
  have e1 : sqDist a b = 0 := by
    rcases mul_eq_zero.mp e.symm with h | h
    · exact absurd h g.scale_pos.ne'
    · exact h
  unfold sqDist at e1
  ext <;> nlinarith [sq_nonneg (a.1 - b.1), sq_nonneg (a.2 - b.2)]

theorem motion_onto (w : Pt) : ∃ z, w = g.apply z := by
  have h0 : g.a ^ 2 + g.b ^ 2 ≠ 0 := g.pos.ne'
  have := g.sq
  refine ⟨((g.a * (w.1 - g.u) + g.b * (w.2 - g.v)) / (g.a ^ 2 + g.b ^ 2), g.s * (g.a * (w.2 - g.v) - g.b * (w.1 - g.u)) / (g.a ^ 2 + g.b ^ 2)), ?_⟩
  unfold Motion.apply
  apply Prod.ext <;> simp only <;> field_simp
  · linear_combination (g.b * (g.a * (w.2 - g.v) - g.b * (w.1 - g.u))) * this
  · linear_combination (-(g.a * (g.a * (w.2 - g.v) - g.b * (w.1 - g.u)))) * this

theorem between_motion {a b z : Pt} : Between (g.apply a) (g.apply b) (g.apply z) ↔ Between a b z := by
  constructor
  · rintro ⟨t, h0, h1, h⟩
    refine ⟨t, h0, h1, motion_inj (g := g) (h.trans ?_)⟩
    simp only [Motion.apply]; ext <;> simp only <;> ring
  · rintro ⟨t, h0, h1, h⟩
    refine ⟨t, h0, h1, ?_⟩
    subst h
    simp only [Motion.apply]; ext <;> simp only <;> ring

theorem corner_map {f : Pt → Pt} (hm : 0 < m.length) (i : Nat) : corner (m.map f) i = f (corner m i) := by
  have hi : i % m.length < m.length := Nat.mod_lt _ hm
  simp only [corner, List.length_map, List.getD_eq_getElem?_getD, List.getElem?_map]
  rw [List.getElem?_eq_getElem hi]
  rfl

/-! ### the corners the other way around -/

theorem corner_reverse {i : Nat} (hi : i < m.length) : corner m.reverse i = corner m (m.length - 1 - i) := by
  simp only [corner, List.length_reverse, List.getD_eq_getElem?_getD]
  rw [Nat.mod_eq_of_lt hi, Nat.mod_eq_of_lt (by omega), List.getElem?_reverse hi]

theorem corner_len (i : Nat) : corner m (i + m.length) = corner m i := by simp [corner]

theorem corner_reverse_side {i : Nat} (hi : i < m.length) :
    corner m.reverse i = corner m (2 * m.length - 2 - i + 1) ∧ corner m.reverse (i + 1) = corner m (2 * m.length - 2 - i) := by
  constructor
  · rw [corner_reverse hi, ← corner_len]
    congr 1; omega
  · rcases (by omega : i + 1 < m.length ∨ i + 1 = m.length) with h | h
    · rw [corner_reverse h, ← corner_len]
      congr 1; omega
    · have : corner m.reverse (i + 1) = corner m.reverse 0 := by
        have := corner_len (m := m.reverse) 0
        rw [← this, List.length_reverse]
        congr 1; omega
      rw [this, corner_reverse (by omega)]
      congr 1; omega

theorem reverse_side (hm : 0 < m.length) (P : Pt → Pt → Prop) :
    (∀ i < m.reverse.length, P (corner m.reverse i) (corner m.reverse (i + 1))) ↔ ∀ i < m.length, P (corner m (i + 1)) (corner m i) := by
  rw [List.length_reverse]
  have hmod : ∀ i, P (corner m (i + 1)) (corner m i) ↔ P (corner m (i % m.length + 1)) (corner m (i % m.length)) := fun i => by
    have e1 : corner m (i % m.length) = corner m i := by simp [corner]
    have e2 : corner m (i % m.length + 1) = corner m (i + 1) := by simp [corner]
    rw [e1, e2]
  constructor
  · intro h i hi
    have h1 := h ((2 * m.length - 2 - i) % m.length) (Nat.mod_lt _ hm)
    obtain ⟨e1, e2⟩ := corner_reverse_side (m := m) (i := (2 * m.length - 2 - i) % m.length) (Nat.mod_lt _ hm)
    rw [e1, e2, hmod] at h1
    have : (2 * m.length - 2 - (2 * m.length - 2 - i) % m.length) % m.length = i := by
      rcases (by omega : i + 1 < m.length ∨ i + 1 = m.length) with h | h
      · have a1 : (2 * m.length - 2 - i) % m.length = m.length - 2 - i := by
          rw [show 2 * m.length - 2 - i = m.length - 2 - i + m.length by omega, Nat.add_mod_right, Nat.mod_eq_of_lt (by omega)]
        rw [a1, show 2 * m.length - 2 - (m.length - 2 - i) = i + m.length by omega, Nat.add_mod_right, Nat.mod_eq_of_lt hi]
      · have a1 : (2 * m.length - 2 - i) % m.length = m.length - 1 := by
          rw [show 2 * m.length - 2 - i = m.length - 1 by omega, Nat.mod_eq_of_lt (by omega)]
        rw [a1, show 2 * m.length - 2 - (m.length - 1) = i by omega, Nat.mod_eq_of_lt hi]
    rwa [this] at h1
  · intro h i hi
    obtain ⟨e1, e2⟩ := corner_reverse_side (m := m) hi
    rw [e1, e2, hmod]
    exact h _ (Nat.mod_lt _ hm)

theorem rightOf_swap (a b z : Pt) : rightOf b a z = -rightOf a b z := by unfold rightOf; ring

theorem between_swap {a b z : Pt} : Between b a z ↔ Between a b z := ⟨Between.symm, Between.symm⟩

/-! ### the polygon -/

/-- The corners in the other system of coordinates, clockwise. -/
noncomputable def turned (g : Motion) (m : List Pt) : List Pt := if g.s = 1 then m.map g.apply else (m.map g.apply).reverse

theorem turned_perm : turned g m ~ m.map g.apply := by
  unfold turned
  split
  · exact List.Perm.refl _
  · exact List.reverse_perm _

theorem turned_convex (hm : ClockwiseConvex m) : ClockwiseConvex (turned g m) := by
  have h3 := hm.1
  have hK := g.scale_pos
  refine ⟨by rw [turned_perm.length_eq, List.length_map]; exact h3, fun i j k hij hjk hk => ?_⟩
  rw [turned_perm.length_eq, List.length_map] at hk
  unfold turned
  split
  · rename_i hs
    rw [corner_map (by omega), corner_map (by omega), corner_map (by omega), rightOf_motion, hs, one_mul]
    exact mul_pos hK (hm.2 i j k hij hjk hk)
  · rename_i hs
    have hs : g.s = -1 := g.sign.resolve_left hs
    rw [corner_reverse (by rw [List.length_map]; omega), corner_reverse (by rw [List.length_map]; omega), corner_reverse (by rw [List.length_map]; omega), List.length_map,
      corner_map (by omega), corner_map (by omega), corner_map (by omega), rightOf_motion, hs]
    have := hm.2 (m.length - 1 - k) (m.length - 1 - j) (m.length - 1 - i) (by omega) (by omega) (by omega)
    have e : rightOf (corner m (m.length - 1 - i)) (corner m (m.length - 1 - j)) (corner m (m.length - 1 - k)) =
        -rightOf (corner m (m.length - 1 - k)) (corner m (m.length - 1 - j)) (corner m (m.length - 1 - i)) := by unfold rightOf; ring
    rw [e]
    nlinarith

theorem turned_side (hm : 0 < m.length) {P Q : Pt → Pt → Prop} (h1 : g.s = 1 → ∀ a b, P (g.apply a) (g.apply b) ↔ Q a b) (h2 : g.s = -1 → ∀ a b, P (g.apply b) (g.apply a) ↔ Q a b) :
    (∀ i < (turned g m).length, P (corner (turned g m) i) (corner (turned g m) (i + 1))) ↔ ∀ i < m.length, Q (corner m i) (corner m (i + 1)) := by
  unfold turned
  split
  · rename_i hs
    simp only [corner_map hm, List.length_map, h1 hs]
  · rename_i hs
    rw [reverse_side (by rw [List.length_map]; exact hm)]
    simp only [corner_map hm, List.length_map, h2 (g.sign.resolve_left hs)]

theorem turned_closed (hm : 0 < m.length) {z : Pt} : InClosed (turned g m) (g.apply z) ↔ InClosed m z := by
  have hK := g.scale_pos
  refine turned_side hm (P := fun a b => 0 ≤ rightOf a b (g.apply z)) (Q := fun a b => 0 ≤ rightOf a b z) (fun hs a b => ?_) (fun hs a b => ?_)
  · rw [rightOf_motion, hs, one_mul, mul_nonneg_iff_of_pos_left hK]
  · rw [rightOf_motion, hs, rightOf_swap a b, show -1 * g.scale * -rightOf a b z = g.scale * rightOf a b z by ring, mul_nonneg_iff_of_pos_left hK]

theorem turned_inside (hm : 0 < m.length) {z : Pt} : StrictlyInside (turned g m) (g.apply z) ↔ StrictlyInside m z := by
  have hK := g.scale_pos
  refine turned_side hm (P := fun a b => 0 < rightOf a b (g.apply z)) (Q := fun a b => 0 < rightOf a b z) (fun hs a b => ?_) (fun hs a b => ?_)
  · rw [rightOf_motion, hs, one_mul, mul_pos_iff_of_pos_left hK]
  · rw [rightOf_motion, hs, rightOf_swap a b, show -1 * g.scale * -rightOf a b z = g.scale * rightOf a b z by ring, mul_pos_iff_of_pos_left hK]

theorem turned_boundary (hm : 0 < m.length) {z : Pt} : OnBoundary (turned g m) (g.apply z) ↔ OnBoundary m z := by
  have h := turned_side (g := g) hm (P := fun a b => ¬ Between a b (g.apply z)) (Q := fun a b => ¬ Between a b z) (fun hs a b => not_congr between_motion)
    (fun hs a b => not_congr (between_motion.trans between_swap))
  unfold OnBoundary OnSide
  constructor
  · rintro ⟨i, hi, hb⟩
    by_contra hc
    push Not at hc
    exact h.mpr hc i hi hb
  · rintro ⟨i, hi, hb⟩
    by_contra hc
    push Not at hc
    exact h.mp hc i hi hb

/-- The corners of `poly2` are those of `poly` in the other system of coordinates. -/
def SameCorners (g : Motion) (poly poly2 : Poly ℝ) : Prop := poly2.points ~ poly.points.map g.apply

/-- Two polygons with the same corners are the same. -/
theorem SameCorners.rotate (h : SameCorners g poly poly2) (hc : ClockwiseConvex poly.points) {l : List Pt} (hl : mkPoly l = .ok poly2) :
    ∃ r, poly2.points = (turned g poly.points).rotate r := by
  have hp : l ~ turned g poly.points := ((mkPoly_ok hl).1.symm.trans h).trans turned_perm.symm
  obtain ⟨p', h1, h2, _⟩ := C94_clockwise (turned_convex hc) hp
  rw [hl, Except.ok.injEq] at h1
  subst h1
  exact h2

section
variable (h : SameCorners g poly poly2) (hF : FitsCorners pts n poly) {pts2 : Nat → ℝ × ℝ} {n2 : Nat} (hF2 : FitsCorners pts2 n2 poly2)
include h hF hF2

theorem same_closed {z : Pt} : InClosed poly2.points (g.apply z) ↔ InClosed poly.points z := by
  obtain ⟨l, hl⟩ := hF2.made
  obtain ⟨r, hr⟩ := h.rotate hF.convex hl
  have h3 := hF.convex.1
  rw [hr, closed_rotate (by rw [turned_perm.length_eq, List.length_map]; omega), turned_closed (by omega)]

theorem same_inside {z : Pt} : StrictlyInside poly2.points (g.apply z) ↔ StrictlyInside poly.points z := by
  obtain ⟨l, hl⟩ := hF2.made
  obtain ⟨r, hr⟩ := h.rotate hF.convex hl
  have h3 := hF.convex.1
  rw [hr, inside_rotate (by rw [turned_perm.length_eq, List.length_map]; omega), turned_inside (by omega)]

theorem same_boundary {z : Pt} : OnBoundary poly2.points (g.apply z) ↔ OnBoundary poly.points z := by
  obtain ⟨l, hl⟩ := hF2.made
  obtain ⟨r, hr⟩ := h.rotate hF.convex hl
  have h3 := hF.convex.1
  rw [hr, boundary_rotate (by rw [turned_perm.length_eq, List.length_map]; omega), turned_boundary (by omega)]

end

/-! ### cells -/

theorem nearest_motion {p : Nat} {z : Pt} : Nearest (fun i => g.apply (pts i)) n p (g.apply z) ↔ Nearest pts n p z := by
  simp only [Nearest, sqDist_motion, mul_le_mul_iff_right₀ g.scale_pos]

theorem distinct_motion (hd : Distinct pts n) : Distinct (fun i => g.apply (pts i)) n := fun p hp r hr h => hd p hp r hr (motion_inj h)

theorem vertex_motion {z : Pt} : VoronoiVertex (fun i => g.apply (pts i)) n (g.apply z) ↔ VoronoiVertex pts n z := by
  simp only [VoronoiVertex, nearest_motion]

theorem farCell_motion {p : Nat} : FarCell (fun i => g.apply (pts i)) n p ↔ FarCell pts n p := by
  have hK := g.scale_pos
  constructor
  · intro h R
    obtain ⟨w, h3, h5⟩ := h (g.scale * R)
    obtain ⟨z, rfl⟩ := motion_onto (g := g) w
    rw [sqDist_motion, mul_lt_mul_iff_right₀ hK] at h5
    exact ⟨z, nearest_motion.mp h3, h5⟩
  · intro h R
    obtain ⟨z, h3, h5⟩ := h (R / g.scale)
    refine ⟨g.apply z, nearest_motion.mpr h3, ?_⟩
    rw [sqDist_motion]
    rw [div_lt_iff₀ hK] at h5
    linarith

/-! ### areas -/

theorem volume_motion {S T : Set Pt} (h : ∀ z, g.apply z ∈ T ↔ z ∈ S) : MeasureTheory.volume T = ENNReal.ofReal g.scale * MeasureTheory.volume S := by
  have hh : (MeasureTheory.volume : MeasureTheory.Measure (ℝ × ℝ)).IsAddHaarMeasure := by
    rw [MeasureTheory.Measure.volume_eq_prod]
    infer_instance
  let f : (ℝ × ℝ) →ₗ[ℝ] (ℝ × ℝ) := Matrix.toLin (Module.Basis.finTwoProd ℝ) (Module.Basis.finTwoProd ℝ) !![g.a, -(g.s * g.b); g.b, g.s * g.a]
  have hf : ∀ z, f z + (g.u, g.v) = g.apply z := fun z => by
    show Matrix.toLin (Module.Basis.finTwoProd ℝ) (Module.Basis.finTwoProd ℝ) _ z + _ = _
    rw [Matrix.toLin_finTwoProd_apply]
    unfold Motion.apply
    apply Prod.ext <;> simp only [Prod.fst_add, Prod.snd_add] <;> ring
  have hdet : |LinearMap.det f| = g.scale := by
    show |LinearMap.det (Matrix.toLin (Module.Basis.finTwoProd ℝ) (Module.Basis.finTwoProd ℝ) _)| = _
    rw [LinearMap.det_toLin, Matrix.det_fin_two_of]
    have : g.a * (g.s * g.a) - -(g.s * g.b) * g.b = g.s * g.scale := by unfold Motion.scale; ring
    rw [this, abs_mul, abs_of_pos g.scale_pos]
    rcases g.sign with hs | hs <;> rw [hs] <;> simp
  have e : T = (fun w => w + (g.u, g.v)) '' (f '' S) := by
    ext w
    obtain ⟨z, rfl⟩ := motion_onto (g := g) w
    rw [h]
    constructor
    · intro hz
      exact ⟨f z, ⟨z, hz, rfl⟩, hf z⟩
    · rintro ⟨_, ⟨z', hz', rfl⟩, e⟩
      simp only [hf] at e
      rwa [← motion_inj e]
  have hv : (MeasureTheory.volume : MeasureTheory.Measure (ℝ × ℝ)).IsAddRightInvariant := by
    rw [MeasureTheory.Measure.volume_eq_prod]
    infer_instance
  rw [e, Set.image_add_right, MeasureTheory.measure_preimage_add_right, MeasureTheory.Measure.addHaar_image_linearMap, hdet]

end Foronoi
