import Verif.Props.Corners
import Verif.Props.SiteVertices
import Verif.Props.ClipExamples

/-!
# C97: a polygon with a side that is a diagonal of the box around it

`finish_polygon` sorts the border vertices by the angle around the centre of the box of the polygon.  By `C94_center` this centre lies on
the border if a side of the polygon is a diagonal of its box; then all vertices on one half of this side have the same angle as the corner
at its end.  The sort is stable and the corners are listed first, so the border runs through the corner before the other vertices.
-/

namespace Foronoi

open scoped List

variable {pts : Nat → ℝ × ℝ} {q : PQ (QE ℝ)} {ok : List (QE ℝ) → Prop} {n fuel : Nat} {poly : Poly ℝ} {l m : List Pt} {z : Pt} {s' : St ℝ}

theorem direction_same {c b : Pt} {t : ℝ} (ht : 0 < t) : orderKey c (c.1 + t * (b.1 - c.1), c.2 + t * (b.2 - c.2)) = orderKey c b := by
  rw [orderKey_real, orderKey_real]
  congr 3
  have : (⟨c.1 + t * (b.1 - c.1) - c.1, c.2 + t * (b.2 - c.2) - c.2⟩ : ℂ) = (t : ℂ) * ⟨b.1 - c.1, b.2 - c.2⟩ := by
    apply Complex.ext <;> simp
  simp only
  rw [this, Complex.arg_real_mul _ ht]

/-- C97: `finish_polygon` sorts the border vertices by an angle.  If a vertex made by clipping has the same angle as a corner, then the
result has a border edge that leads from the corner to another vertex with this angle. -/
theorem C97_tie {K : Type} [LinearOrder K] [Arith K] [ArithLaws K] {pts : Nat → K × K} {q : PQ (QE K)} {ok : List (QE K) → Prop} {n fuel : Nat} [MidLt pts n] {poly : Poly K}
    {s' : St K} (hq : q.Spec evLt ok) (hn : 0 < n) (h : createDiagram pts q n fuel poly false (initSt poly) = .ok ((), s')) {k v : Nat} {B z : K × K}
    (hB : poly.points[k]? = some B) (hv : v ∈ s'.polyVerts) (hz : (s'.d.vs v).pos = some z) (hzB : z ∉ poly.points)
    (hkey : orderKey poly.center z = orderKey poly.center B) :
    ∃ e ∈ s'.edges, OriginAt s'.d e B ∧ ∃ w, w ≠ B ∧ orderKey poly.center w = orderKey poly.center B ∧ TargetAt s'.d e w := by
  have hk : k < poly.points.length := (List.getElem?_eq_some_iff.mp hB).1
  have hne : poly.points ≠ [] := by
    intro h0
    rw [h0] at hk
    simp at hk
  obtain ⟨sr, s0, s1, s2, vs, V, cell, hre, hpop, h0, hs, hst⟩ := createDiagram_stages hq hn hne h
  obtain ⟨L, hI⟩ := reach_inv hq hre
  have hc := reach_corner hq hre
  have hI0 : Inv pts ok n poly.points.length s0 L := by
    rw [h0]; exact ⟨hI.tree, hI.beach, { hI.qinv with }, { hI.sinv with }, hI.dinv, { hI.cinv with }⟩
  have hc0 : CornerInv poly s0 := by rw [h0]; exact ⟨hc.pv, hc.pos⟩
  have hcu := hst.cu
  simp only [Bool.false_eq_true, if_false] at hcu
  have hfp := hst.fp
  have ed : s'.d = s2.d := by rw [hcu]
  have ee : s'.edges = s1.edges ++ (List.range vs.length).map (fun j => s1.d.heCnt + 2 * j + 1) := by rw [hcu]; simp only; rw [hfp.eq]
  have ep : s'.polyVerts = s1.polyVerts := by rw [hcu]; simp only; rw [hfp.eq]
  have epos : ∀ v, (s2.d.vs v).pos = (s1.d.vs v).pos := hfp.binv.pos
  obtain ⟨new, p1, _, p3⟩ := hst.fe.pv
  have p1 : s1.polyVerts = s0.polyVerts ++ new := p1
  rw [hc0.pv] at p1
  have hcpos : ∀ j < poly.points.length, (s1.d.vs j).pos = poly.points[j]? := by
    intro j hj
    have := hst.fe.keeps.pos j (by have := hI0.dinv.vcnt; omega)
    have e : (s1.d.vs j).pos = (s0.d.vs j).pos := this
    rw [e, hc0.pos j hj]
  rw [ep, p1] at hv
  rw [ed, epos] at hz
  have hvn : v ∈ new := by
    rcases List.mem_append.mp hv with hv | hv
    · exfalso
      have hvl := List.mem_range.mp hv
      rw [hcpos v hvl] at hz
      exact hzB (List.mem_of_getElem? hz)
    · exact hv
  have hsub : [k, v] <+ vs := by
    rw [hfp.ord]
    refine ordered_stable poly s1.d.vs ?_ ((hcpos k hk).trans hB) hz hkey.ge
    rw [p1]
    exact (List.singleton_sublist.mpr (List.mem_range.mpr hk)).append (List.singleton_sublist.mpr hvn)
  -- from the corner to the vertex the keys are equal
  have hpos : ∀ i < vs.length, ∃ p, (s1.d.vs (V i)).pos = some p := by
    intro i hi
    have hm := List.mem_of_getElem? (hfp.V_eq i hi)
    exact Option.isSome_iff_exists.mp (List.mem_filter.mp (hfp.perm.mem_iff.mp hm)).2
  have hle : ∀ i j, i < j → j < vs.length → ∀ p r, (s1.d.vs (V i)).pos = some p → (s1.d.vs (V j)).pos = some r →
      orderKey poly.center p ≤ orderKey poly.center r := by
    intro i j hij hj p r hp hr
    have := List.pairwise_iff_getElem.mp hfp.sorted i j (by omega) hj hij
    have ei := hfp.V_eq i (by omega)
    have ej := hfp.V_eq j hj
    rw [List.getElem?_eq_getElem (by omega), Option.some.injEq] at ei ej
    rw [ei, ej] at this
    exact this p r hp hr
  obtain ⟨f, hf⟩ := List.sublist_iff_exists_fin_orderEmbedding_get_eq.mp hsub
  obtain ⟨a, ha⟩ : ∃ a, a = (f 0).val := ⟨_, rfl⟩
  obtain ⟨b, hb⟩ : ∃ b, b = (f 1).val := ⟨_, rfl⟩
  have hab : a < b := by
    rw [ha, hb]
    exact Fin.lt_def.mp (f.strictMono (by simp))
  have hbl : b < vs.length := by rw [hb]; exact (f 1).isLt
  have hVa : V a = k := by
    have e := hf 0
    have e2 := hfp.V_eq a (by omega)
    rw [List.getElem?_eq_getElem (by omega), Option.some.injEq] at e2
    rw [← e2]
    subst ha
    simpa using e.symm
  have hVb : V b = v := by
    have e := hf 1
    have e2 := hfp.V_eq b hbl
    rw [List.getElem?_eq_getElem hbl, Option.some.injEq] at e2
    rw [← e2]
    subst hb
    simpa using e.symm
  have hposa : (s1.d.vs (V a)).pos = some B := by rw [hVa, hcpos k hk, hB]
  have hposb : (s1.d.vs (V b)).pos = some z := by rw [hVb]; exact hz
  have hzB' : z ≠ B := fun e => hzB (e ▸ List.mem_of_getElem? hB)
  have hstep : ∃ j, a ≤ j ∧ j < b ∧ (s1.d.vs (V j)).pos = some B ∧ (s1.d.vs (V (j + 1))).pos ≠ some B := by
    by_contra hcon
    push Not at hcon
    have : ∀ i, a + i ≤ b → (s1.d.vs (V (a + i))).pos = some B := by
      intro i
      induction i with
      | zero => intro _; exact hposa
      | succ i ih => intro hi; exact hcon (a + i) (by omega) (by omega) (ih (by omega))
    have h1 := this (b - a) (by omega)
    rw [show a + (b - a) = b from by omega, hposb, Option.some.injEq] at h1
    exact hzB' h1
  obtain ⟨j, hja, hjb, hjB, hjn⟩ := hstep
  obtain ⟨w, hw⟩ := hpos (j + 1) (by omega)
  have hkw : orderKey poly.center w = orderKey poly.center B := by
    refine le_antisymm ?_ (hle j (j + 1) (by omega) (by omega) _ _ hjB hw)
    rcases Nat.lt_or_ge (j + 1) b with h1 | h1
    · exact (hle (j + 1) b h1 hbl _ _ hw hposb).trans hkey.le
    · have : j + 1 = b := by omega
      rw [this, hposb, Option.some.injEq] at hw
      rw [← hw, hkey]
  refine ⟨s1.d.heCnt + 2 * j + 1, ?_, ?_, w, fun e => hjn (by rw [hw, e]), hkw, ?_⟩
  · rw [ee]
    exact List.mem_append_right _ (List.mem_map.mpr ⟨j, List.mem_range.mpr (by omega), rfl⟩)
  · obtain ⟨_, ho, _⟩ := hfp.binv.newE j (by omega)
    rw [ed]
    exact ⟨V j, ho, by rw [epos]; exact hjB⟩
  · obtain ⟨htw, _⟩ := hfp.binv.newE j (by omega)
    obtain ⟨_, ho, _⟩ := hfp.binv.newT j (by omega)
    rw [ed]
    exact ⟨_, htw, V (j + 1), ho, by rw [epos, hw]⟩

/-- C97: if clipping puts a vertex between the centre and a corner of the polygon, then the result has a border edge that leads from this
corner to a vertex on the line to the centre, not to the next vertex in clockwise order. -/
theorem C97_backwards (hm : ClockwiseConvex m) (hl : l ~ m) (hp : mkPoly l = .ok poly) (hq : q.Spec evLt ok) (hn : 0 < n)
    (h : createDiagram pts q n fuel poly false (initSt poly) = .ok ((), s')) {k v : Nat} (hk : k < poly.points.length) (hv : v ∈ s'.polyVerts)
    (hz : (s'.d.vs v).pos = some z) {t : ℝ} (ht0 : 0 < t) (ht1 : t < 1)
    (hzt : z = (poly.center.1 + t * ((corner poly.points k).1 - poly.center.1), poly.center.2 + t * ((corner poly.points k).2 - poly.center.2))) :
    ∃ e ∈ s'.edges, OriginAt s'.d e (corner poly.points k) ∧ ∃ u : ℝ, 0 ≤ u ∧ u ≠ 1 ∧
      TargetAt s'.d e (poly.center.1 + u * ((corner poly.points k).1 - poly.center.1), poly.center.2 + u * ((corner poly.points k).2 - poly.center.2)) := by
  obtain ⟨poly', hp', ⟨r, hr⟩, hconv, hB⟩ := C94_clockwise hm hl
  rw [hp, Except.ok.injEq] at hp'
  subst hp'
  have h3 := hconv.1
  have hne : poly.points ≠ [] := by
    intro h0
    rw [h0] at h3
    simp at h3
  have hB' : BoxOf poly.points poly := hB.perm (by rw [hr]; exact (List.rotate_perm m r).symm)
  obtain ⟨B, hBd⟩ : ∃ B, B = corner poly.points k := ⟨_, rfl⟩
  rw [← hBd] at hzt ⊢
  have hBm : B ∈ poly.points := by rw [hBd]; exact corner_mem (by omega)
  have hBc : B ≠ poly.center := fun e => hB'.not_corner hconv (e ▸ hBm)
  have hkey : orderKey poly.center z = orderKey poly.center B := by rw [hzt]; exact direction_same ht0
  have hzm : z ∉ poly.points := by
    intro hzm
    refine hBc (corner_extreme hconv hzm (hB'.closed hconv) (corners_closed hconv hBm) ht0 ht1 ?_).symm
    rw [hzt]
    exact Prod.ext (by simp only [along]; ring) (by simp only [along]; ring)
  obtain ⟨e, he, ho, w, hwB, hkw, ht⟩ := C97_tie (B := B) hq hn h (by rw [hBd, corner_eq hk, List.getElem?_eq_getElem hk]) hv hz hzm hkey
  obtain ⟨u, hu0, hwu⟩ := same_direction hBc hkw
  refine ⟨e, he, ho, u, hu0, ?_, by rw [← hwu]; exact ht⟩
  rintro rfl
  exact hwB (hwu.trans (Prod.ext (by simp only; ring) (by simp only; ring)))

/-- A right triangle with legs parallel to the axes. -/
def exTri : Poly ℚ := (mkPoly [(0, 1), (0, 9), (8, 1)]).toOption.getD exBox

/-- Two sites in it. -/
def exTriSites : Nat → ℚ × ℚ := ptsOf [(4, 2), (6, 2)]

set_option maxRecDepth 100000 in
theorem exTri_create : ∃ s, createDiagram exTriSites heapq 2 40 exTri false (initSt exTri) = .ok ((), s) ∧
    (s.edges = [0, 3, 5, 7, 9, 11] ∧ (s.d.he 5).origin = .vtx 1 ∧ (s.d.vs 1).pos = some (8, 1) ∧ (s.d.he 5).twin = some 4 ∧ (s.d.he 4).origin = .vtx 4 ∧
      (s.d.vs 4).pos = some (5, 4) ∧ (s.d.he 5).incident = some 0 ∧ 4 ∈ s.polyVerts ∧ (area 40 1 s.d).toOption.map (·.1) = some 0) := by
  apply createRun
  decide +kernel

/-- C97: two sites in a right triangle.  The bisector meets the hypotenuse at `(5, 4)`, between the centre `(4, 5)` of the box and the
corner `(8, 1)`.  The border edge from `(8, 1)` leads back to `(5, 4)` and belongs to site 0, although its points are nearer to site 1, and
the area of the cell of site 1 comes out as 0, although the cell is the triangle `(5, 1)`, `(5, 4)`, `(8, 1)`. -/
theorem C97_triangle : mkPoly [(0, 1), (0, 9), (8, 1)] = .ok exTri ∧ (∀ p < 2, 0 < (exTriSites p).1 ∧ 1 < (exTriSites p).2 ∧ (exTriSites p).1 + (exTriSites p).2 < 9) ∧
    (∀ x y : ℚ, (x - (exTriSites 1).1) ^ 2 + (y - (exTriSites 1).2) ^ 2 ≤ (x - (exTriSites 0).1) ^ 2 + (y - (exTriSites 0).2) ^ 2 ↔ 5 ≤ x) ∧
    ∃ s', createDiagram exTriSites heapq 2 40 exTri false (initSt exTri) = .ok ((), s') ∧
      (∃ e ∈ s'.edges, OriginAt s'.d e (8, 1) ∧ TargetAt s'.d e (5, 4) ∧ (s'.d.he e).incident = some 0) ∧ (area 40 1 s'.d).toOption.map (·.1) = some 0 := by
  refine ⟨ofToOption (by decide +kernel), by decide +kernel, ?_, ?_⟩
  · intro x y
    have e0 : exTriSites 0 = (4, 2) := by decide +kernel
    have e1 : exTriSites 1 = (6, 2) := by decide +kernel
    rw [e0, e1]
    constructor <;> intro h <;> nlinarith
  · obtain ⟨s, h, he, h1, h2, h3, h4, h5, h6, _, h7⟩ := exTri_create
    exact ⟨s, h, ⟨5, by rw [he]; decide, ⟨1, h1, h2⟩, ⟨4, h3, 4, h4, h5⟩, h6⟩, h7⟩

/-- The same run meets the hypotheses of `C97_tie`. -/
example : ∃ s', createDiagram exTriSites heapq 2 40 exTri false (initSt exTri) = .ok ((), s') ∧
    ∃ e ∈ s'.edges, OriginAt s'.d e (8, 1) ∧ ∃ w, w ≠ (8, 1) ∧ orderKey exTri.center w = orderKey exTri.center (8, 1) ∧ TargetAt s'.d e w := by
  obtain ⟨s, h, _, _, _, _, _, h5, _, h6, _⟩ := exTri_create
  exact ⟨s, h, C97_tie (k := 1) C45_event_queue (by norm_num) h (by decide +kernel) h6 h5 (by decide +kernel) (by decide +kernel)⟩

end Foronoi
