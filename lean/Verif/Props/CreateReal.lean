import Verif.Props.Voronoi
import Verif.Props.ClipExamples
import Verif.Proof.Ray
import Verif.Proof.PolyReal

/-!
# Exceptions of `create_diagram` with exact arithmetic (C58, C59)
-/

namespace Foronoi

open scoped List

section real

variable {pts : Nat → ℝ × ℝ} {q : PQ (QE ℝ)} {ok : List (QE ℝ) → Prop} {n : Nat} {poly : Poly ℝ} {s : St ℝ}

theorem geoTot_real (poly : Poly ℝ) : GeoTot poly := by
  refine ⟨fun z => by rw [inside_real]; rfl, ?_, fun a b => by rw [distance_real]; rfl⟩
  intro a b
  unfold intersectionPoint
  cases hh : borderHits a b (poly.points ++ poly.points.take 1) with
  | nil => rfl
  | cons h H =>
    obtain _ | ⟨ox, _ | oy⟩ := a <;> obtain _ | ⟨ex, _ | ey⟩ := b <;> try rfl
    simp only []
    rw [distance_real, mapM_distance]
    simp only [Option.bind_eq_bind, Option.bind_some]
    split <;> rfl

/-- After the sweep every breakpoint on record can be computed at the clipping sweep line. -/
theorem orgTot_real {L : List (Item Dat)} (hI : Inv pts ok n poly.points.length s L)
    (hl : ∀ i < n, poly.minY - |poly.maxY| ≤ (pts i).2) : ∀ f < s.d.heCnt, OrgTot pts poly s f := by
  intro f hf b hb
  have habs : dabs poly.maxY = |poly.maxY| := by
    unfold dabs
    simp only [lit, rI, rNeg]
    split
    · rename_i h; rw [abs_of_neg (by simpa using h)]
    · rename_i h; rw [abs_of_nonneg (by simpa using h)]
  obtain ⟨_, _, h2, h1⟩ := hI.dinv.obp f hf b hb
  obtain ⟨t, ht, htl, _⟩ := hI.dinv.tw f hf
  have key : ∀ e < s.d.heCnt, ∀ p, (s.d.he e).incident = some p → poly.minY - |poly.maxY| ≤ (pts p).2 := by
    intro e he p hp
    obtain ⟨p', g1, g2⟩ := hI.dinv.inc e he
    rw [hp] at g1; cases g1
    obtain ⟨k, hk⟩ := Option.isSome_iff_exists.mp g2
    exact hl p (hI.sinv.nmLt p k hk).2
  rw [habs, rSub]
  obtain ⟨y, hy, _⟩ := getIntersection_real (key t htl _ (h1 t ht)) (key f hf _ h2) (some poly.maxY)
  rw [hy]; rfl

/-- C58: with exact arithmetic nothing but the clean-up can raise: for distinct sites that are not below the clipping sweep line (in
particular for sites inside the polygon), `create_diagram` without clean-up succeeds, and with clean-up it succeeds or ends in one of
the two exceptions of the clean-up. -/
theorem C58_create_succeeds (hd : Distinct pts n) (hq : q.Spec evLt ok) (hn : 0 < n) (hne : poly.points ≠ [])
    (hl : ∀ i < n, poly.minY - |poly.maxY| ≤ (pts i).2) {fuel : Nat} (hf : 7 * n < fuel) :
    (∃ s', createDiagram pts q n fuel poly false (initSt poly) = .ok ((), s')) ∧
    ((∃ s', createDiagram pts q n fuel poly true (initSt poly) = .ok ((), s')) ∨
      createDiagram pts q n fuel poly true (initSt poly) = .error .value ∨
      createDiagram pts q n fuel poly true (initSt poly) = .error .assertion) := by
  obtain ⟨sr, log', hs, hr, _⟩ := C23_no_errors (poly := poly) hd hq hf
  obtain ⟨L, hI⟩ := reach_inv hq hr
  have hc := reach_corner hq hr
  have hI0 : Inv pts ok n poly.points.length { sr with log := log' } L :=
    ⟨hI.tree, hI.beach, { hI.qinv with }, { hI.sinv with }, hI.dinv, { hI.cinv with }⟩
  have hc0 : CornerInv poly { sr with log := log' } := ⟨hc.pv, hc.pos⟩
  have hw : ∀ rz, Wp (fun err => rz = true ∧ (err = .value ∨ err = .assertion)) (createDiagram pts q n fuel poly rz) (initSt poly) (fun _ _ => True) := by
    intro rz
    have hdef : createDiagram pts q n fuel poly rz = (do
        sweepAll pts q n fuel
        (do finishEdgesSt pts poly; finishPolygon pts n poly; whenDo rz (cleanUp pts); notify .debug; notify .voronoiFinished)) := rfl
    rw [hdef]
    unfold Wp
    rw [bind_ok hs]
    exact wp_mono (wp_afterSweep (E := fun err => rz = true ∧ (err = .value ∨ err = .assertion)) (rz := rz) hn hne
      (Or.inr ⟨geoTot_real poly, orgTot_real hI0 hl⟩) (fun hz => ⟨⟨hz, Or.inl rfl⟩, ⟨hz, Or.inr rfl⟩⟩) hI0 hc0) (fun _ _ _ => trivial)
  constructor
  · cases h : createDiagram pts q n fuel poly false (initSt poly) with
    | ok v => exact ⟨v.2, rfl⟩
    | error e => exact absurd ((hw false).err h).1 (by simp)
  · cases h : createDiagram pts q n fuel poly true (initSt poly) with
    | ok v => exact Or.inl ⟨v.2, rfl⟩
    | error e =>
      rcases ((hw true).err h).2 with rfl | rfl
      · exact Or.inr (Or.inl rfl)
      · exact Or.inr (Or.inr rfl)

/-- The five sites of `ex5`, as points with real coordinates. -/
noncomputable def ex5r : Nat → ℝ × ℝ := fun i => ((ex5 i).1, (ex5 i).2)

/-- The hypotheses of `C58_create_succeeds` are met, for instance by five sites in the box from `-10` to `10`. -/
example : (∃ s', createDiagram ex5r heapq 5 40 ⟨[(-10, 10), (10, 10), (10, -10), (-10, -10)], -10, -10, 10, 10, (0, 0)⟩ false
    (initSt ⟨[(-10, 10), (10, 10), (10, -10), (-10, -10)], -10, -10, 10, 10, (0, 0)⟩) = .ok ((), s')) := by
  have hinj : ∀ i < 5, ∀ j < 5, ex5 i = ex5 j → i = j := by decide +kernel
  have hlow : ∀ i < 5, (-20 : ℚ) ≤ (ex5 i).2 := by decide +kernel
  refine (C58_create_succeeds (n := 5) ?_ C45_event_queue (by norm_num) (by simp) ?_ (by norm_num)).1
  · intro i hi j hj h
    refine hinj i hi j hj ?_
    simp only [ex5r, Prod.mk.injEq] at h
    exact Prod.ext (by exact_mod_cast h.1) (by exact_mod_cast h.2)
  · intro i hi
    have := hlow i hi
    have h2 : ((-20 : ℚ) : ℝ) ≤ ((ex5 i).2 : ℝ) := by exact_mod_cast this
    simp only [ex5r]
    norm_num at h2 ⊢
    linarith

end real

/-! ### The clean-up raises -/

/-- Three sites whose common Voronoi vertex `(104, 153)` is on the upper side of the box. -/
def exAs : Nat → ℚ × ℚ := ptsOf [(0, 0), (208, 0), (280, 96)]

/-- The box with corners `(-50, -89)` and `(350, 153)`. -/
def exAsBox : Poly ℚ := ⟨[(-50, 153), (350, 153), (350, -89), (-50, -89)], -89, -50, 153, 350, (150, 32)⟩

set_option maxRecDepth 100000

def chkErr {α : Type} (r : Except Err α) (e : Err) : Bool :=
  match r with
  | .ok _ => false
  | .error e' => decide (e' = e)

theorem chkErr_eq {α : Type} {r : Except Err α} {e : Err} (h : chkErr r e = true) : r = .error e := by
  cases r with
  | ok _ => cases h
  | error e' => rw [of_decide_eq_true h]

/-- C59: the clean-up of zero length edges, which is on by default, can make `create_diagram` raise: three sites strictly inside a box
for which `create_diagram` succeeds without clean-up and ends in an `AssertionError` with it.  All square roots under breakpoints and
circle radii of this run are roots of squares, so they are computed exactly. -/
theorem C59_cleanup_raises : boundingBox (-50) 350 (-89) (153 : ℚ) = .ok exAsBox ∧
    (∀ i < 3, -50 < (exAs i).1 ∧ (exAs i).1 < 350 ∧ -89 < (exAs i).2 ∧ (exAs i).2 < 153) ∧
    (∃ s', createDiagram exAs heapq 3 40 exAsBox false (initSt exAsBox) = .ok ((), s')) ∧
    createDiagram exAs heapq 3 40 exAsBox true (initSt exAsBox) = .error .assertion := by
  refine ⟨ofToOption (by decide +kernel), by decide +kernel, ?_, ?_⟩
  · obtain ⟨s, h, _⟩ := createRun (pts := exAs) (n := 3) (fuel := 40) (poly := exAsBox) (rz := false) (P := fun _ => True) (by decide +kernel)
    exact ⟨s, h⟩
  · rw [← createDiagramF_eq]
    exact chkErr_eq (by decide +kernel)

end Foronoi
