import Verif.Props.Reuse
import Verif.Props.Stable

/-!
# C137: the points a caller gets back

`v = Voronoi(polygon); v.create_diagram(points)`; then `v.sites`, and `first_edge`, `borders()` and `area()` of each of its points.
-/

namespace Foronoi

open scoped List

variable {poly : Poly ℝ} {q : PQ (QE ℝ)} {ok : List (QE ℝ) → Prop} {fuel : Nat} {rz : Bool} {V : Type} {val : V → ℝ} {inp : List (V × V)}

/-- The sites given by the input. -/
noncomputable def given (val : V → ℝ) (inp : List (V × V)) : Nat → ℝ × ℝ := fun i => (inp[i]?.map fun v => (val v.1, val v.2)).getD (0, 0)

theorem bordersLoop_head {d d' : Dcel ℝ} {first : Nat} : ∀ (fuel e : Nat) (acc l : List Nat), acc ≠ [] → bordersLoop first fuel e acc d = .ok (l, d') → l.head? = acc.head? := by
  intro fuel
  induction fuel with
  | zero => intro e acc l _ h; cases h
  | succ k ih =>
    intro e acc l hne h
    simp only [bordersLoop, rdE, bind, StateT.bind, Except.bind, get, getThe, MonadStateOf.get, StateT.get, pure, StateT.pure, Except.pure] at h
    split_ifs at h with h1
    · cases h; rfl
    · cases hnx : (d.he e).next with
      | none => rw [hnx] at h; cases h; rfl
      | some nx => rw [hnx] at h; rw [ih _ _ _ (by simp) h, List.head?_append_of_ne_nil _ hne]

/-- `borders()` starts with `first_edge`. -/
theorem borders_head {d d' : Dcel ℝ} {fuel p : Nat} {l : List Nat} (h : borders fuel p d = .ok (l, d')) : l.head? = d.fe p := by
  cases hfe : d.fe p with
  | none =>
    simp [borders, rdFE, hfe, bind, StateT.bind, Except.bind, pure, StateT.pure, Except.pure] at h
    rw [h.1]; rfl
  | some e =>
    have h' : bordersLoop e fuel e [e] d = .ok (l, d') := by
      simpa [borders, rdFE, hfe, bind, StateT.bind, Except.bind, pure, StateT.pure, Except.pure] using h
    rw [bordersLoop_head _ _ _ _ (by simp) h']; rfl

/-- What the call does: the sites are those of the run of `create_diagram`. -/
theorem call_eq {s' : St ℝ} (h : createDiagram (given val inp) q inp.length fuel poly rz (initSt poly) = .ok ((), s')) :
    voronoi (fun x => some (val x)) q inp fuel poly rz = .ok (sitesOf (given val inp) (List.range inp.length) s', s') := by
  have hm : inp.mapM (fun v => (do let x ← some (val v.1); let y ← some (val v.2); pure (x, y) : Option (ℝ × ℝ))) = some (inp.map fun v => (val v.1, val v.2)) := by
    have : (fun v : V × V => (do let x ← some (val v.1); let y ← some (val v.2); pure (x, y) : Option (ℝ × ℝ))) = fun v => pure (val v.1, val v.2) := rfl
    rw [this, List.mapM_pure]; rfl
  have hp : (fun i => (inp.map fun v => (val v.1, val v.2))[i]?.getD ((lit 0 : ℝ), lit 0)) = given val inp := by
    have h0 : (lit 0 : ℝ) = 0 := by simp [lit, rI]
    funext i
    rw [List.getElem?_map, h0]; rfl
  unfold voronoi
  rw [hm]
  simp only [List.length_map]
  rw [hp, createDiagramOf_range _ _ _ _ _ _ rfl, h]

theorem sitesOf_get {pts : Nat → ℝ × ℝ} {n i : Nat} {s' : St ℝ} {p : SiteObj ℝ} (h : (sitesOf pts (List.range n) s')[i]? = some p) :
    i < n ∧ (p.xd, p.yd) = pts i ∧ p.firstEdge = s'.d.fe i := by
  simp only [sitesOf, List.getElem?_map, Option.map_eq_some_iff] at h
  obtain ⟨j, h1, rfl⟩ := h
  obtain ⟨h2, h3⟩ := List.getElem?_eq_some_iff.mp h1
  rw [List.getElem_range] at h3
  subst h3
  exact ⟨by simpa using h2, rfl, rfl⟩

/-- **C137**: the call succeeds, and gives back the points in the order of the input.  For each point whose cell has a part in the polygon, `first_edge` is the first of its
`borders()`; these are all half-edges of its cell, once and in order around it, and `area()` is the area of the part of its cell in the polygon. -/
theorem C137_call (hF : FitsCorners (given val inp) inp.length poly) (hd : Distinct (given val inp) inp.length) (hq : q.Spec evLt ok) (hne : inp ≠ [])
    (hfuel : 7 * inp.length < fuel) : ∃ sites s', voronoi (fun x => some (val x)) q inp fuel poly rz = .ok (sites, s') ∧ sites.length = inp.length ∧
      ∀ (i : Nat) (v : V × V) (p : SiteObj ℝ), inp[i]? = some v → sites[i]? = some p → p.xd = val v.1 ∧ p.yd = val v.2 ∧
        (Shown (given val inp) inp.length poly i → ∃ e l a, p.firstEdge = some e ∧ borders s'.d.heCnt i s'.d = .ok (l, s'.d) ∧ l.head? = some e ∧
          Around s'.d s'.edges i l ∧ area s'.d.heCnt i s'.d = .ok (a, s'.d) ∧ 0 < a ∧
          MeasureTheory.volume {z | InClosed poly.points z ∧ Nearest (given val inp) inp.length i z} = ENNReal.ofReal a) := by
  obtain ⟨s0, s1, r0, r1, _⟩ := C74_cleanup_succeeds (fuel := fuel) hF hd hq (List.length_pos_iff.mpr hne) hfuel
  have hrun : ∃ s', createDiagram (given val inp) q inp.length fuel poly rz (initSt poly) = .ok ((), s') := by
    cases rz
    · exact ⟨s0, r0⟩
    · exact ⟨s1, r1⟩
  obtain ⟨s', hs'⟩ := hrun
  refine ⟨_, s', call_eq hs', by simp [sitesOf], fun i v p hv hp => ?_⟩
  obtain ⟨hi, hxy, hfe⟩ := sitesOf_get hp
  have hg : given val inp i = (val v.1, val v.2) := by unfold given; rw [hv]; rfl
  rw [hg, Prod.mk.injEq] at hxy
  refine ⟨hxy.1, hxy.2, fun hS => ?_⟩
  obtain ⟨l, h1, h2⟩ := C71_borders hF hd hq hs' hS le_rfl
  obtain ⟨a, h3, h4, _⟩ := C72_area hF hd hq hs' hS le_rfl
  obtain ⟨_, h5⟩ := area_volume hF hd hq hs' hi le_rfl h3
  have hh := borders_head h1
  obtain ⟨e, he⟩ : ∃ e, l.head? = some e := by
    cases l with
    | nil => exact absurd rfl h2.nonempty
    | cons e l => exact ⟨e, rfl⟩
  exact ⟨e, l, a, by rw [hfe, ← hh, he], h1, he, h2, h3, h4, h5⟩

open Check in
/-- C137 for inputs that are given by fractions and meet the decidable condition of C130; the corners may be in any order. -/
theorem C137_fractions {S m : List QPt} (h : Input S m) (hne : S ≠ []) {l : List (ℝ × ℝ)} (hl : l ~ m.map real) (hq : q.Spec evLt ok) (hfuel : 7 * S.length < fuel) :
    ∃ poly sites s', mkPoly l = .ok poly ∧ voronoi (fun x : ℚ => some (x : ℝ)) q S fuel poly rz = .ok (sites, s') ∧ sites.length = S.length ∧
      ∀ (i : Nat) (v : ℚ × ℚ) (p : SiteObj ℝ), S[i]? = some v → sites[i]? = some p → p.xd = (v.1 : ℝ) ∧ p.yd = (v.2 : ℝ) ∧
        ∃ e b a, p.firstEdge = some e ∧ borders s'.d.heCnt i s'.d = .ok (b, s'.d) ∧ b.head? = some e ∧ Around s'.d s'.edges i b ∧
          area s'.d.heCnt i s'.d = .ok (a, s'.d) ∧ 0 < a ∧
          MeasureTheory.volume {z | InClosed (m.map real) z ∧ Nearest (realSites S) S.length i z} = ENNReal.ofReal a := by
  have hG := check_general h
  obtain ⟨poly, hp, ⟨r, hr⟩, _, _⟩ := C94_clockwise hG.convex hl
  obtain ⟨hB, hd⟩ := C130_fits h hl hp
  have hg : given (fun x : ℚ => (x : ℝ)) S = realSites S := by
    funext i
    unfold given realSites real
    rw [List.getD_eq_getElem?_getD]
    cases S[i]? <;> simp
  have hpos : 0 < (m.map real).length := by have := hG.convex.1; omega
  obtain ⟨sites, s', h1, h2, h3⟩ := C137_call (val := fun x : ℚ => (x : ℝ)) (inp := S) (rz := rz) (by rw [hg]; exact hB.toFitsCorners) (by rw [hg]; exact hd) hq hne hfuel
  refine ⟨poly, sites, s', hp, h1, h2, fun i v p hv hpi => ?_⟩
  obtain ⟨g1, g2, g3⟩ := h3 i v p hv hpi
  have hi : i < S.length := (List.getElem?_eq_some_iff.mp hv).1
  obtain ⟨e, b, a, k1, k2, k3, k4, k5, k6, k7⟩ := g3 (by rw [hg]; exact hB.shown hi)
  refine ⟨g1, g2, e, b, a, k1, k2, k3, k4, k5, k6, ?_⟩
  rw [← k7, hg]
  congr 1
  ext z
  show InClosed _ z ∧ _ ↔ InClosed _ z ∧ _
  rw [hr, closed_rotate hpos]

open Check in
/-- C137 applies to the example of the README. -/
theorem C137_readme {l : List (ℝ × ℝ)} (hl : l ~ quickPolygon.map real) : ∃ poly sites s', mkPoly l = .ok poly ∧
    voronoi (fun x : ℚ => some (x : ℝ)) heapq quickSites 50 poly true = .ok (sites, s') ∧ sites.length = 7 ∧ ∀ p ∈ sites, p.firstEdge.isSome := by
  obtain ⟨poly, sites, s', h1, h2, h3, h4⟩ := C137_fractions (rz := true) C130_quickstart (by decide) hl C45_event_queue (fuel := 50) (by decide)
  refine ⟨poly, sites, s', h1, h2, h3, fun p hp => ?_⟩
  obtain ⟨i, hi, rfl⟩ := List.getElem_of_mem hp
  have hi' : i < quickSites.length := by omega
  obtain ⟨_, _, e, b, a, h5, _⟩ := h4 i quickSites[i] _ (List.getElem?_eq_getElem hi') (List.getElem?_eq_getElem hi)
  rw [h5]; rfl

end Foronoi
