import Verif.Props.Diagonal
import Verif.Props.CreateReal
import Mathlib.Data.List.Perm.Basic

/-!
# C98: `Polygon` does not know in which order the corners were given

Its constructor sorts the corners by their angle around the centre of their box, so two polygons with the same corners give the same
`Polygon`.  For convex polygons this does no harm (C94).  Four corners, one of them inside the triangle of the others, are the corners of
three polygons; at least two of them are replaced by another polygon.

# C99: a corner on the border of two cells
-/

namespace Foronoi

open scoped List

section
variable {K : Type} [LinearOrder K]

theorem listMin_perm {l l' : List K} (h : l ~ l') : listMin l = listMin l' := by
  induction h with
  | nil => rfl
  | @cons x l l' h _ =>
    simp only [listMin]
    congr 1
    exact h.foldl_eq' (fun a _ b _ z => by rw [min_assoc, min_assoc, min_comm a b]) x
  | swap a b l => simp only [listMin, List.foldl_cons, min_comm]
  | trans _ _ h1 h2 => exact h1.trans h2

theorem listMax_perm {l l' : List K} (h : l ~ l') : listMax l = listMax l' := by
  induction h with
  | nil => rfl
  | @cons x l l' h _ =>
    simp only [listMax]
    congr 1
    exact h.foldl_eq' (fun a _ b _ z => by rw [max_assoc, max_assoc, max_comm a b]) x
  | swap a b l => simp only [listMax, List.foldl_cons, max_comm]
  | trans _ _ h1 h2 => exact h1.trans h2

/-- C98: if the corners have different angles around the centre, the result of the constructor does not depend on the order in which they
are given. -/
theorem C98_same_corners [Arith K] {l l' : List (K × K)} {poly : Poly K} (hl : l ~ l') (h : mkPoly l = .ok poly)
    (hk : ∀ a ∈ l, ∀ b ∈ l, orderKey poly.center a = orderKey poly.center b → a = b) : mkPoly l' = .ok poly := by
  unfold mkPoly at h ⊢
  rw [← listMin_perm (hl.map (·.1)), ← listMin_perm (hl.map (·.2)), ← listMax_perm (hl.map (·.1)), ← listMax_perm (hl.map (·.2))]
  split at h
  · split at h
    · rename_i cx cy _ _
      rw [Except.ok.injEq] at h
      subst h
      simp only at hk
      simp only [Except.ok.injEq, Poly.mk.injEq, and_true]
      have hs : ∀ L : List (K × K), (L.insertionSort fun p q => orderKey (cx, cy) p ≤ orderKey (cx, cy) q).Pairwise fun p q => orderKey (cx, cy) p ≤ orderKey (cx, cy) q := by
        intro L
        haveI : Std.Total (fun p q : K × K => orderKey (cx, cy) p ≤ orderKey (cx, cy) q) := ⟨fun a b => le_total _ _⟩
        haveI : IsTrans (K × K) (fun p q => orderKey (cx, cy) p ≤ orderKey (cx, cy) q) := ⟨fun a b c => le_trans⟩
        exact List.pairwise_insertionSort _ _
      have p1 := List.perm_insertionSort (fun p q => orderKey (cx, cy) p ≤ orderKey (cx, cy) q) l
      have p2 := List.perm_insertionSort (fun p q => orderKey (cx, cy) p ≤ orderKey (cx, cy) q) l'
      refine List.Perm.eq_of_pairwise (le := fun p q => orderKey (cx, cy) p ≤ orderKey (cx, cy) q) ?_ (hs l') (hs l) (p2.trans (hl.symm.trans p1.symm))
      intro a b ha hb h1 h2
      exact hk a (hl.mem_iff.mpr (p2.mem_iff.mp ha)) b (p1.mem_iff.mp hb) (le_antisymm h1 h2)
    · cases h
  · cases h
end

/-- The four-sided polygon with corners `(0, 0)`, `(3, 4)`, `(0, 8)`, `(8, 4)`: an arrowhead. -/
def exDart : Poly ℚ := (mkPoly [(0, 0), (3, 4), (0, 8), (8, 4)]).toOption.getD exBox

/-- C98: the polygon `(0, 0)`, `(3, 4)`, `(8, 4)`, `(0, 8)` becomes the polygon `(3, 4)`, `(0, 8)`, `(8, 4)`, `(0, 0)`.  The point `(1, 4)` is
in the triangle `(0, 0)`, `(3, 4)`, `(0, 8)`, so in the first polygon, as `inside` would say for its corners in the order given, but for the stored
order it says no. -/
theorem C98_other_polygon : mkPoly [(0, 0), (3, 4), (8, 4), (0, 8)] = .ok exDart ∧ exDart.points = [(3, 4), (0, 8), (8, 4), (0, 0)] ∧
    inside [(0, 0), (3, 4), (8, 4), (0, 8)] ((1 : ℚ), 4) = some true ∧ inside exDart.points (1, 4) = some false := by
  have h : mkPoly [(0, 0), (3, 4), (0, 8), (8, 4)] = .ok exDart := ofToOption (by decide +kernel)
  refine ⟨C98_same_corners ?_ h (by decide +kernel), by decide +kernel, by decide +kernel, by decide +kernel⟩
  exact ((List.Perm.swap _ _ []).cons _).cons _

/-- An isosceles triangle. -/
def exApex : Poly ℚ := (mkPoly [(-10, 101), (0, 110), (10, 101)]).toOption.getD exBox

/-- Two sites in it, symmetric to its axis. -/
def exApexSites : Nat → ℚ × ℚ := ptsOf [(2, 103), (-2, 103)]

set_option maxRecDepth 100000 in
theorem exApex_create : ∃ s, createDiagram exApexSites heapq 2 40 exApex false (initSt exApex) = .ok ((), s) ∧
    (11 ∈ s.edges ∧ (s.d.he 11).incident = some 1 ∧ (s.d.he 11).next = some 3 ∧ (s.d.he 3).incident = some 0 ∧
      (area 40 0 s.d).toOption.map (·.1) = some 45 ∧ (area 40 1 s.d).toOption.map (·.1) = some 45) := by
  apply createRun
  decide +kernel

/-- C99: two sites that are symmetric to the axis of an isosceles triangle, without clean-up.  The apex is on the border of both cells and the
first vertex of the border.  The border edge of site 1 that ends there is followed by a half-edge noted for site 0.  The areas are right. -/
theorem C99_first_corner : mkPoly [(-10, 101), (0, 110), (10, 101)] = .ok exApex ∧ exApex.points.head? = some (0, 110) ∧
    (0 - (exApexSites 0).1) ^ 2 + (110 - (exApexSites 0).2) ^ 2 = (0 - (exApexSites 1).1) ^ 2 + (110 - (exApexSites 1).2) ^ 2 ∧
    ∃ s', createDiagram exApexSites heapq 2 40 exApex false (initSt exApex) = .ok ((), s') ∧
      (∃ e ∈ s'.edges, ∃ f, (s'.d.he e).next = some f ∧ (s'.d.he e).incident = some 1 ∧ (s'.d.he f).incident = some 0) ∧
      (area 40 0 s'.d).toOption.map (·.1) = some 45 ∧ (area 40 1 s'.d).toOption.map (·.1) = some 45 := by
  refine ⟨ofToOption (by decide +kernel), by decide +kernel, by decide +kernel, ?_⟩
  obtain ⟨s, h, h1, h2, h3, h4, h5⟩ := exApex_create
  exact ⟨s, h, ⟨11, h1, 3, h3, h2, h4⟩, h5⟩

/-- Another isosceles triangle. -/
def exRoof : Poly ℚ := (mkPoly [(-1000, 360), (0, 1360), (1000, 360)]).toOption.getD exBox

/-- Three sites in it, the last two symmetric to its axis. -/
def exRoofSites : Nat → ℚ × ℚ := ptsOf [(-900, 444), (800, 369), (-800, 369)]

set_option maxRecDepth 100000 in
/-- C99: the clean-up, which is on by default, raises an `AssertionError` for three sites strictly inside an isosceles triangle: the half-edge
without length at the apex is the `first_edge` of site 1, but is followed by an edge of site 2.  Without the clean-up the area of site 1
is that of site 2, although the points nearest to site 1 are the right half of the triangle, whose area is 500000. -/
theorem C99_raises : mkPoly [(-1000, 360), (0, 1360), (1000, 360)] = .ok exRoof ∧
    (∀ p < 3, 360 < (exRoofSites p).2 ∧ (exRoofSites p).1 + (exRoofSites p).2 < 1360 ∧ (exRoofSites p).2 - (exRoofSites p).1 < 1360) ∧
    createDiagram exRoofSites heapq 3 40 exRoof true (initSt exRoof) = .error .assertion ∧
    ∃ s', createDiagram exRoofSites heapq 3 40 exRoof false (initSt exRoof) = .ok ((), s') ∧
      (area 40 1 s'.d).toOption.map (·.1) = some (15151759 / 32) ∧ (area 40 2 s'.d).toOption.map (·.1) = some (15151759 / 32) := by
  refine ⟨ofToOption (by decide +kernel), by decide +kernel, ?_, ?_⟩
  · rw [← createDiagramF_eq]
    exact chkErr_eq (by decide +kernel)
  · apply createRun
    decide +kernel

/-- All points of the right half of the triangle, and only these, are nearest to site 1. -/
theorem C99_right_half {x y : ℚ} (h1 : 360 ≤ y) (h2 : y - x ≤ 1360) (h3 : x + y ≤ 1360) :
    (∀ p < 3, (x - (exRoofSites 1).1) ^ 2 + (y - (exRoofSites 1).2) ^ 2 ≤ (x - (exRoofSites p).1) ^ 2 + (y - (exRoofSites p).2) ^ 2) ↔ 0 ≤ x := by
  have e0 : exRoofSites 0 = (-900, 444) := by decide +kernel
  have e1 : exRoofSites 1 = (800, 369) := by decide +kernel
  have e2 : exRoofSites 2 = (-800, 369) := by decide +kernel
  rw [e1]
  constructor
  · intro h
    have := h 2 (by norm_num)
    rw [e2] at this
    nlinarith
  · intro h p hp
    rcases (by omega : p = 0 ∨ p = 1 ∨ p = 2) with rfl | rfl | rfl
    · rw [e0]
      nlinarith
    · rw [e1]
    · rw [e2]
      nlinarith

end Foronoi
