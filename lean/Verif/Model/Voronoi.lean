import Verif.Model.Algorithm

/-!
# `Voronoi` objects: input, reported sites, and what is shared between diagrams

`Voronoi = Algorithm` (foronoi/__init__.py).  `createDiagram` models one call on a new object with a new polygon.  Here a call may also be
made on an object that was used before, or on a new object that shares the polygon with an earlier one: `createDiagramOf` takes the
references of the `Point`s made by this call.  A `Point` is a reference into `pts` (its coordinates: no statement of the code
assigns `x`, `y`, `xd` or `yd` of a `Point` after construction), `St.names` and `Dcel.fe` (its two attributes that are assigned).
-/

namespace Foronoi

open Arith

variable {K : Type} [LinearOrder K] [Arith K]

/-- A `Point` as the user sees it: point.py:38-41, coordinate.py:16-17. -/
structure SiteObj (K : Type) where
  xd : K
  yd : K
  name : Option Nat
  firstEdge : Option Nat

/-- `v.sites`: algorithm.py:112 stores the list of points. -/
def sitesOf (pts : Nat → K × K) (sites : List Nat) (s : St K) : List (SiteObj K) :=
  sites.map fun p => ⟨(pts p).1, (pts p).2, s.names p, s.d.fe p⟩

/-- algorithm.py:115-118: one site event per point, in input order. -/
def initQueueOf (pts : Nat → K × K) (q : PQ (QE K)) (sites : List Nat) : AM K Unit :=
  modify fun s => { s with queue := sites.foldl (fun l p => q.push (siteQE pts p) l) s.queue }

/-- polygon.py:45-49 `_get_closest_point`. -/
def closestOf (pts : Nat → K × K) (sites : List Nat) (pos : K × K) : AM K Nat := do
  let ds ← liftA (sites.mapM (fun i => distance pos (pts i)))
  match argmin ds with
  | none => throw .value
  | some i =>
    match sites[i]? with
    | some p => pure p
    | none => throw .index

/-- polygon.py:51-112 `finish_polygon`. -/
def finishPolygonOf (pts : Nat → K × K) (sites : List Nat) (poly : Poly K) : AM K Unit := do
  let s ← get
  let vs := orderedVertices poly s.d.vs s.polyVerts
  match vs with
  | [] => throw .index
  | v0 :: _ => do
    let r ← zD (rdV v0)
    let p ← deref r.pos
    let cell ← closestOf pts sites p
    borderLoop (vs ++ [v0]) (some cell)
    let s ← get
    let ex ← insideVerts poly s.verts
    modify fun s => { s with verts := vs ++ ex }

/-- algorithm.py:122-222 `create_diagram`, called in any state of the object, for the points `sites`. -/
def createDiagramOf (pts : Nat → K × K) (q : PQ (QE K)) (sites : List Nat) (fuel : Nat) (poly : Poly K) (removeZero : Bool) : AM K Unit := do
  initQueueOf pts q sites
  -- 156: index = 0
  modify fun s => { s with nextName := 0 }
  sweepLoop pts q fuel
  notify .debug
  notify .sweepFinished
  finishEdgesSt pts poly
  finishPolygonOf pts sites poly
  whenDo removeZero (cleanUp pts)
  notify .debug
  notify .voronoiFinished

/-- algorithm.py:54-86 `Algorithm(poly)`: a new object that shares the polygon with the diagram in `s`; the objects of that diagram stay in
the stores, and `poly.polygon_vertices` is what it was. -/
def newVoronoi (s : St K) : St K :=
  { s with root := none, sweep := none, arcSet := [], edges := [], verts := [], queue := [], event := none, log := [] }

/-- `v = Voronoi(poly); v.create_diagram(inp); v.sites`, with `toDec` for `Decimal(str(·))` (coordinate.py:28-29; `none`: it raises).
algorithm.py:151 makes the points. -/
def voronoi {V : Type} (toDec : V → Option K) (q : PQ (QE K)) (inp : List (V × V)) (fuel : Nat) (poly : Poly K) (removeZero : Bool) :
    Except Err (List (SiteObj K) × St K) :=
  match inp.mapM (fun v => do let x ← toDec v.1; let y ← toDec v.2; pure (x, y)) with
  | none => .error .arith
  | some l =>
    let pts : Nat → K × K := fun i => l[i]?.getD (lit 0, lit 0)
    match createDiagramOf pts q (List.range l.length) fuel poly removeZero (initSt poly) with
    | .error e => .error e
    | .ok (_, s) => .ok (sitesOf pts (List.range l.length) s, s)

end Foronoi
