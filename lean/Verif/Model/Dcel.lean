import Verif.Model.Geometry

/-!
# Model of `graph/half_edge.py`, `graph/vertex.py` and the pointer parts of `graph/point.py`

Half-edges and vertices are records in stores.  Sites (`Point` objects) are numbers; their
`first_edge` attribute is the map `fe`.  `HalfEdge.removed` is never read and is left out.
The origin of a half-edge is a breakpoint or a vertex (a half-edge constructed without an origin,
which the library never does, is not modelled).
-/

namespace Foronoi

/-- half_edge.py:60-61: `origin` is a `Breakpoint` or a `Vertex`. -/
inductive Org where
  | bp (b : Nat)
  | vtx (v : Nat)
  deriving DecidableEq, Repr

/-- half_edge.py:60-74: attributes of a `HalfEdge`. -/
structure HE where
  origin : Org
  incident : Option Nat
  twin : Option Nat
  next : Option Nat
  prev : Option Nat
  deriving DecidableEq, Repr

/-- vertex.py:32-34: position (`none`: `Vertex(None, None)`) and `connected_edges`. -/
structure VR (K : Type) where
  pos : Option (K × K)
  conn : List Nat
  deriving DecidableEq

/-- Stores of half-edges and vertices, and `Point.first_edge` (point.py:47). -/
structure Dcel (K : Type) where
  he : Nat → HE
  heCnt : Nat
  vs : Nat → VR K
  vCnt : Nat
  fe : Nat → Option Nat

abbrev DM (K : Type) := EM (Dcel K)

variable {K : Type}

/-- Read half-edge `e`. -/
def rdE (e : Nat) : DM K HE := fun s => .ok (s.he e, s)

/-- Assign to attributes of half-edge `e`. -/
def updE (e : Nat) (f : HE → HE) : DM K Unit :=
  fun s => .ok ((), { s with he := Function.update s.he e (f (s.he e)) })

/-- Read vertex `v`. -/
def rdV (v : Nat) : DM K (VR K) := fun s => .ok (s.vs v, s)

/-- Assign to attributes of vertex `v`. -/
def updV (v : Nat) (f : VR K → VR K) : DM K Unit :=
  fun s => .ok ((), { s with vs := Function.update s.vs v (f (s.vs v)) })

/-- half_edge.py:131-136 `twin` setter. -/
def setTwin (e : Nat) (t : Option Nat) : DM K Unit := do
  optDo t (fun t => updE t (fun r => { r with twin := some e }))
  updE e (fun r => { r with twin := t })

/-- half_edge.py:6-74 `HalfEdge.__init__`. -/
def newHE (incident : Option Nat) (twin : Option Nat) (origin : Org) : DM K Nat := do
  let e ← (fun s => .ok (s.heCnt, { s with
    he := Function.update s.he s.heCnt ⟨origin, incident, none, none, none⟩
    heCnt := s.heCnt + 1 }) : DM K Nat)
  setTwin e twin
  pure e

/-- vertex.py:5-34 `Vertex.__init__` with no connected edges. -/
def newV (pos : Option (K × K)) : DM K Nat :=
  fun s => .ok (s.vCnt, { s with vs := Function.update s.vs s.vCnt ⟨pos, []⟩, vCnt := s.vCnt + 1 })

/-- `v.connected_edges.append(e)`. -/
def appendConn (v e : Nat) : DM K Unit := updV v (fun r => { r with conn := r.conn ++ [e] })

/-- `v.connected_edges.remove(e)`: ValueError if absent. -/
def removeConn (v e : Nat) : DM K Unit := do
  let r ← rdV v
  if e ∈ r.conn then updV v (fun r => { r with conn := r.conn.erase e }) else throw .value

/-- half_edge.py:79-90 `set_next`. -/
def setNext (e : Nat) (nx : Option Nat) : DM K Unit := do
  optDo nx (fun f => updE f (fun r => { r with prev := some e }))
  updE e (fun r => { r with next := nx })

/-- `p.first_edge` -/
def rdFE (p : Nat) : DM K (Option Nat) := fun s => .ok (s.fe p, s)

/-- `p.first_edge = e` -/
def setFE (p : Nat) (e : Option Nat) : DM K Unit :=
  fun s => .ok ((), { s with fe := Function.update s.fe p e })

/-- `p.first_edge = p.first_edge or e` (algorithm.py:312-313, polygon.py:92). -/
def initFE (p e : Nat) : DM K Unit := do
  let o ← rdFE p
  match o with
  | some _ => pure ()
  | none => setFE p (some e)

/-- half_edge.py:158-159. -/
def detachOrigin (e : Nat) : DM K Unit := do
  let r ← rdE e
  match r.origin with
  | .vtx v => removeConn v e
  | .bp _ => pure ()

/-- half_edge.py:162-163. -/
def unlinkPrev (e : Nat) : DM K Unit := do
  let r ← rdE e
  optDo r.prev (fun p => setNext p r.next)

/-- half_edge.py:169-171, the assertion on the incident point of the next edge. -/
def assertIncident (nx : Option Nat) (q : Nat) : DM K Unit :=
  optDo nx (fun nx => do
    let rn ← rdE nx
    if rn.incident = some q then pure () else throw .assertion)

/-- half_edge.py:166-174. -/
def moveFirstEdge (e : Nat) : DM K Unit := do
  let r ← rdE e
  optDo r.incident (fun q => do
    let fe ← rdFE q
    if fe = some e then do
      assertIncident r.next q
      setFE q r.next
    else pure ())

/-- half_edge.py:151-174 `delete`. -/
def deleteHE (e : Nat) : DM K Unit := do
  detachOrigin e
  unlinkPrev e
  moveFirstEdge e

/-- half_edge.py:138-149 `target`. -/
def target (e : Nat) : DM K (Option Org) := do
  let r ← rdE e
  match r.twin with
  | none => pure none
  | some t => do
    let rt ← rdE t
    pure (some rt.origin)

/-- point.py:90-95: the loop of `borders`, `first` is `self.first_edge`, `acc` the edges so far. -/
def bordersLoop (first : Nat) : Nat → Nat → List Nat → DM K (List Nat)
  | 0, _, _ => throw .fuel
  | fuel + 1, e, acc => do
    let r ← rdE e
    if r.next = some first then pure acc
    else match r.next with
      | none => pure acc
      | some nx => bordersLoop first fuel nx (acc ++ [nx])

/-- point.py:76-95 `borders`. -/
def borders (fuel p : Nat) : DM K (List Nat) := do
  match (← rdFE p) with
  | none => pure []
  | some e => bordersLoop e fuel e [e]

/-- point.py:97-110 `vertices`: origins of the borders that are vertices. -/
def cellVertices (fuel p : Nat) : DM K (List Nat) := do
  let bs ← borders fuel p
  let rec go : List Nat → DM K (List Nat)
    | [] => pure []
    | e :: l => do
      let r ← rdE e
      let tl ← go l
      match r.origin with
      | .vtx v => pure (v :: tl)
      | .bp _ => pure tl
  go bs

variable [LinearOrder K] [Arith K]

/-- point.py:112-118 `_get_xy`: `coordinate.x` is `float(xd)`; TypeError if it is `None`. -/
def getXY (fuel p : Nat) : DM K (List K × List K) := do
  let vs ← cellVertices fuel p
  let rec go : List Nat → DM K (List (K × K))
    | [] => pure []
    | v :: l => do
      let r ← rdV v
      let q ← deref r.pos
      let tl ← go l
      pure ((Arith.toF q.1, Arith.toF q.2) :: tl)
  let xy ← go vs
  pure (xy.map (·.1), xy.map (·.2))

/-- point.py:54-74 `area()` without `digits`. -/
def area (fuel p : Nat) : DM K K := do
  let (x, y) ← getXY fuel p
  pure (shoelace x y)

end Foronoi
