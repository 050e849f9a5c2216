import Verif.Spec.Sweep

/-!
# What clipping, closing the border, deletion and clean-up have to achieve
-/

namespace Foronoi

variable {K : Type}

/-- `edge.origin` is a vertex with coordinates `p`. -/
def OriginAt (d : Dcel K) (e : Nat) (p : K × K) : Prop := ∃ v, (d.he e).origin = .vtx v ∧ (d.vs v).pos = some p

/-- `edge.target` is a vertex with coordinates `p`. -/
def TargetAt (d : Dcel K) (e : Nat) (p : K × K) : Prop := ∃ t, (d.he e).twin = some t ∧ OriginAt d t p

/-- The edge attached to a border vertex: the first of `connected_edges`. -/
def Attached (d : Dcel K) (v c : Nat) : Prop := (d.vs v).conn.head? = some c

/-- The border is closed: `bs` are the new half-edges on the inner side, one per boundary vertex of `vs`; `d` before, `d'` after. -/
structure ClosesBorder (d d' : Dcel K) (vs bs : List Nat) : Prop where
  len : bs.length = vs.length
  fresh : ∀ b ∈ bs, d.heCnt ≤ b ∧ b < d'.heCnt
  start : ∀ (j v b : Nat), vs[j]? = some v → bs[j]? = some b → StartsAt d' b v
  stop : ∀ (j w b : Nat), vs[(j + 1) % vs.length]? = some w → bs[j]? = some b → EndsAt d' b w
  /-- the border edge continues with the Voronoi edge leaving its end … -/
  nextVoronoi : ∀ (j w b c : Nat), vs[(j + 1) % vs.length]? = some w → bs[j]? = some b → Attached d w c →
    (d'.he b).next = some c ∧ (d'.he c).prev = some b
  /-- … and with the following border edge if there is none -/
  nextBorder : ∀ (j w b b' : Nat), vs[(j + 1) % vs.length]? = some w → bs[j]? = some b → bs[(j + 1) % vs.length]? = some b' →
    (d.vs w).conn = [] → (d'.he b).next = some b'
  /-- an incoming Voronoi edge continues with the border edge -/
  enter : ∀ (j v b c t : Nat), vs[j]? = some v → bs[j]? = some b → Attached d v c → (d.he c).twin = some t →
    (d'.he t).next = some b ∧ (d'.he b).prev = some t
  /-- the cell of a border edge: that of the incoming Voronoi edge -/
  cellVoronoi : ∀ (j v b c t : Nat), vs[j]? = some v → bs[j]? = some b → Attached d v c → (d.he c).twin = some t →
    (d'.he b).incident = (d.he t).incident
  /-- without one, the cell of the preceding border edge -/
  cellBorder : ∀ (j v b b' : Nat), vs[j + 1]? = some v → bs[j]? = some b → bs[j + 1]? = some b' → (d.vs v).conn = [] →
    (d'.he b').incident = (d'.he b).incident
  /-- old half-edges keep origin, twin and cell; vertices keep their place -/
  keep : ∀ e < d.heCnt, (d'.he e).origin = (d.he e).origin ∧ (d'.he e).twin = (d.he e).twin ∧ (d'.he e).incident = (d.he e).incident
  keepPos : ∀ v, (d'.vs v).pos = (d.vs v).pos

/-- The effect of deleting half-edge `e`: its predecessor is linked to its successor, it leaves the list of its origin, and
`first_edge` moves on. -/
structure Deleted (d : Dcel K) (e : Nat) (d' : Dcel K) : Prop where
  next : ∀ f, (d'.he f).next = if (d.he e).prev = some f then (d.he e).next else (d.he f).next
  prev : ∀ f, (d'.he f).prev = if (d.he e).prev.isSome ∧ (d.he e).next = some f then (d.he e).prev else (d.he f).prev
  keep : ∀ f, (d'.he f).origin = (d.he f).origin ∧ (d'.he f).twin = (d.he f).twin ∧ (d'.he f).incident = (d.he f).incident
  pos : ∀ v, (d'.vs v).pos = (d.vs v).pos
  conn : ∀ v, (d'.vs v).conn = if (d.he e).origin = .vtx v then (d.vs v).conn.erase e else (d.vs v).conn
  first : ∀ p, d'.fe p = if d.fe p = some e then (d.he e).next else d.fe p

end Foronoi
