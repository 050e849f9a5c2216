import Verif.Model.Algorithm

/-!
# What the sweep is supposed to do (specification)

Nothing here refers to the invariants of the proof: only to the stores of the model.
-/

namespace Foronoi

variable {K : Type} [LinearOrder K]

/-- Sweep order of points: higher first, then further left. -/
def Before (a b : K × K) : Prop := b.2 < a.2 ∨ (a.2 = b.2 ∧ a.1 < b.1)

/-- States of the algorithm between two iterations of the main loop: these are the states an observer sees at
`STEP_FINISHED`, and the state before the first event. -/
inductive Reach [Arith K] (pts : Nat → K × K) (q : PQ (QE K)) (n : Nat) (poly : Poly K) : St K → Prop where
  | start {s} : initQueue pts q n (initSt poly) = .ok ((), s) → Reach pts q n poly s
  | step {s s' e rest} : Reach pts q n poly s → q.pop s.queue = some (e, rest) →
      handleEvent pts q e { s with queue := rest } = .ok ((), s') → Reach pts q n poly s'

/-- Every half-edge has a twin, different from it, whose twin it is. -/
def TwinsMirror (d : Dcel K) : Prop :=
  ∀ e < d.heCnt, ∃ t < d.heCnt, t ≠ e ∧ (d.he e).twin = some t ∧ (d.he t).twin = some e

/-- Half-edge `e` ends at vertex `v`: its twin starts there. -/
def EndsAt (d : Dcel K) (e v : Nat) : Prop := ∃ t, (d.he e).twin = some t ∧ (d.he t).origin = .vtx v

/-- Half-edge `e` starts at vertex `v`. -/
def StartsAt (d : Dcel K) (e v : Nat) : Prop := (d.he e).origin = .vtx v

/-- `next` and `prev` are inverse to each other, stay at the same cell, connect end to start, and are set exactly at ends that are
vertices. -/
structure LinksCoherent (d : Dcel K) : Prop where
  next_prev : ∀ e < d.heCnt, ∀ f, (d.he e).next = some f → f < d.heCnt ∧ (d.he f).prev = some e
  prev_next : ∀ e < d.heCnt, ∀ f, (d.he e).prev = some f → f < d.heCnt ∧ (d.he f).next = some e
  same_cell : ∀ e < d.heCnt, ∀ f, (d.he e).next = some f → (d.he f).incident = (d.he e).incident
  joins : ∀ e < d.heCnt, ∀ f, (d.he e).next = some f → ∃ v, EndsAt d e v ∧ StartsAt d f v
  next_iff : ∀ e < d.heCnt, ((d.he e).next).isSome ↔ ∃ v, EndsAt d e v
  prev_iff : ∀ e < d.heCnt, ((d.he e).prev).isSome ↔ ∃ v, StartsAt d e v

/-- The half-edge `e` separates the cell of `p` (its own) from the cell of `r` (its twin's). -/
def Separates (d : Dcel K) (e p r : Nat) : Prop :=
  (d.he e).incident = some p ∧ ∃ t, (d.he e).twin = some t ∧ (d.he t).incident = some r

/-- Vertex `v` joins exactly three edges, leaving it in the cyclic order of three different sites. -/
def JoinsThree (d : Dcel K) (v : Nat) : Prop :=
  ∃ a b c x y z, (d.vs v).conn.Perm [a, b, c] ∧ a ≠ b ∧ a ≠ c ∧ b ≠ c ∧
    StartsAt d a v ∧ StartsAt d b v ∧ StartsAt d c v ∧
    x ≠ y ∧ y ≠ z ∧ x ≠ z ∧ Separates d a x y ∧ Separates d b y z ∧ Separates d c z x

/-- The pointer tree below node `i`, whose parent is `p`: its nodes and the sites of its leaves, left to right.  Every inner node
stores the pair of the sites on its two sides. -/
inductive BeachTree (ns : Nat → NodeR Dat) (arcs : Nat → ArcR) (bps : Nat → BpR) : Option Nat → Nat → List Nat → List Nat → Prop where
  | leaf {p i a} : (ns i).parent = p → (ns i).left = none → (ns i).right = none → (ns i).data = .arc a →
      BeachTree ns arcs bps p i [i] [(arcs a).origin]
  | node {p i b l r nl nr xs ys x y} : (ns i).parent = p → (ns i).left = some l → (ns i).right = some r → (ns i).data = .bp b →
      BeachTree ns arcs bps (some i) l nl xs → BeachTree ns arcs bps (some i) r nr ys →
      xs.getLast? = some x → ys.head? = some y → (bps b).pair = (x, y) →
      BeachTree ns arcs bps p i (nl ++ i :: nr) (xs ++ ys)

/-- The status tree of a state is a full binary tree without sharing, or empty. -/
def StatusTree (s : St K) (sites : List Nat) : Prop :=
  (s.root = none ∧ sites = []) ∨
    ∃ r nodes, s.root = some r ∧ nodes.Nodup ∧ BeachTree s.ns.n s.arcs s.bps none r nodes sites

/-- The leaves of the tree below `i`, left to right, as (node, arc) pairs. -/
inductive Leaves (ns : Nat → NodeR Dat) : Nat → List (Nat × Nat) → Prop where
  | leaf {i a} : (ns i).left = none → (ns i).right = none → (ns i).data = .arc a → Leaves ns i [(i, a)]
  | node {i l r xs ys} : (ns i).left = some l → (ns i).right = some r → Leaves ns l xs → Leaves ns r ys → Leaves ns i (xs ++ ys)

/-- Circle event `c` describes the beach line: its leaf holds an arc `a` that knows the event, and the arcs `a1`, `a`, `a3` are
neighbours and belong to the three sites of the event. -/
def EventCurrent (s : St K) (c : Nat) : Prop :=
  ∃ r xs A B n1 a1 a n3 a3, s.root = some r ∧ Leaves s.ns.n r xs ∧
    xs = A ++ (n1, a1) :: ((s.evs c).arcPtr, a) :: (n3, a3) :: B ∧ (s.arcs a).cev = some c ∧
    (s.evs c).triple = ((s.arcs a1).origin, (s.arcs a).origin, (s.arcs a3).origin)

/-- The notifications other than debug messages. -/
def steps (l : List Msg) : List Msg := l.filter (fun m => decide (m ≠ .debug))

end Foronoi
