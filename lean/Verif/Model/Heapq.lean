import Verif.Model.Algorithm

/-!
# Model of `queue.PriorityQueue`: CPython's `heapq` on a list

`PriorityQueue.put` is `heapq.heappush(self.queue, item)`, `PriorityQueue.get` is `heapq.heappop(self.queue)`.
Source: CPython `Lib/heapq.py` (`heappush`, `heappop`, `_siftdown`, `_siftup`); not part of /repo.
`lt` is `__lt__` of the items.  Positions are passed as in the Python code; the item being moved is `x`, and the list holds an
outdated entry at `pos` until `x` is stored.  Fuel bounds the loops; it is never used up (`heapq_spec`).
-/

namespace Foronoi

variable {E : Type}

/-- `_siftdown(heap, 0, pos)` with `newitem = x`. -/
def siftdown (lt : E → E → Bool) (x : E) : Nat → Nat → List E → List E
  | 0, pos, h => h.set pos x
  | fuel + 1, pos, h =>
    if pos > 0 then
      match h[(pos - 1) / 2]? with
      | some parent => if lt x parent then siftdown lt x fuel ((pos - 1) / 2) (h.set pos parent) else h.set pos x
      | none => h.set pos x
    else h.set pos x

/-- The loop of `_siftup(heap, pos)`: move the smaller child up until a leaf is hit; returns the leaf position and the heap. -/
def siftupLoop (lt : E → E → Bool) : Nat → Nat → List E → Nat × List E
  | 0, pos, h => (pos, h)
  | fuel + 1, pos, h =>
    match h[2 * pos + 1]?, h[2 * pos + 2]? with
    | some l, some r =>
      if !(lt l r) then siftupLoop lt fuel (2 * pos + 2) (h.set pos r) else siftupLoop lt fuel (2 * pos + 1) (h.set pos l)
    | some l, none => siftupLoop lt fuel (2 * pos + 1) (h.set pos l)
    | none, _ => (pos, h)

/-- `heappush`. -/
def heappush (lt : E → E → Bool) (x : E) (h : List E) : List E :=
  siftdown lt x (h.length + 1) h.length (h ++ [x])

/-- `heappop`; `none` stands for the IndexError of an empty list (`PriorityQueue.get` is only called on a nonempty queue). -/
def heappop (lt : E → E → Bool) (h : List E) : Option (E × List E) :=
  match h.getLast? with
  | none => none
  | some last =>
    match h.dropLast with
    | [] => some (last, [])
    | r :: t =>
      let p := siftupLoop lt (t.length + 2) 0 (last :: t)
      some (r, siftdown lt last (p.2.length + 1) p.1 p.2)

/-- The event queue. -/
def heapq {K : Type} [LinearOrder K] : PQ (QE K) := ⟨heappush evLt, heappop evLt⟩

end Foronoi
