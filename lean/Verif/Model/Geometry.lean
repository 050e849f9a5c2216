import Verif.Model.Base
import Mathlib.Data.List.Sort

/-!
# Model of the numeric functions

`graph/algebra.py`, `nodes/breakpoint.py`, `nodes/arc.py`, `CircleEvent.create_circle`,
`Event.__lt__`/`__eq__`, `Point._shoelace`, `Polygon.inside`, ...
A coordinate pair is `K × K` (`xd`, `yd`).  `none` in an `Option` result is a Decimal signal
(`Err.arith`), unless said otherwise.
-/

namespace Foronoi

open Arith

variable {K : Type} [LinearOrder K] [Arith K]

/-- A `yd` value: finite, or `Decimal('Infinity')` (written by breakpoint.py:89, 115). -/
inductive Ext (K : Type) where
  | fin (k : K)
  | inf
  deriving DecidableEq

/-- integer literals 0, 1, 2 -/
abbrev lit (n : Int) : K := ofInt n

/-! ### nodes/breakpoint.py -/

/-- breakpoint.py:36-49 `does_intersect`. -/
def doesIntersect (i j : K × K) : Bool :=
  !(decide (i.2 = j.2) && decide (j.1 < i.1))

/-- breakpoint.py:102-104, the quadratic formula: the argument of the root and the quotient. -/
def bpRootArg (a b c d u v l : K) : K :=
  add (add
    (mul v (add (add (sub (mul (sq a) u) (mul (mul (mul (lit 2) a) c) u)) (mul (sq b) (sub u v))) (mul (sq c) u)))
    (mul (mul (sq d) u) (sub v u)))
    (mul (sq l) (sq (sub u v)))

/-- breakpoint.py:102-104 -/
def bpQuad (a b c d u v l : K) : Option K := do
  let s ← sqrt (bpRootArg a b c d u v l)
  div (neg (sub (add s (mul a v)) (mul c u))) (sub u v)

/-- breakpoint.py:107-120, the `y` part: `p` is the point used, `x` the abscissa. -/
def bpY (p : K × K) (x l : K) : Option (Ext K) :=
  let a := p.1
  let b := p.2
  let u := mul (lit 2) (sub b l)
  if u = lit 0 then some .inf
  else do
    let r ← div (lit 1) u
    some (.fin (mul r (sub (add (add (sub (sq x) (mul (mul (lit 2) a) x)) (sq a)) (sq b)) (sq l))))

/-- `max_y or float('inf')`, breakpoint.py:89 (0 and `None` are falsy). -/
def maxYOr (maxY : Option K) : Ext K :=
  match maxY with
  | some m => if m = lit 0 then .inf else .fin m
  | none => .inf

/-- breakpoint.py:51-120 `Breakpoint.get_intersection`. -/
def getIntersection (i j : K × K) (l : K) (maxY : Option K) : Option (K × Ext K) := do
  let a := i.1
  let b := i.2
  let c := j.1
  let d := j.2
  let u := mul (lit 2) (sub b l)
  let v := mul (lit 2) (sub d l)
  if b = d then
    let x ← div (add a c) (lit 2)
    if c < a then
      some (x, maxYOr maxY)
    else
      let y ← bpY i x l
      some (x, y)
  else if b = l then
    let y ← bpY j a l
    some (a, y)
  else if d = l then
    let y ← bpY i c l
    some (c, y)
  else
    let x ← bpQuad a b c d u v l
    let y ← bpY i x l
    some (x, y)

/-! ### nodes/arc.py -/

/-- arc.py:34-61 `Arc.get_plot` for one abscissa; `x`, `sweep` and the result are floats.
The outer `none` is Python's `None`. -/
def arcPlot (origin : K × K) (x sweep : K) : Option K :=
  let iy := toF origin.2
  let ix := toF origin.1
  if fsub iy sweep = lit 0 then none
  else
    let u := fmul (lit 2) (fsub iy sweep)
    let v := fsub (fadd (fadd (fsub (fmul x x) (fmul (fmul (lit 2) ix) x)) (fmul ix ix)) (fmul iy iy)) (fmul sweep sweep)
    some (fdiv v u)

/-! ### events -/

/-- Result of `create_circle`: `False` (collinear) or center and radius. -/
structure Circle (K : Type) where
  x : K
  y : K
  r : K

/-- circle_event.py:153: the number tested against zero. -/
def circleG (a b c : K × K) : K :=
  mul (lit 2) (sub (mul (sub b.1 a.1) (sub c.2 b.2)) (mul (sub b.2 a.2) (sub c.1 b.1)))

/-- circle_event.py:125-165 `create_circle`; inner `none` is `False`. -/
def createCircle (a b c : K × K) : Option (Option (Circle K)) :=
  let A := sub b.1 a.1
  let B := sub b.2 a.2
  let C := sub c.1 a.1
  let D := sub c.2 a.2
  let E := add (mul (sub b.1 a.1) (add a.1 b.1)) (mul (sub b.2 a.2) (add a.2 b.2))
  let F := add (mul (sub c.1 a.1) (add a.1 c.1)) (mul (sub c.2 a.2) (add a.2 c.2))
  let G := circleG a b c
  if G = lit 0 then some none
  else do
    let x ← div (sub (mul D E) (mul B F)) G
    let y ← div (sub (mul A F) (mul C E)) G
    let r ← sqrt (add (sq (sub a.1 x)) (sq (sub a.2 y)))
    some (some ⟨x, y, r⟩)

/-- The fields of an event its order looks at (`xd`, `yd`, `circle_event`) and the object:
`ref` is the point of a site event (site_event.py:19), the event itself for a circle event. -/
structure QE (K : Type) where
  yd : K
  xd : K
  circ : Bool
  ref : Nat
  deriving DecidableEq

omit [Arith K] in
/-- event.py:12-20 `__lt__`. -/
def evLt (e f : QE K) : Bool :=
  if e.yd = f.yd ∧ e.xd = f.xd then e.circ && !f.circ
  else if e.yd = f.yd then decide (e.xd < f.xd)
  else decide (e.yd > f.yd)

omit [Arith K] in
/-- event.py:22-28 `__eq__` on two events. -/
def evEq (e f : QE K) : Bool := decide (e.yd = f.yd) && decide (e.xd = f.xd)

/-! ### graph/algebra.py -/

/-- algebra.py:6-13 `distance` (`np.sqrt` of a Decimal is `Decimal.sqrt`). -/
def distance (p q : K × K) : Option K :=
  sqrt (add (sq (sub q.1 p.1)) (sq (sub q.2 p.2)))

/-- algebra.py:15-17 `magnitude` of a float 2-vector. -/
def magnitude (v : K × K) : K := fsqrt (fadd (fmul v.1 v.1) (fmul v.2 v.2))

/-- algebra.py:19-23 `norm`. -/
def norm (v : K × K) : K × K :=
  if magnitude v = lit 0 then v else (fdiv v.1 (magnitude v), fdiv v.2 (magnitude v))

/-- `np.dot` on 2-vectors. -/
def fdot (v w : K × K) : K := fadd (fmul v.1 w.1) (fmul v.2 w.2)

/-- `np.cross` on 2-vectors. -/
def fcross (v w : K × K) : K := fsub (fmul v.1 w.2) (fmul v.2 w.1)

/-- algebra.py:25-48 `line_ray_intersection_point`; arguments are the Decimal pairs, the result is
a float pair; `none` is the empty list.  (`t1 > 0.0`, `0.0 <= t2 <= 1.0`.) -/
def lineRay (rayOrig rayEnd p1 p2 : K × K) : Option (K × K) :=
  let orig : K × K := (toF rayOrig.1, toF rayOrig.2)
  let end_ : K × K := (toF rayEnd.1, toF rayEnd.2)
  let direction := norm (fsub end_.1 orig.1, fsub end_.2 orig.2)
  let q1 : K × K := (toF p1.1, toF p1.2)
  let q2 : K × K := (toF p2.1, toF p2.2)
  let v1 : K × K := (fsub orig.1 q1.1, fsub orig.2 q1.2)
  let v2 : K × K := (fsub q2.1 q1.1, fsub q2.2 q1.2)
  let v3 : K × K := (fsub (lit 0) direction.2, direction.1)
  if fdot v2 v3 = lit 0 then none
  else
    let t1 := fdiv (fcross v2 v1) (fdot v2 v3)
    let t2 := fdiv (fdot v1 v3) (fdot v2 v3)
    if t1 > lit 0 ∧ lit 0 ≤ t2 ∧ t2 ≤ lit 1 then
      some (fadd orig.1 (fmul t1 direction.1), fadd orig.2 (fmul t1 direction.2))
    else none

/-- algebra.py:50-60 `get_intersection`; `none` is `None`.  A missing coordinate (`None`) gives
`None` (line 52).  With an infinite `yd` numpy yields `nan` in `direction`, every comparison with
`nan` is false, and the result is the empty list, hence `None`. -/
def algIntersection (orig end_ : Option (K × Ext K)) (p1 p2 : K × K) : Option (K × K) :=
  match orig, end_ with
  | some (ox, .fin oy), some (ex, .fin ey) =>
    (lineRay (ox, oy) (ex, ey) p1 p2).map fun q => (ofF q.1, ofF q.2)
  | _, _ => none

/-- algebra.py:62-66 `calculate_angle`. -/
def calcAngle (p center : K × K) : K :=
  angleDeg (sub p.2 center.2) (sub p.1 center.1)

/-- algebra.py:68-79 `check_clockwise`. -/
def checkClockwise (a b c center : K × K) : Bool :=
  let a1 := calcAngle a center
  let a2 := calcAngle b center
  let a3 := calcAngle c center
  !(decide (fmod360 (fsub a3 a1) > fmod360 (fsub a3 a2)))

/-! ### graph/point.py -/

/-- point.py:124-125 `_shoelace` (as numpy sums in list order, starting from 0);
`np.roll(y, 1)` moves the last element to the front. -/
def roll1 {α : Type} (l : List α) : List α :=
  match l.getLast? with
  | some a => a :: l.dropLast
  | none => []

/-- `np.dot(x, y)` on lists. -/
def dotL (x y : List K) : K :=
  (List.zipWith fmul x y).foldl fadd (lit 0)

/-- `np.abs` -/
def fabs (x : K) : K := if x < lit 0 then fsub (lit 0) x else x

/-- point.py:123-125 `_shoelace`; `0.5 * s` is written `s / 2`. -/
def shoelace (x y : List K) : K :=
  fdiv (fabs (fsub (dotL x (roll1 y)) (dotL y (roll1 x)))) (lit 2)

/-! ### graph/polygon.py, numeric part -/

omit [Arith K] in
/-- `min(list)`; `none` is the ValueError on an empty list. -/
def listMin : List K → Option K
  | [] => none
  | a :: l => some (l.foldl min a)

omit [Arith K] in
/-- `max(list)`. -/
def listMax : List K → Option K
  | [] => none
  | a :: l => some (l.foldl max a)

omit [Arith K] in
/-- `np.argmin`: index of the first minimal element. -/
def argmin : List K → Option Nat
  | [] => none
  | a :: l =>
    let rec go : List K → Nat → K → Nat → Nat
      | [], _, _, best => best
      | b :: l, i, m, best => if b < m then go l (i + 1) b i else go l (i + 1) m best
    some (go l 1 a 0)

omit [Arith K] in
/-- `np.argmax`: index of the first maximal element. -/
def argmax : List K → Option Nat
  | [] => none
  | a :: l =>
    let rec go : List K → Nat → K → Nat → Nat
      | [], _, _, best => best
      | b :: l, i, m, best => if m < b then go l (i + 1) b i else go l (i + 1) m best
    some (go l 1 a 0)

/-- polygon.py:36, 42: the sort key `(-180 - calculate_angle(point, center)) % 360`. -/
def orderKey (center p : K × K) : K :=
  fmod360 (fsub (lit (-180)) (calcAngle p center))

/-- The attributes set by `Polygon.__init__`, polygon.py:20-33 (except `polygon_vertices`). -/
structure Poly (K : Type) where
  points : List (K × K)
  minY : K
  minX : K
  maxY : K
  maxX : K
  center : K × K

/-- polygon.py:10-33 with polygon.py:35-37 `_order_points`; `sorted` is a stable sort (insertion sort is
one, and all stable sorts return the same list).
Outer result: `Err.value` for an empty list. -/
def mkPoly (pts : List (K × K)) : Except Err (Poly K) :=
  match listMin (pts.map (·.2)), listMin (pts.map (·.1)), listMax (pts.map (·.2)), listMax (pts.map (·.1)) with
  | some mny, some mnx, some mxy, some mxx =>
    match div (add mxx mnx) (lit 2), div (add mxy mny) (lit 2) with
    | some cx, some cy =>
      .ok { points := pts.insertionSort (fun p q => orderKey (cx, cy) p ≤ orderKey (cx, cy) q)
            minY := mny, minX := mnx, maxY := mxy, maxX := mxx, center := (cx, cy) }
    | _, _ => .error .arith
  | _, _, _, _ => .error .value

/-- bounding_box.py:6-28. -/
def boundingBox (left right bottom top : K) : Except Err (Poly K) :=
  mkPoly [(left, top), (right, top), (right, bottom), (left, bottom)]

/-- polygon.py:206-215, one step: does the border segment toggle `inside`? -/
def crosses (x y : K) (p q : K × K) : Option Bool :=
  if decide (p.2 > y) != decide (q.2 > y) then do
    let t ← div (mul (sub q.1 p.1) (sub y p.2)) (sub q.2 p.2)
    some (decide (x < add t p.1))
  else some false

/-- polygon.py:206-217, the loop over consecutive pairs. -/
def insideLoop (x y : K) : List (K × K) → Bool → Option Bool
  | p :: q :: rest, acc => do
    let c ← crosses x y p q
    insideLoop x y (q :: rest) (if c then !acc else acc)
  | _, acc => some acc

/-- polygon.py:185-217 `inside`. -/
def inside (points : List (K × K)) (pt : K × K) : Option Bool :=
  insideLoop pt.1 pt.2 (points ++ points.take 1) false

/-- polygon.py:171-183 `_on_edge` (not called by the library). -/
def onEdgeLoop (x y : K) : List (K × K) → Bool
  | p :: q :: rest =>
    if sub (mul (sub x p.1) (sub q.2 p.2)) (mul (sub y p.2) (sub q.1 p.1)) = lit 0 then true
    else onEdgeLoop x y (q :: rest)
  | _ => false

/-- polygon.py:225-228: intersections with the border segments, in order. -/
def borderHits (orig end_ : Option (K × Ext K)) : List (K × K) → List (K × K)
  | p :: q :: rest =>
    match algIntersection orig end_ p q with
    | some z => z :: borderHits orig end_ (q :: rest)
    | none => borderHits orig end_ (q :: rest)
  | _ => []

/-- polygon.py:219-242 `_get_intersection_point(orig, end)`.
The index of the maximum is taken in the *filtered* list of distances but used in the unfiltered
list of points, as in the code.  Outer `none`: Decimal signal.  If there is a hit then both
arguments are finite coordinates. -/
def intersectionPoint (points : List (K × K)) (orig end_ : Option (K × Ext K)) : Option (Option (K × K)) :=
  let hits := borderHits orig end_ (points ++ points.take 1)
  match hits with
  | [] => some none
  | _ =>
    match orig, end_ with
    | some (ox, .fin oy), some (ex, .fin ey) => do
      let maxd ← distance (ox, oy) (ex, ey)
      let ds ← hits.mapM (fun p => distance (ox, oy) p)
      match argmax (ds.filter (fun d => decide (d ≤ maxd))) with
      | none => some none
      | some k => some (hits[k]?)
    | _, _ => some none

end Foronoi
