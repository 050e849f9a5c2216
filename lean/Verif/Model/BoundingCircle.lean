import Verif.Model.Algorithm

/-!
# Model of `foronoi/contrib/bounding_circle.py`

`DEBUG` is False there; the dummy `Algorithm` for visualisation (bounding_circle.py:26-27) and the warning are left out.
-/

namespace Foronoi

open Arith

variable {K : Type} [LinearOrder K] [Arith K]

/-- bounding_circle.py:16-25 `BoundingCircle(x, y, radius)`. -/
structure BCirc (K : Type) where
  center : K × K
  radius : K

/-- bounding_circle.py:21-25: the attributes shared with `Polygon`.  A circle has no `points`. -/
def BCirc.poly (c : BCirc K) : Poly K where
  points := []
  minY := sub c.center.2 (mul (lit 2) c.radius)
  minX := sub c.center.1 (mul (lit 2) c.radius)
  maxY := add c.center.2 (mul (lit 2) c.radius)
  maxX := add c.center.1 (mul (lit 2) c.radius)
  center := c.center

/-- bounding_circle.py:39-40 `inside`. -/
def insideC (c : BCirc K) (p : K × K) : Bool :=
  decide (add (sq (sub c.center.1 p.1)) (sq (sub c.center.2 p.2)) < sq c.radius)

/-- `inside` for a point whose `yd` may be infinite: the square is infinite, the test fails. -/
def insideCE (c : BCirc K) (p : K × Ext K) : Bool :=
  match p.2 with
  | .fin y => insideC c (p.1, y)
  | .inf => false

/-- bounding_circle.py:113-127 `get_line`: `a x + b y = c`. -/
def getLine (p q : K × K) : Option (K × K × K) :=
  if sub q.2 p.2 = lit 0 then some (lit 0, lit 1, p.2)
  else if sub q.1 p.1 = lit 0 then some (lit 1, lit 0, p.1)
  else do
    let a ← div (neg (sub q.2 p.2)) (sub q.1 p.1)
    some (a, lit 1, add (mul p.1 a) p.2)

/-- `get_line` for possibly infinite `yd`.  With two infinite values `B.yd - A.yd` is InvalidOperation.  With one, the second case is
still possible; in the third `a` is infinite and line 200 or 203 is InvalidOperation. -/
def getLineE (p q : K × Ext K) : Option (K × K × K) :=
  match p.2, q.2 with
  | .fin y, .fin z => getLine (p.1, y) (q.1, z)
  | .inf, .inf => none
  | _, _ => if sub q.1 p.1 = lit 0 then some (lit 1, lit 0, p.1) else none

/-- bounding_circle.py:198-213 `cut_circle`.  `Decimal.sqrt` of a negative number raises InvalidOperation, which is not a ValueError,
so line 204 is never reached. -/
def cutCircle (k : BCirc K) (l : K × K × K) : Option ((K × K) × (K × K)) := do
  let a := l.1
  let b := l.2.1
  let d := sub (sub l.2.2 (mul a k.center.1)) (mul b k.center.2)
  let n := add (sq a) (sq b)
  let r ← sqrt (sub (mul (sq k.radius) n) (sq d))
  let x1 ← div (add (mul a d) (mul b r)) n
  let y1 ← div (sub (mul b d) (mul a r)) n
  let x2 ← div (sub (mul a d) (mul b r)) n
  let y2 ← div (add (mul b d) (mul a r)) n
  some ((add k.center.1 x1, add k.center.2 y1), (add k.center.1 x2, add k.center.2 y2))

/-- bounding_circle.py:158-160 `within`. -/
def withinK (p q r : K) : Bool := (decide (p ≤ q) && decide (q ≤ r)) || (decide (r ≤ q) && decide (q ≤ p))

/-- `within` where the ends may be infinite. -/
def withinE (p : Ext K) (q : K) (r : Ext K) : Bool :=
  match p, r with
  | .fin p, .fin r => withinK p q r
  | .fin p, .inf => decide (p ≤ q)
  | .inf, .fin r => decide (r ≤ q)
  | .inf, .inf => false

/-- bounding_circle.py:150-162 `on_line`. -/
def onLine (a b : K × Ext K) (c : K × K) : Bool :=
  if a.1 ≠ b.1 then withinK a.1 c.1 b.1 else withinE a.2 c.2 b.2

/-- The squared distance to a point whose `yd` may be infinite (bounding_circle.py:189-190); `none` is infinity. -/
def dist2E (a : K × Ext K) (p : K × K) : Option K :=
  match a.2 with
  | .fin y => some (add (sq (sub a.1 p.1)) (sq (sub y p.2)))
  | .inf => none

/-- bounding_circle.py:174-195: choose among the two points of the circle. -/
def chooseCut (a b : K × Ext K) (p1 p2 : K × K) : Option (K × K) :=
  if onLine a b p1 then
    (if onLine a b p2 then
      (match dist2E a p1, dist2E a p2 with
      | some d0, some d1 => if d0 < d1 then some p1 else some p2
      | _, _ => some p2)
    else some p1)
  else if onLine a b p2 then some p2 else none

/-- bounding_circle.py:164-195 `cut_line`; outer `none` is an arithmetic signal. -/
def cutLine (k : BCirc K) (a b : K × Ext K) : Option (Option (K × K)) := do
  let l ← getLineE a b
  let ps ← cutCircle k l
  some (chooseCut a b ps.1 ps.2)

/-- `Decimal('-1000')`: the hard-coded sweep line. -/
def lowLine : K := lit (-1000)

/-- bounding_circle.py:98-111 `trim_edge`. -/
def trimEdge (pts : Nat → K × K) (k : BCirc K) (e : Nat) : AM K Bool := do
  let oa ← getOriginSt pts e (some lowLine) none
  let s ← get
  let t ← deref (s.d.he e).twin
  let ob ← getOriginSt pts t (some lowLine) none
  let a ← deref oa
  let b ← deref ob
  let p ← liftA (cutLine k a b)
  match p with
  | none => pure false
  | some z => do
    let v ← zD (newV (some (ofF (toF z.1), ofF (toF z.2))))
    zD (appendConn v e)
    zD (updE e (fun r => { r with origin := .vtx v }))
    modify fun s => { s with polyVerts := s.polyVerts ++ [v] }
    pure true

/-- bounding_circle.py:58-66: the first end. -/
def trimA (pts : Nat → K × K) (k : BCirc K) (e : Nat) (oa : Option (K × Ext K)) : AM K Bool :=
  match oa with
  | none => trimEdge pts k e
  | some a => if insideCE k a then pure true else trimEdge pts k e

/-- bounding_circle.py:76-79: the second end. -/
def trimB (pts : Nat → K × K) (k : BCirc K) (t : Nat) (ob : Option (K × Ext K)) : AM K Bool :=
  match ob with
  | none => trimEdge pts k t
  | some b => if insideCE k b then pure false else trimEdge pts k t

/-- bounding_circle.py:42-96 `finish_edges`, the loop. -/
def finishEdgesC (pts : Nat → K × K) (k : BCirc K) : List Nat → AM K (List Nat)
  | [] => pure []
  | e :: rest => do
    let oa ← getOriginSt pts e (some lowLine) none
    let s ← get
    let t ← deref (s.d.he e).twin
    let ob ← getOriginSt pts t (some lowLine) none
    if oa.isNone && ob.isNone then finishEdgesC pts k rest
    else do
      let ra ← trimA pts k e oa
      let rb ← trimB pts k t ob
      let tl ← finishEdgesC pts k rest
      pure ((if ra then [e] else []) ++ (if rb then [t] else []) ++ tl)

/-- polygon.py:75-105 with `edges` a tuple: the first round of the loop ends with `edges.append(edge)`, an AttributeError. -/
def borderLoopT : List Nat → Option Nat → AM K Unit
  | o :: e :: _, cell => do
    let cell ← cellAt o cell
    let tw ← zD (newHE none none (.vtx e))
    let edge ← zD (newHE cell (some tw) (.vtx o))
    zD (appendConn o edge)
    zD (appendConn e tw)
    optDo cell (fun p => zD (initFE p edge))
    linkEnd edge e
    linkOrigin edge o
    throw .attr
  | _, _ => pure ()

/-- polygon.py:51-112 `finish_polygon` called with the tuple returned by `BoundingCircle.finish_edges`.  The vertices are also ordered in
bounding_circle.py:87; ordering twice is ordering once (the sort is stable), and is left out there. -/
def finishPolygonT (pts : Nat → K × K) (n : Nat) (k : BCirc K) : AM K Unit := do
  let s ← get
  let vs := orderedVertices k.poly s.d.vs s.polyVerts
  match vs with
  | [] => throw .index
  | v0 :: _ => do
    let r ← zD (rdV v0)
    let p ← deref r.pos
    let cell ← closestPoint pts n p
    borderLoopT (vs ++ [v0]) (some cell)

/-- algorithm.py:122-222 `create_diagram` with a bounding circle (bounding_circle.py:42-96 returns a pair, not a list). -/
def createDiagramC (pts : Nat → K × K) (q : PQ (QE K)) (n fuel : Nat) (k : BCirc K) : AM K Unit := do
  sweepAll pts q n fuel
  let s ← get
  let _ ← finishEdgesC pts k s.edges
  finishPolygonT pts n k

end Foronoi
