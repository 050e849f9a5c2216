import Verif.Model.Algorithm

/-!
# Model of `foronoi/visualization/visualizer.py` and of the text form of the status tree

Drawing is a list of calls on the matplotlib canvas.  Methods are called without their optional lists, so they draw the objects of the
diagram (`edges or self.voronoi.edges`).  Zorder, sizes, line widths and keyword arguments passed on to matplotlib are left out; so are
figures, limits and `show`.  `v.arcs` and `v.vertices` are lists made from sets: the order of the arcs is a parameter, and `St.verts` is
one order of the vertices.
Before the first event `sweep_line` is the float `inf` (`St.sweep = none`); then there are no edges and no arcs.
-/

namespace Foronoi

open Arith

variable {K : Type} [LinearOrder K] [Arith K]

/-- visualizer.py:13-29 `Colors`. -/
inductive Color where
  | sweepLine | vertices | beachLine | edge | arc | pointer | invalidCircle | validCircle | cellPoints | triangle | boundingBox
  | edgeDirection | firstEdge
  deriving DecidableEq, Repr

/-- Texts that are drawn: `P{name}` of a site (visualizer.py:314), the site of an arc (line 433), `str(edge)` (line 512; half_edge.py:76-77:
the points on the two sides). -/
inductive Label where
  | site (name : Option Nat)
  | arc (name : Option Nat)
  | edge (p r : Option Nat)
  deriving DecidableEq, Repr

/-- Calls on the canvas.  A height may be infinite (`Ext`), or missing for the label of an arc. -/
inductive Draw (K : Type) where
  | line (a b : K × Ext K) (c : Color)
  | curve (l : List (K × K)) (c : Color)
  | vline (x : K) (c : Color)
  | dots (l : List (K × K)) (c : Color)
  | text (x : K) (y : Option (Ext K)) (t : Label)
  | circle (center : K × K) (r : K) (c : Color)
  | polygon (l : List (K × K)) (c : Color)
  | arrow (a b : K × K) (c : Color)
  deriving DecidableEq

/-- A Decimal operation. -/
def exA {α : Type} : Option α → Except Err α
  | some a => .ok a
  | none => .error .arith

/-- Attribute access on a possibly-`None` reference. -/
def exD {α : Type} : Option α → Except Err α
  | some a => .ok a
  | none => .error .attr

/-- A loop that draws. -/
def drawEach {α : Type} (f : α → Except Err (List (Draw K))) : List α → Except Err (List (Draw K))
  | [] => .ok []
  | a :: l => do
    let x ← f a
    let y ← drawEach f l
    pure (x ++ y)

/-- visualizer.py:86: the limits of the canvas. -/
structure Canvas (K : Type) where
  minX : K
  maxX : K
  minY : K
  maxY : K

/-- visualizer.py:546-552 `_canvas_size`. -/
def canvasSize (poly : Poly K) (offset : K) : Canvas K where
  minX := sub poly.minX offset
  maxX := add poly.maxX offset
  minY := sub poly.minY offset
  maxY := add poly.maxY offset

/-- visualizer.py:535-544 `_origins`. -/
def originsOf (pts : Nat → K × K) (cv : Canvas K) (s : St K) (e : Nat) (sweep : Option K) :
    Except Err (Option (K × Ext K) × Option (K × Ext K)) := do
  let a ← exA (getOrigin pts s.bps s.d e sweep (some cv.maxY))
  let t ← exD (s.d.he e).twin
  let b ← exA (getOrigin pts s.bps s.d t sweep (some cv.maxY))
  pure (a, b)

/-- `(a + b) / 2` for two heights. -/
def midE (a b : Ext K) : Option (Ext K) :=
  match a, b with
  | .fin a, .fin b => (div (add a b) (lit 2)).map .fin
  | _, _ => some .inf

/-- visualizer.py:498-521 `_plot_edge`. -/
def plotEdge (pts : Nat → K × K) (cv : Canvas K) (s : St K) (sweep : Option K) (printName : Bool) (e : Nat) : Except Err (List (Draw K)) := do
  let o ← originsOf pts cv s e sweep
  match o with
  | (some a, some b) =>
    if printName then do
      let x ← exA (div (add b.1 a.1) (lit 2))
      let y ← exA (midE b.2 a.2)
      let t ← exD (s.d.he e).twin
      pure [.line a b .edge, .text x (some y) (.edge (s.d.he e).incident (s.d.he t).incident)]
    else pure [.line a b .edge]
  | _ => pure []

/-- visualizer.py:318-344 `plot_edges`. -/
def plotEdges (pts : Nat → K × K) (cv : Canvas K) (s : St K) (labels : Bool) : Except Err (List (Draw K)) :=
  drawEach (fun e => do
    let x ← plotEdge pts cv s s.sweep labels e
    let t ← exD (s.d.he e).twin
    let y ← plotEdge pts cv s s.sweep false t
    pure (x ++ y)) s.edges

/-- visualizer.py:523-533 `_draw_line_from_edge_midpoint_to_incident_point`. -/
def plotPointer (pts : Nat → K × K) (cv : Canvas K) (s : St K) (sweep : Option K) (e : Nat) : Except Err (List (Draw K)) := do
  let o ← originsOf pts cv s e sweep
  match o, (s.d.he e).incident with
  | (some a, some b), some p => do
    let x ← exA (div (add a.1 b.1) (lit 2))
    let y ← exA (midE a.2 b.2)
    pure [.line (x, y) ((pts p).1, .fin (pts p).2) (if s.d.fe p = some e then .firstEdge else .pointer)]
  | _, _ => pure []

/-- visualizer.py:346-369 `plot_border_to_site`. -/
def plotBorderToSite (pts : Nat → K × K) (cv : Canvas K) (s : St K) : Except Err (List (Draw K)) :=
  drawEach (fun e => do
    let x ← plotPointer pts cv s s.sweep e
    let t ← exD (s.d.he e).twin
    let y ← plotPointer pts cv s s.sweep t
    pure (x ++ y)) s.edges

/-- visualizer.py:218-239 `plot_vertices`. -/
def plotVertices (s : St K) : Except Err (List (Draw K)) := do
  let l ← s.verts.mapM fun v => exD (s.d.vs v).pos
  pure [.dots l .vertices]

/-- visualizer.py:262-280: one arrow. -/
def plotOutgoing (pts : Nat → K × K) (cv : Canvas K) (s : St K) (scale : K) (e : Nat) : Except Err (List (Draw K)) := do
  let o ← originsOf pts cv s e none
  match o with
  | (some (ax, .fin ay), some (bx, .fin b)) => do
    let dx := sub bx ax
    let dy := sub b ay
    let len ← exA (sqrt (add (sq dx) (sq dy)))
    if len = lit 0 then pure []
    else do
      let ux ← exA (div dx len)
      let uy ← exA (div dy len)
      pure [.arrow (ax, ay) (add ax (mul ux scale), add ay (mul uy scale)) .edgeDirection]
  | _ => pure []

/-- visualizer.py:241-282 `plot_outgoing_edges` (without a sweep line `get_origin` is a vertex or `None`). -/
def plotOutgoingEdges (pts : Nat → K × K) (cv : Canvas K) (s : St K) (scale : K) : Except Err (List (Draw K)) :=
  drawEach (fun v => drawEach (plotOutgoing pts cv s scale) (s.d.vs v).conn) s.verts

/-- visualizer.py:284-316 `plot_sites` for given points. -/
def plotPoints (pts : Nat → K × K) (s : St K) (points : List Nat) (labels : Bool) (c : Color) : List (Draw K) :=
  .dots (points.map pts) c ::
    if labels then points.map fun p => .text (pts p).1 (some (.fin (pts p).2)) (.site (s.names p)) else []

/-- visualizer.py:481-496 `_plot_circle`. -/
def plotCircle (pts : Nat → K × K) (s : St K) (c : Nat) (triangle : Bool) : List (Draw K) :=
  let ev := s.evs c
  let tr := [ev.triple.1, ev.triple.2.1, ev.triple.2.2]
  .circle ev.center ev.radius (if ev.valid then .validCircle else .invalidCircle) ::
    ((if triangle then [.polygon (tr.map pts) .triangle] else []) ++ plotPoints pts s tr false .validCircle)

/-- The argument `event` of `plot_event`: missing, an event, or (from `plot_all`) a Boolean. -/
inductive EvArg where
  | none
  | event (e : EvRef)
  | bool (b : Bool)

/-- visualizer.py:459-479 `plot_event`: `event or self.voronoi.event`, then only circle events are drawn. -/
def plotEvent (pts : Nat → K × K) (s : St K) (arg : EvArg) (triangles : Bool) : List (Draw K) :=
  let ev : Option EvRef := match arg with
    | .none => s.event
    | .event e => some e
    | .bool false => s.event
    | .bool true => none
  match ev with
  | some (.circle c) => plotCircle pts s c triangles
  | _ => []

/-- `np.min(plot_lines, axis=0)` at the sample with index `i`. -/
def bottomAt (lines : List (List K)) (i : Nat) : Option K := listMin (lines.filterMap (·[i]?))

/-- visualizer.py:405, `arc.get_plot(x, sweep_line)` for all samples: `None` or one height per sample. -/
def arcLine (pts : Nat → K × K) (s : St K) (xs : List K) (l : K) (a : Nat) : Option (List K) :=
  if fsub (toF (pts (s.arcs a).origin).2) (toF l) = lit 0 then none
  else some (xs.map fun x => (arcPlot (pts (s.arcs a).origin) x (toF l)).getD (lit 0))

/-- visualizer.py:405-414: what is drawn for one arc. -/
def plotArc (pts : Nat → K × K) (s : St K) (xs : List K) (l : K) (a : Nat) : List (Draw K) :=
  match arcLine pts s xs l a with
  | none => [.vline (pts (s.arcs a).origin).1 .sweepLine]
  | some ys => [.curve (xs.zip ys) .arc]

/-- visualizer.py:417-419: the lower side of all arcs. -/
def beachOf (xs : List K) (lines : List (List K)) : List (K × K) :=
  (List.range xs.length).filterMap fun i => do
    let x ← xs[i]?
    let y ← bottomAt lines i
    pure (x, y)

/-- visualizer.py:427: `np.nanargmin(plot_lines, axis=0)`: for each sample the index of the (first) lowest line. -/
def lowestAt (lines : List (List K)) (n : Nat) : List (Option Nat) :=
  (List.range n).map fun i => argmin (lines.filterMap (·[i]?))

/-- visualizer.py:426-435 `_plot_arc_labels`; `med` is `np.nanmedian`.  The index is that of the lines, but it is used in the list of arcs. -/
def plotArcLabels (pts : Nat → K × K) (cv : Canvas K) (s : St K) (med : List K → K) (xs : List K) (lines : List (List K)) (l : K)
    (arcs : List Nat) : Except Err (List (Draw K)) :=
  let low := lowestAt lines xs.length
  drawEach (fun k =>
    if some k ∈ low then
      let sel := (List.range xs.length).filterMap fun i =>
        if low[i]? = some (some k) ∧ (∃ y ∈ bottomAt lines i, y < toF cv.maxY) then xs[i]? else none
      match arcs[k]? with
      | none => .error .index
      | some a => .ok [.text (med sel) ((arcPlot (pts (s.arcs a).origin) (med sel) (toF l)).map .fin) (.arc (s.names (s.arcs a).origin))]
    else .ok []) (List.range lines.length)

/-- visualizer.py:371-424 `plot_arcs`; `arcs` is `v.arcs`, `xs` the 1000 samples of line 400. -/
def plotArcs (pts : Nat → K × K) (cv : Canvas K) (s : St K) (med : List K → K) (xs : List K) (arcs : List Nat) (showArcs labels : Bool) :
    Except Err (List (Draw K)) :=
  let l := s.sweep.getD cv.maxY
  let lines := arcs.filterMap (arcLine pts s xs l)
  let single := if showArcs then arcs.flatMap (plotArc pts s xs l) else []
  if lines.length > 0 then do
    let t ← (if labels then plotArcLabels pts cv s med xs lines l arcs else .ok [])
    pure (single ++ (.curve (beachOf xs lines) .beachLine :: t))
  else .ok single

/-- visualizer.py:437-457 `plot_sweep_line`. -/
def plotSweepLine (cv : Canvas K) (s : St K) : List (Draw K) :=
  let y : Ext K := match s.sweep with | some l => .fin l | none => .inf
  [.line (cv.minX, y) (cv.maxX, y) .sweepLine]

/-- visualizer.py:193-216 `plot_polygon` for a polygon. -/
def plotPolygon (poly : Poly K) : List (Draw K) := [.polygon poly.points .boundingBox]

/-- The options of `plot_all`, visualizer.py:130-133, with their defaults. -/
structure PlotOpts (K : Type) where
  scale : K
  polygon : Bool := false
  edges : Bool := true
  vertices : Bool := true
  sites : Bool := true
  outgoingEdges : Bool := false
  borderToSite : Bool := false
  edgeLabels : Bool := false
  siteLabels : Bool := false
  triangles : Bool := false
  arcs : Bool := false
  sweepLine : Bool := false
  events : Bool := false
  arcLabels : Bool := false
  beachLine : Bool := false

/-- visualizer.py:130-191 `plot_all` for a diagram of the sites `0 … n-1`.  Line 188 passes `triangles` as the event. -/
def plotAll (pts : Nat → K × K) (n : Nat) (poly : Poly K) (cv : Canvas K) (s : St K) (med : List K → K) (xs : List K) (arcs : List Nat)
    (o : PlotOpts K) : Except Err (List (Draw K)) := do
  let d1 := if o.sweepLine then plotSweepLine cv s else []
  let d2 := if o.polygon then plotPolygon poly else []
  let d3 ← (if o.edges then plotEdges pts cv s o.edgeLabels else .ok [])
  let d4 ← (if o.borderToSite then plotBorderToSite pts cv s else .ok [])
  let d5 ← (if o.vertices then plotVertices s else .ok [])
  let d6 := if o.sites then plotPoints pts s (List.range n) o.siteLabels .cellPoints else []
  let d7 ← (if o.outgoingEdges then plotOutgoingEdges pts cv s o.scale else .ok [])
  let d8 := if o.events then plotEvent pts s (.bool o.triangles) false else []
  let d9 ← (if o.beachLine then plotArcs pts cv s med xs arcs o.arcs o.arcLabels else .ok [])
  pure (d1 ++ d2 ++ d3 ++ d4 ++ d5 ++ d6 ++ d7 ++ d8 ++ d9)

/-! ### The text form of the tree -/

/-- node.py:232-252 `_visualize`: the lines, each with its depth and the data of its node (`get_label` is a text made of it). -/
def showTree {D : Type} (ns : Nat → NodeR D) : Nat → Nat → Nat → Option (List (Nat × D))
  | 0, _, _ => none
  | fuel + 1, depth, i => do
    let r ← (match (ns i).right with | some c => showTree ns fuel (depth + 1) c | none => some [])
    let l ← (match (ns i).left with | some c => showTree ns fuel (depth + 1) c | none => some [])
    some (r ++ (depth, (ns i).data) :: l)

/-- leaf_node.py:18-19, internal_node.py:17-18 `get_label`: the names of one or two sites. -/
def nodeLabel (s : St K) : Dat → List (Option Nat)
  | .arc a => [s.names (s.arcs a).origin]
  | .bp b => [s.names (s.bps b).pair.1, s.names (s.bps b).pair.2]

/-- node.py:229-230 `visualize()` of the status tree: indentation and label of each line. -/
def visualizeTree (s : St K) : Except Err (List (Nat × List (Option Nat))) := do
  let r ← exD s.root
  match showTree s.ns.n (s.ns.cnt + 1) 0 r with
  | none => .error .fuel
  | some l => .ok (l.map fun x => (x.1, nodeLabel s x.2))

/-- tree_observer.py:91-105 `_visualize` (also tree_visualizer.py:13-25): the nodes of the graph in the order in which they are added, each
with its parent in the graph. -/
def graphTree {D : Type} (ns : Nat → NodeR D) : Nat → Option Nat → Nat → Option (List (Nat × Option Nat))
  | 0, _, _ => none
  | fuel + 1, p, i => do
    let l ← (match (ns i).left with | some c => graphTree ns fuel (some i) c | none => some [])
    let r ← (match (ns i).right with | some c => graphTree ns fuel (some i) c | none => some [])
    some ((i, p) :: l ++ r)

end Foronoi
