import Verif.Model.Visualizer

/-!
# Model of the optional arguments of the methods in `foronoi/visualization/visualizer.py`

`x or y` is `y` if `x` is missing, an empty list, or the number 0.
-/

namespace Foronoi

open Arith

variable {K : Type} [LinearOrder K] [Arith K]

/-- `arg or default` for lists. -/
def orList {α : Type} (arg : Option (List α)) (default : List α) : List α :=
  match arg with
  | some (a :: l) => a :: l
  | _ => default

/-- `sweep_line or self.voronoi.sweep_line`. -/
def orSweep (s : St K) (arg : Option K) : Option K :=
  match arg with
  | some y => if y = lit 0 then s.sweep else some y
  | none => s.sweep

/-- visualizer.py:231-239 `plot_vertices(vertices)`. -/
def plotVerticesOf (s : St K) (vertices : Option (List Nat)) : Except Err (List (Draw K)) := do
  let l ← (orList vertices s.verts).mapM fun v => exD (s.d.vs v).pos
  pure [.dots l .vertices]

/-- visualizer.py:257-282 `plot_outgoing_edges(vertices, scale)`. -/
def plotOutgoingEdgesOf (pts : Nat → K × K) (cv : Canvas K) (s : St K) (vertices : Option (List Nat)) (scale : K) : Except Err (List (Draw K)) :=
  drawEach (fun v => drawEach (plotOutgoing pts cv s scale) (s.d.vs v).conn) (orList vertices s.verts)

/-- visualizer.py:303-316 `plot_sites(points, show_labels)` for a diagram of the sites `0 … n-1`. -/
def plotSitesOf (pts : Nat → K × K) (n : Nat) (s : St K) (points : Option (List Nat)) (labels : Bool) : List (Draw K) :=
  plotPoints pts s (orList points (List.range n)) labels .cellPoints

/-- visualizer.py:338-344 `plot_edges(edges, sweep_line, show_labels)`. -/
def plotEdgesOf (pts : Nat → K × K) (cv : Canvas K) (s : St K) (edges : Option (List Nat)) (sweep : Option K) (labels : Bool) : Except Err (List (Draw K)) :=
  drawEach (fun e => do
    let x ← plotEdge pts cv s (orSweep s sweep) labels e
    let t ← exD (s.d.he e).twin
    let y ← plotEdge pts cv s (orSweep s sweep) false t
    pure (x ++ y)) (orList edges s.edges)

/-- visualizer.py:363-369 `plot_border_to_site(edges, sweep_line)`. -/
def plotBorderToSiteOf (pts : Nat → K × K) (cv : Canvas K) (s : St K) (edges : Option (List Nat)) (sweep : Option K) : Except Err (List (Draw K)) :=
  drawEach (fun e => do
    let x ← plotPointer pts cv s (orSweep s sweep) e
    let t ← exD (s.d.he e).twin
    let y ← plotPointer pts cv s (orSweep s sweep) t
    pure (x ++ y)) (orList edges s.edges)

/-- visualizer.py:450-457 `plot_sweep_line(sweep_line)`. -/
def plotSweepLineOf (cv : Canvas K) (s : St K) (sweep : Option K) : List (Draw K) :=
  let y : Ext K := match orSweep s sweep with | some l => .fin l | none => .inf
  [.line (cv.minX, y) (cv.maxX, y) .sweepLine]

/-- Without arguments these are the methods of Model/Visualizer.lean. -/
example (pts : Nat → K × K) (n : Nat) (cv : Canvas K) (s : St K) (scale : K) (b : Bool) :
    plotVerticesOf s none = plotVertices s ∧ plotOutgoingEdgesOf pts cv s none scale = plotOutgoingEdges pts cv s scale ∧
    plotSitesOf pts n s none b = plotPoints pts s (List.range n) b .cellPoints ∧ plotEdgesOf pts cv s none none b = plotEdges pts cv s b ∧
    plotBorderToSiteOf pts cv s none none = plotBorderToSite pts cv s ∧ plotSweepLineOf cv s none = plotSweepLine cv s :=
  ⟨rfl, rfl, rfl, rfl, rfl, rfl⟩

end Foronoi
