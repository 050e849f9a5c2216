import Verif.Spec.Voronoi
import Verif.Model.Visualizer

/-!
# What a picture of the sweep shows (specification)
-/

namespace Foronoi

/-- `z` is a point of the beach line of the sites `S`: it is on a parabola, and on or below all of them. -/
def OnBeachLine (S : Set (ℝ × ℝ)) (l : ℝ) (z : ℝ × ℝ) : Prop :=
  (∃ p ∈ S, l < p.2 ∧ OnParabola p l z) ∧ ∀ p ∈ S, l < p.2 → ∀ y, OnParabola p l (z.1, y) → z.2 ≤ y

/-- `z` is above the beach line or on it: it is at least as near to some site above the sweep line as to that line. -/
def NotBelowBeach (S : Set (ℝ × ℝ)) (l : ℝ) (z : ℝ × ℝ) : Prop := l ≤ z.2 ∧ ∃ p ∈ S, sqDist p z ≤ (z.2 - l) ^ 2

/-- `z` is strictly above the beach line. -/
def AboveBeach (S : Set (ℝ × ℝ)) (l : ℝ) (z : ℝ × ℝ) : Prop := l < z.2 ∧ ∃ p ∈ S, sqDist p z < (z.2 - l) ^ 2

/-- `z` is a point of a line that is drawn.  (A line with an end at infinity is not visible.) -/
def OnLine (ds : List (Draw ℝ)) (z : ℝ × ℝ) : Prop := ∃ a b c, .line (a.1, .fin a.2) (b.1, .fin b.2) c ∈ ds ∧ Between a b z

/-- What the labels of a beach line say from left to right: each site, and between two neighbours both. -/
def weave {α : Type} (f : Nat → α) : List Nat → List (List α)
  | [] => []
  | [p] => [[f p]]
  | p :: r :: l => [f p] :: [f p, f r] :: weave f (r :: l)

/-- Node `i` is `d` steps below the root `r`, following the parents. -/
inductive AtDepth {D : Type} (ns : Nat → NodeR D) (r : Nat) : Nat → Nat → Prop where
  | root : AtDepth ns r r 0
  | child {i p d} : (ns i).parent = some p → AtDepth ns r p d → AtDepth ns r i (d + 1)

/-- What a call on the canvas belongs to; named after the options of `plot_all`. -/
inductive Part where
  | sweepLine | polygon | edges | borderToSite | vertices | sites | outgoing | event | beach
  deriving DecidableEq

/-- What is drawn can be told from the kind of call, the colour and the kind of text. -/
def Draw.part {K : Type} : Draw K → Part
  | .line _ _ .sweepLine => .sweepLine
  | .line _ _ .edge => .edges
  | .line _ _ _ => .borderToSite
  | .polygon _ .boundingBox => .polygon
  | .polygon _ _ => .event
  | .text _ _ (.edge _ _) => .edges
  | .text _ _ (.site _) => .sites
  | .text _ _ (.arc _) => .beach
  | .dots _ .vertices => .vertices
  | .dots _ .cellPoints => .sites
  | .dots _ _ => .event
  | .arrow _ _ _ => .outgoing
  | .circle _ _ _ => .event
  | .curve _ _ => .beach
  | .vline _ _ => .beach

/-- The option that asks for it. -/
def PlotOpts.wants {K : Type} (o : PlotOpts K) : Part → Bool
  | .sweepLine => o.sweepLine
  | .polygon => o.polygon
  | .edges => o.edges
  | .borderToSite => o.borderToSite
  | .vertices => o.vertices
  | .sites => o.sites
  | .outgoing => o.outgoingEdges
  | .event => o.events
  | .beach => o.beachLine

end Foronoi
