import Verif.Model.Real

/-!
# Voronoi diagrams and beach lines (specification)

Plain plane geometry over the reals; nothing here refers to the model of the sweep.
-/

namespace Foronoi

/-- Squared Euclidean distance. -/
def sqDist (a b : ℝ × ℝ) : ℝ := (a.1 - b.1) ^ 2 + (a.2 - b.2) ^ 2

/-- Site `p` is one of the sites nearest to `z`, among the sites `0 … n-1`. -/
def Nearest (pts : Nat → ℝ × ℝ) (n : Nat) (p : Nat) (z : ℝ × ℝ) : Prop :=
  p < n ∧ ∀ c < n, sqDist (pts p) z ≤ sqDist (pts c) z

/-- The sites are different points. -/
def Distinct (pts : Nat → ℝ × ℝ) (n : Nat) : Prop := ∀ p < n, ∀ r < n, pts p = pts r → p = r

/-- A Voronoi vertex: three different sites are nearest. -/
def VoronoiVertex (pts : Nat → ℝ × ℝ) (n : Nat) (z : ℝ × ℝ) : Prop :=
  ∃ a b c, a ≠ b ∧ b ≠ c ∧ a ≠ c ∧ Nearest pts n a z ∧ Nearest pts n b z ∧ Nearest pts n c z

/-- The points between two points. -/
def Between (v w z : ℝ × ℝ) : Prop := ∃ t : ℝ, 0 ≤ t ∧ t ≤ 1 ∧ z = ((1 - t) * v.1 + t * w.1, (1 - t) * v.2 + t * w.2)

/-- `z` is as far from `p` as from the horizontal line `y = l` below it: a point of the parabola of `p`. -/
def OnParabola (p : ℝ × ℝ) (l : ℝ) (z : ℝ × ℝ) : Prop := l ≤ z.2 ∧ sqDist p z = (z.2 - l) ^ 2

/-- The parabola of `p` is a lowest one at `x`: all points of other parabolas above `x` are at least as high. -/
def LowestAt (S : Set (ℝ × ℝ)) (l : ℝ) (p : ℝ × ℝ) (x : ℝ) : Prop :=
  ∃ y, OnParabola p l (x, y) ∧ ∀ c ∈ S, ∀ y', OnParabola c l (x, y') → y ≤ y'

/-- `A` are the sites of the arcs left to right, `cuts` the abscissas at which one arc gives way to the next.  Between its two cuts
every arc is lowest.  A site on the sweep line has a vertical ray instead of a parabola, so its arc has width zero. -/
structure LowerEnvelope (S : Set (ℝ × ℝ)) (l : ℝ) (A : List (ℝ × ℝ)) (cuts : List ℝ) : Prop where
  len : cuts.length + 1 = A.length
  sorted : cuts.IsChain (· ≤ ·)
  sites : ∀ p ∈ A, p ∈ S
  above : ∀ p ∈ S, l ≤ p.2
  arc : ∀ i p x, A[i]? = some p → (∀ j c, j + 1 = i → cuts[j]? = some c → c ≤ x) → (∀ c, cuts[i]? = some c → x ≤ c) →
    (p.2 = l ∧ x = p.1) ∨ (l < p.2 ∧ LowestAt {c ∈ S | l < c.2} l p x)

/-- All sites are on the sweep line; the list is ordered left to right and complete. -/
structure OnSweepLine (S : Set (ℝ × ℝ)) (l : ℝ) (A : List (ℝ × ℝ)) : Prop where
  all : ∀ p, p ∈ A ↔ p ∈ S
  height : ∀ p ∈ S, p.2 = l
  ordered : A.Pairwise (fun a b => a.1 < b.1)

end Foronoi
