import Verif.Spec.Voronoi
import Verif.Spec.Sweep

/-!
# The part of the plane an edge stands for (specification)

A half-edge that does not start at a vertex, or does not end at one, is a ray or a line.
-/

namespace Foronoi

/-- How far `z` is ahead of `v` for someone walking between `p` and `r` with `p` on the right and `r` on the left (times the distance of
`p` and `r`). -/
def ahead (p r v z : ℝ × ℝ) : ℝ := (z.1 - v.1) * (r.2 - p.2) + (z.2 - v.2) * (p.1 - r.1)

/-- `z` is a point of the half-edge `e`, which separates the cells of `p` and `r`: it is on the bisector, not behind the vertex at which
the edge starts and not ahead of the vertex at which it ends. -/
structure OnEdge (pts : Nat → ℝ × ℝ) (d : Dcel ℝ) (e p r : Nat) (z : ℝ × ℝ) : Prop where
  bisector : sqDist (pts p) z = sqDist (pts r) z
  start : ∀ v zv, StartsAt d e v → (d.vs v).pos = some zv → 0 ≤ ahead (pts p) (pts r) zv z
  stop : ∀ w zw, EndsAt d e w → (d.vs w).pos = some zw → ahead (pts p) (pts r) zw z ≤ 0

end Foronoi
