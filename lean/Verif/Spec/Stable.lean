import Verif.Spec.Moved

/-!
# Inputs that stay in general position when they are changed by little (specification)
-/

namespace Foronoi

/-- Corners `a` and `b` are a lowest and a highest one. -/
def Extremes (m : List (ℝ × ℝ)) (a b : Nat) : Prop := ∀ c < m.length, (corner m a).2 ≤ (corner m c).2 ∧ (corner m c).2 ≤ (corner m b).2

/-- General position with room on all sides: distinct sites, one of them above all others; a convex polygon, none of whose sides is a diagonal of the box around it; every
cell has a part in its interior; no point of its border has three nearest sites, and a corner that could become the first one has only one; its top is not at height 0, and the
line at which the last edges are cut off is below all sites and farther from every corner than all sites. -/
structure Stable (pts : Nat → ℝ × ℝ) (n : Nat) (m : List (ℝ × ℝ)) : Prop where
  distinct : ∀ p < n, ∀ r < n, p ≠ r → pts p ≠ pts r
  top : ∃ t < n, ∀ o < n, o ≠ t → (pts o).2 < (pts t).2
  convex : ClockwiseConvex m
  diagonal : ∀ i < m.length, ¬ BoxDiagonal m (corner m i) (corner m (i + 1))
  meets : AllMeet pts n m
  border : ∀ i < m.length, ∀ p < n, ∀ r < n, ∀ o < n, p ≠ r → r ≠ o → p ≠ o →
    ∀ z, Between (corner m i) (corner m (i + 1)) z → ¬ (Nearest pts n p z ∧ Nearest pts n r z ∧ Nearest pts n o z)
  first : ∀ a < m.length, ∀ b < m.length, ∀ i < m.length, Extremes m a b → (corner m i).2 ≤ ((corner m a).2 + (corner m b).2) / 2 →
    ((corner m a).2 + (corner m b).2) / 2 ≤ (corner m (i + 1)).2 → ∀ p < n, ∀ r < n, p ≠ r → ¬ (Nearest pts n p (corner m (i + 1)) ∧ Nearest pts n r (corner m (i + 1)))
  low : ∀ a < m.length, ∀ b < m.length, Extremes m a b → (corner m b).2 ≠ 0 ∧ ∀ p < n, (corner m a).2 - |(corner m b).2| < (pts p).2 ∧
    ∀ c < m.length, sqDist (pts p) (corner m c) < ((corner m c).2 - ((corner m a).2 - |(corner m b).2|)) ^ 2

end Foronoi
