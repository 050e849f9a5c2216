import Verif.Spec.Clipping

/-!
# The same sites in another order, at another place, in another unit (specification)
-/

namespace Foronoi

/-- The plane in another unit, moved to the right by `c`. -/
noncomputable def sim (k c : ℝ) (z : ℝ × ℝ) : ℝ × ℝ := (k * z.1 + c, k * z.2)

/-- The polygon in another unit, moved to the right by `c`. -/
noncomputable def simPoly (k c : ℝ) (poly : Poly ℝ) : Poly ℝ where
  points := poly.points.map (sim k c)
  minY := k * poly.minY
  minX := k * poly.minX + c
  maxY := k * poly.maxY
  maxX := k * poly.maxX + c
  center := sim k c poly.center

/-- The sites in another order, in another unit, moved to the right by `c`: site `i` is the former site `σ i`. -/
noncomputable def simSites (k c : ℝ) (σ : Equiv.Perm Nat) (pts : Nat → ℝ × ℝ) (i : Nat) : ℝ × ℝ := sim k c (pts (σ i))

/-- `σ` is a permutation of the sites `0 … n-1`. -/
def Permutes (σ : Equiv.Perm Nat) (n : Nat) : Prop := ∀ i, σ i < n ↔ i < n

end Foronoi
