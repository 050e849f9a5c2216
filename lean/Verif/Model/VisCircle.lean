import Verif.Model.Visualizer
import Verif.Model.BoundingCircle

/-!
# Model of `plot_polygon` for a `BoundingCircle`
-/

namespace Foronoi

variable {K : Type}

/-- visualizer.py:202-209 `plot_polygon` for an object with a `radius`: the circle around `(xd, xd)`. -/
def plotPolygonC (k : BCirc K) : List (Draw K) := [.circle (k.center.1, k.center.1) k.radius .boundingBox]

end Foronoi
