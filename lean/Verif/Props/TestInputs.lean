import Verif.Props.Checkable

/-!
# C130: inputs of foronoi/tests/unit.py that meet the condition

The decimals of the file are taken as they are written, the corners are listed clockwise.
-/

namespace Foronoi

open Check

set_option maxRecDepth 100000

/-- The input of `test_single_point_triangle`. -/
theorem C130_test_single_point_triangle : Input
  [(50, 50)]
  [(0, 100), (100, 100), (50, 0)] := by decide +kernel

/-- The input of `test_martijn`. -/
theorem C130_test_martijn : Input
  [(2241 / 1000, 1797 / 500), (446 / 125, 496 / 125), (6401 / 1000, 8107 / 500), (117 / 40, 9149 / 500)]
  [(-1, 26), (26, 26), (26, -1), (-1, -1)] := by decide +kernel

/-- The input of `test_roel`. -/
theorem C130_test_roel : Input
  [(8333 / 1000, 8333 / 1000), (8333 / 1000, 26), (16667 / 1000, 8333 / 1000), (26, 17667 / 1000)]
  [(0, 30), (30, 30), (30, 0), (0, 0)] := by decide +kernel

/-- The input of `test_rounding_errors`. -/
theorem C130_test_rounding_errors : Input
  [(10, 3), (139 / 10, 169 / 25), (12, 6 / 5)]
  [(0, 25), (25, 25), (25, 0), (0, 0)] := by decide +kernel

/-- The input of `test_corners`. -/
theorem C130_test_corners : Input
  [(0, 10), (10, 0), (0, 0), (10, 10)]
  [(0, 10), (10, 10), (10, 0), (0, 0)] := by decide +kernel

/-- The input of `test_horizontal`. -/
theorem C130_test_horizontal : Input
  [(2, 5 / 2), (4, 5 / 2), (6, 5 / 2)]
  [(0, 10), (8, 10), (8, 0), (0, 0)] := by decide +kernel

/-- The input of `test_triangle_from_left`. -/
theorem C130_test_triangle_from_left : Input
  [(13, 93), (20, 89), (33, 69)]
  [(0, 100), (100, 100), (50, 0)] := by decide +kernel

/-- The input of `test_triangle_from_right`. -/
theorem C130_test_triangle_from_right : Input
  [(87, 93), (80, 89), (67, 69)]
  [(0, 100), (100, 100), (50, 0)] := by decide +kernel

/-- The input of `test_lines_outside_triangle`. -/
theorem C130_test_lines_outside_triangle : Input
  [(57, 75), (35, 85), (92, 98), (81, 87)]
  [(0, 100), (100, 100), (50, 0)] := by decide +kernel

/-- The input of `test_another_line_outside_triangle`. -/
theorem C130_test_another_line_outside_triangle : Input
  [(54, 90), (5, 95), (16, 85)]
  [(0, 100), (100, 100), (50, 0)] := by decide +kernel

/-- The input of `test_max_distance`. -/
theorem C130_test_max_distance : Input
  [(45, 13), (57, 71), (39, 82), (61, 81)]
  [(0, 100), (100, 100), (50, 0)] := by decide +kernel

/-- The input of `test_calc_cell_sizes`. -/
theorem C130_test_calc_cell_sizes : Input
  [(45, 13), (43, 85), (39, 82), (22, 95), (27, 90)]
  [(0, 100), (100, 100), (50, 0)] := by decide +kernel

/-- The input of `test_alexdiab`. -/
theorem C130_test_alexdiab : Input
  [(69 / 20, 183 / 50), (6, 227 / 50), (391 / 50, 107 / 20), (113 / 20, 309 / 100), (199 / 100, 233 / 50)]
  [(0, 6), (9, 6), (9, 0), (0, 0)] := by decide +kernel

/-- The input of `test_mars0001_1`. -/
theorem C130_test_mars0001_1 : Input
  [(201273 / 10000, 187303 / 10000), (265107 / 10000, 187303 / 10000), (201273 / 10000, 238437 / 10000), (265107 / 10000, 238437 / 10000)]
  [(15, 30), (30, 30), (30, 15), (15, 15)] := by decide +kernel

end Foronoi
