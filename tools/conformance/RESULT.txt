test_single_point_triangle: ok
test_grid: ok
test_diamond: ok
test_martijn: ok
test_roel: ok
test_desmos: ok
test_rounding_errors: ok
test_corners: ok
test_horizontal: ok
test_left_arc: ok
test_multi_diamond: ok
test_triangle_from_left: ok
test_triangle_from_right: ok
test_lines_outside_triangle: ok
test_another_line_outside_triangle: ok
test_max_distance: ok
test_calc_cell_sizes: ok
test_alexdiab: ok
test_mars0001_1: ok
test_mars0001_2: ok
test_large_grid: ok
test_vertices_correct: ok
test_vertices_correct_removed: ok
README: [ok, -1/140737488355328, 1/70368744177664, ok, ok, ok, ok]
[[(0.166000, 5.333000), (4.500000, 1.000000), (4.642000, 0.000000), (2.500000, 0.000000), (0.000000, 2.500000), (0.000000, 5.000000)], [(5.000000, 10.000000), (5.000000, 5.750000), (1.250000, 5.750000), (0.462000, 5.925000), (2.500000, 10.000000)], [(6.000000, 0.500000), (7.583000, 5.250000), (9.250000, 5.750000), (10.000000, 5.000000), (10.000000, 2.500000)], [(5.000000, 5.750000), (5.000000, 10.000000), (9.250000, 5.750000), (7.583000, 5.250000), (5.875000, 5.250000)], [(1.250000, 5.750000), (5.000000, 5.750000), (5.875000, 5.250000), (4.500000, 2.500000)], [(1.250000, 5.750000), (4.500000, 2.500000), (4.500000, 1.000000), (0.166000, 5.333000), (0.462000, 5.925000)], [(5.875000, 5.250000), (7.583000, 5.250000), (6.000000, 0.500000), (5.000000, 0.000000), (4.642000, 0.000000), (4.500000, 1.000000), (4.500000, 2.500000)]]
