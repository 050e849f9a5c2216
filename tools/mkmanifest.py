"""Writes MANIFEST.json from the table below: property -> (status, theorems, note)."""
import json, os
HERE = os.path.dirname(os.path.abspath(__file__))
C = {}
def c(pid, status, theorems, note=""):
    C[pid] = dict(property=pid, status=status, theorems=["Foronoi." + t for t in theorems], note=note)

c("C02", "proved", ["C02_names"])
c("C04", "proved", ["C04_terminates", "C04_events"], "rounding behaviours are those that obey ArithLaws and MidLt (DESIGN.md); C102 proves them for the decimal module")
c("C05", "proved", ["C05_sweep_errors"], "rounding behaviours are those that obey ArithLaws and MidLt (DESIGN.md); C102 proves them for the decimal module")
c("C06", "proved", ["C06_twins", "C06_result_twins"], "C06_twins: every state of the sweep; C06_result_twins: the result")
c("C07", "proved", ["C07_links"])
c("C08", "proved", ["C08_degree"])
c("C09", "proved", ["C09_sides"])
c("C10", "proved", ["C10_euler"], "rounding behaviours are those that obey ArithLaws and MidLt (DESIGN.md); C102 proves them for the decimal module")
c("C11", "proved", ["C11_events"])
c("C12", "proved", ["C12_tree"])
c("C34", "proved", ["C34_borders", "C34_borders_sweep"])

c("C03", "proved", ["C03_order", "C03_weak_order"])
c("C13", "proved", ["C13_propagate", "C13_balance", "C13_rotate_left", "C13_rotate_right"])
c("C14", "proved", ["C14_neighbours"])
c("C15", "proved", ["C15_find"])
c("C16", "proved", ["C16_find_leaf"])
c("C45", "proved", ["C45_queue", "C45_event_queue"])

c("C23", "proved", ["C23_no_errors", "C23_monotone"])
c("C24", "proved", ["C24_envelope"])
c("C25", "proved", ["C25_nearest", "C25_vertices"])
c("C26", "proved", ["C26_edges"])

c("C19", "proved", ["C19_circle"])
c("C20", "proved", ["C20_clockwise"])
c("C21", "proved", ["C21_breakpoint", "C21_new_site", "C21_reverse"])
c("C22", "proved", ["C22_plot"])

c("C27", "proved", ["C27_listed_edges"], "rounding behaviours are those that obey ArithLaws and MidLt (DESIGN.md); C102 proves them for the decimal module")
c("C29", "partial", ["C29_box_partial", "C46_lost_edge"], "proved for boxes whose top is higher than their diagonal; false as stated: C46_lost_edge is a box with two sites where the sweep line is not low enough")
c("C32", "proved", ["C32_single_site"])
c("C33", "proved", ["C33_closes_border", "C33_create", "C33_angular"])
c("C36", "partial", ["C36_zero_length_partial", "C47_lost_vertex"], "first half proved; the second half is false: C47_lost_vertex; C112 proves exactly when it holds")
c("C37", "proved", ["C37_delete", "C37_gone"])
c("C28", "partial", ["C28_on_border", "C28_exit", "C28_furthest_partial", "C49_beyond_end"],
  "never raises, on the border and on the ray, None characterised, exact on convex polygons; the clause `within the length and furthest` holds if no crossing is beyond the end and is false in general: C49_beyond_end")
c("C30", "proved", ["C30_box"])
c("C31", "proved", ["C31_even_odd", "C31_convex"])
c("C35", "proved", ["C35_nonneg", "C35_rotate", "C35_reverse", "C35_translate", "C35_scale", "C35_triangle", "C35_convex", "C35_split", "C35_area", "C35_single_box"])
c("C49", "proved", ["C49_beyond_end"])
c("C50", "proved", ["C29_cut"])
c("C46", "proved", ["C46_lost_edge"])
c("C47", "proved", ["C47_lost_vertex"])
c("C48", "proved", ["C48_create_errors"], "rounding behaviours are those that obey ArithLaws and MidLt (DESIGN.md); C102 proves them for the decimal module")

c("C17", "proved", ["C17_insert", "C17_sequence", "C17_depth"])
c("C18", "partial", ["C18_delete_partial", "C51_delete_raises"], "proved for keys whose node has at most one child (or that are absent); false for nodes with two children: C51_delete_raises")
c("C51", "proved", ["C51_delete_raises"])
c("C52", "proved", ["C52_stale_parent"])
c("C53", "proved", ["C53_equal_keys"])
c("C54", "proved", ["C54_find", "C54_leaves"])

c("C38", "proved", ["C38_line", "C38_cut", "C38_miss", "C38_inside", "C38_edge"])
c("C39", "partial", ["C39_sweep_partial", "C55_circle_raises"], "only the sweep itself completes (C39_sweep_partial); the rest is false in the code: create_diagram raises with every bounding circle (C55)")
c("C55", "proved", ["C55_circle_raises"])

c("C40", "proved", ["C40_log", "C40_observed", "C40_deliver", "C40_order"])
c("C41", "proved", ["C41_spec", "C41_parent", "C41_child"])
c("C42", "proved", ["C42_tree", "C42_voronoi", "C42_debug", "C42_voronoi_run", "C42_tree_run"])
c("C43", "partial", ["C43_own_settings_partial", "C43_counterexample", "C57_settings_leak"], "proved for the keys an observer sets itself and for keys nobody sets; false for the others (C43_counterexample, C57)")
c("C56", "proved", ["C56_child_attach"])
c("C57", "proved", ["C57_settings_leak"])

c("C58", "proved", ["C58_create_succeeds"])
c("C59", "proved", ["C59_cleanup_raises"])

c("C60", "proved", ["C60_vertices"])
c("C61", "proved", ["C61_edges"])
c("C62", "proved", ["C62_bounded_edge"])

c("C63", "proved", ["C63_wrong_edge"])
c("C64", "proved", ["C64_points_nearest", "C64_edge_exact", "C64_edge_exists"])

c("C65", "proved", ["C65_edges_sound", "C65_edges_complete", "C65_box"])

c("C01", "proved", ["C01_sites", "C01_sites_decimal"], "a Point is a reference; that no statement assigns its coordinates after construction is part of the model; rounding behaviours are those that obey ArithLaws and MidLt (DESIGN.md); C102 proves them for the decimal module")
c("C66", "proved", ["C66_reused_object", "C66_new_object"])
c("C67", "proved", ["C67_shared_polygon", "C67_shared_polygon_runs", "C67_witness"])

c("C44", "partial", ["C44_not_logarithmic_partial", "C68_row_path"], "false as stated: no multiple of the logarithm bounds the depth (C44_not_logarithmic_partial); C68 says what happens for a row of sites")
c("C68", "proved", ["C68_row_path", "C68_row_instance"])
c("C69", "proved", ["C69_no_duplicate", "C69_edge_unique"])
c("C70", "proved", ["C70_border_sound", "C70_border_complete"])
c("C71", "proved", ["C71_borders", "C71_region", "C71_rim"])
c("C72", "proved", ["C72_area"])
c("C73", "proved", ["C73_areas", "convex_area"])
c("C74", "proved", ["C74_cleanup_succeeds", "C74_default_areas"])
c("C75", "proved", ["C75_cleanup_no_effect"])
c("C76", "proved", ["C76_beach_line"], "drawing is a list of calls on the canvas")
c("C77", "proved", ["C77_labels"], "drawing is a list of calls on the canvas")
c("C78", "proved", ["C78_wrong_label"])
c("C79", "proved", ["C79_no_triangles"])
c("C80", "proved", ["C80_edges_drawn"], "drawing is a list of calls on the canvas")
c("C81", "proved", ["C81_edge_labels"], "drawing is a list of calls on the canvas")
c("C82", "proved", ["C82_vertices_drawn"], "drawing is a list of calls on the canvas")
c("C83", "proved", ["C83_top_edge_missing"])
c("C84", "proved", ["C84_tree_text"])
c("C85", "proved", ["C85_tree_graph"], "the fresh node identifiers (uuid4) are the references of the nodes")
c("C86", "proved", ["C86_final_picture"], "drawing is a list of calls on the canvas")
c("C87", "proved", ["C87_border_to_site"], "drawing is a list of calls on the canvas")
c("C88", "proved", ["C88_final_vertices"])
c("C89", "proved", ["C89_site_vertices"])
c("C90", "proved", ["C90_connected", "C90_degree"])
c("C91", "proved", ["C91_target"])
c("C92", "proved", ["C92_not_listed", "C92_delete_again", "C92_finished"])
c("C93", "proved", ["C93_euler", "C93_counts", "C93_linear", "C93_cells"])
c("C94", "proved", ["C94_clockwise", "C94_center", "C94_box"])
c("C95", "proved", ["C95_fits", "C95_fits_inside"])
c("C96", "proved", ["C96_moved", "C96_fits", "C96_areas"])
c("C97", "proved", ["C97_backwards", "C97_tie", "C97_triangle"], "the line of C97_backwards is the ray from the centre; the run is over the rationals with the diamond angle in place of the angle, which orders directions alike")
c("C98", "proved", ["C98_same_corners", "C98_other_polygon"])
c("C99", "proved", ["C99_first_corner", "C99_raises", "C99_right_half"], "concrete runs over the rationals, where a root that is not rational is rounded")
c("C100", "proved", ["C100_corners"])
c("C101", "proved", ["C101_effect"])
c("C102", "proved", ["C102_decimal", "C102_sweep", "C102_floats", "C102_rounding"], "exponent limits of decimal are not modelled; the angle is the exact diamond angle rounded to a float")
c("C103", "proved", ["C103_circle"])
c("C104", "proved", ["C104_raises", "C104_short"], "evaluated by the kernel with the arithmetic of Model/Decimal.lean, whose rounding is specified in C102")
c("C105", "proved", ["C105_row"])
c("C106", "proved", ["C106_cut", "C106_from_above", "C106_to_above", "C106_infinite", "C106_trim", "C106_miss"])
c("C107", "proved", ["C107_new_events"], "rounding behaviours are those that obey ArithLaws and MidLt (DESIGN.md); C102 proves them for the decimal module")
c("C108", "proved", ["C108_real", "C108_row", "C108_row_enough", "C108_same", "C108_instance"], "the limit counts the nested calls of update_heights in replace_leaf; frames of other functions are not counted")
c("C109", "proved", ["C109_quiet", "C109_self_detach", "C109_every_other", "C109_attach", "C109_forever"])
c("C110", "proved", ["C110_arrows", "C110_all_arrows"])
c("C111", "proved", ["C111_event_drawn", "C111_no_event", "C111_all_shown"])
c("C112", "proved", ["C112_lost_where", "C112_all_listed"], "sharpens C36 and C47: the exact condition for the second half of C36")
c("C113", "proved", ["C113_circle_drawn"])
c("C114", "proved", ["C114_just_right_up", "C114_convex"])
c("C115", "proved", ["C115_cell_lost", "C115_all_cells", "C115_nearby"], "evaluated by the kernel with the arithmetic of Model/Decimal.lean, whose rounding is specified in C102; shows that the assumption FitsPolygon.border of the theorems on the finished diagram is needed")
c("C116", "proved", ["C116_previous", "C116_twin_next"])
c("C117", "proved", ["C117_lower_twice", "C117_upper_twice"], "evaluated by the kernel with the arithmetic of Model/Decimal.lean, whose rounding is specified in C102; concerns the named inputs only; shows that the assumption of distinct sites in the geometric theorems is needed")
c("C118", "proved", ["C118_far_cell", "C118_covering_cell"], "evaluated by the kernel with the arithmetic of Model/Decimal.lean")

c("C119", "proved", ["C119_no_area", "C119_area", "C119_exact"], "generalises C118 to all sites; distinct sites, exact arithmetic")
c("C120", "proved", ["C120_only_wanted", "C120_plain_parts", "C120_finished"], "drawing is a list of calls on the canvas; exact arithmetic for C120_finished")
c("C121", "proved", ["C121_cell_drawn", "C121_empty_draws_all", "C121_corners_drawn", "C121_sweep_line"], "drawing is a list of calls on the canvas; distinct sites, exact arithmetic")
c("C122", "proved", ["C122_moved"], "general position, distinct sites, exact arithmetic")
c("C123", "proved", ["C123_sum", "C123_covered"], "generalises C75 to sites anywhere; distinct sites, exact arithmetic")
c("C124", "proved", ["C124_written", "C124_float_back", "C124_decimal_back", "C124_sixteen", "C124_float_operations"], "exponent limits of floats and decimals are not modelled")
c("C125", "proved", ["C125_replace_leaf", "C125_update_heights", "C125_balance", "C125_stale", "C125_unbalanced"], "the two runs are evaluated by the kernel with the rounding of decimal")
c("C126", "proved", ["C126_fits", "C126_areas", "C126_vertices", "C126_lines", "C126_order"], "distinct sites, exact arithmetic")
c("C127", "proved", ["C127_more_sites"], "distinct sites, exact arithmetic")
c("C128", "proved", ["C128_neighbours", "C128_once", "C128_across", "C128_mutual"], "distinct sites, exact arithmetic")
c("C129", "proved", ["C129_exact", "C129_none", "C129_raises", "C129_float", "C129_float_nearest", "C129_not_nearest"], "round of numpy is modelled as product, rint, quotient; rint in exact arithmetic is a parameter with its documented specification; exact arithmetic and distinct sites for C129_exact")
c("C130", "proved", ["C130_fits", "C130_areas", "C130_quickstart", "C95_fits_heights", "C130_test_single_point_triangle", "C130_test_martijn", "C130_test_roel", "C130_test_rounding_errors", "C130_test_horizontal", "C130_test_triangle_from_left", "C130_test_triangle_from_right", "C130_test_lines_outside_triangle", "C130_test_another_line_outside_triangle", "C130_test_max_distance", "C130_test_calc_cell_sizes", "C130_test_mars0001_1", "C130_test_corners", "C130_test_alexdiab"], "exact arithmetic; the condition is sufficient, not necessary: of the other tests, test_diamond has a first corner between two cells and test_left_arc a Voronoi vertex on the border; larger tests are not evaluated")
c("C131", "proved", ["C131_labels", "C131_given", "C131_neighbours"], "exact arithmetic; the text is kept as the pair of site names, the string made of it is not modelled")
c("C132", "proved", ["C132_areas", "C132_vertices", "C132_lines", "C132_neighbours", "C132_moved"], "exact arithmetic; that the input fits is needed in both systems because the cut-off line depends on the distance to the x-axis and the first corner on the direction")
c("C133", "proved", ["C133_pointers", "C133_ends", "C133_sites"], "drawing is a list of calls on the canvas; distinct sites, exact arithmetic")
c("C134", "proved", ["C134_areas", "C134_divided", "C134_lines", "C134_vertices"], "distinct sites, exact arithmetic")
c("C135", "proved", ["C135_continuous"], "the changed input is assumed to fit as well; C136 has a condition under which it does. Exact arithmetic")
c("C136", "proved", ["C136_open", "C136_areas", "C136_stable", "C136_example"], "exact arithmetic: the change is in the input, not rounding during the run. C136_example shows a stable input")
c("C137", "proved", ["C137_call", "C137_fractions", "C137_readme"], "exact arithmetic")
c("C138", "proved", ["C138_exception", "C138_single", "C138_all_three", "C138_rounding", "C138_decimal"], "C138_all_three: concrete runs over the rationals; the roots in them are exact")
c("C139", "proved", ["C139_outermost", "C139_planar", "C139_five"], "sharp for three sites (example in Props/Planar.lean)")
c("C140", "proved", ["C140_unbounded", "C140_hull"], "unbounded cell and furthest site are defined from the sites alone; an example with three corners and an inner site is beside the theorems")
c("C141", "proved", ["C141_one_ray", "C141_euler", "C141_line"], "examples with three corners and an inner site and with five sites on a line are beside the theorems")
c("C142", "proved", ["C142_follows", "C142_next_unique"], "the hull is stated from the coordinates of the sites alone; an example is beside the theorems")
c("C143", "proved", ["C143_empty_disc", "C143_nearest"], "other sites may lie outside the polygon; an example is beside the theorems")

if __name__ == "__main__":
    with open(os.path.join(HERE, "..", "MANIFEST.json"), "w") as f:
        json.dump({"claims": [C[k] for k in sorted(C, key=lambda k: int(k[1:]))]}, f, indent=1)
        f.write("\n")
