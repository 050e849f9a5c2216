{
 "claims": [
  {
   "property": "C01",
   "status": "proved",
   "theorems": [
    "Foronoi.C01_sites",
    "Foronoi.C01_sites_decimal"
   ],
   "note": "a Point is a reference; that no statement assigns its coordinates after construction is part of the model; rounding behaviours are those that obey ArithLaws and MidLt (DESIGN.md); C102 proves them for the decimal module"
  },
  {
   "property": "C02",
   "status": "proved",
   "theorems": [
    "Foronoi.C02_names"
   ],
   "note": ""
  },
  {
   "property": "C03",
   "status": "proved",
   "theorems": [
    "Foronoi.C03_order",
    "Foronoi.C03_weak_order"
   ],
   "note": ""
  },
  {
   "property": "C04",
   "status": "proved",
   "theorems": [
    "Foronoi.C04_terminates",
    "Foronoi.C04_events"
   ],
   "note": "rounding behaviours are those that obey ArithLaws and MidLt (DESIGN.md); C102 proves them for the decimal module"
  },
  {
   "property": "C05",
   "status": "proved",
   "theorems": [
    "Foronoi.C05_sweep_errors"
   ],
   "note": "rounding behaviours are those that obey ArithLaws and MidLt (DESIGN.md); C102 proves them for the decimal module"
  },
  {
   "property": "C06",
   "status": "proved",
   "theorems": [
    "Foronoi.C06_twins",
    "Foronoi.C06_result_twins"
   ],
   "note": "C06_twins: every state of the sweep; C06_result_twins: the result"
  },
  {
   "property": "C07",
   "status": "proved",
   "theorems": [
    "Foronoi.C07_links"
   ],
   "note": ""
  },
  {
   "property": "C08",
   "status": "proved",
   "theorems": [
    "Foronoi.C08_degree"
   ],
   "note": ""
  },
  {
   "property": "C09",
   "status": "proved",
   "theorems": [
    "Foronoi.C09_sides"
   ],
   "note": ""
  },
  {
   "property": "C10",
   "status": "proved",
   "theorems": [
    "Foronoi.C10_euler"
   ],
   "note": "rounding behaviours are those that obey ArithLaws and MidLt (DESIGN.md); C102 proves them for the decimal module"
  },
  {
   "property": "C11",
   "status": "proved",
   "theorems": [
    "Foronoi.C11_events"
   ],
   "note": ""
  },
  {
   "property": "C12",
   "status": "proved",
   "theorems": [
    "Foronoi.C12_tree"
   ],
   "note": ""
  },
  {
   "property": "C13",
   "status": "proved",
   "theorems": [
    "Foronoi.C13_propagate",
    "Foronoi.C13_balance",
    "Foronoi.C13_rotate_left",
    "Foronoi.C13_rotate_right"
   ],
   "note": ""
  },
  {
   "property": "C14",
   "status": "proved",
   "theorems": [
    "Foronoi.C14_neighbours"
   ],
   "note": ""
  },
  {
   "property": "C15",
   "status": "proved",
   "theorems": [
    "Foronoi.C15_find"
   ],
   "note": ""
  },
  {
   "property": "C16",
   "status": "proved",
   "theorems": [
    "Foronoi.C16_find_leaf"
   ],
   "note": ""
  },
  {
   "property": "C17",
   "status": "proved",
   "theorems": [
    "Foronoi.C17_insert",
    "Foronoi.C17_sequence",
    "Foronoi.C17_depth"
   ],
   "note": ""
  },
  {
   "property": "C18",
   "status": "partial",
   "theorems": [
    "Foronoi.C18_delete_partial",
    "Foronoi.C51_delete_raises"
   ],
   "note": "proved for keys whose node has at most one child (or that are absent); false for nodes with two children: C51_delete_raises"
  },
  {
   "property": "C19",
   "status": "proved",
   "theorems": [
    "Foronoi.C19_circle"
   ],
   "note": ""
  },
  {
   "property": "C20",
   "status": "proved",
   "theorems": [
    "Foronoi.C20_clockwise"
   ],
   "note": ""
  },
  {
   "property": "C21",
   "status": "proved",
   "theorems": [
    "Foronoi.C21_breakpoint",
    "Foronoi.C21_new_site",
    "Foronoi.C21_reverse"
   ],
   "note": ""
  },
  {
   "property": "C22",
   "status": "proved",
   "theorems": [
    "Foronoi.C22_plot"
   ],
   "note": ""
  },
  {
   "property": "C23",
   "status": "proved",
   "theorems": [
    "Foronoi.C23_no_errors",
    "Foronoi.C23_monotone"
   ],
   "note": ""
  },
  {
   "property": "C24",
   "status": "proved",
   "theorems": [
    "Foronoi.C24_envelope"
   ],
   "note": ""
  },
  {
   "property": "C25",
   "status": "proved",
   "theorems": [
    "Foronoi.C25_nearest",
    "Foronoi.C25_vertices"
   ],
   "note": ""
  },
  {
   "property": "C26",
   "status": "proved",
   "theorems": [
    "Foronoi.C26_edges"
   ],
   "note": ""
  },
  {
   "property": "C27",
   "status": "proved",
   "theorems": [
    "Foronoi.C27_listed_edges"
   ],
   "note": "rounding behaviours are those that obey ArithLaws and MidLt (DESIGN.md); C102 proves them for the decimal module"
  },
  {
   "property": "C28",
   "status": "partial",
   "theorems": [
    "Foronoi.C28_on_border",
    "Foronoi.C28_exit",
    "Foronoi.C28_furthest_partial",
    "Foronoi.C49_beyond_end"
   ],
   "note": "never raises, on the border and on the ray, None characterised, exact on convex polygons; the clause `within the length and furthest` holds if no crossing is beyond the end and is false in general: C49_beyond_end"
  },
  {
   "property": "C29",
   "status": "partial",
   "theorems": [
    "Foronoi.C29_box_partial",
    "Foronoi.C46_lost_edge"
   ],
   "note": "proved for boxes whose top is higher than their diagonal; false as stated: C46_lost_edge is a box with two sites where the sweep line is not low enough"
  },
  {
   "property": "C30",
   "status": "proved",
   "theorems": [
    "Foronoi.C30_box"
   ],
   "note": ""
  },
  {
   "property": "C31",
   "status": "proved",
   "theorems": [
    "Foronoi.C31_even_odd",
    "Foronoi.C31_convex"
   ],
   "note": ""
  },
  {
   "property": "C32",
   "status": "proved",
   "theorems": [
    "Foronoi.C32_single_site"
   ],
   "note": ""
  },
  {
   "property": "C33",
   "status": "proved",
   "theorems": [
    "Foronoi.C33_closes_border",
    "Foronoi.C33_create",
    "Foronoi.C33_angular"
   ],
   "note": ""
  },
  {
   "property": "C34",
   "status": "proved",
   "theorems": [
    "Foronoi.C34_borders",
    "Foronoi.C34_borders_sweep"
   ],
   "note": ""
  },
  {
   "property": "C35",
   "status": "proved",
   "theorems": [
    "Foronoi.C35_nonneg",
    "Foronoi.C35_rotate",
    "Foronoi.C35_reverse",
    "Foronoi.C35_translate",
    "Foronoi.C35_scale",
    "Foronoi.C35_triangle",
    "Foronoi.C35_convex",
    "Foronoi.C35_split",
    "Foronoi.C35_area",
    "Foronoi.C35_single_box"
   ],
   "note": ""
  },
  {
   "property": "C36",
   "status": "partial",
   "theorems": [
    "Foronoi.C36_zero_length_partial",
    "Foronoi.C47_lost_vertex"
   ],
   "note": "first half proved; the second half is false: C47_lost_vertex; C112 proves exactly when it holds"
  },
  {
   "property": "C37",
   "status": "proved",
   "theorems": [
    "Foronoi.C37_delete",
    "Foronoi.C37_gone"
   ],
   "note": ""
  },
  {
   "property": "C38",
   "status": "proved",
   "theorems": [
    "Foronoi.C38_line",
    "Foronoi.C38_cut",
    "Foronoi.C38_miss",
    "Foronoi.C38_inside",
    "Foronoi.C38_edge"
   ],
   "note": ""
  },
  {
   "property": "C39",
   "status": "partial",
   "theorems": [
    "Foronoi.C39_sweep_partial",
    "Foronoi.C55_circle_raises"
   ],
   "note": "only the sweep itself completes (C39_sweep_partial); the rest is false in the code: create_diagram raises with every bounding circle (C55)"
  },
  {
   "property": "C40",
   "status": "proved",
   "theorems": [
    "Foronoi.C40_log",
    "Foronoi.C40_observed",
    "Foronoi.C40_deliver",
    "Foronoi.C40_order"
   ],
   "note": ""
  },
  {
   "property": "C41",
   "status": "proved",
   "theorems": [
    "Foronoi.C41_spec",
    "Foronoi.C41_parent",
    "Foronoi.C41_child"
   ],
   "note": ""
  },
  {
   "property": "C42",
   "status": "proved",
   "theorems": [
    "Foronoi.C42_tree",
    "Foronoi.C42_voronoi",
    "Foronoi.C42_debug",
    "Foronoi.C42_voronoi_run",
    "Foronoi.C42_tree_run"
   ],
   "note": ""
  },
  {
   "property": "C43",
   "status": "partial",
   "theorems": [
    "Foronoi.C43_own_settings_partial",
    "Foronoi.C43_counterexample",
    "Foronoi.C57_settings_leak"
   ],
   "note": "proved for the keys an observer sets itself and for keys nobody sets; false for the others (C43_counterexample, C57)"
  },
  {
   "property": "C44",
   "status": "partial",
   "theorems": [
    "Foronoi.C44_not_logarithmic_partial",
    "Foronoi.C68_row_path"
   ],
   "note": "false as stated: no multiple of the logarithm bounds the depth (C44_not_logarithmic_partial); C68 says what happens for a row of sites"
  },
  {
   "property": "C45",
   "status": "proved",
   "theorems": [
    "Foronoi.C45_queue",
    "Foronoi.C45_event_queue"
   ],
   "note": ""
  },
  {
   "property": "C46",
   "status": "proved",
   "theorems": [
    "Foronoi.C46_lost_edge"
   ],
   "note": ""
  },
  {
   "property": "C47",
   "status": "proved",
   "theorems": [
    "Foronoi.C47_lost_vertex"
   ],
   "note": ""
  },
  {
   "property": "C48",
   "status": "proved",
   "theorems": [
    "Foronoi.C48_create_errors"
   ],
   "note": "rounding behaviours are those that obey ArithLaws and MidLt (DESIGN.md); C102 proves them for the decimal module"
  },
  {
   "property": "C49",
   "status": "proved",
   "theorems": [
    "Foronoi.C49_beyond_end"
   ],
   "note": ""
  },
  {
   "property": "C50",
   "status": "proved",
   "theorems": [
    "Foronoi.C29_cut"
   ],
   "note": ""
  },
  {
   "property": "C51",
   "status": "proved",
   "theorems": [
    "Foronoi.C51_delete_raises"
   ],
   "note": ""
  },
  {
   "property": "C52",
   "status": "proved",
   "theorems": [
    "Foronoi.C52_stale_parent"
   ],
   "note": ""
  },
  {
   "property": "C53",
   "status": "proved",
   "theorems": [
    "Foronoi.C53_equal_keys"
   ],
   "note": ""
  },
  {
   "property": "C54",
   "status": "proved",
   "theorems": [
    "Foronoi.C54_find",
    "Foronoi.C54_leaves"
   ],
   "note": ""
  },
  {
   "property": "C55",
   "status": "proved",
   "theorems": [
    "Foronoi.C55_circle_raises"
   ],
   "note": ""
  },
  {
   "property": "C56",
   "status": "proved",
   "theorems": [
    "Foronoi.C56_child_attach"
   ],
   "note": ""
  },
  {
   "property": "C57",
   "status": "proved",
   "theorems": [
    "Foronoi.C57_settings_leak"
   ],
   "note": ""
  },
  {
   "property": "C58",
   "status": "proved",
   "theorems": [
    "Foronoi.C58_create_succeeds"
   ],
   "note": ""
  },
  {
   "property": "C59",
   "status": "proved",
   "theorems": [
    "Foronoi.C59_cleanup_raises"
   ],
   "note": ""
  },
  {
   "property": "C60",
   "status": "proved",
   "theorems": [
    "Foronoi.C60_vertices"
   ],
   "note": ""
  },
  {
   "property": "C61",
   "status": "proved",
   "theorems": [
    "Foronoi.C61_edges"
   ],
   "note": ""
  },
  {
   "property": "C62",
   "status": "proved",
   "theorems": [
    "Foronoi.C62_bounded_edge"
   ],
   "note": ""
  },
  {
   "property": "C63",
   "status": "proved",
   "theorems": [
    "Foronoi.C63_wrong_edge"
   ],
   "note": ""
  },
  {
   "property": "C64",
   "status": "proved",
   "theorems": [
    "Foronoi.C64_points_nearest",
    "Foronoi.C64_edge_exact",
    "Foronoi.C64_edge_exists"
   ],
   "note": ""
  },
  {
   "property": "C65",
   "status": "proved",
   "theorems": [
    "Foronoi.C65_edges_sound",
    "Foronoi.C65_edges_complete",
    "Foronoi.C65_box"
   ],
   "note": ""
  },
  {
   "property": "C66",
   "status": "proved",
   "theorems": [
    "Foronoi.C66_reused_object",
    "Foronoi.C66_new_object"
   ],
   "note": ""
  },
  {
   "property": "C67",
   "status": "proved",
   "theorems": [
    "Foronoi.C67_shared_polygon",
    "Foronoi.C67_shared_polygon_runs",
    "Foronoi.C67_witness"
   ],
   "note": ""
  },
  {
   "property": "C68",
   "status": "proved",
   "theorems": [
    "Foronoi.C68_row_path",
    "Foronoi.C68_row_instance"
   ],
   "note": ""
  },
  {
   "property": "C69",
   "status": "proved",
   "theorems": [
    "Foronoi.C69_no_duplicate",
    "Foronoi.C69_edge_unique"
   ],
   "note": ""
  },
  {
   "property": "C70",
   "status": "proved",
   "theorems": [
    "Foronoi.C70_border_sound",
    "Foronoi.C70_border_complete"
   ],
   "note": ""
  },
  {
   "property": "C71",
   "status": "proved",
   "theorems": [
    "Foronoi.C71_borders",
    "Foronoi.C71_region",
    "Foronoi.C71_rim"
   ],
   "note": ""
  },
  {
   "property": "C72",
   "status": "proved",
   "theorems": [
    "Foronoi.C72_area"
   ],
   "note": ""
  },
  {
   "property": "C73",
   "status": "proved",
   "theorems": [
    "Foronoi.C73_areas",
    "Foronoi.convex_area"
   ],
   "note": ""
  },
  {
   "property": "C74",
   "status": "proved",
   "theorems": [
    "Foronoi.C74_cleanup_succeeds",
    "Foronoi.C74_default_areas"
   ],
   "note": ""
  },
  {
   "property": "C75",
   "status": "proved",
   "theorems": [
    "Foronoi.C75_cleanup_no_effect"
   ],
   "note": ""
  },
  {
   "property": "C76",
   "status": "proved",
   "theorems": [
    "Foronoi.C76_beach_line"
   ],
   "note": "drawing is a list of calls on the canvas"
  },
  {
   "property": "C77",
   "status": "proved",
   "theorems": [
    "Foronoi.C77_labels"
   ],
   "note": "drawing is a list of calls on the canvas"
  },
  {
   "property": "C78",
   "status": "proved",
   "theorems": [
    "Foronoi.C78_wrong_label"
   ],
   "note": ""
  },
  {
   "property": "C79",
   "status": "proved",
   "theorems": [
    "Foronoi.C79_no_triangles"
   ],
   "note": ""
  },
  {
   "property": "C80",
   "status": "proved",
   "theorems": [
    "Foronoi.C80_edges_drawn"
   ],
   "note": "drawing is a list of calls on the canvas"
  },
  {
   "property": "C81",
   "status": "proved",
   "theorems": [
    "Foronoi.C81_edge_labels"
   ],
   "note": "drawing is a list of calls on the canvas"
  },
  {
   "property": "C82",
   "status": "proved",
   "theorems": [
    "Foronoi.C82_vertices_drawn"
   ],
   "note": "drawing is a list of calls on the canvas"
  },
  {
   "property": "C83",
   "status": "proved",
   "theorems": [
    "Foronoi.C83_top_edge_missing"
   ],
   "note": ""
  },
  {
   "property": "C84",
   "status": "proved",
   "theorems": [
    "Foronoi.C84_tree_text"
   ],
   "note": ""
  },
  {
   "property": "C85",
   "status": "proved",
   "theorems": [
    "Foronoi.C85_tree_graph"
   ],
   "note": "the fresh node identifiers (uuid4) are the references of the nodes"
  },
  {
   "property": "C86",
   "status": "proved",
   "theorems": [
    "Foronoi.C86_final_picture"
   ],
   "note": "drawing is a list of calls on the canvas"
  },
  {
   "property": "C87",
   "status": "proved",
   "theorems": [
    "Foronoi.C87_border_to_site"
   ],
   "note": "drawing is a list of calls on the canvas"
  },
  {
   "property": "C88",
   "status": "proved",
   "theorems": [
    "Foronoi.C88_final_vertices"
   ],
   "note": ""
  },
  {
   "property": "C89",
   "status": "proved",
   "theorems": [
    "Foronoi.C89_site_vertices"
   ],
   "note": ""
  },
  {
   "property": "C90",
   "status": "proved",
   "theorems": [
    "Foronoi.C90_connected",
    "Foronoi.C90_degree"
   ],
   "note": ""
  },
  {
   "property": "C91",
   "status": "proved",
   "theorems": [
    "Foronoi.C91_target"
   ],
   "note": ""
  },
  {
   "property": "C92",
   "status": "proved",
   "theorems": [
    "Foronoi.C92_not_listed",
    "Foronoi.C92_delete_again",
    "Foronoi.C92_finished"
   ],
   "note": ""
  },
  {
   "property": "C93",
   "status": "proved",
   "theorems": [
    "Foronoi.C93_euler",
    "Foronoi.C93_counts",
    "Foronoi.C93_linear",
    "Foronoi.C93_cells"
   ],
   "note": ""
  },
  {
   "property": "C94",
   "status": "proved",
   "theorems": [
    "Foronoi.C94_clockwise",
    "Foronoi.C94_center",
    "Foronoi.C94_box"
   ],
   "note": ""
  },
  {
   "property": "C95",
   "status": "proved",
   "theorems": [
    "Foronoi.C95_fits",
    "Foronoi.C95_fits_inside"
   ],
   "note": ""
  },
  {
   "property": "C96",
   "status": "proved",
   "theorems": [
    "Foronoi.C96_moved",
    "Foronoi.C96_fits",
    "Foronoi.C96_areas"
   ],
   "note": ""
  },
  {
   "property": "C97",
   "status": "proved",
   "theorems": [
    "Foronoi.C97_backwards",
    "Foronoi.C97_tie",
    "Foronoi.C97_triangle"
   ],
   "note": "the line of C97_backwards is the ray from the centre; the run is over the rationals with the diamond angle in place of the angle, which orders directions alike"
  },
  {
   "property": "C98",
   "status": "proved",
   "theorems": [
    "Foronoi.C98_same_corners",
    "Foronoi.C98_other_polygon"
   ],
   "note": ""
  },
  {
   "property": "C99",
   "status": "proved",
   "theorems": [
    "Foronoi.C99_first_corner",
    "Foronoi.C99_raises",
    "Foronoi.C99_right_half"
   ],
   "note": "concrete runs over the rationals, where a root that is not rational is rounded"
  },
  {
   "property": "C100",
   "status": "proved",
   "theorems": [
    "Foronoi.C100_corners"
   ],
   "note": ""
  },
  {
   "property": "C101",
   "status": "proved",
   "theorems": [
    "Foronoi.C101_effect"
   ],
   "note": ""
  },
  {
   "property": "C102",
   "status": "proved",
   "theorems": [
    "Foronoi.C102_decimal",
    "Foronoi.C102_sweep",
    "Foronoi.C102_floats",
    "Foronoi.C102_rounding"
   ],
   "note": "exponent limits of decimal are not modelled; the angle is the exact diamond angle rounded to a float"
  },
  {
   "property": "C103",
   "status": "proved",
   "theorems": [
    "Foronoi.C103_circle"
   ],
   "note": ""
  },
  {
   "property": "C104",
   "status": "proved",
   "theorems": [
    "Foronoi.C104_raises",
    "Foronoi.C104_short"
   ],
   "note": "evaluated by the kernel with the arithmetic of Model/Decimal.lean, whose rounding is specified in C102"
  },
  {
   "property": "C105",
   "status": "proved",
   "theorems": [
    "Foronoi.C105_row"
   ],
   "note": ""
  },
  {
   "property": "C106",
   "status": "proved",
   "theorems": [
    "Foronoi.C106_cut",
    "Foronoi.C106_from_above",
    "Foronoi.C106_to_above",
    "Foronoi.C106_infinite",
    "Foronoi.C106_trim",
    "Foronoi.C106_miss"
   ],
   "note": ""
  },
  {
   "property": "C107",
   "status": "proved",
   "theorems": [
    "Foronoi.C107_new_events"
   ],
   "note": "rounding behaviours are those that obey ArithLaws and MidLt (DESIGN.md); C102 proves them for the decimal module"
  },
  {
   "property": "C108",
   "status": "proved",
   "theorems": [
    "Foronoi.C108_real",
    "Foronoi.C108_row",
    "Foronoi.C108_row_enough",
    "Foronoi.C108_same",
    "Foronoi.C108_instance"
   ],
   "note": "the limit counts the nested calls of update_heights in replace_leaf; frames of other functions are not counted"
  },
  {
   "property": "C109",
   "status": "proved",
   "theorems": [
    "Foronoi.C109_quiet",
    "Foronoi.C109_self_detach",
    "Foronoi.C109_every_other",
    "Foronoi.C109_attach",
    "Foronoi.C109_forever"
   ],
   "note": ""
  },
  {
   "property": "C110",
   "status": "proved",
   "theorems": [
    "Foronoi.C110_arrows",
    "Foronoi.C110_all_arrows"
   ],
   "note": ""
  },
  {
   "property": "C111",
   "status": "proved",
   "theorems": [
    "Foronoi.C111_event_drawn",
    "Foronoi.C111_no_event",
    "Foronoi.C111_all_shown"
   ],
   "note": ""
  },
  {
   "property": "C112",
   "status": "proved",
   "theorems": [
    "Foronoi.C112_lost_where",
    "Foronoi.C112_all_listed"
   ],
   "note": "sharpens C36 and C47: the exact condition for the second half of C36"
  },
  {
   "property": "C113",
   "status": "proved",
   "theorems": [
    "Foronoi.C113_circle_drawn"
   ],
   "note": ""
  },
  {
   "property": "C114",
   "status": "proved",
   "theorems": [
    "Foronoi.C114_just_right_up",
    "Foronoi.C114_convex"
   ],
   "note": ""
  },
  {
   "property": "C115",
   "status": "proved",
   "theorems": [
    "Foronoi.C115_cell_lost",
    "Foronoi.C115_all_cells",
    "Foronoi.C115_nearby"
   ],
   "note": "evaluated by the kernel with the arithmetic of Model/Decimal.lean, whose rounding is specified in C102; shows that the assumption FitsPolygon.border of the theorems on the finished diagram is needed"
  },
  {
   "property": "C116",
   "status": "proved",
   "theorems": [
    "Foronoi.C116_previous",
    "Foronoi.C116_twin_next"
   ],
   "note": ""
  },
  {
   "property": "C117",
   "status": "proved",
   "theorems": [
    "Foronoi.C117_lower_twice",
    "Foronoi.C117_upper_twice"
   ],
   "note": "evaluated by the kernel with the arithmetic of Model/Decimal.lean, whose rounding is specified in C102; concerns the named inputs only; shows that the assumption of distinct sites in the geometric theorems is needed"
  },
  {
   "property": "C118",
   "status": "proved",
   "theorems": [
    "Foronoi.C118_far_cell",
    "Foronoi.C118_covering_cell"
   ],
   "note": "evaluated by the kernel with the arithmetic of Model/Decimal.lean"
  },
  {
   "property": "C119",
   "status": "proved",
   "theorems": [
    "Foronoi.C119_no_area",
    "Foronoi.C119_area",
    "Foronoi.C119_exact"
   ],
   "note": "generalises C118 to all sites; distinct sites, exact arithmetic"
  },
  {
   "property": "C120",
   "status": "proved",
   "theorems": [
    "Foronoi.C120_only_wanted",
    "Foronoi.C120_plain_parts",
    "Foronoi.C120_finished"
   ],
   "note": "drawing is a list of calls on the canvas; exact arithmetic for C120_finished"
  },
  {
   "property": "C121",
   "status": "proved",
   "theorems": [
    "Foronoi.C121_cell_drawn",
    "Foronoi.C121_empty_draws_all",
    "Foronoi.C121_corners_drawn",
    "Foronoi.C121_sweep_line"
   ],
   "note": "drawing is a list of calls on the canvas; distinct sites, exact arithmetic"
  },
  {
   "property": "C122",
   "status": "proved",
   "theorems": [
    "Foronoi.C122_moved"
   ],
   "note": "general position, distinct sites, exact arithmetic"
  },
  {
   "property": "C123",
   "status": "proved",
   "theorems": [
    "Foronoi.C123_sum",
    "Foronoi.C123_covered"
   ],
   "note": "generalises C75 to sites anywhere; distinct sites, exact arithmetic"
  },
  {
   "property": "C124",
   "status": "proved",
   "theorems": [
    "Foronoi.C124_written",
    "Foronoi.C124_float_back",
    "Foronoi.C124_decimal_back",
    "Foronoi.C124_sixteen",
    "Foronoi.C124_float_operations"
   ],
   "note": "exponent limits of floats and decimals are not modelled"
  },
  {
   "property": "C125",
   "status": "proved",
   "theorems": [
    "Foronoi.C125_replace_leaf",
    "Foronoi.C125_update_heights",
    "Foronoi.C125_balance",
    "Foronoi.C125_stale",
    "Foronoi.C125_unbalanced"
   ],
   "note": "the two runs are evaluated by the kernel with the rounding of decimal"
  },
  {
   "property": "C126",
   "status": "proved",
   "theorems": [
    "Foronoi.C126_fits",
    "Foronoi.C126_areas",
    "Foronoi.C126_vertices",
    "Foronoi.C126_lines",
    "Foronoi.C126_order"
   ],
   "note": "distinct sites, exact arithmetic"
  },
  {
   "property": "C127",
   "status": "proved",
   "theorems": [
    "Foronoi.C127_more_sites"
   ],
   "note": "distinct sites, exact arithmetic"
  },
  {
   "property": "C128",
   "status": "proved",
   "theorems": [
    "Foronoi.C128_neighbours",
    "Foronoi.C128_once",
    "Foronoi.C128_across",
    "Foronoi.C128_mutual"
   ],
   "note": "distinct sites, exact arithmetic"
  },
  {
   "property": "C129",
   "status": "proved",
   "theorems": [
    "Foronoi.C129_exact",
    "Foronoi.C129_none",
    "Foronoi.C129_raises",
    "Foronoi.C129_float",
    "Foronoi.C129_float_nearest",
    "Foronoi.C129_not_nearest"
   ],
   "note": "round of numpy is modelled as product, rint, quotient; rint in exact arithmetic is a parameter with its documented specification; exact arithmetic and distinct sites for C129_exact"
  },
  {
   "property": "C130",
   "status": "proved",
   "theorems": [
    "Foronoi.C130_fits",
    "Foronoi.C130_areas",
    "Foronoi.C130_quickstart",
    "Foronoi.C95_fits_heights",
    "Foronoi.C130_test_single_point_triangle",
    "Foronoi.C130_test_martijn",
    "Foronoi.C130_test_roel",
    "Foronoi.C130_test_rounding_errors",
    "Foronoi.C130_test_horizontal",
    "Foronoi.C130_test_triangle_from_left",
    "Foronoi.C130_test_triangle_from_right",
    "Foronoi.C130_test_lines_outside_triangle",
    "Foronoi.C130_test_another_line_outside_triangle",
    "Foronoi.C130_test_max_distance",
    "Foronoi.C130_test_calc_cell_sizes",
    "Foronoi.C130_test_mars0001_1",
    "Foronoi.C130_test_corners",
    "Foronoi.C130_test_alexdiab"
   ],
   "note": "exact arithmetic; the condition is sufficient, not necessary: of the other tests, test_diamond has a first corner between two cells and test_left_arc a Voronoi vertex on the border; larger tests are not evaluated"
  },
  {
   "property": "C131",
   "status": "proved",
   "theorems": [
    "Foronoi.C131_labels",
    "Foronoi.C131_given",
    "Foronoi.C131_neighbours"
   ],
   "note": "exact arithmetic; the text is kept as the pair of site names, the string made of it is not modelled"
  },
  {
   "property": "C132",
   "status": "proved",
   "theorems": [
    "Foronoi.C132_areas",
    "Foronoi.C132_vertices",
    "Foronoi.C132_lines",
    "Foronoi.C132_neighbours",
    "Foronoi.C132_moved"
   ],
   "note": "exact arithmetic; that the input fits is needed in both systems because the cut-off line depends on the distance to the x-axis and the first corner on the direction"
  },
  {
   "property": "C133",
   "status": "proved",
   "theorems": [
    "Foronoi.C133_pointers",
    "Foronoi.C133_ends",
    "Foronoi.C133_sites"
   ],
   "note": "drawing is a list of calls on the canvas; distinct sites, exact arithmetic"
  },
  {
   "property": "C134",
   "status": "proved",
   "theorems": [
    "Foronoi.C134_areas",
    "Foronoi.C134_divided",
    "Foronoi.C134_lines",
    "Foronoi.C134_vertices"
   ],
   "note": "distinct sites, exact arithmetic"
  },
  {
   "property": "C135",
   "status": "proved",
   "theorems": [
    "Foronoi.C135_continuous"
   ],
   "note": "the changed input is assumed to fit as well; C136 has a condition under which it does. Exact arithmetic"
  },
  {
   "property": "C136",
   "status": "proved",
   "theorems": [
    "Foronoi.C136_open",
    "Foronoi.C136_areas",
    "Foronoi.C136_stable",
    "Foronoi.C136_example"
   ],
   "note": "exact arithmetic: the change is in the input, not rounding during the run. C136_example shows a stable input"
  },
  {
   "property": "C137",
   "status": "proved",
   "theorems": [
    "Foronoi.C137_call",
    "Foronoi.C137_fractions",
    "Foronoi.C137_readme"
   ],
   "note": "exact arithmetic"
  },
  {
   "property": "C138",
   "status": "proved",
   "theorems": [
    "Foronoi.C138_exception",
    "Foronoi.C138_single",
    "Foronoi.C138_all_three",
    "Foronoi.C138_rounding",
    "Foronoi.C138_decimal"
   ],
   "note": "C138_all_three: concrete runs over the rationals; the roots in them are exact"
  },
  {
   "property": "C139",
   "status": "proved",
   "theorems": [
    "Foronoi.C139_outermost",
    "Foronoi.C139_planar",
    "Foronoi.C139_five"
   ],
   "note": "sharp for three sites (example in Props/Planar.lean)"
  },
  {
   "property": "C140",
   "status": "proved",
   "theorems": [
    "Foronoi.C140_unbounded",
    "Foronoi.C140_hull"
   ],
   "note": "unbounded cell and furthest site are defined from the sites alone; an example with three corners and an inner site is beside the theorems"
  },
  {
   "property": "C141",
   "status": "proved",
   "theorems": [
    "Foronoi.C141_one_ray",
    "Foronoi.C141_euler",
    "Foronoi.C141_line"
   ],
   "note": "examples with three corners and an inner site and with five sites on a line are beside the theorems"
  },
  {
   "property": "C142",
   "status": "proved",
   "theorems": [
    "Foronoi.C142_follows",
    "Foronoi.C142_next_unique"
   ],
   "note": "the hull is stated from the coordinates of the sites alone; an example is beside the theorems"
  },
  {
   "property": "C143",
   "status": "proved",
   "theorems": [
    "Foronoi.C143_empty_disc",
    "Foronoi.C143_nearest"
   ],
   "note": "other sites may lie outside the polygon; an example is beside the theorems"
  }
 ]
}
