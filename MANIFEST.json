{
 "claims": [
  {
   "property": "C01",
   "status": "proved",
   "theorems": [
    "PolyOps.LargeInt.C01_add",
    "PolyOps.LargeInt.C01_sub",
    "PolyOps.LargeInt.C01_addAssign",
    "PolyOps.LargeInt.C01_subAssign",
    "PolyOps.LargeInt.C01_ar"
   ],
   "note": "Every word count and signedness; carry back end assumed exact (C05 says which are)."
  },
  {
   "property": "C02",
   "status": "proved",
   "theorems": [
    "PolyOps.LargeInt.C02_eq",
    "PolyOps.LargeInt.C02_cmp"
   ],
   "note": ""
  },
  {
   "property": "C03",
   "status": "partial",
   "theorems": [
    "PolyOps.LargeInt.C03_mul_partial",
    "PolyOps.LargeInt.C03_mul_defined_iff",
    "PolyOps.LargeInt.C03_mulSmall_signed",
    "PolyOps.LargeInt.C03_mulSmall_unsigned_overflow"
   ],
   "note": "The unsigned N x 1 product has no return statement in the source (model: none); 32-bit unsigned products overflow; proved elsewhere."
  },
  {
   "property": "C04",
   "status": "proved",
   "theorems": [
    "PolyOps.LargeInt.C04_plainMul_unsigned",
    "PolyOps.LargeInt.C04_plainMul_signed",
    "PolyOps.LargeInt.C04_plainMul_exact",
    "PolyOps.LargeInt.C04_wideMul_exact"
   ],
   "note": ""
  },
  {
   "property": "C05",
   "status": "partial",
   "theorems": [
    "PolyOps.LargeInt.C05_intrinsic_exact_partial",
    "PolyOps.LargeInt.C05_gcc_exact_partial",
    "PolyOps.LargeInt.C05_plain_add_iff",
    "PolyOps.LargeInt.C05_plain_addTo_iff",
    "PolyOps.LargeInt.C05_plain_sub_iff",
    "PolyOps.LargeInt.C05_plain_subTo_iff",
    "PolyOps.LargeInt.C05_plain_not_exact",
    "PolyOps.LargeInt.C05_plain_add_wrong"
   ],
   "note": "True for the intrinsic and GCC back ends; false for the portable one, whose failing inputs are characterised exactly."
  },
  {
   "property": "C06",
   "status": "proved",
   "theorems": [
    "PolyOps.LargeInt.C06_shiftRight",
    "PolyOps.LargeInt.C06_shiftRight_undefined",
    "PolyOps.LargeInt.C06_shiftLeft"
   ],
   "note": ""
  },
  {
   "property": "C07",
   "status": "partial",
   "theorems": [
    "PolyOps.LargeInt.C07_divmod_partial",
    "PolyOps.LargeInt.C07_divmod_plain",
    "PolyOps.LargeInt.C07_mixed_wrong",
    "PolyOps.LargeInt.C07_unmul",
    "PolyOps.LargeInt.C07_zero_one_word"
   ],
   "note": "False for a signed dividend with a full-width unsigned divisor type (witness); proved for all other operand types."
  },
  {
   "property": "C08",
   "status": "partial",
   "theorems": [
    "PolyOps.LargeInt.C08_euclid_iff",
    "PolyOps.LargeInt.C08_unmul_pair",
    "PolyOps.LargeInt.C08_divmod_partial",
    "PolyOps.LargeInt.C08_exact_negative_wrong",
    "PolyOps.LargeInt.C08_negative_divisor_wrong"
   ],
   "note": "The code violates the property; exact characterisation of where it holds."
  },
  {
   "property": "C09",
   "status": "proved",
   "theorems": [
    "PolyOps.LargeInt.C09_hexLiteral"
   ],
   "note": ""
  },
  {
   "property": "C10",
   "status": "partial",
   "theorems": [
    "PolyOps.LargeInt.C10_widen",
    "PolyOps.LargeInt.C10_convert_mod",
    "PolyOps.LargeInt.C10_toBool",
    "PolyOps.LargeInt.C10_castInt_partial",
    "PolyOps.LargeInt.C10_castInt_wide_wrong",
    "PolyOps.LargeInt.C10_toFloat_partial",
    "PolyOps.LargeInt.C10_toFloat_three_wrong"
   ],
   "note": "False for __int128 targets and for floating point with three or more words (witnesses). Floating point rounding is not modelled."
  },
  {
   "property": "C11",
   "status": "proved",
   "theorems": [
    "PolyOps.LargeInt.C11_neg",
    "PolyOps.LargeInt.C11_abs"
   ],
   "note": ""
  },
  {
   "property": "C12",
   "status": "proved",
   "theorems": [
    "PolyOps.C12_triangleWinding",
    "PolyOps.C12_intersects",
    "PolyOps.C12_intDot",
    "PolyOps.C12_upRay",
    "PolyOps.C12_sharp",
    "PolyOps.C12_windingDir",
    "PolyOps.C12_windingDir_overflow"
   ],
   "note": "Every width w >= 2. winding_dir needs an extra bound on the number of points (witness of overflow given)."
  },
  {
   "property": "C13",
   "status": "proved",
   "theorems": [
    "PolyOps.C13_zero_iff",
    "PolyOps.C13_swap",
    "PolyOps.C13_rotate",
    "PolyOps.C13_translate",
    "PolyOps.C13_area"
   ],
   "note": ""
  },
  {
   "property": "C14",
   "status": "proved",
   "theorems": [
    "PolyOps.C14_shoelace",
    "PolyOps.C14_rotate",
    "PolyOps.C14_translate",
    "PolyOps.C14_reverse",
    "PolyOps.C14_chord",
    "PolyOps.C14_degenerate"
   ],
   "note": "Over unbounded integers; see C12 for the sum's range."
  },
  {
   "property": "C15",
   "status": "proved",
   "theorems": [
    "PolyOps.C15_intersects_iff",
    "PolyOps.C15_parallel_iff",
    "PolyOps.C15_edges",
    "PolyOps.C15_crossing"
   ],
   "note": "Spec over rational points; any rounding and random decisions."
  },
  {
   "property": "C16",
   "status": "proved",
   "theorems": [
    "PolyOps.C16_inBox",
    "PolyOps.C16_near",
    "PolyOps.C16_exact"
   ],
   "note": "Floating point enters as an arbitrary monotone rounding exact on the coordinate differences (box) or with relative error at most eps (distance). For 64-bit coordinates differences above 2^53 are not exact in a double, which the hypothesis of C16_inBox excludes."
  },
  {
   "property": "C17",
   "status": "proved",
   "theorems": [
    "PolyOps.C17_overlap_iff",
    "PolyOps.C17_report",
    "PolyOps.C17_touching_not_reported"
   ],
   "note": ""
  },
  {
   "property": "C18",
   "status": "proved",
   "theorems": [
    "PolyOps.C18_stacked",
    "PolyOps.C18_winding",
    "PolyOps.C18_vertical",
    "PolyOps.C18_hits",
    "PolyOps.C18_loop_balance"
   ],
   "note": "Lines that are not vertical: C18_stacked (coincident lines stacked by index) and C18_winding (both sides, no coincident line). Vertical lines: C18_vertical, given that scanned vertical lines lie at the sweep position (C29)."
  },
  {
   "property": "C19",
   "status": "proved",
   "theorems": [
    "PolyOps.C19_dual",
    "PolyOps.C19_scan"
   ],
   "note": ""
  },
  {
   "property": "C20",
   "status": "proved",
   "theorems": [
    "PolyOps.C20_kept_iff",
    "PolyOps.C20_reversed_iff",
    "PolyOps.C20_boundary"
   ],
   "note": ""
  },
  {
   "property": "C21",
   "status": "proved",
   "theorems": [
    "PolyOps.Events.C21_irrefl",
    "PolyOps.Events.C21_trans",
    "PolyOps.Events.C21_asymm",
    "PolyOps.Events.C21_total",
    "PolyOps.Events.C21_order",
    "PolyOps.Events.C21_insertion_order"
   ],
   "note": ""
  },
  {
   "property": "C22",
   "status": "proved",
   "theorems": [
    "PolyOps.SweepCmp.C22_order",
    "PolyOps.SweepCmp.C22_height",
    "PolyOps.SweepCmp.C22_trans",
    "PolyOps.SweepCmp.C22_asymm",
    "PolyOps.SweepCmp.C22_irrefl",
    "PolyOps.SweepCmp.C22_total",
    "PolyOps.SweepCmp.C22_tie",
    "PolyOps.SweepCmp.C22_unique",
    "PolyOps.SweepCmp.C22_overlap_cycle"
   ],
   "note": "C22_overlap_cycle shows that the condition on overlapping segments of one line is needed."
  },
  {
   "property": "C23",
   "status": "proved",
   "theorems": [
    "PolyOps.Events.C23_sorted",
    "PolyOps.Events.C23_complete"
   ],
   "note": ""
  },
  {
   "property": "C24",
   "status": "proved",
   "theorems": [
    "PolyOps.Events.C24_next",
    "PolyOps.Events.C24_history"
   ],
   "note": ""
  },
  {
   "property": "C25",
   "status": "partial",
   "theorems": [
    "PolyOps.PointSink.C25_partial",
    "PolyOps.PointSink.C25_loops",
    "PolyOps.PointSink.cyc_spec",
    "PolyOps.PointSink.addPts_eq",
    "PolyOps.PointSink.C25_empty",
    "PolyOps.PointSink.C25_single",
    "PolyOps.PointSink.C25_all_back",
    "PolyOps.PointSink.C25_lost_vertex",
    "PolyOps.PointSink.C25_lost_triangle",
    "PolyOps.PointSink.C25_zero_line"
   ],
   "note": "False as stated: a vertex at the place of the last vertex stored before is lost (C25_lost_vertex, C25_lost_triangle), a polygon of one point reads out of bounds (C25_single), two copies of the first point at the end store a line of length zero (C25_zero_line). C25_partial is the claim for all other sequences."
  },
  {
   "property": "C26",
   "status": "proved",
   "theorems": [
    "PolyOps.PointSink.C26_added",
    "PolyOps.Sweep.C26_splits"
   ],
   "note": ""
  },
  {
   "property": "C27",
   "status": "proved",
   "theorems": [
    "PolyOps.Sweep.C27_loops",
    "PolyOps.Sweep.realEnv_ok"
   ],
   "note": "For every intersection test that only splits lines at points other than their ends; the library's test is one (realEnv_ok). Input loops have at least three points and no line of length zero (see C25)."
  },
  {
   "property": "C28",
   "status": "proved",
   "theorems": [
    "PolyOps.Sweep.C28_step",
    "PolyOps.Sweep.C28_contents",
    "PolyOps.Sweep.C28_events",
    "PolyOps.Sweep.C28_final"
   ],
   "note": "The order inside the sweep is left open, so the theorems hold for every tree shape. Termination: C51."
  },
  {
   "property": "C29",
   "status": "proved",
   "theorems": [
    "PolyOps.Sweep.C29_scanned",
    "PolyOps.Sweep.C29_final",
    "PolyOps.Sweep.C29_winding",
    "PolyOps.Sweep.C29_vertical",
    "PolyOps.Sweep.C29_classified"
   ],
   "note": "C29_classified joins C18, C20 and C29: the stored classification is the boolean operation table at the winding numbers with respect to all lines."
  },
  {
   "property": "C30",
   "status": "proved",
   "theorems": [
    "PolyOps.Loops.C30_loops",
    "PolyOps.Loops.C30_find"
   ],
   "note": "C30_find: the extraction on its own, from any permutation of the kept points. C30_loops: after reconnection."
  },
  {
   "property": "C31",
   "status": "proved",
   "theorems": [
    "PolyOps.Loops.C31_reconnect"
   ],
   "note": "Reversed lines included. Output without nesting."
  },
  {
   "property": "C32",
   "status": "proved",
   "theorems": [
    "PolyOps.Loops.C32_kept",
    "PolyOps.Loops.C32_reversed"
   ],
   "note": "Every cyclic arrangement of line ends around a vertex, any winding numbers, each operation."
  },
  {
   "property": "C33",
   "status": "proved",
   "theorems": [
    "PolyOps.Hierarchy.C33_nested"
   ],
   "note": ""
  },
  {
   "property": "C34",
   "status": "proved",
   "theorems": [
    "PolyOps.RbTree.C34_history",
    "PolyOps.RbTree.C34_contents",
    "PolyOps.RbTree.C34_sorted",
    "PolyOps.RbTree.C34_sorted_history",
    "PolyOps.RbTree.C34_step",
    "PolyOps.RbTree.C34_init",
    "PolyOps.RbTree.C34_begin",
    "PolyOps.RbTree.C34_next",
    "PolyOps.RbTree.C34_prev",
    "PolyOps.RbTree.C34_prev_end",
    "PolyOps.RbTree.C34_iterate",
    "PolyOps.RbTree.C34_insert",
    "PolyOps.RbTree.C34_insert_any",
    "PolyOps.RbTree.C34_insert_before",
    "PolyOps.RbTree.C34_insert_end",
    "PolyOps.RbTree.C34_erase",
    "PolyOps.RbTree.C34_height",
    "PolyOps.RbTree.C34_search",
    "PolyOps.RbTree.C34_unique"
   ],
   "note": "Any history, any comparator that is monotone on the elements in the tree at each insertion (a transitive one always is). Each loop ends within 2*log2(n+1)+2 steps. The parent link of an erased element is left as it was; the clipper resets it (clip.hpp:2104)."
  },
  {
   "property": "C35",
   "status": "proved",
   "theorems": [
    "PolyOps.Clipper.C35_reset",
    "PolyOps.Clipper.C35_reset_all",
    "PolyOps.Clipper.C35_restart",
    "PolyOps.Clipper.C35_ran",
    "PolyOps.Clipper.C35_again",
    "PolyOps.Clipper.C35_empty",
    "PolyOps.Clipper.C35_indices",
    "PolyOps.Clipper.C35_tracker_kept"
   ],
   "note": "For any state of the clipper. Found: clipper::reset and adding without the tracker leave the tracker as it is; C35_tracker_kept gives a case."
  },
  {
   "property": "C36",
   "status": "partial",
   "theorems": [
    "PolyOps.MiniSet.C36_history_partial",
    "PolyOps.MiniSet.C36_insert_range",
    "PolyOps.MiniSet.C36_insert",
    "PolyOps.MiniSet.C36_insert_second",
    "PolyOps.MiniSet.C36_empty",
    "PolyOps.MiniSet.C36_merge",
    "PolyOps.MiniSet.C36_source_lost"
   ],
   "note": "C36_history_partial: exact for every point that was not the source of a merge, if no point is twice a source. False for sources: the sets may be exchanged (C36_source_lost). Inserting a second single value breaks a set (C36_insert_second); the tracker never does this. empty() is inverted (C36_empty)."
  },
  {
   "property": "C37",
   "status": "proved",
   "theorems": [
    "PolyOps.Loops.C37_discard",
    "PolyOps.Loops.C37_discard_rev",
    "PolyOps.Loops.C37_kept",
    "PolyOps.Loops.C37_tree_anchor"
   ],
   "note": "C37_tree_anchor: with nested output the tracker is called with an index it has no record of. C37_discard_rev: the next classified point does not get the origins of a chain discarded in reverse."
  },
  {
   "property": "C38",
   "status": "partial",
   "theorems": [
    "PolyOps.Offset.C38_closed_partial",
    "PolyOps.Offset.C38_closed_repeat",
    "PolyOps.Offset.C38_open_partial",
    "PolyOps.Offset.C38_closed_points",
    "PolyOps.Offset.C38_repeat_index",
    "PolyOps.Offset.C38_leading_repeat",
    "PolyOps.Offset.C38_spike",
    "PolyOps.Offset.C38_open_trailing"
   ],
   "note": "Real arithmetic in place of floating point. Closed input without repeated points: as claimed (C38_closed_partial, C38_closed_repeat). With repeated points the points are right but indices are not (C38_closed_points, C38_repeat_index, C38_leading_repeat). Open lines leave the next index one too small (C38_open_partial). A path that turns straight back gets no cap (C38_spike)."
  },
  {
   "property": "C39",
   "status": "partial",
   "theorems": [
    "PolyOps.Offset.C39_partial",
    "PolyOps.Offset.C39_two",
    "PolyOps.Offset.C39_lost",
    "PolyOps.Offset.C39_none",
    "PolyOps.Offset.C39_negative"
   ],
   "note": "False as stated: the point at angle 0 is missing, and with at most three parts only two points are emitted, so that nothing is stored (C39_lost)."
  },
  {
   "property": "C40",
   "status": "proved",
   "theorems": [
    "PolyOps.Raster.C40_rows",
    "PolyOps.Raster.C40_signs",
    "PolyOps.Raster.C40_store",
    "PolyOps.Raster.C40_bound_free",
    "PolyOps.Raster.C40_defined_partial",
    "PolyOps.Raster.C40_dangling",
    "PolyOps.Raster.C40_concurrent_diverges"
   ],
   "note": "For every scan that ends, whatever positions the tree gives to lines. C40_defined_partial: no stale links are read if the events are not reallocated; with a reallocation a dangling reference is read (C40_dangling). A scan of three sides through one place never ends (C40_concurrent_diverges)."
  },
  {
   "property": "C41",
   "status": "partial",
   "theorems": [
    "PolyOps.Raster.C41_column",
    "PolyOps.Raster.C41_in_bounds",
    "PolyOps.Raster.C41_spans",
    "PolyOps.Raster.C41_list",
    "PolyOps.Raster.C41_span_winding",
    "PolyOps.Raster.C41_covered",
    "PolyOps.Raster.C41_pixels",
    "PolyOps.Raster.C41_fill",
    "PolyOps.Raster.C41_draw",
    "PolyOps.Raster.C41_winding",
    "PolyOps.Raster.C41_skipped",
    "PolyOps.Raster.C41_draw_partial",
    "PolyOps.Raster.C41_outside"
   ],
   "note": "As claimed for rows whose lines are in the order of their crossings; C55 proves that order. False for shapes beside the image, which are drawn in the border column (C41_outside)."
  },
  {
   "property": "C42",
   "status": "partial",
   "theorems": [
    "PolyOps.Raster.C42_of",
    "PolyOps.Raster.C42_cmp",
    "PolyOps.Raster.C42_cmp_int",
    "PolyOps.Raster.C42_x_on_line",
    "PolyOps.Raster.C42_x_cmp",
    "PolyOps.Raster.C42_sweep_order",
    "PolyOps.Raster.C42_height",
    "PolyOps.Raster.C42_crosses",
    "PolyOps.Raster.C42_normal",
    "PolyOps.Raster.C42_good",
    "PolyOps.Raster.C42_height_cmp_partial",
    "PolyOps.Raster.C42_height_cmp_int_partial",
    "PolyOps.Raster.C42_height_strict",
    "PolyOps.Raster.C42_height_wrong",
    "PolyOps.Raster.C42_height_zero_wrong",
    "PolyOps.Raster.C42_fits_det",
    "PolyOps.Raster.C42_fits_x"
   ],
   "note": "Intercepts: as claimed. Heights: as claimed unless a height is a whole number that is not positive, which compares less than itself (C42_height_wrong, C42_height_zero_wrong)."
  },
  {
   "property": "C43",
   "status": "partial",
   "theorems": [
    "PolyOps.Strided.C43_elements_partial",
    "PolyOps.Strided.C43_points",
    "PolyOps.Strided.C43_loops",
    "PolyOps.Strided.C43_random_access",
    "PolyOps.Strided.C43_size_iff",
    "PolyOps.Strided.C43_size_wrong",
    "PolyOps.Strided.C43_order_wrong",
    "PolyOps.Strided.C43_stride_zero"
   ],
   "note": "The elements are as claimed for positive strides. The size is wrong unless the stride is 1 (C43_size_iff, C43_size_wrong), the order of iterators is inverted for negative strides (C43_order_wrong)."
  },
  {
   "property": "C44",
   "status": "proved",
   "theorems": [
    "PolyOps.PyMap.C44_get",
    "PolyOps.PyMap.C44_sizes",
    "PolyOps.PyMap.C44_index_map",
    "PolyOps.PyMap.C44_slice",
    "PolyOps.PyMap.C44_nested_origins_fail"
   ],
   "note": "C44_nested_origins_fail: the nested variant with origins always raises a TypeError."
  },
  {
   "property": "C45",
   "status": "proved",
   "theorems": [
    "PolyOps.Loops.C45_pick",
    "PolyOps.Loops.C45_join",
    "PolyOps.Loops.C45_back_order"
   ],
   "note": "C45_back_order: if a line leads straight back, the choice depends on the order."
  },
  {
   "property": "C46",
   "status": "proved",
   "theorems": [
    "PolyOps.Clipper.C46_history",
    "PolyOps.Clipper.C46_untracked",
    "PolyOps.Clipper.C46_reset_keeps",
    "PolyOps.Clipper.C46_reset_differs"
   ],
   "note": "The positions in the sweep set are a function of the state (C22, C34). C46_reset_differs gives a case in which a reset clipper gives another result."
  },
  {
   "property": "C47",
   "status": "proved",
   "theorems": [
    "PolyOps.Sweep.C47_bounds",
    "PolyOps.Sweep.realEnv_in"
   ],
   "note": "Rounding is monotone and exact on integers up to the size of the rectangle."
  },
  {
   "property": "C48",
   "status": "proved",
   "theorems": [
    "PolyOps.Loops.C48_edges"
   ],
   "note": "Output without nesting."
  },
  {
   "property": "C49",
   "status": "proved",
   "theorems": [
    "PolyOps.Planarity.C49_region",
    "PolyOps.Planarity.C49_region_exact",
    "PolyOps.Planarity.C49_region_pos",
    "PolyOps.Planarity.C49_input",
    "PolyOps.Planarity.marks_end",
    "PolyOps.Region.C49_winding",
    "PolyOps.Region.C49_exact",
    "PolyOps.Region.kept_winding",
    "PolyOps.Region.exact_cross"
   ],
   "note": "For every run of both sweeps that ends (they do: C51), output without nesting. C49_region: in terms of the lines after splitting, any rounding, if each added point is in the x-range of its line; C49_region_exact: exact arithmetic, no condition; C49_input: in terms of the input, if no added point was rounded. marks_end: the sweep marks every point at which the classification can change."
  },
  {
   "property": "C50",
   "status": "proved",
   "theorems": [
    "PolyOps.Planarity.C50_planar",
    "PolyOps.Planarity.C50_planar_exact",
    "PolyOps.Planarity.C50_planar_pos",
    "PolyOps.Planarity.tree_posOk",
    "PolyOps.Planarity.realEnv_sound",
    "PolyOps.Planarity.reach_range"
   ],
   "note": "For every run that ends (it does with exact arithmetic: C51). C50_planar: any rounding, with the x-range condition as hypothesis; C50_planar_exact: exact arithmetic, no condition. With floating point a vertical line can be given a point one unit beside it, so the condition is not always met. tree_posOk: the insertion of the red-black tree model (C34_insert_any) meets what is assumed of the container. Nothing is assumed of the order of lines already in the set."
  },
  {
   "property": "C51",
   "status": "proved",
   "theorems": [
    "PolyOps.Ends.C51_first",
    "PolyOps.Ends.C51_exact",
    "PolyOps.Ends.C51_second",
    "PolyOps.Ends.C51_count"
   ],
   "note": "C51_first, C51_count: every intersection test whose points lie in the rectangles spanned by both lines; C51_exact: the library's test with exact arithmetic before rounding meets this. With floating point the point can lie one unit outside the rectangle of the second line; nothing is claimed for that. C51_second: the winding scan, without conditions."
  },
  {
   "property": "C52",
   "status": "proved",
   "theorems": [
    "PolyOps.Exec.C52_execute",
    "PolyOps.Exec.C52_exact",
    "PolyOps.Exec.C52_rectilinear",
    "PolyOps.Exec.exec_core",
    "PolyOps.Exec.lattice_env",
    "PolyOps.Exec.box_pass",
    "PolyOps.Exec.lattice_pass"
   ],
   "note": "From the sequence of public calls to the loops returned: loading, both sweeps, classification, loop building; flat output. Exact arithmetic before rounding: with floating point C51 is not proved. Fine: the loader's known defects (C25) are excluded. The container is any that meets PosOk; tree_posOk (C50) shows the red-black tree does."
  },
  {
   "property": "C53",
   "status": "proved",
   "theorems": [
    "PolyOps.Exec.C53_nested",
    "PolyOps.Exec.C53_double",
    "PolyOps.Exec.C53_apart",
    "PolyOps.Exec.out_parts",
    "PolyOps.Exec.nested_of",
    "PolyOps.Exec.single_pieces"
   ],
   "note": "Flat output, exact arithmetic before rounding as in C52. README.md allows edges of the output to coincide, so the condition that they do not is on the output; C53_apart gives it from the input."
  },
  {
   "property": "C54",
   "status": "proved",
   "theorems": [
    "PolyOps.Exec.C54_tree",
    "PolyOps.Exec.C54_same",
    "PolyOps.Exec.C54_apart",
    "PolyOps.Exec.C54_near",
    "PolyOps.Exec.C54_double",
    "PolyOps.Exec.C54_coincident_fails",
    "PolyOps.Exec.out_tree",
    "PolyOps.Exec.hits_wind"
   ],
   "note": "Exact arithmetic before rounding as in C52; C54_near and C54_double are about rounded numbers, for calls that return, as C59. The condition that no two edges returned coincide is on the output; C54_apart gives it from the input. C54_tree also says that without the condition the call fails an internal check or returns the same polygons with some tree; C54_coincident_fails shows that it does fail for some inputs."
  },
  {
   "property": "C55",
   "status": "proved",
   "theorems": [
    "PolyOps.Raster.C40_sides",
    "PolyOps.Raster.C55_order",
    "PolyOps.Raster.C55_ends",
    "PolyOps.Raster.C55_total",
    "PolyOps.Raster.C55_draw",
    "PolyOps.Raster.C55_start_at_crossing_wrong",
    "PolyOps.Raster.bowtie_noKnot",
    "PolyOps.Raster.ordPlace_fair"
   ],
   "note": "The condition on the sides is needed: three directions in one place make the scan run for ever (C40_concurrent_diverges), and a side that starts at a crossing is drawn wrong (C55_start_at_crossing_wrong). Reallocation during the scan reads freed storage (C40_dangling)."
  },
  {
   "property": "C56",
   "status": "proved",
   "theorems": [
    "PolyOps.Exec.C56_double",
    "PolyOps.Exec.C56_edges",
    "PolyOps.Exec.C56_draw",
    "PolyOps.Exec.C56_draw_exact",
    "PolyOps.Exec.Shape.noKnot",
    "PolyOps.Exec.Shape.zero_or_one",
    "PolyOps.Compose.wind_winding",
    "PolyOps.Compose.wind_near"
   ],
   "note": "Composes C52 and C55: the condition of C55 on the sides always holds for results. Exact arithmetic before rounding as in C52; Fine and the reallocation of event storage as in C52 and C55."
  },
  {
   "property": "C57",
   "status": "partial",
   "theorems": [
    "PolyOps.Exec.C57_exact_partial",
    "PolyOps.Exec.C57_same_partial",
    "PolyOps.Exec.Shape.lattice",
    "PolyOps.Exec.C57_again_wrong"
   ],
   "note": "Proved if the polygons of the result are stored as intended when added again. False otherwise: a polygon of the result may begin where the one before ended, and that vertex is lost (C25), so the union of a union can lack a triangle (C57_again_wrong)."
  },
  {
   "property": "C58",
   "status": "proved",
   "theorems": [
    "PolyOps.Exec.C58_double",
    "PolyOps.Exec.C58_fit",
    "PolyOps.Exec.C58_swap",
    "PolyOps.Exec.everywhere"
   ],
   "note": "From C52 with the same bent edges for all operations."
  },
  {
   "property": "C59",
   "status": "proved",
   "theorems": [
    "PolyOps.Exec.C59_near",
    "PolyOps.Exec.C59_double",
    "PolyOps.Exec.C59_double_wrong",
    "PolyOps.Exec.C59_outside",
    "PolyOps.Planarity.near_range",
    "PolyOps.Planarity.upright_end",
    "PolyOps.Planarity.upright_start",
    "PolyOps.Double.dbl_arith"
   ],
   "note": "The rounding is that of doubles without bounds on the exponent. That the first sweep ends is not proved for doubles (it is for exact numbers, C51). C59_double_wrong: with doubles the exact results of C52 for sides parallel to the axes are lost; C59_outside: a reported point may be outside the rectangle of the second line."
  },
  {
   "property": "C60",
   "status": "proved",
   "theorems": [
    "PolyOps.Exec.C60_far",
    "PolyOps.Exec.C60_outside",
    "PolyOps.Exec.C60_double",
    "PolyOps.Exec.far_side",
    "PolyOps.Exec.walk_side"
   ],
   "note": "With doubles for runs that return (see C59)."
  },
  {
   "property": "C61",
   "status": "proved",
   "theorems": [
    "PolyOps.Exec.C61_emitted",
    "PolyOps.Exec.C61_offset",
    "PolyOps.Exec.C61_double",
    "PolyOps.Exec.emitted_next",
    "PolyOps.Exec.closed_shadow",
    "PolyOps.Exec.open_shadow"
   ],
   "note": "The shifted points are computed with exact real numbers and then rounded."
  },
  {
   "property": "C62",
   "status": "partial",
   "theorems": [
    "PolyOps.Exec.C62_grow_partial",
    "PolyOps.Exec.C62_offset_partial",
    "PolyOps.Exec.C62_shrink_wrong",
    "PolyOps.Exec.C62_grow_wrong"
   ],
   "note": "Violated by the code (witnesses C62_shrink_wrong, C62_grow_wrong). Proved for polygons all of whose corners turn away from the offset."
  },
  {
   "property": "C63",
   "status": "proved",
   "theorems": [
    "PolyOps.Exec.C63_emitted",
    "PolyOps.Exec.C63_offset",
    "PolyOps.Exec.C63_double"
   ],
   "note": "Termination is proved for exact numbers (C63_offset); with doubles (C63_double) the theorem is about runs that end."
  },
  {
   "property": "C64",
   "status": "proved",
   "theorems": [
    "PolyOps.Exec.C64_origins",
    "PolyOps.Exec.C64_near"
   ],
   "note": "Flat output; with tree output the calls name points the tracker has no record of (C37_tree_anchor). Termination is proved for exact numbers."
  },
  {
   "property": "C65",
   "status": "proved",
   "theorems": [
    "PolyOps.Exec.C65_once",
    "PolyOps.Exec.C64_near"
   ],
   "note": "Flat output."
  },
  {
   "property": "C66",
   "status": "partial",
   "theorems": [
    "PolyOps.Exec.C66_kept_partial",
    "PolyOps.Exec.C66_normalize",
    "PolyOps.Exec.C64_near",
    "PolyOps.Exec.C66_lost",
    "PolyOps.Exec.C66_again",
    "PolyOps.Exec.C66_source"
   ],
   "note": "The code violates the claim: parts that are cut off are followed in the order of the sweep, not along the polygon, so numbers are merged into points that were discarded before (C66_lost, C66_again), and for differences points that are returned are sources of merges (C66_source). Proved: numbers are not lost for operations other than differences if merges never go to points merged before. For normalize no number is lost (C66_normalize)."
  },
  {
   "property": "C67",
   "status": "partial",
   "theorems": [
    "PolyOps.Exec.C67_area_partial",
    "PolyOps.Exec.C67_apart",
    "PolyOps.Exec.C53_double",
    "PolyOps.Exec.C67_flat"
   ],
   "note": "The code violates the claim: the union of three rectangles that touch has a polygon of two vertices (C67_flat). Proved: at least two vertices and no edge of length zero; an area if no two edges returned coincide, in particular if no input edges overlap and they meet only at integer points."
  },
  {
   "property": "C68",
   "status": "proved",
   "theorems": [
    "PolyOps.Exec.C68_alike",
    "PolyOps.Exec.C68_order",
    "PolyOps.Exec.C68_far"
   ],
   "note": "Flat output. Closer to edges that do not meet at integer points the results may be rounded differently."
  },
  {
   "property": "C69",
   "status": "proved",
   "theorems": [
    "PolyOps.Exec.C69_moved",
    "PolyOps.Exec.C69_double",
    "PolyOps.Exec.C69_exact",
    "PolyOps.Offset.C69_offset"
   ],
   "note": ""
  },
  {
   "property": "C70",
   "status": "proved",
   "theorems": [
    "PolyOps.Exec.C70_swapped",
    "PolyOps.Exec.C70_double",
    "PolyOps.Exec.C70_exact",
    "PolyOps.Exec.C70_ignored",
    "PolyOps.Exec.C70_union",
    "PolyOps.Exec.C70_difference"
   ],
   "note": "C70_ignored needs that both calls do not fail; C70_union proves it for flat output with exact numbers."
  },
  {
   "property": "C71",
   "status": "proved",
   "theorems": [
    "PolyOps.Exec.C71_results",
    "PolyOps.Exec.C71_exact",
    "PolyOps.Exec.C71_double",
    "PolyOps.Exec.C71_grown",
    "PolyOps.Exec.C71_tree",
    "PolyOps.Exec.C71_zero",
    "PolyOps.Exec.C71_order"
   ],
   "note": ""
  },
  {
   "property": "C72",
   "status": "proved",
   "theorems": [
    "PolyOps.Exec.C72_signed",
    "PolyOps.Exec.C72_apart",
    "PolyOps.Exec.C72_tree",
    "PolyOps.Exec.C72_double"
   ],
   "note": ""
  },
  {
   "property": "C73",
   "status": "proved",
   "theorems": [
    "PolyOps.Exec.C73_mapped",
    "PolyOps.Exec.C73_far",
    "PolyOps.Exec.C73_resolution"
   ],
   "note": ""
  },
  {
   "property": "C74",
   "status": "proved",
   "theorems": [
    "PolyOps.Exec.C74_along",
    "PolyOps.Exec.C74_returns",
    "PolyOps.Exec.C74_steps",
    "PolyOps.Exec.C74_same",
    "PolyOps.Exec.C74_resolution",
    "PolyOps.Exec.C74_minus",
    "PolyOps.Exec.C74_assoc",
    "PolyOps.Exec.C74_distrib",
    "PolyOps.Exec.C74_xor",
    "PolyOps.Exec.C74_backwards"
   ],
   "note": ""
  },
  {
   "property": "C75",
   "status": "partial",
   "theorems": [
    "PolyOps.PyClipper.C75_execute_partial",
    "PolyOps.PyClipper.C75_raises",
    "PolyOps.PyClipper.C75_left_behind",
    "PolyOps.PyClipper.C75_type_kept"
   ],
   "note": "Sequences whose first polygon is valid and a later one is not, and trees with a tracker, are left out: the claim is false for them (C75_left_behind, C75_type_kept)."
  },
  {
   "property": "C76",
   "status": "partial",
   "theorems": [
    "PolyOps.Npy.C76_read_partial",
    "PolyOps.Npy.C76_write",
    "PolyOps.Npy.C76_round",
    "PolyOps.Npy.C76_broadcast",
    "PolyOps.Npy.C76_past_end"
   ],
   "note": "Arrays with both strides zero and two rows or more are left out: the claim is false for them (C76_broadcast)."
  },
  {
   "property": "C77",
   "status": "partial",
   "theorems": [
    "PolyOps.Exec.C77_sides_partial",
    "PolyOps.Exec.C77_apart",
    "PolyOps.Exec.C77_tree",
    "PolyOps.Exec.C77_double",
    "PolyOps.Exec.C77_flat"
   ],
   "note": "Results in which edges coincide are left out: the claim is false for them (C77_flat)."
  },
  {
   "property": "C78",
   "status": "partial",
   "theorems": [
    "PolyOps.PyClipper.C78_unary_partial",
    "PolyOps.PyClipper.C78_boolean_partial",
    "PolyOps.PyClipper.C78_winding",
    "PolyOps.PyClipper.C78_tree_raises"
   ],
   "note": "With a tracker, trees that are not empty raise an exception although all arguments are valid (C78_tree_raises); the theorems say so."
  },
  {
   "property": "C79",
   "status": "proved",
   "theorems": [
    "PolyOps.Exec.C79_vertices",
    "PolyOps.Exec.C79_tree",
    "PolyOps.Exec.C79_given"
   ],
   "note": "For exact numbers before rounding. With crossings that are not integer points the vertices returned are near them (C52, C57)."
  },
  {
   "property": "C80",
   "status": "proved",
   "theorems": [
    "PolyOps.PyClipper.C80_offset",
    "PolyOps.PyClipper.C80_ends"
   ],
   "note": ""
  },
  {
   "property": "C81",
   "status": "proved",
   "theorems": [
    "PolyOps.TreeWalk.C81_walk",
    "PolyOps.TreeWalk.C81_apart",
    "PolyOps.Exec.C81_double"
   ],
   "note": "Exact arithmetic before rounding as in C54; C81_double is about doubles, for calls that return. Edges that coincide in the result can make the tree wrong or raise an error (C54)."
  },
  {
   "property": "C82",
   "status": "proved",
   "theorems": [
    "PolyOps.Exec.C82_inner",
    "PolyOps.Exec.C82_apart",
    "PolyOps.Exec.C82_tree",
    "PolyOps.Exec.C82_double"
   ],
   "note": "Exact arithmetic before rounding; C82_double is about doubles, for calls that return. The condition that no two edges returned coincide is on the output; C82_apart gives it from the input."
  },
  {
   "property": "C83",
   "status": "proved",
   "theorems": [
    "PolyOps.Exec.C83_odd",
    "PolyOps.Exec.C83_apart",
    "PolyOps.Exec.C83_double"
   ],
   "note": "Exact arithmetic before rounding; C83_double is about doubles, for calls that return. C83_apart compares with the region of the operation on the polygons given."
  },
  {
   "property": "C84",
   "status": "partial",
   "theorems": [
    "PolyOps.Exec.C84_origins_partial",
    "PolyOps.Exec.C84_normalize",
    "PolyOps.Exec.C84_merge_fails",
    "PolyOps.Exec.C84_near",
    "PolyOps.Exec.C84_unreadable"
   ],
   "note": "The code violates the claim: insert_anchor_point adds points that the tracker is not told about, and the first merge goes to one of them (C84_unreadable, and C84_merge_fails for all runs with a merge). Proved: if there are no merges the result can be read, with the right origins; there are none for normalize."
  },
  {
   "property": "C85",
   "status": "proved",
   "theorems": [
    "PolyOps.Exec.C85_edges",
    "PolyOps.Exec.C85_separate",
    "PolyOps.Exec.C85_double"
   ],
   "note": "Exact arithmetic before rounding; C85_double is about doubles, for calls that return."
  },
  {
   "property": "C86",
   "status": "proved",
   "theorems": [
    "PolyOps.Exec.C86_axes",
    "PolyOps.Exec.C86_length",
    "PolyOps.Exec.C86_rounded"
   ],
   "note": "Exact arithmetic before rounding. C86_axes has no condition on crossings; C86_length asks for integer crossings; C86_rounded does not, with the factor \u221a2."
  },
  {
   "property": "C87",
   "status": "proved",
   "theorems": [
    "PolyOps.Exec.C87_together",
    "PolyOps.Exec.C87_length",
    "PolyOps.Exec.C87_double"
   ],
   "note": "Exact arithmetic before rounding, list output; C87_double is about doubles, for calls that return, without the lengths."
  }
 ]
}