{"id": "C01", "title": "Multi-word addition and subtraction are exact", "statement": "For two large integers of any word counts and any mix of signedness, a+b and a-b have the type of the larger operand and equal the mathematical sum/difference reduced modulo 2^(64N); when the mathematical result is representable in the result type it is exact.", "quantifier": "every word count, every signedness mix, every operand value", "why_tests_cant": "The operand space is 2^(64N) for every N; a test samples a vanishing fraction and carry/borrow bugs hide in rare patterns.", "anchors": ["include/poly_ops/large_ints.hpp: add, sub, addcarry, subborrow, compi_hi, compi_lo, ar_add, ar_sub"]}
{"id": "C02", "title": "Large-integer comparison is the integer order", "statement": "a<b, a==b, a>b on large integers of any word counts and any mix of signedness agree with comparing the represented integers; exactly one of the three holds.", "quantifier": "every word count, signedness mix and operand value", "why_tests_cant": "The operand space is 2^(64N) for every N; a test samples a vanishing fraction and carry/borrow bugs hide in rare patterns.", "anchors": ["include/poly_ops/large_ints.hpp: cmp, eq, subborrow_or"]}
{"id": "C03", "title": "Large-integer multiplication never overflows", "statement": "mul(a,b) returns a type wide enough to hold the product and its value is the exact mathematical product, for any word counts and any signedness for which the function returns a value.", "quantifier": "every word count, signedness mix and operand value", "why_tests_cant": "The operand space is 2^(64N) for every N; a test samples a vanishing fraction and carry/borrow bugs hide in rare patterns.", "anchors": ["include/poly_ops/large_ints.hpp: mul, umulnx1, offset_mul_add, offset_add"]}
{"id": "C04", "title": "The standard-C++ 64x64 multiply is exact", "statement": "Without compiler extensions, the double-word product built from 32-bit halves equals the true product for all unsigned words and, with the sign correction, for all signed words.", "quantifier": "every pair of 64-bit words, signed or unsigned", "why_tests_cant": "2^128 input pairs", "anchors": ["include/poly_ops/large_ints.hpp: mul1x1 lines 1021-1037"]}
{"id": "C05", "title": "Carry and borrow are propagated exactly by every back end", "statement": "Each word-level add-with-carry / subtract-with-borrow back end (Intel, Clang, GCC, plain C++) returns the low word and the carry/borrow of the exact result for every two words and every incoming carry 0/1.", "quantifier": "every pair of words and carry, each back end", "why_tests_cant": "2^129 inputs per primitive; the failing ones are a single diagonal", "anchors": ["include/poly_ops/large_ints.hpp: _addcarry, _addcarry_to, _subborrow, _subborrow_to"]}
{"id": "C06", "title": "Shifts are multiplication/floor-division by powers of two", "statement": "For a shift amount below the width, a<<k is a*2^k modulo 2^(64N) and a>>k is floor(a/2^k) (arithmetic when signed); the in-place forms give the same result as the copying forms.", "quantifier": "every word count, operand value and shift amount below the width", "why_tests_cant": "The operand space is 2^(64N) for every N; a test samples a vanishing fraction and carry/borrow bugs hide in rare patterns.", "anchors": ["include/poly_ops/large_ints.hpp: _shift_right, _shift_left, shift_right, shift_left, operator<<=, operator>>="]}
{"id": "C07", "title": "Truncating division satisfies the division law", "statement": "For every dividend and every non-zero divisor divmod(a,b) gives q,r with a=q*b+r, |r|<|b|, r=0 or sign(r)=sign(a), provided the quotient is representable; both the word-by-word and the shift-and-subtract algorithms agree.", "quantifier": "every word count, every dividend, every non-zero divisor", "why_tests_cant": "The operand space is 2^(64N) for every N; a test samples a vanishing fraction and carry/borrow bugs hide in rare patterns.", "anchors": ["include/poly_ops/large_ints.hpp: divmod, udivmod_long, divmod_each_word_long, udivmod_shift_sub, unmul"]}
{"id": "C08", "title": "Euclidean division satisfies the Euclidean law", "statement": "divmod/unmul in euclid mode give q,r with a=q*b+r and 0<=r<|b|.", "quantifier": "every dividend and every non-zero divisor", "why_tests_cant": "Failing cases (exact quotients with differing signs, negative divisors) depend on the divisibility of arbitrarily large operands", "anchors": ["include/poly_ops/large_ints.hpp: divmod, unmul (modulo_t::euclid)", "include/poly_ops/polydraw.hpp: intersects"]}
{"id": "C09", "title": "Hexadecimal literals denote the written value", "statement": "A hex literal of any length yields a non-negative signed integer whose value is the value of the digits, with the smallest word count that fits all digits and a sign bit.", "quantifier": "every non-empty digit string", "why_tests_cant": "literals have unbounded length; the boundary is at every 16th digit", "anchors": ["include/poly_ops/large_ints.hpp: hex_value, rev_char_pack, operator\"\"_compi"]}
{"id": "C10", "title": "Conversions preserve value", "statement": "Widening a large integer preserves its value; narrowing to a built-in integer keeps the value modulo 2^bits; converting to floating point sums words with their true weights.", "quantifier": "every word count and value", "why_tests_cant": "The operand space is 2^(64N) for every N; a test samples a vanishing fraction and carry/borrow bugs hide in rare patterns.", "anchors": ["include/poly_ops/large_ints.hpp: compound_xint ctor, cast, unsigned_to_float, explicit operator T"]}
{"id": "C11", "title": "Negation and absolute value are exact except at the minimum", "statement": "-x and abs(x) equal the mathematical value for every x other than the most negative value, which maps to itself.", "quantifier": "every word count and value", "why_tests_cant": "The operand space is 2^(64N) for every N; a test samples a vanishing fraction and carry/borrow bugs hide in rare patterns.", "anchors": ["include/poly_ops/large_ints.hpp: operator-, abs, negative"]}
{"id": "C12", "title": "Geometric predicates cannot overflow on quarter-range coordinates", "statement": "If every coordinate of a w-bit coordinate type lies in [-2^(w-2),2^(w-2)), every intermediate value of the orientation test, the segment intersection test and the ray test fits in its C++ type, so the results are the exact integer values; the bound is sharp. The area sum needs a bound that also depends on the number of points.", "quantifier": "every coordinate width, every in-range point tuple", "why_tests_cant": "overflow corners of a 6- or 8-dimensional coordinate space", "anchors": ["include/poly_ops/base.hpp: triangle_winding, coord_ops", "include/poly_ops/clip.hpp: intersects, line_segment_up_ray_intersection, int_dot"]}
{"id": "C13", "title": "Orientation test is an exact orientation", "statement": "triangle_winding is zero exactly for collinear points, changes sign when two points are exchanged, is invariant under rotation of its arguments and translation, and equals twice the signed triangle area.", "quantifier": "every three points", "why_tests_cant": "infinitely many point triples; near-collinear triples are the hard ones", "anchors": ["include/poly_ops/base.hpp: triangle_winding"]}
{"id": "C14", "title": "winding_dir is twice the signed area", "statement": "For every polygon winding_dir equals the shoelace sum, does not depend on the starting vertex or on translation, changes sign under reversal, is additive under cutting along a chord and is 0 for fewer than three points.", "quantifier": "every point list of any length", "why_tests_cant": "unbounded polygons", "anchors": ["include/poly_ops/base.hpp: winding_dir, winding_dir_sink"]}
{"id": "C15", "title": "Segment intersection test is exact", "statement": "For two non-parallel segments that share no end index the test reports true exactly when the closed segments have a common point; the reported edge flags name exactly the end points that lie on the other segment.", "quantifier": "every four integer points", "why_tests_cant": "exact touching and near misses form a measure-zero set in coordinate space", "anchors": ["include/poly_ops/clip.hpp: intersects, is_edge"]}
{"id": "C16", "title": "Rounded intersection points stay near and inside", "statement": "Whatever the pseudo-random rounding decisions, the point reported for a proper crossing is at distance less than 1 (plus the floating-point error of the quotient, for which a bound is given) in each axis from the exact intersection and lies inside the bounding box of the first segment, so splitting never moves geometry outside the segment's box.", "quantifier": "every crossing pair, every random history, every monotone exact-on-integers rounding of the quotient", "why_tests_cant": "depends on all rounding histories", "anchors": ["include/poly_ops/clip.hpp: intersects lines 503-524, rand_bool"]}
{"id": "C17", "title": "Collinear overlap is detected and the split point is interior", "statement": "For parallel segments of nonzero length the test reports true exactly when they have two distinct common points and are not one and the same line (same end indices); a reported point is an end point of one segment that lies on the other and the flags name exactly the end points it coincides with; when no point is reported the segments coincide end to end.", "quantifier": "every pair of parallel non-degenerate segments", "why_tests_cant": "all collinear configurations and index identifications", "anchors": ["include/poly_ops/clip.hpp: intersects_parallel"]}
{"id": "C18", "title": "Line balance is the winding number beside the line", "statement": "The number accumulated by scanning all lines from the start of a line equals the winding number (signed crossings of a vertical ray) of a point infinitesimally to the outer side of that line, with coincident lines stacked by index; the inner side has exactly one more.", "quantifier": "every finite set of directed lines and every starting line", "why_tests_cant": "all arrangements including touching, vertical and coincident lines", "anchors": ["include/poly_ops/clip.hpp: line_balance, line_segment_up_ray_intersection, lower_angle, vert_overlap, hsign_of"]}
{"id": "C19", "title": "The paired ray test agrees with two single tests", "statement": "Testing two lines that start at one point together gives the same answers as testing them separately.", "quantifier": "every configuration with non-zero line directions", "why_tests_cant": "debug assertion only samples it", "anchors": ["include/poly_ops/clip.hpp: dual_line_segment_up_ray_intersection, dual_line_balance"]}
{"id": "C20", "title": "Boolean operations keep exactly the boundary of the result region", "statement": "For each operation a line is kept exactly when the result region differs between its two sides, and a kept line is reversed exactly when the result lies on its outer side. The regions are conditions on the subject and clip winding numbers s, c: union s+c>0, intersection s>0 and c>0, xor exactly one of s>0 and c>0, difference s>0 and not c>0, normalize s+c odd.", "quantifier": "every pair of integer winding numbers, both input sets, every operation", "why_tests_cant": "winding numbers are unbounded", "anchors": ["include/poly_ops/clip.hpp: line_balance::result, bool_op"]}
{"id": "C21", "title": "Event order is a strict total order", "statement": "Events are totally ordered by x, then type, then indices; two events compare equal only if they are the same event, so the processing order does not depend on insertion order.", "quantifier": "every set of events", "why_tests_cant": "all permutations of all event sets", "anchors": ["include/poly_ops/clip.hpp: event_cmp", "include/poly_ops/polydraw.hpp: event_cmp"]}
{"id": "C22", "title": "Sweep order is a strict order on non-crossing lines", "statement": "On any set of segments met by a common vertical that do not meet each other between their starts and the vertical (and whose members on one line share a start or the height of their end), the sweep comparison is the descending order of the position on the vertical, hence irreflexive, asymmetric, total on distinct segments and transitive. Asymmetry and totality hold for all segments. Three overlapping segments of one line can form a cycle.", "quantifier": "every such set of segments", "why_tests_cant": "transitivity quantifies over all triples of segments", "anchors": ["include/poly_ops/clip.hpp: sweep_cmp, line_bal_sweep_cmp"]}
{"id": "C23", "title": "The event queue visits events in order and loses none", "statement": "After any sequence of insertions, the event array is a sorted permutation of all events ever added; new events are merged at their sorted position.", "quantifier": "every event set and every insertion history", "why_tests_cant": "all histories", "anchors": ["include/poly_ops/clip.hpp: events_t::next, incorporate_new, find"]}
{"id": "C24", "title": "Backtracking undoes exactly the overtaken events", "statement": "When new events fall before the current position, next() replays backwards exactly the processed events at or after the first insertion point, in reverse order, then resumes forward at the first new event; forward-minus-backward visits of each event stay 0 or 1.", "quantifier": "every history of insertions and steps", "why_tests_cant": "all interleavings of insertion and processing", "anchors": ["include/poly_ops/clip.hpp: events_t::next"]}
{"id": "C25", "title": "Adding a polygon stores its distinct consecutive points as one closed loop", "statement": "Adding a point sequence appends exactly its consecutive-duplicate-free cyclic form as one closed loop; a sequence with fewer than three such points leaves the clipper unchanged; other loops are untouched; the stored loops then meet the preconditions of the sweeps.", "quantifier": "every point sequence and every prior content", "why_tests_cant": "all sequences with repeats at every position, all prior contents", "anchors": ["include/poly_ops/clip.hpp: point_sink, finalize_prev, ~point_sink, add_loop"]}
{"id": "C26", "title": "The point tracker stays index-synchronised", "statement": "At every moment between public calls the number of tracker records equals the number of stored points of kept loops, record k carries the original index of the input point stored at k, and each split produces exactly one record naming its end points.", "quantifier": "every sequence of added loops and splits", "why_tests_cant": "all call histories", "anchors": ["include/poly_ops/clip.hpp: i_point_tracker, point_sink, split_segment", "include/poly_ops/offset.hpp: origin_point_tracker"]}
{"id": "C27", "title": "Splitting lines only refines the loops", "statement": "However many lines are split in whatever order, each stored loop remains one closed loop visiting the original points in the original cyclic order, with the set label unchanged.", "quantifier": "every sequence of splits", "why_tests_cant": "all split histories", "anchors": ["include/poly_ops/clip.hpp: split_segment"]}
{"id": "C28", "title": "The sweep set always holds exactly the open segments", "statement": "During the intersection sweep, through any sequence of forward, backward, split and backtrack steps, the sweep structure contains exactly the live segments whose start event has been passed and whose end event has not; at termination it is empty and each current edge owns exactly one live start and one live end event.", "quantifier": "every reachable state of the sweep", "why_tests_cant": "all interleavings of splits and backtracking", "anchors": ["include/poly_ops/clip.hpp: self_intersection, check_intersection, split_segment, events_t"]}
{"id": "C29", "title": "The winding scan tests every touching line exactly once", "statement": "When the balance of a point is computed, the lines examined are exactly the live lines whose closed x-range contains the point's x, each exactly once.", "quantifier": "every final event list and every scan point", "why_tests_cant": "all event lists with ties at one x", "anchors": ["include/poly_ops/clip.hpp: calc_line_bal, touching_removed, touching_pending"]}
{"id": "C30", "title": "Output loops partition the kept points into simple cycles", "statement": "Loop extraction terminates, each kept point belongs to exactly one output loop, each loop's reported size equals the number of points iterating it yields, and iteration returns to the start.", "quantifier": "every kept-point permutation", "why_tests_cant": "all permutations", "anchors": ["include/poly_ops/clip.hpp: find_loops, proto_loop_iterator"]}
{"id": "C31", "title": "Reconnection yields a permutation", "statement": "After reconnecting broken ends to starts with equal coordinates, every kept point has exactly one predecessor and one successor among kept points, whenever starts and ends balance at each coordinate; which start is chosen does not matter for this.", "quantifier": "every break configuration balanced at each coordinate", "why_tests_cant": "all configurations", "anchors": ["include/poly_ops/clip.hpp: follow_balance, do_op, breaks_t"]}
{"id": "C32", "title": "Starts and ends balance at every vertex", "statement": "In every arrangement the kept lines entering a coordinate equal in number the kept lines leaving it, for each operation.", "quantifier": "every cyclic arrangement of lines around a vertex", "why_tests_cant": "all arrangements", "anchors": ["include/poly_ops/clip.hpp: line_balance::result, do_op"]}
{"id": "C33", "title": "Nested output has the containment structure", "statement": "Given the containment relation found by the scan, tree output contains each loop exactly once, its parent contains it, and its depth equals the number of loops containing it; top-level loops are those contained in none.", "quantifier": "every laminar containment relation", "why_tests_cant": "all forests", "anchors": ["include/poly_ops/clip.hpp: arrange_loops, replace_line_indices_with_loop_indices, unique_sorted_loop_points, loop_hierarchy"]}
{"id": "C34", "title": "The sweep structure behaves as a sorted set", "statement": "Under any sequence of insert, erase, insert_before and iteration, the index-linked red-black tree yields exactly the elements inserted and not erased, in comparator order, erase returns the successor, and the height is at most 2*log2(n+1).", "quantifier": "every operation sequence", "why_tests_cant": "all shapes and operation sequences", "anchors": ["include/poly_ops/sweep_set.hpp: sweep_set", "include/poly_ops/rbtree_algorithms.hpp: rbtree_algorithms, bstree_algorithms"]}
{"id": "C35", "title": "A clipper's life cycle hides old input", "statement": "After execute, the next add discards all earlier input and restarts indices at 0; execute without new input returns an empty result; reset is equivalent to a fresh clipper up to the rounding generator.", "quantifier": "every sequence of add/reset/execute", "why_tests_cant": "all call histories", "anchors": ["include/poly_ops/clip.hpp: add_loop, execute, reset, do_op"]}
{"id": "C36", "title": "Origin sets are the exact merged sets", "statement": "After any sequence of point_added, new_point_between and point_merge, the original indices reported for a point are exactly the sorted duplicate-free union of what was merged into it.", "quantifier": "every callback history", "why_tests_cant": "all merge histories; sizes 0, 1, 2 and larger use different storage", "anchors": ["include/poly_ops/mini_flat_set.hpp: mini_flat_set, mini_set_proxy", "include/poly_ops/offset.hpp: origin_point_tracker"]}
{"id": "C37", "title": "Every discarded point's origins flow to a surviving or terminal point", "statement": "Walking a discarded chain merges each point into its successor, so the union of origin sets is preserved along the chain.", "quantifier": "every chain and state assignment", "why_tests_cant": "all chains", "anchors": ["include/poly_ops/clip.hpp: follow_balance", "include/poly_ops/offset.hpp: origin_point_tracker"]}
{"id": "C38", "title": "Offsetting emits the offset points with the right original indices", "statement": "For every closed input, each non-repeated edge emits its two shifted end points tagged with the indices of that edge's input points, arcs are added exactly at convex turns, and afterwards the next index equals the previous one plus the number of input points.", "quantifier": "every point sequence, magnitude and step", "why_tests_cant": "all sequences with repeats", "anchors": ["include/poly_ops/offset.hpp: _add_offset_closed, _add_offset_open, add_offset_point, offset_lone_point"]}
{"id": "C39", "title": "A lone point offsets to a full circle", "statement": "Offsetting a single point by a positive magnitude emits at least three points evenly spaced over the full circle.", "quantifier": "every magnitude and step size", "why_tests_cant": "all magnitude/step ratios", "anchors": ["include/poly_ops/offset.hpp: offset_lone_point"]}
{"id": "C40", "title": "Rasteriser rows hold exactly the edges crossing the row", "statement": "When row y is emitted the active set is exactly the non-horizontal edges with upper y <= row < lower y, whatever swaps were performed, and their signed sum is zero so every span is closed.", "quantifier": "every polygon set and every row", "why_tests_cant": "all polygon sets", "anchors": ["include/poly_ops/polydraw.hpp: scan_line_sweep_state, scan_lines, swap_and_check"]}
{"id": "C41", "title": "Rasteriser spans are ordered, in bounds and carry the winding number", "statement": "For a row whose active edges are in x order, emitted spans satisfy 0<=x1<=x2<width, are emitted right to left without overlap beyond shared ends, cover exactly the pixels between crossings with non-zero winding, and carry that winding; the fill rules select by that number.", "quantifier": "every sorted active list, width and row", "why_tests_cant": "all active lists", "anchors": ["include/poly_ops/polydraw.hpp: scan_line_sweep_state::operator(), to_coord, clamp, x_intercept, should_fill, draw"]}
{"id": "C42", "title": "Rasteriser rational comparisons are exact", "statement": "Comparing x intercepts and intersection heights equals comparing the rational numbers they denote.", "quantifier": "every pair of fractions with positive denominators", "why_tests_cant": "all pairs", "anchors": ["include/poly_ops/polydraw.hpp: fraction, whole_and_frac, x_intercept"]}
{"id": "C43", "title": "Strided ranges visit exactly length elements", "statement": "Iterating a strided range of given length and non-zero stride yields the elements start+i*stride for i<length, and its size is length.", "quantifier": "every start, stride and length", "why_tests_cant": "all strides", "anchors": ["include/poly_ops/strided_itr.hpp: strided_itr, make_strided_range"]}
{"id": "C44", "title": "PointMap and index_map are consistent", "statement": "For the arrays built from a tracked loop, element i is the origin list of point i, and index_map returns for every stored index the position whose slice contains it.", "quantifier": "every list of origin sets", "why_tests_cant": "all jagged shapes including empty rows", "anchors": ["py/_polyops.pyx: tracked_poly_proxy_to_py_common, PointMap.__getitem__, index_map"]}
{"id": "C45", "title": "The chosen start is the sharpest clockwise turn", "statement": "When several starts are available at a coordinate, the one connected is a maximal clockwise turn from the incoming direction.", "quantifier": "every set of distinct candidate directions", "why_tests_cant": "all direction sets and candidate orders", "anchors": ["include/poly_ops/clip.hpp: do_op lines 2396-2412"]}
{"id": "C46", "title": "Union of repeated runs on a fresh clipper is deterministic; a reused clipper may round differently", "statement": "The result of a fresh clipper is a function of the input only; reset does not restore the rounding generator.", "quantifier": "every input and history", "why_tests_cant": "all histories", "anchors": ["include/poly_ops/clip.hpp: rand_generator, reset"]}
{"id": "C47", "title": "The sweep never leaves the bounding box of the input", "statement": "Every point that exists at any time during the intersection sweep, and so every output point, lies within the smallest rectangle containing the input points, whatever the random rounding decisions.", "quantifier": "every set of input loops, every sequence of rounding decisions, every number of splits", "why_tests_cant": "rounded intersection points feed into further intersections, so errors could accumulate over unbounded histories; range safety of later arithmetic relies on this", "anchors": ["include/poly_ops/clip.hpp: intersects, split_segment, self_intersection"]}
{"id": "C48", "title": "Output edges are exactly the kept lines", "statement": "The edges of the output loops, as directed segments, are exactly the lines classified as kept, each as often as it occurs, reversed exactly where the boolean operation table says so.", "quantifier": "every set of classified lines whose kept lines balance at each coordinate, every order of the samples", "why_tests_cant": "The reconnection depends on the order of samples and on which of several lines is taken at a shared vertex; a lost or doubled edge appears only for some combinations.", "anchors": ["include/poly_ops/clip.hpp: follow_balance, clipper::do_op, find_loops"]}
{"id": "C49", "title": "The output covers exactly the region of the boolean operation", "statement": "For every place whose vertical meets no vertex, the signed number of output edges above it (the winding number of the output) is 1 if the winding numbers of the two input sets there belong to the region of the operation (union: their sum is positive, intersection: both are positive, xor: exactly one is positive, difference: that of the subject is positive and that of the clip is not, normalize: their sum is odd), and 0 otherwise. The winding numbers of the input are those of the input lines with the added (rounded) points inserted, which are those of the input itself if no added point was rounded; each added point has to lie in the x-range of its line, which exact arithmetic before the rounding guarantees.", "quantifier": "every set of input loops, every operation, every rounding, every place", "why_tests_cant": "the claim ranges over all places of the plane and all arrangements; it combines the splitting, the classification of single samples and the reconnection", "anchors": ["include/poly_ops/clip.hpp: clipper::do_op, self_intersection, calc_line_bal, find_loops"]}
{"id": "C50", "title": "After intersection detection, lines meet only at their ends", "statement": "When the intersection pass of an operation has ended, any two of the lines into which the input was cut have the same two ends, or every place that lies on both is an end of both; this holds although computed crossings are rounded to integers, which moves the lines, provided that each added point lies in the x-range of the line it was put into (which exact arithmetic before the rounding guarantees).", "quantifier": "every set of input loops, every sequence of random rounding decisions, every shape of the balanced tree, every order in which splits undo earlier events, every rational place of the plane", "why_tests_cant": "rounding a crossing moves two lines and can make new crossings with any other line, also behind the sweep; that the backtracking finds all of them is a statement about every such cascade", "anchors": ["include/poly_ops/clip.hpp: self_intersection, check_intersection, split_segment, events_t", "include/poly_ops/base.hpp: intersects", "include/poly_ops/sweep_set.hpp: insert"]}
{"id": "C51", "title": "Both passes of an operation end", "statement": "With exact arithmetic before the rounding to integers, the intersection pass of an operation ends after finitely many steps without failing, although each split undoes earlier events, and never holds more lines than the total length of the input lines along the axes. The pass that computes winding numbers always ends without failing.", "quantifier": "every set of input loops, every sequence of random rounding decisions, every shape of the balanced tree", "why_tests_cant": "each split can undo events and lead to new splits; that no input makes this go on for ever is a statement about unbounded runs", "anchors": ["include/poly_ops/clip.hpp: self_intersection, check_intersection, split_segment, events_t, clipper::do_op"]}
{"id": "C52", "title": "An operation returns the region asked for", "statement": "Polygons are added to an empty or reset clipper and an operation with flat output is executed. With exact arithmetic before rounding the calls end without error. Each input edge is replaced by a walk through points of its own bounding rectangle; each edge of the output is a piece of such a walk, and the output winds exactly once around each place in the region of the operation on the bent polygons and not at all around every other place that is on no bent edge. If input edges that are not parallel only meet at integer points, in particular if all edges are horizontal or vertical, the same holds for the polygons as given, without any bending.", "quantifier": "every list of subject and clip polygons that the loader stores as intended (C25), every operation, every sequence of random rounding decisions, every shape of the balanced tree, every place with rational coordinates off the edges", "why_tests_cant": "it ranges over all polygons and all places of the plane; tests compare a few outputs", "anchors": ["include/poly_ops/clip.hpp: clipper::add_loop, clipper::execute, clipper::do_op, self_intersection", "include/poly_ops/base.hpp: winding_dir_sink"]}
{"id": "C53", "title": "The polygons returned are nested and do not cross", "statement": "An operation with flat output returns polygons. If no two of their edges coincide, each polygon winds around its inside once and always in the same direction, and around nothing else; each polygon is inside any other one as a whole or outside of it as a whole; the polygons around a given one contain one another; a polygon inside no other one winds forwards; a polygon directly inside another one winds in the opposite direction of that one. If no two input edges overlap and those that are not parallel meet only at integer points, no two edges returned coincide, so all this holds.", "quantifier": "every list of subject and clip polygons that the loader stores as intended (C25), every operation, every sequence of random rounding decisions, every shape of the balanced tree, every place with rational coordinates", "why_tests_cant": "it ranges over all polygons, also those that touch themselves or others at any number of corners; each corner can be joined in many ways", "anchors": ["include/poly_ops/clip.hpp: clipper::execute, clipper::do_op, follow_balance, find_loops, intr_array_t", "README.md: output lines do not cross but may touch at ends or overlap completely"]}
{"id": "C54", "title": "The tree returned is the containment of the polygons returned", "statement": "An operation with tree output is run on polygons added to an empty clipper. Around every place off the edges, the polygons returned wind as often as those returned with flat output. If no two edges of the polygons it returns coincide, no internal check fails and the call returns; the polygons are as with flat output (their edges are pieces of input edges, they wind once around the region of the operation, they are nested); every polygon is in the tree exactly once; the top ones are exactly those inside no other polygon, and the children of a polygon are exactly the polygons directly inside it. If no two input edges overlap and those that are not parallel meet only at integer points, no two edges returned coincide, so all this holds.", "quantifier": "every list of subject and clip polygons that the loader stores as intended (C25), every operation, every sequence of random rounding decisions, every shape of the balanced tree", "why_tests_cant": "it ranges over all arrangements of polygons and all depths of nesting; the tree is derived from lines counted during the sweep, long before the loops exist", "anchors": ["include/poly_ops/clip.hpp: clipper::execute, clipper::do_op, loop_hierarchy, line_balance, insert_anchor_point, arrange_loops"]}
{"id": "C55", "title": "Drawing ends and fills what the fill rule chooses", "statement": "Polygons are drawn such that, among the sides that are not horizontal, no side ends where two sides of different directions cross and the sides that cross in one place have only two directions. Then, if the event storage is not reallocated during the scan, the scan ends with a result; on every row the edges are met from right to left; every place of the image whose winding number the fill rule chooses and that is not on a side is in a filled pixel; every filled run is inside the image and goes from the pixel of one crossing of the row to that of another with the rule choosing the winding number everywhere between.", "quantifier": "every list of loops of integer points with that property (overlapping, touching and self-crossing sides included), every fill rule, image size, and every place a search tree may choose for a new edge", "why_tests_cant": "it ranges over all polygons and arrangements of crossings; termination and the order in the tree depend on the whole history of swaps", "anchors": ["include/poly_ops/polydraw.hpp: rasterizer::scan_lines, scan_line_sweep_state::operator(), swap_and_check, check_intersection, check_intersection_after_swap, sweep_cmp, draw"]}
{"id": "C56", "title": "Drawing the result of an operation shows its region", "statement": "The polygons that an operation returns are drawn with the rasteriser. No two of their edges cross or touch between their ends: two edges have the same ends or meet only at ends of both; and the polygons wind once or not at all around every place off their edges. So with the fill rules for nonzero, odd and positive winding numbers, and if the event storage is not reallocated during the scan, drawing ends, every place of the image in the region of the operation is in a filled pixel, and every filled run goes from the pixel of one place to that of another with only places of the region between. If input edges that are not parallel only meet at integer points this is the region of the operation on the polygons as given, otherwise on the bent polygons of C52.", "quantifier": "every list of subject and clip polygons that the loader stores as intended (C25), every operation, every sequence of random rounding decisions, every shape of the balanced trees of both parts, every image size and these fill rules, every place off the edges", "why_tests_cant": "it ranges over all polygons, places and images, and needs that no result has a form that the rasteriser cannot draw", "anchors": ["include/poly_ops/clip.hpp: clipper::execute", "include/poly_ops/polydraw.hpp: rasterizer::add_loops, scan_lines, draw"]}
{"id": "C57", "title": "An operation on a result is exact", "statement": "The polygons that an operation returned are added to another clipper, as subjects or clips, and an operation is executed. Whatever the polygons given to the first operation were, no further point is rounded off its edge: the second result winds once around each place in its region and not at all around other places off the edges of the first result. In particular, if all are added as subjects, every operation but the intersection gives polygons that wind around the same places.", "quantifier": "every list of polygons for the first operation, every pair of operations, all random decisions and tree shapes in both, every place off the edges of the first result", "why_tests_cant": "it ranges over all polygons and places; tests run operations once", "anchors": ["include/poly_ops/clip.hpp: clipper::add_loop, clipper::execute, self_intersection"]}
{"id": "C58", "title": "Results of different operations fit together", "statement": "All operations are executed on the same polygons with the same random numbers. Around every place that is on no edge returned, what is in the difference is in the exclusive or, nothing is in both the exclusive or and the intersection, what is in the intersection is in the union, and what is in the union is in the exclusive or or in the intersection, also where points had to be rounded. If input edges that are not parallel only meet at integer points, exchanging subjects and clips changes the region of no operation but the difference.", "quantifier": "every list of polygons that the loader stores as intended (C25), every operation, all random decisions and tree shapes, every place off the edges", "why_tests_cant": "it relates runs on all polygons; tests check single outputs", "anchors": ["include/poly_ops/clip.hpp: clipper::execute, self_intersection, line_balance::result"]}
{"id": "C59", "title": "Operations with the arithmetic of double give the region of slightly bent polygons", "statement": "Crossings are computed with double precision numbers, so that every step may be rounded. For polygons whose vertices lie in a square with side 90000, anywhere in the plane, whenever a boolean operation returns it does so without error, and there is a way to bend the edges of the polygons, the same way for all operations, each edge only through points between its ends (in x) and in the square, such that the polygons returned wind exactly once around each place in the region of the operation on the bent polygons and not at all around other places, their edges are pieces of bent edges, and any two of them coincide or meet only at places that are ends of both. (Results for polygons with horizontal and vertical sides need not be exact, although they would be with exact numbers.)", "quantifier": "All sequences of polygons stored as intended with vertices in a square of side 90000, all operations, all decisions of the random generator, all runs that return; in general all roundings that keep order, have relative error e, and squares of side M with 12 e M^3 at most 1.", "why_tests_cant": "The rounding error of one crossing depends on all coordinates involved; tests see only the few crossings they contain, and an error in one of them may put a line into the wrong order far away from it.", "anchors": ["include/poly_ops/clip.hpp: detail::intersects, check_intersection, clipper::execute", "include/poly_ops/base.hpp: coord_ops::real_t"]}
{"id": "C60", "title": "Areas far from the edges are kept exactly", "statement": "Rounding crossings to whole numbers bends edges. For each edge, the places it is bent at are within as many units of the edge along each axis as the edge has such places (one and a half times as many with the arithmetic of double, for polygons in a square of side 90000), and with exact arithmetic in the rectangle spanned by the ends of the edge. Any place that is, for each edge, outside that rectangle or farther from the edge than that, is wound around once by the polygons returned if it is in the region of the operation on the polygons as they were given (not bent), and not at all otherwise.", "quantifier": "All sequences of polygons stored as intended, all operations, all decisions of the random generator, all orders of lines in the sweep; all places of the plane far from the edges.", "why_tests_cant": "That rounding has only local effects is about all inputs and all places; a test compares a few places of a few results.", "anchors": ["include/poly_ops/clip.hpp: clipper::execute, check_intersection, detail::intersects, split_segment"]}
{"id": "C61", "title": "Offsetting changes polygons only near their sides", "statement": "Offsetting closed polygons by a magnitude m adds polygons whose vertices are within |m| + 3/4 of the vertices they come from. Around each place that is farther than |m| + 3/4 from all sides of a polygon, the polygon added winds as often as the polygon given; around each place that far from an open path (without repeated points) it does not wind. The function offset returns, and if no added side gets bent at more than K points, then around each place farther than |m| + 3/4 + 3/2 K (9/4 K with crossings computed with doubles) from all sides given, the result winds once if the polygons given wind around it a positive number of times, and not at all otherwise.", "quantifier": "All closed polygons (with repeated points too) and open paths without repeated points, all magnitudes, all positive arc step sizes, all decisions of the random generator, all places; for offset: all inputs for which the polygons added are stored as intended (see C25).", "why_tests_cant": "It is about all polygons and all places of the plane; tests compare a few insets and outsets.", "anchors": ["include/poly_ops/offset.hpp: offset, add_offset, detail::_add_offset_closed, detail::_add_offset_open, detail::add_offset_point, detail::offset_lone_point", "include/poly_ops/base.hpp: perp_vector, vround"]}
{"id": "C62", "title": "Growing keeps what is inside, shrinking adds nothing outside", "statement": "Growing polygons (offset with positive magnitude) returns an area that contains every place inside the polygons given; shrinking (negative magnitude) returns an area that contains no place outside of them, in particular nothing when a polygon is shrunk by more than its half width. Holds for polygons whose corners all turn away from the offset (growing: no right turns, shrinking: no left turns, as with holes), if the arc step is at most 3/4 of the magnitude: the polygon added winds at least (at most) as often as the polygon given around every place of the plane. The code violates it for other polygons: shrinking a square with side 10 by 20 returns an area larger than the square, and growing a square with a hole with side 10 by 20 widens the hole.", "quantifier": "All closed polygons, all magnitudes and positive arc step sizes, all places of the plane.", "why_tests_cant": "It is about all polygons and all places; tests compare a few outlines, and the failing cases are those where the offset is larger than the polygon.", "anchors": ["include/poly_ops/offset.hpp: offset, add_offset, detail::_add_offset_closed, detail::add_offset_point"]}
{"id": "C63", "title": "Growing a convex polygon covers all places near it", "statement": "Growing a convex polygon (counterclockwise, positive magnitude m) with arc steps of at most 3/4 m returns an area that contains every place closer than m - arc^2/(2m) - 3/4 to a place inside of the polygon, less 3/2 (with doubles 9/4) for each point that the sides are bent at by the sweep, and no place farther than m + 3/4 from the polygon, plus the same amount. So the outline returned is at the distance asked for, up to the flatness of the arcs and rounding. The same for the polygon that is added to the clipper, without the amounts for bends, also for clockwise polygons with negative magnitude.", "quantifier": "All convex polygons (any number of vertices, repeated and collinear ones too), all magnitudes and arc step sizes, all places of the plane.", "why_tests_cant": "It is about all places around all convex polygons; tests compare a few outlines.", "anchors": ["include/poly_ops/offset.hpp: offset, add_offset, detail::_add_offset_closed, detail::add_offset_point"]}
{"id": "C64", "title": "Origins read from a result are exactly those brought to each point", "statement": "Polygons are added with an origin tracker and an operation (any of the five, flat output) is run. Reading the polygons returned with the tracker succeeds, gives the points of the output, and the origins of each point are exactly the vertex numbers that the calls to the tracker brought to it, in increasing order without repeats. They are numbers of vertices of the input polygon on whose boundary the point is. If the point is an input vertex, its own number is among them and names a vertex at the same place.", "quantifier": "All sequences of polygons that are stored as intended (see C25), all five operations; all insertion positions and random choices of the sweep; exact numbers, or rounded numbers for polygons in a square.", "why_tests_cant": "Which points are merged into which depends on all crossings and on the order of the sweep; and the exchange of storage in merges can hide a wrong set in most inputs.", "anchors": ["include/poly_ops/clip.hpp: i_point_tracker, proto_loop_iterator, temp_polygon_proxy, clipper::execute, detail::follow_balance", "include/poly_ops/offset.hpp: origin_point_tracker, point_and_origin", "include/poly_ops/mini_flat_set.hpp: mini_flat_set::merge"]}
{"id": "C65", "title": "No vertex number is reported twice", "statement": "After an operation on polygons added with an origin tracker, each vertex number is an origin of at most one point of the result, over all polygons returned.", "quantifier": "All sequences of polygons that are stored as intended (see C25), all five operations, flat output; all insertion positions and random choices of the sweep; exact numbers, or rounded numbers for polygons in a square.", "why_tests_cant": "Points may be merged and returned at the same time (differences), and a merge leaves the numbers at its source; that no copy is seen depends on the order of all merges.", "anchors": ["include/poly_ops/clip.hpp: i_point_tracker, detail::follow_balance, clipper::execute", "include/poly_ops/offset.hpp: origin_point_tracker"]}
{"id": "C66", "title": "No vertex number of a polygon that is partly returned is lost", "statement": "If a part of the boundary of an input polygon is in the result, each number of its vertices that was given to the tracker is an origin of a point of the result: discarded points are merged into the points that follow them until a point is reached that is kept, and discarded points are never referenced again.", "quantifier": "All sequences of polygons that are stored as intended, all operations, flat output.", "why_tests_cant": "Whether a number is lost depends on the order in which the sweep meets the parts of the boundary that are cut off; tests with few crossings see no loss.", "anchors": ["include/poly_ops/clip.hpp: i_point_tracker, detail::follow_balance, clipper::execute", "include/poly_ops/offset.hpp: origin_point_tracker"]}
{"id": "C67", "title": "Polygons returned enclose an area", "statement": "Every polygon that an operation returns has at least three vertices, no edge of length zero, and encloses an area.", "quantifier": "All sequences of polygons that are stored as intended (see C25), all five operations, flat output; all insertion positions and random choices of the sweep; exact numbers before rounding.", "why_tests_cant": "Flat polygons come from edges that coincide only after many cuts and roundings, and from the order of equal edges in the sweep.", "anchors": ["include/poly_ops/clip.hpp: detail::find_loops, detail::follow_balance, clipper::execute"]}
{"id": "C68", "title": "The order of polygons and of vertices does not matter", "statement": "Two lists of polygons that describe the same regions, in particular the same polygons in another order and each starting at another of its vertices, are given to two clippers, and the same operation is run. If edges that are not parallel only meet at integer points, the results wind equally often around every place off their edges. For all other polygons the results for another order agree at all places outside the rectangles of the edges.", "quantifier": "All pairs of such lists of polygons that are stored as intended (see C25), all five operations, flat output; all insertion positions and random choices, which may differ between the two clippers; exact numbers before rounding.", "why_tests_cant": "The order decides indices, ties between equal edges, the order of events and the random decisions; the number of orders grows with the factorial of the input.", "anchors": ["include/poly_ops/clip.hpp: clipper::add_loop, clipper::execute"]}
{"id": "C69", "title": "Where the polygons lie does not matter", "statement": "Any sequence of calls on a new clipper is made again with all polygons moved by the same integer vector and the same random choices. Every call ends in the same way and returns the same polygons moved by this vector, with the same vertices in the same order and the same nesting; the tracker gets the same calls. The same holds for the function offset with any magnitude and step size.", "quantifier": "All vectors; all sequences of calls (adding polygons of any kind, the five operations with flat and tree output, reset); all sequences of random choices; the arithmetic of double in the intersection test as well as exact numbers; for offsets, exact real numbers. Coordinates stay in the range of the coordinate type (C12).", "why_tests_cant": "A comparison or rounding that depends on absolute coordinates, for instance converting a coordinate rather than a difference to floating point, shows only for particular positions and edges.", "anchors": ["include/poly_ops/clip.hpp: clipper::add_loop, clipper::execute, intersects, sweep_cmp, line_segment_up_ray_intersection", "include/poly_ops/offset.hpp: offset, add_offset_point"]}
{"id": "C70", "title": "What it matters which polygons are subjects and which are clips", "statement": "Any sequence of calls on a new clipper is made again with subjects and clips exchanged and the same random choices. If difference is not used, every call ends in the same way and returns exactly the same polygons, vertex for vertex, with the same nesting, and the tracker gets the same calls. If only union and normalize are used, the polygons may be assigned to the sets in any way: calls that do not fail return the same.", "quantifier": "All sequences of calls (adding polygons of any kind, union, intersection, symmetric difference and normalize with flat and tree output, reset); all sequences of random choices; the arithmetic of double in the intersection test as well as exact numbers. For union and normalize with flat output and exact numbers, success is proved as well.", "why_tests_cant": "A place where a set is used in an asymmetric way (a default, a tie broken by the set, a swapped case) shows only for particular polygons and operations.", "anchors": ["include/poly_ops/clip.hpp: clipper::add_loop, clipper::execute, line_balance, winding_dir, bool_set"]}
{"id": "C71", "title": "Areas of results", "statement": "The area of polygons is half the sum of winding_dir over them. All operations are run on the same polygons with the same random choices, and the difference is also run with subjects and clips exchanged. No result has a negative area. The area of the symmetric difference is the sum of the areas of the two differences, and the area of the union lies between that of the intersection and the sum of those of the symmetric difference and the intersection. With tree output the area is the same. If all crossings are at points with integer coordinates, the area of a result is zero just if the operation has nothing inside, and it does not depend on the order of the polygons, on their first vertices or on the random choices; if moreover neither set overlaps itself, then difference plus intersection has the area of the subjects, union plus intersection has the area of subjects and clips together, and symmetric difference plus twice the intersection as well. Growing a convex polygon does not make its area smaller.", "quantifier": "All lists of polygons (with any rounding of crossings for the first part; with integer crossings for the sums with the input), all random choices, exact numbers. With the arithmetic of double, for polygons in a square with side 90000 and when all calls return: no area is negative, the difference is at most the symmetric difference, and the bounds of the union hold. All convex polygons and distances for growing, as long as rounding bends no added side at too many points.", "why_tests_cant": "Areas are compared for chosen examples only; a piece lost or counted twice in a rare configuration changes the area of one result.", "anchors": ["include/poly_ops/base.hpp: winding_dir", "include/poly_ops/clip.hpp: clipper::execute", "include/poly_ops/offset.hpp: add_offset"]}
{"id": "C72", "title": "The sign of winding_dir tells outlines from holes", "statement": "If no two edges of the polygons returned coincide, winding_dir is zero for none of them, positive for those inside an even number of the other ones, and negative for those inside an odd number. In tree output, it is positive for the top polygons and has opposite signs for a polygon and its children.", "quantifier": "All lists of polygons, operations and random choices with exact numbers; for flat output also with the arithmetic of double for polygons in a square with side 90000. No two edges returned coincide if no two edges given overlap and edges meet at integer points only.", "why_tests_cant": "One polygon with the wrong orientation in one configuration turns a hole into an outline.", "anchors": ["include/poly_ops/base.hpp: winding_dir", "include/poly_ops/clip.hpp: clipper::execute, line_balance, follow_balance"]}
{"id": "C73", "title": "Scaling, mirroring and turning; enough resolution makes results exact", "statement": "The polygons are mapped by any linear map with integer coefficients that can be inverted (enlarging, mirroring, quarter turns, stretching, shearing), with vertices listed in reverse if it reverses orientation. If all crossings are at points with integer coordinates, the result for the images is the image of the result: it covers the image of the same region, and its area is multiplied by the factor of the map. For other polygons this holds at all places outside the rectangles of all edges before and after the map. For any polygons at all there is a factor such that results are exact if the polygons are enlarged by it or by a multiple of it.", "quantifier": "All linear maps with nonzero determinant, all lists of polygons, all operations, all random choices (different ones for the two runs); exact numbers.", "why_tests_cant": "The sweep treats the two coordinates and directions differently, so a case that is wrong for vertical or descending lines only shows when particular polygons are turned or mirrored.", "anchors": ["include/poly_ops/clip.hpp: clipper::execute, sweep_cmp, event_cmp", "include/poly_ops/base.hpp: winding_dir"]}
{"id": "C74", "title": "Operations in several steps follow the laws of sets", "statement": "Several lists of polygons are combined by any sequence or tree of operations, each done by a new clipper on results of earlier ones and on given lists. If all crossings of the given edges are at points with integer coordinates, each given list covers each place at most once and what is added is stored as intended (C25), then every operation returns, edges of all results are parts of given edges, and the final result covers exactly the places that the corresponding expression of sets says. So two ways to compute the same set (A less the union of B and C, or A less B and then less C) cover the same places and have the same area. For any polygons there is a factor such that this holds when they are enlarged by it or a multiple of it.", "quantifier": "All trees of operations of any size, all lists of polygons meeting the conditions, all random choices (different ones in each operation); exact numbers.", "why_tests_cant": "A result can have vertices that touch and outlines that share points, which inputs written for tests do not have; errors may need several steps to show.", "anchors": ["include/poly_ops/clip.hpp: clipper::add_loop, clipper::execute, boolean_op, union_op"]}
{"id": "C75", "title": "Python clippers hold exactly what calls that returned have added", "statement": "For the Python classes Clipper and TrackedClipper: whatever calls were made before, including calls that raised exceptions because of arguments that are not valid, execute gives what a new C++ clipper (in some state of its random generator) gives for exactly the polygons added by calls that returned since the last result or reset; if there are none, it returns an empty tuple. The type of the result is the one asked for, or the common type of these polygons. A call that adds polygons raises an exception exactly if one of its arguments is not valid, and then changes nothing.", "quantifier": "All sequences of calls with valid and invalid arguments, all ways to find common types, with and without tracking.", "why_tests_cant": "What matters is the history: failed calls before an operation can leave something behind that only shows in the result of a later operation.", "anchors": ["py/_polyops.pyx: Clipper, TrackedClipper, load_loop, load_loops, _clipper_add_loop, make_tracked_recur_loop"]}
{"id": "C76", "title": "NumPy arrays are read and written row by row, whatever their memory layout", "statement": "A polygon passed to the Python binding as an array of shape (n, 2) has the points of the rows of the array, in order and each exactly once, whatever the memory layout of the array is (reversed, transposed, with steps, part of a larger array, rows repeated by broadcasting). Arrays made for results hold exactly the vertices of the result, nothing else in memory changes, and reading such an array gives the vertices back.", "quantifier": "All array sizes, strides, addresses and memory contents.", "why_tests_cant": "There is no bound on the layouts of arrays; the merging of axes by NumPy depends on the strides.", "anchors": ["py/common.pxd: polyops_npy_range, npy_point_proxy, npy_point_iterator", "py/_polyops.pyx: poly_proxy_to_py, _clipper_add_loop"]}
{"id": "C77", "title": "The inside is to the left of each edge returned; nothing is returned just if nothing is inside", "statement": "Next to every edge of the polygons returned by an operation, the places to its left (with the y axis upwards) are inside the result and those to its right are outside. An operation returns no polygon at all exactly if no place is inside its region, for instance the intersection of polygons without a common inside.", "quantifier": "All lists of polygons, all operations, all edges returned and all places of each, with flat and tree output.", "why_tests_cant": "It is about the places beside each edge of each result, for polygons of all sizes and positions.", "anchors": ["include/poly_ops/clip.hpp: clipper::execute_flat, clipper::execute_tree, line_balance", "include/poly_ops/base.hpp: winding_dir"]}
{"id": "C78", "title": "Functions of the Python binding do what a new clipper does", "statement": "The Python functions union, normalize and boolean_op raise an exception exactly if one of their arguments is not valid; otherwise they return what a new C++ clipper gives for exactly the polygons passed (an empty tuple if there are none), with the element type asked for or the common type of the polygons. The Python function winding_dir gives twice the area of the polygon whose vertices are the rows of the array, for every memory layout.", "quantifier": "All sequences of valid and invalid polygons, operations and types, all ways to find common types, all memory layouts.", "why_tests_cant": "The kinds of arguments and their order in sequences have no bound.", "anchors": ["py/_polyops.pyx: unary_op_, union, normalize, boolean_op, winding_dir, load_loops"]}
{"id": "C79", "title": "Vertices returned are vertices given or crossings, and none is missing", "statement": "If edges of the polygons given that are not parallel meet only at integer points, every vertex of the polygons returned by an operation is a vertex of a polygon given or a point where two edges given cross. Conversely no edge returned passes through a stored vertex or across a stored edge between its ends. If edges that are not parallel meet only at vertices, all vertices returned are vertices given.", "quantifier": "All lists of polygons with that property, all operations, all vertices and edges returned, with flat and tree output.", "why_tests_cant": "Points are added while sweeping, in an order that depends on all edges; a test sees the vertices of single results.", "anchors": ["include/poly_ops/clip.hpp: intersects, split_segment, clipper::execute_flat, clipper::execute_tree"]}
{"id": "C80", "title": "The Python function offset gives what the C++ function gives for exactly the polygons passed", "statement": "With flat output or without tracked points, the Python function offset raises an exception exactly if the type asked for or one of the polygons is not valid, or if the step size is less than one and there are polygons. It returns an empty tuple if there are no polygons. Otherwise it returns the polygons that the C++ function offset gives for the polygons passed, in their order, with the element type asked for or the common type of the polygons; empty arrays change nothing but the type. (With tracked points, trees that are not empty always raise an exception: C78.)", "quantifier": "All sequences of valid and invalid polygons, all magnitudes, step sizes and types, open and closed, all ways to find common types.", "why_tests_cant": "The kinds of arguments and their order in sequences have no bound.", "anchors": ["py/_polyops.pyx: offset, load_offset, load_offsets, _clipper_add_offset", "include/poly_ops/offset.hpp: add_offset, offset"]}
{"id": "C81", "title": "Going through a tree result finds each polygon once, below those that contain it", "statement": "After an operation with tree output in which no two edges of the polygons returned coincide, going through the result from the top, from each polygon to its inner polygons, as the Python functions do to build nested tuples, ends after at most as many levels as there are polygons. It meets every polygon returned once, and below a polygon it meets exactly the polygons inside it, each once.", "quantifier": "All lists of polygons, operations and orders of random choices; all functions that make an object from a polygon and the objects made of its inner polygons.", "why_tests_cant": "The number of polygons and the depth of nesting have no bound.", "anchors": ["include/poly_ops/clip.hpp: make_temp_polygon_tree_range, temp_polygon_proxy::inner_loops", "py/_polyops.pyx: proxy_range_to_py, poly_proxy_to_py_tree, _clipper_execute_"]}
{"id": "C82", "title": "Inner polygons lie within the area of the polygon around them, apart from each other", "statement": "After an operation, if no two edges of the polygons returned coincide: every place inside a polygon is also inside each polygon that contains it; two polygons of which none contains the other, for instance two children of the same polygon or two polygons at top level, have no place inside in common; each polygon encloses a place that is in no polygon inside it; and the areas of the polygons directly inside a polygon add up to less than its own area, so an outline with its holes has a positive area.", "quantifier": "All lists of polygons, operations and orders of random choices; all places with rational coordinates off the edges concerned; with exact numbers, and with doubles in a square with side 90000.", "why_tests_cant": "It is about all places of the plane and nested polygons of any number and depth.", "anchors": ["include/poly_ops/clip.hpp: clipper::execute, loop_hierarchy, temp_polygon_proxy::inner_loops", "include/poly_ops/base.hpp: winding_dir"]}
{"id": "C83", "title": "A place is in a result just if an odd number of the polygons returned are around it", "statement": "After an operation, if no two edges of the polygons returned coincide, a place off these edges is in the result just if it is inside an odd number of the polygons returned. The same holds just if the innermost polygon around it is an outline: there is a polygon around it whose winding_dir is positive, and none of the polygons directly inside that one is around it. So whether results are filled by the even-odd rule, by the nonzero rule, or outline by outline without its holes makes no difference.", "quantifier": "All lists of polygons, operations and orders of random choices; all places with rational coordinates off the edges returned; with exact numbers, and with doubles in a square with side 90000.", "why_tests_cant": "It is about all places of the plane and nested polygons of any number and depth.", "anchors": ["include/poly_ops/clip.hpp: clipper::execute, temp_polygon_proxy::inner_loops", "include/poly_ops/base.hpp: winding_dir"]}
{"id": "C84", "title": "The origins of the points of a tree result can be read with the tracker", "statement": "When polygons are added with the library's origin tracker and an operation with tree output (execute<true>) returns, the polygons of the result can be read with the tracker: each call the tracker got is about points it has a record of, and the origins reported for a point are those of its input vertex. In particular, when no part of a boundary is left out of the result, each point read has no origin or the number of an input vertex at its place, and each number given to the tracker is reported just once.", "quantifier": "All lists of polygons, operations and orders of random choices; with exact numbers, and with rounded numbers in a square whose size depends on the error.", "why_tests_cant": "It ranges over all inputs; an access out of bounds of the tracker often goes unnoticed in tests.", "anchors": ["include/poly_ops/clip.hpp: clipper::do_op, insert_anchor_point, follow_balance, i_point_tracker", "include/poly_ops/offset.hpp: origin_point_tracker"]}
{"id": "C85", "title": "No edge is returned more often than it was given", "statement": "The edges of the polygons an operation returns, taken without direction, are pieces of the edges given, and none is returned more often than it is there: they are among the edges that normalize returns for the same polygons, with at most the same multiplicity, so no operation returns more vertices than normalize. normalize leaves nothing out: it returns at least as many edges as the input has, and exactly the edges given (each in one of its directions) when they meet only at their ends. This holds for lists and for trees.", "quantifier": "All lists of polygons, operations and orders of random choices; with exact numbers, and with doubles for calls that return.", "why_tests_cant": "Counting with multiplicity over all inputs, including edges that coincide; a test shows single results.", "anchors": ["include/poly_ops/clip.hpp: clipper::execute, do_op, line_balance, follow_balance"]}
{"id": "C86", "title": "Boundaries do not get longer", "statement": "The boundaries of the polygons an operation returns cover at most the distance, along the x axis and along the y axis, that the boundaries of all polygons given cover, even though crossings are rounded to integers; for normalize the distances are those of the edges stored. When edges that are not parallel meet only at integer points the same holds for the length of the boundaries; in general they are at most \u221a2 times as long. This holds for lists and for trees.", "quantifier": "All lists of polygons, operations and orders of random choices, with crossings computed exactly before rounding.", "why_tests_cant": "Rounding bends edges at every crossing, in an order that depends on the whole input; tests show single cases.", "anchors": ["include/poly_ops/clip.hpp: clipper::execute, do_op, intersects, line_balance, follow_balance"]}
{"id": "C87", "title": "Boundaries of a union and an intersection together", "statement": "For the same polygons the edges of the union and those of the intersection, taken together and without direction, are among the edges of normalize, none more often than there; so both together have at most as many vertices, and cover at most the distance along each axis that all polygons given cover. The edges of the intersection, and those of the difference, are among the edges of the exclusive or. When edges that are not parallel meet only at integer points, the lengths of the boundaries of union and intersection add up to at most the length of the boundaries given.", "quantifier": "All lists of polygons and orders of random choices, with crossings computed exactly before rounding, and for the edges also with doubles; the results of different operations on the same polygons.", "why_tests_cant": "It compares several operations for all inputs, including edges that coincide, where which of them is kept depends on the order of the sweep.", "anchors": ["include/poly_ops/clip.hpp: clipper::execute, do_op, line_balance::result, follow_balance"]}
