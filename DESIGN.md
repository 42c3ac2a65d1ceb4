# Formal model of polyops: design

The model is written in Lean 4.33.0 under `lean/Verif/`.  Each definition cites the
`/repo` file and lines it models.  The C++ code is not compiled or run.

## Layout

Every topic has a model file (definitions only, `Model/`), lemma files (`Lemmas/`) and a
property file (`Props/`).  The theorems named in MANIFEST.json live in the property files,
next to concrete cases that meet their hypotheses.  A theorem named `..._partial` proves less
than its property; the comment at the theorem and the note in MANIFEST.json say what is
missing.  `seeded/LOG.jsonl` records wrong programs the theorems were tried on.

## Modelling conventions

* A 64-bit word is a `Nat` below `2^64`, and wrap-around is written out as `% 2^64`.  A large
  integer is a little-endian list of words of any length.
* Coordinates are `Int`.  C12 proves separately that the C++ types never overflow for
  coordinates in the documented quarter range, so `Int` is the right reading there.
* A C++ function that mutates becomes a function that returns the new state.  Vectors of
  nodes linked by indices stay vectors (or maps) linked by indices.
* Undefined behaviour is an explicit outcome (`Option`/`Except`) wherever the code can reach
  it.  It is never hidden by a default value in a statement.
* A loop without an obvious bound takes a number of steps.  `none` means it did not end; the
  theorems either prove a bound (C34) or speak about runs that end.
* Rounding choices (`rand_bool`) are a parameter.  Theorems quantify over all choices.
* Floating point: in the intersection of lines every operation is followed by an arbitrary
  rounding function, and the theorems state what they need of it (monotone, exact on small
  integers, or a relative error).  Offsets are modelled over the real numbers.  Conversions
  of large integers to floating point are modelled without rounding.  C51 to C58 are about
  exact numbers before the rounding to integers; C59 and the theorems with the suffix `_double` (C53, C54, C56, C58, C60, C61, C81, C82, C83, C85, C87) are about crossings computed with `double` itself.
* The first and second sweep do not fix where the sweep set puts a line; the position is a
  function of the state that the theorems quantify over.  C22 and C34 say which position it
  is.

## What is modelled

| file | modelled | not modelled |
|------|----------|--------------|
| large_ints.hpp | carry primitives of all back ends, add, sub, compare, shifts, mul, divmod, unmul, hex literals, conversions, negation | overload resolution, constexpr plumbing |
| base.hpp | `triangle_winding`, `winding_dir`, `vround`, `vmag`, `vangle`, `perp_vector`, widths of `coord_ops` | generic point traits |
| clip.hpp | intersections, balances, events, sweep order, point sink, splitting, both sweeps, reconnection, loops, hierarchy, life cycle, reading loops (`proto_loop_iterator`), nested proxies (`inner_loops`) | memory resources, debug checks, log hooks |
| sweep_set.hpp, rbtree_algorithms.hpp | insert, insert_before, erase, iteration, clear, at the level of links and colours | other entry points of the Boost code (copy, swap, equal range, ...), which the library never calls |
| mini_flat_set.hpp | set, insertion, merge | allocator plumbing |
| offset.hpp | offset points, tracker, adding of loops, `offset` | iterator plumbing |
| strided_itr.hpp | iterators and ranges | |
| polydraw.hpp | fractions, intercepts, events, active set, spans, drawing | |
| py/_polyops.pyx | `PointMap`, conversion of tracked results, life cycle of `Clipper` and `TrackedClipper`, `union`, `normalize`, `offset`, `boolean_op`, `winding_dir`, with py/common.pxd: reading and writing of arrays | NumPy itself, adding of offset polygons to objects of these classes, setting of `next_orig_i`, other glue |

## Plan and status per property

The status of each property is in MANIFEST.json.

| id | model | proof |
|----|-------|-------|
| C01 | word lists, carry chains of `addcarry`/`subborrow`, `compi_hi` extension | induction over words: value of result plus carry weight equals sum |
| C02 | `cmp`, `eq`, `subborrow_or` | from C01's borrow lemma: borrow iff less |
| C03 | `mul` branches: 1x1, Nx1, NxM with sign extension | value lemma for `offset_mul_add`, then two's-complement range argument |
| C04 | `mul1x1` from 32-bit halves | linear arithmetic over the half products |
| C05 | four back ends of the carry primitives | exact for Intel/Clang/GCC; the plain C++ back end is proved wrong by a witness and right away from the failing diagonal |
| C06 | `_shift_right`, `_shift_left` loops, aliasing included | value lemma by induction on the word index |
| C07 | `udivmod_long`, `udivmod_shift_sub`, sign wrapper, `unmul` | loop invariants |
| C08 | sign wrapper in euclid mode | negation by witness, exact characterisation of the cases that hold |
| C09 | `_compi` digit packing | induction over digits |
| C10 | widening constructor, `cast`, float conversion over rationals | widening proved; `cast` refuted by witness; float exact for two words only |
| C11 | `operator-`, `abs` | two's-complement arithmetic |
| C12 | interval bounds of each intermediate value | nonlinear bounds for every width |
| C13, C14 | `triangle_winding`, `winding_dir_sink` fold | ring identities, induction over the list |
| C15-C17 | `intersects`, `intersects_parallel` over `Int`, spec over `Rat` points | sign arguments |
| C18, C19 | ray tests, `line_balance` fold | spec: crossings of the vertical line at a point infinitesimally beside the line |
| C20 | `line_balance::result` | case split over winding numbers against a region predicate |
| C21, C22 | comparison functions | order laws; geometric transitivity |
| C23, C24 | `events_t` as state machine | invariant over all histories |
| C25, C26 | `point_sink` with tracker | induction over the point list; refutation witnesses for the known defects |
| C27, C28 | `split_segment`, `self_intersection` state machine with abstract geometry, instantiated with the library's | inductive invariant |
| C29 | `calc_line_bal` scan list | permutation with the set of live lines touching the x |
| C30, C31, C48 | `find_loops`, `follow_balance`, reconnection | permutation cycles |
| C32 | sectors around a vertex | cyclic telescoping count |
| C33 | `arrange_loops` | laminar families |
| C34 | red-black tree as maps of links and colours | representation predicate with a zipper; refinement to a list of elements; black height |
| C35, C46 | life-cycle state machine | induction over call histories |
| C36, C37 | `mini_flat_set`, `origin_point_tracker` | refinement to finite sets |
| C38, C39 | `offset.hpp` emission over the real numbers | induction; refutation witnesses |
| C40-C42 | rasteriser state machine and row emission | invariants; rational arithmetic |
| C43 | `strided_itr` | induction; refutation of the size |
| C44 | arrays of `PointMap` | induction over rows |
| C45 | selection fold | maximality of the fold |
| C47 | first sweep with rounding | invariant: all points in the rectangle of the input |
| C49 | both sweeps and the reconnection together | winding numbers are constant along a line and sum to zero around a vertex of a planar arrangement; telescoping sums over the lines above a place |
| C50 | first sweep with the library's intersection test and tree | invariant: at every cut that no open event precedes, neighbours are separate, coincide, or are kept apart by a chain of lines to a place between them; kept by each step, also when events are undone; at the end it covers all lines |
| C51 | both sweeps, queue and splits | each added point is in the rectangle of its line, so the lengths along the axes add up and bound the number of lines; between splits a measure of the event queue falls |
| C52 | a sequence of add_loop calls followed by execute | loading gives the edges of the polygons (C24, C25); C51 ends both sweeps; the added points of each input edge form a walk in its rectangle; C48, C49 and C50 give the winding number just right of a place; with integer crossings the added points are on the edge, so cutting it changes no winding number |
| C53 | the loops of C52 | around a place the kept lines alternate in direction; the piece chosen makes the sharpest turn among all pieces that end there (LoopsBest), so no two joints cross (Turn); then every loop has a constant winding number along every other loop (LoopsParts), and such parts are nested with alternating directions (Lam, Nested) |
| C54 | `execute` with tree output: `insert_anchor_point`, the lines counted above each classified line, `loop_hierarchy` | each counted line stays on the loop of its anchor (LoopsNeat, LoopsTrack, LoopsForest); the lines of another loop counted above a line give the winding number of that loop beside the line (Hits), which is constant along the line's loop (C53); then C33 |
| C55 | the whole scan of `polydraw.hpp`: stored loops, events, tree, swaps, emission | invariant: neighbours in the tree are in order from the current height on, or their swap is still to come (RasterOrder, RasterStep, RasterRow); `swap_and_check` restores it; the number of pairs of lines in the tree that still turn towards each other falls with every swap, which bounds the events (RasterEnds); then C40 and C41 give the filled pixels (RasterExact) |
| C56 | the clipper of C52 followed by the rasteriser of C55 | two edges of a result meet only at ends of both (C50), so the condition of C55 holds; counting crossings along a vertical and along a horizontal ray differs by a sum over vertices that vanishes for closed polygons (WindRays); winding numbers off the result's edges are found at places nearby that are on no input edge (WindNear) |
| C57 | two clippers one after the other | edges of a result that are not parallel only meet at vertices, so the second operation is exact by C52 |
| C58 | several operations on the same polygons | the first pass does not depend on the operation (`Pass`), so C52 holds with the same bent edges for all operations; then by cases on the winding numbers |
| C59 | rounding of each floating-point operation of `intersects` as in `double` (`Model/Double.lean`), in general any rounding with a small relative error | a crossing inside both lines is at least 1/(2M²) away from the ends of the second line, which is more than the rounding error (`crossing_xin`); a vertical second line is never properly crossed when it is tested (`upright_start`, `upright_end`, from the invariant of C50); then as C52 |
| C60 | as C58 and C59; `NearEdge`, `FarFrom`, `Outside` | each split takes a point within one unit (1.5 with doubles) of a piece of the edge, so that k splits depart by at most k units (`splits_chain` with `Grade`); the places near a segment are convex, so that a line through a far place has the bent edge and the straight edge on one side (`far_side`, a Helly argument), and then both count the same (`walk_side`) |
| C61 | `Model/OffsetClip.lean`: `offset` made of `add_offset` and `execute`; `Beyond`, `emitted`, `sides` | every point emitted is paired with the vertex it comes from (`path_pairs`); a line through a far place has both ends of an emitted side and both ends of the original on one side (`beyond_side`), so that the counts of the pieces telescope (`shadow_walk`); the result by C60 |
| C62 | `Rounded`, `cornersOf`, `turn`; the emission as in C38, `offset` as in C61 | the polygon added winds as the one given plus one loop around the strip beside each side and one around the fan at each corner (`closed_gaps`); rounding keeps the direction of turns of at most a right angle (`turn_left`), so that every triangle of them winds in the direction of the offset (`tri_wind`, `gap_sign`); counterexamples by evaluation of `offset` |
| C63 | `Convex`, `Nearby`; the emission as in C38, `offset` as in C61 | each side added is in front of a line that supports the polygon, by the radius less the flatness of the arcs (`gap_ahead`); so no side separates a place inside from one near it, the number of windings is the same at both (`wind_move`), and it is positive inside by C62; the converse is C61 |
| C64 | `Iter`, `visit`: reading a loop with the tracker; `toCall`; specification `Traced` with `Spec` of C36 and `homes` (the polygon of each point, from the calls) | the merges of an operation are along links and from different points (`out_merges`); a point that is returned is a source only for differences, and then its target is an input vertex that was no source before, so no storage is exchanged (`flow`, `Tight`); the numbers are distinct (`run_tracked`) |
| C65 | `Once` on what is read as in C64 | a number is at one place only among the points that are returned or not yet merged; the inner points of reversed lines that are not used are never returned (`merge_once`, `out_returned`) |
| C66 | `Reported`, `Onward` (no merge to a point merged before) | if merges only go onward, a number stays at a point that is not merged, and except for differences these are returned (`merge_kept`, `out_returned`). For `normalize` there are no merges (`C66_normalize`). Otherwise the code violates the claim: `C66_lost`, `C66_again`, `C66_source` |
| C67 | `Encloses` on the loops of C52 | edges are pieces with two ends; without coincident edges by C53. The code violates the claim: `C67_flat` |
| C68 | `Alike`, `Turned` (rotated lists of vertices) | by C52 both results are given by the winding numbers of the input; for other polygons by C60 |
| C69 | `movePts`, `moveCmd`, `moveOut`, `told`; a map `shift` on every state of the model | every function of the model commutes with `shift` (`Lemmas/Shift.lean`), so whole runs do; `Params.Free` says that the open choices use differences of coordinates only, shown for the library with exact numbers and with doubles |
| C70 | `recolCmd`, `other`, `SameButSets`; a map `recol φ` on every state of the model that holds sets | forward simulation (`Lemmas/Recolor.lean`): if a run does not fail, the run with sets changed by `φ` gives the same, for every `φ` that the operation cannot see (`Blind`); used twice for the exchange, and with constant `φ` for union and normalize. `C70_difference` shows that difference has to be left out |
| C71 | `areaOf` (sum of `windingDir`), `given`, `exchanged`, `Plain` | a discrete form of Fubini's theorem (`Lemmas/Area.lean`): twice the area of a closed polygon is a sum over half-integer verticals of weighted heights, so winding numbers determine areas and order them (`area_le`). The relations then follow from winding numbers of results; for the exchanged difference the two first sweeps are compared by the simulation of C70 |
| C72 | `depthOf`, `Signed` | strict form of the comparison of areas (`area_pos` in `Lemmas/AreaPos.lean`): polygons that wind once around some place and nowhere backwards have positive area. The place is moved to a half-integer vertical after enlarging the polygons by an integer factor. Then by C53 and C54, induction over the depth |
| C73 | `Lin` (linear maps), `Lin.loop`, `Lin.polys`, `Lin.times` | winding numbers under linear maps (`Lin.good` in `Lemmas/WindLinear.lean`): direct for maps that keep verticals; the exchange of the coordinates by a potential on the four quadrants; other maps are products of these after enlarging. Crossings of the images are images of crossings, so C52 applies to both runs. Coordinates of crossings are fractions with the determinant of the two edges as denominator; a common multiple of the determinants is a sufficient factor |
| C74 | `Plan` (trees of operations), `Plan.truth`, `Gives` | induction over the plan: edges of results are parts of edges given, so edges of a result and of other lists also only meet at integer points, and C52 applies to each step. A run that ends is the same with every larger step count (`run_unique` in `Lemmas/Fuel.lean`), so what `Gives` says is what C52 is about. `C74_backwards` shows that lists that wind backwards around places have to be left out |
| C75 | `Py`, `Arg`, `Call`, `Ret` (Python objects, arguments as NumPy sees them, calls, how they end); `Held`, `holds` (what a user thinks is held) | simulation: the C++ object held agrees, but for members that do not matter (`strip`, C35), with a new one to which the polygons of `Held` were added. The full claim is false (`C75_left_behind`, `C75_type_kept`); the partial theorem leaves out sequences that fail after their first element and trees with a tracker |
| C76 | `Run`, `runsOf` (what `NpyIter` gives for an array with two columns; NumPy itself is trusted to do so), `Range`, `visit`, `readPts`, `copyTo`, `writePts`; memory is a function from addresses | induction over the runs or over the points of the one run. The claim is false if both strides are zero (`C76_broadcast`, `C76_past_end`) |
| C77 | `LeftIn` (winding numbers 1 and 0 at places near an edge) | edges returned that do not coincide meet only at their ends, so the winding number changes by one across each; it is 0 or 1 everywhere, so it is 1 to the left. The claim is false where edges coincide (`C77_flat`) |
| C78 | `finish`, `unaryOp`, `booleanOp`, `pyWindingDir`; `Ends` (how a call with valid polygons ends) | from the lemmas of C75 and from C76. Trees with a tracker raise exceptions (`C78_tree_raises`, from `C44_nested_origins_fail`) |
| C79 | `Junction` (vertex given or point of two edges that are not parallel), `Uncut` (an edge meets such edges only at its ends) | invariant of the first sweep: the ends of all lines are junctions, since a point reported is an end of one of two parallel lines or on two edges that are not parallel. The pieces of an edge cover it and lines meet only at their ends, so no piece is cut |
| C80 | `loadOffset`, `loadOffsets`, `offsetOp`; stated with the model of the C++ function `offset` | adding loops one by one to a clipper object and adding a range of loops store the same, since earlier calls of the tracker are only kept in front (`addOffset_prior`); induction over the polygons |
| C81 | `TreeWalk.tuple`, `visit`, `convert`; stated with containment of polygons in the plane | induction over the number of polygons inside a polygon; siblings have nothing inside in common since containment is laminar |
| C82 | `execute`, `winding_dir`; stated with winding numbers at rational places | a place inside one of two polygons has the winding numbers of a place beside one of their edges (`find_line`), where those of the other polygon are constant (C53); areas are compared by winding numbers as in C72 (`Props/Inner.lean`) |
| C83 | `execute`, `winding_dir`; stated with winding numbers at rational places | each polygon winds once or not at all around a place, so the sum has the parity of the number of polygons around it; by C82 these are the innermost one and those that contain it; by C72 the sign of that one is the parity of its depth |
| C84 | `execute` with tree output and a tracker, `origin_point_tracker`, reading of the loops | violated: following a line that is left out first merges its start into the anchor after it, which the tracker has no record of. Proved for all runs: reading works just if there are no merges (always so for `normalize`), and then the points returned are those of the first sweep, each once (TreeMerges) |
| C85 | `execute` with all operations, list and tree output | the output edges are the pieces of the first pass with a result that is not `discard`, some turned around; `normalize` discards none (`Shape.part`, `Shape.whole`). If edges meet only at their ends, no edge is bent: a first bend would be a junction inside an edge (`not_bent`) |
| C86 | `execute` with all operations, list and tree output | the edges returned are some of the pieces (C85), and the pieces of an edge never turn back along an axis (`Ahead`), so their extents add up to that of the edge; on a line the lengths are proportional to the extents |
| C87 | `execute` with several operations on the same polygons | the first pass does not depend on the operation, and the edges returned are exactly its lines that `line_balance::result` keeps (`Kept`); no line is kept by both union and intersection, and those kept by intersection or difference are kept by xor |

## Where the code and a property disagree

Each line names the theorem with a concrete case.

* `C05_plain_add_wrong`: the portable `addcarry`/`subborrow` loses a carry when an operand is
  all ones and a carry comes in.
* `C03_mul_defined_iff`: an unsigned N x 1 product reaches the end of a function without a
  return.  `C03_mulSmall_unsigned_overflow`: the product of two unsigned 32-bit values is
  computed in a signed 64-bit type.
* `C06_shiftRight_undefined`: shifting by the full width reads out of bounds.
* `C07_mixed_wrong`: a signed dividend with an unsigned divisor type gives a wrong remainder.
* `C08_exact_negative_wrong`, `C08_negative_divisor_wrong`: Euclidean division is wrong for
  exact quotients of negative dividends and for negative divisors.
* `C10_castInt_wide_wrong`: conversion to `__int128` shifts bytes.  `C10_toFloat_three_wrong`:
  conversion to floating point is wrong from three words on.
* `C12_windingDir_overflow`: the sum of `winding_dir` can overflow with many points.
* `C17_touching_not_reported`: collinear segments that touch at ends are not reported.
* `C22_overlap_cycle`: the order of lines in the sweep has cycles on overlapping lines.
* `C25_lost_vertex`, `C25_lost_triangle`, `C25_single`, `C25_zero_line`: adding a polygon loses a
  vertex at the place of the last stored vertex, reads out of bounds for one point, and stores
  a line of length zero for two copies of the first point at the end.
* `C35_tracker_kept`: `clipper::reset` leaves the tracker as it is.
* `C36_source_lost`, `C36_insert_second`, `C36_empty`: merging may exchange the sets; inserting a
  second single value breaks a set; `empty()` is inverted.
* `C66_lost`, `C66_again`, `C66_source`: parts that are cut off are followed in the order of the
  sweep, so points are merged into points that were discarded before and their numbers are lost,
  already for the intersection of two squares; for differences a merged point may be returned.
* `C37_tree_anchor`: with nested output the tracker is asked about points it has no record of.
  `C37_discard_rev`: origins of a chain discarded in reverse go to the other end.
* `C38_repeat_index`, `C38_leading_repeat`, `C38_spike`, `C38_open_trailing`: wrong indices with
  repeated points; no cap on a path that turns straight back; the next index is one too small
  after an open path.
* `C39_two`, `C39_lost`, `C39_none`: circles around a lone point miss one point, and small ones
  vanish.
* `C40_concurrent_diverges`: the rasteriser never ends on three sides through one place.
  `C40_dangling`: it reads a dangling reference when the events are reallocated.
* `C55_start_at_crossing_wrong`: a side that starts where two others cross gets a wrong place in the tree for good, and areas with winding number zero are filled.
* `C59_double_wrong`, `C59_outside`: with doubles a crossing with a horizontal line may be reported one unit beside it, and the union of two rectangles loses a corner.
* `C57_again_wrong`: the union of a union can lack a polygon: one of the polygons returned begins where the one before ended, and that vertex is lost when they are added again (C25).
* `C62_shrink_wrong`, `C62_grow_wrong`: shrinking a polygon by more than its half width does not remove it but turns it inside out
  and may return an area larger than the polygon; growing widens small holes instead of closing them.
* `C67_flat`: the union of three rectangles that touch has a polygon of two vertices.
* `C75_left_behind`: when `add_loops` of the Python binding raises an exception because of one polygon, the polygons before it stay in the object and are in the result of a later operation, although `execute` returns an empty tuple in between.
* `C75_type_kept`: when `execute` of `TrackedClipper` raises an exception (always with `tree_out`), the type of its polygons still determines the type of the next result, although the polygons are discarded.
* `C76_broadcast`, `C76_past_end`: of an array whose elements are all the same one in memory (`numpy.broadcast_to(v, (n, 2))`) only one point is read, and the clipper then reads past the end of its points.
* `C77_flat`: the intersection of two rectangles that only have a part of a side in common is not empty: it has a polygon of two vertices.
* `C78_tree_raises`: `union` and the other functions of the Python binding raise an exception for `tree_out` together with `track_points`, unless the result is empty.
* `C84_unreadable`, `C84_merge_fails`: with tree output, a tracker gets calls with points it has no record of whenever a part of a boundary is left out, for example for the union of two squares that overlap.
* Seen while reading, not proved: `add_offsets` of the Python classes passes the set on without `to_bool_set` (_polyops.pyx:646, 737), so that a number that is no set is stored in the points, whereas `add_loop`, `add_loops` and `add_offset` raise an exception. `Call` has no numbers for sets and no offsets.
* `C54_coincident_fails`: with tree output an internal check fails (a polygon finds no parent, or is left out of the tree without
  assertions) where three or more edges coincide: for normalising three rectangles, and for a union of triangles with spikes.
* `C41_outside`: shapes beside the image are drawn in its border column.
* `C42_height_wrong`, `C42_height_zero_wrong`: heights of crossings compare less than themselves
  if they are whole numbers that are not positive.
* `C43_size_wrong`, `C43_order_wrong`, `C43_stride_zero`: sizes and order of strided ranges.
* `C44_nested_origins_fail`: nested results with origins always raise a TypeError.
* `C45_back_order`: the choice among lines that lead straight back depends on their order.
* `C46_reset_differs`: a reset clipper continues its random sequence and may round differently.

Seen while reading, without a theorem: `whole_and_frac::round` (unused) is wrong;
`tclipper::add_loops_subject` and `_clip` do not compile when used; `_add_offsets` of the
binding does not check the set; the postfix `++` of `proto_loop_iterator` (clip.hpp:1613) does not
compile when used; the debug assertion polydraw.hpp:688 fails when a swap falls on
a whole row with edge events.

## Trusted base

* Lean's kernel, and at most the axioms `propext`, `Classical.choice`, `Quot.sound`.  There are no
  other axioms, no `sorry`, and no proof by compiled evaluation.
* The reading of the C++ source recorded in the citations.
* The simplifications listed above and at each definition.
