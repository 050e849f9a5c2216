# Formal model of foronoi in Lean 4 — design

Source: `/repo` (Yatoom/foronoi, Python).  Nothing of it is executed here; the model was written by
reading it.  Model, specifications and proofs are in `lean/Verif`:

* `Model/` — the model, function by function, each definition with the file and lines it models;
* `Spec/` — what the properties mean, stated without the helpers of the model (Voronoi diagram, polygon, links, trees, ...);
* `Proof/` — invariants, refinement, geometry;
* `Props/` — one theorem (or a few) per property, named after it (`C05_…`), and concrete cases that meet the hypotheses.

`MANIFEST.json` maps properties to theorems (written by `tools/mkmanifest.py`; `tools/mkprops.py` writes `properties.jsonl`).
`seeded/LOG.jsonl` is the record of faults seeded into the model and which theorems noticed them.

## Trusted base

* Lean 4.33 kernel, and the axioms `propext`, `Classical.choice`, `Quot.sound` for every theorem in the manifest (some use fewer);
  no `sorry`, `native_decide`, `bv_decide`, no own axioms.  Concrete runs are evaluated with `decide +kernel`, i.e. by the kernel.
* The reading of the Python source.
* The specifications in `Spec/`.
* Arithmetic, see below.
* CPython's `heapq` (Model/Heapq.lean) is modelled from its documentation and source, not from `/repo`; `sorted` is modelled as
  insertion sort (a stable sort), `set` of arcs as a list without order (the code never iterates over it during the sweep).

## Architecture of the model

*Objects are store entries.*  Python objects (half-edges, vertices, breakpoints, arcs, tree nodes,
circle events, points, observer lists) are natural-number references into stores inside a state record; object
identity is equality of references.  Methods are functions `state → Except Err (result × state)`
that follow the Python bodies statement by statement; exceptions are values
(`Err.attr` = AttributeError/TypeError on None, `Err.value` = ValueError of list.remove etc., `Err.index`,
`Err.assertion`, `Err.arith` = a Decimal signal, `Err.fuel` = the loop did not terminate within
the given number of iterations).  Loops and recursion through pointers take fuel; the theorems show
the fuel given is never exhausted.

*Arithmetic is a parameter.*  `Arith K` bundles the Decimal operations, the float/numpy operations
and the angle function as arbitrary functions on a linearly ordered type `K`.
 - **Level A** theorems hold for every such arithmetic (some assume `ArithLaws`, a few laws that Decimal's
   symmetric rounding satisfies: `(a-b)*(c-d) = (b-a)*(d-c)`, commutativity of `*`, `a-a = 0`, `2*0 = 0`, and `MidLt pts n`: the computed middle of two
   sites is not moved right to a third).  So they cover rounding.  Model/Decimal.lean is the rounding of the decimal module with any precision; `decLaws`
   proves the laws for it, and `decMid` proves `MidLt` for sites whose x-coordinates have less digits than the precision.  C105 shows that this is needed.
   Where a property says "every rounding behaviour", these laws are meant.
 - **Level C** theorems are about the instance `K = ℝ` with exact operations (Model/Real.lean): formulas and the
   geometric correctness of the sweep and of clipping.  Rounding of Decimal (28 digits) and of floats is not modelled there.
 - Model/Rat.lean (exact, with roots to 20 digits) and Model/Decimal.lean (rounded) are executable instances for concrete runs (witnesses and examples).

*Refinement.*  The sweep is described by relations between abstract states (`SiteFirst`, `SiteNext`, `CircNext`, `EvStep`): the tree is
the in-order list of its entries, the event queue is anything that meets `PQ.Spec` (C45 proves it for `heapq`).  A weakest precondition
calculus (Proof/Wp.lean) shows that the model of each method refines its relation and raises nothing outside a given set of
exceptions.  The invariant `Inv` is kept by every step; geometric invariants over ℝ are added on top of it with `reach_follow`.

## What is modelled

| file of /repo/foronoi | model | not modelled |
|---|---|---|
| algorithm.py | Model/Algorithm.lean, Model/Voronoi.lean | text of debug messages; `genesis_point` (never read) |
| graph/polygon.py, bounding_box.py | Model/Geometry.lean (numbers), Model/Algorithm.lean (clipping, border) | |
| graph/half_edge.py, vertex.py, point.py | Model/Dcel.lean, Model/Geometry.lean (shoelace), Model/AreaDigits.lean (`area(digits)`; numpy's `round` as product, `rint`, quotient) | `HalfEdge.removed` (never read), `__repr__` |
| graph/algebra.py, coordinate.py | Model/Geometry.lean | conversion of coordinates between `str`, float and Decimal is two functions `toF`, `ofF` |
| nodes/*.py | Model/Geometry.lean, Model/Algorithm.lean, Model/Visualizer.lean (labels) | |
| tree/node.py, tree/tree.py | Model/Tree.lean, Model/Avl.lean | the recursion limit of Python, except for `update_heights` (Model/Recursion.lean) |
| events/*.py | Model/Geometry.lean, Model/Algorithm.lean | `arc_triple` (never read) |
| contrib/bounding_circle.py | Model/BoundingCircle.lean | the dummy visualizer, warnings |
| observers/*.py | Model/Observers.lean, Model/Notify.lean (observers that change the lists while being notified) | |
| visualization/*.py | Model/Visualizer.lean, Model/VisCircle.lean, Model/VisArgs.lean (optional arguments): a picture is the list of calls on the canvas; the two option presets (Model/Observers.lean) | matplotlib itself: figures, limits, line styles, `show`; optional lists of objects; zorder |

Not modelled anywhere: NaN and overflow, blocking of `PriorityQueue`, threads.

## Assumptions on sites and polygon

Spec/Clipping.lean has them in steps.  `FitsPolygon` (C65): convex, no Voronoi vertex on the border, the clipping line low enough; sites may be outside.
`FitsCorners` (C70–C72, C74–C75, C86–C93, C100, C101, C110, C112, C116, C119): also the first corner is in one cell only, and the polygon is one the constructor makes.
`FitsBorder` (C73, the last part of C74): also every cell meets the inside.  Statements on a single cell take `Shown`: it meets the inside and is not a bounded cell that covers
the polygon; C119 says what happens otherwise.  C95 derives all of these from coordinates.

## Tests of the model

The library is not run.  Its own unit tests are run on the model instead: `tools/conformance/run.sh` turns the data of /repo/foronoi/tests/unit.py into a Lean file
and evaluates the model with the rounding of `decimal` (28 digits) and of floats.  All 23 test cases give the expected numbers, in two of them all coordinates to
the last bit and the order of `connected_edges` (`tools/conformance/RESULT.txt`).  Of the seven areas in the README five agree to the last bit and two differ in it
(the order of summation in `numpy.dot` is not modelled); the order of the vertices given there is that of the model.  Verif/Tests/Unit.lean has some of the test
cases as kernel-checked examples.  None of this is used by a theorem.

## Where the code disagrees with the property

The property is kept as it is and marked `partial`; the negation is proved with a concrete witness or for all inputs, and stated as a property of its own.

* C18/C51/C52: `Tree.delete` raises on every node with two children; deleting the root leaves a stale parent pointer.
* C17/C53: keys that are equal are never rebalanced.
* C28/C49: the clip point can lie beyond the end of the ray.
* C29/C46, C63: the sweep line used for clipping can be too high, so a Voronoi edge is lost; a Voronoi edge wholly outside can come back inside.
* C36/C47, C59: the clean-up of zero-length edges iterates over a list it changes; it can drop a vertex that is in use or raise. C112: it does so exactly where four cells meet inside the polygon.
* C39/C55: `create_diagram` raises with every `BoundingCircle`.
* C43/C57: keyword settings of one `VoronoiObserver` leak into the others (shared `dict` of the presets).
* C44/C68, C108: the status tree of a row of sites is a path, and a long row exceeds the recursion limit.
* C125: also without rows the status tree gets out of balance and caches wrong heights.
* C66, C67: an object or a polygon cannot be used for a second diagram.
* C78, C79, C83: labels of arcs can be wrong, `plot_all` never draws triangles, and a canvas with its top at height 0 loses the edges between topmost sites.
* C97: the corner of a side that is a diagonal of the box of the polygon comes before the other vertices of this side, so the border runs backwards.
* C98: a polygon that is not convex can be replaced by another one with the same corners.
* C99: the theorems on finished diagrams allow any corner but the first to be on the border of two cells. Where the first corner is on the border of two cells, a half-edge without length can be noted for the wrong site, then the area can be wrong and the clean-up can raise.
* C104: `create_diagram` can raise `decimal.InvalidOperation` on small integers. C105: coordinates with 28 digits break the beach line.
* C109: an observer that detaches itself keeps the message from the next one.
* C113: `plot_polygon` draws a `BoundingCircle` around `(x, x)`.
* C114/C115: `inside` counts half of the border as inside; a Voronoi vertex on the border leads to cells of area 0, to cells that get the whole box, or to an AssertionError.
* C116: the documentation takes `edge.twin.next` for `edge.prev`; it never is.
* C117: a site given twice is accepted; below the top row the diagram is then wrong, without an error.
* C118, C119: a site whose bounded cell lies outside the polygon, or covers it, keeps a deleted first edge; its area raises TypeError.
* C121: an empty list of objects to draw, or a sweep line at height 0, is taken for a missing argument.
* C56: attaching an observer to a child attaches it to the parent as well (shared list).

Further disagreements seen while reading, without a property: `max_y or inf` treats a top at height 0 as missing; a float `canvas_offset`, as documented, cannot be added to a Decimal.

## How each property is proved

| id | what is modelled | how it is proved |
|----|------------------|------------------|
| C01, C66, C67 | `create_diagram` on new and used objects and polygons | Level A, frame of the run; C67: every first diagram |
| C02 | event loop, names | Level A, invariant over handled events + min-pop spec |
| C03 | `Event.__lt__` | case analysis over a linear order |
| C04 | event loop | Level A, measure: sites left, arcs, queue size |
| C05 | whole sweep with exceptions as values | Level A, global invariant `Inv`, weakest preconditions that forbid every error but `arith` |
| C06–C12 | whole sweep | Level A, components of `Inv` |
| C13–C16 | pointer tree (`Node`, `Tree`) | representation predicate + zipper contexts, induction over contexts |
| C17, C18, C51–C54 | `Tree.insert`, `delete`, `find`, `get_leaves` | functional AVL model refined by the pointer program |
| C19–C22 | formulas over ℝ | algebra |
| C23–C26 | sweep over ℝ | Level C invariant (sorted breakpoints, lower envelope), intermediate value theorem between events |
| C27, C32–C34, C36, C37, C47, C48, C59 | clipping, closing, clean-up | Level A |
| C28, C30, C31, C35, C38, C49, C50 | polygon/area/circle formulas over ℝ | algebra, induction over lists |
| C40–C43, C56, C57 | observers | state machine, induction over call sequences |
| C44, C68 | status tree | Level A, invariant over all states |
| C45 | heapq | heap invariant over lists; refines `PQ.Spec` |
| C58 | `create_diagram` over ℝ | no exception outside clean-up |
| C60–C62, C64 | sweep over ℝ | completeness: empty circles touching two sites are known edges, by induction over events |
| C69 | sweep over ℝ | invariant: two half-edges between the same cells lie one behind the other on the bisector; with C64 one of them has no length |
| C65 | clipping of the finished sweep | Level C on convex polygons with no Voronoi vertex on the border; an edge whose breakpoint at the clipping line lies before its vertex is shown to miss the polygon |
| C70 | border edges of the result | Level C: a kept edge meets the border only in its ends, consecutive border vertices have one cell between them, the order of the angles is the order along the border |
| C71 | `borders` on the result | Level C: `next` closes up inside each cell, a closed chain winds around the cell (every ray from the interior meets it), the cell has one chain, the clean-up only skips edges without length |
| C72 | `area` on the result, Lebesgue measure | Level C: the triangles from an inner point to the edges of a cell cover it and overlap in null sets (Mathlib measure theory), their areas add up to the shoelace formula |
| C73 | `area` of all sites | Level C: C72, cells cover the polygon and overlap on bisectors, which are null sets |
| C74 | clean-up over ℝ | invariant of the sweep: an edge without length is the one registered last at its start (above a site no arc has width zero at its site event); so edges without length start at different vertices, and the links stay in the cells |
| C75 | clean-up over ℝ | the third cells at the two ends of an edge lie on different sides; a border edge without length is at a corner between two cells |
| C76–C78 | picture of the beach line | Level C: the set of arcs is the set of leaves of the tree (invariant `ASet`), lower envelope C24; C78 is a concrete run |
| C79 | `plot_all` | every state and option: no call of the list is a triangle |
| C80–C83 | picture of edges and vertices during the sweep | Level C: ends of a line are vertices or breakpoints (`end_at`), so both are on the bisector and on or above the beach line (`KInv`, `GInv`); completeness from `Known`; C83 is a concrete run |
| C84–C85 | text and graph of the status tree | Level A: from the shape of the tree (C12) by induction on it |
| C86–C87 | picture of the finished diagram | Level C: ends of listed half-edges are vertices with positions (`Finish.listed`); C65, C70, C71 |
| C88 | vertices of the result | Level C: vertices at one place are connected by edges without length (`place_linked`: around the circle of nearest sites by induction over chords); each such edge is registered last at its older end, so they form a tree whose root survives |
| C89 | vertices of a site | Level C: half-edges of a cell start at corners, border crossings and Voronoi vertices, none of which lies between two points of the cell; the walk of C71 has positive edges after the clean-up and turns around an inner point, so it visits each extreme point once (`Star.polygon`) |
| C90–C91 | connected edges and target in the result | Level C: `DInv` gives the lists at the end of the sweep, `FP` those of the border; the clean-up keeps "lists exactly what starts here" (`CU.reg`); `next` and `twin` agree on the end of a half-edge by `DInv.nx` inside and by the walk along the border (`Closing.cell_next'`) outside |
| C92 | deleting twice | Level A: `delete` removes the half-edge from a list without repetitions; with C90 for the result |
| C93 | numbers of vertices and edges of the result | Level C: each closed chain (a cell of C71, or the border) has exactly one point entered from above (`Loop.count`); each vertex is entered by exactly one cell and by the border or not at all, so counting half-edges that go down gives Euler's formula; the clean-up drops one vertex with each edge (`Finish.removed`); with the degrees of C90 the exact numbers |
| C94 | constructor of `Polygon` | Level C: the centre is on the right of each side (an affine function that is ≥ 0 at the four extreme corners is ≥ 0 at the centre), so the angles of the corners go down along the border with one jump; a sorted permutation of a rotated strictly sorted list is the rotated list |
| C95–C96 | assumptions of C65–C93 | Level C: from coordinates of the box; moving up changes distances from the origin but no Voronoi cell; volumes are invariant under translation |
| C97 | border of the result, equal angles | Level A: insertion sort is stable, corners are listed first, and between two equal keys of a sorted list all keys are equal |
| C98 | constructor of `Polygon` | Level A: minimum, maximum and sorting with different keys depend only on the multiset |
| C99 | border of the result | concrete run |
| C100 | corners of the result | Level C: a corner between two cells is the end of exactly one kept edge, whose vertex has the same angle and so is the next in the walk along the border (`inj_turn`, `turn_at`) |
| C101 | clean-up over ℝ | C75; conversely, if four cells meet in a point, a half-edge of each starts there, so with one vertex (C88) four would start at it, against C90; for corners C88 and C100 |
| C102 | sweep, clipping, clean-up with rounding to p digits | Level A theorems with `decLaws`, `decMid`: between two numbers with less than p digits there is one with p digits at or above the middle (`digits_between`); `rnd_rounds`, `rndSqrt_roundsTo` for the operations |
| C103 | `create_circle` with rounding | all results before the division are integers times a power of ten with at most p digits, so exact (`Exact`) |
| C104, C105 | sweep with rounding | kernel evaluation over `Dec 28` |
| C106 | `cut_line`, `finish_edges` of the circle | `Spec/Disc.lean`; frame argument over the list of half-edges |
| C107 | `_check_circles` | the refinement step `EvStep`, case by case |
| C108 | recursion limit | simulation between the limited and the unlimited run; the depth of the tree of a row (C68) |
| C109 | `notify_observers` with changes | Python's iteration by index; induction over the list |
| C110, C111, C113 | arrows, circle events and bounding circles in pictures | C90, C112; invariant of the event handled last (reachable states); algebra |
| C112 | clean-up, entries skipped by the loop | induction over the list of edges; the oldest of the vertices at one place (C88) |
| C114 | `inside` on the border | limits from the right and from above, side by side |
| C115 | Voronoi vertex on the border | kernel evaluation with decimal rounding |
| C116 | `prev` in the result | C71; sides of an edge differ (C09) |
| C117 | site given twice | kernel evaluation with decimal rounding |
| C118 | sites outside the polygon | kernel evaluation with decimal rounding; C65–C96 allow sites outside (`FitsPolygon.touch` in Spec/Clipping.lean) |
| C119 | areas for sites anywhere | Proof/CellAny.lean: `Finish.first_lost`, `Finish.first_none`; the rest is C72 for cells that are `Shown` |
| C120 | `plot_all` | each call on the canvas tells by its kind and colour which part it belongs to (`Draw.part`); then C86, C87, C88, C110 |
| C121 | optional arguments of the drawing methods | Model/VisArgs.lean; C71, C89, C119 |
| C122 | sites anywhere, moved up | Props/AnyMoved.lean: C96 and C119 |
| C123 | sum of the areas for sites anywhere | Props/AnyMoved.lean: C119, and the measure of the union of the cells (C75) |
| C124 | float to decimal and back | Proof/Shortest.lean: `RoundsTo.unique`, `digits_gap`, `no_between`; specification in Spec/Rounding.lean |
| C125 | cached heights, balance of the status tree | Proof/Heights.lean: induction on the tree (`wp_up`, `subst_holds`); two kernel runs |
| C126 | order of the sites, unit, horizontal moves | Proof/Symmetry.lean: the assumptions and the exact characterisations (C86, C88, C119) are carried over by the similarity |
| C127 | more sites | Props/Symmetry.lean: from the exact areas (C119) |
| C128 | neighbours of a cell | Props/Neighbours.lean: from the borders (C71) and the edges of the sweep (C65, C69) |
| C129 | area(digits) | Props/AreaDigits.lean: from the exact areas (C119) and the relative error of rounding (Proof/Shortest.lean) |
| C130 | decidable sufficient condition, README example, test inputs | Spec/Checkable.lean, Props/Checkable.lean: casts to the reals, centres of circles through three sites, maximum of a convex function at a corner (Proof/ExtremeMax.lean: at an extreme point of an intersection of half-planes); Props/TestInputs.lean: kernel evaluation |
| C131 | labels at the middle of each edge, exactly for the neighbours | Props/FinalLabels.lean: C128_neighbours and C65_edges_sound on the drawings of plotEdges |
| C132 | turned, mirrored, moved, enlarged input gives the turned, mirrored, moved, enlarged result | Spec/Motion.lean, Proof/Motion.lean: signed areas, reversed corners, determinant; Props/Motion.lean |
| C133 | pointers and points drawn for one site | Props/VisPointers.lean: both half-edges of each given edge (VisFinal), borders (C71), neighbours (C128) |
| C134 | same sites in a part of the polygon | Props/SubPolygon.lean: areas are volumes of cells (C119), the border of a polygon has volume 0; final picture (C86) and vertices (C88) |
| C135 | areas depend continuously on the input | Props/Continuous.lean: cells converge except on their borders, which have volume 0; dominated convergence |
| C136 | small changes of a stable input are harmless | Spec/Stable.lean, Proof/Stable.lean, Props/Stable.lean: each part of Stable is open (compactness of the sides); general position gives FitsBorder (C95) |
| C137 | the points a caller gets back | Props/Call.lean: borders (C71), areas (C72), success (C74), decidable condition (C130) |
| C138 | the exception raised with a bounding circle | Props/CircleError.lean |
| C139 | bounds on the size of the diagram | Props/Planar.lean: outermost sites are on the last beach line (known_end), following prev from the left side of an edge that starts at infinity ends at one, counting |
| C140 | which cells are unbounded | Props/Hull.lean: outermost_arc and open_of_arc of C139, C64_edge_exists for a tie at the top, C64_points_nearest for points far behind on the bisector, compactness of the circle of directions |
| C141 | exact size of the diagram | Props/ExactSize.lean: far points of two rays of one site (C64_points_nearest) put all sites on one side of each, C69_no_duplicate, three half-edges per vertex, C140 |
| C142 | order of the unbounded edges | Props/HullOrder.lean: far points of the bisector, C64_edge_exists and C64_edge_exact one way, ray_side (Props/ExactSize.lean) the other way |
| C143 | nearest sites are neighbours | Props/NearestSite.lean: the middle of the two sites is nearest to these two only, C128_across |
