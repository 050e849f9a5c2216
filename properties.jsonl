{"id": "C01", "title": "Sites are reported in input order with their coordinates", "statement": "After create_diagram(points), v.sites has exactly one Point per input pair, in input order, with the input's coordinates; nothing the sweep does moves, drops, duplicates or reorders a site.", "quantifier": "every finite list of input points, every arithmetic/rounding behaviour", "why_tests_cant": "the list length and the history of events are unbounded; a test sees a few lists only", "anchors": ["foronoi/algorithm.py: Algorithm.initialize, Algorithm.create_diagram", "foronoi/graph/point.py: Point"]}
{"id": "C02", "title": "Sites are named 0..n-1 in sweep order", "statement": "After the sweep the site names are exactly 0,1,...,n-1, each used once, and a smaller name never belongs to a site that comes later in sweep order (top to bottom, ties left to right).", "quantifier": "every list of input points and every tie-breaking behaviour of the priority queue", "why_tests_cant": "needs the queue to be right for every interleaving of site and circle events", "anchors": ["foronoi/algorithm.py: Algorithm.create_diagram", "foronoi/events/event.py: Event.__lt__"]}
{"id": "C03", "title": "The event order is a strict weak order: top first, then left, then circle before site", "statement": "Event.__lt__ is irreflexive, transitive, and its incomparability is an equivalence; a<b holds iff a is higher, or equally high and further left, or at the same place and a is a circle event while b is a site event.", "quantifier": "every pair/triple of events with comparable coordinates", "why_tests_cant": "a law over all triples; heap correctness silently depends on it", "anchors": ["foronoi/events/event.py: Event.__lt__, Event.__eq__", "foronoi/events/site_event.py", "foronoi/events/circle_event.py: CircleEvent.yd"]}
{"id": "C04", "title": "The event loop terminates", "statement": "create_diagram's sweep handles every site exactly once and at most 2n-3 circle events, and takes at most 7n events out of the queue, so it cannot loop forever.", "quantifier": "every list of n points, every arithmetic/rounding behaviour", "why_tests_cant": "termination over unbounded inputs; a test can only observe that it stopped on a sample", "anchors": ["foronoi/algorithm.py: Algorithm.create_diagram, handle_site_event, handle_circle_event, _check_circles"]}
{"id": "C05", "title": "The sweep never fails on a broken link", "statement": "During the sweep no None is dereferenced, no list.remove misses, no assertion fails: the only exceptions the sweep can raise are arithmetic signals of Decimal (division by zero, square root of a negative number).", "quantifier": "every list of points, every rounding behaviour that obeys the sign-symmetry laws of Decimal, every event history", "why_tests_cant": "absence of a crash over all histories of the mutable tree/queue/edge structure", "anchors": ["foronoi/algorithm.py: handle_site_event, handle_circle_event, _update_breakpoints", "foronoi/tree/tree.py", "foronoi/tree/node.py"]}
{"id": "C06", "title": "Twin half-edges mirror each other", "statement": "For every half-edge e the library ever creates, e.twin exists, is a different half-edge, and e.twin.twin is e; in the result e.target is e.twin.origin.", "quantifier": "every half-edge in every reachable state of every run, before and after clipping, polygon closing and clean-up", "why_tests_cant": "invariant of a mutable pointer structure over all histories", "anchors": ["foronoi/graph/half_edge.py: HalfEdge.__init__, HalfEdge.twin, HalfEdge.target", "foronoi/algorithm.py"]}
{"id": "C07", "title": "next/prev links are coherent during the sweep", "statement": "In every state an observer can see during the sweep, if e.next is f then f.prev is e, f has the same incident site as e, and f starts at the vertex where e ends; likewise for prev; and e.next is set exactly when e's end is already a vertex.", "quantifier": "all half-edges, all reachable states", "why_tests_cant": "pointer invariant over unbounded histories", "anchors": ["foronoi/graph/half_edge.py: HalfEdge.set_next", "foronoi/algorithm.py: handle_circle_event"]}
{"id": "C08", "title": "Every vertex found by the sweep joins exactly three edges", "statement": "Each vertex created by a circle event has exactly three connected edges, all different, all originating at that vertex, and the three edges separate the three pairs of the three sites of the event.", "quantifier": "all vertices in all reachable states", "why_tests_cant": "pointer invariant over unbounded histories", "anchors": ["foronoi/algorithm.py: handle_circle_event", "foronoi/graph/vertex.py: Vertex.connected_edges"]}
{"id": "C09", "title": "The two sides of an edge belong to different sites", "statement": "Every half-edge made by the sweep has an incident site among v.sites, different from the incident site of its twin, and is listed at most once: v.edges holds exactly one half of each edge.", "quantifier": "all half-edges in all reachable states", "why_tests_cant": "pointer invariant over unbounded histories", "anchors": ["foronoi/algorithm.py: handle_site_event, handle_circle_event", "foronoi/graph/half_edge.py: HalfEdge.incident_point"]}
{"id": "C10", "title": "Edge and vertex counts satisfy Euler's relation", "statement": "After the sweep of n>=1 sites, |edges| = (n-1) + |vertices| and |vertices| <= 2n-3 (n>=2), so the diagram has linear size.", "quantifier": "every list of points, every rounding behaviour", "why_tests_cant": "a counting invariant over all runs", "anchors": ["foronoi/algorithm.py: handle_site_event, handle_circle_event"]}
{"id": "C11", "title": "Valid circle events always describe the current beach line", "statement": "In every reachable state, a circle event in the queue that is still valid points to an arc that is on the beach line and whose left and right neighbours are arcs of the first and third site of its point_triple; no arc has two valid events.", "quantifier": "all reachable states of the queue and beach line", "why_tests_cant": "false-alarm removal has to be right for every interleaving of events", "anchors": ["foronoi/events/circle_event.py: CircleEvent.remove, create_circle_event", "foronoi/algorithm.py: _check_circles, handle_site_event, handle_circle_event"]}
{"id": "C12", "title": "The status tree is a well formed beach line", "statement": "In every reachable state the status tree is a full binary tree with correct parent pointers whose leaves are the arcs left to right, and the internal node between two neighbouring arcs stores exactly the ordered pair of their two sites.", "quantifier": "all reachable states", "why_tests_cant": "pointer structure invariant under rotations, splits and removals", "anchors": ["foronoi/tree/node.py", "foronoi/tree/tree.py", "foronoi/algorithm.py: handle_site_event, _update_breakpoints", "foronoi/nodes/breakpoint.py"]}
{"id": "C13", "title": "Rebalancing never reorders the tree", "statement": "rotate_left, rotate_right, balance and balance_and_propagate keep the in-order sequence of nodes, keep every parent/child link consistent, never dereference None, and return the root of the whole tree.", "quantifier": "every tree shape and every choice of (possibly stale) cached heights with leaves at height 1 and inner nodes at height >= 2", "why_tests_cant": "holds for all shapes/sizes, including stale cached heights", "anchors": ["foronoi/tree/tree.py: Tree.rotate_left, rotate_right, balance, balance_and_propagate", "foronoi/tree/node.py: Node.height"]}
{"id": "C14", "title": "successor/predecessor of an arc are its neighbours on the beach line", "statement": "For every leaf of a full binary tree, successor (predecessor) is the next (previous) leaf in left to right order, or None at the end.", "quantifier": "all full binary trees, all leaves", "why_tests_cant": "all shapes and sizes", "anchors": ["foronoi/tree/node.py: Node.successor, Node.predecessor, minimum, maximum"]}
{"id": "C15", "title": "A breakpoint is always found again by its pair of sites", "statement": "Tree.find_value with a fresh Breakpoint(p,q) as query returns the node storing (p,q) whenever one is in the tree, whatever the keys of other nodes are (even if rounding made the tree unsorted), and None otherwise.", "quantifier": "all trees, all key functions, all queries", "why_tests_cant": "holds for all (even unsorted) trees", "anchors": ["foronoi/tree/tree.py: Tree.find_value", "foronoi/algorithm.py: _update_breakpoints"]}
{"id": "C16", "title": "find_leaf_node locates the arc above a point", "statement": "Searching a tree whose breakpoints are sorted, find_leaf_node(x) returns the leaf whose left breakpoint is <= x and whose right breakpoint is >= x.", "quantifier": "all full binary trees with sorted keys, all keys x", "why_tests_cant": "all shapes and sizes", "anchors": ["foronoi/tree/tree.py: Tree.find_leaf_node"]}
{"id": "C17", "title": "The AVL insert keeps order and balance", "statement": "Tree.insert of a key not yet in the tree gives a binary search tree with exactly one more key, balanced at every node, with correct cached heights.", "quantifier": "all insertion sequences of distinct keys", "why_tests_cant": "unbounded insertion histories", "anchors": ["foronoi/tree/tree.py: Tree.insert"]}
{"id": "C18", "title": "Tree.delete removes a key", "statement": "Tree.delete(root,key) removes the key from the tree and keeps the remaining keys in order.", "quantifier": "all trees and keys", "why_tests_cant": "unbounded; in fact the two-children case raises AttributeError (temp.value)", "anchors": ["foronoi/tree/tree.py: Tree.delete"]}
{"id": "C19", "title": "create_circle computes the circumscribed circle", "statement": "create_circle(a,b,c) returns False iff a,b,c are collinear; otherwise the centre is at distance radius from all three points, and is the only such point.", "quantifier": "all triples of points, exact arithmetic", "why_tests_cant": "an identity over all real coordinates", "anchors": ["foronoi/events/circle_event.py: CircleEvent.create_circle"]}
{"id": "C20", "title": "check_clockwise decides the turn direction", "statement": "For three points on a circle around center, check_clockwise(a,b,c,center) is true iff a,b,c are met in clockwise order.", "quantifier": "all triples on all circles, exact arithmetic", "why_tests_cant": "a trigonometric statement over all reals including wrap-around of angles", "anchors": ["foronoi/graph/algebra.py: Algebra.check_clockwise, calculate_angle"]}
{"id": "C21", "title": "Breakpoints lie on both parabolas and are the right one of the two intersections", "statement": "Breakpoint((p,q)).get_intersection(l) for l below both sites returns a point equidistant from p, q and the sweep line; immediately to its left the arc of p is lower and to its right the arc of q is lower. This holds whenever p and q differ in height or p is left of q; if they are equally high and p is right of q the result is the middle abscissa with height max_y (infinity if max_y is missing or 0).", "quantifier": "all pairs of distinct sites and all sweep line positions, exact arithmetic", "why_tests_cant": "an identity and root choice over all real coordinates", "anchors": ["foronoi/nodes/breakpoint.py: Breakpoint.get_intersection, does_intersect"]}
{"id": "C22", "title": "Arc plots are the parabola of the site and the sweep line", "statement": "Arc.get_plot(x, l) returns for every x the y such that (x,y) is equidistant from the site and the sweep line, and None iff the site lies on the sweep line.", "quantifier": "all sites, x and sweep lines, exact arithmetic", "why_tests_cant": "an identity over all reals", "anchors": ["foronoi/nodes/arc.py: Arc.get_plot"]}
{"id": "C23", "title": "The sweep line only moves down and no arithmetic exception occurs", "statement": "With exact arithmetic and distinct sites the sweep line never moves up, every circle event is scheduled at or below the sweep line, and no division by zero or square root of a negative number happens.", "quantifier": "all lists of distinct sites", "why_tests_cant": "needs the geometric invariant of the beach line over all histories", "anchors": ["foronoi/algorithm.py: create_diagram, _check_circles", "foronoi/nodes/breakpoint.py"]}
{"id": "C24", "title": "The beach line is the lower envelope of the parabolas", "statement": "With exact arithmetic, at every event the arcs in the status tree, cut at their breakpoints, are exactly the lower envelope of the parabolas of the sites seen so far.", "quantifier": "all lists of distinct sites, all reachable states", "why_tests_cant": "geometric invariant over all histories", "anchors": ["foronoi/algorithm.py: handle_site_event, handle_circle_event"]}
{"id": "C25", "title": "Every vertex is a Voronoi vertex", "statement": "With exact arithmetic every vertex produced by the sweep is equidistant from at least three sites and no site is closer to it.", "quantifier": "all lists of distinct sites, all vertices produced", "why_tests_cant": "global geometric correctness over all inputs", "anchors": ["foronoi/algorithm.py: handle_circle_event"]}
{"id": "C26", "title": "Every bounded edge is a Voronoi edge", "statement": "With exact arithmetic, every point of an edge between two sweep vertices is equidistant from the edge's two incident sites and no site is closer.", "quantifier": "all lists of distinct sites, all edges, all points of the edge", "why_tests_cant": "global geometric correctness over all inputs", "anchors": ["foronoi/algorithm.py: handle_site_event, handle_circle_event"]}
{"id": "C27", "title": "Every listed edge ends in real vertices", "statement": "After create_diagram every edge in v.edges has an origin and a target that are Vertex objects with coordinates; edges that could not be clipped are deleted from the list.", "quantifier": "all inputs, all rounding behaviours", "why_tests_cant": "invariant over all runs incl. clipping failures", "anchors": ["foronoi/graph/polygon.py: finish_edges, _finish_edge, finish_polygon"]}
{"id": "C28", "title": "Clip points lie on the polygon and on the edge", "statement": "With exact arithmetic the point computed by _get_intersection_point lies on the boundary of the bounding polygon and on the ray from the fixed end towards the moving end; it is within the ray's length and furthest among the crossings.", "quantifier": "all polygons and rays", "why_tests_cant": "the filtered/unfiltered index mismatch needs the right combination of crossings to show", "anchors": ["foronoi/graph/polygon.py: _get_intersection_point", "foronoi/graph/algebra.py: line_ray_intersection_point, get_intersection"]}
{"id": "C29", "title": "The clipping sweep line is low enough", "statement": "The breakpoint position used to clip a half-infinite edge is outside the bounding polygon, so that the edge is cut at the border.", "quantifier": "all polygons containing the sites", "why_tests_cant": "false for wide flat polygons or max_y = 0; a sample of tall boxes never shows it", "anchors": ["foronoi/graph/polygon.py: _finish_edge", "foronoi/nodes/breakpoint.py: get_intersection (max_y or inf)"]}
{"id": "C30", "title": "BoundingBox.inside is the half-open rectangle", "statement": "BoundingBox(l,r,b,t).inside(p) holds iff l <= p.x < r and b <= p.y < t, and its points are ordered clockwise from the top-left corner.", "quantifier": "all boxes with l<r, b<t, all points", "why_tests_cant": "boundary behaviour over all reals", "anchors": ["foronoi/graph/bounding_box.py", "foronoi/graph/polygon.py: inside, _order_points"]}
{"id": "C31", "title": "inside() is the even-odd rule and is exact on convex polygons", "statement": "Polygon.inside(p) is true iff the leftward-open ray from p crosses an odd number of polygon sides; for a clockwise convex polygon every strictly interior point is inside and every point strictly outside one side line is not.", "quantifier": "all polygons, all points", "why_tests_cant": "all reals, unbounded number of sides", "anchors": ["foronoi/graph/polygon.py: inside"]}
{"id": "C32", "title": "With one site the cell is the whole polygon", "statement": "For a single input site, its borders are exactly the polygon sides in clockwise order, closed into a cycle, all with that site as incident point, and its vertices are the polygon corners.", "quantifier": "all polygons (any number of corners), any arithmetic", "why_tests_cant": "unbounded number of corners", "anchors": ["foronoi/graph/polygon.py: finish_polygon", "foronoi/graph/point.py: Point.borders"]}
{"id": "C33", "title": "finish_polygon closes the boundary", "statement": "finish_polygon adds one edge per consecutive pair of boundary vertices in angular order; each new edge starts and ends there, its next edge is the Voronoi edge leaving the end vertex if there is one and the following border edge otherwise, and every incoming Voronoi edge continues with the border edge.", "quantifier": "all lists of boundary vertices with at most one attached Voronoi edge each", "why_tests_cant": "unbounded lists, aliasing of first and last vertex", "anchors": ["foronoi/graph/polygon.py: finish_polygon"]}
{"id": "C34", "title": "borders() terminates and returns each border once", "statement": "On a coherent edge structure site.borders() terminates, starts with first_edge, follows next links, never repeats an edge, and every returned edge has the site as its incident point.", "quantifier": "all reachable states of the sweep, all sites", "why_tests_cant": "termination over all pointer graphs reachable", "anchors": ["foronoi/graph/point.py: Point.borders, Point.vertices"]}
{"id": "C35", "title": "Cell area is invariant and matches the shoelace area", "statement": "area() is non-negative, does not depend on which vertex the border list starts with nor on its direction, is translation invariant, scales quadratically, equals half the determinant for triangles and adds up when a cell is split along a diagonal.", "quantifier": "all vertex lists, exact arithmetic", "why_tests_cant": "an identity over all lists of all lengths", "anchors": ["foronoi/graph/point.py: Point.area, Point._shoelace, Point._get_xy"]}
{"id": "C36", "title": "Zero length edges are removed without losing vertices", "statement": "After create_diagram with remove_zero_length_edges no edge in v.edges has equal endpoints, and every remaining edge starts at a vertex that is listed in v.vertices.", "quantifier": "all inputs", "why_tests_cant": "the second half is false: the clean-up removes from the list it iterates over and skips every second edge", "anchors": ["foronoi/algorithm.py: clean_up_zero_length_edges", "foronoi/graph/half_edge.py: HalfEdge.delete"]}
{"id": "C37", "title": "Deleting an edge re-links its neighbours", "statement": "On a coherent edge structure HalfEdge.delete never raises, links prev and next, removes the edge from its origin's connected edges, and keeps first_edge a live edge of the same site or None.", "quantifier": "all coherent edge structures", "why_tests_cant": "pointer structure of unbounded size", "anchors": ["foronoi/graph/half_edge.py: HalfEdge.delete"]}
{"id": "C38", "title": "Bounding circle cutting is exact", "statement": "BoundingCircle.get_line gives a line through both points; cut_circle returns the two points of that line at distance radius from the centre; inside is the open disc.", "quantifier": "all circles and lines that meet, exact arithmetic", "why_tests_cant": "an identity over all reals", "anchors": ["foronoi/contrib/bounding_circle.py: get_line, cut_circle, inside, on_line, cut_line"]}
{"id": "C39", "title": "Bounding circles work with create_diagram", "statement": "create_diagram with a BoundingCircle completes and yields a list of edges.", "quantifier": "all point lists", "why_tests_cant": "false for every input: finish_edges returns a tuple, finish_polygon appends to it", "anchors": ["foronoi/contrib/bounding_circle.py: finish_edges", "foronoi/algorithm.py: create_diagram"]}
{"id": "C40", "title": "Observers see every step in order", "statement": "During create_diagram each attached observer gets, in attachment order, one STEP_FINISHED per handled event at which sweep_line equals the event's y, then one SWEEP_FINISHED, then one VORONOI_FINISHED last.", "quantifier": "all runs, all observer lists", "why_tests_cant": "message history over all runs", "anchors": ["foronoi/algorithm.py: create_diagram", "foronoi/observers/subject.py", "foronoi/observers/voronoi_observer.py: update"]}
{"id": "C41", "title": "attach/detach/inherit keep observer lists right", "statement": "After any sequence of attach/detach calls the subject's observers are exactly the attached and not yet detached ones in order; a child that inherited observers notifies the same list with the parent as sender once the parent has attached or detached something.", "quantifier": "all call sequences", "why_tests_cant": "unbounded histories with aliasing", "anchors": ["foronoi/observers/subject.py: Subject"]}
{"id": "C42", "title": "Observer callbacks are counted and filtered by their options", "statement": "TreeObserver/VoronoiObserver/DebugObserver invoke their callback exactly for the message kinds their options select, and n_messages equals the number of invocations.", "quantifier": "all message sequences and options", "why_tests_cant": "all histories", "anchors": ["foronoi/observers/tree_observer.py", "foronoi/observers/voronoi_observer.py", "foronoi/observers/debug_observer.py"]}
{"id": "C43", "title": "Observer settings stay private to the observer", "statement": "Settings given to one VoronoiObserver do not change what another observer draws.", "quantifier": "all pairs of observers and message sequences", "why_tests_cant": "false: Presets dictionaries are updated in place", "anchors": ["foronoi/observers/voronoi_observer.py: update", "foronoi/visualization/visualizer.py: Presets"]}
{"id": "C44", "title": "Horizontal rows keep the tree unbalanced", "statement": "Rebalancing keeps the status tree's depth logarithmic in the number of arcs.", "quantifier": "all inputs", "why_tests_cant": "false: for n sites on one horizontal line the tree degenerates into a path of depth n", "anchors": ["foronoi/algorithm.py: handle_site_event", "foronoi/nodes/breakpoint.py: does_intersect"]}
{"id": "C45", "title": "The priority queue returns the next event", "statement": "Every event taken from the queue is minimal among the events in it at that moment, and every event put is taken exactly once.", "quantifier": "all sequences of put/get", "why_tests_cant": "unbounded histories", "anchors": ["foronoi/algorithm.py: event_queue", "queue.PriorityQueue / heapq (standard library)"]}
{"id": "C46", "title": "Clipping can lose a Voronoi edge (negation of C29)", "statement": "There are two sites strictly inside a bounding box, and a point of the box strictly inside it at equal distance from both, for which create_diagram lists no edge between the two cells and gives one of the sites no border at all.", "quantifier": "existence of an input; exact arithmetic", "why_tests_cant": "a test that happens to show the behaviour would be read as a flaw of the test; the theorem shows that the cause is not rounding", "anchors": ["foronoi/graph/polygon.py: _finish_edge (sweep_line = min_y - abs(max_y)), finish_edges"]}
{"id": "C47", "title": "Clean-up can drop a vertex that is still in use (negation of the second half of C36)", "statement": "There is an input for which after create_diagram with remove_zero_length_edges a listed edge starts at a vertex that is not in v.vertices.", "quantifier": "existence of an input; exact arithmetic", "why_tests_cant": "the loop removes from the list it iterates over; which edges are skipped depends on the order of connected_edges", "anchors": ["foronoi/algorithm.py: clean_up_zero_length_edges"]}
{"id": "C48", "title": "create_diagram raises nothing but arithmetic signals, except in clean-up", "statement": "If create_diagram on at least one site and a polygon with corners raises an exception, it is an arithmetic signal of Decimal; only with remove_zero_length_edges it can also be a ValueError or an AssertionError of the clean-up.", "quantifier": "every non-empty list of points, every polygon, every rounding behaviour that obeys the sign-symmetry laws of Decimal", "why_tests_cant": "absence of a crash over all inputs and histories of the mutable structure", "anchors": ["foronoi/algorithm.py: create_diagram", "foronoi/graph/polygon.py: finish_edges, finish_polygon", "foronoi/graph/half_edge.py: delete"]}
{"id": "C49", "title": "The clip point can lie beyond the end of the ray (negation of the last clause of C28)", "statement": "There is a box, a ray start outside it and a ray end inside it for which _get_intersection_point returns a point of the border further away than the end, although the segment crosses the border elsewhere.", "quantifier": "existence of an input; exact arithmetic", "why_tests_cant": "the index found in the filtered list is used in the unfiltered one; with start points inside a convex polygon the two lists agree, so no example from ordinary use shows it", "anchors": ["foronoi/graph/polygon.py: _get_intersection_point"]}
{"id": "C50", "title": "An edge leaving a convex polygon is cut exactly where it leaves", "statement": "If the fixed end of an edge is strictly inside a clockwise convex polygon and its breakpoint at the clipping sweep line is not strictly inside, then _finish_edge does not raise, moves the origin to the one point of the polygon's boundary that lies between the two, and leaves the other end alone.", "quantifier": "all clockwise convex polygons, all edges and positions; exact arithmetic", "why_tests_cant": "a geometric fact about all convex polygons with any number of corners", "anchors": ["foronoi/graph/polygon.py: _finish_edge, _get_intersection_point", "foronoi/graph/algebra.py: Algebra.line_ray_intersection_point"]}
{"id": "C51", "title": "Tree.delete fails exactly on nodes with two children (negation of C18)", "statement": "On an AVL tree Tree.delete(root, key) raises if and only if the node with this key has two children, and the exception is an AttributeError.", "quantifier": "all AVL trees and keys", "why_tests_cant": "a test of delete on small trees may only remove leaves; the exact failure set needs a statement about all trees", "anchors": ["foronoi/tree/tree.py: Tree.delete (temp.value)"]}
{"id": "C52", "title": "Deleting the root leaves a stale parent pointer", "statement": "If the root has exactly one child, Tree.delete of the root's key returns this child, and the child's parent is still the removed node.", "quantifier": "all AVL trees whose root has one child", "why_tests_cant": "the parent pointer is not visible in the order of the keys", "anchors": ["foronoi/tree/tree.py: Tree.delete"]}
{"id": "C53", "title": "Equal keys are never rebalanced", "statement": "Inserting n equal keys into an empty tree with Tree.insert gives a tree of depth n.", "quantifier": "every n, every store", "why_tests_cant": "unbounded n", "anchors": ["foronoi/tree/tree.py: Tree.insert (strict comparisons in all four cases)"]}
{"id": "C54", "title": "Tree.find and Tree.get_leaves are right", "statement": "On an AVL tree Tree.find returns a node with the key, and None only if the key is not in the tree; Tree.get_leaves lists exactly the childless nodes from left to right. Neither changes the tree.", "quantifier": "all trees and keys", "why_tests_cant": "all shapes", "anchors": ["foronoi/tree/tree.py: Tree.find, Tree.get_leaves"]}
{"id": "C55", "title": "create_diagram with a BoundingCircle always raises", "statement": "Algorithm(BoundingCircle(x, y, radius)).create_diagram(points) raises for every list of points and every circle: finish_edges returns a pair (edges, vertices) where create_diagram expects a list, so finish_polygon fails at edges.append at the latest.", "quantifier": "every number type, every list of sites, every circle and every initial state", "why_tests_cant": "It is a statement about every input; tests can only exhibit failing inputs, not the absence of a working one.", "anchors": ["foronoi/contrib/bounding_circle.py: finish_edges", "foronoi/graph/polygon.py: finish_polygon", "foronoi/algorithm.py: create_diagram"]}
{"id": "C56", "title": "A child's attach reaches the parent", "statement": "Once a child subject (such as the bounding polygon) shares the observers of its parent, attach_observer on the child also attaches the observer to the parent: both hold the same list object.", "quantifier": "every history of attach, detach and inherit calls on the parent, every child and every observer", "why_tests_cant": "It depends on aliasing of list objects after arbitrary histories of calls.", "anchors": ["foronoi/observers/subject.py: attach_observer, _update_children, inherit_observers_from"]}
{"id": "C57", "title": "Settings of one VoronoiObserver leak into all others", "statement": "What a VoronoiObserver draws with is, for each setting, the value given by the latest draw of the same kind (step, sweep finished, result) by any VoronoiObserver in the process, up to and including this one, that sets it; the preset only applies if none does. The class attributes of Presets are updated in place.", "quantifier": "every set of observers, every sequence of messages, every initial content of the presets", "why_tests_cant": "It relates an observer's output to the complete history of all observers in the process.", "anchors": ["foronoi/observers/voronoi_observer.py: update", "foronoi/visualization/visualizer.py: Presets"]}
{"id": "C58", "title": "create_diagram succeeds with exact arithmetic", "statement": "With exact real arithmetic, for at least one site, distinct sites and a polygon with corners such that no site is below min_y - |max_y| (in particular sites inside the polygon), create_diagram without remove_zero_length_edges never raises; with it, the only possible exceptions are the ValueError and the AssertionError of the clean-up.", "quantifier": "every number of sites, every distinct positions over the reals, every polygon, every event queue that meets its specification", "why_tests_cant": "Degenerate configurations (square roots of zero, vertical edges, infinite breakpoints, cut points on corners) form a null set that random tests miss.", "anchors": ["foronoi/algorithm.py: create_diagram", "foronoi/graph/polygon.py: finish_edges, finish_polygon", "foronoi/nodes/breakpoint.py: get_intersection"]}
{"id": "C59", "title": "The default clean-up can raise an AssertionError", "statement": "There are three distinct sites strictly inside a bounding box for which create_diagram succeeds without remove_zero_length_edges and raises an AssertionError with it (the default): their Voronoi vertex is on a side of the box.", "quantifier": "existence", "why_tests_cant": "Needs a Voronoi vertex exactly on the border; random tests never have one.", "anchors": ["foronoi/algorithm.py: clean_up_zero_length_edges", "foronoi/graph/half_edge.py: delete", "foronoi/graph/polygon.py: finish_polygon"]}
{"id": "C60", "title": "The vertices found by the sweep are exactly the Voronoi vertices", "statement": "When the event queue is empty, a point is at equal and minimal distance from three or more sites exactly when the sweep has created a vertex there: no Voronoi vertex is missed and none is invented.", "quantifier": "every number of sites, every distinct positions over the reals (including rows, cocircular sites and sites straight above each other), every event queue that meets its specification, every run", "why_tests_cant": "Missing vertices show up only for special configurations; a test would have to know the right answer for each of them.", "anchors": ["foronoi/algorithm.py: handle_site_event, handle_circle_event, check_circles", "foronoi/events/circle_event.py: create_circle"]}
{"id": "C61", "title": "Every edge of the Voronoi diagram is found", "statement": "When the event queue is empty, two sites that share a stretch of border (two different points at which both are nearest) are separated by an edge of the half-edge structure.", "quantifier": "every number of sites, every distinct positions over the reals, every event queue that meets its specification, every run", "why_tests_cant": "A missing edge can be noticed only by comparing with an independently computed diagram on every input.", "anchors": ["foronoi/algorithm.py: handle_site_event, handle_circle_event", "foronoi/graph/half_edge.py"]}
{"id": "C62", "title": "A bounded edge is exactly the common border of its two cells", "statement": "In every state of the sweep, an edge with vertices at both ends, at different places, consists of exactly those points of the plane at which both of its sites are nearest among all sites.", "quantifier": "every number of sites, every distinct positions over the reals, every reachable state of the sweep", "why_tests_cant": "The statement is about all points of the plane and all inputs.", "anchors": ["foronoi/algorithm.py: handle_circle_event", "foronoi/graph/half_edge.py", "foronoi/graph/vertex.py"]}
{"id": "C63", "title": "Clipping can add an edge that belongs to no Voronoi diagram", "statement": "There are three distinct sites strictly inside a bounding box for which create_diagram, computing exactly, lists an edge between the cells of the first two that crosses the box from side to side although every point of it, the ends included, is strictly nearer to the third site than to either of them. (The Voronoi vertex is so far below the box that its circle event is below the sweep line the clipping uses.)", "quantifier": "existence", "why_tests_cant": "The tests look at diagrams whose vertices are near the box and compare no edge with the distances to the sites.", "anchors": ["foronoi/graph/polygon.py: finish_edges, _finish_edge", "foronoi/graph/half_edge.py: get_origin", "foronoi/graph/coordinate.py"]}
{"id": "C64", "title": "At the end of the sweep the half-edge structure is exactly the Voronoi diagram, unbounded edges included", "statement": "When the event queue is empty, the points of every edge of positive length (the points of the bisector that are not behind the vertex at which the edge starts and not beyond the vertex at which it ends, where a missing vertex means no limit) are exactly the points of the plane at which both of its sites are nearest; all points of an edge of length zero are such points too; and any two sites that are both nearest at two different points are separated by an edge of positive length.", "quantifier": "every number of sites, every distinct positions over the reals (rows, cocircular sites included), every event queue that meets its specification, every run, every point of the plane", "why_tests_cant": "It is a statement about all points of the plane and all inputs, and about edges that are unbounded before clipping, which the code never draws.", "anchors": ["foronoi/algorithm.py: handle_site_event, handle_circle_event", "foronoi/nodes/breakpoint.py", "foronoi/graph/half_edge.py: origin, target, twin"]}
{"id": "C65", "title": "Where the sites fit the polygon, the listed edges are exactly the Voronoi diagram inside it", "statement": "Let a convex polygon have no Voronoi vertex on its border; if two sites are both nearest at a border point let their bisector pass through the inside of the polygon (as it does if all sites are in the polygon; they may be outside); and let the sweep line that clipping uses (min_y - |max_y|) be below all sites and below a circle through a nearest site around every point of the polygon; if an unbounded edge starts at a Voronoi vertex whose empty circle reaches below that line, let the line also be below the circles through the two sites of the edge around all points of the polygon; let the common border of two neighbours in the topmost row have no vertex above the polygon, unless the polygon does not reach its greatest height there (and max_y not be 0 if there are such neighbours). Then every listed edge of a finished create_diagram that separates two cells starts and ends at a Voronoi vertex or on the border of the polygon, and each of its points is in the polygon and nearest to both sites; and every point inside the polygon with exactly two nearest sites is on a listed edge between their cells. In particular this holds for a bounding box whose top exceeds its diagonal, which contains all sites, and which has no Voronoi vertex on its border (and none above it between neighbours in the topmost row).", "quantifier": "every number of sites, every distinct positions over the reals, every convex polygon, every event queue that meets its specification, with or without removal of zero length edges, every point of the plane", "why_tests_cant": "It is a statement about all points of the polygon and all inputs; tests compare a few edges with recorded numbers.", "anchors": ["foronoi/algorithm.py: create_diagram", "foronoi/graph/polygon.py: finish_edges, _finish_edge, _get_intersection_point, inside", "foronoi/graph/half_edge.py: get_origin", "foronoi/nodes/breakpoint.py: get_intersection"]}
{"id": "C66", "title": "create_diagram must not be called twice on one object", "statement": "There are a bounding box and two sites such that calling create_diagram with the first site and then, on the same object, with the second one gives, computing exactly, a listed edge between the second site and the first one, although the first one is not in v.sites any more, and an area of 4 for the only site, whose cell is the whole box, of area 16. (create_diagram resets none of the status tree, the edges, the vertices and the border vertices.)", "quantifier": "existence", "why_tests_cant": "The tests make a new object for each diagram.", "anchors": ["foronoi/algorithm.py: Algorithm.__init__, initialize, create_diagram", "foronoi/graph/polygon.py: polygon_vertices"]}
{"id": "C67", "title": "A polygon cannot be used for two diagrams", "statement": "After any finished create_diagram in a polygon, a second Voronoi object made with the same polygon and given one site does not give this site a cell: its first_edge stays None, borders() is empty, and no listed edge has the site on either side; with exact arithmetic the second call raises nothing. (The border vertices keep the edges of the first diagram, and the border edges take their sites from them.)", "quantifier": "every first diagram, every polygon, every second site, every arithmetic with the symmetry laws, every event queue that meets its specification", "why_tests_cant": "The tests make a new polygon for each diagram.", "anchors": ["foronoi/graph/polygon.py: Polygon.__init__, finish_polygon, get_ordered_vertices", "foronoi/algorithm.py: Algorithm.__init__"]}
{"id": "C68", "title": "A row of sites makes the status tree a path", "statement": "For distinct sites on one horizontal line the sweep never queues a circle event, and when k + 1 sites have been handled the status tree is a comb: going right k times from the root reaches the rightmost arc and every left child on the way is a leaf; so for n sites the depth is n - 1 and each search costs linear time, in spite of the calls to balance_and_propagate.", "quantifier": "for all rows of distinct sites, all arithmetic satisfying the stated laws, and all states of the sweep; for all n a row of n sites exists and is swept without an exception over the reals", "why_tests_cant": "A test on a few sites in a row sees a correct diagram; only the shape for every number of sites shows that the tree is never balanced.", "anchors": ["foronoi/algorithm.py:handle_site_event", "foronoi/tree/smart_tree.py:balance_and_propagate"]}
{"id": "C69", "title": "No edge of the Voronoi diagram is found twice", "statement": "When the event queue is empty, two half-edges of the cell of one site that separate it from the cell of the same other site are the same half-edge, unless one of them has both its ends at the same place. So for any two sites that are both nearest at two different points there is exactly one half-edge of positive length on each side of their common border.", "quantifier": "every number of sites, every distinct positions over the reals (rows, cocircular sites included), every event queue that meets its specification, every run", "why_tests_cant": "Breakpoints of the same two sites can come and go several times during a sweep; whether they ever draw the same border twice depends on the whole history of the sweep.", "anchors": ["foronoi/algorithm.py: handle_site_event, handle_circle_event", "foronoi/nodes/breakpoint.py", "foronoi/graph/half_edge.py"]}
{"id": "C70", "title": "The border of the polygon is divided among the cells as the Voronoi diagram divides it", "statement": "Take a convex polygon that has no Voronoi vertex on its border, whose border is touched by no bisector of two sites that are nearest there without passing through the inside (as when all sites are in the polygon; they may be outside), and whose clipping line (min_y - |max_y|) is low enough, as in C65; let its centre be inside, and let the first corner of the stored polygon not be equally near to two nearest sites. In the result of create_diagram every listed edge without a cell on its other side is a piece of one side of the polygon, runs clockwise, and belongs to the cell of a site that is nearest to all its points. Its ends are different after the removal of zero-length edges, and without it if no corner is equally near to two nearest sites. Conversely every border point lies on a listed border edge of every site nearest to it. Computing exactly, with or without removal of zero-length edges.", "quantifier": "every number of sites, every such polygon, every border point, every event queue that meets its specification, every run", "why_tests_cant": "The cell of a border edge is found by walking along the border from the nearest site at one vertex and switching at every cut edge; one wrong switch would mislabel all that follow, for inputs no test contains.", "anchors": ["foronoi/graph/polygon.py: finish_polygon, get_ordered_vertices, _get_closest_point, finish_edges", "foronoi/algorithm.py: create_diagram"]}
{"id": "C71", "title": "borders() of a site walks around its Voronoi cell", "statement": "Take a convex polygon that has no Voronoi vertex on its border, whose border is touched by no bisector of two sites that are nearest there without passing through the inside (as when all sites are in the polygon; they may be outside), and whose clipping line (min_y - |max_y|) is low enough, as in C65; let its centre be inside, and let the first corner of the stored polygon not be equally near to two nearest sites. Take a site whose cell meets the inside of the polygon and is not a bounded cell that covers it. After create_diagram, with or without removal of zero-length edges, borders() of the site terminates and returns all half-edges of the diagram that belong to the site, each once, in an order in which each is the next of the one before and starts where that one ends; there is at least one. The points on the right of all these half-edges are exactly the points of the polygon to which the site is nearest, and the points on the half-edges are exactly those of them that have a second nearest site or lie on the border of the polygon. Computing exactly.", "quantifier": "every number of sites, every such polygon, every site, every point of the plane, every event queue that meets its specification, every run that raises no exception", "why_tests_cant": "The tests compare a few areas and vertex lists; whether the pointers of every cell close up to one cycle around exactly the cell depends on sweep, clipping, border and clean-up together.", "anchors": ["foronoi/graph/point.py: borders", "foronoi/algorithm.py: create_diagram, clean_up_zero_length_edges", "foronoi/graph/polygon.py: finish_edges, finish_polygon", "foronoi/graph/half_edge.py: delete, set_next"]}
{"id": "C72", "title": "area() of a site is the area of its Voronoi cell", "statement": "Take a convex polygon that has no Voronoi vertex on its border, whose border is touched by no bisector of two sites that are nearest there without passing through the inside (as when all sites are in the polygon; they may be outside), and whose clipping line (min_y - |max_y|) is low enough, as in C65; let its centre be inside, and let the first corner of the stored polygon not be equally near to two nearest sites. Take a site whose cell meets the inside of the polygon and is not a bounded cell that covers it. After create_diagram, with or without removal of zero-length edges, area() of the site succeeds and returns a positive number, which is the Lebesgue measure of the set of points of the polygon to which the site is nearest. Computing exactly.", "quantifier": "every number of sites, every such polygon, every site, every event queue that meets its specification, every run that raises no exception", "why_tests_cant": "The tests compare area() with numbers computed by the same formula for a few inputs; that the shoelace formula over the vertices found by following next is the area of the true cell needs the whole chain from the sweep to the clean-up.", "anchors": ["foronoi/graph/point.py: area, _get_xy, vertices, borders", "foronoi/algorithm.py: create_diagram"]}
{"id": "C73", "title": "The areas of all cells add up to the area of the polygon", "statement": "Take a convex polygon that has no Voronoi vertex on its border, whose inside meets the Voronoi cell of every site (as it does if all sites are in the polygon; they may be outside), and whose clipping line (min_y - |max_y|) is low enough, as in C65; let its centre be inside, and let the first corner of the stored polygon not be equally near to two nearest sites. After create_diagram the values of area() of all sites add up to the area of the polygon, and that is its Lebesgue measure. Computing exactly.", "quantifier": "every positive number of sites, every such polygon, every event queue that meets its specification, every run that raises no exception", "why_tests_cant": "A missing or doubled edge, or one cell closed the wrong way round, would change the sum for some input no test contains.", "anchors": ["foronoi/graph/point.py: area", "foronoi/algorithm.py: create_diagram", "foronoi/graph/polygon.py: finish_polygon"]}
{"id": "C74", "title": "The default clean-up succeeds, and removes exactly the edges without length", "statement": "Take a convex polygon that has no Voronoi vertex on its border, whose border is touched by no bisector of two sites that are nearest there without passing through the inside (as when all sites are in the polygon; they may be outside), and whose clipping line (min_y - |max_y|) is low enough, as in C65; let its centre be inside, and let the first corner of the stored polygon not be equally near to two nearest sites. Then create_diagram with the default setting (removal of zero-length edges) raises no exception, however many sites lie on a circle. Its edges are, in the same order, those edges of the run without the removal that do not start and end in the same place; twins, sites and the coordinates of all origins and targets are the same in both runs. So after the default run area() of every site succeeds and returns the area of its Voronoi cell if each cell meets the inside of the polygon. Computing exactly.", "quantifier": "every number of sites, every such polygon, every event queue that meets its specification", "why_tests_cant": "The clean-up removes a vertex for each edge without length and raises if it is gone already or if a link leaves its cell; whether this happens depends on the order of events at one point, where any number of sites may lie on a circle.", "anchors": ["foronoi/algorithm.py: create_diagram, clean_up_zero_length_edges", "foronoi/graph/half_edge.py: delete", "foronoi/graph/vertex.py: connected_edges"]}
{"id": "C75", "title": "The clean-up has no effect unless four cells meet", "statement": "Under the conditions of C74, if no point inside the polygon is nearest to four sites at once and no corner is nearest to two, create_diagram with and without removal of zero-length edges ends in the same state, in all parts of the data structure.", "quantifier": "every number of sites, every such polygon, every event queue that meets its specification", "why_tests_cant": "Tests compare the number of edges for a few inputs; the statement is about all inputs in general position and the complete final state.", "anchors": ["foronoi/algorithm.py: create_diagram, clean_up_zero_length_edges"]}
{"id": "C76", "title": "The drawn beach line is the beach line", "statement": "At every state of the sweep an observer can see, plot_arcs draws one curve over the given abscissas if some site met so far is above the sweep line, and each of its points is on the parabola of a site met so far and on or below all of them; otherwise it draws no curve. With plot_arcs=True each single arc is drawn as the parabola of a site met so far, or as a vertical line if that site is on the sweep line. No exception is raised, whatever the order of the set of arcs. Computing exactly.", "quantifier": "every number of distinct sites, every state of every run, every list of abscissas, every order of the arcs, every event queue that meets its specification", "why_tests_cant": "The set of arcs is kept apart from the status tree; whether it holds exactly the arcs needed for the lower envelope depends on the whole run. The tests draw nothing.", "anchors": ["foronoi/visualization/visualizer.py: plot_arcs, _plot_arcs", "foronoi/nodes/arc.py: get_plot", "foronoi/algorithm.py: arcs"]}
{"id": "C77", "title": "Labels of the arcs name the right sites when no site is on the sweep line", "statement": "At every state of the sweep in which some site has been met and none of these is on the sweep line, plot_arcs with labels adds to the picture without labels one text for each site whose arc is lowest at one of the abscissas: the text names that site, stands on its parabola, at the median of abscissas at which this arc is lowest and below the top of the canvas; no two texts name the same site, and at each abscissa a site with the lowest arc is named. Computing exactly.", "quantifier": "every number of distinct sites, every such state of every run, every list of abscissas, every order of the arcs, every event queue that meets its specification", "why_tests_cant": "The labels are found by indices into two lists that are made from a set; the tests draw nothing.", "anchors": ["foronoi/visualization/visualizer.py: plot_arcs, _plot_arcs, _plot_arc_labels", "foronoi/nodes/arc.py: get_plot"]}
{"id": "C78", "title": "Labels of the arcs can name the wrong site when a site is on the sweep line", "statement": "There are two sites and an order of the set of arcs such that after both site events the only curve of the beach line, which is the parabola of the first site, is labelled with the second site, at height None.", "quantifier": "existential: a concrete reachable state", "why_tests_cant": "The order of a set of objects changes from run to run.", "anchors": ["foronoi/visualization/visualizer.py: plot_arcs, _plot_arc_labels"]}
{"id": "C79", "title": "plot_all never draws a triangle, and with triangles it draws no event", "statement": "Whatever the options, plot_all draws no triangle of a circle event. With triangles=True it draws no circle event either, also with events=True and a circle event at hand. With events=True and triangles=False the circle of the current circle event is drawn.", "quantifier": "every state of the object, reachable or not, all options, every arithmetic", "why_tests_cant": "The tests draw nothing; the option triangles is passed as the event to draw.", "anchors": ["foronoi/visualization/visualizer.py: plot_all, plot_event, _plot_circle"]}
{"id": "C80", "title": "Edges drawn during the sweep are the known part of the Voronoi diagram", "statement": "At every state of the sweep an observer can see, plot_edges raises no exception. Below the top of the canvas each point of a drawn line has two nearest sites among all sites, met or not, and is not below the beach line. Conversely each point that is above the beach line, not above the canvas and has two nearest sites is on a drawn line, provided the top of the canvas is not at height 0. Computing exactly.", "quantifier": "every number of distinct sites, every state of every run, every canvas, every event queue that meets its specification", "why_tests_cant": "An edge with an open end is drawn to a breakpoint, or to the top of the canvas; that such lines neither miss nor overshoot the diagram depends on the whole run. The tests draw nothing.", "anchors": ["foronoi/visualization/visualizer.py: plot_edges, _plot_edge, _origins", "foronoi/graph/half_edge.py: get_origin", "foronoi/nodes/breakpoint.py: get_intersection"]}
{"id": "C81", "title": "Labels of drawn edges name the sites on the two sides", "statement": "At every state of the sweep each label drawn by plot_edges belongs to an edge of v.edges and names the two sites whose cells the edge separates; if it stands below the top of the canvas, both sites are nearest to the place where it stands. Each edge of v.edges gets its label. Computing exactly.", "quantifier": "every number of distinct sites, every state of every run, every canvas, every event queue that meets its specification", "why_tests_cant": "The tests draw nothing; the label stands at the middle of two ends that may both be moving.", "anchors": ["foronoi/visualization/visualizer.py: plot_edges, _plot_edge", "foronoi/graph/half_edge.py: __repr__"]}
{"id": "C82", "title": "Vertices drawn during the sweep are the Voronoi vertices above the beach line", "statement": "At every state of the sweep plot_vertices raises no exception and every dot is a Voronoi vertex of all sites, met or not, not below the beach line; every Voronoi vertex strictly above the beach line gets a dot. Computing exactly.", "quantifier": "every number of distinct sites, every state of every run, every event queue that meets its specification", "why_tests_cant": "The tests look at vertices of a few finished diagrams; this is about every intermediate state.", "anchors": ["foronoi/visualization/visualizer.py: plot_vertices", "foronoi/algorithm.py: handle_circle_event"]}
{"id": "C83", "title": "An edge between two topmost sites is not drawn if the top of the canvas is at height 0", "statement": "There are three sites, the first two in the topmost row, and a canvas with its top at height 0 such that after the sweep no line with finite ends that plot_edges draws comes above height -6, although the point (0, -1) is above the beach line and the two topmost sites are the nearest to it.", "quantifier": "existential: a concrete reachable state", "why_tests_cant": "It takes a canvas whose top is exactly at 0 (`max_y or inf`).", "anchors": ["foronoi/nodes/breakpoint.py: get_intersection", "foronoi/visualization/visualizer.py: _origins"]}
{"id": "C84", "title": "The text of the status tree shows the beach line", "statement": "At every state of the sweep after the first event status_tree.visualize() succeeds and has one line per node, indented by the depth of the node. Read from the last line to the first it shows the beach line from left to right: the name of the site of each arc and, between two neighbouring arcs, the names of their two sites. All these sites have names.", "quantifier": "every number of sites, every state of every run, every arithmetic that meets the laws of the model, every event queue that meets its specification", "why_tests_cant": "Whether each breakpoint in the tree names the sites of the arcs next to it depends on all insertions and removals so far; the tests never look at the text.", "anchors": ["foronoi/tree/node.py: visualize, _visualize", "foronoi/nodes/leaf_node.py: get_label", "foronoi/nodes/internal_node.py: get_label", "foronoi/observers/tree_observer.py: update"]}
{"id": "C85", "title": "The graph of the status tree is the status tree", "statement": "At every state of the sweep after the first event the graph that the tree observer builds has each node of the status tree exactly once, and exactly the edges from the parent to each node but the root.", "quantifier": "every number of sites, every state of every run, every arithmetic that meets the laws of the model, every event queue that meets its specification", "why_tests_cant": "It depends on the tree having no sharing and coherent parent pointers after any sequence of events.", "anchors": ["foronoi/observers/tree_observer.py: _create_graph, _visualize"]}
{"id": "C86", "title": "The picture of the finished diagram is the Voronoi diagram in the polygon", "statement": "Where the sites fit the polygon, plot_edges on the finished diagram raises no exception, and a point is on a drawn line if and only if it is in the polygon and is on its border or has two nearest sites. With or without the clean-up. Computing exactly.", "quantifier": "every number of distinct sites that fit the polygon, every finished run, every canvas, every event queue that meets its specification", "why_tests_cant": "No line missing and none too long, for all inputs; the tests draw nothing.", "anchors": ["foronoi/visualization/visualizer.py: plot_edges, _plot_edge, _origins", "foronoi/algorithm.py: create_diagram"]}
{"id": "C87", "title": "Pointers from the borders of a cell to its site stay in the cell", "statement": "Where the sites fit the polygon, plot_border_to_site on the finished diagram draws exactly one line for each half-edge of a cell, from the middle of the edge to the site of the cell. Each point of such a line is nearest to the site, and if the site is in the polygon the line does not leave the cell. For each site whose cell meets the inside of the polygon and is not a bounded cell that covers it exactly one of its lines has the colour of the first edge, the line of first_edge. Computing exactly.", "quantifier": "every number of distinct sites that fit the polygon, every finished run, every canvas, every event queue that meets its specification", "why_tests_cant": "The picture is meant to check incident_point and first_edge by eye; here it is shown that these are right in every diagram.", "anchors": ["foronoi/visualization/visualizer.py: plot_border_to_site, _draw_line_from_edge_midpoint_to_incident_point", "foronoi/algorithm.py: create_diagram"]}
{"id": "C88", "title": "The finished diagram has a vertex at each place where it must have one, and after the clean-up only one", "statement": "Where the sites fit the polygon, every vertex of the finished diagram is a corner of the polygon, a point of its border between two cells, or a Voronoi vertex inside it, and there is a vertex at each such point. With the clean-up (the default) there is exactly one at each such point, however many cells meet there. Computing exactly.", "quantifier": "every number of distinct sites that fit the polygon, every finished run with or without the clean-up, every event queue that meets its specification", "why_tests_cant": "Where k cells meet the sweep makes k - 2 vertices at the same place, in an order that depends on the queue. The clean-up looks at one edge at a time and removes its start; that exactly one of the k - 2 vertices survives needs that the removed edges form a tree, for every k.", "anchors": ["foronoi/algorithm.py: clean_up_zero_length_edges, create_diagram", "foronoi/graph/polygon.py: finish_polygon, finish_edges"]}
{"id": "C89", "title": "vertices() of a site lists the corners of its Voronoi cell", "statement": "Where the sites fit the polygon, site.vertices() of the finished diagram succeeds for each site whose cell meets the inside of the polygon and is not a bounded cell that covers it, and lists vertices that are exactly the extreme points of the part of the polygon to which the site is nearest. With the clean-up (the default) each of these points is listed once, in clockwise order, and the listed points as a convex polygon are the cell. Computing exactly.", "quantifier": "every number of distinct sites that fit the polygon, every finished run with or without the clean-up, every site, every event queue that meets its specification", "why_tests_cant": "That no listed vertex lies in the middle of a straight side and no corner is listed twice depends on the position of all sites: cells that meet at a corner of the polygon, bisectors along a side, many sites on one circle.", "anchors": ["foronoi/graph/point.py: vertices, borders", "foronoi/algorithm.py: create_diagram, clean_up_zero_length_edges"]}
{"id": "C90", "title": "connected_edges of a vertex of the result lists exactly the half-edges that start there", "statement": "Where the sites fit the polygon, connected_edges of each vertex of the finished diagram, and of the origin of each of its half-edges, lists exactly the half-edges of the diagram that start at this vertex, each once. Without the clean-up these are two or three, and two only at corners of the polygon; at each corner there is exactly one vertex with two, and if no corner is between two cells every vertex at a corner has two. Computing exactly.", "quantifier": "every number of distinct sites that fit the polygon, every finished run with or without the clean-up, every vertex, every event queue that meets its specification", "why_tests_cant": "The list is changed at six places in three files: circle events, clipping, closing the border, deleting edges outside, and joining two vertices in the clean-up. An entry left over or missing does not change the picture, but the clean-up and users walk over this list.", "anchors": ["foronoi/graph/vertex.py: connected_edges", "foronoi/algorithm.py: clean_up_zero_length_edges, handle_circle_event", "foronoi/graph/polygon.py: finish_edges, finish_polygon", "foronoi/graph/half_edge.py: delete"]}
{"id": "C91", "title": "target of a half-edge of the result is the vertex where the next half-edge starts", "statement": "Where the sites fit the polygon, target of each half-edge of the finished diagram is a vertex with a position, and its twin is among the connected edges of this vertex. If the half-edge belongs to a cell, the next half-edge starts at the same point, and without the clean-up at the same vertex object. Computing exactly.", "quantifier": "every number of distinct sites that fit the polygon, every finished run with or without the clean-up, every half-edge, every event queue that meets its specification", "why_tests_cant": "During the sweep the target may be a breakpoint, and clipping replaces the origins of half-edges one at a time. That twin and next agree on where a half-edge ends is an invariant over all events and over the closing of the border.", "anchors": ["foronoi/graph/half_edge.py: target", "foronoi/algorithm.py: create_diagram", "foronoi/graph/polygon.py: finish_edges, finish_polygon"]}
{"id": "C92", "title": "Deleting a half-edge that its origin does not list raises ValueError", "statement": "HalfEdge.delete raises ValueError if the half-edge starts at a vertex that does not list it as connected edge. So a half-edge listed once can be deleted only once, and in the finished diagram a half-edge that is no longer part of the diagram but starts at one of its vertices cannot be deleted again.", "quantifier": "every store of half-edges and vertices; for the last part every number of distinct sites that fit the polygon and every finished run", "why_tests_cant": "A silent second delete would link the neighbours of an edge that are no longer its neighbours. That it is always noticed depends on what the origin lists at that time.", "anchors": ["foronoi/graph/half_edge.py: delete", "foronoi/graph/vertex.py: connected_edges"]}
{"id": "C93", "title": "Vertices and edges of the result satisfy Euler's formula", "statement": "Where sites fit a polygon with k corners and the cells of n of them have a part in it (all of them if each cell meets the inside), the finished diagram has one edge less than it has vertices and such sites together, with and without the clean-up. Without the clean-up it has exactly 2n - 2 + k vertices and 3n - 3 + k edges, wherever the sites lie, and with it at most as many. Computing exactly.", "quantifier": "every number of distinct sites that fit the polygon, every finished run with or without the clean-up, every event queue that meets its specification", "why_tests_cant": "The counts depend on every vertex created by a circle event, dropped outside the polygon, added on the border or joined in the clean-up. Tests compare them for a few inputs, the formula holds for sites in any position, on a line or on a circle.", "anchors": ["foronoi/algorithm.py: create_diagram, handle_circle_event, clean_up_zero_length_edges", "foronoi/graph/polygon.py: finish_edges, finish_polygon"]}
{"id": "C94", "title": "Polygon orders the corners of a convex polygon clockwise", "statement": "For the corners of any convex polygon, given in any order, the constructor of Polygon stores them in clockwise order, each once. Its min and max coordinates are those of the corners, and the centre is a point of the polygon. The centre is strictly inside unless a side of the polygon is a diagonal of the box around it. Computing exactly.", "quantifier": "every convex polygon with at least three corners, every order in which they are given", "why_tests_cant": "Tests give a few polygons in one order. That sorting by the angle around the centre of the box gives the order along the border needs the centre to be in the polygon, for every shape.", "anchors": ["foronoi/graph/polygon.py: __init__, _order_points", "foronoi/graph/algebra.py: calculate_angle"]}
{"id": "C95", "title": "Sites in general position fit every polygon that is high enough", "statement": "Where the bisector of two sites passes through the inside of a convex polygon if it separates their cells on the border (as it does if each cell meets the inside), no side of the polygon is a diagonal of its box, no Voronoi vertex is on the border, the first corner is not between two cells and no Voronoi vertex between two neighbours of the topmost row is above the polygon, and the height of the top over zero is more than the distance of any site from any point of the polygon (for sites in the polygon: more than the diagonal of its box), the input meets all assumptions under which the result is the Voronoi diagram in the polygon. Computing exactly.", "quantifier": "every convex polygon in any order of its corners and every number of sites in general position", "why_tests_cant": "The assumption on the sweep line used for clipping refers to the highest vertex and the position of the origin. That a simple inequality between the corners is enough is a statement on all sites.", "anchors": ["foronoi/graph/polygon.py: __init__, finish_edges, _finish_edge", "foronoi/algorithm.py: create_diagram"]}
{"id": "C96", "title": "Every input in general position gives the right areas after it is moved up", "statement": "For sites in general position, each with a cell that meets the inside of a convex polygon, there is a height such that after moving sites and polygon up by this or any larger height create_diagram succeeds and the area of each site is positive and equals the area of its Voronoi cell in the original polygon. Computing exactly.", "quantifier": "every convex polygon in any order of its corners, every number of distinct sites in general position, every large enough height, every event queue that meets its specification", "why_tests_cant": "The result depends on where the origin of the plane is, although the Voronoi diagram does not. Tests cannot show that moving up always repairs the lost edges.", "anchors": ["foronoi/algorithm.py: create_diagram", "foronoi/graph/polygon.py: finish_edges, finish_polygon", "foronoi/graph/point.py: area"]}
{"id": "C97", "title": "The border runs backwards at a corner with the same angle as another vertex", "statement": "If clipping adds a vertex strictly between the centre of the box of a convex polygon and one of its corners, as it does on a side that is a diagonal of the box, then the result has a border edge that leads from this corner to another point of the line through the centre and the corner. For the sites (4, 2), (6, 2) in the triangle (0, 1), (0, 9), (8, 1) this border edge is on the wrong side and the area of one cell is zero. Computing exactly.", "quantifier": "every convex polygon in any order of its corners, every set of sites, every run without clean-up that adds such a vertex; the last sentence is one concrete run", "why_tests_cant": "Right triangles with legs along the axes are natural inputs, but no test has one. The tie is between keys of a stable sort, so the order depends on how the list was built.", "anchors": ["foronoi/graph/polygon.py: finish_polygon, _get_ordered_vertices, __init__", "foronoi/graph/algebra.py: calculate_angle"]}
{"id": "C98", "title": "Polygon does not know in which order the corners were given", "statement": "If the corners have different angles around the centre of their box, the Polygon made from them does not depend on the order in which they are given, so different polygons with the same corners become one. For example (0, 0), (3, 4), (8, 4), (0, 8) becomes (3, 4), (0, 8), (8, 4), (0, 0), and the point (1, 4) is inside the former only.", "quantifier": "every list of corners, with arbitrary rounding; the example is one concrete call", "why_tests_cant": "Tests only pass convex polygons. A polygon that is not convex is accepted without any message and the diagram of another polygon is computed.", "anchors": ["foronoi/graph/polygon.py: __init__, _order_points, inside"]}
{"id": "C99", "title": "A first corner between two cells breaks the cell of a site", "statement": "For the sites (2, 103), (-2, 103) in the triangle (-10, 101), (0, 110), (10, 101) without clean-up, a border edge of one site is followed by a half-edge whose incident point is the other site. For the sites (-900, 444), (800, 369), (-800, 369) in the triangle (-1000, 360), (0, 1360), (1000, 360) the default create_diagram raises an AssertionError, and without the clean-up the area of the second site is that of the third, not that of the right half of the triangle. Computing exactly.", "quantifier": "two concrete inputs, and all points of the triangle for the last sentence", "why_tests_cant": "It needs a corner at equal distance from two sites that is also the first vertex of the border, the sites in the wrong order, and a first edge outside the polygon. Symmetric inputs are natural, but the tests have none.", "anchors": ["foronoi/graph/polygon.py: finish_polygon, _get_closest_point", "foronoi/graph/half_edge.py: delete", "foronoi/algorithm.py: clean_up_zero_length_edges"]}
{"id": "C100", "title": "A corner between two cells has two vertices, joined by an edge of length zero", "statement": "Under the conditions of C74, let a corner of the polygon be equally near to two nearest sites. Then it is not the first corner, and without the clean-up exactly two vertices of the finished diagram lie at it. They are joined by a border edge of length zero. At the one where it starts two half-edges start, at the other three. At every other corner there is exactly one vertex. Computing exactly.", "quantifier": "every number of distinct sites that fit the polygon, every corner, every event queue that meets its specification", "why_tests_cant": "The cut edge and the corner have the same angle around the centre, so their order is decided by the order of the list and a stable sort. Symmetric inputs have such corners, and no test looks at the vertices there.", "anchors": ["foronoi/graph/polygon.py: finish_edges, finish_polygon, _get_ordered_vertices", "foronoi/graph/vertex.py: connected_edges"]}
{"id": "C101", "title": "When the clean-up has an effect", "statement": "Under the conditions of C74, create_diagram with and without removal of zero-length edges ends in the same state if and only if no point inside the polygon is nearest to four sites at once and no corner is nearest to two sites. Computing exactly.", "quantifier": "every number of distinct sites that fit the polygon, every event queue that meets its specification", "why_tests_cant": "That an edge of length zero must appear at each such point, in whatever order the events there are handled, is a statement on all inputs.", "anchors": ["foronoi/algorithm.py: create_diagram, clean_up_zero_length_edges", "foronoi/graph/polygon.py: finish_polygon"]}
{"id": "C102", "title": "The structural theorems hold with the rounding of decimal", "statement": "Let numbers be rounded to p digits as in the decimal module, and let the x-coordinates of the sites have less than p digits, as all floats have with the default of 28. Then create_diagram ends normally, with a signal of decimal, or, with the clean-up, with a ValueError or AssertionError. If it ends normally, the two half-edges of each edge mirror each other and every listed edge has two ends, different ones after the clean-up. The sweep itself ends with n - 1 more edges than vertices, each of which joins three edges of three sites, or with a signal. The operations return the correctly rounded result (two digits or more).", "quantifier": "every precision, every list of at least one site with such coordinates, every polygon, every event queue that meets its specification, with and without clean-up", "why_tests_cant": "The effect of rounding depends on all digits of all coordinates. Tests use a few coordinates with few digits.", "anchors": ["foronoi/algorithm.py: create_diagram, handle_site_event, handle_circle_event", "foronoi/graph/coordinate.py: __init__", "foronoi/nodes/breakpoint.py: get_intersection"]}
{"id": "C103", "title": "The circle of three sites is computed exactly up to one rounding", "statement": "If the coordinates of three sites are multiples of one power of ten, at most B times it, and 32 B^3 is at most 10^p (B = 600 000 000 for 28 digits), then create_circle with p digits returns False if and only if the sites are on a line, and otherwise a circle whose centre is the exact centre with both coordinates correctly rounded.", "quantifier": "every precision, all triples of sites on such a grid, every power of ten", "why_tests_cant": "The test for a line compares a computed number with zero. Whether rounding can make it zero or keep it from being zero is a question on all triples.", "anchors": ["foronoi/events/circle_event.py: create_circle"]}
{"id": "C104", "title": "Four sites with small integer coordinates make create_diagram raise InvalidOperation", "statement": "With the default precision of 28 digits create_diagram raises decimal.InvalidOperation for the sites (-5, 47), (5, 47), (8, 38), (0, 32) in the box from (-10, 20) to (20, 60), with and without the clean-up, during the sweep.", "quantifier": "one concrete run with rounding to 28 digits", "why_tests_cant": "The fourth site is the lowest point of the circle through the others, and the circle event is rounded to a place just below it, so the root of a tiny negative number is taken. Tests with random or rounded sites do not meet this.", "anchors": ["foronoi/nodes/breakpoint.py: get_intersection", "foronoi/events/circle_event.py: create_circle", "foronoi/algorithm.py: create_diagram"]}
{"id": "C105", "title": "Coordinates with as many digits as the precision break the beach line", "statement": "With 28 digits and the sites (8*10^27 + 7, 0), (8*10^27 + 8, 0), (8*10^27 + 9, 0), the sweep ends with an edge between the first and the third site, although the second is between them, and without one between the second and the third.", "quantifier": "one concrete run with rounding to 28 digits; C102 shows that 27 digits are safe", "why_tests_cant": "The middle of the first two sites is rounded up to beyond the third. No test uses so many digits.", "anchors": ["foronoi/nodes/breakpoint.py: get_intersection", "foronoi/algorithm.py: handle_site_event"]}
{"id": "C106", "title": "Edges are cut where they enter the bounding circle", "statement": "BoundingCircle.cut_line returns the first point of the circle on the way from the first to the second point, None if the segment has none, and raises if the whole line misses the circle. An upright edge with one end at height infinity is cut at the highest point of the circle on it when coming down and at the lowest when going up; with two ends at infinity, or one that is not above the other end, cut_line raises. So finish_edges for a circle leaves every half-edge whose start is outside at the point where its edge enters the disc. An edge that ends outside is returned twice, once as itself and once as its twin. If the line of one edge misses the disc, finish_edges raises InvalidOperation. Computing exactly.", "quantifier": "every circle, every list of edges with distinct known ends, every state", "why_tests_cant": "Which of two points of a circle is kept depends on where both ends are. No test uses a bounding circle.", "anchors": ["foronoi/contrib/bounding_circle.py: cut_line, finish_edges"]}
{"id": "C107", "title": "At most two circle events are put by handling one event, and never two at the same place", "statement": "When an event has been handled, the queue consists of the entries that were left and at most two new ones. These are circle events, valid and stored at an arc, each with the x of the centre and the y of the lowest point of its circle, and no two of them have the same x and y.", "quantifier": "every list of distinct sites, every event of every run, every event queue that meets its specification, every rounding behaviour", "why_tests_cant": "The comparison of the left and the right event matters only if both triples have the same circle. Tests only look at the result.", "anchors": ["foronoi/algorithm.py: _check_circles", "foronoi/events/event.py: __eq__", "foronoi/events/circle_event.py: create_circle_event"]}
{"id": "C108", "title": "A long horizontal row of sites exceeds the recursion limit", "statement": "update_heights calls itself on the parent up to the root. Let at most L nested calls of it be possible. A horizontal row of different sites is swept if it has at most L + 1 sites, with the same result as without a limit, and otherwise create_diagram raises RecursionError. For every list of sites, a sweep that is not cut off by the limit is the sweep without a limit.", "quantifier": "every number of sites, every limit, every event queue that meets its specification; exact arithmetic, and with rounding up to a signal of decimal", "why_tests_cant": "The tree is not rebalanced for sites with the highest y, so the depth of the recursion is the number of sites. It takes about a thousand sites in a row to see it.", "anchors": ["foronoi/tree/node.py: update_heights, replace_leaf", "foronoi/algorithm.py: handle_site_event"]}
{"id": "C109", "title": "Observers that change the list of observers while they are notified", "statement": "notify_observers calls every attached observer if none of them changes the list. If some observers detach themselves when they are called, an observer is called unless the one before it was called and left; so if all of them detach themselves, every other one is called and the others stay attached. An observer attached during the call gets the same message. If an observer attaches itself again, notify_observers does not end.", "quantifier": "every list of observers, every subject, every message", "why_tests_cant": "The loop runs over the list that it lets the observers change. Tests attach one or two observers that do not change it.", "anchors": ["foronoi/observers/subject.py: notify_observers, attach_observer, detach_observer"]}
{"id": "C110", "title": "The arrows drawn for outgoing edges", "statement": "On a finished diagram plot_outgoing_edges draws exactly one arrow for each half-edge that has a length and starts at a vertex in vertices: it starts at the vertex, has the length scale and the direction of the half-edge. If the clean-up did not run, or if no four cells meet in a point inside the polygon, these are all half-edges with a length. An arrow not longer than its half-edge ends on it.", "quantifier": "every list of distinct sites that fits the polygon, with and without the clean-up, every scale >= 0, exact arithmetic", "why_tests_cant": "The arrows are made from connected_edges of the vertices, which finish_edges, finish_polygon and the clean-up change. No test looks at a picture.", "anchors": ["foronoi/visualization/visualizer.py: plot_outgoing_edges, _origins"]}
{"id": "C111", "title": "The circle drawn for a circle event", "statement": "After a circle event plot_event draws one circle. It touches the sweep line from above, three different sites are on it and no site is inside, its centre is a vertex in vertices. The three sites are drawn as dots, and as a triangle if that is asked for. After other events nothing is drawn. Every Voronoi vertex is the centre of the circle drawn after some event.", "quantifier": "every list of distinct sites, every reachable state, every event queue that meets its specification, exact arithmetic", "why_tests_cant": "The event on display is an old object that may have been invalidated; that it is valid and empty is an invariant of the sweep. No test looks at a picture.", "anchors": ["foronoi/visualization/visualizer.py: plot_event, _plot_circle", "foronoi/algorithm.py: handle_circle_event"]}
{"id": "C112", "title": "Where the clean-up loses a vertex that is still in use", "statement": "With the clean-up a half-edge starts at a vertex that is not in vertices exactly at those points inside the polygon where four or more cells meet. So every half-edge starts at a vertex in vertices exactly if no four cells meet in a point inside the polygon.", "quantifier": "every list of distinct sites that fits the polygon, every event queue that meets its specification, exact arithmetic", "why_tests_cant": "The loop removes entries from the list it runs over, so it skips every other one. Which entry is skipped depends on the order in which the half-edges were registered at the vertex.", "anchors": ["foronoi/algorithm.py: clean_up_zero_length_edges", "foronoi/graph/vertex.py: connected_edges"]}
{"id": "C113", "title": "A bounding circle is drawn around the wrong point", "statement": "plot_polygon draws a bounding circle around (x, x) instead of (x, y). What is drawn is the border of the circle exactly if x = y. The window always shows the whole border, but nothing of the circle drawn if |x - y| is more than three radii and the offset.", "quantifier": "every bounding circle with a positive radius, every offset >= 0, exact arithmetic", "why_tests_cant": "No test draws a bounding circle.", "anchors": ["foronoi/visualization/visualizer.py: plot_polygon, _canvas_size", "foronoi/contrib/bounding_circle.py: __init__"]}
{"id": "C114", "title": "Which points of the border count as inside", "statement": "inside gives for a point the answer it gives for the points just right of it and slightly above them. On a convex polygon listed clockwise it holds for a point, on the border or not, exactly if those points are strictly inside. (On a box this is C30.)", "quantifier": "every list of corners; every convex polygon; every point; exact arithmetic", "why_tests_cant": "The border has no area: random test points never lie on it. The code has a function for points on the border that is not called.", "anchors": ["foronoi/graph/polygon.py: inside, _on_edge"]}
{"id": "C115", "title": "A Voronoi vertex on the border makes the diagram wrong", "statement": "If the centre of the circle through three sites lies on the border of the box, the diagram can be wrong. For (1,1), (2,2), (4,2) in BoundingBox(0,6,0,6) the first cell gets area 0 although it contains a unit square. For (1,3), (3,3), (5,5) all three cells get the area of the whole box. For the latter moved up by 100, create_diagram raises an AssertionError with the default settings.", "quantifier": "the named inputs, with the rounding of the decimal module to 28 digits", "why_tests_cant": "The tests use sites whose circles have centres that are not on the border.", "anchors": ["foronoi/graph/polygon.py: inside, finish_edges, _finish_edge, finish_polygon", "foronoi/algorithm.py: create_diagram"]}
{"id": "C116", "title": "The documented second way to the previous edge is wrong", "statement": "The quickstart gives edge.twin.next as a way to get the previous edge, the same as edge.prev. In the result edge.prev is the half-edge of the same cell that ends where the edge starts, and its next is the edge. edge.twin.next of an edge between two cells belongs to the other cell and starts where the edge starts, so it is never edge.prev.", "quantifier": "every list of distinct sites that fits the polygon, every half-edge of the result between two cells, with and without the clean-up, every event queue that meets its specification, exact arithmetic", "why_tests_cant": "The example assigns both but compares neither.", "anchors": ["docs/pages/quickstart.rst: 71-72", "examples/quickstart.py: 47-48", "foronoi/graph/half_edge.py: set_next, prev"]}
{"id": "C117", "title": "A site given twice makes the diagram wrong", "statement": "If a site below the highest one is given twice, the diagram can be wrong: for (2,3), (4,2), (4,2) in BoundingBox(0,6,0,6) each of the three cells gets almost the area 36 of the whole box, while without the repetition the two cells get areas between 16 and 20. If the highest site is given twice, as in (2,3), (2,3), (4,2), one of the two gets the cell and the other the area 0.", "quantifier": "the named inputs, with the rounding of the decimal module to 28 digits, with and without the clean-up", "why_tests_cant": "The tests use different sites. No step of the code fails: the tree and the edge lists stay well formed, only the geometry is wrong.", "anchors": ["foronoi/algorithm.py: handle_site_event", "foronoi/nodes/breakpoint.py: does_intersect, get_intersection"]}
{"id": "C118", "title": "A bounded cell that no side of the result crosses has no area", "statement": "In BoundingBox(0, 6, 100, 106), with the rounding of decimal: for the sites (9, 103), (13, 104), (11, 101), (11, 103), all outside the box, create_diagram succeeds, and area() of the first site is 36 and of the second and third 0, but area() of the fourth, whose cell is bounded and outside the box, raises TypeError. For the sites (3, 103), (20, 110), (-15, 111), (2, 83), of which the first is in the box and has a bounded cell that covers it, area() of the first raises TypeError and area() of the others is 0. The cause is that clipping deletes all edges of such a cell but leaves first_edge. With and without the clean-up.", "quantifier": "the named inputs, with the rounding of the decimal module to 28 digits, with and without the clean-up", "why_tests_cant": "No test has sites outside the polygon, for which the documentation makes no restriction.", "anchors": ["foronoi/graph/polygon.py: finish_edges, _finish_edge", "foronoi/graph/point.py: area, vertices"]}
{"id": "C119", "title": "What area() yields for sites anywhere", "statement": "Take sites anywhere and a convex polygon under the conditions of C72. After create_diagram area() of a site raises an exception if and only if its Voronoi cell is bounded and contains nothing of the polygon or all of its inside. The exception is then a TypeError, and borders() of the site is a single half-edge that is not part of the diagram. In all other cases area() returns the Lebesgue measure of the set of points of the polygon to which the site is nearest, which is 0 exactly if there are none. With and without the clean-up. Computing exactly.", "quantifier": "every number of distinct sites, every such polygon, every site, every event queue that meets its specification, every finished run", "why_tests_cant": "whether a cell keeps a deleted first edge depends on how the sweep and the clipping met it; the known tests only place sites inside the polygon", "anchors": ["foronoi/graph/point.py: area, borders, vertices, get_xy", "foronoi/graph/polygon.py: finish_edges, finish_polygon", "foronoi/algorithm.py: create_diagram"]}
{"id": "C120", "title": "plot_all draws what its options ask for", "statement": "plot_all draws only parts whose option is set, and texts only if the labels are asked for. If its option is set, the sweep line is drawn once, across the canvas at its height; the polygon once with its corners; the sites as dots in the order of sites, with a text of the name at each site if labels are set. On a finished diagram of sites that fit the polygon plot_all raises no exception unless arc labels are asked for. It then draws the edges exactly if edges is set, and the points on them are the Voronoi diagram in the polygon; one text in the middle of each edge exactly if the labels are set; as vertices exactly the corners of the polygon, the border points between two cells and the Voronoi vertices inside; a pointer for each half-edge of a cell exactly if border_to_site is set; an arrow for each half-edge with a length that starts at a listed vertex exactly if outgoing_edges is set.", "quantifier": "every combination of options, every canvas, every state in which plot_all succeeds (for the first part also every arithmetic); for finished diagrams every list of distinct sites that fits the polygon, with and without the clean-up, exact arithmetic", "why_tests_cant": "14 options give thousands of combinations; the library has no test of its pictures", "anchors": ["foronoi/visualization/visualizer.py: plot_all and the methods it calls"]}
{"id": "C121", "title": "Drawing given objects; an empty list draws everything", "statement": "On a finished diagram of sites that fit the polygon, for a site as in C71, plot_edges(site.borders()) draws lines whose points are exactly the points of the cell with a second nearest site or on the border of the polygon, whatever sweep line is given, and plot_vertices(site.vertices()) draws exactly the corners of the cell. But for a site with an unbounded cell that has no part in the polygon, borders() is the empty list and plot_edges(site.borders()) draws the whole diagram. Likewise plot_sweep_line(y) draws a line at height y, except for y = 0, where it draws the sweep line of the diagram.", "quantifier": "every list of distinct sites that fits the polygon, every site, every sweep line given, every canvas, with and without the clean-up, exact arithmetic", "why_tests_cant": "that `edges or self.voronoi.edges` takes an empty list for a missing one shows only with sites outside the polygon", "anchors": ["foronoi/visualization/visualizer.py: plot_edges, plot_vertices, plot_sweep_line", "foronoi/graph/point.py: borders, vertices"]}
{"id": "C122", "title": "Sites anywhere, moved up: the default run succeeds", "statement": "Take a convex polygon and distinct sites anywhere, in general position (as in C96). If sites and polygon are moved up together far enough, create_diagram with its defaults succeeds. area() of a site then raises TypeError if its Voronoi cell is bounded and contains nothing of the polygon or all of its inside; for each other site it returns the Lebesgue measure of the set of points of the polygon to which the site is nearest. Computing exactly.", "quantifier": "every number of distinct sites in general position, every convex polygon, every order of its corners, every site, every height above a bound that depends on sites and polygon, every event queue that meets its specification", "why_tests_cant": "that the result depends on the height of the whole input is not visible in tests at one height", "anchors": ["foronoi/algorithm.py: create_diagram, initialize", "foronoi/graph/polygon.py: finish_edges, finish_polygon", "foronoi/graph/point.py: area"]}
{"id": "C123", "title": "The areas add up to that of the polygon, or are all zero", "statement": "Take sites anywhere and a convex polygon under the conditions of C72. If no bounded cell covers the inside of the polygon, the areas of the sites whose area() raises no exception add up to the area of the polygon. If a bounded cell covers it, each area that is returned is 0.", "quantifier": "every number of distinct sites, every such polygon, every event queue that meets its specification, every finished run with or without the clean-up, exact arithmetic", "why_tests_cant": "the sum in the tests is compared with a fixed number for sites inside the polygon", "anchors": ["foronoi/graph/point.py: area", "foronoi/graph/polygon.py: finish_edges, finish_polygon"]}
{"id": "C124", "title": "Floats survive the conversion to decimals and back", "statement": "Decimal(str(x)) of a float x is the decimal number with the fewest digits that is read back as x, the nearest one if there are several. So Coordinate(x).x is x for every float x. A decimal with at most 15 digits, such as a corner of the polygon, that is converted to a float and back, as _finish_edge does with the points on the border, is not changed; with 16 digits it can be. The conversion and the operations on floats are correctly rounded to 53 bits.", "quantifier": "every float with 53 bits, every decimal number; limits of the exponents are not modelled", "why_tests_cant": "there are 2^64 floats; the exceptions are next to powers of two, where the two neighbours of a float have different distances", "anchors": ["foronoi/graph/coordinate.py: _to_dec, x, y", "foronoi/graph/polygon.py: _finish_edge, _get_intersection_point"]}
{"id": "C125", "title": "Cached heights go wrong and the tree gets out of balance, through rotations and removals", "statement": "replace_leaf and update_heights keep all cached heights of a tree right, and balance at a root whose subtrees are balanced with heights at most 2 apart gives a balanced tree with right heights. But balance_and_propagate does not update the heights above a rotation and after a circle event looks only at the root. So there are sites, all at different heights, with a state of the sweep in which the cached height of the root is 6 while the height is 5; and when the sweep of these sites has ended the status tree has a node with subtrees of heights 3 and 1.", "quantifier": "every tree, every replacement (including None) and every node for the positive statements; existential for the negative ones, with the 28 digits of decimal", "why_tests_cant": "no result depends on the heights, so tests of the diagram cannot see it", "anchors": ["foronoi/tree/node.py: update_heights, replace_leaf, height", "foronoi/tree/tree.py: balance, balance_and_propagate, rotate_left, rotate_right", "foronoi/algorithm.py: handle_site_event, _update_breakpoints"]}
{"id": "C126", "title": "The diagram does not depend on the order of the sites and follows a change of unit and a horizontal move", "statement": "If the sites are given in another order, and sites and polygon are multiplied by k > 0 and moved to the right by c, then the constructor of Polygon makes the moved polygon of the moved corners, the areas are multiplied by k^2 (or there is none in both cases), the vertices are at the moved places and the lines drawn are the moved lines. With k = 1 and c = 0: the order of the sites, the choices of the event queue and remove_zero_length_edges do not change the areas.", "quantifier": "every number of distinct sites that fit the polygon, inside or not, every permutation, every k > 0 and every c, every queue that yields a smallest event", "why_tests_cant": "two runs are compared, over all permutations and all units", "anchors": ["foronoi/algorithm.py: create_diagram", "foronoi/graph/polygon.py: __init__, _order_points, finish_edges, finish_polygon", "foronoi/graph/point.py: area"]}
{"id": "C127", "title": "More sites make no area larger", "statement": "If sites are added, the area of a former site does not grow, and if the cells of the new sites contain nothing of the polygon, it stays the same.", "quantifier": "every number of distinct sites that fit the polygon with and without the new ones, both settings of remove_zero_length_edges", "why_tests_cant": "two runs with different sites are compared", "anchors": ["foronoi/algorithm.py: create_diagram", "foronoi/graph/point.py: area"]}
{"id": "C128", "title": "The sites on the other side of the borders of a cell are its neighbours", "statement": "With the default clean-up, [b.twin.incident_point for b in site.borders()] without None lists exactly the sites whose cells have a common border with the cell of this site in the interior of the polygon (a point inside to which exactly these two sites are nearest), each once; cells that meet in a point only do not count. If r is in the list of p, then p is in the list of r. Without clean-up the same holds for the borders that have a length.", "quantifier": "every number of distinct sites that fit the polygon, every site with a cell that is shown, every queue that yields a smallest event", "why_tests_cant": "neighbourhood depends on all sites; cells that meet in a point need exactly cocircular sites", "anchors": ["foronoi/graph/point.py: borders", "foronoi/graph/half_edge.py: twin", "foronoi/algorithm.py: create_diagram"]}
{"id": "C129", "title": "Rounded areas", "statement": "area(digits) is the area of the cell rounded to this number of decimals, also for a negative number: the nearest multiple of 10^-digits, of two the even one; it raises exactly when area() raises, and without digits it is area(). With floats and up to 22 digits it is off by at most half a unit and the rounding errors of a product and a quotient, and it is the float next to the nearest decimal if the area is not too near to the middle of two decimals. Near the middle it need not be: the cell of the only site in BoundingBox(0, 2.675, 0, 1) has as a float an area less than 2.675, but area(2) is 2.68 although 2.67 is nearer.", "quantifier": "every number of distinct sites that fit the polygon, every number of digits in exact arithmetic; every float and 0 to 22 digits for the rounding error", "why_tests_cant": "the tests compare some rounded areas with numbers; the exceptions are within 2^-53 of the middle of two decimals", "anchors": ["foronoi/graph/point.py: area, _shoelace"]}
{"id": "C130", "title": "A condition that can be evaluated: inputs for which the diagram is right", "statement": "There is a decidable condition on sites and corners with rational coordinates (convex polygon, sites inside or on the border, no Voronoi vertex on the border, first corner with one nearest site, cut-off line low enough) under which all assumptions of the theorems on finished diagrams hold. For such an input, with the corners given in any order, the polygon is made, create_diagram succeeds with and without clean-up, and the areas are positive and exactly those of the Voronoi cells in the polygon. The example of the README and examples/quickstart.py meets it, and so do the inputs of 14 tests in foronoi/tests/unit.py.", "quantifier": "every list of sites and corners with rational coordinates that meets the condition, every order of the corners, every queue that yields a smallest event; the named inputs for the instances", "why_tests_cant": "the tests compare two decimals of the areas of these inputs, not the exact cells", "anchors": ["foronoi/algorithm.py: create_diagram", "foronoi/graph/polygon.py: __init__", "examples/quickstart.py", "foronoi/tests/unit.py"]}
{"id": "C131", "title": "Labels of the edges of a finished diagram", "statement": "plot_edges on a finished diagram with labels draws exactly one kind of text: for each edge of the list (v.edges, or the given half-edges) in its middle, with the names of the sites on its two sides; none for the twins and none without labels. After clean-up a label with the names of a shown site p and another site r is drawn exactly if r is a neighbour of p, all labels for one pair stand at one point, and exactly these two sites are nearest to that point.", "quantifier": "all polygons and sites as in C71, every list of half-edges of the result, every queue that yields a smallest event", "why_tests_cant": "no test calls the visualizer", "anchors": ["foronoi/visualization/visualizer.py: plot_edges, _plot_edge", "foronoi/graph/half_edge.py: __repr__"]}
{"id": "C132", "title": "The result does not depend on the system of coordinates", "statement": "If the sites and the corners of the polygon are turned by any angle, mirrored, moved and enlarged, and fit before and after that, then the results are turned, mirrored, moved and enlarged in the same way: the areas (the same cells have none, the others differ by the square of the factor), the places of the vertices, the drawn lines, and, after the default clean-up, the neighbours found across the borders of each cell. Sites in general position in both systems succeed in both, far enough up, with equal areas up to the unit.", "quantifier": "all sites and polygons that meet the assumptions of C119 in both systems, every rotation, reflection, translation and factor, every two queues that yield a smallest event, both settings of the clean-up", "why_tests_cant": "the sweep, the order of events and the start of the border prefer directions; no test compares two positions", "anchors": ["foronoi/algorithm.py: create_diagram", "foronoi/graph/polygon.py: _order_points", "foronoi/graph/point.py: area, borders", "foronoi/events/event.py: __lt__"]}
{"id": "C133", "title": "Pointers and points drawn for one site", "statement": "`plot_border_to_site(site.borders())` on the finished diagram draws exactly one line for each border of the cell of the site, from the middle of the border to the site, and one from there to the site on the other side if there is one. After the clean-up these lines end at the site and its neighbours (cells that share a border of positive length in the polygon) and at no other sites. `plot_sites(points)` draws a dot at each given point and, if wanted, its name beside it, and nothing else; for an empty list it draws all sites.", "quantifier": "all distinct sites and polygons that fit (FitsCorners), sites with a part of the polygon, with and without clean-up, all sweep lines and canvases; C133_sites: all states and lists", "why_tests_cant": "tests do not look at what is drawn", "anchors": ["foronoi/visualization/visualizer.py: plot_sites", "foronoi/visualization/visualizer.py: plot_border_to_site", "foronoi/graph/point.py: borders"]}
{"id": "C134", "title": "The same sites in a part of the polygon", "statement": "If the same sites are used with a polygon that is a part of another one, no area is larger than before, and the area of a site whose whole cell lies in the part is the same. If a polygon is divided in two, the area of each site is the sum of its areas in the two parts. Inside the smaller polygon both runs draw the same lines and have the same vertices.", "quantifier": "all distinct sites and polygons that fit (FitsCorners), with and without clean-up; sites for which area() succeeds in the runs compared", "why_tests_cant": "tests never compare the results for different polygons", "anchors": ["foronoi/algorithm.py: create_diagram", "foronoi/graph/point.py: area", "foronoi/graph/polygon.py", "foronoi/visualization/visualizer.py: plot_edges"]}
{"id": "C135", "title": "Small changes of the input change the areas little", "statement": "For every input whose run succeeds and every bound \u03b5 there is a \u03b4 such that for all inputs of the same size whose sites and corners differ by less than \u03b4, area() of each site differs by less than \u03b5.", "quantifier": "all distinct sites and polygons that fit (FitsCorners), before and after the change; corners compared after any rotation of the list; sites for which area() succeeds in both runs", "why_tests_cant": "it is about all inputs in a neighbourhood, and about every bound", "anchors": ["foronoi/algorithm.py: create_diagram", "foronoi/graph/point.py: area", "foronoi/graph/polygon.py"]}
{"id": "C136", "title": "Small changes of a stable input are harmless", "statement": "If an input is in general position with room on all sides (Stable: distinct sites, one of them highest; convex polygon, no side is a diagonal of its box; every cell has a part in its interior; no border point has three nearest sites; a possible first corner has one; the clip line is far enough), then so is every input near enough to it. For all of these, with their corners in any order, the polygon is made, create_diagram succeeds with and without clean-up, and every area is within any wanted bound of the volume of the cell of the original input.", "quantifier": "all stable inputs, all bounds, all inputs in the neighbourhood, all orders of the corners, with and without clean-up", "why_tests_cant": "it is about all inputs in a neighbourhood", "anchors": ["foronoi/algorithm.py: create_diagram", "foronoi/graph/point.py: area", "foronoi/graph/polygon.py"]}
{"id": "C137", "title": "The points a caller gets back", "statement": "Voronoi(polygon).create_diagram(points) succeeds, and v.sites has the points in the order of the input with their coordinates. For each point whose cell has a part in the polygon, first_edge is the first of its borders(); these are all half-edges of its cell, once each and in order around it, and area() is the area of the part of its cell in the polygon. In particular for every input of fractions that meets the decidable condition of C130, with the corners in any order, and so for the example of the README.", "quantifier": "all distinct sites and polygons that fit (FitsCorners), with and without clean-up; C137_fractions: all inputs that meet Check.Input", "why_tests_cant": "tests look at a few numbers of a few diagrams", "anchors": ["foronoi/algorithm.py: create_diagram, initialize", "foronoi/graph/point.py: first_edge, borders, area", "foronoi/graph/polygon.py"]}
{"id": "C138", "title": "Which exception create_diagram with a BoundingCircle raises", "statement": "With a BoundingCircle and distinct points the sweep of create_diagram completes. Then finish_edges can raise only InvalidOperation. If it completes, finish_polygon raises IndexError if no edge is cut by the circle, and AttributeError (append on a tuple) otherwise. For a single point it is IndexError. All three occur. With rounding, or if points are not distinct, it is still one of these or another signal of decimal, and none of the loops runs forever.", "quantifier": "all distinct sites (at least one), every circle, every event queue that meets its specification, exact arithmetic; C138_rounding, C138_decimal: all sites, every rounding behaviour, in particular that of decimal", "why_tests_cant": "Tests can show single failures, not that no other exception and no endless loop is possible.", "anchors": ["foronoi/contrib/bounding_circle.py: finish_edges, trim_edge", "foronoi/graph/polygon.py: finish_polygon", "foronoi/algorithm.py: create_diagram"]}
{"id": "C139", "title": "At most 2n-5 vertices and 3n-6 edges; some cell has at most five sides", "statement": "After the sweep of n >= 2 distinct points, every site that is the furthest one in a direction other than straight up has a half-edge that starts at infinity, and the number of vertices and of such sites together is at most 2n-2. So for n >= 3 there are at most 2n-5 vertices and 3n-6 edges, and some site has at most five half-edges. Computing exactly.", "quantifier": "all distinct sites, every finished sweep, every event queue that meets its specification", "why_tests_cant": "A counting argument over all inputs. C10 has a weaker bound that holds with rounding too.", "anchors": ["foronoi/algorithm.py: handle_site_event, handle_circle_event"]}
{"id": "C140", "title": "Half-edges from infinity belong to exactly the sites on the convex hull", "statement": "After the sweep of n >= 2 distinct points, a site has a half-edge whose origin is still a breakpoint (it starts at infinity) if and only if its cell is unbounded, and if and only if there is a direction in which no other site is further. Computing exactly.", "quantifier": "all distinct sites (several on a line included), every finished sweep, every event queue that meets its specification", "why_tests_cant": "Which cells finish_edges has to close at the bounding polygon depends on this for all positions of the sites, including ties for the topmost site.", "anchors": ["foronoi/algorithm.py: handle_site_event, handle_circle_event, create_diagram", "foronoi/graph/polygon.py: finish_edges"]}
{"id": "C141", "title": "The exact number of vertices and edges", "statement": "After the sweep of n distinct points that are not all on one line, h of which are furthest in some direction (on the border of the convex hull): each of these h sites has exactly one half-edge that starts at infinity, there are 2n-2-h vertices (counted as the code lists them, several at one place if more than three sites are on a circle) and 3n-3-h edges. With all points on one line there is no vertex and there are n-1 edges. Computing exactly.", "quantifier": "all distinct sites, every finished sweep, every event queue that meets its specification", "why_tests_cant": "An equation for all inputs, degenerate ones included; C10 and C139 only have bounds.", "anchors": ["foronoi/algorithm.py: handle_site_event, handle_circle_event, create_diagram"]}
{"id": "C142", "title": "Unbounded edges separate neighbours on the convex hull", "statement": "After the sweep of distinct points there is a half-edge that starts at infinity with site p on its side and site r on the other one if and only if r follows p clockwise on the border of the convex hull: no site is on the left of the way from p to r and none is between them. Unless all sites are on one line, every site on the border of the hull has exactly one such follower. Computing exactly.", "quantifier": "all distinct sites, every finished sweep, every event queue that meets its specification", "why_tests_cant": "Which pairs of cells share an unbounded edge, for every position of the sites, several on one side of the hull included.", "anchors": ["foronoi/algorithm.py: handle_site_event, handle_circle_event, create_diagram"]}
{"id": "C143", "title": "The nearest other site is listed as a neighbour", "statement": "With the default clean-up, for a site p inside the polygon, [b.twin.incident_point for b in p.borders()] contains every site r inside the polygon that is nearest to p among the other sites, and more generally every r such that no other site is in the closed disc of which p and r are a diameter. Computing exactly.", "quantifier": "every list of distinct sites that fits the polygon, every event queue that meets its specification", "why_tests_cant": "A statement on all pairs of sites of every input; used to read nearest neighbours off the diagram.", "anchors": ["foronoi/graph/point.py: borders", "foronoi/algorithm.py: create_diagram, clean_up_zero_length_edges"]}
