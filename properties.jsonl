{"id": "C01", "title": "Half edge and edge naming is a consistent two-to-one scheme", "statement": "HalfEdge(id) is defined for every non-zero id; id() returns that id; negation is a fixed-point-free involution which negates the id; an Edge identifies e with -e and nothing else, Edge(e).positive()/negative() are e and -e in the order of their ids, and Edge::fromIndex / HalfEdge::fromIndex invert index().", "quantifier": "all non-zero integer ids, all indices", "why_tests_cant": "The domain is unbounded; a parity slip shows only for particular ids, and every table in the library is indexed by this encoding.", "anchors": ["libflatsurf/src/half_edge.cc: HalfEdge::HalfEdge(int), id, operator-, index, fromIndex", "libflatsurf/src/edge.cc: Edge::Edge, positive, negative, index, fromIndex"]}
{"id": "C02", "title": "A Permutation can only be built from a bijection", "statement": "Constructing a Permutation from a list of (source, image) pairs or from cycles succeeds exactly when the input describes a bijection of {0..n-1}; otherwise std::invalid_argument is thrown. On success applying the permutation and taking preimages are mutually inverse.", "quantifier": "all finite lists of pairs and all lists of cycles", "why_tests_cant": "Tests try a few malformed lists; acceptance of a single non-bijection corrupts every later lookup.", "anchors": ["libflatsurf/src/permutation.cc: Permutation constructors, ImplementationOf::check, operator(), preimage"]}
{"id": "C03", "title": "In-place multiplication by a cycle is composition", "statement": "p *= {c0,...,ck} replaces p by p∘(c0 c1 ... ck), p *= q by p∘q and ~p is the inverse; forward and inverse lookup stay mutually inverse after any sequence of such operations; a cycle with repeated entries is rejected.", "quantifier": "all permutations, all cycles, all operation sequences", "why_tests_cant": "The update is done in place with a temporary and two arrays; errors appear only for certain overlaps of the cycle with the permutation and only in one of the two lookup directions.", "anchors": ["libflatsurf/src/permutation.cc: operator*=, operator~, operator*"]}
{"id": "C04", "title": "cycles() is a faithful description of a permutation", "statement": "p.cycles() lists every element of the domain exactly once, in cycles that follow p, and Permutation(p.cycles()) == p; trivial() holds iff every element is fixed.", "quantifier": "all permutations of all sizes", "why_tests_cant": "Serialization relies on it for every permutation; tests use a few.", "anchors": ["libflatsurf/src/permutation.cc: cycles, cycle, trivial, operator==", "libflatsurf/flatsurf/cereal.hpp: save/load of Permutation"]}
{"id": "C05", "title": "Combinatorial triangulations are coherent by construction", "statement": "If FlatTriangulationCombinatorial(vertices, boundaries) does not throw then every half edge has an inverse in the surface, nextAtVertex(e) = -previousInFace(e) for each e whose face is not boundary, the given boundary half edges are boundary (in debug builds exactly these; in release builds additionally those e with nextAtVertex(e) = -e), and every other face is a triangle. If the number of half edges is even and the boundary is closed but some face has two or more than three sides, it throws.", "quantifier": "all permutations and boundary lists", "why_tests_cant": "Ranges over all gluing patterns including degenerate ones (edges glued to themselves, faces glued to themselves).", "anchors": ["libflatsurf/src/flat_triangulation_combinatorial.cc: constructors, ImplementationOf::ImplementationOf, check"]}
{"id": "C06", "title": "Flipping keeps a triangulation a triangulation", "statement": "After any sequence of successful flips a triangulation still has the same half edges, the same boundary, triangular faces and coherent vertex/face structure; the number of vertices and of faces does not change. A flip succeeds exactly when neither e nor -e is boundary and they are in different faces.", "quantifier": "all triangulations (also degenerate ones), all sequences of flips", "why_tests_cant": "Histories are unbounded, and the degenerate gluings in which two edges of the quadrilateral coincide are rarely covered.", "anchors": ["libflatsurf/src/flat_triangulation_combinatorial.cc: flip"]}
{"id": "C07", "title": "flip does what the documentation says", "statement": "Flipping e in the faces (e a b) and (-e c d) produces exactly the faces (a -e d) and (c e b) and leaves all other faces alone; flipping the same half edge twice amounts to exchanging e and -e, four times is the identity.", "quantifier": "all triangulations and all half edges not on the boundary with the two adjacent faces distinct", "why_tests_cant": "Must hold for all coincidences among a, b, c, d.", "anchors": ["libflatsurf/src/flat_triangulation_combinatorial.cc: flip", "libflatsurf/flatsurf/flat_triangulation_combinatorial.hpp: flip"]}
{"id": "C08", "title": "Vertices are tracked correctly through flips", "statement": "The vertices reported by a surface after any sequence of flips (which are updated incrementally) are exactly the orbits of nextAtVertex, each with the outgoing half edges of that orbit.", "quantifier": "all triangulations, all flip sequences", "why_tests_cant": "The incremental update uses only four membership tests; correctness for every coincidence of the four neighbours is a case analysis no test suite enumerates.", "anchors": ["libflatsurf/src/vertex.cc: ImplementationOf<Vertex>::afterFlip, source", "libflatsurf/src/flat_triangulation_combinatorial.cc: flip, resetVertexes"]}
{"id": "C09", "title": "Relabelling, mirroring and cloning obey the group laws", "statement": "relabel by p then q equals relabel by q*p, relabel by the identity is the identity, relabelling conjugates nextAtVertex and nextInFace, relabelling by a permutation not commuting with negation throws; mirroring twice is the identity and swaps the cyclic order at vertices; clone() compares equal.", "quantifier": "all triangulations without boundary, all permutations of half edges", "why_tests_cant": "Algebraic laws over an infinite family.", "anchors": ["libflatsurf/src/flat_triangulation_combinatorics.cc: relabel, operator~, clone, operator=="]}
{"id": "C10", "title": "Inserting a vertex in a face gives a triangulation with the expected faces", "statement": "insertAt(e) replaces the face (e f g) by three triangles sharing a new vertex of valence three, keeps all other faces and the old half edge names, and adds exactly three edges.", "quantifier": "all triangulations, all non-boundary faces", "why_tests_cant": "All gluings of the face with itself must be right.", "anchors": ["libflatsurf/src/flat_triangulation_combinatorics.cc: insertAt"]}
{"id": "C11", "title": "slit opens exactly one edge", "statement": "slit(e) adds exactly one edge ee, makes e and -ee boundary, puts ee in place of e in its face, keeps every other face the same and does not touch other boundary half edges; when e is not a loop, vertices are split exactly where two boundary segments meet, so that no vertex has more than one boundary half edge. An edge on the boundary is rejected.", "quantifier": "all triangulations, all half edges not on the boundary except loops at a vertex on the boundary (see C59)", "why_tests_cant": "The case distinction on which endpoint already touches the boundary is history dependent.", "anchors": ["libflatsurf/src/flat_triangulation_combinatorics.cc: slit"]}
{"id": "C12", "title": "collapse removes exactly one edge and two faces", "statement": "On a surface without boundary, collapse(e) removes e and its two adjacent faces and identifies the two remaining sides of each, and nothing else; all other faces are kept. The result is again a coherent triangulation with three fewer edges whose half edges are numbered without gaps, and the returned pair names the sides at the source of e in the collapsed surface. Every edge of a closed flat surface can be collapsed like this unless the two faces next to it form a torus.", "quantifier": "all triangulations without boundary, all half edges whose two faces are distinct, have no two of their own sides glued, do not form a torus, and whose ends have more than two half edges each; debug and release builds", "why_tests_cant": "Index compaction by swapping interacts with the half edges being collapsed; only particular index patterns trigger each branch.", "anchors": ["libflatsurf/src/flat_triangulation_combinatorial.cc: collapse, swap"]}
{"id": "C13", "title": "A triangulation can be rebuilt from its faces", "statement": "Any list of triangles that uses the edges 1, ..., m and no half edge twice yields a triangulation whose faces are exactly these triangles, whose boundary are the half edges not used, and in which no vertex has more than one boundary half edge. For a triangulation T in which each edge is in a face and no vertex has more than one boundary half edge, FlatTriangulationCombinatorial(T.faces()) is T again.", "quantifier": "all triangulations, all lists of triangles", "why_tests_cant": "Quantifies over all gluings.", "anchors": ["libflatsurf/src/flat_triangulation_combinatorial.cc: constructor from faces", "libflatsurf/src/flat_triangulation_combinatorics.cc: faces"]}
{"id": "C14", "title": "ccw and orientation behave like geometry", "statement": "v.ccw(w) is COUNTERCLOCKWISE/COLLINEAR/CLOCKWISE exactly according to the sign of the cross product, is antisymmetric, invariant under positive scaling and under orientation preserving linear maps, and orientation computed exactly is the sign of the inner product; interval arithmetic in ccw is only ever used as a shortcut that cannot change the answer. (The shortcut in orientation is C60.)", "quantifier": "all vectors over all ordered coordinate rings, all enclosing approximations", "why_tests_cant": "The fast path may be taken for any rounding of any input.", "anchors": ["libflatsurf/src/vector.cc: ccw, orientation, VectorWithError"]}
{"id": "C15", "title": "inSector is membership in the half-open sector", "statement": "v.inSector(begin, end) holds exactly when v lies in the sector swept counterclockwise from begin (inclusive) to end (exclusive), for sectors of every angle in (0, 2π), with the documented conventions for equal and opposite directions; a sector and its complement partition the non-zero directions.", "quantifier": "all triples of non-zero vectors", "why_tests_cant": "The boundary cases (collinear, opposite) are a measure zero set that random tests never hit.", "anchors": ["libflatsurf/src/vector.cc: Vector::inSector"]}
{"id": "C16", "title": "Slope and length comparisons are strict weak orders", "statement": "CompareSlope and CompareLength are strict weak orders whose equivalence is same slope / same length, so they can be used in std::map and std::sort without undefined behaviour.", "quantifier": "all non-zero vectors", "why_tests_cant": "Transitivity is a statement about triples in an infinite set; violating it is undefined behaviour in the standard library.", "anchors": ["libflatsurf/src/vector.cc: CompareSlope, CompareLength"]}
{"id": "C17", "title": "A flat triangulation stays flat under flips", "statement": "After any sequence of successful flips each face still has vectors summing to zero and turning counterclockwise, opposite half edges have opposite vectors and area2() is unchanged; flip succeeds exactly when the two triangles at e form a strictly convex quadrilateral and throws otherwise.", "quantifier": "all flat triangulations, all flip sequences", "why_tests_cant": "Invariant over unbounded histories and exact arithmetic.", "anchors": ["libflatsurf/src/flat_triangulation.cc: flip, updateAfterFlip, convex, check, area2"]}
{"id": "C18", "title": "Construction of a flat triangulation validates the geometry", "statement": "FlatTriangulation(combinatorial, vectors) throws unless there is one vector for each edge and the vectors sum to zero, are non-zero and turn counterclockwise on each non-boundary face; if it succeeds the result is that surface with these vectors and vector(-e) = -vector(e) for all e. All flat geometries are accepted.", "quantifier": "all vector assignments", "why_tests_cant": "Ranges over all inputs to the constructors.", "anchors": ["libflatsurf/src/flat_triangulation.cc: constructors, check"]}
{"id": "C19", "title": "delaunay(e) is the in-circle test and delaunay() repairs it", "statement": "delaunay(e) returns DELAUNAY / AMBIGUOUS / NON_DELAUNAY according to the opposite vertex being outside / on / inside the circumcircle of the face; the answer does not depend on choosing e or -e; a NON_DELAUNAY edge is always flippable and becomes DELAUNAY by the flip. On a closed surface, delaunay() never throws, when it returns no edge is NON_DELAUNAY and the area is unchanged, the flipping never revisits a triangulation, and it terminates when the vectors are in a lattice (e.g. for integer and rational coordinates).", "quantifier": "all flat triangulations and edges with faces on both sides; for delaunay(), all closed flat triangulations", "why_tests_cant": "Real-algebraic statement for all exact coordinates.", "anchors": ["libflatsurf/src/flat_triangulation.cc: delaunay(Edge), delaunay()"]}
{"id": "C20", "title": "Cone angles are positive integers that add up", "statement": "At a vertex in the interior of a flat surface, angle(vertex) is at least one and, multiplied by 2π, the sum of the angles of the corners at the vertex. On a closed surface the sum of angle over all vertices is half the number of faces (Gauss-Bonnet).", "quantifier": "all closed flat triangulations", "why_tests_cant": "A global identity on all surfaces.", "anchors": ["libflatsurf/src/flat_triangulation.cc: angle"]}
{"id": "C21", "title": "Every direction lies in exactly the sectors it should", "statement": "For a non-zero vector v and a vertex of cone angle 2πk, exactly k half edges e at the vertex satisfy inSector(e, v); sector(e, CCW, v) and sector(e, w, CCW, v) terminate and return the first sector one gets to by turning counterclockwise to v, with a full turn if the start is excluded; sector(e, v) and sector(e, vertical, v) return the sector one gets to by turning by less than half a turn, in either direction, staying in the half plane of the vertical in the second case. (Turning clockwise is property C69.)", "quantifier": "all closed flat triangulations, vertices, directions", "why_tests_cant": "Termination and uniqueness for all cone angles.", "anchors": ["libflatsurf/src/flat_triangulation.cc: inSector, sector"]}
{"id": "C22", "title": "Linear maps and scaling act correctly on surfaces", "statement": "applyMatrix(M) with det M ≠ 0 yields a valid flat triangulation (mirrored if det M < 0) with vectors M·v and area |det M| times the original; det M = 0 is rejected; scale(c) multiplies area by c², applying M then N equals applying N·M.", "quantifier": "all closed flat triangulations, all 2×2 matrices", "why_tests_cant": "Holds for all matrices, including orientation reversing ones which change the combinatorics.", "anchors": ["libflatsurf/src/flat_triangulation.cc: applyMatrix, scale"]}
{"id": "C23", "title": "The vector of a chain is the sum of its half edges", "statement": "At any point, converting a Chain to a Vector gives the sum over the edges of coefficient times edge vector, and the approximate vector encloses it, whatever sequence of +=, -=, unary -, copies and conversions was executed before; comparisons of a chain with a Bound compare the length of that vector. (For *= see C64.)", "quantifier": "all operation histories on any number of chains", "why_tests_cant": "The vector is cached with lazily applied moves and a cost heuristic, so the code path depends on the history.", "anchors": ["libflatsurf/src/chain.cc: operators", "libflatsurf/src/chain_vector.cc: ChainVector"]}
{"id": "C24", "title": "Chains form the free abelian group on the edges", "statement": "Chain arithmetic satisfies the group laws, c[e] = -c[-e], == holds exactly when all coefficients agree, operator bool is false exactly for zero, iteration reports exactly the non-zero coefficients, equal chains have equal hashes.", "quantifier": "all chains", "why_tests_cant": "Algebraic laws on an infinite group.", "anchors": ["libflatsurf/src/chain.cc", "libflatsurf/src/chain_iterator.cc"]}
{"id": "C25", "title": "Comparing vectors with a Bound is comparing lengths", "statement": "v < bound / v > bound are exactly the comparisons of the Euclidean length with the bound, Bound ordering is the ordering of the lengths, multiplying a bound scales the length, Bound::lower(v) ≤ |v| ≤ Bound::upper(v).", "quantifier": "all vectors and bounds", "why_tests_cant": "Uses squares instead of square roots; must be exact for all values.", "anchors": ["libflatsurf/src/bound.cc", "libflatsurf/src/vector.cc: operator<, operator> with Bound"]}
{"id": "C26", "title": "QuadraticPolynomial::positive decides positivity on [0,1]", "statement": "positive() returns true exactly when a t² + b t + c > 0 for all t in [0,1].", "quantifier": "all coefficients a, b, c", "why_tests_cant": "A universally quantified real-algebraic decision; corner cases lie on measure zero sets.", "anchors": ["libflatsurf/src/quadratic_polynomial.cc: positive"]}
{"id": "C27", "title": "Half edge and edge sets behave like sets", "statement": "HalfEdgeSet/EdgeSet insert, erase, contains, size, empty, disjoint, iteration, and == of HalfEdgeSet, agree with mathematical finite sets for every history of operations. (== of EdgeSet is C65.)", "quantifier": "all operation histories", "why_tests_cant": "The bitset is resized lazily; equal sets may have different internal sizes.", "anchors": ["libflatsurf/src/indexed_set.cc", "libflatsurf/src/indexed_set_iterator.cc", "libflatsurf/src/half_edge_set.cc", "libflatsurf/src/edge_set.cc"]}
{"id": "C28", "title": "Tracked maps follow the edges they describe", "statement": "When half edges are renamed by a swap, or removed, data in HalfEdgeMap, EdgeMap, OddHalfEdgeMap and sets registered with the surface keeps being attached to the same edge.", "quantifier": "all surfaces, all maps and sets, all pairs of half edges; for HalfEdgeMap all pairs with a != -b, which are the ones used by collapse", "why_tests_cant": "Aliasing among the four half edges involved.", "anchors": ["libflatsurf/src/tracked.cc: default handlers", "libflatsurf/src/flat_triangulation_combinatorial.cc: swap"]}
{"id": "C29", "title": "Union-find computes the generated equivalence relation", "statement": "After any sequence of join operations two elements have the same representative exactly when they are connected by joins; path compression never changes the answer.", "quantifier": "all sequences of find and join", "why_tests_cant": "Unbounded histories with mutable structure.", "anchors": ["libflatsurf/src/util/union_find.ipp"]}
{"id": "C30", "title": "Points compare by position on the surface", "statement": "A Point built from barycentric coordinates in a face is the same Point when described from the other two half edges of the face, from the face across the edge for points on an edge, from any half edge at the vertex for vertices, or with rescaled coordinates; different positions are different Points; non-normalizable coordinates are rejected.", "quantifier": "all points of all closed flat triangulations", "why_tests_cant": "Normal forms over a continuum, with boundary cases on edges and vertices.", "anchors": ["libflatsurf/src/point.cc: normalize, operator==, coordinates, rotate, crossed, on, at, in"]}
{"id": "C31", "title": "Coordinates in an adjacent face describe the same position", "statement": "Re-expressing a point in barycentric coordinates across an edge, rotating in a face and converting between cartesian and barycentric coordinates do not move the point.", "quantifier": "all faces and coordinates", "why_tests_cant": "Real-algebraic identities for all inputs.", "anchors": ["libflatsurf/src/point.cc: crossed, rotated, cartesian, barycentric"]}
{"id": "C32", "title": "Equal points have equal hashes", "statement": "Points which compare equal have equal hashes, whichever face, rotation or scaling of the coordinates was used to describe them. (For chains see C24, for saddle connections C71.)", "quantifier": "all pairs of equal points of all closed surfaces and all three ways to hash quotients", "why_tests_cant": "A violation silently loses elements of hash tables; depends on the representation.", "anchors": ["libflatsurf/src/point.cc: hash", "libflatsurf/src/vertex.cc: hash", "libflatsurf/src/edge.cc: hash"]}
{"id": "C33", "title": "A flip deformation maps points to the same position", "statement": "The image of a point under the deformation returned by a flip has the same position relative to the unflipped edges as the original.", "quantifier": "all convex quadrilaterals and points in them", "why_tests_cant": "Continuum of points with boundary cases.", "anchors": ["libflatsurf/src/flip_deformation_relation.cc"]}
{"id": "C34", "title": "A linear deformation maps points and has an inverse", "statement": "The deformation returned by applyMatrix maps a point to the point at the image of its position under the matrix M if det M > 0 or the point is on an edge or vertex; section() exists iff det M divides the entries of M (it throws otherwise) and maps the image back to the point.", "quantifier": "all matrices with non-zero determinant, all points", "why_tests_cant": "Orientation reversing matrices change the faces.", "anchors": ["libflatsurf/src/linear_deformation_relation.cc"]}
{"id": "C35", "title": "Inserting a marked point keeps other points where they are", "statement": "The deformation returned by insertAt maps each point in the subdivided face to the point at the same position in one of the three new faces.", "quantifier": "all points of the face", "why_tests_cant": "Case distinction over three subtriangles and their common edges.", "anchors": ["libflatsurf/src/insert_marked_point_in_face_deformation_relation.cc"]}
{"id": "C36", "title": "Deformations compose", "statement": "(g*f)(x) = g(f(x)), trivial deformations are neutral, composition is associative on images, composing with mismatched domain throws, section of a composite is the composite of the sections in reverse order.", "quantifier": "all composable deformations", "why_tests_cant": "Laws over all deformations.", "anchors": ["libflatsurf/src/deformation.cc", "libflatsurf/src/composite_deformation_relation.cc"]}
{"id": "C37", "title": "Equivalence classes coincide exactly for equivalent surfaces", "statement": "For connected surfaces the combinatorial equivalence class codes of two surfaces agree exactly if there is a relabelling taking one to the other; the reported number of automorphisms is the number of such relabellings of the surface to itself.", "quantifier": "all connected closed triangulations", "why_tests_cant": "A complete invariant over an infinite class.", "anchors": ["libflatsurf/src/equivalence_class_code.cc", "libflatsurf/src/impl/equivalence_walker.hpp", "libflatsurf/src/combinatorial_equivalence.cc", "libflatsurf/src/impl/combinatorial_equivalence_walker.hpp"]}
{"id": "C38", "title": "Linear normalization is invariant under the group", "statement": "The normalizing matrix attached to a pair of edges sends them to a standard position that is the same for all surfaces in the orbit of the chosen group (SL±, GL), has the stated determinant, and throws if the division is not exact.", "quantifier": "all pairs of linearly independent vectors, all group elements", "why_tests_cant": "Identity over all matrices.", "anchors": ["libflatsurf/src/linear_equivalence.cc: orthonormalize, orthogonalize"]}
{"id": "C39", "title": "Saddle connection filters only ever restrict", "statement": "Calling bound, lowerBound, source, sector(half edge), sector(vector, vector), sector(saddle connection, saddle connection) on a SaddleConnections repeatedly yields the intersection of the restrictions, independent of their order, and no saddle connection is in more than one of the remaining sectors. (That debug builds do not fail is C82.)", "quantifier": "all sequences of filter calls", "why_tests_cant": "Filters are accumulated destructively with min/max and sector refinement.", "anchors": ["libflatsurf/src/saddle_connections.cc: bound, lowerBound, sector, Sector::refine, Sector::contains"]}
{"id": "C40", "title": "The saddle connection search is sound and loses nothing", "statement": "Iterating over the saddle connections with a bound comes to an end without an error. Every saddle connection that is reported hits its first vertex exactly at its end when the triangles that it crosses are developed into the plane; none is reported twice; and what is reported are exactly the saddle connections in the sectors searched which respect the bounds, i.e., no sector that is pruned contains a saddle connection within the bounds.", "quantifier": "all closed flat triangulations, all sequences of calls that restrict the search and contain a bound, debug and release builds", "why_tests_cant": "Infinite search tree with an explicit stack machine.", "anchors": ["libflatsurf/src/saddle_connections_iterator.cc"]}
{"id": "C41", "title": "by-length enumeration is sorted and complete", "statement": "saddleConnections().byLength() reports connections in non-decreasing length, each exactly once, and exactly those reported without byLength. Without a bound, the first n connections that are reported are the n shortest ones that the restrictions admit.", "quantifier": "all closed surfaces, all sequences of valid restrictions; with a bound: the whole enumeration; without a bound: its first n elements for every n that does not exceed the number of admitted saddle connections", "why_tests_cant": "Produced in annuli of growing radius; equal lengths and annulus boundaries are corner cases.", "anchors": ["libflatsurf/src/saddle_connections_by_length_iterator.cc"]}
{"id": "C42", "title": "Reversing a saddle connection or path is an involution", "statement": "-(-c) = c, the vector of -c is the negative, source and target are exchanged; -path reverses order and orientation, is closed iff path is and -(-p) = p; in builds without assertions, the area of a closed path changes sign under reversal, and if its vectors sum to zero, it is twice the signed area of the polygon and does not depend on the start.", "quantifier": "all saddle connections and paths", "why_tests_cant": "Laws over all paths.", "anchors": ["libflatsurf/src/saddle_connection.cc: operator-", "libflatsurf/src/path.cc: operator-, reversed, closed, area"]}
{"id": "C43", "title": "Iterating a path visits each connection once", "statement": "Iteration from begin() to end() of a path visits its connections in order exactly once and terminates; cyclic continuation from the last returns to the first; appending and splicing another path inserts its connections at the right place.", "quantifier": "all paths", "why_tests_cant": "The iterator is cyclic and its equality depends on flags.", "anchors": ["libflatsurf/src/path_iterator.cc"]}
{"id": "C44", "title": "Classification of faces with respect to a vertical is well defined", "statement": "classifyFace does not depend on which half edge of the face is passed and says exactly how the vertical flow crosses the face; each non-degenerate face has exactly one classification; large edges are exactly those whose horizontal length is at least that of its four neighbours.", "quantifier": "all faces, all verticals", "why_tests_cant": "All sign patterns of the projections.", "anchors": ["libflatsurf/src/vertical.cc: classifyFace, large"]}
{"id": "C45", "title": "Vertical caches never go stale", "statement": "large(e), ccw(e), orientation(e), project(e) and projectPerpendicular(e) of a Vertical return what a freshly created Vertical would return after any sequence of flips and queries. (For orientation(e) of half edges orthogonal to the vertical, this can only be said without the interval approximations of C60.)", "quantifier": "all histories of queries and of flips of edges with faces on both sides, including flips that throw", "why_tests_cant": "Depends on which values were cached before which flip.", "anchors": ["libflatsurf/src/vertical.cc: update handlers"]}
{"id": "C46", "title": "Lengths arithmetic follows the Zorich induction", "statement": "Lengths::push/pop/subtract/subtractRepeated keep the running sum equal to the sum of the pushed labels; subtractRepeated removes the largest multiple that keeps the minuend positive; labels round trip.", "quantifier": "all stacks of labels and length assignments", "why_tests_cant": "Unbounded histories and arbitrary exact lengths.", "anchors": ["libflatsurf/src/lengths.cc"]}
{"id": "C47", "title": "Three-valued answers of a flow decomposition are sound", "statement": "Definite answers of hasCylinder(), and the answer true of parabolic(), cannot change when undetermined components are decomposed further; when all components are determined, hasCylinder() and parabolic() are correct. (For completelyPeriodic() see C79, for the answer false of parabolic() see C80.)", "quantifier": "all lists of components with any mix of true/false/indeterminate", "why_tests_cant": "Three-valued logic; mixed determined/undetermined states depend on the decomposition limit.", "anchors": ["libflatsurf/src/flow_decomposition.cc: hasCylinder, completelyPeriodic, parabolic"]}
{"id": "C48", "title": "Embedding of component triangulations is injective", "statement": "The half edges in the faces of the triangulations of all flow components are mapped bijectively to the half edges of the triangulation of the decomposition. A connection on the perimeter of one component and its negative, possibly on the perimeter of another component, are mapped to opposite half edges, and so are opposite half edges of the same component.", "quantifier": "all decompositions", "why_tests_cant": "Numbering depends on all components and their perimeters.", "anchors": ["libflatsurf/src/flow_decomposition.cc: firstInnerEdge, halfEdge", "libflatsurf/src/flow_triangulation.cc: embedding"]}
{"id": "C49", "title": "Serialization round-trips", "statement": "Deserializing what was serialized gives an equal object for half edges, edges, bounds, permutations, triangulations without boundary (combinatorial and flat), chains, saddle connections, vertices and vertical directions. (For surfaces with boundary see C78.)", "quantifier": "all serializable objects", "why_tests_cant": "All objects; tests serialize a handful.", "anchors": ["libflatsurf/flatsurf/cereal.hpp"]}
{"id": "C50", "title": "Surfaces which compare equal are indistinguishable", "statement": "Two triangulations that compare equal answer nextAtVertex, nextInFace and boundary in the same way.", "quantifier": "all pairs of triangulations", "why_tests_cant": "Equality is checked on part of the data only.", "anchors": ["libflatsurf/src/flat_triangulation_combinatorics.cc: operator=="]}
{"id": "C51", "title": "Half edge intersections are ordered along the half edge", "statement": "Sorting intersections of saddle connections with a half edge orders them by their position along the half edge.", "quantifier": "all sets of intersections with one half edge", "why_tests_cant": "Comparison by cross multiplication of fractions with signs.", "anchors": ["libflatsurf/src/half_edge_intersection.cc"]}
{"id": "C52", "title": "Mapping a path through a retriangulation terminates", "statement": "Applying the deformation returned by eliminateMarkedPoints (or any composed retriangulation) to a path terminates.", "quantifier": "all paths", "why_tests_cant": "Termination for all inputs.", "anchors": ["libflatsurf/src/generic_retriangulation_deformation_relation.cc: operator()(Path)"]}
{"id": "C53", "title": "Sampling saddle connections never repeats", "statement": "The sampling iterator never reports the same saddle connection twice. Everything that it reports is a saddle connection that satisfies all the restrictions that have been put on the search. It never fails to find another one.", "quantifier": "all closed surfaces, all restrictions of a search to vertices, half edges and to a minimum length, all sequences of random choices of any length", "why_tests_cant": "All random schedules.", "anchors": ["libflatsurf/src/saddle_connections_sample_iterator.cc"]}
{"id": "C54", "title": "Moving a point by a vector is consistent", "statement": "Point + v crosses the faces the segment meets and ends at the position p + v in the developed plane; moving by v then w inside the developed star equals moving by v + w.", "quantifier": "all points and vectors staying away from singularities", "why_tests_cant": "Unbounded number of face crossings.", "anchors": ["libflatsurf/src/point.cc: operator+="]}
{"id": "C55", "title": "The contour of a component is traversed from left to right", "statement": "Building the contour of a component with a unique large edge terminates and the resulting top and bottom edge sequences both run from the left end of the large edge to its right end, with all horizontal steps positive.", "quantifier": "all surfaces without vertical edges", "why_tests_cant": "Recursive search with unbounded depth.", "anchors": ["libflatsurf/src/contour_component.cc: makeContour"]}
{"id": "C56", "title": "Multiplying a cycle from the left is composition", "statement": "cycle *= p replaces p by cycle∘p, where the cycle maps each of its entries to the next one, in the same way as p *= cycle replaces p by p∘cycle.", "quantifier": "all permutations, all cycles", "why_tests_cant": "The library itself only uses transpositions, for which a cycle and its inverse cannot be told apart.", "anchors": ["libflatsurf/src/permutation.cc: operator*=(const std::vector<T>&, Permutation<T>&)"]}
{"id": "C57", "title": "Malformed combinatorial data is always reported", "statement": "Constructing a FlatTriangulationCombinatorial from vertices and boundaries which do not describe a gluing of triangles with exactly that boundary (odd number of half edges, boundary that is not closed, faces with one side, other non-triangular faces) throws std::invalid_argument.", "quantifier": "for all permutations of half edges and all lists of boundary half edges, in debug and release builds", "why_tests_cant": "The space of malformed inputs is unbounded; whether the check runs before the first bad access depends on the input and the build type.", "anchors": ["libflatsurf/src/flat_triangulation_combinatorial.cc: ImplementationOf<FlatTriangulationCombinatorial>::ImplementationOf", "libflatsurf/src/permutation.cc: Permutation::Permutation"]}
{"id": "C58", "title": "A rejected flip leaves the surface unchanged", "statement": "A flip that cannot be performed because e or -e is boundary or because e and -e are in the same face throws std::invalid_argument and leaves the surface exactly as it was.", "quantifier": "for all triangulations reachable by construction and flips and all half edges, in debug and release builds", "why_tests_cant": "Exception safety depends on which of several in-place updates detects the problem first.", "anchors": ["libflatsurf/src/flat_triangulation_combinatorial.cc: ImplementationOf<FlatTriangulationCombinatorial>::flip"]}
{"id": "C59", "title": "Slitting a loop", "statement": "slit(e) succeeds for every e that is not on the boundary and afterwards no vertex has more than one boundary half edge, also when e starts and ends at the same vertex.", "quantifier": "all triangulations, all half edges not on the boundary", "why_tests_cant": "The code splits vertices by looking for existing boundary only; whether that is enough depends on how the edge is glued.", "anchors": ["libflatsurf/src/flat_triangulation_combinatorics.cc: slit"]}
{"id": "C60", "title": "The interval arithmetic shortcut in orientation never changes the answer", "statement": "v.orientation(w) for number field elements and exact reals returns the sign of the inner product, for every way interval arithmetic may round.", "quantifier": "all vectors, all enclosing approximations", "why_tests_cant": "Depends on how the approximations are rounded; the wrong answer needs zero to be an end point of the enclosure.", "anchors": ["libflatsurf/src/vector.cc: VectorWithError::orientation, VectorExact::orientation"]}
{"id": "C61", "title": "Equality of approximate vectors is sound", "statement": "If v == w has a definite answer for vectors with interval coordinates, then the answer is right for all vectors enclosed.", "quantifier": "all vectors of intervals and all vectors they enclose", "why_tests_cant": "A universally quantified statement about enclosed points; random tests with equal coordinates do not see it.", "anchors": ["libflatsurf/src/vector.cc: VectorWithError::operator=="]}
{"id": "C62", "title": "Division of integer vectors rounds towards zero", "statement": "v /= n for a vector of long long and an integer n other than zero gives the quotients rounded towards zero.", "quantifier": "all coordinates and divisors, including divisors which do not fit a long long", "why_tests_cant": "Fails at the extreme values only.", "anchors": ["libflatsurf/src/vector.cc: VectorBase::operator/=(const mpz_class&)"]}
{"id": "C63", "title": "Comparing quadratic polynomials compares their first roots", "statement": "p < q holds exactly when the first root of p in [0,1] is smaller than the first root of q in [0,1]; the comparison terminates.", "quantifier": "all pairs of non-zero polynomials with roots in [0,1], all enclosures of the roots that converge", "why_tests_cant": "The answer depends on the precision at which roots are separated, and on algebraic coincidences.", "anchors": ["libflatsurf/src/quadratic_polynomial.cc: operator<, root"]}
{"id": "C64", "title": "Multiplying a chain by an integer multiplies its vector", "statement": "After chain *= n the Vector and the approximate Vector of the chain are n times what they were before, whatever was executed before.", "quantifier": "all operation histories on any number of chains, all integers", "why_tests_cant": "The vector is cached, so the outcome depends on whether the chain had been converted to a vector before.", "anchors": ["libflatsurf/src/chain.cc: operator*=", "libflatsurf/src/chain_vector.cc: ChainVector"]}
{"id": "C65", "title": "Edge sets are equal when they have the same elements", "statement": "Comparing two EdgeSets with == is true exactly when they contain the same edges.", "quantifier": "all pairs of edge sets, after all histories", "why_tests_cant": "A test that compares a set with itself passes whatever == compares; the claim is about all pairs of independently built sets.", "anchors": ["libflatsurf/src/edge_set.cc: operator=="]}
{"id": "C66", "title": "Comparing a set does not disturb an iteration over it", "statement": "Comparing a HalfEdgeSet with another set (==, disjoint) while a loop over its elements is running does not change the elements the loop reports, and the loop still ends.", "quantifier": "all pairs of sets", "why_tests_cant": "Comparisons are const operations that resize a mutable bitset; whether that matters depends on the sizes of both bitsets.", "anchors": ["libflatsurf/src/indexed_set.cc: operator==, disjoint", "libflatsurf/src/indexed_set_iterator.cc"]}
{"id": "C67", "title": "Construction from a function yields opposite vectors on opposite half edges", "statement": "When FlatTriangulation(combinatorial, function) succeeds, the vectors form a flat triangulation; in particular vector(-e) = -vector(e).", "quantifier": "all combinatorial triangulations and all functions from half edges to vectors", "why_tests_cant": "Ranges over all functions; tests only use functions that are odd already.", "anchors": ["libflatsurf/src/flat_triangulation.cc: FlatTriangulation(FlatTriangulationCombinatorial&&, const std::function&), check", "libflatsurf/flatsurf/odd_half_edge_map.hpp: OddHalfEdgeMap"]}
{"id": "C68", "title": "Relabelling a flat surface renames its half edges", "statement": "relabel(p) on a closed flat surface, for a permutation p of its half edges with p(-e) = -p(e), yields a flat surface of the same area such that p maps vectors, faces and vertices to those of the result; other permutations and surfaces with boundary are rejected with an exception.", "quantifier": "all flat triangulations, all permutations", "why_tests_cant": "All permutations of all surfaces.", "anchors": ["libflatsurf/src/flat_triangulation.cc: relabel"]}
{"id": "C69", "title": "Turning clockwise to a direction finds the first sector", "statement": "sector(e, CW, v, exclude) and sector(e, w, CW, v, exclude) terminate and return the first sector one gets to by turning clockwise, from e and from the direction w in the sector of e, respectively, to the direction v, with a full turn if the start is excluded. In particular, the sector of e is ignored if v is in its interior and one turns clockwise from e.", "quantifier": "all closed flat triangulations, vertices of any cone angle, directions", "why_tests_cant": "It must hold at all cone angles; at a cone angle of 2π there is only one sector for each direction so mistakes do not show.", "anchors": ["libflatsurf/src/flat_triangulation.cc: sector", "libflatsurf/flatsurf/flat_triangulation.hpp: sector", "libflatsurf/src/saddle_connection.cc: clockwise"]}
{"id": "C70", "title": "delaunay() on surfaces with boundary", "statement": "delaunay() never throws on a valid flat triangulation, and when it returns no edge that has faces on both sides is NON_DELAUNAY, also when the surface has boundary.", "quantifier": "all flat triangulations, with or without boundary", "why_tests_cant": "Ranges over all surfaces with boundary; whether the missing boundary check shows depends on coordinates and on labels.", "anchors": ["libflatsurf/src/flat_triangulation.cc: delaunay(Edge), delaunay()"]}
{"id": "C71", "title": "Equal saddle connections hash equally, so simple() detects repeated segments", "statement": "Saddle connections that compare equal have equal hashes, and Path::simple() is true exactly if no two segments of the path compare equal.", "quantifier": "all saddle connections and paths of all surfaces", "why_tests_cant": "Holds as long as each saddle connection is only ever described by one chain; the descriptions range over all homologous chains.", "anchors": ["libflatsurf/src/saddle_connection.cc: operator==, hash", "libflatsurf/src/path.cc: simple", "libflatsurf/src/chain.cc: hash"]}
{"id": "C72", "title": "The area of a closed path is signed in all builds", "statement": "Path::area() of a closed path whose vectors sum to zero is twice the signed area, positive if the path goes around counterclockwise and negative if clockwise, also in builds with assertions.", "quantifier": "all closed paths, builds with and without assertions", "why_tests_cant": "A law over all closed paths; tests use counterclockwise ones.", "anchors": ["libflatsurf/src/path.cc: area", "libflatsurf/src/vector.cc: area2"]}
{"id": "C73", "title": "A path can be appended to itself", "statement": "path += path repeats the segments of the path.", "quantifier": "all paths, all capacities of the underlying vector", "why_tests_cant": "Depends on when the underlying vector reallocates.", "anchors": ["libflatsurf/src/path.cc: operator+="]}
{"id": "C74", "title": "Equality of path iterators is an equivalence", "statement": "If an iterator of a path equals two iterators of that path, then these are equal.", "quantifier": "all iterators of all paths", "why_tests_cant": "Ranges over all triples of iterators that have turned around any number of times.", "anchors": ["libflatsurf/src/path_iterator.cc: equal"]}
{"id": "C75", "title": "Angles and turns between saddle connections", "statement": "If one turns counterclockwise by α, less than the total angle at the vertex, from a saddle connection to a direction in a sector at the same vertex, then angle() is ⌊α/2π⌋, and ccw() says whether α or the clockwise turn is shorter (COLLINEAR if there is nothing to turn or both are the same). The search terminates. At different vertices, an invalid argument is reported.", "quantifier": "all surfaces, vertices of any cone angle, saddle connections and directions", "why_tests_cant": "The counting of half turns depends on all positions of half edges relative to the direction at vertices of any angle.", "anchors": ["libflatsurf/src/saddle_connection.cc: angle, ccw"]}
{"id": "C76", "title": "Components of a vertical direction partition the half edges", "statement": "Vertical::components() terminates and returns a partition of the half edges into the sets of half edges that can be joined by going around faces and crossing edges which are not vertical.", "quantifier": "all surfaces, all verticals", "why_tests_cant": "Depends on the order of half edges and on the positions of vertical edges in surfaces of any size.", "anchors": ["libflatsurf/src/vertical.cc: components, visit"]}
{"id": "C77", "title": "Equal surfaces have equal hashes", "statement": "When two combinatorial or flat triangulations compare equal with ==, then std::hash gives the same value for both.", "quantifier": "all pairs of triangulations", "why_tests_cant": "A violation makes hash tables lose entries for some pair of surfaces out of infinitely many; tests compare a few pairs.", "anchors": ["libflatsurf/src/flat_triangulation_combinatorial.cc: hash", "libflatsurf/src/flat_triangulation.cc: hash", "libflatsurf/src/permutation.cc: hash"]}
{"id": "C78", "title": "Surfaces with boundary can be serialized", "statement": "Deserializing a serialized triangulation with boundary gives the same triangulation with the same boundary.", "quantifier": "all triangulations with boundary", "why_tests_cant": "Tests only serialize surfaces without boundary.", "anchors": ["libflatsurf/flatsurf/cereal.hpp: Serialization<FlatTriangulationCombinatorial>"]}
{"id": "C79", "title": "Definite answers of completelyPeriodic() cannot change", "statement": "When completelyPeriodic() returns true or false, then it returns the same when undetermined components have been decomposed further.", "quantifier": "all lists of components with any mix of true/false/indeterminate, all ways they can be decomposed further", "why_tests_cant": "Tests only ask after the decomposition has been completed; mixed determined/undetermined states depend on the decomposition limit.", "anchors": ["libflatsurf/src/flow_decomposition.cc: completelyPeriodic"]}
{"id": "C80", "title": "The answer false of parabolic() cannot change", "statement": "When parabolic() returns false, then it returns false when undetermined components have been decomposed further.", "quantifier": "all lists of components with any mix of true/false/indeterminate, all ways they can be decomposed further", "why_tests_cant": "Tests only ask after the decomposition has been completed; the answer depends on data of undetermined components which is meaningless.", "anchors": ["libflatsurf/src/flow_decomposition.cc: parabolic", "libflatsurf/src/flow_component.cc: circumferenceHolonomy"]}
{"id": "C81", "title": "Linear equivalence classes coincide exactly for equivalent surfaces", "statement": "For connected surfaces, the codes of the equivalence classes modulo labels, SL, SL± or GL agree exactly if a relabelling together with an element of the group takes one surface to the other (orientation preserving if surfaces are oriented); the number of automorphisms is the number of such relabellings of the surface to itself. If there is no normal form over the ring of coordinates, the construction throws.", "quantifier": "all connected closed surfaces over all ordered rings, all groups", "why_tests_cant": "A complete invariant over an infinite class of surfaces and matrices.", "anchors": ["libflatsurf/src/linear_equivalence.cc", "libflatsurf/src/linear_equivalence_walker.cc", "libflatsurf/src/impl/equivalence_walker.hpp", "libflatsurf/src/equivalence_class.cc"]}
{"id": "C82", "title": "Restrictions of a search for saddle connections to sectors can be combined", "statement": "Calling sector(...) on a SaddleConnections that has already been restricted to a sector succeeds for all nonzero vectors, in debug builds and in release builds.", "quantifier": "all closed flat triangulations, all sequences of restrictions", "why_tests_cant": "The assertions at the beginning of a refinement depend on how the sector was refined before; tests restrict only once.", "anchors": ["libflatsurf/src/saddle_connections.cc: Sector::refine, sector"]}
{"id": "C83", "title": "The order of intersections is consistent with their positions", "statement": "If a and b are intersections of saddle connections with possibly different half edges of a surface and a.at() < b.at(), then a < b.", "quantifier": "all pairs of intersections of saddle connections with half edges", "why_tests_cant": "The fractions are compared by cross multiplication; whether this is correct depends on the signs of the coordinates of the half edges.", "anchors": ["libflatsurf/src/half_edge_intersection.cc: operator<", "libflatsurf/flatsurf/half_edge_intersection.hpp"]}
{"id": "C84", "title": "Linear deformations that reverse the orientation map points", "statement": "The deformation returned by applyMatrix maps a point to the point at the image of its position under the matrix M also when det M < 0.", "quantifier": "all closed surfaces, all matrices with negative determinant, all points", "why_tests_cant": "Whether the image of every point is at the right position depends on the surface, the matrix and the point; tests can only try a few, and the existing ones do not map inner points with reflections.", "anchors": ["libflatsurf/src/linear_deformation_relation.cc: operator()(Point)"]}
{"id": "C85", "title": "Linear deformations map paths", "statement": "The deformation returned by applyMatrix maps a path to the path whose segments have the vectors multiplied by the matrix M and leave and arrive in the images of the original corners, for det M > 0 and det M < 0; the result is a connected path, and section() maps it back to a path that compares equal to the original.", "quantifier": "all closed surfaces, all invertible matrices, all connected paths of any length", "why_tests_cant": "The corners of the image depend on the matrix, its orientation, and on whether segments are along half edges; the property is about all surfaces, matrices and paths.", "anchors": ["libflatsurf/src/linear_deformation_relation.cc: operator()(Path), section"]}
{"id": "C86", "title": "insertAt puts a vertex at the end of the vector", "statement": "Whenever insertAt(sector, vector) returns on a closed surface, the surface was changed by flipping edges (each flip is valid and the vector keeps describing the same straight segment from the same vertex) until the vector ends in the interior of a face or in the interior of an edge at its source, and then that face (or the two faces at that edge) was subdivided at the end of the vector: the new half edges are exactly the connections from the corners to the new vertex, all other half edges keep their vectors and the result is a valid flat surface with the same area. A vector that already ends inside causes no flips. A vector that is not in the sector is rejected with an invalid argument error before anything is changed.", "quantifier": "all closed flat surfaces, half edges and vectors in the sector of the half edge", "why_tests_cant": "The number of flips and turns depends on the vector and has no bound; sample surfaces and vectors cover few of the sequences.", "anchors": ["libflatsurf/src/flat_triangulation.cc: FlatTriangulation::insertAt"]}
{"id": "C87", "title": "Inserting a vertex in a face keeps paths", "statement": "The deformation returned by insertAt for a vertex in the interior of a face maps each path to the path in the codomain that consists of the same segments.", "quantifier": "all closed flat surfaces, vertices inserted in the interior of a face, and paths", "why_tests_cant": "Whether the data of a segment stays valid depends on the direction of the segment relative to the new vertex at each end.", "anchors": ["libflatsurf/src/insert_marked_point_in_face_deformation_relation.cc: operator()(Path)"]}
{"id": "C88", "title": "Inserting a vertex on an edge keeps the points of the adjacent faces where they are", "statement": "The deformation that insertAt returns for a vertex in the interior of an edge maps each point whose face() is one of the two faces at that edge to the point of the codomain at the same position, for points in the interior and on the boundary of these faces. For all other points, the coordinates are returned unchanged; they describe the same position in the codomain (though the returned point is still a point of the domain).", "quantifier": "all closed flat surfaces, vertices inserted in the interior of an edge, and points", "why_tests_cant": "Case distinction over four new faces and their common edges, for all positions of the new vertex.", "anchors": ["libflatsurf/src/insert_marked_point_on_edge_deformation_relation.cc: operator()(Point)"]}
{"id": "C89", "title": "A flip deformation maps paths to paths in the same place", "statement": "The deformation of a flip maps each connected path of saddle connections to a connected path of the surface after the flip. Segments keep their number, their order and their vectors, and each starts and ends in the same sector of the same vertex as before. The image is the only path with that property, and the section maps it back to a path that is equal to the original path.", "quantifier": "all closed flat surfaces, flips, and connected paths of saddle connections", "why_tests_cant": "The sectors of all vertices of the flipped quadrilateral change; the claim concerns all directions in all of them.", "anchors": ["libflatsurf/src/flip_deformation_relation.cc: operator()(Path)", "libflatsurf/src/flip_deformation_relation.cc: section"]}
{"id": "C90", "title": "Chains of images of paths under a flip describe them on the surface after the flip", "statement": "When a flip deformation maps a saddle connection to a saddle connection of the surface after the flip, the chain of the image, evaluated on that surface, has the vector of the saddle connection. Then, further deformations such as applyMatrix map the image correctly.", "quantifier": "all closed flat surfaces, flips and saddle connections", "why_tests_cant": "Only shows up when deformations are combined and for saddle connections whose chain contains the flipped edge.", "anchors": ["libflatsurf/src/flip_deformation_relation.cc: operator()(Path)", "libflatsurf/src/linear_deformation_relation.cc: operator()(Path)", "libflatsurf/src/saddle_connection.cc"]}
{"id": "C91", "title": "byLength() always gets to a first saddle connection or the end", "statement": "Starting to iterate over saddleConnections().byLength() returns for every surface and every sequence of restrictions: at the shortest admitted saddle connection, or at the end if no saddle connection is admitted.", "quantifier": "all closed surfaces (with exact coordinates), all sequences of valid restrictions, bounded or not", "why_tests_cant": "The annuli that are searched grow until something is found; whether they stop growing depends on the restrictions and on the surface.", "anchors": ["libflatsurf/src/saddle_connections_by_length.cc: begin", "libflatsurf/src/saddle_connections_by_length_iterator.cc: increment", "libflatsurf/src/flat_triangulation.cc: shortest"]}
{"id": "C92", "title": "The saddle connection iterator always gets to the next saddle connection", "statement": "Incrementing an iterator over the saddle connections of a closed surface returns whenever there is another saddle connection that is admitted by the restrictions, whether the search is bounded or not.", "quantifier": "all closed surfaces, all sequences of valid restrictions, every position of the iterator", "why_tests_cant": "The search is a depth first search in an infinite tree; whether a branch without any saddle connection is ever entered depends on the restrictions.", "anchors": ["libflatsurf/src/saddle_connections_iterator.cc: increment", "libflatsurf/src/saddle_connections.cc: sector"]}
{"id": "C93", "title": "The path of a saddle connection lists exactly the half edges it crosses", "statement": "For every saddle connection of a closed surface, path() and crossings() return without error. They list exactly the half edges that the saddle connection crosses, each from its left to its right, in the order in which they are met on the way from the source to the target; every reported intersection is in the interior of its half edge and strictly between the ends of the saddle connection.", "quantifier": "all closed surfaces, all saddle connections, debug and release builds", "why_tests_cant": "The number of crossings is unbounded, and the reconstruction follows the saddle connection by pruning an infinite search; a wrong branch at any vertex would never return.", "anchors": ["libflatsurf/src/saddle_connection.cc: path, crossings", "libflatsurf/src/saddle_connections_iterator.cc: skipSector, incrementWithIntersections"]}
{"id": "C94", "title": "Moving a point across a singularity is refused", "statement": "Point + v for a marked vertex either ends at a point that is reached by going straight without passing through a vertex whose total angle is not 2π, or an invalid_argument is thrown because there is such a vertex on the way.", "quantifier": "all closed surfaces, all marked vertices, all nonzero vectors, debug and release builds", "why_tests_cant": "Singularities on the way depend on the surface, the number of faces crossed is unbounded.", "anchors": ["libflatsurf/src/point.cc: operator+="]}
{"id": "C95", "title": "Moving a point ends", "statement": "Point + v returns or throws for every vector v, in particular, moving a point by the zero vector returns that point.", "quantifier": "all closed surfaces, all points, all vectors", "why_tests_cant": "Termination for vectors of any length on any surface.", "anchors": ["libflatsurf/src/point.cc: operator+="]}
{"id": "C96", "title": "A point can be given by Cartesian coordinates relative to a vertex", "statement": "Point(surface, face, (x, y)) is the endpoint of the segment (x, y) that starts at the source of face and goes into the face (including its sides); invalid_argument is thrown if the segment starts in another direction or passes through a vertex whose total angle is not 2π. No assertions fail.", "quantifier": "all closed surfaces, all half edges, all vectors, debug and release builds", "why_tests_cant": "Vectors of any length that cross any number of faces.", "anchors": ["libflatsurf/src/point.cc: Point(surface, face, xy)", "libflatsurf/flatsurf/point.hpp"]}
{"id": "C97", "title": "collapse never produces something which is not a triangulation", "statement": "For every half edge of a triangulation, collapse either throws or produces a triangulation.", "quantifier": "all triangulations, all half edges, debug and release builds", "why_tests_cant": "The special cases depend on how the faces next to the edge are glued to each other.", "anchors": ["libflatsurf/src/flat_triangulation_combinatorial.cc: collapse"]}
{"id": "C98", "title": "Sampling without anything to search is an error", "statement": "When a search has been restricted such that there is nothing left to search, then asking for a sample is reported as an error.", "quantifier": "all sequences of restrictions of a search for saddle connections", "why_tests_cant": "Undefined behavior can look like any other behavior in a test.", "anchors": ["libflatsurf/src/saddle_connections_sample_iterator.cc", "SaddleConnectionsSampleIterator"]}
{"id": "C99", "title": "Every saddle connection can be sampled", "statement": "For every saddle connection that satisfies the restrictions of a search, there is a sequence of random choices such that the sampling iterator reports that saddle connection.", "quantifier": "all closed surfaces, all restrictions of a search to vertices, half edges and to a minimum length, all saddle connections", "why_tests_cant": "There are infinitely many saddle connections, and a random sample only sees a few.", "anchors": ["libflatsurf/src/saddle_connections_sample_iterator.cc", "SaddleConnectionsSampleIterator::increment"]}
{"id": "C100", "title": "Sampling between two directions", "statement": "When there is a saddle connection that satisfies all the restrictions of a search, including restrictions to sectors between two directions, then the sampling iterator reports a saddle connection.", "quantifier": "all closed surfaces, all sequences of restrictions of a search without an upper bound, all random choices", "why_tests_cant": "A test that does not terminate does not show that the code does not terminate.", "anchors": ["libflatsurf/src/saddle_connections_sample_iterator.cc", "libflatsurf/src/saddle_connections_iterator.cc"]}
{"id": "C101", "title": "Connections on the perimeters of contour components show up once with each sign", "statement": "When there is a unique large edge in each component of a contour decomposition, no half edge shows up twice in the perimeters of the components, and every half edge that shows up in a perimeter also shows up with the opposite sign in the same perimeter.", "quantifier": "all surfaces without vertical edges that have a unique large edge in each component", "why_tests_cant": "Contours can be arbitrarily long and depend on the geometry of the entire surface.", "anchors": ["libflatsurf/src/contour_component.cc: perimeter, makeContour", "libflatsurf/src/contour_component_state.cc: ContourComponentState"]}
{"id": "C102", "title": "The areas of contour components add up to the area of the surface", "statement": "When there is a unique large edge in each component of a contour decomposition, the areas of the components add up to the area of the surface.", "quantifier": "all surfaces without vertical edges that have a unique large edge in each component", "why_tests_cant": "Relates sums over all contours to a sum over all faces of an arbitrary surface.", "anchors": ["libflatsurf/src/contour_component.cc: area", "libflatsurf/src/contour_decomposition.cc: components"]}
{"id": "C103", "title": "Going around the perimeter of a contour component", "statement": "Stepping to the next or the previous connection visits the perimeter of a contour component in cyclic order, the two are inverse to each other, connections that are not on the perimeter are rejected, and the perimeter is a closed path on the surface.", "quantifier": "all surfaces without vertical edges, all connections", "why_tests_cant": "Special cases at the ends of the top and the bottom of contours of any length.", "anchors": ["libflatsurf/src/contour_component.cc: nextInPerimeter, previousInPerimeter, perimeter"]}
{"id": "C104", "title": "Contours define an interval exchange transformation", "statement": "The large edge of a component is accepted by the constructor of interval exchange transformations when it is the only large edge in its component. The top and the bottom contour consist of the same edges, without repetitions, and both go from the left end of the large edge to its right end.", "quantifier": "all surfaces without vertical edges, all half edges from left to right that are the unique large edge in their component", "why_tests_cant": "The two contours are built independently by recursive searches with unbounded depth.", "anchors": ["libflatsurf/src/interval_exchange_transformation.cc: IntervalExchangeTransformation", "libflatsurf/src/contour_component.cc: makeContour"]}
{"id": "C105", "title": "The interval exchange transformation of a large edge does not depend on the direction of the edge", "statement": "The constructor that takes the unique large edge of a component gives the same interval exchange transformation for that half edge and for the opposite half edge.", "quantifier": "all surfaces without vertical edges, all large half edges", "why_tests_cant": "Only builds with assertions notice half edges in the wrong direction.", "anchors": ["libflatsurf/src/interval_exchange_transformation.cc: IntervalExchangeTransformation", "libflatsurf/flatsurf/interval_exchange_transformation.hpp: IntervalExchangeTransformation"]}
{"id": "C106", "title": "Flow components can be triangulated", "statement": "When the perimeter of a flow component bounds a polygon, the triangulation of the component can be constructed with and without assertions. It is a valid flat triangulation made of n-2 triangles for a perimeter of n connections, has the area of the polygon, contains each connection of the perimeter as a half edge with the same vector, glues connections to their negatives when both are on the perimeter, and its boundary are exactly the other connections.", "quantifier": "all vectors and perimeters, of any length, that bound a polygon that is monotone with respect to the vertical, all states of the build", "why_tests_cant": "The triangulation of monotone polygons is a sweep over polygons with any number of vertices in any order.", "anchors": ["libflatsurf/src/flow_triangulation.cc: ImplementationOf<FlowTriangulation>", "libflatsurf/flatsurf/flow_component.hpp: triangulation"]}
{"id": "C107", "title": "Area and width of flow components", "statement": "area2() of a flow component is the area2() of its triangulation and positive; widthRelative() is the largest horizontal distance of two points on its perimeter and positive.", "quantifier": "all perimeters that bound a polygon that is monotone with respect to the vertical", "why_tests_cant": "The area is computed from the perimeter, the triangulation is built by a sweep; they agree only if both are correct for any perimeter.", "anchors": ["libflatsurf/src/flow_component.cc: area2, widthRelative"]}
{"id": "C108", "title": "Holonomy of flow components", "statement": "holonomy() are the translations that take the connections at the bottom of a component that are not vertical to their counterparts at the top, in the order of the bottom. heightRelative() is a lower bound for the vertical part of any sum of these translations that is positive.", "quantifier": "all perimeters that bound a polygon, all sequences of connections that a trajectory might cross", "why_tests_cant": "There are infinitely many trajectories in a component.", "anchors": ["libflatsurf/src/flow_component.cc: holonomy, heightRelative"]}
{"id": "C109", "title": "Dimensions of cylinders", "statement": "For a cylinder, circumferenceHolonomy() is in the direction of the vertical and the sum of the vertical connections on its boundary, heightRelative() is positive, and 2 * widthRelative() * heightRelative() = area2() * norm(vertical())**2.", "quantifier": "all cylinders with any number of connections on their boundary", "why_tests_cant": "Cylinders can be of any shape.", "anchors": ["libflatsurf/src/flow_component.cc: circumferenceHolonomy, heightRelative, widthRelative, area2", "libflatsurf/flatsurf/flow_component.hpp: heightRelative"]}
{"id": "C110", "title": "Flow components with undetected vertical connections can be triangulated", "statement": "Whenever the perimeter of a flow component bounds a polygon, the triangulation of the component can be constructed, also when several of its vertices are on the same vertical line.", "quantifier": "all perimeters that bound a polygon", "why_tests_cant": "Vertices on a vertical line inside a component are rare and depend on how far the decomposition has been performed.", "anchors": ["libflatsurf/src/flow_triangulation.cc: ImplementationOf<FlowTriangulation>"]}
{"id": "C111", "title": "Triangulation of a decomposition has the same area", "statement": "The triangulation of a flow decomposition is a closed translation surface whose area is the sum of the areas of the components and which consists of the connections on the perimeters and the edges that cut the components into triangles.", "quantifier": "all decompositions into components whose perimeters bound polygons", "why_tests_cant": "The half edges of all components are numbered consecutively so that clashes only show up for surfaces with sufficiently many components.", "anchors": ["libflatsurf/src/flow_decomposition.cc: triangulation, firstInnerEdge, halfEdge", "libflatsurf/src/flow_triangulation.cc: embedding"]}
{"id": "C112", "title": "Collapsed surfaces exist and have no vertical half edges", "statement": "A FlatTriangulationCollapsed can be constructed from every closed translation surface and every nonzero direction: the constructor terminates and does not throw, also not in builds with assertions. No matter what has been flipped afterwards, no half edge of the collapsed surface is parallel to the direction, and the original surface and the direction are still the same. The zero vector is rejected with an invalid_argument exception.", "quantifier": "all closed surfaces, all directions, all histories of flips (including failed ones), builds with and without assertions", "why_tests_cant": "Whether collapsing works depends on how the faces around a vertical edge are glued to each other, in particular when they are next to faces that have already been collapsed.", "anchors": ["libflatsurf/src/flat_triangulation_collapsed.cc: FlatTriangulationCollapsed, vertical, collapse, updateBeforeCollapse, flip"]}
{"id": "C113", "title": "Faces of collapsed surfaces are triangles or collapsed", "statement": "Each face of a collapsed surface is a closed triangle oriented counterclockwise, or it consists of a half edge and its negative whose vectors add up to zero.", "quantifier": "all half edges of all collapsed surfaces, after any history of flips", "why_tests_cant": "The vectors are updated by hand in many different cases; a wrong update only shows for surfaces that reach that case.", "anchors": ["libflatsurf/src/flat_triangulation_collapsed.cc: updateBeforeCollapse, updateAfterFlip, fromHalfEdge"]}
{"id": "C114", "title": "Collapsing preserves the area", "statement": "The area of a collapsed surface, i.e., the total area of its triangles and of the triangles spanned by half edges and the connections that have been collapsed next to them, is the area of the original surface, after any history of flips.", "quantifier": "all collapsed surfaces, after any history of flips, builds with and without assertions", "why_tests_cant": "The area is an invariant of an unbounded sequence of flips and collapses.", "anchors": ["libflatsurf/src/flat_triangulation_collapsed.cc: area2, updateBeforeCollapse, updateAfterFlip"]}
{"id": "C115", "title": "Crossing a half edge of a collapsed surface", "statement": "The vectors of a half edge and of its negative add up to the connections returned by cross() for both of them. These connections are vertical; they point down for half edges that go to the right and up for half edges that go to the left.", "quantifier": "all half edges of all collapsed surfaces, after any history of flips", "why_tests_cant": "Connections are moved between half edges whenever an edge is flipped or collapsed.", "anchors": ["libflatsurf/src/flat_triangulation_collapsed.cc: cross, updateBeforeCollapse, updateAfterFlip", "libflatsurf/flatsurf/flat_triangulation_collapsed.hpp: cross"]}
{"id": "C116", "title": "Collapsed connections are never lost", "statement": "After a collapsed surface has been constructed, the connections returned by cross() for all half edges are exactly the vertical half edges of the original surface. Flips never remove connections. All connections are present with both orientations equally often.", "quantifier": "all collapsed surfaces, after any history of flips", "why_tests_cant": "Connections are moved between lists in many different cases; a list that is overwritten too early loses connections only on specific surfaces.", "anchors": ["libflatsurf/src/flat_triangulation_collapsed.cc: cross, updateBeforeCollapse, updateAfterFlip", "libflatsurf/src/path.cc: splice, push_front"]}
{"id": "C117", "title": "Flips of collapsed surfaces", "statement": "Flipping a half edge of a collapsed surface succeeds if and only if the half edge is large and the faces on both of its sides are triangles. Otherwise, an invalid_argument exception is thrown and the surface has not changed.", "quantifier": "all half edges of all collapsed surfaces, after any history of flips, builds with and without assertions", "why_tests_cant": "After the flip, an edge might have to be collapsed, which only works if all the internal data is consistent.", "anchors": ["libflatsurf/src/flat_triangulation_collapsed.cc: flip, updateAfterFlip", "libflatsurf/src/vertical.cc: large"]}
{"id": "C118", "title": "Vertical of a collapsed surface does not depend on earlier queries", "statement": "What the vertical of a collapsed surface returns for a half edge (large, projectPerpendicular, ccw, project, orientation) does not depend on what it has been asked before.", "quantifier": "all collapsed surfaces, all histories of queries, all half edges", "why_tests_cant": "Whether a cached value is returned depends on the history of queries.", "anchors": ["libflatsurf/src/vertical.cc: project, orientation, projectPerpendicular, ccw, large", "libflatsurf/src/odd_half_edge_map.cc: set"]}
{"id": "C119", "title": "Turning at a vertex of a collapsed surface", "statement": "For half edges that start at the same vertex of a collapsed surface, turn() terminates and returns the connections crossed by the half edges from the first one clockwise up to but not including the second one. For half edges that do not start at the same vertex, an invalid_argument exception is thrown.", "quantifier": "all pairs of half edges of all collapsed surfaces, after any history of flips", "why_tests_cant": "The set of half edges at each vertex is recorded separately from the permutation that the search walks through; if they ever disagree, the search does not end.", "anchors": ["libflatsurf/src/flat_triangulation_collapsed.cc: turn", "libflatsurf/src/vertex.cc: source, afterFlip", "libflatsurf/src/flat_triangulation_combinatorial.cc: resetVertexes"]}
{"id": "C120", "title": "Sectors of collapsed surfaces", "statement": "inSector() of a collapsed surface holds for exactly the vectors in the sector between a half edge (inclusive) and the other side of the triangle at the same vertex (exclusive). It holds for no vector if the face has been collapsed.", "quantifier": "all half edges of all collapsed surfaces, after any history of flips; all vectors", "why_tests_cant": "There are infinitely many vectors, and which faces are collapsed depends on the history.", "anchors": ["libflatsurf/src/flat_triangulation_collapsed.cc: inSector"]}
{"id": "C121", "title": "Deformations that rename half edges map points and paths", "statement": "relabel() returns a deformation to the surface with renamed half edges. A deformation that renames half edges without changing their vectors maps each point to the point with the same position in the renamed face, each path to the connected path of the renamed segments, and each half edge to the renamed half edge.", "quantifier": "all closed surfaces, all relabellings that respect opposite half edges, all points, all connected paths", "why_tests_cant": "There are infinitely many points and paths, and any permutation of the half edges can be used to relabel a surface.", "anchors": ["libflatsurf/src/combinatorial_deformation_relation.cc: CombinatorialDeformationRelation::operator()", "libflatsurf/src/flat_triangulation.cc: relabel", "libflatsurf/src/deformation.cc: operator()(HalfEdge)"]}
{"id": "C122", "title": "Deformations that rename half edges can be inverted", "statement": "The section of a deformation that renames half edges renames them back: it maps images of points and paths back to the points and paths. Such a deformation is trivial if and only if it fixes all half edges and their vectors. Points and paths are refused with an exception when vectors change.", "quantifier": "all closed surfaces, all bijections of half edges that respect opposite half edges, all points, all connected paths", "why_tests_cant": "There are infinitely many points and paths, and any bijection of the half edges can be used.", "anchors": ["libflatsurf/src/combinatorial_deformation_relation.cc: section, trivial, operator()"]}
{"id": "C123", "title": "Adding a shift to a surface", "statement": "Adding to a closed surface a shift (an odd assignment of vectors to the half edges that sums to zero in each face) moves all half edges linearly in time. If the area of every triangle stays positive for all times in [0, 1], then the result is the surface with the same triangulation whose vectors are the sums. If some half edge becomes zero at a time in (0, 1), then the shift is rejected with invalid_argument, and this is the only reason for it to be rejected. Otherwise, the half edges that are considered for being flipped are exactly the ones onto whose interior the opposite vertex of a triangle is moved when the area of the triangle first vanishes (and where neither of the other two half edges of the triangle is zero in the end); if there are none, then the half edges that are going to be collapsed are exactly the ones that are zero in the end, and each triangle whose area does not stay positive has such a half edge. Which case applies is determined in finitely many steps when the precision can be increased.", "quantifier": "all closed surfaces, all shifts, all times in [0, 1] and all correctly rounded approximate arithmetics", "why_tests_cant": "The areas are quadratic polynomials in the time and the decision has to be right for a continuum of times; a test can only look at particular shifts.", "anchors": ["libflatsurf/src/flat_triangulation.cc: FlatTriangulation::operator+(const OddHalfEdgeMap<Vector<T>>&)", "libflatsurf/src/quadratic_polynomial.cc: QuadraticPolynomial::positive, QuadraticPolynomial::root"]}
{"id": "C124", "title": "Mapping paths through a shift", "statement": "When a shift does not need flips or collapses, then the resulting deformation maps each path of saddle connections. The image of a saddle connection is a sequence of half edges that runs, in the triangles that the saddle connection crosses, from its start to its end, i.e., that is homotopic to it with fixed ends; so its vector in the shifted surface is the vector of the saddle connection plus the shifts of these half edges. The image of a path is the concatenation of these sequences. It is connected and starts and ends at the vertices where the path starts and ends. None of the internal checks fails. Points cannot be mapped and there is no section; both are reported as logic_error.", "quantifier": "all closed surfaces, shifts and connected paths of saddle connections, in debug and in release builds", "why_tests_cant": "A saddle connection can cross arbitrarily many half edges in arbitrary patterns.", "anchors": ["libflatsurf/src/shift_deformation_relation.cc: ShiftDeformationRelation::operator()", "libflatsurf/src/saddle_connection.cc: SaddleConnection::path"]}
{"id": "C125", "title": "Contours of collapsed surfaces", "statement": "When vertical edges of a surface have been collapsed, then decomposing it into contour components succeeds in debug and in release builds. Each half edge of the collapsed surface is in exactly one component and two half edges are in the same component exactly if they can be joined without crossing vertical edges. Each component has a large half edge from left to right; its bottom is not empty and goes from left to right, its top is not empty and goes from right to left; no half edge shows up twice on the perimeter, and each half edge on the perimeter starts at the vertex where the previous one ends. If there is a unique large edge in each component, then no half edge is on the perimeter of two components and the perimeters are closed under negation.", "quantifier": "all collapsed surfaces that can be obtained from a closed surface and a nonzero direction by collapsing and any sequence of flips, all approximations, debug and release builds", "why_tests_cant": "The collapsed surfaces reachable by flips and the shapes of their components are unbounded.", "anchors": ["libflatsurf/src/contour_decomposition_state.cc: ContourDecompositionState", "libflatsurf/src/contour_component.cc: ContourComponent", "libflatsurf/src/contour_connection.cc: ContourConnection"]}
{"id": "C126", "title": "Connections on the contour of a collapsed surface", "statement": "The connections on the contour of a component of a collapsed surface are those of the half edges at the bottom followed by those of the half edges at the top; next and previous connection go around this cycle. For each connection, its left, right and horizontal part and its perimeter can be computed and none of the internal checks fails (except possibly for the ones about the angles between saddle connections which are not covered). The connections on the left are vertical and point down, the ones on the right are vertical and point up, the horizontal part goes from left to right. The perimeter of a connection at the bottom is left, horizontal, right; at the top it is right, minus horizontal, left.", "quantifier": "all collapsed surfaces that can be obtained from a closed surface and a nonzero direction by collapsing and any sequence of flips, all components and connections, debug and release builds", "why_tests_cant": "How collapsed connections are distributed at a vertex depends on an arbitrary number of half edges at that vertex.", "anchors": ["libflatsurf/src/contour_connection.cc: ContourConnection::left, right, horizontal, perimeter, nextInPerimeter, previousInPerimeter", "libflatsurf/src/contour_component.cc: ContourComponent::perimeterContour"]}
{"id": "C127", "title": "Perimeters of contour components of collapsed surfaces", "statement": "The perimeter of each contour component of a collapsed surface can be computed, none of the internal checks fails (except possibly for the ones about simple paths and angles between saddle connections which are not covered), and its vectors add up to zero. If there is a unique large edge in each component, then the perimeters of all components together consist of each collapsed connection exactly once and of the horizontal connections at the bottoms once with each sign; in particular each vector shows up as often as its negative.", "quantifier": "all collapsed surfaces that can be obtained from a closed surface and a nonzero direction by collapsing and any sequence of flips, debug and release builds", "why_tests_cant": "No collapsed connection must be lost or repeated for any sequence of flips and collapses.", "anchors": ["libflatsurf/src/contour_component.cc: ContourComponent::perimeter", "libflatsurf/src/contour_connection.cc: ContourConnection::perimeter"]}
{"id": "C128", "title": "Areas of contour components of collapsed surfaces", "statement": "The areas of the contour components of a collapsed surface can be computed, the checks that the perimeter is closed and the area not negative never fail, and area() is three times area2(). If there is a unique large edge in each component, then the values of area2() add up to the doubled area of the original surface.", "quantifier": "all collapsed surfaces that can be obtained from a closed surface and a nonzero direction by collapsing and any sequence of flips, debug and release builds", "why_tests_cant": "The area is computed from perimeters of unbounded length that mix collapsed connections and half edges.", "anchors": ["libflatsurf/src/contour_component.cc: ContourComponent::area, area2", "libflatsurf/src/vector.cc: Vector::area2"]}
{"id": "C129", "title": "Making large edges unique in collapsed surfaces", "statement": "When makeUniqueLargeEdge returns for a large half edge of a collapsed surface, then there was no error, the surface has only been modified by flips, the half edge has only been renamed and turned to go from left to right with the same horizontal length, the reported half edges are exactly those that are joined to it by crossing edges without leaving triangles vertically, and it is the only large edge among them. A half edge that is not large is rejected in debug builds. When makeUniqueLargeEdges returns, there was no error, and no two large edges are joined to each other, no matter how half edges of equal length have been sorted.", "quantifier": "all collapsed surfaces that can be obtained from a closed surface and a nonzero direction by collapsing and any sequence of flips, all half edges, all numbers of steps after which the loops return, debug and release builds", "why_tests_cant": "Each flip can trigger collapses which rename half edges and delete the half edges that the algorithm remembers. This has to be right for any number of flips and collapses.", "anchors": ["libflatsurf/src/interval_exchange_transformation.cc: IntervalExchangeTransformation::makeUniqueLargeEdges, makeUniqueLargeEdge", "libflatsurf/src/tracked.cc: Tracked", "libflatsurf/src/edge_set.cc: EdgeSet"]}
{"id": "C130", "title": "Contour decompositions", "statement": "When a contour decomposition of a closed surface in a nonzero direction can be computed, then there was no error, each half edge of the collapsed surface is in exactly one component, no half edge shows up twice in the perimeters, the negative of each half edge of a perimeter is in the same perimeter, the perimeters are closed and consist of each collapsed connection once and of the half edges at the bottoms once with each sign, no area is negative and the areas of the components add up to the area of the surface.", "quantifier": "all closed surfaces, all nonzero directions, all orders of half edges of equal length, all numbers of steps after which the loops return, debug and release builds", "why_tests_cant": "The decomposition goes through collapses and flips whose number depends on the surface and the direction.", "anchors": ["libflatsurf/src/contour_decomposition.cc: ContourDecomposition::ContourDecomposition, components", "libflatsurf/src/contour_decomposition_state.cc: ContourDecompositionState::ContourDecompositionState", "libflatsurf/src/contour_component.cc: ContourComponent::perimeter, area"]}
{"id": "C131", "title": "Isomorphisms between surfaces are complete and without repetitions", "statement": "For the equivalences that take vectors into account (same vectors, vectors up to SL, vectors up to GL), isomorphisms(domain, codomain) of two connected closed surfaces returns deformations such that each maps half edges of the domain to half edges of the codomain by a renaming that is compatible with the triangulations and changes the vectors by an element of the group. Conversely, each such renaming is returned exactly once. In particular, the result is empty exactly when the surfaces are not equivalent, and no exception is thrown.", "quantifier": "All pairs of connected closed surfaces (whose triangle areas are units when the group is not trivial), all groups, with and without orientation, with and without assertions.", "why_tests_cant": "The tests only compute isomorphisms from a few surfaces to themselves and check that there are some. Completeness is a statement about all renamings of all surfaces.", "anchors": ["libflatsurf/src/equivalence.cc: ImplementationOf<Equivalence>::isomorphisms", "libflatsurf/src/linear_equivalence_walker.cc: deformation, normalization", "libflatsurf/src/combinatorial_equivalence_walker.cc: relabeling, normalization, deformation", "libflatsurf/src/impl/equivalence_walker.hpp: word"]}
{"id": "C132", "title": "Isomorphisms for combinatorial equivalence", "statement": "For combinatorial equivalence, isomorphisms(domain, codomain) of two connected closed surfaces returns each renaming of half edges that is compatible with the triangulations exactly once, as deformations that can be applied to half edges.", "quantifier": "All pairs of connected closed surfaces, with and without orientation, with and without assertions.", "why_tests_cant": "The tests only check that there are isomorphisms from a surface to itself, but never apply them and never ask for isomorphisms between surfaces with different vectors.", "anchors": ["libflatsurf/src/equivalence.cc: ImplementationOf<Equivalence>::isomorphisms", "libflatsurf/src/combinatorial_equivalence.cc: code", "libflatsurf/src/combinatorial_equivalence_walker.cc: relabeling, normalization, deformation"]}
{"id": "C133", "title": "isomorphism() finds an isomorphism of faces exactly if there is one", "statement": "For two connected closed surfaces, isomorphism() with the kind FACES returns nothing exactly if there is no 2×2 matrix together with a bijection of the half edges that are accepted by the filters of the caller, such that the bijection is compatible with the triangulations (preserving or reversing the orientation according to the sign of the determinant) and maps each half edge to one whose vector is the image under the matrix. If something is returned, then it consists of the linear map to the image of the surface under such a matrix and of a half edge together with its image under such a bijection. The search always ends and never fails.", "quantifier": "All pairs of connected closed surfaces, all filters for matrices and for half edges, with and without assertions.", "why_tests_cant": "The tests search for isomorphisms between a few surfaces and their deformations. That nothing is returned only if no matrix and no bijection exists is a statement about all matrices and bijections.", "anchors": ["libflatsurf/src/flat_triangulation.cc: FlatTriangulation::isomorphism", "libflatsurf/flatsurf/isomorphism.hpp: ISOMORPHISM"]}
{"id": "C134", "title": "isomorphism() finds an isomorphism of Delaunay cells exactly if there is one", "statement": "For two connected closed surfaces that are Delaunay triangulated, isomorphism() with the kind DELAUNAY_CELLS returns nothing exactly if there is no 2×2 matrix together with a bijection of the sides of the Delaunay cells that are accepted by the filters of the caller, such that the bijection respects how cells are glued and maps each side to one whose vector is the image under the matrix. If something is returned, then it comes from such a matrix and bijection. Surfaces that are not Delaunay triangulated are rejected when assertions are enabled.", "quantifier": "All pairs of connected closed Delaunay triangulated surfaces, all filters for matrices and for half edges, with and without assertions.", "why_tests_cant": "The tests search for isomorphisms between a few surfaces and their deformations. The edges inside Delaunay cells can be chosen in many ways which must not have an influence on the answer.", "anchors": ["libflatsurf/src/flat_triangulation.cc: FlatTriangulation::isomorphism", "libflatsurf/flatsurf/isomorphism.hpp: ISOMORPHISM"]}
{"id": "C135", "title": "isomorphism() for surfaces that are not connected", "statement": "For all closed surfaces, connected or not, isomorphism() with the kind FACES only returns an isomorphism if the surfaces are isomorphic.", "quantifier": "All pairs of closed surfaces.", "why_tests_cant": "The tests only use connected surfaces. A surface can be constructed from any vertex permutation, also when it has several components.", "anchors": ["libflatsurf/src/flat_triangulation.cc: FlatTriangulation::isomorphism"]}
{"id": "C136", "title": "A saddle connection can be found from its vector and from its direction", "statement": "For a saddle connection of a closed surface, SaddleConnection::inSector() called with the half edge at its source and its vector returns that saddle connection, and so does SaddleConnection::inSector() called with that half edge and the direction of the vector, given by any vector in that direction. What is returned for an arbitrary vector is a saddle connection that starts in the sector at the half edge in the direction of the vector; otherwise an invalid_argument is reported.", "quantifier": "All closed surfaces, all half edges and all saddle connections that start next to them, all vectors, with and without assertions, for any rounding of the bound on the length and any way to sort connections of the same length.", "why_tests_cant": "The tests look at the first saddle connections of a few surfaces. Saddle connections can cross any number of half edges.", "anchors": ["libflatsurf/src/saddle_connection.cc: SaddleConnection::inSector"]}
{"id": "C137", "title": "Asking for a vector that is not the vector of a saddle connection is an error", "statement": "SaddleConnection::inSector() called with a vector never returns a saddle connection with a different vector. If there is no saddle connection with that vector then an invalid_argument is reported.", "quantifier": "All closed surfaces, all half edges, all vectors.", "why_tests_cant": "The tests only ask for vectors that come from a saddle connection.", "anchors": ["libflatsurf/src/saddle_connection.cc: SaddleConnection::inSector", "libflatsurf/flatsurf/saddle_connection.hpp: SaddleConnection::inSector"]}
{"id": "C138", "title": "Asking for a saddle connection in some direction always returns", "statement": "SaddleConnection::inSector() called with a direction returns the saddle connection in that direction or reports an error if there is none.", "quantifier": "All closed surfaces, all half edges, all directions.", "why_tests_cant": "The tests only ask for directions of saddle connections. That a call never returns cannot be observed.", "anchors": ["libflatsurf/src/saddle_connection.cc: SaddleConnection::inSector", "libflatsurf/src/saddle_connections_by_length_iterator.cc: increment"]}
{"id": "C139", "title": "The reverse of a saddle connection is a saddle connection", "statement": "Walking along a saddle connection in the other direction is a saddle connection again, with source and target exchanged and the negative vector. The saddle connections of at most some length that are enumerated contain with each saddle connection its reverse.", "quantifier": "All closed surfaces, all saddle connections, all bounds for the length.", "why_tests_cant": "Tests only look at the saddle connections of finitely many surfaces up to some bound.", "anchors": ["libflatsurf/src/saddle_connection.cc: SaddleConnection::operator-", "libflatsurf/src/saddle_connections_iterator.cc: SaddleConnectionsIterator"]}
{"id": "C140", "title": "Retriangulations preserve directions at vertices", "statement": "If a retriangulation relates a direction at a vertex of the domain to a direction at a vertex of the codomain with the same total angle, then every direction at the vertex of the domain is mapped to the direction at the vertex of the codomain that has the same vector and the same angle to the related direction.", "quantifier": "All closed surfaces, all vertices that are related, all half edges and all directions in their sectors.", "why_tests_cant": "There are infinitely many directions at every vertex and the total angles at vertices are unbounded.", "anchors": ["libflatsurf/src/generic_retriangulation_deformation_relation.cc: GenericRetriangulationDeformationRelation::operator(), turn"]}
{"id": "C141", "title": "Retriangulations preserve straight segments", "statement": "The image of a segment between two vertices under a retriangulation is a straight chain of saddle connections with the same vector that starts at the same angle. If there is such a chain that only crosses marked points then it is the image. A segment at a vertex that has no counterpart has no image.", "quantifier": "All closed surfaces, all segments between related vertices, all upper bounds for the length.", "why_tests_cant": "There are infinitely many segments of unbounded length; the tests only map a few saddle connections.", "anchors": ["libflatsurf/src/generic_retriangulation_deformation_relation.cc: GenericRetriangulationDeformationRelation::operator()"]}
{"id": "C142", "title": "Tightening preserves end points and holonomy", "statement": "When a path is tightened, the sum of the vectors of its segments does not change. The tightened path goes from the vertex at which the path starts to the vertex at which the path ends, and each of its segments starts at the vertex at which the previous one ends.", "quantifier": "All closed surfaces, all paths, all numbers of steps after which tightening ends.", "why_tests_cant": "There are infinitely many paths and the number of replacements is unbounded; the tests tighten a few paths.", "anchors": ["libflatsurf/src/path.cc: Path::tighten, tightenClockwise"]}
{"id": "C143", "title": "Tightened paths are tight", "statement": "At every vertex that a tightened path of saddle connections goes through, the angle on both sides of the path is at least π. A path for which this is the case does not change when it is tightened. Tightening a path twice has the same result as tightening it once.", "quantifier": "All closed surfaces, all paths and all choices of arithmetic (exact or through balls).", "why_tests_cant": "The angles at vertices, the lengths of saddle connections and the number of segments are unbounded.", "anchors": ["libflatsurf/src/path.cc: Path::tighten", "libflatsurf/src/saddle_connection.cc: SaddleConnection::angle, SaddleConnection::ccw"]}
{"id": "C144", "title": "A path cancels with its reverse", "statement": "A tight path of saddle connections followed by its reverse is tightened to the empty path.", "quantifier": "All closed surfaces and all tight paths.", "why_tests_cant": "There are infinitely many tight paths with any number of segments.", "anchors": ["libflatsurf/src/path.cc: Path::tighten, Path::operator-"]}
{"id": "C145", "title": "Vertical connections detected by a decomposition start and end in the right sectors", "statement": "When the decomposition of a flow component reports that known connections sum up to a vertical vector, the saddle connection that is recorded for it has that vector. It starts in the sector that one reaches from the first of the known connections by turning clockwise, by at most π, to the vertical direction. It ends in the sector that one reaches from the last of them by turning counterclockwise, by at most π, to the opposite direction. If there is a saddle connection with that vector which starts and ends there, then exactly this saddle connection is recorded. The search for the sectors terminates and none of its assertions fails.", "quantifier": "All closed surfaces, all vertical directions and all sequences of known connections whose sum is vertical, with and without assertions.", "why_tests_cant": "Vertices can have any total angle, so the vertical direction shows up in any number of sectors at a vertex and the search has to stop at the right one; tests only see a few surfaces and directions.", "anchors": ["libflatsurf/src/flow_component.cc: FlowComponent::decompose (source, target, classify)"]}
{"id": "C146", "title": "Saddle connections are found from a direction and a nearby half edge or saddle connection", "statement": "SaddleConnection::inPlane, inHalfPlane, alongVertical and counterclockwise terminate. They return the saddle connection with the given vector, or in the given direction, that one gets to by turning by less than π from the given half edge, within the half plane around a vertical, or counterclockwise by less than a full turn from the given saddle connection, provided that there is such a saddle connection. When these functions are called with a chain, they return a saddle connection with that chain which starts and ends in the sectors that one gets to in that way.", "quantifier": "All closed surfaces, all vertices of any total angle, all half edges, saddle connections and directions, with and without assertions.", "why_tests_cant": "At a vertex with a large total angle a direction shows up in many sectors and only one of them is right; tests only see a few of these.", "anchors": ["libflatsurf/src/saddle_connection.cc: SaddleConnection::inPlane, SaddleConnection::inHalfPlane, SaddleConnection::alongVertical, SaddleConnection::counterclockwise"]}
{"id": "C147", "title": "Saddle connections are found clockwise from a saddle connection", "statement": "SaddleConnection::clockwise returns the first saddle connection with the given vector that one gets to by turning clockwise from the given saddle connection, exclusive, i.e., with a full turn if the saddle connection itself has the direction of the vector, provided that there is such a saddle connection.", "quantifier": "All closed surfaces, all vertices of any total angle, all saddle connections and vectors.", "why_tests_cant": "The exceptions only show at vertices with a total angle of more than 2π when the vector is in the same sector as the saddle connection.", "anchors": ["libflatsurf/src/saddle_connection.cc: SaddleConnection::clockwise"]}
{"id": "C148", "title": "Shortest edges are shortest", "statement": "FlatTriangulation::shortest() returns the vector of an edge such that no edge is shorter. FlatTriangulation::shortest(direction) returns the vector of an edge that is not orthogonal to the direction such that no other such edge has a smaller absolute value of the scalar product with the direction. Such an edge exists for every nonzero direction.", "quantifier": "All closed surfaces with at least one edge, all nonzero directions.", "why_tests_cant": "The comparison treats edges orthogonal to the direction as infinitely long; that this is a consistent order and that some edge is not orthogonal has to hold for all surfaces and directions.", "anchors": ["libflatsurf/src/flat_triangulation.cc: FlatTriangulation::shortest"]}
{"id": "C149", "title": "A vertex can be inserted at a point", "statement": "FlatTriangulation::insert(point) throws std::invalid_argument if the point is a vertex. Otherwise it returns a surface where the face that contains the point, or the two faces at the edge that contains the point, are subdivided such that there is a new vertex at the position of the point; the area is unchanged and no edge is flipped. It throws std::invalid_argument if and only if the position has no coordinates in the base ring.", "quantifier": "All closed surfaces, all points in the interior of a face, on an edge, and at a vertex, all divisions that succeed exactly when there is a quotient.", "why_tests_cant": "Points on edges have two descriptions, one from each side, and the one that is used depends on the numbering of half edges.", "anchors": ["libflatsurf/src/flat_triangulation.cc: FlatTriangulation::insert", "libflatsurf/src/point.cc: Point::vector"]}
{"id": "C150", "title": "Marked points are eliminated", "statement": "FlatTriangulation::eliminateMarkedPoints returns a surface without vertices of total angle 2π, except for vertices that are alone in their component of the surface. Each marked point is eliminated by moving it to the other end of an edge that connects it to another vertex; the edges that are not attached to the marked point do not change.", "quantifier": "All closed surfaces, any number of marked points, all shifts that map closed surfaces to closed surfaces.", "why_tests_cant": "Whether it returns depends on how the marked points are connected to the other vertices, and each step depends on the triangulation that the previous one produced.", "anchors": ["libflatsurf/src/flat_triangulation.cc: FlatTriangulation::eliminateMarkedPoints"]}
{"id": "C151", "title": "The first time when a triangle degenerates is enclosed", "statement": "When half edges are shifted, the area of each triangle is a quadratic polynomial in time. At every precision, the approximation of its first root in the unit interval that decides which edges are flipped is a ball that contains that root; there is no such ball if and only if there is no root in the unit interval. The approximation can be computed in finite time when the arithmetic gets arbitrarily precise.", "quantifier": "All polynomials of degree at most two, including degenerate ones, all precisions, all balls that enclose the exact results of the formulas for roots, including balls that are not finite.", "why_tests_cant": "The outcome depends on the rounding errors of the underlying arithmetic; roots that are close to each other or close to the ends of the interval need unbounded precision.", "anchors": ["libflatsurf/src/quadratic_polynomial.cc: QuadraticPolynomial::root", "libflatsurf/src/flat_triangulation.cc: FlatTriangulation::operator+"]}
{"id": "C152", "title": "The perimeters of a flow decomposition can be walked", "statement": "The negative of a flow connection is the connection with the opposite orientation; it is on the perimeter of some component, on the same one unless the connection is vertical, and its negative is the connection itself. A connection is on the boundary of its component if and only if it is vertical and its negative is on the perimeter of another component. nextInPerimeter and previousInPerimeter walk the perimeter cyclically and are inverse to each other; for a connection that is not on the perimeter they do not return.", "quantifier": "All decompositions with any number of components where each connection is paired with its negative, all connections on the perimeters.", "why_tests_cant": "The pairing runs across all the components, and there is no bound on their number or on the length of perimeters.", "anchors": ["libflatsurf/src/flow_connection.cc: FlowConnection::operator-, boundary, nextInPerimeter, previousInPerimeter"]}
{"id": "C153", "title": "Equivalences and equivalence classes can be compared", "statement": "Equality of equivalences is an equivalence relation; two equivalences are equal if and only if they are copies of each other or they have been created in the same way with the same parameters and without a custom normalization. Equivalence classes are equal if and only if they are for equal equivalences and the surfaces are equivalent, i.e., there is a relabelling of the kind that the equivalence asks for. In particular, isomorphic returns whether there is an isomorphism.", "quantifier": "All collections of equivalences, all closed connected surfaces; where the equivalence normalizes vectors, the areas of the triangles have inverses.", "why_tests_cant": "There are infinitely many pairs of surfaces and codes are minimal over all labellings; two classes of different equivalences can have the same code.", "anchors": ["libflatsurf/src/equivalence.cc: operator==, isomorphic, combinatorial, unlabeled, areaPreserving, linear", "libflatsurf/src/equivalence_class.cc: operator==", "libflatsurf/src/linear_equivalence.cc: equal", "libflatsurf/src/combinatorial_equivalence.cc: equal", "libflatsurf/src/combinatorial_equivalence_class_code.cc: equal", "libflatsurf/src/linear_equivalence_class_code.cc: equal"]}
{"id": "C154", "title": "Multiplication of vectors of machine integers is exact, or overflow is reported", "statement": "v *= n for a vector of long long gives the exact multiple when both coordinates fit; when assertions are enabled and n is an arbitrary integer, an overflow is reported instead of leading to undefined behaviour. Dividing by n again gives back v.", "quantifier": "All vectors of long long, all factors.", "why_tests_cant": "It is about the extreme values of each sign, for all pairs of a vector and a factor.", "anchors": ["libflatsurf/src/vector.cc: VectorBase::operator*=(const int), operator*=(const mpz_class&), operator/=(const int)"]}
{"id": "C155", "title": "The consistency checks of contour decompositions mean what they say", "statement": "The check of the signs passes if and only if each saddle connection shows up exactly once on the perimeters and so does its negative. Connections are classified as left, right, top and bottom by their direction relative to the vertical. The angles that are counted for a component with k connections add up to (k - 2)π as they do for a polygon with k sides, so when the check of the angles passes, the sum of (k - 2)π over all components is the total angle of the surface.", "quantifier": "All decompositions with any number of components with perimeters of any length that run along the bottom and then along the top, all vectors.", "why_tests_cant": "The checks are themselves tests on particular decompositions; that they count the right thing is a statement about perimeters of any length.", "anchors": ["libflatsurf/src/contour_decomposition.cc: ImplementationOf<ContourDecomposition>::check"]}
{"id": "C156", "title": "Forgetting the surface keeps the interval exchange transformation", "statement": "forget() of an interval exchange transformation returns a transformation with the same number of intervals such that the lengths of the intervals at the top and at the bottom are the same in the same order, and the permutation is the same. Labels at the bottom that do not exist at the top are reported when assertions are enabled. Different labels are printed differently.", "quantifier": "All interval exchange transformations with any number of intervals, all lengths, all labels.", "why_tests_cant": "There is no bound on the number of intervals, and the statement is about all permutations.", "anchors": ["libflatsurf/src/interval_exchange_transformation.cc: IntervalExchangeTransformation::forget", "libflatsurf/src/lengths.cc: Lengths::render"]}
{"id": "C157", "title": "Collapsed vertical connections are named consistently", "statement": "When a flow decomposition is created, the vertical connections on the right of each contour connection are named such that they form a chain that starts at the label of the contour connection, each is attached to the previous one, and the label at the end of each of them is new. A vertical connection on the left gets the name of its negative with the labels swapped. Connections that are on the right twice and connections on the left without a negative are reported when assertions are enabled.", "quantifier": "All contour decompositions with any number of components, contour connections and collapsed vertical connections; fewer than 2^63 labels.", "why_tests_cant": "The names depend on the order of all the connections named before; there is no bound on their number.", "anchors": ["libflatsurf/src/flow_decomposition_state.cc: FlowDecompositionState::make"]}
{"id": "C158", "title": "The image of a vertex under a retriangulation is found", "statement": "To map a vertex that is not in the new triangulation, the surface is walked until a vertex is reached that is in the new triangulation. The walk comes to an end; if it finds a point, then it is the image of the vertex; if it does not find a point, then no vertex that can be reached along the edges is in the new triangulation.", "quantifier": "All surfaces with any number of vertices, all vertices.", "why_tests_cant": "The recursion shares the set of visited vertices between branches; that nothing is missed is a statement about all graphs of vertices.", "anchors": ["libflatsurf/src/generic_retriangulation_deformation_relation.cc: GenericRetriangulationDeformationRelation::operator()(const Point&)"]}
