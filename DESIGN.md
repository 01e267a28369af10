# Formal model of flatsurf in Lean 4

Source modelled: `/repo/libflatsurf` (C++17 library `flatsurf`, read as text, never built or run).
Model: `/verif/lean/Verif/`. `Verif.lean` imports every module.

## 1. Layout

* `Verif/Model/*.lean`: definitions that follow the C++ function by function. Each definition cites file and lines.
* `Verif/Lemmas/*.lean`: helper lemmas, nothing claimed here.
* `Verif/Spec/*.lean`: small specifications that do not mention the model's helpers.
* `Verif/Props/*.lean`: the property theorems, one file per property or group, each followed by `example`s
  which show that its hypotheses are met by a concrete non-trivial case.
* `MANIFEST.json` maps property ids to theorem names.

## 2. Modelling conventions

* **Half edges** are modelled by their index (`HalfEdge::idx`, a `size_t`), which is how the C++ stores them.
* **Arrays** (`Permutation`, `HalfEdgeMap`, ...) are modelled by total functions together with a size. A C++ access
  outside the size is undefined behaviour; API entry points in the model return `.error .undefined` for it, and
  internal accesses are shown to stay in range by the well-formedness invariants.
* **Outcomes**: functions which can throw return `Except Err α`, `Err` being `invalidArgument` (the
  `LIBFLATSURF_CHECK_ARGUMENT` macro and explicit throws), `logicError`, or `undefined` (precondition guarded by an
  assertion that is compiled out in release builds, or C++ undefined behaviour).
* **Coordinates**: the template parameter `T` (long long, mpz, mpq, number field elements, exact reals) is modelled by
  an arbitrary linearly ordered commutative ring or field. Overflow of `long long` is not modelled unless stated.
* **Interval arithmetic** (`exactreal::Arb`) is modelled by an arbitrary enclosure with three-valued predicates which are
  sound; its rounding is not modelled.
* **Observers** (sigslot) are modelled as an explicit call of the handler at the point where the message is sent.
* Copy-on-write, shared pointers and `spimpl` wrappers are modelled as value semantics unless a property is about them.
* Time, memory and threads are not modelled. (The library is single threaded.)

## 3. Plan per property

| id | model | proof idea |
|----|-------|-----------|
| C01 | `HalfEdge`, `Edge` from half_edge.cc, edge.cc | integer arithmetic on parity |
| C02 | list-of-pairs constructor with hit counting check | counting hits: surjective on a finite set implies bijective |
| C03 | two arrays updated in place | loop invariant for the fold over the cycle |
| C04 | `cycles()` loop with seen set | loop invariant: the listed cycles partition the seen elements |
| C05-C07 | combinatorial triangulation with vertices/faces permutations | permutation algebra; case analysis on coincidences |
| C08 | vertex sets updated by the four membership tests | orbit analysis of composing with a 3-cycle |
| C09 | relabel / mirror | conjugation algebra |
| C10-C12 | insertAt, slit, collapse | explicit new permutations, face case analysis |
| C13 | constructor from faces | induction over the list of faces |
| C14-C16 | vectors over an ordered ring | nlinarith / order case analysis |
| C17-C18 | flat triangulation = combinatorics + odd vectors | C06 + ring identities |
| C19 | 3x3 determinant | polynomial identities, convexity from the determinant sign |
| C20-C21 | angle, sector | sums over permutations; strict monotonicity of rotation |
| C22 | applyMatrix, scale | determinant identities |
| C23 | state machine of cached vector + coefficients over operation lists | invariant; negation for `*=` |
| C24 | coefficient vectors | algebra |
| C25 | Bound by squares | monotonicity of squaring, real square roots |
| C26 | positive() | completing the square |
| C27 | bitset with size | refinement to Finset |
| C28 | tracked handlers | conjugation by the double transposition |
| C29 | parent pointers | refinement to the equivalence closure |
| C30-C32 | barycentric points | normal forms, projective equality |
| C33-C36 | deformation relations | affine identities; negations where the code is wrong |
| C37 | walkers as words | canonical BFS labelling; lexicographic minimum |
| C38 | 2x2 matrices | field identities |
| C39 | filters | lattice laws |
| C40 | the stack machine of the iterator, call by call; rays developed into the plane | log of the search by structural induction; a ray crosses finitely many edges inside a disk; simulation of the log by the machine |
| C41 | the iterator by length, with `std::sort` and `Bound::upper` as parameters | the exact enumeration of each annulus (C40), induction on the number of annuli |
| C42-C43 | paths | list laws |
| C44-C45 | vertical | sign analysis, cache coherence invariant |
| C46 | lengths stack | invariant over operations |
| C47 | tribool logic | decision logic; negation |
| C48 | numbering | counting |
| C49-C50 | serialization, equality | round trip; negations for surfaces with boundary |
| C51 | fractions | cross multiplication |
| C52 | path loop | negation: explicit non-terminating state |
| C53 | sampling | invariant on the seen set; negation for empty sectors |
| C54 | developed segment | induction on crossings |
| C55 | contour recursion | induction on fuel / well-founded measure |
| C56-C59 | the clauses of C03, C05, C06 and C11 that are false of the code | concrete witnesses for the negation; the part that holds by the methods of these properties |
| C60-C63 | ball arithmetic, division of integer vectors, comparison of roots | witnesses from balls that touch zero; sign analysis for the part that holds |
| C64-C66 | `Chain::operator*=`, `EdgeSet`, `IndexedSet` | witnesses; extensionality of bit sets |
| C67-C70 | constructors from functions, relabelling, clockwise sectors, surfaces with boundary | renaming commutes with all permutations; witnesses |
| C71-C74 | hashes and `simple()`, `area`, appending a path to itself, iterators of paths | list laws; witnesses |
| C75 | angles at vertices | half turns are counted by walking around the vertex |
| C76 | components of verticals | reachability; witness with vertical edges |
| C77-C78 | hashes, serialization with boundary | congruence; witnesses |
| C79-C80 | answers of decompositions | three valued logic over all decompositions that can follow; witnesses |
| C81 | linear equivalence codes | walkers commute with linear maps; canonical form |
| C82 | restrictions of searches | intersection of sectors; witness |
| C83 | order of intersections | exact comparison of cross products; witness |
| C84-C85 | linear deformations | linearity; orientation of the image |
| C86 | `insertAt` | developed triangles along the vector |
| C87-C90 | deformations of insertions and flips on paths | segments are the same in the plane; chains differ by multiples of the flipped edge |
| C91-C92 | termination of the iterators | explicit states that repeat; for complete corners by C40 |
| C93 | `SaddleConnection::path`, `crossings` | exactly the edges whose ends are on different sides |
| C94-C96 | `Point::operator+=`, points from coordinates | developed triangles; witnesses at singularities and for the zero vector |
| C97 | `collapse` | permutations; witnesses |
| C98-C100 | sampling | witnesses; random choices are an oracle |
| C101-C105 | contours, interval exchange transformations | contours are leaves of binary trees of triangles |
| C106-C111 | flow components and their triangulations | triangulating a polygon by induction on its perimeter |
| C112-C118 | collapsed surfaces | invariant of a net of half edges and collapsed connections that is preserved by each collapse and by each flip |
| C119-C120 | `turn`, `inSector` of collapsed surfaces | orbits around vertices; cones |
| C121-C122 | combinatorial deformations | isomorphisms commute with everything |
| C123-C124 | shifts | quadratic polynomials are positive on [0, 1]; homotopies across triangles |
| C125-C128 | contour components and contour connections of collapsed surfaces | the perimeter is a walk around a tree of triangles; telescoping of areas |
| C129, C130 | makeUniqueLargeEdge(s) and the constructor of contour decompositions | each flip renames half edges by a map that can be followed through all collapses; the remembered edges stay alone among the edges that can be reached from them |
| C131, C132 | isomorphisms of equivalences, normal forms, maps to normal forms | the names of half edges in the normal form are invariant under relabelling; walkers with the minimal word correspond to relabellings; counterexamples for combinatorial equivalence |
| C133, C134, C135 | FlatTriangulation::isomorphism for faces and Delaunay cells | the depth-first search ends with a map that respects the gluing or finds a contradiction; such a map is onto since surfaces are connected; the matrix is determined by two sides of a cell; Delaunay cells are inscribed in circles, hence convex, and connected since the angle opposite to an edge strictly grows when walking through a cell; a covering of cells is a bijection since corners that contain a fixed direction count the triangles; counterexample with two components |
| C136, C137, C138 | SaddleConnection::inSector for vectors and directions | reduces to the exactness of the search for saddle connections (C40, C41): a sector that starts and ends in the same direction is that direction, in which there is at most one saddle connection; counterexamples on tori, with coordinates in ℤ[√2] for a direction without saddle connections |
| C139, C140, C141 | GenericRetriangulationDeformationRelation: `turn` and the images of directions and segments | a saddle connection crosses the same triangles backwards (induction on the crossed half edges); turning is described by the arcs of C21/C75; induction on the chain of saddle connections using C137 |
| C142, C143, C144 | `Path::tighten` with `tightenClockwise`, the ordering of saddle connections and the convex hull | every replacement keeps the holonomy and the end points (telescoping sum over the hull); loop invariant: the turns before the current segment pass the test; the test is correct by C75 and C139 |
| C145 | `FlowComponent::decompose`: the saddle connection that is made for a detected connection; the sequence of known connections reported by intervalxt is arbitrary | positions of the half edges around the vertex relative to the vertical as real angles; the loops stop at the first position in the right half plane |
| C146, C147 | `SaddleConnection::inPlane`, `inHalfPlane`, `alongVertical`, `clockwise`, `counterclockwise` | composition of C21 (sectors) and C136 (search in a sector) |
| C148 | `FlatTriangulation::shortest` with and without a direction | fold that keeps the first minimum; two sides of a face are not both orthogonal to a direction |
| C149 | `FlatTriangulation::insert` | coordinates of the point next to the half edge (C30, C31), then `insertAt` (C86) without flips |
| C150 | `eliminateMarkedPoints` | the shift is a parameter; invariants of the loops that choose an edge, induction on the number of steps; witness: an octagram with a marked point that is attached to all edges |
| C151 | `QuadraticPolynomial::root` | the balls for the formulas are parameters that enclose the exact results; induction on the number of precisions, formula for roots from Mathlib |
| C152 | `FlowConnection`: negatives, boundary, walking the perimeter | perimeters as lists, induction on the position in the list |
| C153 | `EquivalenceEqual`: comparison of equivalences, codes and classes, `isomorphic` | equivalences as addresses of objects, case analysis, `codes_agree_iff` of C37 and C81 |
| C154 | `LongLong`: multiplication and division of vectors of `long long` | machine integers as integers with explicit overflow; cases on which product overflows |
| C155 | `ContourCheck`: signs, classification of sides, angles | counting in lists; the turning of the perimeter as a potential that telescopes |
| C156 | `Forget`: `forget` of interval exchange transformations, `render` | labels as positions, induction on the lists of labels |
| C157 | `InjectNames`: names of injected vertical connections | the map of names as a list, induction on the blocks of connections |
| C158 | `VertexWalk`: the walk for images of vertices in a retriangulation | depth first search: what has been seen is closed when nothing has been found |

## 4. Trusted base

* The Lean 4.33.0 kernel and the axioms `propext`, `Classical.choice`, `Quot.sound` of Lean/Mathlib.
  No axioms are added; no `sorry`, `native_decide`, `bv_decide`, `implemented_by`.
* The correspondence between the C++ text and the definitions in `Verif/Model`, which is by reading.
* Semantics assumed for dependencies which are not in the repository: gmp, flint (`fmpz`), e-antic, exact-real
  (arithmetic is exact), Arb (balls enclose), boost::tribool, boost::dynamic_bitset, spimpl (pointer semantics), cereal
  (archives store and restore values), intervalxt (opaque).

Every theorem in the manifest depends on a subset of these three axioms only (`#print axioms`).

What is modelled is exactly what is cited in `Verif/Model`. Not modelled, or only in part:

* `flow_decomposition_state.cc` (but for the names of injected connections, C157), printing of equivalences, printing and debugging output.
* intervalxt: the decomposition into minimal components and cylinders is an arbitrary answer that meets its specification.
* Collapsed surfaces: saddle connections are given by their vectors, so assertions about their sources and targets are left out;
  `operator==` is left out.
* Contour connections: the assertions that paths are simple, closed on the surface, and about angles are left out. That the
  flips which make large edges unique come to an end is not claimed. The checks of signs and angles in `ContourDecomposition::check`
  are modelled (C155) but it is not proved that decompositions pass them; the checks that paths are closed and of the area are not modelled.
* Isomorphisms: compositions are given by their parts; that trivial parts are dropped from a composition is not modelled.
* `isomorphism`: the retriangulation that is returned is given by the half edge and the image that define it; the assertions in its
  constructor are not modelled.
* Generic retriangulations: which directions at the vertices are related (generic_retriangulation_deformation_relation.cc:240-301) is a
  parameter; the assertions in the constructor and the images of points are not modelled.
* Shifts: only shifts that need neither flips nor collapses are followed to the end.
* Random numbers are an arbitrary oracle, `std::sort` is any sorting.

## 5. Disagreements between code and properties

Each item is backed by a theorem which refutes the claim for a concrete witness, next to a `_partial` theorem that says
what does hold.

* **C02** (`C02.rejection_fails`): a repeated source, a missing source or an entry out of range is not reported as an
  invalid argument by the constructors of `Permutation`. The constructor fills `data` and evaluates `(*this)(v)` on
  default constructed entries (index `SIZE_MAX`) before `check` runs; the asserts are compiled out in release builds.
* **C56** (`C03.left_fails`): `cycle *= p` composes with the inverse of the cycle. The library only uses transpositions.
* **C57** (`C05.odd_undefined`, `C05.open_boundary_undefined`, `C05.release_accepts_monogon`): the constructor of a
  combinatorial triangulation builds `faces` before it checks that the number of half edges is even, so an odd number
  writes out of bounds; a boundary which is not closed leaves uninitialised cells that are used as indices; a face with a
  single side (`vertices(e) == -e`) is only rejected by an assertion and becomes boundary in release builds.
* **C58** (`C06.release_flip_corrupts`): in release builds flipping `e` when `-e` is boundary throws only at the second
  of four in-place updates, after `vertices` has been modified.
* **C59** (`C11.slit_loop_not_split`, `C11.slit_loop_fails`): `slit` looks for existing boundary at the two ends of the
  edge. A loop has both ends at one vertex: on a surface without boundary the two sides of the slit stay at one vertex
  with two boundary half edges, and at a vertex on the boundary both searches find the same half edge so that the second
  overwrites the first and the constructor of the permutation throws.
* **C60** (`C14.shortcut_changes_answer`): `VectorWithError::orientation` returns `OPPOSITE` when `dot > 0` is definitely
  false and `dot == 0` is indeterminate. That includes enclosures whose upper end is zero, in which the inner product may
  be zero. (Found in the model of interval arithmetic as arbitrary enclosures; whether Arb produces such an enclosure for
  a given input depends on its rounding.)
* **C61** (`C61.eq_wrong`): `VectorWithError::operator==` compares `self.x` with `rhs.y`.
* **C62** (`C61.div_wrong`): `Vector<long long> /= n` treats `n >= LLONG_MAX` as larger than all coordinates.
* **C63** (`C26.lt_wrong`): `QuadraticPolynomial::operator<` returns false as soon as approximate roots overlap and the
  polynomials share some root, which need not be the root that is compared (a comment in the code says so).
* **C64** (`C64.not_mul_correct`): `Chain::operator*=(mpz)` scales the coefficients but not the cached vectors (exact and
  approximate), so `Chain(surface, e) *= 2` still converts to the vector of `e`.
* **C65** (`C65.not_edgeSet_eq`): `EdgeSet::operator==` compares the pointers to the implementations, so two sets which
  contain the same edges are different unless they are the same object.
* **C66** (`C66.not_undisturbed`): `==` and `disjoint` of sets resize the (mutable) bitsets to a common size. The position
  of `end()` depends on that size, so a loop over {0} that compares with {5} never meets its end.
* **C67** (`C18.function_fails`): the constructor of a flat triangulation from a function stores the values of the function
  for both half edges of an edge and checks each face on its own. A function with `f(-e) != -f(e)` is accepted, i.e.,
  triangles can be glued along sides of different lengths and directions.
* **C69** (`C21.clockwise_fails`, `C21.clockwiseFrom_fails`): the header says that `sector(e, CLOCKWISE, direction)`
  ignores the sector of `e` if it contains the direction in its interior. The code (flat_triangulation.cc:820-826) first
  steps to the next half edge and then returns the initial sector in that case. `sector(e, start, CLOCKWISE, …)` and
  hence `SaddleConnection::clockwise` inherit this: at a vertex of angle larger than 2π they do not go around by a full
  turn when start and direction coincide.
* **C70** (`C70.delaunay_fails`): `delaunay(Edge)` does not check that the edge has faces on both sides. When the positive
  half edge is on the boundary it can answer `NON_DELAUNAY`, and `delaunay()` then throws because that edge cannot be
  flipped. Whether this happens depends on the labels: when the negative half edge is on the boundary, the answer is
  `DELAUNAY`.
* **C71** (`C71.not_hashCorrect`, `C71.not_simpleCorrect`): `SaddleConnection::operator==` compares source and vector but
  the hash uses source, target and the chain. Chains which differ by the boundary of a face have the same vector, e.g., the
  diagonal of a torus as a half edge and as the sum of two sides. These are equal and have different hashes, so `simple()`
  misses repeated segments.
* **C72** (`C72.not_signedArea`): `area` asserts that the area is not negative, so the area of a clockwise closed path is
  an error in debug builds and a negative number in release builds.
* **C73** (`C73.appendSelf_undefined`): `path += path` iterates over the vector that it appends to. The loop never
  meets `end()` and eventually uses an iterator that has been invalidated.
* **C74** (`C74.not_eqTransitive`): a path iterator that has gone around once is equal to `begin()` and to `end()`.
* **C76** (`C76.components_not_partition`): `Vertical::components()` starts a new component at each half edge that is in no
  component yet, and does not leave a vertical half edge. A vertical half edge that comes before the other half edges of its
  face is thus a component of its own and is again part of the component of its face. (In the library this is only called
  for collapsed surfaces, which have no vertical edges.)
* **C50** (`C50.not_equalIndistinguishable`, `C50.not_equalIndistinguishableFlat`): `operator==` compares the permutation of
  the half edges at the vertices but not the boundary. A triangle with three boundary edges is equal to the sphere which
  is made from that triangle and another one, and a flat torus is equal to that torus with one triangle missing.
* **C78** (`C78.not_roundTrips`): the boundary of a surface is not serialized. In debug builds, saving a surface with
  boundary always throws as `nextAtVertex` is called for boundary half edges; in release builds, a triangle comes back as a
  sphere, and a square cannot be loaded at all. The entry `faces` in the archive is written with the vertices, and it is
  never read.
* **C79** (`C79.not_stable`): in `completelyPeriodic`, `if (state != true) return state;` compares a `tribool`; for an
  indeterminate state the comparison is indeterminate, which is not true, so the loop goes on. A component about which
  nothing is known is treated as a cylinder: before `decompose()` is called, `completelyPeriodic()` is `true` for
  components which turn out to be minimal.
* **C80** (`C80.not_falseStable`): for the same reason `circumferenceHolonomy()`, which should throw for components which are
  not cylinders, returns the first vector of `holonomy()` for undetermined components. `parabolic()` can answer `false` since
  that vector leads to an incommensurable "modulus" although the component turns out to be a cylinder with a
  commensurable modulus.
* **C82** (`C82.not_combines`): `Sector::refine` (saddle_connections.cc:199) asserts `sector.first.ccw(source) != CLOCKWISE`. A sector that starts
  strictly inside its corner is counterclockwise from the half edge, so this turn is clockwise and the assertion fails. In
  debug builds, restricting a search twice therefore throws `logic_error` (`C82.twice_fails`, `C82.not_combines`). Release
  builds work (`C39.filters_intersect`).
* **C83** (`C83.not_consistent`): `HalfEdgeIntersection::operator<` is documented to be consistent with `at()`. It
  compares fractions by cross multiplication without normalizing the signs of the denominators. The order is reversed
  when the half edges differ and their first coordinates have different signs.
* **C84** (`C84.inner_point_wrong`): for a matrix with negative determinant, the deformation returned by `applyMatrix`
  maps a point in the interior of a face to a point in the wrong face: the barycentric coordinates are used with the same
  half edge in the codomain but on the mirrored surface the image of the face is to the left of the opposite half edge.
* **C35** (`C35.not_pointsKept`, `C35.wrong_point`): `InsertMarkedPointInFaceDeformationRelation::operator()(Point)` goes
  through the three corners of the subdivided face but always uses the coordinates with respect to the first corner. Only
  points in the new face opposite to that corner are mapped correctly. Others lead to an error (always for points on the
  boundary of the face, `C35.boundary_fails`) or to a wrong point: in a square torus with sides of length 4 and a new vertex at
  (3, 2), the point at (3, 1) is mapped to the new vertex. Points of other faces are returned unchanged, i.e., as points of
  the domain (`C35.elsewhere`).
* **C87** (`C87.not_segmentsKept`): `operator()(Path)` of the same relation returns the path of the domain. Segments which
  start or end at a corner of the subdivided face and are not to the right of the new vertex are now in the corner of a new
  half edge, so their source or target would have to be changed.
* **C88** (`C88.elsewhere`): the relation for a vertex on an edge maps points of the two adjacent faces correctly, but points
  of other faces are returned unchanged, i.e., as points of the domain.
* **C90** (`C90.not_chainsKept`, `C90.linear_wrong`): the relation for a flip passes the chain of the original saddle
  connection on to the saddle connection of the flipped surface, although the flipped half edge has another vector there. The
  vector of the image is right but its chain is that of the old surface. A linear deformation that is applied after the flip
  uses the coefficients of the chain and silently produces a wrong path: flipping the diagonal of the unit torus and then
  scaling by two maps the diagonal (1, 1) to (-2, 2). `C90.chains_kept_iff_partial` says for which chains this happens.
* **C52** (`C52.not_straight`, `C52.not_terminates`): the loop of the generic retriangulation that combines collinear segments
  has no `break` for segments that are not collinear, so mapping a path that is not straight never returns. This concerns
  e.g. the section of the deformation returned by `insertAt`, and the deformation returned by `eliminateMarkedPoints`.
* **C91** (`C91.never_begins`, `C91.undefined_on_empty_surface`): if a search without a bound admits no saddle connection,
  e.g., because it has been restricted to two different half edges, then its enumeration is empty but `byLength().begin()`
  keeps doubling the bound and never returns. On the surface without any half edges, `byLength().begin()` dereferences the
  end of the list of edges in `shortest()`.
* **C92** (`C92.never_advances`): a search without a bound whose sector starts in the direction of a saddle connection
  reports that saddle connection and then searches the empty sector clockwise of it. In a search without a bound this
  descent never ends, so the next `++it` never returns, e.g., for `sector((2, 1), (1, 1))` on the unit torus.
* **C94** (`C94.crosses_singularity`): when a marked vertex moves along a half edge and beyond the end of that half edge, the
  search finds a face next to the half edge that contains the endpoint before it gets to the vertex at the end of the half
  edge. Hence, a singularity in that position is not noticed. No error is reported and the result depends on the side
  that has been searched first.
* **C95** (`C95.zero_never_ends`): `operator+=` turns around the vertex until `inSector(face, delta)` holds, which is never
  the case for the zero vector.
* **C96** (`C96.logic_error`): the check of the argument accepts vectors that are collinear with the next half edge at the
  vertex but the assertion that follows uses `inSector` which does not.
* **C97** (`C97.torus_broken`, `C97.sphere_broken`): when the two faces next to the edge form a torus, or when an end of the
  edge has only two half edges, `collapse` returns normally but there is a face with two sides.
* **C98** (`C98.empty_undefined`): the constructor of the sampling iterator copies the first sector, even when there are none.
* **C99** (`C99.half_edges_never`): the loop of the sampling iterator begins with `it++` so that it never gets to see the half edge
  at which the search starts.
* **C100** (`C100.never_returns`): when sampling between two directions, the underlying search can be stuck forever, see C92.
* **C105** (`C105.not_independent`): without assertions, the constructor of interval exchange transformations silently returns an
  exchange of a single interval when the large edge is given in the direction from right to left; with assertions such edges are
  rejected. The documentation only asks for "the unique large edge".
* **C110** (`C110.not_can_triangulate`): the sweep that triangulates the polygon of a flow component assumes that vertices with the
  same horizontal coordinate can be processed in any order. The polygon with the vertices (0, 0), (5, 0), (8, 1), (5, 7), (5, 10),
  (1, 9), where (5, 0) is on the same vertical line as a vertical side at the top, is not triangulated correctly; building the
  triangulation throws `std::invalid_argument`, with and without assertions. Whether intervalxt ever reports such a perimeter is not
  part of the model.
* **C48** (`C48.embedding_boundary`): the embedding of the triangulation of a component is only injective on the half edges that are in
  a face. All half edges at the boundary of a component are mapped to the half edge 404.
* **C111** (`C111.not_triangulable`): the half edge 404 that is used as a sentinel by the embedding is a half edge of the surface when
  there are more than 806 half edges. In a torus that is cut into 135 cylinders, the vector of this half edge is overwritten by the
  vector of a boundary half edge of the last component. Then `FlowDecomposition::triangulation` throws `std::invalid_argument`.
* **C118** (`C118.not_independent`, `C118.depends`, `C118.depends_orientation`): `Vertical` caches values for a half edge and for its
  negative at once. On a collapsed surface, the vector of the negative of a half edge is in general not the negative of its vector. So
  `project` and `orientation` return wrong values for a half edge if its negative has been asked for first. On an L-shaped surface with
  vertical (1, 2), `project(-1)` is -3 on a new vertical but 2 after `project(1)`.
* **C132** (`C132.throws`, `C132.not_usable`): for combinatorial equivalence, `isomorphisms` throws `std::logic_error` ("not implemented")
  when surfaces have the same combinatorics but different vectors. When both surfaces are the square torus, six isomorphisms are
  returned, but only the identity can be applied to half edges. The others throw since their vectors do not agree.
* **C135** (`C135.not_isomorphic`): `isomorphism` starts at one half edge and only compares what can be reached from there. For two square
  tori of side length 1 and a square torus of side length 1 next to one of side length 2, an isomorphism is reported although there is none.
* **C137** (`C137.not_exact`): `SaddleConnection::inSector` with a vector returns the saddle connection in the direction of the vector if
  it is not longer than the vector. It does not check that it has that vector.
* **C138** (`C138.never_returns`): `SaddleConnection::inSector` with a direction searches without a bound, so it never returns if there
  is no saddle connection in that direction.
* **C147** (`C147.clockwise_fails`): `SaddleConnection::clockwise(connection, vector)` is meant to exclude the connection itself, i.e., to go
  on by a full turn when the vector has the direction of the connection. When the connection is in the interior of its sector and the total
  angle at the vertex is more than 2π, the connection itself is returned. This is a consequence of C69.
* **C150** (`C150.fails`): `eliminateMarkedPoints` needs an edge that is not attached to the marked point that is eliminated. When the only
  marked point is attached to all edges, then there is no such edge: there is an exception in a debug build and the behaviour is undefined
  otherwise. The code mentions this problem but only takes care of it by preferring another marked point.
* **C151** (`C151.misses`): when the balls for the two roots of a quadratic polynomial meet, then `QuadraticPolynomial::root` returns the
  ball for the root with the positive square root, which need not contain the first root. So, the assumption `EnclosesRoot` in C123 only
  holds from some precision on (`C151.eventually_first`). We do not know whether the balls computed by Arb can be like this.
* **C154** (`C154.overflow_missed`): the assertions in `Vector<long long> *= mpz` only check that the products are not too large. A
  product that is too small, e.g. of -2^62 and 4, passes them and is undefined behaviour. (`C154.truncated`): a factor that is not a
  `long long` passes them as well when the products are negative; the result is wrong if `get_sll` takes the lower bits.
