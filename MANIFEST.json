{"claims": [
{"property": "C01", "status": "proved", "theorems": ["Verif.C01.ofId_defined", "Verif.C01.id_ofId", "Verif.C01.ofId_id", "Verif.C01.id_injective", "Verif.C01.id_ne_zero", "Verif.C01.id_neg", "Verif.C01.neg_involution", "Verif.C01.edge_eq_iff", "Verif.C01.edge_sides", "Verif.C01.fromIndex_index", "Verif.C01.index_fromIndex"], "note": "ids beyond 2^30 overflow int and are modelled as undefined."},
{"property": "C02", "status": "partial", "theorems": ["Verif.C02.pairs_ok_iff", "Verif.C02.pairs_sound", "Verif.C02.cycles_ok_iff", "Verif.C02.cycles_sound", "Verif.C02.images_ok_iff", "Verif.C02.images_sound", "Verif.C02.rejection_fails", "Verif.C02.rejection_partial"], "note": "Acceptance is characterised exactly for all three constructors. The clause that everything else is reported as invalid_argument is false (rejection_fails): malformed sources are used as an index before the check; rejection_partial covers the inputs which are reported."},
{"property": "C03", "status": "proved", "theorems": ["Verif.C03.reachable_bijection", "Verif.C03.mulCycle_composition", "Verif.C03.mulCycle_apply", "Verif.C03.mulCycle_rejects", "Verif.C03.mulCycle_succeeds", "Verif.C03.mul_composition", "Verif.C03.mul_rejects", "Verif.C03.inverse_inverse"], "note": "Histories are the inductive predicate Reachable."},
{"property": "C04", "status": "proved", "theorems": ["Verif.C04.cycles_faithful", "Verif.C04.cycle_orbit", "Verif.C04.beq_iff", "Verif.C04.trivial_iff"], "note": ""},
{"property": "C05", "status": "proved", "theorems": ["Verif.C05.make_isTriangulation", "Verif.C05.make_vertices", "Verif.C05.make_boundary", "Verif.C05.make_succeeds_iff", "Verif.C05.make_rejects_non_triangles", "Verif.C05.make_odd", "Verif.C05.ofIds_sound"], "note": ""},
{"property": "C06", "status": "proved", "theorems": ["Verif.C06.reachable_isTriangulation", "Verif.C06.flip_preserves", "Verif.C06.flips_preserve", "Verif.C06.flip_succeeds_iff"], "note": ""},
{"property": "C07", "status": "proved", "theorems": ["Verif.C07.flip_faces", "Verif.C07.flip_other_faces", "Verif.C07.flip_twice_and_four_times"], "note": ""},
{"property": "C08", "status": "proved", "theorems": ["Verif.C08.vertices_correct", "Verif.C08.flips_vertices_correct", "Verif.C08.source_correct", "Verif.C08.source_eq_iff"], "note": ""},
{"property": "C09", "status": "proved", "theorems": ["Verif.C09.relabel_conjugates", "Verif.C09.relabel_rejects", "Verif.C09.relabel_boundary", "Verif.C09.relabel_identity", "Verif.C09.relabel_mul", "Verif.C09.mirror_reverses", "Verif.C09.mirror_mirror", "Verif.C09.clone_equal"], "note": "all of relabel, mirror, clone and the comparison of triangulations"},
{"property": "C10", "status": "proved", "theorems": ["Verif.C10.insertAt_correct", "Verif.C10.insertAt_boundary"], "note": "faces, names, boundary and vertices after insertAt"},
{"property": "C100", "status": "partial", "theorems": ["Verif.C100.never_returns", "Verif.C100.returns_partial"], "note": "never_returns is a search on a torus between two directions that never returns. The partial theorem says that each call returns if the search is restricted to entire corners."},
{"property": "C101", "status": "proved", "theorems": ["Verif.C101.signs"], "note": "Surfaces without vertical edges."},
{"property": "C102", "status": "proved", "theorems": ["Verif.C102.areas"], "note": "Surfaces without vertical edges."},
{"property": "C103", "status": "proved", "theorems": ["Verif.C103.around", "Verif.C103.closed"], "note": "Surfaces without vertical edges; uniqueness of large edges is not needed."},
{"property": "C104", "status": "proved", "theorems": ["Verif.C104.accepted"], "note": "Surfaces without vertical edges. What intervalxt does with the contours is not modelled."},
{"property": "C105", "status": "partial", "theorems": ["Verif.C105.rejected_partial", "Verif.C105.not_independent"], "note": "The property is false: not_independent shows that without assertions an interval exchange transformation on a single interval is returned for a half edge in the wrong direction; rejected_partial shows that builds with assertions report an error. See DESIGN.md section 5."},
{"property": "C106", "status": "proved", "theorems": ["Verif.C106.triangulation_correct"], "note": "The perimeter is computed by intervalxt which is not modelled; the theorem is for all perimeters that bound a polygon."},
{"property": "C107", "status": "proved", "theorems": ["Verif.C107.area2_correct", "Verif.C107.width_correct"], "note": "The perimeter is computed by intervalxt which is not modelled; the theorems are for all perimeters that bound a polygon."},
{"property": "C108", "status": "proved", "theorems": ["Verif.C108.holonomy_correct", "Verif.C108.height_bound"], "note": "The perimeter is computed by intervalxt which is not modelled."},
{"property": "C109", "status": "proved", "theorems": ["Verif.C109.cylinder_correct"], "note": "Whether a component is a cylinder is determined by intervalxt which is not modelled."},
{"property": "C11", "status": "proved", "theorems": ["Verif.C11.slit_correct", "Verif.C11.slit_rejects", "Verif.C11.slit_debug_boundary"], "note": "hypotheses exclude only loops at a boundary vertex (C59) and, in builds with assertions, surfaces with boundary (slit_debug_boundary shows that slit never succeeds there)"},
{"property": "C110", "status": "partial", "theorems": ["Verif.C110.can_triangulate_partial", "Verif.C110.not_can_triangulate"], "note": "Not true: C110.not_can_triangulate is a polygon which is rejected with an invalid_argument. The partial theorem assumes that vertices on a vertical line are ordered."},
{"property": "C111", "status": "partial", "theorems": ["Verif.C111.triangulable_partial", "Verif.C111.ring_make", "Verif.C111.ring_overwritten", "Verif.C111.not_triangulable"], "note": "The property holds when there are at most 806 half edges or when no component is glued to another one. It does not hold in general: a torus with 135 cylinders cannot be triangulated since the half edge 404 is used as a sentinel."},
{"property": "C112", "status": "proved", "theorems": ["Verif.C112.constructs", "Verif.C112.no_vertical", "Verif.C112.unchanged", "Verif.C112.rejects_zero"], "note": "For all closed surfaces and directions in both build modes; the loop in the constructor terminates."},
{"property": "C113", "status": "proved", "theorems": ["Verif.C113.faces", "Verif.C113.permuted"], "note": "All faces after any history of the constructor and flips."},
{"property": "C114", "status": "proved", "theorems": ["Verif.C114.area"], "note": "The checks of the assertions in area2 of polygons are part of the model."},
{"property": "C115", "status": "proved", "theorems": ["Verif.C115.opposite", "Verif.C115.vertical", "Verif.C115.direction"], "note": "Saddle connections are given by their vectors."},
{"property": "C116", "status": "proved", "theorems": ["Verif.C116.constructor", "Verif.C116.grows", "Verif.C116.contains", "Verif.C116.symmetric"], "note": "As multisets of vectors; the half edges at which the connections start are not part of the model."},
{"property": "C117", "status": "proved", "theorems": ["Verif.C117.succeeds", "Verif.C117.unchanged"], "note": "An iff for success and for the exception; failed flips do not change anything."},
{"property": "C118", "status": "partial", "theorems": ["Verif.C118.independent_partial", "Verif.C118.depends", "Verif.C118.depends_orientation", "Verif.C118.not_independent"], "note": "large, projectPerpendicular and ccw are right in any history. For project and orientation the property is false, see the negation with a concrete surface."},
{"property": "C119", "status": "proved", "theorems": ["Verif.C119.turn_correct", "Verif.C119.turn_rejects", "Verif.C119.turn_self"], "note": "The assertion that no connection shows up twice is not part of the model since it compares saddle connections and not their vectors."},
{"property": "C12", "status": "proved", "theorems": ["Verif.C12.collapse_correct", "Verif.C12.flat_collapsible"], "note": "Model/Collapse: renaming of the dropped edges, the changes of the faces, dropping and recomputing vertices. Observers are not modelled here (see C28)."},
{"property": "C120", "status": "proved", "theorems": ["Verif.C120.triangle", "Verif.C120.collapsed"], "note": "Sectors are described as cones with coefficients in the ring."},
{"property": "C121", "status": "proved", "theorems": ["Verif.C121.relabel_correct", "Verif.C121.point_correct", "Verif.C121.image_in_plane", "Verif.C121.path_correct", "Verif.C121.halfEdge_correct"], "note": "Paths are lists of segments with a corner at both ends; the cached approximations of chains are not modelled. The hash map is a list of entries in any order."},
{"property": "C122", "status": "proved", "theorems": ["Verif.C122.section_correct", "Verif.C122.section_point", "Verif.C122.section_path", "Verif.C122.trivial_correct", "Verif.C122.refuses"], "note": "As C121. The section is taken of the deformation as constructed from a table of all half edges."},
{"property": "C123", "status": "proved", "theorems": ["Verif.C123.shifts", "Verif.C123.rejects", "Verif.C123.outcome", "Verif.C123.terminates"], "note": "The decision of what has to be done and the case in which nothing has to be flipped or collapsed are proved. That the enclosures of roots are correct is a hypothesis, as is that the product with the zero vector is seen to be zero (see C60). What happens to the surface when half edges are flipped or collapsed is not modelled."},
{"property": "C124", "status": "proved", "theorems": ["Verif.C124.segment_correct", "Verif.C124.path_correct", "Verif.C124.vector_correct", "Verif.C124.refuses"], "note": "The deformation that is returned when nothing is flipped or collapsed. That the sequence of half edges is homotopic to the saddle connection is expressed by developing the triangles that are crossed into the plane."},
{"property": "C125", "status": "proved", "theorems": ["Verif.C125.components_correct", "Verif.C125.perimeter_closed", "Verif.C125.signs"], "note": "Uniqueness of large edges, which the constructor establishes by flips, is a hypothesis of the last claim."},
{"property": "C126", "status": "proved", "theorems": ["Verif.C126.contour", "Verif.C126.connection"], "note": "Saddle connections are given by their vectors; the assertions that paths are simple, closed as paths on the surface, and about angles are not modelled."},
{"property": "C127", "status": "proved", "theorems": ["Verif.C127.closed", "Verif.C127.connections", "Verif.C127.symmetric"], "note": "Saddle connections are given by their vectors; the assertions that paths are simple, closed as paths on the surface, and about angles are not modelled. Uniqueness of large edges is a hypothesis of the claims about all components."},
{"property": "C128", "status": "proved", "theorems": ["Verif.C128.nonneg", "Verif.C128.areas"], "note": "Saddle connections are given by their vectors; the assertions that paths are simple, closed as paths on the surface, and about angles are not modelled. Uniqueness of large edges is a hypothesis of the claim about the sum."},
{"property": "C129", "status": "proved", "theorems": ["Verif.C129.makeUniqueLargeEdge", "Verif.C129.makeUniqueLargeEdge_throws", "Verif.C129.makeUniqueLargeEdges"], "note": "Says what holds whenever the loops return; that they always return is not claimed. std::sort is an arbitrary function that returns a permutation of its input."},
{"property": "C13", "status": "proved", "theorems": ["Verif.C13.ofFaces_correct", "Verif.C13.ofFaces_faces", "Verif.C13.ofFaces_faces_closed"], "note": ""},
{"property": "C130", "status": "proved", "theorems": ["Verif.C130.decomposition"], "note": "Says what holds whenever the loops return; that they always return is not claimed. The check that the constructor runs in debug builds (contour_decomposition.cc:70-205) is not part of the model."},
{"property": "C131", "status": "proved", "theorems": ["Verif.C131.isomorphisms_correct"], "note": "All linear groups. The coordinates are assumed to be in the same ring, see FlatTri.beq; division is assumed to be exact. Half edges are mapped as saddle connections through all parts of the deformation."},
{"property": "C132", "status": "partial", "theorems": ["Verif.C132.isomorphisms_partial", "Verif.C132.automorphisms_partial", "Verif.C132.throws", "Verif.C132.not_usable"], "note": "The property does not hold: throws and not_usable give counterexamples. Proved instead: the result is empty exactly for surfaces that are not equivalent; for a surface and itself there is no error and the number of isomorphisms is correct."},
{"property": "C133", "status": "proved", "theorems": ["Verif.C133.isomorphism_faces"], "note": "For surfaces that are not connected see C135. The retriangulation that is returned is modelled by the half edge and its image that define it."},
{"property": "C134", "status": "proved", "theorems": ["Verif.C134.isomorphism_cells", "Verif.C134.rejected"], "note": "That Delaunay cells are convex and connected, and that a covering of cells between surfaces with equally many half edges is a bijection, is proved in Lemmas/DelaunayCells."},
{"property": "C135", "status": "partial", "theorems": ["Verif.C135.not_isomorphic", "Verif.C135.sound_partial"], "note": "Does not hold: only the component of one half edge is compared. sound_partial shows it for connected surfaces."},
{"property": "C136", "status": "proved", "theorems": ["Verif.C136.inSector_correct", "Verif.C136.inSector_finds", "Verif.C136.direction_finds"], "note": "Release and debug builds. The embedding of the coordinates in the reals is a parameter."},
{"property": "C137", "status": "partial", "theorems": ["Verif.C137.shorter", "Verif.C137.not_exact", "Verif.C137.rejected_partial"], "note": "Does not hold: not_exact asks for a vector of length two on a torus and gets a connection of length one. rejected_partial: an error is reported if there is no saddle connection in that direction."},
{"property": "C138", "status": "partial", "theorems": ["Verif.C138.never_returns", "Verif.C138.not_returns", "Verif.C138.returns_partial"], "note": "Does not hold: never_returns says that the search does not end whenever there is no saddle connection in the direction; not_returns is an instance with coordinates in Z[sqrt 2]. returns_partial is about the other cases."},
{"property": "C139", "status": "proved", "theorems": ["Verif.C139.reverse", "Verif.C139.search_reverse"], "note": "For all closed surfaces; the search is the one of C40 with a bound."},
{"property": "C14", "status": "proved", "theorems": ["Verif.C14.ccw_correct", "Verif.C14.ccw_antisymm", "Verif.C14.ccw_scale", "Verif.C14.ccw_applyMatrix", "Verif.C14.orientation_correct", "Verif.C14.perpendicular_correct"], "note": "ccw is the sign of the cross product for every sound interval arithmetic; laws; orientation when computed exactly. The shortcut in orientation is split off as C60."},
{"property": "C140", "status": "proved", "theorems": ["Verif.C140.full_turns", "Verif.C140.turn_correct", "Verif.C140.source_correct"], "note": "The related directions are a parameter (Corresponds); that the constructor finds them is not modelled."},
{"property": "C141", "status": "proved", "theorems": ["Verif.C141.segment_correct", "Verif.C141.vanishes"], "note": "The related directions are a parameter (Corresponds); the search for saddle connections in the codomain is the one of C137."},
{"property": "C142", "status": "proved", "theorems": ["Verif.C142.holonomy_preserved", "Verif.C142.ends_preserved"], "note": "Holonomy holds on any surface; end points on closed surfaces. That tightening ends is not claimed."},
{"property": "C143", "status": "proved", "theorems": ["Verif.C143.tight", "Verif.C143.idempotent", "Verif.C143.unchanged"], "note": "That the segments of the result are saddle connections is a hypothesis of 'tight'; the other theorems only need it for the given path, or not at all."},
{"property": "C144", "status": "proved", "theorems": ["Verif.C144.cancels"], "note": "For all sufficiently large numbers of steps."},
{"property": "C145", "status": "proved", "theorems": ["Verif.C145.detected", "Verif.C145.finds"], "note": "The sequence of known connections is arbitrary as intervalxt, which reports it, is not modelled. The angles between the first (last) connection and the vertical are assumed to be positive and at most π, which is what the assertions in the code check."},
{"property": "C146", "status": "proved", "theorems": ["Verif.C146.inPlane_finds", "Verif.C146.inPlaneDirection_finds", "Verif.C146.alongVertical_finds", "Verif.C146.inHalfPlane_finds", "Verif.C146.counterclockwise_finds", "Verif.C146.inPlanes_sectors", "Verif.C146.counterclockwiseChain_sectors"], "note": "The search for saddle connections is the one of C136 and the search for sectors the one of C21."},
{"property": "C147", "status": "partial", "theorems": ["Verif.C147.clockwise_partial", "Verif.C147.clockwise_fails"], "note": "clockwise_fails shows that the saddle connection itself is returned instead of the one a full turn away. The partial theorem says that the right saddle connection is found when the vector is not in the interior of the sector of the saddle connection or when it is clockwise from it."},
{"property": "C148", "status": "proved", "theorems": ["Verif.C148.shortest_correct", "Verif.C148.shortestAlong_correct"], "note": "shortest edges, also with respect to a direction"},
{"property": "C149", "status": "proved", "theorems": ["Verif.C149.vertex_rejected", "Verif.C149.insert_correct"], "note": "insert at a point: vertices are rejected, other points become vertices"},
{"property": "C15", "status": "proved", "theorems": ["Verif.C15.inSector_correct", "Verif.C15.inSector_same", "Verif.C15.exists_turn", "Verif.C15.inSector_complement", "Verif.C15.inSector_rejects"], "note": "Specified with rotations of the real plane."},
{"property": "C150", "status": "partial", "theorems": ["Verif.C150.eliminated_partial", "Verif.C150.chosen", "Verif.C150.delta_correct", "Verif.C150.fails"], "note": "fails shows a surface with a singularity and one marked point where nothing is returned: the marked point is attached to all edges, so there is no edge that determines the deformation. The partial theorem says that when a surface is returned then its marked points are alone in their component; chosen and delta_correct are about a single step. The deformation by a shift is a parameter, see C123 and C124."},
{"property": "C151", "status": "partial", "theorems": ["Verif.C151.root_exists", "Verif.C151.first_partial", "Verif.C151.terminates", "Verif.C151.eventually_first", "Verif.C151.misses"], "note": "misses shows that the first root need not be enclosed when the balls for the two roots meet: then the ball for the root with the positive square root is returned. The partial theorem says that the first root is enclosed when these balls are apart. eventually_first says that this is the case from some precision on. root_exists and terminates are the other parts of the statement. The balls are only assumed to enclose the exact results; which balls Arb computes is not modelled."},
{"property": "C152", "status": "proved", "theorems": ["Verif.C152.negative_correct", "Verif.C152.negative_involutive", "Verif.C152.boundary_correct", "Verif.C152.next_correct", "Verif.C152.previous_correct", "Verif.C152.next_previous", "Verif.C152.next_foreign"], "note": "The perimeters are provided by intervalxt; that each connection is paired with its negative is assumed."},
{"property": "C153", "status": "proved", "theorems": ["Verif.C153.equal_iff", "Verif.C153.equal_equivalence", "Verif.C153.classes_equal_iff", "Verif.C153.isomorphic_iff", "Verif.C153.custom_not_equal"], "note": "Equivalences are addresses of objects. The codes for custom normalizations are not modelled, so the theorems about classes are for the other equivalences. isomorphic_kinds in the same file spells out what isomorphic means for each way to create an equivalence."},
{"property": "C154", "status": "partial", "theorems": ["Verif.C154.mul_correct", "Verif.C154.overflow_reported_partial", "Verif.C154.overflow_missed", "Verif.C154.release_undefined", "Verif.C154.truncated", "Verif.C154.mul_int_correct", "Verif.C154.div_mul_int"], "note": "Exact when the factor and the products fit. overflow_missed shows that, with assertions, a factor that fits leads to undefined behaviour exactly when no product is too large and some product is too small: the assertions only check the upper end. truncated shows that factors that do not fit can go unnoticed if the conversion of the library truncates."},
{"property": "C155", "status": "proved", "theorems": ["Verif.C155.signs_iff", "Verif.C155.classify_correct", "Verif.C155.polygon", "Verif.C155.angles_total"], "note": "Connections are given by numbers and by their source and side. The checks that paths are closed and that the area does not change are not modelled here."},
{"property": "C156", "status": "proved", "theorems": ["Verif.C156.forget_correct", "Verif.C156.forget_mismatch", "Verif.C156.render_injective"], "note": "The labels that intervalxt creates for plain lengths are modelled by the positions of the lengths."},
{"property": "C157", "status": "proved", "theorems": ["Verif.C157.rights_named", "Verif.C157.fresh_distinct", "Verif.C157.fresh_not_label", "Verif.C157.lefts_named", "Verif.C157.lefts_unknown", "Verif.C157.rights_repeated"], "note": "Only the names are modelled, not what intervalxt does with them."},
{"property": "C158", "status": "proved", "theorems": ["Verif.C158.image_found"], "note": "Images are a relation between vertices and points that is assumed to be compatible with moving along half edges; moving points is the subject of C94 to C96. The assertion that vertices that disappear are marked points is not modelled."},
{"property": "C16", "status": "proved", "theorems": ["Verif.C16.compareSlope_correct", "Verif.C16.compareSlope_strictWeakOrder", "Verif.C16.compareSlope_equivalent", "Verif.C16.compareLength_correct", "Verif.C16.compareLength_strictWeakOrder", "Verif.C16.compareLength_equivalent"], "note": "Coordinates are embedded in an ordered field (the reals)."},
{"property": "C17", "status": "proved", "theorems": ["Verif.C17.flips_flat", "Verif.C17.flip_succeeds_iff", "Verif.C17.flip_diagonal", "Verif.C17.flip_rejects", "Verif.C17.flip_throws"], "note": "Flips of reachable flat triangulations for all histories; what a rejected flip of a boundary edge does to the surface is C58."},
{"property": "C18", "status": "proved", "theorems": ["Verif.C18.ofVectors_ok", "Verif.C18.ofVectors_complete", "Verif.C18.ofVectors_rejects"], "note": "Constructor from a list of vectors; the constructor from a function is C67."},
{"property": "C19", "status": "proved", "theorems": ["Verif.C19.delaunayAt_correct", "Verif.C19.circumcenter_existsUnique", "Verif.C19.delaunayAt_neg", "Verif.C19.flip_repairs", "Verif.C19.never_revisits", "Verif.C19.delaunay_correct", "Verif.C19.delaunay_terminates"], "note": "In-circle test, symmetry and repair by a flip for edges with faces on both sides; delaunay() on closed surfaces, termination for vectors in a lattice."},
{"property": "C20", "status": "proved", "theorems": ["Verif.C20.angle_correct", "Verif.C20.gauss_bonnet"], "note": "Vertices without boundary; exact coordinates in an ordered ring embedded in the reals. Sums of real corner angles; Gauss-Bonnet for closed surfaces."},
{"property": "C21", "status": "proved", "theorems": ["Verif.C21.turnedInto_unique", "Verif.C21.corners_exist", "Verif.C21.firstTurn_existsUnique", "Verif.C21.sector_count", "Verif.C21.sector_counterclockwise", "Verif.C21.sector_collinear", "Verif.C21.sectorFrom_counterclockwise", "Verif.C21.sectorInPlane_correct", "Verif.C21.sectorInPlane_rejects", "Verif.C21.sectorInHalfPlane_correct"], "note": "All four overloads of sector for counterclockwise or unspecified direction, with explicit angles."},
{"property": "C22", "status": "proved", "theorems": ["Verif.C22.applyMatrix_singular", "Verif.C22.applyMatrix_boundary", "Verif.C22.applyMatrix_correct", "Verif.C22.applyMatrix_compose", "Verif.C22.scale_correct", "Verif.C22.scale_zero"], "note": "applyMatrix and scale; the codomain of the deformation is modelled here."},
{"property": "C23", "status": "proved", "theorems": ["Verif.C23.vector_correct", "Verif.C23.bound_correct"], "note": "All histories of all operations but *= (C64) on a heap of chains with aliasing; arbitrary cost estimates (which are doubles in the code, natural numbers in the model) and arbitrary sound interval arithmetic."},
{"property": "C24", "status": "proved", "theorems": ["Verif.C24.coefficients_correct", "Verif.C24.coefficient_neg", "Verif.C24.bool_correct", "Verif.C24.eq_correct", "Verif.C24.hash_correct", "Verif.C24.iteration_correct"], "note": "All histories, including *=. The hash is for an arbitrary combination function; it reads coefficient 0, so a surface without edges is excluded."},
{"property": "C25", "status": "proved", "theorems": ["Verif.C25.radius_correct", "Verif.C25.order_correct", "Verif.C25.scale_correct", "Verif.C25.compare_correct", "Verif.C25.lower_upper_correct", "Verif.C25.lower_upper_int", "Verif.C25.lower_upper_rat"], "note": ""},
{"property": "C26", "status": "proved", "theorems": ["Verif.C26.eval_correct", "Verif.C26.positive_correct"], "note": ""},
{"property": "C27", "status": "proved", "theorems": ["Verif.C27.set_correct", "Verif.C27.iteration_correct"], "note": "Histories of construction, copy, insert, erase, comparison on any number of sets, with lazily resized bitsets."},
{"property": "C28", "status": "proved", "theorems": ["Verif.C28.rename_correct", "Verif.C28.swap_surface", "Verif.C28.swap_halfEdge", "Verif.C28.swap_edgeSet", "Verif.C28.swap_edgeMap", "Verif.C28.swap_halfEdgeMap", "Verif.C28.swap_halfEdgeMap_reversed", "Verif.C28.swap_oddHalfEdgeMap", "Verif.C28.erase_halfEdge", "Verif.C28.erase_edgeSet", "Verif.C28.erase_maps"], "note": "Renaming with a = -b leaves a HalfEdgeMap unchanged (swap_halfEdgeMap_reversed); the library never does that."},
{"property": "C29", "status": "proved", "theorems": ["Verif.C29.same_correct", "Verif.C29.representative_correct"], "note": "All histories of join, find and comparison; termination of the recursion included."},
{"property": "C30", "status": "proved", "theorems": ["Verif.C30.point_accepts", "Verif.C30.point_rejects", "Verif.C30.eq_correct", "Verif.C30.in_correct", "Verif.C30.coordinates_correct", "Verif.C30.face_correct", "Verif.C30.vertex_correct", "Verif.C30.at_correct", "Verif.C30.on_correct", "Verif.C30.pointAt_correct", "Verif.C30.inner_same", "Verif.C30.edge_same", "Verif.C30.inner_face", "Verif.C30.vertex_same"], "note": "For closed surfaces reached by the API, of any coordinate ring ordered and embedded in the reals: creation accepts exactly the nonnegative, nonzero weights; == decides equality of positions (generated by scaling, rotating in a face, gluing); in, on, at, vertex, coordinates, face agree with positions; positions are separated (inner_same, edge_same, inner_face, vertex_same). == does not compare surfaces: both points are taken on the same surface."},
{"property": "C31", "status": "proved", "theorems": ["Verif.C31.rotated_correct", "Verif.C31.crossed_correct", "Verif.C31.barycentric_correct", "Verif.C31.cartesian_correct", "Verif.C31.vector_correct"], "note": "Positions in the plane are in the reals. truediv is a parameter with TrueDivision, shown for integers and rationals."},
{"property": "C32", "status": "proved", "theorems": ["Verif.C32.hash_point", "Verif.C32.quot_ratio", "Verif.C32.int_ratio", "Verif.C32.rat_ratio"], "note": "hash_combine is an arbitrary function of its arguments. Hashing of quotients is shown to depend only on the quotient for the binary expansion, integers and rationals."},
{"property": "C33", "status": "proved", "theorems": ["Verif.C33.flip_correct", "Verif.C33.positions_correspond", "Verif.C33.layouts_exist", "Verif.C33.side_fixed", "Verif.C33.section_correct"], "note": "Model/FlipPoint.lean models flip_deformation_relation.cc:65-98. The image of each point is computed without an error and is at the same position, where the quadrilateral is laid out in the plane before and after the flip with the four outer sides fixed; positions correspond one to one; the section undoes the flip."},
{"property": "C34", "status": "proved", "theorems": ["Verif.C34.image_in_plane", "Verif.C34.image_same", "Verif.C34.point_correct", "Verif.C34.section_det", "Verif.C34.section_exists", "Verif.C34.section_inverts"], "note": "Points for orientation preserving matrices and points on edges; inner points for negative determinants are C84, paths are C85."},
{"property": "C35", "status": "partial", "theorems": ["Verif.C35.layout_exists", "Verif.C35.first_correct_partial", "Verif.C35.elsewhere", "Verif.C35.boundary_fails", "Verif.C35.not_pointsKept", "Verif.C35.wrong_point"], "note": "The property is false (not_pointsKept, for each inserted vertex). The correct part: points in the new face opposite to the source of the half edge returned by face() (first_correct_partial). boundary_fails: points on the boundary always lead to an error. wrong_point: an inner point that is mapped to the new vertex. elsewhere: other points are returned as points of the domain. The positions are compared in a common layout, which exists (layout_exists)."},
{"property": "C36", "status": "proved", "theorems": ["Verif.C36.mismatch", "Verif.C36.match_of_ok", "Verif.C36.compose_correct", "Verif.C36.surfaces", "Verif.C36.identity_left", "Verif.C36.identity_right", "Verif.C36.section_correct", "Verif.C36.same_refl", "Verif.C36.same_symm", "Verif.C36.same_trans", "Verif.C36.same_andThen", "Verif.C36.rel_respects", "Verif.C36.respects", "Verif.C36.rel_image", "Verif.C36.image", "Verif.C36.compose_honest", "Verif.C36.compose_assoc", "Verif.C36.flat_lawful", "Verif.C36.flat_respectful", "Verif.C36.flip_honest", "Verif.C36.edge_conn", "Verif.C36.flip_section"], "note": "Deformation relations are a parameter (laws assumed in Lawful/Respectful/Honest, proved for flips and linear maps). trivial() simplifies its argument, so composing returns the simplified factors too. Whether a deformation's trivial() is right is a hypothesis (Honest): neutrality only needs it for relations other than the identity."},
{"property": "C37", "status": "proved", "theorems": ["Verif.C37.automorphisms_correct", "Verif.C37.codes_agree_iff", "Verif.C37.connected_of_vertex", "Verif.C37.torus_connected", "Verif.C37.ell_connected"], "note": "For all connected closed surfaces reachable through the modelled operations, with or without orientation: the class is built without any assertion failing, its code agrees for two surfaces iff a relabelling takes one to the other, and automorphisms() is the number of relabellings of the surface to itself."},
{"property": "C38", "status": "proved", "theorems": ["Verif.C38.gl_standard", "Verif.C38.sl_standard", "Verif.C38.in_group", "Verif.C38.invariant", "Verif.C38.possible_iff", "Verif.C38.throws_otherwise", "Verif.C38.possible_invariant"], "note": "For every ordered ring whose division finds the quotients that exist: position of the normalized edges, determinant, membership in the group, invariance under the group, and that normalization throws exactly if the ring contains no matrix taking the edges to the standard basis. Custom normalization functions are not modelled."},
{"property": "C39", "status": "proved", "theorems": ["Verif.C39.corners_exist", "Verif.C39.isDirection_iff", "Verif.C39.filters_intersect", "Verif.C39.debug_same", "Verif.C39.order_irrelevant", "Verif.C39.only_restrict", "Verif.C39.zero_rejected"], "note": "Restrictions by bounds, vertices, half edges, vectors and saddle connections; connections are given by half edge and vector, release builds (debug builds agree when they do not fail)."},
{"property": "C40", "status": "proved", "theorems": ["Verif.C40.search_exact", "Verif.C40.direction_unique"], "note": "The explicit stack machine of the iterator is modelled call by call (increment, prepareSearch, classify, applyMoves, dereference) and proved to terminate and to report exactly the saddle connections admitted by the restrictions, each once. The saddle connections are specified independently by developing triangles along a ray. Searches without a bound are not covered here; skipSector, skip and incrementWithIntersections are not modelled."},
{"property": "C41", "status": "proved", "theorems": ["Verif.C41.same_connections_sorted", "Verif.C41.shortest_first"], "note": "std::sort and Bound::upper are parameters about which only their specification is assumed (C16, C25 prove it of the comparison and of Bound::upper). Surfaces with at least one half edge; see C91 for the empty surface and for searches that admit nothing."},
{"property": "C42", "status": "proved", "theorems": ["Verif.C42.neg_neg", "Verif.C42.neg_correct", "Verif.C42.halfEdge_vector", "Verif.C42.halfEdge_neg", "Verif.C42.path_neg", "Verif.C42.path_neg_neg", "Verif.C42.path_neg_valid", "Verif.C42.path_neg_closed", "Verif.C42.closed_correct", "Verif.C42.area_neg", "Verif.C42.area_correct", "Verif.C42.area_rotate"], "note": "Model of saddle connections (without searches) and paths."},
{"property": "C43", "status": "proved", "theorems": ["Verif.C43.advance_correct", "Verif.C43.cyclic", "Verif.C43.visit_correct", "Verif.C43.append_correct", "Verif.C43.splice_correct"], "note": "Appending a path to itself is C73, transitivity of == is C74."},
{"property": "C44", "status": "proved", "theorems": ["Verif.C44.kind_existsUnique", "Verif.C44.classifyFace_correct", "Verif.C44.classifyFace_side", "Verif.C44.large_correct", "Verif.C44.make_correct"], "note": "Classification and large for all surfaces; a face has exactly one kind and it does not depend on the half edge."},
{"property": "C45", "status": "proved", "theorems": ["Verif.C45.answers_correct", "Verif.C45.never_stale"], "note": "Histories with flips that succeed or throw; answers agree with exact values and with a fresh vertical."},
{"property": "C46", "status": "proved", "theorems": ["Verif.C46.fromLabel_toLabel", "Verif.C46.toLabel_fromLabel", "Verif.C46.make_correct", "Verif.C46.step_sum", "Verif.C46.sum_correct", "Verif.C46.push_correct", "Verif.C46.pop_push", "Verif.C46.subtract_correct", "Verif.C46.subtractRepeated_correct", "Verif.C46.cmp_correct", "Verif.C46.example_subtractable"], "note": "For all histories the sum is the sum of the labels on the stack. Subtraction removes the (largest possible) multiple, for contours in the position that intervalxt maintains; contours are inputs of the model. Saddle connections are modelled by their vectors."},
{"property": "C47", "status": "proved", "theorems": ["Verif.C47.hasCylinder_true", "Verif.C47.hasCylinder_false", "Verif.C47.hasCylinder_stable", "Verif.C47.hasCylinder_determined", "Verif.C47.parabolic_returns", "Verif.C47.parabolic_true", "Verif.C47.parabolic_determined", "Verif.C47.parabolic_true_stable"], "note": "Components are abstract (cylinder answer, first holonomy vector, area); the coefficients of numbers given by intervalxt are assumed to be the coefficients over a rationally independent basis. Further decomposition may replace undetermined components arbitrarily with the same total area."},
{"property": "C48", "status": "proved", "theorems": ["Verif.C48.exists_triangulation", "Verif.C48.embedding_bijective", "Verif.C48.embedding_glued", "Verif.C48.embedding_neg", "Verif.C48.embedding_boundary"], "note": "Each component is given by its perimeter, which bounds a polygon. Half edges at the boundary of a component are all mapped to the half edge 404."},
{"property": "C49", "status": "proved", "theorems": ["Verif.C49.halfEdge_correct", "Verif.C49.edge_correct", "Verif.C49.bound_correct", "Verif.C49.perm_correct", "Verif.C49.tri_correct", "Verif.C49.flat_correct", "Verif.C49.chain_correct", "Verif.C49.saddle_correct", "Verif.C49.vertex_correct", "Verif.C49.vertical_correct"], "note": "Archives are modelled as values; that cereal, GMP and the coordinates reproduce numbers and strings is assumed. At most 2^31 half edges since ids are ints. Surfaces with boundary are C78."},
{"property": "C50", "status": "partial", "theorems": ["Verif.C50.vertices_eq", "Verif.C50.equal_partial", "Verif.C50.equal_closed_partial", "Verif.C50.equal_flat_partial", "Verif.C50.equal_of_indistinguishable", "Verif.C50.equal_flat_of_indistinguishable", "Verif.C50.not_equalIndistinguishable", "Verif.C50.torus3_equal", "Verif.C50.reachable_of_ofIds", "Verif.C50.not_equalIndistinguishableFlat"], "note": "True for surfaces without boundary; == ignores the boundary, and a triangle is equal to a sphere made of two triangles (negation proved)."},
{"property": "C51", "status": "proved", "theorems": ["Verif.C51.projective_eq", "Verif.C51.position", "Verif.C51.relative_position", "Verif.C51.lt_iff", "Verif.C51.sorted_iff"], "note": "Comparison, and hence sorting, of intersections with one half edge is by position along it, in debug and release builds. at() is the double closest to the quotient of relative(), which is shown to be the position; the rounding itself is not modelled."},
{"property": "C52", "status": "partial", "theorems": ["Verif.C52.straight_partial", "Verif.C52.not_straight", "Verif.C52.not_terminates"], "note": "False for the code: not_straight says that operator()(Path) loops forever on each path that is not straight, not_terminates gives a witness on the unit torus. For straight paths, straight_partial reduces the path to the image of a single vector; the search for that image is a parameter."},
{"property": "C53", "status": "proved", "theorems": ["Verif.C53.never_repeats", "Verif.C53.bound_error"], "note": "The random choices are arbitrary arguments. The computation with floating point numbers that weighs the choice of a side is not modelled, nor the error that it reports when these numbers overflow. The search is restricted to entire corners, see C100 for other searches."},
{"property": "C54", "status": "partial", "theorems": ["Verif.C54.vertex_angle", "Verif.C54.vertex_partial", "Verif.C54.face_partial", "Verif.C54.inside_partial", "Verif.C54.add_partial"], "note": "vertex_partial: moving a vertex goes straight for one unit of time, crossing any number of faces and marked vertices. face_partial: points that are not vertices and stay in their face. add_partial: moving by v then w inside a face is moving by v + w. Missing: points that are not vertices and leave their face (the code inserts a vertex and moves it in another surface; not modelled); vectors parallel to a half edge when there is a vertex with angle other than 2π (C94)."},
{"property": "C55", "status": "proved", "theorems": ["Verif.C55.contour_correct", "Verif.C55.components_correct"], "note": "Surfaces without vertical edges, i.e., nothing has to be collapsed. The recursion is total for large enough fuel."},
{"property": "C56", "status": "partial", "theorems": ["Verif.C03.cycleMul_apply", "Verif.C03.left_fails", "Verif.C03.cycleMul_transposition_partial"], "note": "False for cycles of length at least three: the code composes with the inverse of the cycle (cycleMul_apply, left_fails). Holds for transpositions."},
{"property": "C57", "status": "partial", "theorems": ["Verif.C05.release_accepts_monogon", "Verif.C05.odd_undefined", "Verif.C05.open_boundary_undefined", "Verif.C05.rejection_fails", "Verif.C05.rejection_partial"], "note": "False as stated: see the counterexamples release_accepts_monogon, odd_undefined and open_boundary_undefined; rejection_partial says what is reported."},
{"property": "C58", "status": "partial", "theorems": ["Verif.C06.rejected_unchanged_debug", "Verif.C06.rejected_unchanged_partial", "Verif.C06.release_flip_corrupts", "Verif.C06.rejection_fails"], "note": "Holds in debug builds. In release builds false if -e is boundary but e is not (release_flip_corrupts)."},
{"property": "C59", "status": "partial", "theorems": ["Verif.C11.slit_loop_not_split", "Verif.C11.slit_loop_fails", "Verif.C11.loops_not_split", "Verif.C11.slit_loop_partial"], "note": "false: the two sides of a slit loop stay at one vertex, a loop at a boundary vertex is rejected; slit_loop_partial has what is true"},
{"property": "C60", "status": "partial", "theorems": ["Verif.C14.orientation_shortcut_partial", "Verif.C14.shortcut_changes_answer"], "note": "Right unless the exact inner product is zero and zero is the upper end of an inexact enclosure; shortcut_changes_answer proves that the full property fails there for an abstract sound interval arithmetic."},
{"property": "C61", "status": "partial", "theorems": ["Verif.C61.eq_correct_partial", "Verif.C61.eq_wrong"], "note": "eq_wrong: the exact vector (1,2) differs from itself and equals (1,1)."},
{"property": "C62", "status": "partial", "theorems": ["Verif.C61.div_correct_partial", "Verif.C61.div_wrong"], "note": "div_wrong: division by the largest long long is wrong for coordinates of the same size."},
{"property": "C63", "status": "partial", "theorems": ["Verif.C26.lt_correct_partial", "Verif.C26.lt_terminates", "Verif.C26.lt_wrong"], "note": "Right when the polynomials share no root other than their first roots; lt_wrong is a counterexample to the full property."},
{"property": "C64", "status": "partial", "theorems": ["Verif.C64.not_mul_correct", "Verif.C64.mul_correct_partial"], "note": "False in the code: operator*= does not update the cached vectors. Proved for chains whose caches are empty; negation proved for a half edge times two."},
{"property": "C65", "status": "partial", "theorems": ["Verif.C65.not_edgeSet_eq", "Verif.C65.edgeSet_eq_partial"], "note": "Refuted: EdgeSet::operator== compares the pointers to the implementations. Partial: equal implies same elements, and reflexivity."},
{"property": "C66", "status": "partial", "theorems": ["Verif.C66.not_undisturbed", "Verif.C66.undisturbed_partial"], "note": "Refuted: == and disjoint resize mutable bitsets so that the end of a running loop is never met. Partial: undisturbed when the other bitset is not larger."},
{"property": "C67", "status": "partial", "theorems": ["Verif.C18.ofFunction_partial", "Verif.C18.ofFunction_lopsided", "Verif.C18.function_fails"], "note": "False for functions which are not odd (function_fails: two triangles of different size glued to a torus). Proved for odd functions."},
{"property": "C68", "status": "proved", "theorems": ["Verif.C22.relabel_correct", "Verif.C22.relabel_rejects"], "note": "The codomain of the deformation is modelled."},
{"property": "C69", "status": "partial", "theorems": ["Verif.C21.sector_clockwise_partial", "Verif.C21.sectorFrom_clockwise_partial", "Verif.C21.clockwise_fails", "Verif.C21.clockwiseFrom_fails"], "note": "The code violates the property at cone angles larger than 2π when the direction is in the interior of the initial sector (clockwise_fails, clockwiseFrom_fails); proved in all other cases."},
{"property": "C70", "status": "partial", "theorems": ["Verif.C70.delaunay_partial", "Verif.C70.boundary_edge", "Verif.C70.flatKite_throws", "Verif.C70.delaunay_fails"], "note": "False as stated: delaunay_fails gives a quadrilateral for which delaunay() throws; delaunay_partial is the claim for closed surfaces."},
{"property": "C71", "status": "partial", "theorems": ["Verif.C71.not_hashCorrect", "Verif.C71.diagonal_valid", "Verif.C71.not_simpleCorrect", "Verif.C71.hash_partial", "Verif.C71.simple_partial"], "note": "The full statement is false: the hash depends on the chain, == does not. Proved when equal segments have equal chains."},
{"property": "C72", "status": "partial", "theorems": ["Verif.C72.not_signedArea", "Verif.C72.signedArea_partial"], "note": "The full statement is false with assertions enabled. Proved for release builds and for nonnegative areas."},
{"property": "C73", "status": "partial", "theorems": ["Verif.C73.appendSelf_undefined", "Verif.C73.not_appendsSelf", "Verif.C73.appendsSelf_partial"], "note": "The full statement is false: undefined behaviour for every nonempty path. True for the empty path."},
{"property": "C74", "status": "partial", "theorems": ["Verif.C74.not_eqTransitive", "Verif.C74.not_eqTransitive'", "Verif.C74.eq_partial"], "note": "The full statement is false after a turn. Proved for iterators that have not gone around."},
{"property": "C75", "status": "proved", "theorems": ["Verif.C75.inCorner_exists", "Verif.C75.turnsTo_existsUnique", "Verif.C75.angle_correct", "Verif.C75.angle_invalid", "Verif.C75.ccw_correct"], "note": "angle and ccw with their search loop; cone angles in terms of real angles. Vertices without boundary."},
{"property": "C76", "status": "partial", "theorems": ["Verif.C76.components_partial", "Verif.C76.components_disjoint_partial", "Verif.C76.components_not_partition"], "note": "Proved up to vertical half edges, which can be in several components; the negation of the full statement is proved. components_disjoint_partial: full statement when no edge is vertical."},
{"property": "C77", "status": "proved", "theorems": ["Verif.C77.hash_correct", "Verif.C77.hash_flat_correct"], "note": "std::hash as modelled by hashCombine; for flat surfaces for any hash of vectors."},
{"property": "C78", "status": "partial", "theorems": ["Verif.C78.roundTrips_partial", "Verif.C78.save_throws", "Verif.C78.load_triangle", "Verif.C78.load_square", "Verif.C78.not_roundTrips"], "note": "False: the boundary is not written. In debug builds saving throws; in release builds loading gives another surface or fails (negations proved). Proved without boundary."},
{"property": "C79", "status": "partial", "theorems": ["Verif.C79.completelyPeriodic_eq", "Verif.C79.completelyPeriodic_partial", "Verif.C79.false_stable", "Verif.C79.never_indeterminate", "Verif.C79.not_stable"], "note": "False: undetermined components are treated as cylinders, the answer is never indeterminate (negation proved). Proved when all components are determined, and for the answer false."},
{"property": "C80", "status": "partial", "theorems": ["Verif.C80.false_stable_partial", "Verif.C80.not_falseStable"], "note": "False: the holonomy of undetermined components is used (negation proved with coordinates in Z[sqrt 2]; components are abstract). Proved when the reason for the answer are determined components."},
{"property": "C81", "status": "proved", "theorems": ["Verif.C81.automorphisms_correct", "Verif.C81.codes_agree_iff", "Verif.C81.throws_otherwise", "Verif.C81.unitAreas_iff", "Verif.C81.flatTorus_unitAreas"], "note": "For all connected closed surfaces reachable through the modelled operations: class construction succeeds when areas are invertible, codes agree iff the surfaces are equivalent, automorphisms() is the number of self-equivalences, and a logic_error is thrown otherwise. Custom normalization functions and the representative surface are not modelled."},
{"property": "C82", "status": "partial", "theorems": ["Verif.C82.twice_fails", "Verif.C82.not_combines", "Verif.C82.combines_partial", "Verif.C82.combines_once_partial"], "note": "False in debug builds: not_combines. Holds in release builds and in debug builds with at most one restriction to a sector."},
{"property": "C83", "status": "partial", "theorems": ["Verif.C83.first", "Verif.C83.second", "Verif.C83.reversed", "Verif.C83.not_consistent", "Verif.C83.consistent_partial"], "note": "False in general: for half edges whose first coordinates have different signs the order is reversed (not_consistent). Proved when these signs agree."},
{"property": "C84", "status": "partial", "theorems": ["Verif.C84.point_partial", "Verif.C84.inner_point_wrong"], "note": "False for every point in the interior of a face (inner_point_wrong); true for points on edges."},
{"property": "C85", "status": "proved", "theorems": ["Verif.C85.path_correct", "Verif.C85.section_inverts"], "note": "For paths whose segments are in the sector of their source and target."},
{"property": "C86", "status": "proved", "theorems": ["Verif.C86.face_correct", "Verif.C86.edge_correct", "Verif.C86.insertAt_correct", "Verif.C86.inside_correct", "Verif.C86.outside_rejected"], "note": "Closed surfaces. Partial correctness: whenever insertAt returns. That the search for flips always ends is not proved (it is for vectors that end inside or on an edge of the face, inside_correct). The result states the sequence of flips, the final position of the vector, and the subdivided surface."},
{"property": "C87", "status": "partial", "theorems": ["Verif.C87.kept_iff_partial", "Verif.C87.surface_wrong", "Verif.C87.not_segmentsKept"], "note": "The property is false (not_segmentsKept). The path is returned as a path of the domain (surface_wrong). kept_iff_partial says for which segments the data is still correct in the codomain."},
{"property": "C88", "status": "proved", "theorems": ["Verif.C88.layouts_exist", "Verif.C88.split_correct", "Verif.C88.elsewhere"], "note": "Positions are compared in layouts of the faces in the plane (they exist, layouts_exist). Points elsewhere are returned as points of the domain (elsewhere)."},
{"property": "C89", "status": "proved", "theorems": ["Verif.C89.path_correct", "Verif.C89.place_unique", "Verif.C89.section_inverts"], "note": "Saddle connections are given by source, target and chain; paths satisfy the invariants that the constructors assert."},
{"property": "C90", "status": "partial", "theorems": ["Verif.C90.chain_difference", "Verif.C90.diagonal_moved", "Verif.C90.smul_vec_eq_zero", "Verif.C90.chains_kept_iff_partial", "Verif.C90.linear_after_flip_partial", "Verif.C90.diagonal_conns", "Verif.C90.diagonal_on", "Verif.C90.diagonal_connected", "Verif.C90.image_eq", "Verif.C90.chain_wrong", "Verif.C90.not_chainsKept", "Verif.C90.scaled_eq", "Verif.C90.linear_wrong"], "note": "The property is false for the code: see not_chainsKept and linear_wrong. The partial theorems say exactly for which saddle connections the chain stays right, and that linear maps are then right."},
{"property": "C91", "status": "partial", "theorems": ["Verif.C91.begins_partial", "Verif.C91.never_begins", "Verif.C91.undefined_on_empty_surface"], "note": "False as stated: without a bound and with nothing admitted, begin() never returns (never_begins); on the empty surface it has undefined behavior. begins_partial proves it for bounded searches and for searches that admit something."},
{"property": "C92", "status": "partial", "theorems": ["Verif.C92.reached_partial", "Verif.C92.stuck_forever", "Verif.C92.never_advances"], "note": "False as stated without a bound: never_advances. With a bound, reached_partial proves it."},
{"property": "C93", "status": "proved", "theorems": ["Verif.C93.path_exact", "Verif.C93.crossings_unique", "Verif.C93.crossings_exact"], "note": "Holds in debug and release builds for any saddle connection in the sense of Spec/SaddleSearch.lean. The list of crossings is unique."},
{"property": "C94", "status": "partial", "theorems": ["Verif.C94.crosses_singularity", "Verif.C94.refused_partial"], "note": "The property is false: crosses_singularity, a marked point moves beyond a vertex of angle 6π if that vertex is at the end of a half edge in the direction of the vector. refused_partial: the property holds for vectors that are not parallel to a half edge."},
{"property": "C95", "status": "partial", "theorems": ["Verif.C95.zero_never_ends", "Verif.C95.zero_torus", "Verif.C95.ends_partial"], "note": "The property is false: zero_never_ends, moving a marked vertex by zero never returns. ends_partial: the other cases, except for points that leave their face (not modelled) and vertices moving parallel to half edges when not all vertices are marked."},
{"property": "C96", "status": "partial", "theorems": ["Verif.C96.endpoint_partial", "Verif.C96.rejects", "Verif.C96.logic_error"], "note": "The property is false: logic_error, debug builds throw a logic_error if the vector is a longer multiple of the next half edge at the vertex. endpoint_partial and rejects: the other vectors; vectors parallel to a half edge only if all vertices are marked."},
{"property": "C97", "status": "partial", "theorems": ["Verif.C97.torus_broken", "Verif.C97.sphere_broken", "Verif.C97.collapse_partial"], "note": "False in code: counterexamples torus_broken and sphere_broken; collapse_partial is the part that holds."},
{"property": "C98", "status": "partial", "theorems": ["Verif.C98.empty_undefined", "Verif.C98.no_error_partial"], "note": "empty_undefined shows that the constructor accesses the first of no sectors, which is undefined behavior. The partial theorem says that there is no such problem as long as there is a corner left to search."},
{"property": "C99", "status": "partial", "theorems": ["Verif.C99.sampled_partial", "Verif.C99.half_edges_never"], "note": "half_edges_never shows that saddle connections that are edges of the triangulation are never reported. The partial theorem says that all the other saddle connections are reported for some random choices."}
]}
