{"id": "C01", "title": "Unit conversion factors are coherent", "statement": "For any two known units of the same class factor(a,b) succeeds, is strictly positive, factor(a,b)*factor(b,a)=1, factor(a,a)=1 and factor(a,b)*factor(b,c)=factor(a,c): converting never depends on the route taken. units_in_class, lengths, weights, angles, times and time_rates list exactly the names of the units of the class, each once; all_units_classes lists the five classes. raw(u) is the size of u in the base unit of its class, so that factor(a,b)=raw(a)/raw(b); unknown names raise KeyError.", "quantifier": "all pairs/triples of unit names known to the library", "why_tests_cant": "the table has 40 names, 64000 triples; tests check a dozen pairs to 7 digits", "anchors": ["blmath/units.py:Units.__init__", "blmath/units.py:Units.factor", "blmath/units.py:Units.units_in_class", "blmath/units.py:Units.all_units_classes"]}
{"id": "C02", "title": "What unit conversion accepts", "statement": "factor(from,to,units_class) returns 1 without any check when from == to or both are missing/empty; for all other arguments it returns a number exactly when both are known units of one class, which is the demanded class if one is demanded (then the quotient of their sizes), and raises otherwise: KeyError for a missing or unknown unit, ValueError for a class mismatch. In particular equal names are never checked: a unit of a class other than the demanded one, and an unknown name, get through (witnesses).", "quantifier": "all strings or None for from_units, to_units and units_class", "why_tests_cant": "an infinite space of strings; tests sample two error cases", "anchors": ["blmath/units.py:Units.factor", "blmath/geometry/transform/composite.py:CompositeTransform.convert_units"]}
{"id": "C03", "title": "convert preserves the physical quantity", "statement": "convert(v,a,b) succeeds exactly when factor(a,b) does, returns the unit b, denotes the same physical quantity as (v,a), is linear in v, round-trips through any other unit of the class, and for value None still raises on incompatible units before returning (None, None); convert_list is the elementwise version preserving order and length.", "quantifier": "all values (including None), all unit names, all lists", "why_tests_cant": "infinitely many values and list lengths", "anchors": ["blmath/units.py:Units.convert", "blmath/units.py:Units.convert_list"]}
{"id": "C04", "title": "System-default conversion", "statement": "convert_to_system_default returns the system's default unit for the class of the input, preserves the physical quantity, is idempotent, passes unitless values through unchanged, and default_units(system, exceptions) overrides exactly the listed classes. The method of Value does the same and raises KeyError for unitless Values.", "quantifier": "all values, all known units, both unit systems, all exception tables", "why_tests_cant": "quantifies over all values, units and override tables", "anchors": ["blmath/units.py:Units.default_units", "blmath/units.py:Units.convert_to_default", "blmath/units.py:Units.convert_to_system_default", "blmath/value.py:Value.convert_to_system_default"]}
{"id": "C05", "title": "prettify rounds honestly", "statement": "Both numbers returned by prettify are integer multiples of the documented increment for that unit (or 10^-precision) and differ from the exactly converted value by at most half an increment; units returned are the metric and US defaults.", "quantifier": "all values, all known units, all precisions", "why_tests_cant": "rounding boundaries occur at infinitely many values", "anchors": ["blmath/units.py:Units.prettify", "blmath/numerics/rounding.py:round_to"]}
{"id": "C06", "title": "Value arithmetic respects units", "statement": "a+b, a-b, scalar+a, a*scalar, a/scalar, -a, abs(a) denote the physically right quantity, carry a's units, work for any mix of compatible units, and cross-class operands raise; Value*Value, scalar/Value, %, ** always raise.", "quantifier": "all Values, all scalars, all unit pairs", "why_tests_cant": "infinitely many operand/unit combinations", "anchors": ["blmath/value.py:Value.__add__", "blmath/value.py:Value.__sub__", "blmath/value.py:Value.__mul__", "blmath/value.py:Value.__truediv__", "blmath/value.py:Value._comparable"]}
{"id": "C07", "title": "Value comparison is a total preorder on physical quantity", "statement": "For Values of one class ==,!=,<,<=,>,>= agree with the comparison of the physical quantities, hence are trichotomous, transitive across three different units and antisymmetric; values of different classes are never ordered (ValueError; KeyError when the left one is unitless).", "quantifier": "all pairs and triples of Values in any units", "why_tests_cant": "laws range over triples of values and units", "anchors": ["blmath/value.py:Value.__eq__", "blmath/value.py:Value.__lt__", "blmath/value.py:Value._comparable"]}
{"id": "C08", "title": "Value ratios are unit-invariant", "statement": "a/b of two compatible Values is unitless, and unchanged when either operand is first converted to any other compatible unit; floor division likewise; dividing by a zero Value raises; incompatible operands raise ValueError (KeyError when only the dividend is unitless). Floor division by a number keeps the units and depends on them; infinities and NaN behave as in CPython.", "quantifier": "all pairs of Values and all re-expressions of them", "why_tests_cant": "infinitely many values/units", "anchors": ["blmath/value.py:Value.__truediv__", "blmath/value.py:Value.__floordiv__"]}
{"id": "C09", "title": "Labels of Values over every history", "statement": "Every Value reachable by any finite program of constructions, conversions, attribute conversions, arithmetic, value assignments and unit assignments has a label that is None or in the unit table, or that was itself assigned through the public units setter (which checks nothing: witness). Without the setter all labels are good; the constructor rejects all others; with a bad label the operators that keep units raise (sums and differences also for a second operand with a bad label, except that the empty text, assigned as units, converts to no units), so it does not spread. The value setter keeps the units and refuses None.", "quantifier": "all finite operation sequences", "why_tests_cant": "unbounded histories", "anchors": ["blmath/value.py:Value.__init__", "blmath/value.py:Value.convert", "blmath/value.py:Value.__getattr__", "blmath/value.py:Value.units"]}
{"id": "C10", "title": "prettified over every history", "statement": "On Python 2, after any history of reads and assignments of value and units, .prettified is prettify of the value and units at the first successful read, or of the present ones if there was none (so it can be stale: witness; and is right when nothing is assigned after the first read). On Python 3 every read raises, TypeError for any good label, because __round__ requires an argument.", "quantifier": "all histories of assignments and reads, both Python versions", "why_tests_cant": "unbounded histories", "anchors": ["blmath/value.py:Value.prettified", "blmath/value.py:Value.__round__", "blmath/numerics/rounding.py:round_to"]}
{"id": "C11", "title": "JSON round-trip", "statement": "loads(dumps(x)) == x exactly for the nestings of lists, dicts, scalars and Values with documented units in which no dict has the key __value__ or __ndarray__ or all the keys of a sparse matrix; with reserved keys the dict is reinterpreted. Whatever is loaded from any JSON text contains no Value with an undocumented unit. dumps writes every nesting without arrays, whatever its keys and units, and raises TypeError when an array or sparse matrix occurs anywhere in it. Loading an object with the key __value__ gives a Value exactly when its entry is an object with the key value, no keys other than value and units, a value float() accepts, and units that are absent, null or documented; otherwise it raises TypeError or ValueError, each in exactly stated cases, which for units that cannot be hashed differ between Python 2 and 3.", "quantifier": "all JSON trees of any depth", "why_tests_cant": "trees of unbounded depth and width", "anchors": ["blmath/util/json.py:decode_json", "blmath/value.py:Value.for_json", "blmath/value.py:Value.from_json"]}
{"id": "C12", "title": "round_to is rounding", "statement": "round_to(x,n) for n != 0 is an integer multiple of n, within |n|/2 of x, fixes multiples of n (idempotent), is monotone in x and odd; true for Python 2 (half away from zero) and Python 3 (half to even). NaN and infinities come back unchanged on Python 2 and raise on Python 3. rounded_list keeps None and non-finite numbers and rounds the others to the nearest multiple of a power of ten, element by element.", "quantifier": "all reals x, all nonzero n, both Python versions", "why_tests_cant": "half-way boundaries at infinitely many points", "anchors": ["blmath/numerics/rounding.py:round_to", "blmath/numerics/rounding.py:rounded_list"]}
{"id": "C13", "title": "scale_to_range hits its range", "statement": "For a non-constant array the output minimum is r_min, the maximum r_max, every value lies between, and the order of elements is preserved (r_min<=r_max); constant arrays yield only NaN; empty arrays raise.", "quantifier": "all arrays of any length, all ranges", "why_tests_cant": "unbounded lengths and values", "anchors": ["blmath/numerics/operations.py:scale_to_range"]}
{"id": "C14", "title": "zero_safe_divide never yields NaN or infinity", "statement": "For finite inputs (zeros included) and finite default every output element is finite; it is the true quotient where the denominator is nonzero and the default elsewhere; also for NaN/infinite inputs the output is never NaN/inf; length preserved.", "quantifier": "all arrays of any length with any special values", "why_tests_cant": "special values at any position of any array", "anchors": ["blmath/numerics/operations.py:zero_safe_divide"]}
{"id": "C15", "title": "as_numeric_array validates", "statement": "On success the result has the requested rank, every dimension matches or was a -1 wildcard, and it is the input or (only when the input does not match) its transpose; otherwise ValueError; None is returned only for None (or empty with both flags); without shape the input is returned unchanged. An n x 3 request never transposes an n x 3 input, and silently transposes a 3 x n one.", "quantifier": "all arrays of any rank and shape, all shape requests and flags", "why_tests_cant": "unbounded ranks and sizes", "anchors": ["blmath/numerics/coercion.py:as_numeric_array"]}
{"id": "C16", "title": "normalize gives unit vectors", "statement": "For every nonzero vector normalize returns a vector of length 1 that is a positive multiple of the input; on a stack every row is treated independently; the zero vector gives NaNs; rank other than 1, 2 raises ValueError. magnitude is the Euclidean length of a vector, or of each row of a stack.", "quantifier": "all vectors of any dimension, all stacks of any height", "why_tests_cant": "all dimensions and stack sizes", "anchors": ["blmath/numerics/vector_shortcuts.py:normalize", "blmath/numerics/vector_shortcuts.py:magnitude"]}
{"id": "C17", "title": "Projection and rejection decompose a vector", "statement": "proj(v,onto)+reject(v,onto)=v, proj is parallel to onto, reject is orthogonal to onto, both are idempotent and independent of the (nonzero) length and sign of onto, and proj is the closest multiple of onto to v; stacked inputs act row by row.", "quantifier": "all vectors v and nonzero onto in any dimension; all stacks", "why_tests_cant": "all dimensions and values", "anchors": ["blmath/numerics/vector_shortcuts.py:sproj", "blmath/numerics/vector_shortcuts.py:proj", "blmath/numerics/vector_shortcuts.py:reject"]}
{"id": "C18", "title": "Angles", "statement": "angle(v1,v2) lies in [0,180], is symmetric, invariant under positive scaling, 0 for parallel, 180 for opposite, 90 exactly for orthogonal vectors, and cos(angle)|v1||v2| = v1.v2; signed_angle lies in [-180,180], has that absolute value, its sign is that of (v1 x v2).look with collinear counted positive, and swaps sign when v1,v2 are exchanged unless (v1 x v2).look = 0.", "quantifier": "all nonzero 3-vectors and look vectors", "why_tests_cant": "continuum of inputs", "anchors": ["blmath/numerics/vector_shortcuts.py:angle", "blmath/numerics/vector_shortcuts.py:signed_angle"]}
{"id": "C19", "title": "Homogeneous padding", "statement": "unpad(pad_with_ones(m)) = m for every n x 3 m; unpad succeeds only when the last column is all ones; wrong shapes raise; apply_homogeneous with an affine matrix [A t; 0 1] maps each row p to A p + t and raises for matrices producing a weight different from 1.", "quantifier": "all n, all n x 3 arrays, all 4 x 4 matrices", "why_tests_cant": "unbounded n", "anchors": ["blmath/numerics/vector_shortcuts.py:pad_with_ones", "blmath/numerics/vector_shortcuts.py:unpad", "blmath/numerics/vector_shortcuts.py:apply_homogeneous"]}
{"id": "C20", "title": "reject_axis", "statement": "Non-squashed: zeroes exactly the chosen coordinate and keeps the rest; squashed: drops it keeping the order; equals the vector rejection from the basis vector; out of range axis raises (ValueError when squashing, IndexError otherwise; negative axes are accepted only without squash). Vectors too short for the coordinates kept raise IndexError, arrays of ranks other than 1 and 2 ValueError.", "quantifier": "all 3-vectors and stacks, all integer axes", "why_tests_cant": "all integers as axis, all stacks", "anchors": ["blmath/numerics/vector_shortcuts.py:reject_axis"]}
{"id": "C21", "title": "Plane construction", "statement": "Every Plane has a unit normal, positively proportional to the requested normal; near-zero normals (every component within 1e-8) are rejected; from_points contains its three points with right-handed orientation and rejects collinear ones; from_points_and_vector contains both points and is parallel to the vector.", "quantifier": "all points and normals", "why_tests_cant": "continuum of inputs", "anchors": ["blmath/geometry/primitives/plane.py:Plane.__init__", "blmath/geometry/primitives/plane.py:Plane.from_points", "blmath/geometry/primitives/plane.py:Plane.from_points_and_vector"]}
{"id": "C22", "title": "Signed distance", "statement": "|signed_distance| is the Euclidean distance to the plane (attained, and minimal over the plane's points), its sign tells the side of the normal, equation vanishes exactly on the plane, flipped() negates it, and canonical_point lies on the plane, is parallel to the normal, is the plane point nearest the origin and depends only on the plane, not on the reference point.", "quantifier": "all planes and points", "why_tests_cant": "continuum of inputs", "anchors": ["blmath/geometry/primitives/plane.py:Plane.signed_distance", "blmath/geometry/primitives/plane.py:Plane.equation", "blmath/geometry/primitives/plane.py:Plane.flipped", "blmath/geometry/primitives/plane.py:Plane.canonical_point", "blmath/geometry/primitives/plane.py:Plane.sign", "blmath/geometry/primitives/plane.py:Plane.distance"]}
{"id": "C23", "title": "project_point", "statement": "The projection lies on the plane, differs from the point by a multiple of the normal, is the closest point of the plane, and projecting again changes nothing.", "quantifier": "all planes and points", "why_tests_cant": "continuum of inputs", "anchors": ["blmath/geometry/primitives/plane.py:Plane.project_point"]}
{"id": "C24", "title": "points_in_front", "statement": "Returns, in input order and with multiplicity, exactly the points with nonnegative signed distance (nonpositive when inverted); indices and points agree; every point is in one of the two halves and in both exactly when on the plane; flipping the plane swaps the halves.", "quantifier": "all planes, all point arrays of any length", "why_tests_cant": "arrays of unbounded length", "anchors": ["blmath/geometry/primitives/plane.py:Plane.points_in_front", "blmath/geometry/primitives/plane.py:Plane.sign"]}
{"id": "C25", "title": "line_xsection", "statement": "Returns None exactly when the ray is parallel to the plane; otherwise the unique point that is both on the plane and on the line.", "quantifier": "all planes, points, rays", "why_tests_cant": "continuum of inputs", "anchors": ["blmath/geometry/primitives/plane.py:Plane.line_xsection"]}
{"id": "C26", "title": "line_segment_xsection", "statement": "For endpoints a, b not both at the same signed distance, returns the crossing point when the closed segment meets the plane and None otherwise; the point returned is on the plane and between a and b; None for segments parallel to the plane.", "quantifier": "all planes and segments", "why_tests_cant": "continuum of inputs, boundary cases at endpoints", "anchors": ["blmath/geometry/primitives/plane.py:Plane.line_segment_xsection"]}
{"id": "C27", "title": "Vectorized intersections agree with the scalar ones", "statement": "line_xsections / line_segment_xsections report row i valid exactly when the scalar method returns a point, with the same point, and NaN rows otherwise.", "quantifier": "all arrays of segments of any length", "why_tests_cant": "unbounded array lengths with any mix of rows", "anchors": ["blmath/geometry/primitives/plane.py:Plane.line_xsections", "blmath/geometry/primitives/plane.py:Plane.line_segment_xsections"]}
{"id": "C28", "title": "mesh_intersecting_faces", "statement": "Selects exactly the faces whose three vertices are not strictly on one side of the plane, in order.", "quantifier": "all planes, meshes of any size", "why_tests_cant": "unbounded meshes", "anchors": ["blmath/geometry/primitives/plane.py:Plane.mesh_intersecting_faces"]}
{"id": "C29", "title": "Edge map is a symmetric dictionary", "statement": "Over any history of adds, the edge lookup used by mesh_xsections is insensitive to the order of the two endpoints, returns the latest value stored for the unordered pair, and contains/index/get agree.", "quantifier": "all histories of add/contains/index/get", "why_tests_cant": "unbounded histories", "anchors": ["blmath/geometry/primitives/plane.py:EdgeMap"]}
{"id": "C30", "title": "Euler path extraction", "statement": "For any symmetric graph and any order in which set.pop chooses neighbours, pop_euler_path terminates; if every degree is even the result is a closed walk from its start that uses each edge of that start's connected component exactly once and leaves every other edge of the graph untouched; with odd vertices it starts at one of them. With more than two odd vertices in a component the result need not be a walk (witness).", "quantifier": "all graphs and all neighbour choice orders", "why_tests_cant": "unbounded graphs and nondeterministic set order", "anchors": ["blmath/geometry/primitives/plane.py:Graph.pop_euler_path", "blmath/geometry/primitives/plane.py:Graph.remove_edge"]}
{"id": "C31", "title": "Mesh cross-section", "statement": "For a mesh no vertex of which lies on the plane the call returns, and the vertices of the polylines are exactly the points where mesh edges cross the plane. If moreover no edge has more than two faces, and the mesh is closed (two faces at every edge) or its crossing points are pairwise different: every crossed mesh edge contributes exactly one vertex of exactly one returned polyline, consecutive vertices come from edges of one face, every polyline is a whole connected component of the crossed edges, and for a closed mesh all polylines are closed. No faces crossing gives the empty list. With vertices on the plane the call fails exactly when some face lies in the plane, and otherwise every returned vertex is on the plane and on a mesh edge. With a neighborhood the component nearest to it on average is returned.", "quantifier": "all meshes, planes and set orders", "why_tests_cant": "unbounded meshes and orders", "anchors": ["blmath/geometry/primitives/plane.py:Plane.mesh_xsections", "blmath/geometry/primitives/plane.py:Plane.mesh_xsection"]}
{"id": "C32", "title": "fit_from_points", "statement": "For at least two points and any correct eigenvector and sorting routines, the plane found passes through the centroid and has the least sum of squared distances among all planes (not only those through the centroid); points of one plane all lie on the plane found. ValueError is possible only if the eigenvectors returned for two equal eigenvalues are not orthogonal; fewer than two points raise LinAlgError.", "quantifier": "all point clouds, all valid eigenvector choices", "why_tests_cant": "continuum of inputs and eigenvector choices", "anchors": ["blmath/geometry/primitives/plane.py:Plane.fit_from_points"]}
{"id": "C33", "title": "Box geometry", "statement": "Accepts exactly 3-vectors with nonnegative shape; ranges are [min,max] with min<=max and equal the min_/max_ attributes; the centre lies inside, halfway on every axis; the mid_ attributes lie inside and are the centre's coordinates in Python 3 or for float shapes, and in Python 2 with an integer shape they are rounded down, equal to the centre's exactly for even side lengths; floor_point is below the centre; volume and area are nonnegative and symmetric in axes permutation.", "quantifier": "all origins and shapes", "why_tests_cant": "continuum of inputs", "anchors": ["blmath/geometry/primitives/box.py:Box"]}
{"id": "C34", "title": "Polyline edges match vertices", "statement": "After every history of assignments to v and closed, deletions, flips, partitions (failed ones included) the edge list is exactly the chain i->i+1 (closing edge last when closed), except while the polyline is closed with a vertex array of no rows; that state is only reached by a call that raises, and then the edges are those of the vertices at some earlier point of the history (witness). Histories without a failing call always leave matching edges.", "quantifier": "all finite histories of public mutators", "why_tests_cant": "unbounded histories including failing calls", "anchors": ["blmath/geometry/primitives/polyline.py:Polyline.v", "blmath/geometry/primitives/polyline.py:Polyline.closed", "blmath/geometry/primitives/polyline.py:Polyline._update_edges", "blmath/util/decorators.py:setter_property"]}
{"id": "C35", "title": "Polyline lengths", "statement": "segment_lengths are the Euclidean lengths of segments; total_length is their sum, at least the end-to-end distance, and is invariant under flip, reindexing and partition.", "quantifier": "all polylines of any size, open and closed", "why_tests_cant": "unbounded lengths", "anchors": ["blmath/geometry/primitives/polyline.py:Polyline.segment_lengths", "blmath/geometry/primitives/polyline.py:Polyline.total_length", "blmath/geometry/primitives/polyline.py:Polyline.segments", "blmath/geometry/primitives/polyline.py:Polyline.segment_vectors"]}
{"id": "C36", "title": "partition_by_length", "statement": "For max_length>0: no resulting segment is longer than max_length; each original segment is split into equal parts, the fewest possible; original vertices appear unchanged and in order at exactly the returned indices; closedness and total length are unchanged; applying it again changes nothing.", "quantifier": "all nonempty polylines and positive max_length", "why_tests_cant": "unbounded sizes; ceil boundaries", "anchors": ["blmath/geometry/primitives/polyline.py:Polyline.partition_by_length", "blmath/geometry/segment.py:partition_segment"]}
{"id": "C37", "title": "flip and reindexed", "statement": "flip reverses the vertex order and is an involution keeping closedness; reindexed(i), 0<=i<=n, on a closed polyline is the rotation putting vertex i first, preserves the cyclic sequence, composes additively, and original.segments[edge_mapping] = result.segments; open polylines raise. The mapping takes new edge indices to old, the opposite of the docstring (witness).", "quantifier": "all polylines and indices", "why_tests_cant": "unbounded sizes", "anchors": ["blmath/geometry/primitives/polyline.py:Polyline.flip", "blmath/geometry/primitives/polyline.py:Polyline.reindexed"]}
{"id": "C38", "title": "intersect_plane", "statement": "Returns, in edge order, one point for exactly those edges whose endpoints are not strictly on one side; each point lies on the plane and on its edge, unless the edge lies in the plane, when the row is NaN; returned indices are those edges.", "quantifier": "all polylines and planes", "why_tests_cant": "unbounded sizes and mixed cases", "anchors": ["blmath/geometry/primitives/polyline.py:Polyline.intersect_plane"]}
{"id": "C39", "title": "cut_by_plane on open polylines", "statement": "When exactly one edge meets the plane: the result is open, is the part of the chain in front (all vertices have nonnegative distance, kept vertices are a contiguous prefix or suffix of the original containing all strictly front vertices) and has the crossing point as the new end; zero or several edges raise ValueError.", "quantifier": "all open polylines and planes", "why_tests_cant": "unbounded sizes and all side patterns", "anchors": ["blmath/geometry/primitives/polyline.py:Polyline.cut_by_plane", "blmath/geometry/primitives/polyline.py:Polyline._cut_by_plane_open"]}
{"id": "C40", "title": "cut_by_plane on closed polylines", "statement": "When exactly two edges cross: the result is the open chain made of the crossing point, all front vertices in cyclic order, and the other crossing point; all its vertices have nonnegative distance and both ends are on the plane; other counts raise ValueError. (When the plane only touches one vertex with the rest in front, the call dies with IndexError: witness.)", "quantifier": "all closed polylines and planes", "why_tests_cant": "unbounded sizes and all cyclic side patterns", "anchors": ["blmath/geometry/primitives/polyline.py:Polyline.cut_by_plane", "blmath/geometry/primitives/polyline.py:Polyline._cut_by_plane_closed"]}
{"id": "C41", "title": "partition_segment and partition", "statement": "partition_segment returns n_samples equally spaced points from p1, ending at p2 iff endpoint; n_samples=2 gives the two points; n<2 raises ValueError; partition_segment_old returns the n-1 interior division points; partition(v,k) returns (len(v)-1)*k+1 points with v[i] at index i*k, equally spaced, when no segment is degenerate, and NaN rows for repeated points.", "quantifier": "all points in any dimension, all sample counts, all chains", "why_tests_cant": "unbounded counts, lengths, dimensions", "anchors": ["blmath/geometry/segment.py:partition_segment", "blmath/geometry/segment.py:partition_segment_old", "blmath/geometry/segment.py:partition"]}
{"id": "C42", "title": "line_intersect (2D)", "statement": "Returns the unique common point of two non-parallel lines, and NaNs when the lines are parallel, coincident or degenerate.", "quantifier": "all 2D point quadruples", "why_tests_cant": "continuum of inputs", "anchors": ["blmath/geometry/segment.py:line_intersect"]}
{"id": "C43", "title": "line_intersect3", "statement": "For all four points: a shared defining point that is noticed is returned (q0 = q1 is not noticed); otherwise None if the lines are parallel or degenerate or the second passes through p0; otherwise a point of the first line, which is the common point if the lines meet in one. So lines that meet at p0 give None and skew lines give a point off the second line (witnesses), against the documented intent.", "quantifier": "all 3D point quadruples", "why_tests_cant": "measure-zero configurations never sampled", "anchors": ["blmath/geometry/segment.py:line_intersect3"]}
{"id": "C44", "title": "apex and farthest", "statement": "apex returns an input point whose coordinate along the axis is maximal, the first such; farthest returns an input point at maximal distance together with its index, the first such; empty input raises ValueError. The apex of a polyline is that of its vertices and does not depend on the length of the axis; without vertices it raises.", "quantifier": "all point arrays of any size, all axes", "why_tests_cant": "unbounded sizes, ties", "anchors": ["blmath/geometry/apex.py:apex", "blmath/geometry/apex.py:farthest", "blmath/geometry/primitives/polyline.py:Polyline.apex"]}
{"id": "C45", "title": "Barycentric coordinates", "statement": "The coordinates sum to 1 always; for a nondegenerate triangle q + b1 u + b2 v is the orthogonal projection of p onto its plane, coordinates of the vertices are the unit vectors, and are affine in p; for collinear edges the result is (1,0,0); stacked inputs act columnwise.", "quantifier": "all points and triangles, all stack sizes", "why_tests_cant": "continuum and degenerate cases", "anchors": ["blmath/geometry/barycentric.py:barycentric_coordinates_of_projection"]}
{"id": "C46", "title": "Surface normals", "statement": "surface_normal is orthogonal to the triangle's edges, right-handed, of unit length when normalised, reverses when two vertices are swapped, is invariant under cyclic rotation and translation; degenerate triangles give NaN.", "quantifier": "all triangles and stacks of triangles", "why_tests_cant": "continuum of inputs", "anchors": ["blmath/geometry/surface_normals.py:surface_normal"]}
{"id": "C47", "title": "Generated solids are watertight", "statement": "create_rectangular_prism, create_cube and create_triangular_prism return closed, consistently outward oriented surfaces: every directed edge occurs once and its reverse once, signed volume equals the solid's volume for every positive size, vertices are the documented corners.", "quantifier": "all origins, sizes, triangles, heights", "why_tests_cant": "volume identity over a continuum", "anchors": ["blmath/geometry/shapes.py:create_rectangular_prism", "blmath/geometry/shapes.py:create_cube", "blmath/geometry/shapes.py:create_triangular_prism", "blmath/geometry/shapes.py:create_horizontal_plane"]}
{"id": "C48", "title": "translation", "statement": "With a factor every point is shifted by it; without one the image has zero mean, and shifting back by the returned factor's negative recovers the input.", "quantifier": "all point arrays", "why_tests_cant": "unbounded sizes", "anchors": ["blmath/geometry/transform/translation.py:translation"]}
{"id": "C49", "title": "rotation_from_up_and_look", "statement": "For non-collinear up and look the result is a proper rotation taking up to +y and look into the y-z plane with positive z (to +z when perpendicular); zero or collinear inputs raise ValueError; depends only on directions.", "quantifier": "all up and look vectors", "why_tests_cant": "continuum of inputs", "anchors": ["blmath/geometry/transform/rotation.py:rotation_from_up_and_look"]}
{"id": "C50", "title": "euler", "statement": "For every list of angles and order string the matrix is a proper rotation, equals the left-to-right composition of elementary rotations, ignores surplus angles or axes, and inverse is the reversed order with negated angles.", "quantifier": "all angle lists and strings of any length", "why_tests_cant": "unbounded lengths", "anchors": ["blmath/geometry/transform/rotation.py:euler"]}
{"id": "C51", "title": "Rodrigues vector to matrix", "statement": "rodrigues(r) is a proper rotation for every 3-vector r; for |r| at least machine epsilon it fixes r and rotates by |r| radians by the right-hand rule, below that it is the identity (off by at most |r|); and rodrigues(-r) is its inverse.", "quantifier": "all 3-vectors", "why_tests_cant": "continuum of inputs", "anchors": ["blmath/geometry/transform/rodrigues.py:rodrigues"]}
{"id": "C52", "title": "Rodrigues matrix to vector", "statement": "rodrigues(rodrigues(r)) = r for r = 0 and for |r|<pi with sin|r| at least 1e-5; as_rotation_matrix(R)=R for every rotation R whose angle has sine at least 1e-5 or is exactly 0 or pi; rotations by smaller angles are silently replaced by the identity, and rotations just short of a half turn come back inexact; for every rotation the result is a rotation, each entry within 1/100 of the one given (2e-5 below a quarter turn), and an entry can be off by more than 69/10000 (witnesses).", "quantifier": "all rotations", "why_tests_cant": "measure-zero branches (angle pi, sign patterns) never sampled", "anchors": ["blmath/geometry/transform/rodrigues.py:rodrigues", "blmath/geometry/transform/rodrigues.py:as_rotation_matrix"]}
{"id": "C53", "title": "Composite transforms invert", "statement": "After any history of scale, translate, reorient, rotate, convert_units and append calls (calls that raise included) in which explicit 4x4 matrices are affine and explicit reverse matrices are inverses, applying the transform forward then in reverse (or reverse then forward), over any index range, returns the original points. Without the affine condition an invertible matrix is accepted and the call then raises (witness).", "quantifier": "all histories, ranges, point arrays", "why_tests_cant": "unbounded histories", "anchors": ["blmath/geometry/transform/composite.py:CompositeTransform"]}
{"id": "C54", "title": "Composite transforms compose", "statement": "Applying range (i,j) then (j,k) equals applying (i,k); matrices apply in the order appended; append returns the index; scale multiplies by the factor, translate adds the vector; the empty range is the identity; nonpositive scale raises and leaves the stack unchanged; convert_44_to_33 keeps what acts on differences of points and undoes convert_33_to_44.", "quantifier": "all histories, ranges, point arrays", "why_tests_cant": "unbounded histories", "anchors": ["blmath/geometry/transform/composite.py:CompositeTransform.matrix_for", "blmath/geometry/transform/composite.py:CompositeTransform.__call__", "blmath/geometry/transform/composite.py:CompositeTransform.scale", "blmath/geometry/transform/composite.py:CompositeTransform.translate", "blmath/geometry/transform/composite.py:convert_44_to_33"]}
{"id": "C55", "title": "CoordinateManager frames are path independent", "statement": "After any history of transforms and taggings, moving points from tag a to b and then b to c equals a to c, a to a is the identity, moving between two tags is exactly the transforms made between them, reading the tag just set returns what was set (for names that are not the manager's own attributes); unknown tags and reads before any set raise, except that a mesh without vertices is returned as it is.", "quantifier": "all histories of operations", "why_tests_cant": "unbounded histories", "anchors": ["blmath/geometry/transform/coordinate_manager.py:CoordinateManager"]}
{"id": "C56", "title": "rotate_to_xz_plane", "statement": "For a unit normal given as a list or tuple the returned R is a proper rotation taking the normal to +y, exactly unless the normal is within 1e-5 radians of the y axis and not on it, when it is off by at most 2e-5; when exact, points of the plane land at constant y; the centroid is moved to the origin when farther than 1e-5; undoing with R and p0 recovers the points. A normal given as an array raises ValueError.", "quantifier": "all point arrays and unit normals", "why_tests_cant": "continuum of inputs; threshold cases", "anchors": ["blmath/geometry/transform/rotation.py:rotate_to_xz_plane"]}
{"id": "C57", "title": "Convexify", "statement": "Given a hull routine that keeps its contract on 2-d points: the result consists of input vertices, at the positions and in the order given by the hull, with closedness kept, and for points of a plane with a nonzero normal it is their convex hull in space, although a coordinate was dropped to compute it. The flattened variant (unit normal given as a list) moves the points along the normal onto the plane through their centroid and returns the convex hull of the moved points; within 1e-5 radians of the y axis the direction may differ from the normal by at most 2e-5. At most one vertex returns the same polyline, without indices even if they are wanted; an array normal makes the flattened variant raise ValueError.", "quantifier": "all polylines, normals and hull results", "why_tests_cant": "unbounded sizes", "anchors": ["blmath/geometry/convexify.py:convexify_planar_curve", "blmath/geometry/convexify.py:convexify_and_flatten_planar_curve"]}
{"id": "C58", "title": "find_rigid_transform is optimal", "statement": "For at least one point, and equally many on both sides, whatever singular value decomposition is used: ValueError is raised exactly when the determinant of the cross-covariance matrix is negative; otherwise R is a proper rotation and (R, T) minimises the sum of squared residuals over all rigid motions, including those with a reflection. An exact rigid motion is recovered (uniquely, if the points are not on a line). N x 3 arrays are transposed except 3 x 3 ones, which are read by columns (witness); other shapes raise AssertionError, different numbers of points ValueError.", "quantifier": "all point set pairs, all valid SVDs", "why_tests_cant": "continuum of inputs and non-unique SVDs", "anchors": ["blmath/geometry/transform/rigid_transform.py:find_rigid_transform"]}
{"id": "C59", "title": "find_rigid_rotation", "statement": "For any number of pairs other than one R is a proper rotation minimising the residual over all rotations. For a single pair of nonzero vectors it turns a onto the direction of b about their cross product. With allow_scaling an exact similarity of several points is recovered; a single pair is mapped to a positive multiple of b, but to b itself exactly when a and b are parallel or equally long (witness where not).", "quantifier": "all point set pairs, all valid SVDs", "why_tests_cant": "continuum of inputs", "anchors": ["blmath/geometry/transform/rigid_transform.py:find_rigid_rotation"]}
{"id": "C60", "title": "Gram-Schmidt", "statement": "For linearly independent rows orthogonalize returns pairwise orthogonal nonzero rows, the first k spanning the same space as the first k inputs for every k; orthonormalize additionally gives unit rows exactly at the requested indices; dependent rows yield NaN after the first zero row.", "quantifier": "all matrices of any size", "why_tests_cant": "unbounded dimensions", "anchors": ["blmath/numerics/linalg/gram_schmidt.py:orthogonalize", "blmath/numerics/linalg/gram_schmidt.py:orthonormalize"]}
{"id": "C61", "title": "isomorphism", "statement": "For two bases the result X satisfies frame1^T X = frame2^T (column j = coordinates of frame2's j-th vector in frame1), identity for equal frames, multiplicative along chains, inverse when swapped; dependent frames and length mismatch raise. It is not in general the Euclidean operator sending frame1 to frame2 (witness).", "quantifier": "all pairs of square frames of any size", "why_tests_cant": "unbounded dimension", "anchors": ["blmath/numerics/linalg/isomorphism.py:isomorphism"]}
{"id": "C62", "title": "Block sparse products", "statement": "For any row/column sparsity masks MMT() = M M^T and MTM() = M^T M; the stored blocks reassemble M; matvec of a 2-d array is M v when there are no dense columns or no dense rows (or a single row), and raises in all other cases; matvec of a 1-d array always raises. mask_sparse_matrix keeps the entries of selected rows and columns, a mask selecting nothing being ignored.", "quantifier": "all matrices and masks of any size", "why_tests_cant": "unbounded sizes and masks", "anchors": ["blmath/numerics/linalg/static_block_sparse_matrix.py:StaticBlockSparseMatrix"]}
{"id": "C63", "title": "lchol", "statement": "Given the factorisation contract of the solver, the returned L and S satisfy S^T A S = L L^T, S is a permutation matrix and L is lower triangular; when the matrix is not positive definite the wrapper's result has the wrong shape and raises.", "quantifier": "all positive definite matrices and fill-reducing orderings", "why_tests_cant": "unbounded size and permutations", "anchors": ["blmath/numerics/linalg/lchol.py:lchol", "blmath/numerics/linalg/cholmod.c:cholmod_lchol_c", "blmath/numerics/linalg/cholmod.c:sputil_trim"]}
{"id": "C64", "title": "Normalised rows and their Jacobian", "statement": "NormalizedNx3 returns unit rows (zero rows stay zero, no NaN), its Jacobian is well formed, block diagonal, and is the derivative of that map at every input without zero rows; at an input with a zero row no derivative exists.", "quantifier": "all n x 3 arrays", "why_tests_cant": "continuum; unbounded n", "anchors": ["blmath/optimization/objectives/normals.py:NormalizedNx3"]}
{"id": "C65", "title": "Cross product objective and Jacobians", "statement": "CrossProduct returns rowwise cross products; for distinct term objects both Jacobians are the exact derivatives, block diagonal, consistent with the CSC layout and the cached index arrays, whatever earlier calls filled the cache; when both terms are the same object the Jacobian is wrong unless the value is zero.", "quantifier": "all n x 3 arrays", "why_tests_cant": "continuum; unbounded n", "anchors": ["blmath/optimization/objectives/normals.py:CrossProduct"]}
{"id": "C66", "title": "Triangle and vertex normals", "statement": "TriEdges is the difference of the chosen corners with the exact constant Jacobian (raising for negative numbers, which the value accepts); TriNormalsScaled is the face normal; VertNormals is the normalised sum of the normals of the incident faces, each counted once per incidence, or the mean scaled to the square root of its length; after any sequence of assignments the result reflects the current vertices and faces, but a change of `normalized` alone is ignored.", "quantifier": "all meshes, all sequences of assignments and evaluations", "why_tests_cant": "unbounded meshes", "anchors": ["blmath/optimization/objectives/normals.py:TriEdges", "blmath/optimization/objectives/normals.py:VertNormals", "blmath/optimization/objectives/normals.py:TriNormals"]}
{"id": "C67", "title": "Matlab shims", "statement": "row and col keep the elements and their order; sparse adds up the numbers given for the same place, takes the smallest shape that fits when none is given, and raises for places outside of the shape, for no elements without a shape, and for m without n; bsxfun works element by element on arrays of one shape, repeats a single row or column, and gives all combinations for a row and a column, while a column followed by a row always raises ValueError (misplaced parenthesis), and an array with a single number the generic exception.", "quantifier": "all arrays", "why_tests_cant": "unbounded sizes", "anchors": ["blmath/numerics/matlab.py:bsxfun", "blmath/numerics/matlab.py:row", "blmath/numerics/matlab.py:col", "blmath/numerics/matlab.py:sparse"]}
{"id": "C68", "title": "isnumeric family", "statement": "Exact decision of isnumeric for every modelled value: bare objects are numeric exactly if integers (not bools), finite floats, or Decimals that are nonzero finite or NaN; bool, complex and text arrays never; int and float arrays exactly when free of NaN and infinities; object arrays exactly when every element supports + - * and no Decimal zero precedes the first other zero; lists, tuples and tables by numpy's choice of element type (bools mixed with numbers pass, all-bool lists do not). Exactly one of isnumericscalar/isnumericarray holds for a numeric input; is_empty_arraylike is true exactly for None and empty arrays, lists, tuples.", "quantifier": "all modelled Python values", "why_tests_cant": "all values and lengths", "anchors": ["blmath/numerics/predicates.py:isnumeric", "blmath/numerics/predicates.py:isnumericscalar", "blmath/numerics/predicates.py:isnumericarray", "blmath/numerics/predicates.py:is_empty_arraylike"]}
{"id": "C69", "title": "Console input", "statement": "input_value returns None only for empty input with allow_empty, otherwise a Value carrying exactly the number read and the units given; unknown units raise.", "quantifier": "all inputs, labels, units", "why_tests_cant": "all user inputs", "anchors": ["blmath/console.py:input_float", "blmath/console.py:input_value"]}
{"id": "C70", "title": "np_reshape_safe never copies silently", "statement": "The result shares the input's buffer with the requested shape and the same row-major reading order, or the call fails (or warns and copies when just_warn).", "quantifier": "all shapes and strides", "why_tests_cant": "unbounded ranks and strides", "anchors": ["blmath/numerics/numpy_ext.py:np_reshape_safe"]}
{"id": "C71", "title": "Tolerance predicates", "statement": "almost_zero is true exactly when every component is within atol of 0; almost_collinear exactly when |v1 x v2| <= atol: symmetric, true for v and any multiple of v, monotone in atol.", "quantifier": "all 3-vectors, tolerances", "why_tests_cant": "continuum", "anchors": ["blmath/numerics/vector_shortcuts.py:almost_zero", "blmath/numerics/vector_shortcuts.py:almost_collinear"]}
{"id": "C72", "title": "Inflection points", "statement": "With numpy < 1.13 the points returned are exactly those whose second difference quotient (chord slopes over the neighbours) and the next one's have non-positive product, in order; a strictly convex curve has none. With numpy >= 1.13, which takes the spacings for coordinates, an evenly sampled curve gets exactly the valleys followed by a peak and peaks followed by a valley (none on a monotone curve, whatever its curvature), and one sampled so that spacings two apart and next to each other all differ (no division by zero) the sign changes of parabola slopes taken over the spacings; curves with only some equal spacings are not covered. Fewer than two points raise.", "quantifier": "all curves of any length", "why_tests_cant": "unbounded lengths", "anchors": ["blmath/geometry/apex.py:inflection_points"]}
{"id": "C73", "title": "Block-sparse CG preconditioner", "statement": "The preconditioner handed to CG is a linear map: it solves the sparse block and the block of the active dense columns and is zero elsewhere. It is the exact inverse of A when A is block diagonal with respect to the sparse/dense split and no dense column is zero; it exists exactly when the two blocks are nonsingular.", "quantifier": "all matrices and splits", "why_tests_cant": "unbounded sizes", "anchors": ["blmath/numerics/linalg/sparse_cg.py:block_sparse_cg_solve"]}
{"id": "C74", "title": "rodrigues of a vector is the matrix exponential", "statement": "For a vector r of length at least machine epsilon, and for 0, rodrigues(r) is exactly the matrix exponential of the cross product with r; below machine epsilon it is the identity, off by at most 2|r| per entry. Hence parallel rotation vectors compose by addition.", "quantifier": "all real vectors", "why_tests_cant": "an infinite series at every point of a continuum", "anchors": ["blmath/geometry/transform/rodrigues.py:rodrigues"]}
{"id": "C75", "title": "Jacobian of rodrigues from vector to matrix", "statement": "With calculate_jacobian the 3x9 matrix consists of the partial derivatives of the rotation matrix's entries at every vector of length at least machine epsilon and at 0; at the other vectors below machine epsilon it is off by at most 5|r| per entry.", "quantifier": "all real vectors", "why_tests_cant": "a derivative is a limit; finite differences only sample it", "anchors": ["blmath/geometry/transform/rodrigues.py:rodrigues"]}
{"id": "C76", "title": "Jacobian of rodrigues from matrix to vector", "statement": "With calculate_jacobian the 9x3 matrix gives the derivative of the computed rotation vector along every differentiable path of rotation matrices, wherever the sine of the angle exceeds the tolerance 1e-5, and it is a right inverse for the Jacobian of the other direction. Near the identity, where the sine is below the tolerance, it is the Jacobian at the identity, and inverse to that of the other direction up to five times the angle per entry. At and near half turns it is 0, which is not the derivative. Asking for the Jacobian does not change the first result.", "quantifier": "all rotation matrices, all differentiable paths", "why_tests_cant": "quantifies over all paths of matrices", "anchors": ["blmath/geometry/transform/rodrigues.py:rodrigues"]}
{"id": "C77", "title": "Rodrigues of matrices that are not rotations", "statement": "For a 3x3 matrix of positive determinant, rodrigues and as_rotation_matrix answer for the unique rotation nearest to it in the Frobenius norm, whichever decomposition the SVD returns: as_rotation_matrix returns that rotation exactly where the sine of its angle is at least 1e-5 or the angle is 0 or pi, and always a rotation within 1/100 of it entrywise. The determinant is not looked at otherwise. A matrix of negative determinant has a unique nearest orthogonal matrix -R with R a rotation; if R is not the identity the answer is a rotation whose angle has cosine max(-1, -1 - cos(angle of R)), so at least a quarter turn, about the axis of R in the opposite sense (where the sine is at least 1e-5). E.g. diag(3,2,-1) becomes a quarter turn that is not nearest, -1 becomes NaN, and for singular matrices the answer depends on the signs the SVD chooses (witnesses).", "quantifier": "all real 3x3 matrices of nonzero determinant, all SVDs meeting the contract", "why_tests_cant": "tests try a few rotations; optimality over all rotations and independence of the SVD cannot be sampled", "anchors": ["blmath/geometry/transform/rodrigues.py:rodrigues", "blmath/geometry/transform/rodrigues.py:as_rotation_matrix"]}
{"id": "C78", "title": "Values as truth values and as sequences", "statement": "On Python 2 a Value is true exactly if its physical quantity is nonzero, in whatever units; on Python 3 every Value is true, also zero (there is no __bool__). Although item 0 is the number and item 1 the label, iterating over a Value always raises KeyError, and so does unpacking it into two or more names (fewer: ValueError).", "quantifier": "all Values of any units, both Python versions, any number of targets", "why_tests_cant": "the tests run on one version at a time and never iterate", "anchors": ["blmath/value.py:Value.__nonzero__", "blmath/value.py:Value.__getitem__"]}
{"id": "C79", "title": "Arrays of integers in Gram-Schmidt and barycentric coordinates", "statement": "On Python 3, orthogonalize of two or more independent integer rows is the Gram-Schmidt process in floats; a single integer row comes back as integers and orthonormalize of it raises TypeError. On Python 2 quotients are floored: two rows with 0 <= u.w < u.u come back unchanged, of any two rows the second loses the whole multiple of the first that leaves 0 <= u.r < u.u, so the result is orthogonal exactly if u.u divides u.w and need not be (witness: the module's own example as integers), and orthonormalize of any nonempty integer array raises TypeError. Barycentric coordinates with integer edges agree with those for floats for nondegenerate triangles; for collinear edges a single triangle gives (1,0,0) but a stack gives NaN.", "quantifier": "all arrays of (unbounded) integers, both Python versions", "why_tests_cant": "tests use float arrays; the integer behaviour depends on language version and degenerate cases", "anchors": ["blmath/numerics/linalg/gram_schmidt.py:orthogonalize", "blmath/numerics/linalg/gram_schmidt.py:orthonormalize", "blmath/geometry/barycentric.py:barycentric_coordinates_of_projection"]}
{"id": "C80", "title": "Normalisation in rounded arithmetic", "statement": "Whatever rounding of relative error u follows each operation (doubles: u = 2^-53), normalize of a nonzero 3-vector has each component within relative gam(u,4) = 4u/(1-4u) of the exact one, and in n dimensions within a bound growing with n; the length of the result is 1 up to a few u, and so is that of the normal a Plane stores.", "quantifier": "all roundings meeting the standard model, all nonzero vectors, any dimension", "why_tests_cant": "tests look at a handful of vectors with a tolerance; an error bound over all inputs cannot be sampled", "anchors": ["blmath/numerics/vector_shortcuts.py:normalize", "blmath/geometry/primitives/plane.py:Plane.__init__"]}
{"id": "C81", "title": "Distance to a plane in rounded arithmetic", "statement": "In rounded arithmetic signed_distance differs from the exact height over the stored plane by at most gam(u,4) times the sum of the absolute terms; where the height is larger than that, sign and points_in_front are right; project_point lands within an explicit multiple of that bound of the plane.", "quantifier": "all roundings meeting the standard model, all planes and points", "why_tests_cant": "cancellation near the plane depends on the last bits; no sample covers it", "anchors": ["blmath/geometry/primitives/plane.py:Plane.signed_distance", "blmath/geometry/primitives/plane.py:Plane.sign", "blmath/geometry/primitives/plane.py:Plane.points_in_front", "blmath/geometry/primitives/plane.py:Plane.project_point"]}
{"id": "C82", "title": "Unit conversion in rounded arithmetic", "statement": "With the unit table itself computed in rounded arithmetic, convert between units of one kind has relative error at most gam(u,6), and converting there and back returns the number up to gam(u,4).", "quantifier": "all pairs of units of one kind, all numbers, all roundings meeting the standard model", "why_tests_cant": "tests compare a few conversions to a few digits", "anchors": ["blmath/units.py:convert", "blmath/units.py:factor"]}
{"id": "C83", "title": "Distances and polyline lengths in rounded arithmetic", "statement": "The norm of a difference of two points has relative error at most gam(u,4), also for points close together; the total length of a polyline of n segments has relative error at most gam(u,n+4), in whatever order the lengths are added up.", "quantifier": "all points, all polylines open or closed, all roundings meeting the standard model", "why_tests_cant": "a relative bound must hold for arbitrarily close points and arbitrarily many segments", "anchors": ["blmath/geometry/primitives/polyline.py:Polyline.segment_lengths", "blmath/geometry/primitives/polyline.py:Polyline.total_length"]}
{"id": "C84", "title": "Boxes and barycentric coordinates in rounded arithmetic", "statement": "Barycentric coordinates sum to 1 up to gam(u,2) times their size, also for degenerate triangles in the rounded model; minima, middles and maxima of a box stay in order, on both versions of Python; volume and surface area have relative errors at most gam(u,2) and gam(u,4).", "quantifier": "all triangles, all boxes of nonnegative size, all roundings meeting the standard model", "why_tests_cant": "order relations under rounding fail, if at all, for rare inputs", "anchors": ["blmath/geometry/barycentric.py:barycentric_coordinates_of_projection", "blmath/geometry/primitives/box.py:Box.mid_x", "blmath/geometry/primitives/box.py:Box.volume", "blmath/geometry/primitives/box.py:Box.surface_area"]}
{"id": "C85", "title": "Rotation matrices in rounded arithmetic", "statement": "Every entry of the rotation matrix computed from a rotation vector r differs from that of the exact rotation about r by |r| by at most 3 gam(u,16) + 2 gam(u,3) |r|, in doubles (49 + 7|r|)/2^53; so the matrix is orthogonal up to the corresponding error.", "quantifier": "all rotation vectors, zero and tiny ones included, all roundings meeting the standard model", "why_tests_cant": "tests compare a few rotations to a few digits; no test bounds the error for all vectors", "anchors": ["blmath/geometry/transform/rodrigues.py:as_rotation_matrix", "blmath/geometry/transform/rodrigues.py:rodrigues"]}
{"id": "C86", "title": "Samples and ranges in rounded arithmetic", "statement": "scale_to_range keeps the order, never goes below r_min and hits it exactly, and is right up to gam(u,6), but may exceed r_max; samples of a segment are right up to gam(u,7), start at the first point exactly, and end at the second point if the difference of the points is exact, but may miss it otherwise; a segment that strictly crosses a plane may be found not to meet it.", "quantifier": "all arrays and ranges, all points of any dimension, all roundings meeting the standard model; doubles for the counterexamples", "why_tests_cant": "the failures occur for rare inputs, and the bounds must hold for all", "anchors": ["blmath/numerics/operations.py:scale_to_range", "blmath/geometry/segment.py:partition_segment", "blmath/geometry/primitives/plane.py:Plane.line_segment_xsection"]}
{"id": "C87", "title": "The angle of two vectors in rounded arithmetic", "statement": "angle is right up to 180 (gam(u,4) + sqrt(gam(u,11)/2)) degrees, in doubles 5 millionths of a degree; in doubles it lies between 0 and 180, both included; but nonzero angles near 1e-8 come out as 0.", "quantifier": "all pairs of nonzero vectors (any vectors for the range), all roundings meeting the standard model; doubles for the numbers", "why_tests_cant": "the loss near parallel vectors is a worst case over all directions and lengths", "anchors": ["blmath/numerics/vector_shortcuts.py:angle", "blmath/numerics/vector_shortcuts.py:normalize"]}
{"id": "C88", "title": "How a Value is written and converted", "statement": "str(v) is the number with six places (nearest, ties to even), a space and the unit; repr is the same in <Value ...>. Values written alike agree to a millionth and in their units; quantities below half a millionth are written as zero. int truncates towards zero; round(v, k) is a Value with the same units on Python 3, a bare number on Python 2. Infinities and NaN are written inf, -inf and nan.", "quantifier": "all values and units, all numbers of places, both versions of Python", "why_tests_cant": "injectivity up to rounding is a statement about all pairs of values", "anchors": ["blmath/value.py:Value.__str__", "blmath/value.py:Value.__repr__", "blmath/value.py:Value.__int__", "blmath/value.py:Value.__round__"]}
{"id": "C89", "title": "Dictionary and text form of a polyline", "statement": "to_dict has one row for each vertex, each coordinate rounded to the nearest multiple of 10^-decimals, and the edges; a polyline made again from it has the same dictionary and vertices within half a unit of the last place; the edges tell closed from open. The text form is the same exactly for polylines that agree in closedness and number of vertices. The text form of a polyline with n > 0 vertices is \"<closed Polyline with n verts>\" or \"<open Polyline with n verts>\".", "quantifier": "all polylines, all numbers of decimals", "why_tests_cant": "the round trip is claimed for every polyline and precision; the repository has no test of to_dict", "anchors": ["blmath/geometry/primitives/polyline.py:Polyline.to_dict", "blmath/geometry/primitives/polyline.py:Polyline.__repr__"]}
{"id": "C90", "title": "Values and operands that are not numbers", "statement": "For numbers, Values and nested lists the operators are those of C06-C08. None makes every operator raise TypeError, equality included. Text on Python 3 makes +, - and * recurse without end; on Python 2 + and - read it as a number; comparisons read it as a number on both. Division by text raises TypeError. The constructor takes anything float takes; a Value given as the value keeps its number and loses its units.", "quantifier": "all Values, all operands including nested lists, all texts and every reading of texts as numbers, every limit on open calls, both versions of Python", "why_tests_cant": "unbounded recursion and nesting; the repository tests numbers and Values only", "anchors": ["blmath/value.py:Value.__add__", "blmath/value.py:Value.__mul__", "blmath/value.py:Value._comparable", "blmath/value.py:Value.__init__"]}
{"id": "C91", "title": "sum, max and min of Values", "statement": "sum of Values of one kind in any units is a Value in the units of the first that denotes the sum of the quantities; the order matters only for the units; no Values give the number 0; mixed kinds raise. max and min return the first of the items whose quantity is largest or smallest, whatever the units.", "quantifier": "all finite sequences of Values", "why_tests_cant": "folds over sequences of unbounded length with mixed units", "anchors": ["blmath/value.py:Value.__radd__", "blmath/value.py:Value.__lt__", "blmath/value.py:Value.__gt__"]}
{"id": "C92", "title": "Polylines and the arrays they share", "statement": "In every program of constructions, method calls, reads of v and assignments into arrays: methods do what C34-C40 say and change no array; a polyline made from a float array with three columns, and the array read from v, share memory with it, also after flip (reversed); polylines made from data, by copy, reindexed or cut_by_plane are independent of everything else; the edges always fit the vertices except in the case of C34; vertices are finite if only finite numbers are assigned, and a NaN assigned later is not noticed until the next copy or flip raises.", "quantifier": "all finite programs over a heap of arrays and polylines", "why_tests_cant": "aliasing over unbounded histories; no test writes to a shared array", "anchors": ["blmath/geometry/primitives/polyline.py:Polyline.v", "blmath/geometry/primitives/polyline.py:Polyline.flip", "blmath/geometry/primitives/polyline.py:Polyline.copy", "blmath/numerics/coercion.py:as_numeric_array"]}
{"id": "C93", "title": "Conjugate gradients on block sparse matrices", "statement": "conjGradSolve as written never returns: it raises for every start, and so does linOp. The algorithm in it, given a product that works: for a symmetric positive definite matrix, any start that is not the solution and any positive tolerance it brings the residual below the tolerance in at most n steps; stopped after any number of steps it is closer to the solution in the energy norm than the start; started at the exact solution it returns NaN.", "quantifier": "all dimensions, symmetric positive definite matrices, right hand sides, starts, tolerances and iteration limits", "why_tests_cant": "convergence within n steps for every n; the method has no test", "anchors": ["blmath/numerics/linalg/static_block_sparse_matrix.py:StaticBlockSparseMatrix.conjGradSolve", "blmath/numerics/linalg/static_block_sparse_matrix.py:StaticBlockSparseMatrix.linOp"]}
{"id": "C94", "title": "block_sparse_cg_solve solves", "statement": "For a symmetric matrix, positive definite away from columns of zeros for which nothing is stored (as J^T J is), and a right hand side vanishing at those columns, the preconditioner exists and is symmetric positive definite there, and the preconditioned conjugate gradient iteration reaches the tolerance within its limit of 10 n steps, so the flag thrown away is always success; the solution vanishes at the columns of zeros. A zero column with stored zeros makes the solver raise.", "quantifier": "all dimensions, matrices, right hand sides and stopping tests that accept a zero residual", "why_tests_cant": "termination and convergence for all dimensions", "anchors": ["blmath/numerics/linalg/sparse_cg.py:block_sparse_cg_solve"]}
{"id": "C95", "title": "Shared arrays of planes and boxes", "statement": "A plane made from an array keeps that array for its point, a box the arrays for its origin and its shape, and reading them hands the arrays out, so that a later assignment into one is seen by all that share it and by nothing else; a flipped plane shares its point with the plane it came from. Nothing else a program does changes a plane or a box. A plane made from lists changes only if its point or normal has been read or it was flipped; all normals stay unit vectors in a program that does not read normals. Computed points (canonical_point, project_point, center_point) are new arrays.", "quantifier": "all programs over arrays, planes and boxes, of any length", "why_tests_cant": "aliasing depends on the whole history of a program; tests look at single objects", "anchors": ["blmath/geometry/primitives/plane.py:Plane.__init__", "blmath/geometry/primitives/plane.py:Plane.flipped", "blmath/geometry/primitives/plane.py:Plane.reference_point", "blmath/geometry/primitives/plane.py:Plane.normal", "blmath/geometry/primitives/box.py:Box.__init__"]}
{"id": "C96", "title": "Shared matrices of composite transforms", "statement": "append_transform4 keeps the arrays it is given; matrix_for of exactly one transform hands out the array kept, and convert_44_to_33 a view, so that assignments are seen on both sides; the matrix of several transforms or of none is new. A transform that is given no arrays to keep and of which no matrix of a single transform is asked for is exactly what the calls of its methods have made it, whatever else the program assigns, and its reverse undoes it. Otherwise an assignment can leave forward and reverse inconsistent.", "quantifier": "all programs over 4x4 arrays and composite transforms, of any length", "why_tests_cant": "aliasing depends on the whole history of a program; tests look at single calls", "anchors": ["blmath/geometry/transform/composite.py:CompositeTransform.append_transform4", "blmath/geometry/transform/composite.py:CompositeTransform.matrix_for", "blmath/geometry/transform/composite.py:convert_44_to_33"]}
{"id": "C97", "title": "Composite transforms in rounded arithmetic", "statement": "When every operation is rounded, after any history of calls whose explicit 4x4 matrices have the last row (0, 0, 0, 1), that row is kept without any error by every matrix for a range, forward or reverse, so calling the transform on rows of three numbers never fails the test for a last coordinate of exactly one. Every entry of the matrix of k transforms is within 4(k-1) roundings, and every coordinate of an image within 4k roundings, of the exact one, measured against the same computation with absolute values. Scaling by a positive factor and back restores each coordinate up to three roundings; translating representable points and back is off by at most one rounding of the coordinate and about one of the translated coordinate, and is exact when the latter is representable. In doubles, translating 1 by 2^60 and back gives 0.", "quantifier": "all roundings to nearest with unit u (doubles included), all histories of calls, all ranges, both directions, all points", "why_tests_cant": "tests compare a few transforms with a tolerance; that the exact comparison with one survives rounding for every history, and a bound for the error, need an argument", "anchors": ["blmath/geometry/transform/composite.py:CompositeTransform.__call__", "blmath/geometry/transform/composite.py:CompositeTransform.matrix_for", "blmath/geometry/transform/composite.py:CompositeTransform.scale", "blmath/geometry/transform/composite.py:CompositeTransform.translate"]}
{"id": "C98", "title": "Memory in the C extension", "statement": "Whenever lchol_c returns a value, it holds no reference any more, no memory of CHOLMOD is in use, and exactly the four new arrays have gone to the caller. Called by lchol with a well formed square matrix of doubles with index arrays of any width it stays within all buffers, never follows a null pointer, uses neither freed memory nor an object to which it holds no reference any more, frees nothing twice, and returns what the functional model says. Otherwise: calling it with no argument leaks the workspace; null pointers are not checked for, so a missing attribute, a matrix that is not square, a failing factorization or lack of memory is undefined behaviour; data narrower than eight bytes make CHOLMOD read beyond the buffer for every non-empty matrix, and wider data of other types are reinterpreted bit by bit.", "quantifier": "all arguments, all behaviours of the library, all sizes, all buffers", "why_tests_cant": "leaks, reads beyond a buffer and null pointers in rare paths are not seen by comparing results", "anchors": ["blmath/numerics/linalg/cholmod.c:cholmod_lchol_c", "blmath/numerics/linalg/cholmod.c:sputil_trim", "blmath/numerics/linalg/lchol.py:lchol"]}
{"id": "C99", "title": "Attribute protocol of polylines", "statement": "A Polyline's __dict__ with the setter_property descriptors refines the state machine of C34: after any history of assignments and deletions of attributes, under any names and with any values, `v` is None or an array of points, `e` is the edge list belonging to `v` and the truth value of `closed` whenever there is one, and each assignment raises exactly when there is none (or the vertices are not acceptable). Deleting `v` or `closed` is assigning None; `closed` reads back as the very object assigned, even after an assignment that raised; computed attributes can be neither assigned nor deleted; all other names are ordinary and independent of these; `Polyline.v` and `Polyline.closed` raise AttributeError on the class; a `closed` without truth value raises and leaves the old edges, and so do later assignments of vertices; an instance attribute `_update_edges` disables the derivation of edges; the truth value of a polyline is whether it has vertices, and TypeError without a vertex array. The nine public methods can be read on the class and on instances, are hidden by an assignment to the instance and come back when that is deleted; a name that neither has raises AttributeError.", "quantifier": "all histories of setattr/delattr over all names and values, from every successful constructor call", "why_tests_cant": "The repository's tests assign a few valid values; interleavings of failed assignments, deletions and odd values are unbounded, and the wrong edge list after a failed assignment only shows later.", "anchors": ["blmath/util/decorators.py:1-18", "blmath/geometry/primitives/polyline.py:22-32", "blmath/geometry/primitives/polyline.py:68-112"]}
{"id": "C100", "title": "Normals in rounded arithmetic", "statement": "In any rounded arithmetic with unit roundoff u (4u < 1), the unnormalised surface_normal of a triangle is componentwise within gam(u,4) times the sizes of its two products, and as a vector within sqrt(2) gam(u,4) times the product of the edge lengths, of the exact cross product; the unit normal, and the normal of Plane.from_points and from_points_and_vector, is within 4 gam(u,4)/sin(angle) of the true direction whenever it is computed; the points given lie within 4 gam(u,4)/sin times their distance of the computed plane; the normal points to the right side while sin > 4 gam(u,4); from_points rejects triangles exactly up to these errors; components of a computed cross product never have the wrong sign; normals of triangles with integer coordinates up to 2^24 are exact. In doubles a proper triangle may get a zero normal.", "quantifier": "all roundings satisfying the standard model, all triples of points", "why_tests_cant": "error bounds hold for a continuum of inputs, and loss of the normal happens only for nearly collinear points", "anchors": ["blmath/geometry/surface_normals.py:1-13", "blmath/geometry/primitives/plane.py:15-71"]}
{"id": "C101", "title": "Segments and planes in rounded arithmetic", "statement": "In any rounded arithmetic with unit roundoff 0 < u ≤ 1/1000, for a plane whose reference point, and segments whose ends, have representable coordinates of size at most M (normal coordinates at most 5/4, as for every constructed plane): if both ends are at least 100·u·M away from the plane, line_segment_xsection (and the mask of line_segment_xsections) finds a point exactly when the ends are on opposite sides; the point is representable, lies in the box spanned by the ends, is within 5·u·M of a point of the segment in every coordinate and within 90·u·M of the plane, and differs from the exact crossing point by at most 5·u·M plus 71·u·M over the slope of the height along the segment. Any returned point lies in the box, however near the ends are to the plane. Nearer than that, a segment of doubles with ends strictly on opposite sides may be missed.", "quantifier": "all roundings satisfying the standard model, all planes and segments in the range", "why_tests_cant": "The box test and the parameter are rounded independently; whether some crossing segment is lost depends on a continuum of inputs, and the failing ones have ends within a few units in the last place of the plane.", "anchors": ["blmath/geometry/primitives/plane.py:202-220", "blmath/geometry/primitives/plane.py:222-235"]}
{"id": "C102", "title": "Mesh cross-sections in rounded arithmetic", "statement": "In the arithmetic of C101, for a mesh with all vertices at least 100·u·M away from the plane: mesh_intersecting_faces selects exactly the faces on both sides; mesh_xsections returns, whatever set.pop and the dict order do; each vertex of the result is near a crossed edge and near the plane and each crossed edge has one; and if no edge belongs to more than two faces, and the mesh is closed or no point is near two crossed edges, the result has the shape of the exact section: each crossed edge traced exactly once, consecutive ones in one face, each polyline a whole component, closed meshes giving closed polylines. A triangle of doubles with no vertex on the plane, but one within 2^-60 of it, makes mesh_xsections raise.", "quantifier": "all roundings satisfying the standard model, all meshes in the range, all choices of set.pop and dict order", "why_tests_cant": "One edge lost to rounding breaks the graph of the section; tests see a few meshes, none with vertices near the plane.", "anchors": ["blmath/geometry/primitives/plane.py:251-254", "blmath/geometry/primitives/plane.py:255-425"]}
{"id": "C103", "title": "Cutting polylines in rounded arithmetic", "statement": "In the arithmetic of C101, for a polyline with all vertices at least 100·u·M away from the plane: intersect_plane returns exactly the edges whose ends are on opposite sides, in increasing order, each with a point within 6·u·M per coordinate of a point of the edge and within 90·u·M of the plane (54·u·M for the weighted average itself); cut_by_plane raises ValueError unless one edge of an open, or two edges of a closed polyline cross the plane; otherwise the cut consists, in order, of all vertices in front of the plane and nothing else but a point near the crossing at its start (open, entering), end (open, leaving) or both ends (closed). Nearer than that a crossing point may be dropped silently: a closed triangle of doubles is cut without any vertex near one of its two crossings.", "quantifier": "all roundings satisfying the standard model, all planes and polylines in the range", "why_tests_cant": "The closed cut recomputes the crossings with a differently rounded formula from the one that counted them; disagreement occurs only for vertices within a few units in the last place of the plane, and the result is then a shorter polyline rather than an error.", "anchors": ["blmath/geometry/primitives/polyline.py:228-245", "blmath/geometry/primitives/polyline.py:247-267", "blmath/geometry/primitives/polyline.py:269-324", "blmath/geometry/primitives/polyline.py:326-362"]}
{"id": "C104", "title": "Values in rounded arithmetic", "statement": "With every operation and table entry rounded with relative error at most u, for Values of one kind in any two units: sums and differences carry the units of the first operand and are within gam(u,7) times the sizes of the operands of the true ones; scalar products and quotients are within gam(u,1), negation and abs are exact, and quotients of two Values are within gam(u,7), with ZeroDivisionError exactly for zero divisors; every comparison returns, is right whenever the quantities differ by more than gam(u,6) times the second one, and is exact in equal units. In double precision, for all stored doubles and all units of one kind: a < b implies b >= a and not b < a, and likewise for >; but equality is neither symmetric (1 ft == 12 in, yet 12 in != 1 ft) nor transitive (1 in == 2.54 cm == 25.4 mm, yet 1 in != 25.4 mm).", "quantifier": "all roundings satisfying the standard model (round to nearest, ties to even, for the order in doubles), all Values and units of one kind", "why_tests_cant": "Whether a comparison flips depends on the last bit of a product with a rounded factor; that no pair of doubles in any pair of units is ever ordered both ways needs an argument over all doubles and all pairs of table entries.", "anchors": ["blmath/value.py:72-110", "blmath/value.py:149-168", "blmath/units.py:5-33", "blmath/units.py:131-173"]}
{"id": "C105", "title": "partition_by_length in rounded arithmetic", "statement": "With every operation rounded with relative error at most u (monotone, integers up to 2^53 exact), for stored vertices of size at most M and a positive limit L with no segment longer than 2^52 L: the call succeeds; the original vertices appear exactly and in order at the returned indices; each segment gets n parts with length <= n L (1+gam(u,5)) and, if n > 1, (n-1) L < (1+gam(u,5)) length, which is exactly the fewest parts when length/L is not within a relative gam(u,5) of a whole number; the new vertices are within 10uM per coordinate of the equal divisions and each coordinate moves monotonically from the start towards the end; every new segment is within 35uM of an equal part in length, no longer than L(1+gam(u,5))+35uM, and the total length changes by at most 35uM per new segment. In double precision the limit can really be exceeded (the segment to (1, 2^-30, 0) is left whole with limit 1), and applying it again can add vertices (0 to 1 with limit 0.1: 11, then 13).", "quantifier": "all roundings satisfying the standard model, all nonempty open and closed polylines of any size, all limits with length <= 2^52 limits", "why_tests_cant": "The number of parts depends on whether a rounded quotient crosses an integer; accuracy and order of the samples have to hold for every length, count and rounding.", "anchors": ["blmath/geometry/primitives/polyline.py:Polyline.partition_by_length", "blmath/geometry/segment.py:partition_segment"]}
{"id": "C106", "title": "Doubles with limited range agree with rounding without limits", "statement": "With IEEE 754 binary64 in full (53 bits, subnormals, overflow to infinity, signed zeros, NaN; every sum, difference, product, quotient and square root of finite doubles is the nearest double, ties to even, or infinite from 2^1024 - 2^970 on), for all coordinates that are zero or between 2^-58 and 2^80 in size: sums, differences, dot and cross products, lengths, the tests for zero and collinear vectors, and for nonzero vectors normalisation, projection and rejection, are finite and equal to what rounding to 53 bits without limits of range gives; Plane(point, normal), Plane.from_points and Plane.from_points_and_vector fail in the same cases with ValueError, and otherwise normals, signed distances, signs, projected points and intersections with lines and segments are the same for all such points; segment lengths and total lengths of polylines of up to 2^53 segments are the same; unit conversions fail with the same error or give the same number (with math.pi, which is pi correctly rounded). Hence the error bounds hold for true doubles: lengths within a relative gam(2^-53,3), normalised vectors of length 1 within gam(2^-53,4), signed distances within gam(2^-53,8) times the distances from the origin, total lengths within gam(2^-53,n+4), conversions within gam(2^-53,6).", "quantifier": "all doubles that are zero or of size 2^-58 to 2^80, all polylines with up to 2^53 segments, all arguments of convert", "why_tests_cant": "That no intermediate result of any formula overflows or falls below the normal range has to hold for every combination of sizes, about 2^430 combinations for one point and plane; extreme combinations of exponents are what samples miss.", "anchors": ["blmath/numerics/vector_shortcuts.py:magnitude", "blmath/numerics/vector_shortcuts.py:normalize", "blmath/geometry/primitives/plane.py:Plane.signed_distance", "blmath/geometry/primitives/plane.py:Plane.line_segment_xsection", "blmath/geometry/primitives/polyline.py:Polyline.total_length", "blmath/units.py:UnitsBase.convert"]}
{"id": "C107", "title": "Overflow and underflow of lengths", "statement": "In IEEE doubles: every finite vector with a coordinate of size 2^512 or more has infinite magnitude and normalises to the zero vector, with no error and no NaN; every vector with all coordinates of size 2^-538 or less has magnitude zero and normalises to infinities, and NaN for zero coordinates. Plane accepts every finite normal of the first kind and stores a zero normal, so that every finite point has signed distance and sign zero and no line meets the plane. A polyline of finite vertices with a segment spanning 2^512 or more along an axis has infinite total length.", "quantifier": "all finite doubles beyond the bounds", "why_tests_cant": "The loss is silent, and the claim covers every vector beyond the bounds.", "anchors": ["blmath/numerics/vector_shortcuts.py:normalize", "blmath/geometry/primitives/plane.py:Plane.__init__", "blmath/geometry/primitives/polyline.py:Polyline.total_length"]}
{"id": "C108", "title": "round_to and prettify in doubles", "statement": "In doubles (53 bits, no limit of range), round_to(x, d) rounds the rounded quotient x/d to an integer n exactly (ties by Python version) and returns the rounded quotient of n by the rounded 1/d; it raises ZeroDivisionError for d = 0, keeps order and sign for d > 0, and is within 4/2^53 relative of n*d, which is within |d|/2 + |x| 2/2^53 of x. For d the double for 1/m, whenever 1/d rounds to m and |x| m <= 2^49: the result is the double nearest to n/m, |n/m - x| <= 1/(2m) + |x| 3/2^53, doubles nearest to multiples of 1/m come back unchanged, and rounding twice is rounding once. This covers all default increments of prettify and the precisions 0 to 17 except 5, 9 and 15; with these the reciprocal is not a power of ten, and round_to(0.00003, 0.00001) and prettify(0.00003, 'deg', precision=5) give a number above the double 0.00003.", "quantifier": "all doubles, all increments, both Python versions", "why_tests_cant": "The claim that 3.9 never becomes 3.9000000000000004 is about every argument and increment; it fails only for particular increments.", "anchors": ["blmath/numerics/rounding.py:round_to", "blmath/units.py:Units.prettify"]}
{"id": "C109", "title": "line_intersect3 in doubles", "statement": "In doubles, for all lines through points with integer coordinates up to 2^24 that meet in a point X other than p0, line_intersect3 returns X up to nine roundings of the offset from p0 and one of the coordinate, or, with the same accuracy, the mirror image of X in p0. It returns X if p0 lies between X and q0, or q0 = p1; if X is on the side of q0 it returns X exactly when the two unit vectors computed with rounding from the two parallel vector products agree in every bit. They do for lines in a plane parallel to two axes, and if the distance from p0 to X is a power of two times the distance from p0 to q0; they do not for the lines through (-4,-2,4), (6,3,-1) and (-1,3,1), (5,-1,1), whose segments cross in (2,1,1): the result is (-10,-5,7).", "quantifier": "all such integer points, all intersection points", "why_tests_cant": "The sign depends on the last bit of six quotients; tests with lines parallel to axes or meeting half way always pass.", "anchors": ["blmath/geometry/segment.py:line_intersect3"]}
{"id": "C110", "title": "proj and reject in rounded arithmetic", "statement": "In any arithmetic that rounds every operation with relative error u <= 1/40, for 3-vectors and w not zero: proj(v, w) is within (7/2) gam(4) |v| of the component of v along w and has the direction of w up to five roundings; reject(v, w) is within 4 gam(4) |v| of what remains, and its inner product with w is at most 4 gam(4) |v||w|; each component of v is the sum of the two up to one rounding of the second. In doubles both are exact if w lies along a coordinate axis. But reject((1,1,1), (1,1,1)) is -2^-52 (1,1,1), not zero.", "quantifier": "all vectors, all roundings; doubles for the axes", "why_tests_cant": "Bounds over all vectors and roundings; tests use vectors along the axes, for which the results are exact.", "anchors": ["blmath/numerics/vector_shortcuts.py:proj", "blmath/numerics/vector_shortcuts.py:reject"]}
{"id": "C111", "title": "rotation_from_up_and_look in rounded arithmetic", "statement": "In any arithmetic that rounds with relative error u <= 1/40, the function raises nothing but ValueError, raises it for zero vectors, and otherwise only if the sine of the angle between up and look is at most 4 gam(4). Of an accepted result the rows of up and look have unit length and the first row is perpendicular to both up to gam(4), the row of up has its direction up to gam(4), and every entry is within 11 gam(4)/sine of the entry of the exact rotation. If up lies along a coordinate axis, in doubles ValueError is raised for exactly the zero and collinear vectors, and otherwise the rows are exactly perpendicular. In other cases collinear vectors are not detected: with up = look = (1,1,1) or (0,1,1) the result has a zero row, with (0,1,3) two rows with inner product above 0.9.", "quantifier": "all vectors, all roundings; doubles for the axes", "why_tests_cant": "Whether collinear vectors are detected depends on the last bits of the subtraction; tests use coordinate axes, for which it is exact.", "anchors": ["blmath/geometry/transform/rotation.py:rotation_from_up_and_look"]}
{"id": "C112", "title": "apex and farthest in rounded arithmetic", "statement": "In any arithmetic that rounds with relative error u (8u < 1), apex returns one of the points and no other lies farther along the axis by more than gam(3) (|p| + |q|) |axis|; farthest returns one of the points with its index, and no other is farther by more than a factor 1 + gam(8). In doubles apex is exact, including which of several extreme points is taken, along a coordinate axis given by plus or minus a power of two, and for integer coordinates up to 2^25; farthest is exact for integer coordinates up to 2^23, since rounded square roots of different integers up to 2^50 differ. Beyond that apex can return a point that is not extreme because of cancellation, and farthest the nearer of two points.", "quantifier": "all nonempty lists of points, all axes, all roundings", "why_tests_cant": "Statements about all lists; ties and near ties decide which point is returned.", "anchors": ["blmath/geometry/apex.py:apex", "blmath/geometry/apex.py:farthest"]}
{"id": "C113", "title": "Gram-Schmidt in rounded arithmetic", "statement": "In any arithmetic that rounds with relative error u, for rows of n entries: every row of orthogonalize is, entry by entry and up to gam(2n+5+k) times the sizes of the terms, what is left of row k of the argument after the projections on the rows computed before it; the first row is returned as it is. If the earlier rows are orthogonal up to cosines e, the inner product of row k with each of them is at most ((k-1) e + (k+1) gam(2n+5+k)) times the length of that row and of the row given; for two rows this is 2 gam(2n+6). The rows of orthonormalize are those of orthogonalize divided by their lengths, each of length 1 up to gam(n+3). Rows whose inner products are computed as 0, such as orthogonal rows of whole numbers, are returned as they are. Nothing better holds: for three linearly independent rows of doubles, rows 2 and 3 of orthonormalize have inner product above 7/10.", "quantifier": "all lists of rows of any number and length whose computed rows are not zero, all roundings", "why_tests_cant": "Bounds for all rows and all roundings; the loss of orthogonality needs nearly parallel rows and depends on single roundings.", "anchors": ["blmath/numerics/linalg/gram_schmidt.py:orthogonalize", "blmath/numerics/linalg/gram_schmidt.py:orthonormalize", "blmath/numerics/linalg/gram_schmidt.py:proj"]}
{"id": "C114", "title": "What is handed to other packages", "statement": "as_lines of a polyline whose edges match its vertices gives lines with those vertices, whose edges draw exactly the segments of the chain in order (the closing one last), each edge naming existing vertices, and passes the colours on; without vertices there are none and no edges; only after the failed assignment described in C34 do the edges name vertices that do not exist. An object of class Rodrigues has, provided cv2.Rodrigues returns the rotation and its partial derivatives, the rotation matrix as its value, and its derivative with respect to rt is the 9×3 derivative of the flattened matrix (for a matrix as rt, 3×9); with respect to any other object it returns None; exceptions of cv2 are passed on; the function rodrigues of the same file would serve in place of cv2 at 0 and from eps on. The result of apply_correspondence is at every later time worth what the correspondence from the present src to the present dst makes of the present vertices, and is a plain array exactly if all three arguments are.", "quantifier": "all polylines, all implementations of the outside functions meeting the stated expectation, all rotation vectors, all arguments and later values of chumpy objects", "why_tests_cant": "The outside packages are not installed in tests or not public; a derivative at all points and a result that changes later are not observable by examples.", "anchors": ["blmath/geometry/primitives/polyline.py:Polyline.as_lines", "blmath/geometry/transform/rodrigues.py:Rodrigues", "blmath/geometry/transform/correspondence.py:apply_correspondence"]}
{"id": "C115", "title": "Slicing, cutting and resampling do not depend on where the object stands", "statement": "For every injective affine map (turning, mirroring, moving, scaling by different factors along different directions) and the plane it carries the given plane to: the sections of the moved mesh are the moved sections, in the same order, open or closed as before, or the same exception; likewise crossings of segments, points in front (same indices), intersect_plane (same edges) and cut_by_plane of a polyline without an edge lying in the plane (for closed polylines even with one). If the map multiplies all distances by one factor: the same component is chosen by a neighborhood, lengths are multiplied by the factor, partition_by_length with the scaled bound gives the moved vertices and the same indices; apex along the turned axis and farthest give the moved point. Turns, mirrorings, positive scalings and translations, invertible affine matrices, and the calls of CompositeTransform after any reversible history are such maps, and the moved plane is one the constructor makes. It stops at Plane.from_points, which refuses some triangles that it accepts after a rotation, and at canonical_point.", "quantifier": "all maps, planes, meshes, polylines, neighborhoods, choices of set.pop and dict order, both Python versions", "why_tests_cant": "A relation between two runs, for all maps and all inputs.", "anchors": ["blmath/geometry/primitives/plane.py:Plane.mesh_xsections", "blmath/geometry/primitives/plane.py:Plane.mesh_xsection", "blmath/geometry/primitives/plane.py:Plane.line_segment_xsection", "blmath/geometry/primitives/plane.py:Plane.points_in_front", "blmath/geometry/primitives/polyline.py:Polyline.cut_by_plane", "blmath/geometry/primitives/polyline.py:Polyline.intersect_plane", "blmath/geometry/primitives/polyline.py:Polyline.partition_by_length", "blmath/geometry/apex.py:apex", "blmath/geometry/apex.py:farthest", "blmath/geometry/transform/composite.py:CompositeTransform.__call__"]}
{"id": "C116", "title": "Vector functions in turned and mirrored coordinates", "statement": "For every orthogonal matrix R (rotation or mirroring): lengths, dot products, angle and almost_collinear do not change; normalize, proj and reject of turned vectors are the turned results; the cross product is turned and multiplied by det R, so signed_angle is kept by rotations and changes sign under a mirroring unless the three vectors are coplanar, where it stays. With an additional positive scale c and a translation: the unit surface normal is turned (reversed by a mirroring), the unnormalised one multiplied by c²; barycentric coordinates do not change, for degenerate triangles too; signed distances are multiplied by c and the projection on the moved plane is the moved projection. rotation_from_up_and_look of turned vectors of any positive lengths is the original matrix after turning back (mirrored: with the first row reversed), with the same exceptions. Gram-Schmidt of rows turned by an orthogonal matrix of any size gives the turned rows.", "quantifier": "all orthogonal matrices, all vectors, triangles, planes, lists of rows, all positive scales", "why_tests_cant": "A relation between two runs for all rotations; tests use axis-parallel examples, where swapped axes go unnoticed.", "anchors": ["blmath/numerics/vector_shortcuts.py:proj", "blmath/numerics/vector_shortcuts.py:reject", "blmath/numerics/vector_shortcuts.py:angle", "blmath/numerics/vector_shortcuts.py:signed_angle", "blmath/numerics/vector_shortcuts.py:almost_collinear", "blmath/geometry/surface_normals.py:surface_normal", "blmath/geometry/barycentric.py:barycentric_coordinates_of_projection", "blmath/geometry/primitives/plane.py:Plane.project_point", "blmath/geometry/primitives/plane.py:Plane.signed_distance", "blmath/geometry/transform/rotation.py:rotation_from_up_and_look", "blmath/numerics/linalg/gram_schmidt.py:orthogonalize", "blmath/numerics/linalg/gram_schmidt.py:orthonormalize"]}
{"id": "C117", "title": "The two sides of a plane, the direction and the starting point of a polyline", "statement": "For a plane and the same plane flipped: line_xsection(s), line_segment_xsection(s), the faces a mesh is cut in, mesh_xsections and mesh_xsection (with or without neighborhood) and intersect_plane return the same values or raise the same exceptions. An open polyline with exactly one edge meeting the plane, not lying in it, is cut by the plane and by the flipped plane into the two pieces on either side of one crossing point; a closed polyline with exactly two edges meeting the plane and vertices strictly on both sides is cut into the two arcs between the same two crossing points (no vertex is then on the plane, each belongs to exactly one arc, both run in the direction of the polyline); in both cases the lengths of the two pieces add up to the length of the whole. Cutting a closed polyline does not depend on its starting vertex (same result, same exception). Cutting a polyline with its vertices reversed gives the reversed cut, or the same exception, closed or open.", "quantifier": "all planes with unit normal, meshes, neighborhoods, choices of set.pop and dict order, polylines and starting vertices", "why_tests_cant": "Relations between two runs for all planes and polylines; the additivity of lengths needs both cuts of every polyline.", "anchors": ["blmath/geometry/primitives/plane.py:Plane.flipped", "blmath/geometry/primitives/plane.py:Plane.line_xsection", "blmath/geometry/primitives/plane.py:Plane.line_xsections", "blmath/geometry/primitives/plane.py:Plane.line_segment_xsections", "blmath/geometry/primitives/plane.py:Plane.mesh_xsections", "blmath/geometry/primitives/plane.py:Plane.mesh_intersecting_faces", "blmath/geometry/primitives/polyline.py:Polyline.cut_by_plane", "blmath/geometry/primitives/polyline.py:Polyline.intersect_plane"]}
{"id": "C118", "title": "Rigid fits of moved, mirrored, exchanged and reordered points", "statement": "If the cross-covariance matrix has rank at least two and no negative determinant, the motion returned by find_rigid_transform is the only best proper motion; likewise for find_rigid_rotation and the matrix of moments. Whenever the best motion is unique: for points k A p + s and m B q + t (k, m positive, A and B both rotations or both mirrorings) the rotation found is B R A^T, and for k = m the motion found is the old one in the new coordinates; with the two point sets exchanged the inverse motion is found; ValueError is raised before exactly when it is raised after. find_rigid_rotation behaves the same way, with the factor m/k if scaling is allowed, and the inverse matrix after an exchange. The order of the pairs never matters. Points near a plane are fragile: displacements as small as one likes make find_rigid_transform raise ValueError although the identity fits up to that size (witness).", "quantifier": "all point sets, all valid SVDs, all orthogonal matrices, positive factors and translations", "why_tests_cant": "Relations between runs for all coordinate systems and every SVD; the failure near planar data depends on perturbations tests do not try.", "anchors": ["blmath/geometry/transform/rigid_transform.py:find_rigid_transform", "blmath/geometry/transform/rigid_transform.py:find_rigid_rotation"]}
{"id": "C119", "title": "Euler angles and centring in rounded arithmetic", "statement": "With every operation rounded to relative error u: each column of the matrix euler returns is within (1 + 3/2 gam u 5)^n - 1 of the exact image of that axis under the turns, n the number of letters x, y, z used; with degrees, gam u 3 times the sum of the angles (in radians) is added. So is each entry, compared with the matrix without rounding; columns are nearly of length one and nearly perpendicular; in double precision up to three turns in radians are within 2.6e-15. Angles zero give the identity without error. With degrees a turn by any other angle never gives a zero for its sine or cosine in double precision, quarter and half turns included. translation without a factor shifts by the mean up to gam u (n+2) times the mean absolute coordinate, every point is off by at most gam u (n+3) times (its size + that mean), and the mean of the result is at most 2 gam u (n+3) times that mean; with a factor each coordinate is rounded once.", "quantifier": "all rounding functions with relative error u, all lists of angles, orders, units and points", "why_tests_cant": "Bounds for every list of angles and every list of points; tests compare a few matrices with a tolerance.", "anchors": ["blmath/geometry/transform/rotation.py:euler", "blmath/geometry/transform/translation.py:translation"]}
{"id": "C120", "title": "What becomes of NaN", "statement": "The plane constructor accepts a normal or a reference point with NaN in it (a NaN normal coordinate makes the whole normal NaN; an infinite coordinate also gives NaN). Such a plane is blind: all signed distances, distances, signs and projections are NaN, no point is in front of it and none behind it, every line not parallel to it (and, if the normal has NaN, every line and every segment) meets it in a NaN point; it meets every edge of every polyline in a NaN point; cutting a polyline with it always raises; slicing a mesh with it selects every face and always raises (unless there are no faces), with and without a neighborhood, while for real numbers the constructor checks on the resulting polylines change nothing: the call returns one polyline per section of C31 unless a face lies in the plane. apex and farthest return the first point whose comparison value is NaN. One NaN coordinate makes length, normalised vector, projections and rejections NaN throughout; boxes refuse it with ValueError. Comparisons of a Value with NaN are false except !=. scale_to_range with one NaN returns only NaN. rotation_from_up_and_look with NaN in up returns a matrix of NaN, with NaN in look one of which only the second row survives; angles are NaN. Centring points with NaN in one coordinate makes that coordinate of all points NaN and leaves the others.", "quantifier": "for every value with the laws of IEEE NaN in any arithmetic (proved for the doubles, including signed zeros and infinities, and for the unrounded numbers with special values), all planes, points, polylines, meshes, neighborhoods, interpreter versions and set orders", "why_tests_cant": "NaN can enter at any coordinate of any argument and any intermediate division; the tests contain no NaN in geometry at all, and that no mesh can be sliced by a blind plane is a statement about all meshes and all graph traversal orders.", "anchors": ["blmath/geometry/primitives/plane.py:15-22", "blmath/geometry/primitives/plane.py:141-254", "blmath/geometry/primitives/plane.py:256-422", "blmath/geometry/primitives/polyline.py:228-362", "blmath/geometry/apex.py:4-57", "blmath/numerics/vector_shortcuts.py:38-83", "blmath/numerics/vector_shortcuts.py:136-183", "blmath/geometry/transform/rotation.py:57-81", "blmath/geometry/transform/translation.py:3-24", "blmath/geometry/primitives/box.py:8-19", "blmath/value.py:157-168", "blmath/numerics/operations.py:1-4"]}
{"id": "C121", "title": "Slicing the solids of shapes.py", "statement": "Slicing the mesh made by create_rectangular_prism, create_cube or create_triangular_prism with a plane that goes through no corner: if all corners are on one side the result is empty (mesh_xsections returns [], mesh_xsection a polyline without vertices); if there are corners on both sides the result is exactly one polyline, it is closed, has at least three vertices, its vertices are the points in which the mesh edges cross the plane, each edge once, consecutive ones in a common face, and mesh_xsection returns the same vertices, closed. For a prism of no negative size every point of the section is in the plane and in the box.", "quantifier": "for all planes through no corner, all origins, sizes (zero and negative too), bases and heights for which the solid can be made, all ways of splitting the six sides into triangles, all Python versions and all orders in which the code picks vertices and keys", "why_tests_cant": "a test slices one solid with a few planes; that no plane can split the section into two loops depends on the signs of the heights of all corners, for every one of the 64 ways of splitting the sides.", "anchors": ["blmath/geometry/shapes.py:11-84", "blmath/geometry/primitives/plane.py:256-422"]}
{"id": "C122", "title": "Faces with repeated corners", "statement": "Slicing a mesh some of whose faces repeat a corner, with a plane: the call fails exactly when all corners of some face are on the plane; otherwise every vertex of every returned polyline is on the plane and on a mesh edge, and the Polyline objects hold exactly the sections. If no vertex is on the plane the vertices returned are exactly the points where mesh edges cross it. If the faces with three different corners form a closed mesh every polyline is closed, traces one connected component of the section, and visits each crossed edge once for its proper faces and once more if it is an edge of a face with a repeated corner, the two visits in succession. A single such face gives a closed polyline of one vertex. If the proper faces are not closed the polyline may jump: for two triangles with a common edge and a degenerate face on that edge, an order of set and dict elements that Python is free to use gives the points 0, 1, 1/2, 1/2 instead of 0, 1/2, 1.", "quantifier": "for all planes, all meshes with valid vertex numbers (no condition on the faces), all Python versions and all orders in which the code picks vertices and keys; the last sentence is a witness", "why_tests_cant": "the tests slice clean meshes only; a degenerate face puts a loop edge into the graph whose Euler path is taken, and that the path remains closed depends on the degrees of all vertices and every order of traversal.", "anchors": ["blmath/geometry/primitives/plane.py:256-422"]}
{"id": "C123", "title": "partition_by_length for every limit", "statement": "In IEEE doubles, for a polyline with finite vertices: with a negative limit nothing happens; with the limit 0 the call raises if there is any segment (ValueError if the first segment's computed length is zero, OverflowError otherwise); with -0.0 nothing happens unless some computed length is zero, which raises ValueError; with an infinite limit nothing happens unless some computed length is infinite, which raises ValueError; with NaN it raises ValueError if there is any segment; with a positive limit it raises OverflowError if some quotient of length and limit overflows and otherwise returns, or raises ValueError if a new vertex is not finite. Whenever it raises the polyline is unchanged, and when nothing happens the indices are 0, 1, 2, ... Findings: a segment of length 2^600 with the limit 2^600 raises OverflowError; one of length 2^-600 with the limit 2^-700 is left whole.", "quantifier": "for all nonempty open and closed polylines with finite double coordinates and all 2^64 limits", "why_tests_cant": "the tests use a handful of positive limits; the outcome depends on the sign of zero, on overflow and underflow of squares and quotients, and on which segment fails first.", "anchors": ["blmath/geometry/primitives/polyline.py:Polyline.partition_by_length", "blmath/geometry/segment.py:partition_segment", "blmath/util/decorators.py:setter_property"]}
{"id": "C124", "title": "Resampling before measuring and cutting", "statement": "Putting more points on the segments of a polyline (which is all that partition_by_length with a positive limit does to the vertices) keeps the old vertices in order, the first vertex, the last vertex of an open polyline, the total length, the apex along every axis and the vertex farthest from every point. If none of the vertices, old or added, is on the plane, intersect_plane returns the same points in the same order, and cut_by_plane raises the same exception or returns the same polyline with points added. The condition is needed: for the segment from height -1 to 1 and the limit 1 the added vertex is on the plane, intersect_plane returns the point twice, and cut_by_plane raises ValueError although the segment itself can be cut.", "quantifier": "for all open and closed polylines over the reals, any number of added points anywhere on the segments, all limits > 0, all planes with unit normal, all axes and points", "why_tests_cant": "the statement compares runs on an unbounded family of refinements of each polyline; the tests never combine partition_by_length with cutting.", "anchors": ["blmath/geometry/primitives/polyline.py:Polyline.partition_by_length", "blmath/geometry/primitives/polyline.py:Polyline.intersect_plane", "blmath/geometry/primitives/polyline.py:Polyline.cut_by_plane", "blmath/geometry/apex.py"]}
{"id": "C125", "title": "Change of the unit of length, digit by digit", "statement": "If all lengths are expressed in another unit, the results are the results in that unit, exactly and with the same exceptions: dot and cross products, lengths, normalized vectors, projections and rejections, angles; signed distances, projections and points in front of a plane, line and segment crossings; mesh_xsections and mesh_xsection, with and without a neighborhood; segment lengths and total length, partition_by_length, intersect_plane and cut_by_plane of polylines; partition, partition_segment, line_intersect3; apex, farthest and inflection_points; surface normals, barycentric coordinates of triangles with nonzero area; boxes. This holds in exact arithmetic and in arithmetic with infinities and NaN for every positive factor, and in binary floating point (without overflow and underflow) for every power of two, bit by bit. It does not hold for Plane.from_points: its tolerance 1e-8 is absolute, and a triangle that gives a plane raises ValueError when the unit is 2^14 times as long. Nor for factors such as 3 in binary floating point.", "quantifier": "for all inputs of these functions, every factor (or power of two), every order of the choices left open in mesh slicing, both Python versions", "why_tests_cant": "the tests fix one size for each object; the statement compares runs at infinitely many scales and needs every branch of the code to compare quantities of the same dimension.", "anchors": ["blmath/numerics/vector_shortcuts.py", "blmath/geometry/primitives/plane.py", "blmath/geometry/primitives/polyline.py", "blmath/geometry/primitives/box.py", "blmath/geometry/segment.py", "blmath/geometry/apex.py", "blmath/geometry/barycentric.py", "blmath/geometry/surface_normals.py"]}
{"id": "C126", "title": "Mirror images, digit by digit", "statement": "Reversing axes and exchanging the x and y axes, in any combination, moves the results along exactly, with the same exceptions: vector operations and angles; distances, projections and points in front of planes, crossings of lines and segments; Plane.from_points and surface normals, which are reversed by an odd number of reflections; mesh_xsections; segment lengths, partition_by_length, intersect_plane and cut_by_plane of polylines; partition, partition_segment, line_intersect3; apex, farthest, inflection_points; barycentric coordinates, degenerate triangles included. This holds in exact arithmetic, with infinities and NaN, and in rounded arithmetic for every rounding that treats both signs alike, such as rounding to 53 bits (zeros without sign). Exchanging the y and z axes is not exact: in doubles apex can then choose the other of two points.", "quantifier": "for all inputs of these functions, all 16 moves (words of any length in the four reflections), all orders of the choices left open in mesh slicing, both Python versions", "why_tests_cant": "the tests use one placement for each object, and compare with a tolerance; exact agreement of every digit and every branch for all inputs is a statement about pairs of runs.", "anchors": ["blmath/numerics/vector_shortcuts.py", "blmath/geometry/primitives/plane.py", "blmath/geometry/primitives/polyline.py", "blmath/geometry/segment.py", "blmath/geometry/apex.py", "blmath/geometry/barycentric.py", "blmath/geometry/surface_normals.py"]}
{"id": "C127", "title": "The cross-section of a mesh is the intersection of its surface with the plane", "statement": "For a mesh of triangles with different corners, at most two at each edge, no two with the same corners and no vertex on the plane, which is closed or has its crossing points all different: the segments of the polylines returned by mesh_xsections correspond one to one to the faces with corners on both sides, and each segment is, as a set of points, exactly what its face and the plane have in common. Hence the points of the polylines are exactly the points of the surface on the plane; the lengths of the polylines add up to the lengths of these common segments; two closed meshes covering the same points are cut in the same points however they are divided and numbered; and dividing a face by a further vertex in it changes none of them.", "quantifier": "for all such meshes (closed or with boundary), planes, orders of set.pop and dict keys, Python versions; for C127_split all faces and all points of them off the plane", "why_tests_cant": "One-to-one correspondence with the faces and equality of point sets are claims about every mesh and every point; a test compares a few vertices of a few sections and cannot notice a missing or doubled segment in a component shape it does not try.", "anchors": ["blmath/geometry/primitives/plane.py:mesh_xsections", "blmath/geometry/primitives/plane.py:mesh_intersecting_faces", "blmath/geometry/primitives/polyline.py:total_length"]}
{"id": "C128", "title": "Convexifying is a tape measure: never longer, unique, idempotent", "statement": "The convex hull of points of a plane is a shortest closed curve through its corners: every closed polyline that passes all of them, in any order and with any detours, is at least as long. Hence convexify_planar_curve never makes a closed planar polyline longer, and the flattening variant never makes any closed polyline in space longer. An open polyline becomes at most twice as long and no longer than it would be if closed (it can become longer: a counterexample is proved). The result is independent of the hull routine except for the corner it starts with: any two routines that keep the contract give the same corners in the same cyclic order. Convexifying again changes nothing but the starting corner, and keeps the length.", "quantifier": "for all polylines with at least two vertices (planar for the plain variant), normals, hull routines that keep their promise; C128_shortest for all closed polylines through the corners", "why_tests_cant": "The tests convexify a few curves and compare vertices; that no closed curve through the corners is shorter quantifies over all curves, and independence of the hull routine over all routines.", "anchors": ["blmath/geometry/convexify.py:convexify_planar_curve", "blmath/geometry/convexify.py:convexify_and_flatten_planar_curve", "blmath/geometry/primitives/polyline.py:total_length"]}
{"id": "C129", "title": "The cross-section in rounded arithmetic is near the exact one, in place and in length", "statement": "Let every vertex of a mesh be stored in the arithmetic, at most M from the origin in each coordinate and at least 100·u·M away from the plane, let no edge have more than two faces and no two faces the same corners, and let the mesh be closed (or its crossed edges be apart). If along every crossed edge the height changes by at least s times its length, then mesh_xsections computed with relative rounding error u per operation has one segment for each face with corners on both sides, and both ends of that segment are within (9+109/s)·u·M of the ends of what the face and the plane really have in common. So every point of the computed polylines is that near to a point of surface and plane, and every point of surface and plane is that near to a computed polyline. The computed total lengths add up to the true length of the intersection, up to 2·n·(9+109/s)·u·M for n such faces and the relative rounding error gam u (n+4) of adding. For a tetrahedron in double precision the sum is (√2+2√5)/2 within 1e-12.", "quantifier": "for all rounding functions with relative error u ≤ 1/1000 (double precision included), all planes and meshes meeting the conditions, both python versions, all orders of sets and dicts", "why_tests_cant": "the bound speaks of every mesh and plane and of infinitely many points of the section; the tests compare a few sections of one or two meshes with stored values.", "anchors": ["blmath/geometry/primitives/plane.py:Plane.mesh_xsections", "blmath/geometry/primitives/plane.py:Plane.line_segment_xsections", "blmath/geometry/primitives/polyline.py:Polyline.total_length"]}
{"id": "C130", "title": "Cutting a polyline more than once", "statement": "cut_by_plane on an open polyline of which one edge meets the plane (none lies in it): if something is strictly in front, cutting the result with the same plane gives the same result; if nothing is, the result is one point of the plane twice and cutting it again raises ValueError. What is left of a closed polyline can never be cut by the same plane again (ValueError). Two planes, each meeting an open polyline in one edge and none of its vertices: if they keep different ends, the two cuts may be made in either order, with the same piece or ValueError both times; if they keep the same end, the plane nearer to that end decides: after the other plane it gives the same as alone, before the other plane the second cut raises ValueError, and if both orders work both planes give the same piece.", "quantifier": "for all polylines of any length over the reals and all pairs of planes with unit normals under the stated conditions", "why_tests_cant": "the statement relates the results of sequences of calls for every polyline and every pair of planes, including two planes crossing the same edge; no test cuts twice.", "anchors": ["blmath/geometry/primitives/polyline.py:Polyline.cut_by_plane", "blmath/geometry/primitives/polyline.py:Polyline._cut_by_plane_open", "blmath/geometry/primitives/polyline.py:Polyline._cut_by_plane_closed", "blmath/geometry/primitives/polyline.py:Polyline.intersect_plane"]}
{"id": "C131", "title": "Cross-sections of convex meshes are convex", "statement": "Let a closed mesh be convex in the sense that every face is in a plane with all the other vertices strictly on one side, and let no vertex be on the cutting plane. Then mesh_xsections returns no polyline if no edge crosses the plane, and otherwise exactly one, closed, whose vertices are all different and which is a convex polygon: for every side, all other vertices are strictly on the same side of it, all the way round. The polygon is the outline of the solid: a point of the cutting plane is a convex combination of the polygon's vertices exactly if it is one of the mesh's vertices. A neighborhood makes no difference, and mesh_xsection returns the same polyline. The polygon does not depend on the order of sets and dicts except for start and direction, and convexify_planar_curve applied to it changes nothing but start and direction and keeps the length.", "quantifier": "for all closed convex triangle meshes over the reals with any number of faces, all planes (any nonzero normal) through none of the vertices, both python versions, all orders of sets and dicts, all hull routines that keep their promise", "why_tests_cant": "that the section is in one piece and convex follows from the geometry of all faces together and cannot be seen from samples; the tests slice a few meshes and look at stored values.", "anchors": ["blmath/geometry/primitives/plane.py:Plane.mesh_xsections", "blmath/geometry/primitives/plane.py:Plane.mesh_xsection", "blmath/geometry/convexify.py:convexify_planar_curve"]}
{"id": "C132", "title": "Sections of convex solids with flat sides; boxes, cubes and prisms", "statement": "Let a closed mesh be consistently oriented and look outward from a convex solid: all vertices are on or behind the plane of every face, and not all on it; several faces may be in one plane, as in the solids of shapes.py. If no vertex is on the cutting plane, every polyline mesh_xsections returns is closed, has all of the solid's part in the plane on one and the same side of every one of its segments, and outlines it: a point is a convex combination of the polyline's vertices exactly if it is on the plane and a convex combination of the mesh's vertices; if some edge crosses the plane there is such a polyline. In particular the section of a rectangular prism (or cube) of positive size, by a plane with corners on both sides, is one closed polyline whose convex hull is exactly the set of points of the plane in the box, whichever diagonals its faces are split along; and that of a triangular prism of positive height is the set of points of the plane in the prism.", "quantifier": "for all such meshes over the reals with any number of faces, all planes (any nonzero normal) through none of the vertices, all boxes, cubes and triangular prisms of positive size, all choices of diagonals, both python versions, all orders of sets and dicts", "why_tests_cant": "which points the outline encloses is a statement about all points of the plane for all solids and planes; tests slice a few meshes and compare stored vertices.", "anchors": ["blmath/geometry/primitives/plane.py:Plane.mesh_xsections", "blmath/geometry/shapes.py:create_rectangular_prism", "blmath/geometry/shapes.py:create_cube", "blmath/geometry/shapes.py:create_triangular_prism"]}
{"id": "C133", "title": "The length of a section of a convex solid is the perimeter of what is cut", "statement": "Let a closed, consistently oriented mesh look outward from a convex solid (faces may be coplanar), with no vertex on the cutting plane and different edges met by the plane in different points. If some edge crosses the plane, mesh_xsections returns exactly one polyline; it is closed, repeats no vertex, and its total_length is the perimeter of the convex polygon that bounds the solid's part in the plane: such a polygon exists, and every convex polygon enclosing exactly those points has its corners among the vertices of the polyline and the same length. convexify_planar_curve leaves the length of this section as it is. Rectangular prisms and cubes of positive size and triangular prisms of positive height satisfy the hypotheses for every plane that has corners on both sides and none on it; a horizontal cut through a rectangular prism has length twice the sum of the two sides of the base, and a cut through a triangular prism parallel to its base has the length of the three sides of the base.", "quantifier": "for all such meshes over the reals with any number of faces, all planes (any nonzero normal), all boxes and triangular prisms of positive size, all choices of diagonals, both python versions, all orders of sets and dicts, all hull routines meeting their contract", "why_tests_cant": "that the traced polyline never doubles back and is as long as the boundary of the solid's slice, however its faces are divided into triangles, is a statement about all solids and planes; tests measure a few slices.", "anchors": ["blmath/geometry/primitives/plane.py:Plane.mesh_xsections", "blmath/geometry/primitives/polyline.py:Polyline.total_length", "blmath/geometry/convexify.py:convexify_planar_curve", "blmath/geometry/shapes.py:create_rectangular_prism", "blmath/geometry/shapes.py:create_triangular_prism"]}
{"id": "C134", "title": "The solids of shapes.py in rounded arithmetic", "statement": "In any rounded arithmetic (relative error at most u, monotone, idempotent), create_rectangular_prism from a representable origin returns exactly the corners of the exact prism with the same origin and faces and with the size from the origin to the rounded far coordinates; each side is off by at most u times the far coordinate, is exact if that coordinate is representable, and does not become negative if it was not. So the twelve triangles enclose exactly the product of those three sizes and, if none of them vanished, face outward. In doubles sizes can be lost: at (2^54, 0, 0) the cube with sides 1 has no volume and the one with sides 3 has volume 36. create_triangular_prism, if it returns, keeps the three given corners, its faces are watertight, and the other three corners are the rounded sums of these and one common shift; the shift is within d of the exact one, where d |N| <= |height| ((1+u) 4 gam(u,4) |e1| |e2| + u |N|), e1 and e2 being the edges from the first corner and N = e1 x e2, and each sum is within u times its length of the exact sum.", "quantifier": "for all rounding functions meeting the contract with 4u < 1 (so for doubles), all representable origins, all sizes, corners and heights, all choices of diagonals", "why_tests_cant": "a bound on the rounding error, and that the faces stay exactly consistent with the shifted corners, are statements about all inputs; tests compare a few shapes of ordinary size with a tolerance.", "anchors": ["blmath/geometry/shapes.py:create_rectangular_prism", "blmath/geometry/shapes.py:create_cube", "blmath/geometry/shapes.py:create_triangular_prism"]}
{"id": "C135", "title": "When a plane meets a convex solid", "statement": "Let a consistently oriented mesh look outward from a convex solid: all vertices on or behind the plane of every face, not all on it. Then every face has three different corners and every edge exactly two faces; and the points behind all faces are exactly the convex combinations of the vertices, so there is no hole, no gap and no second shell. For a plane through no vertex the following are equivalent: some edge crosses it; there are vertices on both sides; it contains a point of the solid. mesh_xsections returns the empty list exactly if the plane contains no point of the solid, and otherwise polylines each of which is closed and outlines the points of the plane behind all faces; if different edges are met in different points there is exactly one and its total_length is the perimeter of that figure. For a closed convex mesh (every other vertex strictly on one side of each face) the same holds whichever way round the faces are listed, because they can be turned to look outward: no polyline if all vertices are on one side, and otherwise exactly one, a convex polygon. A rectangular prism has an empty section exactly if the plane misses the box.", "quantifier": "for all such meshes over the reals with any number of faces and vertices (also vertices used by no face), all planes (any nonzero normal) through none of the vertices, all points of space, all boxes of positive size and all choices of diagonals, both python versions, all orders of sets and dicts", "why_tests_cant": "that a closed surface cannot have vertices on both sides of a plane without an edge across it, and that it bounds exactly the hull, are global facts about all convex solids; a test slices one mesh with one plane.", "anchors": ["blmath/geometry/primitives/plane.py:Plane.mesh_xsections", "blmath/geometry/shapes.py:create_rectangular_prism", "blmath/geometry/primitives/polyline.py:Polyline.total_length"]}
{"id": "C136", "title": "The inner of two convex figures has the shorter girth", "statement": "If all vertices of one convex closed polyline of a plane are convex combinations of the vertices of another one in the same plane, its total_length is at most that of the other. Hence convexify_planar_curve keeps the order: if the points of a closed planar polyline are convex combinations of those of a second, the convexified first is at most as long as the convexified second, and so at most as long as the second itself. Hence also for solids: if a mesh that looks outward from a convex solid lies inside (behind all faces of) a second such mesh, and a plane through no vertex of either contains a point of the inner solid, each has exactly one section (where different edges are met in different points) and the inner one's total_length is at most the outer one's; the same for closed strictly convex meshes. A horizontal section of a convex solid is at most as long as the perimeter of any rectangle that contains its vertices seen from above.", "quantifier": "for all such polylines and meshes over the reals of any size, all planes (any nonzero normal) through none of the vertices, any direction and starting vertex of the polylines, both python versions, all orders of sets and dicts, every hull routine that keeps its promise (and returns at least three corners)", "why_tests_cant": "the comparison of perimeters is a theorem about all pairs of nested convex figures; tests compare a few numbers, and never the sections of two meshes.", "anchors": ["blmath/geometry/primitives/plane.py:Plane.mesh_xsections", "blmath/geometry/primitives/polyline.py:Polyline.total_length", "blmath/geometry/convexify.py:convexify_planar_curve"]}
{"id": "C137", "title": "What moving, turning, scaling and converting units do to measured lengths", "statement": "Let a composite transform be built by any history of scale, convert_units, translate, reorient, rotate, append_transform3/4 calls, calls that raise included, where explicit matrices multiply all distances by one factor. The stack holds one transform for each call that did not raise. Applying any range of it multiplies every distance by the product of the factors of the transforms in that range (the scale, the quotient of the unit sizes, 1 for moves and turns), and the reverse call divides by it. Hence total_length of every polyline, open or closed, is multiplied (divided) by that product; if the only call that changes lengths is convert_units(a, b), the total_length of the result is units.convert(total_length, a, b), the same physical length; each plane has an image whose sections of the moved mesh are as many, in the same order, open or closed as before, with total_length multiplied by the product; and points set in the coordinate manager at one tag and read at another have their lengths multiplied by the product of the factors of the calls between the two tags. A matrix that stretches one direction only has no such factor.", "quantifier": "for all histories of such calls of any length, all ranges of indices (also negative or absent), all length units, all polylines, meshes and planes with unit normal over the reals, every svd, every matrix inversion that keeps its promise, both python versions, all orders of sets and dicts", "why_tests_cant": "histories are unbounded, and the claim relates five modules that the tests exercise separately (units, composite transforms, polylines, slicing, coordinate manager).", "anchors": ["blmath/geometry/transform/composite.py:CompositeTransform.__call__", "blmath/geometry/transform/coordinate_manager.py:CoordinateManager", "blmath/units.py:Units.factor", "blmath/units.py:Units.convert", "blmath/geometry/primitives/polyline.py:Polyline.total_length", "blmath/geometry/primitives/plane.py:Plane.mesh_xsections"]}
{"id": "C138", "title": "Slicing through vertices of the mesh", "statement": "For a mesh of triangles with three different corners each, at most two faces at each edge, no two faces with the same corners and no face in the plane (vertices may be on the plane, faces may touch it or have an edge in it), mesh_xsections returns. No returned polyline is empty, and one that is not marked as closed ends in another point than it starts from. The segments of the returned polylines correspond one to one to the faces that are not strictly on one side of the plane. Each segment is exactly what its face and the plane have in common, except for a face whose corner listed first is on the plane while its other two corners are strictly on opposite sides: of such a face only that corner is returned, as a segment of length 0, and the rest of the cut through it is lost. So the points of the polylines are the points of plane and surface without the cuts through those faces; they are all the points the plane and the surface have in common if no face is listed that way, which can always be had by listing the corners of those faces from the second one on; and the total lengths add up to the lengths of the cuts, those faces counting 0. A closed tetrahedron with one vertex on the plane has an incomplete cross-section, and a complete one when the same faces are listed from other corners.", "quantifier": "for all such meshes and all planes over the reals, whether points of different edges coincide or not, both python versions, all orders of sets and dicts", "why_tests_cant": "the tests slice through faces and edges of a few boxes with the plane off the vertices; what is lost depends on the order in which each face lists its corners, and the claim is about every mesh and the whole set of points.", "anchors": ["blmath/geometry/primitives/plane.py:Plane.mesh_xsections", "blmath/geometry/primitives/plane.py:Plane.mesh_intersecting_faces", "blmath/geometry/primitives/plane.py:Plane.line_segment_xsections"]}
{"id": "C139", "title": "A convex solid cut through its vertices", "statement": "For a closed consistently oriented mesh with all vertices on or behind the plane of every face (not all on it), cut by a plane that contains no face but may pass through vertices and along edges, with no face listed from a corner on the plane while its other two corners are strictly on opposite sides: mesh_xsections returns nothing exactly if the plane misses the solid, and the convex hull of the vertices of all returned polylines is exactly what the plane cuts out of the solid. For a box the latter is the part of the plane within the three coordinate ranges. The condition on the listing can always be had by listing such faces from their second corner on, and holds by itself if the whole solid is on one side of the plane, which then touches it in a vertex or an edge. It cannot be left out: of a tetrahedron with an edge in the plane whose faces are listed from corners on the plane a corner of the section is lost altogether, and of the unit cube with its lower base divided along the diagonal from the corner listed first the cut of an upright plane through that corner with the base is missing. Even with the condition the polylines of a closed solid need not be closed and their lengths need not add up to the perimeter: for the same tetrahedron listed from corners off the plane, with a section of perimeter 12, they add up to 15 and some polyline is open.", "quantifier": "for all such meshes and all planes over the reals, both python versions, all orders of sets and dicts", "why_tests_cant": "the tests keep the plane off the vertices; the claim is about every convex solid and every plane through any of its vertices and edges, and about all points of the section.", "anchors": ["blmath/geometry/primitives/plane.py:Plane.mesh_xsections", "blmath/geometry/primitives/plane.py:Plane.mesh_intersecting_faces", "blmath/geometry/shapes.py:create_rectangular_prism", "blmath/geometry/shapes.py:create_cube"]}
{"id": "C140", "title": "Where the open polylines of a cross-section start and end", "statement": "For a mesh of triangles with different corners, at most two at each edge, no two with the same corners and none in the plane (vertices may be on the plane): every open polyline returned by mesh_xsections starts and ends in a vertex of the mesh lying on the plane, or where the plane strictly crosses an edge that belongs to one face only or to a face listed from a corner on the plane while its other two corners are strictly on opposite sides. Hence for a closed mesh without such faces they start and end in vertices on the plane only. If the plane passes through no vertex and crosses different edges in different points, the first and last points of the open polylines are exactly the points where the plane crosses edges belonging to one face only. Witnesses: a wall of two faces, whose polylines start and end on its two upright sides and not on the diagonal; a tetrahedron with an edge in the plane, where an open polyline leads from one end of this edge to the other; and a closed tetrahedron with faces listed from a corner on the plane, one of whose polylines breaks off in the middle of an edge.", "quantifier": "for all such meshes and all planes over the reals, both python versions, all orders of sets and dicts", "why_tests_cant": "the tests look at one closed mesh cut off its vertices, where nothing is open; the claim is about every mesh with a border or with vertices on the plane, and about every order in which the graph is taken apart.", "anchors": ["blmath/geometry/primitives/plane.py:Plane.mesh_xsections", "blmath/geometry/primitives/plane.py:Plane.mesh_xsections.EdgeMap", "blmath/geometry/primitives/plane.py:Plane.mesh_xsections.Graph.pop_euler_path"]}
{"id": "C141", "title": "How often a polyline meets a plane; cutting convex outlines", "statement": "A closed polyline with no vertex on the plane meets it with an even number of edges; an open one with an odd number exactly if its ends are on different sides, so if they are on the same side cut_by_plane raises ValueError. For a closed convex polygon (at least three different corners in a plane, each strictly inside the sides it is not on): a plane with corners on both sides meets 2 + z sides, z the number of corners on the plane; a plane with the polygon on one side but not all in it meets none if z = 0 and z + 1 otherwise; a plane containing it meets all. Hence cut_by_plane returns a polyline exactly if the plane has corners on both sides and none on it, or exactly one corner on it and the others behind; it raises IndexError if exactly one corner is on the plane and the others are in front, and ValueError in all other cases, in particular whenever the plane passes through a corner with other corners on both sides. In the first case the result is: the corners in front in order, preceded and followed by the points of the plane on the two crossed sides; closed, it is again a convex polygon, and its hull is exactly the part of the hull of the given polygon in front of the plane (on it included). Cutting with the flipped plane gives the rest: together both hulls make up the hull of the polygon and have exactly its points on the plane in common. In the second case the result is the one corner. convexify followed by cut_by_plane gives the part in front of the convex hull of the vertices.", "quantifier": "for all polylines, all convex polygons with any number of corners in any plane in space, and all cutting planes over the reals", "why_tests_cant": "the tests cut two or three fixed outlines; the claim says for every convex outline and every plane which of three things happens, and that the region cut out is the right one.", "anchors": ["blmath/geometry/primitives/polyline.py:Polyline.cut_by_plane", "blmath/geometry/primitives/polyline.py:Polyline._cut_by_plane_closed", "blmath/geometry/primitives/polyline.py:Polyline.intersect_plane", "blmath/geometry/primitives/plane.py:Plane.flipped", "blmath/geometry/convexify.py:convexify_planar_curve"]}
{"id": "C142", "title": "The normals of a closed surface", "statement": "Let the faces form a watertight surface (each directed edge once, its reverse present). Then the rows of TriNormalsScaled add up to zero, and so do the results of surface_normal(triangles, normalize=False); a sixth of the sum of the rows, each times a corner of its face seen from a point o, is the enclosed signed volume for every o and every choice of corners. Moving one vertex by d, however far, changes the enclosed volume by exactly L(vn . d)/6, vn the row of VertNormals and L the length of the sum of normals it was divided by; so among all moves of a vertex by at most r the one by r along vn adds the most volume, uniquely if vn is not zero, and moves at right angles to vn leave the volume as it is. The rows of VertNormals times L are six times the gradient of the volume. If no vertex is in front of a face, the plane through a vertex across its row of VertNormals has all vertices on one side. For the rectangular and triangular prisms of shapes.py the sums are zero and give size.x*size.y*size.z and area*height.", "quantifier": "for all watertight triangulated surfaces with any number of vertices and faces and any real coordinates, self-intersecting or degenerate ones included", "why_tests_cant": "a statement about all closed surfaces, all displacements and all points to look from; the tests compare the normals of one mesh with stored numbers", "anchors": ["blmath/optimization/objectives/normals.py:47-105", "blmath/geometry/surface_normals.py:1-13", "blmath/geometry/shapes.py:11-84"]}
{"id": "C143", "title": "Coordinate frames in rounded arithmetic", "statement": "After any program of transforms, tags and assignments on a CoordinateManager, carried out in rounded arithmetic (explicit 4x4 matrices having the last row 0, 0, 0, 1): moving points or a mesh from one tag to another never raises, and each coordinate differs from the exact image under the stored transforms between the tags (backwards: under the stored inverses, last one first) by at most four roundings per transform, measured against the image of the absolute values. Between tags of the same state the result is bit for bit what was given. Moving in two steps is near the exact image with the relative errors (1+g1)(1+g2)-1; if the tag in between was set between the other two, or if the stored inverses undo their transforms (as for translations), this is the exact image under the direct move, there and back included. In double precision frames are not independent of the path: 2^60 away and back moves a point from 1 to 0.", "quantifier": "for all programs, all tags, any number of transforms k with (4k+4)u < 1, all points, every rounding with relative error u", "why_tests_cant": "the tests compare a few frames of one cube up to a tolerance; rounding errors add up over programs of any length", "anchors": ["blmath/geometry/transform/coordinate_manager.py:47-118", "blmath/geometry/transform/composite.py:76-121"]}
{"id": "C144", "title": "Planes fitted to moved, scaled, mirrored and reordered points", "statement": "For two points or more, and any correct routines for eigenvectors and sorting: every plane with the least sum of squared distances passes through the centroid; there is only one such plane, up to the direction of its normal, exactly when one eigenvalue of the covariance is smaller than the two others. Turning or mirroring the points, scaling them by k and moving them keeps that condition, moves the reference point of the fitted plane along, multiplies the least sum by k squared, and, where the best plane is the only one, the plane Plane.fit_from_points finds for the moved points is the image of the plane it finds for the points (heights are multiplied by k or by -k everywhere). The points in another order, all repeated equally often, give the same plane. Points of one plane that are not all on a line have one best plane, their own; for three points it is the plane of from_points. The direction of the normal is not determined: for every correct eigenvector routine there is another with which every fitted plane faces the other way.", "quantifier": "for all lists of two points or more, all orthogonal matrices, factors other than zero, translations, permutations, repetition counts, and all correct eigenvector and sorting routines", "why_tests_cant": "the result must not depend on the routine np.linalg.eig happens to use, and uniqueness of the best plane is a statement about all planes", "anchors": ["blmath/geometry/primitives/plane.py:73-82"]}
{"id": "C145", "title": "When the fitted rotation is the only best one", "statement": "Let u diag(s) v be any singular value decomposition (s descending) of the matrix of moments of two equally long lists of points, e = det u det v. s1 + e s2 is never negative. There is exactly one best rotation if and only if s1 + e s2 is positive; if it is zero and s1 < s0, the best rotations are exactly those that turn the first column of u to the first row of v; if it is zero and s0 = s1 > 0 (then s2 is the same too), they are exactly the maps that mirror in some plane through the origin and then apply the transpose of u v; if s0 = 0 all rotations are best. These are all cases. The same holds for rigid motions with the cross-covariance matrix, the motion carrying centroid to centroid. Where find_rigid_transform does not raise, its result is the same for all correct singular value decompositions exactly if that matrix has rank at least two, which is exactly when the best motion is the only one; the result of find_rigid_rotation (other than one pair, no scaling) is the same for all of them exactly if the best rotation is the only one. If all points of one side lie on a line, no best motion is the only one. Witness: for two points and their copies different correct decompositions make find_rigid_transform return different rotations, each without residual.", "quantifier": "for all equally long lists of points over the reals, all singular value decompositions of the matrix, all correct svd routines", "why_tests_cant": "a test sees the result of one SVD routine; whether another correct routine could return something else is a statement about all of them, and the best rotations form a continuum", "anchors": ["blmath/geometry/transform/rigid_transform.py:1-92"]}
{"id": "C146", "title": "Normals of moved, mirrored, scaled, sheared and relisted meshes", "statement": "Map all vertices by any matrix A and move them. Then the rows of TriNormalsScaled are mapped by the matrix of cofactors of A; those of TriNormals and of VertNormals too, and then given length one (zero if they became zero). If A is k != 0 times a rotation or mirror Q: TriNormalsScaled is turned along, times k squared; TriNormals and VertNormals are turned along and keep their length, also for k < 0; all are reversed in a mirror; VertNormals without normalized gets longer by |k| with the same rows NaN. If faces, the corners in each face, and vertices are listed in another order (with the numbers in the faces changed to match), the rows of TriNormalsScaled and TriNormals are permuted with the faces and reversed where the corners go the other way round; if that is so for all faces or for none, the rows of VertNormals, with or without normalized, are permuted with the vertices and reversed with the faces.", "quantifier": "all numbers of vertices and faces, all vertex positions, all faces (degenerate and repeated included), all 3x3 matrices, translations, factors and permutations", "why_tests_cant": "Rotations, factors and orders are unlimited; an error such as summing unit normals, averaging over distinct vertices or a wrong corner order shows only for some meshes and maps.", "anchors": ["blmath/optimization/objectives/normals.py:47-105", "blmath/optimization/objectives/normals.py:137-140"]}
{"id": "C147", "title": "Half sections of convex solids: mesh_xsection, then cut_by_plane", "statement": "Let a closed convex mesh (as in C131) have no vertex on plane A and an edge crossing it, and let v be the closed polyline mesh_xsection returns for A (the same with every neighborhood). If some point of the solid on A is strictly in front of a plane B and some strictly behind it, and no edge of the mesh meets A in a point of B, cutting the section with cut_by_plane(B) gives one open polyline: closed, it is a convex polygon that bounds exactly the points of the solid on A that are on or in front of B; between its ends are corners of the section, each where an edge of the mesh crosses A and strictly in front of B; and the straight line between its two ends is exactly the solid's part on both planes. The second cut returns something exactly in this case or if all of the solid's part on A is on or behind B with exactly one point on it. If that part is strictly on one side of B it raises ValueError. Cutting along A and then at B, or along B and then at A, gives polylines with the same two end points, whatever the order of sets and dicts in either run.", "quantifier": "all closed convex meshes with any number of vertices and faces, all pairs of planes, all orders of sets and dicts, both Python versions", "why_tests_cant": "The statement joins two functions and holds for every solid and pair of planes; the exceptional positions (through a corner of the section) have measure zero, and the order of sets and dicts is not under the control of a test.", "anchors": ["blmath/geometry/primitives/plane.py:193-346", "blmath/geometry/primitives/polyline.py:247-362"]}
{"id": "C148", "title": "What cut_by_plane keeps, point by point", "statement": "Whenever cut_by_plane succeeds on a polyline, open or closed, with some vertex strictly in front of the plane, the points of the polyline it returns are exactly the points of the given polyline that are on or in front of the plane. If nothing is in front (and no edge of an open polyline lies in the plane) it can only succeed if exactly one point of the polyline is on the plane, and returns that point, once for a closed and twice for an open polyline. So slicing a mesh with a plane A none of its vertices is on and removing from every component what is behind a plane B (nothing of components in front, all of components behind, the rest by cut_by_plane) leaves exactly the points of the surface on A that are on or in front of B; in particular for the half sections of convex solids of C147.", "quantifier": "all polylines (open and closed), all planes with unit normal; all manifold meshes with distinct faces, closed or with crossings apart, all pairs of planes, every set and dict order, Python 2 and 3; exact arithmetic", "why_tests_cant": "a statement about all points of a curve and of a surface, for every polyline and every mesh", "anchors": ["blmath/geometry/primitives/plane.py:193-346", "blmath/geometry/primitives/polyline.py:247-362"]}
{"id": "C149", "title": "What cut_by_plane keeps in rounded arithmetic", "statement": "In rounded arithmetic, for a polyline whose vertices are at most M in size and at least 100·u·M away from the plane, cut_by_plane raises ValueError or returns an open polyline every point of which is within 11·u·M of a point of the given polyline at most 115·u·M behind the plane; and every point of the given polyline at least 115·u·M in front of the plane is within 11·u·M of a point of the result. Slicing a mesh with a plane A and removing from every computed component what is behind a plane B keeps points that are within R + 11·u·M' (R = (9 + 109/s)·u·M being the accuracy of the slice, C129) of points of the surface on A at most 115·u·M' + 9/4·R behind B, and comes that near to every point of the surface on A at least that far in front of B, provided the points where edges cross A are 100·u·M' + 9/4·R away from B.", "quantifier": "all rounding functions satisfying the contract with u ≤ 1/1000 (double precision among them); all polylines, open and closed, all meshes and planes meeting the stated conditions; every set and dict order, Python 2 and 3", "why_tests_cant": "a bound for all points of a curve over all roundings and all inputs", "anchors": ["blmath/geometry/primitives/plane.py:193-346", "blmath/geometry/primitives/polyline.py:247-362"]}
{"id": "C150", "title": "line_intersect with LAPACK's elimination, in rounded arithmetic", "statement": "np.linalg.solve inside line_intersect is modelled as what LAPACK's gesv does for a 2x2 system (row with the larger first entry as pivot, multiplier through the reciprocal, LinAlgError on a zero pivot). In exact arithmetic this gives what C42 assumes of the solver, so C42 needs no contract about it. In rounded arithmetic (relative error u <= 1/1000 per operation): a returned point x has |turn(p,q,x)| <= 17 u D (X+M) for both lines (D bounds the coordinates of the directions, M those of the first points, X those of x), whatever the angle; the only error is LinAlgError, and then the product of the directions is at most 8 u D^2; if that product is at least 70 u D^2 and not zero, a point is returned, within 70 u D^2 (M+N)/|product| of the true intersection (N bounds its coordinates). In IEEE doubles with their limits of range, for coordinates that are zero or from 2^-58 to 2^80 in size, the same holds with u = 2^-53, nothing is raised, and the result is two NaNs or two finite numbers. Exchanging the two lines changes no digit unless their differences of y have the same size. Two horizontal or two vertical lines always give NaN; for integer directions of up to 25 bits with the larger difference of y a power of two, NaN is returned exactly for parallel lines. In general parallel lines are missed: in IEEE doubles (0,0)-(1,49) and (1,0)-(2,49) get the point (-2^53, -49*2^53).", "quantifier": "all pairs of lines, all roundings with relative error u <= 1/1000; two concrete cases in IEEE doubles for the failure", "why_tests_cant": "The error bounds hold for every pair of lines and every rounding; a test sees single values, and the parallel lines that are missed are rare among small integers (differences of y of 49 or 98 below 100).", "anchors": ["blmath/geometry/segment.py:99-126"]}
{"id": "C151", "title": "LAPACK's elimination for matrices of any size: solve, inv and det", "statement": "np.linalg.solve, np.linalg.inv and the determinants are modelled as what LAPACK's gesv / getrf does for n×n matrices (largest entry of the column as pivot, rows exchanged, multipliers through the reciprocal, substitution from the last unknown to the first, LinAlgError on a zero pivot). In exact arithmetic, for every n: solve returns the only solution if the matrix is regular and raises LinAlgError if not; the determinant is the determinant; inv is what the properties of isomorphism (C61), composite transforms and coordinate managers (C53-C55), convexify and the sparse solver assume, so isomorphism has its property with nothing assumed about a library. For two equations the elimination is that of C150, in every arithmetic. In rounded arithmetic (relative error u <= 1/1000 per operation, n u <= 1/100): a returned X has |A X - B| <= 2.01^n u (18 E X + 3 R) in every entry (E, R, X bound the entries of A, B, X), so A inv(A) is the identity up to that; the only error is LinAlgError, and then some singular matrix differs from A by at most 3 2.01^n u E in every entry; so every matrix that is farther from the singular ones is solved. In IEEE doubles isomorphism does not notice every dependent frame: with both vectors (1,49) the determinant comes out as -49*2^-53 and numbers are returned.", "quantifier": "all matrices of all sizes, any number of right hand sides, all roundings with relative error u <= 1/1000; concrete frames in IEEE doubles for the failure", "why_tests_cant": "The statements are about every size and every matrix, by induction on the size; tests see single matrices, and a wrong row exchange or sign shows only for some of them.", "anchors": ["blmath/numerics/linalg/isomorphism.py:12-54", "blmath/geometry/transform/composite.py:132", "blmath/geometry/convexify.py:72", "blmath/geometry/transform/rigid_transform.py:35", "blmath/geometry/transform/rigid_transform.py:84", "blmath/geometry/segment.py:122"]}
{"id": "C152", "title": "Transforms whose inverse is computed, in rounded arithmetic", "statement": "append_transform4 without a reverse matrix takes np.linalg.inv, which is modelled by LAPACK's elimination (C151). In rounded arithmetic (relative error u <= 1/1000 per operation): the computed inverse of a matrix with the last row 0, 0, 0, 1 has this last row without any rounding error, so the statements about images of points (C97) and moves between coordinate frames (C143) hold with nothing assumed about the inverse, and the check for a last coordinate of exactly one never fails. For entries of the matrix up to E, of its computed inverse up to X and coordinates up to P >= 1: reverse then forward restores every coordinate within 1503 u E X P; forward then reverse within 90000 u (E X)^2 P, if 2^18 u E X <= 1.", "quantifier": "all affine 4x4 matrices, all lists of points, all programs of transforms and tags, all roundings with relative error u <= 1/1000", "why_tests_cant": "The exactness of the last row depends on how pivots are chosen in every step, for every matrix; the bounds of the round trips are over all matrices and points.", "anchors": ["blmath/geometry/transform/composite.py:123-138", "blmath/geometry/transform/composite.py:76-121", "blmath/geometry/transform/coordinate_manager.py"]}
{"id": "C153", "title": "isomorphism of two frames in rounded arithmetic", "statement": "isomorphism(frame1, frame2) for two frames of n vectors with n coordinates, with determinants and inverse by LAPACK's elimination (C151), in rounded arithmetic (relative error u <= 1/1000 per operation, exponents unlimited): it returns a matrix or raises LinearDependenceError and nothing else, so np.linalg.inv never fails after the validation. It raises only if one of the frames is within 3 * 2.01^n * u times its largest entry, entry by entry, of a linearly dependent frame. If it returns Y, then for entries of the frames up to E and F and of the computed inverse up to X, the combination of the vectors of frame1 with column j of Y as coefficients is vector j of frame2, in every coordinate within n F u (2.01^n (18 E X + 3) + 1.02 n (n+1) E X). With the limited exponents of IEEE doubles the first part fails: two orthogonal vectors of length 2^-600 raise LinearDependenceError although their inverse is computed without rounding.", "quantifier": "all n, all pairs of n by n frames, all roundings with relative error u <= 1/1000 (for the residual (n+1) u <= 1/100)", "why_tests_cant": "Bounds over all frames of all dimensions and all roundings; that the determinant is zero in exactly the cases in which the inverse fails is a statement about all eliminations.", "anchors": ["blmath/numerics/linalg/isomorphism.py:12-54"]}
{"id": "C154", "title": "Every set of points has a convex hull; convexify_planar_curve succeeds", "statement": "The properties of convexify_planar_curve (C57, C128) assume a hull routine whose answers satisfy HullSpec. Such answers exist for every list of points of the plane that is not empty, with repeated points and points in line: indices of corners, counterclockwise, with every point a convex combination of the corners, no corner a convex combination of the others, and all points on the left of every side. A hull has three corners or more exactly if the points are not all in line, and the corners are exactly the points that are not convex combinations of the other points. So convexify_planar_curve succeeds on every polyline of a plane that is not in line, if the hull routine answers, rightly, whenever the points are not in line, and leaves at least three corners; the flattened variant does so whenever the shadow of the polyline along the (unit) normal is not in line, for normals not within 1e-5 radians of the y axis unless on it; routines with all assumed properties exist, with LAPACK's elimination as the inverse.", "quantifier": "all finite lists of points of the plane; all polylines of a plane, normals given or estimated, open or closed", "why_tests_cant": "The existence of a correct answer for every finite set of points, including all degenerate ones, and the characterisation of its corners, are statements about infinitely many inputs.", "anchors": ["blmath/geometry/convexify.py:7-45", "blmath/geometry/convexify.py:47-85"]}
{"id": "C155", "title": "block_sparse_cg_solve is near the least squares solution", "statement": "block_sparse_cg_solve(A, b) on the normal equations A = J^T J, b = J^T r of a least squares problem, with LAPACK's elimination in the place of scipy.linalg.inv and of factorized, the test of cg being residual < 1e-5 |b|, over the reals. J may have columns of zeros, for which nothing is stored in A; let J stretch every vector that vanishes there by at least sigma > 0. Then there is exactly one best x, with least sum of squares |r - J x|^2, that vanishes at the columns of zeros; the solver returns a vector y without raising; |y - x| <= 1e-5 |b| / sigma^2, and the sum of squares at y exceeds the least one by at most (1e-5 |b| / sigma)^2.", "quantifier": "all matrices J of any size with linearly independent nonzero columns, all right hand sides, all lists of stored entries of J^T J", "why_tests_cant": "A bound on the distance to the optimum for all problems and sizes, through an iteration whose number of turns is not known beforehand.", "anchors": ["blmath/numerics/linalg/sparse_cg.py:1-32"]}
{"id": "C156", "title": "Rigid fits when the singular value decomposition is only nearly right", "statement": "np.linalg.svd returns, in floating point, the decomposition of a matrix that differs a little from the one given; let the difference be at most delta (root of the sum of squares). find_rigid_transform then raises ValueError only if the nearby matrix has a negative determinant, and otherwise returns a proper rotation and a translation such that no rigid motion, even with a reflection, has a sum of squared distances smaller by more than 4 sqrt(3) delta. If the cross-covariance matrix stretches every vector by more than delta, the sign of its determinant decides about the exception, as in exact arithmetic. If the second points are the first, moved rigidly, and the first extend in each direction (sum of squared distances from every plane through the centroid at least sigma > delta), nothing is raised and the motion found takes every point x to within (2 delta / sigma) |x - centroid| of where the true motion takes it. If on the other hand the cross-covariance matrix is singular, as for points on a plane, then for every delta > 0 there is a routine accurate to delta for every matrix with which ValueError is raised: the test s == 0 in the code is for exact numbers. find_rigid_rotation never raises, is optimal up to 4 sqrt(3) delta, and within 2 delta / sigma of the true rotation for points that were turned. For points on a plane that extend in it (sum of squares at least sigma in each direction of the plane) the motion found, if nothing is raised, and the rotation found by find_rigid_rotation are within 4 delta / sigma of the true ones.", "quantifier": "all pairs of point sets of equal size, all decompositions within delta, all delta", "why_tests_cant": "The failure for flat point sets depends on the last bits of the decomposition in use; the bounds are for all routines of the given accuracy.", "anchors": ["blmath/geometry/transform/rigid_transform.py:1-92"]}
{"id": "C157", "title": "Planes fitted with nearly right eigenvectors", "statement": "fit_from_points with orthonormal eigenvectors of a symmetric matrix that differs from the covariance matrix of the n >= 2 points by at most delta (root of the sum of squares): nothing is raised, the plane goes through the centroid, and no plane has a sum of squared distances that is smaller by more than 2 delta (n - 1). If the points lie on a plane and their variance in each of its directions is at least sigma > delta, then a point q of that plane is within delta / (sigma - delta) |q - centroid| of the plane found, and the squared cosine of the angle between the planes is at least 1 - (delta / (sigma - delta))^2.", "quantifier": "all lists of at least two points, all eigenvectors within delta, all delta", "why_tests_cant": "A bound for all routines of the given accuracy and all point sets.", "anchors": ["blmath/geometry/primitives/plane.py:73-82"]}
{"id": "C158", "title": "Rigid fits of points measured with errors", "statement": "Let the first points extend in all directions (the sum of squared components along any unit vector, from the centroid, is at least sigma), and let the second points be the first, moved by a rigid motion, up to errors. With r the sum of the squared errors, S the sum of the squared distances from the centroid and a singular value decomposition within delta, let e = delta + sqrt(S r). If e < sigma, find_rigid_transform raises nothing and returns a rotation and a translation: the rotation turns no vector w more than 2 e / sigma |w| away from where the true one takes it, and a point x is taken within 2 e / sigma |x - centroid| + sqrt(r / n) of where the true motion takes it. For find_rigid_rotation with at least two points (or none), distances taken from the origin and sigma > 0, the same bound holds for the rotation, whatever e is.", "quantifier": "all lists of points of any length, all rigid motions, all errors, all decompositions within delta", "why_tests_cant": "A bound for every measurement error and every point set; tests use exact correspondences or one sample of noise.", "anchors": ["blmath/geometry/transform/rigid_transform.py:1-92"]}
