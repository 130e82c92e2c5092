# Formal model of lace/blmath in Lean 4 — design

The properties are in `properties.jsonl`, the theorems proving each of them in `MANIFEST.json`.
This file says what is trusted, what is modelled and how, what was found, and what is left out.

## 1. Trusted base

* The kernel of Lean 4.33.0, and Mathlib's definitions as far as the specifications use them (`ℝ`,
  matrices, `HasFDerivAt`, `convexHull`, `NormedSpace.exp` …).
* Axioms: section 7.  Only `propext`, `Classical.choice`, `Quot.sound`.  None are added; there is no
  `sorry`, `admit`, `native_decide`, `bv_decide`, `implemented_by`, `unsafe`.
* The reading of the source in `/repo`.  Every model definition cites file and lines.  The models were
  written by hand from the source text; nothing was executed.
* The reading of numpy, scipy, chumpy, plumbum and simplejson where the code calls them (section 4).

## 2. Numbers

The code computes in IEEE float64.  A model is written once, over an operations-only class `Num`
(`Verif/Base/Num.lean`) and, where needed, `Trig`.  Theorems are about one of these instances:

* **any** `Num`: structural facts.  They hold for true floats as well.
* **`Fl`** (`Verif/Base/Fl.lean`): exact reals with `NaN`, `+inf`, `-inf` and IEEE propagation.  Used wherever
  the code can produce special values, so that no theorem holds only because Lean has `x / 0 = 0`.
* **`ℝ`**: exact arithmetic, used where a guard of the code or a hypothesis of the theorem excludes division by zero.

* **`Rd rnd`** (`Verif/Base/Rd.lean`): reals with a function `rnd` applied to the result of every operation and to every literal.  The theorems
  (C80 on) hold for every `rnd` meeting the contract `Rounding rnd u` (`Verif/Spec/FloatError.lean`: relative error at most `u`, monotone,
  idempotent, exact on integers up to 2^53 times powers of two).  `rnd53`, round-to-nearest-even with 53 bits, meets it with `u = 2^-53`
  (`rounding_rnd53`).  This is the standard model of floating-point error: no overflow or underflow, no NaN (divisors are nonzero by
  hypothesis or by a guard of the code), sums from the left without fused operations, `sqrt` rounded once.

* **`F64`** (`Verif/Base/F64.lean`): IEEE 754 binary64 in full, computable: subnormal numbers, overflow, signed zeros, infinities, one NaN.
  C106 proves that results in `F64` are those in `Rd rnd53` for coordinates that are zero or of size 2^-58 to 2^80; C107 what happens beyond.
  `C106_round` and `C106_operations` prove its operations correctly rounded, from a definition of the finite doubles and of nearest (ties to even)
  that does not use the model; `Verif/Tests/F64.lean` compares them with those of the machine.

Not modelled: overflow, underflow and signed zeros outside C106 and C107; rounding outside the theorems over `Rd` and `F64`.  Element types (ints or floats) are
modelled only where the result depends on them (`Box`, `isnumeric`, rounding in Python 2).

## 3. Conventions

* Exceptions are values of `PyErr`: the kind, not the message.  `PyM α = Except PyErr α`.  Methods that change
  an object return the object afterwards together with the outcome, so what a failed call leaves behind
  is part of the model (`Value`, `Polyline`, `CompositeTransform`, `CoordinateManager`).
* Where Python 2 and Python 3 differ (tox.ini names both) the model takes a `PyVer`.  Where numpy
  versions differ (`gradient`, out-of-range boolean indices) the model takes the version as a parameter.
* What the language leaves open is a parameter over which the theorems quantify: the element `set.pop` removes, the
  iteration order of a dict.
* Outside routines are parameters.  The contract assumed of them is a hypothesis of the theorem, and a
  theorem or example shows that some function meets the contract.
* Layout: `Base` (Python vocabulary, numbers, vectors, dicts), `Model` (the code), `Spec` (independent
  specifications, not mentioning the models), `Proofs` (lemmas), `Props` (property theorems, named by property
  id, with examples that meet their hypotheses), `Tests` (see next).
* `Tests` runs the models in IEEE doubles on the inputs of the repository's own test files and compares with what those
  files expect (`#guard`, which fails the build otherwise).  This checks the models against the authors' idea of the
  code; it proves nothing and no theorem depends on it.  Not reproduced: `test_cholmod.py` and `test_fit_from_points`,
  which need CHOLMOD, a pickle file and random numbers.

## 4. What is modelled

| source | model | properties | remarks |
|--------|-------|------------|---------|
| units.py | Units | C01–C05, C82, C106, C108, C137 | all of it; unit factors as the rationals written in the source |
| value.py | Value, ValueText, ValueOther | C06–C10, C78, C88, C90, C91, C104 | both Python versions; text as lists of characters |
| util/json.py | Json | C11 | trees, not text; simplejson's text layer is trusted; `float` of strings and arrays, and whether `np.array` and `coo_matrix` raise, are parameters |
| console.py | Console | C69 | plumbum's `prompt` as documented |
| numerics/rounding.py, operations.py, coercion.py, predicates.py, numpy_ext.py | Units, Numerics | C12–C15, C68, C70, C86, C108 | numpy's choice of element type for lists, tuples and tables is part of the model of `isnumeric`; signalling Decimal NaNs are left out; the in-place shape assignment of numpy is a parameter |
| numerics/vector_shortcuts.py | Vx | C16–C20, C71, C80, C87, C106, C107, C110, C116, C125, C126 | |
| numerics/matlab.py | Matlab | C67 | arrays of rank 2; `csc_matrix` by its documented rules |
| numerics/linalg/gram_schmidt.py | GramSchmidt, IntArrays | C60, C79, C113, C116 | arrays of floats; arrays of integers in IntArrays, without overflow |
| numerics/linalg/isomorphism.py | Isomorphism, Lapack | C61, C151, C153 | `det` and `inv` are parameters in Isomorphism, and the elimination of reference LAPACK in Lapack |
| numerics/linalg/static_block_sparse_matrix.py | BlockSparse, ConjGrad | C62, C93 | a sparse matrix is its list of entries, repeated places adding up; masks have the right length; a 1-d boolean-mask assignment of a 2-d array raises, as in numpy |
| numerics/linalg/sparse_cg.py | SparseCg, CgSolve | C73, C94, C155 | `factorized` and `inv` are parameters; `cg` is the preconditioned conjugate gradient iteration of scipy with its stopping test as a parameter |
| numerics/linalg/lchol.py, cholmod.c | Lchol, LcholMemory | C63, C98 | CHOLMOD is a parameter; references, blocks and buffer sizes in LcholMemory, where `shape` is a pair and the final tuple can be made |
| geometry/primitives/plane.py | Plane, FitPlane, EdgeMap, EulerPath, MeshSlice, MeshSections, PlaneMemory | C21–C32, C80, C81, C86, C95, C100–C102, C106, C107, C115–C117, C120–C122, C125–C127, C129, C131–C133, C135–C140, C144, C147–C149, C157 | `cKDTree` distances are exact nearest distances; `eig` and `argsort` are parameters |
| geometry/primitives/box.py | Box, PlaneMemory | C33, C84, C95, C125 | sharing of arrays in PlaneMemory, for float arrays |
| geometry/primitives/polyline.py, util/decorators.py | Polyline, PolylineText, PolylineMemory, PolylineAttrs, Wrappers | C34–C40, C83, C89, C92, C99, C103, C105–C107, C114, C115, C117, C123–C126, C129, C130, C137, C141, C147–C149 | a state machine; memory for any number of parts; class `Lines` of lace keeps what it is given; sharing of arrays in PolylineMemory, where other polyline models see values only; PolylineAttrs covers attributes of any name and values of any type that cannot be called |
| geometry/segment.py | Segment, LineSolve | C41–C43, C86, C109, C125, C126, C150 | `np.linalg.solve` for 2×2 is Cramer's rule in Segment, and the elimination of reference LAPACK in LineSolve; `partition*` in any dimension |
| geometry/apex.py | Apex | C44, C72, C112, C115, C125, C126 | `np.gradient` before and after numpy 1.13 |
| geometry/barycentric.py, surface_normals.py | Triangle, IntArrays | C45, C46, C79, C84, C100, C116, C125, C126, C142 | arrays of integers for the edges in IntArrays, without overflow |
| geometry/shapes.py | Shapes | C47, C121, C132–C135, C142 | `quads_to_tris` (from lace) is any choice of a diagonal for each quad |
| geometry/convexify.py | Convexify | C57, C128, C131, C133, C136, C154 | hull, inverse, PCA and `cv2.Rodrigues` are parameters |
| geometry/transform/translation.py, rotation.py | Rotation | C48–C50, C56, C111, C116, C119 | arrays of rows of three numbers; `estimate_normal`'s PCA is a parameter |
| geometry/transform/rodrigues.py | Rodrigues, RodriguesJac, Wrappers | C51, C52, C74–C77, C85, C114 | `svd` and `cv2.Rodrigues` are parameters; when chumpy calls the methods of class `Rodrigues` is left out |
| geometry/transform/correspondence.py | Wrappers | C114 | the two classes of the closed-source package are parameters, evaluated when their value is asked for |
| geometry/transform/composite.py | Composite, CompositeMemory | C53, C54, C96, C97, C137, C152 | shapes of 4×4 arguments are not checked by the code and taken as right; `inv` is a parameter; sharing of arrays in CompositeMemory |
| geometry/transform/coordinate_manager.py | CoordinateManager | C55, C137, C143, C152 | names that are the manager's own attributes are treated separately |
| geometry/transform/rigid_transform.py | RigidTransform | C58, C59, C118, C145, C156, C158 | 2-d arrays, `visualize=False`; `svd` is a parameter |
| optimization/objectives/normals.py | Normals | C64–C66, C142, C146 | chumpy is left out except for its call of `on_changed`; `wrt is self.a` is object identity; powers of sums of squares are written with the square root; indices are unbounded integers; meshes have a face |

## 5. How the properties are proved

* Units and values: a specification `quantity` assigns each (number, unit) a physical quantity from an
  independently written table; conversions and operators are shown to respect it.  C09, C10: induction over programs.
* JSON (C11): mutual induction over trees.
* Vector and plane geometry: algebra in ℝ³ against inner products, distances and closest points.
* Mesh slicing (C28–C31): the edge map refines a finite map; the graph is a multiset of edges; Hierholzer's loop is
  verified by an invariant on the edges removed, for all choices of `set.pop` and all dict orders.
* Plane fit and rigid fits (C32, C58, C59): variational arguments (Rayleigh quotient; trace inequality) with the
  decompositions as parameters.
* Polyline (C34–C40): invariants over all histories of mutators, list induction.
* Transforms (C53–C55): induction over histories, calls that raise included.
* Derivatives (C64–C66, C75, C76): the Jacobian returned by the code is shown to be the Fréchet derivative of the modelled map.
* C74: power series of the matrix exponential.
* C93, C94: residuals are orthogonal and directions conjugate, by induction over the steps; a count of dimensions bounds their number.
* C95, C96: as C92, with invariants for who knows the arrays of a plane or a transform.
* C92: the heap of arrays is refined by the states of C34–C40 at every step of a program; ownership invariants for independence.
* C99: an invariant of object dictionaries over all histories, and a simulation of the record model.
* C98: the C code is run symbolically to a closed form of its outcome, from which the rest follows by cases.
* C80–C87, C97, C100–C105, C108–C113, C119: a product of `k` factors each within `1 ± u` of 1, or the inverse of such, is within `gam u k` of 1 (`Verif/Proofs/Near.lean`). C113 and C119 use sums in which every term carries its own such factor (`Verif/Proofs/Appr.lean`).
* C120 (NaN): the laws of IEEE NaN are a structure (`Spec.NotANumber`), shown to hold for the NaN of `Fl` and of the doubles;
  the theorems follow from the laws.
* C121 (slicing solids): heights of opposite corners of a parallelogram have equal sums, so signs do not alternate around it; a kernel
  computation over all patterns of signs of the corners without alternation shows that the crossed edges are connected; C31 does the rest.
* C124 (resampling): `Spec.AddPoint` puts one point on one segment, `Spec.Finer` repeats it; each operation is compared for one added point (for a closed cut by the place of the new point in the circle of vertices in front and behind) and the results compose; `partition_by_length` is a sequence of added points.
* C125 (change of unit): each function is run symbolically over an arithmetic with a unit for every number (`Spec.Rescaling`); the laws are then proved for the exact, special and rounded numbers.  `line_intersect` is left out, since its solver is a contract of exact arithmetic.
* C126 (mirror images): as C125, for moves that the arithmetic follows exactly (`Proofs.MI.Exact`); the four reflections are such moves whenever the laws `Spec.Signs` hold, and compositions are too.  `F64` is left out because of the sign of zero.
* C127 (cross-section = intersection): the faces are taken with their boundary and the segments with their ends, so neighbouring segments share a point.  A face listed twice gives one segment only, hence the hypothesis that no two faces have the same corners.  Vertices on the plane are left out (C31 and C122 say what happens then).
* C128 (tape measure): lengths are Euclidean lengths in space of the exact-arithmetic model; the hull routine is the parameter of C57 with its contract (`HullSpec`).  Nothing is said about rounded arithmetic here.  The proof removes one corner at a time and compares the detours; no integral geometry.
* C129 (section in rounded arithmetic): no overflow or underflow (the arithmetic is `Rd`).  `s` is the least slope of a crossed edge; without such a bound a small error in height can move the point far along the edge, so the bound has to depend on it.  The lengths of the polylines are added exactly in the statement (`ls.map Rd.val`), each of them is computed with rounding.  The constants 9 and 109 are not best possible.
* C130 (cutting more than once): exact arithmetic; the two ValueErrors caused by an edge in the plane are stated in the arithmetic with NaN (`Fl`), where 0/0 is what it is in numpy.  The order theorems exclude vertices on either plane.
* C131 (sections of convex meshes): exact arithmetic.  `ConvexMesh` asks for all other vertices to be strictly behind the plane of each face, so a cube made of triangles (coplanar neighbours) is not covered (C132 is for those); nor are vertices on the cutting plane.  The section is said to be empty if no edge crosses; that this means all vertices on one side is C135.
* C132 (convex solids with flat sides): exact arithmetic, no vertex on the plane.  A chord leads from the edge of its face that goes down through the plane to the one that goes up, so the direction is kept from face to face and the solid stays on one side; a point of it that were not in the hull of the loop could be separated from it, and the turns seen from there would not close up.  A single polyline is claimed only for the solids of shapes.py (through C121): the hypotheses allow a doubled surface.
* C133 (length of a section): exact arithmetic, no vertex on the plane.  The vertices of the polyline that lie on a straight side of the outline are left out one by one without changing the length; what remains is a convex polygon.  `Outline` (Spec/ConvexMesh) says what that polygon is without mention of the mesh's faces.  That different edges are met in different points (`CrossingsApart`) is a hypothesis of the general theorem, proved for the solids of shapes.py.
* C134 (shapes in rounded arithmetic): in `Rd`, so without overflow and underflow.  The rectangular prism is treated exactly (`storedSize` is the size it really has); the corners of the triangular prism are bounded, its volume is not.
* C135 (which planes meet a convex solid): exact arithmetic, no vertex on the plane.  Convexity is the hypothesis `OutwardMesh` (or `ClosedMesh` and `ConvexMesh`), not something computed; one loop is stated where edges are met in different points, because a convex surface may be covered twice by faces that share no edge.
* C136 (order of girths): exact arithmetic, no vertex on the plane.  Proved by mapping the outer polygon to the nearest points of the inner one, which shortens it.  For `convexify_planar_curve` both hulls are assumed to have at least three corners (scipy raises an error for flat input).
* C137 (lengths after transforms): exact arithmetic.  An explicit matrix is taken together with the factor by which it multiplies distances; matrices without one (stretching, shearing) are outside, and `C137_stretch` shows why.  For `rotate` with a matrix, whether the call raises is read off the model of `as_rotation_matrix`.
* C138 (slicing through vertices): exact arithmetic.  The comment in the code says exactly two edges of a selected face meet the plane; with a corner on the plane it can be three, and the branch taken then keeps the two edges at the corner listed first.  A polyline is marked as open only if its ends differ; which ones are closed is not stated further, and a closed mesh may give open ones (C139_witness).
* C139 (a convex solid cut through its vertices): exact arithmetic, no face in the plane.  The hull of the returned points is claimed, not their order: with an edge in the plane that edge is traced by both its faces, so that neither the number of polylines nor their lengths are those of the outline (C139_witness).
* C140 (where open polylines end): exact arithmetic, no face in the plane.  The converse (every crossed border edge is an end) is claimed for planes off the vertices that cross different edges in different points; two coinciding crossings can make a path between them count as closed, because closedness is decided by comparing points (plane.py:402-409).
* C141 (cutting convex outlines): exact arithmetic.  The polygon has at least three corners, in one plane, none in line with two others; the cutting plane is any plane, its normal need not be of length one (except for `flipped`).
* C142 (closed surfaces): exact arithmetic.  Watertight means: no directed edge twice, no edge from a vertex to itself, the reverse of each edge present (Spec/Surface).  The enclosed volume is the signed sum of the tetrahedra over the origin.  C142_supporting does not need the surface closed.
* C143 (coordinate frames): rounding without limits on the exponent.  `np.linalg.inv` is any function that keeps the last row (0, 0, 0, 1) of its argument; the bounds are against the stored inverses, and how far those are from inverses is not part of the claim except for translations.
* C144 (fitted planes of moved points): exact reals; the routines for eigenvectors and sorting are any correct ones, as in C32.  Where the best plane is not the only one, the fitted planes of moved or reordered points need not be images of each other; only the least sum and the centroid are then determined.
* C145 (uniqueness of rigid fits): exact reals, any correct SVD.  The set of best rotations is described in every case.
* C146 (normals of mapped and relisted meshes): exact reals; for the vertex normals without `normalized`, reals with NaN.  A single factor for the signs of all faces is needed for vertex normals: with only some faces listed the other way round they change in no simple way.
* C147 (section, then cut): exact arithmetic, convex meshes as in C131.  The solid is the convex hull of the vertices.  Boxes and prisms, whose sections have corners in line, are not covered.
* C148 (points kept by a cut): exact arithmetic.  A single segment lying in the plane is excluded (C39: ValueError on doubles, where the crossing is NaN).
* C149 (points kept by a cut, rounded): arithmetic with relative error `u` and no overflow or underflow (`Rd rnd`).  Vertices of the polyline must be stored numbers at least `100·u·M` away from the plane.  In `C149_sections` that is asked of the exact crossings only; for the computed vertices it is proved.
* C150 (line_intersect and LAPACK): `gesv2` follows `dgetf2` and `dgetrs` of reference LAPACK for a 2×2 matrix.  A library that fuses a product and a sum (OpenBLAS on some processors) rounds less often: the bounds of C150_lines and C150_close are proved for the unfused order only, and C150_missed need not happen there.  `C150_double` is about `F64`, with overflow and underflow.  `C150_exact` makes the Cramer's rule of C42 a theorem about elimination.
* C151 (LAPACK for n×n): `gesv` eliminates one column at a time and recurses on the rest; blocked `getrf` does the same operations on each entry in the same order, as long as the matrix product inside adds in order and rounds each product and sum.  `np.linalg.inv` is `gesv` with the identity (numpy does this); `scipy.linalg.inv` uses `getri` and is not modelled.  `detLu` multiplies the pivots; newer numpy adds their logarithms, which changes the last digits, and where a result underflows, but not whether a pivot is zero.  Roundings without limits on the exponent in C151_residual and C151_singular.  The contracts `DetSpec`, `InvSpecAny`, `InvSpec` and those of convexify are met by this elimination, in exact arithmetic.
* C152 (computed inverses): roundings without limits on the exponent, reference LAPACK order.  The sizes E and X enter as bounds on entries, so E X is (up to a factor of 4) a condition number; forward then reverse needs a left inverse, and passing from the right inverse to it costs a second factor E X in the proof.  C97 and C143 themselves keep their hypothesis about `inv`; C152_point and C152_move discharge it.
* C153 (isomorphism, rounded): square frames only; roundings without limits on the exponent, reference LAPACK order.  `isomorphism` only asks whether the determinants are zero, so the logarithms of newer numpy make no difference under these roundings.  The size X of the computed inverse is a hypothesis of the bound.  C153_underflow is about `detLu`, the product of pivots; in newer numpy `exp` of the sum of logarithms, about -832, would have to underflow, which is not modelled.
* C154 (hulls exist): over the reals.  The corners are a minimal subset with the same convex hull, sorted by their direction as seen from the leftmost one; qhull itself is not modelled.  qhull raises for points in line, which is why C154_convexify asks for an answer only for other points.
* C155 (least squares): exact arithmetic; elimination stands for `scipy.linalg.inv` (which uses `getri`) and for the sparse LU of `factorized`, whose results are the same over the reals.  An empty dense corner has an empty inverse here; versions of scipy that raise for empty arrays are C94_no_active.  How rounding disturbs conjugate gradients is not treated.
* C156 (nearly right decompositions): the routine returns exactly orthogonal matrices and the exact decomposition of a nearby matrix; all else is exact.  The difference may also stand for the rounding of the cross-covariance matrix.  The computed factors are orthogonal only up to rounding in reality; that, and the rounding of the product `v u^T`, is not treated.  Found: `find_rigid_transform` may raise ValueError for flat point sets that moved rigidly (C156_flat), because rigid_transform.py:36 asks for a singular value that is exactly zero.
* C157 (nearly right eigenvectors): the eigenvectors are exactly orthonormal and those of a nearby symmetric matrix; `np.linalg.eig`, which does not use symmetry, may return vectors that are not orthogonal when eigenvalues are nearly equal (compare C32).
* C158 (rigid fits with errors): the errors are arbitrary and not random; the bound is in terms of their sum of squares, and nothing is said about averages. The arithmetic is exact apart from the decomposition, which is within `δ` as in C156.
* C123 (limits of `partition_by_length`): the computed lengths of finite segments are never negative or NaN; cases over the kinds of doubles.
* C122 (repeated corners): the Euler path of C30 again, for graphs with loops, with a loop counted twice in the degree.
* C104 (order in doubles): half-unit gaps on either side of a double, and the product of the two rounded factors for every pair of
  units of a kind, computed exactly over the rationals by the kernel (`Verif/Proofs/RoundEval.lean`: `rndQ` is proved equal to `rnd53`).

## 6. Findings

Places where the code does not do what its documentation, its names or an obvious contract says.  In each case the
property states what is true, and the theorem named is the witness or the exact characterisation.

* units: `factor` does not check equal names: unknown units and units of the wrong class get through (C02_equal_unchecked, C02_equal_unknown).
* value: the `units` setter checks nothing (C09_setter); `prettified` is cached and goes stale (C10_stale); on Python 3 it always raises TypeError (C10_python3),
  and zero is true (C78_truth); on Python 2 `round` loses the units (C88_round); small quantities are written as zero (C88_vanishes); Values have items but cannot be iterated or unpacked (C78_iteration, C78_unpack);
  `v == None` raises (C90_none); text operands recurse without end on Python 3 (C90_text_python3) and compare as numbers (C90_text_compare); a Value wrapped in a Value loses its units (C90_constructor, C90_rewrapped);
  `//` by a number depends on the units the quantity is written in (C08_floor_number_units); in doubles equality across units is neither symmetric nor
  transitive (C104_asymmetric, C104_intransitive). A Value labelled with the empty text can be added to a unitless one but not the
  other way round (C09_empty_label).
* rounding: with the increment 10^-5 (also 10^-9, 10^-15) `round_to` and `prettify` give numbers like 0.000030000000000000004, which the
  reciprocal was meant to avoid (C108_broken, C108_increments).
* json: a plain dict with a reserved key is reinterpreted (C11_reserved_key).
* predicates: Decimal zero, Decimal infinities, Decimal NaN, mixed bools, order of zeros in object arrays (C68_decimal, C68_mixed_bool, C68_object_array).
* coercion: a 3×n array is silently transposed where n×3 is wanted (C15_n_by_3).
* operations: `zero_safe_divide` of two scalars raises TypeError (C14_errors); `scale_to_range` of a constant array is all NaN (C13_constant),
  and the maximum may come out above `r_max` (C86_range_exceeded).
* plane: a face with a repeated corner doubles a vertex of the section, and in an open mesh makes the polyline jump (C122_strip_jumps);
  three points of a small but proper triangle are rejected as collinear (C21_small_triangle_rejected), and which are depends on how they are turned (C115_limits);
  with more than two odd vertices the Euler path is not a walk (C30_star_not_a_walk); a plane through a vertex that a face lists first loses the cut through
  that face (C138_witness, for the library's cube C139_cube, a corner of the section lost altogether C139_lost; exactly what is lost: C138_segments), contrary to the comment at plane.py:381-384; a face in the plane makes slicing fail
  (C31_in_plane_face; exactly when: C31_fails_iff); `fit_from_points` can raise if eigenvectors of equal eigenvalues are not orthogonal (C32_fit);
  in doubles a segment crossing the plane may be found not to meet it (C86_crossing_missed); with a single ray the mask of `line_xsections`
  has one entry for many points (C27_single), and `line_segment_xsections` cannot take a single segment end with many others (C27_segments_shapes);
  the caller's array for the point is shared, also with the flipped plane (C95_shared), and `normal` may be written into (C95_normal_broken).
  The constructor accepts NaN and infinities in the normal and the point; the plane is then blind: nothing is in front of it or
  behind it, yet it meets every edge, in NaN points (C120_plane_accepted, C120_blind).
  A proper triangle may have a zero normal in doubles, and be rejected (C100_lost). A segment of doubles whose ends are strictly on opposite
  sides of a plane may be missed (C101_missed), and then `mesh_xsections` raises, though no vertex is on the plane (C102_raises);
  `cut_by_plane` of a closed polyline then leaves out the crossing point without notice (C103_lost). In doubles `partition_by_length` can leave a segment
  longer than the limit (C105_exceeded) and adds vertices when applied again (C105_again);
  very long segments raise OverflowError and very short ones are left whole, since squares leave the range (C123_long, C123_short).
* `partition_by_length` can put a vertex on a plane that crosses the inside of a segment; `cut_by_plane`, which worked before, then
  raises ValueError (C124_vertex_on_plane).
* `Plane.from_points` rejects small triangles, since its tolerance is absolute; everything else in C125 works alike at all scales (C125_not_from_points).
* sums of three products depend on the order: exchanging the y and z axes can change which point `apex` returns (C126_not_yz).
* box: the `mid_` attributes are rounded down for integer shapes in Python 2 (C33_mid_python2); the shape is shared with the caller and may become negative (C95_box_negative).
* polyline: a failed assignment can leave edges of earlier vertices behind (C34_hollow); the mapping returned by `reindexed` goes the other way than
  the docstring says (C37_docstring_violation), is too long for negative indices, and indices out of range are not rejected (C37_negative, C37_beyond); an edge in the plane gives NaN when cut (C39_in_plane); a closed polyline touching
  the plane in one vertex dies with IndexError (C40_touching); a convex outline cannot be cut through one of its corners (C141_error, C141_witness); the caller's array is shared, and `flip` leaves a view of it (C92_shared, C92_flip); NaN written
  into it later passes unnoticed until `copy` or `flip` raises (C92_unchecked); `hasattr(Polyline, 'v')` is False (C99_class); an array given as
  `closed` is kept though the assignment raises, with stale edges from then on (C99_no_truth); `bool(p)` raises without vertices (C99_bool).
* segment: `line_intersect3` returns None for lines meeting at `p0`, and a point for skew lines (C43_none_at_p0, C43_skew_point); in doubles it
  often returns the mirror image of the intersection in `p0`, since unit vectors are compared for equality (C109_side, C109_wrong);
  repeated points give NaN rows in `partition` (C41_repeated_nan); the last sample may miss the second point (C86_last_sample);
  `line_intersect` does not notice every pair of parallel lines, not even opposite sides of a parallelogram with integer corners (C150_missed).  `isomorphism` does not notice every dependent frame (C151_missed), and takes frames of very short orthogonal vectors for dependent ones (C153_underflow).
* gram_schmidt: in doubles orthogonality can be lost altogether; rows 2 and 3 of `orthonormalize` of (1,e,e), (1,e,0), (1,0,e), e = 2^-27, have inner product above 7/10 (C113_lost).
* apex: a point with NaN in it is the farthest from everything (C120_apex); with numpy ≥ 1.13 `inflection_points` takes the spacings for coordinates and finds peaks and valleys instead (C72_even, C72_cubic).
* arrays of integers: on Python 2 `orthogonalize` floors its quotients (C79_py2_not_orthogonal); `orthonormalize` raises (C79_py2_unit, C79_py3_single);
  stacked barycentric coordinates are NaN for collinear edges (C79_bary_degenerate).
* linalg: `conjGradSolve` and `linOp` always raise (C93_never_returns); the algorithm in it gives NaN when started at the solution (C93_exact_start);
  zeros stored in a column of zeros make `block_sparse_cg_solve` raise (C94_stored_zeros), which also inverts an empty matrix if no column is dense (C94_no_active).
* cholmod.c: no null pointer is checked for, so matrices that are not square and lack of memory are undefined behaviour (C98_unchecked);
  only the index arrays are converted, so single precision data are read beyond the end of the buffer (C98_narrow) and integers are taken
  for doubles bit by bit (C98_bits); a call without argument leaks the workspace (C98_leak).
* rotation: collinear `up` and `look` are found by comparing a rounded length with zero; most of them are accepted, and the result is no rotation,
  even for equal vectors (C111_collinear).  With degrees, `euler` never gives an exact quarter or half turn (C119_never_exact).
* vector_shortcuts: `angle` is 0 for vectors that are nearly parallel (C87_lost); vectors longer than 2^512 normalise to zero, silently
  (C107_overflow), and `Plane` accepts them as normals (C107_plane).
* rigid_transform: for flat point sets an SVD that is right up to rounding may make `find_rigid_transform` raise ValueError, even if the points
  did not move, because the code asks for a singular value that is exactly zero (C156_flat).
* shapes: `create_horizontal_plane` without the flag fails (C47_horizontal).
* rotation: `rotate_to_xz_plane` rejects a normal given as an array, and is inexact near the y axis (C56_errors, C56_near_witness);
  `rodrigues` loses small angles and is inexact near half turns, by up to 1/100 in an entry and no more (C52_loss_witness, C52_near_half_turn, C52_near_large, C52_always); its Jacobian at half turns
  is 0, which is not the derivative (C76_half_turn_wrong); matrices with negative determinant are taken for rotations
  (C77_reflection, C77_negative), a point reflection gives NaN (C77_point_reflection), singular ones depend on the SVD (C77_singular_ambiguous).
* composite: matrices given and matrices of single transforms are shared, so assignments can break the inverse (C96_shared, C96_reverse_broken); in doubles, translating by 2^60 and back turns 1 into 0 (C97_lost); the round trip is exact only when the sum is representable;
  a projective matrix is accepted and the application then raises (C53_projective_witness); a NaN factor passes the check
  of `scale` (C54_nan_scale); the error message for a wrong shape is itself a TypeError (C54_rejected).
* coordinate manager: tags named like attributes are shadowed (C55_shadowed); a mesh without vertices is returned as it is (C55_no_vertices).
* convexify: small polylines are returned without the indices asked for (C57_small); array normals raise (C57_flatten_array).
* rigid fits: 3×3 input is read by columns (C58_square); reflections raise instead of being corrected (C58_optimal), which for points
  near a plane a displacement of any size can bring about (C118_fragile);
  a single pair with `allow_scaling` is scaled wrongly (C59_scaling_violation).
* linalg: dependent rows give NaN (C60_dependent); `isomorphism` is not the operator its docstring promises (C61_not_the_operator);
  `matvec` raises in most cases (C62_matvec, C62_matvec_flat); `lchol` raises for matrices that are not positive definite, and its flag is
  never nonzero (C63_not_posdef, C63_flag).
* normals: no derivative at zero rows (C64_zero_row); wrong Jacobian if both factors are the same object (C65_same_object);
  changing `normalized` alone is ignored (C66_normalized_ignored, C66_normalized_stale).
* matlab: `bsxfun` of a column and a row raises because of a misplaced parenthesis (C67_column_row).

## 7. Axioms of the theorems in MANIFEST.json (printed by `#print axioms`)

* none: C22_stack, C34_determined, C114_no_vertices, C114_correspondence
* `propext`: C14_errors, C34_rejected, C37_flip_none, C37_open, C44_empty, C46_stack, C67_other, C99_class, C99_bool
* `propext`, `Quot.sound`: C14_never_bad, C14_elements, C16_stack, C17_errors, C19_shapes, C20_keep, C20_squash, C20_stack_any, C24_agree, C27_single, C27_segments_shapes, C27_any_arithmetic, C41_errors, C41_partition_empty, C47_tri_watertight, C48_given, C67_same_shape, C67_single, C70_reshape, C72_short, C93_never_returns, C99_delete, C99_closed, C99_vertices, C99_read_only, C99_ordinary, C99_no_truth, C99_hidden, C114_other_term, C114_failure, C114_array, C120_blind, C120_polyline_blind, C120_vectors, C120_scale, C125_vectors, C125_widths, C125_angle, C125_front, C125_crossings, C125_length, C125_partition_by_length, C125_intersect_plane, C125_cut_by_plane, C125_partition, C125_line_intersect3, C125_apex, C125_surface_normal, C125_box, C126_vectors, C126_angle, C126_plane, C126_front, C126_crossings, C126_length, C126_partition_by_length, C126_intersect_plane, C126_cut_by_plane, C126_partition, C126_line_intersect3, C126_apex, C126_surface_normal
* `propext`, `Classical.choice`, `Quot.sound`: the other 964 theorems.

## 8. Not modelled

* `main()` functions, viewers, `visualize=` branches, `__repr__` and `__str__` other than those of Value and Polyline.
* Rounding errors other than in the theorems over `Rd` and `F64`; overflow and underflow other than in C106 and C107; memory, except for shared arrays (C92, C95, C96) and the C code (C98); running time.
* The remarks in section 4 name what is left out function by function.

## 9. Mutation tests

`seeded/LOG.jsonl` has one line per attempt: a realistic bug put into a copy of a model, the claim it breaks, and the
theorems that stopped proving.  Where a mutant survived, the theorems were tightened, which is noted in the line.
