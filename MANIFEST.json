{
 "claims": [
  {
   "property": "C01",
   "status": "proved",
   "theorems": [
    "Blmath.Props.C01_factor_coherent",
    "Blmath.Props.C01_known_units",
    "Blmath.Props.C01_raw",
    "Blmath.Props.C01_everyday",
    "Blmath.Props.C01_classes"
   ],
   "note": "Exact-real table; factor = ratio of independently specified unit sizes."
  },
  {
   "property": "C02",
   "status": "proved",
   "theorems": [
    "Blmath.Props.C02_class_checking",
    "Blmath.Props.C02_decision_table",
    "Blmath.Props.C02_decision",
    "Blmath.Props.C02_unitless",
    "Blmath.Props.C02_equal_unchecked",
    "Blmath.Props.C02_equal_unknown"
   ],
   "note": "Exact decision for all arguments (C02_decision). The documented contract fails for equal names; the two witnesses are C02_equal_unchecked and C02_equal_unknown."
  },
  {
   "property": "C03",
   "status": "proved",
   "theorems": [
    "Blmath.Props.C03_convert_returns_iff",
    "Blmath.Props.C03_convert_none",
    "Blmath.Props.C03_convert_quantity",
    "Blmath.Props.C03_convert_list"
   ],
   "note": "Exact reals."
  },
  {
   "property": "C04",
   "status": "proved",
   "theorems": [
    "Blmath.Props.C04_default_units",
    "Blmath.Props.C04_convert_to_system_default",
    "Blmath.Props.C04_edges",
    "Blmath.Props.C04_value"
   ],
   "note": "over the reals"
  },
  {
   "property": "C05",
   "status": "proved",
   "theorems": [
    "Blmath.Props.C05_prettify",
    "Blmath.Props.C05_prettify_none"
   ],
   "note": "Exact reals; both tie rules."
  },
  {
   "property": "C06",
   "status": "proved",
   "theorems": [
    "Blmath.Props.C06_add_sub",
    "Blmath.Props.C06_scalar",
    "Blmath.Props.C06_cross_kind",
    "Blmath.Props.C06_forbidden",
    "Blmath.Props.C06_iterables"
   ],
   "note": "Exact reals; includes nested iterables on either side."
  },
  {
   "property": "C07",
   "status": "proved",
   "theorems": [
    "Blmath.Props.C07_compare",
    "Blmath.Props.C07_total_preorder",
    "Blmath.Props.C07_edges"
   ],
   "note": "Exact reals."
  },
  {
   "property": "C08",
   "status": "proved",
   "theorems": [
    "Blmath.Props.C08_ratio",
    "Blmath.Props.C08_unit_invariant",
    "Blmath.Props.C08_floor_number",
    "Blmath.Props.C08_floor_number_units",
    "Blmath.Props.C08_floor_nonfinite",
    "Blmath.Props.C08_cross_kind"
   ],
   "note": "Exact reals."
  },
  {
   "property": "C09",
   "status": "proved",
   "theorems": [
    "Blmath.Props.C09_histories",
    "Blmath.Props.C09_no_setter",
    "Blmath.Props.C09_constructor",
    "Blmath.Props.C09_setter",
    "Blmath.Props.C09_value_setter",
    "Blmath.Props.C09_bad_label_contained",
    "Blmath.Props.C09_bad_label_values",
    "Blmath.Props.C09_empty_label",
    "Blmath.Props.C09_attributes"
   ],
   "note": "Programs of any length over constructions, conversions, arithmetic, value and unit assignments. The setter is the only source of bad labels (C09_setter is the witness)."
  },
  {
   "property": "C10",
   "status": "proved",
   "theorems": [
    "Blmath.Props.C10_prettified",
    "Blmath.Props.C10_stale",
    "Blmath.Props.C10_python3",
    "Blmath.Props.C10_fresh"
   ],
   "note": "Exact behaviour for both interpreters; the plain claim that prettified follows the value is false (C10_stale, C10_python3)."
  },
  {
   "property": "C11",
   "status": "proved",
   "theorems": [
    "Blmath.Props.C11_json_roundtrip",
    "Blmath.Props.C11_value_roundtrip",
    "Blmath.Props.C11_reserved_key",
    "Blmath.Props.C11_exactly",
    "Blmath.Props.C11_decoded_values_good",
    "Blmath.Props.C11_dumps",
    "Blmath.Props.C11_load_value"
   ],
   "note": "At the level of JSON trees; simplejson's text layer trusted."
  },
  {
   "property": "C12",
   "status": "proved",
   "theorems": [
    "Blmath.Props.C12_round_to",
    "Blmath.Props.C12_round_to_zero",
    "Blmath.Props.C12_round_to_laws",
    "Blmath.Props.C12_round_to_nonfinite",
    "Blmath.Props.C12_rounded_list",
    "Blmath.Props.C12_rounded_list_nonfinite"
   ],
   "note": "Exact reals; both tie rules; zero increment raises."
  },
  {
   "property": "C13",
   "status": "proved",
   "theorems": [
    "Blmath.Props.C13_scale_to_range",
    "Blmath.Props.C13_constant",
    "Blmath.Props.C13_empty"
   ],
   "note": "Any finite floats, NaN for constant arrays shown over floats with special values."
  },
  {
   "property": "C14",
   "status": "proved",
   "theorems": [
    "Blmath.Props.C14_never_bad",
    "Blmath.Props.C14_elements",
    "Blmath.Props.C14_finite",
    "Blmath.Props.C14_special",
    "Blmath.Props.C14_errors"
   ],
   "note": "Floats with NaN and infinities; C14_errors: two scalars raise TypeError."
  },
  {
   "property": "C15",
   "status": "proved",
   "theorems": [
    "Blmath.Props.C15_some",
    "Blmath.Props.C15_none",
    "Blmath.Props.C15_raises",
    "Blmath.Props.C15_n_by_3"
   ],
   "note": "Arrays of every rank."
  },
  {
   "property": "C16",
   "status": "proved",
   "theorems": [
    "Blmath.Props.C16_normalize",
    "Blmath.Props.C16_zero",
    "Blmath.Props.C16_stack",
    "Blmath.Props.C16_magnitude",
    "Blmath.Props.C16_bridge"
   ],
   "note": "Every dimension; zero vector over floats with special values."
  },
  {
   "property": "C17",
   "status": "proved",
   "theorems": [
    "Blmath.Props.C17_decompose",
    "Blmath.Props.C17_stack",
    "Blmath.Props.C17_errors",
    "Blmath.Props.C17_bridge"
   ],
   "note": "Every dimension, stacks included; exact reals."
  },
  {
   "property": "C18",
   "status": "proved",
   "theorems": [
    "Blmath.Props.C18_range",
    "Blmath.Props.C18_cos",
    "Blmath.Props.C18_symm_scale",
    "Blmath.Props.C18_parallel",
    "Blmath.Props.C18_orthogonal",
    "Blmath.Props.C18_signed",
    "Blmath.Props.C18_signed_swap",
    "Blmath.Props.C18_clip"
   ],
   "note": "Exact reals."
  },
  {
   "property": "C19",
   "status": "proved",
   "theorems": [
    "Blmath.Props.C19_roundtrip",
    "Blmath.Props.C19_unpad",
    "Blmath.Props.C19_shapes",
    "Blmath.Props.C19_apply",
    "Blmath.Props.C19_affine"
   ],
   "note": "Every number of rows; exact reals."
  },
  {
   "property": "C20",
   "status": "proved",
   "theorems": [
    "Blmath.Props.C20_keep",
    "Blmath.Props.C20_squash",
    "Blmath.Props.C20_is_rejection",
    "Blmath.Props.C20_stack_any",
    "Blmath.Props.C20_squash_columns",
    "Blmath.Props.C20_rank",
    "Blmath.Props.C20_stack"
   ],
   "note": "Any arithmetic."
  },
  {
   "property": "C21",
   "status": "proved",
   "theorems": [
    "Blmath.Props.C21_construct",
    "Blmath.Props.C21_from_points",
    "Blmath.Props.C21_from_points_and_vector",
    "Blmath.Props.C21_small_triangle_rejected"
   ],
   "note": "Exact reals, with the tolerances of the code; C21_small_triangle_rejected is the witness that small proper triangles are rejected."
  },
  {
   "property": "C22",
   "status": "proved",
   "theorems": [
    "Blmath.Props.C22_distance",
    "Blmath.Props.C22_side",
    "Blmath.Props.C22_equation",
    "Blmath.Props.C22_stack",
    "Blmath.Props.C22_flipped",
    "Blmath.Props.C22_canonical"
   ],
   "note": "Exact reals; stacks in any arithmetic."
  },
  {
   "property": "C23",
   "status": "proved",
   "theorems": [
    "Blmath.Props.C23_project"
   ],
   "note": "Exact reals."
  },
  {
   "property": "C24",
   "status": "proved",
   "theorems": [
    "Blmath.Props.C24_points",
    "Blmath.Props.C24_indices",
    "Blmath.Props.C24_agree",
    "Blmath.Props.C24_halves",
    "Blmath.Props.C24_flip"
   ],
   "note": "Exact reals; indices and points agree in any arithmetic."
  },
  {
   "property": "C25",
   "status": "proved",
   "theorems": [
    "Blmath.Props.C25_line"
   ],
   "note": "Exact reals."
  },
  {
   "property": "C26",
   "status": "proved",
   "theorems": [
    "Blmath.Props.C26_segment",
    "Blmath.Props.C26_sides"
   ],
   "note": "Exact reals."
  },
  {
   "property": "C27",
   "status": "proved",
   "theorems": [
    "Blmath.Props.C27_lines",
    "Blmath.Props.C27_segments",
    "Blmath.Props.C27_single",
    "Blmath.Props.C27_segments_shapes",
    "Blmath.Props.C27_any_arithmetic"
   ],
   "note": "Floats with special values; agreement also in any arithmetic; stacks of different lengths in C27_single and C27_segments_shapes."
  },
  {
   "property": "C28",
   "status": "proved",
   "theorems": [
    "Blmath.Props.C28_faces"
   ],
   "note": "Exact reals; any mesh."
  },
  {
   "property": "C29",
   "status": "proved",
   "theorems": [
    "Blmath.Props.C29_get",
    "Blmath.Props.C29_contains",
    "Blmath.Props.C29_index",
    "Blmath.Props.C29_symmetric"
   ],
   "note": "Mesh-edge maps, for any sequence of additions."
  },
  {
   "property": "C30",
   "status": "proved",
   "theorems": [
    "Blmath.Props.C30_build",
    "Blmath.Props.C30_any",
    "Blmath.Props.C30_even",
    "Blmath.Props.C30_two_odd",
    "Blmath.Props.C30_refuse",
    "Blmath.Props.C30_star_not_a_walk"
   ],
   "note": "All choices of set.pop and all dict orders. Self-loops (which add_edge accepts) are outside the hypotheses. C30_star_not_a_walk shows that with four odd vertices the returned list is not a walk."
  },
  {
   "property": "C31",
   "status": "proved",
   "theorems": [
    "Blmath.Props.C31_manifold",
    "Blmath.Props.C31_any_mesh",
    "Blmath.Props.C31_empty",
    "Blmath.Props.C31_fails_iff",
    "Blmath.Props.C31_in_plane_face",
    "Blmath.Props.C31_neighborhood",
    "Blmath.Props.C31_single"
   ],
   "note": "All meshes with three different, in-range corners per face, all set.pop choices and dict orders. C31_manifold additionally needs: no vertex on the plane, at most two faces per edge, and either a closed mesh or pairwise different crossing points; C31_any_mesh and C31_fails_iff drop those. KD-tree distances are modelled as exact nearest distances."
  },
  {
   "property": "C32",
   "status": "proved",
   "theorems": [
    "Blmath.Props.C32_fit",
    "Blmath.Props.C32_planar",
    "Blmath.Props.C32_few",
    "Blmath.Props.C32_satisfiable"
   ],
   "note": "np.linalg.eig and np.argsort are parameters with contracts (eigenvectors unit and independent, orthogonality not assumed); C32_satisfiable shows the contracts can be met."
  },
  {
   "property": "C33",
   "status": "proved",
   "theorems": [
    "Blmath.Props.C33_construct",
    "Blmath.Props.C33_ranges",
    "Blmath.Props.C33_center",
    "Blmath.Props.C33_mid",
    "Blmath.Props.C33_mid_inside",
    "Blmath.Props.C33_mid_python2",
    "Blmath.Props.C33_mid_rounded",
    "Blmath.Props.C33_measure"
   ],
   "note": "Includes the exact Python 2 behaviour of the mid attributes for integer shapes (C33_mid_python2)."
  },
  {
   "property": "C34",
   "status": "proved",
   "theorems": [
    "Blmath.Props.C34_step",
    "Blmath.Props.C34_history",
    "Blmath.Props.C34_no_failure",
    "Blmath.Props.C34_determined",
    "Blmath.Props.C34_hollow",
    "Blmath.Props.C34_assign",
    "Blmath.Props.C34_transposed",
    "Blmath.Props.C34_rejected",
    "Blmath.Props.C34_copy",
    "Blmath.Props.C34_default_open",
    "Blmath.Props.C34_without_vertices"
   ],
   "note": "Invariant over all histories of all mutators, for any arithmetic; the exceptional state is characterised and C34_hollow shows it occurs."
  },
  {
   "property": "C35",
   "status": "proved",
   "theorems": [
    "Blmath.Props.C35_lengths",
    "Blmath.Props.C35_vectors",
    "Blmath.Props.C35_none",
    "Blmath.Props.C35_at_least",
    "Blmath.Props.C35_flip",
    "Blmath.Props.C35_reindexed",
    "Blmath.Props.C36_total"
   ],
   "note": "Exact real arithmetic. Partition invariance is C36_total."
  },
  {
   "property": "C36",
   "status": "proved",
   "theorems": [
    "Blmath.Props.C36_fewest",
    "Blmath.Props.C36_partition",
    "Blmath.Props.C36_segments",
    "Blmath.Props.C36_no_longer",
    "Blmath.Props.C36_total",
    "Blmath.Props.C36_indices",
    "Blmath.Props.C36_nothing_to_do",
    "Blmath.Props.C36_idempotent"
   ],
   "note": "Exact real arithmetic."
  },
  {
   "property": "C37",
   "status": "proved",
   "theorems": [
    "Blmath.Props.C37_flip",
    "Blmath.Props.C37_flip_flip",
    "Blmath.Props.C37_flip_none",
    "Blmath.Props.C37_reindexed",
    "Blmath.Props.C37_first",
    "Blmath.Props.C37_compose",
    "Blmath.Props.C37_mapping",
    "Blmath.Props.C37_open",
    "Blmath.Props.C37_docstring_violation",
    "Blmath.Props.C37_negative",
    "Blmath.Props.C37_beyond"
   ],
   "note": "Exact real arithmetic; the docstring on the direction of the mapping is refuted by C37_docstring_violation; negative and too large indices in C37_negative and C37_beyond."
  },
  {
   "property": "C38",
   "status": "proved",
   "theorems": [
    "Blmath.Props.C38_intersect",
    "Blmath.Props.C38_none"
   ],
   "note": "Finite coordinates in float arithmetic without rounding (NaN rows included)."
  },
  {
   "property": "C39",
   "status": "proved",
   "theorems": [
    "Blmath.Props.C39_cut",
    "Blmath.Props.C39_count",
    "Blmath.Props.C39_in_plane"
   ],
   "note": "Exact real arithmetic; the in-plane edge in float arithmetic without rounding."
  },
  {
   "property": "C40",
   "status": "proved",
   "theorems": [
    "Blmath.Props.C40_count",
    "Blmath.Props.C40_cut",
    "Blmath.Props.C40_front",
    "Blmath.Props.C40_touching"
   ],
   "note": "Exact real arithmetic; the touching case dies with IndexError: C40_touching."
  },
  {
   "property": "C41",
   "status": "proved",
   "theorems": [
    "Blmath.Props.C41_partition_segment",
    "Blmath.Props.C41_partition_segment3",
    "Blmath.Props.C41_ends",
    "Blmath.Props.C41_two",
    "Blmath.Props.C41_errors",
    "Blmath.Props.C41_partition_segment_old",
    "Blmath.Props.C41_partition",
    "Blmath.Props.C41_partition_vertices",
    "Blmath.Props.C41_partition_empty",
    "Blmath.Props.C41_repeated_nan"
   ],
   "note": "For points of every dimension (Fin n -> R); NaN rows for repeated points over floats with special values."
  },
  {
   "property": "C42",
   "status": "proved",
   "theorems": [
    "Blmath.Props.C42_line_intersect"
   ],
   "note": "np.linalg.solve on 2x2 is represented by its contract (LinAlgError iff singular, else the solution)."
  },
  {
   "property": "C43",
   "status": "proved",
   "theorems": [
    "Blmath.Props.C43_meeting",
    "Blmath.Props.C43_parallel",
    "Blmath.Props.C43_shared",
    "Blmath.Props.C43_decision",
    "Blmath.Props.C43_none_at_p0",
    "Blmath.Props.C43_skew_point"
   ],
   "note": "Complete case distinction (C43_decision); C43_none_at_p0 and C43_skew_point are witnesses that the documented intent fails."
  },
  {
   "property": "C44",
   "status": "proved",
   "theorems": [
    "Blmath.Props.C44_apex",
    "Blmath.Props.C44_farthest",
    "Blmath.Props.C44_empty",
    "Blmath.Props.C44_polyline"
   ],
   "note": "Exact reals; empty input in any arithmetic."
  },
  {
   "property": "C45",
   "status": "proved",
   "theorems": [
    "Blmath.Props.C45_sum",
    "Blmath.Props.C45_projection",
    "Blmath.Props.C45_corners",
    "Blmath.Props.C45_affine",
    "Blmath.Props.C45_degenerate",
    "Blmath.Props.C45_degenerate_float",
    "Blmath.Props.C45_stack"
   ],
   "note": "Exact reals; the collinear case also over floats with special values."
  },
  {
   "property": "C46",
   "status": "proved",
   "theorems": [
    "Blmath.Props.C46_raw",
    "Blmath.Props.C46_unit",
    "Blmath.Props.C46_symmetry",
    "Blmath.Props.C46_degenerate",
    "Blmath.Props.C46_stack"
   ],
   "note": "Exact reals; degenerate triangles over floats with special values."
  },
  {
   "property": "C47",
   "status": "proved",
   "theorems": [
    "Blmath.Props.C47_prism_watertight",
    "Blmath.Props.C47_prism_corners",
    "Blmath.Props.C47_prism_volume",
    "Blmath.Props.C47_cube",
    "Blmath.Props.C47_tri_watertight",
    "Blmath.Props.C47_tri_prism",
    "Blmath.Props.C47_tri_degenerate",
    "Blmath.Props.C47_horizontal"
   ],
   "note": "quads_to_tris (from the lace package, outside the repository) is a parameter: any choice of diagonal per quad. Horizontal plane: IndexError without the flag under numpy < 1.23."
  },
  {
   "property": "C48",
   "status": "proved",
   "theorems": [
    "Blmath.Props.C48_given",
    "Blmath.Props.C48_centered",
    "Blmath.Props.C48_rigid"
   ],
   "note": "All point arrays with rows of three numbers."
  },
  {
   "property": "C49",
   "status": "proved",
   "theorems": [
    "Blmath.Props.C49_rotation",
    "Blmath.Props.C49_perpendicular",
    "Blmath.Props.C49_errors",
    "Blmath.Props.C49_directions"
   ],
   "note": "Proper rotation, +y, y-z plane with positive z, ValueError exactly for zero or collinear inputs, depends only on directions."
  },
  {
   "property": "C50",
   "status": "proved",
   "theorems": [
    "Blmath.Props.C50_rotation",
    "Blmath.Props.C50_arguments",
    "Blmath.Props.C50_inverse"
   ],
   "note": "All angle lists and order strings; surplus entries ignored."
  },
  {
   "property": "C51",
   "status": "proved",
   "theorems": [
    "Blmath.Props.C51_rotation",
    "Blmath.Props.C51_axis",
    "Blmath.Props.C51_angle",
    "Blmath.Props.C51_small",
    "Blmath.Props.C51_inverse",
    "Blmath.Props.C51_shapes"
   ],
   "note": "Exact real arithmetic, given any SVD meeting the stated contract in the matrix branch; below machine epsilon the code returns the identity."
  },
  {
   "property": "C52",
   "status": "proved",
   "theorems": [
    "Blmath.Props.C52_log_exp",
    "Blmath.Props.C52_log_lost",
    "Blmath.Props.C52_exp_log",
    "Blmath.Props.C52_small_angle",
    "Blmath.Props.C52_half_turn",
    "Blmath.Props.C52_loss_witness",
    "Blmath.Props.C52_near_half_turn",
    "Blmath.Props.C52_near",
    "Blmath.Props.C52_always",
    "Blmath.Props.C52_near_large"
   ],
   "note": "Round trips in both directions with the thresholds of the code; C52_always bounds the error for every rotation, witnesses show what is lost below the thresholds and that the bound is nearly attained. For any SVD meeting the contract."
  },
  {
   "property": "C53",
   "status": "proved",
   "theorems": [
    "Blmath.Props.C53_roundtrip",
    "Blmath.Props.C53_matrices",
    "Blmath.Props.C53_projective_witness"
   ],
   "note": "Exact real arithmetic; np.linalg.inv is a parameter with a contract (exactInv_spec shows it can be met).  C53_projective_witness shows that the affine condition is needed."
  },
  {
   "property": "C54",
   "status": "proved",
   "theorems": [
    "Blmath.Props.C54_order",
    "Blmath.Props.C54_ranges",
    "Blmath.Props.C54_ranges_nat",
    "Blmath.Props.C54_empty",
    "Blmath.Props.C54_empty_iff",
    "Blmath.Props.C54_push",
    "Blmath.Props.C54_convert_units",
    "Blmath.Props.C54_rejected",
    "Blmath.Props.C54_shapes",
    "Blmath.Props.C54_corner",
    "Blmath.Props.C54_nan_scale"
   ],
   "note": "All histories, all Python slice bounds.  C54_nan_scale records that a NaN factor passes the check."
  },
  {
   "property": "C55",
   "status": "proved",
   "theorems": [
    "Blmath.Props.C55_path",
    "Blmath.Props.C55_frames",
    "Blmath.Props.C55_read",
    "Blmath.Props.C55_errors",
    "Blmath.Props.C55_unset",
    "Blmath.Props.C55_no_vertices",
    "Blmath.Props.C55_shadowed",
    "Blmath.Props.C55_own",
    "Blmath.Props.C55_retag"
   ],
   "note": "All programs; points arrays and meshes.  C55_shadowed and C55_no_vertices show why the exceptions in the statement are there."
  },
  {
   "property": "C56",
   "status": "proved",
   "theorems": [
    "Blmath.Props.C56_rotate",
    "Blmath.Props.C56_consequences",
    "Blmath.Props.C56_estimate",
    "Blmath.Props.C56_errors",
    "Blmath.Props.C56_near_witness"
   ],
   "note": "cv2.Rodrigues is a parameter with a stated contract (shown satisfiable).  C56_near_witness shows that the 2e-5 clause is needed."
  },
  {
   "property": "C57",
   "status": "proved",
   "theorems": [
    "Blmath.Props.C57_vertices",
    "Blmath.Props.C57_planar",
    "Blmath.Props.C57_small",
    "Blmath.Props.C57_flatten",
    "Blmath.Props.C57_flat_plane",
    "Blmath.Props.C57_flatten_array",
    "Blmath.Props.C57_flatten_estimate"
   ],
   "note": "Hull, inverse, PCA and cv2.Rodrigues are parameters with contracts; satisfiability shown by examples."
  },
  {
   "property": "C58",
   "status": "proved",
   "theorems": [
    "Blmath.Props.C58_optimal",
    "Blmath.Props.C58_recover",
    "Blmath.Props.C58_errors",
    "Blmath.Props.C58_square",
    "Blmath.Props.C58_satisfiable"
   ],
   "note": "np.linalg.svd is a parameter with a contract met by some function for all matrices (C58_satisfiable)."
  },
  {
   "property": "C59",
   "status": "proved",
   "theorems": [
    "Blmath.Props.C59_optimal",
    "Blmath.Props.C59_single",
    "Blmath.Props.C59_factor",
    "Blmath.Props.C59_scaling",
    "Blmath.Props.C59_single_scaled",
    "Blmath.Props.C59_scaling_violation",
    "Blmath.Props.C59_errors"
   ],
   "note": "Same parameter as C58."
  },
  {
   "property": "C60",
   "status": "proved",
   "theorems": [
    "Blmath.Props.C60_orthogonalize",
    "Blmath.Props.C60_unique",
    "Blmath.Props.C60_orthonormalize",
    "Blmath.Props.C60_default",
    "Blmath.Props.C60_bad_index",
    "Blmath.Props.C60_independent_floats",
    "Blmath.Props.C60_dependent",
    "Blmath.Props.C60_dependent_unit"
   ],
   "note": "Model of orthogonalize/orthonormalize for float arrays of any size; independent rows give the Gram-Schmidt process (uniquely characterised), orthonormalize normalises exactly the requested rows, dependent rows give a zero row followed by NaN rows (exact floats with NaN)."
  },
  {
   "property": "C61",
   "status": "proved",
   "theorems": [
    "Blmath.Props.C61_coordinates",
    "Blmath.Props.C61_identity",
    "Blmath.Props.C61_chain",
    "Blmath.Props.C61_swap",
    "Blmath.Props.C61_errors",
    "Blmath.Props.C61_operator_iff",
    "Blmath.Props.C61_not_the_operator",
    "Blmath.Props.C61_satisfiable"
   ],
   "note": "np.linalg.det and np.linalg.inv enter as parameters with their exact contracts (satisfiable). Includes the witness that the result is not the operator promised by the docstring."
  },
  {
   "property": "C62",
   "status": "proved",
   "theorems": [
    "Blmath.Props.C62_MMT",
    "Blmath.Props.C62_MTM",
    "Blmath.Props.C62_matmat",
    "Blmath.Props.C62_blocks",
    "Blmath.Props.C62_matvec",
    "Blmath.Props.C62_matvec_flat",
    "Blmath.Props.C62_masks",
    "Blmath.Props.C62_mask_both"
   ],
   "note": "Sparse matrices as lists of stored entries with repeated positions adding up; the theorems hold for all masks. 1-d matvec raises by the numpy rule on boolean mask assignment (part of the model, see DESIGN.md)."
  },
  {
   "property": "C63",
   "status": "proved",
   "theorems": [
    "Blmath.Props.C63_factor",
    "Blmath.Props.C63_symmetric",
    "Blmath.Props.C63_not_posdef",
    "Blmath.Props.C63_c_flag",
    "Blmath.Props.C63_flag",
    "Blmath.Props.C63_empty",
    "Blmath.Props.C63_trim",
    "Blmath.Props.C63_satisfiable"
   ],
   "note": "CHOLMOD is a parameter with its factorisation contract (CholSpec), shown satisfiable by C63_satisfiable. Exact arithmetic. Positive definite input: S^T A S = L L^T for the symmetric matrix of the lower triangle; not positive definite input raises ValueError; empty matrix raises; flag is never nonzero in a returned result, though the C routine sets it (C63_c_flag)."
  },
  {
   "property": "C64",
   "status": "proved",
   "theorems": [
    "Blmath.Props.C64_value",
    "Blmath.Props.C64_unit",
    "Blmath.Props.C64_bad_shape",
    "Blmath.Props.C64_layout",
    "Blmath.Props.C64_jacobian",
    "Blmath.Props.C64_zero_row",
    "Blmath.Props.C64_floats"
   ],
   "note": "Exact arithmetic; ss**(-3/2) written with the square root; chumpy itself is not modelled. At rows of zeros the map has no derivative (C64_zero_row)."
  },
  {
   "property": "C65",
   "status": "proved",
   "theorems": [
    "Blmath.Props.C65_value",
    "Blmath.Props.C65_bad_shape",
    "Blmath.Props.C65_jacobian_a",
    "Blmath.Props.C65_jacobian_b",
    "Blmath.Props.C65_other",
    "Blmath.Props.C65_same_object"
   ],
   "note": "Exact arithmetic; chumpy itself is not modelled. C65_same_object: if both terms are the same object the returned matrix is not the derivative."
  },
  {
   "property": "C66",
   "status": "proved",
   "theorems": [
    "Blmath.Props.C66_edges",
    "Blmath.Props.C66_edges_error",
    "Blmath.Props.C66_corner_error",
    "Blmath.Props.C66_edges_jacobian",
    "Blmath.Props.C66_edges_jacobian_error",
    "Blmath.Props.C66_face_normals",
    "Blmath.Props.C66_face_normals_geometry",
    "Blmath.Props.C66_unit_normals",
    "Blmath.Props.C66_face_normals_jacobian",
    "Blmath.Props.C66_vert_normals",
    "Blmath.Props.C66_vert_error",
    "Blmath.Props.C66_vert_mean",
    "Blmath.Props.C66_vert_jacobian",
    "Blmath.Props.C66_current",
    "Blmath.Props.C66_normalized_ignored",
    "Blmath.Props.C66_normalized_stale"
   ],
   "note": "Exact arithmetic, and floats with NaN for the mean; chumpy is not modelled beyond its call of on_changed (the chain rule is applied in the statement). Negative face numbers are accepted by TriEdges values and rejected by its Jacobian and by VertNormals. C66_normalized_ignored / C66_normalized_stale: changing normalized alone is ignored."
  },
  {
   "property": "C67",
   "status": "proved",
   "theorems": [
    "Blmath.Props.C67_row_col",
    "Blmath.Props.C67_same_shape",
    "Blmath.Props.C67_single",
    "Blmath.Props.C67_row_column",
    "Blmath.Props.C67_column_row",
    "Blmath.Props.C67_other",
    "Blmath.Props.C67_sparse",
    "Blmath.Props.C67_sparse_shape",
    "Blmath.Props.C67_sparse_rows_only",
    "Blmath.Props.C67_sparse_lengths"
   ],
   "note": "Two-dimensional arrays; numpy broadcasting and csc_matrix as in the model."
  },
  {
   "property": "C68",
   "status": "proved",
   "theorems": [
    "Blmath.Props.C68_scalar",
    "Blmath.Props.C68_seen",
    "Blmath.Props.C68_array",
    "Blmath.Props.C68_list",
    "Blmath.Props.C68_tuple_table",
    "Blmath.Props.C68_bool",
    "Blmath.Props.C68_complex",
    "Blmath.Props.C68_nan_inf",
    "Blmath.Props.C68_non_numeric",
    "Blmath.Props.C68_finite",
    "Blmath.Props.C68_exclusive",
    "Blmath.Props.C68_empty",
    "Blmath.Props.C68_decimal",
    "Blmath.Props.C68_mixed_bool",
    "Blmath.Props.C68_object_array"
   ],
   "note": "Exact for scalars, arrays, lists, tuples, tables, Decimals included; findings: C68_decimal, C68_mixed_bool, C68_object_array."
  },
  {
   "property": "C69",
   "status": "proved",
   "theorems": [
    "Blmath.Props.C69_input_value",
    "Blmath.Props.C69_none_only_if_allowed"
   ],
   "note": "plumbum's prompt loop is modelled as documented."
  },
  {
   "property": "C70",
   "status": "proved",
   "theorems": [
    "Blmath.Props.C70_reshape",
    "Blmath.Props.C70_contract_satisfiable"
   ],
   "note": "numpy in-place shape assignment is a parameter with a stated, satisfiable contract"
  },
  {
   "property": "C71",
   "status": "proved",
   "theorems": [
    "Blmath.Props.C71_almost_zero",
    "Blmath.Props.C71_almost_collinear",
    "Blmath.Props.C71_collinear_laws",
    "Blmath.Props.C71_nan"
   ],
   "note": "Exact reals and NaN."
  },
  {
   "property": "C72",
   "status": "proved",
   "theorems": [
    "Blmath.Props.C72_inflection",
    "Blmath.Props.C72_convex",
    "Blmath.Props.C72_even",
    "Blmath.Props.C72_even_monotone",
    "Blmath.Props.C72_uneven",
    "Blmath.Props.C72_short",
    "Blmath.Props.C72_cubic"
   ],
   "note": "Both numpy behaviours characterised exactly: before 1.13 for all curves, from 1.13 for evenly spaced curves and for curves whose spacings differ."
  },
  {
   "property": "C73",
   "status": "proved",
   "theorems": [
    "Blmath.Props.C73_solves",
    "Blmath.Props.C73_linear",
    "Blmath.Props.C73_exact",
    "Blmath.Props.C73_exists",
    "Blmath.Props.C73_satisfiable"
   ],
   "note": "scipy inv and factorized are parameters with stated, satisfiable contracts; the final call of scipy cg is not modelled."
  },
  {
   "property": "C74",
   "status": "proved",
   "theorems": [
    "Blmath.Props.C74_exp",
    "Blmath.Props.C74_zero",
    "Blmath.Props.C74_small",
    "Blmath.Props.C74_compose"
   ],
   "note": "exact reals; below machine epsilon the bound is proved in place of equality"
  },
  {
   "property": "C75",
   "status": "proved",
   "theorems": [
    "Blmath.Props.C75_jacobian",
    "Blmath.Props.C75_jacobian_code",
    "Blmath.Props.C75_zero",
    "Blmath.Props.C75_small"
   ],
   "note": "exact reals; Frechet derivative of each entry"
  },
  {
   "property": "C76",
   "status": "proved",
   "theorems": [
    "Blmath.Props.C76_jacobian",
    "Blmath.Props.C76_inverse",
    "Blmath.Props.C76_identity",
    "Blmath.Props.C76_small",
    "Blmath.Props.C76_half_turn",
    "Blmath.Props.C76_half_turn_wrong",
    "Blmath.Props.C76_results"
   ],
   "note": "exact reals; np.linalg.svd is a parameter with its contract; C76_half_turn_wrong is the finding that the Jacobian at half turns is not the derivative"
  },
  {
   "property": "C77",
   "status": "proved",
   "theorems": [
    "Blmath.Props.C77_nearest",
    "Blmath.Props.C77_negative",
    "Blmath.Props.C77_reflection",
    "Blmath.Props.C77_singular_ambiguous",
    "Blmath.Props.C77_point_reflection"
   ],
   "note": "Positive determinant: unique nearest rotation, independent of the decomposition. Negative determinant: exact angle and axis of the answer, except where the nearest orthogonal matrix is -1 (NaN). Zero determinant: witness."
  },
  {
   "property": "C78",
   "status": "proved",
   "theorems": [
    "Blmath.Props.C78_truth",
    "Blmath.Props.C78_versions_differ",
    "Blmath.Props.C78_iteration",
    "Blmath.Props.C78_unpack"
   ],
   "note": "Both Python versions."
  },
  {
   "property": "C79",
   "status": "proved",
   "theorems": [
    "Blmath.Props.C79_py3",
    "Blmath.Props.C79_py3_single",
    "Blmath.Props.C79_py2_unit",
    "Blmath.Props.C79_py2_pair",
    "Blmath.Props.C79_py2_two",
    "Blmath.Props.C79_py2_not_orthogonal",
    "Blmath.Props.C79_bary",
    "Blmath.Props.C79_bary_degenerate"
   ],
   "note": "Unbounded integers in place of 64-bit ones; the floats produced are exact."
  },
  {
   "property": "C80",
   "status": "proved",
   "theorems": [
    "Blmath.Props.C80_components",
    "Blmath.Props.C80_length",
    "Blmath.Props.C80_any_dimension",
    "Blmath.Props.C80_plane"
   ],
   "note": "for every rounding meeting the standard model; overflow and underflow are outside the model"
  },
  {
   "property": "C81",
   "status": "proved",
   "theorems": [
    "Blmath.Props.C81_distance",
    "Blmath.Props.C81_sign",
    "Blmath.Props.C81_length",
    "Blmath.Props.C81_project",
    "Blmath.Props.C81_front"
   ],
   "note": "for every rounding meeting the standard model; overflow and underflow are outside the model"
  },
  {
   "property": "C82",
   "status": "proved",
   "theorems": [
    "Blmath.Props.C82_convert",
    "Blmath.Props.C82_round_trip"
   ],
   "note": "for every rounding meeting the standard model; overflow and underflow are outside the model"
  },
  {
   "property": "C83",
   "status": "proved",
   "theorems": [
    "Blmath.Props.C83_distance",
    "Blmath.Props.C83_total_length",
    "Blmath.Props.C83_any_order"
   ],
   "note": "for every rounding meeting the standard model; overflow and underflow are outside the model"
  },
  {
   "property": "C84",
   "status": "proved",
   "theorems": [
    "Blmath.Props.C84_bary_sum",
    "Blmath.Props.C84_box_order",
    "Blmath.Props.C84_volume",
    "Blmath.Props.C84_area"
   ],
   "note": "for every rounding meeting the standard model; overflow and underflow are outside the model"
  },
  {
   "property": "C85",
   "status": "proved",
   "theorems": [
    "Blmath.Props.C85_matrix",
    "Blmath.Props.C85_small",
    "Blmath.Props.C85_doubles",
    "Blmath.Props.C85_orthogonal"
   ],
   "note": "for every rounding meeting the standard model; overflow and underflow are outside the model; sin and cos are assumed correctly rounded"
  },
  {
   "property": "C86",
   "status": "proved",
   "theorems": [
    "Blmath.Props.C86_range",
    "Blmath.Props.C86_range_exceeded",
    "Blmath.Props.C86_sample",
    "Blmath.Props.C86_ends",
    "Blmath.Props.C86_last_sample",
    "Blmath.Props.C86_crossing_missed"
   ],
   "note": "for every rounding meeting the standard model; overflow and underflow are outside the model; the counterexamples are in double precision"
  },
  {
   "property": "C87",
   "status": "proved",
   "theorems": [
    "Blmath.Props.C87_error",
    "Blmath.Props.C87_doubles",
    "Blmath.Props.C87_range",
    "Blmath.Props.C87_lost"
   ],
   "note": "for every rounding meeting the standard model; overflow and underflow are outside the model; arccos is assumed correctly rounded; range, doubles bound and counterexample in double precision"
  },
  {
   "property": "C88",
   "status": "proved",
   "theorems": [
    "Blmath.Props.C88_str",
    "Blmath.Props.C88_nonfinite",
    "Blmath.Props.C88_same_text",
    "Blmath.Props.C88_same_units",
    "Blmath.Props.C88_vanishes",
    "Blmath.Props.C88_int",
    "Blmath.Props.C88_round",
    "Blmath.Props.C88_round_unknown"
   ],
   "note": "Exact real arithmetic: the decimal text is that of the exact value, as in Python; the result of round is not rounded to a float."
  },
  {
   "property": "C89",
   "status": "proved",
   "theorems": [
    "Blmath.Props.C89_dict",
    "Blmath.Props.C89_default",
    "Blmath.Props.C89_round_trip",
    "Blmath.Props.C89_closed",
    "Blmath.Props.C89_none",
    "Blmath.Props.C89_repr",
    "Blmath.Props.C89_repr_text"
   ],
   "note": "Exact real arithmetic for np.around."
  },
  {
   "property": "C90",
   "status": "proved",
   "theorems": [
    "Blmath.Props.C90_numbers",
    "Blmath.Props.C90_none",
    "Blmath.Props.C90_text_python3",
    "Blmath.Props.C90_text_python2",
    "Blmath.Props.C90_text_compare",
    "Blmath.Props.C90_constructor",
    "Blmath.Props.C90_rewrapped"
   ],
   "note": "over the reals; the reading of texts as numbers is a parameter"
  },
  {
   "property": "C91",
   "status": "proved",
   "theorems": [
    "Blmath.Props.C91_sum",
    "Blmath.Props.C91_sum_empty",
    "Blmath.Props.C91_sum_order",
    "Blmath.Props.C91_sum_mixed",
    "Blmath.Props.C91_max_min"
   ],
   "note": "over the reals; the reading of texts as numbers is a parameter"
  },
  {
   "property": "C92",
   "status": "proved",
   "theorems": [
    "Blmath.Props.C92_methods",
    "Blmath.Props.C92_constructor",
    "Blmath.Props.C92_frame",
    "Blmath.Props.C92_shared",
    "Blmath.Props.C92_read",
    "Blmath.Props.C92_flip",
    "Blmath.Props.C92_write",
    "Blmath.Props.C92_independent",
    "Blmath.Props.C92_edges",
    "Blmath.Props.C92_finite",
    "Blmath.Props.C92_unchecked"
   ],
   "note": "any number type; numpy arrays as offset and strides into cells of a heap"
  },
  {
   "property": "C93",
   "status": "proved",
   "theorems": [
    "Blmath.Props.C93_never_returns",
    "Blmath.Props.C93_converges",
    "Blmath.Props.C93_progress",
    "Blmath.Props.C93_exact_start"
   ],
   "note": "Exact real arithmetic for convergence; C93_never_returns for every number type, C93_exact_start in floats with NaN."
  },
  {
   "property": "C94",
   "status": "proved",
   "theorems": [
    "Blmath.Props.C94_preconditioner",
    "Blmath.Props.C94_solves",
    "Blmath.Props.C94_tolerance",
    "Blmath.Props.C94_least_squares",
    "Blmath.Props.C94_stored_zeros",
    "Blmath.Props.C94_no_active"
   ],
   "note": "inv and factorized by their contracts, cg as the preconditioned conjugate gradient iteration, exact arithmetic."
  },
  {
   "property": "C95",
   "status": "proved",
   "theorems": [
    "Blmath.Props.C95_frame",
    "Blmath.Props.C95_results",
    "Blmath.Props.C95_shared",
    "Blmath.Props.C95_write",
    "Blmath.Props.C95_private",
    "Blmath.Props.C95_unit",
    "Blmath.Props.C95_moved",
    "Blmath.Props.C95_normal_broken",
    "Blmath.Props.C95_box_negative",
    "Blmath.Props.C95_box_shared",
    "Blmath.Props.C95_fresh",
    "Blmath.Props.C95_from_points"
   ],
   "note": "arrays of floats of shape (3,), so that np.asarray gives the array itself; memory as a list of cells; normals exact reals where unit length is claimed"
  },
  {
   "property": "C96",
   "status": "proved",
   "theorems": [
    "Blmath.Props.C96_results",
    "Blmath.Props.C96_frame",
    "Blmath.Props.C96_shared",
    "Blmath.Props.C96_write",
    "Blmath.Props.C96_private",
    "Blmath.Props.C96_roundtrip",
    "Blmath.Props.C96_fresh",
    "Blmath.Props.C96_reverse_broken"
   ],
   "note": "4x4 arrays of floats; memory as a list of cells; arguments that are copied are given by value"
  },
  {
   "property": "C97",
   "status": "proved",
   "theorems": [
    "Blmath.Props.C97_last_row",
    "Blmath.Props.C97_matrix",
    "Blmath.Props.C97_point",
    "Blmath.Props.C97_scale_roundtrip",
    "Blmath.Props.C97_translate_roundtrip",
    "Blmath.Props.C97_lost"
   ],
   "note": "Overflow and underflow are outside the model; np.dot is taken to sum each row from the right. np.linalg.inv is a parameter of which the last row is assumed to stay exact."
  },
  {
   "property": "C98",
   "status": "proved",
   "theorems": [
    "Blmath.Props.C98_released",
    "Blmath.Props.C98_leak",
    "Blmath.Props.C98_unchecked",
    "Blmath.Props.C98_safe",
    "Blmath.Props.C98_narrow",
    "Blmath.Props.C98_bits"
   ],
   "note": "Undefined behaviour is an outcome of the model; what CHOLMOD returns is a parameter. The contract of the library in C98_safe is met by an example."
  },
  {
   "property": "C99",
   "status": "proved",
   "theorems": [
    "Blmath.Props.C99_history",
    "Blmath.Props.C99_assign",
    "Blmath.Props.C99_refines_step",
    "Blmath.Props.C99_refines",
    "Blmath.Props.C99_delete",
    "Blmath.Props.C99_closed",
    "Blmath.Props.C99_vertices",
    "Blmath.Props.C99_read_only",
    "Blmath.Props.C99_ordinary",
    "Blmath.Props.C99_methods",
    "Blmath.Props.C99_class",
    "Blmath.Props.C99_bool",
    "Blmath.Props.C99_arrays",
    "Blmath.Props.C99_no_truth",
    "Blmath.Props.C99_hidden",
    "Blmath.Props.C99_example",
    "Blmath.Props.C99_witness"
   ],
   "note": "Object dictionaries with descriptor rules, over all names and values; simulation to the record model of C34. Witnesses for the stale edges after a closed flag without truth value and for the hidden method."
  },
  {
   "property": "C100",
   "status": "proved",
   "theorems": [
    "Blmath.Props.C100_cross",
    "Blmath.Props.C100_unit",
    "Blmath.Props.C100_from_points",
    "Blmath.Props.C100_from_points_and_vector",
    "Blmath.Props.C100_side",
    "Blmath.Props.C100_sign",
    "Blmath.Props.C100_integers",
    "Blmath.Props.C100_rejected",
    "Blmath.Props.C100_doubles",
    "Blmath.Props.C100_lost",
    "Blmath.Props.C100_witness"
   ],
   "note": "Over any rounding; doubles by rounding_rnd53."
  },
  {
   "property": "C101",
   "status": "proved",
   "theorems": [
    "Blmath.Props.C101_found",
    "Blmath.Props.C101_none",
    "Blmath.Props.C101_row",
    "Blmath.Props.C101_crossing",
    "Blmath.Props.C101_constructed",
    "Blmath.Props.C101_box",
    "Blmath.Props.C101_missed",
    "Blmath.Props.C101_witness"
   ],
   "note": "standard model of rounding without overflow or underflow; np.dot summed from the left"
  },
  {
   "property": "C102",
   "status": "proved",
   "theorems": [
    "Blmath.Props.C102_faces",
    "Blmath.Props.C102_manifold",
    "Blmath.Props.C102_any_mesh",
    "Blmath.Props.C102_raises",
    "Blmath.Props.C102_witness"
   ],
   "note": "as C101; the graph walk is the model of C30 and C31 on the rounded points"
  },
  {
   "property": "C103",
   "status": "proved",
   "theorems": [
    "Blmath.Props.C103_point",
    "Blmath.Props.C103_intersect",
    "Blmath.Props.C103_count",
    "Blmath.Props.C103_open",
    "Blmath.Props.C103_closed",
    "Blmath.Props.C103_witness",
    "Blmath.Props.C103_lost"
   ],
   "note": "Hypotheses: standard rounding model, 0 < u ≤ 1/1000, coordinates at most M, vertices at least 100uM off the plane. C103_lost shows what fails nearer to the plane."
  },
  {
   "property": "C104",
   "status": "proved",
   "theorems": [
    "Blmath.Props.C104_add_sub",
    "Blmath.Props.C104_scalar",
    "Blmath.Props.C104_ratio",
    "Blmath.Props.C104_compare",
    "Blmath.Props.C104_consistent",
    "Blmath.Props.C104_asymmetric",
    "Blmath.Props.C104_intransitive",
    "Blmath.Props.C104_witness"
   ],
   "note": "standard model of rounding; the order in doubles for round to nearest, ties to even, without overflow or underflow"
  },
  {
   "property": "C105",
   "status": "proved",
   "theorems": [
    "Blmath.Props.C105_partition",
    "Blmath.Props.C105_lengths",
    "Blmath.Props.C105_fewest",
    "Blmath.Props.C105_witness",
    "Blmath.Props.C105_exceeded",
    "Blmath.Props.C105_again"
   ],
   "note": "Rounded arithmetic; doubles for the two counterexamples to C36 (limit exceeded, not idempotent). C105_witness shows the hypotheses are met."
  },
  {
   "property": "C106",
   "status": "proved",
   "theorems": [
    "Blmath.Props.C106_round",
    "Blmath.Props.C106_operations",
    "Blmath.Props.C106_nan",
    "Blmath.Props.C106_operations_witness",
    "Blmath.Props.C106_moderate",
    "Blmath.Props.C106_vectors",
    "Blmath.Props.C106_directions",
    "Blmath.Props.C106_plane",
    "Blmath.Props.C106_plane_through",
    "Blmath.Props.C106_lengths",
    "Blmath.Props.C106_length_error",
    "Blmath.Props.C106_distance_error",
    "Blmath.Props.C106_total_error",
    "Blmath.Props.C106_witness",
    "Blmath.Props.C106_pi",
    "Blmath.Props.C106_units",
    "Blmath.Props.C106_convert_error",
    "Blmath.Props.C106_units_witness"
   ],
   "note": "IEEE binary64 in full; agreement with rounding without limits of range for zero and sizes 2^-58 to 2^80, and the error bounds that follow"
  },
  {
   "property": "C107",
   "status": "proved",
   "theorems": [
    "Blmath.Props.C107_overflow",
    "Blmath.Props.C107_underflow",
    "Blmath.Props.C107_plane",
    "Blmath.Props.C107_length",
    "Blmath.Props.C107_witness"
   ],
   "note": "IEEE binary64 in full; every finite vector beyond the bounds"
  },
  {
   "property": "C108",
   "status": "proved",
   "theorems": [
    "Blmath.Props.C108_rule",
    "Blmath.Props.C108_order",
    "Blmath.Props.C108_decimal",
    "Blmath.Props.C108_multiple",
    "Blmath.Props.C108_increments",
    "Blmath.Props.C108_prettify",
    "Blmath.Props.C108_broken",
    "Blmath.Props.C108_decimal_witness"
   ],
   "note": "Rd rnd53: 53 bits, ties to even, no limit of range; 1/10^p is the correctly rounded quotient (the power is exact up to p = 22)."
  },
  {
   "property": "C109",
   "status": "proved",
   "theorems": [
    "Blmath.Props.C109_side",
    "Blmath.Props.C109_plane",
    "Blmath.Props.C109_power",
    "Blmath.Props.C109_wrong",
    "Blmath.Props.C109_witness"
   ],
   "note": "Rd rnd53 (53 bits, no limit of range; none is reached with integers up to 2^24). Norms are sums from the left, without fused operations."
  },
  {
   "property": "C110",
   "status": "proved",
   "theorems": [
    "Blmath.Props.C110_proj",
    "Blmath.Props.C110_reject",
    "Blmath.Props.C110_split",
    "Blmath.Props.C110_axis",
    "Blmath.Props.C110_left"
   ],
   "note": "3-vectors. Non-vacuity: C111_witness, C110_left."
  },
  {
   "property": "C111",
   "status": "proved",
   "theorems": [
    "Blmath.Props.C111_errors",
    "Blmath.Props.C111_rows",
    "Blmath.Props.C111_matrix",
    "Blmath.Props.C111_axis",
    "Blmath.Props.C111_collinear",
    "Blmath.Props.C111_witness"
   ],
   "note": "Violation for collinear vectors: C111_collinear. Non-vacuity: C111_witness."
  },
  {
   "property": "C112",
   "status": "proved",
   "theorems": [
    "Blmath.Props.C112_apex",
    "Blmath.Props.C112_farthest",
    "Blmath.Props.C112_apex_axis",
    "Blmath.Props.C112_apex_integers",
    "Blmath.Props.C112_farthest_integers",
    "Blmath.Props.C112_wrong",
    "Blmath.Props.C112_witness"
   ],
   "note": "Limits of exactness: C112_wrong. Non-vacuity: C112_witness."
  },
  {
   "property": "C113",
   "status": "proved",
   "theorems": [
    "Blmath.Props.C113_rows",
    "Blmath.Props.C113_first",
    "Blmath.Props.C113_inner",
    "Blmath.Props.C113_two",
    "Blmath.Props.C113_unit",
    "Blmath.Props.C113_fixed",
    "Blmath.Props.C113_integers",
    "Blmath.Props.C113_lost",
    "Blmath.Props.C113_witness"
   ],
   "note": "Inner products of the rows with the bounds of summation in any order; NaN and infinities are outside Rd, hence the hypothesis that the computed rows are not zero."
  },
  {
   "property": "C114",
   "status": "proved",
   "theorems": [
    "Blmath.Props.C114_lines",
    "Blmath.Props.C114_same",
    "Blmath.Props.C114_no_vertices",
    "Blmath.Props.C114_hollow",
    "Blmath.Props.C114_rodrigues",
    "Blmath.Props.C114_other_term",
    "Blmath.Props.C114_failure",
    "Blmath.Props.C114_own",
    "Blmath.Props.C114_log",
    "Blmath.Props.C114_correspondence",
    "Blmath.Props.C114_array",
    "Blmath.Props.C114_witness"
   ],
   "note": "cv2.Rodrigues, lace.lines.Lines and the landmarking classes are parameters with stated contracts."
  },
  {
   "property": "C115",
   "status": "proved",
   "theorems": [
    "Blmath.Props.C115_segment",
    "Blmath.Props.C115_front",
    "Blmath.Props.C115_sections",
    "Blmath.Props.C115_neighborhood",
    "Blmath.Props.C115_section",
    "Blmath.Props.C115_intersect",
    "Blmath.Props.C115_cut",
    "Blmath.Props.C115_lengths",
    "Blmath.Props.C115_rigid",
    "Blmath.Props.C115_apex",
    "Blmath.Props.C115_affine",
    "Blmath.Props.C115_composite",
    "Blmath.Props.C115_limits"
   ],
   "note": "Real arithmetic. Map and carried plane are stated by their effect on points and heights (Spec/Motion.lean), and instances are given."
  },
  {
   "property": "C116",
   "status": "proved",
   "theorems": [
    "Blmath.Props.C116_vectors",
    "Blmath.Props.C116_signed",
    "Blmath.Props.C116_normal",
    "Blmath.Props.C116_barycentric",
    "Blmath.Props.C116_plane",
    "Blmath.Props.C116_up_and_look",
    "Blmath.Props.C116_gram_schmidt"
   ],
   "note": "Real arithmetic, where division by zero gives zero; what floats do with zero vectors and dependent rows is in C17, C60 and C113."
  },
  {
   "property": "C117",
   "status": "proved",
   "theorems": [
    "Blmath.Props.C117_intersections",
    "Blmath.Props.C117_two_pieces_open",
    "Blmath.Props.C117_start",
    "Blmath.Props.C117_reversed_closed",
    "Blmath.Props.C117_reversed_open",
    "Blmath.Props.C117_two_pieces_closed"
   ],
   "note": "C117_intersections (all intersection functions), C117_two_pieces_open/closed (both cuts, lengths add up), C117_start, C117_reversed_open/closed. Exact arithmetic; in line_xsections the row of a ray parallel to the plane is NaN in the code and without meaning here, only its mask entry counts. A single open segment lying in the plane is excluded from C117_reversed_open: it is rejected in either direction by C39_in_plane."
  },
  {
   "property": "C118",
   "status": "proved",
   "theorems": [
    "Blmath.Props.C118_unique",
    "Blmath.Props.C118_moved",
    "Blmath.Props.C118_swapped",
    "Blmath.Props.C118_order",
    "Blmath.Props.C118_rotation_moved",
    "Blmath.Props.C118_rotation_swapped",
    "Blmath.Props.C118_fragile"
   ],
   "note": "np.linalg.svd is a parameter with the contract of C58 (satisfiable: C58_satisfiable). C118_unique gives a sufficient condition for the uniqueness assumed in C118_moved, C118_swapped, C118_rotation_moved and C118_rotation_swapped; C118_order needs neither contract nor uniqueness. Single pairs in find_rigid_rotation are covered by C59_single."
  },
  {
   "property": "C119",
   "status": "proved",
   "theorems": [
    "Blmath.Props.C119_columns",
    "Blmath.Props.C119_entries",
    "Blmath.Props.C119_orthonormal",
    "Blmath.Props.C119_double",
    "Blmath.Props.C119_zero",
    "Blmath.Props.C119_never_exact",
    "Blmath.Props.C119_centred",
    "Blmath.Props.C119_shifted"
   ],
   "note": "cos, sin and pi are rounded once each, as in the Rd model of the library functions; sums are in the order of the model."
  },
  {
   "property": "C120",
   "status": "proved",
   "theorems": [
    "Blmath.Props.C120_plane_accepted",
    "Blmath.Props.C120_blind",
    "Blmath.Props.C120_polyline_blind",
    "Blmath.Props.C120_mesh_blind",
    "Blmath.Props.C120_mesh_returns",
    "Blmath.Props.C120_apex",
    "Blmath.Props.C120_vectors",
    "Blmath.Props.C120_values",
    "Blmath.Props.C120_scale",
    "Blmath.Props.C120_frames",
    "Blmath.Props.C120_centred"
   ],
   "note": "NaN laws proved for Fl.nan and F64.nan; frames, angles and centring stated over Fl (the doubles model has no sine and cosine)."
  },
  {
   "property": "C121",
   "status": "proved",
   "theorems": [
    "Blmath.Props.C121_prism",
    "Blmath.Props.C121_cube",
    "Blmath.Props.C121_tri",
    "Blmath.Props.C121_in_box"
   ],
   "note": "Connectedness of the crossed edges: within a side by the parallelogram law of heights, from side to side by a kernel computation over all patterns of signs; the number of loops then follows from C31."
  },
  {
   "property": "C122",
   "status": "proved",
   "theorems": [
    "Blmath.Props.C122_any",
    "Blmath.Props.C122_closed",
    "Blmath.Props.C122_fails_iff",
    "Blmath.Props.C122_polylines",
    "Blmath.Props.C122_single",
    "Blmath.Props.C122_strip_jumps"
   ],
   "note": "faces with repeated corners: loops in the graph whose Euler path is taken"
  },
  {
   "property": "C123",
   "status": "proved",
   "theorems": [
    "Blmath.Props.C123_negative",
    "Blmath.Props.C123_zero",
    "Blmath.Props.C123_minus_zero",
    "Blmath.Props.C123_infinite",
    "Blmath.Props.C123_nan",
    "Blmath.Props.C123_positive",
    "Blmath.Props.C123_long",
    "Blmath.Props.C123_short"
   ],
   "note": "all limits in IEEE doubles; that a huge number of parts exhausts memory is not modelled"
  },
  {
   "property": "C124",
   "status": "proved",
   "theorems": [
    "Blmath.Props.C124_partition",
    "Blmath.Props.C124_same",
    "Blmath.Props.C124_apex",
    "Blmath.Props.C124_farthest",
    "Blmath.Props.C124_intersect",
    "Blmath.Props.C124_cut",
    "Blmath.Props.C124_vertex_on_plane"
   ],
   "note": "over the reals; general for any added points, and shown for partition_by_length"
  },
  {
   "property": "C125",
   "status": "proved",
   "theorems": [
    "Blmath.Props.C125_exact",
    "Blmath.Props.C125_special",
    "Blmath.Props.C125_rounded",
    "Blmath.Props.C125_53_bits",
    "Blmath.Props.C125_not_three",
    "Blmath.Props.C125_vectors",
    "Blmath.Props.C125_widths",
    "Blmath.Props.C125_angle",
    "Blmath.Props.C125_plane",
    "Blmath.Props.C125_front",
    "Blmath.Props.C125_crossings",
    "Blmath.Props.C125_from_points",
    "Blmath.Props.C125_mesh_xsections",
    "Blmath.Props.C125_mesh_xsection",
    "Blmath.Props.C125_length",
    "Blmath.Props.C125_partition_by_length",
    "Blmath.Props.C125_intersect_plane",
    "Blmath.Props.C125_cut_by_plane",
    "Blmath.Props.C125_partition",
    "Blmath.Props.C125_line_intersect3",
    "Blmath.Props.C125_apex",
    "Blmath.Props.C125_surface_normal",
    "Blmath.Props.C125_barycentric",
    "Blmath.Props.C125_box",
    "Blmath.Props.C125_box_sizes",
    "Blmath.Props.C125_not_from_points"
   ],
   "note": "Every arithmetic with the scaling laws; the laws proved for ℝ and Fl (any positive factor) and for Rd rnd53 (powers of two, no overflow or underflow). from_points under the stated condition, with a witness that the condition is needed."
  },
  {
   "property": "C126",
   "status": "proved",
   "theorems": [
    "Blmath.Props.C126_exact",
    "Blmath.Props.C126_special",
    "Blmath.Props.C126_rounded",
    "Blmath.Props.C126_53_bits",
    "Blmath.Props.C126_vectors",
    "Blmath.Props.C126_angle",
    "Blmath.Props.C126_plane",
    "Blmath.Props.C126_front",
    "Blmath.Props.C126_crossings",
    "Blmath.Props.C126_from_points",
    "Blmath.Props.C126_mesh_xsections",
    "Blmath.Props.C126_length",
    "Blmath.Props.C126_partition_by_length",
    "Blmath.Props.C126_intersect_plane",
    "Blmath.Props.C126_cut_by_plane",
    "Blmath.Props.C126_partition",
    "Blmath.Props.C126_line_intersect3",
    "Blmath.Props.C126_apex",
    "Blmath.Props.C126_surface_normal",
    "Blmath.Props.C126_barycentric",
    "Blmath.Props.C126_not_yz"
   ],
   "note": "Every arithmetic with the laws of signs; these proved for ℝ, Fl and Rd rnd for odd rnd. Witness in F64 that the exchange of y and z is not exact."
  },
  {
   "property": "C127",
   "status": "proved",
   "theorems": [
    "Blmath.Props.C127_faces",
    "Blmath.Props.C127_points",
    "Blmath.Props.C127_same_surface",
    "Blmath.Props.C127_split",
    "Blmath.Props.C127_length",
    "Blmath.Props.C127_length_unique"
   ],
   "note": "No vertex on the plane; each segment is the common part of its face and the plane, faces and segments correspond one to one."
  },
  {
   "property": "C128",
   "status": "proved",
   "theorems": [
    "Blmath.Props.C128_shortest",
    "Blmath.Props.C128_convexify",
    "Blmath.Props.C128_flatten",
    "Blmath.Props.C128_unique",
    "Blmath.Props.C128_again",
    "Blmath.Props.C128_open_longer"
   ],
   "note": "shortest closed curve through the corners; plain and flattened variants never longer; unique up to the start; idempotent; open polylines at most doubled, with a proved counterexample to not getting longer"
  },
  {
   "property": "C129",
   "status": "proved",
   "theorems": [
    "Blmath.Props.C129_faces",
    "Blmath.Props.C129_points",
    "Blmath.Props.C129_length",
    "Blmath.Props.C129_witness"
   ],
   "note": "position and length of the section in rounded arithmetic; binary64 witness"
  },
  {
   "property": "C130",
   "status": "proved",
   "theorems": [
    "Blmath.Props.C130_again",
    "Blmath.Props.C130_nothing_left",
    "Blmath.Props.C130_closed_again",
    "Blmath.Props.C130_order",
    "Blmath.Props.C130_same_end"
   ],
   "note": "repeated cuts; exact arithmetic"
  },
  {
   "property": "C131",
   "status": "proved",
   "theorems": [
    "Blmath.Props.C131_one_loop",
    "Blmath.Props.C131_no_choice",
    "Blmath.Props.C131_solid",
    "Blmath.Props.C131_unique",
    "Blmath.Props.C131_convexify",
    "Blmath.Props.C131_witness"
   ],
   "note": "exact arithmetic; meshes with coplanar neighbouring faces (a cube) and vertices on the plane are not covered"
  },
  {
   "property": "C132",
   "status": "proved",
   "theorems": [
    "Blmath.Props.C132_outline",
    "Blmath.Props.C132_prism",
    "Blmath.Props.C132_cube",
    "Blmath.Props.C132_tri",
    "Blmath.Props.C132_witness"
   ],
   "note": "exact arithmetic; no vertex on the plane; that a general such mesh gives a single polyline is not claimed (a doubled mesh gives two), for the solids of shapes.py it is C121"
  },
  {
   "property": "C133",
   "status": "proved",
   "theorems": [
    "Blmath.Props.C133_length",
    "Blmath.Props.C133_convexify",
    "Blmath.Props.C133_prism",
    "Blmath.Props.C133_tri",
    "Blmath.Props.C133_level",
    "Blmath.Props.C133_level_tri",
    "Blmath.Props.C133_witness"
   ],
   "note": "Exact arithmetic; no vertex on the plane. Single polyline for any outward convex mesh whose edges are met in different points; boxes and triangular prisms proved to be such."
  },
  {
   "property": "C134",
   "status": "proved",
   "theorems": [
    "Blmath.Props.C134_prism",
    "Blmath.Props.C134_solid",
    "Blmath.Props.C134_uneven",
    "Blmath.Props.C134_tri",
    "Blmath.Props.C134_witness"
   ],
   "note": "In Rd; overflow and underflow out of scope."
  },
  {
   "property": "C135",
   "status": "proved",
   "theorems": [
    "Blmath.Props.C135_closed",
    "Blmath.Props.C135_inside",
    "Blmath.Props.C135_meets",
    "Blmath.Props.C135_convex",
    "Blmath.Props.C135_sections",
    "Blmath.Props.C135_length",
    "Blmath.Props.C135_convex_sections",
    "Blmath.Props.C135_prism",
    "Blmath.Props.C135_witness",
    "Blmath.Props.C135_convex_witness"
   ],
   "note": "exact arithmetic, no vertex on the plane. The key step is a projection from a point of the solid: seen from there all faces on one side of the plane would have positive area that adds up to nothing (IS.no_island)."
  },
  {
   "property": "C136",
   "status": "proved",
   "theorems": [
    "Blmath.Props.C136_nested",
    "Blmath.Props.C136_convexify",
    "Blmath.Props.C136_sections",
    "Blmath.Props.C136_convex",
    "Blmath.Props.C136_level",
    "Blmath.Props.C136_witness",
    "Blmath.Props.C136_level_witness"
   ],
   "note": "exact arithmetic; nearest-point map"
  },
  {
   "property": "C137",
   "status": "proved",
   "theorems": [
    "Blmath.Props.C137_distances",
    "Blmath.Props.C137_lengths",
    "Blmath.Props.C137_units",
    "Blmath.Props.C137_sections",
    "Blmath.Props.C137_manager",
    "Blmath.Props.C137_stretch",
    "Blmath.Props.C137_witness"
   ],
   "note": "induction over the history of calls; every stored pair is a similarity with its recorded factor; witness of five calls, one refused"
  },
  {
   "property": "C138",
   "status": "proved",
   "theorems": [
    "Blmath.Props.C138_segments",
    "Blmath.Props.C138_points",
    "Blmath.Props.C138_complete",
    "Blmath.Props.C138_listing",
    "Blmath.Props.C138_turned",
    "Blmath.Props.C138_length",
    "Blmath.Props.C138_witness"
   ],
   "note": "vertices on the plane allowed; exact arithmetic"
  },
  {
   "property": "C139",
   "status": "proved",
   "theorems": [
    "Blmath.Props.C139_section",
    "Blmath.Props.C139_turned",
    "Blmath.Props.C139_touching",
    "Blmath.Props.C139_prism",
    "Blmath.Props.C139_witness",
    "Blmath.Props.C139_lost",
    "Blmath.Props.C139_cube"
   ],
   "note": "Exact arithmetic, closed outward meshes, no face in the plane. The hull of the section is claimed; the counterexamples show what is not true of the polylines themselves."
  },
  {
   "property": "C140",
   "status": "proved",
   "theorems": [
    "Blmath.Props.C140_ends",
    "Blmath.Props.C140_closed",
    "Blmath.Props.C140_border",
    "Blmath.Props.C140_wall",
    "Blmath.Props.C140_witness",
    "Blmath.Props.C140_hanging"
   ],
   "note": "Exact arithmetic; vertices on the plane allowed, no face in the plane. The exact set of ends is claimed for planes off the vertices with distinct crossings."
  },
  {
   "property": "C141",
   "status": "proved",
   "theorems": [
    "Blmath.Props.C141_even",
    "Blmath.Props.C141_odd",
    "Blmath.Props.C141_same_side",
    "Blmath.Props.C141_count",
    "Blmath.Props.C141_count_side",
    "Blmath.Props.C141_count_in",
    "Blmath.Props.C141_half",
    "Blmath.Props.C141_corner",
    "Blmath.Props.C141_touching",
    "Blmath.Props.C141_error",
    "Blmath.Props.C141_iff",
    "Blmath.Props.C141_halves",
    "Blmath.Props.C141_convexify",
    "Blmath.Props.C141_witness",
    "Blmath.Props.C141_parity_witness"
   ],
   "note": "exact arithmetic; convex polygons of at least three corners in a plane in space"
  },
  {
   "property": "C142",
   "status": "proved",
   "theorems": [
    "Blmath.Props.C142_sum",
    "Blmath.Props.C142_volume",
    "Blmath.Props.C142_move",
    "Blmath.Props.C142_steepest",
    "Blmath.Props.C142_gradient",
    "Blmath.Props.C142_supporting",
    "Blmath.Props.C142_surface_normals",
    "Blmath.Props.C142_shapes",
    "Blmath.Props.C142_witness"
   ],
   "note": "normals of watertight surfaces: sum zero, volume from any point, exact change when a vertex moves, steepest move, gradient, supporting planes, shapes"
  },
  {
   "property": "C143",
   "status": "proved",
   "theorems": [
    "Blmath.Props.C143_move",
    "Blmath.Props.C143_same",
    "Blmath.Props.C143_path",
    "Blmath.Props.C143_translations",
    "Blmath.Props.C143_lost",
    "Blmath.Props.C143_witness"
   ],
   "note": "error of moving between frames, same state exact, two moves, translations undone, path dependence in double precision"
  },
  {
   "property": "C144",
   "status": "proved",
   "theorems": [
    "Blmath.Props.C144_one",
    "Blmath.Props.C144_moved",
    "Blmath.Props.C144_order",
    "Blmath.Props.C144_planar",
    "Blmath.Props.C144_direction",
    "Blmath.Props.C144_witness"
   ],
   "note": "exact reals; any correct eigenvector and sorting routines; uniqueness iff the smallest eigenvalue is simple"
  },
  {
   "property": "C145",
   "status": "proved",
   "theorems": [
    "Blmath.Props.C145_equal",
    "Blmath.Props.C145_antipodes",
    "Blmath.Props.C145_set",
    "Blmath.Props.C145_motions",
    "Blmath.Props.C145_transform",
    "Blmath.Props.C145_rotation",
    "Blmath.Props.C145_line",
    "Blmath.Props.C145_witness"
   ],
   "note": "exact reals; np.linalg.svd is a parameter with the contract of C58; the set of best rotations is described in every case"
  },
  {
   "property": "C146",
   "status": "proved",
   "theorems": [
    "Blmath.Props.C146_mapped",
    "Blmath.Props.C146_moved",
    "Blmath.Props.C146_listed",
    "Blmath.Props.C146_witness"
   ],
   "note": "Exact reals; NaN rows of the not normalized vertex normals in the reals with NaN. Witness: a triangle mirrored, enlarged and moved."
  },
  {
   "property": "C147",
   "status": "proved",
   "theorems": [
    "Blmath.Props.C147_half",
    "Blmath.Props.C147_iff",
    "Blmath.Props.C147_miss",
    "Blmath.Props.C147_ends",
    "Blmath.Props.C147_witness"
   ],
   "note": "Exact reals; the mesh is convex with no vertex in the plane of a face but its corners (as in C131), no vertex on the first plane. Witness: an octahedron cut by two slanted planes."
  },
  {
   "property": "C148",
   "status": "proved",
   "theorems": [
    "Blmath.Props.C148_points",
    "Blmath.Props.C148_touch",
    "Blmath.Props.C148_sections",
    "Blmath.Props.C148_half",
    "Blmath.Props.C148_witness"
   ],
   "note": "Points of the cut are the points of the polyline on or in front of the plane; touching case; sections of arbitrary meshes cut by a second plane; convex solids."
  },
  {
   "property": "C149",
   "status": "proved",
   "theorems": [
    "Blmath.Props.C149_points",
    "Blmath.Props.C149_sections",
    "Blmath.Props.C149_witness"
   ],
   "note": "Rounded counterpart of C148; constants 11, 115 are not sharp"
  },
  {
   "property": "C150",
   "status": "proved",
   "theorems": [
    "Blmath.Props.C150_exact",
    "Blmath.Props.C150_lines",
    "Blmath.Props.C150_error",
    "Blmath.Props.C150_close",
    "Blmath.Props.C150_swap",
    "Blmath.Props.C150_axis",
    "Blmath.Props.C150_integer",
    "Blmath.Props.C150_missed",
    "Blmath.Props.C150_witness",
    "Blmath.Props.C150_swap_witness",
    "Blmath.Props.C150_double",
    "Blmath.Props.C150_double_close",
    "Blmath.Props.C150_double_witness"
   ],
   "note": "LAPACK's elimination for 2x2: exact, backward error, forward error, parallel lines"
  },
  {
   "property": "C151",
   "status": "proved",
   "theorems": [
    "Blmath.Props.C151_solve",
    "Blmath.Props.C151_det",
    "Blmath.Props.C151_inv",
    "Blmath.Props.C151_inv4",
    "Blmath.Props.C151_inv3",
    "Blmath.Props.C151_isomorphism",
    "Blmath.Props.C151_two",
    "Blmath.Props.C151_det33",
    "Blmath.Props.C151_missed",
    "Blmath.Props.C151_witness",
    "Blmath.Props.C151_residual",
    "Blmath.Props.C151_inv_residual",
    "Blmath.Props.C151_singular",
    "Blmath.Props.C151_succeeds",
    "Blmath.Props.C151_rounded_witness"
   ],
   "note": "All sizes by induction, in exact and in rounded arithmetic; the failure in IEEE doubles by evaluation. Reference LAPACK order of operations."
  },
  {
   "property": "C152",
   "status": "proved",
   "theorems": [
    "Blmath.Props.C152_last_row",
    "Blmath.Props.C152_point",
    "Blmath.Props.C152_move",
    "Blmath.Props.C152_roundtrip",
    "Blmath.Props.C152_witness"
   ],
   "note": "All affine matrices, points, programs and roundings."
  },
  {
   "property": "C153",
   "status": "proved",
   "theorems": [
    "Blmath.Props.C153_result",
    "Blmath.Props.C153_residual",
    "Blmath.Props.C153_witness",
    "Blmath.Props.C153_underflow"
   ],
   "note": "Rounded arithmetic with unlimited exponents; underflow shown separately in IEEE doubles"
  },
  {
   "property": "C154",
   "status": "proved",
   "theorems": [
    "Blmath.Props.C154_hull",
    "Blmath.Props.C154_count",
    "Blmath.Props.C154_extreme",
    "Blmath.Props.C154_convexify",
    "Blmath.Props.C154_flatten",
    "Blmath.Props.C154_library",
    "Blmath.Props.C154_witness",
    "Blmath.Props.C154_convexify_witness"
   ],
   "note": "All finite lists of points, over the reals"
  },
  {
   "property": "C155",
   "status": "proved",
   "theorems": [
    "Blmath.Props.C155_factorized",
    "Blmath.Props.C155_least_squares",
    "Blmath.Props.C155_witness"
   ],
   "note": "All least squares problems with independent nonzero columns, over the reals"
  },
  {
   "property": "C156",
   "status": "proved",
   "theorems": [
    "Blmath.Props.C156_transform",
    "Blmath.Props.C156_sign",
    "Blmath.Props.C156_moved",
    "Blmath.Props.C156_flat",
    "Blmath.Props.C156_rotation",
    "Blmath.Props.C156_turned",
    "Blmath.Props.C156_flat_turned",
    "Blmath.Props.C156_flat_moved",
    "Blmath.Props.C156_witness",
    "Blmath.Props.C156_flat_witness"
   ],
   "note": "All point sets and all decompositions within delta; flat sets may raise"
  },
  {
   "property": "C157",
   "status": "proved",
   "theorems": [
    "Blmath.Props.C157_fit",
    "Blmath.Props.C157_flat",
    "Blmath.Props.C157_witness"
   ],
   "note": "All point sets and all orthonormal eigenvectors within delta"
  },
  {
   "property": "C158",
   "status": "proved",
   "theorems": [
    "Blmath.Props.C158_transform",
    "Blmath.Props.C158_rotation",
    "Blmath.Props.C158_witness"
   ],
   "note": "Exact real arithmetic except for the decomposition, which is within delta (as in C156); the errors are arbitrary."
  }
 ]
}