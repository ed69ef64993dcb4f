{
 "claims": [
  {
   "property": "C01",
   "status": "proved",
   "theorems": [
    "FF.Props.C01_sgn_eq_sign",
    "FF.Props.C01_sgn_mul",
    "FF.Props.C01_sgn_swap",
    "FF.Props.C01_all_sequences"
   ],
   "note": ""
  },
  {
   "property": "C02",
   "status": "proved",
   "theorems": [
    "FF.Props.C02_dt_eq_det",
    "FF.Props.C02_dt_mul"
   ],
   "note": ""
  },
  {
   "property": "C03",
   "status": "proved",
   "theorems": [
    "FF.Props.C03_pt_eq_permanent",
    "FF.Props.C03_pt_invariant"
   ],
   "note": ""
  },
  {
   "property": "C04",
   "status": "proved",
   "theorems": [
    "FF.Props.C04_hf_eq_sum_matchings",
    "FF.Props.C04_hf_adj_counts"
   ],
   "note": ""
  },
  {
   "property": "C05",
   "status": "proved",
   "theorems": [
    "FF.Props.C05_pf_sq"
   ],
   "note": ""
  },
  {
   "property": "C06",
   "status": "proved",
   "theorems": [
    "FF.Props.C06_pf_congruence",
    "FF.Props.C06_pf_swap"
   ],
   "note": ""
  },
  {
   "property": "C07",
   "status": "proved",
   "theorems": [
    "FF.Props.C07_odd"
   ],
   "note": ""
  },
  {
   "property": "C08",
   "status": "proved",
   "theorems": [
    "FF.Props.C08_hf_bipartite",
    "FF.Props.C08_pf_bipartite"
   ],
   "note": ""
  },
  {
   "property": "C09",
   "status": "proved",
   "theorems": [
    "FF.Props.C09_parts",
    "FF.Props.C09_pf_symmetric",
    "FF.Props.C09_transpose"
   ],
   "note": ""
  },
  {
   "property": "C10",
   "status": "proved",
   "theorems": [
    "FF.Props.C10_dt_eigen",
    "FF.Props.C10_dt_eigen_none"
   ],
   "note": ""
  },
  {
   "property": "C11",
   "status": "proved",
   "theorems": [
    "FF.Props.C11_dt_pt_kron_plus",
    "FF.Props.C11_pf_hf_kron_plus"
   ],
   "note": ""
  },
  {
   "property": "C12",
   "status": "proved",
   "theorems": [
    "FF.Props.C12_kron_plus_defined",
    "FF.Props.C12_kron_plus_blocks",
    "FF.Props.C12_kron_plus_hom",
    "FF.Props.C12_kron_plus_assoc"
   ],
   "note": ""
  },
  {
   "property": "C13",
   "status": "proved",
   "theorems": [
    "FF.Props.C13_partial_trace_errors",
    "FF.Props.C13_partial_trace_over_1",
    "FF.Props.C13_partial_trace_over_2",
    "FF.Props.C13_partial_trace_over_2_trace",
    "FF.Props.C13_partial_trace_entries",
    "FF.Props.C13_partial_trace_over_2_exact",
    "FF.Props.C13_over_2_drops_small_imaginary"
   ],
   "note": ""
  },
  {
   "property": "C14",
   "status": "proved",
   "theorems": [
    "FF.Props.C14_states_to_states",
    "FF.Props.C14_hermitian_psd",
    "FF.Props.C14_linear"
   ],
   "note": ""
  },
  {
   "property": "C15",
   "status": "proved",
   "theorems": [
    "FF.Props.C15_bitstring",
    "FF.Props.C15_reachable",
    "FF.Props.C15_invalid"
   ],
   "note": ""
  },
  {
   "property": "C16",
   "status": "proved",
   "theorems": [
    "FF.Props.C16_sound",
    "FF.Props.C16_result_matrix",
    "FF.Props.C16_result_vector",
    "FF.Props.C16_density",
    "FF.Props.C16_unit_vector",
    "FF.Props.C16_row_column",
    "FF.Props.C16_prob_vector",
    "FF.Props.C16_rejects",
    "FF.Props.C16_rejects_matrix"
   ],
   "note": ""
  },
  {
   "property": "C17",
   "status": "partial",
   "theorems": [
    "FF.Props.C17_close",
    "FF.Props.C17_wavefunction",
    "FF.Props.C17_density",
    "FF.Props.C17_prob_vector_partial",
    "FF.Props.C17_deterministic",
    "FF.Props.C17_outcome",
    "FF.Props.C17_iff",
    "FF.Props.C17_violation",
    "FF.Props.C17_violation_assert"
   ],
   "note": "False as stated for nearly deterministic probability vectors, which are read as wavefunctions (C17_violation, C17_violation_assert). Proved for every unit vector, every density matrix, every deterministic vector and every probability vector whose 2-norm is not within tolerance of 1. C17_outcome gives the result for every probability vector, C17_iff says exactly which ones are returned unchanged, and C17_close that whatever is returned differs from the vector by at most 1.001e-5 in total."
  },
  {
   "property": "C18",
   "status": "proved",
   "theorems": [
    "FF.Props.C18_accuracy",
    "FF.Props.C18_total",
    "FF.Props.C18_idempotent",
    "FF.Props.C18_float_not_idempotent"
   ],
   "note": ""
  },
  {
   "property": "C19",
   "status": "partial",
   "theorems": [
    "FF.Props.C19_violation",
    "FF.Props.C19_zeroes_partial",
    "FF.Props.C19_iff",
    "FF.Props.C19_power_of_ten",
    "FF.Props.C19_default",
    "FF.Props.C19_bad_threshold"
   ],
   "note": "False as stated: numbers between half the threshold and the threshold are rounded up to it (C19_violation). Proved: numbers below half an integer threshold, or below a seventh of a float threshold, become zero. C19_iff says exactly which numbers become zero for an integer threshold, and C19_power_of_ten extends it to float thresholds that are powers of ten, such as the default (C19_default)."
  },
  {
   "property": "C20",
   "status": "proved",
   "theorems": [
    "FF.Props.C20_precision_restored",
    "FF.Props.C20_prints_once",
    "FF.Props.C20_fallback"
   ],
   "note": ""
  },
  {
   "property": "C21",
   "status": "proved",
   "theorems": [
    "FF.Props.C21_real",
    "FF.Props.C21_complex",
    "FF.Props.C21_other"
   ],
   "note": ""
  },
  {
   "property": "C22",
   "status": "partial",
   "theorems": [
    "FF.Props.C22_permutation",
    "FF.Props.C22_composition",
    "FF.Props.C22_none_partial",
    "FF.Props.C22_violation",
    "FF.Props.C22_outcome"
   ],
   "note": "The last clause is false as stated: lists with repeated entries, which are not permutations, are accepted (C22_violation). Proved: everything about permutations, and None exactly for entries out of range. C22_outcome determines the array returned for every list of entries in range and shows that it is orthogonal exactly for permutations and singular otherwise."
  },
  {
   "property": "C23",
   "status": "proved",
   "theorems": [
    "FF.Props.C23_pauli_group",
    "FF.Props.C23_orthogonal",
    "FF.Props.C23_errors"
   ],
   "note": ""
  },
  {
   "property": "C24",
   "status": "proved",
   "theorems": [
    "FF.Props.C24_names"
   ],
   "note": ""
  },
  {
   "property": "C25",
   "status": "proved",
   "theorems": [
    "FF.Props.C25_car",
    "FF.Props.C25_length"
   ],
   "note": ""
  },
  {
   "property": "C26",
   "status": "proved",
   "theorems": [
    "FF.Props.C26_alphas",
    "FF.Props.C26_algebra",
    "FF.Props.C26_relation"
   ],
   "note": ""
  },
  {
   "property": "C27",
   "status": "proved",
   "theorems": [
    "FF.Props.C27_lowering",
    "FF.Props.C27_raising",
    "FF.Props.C27_number",
    "FF.Props.C27_vacuum"
   ],
   "note": ""
  },
  {
   "property": "C28",
   "status": "proved",
   "theorems": [
    "FF.Props.C28_majoranas",
    "FF.Props.C28_rotation",
    "FF.Props.C28_formula"
   ],
   "note": ""
  },
  {
   "property": "C29",
   "status": "proved",
   "theorems": [
    "FF.Props.C29_right",
    "FF.Props.C29_left",
    "FF.Props.C29_exact",
    "FF.Props.C29_order",
    "FF.Props.C29_incompatible",
    "FF.Props.C29_too_small",
    "FF.Props.C29_left_conj",
    "FF.Props.C29_too_small_left",
    "FF.Props.C29_compose"
   ],
   "note": ""
  },
  {
   "property": "C30",
   "status": "proved",
   "theorems": [
    "FF.Props.C30_algebra",
    "FF.Props.C30_symplectic_iff",
    "FF.Props.C30_compute_S"
   ],
   "note": ""
  },
  {
   "property": "C31",
   "status": "proved",
   "theorems": [
    "FF.Props.C31_blocks",
    "FF.Props.C31_structure",
    "FF.Props.C31_V_eq_SH"
   ],
   "note": ""
  },
  {
   "property": "C32",
   "status": "proved",
   "theorems": [
    "FF.Props.C32_same_operator",
    "FF.Props.C32_defined"
   ],
   "note": ""
  },
  {
   "property": "C33",
   "status": "proved",
   "theorems": [
    "FF.Props.C33_build_op",
    "FF.Props.C33_exact",
    "FF.Props.C33_drop_error",
    "FF.Props.C33_hermitian",
    "FF.Props.C33_empty"
   ],
   "note": ""
  },
  {
   "property": "C34",
   "status": "proved",
   "theorems": [
    "FF.Props.C34_linear",
    "FF.Props.C34_commutator"
   ],
   "note": ""
  },
  {
   "property": "C35",
   "status": "proved",
   "theorems": [
    "FF.Props.C35_number",
    "FF.Props.C35_parity"
   ],
   "note": ""
  },
  {
   "property": "C36",
   "status": "proved",
   "theorems": [
    "FF.Props.C36_structure",
    "FF.Props.C36_operator"
   ],
   "note": ""
  },
  {
   "property": "C37",
   "status": "proved",
   "theorems": [
    "FF.Props.C37_Omega_unitary",
    "FF.Props.C37_Omega_rows",
    "FF.Props.C37_K",
    "FF.Props.C37_K_unitary_symplectic",
    "FF.Props.C37_orthogonal"
   ],
   "note": ""
  },
  {
   "property": "C38",
   "status": "proved",
   "theorems": [
    "FF.Props.C38_interleaves",
    "FF.Props.C38_permutation"
   ],
   "note": ""
  },
  {
   "property": "C39",
   "status": "proved",
   "theorems": [
    "FF.Props.C39_decides",
    "FF.Props.C39_exact",
    "FF.Props.C39_group",
    "FF.Props.C39_rejects"
   ],
   "note": ""
  },
  {
   "property": "C40",
   "status": "proved",
   "theorems": [
    "FF.Props.C40_decides",
    "FF.Props.C40_square",
    "FF.Props.C40_exact"
   ],
   "note": ""
  },
  {
   "property": "C41",
   "status": "partial",
   "theorems": [
    "FF.Props.C41_coefficients_partial",
    "FF.Props.C41_default",
    "FF.Props.C41_operator",
    "FF.Props.C41_other",
    "FF.Props.C41_one_site_partial",
    "FF.Props.C41_violation",
    "FF.Props.C41_one_site_iff",
    "FF.Props.C41_two_sites_iff",
    "FF.Props.C41_two_sites_H"
   ],
   "note": "False for n = 2, where 2n = 2^n and the coefficient matrix is taken for an operator (C41_violation). Proved for n >= 3, for n = 1 with matrices build_H(1,A), for operators, and for other sizes; C41_two_sites_iff and C41_one_site_iff give the exact coefficient matrices (without tiny entries) for which n = 1, 2 is right: for n = 2 and build_H(2,A,B) only A = B = 0 (C41_two_sites_H)."
  },
  {
   "property": "C42",
   "status": "partial",
   "theorems": [
    "FF.Props.C42_antisymmetric_partial",
    "FF.Props.C42_jordan_wigner_partial",
    "FF.Props.C42_violation"
   ],
   "note": "The last clause is false: with n_sites omitted the call always raises TypeError (C42_violation). Everything else is proved."
  },
  {
   "property": "C43",
   "status": "proved",
   "theorems": [
    "FF.Props.C43_entries",
    "FF.Props.C43_relations",
    "FF.Props.C43_state",
    "FF.Props.C43_correlation_matrix",
    "FF.Props.C43_dimension"
   ],
   "note": ""
  },
  {
   "property": "C44",
   "status": "proved",
   "theorems": [
    "FF.Props.C44_shape",
    "FF.Props.C44_decides",
    "FF.Props.C44_closed"
   ],
   "note": ""
  },
  {
   "property": "C45",
   "status": "proved",
   "theorems": [
    "FF.Props.C45_diagonalises",
    "FF.Props.C45_rejects"
   ],
   "note": ""
  },
  {
   "property": "C46",
   "status": "partial",
   "theorems": [
    "FF.Props.C46_values",
    "FF.Props.C46_iff",
    "FF.Props.C46_order_partial",
    "FF.Props.C46_two_partial",
    "FF.Props.C46_involution",
    "FF.Props.C46_psd_partial",
    "FF.Props.C46_violation"
   ],
   "note": "False as stated: the sorting permutation is used instead of its inverse, so A = diag(-3,1,2) gives (-2,3,1) (C46_violation). Proved whenever applying the sorting permutation twice preserves the modulus order, in particular for every positive semidefinite A, and always for n <= 2; C46_iff says that this condition is also necessary, and C46_involution that for distinct moduli it means that the sorting permutation is its own inverse."
  },
  {
   "property": "C47",
   "status": "proved",
   "theorems": [
    "FF.Props.C47_diagonalises"
   ],
   "note": ""
  },
  {
   "property": "C48",
   "status": "partial",
   "theorems": [
    "FF.Props.C48_eigm",
    "FF.Props.C48_can_partial",
    "FF.Props.C48_can_aligned",
    "FF.Props.C48_can_invertible_partial",
    "FF.Props.C48_can_iff",
    "FF.Props.C48_can_violation"
   ],
   "note": "The eigm_sp half is proved in full. The eigm_sp_can half is false: its Schur form is not sorted, and a 1x1 zero block in front of a 2x2 block misaligns L (C48_can_violation). Proved: O orthogonal, L = O^T G O antisymmetric, and block form whenever the Schur form is aligned. C48_can_iff is exact: the block form is certain (for every Schur form LAPACK may return) iff G = 0 or det G is not 0."
  },
  {
   "property": "C49",
   "status": "proved",
   "theorems": [
    "FF.Props.C49_orbital",
    "FF.Props.C49_draw"
   ],
   "note": ""
  },
  {
   "property": "C50",
   "status": "partial",
   "theorems": [
    "FF.Props.C50_unitary",
    "FF.Props.C50_heisenberg_partial",
    "FF.Props.C50_heisenberg_all",
    "FF.Props.C50_iff",
    "FF.Props.C50_violation"
   ],
   "note": "Unitarity, Hermiticity of G and W = exp(-iG) are proved for every draw. The Heisenberg relation is false for draws with eigenvalue -1, where the principal logarithm of C is not particle-hole symmetric (C50_violation). C50_heisenberg_all gives the rotation that W performs for every draw, and C50_iff shows that, up to 35000 sites, it is within 4e-10 n of C in every entry if and only if C does not have the eigenvalue -1; the difference comes from the code's own cut-off of small coefficients."
  },
  {
   "property": "C51",
   "status": "proved",
   "theorems": [
    "FF.Props.C51_generator"
   ],
   "note": ""
  },
  {
   "property": "C52",
   "status": "partial",
   "theorems": [
    "FF.Props.C52_mixed",
    "FF.Props.C52_pure",
    "FF.Props.C52_returnH_partial",
    "FF.Props.C52_violation"
   ],
   "note": "The state claims are proved in full. The returnH clause is false for seed=None: the generator returned comes from a second draw (C52_violation). Proved for every integer seed."
  },
  {
   "property": "C53",
   "status": "partial",
   "theorems": [
    "FF.Props.C53_graph_partial",
    "FF.Props.C53_graph_zero_ignored",
    "FF.Props.C53_graph_zero",
    "FF.Props.C53_reproducible",
    "FF.Props.C53_bad_seed"
   ],
   "note": "Proved for every function of ff_lib and ff_random_states that takes a seed, and for generate_random_planar_graph with a non-zero seed. False for generate_random_planar_graph(n, seed=0), where the seed is ignored (C53_graph_zero)."
  },
  {
   "property": "C54",
   "status": "proved",
   "theorems": [
    "FF.Props.C54_pure",
    "FF.Props.C54_mixed",
    "FF.Props.C54_validation"
   ],
   "note": ""
  },
  {
   "property": "C55",
   "status": "proved",
   "theorems": [
    "FF.Props.C55_density"
   ],
   "note": ""
  },
  {
   "property": "C56",
   "status": "proved",
   "theorems": [
    "FF.Props.C56_density"
   ],
   "note": ""
  },
  {
   "property": "C57",
   "status": "proved",
   "theorems": [
    "FF.Props.C57_initial",
    "FF.Props.C57_state",
    "FF.Props.C57_random_N",
    "FF.Props.C57_invalid",
    "FF.Props.C57_last_seed"
   ],
   "note": ""
  },
  {
   "property": "C58",
   "status": "proved",
   "theorems": [
    "FF.Props.C58_state"
   ],
   "note": ""
  },
  {
   "property": "C59",
   "status": "proved",
   "theorems": [
    "FF.Props.C59_unitary",
    "FF.Props.C59_zero",
    "FF.Props.C59_small"
   ],
   "note": ""
  },
  {
   "property": "C60",
   "status": "proved",
   "theorems": [
    "FF.Props.C60_path",
    "FF.Props.C60_group",
    "FF.Props.C60_small"
   ],
   "note": ""
  },
  {
   "property": "C61",
   "status": "proved",
   "theorems": [
    "FF.Props.C61_ends",
    "FF.Props.C61_norm",
    "FF.Props.C61_zero"
   ],
   "note": ""
  },
  {
   "property": "C85",
   "status": "proved",
   "theorems": [
    "FF.Props.C85_W0"
   ],
   "note": ""
  },
  {
   "property": "C62",
   "status": "proved",
   "theorems": [
    "FF.Props.C62_distribution",
    "FF.Props.C62_dimension"
   ],
   "note": ""
  },
  {
   "property": "C63",
   "status": "proved",
   "theorems": [
    "FF.Props.C63_value",
    "FF.Props.C63_nonneg",
    "FF.Props.C63_zero_iff",
    "FF.Props.C63_inf",
    "FF.Props.C63_clifford",
    "FF.Props.C63_maximally_mixed",
    "FF.Props.C63_not_unitarily_invariant"
   ],
   "note": ""
  },
  {
   "property": "C64",
   "status": "proved",
   "theorems": [
    "FF.Props.C64_formula",
    "FF.Props.C64_inf",
    "FF.Props.C64_bounds",
    "FF.Props.C64_uniform",
    "FF.Props.C64_product"
   ],
   "note": ""
  },
  {
   "property": "C65",
   "status": "proved",
   "theorems": [
    "FF.Props.C65_monotone"
   ],
   "note": ""
  },
  {
   "property": "C66",
   "status": "proved",
   "theorems": [
    "FF.Props.C66_value",
    "FF.Props.C66_nonsquare",
    "FF.Props.C66_large"
   ],
   "note": ""
  },
  {
   "property": "C67",
   "status": "proved",
   "theorems": [
    "FF.Props.C67_covariance",
    "FF.Props.C67_outcome",
    "FF.Props.C67_rejected",
    "FF.Props.C67_formula",
    "FF.Props.C67_formula_exact",
    "FF.Props.C67_bounds",
    "FF.Props.C67_zero_iff",
    "FF.Props.C67_fock",
    "FF.Props.C67_rotation",
    "FF.Props.C67_gaussian"
   ],
   "note": ""
  },
  {
   "property": "C68",
   "status": "proved",
   "theorems": [
    "FF.Props.C68_value",
    "FF.Props.C68_metric"
   ],
   "note": ""
  },
  {
   "property": "C69",
   "status": "proved",
   "theorems": [
    "FF.Props.C69_value",
    "FF.Props.C69_metric",
    "FF.Props.C69_unitary",
    "FF.Props.C69_dominates",
    "FF.Props.C69_classical",
    "FF.Props.C69_helstrom",
    "FF.Props.C69_dimensions"
   ],
   "note": ""
  },
  {
   "property": "C70",
   "status": "proved",
   "theorems": [
    "FF.Props.C70_value",
    "FF.Props.C70_gibbs"
   ],
   "note": ""
  },
  {
   "property": "C71",
   "status": "proved",
   "theorems": [
    "FF.Props.C71_bhattacharyya"
   ],
   "note": ""
  },
  {
   "property": "C72",
   "status": "proved",
   "theorems": [
    "FF.Props.C72_jensen_shannon",
    "FF.Props.C72_value"
   ],
   "note": ""
  },
  {
   "property": "C86",
   "status": "partial",
   "theorems": [
    "FF.Props.C86_lengths_partial",
    "FF.Props.C86_violation",
    "FF.Props.C86_outcome",
    "FF.Props.C86_iff"
   ],
   "note": "False as stated: a one-element distribution is broadcast, and total_variation_distance then exceeds 1 (C86_violation). Proved when neither distribution has length 1. C86_outcome gives the values for length 1, and C86_iff says exactly when the lengths are rejected."
  },
  {
   "property": "C87",
   "status": "proved",
   "theorems": [
    "FF.Props.C87_contraction"
   ],
   "note": ""
  },
  {
   "property": "C73",
   "status": "proved",
   "theorems": [
    "FF.Props.C73_brute",
    "FF.Props.C73_brute_hf",
    "FF.Props.C73_brute_weighted"
   ],
   "note": ""
  },
  {
   "property": "C74",
   "status": "proved",
   "theorems": [
    "FF.Props.C74_faces",
    "FF.Props.C74_outer",
    "FF.Props.C74_other"
   ],
   "note": ""
  },
  {
   "property": "C75",
   "status": "proved",
   "theorems": [
    "FF.Props.C75_complete_face",
    "FF.Props.C75_complete_face_none"
   ],
   "note": ""
  },
  {
   "property": "C76",
   "status": "proved",
   "theorems": [
    "FF.Props.C76_dual_tree",
    "FF.Props.C76_tree_iff"
   ],
   "note": ""
  },
  {
   "property": "C77",
   "status": "proved",
   "theorems": [
    "FF.Props.C77_any_order",
    "FF.Props.C77_pfo"
   ],
   "note": ""
  },
  {
   "property": "C78",
   "status": "proved",
   "theorems": [
    "FF.Props.C78_fkt_weighted",
    "FF.Props.C78_fkt",
    "FF.Props.C78_planar_iff"
   ],
   "note": ""
  },
  {
   "property": "C79",
   "status": "partial",
   "theorems": [
    "FF.Props.C79_count_partial",
    "FF.Props.C79_empty_graph",
    "FF.Props.C79_edgeless",
    "FF.Props.C79_components",
    "FF.Props.C79_components_weighted",
    "FF.Props.C79_nonplanar",
    "FF.Props.C79_iff",
    "FF.Props.C79_large",
    "FF.Props.C79_disconnected",
    "FF.Props.C79_weights_ignored",
    "FF.Props.C79_exact"
   ],
   "note": "False as stated: 0 instead of 1 for the graph without nodes (C79_empty_graph), ValueError for edgeless graphs (C79_edgeless), 0 for non-planar graphs with more than 15 nodes (C79_large), AssertionError for disconnected graphs (C79_disconnected). Proved exactly for all graphs with nodes 0..n-1 in insertion order: the count is right iff the graph is planar and all its edges are in one component (isolated nodes allowed), or it is not planar and has at most 15 nodes or no perfect matching (C79_iff, C79_components, C79_nonplanar). C79_exact gives the exact condition for every graph, whatever its labels and order of insertion."
  },
  {
   "property": "C80",
   "status": "partial",
   "theorems": [
    "FF.Props.C80_any_order",
    "FF.Props.C80_pf_pfo",
    "FF.Props.C80_iff",
    "FF.Props.C80_fails",
    "FF.Props.C80_tree_partial"
   ],
   "note": "False as stated: the returned array is not skew-symmetric, and its Pfaffian counts only the perfect matchings inside the spanning tree, so at most one (C80_any_order, C80_pf_pfo, C80_fails). True exactly if all perfect matchings lie in the chosen spanning tree (C80_iff), e.g. for trees (C80_tree_partial)."
  },
  {
   "property": "C81",
   "status": "partial",
   "theorems": [
    "FF.Props.C81_pfo_partial",
    "FF.Props.C81_descending",
    "FF.Props.C81_nonplanar",
    "FF.Props.C81_iff",
    "FF.Props.C81_errors",
    "FF.Props.C81_labels",
    "FF.Props.C81_count",
    "FF.Props.C81_count_unit",
    "FF.Props.C81_edgeless",
    "FF.Props.C81_triangle",
    "FF.Props.C81_wrong_count"
   ],
   "note": "False as stated: AssertionError on every connected planar graph with a cycle inserted in descending order (C81_descending, C81_triangle), and a silently wrong count for a path inserted as 1,2,0,3 (C81_wrong_count). Proved for nodes 0..n-1 inserted in this order, and exactly for every graph: success iff planar, all edges in one component, every edge outside the chosen spanning forest reported ascending, labels below n (C81_iff); the exceptions otherwise are determined (C81_errors, C81_nonplanar). The value of the count is determined for every order of insertion: it is the number of those perfect matchings all of whose edges join nodes whose positions are also adjacent labels (C81_count, C81_count_unit)."
  },
  {
   "property": "C82",
   "status": "proved",
   "theorems": [
    "FF.Props.C82_random_planar",
    "FF.Props.C82_seeded",
    "FF.Props.C82_returned",
    "FF.Props.C82_small",
    "FF.Props.C82_count"
   ],
   "note": ""
  },
  {
   "property": "C83",
   "status": "proved",
   "theorems": [
    "FF.Props.C83_tree_depth",
    "FF.Props.C83_not_tree",
    "FF.Props.C83_no_nodes"
   ],
   "note": ""
  },
  {
   "property": "C84",
   "status": "proved",
   "theorems": [
    "FF.Props.C84_drawing",
    "FF.Props.C84_kind",
    "FF.Props.C84_edges"
   ],
   "note": ""
  },
  {
   "property": "C88",
   "status": "proved",
   "theorems": [
    "FF.Props.C88_pf",
    "FF.Props.C88_code",
    "FF.Props.C88_majorana",
    "FF.Props.C88_thermal",
    "FF.Props.C88_random_mixed",
    "FF.Props.C88_randH",
    "FF.Props.C88_random_pure",
    "FF.Props.C88_W0",
    "FF.Props.C88_WN",
    "FF.Props.C88_WN_random",
    "FF.Props.C88_CN"
   ],
   "note": ""
  },
  {
   "property": "C89",
   "status": "proved",
   "theorems": [
    "FF.Props.C89_fermi_dirac",
    "FF.Props.C89_general"
   ],
   "note": ""
  },
  {
   "property": "C90",
   "status": "proved",
   "theorems": [
    "FF.Props.C90_projection",
    "FF.Props.C90_modes",
    "FF.Props.C90_pure",
    "FF.Props.C90_random_pure",
    "FF.Props.C90_W0",
    "FF.Props.C90_WN",
    "FF.Props.C90_WN_random",
    "FF.Props.C90_CN"
   ],
   "note": ""
  },
  {
   "property": "C91",
   "status": "proved",
   "theorems": [
    "FF.Props.C91_unique",
    "FF.Props.C91_exchange",
    "FF.Props.C91_faf"
   ],
   "note": ""
  },
  {
   "property": "C92",
   "status": "partial",
   "theorems": [
    "FF.Props.C92_product_partial",
    "FF.Props.C92_iff",
    "FF.Props.C92_one_site_partial",
    "FF.Props.C92_fails"
   ],
   "note": "False as stated: for two sites, the identity rotation and the distribution (1/2,0,0,1/2) Wick's theorem fails (C92_fails). Proved exactly: it holds iff the drawn distribution fills the sites independently (C92_iff), hence always for one site."
  },
  {
   "property": "C93",
   "status": "partial",
   "theorems": [
    "FF.Props.C93_block_partial",
    "FF.Props.C93_violation",
    "FF.Props.C93_violation_gaussian"
   ],
   "note": "False as documented for the occupations: the diagonal of the default correlation matrix is identically zero (C93_violation), while in every Gaussian state every site is filled with positive probability (C93_violation_gaussian). Proved: entry [i, n+j] is <a_i^dag a_j>, so the occupations are the entries [i, n+i]."
  },
  {
   "property": "C94",
   "status": "proved",
   "theorems": [
    "FF.Props.C94_evolution"
   ],
   "note": ""
  },
  {
   "property": "C95",
   "status": "proved",
   "theorems": [
    "FF.Props.C95_spectrum"
   ],
   "note": ""
  },
  {
   "property": "C96",
   "status": "proved",
   "theorems": [
    "FF.Props.C96_zero_mode",
    "FF.Props.C96_no_zero_mode"
   ],
   "note": ""
  },
  {
   "property": "C97",
   "status": "proved",
   "theorems": [
    "FF.Props.C97_data",
    "FF.Props.C97_majorization",
    "FF.Props.C97_errors"
   ],
   "note": ""
  },
  {
   "property": "C98",
   "status": "proved",
   "theorems": [
    "FF.Props.C98_state",
    "FF.Props.C98_errors"
   ],
   "note": ""
  },
  {
   "property": "C99",
   "status": "proved",
   "theorems": [
    "FF.Props.C99_last",
    "FF.Props.C99_first",
    "FF.Props.C99_wick_last",
    "FF.Props.C99_wick_first",
    "FF.Props.C99_thermal"
   ],
   "note": ""
  },
  {
   "property": "C100",
   "status": "proved",
   "theorems": [
    "FF.Props.C100_pinsker",
    "FF.Props.C100_jensen_shannon",
    "FF.Props.C100_bhattacharyya"
   ],
   "note": ""
  },
  {
   "property": "C101",
   "status": "proved",
   "theorems": [
    "FF.Props.C101_data_processing"
   ],
   "note": ""
  },
  {
   "property": "C102",
   "status": "proved",
   "theorems": [
    "FF.Props.C102_products"
   ],
   "note": ""
  },
  {
   "property": "C103",
   "status": "proved",
   "theorems": [
    "FF.Props.C103_mixing",
    "FF.Props.C103_diagonal_above_spectrum"
   ],
   "note": ""
  },
  {
   "property": "C104",
   "status": "proved",
   "theorems": [
    "FF.Props.C104_distribution",
    "FF.Props.C104_additive",
    "FF.Props.C104_additive_mixed",
    "FF.Props.C104_mixed_not_additive"
   ],
   "note": ""
  },
  {
   "property": "C105",
   "status": "proved",
   "theorems": [
    "FF.Props.C105_evolution",
    "FF.Props.C105_gaussian"
   ],
   "note": ""
  },
  {
   "property": "C106",
   "status": "proved",
   "theorems": [
    "FF.Props.C106_unique",
    "FF.Props.C106_range",
    "FF.Props.C106_parent"
   ],
   "note": ""
  },
  {
   "property": "C107",
   "status": "proved",
   "theorems": [
    "FF.Props.C107_plot",
    "FF.Props.C107_any_order",
    "FF.Props.C107_pfo",
    "FF.Props.C107_errors"
   ],
   "note": ""
  },
  {
   "property": "C108",
   "status": "proved",
   "theorems": [
    "FF.Props.C108_value",
    "FF.Props.C108_any_order",
    "FF.Props.C108_messages",
    "FF.Props.C108_figures",
    "FF.Props.C108_complete_face",
    "FF.Props.C108_rejected",
    "FF.Props.C108_descending",
    "FF.Props.C108_complete"
   ],
   "note": ""
  },
  {
   "property": "C109",
   "status": "proved",
   "theorems": [
    "FF.Props.C109_value",
    "FF.Props.C109_brute",
    "FF.Props.C109_warning",
    "FF.Props.C109_planar",
    "FF.Props.C109_wrong_only_if_warned"
   ],
   "note": ""
  },
  {
   "property": "C110",
   "status": "proved",
   "theorems": [
    "FF.Props.C110_wraps",
    "FF.Props.C110_exact_iff",
    "FF.Props.C110_pf_hf",
    "FF.Props.C110_odd",
    "FF.Props.C110_overflow"
   ],
   "note": ""
  },
  {
   "property": "C111",
   "status": "proved",
   "theorems": [
    "FF.Props.C111_dt_pt",
    "FF.Props.C111_pt_nonneg",
    "FF.Props.C111_pf_hf",
    "FF.Props.C111_ten"
   ],
   "note": ""
  },
  {
   "property": "C112",
   "status": "proved",
   "theorems": [
    "FF.Props.C112_dt_pt",
    "FF.Props.C112_pf_hf",
    "FF.Props.C112_bound"
   ],
   "note": ""
  },
  {
   "property": "C113",
   "status": "partial",
   "theorems": [
    "FF.Props.C113_count",
    "FF.Props.C113_none",
    "FF.Props.C113_none_any",
    "FF.Props.C113_triangle"
   ],
   "note": "False for odd numbers of nodes: for the triangle an error of 1e-16 in one eigenvalue gives 1.73e-8 instead of 0 (C113_triangle), because a root is taken of the small product. Proved for graphs with a perfect matching (C113_count), for even numbers of nodes (C113_none), and for all graphs without perfect matchings under a much stronger condition (C113_none_any)."
  },
  {
   "property": "C114",
   "status": "partial",
   "theorems": [
    "FF.Props.C114_checks_partial",
    "FF.Props.C114_canonical_iff",
    "FF.Props.C114_violation"
   ],
   "note": "False for check_canonical_form(L), which is True only if every eigenvalue of H is within the tolerance of zero (C114_canonical_iff, C114_violation). Proved for the other two checks."
  },
  {
   "property": "C115",
   "status": "partial",
   "theorems": [
    "FF.Props.C115_signs_partial",
    "FF.Props.C115_iff",
    "FF.Props.C115_violation"
   ],
   "note": "False: every Kitaev chain with mu > 1e-8 has an entry that is zero or negative (C115_violation). Proved exactly: the entries are the eigenvalues up to sign, with the signs of eigvalsh(A) whatever B is (C115_signs_partial, C115_iff)."
  },
  {
   "property": "C116",
   "status": "partial",
   "theorems": [
    "FF.Props.C116_violation",
    "FF.Props.C116_limit_partial",
    "FF.Props.C116_overlap"
   ],
   "note": "False: the state is a thermal state and never pure; it is the normalised projector onto the ground states only if all energies are equal (C116_violation). Proved: the ground states are the limit of generate_gaussian_state(n, beta H) for large beta, and the overlap with them for beta = 1 is computed (C116_limit_partial, C116_overlap)."
  },
  {
   "property": "C117",
   "status": "proved",
   "theorems": [
    "FF.Props.C117_values",
    "FF.Props.C117_permutation",
    "FF.Props.C117_is_symp",
    "FF.Props.C117_is_symp_silent",
    "FF.Props.C117_check_canonical",
    "FF.Props.C117_gaussian",
    "FF.Props.C117_build_op",
    "FF.Props.C117_build_op_verbose",
    "FF.Props.C117_matchgate",
    "FF.Props.C117_dt_eigen",
    "FF.Props.C117_stabilizer",
    "FF.Props.C117_rotate",
    "FF.Props.C117_rotate_verbose",
    "FF.Props.C117_algebra_value",
    "FF.Props.C117_algebra_errors",
    "FF.Props.C117_algebra_single",
    "FF.Props.C117_algebra_jw"
   ],
   "note": ""
  },
  {
   "property": "C118",
   "status": "proved",
   "theorems": [
    "FF.Props.C118_purity",
    "FF.Props.C118_inf",
    "FF.Props.C118_monotone",
    "FF.Props.C118_upper",
    "FF.Props.C118_violation",
    "FF.Props.C118_upper_attained"
   ],
   "note": ""
  },
  {
   "property": "C119",
   "status": "proved",
   "theorems": [
    "FF.Props.C119_monotone",
    "FF.Props.C119_max_iff",
    "FF.Props.C119_product",
    "FF.Props.C119_not_additive",
    "FF.Props.C119_maximally_mixed",
    "FF.Props.C119_violation"
   ],
   "note": ""
  },
  {
   "property": "C120",
   "status": "proved",
   "theorems": [
    "FF.Props.C120_rotate",
    "FF.Props.C120_rotate_left",
    "FF.Props.C120_build_op",
    "FF.Props.C120_complex",
    "FF.Props.C120_kitaev",
    "FF.Props.C120_kitaev_real",
    "FF.Props.C120_kitaev_hermitian",
    "FF.Props.C120_violation"
   ],
   "note": ""
  },
  {
   "property": "C121",
   "status": "proved",
   "theorems": [
    "FF.Props.C121_generator",
    "FF.Props.C121_orbital",
    "FF.Props.C121_pure",
    "FF.Props.C121_mixed",
    "FF.Props.C121_randH"
   ],
   "note": ""
  },
  {
   "property": "C122",
   "status": "proved",
   "theorems": [
    "FF.Props.C122_basis",
    "FF.Props.C122_amplitude",
    "FF.Props.C122_overlap",
    "FF.Props.C122_evolution"
   ],
   "note": ""
  },
  {
   "property": "C123",
   "status": "proved",
   "theorems": [
    "FF.Props.C123_faf",
    "FF.Props.C123_iff",
    "FF.Props.C123_pf",
    "FF.Props.C123_small",
    "FF.Props.C123_four",
    "FF.Props.C123_random_pure",
    "FF.Props.C123_W0",
    "FF.Props.C123_WN"
   ],
   "note": ""
  },
  {
   "property": "C124",
   "status": "partial",
   "theorems": [
    "FF.Props.C124_rotate",
    "FF.Props.C124_build_op",
    "FF.Props.C124_build_H",
    "FF.Props.C124_partial_trace",
    "FF.Props.C124_clean",
    "FF.Props.C124_linear_path",
    "FF.Props.C124_cast_value",
    "FF.Props.C124_cast_own_partial",
    "FF.Props.C124_cast_alias",
    "FF.Props.C124_cast_not_own",
    "FF.Props.C124_pdf_value",
    "FF.Props.C124_pdf_later",
    "FF.Props.C124_complete_face"
   ],
   "note": "False for the casts: for a complex square array on two or more levels cast_to_density_matrix returns the argument itself (C124_cast_alias, C124_cast_not_own) and cast_to_pdf a read-only view of its diagonal, so that later assignments to the argument show in the result (C124_pdf_later). Proved in full for the other functions, and for the casts of vectors and of real arrays (C124_cast_own_partial)."
  },
  {
   "property": "C125",
   "status": "proved",
   "theorems": [
    "FF.Props.C125_pf_eq_sum_matchings",
    "FF.Props.C125_pf_formula",
    "FF.Props.C125_hf_formula"
   ],
   "note": ""
  },
  {
   "property": "C126",
   "status": "proved",
   "theorems": [
    "FF.Props.C126_modes_exist",
    "FF.Props.C126_many_body",
    "FF.Props.C126_tight_binding",
    "FF.Props.C126_eigh",
    "FF.Props.C126_chain"
   ],
   "note": ""
  },
  {
   "property": "C127",
   "status": "partial",
   "theorems": [
    "FF.Props.C127_build_H",
    "FF.Props.C127_build_V",
    "FF.Props.C127_build_square",
    "FF.Props.C127_vector",
    "FF.Props.C127_is_symp_even",
    "FF.Props.C127_is_symp_three",
    "FF.Props.C127_is_symp_rejects",
    "FF.Props.C127_eigen_rejects",
    "FF.Props.C127_eigm_can_rejects",
    "FF.Props.C127_eigen_square",
    "FF.Props.C127_correlations",
    "FF.Props.C127_correlation_matrix_no_rows",
    "FF.Props.C127_correlation_matrix",
    "FF.Props.C127_gaussian",
    "FF.Props.C127_gaussian_square",
    "FF.Props.C127_partial_trace_1",
    "FF.Props.C127_partial_trace_2",
    "FF.Props.C127_not_rejected"
   ],
   "note": "Proved in full for eigh_sp, eigv_sp, eigm_sp and eigm_sp_can (C127_eigen_rejects, C127_eigm_can_rejects). False for the others (C127_not_rejected): build_H and build_V accept vectors, single numbers and n x 1 arrays and repeat them; is_symp accepts 3 x 3 arrays; the correlation functions ignore the number of rows, generate_gaussian_state ignores additional columns, and the partial traces do not test the number of columns. For every shape it is proved what is accepted and what is returned."
  },
  {
   "property": "C128",
   "status": "proved",
   "theorems": [
    "FF.Props.C128_pairs",
    "FF.Props.C128_range",
    "FF.Props.C128_spectrum",
    "FF.Props.C128_purity",
    "FF.Props.C128_entropy",
    "FF.Props.C128_realise",
    "FF.Props.C128_reduced",
    "FF.Props.C128_thermal"
   ],
   "note": ""
  },
  {
   "property": "C129",
   "status": "partial",
   "theorems": [
    "FF.Props.C129_accepted",
    "FF.Props.C129_shannon_partial",
    "FF.Props.C129_violation",
    "FF.Props.C129_renyi",
    "FF.Props.C129_renyi_inf",
    "FF.Props.C129_orders_near_one",
    "FF.Props.C129_relative_entropy_partial",
    "FF.Props.C129_bhattacharyya_partial",
    "FF.Props.C129_total_variation",
    "FF.Props.C129_jensen_shannon_partial",
    "FF.Props.C129_linear_entropy"
   ],
   "note": "False in general (C129_violation): the casts accept diagonal entries down to -1e-12, and one negative entry makes the Shannon entropy -inf, the relative entropy and the Jensen-Shannon divergence of the input with itself inf, and the Bhattacharyya coefficient nan; and they accept totals up to 1e-5 away from one, for which the entropies of orders near one are unbounded (C129_orders_near_one). For every accepted input it is proved what each measure returns; the total variation distance is a metric."
  },
  {
   "property": "C130",
   "status": "partial",
   "theorems": [
    "FF.Props.C130_agrees",
    "FF.Props.C130_rejects_partial",
    "FF.Props.C130_flattens",
    "FF.Props.C130_stack",
    "FF.Props.C130_stack_entropy",
    "FF.Props.C130_subsystem",
    "FF.Props.C130_negative_order"
   ],
   "note": "True for the partial traces (exact exceptions) and for arrays with no axes or with three or more axes none of length one. False for the rest: arrays with three or more axes one of which has length one are read as the vector of all their entries, so a stack of one pure density matrix becomes a state of dimension d^2 with twice the entropy (C130_flattens, C130_stack, C130_stack_entropy), and negative orders are accepted (C130_negative_order gives the value)."
  },
  {
   "property": "C131",
   "status": "proved",
   "theorems": [
    "FF.Props.C131_lowering",
    "FF.Props.C131_majoranas",
    "FF.Props.C131_kitaev",
    "FF.Props.C131_ising",
    "FF.Props.C131_ising_ground"
   ],
   "note": ""
  },
  {
   "property": "C132",
   "status": "partial",
   "theorems": [
    "FF.Props.C132_cast",
    "FF.Props.C132_cast_finite",
    "FF.Props.C132_dt_pt",
    "FF.Props.C132_pf_hf",
    "FF.Props.C132_odd",
    "FF.Props.C132_is_symp",
    "FF.Props.C132_build_op"
   ],
   "note": "Proved in full for the casts, dt, pt, is_symp and build_op. pf and hf return nan exactly if an entry off the diagonal is nan (C132_pf_hf): they never read the diagonal, and for an odd number of rows they return 0 without reading anything (C132_odd). Infinities are the subject of C140."
  },
  {
   "property": "C133",
   "status": "proved",
   "theorems": [
    "FF.Props.C133_tvd",
    "FF.Props.C133_tvd_small",
    "FF.Props.C133_bhattacharyya",
    "FF.Props.C133_linear_entropy",
    "FF.Props.C133_linear_entropy_assertion",
    "FF.Props.C133_partial_trace_1",
    "FF.Props.C133_partial_trace_2",
    "FF.Props.C133_partial_trace_errors"
   ],
   "note": ""
  },
  {
   "property": "C134",
   "status": "partial",
   "theorems": [
    "FF.Props.C134_replay",
    "FF.Props.C134_replay_needed",
    "FF.Props.C134_separate",
    "FF.Props.C134_repeats",
    "FF.Props.C134_same_state",
    "FF.Props.C134_commute",
    "FF.Props.C134_bitstring"
   ],
   "note": "The first two clauses are proved (C134_replay, C134_separate; C134_replay_needed shows that the condition is needed). The third and the fourth clause are false: C134_repeats (a seeded call sets the generator that later unseeded calls and the caller share), C134_same_state and C134_commute (same vectors from three functions with seeds k and k+1; rotation and state of the same seed commute)."
  },
  {
   "property": "C135",
   "status": "partial",
   "theorems": [
    "FF.Props.C135_rejects",
    "FF.Props.C135_one_site_partial",
    "FF.Props.C135_script_violation"
   ],
   "note": "True for one site (C135_one_site_partial). False for two or more: the H returned is the operator on the Fock space, and eigh_sp raises AssertionError as soon as one on-site energy A[i,i] with i > 0 exceeds 6e-9 (C135_rejects); for every n >= 2 there are admissible draws for which the documented script raises (C135_script_violation)."
  },
  {
   "property": "C136",
   "status": "proved",
   "theorems": [
    "FF.Props.C136_uniform_unique",
    "FF.Props.C136_pure",
    "FF.Props.C136_mixed",
    "FF.Props.C136_orbital",
    "FF.Props.C136_bitstring"
   ],
   "note": ""
  },
  {
   "property": "C137",
   "status": "partial",
   "theorems": [
    "FF.Props.C137_unique",
    "FF.Props.C137_W0",
    "FF.Props.C137_WN_partial",
    "FF.Props.C137_rotation",
    "FF.Props.C137_state",
    "FF.Props.C137_rotPDF",
    "FF.Props.C137_WN_parity",
    "FF.Props.C137_WN_is_W0"
   ],
   "note": "Proved: the uniform distribution of the free-fermion states that rotations make from a given state exists and is unique (C137_unique); W0, random_FF_state(pure=True), WN and rotPDF sample such distributions, with probability one and up to 4e-10 n^2 (8e-10 n^2 for rotPDF), which is the entries build_op drops (C137_W0, C137_state, C137_WN_partial, C137_rotPDF); random_FF_rotation performs its orbital rotation with probability one (C137_rotation). False as documented: the distribution of WN is not one of N-particle states, it depends only on the parity of N (C137_WN_parity), and for even N it is the one of W0 (C137_WN_is_W0). States of odd parity are not free-fermion rotations of the vacuum, so W0 never returns them."
  },
  {
   "property": "C138",
   "status": "partial",
   "theorems": [
    "FF.Props.C138_WN_random",
    "FF.Props.C138_CN",
    "FF.Props.C138_generator",
    "FF.Props.C138_generator_not_standard"
   ],
   "note": "Proved: WN(n) without N samples, up to 4e-10 n^2, the mixture of the uniform distributions on the even and on the odd free-fermion states with weights (floor(n/2)+1)/(n+1) and floor((n+1)/2)/(n+1), so the parities are balanced only for odd n (C138_WN_random); CN(n) samples the same mixture exactly, unless the drawn orbital rotation has entries that are small but not zero (C138_CN; for one site it never has, orb_one_site). False as documented: the entries of random_H_generator are centred Gaussians with variances 4, 2 or 0 (C138_generator), none of them standard normal (C138_generator_not_standard)."
  },
  {
   "property": "C139",
   "status": "proved",
   "theorems": [
    "FF.Props.C139_uniform",
    "FF.Props.C139_expectation",
    "FF.Props.C139_occupation",
    "FF.Props.C139_number",
    "FF.Props.C139_mixture",
    "FF.Props.C139_W0",
    "FF.Props.C139_WN",
    "FF.Props.C139_WN_random",
    "FF.Props.C139_dirichlet",
    "FF.Props.C139_pure",
    "FF.Props.C139_mixed",
    "FF.Props.C139_rotated",
    "FF.Props.C139_rotPDF"
   ],
   "note": ""
  },
  {
   "property": "C140",
   "status": "partial",
   "theorems": [
    "FF.Props.C140_rounding",
    "FF.Props.C140_same",
    "FF.Props.C140_dt_pt",
    "FF.Props.C140_pf_hf",
    "FF.Props.C140_diagonal",
    "FF.Props.C140_odd",
    "FF.Props.C140_dt_pt_finite",
    "FF.Props.C140_pf_hf_finite",
    "FF.Props.C140_integers",
    "FF.Props.C140_integers_pf_hf",
    "FF.Props.C140_overflow",
    "FF.Props.C140_underflow",
    "FF.Props.C140_is_symp",
    "FF.Props.C140_build_op",
    "FF.Props.C140_cast",
    "FF.Props.C140_cast_infinity",
    "FF.Props.C140_cast_mirror",
    "FF.Props.C140_cast_column",
    "FF.Props.C140_dt_pt_finite_complex",
    "FF.Props.C140_pf_hf_finite_complex",
    "FF.Props.C140_build_op_finite",
    "FF.Props.C140_build_op_jordan_wigner"
   ],
   "note": "Proved for dt, pt, is_symp, build_op, the casts of vectors, and pf and hf with an even number of rows and an entry off the diagonal. False otherwise: pf and hf never read the diagonal (C140_diagonal) and return 0 for an odd number of rows (C140_odd); the cast of a matrix with matching infinities off the diagonal depends on np.linalg.eigvalsh (C140_cast_infinity); infinities that do not match are always rejected (C140_cast_mirror). With bounds on the entries, of real or complex arrays, dt, pt, pf and hf are finite, and so are the entries of build_op; without them dt of an array with determinant 0 may be nan (C140_overflow), and dt of an invertible array may be 0 (C140_underflow)."
  },
  {
   "property": "C141",
   "status": "proved",
   "theorems": [
    "FF.Props.C141_dt_pt",
    "FF.Props.C141_pf_hf",
    "FF.Props.C141_ten"
   ],
   "note": ""
  },
  {
   "property": "C142",
   "status": "proved",
   "theorems": [
    "FF.Props.C142_distances",
    "FF.Props.C142_relative_entropy",
    "FF.Props.C142_entropy",
    "FF.Props.C142_entropy_min",
    "FF.Props.C142_shannon",
    "FF.Props.C142_trace_distance",
    "FF.Props.C142_faf",
    "FF.Props.C142_faf_parts"
   ],
   "note": ""
  },
  {
   "property": "C143",
   "status": "proved",
   "theorems": [
    "FF.Props.C143_jensen_shannon",
    "FF.Props.C143_hellinger",
    "FF.Props.C143_roots_needed"
   ],
   "note": ""
  },
  {
   "property": "C144",
   "status": "proved",
   "theorems": [
    "FF.Props.C144_shannon",
    "FF.Props.C144_linear",
    "FF.Props.C144_shannon_sharp",
    "FF.Props.C144_order_zero",
    "FF.Props.C144_correlations",
    "FF.Props.C144_occupations",
    "FF.Props.C144_faf",
    "FF.Props.C144_stabilizer",
    "FF.Props.C144_stabilizer_pure",
    "FF.Props.C144_sre"
   ],
   "note": ""
  },
  {
   "property": "C145",
   "status": "proved",
   "theorems": [
    "FF.Props.C145_operators",
    "FF.Props.C145_anticommutators",
    "FF.Props.C145_algebra",
    "FF.Props.C145_build",
    "FF.Props.C145_hermitian",
    "FF.Props.C145_integers"
   ],
   "note": ""
  },
  {
   "property": "C146",
   "status": "proved",
   "theorems": [
    "FF.Props.C146_correlations",
    "FF.Props.C146_correlations_any",
    "FF.Props.C146_occupations",
    "FF.Props.C146_covariance",
    "FF.Props.C146_small",
    "FF.Props.C146_integers"
   ],
   "note": ""
  },
  {
   "property": "C147",
   "status": "proved",
   "theorems": [
    "FF.Props.C147_eigvalsh",
    "FF.Props.C147_modes",
    "FF.Props.C147_eigh_energies",
    "FF.Props.C147_eigh",
    "FF.Props.C147_many_body"
   ],
   "note": ""
  },
  {
   "property": "C148",
   "status": "proved",
   "theorems": [
    "FF.Props.C148_sre_vec",
    "FF.Props.C148_sre",
    "FF.Props.C148_count",
    "FF.Props.C148_values",
    "FF.Props.C148_uniform",
    "FF.Props.C148_moments"
   ],
   "note": ""
  },
  {
   "property": "C149",
   "status": "proved",
   "theorems": [
    "FF.Props.C149_thermal",
    "FF.Props.C149_occupations",
    "FF.Props.C149_evolution"
   ],
   "note": ""
  },
  {
   "property": "C150",
   "status": "proved",
   "theorems": [
    "FF.Props.C150_free_energy",
    "FF.Props.C150_extremal",
    "FF.Props.C150_correlations",
    "FF.Props.C150_parts"
   ],
   "note": ""
  },
  {
   "property": "C151",
   "status": "proved",
   "theorems": [
    "FF.Props.C151_parts"
   ],
   "note": ""
  },
  {
   "property": "C152",
   "status": "proved",
   "theorems": [
    "FF.Props.C152_response",
    "FF.Props.C152_site",
    "FF.Props.C152_cooling",
    "FF.Props.C152_cooling_strict"
   ],
   "note": ""
  },
  {
   "property": "C153",
   "status": "proved",
   "theorems": [
    "FF.Props.C153_triangle",
    "FF.Props.C153_dropped"
   ],
   "note": ""
  },
  {
   "property": "C154",
   "status": "proved",
   "theorems": [
    "FF.Props.C154_hadamard",
    "FF.Props.C154_pfaffian",
    "FF.Props.C154_permanent",
    "FF.Props.C154_matchings",
    "FF.Props.C154_int64",
    "FF.Props.C154_units",
    "FF.Props.C154_limit",
    "FF.Props.C154_units_float",
    "FF.Props.C154_units_matchings",
    "FF.Props.C154_graph"
   ],
   "note": ""
  },
  {
   "property": "C155",
   "status": "proved",
   "theorems": [
    "FF.Props.C155_eigenvalues",
    "FF.Props.C155_entropy"
   ],
   "note": ""
  },
  {
   "property": "C156",
   "status": "proved",
   "theorems": [
    "FF.Props.C156_thermal",
    "FF.Props.C156_evolution"
   ],
   "note": ""
  },
  {
   "property": "C157",
   "status": "partial",
   "theorems": [
    "FF.Props.C157_outcome",
    "FF.Props.C157_outcome_inf",
    "FF.Props.C157_purity_partial",
    "FF.Props.C157_violation"
   ],
   "note": "False as stated: the stabilizer distribution of a nearly maximally mixed state has a 2-norm close to one and is read as a wavefunction by renyi_entropy, so that its squares are used, or AssertionError is raised (C157_violation: the qubit state diag(0.50135, 0.49865)). C157_outcome and C157_outcome_inf give the result for every state, C157_purity_partial says that the value is as documented if 2^n purity >= 1.00003 and that nothing is raised if 2^n purity <= 1.000005."
  },
  {
   "property": "C158",
   "status": "partial",
   "theorems": [
    "FF.Props.C158_pure_ignores",
    "FF.Props.C158_mixed_partial",
    "FF.Props.C158_violation"
   ],
   "note": "Proved for pure=False (C158_mixed_partial). False for pure=True: the flag has no effect there (C158_pure_ignores), and for some draws the returned generator does not commute with the particle number and the state is not the vacuum, which a number-conserving generator would leave in place (C158_violation)."
  },
  {
   "property": "C159",
   "status": "partial",
   "theorems": [
    "FF.Props.C159_decimal",
    "FF.Props.C159_outcome_partial",
    "FF.Props.C159_unchanged",
    "FF.Props.C159_ascii_partial",
    "FF.Props.C159_violation",
    "FF.Props.C159_agrees"
   ],
   "note": "False as stated: for a string such as the single character one half, isnumeric holds and float raises ValueError, and numbers with a sign or an exponent are returned unrounded (C159_violation, C159_unchanged). C159_decimal and C159_outcome_partial give the result for every string; C159_ascii_partial says that ASCII strings never raise."
  },
  {
   "property": "C160",
   "status": "partial",
   "theorems": [
    "FF.Props.C160_same_partial",
    "FF.Props.C160_speed_partial",
    "FF.Props.C160_violation"
   ],
   "note": "False as documented: from (1,0,0) to (1,1,1) the point half way is not in the plane of the two vectors, for every QR factorisation and principal logarithm (C160_violation). True: the speed is constant (C160_speed_partial) and the path stands still for equal directions (C160_same_partial)."
  },
  {
   "property": "C161",
   "status": "proved",
   "theorems": [
    "FF.Props.C161_spec",
    "FF.Props.C161_arc",
    "FF.Props.C161_onto",
    "FF.Props.C161_same",
    "FF.Props.C161_speed_violation"
   ],
   "note": ""
  },
  {
   "property": "C162",
   "status": "partial",
   "theorems": [
    "FF.Props.C162_unitary_partial",
    "FF.Props.C162_unitary_short",
    "FF.Props.C162_unitary_same",
    "FF.Props.C162_linear_error",
    "FF.Props.C162_linear_same",
    "FF.Props.C162_violation"
   ],
   "note": "True for build_unitary_path and lengths from two (C162_unitary_partial). False otherwise: if a length is 0 or 1 build_unitary_path raises IndexError, even for equal lengths (C162_unitary_short); build_linear_path never raises, only the evaluation of the path does, and exactly if neither length is one (C162_linear_error); a vector of length one is repeated (C162_violation). C162_unitary_same and C162_linear_same tie the models to those of C60 and C61."
  },
  {
   "property": "C163",
   "status": "proved",
   "theorems": [
    "FF.Props.C163_dt",
    "FF.Props.C163_pt",
    "FF.Props.C163_pf",
    "FF.Props.C163_hf"
   ],
   "note": ""
  },
  {
   "property": "C164",
   "status": "proved",
   "theorems": [
    "FF.Props.C164_scale_dt_pt",
    "FF.Props.C164_scale_pf_hf",
    "FF.Props.C164_reorder",
    "FF.Props.C164_moduli",
    "FF.Props.C164_monotone",
    "FF.Props.C164_edges",
    "FF.Props.C164_kasteleyn"
   ],
   "note": ""
  },
  {
   "property": "C165",
   "status": "proved",
   "theorems": [
    "FF.Props.C165_overlap",
    "FF.Props.C165_orthogonal",
    "FF.Props.C165_distance",
    "FF.Props.C165_pure",
    "FF.Props.C165_random",
    "FF.Props.C165_thermal"
   ],
   "note": ""
  },
  {
   "property": "C166",
   "status": "proved",
   "theorems": [
    "FF.Props.C166_defined",
    "FF.Props.C166_correlations",
    "FF.Props.C166_wick",
    "FF.Props.C166_phase",
    "FF.Props.C166_overlap"
   ],
   "note": ""
  },
  {
   "property": "C167",
   "status": "proved",
   "theorems": [
    "FF.Props.C167_basis",
    "FF.Props.C167_density",
    "FF.Props.C167_vector",
    "FF.Props.C167_simulation"
   ],
   "note": ""
  }
 ]
}