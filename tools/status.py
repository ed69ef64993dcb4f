
STATUS={
"C113":("partial","False for odd numbers of nodes: for the triangle an error of 1e-16 in one eigenvalue gives 1.73e-8 instead of 0 (C113_triangle), because a root is taken of the small product. Proved for graphs with a perfect matching (C113_count), for even numbers of nodes (C113_none), and for all graphs without perfect matchings under a much stronger condition (C113_none_any)."),
"C22":("partial","The last clause is false as stated: lists with repeated entries, which are not permutations, are accepted (C22_violation). Proved: everything about permutations, and None exactly for entries out of range. C22_outcome determines the array returned for every list of entries in range and shows that it is orthogonal exactly for permutations and singular otherwise."),
"C17":("partial","False as stated for nearly deterministic probability vectors, which are read as wavefunctions (C17_violation, C17_violation_assert). Proved for every unit vector, every density matrix, every deterministic vector and every probability vector whose 2-norm is not within tolerance of 1. C17_outcome gives the result for every probability vector, C17_iff says exactly which ones are returned unchanged, and C17_close that whatever is returned differs from the vector by at most 1.001e-5 in total."),
"C19":("partial","False as stated: numbers between half the threshold and the threshold are rounded up to it (C19_violation). Proved: numbers below half an integer threshold, or below a seventh of a float threshold, become zero. C19_iff says exactly which numbers become zero for an integer threshold, and C19_power_of_ten extends it to float thresholds that are powers of ten, such as the default (C19_default)."),
"C41":("partial","False for n = 2, where 2n = 2^n and the coefficient matrix is taken for an operator (C41_violation). Proved for n >= 3, for n = 1 with matrices build_H(1,A), for operators, and for other sizes; C41_two_sites_iff and C41_one_site_iff give the exact coefficient matrices (without tiny entries) for which n = 1, 2 is right: for n = 2 and build_H(2,A,B) only A = B = 0 (C41_two_sites_H)."),
"C42":("partial","The last clause is false: with n_sites omitted the call always raises TypeError (C42_violation). Everything else is proved."),
"C46":("partial","False as stated: the sorting permutation is used instead of its inverse, so A = diag(-3,1,2) gives (-2,3,1) (C46_violation). Proved whenever applying the sorting permutation twice preserves the modulus order, in particular for every positive semidefinite A, and always for n <= 2; C46_iff says that this condition is also necessary, and C46_involution that for distinct moduli it means that the sorting permutation is its own inverse."),
"C48":("partial","The eigm_sp half is proved in full. The eigm_sp_can half is false: its Schur form is not sorted, and a 1x1 zero block in front of a 2x2 block misaligns L (C48_can_violation). Proved: O orthogonal, L = O^T G O antisymmetric, and block form whenever the Schur form is aligned. C48_can_iff is exact: the block form is certain (for every Schur form LAPACK may return) iff G = 0 or det G is not 0."),
"C50":("partial","Unitarity, Hermiticity of G and W = exp(-iG) are proved for every draw. The Heisenberg relation is false for draws with eigenvalue -1, where the principal logarithm of C is not particle-hole symmetric (C50_violation). C50_heisenberg_all gives the rotation that W performs for every draw, and C50_iff shows that, up to 35000 sites, it is within 4e-10 n of C in every entry if and only if C does not have the eigenvalue -1; the difference comes from the code's own cut-off of small coefficients."),
"C52":("partial","The state claims are proved in full. The returnH clause is false for seed=None: the generator returned comes from a second draw (C52_violation). Proved for every integer seed."),
"C53":("partial","Proved for every function of ff_lib and ff_random_states that takes a seed, and for generate_random_planar_graph with a non-zero seed. False for generate_random_planar_graph(n, seed=0), where the seed is ignored (C53_graph_zero)."),
"C79":("partial","False as stated: 0 instead of 1 for the graph without nodes (C79_empty_graph), ValueError for edgeless graphs (C79_edgeless), 0 for non-planar graphs with more than 15 nodes (C79_large), AssertionError for disconnected graphs (C79_disconnected). Proved exactly for all graphs with nodes 0..n-1 in insertion order: the count is right iff the graph is planar and all its edges are in one component (isolated nodes allowed), or it is not planar and has at most 15 nodes or no perfect matching (C79_iff, C79_components, C79_nonplanar). C79_exact gives the exact condition for every graph, whatever its labels and order of insertion."),
"C80":("partial","False as stated: the returned array is not skew-symmetric, and its Pfaffian counts only the perfect matchings inside the spanning tree, so at most one (C80_any_order, C80_pf_pfo, C80_fails). True exactly if all perfect matchings lie in the chosen spanning tree (C80_iff), e.g. for trees (C80_tree_partial)."),
"C81":("partial","False as stated: AssertionError on every connected planar graph with a cycle inserted in descending order (C81_descending, C81_triangle), and a silently wrong count for a path inserted as 1,2,0,3 (C81_wrong_count). Proved for nodes 0..n-1 inserted in this order, and exactly for every graph: success iff planar, all edges in one component, every edge outside the chosen spanning forest reported ascending, labels below n (C81_iff); the exceptions otherwise are determined (C81_errors, C81_nonplanar). The value of the count is determined for every order of insertion: it is the number of those perfect matchings all of whose edges join nodes whose positions are also adjacent labels (C81_count, C81_count_unit)."),
"C86":("partial","False as stated: a one-element distribution is broadcast, and total_variation_distance then exceeds 1 (C86_violation). Proved when neither distribution has length 1. C86_outcome gives the values for length 1, and C86_iff says exactly when the lengths are rejected."),
"C93":("partial","False as documented for the occupations: the diagonal of the default correlation matrix is identically zero (C93_violation), while in every Gaussian state every site is filled with positive probability (C93_violation_gaussian). Proved: entry [i, n+j] is <a_i^dag a_j>, so the occupations are the entries [i, n+i]."),
"C92":("partial","False as stated: for two sites, the identity rotation and the distribution (1/2,0,0,1/2) Wick's theorem fails (C92_fails). Proved exactly: it holds iff the drawn distribution fills the sites independently (C92_iff), hence always for one site."),
"C114":("partial","False for check_canonical_form(L), which is True only if every eigenvalue of H is within the tolerance of zero (C114_canonical_iff, C114_violation). Proved for the other two checks."),
"C115":("partial","False: every Kitaev chain with mu > 1e-8 has an entry that is zero or negative (C115_violation). Proved exactly: the entries are the eigenvalues up to sign, with the signs of eigvalsh(A) whatever B is (C115_signs_partial, C115_iff)."),
"C124":("partial","False for the casts: for a complex square array on two or more levels cast_to_density_matrix returns the argument itself (C124_cast_alias, C124_cast_not_own) and cast_to_pdf a read-only view of its diagonal, so that later assignments to the argument show in the result (C124_pdf_later). Proved in full for the other functions, and for the casts of vectors and of real arrays (C124_cast_own_partial)."),
"C116":("partial","False: the state is a thermal state and never pure; it is the normalised projector onto the ground states only if all energies are equal (C116_violation). Proved: the ground states are the limit of generate_gaussian_state(n, beta H) for large beta, and the overlap with them for beta = 1 is computed (C116_limit_partial, C116_overlap)."),
"C127":("partial","Proved in full for eigh_sp, eigv_sp, eigm_sp and eigm_sp_can (C127_eigen_rejects, C127_eigm_can_rejects). False for the others (C127_not_rejected): build_H and build_V accept vectors, single numbers and n x 1 arrays and repeat them; is_symp accepts 3 x 3 arrays; the correlation functions ignore the number of rows, generate_gaussian_state ignores additional columns, and the partial traces do not test the number of columns. For every shape it is proved what is accepted and what is returned."),
"C129":("partial","False in general (C129_violation): the casts accept diagonal entries down to -1e-12, and one negative entry makes the Shannon entropy -inf, the relative entropy and the Jensen-Shannon divergence of the input with itself inf, and the Bhattacharyya coefficient nan; and they accept totals up to 1e-5 away from one, for which the entropies of orders near one are unbounded (C129_orders_near_one). For every accepted input it is proved what each measure returns; the total variation distance is a metric."),
"C130":("partial","True for the partial traces (exact exceptions) and for arrays with no axes or with three or more axes none of length one. False for the rest: arrays with three or more axes one of which has length one are read as the vector of all their entries, so a stack of one pure density matrix becomes a state of dimension d^2 with twice the entropy (C130_flattens, C130_stack, C130_stack_entropy), and negative orders are accepted (C130_negative_order gives the value)."),
"C132":("partial","Proved in full for the casts, dt, pt, is_symp and build_op. pf and hf return nan exactly if an entry off the diagonal is nan (C132_pf_hf): they never read the diagonal, and for an odd number of rows they return 0 without reading anything (C132_odd). Infinities are the subject of C140."),
"C134":("partial","The first two clauses are proved (C134_replay, C134_separate; C134_replay_needed shows that the condition is needed). The third and the fourth clause are false: C134_repeats (a seeded call sets the generator that later unseeded calls and the caller share), C134_same_state and C134_commute (same vectors from three functions with seeds k and k+1; rotation and state of the same seed commute)."),
"C135":("partial","True for one site (C135_one_site_partial). False for two or more: the H returned is the operator on the Fock space, and eigh_sp raises AssertionError as soon as one on-site energy A[i,i] with i > 0 exceeds 6e-9 (C135_rejects); for every n >= 2 there are admissible draws for which the documented script raises (C135_script_violation)."),
"C137":("partial","Proved: the uniform distribution of the free-fermion states that rotations make from a given state exists and is unique (C137_unique); W0, random_FF_state(pure=True), WN and rotPDF sample such distributions, with probability one and up to 4e-10 n^2 (8e-10 n^2 for rotPDF), which is the entries build_op drops (C137_W0, C137_state, C137_WN_partial, C137_rotPDF); random_FF_rotation performs its orbital rotation with probability one (C137_rotation). False as documented: the distribution of WN is not one of N-particle states, it depends only on the parity of N (C137_WN_parity), and for even N it is the one of W0 (C137_WN_is_W0). States of odd parity are not free-fermion rotations of the vacuum, so W0 never returns them."),
"C138":("partial","Proved: WN(n) without N samples, up to 4e-10 n^2, the mixture of the uniform distributions on the even and on the odd free-fermion states with weights (floor(n/2)+1)/(n+1) and floor((n+1)/2)/(n+1), so the parities are balanced only for odd n (C138_WN_random); CN(n) samples the same mixture exactly, unless the drawn orbital rotation has entries that are small but not zero (C138_CN; for one site it never has, orb_one_site). False as documented: the entries of random_H_generator are centred Gaussians with variances 4, 2 or 0 (C138_generator), none of them standard normal (C138_generator_not_standard)."),
"C140":("partial","Proved for dt, pt, is_symp, build_op, the casts of vectors, and pf and hf with an even number of rows and an entry off the diagonal. False otherwise: pf and hf never read the diagonal (C140_diagonal) and return 0 for an odd number of rows (C140_odd); the cast of a matrix with matching infinities off the diagonal depends on np.linalg.eigvalsh (C140_cast_infinity); infinities that do not match are always rejected (C140_cast_mirror). With bounds on the entries, of real or complex arrays, dt, pt, pf and hf are finite, and so are the entries of build_op; without them dt of an array with determinant 0 may be nan (C140_overflow), and dt of an invertible array may be 0 (C140_underflow)."),
"C157":("partial","False as stated: the stabilizer distribution of a nearly maximally mixed state has a 2-norm close to one and is read as a wavefunction by renyi_entropy, so that its squares are used, or AssertionError is raised (C157_violation: the qubit state diag(0.50135, 0.49865)). C157_outcome and C157_outcome_inf give the result for every state, C157_purity_partial says that the value is as documented if 2^n purity >= 1.00003 and that nothing is raised if 2^n purity <= 1.000005."),
"C158":("partial","Proved for pure=False (C158_mixed_partial). False for pure=True: the flag has no effect there (C158_pure_ignores), and for some draws the returned generator does not commute with the particle number and the state is not the vacuum, which a number-conserving generator would leave in place (C158_violation)."),
"C159":("partial","False as stated: for a string such as the single character one half, isnumeric holds and float raises ValueError, and numbers with a sign or an exponent are returned unrounded (C159_violation, C159_unchanged). C159_decimal and C159_outcome_partial give the result for every string; C159_ascii_partial says that ASCII strings never raise."),
"C160":("partial","False as documented: from (1,0,0) to (1,1,1) the point half way is not in the plane of the two vectors, for every QR factorisation and principal logarithm (C160_violation). True: the speed is constant (C160_speed_partial) and the path stands still for equal directions (C160_same_partial)."),
"C162":("partial","True for build_unitary_path and lengths from two (C162_unitary_partial). False otherwise: if a length is 0 or 1 build_unitary_path raises IndexError, even for equal lengths (C162_unitary_short); build_linear_path never raises, only the evaluation of the path does, and exactly if neither length is one (C162_linear_error); a vector of length one is repeated (C162_violation). C162_unitary_same and C162_linear_same tie the models to those of C60 and C61."),
}
