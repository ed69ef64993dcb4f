{"id": "C01", "title": "sgn is the sign of a permutation", "statement": "For every permutation of range(n) given as a sequence, sgn returns +1 if the permutation is even and -1 if it is odd; hence sgn of a composition is the product of the sgns and exchanging two entries flips the value.", "quantifier": "every n and every permutation of range(n)", "why_tests_cant": "n! permutations for every n; tests sample a handful", "anchors": ["src/ff/ff_combinatorics.py:sgn"]}
{"id": "C02", "title": "dt is the determinant", "statement": "dt(A) equals the determinant of A for every square matrix of every size; in particular dt(A B)=dt(A)dt(B), dt(A^T)=dt(A), dt(I)=1 and dt is 1 on the 0x0 matrix.", "quantifier": "every n and every n x n matrix over a commutative ring", "why_tests_cant": "infinitely many sizes and entries", "anchors": ["src/ff/ff_combinatorics.py:dt", "src/ff/ff_combinatorics.py:sgn"]}
{"id": "C03", "title": "pt is the permanent", "statement": "pt(A) equals the permanent of A for every square matrix of every size, so it is invariant under transposition and under any reordering of rows and columns.", "quantifier": "every n, every n x n matrix, every pair of row/column permutations", "why_tests_cant": "infinitely many sizes and entries", "anchors": ["src/ff/ff_combinatorics.py:pt"]}
{"id": "C04", "title": "hf is the sum over perfect matchings", "statement": "For every symmetric matrix of even dimension, hf(A) equals the sum, over all perfect matchings of the index set, of the product of the entries of the matched pairs; for a 0/1 adjacency matrix it is the number of perfect matchings of the graph.", "quantifier": "every even n and every symmetric n x n matrix", "why_tests_cant": "the code sums n! terms with a n-dependent multiplicity factor; only small n can be sampled", "anchors": ["src/ff/ff_combinatorics.py:hf"]}
{"id": "C05", "title": "pf squared is the determinant", "statement": "For every skew-symmetric matrix A of any size, pf(A)^2 = dt(A).", "quantifier": "every n and every skew-symmetric n x n matrix over a field of characteristic 0", "why_tests_cant": "the documented identity (docs/examples) is universally quantified", "anchors": ["src/ff/ff_combinatorics.py:pf", "src/ff/ff_combinatorics.py:dt"]}
{"id": "C06", "title": "pf under congruence", "statement": "For every matrix B and every A of the same size (of even dimension or odd), pf(B A B^T) = dt(B) pf(A); in particular swapping two rows and the same two columns flips the sign.", "quantifier": "every n, every A and B", "why_tests_cant": "universally quantified algebraic identity", "anchors": ["src/ff/ff_combinatorics.py:pf", "src/ff/ff_combinatorics.py:dt"]}
{"id": "C07", "title": "odd dimension", "statement": "pf and hf return 0 on every matrix of odd dimension, and dt of a skew-symmetric matrix of odd dimension is 0, so pf(A)^2 = dt(A) is consistent there.", "quantifier": "every odd n and every matrix", "why_tests_cant": "all odd sizes", "anchors": ["src/ff/ff_combinatorics.py:pf", "src/ff/ff_combinatorics.py:hf", "src/ff/ff_combinatorics.py:dt"]}
{"id": "C08", "title": "bipartite reductions", "statement": "hf([[0,A],[A^T,0]]) = pt(A) and pf([[0,A],[-A^T,0]]) = (-1)^(n(n-1)/2) dt(A) for every n x n matrix A.", "quantifier": "every n and every n x n A", "why_tests_cant": "tests check 2x2 and 3x3 literals", "anchors": ["src/ff/ff_combinatorics.py:pf", "src/ff/ff_combinatorics.py:hf", "src/ff/ff_combinatorics.py:pt", "src/ff/ff_combinatorics.py:dt"]}
{"id": "C09", "title": "pf sees only the antisymmetric part, hf only the symmetric part", "statement": "For every square matrix A of even dimension, pf(A) = pf((A-A^T)/2) and hf(A) = hf((A+A^T)/2); in particular pf of a symmetric non-empty matrix is 0 and pf(A^T) = (-1)^(n/2) pf(A).", "quantifier": "every even n and every n x n matrix", "why_tests_cant": "universally quantified; decides what happens for inputs that are not skew-symmetric", "anchors": ["src/ff/ff_combinatorics.py:pf", "src/ff/ff_combinatorics.py:hf"]}
{"id": "C10", "title": "dt_eigen agrees with dt", "statement": "When the eigenvalue routine returns the spectrum with multiplicity, dt_eigen(A) equals dt(A) for every square complex matrix; it returns None exactly when the matrix is not square or the eigenvalue routine fails.", "quantifier": "every shape (m,n), every complex matrix, every behaviour of the eigenvalue routine", "why_tests_cant": "all matrices incl. defective ones; failure path of the routine", "anchors": ["src/ff/ff_combinatorics.py:dt_eigen", "src/ff/ff_combinatorics.py:dt"]}
{"id": "C11", "title": "direct sums", "statement": "pf, hf, pt and dt are multiplicative over direct sums: f(kron_plus(A,B)) = f(A) f(B) for every pair of square matrices (for pf and hf with even-dimensional A and B).", "quantifier": "every pair of sizes and matrices", "why_tests_cant": "universally quantified", "anchors": ["src/ff/ff_combinatorics.py:pf", "src/ff/ff_combinatorics.py:hf", "src/ff/ff_combinatorics.py:pt", "src/ff/ff_combinatorics.py:dt", "src/ff/ff_utils.py:kron_plus"]}
{"id": "C12", "title": "kron_plus is the direct sum", "statement": "kron_plus(a,b) succeeds exactly when both arguments are square, and then is the block diagonal matrix; it respects products, adjoints, traces and sums, and is associative.", "quantifier": "every pair of shapes and matrices", "why_tests_cant": "shape mismatch path for all shapes", "anchors": ["src/ff/ff_utils.py:kron_plus"]}
{"id": "C13", "title": "partial traces of product operators", "statement": "partial_trace_over_1(kron(A,B), dim B) = Tr(A) B and partial_trace_over_2(kron(A,B), dim A) = Tr(B) A, except that partial_trace_over_2 drops the imaginary part of its result when all of it is at most 1e-8; partial_trace_over_1 preserves the trace of every matrix and partial_trace_over_2 that of every Hermitian one (and the real part of it always); both fail exactly when d does not divide the dimension (ZeroDivisionError for d=0, AssertionError otherwise).", "quantifier": "every pair of dimensions, every A, B, every composite matrix", "why_tests_cant": "all dimensions and matrices", "anchors": ["src/ff/ff_utils.py:partial_trace_diagblocksum", "src/ff/ff_utils.py:partial_trace_blockTr"]}
{"id": "C14", "title": "partial traces map states to states", "statement": "If AB is Hermitian (positive semidefinite, trace one) then so are both partial traces, with no tolerance; partial_trace_over_1 is linear and partial_trace_over_2 is linear up to 1e-8 per entry and call (its cast to real).", "quantifier": "every d1,d2 and every state of dimension d1*d2", "why_tests_cant": "all states", "anchors": ["src/ff/ff_utils.py:partial_trace_diagblocksum", "src/ff/ff_utils.py:partial_trace_blockTr"]}
{"id": "C15", "title": "random bit strings have the requested weight", "statement": "For every outcome of the random choice, generate_random_bitstring(n,k) has length n, entries 0/1 and exactly k ones; every weight-k string is reachable; k<0 or k>n gives None.", "quantifier": "every n,k and every random outcome", "why_tests_cant": "all random outcomes", "anchors": ["src/ff/ff_utils.py:generate_random_bitstring"]}
{"id": "C16", "title": "cast_to_density_matrix returns valid states", "statement": "Whatever the input, if cast_to_density_matrix returns rho then rho is square, has trace 1, is Hermitian and has no eigenvalue below -1e-12 (up to the documented tolerances); exact density matrices are returned unchanged; unit vectors (1-D, row or column) become |psi><psi|; other probability vectors become diagonal matrices; everything else raises.", "quantifier": "every array of dimension 1 or 2", "why_tests_cant": "all inputs, incl. every shape", "anchors": ["src/ff/ff_utils.py:cast_to_density_matrix"]}
{"id": "C17", "title": "cast_to_pdf follows the Born rule", "statement": "cast_to_pdf maps a unit wavefunction to the squared moduli, an exact density matrix to its diagonal, and a probability vector to itself; the result is non-negative with sum 1.", "quantifier": "every unit vector, density matrix and probability vector", "why_tests_cant": "all inputs; fails for nearly deterministic probability vectors, which tests do not sample", "anchors": ["src/ff/ff_utils.py:cast_to_pdf", "src/ff/ff_utils.py:cast_to_density_matrix"]}
{"id": "C18", "title": "clean is accurate and idempotent", "statement": "For integer threshold k, every entry of clean(x,k) differs from the entry of x by at most half a unit of the k-th decimal (in each of the real and imaginary parts, except that the whole imaginary part is dropped when all of it is below 10^-k), and cleaning twice equals cleaning once.", "quantifier": "every k, every size, every entry", "why_tests_cant": "all reals", "anchors": ["src/ff/ff_utils.py:clean"]}
{"id": "C19", "title": "clean zeroes everything below the threshold", "statement": "Every entry of magnitude below the threshold is returned as exactly zero (docstring of clean).", "quantifier": "every threshold and entry", "why_tests_cant": "all reals; the interval between threshold/2 and threshold is not sampled", "anchors": ["src/ff/ff_utils.py:clean"]}
{"id": "C20", "title": "printing restores global print options", "statement": "print_custom leaves numpy's global print precision as it found it, for every object, every k and whichever step raises; it prints exactly once unless an exception propagates.", "quantifier": "every object kind, k, prior precision and failure point", "why_tests_cant": "every crash point", "anchors": ["src/ff/ff_utils.py:print_custom", "src/ff/ff_utils.py:_print"]}
{"id": "C21", "title": "formatted_output", "statement": "formatted_output of a number prints exactly `precision` fractional digits of the correctly rounded value, and the printed decimal is within half a unit in the last place; a complex number with |imag| < 1e-10 prints only its real part; non-numbers are printed with str.", "quantifier": "every number and precision", "why_tests_cant": "all values", "anchors": ["src/ff/ff_utils.py:formatted_output"]}
{"id": "C22", "title": "permutation_to_matrix", "statement": "For every permutation of range(n) the result P is the matrix with P e_i = e_{perm[i]}; it is orthogonal, has determinant sgn(perm), and composition of permutations goes to matrix product. The result is None exactly if the list is not a valid permutation.", "quantifier": "every n and every integer list of length n", "why_tests_cant": "all lists; duplicates are not rejected", "anchors": ["src/ff/ff_lib.py:permutation_to_matrix"]}
{"id": "C23", "title": "the Pauli group", "statement": "generate_pauli_group(n) returns 4^n matrices of size 2^n, in lexicographic order of Pauli strings; each is Hermitian and unitary, they are pairwise orthogonal, Tr(P_i P_j)=2^n delta_ij, all but the identity are traceless; non-positive n raises ValueError, non-integers TypeError.", "quantifier": "every n >= 1 and every pair of indices", "why_tests_cant": "exponentially many pairs for every n", "anchors": ["src/ff/ff_lib.py:generate_pauli_group", "src/ff/ff_lib.py:pauli_matrices"]}
{"id": "C24", "title": "verbose Pauli names", "statement": "generate_pauli_group(n, verbose=True) prints, for the k-th returned operator, the Pauli string whose tensor product it is, and returns the same list as with verbose=False.", "quantifier": "every n and every index", "why_tests_cant": "all n", "anchors": ["src/ff/ff_lib.py:generate_pauli_group"]}
{"id": "C25", "title": "canonical anticommutation relations", "statement": "For every number of sites, the Jordan-Wigner lowering operators a_i satisfy a_i a_j + a_j a_i = 0 and a_i a_j^dag + a_j^dag a_i = delta_ij I.", "quantifier": "every n and every pair i,j < n", "why_tests_cant": "all system sizes", "anchors": ["src/ff/ff_lib.py:jordan_wigner_lowering"]}
{"id": "C26", "title": "order of the alphas and their algebra", "statement": "jordan_wigner_alphas(n) has 2n entries, entry i is the adjoint of entry n+i, and compute_algebra_S of it is the block matrix [[0,I],[I,0]].", "quantifier": "every n", "why_tests_cant": "all system sizes", "anchors": ["src/ff/ff_lib.py:jordan_wigner_alphas", "src/ff/ff_lib.py:compute_algebra_S"]}
{"id": "C27", "title": "Fock-space action", "statement": "Lowering operator i maps the computational basis vector with bits b (site 0 = most significant bit) to (-1)^(number of occupied sites before i) times the vector with bit i cleared, and to 0 if bit i is 0; so the vacuum is the first basis vector and a_i^dag a_i reads bit i.", "quantifier": "every n, site i and basis state", "why_tests_cant": "2^n states for every n", "anchors": ["src/ff/ff_lib.py:jordan_wigner_lowering", "src/ff/ff_lib.py:jordan_wigner_alphas"]}
{"id": "C28", "title": "Majorana operators", "statement": "jordan_wigner_majoranas(n) are 2n Hermitian operators with gamma_i gamma_j + gamma_j gamma_i = delta_ij I, equal to rotate_operators(build_Omega(n), jordan_wigner_alphas(n)): (a_k^dag + a_k)/sqrt 2 and -i(a_k - a_k^dag)/sqrt 2, the latter the negative of the formula in the docstring.", "quantifier": "every n and pair i,j < 2n", "why_tests_cant": "all system sizes", "anchors": ["src/ff/ff_lib.py:jordan_wigner_majoranas", "src/ff/ff_lib.py:build_Omega", "src/ff/ff_lib.py:rotate_operators"]}
{"id": "C29", "title": "rotate_operators", "statement": "rotate_operators(C,alphas)[j] = sum_i C_ji alphas_i, with C conjugate-transposed when Left is True, up to dropped coefficients of modulus < 1e-9; the arguments may be given in either order; incompatible shapes return 0; successive rotations compose by matrix product.", "quantifier": "every shape, C and operator list", "why_tests_cant": "all matrices", "anchors": ["src/ff/ff_lib.py:rotate_operators", "src/ff/ff_lib.py:_perform_rotation"]}
{"id": "C30", "title": "symplectic rotations preserve the algebra", "statement": "If is_symp holds exactly for C (C S C^T = S), the operators rotate_operators(C, jordan_wigner_alphas(n)) satisfy the same anticommutation algebra S; conversely if the algebra is preserved then C S C^T = S. In general compute_algebra_S of the rotated list is C S C^T.", "quantifier": "every n and every 2n x 2n matrix C", "why_tests_cant": "all sizes and matrices", "anchors": ["src/ff/ff_lib.py:rotate_operators", "src/ff/ff_lib.py:is_symp", "src/ff/ff_lib.py:compute_algebra_S"]}
{"id": "C31", "title": "structure of build_H and build_V", "statement": "If A is Hermitian and B antisymmetric, build_H(n,A,B) is Hermitian and satisfies S H^T S = -H (particle-hole symmetry); build_V(n,A,B) = S build_H(n,A,B), is antisymmetric; omitting B/Z is the same as passing zeros.", "quantifier": "every n, A, B", "why_tests_cant": "all matrices", "anchors": ["src/ff/ff_lib.py:build_H", "src/ff/ff_lib.py:build_V"]}
{"id": "C32", "title": "V-form and H-form give the same operator", "statement": "build_op(n, build_V(n,A,B), alphas, direct=True) = build_op(n, build_H(n,A,B), alphas) for Jordan-Wigner alphas.", "quantifier": "every n and all A,B", "why_tests_cant": "all matrices", "anchors": ["src/ff/ff_lib.py:build_op", "src/ff/ff_lib.py:build_V", "src/ff/ff_lib.py:build_H"]}
{"id": "C33", "title": "build_op lifts coefficient matrices", "statement": "build_op(n,R,alphas) = sum_ij R_ij alpha_i^dag alpha_j up to dropped coefficients of modulus < 1e-10; a Hermitian R gives a Hermitian operator.", "quantifier": "every n, R, operator list", "why_tests_cant": "all matrices", "anchors": ["src/ff/ff_lib.py:build_op"]}
{"id": "C34", "title": "quadratic Hamiltonians act linearly on the operators", "statement": "For H = build_H(n,A,B) with A Hermitian and B antisymmetric, [build_op(H), alpha_k] = -2 sum_l H_kl alpha_l; commutators of lifts are lifts of commutators up to the factor 2.", "quantifier": "every n, A, B, k", "why_tests_cant": "all system sizes and matrices", "anchors": ["src/ff/ff_lib.py:build_op", "src/ff/ff_lib.py:build_H", "src/ff/ff_lib.py:jordan_wigner_alphas"]}
{"id": "C35", "title": "conservation laws", "statement": "build_op(build_H(n,A,0)) commutes with the total number operator; build_op of every coefficient matrix commutes with fermion parity.", "quantifier": "every n and coefficient matrix", "why_tests_cant": "all system sizes", "anchors": ["src/ff/ff_lib.py:build_op", "src/ff/ff_lib.py:build_H", "src/ff/ff_lib.py:random_H_generator"]}
{"id": "C36", "title": "Kitaev chain", "statement": "kitaev_chain(n,mu,t,delta) is Hermitian and particle-hole symmetric for real parameters, and its operator is sum over sites of -mu(2 n_i - 1) and over bonds of -2t(hop) and pairing terms 2 delta(a_i a_{i+1} + h.c.).", "quantifier": "every n and all real parameters", "why_tests_cant": "all sizes and parameters", "anchors": ["src/ff/ff_lib.py:kitaev_chain", "src/ff/ff_lib.py:build_H"]}
{"id": "C37", "title": "Omega and K", "statement": "build_Omega(n) is unitary; build_K(n) = Omega^dag P Omega with P the reordering matrix; hence K is unitary and symplectic for every n.", "quantifier": "every n", "why_tests_cant": "all sizes", "anchors": ["src/ff/ff_lib.py:build_Omega", "src/ff/ff_lib.py:build_K", "src/ff/ff_lib.py:build_reordering_xx_to_xp"]}
{"id": "C38", "title": "mode reordering", "statement": "build_reordering_xx_to_xp(n) is a permutation matrix P with (v P) interleaving the two halves of the row vector v, i.e. [x..,p..] P = [x1,p1,x2,p2,...], and P^T undoes it.", "quantifier": "every n and vector", "why_tests_cant": "all sizes", "anchors": ["src/ff/ff_lib.py:build_reordering_xx_to_xp"]}
{"id": "C39", "title": "is_symp decides symplecticity", "statement": "For 2n x 2n input is_symp(U) is True exactly if U S U^T agrees with S within tolerance, whether or not U has canonical block form; exact symplectic matrices are accepted and are closed under product, transpose and inverse.", "quantifier": "every n and matrix", "why_tests_cant": "all matrices", "anchors": ["src/ff/ff_lib.py:is_symp"]}
{"id": "C40", "title": "check_canonical_form decides canonical form", "statement": "For every array, check_canonical_form(L) is True exactly if L is square of even dimension, real, skew-symmetric and zero outside the 2x2 diagonal blocks (within tolerance).", "quantifier": "every shape and matrix", "why_tests_cant": "all shapes and matrices", "anchors": ["src/ff/ff_lib.py:check_canonical_form"]}
{"id": "C41", "title": "generate_gaussian_state", "statement": "For every Hermitian 2n x 2n coefficient matrix H the result is exp(-build_op(H))/trace, a Hermitian positive definite trace-one matrix; a 2^n x 2^n operator is used as it is; other sizes return 0.", "quantifier": "every n and Hermitian H", "why_tests_cant": "all n; the sizes 2n and 2^n coincide for n=1,2", "anchors": ["src/ff/ff_lib.py:generate_gaussian_state", "src/ff/ff_lib.py:build_op"]}
{"id": "C42", "title": "covariance matrix", "statement": "compute_cov_matrix(rho,n,alphas) is antisymmetric for every rho and operator list and equals Gamma - Gamma^T; for Jordan-Wigner operators it equals 2 Gamma - S Tr(rho). n_sites may be omitted.", "quantifier": "every rho, n, operator list", "why_tests_cant": "all states; the omitted-argument path", "anchors": ["src/ff/ff_lib.py:compute_cov_matrix", "src/ff/ff_lib.py:compute_2corr_matrix"]}
{"id": "C43", "title": "two-point correlation matrices", "statement": "For Jordan-Wigner operators Gamma + Gamma^T = Tr(rho) S; the conjugated variants are column/row swaps of Gamma; for a state rho, the matrices P and eta are Hermitian with 0 <= eta <= 1 and eta + P^T = I; diagonal blocks contain the occupations.", "quantifier": "every n and state rho", "why_tests_cant": "all states", "anchors": ["src/ff/ff_lib.py:compute_2corr_matrix", "src/ff/ff_lib.py:correlation_matrix"]}
{"id": "C44", "title": "is_matchgate", "statement": "is_matchgate is False for every shape other than (4,4) and otherwise True exactly if the determinants of the inner and corner blocks agree within tolerance; parity-preserving matchgates are closed under products and tensor with scalars.", "quantifier": "every shape and 4x4 matrix", "why_tests_cant": "all matrices", "anchors": ["src/ff/ff_lib.py:is_matchgate"]}
{"id": "C45", "title": "eigh_sp diagonalises with a symplectic unitary", "statement": "For every H = build_H(n,A,B) with A Hermitian, B antisymmetric and every Schur decomposition meeting scipy's contract, eigh_sp passes its assertions and returns (L,U) with U unitary and symplectic, U^dag H U = L, and L of the form diag(-Sigma,Sigma): entrywise up to 2e-10 always (the code treats eigenvalues up to 1e-10 as zero when it sorts), exactly if H has no non-zero eigenvalue of modulus at most 1e-10. Arrays that fail its checks raise AssertionError.", "quantifier": "every n, A, B and every valid Schur decomposition", "why_tests_cant": "all Hamiltonians and all choices of the decomposition", "anchors": ["src/ff/ff_lib.py:eigh_sp", "src/ff/ff_lib.py:build_K", "src/ff/ff_lib.py:build_Omega", "src/ff/ff_lib.py:check_canonical_form"]}
{"id": "C46", "title": "eigh_sp orders the spectrum by A", "statement": "When B=0 the second half of the eigenvalues returned by eigh_sp is the spectrum of A in the order of np.linalg.eigvalsh (comment: re-sort Schur output according to A).", "quantifier": "every n, Hermitian A and valid Schur decomposition", "why_tests_cant": "depends on the permutation that sorts |eigenvalues|; fails only when it is not an involution, i.e. n >= 3 with particular sign patterns", "anchors": ["src/ff/ff_lib.py:eigh_sp"]}
{"id": "C47", "title": "eigv_sp", "statement": "For V = build_V(n,A,B), eigv_sp returns (L,U) with U unitary symplectic and U^T V U = L = [[0,Sigma],[-Sigma,0]] (up to 2e-10, exactly without tiny eigenvalues).", "quantifier": "every n, A, B and valid Schur decomposition", "why_tests_cant": "all inputs", "anchors": ["src/ff/ff_lib.py:eigv_sp"]}
{"id": "C48", "title": "eigm_sp and eigm_sp_can", "statement": "For Majorana-form G = Omega H Omega^dag, eigm_sp returns a real orthogonal O with O^T G O = L and L = i [[0,Sigma],[-Sigma,0]] (up to 4e-10, exactly without tiny eigenvalues); eigm_sp_can returns an orthogonal O with O^T G O a direct sum of 2x2 antisymmetric blocks.", "quantifier": "every n, A, B and valid Schur decomposition", "why_tests_cant": "all inputs", "anchors": ["src/ff/ff_lib.py:eigm_sp", "src/ff/ff_lib.py:eigm_sp_can"]}
{"id": "C49", "title": "random orbital rotations", "statement": "For every orthogonal matrix drawn, random_FF_rotation(returnOrb=True) passes its assertion and returns a unitary, symplectic C in canonical block form [[s,t*],[t,s*]].", "quantifier": "every n and every draw", "why_tests_cant": "all random draws", "anchors": ["src/ff/ff_lib.py:random_FF_rotation", "src/ff/ff_lib.py:is_symp", "src/ff/ff_lib.py:build_Omega"]}
{"id": "C50", "title": "random Fock-space rotations", "statement": "For every draw and every matrix logarithm meeting its contract, random_FF_rotation returns a unitary W = exp(-iG) with G Hermitian (the returnH value), and W^dag alpha_k W = sum_l C_kl alpha_l for the orbital rotation C of the same draw.", "quantifier": "every n and every draw", "why_tests_cant": "all random draws and sizes", "anchors": ["src/ff/ff_lib.py:random_FF_rotation", "src/ff/ff_lib.py:build_op"]}
{"id": "C51", "title": "random_H_generator", "statement": "For every draw random_H_generator returns a Hermitian, particle-hole symmetric 2n x 2n matrix; with fixedN its off-diagonal blocks are 0.", "quantifier": "every n and draw", "why_tests_cant": "all random draws", "anchors": ["src/ff/ff_lib.py:random_H_generator", "src/ff/ff_lib.py:build_H"]}
{"id": "C52", "title": "random_FF_state", "statement": "For every draw, the mixed-state modes return a Hermitian positive definite trace-one matrix and pure=True returns a unit vector; with returnH the returned generator is the one that produced the state.", "quantifier": "every n, seed and random stream", "why_tests_cant": "all random streams; the returnH relation depends on the RNG history", "anchors": ["src/ff/ff_lib.py:random_FF_state"]}
{"id": "C53", "title": "seeds make results reproducible", "statement": "For every function taking a seed, two calls with the same integer seed return the same value whatever happened to the global random state before.", "quantifier": "every seed, every history of the global generators", "why_tests_cant": "all histories", "anchors": ["src/ff/ff_lib.py:random_FF_rotation", "src/ff/ff_lib.py:random_FF_state", "src/ff/ff_lib.py:random_H_generator", "src/ff/ff_random_states.py:random_FF_pure_state_WN", "src/ff/ff_random_states.py:random_FF_pure_state_CN", "src/ff/ff_random_states.py:random_FF_pure_state_W0", "src/ff/ff_random_states.py:random_FF_state_randH", "src/ff/ff_random_states.py:random_FF_state_rotPDF", "src/ff/ff_random_states.py:random_qubit_pure_state", "src/ff/ff_random_states.py:random_qubit_state", "src/ff/ff_graph_theory.py:generate_random_planar_graph"]}
{"id": "C54", "title": "random qubit states", "statement": "For every draw random_qubit_pure_state(n) is a unit vector of length 2^n and random_qubit_state(n) a density matrix whose spectrum is the drawn distribution; n<=0 raises ValueError and non-integers TypeError, before any random number is drawn.", "quantifier": "every n, draw", "why_tests_cant": "all draws", "anchors": ["src/ff/ff_random_states.py:random_qubit_state", "src/ff/ff_random_states.py:random_qubit_pure_state"]}
{"id": "C55", "title": "random_FF_state_randH", "statement": "For every draw the result is a Hermitian positive definite trace-one matrix.", "quantifier": "every n, draw", "why_tests_cant": "all draws", "anchors": ["src/ff/ff_random_states.py:random_FF_state_randH"]}
{"id": "C56", "title": "random_FF_state_rotPDF", "statement": "For every draw the result is a density matrix, unitarily equivalent to diag(s) for the returned distribution s.", "quantifier": "every n, draw", "why_tests_cant": "all draws", "anchors": ["src/ff/ff_random_states.py:random_FF_state_rotPDF"]}
{"id": "C57", "title": "random_FF_pure_state_WN", "statement": "The initial state built by applying creation operators is exactly the computational basis state with the first N sites filled (no sign), and the returned state is a unit vector of fermion parity (-1)^N; N outside 0..n raises ValueError.", "quantifier": "every n, N, draw", "why_tests_cant": "all sizes and draws", "anchors": ["src/ff/ff_random_states.py:random_FF_pure_state_WN"]}
{"id": "C58", "title": "random_FF_pure_state_CN", "statement": "For every draw with a non-zero projection (and no rotated operator having an entry of modulus strictly between 0 and the 1e-9 cut-off), the distilled vacuum is a unit vector annihilated by all rotated lowering operators, and the returned state is a unit vector with rotated occupation numbers exactly K.", "quantifier": "every n, N, draw", "why_tests_cant": "all draws", "anchors": ["src/ff/ff_random_states.py:random_FF_pure_state_CN"]}
{"id": "C59", "title": "get_orthogonal_vectors", "statement": "For n >= 2 and a non-zero vector, the result is unitary with first column v/|v|, for every QR factorisation meeting the contract; zero vectors give the identity.", "quantifier": "every n, vector and QR factorisation", "why_tests_cant": "all vectors", "anchors": ["src/ff/ff_random_states.py:get_orthogonal_vectors"]}
{"id": "C60", "title": "build_unitary_path", "statement": "For all non-zero vectors w,v of dimension >= 2, path(0)=w/|w|, path(1)=v/|v| and path(t) has norm one for every real t.", "quantifier": "every pair of vectors, every t, every QR / logarithm meeting its contract", "why_tests_cant": "all vectors and times", "anchors": ["src/ff/ff_random_states.py:build_unitary_path", "src/ff/ff_random_states.py:get_orthogonal_vectors"]}
{"id": "C61", "title": "build_linear_path", "statement": "path(0)=w/|w|, path(1)=v/|v|, and path(s) is a unit vector for every s, except when the two unit vectors are antipodal and s=1/2, where the norm divided by is 0.", "quantifier": "every pair of vectors and s in [0,1]", "why_tests_cant": "all vectors and parameters", "anchors": ["src/ff/ff_random_states.py:build_linear_path"]}
{"id": "C85", "title": "random_FF_pure_state_W0", "statement": "For every draw the result is the sampled rotation applied to the vacuum |0...0>: a unit vector of even fermion parity.", "quantifier": "every n, draw", "why_tests_cant": "all draws", "anchors": ["src/ff/ff_random_states.py:random_FF_pure_state_W0"]}
{"id": "C62", "title": "stabilizer_distribution is a distribution", "statement": "For every n-qubit state (pure or mixed) the result has 4^n non-negative entries with sum 1, so the assertion never fires; the identity entry is 1/(2^n purity).", "quantifier": "every n >= 1 and state", "why_tests_cant": "all states", "anchors": ["src/ff/ff_distance_measures.py:stabilizer_distribution"]}
{"id": "C63", "title": "SRE detects stabilizer states", "statement": "For every pure state SRE of every finite order >= 0 and of infinite order succeeds and is >= 0; for finite orders it equals 0 exactly when all Pauli expectation values are in {0,+1,-1}. It is invariant under unitaries that permute the Pauli operators up to sign, for every state with 2^n purity >= 1.00003 (all pure states); it is 0 for the maximally mixed state; it is not invariant under all unitaries.", "quantifier": "every n, order and state", "why_tests_cant": "all states", "anchors": ["src/ff/ff_distance_measures.py:SRE", "src/ff/ff_distance_measures.py:stabilizer_distribution", "src/ff/ff_distance_measures.py:renyi_entropy"]}
{"id": "C64", "title": "Renyi entropy", "statement": "renyi_entropy(p,a) equals (1/(1-a)) log sum p_i^a for a not in {0,1,inf}, is between 0 and log d, is 0 for deterministic and log d for uniform distributions, and is additive on product distributions.", "quantifier": "every d, p, a >= 0", "why_tests_cant": "all distributions and orders", "anchors": ["src/ff/ff_distance_measures.py:renyi_entropy"]}
{"id": "C65", "title": "Renyi entropies decrease in the order", "statement": "S_inf <= S_2 <= S_1 <= S_0 for every distribution, and S_b <= S_a whenever a <= b.", "quantifier": "every distribution and pair of orders", "why_tests_cant": "all distributions", "anchors": ["src/ff/ff_distance_measures.py:renyi_entropy"]}
{"id": "C66", "title": "linear entropy", "statement": "linear_entropy(p) = 1 - sum p_i^2 lies in [0, 1-1/d], is 0 exactly for deterministic and 1-1/d exactly for uniform p; it raises AssertionError for every length up to 10^15 that is not a perfect square.", "quantifier": "every d and p", "why_tests_cant": "all distributions", "anchors": ["src/ff/ff_distance_measures.py:linear_entropy"]}
{"id": "C67", "title": "FAF", "statement": "For every state and order k >= 1, FAF_k(rho) = n - (1/2) Tr[(M^T M)^k] with M the real antisymmetric Majorana covariance matrix, up to the Schur entries of modulus at most 1e-10 that the code drops (never below the formula, above it by at most n 1e-20^k); 0 <= FAF_k <= n; FAF_k = 0 exactly if M^T M = 1, in particular for every computational basis state; it is invariant under every unitary that rotates the Majorana operators linearly, in particular under exp(-iG) for quadratic Hermitian G.", "quantifier": "every n, state, k >= 1 and valid Schur decomposition", "why_tests_cant": "all states", "anchors": ["src/ff/ff_distance_measures.py:FAF", "src/ff/ff_distance_measures.py:cov_distribution"]}
{"id": "C68", "title": "total variation distance is a metric bounded by 1", "statement": "TVD is symmetric, satisfies the triangle inequality, is 0 exactly if the distributions agree and at most 1, for all probability distributions of the same length.", "quantifier": "every d and all distributions, given as wavefunction, density matrix or a probability vector that is not read as a wavefunction (see C17)", "why_tests_cant": "all distributions; length-1 inputs broadcast", "anchors": ["src/ff/ff_distance_measures.py:total_variation_distance"]}
{"id": "C69", "title": "trace distance", "statement": "trace_distance is symmetric, in [0,1], 0 exactly for equal states, satisfies the triangle inequality, is invariant under unitary conjugation, dominates the total variation distance of the diagonals (with equality for diagonal states), and is the largest difference of probabilities any yes-no measurement can give on the two states.", "quantifier": "every dimension and all states", "why_tests_cant": "all states", "anchors": ["src/ff/ff_distance_measures.py:trace_distance"]}
{"id": "C70", "title": "relative entropy", "statement": "relative_entropy(p,q) >= 0 with equality exactly if p=q, and +infinity exactly if p puts mass where q does not.", "quantifier": "every d and all distributions", "why_tests_cant": "all distributions", "anchors": ["src/ff/ff_distance_measures.py:relative_entropy"]}
{"id": "C71", "title": "Bhattacharyya coefficient", "statement": "0 <= BC <= 1, symmetric, 1 exactly if p=q, 0 exactly if the supports are disjoint, and 1-BC <= TVD <= sqrt(1-BC^2).", "quantifier": "every d and all distributions", "why_tests_cant": "all distributions", "anchors": ["src/ff/ff_distance_measures.py:bhattacharyya_coeff", "src/ff/ff_distance_measures.py:total_variation_distance"]}
{"id": "C72", "title": "Jensen-Shannon divergence", "statement": "JSD is symmetric, finite, in [0, log 2], 0 exactly if p=q and log 2 exactly if the supports are disjoint.", "quantifier": "every d and all distributions", "why_tests_cant": "all distributions", "anchors": ["src/ff/ff_distance_measures.py:jensen_shannon_divergence"]}
{"id": "C86", "title": "distributions of different lengths are rejected", "statement": "Comparing two distributions of different lengths with total_variation_distance, relative_entropy, bhattacharyya_coeff or jensen_shannon_divergence raises ValueError.", "quantifier": "every pair of lengths and distributions", "why_tests_cant": "all pairs of lengths", "anchors": ["src/ff/ff_distance_measures.py:total_variation_distance", "src/ff/ff_distance_measures.py:relative_entropy", "src/ff/ff_distance_measures.py:bhattacharyya_coeff", "src/ff/ff_distance_measures.py:jensen_shannon_divergence"]}
{"id": "C87", "title": "losing a subsystem does not help to distinguish states", "statement": "Applying partial_trace_over_1 to two states of the same bipartite system never increases their trace distance.", "quantifier": "every pair of dimensions and every pair of states", "why_tests_cant": "all states and dimensions", "anchors": ["src/ff/ff_distance_measures.py:trace_distance", "src/ff/ff_utils.py:partial_trace_diagblocksum"]}
{"id": "C73", "title": "brute-force matchings", "statement": "For every simple graph with at most 15 nodes find_perfect_matchings_brute returns every perfect matching exactly once and nothing else; its length equals hf of the adjacency matrix.", "quantifier": "every graph with n <= 15 nodes", "why_tests_cant": "all graphs", "anchors": ["src/ff/ff_graph_theory.py:find_perfect_matchings_brute", "src/ff/ff_combinatorics.py:hf"]}
{"id": "C74", "title": "faces partitions the darts", "statement": "For every graph with at least one edge and every embedding (rotation system), faces terminates and returns closed walks such that every directed edge occurs in exactly one face exactly once and consecutive edges follow the clockwise rule; moving the outer face to the end only permutes the list.", "quantifier": "every graph and rotation system", "why_tests_cant": "all embeddings; termination of a while loop", "anchors": ["src/ff/ff_graph_theory.py:faces"]}
{"id": "C75", "title": "complete_face fixes the parity of a face", "statement": "If exactly one edge of the face is unassigned, complete_face assigns only that edge so that the product of the orientation signs along the face becomes -1 (an odd number of edges against the walk); every other edge is untouched.", "quantifier": "every face walk and every partial orientation", "why_tests_cant": "all partial orientations", "anchors": ["src/ff/ff_graph_theory.py:complete_face"]}
{"id": "C76", "title": "the dual graph is a tree", "statement": "For every connected planar embedded graph and every spanning tree, dual_graph_H returns a tree on the faces, one edge per non-tree edge.", "quantifier": "every connected planar embedding and spanning tree", "why_tests_cant": "all planar graphs", "anchors": ["src/ff/ff_graph_theory.py:dual_graph_H"]}
{"id": "C77", "title": "pfo_algorithm orients every edge", "statement": "For every connected planar graph with nodes 0..n-1 (in insertion order, at least one edge), every embedding and spanning tree, pfo_algorithm passes its assertion, assigns +1 or -1 to the upper triangle entry of every edge, 0 elsewhere, and every face but the root has sign product -1.", "quantifier": "every connected planar graph, embedding, spanning tree, iteration order", "why_tests_cant": "all planar graphs", "anchors": ["src/ff/ff_graph_theory.py:pfo_algorithm", "src/ff/ff_graph_theory.py:complete_face", "src/ff/ff_graph_theory.py:dual_graph_H", "src/ff/ff_graph_theory.py:faces"]}
{"id": "C78", "title": "FKT counts perfect matchings", "statement": "For every connected planar graph with nodes 0..n-1 in insertion order and at least one edge, count_perfect_matchings_planar returns the number of perfect matchings.", "quantifier": "every connected planar graph, embedding and spanning tree", "why_tests_cant": "all planar graphs", "anchors": ["src/ff/ff_graph_theory.py:count_perfect_matchings_planar", "src/ff/ff_graph_theory.py:pfo_algorithm"]}
{"id": "C79", "title": "count_perfect_matchings agrees with enumeration", "statement": "count_perfect_matchings(G) equals the number of perfect matchings of G for every graph.", "quantifier": "every graph", "why_tests_cant": "all graphs, planar or not, connected or not, of any size", "anchors": ["src/ff/ff_graph_theory.py:count_perfect_matchings", "src/ff/ff_graph_theory.py:find_perfect_matchings_brute", "src/ff/ff_graph_theory.py:count_perfect_matchings_planar"]}
{"id": "C80", "title": "pf of the pfo matrix counts matchings", "statement": "pf(pfo_algorithm(G)) is, up to sign, the number of perfect matchings, as docs/tutorials.rst and docs/examples.rst say.", "quantifier": "every connected planar graph", "why_tests_cant": "all graphs with a cycle", "anchors": ["src/ff/ff_graph_theory.py:pfo_algorithm", "src/ff/ff_graph_theory.py:complete_face", "src/ff/ff_combinatorics.py:pf"]}
{"id": "C81", "title": "pfo_algorithm does not depend on the order in which nodes were added", "statement": "pfo_algorithm succeeds on a connected planar graph whatever the order in which its nodes and edges were inserted.", "quantifier": "every insertion order", "why_tests_cant": "all insertion histories", "anchors": ["src/ff/ff_graph_theory.py:pfo_algorithm", "src/ff/ff_graph_theory.py:dual_graph_H"]}
{"id": "C82", "title": "random planar graphs", "statement": "Whatever the random draws, generate_random_planar_graph(n) returns the first graph among its first 1000 draws that is connected and planar, which then has n nodes and between n-1 and 2n-3 edges, or None if all 1000 were rejected; for n <= 1 it raises ValueError.", "quantifier": "every n and every sequence of draws", "why_tests_cant": "all random outcomes", "anchors": ["src/ff/ff_graph_theory.py:generate_random_planar_graph"]}
{"id": "C83", "title": "compute_tree_depth", "statement": "For a tree, compute_tree_depth returns the largest distance from the first node; it is at most n-1, and 0 exactly for a one-node tree; for a non-tree it raises ValueError.", "quantifier": "every tree", "why_tests_cant": "all trees", "anchors": ["src/ff/ff_graph_theory.py:compute_tree_depth"]}
{"id": "C84", "title": "plot_graph_with_edge_weights builds the right graph", "statement": "The returned graph has nodes 0..n-1; for A symmetric up to numpy's default tolerance it is undirected with one edge per non-zero entry above the diagonal, otherwise directed with one edge per non-zero entry; each weight is within 0.5e-4 of the entry. One figure shows the nodes, labels, grey edges, weights, the matching in red and the title; a matching with an unknown node raises KeyError and no figure is shown.", "quantifier": "every n and real matrix", "why_tests_cant": "all matrices", "anchors": ["src/ff/ff_graph_theory.py:plot_graph_with_edge_weights"]}
{"id": "C88", "title": "Wick's theorem", "statement": "In every state that generate_gaussian_state (n >= 3), random_FF_state (pure or mixed, fixed N or not), random_FF_state_randH, random_FF_pure_state_W0, _WN and _CN return, the expectation value of every product of Jordan-Wigner or Majorana operators is the sum over all pairings of the pair correlations, i.e. pf of the array of contractions taken from compute_2corr_matrix (for different Majorana operators: pf of half the submatrix of compute_cov_matrix).", "quantifier": "every n, every coefficient matrix or random draw, every length and sequence of operators", "why_tests_cant": "all products of all lengths, all states", "anchors": ["src/ff/ff_lib.py:generate_gaussian_state", "src/ff/ff_lib.py:compute_2corr_matrix", "src/ff/ff_lib.py:compute_cov_matrix", "src/ff/ff_random_states.py:random_FF_state_randH", "src/ff/ff_random_states.py:random_FF_pure_state_W0", "src/ff/ff_random_states.py:random_FF_pure_state_WN", "src/ff/ff_random_states.py:random_FF_pure_state_CN", "src/ff/ff_combinatorics.py:pf"]}
{"id": "C89", "title": "Fermi-Dirac statistics", "statement": "For n >= 3 sites and H = build_H(n,A,B) the correlations of generate_gaussian_state(n,H) are compute_2corr_matrix(conjugation=1) = (1+exp(-2H))^-1 and the transpose of compute_2corr_matrix(conjugation=-1) = (1+exp(2H))^-1 (with the entries of H of modulus at most 1e-10 dropped, as build_op does); for general Hermitian coefficients 2H is replaced by H - S H^T S.", "quantifier": "every n >= 3, Hermitian A and antisymmetric B", "why_tests_cant": "all Hamiltonians", "anchors": ["src/ff/ff_lib.py:generate_gaussian_state", "src/ff/ff_lib.py:compute_2corr_matrix", "src/ff/ff_lib.py:build_H", "src/ff/ff_lib.py:build_op"]}
{"id": "C90", "title": "states of zero anti-flatness", "statement": "For every state FAF is 0 exactly if compute_2corr_matrix(conjugation=1) is a projection, and exactly if the state is the vacuum of n orthonormal combinations of the Jordan-Wigner operators; such a state is pure and obeys Wick's theorem. Every random pure free-fermion state (random_FF_state(pure=True), W0, WN, CN) has FAF = 0.", "quantifier": "every n, state, order k >= 1, valid Schur decomposition, random draw", "why_tests_cant": "all states", "anchors": ["src/ff/ff_distance_measures.py:FAF", "src/ff/ff_lib.py:compute_2corr_matrix", "src/ff/ff_random_states.py:random_FF_pure_state_W0", "src/ff/ff_random_states.py:random_FF_pure_state_WN", "src/ff/ff_random_states.py:random_FF_pure_state_CN"]}
{"id": "C91", "title": "a free-fermion state is determined by its correlations", "statement": "Two operators obeying Wick's theorem with the same compute_2corr_matrix (in any of its three conventions) are equal; FAF of a state is 0 exactly if the state is pure and obeys Wick's theorem.", "quantifier": "every n and every pair of operators", "why_tests_cant": "all states", "anchors": ["src/ff/ff_lib.py:compute_2corr_matrix", "src/ff/ff_distance_measures.py:FAF"]}
{"id": "C92", "title": "random_FF_state_rotPDF returns free-fermion states", "statement": "As its docstring says, random_FF_state_rotPDF returns a free-fermion state: Wick's theorem holds in it.", "quantifier": "every n and every random draw", "why_tests_cant": "all draws", "anchors": ["src/ff/ff_random_states.py:random_FF_state_rotPDF"]}
{"id": "C93", "title": "occupations from the correlation matrix", "statement": "As docs/examples.rst does, the occupations of the sites can be read off the second half of the diagonal of compute_2corr_matrix(rho,n,alphas), and the correlations <a_i^dag a_j> off its entries [i, n+j].", "quantifier": "every n, state and site", "why_tests_cant": "all states", "anchors": ["src/ff/ff_lib.py:compute_2corr_matrix", "docs/examples.rst:analyze_correlations"]}
{"id": "C94", "title": "time evolution of correlations", "statement": "For H = build_H(n,A,B), U = expm(-i t build_op(n,H,alphas)) and any state rho, compute_2corr_matrix of U rho U^dag is E P E^dag (conjugation=1) and E G E^T (default), where P and G are those of rho and E = expm(-2 i t H) is a 2n x 2n unitary.", "quantifier": "every n >= 1, Hamiltonian, time and state", "why_tests_cant": "all Hamiltonians, times and states", "anchors": ["src/ff/ff_lib.py:build_H", "src/ff/ff_lib.py:build_op", "src/ff/ff_lib.py:compute_2corr_matrix"]}
{"id": "C95", "title": "eigh_sp solves the many-body problem", "statement": "If eigh_sp(H) returns diag(-s,s) for H = build_H(n,A,B), then the 2^n eigenvalues of build_op(n,H,alphas), with multiplicity, are the sums of +-s_k; Tr exp(-beta build_op) is the product of 2 cosh(beta s_k); the lowest eigenvalue is -sum |s_k|.", "quantifier": "every n >= 1, Hermitian A, antisymmetric B (entries and eigenvalues zero or above the 1e-10 cut-offs), beta, valid Schur form", "why_tests_cant": "all Hamiltonians", "anchors": ["src/ff/ff_lib.py:eigh_sp", "src/ff/ff_lib.py:build_op", "src/ff/ff_lib.py:build_H"]}
{"id": "C96", "title": "the zero mode of the Kitaev chain", "statement": "For eigh_sp(kitaev_chain(n,0,t,delta)) with delta = t or delta = -t exactly one of the n returned energies is zero and the others are +-2t, and the ground energy of the operator is -2|t|(n-1); with a chemical potential none is zero.", "quantifier": "every n >= 1 and |t| >= 1e-10, every valid Schur form", "why_tests_cant": "all lengths and couplings", "anchors": ["src/ff/ff_lib.py:kitaev_chain", "src/ff/ff_lib.py:eigh_sp"]}
{"id": "C97", "title": "analyze_pdf draws the populations and the spectrum", "statement": "For every state (vector, density matrix or distribution) analyze_pdf succeeds and draws d populations, each within 5e-7 of the diagonal entry, and d eigenvalues in descending order, the i-th within 5e-7 of the i-th largest; the drawn eigenvalues majorise the drawn populations up to the rounding, both sum to 1 up to the rounding, and values below 5e-7 are drawn as exactly 0; the title and style are those asked for; a non-array raises TypeError, an empty one ValueError, a non-state what cast_to_density_matrix raises.", "quantifier": "every dimension and state, name and style", "why_tests_cant": "all states", "anchors": ["src/ff/ff_utils.py:analyze_pdf"]}
{"id": "C98", "title": "random_CHP_state returns stabilizer states", "statement": "For every n >= 1 and every outcome of stim's draw, random_CHP_state(n) returns a unit vector of shape (2^n,1) all of whose Pauli expectation values are 0 or +-1, exactly 2^n of them non-zero, so that SRE is 0 at every order; without stim it raises ImportError, otherwise TypeError for a non-integer and ValueError for n <= 0.", "quantifier": "every n, outcome and order", "why_tests_cant": "all outcomes and sizes", "anchors": ["src/ff/ff_random_states.py:random_CHP_state", "src/ff/ff_distance_measures.py:stabilizer_distribution"]}
{"id": "C99", "title": "reduced states of free-fermion states", "statement": "Tracing out the first a sites of a chain with partial_trace_over_1 and calling compute_2corr_matrix on the remaining b sites gives exactly the block of the full correlation matrix that belongs to these sites; partial_trace_over_2 does the same for the first sites (up to imaginary parts of at most 2^a 1e-8 that it drops). Wick's theorem is inherited by both reduced states, in particular by those of generate_gaussian_state.", "quantifier": "every a and b, every operator", "why_tests_cant": "all states and cuts", "anchors": ["src/ff/ff_utils.py:partial_trace_diagblocksum", "src/ff/ff_utils.py:partial_trace_blockTr", "src/ff/ff_lib.py:compute_2corr_matrix", "src/ff/ff_lib.py:generate_gaussian_state"]}
{"id": "C100", "title": "inequalities between the distances", "statement": "2 total_variation_distance^2 <= relative_entropy; total_variation_distance^2 / 2 <= jensen_shannon_divergence <= total_variation_distance log 2; if relative_entropy is finite then bhattacharyya_coeff > 0 and -2 log of it is at most relative_entropy.", "quantifier": "every pair of distributions (in any accepted representation) on the same number of outcomes", "why_tests_cant": "all distributions", "anchors": ["src/ff/ff_distance_measures.py:total_variation_distance", "src/ff/ff_distance_measures.py:relative_entropy", "src/ff/ff_distance_measures.py:jensen_shannon_divergence", "src/ff/ff_distance_measures.py:bhattacharyya_coeff"]}
{"id": "C101", "title": "data processing", "statement": "If both arguments are sent through the same channel (stochastic matrix), total_variation_distance, relative_entropy and jensen_shannon_divergence do not increase and bhattacharyya_coeff does not decrease.", "quantifier": "every channel and pair of distributions", "why_tests_cant": "all channels", "anchors": ["src/ff/ff_distance_measures.py:total_variation_distance", "src/ff/ff_distance_measures.py:relative_entropy", "src/ff/ff_distance_measures.py:jensen_shannon_divergence", "src/ff/ff_distance_measures.py:bhattacharyya_coeff"]}
{"id": "C102", "title": "distances between independent products", "statement": "For independent products bhattacharyya_coeff multiplies, relative_entropy adds (also when infinite) and total_variation_distance is subadditive.", "quantifier": "every two pairs of distributions, of any lengths", "why_tests_cant": "all distributions", "anchors": ["src/ff/ff_distance_measures.py:total_variation_distance", "src/ff/ff_distance_measures.py:relative_entropy", "src/ff/ff_distance_measures.py:bhattacharyya_coeff"]}
{"id": "C103", "title": "mixing does not decrease the entropy", "statement": "A channel that preserves the uniform distribution does not decrease renyi_entropy, at any order from 0 to infinity. Hence renyi_entropy of a density matrix, which is that of its diagonal, is never below that of its eigenvalues.", "quantifier": "every doubly stochastic matrix, distribution, state and order", "why_tests_cant": "all states and orders", "anchors": ["src/ff/ff_distance_measures.py:renyi_entropy"]}
{"id": "C104", "title": "the stabilizer entropy of products", "statement": "stabilizer_distribution of a product of two states is the product of their stabilizer distributions, and SRE of a product of pure states is the sum of the two values, at every order (also for mixed states of normalised purity at least 1.00003); next to a maximally mixed state, whose own SRE is 0, it is smaller by a log 2.", "quantifier": "every two numbers of qubits, pair of states and order", "why_tests_cant": "all states", "anchors": ["src/ff/ff_distance_measures.py:stabilizer_distribution", "src/ff/ff_distance_measures.py:SRE"]}
{"id": "C105", "title": "matchgates are the two-site free-fermion evolutions", "statement": "For every coefficient array of two sites and every complex time, expm of the quadratic operator of build_op is accepted by is_matchgate and satisfies the matchgate condition exactly; conversely an invertible parity-preserving gate satisfies the matchgate condition iff conjugating each Jordan-Wigner operator with it gives a linear combination of the Jordan-Wigner operators.", "quantifier": "every coefficient array, time, flag and invertible parity-preserving 4x4 gate", "why_tests_cant": "all gates", "anchors": ["src/ff/ff_lib.py:is_matchgate", "src/ff/ff_lib.py:build_op", "src/ff/ff_lib.py:jordan_wigner_alphas"]}
{"id": "C106", "title": "parent Hamiltonians of Gaussian states", "statement": "For n >= 3 sites, generate_gaussian_state(n, build_H(n,A,B)) determines the Hamiltonian up to the entries below 1e-10 that build_op skips, and compute_2corr_matrix of the state determines the state. The correlation matrix P lies strictly between 0 and 1 and satisfies S P^T S = 1 - P; conversely every such P equals 1/(1+exp(-2H)) for exactly one H = build_H(n,A,B), and is the correlation matrix of the Gaussian state of this H if H has no tiny entries.", "quantifier": "every n >= 3, all Hermitian A, antisymmetric B, and all matrices P", "why_tests_cant": "all Hamiltonians and correlation matrices", "anchors": ["src/ff/ff_lib.py:generate_gaussian_state", "src/ff/ff_lib.py:build_H", "src/ff/ff_lib.py:compute_2corr_matrix"]}
{"id": "C107", "title": "plot_planar_embedding draws the orientation", "statement": "On every planar graph plot_planar_embedding(G, pfo, title) draws all nodes, labels and grey edges, shows exactly one figure and prints nothing; for every edge with a non-zero entry of pfo there is exactly one arrow, from u to v if the sign of (u,v) is negative; the title is the given one if not empty, else the default. For pfo = pfo_algorithm(G) every edge has one arrow and every face but the last one (every face for an even number of nodes) has an odd number of arrows along its walk. A non-planar graph raises NetworkXException before anything is drawn, a too small pfo raises IndexError and no figure is shown.", "quantifier": "every graph, orientation array and title", "why_tests_cant": "all graphs and arrays", "anchors": ["src/ff/ff_graph_theory.py:plot_planar_embedding", "src/ff/ff_graph_theory.py:pfo_algorithm"]}
{"id": "C108", "title": "pfo_algorithm messages", "statement": "The value or exception of pfo_algorithm does not depend on what it prints, and whenever the verbose call returns it returns the value of the silent call. On every connected planar graph with nodes 0..n-1 and an edge the silent call prints exactly 'Complete pfo'; the verbose call also prints the number of faces and the first five faces, shows F + 3 figures for F faces (if the weights are positive: the spanning tree with all its edges directed upwards, the dual tree, the spanning tree directed downwards, one figure named after each face but the last, and the returned orientation), and the last figure is the drawing of the returned orientation. complete_face prints the edges of the walk if none of them is unassigned, the unassigned ones if there are several, and nothing otherwise. If the dual graph is no tree, its numbers of nodes and edges are printed before AssertionError is raised. For any other order of insertion for which pfo_algorithm succeeds on such a graph (without weights), 'Complete pfo' is printed iff every edge joins nodes whose insertion positions are also adjacent labels, and whenever it is printed the number of perfect matchings computed from the orientation is right.", "quantifier": "every graph, order of insertion, embedding, spanning tree and iteration order", "why_tests_cant": "all planar graphs", "anchors": ["src/ff/ff_graph_theory.py:pfo_algorithm", "src/ff/ff_graph_theory.py:complete_face", "src/ff/ff_graph_theory.py:plot_planar_embedding"]}
{"id": "C109", "title": "counting warns when it is wrong", "statement": "Messages do not change the result of find_perfect_matchings_brute, count_perfect_matchings_planar and count_perfect_matchings. The brute-force warning is printed iff the number of nodes is even and above 15. For graphs with nodes 0..n-1 and no weights, if count_perfect_matchings returns a number that is not the number of perfect matchings, then the graph is empty or the warning was printed.", "quantifier": "every simple graph", "why_tests_cant": "all graphs", "anchors": ["src/ff/ff_graph_theory.py:count_perfect_matchings", "src/ff/ff_graph_theory.py:count_perfect_matchings_planar", "src/ff/ff_graph_theory.py:find_perfect_matchings_brute"]}
{"id": "C110", "title": "arrays of 64-bit integers", "statement": "For an integer array, dt and pt return the 64-bit integer congruent to the determinant and the permanent modulo 2^64, so the result is right exactly when it is a 64-bit integer, even if intermediate products overflow. pf of a skew and hf of a symmetric integer array with 2m rows return the exact integer whenever 2^m m! times it is at most 2^53.", "quantifier": "every size and every integer array", "why_tests_cant": "all arrays", "anchors": ["src/ff/ff_combinatorics.py:dt", "src/ff/ff_combinatorics.py:pt", "src/ff/ff_combinatorics.py:pf", "src/ff/ff_combinatorics.py:hf"]}
{"id": "C111", "title": "rounding errors are bounded", "statement": "With 64-bit floats (no overflow or underflow) the value returned by dt, pt, pf and hf differs from the exact one by at most ((1+u)^k - 1) times the permanent (for pf and hf: the hafnian) of the array of absolute values, where u = 2^-53 and k is about the number of permutations; up to ten rows the factor for dt and pt is below 1e-9. For arrays without negative entries this bounds the relative error of pt.", "quantifier": "every size and every real array", "why_tests_cant": "all arrays", "anchors": ["src/ff/ff_combinatorics.py:dt", "src/ff/ff_combinatorics.py:pt", "src/ff/ff_combinatorics.py:pf", "src/ff/ff_combinatorics.py:hf"]}
{"id": "C112", "title": "integers stored as floats", "statement": "For a float array of integers dt and pt return the exact integer if the permanent of the absolute values is at most 2^53, and so do pf of a skew and hf of a symmetric array with 2m rows if 2^m m! times the hafnian of the absolute values is.", "quantifier": "every size and every array of integers", "why_tests_cant": "all arrays", "anchors": ["src/ff/ff_combinatorics.py:dt", "src/ff/ff_combinatorics.py:pt", "src/ff/ff_combinatorics.py:pf", "src/ff/ff_combinatorics.py:hf"]}
{"id": "C113", "title": "counting perfect matchings with inexact eigenvalues", "statement": "count_perfect_matchings_planar returns exactly the number N of perfect matchings of a connected planar graph also if the eigenvalue routine makes errors of up to eta per eigenvalue, for small eta: n nodes of degree at most D need (D+eta)^n - D^n < 0.5e-10 N, and for N = 0, eta (D+eta)^((n-2)/2) < 0.5e-10.", "quantifier": "every connected planar graph with nodes 0..n-1, every error of the eigenvalues", "why_tests_cant": "all graphs and all errors", "anchors": ["src/ff/ff_graph_theory.py:count_perfect_matchings_planar", "src/ff/ff_combinatorics.py:dt_eigen", "src/ff/ff_utils.py:clean"]}
{"id": "C114", "title": "the documented checks of eigh_sp", "statement": "The results L, U of eigh_sp(build_H(n,A,B)) pass the checks printed in the documentation: is_symp(U) is true, np.allclose(U^dag H U, L) is true and check_canonical_form(L) is true.", "quantifier": "every n, Hermitian A, antisymmetric B and valid Schur decomposition", "why_tests_cant": "all Hamiltonians", "anchors": ["src/ff/ff_lib.py:eigh_sp", "src/ff/ff_lib.py:is_symp", "src/ff/ff_lib.py:check_canonical_form", "docs/examples.rst:268-276", "docs/tutorials.rst:118-128"]}
{"id": "C115", "title": "positive energies", "statement": "The second half of the diagonal of the L that eigh_sp returns holds the positive eigenvalues of H, as the documentation comments.", "quantifier": "every n, Hermitian A, antisymmetric B and valid Schur decomposition", "why_tests_cant": "all Hamiltonians", "anchors": ["src/ff/ff_lib.py:eigh_sp", "src/ff/ff_lib.py:kitaev_chain", "docs/examples.rst"]}
{"id": "C116", "title": "Gaussian states and ground states", "statement": "generate_gaussian_state(n, H) returns the ground state of build_op(H), as the documentation says.", "quantifier": "every n >= 3 and Hermitian coefficient matrix", "why_tests_cant": "all Hamiltonians and all states", "anchors": ["src/ff/ff_lib.py:generate_gaussian_state", "src/ff/ff_lib.py:build_op", "docs/examples.rst:52", "docs/tutorials.rst:98"]}
{"id": "C117", "title": "what the functions print", "statement": "Messages never change a value. permutation_to_matrix prints its message exactly if it returns None; is_symp prints one exactly if the block form and the symplectic test disagree, and nothing for unitary symplectic matrices; check_canonical_form prints exactly one line if it returns False, naming the first failed test, and none if it returns True; generate_gaussian_state and build_op warn exactly about the wrong shape; is_matchgate prints the two determinants rounded to 4 places if verbose; dt_eigen prints one line exactly if it returns None; stabilizer_distribution warns only before raising AssertionError, and never for a state; verbose rotate_operators and build_op report exactly the coefficients that are used; compute_algebra_S prints an error exactly for the pairs whose anticommutator is neither 0 nor a multiple of the identity, and for jordan_wigner_alphas(n) its verbose summary is symmetric, rank 2n, trace 0, eigenvalues -1 and 1.", "quantifier": "every argument of these functions", "why_tests_cant": "all arguments", "anchors": ["src/ff/ff_lib.py:permutation_to_matrix", "src/ff/ff_lib.py:rotate_operators", "src/ff/ff_lib.py:is_symp", "src/ff/ff_lib.py:check_canonical_form", "src/ff/ff_lib.py:build_op", "src/ff/ff_lib.py:generate_gaussian_state", "src/ff/ff_lib.py:compute_algebra_S", "src/ff/ff_lib.py:is_matchgate", "src/ff/ff_combinatorics.py:dt_eigen", "src/ff/ff_distance_measures.py:stabilizer_distribution"]}
{"id": "C118", "title": "the range of the stabilizer entropy", "statement": "For states of normalised purity 2^n Tr rho^2 >= 1.00003, SRE lies between log Tr rho^2 and n log 2 at every order, equals the lower end exactly if all Pauli expectation values are 0 or +-1 (and always at order infinity) and does not increase with the order. For pure states it is at most log((2^n+1)/2) at orders >= 2, at order 2 with equality iff all non-trivial squared Pauli expectation values are 1/(2^n+1). So it is 0 for pure stabilizer states only: mixed stabilizer states get negative values, and the maximally mixed state 0, not a positive value as documented.", "quantifier": "every n >= 1, state and order", "why_tests_cant": "all states and orders", "anchors": ["src/ff/ff_distance_measures.py:SRE", "src/ff/ff_distance_measures.py:stabilizer_distribution", "src/ff/ff_distance_measures.py:renyi_entropy"]}
{"id": "C119", "title": "order, largest value and products of FAF", "statement": "FAF does not decrease with the order k >= 1. It is the largest possible value n exactly if the Majorana covariance matrix shortens every vector by a factor of at least 1e10, e.g. for the maximally mixed state. If one of two states commutes with the fermion parity, FAF of their product is the sum of the two values; without this condition it can be smaller. It is positive for every state generate_gaussian_state(n,H) returns, n >= 3, although these are free-fermion states (Wick's theorem holds), contrary to the documentation.", "quantifier": "every number of sites, state, order and valid Schur form", "why_tests_cant": "all states", "anchors": ["src/ff/ff_distance_measures.py:FAF", "src/ff/ff_distance_measures.py:cov_distribution", "src/ff/ff_lib.py:generate_gaussian_state"]}
{"id": "C120", "title": "array types in rotate_operators, build_op and kitaev_chain", "statement": "The results are accumulated in an array of the type of the first operator. If a coefficient that is used, or an operator that occurs with it, is of a higher type (integer < real < complex) than the first operator, the call raises TypeError; otherwise the values are those of C29, C33 and C34 and the type is that of the first operator. With complex operators such as the Jordan-Wigner ones types never matter. kitaev_chain raises TypeError exactly if there are at least two sites and delta is a complex number, or t is one and mu is not; complex t that is accepted gives an array that is not Hermitian.", "quantifier": "all types, coefficient arrays, operator lists and parameters", "why_tests_cant": "the tests use complex Jordan-Wigner operators and float parameters", "anchors": ["src/ff/ff_lib.py:rotate_operators", "src/ff/ff_lib.py:build_op", "src/ff/ff_lib.py:kitaev_chain"]}
{"id": "C121", "title": "which values the random functions can return", "statement": "random_H_generator can return exactly the Hermitian particle-hole symmetric arrays (with fixedN those without off-diagonal blocks), random_FF_rotation(returnOrb=True) exactly the unitary symplectic arrays with determinant one, random_qubit_pure_state exactly the unit vectors, random_qubit_state exactly the density matrices, and random_FF_state_randH exactly the normalised exponentials exp(-Q) of the operators build_op returns for build_H(n,A,B), A Hermitian and B antisymmetric.", "quantifier": "every n and every array", "why_tests_cant": "a test sees a few draws", "anchors": ["src/ff/ff_lib.py:random_H_generator", "src/ff/ff_lib.py:random_FF_rotation", "src/ff/ff_random_states.py:random_qubit_state", "src/ff/ff_random_states.py:random_qubit_pure_state", "src/ff/ff_random_states.py:random_FF_state_randH"]}
{"id": "C122", "title": "amplitudes of Slater determinants are determinants", "statement": "If the rows r of C mix creation operators only, the state b[r_1]...b[r_N]|0> built from b = rotate_operators(C, jordan_wigner_alphas(n)) has amplitude dt(C[r,s]) on the basis vector with the sites s_1<...<s_N filled and 0 on basis vectors with another particle number; the overlap of two such states is dt of the array of overlaps of the rows; expm(-i t build_op(n, build_H(n,A), alphas)) takes basis vectors to basis vectors with amplitudes that are, up to a common phase, minors dt(E[s,r]) of E = expm(-2 i t A).", "quantifier": "every n, particle number, array C, Hermitian A, time t and choice of rows and sites", "why_tests_cant": "there are exponentially many amplitudes and continuously many arrays", "anchors": ["src/ff/ff_lib.py:rotate_operators", "src/ff/ff_lib.py:jordan_wigner_alphas", "src/ff/ff_lib.py:build_op", "src/ff/ff_lib.py:build_H", "src/ff/ff_combinatorics.py:dt"]}
{"id": "C123", "title": "anti-flatness measures the failure of the matchgate identities", "statement": "For a unit vector, FAF(psi, k=1) is twice the sum of the squared amounts by which the matchgate identities fail (up to n*1e-20), and the anti-flatness is 0 for any k >= 1 exactly if all the identities hold; then every amplitude is pf of the array of pair amplitudes, up to powers of the vacuum amplitude. States of definite parity on at most three sites have anti-flatness 0, on four sites not always. The states random_FF_state(pure=True), random_FF_pure_state_W0 and random_FF_pure_state_WN return satisfy all identities.", "quantifier": "every n, unit vector, k >= 1, every seed and every draw", "why_tests_cant": "the identities range over all pairs of basis vectors and a continuum of states", "anchors": ["src/ff/ff_distance_measures.py:FAF", "src/ff/ff_lib.py:random_FF_state", "src/ff/ff_random_states.py:random_FF_pure_state_W0", "src/ff/ff_random_states.py:random_FF_pure_state_WN", "src/ff/ff_combinatorics.py:pf"]}
{"id": "C124", "title": "functions leave their arguments alone and their results do not change later", "statement": "After rotate_operators, build_op, build_H, partial_trace_diagblocksum, clean (of a float or complex array), cast_to_density_matrix, cast_to_pdf, build_linear_path or a call of the path, all arrays that existed before have the entries they had. The arrays returned (and the path) do not change when the caller later assigns to the arguments. complete_face changes only the array it is given.", "quantifier": "every content of memory, all array arguments (which may share memory), all later assignments", "why_tests_cant": "a test would have to try every later assignment through every array that may share memory", "anchors": ["src/ff/ff_lib.py:rotate_operators", "src/ff/ff_lib.py:_perform_rotation", "src/ff/ff_lib.py:build_op", "src/ff/ff_lib.py:build_H", "src/ff/ff_utils.py:partial_trace_diagblocksum", "src/ff/ff_utils.py:clean", "src/ff/ff_utils.py:cast_to_density_matrix", "src/ff/ff_utils.py:cast_to_pdf", "src/ff/ff_graph_theory.py:complete_face", "src/ff/ff_random_states.py:build_linear_path"]}
{"id": "C125", "title": "pf is the signed sum over perfect matchings", "statement": "For every skew-symmetric matrix A, pf(A) equals the sum, over all perfect matchings of the index set, of the product of the entries A[i,j] (i<j) of the matched pairs, with a minus sign for each pair of crossing arcs; and for every matrix of even dimension pf and hf return exactly the permutation sums 1/(2^(n/2) (n/2)!) sum_sigma [sgn(sigma)] prod_i A[sigma(2i-1),sigma(2i)] that docs/tutorials.rst writes down.", "quantifier": "every n and every n x n matrix (skew-symmetric for the matching formula)", "why_tests_cant": "the sign convention of a sum over n!/(2^(n/2)(n/2)!) matchings can only be sampled on small literals; pf(A)^2 = det(A) does not see the sign", "anchors": ["src/ff/ff_combinatorics.py:pf", "src/ff/ff_combinatorics.py:hf", "docs/tutorials.rst"]}
{"id": "C126", "title": "many-body spectrum and the tight-binding chain", "statement": "The eigenvalues of build_H(n,A,B) are real and come in pairs +-eps_1,...,+-eps_n. For every such Hamiltonian (without entries that build_op skips) the eigenvalues of the 2^n x 2^n array build_op(n,H,alphas), with multiplicities, are the sums +-eps_1 +- ... +- eps_n, its partition function is prod_k 2 cosh(beta eps_k) and its lowest energy is -sum_k |eps_k|. For kitaev_chain(n,mu,t,0) the eps_k are mu + 2 t cos(pi k/(n+1)), k = 1..n, and eigh_sp returns exactly these moduli.", "quantifier": "every n, Hermitian A, antisymmetric B, real mu, t and beta; every valid Schur decomposition", "why_tests_cant": "all system sizes and couplings", "anchors": ["src/ff/ff_lib.py:build_H", "src/ff/ff_lib.py:build_op", "src/ff/ff_lib.py:kitaev_chain", "src/ff/ff_lib.py:eigh_sp"]}
{"id": "C127", "title": "arrays of unexpected shapes", "statement": "Arrays whose shape differs from the documented one raise an exception (build_V, build_H: N x N blocks; is_symp, eigh_sp, eigv_sp, eigm_sp, eigm_sp_can: 2N x 2N; compute_2corr_matrix, compute_cov_matrix, correlation_matrix: 2^N x 2^N; generate_gaussian_state: 2N x 2N or 2^N x 2^N, otherwise 0; partial traces: square).", "quantifier": "every number of rows and columns; for build_V and build_H every number of axes", "why_tests_cant": "all shapes: the reaction depends on how numpy repeats axes of length 1 and cuts slices", "anchors": ["src/ff/ff_lib.py:build_V", "src/ff/ff_lib.py:build_H", "src/ff/ff_lib.py:is_symp", "src/ff/ff_lib.py:eigh_sp", "src/ff/ff_lib.py:eigv_sp", "src/ff/ff_lib.py:eigm_sp", "src/ff/ff_lib.py:eigm_sp_can", "src/ff/ff_lib.py:generate_gaussian_state", "src/ff/ff_lib.py:compute_cov_matrix", "src/ff/ff_lib.py:correlation_matrix", "src/ff/ff_lib.py:compute_2corr_matrix", "src/ff/ff_utils.py:partial_trace_diagblocksum", "src/ff/ff_utils.py:partial_trace_blockTr"]}
{"id": "C128", "title": "spectrum and entropies of free-fermion states", "statement": "For a density matrix that obeys Wick's theorem the eigenvalues of compute_2corr_matrix(rho, conjugation=1) come in pairs p_k, 1-p_k, and the 2^n eigenvalues of the state are all the products with one factor p_k or 1-p_k per k. So Tr rho^2 = prod(p_k^2+(1-p_k)^2), its square is det(P^2+(1-P)^2), and renyi_entropy of the eigenvalues is the sum of renyi_entropy of (p_k, 1-p_k) at every order from 0 to infinity. The same holds for the state of the last sites from partial_trace_over_1 with the block of P (entanglement spectrum). Every P >= 0 with S P^T S = 1-P is the correlation matrix of exactly one density matrix that obeys Wick's theorem.", "quantifier": "every number of sites, density matrix that obeys Wick's theorem (in particular generate_gaussian_state), cut and order", "why_tests_cant": "all states, cuts and orders", "anchors": ["src/ff/ff_lib.py:compute_2corr_matrix", "src/ff/ff_lib.py:generate_gaussian_state", "src/ff/ff_utils.py:partial_trace_diagblocksum", "src/ff/ff_distance_measures.py:renyi_entropy"]}
{"id": "C129", "title": "entropies and distances of every accepted input are numbers in the documented range", "statement": "Whenever cast_to_pdf accepts an input (not only exactly normalised, exactly positive ones), renyi_entropy is a number between 0 and log d at every order and depends continuously on the order, relative_entropy and jensen_shannon_divergence of an input with itself are 0, bhattacharyya_coeff is a number, and total_variation_distance is a metric.", "quantifier": "every input that the casts accept, every order, every pair and triple of such inputs of equal length", "why_tests_cant": "all accepted inputs, including those at the edges of the tolerances", "anchors": ["src/ff/ff_utils.py:cast_to_pdf", "src/ff/ff_utils.py:cast_to_density_matrix", "src/ff/ff_distance_measures.py:renyi_entropy", "src/ff/ff_distance_measures.py:linear_entropy", "src/ff/ff_distance_measures.py:relative_entropy", "src/ff/ff_distance_measures.py:bhattacharyya_coeff", "src/ff/ff_distance_measures.py:jensen_shannon_divergence", "src/ff/ff_distance_measures.py:total_variation_distance"]}
{"id": "C130", "title": "inputs outside the documented domain are rejected", "statement": "cast_to_density_matrix and cast_to_pdf raise ValueError for arrays with no axes or with more than two, the partial traces raise an exception for a subsystem dimension that is not a positive divisor of the dimension, and renyi_entropy raises an exception for a negative order.", "quantifier": "arrays with any number of axes of any lengths, all integers as subsystem dimension, all negative orders", "why_tests_cant": "all shapes, integers and orders", "anchors": ["src/ff/ff_utils.py:cast_to_density_matrix", "src/ff/ff_utils.py:cast_to_pdf", "src/ff/ff_utils.py:partial_trace_diagblocksum", "src/ff/ff_utils.py:partial_trace_blockTr", "src/ff/ff_distance_measures.py:renyi_entropy"]}
{"id": "C131", "title": "the Kitaev chain is a spin chain", "statement": "jordan_wigner_majoranas(n) lists the Pauli strings Z...ZXI...I and Z...ZYI...I over the square root of 2. The operator of kitaev_chain(n,mu,t,delta) is the XY chain with open ends in a transverse field, mu sum Z_i - (t+delta) sum X_i X_{i+1} - (t-delta) sum Y_i Y_{i+1}. For mu = 0 and delta = t the 2^n product states of spins along x diagonalise it, and for t > 0 exactly the two states with parallel spins have the least energy, -2t(n-1).", "quantifier": "every number of sites and all real parameters", "why_tests_cant": "all sizes and parameters", "anchors": ["src/ff/ff_lib.py:kitaev_chain", "src/ff/ff_lib.py:jordan_wigner_lowering", "src/ff/ff_lib.py:jordan_wigner_majoranas", "src/ff/ff_lib.py:build_op"]}
{"id": "C132", "title": "nan is not swallowed", "statement": "If an input array contains nan then cast_to_density_matrix and cast_to_pdf, and with them all measures, raise an exception, dt, pt, pf and hf return nan, is_symp returns False, and every entry of the result of build_op is nan; arrays without nan are not affected by this.", "quantifier": "every size and every array, nan at any places", "why_tests_cant": "all arrays and places", "anchors": ["src/ff/ff_utils.py:cast_to_density_matrix", "src/ff/ff_utils.py:cast_to_pdf", "src/ff/ff_combinatorics.py:dt", "src/ff/ff_combinatorics.py:pt", "src/ff/ff_combinatorics.py:pf", "src/ff/ff_combinatorics.py:hf", "src/ff/ff_lib.py:is_symp", "src/ff/ff_lib.py:build_op"]}
{"id": "C133", "title": "rounding errors of distances and partial traces are bounded", "statement": "With 64-bit floats and any order of summation, total_variation_distance and bhattacharyya_coeff of two probability lists with n entries are accurate to a relative error (1+2^-53)^(n+2)-1, linear_entropy is accurate to 5e-9 for up to a million entries and its internal comparison of two formulas never raises because of rounding, and every entry of partial_trace_over_1 and partial_trace_over_2 is accurate relative to the sum of the absolute values of its summands (partial_trace_over_2 up to 1e-8 in the imaginary part).", "quantifier": "all lengths, all arrays of reals (complex for the partial traces), all orders of summation in which a number goes through at most n additions", "why_tests_cant": "all inputs and all summation orders numpy might choose", "anchors": ["src/ff/ff_distance_measures.py:total_variation_distance", "src/ff/ff_distance_measures.py:bhattacharyya_coeff", "src/ff/ff_distance_measures.py:linear_entropy", "src/ff/ff_utils.py:partial_trace_diagblocksum", "src/ff/ff_utils.py:partial_trace_blockTr"]}
{"id": "C134", "title": "sequences of random calls replay and do not interfere", "statement": "In a sequence of calls of the functions that draw random numbers, interleaved with draws by the caller: a sequence in which each call has a seed, or follows a call that set its generator, gives the same outcomes (exceptions included) whatever was drawn before; generate_random_planar_graph and the functions that use numpy do not affect each other; a seed affects only the call it is passed to; and different functions or seeds give unrelated samples.", "quantifier": "all sequences of calls, of any length, with any arguments and seeds, and all initial states of both generators", "why_tests_cant": "all histories of calls and generator states", "anchors": ["src/ff/ff_lib.py:random_FF_rotation", "src/ff/ff_lib.py:random_H_generator", "src/ff/ff_lib.py:random_FF_state", "src/ff/ff_random_states.py:random_qubit_state", "src/ff/ff_random_states.py:random_qubit_pure_state", "src/ff/ff_random_states.py:random_FF_state_randH", "src/ff/ff_random_states.py:random_FF_state_rotPDF", "src/ff/ff_random_states.py:random_FF_pure_state_W0", "src/ff/ff_random_states.py:random_FF_pure_state_WN", "src/ff/ff_random_states.py:random_FF_pure_state_CN", "src/ff/ff_utils.py:generate_random_bitstring", "src/ff/ff_graph_theory.py:generate_random_planar_graph"]}
{"id": "C135", "title": "the returned generator can be diagonalised as the documentation shows", "statement": "random_FF_state(n, returnH=True) returns a generator H that eigh_sp(H) accepts and diagonalises, as in the complete example of the quick start.", "quantifier": "all n >= 1, all Hermitian A and antisymmetric B that build_H combines into the generator, all outcomes of the sampler", "why_tests_cant": "all matrices and random draws", "anchors": ["src/ff/ff_lib.py:random_FF_state", "src/ff/ff_lib.py:eigh_sp", "src/ff/ff_lib.py:build_op", "src/ff/ff_lib.py:build_H"]}
{"id": "C136", "title": "random functions have the distributions their documentation states", "statement": "random_qubit_pure_state returns a vector distributed uniformly over the unit vectors; random_qubit_state returns U diag(p) U^dagger with Haar random U and an independent, flat Dirichlet p, a distribution invariant under all unitaries; random_FF_rotation(returnOrb=True) is Haar distributed over the orbital rotations; generate_random_bitstring(n,k) gives each of the binomial(n,k) strings with the same probability. Successive calls are independent.", "quantifier": "all n (and k), all events, provided the draws of numpy and scipy are independent and have their documented distributions", "why_tests_cant": "a distribution is a statement about all draws and all events", "anchors": ["src/ff/ff_random_states.py:random_qubit_pure_state", "src/ff/ff_random_states.py:random_qubit_state", "src/ff/ff_lib.py:random_FF_rotation", "src/ff/ff_utils.py:generate_random_bitstring"]}
{"id": "C137", "title": "random free-fermion states are uniformly distributed over the free-fermion states, with fixed particle number where documented", "statement": "random_FF_pure_state_W0(n) and random_FF_state(n,pure=True) return a state distributed uniformly over the free-fermion states, random_FF_pure_state_WN(n,N) a state distributed uniformly over the free-fermion states with N particles, random_FF_state_rotPDF(n) a Dirichlet distributed spectrum in a uniformly distributed free-fermion frame; random_FF_rotation(n) performs the orbital rotation of its draw. Successive calls are independent.", "quantifier": "all n, all N <= n, all events, provided the draws of numpy and scipy are independent and have their documented distributions", "why_tests_cant": "a distribution is a statement about all draws and all events", "anchors": ["src/ff/ff_random_states.py:random_FF_pure_state_W0", "src/ff/ff_random_states.py:random_FF_pure_state_WN", "src/ff/ff_random_states.py:random_FF_state_rotPDF", "src/ff/ff_lib.py:random_FF_rotation", "src/ff/ff_lib.py:random_FF_state"]}
{"id": "C138", "title": "distributions of the free-fermion states with a random number of particles, and of the entries of random generators", "statement": "random_FF_pure_state_WN(n) and random_FF_pure_state_CN(n), which draw the number of particles, sample the same distribution over free-fermion states: uniform among the states of each parity. The real and imaginary parts of the entries of random_H_generator(n, fixedN) are standard normal.", "quantifier": "all n, all events, provided the draws of numpy and scipy are independent and have their documented distributions", "why_tests_cant": "a distribution is a statement about all draws and all events", "anchors": ["src/ff/ff_random_states.py:random_FF_pure_state_WN", "src/ff/ff_random_states.py:random_FF_pure_state_CN", "src/ff/ff_lib.py:random_H_generator"]}
{"id": "C139", "title": "averages over the random states", "statement": "Averaging the projector of random_qubit_pure_state(n), or the state of random_qubit_state(n), gives the maximally mixed state 1/2^n; so does random_FF_state_rotPDF(n). Averaging random_FF_pure_state_W0(n) or random_FF_pure_state_WN(n, N) gives the maximally mixed state of one parity, (1 + (-1)^N P)/2^n, so for n >= 2 every site is half filled on average, whatever N. With N drawn, the average is (1 + c P)/2^n with c = 0 for odd n and 1/(n+1) for even n. The average of an expectation value of any operator follows.", "quantifier": "all n >= 1, N <= n and operators, provided the draws of numpy and scipy are independent and have their documented distributions", "why_tests_cant": "an average is an integral over all draws", "anchors": ["src/ff/ff_random_states.py:random_qubit_pure_state", "src/ff/ff_random_states.py:random_qubit_state", "src/ff/ff_random_states.py:random_FF_pure_state_W0", "src/ff/ff_random_states.py:random_FF_pure_state_WN", "src/ff/ff_random_states.py:random_FF_pure_state_CN", "src/ff/ff_random_states.py:random_FF_state_rotPDF"]}
{"id": "C140", "title": "infinities and overflow are not hidden", "statement": "If an array of floats contains an infinity or nan then dt, pt, pf, hf and build_op do not return finite numbers, the casts raise an exception and is_symp returns False. Conversely dt, pt, pf and hf return finite numbers if all entries are finite and not too large: at most 2^k with n! 2^(kn) < 2^1024 for dt and pt of real arrays, and n! 2^((k+1)n) < 2^1024 for complex arrays. The entries of build_op are finite if the coefficients are at most 2^950, with the Jordan-Wigner operators of up to 48 sites.", "quantifier": "all real and complex arrays of all sizes whose entries are 64-bit floats, infinities or nan, and every order in which numpy adds", "why_tests_cant": "all positions and combinations of special values", "anchors": ["src/ff/ff_combinatorics.py:pf", "src/ff/ff_combinatorics.py:hf", "src/ff/ff_combinatorics.py:pt", "src/ff/ff_combinatorics.py:dt", "src/ff/ff_utils.py:cast_to_density_matrix", "src/ff/ff_lib.py:is_symp", "src/ff/ff_lib.py:build_op"]}
{"id": "C141", "title": "rounding errors for complex arrays", "statement": "With complex 64-bit floats dt, pt, pf and hf return a number whose distance to the exact value is at most ((1+2^-53)^k - 1) times the sum of the absolute values of the products, where k is the number of summands plus three times the number of factors (and a few roundings for the sign and the division). For arrays with up to ten rows the error of dt and pt is at most 1e-9 times that sum.", "quantifier": "all complex arrays of all sizes, without overflow and underflow", "why_tests_cant": "all numbers and all roundings", "anchors": ["src/ff/ff_combinatorics.py:pf", "src/ff/ff_combinatorics.py:hf", "src/ff/ff_combinatorics.py:pt", "src/ff/ff_combinatorics.py:dt"]}
{"id": "C142", "title": "mixtures and parts", "statement": "For mixtures with the same weights, the total variation distance, the Jensen-Shannon divergence, the relative entropy and the trace distance are at most the average over the mixed pairs, and the Bhattacharyya coefficient at least the average. renyi_entropy of a mixture is at least the average for the orders 0 to 1, and at every order at least the smallest of the mixed entropies; linear_entropy is at least the average. FAF of a mixture of k sites is at least the average minus k*1e-20^order. The Shannon entropy of a pair is at most the sum of the two entropies, with equality exactly for independent outcomes, and FAF of a state is at most the sum of FAF of the two parts that the partial traces return plus the number of sites times 1e-20^order.", "quantifier": "all weights, all distributions, all states, all numbers of mixed states and of sites, all orders", "why_tests_cant": "inequalities over all mixtures", "anchors": ["src/ff/ff_distance_measures.py:total_variation_distance", "src/ff/ff_distance_measures.py:trace_distance", "src/ff/ff_distance_measures.py:relative_entropy", "src/ff/ff_distance_measures.py:jensen_shannon_divergence", "src/ff/ff_distance_measures.py:bhattacharyya_coeff", "src/ff/ff_distance_measures.py:renyi_entropy", "src/ff/ff_distance_measures.py:linear_entropy", "src/ff/ff_distance_measures.py:FAF", "src/ff/ff_utils.py:partial_trace_diagblocksum", "src/ff/ff_utils.py:partial_trace_blockTr"]}
{"id": "C143", "title": "square roots of the divergences are distances", "statement": "The square root of jensen_shannon_divergence and the square root of 1 - bhattacharyya_coeff satisfy the triangle inequality for any three distributions of the same length.", "quantifier": "all lengths, all distributions", "why_tests_cant": "inequalities over all triples of distributions", "anchors": ["src/ff/ff_distance_measures.py:jensen_shannon_divergence", "src/ff/ff_distance_measures.py:bhattacharyya_coeff"]}
{"id": "C144", "title": "small changes of the state change the results little", "statement": "If two distributions on d outcomes have total variation distance t, their Shannon entropies (renyi_entropy of order 1) differ by at most t log(d-1) - t log t - (1-t) log(1-t), and this is attained; linear_entropy differs by at most 2t. If two states of n sites have trace distance t, every entry of compute_2corr_matrix differs by at most 2t, the occupations by at most t, and FAF of order k by at most 4 k n (2n-1) t + n 1e-20^k. The total variation distance of the stabilizer distributions of two states is at most sqrt(1 - tr(rho sigma)^2 / (tr rho^2 tr sigma^2)); for pure states it is at most sqrt(2) t, and SRE of the default order 2 differs by at most sqrt(2) (2^n + 1) t.", "quantifier": "all distributions and states, all numbers of outcomes and sites, all orders k", "why_tests_cant": "inequalities over all pairs of states", "anchors": ["src/ff/ff_distance_measures.py:renyi_entropy", "src/ff/ff_distance_measures.py:linear_entropy", "src/ff/ff_distance_measures.py:FAF", "src/ff/ff_distance_measures.py:total_variation_distance", "src/ff/ff_distance_measures.py:trace_distance", "src/ff/ff_distance_measures.py:stabilizer_distribution", "src/ff/ff_distance_measures.py:SRE", "src/ff/ff_lib.py:compute_2corr_matrix"]}
{"id": "C145", "title": "the operators are computed without rounding errors and quadratic Hamiltonians with few", "statement": "In double precision, whatever the order of the additions inside the matrix products, generate_pauli_group, jordan_wigner_lowering and jordan_wigner_alphas return exactly the mathematical operators, their products satisfy the anticommutation relations exactly, and compute_algebra_S returns its exact result. build_op with complex floats R returns off-diagonal entries that are the exact ones rounded once, diagonal entries with an error of at most (1+2^-53)^n - 1 times the sum of the coefficients involved, an exactly Hermitian operator for Hermitian R, and the exact operator if the coefficients are integers of total size at most 2^53.", "quantifier": "all numbers of sites, all coefficient arrays of floats, all orders of summation in matrix products, both values of direct", "why_tests_cant": "tests compare with tolerances on a few sizes on one machine", "anchors": ["src/ff/ff_lib.py:generate_pauli_group", "src/ff/ff_lib.py:jordan_wigner_lowering", "src/ff/ff_lib.py:jordan_wigner_alphas", "src/ff/ff_lib.py:build_op", "src/ff/ff_lib.py:compute_algebra_S"]}
{"id": "C146", "title": "rounding errors of correlation and covariance matrices are bounded", "statement": "In double precision, whatever the order of the additions, every entry of compute_2corr_matrix(rho, n, conjugation) of a positive semidefinite rho is computed with an error of at most ((1+2^-53)^(2^n) - 1) Tr rho in the real and in the imaginary part (at most 1e-9 for a state of up to 21 sites), every entry of compute_cov_matrix with at most 2 ((1+2^-53)^(2^n+1) - 1) Tr rho. The occupations on the diagonal are exactly real and not negative, the covariance matrix is exactly antisymmetric, and for states with integer entries, such as basis states, the correlations are exact.", "quantifier": "all numbers of sites, all arrays of floats, all orders of summation in matrix products and traces, all values of conjugation", "why_tests_cant": "tests compare with tolerances on a few states on one machine", "anchors": ["src/ff/ff_lib.py:compute_2corr_matrix", "src/ff/ff_lib.py:compute_cov_matrix", "src/ff/ff_lib.py:jordan_wigner_alphas"]}
{"id": "C147", "title": "small changes of the coefficients change the energies little", "statement": "If no entry of A and B is changed by more than d, the energies of build_H(A, B) change by at most 2 n d, matched up in a suitable order; the energies eigh_sp returns, up to order and signs, by at most 2 n d + 12e-10 n, whatever their sizes (the second part comes from the cut-off 1e-10; a single result is within 6e-10 n of the true energies); and each of the 2^n energies of build_op(build_H(A, B)), in ascending order, by at most 2 n^2 (d + 2e-10).", "quantifier": "all numbers of sites, all pairs of Hermitian A and of antisymmetric B, all d, all outcomes of the Schur decomposition and of argsort that meet their contracts", "why_tests_cant": "a perturbation bound ranges over all pairs of inputs, including nearly degenerate and nearly zero energies", "anchors": ["src/ff/ff_lib.py:build_H", "src/ff/ff_lib.py:build_op", "src/ff/ff_lib.py:eigh_sp"]}
{"id": "C148", "title": "exactly the stabilizer states have no stabilizer entropy, and random_CHP_state draws them uniformly", "statement": "A pure state has stabilizer entropy 0 (at any finite order) exactly if a Clifford unitary makes it from the first basis vector; on n qubits there are 2^n (2+1)(4+1)...(2^n+1) such states; random_CHP_state(n) returns each with the same probability, so that every Pauli string other than the identity has the value 1 with probability 1/(2(2^n+1)), -1 with the same probability, and otherwise 0.", "quantifier": "all numbers of qubits, all pure states in any accepted form, all finite orders, all stabilizer states, all Pauli strings, every source of random tableaux that meets the contract of stim", "why_tests_cant": "the converse ranges over all states with stabilizer entropy 0, and uniformity over all of a set of exponential size", "anchors": ["src/ff/ff_distance_measures.py:SRE", "src/ff/ff_distance_measures.py:stabilizer_distribution", "src/ff/ff_distance_measures.py:renyi_entropy", "src/ff/ff_random_states.py:random_CHP_state"]}
{"id": "C149", "title": "small changes of the coefficients change the correlations of thermal and evolved states little", "statement": "If no entry of A and B changes by more than d, then no entry of the correlation matrix of the thermal state generate_gaussian_state(n, build_H(A, B)) changes by more than n (d + 2e-10), and the matrix as a whole (root of the sum of squares) by no more either; evolving any state for the time t under build_op(build_H(A, B)) gives correlations that change by at most 4 n |t| (d + 2e-10), although the states themselves have 2^n components. (2e-10 is the effect of dropping tiny coefficients.)", "quantifier": "all numbers of sites (at least 3 for thermal states), all Hermitian A, A2 and antisymmetric B, B2, all d, all times, all density matrices", "why_tests_cant": "every pair of coefficient matrices at every size; the bound must not grow with the number of components of the states", "anchors": ["src/ff/ff_lib.py:build_H", "src/ff/ff_lib.py:build_op", "src/ff/ff_lib.py:generate_gaussian_state", "src/ff/ff_lib.py:compute_2corr_matrix"]}
{"id": "C150", "title": "thermal and free-fermion states have the largest entropy", "statement": "Call entropy of a density matrix the renyi_entropy of order 1 of its eigenvalues. No density matrix on the sites has an entropy above tr(rho Q) + log tr exp(-Q) with Q = build_op(n, H), and generate_gaussian_state(n, H) is the only one that reaches it; so it has the most entropy among all states with its energy and the least energy among all with its entropy. The entropy of any state is at most the sum of the entropies of (p, 1-p) over the occupations p that diagonalise its correlation matrix, and equal exactly if the state obeys the theorem of Wick. The entropy of a state of two parts is at most the sum of the entropies of what the two partial traces return, and equal exactly if it is their product.", "quantifier": "all numbers of sites (at least 3 for generate_gaussian_state), all Hermitian coefficient matrices, all density matrices, all pairs of dimensions", "why_tests_cant": "every density matrix competes, not only the free-fermion ones, and uniqueness is a statement about all of them", "anchors": ["src/ff/ff_lib.py:generate_gaussian_state", "src/ff/ff_lib.py:build_op", "src/ff/ff_lib.py:compute_2corr_matrix", "src/ff/ff_distance_measures.py:renyi_entropy", "src/ff/ff_utils.py:partial_trace_diagblocksum", "src/ff/ff_utils.py:partial_trace_blockTr"]}
{"id": "C151", "title": "the two parts of a pure state are equally mixed", "statement": "The two partial traces of a pure state of two parts, possibly of different dimensions, have the same renyi_entropy of the eigenvalues at every order from 0 to infinity; it is at least 0, at most the logarithm of the smaller dimension, and 0 exactly if the state is the product of the two partial traces. (Assuming that the partial trace over the second part, which drops imaginary parts if all are below 1e-8, drops none.)", "quantifier": "all pairs of dimensions, all unit vectors, all orders", "why_tests_cant": "every pure state, every pair of dimensions and a continuum of orders", "anchors": ["src/ff/ff_utils.py:partial_trace_diagblocksum", "src/ff/ff_utils.py:partial_trace_blockTr", "src/ff/ff_distance_measures.py:renyi_entropy"]}
{"id": "C152", "title": "thermal states respond to changes of the coefficients in the right direction", "statement": "When the coefficients of generate_gaussian_state change from H to H2, the energy build_op(H2) - build_op(H) that is added is smaller in the new state than in the old one, strictly unless the states agree, and the free energy -log tr exp(-build_op) rises by no more than its value in the old state. So raising the energy A[k,k] of one site lowers the occupation of that site reported by compute_2corr_matrix, strictly unless both values are below the 1e-10 that build_op skips; and multiplying all coefficients with a number above 1, which lowers the temperature, lowers the energy and the entropy of the state, if any coefficient is not 0.", "quantifier": "all numbers of sites from 3 on, all Hermitian coefficient matrices, all Hermitian A and antisymmetric B, all sites, all factors", "why_tests_cant": "every pair of coefficient matrices at every size; the claim compares the results of two calls", "anchors": ["src/ff/ff_lib.py:generate_gaussian_state", "src/ff/ff_lib.py:build_op", "src/ff/ff_lib.py:build_H", "src/ff/ff_lib.py:compute_2corr_matrix", "src/ff/ff_distance_measures.py:renyi_entropy"]}
{"id": "C153", "title": "the entropies of a state and of its parts satisfy the triangle inequality", "statement": "For every density matrix, the renyi_entropy at order 1 of the eigenvalues of the state and of the two parts returned by partial_trace_over_1 and partial_trace_over_2 satisfy: none of the three exceeds the sum of the other two. One of the inequalities, that the entropy of what partial_trace_over_2 returns is at most the sum of the others, needs that this function drops no small imaginary parts, and fails otherwise: there is a pure state for which the two other entropies are 0 and this one is positive.", "quantifier": "all dimensions of the two parts, all density matrices", "why_tests_cant": "every density matrix of every pair of dimensions", "anchors": ["src/ff/ff_utils.py:partial_trace_diagblocksum", "src/ff/ff_utils.py:partial_trace_blockTr", "src/ff/ff_distance_measures.py:renyi_entropy"]}
{"id": "C154", "title": "how large the combinatorial functions can get, and which arrays are small enough for the machine", "statement": "The modulus of dt(A) is at most the product of the lengths of the rows, with equality exactly if a row is 0 or the rows are orthogonal; that of pf(A) of a skew-symmetric array at most its square root; that of pt(A) at most the product of the absolute row sums; and those of pf(A) and hf(A) of an array with 2m rows and entries of modulus at most M at most (2m)!/(2^m m!) M^m, which hf attains. So for arrays of the 64-bit integers -1, 0, 1 dt is exact for up to 26 rows, pt for up to 20 rows (and not for 21 rows of ones), pf and hf for up to 18 rows, and for floats all four for up to 18 rows: hf counts the perfect matchings of every graph with up to 18 nodes exactly, whether its adjacency matrix is an array of integers or floats.", "quantifier": "every size and every complex array; for the machine numbers all integer arrays of the sizes given", "why_tests_cant": "every array; the number of arrays of -1, 0, 1 with 18 rows is 3^324", "anchors": ["src/ff/ff_combinatorics.py:dt", "src/ff/ff_combinatorics.py:pt", "src/ff/ff_combinatorics.py:pf", "src/ff/ff_combinatorics.py:hf"]}
{"id": "C155", "title": "nearby states have nearby eigenvalues and entropies", "statement": "If two states of dimension d have trace_distance t, their eigenvalues in descending order are at a total_variation_distance of at most t, and no two corresponding eigenvalues differ by more than t; and if t is at most 1 - 1/d, their entropies (renyi_entropy of order 1 of the eigenvalues) differ by at most t log(d-1) - t log t - (1-t) log(1-t).", "quantifier": "all dimensions and all pairs of states in every accepted representation", "why_tests_cant": "every pair of states; the bound holds for eigenvalues, which are no continuous function of single entries", "anchors": ["src/ff/ff_distance_measures.py:trace_distance", "src/ff/ff_distance_measures.py:total_variation_distance", "src/ff/ff_distance_measures.py:renyi_entropy"]}
{"id": "C156", "title": "small changes of the coefficients change thermal and evolved states little", "statement": "If no entry of two Hermitian coefficient matrices H and H' of n sites differs by more than delta, then the thermal states generate_gaussian_state(n, H) and generate_gaussian_state(n, H') (n at least 3) have a trace_distance of at most 4 n^2 (delta + 2e-10); and the states a density matrix evolves into in the time t under build_op(n, H) and build_op(n, H') have a trace_distance of at most 4 n^2 |t| (delta + 2e-10). The bounds do not depend on the dimension 2^n of the states.", "quantifier": "all numbers of sites, all pairs of Hermitian coefficient matrices, all states, all times", "why_tests_cant": "every pair of coefficient matrices; the bound on states is polynomial in n although their entries number 4^n", "anchors": ["src/ff/ff_lib.py:generate_gaussian_state", "src/ff/ff_lib.py:build_op", "src/ff/ff_distance_measures.py:trace_distance"]}
{"id": "C157", "title": "SRE gives the documented value for every state", "statement": "For every state of n qubits, pure or mixed, and every order >= 0 (and infinity), SRE returns the Renyi entropy of the stabilizer distribution minus n log 2, or 0 for the maximally mixed state.", "quantifier": "every n >= 1, state and order", "why_tests_cant": "the states for which this fails are nearly maximally mixed and have to be aimed at", "anchors": ["src/ff/ff_distance_measures.py:SRE", "src/ff/ff_distance_measures.py:stabilizer_distribution", "src/ff/ff_distance_measures.py:renyi_entropy", "src/ff/ff_utils.py:cast_to_pdf", "src/ff/ff_utils.py:cast_to_density_matrix"]}
{"id": "C158", "title": "random_FF_state with fixedN conserves the particle number", "statement": "With fixedN=True the generator that random_FF_state returns commutes with the particle number, and so does the state.", "quantifier": "every n, seed, random stream, with pure and without", "why_tests_cant": "all random streams", "anchors": ["src/ff/ff_lib.py:random_FF_state", "src/ff/ff_lib.py:random_H_generator", "src/ff/ff_lib.py:random_FF_rotation"]}
{"id": "C159", "title": "clean on strings", "statement": "clean(s) for a string never raises. If s is a number it returns the rounded number as a string, otherwise s itself.", "quantifier": "every string and every valid threshold", "why_tests_cant": "all strings over Unicode", "anchors": ["src/ff/ff_utils.py:clean"]}
{"id": "C160", "title": "build_unitary_path follows the shortest geodesic", "statement": "The path returned by build_unitary_path is the shortest geodesic on the unit sphere from w/|w| to v/|v|, as its documentation says: the great circle arc, run through with constant speed.", "quantifier": "every dimension from two and all non-zero vectors", "why_tests_cant": "all pairs of vectors; every QR factorisation and every principal logarithm the libraries may return", "anchors": ["src/ff/ff_random_states.py:build_unitary_path", "src/ff/ff_random_states.py:get_orthogonal_vectors"]}
{"id": "C161", "title": "build_linear_path runs along the great circle arc", "statement": "For two vectors whose directions are neither equal nor opposite, path(s) with 0 <= s <= 1 runs exactly along the great circle arc from w/|w| to v/|v|: every point of the path is on the arc, every point of the arc is reached, and path(1/2) is its middle. For equal directions the path stands still. The speed is in general not constant.", "quantifier": "every dimension, all pairs of non-zero vectors whose directions are not opposite, and every s in [0,1]", "why_tests_cant": "all vectors and all times", "anchors": ["src/ff/ff_random_states.py:build_linear_path"]}
{"id": "C162", "title": "paths between vectors of different lengths are rejected", "statement": "build_unitary_path and build_linear_path raise ValueError for two vectors of different lengths, as their documentation says.", "quantifier": "all lengths, all vectors, all times", "why_tests_cant": "every pair of lengths", "anchors": ["src/ff/ff_random_states.py:build_unitary_path", "src/ff/ff_random_states.py:build_linear_path", "src/ff/ff_random_states.py:get_orthogonal_vectors"]}
{"id": "C163", "title": "expansion along a row", "statement": "Each of the four functions can be computed from smaller arrays along any row i: dt(A) = sum_j (-1)^(i+j) A[i,j] dt(A without row i and column j), pt the same without signs; for skew-symmetric A, pf(A) = sum over j != i of (-1)^(i+p) A[i,j] pf(A without rows and columns i and j), where j is the p-th index other than i (counted from 0); for symmetric A, hf the same without signs.", "quantifier": "every size, every row and every array (skew-symmetric for pf, symmetric for hf)", "why_tests_cant": "all sizes and entries", "anchors": ["src/ff/ff_combinatorics.py:dt", "src/ff/ff_combinatorics.py:pt", "src/ff/ff_combinatorics.py:pf", "src/ff/ff_combinatorics.py:hf"]}
{"id": "C164", "title": "rescaling, reordering and comparison", "statement": "Multiplying row i by d[i] and column j by e[j] multiplies dt and pt by all these numbers, and multiplying row and column i by d[i] multiplies pf and hf by the product of the d[i]. Reordering rows and columns in the same way leaves hf unchanged and multiplies pf by the sign of the reordering. |dt(A)| and |pt(A)| are at most pt(|A|), |pf(A)| and |hf(A)| at most hf(|A|). If 0 <= A <= B entry by entry, then 0 <= pt(A) <= pt(B) and 0 <= hf(A) <= hf(B), so adding edges to a graph never lowers hf of its adjacency matrix. For real skew-symmetric A, |pf(A)| = hf(|A|) exactly if no two perfect matchings contribute to pf(A) with different signs, which is what an orientation has to achieve for counting by pf to be right.", "quantifier": "every size, every array and every list of factors; every reordering; every pair of graphs on the same nodes", "why_tests_cant": "all sizes, entries and graphs", "anchors": ["src/ff/ff_combinatorics.py:dt", "src/ff/ff_combinatorics.py:pt", "src/ff/ff_combinatorics.py:pf", "src/ff/ff_combinatorics.py:hf"]}
{"id": "C165", "title": "overlap of two free-fermion states", "statement": "For two density matrices that obey Wick's theorem, with the correlation matrices P and Q that compute_2corr_matrix gives for them with conjugation=1, Tr(rho sigma) is not negative and Tr(rho sigma)^2 = det(PQ + (1-P)(1-Q)). So the states are orthogonal exactly if this determinant is zero, the Hilbert-Schmidt distance follows from three such determinants, and for two pure states the determinant is |<psi|phi>|^4. This holds for the pure states of two calls of random_FF_state and for two states of generate_gaussian_state (n >= 3), whose determinant is never zero.", "quantifier": "every number of sites and every pair of density matrices that obey Wick's theorem, also with occupations 0 and 1; every pair of Hermitian coefficient matrices; every generator state", "why_tests_cant": "all sizes and all pairs of states", "anchors": ["src/ff/ff_lib.py:compute_2corr_matrix", "src/ff/ff_lib.py:generate_gaussian_state", "src/ff/ff_lib.py:random_FF_state"]}
{"id": "C166", "title": "sequences of free-fermion gates", "statement": "Apply any number of gates expm(-i t build_op(build_H(A,B))) one after the other, with their own Hermitian A, antisymmetric B and real t. The whole circuit is unitary. It takes the correlation matrix P of every state to E P E^H (and Gamma to E Gamma E^T), where E is the product of the 2n x 2n matrices expm(-2 i t H) of the gates. It takes states that obey Wick's theorem to states that obey Wick's theorem, so their overlaps after the circuit follow from the 2n x 2n matrices (C165). Two circuits have the same E exactly if they differ by a phase factor, and then they take every state to the same state.", "quantifier": "every number of sites, every finite sequence of gates and every state", "why_tests_cant": "sequences of every length", "anchors": ["src/ff/ff_lib.py:build_op", "src/ff/ff_lib.py:build_H", "src/ff/ff_lib.py:compute_2corr_matrix", "src/ff/ff_lib.py:jordan_wigner_alphas"]}
{"id": "C167", "title": "measuring the sites of a free-fermion state", "statement": "For every density matrix or state vector that obeys Wick's theorem, with the correlation matrix P that compute_2corr_matrix gives for conjugation=1, the probability that cast_to_pdf gives for the basis position x is the square root of det(P X + (1-P)(1-X)), where X is the diagonal matrix with 1 for the sites filled in x and 0 for the empty ones in its first half and the other way round in its second half. So for a circuit of any number of gates expm(-i t build_op(build_H(A,B))) applied to the basis state y, cast_to_pdf returns the probabilities computed from P = E Y E^H with the product E of the 2n x 2n matrices of the gates.", "quantifier": "every number of sites, every state that obeys Wick's theorem, every outcome, every sequence of gates and every starting basis state", "why_tests_cant": "all states, outcomes and sequences of gates", "anchors": ["src/ff/ff_utils.py:cast_to_pdf", "src/ff/ff_lib.py:compute_2corr_matrix", "src/ff/ff_lib.py:build_op", "src/ff/ff_lib.py:build_H"]}
