import json
P=[]
def p(id,title,statement,quantifier,why,anchors):
    P.append(dict(id=id,title=title,statement=statement,quantifier=quantifier,why_tests_cant=why,anchors=anchors))
CO="src/ff/ff_combinatorics.py"; UT="src/ff/ff_utils.py"; LI="src/ff/ff_lib.py"; GR="src/ff/ff_graph_theory.py"; RS="src/ff/ff_random_states.py"; DM="src/ff/ff_distance_measures.py"
def a(f,*s): return [f"{f}:{x}" for x in s]
# --- combinatorics
p("C01","sgn is the sign of a permutation","For every permutation of range(n) given as a sequence, sgn returns +1 if the permutation is even and -1 if it is odd; hence sgn of a composition is the product of the sgns and exchanging two entries flips the value.","every n and every permutation of range(n)","n! permutations for every n; tests sample a handful",a(CO,"sgn"))
p("C02","dt is the determinant","dt(A) equals the determinant of A for every square matrix of every size; in particular dt(A B)=dt(A)dt(B), dt(A^T)=dt(A), dt(I)=1 and dt is 1 on the 0x0 matrix.","every n and every n x n matrix over a commutative ring","infinitely many sizes and entries",a(CO,"dt","sgn"))
p("C03","pt is the permanent","pt(A) equals the permanent of A for every square matrix of every size, so it is invariant under transposition and under any reordering of rows and columns.","every n, every n x n matrix, every pair of row/column permutations","infinitely many sizes and entries",a(CO,"pt"))
p("C04","hf is the sum over perfect matchings","For every symmetric matrix of even dimension, hf(A) equals the sum, over all perfect matchings of the index set, of the product of the entries of the matched pairs; for a 0/1 adjacency matrix it is the number of perfect matchings of the graph.","every even n and every symmetric n x n matrix","the code sums n! terms with a n-dependent multiplicity factor; only small n can be sampled",a(CO,"hf"))
p("C05","pf squared is the determinant","For every skew-symmetric matrix A of any size, pf(A)^2 = dt(A).","every n and every skew-symmetric n x n matrix over a field of characteristic 0","the documented identity (docs/examples) is universally quantified",a(CO,"pf","dt"))
p("C06","pf under congruence","For every matrix B and every A of the same size (of even dimension or odd), pf(B A B^T) = dt(B) pf(A); in particular swapping two rows and the same two columns flips the sign.","every n, every A and B","universally quantified algebraic identity",a(CO,"pf","dt"))
p("C07","odd dimension","pf and hf return 0 on every matrix of odd dimension, and dt of a skew-symmetric matrix of odd dimension is 0, so pf(A)^2 = dt(A) is consistent there.","every odd n and every matrix","all odd sizes",a(CO,"pf","hf","dt"))
p("C08","bipartite reductions","hf([[0,A],[A^T,0]]) = pt(A) and pf([[0,A],[-A^T,0]]) = (-1)^(n(n-1)/2) dt(A) for every n x n matrix A.","every n and every n x n A","tests check 2x2 and 3x3 literals",a(CO,"pf","hf","pt","dt"))
p("C09","pf sees only the antisymmetric part, hf only the symmetric part","For every square matrix A of even dimension, pf(A) = pf((A-A^T)/2) and hf(A) = hf((A+A^T)/2); in particular pf of a symmetric non-empty matrix is 0 and pf(A^T) = (-1)^(n/2) pf(A).","every even n and every n x n matrix","universally quantified; decides what happens for inputs that are not skew-symmetric",a(CO,"pf","hf"))
p("C10","dt_eigen agrees with dt","When the eigenvalue routine returns the spectrum with multiplicity, dt_eigen(A) equals dt(A) for every square complex matrix; it returns None exactly when the matrix is not square or the eigenvalue routine fails.","every shape (m,n), every complex matrix, every behaviour of the eigenvalue routine","all matrices incl. defective ones; failure path of the routine",a(CO,"dt_eigen","dt"))
p("C11","direct sums","pf, hf, pt and dt are multiplicative over direct sums: f(kron_plus(A,B)) = f(A) f(B) for every pair of square matrices (for pf and hf with even-dimensional A and B).","every pair of sizes and matrices","universally quantified",a(CO,"pf","hf","pt","dt")+a(UT,"kron_plus"))
# --- utils
p("C12","kron_plus is the direct sum","kron_plus(a,b) succeeds exactly when both arguments are square, and then is the block diagonal matrix; it respects products, adjoints, traces and sums, and is associative.","every pair of shapes and matrices","shape mismatch path for all shapes",a(UT,"kron_plus"))
p("C13","partial traces of product operators","partial_trace_over_1(kron(A,B), dim B) = Tr(A) B and partial_trace_over_2(kron(A,B), dim A) = Tr(B) A, except that partial_trace_over_2 drops the imaginary part of its result when all of it is at most 1e-8; partial_trace_over_1 preserves the trace of every matrix and partial_trace_over_2 that of every Hermitian one (and the real part of it always); both fail exactly when d does not divide the dimension (ZeroDivisionError for d=0, AssertionError otherwise).","every pair of dimensions, every A, B, every composite matrix","all dimensions and matrices",a(UT,"partial_trace_diagblocksum","partial_trace_blockTr"))
p("C14","partial traces map states to states","If AB is Hermitian (positive semidefinite, trace one) then so are both partial traces, with no tolerance; partial_trace_over_1 is linear and partial_trace_over_2 is linear up to 1e-8 per entry and call (its cast to real).","every d1,d2 and every state of dimension d1*d2","all states",a(UT,"partial_trace_diagblocksum","partial_trace_blockTr"))
p("C15","random bit strings have the requested weight","For every outcome of the random choice, generate_random_bitstring(n,k) has length n, entries 0/1 and exactly k ones; every weight-k string is reachable; k<0 or k>n gives None.","every n,k and every random outcome","all random outcomes",a(UT,"generate_random_bitstring"))
p("C16","cast_to_density_matrix returns valid states","Whatever the input, if cast_to_density_matrix returns rho then rho is square, has trace 1, is Hermitian and has no eigenvalue below -1e-12 (up to the documented tolerances); exact density matrices are returned unchanged; unit vectors (1-D, row or column) become |psi><psi|; other probability vectors become diagonal matrices; everything else raises.","every array of dimension 1 or 2","all inputs, incl. every shape",a(UT,"cast_to_density_matrix"))
p("C17","cast_to_pdf follows the Born rule","cast_to_pdf maps a unit wavefunction to the squared moduli, an exact density matrix to its diagonal, and a probability vector to itself; the result is non-negative with sum 1.","every unit vector, density matrix and probability vector","all inputs; fails for nearly deterministic probability vectors, which tests do not sample",a(UT,"cast_to_pdf","cast_to_density_matrix"))
p("C18","clean is accurate and idempotent","For integer threshold k, every entry of clean(x,k) differs from the entry of x by at most half a unit of the k-th decimal (in each of the real and imaginary parts, except that the whole imaginary part is dropped when all of it is below 10^-k), and cleaning twice equals cleaning once.","every k, every size, every entry","all reals",a(UT,"clean"))
p("C19","clean zeroes everything below the threshold","Every entry of magnitude below the threshold is returned as exactly zero (docstring of clean).","every threshold and entry","all reals; the interval between threshold/2 and threshold is not sampled",a(UT,"clean"))
p("C20","printing restores global print options","print_custom leaves numpy's global print precision as it found it, for every object, every k and whichever step raises; it prints exactly once unless an exception propagates.","every object kind, k, prior precision and failure point","every crash point",a(UT,"print_custom","_print"))
p("C21","formatted_output","formatted_output of a number prints exactly `precision` fractional digits of the correctly rounded value, and the printed decimal is within half a unit in the last place; a complex number with |imag| < 1e-10 prints only its real part; non-numbers are printed with str.","every number and precision","all values",a(UT,"formatted_output"))
# --- lib
p("C22","permutation_to_matrix","For every permutation of range(n) the result P is the matrix with P e_i = e_{perm[i]}; it is orthogonal, has determinant sgn(perm), and composition of permutations goes to matrix product. The result is None exactly if the list is not a valid permutation.","every n and every integer list of length n","all lists; duplicates are not rejected",a(LI,"permutation_to_matrix"))
p("C23","the Pauli group","generate_pauli_group(n) returns 4^n matrices of size 2^n, in lexicographic order of Pauli strings; each is Hermitian and unitary, they are pairwise orthogonal, Tr(P_i P_j)=2^n delta_ij, all but the identity are traceless; non-positive n raises ValueError, non-integers TypeError.","every n >= 1 and every pair of indices","exponentially many pairs for every n",a(LI,"generate_pauli_group","pauli_matrices"))
p("C24","verbose Pauli names","generate_pauli_group(n, verbose=True) prints, for the k-th returned operator, the Pauli string whose tensor product it is, and returns the same list as with verbose=False.","every n and every index","all n",a(LI,"generate_pauli_group"))
p("C25","canonical anticommutation relations","For every number of sites, the Jordan-Wigner lowering operators a_i satisfy a_i a_j + a_j a_i = 0 and a_i a_j^dag + a_j^dag a_i = delta_ij I.","every n and every pair i,j < n","all system sizes",a(LI,"jordan_wigner_lowering"))
p("C26","order of the alphas and their algebra","jordan_wigner_alphas(n) has 2n entries, entry i is the adjoint of entry n+i, and compute_algebra_S of it is the block matrix [[0,I],[I,0]].","every n","all system sizes",a(LI,"jordan_wigner_alphas","compute_algebra_S"))
p("C27","Fock-space action","Lowering operator i maps the computational basis vector with bits b (site 0 = most significant bit) to (-1)^(number of occupied sites before i) times the vector with bit i cleared, and to 0 if bit i is 0; so the vacuum is the first basis vector and a_i^dag a_i reads bit i.","every n, site i and basis state","2^n states for every n",a(LI,"jordan_wigner_lowering","jordan_wigner_alphas"))
p("C28","Majorana operators","jordan_wigner_majoranas(n) are 2n Hermitian operators with gamma_i gamma_j + gamma_j gamma_i = delta_ij I, equal to rotate_operators(build_Omega(n), jordan_wigner_alphas(n)): (a_k^dag + a_k)/sqrt 2 and -i(a_k - a_k^dag)/sqrt 2, the latter the negative of the formula in the docstring.","every n and pair i,j < 2n","all system sizes",a(LI,"jordan_wigner_majoranas","build_Omega","rotate_operators"))
p("C29","rotate_operators","rotate_operators(C,alphas)[j] = sum_i C_ji alphas_i, with C conjugate-transposed when Left is True, up to dropped coefficients of modulus < 1e-9; the arguments may be given in either order; incompatible shapes return 0; successive rotations compose by matrix product.","every shape, C and operator list","all matrices",a(LI,"rotate_operators","_perform_rotation"))
p("C30","symplectic rotations preserve the algebra","If is_symp holds exactly for C (C S C^T = S), the operators rotate_operators(C, jordan_wigner_alphas(n)) satisfy the same anticommutation algebra S; conversely if the algebra is preserved then C S C^T = S. In general compute_algebra_S of the rotated list is C S C^T.","every n and every 2n x 2n matrix C","all sizes and matrices",a(LI,"rotate_operators","is_symp","compute_algebra_S"))
p("C31","structure of build_H and build_V","If A is Hermitian and B antisymmetric, build_H(n,A,B) is Hermitian and satisfies S H^T S = -H (particle-hole symmetry); build_V(n,A,B) = S build_H(n,A,B), is antisymmetric; omitting B/Z is the same as passing zeros.","every n, A, B","all matrices",a(LI,"build_H","build_V"))
p("C32","V-form and H-form give the same operator","build_op(n, build_V(n,A,B), alphas, direct=True) = build_op(n, build_H(n,A,B), alphas) for Jordan-Wigner alphas.","every n and all A,B","all matrices",a(LI,"build_op","build_V","build_H"))
p("C33","build_op lifts coefficient matrices","build_op(n,R,alphas) = sum_ij R_ij alpha_i^dag alpha_j up to dropped coefficients of modulus < 1e-10; a Hermitian R gives a Hermitian operator.","every n, R, operator list","all matrices",a(LI,"build_op"))
p("C34","quadratic Hamiltonians act linearly on the operators","For H = build_H(n,A,B) with A Hermitian and B antisymmetric, [build_op(H), alpha_k] = -2 sum_l H_kl alpha_l; commutators of lifts are lifts of commutators up to the factor 2.","every n, A, B, k","all system sizes and matrices",a(LI,"build_op","build_H","jordan_wigner_alphas"))
p("C35","conservation laws","build_op(build_H(n,A,0)) commutes with the total number operator; build_op of every coefficient matrix commutes with fermion parity.","every n and coefficient matrix","all system sizes",a(LI,"build_op","build_H","random_H_generator"))
p("C36","Kitaev chain","kitaev_chain(n,mu,t,delta) is Hermitian and particle-hole symmetric for real parameters, and its operator is sum over sites of -mu(2 n_i - 1) and over bonds of -2t(hop) and pairing terms 2 delta(a_i a_{i+1} + h.c.).","every n and all real parameters","all sizes and parameters",a(LI,"kitaev_chain","build_H"))
p("C37","Omega and K","build_Omega(n) is unitary; build_K(n) = Omega^dag P Omega with P the reordering matrix; hence K is unitary and symplectic for every n.","every n","all sizes",a(LI,"build_Omega","build_K","build_reordering_xx_to_xp"))
p("C38","mode reordering","build_reordering_xx_to_xp(n) is a permutation matrix P with (v P) interleaving the two halves of the row vector v, i.e. [x..,p..] P = [x1,p1,x2,p2,...], and P^T undoes it.","every n and vector","all sizes",a(LI,"build_reordering_xx_to_xp"))
p("C39","is_symp decides symplecticity","For 2n x 2n input is_symp(U) is True exactly if U S U^T agrees with S within tolerance, whether or not U has canonical block form; exact symplectic matrices are accepted and are closed under product, transpose and inverse.","every n and matrix","all matrices",a(LI,"is_symp"))
p("C40","check_canonical_form decides canonical form","For every array, check_canonical_form(L) is True exactly if L is square of even dimension, real, skew-symmetric and zero outside the 2x2 diagonal blocks (within tolerance).","every shape and matrix","all shapes and matrices",a(LI,"check_canonical_form"))
p("C41","generate_gaussian_state","For every Hermitian 2n x 2n coefficient matrix H the result is exp(-build_op(H))/trace, a Hermitian positive definite trace-one matrix; a 2^n x 2^n operator is used as it is; other sizes return 0.","every n and Hermitian H","all n; the sizes 2n and 2^n coincide for n=1,2",a(LI,"generate_gaussian_state","build_op"))
p("C42","covariance matrix","compute_cov_matrix(rho,n,alphas) is antisymmetric for every rho and operator list and equals Gamma - Gamma^T; for Jordan-Wigner operators it equals 2 Gamma - S Tr(rho). n_sites may be omitted.","every rho, n, operator list","all states; the omitted-argument path",a(LI,"compute_cov_matrix","compute_2corr_matrix"))
p("C43","two-point correlation matrices","For Jordan-Wigner operators Gamma + Gamma^T = Tr(rho) S; the conjugated variants are column/row swaps of Gamma; for a state rho, the matrices P and eta are Hermitian with 0 <= eta <= 1 and eta + P^T = I; diagonal blocks contain the occupations.","every n and state rho","all states",a(LI,"compute_2corr_matrix","correlation_matrix"))
p("C44","is_matchgate","is_matchgate is False for every shape other than (4,4) and otherwise True exactly if the determinants of the inner and corner blocks agree within tolerance; parity-preserving matchgates are closed under products and tensor with scalars.","every shape and 4x4 matrix","all matrices",a(LI,"is_matchgate"))
p("C45","eigh_sp diagonalises with a symplectic unitary","For every H = build_H(n,A,B) with A Hermitian, B antisymmetric and every Schur decomposition meeting scipy's contract, eigh_sp passes its assertions and returns (L,U) with U unitary and symplectic, U^dag H U = L, and L of the form diag(-Sigma,Sigma): entrywise up to 2e-10 always (the code treats eigenvalues up to 1e-10 as zero when it sorts), exactly if H has no non-zero eigenvalue of modulus at most 1e-10. Arrays that fail its checks raise AssertionError.","every n, A, B and every valid Schur decomposition","all Hamiltonians and all choices of the decomposition",a(LI,"eigh_sp","build_K","build_Omega","check_canonical_form"))
p("C46","eigh_sp orders the spectrum by A","When B=0 the second half of the eigenvalues returned by eigh_sp is the spectrum of A in the order of np.linalg.eigvalsh (comment: re-sort Schur output according to A).","every n, Hermitian A and valid Schur decomposition","depends on the permutation that sorts |eigenvalues|; fails only when it is not an involution, i.e. n >= 3 with particular sign patterns",a(LI,"eigh_sp"))
p("C47","eigv_sp","For V = build_V(n,A,B), eigv_sp returns (L,U) with U unitary symplectic and U^T V U = L = [[0,Sigma],[-Sigma,0]] (up to 2e-10, exactly without tiny eigenvalues).","every n, A, B and valid Schur decomposition","all inputs",a(LI,"eigv_sp"))
p("C48","eigm_sp and eigm_sp_can","For Majorana-form G = Omega H Omega^dag, eigm_sp returns a real orthogonal O with O^T G O = L and L = i [[0,Sigma],[-Sigma,0]] (up to 4e-10, exactly without tiny eigenvalues); eigm_sp_can returns an orthogonal O with O^T G O a direct sum of 2x2 antisymmetric blocks.","every n, A, B and valid Schur decomposition","all inputs",a(LI,"eigm_sp","eigm_sp_can"))
p("C49","random orbital rotations","For every orthogonal matrix drawn, random_FF_rotation(returnOrb=True) passes its assertion and returns a unitary, symplectic C in canonical block form [[s,t*],[t,s*]].","every n and every draw","all random draws",a(LI,"random_FF_rotation","is_symp","build_Omega"))
p("C50","random Fock-space rotations","For every draw and every matrix logarithm meeting its contract, random_FF_rotation returns a unitary W = exp(-iG) with G Hermitian (the returnH value), and W^dag alpha_k W = sum_l C_kl alpha_l for the orbital rotation C of the same draw.","every n and every draw","all random draws and sizes",a(LI,"random_FF_rotation","build_op"))
p("C51","random_H_generator","For every draw random_H_generator returns a Hermitian, particle-hole symmetric 2n x 2n matrix; with fixedN its off-diagonal blocks are 0.","every n and draw","all random draws",a(LI,"random_H_generator","build_H"))
p("C52","random_FF_state","For every draw, the mixed-state modes return a Hermitian positive definite trace-one matrix and pure=True returns a unit vector; with returnH the returned generator is the one that produced the state.","every n, seed and random stream","all random streams; the returnH relation depends on the RNG history",a(LI,"random_FF_state"))
p("C53","seeds make results reproducible","For every function taking a seed, two calls with the same integer seed return the same value whatever happened to the global random state before.","every seed, every history of the global generators","all histories",a(LI,"random_FF_rotation","random_FF_state","random_H_generator")+a(RS,"random_FF_pure_state_WN","random_FF_pure_state_CN","random_FF_pure_state_W0","random_FF_state_randH","random_FF_state_rotPDF","random_qubit_pure_state","random_qubit_state")+a(GR,"generate_random_planar_graph"))
# --- random states
p("C54","random qubit states","For every draw random_qubit_pure_state(n) is a unit vector of length 2^n and random_qubit_state(n) a density matrix whose spectrum is the drawn distribution; n<=0 raises ValueError and non-integers TypeError, before any random number is drawn.","every n, draw","all draws",a(RS,"random_qubit_state","random_qubit_pure_state"))
p("C55","random_FF_state_randH","For every draw the result is a Hermitian positive definite trace-one matrix.","every n, draw","all draws",a(RS,"random_FF_state_randH"))
p("C56","random_FF_state_rotPDF","For every draw the result is a density matrix, unitarily equivalent to diag(s) for the returned distribution s.","every n, draw","all draws",a(RS,"random_FF_state_rotPDF"))
p("C57","random_FF_pure_state_WN","The initial state built by applying creation operators is exactly the computational basis state with the first N sites filled (no sign), and the returned state is a unit vector of fermion parity (-1)^N; N outside 0..n raises ValueError.","every n, N, draw","all sizes and draws",a(RS,"random_FF_pure_state_WN"))
p("C58","random_FF_pure_state_CN","For every draw with a non-zero projection (and no rotated operator having an entry of modulus strictly between 0 and the 1e-9 cut-off), the distilled vacuum is a unit vector annihilated by all rotated lowering operators, and the returned state is a unit vector with rotated occupation numbers exactly K.","every n, N, draw","all draws",a(RS,"random_FF_pure_state_CN"))
p("C59","get_orthogonal_vectors","For n >= 2 and a non-zero vector, the result is unitary with first column v/|v|, for every QR factorisation meeting the contract; zero vectors give the identity.","every n, vector and QR factorisation","all vectors",a(RS,"get_orthogonal_vectors"))
p("C60","build_unitary_path","For all non-zero vectors w,v of dimension >= 2, path(0)=w/|w|, path(1)=v/|v| and path(t) has norm one for every real t.","every pair of vectors, every t, every QR / logarithm meeting its contract","all vectors and times",a(RS,"build_unitary_path","get_orthogonal_vectors"))
p("C61","build_linear_path","path(0)=w/|w|, path(1)=v/|v|, and path(s) is a unit vector for every s, except when the two unit vectors are antipodal and s=1/2, where the norm divided by is 0.","every pair of vectors and s in [0,1]","all vectors and parameters",a(RS,"build_linear_path"))
p("C85","random_FF_pure_state_W0","For every draw the result is the sampled rotation applied to the vacuum |0...0>: a unit vector of even fermion parity.","every n, draw","all draws",a(RS,"random_FF_pure_state_W0"))
# --- distance
p("C62","stabilizer_distribution is a distribution","For every n-qubit state (pure or mixed) the result has 4^n non-negative entries with sum 1, so the assertion never fires; the identity entry is 1/(2^n purity).","every n >= 1 and state","all states",a(DM,"stabilizer_distribution"))
p("C63","SRE detects stabilizer states","For every pure state SRE of every finite order >= 0 and of infinite order succeeds and is >= 0; for finite orders it equals 0 exactly when all Pauli expectation values are in {0,+1,-1}. It is invariant under unitaries that permute the Pauli operators up to sign, for every state with 2^n purity >= 1.00003 (all pure states); it is 0 for the maximally mixed state; it is not invariant under all unitaries.","every n, order and state","all states",a(DM,"SRE","stabilizer_distribution","renyi_entropy"))
p("C64","Renyi entropy","renyi_entropy(p,a) equals (1/(1-a)) log sum p_i^a for a not in {0,1,inf}, is between 0 and log d, is 0 for deterministic and log d for uniform distributions, and is additive on product distributions.","every d, p, a >= 0","all distributions and orders",a(DM,"renyi_entropy"))
p("C65","Renyi entropies decrease in the order","S_inf <= S_2 <= S_1 <= S_0 for every distribution, and S_b <= S_a whenever a <= b.","every distribution and pair of orders","all distributions",a(DM,"renyi_entropy"))
p("C66","linear entropy","linear_entropy(p) = 1 - sum p_i^2 lies in [0, 1-1/d], is 0 exactly for deterministic and 1-1/d exactly for uniform p; it raises AssertionError for every length up to 10^15 that is not a perfect square.","every d and p","all distributions",a(DM,"linear_entropy"))
p("C67","FAF","For every state and order k >= 1, FAF_k(rho) = n - (1/2) Tr[(M^T M)^k] with M the real antisymmetric Majorana covariance matrix, up to the Schur entries of modulus at most 1e-10 that the code drops (never below the formula, above it by at most n 1e-20^k); 0 <= FAF_k <= n; FAF_k = 0 exactly if M^T M = 1, in particular for every computational basis state; it is invariant under every unitary that rotates the Majorana operators linearly, in particular under exp(-iG) for quadratic Hermitian G.","every n, state, k >= 1 and valid Schur decomposition","all states",a(DM,"FAF","cov_distribution"))
p("C68","total variation distance is a metric bounded by 1","TVD is symmetric, satisfies the triangle inequality, is 0 exactly if the distributions agree and at most 1, for all probability distributions of the same length.","every d and all distributions, given as wavefunction, density matrix or a probability vector that is not read as a wavefunction (see C17)","all distributions; length-1 inputs broadcast",a(DM,"total_variation_distance"))
p("C69","trace distance","trace_distance is symmetric, in [0,1], 0 exactly for equal states, satisfies the triangle inequality, is invariant under unitary conjugation, dominates the total variation distance of the diagonals (with equality for diagonal states), and is the largest difference of probabilities any yes-no measurement can give on the two states.","every dimension and all states","all states",a(DM,"trace_distance"))
p("C70","relative entropy","relative_entropy(p,q) >= 0 with equality exactly if p=q, and +infinity exactly if p puts mass where q does not.","every d and all distributions","all distributions",a(DM,"relative_entropy"))
p("C71","Bhattacharyya coefficient","0 <= BC <= 1, symmetric, 1 exactly if p=q, 0 exactly if the supports are disjoint, and 1-BC <= TVD <= sqrt(1-BC^2).","every d and all distributions","all distributions",a(DM,"bhattacharyya_coeff","total_variation_distance"))
p("C72","Jensen-Shannon divergence","JSD is symmetric, finite, in [0, log 2], 0 exactly if p=q and log 2 exactly if the supports are disjoint.","every d and all distributions","all distributions",a(DM,"jensen_shannon_divergence"))
p("C86","distributions of different lengths are rejected","Comparing two distributions of different lengths with total_variation_distance, relative_entropy, bhattacharyya_coeff or jensen_shannon_divergence raises ValueError.","every pair of lengths and distributions","all pairs of lengths",a(DM,"total_variation_distance","relative_entropy","bhattacharyya_coeff","jensen_shannon_divergence"))
p("C87","losing a subsystem does not help to distinguish states","Applying partial_trace_over_1 to two states of the same bipartite system never increases their trace distance.","every pair of dimensions and every pair of states","all states and dimensions",a(DM,"trace_distance")+a(UT,"partial_trace_diagblocksum"))
# --- graph
p("C73","brute-force matchings","For every simple graph with at most 15 nodes find_perfect_matchings_brute returns every perfect matching exactly once and nothing else; its length equals hf of the adjacency matrix.","every graph with n <= 15 nodes","all graphs",a(GR,"find_perfect_matchings_brute")+a(CO,"hf"))
p("C74","faces partitions the darts","For every graph with at least one edge and every embedding (rotation system), faces terminates and returns closed walks such that every directed edge occurs in exactly one face exactly once and consecutive edges follow the clockwise rule; moving the outer face to the end only permutes the list.","every graph and rotation system","all embeddings; termination of a while loop",a(GR,"faces"))
p("C75","complete_face fixes the parity of a face","If exactly one edge of the face is unassigned, complete_face assigns only that edge so that the product of the orientation signs along the face becomes -1 (an odd number of edges against the walk); every other edge is untouched.","every face walk and every partial orientation","all partial orientations",a(GR,"complete_face"))
p("C76","the dual graph is a tree","For every connected planar embedded graph and every spanning tree, dual_graph_H returns a tree on the faces, one edge per non-tree edge.","every connected planar embedding and spanning tree","all planar graphs",a(GR,"dual_graph_H"))
p("C77","pfo_algorithm orients every edge","For every connected planar graph with nodes 0..n-1 (in insertion order, at least one edge), every embedding and spanning tree, pfo_algorithm passes its assertion, assigns +1 or -1 to the upper triangle entry of every edge, 0 elsewhere, and every face but the root has sign product -1.","every connected planar graph, embedding, spanning tree, iteration order","all planar graphs",a(GR,"pfo_algorithm","complete_face","dual_graph_H","faces"))
p("C78","FKT counts perfect matchings","For every connected planar graph with nodes 0..n-1 in insertion order and at least one edge, count_perfect_matchings_planar returns the number of perfect matchings.","every connected planar graph, embedding and spanning tree","all planar graphs",a(GR,"count_perfect_matchings_planar","pfo_algorithm"))
p("C79","count_perfect_matchings agrees with enumeration","count_perfect_matchings(G) equals the number of perfect matchings of G for every graph.","every graph","all graphs, planar or not, connected or not, of any size",a(GR,"count_perfect_matchings","find_perfect_matchings_brute","count_perfect_matchings_planar"))
p("C80","pf of the pfo matrix counts matchings","pf(pfo_algorithm(G)) is, up to sign, the number of perfect matchings, as docs/tutorials.rst and docs/examples.rst say.","every connected planar graph","all graphs with a cycle",a(GR,"pfo_algorithm","complete_face")+a(CO,"pf"))
p("C81","pfo_algorithm does not depend on the order in which nodes were added","pfo_algorithm succeeds on a connected planar graph whatever the order in which its nodes and edges were inserted.","every insertion order","all insertion histories",a(GR,"pfo_algorithm","dual_graph_H"))
p("C82","random planar graphs","Whatever the random draws, generate_random_planar_graph(n) returns the first graph among its first 1000 draws that is connected and planar, which then has n nodes and between n-1 and 2n-3 edges, or None if all 1000 were rejected; for n <= 1 it raises ValueError.","every n and every sequence of draws","all random outcomes",a(GR,"generate_random_planar_graph"))
p("C83","compute_tree_depth","For a tree, compute_tree_depth returns the largest distance from the first node; it is at most n-1, and 0 exactly for a one-node tree; for a non-tree it raises ValueError.","every tree","all trees",a(GR,"compute_tree_depth"))
p("C84","plot_graph_with_edge_weights builds the right graph","The returned graph has nodes 0..n-1; for A symmetric up to numpy's default tolerance it is undirected with one edge per non-zero entry above the diagonal, otherwise directed with one edge per non-zero entry; each weight is within 0.5e-4 of the entry. One figure shows the nodes, labels, grey edges, weights, the matching in red and the title; a matching with an unknown node raises KeyError and no figure is shown.","every n and real matrix","all matrices",a(GR,"plot_graph_with_edge_weights"))
# --- Gaussian states
p("C88","Wick's theorem","In every state that generate_gaussian_state (n >= 3), random_FF_state (pure or mixed, fixed N or not), random_FF_state_randH, random_FF_pure_state_W0, _WN and _CN return, the expectation value of every product of Jordan-Wigner or Majorana operators is the sum over all pairings of the pair correlations, i.e. pf of the array of contractions taken from compute_2corr_matrix (for different Majorana operators: pf of half the submatrix of compute_cov_matrix).","every n, every coefficient matrix or random draw, every length and sequence of operators","all products of all lengths, all states",a(LI,"generate_gaussian_state","compute_2corr_matrix","compute_cov_matrix")+a(RS,"random_FF_state_randH","random_FF_pure_state_W0","random_FF_pure_state_WN","random_FF_pure_state_CN")+a(CO,"pf"))
p("C89","Fermi-Dirac statistics","For n >= 3 sites and H = build_H(n,A,B) the correlations of generate_gaussian_state(n,H) are compute_2corr_matrix(conjugation=1) = (1+exp(-2H))^-1 and the transpose of compute_2corr_matrix(conjugation=-1) = (1+exp(2H))^-1 (with the entries of H of modulus at most 1e-10 dropped, as build_op does); for general Hermitian coefficients 2H is replaced by H - S H^T S.","every n >= 3, Hermitian A and antisymmetric B","all Hamiltonians",a(LI,"generate_gaussian_state","compute_2corr_matrix","build_H","build_op"))
p("C90","states of zero anti-flatness","For every state FAF is 0 exactly if compute_2corr_matrix(conjugation=1) is a projection, and exactly if the state is the vacuum of n orthonormal combinations of the Jordan-Wigner operators; such a state is pure and obeys Wick's theorem. Every random pure free-fermion state (random_FF_state(pure=True), W0, WN, CN) has FAF = 0.","every n, state, order k >= 1, valid Schur decomposition, random draw","all states",a(DM,"FAF")+a(LI,"compute_2corr_matrix")+a(RS,"random_FF_pure_state_W0","random_FF_pure_state_WN","random_FF_pure_state_CN"))
p("C91","a free-fermion state is determined by its correlations","Two operators obeying Wick's theorem with the same compute_2corr_matrix (in any of its three conventions) are equal; FAF of a state is 0 exactly if the state is pure and obeys Wick's theorem.","every n and every pair of operators","all states",a(LI,"compute_2corr_matrix")+a(DM,"FAF"))
p("C92","random_FF_state_rotPDF returns free-fermion states","As its docstring says, random_FF_state_rotPDF returns a free-fermion state: Wick's theorem holds in it.","every n and every random draw","all draws",a(RS,"random_FF_state_rotPDF"))
p("C93","occupations from the correlation matrix","As docs/examples.rst does, the occupations of the sites can be read off the second half of the diagonal of compute_2corr_matrix(rho,n,alphas), and the correlations <a_i^dag a_j> off its entries [i, n+j].","every n, state and site","all states",a(LI,"compute_2corr_matrix")+["docs/examples.rst:analyze_correlations"])
p("C94","time evolution of correlations","For H = build_H(n,A,B), U = expm(-i t build_op(n,H,alphas)) and any state rho, compute_2corr_matrix of U rho U^dag is E P E^dag (conjugation=1) and E G E^T (default), where P and G are those of rho and E = expm(-2 i t H) is a 2n x 2n unitary.","every n >= 1, Hamiltonian, time and state","all Hamiltonians, times and states",a(LI,"build_H","build_op","compute_2corr_matrix"))
p("C95","eigh_sp solves the many-body problem","If eigh_sp(H) returns diag(-s,s) for H = build_H(n,A,B), then the 2^n eigenvalues of build_op(n,H,alphas), with multiplicity, are the sums of +-s_k; Tr exp(-beta build_op) is the product of 2 cosh(beta s_k); the lowest eigenvalue is -sum |s_k|.","every n >= 1, Hermitian A, antisymmetric B (entries and eigenvalues zero or above the 1e-10 cut-offs), beta, valid Schur form","all Hamiltonians",a(LI,"eigh_sp","build_op","build_H"))
p("C96","the zero mode of the Kitaev chain","For eigh_sp(kitaev_chain(n,0,t,delta)) with delta = t or delta = -t exactly one of the n returned energies is zero and the others are +-2t, and the ground energy of the operator is -2|t|(n-1); with a chemical potential none is zero.","every n >= 1 and |t| >= 1e-10, every valid Schur form","all lengths and couplings",a(LI,"kitaev_chain","eigh_sp"))
p("C97","analyze_pdf draws the populations and the spectrum","For every state (vector, density matrix or distribution) analyze_pdf succeeds and draws d populations, each within 5e-7 of the diagonal entry, and d eigenvalues in descending order, the i-th within 5e-7 of the i-th largest; the drawn eigenvalues majorise the drawn populations up to the rounding, both sum to 1 up to the rounding, and values below 5e-7 are drawn as exactly 0; the title and style are those asked for; a non-array raises TypeError, an empty one ValueError, a non-state what cast_to_density_matrix raises.","every dimension and state, name and style","all states",a(UT,"analyze_pdf"))
p("C98","random_CHP_state returns stabilizer states","For every n >= 1 and every outcome of stim's draw, random_CHP_state(n) returns a unit vector of shape (2^n,1) all of whose Pauli expectation values are 0 or +-1, exactly 2^n of them non-zero, so that SRE is 0 at every order; without stim it raises ImportError, otherwise TypeError for a non-integer and ValueError for n <= 0.","every n, outcome and order","all outcomes and sizes",a(RS,"random_CHP_state")+a(DM,"stabilizer_distribution"))
p("C99","reduced states of free-fermion states","Tracing out the first a sites of a chain with partial_trace_over_1 and calling compute_2corr_matrix on the remaining b sites gives exactly the block of the full correlation matrix that belongs to these sites; partial_trace_over_2 does the same for the first sites (up to imaginary parts of at most 2^a 1e-8 that it drops). Wick's theorem is inherited by both reduced states, in particular by those of generate_gaussian_state.","every a and b, every operator","all states and cuts",a(UT,"partial_trace_diagblocksum","partial_trace_blockTr")+a(LI,"compute_2corr_matrix","generate_gaussian_state"))
p("C100","inequalities between the distances","2 total_variation_distance^2 <= relative_entropy; total_variation_distance^2 / 2 <= jensen_shannon_divergence <= total_variation_distance log 2; if relative_entropy is finite then bhattacharyya_coeff > 0 and -2 log of it is at most relative_entropy.","every pair of distributions (in any accepted representation) on the same number of outcomes","all distributions",a(DM,"total_variation_distance","relative_entropy","jensen_shannon_divergence","bhattacharyya_coeff"))
p("C101","data processing","If both arguments are sent through the same channel (stochastic matrix), total_variation_distance, relative_entropy and jensen_shannon_divergence do not increase and bhattacharyya_coeff does not decrease.","every channel and pair of distributions","all channels",a(DM,"total_variation_distance","relative_entropy","jensen_shannon_divergence","bhattacharyya_coeff"))
p("C102","distances between independent products","For independent products bhattacharyya_coeff multiplies, relative_entropy adds (also when infinite) and total_variation_distance is subadditive.","every two pairs of distributions, of any lengths","all distributions",a(DM,"total_variation_distance","relative_entropy","bhattacharyya_coeff"))
p("C103","mixing does not decrease the entropy","A channel that preserves the uniform distribution does not decrease renyi_entropy, at any order from 0 to infinity. Hence renyi_entropy of a density matrix, which is that of its diagonal, is never below that of its eigenvalues.","every doubly stochastic matrix, distribution, state and order","all states and orders",a(DM,"renyi_entropy"))
p("C104","the stabilizer entropy of products","stabilizer_distribution of a product of two states is the product of their stabilizer distributions, and SRE of a product of pure states is the sum of the two values, at every order (also for mixed states of normalised purity at least 1.00003); next to a maximally mixed state, whose own SRE is 0, it is smaller by a log 2.","every two numbers of qubits, pair of states and order","all states",a(DM,"stabilizer_distribution","SRE"))
p("C105","matchgates are the two-site free-fermion evolutions","For every coefficient array of two sites and every complex time, expm of the quadratic operator of build_op is accepted by is_matchgate and satisfies the matchgate condition exactly; conversely an invertible parity-preserving gate satisfies the matchgate condition iff conjugating each Jordan-Wigner operator with it gives a linear combination of the Jordan-Wigner operators.","every coefficient array, time, flag and invertible parity-preserving 4x4 gate","all gates",a(LI,"is_matchgate","build_op","jordan_wigner_alphas"))
p("C106","parent Hamiltonians of Gaussian states","For n >= 3 sites, generate_gaussian_state(n, build_H(n,A,B)) determines the Hamiltonian up to the entries below 1e-10 that build_op skips, and compute_2corr_matrix of the state determines the state. The correlation matrix P lies strictly between 0 and 1 and satisfies S P^T S = 1 - P; conversely every such P equals 1/(1+exp(-2H)) for exactly one H = build_H(n,A,B), and is the correlation matrix of the Gaussian state of this H if H has no tiny entries.","every n >= 3, all Hermitian A, antisymmetric B, and all matrices P","all Hamiltonians and correlation matrices",a(LI,"generate_gaussian_state","build_H","compute_2corr_matrix"))
p("C107","plot_planar_embedding draws the orientation","On every planar graph plot_planar_embedding(G, pfo, title) draws all nodes, labels and grey edges, shows exactly one figure and prints nothing; for every edge with a non-zero entry of pfo there is exactly one arrow, from u to v if the sign of (u,v) is negative; the title is the given one if not empty, else the default. For pfo = pfo_algorithm(G) every edge has one arrow and every face but the last one (every face for an even number of nodes) has an odd number of arrows along its walk. A non-planar graph raises NetworkXException before anything is drawn, a too small pfo raises IndexError and no figure is shown.","every graph, orientation array and title","all graphs and arrays",a(GR,"plot_planar_embedding","pfo_algorithm"))
p("C108","pfo_algorithm messages","The value or exception of pfo_algorithm does not depend on what it prints, and whenever the verbose call returns it returns the value of the silent call. On every connected planar graph with nodes 0..n-1 and an edge the silent call prints exactly 'Complete pfo'; the verbose call also prints the number of faces and the first five faces, shows F + 3 figures for F faces (if the weights are positive: the spanning tree with all its edges directed upwards, the dual tree, the spanning tree directed downwards, one figure named after each face but the last, and the returned orientation), and the last figure is the drawing of the returned orientation. complete_face prints the edges of the walk if none of them is unassigned, the unassigned ones if there are several, and nothing otherwise. If the dual graph is no tree, its numbers of nodes and edges are printed before AssertionError is raised. For any other order of insertion for which pfo_algorithm succeeds on such a graph (without weights), 'Complete pfo' is printed iff every edge joins nodes whose insertion positions are also adjacent labels, and whenever it is printed the number of perfect matchings computed from the orientation is right.","every graph, order of insertion, embedding, spanning tree and iteration order","all planar graphs",a(GR,"pfo_algorithm","complete_face","plot_planar_embedding"))
p("C109","counting warns when it is wrong","Messages do not change the result of find_perfect_matchings_brute, count_perfect_matchings_planar and count_perfect_matchings. The brute-force warning is printed iff the number of nodes is even and above 15. For graphs with nodes 0..n-1 and no weights, if count_perfect_matchings returns a number that is not the number of perfect matchings, then the graph is empty or the warning was printed.","every simple graph","all graphs",a(GR,"count_perfect_matchings","count_perfect_matchings_planar","find_perfect_matchings_brute"))
p("C110","arrays of 64-bit integers","For an integer array, dt and pt return the 64-bit integer congruent to the determinant and the permanent modulo 2^64, so the result is right exactly when it is a 64-bit integer, even if intermediate products overflow. pf of a skew and hf of a symmetric integer array with 2m rows return the exact integer whenever 2^m m! times it is at most 2^53.","every size and every integer array","all arrays",a(CO,"dt","pt","pf","hf"))
p("C111","rounding errors are bounded","With 64-bit floats (no overflow or underflow) the value returned by dt, pt, pf and hf differs from the exact one by at most ((1+u)^k - 1) times the permanent (for pf and hf: the hafnian) of the array of absolute values, where u = 2^-53 and k is about the number of permutations; up to ten rows the factor for dt and pt is below 1e-9. For arrays without negative entries this bounds the relative error of pt.","every size and every real array","all arrays",a(CO,"dt","pt","pf","hf"))
p("C112","integers stored as floats","For a float array of integers dt and pt return the exact integer if the permanent of the absolute values is at most 2^53, and so do pf of a skew and hf of a symmetric array with 2m rows if 2^m m! times the hafnian of the absolute values is.","every size and every array of integers","all arrays",a(CO,"dt","pt","pf","hf"))
p("C113","counting perfect matchings with inexact eigenvalues","count_perfect_matchings_planar returns exactly the number N of perfect matchings of a connected planar graph also if the eigenvalue routine makes errors of up to eta per eigenvalue, for small eta: n nodes of degree at most D need (D+eta)^n - D^n < 0.5e-10 N, and for N = 0, eta (D+eta)^((n-2)/2) < 0.5e-10.","every connected planar graph with nodes 0..n-1, every error of the eigenvalues","all graphs and all errors",a(GR,"count_perfect_matchings_planar")+a(CO,"dt_eigen")+a(UT,"clean"))
p("C114","the documented checks of eigh_sp","The results L, U of eigh_sp(build_H(n,A,B)) pass the checks printed in the documentation: is_symp(U) is true, np.allclose(U^dag H U, L) is true and check_canonical_form(L) is true.","every n, Hermitian A, antisymmetric B and valid Schur decomposition","all Hamiltonians",a(LI,"eigh_sp","is_symp","check_canonical_form")+["docs/examples.rst:268-276","docs/tutorials.rst:118-128"])
p("C115","positive energies","The second half of the diagonal of the L that eigh_sp returns holds the positive eigenvalues of H, as the documentation comments.","every n, Hermitian A, antisymmetric B and valid Schur decomposition","all Hamiltonians",a(LI,"eigh_sp","kitaev_chain")+["docs/examples.rst"])
p("C116","Gaussian states and ground states","generate_gaussian_state(n, H) returns the ground state of build_op(H), as the documentation says.","every n >= 3 and Hermitian coefficient matrix","all Hamiltonians and all states",a(LI,"generate_gaussian_state","build_op")+["docs/examples.rst:52","docs/tutorials.rst:98"])
p("C117","what the functions print","Messages never change a value. permutation_to_matrix prints its message exactly if it returns None; is_symp prints one exactly if the block form and the symplectic test disagree, and nothing for unitary symplectic matrices; check_canonical_form prints exactly one line if it returns False, naming the first failed test, and none if it returns True; generate_gaussian_state and build_op warn exactly about the wrong shape; is_matchgate prints the two determinants rounded to 4 places if verbose; dt_eigen prints one line exactly if it returns None; stabilizer_distribution warns only before raising AssertionError, and never for a state; verbose rotate_operators and build_op report exactly the coefficients that are used; compute_algebra_S prints an error exactly for the pairs whose anticommutator is neither 0 nor a multiple of the identity, and for jordan_wigner_alphas(n) its verbose summary is symmetric, rank 2n, trace 0, eigenvalues -1 and 1.","every argument of these functions","all arguments",a(LI,"permutation_to_matrix","rotate_operators","is_symp","check_canonical_form","build_op","generate_gaussian_state","compute_algebra_S","is_matchgate")+a(CO,"dt_eigen")+a(DM,"stabilizer_distribution"))
p("C118","the range of the stabilizer entropy","For states of normalised purity 2^n Tr rho^2 >= 1.00003, SRE lies between log Tr rho^2 and n log 2 at every order, equals the lower end exactly if all Pauli expectation values are 0 or +-1 (and always at order infinity) and does not increase with the order. For pure states it is at most log((2^n+1)/2) at orders >= 2, at order 2 with equality iff all non-trivial squared Pauli expectation values are 1/(2^n+1). So it is 0 for pure stabilizer states only: mixed stabilizer states get negative values, and the maximally mixed state 0, not a positive value as documented.","every n >= 1, state and order","all states and orders",a(DM,"SRE","stabilizer_distribution","renyi_entropy"))
p("C119","order, largest value and products of FAF","FAF does not decrease with the order k >= 1. It is the largest possible value n exactly if the Majorana covariance matrix shortens every vector by a factor of at least 1e10, e.g. for the maximally mixed state. If one of two states commutes with the fermion parity, FAF of their product is the sum of the two values; without this condition it can be smaller. It is positive for every state generate_gaussian_state(n,H) returns, n >= 3, although these are free-fermion states (Wick's theorem holds), contrary to the documentation.","every number of sites, state, order and valid Schur form","all states",a(DM,"FAF","cov_distribution")+a(LI,"generate_gaussian_state"))
p("C120","array types in rotate_operators, build_op and kitaev_chain","The results are accumulated in an array of the type of the first operator. If a coefficient that is used, or an operator that occurs with it, is of a higher type (integer < real < complex) than the first operator, the call raises TypeError; otherwise the values are those of C29, C33 and C34 and the type is that of the first operator. With complex operators such as the Jordan-Wigner ones types never matter. kitaev_chain raises TypeError exactly if there are at least two sites and delta is a complex number, or t is one and mu is not; complex t that is accepted gives an array that is not Hermitian.","all types, coefficient arrays, operator lists and parameters","the tests use complex Jordan-Wigner operators and float parameters",a(LI,"rotate_operators","build_op","kitaev_chain"))
p("C121","which values the random functions can return","random_H_generator can return exactly the Hermitian particle-hole symmetric arrays (with fixedN those without off-diagonal blocks), random_FF_rotation(returnOrb=True) exactly the unitary symplectic arrays with determinant one, random_qubit_pure_state exactly the unit vectors, random_qubit_state exactly the density matrices, and random_FF_state_randH exactly the normalised exponentials exp(-Q) of the operators build_op returns for build_H(n,A,B), A Hermitian and B antisymmetric.","every n and every array","a test sees a few draws",a(LI,"random_H_generator","random_FF_rotation")+a(RS,"random_qubit_state","random_qubit_pure_state","random_FF_state_randH"))
p("C122","amplitudes of Slater determinants are determinants","If the rows r of C mix creation operators only, the state b[r_1]...b[r_N]|0> built from b = rotate_operators(C, jordan_wigner_alphas(n)) has amplitude dt(C[r,s]) on the basis vector with the sites s_1<...<s_N filled and 0 on basis vectors with another particle number; the overlap of two such states is dt of the array of overlaps of the rows; expm(-i t build_op(n, build_H(n,A), alphas)) takes basis vectors to basis vectors with amplitudes that are, up to a common phase, minors dt(E[s,r]) of E = expm(-2 i t A).","every n, particle number, array C, Hermitian A, time t and choice of rows and sites","there are exponentially many amplitudes and continuously many arrays",a(LI,"rotate_operators","jordan_wigner_alphas","build_op","build_H")+a(CO,"dt"))
p("C123","anti-flatness measures the failure of the matchgate identities","For a unit vector, FAF(psi, k=1) is twice the sum of the squared amounts by which the matchgate identities fail (up to n*1e-20), and the anti-flatness is 0 for any k >= 1 exactly if all the identities hold; then every amplitude is pf of the array of pair amplitudes, up to powers of the vacuum amplitude. States of definite parity on at most three sites have anti-flatness 0, on four sites not always. The states random_FF_state(pure=True), random_FF_pure_state_W0 and random_FF_pure_state_WN return satisfy all identities.","every n, unit vector, k >= 1, every seed and every draw","the identities range over all pairs of basis vectors and a continuum of states",a(DM,"FAF")+a(LI,"random_FF_state")+a(RS,"random_FF_pure_state_W0","random_FF_pure_state_WN")+a(CO,"pf"))
p("C124","functions leave their arguments alone and their results do not change later","After rotate_operators, build_op, build_H, partial_trace_diagblocksum, clean (of a float or complex array), cast_to_density_matrix, cast_to_pdf, build_linear_path or a call of the path, all arrays that existed before have the entries they had. The arrays returned (and the path) do not change when the caller later assigns to the arguments. complete_face changes only the array it is given.","every content of memory, all array arguments (which may share memory), all later assignments","a test would have to try every later assignment through every array that may share memory",a(LI,"rotate_operators","_perform_rotation","build_op","build_H")+a(UT,"partial_trace_diagblocksum","clean","cast_to_density_matrix","cast_to_pdf")+a(GR,"complete_face")+a(RS,"build_linear_path"))
p("C125","pf is the signed sum over perfect matchings","For every skew-symmetric matrix A, pf(A) equals the sum, over all perfect matchings of the index set, of the product of the entries A[i,j] (i<j) of the matched pairs, with a minus sign for each pair of crossing arcs; and for every matrix of even dimension pf and hf return exactly the permutation sums 1/(2^(n/2) (n/2)!) sum_sigma [sgn(sigma)] prod_i A[sigma(2i-1),sigma(2i)] that docs/tutorials.rst writes down.","every n and every n x n matrix (skew-symmetric for the matching formula)","the sign convention of a sum over n!/(2^(n/2)(n/2)!) matchings can only be sampled on small literals; pf(A)^2 = det(A) does not see the sign",a(CO,"pf","hf")+["docs/tutorials.rst"])
p("C126","many-body spectrum and the tight-binding chain","The eigenvalues of build_H(n,A,B) are real and come in pairs +-eps_1,...,+-eps_n. For every such Hamiltonian (without entries that build_op skips) the eigenvalues of the 2^n x 2^n array build_op(n,H,alphas), with multiplicities, are the sums +-eps_1 +- ... +- eps_n, its partition function is prod_k 2 cosh(beta eps_k) and its lowest energy is -sum_k |eps_k|. For kitaev_chain(n,mu,t,0) the eps_k are mu + 2 t cos(pi k/(n+1)), k = 1..n, and eigh_sp returns exactly these moduli.","every n, Hermitian A, antisymmetric B, real mu, t and beta; every valid Schur decomposition","all system sizes and couplings",a(LI,"build_H","build_op","kitaev_chain","eigh_sp"))
p("C127","arrays of unexpected shapes","Arrays whose shape differs from the documented one raise an exception (build_V, build_H: N x N blocks; is_symp, eigh_sp, eigv_sp, eigm_sp, eigm_sp_can: 2N x 2N; compute_2corr_matrix, compute_cov_matrix, correlation_matrix: 2^N x 2^N; generate_gaussian_state: 2N x 2N or 2^N x 2^N, otherwise 0; partial traces: square).","every number of rows and columns; for build_V and build_H every number of axes","all shapes: the reaction depends on how numpy repeats axes of length 1 and cuts slices",a(LI,"build_V","build_H","is_symp","eigh_sp","eigv_sp","eigm_sp","eigm_sp_can","generate_gaussian_state","compute_cov_matrix","correlation_matrix","compute_2corr_matrix")+a(UT,"partial_trace_diagblocksum","partial_trace_blockTr"))
p("C128","spectrum and entropies of free-fermion states","For a density matrix that obeys Wick's theorem the eigenvalues of compute_2corr_matrix(rho, conjugation=1) come in pairs p_k, 1-p_k, and the 2^n eigenvalues of the state are all the products with one factor p_k or 1-p_k per k. So Tr rho^2 = prod(p_k^2+(1-p_k)^2), its square is det(P^2+(1-P)^2), and renyi_entropy of the eigenvalues is the sum of renyi_entropy of (p_k, 1-p_k) at every order from 0 to infinity. The same holds for the state of the last sites from partial_trace_over_1 with the block of P (entanglement spectrum). Every P >= 0 with S P^T S = 1-P is the correlation matrix of exactly one density matrix that obeys Wick's theorem.","every number of sites, density matrix that obeys Wick's theorem (in particular generate_gaussian_state), cut and order","all states, cuts and orders",a(LI,"compute_2corr_matrix","generate_gaussian_state")+a(UT,"partial_trace_diagblocksum")+a(DM,"renyi_entropy"))
p("C129","entropies and distances of every accepted input are numbers in the documented range","Whenever cast_to_pdf accepts an input (not only exactly normalised, exactly positive ones), renyi_entropy is a number between 0 and log d at every order and depends continuously on the order, relative_entropy and jensen_shannon_divergence of an input with itself are 0, bhattacharyya_coeff is a number, and total_variation_distance is a metric.","every input that the casts accept, every order, every pair and triple of such inputs of equal length","all accepted inputs, including those at the edges of the tolerances",a(UT,"cast_to_pdf","cast_to_density_matrix")+a(DM,"renyi_entropy","linear_entropy","relative_entropy","bhattacharyya_coeff","jensen_shannon_divergence","total_variation_distance"))
p("C130","inputs outside the documented domain are rejected","cast_to_density_matrix and cast_to_pdf raise ValueError for arrays with no axes or with more than two, the partial traces raise an exception for a subsystem dimension that is not a positive divisor of the dimension, and renyi_entropy raises an exception for a negative order.","arrays with any number of axes of any lengths, all integers as subsystem dimension, all negative orders","all shapes, integers and orders",a(UT,"cast_to_density_matrix","cast_to_pdf","partial_trace_diagblocksum","partial_trace_blockTr")+a(DM,"renyi_entropy"))
p("C131","the Kitaev chain is a spin chain","jordan_wigner_majoranas(n) lists the Pauli strings Z...ZXI...I and Z...ZYI...I over the square root of 2. The operator of kitaev_chain(n,mu,t,delta) is the XY chain with open ends in a transverse field, mu sum Z_i - (t+delta) sum X_i X_{i+1} - (t-delta) sum Y_i Y_{i+1}. For mu = 0 and delta = t the 2^n product states of spins along x diagonalise it, and for t > 0 exactly the two states with parallel spins have the least energy, -2t(n-1).","every number of sites and all real parameters","all sizes and parameters",a(LI,"kitaev_chain","jordan_wigner_lowering","jordan_wigner_majoranas","build_op"))
p("C132","nan is not swallowed","If an input array contains nan then cast_to_density_matrix and cast_to_pdf, and with them all measures, raise an exception, dt, pt, pf and hf return nan, is_symp returns False, and every entry of the result of build_op is nan; arrays without nan are not affected by this.","every size and every array, nan at any places","all arrays and places",a(UT,"cast_to_density_matrix","cast_to_pdf")+a(CO,"dt","pt","pf","hf")+a(LI,"is_symp","build_op"))
p("C133","rounding errors of distances and partial traces are bounded","With 64-bit floats and any order of summation, total_variation_distance and bhattacharyya_coeff of two probability lists with n entries are accurate to a relative error (1+2^-53)^(n+2)-1, linear_entropy is accurate to 5e-9 for up to a million entries and its internal comparison of two formulas never raises because of rounding, and every entry of partial_trace_over_1 and partial_trace_over_2 is accurate relative to the sum of the absolute values of its summands (partial_trace_over_2 up to 1e-8 in the imaginary part).","all lengths, all arrays of reals (complex for the partial traces), all orders of summation in which a number goes through at most n additions","all inputs and all summation orders numpy might choose",a(DM,"total_variation_distance","bhattacharyya_coeff","linear_entropy")+a(UT,"partial_trace_diagblocksum","partial_trace_blockTr"))
p("C134","sequences of random calls replay and do not interfere","In a sequence of calls of the functions that draw random numbers, interleaved with draws by the caller: a sequence in which each call has a seed, or follows a call that set its generator, gives the same outcomes (exceptions included) whatever was drawn before; generate_random_planar_graph and the functions that use numpy do not affect each other; a seed affects only the call it is passed to; and different functions or seeds give unrelated samples.","all sequences of calls, of any length, with any arguments and seeds, and all initial states of both generators","all histories of calls and generator states",a(LI,"random_FF_rotation","random_H_generator","random_FF_state")+a(RS,"random_qubit_state","random_qubit_pure_state","random_FF_state_randH","random_FF_state_rotPDF","random_FF_pure_state_W0","random_FF_pure_state_WN","random_FF_pure_state_CN")+a(UT,"generate_random_bitstring")+a(GR,"generate_random_planar_graph"))
p("C135","the returned generator can be diagonalised as the documentation shows","random_FF_state(n, returnH=True) returns a generator H that eigh_sp(H) accepts and diagonalises, as in the complete example of the quick start.","all n >= 1, all Hermitian A and antisymmetric B that build_H combines into the generator, all outcomes of the sampler","all matrices and random draws",a(LI,"random_FF_state","eigh_sp","build_op","build_H"))
p("C136","random functions have the distributions their documentation states","random_qubit_pure_state returns a vector distributed uniformly over the unit vectors; random_qubit_state returns U diag(p) U^dagger with Haar random U and an independent, flat Dirichlet p, a distribution invariant under all unitaries; random_FF_rotation(returnOrb=True) is Haar distributed over the orbital rotations; generate_random_bitstring(n,k) gives each of the binomial(n,k) strings with the same probability. Successive calls are independent.","all n (and k), all events, provided the draws of numpy and scipy are independent and have their documented distributions","a distribution is a statement about all draws and all events",a(RS,"random_qubit_pure_state","random_qubit_state")+a(LI,"random_FF_rotation")+a(UT,"generate_random_bitstring"))
p("C137","random free-fermion states are uniformly distributed over the free-fermion states, with fixed particle number where documented","random_FF_pure_state_W0(n) and random_FF_state(n,pure=True) return a state distributed uniformly over the free-fermion states, random_FF_pure_state_WN(n,N) a state distributed uniformly over the free-fermion states with N particles, random_FF_state_rotPDF(n) a Dirichlet distributed spectrum in a uniformly distributed free-fermion frame; random_FF_rotation(n) performs the orbital rotation of its draw. Successive calls are independent.","all n, all N <= n, all events, provided the draws of numpy and scipy are independent and have their documented distributions","a distribution is a statement about all draws and all events",a(RS,"random_FF_pure_state_W0","random_FF_pure_state_WN","random_FF_state_rotPDF")+a(LI,"random_FF_rotation","random_FF_state"))
p("C138","distributions of the free-fermion states with a random number of particles, and of the entries of random generators","random_FF_pure_state_WN(n) and random_FF_pure_state_CN(n), which draw the number of particles, sample the same distribution over free-fermion states: uniform among the states of each parity. The real and imaginary parts of the entries of random_H_generator(n, fixedN) are standard normal.","all n, all events, provided the draws of numpy and scipy are independent and have their documented distributions","a distribution is a statement about all draws and all events",a(RS,"random_FF_pure_state_WN","random_FF_pure_state_CN")+a(LI,"random_H_generator"))
p("C139","averages over the random states","Averaging the projector of random_qubit_pure_state(n), or the state of random_qubit_state(n), gives the maximally mixed state 1/2^n; so does random_FF_state_rotPDF(n). Averaging random_FF_pure_state_W0(n) or random_FF_pure_state_WN(n, N) gives the maximally mixed state of one parity, (1 + (-1)^N P)/2^n, so for n >= 2 every site is half filled on average, whatever N. With N drawn, the average is (1 + c P)/2^n with c = 0 for odd n and 1/(n+1) for even n. The average of an expectation value of any operator follows.","all n >= 1, N <= n and operators, provided the draws of numpy and scipy are independent and have their documented distributions","an average is an integral over all draws",a(RS,"random_qubit_pure_state","random_qubit_state","random_FF_pure_state_W0","random_FF_pure_state_WN","random_FF_pure_state_CN","random_FF_state_rotPDF"))
p("C140","infinities and overflow are not hidden","If an array of floats contains an infinity or nan then dt, pt, pf, hf and build_op do not return finite numbers, the casts raise an exception and is_symp returns False. Conversely dt, pt, pf and hf return finite numbers if all entries are finite and not too large: at most 2^k with n! 2^(kn) < 2^1024 for dt and pt of real arrays, and n! 2^((k+1)n) < 2^1024 for complex arrays. The entries of build_op are finite if the coefficients are at most 2^950, with the Jordan-Wigner operators of up to 48 sites.","all real and complex arrays of all sizes whose entries are 64-bit floats, infinities or nan, and every order in which numpy adds","all positions and combinations of special values",a(CO,"pf","hf","pt","dt")+a(UT,"cast_to_density_matrix")+a(LI,"is_symp","build_op"))
p("C141","rounding errors for complex arrays","With complex 64-bit floats dt, pt, pf and hf return a number whose distance to the exact value is at most ((1+2^-53)^k - 1) times the sum of the absolute values of the products, where k is the number of summands plus three times the number of factors (and a few roundings for the sign and the division). For arrays with up to ten rows the error of dt and pt is at most 1e-9 times that sum.","all complex arrays of all sizes, without overflow and underflow","all numbers and all roundings",a(CO,"pf","hf","pt","dt"))
p("C142","mixtures and parts","For mixtures with the same weights, the total variation distance, the Jensen-Shannon divergence, the relative entropy and the trace distance are at most the average over the mixed pairs, and the Bhattacharyya coefficient at least the average. renyi_entropy of a mixture is at least the average for the orders 0 to 1, and at every order at least the smallest of the mixed entropies; linear_entropy is at least the average. FAF of a mixture of k sites is at least the average minus k*1e-20^order. The Shannon entropy of a pair is at most the sum of the two entropies, with equality exactly for independent outcomes, and FAF of a state is at most the sum of FAF of the two parts that the partial traces return plus the number of sites times 1e-20^order.","all weights, all distributions, all states, all numbers of mixed states and of sites, all orders","inequalities over all mixtures",a(DM,"total_variation_distance","trace_distance","relative_entropy","jensen_shannon_divergence","bhattacharyya_coeff","renyi_entropy","linear_entropy","FAF")+a(UT,"partial_trace_diagblocksum","partial_trace_blockTr"))
p("C143","square roots of the divergences are distances","The square root of jensen_shannon_divergence and the square root of 1 - bhattacharyya_coeff satisfy the triangle inequality for any three distributions of the same length.","all lengths, all distributions","inequalities over all triples of distributions",a(DM,"jensen_shannon_divergence","bhattacharyya_coeff"))
p("C144","small changes of the state change the results little","If two distributions on d outcomes have total variation distance t, their Shannon entropies (renyi_entropy of order 1) differ by at most t log(d-1) - t log t - (1-t) log(1-t), and this is attained; linear_entropy differs by at most 2t. If two states of n sites have trace distance t, every entry of compute_2corr_matrix differs by at most 2t, the occupations by at most t, and FAF of order k by at most 4 k n (2n-1) t + n 1e-20^k. The total variation distance of the stabilizer distributions of two states is at most sqrt(1 - tr(rho sigma)^2 / (tr rho^2 tr sigma^2)); for pure states it is at most sqrt(2) t, and SRE of the default order 2 differs by at most sqrt(2) (2^n + 1) t.","all distributions and states, all numbers of outcomes and sites, all orders k","inequalities over all pairs of states",a(DM,"renyi_entropy","linear_entropy","FAF","total_variation_distance","trace_distance","stabilizer_distribution","SRE")+a(LI,"compute_2corr_matrix"))
p("C145","the operators are computed without rounding errors and quadratic Hamiltonians with few","In double precision, whatever the order of the additions inside the matrix products, generate_pauli_group, jordan_wigner_lowering and jordan_wigner_alphas return exactly the mathematical operators, their products satisfy the anticommutation relations exactly, and compute_algebra_S returns its exact result. build_op with complex floats R returns off-diagonal entries that are the exact ones rounded once, diagonal entries with an error of at most (1+2^-53)^n - 1 times the sum of the coefficients involved, an exactly Hermitian operator for Hermitian R, and the exact operator if the coefficients are integers of total size at most 2^53.","all numbers of sites, all coefficient arrays of floats, all orders of summation in matrix products, both values of direct","tests compare with tolerances on a few sizes on one machine",a(LI,"generate_pauli_group","jordan_wigner_lowering","jordan_wigner_alphas","build_op","compute_algebra_S"))
p("C146","rounding errors of correlation and covariance matrices are bounded","In double precision, whatever the order of the additions, every entry of compute_2corr_matrix(rho, n, conjugation) of a positive semidefinite rho is computed with an error of at most ((1+2^-53)^(2^n) - 1) Tr rho in the real and in the imaginary part (at most 1e-9 for a state of up to 21 sites), every entry of compute_cov_matrix with at most 2 ((1+2^-53)^(2^n+1) - 1) Tr rho. The occupations on the diagonal are exactly real and not negative, the covariance matrix is exactly antisymmetric, and for states with integer entries, such as basis states, the correlations are exact.","all numbers of sites, all arrays of floats, all orders of summation in matrix products and traces, all values of conjugation","tests compare with tolerances on a few states on one machine",a(LI,"compute_2corr_matrix","compute_cov_matrix","jordan_wigner_alphas"))
p("C147","small changes of the coefficients change the energies little","If no entry of A and B is changed by more than d, the energies of build_H(A, B) change by at most 2 n d, matched up in a suitable order; the energies eigh_sp returns, up to order and signs, by at most 2 n d + 12e-10 n, whatever their sizes (the second part comes from the cut-off 1e-10; a single result is within 6e-10 n of the true energies); and each of the 2^n energies of build_op(build_H(A, B)), in ascending order, by at most 2 n^2 (d + 2e-10).","all numbers of sites, all pairs of Hermitian A and of antisymmetric B, all d, all outcomes of the Schur decomposition and of argsort that meet their contracts","a perturbation bound ranges over all pairs of inputs, including nearly degenerate and nearly zero energies",a(LI,"build_H","build_op","eigh_sp"))
p("C148","exactly the stabilizer states have no stabilizer entropy, and random_CHP_state draws them uniformly","A pure state has stabilizer entropy 0 (at any finite order) exactly if a Clifford unitary makes it from the first basis vector; on n qubits there are 2^n (2+1)(4+1)...(2^n+1) such states; random_CHP_state(n) returns each with the same probability, so that every Pauli string other than the identity has the value 1 with probability 1/(2(2^n+1)), -1 with the same probability, and otherwise 0.","all numbers of qubits, all pure states in any accepted form, all finite orders, all stabilizer states, all Pauli strings, every source of random tableaux that meets the contract of stim","the converse ranges over all states with stabilizer entropy 0, and uniformity over all of a set of exponential size",a(DM,"SRE","stabilizer_distribution","renyi_entropy")+a(RS,"random_CHP_state"))
p("C149","small changes of the coefficients change the correlations of thermal and evolved states little","If no entry of A and B changes by more than d, then no entry of the correlation matrix of the thermal state generate_gaussian_state(n, build_H(A, B)) changes by more than n (d + 2e-10), and the matrix as a whole (root of the sum of squares) by no more either; evolving any state for the time t under build_op(build_H(A, B)) gives correlations that change by at most 4 n |t| (d + 2e-10), although the states themselves have 2^n components. (2e-10 is the effect of dropping tiny coefficients.)","all numbers of sites (at least 3 for thermal states), all Hermitian A, A2 and antisymmetric B, B2, all d, all times, all density matrices","every pair of coefficient matrices at every size; the bound must not grow with the number of components of the states",a(LI,"build_H","build_op","generate_gaussian_state","compute_2corr_matrix"))
p("C150","thermal and free-fermion states have the largest entropy","Call entropy of a density matrix the renyi_entropy of order 1 of its eigenvalues. No density matrix on the sites has an entropy above tr(rho Q) + log tr exp(-Q) with Q = build_op(n, H), and generate_gaussian_state(n, H) is the only one that reaches it; so it has the most entropy among all states with its energy and the least energy among all with its entropy. The entropy of any state is at most the sum of the entropies of (p, 1-p) over the occupations p that diagonalise its correlation matrix, and equal exactly if the state obeys the theorem of Wick. The entropy of a state of two parts is at most the sum of the entropies of what the two partial traces return, and equal exactly if it is their product.","all numbers of sites (at least 3 for generate_gaussian_state), all Hermitian coefficient matrices, all density matrices, all pairs of dimensions","every density matrix competes, not only the free-fermion ones, and uniqueness is a statement about all of them",a(LI,"generate_gaussian_state","build_op","compute_2corr_matrix")+a(DM,"renyi_entropy")+a(UT,"partial_trace_diagblocksum","partial_trace_blockTr"))
p("C151","the two parts of a pure state are equally mixed","The two partial traces of a pure state of two parts, possibly of different dimensions, have the same renyi_entropy of the eigenvalues at every order from 0 to infinity; it is at least 0, at most the logarithm of the smaller dimension, and 0 exactly if the state is the product of the two partial traces. (Assuming that the partial trace over the second part, which drops imaginary parts if all are below 1e-8, drops none.)","all pairs of dimensions, all unit vectors, all orders","every pure state, every pair of dimensions and a continuum of orders",a(UT,"partial_trace_diagblocksum","partial_trace_blockTr")+a(DM,"renyi_entropy"))
p("C152","thermal states respond to changes of the coefficients in the right direction","When the coefficients of generate_gaussian_state change from H to H2, the energy build_op(H2) - build_op(H) that is added is smaller in the new state than in the old one, strictly unless the states agree, and the free energy -log tr exp(-build_op) rises by no more than its value in the old state. So raising the energy A[k,k] of one site lowers the occupation of that site reported by compute_2corr_matrix, strictly unless both values are below the 1e-10 that build_op skips; and multiplying all coefficients with a number above 1, which lowers the temperature, lowers the energy and the entropy of the state, if any coefficient is not 0.","all numbers of sites from 3 on, all Hermitian coefficient matrices, all Hermitian A and antisymmetric B, all sites, all factors","every pair of coefficient matrices at every size; the claim compares the results of two calls",a(LI,"generate_gaussian_state","build_op","build_H","compute_2corr_matrix")+a(DM,"renyi_entropy"))
p("C153","the entropies of a state and of its parts satisfy the triangle inequality","For every density matrix, the renyi_entropy at order 1 of the eigenvalues of the state and of the two parts returned by partial_trace_over_1 and partial_trace_over_2 satisfy: none of the three exceeds the sum of the other two. One of the inequalities, that the entropy of what partial_trace_over_2 returns is at most the sum of the others, needs that this function drops no small imaginary parts, and fails otherwise: there is a pure state for which the two other entropies are 0 and this one is positive.","all dimensions of the two parts, all density matrices","every density matrix of every pair of dimensions",a(UT,"partial_trace_diagblocksum","partial_trace_blockTr")+a(DM,"renyi_entropy"))
p("C154","how large the combinatorial functions can get, and which arrays are small enough for the machine","The modulus of dt(A) is at most the product of the lengths of the rows, with equality exactly if a row is 0 or the rows are orthogonal; that of pf(A) of a skew-symmetric array at most its square root; that of pt(A) at most the product of the absolute row sums; and those of pf(A) and hf(A) of an array with 2m rows and entries of modulus at most M at most (2m)!/(2^m m!) M^m, which hf attains. So for arrays of the 64-bit integers -1, 0, 1 dt is exact for up to 26 rows, pt for up to 20 rows (and not for 21 rows of ones), pf and hf for up to 18 rows, and for floats all four for up to 18 rows: hf counts the perfect matchings of every graph with up to 18 nodes exactly, whether its adjacency matrix is an array of integers or floats.","every size and every complex array; for the machine numbers all integer arrays of the sizes given","every array; the number of arrays of -1, 0, 1 with 18 rows is 3^324",a(CO,"dt","pt","pf","hf"))
p("C155","nearby states have nearby eigenvalues and entropies","If two states of dimension d have trace_distance t, their eigenvalues in descending order are at a total_variation_distance of at most t, and no two corresponding eigenvalues differ by more than t; and if t is at most 1 - 1/d, their entropies (renyi_entropy of order 1 of the eigenvalues) differ by at most t log(d-1) - t log t - (1-t) log(1-t).","all dimensions and all pairs of states in every accepted representation","every pair of states; the bound holds for eigenvalues, which are no continuous function of single entries",a(DM,"trace_distance","total_variation_distance","renyi_entropy"))
p("C156","small changes of the coefficients change thermal and evolved states little","If no entry of two Hermitian coefficient matrices H and H' of n sites differs by more than delta, then the thermal states generate_gaussian_state(n, H) and generate_gaussian_state(n, H') (n at least 3) have a trace_distance of at most 4 n^2 (delta + 2e-10); and the states a density matrix evolves into in the time t under build_op(n, H) and build_op(n, H') have a trace_distance of at most 4 n^2 |t| (delta + 2e-10). The bounds do not depend on the dimension 2^n of the states.","all numbers of sites, all pairs of Hermitian coefficient matrices, all states, all times","every pair of coefficient matrices; the bound on states is polynomial in n although their entries number 4^n",a(LI,"generate_gaussian_state","build_op")+a(DM,"trace_distance"))
p("C157","SRE gives the documented value for every state","For every state of n qubits, pure or mixed, and every order >= 0 (and infinity), SRE returns the Renyi entropy of the stabilizer distribution minus n log 2, or 0 for the maximally mixed state.","every n >= 1, state and order","the states for which this fails are nearly maximally mixed and have to be aimed at",a(DM,"SRE","stabilizer_distribution","renyi_entropy")+a(UT,"cast_to_pdf","cast_to_density_matrix"))
p("C158","random_FF_state with fixedN conserves the particle number","With fixedN=True the generator that random_FF_state returns commutes with the particle number, and so does the state.","every n, seed, random stream, with pure and without","all random streams",a(LI,"random_FF_state","random_H_generator","random_FF_rotation"))
p("C159","clean on strings","clean(s) for a string never raises. If s is a number it returns the rounded number as a string, otherwise s itself.","every string and every valid threshold","all strings over Unicode",a(UT,"clean"))
p("C160","build_unitary_path follows the shortest geodesic","The path returned by build_unitary_path is the shortest geodesic on the unit sphere from w/|w| to v/|v|, as its documentation says: the great circle arc, run through with constant speed.","every dimension from two and all non-zero vectors","all pairs of vectors; every QR factorisation and every principal logarithm the libraries may return",a(RS,"build_unitary_path","get_orthogonal_vectors"))
p("C161","build_linear_path runs along the great circle arc","For two vectors whose directions are neither equal nor opposite, path(s) with 0 <= s <= 1 runs exactly along the great circle arc from w/|w| to v/|v|: every point of the path is on the arc, every point of the arc is reached, and path(1/2) is its middle. For equal directions the path stands still. The speed is in general not constant.","every dimension, all pairs of non-zero vectors whose directions are not opposite, and every s in [0,1]","all vectors and all times",a(RS,"build_linear_path"))
p("C162","paths between vectors of different lengths are rejected","build_unitary_path and build_linear_path raise ValueError for two vectors of different lengths, as their documentation says.","all lengths, all vectors, all times","every pair of lengths",a(RS,"build_unitary_path","build_linear_path","get_orthogonal_vectors"))
p("C163","expansion along a row","Each of the four functions can be computed from smaller arrays along any row i: dt(A) = sum_j (-1)^(i+j) A[i,j] dt(A without row i and column j), pt the same without signs; for skew-symmetric A, pf(A) = sum over j != i of (-1)^(i+p) A[i,j] pf(A without rows and columns i and j), where j is the p-th index other than i (counted from 0); for symmetric A, hf the same without signs.","every size, every row and every array (skew-symmetric for pf, symmetric for hf)","all sizes and entries",a(CO,"dt","pt","pf","hf"))
p("C164","rescaling, reordering and comparison","Multiplying row i by d[i] and column j by e[j] multiplies dt and pt by all these numbers, and multiplying row and column i by d[i] multiplies pf and hf by the product of the d[i]. Reordering rows and columns in the same way leaves hf unchanged and multiplies pf by the sign of the reordering. |dt(A)| and |pt(A)| are at most pt(|A|), |pf(A)| and |hf(A)| at most hf(|A|). If 0 <= A <= B entry by entry, then 0 <= pt(A) <= pt(B) and 0 <= hf(A) <= hf(B), so adding edges to a graph never lowers hf of its adjacency matrix. For real skew-symmetric A, |pf(A)| = hf(|A|) exactly if no two perfect matchings contribute to pf(A) with different signs, which is what an orientation has to achieve for counting by pf to be right.","every size, every array and every list of factors; every reordering; every pair of graphs on the same nodes","all sizes, entries and graphs",a(CO,"dt","pt","pf","hf"))
p("C165","overlap of two free-fermion states","For two density matrices that obey Wick's theorem, with the correlation matrices P and Q that compute_2corr_matrix gives for them with conjugation=1, Tr(rho sigma) is not negative and Tr(rho sigma)^2 = det(PQ + (1-P)(1-Q)). So the states are orthogonal exactly if this determinant is zero, the Hilbert-Schmidt distance follows from three such determinants, and for two pure states the determinant is |<psi|phi>|^4. This holds for the pure states of two calls of random_FF_state and for two states of generate_gaussian_state (n >= 3), whose determinant is never zero.","every number of sites and every pair of density matrices that obey Wick's theorem, also with occupations 0 and 1; every pair of Hermitian coefficient matrices; every generator state","all sizes and all pairs of states",a(LI,"compute_2corr_matrix","generate_gaussian_state","random_FF_state"))
p("C166","sequences of free-fermion gates","Apply any number of gates expm(-i t build_op(build_H(A,B))) one after the other, with their own Hermitian A, antisymmetric B and real t. The whole circuit is unitary. It takes the correlation matrix P of every state to E P E^H (and Gamma to E Gamma E^T), where E is the product of the 2n x 2n matrices expm(-2 i t H) of the gates. It takes states that obey Wick's theorem to states that obey Wick's theorem, so their overlaps after the circuit follow from the 2n x 2n matrices (C165). Two circuits have the same E exactly if they differ by a phase factor, and then they take every state to the same state.","every number of sites, every finite sequence of gates and every state","sequences of every length",a(LI,"build_op","build_H","compute_2corr_matrix","jordan_wigner_alphas"))
p("C167","measuring the sites of a free-fermion state","For every density matrix or state vector that obeys Wick's theorem, with the correlation matrix P that compute_2corr_matrix gives for conjugation=1, the probability that cast_to_pdf gives for the basis position x is the square root of det(P X + (1-P)(1-X)), where X is the diagonal matrix with 1 for the sites filled in x and 0 for the empty ones in its first half and the other way round in its second half. So for a circuit of any number of gates expm(-i t build_op(build_H(A,B))) applied to the basis state y, cast_to_pdf returns the probabilities computed from P = E Y E^H with the product E of the 2n x 2n matrices of the gates.","every number of sites, every state that obeys Wick's theorem, every outcome, every sequence of gates and every starting basis state","all states, outcomes and sequences of gates",a(UT,"cast_to_pdf")+a(LI,"compute_2corr_matrix","build_op","build_H"))
with open("/verif/properties.jsonl","w") as f:
    for x in P: f.write(json.dumps(x)+"\n")
print(len(P))
