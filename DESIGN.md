# Formal model of free-fermion-lib in Lean 4

The model lives in `lean/Verif`:

* `Verif/Model/*`  - the code, function by function (each definition cites file and lines in /repo);
* `Verif/Spec/*`   - small independent specifications (perfect matchings, density matrix, ...);
* `Verif/Proofs/*` - helper lemmas;
* `Verif/Props/*`  - the property theorems, each next to an `example` that meets its hypotheses.

## Trusted base

* Lean 4.33.0's kernel, and the axioms `propext`, `Classical.choice`, `Quot.sound` (the standard
  Mathlib axioms). No axiom of our own, no `sorry`, no `native_decide`, no `bv_decide`.
* Mathlib definitions that occur in theorem statements (`Matrix.det`, `Matrix.permanent`,
  `Equiv.Perm.sign`, `Matrix.PosSemidef`, `NormedSpace.exp`, `Real.log`, `SimpleGraph`, ...).
* The correspondence between the Python text and the model (by reading; line citations).

### Modelling decisions that apply everywhere

* **Arithmetic is exact.** Floats are replaced by real / complex numbers (or any commutative ring /
  field where the code is purely algebraic). Rounding errors are outside this model, except in C110-C113:
  `Model/Machine.lean` runs the loops of `dt`, `pt`, `pf`, `hf` on 64-bit integers (which wrap around) and on 64-bit
  floats (every operation rounded to 53 digits, ties to even; overflow, underflow, infinities and nan are
  not modelled there), C141 on complex floats (`Model/MachineComplex.lean`), and C113 assumes only approximate eigenvalues. C133 bounds rounding errors of the
  distances and partial traces (`Model/MachineSum.lean`), C145 treats the operators and `build_op` with rounding (`Model/MachineOps.lean`), C146 the correlations (`Model/MachineCorr.lean`). C132 is about nan (`Model/Nan.lean`),
  C140 about infinities, overflow and underflow (`Model/Ieee.lean`). The literal
  thresholds (`1e-9`, `1e-10`, `1e-12`) and `np.allclose`'s tolerances (`atol=1e-8, rtol=1e-5`) are
  kept literally.
* **Arrays** are `Matrix (Fin m) (Fin n) K` with `m n` ordinary variables, so shape tests are tests on
  `m` and `n`. Negative indexing is modelled only where the code can reach it. Arrays are passed as values; which functions
  share or change the caller's arrays is the subject of `Model/Memory.lean` (C124).
* **Loops** are folds over `List.range` / lists, mirroring the code; `while` loops carry fuel and
  the fuel is proved sufficient.
* **Exceptions** are values of `Except PyErr`; `None`/`0` returns are explicit.
* **Printing** is not modelled, except where the property is about printing (C20, C21, C24, C107-C109, C117).
* **External numerical routines** (LAPACK eigenvalues, Schur, QR, SVD, `logm`) are parameters whose
  documented contract is a hypothesis of the theorem. `expm` is `NormedSpace.exp`.
  **networkx** results (embedding, spanning tree, planarity) are parameters with a contract.
  **Random draws** are universally quantified parameters or an abstract seeded generator. In C136-C139 the state of
  the generator is random: `IdealSource` assumes that successive draws are independent and have the distributions that numpy
  and scipy document (`Proofs/IdealSource.lean` shows that such a source exists). No real generator with a finite
  state satisfies this exactly.

## Plan, property by property

(The status of each is in MANIFEST.json; deviations found in the code are listed at the end.)

| id | modelled | proof |
|----|----------|-------|
| C01 | `sgn` as double loop counting inversions | induction / `Equiv.Perm.sign` as product over pairs |
| C02,C03 | `dt`, `pt` as sums over the lexicographic list of permutations | list enumerates `Equiv.Perm (Fin n)` once each; `Matrix.det_apply`, `Matrix.permanent` |
| C04 | `hf` | fibres of sigma -> sigma tau0 sigma^-1 have size 2^m m! |
| C05,C06 | `pf` | expansion of congruence through `det` of a row-selection; elimination induction |
| C07-C09 | `pf`, `hf` | reindexing by transpositions |
| C10 | `dt_eigen` with eigenvalue routine as parameter | `det_eq_prod_roots_charpoly` |
| C11,C12 | `kron_plus` | `fromBlocks` reindexing |
| C13,C14 | both partial traces with slicing loops | sums over `Fin (a*b)` |
| C15 | `generate_random_bitstring` with the choice as parameter | counting |
| C16,C17 | casts, all branches | case analysis; witness for the C17 violation; the outcome for every probability vector |
| C18,C19 | `clean` with round-half-even | properties of rounding; witness for C19 violation; exactly which numbers become zero |
| C20 | print state machine | case analysis over failure points |
| C21 | decimal formatting of a real | rounding lemmas |
| C22 | `permutation_to_matrix` | direct; witness for duplicates |
| C23,C24 | `generate_pauli_group` via list product and Kronecker | induction on n |
| C25-C28 | Jordan-Wigner construction with Kronecker loops | induction on n |
| C29-C36 | rotations, lifts, Hamiltonians | sums and CAR |
| C37-C40 | Omega, P, K, is_symp, check_canonical_form | block matrices |
| C41 | `generate_gaussian_state` | exp of Hermitian is positive definite; witness n=2 |
| C42,C43 | correlation matrices | CAR + trace |
| C44 | `is_matchgate` | 4x4 computation |
| C45-C48 | symplectic eigen-solvers with Schur as contract | K = Omega^dag P Omega; witness for C46 |
| C49-C53 | random rotations/states, draws universally quantified | Heisenberg picture via commuting exponentials |
| C54-C61, C85 | random states and paths | linear algebra |
| C62-C72 | distance measures | Parseval, convexity, Gibbs |
| C88, C89 | the states above, `compute_2corr_matrix`, `pf` | exchange (KMS) relation for exponentials of quadratic forms, induction on the number of operators; `Spec/Wick.lean` defines the sum over pairings |
| C90, C91 | `FAF`, `compute_2corr_matrix` | projections give annihilated modes; products of the operators separate matrices |
| C93 | `compute_2corr_matrix` as used in docs/examples.rst | squares of the operators vanish; witness for every positive definite state |
| C94 | `build_op`, `compute_2corr_matrix`, `expm` | Heisenberg picture of a quadratic exponential |
| C95 | `eigh_sp`, `build_op` | 2^n orthonormal vacua of flipped modes; `C45` |
| C96 | `kitaev_chain`, `eigh_sp` | H^3 = 4t^2 H and Tr H^2; triangular determinant for mu != 0 |
| C97 | `analyze_pdf` (the data handed to matplotlib; `Model/Plot.lean`) | rounding is monotone; diagonal = doubly stochastic average of the spectrum, hence majorised by it |
| C98 | `random_CHP_state` with stim as a parameter | Clifford unitaries permute Pauli strings; Parseval for the count |
| C99 | `partial_trace_over_1/2`, `compute_2corr_matrix` | Jordan-Wigner operators of a part are products with the parity of the other part, which drops out of even products |
| C100 | the distances of `distance_metrics.py` | Pinsker pointwise by calculus, then Cauchy-Schwarz |
| C101 | the same | log-sum inequality; `Spec.IsChannel`, `Spec.push` say what a channel does |
| C102 | the same | `Spec.product`, splitting the double sum |
| C103 | `renyi_entropy` | Jensen for x^a and x log x, counting for order 0; the diagonal is a doubly stochastic image of the spectrum |
| C104 | `stabilizer_distribution`, `SRE` | Pauli strings split as Kronecker products, `C64_product` |
| C105 | `is_matchgate`, `build_op` | the quadratics of two sites are block matrices whose blocks have equal traces, so their exponentials have equal determinants; conjugation solved block by block |
| C106 | `generate_gaussian_state`, `build_H`, `compute_2corr_matrix` | expm is injective on Hermitian matrices and onto the positive definite ones; Fermi function and its inverse; transposition and the swap |
| C92 | `random_FF_state_rotPDF` | product distributions satisfy the exchange relation; witness for the failure |
| C73 | brute-force enumeration | induction over subsets |
| C74-C78 | faces, complete_face, dual graph, pfo, FKT | rotation systems, Euler formula, Kasteleyn |
| C79-C81 | negations with witnesses + partial positive theorems; exact conditions under which counting is right and `pfo_algorithm` succeeds, and the value counted, for every graph and order of insertion (`C79_iff`, `C79_exact`, `C81_iff`, `C81_count`) | evaluation on concrete graphs; Euler's formula for several components decides when the dual graph is a tree (Proofs/DualTree, PfoExact) |
| C82-C84 | generators, tree depth, plotting graph | loops |
| C107-C109, C84 | what `plot_planar_embedding`, `pfo_algorithm`, `plot_graph_with_edge_weights` and the counting functions draw and print, as lists of actions (`Model/Draw.lean`; `Spec/Draw.lean` reads off lines, arrows, titles and figures) | the values agree with the model without actions; `complete_face` meets exactly one open edge on every face; trees are planar, so the dual graph can be drawn (`Proofs/TreePlane`) |
| C110-C112 | `dt`, `pt`, `pf`, `hf` over a record of scalar operations (`Model/Machine.lean`), instantiated with 64-bit integers and floats | the exact instance is the old model (`dtOn_exact` ...); reduction modulo 2^64 is a ring homomorphism; induction over the loops with the relative error `(1+u)^k` of `k` roundings; floats are exact on integers up to 2^53 |
| C113 | `count_perfect_matchings_planar` with an eigenvalue routine that makes errors (`Spec/EigenError.lean`) | Gershgorin bounds the eigenvalues by the degree; zero is a double root for even sizes since the characteristic polynomial of a skew matrix is even; the principal root is Lipschitz away from 0 |
| C114 | `eigh_sp`, `is_symp`, `check_canonical_form` | from C45, C39 and C40; the eigenvalues of H are the entries of L |
| C115 | `eigh_sp`, `kitaev_chain` | the Schur values are sorted by modulus and given the signs of `eigvalsh(A)`; the trace of A is negative for mu > 0 |
| C116 | `generate_gaussian_state`, `build_op` (`Spec/Ground.lean`) | positive definite matrices are not pure; spectral theorem for the limit; C45 factorises the overlap over the modes |
| C117 | the functions of `ff_lib.py`, `dt_eigen` and `stabilizer_distribution` with their `print` calls (`Model/LibMessages.lean`: a call returns the printed lines together with its value or exception; numbers are printed exactly, rounding only where the code calls `np.round`) | the values agree with the models without messages; loops that print are folds over the list of used indices |
| C118 | `SRE` as in C63 | the stabilizer distribution has a largest entry 1/(2^n Tr rho^2) at the identity, so its Rényi entropies lie above log of the inverse; equality means a flat distribution. The upper bound is Cauchy-Schwarz over the non-trivial strings |
| C119 | `FAF` as in C67 | the value is a sum over the eigenvalues of `M^T M`, which lie in [0,1]. For products `M` is block diagonal if one factor is even: a Majorana operator of the last sites is the parity of the first sites times one of the last sites |
| C120 | `rotate_operators`, `build_op`, `kitaev_chain` with arrays that carry a numpy type (`Model/Dtypes.lean`): in-place addition keeps the type of the accumulator and fails for a higher one, item assignment of a complex number to a real array fails | induction over the loops: as long as no step fails the typed loop is the untyped one |
| C121 | the random functions as in C49-C55; a value can be returned if some generator within the contract of the draws (`Spec.DrawsOk`) leads to it | one direction by C49-C55, the other by giving the draws: halves of the blocks, `Ω C Ω†`, an orthonormal basis, the spectral decomposition |
| C122 | `rotate_operators`, `build_op`, `jordan_wigner_alphas`, `dt` as before; occupied sites and amplitudes in Spec/Slater | induction on the number of particles: an annihilator passes through a product of creation combinations as a Laplace expansion; the evolution by moving `expm` through the creation operators |
| C123 | `FAF` as in C67; amplitudes, the matchgate identities and the amount by which they fail in Spec/Slater | the defect of the pair (b, c) is the (b, c) entry of Σ γ_k ψ ⊗ γ_k ψ, so the sum of squares is the trace of the Gram matrix (1 + iM)/2 against its transpose; the Pfaffian by expanding along the first site; few sites by counting the differing sites |
| C124 | a memory of buffers; array objects with a buffer, the places of the entries, type, real-part view and read-only flag; the functions with in-place statements or possible views written again in these terms (Model/Memory) | each refines the value model: by induction over the loops only the buffer of the new array changes; results lie in buffers taken into use by the call; partial, because the casts may return their argument |
| C125 | `pf` on every skew-symmetric matrix; specification: perfect matchings and the number of their crossings | The sign of a permutation is split into the comparisons within each slot and the four comparisons between two slots; the latter is −1 exactly if the two pairs cross. Summing over the fibres of `σ ↦ σ τ₀ σ⁻¹` (C04) gives the matching sum. The documented permutation formulas for `pf` and `hf` are stated with Mathlib's permutations. |
| C126 | `build_H`, `build_op`, `kitaev_chain`, `eigh_sp`; specification: the characteristic polynomial | A canonical form exists without a gap: apply C45 to a large multiple of `H`. The characteristic polynomial fixes the energies up to order and sign, and sums over sign patterns do not depend on either. For the chain the standing waves `sin(π k j/(n+1))` are eigenvectors with different eigenvalues, hence a basis. |
| C127 | Model/Shapes: the same functions on arrays of any shape, with numpy's rules for products, slices, assignments to slices and comparisons of arrays of different shapes | case analysis on the shape; for each function the exact set of accepted shapes, the value returned for them, and agreement with the models used elsewhere on the documented shapes; witnesses for the shapes that are accepted by mistake |
| C128 | `compute2Corr`, `generateGaussianState`, `partialTraceOver1`, `renyiEntropy` | proved; the correlation matrix minus 1/2 has a canonical form (C126), whose modes satisfy the anticommutation relations, so their occupations are jointly diagonal; the product state of the modes is Gaussian with the given correlations, and Wick's theorem determines the state (C91) |
| C129 | `castToPdf`, `renyiEntropy`, `linearEntropy`, `relativeEntropy`, `bhattacharyyaCoeff`, `jensenShannonDivergence`, `totalVariationDistance` | partial: the accepted lists are determined exactly, and every measure on them; scipy's normalisation reduces them to distributions where no entry is negative |
| C130 | `castToDensityMatrixN`, `castToPdfN`, `renyiEntropyN` (any number of axes), `partialTraceOver1Z`, `partialTraceOver2Z` (any integer), `renyiCore` at negative orders | partial: case analysis on the shape; agreement with the model of the other properties for one and two axes; a stack of one pure state flattens to the vector of its doubled state |
| C131 | `kitaevChain`, `buildOp`, `jordanWignerLowering`, `jordanWignerMajoranas` against the Pauli strings of C23 | products of neighbouring Jordan-Wigner strings cancel site by site; product states under tensor products of matrices |
| C132 | `castVecNan`, `castMatNan`, `dtNan`, `ptNan`, `pfNan`, `hfNan`, `isSympNan`, `buildOpNan` (numbers that may be nan) | partial: nan propagates through every sum that reads it; each entry is read by some permutation; agreement with the model without nan |
| C133 | `SumTree` (order of a sum), `tvdFloat`, `bhattacharyyaFloat`, `linearEntropyF`, `partialTraceOver1Float`, `partialTraceOver2Float` (rounded arithmetic, no underflow or overflow; the casts before the arithmetic and the `allclose` tests are exact) | induction over the tree; square roots halve a relative error |
| C134 | `NpCall`, `RandomCall`, `session`: sequences of calls on the states of numpy's and `random`'s generators (stim's generator is not modelled) | induction over the session from its end; refutations of the last two clauses from the exact outcomes of C57, C85 |
| C135 | `completeExample`: the script Complete Example of docs/quickstart.rst, lines 193-216, for any number of sites | diagonal entries of `build_op`; the sum over the two halves of the basis contradicts the particle-hole symmetry asserted by `eigh_sp`; a draw that is the quarter turn of every mode |
| C136 | laws of the outcomes of the modelled samplers (`Spec/Law.lean`: `Fresh`, `IsHaar`, `IdealSource`) | push-forward of product measures; left invariance; the uniform law on unit vectors is unique (Fubini); existence of an ideal source from Haar measures of compact groups and infinite products (`Proofs/Haar.lean`, `Proofs/IdealSource.lean`); counting fibres for bit strings |
| C137 | laws of the free-fermion samplers (`Spec/FFLaw.lean`: free-fermion rotations, the uniform law of an orbit, samples up to a distance) | every rotation is performed by a unitary (logarithm, Cayley factorisation); the action on operators is a continuous function of the orbital rotation, so the law is a push-forward of Haar measure; rotations with eigenvalue -1 have probability zero (a nonzero polynomial vanishes on a null set, `Proofs/HaarNull.lean`); `exp` of skew-Hermitian arrays is 1-Lipschitz; two Majorana operators fill two sites |
| C138 | laws of `random_FF_pure_state_WN(n)`, `random_FF_pure_state_CN(n)` and `random_H_generator` | uniform mixtures of push-forwards; the occupations of the rotated modes determine the state up to a phase (`occ_unique`); the inverse of a Haar rotation is Haar; a Gaussian vector is almost surely not orthogonal to the vacuum (`normal_not_kernel`); sums of independent Gaussians |
| C139 | averages over the random states (`Spec.HasMean`) | an average commutes with every free-fermion rotation, hence with the site parities and the products of two Majorana operators, so it is a combination of the identity and the parity (`commutant`); the two coefficients follow from the trace and the mean parity, which no rotation changes (`ff_parity`); the flat Dirichlet law is exchangeable |
| C140 | `Fl`, `Cx`, `rd64` (64-bit floats with infinities, nan, overflow and gradual underflow), `dtFl`, `ptFl`, `pfFl`, `hfFl`, `dtCx`, ..., `isSympCx`, `buildOpCx`, `castVecCx`, `castMatCx` | partial: rounding is proved to give the nearest float of `Spec.IsDouble`; no operation with an infinity or nan gives a finite number and every entry is read; bounds `j * 2^p` are kept by rounding, for real arrays and for the two parts of complex arrays |
| C141 | `complex128`, `mulC`, `divComplex` (complex floats, every operation on the parts rounded) | a complex product has relative error at most (1+u)^3 - 1; induction over the loops of C111 |
| C142 | mixtures and parts for all functions of `ff_distance_measures.py` | log-sum inequality, concavity of x log x and of powers; trace of a power of a convex combination of positive matrices (Peierls), and of its diagonal blocks |
| C143 | the distances as before | (x_i+x_j) log(x_i+x_j) is a positive form on vectors of sum zero: shifting all x_i by t gives a convex function of t (Cauchy matrices are positive) that tends to 0; Minkowski over the outcomes |
| C144 | the functions as before | entropy: split both distributions into overlap and rest, concavity and subadditivity of -x log x; correlations: observables of norm at most one against the trace norm; FAF: telescoping sum for powers of matrices that lengthen no vector; stabilizer distributions: Parseval for the Pauli strings and Cauchy-Schwarz; SRE: lower bound of C118 under the logarithm |
| C145 | `Model/MachineOps.lean`: Kronecker products, matrix products with any order of summation, `build_op` and `compute_algebra_S` with every operation rounded | entries are 0 or fourth roots of one, so products are exact; at most two coefficients meet in an off-diagonal entry and n in a diagonal one; zero terms leave floats unchanged |
| C146 | `Model/MachineCorr.lean`: the two functions with every operation rounded | each column of a raising or lowering operator has at most one non-zero entry, 1 or -1, so both matrix products are exact; the diagonal entries that the trace adds up have total size at most Tr rho |
| C147 | `buildH`, `eighSp`, `buildOp` as modelled for C45 and C126 | Weyl's inequality by counting eigenvalues above a level: two subspaces whose dimensions add up to more than the whole space share a vector, on which the two quadratic forms disagree; sorted lists with such counts can be matched |
| C148 | `sre` as for C63, `randomCHPState` as for C98; stim's contract is `Spec.StimUniform` | Clifford unitaries act transitively on the Pauli strings other than the identity (generated by (P+Q)/sqrt 2), so a state with flat Pauli values can be turned qubit by qubit into the first basis vector; double counting of pairs (state, string) gives the number; all states have equally many tableaux because left multiplication moves one set of tableaux onto the other |
| C149 | `buildH`, `buildOp`, `generateGaussianState`, `compute2Corr` as for C89 and C94 | A function of Hermitian matrices is as Lipschitz in the Frobenius norm as the function is on numbers: compare the entries in the two eigenbases; the Fermi function has slope at most 1/2 and exp(-itx) at most abs t; conjugating P - 1/2 halves lengths |
| C150 | `generateGaussianState`, `compute2Corr`, `partialTraceOver1`, `partialTraceOver2`, `renyiEntropy` as for C13, C43, C45, C64 | Inequality of Klein with its case of equality: compare the two eigenbases by the doubly stochastic matrix of squared overlaps and use x log x - x log y >= x - y in each entry; real eigenvectors when the partial trace drops imaginary parts |
| C151 | `partialTraceOver1`, `partialTraceOver2`, `renyiEntropy` as for C13 and C64 | With M the components as a matrix the parts are M M^H and the transpose of M^H M, whose characteristic polynomials agree up to a power of X; padding with zeros changes no entropy; products from the case of equality of C150 |
| C152 | `generateGaussianState`, `buildOp`, `compute2Corr` as for C41 and C43 | Apply C150 to each of the two states with each of the two Hamiltonians and add; the change of one entry of A changes the operator by a multiple of 2 n_k - 1; strictness from the uniqueness in C106 |
| C153 | `partialTraceOver1`, `partialTraceOver2`, `renyiEntropy` as for C150 | Complete the state to a pure state of three parts; by C151 the entropy of one part is that of the other two together, to which C150 applies. Counterexample for dropped imaginary parts: a state (p, iq) with q = 1e-9 |
| C154 | `dt`, `pt`, `pf`, `hf` and `dtOn`, `ptOn`, `pfOn`, `hfOn` as for C110-C112 | Scale the rows to length 1 and compare the eigenvalues of A A^dag, whose sum is n, with their exponentials; count permutations; then C110 and C112 |
| C155 | `traceDistance`, `totalVariationDistance`, `renyiEntropy` as for C69, C68, C64 | Add the positive part of the difference to one state; eigenvalues are monotone (min-max, as for C147); then C144 and the monotonicity of the bound |
| C156 | `generateGaussianState`, `buildOp`, `traceDistance` as for C41, C35, C69 | The operators differ by at most 4n²(δ+2e-10) in norm (C149); evolution by Duhamel (C149); thermal states: divided differences of exp lie below the trapezoid, free energies differ by at most the norm (C150) |
| C157 | `sre` as in C63 | C17 decides what `renyi_entropy` makes of the stabilizer distribution, C129 gives the entropy of what it makes; the maximally mixed state is the only one of purity 1/2^n |
| C158 | `random_FF_state` with all its flags | the mixed branch builds a number-conserving quadratic form (C35); the pure branch never looks at `fixedN`, and a draw that pairs two sites is a counterexample |
| C159 | `clean` on a list of characters; the Unicode tables behind `str.isnumeric` and the digits `float` reads are a parameter with the contract `Spec.CharsOk` | the string is split at its first point; induction over the characters |
| C160 | `buildUnitaryPath` as for C60; the great circle arc is `Spec.greatArc` | the columns of the two completed bases are found up to phases; a midpoint in the plane would force the unitary to keep the plane |
| C161 | `buildLinearPath` as for C61; the arc is `Spec.greatArc`, which `C161_spec` shows to have the right ends and constant angular speed | addition theorems and the intermediate value theorem |
| C162 | `build_unitary_path` and `build_linear_path` for any two lengths: subscripts into the empty array, `np.reshape` and the repetition of columns of length one | the first pass of the loop raises; case distinction on the lengths |
| C163 | `dt`, `pt`, `pf`, `hf` on every array | permutations are sorted by the image of one index; for `pf` and `hf` the slot containing row i is moved to the front, which leaves the terms unchanged |
| C164 | `dt`, `pt`, `pf`, `hf` on every array | term by term in the sums over permutations (C03, C125) and over perfect matchings (C04, C125); a sum has the modulus of the sum of the moduli iff no two terms differ in sign |
| C165 | `compute2Corr` of two states that obey Wick's theorem, `generateGaussianState`, `randomFFStatePure` | product of two Gaussian exponentials acts linearly on the operators, so its squared trace is a determinant; states without occupation 0 or 1 are such exponentials; the rest by continuity in the occupations |
| C166 | `buildH`, `buildOp`, `compute2Corr` along a list of gates; the exponential of scipy as the matrix exponential | induction on the list from C94; a state that obeys Wick's theorem lets the operators pass through linearly, which conjugation keeps; an operator that commutes with all Jordan-Wigner operators is a multiple of the identity |
| C167 | `castToPdf`, `compute2Corr`, circuits of C166 | the basis states are states of independently filled sites, so they obey Wick's theorem with a diagonal correlation matrix; their overlap with the state (C165) is the diagonal entry |

Not expressible: layouts, colours and styles of the figures have no semantic content in
the model; floating-point rounding error except in C110-C113, C133, C140, C141, C145 and C146; the quality of the pseudo-random generators of numpy, scipy, `random` and stim
(C136-C139 replace them by ideal sources).

## Contracts of external routines used by the theorems

| routine | contract (hypothesis of the theorem) | where |
|---------|--------------------------------------|-------|
| `numpy.linalg.eigvals` | the multiset of roots of the characteristic polynomial; for C113 only each of them up to an error `η`, for arrays with entries of modulus at most 1 (`Spec.EigvalsWithin`) | C10, C69, C78, C79, C81, C87, C113 |
| `numpy.linalg.eigvalsh` | modelled by Mathlib's `IsHermitian.eigenvalues`, ascending; reads the lower triangle (nothing is assumed about arrays with nan or infinities: C132, C140) | C17, C46 |
| `scipy.linalg.schur` | `Spec.IsRealSchur`: orthogonal Z, M = Z T Z^T, T quasi-upper-triangular; proved to exist for every skew-symmetric array (`schur_exists`, `schur_routine`) | C48, C67, C119 |
| `scipy.linalg.schur(sort=...)` | `Spec.IsSortedSchur`: as above, selected eigenvalues first | C45-C48 |
| `numpy.argsort` | `Spec.IsArgsort`: a permutation that sorts | C45-C48 |
| `scipy.linalg.expm` | `NormedSpace.exp` | C33, C41, C50-C60 |
| `scipy.linalg.logm` | `Spec.IsPrincipalLog`: exp gives the array back and the logarithm is a polynomial in it with eigenvalues of imaginary part in (-pi, pi]; proved to exist for every unitary array (`log_exists`) | C50-C58, C60, C85 |
| `scipy.linalg.qr` | `Spec.IsQR`: unitary Q, upper triangular R, A = QR; proved to exist (`qr_exists`) | C59, C60 |
| `scipy.linalg.svd` | none: its branch is proved unreachable | C60 |
| `numpy.random`, `scipy.stats` | `Rng`: an abstract seeded state machine; `Spec.DrawsOk` states only the support of each draw (orthogonal / unitary arrays, probability vectors, normals non-zero) | C49-C58, C85 |
| `networkx.check_planarity` | `Spec.NxContract`: on every simple graph an embedding returned is a rotation system satisfying Euler's formula V + F = E + 2C (V: nodes with a neighbour, C: components with an edge), and one is returned if there is one. A routine meeting the whole contract is constructed (`someNx_contract`) | C74-C82 |
| `networkx.maximum_spanning_tree` | `Spec.NxContract`: a spanning forest of every simple graph: edges of the graph, none twice, connecting the end points of every edge, V - C of them | C76-C81 |
| `networkx.triangulate_embedding` | none: the outer face returned is an arbitrary list | C74-C81 |
| `stim.Tableau.random(n).to_state_vector()` | `Spec.StimOk`: a Clifford unitary (maps Pauli strings to Pauli strings up to sign) applied to the first basis vector | C98 |
| the same, as a source of random tableaux | `Spec.StimUniform`: all tableaux (images of the Pauli strings under a Clifford unitary) with the same probability | C148 |
| `networkx.planar_layout`, `draw_networkx_*`, matplotlib | `planar_layout` raises `NetworkXException` iff the graph is not empty and `check_planarity` finds no embedding; drawing an edge with an unknown node raises KeyError; otherwise an action is recorded | C84, C107-C109 |
| order of additions in `np.sum`, `np.trace`, `x.dot(x)` | `Spec.IsSumOrder`: every number is added once and goes through at most `n` additions; proved to hold of the loop from the left (`loopOrder_ok`) | C133 |
| iteration order of a Python `set` | any permutation of its elements | C76-C81 |
| `str.isnumeric`, the digits read by `float` | `Spec.CharsOk`: decimal digits are numeric, `0 .. 9` are decimal digits, no other ASCII character is numeric, U+00BD is numeric and no decimal digit | C159 |
| `random.randint`, `networkx.gnm_random_graph` | `Spec.GraphDrawsOk`: support only | C53, C82 |
| `networkx.is_connected`, `is_tree`, `adjacency_matrix`, `single_source_shortest_path_length` | modelled by their meaning or code | C73-C83 |
| `scipy.stats.entropy`, `scipy.special.entr`, `rel_entr` | modelled by their documented formulas, in the extended reals | C64, C65, C70, C72 |

## Deviations: where the code does not do what is claimed

Each has a theorem that refutes the claim on a concrete input, and a `_partial` theorem for the part that holds.

* `permutation_to_matrix` accepts lists with repeated entries (`C22_violation`).
* `cast_to_pdf` reads a nearly deterministic probability vector as a wavefunction (`C17_violation`,
  `C17_violation_assert`).
* `clean` rounds numbers between half the threshold and the threshold up to it (`C19_violation`).
* `generate_gaussian_state` with n = 2 takes the 4 x 4 coefficient matrix for an operator (`C41_violation`); for
  `build_H(2, A, B)` without tiny entries the result is right only if A = B = 0 (`C41_two_sites_H`).
* `compute_cov_matrix` with `n_sites=None` always raises TypeError (`C42_violation`).
* `eigh_sp` reorders with `perm_l[perm_A]` where the inverse of `perm_A` is needed: for A = diag(-3,1,2) the
  eigenvalues come out as (-2,3,1) (`C46_violation`). `C46_iff` gives the exact condition.
* `eigm_sp_can` uses an unsorted Schur form, so L need not be a direct sum of aligned 2 x 2 blocks
  (`C48_can_violation`). The block form is certain iff G = 0 or det G is not 0 (`C48_can_iff`).
* `random_FF_rotation`: when the drawn orthogonal matrix has eigenvalue -1 the principal logarithm is not
  particle-hole symmetric and the returned W does not implement C (`C50_violation`). `C50_heisenberg_all` gives the rotation W does implement and `C50_iff`
  shows that eigenvalue -1 is the only obstruction (up to the 1e-10 cut-off of small coefficients).
* `random_FF_state(returnH=True, seed=None)` returns the generator of a second, unrelated draw (`C52_violation`).
* `build_unitary_path` raises IndexError for vectors of length one, because `get_orthogonal_vectors` returns an empty array for them (`C59_small`, `C60_small`, `C162_unitary_short`); the documentation announces ValueError.
* `build_unitary_path` and `get_orthogonal_vectors` raise IndexError for vectors of length one (`C59_small`, `C60_small`).
* `total_variation_distance` and the other comparisons broadcast a one-element distribution: the distance can be 3/2
  (`C86_violation`).
* `SRE`: the docstring says it is positive for the maximally mixed state and invariant under all unitaries; it is 0
  (`C63_maximally_mixed`) and only invariant under Clifford unitaries (`C63_not_unitarily_invariant`). The special case also breaks
  additivity (`C104_mixed_not_additive`).
* `FAF` is 0 exactly if `M^T M = 1` (`C67_zero_iff`), so it is not 0 for mixed free-fermion states as its docstring says: it is
  positive for every thermal state of `generate_gaussian_state` (`C119_violation`), and the largest possible value for the
  maximally mixed one (`C119_maximally_mixed`).
* `SRE` is negative for every mixed stabilizer state of normalised purity at least 1.00003 (`C118_purity`, `C118_violation`).
* `pfo_algorithm` returns an array that is not skew-symmetric (only the spanning tree part is), although the documentation
  takes its Pfaffian: that Pfaffian counts the perfect matchings inside the spanning tree, so it is at most 1 in modulus
  (`C80_pf_pfo`, `C80_fails`).
* `pfo_algorithm` depends on the order in which nodes were inserted, because `dual_graph_H` only looks for pairs that are
  increasing in a face: AssertionError on every graph with a cycle inserted in descending order (`C81_descending`,
  `C81_triangle`), a silently wrong count on a path inserted as 1, 2, 0, 3 (`C81_wrong_count`). In general only those perfect matchings are
  counted all of whose edges join nodes whose insertion positions, read as labels, are adjacent as well (`C81_count`);
  "Incomplete pfo" is printed for every such graph whose edges do not all have this property (`C108_complete`).
* `count_perfect_matchings` is wrong for the graph without nodes (`C79_empty_graph`), edgeless graphs (`C79_edgeless`),
  non-planar graphs with more than 15 nodes (`C79_large`), planar graphs with edges in two components
  (`C79_disconnected`, `C79_components`), and ignores weights
  for non-planar graphs only (`C79_weights_ignored`).
* `generate_random_planar_graph(n, seed=0)` ignores the seed (`C53_graph_zero`); it raises ValueError for n <= 1
  (`C82_small`).
* `random_FF_state_rotPDF` rotates an arbitrary distribution on the occupation patterns; unless that distribution is a
  product the result is not a free-fermion state (`C92_fails`, `C92_iff`).
- docs/examples.rst (`analyze_correlations`) reads the occupations off `np.diag(gamma)[n_sites:]`. This diagonal is zero for
  every state (`C93_violation`); the occupations are the entries `[i, n_sites + i]` (`C93_block_partial`). The same page
  comments `np.diag(eigenvals)[n_sites:]` with "Positive eigenvalues"; they can be negative (`C46_violation`, `C115_violation`).
- docs/quickstart.rst calls `ff.build_op(H, n_sites, alphas)`; the first two arguments are in the other order in the code.
- `pf` of an array of 64-bit integers divides the sum over all permutations by `2^m m!` at the end, and this sum may wrap
  around although the Pfaffian is a small 64-bit integer: `pf([[0, 2**62], [-2**62, 0]])` is `-2**62` (`C110_overflow`).
- `count_perfect_matchings_planar` takes a square root of a product of eigenvalues before rounding to ten digits, so for a
  graph with an odd number of nodes an eigenvalue 1e-16 instead of 0 makes the result about 1e-8 instead of 0
  (`C113_triangle`).
- docs/examples.rst and docs/tutorials.rst print `check_canonical_form(L)` for the `L` of `eigh_sp`; it is False unless all
  energies vanish (`C114_canonical_iff`, `C114_violation`), since it tests for a real antisymmetric matrix of 2x2 blocks.
- docs/examples.rst and docs/tutorials.rst call the result of `generate_gaussian_state` the ground state; it is the thermal
  state at inverse temperature 1 (`C116_violation`).
- `compute_algebra_S(..., verbose=True)` labels its last line `Eigenvalue max,min:` and prints the smallest eigenvalue first
  (`C117_algebra_jw`: `-1 1`); a list of a single operator gives the empty array without `verbose` and ValueError with it
  (`C117_algebra_single`).
- `rotate_operators` and `build_op` fail with TypeError for operators given as real arrays and complex coefficients, e.g.
  those of `build_Omega`, although the result is defined (`C120_violation`). `kitaev_chain` accepts complex `t` only together
  with a complex `mu` and then writes `-t` on both sides of the diagonal, which is not Hermitian
  (`C120_kitaev`, `C120_kitaev_hermitian`).
- `cast_to_density_matrix` returns its argument itself if that is a complex square array on two or more levels, and a new array
  otherwise; `cast_to_pdf` then returns a read-only view. A later assignment to `rho[i, i]` changes the probabilities computed
  before (`C124_cast_alias`, `C124_cast_not_own`, `C124_pdf_later`). `complete_face` works in place and also returns its argument.
- Shapes that contradict the documentation are often accepted (`C127_not_rejected`). A vector of on-site energies passed to `build_H`
  fills every row of the block with the vector, which is Hermitian only if all energies are equal (`C127_vector`). `is_symp` builds a
  matrix `S` for 3 x 3 arrays by repeating `np.eye(1)` and calls the 3 x 3 identity symplectic (`C127_is_symp_three`).
  `correlation_matrix` returns an empty array for a row of any length, `partial_trace_over_2` fills missing columns with zeros, and
  `partial_trace_over_1` repeats the last column if exactly one column of the last block is there.
- The casts accept diagonal entries down to `-1e-12`. One negative entry makes `renyi_entropy(p, 1)` equal to `-inf`,
  `relative_entropy(p, p)` and `jensen_shannon_divergence(p, p)` equal to `inf`, and `bhattacharyya_coeff(p, q)` equal to `nan`
  (`C129_violation`). `np.sqrt` of a negative number is `none` in the model, so `bhattacharyyaCoeff` returns an option.
- `renyi_entropy` normalises the input for order one (scipy does) but not for the other orders. For an accepted input whose entries do
  not add up to one exactly, the entropies of orders near one are therefore unbounded (`C129_orders_near_one`); with a total of
  `1 + 5e-6` the entropy of order `1 + 1e-7` is about -50.
- The docstring of `linear_entropy` gives `1 - d * sum p^2`; the code computes `1 - sum p^2`.
- `cast_to_density_matrix` tests `min(rho.shape) == 1` before it tests the number of axes, so an array of shape `(1, d, d)` is read as a
  vector with `d * d` entries. For a pure density matrix the result is a valid state of the wrong dimension (`C130_stack`), with twice
  the entropy (`C130_stack_entropy`).
- `renyi_entropy` accepts negative orders (`C130_negative_order`). The order `-np.inf` is not modelled.
- `docs/api.rst` lists `ff.ff_lib.wick_contraction`; in the code it is commented out.
- `pf` and `hf` of an array with an odd number of rows return 0 even if all its entries are nan (`C132_odd`).
- C134: a seed does not only affect the call it is passed to. `np.random.seed` sets the global generator, so all later calls without a seed, and the caller's own draws, repeat when the seeded call is repeated (`C134_repeats`). Samples of different functions are not independent either: `random_FF_pure_state_WN(n, N=0, seed=k)`, `random_FF_pure_state_W0(n, seed=k+1)` and `random_FF_state(n, seed=k+1, pure=True)` are the same vector (`C134_same_state`), and `random_FF_rotation(n, seed=k)` commutes with `random_FF_state(n, seed=k)` (`C134_commute`).
- C135: the complete example of docs/quickstart.rst passes the H of `random_FF_state(n, returnH=True)` to `eigh_sp`. That H is the operator of size 2^n, not the coefficient matrix of size 2n, and for n >= 2 `eigh_sp` raises AssertionError on it unless all on-site energies but the first vanish (`C135_rejects`, `C135_script_violation`). Other code blocks of README.md and docs/quickstart.rst cannot run at all: `build_op(H, alphas)` and `build_op(H, n_sites, alphas)` have the arguments in another order than `build_op(n_sites, R, alphas)`, `np.random.randn((n, n))` passes a tuple, and `pfaffian_orientation`, `hafnian` and `clean_matrix`, which README.md uses or lists, do not exist (they are `pfo_algorithm`, `hf` and `clean`).
- C137: `random_FF_pure_state_WN(n, N)` is documented as uniformly distributed over the N-particle free-fermion states. The rotation does not conserve the particle number. The distribution depends on N only through its parity, and for even N it is that of `random_FF_pure_state_W0(n)`.
- C138: `random_H_generator` says its entries are drawn from a standard normal distribution. Making the blocks Hermitian and antisymmetric doubles the variance off the diagonal; the diagonal of the Hermitian block has variance 4.
- C139: the average number of particles of `random_FF_pure_state_WN(n, N)` is `n / 2` for every `N` when `n >= 2`; the states do not have `N` particles even on average.
- C140: `cast_to_density_matrix([[1, inf], [inf, 0]])` passes the tests of the trace and of the symmetry (`np.allclose` takes `inf` as close to `inf`); only `np.linalg.eigvalsh` can reject it. `dt([[x, x], [x, x]])` is nan for powers of two `x >= 2^512`, and `dt([[x, 0], [0, x]])` is 0 for `x <= 2^-538`.
- C153: `partial_trace_over_2` returns the real part if all imaginary parts are at most 1e-8. For the pure state (sqrt(1 - q^2), iq) with q = 1e-9 of a two-level system next to a one-dimensional one, it returns a matrix with positive entropy although the state and both parts have entropy 0 (`C153_dropped`).
* `SRE` raises AssertionError for some nearly maximally mixed states and uses the squares of the stabilizer distribution for others (`C157_outcome`, `C157_violation`).
* `random_FF_state(fixedN=True, pure=True)` ignores `fixedN`: the generator need not commute with the particle number (`C158_violation`).
* The docstring of `jordan_wigner_majoranas` gives `γ_{n+k} = i(a_k - a_k†)/√2`; the code returns the negative of this (`C28_formula`), in agreement with `build_Omega` (`C28_rotation`).
* The docstring of `random_FF_rotation` gives dimension 2N for the result; without `returnOrb` it is a 2^N by 2^N matrix (C50).
* `compute_2corr_matrix(conjugation=False)` compares `int(False) = 0` with 0 and returns the matrix `P` of the positive case (C43_entries with conjugation 0).
* `clean` raises ValueError for strings of numeric characters that are no decimal digits, such as "½", and does not recognise numbers with a sign or an exponent (`C159_violation`, `C159_unchanged`).
* The docstring of `random_FF_state_randH` calls its result a thermal state at infinite temperature, which would be the maximally mixed state; every normalised exponential of a quadratic Hamiltonian can be returned (`C121_randH`).
* An example in the docstring of `renyi_entropy` has `s2 < s1` for the uniform distribution; all its entropies are equal (`C64_uniform`).
* `build_unitary_path` is documented as the shortest geodesic on the unit sphere; its midpoint from (1,0,0) to (1,1,1) is not in the plane of the two vectors (`C160_violation`).
* `build_linear_path` is documented as possibly not the shortest geodesic, in contrast to `build_unitary_path`. It is the other way round: the linear path always runs along the great circle arc (`C161_arc`, `C161_onto`), the unitary path does not (`C160_violation`).
* `build_linear_path` accepts vectors of different lengths; evaluating the path raises ValueError unless one of the lengths is one, and then the single number is repeated (`C162_linear_error`, `C162_violation`).
