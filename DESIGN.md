# Formal model of BallisticLA/parla in Lean 4

## 1. What is modelled and at what level

PARLA is a thin layer of control logic and matrix algebra on top of NumPy, SciPy
and LAPACK.  The model (under `lean/Verif/Model/`) mirrors that layer function by
function.  Four choices fix its level:

* **Exact real arithmetic.** Arrays are `Matrix (Fin m) (Fin n) ℝ` / `Fin n → ℝ`
  (Mathlib).  Floating point rounding is not modelled except in C81 (QB and SVD routines), C100 (EVD1), C101 (EVD2), C102 (OSID1, TSID1), C103 (OSID2, CUR1), C82 (least squares setup)
  and C85 (pcg, PcSS1), which repeat the models of these routines over operations with errors (`Base/Rounding*`,
  `Model/Rounding*`); every other property in `properties.jsonl` is about exact
  arithmetic.  `NaN` is modelled where the code
  branches on it (`tol`) and where the code returns it (`stats.py`).  The literal
  `np.finfo(float).eps` is the real number 2⁻⁵² where the code compares with it.
* **LAPACK/NumPy kernels are parameters with contracts.** `la.qr` (plain and
  pivoted), `la.svd` (thin and full), `la.eigh`, `la.cholesky`, `la.lstsq`, `la.lu`,
  `np.argsort` are fields of a structure `LinAlg` (`Base/LinAlg`) whose laws are the
  documented input/output contracts; every theorem quantifies over *all* backends.
  `Base/LinAlgExists` constructs one (`LinAlg.ref`, from `Backend/*`: Householder QR
  with pivoting, spectral-theorem SVD, partially pivoted LU, ...), so the contracts are
  consistent and no theorem is vacuous.  Triangular solves, norms, slicing, stacking
  and the orthonormal DCT are concrete definitions, not parameters.
* **Randomness is a state-passing parameter.** A generator state has an arbitrary
  type `G`; a sketching operator generator is an arbitrary state-passing function
  `rows → cols → Py G matrix`.  Statements hold for all generators, so for all
  random outcomes.  Where the code calls `rng.choice`, `rng.normal`, `rng.uniform`,
  the calls are fields of `NpRng` (`Model/Sketching`), whose laws say only what holds of
  every draw (distinct indices without replacement, range).  Claims about expectations
  (C45, C47, C55) are Bochner integrals / finite averages over the documented
  distributions with independent entries (`Proof/Expect`), applied to what the code
  computes *from* the draw.  Almost-sure claims (C59) are about a null set of draws for
  Lebesgue measure, hence for every absolutely continuous distribution.
* **Effects.** `Py G α := World G → Except PyErr (α × World G)`; `World` holds the rng
  state, a warning counter and a trace of events (a product with A, a product with Aᵀ,
  a stabiliser call).  Exceptions are values (`PyErr`); `while` loops are structural
  recursion on the trip count or carry fuel whose exhaustion is a distinguished error
  (`diverge`) that theorems prove unreachable; in-place updates of the caller's arrays
  are returned values (`QB2` overwriting `A`, `PcSS1` overwriting `R`).  Wall-clock
  readings are arbitrary reals (`LogTimes`).  Dimensions that Python discovers at run
  time are packed in structures (`Cols n`, `QBOut`, `SVDOut`, ...).

## 2. Modules

| module | models |
|---|---|
| `Base/Py` | exceptions, warnings, RNG state monad, tolerance values incl. NaN |
| `Base/Mat` | NumPy slicing, stacking, norms |
| `Base/Iface` | the interfaces between components (sketcher, rangefinder, QB, ...) |
| `Base/LinAlg`, `Base/LinAlgExists`, `Backend/*` | kernel contracts and a backend satisfying them |
| `Spec`, `SpecLowRank` | the small vocabulary used in theorem statements |
| `Model/Aware` | comps/sketchers/aware.py |
| `Model/Rangefinders` | comps/rangefinders.py |
| `Model/QB` | comps/qb.py |
| `Model/SVD`, `Model/EVD`, `Model/Interpolative` | drivers/svd.py, drivers/evd.py, comps/interpolative.py and drivers/interpolative.py |
| `Model/Precond` | comps/preconditioning.py |
| `Model/PCG`, `Model/LSQR`, `Model/PcSS1`, `Model/PcSS2` | comps/determiter/{pcg,lsqr,saddle}.py |
| `Model/SPLog` | comps/determiter/logging.py |
| `Model/LeastSquares`, `Model/SaddleSys`, `Model/DriverFunctions` | drivers/least_squares.py, drivers/saddlesys.py (classes, then procedural functions) |
| `Model/Sketching`, `Model/Oblivious` | utils/sketching.py, comps/sketchers/oblivious.py |
| `Model/Stats`, `Model/LinalgWrappers` | utils/stats.py, utils/linalg_wrappers.py |
| `Proof/*` | helper lemmas |
| `Props/*` | property theorems, each with a non-vacuity example |

Every definition in `Model/` cites the lines it models.

## 3. Plan per property

(M = what is modelled, P = how it is proved)

* C01 M `RF1.__call__`, `rf1`; P QR contract, column-space algebra.
* C02, C03 M `RS1.__call__` loop with a trace of operations; P induction on the pass counter.
  Column-space equality needs a stabiliser that preserves ranges; it is proved for
  PARLA's stabilisers (`orth`, `lu_stabilize`) when the draw has full column rank, with the
  containment proved for all.
* C04 M `QB1`; P Pythagoras for the Frobenius norm.
* C05–C09 M `QB2` loop with fuel, trace of rangefinder calls and final contents of A; P loop invariants
  (A_cur = A - QB, running norm = ||A_cur||², orthonormality under full-rank blocks, rank drop).
  "QB2 always returns orthonormal Q" is false: `C06_qb2_not_orthonormal` refutes it for
  every backend.  What holds exactly is proved: orthonormal whenever no more than rank(A)
  columns are returned from capturing rangefinder calls, plus the parts of C06 that need
  no hypothesis at all.
* C10, C11 M `QB3`; P block invariant Q'Q=I, B=Q'A, using that a nonsingular R forces full rank.
* C12–C17 M `SVD1`, `EVD1`, `EVD2`; P orthogonal invariance, error identities, semidefinite order.
  The documented tolerance of svd1/evd1 and the documented number of components of evd2 are
  false of the code; each is refuted by a concrete run (`..._false`) and the exact
  statement that does hold (error ≤ tolerance + truncation term; number of components =
  number of singular values of Y that survive) is proved.
* C18–C23 M `qrcp_osid`, `OSID1/2`, `TSID1`, `CUR1`, `ROCS1`; P permutation/slicing algebra.
* C24 M pass counters of the procedural wrappers; P from C03; `cur1` makes p−1 passes; blocked algorithms (`qb_b`, `svd1`, `evd1`: p per block; `qb_b_pe`: p+1) by induction over the block loop (Props/Passes.lean).
* C25, C26 M preconditioning.py; P matrix algebra; histories of alternating
  forward/adjoint calls for the shared work buffers.
* C27, C28 M `pcg`; P invariants over the iteration, conjugacy by induction over all pairs.
* C29 M `PcSS1`.
* C30–C33 M `lsqr` in full (damped and undamped); P invariants
  (Golub–Kahan relations, rotated residual vector), orthogonality by induction over all pairs.
* C34–C41 M `PcSS2`, `dim_checks`, `SSO1`, `SPO`, `SPU1`, `SPS1`, `SPS2`; P composition of the above.
* C42, C43 M `wrap_up`, and the scalar/array distinction of lsqr's slot 7.
* C44–C50 M sketching.py and oblivious.py; P finite combinatorics, orthogonality, averaging over signs.
* C51–C53 M stats.py, linalg_wrappers.py, `_sym_ortho`.
* C54 M lsqr's `anorm`, `acond`, `xnorm` and tests; P invariants of the accumulators.
* C55 M `gaussian_operator`; P integral of a product measure with the standard normal's moments.
* C56–C58 M the procedural least squares / saddle drivers with the default SJLT sketch; P
  instantiation of C36–C41 plus exhaustive case analysis of the outcomes.
* C59 M the Gaussian operators feeding rf1, qb, qb_b_pe, evd2, osid1, tsid1, cur1; P the zero set of a
  nonzero polynomial is null for a product of atomless measures, so rank(A Z) = min(k, rank A) almost
  surely; compose with C02–C22.
* C60 M as C36–C38 with `gaussian_operator`; P rank of the sketched matrix, C36, C37, and the left version
  of the same null-set argument.
* C61 M as C01, C02, C04; P Eckart–Young in the Frobenius norm for any `IsSVD` (`SpecLowRank`), the projection
  error bounded through an explicit right inverse, powers of A through the singular value decomposition, and
  the null-set argument of C59 for the first k rows of the rotated draw.
* C62 M as C12; P C12's exact error formula and Eckart–Young for Q'A. EVD1: M as C14; P Eckart–Young for Q'AQ, the kept
  eigenvalues have the largest sum of squares, and the two-sided projection error.
* C63 M as C05–C09, C12–C15 with `gaussian_operator`; P Fubini over the blocks: the residual after a block is, for a
  good draw, a measurable function of the draws so far (projection onto the range of the power iterate), and its
  sketch keeps the rank for almost every next draw (`Proof/Blocks`).
* C64 M as C36, C37 with `gaussian_operator`; P write A = QM and b = A xs + ρu, rotate the draw by [Q u], and use the
  mean of `Proof/PinvMean`; SPO through C37.
* C65 M as C01, C04, C07, C13, C15 with `gaussian_operator`; P the bound of C61 as a function of the draw; its mean
  by rotation invariance of the Gaussian law (`Proof/Gauss`), E tr(ZZ')⁻¹ = k/(d−k−1) by induction over Schur
  complements (`Proof/Wishart`) and Fubini (`Proof/PinvMean`); blocks without power iterations span the same space as
  one block; Markov's and Jensen's inequalities.
* C66 M as C27–C29; P conjugacy (C28) makes the error K-orthogonal to the Krylov space, hence optimal among p(NK)e0;
  Chebyshev polynomials (Mathlib's `Polynomial.Chebyshev`) on the spectrum, which is diagonalised by `Spec`-level eigenvectors.
* C67 M as C30–C34, C37; P the same for the bidiagonalisation (`seqP_krylov`); SPO through the sandwich of C38.
* C68 M as C55, C35–C38, C67; P chi-square tail bounds from the Gaussian moment generating function (`Proof/ChiSq`), a 9^r-point net of the unit ball by volume (`Proof/Net`), union bound (`Proof/Embed`), then C36/C67 on the good event. The draw is a product of standard normals; that numpy's generator has this law is an assumption (hypothesis `NextNormal`).
* C69 M `lsqr`'s `calc_var`/`var` (state field, `dk**2` accumulation); P erasure simulation between the two settings; K-conjugacy of the directions `dk` from the invariant of C30–C34, then Bessel's inequality.
* C70 M as C49 (`sjltOperator`), C57; P second moment of a quadratic form in independent signs (`Proof/Chaos`), averaged over the uniform injections, summed over an orthonormal basis of the subspace, Markov; then C36/C67 on the good event. The draw is (uniform injections) × (uniforms on [0,1]) (hypothesis `NextSJLT`); that numpy's generator has this law is an assumption. With the default sampling factor 3 the bound exceeds 1: `d >= (r²+r)/(eps² p)` rows are needed.
* C71 M `Model/Matmakers` (every function of parla/tests/matmakers.py, and notebooks/least_squares/helpers.py); P C49/C59 for the orthonormal factors, uniqueness of sorted rearrangements, normal equations for `x_opt`. A zero largest entry, `spectrum_param = 0` and negative `1 + scale j` give nan in NumPy and are excluded by hypothesis.
* C72 M as C47 (`srctOperator`; `skOpTCGen` represents the operator by its array, since the drivers only multiply by it); P variance of a sum over a sample without replacement (`Proof/WithoutRepl`: pairs are negatively correlated), fourth moment of a row of the signed cosine transform (`Proof/Chaos`, entries squared at most 2/m), Markov; then C36/C67 on the good event. The law of the draws is an assumption, as for C70.
* C73 M as C41 (`sps1Call`, `spsFn`); P Cauchy–Schwarz in the two energy norms for the start (the start is chosen by the sketched energy of its gradient), then C67 for the rate and C68/C70/C72 for the probability.
* C74 M as C40 (`sps2Call`); P the transformed problem has the energy of the saddle system up to a constant; rates C66 and C67 for it,
  the presolve check bounds the start by zero, then C68, C70, C72 for the probability (`Props/SPS2Rates.lean`).
* C75 M as C16 (`evd2Call`, `evd2`); P with H a square root of A + nu I, B = H Q with Q orthonormal, so the trace of A + nu I - B B' is a squared projection error bounded as in C61; discarded singular values by Eckart–Young; Frobenius norm at most trace for positive semidefinite matrices; then C65's mean for the rows and Markov for nu (`Proof/EVD2Error`, `Props/EVD2Error`).
* C76 M as C18–C22 (`qrcpOsid`, `OSID1`, `OSID2`, `cur1Call`); P greedy pivoting bounds every trailing entry of R by the diagonal, back substitution then grows by at most 2 per step; the trailing block against any rank-k matrix through a null vector of its first k+1 pivot columns; interpolation splits A into A - C S'A and its image (`Proof/IDError`, `Props/IDError`).
* C77 M as C20–C22, C59 (`osid1`, `osid2`, `tsid1`, `cur1`); P C76 with C chosen from the range of the sketch (no oversampling), C = S orthonormal (at least one pass: range of the power sketch as in C61), or C = U_t (Omega_1^+)' (plain Gaussian: independence of the first t rows of U'S from the others, mean of the inverse Wishart trace as in C65); Markov (`Proof/IDExpected`, `Props/IDExpected`).
* C78 M as C59, C61, C77; P the deterministic bounds of C61/C76 with the right inverse of the first t rows of U'S: its norm from the embedding probability of C68 applied to the whole of R^t (net argument), the weighted chi-squared tail of the remaining rows by Jensen and the moment generating function (`Proof/LowRankTail`, `Props/LowRankTail`).
* C79 M as C27, C29, C39, C41, C67, C73; P each stopping branch separately: a residual test is turned into an error bound by lo e'Ke <= ||Ke||^2 <= hi e'Ke (Cauchy-Schwarz for the form of K), or by the bounds on the preconditioned matrix for lsqr's two tests; an exhausted limit by the rates of C66/C67/C73.
* C80 M every `default_rng(rng)` line and which value each routine passes on (Model/Seeds); P unfolding the conversions (a conversion of a Generator is the identity), and for the stream a transition calculus: every run that returns moves the generator by a given function, composed along the code, by induction over the block loop for `qb_b`.
* C81 M RS1, RF1, QB1, QB2, SVD1 again with every product, difference, factorisation and norm replaced by one of a structure `FlAlg` (Base/Rounding, Model/Rounding), related to the exact model by a refinement theorem; P perturbation bounds in the Frobenius norm for one block (computed residual, computed squared norm, norm of B), compounded by induction over the block loop; for one block, distance of the computed basis from one whose range contains `A S` up to rounding; truncated SVD by Eckart–Young for the exact SVD of a nearby matrix; loss of orthogonality from block to block by a recurrence for the Gram matrix's distance from I, with a counterexample (rank-deficient input, arithmetic that inflates by 1+ε) when a block is projected to nothing.
* C82 M SSO1, the factorisation stage of SPO in its three modes, svd_right_precond and SPU1 again with the operations of the sketching and factorisation stages those of a structure `FlLS` (Base/RoundingLS, Model/RoundingLS), related to the exact model by a refinement theorem; P perturbation bounds in the Frobenius norm give a triangular or SVD factor whose quadratic form is within 1±θ of the lifted sketch's (for Cholesky via the Gram matrix, positive definiteness of the perturbed Gram matrix excluding failure; for SVD via Weyl-type bounds on the computed singular values, which also show that no column is cut off); combined with the embedding, the preconditioned matrix has its squared singular values in [1/(1+η'), 1/(1-η')], and the LSQR rate of C67 applies.
* C83 M the iterative solvers and the least squares and saddle point drivers once more, statement by statement, on a memory of addressed arrays (Base/Mem, Model/Mem, Model/MemLSQR, Model/MemDrivers, Model/MemQB for QB2): names hold addresses, in-place statements change the object, exceptions keep the changes made; LAPACK's leavings in an array it may overwrite and SciPy's choice to work in place are arbitrary functions of the state.  P a simulation against the model by value (SpecMem: `Sim`, `SimCall`), statement by statement with rules for reading, allocating, overwriting and calling, carrying along that nothing older than the call (except `R` of PcSS1) has changed; loops by induction.
* C84 M `sparse_sign_operator` as in C46 (mask from uniform draws, at most ten retries, signs for the positions of the mask in order), its draws given a product of uniform measures; P the signs, read by position, are a permutation of independent uniform signs for every fixed mask; second moment of `‖B'(S'S - I)B‖²_F` for an orthonormal basis `B` of the subspace by the order-two chaos identity given the mask and Bernoulli moments of the mask, then Chebyshev's inequality (the empty mask lies in the exceptional set since S = 0 is no embedding); failure by independence of the eleven masks.
* C85 M `pcg` and `PcSS1` again with every operation on vectors and scalars one of a structure `FlVec` (Base/RoundingVec, Model/RoundingPCG), products and quotients of scalars arbitrary, the preconditioner an arbitrary function, related to the exact model by a refinement theorem; P the distance of the variable `r` from the residual is bounded by τ after a recomputation and by (1+ε)·(old bound) + τ after an update, by induction over the loop with the bound a function of the iteration number modulo ten; the computed product with A'A + δI is accurate by composing four operations.
* C86 M the procedural low-rank functions over any source of Gaussian arrays that returns an array for every non-empty shape without warning (`Dependable`; `gaussian_operator` is); P by cases on the assertions in the order in which the code makes them, with the power iteration, the block loop (C05), the single-pass loop (C10) and pivoted QR (C18) shown to return and to keep the warning count; the number of columns of the sketch excludes IndexError and most shape errors.
* C87 M the drivers over two arbitrary backends `la la' : LinAlg` (the contract is all that is known of either; the examples run them on a backend and its sign-flipped or permuted twin); P (least squares) the SVD/QR/Cholesky preconditioners of two backends have the same Gram matrix `M Mᵀ` (uniqueness of the pseudo-inverse square), and LSQR, PCG and the solvers see `M` only through it: a coupling of the two runs by an orthogonal change of coordinates; P (low rank) a.s. full rank of the power-iterated sketch (C59, C63) makes the range unique, so the projections agree block by block; then singular values and eigenvalues by uniqueness (Proof/SvdUnique).
* C88 M the drivers on two inputs related by `Spec.SketchesAlike` and the matrices `P`, `T` (Props/ChangeVars), or by a scalar (Props/Scaling); P the lifted problem on `P A T` is an isometric image of the one on `A` composed with `T` (Proof/ChangeVars: `Coords`, `exists_iso`), its preconditioner is `T⁻¹ M` up to an orthogonal factor, and LSQR on the preconditioned operator is invariant under such factors (Proof/LsqrRot); homogeneity of PCG by induction on the loop (relative test); for LSQR the whole state scales (`stepP_scale`) and every stopping test but number 2 is homogeneous, number 2 is monotone in the scale.
* C89 M the procedural low-rank drivers run on `A` with draws `Z` and on `a P A W` with draws `φ Z` (`rotDraws`, Proof/RotDraws); P the Gaussian law is invariant under an orthogonal map (`gauss_map`); the power-iterated map satisfies `L(a P A W) V = t P L(A)`, so each block's range is rotated; by induction over the QB2 loop the residuals stay related (`loop_equi`) and the relative early-stopping test takes the same branch; then uniqueness of singular values and eigenvalues (Proof/SvdUnique); for EVD2 the Nystrom factor of `a P A P'` read in the old coordinates is a Nystrom factor of `A` (`nystrom_back`).
* C90 M the loops of `lsqr`, `pcg`, `QB2` and `QB3` run twice with two limits and two tolerances (Props/Extend, Props/ExtendQB; vocabulary in SpecExtend); P a test that does not stop the shorter run does not stop the longer one (`lsqrStop_tighter`, `pcgLoop_extend`, `loop_extend`: the block requested is the same while it fits), so the runs agree up to the point where the shorter one stops, and from there each step keeps the columns found, appends to the log and decreases the residual; drivers by composition
* C91 M as C65 and C90; P the lower bound is Eckart-Young applied to the run that stopped (C05_qb2_exit); the upper bound runs `qb_b` with target `K`: by C65/C78 it ends within the tolerance outside the exceptional draws, and by `C90_qb2_done` the call with the larger target then returns the very same thing (Props/Adaptive); passes by C24
* C92 M `pcgM` and `lsqrM` (arrays as mutable objects, operators as arbitrary function handles that may write to memory) with a real quantity of the memory that each operator call increases and no array operation changes (SpecCost); P loop invariants on that quantity (Props/Cost); for `lsqr` a step without a product with the transpose has `beta = 0`, hence `arnorm = 0`, hence is the last; with C83 the handles with counters compute what the by-value model computes
* C93 M `svd1Call`, `evd1Call`, `evd2Call` after an arbitrary QB step/sketcher (Props/Pairs), with the Gaussian drivers by C65 (Props/PairsGaussian); P Courant-Fischer style dimension counts for singular values and for the counts of eigenvalues above a level (Proof/Weyl: Weyl, Cauchy interlacing, eigenvalue near a Rayleigh quotient), applied to `B = Q'A`, `Q Q'A Q Q'` and `V diag(lamb) V'`; spec SpecPairs (spectral norm, i-th value, eigendecomposition); demo run with a missed direction in Props/PairsDemo. The versions outside the exceptional set of C78: Props/PairsTail.
* C94 M as C93; P the coordinates of a returned vector along the singular vectors (eigenvectors) of A solve 2x2 (1x1) linear systems whose right-hand side is the residual of C93 and whose determinant is the gap (Proof/Angles); the part of a left vector outside the range of A is bounded separately; Gaussian versions through the same run lemma as C93 (svd1_gaussian_run, evd1_gaussian_run); demo in Props/PairsDemo. The versions outside the exceptional set of C78: Props/PairsTail.
* C95 M as C62/C65/C93 (rs1, rf1, qb, qbB, svd1, evd1); P write A in its singular basis; the power scheme turns the sketch error into a p-th power of the tail, and Hölder (Jensen for powers, Proof/SpecRange) bounds the quadratic form of the error by its p-th root; the mean of the root is at most the root of the mean (concavity), which is C65's inverse-Gaussian mean with all weights one; qb_b by projecting on the first block; evd2 through the square root of A + nu I, whose Nyström residual is a projection error (Proof/SpecNystrom); failure probability as in C78; demo: the identity, where no gap exists.
* C96 M qb, qbB, qbBPe, svd1, evd1 with the draws recorded as slices of one matrix (`SlicesOf`); P loop invariant of QB2: while A*Omega has full rank every block is full, Q is orthonormal and spans A times the columns drawn so far; the other two by C04, C10; equal ranges give equal projections.
* C97 M qrcpOsid, rocs1Call, OSID1/2, tsid1Call, cur1Call; P two-run relation `SameUpTo` (the second run has the first one's outcome up to a map of the value), closed under bind; rotation by uniqueness of the minimum-norm least-squares solution.
* C98 M rf1, qb, svd1 with Gaussian draws; P C65, C78, C95 with gap ratio 1, Eckart-Young (sum of the tail <= ||A - L||^2) and Weyl (s_t <= ||A - L||_2), triangle inequality. `svd1` and `evd1` outside an exceptional set: Props/DenoiseTail, from C78 with gap ratio 1.
* C99 M sso1Call, sso1Fn; P lstsq(F, b) = lstsq(F, I) b by uniqueness of the minimum-norm solution; stability by applying C68/C70/C72 to b' - b and comparing with z = 0.
* C100 M EVD1 and evd1 again (Model/RoundingEVD) over `FlAlg` and a structure `FlEigh` (eigensolver reading the lower triangle, accurate to ε backward; exact sorting), refinement theorem to the exact model; P polar factor of Q, perturbation of C = B Q against Q''AQ', symmetrisation of the lower triangle, Eckart-Young for the computed decomposition, then composition with C81_qb_b for the driver.
* C101 M EVD2 and evd2 again (Model/RoundingNys) over a structure `FlNys` extending `FlAlg` (square roots, `Y + nu S`, Cholesky reading the upper triangle, triangular solves, full SVD, each with its backward error bound; Cholesky may fail only when a matrix within ε is not positive definite), refinement theorem to the exact model; P perturbation chain for Y and S'Y, quadratic form of the symmetrised core matrix against `nu s²`, perturbed SVD; RS1 with pps = 1 ends in `la.qr`, so its output is orthonormal up to ε.
* C102 M qrcp_osid, OSID1 and TSID1 again (Model/RoundingID) over a structure `FlID` extending `FlAlg` (pivoted QR and triangular solves with backward error bounds), refinement theorem to the exact model; P R - R[:, :k][I T] splits into the trailing block and the residual of the solve, orthonormal Q', then A = M Y + F for any M.
* C103 M OSID2 and CUR1 again (Model/RoundingCUR) over a structure `FlCUR` extending `FlID` (least squares solves whose columns are exact for perturbed data), refinement theorem to the exact model; P columnwise comparison with any competitor, summed by the triangle inequality in l2.
* C104 M SPS1 again (Model/RoundingSPS) over a structure `FlSPS` extending `FlVec`; sketching, factorisation, presolve and preconditioner are arbitrary functions; refinement theorem to the exact model; P the setup does not depend on iter_lim or logging, then C85 for the iterative phase.
* C105 M nothing new; P both calls sketch and factor the same matrix, so only the truncations differ; sorted values give prefixes; the off-by-one in EVD2's component count (drivers/evd.py:376-380) gives the exception; least squares over more columns does no worse.
* C106 M SPS2 again up to its iterative phase (Model/RoundingSPS2) over `FlLS`; P exact refinement by `rfl`; the preconditioner as in C82; the vector that transforms the right-hand side from the backward error of the SVD, hence a perturbed `c` and a perturbed solution; then C66/C67 for the transformed system.
* C107 M the models of C36, C38, C41 and C58, nothing new; P two calls from one world draw one sketch (determinism of `dim_checks` and the generator); adding the two optimality inequalities gives the monotonicity, subtracting the two normal equations gives (T'T + delta') (x - x') = (delta' - delta) x and hence the displacement bound (Props/RidgePath).
* C108 M the models of C40, C41 and C58, nothing new; P the two quadratic functions expanded around the solution with the two block equations (the converse by the discriminant along the gradient), the stability bound from the expansion of |b - b'|^2 + |c - c'|^2/delta, uniqueness and linearity from it, then the convergence theorems of the drivers (Props/SaddleOpt).

Nothing in the list is inexpressible in the model.

## 4. What is not modelled

* Rounding outside C81 (which covers RS1, RF1, QB1, QB2 and SVD1), C100 (EVD1), C101 (EVD2), C102 (OSID1, TSID1), C103 (OSID2, CUR1), C82 (SSO1, and SPO and SPU1 up to the iterative stage) and C85 (pcg and PcSS1), C104 (SPS1), C106 (SPS2 up to the iterative stage), all in the
  standard first-order error model with the accuracy of the array operations as a hypothesis, overflow, underflow, NaN/Inf propagation (except as said above).  In `lsqr` with `b = 0`
  NumPy's 0/0 and division warnings decide the stop test; the model takes the branch
  NumPy's inf/nan comparison takes and says so at the definition.
* `lsqr`'s `show` argument (no effect on the outputs), the final printing.  The stop tests `1 + test <= 1` are read in exact arithmetic (`test ≤ 0`).
* The type-dispatch on `LinearOperator` vs. `ndarray` for A, multiple-dispatch fallbacks,
  sparse storage formats (a sparse matrix is its dense value), dtypes, complex arrays.
* `np.random.default_rng(rng)` is modelled (Model/Seeds, C80) on a `Generator`, a nonnegative int and None;
  SeedSequences, BitGenerators, arrays and negative ints are not.
* Arrays are passed by value except in C83.  There distinct addresses are disjoint objects: views that
  overlap in part are not modelled.  Of the low-rank code only QB2 works in place.
* Negative or out-of-range `density`, negative Python indices.  Sampling indices are naturals.
* `δ` is assumed nonnegative wherever the code takes `sqrt(delta)`.
* Wall-clock times are arbitrary reals (their order is a hypothesis where it matters).
* The test classes under `parla/tests` (the matrix generators `parla/tests/matmakers.py` are modelled) and the notebooks (except `notebooks/least_squares/helpers.py`).

## 5. Trusted base

* Lean 4.33.0's kernel.
* Mathlib's definitions (reals, matrices, measure theory).
* The axioms `propext`, `Classical.choice`, `Quot.sound`, on which every property theorem
  depends and no other.  No axioms are added; no compiled evaluation is used.
* The faithfulness of `Model/*` to the cited lines of /repo (read by hand; the code was
  not run), of the `LinAlg`/`NpRng` contracts to LAPACK/NumPy in exact arithmetic, and of
  `Spec` to the English statements.

## 6. Findings (places where documentation or expectation and code disagree)

1. `rf1` passes `tol = 0.0`, so it always emits the "tolerance ignored" warning.
2. `PcSS1` overwrites the caller's `R` when it is not square; `SPS2` with `PcSS1` and a
   rank-deficient sketch therefore logs a wrong first error (C29_pcss1_R_overwritten).
3. `pcg`'s (and SPS1's) documentation says squared residuals and an absolute tolerance; the code
   logs norms and uses a relative tolerance.
4. `PcSS1` ignores `z0` when the preconditioner is not square.
5. `lsqr` with `b = 0` and `x0` given stops after at most one iteration with istop = 1, whatever the
   residual (C32_lsqr_zero_rhs_false); its `xnorm` is ‖x − x0‖.
6. `PcSS2` with `b = None` and zero `c` raises (ValueError if δ > 0, TypeError if δ = 0); the
   singular case is C34_pcss2_singular.
7. `sps(method='lsqr')` raises ValueError whenever b and c are both nonzero (C58_sps_rejects), and its log mixes an
   unpreconditioned first error with preconditioned later ones.
8. `sampling_operator`, tall case, passes `indices` as `rng`: they only seed the draw
   (C48_sampling_tall_ignores_indices); its `rmatmat` always raises TypeError; repeated indices break
   the adjoint (C48_sampling_repeated).
9. `SkOpSS.__call__` returns None (C50_sparse_sign_none).
10. `sjlt_operator` clamps `vec_nnz` by `n_cols` even in the tall case.
11. `srct_operator`, tall case, draws its data twice; `generate_srct` uses `rng` directly, so an int
    or None fails with AttributeError.
12. `sparse_sign_operator` retries on zero rows/columns, which biases E[S'S].
13. `orthonormal_operator` returns a zero column when the Gaussian draw is rank deficient.
14. `wrap_up` with one iteration records a last time that excludes the iteration.
15. SPO's last logged error is one iteration stale; any SPO/SPS2/spo1/spo3 start that is already
    optimal raises ValueError when logging (C43).
16. `cur1` makes p−1 passes and rejects p = 1; `qb_b_pe` makes num_passes+1 products (C24).
17. QB2 asked for more than rank(A) columns can return a non-orthonormal Q (C06_qb2_not_orthonormal).
18. `SPS2`'s reduced right-hand side satisfies A_augᵀ b_aug = Aᵀb − VVᵀc, correct only when c lies in
    the row space captured by V (C40).
19. `SPU1` with c = 0 raises TypeError (C39_spu1_zero).
20. `sso1` uses `np.NaN`, removed in NumPy 2.
21. The stats docstrings call the slope "a"; `fit[0]` is the intercept.
22. svd1/evd1 drop singular values below the absolute cutoff 10·eps, which breaks the relative tolerance
    (C13_..._false, C15_..._false); `evd1` halves the tolerance twice.
23. EVD2 returns rank−1 components when k > rank(A) (C17_evd2_rank_false).
24. tests/matmakers.py: the spectra have `rank − 1` entries because of `np.arange(1, rank)`.

## 7. Testing the theorems

`tools/mutate.py` applies the edits in `seeded/mutants.json` one at a time to a scratch copy
outside /verif, rebuilds, and records which theorems fail; `seeded/LOG.jsonl` holds one line per attempt.
