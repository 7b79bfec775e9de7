{"id": "C01", "title": "Rangefinder output is an orthonormal basis covering the sketch", "statement": "RF1 (and rf1) called with 0 < k <= min(A.shape) returns Q of shape (m, k) with Q'Q = I and range(A S) contained in range(Q), where S is the matrix drawn by the row sketcher; if A S has full column rank the two ranges are equal. With k <= 0 or k > min(A.shape) it raises AssertionError and draws nothing.", "quantifier": "exact real arithmetic; every LAPACK/NumPy backend obeying its documented contract; all A, k, tol, generator states and row sketchers", "why_tests_cant": "Unit tests try a handful of seeded matrices of fixed sizes; the claim is over every size, matrix, sketch and backend.", "anchors": ["parla/comps/rangefinders.py:RF1.__call__", "parla/comps/rangefinders.py:rf1"]}
{"id": "C02", "title": "Power-iteration sketch has the documented column space", "statement": "RS1 returns S with n rows whose range is that of (A'A)^(num_pass/2) S0 (num_pass even, S0 of shape (n,k)) or (A'A)^((num_pass-1)/2) A' S0 (num_pass odd, S0 of shape (m,k)), for every stabilisation interval, provided the stabiliser preserves the range of its argument; with QR as stabiliser and no rank assumption the documented range is contained in range(S).", "quantifier": "exact real arithmetic; every LAPACK/NumPy backend obeying its documented contract; all A, k, num_pass >= 0, passes_per_stab >= 1, generators, range-preserving stabilisers", "why_tests_cant": "The loop's parity and counter logic has to hold for every num_pass and stabilisation interval, not the few tested.", "anchors": ["parla/comps/sketchers/aware.py:RS1.__call__"]}
{"id": "C03", "title": "Power iteration makes exactly num_pass passes and stabilises on schedule", "statement": "RS1 multiplies by A or A.T exactly num_pass times, strictly alternating and always ending with A.T (if num_pass > 0), and calls the stabiliser exactly floor(num_pass / passes_per_stab) times, namely right after every pass whose ordinal is a multiple of passes_per_stab; num_pass < 0 raises AssertionError.", "quantifier": "all num_pass, passes_per_stab >= 1, A, k, generators", "why_tests_cant": "Pass counts are a cost contract over all parameter values; tests only look at the output matrix.", "anchors": ["parla/comps/sketchers/aware.py:RS1.__call__"]}
{"id": "C04", "title": "QB1 returns the best B for its Q", "statement": "QB1 returns (Q, B) where Q is what the rangefinder returned and B = Q'A; hence with orthonormal Q, ||A-QB||_F^2 = ||A||_F^2 - ||B||_F^2 and no other B' gives a smaller ||A - QB'||_F. Out-of-range k, or tol outside [0,1) (unless NaN), raises AssertionError.", "quantifier": "exact real arithmetic; every LAPACK/NumPy backend obeying its documented contract; all A, k, tol, rangefinders", "why_tests_cant": "Unit tests try a handful of seeded matrices of fixed sizes; the claim is over every size, matrix, sketch and backend.", "anchors": ["parla/comps/qb.py:QB1.__call__", "parla/comps/qb.py:qb"]}
{"id": "C05", "title": "QB2 stops for every input and its exit condition is truthful", "statement": "For every rangefinder, QB2 with k > 0 and blk > 0 terminates; it returns Q with at most min(k, m, n) columns and as many rows in B; on exit either Q has exactly min(k, m, n) columns or tol is a positive number and ||A - QB||_F <= tol*||A||_F for the ORIGINAL A. With tol = 0 or NaN it always returns exactly min(k,m,n) columns; all blocks except the last have exactly blk columns.", "quantifier": "exact real arithmetic; every LAPACK/NumPy backend obeying its documented contract; all A, k, tol, blk, rangefinders with the right output shape, generator states (no rank assumption)", "why_tests_cant": "The running squared norm is never recomputed, so its agreement with the true residual is an invariant over all iterations.", "anchors": ["parla/comps/qb.py:QB2.__call__", "parla/comps/qb.py:qb_b"]}
{"id": "C06", "title": "QB2 orthonormality, exactly", "statement": "QB2 always returns columns of norm one and ||A-QB||_F^2 = ||A||_F^2 - ||B||_F^2, whatever the rangefinder did. If every rangefinder call captured as much of the residual's range as its block size allows and no more columns come back than rank(A) (in particular if k <= rank(A)), then Q has orthonormal columns and B = Q'A. Without the rank condition the documented unconditional claim is false: for every backend there is a rank-one A for which k = 2, blk = 1 gives two parallel columns.", "quantifier": "exact real arithmetic; every LAPACK/NumPy backend obeying its documented contract; all A, k, tol, blk, rangefinders and generator states", "why_tests_cant": "Loss of orthogonality at a rank-deficient block depends on the history of all previous blocks.", "anchors": ["parla/comps/qb.py:QB2.__call__", "parla/comps/qb.py:project_out", "parla/comps/rangefinders.py:RF1.__call__"]}
{"id": "C07", "title": "QB2 is exact once it has rank(A) columns", "statement": "If every rangefinder call in the run captured as much of the residual's range as its block size allows, then the rank of A - QB drops by the block size (to no less than 0) at each block, so with k >= rank(A) and tol = 0 QB2 returns QB = A exactly, even when Q is wider than rank(A); hence with k = min(A.shape) and tol > 0 the tolerance is always met on exit.", "quantifier": "exact real arithmetic; every LAPACK/NumPy backend obeying its documented contract; all A of every rank, k, blk, tol; runs whose rangefinder calls are generic", "why_tests_cant": "Needs an invariant over all blocks and all ranks.", "anchors": ["parla/comps/qb.py:QB2.__call__"]}
{"id": "C08", "title": "QB2 in-place effect on A", "statement": "With overwrite_a=False the caller's A is unchanged by QB2; with overwrite_a=True the caller's A holds exactly A_original - QB on return. The returned (Q,B) do not depend on overwrite_a.", "quantifier": "exact real arithmetic; every LAPACK/NumPy backend obeying its documented contract; all A, k, tol, blk, rangefinders, both values of overwrite_a", "why_tests_cant": "Tests only compare a Frobenius norm of A before and after.", "anchors": ["parla/comps/qb.py:QB2.__call__"]}
{"id": "C09", "title": "QB2 argument checking", "statement": "QB2 raises AssertionError for k <= 0, clamps k > min(A.shape) to min(A.shape) with exactly one warning and otherwise behaves as if called with the clamped k; with 0 < k <= min(A.shape) it warns about nothing.", "quantifier": "all A, k, tol, blk", "why_tests_cant": "Boundary of every shape.", "anchors": ["parla/comps/qb.py:QB2.__call__"]}
{"id": "C10", "title": "QB3 is correct or raises", "statement": "Whenever QB3 returns at all (for any row sketcher returning a dense n-by-k matrix S) Q has orthonormal columns, B = Q'A, and range(Q) is the range of the first q columns of A S, where q is the number of columns returned; if some processed block of A S is linearly dependent on the preceding ones QB3 raises LinAlgError instead of returning a wrong factorisation.", "quantifier": "exact real arithmetic; every LAPACK/NumPy backend obeying its documented contract; all A, k, blk, tol, row sketchers", "why_tests_cant": "B is computed from the sketch H by a recurrence over blocks; its equality with Q'A is an invariant over all blocks.", "anchors": ["parla/comps/qb.py:QB3.__call__", "parla/comps/qb.py:qb_b_pe"]}
{"id": "C11", "title": "QB3 block count and early stopping", "statement": "QB3 requires 0 < k < min(A.shape) (AssertionError otherwise); with tol = 0 or NaN it returns exactly k columns; in general it returns min(i*blk, k) columns for some i >= 1, and if that is fewer than k then ||A-QB||_F <= tol*||A||_F.", "quantifier": "exact real arithmetic; every LAPACK/NumPy backend obeying its documented contract; all A, k, blk >= 1, tol, row sketchers", "why_tests_cant": "Ceiling-division and last-block boundary logic over all k, blk.", "anchors": ["parla/comps/qb.py:QB3.__call__"]}
{"id": "C12", "title": "SVD1 returns a valid truncated SVD of QB", "statement": "If the QB step returned orthonormal Q and B with at most k+over rows, SVD1 returns U with orthonormal columns, Vh with orthonormal rows, s non-increasing with every entry >= 10*eps, all of common length ell <= k, and ||A - U diag(s) Vh||_F^2 = ||A - QB||_F^2 + (sum of squares of the discarded singular values of B) when B = Q'A; the discarded ones are the smallest ones.", "quantifier": "exact real arithmetic; every LAPACK/NumPy backend obeying its documented contract; all A, k >= 1, over >= 0, tol, QB decomposers", "why_tests_cant": "Unit tests try a handful of seeded matrices of fixed sizes; the claim is over every size, matrix, sketch and backend.", "anchors": ["parla/drivers/svd.py:SVD1.__call__"]}
{"id": "C13", "title": "svd1 tolerance, exactly", "statement": "With k >= min(A.shape) and over = 0, and every rangefinder call capturing as much of the residual's range as its block size allows, svd1 returns ||A - U diag(s) Vh||_F <= tol*||A||_F + 10*eps*min(m,n); SVD1's error exceeds its QB step's by at most 10*eps*sqrt(min(c,n)) for orthonormal Q. The absolute term vanishes when no nonzero singular value of B is below 10*eps and cannot be dropped otherwise: the documented bound is false for every nonzero A with ||A||_F < 10*eps.", "quantifier": "exact real arithmetic; every LAPACK/NumPy backend obeying its documented contract; all A, tol in (0,1)", "why_tests_cant": "The failing inputs are at a scale no test uses.", "anchors": ["parla/drivers/svd.py:SVD1.__call__", "parla/drivers/svd.py:svd1"]}
{"id": "C14", "title": "EVD1 returns a valid truncated eigendecomposition", "statement": "For symmetric A and a QB step returning orthonormal Q and B = Q'A, EVD1 returns V with orthonormal columns, lamb sorted by non-increasing magnitude with every |lamb_i| > 10*eps, of common length r = min(k, #columns of Q, number of eigenvalues of Q'AQ above 10*eps in magnitude), and ||QQ'AQQ' - V diag(lamb) V'||_F^2 is the sum of squares of the discarded eigenvalues, which are the smallest in magnitude.", "quantifier": "exact real arithmetic; every LAPACK/NumPy backend obeying its documented contract; all symmetric A, k, over, tol, QB decomposers", "why_tests_cant": "Unit tests try a handful of seeded matrices of fixed sizes; the claim is over every size, matrix, sketch and backend.", "anchors": ["parla/drivers/evd.py:EVD1.__call__"]}
{"id": "C15", "title": "EVD1 tolerance, exactly", "statement": "For symmetric A and a QB step with orthonormal Q, B = Q'A, at most k columns and error <= (tol/2)*||A||_F, EVD1 returns ||A - V diag(lamb) V'||_F <= tol*||A||_F + 10*eps*sqrt(c); evd1 with k = n, over = 0 meets the same bound (sqrt(n)) whenever its rangefinder calls capture what they can and at most rank(A) columns come back. The absolute term vanishes when no nonzero eigenvalue of Q'AQ is below 10*eps and cannot be dropped otherwise: the documented bound is false for every nonzero A with ||A||_F < 10*eps.", "quantifier": "exact real arithmetic; every LAPACK/NumPy backend obeying its documented contract; all symmetric A, tol >= 0", "why_tests_cant": "The failing inputs are at a scale no test uses.", "anchors": ["parla/drivers/evd.py:EVD1.__call__", "parla/drivers/evd.py:evd1"]}
{"id": "C16", "title": "EVD2 returns a positive semidefinite approximation bounded by A + nu I", "statement": "For symmetric positive semidefinite A, whenever EVD2 returns, V has orthonormal columns and at most k of them, lamb is non-increasing and non-negative, and 0 <= V diag(lamb) V' <= A + nu*I in the semidefinite order, where nu = sqrt(n)*eps*||A S||_F.", "quantifier": "exact real arithmetic; every LAPACK/NumPy backend obeying its documented contract; all PSD A, 0 < k < n, over, row sketchers", "why_tests_cant": "Unit tests try a handful of seeded matrices of fixed sizes; the claim is over every size, matrix, sketch and backend.", "anchors": ["parla/drivers/evd.py:EVD2.__call__"]}
{"id": "C17", "title": "EVD2 number of components, exactly", "statement": "For positive semidefinite A and a sketch S of at least k columns, a returning EVD2 gives exactly k components if k <= rank(A S) and exactly rank(A S) - 1 otherwise. Hence the documented min(k, rank(A)) is false for every A with 1 <= rank(A) < k (one component too few).", "quantifier": "exact real arithmetic; every LAPACK/NumPy backend obeying its documented contract; all PSD A, k, over, sketches", "why_tests_cant": "Off-by-one visible only on rank-deficient inputs with k > rank.", "anchors": ["parla/drivers/evd.py:EVD2.__call__", "parla/drivers/evd.py:evd2"]}
{"id": "C18", "title": "qrcp_osid is an interpolative decomposition", "statement": "qrcp_osid(Y,k,axis=1) returns k distinct valid column indices Js and X of shape (k, Y.shape[1]) with X[:,Js] = I, hence Y[:,Js] = (Y[:,Js] X)[:,Js]; the error ||Y - Y[:,Js]X||_F is the Frobenius norm of the trailing block of the pivoted triangular factor, so it is 0 if rank(Y) <= k. axis=0 is the same statement for Y', any other axis raises ValueError, and a singular leading block raises LinAlgError.", "quantifier": "exact real arithmetic; every LAPACK/NumPy backend obeying its documented contract; all Y, k <= min(Y.shape), axis", "why_tests_cant": "Unit tests try a handful of seeded matrices of fixed sizes; the claim is over every size, matrix, sketch and backend.", "anchors": ["parla/comps/interpolative.py:qrcp_osid"]}
{"id": "C19", "title": "OSID1 interpolates A exactly on the skeleton", "statement": "OSID1 returns k distinct skeleton indices and coefficients with an identity at the skeleton, so the skeleton rows/columns of A are reproduced exactly; and if the sketch preserved the row (column) space of A and that space has dimension k the decomposition reproduces A exactly.", "quantifier": "exact real arithmetic; every LAPACK/NumPy backend obeying its documented contract; all A, k, over, axis, row sketchers", "why_tests_cant": "Unit tests try a handful of seeded matrices of fixed sizes; the claim is over every size, matrix, sketch and backend.", "anchors": ["parla/drivers/interpolative.py:OSID1.__call__", "parla/drivers/interpolative.py:osid1"]}
{"id": "C20", "title": "OSID2 coefficients are optimal for its skeleton", "statement": "OSID2 returns k distinct skeleton indices (all of them if k exceeds the axis length) and the coefficient matrix minimising ||A - A[:,Js]X||_F over all X (axis=1) or ||A - Z A[Is,:]||_F over all Z (axis=0), reproducing the skeleton itself exactly.", "quantifier": "exact real arithmetic; every LAPACK/NumPy backend obeying its documented contract; all A, k, over, axis, row sketchers", "why_tests_cant": "Unit tests try a handful of seeded matrices of fixed sizes; the claim is over every size, matrix, sketch and backend.", "anchors": ["parla/drivers/interpolative.py:OSID2.__call__", "parla/utils/linalg_wrappers.py:apply_pinv_on_left", "parla/utils/linalg_wrappers.py:apply_pinv_on_right"]}
{"id": "C21", "title": "Two-sided ID costs no accuracy over the one-sided ID", "statement": "TSID1 returns (Z,Is,X,Js) with Z A[Is,Js] X = A[:,Js] X (tall A) or = Z A[Is,:] (otherwise): its error equals the error of the one-sided ID it extends; Z has an identity at rows Is, X has an identity at columns Js.", "quantifier": "exact real arithmetic; every LAPACK/NumPy backend obeying its documented contract; all A, k, over, one-sided ID routines returning k indices", "why_tests_cant": "Unit tests try a handful of seeded matrices of fixed sizes; the claim is over every size, matrix, sketch and backend.", "anchors": ["parla/drivers/interpolative.py:TSID1.__call__", "parla/drivers/interpolative.py:tsid1"]}
{"id": "C22", "title": "CUR1 linking matrix and exactness", "statement": "CUR1 returns distinct Js and distinct Is, one side from the one-sided ID it extends and min(k, axis length) on the other, and U equal to X pinv(A[Is,:]) (tall) or pinv(A[:,Js]) Z (otherwise), so that among all U, the returned one minimises the distance from U A[Is,:] to X (resp. A[:,Js] U to Z); if the one-sided ID is exact and has rank k then A[:,Js] U A[Is,:] = A.", "quantifier": "exact real arithmetic; every LAPACK/NumPy backend obeying its documented contract; all A, k, over, one-sided ID routines", "why_tests_cant": "Unit tests try a handful of seeded matrices of fixed sizes; the claim is over every size, matrix, sketch and backend.", "anchors": ["parla/drivers/interpolative.py:CUR1.__call__"]}
{"id": "C23", "title": "Row/column selection agrees with the one-sided IDs", "statement": "Given the same sketcher and generator state ROCS1 returns exactly the skeleton indices returned by OSID1 and OSID2 (both axes): min(k, axis length) distinct valid indices; any axis other than 0/1 raises ValueError.", "quantifier": "exact real arithmetic; every LAPACK/NumPy backend obeying its documented contract; all A, k, over, axis, sketchers, generator states", "why_tests_cant": "Unit tests try a handful of seeded matrices of fixed sizes; the claim is over every size, matrix, sketch and backend.", "anchors": ["parla/comps/interpolative.py:ROCS1.__call__", "parla/drivers/interpolative.py:OSID1.__call__", "parla/drivers/interpolative.py:OSID2.__call__"]}
{"id": "C24", "title": "Number of passes over A of the procedural wrappers", "statement": "A returning call with pass parameter p multiplies by the data matrix (or its transpose) exactly p times for rf1, qb, osid1, osid2, rocs1, tsid1 and evd2 (randomised part), and exactly p-1 times for cur1, which contrary to its documentation rejects p = 1 with AssertionError. The blocked algorithms qb_b, svd1 and evd1 with inner_num_pass = p >= 2 make exactly p products per block of (at most) block_size columns: p*ceil(c/blk) for qb_b when Q has c columns, and p*N for some 1 <= N <= ceil(min(k+over,m,n)/blk) for svd1/evd1, with equality when there is no tolerance. qb_b_pe makes exactly num_passes + 1 products whatever the number of blocks.", "quantifier": "all p, A, k, generators", "why_tests_cant": "Cost contract over all parameter values.", "anchors": ["parla/comps/rangefinders.py:rf1", "parla/comps/qb.py:qb", "parla/drivers/interpolative.py:osid1", "parla/drivers/interpolative.py:cur1", "parla/comps/qb.py:qb_b", "parla/comps/qb.py:qb_b_pe", "parla/drivers/svd.py:svd1", "parla/drivers/evd.py:evd1"]}
{"id": "C25", "title": "Lifted preconditioned operator is A_lift M and its adjoint is the true adjoint", "statement": "a_lift_precond returns an operator whose matvec is [A; sqrt(delta) I] M z and whose rmatvec is its exact transpose (<F z, y> = <z, F* y> for all z, y), with M = R^{-1} if upper_tri and M = R otherwise, for delta = 0 and delta > 0 alike; the returned forward/adjoint maps apply M and M'; k != 1 raises NotImplementedError.", "quantifier": "exact real arithmetic; every LAPACK/NumPy backend obeying its documented contract; all A, delta >= 0, R, z, y", "why_tests_cant": "An adjoint mismatch silently ruins LSQR; testing inner products on samples cannot cover all shapes/delta.", "anchors": ["parla/comps/preconditioning.py:a_lift", "parla/comps/preconditioning.py:a_lift_precond"]}
{"id": "C26", "title": "SVD preconditioner whitens the sketch", "statement": "svd_right_precond(A_ske) returns M, U, sigma, Vh of the numerical rank r with A_ske M = U, U'U = I, Vh Vh' = I, sigma > 0, M = Vh'/sigma; if r = n then M M' is the inverse of A_ske'A_ske.", "quantifier": "exact real arithmetic; every LAPACK/NumPy backend obeying its documented contract; all A_ske", "why_tests_cant": "Unit tests try a handful of seeded matrices of fixed sizes; the claim is over every size, matrix, sketch and backend.", "anchors": ["parla/comps/preconditioning.py:svd_right_precond"]}
{"id": "C27", "title": "PCG log is truthful and the stopping rule is what the code says", "statement": "pcg never takes more than iter_lim steps; the i-th logged value is the true residual norm ||rhs - mat x_i||_2 of its i-th iterate (even though the residual is updated by a recurrence in 9 of 10 steps); it stops exactly at the first iterate whose true residual norm is <= tol*||rhs - mat x0||, or after iter_lim steps; mat and rhs are not required to be definite for this.", "quantifier": "exact real arithmetic; every LAPACK/NumPy backend obeying its documented contract; all linear mat, all preconditioners, rhs, x0, tol, iter_lim", "why_tests_cant": "Agreement of a recurrence with the quantity it stands for, at every step of every run.", "anchors": ["parla/comps/determiter/pcg.py:pcg"]}
{"id": "C28", "title": "PCG converges in at most n steps with monotone energy error", "statement": "For symmetric positive (semi)definite mat, rhs - mat x0 in its range, and a positive definite preconditioner, the energy-norm error decreases strictly at every step until the residual is 0, residuals are mutually conjugate, and with iter_lim >= n and tol >= 0 pcg returns x with ||rhs - mat x|| <= tol*||rhs - mat x0||.", "quantifier": "exact real arithmetic; every LAPACK/NumPy backend obeying its documented contract; all n, mat, rhs, x0, preconditioners", "why_tests_cant": "Finite termination is a statement about all histories and all dimensions.", "anchors": ["parla/comps/determiter/pcg.py:pcg"]}
{"id": "C29", "title": "PcSS1 solves the saddle point system", "statement": "PcSS1 returns (x, y, errors) with y = b - A x exactly, errors[i] = ||(A'A+delta I)x_i - (A'b - c)||_2, at most iter_lim of them; if iter_lim >= n it returns x with normal-equation residual <= tol times the initial one, and if that residual is 0 then (x,y) solves the block system. A None b or c acts as zero, b with several columns or upper_tri=True raises NotImplementedError.", "quantifier": "exact real arithmetic; every LAPACK/NumPy backend obeying its documented contract; all A, b, c, delta >= 0, R full column rank, z0, tol, iter_lim", "why_tests_cant": "Unit tests try a handful of seeded matrices of fixed sizes; the claim is over every size, matrix, sketch and backend.", "anchors": ["parla/comps/determiter/saddle.py:PcSS1.__call__"]}
{"id": "C30", "title": "LSQR reports true normal-equation residuals", "statement": "For every linear operator A, b and starting point x0 (damp = 0), the i-th entry of LSQR's returned error history equals ||A'(b - A x_i)||_2 for its i-th iterate x_i (x_0 being the starting point), although it is computed by scalar recurrences.", "quantifier": "exact real arithmetic; every LAPACK/NumPy backend obeying its documented contract; all A, b, x0, tolerances, iter_lim", "why_tests_cant": "Scalar recurrence versus true quantity at each step of every run.", "anchors": ["parla/comps/determiter/lsqr.py:lsqr"]}
{"id": "C31", "title": "LSQR reports true residual norms and never increases the residual", "statement": "With damp = 0 the returned r1norm = r2norm equal ||b - A x||_2 for the returned x, and ||b - A x_i|| is non-increasing in i (so the result is never worse than the starting point).", "quantifier": "exact real arithmetic; every LAPACK/NumPy backend obeying its documented contract; all A, b, x0, tolerances, iter_lim", "why_tests_cant": "Relies on global orthogonality of the bidiagonalisation vectors over all steps.", "anchors": ["parla/comps/determiter/lsqr.py:lsqr"]}
{"id": "C32", "title": "LSQR stop codes are truthful and it terminates", "statement": "lsqr performs at most iter_lim iterations; istop=0 is returned only when A'(b-Ax0)=0 or iter_lim = 0; for b != 0 istop=1 implies ||b-Ax|| <= btol*||b|| + atol*anorm*||x-x0|| (for b = 0 it does not: the code then compares two infinities and, for atol > 0, stops after at most one iteration); istop=2 implies ||A'(b-Ax)|| <= atol*(anorm*||b-Ax|| + eps); istop=3 implies conlim <= acond + eps; istop=4 implies Ax=b, istop=5 implies A'(b-Ax)=0, istop=7 implies itn = iter_lim, and no earlier iterate passed any test. If iter_lim >= rank(A) (in particular by default) the limit is never what stops it, at most rank(A) iterations are made, and with atol=btol=conlim=0 the result is an exact least-squares solution.", "quantifier": "exact real arithmetic; every LAPACK/NumPy backend obeying its documented contract; all A, b, x0, atol, btol, conlim, iter_lim", "why_tests_cant": "Ordering of eight overriding tests and finite termination over all dimensions.", "anchors": ["parla/comps/determiter/lsqr.py:lsqr"]}
{"id": "C33", "title": "LSQR's update lies in the row space", "statement": "The returned x satisfies x - x0 in range(A'); hence if A'(b-Ax)=0 and x0 is None, x is the minimum-norm least squares solution.", "quantifier": "exact real arithmetic; every LAPACK/NumPy backend obeying its documented contract; all A, b, x0, tolerances, iter_lim", "why_tests_cant": "Unit tests try a handful of seeded matrices of fixed sizes; the claim is over every size, matrix, sketch and backend.", "anchors": ["parla/comps/determiter/lsqr.py:lsqr"]}
{"id": "C34", "title": "PcSS2 dispatch and reductions", "statement": "PcSS2 with c None or 0 solves min ||Ax-b||^2+delta||x||^2 by LSQR on the preconditioned lifted operator and returns x = M z, y = b - A x, with logged errors ||(A_lift M)'(b_lift - A_lift x_i)||; with b None or 0 and c != 0 it returns y from the minimum-norm problem, and for delta > 0 the second block equation A'y - delta x = c holds exactly whatever the accuracy of y, while for delta = 0 x is all NaN; with both non-zero it raises ValueError. If LSQR reached a zero normal-equation residual, (x,y) solves the block system (delta > 0 or c = 0) and y is the minimum-norm solution of A'y = c (delta=0).", "quantifier": "exact real arithmetic; every LAPACK/NumPy backend obeying its documented contract; all A, b, c, delta >= 0, nonsingular M, tol, iter_lim, z0", "why_tests_cant": "Unit tests try a handful of seeded matrices of fixed sizes; the claim is over every size, matrix, sketch and backend.", "anchors": ["parla/comps/determiter/saddle.py:PcSS2.__call__"]}
{"id": "C35", "title": "Embedding dimension checks", "statement": "dim_checks returns d with n_cols <= d <= n_rows and d = min(int(sampling_factor*n_cols), n_rows), warning iff it clamps, or raises AssertionError exactly when n_rows < n_cols or int(sampling_factor*n_cols) < n_cols.", "quantifier": "all sampling factors, n_rows, n_cols", "why_tests_cant": "Boundary logic for all values.", "anchors": ["parla/drivers/least_squares.py:dim_checks"]}
{"id": "C36", "title": "SSO1 solves the sketched regularised problem", "statement": "SSO1 returns x minimising ||S(Ax-b)||^2 + delta||x||^2 (minimum norm among minimisers); if S acts as an isometry it is an exact minimiser of the unsketched problem; if S'S is within [1-eps,1+eps] on span(A,b), its objective is within (1+eps)/(1-eps) of the optimum. Non-NaN tol and iter_lim > 1 each cause one warning and are otherwise ignored.", "quantifier": "exact real arithmetic; every LAPACK/NumPy backend obeying its documented contract; all A, b, delta >= 0, sketches S", "why_tests_cant": "Unit tests try a handful of seeded matrices of fixed sizes; the claim is over every size, matrix, sketch and backend.", "anchors": ["parla/drivers/least_squares.py:SSO1.__call__", "parla/drivers/least_squares.py:sso1"]}
{"id": "C37", "title": "SPO: the three preconditioner modes agree and the result is never worse than zero", "statement": "SPO's QR, Cholesky and SVD modes all yield a preconditioner M with M M' = (A_ske'A_ske + delta I)^{-1} whenever that matrix is nonsingular and the same sketch-and-solve start x_ske; SPO starts LSQR from x_ske only if its objective is below that of 0; the returned x has objective ||Ax-b||^2+delta||x||^2 <= ||b||^2; an unknown mode raises ValueError.", "quantifier": "exact real arithmetic; every LAPACK/NumPy backend obeying its documented contract; all A, b != 0, delta >= 0, sketches, tol, iter_lim, modes", "why_tests_cant": "Unit tests try a handful of seeded matrices of fixed sizes; the claim is over every size, matrix, sketch and backend.", "anchors": ["parla/drivers/least_squares.py:SPO.__call__"]}
{"id": "C38", "title": "SPO solves the regularised least squares problem", "statement": "If the preconditioner is nonsingular and LSQR ends with zero preconditioned normal-equation residual, SPO's x is the minimiser of ||Ax-b||^2 + delta||x||^2; in general the last logged error is ||M'(A'(Ax-b)+delta x)|| at the last logged iterate.", "quantifier": "exact real arithmetic; every LAPACK/NumPy backend obeying its documented contract; all A, b, delta >= 0, sketches, modes", "why_tests_cant": "Unit tests try a handful of seeded matrices of fixed sizes; the claim is over every size, matrix, sketch and backend.", "anchors": ["parla/drivers/least_squares.py:SPO.__call__"]}
{"id": "C39", "title": "SPU1 computes the minimum-norm solution", "statement": "For c != 0, SPU1 returns y in range(A); if LSQR ended with zero normal-equation residual and the sketch has full column rank then A'y = c and y has minimum norm among all solutions; with tol = 0, iter_lim >= n and a well-conditioned sketch it always gets there. For c = 0 it raises TypeError instead of returning y = 0 (c = 0 is dispatched to the overdetermined branch with b = None).", "quantifier": "exact real arithmetic; every LAPACK/NumPy backend obeying its documented contract; all A, c, sketches, tol, iter_lim", "why_tests_cant": "The failing input c = 0 is a boundary case.", "anchors": ["parla/drivers/least_squares.py:SPU1.__call__", "parla/comps/determiter/saddle.py:PcSS2.__call__"]}
{"id": "C40", "title": "SPS2 reduces the saddle system to least squares correctly", "statement": "If the (lifted) sketch has full column rank, SPS2's b_aug satisfies A_aug' b_aug = A'b - c, so every minimiser of ||A_aug x - b_aug|| solves (A'A+delta I)x = A'b - c and, with the returned y = b - A x, the block system; the returned y always equals b - A x; the LSQR start is used only if its residual is below ||b_aug||.", "quantifier": "exact real arithmetic; every LAPACK/NumPy backend obeying its documented contract; all A, b, c, delta >= 0, sketches", "why_tests_cant": "Unit tests try a handful of seeded matrices of fixed sizes; the claim is over every size, matrix, sketch and backend.", "anchors": ["parla/drivers/saddlesys.py:SPS2.__call__"]}
{"id": "C41", "title": "SPS1 solves the saddle system for every sampling factor", "statement": "SPS1 (sketched SVD or either Nystrom strategy) hands PcSS1 a preconditioner with the documented form, starts from the presolve point only if it beats 0 in the preconditioned residual, and returns (x,y,log) with y = b - A x and normal-equation residual <= tol times the initial residual whenever iter_lim >= n.", "quantifier": "exact real arithmetic; every LAPACK/NumPy backend obeying its documented contract; all A, b, c, delta >= 0, sampling factors, sketches with nonzero singular values, tol, iter_lim", "why_tests_cant": "Unit tests try a handful of seeded matrices of fixed sizes; the claim is over every size, matrix, sketch and backend.", "anchors": ["parla/drivers/saddlesys.py:SPS1.__call__"]}
{"id": "C42", "title": "Solver log is well formed", "statement": "wrap_up(iter_errors, init_error) sets times and errors to arrays of equal length iters+1, errors = [init_error] ++ iter_errors, times[0] = sketch+factor+convert time, times non-decreasing if all component times are >= 0, and (iters >= 2) times[-1] = setup+presolve+iterate.", "quantifier": "all iteration counts, errors and non-negative times", "why_tests_cant": "All lengths including 0 and 1.", "anchors": ["parla/comps/determiter/logging.py:SketchAndPrecondLog.wrap_up"]}
{"id": "C43", "title": "Logging and solves that need no iterations", "statement": "A logged SPO solve returns the same point as the unlogged one, with a log, exactly when its starting point is not already a minimiser; if the starting point is a minimiser (for example whenever b is orthogonal to range(A)) the unlogged call returns that point and the logged call raises ValueError, because lsqr returns a 0-dimensional error value and wrap_up cannot concatenate it.", "quantifier": "exact real arithmetic; every LAPACK/NumPy backend obeying its documented contract; all A, b with A'(b - A x0) = 0", "why_tests_cant": "Zero-iteration boundary of all inputs.", "anchors": ["parla/comps/determiter/lsqr.py:lsqr", "parla/comps/determiter/logging.py:SketchAndPrecondLog.wrap_up", "parla/comps/determiter/saddle.py:PcSS2.__call__"]}
{"id": "C44", "title": "SJLT operator structure", "statement": "sjlt_operator returns an n_rows-by-n_cols matrix; if n_cols >= n_rows >= vec_nnz each column has exactly vec_nnz nonzeros, each +-1/sqrt(vec_nnz), so unit norm; if n_rows > n_cols >= vec_nnz the same holds for each row; a warning is issued exactly when the short dimension is smaller than the number of nonzeros requested after clamping.", "quantifier": "all shapes, vec_nnz >= 1 and all generator outputs (index choices without replacement, uniforms)", "why_tests_cant": "All random outcomes.", "anchors": ["parla/utils/sketching.py:sjlt_operator"]}
{"id": "C45", "title": "SJLT operator is an isometry in expectation", "statement": "Averaged over the random signs, S'S is the identity for n_cols >= n_rows, whatever rows were chosen (even with replacement).", "quantifier": "all shapes, vec_nnz, row choices", "why_tests_cant": "An expectation cannot be settled by samples.", "anchors": ["parla/utils/sketching.py:sjlt_operator"]}
{"id": "C46", "title": "Sparse sign operator structure and retry bound", "statement": "sparse_sign_operator draws at most 11 masks; it raises RuntimeError exactly when the first 11 are all empty; otherwise the result's nonzero pattern is the first non-empty mask read in row-major order and every nonzero is +-1/sqrt(min(n_rows,n_cols)*density).", "quantifier": "all shapes, densities > 0, generator outputs", "why_tests_cant": "All random outcomes.", "anchors": ["parla/utils/sketching.py:sparse_sign_operator"]}
{"id": "C47", "title": "SRCT operator: adjoint and tight frame", "statement": "The operator returned by srct_operator for n_cols >= n_rows satisfies <S x, y> = <x, S* y> for all x, y and S S* = (n_cols/n_rows) I; for n_rows > n_cols the transposed statements hold; the permutation is undone exactly by the adjoint.", "quantifier": "exact real arithmetic; every LAPACK/NumPy backend obeying its documented contract; all shapes, restrictions r without repetition, sign vectors, permutations", "why_tests_cant": "Index gymnastics with argsort and scatter for all permutations.", "anchors": ["parla/utils/sketching.py:generate_srct", "parla/utils/sketching.py:apply_srct", "parla/utils/sketching.py:srct_operator"]}
{"id": "C48", "title": "Sampling operator: which coordinates it selects", "statement": "sampling_operator(r,c,rng,indices) with r <= c returns an operator whose products take the coordinates (rows) at exactly the given indices in the given order without touching rng, and for distinct indices satisfies S S' = I with matvec/rmatvec mutually adjoint (with repeated indices rmatvec is not the adjoint); with indices=None the coordinates are one sorted draw without replacement from rng. A wrong number of indices raises AssertionError, an out-of-range index IndexError. With r > c the given indices are NOT honoured: they only seed a fresh generator that draws new ones, and the result is the transpose of that selection. The adjoint product with a 2-d array (wide) / forward product (tall) always raises TypeError.", "quantifier": "all shapes, indices, generator states", "why_tests_cant": "Depends on orientation and on ignored arguments.", "anchors": ["parla/utils/sketching.py:sampling_operator"]}
{"id": "C49", "title": "Orthonormal operator", "statement": "orthonormal_operator returns S with orthonormal columns (n_rows >= n_cols) or orthonormal rows (n_rows < n_cols) whenever the Gaussian draw has full rank, and S is the unique orthonormal factor of the draw with positive diagonal in its QR factorisation, independent of the QR backend's sign choices and equivariant under rotations of the draw; a rank-deficient draw gives a zero column (row), and empty shapes raise ZeroDivisionError.", "quantifier": "exact real arithmetic; every LAPACK/NumPy backend obeying its documented contract; all shapes and draws", "why_tests_cant": "Unit tests try a handful of seeded matrices of fixed sizes; the claim is over every size, matrix, sketch and backend.", "anchors": ["parla/utils/sketching.py:orthonormal_operator"]}
{"id": "C50", "title": "Sketch operator generators", "statement": "Calling a SketchOpGen class ON, GA, SJ, TC or IN with (n_rows, n_cols, rng) returns an operator of that shape whose matvec and rmatvec are those of one matrix and its transpose (wide IN with repeated indices excepted); ON, GA and SJ return the array built by the corresponding utility with the stored parameters and raise what it raises. The base class raises NotImplementedError, and SkOpSS returns None (the operator is drawn and discarded).", "quantifier": "all shapes, parameters and generator states", "why_tests_cant": "A missing return statement is invisible unless that class is called.", "anchors": ["parla/comps/sketchers/oblivious.py:SkOpSS", "parla/comps/sketchers/oblivious.py:SkOpGA", "parla/comps/sketchers/oblivious.py:SkOpSJ"]}
{"id": "C51", "title": "Log-linear and log-log fits are optimal", "statement": "loglinear_fit and loglog_fit drop exactly the samples with y <= 0 (one warning iff there are any), return the minimum-norm least-squares coefficients (intercept first) for log(y) against [1,x] (resp. [1,log x]), and r2 is nan exactly when all retained log(y) are equal, otherwise 0 <= r2 <= 1 with r2 = 1 iff the line passes through every retained point; if the retained data follow the model and x is not constant the exact coefficients are returned. Different lengths raise AssertionError; loglog_fit raises ValueError exactly when a retained x <= 0.", "quantifier": "exact real arithmetic; every LAPACK/NumPy backend obeying its documented contract; all sample vectors", "why_tests_cant": "Unit tests try a handful of seeded matrices of fixed sizes; the claim is over every size, matrix, sketch and backend.", "anchors": ["parla/utils/stats.py:loglinear_fit", "parla/utils/stats.py:loglog_fit"]}
{"id": "C52", "title": "LU, QR and pseudoinverse wrappers", "statement": "lupt(M) returns (L,U,P) with M = L U P' and M P = L U, lup(M) returns (L,U,P) with M = L U P, L lower trapezoidal, U unit upper trapezoidal and P a permutation matrix; lu_stabilize(S) and orth(S) have range containing range(S), equal to it for a full column rank S, and orth(S) has orthonormal columns; apply_pinv_on_left/right multiply by the Moore-Penrose pseudoinverse for every operator, whatever its rank.", "quantifier": "exact real arithmetic; every LAPACK/NumPy backend obeying its documented contract; all M, S", "why_tests_cant": "Unit tests try a handful of seeded matrices of fixed sizes; the claim is over every size, matrix, sketch and backend.", "anchors": ["parla/utils/linalg_wrappers.py:lupt", "parla/utils/linalg_wrappers.py:lup", "parla/utils/linalg_wrappers.py:lu_stabilize", "parla/utils/linalg_wrappers.py:orth", "parla/utils/linalg_wrappers.py:apply_pinv_on_left", "parla/utils/linalg_wrappers.py:apply_pinv_on_right"]}
{"id": "C53", "title": "Givens rotation helper", "statement": "_sym_ortho(a,b) returns (c,s,r) with c*a + s*b = r, s*a - c*b = 0, r^2 = a^2+b^2, and c^2+s^2 = 1 unless a = b = 0.", "quantifier": "all real a, b", "why_tests_cant": "Four branches over all reals.", "anchors": ["parla/comps/determiter/lsqr.py:_sym_ortho"]}
{"id": "C54", "title": "LSQR norm estimates", "statement": "lsqr's returned xnorm equals ||x - x0||_2 (which is ||x|| only when no starting point is given), and its returned anorm satisfies anorm^2 <= ||A||_F^2 + itn*damp^2, so with damp = 0 and atol >= 0 stop code 1 (b nonzero) implies ||b - Ax|| <= btol*||b|| + atol*||A||_F*||x - x0|| and stop code 2 implies ||A'(b - Ax)|| <= atol*(||A||_F*||b - Ax|| + eps), eps being the machine constant the code adds in the denominator of its test. The returned acond (damp = 0) is at most ||A||_F*sqrt(itn)/sigma for every sigma > 0 with ||Az|| >= sigma*||z|| on the row space of A.", "quantifier": "exact real arithmetic; all A, b, x0, damp, tolerances, iter_lim", "why_tests_cant": "The estimates come from scalar recurrences over an unbounded number of iterations; tests only compare a few runs within floating point tolerance.", "anchors": ["parla/comps/determiter/lsqr.py:lsqr"]}
{"id": "C55", "title": "Gaussian operator scaling", "statement": "gaussian_operator(r,c,rng) with normalize=True is sqrt(1/min(r,c)) times an r x c standard normal draw (ZeroDivisionError when r or c is 0); if the entries of the draw are independent standard normals then E[S'S] = I when c >= r and E[SS'] = I when r >= c.", "quantifier": "all shapes; every probability space carrying independent standard normal entries", "why_tests_cant": "The expectation is an integral over the sample space; tests see single draws.", "anchors": ["parla/utils/sketching.py:gaussian_operator"]}
{"id": "C56", "title": "sso1 with its default sketch", "statement": "For delta >= 0, sso1(A,b,delta,rng,sampling_factor=3,vec_nnz=8) raises AssertionError when A is wide or int(sampling_factor*n) < n, and otherwise (n >= 1) returns on every generator state the minimum-norm minimiser of ||S(Ax-b)||^2 + delta||x||^2 where S has d = min(int(sampling_factor*n), m) rows and, if vec_nnz <= d, exactly vec_nnz entries +-1/sqrt(vec_nnz) per column; it warns once if d was clamped and once if d < min(m, vec_nnz), and never about tol or iter_lim.", "quantifier": "all A, b, delta >= 0, sampling factors, vec_nnz, generator states and outcomes, LAPACK backends; exact arithmetic", "why_tests_cant": "Tests draw a handful of sketches; the claim ranges over every generator outcome and shape.", "anchors": ["parla/drivers/least_squares.py:sso1", "parla/comps/sketchers/oblivious.py:SkOpSJ"]}
{"id": "C57", "title": "Possible outcomes of spo1, spo3 and spu1", "statement": "For 1 <= n <= m, int(sampling_factor*n) >= n, delta >= 0 and iter_lim >= 0: spo1 either returns x with ||Ax-b||^2+delta||x||^2 <= ||b||^2 and a log, or raises ValueError, whatever the rank of A; spo3 in mode 'qr' or 'chol' raises LinAlgError exactly when the lifted sketch lacks full column rank (never for delta > 0), raises ValueError exactly when its starting point (the sketch-and-solve point if it beats 0, else 0) already minimises the objective, and otherwise returns a point no worse than that start; an unknown mode raises ValueError; spu1 raises TypeError for c = 0, and for c != 0 returns y in range(A) (minimum-norm as soon as A'y = c) or raises ValueError, the latter only if the sketch is not well conditioned.", "quantifier": "all A, b, c, delta, tol, iter_lim, sketch parameters, generator states and outcomes, LAPACK backends; exact arithmetic", "why_tests_cant": "It bounds the set of all outcomes over every input and random draw.", "anchors": ["parla/drivers/least_squares.py:spo1", "parla/drivers/least_squares.py:spo3", "parla/drivers/least_squares.py:spu1"]}
{"id": "C58", "title": "sps: methods, result and convergence", "statement": "sps with method='pcg' returns y = b - A x with a log that starts with ||A'b-c|| and continues with the true normal-equation residuals of at most iter_lim iterates; for a solvable system, int(sampling_factor*n) >= n, iter_lim >= n and a nonzero sketch (or delta > 0) the residual ends at most tol times the initial one, and tol = 0 gives an exact solution of the block system. method='lsqr' raises ValueError whenever b and c are both nonzero; otherwise it returns y = b - A x (c zero), or a y in range(A) with A'y - delta x = c exactly (delta > 0) or x all NaN (delta = 0). Any other method raises ValueError.", "quantifier": "all A, b, c, delta >= 0, tol >= 0, iter_lim, sketch parameters, generator states and outcomes, LAPACK backends; n*eps < 1 for convergence; exact arithmetic", "why_tests_cant": "Convergence for every matrix and every random sketch cannot be sampled.", "anchors": ["parla/drivers/saddlesys.py:sps", "parla/drivers/saddlesys.py:SPS1"]}
{"id": "C59", "title": "Gaussian sketches succeed almost surely", "statement": "When the normals drawn by the call are independent standard normals, then with probability one over the draw: rf1 (p>=1) returns k orthonormal columns lying in range(A) if k<=rank(A) and containing range(A) if k>=rank(A); qb (p>=2) returns k columns with B=Q'A and QB=A once k>=rank(A); qb_b_pe (p>=1, k<=rank(A)) does not raise; evd2 on a nonzero positive semidefinite matrix does not raise and returns k components when k<=rank(A), rank(A)-1 otherwise; osid1, tsid1, cur1 do not meet a singular factor, and are exact when k=rank(A); orthonormal_operator has orthonormal columns (rows when wide).", "quantifier": "all matrices A, admissible k, oversampling and pass counts, all factorisation backends meeting the documented contracts, and almost every array of Gaussian draws (every array outside a set of probability zero)", "why_tests_cant": "A test samples finitely many draws; a null set of bad draws, and a positive-probability set that is merely rare, look the same to it.", "anchors": ["parla/comps/rangefinders.py: rf1, RF1", "parla/comps/qb.py: qb, qb_b_pe", "parla/drivers/evd.py: evd2", "parla/drivers/interpolative.py: osid1, tsid1, cur1", "parla/utils/sketching.py: gaussian_operator, orthonormal_operator"]}
{"id": "C60", "title": "Sketched least squares keep their promise when the sketch keeps the rank; Gaussian sketches do so almost surely", "statement": "If the sketched matrix S A has full column rank and b = A xs, SSO1 with delta=0 returns xs, and SPO in mode 'qr' or 'chol' returns xs for every iter_lim when not logging (and raises ValueError when logging, there being no iteration to log). With a Gaussian sketch, 1 <= n <= m, int(sampling_factor*n) >= n and A of full column rank, for almost every draw: these hold for every xs at once, and for every b, delta >= 0, tol, iter_lim >= 0, SPO in mode 'qr' or 'chol' never raises LinAlgError: it returns x with ||Ax-b||^2+delta||x||^2 <= ||b||^2, or (only when logging) raises ValueError.", "quantifier": "all A, b, xs, delta, tol, iter_lim, sampling factors, factorisation backends; all sketches keeping the rank, and almost every array of Gaussian draws", "why_tests_cant": "The exceptional set has probability zero; finitely many seeds cannot tell it from a rare positive-probability event, nor cover all right-hand sides.", "anchors": ["parla/drivers/least_squares.py: SSO1, SPO", "parla/utils/sketching.py: gaussian_operator", "parla/comps/sketchers/oblivious.py: SkOpGA"]}
{"id": "C61", "title": "How close the rangefinder and QB come to the best rank-k approximation, and the rate in the number of passes", "statement": "For a singular value decomposition A = U diag(s) V': no matrix of rank <= k, in particular not QQ'A for the Q of rf1(A,k,p) nor QB of qb(p,A,k), has squared Frobenius error below sum_{i>=k} s_i^2. If the first t singular values are positive and s_i <= tau s_j for i >= t > j, then ||A-QQ'A||^2 <= sum_{i>=t} s_i^2 + tau^(2(p-1)) ||diag(0..0,s_t..) Omega W||^2 for every right inverse W of the first t rows of Omega = V'S0 (U'S0 for even p), S0 the start the call draws; the same for qb with p-2. With k Gaussian columns, for almost every draw there is one constant C so that the squared error of rf1 is within tau^(2(p-1)) C of optimal for every number of passes p.", "quantifier": "all A with any singular value decomposition, all k, t, tau, numbers of passes, factorisation backends and generators; almost every Gaussian draw for the rate", "why_tests_cant": "An error bound over all matrices and a convergence rate over all pass counts, for almost every draw, is not a finite check.", "anchors": ["parla/comps/rangefinders.py: rf1, RF1", "parla/comps/sketchers/aware.py: RS1", "parla/comps/qb.py: qb, QB1"]}
{"id": "C62", "title": "SVD1 and EVD1 are optimal up to the error of their QB step and their cutoff", "statement": "If the QB step returns orthonormal Q with B=Q'A, the factors U, S, Vh that SVD1 returns for target rank k satisfy sum_{i>=k} s_i^2 <= ||A-U S Vh||^2 <= sum_{i>=k} s_i^2 + ||A-QB||^2 + (10 eps)^2 min(c,n), where s are the singular values of A and c the number of columns of Q. For symmetric A, EVD1 satisfies sqrt(sum_{i>=k} s_i^2) <= ||A-V diag(lamb) V'|| <= sqrt(2) ||A-QB|| + sqrt(sum_{i>=k} s_i^2 + (10 eps)^2 c).", "quantifier": "all A with any singular value decomposition, target ranks, tolerances, oversamplings, QB components and factorisation backends", "why_tests_cant": "Near-optimality must hold for every matrix and every QB outcome; tests compare a few matrices with known spectra.", "anchors": ["parla/drivers/svd.py: SVD1", "parla/drivers/evd.py: EVD1"]}
{"id": "C63", "title": "The blocked algorithms qb_b, svd1 and evd1 with Gaussian sketches, almost surely", "statement": "With inner_num_pass >= 2, for almost every sequence of Gaussian draws (one array per block): qb_b(A,k) returns with min(k,m,n) columns or the tolerance met, the residual A-QB has rank exactly rank(A) minus the number of columns, Q is orthonormal with B=Q'A if k <= rank(A) or everything fits in one block, and if k >= rank(A) every tolerance is met (QB=A without one). svd1 and evd1 (1<=k<=n, symmetric A, tol >= 0 or nan) return; if k+over <= rank(A) or everything fits in one block their factors are valid (orthonormal, sorted, above 10 eps, at most k) and, if moreover k+over >= rank(A), a best rank-k approximation up to the tolerance and the dropped values. Without oversampling and with k >= rank(A), the error of svd1 is at most tol*||A|| + 10 eps min(k,m,n), whatever the number of blocks.", "quantifier": "all A, k, over, tolerances, block sizes, numbers of passes, factorisation backends and generators; almost every sequence of Gaussian arrays, the i-th block using the i-th array", "why_tests_cant": "Each block's sketch acts on the residual left by the earlier ones, so the exceptional set is over sequences of draws and has probability zero; no finite number of seeds covers it.", "anchors": ["parla/comps/qb.py: qb_b, QB2", "parla/drivers/svd.py: svd1", "parla/drivers/evd.py: evd1"]}
{"id": "C64", "title": "Sketch-and-solve least squares with a Gaussian sketch: unbiased, with an exact expected residual", "statement": "Let A have full column rank, xs be the least squares solution and d = min(int(sampling_factor*n), m) >= n+2. For almost every Gaussian draw SSO1(A,b,0) returns a function X of the draw; the mean of X is xs, and the mean of ||AX-b||^2 is exactly (1 + n/(d-n-1)) times the optimal value; except for draws of probability at most eps it is at most 1 + n/((d-n-1) eps) times the optimal value. SPO in the QR or Cholesky mode, for every iter_lim >= 0, returns a point whose squared residual is bounded by a function of the draw with the same mean (or raises ValueError when logging).", "quantifier": "all full-rank A, all b, sampling factors, iteration limits, tolerances, factorisation backends and generators; the mean is over the law of the Gaussian array drawn", "why_tests_cant": "Unbiasedness and the exact constant are statements about an integral over a continuous law for every A and b; sampling estimates them for one problem at a time.", "anchors": ["parla/drivers/least_squares.py: SSO1, SPO", "parla/utils/sketching.py: gaussian_operator"]}
{"id": "C65", "title": "Expected error of the Gaussian-sketch low-rank routines", "statement": "Let s be the singular values of A, with s_i <= tau s_j for i >= t > j, and t+2 <= k <= min(m,n). Over the Gaussian draw, the mean of ||A-QQ'A||_F^2 for rf1(A,k,p) is at most (sum_{i>=t} s_i^2)(1 + tau^(2(p-1)) t/(k-t-1)), so with `over` >= 2 extra columns and one pass at most 1+k/(over-1) times the best rank-k error; by Markov the bound over delta holds outside an event of probability at most delta. The same bound, with exponent 2(p-2), holds for qb, for qb_b with W columns in place of k, where W = min(k,m,n) when p = 2 and W = the width of the first block when p > 2 (the first-block bound holds for all runs, also those stopped early by the tolerance), and carries over to svd1 (plus sum_{i>=k} s_i^2 and the dropped values) and evd1 (sqrt(2) times its root plus the best error). qb_b_pe(A,k,p,tol) with k < min(m,n), k <= rank(A): almost surely it returns, either with all k columns, and then the bound of rf1(A,k,p) (same exponent 2(p-1)) holds for ||A-QB||_F^2, or early with ||A-QB||_F <= tol ||A||_F.", "quantifier": "all A with any singular value decomposition, all k, t, tau, p, block sizes, oversamplings, tolerances, factorisation backends and generators; the mean is over the law of the Gaussian arrays drawn", "why_tests_cant": "An expectation over a continuous law, for every spectrum: a finite number of seeds gives a noisy estimate for a few matrices.", "anchors": ["parla/comps/rangefinders.py: rf1", "parla/comps/qb.py: qb, qb_b", "parla/drivers/svd.py: svd1", "parla/drivers/evd.py: evd1", "parla/utils/sketching.py: gaussian_operator"]}
{"id": "C66", "title": "Convergence rate of pcg and PcSS1", "statement": "For symmetric positive semidefinite mat, a positive definite preconditioner N and a consistent system, the point pcg returns after k logged iterations has an energy-norm error no larger than that of p(N mat)(x0-xs) for every polynomial p of degree <= k with p(0)=1; if the nonzero eigenvalues of N mat lie in [lo,hi] it is at most 2((sqrt hi - sqrt lo)/(sqrt hi + sqrt lo))^k times the initial one, so with limit L either the tolerance is met or the bound holds with k = L. PcSS1 with a square R obeys the same bound whenever lo|z|^2 <= |ARz|^2+delta|Rz|^2 <= hi|z|^2; PcSS1 with a low-rank R made of exact spectral information (orthogonal eigenvectors of A'A scaled by the inverse singular values, the rest of the spectrum flat at the last one) solves the system in one iteration for every delta.", "quantifier": "all matrices, preconditioners, right-hand sides, starting points, iteration limits, tolerances and polynomials", "why_tests_cant": "A bound over all polynomials and spectra, for every iteration count; tests observe a few runs.", "anchors": ["parla/comps/determiter/pcg.py: pcg", "parla/comps/determiter/saddle.py: PcSS1"]}
{"id": "C67", "title": "Convergence rate of lsqr and of the sketch-and-precondition drivers", "statement": "After the k iterations it reports, the error of the point lsqr returns has energy |Fe|^2+damp^2|e|^2 no larger than that of p(F'F+damp^2 I)(x0-xs) for every polynomial p of degree <= k with p(0)=1; if the singular values of F squared (nonzero ones, or all of them with damping) lie in [lo,hi], the excess of the objective over its minimum is at most (2((sqrt hi - sqrt lo)/(sqrt hi + sqrt lo))^k)^2 times that of the start. For the drivers, when the drawn sketch distorts squared norms on the range of A by at most 1\u00b1eps: SPO's excess objective after k logged iterations is at most (2 eps^k)^2 times that of its start, and with iteration limit L either this holds with k=L or one of the two tolerance tests is met with an explicit bound (with tolerance 0 always the former); SPS1's energy error is at most (2 eps^k)^2 times that of its start; SPU1's squared distance to the minimum-norm solution is at most (2 eps^k)^2 (1+eps)/(1-eps) |y*|^2.", "quantifier": "all matrices, right-hand sides, dampings, tolerances, limits, starting points and polynomials", "why_tests_cant": "A bound over all polynomials and spectra, for every iteration count; tests observe a few runs.", "anchors": ["parla/comps/determiter/lsqr.py: lsqr", "parla/comps/determiter/saddle.py: PcSS2", "parla/drivers/least_squares.py: SPO", "parla/drivers/saddlesys.py: SPS1", "parla/drivers/least_squares.py: SPU1"]}
{"id": "C68", "title": "Gaussian sketches are subspace embeddings with high probability, and what follows for SSO1, SPO and SPU1", "statement": "For every subspace of dimension r and 0<=eps<=1, except for draws of probability at most 2*9^r*exp(-d eps^2/32) (whatever the ambient dimension) the d-row Gaussian operator changes no squared norm in the subspace by more than a factor 1+-eps; (32/eps^2)(r log 9 + log(2/p)) rows make this at most p. Hence, except with that probability (r = n or n+1): SPO with QR or Cholesky mode, tolerance 0 and limit L succeeds and returns x with f(x)-min f <= (2 eps^L)^2 (|b|^2-min f), and f(x) <= (1+8 eps^(2L+1)/(1-eps)) min f; SSO1 returns x with f(x) <= (1+eps)/(1-eps) min f; SPU1 returns a point at squared distance at most (2 eps^L)^2 (1+eps)/(1-eps)|y*|^2 from the minimum-norm solution.", "quantifier": "all matrices, right-hand sides, dampings, limits, backends and random generators; the draws outside an explicit small event", "why_tests_cant": "A probability over continuous draws and a bound uniform over a whole subspace; a test sees a few seeds and a few vectors.", "anchors": ["parla/utils/sketching.py: gaussian_operator", "parla/comps/sketchers/oblivious.py: SkOpGA", "parla/drivers/least_squares.py: SSO1, SPO, SPU1"]}
{"id": "C69", "title": "lsqr's variance estimates", "statement": "calc_var=True changes nothing of lsqr's outcome but var (also for operators whose products raise), and var is zero with calc_var=False. With calc_var=True, for K = A'A + damp^2 I: every entry of var is nonnegative and never exceeds the diagonal entry of K^-1 it estimates (for singular K: var_i <= z_i whenever K z = e_i), grows with the iteration limit, and equals the diagonal of K^-1 exactly after n iterations; acond = anorm * sqrt(sum(var)).", "quantifier": "all operators, right-hand sides, dampings, tolerances, limits and starting points", "why_tests_cant": "An inequality for every matrix and every stopping point of the iteration; a test sees a few converged runs.", "anchors": ["parla/comps/determiter/lsqr.py: lsqr (calc_var, var)"]}
{"id": "C70", "title": "sjlt_operator is a subspace embedding with high probability, and what follows for sso1, spo1, spo3 and spu1", "statement": "If each column's nonzero positions are a uniform draw without replacement and the signs are independent and fair, then for every subspace of dimension r, 1<=vec_nnz<=d<=m and eps>0, except for draws of probability at most (r^2+r)/(d eps^2) (whatever m and vec_nnz), the d x m operator that sjlt_operator returns changes no squared norm in the subspace by more than a factor 1+-eps; (r^2+r)/(eps^2 p) rows make this at most p. Hence, except with that probability (r = n or n+1): spo3 ('qr' or 'chol') and, for a matrix conditioned well enough, spo1, called with tolerance 0 and limit L, return x with f(x)-min f <= (2 eps^L)^2 (|b|^2-min f) and f(x) <= (1+8 eps^(2L+1)/(1-eps)) min f, or raise ValueError because their start is already optimal; sso1 returns x with f(x) <= (1+eps)/(1-eps) min f; spu1 returns, after k iterations, a point at squared distance at most (2 eps^k)^2 (1+eps)/(1-eps)|y*|^2 from the minimum-norm solution.", "quantifier": "all matrices, right-hand sides, dampings, limits, backends and random generators; the draws outside an explicit small event", "why_tests_cant": "A probability over the operator's draws and a bound uniform over a whole subspace; a test sees a few seeds and a few vectors.", "anchors": ["parla/utils/sketching.py: sjlt_operator", "parla/drivers/least_squares.py: sso1, spo1, spo3, spu1"]}
{"id": "C71", "title": "Generators of test problems deliver the spectra and solutions they promise", "statement": "rand_low_rank(m,n,spectrum,rng) with 1<=r<=min(m,n) nonnegative entries, largest positive, returns factors that are a singular value decomposition of the matrix returned, with singular values the entries divided by the largest in decreasing order (for full-rank draws, i.e. almost surely); an int is a request for that many uniforms; an empty spectrum raises IndexError and a negative int ValueError; with more than min(m,n) entries the factors are never both orthonormal. exponent_spectrum and s_shaped_spectrum with argument rank return a matrix of rank rank-1, with singular values exp(-i/|param|) resp. the scaled logistic values, and raise IndexError for rank<=1. simple_mat returns the Gaussian draw with column j divided by sqrt(1+scale j), of full column rank iff the draw is. make_demo_helper and resample_b return a right-hand side whose minimum-norm least-squares solution is x_opt, whose component in the range of A has norm |prop_range||mean(spectrum)| and whose optimal residual has norm |1-prop_range||mean(spectrum)|.", "quantifier": "all dimensions, spectra, parameters, backends and random generators", "why_tests_cant": "The tests use these generators as ground truth for a handful of seeds; that the ground truth is right for every size, spectrum and draw is not itself tested.", "anchors": ["parla/tests/matmakers.py: rand_low_rank, simple_mat, exponent_spectrum, s_shaped_spectrum", "notebooks/least_squares/helpers.py: make_demo_helper, LSDemoHelper"]}
{"id": "C72", "title": "srct_operator is a subspace embedding with high probability, and what follows for drivers built with SkOpTC", "statement": "If the sampled rows are a uniform draw without replacement, the signs independent and fair and the permutation uniform, then for every subspace of dimension r, 1<=d<=m and eps>0, except for draws of probability at most 4(r^2+2r)/(d eps^2) (whatever m), the d x m operator that srct_operator returns changes no squared norm in the subspace by more than a factor 1+-eps. Hence, except with that probability (r = n or n+1): SSO1 with SkOpTC returns x with f(x) <= (1+eps)/(1-eps) min f; SPO with SkOpTC in mode 'qr' or 'chol' (and 'svd' for a matrix conditioned well enough), called with tolerance 0 and limit L, returns x with f(x)-min f <= (2 eps^L)^2 (|b|^2-min f), or raises ValueError because its start is already optimal; SPU1 with SkOpTC returns, after k iterations, a point at squared distance at most (2 eps^k)^2 (1+eps)/(1-eps)|y*|^2 from the minimum-norm solution.", "quantifier": "all matrices, right-hand sides, dampings, limits, backends and random generators; the draws outside an explicit small event", "why_tests_cant": "A probability over the operator's draws and a bound uniform over a whole subspace; a test sees a few seeds and a few vectors.", "anchors": ["parla/utils/sketching.py: srct_operator, generate_srct, apply_srct", "parla/comps/sketchers/oblivious.py: SkOpTC", "parla/drivers/least_squares.py: SSO1, SPO, SPU1"]}
{"id": "C73", "title": "sps and SPS1 converge at a known rate from a known start, with high probability", "statement": "If int(sampling_factor n) >= n and the sketch embeds the range of A up to 1+-eps (eps<1) with a numerically full-rank lifted sketch, the starting point x0 of SPS1 with PcSS1 satisfies |A(x0-x*)|^2+delta|x0-x*|^2 <= (1+eps)/(1-eps)(|Ax*|^2+delta|x*|^2) for every solution (x*,y*) of the block system, whichever of its two candidates it picked. Hence, for n <= d = int(sampling_factor n) <= m and A conditioned well enough, except for draws of probability at most (n^2+n)/(d eps^2) (sps with its default SJLT), 4(n^2+2n)/(d eps^2) (SPS1 with SkOpTC) or 2*9^n*exp(-d eps^2/32) (SPS1 with SkOpGA), for all b, c, delta>=0, tol>=0 and limits: the call returns x, y and a log of k+1 errors with |y-y*|^2+delta|x-x*|^2 <= (2 eps^k)^2 (1+eps)/(1-eps)(|Ax*|^2+delta|x*|^2), and with tol=0 and limit >= n it returns (x*,y*).", "quantifier": "all matrices, right-hand sides, dampings, tolerances, limits, backends and random generators; the draws outside an explicit small event", "why_tests_cant": "A probability over the draws, and an error bound for every right-hand side at once; a test sees a few seeds.", "anchors": ["parla/drivers/saddlesys.py: sps, SPS1", "parla/comps/determiter/saddle.py: PcSS1"]}
{"id": "C74", "title": "SPS2 converges at a known rate from a known start, with high probability", "statement": "Let the sketch drawn by SPS2 embed the range of A up to 1+-eps (eps<1) with a numerically full-rank lifted sketch. With PcSS1 or PcSS2 as solver, a logged call that made k iterations returns x, y with |y-y*|^2+delta|x-x*|^2 <= (2 eps^k)^2 (|Ax*|^2+delta|x*|^2) for every solution (x*,y*) of the block system. If moreover n sqrt((1+eps)/(1-eps)) < 1e8 - eps_machine, then with tol=0 and limit L the call without logging returns, and whatever it returns meets this bound with k = L. The hypotheses hold for every right-hand side at once except for draws of probability at most (n^2+n)/(d eps^2) (SJLT), 4(n^2+2n)/(d eps^2) (SkOpTC) or 2*9^n*exp(-d eps^2/32) (SkOpGA), d = min(int(sampling_factor n), m), if A is conditioned well enough.", "quantifier": "all matrices, right-hand sides, dampings, limits, both solvers, backends and random generators; the draws outside an explicit small event", "why_tests_cant": "A probability over the draws, and an error bound for every right-hand side at once; a test sees a few seeds.", "anchors": ["parla/drivers/saddlesys.py: SPS2", "parla/comps/determiter/saddle.py: PcSS1, PcSS2"]}
{"id": "C75", "title": "evd2 is near-optimal for positive semidefinite matrices", "statement": "Whenever EVD2 returns on a positive semidefinite A (eigenvalues lam, eigenvectors V) its Frobenius error is at least that of the best rank-k approximation, and for every t, every S0 with columns in the range of the sketch and every right inverse W of the first t rows of V'S0 it is at most sum_{i>r}(lam_i+nu) + sum_{i>t}(lam_i+nu)(1+|row_i(V'S0W)|^2) + nu sqrt(n), where r is the number of components returned and nu = sqrt(n) eps |A S|_F is the regularisation. Hence, for evd2(A,k,over,p,rng) with rank(A) >= k, k+over <= n, t+2 <= k+over, and lam_i <= tau lam_j across the gap at t: for almost every array of normals the call returns k components; for p >= 2 the error is at most a function of the draw with mean sum_{i>k}lam_i + (1+tau^(2(p-1)) t/(k+over-t-1)) sum_{i>t}lam_i + sqrt(n) eps |A|_F ((n-k)+(n-t)(1+tau^(2(p-1)) t/(k+over-t-1))+sqrt(n)); and for every p >= 1 and delta > 0, except for draws of probability at most 3 delta, it is at most the same expression with the terms divided by delta (delta^(3/2) for the second).", "quantifier": "all positive semidefinite matrices, ranks, oversampling, passes, draws and backends", "why_tests_cant": "the error bound is a statement about every matrix and about the distribution of the draws; a test sees a few draws and matrices", "anchors": ["parla/drivers/evd.py: EVD2, evd2", "parla/comps/sketchers/aware.py: RS1"]}
{"id": "C76", "title": "interpolative and CUR decompositions are within an explicit factor of optimal", "statement": "The coefficients returned by qrcp_osid satisfy |X[i,j]| <= 2^(k-1-i) and |X|_F^2 <= k + (n-k)(4^k-1)/3 (columns; likewise rows), and its squared Frobenius error is at most (n-k)(4^(k+1)-1)/3 times that of every matrix of rank <= k. For OSID1 with any sketching object returning S for A': error <= sqrt(1+(n-k)(4^k-1)/3) |A - C S'A| + |C| sqrt((n-k)(4^(k+1)-1)/3) |S'A - B| for every C and every B of rank <= k; if S has orthonormal columns, error^2 <= (1+(n-k)(4^k-1)/3)|A - SS'A|^2 + (n-k)(4^(k+1)-1)/3 |A - B|^2 for every B of rank <= k; if S has at most k columns, error^2 <= (1+(n-k)(4^k-1)/3)|A - C S'A|^2 for every C. OSID2 run from the same state picks the same skeleton and its error is never larger. CUR1, with any one-sided ID that picked k independent columns, returns and its error is at most 1+sqrt(k+(m-k)(4^k-1)/3) times that of the column ID (tall; wide: rows).", "quantifier": "all matrices, ranks k, oversampling, sketching objects, one-sided ID objects, states and backends", "why_tests_cant": "a worst-case factor over all matrices; a test compares the error with a tolerance on a few random matrices, and worst cases of pivoting are rare", "anchors": ["parla/comps/interpolative.py: qrcp_osid", "parla/drivers/interpolative.py: OSID1, OSID2, CUR1"]}
{"id": "C77", "title": "randomized interpolative and CUR decompositions are near-optimal on average and with high probability", "statement": "Let 0 < k <= rank(A), k+over <= min(m,n), t <= k, t+2 <= k+over, singular values s with s_i <= tau s_j across the gap at t. For almost every array of normals osid1(A,k,over,p,axis,rng), p>=1, returns k columns (rows) and its squared Frobenius error is at most a function of the array whose mean is: over=0: (1+(n-k)(4^k-1)/3) tail_t (1+tau^(2(p-1)) t/(k-t-1)); over>0, p>=2: (1+(n-k)(4^k-1)/3) tail_t (1+tau^(2(p-2)) t/(k+over-t-1)) + (n-k)(4^(k+1)-1)/3 tail_k; over>0, p=1: tail_t (2(1+(n-k)(4^k-1)/3)(1+t/(k+over-t-1)) + 2(n-k)(4^(k+1)-1)/3 (k+over)t/(k+over-t-1)), where tail_t = sum_{i>t} s_i^2 (rows: m for n). osid2 and tsid1 obey the same bound, cur1 (p>=2) the bound for p-1 passes times (1+sqrt(k+(m-k)(4^k-1)/3))^2 (tall; wide: n). Hence, except for draws of probability delta, the squared error is at most the mean divided by delta.", "quantifier": "all matrices, ranks, oversampling, passes, draws, generators, states and backends", "why_tests_cant": "a statement about the distribution of the error over all draws and about all matrices; a test sees a few draws", "anchors": ["parla/drivers/interpolative.py: osid1, osid2, tsid1, cur1", "parla/comps/sketchers/aware.py: RS1"]}
{"id": "C78", "title": "Gaussian low-rank approximation fails with exponentially small probability", "statement": "Let s be the singular values of A, s_i <= tau s_j across a gap at t <= k, 0 < k <= min(m,n), 0 <= eps < 1. Outside a set of arrays of normals of probability at most 3*9^t*exp(-k eps^2/32), fixed in advance, every run of rf1(A,k,p,rng) that draws such an array returns an orthonormal Q with k columns and ||A-QQ'A||^2 <= (sum_{i>t} s_i^2)(1+tau^(2(p-1)) (1+eps/2)/(1-eps)); qb with p>=2 passes the same with p-2 for p-1; qb_b the same with W columns in place of k: W=min(k,m,n) without power iterations (runs that build all columns), W=the width of the first block otherwise (all runs, also those stopped early); svd1 and evd1 the corresponding bounds plus the best rank-k error and the singular values below 10 eps dropped. osid1, osid2 and cur1 with k+over columns in the sketch: probability 3*9^t*exp(-(k+over) eps^2/32), error as in C77 with t/(k+over-t-1) replaced by (1+eps/2)/(1-eps) (and (k+over)t/(k+over-t-1) by t(1+eps/2)/(1-eps)). tsid1 the same bound as its first one-sided ID; qb_b_pe with k < min(m,n), k <= rank(A): the bound of rf1 with the same p whenever it returns all k columns, and otherwise ||A-QB||_F <= tol ||A||_F. evd2 on a positive semidefinite A of rank >= k with eigenvalues l_i and k+over <= n: outside probability 4*9^t*exp(-(k+over) eps^2/32) it returns k components with error at most sum_{i>k}(l_i+nu) + (1+tau^(2(p-1)) (1+eps/2)/(1-eps)) sum_{i>t}(l_i+nu) + nu sqrt(n), nu = sqrt(n(1+eps/2)) macheps ||A||_F.", "quantifier": "all matrices, ranks, tolerances eps, passes, block sizes, draws, generators, states and backends", "why_tests_cant": "the probability is too small to be estimated by repeated runs, and the claim is for every matrix", "anchors": ["parla/drivers/svd.py: svd1", "parla/drivers/evd.py: evd1", "parla/drivers/interpolative.py: osid1, osid2, cur1", "parla/comps/rangefinders.py: rf1", "parla/comps/qb.py: qb, qb_b"]}
{"id": "C79", "title": "What a requested tolerance guarantees", "statement": "With iteration limit L and tolerance tol >= 0, whichever test stopped the iteration: pcg on a symmetric mat with eigenvalues in [klo,khi], klo>0, and a positive definite preconditioner N with the nonzero eigenvalues of N mat in [lo,hi] returns x with squared energy error at most max(tol^2 khi/klo, (2 rho^L)^2) times that of the start, rho=(sqrt hi - sqrt lo)/(sqrt hi + sqrt lo); PcSS1 the same for ||A(x-x*)||^2+delta||x-x*||^2; SPS1 (given a sketch embedding range(A) up to 1 +- e, lo||x||<=||Ax||<=hi||x||) returns ||y-y*||^2+delta||x-x*||^2 <= max(tol^2 (hi^2+delta)/(lo^2+delta), (2 e^L)^2)(1+e)/(1-e)(||Ax*||^2+delta||x*||^2), and the default sps does so except with probability (n^2+n)/(d e^2); SPU1 returns ||y-y*|| <= max(2 e^L kap, tol kap(1+sqrt n(1+kap)))||y*|| + tol(1+e)epsmach, kap=sqrt((1+e)/(1-e)), spu1 by default except with probability (n^2+n)/(d e^2); SPO returns f(x)-min f <= max((2e^L)^2||b||^2, (tol((1+2 sqrt(n(1+e)/(1-e)))||b||+2 epsmach))^2).", "quantifier": "all dense real A, right-hand sides, delta >= 0, tolerances, limits, preconditioners, sketches (or all draws outside a set of bounded probability), backends and generators", "why_tests_cant": "The stopping test looks at residuals or running estimates, not at the error; the guarantee ranges over all matrices, tolerances, limits and stopping branches.", "anchors": ["parla/comps/determiter/pcg.py:pcg", "parla/comps/determiter/saddle.py:PcSS1", "parla/drivers/saddlesys.py:SPS1", "parla/drivers/least_squares.py:SPU1", "parla/drivers/least_squares.py:SPO", "parla/drivers/least_squares.py:spu1"]}
{"id": "C80", "title": "The argument rng: seeds, reproducibility and the stream", "statement": "For rs1, rf1, qb, qb_b, qb_b_pe, svd1, evd1, evd2, rocs1, osid1, osid2, tsid1, cur1, sso1, spo1, spo3, spu1, sps, gaussian_operator and sjlt_operator: a call with rng=<int s> returns (or raises) what the call with a Generator in the state of default_rng(s) returns (or raises), rng=None what a Generator in the fresh state does, and neither touches a Generator of the caller; the algorithm objects (RS1, RF1, QB1-3, SVD1, EVD1-2, ROCS1, OSID1-2, TSID1, CUR1) called directly do the same whatever their components are; so two calls with one seed agree, and all the blocks of one seeded qb_b come from one stream that is never restarted. srct_operator takes a Generator only: an int or None raises AttributeError. With a Generator a call that returns has drawn exactly one array standard_normal((r, k)) (rs1, rf1, qb, qb_b_pe, evd2, rocs1, osid1, osid2, tsid1, cur1), one per block one after another with block sizes adding up to the number of columns returned (qb_b), or one sjlt_operator(d, m) (least squares and saddle point drivers), whatever the data.", "quantifier": "all arguments rng (None, nonnegative int, Generator), generator states, matrices, parameters, backends", "why_tests_cant": "Reproducibility, independence of a caller's generator and the amount consumed are claims about every pair of calls and every state of the generator.", "anchors": ["parla/comps/qb.py:QB2", "parla/comps/sketchers/aware.py:RS1", "parla/comps/rangefinders.py:rf1", "parla/drivers/svd.py:svd1", "parla/drivers/evd.py:evd1", "parla/drivers/interpolative.py:cur1", "parla/drivers/least_squares.py:spo3", "parla/drivers/saddlesys.py:sps", "parla/utils/sketching.py:srct_operator"]}
{"id": "C81", "title": "QB and SVD with rounding errors", "statement": "If every array operation (product, difference, economic QR, thin SVD, Frobenius norm, scalar product and difference) is accurate to a relative \u03b5 for the sizes involved, then: qb_b, for whatever the generator delivers, returns Q with columns of norm within \u03b5 of 1 and B with, for c = number of columns and \u03b8 = 7(2+\u221ac)\u03b5 \u2264 1, \u2016A - QB\u2016 and \u2016B\u2016 at most \u2016A\u2016 up to factors (1+\u03b8)^c-like, the overwritten array equal to A - QB up to ((1+\u03b8)^c - 1)\u2016A\u2016, and, if the tolerance tol stopped it, \u2016A - QB\u2016 \u2264 roundBound \u03b8 c tol \u00b7 \u2016A\u2016 \u2264 ((1+2\u03b8) tol + 5 \u221a((c+1)\u03b8)) \u2016A\u2016 (so a relative tolerance below the square root of the accumulated rounding cannot be relied on). qb with two passes satisfies the Halko\u2013Martinsson\u2013Tropp bound plus a multiple of \u03b5\u2016A\u2016 with a nearly orthonormal Q. svd1 returns ordered singular values \u2265 10 eps, nearly orthonormal Vh (and U, if Q is nearly orthonormal), and loses only the truncated part, 10 eps per dropped value and a multiple of \u03b5\u2016A\u2016 beyond the QB error. Accuracy alone does not make the Q of qb_b orthonormal across blocks: for every \u03b5 > 0 there is arithmetic accurate to \u03b5 and a call returning two columns equal up to sign; but if every block, after projecting out the earlier columns, keeps its singular values at least \u03c3 \u2265 20 \u03b5 q\u00b3 (q = 2+\u221ac), then \u2016Q'Q - I\u2016 \u2264 18 q\u00b2 \u03b5 t (1 + 4q\u00b3/\u03c3)^t for t blocks. With exact operations these routines are the ones of all other claims.", "quantifier": "all array operations satisfying the accuracy specification for some \u03b5 and dimension bound N, all matrices, target ranks, tolerances, block sizes, numbers of passes, sketch generators and generator states", "why_tests_cant": "Error bounds range over all ways the operations may round and over all inputs; a test sees one machine's rounding of one input.", "anchors": ["parla/comps/qb.py:QB1", "parla/comps/qb.py:QB2", "parla/comps/qb.py:qb_b", "parla/comps/qb.py:project_out", "parla/comps/rangefinders.py:RF1", "parla/comps/sketchers/aware.py:RS1", "parla/drivers/svd.py:SVD1"]}
{"id": "C82", "title": "Sketch-and-solve and sketch-and-precondition with rounding errors in the setup", "statement": "Let every array operation of the sketching and factorisation stages of SSO1, SPO and SPU1 (products, square root, Gram matrix, QR, Cholesky, SVD, column scaling, lstsq) be accurate to \u03b5 in the standard first-order error model, \u03b3 = \u2016S\u2016\u2016A\u2016 + \u221a\u03b4\u221an. (1) SSO1: if the sketch drawn distorts the squared residuals by at most 1\u00b1\u03b7, its x satisfies \u221a(1-\u03b7)\u221af(x) \u2264 \u221a(1+\u03b7)\u221af(z) + 3\u03b5(\u03b3(\u2016x\u2016+\u2016z\u2016) + 2\u2016S\u2016\u2016b\u2016) for every z, f(x) = \u2016Ax-b\u2016\u00b2+\u03b4\u2016x\u2016\u00b2, and (\u03bc-3\u03b5\u03b3)\u2016x\u2016 \u2264 (1+3\u03b5)\u2016S\u2016\u2016b\u2016 if the lifted sketch has singular values at least \u03bc. (2) SPO's factorisation succeeds in modes qr, chol and svd and yields a preconditioner M with (1-\u03b8)\u2016TMz\u2016\u00b2 \u2264 \u2016z\u2016\u00b2 \u2264 (1+\u03b8)\u2016TMz\u2016\u00b2 for the lifted sketch T, where the loss \u03b8 is 9\u03b5\u03ba (qr), 15\u03b5\u03ba\u00b2 (chol), 96\u03b5\u221an \u03ba (svd, given that no singular value is near the cutoff), \u03ba = \u03b3/\u03bc, whenever \u03b8 < 1. (3) Hence, if the sketch embeds the range of A up to 1\u00b1\u03b7 and \u03b7' = \u03b7+\u03b8+\u03b7\u03b8 < 1, a call of SPO without logging returns, and every returned x obeys the a priori bounds of C67 with \u03b7' in place of \u03b7, in particular with tol = 0 f(x) - min f \u2264 (2\u03b7'^L)\u00b2(f(x0) - min f): rounding while sketching and factoring slows SPO down but leaves the minimiser it converges to unchanged. (4) Likewise SPU1: after k iterations \u2016y-y*\u2016\u00b2 \u2264 (2\u03b7'^k)\u00b2 (1+\u03b7')/(1-\u03b7') \u2016y*\u2016\u00b2. With exact operations these drivers are the ones of all other claims. (The iterations themselves are exact in this claim.)", "quantifier": "all array operations satisfying the accuracy specification for some \u03b5 and dimension bound N, all matrices, right hand sides, regularisation parameters, tolerances, iteration limits, modes, sketch generators and generator states", "why_tests_cant": "Error bounds range over all ways the operations may round, over all sketches and over all inputs; a test sees one machine's rounding of one input.", "anchors": ["parla/drivers/least_squares.py:SSO1", "parla/drivers/least_squares.py:SPO", "parla/drivers/least_squares.py:SPU1", "parla/comps/preconditioning.py:svd_right_precond"]}
{"id": "C83", "title": "Calls leave the caller's arrays alone and tolerate aliasing", "statement": "Array arguments are objects that several names may share. For every state of memory and every choice of argument arrays, distinct or not: pcg, lsqr, PcSS1, PcSS2, SSO1, SPO, SPU1, SPS1 and SPS2 return (or raise) exactly what they should for the contents the argument arrays have at the time of the call, although they update local arrays in place, let LAPACK destroy work arrays, and reuse buffers; when they return or raise, every array of the caller's has the content it had before, with one exception: PcSS1 called with an R that is not square overwrites R (column R[:, j] becomes the unit vector in its direction times sqrt(1/|R[:, -1]|^2 + delta)/sqrt(1/|R[:, j]|^2 + delta)), even when it raises. The arrays returned are new, so changing them later does not change an input, and x and y of a saddle point solver are different arrays; the only exception is lsqr with x0 given and no iteration made, which returns the array x0 itself. This holds even if a function handle given to pcg or lsqr returns its own argument. QB2 (hence qb_b) with overwrite_a=False leaves A alone even if its rangefinder raises; with overwrite_a=True, A is the only array it modifies, and after an exception A is the original with the blocks found so far projected out. Since SPS2 reads its preconditioner after the solver ran, with PcSS1 the first logged error (and only that) may be off.", "quantifier": "all memory states, all (possibly equal) argument addresses, all contents and sizes, all tolerances and iteration limits, all sketching operators, whatever LAPACK leaves in arrays it may overwrite and whether or not solve_triangular works in place; returning and raising runs", "why_tests_cant": "A test passes fresh, distinct arrays and compares results; accidental in-place modification shows only for particular combinations of shared arguments, shapes (delta = 0 makes a_lift return its argument), iteration counts and exceptions.", "anchors": ["parla/comps/determiter/pcg.py:pcg", "parla/comps/determiter/lsqr.py:lsqr", "parla/comps/determiter/saddle.py:PcSS1,PcSS2", "parla/comps/preconditioning.py:a_lift,a_lift_precond,svd_right_precond", "parla/drivers/least_squares.py:SSO1,SPO,SPU1", "parla/drivers/saddlesys.py:SPS1,SPS2", "parla/comps/qb.py:QB2"]}
{"id": "C84", "title": "Sparse sign operators: mean, failure probability, and embedding of subspaces with high probability", "statement": "Let the uniform numbers that sparse_sign_operator draws be independent and uniform on [0,1], 0 < density <= 1. (1) It raises RuntimeError (eleven empty masks) with probability exactly (1-density)^(11 n_rows n_cols), and otherwise returns. (2) If S is its result (zero in place of a retry when the first mask is empty, which has probability (1-density)^(n_rows n_cols)), the mean of S'S is the identity if n_rows <= n_cols, and that of SS' if n_cols <= n_rows. (3) For every subspace U of R^m of dimension r >= 1, 0 < d <= m, 0 < eps < 1, except for draws of probability at most (r^2 + r/density)/(d eps^2), sparse_sign_operator(d, m) returns at its first attempt an S with (1-eps)|x|^2 <= |Sx|^2 <= (1+eps)|x|^2 for all x of U; the same holds of S' for sparse_sign_operator(m, d). (4) Hence, outside an exceptional set of probability ((n+1)^2+(n+1)/density)/(d eps^2), SSO1 with such operators is (1+eps)/(1-eps)-optimal for every regularisation parameter, and outside one of probability (n^2+n/density)/(d eps^2), SPO with tol = 0 gains a factor eps^2 per iteration in its optimality gap (up to a constant factor 4) and, if A is well-conditioned, SPU1 is within squared distance (2 eps^k)^2 (1+eps)/(1-eps)|y*|^2 of the minimum-norm solution y* after k iterations, d the number of sketch rows.", "quantifier": "all sizes, densities, subspaces, accuracies, matrices, right hand sides, regularisation parameters, iteration limits; all generators whose next draws are the given numbers; probability over the draws", "why_tests_cant": "A statement about the distribution of the result for every subspace and density; sampling can only estimate it for a few, and a wrong scale or bias of low order would be lost in the noise.", "anchors": ["parla/utils/sketching.py: sparse_sign_operator", "parla/drivers/least_squares.py: SSO1.__call__, SPO.__call__"]}
{"id": "C85", "title": "Residuals reported and tested by pcg and PcSS1, with rounding errors", "statement": "Let every vector operation of pcg and PcSS1 (sums, differences, multiples, norms, products with A, A' and the user's matrix) be accurate to eps <= 1/100 in the standard first-order error model, while inner products, quotients and the preconditioner may be computed in any way. (1) pcg: let mat satisfy |mat v| <= kappa |v| and mv_mat compute its products up to eta |v|; if pcg returns (x, residuals) and none of its iterates is longer than X, every logged value equals the norm of the true residual of its iterate up to B = 34 eta X + 80 eps (|rhs| + kappa X), whatever the number of iterations, and if pcg made fewer than iter_lim iterations then |rhs - mat x| <= (1+eps) tol (|rhs - mat x0| + B) + B. (The recomputation of the residual every ten iterations is what keeps B independent of the number of iterations.) (2) PcSS1, with P = |A||b| + |c| + (|A|^2 + delta) X: the same for the residual of the normal equations with B = 220 eps P; y + A x = b up to 3 eps (|b| + |A| X); and if fewer than iter_lim iterations were made, |A'y - delta x - c| <= (1+eps) tol (initial residual + 220 eps P) + 225 eps P. With exact operations these are the pcg and PcSS1 of all other claims.", "quantifier": "all arithmetics satisfying the accuracy specification, all matrices, right hand sides, regularisation parameters, tolerances, iteration limits, starting points, preconditioners (any function, linear or not), all runs that return", "why_tests_cant": "A test runs one arithmetic on a few problems; the drift between the recurrence residual and the true one depends on the history of the whole run.", "anchors": ["parla/comps/determiter/pcg.py: pcg", "parla/comps/determiter/saddle.py: PcSS1.__call__"]}
{"id": "C86", "title": "When the low-rank functions return, raise and warn", "statement": "With a Gaussian source that always delivers, for every argument, legal or not, the outcome of the procedural low-rank functions is determined by explicit conditions. rs1 returns silently iff num_pass >= 0 and 1 <= k <= min(A.shape); rf1 returns iff num_pass >= 1 and 1 <= k <= min(A.shape), and every such call issues exactly one warning (its rangefinder is handed tol = 0.0, which is not NaN); qb returns silently iff num_passes >= 2 and 1 <= k <= min(A.shape); qb_b returns iff inner_num_pass >= 2, blk >= 1, A is not empty and k >= 1, with exactly one warning iff k > min(A.shape); svd1 likewise with k+over; evd1 likewise, with 1 <= k <= n and a tolerance that is NaN or non-negative; every other call of these six raises AssertionError. qb_b_pe raises AssertionError unless num_passes >= 1 and 1 <= k < min(A.shape), then ZeroDivisionError if blk = 0, and otherwise returns silently or raises LinAlgError. evd2 (symmetric A) raises AssertionError unless num_passes >= 1 and 1 <= k < n, and otherwise returns silently or raises LinAlgError (never IndexError). osid1, osid2, rocs1 raise ValueError for an axis other than 0 and 1; osid1, osid2, rocs1, tsid1 raise AssertionError for p < 1 and cur1 for p < 2; otherwise (A not empty, k >= 1) osid2 and rocs1 always return silently, while osid1, tsid1 and cur1 return silently or raise LinAlgError if k <= min(A.shape), and never return (ValueError or LinAlgError) if k > min(A.shape).", "quantifier": "all matrices of all shapes, all k, over, tol, num_passes (including negative), block sizes, axes, generator states, and every dependable Gaussian source and backend meeting the LAPACK contracts", "why_tests_cant": "the classification ranges over all integers and shapes and over every generator state, and includes the claim that no other exception and no other warning occurs", "anchors": ["parla/comps/sketchers/aware.py:rs1", "parla/comps/rangefinders.py:rf1", "parla/comps/qb.py:qb,qb_b,qb_b_pe", "parla/drivers/svd.py:svd1", "parla/drivers/evd.py:evd1,evd2", "parla/drivers/interpolative.py:osid1,osid2,tsid1,cur1", "parla/comps/interpolative.py:rocs1"]}
{"id": "C87", "title": "What is returned does not depend on the linear algebra backend (nor, in SPO, on the mode)", "statement": "SVDs, QRs and eigendecompositions are not unique: LAPACK builds may flip signs or rotate tied vectors. In exact arithmetic no such choice is visible in what a least-squares or saddle call returns: for the same arguments and random state, sso1, spo (each mode, delta >= 0), spu1, sps2 and sps1 (for sps1, on sketches of full rank when the Nystrom branch runs) return the same solution, the same log, the same random state and raise the same exceptions with any two backends satisfying their contracts, with PcSS1 and PcSS2 alike; and the three modes 'qr', 'chol', 'svd' of SPO are interchangeable whenever the lifted sketch is of full column rank (and above the SVD cutoff when 'svd' is one of them). For the low-rank functions, with probability one over the Gaussian draws: rf1 and qb / qb_b return the same number of columns, the same Q Q^T A respectively Q B, the same overwritten A and the same random state, and the same Q Q^T when k <= rank(A); svd1 returns the same number of singular values and the same values (under k+over <= rank or a single block), and with over = 0 or untied values at the cut also the same U S V^T and the same singular subspaces; evd2 returns the same eigenvalues (k+over <= rank); evd1 the same absolute eigenvalues, and the same eigenvalues for positive semidefinite A.", "quantifier": "all matrices, right-hand sides, regularisations, tolerances, iteration limits, sketches and random states; all pairs of backends; almost all Gaussian draws for the low-rank functions", "why_tests_cant": "a test runs one LAPACK build; the claim compares every pair of admissible factorisations, including sign flips, rotations in repeated singular spaces and arbitrary completions of rank-deficient QRs", "anchors": ["parla/drivers/least_squares.py: SSO1, SPO", "parla/drivers/saddlesys.py: SPS1, SPS2", "parla/drivers/least_squares.py: SPU1", "parla/comps/preconditioning.py: svd_right_precond", "parla/comps/determiter/saddle.py: PcSS1, PcSS2", "parla/comps/determiter/lsqr.py: lsqr", "parla/comps/rangefinders.py: RF1", "parla/comps/qb.py: QB1, QB2", "parla/drivers/svd.py: SVD1", "parla/drivers/evd.py: EVD1, EVD2"]}
{"id": "C88", "title": "Changes of variables, of units and of orthonormal coordinates change the answer accordingly, and nothing else", "statement": "The units in which a user states a least-squares or saddle problem do not matter (in exact arithmetic). (1) Replace A by P A T with P orthogonal and T invertible, b by P b, c by T' c and delta by delta' with delta' I = delta T'T (T is arbitrary when delta = 0, a multiple of an orthogonal matrix otherwise), and let the sketch be drawn in the new coordinates (S P' instead of S; nothing changes when P = I): spo (every mode; in mode 'svd', and for spu1 and sps2, on sketches above the SVD rank cutoff) and sps2 (with PcSS2) return T^-1 x (and P y), sso1 returns T^-1 x on a sketch of full rank, spu1 returns P y; the log, the number of iterations, the random state and the exceptions are the same. In particular spo without regularisation in modes 'qr' and 'chol' is independent of the conditioning of A, and spo on (a A, a^2 delta) returns x/a after the same iterations. (2) Multiply b and c by any a != 0: pcg, PcSS1, sps1 and sps2 with PcSS1 return a x, a y after the same number of iterations with the logged errors multiplied by |a|. (3) sso1 is linear in b from a given random state. (4) LSQR on a b (and a x0), a >= 1, returns exactly the old output in new units whenever the old run stopped for any reason but the normalised-gradient test istop = 2 (whose denominator contains an absolute machine epsilon), never makes fewer iterations, and after as many iterations has exactly the iterate a x.", "quantifier": "all matrices, right-hand sides, starting points, delta >= 0, tolerances, limits, invertible T and orthogonal P, scalings a, sketching generators, random states and backends", "why_tests_cant": "a relation between the runs on two different inputs, for a continuum of coordinate changes and every random state; a test compares a few scalings of one problem with a tolerance, and would not notice an absolute tolerance or an unnormalised factor that only matters at extreme units", "anchors": ["parla/drivers/least_squares.py: SSO1, SPO, SPU1", "parla/drivers/saddlesys.py: SPS1, SPS2", "parla/comps/determiter/lsqr.py: lsqr", "parla/comps/determiter/pcg.py: pcg", "parla/comps/determiter/saddle.py: PcSS1, PcSS2", "parla/comps/preconditioning.py: a_lift_precond, svd_right_precond"]}
{"id": "C89", "title": "The low-rank functions in rotated coordinates and in other units", "statement": "Replace A by a P A W with P, W orthogonal and a != 0. There is a map of the Gaussian draws that does not change their law (the identity when P = W = I, so for a pure change of units the draws are the same) such that for almost every sequence of draws, any run on A and any run on a P A W with the mapped draws - from any backends, generators and states - return related results: rf1's basis captures of a P A W exactly what the other captures of A, rotated, and spans the rotated range when k <= rank(A); qb and qb_b (same relative tolerance, hence the same number of blocks and columns) return products with Q'B' = a P (QB) W and leave the caller's array transformed in the same way; svd1's singular values are |a| times those for A, at least as many are kept when |a| >= 1 and, when |a| = 1, exactly as many, with (over = 0) U diag(s) V' rotated and the same right singular space rotated; evd1 on P A P' returns as many eigenvalues, of the same magnitudes (the same eigenvalues for positive semidefinite A); evd2 on a P A P' (a > 0) returns as many eigenvalues and they are a times those for A. So the distribution of the results does not depend on the coordinates in which A is given.", "quantifier": "all sizes, matrices A, orthogonal P and W, scalars a, targets, oversampling, numbers of passes, block sizes, tolerances, backends, generators and states; almost all Gaussian draws", "why_tests_cant": "a relation between two runs on related inputs, almost surely over a continuous law of the draws, for every orthogonal change of coordinates and every linear algebra backend; it needs the invariance of the Gaussian law and an argument about every block of the QB loop", "anchors": ["parla/comps/rangefinders.py: RF1", "parla/comps/qb.py: QB1, QB2", "parla/comps/sketchers/aware.py: RS1", "parla/drivers/svd.py: SVD1, svd1", "parla/drivers/evd.py: EVD1, EVD2, evd1, evd2"]}
{"id": "C90", "title": "Asking for more extends the answer", "statement": "Two calls of the same routine on the same input and, for the randomised ones, from the same generator state, the second with a higher iteration limit or target rank and/or a tighter tolerance: the second redoes the first and goes on. lsqr makes at least as many iterations, its log starts with the whole log of the first, its residual is no larger and strictly smaller if it made more iterations, and if the tolerances agree and the first stopped before its limit the results are identical. pcg: if the longer run returns then so does the shorter, with a log that is an initial part of the other's, and for a definite system the energy error is no larger (strictly smaller if it made more iterations). PcSS1 and PcSS2 inherit this; SPO, SPU1, SPS1 and SPS2 leave the same generator state whatever the limit and tolerance and their error logs are initial parts of one another; SPO's objective value is no larger for the longer run. QB2 and qb_b: the leading columns of Q and rows of B of the longer run are those of the shorter, and the residual ||A - QB|| is no larger, provided the shorter run did not have to cut its last block short (blk divides k, or it stopped early on the tolerance) or the target ranks agree, and a larger target changes nothing at all once the tolerance is met; QB3 and qb_b_pe: the same for a tighter tolerance with the same target rank.", "quantifier": "all sizes, matrices, right-hand sides, shifts, starting points, preconditioners, operators, rangefinders of the documented shape, block sizes, target ranks, limits, tolerances, backends and generator states", "why_tests_cant": "it relates every pair of limits and tolerances on every input; a test compares a few, and an off-by-one in a stopping test, or a tolerance that leaks into the iteration, shows only where the two runs stop at different places", "anchors": ["parla/comps/determiter/lsqr.py: lsqr", "parla/comps/determiter/pcg.py: pcg", "parla/comps/determiter/saddle.py: PcSS1, PcSS2", "parla/drivers/least_squares.py: SPO, SPU1", "parla/drivers/saddlesys.py: SPS1, SPS2", "parla/comps/qb.py: QB2, QB3, qb_b, qb_b_pe"]}
{"id": "C91", "title": "How many columns and passes a tolerance costs", "statement": "qb_b and svd1 given a relative tolerance u choose the number of columns themselves. They never use fewer than necessary: if QB2 stops early with c columns then the singular values of A beyond the c-th are within the tolerance, so no rank below the best possible one is returned. And they do not use many more: let K be a multiple of the block size (or the target itself) with K <= k <= min(m,n), and let the bound on the mean squared error with W columns (W = K without power iterations, else the width of the first block) be at most delta (u ||A||)^2; then except with probability delta over the Gaussian draws for the first K columns, qb_b with target k returns within the tolerance with at most K columns and at most inner_num_pass * ceil(K/blk) passes over A, and so does svd1 (up to the singular values below 10 eps it drops) with at most K components. With the tail bound in place of the mean the failure probability is exponentially small. So the cost of a tolerance is set by the spectrum of A, not by the target k.", "quantifier": "all sizes, matrices, targets, block sizes, numbers of passes, tolerances, split ranks t and spectral gaps, backends, generators and states; all draws outside a set of the stated probability", "why_tests_cant": "a statement about probabilities and all spectra; a test sees single runs on single matrices", "anchors": ["parla/comps/qb.py: QB2, qb_b", "parla/drivers/svd.py: svd1, SVD1", "parla/comps/rangefinders.py: RF1", "parla/comps/sketchers/aware.py: RS1"]}
{"id": "C92", "title": "Cost of the iterative solvers in operator calls", "statement": "The number of times pcg and lsqr call the user's operators is fixed by what they return. A call of pcg that returns a log of K residuals has called the matrix operator exactly 1 + K + ceil(K/10) times (initial residual, one per iteration, and the recomputation of the residual in every tenth iteration) and the preconditioner exactly 1 + K times; for a consistent positive semidefinite system of rank r with a positive definite preconditioner this is at most 1 + r + ceil(r/10) products whatever the limit and the tolerance. A call of lsqr that returns the iteration count itn has called matvec exactly itn times (once more if x0 is given) and rmatvec itn or itn+1 times; without damping exactly itn+1 times, or itn if the residual norm it returns is zero. Counting the calls (in an array of the caller's) does not change the results.", "quantifier": "all operators (with any cost per call), preconditioners, right-hand sides, starting points, iteration limits, tolerances and states of memory", "why_tests_cant": "a statement about every run, including those that stop at the limit, by a tolerance or by breakdown; a test counts the calls of a few runs", "anchors": ["parla/comps/determiter/pcg.py: pcg", "parla/comps/determiter/lsqr.py: lsqr"]}
{"id": "C93", "title": "Each singular value, eigenvalue and vector returned, individually", "statement": "The individual numbers and vectors that the low-rank drivers return can be trusted one by one, even when the values of A are close together or repeated. Let e bound the spectral norm of the error of the QB step, whose basis is orthonormal. SVD1/svd1: A'u = s v exactly and A v - s u is the QB error applied to v, so it has norm at most e; the value s_i is at most the singular value sigma_i of A in the same position and sigma_i^2 <= s_i^2 + e^2; a singular value among the first k for which nothing is returned is at most sqrt((10 eps)^2 + e^2). EVD1/evd1 on a symmetric A: V'AV = diag(lamb), |A v - lamb v| <= e, some eigenvalue of A lies within e of each value returned, above (and below) any level there are at most as many returned values as eigenvalues of A, |lamb_i| <= sigma_i <= |lamb_i| + sqrt(2) e, and a missing position has sigma_i <= 10 eps + sqrt(2) e. EVD2 on a positive semidefinite A with eigenvalues mu: lamb_i <= mu_i + nu with nu the regularisation, mu_i <= lamb_i + e with e a bound on its error, and missing ones are at most e. For svd1 and evd1 with Gaussian sketches and no tolerance, e^2 may be replaced almost surely by a function of the draws whose mean is the bound of C65. Outside the exceptional set of draws of C78 the bound of C78 may be used for e^2.", "quantifier": "every matrix A (symmetric for evd1, positive semidefinite for evd2), every singular value or eigenvalue decomposition of A, every k, over, tolerance, pass count and block size, every position i, every level, every backend and generator state; the Gaussian versions for almost every sequence of draws", "why_tests_cant": "The comparison is position by position with the unknown exact spectrum and has to survive clustered and repeated values, where a test on sampled matrices compares to a reference SVD within a tolerance it picked itself; a swapped sort or an off-by-one in the truncation shows only for particular spectra and signs.", "anchors": ["parla/drivers/svd.py: SVD1, svd1", "parla/drivers/evd.py: EVD1, EVD2, evd1"]}
{"id": "C94", "title": "The directions returned are right where the spectrum of A has a gap", "statement": "The singular vectors and eigenvectors returned by the low-rank drivers point in the right directions as far as the spectrum of A allows. Let e bound the spectral norm of the error of the QB step (orthonormal basis). SVD1/svd1: if sigma_{t-1}^2 - sigma_t^2 > e^2 for the singular values of A (positions from 0), then each of the first t right vectors returned is within sigma_t e/(sigma_{t-1}^2 - sigma_t^2 - e^2) of the span of the t leading right singular vectors of A (exactly in it when A has rank t), and each of the first t left vectors within sigma_{t-1} e/(sigma_{t-1}^2 - sigma_t^2 - e^2) of the span of the leading left ones; for any group of singular values such that zero and all others are at least gap away from the value s_i returned, the vectors of s_i are within e/gap of the span of the group's. EVD1/evd1 on a symmetric A: if all eigenvalues outside a group are at least gap away from lamb_i then v_i is within e/gap of the span of the group's eigenvectors; if the eigenvalues of A are pairwise at least gap > e apart, every v_i is within e/(gap - e) of a multiple of one eigenvector whose eigenvalue is within e of lamb_i. EVD2 on a positive semidefinite A: the same with e a bound on its approximation error, and |A v - lamb v| <= e with an eigenvalue of A within e of lamb. For svd1 and evd1 with Gaussian sketches and no tolerance, e^2 may be replaced almost surely by a function of the draws with the mean of C65. Outside the exceptional set of draws of C78, e^2 may be replaced by the bound of C78.", "quantifier": "every matrix A (symmetric for evd1, positive semidefinite for evd2), every decomposition of A, every position t, group and gap, every k, over, tolerance, pass count, block size, backend and generator state; Gaussian versions for almost every sequence of draws", "why_tests_cant": "Singular vectors of close singular values are not determined by A up to small changes, so a test that compares vectors to a reference can only use matrices with a large gap chosen by hand; the guarantee needed is a bound in terms of the actual gap for every spectrum and every run.", "anchors": ["parla/drivers/svd.py: SVD1, svd1", "parla/drivers/evd.py: EVD1, EVD2, evd1"]}
{"id": "C95", "title": "Spectral norm of the error without a gap in the spectrum, and how passes over A shrink it", "statement": "Let s_0 >= s_1 >= ... be the singular values of A (r of them in a given decomposition). rf1 with p passes: for every t and every right inverse W of the t leading rows of the start matrix written in the singular basis, the spectral norm of A - QQ'A is at most s_t (1 + |tail rows of the start matrix times W|_F^2)^(1/(2p)); so no gap between s_(t-1) and s_t is needed and the factor tends to 1 as p grows. With Gaussian sketches, k >= t+2, there is a non-negative function of the draws that almost surely bounds the spectral norm and whose mean is at most s_t (1 + (r-t) t/(k-t-1))^(1/(2p)). qb: the same with exponent 1/(2(p-1)). qb_b: the same as qb for every blocking, with the number of columns that share the first sketch's power passes (all k when p = 2, the first block otherwise) in place of k; when p > 2 the bound holds also for runs stopped early by the tolerance. qb_b_pe with p passes: the same as rf1 with p passes (exponent 1/(2p)), for every block size, for the runs that build all k columns; every other run has met the tolerance. svd1 and evd1 without tolerance: each returned singular value (absolute eigenvalue), each residual of a returned vector and the values dropped obey the bounds of C93 with that function of the draws as the error. evd2 on a positive semidefinite A with p passes: the spectral norm of A - V diag(lamb) V' is at most lam_r + (lam_t + nu)(1 + |tail rows times W|_F^2)^(1/(2p-1)) + 3 nu, r the number of components returned and nu the regularisation; for p >= 2 the mean over Gaussian draws is at most lam_rho + (lam_t + nu)(1 + (n-t) t/(k+over-t-1))^(1/(2p-1)) + 3 nu with nu = sqrt(n) eps |A|_F, and each value and vector returned is right to within the same bound. Failure probability: for 0 <= eps < 1, except for a set of draws of probability at most 3*9^t*exp(-k eps^2/32) fixed in advance, the same calls meet these bounds with (r-t)(1+eps/2)/(1-eps) in place of (r-t) t/(k-t-1).", "quantifier": "every matrix A (symmetric for evd1), every singular value decomposition of A, every t, k, over, pass count, block size, tolerance, backend and generator; deterministic statements for every run, Gaussian ones for almost every draw", "why_tests_cant": "A test sees one matrix, usually with a clear gap, and one seed; the claim is a dimension-explicit bound for every spectrum (also with all singular values equal) and an expectation over all draws.", "anchors": ["parla/comps/rangefinders.py: RF1, rf1", "parla/comps/qb.py: QB1, QB2, QB3, qb, qb_b, qb_b_pe", "parla/drivers/svd.py: SVD1, svd1", "parla/drivers/evd.py: EVD1, EVD2, evd1, evd2"]}
{"id": "C96", "title": "Neither the block size nor the choice among the QB algorithms changes the answer", "statement": "Let Omega be an n x k matrix with A*Omega of full column rank (for k <= rank(A): almost every Gaussian matrix). qb with two passes and qb_b_pe with one pass (any block size, any tolerance) on one draw Omega, and qb_b with two passes per block (any block size, any tolerance) if the arrays it draws, put side by side, form Omega, all return; the c columns of Q are an orthonormal basis of the range of A times the first c columns of Omega, B = Q'A, and c = k unless the tolerance is met. So any two of these runs, with any block sizes, tolerances, backends and generators, return the same QQ' and the same QB if they return equally many columns; the one with more columns spans more and its error is not larger. qb with p+1 passes and qb_b_pe with p passes from the same generator state return the same QB when all k columns are built, for every p and every sketching operator: the pass-efficient algorithm saves one pass. qb_b with one block returns the same QB as qb, for every number of passes, every tolerance and every sketching operator. svd1 (two passes, no tolerance): the number of components and the singular values do not depend on the block size, nor without oversampling the approximation and the singular spaces; evd1: the number of eigenvalues and their magnitudes do not, nor the eigenvalues if A is positive semidefinite.", "quantifier": "every matrix A, k, Omega with A*Omega of full column rank, every two block sizes, tolerances, backends, generators and generator states", "why_tests_cant": "A test compares a few block sizes on one matrix, and drawn blocks differ from one call to the next, so results of different blockings can hardly be compared; the claim equates all blockings for every matrix.", "anchors": ["parla/comps/qb.py: QB1, QB2, QB3, qb, qb_b, qb_b_pe", "parla/drivers/svd.py: SVD1, svd1", "parla/drivers/evd.py: EVD1, evd1"]}
{"id": "C97", "title": "Transposing the matrix transposes the interpolative and CUR decompositions", "statement": "For every A, k, over, number of passes, sketching distribution, backend and generator state: qrcp_osid, ROCS1, osid1/OSID1 and osid2/OSID2 on A' along the other axis end exactly as on A (same exception or same selected indices, transposed coefficients, same warnings, same passes, same generator state afterwards). If A is not square, tsid1 on A' returns (X', Js, Z', Is) where on A it returns (Z, Is, X, Js), and cur1 on A' returns (Is, U', Js) where on A it returns (Js, U, Is); so the approximation of A' is the transpose of the approximation of A. (A square matrix is excluded: both drivers start with the rows then.) One-pass column IDs depend on A only through the geometry of its columns: if the rows of A and the draws are mixed by one P with orthonormal columns (which keeps Gaussian draws Gaussian), osid1 and osid2 return the same coefficients and indices; for osid1 every injective P will do, with the draws mixed by a T with T'P = I.", "quantifier": "all shapes, matrices, ranks, oversampling, pass counts, generators, generator states and backends that meet the factorisation contracts", "why_tests_cant": "a relation between two runs on all inputs; a test compares two runs on one matrix, and index choices on ties or an axis handled by its own code path differ only on some shapes", "anchors": ["parla/drivers/interpolative.py:OSID1, OSID2, TSID1, CUR1, osid1, osid2, tsid1, cur1", "parla/comps/interpolative.py:qrcp_osid, ROCS1"]}
{"id": "C98", "title": "Low rank plus noise: any low-rank matrix near A is recovered up to its distance from A", "statement": "Let L be any matrix of rank at most t (nothing is assumed about A or its spectrum). With Gaussian sketches: for t + 2 <= k <= min(m, n), rf1(A, k, p) and qb(p, A, k) return almost surely, their squared Frobenius error is at most a function g of the draws with mean at most (1 + t/(k-t-1)) ||A - L||_F^2, and the QB returned is within sqrt(g) + ||A - L||_F of L; outside a set of draws of probability at most 3*9^t*exp(-k eps^2/32), ||QB - L||_F <= (1 + sqrt(1 + (1+eps/2)/(1-eps))) ||A - L||_F. svd1(A, k, over) with t <= k: the same with mean (2 + t/(W-t-1)) ||A - L||_F^2 plus the values below 10 eps that are dropped. Outside a set of probability at most 3*9^t*exp(-W eps^2/32) the error of svd1 is at most gs with gs^2 = (2 + (1+eps/2)/(1-eps)) ||A - L||_F^2 plus the values below 10 eps dropped, that of evd1 on a symmetric A at most sqrt(2 (1 + (1+eps/2)/(1-eps))) ||A - L||_F + sqrt(||A - L||_F^2 + the values dropped), and the distance to L is at most ||A - L||_F more. If ||A - L||_2 <= e, every singular value svd1 returns is within g + e of the one of L in the same position, mean of g at most e (1 + (min(m,n)-t) t/(W-t-1))^(1/(2(p-1))). In particular a matrix of rank at most t is recovered exactly almost surely.", "quantifier": "all matrices A and all L of rank at most t, all k, over, block sizes, pass counts, backends, generators, and almost every Gaussian draw (mean and probability over the draws)", "why_tests_cant": "a bound in mean and in probability over a continuous distribution, for every matrix and every candidate L", "anchors": ["parla/comps/rangefinders.py:RF1, rf1", "parla/comps/qb.py:QB1, qb", "parla/drivers/svd.py:svd1, SVD1", "parla/comps/sketchers/aware.py:RS1"]}
{"id": "C99", "title": "Sketch-and-solve is a linear and stable function of the right-hand side", "statement": "A, delta, the sketching distribution and the generator state determine either an exception or one n x m matrix M and the state left behind, and SSO1 / sso1 returns M b for every b: runs from the same state on b, b' and s*b + t*b' return x, x' and s*x + t*x' and leave the same state. For any two right-hand sides, except for draws of small probability (the bounds of C68, C70, C72 for Gaussian, SJLT and trigonometric sketches), ||A(x' - x)|| <= (1 + sqrt((1+eps)/(1-eps))) ||b' - b|| and delta ||x' - x||^2 <= (1+eps)/(1-eps) ||b' - b||^2, for every delta >= 0: noise in b is not amplified beyond a constant however ill conditioned A is.", "quantifier": "all A, b, b', scalars, delta, backends, generators and states; in the stability part all draws outside a set of bounded probability", "why_tests_cant": "a relation among three runs for all inputs, and a probability bound", "anchors": ["parla/drivers/least_squares.py:SSO1, sso1", "parla/comps/sketchers/oblivious.py:gaussian_operator, sjlt_operator, srct_operator"]}
{"id": "C100", "title": "EVD1 with rounding errors", "statement": "If products, the QR, the eigensolver (la.eigh, which reads the lower triangle only) and the norms are accurate to a relative eps for the sizes involved, then for every symmetric A: whatever QB step EVD1 uses, if it returned Q (c columns) and B with ||Q'Q - I|| <= delta and ||B - Q'A|| <= gamma, EVD1 returns at most k values lamb in order of decreasing magnitude, all above 10 machine epsilons in magnitude, V orthonormal up to (2+z)z with z = (2+sqrt c)||Q|| eps + delta, and ||A - V diag(lamb) V'|| <= 2||A - QB|| + 10*macheps*sqrt c, plus ||A - X|| for any X of rank at most k when c > k, plus explicit terms that vanish with eps, delta, gamma. evd1 runs qb_b with a quarter of its tolerance, and when that tolerance stops it with c <= k columns its error is at most (4 + 2 delta) roundBound(theta, c, tol/4) ||A|| (tol ||A|| but for rounding) + 10*macheps*sqrt c + explicit terms in eps and delta. With exact operations the rounded routine is evd1 itself.", "quantifier": "all machines satisfying the accuracy specification, all symmetric A, k, tol, over, pass counts, block sizes, generators, QB steps", "why_tests_cant": "a bound over every rounding behaviour within a specification, every matrix and every draw", "anchors": ["parla/drivers/evd.py:EVD1, evd1", "parla/comps/qb.py:QB2", "parla/comps/rangefinders.py:RF1", "parla/comps/sketchers/aware.py:RS1"]}
{"id": "C101", "title": "EVD2 with rounding errors", "statement": "If products, sums, square roots, the Cholesky factorisation (which reads the upper triangle), triangular solves and the SVD are accurate to a relative eps (unit bounds of the standard backward error analyses) for the sizes involved, then for every symmetric A and every sketcher returning S with at least k columns, EVD2 either raises what the Cholesky factorisation raised, or returns V, lamb with: at most k pairs; ||V'V - I|| <= 3 eps; all eigenvalues but possibly the first nonnegative; and there are an upper triangular R with positive diagonal and a B with ||R'R - S'(A + nu I)S|| <= 29 eps ||S||^2 (||A|| + nu), ||B R - (A + nu I)S|| <= eps(||R|| ||B|| + ||S||(3||A|| + nu)) such that (V, lamb + nu) are eigenpairs of B B' up to 8 eps ||B||^2 and relative 3 eps, sorted. nu is sqrt(n) macheps ||A S|| up to explicit factors (1 +- eps)^4. If A is positive semidefinite, S has independent columns by a margin s and 29 eps ||S||^2(||A|| + nu) < nu s^2, then it does not fail. evd2 with at least two passes sketches with min(n, k + over) columns orthonormal up to 3 eps, so its condition is 29 eps (sqrt c + 1)^2 (||A|| + nu) < nu (1 - eps)^2. With exact operations the rounded routine is evd2 itself.", "quantifier": "all machines satisfying the accuracy specification, all symmetric (positive semidefinite for success) A, k, over, pass counts, sketchers and generators", "why_tests_cant": "A test sees one machine, one rounding pattern and a few matrices; whether the tiny regularisation protects the Cholesky factorisation is a statement about all of them.", "anchors": ["parla/drivers/evd.py: evd2", "parla/drivers/evd.py: EVD2", "parla/comps/sketchers/aware.py: RS1"]}
{"id": "C102", "title": "Interpolative decompositions with rounding errors", "statement": "If products, the pivoted QR factorisation (backward error; nothing assumed of the pivot choice) and triangular solves are accurate to a relative eps for the sizes involved, then whenever OSID1 returns, having sketched with S: it returns k distinct indices and coefficients X with an exact identity at the skeleton, so the skeleton columns (rows) of A are reproduced exactly in spite of rounding; and for every matrix M, ||A - A[:,Js]X|| <= (1 + ||X||) ||A - M S'A|| + ||M|| (norm of the trailing block of the computed triangular factor + eps ||A|| ||S|| (3 + 7||X||)); the same for rows. TSID1 on a tall matrix, whatever one-sided ID it extends, returns Z with an exact identity at k distinct rows and its error exceeds that of the one-sided ID by at most eps ||A[:,Js]|| (1 + 3||Z||) ||X||; the mirror statement holds otherwise. With exact operations the rounded routines are osid1 and tsid1 themselves.", "quantifier": "all machines satisfying the accuracy specification, all A, k, over, axes, row sketchers, one-sided ID routines", "why_tests_cant": "A test sees one machine and a few matrices; the bounds are over every rounding pattern, matrix, sketch and choice of pivots.", "anchors": ["parla/comps/interpolative.py: qrcp_osid", "parla/drivers/interpolative.py: OSID1", "parla/drivers/interpolative.py: TSID1"]}
{"id": "C103", "title": "OSID2 and CUR1 with rounding errors", "statement": "If products, the pivoted QR factorisation and least squares solves (each column solves a least squares problem whose data are within eps) are accurate to a relative eps for the sizes involved, then OSID2 returns min(k, n) distinct column indices (min(k, m) rows) and coefficients X that are optimal up to rounding: for every W, ||A - A[:,Js]X|| <= ||A - A[:,Js]W|| + eps (||A[:,Js]|| (||X|| + ||W||) + 2||A||); the same for rows. CUR1 on a tall matrix, whatever one-sided ID it uses, keeps that ID's columns, chooses min(k, m) distinct rows, and for every W its error is at most ||A - A[:,Js]X|| + ||A[:,Js]|| (||X - W A[Is,:]|| + eps (||A[Is,:]|| (||U|| + ||W||) + 2||X||)); the mirror statement holds otherwise. With exact operations the rounded routines are osid2 and cur1 themselves.", "quantifier": "all machines satisfying the accuracy specification, all A, k, over, axes, row sketchers, one-sided ID routines, competitors W", "why_tests_cant": "A test sees one machine and a few matrices; the bounds are over every rounding pattern, matrix, choice of pivots and competitor.", "anchors": ["parla/drivers/interpolative.py: OSID2", "parla/drivers/interpolative.py: CUR1", "parla/utils/linalg_wrappers.py: apply_pinv_on_left"]}
{"id": "C104", "title": "SPS1 with rounding errors", "statement": "Let the vector operations of SPS1's iterative phase (with PcSS1 as the solver: sums, differences, multiples, norms, products with A and A') be accurate to eps <= 1/100 in the standard first-order error model, while sketching, factorisation, presolve, inner products, quotients and the application of the preconditioner may be computed in any way. If SPS1 returns (x, y, log), none of the x it returns from the same generator state under a smaller iter_lim is longer than X, and P = |A||b| + |c| + (|A|^2 + delta) X, then: y solves the upper block of equations up to 3 eps (|b| + |A| X); the first logged error is |A'b - c| up to 5 eps P, and every further one is the norm of the residual of the normal equations at the x which the same call with that iter_lim returns, up to 220 eps P, however many iterations were made; and if fewer than iter_lim iterations were made, |A'y - delta x - c| <= (1+eps) tol (initial residual + 220 eps P) + 225 eps P. Whether errors are logged changes neither x, y nor the generator state left. With exact operations the routine is SPS1 itself.", "quantifier": "all machines satisfying the accuracy specification, all A, b (or None), c (or None), delta >= 0, tol >= 0, iter_lim, sampling factors, sketching operators, Nystrom strategies, generator states", "why_tests_cant": "A test sees one machine and a few systems; the bounds are over every rounding pattern, system, sketch, preconditioner and number of iterations.", "anchors": ["parla/drivers/saddlesys.py: SPS1", "parla/comps/determiter/saddle.py: PcSS1", "parla/comps/determiter/pcg.py: pcg", "parla/comps/determiter/logging.py: SketchAndPrecondLog"]}
{"id": "C105", "title": "Trading oversampling for rank: results for different k are nested", "statement": "Call a low-rank routine twice from the same generator state, with k < k' and the same number k + over = k' + over' of sketch columns. If the call for k' returns, so does the call for k, leaving the same generator state, and: svd1 (SVD1 over any QB algorithm) and evd1 return the first min(k, r') of the r' triplets (pairs) returned for k'; svd1's error for k' is at most its error for k when the QB algorithm returned an orthonormal Q and B = Q'A; evd2 returns the first of the pairs returned for k', min(k, r') of them except that it may return k pairs when the call for k' returned k - 1; apart from that exception its approximation for k is below the one for k' in the semidefinite order, and both are below A + nu I (A positive semidefinite); osid1 picks the first k of the k' columns (rows); osid2 picks the first min(k, n) of the min(k', n) columns (rows of m), and its error for k' is at most its error for k.", "quantifier": "all matrices, k < k', tolerances, generator states, QB algorithms and row sketchers, backends", "why_tests_cant": "A test compares finitely many pairs of calls; this is about all of them, including the interaction with cutoffs.", "anchors": ["parla/drivers/svd.py: SVD1", "parla/drivers/evd.py: EVD1", "parla/drivers/evd.py: EVD2", "parla/drivers/interpolative.py: OSID1", "parla/drivers/interpolative.py: OSID2", "parla/comps/interpolative.py: qrcp_osid"]}
{"id": "C106", "title": "SPS2 with rounding errors in the setup", "statement": "Let every array operation of the sketching and factorisation stages of SPS2 (product with the sketch, square root, SVD, column scaling) be accurate to eps in the standard first-order error model; kappa = (|S||A| + sqrt(delta) sqrt(n)) / (sqrt(1-eta) lo), where lo > 0 bounds the singular values of A with sqrt(delta) I below from below and the sketch drawn embeds range(A) up to 1 +- eta; 96 eps sqrt(n) kappa <= theta, 16 n u kappa <= 1 (u the machine epsilon of the cutoff of svd_right_precond) and eta' = eta + theta + eta theta < 1. If a logging call of SPS2 with PcSS1 or PcSS2 returns with k iterations in its log, then it returned x and y = b - A x with sqrt(|y-y*|^2 + delta |x-x*|^2) <= 2 eta'^k (sqrt(|A x*|^2 + delta |x*|^2) + D) + D, D = theta |c| / (8 lo), for the exact solution (x*, y*) of the block system. So rounding while sketching and factoring slows convergence from eta to eta', and moves the limit by at most D, which no number of iterations removes, but not at all if c is None or zero. Under these conditions the call does return (with a log in the case of PcSS1). With exact operations the routine is SPS2 itself.", "quantifier": "all machines satisfying the accuracy specification, all A, b (or None), c (or None), delta >= 0, tol >= 0, iter_lim >= 0, sampling factors, sketching operators, generator states", "why_tests_cant": "A test sees one machine, one sketch and a few systems; the bound is over every rounding pattern, sketch, system and number of iterations, and separates the part of the error that iterating removes from the part it does not.", "anchors": ["parla/drivers/saddlesys.py: SPS2", "parla/comps/preconditioning.py: svd_right_precond, a_lift"]}
{"id": "C107", "title": "A larger regularisation parameter shrinks the solution and loosens the fit", "statement": "Call SSO1 twice from the same generator state with parameters 0 <= delta < delta'. Both calls leave the same generator state and draw the same sketch S; the result x' for delta' is no longer than the result x for delta, its sketched residual |S (A x' - b)| is no smaller than that of x, and |x - x'| <= (delta' - delta)/delta' |x|. If the sketch distorts the squared residual norms by at most 1 +- eps, the true squared residual can shrink by at most the factor (1+eps)/(1-eps). SPO run to the end (tol 0, at least n iterations, embedding sketch) has the same properties without the sketch: x' is no longer, |A x' - b| is no smaller, and the same displacement bound holds. The same bounds on x hold for the exact solutions of the saddle-point system for every b and c, and sps called with tol 0 and at least n iterations for 0 < delta < delta' returns such solutions. In general the bounds hold for any two exact ridge minimisers.", "quantifier": "all matrices, right-hand sides, parameters 0 <= delta < delta', sketch generators and worlds; all modes of SPO", "why_tests_cant": "A test tries a few values of delta on a few problems; monotonicity in delta is a statement about every pair of values and every sketch, and an implementation that augments the matrix with the wrong multiple of the identity, or draws its sketch after looking at delta, can satisfy it on well-conditioned samples.", "anchors": ["parla/drivers/least_squares.py: SSO1, SPO", "parla/drivers/saddlesys.py: sps", "parla/comps/preconditioning.py: a_lift"]}
{"id": "C108", "title": "What the saddle-point solvers optimise, and how the result depends on b and c", "statement": "Let (x, y) solve the block system y + A x = b, A'y - delta x = c. Then |A z - b|^2 + delta |z|^2 + 2 <c,z> exceeds its value at z = x by exactly |A(z-x)|^2 + delta |z-x|^2, and conversely every minimiser is the x part of a solution with y = b - A x. For delta > 0, |v-b|^2 + |A'v-c|^2/delta exceeds its value at v = y by exactly |v-y|^2 + |A'(v-y)|^2/delta, and the two minima add up to |b|^2; for delta = 0, y is the unique point of {v : A'v = c} nearest to b. For delta > 0 the solutions for (b,c) and (b',c') satisfy |y-y'|^2 + delta |x-x'|^2 <= |b-b'|^2 + |c-c'|^2/delta. For delta > 0, tol = 0 and at least n iterations, sps returns on every state of the generator the same pair (x, y), x the unique minimiser of the first function and y of the second; its result for alpha (b,c) + beta (b',c') is the same combination of the results, and the stability bound holds, whatever states the calls start from; for (Q A V, Q b, V'c), Q with orthonormal columns and V orthogonal, it returns (V'x, Q y). SPS2 with tol = 0, n iterations and an embedding sketch returns the minimiser x with y = b - A x, and for delta = 0 the y nearest to b with A'y = c.", "quantifier": "all sizes, matrices, right-hand sides (including None), delta, generator states and coefficients", "why_tests_cant": "Optimality compares the result with every other point and stability with every other right-hand side; a test compares with a few, and a sign error in c or a wrong power of delta passes when c = 0 or delta = 1.", "anchors": ["parla/drivers/saddlesys.py: SaddleSolver, sps, SPS1, SPS2", "parla/comps/determiter/saddle.py: PcSS1, PcSS2"]}
