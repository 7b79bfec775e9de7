import Verif.Model.PcSS1
import Verif.Model.LSQR

/-! # Model of `PcSS2` in parla/comps/determiter/saddle.py -/

namespace Parla

open Matrix

variable {m n : ℕ}

/-- `k = 1 if (b is None or b.ndim == 1) else b.shape[1]` (parla/comps/determiter/saddle.py:189) -/
def BArg.k : BArg m → ℕ
  | .none => 1
  | .vec _ => 1
  | .multi k _ => k

/-- `b is None or la.norm(b) == 0` (parla/comps/determiter/saddle.py:203) -/
def BArg.isZero : BArg m → Prop
  | .none => True
  | .vec b => norm2 b = 0
  | .multi _ _ => False   -- never asked: such a `b` was rejected before

/-- `c is None or la.norm(c) == 0` (parla/comps/determiter/saddle.py:193) -/
def cIsZero : Option (Fin n → ℝ) → Prop
  | none => True
  | some c => norm2 c = 0

/-- The tolerances PcSS2 hands to `lsqr` (parla/comps/determiter/saddle.py:197, 206): `atol = btol =
tol`, and the default `conlim=1e8` of parla/comps/determiter/lsqr.py:98. -/
def pcss2Tol (tol : ℝ) : LsqrTol := ⟨tol, tol, 10 ^ 8⟩

/-- The branch `c is None or la.norm(c) == 0` of PcSS2 for 1-d `b`:
parla/comps/determiter/saddle.py:194-201.  The zero vector appended for `delta > 0` has length
`liftRows n (sqrt delta)`, which is `n`, and is empty for `delta == 0`. -/
noncomputable def pcss2Over (A : Matrix (Fin m) (Fin n) ℝ) {r : ℕ} {delta : ℝ}
    (pc : LiftPrecond m n r delta) (b : Fin m → ℝ) (tol : ℝ) (iterLim : ℤ) (z0 : Option (Fin r → ℝ)) :
    Except PyErr (SaddleOut m n) :=
  let bl : Fin (m + liftRows n (Real.sqrt delta)) → ℝ := catv b 0
  match lsqr pc.op bl 0 (pcss2Tol tol) (some iterLim) z0 with
  | .error e => .error e
  | .ok result =>
    match pc.mFwd result.x with
    | .error e => .error e
    | .ok x => .ok ⟨some x, topv bl - A *ᵥ x, result.arnorms⟩

open Classical in
/-- The branch `b is None or la.norm(b) == 0` of PcSS2: parla/comps/determiter/saddle.py:204-214.
`x = none` stands for `np.NaN * np.empty(n)`.  For `delta == 0` the solution of LSQR has length `m`,
so taking `y[:m]` in both cases changes nothing. -/
noncomputable def pcss2Under (A : Matrix (Fin m) (Fin n) ℝ) {r : ℕ} {delta : ℝ}
    (pc : LiftPrecond m n r delta) (c : Fin n → ℝ) (tol : ℝ) (iterLim : ℤ) :
    Except PyErr (SaddleOut m n) :=
  match pc.mAdj c with
  | .error e => .error e
  | .ok cpc =>
    match lsqr pc.op.T cpc 0 (pcss2Tol tol) (some iterLim) none with
    | .error e => .error e
    | .ok result =>
      let y := topv result.x
      let x := if delta > 0 then some ((1 / delta) • (Aᵀ *ᵥ y - c)) else none
      .ok ⟨x, y, result.arnorms⟩

open Classical in
/-- `PcSS2()(A, b, c, delta, tol, iter_lim, R, upper_tri, z0)`:
parla/comps/determiter/saddle.py:187-217.  With `b = None` and `c` zero, `np.concatenate` raises
`ValueError` for `delta > 0` (line 196: `None` is 0-dimensional) and `lsqr` raises `TypeError` for
`delta == 0` (it takes the norm of `np.atleast_1d(None)`, parla/comps/determiter/lsqr.py:312, 363). -/
noncomputable def pcss2 (A : Matrix (Fin m) (Fin n) ℝ) (b : BArg m) (c : Option (Fin n → ℝ))
    (delta tol : ℝ) (iterLim : ℤ) (P : Precond n) (z0 : Option (Fin P.dim → ℝ)) :
    Except PyErr (SaddleOut m n) :=
  match aLiftPrecond A delta P b.k with
  | .error e => .error e
  | .ok pc =>
    if cIsZero c then
      match b with
      | .vec b => pcss2Over A pc b tol iterLim z0
      | _ => if delta > 0 then .error .value else .error .type
    else if b.isZero then
      match c with
      | some c => pcss2Under A pc c tol iterLim
      | none => .error .type   -- not reachable: `c is None` took the first branch
    else .error .value

/-- A `PcSS2` object as a `PrecondSaddleSolver`; also the function `pcss2` (parla/comps/determiter/saddle.py:14-17), which
instantiates one and calls it. -/
noncomputable def PcSS2 : SaddleSolver := fun _ _ A b c delta tol iterLim P z0 =>
  pcss2 A b c delta tol iterLim P z0

end Parla
