import Verif.Model.PCG
import Verif.Model.Precond

/-! # Model of `PcSS1` in parla/comps/determiter/saddle.py -/

namespace Parla

open Matrix

variable {m n r : ℕ}

/-- The `b` argument of the saddle solvers: `None`, a 1-d array of length `m`, or a 2-d array with
`k != 1` columns (whose entries do not matter: it is rejected).
Simplification: a 2-d `b` with exactly one column is not modelled. -/
inductive BArg (m : ℕ) where
  | none
  | vec (b : Fin m → ℝ)
  | multi (k : ℕ) (hk : k ≠ 1)

/-- The third component returned by the saddle solvers: an error history, or the 0-dimensional
value LSQR returns when it needs no iteration. -/
inductive ErrLog where
  | scalar (e : ℝ)
  | arr (l : List ℝ)

/-- `(x, y, errors)`; `x = none` stands for an `x` all of whose entries are NaN
(parla/comps/determiter/saddle.py:212). -/
structure SaddleOut (m n : ℕ) where
  x : Option (Fin n → ℝ)
  y : Fin m → ℝ
  errs : ErrLog

/-- `PrecondSaddleSolver.__call__(A, b, c, delta, tol, iter_lim, R, upper_tri, z0)`
(parla/comps/determiter/saddle.py:20-85). -/
abbrev SaddleSolver := ∀ m n : ℕ, Matrix (Fin m) (Fin n) ℝ → BArg m → Option (Fin n → ℝ) → ℝ → ℝ →
  ℤ → (P : Precond n) → Option (Fin P.dim → ℝ) → Except PyErr (SaddleOut m n)

/-- `1 / la.norm(R, axis=0)` (parla/comps/determiter/saddle.py:133).  (For a zero column NumPy
gives infinity and the model 0; theorems about this branch assume there is none.) -/
noncomputable def colScale (R : Matrix (Fin n) (Fin r) ℝ) (j : Fin r) : ℝ :=
  1 / norm2 fun i => R i j

/-- `V = R * sing_vals` (parla/comps/determiter/saddle.py:134) -/
noncomputable def colNormalize (R : Matrix (Fin n) (Fin r) ℝ) : Matrix (Fin n) (Fin r) ℝ :=
  Matrix.of fun i j => R i j * colScale R j

/-- the updated `sing_vals` (parla/comps/determiter/saddle.py:137-139) -/
noncomputable def shiftedSing (R : Matrix (Fin n) (Fin r) ℝ) (delta : ℝ) (j : Fin r) : ℝ :=
  Real.sqrt (colScale R j ^ 2 + delta)

/-- the new content of the caller's array `R` (parla/comps/determiter/saddle.py:140-141) -/
noncomputable def lowRankR (R : Matrix (Fin n) (Fin r) ℝ) (delta : ℝ) (h : 0 < r) :
    Matrix (Fin n) (Fin r) ℝ :=
  Matrix.of fun i j => colNormalize R i j /
    (shiftedSing R delta j / shiftedSing R delta ⟨r - 1, by omega⟩)

/-- `mv_pre` and the final content of the caller's array `R`, which the code overwrites when
`R.shape[1] != n`: parla/comps/determiter/saddle.py:127-153.  `sing_vals[-1]` raises `IndexError` if
`R` has no columns. -/
noncomputable def pcss1Pre (R : Matrix (Fin n) (Fin r) ℝ) (delta : ℝ) :
    Except PyErr (((Fin n → ℝ) → Fin n → ℝ) × Matrix (Fin n) (Fin r) ℝ) :=
  if r = n then .ok (fun vec => R *ᵥ (Rᵀ *ᵥ vec), R)
  else if h : 0 < r then
    let V := colNormalize R
    let R' := lowRankR R delta h
    .ok (fun vec => R' *ᵥ (R'ᵀ *ᵥ vec) + vec - V *ᵥ (Vᵀ *ᵥ vec), R')
  else .error .index

/-- `mv_gram` (parla/comps/determiter/saddle.py:155-159) -/
noncomputable def mvGram (A : Matrix (Fin m) (Fin n) ℝ) (delta : ℝ) (vec : Fin n → ℝ) : Fin n → ℝ :=
  Aᵀ *ᵥ (A *ᵥ vec) + delta • vec

/-- `rhs = A.T @ b`, minus `c` unless `c is None` (parla/comps/determiter/saddle.py:161-163) -/
def normalRhs (A : Matrix (Fin m) (Fin n) ℝ) (b : Fin m → ℝ) : Option (Fin n → ℝ) → Fin n → ℝ
  | none => Aᵀ *ᵥ b
  | some c => Aᵀ *ᵥ b - c

/-- The starting point (parla/comps/determiter/saddle.py:165-169). -/
def pcss1Start (R : Matrix (Fin n) (Fin r) ℝ) (z0 : Option (Fin r → ℝ)) : Fin n → ℝ :=
  if r = n then match z0 with
    | none => 0
    | some z => R *ᵥ z
  else 0

/-- `PcSS1()(A, b, c, delta, tol, iter_lim, R, upper_tri=False, z0)` for 1-d `b`:
parla/comps/determiter/saddle.py:125-176. -/
noncomputable def pcss1Core (A : Matrix (Fin m) (Fin n) ℝ) (b : Fin m → ℝ) (c : Option (Fin n → ℝ))
    (delta tol : ℝ) (iterLim : ℤ) (R : Matrix (Fin n) (Fin r) ℝ) (z0 : Option (Fin r → ℝ)) :
    Except PyErr (SaddleOut m n) :=
  match pcss1Pre R delta with
  | .error e => .error e
  | .ok (mvPre, R') =>
    -- line 169 reads `R` after the overwrite, but only in the case where it is not overwritten
    match pcg (mvGram A delta) (normalRhs A b c) mvPre iterLim tol (pcss1Start R' z0) with
    | .error e => .error e
    | .ok (x, residuals) => .ok ⟨some x, b - A *ᵥ x, .arr residuals⟩

/-- `PcSS1()(A, b, c, delta, tol, iter_lim, R, upper_tri, z0)`:
parla/comps/determiter/saddle.py:94-176. -/
noncomputable def pcss1 (A : Matrix (Fin m) (Fin n) ℝ) (b : BArg m) (c : Option (Fin n → ℝ))
    (delta tol : ℝ) (iterLim : ℤ) (P : Precond n) (z0 : Option (Fin P.dim → ℝ)) :
    Except PyErr (SaddleOut m n) :=
  match b with
  | .multi _ _ => .error .notImplemented
  | .none => go 0
  | .vec b => go b
where
  /-- lines 125-176 -/
  go (b : Fin m → ℝ) : Except PyErr (SaddleOut m n) :=
    match P, z0 with
    | .tri _, _ => .error .notImplemented
    | .gen _ R, z0 => pcss1Core A b c delta tol iterLim R z0

/-- A `PcSS1` object as a `PrecondSaddleSolver`; also the function `pcss1` (parla/comps/determiter/saddle.py:8-11), which
instantiates one and calls it. -/
noncomputable def PcSS1 : SaddleSolver := fun _ _ A b c delta tol iterLim P z0 =>
  pcss1 A b c delta tol iterLim P z0

end Parla
