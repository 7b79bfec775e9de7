import Verif.Model.SaddleSys
import Verif.Model.Sketching

/-! # Model of the function wrappers of parla/drivers/least_squares.py and saddlesys.py -/

namespace Parla

open Matrix

variable {G : Type} {m n : ℕ}

/-- The keyword arguments `sampling_factor=3, vec_nnz=8` shared by the wrappers
(parla/drivers/least_squares.py:108, 193, 200, 419; parla/drivers/saddlesys.py:77), and the matrix
generator `sko.SkOpSJ(vec_nnz)` they build. -/
structure SketchArgs where
  samplingFactor : ℝ := 3
  vecNnz : ℕ := 8

/-- `skop = sko.SkOpSJ(vec_nnz)` (parla/drivers/least_squares.py:109, 194, 201, 420;
parla/drivers/saddlesys.py:78). -/
noncomputable def SketchArgs.skop (a : SketchArgs) (R : NpRng G) : SkOpGen G := sjltOperator R a.vecNnz

/-- `sso1(A, b, delta, rng, sampling_factor, vec_nnz, lapack_driver)`:
parla/drivers/least_squares.py:108-111.  `lapack_driver` does not change the exact result;
`np.NaN` exists (NumPy < 2). -/
noncomputable def sso1Fn (la : LinAlg) (R : NpRng G) (A : Matrix (Fin m) (Fin n) ℝ) (b : Fin m → ℝ)
    (delta : ℝ) (a : SketchArgs) : Py G (Fin n → ℝ) :=
  sso1Call la (a.skop R) a.samplingFactor A b delta .nan 1

/-- `spo1(A, b, delta, tol, iter_lim, rng, sampling_factor, vec_nnz)`:
parla/drivers/least_squares.py:193-196. -/
noncomputable def spo1Fn (la : LinAlg) (R : NpRng G) (A : Matrix (Fin m) (Fin n) ℝ) (b : Fin m → ℝ)
    (delta tol : ℝ) (iterLim : ℤ) (clock : LogTimes) (a : SketchArgs) : Py G (SPOOut n) :=
  spoCall la (a.skop R) a.samplingFactor .svd A b delta tol iterLim true clock

/-- `spo3(A, b, delta, tol, iter_lim, rng, sampling_factor, vec_nnz, mode='qr')`:
parla/drivers/least_squares.py:200-203. -/
noncomputable def spo3Fn (la : LinAlg) (R : NpRng G) (A : Matrix (Fin m) (Fin n) ℝ) (b : Fin m → ℝ)
    (delta tol : ℝ) (iterLim : ℤ) (clock : LogTimes) (a : SketchArgs) (mode : SPOMode := .qr) :
    Py G (SPOOut n) :=
  spoCall la (a.skop R) a.samplingFactor mode A b delta tol iterLim true clock

/-- `spu1(A, c, tol, iter_lim, rng, sampling_factor, vec_nnz)`:
parla/drivers/least_squares.py:419-422. -/
noncomputable def spu1Fn (la : LinAlg) (R : NpRng G) (A : Matrix (Fin m) (Fin n) ℝ) (c : Fin n → ℝ)
    (tol : ℝ) (iterLim : ℤ) (clock : LogTimes) (a : SketchArgs) : Py G (SPUOut m) :=
  spu1Call la (a.skop R) a.samplingFactor A c tol iterLim true clock

/-- The `method` of `sps` (parla/drivers/saddlesys.py:79-84): `'pcg'`, `'lsqr'` or any other string. -/
inductive SpsMethod where
  | pcg
  | lsqr
  | other

/-- `sps(A, b, c, delta, tol, iter_lim, rng, sampling_factor, vec_nnz, method='pcg')`:
parla/drivers/saddlesys.py:77-86.  `SPS1.__init__` sets `nystrom_strategy = 'left'` (line 124). -/
noncomputable def spsFn (la : LinAlg) (R : NpRng G) (A : Matrix (Fin m) (Fin n) ℝ)
    (b : Option (Fin m → ℝ)) (c : Option (Fin n → ℝ)) (delta tol : ℝ) (iterLim : ℤ) (clock : LogTimes)
    (a : SketchArgs) (method : SpsMethod := .pcg) : Py G (SPSOut m n) :=
  match method with
  | .pcg => sps1Call la (a.skop R) a.samplingFactor PcSS1 .left A b c delta tol iterLim true clock
  | .lsqr => sps1Call la (a.skop R) a.samplingFactor PcSS2 .left A b c delta tol iterLim true clock
  | .other => Py.raise .value

end Parla
