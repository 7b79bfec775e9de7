import Verif.Model.QB
import Verif.Model.SVD
import Verif.Model.EVD
import Verif.Model.Interpolative
import Verif.Model.DriverFunctions
import Verif.Model.Oblivious

/-! # The argument `rng`

Every routine of parla takes an argument `rng` and begins with `rng = np.random.default_rng(rng)`; what it calls gets the
*converted* generator and converts it again.  The other modules model the code after that conversion, with the generator
in `World.rng`.  This module models the conversions themselves.

Each `…Arg` definition takes the callee as a function of *its* argument `rng`, so that the model says which value is passed
on: `.gen`, because the name `rng` has been rebound to the Generator.  Simplifications: an integer seed is nonnegative
(`default_rng` raises `ValueError` on a negative one), other accepted types (SeedSequence, BitGenerator, arrays) are not
modelled, and assertions made before the conversion are made after it. -/

namespace Parla

open Matrix

variable {G : Type} {m n : ℕ} {α : Type}

/-- The argument `rng` of a call: `None`, an int, or a Generator (the one whose state is `World.rng`).  For `None`, `fresh`
is the state made from the operating system's entropy. -/
inductive RngArg (G : Type) where
  | none (fresh : G)
  | int (s : ℕ)
  | gen

/-- `rng = np.random.default_rng(rng)` followed by `body`: a Generator is passed through; otherwise a new Generator is made
(`seed s` is the state of `default_rng(s)`), used by `body` and dropped, and the caller's is not touched.  Models the line
at parla/comps/rangefinders.py:64, 184, parla/comps/qb.py:77, 162, 231, 349, 459, 565, parla/comps/sketchers/aware.py:161,
parla/comps/interpolative.py:123, 141, parla/drivers/evd.py:90, 160, 275, 363, parla/drivers/svd.py:117, 162,
parla/drivers/interpolative.py:89, 109, 138, 158, 248, 271, 349, 371, parla/drivers/least_squares.py:166, 295, 462,
parla/drivers/saddlesys.py:132, 269, parla/utils/sketching.py:13, 21, 51, 85, 205. -/
def defaultRng (seed : ℕ → G) (rng : RngArg G) (body : Py G α) : Py G α := fun w =>
  match rng with
  | .gen => body w
  | .int s => (body { w with rng := seed s }).map fun r => (r.1, { r.2 with rng := w.rng })
  | .none fresh => (body { w with rng := fresh }).map fun r => (r.1, { r.2 with rng := w.rng })

/-! ### Matrix generators -/

/-- `oblivious.SkOpGA()(n_rows, n_cols, rng)`: parla/comps/sketchers/oblivious.py:44-45, parla/utils/sketching.py:20-31. -/
noncomputable def gaussianArg (R : NpRng G) (seed : ℕ → G) (rng : RngArg G) : SkOpGen G := fun r c =>
  defaultRng seed rng (gaussianOperator R true r c)

/-- `oblivious.SkOpSJ(vec_nnz)(n_rows, n_cols, rng)`: parla/comps/sketchers/oblivious.py:54-55,
parla/utils/sketching.py:34-80. -/
noncomputable def sjltArg (R : NpRng G) (seed : ℕ → G) (vecNnz : ℕ) (rng : RngArg G) : SkOpGen G := fun r c =>
  defaultRng seed rng (sjltOperator R vecNnz r c)

/-- `srct_operator(n_rows, n_cols, rng)`: parla/utils/sketching.py:106-115, 179-201.  There is no conversion:
`rng.choice` is an `AttributeError` on an int and on None. -/
noncomputable def srctArg (la : LinAlg) (R : NpRng G) (rng : RngArg G) (r c : ℕ) : Py G (SkLinOp r c) :=
  match rng with
  | .gen => srctOperator la R r c
  | _ => Py.raise .attribute

/-! ### Components -/

/-- `RS1.__call__`: parla/comps/sketchers/aware.py:160-184 (`gen` is `self.sketch_op_gen`). -/
def RS1Arg (seed : ℕ → G) (gen : RngArg G → SkOpGen G) (numPass : ℤ) (stab : Stab) (pps : ℕ) (rng : RngArg G) :
    RowSketcher G := fun _ _ A k =>
  defaultRng seed rng (rs1Call (gen .gen) numPass stab pps A k)

/-- `RF1.__call__`: parla/comps/rangefinders.py:131-188. -/
def RF1Arg (seed : ℕ → G) (la : LinAlg) (rso : RngArg G → RowSketcher G) (rng : RngArg G) : RangeFinder G :=
  fun _ _ A k tol => defaultRng seed rng (rf1Call la (rso .gen) A k tol)

/-- `QB1.__call__`: parla/comps/qb.py:306-352. -/
noncomputable def QB1Arg (seed : ℕ → G) (rf : RngArg G → RangeFinder G) (rng : RngArg G) : QBDecomposer G :=
  fun _ _ A k tol => defaultRng seed rng (qb1Call (rf .gen) A k tol)

/-- `QB2.__call__`: parla/comps/qb.py:373-482; the rangefinder of every block gets the converted generator (line 470). -/
noncomputable def QB2Arg (seed : ℕ → G) (la : LinAlg) (rf : RngArg G → RangeFinder G) (blk : ℕ) (overwriteA : Bool)
    (rng : RngArg G) {m n : ℕ} (A : Matrix (Fin m) (Fin n) ℝ) (k : ℤ) (tol : Tol) :
    Py G (QBOut m n × Matrix (Fin m) (Fin n) ℝ) :=
  defaultRng seed rng (qb2Call la (rf .gen) blk overwriteA A k tol)

/-- A `QB2` object as a `QBDecomposer`. -/
noncomputable def QB2ArgD (seed : ℕ → G) (la : LinAlg) (rf : RngArg G → RangeFinder G) (blk : ℕ) (overwriteA : Bool)
    (rng : RngArg G) : QBDecomposer G := fun _ _ A k tol => do
  let r ← QB2Arg seed la rf blk overwriteA rng A k tol
  pure r.1

/-- `QB3.__call__`: parla/comps/qb.py:491-595. -/
noncomputable def QB3Arg (seed : ℕ → G) (la : LinAlg) (skOp : RngArg G → RowSketcher G) (blk : ℕ) (rng : RngArg G) :
    QBDecomposer G := fun _ _ A k tol => defaultRng seed rng (qb3Call la (skOp .gen) blk A k tol)

/-- `SVD1.__call__`: parla/drivers/svd.py:161-176. -/
noncomputable def SVD1Arg (seed : ℕ → G) (la : LinAlg) (qb : RngArg G → QBDecomposer G) (rng : RngArg G) :
    SVDecomposer G := fun _ _ A k tol over => defaultRng seed rng (svd1Call la (qb .gen) A k tol over)

/-- `EVD1.__call__`: parla/drivers/evd.py:218-289. -/
noncomputable def EVD1Arg (seed : ℕ → G) (la : LinAlg) (qb : RngArg G → QBDecomposer G) (rng : RngArg G)
    (A : Matrix (Fin n) (Fin n) ℝ) (k : ℤ) (tol : Tol) (over : ℕ) : Py G (EVDOut n) :=
  defaultRng seed rng (evd1Call la (qb .gen) A k tol over)

/-- `EVD2.__call__`: parla/drivers/evd.py:299-384. -/
noncomputable def EVD2Arg (seed : ℕ → G) (la : LinAlg) (skOp : RngArg G → RowSketcher G) (rng : RngArg G)
    (A : Matrix (Fin n) (Fin n) ℝ) (k : ℤ) (tol : Tol) (over : ℕ) : Py G (EVDOut n) :=
  defaultRng seed rng (evd2Call la (skOp .gen) A k tol over)

/-- `ROCS1.__call__`: parla/comps/interpolative.py:139-157. -/
def ROCS1Arg (seed : ℕ → G) (la : LinAlg) (skOp : RngArg G → RowSketcher G) (rng : RngArg G)
    (A : Matrix (Fin m) (Fin n) ℝ) (k over : ℕ) (axis : ℤ) : Py G (SelOut m n) :=
  defaultRng seed rng (rocs1Call la (skOp .gen) A k over axis)

/-- `OSID1.__call__` by axis: parla/drivers/interpolative.py:107-123. -/
noncomputable def OSID1Arg (seed : ℕ → G) (la : LinAlg) (skOp : RngArg G → RowSketcher G) (rng : RngArg G) :
    OneSidedID G where
  row := fun _ _ A k over => defaultRng seed rng ((OSID1 la (skOp .gen)).row _ _ A k over)
  col := fun _ _ A k over => defaultRng seed rng ((OSID1 la (skOp .gen)).col _ _ A k over)

/-- `OSID2.__call__` by axis: parla/drivers/interpolative.py:156-176. -/
def OSID2Arg (seed : ℕ → G) (la : LinAlg) (skOp : RngArg G → RowSketcher G) (rng : RngArg G) : OneSidedID G where
  row := fun _ _ A k over => defaultRng seed rng ((OSID2 la (skOp .gen)).row _ _ A k over)
  col := fun _ _ A k over => defaultRng seed rng ((OSID2 la (skOp .gen)).col _ _ A k over)

/-- `TSID1.__call__`: parla/drivers/interpolative.py:269-278. -/
noncomputable def TSID1Arg (seed : ℕ → G) (la : LinAlg) (osid : RngArg G → OneSidedID G) (rng : RngArg G)
    (A : Matrix (Fin m) (Fin n) ℝ) (k over : ℕ) : Py G (TSIDOut m n) :=
  defaultRng seed rng (tsid1Call la (osid .gen) A k over)

/-- `CUR1.__call__`: parla/drivers/interpolative.py:369-387. -/
noncomputable def CUR1Arg (seed : ℕ → G) (la : LinAlg) (osid : RngArg G → OneSidedID G) (rng : RngArg G)
    (A : Matrix (Fin m) (Fin n) ℝ) (k over : ℕ) : Py G (CUROut m n) :=
  defaultRng seed rng (cur1Call la (osid .gen) A k over)

/-! ### Procedural interfaces -/

/-- `rs1(A, k, num_pass, rng)`: parla/comps/sketchers/aware.py:9-30; there is no conversion before that of `RS1`. -/
noncomputable def rs1Arg (seed : ℕ → G) (R : NpRng G) (la : LinAlg) (A : Matrix (Fin m) (Fin n) ℝ) (k numPass : ℤ)
    (rng : RngArg G) : Py G (Cols n) := do
  Py.assert (numPass ≥ 0)
  Py.assert (k ≥ 1)
  Py.assert (k ≤ (min m n : ℕ))
  RS1Arg seed (gaussianArg R seed) numPass (orth la) 1 rng m n A k.toNat

/-- The sketcher `RS1(oblivious.SkOpGA(), num_pass, ulaw.orth, 1)` built by the interfaces below. -/
noncomputable def gaussRS (seed : ℕ → G) (R : NpRng G) (la : LinAlg) (numPass : ℤ) : RngArg G → RowSketcher G :=
  RS1Arg seed (gaussianArg R seed) numPass (orth la) 1

/-- `rf1(A, k, num_pass, rng)`: parla/comps/rangefinders.py:64-71. -/
noncomputable def rf1Arg (seed : ℕ → G) (R : NpRng G) (la : LinAlg) (A : Matrix (Fin m) (Fin n) ℝ) (k numPass : ℤ)
    (rng : RngArg G) : Py G (Cols m) :=
  defaultRng seed rng (RF1Arg seed la (gaussRS seed R la (numPass - 1)) .gen m n A k (.val 0))

/-- `qb(num_passes, A, k, rng)`: parla/comps/qb.py:77-82. -/
noncomputable def qbArg (seed : ℕ → G) (R : NpRng G) (la : LinAlg) (numPasses : ℤ) (A : Matrix (Fin m) (Fin n) ℝ) (k : ℤ)
    (rng : RngArg G) : Py G (QBOut m n) :=
  defaultRng seed rng (QB1Arg seed (RF1Arg seed la (gaussRS seed R la (numPasses - 2))) .gen m n A k .nan)

/-- `qb_b(inner_num_pass, blk, overwrite_A, A, k, tol, rng)`: parla/comps/qb.py:162-167. -/
noncomputable def qbBArg (seed : ℕ → G) (R : NpRng G) (la : LinAlg) (innerNumPass : ℤ) (blk : ℕ) (overwriteA : Bool)
    (A : Matrix (Fin m) (Fin n) ℝ) (k : ℤ) (tol : Tol) (rng : RngArg G) :
    Py G (QBOut m n × Matrix (Fin m) (Fin n) ℝ) :=
  defaultRng seed rng
    (QB2Arg seed la (RF1Arg seed la (gaussRS seed R la (innerNumPass - 2))) blk overwriteA .gen A k tol)

/-- `qb_b_pe(num_passes, blk, A, k, tol, rng)`: parla/comps/qb.py:231-234. -/
noncomputable def qbBPeArg (seed : ℕ → G) (R : NpRng G) (la : LinAlg) (numPasses : ℤ) (blk : ℕ)
    (A : Matrix (Fin m) (Fin n) ℝ) (k : ℤ) (tol : Tol) (rng : RngArg G) : Py G (QBOut m n) :=
  defaultRng seed rng (QB3Arg seed la (gaussRS seed R la (numPasses - 1)) blk .gen m n A k tol)

/-- `svd1(A, k, over, tol, inner_num_pass, block_size, rng)`: parla/drivers/svd.py:117-123. -/
noncomputable def svd1Arg (seed : ℕ → G) (R : NpRng G) (la : LinAlg) (A : Matrix (Fin m) (Fin n) ℝ) (k over : ℕ) (tol : Tol)
    (innerNumPass : ℤ) (blockSize : ℕ) (rng : RngArg G) : Py G (SVDOut m n) :=
  defaultRng seed rng (SVD1Arg seed la
    (QB2ArgD seed la (RF1Arg seed la (gaussRS seed R la (innerNumPass - 2))) blockSize false) .gen m n A k tol over)

/-- `evd1(A, k, tol, over, inner_num_pass, block_size, rng)`: parla/drivers/evd.py:89-96. -/
noncomputable def evd1Arg (seed : ℕ → G) (R : NpRng G) (la : LinAlg) (A : Matrix (Fin n) (Fin n) ℝ) (k : ℤ) (tol : Tol)
    (over : ℕ) (innerNumPass : ℤ) (blockSize : ℕ) (rng : RngArg G) : Py G (EVDOut n) := do
  Py.assert (innerNumPass ≥ 2)
  defaultRng seed rng (EVD1Arg seed la
    (QB2ArgD seed la (RF1Arg seed la (gaussRS seed R la (innerNumPass - 2))) blockSize false) .gen A k tol.half over)

/-- `evd2(A, k, over, num_passes, rng)`: parla/drivers/evd.py:159-164. -/
noncomputable def evd2Arg (seed : ℕ → G) (R : NpRng G) (la : LinAlg) (A : Matrix (Fin n) (Fin n) ℝ) (k : ℤ) (over : ℕ)
    (numPasses : ℤ) (rng : RngArg G) : Py G (EVDOut n) := do
  Py.assert (numPasses ≥ 1)
  defaultRng seed rng (EVD2Arg seed la (gaussRS seed R la (numPasses - 1)) .gen A k .nan over)

/-- `rocs1(A, k, over, p, axis, rng)`: parla/comps/interpolative.py:122-128. -/
noncomputable def rocs1Arg (seed : ℕ → G) (R : NpRng G) (la : LinAlg) (A : Matrix (Fin m) (Fin n) ℝ) (k over : ℕ) (p : ℤ)
    (axis : ℤ) (rng : RngArg G) : Py G (SelOut m n) :=
  defaultRng seed rng (ROCS1Arg seed la (gaussRS seed R la (p - 1)) .gen A k over axis)

/-- `osid1(A, k, over, p, axis, rng)`: parla/drivers/interpolative.py:88-94. -/
noncomputable def osid1Arg (seed : ℕ → G) (R : NpRng G) (la : LinAlg) (A : Matrix (Fin m) (Fin n) ℝ) (k over : ℕ) (p : ℤ)
    (axis : ℤ) (rng : RngArg G) : Py G (IDOut m n) :=
  defaultRng seed rng ((OSID1Arg seed la (gaussRS seed R la (p - 1)) .gen).call A k over axis)

/-- `osid2(A, k, over, p, axis, rng)`: parla/drivers/interpolative.py:137-143. -/
noncomputable def osid2Arg (seed : ℕ → G) (R : NpRng G) (la : LinAlg) (A : Matrix (Fin m) (Fin n) ℝ) (k over : ℕ) (p : ℤ)
    (axis : ℤ) (rng : RngArg G) : Py G (IDOut m n) :=
  defaultRng seed rng ((OSID2Arg seed la (gaussRS seed R la (p - 1)) .gen).call A k over axis)

/-- `tsid1(A, k, over, p, rng)`: parla/drivers/interpolative.py:247-254. -/
noncomputable def tsid1Arg (seed : ℕ → G) (R : NpRng G) (la : LinAlg) (A : Matrix (Fin m) (Fin n) ℝ) (k over : ℕ) (p : ℤ)
    (rng : RngArg G) : Py G (TSIDOut m n) :=
  defaultRng seed rng (TSID1Arg seed la (OSID1Arg seed la (gaussRS seed R la (p - 1))) .gen A k over)

/-- `cur1(A, k, over, p, rng)`: parla/drivers/interpolative.py:348-355. -/
noncomputable def cur1Arg (seed : ℕ → G) (R : NpRng G) (la : LinAlg) (A : Matrix (Fin m) (Fin n) ℝ) (k over : ℕ) (p : ℤ)
    (rng : RngArg G) : Py G (CUROut m n) :=
  defaultRng seed rng (CUR1Arg seed la (OSID1Arg seed la (gaussRS seed R la (p - 2))) .gen A k over)

/-- `sso1(A, b, delta, rng, ...)`: parla/drivers/least_squares.py:108-111, 166. -/
noncomputable def sso1Arg (seed : ℕ → G) (R : NpRng G) (la : LinAlg) (A : Matrix (Fin m) (Fin n) ℝ) (b : Fin m → ℝ)
    (delta : ℝ) (a : SketchArgs) (rng : RngArg G) : Py G (Fin n → ℝ) :=
  defaultRng seed rng (sso1Call la (sjltArg R seed a.vecNnz .gen) a.samplingFactor A b delta .nan 1)

/-- `spo1(A, b, delta, tol, iter_lim, rng, ...)`: parla/drivers/least_squares.py:193-196, 295. -/
noncomputable def spo1Arg (seed : ℕ → G) (R : NpRng G) (la : LinAlg) (A : Matrix (Fin m) (Fin n) ℝ) (b : Fin m → ℝ)
    (delta tol : ℝ) (iterLim : ℤ) (clock : LogTimes) (a : SketchArgs) (rng : RngArg G) : Py G (SPOOut n) :=
  defaultRng seed rng
    (spoCall la (sjltArg R seed a.vecNnz .gen) a.samplingFactor .svd A b delta tol iterLim true clock)

/-- `spo3(A, b, delta, tol, iter_lim, rng, ..., mode)`: parla/drivers/least_squares.py:200-203, 295. -/
noncomputable def spo3Arg (seed : ℕ → G) (R : NpRng G) (la : LinAlg) (A : Matrix (Fin m) (Fin n) ℝ) (b : Fin m → ℝ)
    (delta tol : ℝ) (iterLim : ℤ) (clock : LogTimes) (a : SketchArgs) (mode : SPOMode) (rng : RngArg G) : Py G (SPOOut n) :=
  defaultRng seed rng
    (spoCall la (sjltArg R seed a.vecNnz .gen) a.samplingFactor mode A b delta tol iterLim true clock)

/-- `spu1(A, c, tol, iter_lim, rng, ...)`: parla/drivers/least_squares.py:419-422, 462. -/
noncomputable def spu1Arg (seed : ℕ → G) (R : NpRng G) (la : LinAlg) (A : Matrix (Fin m) (Fin n) ℝ) (c : Fin n → ℝ)
    (tol : ℝ) (iterLim : ℤ) (clock : LogTimes) (a : SketchArgs) (rng : RngArg G) : Py G (SPUOut m) :=
  defaultRng seed rng (spu1Call la (sjltArg R seed a.vecNnz .gen) a.samplingFactor A c tol iterLim true clock)

/-- `sps(A, b, c, delta, tol, iter_lim, rng, ..., method)`: parla/drivers/saddlesys.py:77-86, 132. -/
noncomputable def spsArg (seed : ℕ → G) (R : NpRng G) (la : LinAlg) (A : Matrix (Fin m) (Fin n) ℝ)
    (b : Option (Fin m → ℝ)) (c : Option (Fin n → ℝ)) (delta tol : ℝ) (iterLim : ℤ) (clock : LogTimes)
    (a : SketchArgs) (method : SpsMethod) (rng : RngArg G) : Py G (SPSOut m n) :=
  match method with
  | .pcg => defaultRng seed rng
      (sps1Call la (sjltArg R seed a.vecNnz .gen) a.samplingFactor PcSS1 .left A b c delta tol iterLim true clock)
  | .lsqr => defaultRng seed rng
      (sps1Call la (sjltArg R seed a.vecNnz .gen) a.samplingFactor PcSS2 .left A b c delta tol iterLim true clock)
  | .other => Py.raise .value

end Parla
