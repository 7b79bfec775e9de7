import Verif.Base.Rounding
import Verif.Model.QB
import Verif.Model.SVD

/-! # parla's QB and SVD routines with rounding errors

The same code as in Model/Aware, Model/Rangefinders, Model/QB and Model/SVD, every product, difference, factorisation and
norm being that of a `FlAlg`; with `exactFl la` these definitions are those (theorem C81_exact).  Transposition, stacking,
slicing and comparisons are exact.  A drawn sketching matrix is the array it is. -/

namespace Parla

open Matrix

variable {G : Type} {m n : ℕ}

/-- `A @ S`: parla/comps/sketchers/aware.py:175, parla/comps/rangefinders.py:186. -/
def passAFl (fl : FlAlg) (A : Matrix (Fin m) (Fin n) ℝ) (S : Cols n) : Py G (Cols m) := do
  Py.emit .mulA
  pure ⟨S.c, fl.mul A S.mat⟩

/-- `A.T @ S`: parla/comps/sketchers/aware.py:169, 179. -/
def passATFl (fl : FlAlg) (A : Matrix (Fin m) (Fin n) ℝ) (S : Cols m) : Py G (Cols n) := do
  Py.emit .mulAT
  pure ⟨S.c, fl.mul Aᵀ S.mat⟩

/-- `orth(S)`: parla/utils/linalg_wrappers.py:6-7. -/
def orthFl (fl : FlAlg) : Stab := fun _ S => ⟨_, (fl.qr S.mat).1⟩

/-- The loop of `RS1.__call__`: parla/comps/sketchers/aware.py:174-183. -/
def rs1LoopFl (fl : FlAlg) (stab : Stab) (pps : ℕ) (A : Matrix (Fin m) (Fin n) ℝ) :
    (q : ℕ) → (done : ℕ) → Cols n → Py G (Cols n)
  | 0, _, S => pure S
  | q + 1, done, S => do
    let Y ← passAFl fl A S
    let Y ← maybeStab stab pps (done + 1) Y
    let Z ← passATFl fl A Y
    let Z ← maybeStab stab pps (done + 2) Z
    rs1LoopFl fl stab pps A q (done + 2) Z

/-- `RS1.__call__`: parla/comps/sketchers/aware.py:118-184. -/
def rs1CallFl (fl : FlAlg) (gen : SkOpGen G) (numPass : ℤ) (stab : Stab) (pps : ℕ) (A : Matrix (Fin m) (Fin n) ℝ) (k : ℕ) :
    Py G (Cols n) := do
  Py.assert (numPass ≥ 0)
  if numPass % 2 = 0 then
    let S ← gen n k
    rs1LoopFl fl stab pps A ((numPass - 0) / 2).toNat 0 ⟨k, S⟩
  else
    let S0 ← gen m k
    let S ← passATFl fl A ⟨k, S0⟩
    let S ← (if pps = 1 then callStab stab S else pure S)
    rs1LoopFl fl stab pps A ((numPass - 1) / 2).toNat 1 S

/-- An `RS1` object as a `RowSketcher`. -/
def RS1Fl (fl : FlAlg) (gen : SkOpGen G) (numPass : ℤ) (stab : Stab) (pps : ℕ) : RowSketcher G :=
  fun _ _ A k => rs1CallFl fl gen numPass stab pps A k

/-- `RF1.__call__`: parla/comps/rangefinders.py:131-188. -/
def rf1CallFl (fl : FlAlg) (rso : RowSketcher G) (A : Matrix (Fin m) (Fin n) ℝ) (k : ℤ) (tol : Tol) : Py G (Cols m) := do
  Py.assert (k > 0)
  Py.assert (k ≤ (min m n : ℕ))
  if ¬ tol.isNaN then Py.warn else pure ()
  let S ← rso m n A k.toNat
  let Y ← passAFl fl A S
  pure ⟨_, (fl.qr Y.mat).1⟩

/-- An `RF1` object as a `RangeFinder`. -/
def RF1Fl (fl : FlAlg) (rso : RowSketcher G) : RangeFinder G := fun _ _ A k tol => rf1CallFl fl rso A k tol

/-- `QB1.__call__`: parla/comps/qb.py:306-352. -/
noncomputable def qb1CallFl (fl : FlAlg) (rf : RangeFinder G) (A : Matrix (Fin m) (Fin n) ℝ) (k : ℤ) (tol : Tol) :
    Py G (QBOut m n) := do
  Py.assert (k > 0)
  Py.assert (k ≤ (min m n : ℕ))
  assertTol tol
  let Q ← rf m n A k tol
  Py.emit .mulAT
  let B := fl.mul Q.matᵀ A
  pure ⟨Q.c, Q.mat, B⟩

/-- A `QB1` object as a `QBDecomposer`. -/
noncomputable def QB1Fl (fl : FlAlg) (rf : RangeFinder G) : QBDecomposer G := fun _ _ A k tol => qb1CallFl fl rf A k tol

/-- `qb(num_passes, A, k, rng)`: parla/comps/qb.py:16-82. -/
noncomputable def qbFl (fl : FlAlg) (gauss : SkOpGen G) (numPasses : ℤ) (A : Matrix (Fin m) (Fin n) ℝ) (k : ℤ) :
    Py G (QBOut m n) :=
  qb1CallFl fl (RF1Fl fl (RS1Fl fl gauss (numPasses - 2) (orthFl fl) 1)) A k .nan

/-- `project_out(Qi, Q, as_list=False)`: parla/comps/qb.py:603-613. -/
def projectOutFl (fl : FlAlg) {a b : ℕ} (Qi : Matrix (Fin m) (Fin a) ℝ) (Q : Matrix (Fin m) (Fin b) ℝ) :
    Matrix (Fin m) (Fin a) ℝ :=
  fl.sub Qi (fl.mul Q (fl.mul Qᵀ Qi))

/-- parla/comps/qb.py:469-477, given what the rangefinder returned. -/
noncomputable def qb2UpdateFl (fl : FlAlg) (blk : ℕ) (st : QB2St m n) (out : Cols m) : QB2St m n :=
  let Qi := (fl.qr (projectOutFl fl out.mat st.Q)).1
  let Bi := fl.mul Qiᵀ st.A
  { c := st.c + min m out.c
    Q := hcat st.Q Qi
    B := vcat st.B Bi
    A := fl.sub st.A (fl.mul Qi Bi)
    sqn := fl.ssub st.sqn (fl.smul (fl.norm Bi) (fl.norm Bi))
    blk := blk
    calls := st.calls ++ [⟨st.A, blk, out⟩] }

open Classical in
/-- The loop `while True` of `QB2.__call__` (parla/comps/qb.py:463-481) with fuel. -/
noncomputable def qb2LoopFl (fl : FlAlg) (rf : RangeFinder G) (k : ℕ) (useTol : Prop) (absSqTol : ℝ) :
    (fuel : ℕ) → QB2St m n → Py G (QB2St m n)
  | 0, _ => Py.raise .nonTermination
  | fuel + 1, st => do
    let blk := qb2Blk k st.c st.blk
    let out ← qb2Draw rf st.A blk
    let st' := qb2UpdateFl fl blk st out
    if useTol ∧ st'.sqn ≤ absSqTol then pure st'
    else if st'.c ≥ k then pure st'
    else qb2LoopFl fl rf k useTol absSqTol fuel st'

/-- `sq_norm_A * sq_tol` (parla/comps/qb.py:455-458); 0 stands for "undefined" when `use_tol` is False. -/
noncomputable def absSqTolFl (fl : FlAlg) (tol : Tol) (A : Matrix (Fin m) (Fin n) ℝ) : ℝ :=
  match tol with
  | .nan => 0
  | .val t => fl.smul (fl.smul (fl.norm A) (fl.norm A)) (fl.smul t t)

/-- Locals before the loop (parla/comps/qb.py:454-462). -/
noncomputable def qb2InitFl (fl : FlAlg) (A : Matrix (Fin m) (Fin n) ℝ) (blk : ℕ) : QB2St m n :=
  { c := 0, Q := 0, B := 0, A := A, sqn := fl.smul (fl.norm A) (fl.norm A), blk := blk, calls := [] }

/-- `QB2.__call__` (parla/comps/qb.py:373-482) with all locals, as `qb2Run`. -/
noncomputable def qb2RunFl (fl : FlAlg) (rf : RangeFinder G) (blk : ℕ) (A : Matrix (Fin m) (Fin n) ℝ) (k : ℤ) (tol : Tol) :
    Py G (QB2St m n) := do
  Py.assert (k > 0)
  let k' ← (if ¬ k ≤ (min m n : ℕ) then do Py.warn; pure ((min m n : ℕ) : ℤ) else pure k)
  Py.assert (k' ≤ (min m n : ℕ))
  qb2LoopFl fl rf k'.toNat tol.use (absSqTolFl fl tol A) (k'.toNat + 1) (qb2InitFl fl A blk)

/-- `QB2.__call__` as the caller sees it: the returned pair and the caller's array afterwards (parla/comps/qb.py:373-482). -/
noncomputable def qb2CallFl (fl : FlAlg) (rf : RangeFinder G) (blk : ℕ) (overwriteA : Bool) (A : Matrix (Fin m) (Fin n) ℝ)
    (k : ℤ) (tol : Tol) : Py G (QBOut m n × Matrix (Fin m) (Fin n) ℝ) := do
  let st ← qb2RunFl fl rf blk A k tol
  pure (⟨st.c, st.Q, st.B⟩, if overwriteA then st.A else A)

/-- A `QB2` object as a `QBDecomposer`. -/
noncomputable def QB2Fl (fl : FlAlg) (rf : RangeFinder G) (blk : ℕ) (overwriteA : Bool) : QBDecomposer G :=
  fun _ _ A k tol => do
    let r ← qb2CallFl fl rf blk overwriteA A k tol
    pure r.1

/-- `qb_b(inner_num_pass, blk, overwrite_A, A, k, tol, rng)`: parla/comps/qb.py:85-167. -/
noncomputable def qbBFl (fl : FlAlg) (gauss : SkOpGen G) (innerNumPass : ℤ) (blk : ℕ) (overwriteA : Bool)
    (A : Matrix (Fin m) (Fin n) ℝ) (k : ℤ) (tol : Tol) : Py G (QBOut m n × Matrix (Fin m) (Fin n) ℝ) :=
  qb2CallFl fl (RF1Fl fl (RS1Fl fl gauss (innerNumPass - 2) (orthFl fl) 1)) blk overwriteA A k tol

/-- `SVD1.__call__`: parla/drivers/svd.py:161-176. -/
noncomputable def svd1CallFl (fl : FlAlg) (qb : QBDecomposer G) (A : Matrix (Fin m) (Fin n) ℝ) (k : ℕ) (tol : Tol)
    (over : ℕ) : Py G (SVDOut m n) := do
  let qbo ← qb m n A ((k + over : ℕ) : ℤ) tol
  let t : SVDOut qbo.c n := ⟨_, (fl.svd qbo.B).1, (fl.svd qbo.B).2.1, (fl.svd qbo.B).2.2⟩
  let t := if over > 0 then t.take k else t
  let t := t.dropBelow (10 * eps)
  pure ⟨t.r, fl.mul qbo.Q t.U, t.s, t.Vh⟩

/-- `svd1(A, k, over, tol, inner_num_pass, block_size, rng)`: parla/drivers/svd.py:58-123. -/
noncomputable def svd1Fl (fl : FlAlg) (gauss : SkOpGen G) (A : Matrix (Fin m) (Fin n) ℝ) (k over : ℕ) (tol : Tol)
    (innerNumPass : ℤ) (blockSize : ℕ) : Py G (SVDOut m n) :=
  svd1CallFl fl (QB2Fl fl (RF1Fl fl (RS1Fl fl gauss (innerNumPass - 2) (orthFl fl) 1)) blockSize false) A k tol over

end Parla
