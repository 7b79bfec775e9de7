import Verif.Model.Rangefinders

/-! # Model of parla/comps/qb.py -/

namespace Parla

open Matrix

variable {G : Type}

/-- `project_out(Qi, Q, as_list=False)`: parla/comps/qb.py:603-613. -/
def projectOut {m a b : ℕ} (Qi : Matrix (Fin m) (Fin a) ℝ) (Q : Matrix (Fin m) (Fin b) ℝ) :
    Matrix (Fin m) (Fin a) ℝ :=
  Qi - Q * (Qᵀ * Qi)

open Classical in
/-- `if not np.isnan(tol): assert tol >= 0; assert tol < 1` (parla/comps/qb.py:346-348). -/
noncomputable def assertTol : Tol → Py G Unit
  | .nan => pure ()
  | .val t => do
    Py.assert (t ≥ 0)
    Py.assert (t < 1)

open Classical in
/-- `QB1.__call__`: parla/comps/qb.py:306-352 (`Q.T @ A` is recorded as a pass over `A`). -/
noncomputable def qb1Call (rf : RangeFinder G) {m n : ℕ} (A : Matrix (Fin m) (Fin n) ℝ) (k : ℤ) (tol : Tol) :
    Py G (QBOut m n) := do
  Py.assert (k > 0)
  Py.assert (k ≤ (min m n : ℕ))
  assertTol tol
  let Q ← rf m n A k tol
  Py.emit .mulAT
  let B := Q.matᵀ * A
  pure ⟨Q.c, Q.mat, B⟩

/-- A `QB1` object as a `QBDecomposer`. -/
noncomputable def QB1 (rf : RangeFinder G) : QBDecomposer G := fun _ _ A k tol => qb1Call rf A k tol

/-- `qb(num_passes, A, k, rng)`: parla/comps/qb.py:16-82. -/
noncomputable def qb (la : LinAlg) (gauss : SkOpGen G) (numPasses : ℤ) {m n : ℕ}
    (A : Matrix (Fin m) (Fin n) ℝ) (k : ℤ) : Py G (QBOut m n) :=
  qb1Call (RF1 la (RS1 gauss (numPasses - 2) (orth la) 1)) A k .nan

/-- Ghost record of one rangefinder call made by `QB2`: the current contents of `A`, the block
size requested, and the array returned. -/
structure RFCall (m n : ℕ) where
  A : Matrix (Fin m) (Fin n) ℝ
  blk : ℕ
  out : Cols m

/-- Local variables of the loop of `QB2.__call__` (parla/comps/qb.py:454-482) plus the ghost
list of rangefinder calls, oldest first.  `sqn` is `sq_norm_A`; when `use_tol` is False Python
leaves it undefined and never reads it. -/
structure QB2St (m n : ℕ) where
  c : ℕ
  Q : Matrix (Fin m) (Fin c) ℝ
  B : Matrix (Fin c) (Fin n) ℝ
  A : Matrix (Fin m) (Fin n) ℝ
  sqn : ℝ
  blk : ℕ
  calls : List (RFCall m n)

/-- `if B.shape[0] + blk > k: blk = k - B.shape[0]` (parla/comps/qb.py:464-465).  `B.shape[0]`
never exceeds `k` when this runs, so natural subtraction is exact. -/
def qb2Blk (k c blk : ℕ) : ℕ := if c + blk > k then k - c else blk

/-- The effect of parla/comps/qb.py:469-477 given what the rangefinder returned. -/
noncomputable def qb2Update (la : LinAlg) {m n : ℕ} (blk : ℕ) (st : QB2St m n) (out : Cols m) :
    QB2St m n :=
  let Qi := (la.qr (projectOut out.mat st.Q)).1
  let Bi := Qiᵀ * st.A
  { c := st.c + min m out.c
    Q := hcat st.Q Qi
    B := vcat st.B Bi
    A := st.A - Qi * Bi
    sqn := st.sqn - fro Bi ^ 2
    blk := blk
    calls := st.calls ++ [⟨st.A, blk, out⟩] }

/-- `Qi = self.rangefinder(A, blk, np.NaN, rng)` (parla/comps/qb.py:466), and the record of the pass over `A` made by
the product `Bi = Qi.T @ A` that follows it (line 471; its value is computed in `qb2Update`). -/
def qb2Draw (rf : RangeFinder G) {m n : ℕ} (A : Matrix (Fin m) (Fin n) ℝ) (blk : ℕ) : Py G (Cols m) := do
  let out ← rf m n A blk .nan
  Py.emit .mulAT
  pure out

open Classical in
/-- The loop `while True` (parla/comps/qb.py:463-481) with fuel. -/
noncomputable def qb2Loop (la : LinAlg) (rf : RangeFinder G) (k : ℕ) (useTol : Prop)
    (absSqTol : ℝ) {m n : ℕ} : (fuel : ℕ) → QB2St m n → Py G (QB2St m n)
  | 0, _ => Py.raise .nonTermination
  | fuel + 1, st => do
    let blk := qb2Blk k st.c st.blk
    let out ← qb2Draw rf st.A blk
    let st' := qb2Update la blk st out
    if useTol ∧ st'.sqn ≤ absSqTol then pure st'
    else if st'.c ≥ k then pure st'
    else qb2Loop la rf k useTol absSqTol fuel st'

/-- `sq_norm_A * sq_tol` (parla/comps/qb.py:455-458, 559-562); 0 stands for "undefined" when
`use_tol` is False. -/
noncomputable def absSqTol (tol : Tol) {m n : ℕ} (A : Matrix (Fin m) (Fin n) ℝ) : ℝ :=
  match tol with
  | .nan => 0
  | .val t => fro A ^ 2 * t ^ 2

/-- Locals before the loop (parla/comps/qb.py:454-462). -/
noncomputable def qb2Init {m n : ℕ} (A : Matrix (Fin m) (Fin n) ℝ) (blk : ℕ) : QB2St m n :=
  { c := 0, Q := 0, B := 0, A := A, sqn := fro A ^ 2, blk := blk, calls := [] }

/-- `QB2.__call__` (parla/comps/qb.py:373-482), returning all locals (the result `(Q, B)`, the
working array, and the ghost list of calls).  Fuel `k + 1` is never exhausted (proved). -/
noncomputable def qb2Run (la : LinAlg) (rf : RangeFinder G) (blk : ℕ) {m n : ℕ}
    (A : Matrix (Fin m) (Fin n) ℝ) (k : ℤ) (tol : Tol) : Py G (QB2St m n) := do
  Py.assert (k > 0)
  let k' ← (if ¬ k ≤ (min m n : ℕ) then do Py.warn; pure ((min m n : ℕ) : ℤ) else pure k)
  Py.assert (k' ≤ (min m n : ℕ))
  qb2Loop la rf k'.toNat tol.use (absSqTol tol A) (k'.toNat + 1) (qb2Init A blk)

/-- `QB2.__call__` as the caller sees it: the returned pair and the contents of the caller's
array afterwards.  `A = np.copy(A)` (parla/comps/qb.py:442-443) detaches the working array
from the caller's; otherwise `A -= Qi @ Bi` (line 475) writes to the caller's array. -/
noncomputable def qb2Call (la : LinAlg) (rf : RangeFinder G) (blk : ℕ) (overwriteA : Bool)
    {m n : ℕ} (A : Matrix (Fin m) (Fin n) ℝ) (k : ℤ) (tol : Tol) :
    Py G (QBOut m n × Matrix (Fin m) (Fin n) ℝ) := do
  let st ← qb2Run la rf blk A k tol
  pure (⟨st.c, st.Q, st.B⟩, if overwriteA then st.A else A)

/-- A `QB2` object as a `QBDecomposer`. -/
noncomputable def QB2 (la : LinAlg) (rf : RangeFinder G) (blk : ℕ) (overwriteA : Bool) :
    QBDecomposer G :=
  fun _ _ A k tol => do
    let r ← qb2Call la rf blk overwriteA A k tol
    pure r.1

/-- `qb_b(inner_num_pass, blk, overwrite_A, A, k, tol, rng)`: parla/comps/qb.py:85-167. -/
noncomputable def qbB (la : LinAlg) (gauss : SkOpGen G) (innerNumPass : ℤ) (blk : ℕ)
    (overwriteA : Bool) {m n : ℕ} (A : Matrix (Fin m) (Fin n) ℝ) (k : ℤ) (tol : Tol) :
    Py G (QBOut m n × Matrix (Fin m) (Fin n) ℝ) :=
  qb2Call la (RF1 la (RS1 gauss (innerNumPass - 2) (orth la) 1)) blk overwriteA A k tol

/-- Loop state of `QB3.__call__`. -/
structure QB3St (m n : ℕ) where
  c : ℕ
  Q : Matrix (Fin m) (Fin c) ℝ
  B : Matrix (Fin c) (Fin n) ℝ
  sqn : ℝ

/-- One iteration of the loop of `QB3.__call__` up to line 592 (parla/comps/qb.py:578-592).
`h`-guard: `la.solve_triangular` raises `ValueError` if `Ri` is not square. -/
noncomputable def qb3Step (la : LinAlg) {m n : ℕ} (S : Cols n) (Gm : Matrix (Fin m) (Fin S.c) ℝ)
    (H : Matrix (Fin n) (Fin S.c) ℝ) (a b : ℕ) (st : QB3St m n) : Except PyErr (QB3St m n) :=
  let Si := colSlice a b S.mat
  let BSi := st.B * Si
  let Yi := colSlice a b Gm - st.Q * BSi
  let Q1 := (la.qr Yi).1
  let R1 := (la.qr Yi).2
  let Q1' := projectOut Q1 st.Q
  let Q2 := (la.qr Q1').1
  let Rhat := (la.qr Q1').2
  let Ri := Rhat * R1
  let Bi := (colSlice a b H)ᵀ - (Yiᵀ * st.Q) * st.B - BSiᵀ * st.B
  if h : min m (min m (min b S.c - a)) = min b S.c - a then do
    let Bi ← solveUpperT (castRows h Ri) Bi
    .ok { c := st.c + (min b S.c - a)
          Q := hcat st.Q (castCols h Q2)
          B := vcat st.B Bi
          sqn := st.sqn - fro Bi ^ 2 }
  else .error .value

open Classical in
/-- The loop `for i in range(ceil(k/blk))` (parla/comps/qb.py:577-594): `rem` iterations remain
and `i` have been done. -/
noncomputable def qb3Loop (la : LinAlg) {m n : ℕ} (S : Cols n) (Gm : Matrix (Fin m) (Fin S.c) ℝ)
    (H : Matrix (Fin n) (Fin S.c) ℝ) (k blk : ℕ) (useTol : Prop) (absSqTol : ℝ) :
    (rem i : ℕ) → QB3St m n → Except PyErr (QB3St m n)
  | 0, _, st => .ok st
  | rem + 1, i, st => do
    let st' ← qb3Step la S Gm H (i * blk) (min ((i + 1) * blk) k) st
    if useTol ∧ st'.sqn ≤ absSqTol then .ok st'
    else qb3Loop la S Gm H k blk useTol absSqTol rem (i + 1) st'

/-- `int(np.ceil(k/blk))` for `blk > 0` -/
def ceilDiv' (k blk : ℕ) : ℕ := (k + blk - 1) / blk

/-- `QB3.__call__`: parla/comps/qb.py:493-595.  The sketcher is assumed to return an ndarray
(the `isinstance` check at 568-574 is not modelled). -/
noncomputable def qb3Call (la : LinAlg) (skOp : RowSketcher G) (blk : ℕ) {m n : ℕ}
    (A : Matrix (Fin m) (Fin n) ℝ) (k : ℤ) (tol : Tol) : Py G (QBOut m n) := do
  Py.assert (k > 0)
  Py.assert (k < (min m n : ℕ))
  let S ← skOp m n A k.toNat
  Py.emit .mulA
  let Gm := A * S.mat
  Py.emit .mulAT
  let H := Aᵀ * Gm
  if blk = 0 then Py.raise .zeroDivision
  else do
    let st ← Py.lift (qb3Loop la S Gm H k.toNat blk tol.use
      (absSqTol tol A) (ceilDiv' k.toNat blk) 0
      { c := 0, Q := 0, B := 0, sqn := fro A ^ 2 })
    pure ⟨st.c, st.Q, st.B⟩

/-- A `QB3` object as a `QBDecomposer`. -/
noncomputable def QB3 (la : LinAlg) (skOp : RowSketcher G) (blk : ℕ) : QBDecomposer G :=
  fun _ _ A k tol => qb3Call la skOp blk A k tol

/-- `qb_b_pe(num_passes, blk, A, k, tol, rng)`: parla/comps/qb.py:170-234. -/
noncomputable def qbBPe (la : LinAlg) (gauss : SkOpGen G) (numPasses : ℤ) (blk : ℕ) {m n : ℕ}
    (A : Matrix (Fin m) (Fin n) ℝ) (k : ℤ) (tol : Tol) : Py G (QBOut m n) :=
  qb3Call la (RS1 gauss (numPasses - 1) (orth la) 1) blk A k tol

end Parla
