import Verif.Base.Mem
import Verif.Model.QB

/-! # QB2 with arrays as mutable objects

parla/comps/qb.py:373-482 again, statement by statement, `A` being the address of an array.  Local
arrays that are never shared (`Q`, `B`, `Qi`, `Bi`) are passed by value and get an address when they
are returned.  A rangefinder reads `A` (whatever its content is when it is called) and returns a new
array; the state of the world (random numbers, warnings) is threaded through explicitly. -/

namespace Parla

open Matrix

variable {G : Type}

/-- The local variables of the loop (parla/comps/qb.py:454-482) other than `A`. -/
structure QB2Locals (m n : ℕ) where
  c : ℕ
  Q : Matrix (Fin m) (Fin c) ℝ
  B : Matrix (Fin c) (Fin n) ℝ
  sqn : ℝ
  blk : ℕ

/-- The pair `(Q, B)` by address, with the number of columns of `Q`. -/
structure QBRefs where
  c : ℕ
  Q : ℕ
  B : ℕ

/-- parla/comps/qb.py:464-477 -/
noncomputable def qb2StepM (la : LinAlg) (rf : RangeFinder G) (k : ℕ) {m n : ℕ} (A : ℕ) (s : QB2Locals m n)
    (w : World G) : Mem (QB2Locals m n × World G) := do
  let blk := qb2Blk k s.c s.blk
  let (out, w) ← Mem.lift (qb2Draw rf (← getMat m n A) blk w)
  let Qi := (la.qr (projectOut out.mat s.Q)).1
  let Bi := Qiᵀ * (← getMat m n A)
  setMat A ((← getMat m n A) - Qi * Bi)
  pure (⟨s.c + min m out.c, hcat s.Q Qi, vcat s.B Bi, s.sqn - fro Bi ^ 2, blk⟩, w)

open Classical in
/-- The loop `while True` (parla/comps/qb.py:463-481) with fuel. -/
noncomputable def qb2LoopM (la : LinAlg) (rf : RangeFinder G) (k : ℕ) (useTol : Prop) (absSqTol : ℝ) {m n : ℕ}
    (A : ℕ) : (fuel : ℕ) → QB2Locals m n → World G → Mem (QB2Locals m n × World G)
  | 0, _, _ => Mem.raise .nonTermination
  | fuel + 1, s, w => do
    let (s, w) ← qb2StepM la rf k A s w
    if useTol ∧ s.sqn ≤ absSqTol then pure (s, w)
    else if s.c ≥ k then pure (s, w)
    else qb2LoopM la rf k useTol absSqTol A fuel s w

/-- The part of `QB2.__call__` after the copy: parla/comps/qb.py:444-482. -/
noncomputable def qb2BodyM (la : LinAlg) (rf : RangeFinder G) (blk : ℕ) (m n : ℕ) (A : ℕ) (k : ℤ) (tol : Tol)
    (w : World G) : Mem (QBRefs × World G) := do
  let (_, w) ← Mem.lift (Py.assert (k > 0) w)
  let (k', w) ← Mem.lift ((if ¬ k ≤ (min m n : ℕ) then do Py.warn; pure ((min m n : ℕ) : ℤ) else pure k : Py G ℤ) w)
  let (_, w) ← Mem.lift (Py.assert (k' ≤ (min m n : ℕ)) w)
  let A0 ← getMat m n A
  let (s, w) ← qb2LoopM la rf k'.toNat tol.use (absSqTol tol A0) A (k'.toNat + 1)
    (⟨0, 0, 0, fro A0 ^ 2, blk⟩ : QB2Locals m n) w
  let Q ← newMat s.Q
  let B ← newMat s.B
  pure (⟨s.c, Q, B⟩, w)

/-- `QB2.__call__`: parla/comps/qb.py:373-482. -/
noncomputable def qb2M (la : LinAlg) (rf : RangeFinder G) (blk : ℕ) (overwriteA : Bool) (m n : ℕ) (A : ℕ) (k : ℤ)
    (tol : Tol) (w : World G) : Mem (QBRefs × World G) := do
  let A ← (if ¬ overwriteA then do newMat (← getMat m n A) else pure A : Mem ℕ)
  qb2BodyM la rf blk m n A k tol w

end Parla
