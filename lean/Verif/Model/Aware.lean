import Verif.Base.Iface
import Verif.Model.LinalgWrappers

/-! # Model of parla/comps/sketchers/aware.py -/

namespace Parla

open Matrix

variable {G : Type}

/-- `A @ S` (one pass over the data matrix; the event is recorded). -/
def passA {m n : ℕ} (A : Matrix (Fin m) (Fin n) ℝ) (S : Cols n) : Py G (Cols m) := do
  Py.emit .mulA
  pure ⟨S.c, A * S.mat⟩

/-- `A.T @ S` (one pass over the data matrix; the event is recorded). -/
def passAT {m n : ℕ} (A : Matrix (Fin m) (Fin n) ℝ) (S : Cols m) : Py G (Cols n) := do
  Py.emit .mulAT
  pure ⟨S.c, Aᵀ * S.mat⟩

/-- `self.stabilizer(S)` (the event is recorded). -/
def callStab (stab : Stab) {r : ℕ} (S : Cols r) : Py G (Cols r) := do
  Py.emit .stab
  pure (stab r S)

/-- `if passes_done % self.passes_per_stab == 0: S = self.stabilizer(S)`
(parla/comps/sketchers/aware.py:177-178, 181-182); `% 0` raises `ZeroDivisionError`. -/
def maybeStab (stab : Stab) (pps done : ℕ) {r : ℕ} (S : Cols r) : Py G (Cols r) :=
  if pps = 0 then Py.raise .zeroDivision
  else if done % pps = 0 then callStab stab S
  else pure S

/-- The loop `while q > 0` (parla/comps/sketchers/aware.py:174-183), by recursion on `q`;
`done` is `passes_done` on entry. -/
def rs1Loop (stab : Stab) (pps : ℕ) {m n : ℕ} (A : Matrix (Fin m) (Fin n) ℝ) :
    (q : ℕ) → (done : ℕ) → Cols n → Py G (Cols n)
  | 0, _, S => pure S
  | q + 1, done, S => do
    let Y ← passA A S
    let Y ← maybeStab stab pps (done + 1) Y
    let Z ← passAT A Y
    let Z ← maybeStab stab pps (done + 2) Z
    rs1Loop stab pps A q (done + 2) Z

/-- `RS1.__call__`: parla/comps/sketchers/aware.py:118-184.  `numPass` is a Python int;
`passes_per_stab` is taken to be a natural number. -/
def rs1Call (gen : SkOpGen G) (numPass : ℤ) (stab : Stab) (pps : ℕ) {m n : ℕ}
    (A : Matrix (Fin m) (Fin n) ℝ) (k : ℕ) : Py G (Cols n) := do
  Py.assert (numPass ≥ 0)
  if numPass % 2 = 0 then
    let S ← gen n k
    rs1Loop stab pps A ((numPass - 0) / 2).toNat 0 ⟨k, S⟩
  else
    let S0 ← gen m k
    let S ← passAT A ⟨k, S0⟩
    let S ← (if pps = 1 then callStab stab S else pure S)
    rs1Loop stab pps A ((numPass - 1) / 2).toNat 1 S

/-- An `RS1` object as a `RowSketcher`. -/
def RS1 (gen : SkOpGen G) (numPass : ℤ) (stab : Stab) (pps : ℕ) : RowSketcher G :=
  fun _ _ A k => rs1Call gen numPass stab pps A k

/-- `rs1(A, k, num_pass, rng)`: parla/comps/sketchers/aware.py:9-30; `gauss` models
`usk.gaussian_operator`. -/
def rs1 (la : LinAlg) (gauss : SkOpGen G) {m n : ℕ} (A : Matrix (Fin m) (Fin n) ℝ) (k : ℤ)
    (numPass : ℤ) : Py G (Cols n) := do
  Py.assert (numPass ≥ 0)
  Py.assert (k ≥ 1)
  Py.assert (k ≤ (min m n : ℕ))
  rs1Call gauss numPass (orth la) 1 A k.toNat

end Parla
