import Verif.Base.Mem

/-! # Specification vocabulary of C92: what the calls of a function handle cost -/

namespace Parla.Spec

open Parla

/-- a quantity recorded in memory that the making and the overwriting of vectors do not change (say, a counter kept in an
object of another kind) -/
structure Meter (μ : Heap → ℝ) : Prop where
  new : ∀ (n : ℕ) (h : Heap) (v : Fin n → ℝ), μ (h.newV v) = μ h
  set : ∀ (n : ℕ) (h : Heap) (a : ℕ) (v : Fin n → ℝ), μ (h.setV a v) = μ h

/-- every call of the function handle `op` that returns adds `c` to `μ` -/
def Charges (μ : Heap → ℝ) (op : ℕ → Mem ℕ) (c : ℝ) : Prop :=
  ∀ x h a h', op x h = (.ok a, h') → μ h' = μ h + c

end Parla.Spec
