import Verif.SpecLowRank

/-! # Specification vocabulary of C93: single singular values, eigenvalues and their vectors -/

namespace Parla.Spec

open Matrix Parla

/-- the `i`-th entry of a list of singular values (or eigenvalues), counted from 0 and continued by zeros -/
def nth {r : ℕ} (s : Fin r → ℝ) (i : ℕ) : ℝ := if h : i < r then s ⟨i, h⟩ else 0

/-- the spectral norm of `E` is at most `e` -/
def SpecNormLE {m n : ℕ} (E : Matrix (Fin m) (Fin n) ℝ) (e : ℝ) : Prop := ∀ x, norm2 (E *ᵥ x) ≤ e * norm2 x

/-- `A = W diag(mu) W'` is an eigendecomposition of the symmetric matrix `A`, eigenvalues in non-increasing order -/
structure IsEVD {n : ℕ} (A W : Matrix (Fin n) (Fin n) ℝ) (mu : Fin n → ℝ) : Prop where
  orth : OrthoCols W
  anti : Antitone mu
  eq : A = W * diagonal mu * Wᵀ

/-- `v` is within `d` of some linear combination of the columns `j ∈ S` of `V` -/
def NearSpan {n r : ℕ} (V : Matrix (Fin n) (Fin r) ℝ) (S : Set (Fin r)) (v : Fin n → ℝ) (d : ℝ) : Prop :=
  ∃ y : Fin r → ℝ, (∀ j, j ∉ S → y j = 0) ∧ norm2 (v - V *ᵥ y) ≤ d

end Parla.Spec
