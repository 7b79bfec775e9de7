import Verif.Base.Py
import Verif.Base.Mat

/-!
# Arithmetic with rounding errors: vectors

`FlVec` are the vector and scalar operations of `pcg` and `PcSS1` as a machine performs them; `FlVec.Accurate` is their
first-order specification (Higham, *Accuracy and Stability of Numerical Algorithms*: 2.4 for the elementwise operations, 3.1
and 3.5 for norms and products).  Nothing is assumed of inner products and quotients.  Vectors are finite: overflow is not
modelled.
-/

namespace Parla

open Matrix

/-- Vector and scalar operations as a machine performs them. -/
structure FlVec where
  /-- `u + v` -/
  add : ∀ {n : ℕ}, (Fin n → ℝ) → (Fin n → ℝ) → Fin n → ℝ
  /-- `u - v` -/
  sub : ∀ {n : ℕ}, (Fin n → ℝ) → (Fin n → ℝ) → Fin n → ℝ
  /-- `a * v` -/
  smul : ∀ {n : ℕ}, ℝ → (Fin n → ℝ) → Fin n → ℝ
  /-- `np.dot(u, v)` -/
  dot : ∀ {n : ℕ}, (Fin n → ℝ) → (Fin n → ℝ) → ℝ
  /-- `la.norm(v)` -/
  norm : ∀ {n : ℕ}, (Fin n → ℝ) → ℝ
  /-- `X @ v` -/
  mulv : ∀ {m n : ℕ}, Matrix (Fin m) (Fin n) ℝ → (Fin n → ℝ) → Fin m → ℝ
  /-- `s * t` -/
  mul : ℝ → ℝ → ℝ
  /-- `s / t`; `none` stands for infinity or NaN -/
  div : ℝ → ℝ → Option ℝ

open Classical in
/-- Exact arithmetic. -/
noncomputable def exactVec : FlVec where
  add u v := u + v
  sub u v := u - v
  smul a v := a • v
  dot u v := u ⬝ᵥ v
  norm v := norm2 v
  mulv X v := X *ᵥ v
  mul s t := s * t
  div s t := if t = 0 then none else some (s / t)

/-- The operations are accurate to `ε` on arrays whose dimensions are at most `N`. -/
structure FlVec.Accurate (fl : FlVec) (N : ℕ) (ε : ℝ) : Prop where
  add : ∀ {n : ℕ} (u v : Fin n → ℝ), norm2 (fl.add u v - (u + v)) ≤ ε * norm2 (u + v)
  sub : ∀ {n : ℕ} (u v : Fin n → ℝ), norm2 (fl.sub u v - (u - v)) ≤ ε * norm2 (u - v)
  smul : ∀ {n : ℕ} (a : ℝ) (v : Fin n → ℝ), norm2 (fl.smul a v - a • v) ≤ ε * norm2 (a • v)
  norm : ∀ {n : ℕ} (v : Fin n → ℝ), n ≤ N → |fl.norm v - norm2 v| ≤ ε * norm2 v
  mulv : ∀ {m n : ℕ} (X : Matrix (Fin m) (Fin n) ℝ) (v : Fin n → ℝ), m ≤ N → n ≤ N →
    norm2 (fl.mulv X v - X *ᵥ v) ≤ ε * fro X * norm2 v
  mul : ∀ s t : ℝ, |fl.mul s t - s * t| ≤ ε * |s * t|

end Parla
