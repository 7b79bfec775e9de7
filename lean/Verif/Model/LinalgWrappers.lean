import Verif.Base.Iface

/-! # Model of parla/utils/linalg_wrappers.py -/

namespace Parla

open Matrix

/-- `orth(S)`: parla/utils/linalg_wrappers.py:6-7. -/
def orth (la : LinAlg) : Stab := fun _ S => ⟨_, (la.qr S.mat).1⟩

/-- `lu_stabilize(S)`: parla/utils/linalg_wrappers.py:10-12.  `la.lu(S, permute_l=True)[0]` is
the product `P L` of the factors of `la.lu(S)`. -/
def luStabilize (la : LinAlg) : Stab := fun _ S =>
  ⟨_, permMat (la.lu S.mat).1 * (la.lu S.mat).2.1⟩

/-- `lupt(M)`: parla/utils/linalg_wrappers.py:15-18; returns `(U.T, L.T, P)` of `la.lu(M.T)`. -/
def lupt (la : LinAlg) {m n : ℕ} (M : Matrix (Fin m) (Fin n) ℝ) :
    Matrix (Fin m) (Fin (min n m)) ℝ × Matrix (Fin (min n m)) (Fin n) ℝ ×
      Matrix (Fin n) (Fin n) ℝ :=
  ((la.lu Mᵀ).2.2ᵀ, (la.lu Mᵀ).2.1ᵀ, permMat (la.lu Mᵀ).1)

/-- `lup(M)`: parla/utils/linalg_wrappers.py:21-24; returns `(U.T, L.T, P.T)` of `la.lu(M.T)`. -/
def lup (la : LinAlg) {m n : ℕ} (M : Matrix (Fin m) (Fin n) ℝ) :
    Matrix (Fin m) (Fin (min n m)) ℝ × Matrix (Fin (min n m)) (Fin n) ℝ ×
      Matrix (Fin n) (Fin n) ℝ :=
  ((la.lu Mᵀ).2.2ᵀ, (la.lu Mᵀ).2.1ᵀ, (permMat (la.lu Mᵀ).1)ᵀ)

/-- `apply_pinv_on_left(target, operator)`: parla/utils/linalg_wrappers.py:27-30. -/
def applyPinvOnLeft (la : LinAlg) {m n p : ℕ} (target : Matrix (Fin m) (Fin p) ℝ)
    (operator : Matrix (Fin m) (Fin n) ℝ) : Matrix (Fin n) (Fin p) ℝ :=
  la.lstsq operator target

/-- `apply_pinv_on_right(target, operator)`: parla/utils/linalg_wrappers.py:33-36. -/
def applyPinvOnRight (la : LinAlg) {m n p : ℕ} (target : Matrix (Fin p) (Fin n) ℝ)
    (operator : Matrix (Fin m) (Fin n) ℝ) : Matrix (Fin p) (Fin m) ℝ :=
  (la.lstsq operatorᵀ targetᵀ)ᵀ

end Parla
