import Verif.Model.Precond
import Verif.Proof.SVD

/-! Lifting and preconditioning (helper lemmas). -/

namespace Parla

open Matrix Spec

variable {m n r : ℕ}

theorem mul_T_mulVec {a b c : ℕ} (M : Matrix (Fin a) (Fin b) ℝ) (N : Matrix (Fin b) (Fin c) ℝ)
    (y : Fin a → ℝ) : (M * N)ᵀ *ᵥ y = Nᵀ *ᵥ (Mᵀ *ᵥ y) := by
  rw [transpose_mul, mulVec_mulVec]

theorem liftRows_zero : liftRows n 0 = 0 := if_pos rfl

theorem liftRows_ne {s : ℝ} (h : s ≠ 0) : liftRows n s = n := if_neg h

theorem scaleEye_mulVec {s : ℝ} (x : Fin n → ℝ) :
    scaleEye (liftRows n s) n s *ᵥ x = fun i => s * x ⟨i.1, by
      have := i.2; unfold liftRows at this; split at this <;> omega⟩ := by
  funext i
  have hi : i.1 < n := by have := i.2; unfold liftRows at this; split at this <;> omega
  simp only [mulVec, dotProduct, scaleEye, of_apply]
  rw [Finset.sum_eq_single ⟨i.1, hi⟩]
  · simp
  · intro j _ hj
    rw [if_neg (fun h => hj (Fin.ext h.symm)), zero_mul]
  · intro h; exact absurd (Finset.mem_univ _) h

theorem scaleEye_T_mulVec {s : ℝ} (y : Fin (liftRows n s) → ℝ) :
    (scaleEye (liftRows n s) n s)ᵀ *ᵥ y = s • padv n y := by
  funext j
  simp only [mulVec, dotProduct, scaleEye, of_apply, transpose_apply, Pi.smul_apply, smul_eq_mul,
    padv]
  by_cases h : j.1 < liftRows n s
  · rw [dif_pos h, Finset.sum_eq_single ⟨j.1, h⟩]
    · simp
    · intro i _ hi
      rw [if_neg (fun h => hi (Fin.ext h)), zero_mul]
    · intro h; exact absurd (Finset.mem_univ _) h
  · rw [dif_neg h, mul_zero]
    refine Finset.sum_eq_zero fun i _ => ?_
    rw [if_neg (fun h' => h (by rw [← h']; exact i.2)), zero_mul]

theorem aLift_mulVec (A : Matrix (Fin m) (Fin n) ℝ) (s : ℝ) (x : Fin n → ℝ) :
    aLift A s *ᵥ x = catv (A *ᵥ x) (scaleEye (liftRows n s) n s *ᵥ x) := vcat_mulVec _ _ _

theorem sqNorm_scaleEye (s : ℝ) (x : Fin n → ℝ) :
    sqNorm (scaleEye (liftRows n s) n s *ᵥ x) = s ^ 2 * sqNorm x := by
  by_cases h : s = 0
  · subst h
    have : scaleEye (liftRows n 0) n 0 *ᵥ x = 0 := by
      rw [scaleEye_mulVec]; funext i; simp
    rw [this]; simp [sqNorm]
  · rw [scaleEye_mulVec]
    unfold sqNorm
    rw [Finset.mul_sum]
    have e := liftRows_ne (n := n) h
    refine Finset.sum_equiv (finCongr e) (by simp) fun i _ => ?_
    simp only [finCongr_apply]
    rw [mul_pow]; rfl

theorem sqNorm_aLift (A : Matrix (Fin m) (Fin n) ℝ) (s : ℝ) (x : Fin n → ℝ) :
    sqNorm (aLift A s *ᵥ x) = sqNorm (A *ᵥ x) + s ^ 2 * sqNorm x := by
  rw [aLift_mulVec, sqNorm_catv, sqNorm_scaleEye]

theorem aLift_T_mulVec (A : Matrix (Fin m) (Fin n) ℝ) (s : ℝ) (y : Fin (m + liftRows n s) → ℝ) :
    (aLift A s)ᵀ *ᵥ y = Aᵀ *ᵥ topv y + s • padv n (botv y) := by
  unfold aLift
  rw [vcat_transpose_mulVec, scaleEye_T_mulVec]

theorem scaleEye_gram (s : ℝ) :
    (scaleEye (liftRows n s) n s)ᵀ * scaleEye (liftRows n s) n s = s ^ 2 • (1 : Matrix (Fin n) (Fin n) ℝ) := by
  ext j l
  simp only [mul_apply, transpose_apply, scaleEye, of_apply, Matrix.smul_apply, Matrix.one_apply,
    smul_eq_mul]
  by_cases h : s = 0
  · subst h; simp
  · have hj : j.1 < liftRows n s := by rw [liftRows_ne h]; exact j.2
    rw [Finset.sum_eq_single ⟨j.1, hj⟩]
    · by_cases e : j = l
      · subst e; simp [sq]
      · rw [if_neg e, if_neg (fun h' => e (Fin.ext h'))]; simp
    · intro i _ hi
      rw [if_neg (fun h => hi (Fin.ext h)), zero_mul]
    · intro h; exact absurd (Finset.mem_univ _) h

theorem aLift_gram (A : Matrix (Fin m) (Fin n) ℝ) (s : ℝ) :
    (aLift A s)ᵀ * aLift A s = Aᵀ * A + s ^ 2 • (1 : Matrix (Fin n) (Fin n) ℝ) := by
  unfold aLift
  rw [vcat_gram, scaleEye_gram]

theorem aLift_gram_sqrt (A : Matrix (Fin m) (Fin n) ℝ) {δ : ℝ} (h : 0 ≤ δ) :
    (aLift A (Real.sqrt δ))ᵀ * aLift A (Real.sqrt δ) = Aᵀ * A + δ • (1 : Matrix (Fin n) (Fin n) ℝ) := by
  rw [aLift_gram, Real.sq_sqrt h]

theorem aLift_T_sqrt (A : Matrix (Fin m) (Fin n) ℝ) {δ : ℝ} (h : 0 ≤ δ)
    (y : Fin (m + liftRows n (Real.sqrt δ)) → ℝ) :
    (if 0 < δ then Aᵀ *ᵥ topv y + Real.sqrt δ • padv n (botv y) else Aᵀ *ᵥ topv y) =
      (aLift A (Real.sqrt δ))ᵀ *ᵥ y := by
  rw [aLift_T_mulVec]
  split
  · rfl
  · have : δ = 0 := by linarith
    subst this; simp

/-- `a_lift(A, 0)` adds no row and leaves `A` in place. -/
theorem aLift_zero (A : Matrix (Fin m) (Fin n) ℝ) :
    aLift A 0 = castRows (by rw [liftRows_zero]; rfl) A := by
  ext i j
  have hi : i.1 < m := by have := i.2; have e := liftRows_zero (n := n); omega
  have : i = Fin.castAdd _ ⟨i.1, hi⟩ := rfl
  rw [this]
  unfold aLift
  rw [vcat_castAdd]
  rfl

/-- `a_lift(A, scale)` for `scale != 0` is `np.row_stack((A, scale*np.eye(n)))`. -/
theorem aLift_ne (A : Matrix (Fin m) (Fin n) ℝ) {s : ℝ} (h : s ≠ 0) :
    aLift A s = castRows (by rw [liftRows_ne h]) (vcat A (s • (1 : Matrix (Fin n) (Fin n) ℝ))) := by
  ext i j
  refine Fin.addCases (fun i => ?_) (fun i => ?_) i
  · unfold aLift castRows
    rw [vcat_castAdd]
    simp only [submatrix_apply, id]
    rw [show Fin.cast _ (Fin.castAdd (liftRows n s) i) = Fin.castAdd n i from rfl, vcat_castAdd]
  · unfold aLift castRows
    rw [vcat_natAdd]
    simp only [submatrix_apply, id]
    have hi : i.1 < n := by have := i.2; have e := liftRows_ne (n := n) h; omega
    rw [show Fin.cast _ (Fin.natAdd m i) = Fin.natAdd m ⟨i.1, hi⟩ from rfl, vcat_natAdd]
    simp only [scaleEye, of_apply, Matrix.smul_apply, Matrix.one_apply, smul_eq_mul, mul_ite,
      mul_one, mul_zero, Fin.ext_iff]

/-- the matrix `M` represented by `(R, upper_tri)`: `R^{-1}` or `R` -/
noncomputable def Precond.mat : (P : Precond n) → Matrix (Fin n) (Fin P.dim) ℝ
  | .tri R => ((triu R)⁻¹ : Matrix (Fin n) (Fin n) ℝ)
  | .gen _ R => R

/-- triangular solves with `R` do not raise -/
def Precond.Ok : Precond n → Prop
  | .tri R => ∀ i, R i i ≠ 0
  | .gen _ _ => True

theorem solveUpperv_eq {R : Matrix (Fin n) (Fin n) ℝ} (h : ∀ i, R i i ≠ 0) (b : Fin n → ℝ) :
    solveUpperv R b = .ok ((triu R)⁻¹ *ᵥ b) := by
  unfold solveUpperv; rw [if_neg]; rintro ⟨i, hi⟩; exact h i hi

theorem solveUpperTv_eq {R : Matrix (Fin n) (Fin n) ℝ} (h : ∀ i, R i i ≠ 0) (b : Fin n → ℝ) :
    solveUpperTv R b = .ok (((triu R)⁻¹)ᵀ *ᵥ b) := by
  unfold solveUpperTv; rw [if_neg, transpose_nonsing_inv]; rintro ⟨i, hi⟩; exact h i hi

theorem solveUpperv_err {R : Matrix (Fin n) (Fin n) ℝ} (h : ∃ i, R i i = 0) (b : Fin n → ℝ) :
    solveUpperv R b = .error .linAlg := if_pos h

theorem solveUpperTv_err {R : Matrix (Fin n) (Fin n) ℝ} (h : ∃ i, R i i = 0) (b : Fin n → ℝ) :
    solveUpperTv R b = .error .linAlg := if_pos h

/-- everything `a_lift_precond` returns, in closed form -/
theorem aLiftPrecond_spec (A : Matrix (Fin m) (Fin n) ℝ) {δ : ℝ} (hδ : 0 ≤ δ) {P : Precond n}
    (hP : P.Ok) : ∃ o, aLiftPrecond A δ P 1 = .ok o ∧
      (∀ z work, o.fwd z work = .ok (aLift A (Real.sqrt δ) *ᵥ (P.mat *ᵥ z), P.mat *ᵥ z)) ∧
      (∀ y work, o.adj y work = .ok (P.matᵀ *ᵥ ((aLift A (Real.sqrt δ))ᵀ *ᵥ y),
        (aLift A (Real.sqrt δ))ᵀ *ᵥ y)) ∧
      (∀ z, o.mFwd z = .ok (P.mat *ᵥ z)) ∧ ∀ w, o.mAdj w = .ok (P.matᵀ *ᵥ w) := by
  cases P with
  | tri R =>
    refine ⟨_, if_neg (by simp), ?_, ?_, solveUpperv_eq hP, solveUpperTv_eq hP⟩
    · intro (z : Fin n → ℝ) work
      have hP' : ∀ i, R i i ≠ 0 := hP
      show forwardTri A δ R z work = _
      unfold forwardTri
      simp only [solveUpperv_eq hP']
      rfl
    · intro y work
      show adjointTri A δ R y work = _
      unfold adjointTri
      simp only [aLift_T_sqrt A hδ, solveUpperTv_eq hP]
      rfl
  | gen r R =>
    refine ⟨_, if_neg (by simp), fun _ _ => rfl, ?_, fun _ => rfl, fun _ => rfl⟩
    intro y work
    show adjointGen A δ R y work = _
    unfold adjointGen
    simp only [aLift_T_sqrt A hδ]
    rfl

theorem aLiftPrecond_op (A : Matrix (Fin m) (Fin n) ℝ) {δ : ℝ} (hδ : 0 ≤ δ) {P : Precond n}
    (hP : P.Ok) {o} (h : aLiftPrecond A δ P 1 = .ok o) :
    o.op = LinOp.ofMat (aLift A (Real.sqrt δ) * P.mat) := by
  obtain ⟨o', h', h1, h2, -⟩ := aLiftPrecond_spec A hδ hP
  rw [h] at h'; cases h'
  unfold LiftPrecond.op LinOp.ofMat
  congr 1
  · funext x; rw [h1, mulVec_mulVec]; rfl
  · funext y; rw [h2, transpose_mul, mulVec_mulVec]; rfl

end Parla
