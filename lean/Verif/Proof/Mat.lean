import Verif.Base.LinAlg
import Mathlib.LinearAlgebra.Matrix.Block
import Mathlib.LinearAlgebra.Matrix.Rank
import Mathlib.LinearAlgebra.Matrix.DotProduct
import Mathlib.Tactic.Ring
import Mathlib.Tactic.Linarith
import Mathlib.Tactic.NoncommRing
import Mathlib.Tactic.Abel

/-! Helper lemmas about the NumPy vocabulary (no property statements here). -/

namespace Parla

open Matrix

variable {m n k a b c p q : ℕ}

/-! ### stacking -/

@[simp] theorem hcat_castAdd (A : Matrix (Fin m) (Fin a) ℝ) (B : Matrix (Fin m) (Fin b) ℝ)
    (i : Fin m) (j : Fin a) : hcat A B i (Fin.castAdd b j) = A i j := by
  simp [hcat]

@[simp] theorem hcat_natAdd (A : Matrix (Fin m) (Fin a) ℝ) (B : Matrix (Fin m) (Fin b) ℝ)
    (i : Fin m) (j : Fin b) : hcat A B i (Fin.natAdd a j) = B i j := by
  simp [hcat]

@[simp] theorem vcat_castAdd (A : Matrix (Fin a) (Fin n) ℝ) (B : Matrix (Fin b) (Fin n) ℝ)
    (i : Fin a) (j : Fin n) : vcat A B (Fin.castAdd b i) j = A i j := by
  simp [vcat]

@[simp] theorem vcat_natAdd (A : Matrix (Fin a) (Fin n) ℝ) (B : Matrix (Fin b) (Fin n) ℝ)
    (i : Fin b) (j : Fin n) : vcat A B (Fin.natAdd a i) j = B i j := by
  simp [vcat]

@[simp] theorem catv_castAdd (u : Fin a → ℝ) (v : Fin b → ℝ) (i : Fin a) :
    catv u v (Fin.castAdd b i) = u i := by simp [catv]

@[simp] theorem catv_natAdd (u : Fin a → ℝ) (v : Fin b → ℝ) (i : Fin b) :
    catv u v (Fin.natAdd a i) = v i := by simp [catv]

@[simp] theorem topv_catv (u : Fin a → ℝ) (v : Fin b → ℝ) : topv (catv u v) = u := by
  funext i; simp [topv]

@[simp] theorem botv_catv (u : Fin a → ℝ) (v : Fin b → ℝ) : botv (catv u v) = v := by
  funext i; simp [botv]

@[simp] theorem catv_top_bot (w : Fin (a + b) → ℝ) : catv (topv w) (botv w) = w := by
  funext i
  refine Fin.addCases (fun i => ?_) (fun i => ?_) i <;> simp [topv, botv]

theorem ext_hcat {X Y : Matrix (Fin m) (Fin (a + b)) ℝ}
    (h1 : ∀ i j, X i (Fin.castAdd b j) = Y i (Fin.castAdd b j))
    (h2 : ∀ i j, X i (Fin.natAdd a j) = Y i (Fin.natAdd a j)) : X = Y := by
  ext i j
  refine Fin.addCases (fun j => h1 i j) (fun j => h2 i j) j

theorem ext_vcat {X Y : Matrix (Fin (a + b)) (Fin n) ℝ}
    (h1 : ∀ i j, X (Fin.castAdd b i) j = Y (Fin.castAdd b i) j)
    (h2 : ∀ i j, X (Fin.natAdd a i) j = Y (Fin.natAdd a i) j) : X = Y := by
  ext i j
  refine Fin.addCases (fun i => h1 i j) (fun i => h2 i j) i

theorem hcat_transpose (A : Matrix (Fin m) (Fin a) ℝ) (B : Matrix (Fin m) (Fin b) ℝ) :
    (hcat A B)ᵀ = vcat Aᵀ Bᵀ := by
  apply ext_vcat <;> intro i j <;> simp

theorem vcat_transpose (A : Matrix (Fin a) (Fin n) ℝ) (B : Matrix (Fin b) (Fin n) ℝ) :
    (vcat A B)ᵀ = hcat Aᵀ Bᵀ := by
  apply ext_hcat <;> intro i j <;> simp

theorem hcat_mul_vcat (A : Matrix (Fin m) (Fin a) ℝ) (B : Matrix (Fin m) (Fin b) ℝ)
    (C : Matrix (Fin a) (Fin n) ℝ) (D : Matrix (Fin b) (Fin n) ℝ) :
    hcat A B * vcat C D = A * C + B * D := by
  ext i j
  simp [Matrix.mul_apply, Fin.sum_univ_add]

theorem mul_hcat (M : Matrix (Fin p) (Fin m) ℝ) (A : Matrix (Fin m) (Fin a) ℝ)
    (B : Matrix (Fin m) (Fin b) ℝ) : M * hcat A B = hcat (M * A) (M * B) := by
  apply ext_hcat <;> intro i j <;> simp [Matrix.mul_apply]

theorem vcat_mul (A : Matrix (Fin a) (Fin n) ℝ) (B : Matrix (Fin b) (Fin n) ℝ)
    (M : Matrix (Fin n) (Fin p) ℝ) : vcat A B * M = vcat (A * M) (B * M) := by
  apply ext_vcat <;> intro i j <;> simp [Matrix.mul_apply]

theorem vcat_mulVec (A : Matrix (Fin a) (Fin n) ℝ) (B : Matrix (Fin b) (Fin n) ℝ)
    (x : Fin n → ℝ) : vcat A B *ᵥ x = catv (A *ᵥ x) (B *ᵥ x) := by
  funext i
  refine Fin.addCases (fun i => ?_) (fun i => ?_) i <;> simp [Matrix.mulVec, dotProduct]

theorem vcat_transpose_mulVec (A : Matrix (Fin a) (Fin n) ℝ) (B : Matrix (Fin b) (Fin n) ℝ)
    (w : Fin (a + b) → ℝ) : (vcat A B)ᵀ *ᵥ w = Aᵀ *ᵥ topv w + Bᵀ *ᵥ botv w := by
  funext i
  simp [Matrix.mulVec, dotProduct, Fin.sum_univ_add, topv, botv]

theorem catv_sub (u u' : Fin a → ℝ) (v v' : Fin b → ℝ) :
    catv u v - catv u' v' = catv (u - u') (v - v') := by
  funext i
  refine Fin.addCases (fun i => ?_) (fun i => ?_) i <;> simp

theorem catv_dot (u u' : Fin a → ℝ) (v v' : Fin b → ℝ) :
    catv u v ⬝ᵥ catv u' v' = u ⬝ᵥ u' + v ⬝ᵥ v' := by
  simp [dotProduct, Fin.sum_univ_add]

theorem vcat_gram (A : Matrix (Fin a) (Fin n) ℝ) (B : Matrix (Fin b) (Fin n) ℝ) :
    (vcat A B)ᵀ * vcat A B = Aᵀ * A + Bᵀ * B := by
  rw [vcat_transpose, hcat_mul_vcat]

theorem hcat_orth {A : Matrix (Fin m) (Fin a) ℝ} {B : Matrix (Fin m) (Fin b) ℝ}
    (hA : Aᵀ * A = 1) (hB : Bᵀ * B = 1) (hAB : Aᵀ * B = 0) :
    (hcat A B)ᵀ * hcat A B = 1 := by
  have hBA : Bᵀ * A = 0 := by
    have := congrArg Matrix.transpose hAB
    simpa [Matrix.transpose_mul] using this
  rw [hcat_transpose, mul_hcat, vcat_mul, vcat_mul, hA, hB, hAB, hBA]
  apply ext_hcat
  · intro i j
    refine Fin.addCases (fun i => ?_) (fun i => ?_) i
    · simp [Matrix.one_apply]
    · simp [Matrix.one_apply, Fin.ext_iff]; omega
  · intro i j
    refine Fin.addCases (fun i => ?_) (fun i => ?_) i
    · simp [Matrix.one_apply, Fin.ext_iff]; omega
    · simp [Matrix.one_apply]

/-! ### Frobenius norm -/

theorem froSq_eq_trace (M : Matrix (Fin m) (Fin n) ℝ) : froSq M = (Mᵀ * M).trace := by
  simp only [froSq, Matrix.trace, Matrix.diag, Matrix.mul_apply, Matrix.transpose_apply]
  rw [Finset.sum_comm]
  simp [sq]

theorem froSq_nonneg (M : Matrix (Fin m) (Fin n) ℝ) : 0 ≤ froSq M :=
  Finset.sum_nonneg fun _ _ => Finset.sum_nonneg fun _ _ => sq_nonneg _

theorem fro_nonneg (M : Matrix (Fin m) (Fin n) ℝ) : 0 ≤ fro M := Real.sqrt_nonneg _

theorem fro_sq (M : Matrix (Fin m) (Fin n) ℝ) : fro M ^ 2 = froSq M :=
  Real.sq_sqrt (froSq_nonneg M)

theorem froSq_eq_zero {M : Matrix (Fin m) (Fin n) ℝ} : froSq M = 0 ↔ M = 0 := by
  constructor
  · intro h
    ext i j
    have h1 := (Finset.sum_eq_zero_iff_of_nonneg
      (fun i _ => Finset.sum_nonneg fun j _ => sq_nonneg (M i j))).1 h i (Finset.mem_univ _)
    have h2 := (Finset.sum_eq_zero_iff_of_nonneg
      (fun j _ => sq_nonneg (M i j))).1 h1 j (Finset.mem_univ _)
    simpa using h2
  · rintro rfl; simp [froSq]

@[simp] theorem froSq_zero : froSq (0 : Matrix (Fin m) (Fin n) ℝ) = 0 := froSq_eq_zero.2 rfl

@[simp] theorem fro_zero : fro (0 : Matrix (Fin m) (Fin n) ℝ) = 0 := by simp [fro]

theorem fro_eq_zero {M : Matrix (Fin m) (Fin n) ℝ} : fro M = 0 ↔ M = 0 := by
  rw [fro, Real.sqrt_eq_zero (froSq_nonneg M), froSq_eq_zero]

theorem froSq_transpose (M : Matrix (Fin m) (Fin n) ℝ) : froSq Mᵀ = froSq M := by
  simp only [froSq, Matrix.transpose_apply]
  exact Finset.sum_comm

theorem froSq_neg (M : Matrix (Fin m) (Fin n) ℝ) : froSq (-M) = froSq M := by
  simp [froSq]

theorem froSq_vcat (A : Matrix (Fin a) (Fin n) ℝ) (B : Matrix (Fin b) (Fin n) ℝ) :
    froSq (vcat A B) = froSq A + froSq B := by
  simp [froSq, Fin.sum_univ_add]

theorem froSq_hcat (A : Matrix (Fin m) (Fin a) ℝ) (B : Matrix (Fin m) (Fin b) ℝ) :
    froSq (hcat A B) = froSq A + froSq B := by
  simp [froSq, Fin.sum_univ_add, Finset.sum_add_distrib]

/-- multiplying by a matrix with orthonormal columns preserves the Frobenius norm -/
theorem froSq_orth_mul {Q : Matrix (Fin m) (Fin k) ℝ} (hQ : Qᵀ * Q = 1)
    (M : Matrix (Fin k) (Fin n) ℝ) : froSq (Q * M) = froSq M := by
  rw [froSq_eq_trace, froSq_eq_trace, Matrix.transpose_mul, Matrix.mul_assoc,
    ← Matrix.mul_assoc Qᵀ, hQ, Matrix.one_mul]

theorem froSq_mul_orth {V : Matrix (Fin k) (Fin n) ℝ} (hV : V * Vᵀ = 1)
    (M : Matrix (Fin m) (Fin k) ℝ) : froSq (M * V) = froSq M := by
  rw [← froSq_transpose, Matrix.transpose_mul, froSq_orth_mul (by simpa using hV), froSq_transpose]

/-- Frobenius inner product -/
theorem froSq_add (X Y : Matrix (Fin m) (Fin n) ℝ) :
    froSq (X + Y) = froSq X + 2 * (Xᵀ * Y).trace + froSq Y := by
  have h : (Yᵀ * X).trace = (Xᵀ * Y).trace := by
    rw [← Matrix.trace_transpose, Matrix.transpose_mul, Matrix.transpose_transpose]
  simp only [froSq_eq_trace, Matrix.transpose_add, Matrix.add_mul, Matrix.mul_add,
    Matrix.trace_add, h]
  ring

theorem froSq_add_of_orth {X Y : Matrix (Fin m) (Fin n) ℝ} (h : Xᵀ * Y = 0) :
    froSq (X + Y) = froSq X + froSq Y := by
  rw [froSq_add, h]; simp

/-- Pythagoras for an orthonormal basis -/
theorem froSq_sub_proj {Q : Matrix (Fin m) (Fin k) ℝ} (hQ : Qᵀ * Q = 1)
    (A : Matrix (Fin m) (Fin n) ℝ) : froSq (A - Q * (Qᵀ * A)) = froSq A - froSq (Qᵀ * A) := by
  have h : (Q * (Qᵀ * A))ᵀ * (A - Q * (Qᵀ * A)) = 0 := by
    rw [Matrix.transpose_mul, Matrix.mul_sub, Matrix.mul_assoc, Matrix.mul_assoc,
      ← Matrix.mul_assoc Qᵀ Q, hQ, Matrix.one_mul, sub_self]
  have := froSq_add_of_orth h
  rw [froSq_orth_mul hQ] at this
  have e : Q * (Qᵀ * A) + (A - Q * (Qᵀ * A)) = A := by abel
  rw [e] at this
  linarith

theorem fro_le_iff_sq {M : Matrix (Fin m) (Fin n) ℝ} {t : ℝ} (ht : 0 ≤ t) :
    fro M ≤ t ↔ froSq M ≤ t ^ 2 := by
  unfold fro
  rw [Real.sqrt_le_left ht]

/-! ### vectors -/

theorem sqNorm_eq_dot (v : Fin n → ℝ) : sqNorm v = v ⬝ᵥ v := by simp [sqNorm, dotProduct, sq]

theorem sqNorm_nonneg (v : Fin n → ℝ) : 0 ≤ sqNorm v := Finset.sum_nonneg fun _ _ => sq_nonneg _

theorem norm2_nonneg (v : Fin n → ℝ) : 0 ≤ norm2 v := Real.sqrt_nonneg _

theorem norm2_sq (v : Fin n → ℝ) : norm2 v ^ 2 = sqNorm v := Real.sq_sqrt (sqNorm_nonneg v)

theorem sqNorm_eq_zero {v : Fin n → ℝ} : sqNorm v = 0 ↔ v = 0 := by
  rw [sqNorm_eq_dot]; exact dotProduct_self_eq_zero

theorem norm2_eq_zero {v : Fin n → ℝ} : norm2 v = 0 ↔ v = 0 := by
  rw [norm2, Real.sqrt_eq_zero (sqNorm_nonneg v), sqNorm_eq_zero]

theorem norm2_pos {v : Fin n → ℝ} : 0 < norm2 v ↔ v ≠ 0 := by
  rw [lt_iff_le_and_ne, ne_comm, ne_eq, norm2_eq_zero]
  simp [norm2_nonneg]

@[simp] theorem norm2_zero : norm2 (0 : Fin n → ℝ) = 0 := norm2_eq_zero.2 rfl

theorem sqNorm_smul (t : ℝ) (v : Fin n → ℝ) : sqNorm (t • v) = t ^ 2 * sqNorm v := by
  simp [sqNorm, Finset.mul_sum, mul_pow]

theorem norm2_smul (t : ℝ) (v : Fin n → ℝ) : norm2 (t • v) = |t| * norm2 v := by
  rw [norm2, sqNorm_smul, Real.sqrt_mul (sq_nonneg t), Real.sqrt_sq_eq_abs, norm2]

theorem sqNorm_catv (u : Fin a → ℝ) (v : Fin b → ℝ) : sqNorm (catv u v) = sqNorm u + sqNorm v := by
  simp [sqNorm, Fin.sum_univ_add]

theorem norm2_le_norm2 {u : Fin a → ℝ} {v : Fin b → ℝ} : norm2 u ≤ norm2 v ↔ sqNorm u ≤ sqNorm v := by
  unfold norm2; exact Real.sqrt_le_sqrt_iff (sqNorm_nonneg v)

theorem norm2_lt_norm2 {u : Fin a → ℝ} {v : Fin b → ℝ} : norm2 u < norm2 v ↔ sqNorm u < sqNorm v := by
  unfold norm2; exact Real.sqrt_lt_sqrt_iff (sqNorm_nonneg u)

theorem sqNorm_add (u v : Fin n → ℝ) : sqNorm (u + v) = sqNorm u + 2 * (u ⬝ᵥ v) + sqNorm v := by
  simp only [sqNorm_eq_dot, add_dotProduct, dotProduct_add, dotProduct_comm v u]; ring

theorem sqNorm_sub (u v : Fin n → ℝ) : sqNorm (u - v) = sqNorm u - 2 * (u ⬝ᵥ v) + sqNorm v := by
  simp only [sqNorm_eq_dot, sub_dotProduct, dotProduct_sub, dotProduct_comm v u]; ring

theorem sqNorm_neg (v : Fin n → ℝ) : sqNorm (-v) = sqNorm v := by simp [sqNorm]

theorem dot_mulVec (u : Fin m → ℝ) (M : Matrix (Fin m) (Fin n) ℝ) (v : Fin n → ℝ) :
    u ⬝ᵥ (M *ᵥ v) = (Mᵀ *ᵥ u) ⬝ᵥ v := by
  rw [Matrix.dotProduct_mulVec, Matrix.mulVec_transpose]

theorem sqNorm_orth_mulVec {Q : Matrix (Fin m) (Fin n) ℝ} (hQ : Qᵀ * Q = 1) (v : Fin n → ℝ) :
    sqNorm (Q *ᵥ v) = sqNorm v := by
  rw [sqNorm_eq_dot, dot_mulVec, Matrix.mulVec_mulVec, hQ, Matrix.one_mulVec, sqNorm_eq_dot]

/-- least squares: zero gradient implies minimality -/
theorem lsq_of_normal {A : Matrix (Fin m) (Fin n) ℝ} {bb : Fin m → ℝ} {x : Fin n → ℝ}
    (h : Aᵀ *ᵥ (bb - A *ᵥ x) = 0) (z : Fin n → ℝ) :
    sqNorm (bb - A *ᵥ z) = sqNorm (bb - A *ᵥ x) + sqNorm (A *ᵥ (x - z)) := by
  have e : bb - A *ᵥ z = (bb - A *ᵥ x) + A *ᵥ (x - z) := by
    rw [Matrix.mulVec_sub]; abel
  rw [e, sqNorm_add, dot_mulVec, h]; simp

/-! ### column spaces -/

theorem mem_colSpace {M : Matrix (Fin m) (Fin n) ℝ} {v : Fin m → ℝ} :
    v ∈ colSpace M ↔ ∃ x, M *ᵥ x = v := by
  simp [colSpace]

theorem colSpace_le_iff {M : Matrix (Fin m) (Fin n) ℝ} {N : Matrix (Fin m) (Fin k) ℝ} :
    colSpace M ≤ colSpace N ↔ ∃ C : Matrix (Fin k) (Fin n) ℝ, M = N * C := by
  constructor
  · intro h
    have h' : ∀ j : Fin n, ∃ x, N *ᵥ x = M.col j := fun j => by
      rw [← mem_colSpace]; apply h
      rw [mem_colSpace]
      exact ⟨Pi.single j 1, by simp⟩
    choose f hf using h'
    refine ⟨Matrix.of fun i j => f j i, ?_⟩
    ext i j
    have := congrFun (hf j) i
    simp only [Matrix.mulVec, dotProduct, Matrix.col_apply] at this
    rw [← this, Matrix.mul_apply]; rfl
  · rintro ⟨C, rfl⟩ v hv
    rw [mem_colSpace] at hv ⊢
    obtain ⟨x, rfl⟩ := hv
    exact ⟨C *ᵥ x, by rw [Matrix.mulVec_mulVec]⟩

theorem colSpace_mul_le (M : Matrix (Fin m) (Fin n) ℝ) (C : Matrix (Fin n) (Fin k) ℝ) :
    colSpace (M * C) ≤ colSpace M := colSpace_le_iff.2 ⟨C, rfl⟩

theorem colSpace_mul (M : Matrix (Fin p) (Fin m) ℝ) (N : Matrix (Fin m) (Fin n) ℝ) :
    colSpace (M * N) = (colSpace N).map M.mulVecLin := by
  ext v
  simp only [mem_colSpace, Submodule.mem_map, Matrix.mulVecLin_apply]
  constructor
  · rintro ⟨x, rfl⟩; exact ⟨N *ᵥ x, ⟨x, rfl⟩, by rw [Matrix.mulVec_mulVec]⟩
  · rintro ⟨y, ⟨x, rfl⟩, rfl⟩; exact ⟨x, by rw [Matrix.mulVec_mulVec]⟩

theorem colSpace_eq_of_factor {M : Matrix (Fin m) (Fin n) ℝ} {N : Matrix (Fin m) (Fin k) ℝ}
    {C : Matrix (Fin k) (Fin n) ℝ} {D : Matrix (Fin n) (Fin k) ℝ} (h1 : M = N * C) (h2 : N = M * D) :
    colSpace M = colSpace N :=
  le_antisymm (colSpace_le_iff.2 ⟨C, h1⟩) (colSpace_le_iff.2 ⟨D, h2⟩)

theorem finrank_colSpace (M : Matrix (Fin m) (Fin n) ℝ) :
    Module.finrank ℝ (colSpace M) = M.rank := rfl

/-- `Q Q'` fixes the range of `Q` -/
theorem proj_fix {Q : Matrix (Fin m) (Fin k) ℝ} (hQ : Qᵀ * Q = 1) {M : Matrix (Fin m) (Fin n) ℝ}
    (h : colSpace M ≤ colSpace Q) : Q * (Qᵀ * M) = M := by
  obtain ⟨C, rfl⟩ := colSpace_le_iff.1 h
  rw [← Matrix.mul_assoc Qᵀ, hQ, Matrix.one_mul]

/-- selecting distinct columns of an orthonormal family -/
theorem orth_submatrix {Q : Matrix (Fin m) (Fin n) ℝ} (hQ : Qᵀ * Q = 1) {f : Fin k → Fin n}
    (hf : Function.Injective f) : (Q.submatrix id f)ᵀ * Q.submatrix id f = 1 := by
  have : (Q.submatrix id f)ᵀ * Q.submatrix id f = (Qᵀ * Q).submatrix f f := by
    ext i j; simp [Matrix.mul_apply]
  rw [this, hQ]
  ext i j
  simp [Matrix.one_apply, hf.eq_iff]

theorem takeIdx_injective (k c : ℕ) : Function.Injective (takeIdx k c) := by
  intro i j h
  have := congrArg Fin.val h
  exact Fin.ext (by simpa [takeIdx] using this)

theorem sliceIdx_injective (a b c : ℕ) : Function.Injective (sliceIdx a b c) := by
  intro i j h
  have := congrArg Fin.val h
  simp only [sliceIdx] at this
  exact Fin.ext (by omega)

theorem minL_injective : Function.Injective (minL : Fin (min m n) → Fin m) := by
  intro i j h
  have := congrArg Fin.val h
  exact Fin.ext (by simpa [minL] using this)

theorem minR_injective : Function.Injective (minR : Fin (min m n) → Fin n) := by
  intro i j h
  have := congrArg Fin.val h
  exact Fin.ext (by simpa [minR] using this)

/-! ### triangular solves -/

theorem triu_eq_self {R : Matrix (Fin n) (Fin n) ℝ} (h : ∀ i j, j < i → R i j = 0) : triu R = R := by
  ext i j
  simp only [triu, Matrix.of_apply]
  split
  · rfl
  · rename_i hij; exact (h i j (not_le.1 hij)).symm

theorem triu_blockTriangular (R : Matrix (Fin n) (Fin n) ℝ) : (triu R).BlockTriangular id := by
  intro i j hij
  simp only [triu, Matrix.of_apply]
  rw [if_neg]; exact not_le.2 hij

theorem det_triu (R : Matrix (Fin n) (Fin n) ℝ) : (triu R).det = ∏ i, R i i := by
  rw [Matrix.det_of_isUpperTriangular (triu_blockTriangular R)]
  simp [triu]

theorem isUnit_det_triu {R : Matrix (Fin n) (Fin n) ℝ} (h : ¬ ∃ i, R i i = 0) :
    IsUnit (triu R).det := by
  rw [det_triu, isUnit_iff_ne_zero, Finset.prod_ne_zero_iff]
  intro i _ hi; exact h ⟨i, hi⟩

theorem solveUpper_ok {R : Matrix (Fin n) (Fin n) ℝ} {B X : Matrix (Fin n) (Fin p) ℝ}
    (h : solveUpper R B = .ok X) : (¬ ∃ i, R i i = 0) ∧ triu R * X = B := by
  unfold solveUpper at h
  split at h
  · cases h
  · rename_i hR
    cases h
    exact ⟨hR, by rw [← Matrix.mul_assoc, Matrix.mul_nonsing_inv _ (isUnit_det_triu hR),
      Matrix.one_mul]⟩

theorem solveUpperT_ok {R : Matrix (Fin n) (Fin n) ℝ} {B X : Matrix (Fin n) (Fin p) ℝ}
    (h : solveUpperT R B = .ok X) : (¬ ∃ i, R i i = 0) ∧ (triu R)ᵀ * X = B := by
  unfold solveUpperT at h
  split at h
  · cases h
  · rename_i hR
    cases h
    refine ⟨hR, ?_⟩
    rw [← Matrix.mul_assoc, Matrix.mul_nonsing_inv _ (by
      rw [Matrix.det_transpose]; exact isUnit_det_triu hR), Matrix.one_mul]

theorem solveUpperv_ok {R : Matrix (Fin n) (Fin n) ℝ} {bb x : Fin n → ℝ}
    (h : solveUpperv R bb = .ok x) : (¬ ∃ i, R i i = 0) ∧ triu R *ᵥ x = bb := by
  unfold solveUpperv at h
  split at h
  · cases h
  · rename_i hR
    cases h
    exact ⟨hR, by rw [Matrix.mulVec_mulVec, Matrix.mul_nonsing_inv _ (isUnit_det_triu hR),
      Matrix.one_mulVec]⟩

theorem solveUpperTv_ok {R : Matrix (Fin n) (Fin n) ℝ} {bb x : Fin n → ℝ}
    (h : solveUpperTv R bb = .ok x) : (¬ ∃ i, R i i = 0) ∧ (triu R)ᵀ *ᵥ x = bb := by
  unfold solveUpperTv at h
  split at h
  · cases h
  · rename_i hR
    cases h
    refine ⟨hR, ?_⟩
    rw [Matrix.mulVec_mulVec, Matrix.mul_nonsing_inv _ (by
      rw [Matrix.det_transpose]; exact isUnit_det_triu hR), Matrix.one_mulVec]

/-- the triangle inequality for the Frobenius norm -/
theorem fro_triangle (X Y : Matrix (Fin m) (Fin n) ℝ) : fro (X + Y) ≤ fro X + fro Y := by
  have key : (Xᵀ * Y).trace ≤ fro X * fro Y := by
    have e : (Xᵀ * Y).trace = ∑ p : Fin m × Fin n, X p.1 p.2 * Y p.1 p.2 := by
      simp only [Matrix.trace, Matrix.diag, Matrix.mul_apply, Matrix.transpose_apply]
      rw [Finset.sum_comm, ← Finset.sum_product', Finset.univ_product_univ]
    have eX : fro X = √(∑ p : Fin m × Fin n, X p.1 p.2 ^ 2) := by
      unfold fro froSq; rw [← Finset.sum_product', Finset.univ_product_univ]
    have eY : fro Y = √(∑ p : Fin m × Fin n, Y p.1 p.2 ^ 2) := by
      unfold fro froSq; rw [← Finset.sum_product', Finset.univ_product_univ]
    rw [e, eX, eY]
    exact Real.sum_mul_le_sqrt_mul_sqrt _ _ _
  rw [fro_le_iff_sq (add_nonneg (fro_nonneg _) (fro_nonneg _)), froSq_add, ← fro_sq, ← fro_sq]
  nlinarith

/-- the Frobenius norm is submultiplicative -/
theorem froSq_mul_le (X : Matrix (Fin m) (Fin k) ℝ) (Y : Matrix (Fin k) (Fin n) ℝ) :
    froSq (X * Y) ≤ froSq X * froSq Y := by
  have h : ∀ i j, (X * Y) i j ^ 2 ≤ (∑ l, X i l ^ 2) * ∑ l, Y l j ^ 2 := by
    intro i j
    rw [Matrix.mul_apply]
    exact Finset.sum_mul_sq_le_sq_mul_sq _ _ _
  calc froSq (X * Y) ≤ ∑ i, ∑ j, (∑ l, X i l ^ 2) * ∑ l, Y l j ^ 2 :=
        Finset.sum_le_sum fun i _ => Finset.sum_le_sum fun j _ => h i j
    _ = froSq X * froSq Y := by
        unfold froSq
        rw [Finset.sum_mul]
        refine Finset.sum_congr rfl fun i _ => ?_
        rw [← Finset.mul_sum, Finset.sum_comm]

end Parla
