import Verif.Proof.Gauss
import Verif.Props.BackendLR

/-! # Rotating the draws: helper lemmas for C89 -/

namespace Parla.Proof

open Matrix Parla Spec MeasureTheory Props

/-- the array of normals `V Z` -/
def rotDraw {r b : ℕ} (V : Matrix (Fin r) (Fin r) ℝ) (Z : Fin r × Fin b → ℝ) : Fin r × Fin b → ℝ :=
  fun ij => ∑ l, V ij.1 l * Z (l, ij.2)

theorem drawMat_rot {r b : ℕ} (V : Matrix (Fin r) (Fin r) ℝ) (Z : Fin r × Fin b → ℝ) :
    drawMat (rotDraw V Z) = V * drawMat Z := by
  ext i j
  simp [drawMat, rotDraw, mul_apply]

theorem rotDraw_one {r b : ℕ} (Z : Fin r × Fin b → ℝ) : rotDraw 1 Z = Z := by
  funext ij
  simp [rotDraw, Matrix.one_apply]

/-- rotating an array of independent standard normals does not change its law -/
theorem rotDraw_mp {r b : ℕ} {V : Matrix (Fin r) (Fin r) ℝ} (hV : V * Vᵀ = 1) :
    MeasurePreserving (rotDraw (b := b) V) (normals r b) (normals r b) := by
  have e : ∀ Z : Fin r × Fin b → ℝ, rotDraw V Z = (kronecker V (1 : Matrix (Fin b) (Fin b) ℝ)) *ᵥ Z := by
    intro Z
    funext ⟨i, j⟩
    simp only [rotDraw, mulVec, dotProduct, Fintype.sum_prod_type]
    refine Finset.sum_congr rfl fun l _ => ?_
    simp [kronecker, kroneckerMap_apply, Matrix.one_apply]
  have hT : (kronecker V (1 : Matrix (Fin b) (Fin b) ℝ)) * (kronecker V (1 : Matrix (Fin b) (Fin b) ℝ))ᵀ = 1 := by
    have e1 : (kronecker V (1 : Matrix (Fin b) (Fin b) ℝ))ᵀ = kronecker Vᵀ (1 : Matrix (Fin b) (Fin b) ℝ) := by
      ext ⟨i, j⟩ ⟨i', j'⟩
      simp [kronecker, kroneckerMap_apply, Matrix.one_apply, eq_comm]
    rw [e1]
    have e2 := mul_kronecker_mul V Vᵀ (1 : Matrix (Fin b) (Fin b) ℝ) (1 : Matrix (Fin b) (Fin b) ℝ)
    rw [hV, Matrix.one_mul, one_kronecker_one] at e2
    exact e2.symm
  have h := gauss_map (kronecker V (1 : Matrix (Fin b) (Fin b) ℝ)) hT
  refine ⟨?_, ?_⟩
  · refine measurable_pi_lambda _ fun ij => ?_
    exact Finset.measurable_sum _ fun l _ => (measurable_pi_apply (l, ij.2)).const_mul _
  · rw [show rotDraw V = fun Z : Fin r × Fin b → ℝ => (kronecker V (1 : Matrix (Fin b) (Fin b) ℝ)) *ᵥ Z from funext e]
    exact h

/-- every array of a sequence rotated -/
def rotDraws {r : ℕ} (V : Matrix (Fin r) (Fin r) ℝ) : (bs : List ℕ) → Draws r bs → Draws r bs
  | [], z => z
  | _ :: bs, Z => (rotDraw V Z.1, rotDraws V bs Z.2)

theorem rotDraws_one {r : ℕ} : ∀ (bs : List ℕ) (Z : Draws r bs), rotDraws 1 bs Z = Z
  | [], _ => rfl
  | _ :: bs, Z => by
    change (rotDraw 1 Z.1, rotDraws 1 bs Z.2) = Z
    rw [rotDraw_one, rotDraws_one bs]
    rfl

theorem rotDraws_mp {r : ℕ} {V : Matrix (Fin r) (Fin r) ℝ} (hV : V * Vᵀ = 1) :
    ∀ bs : List ℕ, MeasurePreserving (rotDraws V bs) (normalSeq r bs) (normalSeq r bs)
  | [] => MeasurePreserving.id _
  | b :: bs => by
    have : IsProbabilityMeasure stdNormal := by unfold stdNormal; infer_instance
    have := instSFiniteDraws stdNormal r bs
    have h1 := rotDraw_mp (b := b) hV
    have : IsProbabilityMeasure (indep (Fin r × Fin b) stdNormal) := by unfold indep; infer_instance
    exact h1.prod (rotDraws_mp hV bs)

variable {m n : ℕ}

theorem conj_pow {W X : Matrix (Fin n) (Fin n) ℝ} (hW : W * Wᵀ = 1) (q : ℕ) : (Wᵀ * X * W) ^ q * Wᵀ = Wᵀ * X ^ q := by
  induction q with
  | zero => rw [pow_zero, pow_zero, Matrix.one_mul, Matrix.mul_one]
  | succ q ih =>
    have e : Wᵀ * X * W * Wᵀ = Wᵀ * X := by rw [Matrix.mul_assoc, hW, Matrix.mul_one]
    rw [pow_succ, Matrix.mul_assoc, e, ← Matrix.mul_assoc, ih, pow_succ, Matrix.mul_assoc]

theorem gram_equi {A : Matrix (Fin m) (Fin n) ℝ} {P : Matrix (Fin m) (Fin m) ℝ} {W : Matrix (Fin n) (Fin n) ℝ}
    (hP : Pᵀ * P = 1) (hW : W * Wᵀ = 1) (a : ℝ) (q : ℕ) :
    ((a • (P * A * W))ᵀ * (a • (P * A * W))) ^ q * Wᵀ = a ^ (2 * q) • (Wᵀ * (Aᵀ * A) ^ q) := by
  have e : (a • (P * A * W))ᵀ * (a • (P * A * W)) = a ^ 2 • (Wᵀ * (Aᵀ * A) * W) := by
    rw [transpose_smul, Matrix.smul_mul, Matrix.mul_smul, smul_smul, ← sq, transpose_mul, transpose_mul]
    congr 1
    calc Wᵀ * (Aᵀ * Pᵀ) * (P * A * W) = Wᵀ * Aᵀ * (Pᵀ * P) * A * W := by simp only [Matrix.mul_assoc]
      _ = Wᵀ * (Aᵀ * A) * W := by rw [hP, Matrix.mul_one]; simp only [Matrix.mul_assoc]
  rw [e, smul_pow, Matrix.smul_mul, conj_pow hW, pow_mul]

/-- the power iteration in rotated coordinates and other units -/
theorem exists_powMap_equi (p : ℤ) :
    ∃ L : Matrix (Fin m) (Fin n) ℝ → Matrix (Fin m) (Fin (startRows p m n)) ℝ, PowMap p L ∧
      ∀ P : Matrix (Fin m) (Fin m) ℝ, Pᵀ * P = 1 → ∀ W : Matrix (Fin n) (Fin n) ℝ, W * Wᵀ = 1 →
      ∃ V : Matrix (Fin (startRows p m n)) (Fin (startRows p m n)) ℝ, V * Vᵀ = 1 ∧ (P = 1 → W = 1 → V = 1) ∧
        ∀ a : ℝ, a ≠ 0 → ∃ t : ℝ, t ≠ 0 ∧ ∀ A, L (a • (P * A * W)) * V = t • (P * L A) := by
  obtain ⟨r, hr⟩ : ∃ r, r = startRows p m n := ⟨_, rfl⟩
  rw [← hr]
  rcases Int.emod_two_eq_zero_or_one p with hp | hp
  · obtain rfl : r = n := by rw [hr]; exact if_pos hp
    refine ⟨fun A => A * (Aᵀ * A) ^ (p / 2).toNat, ⟨hr, fun A => rank_power_even' A _,
      fun A => colSpace_mul_le _ _, fun X _ f hf => hf.mul ((hf.transpose.mul hf).pow _), ?_⟩, ?_⟩
    · intro G la gen A k w w' S h
      obtain ⟨S0, ⟨w2, hd⟩, hle, -⟩ := (C02_rs1_range_parla la gen p (orth la) (Or.inl rfl) 1 A k w w' S h).1 hp
      refine ⟨S0, w2, hd, ?_⟩
      rw [Matrix.mul_assoc]
      exact colSpace_mul_mono A hle
    · intro P hP W hW
      refine ⟨Wᵀ, by rw [transpose_transpose]; exact mul_eq_one_comm.1 hW, fun _ h => by rw [h, transpose_one], fun a ha =>
        ⟨a * a ^ (2 * (p / 2).toNat), mul_ne_zero ha (pow_ne_zero _ ha), fun A => ?_⟩⟩
      simp only
      rw [Matrix.mul_assoc, gram_equi hP hW, Matrix.smul_mul, Matrix.mul_smul, smul_smul]
      congr 1
      calc P * A * W * (Wᵀ * (Aᵀ * A) ^ (p / 2).toNat) = P * A * (W * Wᵀ) * (Aᵀ * A) ^ (p / 2).toNat := by
            simp only [Matrix.mul_assoc]
        _ = _ := by rw [hW, Matrix.mul_one, Matrix.mul_assoc]
  · obtain rfl : r = m := by rw [hr]; exact if_neg (by omega)
    refine ⟨fun A => A * ((Aᵀ * A) ^ ((p - 1) / 2).toNat * Aᵀ), ⟨hr, fun A => rank_power_odd' A _,
      fun A => colSpace_mul_le _ _, fun X _ f hf => hf.mul (((hf.transpose.mul hf).pow _).mul hf.transpose), ?_⟩, ?_⟩
    · intro G la gen A k w w' S h
      obtain ⟨S0, ⟨w2, hd⟩, hle, -⟩ := (C02_rs1_range_parla la gen p (orth la) (Or.inl rfl) 1 A k w w' S h).2 hp
      refine ⟨S0, w2, hd, ?_⟩
      rw [Matrix.mul_assoc, Matrix.mul_assoc]
      exact colSpace_mul_mono A hle
    · intro P hP W hW
      refine ⟨P, mul_eq_one_comm.1 hP, fun h _ => h, fun a ha =>
        ⟨a * (a ^ (2 * ((p - 1) / 2).toNat) * a), mul_ne_zero ha (mul_ne_zero (pow_ne_zero _ ha) ha), fun A => ?_⟩⟩
      simp only
      have e : (a • (P * A * W))ᵀ * P = Wᵀ * (a • Aᵀ) := by
        rw [transpose_smul, Matrix.smul_mul, Matrix.mul_smul, transpose_mul, transpose_mul, Matrix.mul_assoc, Matrix.mul_assoc,
          hP, Matrix.mul_one]
      obtain ⟨K, hK⟩ : ∃ K, K = ((a • (P * A * W))ᵀ * (a • (P * A * W))) ^ ((p - 1) / 2).toNat := ⟨_, rfl⟩
      have hg := gram_equi (A := A) hP hW a ((p - 1) / 2).toNat
      rw [← hK] at hg
      rw [← hK, Matrix.mul_assoc _ _ P, Matrix.mul_assoc K, e, ← Matrix.mul_assoc K, hg, Matrix.smul_mul, Matrix.smul_mul,
        Matrix.mul_smul, Matrix.mul_smul, Matrix.mul_smul, smul_smul, smul_smul, mul_assoc a]
      congr 1
      calc P * A * W * (Wᵀ * (Aᵀ * A) ^ ((p - 1) / 2).toNat * Aᵀ) =
            P * A * (W * Wᵀ) * ((Aᵀ * A) ^ ((p - 1) / 2).toNat * Aᵀ) := by simp only [Matrix.mul_assoc]
        _ = _ := by rw [hW, Matrix.mul_one, Matrix.mul_assoc]

end Parla.Proof
