import Verif.Proof.RoundingSvdFac
import Verif.Props.RatesLS

/-! # The iterative stage with an inexact preconditioner (C82) -/

namespace Parla.Proof

open Matrix Parla Spec Parla.Props

variable {m n d p q : ℕ} {G : Type}

/-- the preconditioned matrix has its squared singular values in `[1/(1+ε), 1/(1-ε)]` -/
def NearIso (F : Matrix (Fin p) (Fin q) ℝ) (ε : ℝ) : Prop :=
  ∀ z, (1 - ε) * sqNorm (F *ᵥ z) ≤ sqNorm z ∧ sqNorm z ≤ (1 + ε) * sqNorm (F *ᵥ z)

theorem NearIso.low {F : Matrix (Fin p) (Fin q) ℝ} {ε : ℝ} (h : NearIso F ε) (hε : 0 ≤ ε) (z : Fin q → ℝ) :
    norm2 z ≤ √(1 + ε) * norm2 (F *ᵥ z) := by
  unfold norm2
  rw [← Real.sqrt_mul (by linarith)]
  exact Real.sqrt_le_sqrt (h z).2

theorem NearIso.fro_le {F : Matrix (Fin p) (Fin q) ℝ} {ε : ℝ} (h : NearIso F ε) (hε1 : ε < 1) : fro F ≤ √(q / (1 - ε)) := by
  refine Real.sqrt_le_sqrt ?_
  rw [le_div_iff₀ (by linarith), froSq_eq_sum_cols, Finset.sum_mul]
  have : ∀ j ∈ (Finset.univ : Finset (Fin q)), sqNorm (F *ᵥ Pi.single j 1) * (1 - ε) ≤ 1 := by
    intro j _
    have := (h (Pi.single j 1)).1
    have e : sqNorm (Pi.single j 1 : Fin q → ℝ) = 1 := by simp [sqNorm, Pi.single_apply]
    rw [e] at this
    linarith
  refine (Finset.sum_le_sum this).trans ?_
  simp

theorem NearIso.form {F : Matrix (Fin p) (Fin q) ℝ} {ε : ℝ} (h : NearIso F ε) (hε : 0 ≤ ε) (hε1 : ε < 1) (z : Fin q → ℝ) :
    1 / (1 + ε) * sqNorm z ≤ sqNorm (F *ᵥ z) ∧ sqNorm (F *ᵥ z) ≤ 1 / (1 - ε) * sqNorm z := by
  obtain ⟨h1, h2⟩ := h z
  rw [div_mul_eq_mul_div, one_mul, div_le_iff₀ (by linarith), div_mul_eq_mul_div, one_mul, le_div_iff₀ (by linarith)]
  constructor <;> linarith

theorem NearIso.cond {F : Matrix (Fin p) (Fin q) ℝ} {ε : ℝ} (h : NearIso F ε) (hε : 0 ≤ ε) (hε1 : ε < 1) {c : ℝ}
    (hc : q * √((1 + ε) / (1 - ε)) < c) : fro F * √F.rank < √(1 / (1 + ε)) * c := by
  have p1 : 0 < √(1 + ε) := Real.sqrt_pos.2 (by linarith)
  have p2 : 0 < √(1 - ε) := Real.sqrt_pos.2 (by linarith)
  have h4 := h.fro_le hε1
  rw [Real.sqrt_div (Nat.cast_nonneg _)] at h4
  have h5 : √F.rank ≤ √(q : ℝ) := Real.sqrt_le_sqrt (by exact_mod_cast F.rank_le_width)
  have h6 : fro F * √F.rank ≤ √q / √(1 - ε) * √q := mul_le_mul h4 h5 (Real.sqrt_nonneg _) (by positivity)
  rw [div_mul_eq_mul_div, Real.mul_self_sqrt (Nat.cast_nonneg _)] at h6
  refine lt_of_le_of_lt h6 ?_
  rw [Real.sqrt_div (by linarith)] at hc
  rw [Real.sqrt_div zero_le_one, Real.sqrt_one, div_mul_eq_mul_div, one_mul, lt_div_iff₀ p1, div_mul_eq_mul_div, ← mul_div_assoc']
  exact hc

/-- the error of an approximate solution against its residual of the normal equations -/
theorem NearIso.certificate {F : Matrix (Fin p) (Fin q) ℝ} {ε : ℝ} (h : NearIso F ε) (hε : 0 ≤ ε) {b : Fin p → ℝ} (zs z : Fin q → ℝ) :
    sqNorm (b - F *ᵥ z) - sqNorm (b - F *ᵥ zs) ≤ (1 + ε) * norm2 (Fᵀ *ᵥ (b - F *ᵥ z)) ^ 2 := by
  obtain ⟨u, hu⟩ : ∃ u, u = zs - z := ⟨_, rfl⟩
  obtain ⟨g, hg⟩ : ∃ g, g = Fᵀ *ᵥ (b - F *ᵥ z) := ⟨_, rfl⟩
  have e1 : sqNorm (b - F *ᵥ zs) = sqNorm (b - F *ᵥ z) - 2 * (u ⬝ᵥ g) + sqNorm (F *ᵥ u) := by
    have a1 : b - F *ᵥ zs = (b - F *ᵥ z) - F *ᵥ u := by rw [hu, mulVec_sub]; abel
    rw [a1, sqNorm_sub, hg, dot_mulVec u, transpose_transpose, dotProduct_comm]
  have h1 := (h u).2
  have h2 := dot_sq_le u g
  rw [← hg, norm2_sq]
  have h3 : 0 ≤ sqNorm g := sqNorm_nonneg g
  have h4 : 0 ≤ sqNorm (F *ᵥ u) := sqNorm_nonneg _
  -- `(u·g)² ≤ (1+ε) t s`
  have h5 : (u ⬝ᵥ g) ^ 2 ≤ ((1 + ε) * sqNorm g) * sqNorm (F *ᵥ u) := by
    have := mul_le_mul_of_nonneg_right h1 h3
    linarith
  nlinarith [sq_nonneg ((1 + ε) * sqNorm g - sqNorm (F *ᵥ u)), sq_nonneg ((1 + ε) * sqNorm g + sqNorm (F *ᵥ u) - 2 * (u ⬝ᵥ g)),
    mul_nonneg (by linarith : 0 ≤ 1 + ε) h3]

theorem conds_mono {T : Matrix (Fin p) (Fin n) ℝ} {M : Matrix (Fin n) (Fin q) ℝ} {θ θ' : ℝ} (h : Conds T M θ) (hθ : θ ≤ θ') :
    Conds T M θ' := fun z => by
  obtain ⟨h1, h2⟩ := h z
  have h3 := mul_le_mul_of_nonneg_right hθ (sqNorm_nonneg (T *ᵥ (M *ᵥ z)))
  constructor <;> linarith

/-- embedding and conditioning of the sketch by the preconditioner together -/
theorem conds_iso {S : Matrix (Fin d) (Fin m) ℝ} {A : Matrix (Fin m) (Fin n) ℝ} {δ η θ : ℝ} (hδ : 0 ≤ δ) (hη : 0 ≤ η) (hη1 : η < 1)
    (hθ : 0 ≤ θ) (hθ1 : θ < 1) (hS : Embeds S A η) {M : Matrix (Fin n) (Fin q) ℝ} (hM : Conds (aLift (S * A) (√δ)) M θ) :
    NearIso (aLift A (√δ) * M) (η + θ + η * θ) := fun z => by
  rw [← mulVec_mulVec]
  obtain ⟨h1, h2⟩ := hM z
  obtain ⟨h3, h4⟩ := lift_embeds hδ hη hS (M *ᵥ z)
  have h5 := mul_le_mul_of_nonneg_left h3 (by linarith : 0 ≤ 1 - θ)
  have h6 := mul_le_mul_of_nonneg_left h4 (by linarith : 0 ≤ 1 + θ)
  have h7 := mul_nonneg (mul_nonneg hη hθ) (sqNorm_nonneg (aLift A (√δ) *ᵥ (M *ᵥ z)))
  constructor <;> nlinarith

theorem colSpace_cast {k : ℕ} (hk : k = n) {M : Matrix (Fin n) (Fin k) ℝ} (h : ∀ z, M *ᵥ z = 0 → z = 0) : colSpace M = ⊤ := by
  subst hk
  have hu : IsUnit M := by
    rw [← Matrix.mulVec_injective_iff_isUnit]
    intro x y hxy
    refine sub_eq_zero.1 (h _ ?_)
    rw [mulVec_sub]; exact sub_eq_zero.2 hxy
  refine eq_top_iff.2 fun v _ => mem_colSpace.2 ?_
  exact Matrix.mulVec_surjective_iff_isUnit.2 hu v

theorem NearIso.inj {A : Matrix (Fin p) (Fin n) ℝ} {M : Matrix (Fin n) (Fin q) ℝ} {ε : ℝ} (h : NearIso (A * M) ε) (z : Fin q → ℝ)
    (hz : M *ᵥ z = 0) : z = 0 := by
  have := (h z).2
  rw [← mulVec_mulVec, hz, mulVec_zero, sqNorm_zero', mul_zero] at this
  exact sqNorm_eq_zero.1 (le_antisymm this (sqNorm_nonneg _))

/-- the iterative stage of `SPO` with a preconditioner that is nearly the inverse of the factor -/
theorem pcss2_apriori (A : Matrix (Fin m) (Fin n) ℝ) {b : Fin m → ℝ} (hb : b ≠ 0) {δ : ℝ} (hδ : 0 ≤ δ) {tol : ℝ} (ht : 0 ≤ tol) (L : ℕ)
    {P : Precond n} (hP : P.Ok) (hdim : P.dim = n) {ε : ℝ} (hε : 0 ≤ ε) (hε1 : ε < 1) (hF : NearIso (aLift A (√δ) * P.mat) ε)
    (hc : n * √((1 + ε) / (1 - ε)) < 10 ^ 8 - eps) (z0 : Option (Fin P.dim → ℝ)) {xs : Fin n → ℝ}
    (f : (Fin n → ℝ) → ℝ) (hf : f = fun x => sqNorm (A *ᵥ x - b) + δ * sqNorm x) (hxs : ∀ x, f xs ≤ f x)
    (h0 : f (P.mat *ᵥ z0.getD 0) ≤ sqNorm b) :
    ∃ x y errs, pcss2 A (.vec b) none δ tol L P z0 = .ok ⟨some x, y, errs⟩ ∧ f x ≤ f (P.mat *ᵥ z0.getD 0) ∧
      (f x - f xs ≤ (2 * ε ^ L) ^ 2 * (f (P.mat *ᵥ z0.getD 0) - f xs) ∨
        f x ≤ (tol * norm2 b * (1 + 2 * √(n * (1 + ε) / (1 - ε)))) ^ 2 ∨
        f x - f xs ≤ (1 + ε) * (tol * (√(n / (1 - ε)) * √(f x) + eps)) ^ 2) := by
  have hfx : ∀ x, f x = sqNorm (A *ᵥ x - b) + δ * sqNorm x := fun x => by rw [hf]
  have hf0 : ∀ x, 0 ≤ f x := fun x => by
    rw [hfx]; exact add_nonneg (sqNorm_nonneg _) (mul_nonneg hδ (sqNorm_nonneg _))
  have htop : colSpace P.mat = ⊤ := colSpace_cast hdim fun z hz => hF.inj z hz
  obtain ⟨zs, hzs⟩ := mem_colSpace.1 (htop ▸ Submodule.mem_top : xs ∈ colSpace P.mat)
  have hcond := hF.cond hε hε1 (c := 10 ^ 8 - eps) (by rw [hdim]; exact hc)
  have hfro : fro (aLift A (√δ) * P.mat) ≤ √(n / (1 - ε)) := by
    have e : ((P.dim : ℕ) : ℝ) / (1 - ε) = n / (1 - ε) := by rw [hdim]
    exact (hF.fro_le hε1).trans_eq (congrArg Real.sqrt e)
  have hlow := hF.low hε
  have hcert := fun z => hF.certificate hε (b := catv b 0) zs z
  have hobj : ∀ z, sqNorm (catv b 0 - (aLift A (√δ) * P.mat) *ᵥ z) = f (P.mat *ᵥ z) := fun z => by
    rw [← mulVec_mulVec, lift_obj A b hδ, hfx]
  have hcat : sqNorm (catv b (0 : Fin (liftRows n (√δ)) → ℝ)) = sqNorm b := by
    rw [sqNorm_catv, sqNorm_zero', add_zero]
  have hnb : norm2 (catv b (0 : Fin (liftRows n (√δ)) → ℝ)) = norm2 b := by unfold norm2; rw [hcat]
  have hn : ∀ z, norm2 (catv b 0 - (aLift A (√δ) * P.mat) *ᵥ z) = √(f (P.mat *ᵥ z)) := fun z => by
    unfold norm2; rw [hobj]
  obtain ⟨out, h1, h2⟩ := C67_lsqr_apriori (aLift A (√δ) * P.mat) (catv b 0) (fun h => hb (by
      have := hcat
      rw [h, sqNorm_zero'] at this
      exact sqNorm_eq_zero.1 this.symm)) ⟨tol, tol, 10 ^ 8⟩ ht L z0 zs
    (fun z => by rw [hobj, hobj, hzs]; exact hxs _)
    (1 / (1 + ε)) (1 / (1 - ε)) (one_div_pos.2 (by linarith)) (one_div_le_one_div_of_le (by linarith) (by linarith))
    (fun z _ => hF.form hε hε1 z) hcond
  have hp := pcss2_over_eq A b none hδ tol L hP z0 trivial
  rw [h1] at hp
  have hmono : f (P.mat *ᵥ out.x) ≤ f (P.mat *ᵥ z0.getD 0) := by
    rw [hfx, hfx]; exact C34_pcss2_never_worse A b none δ hδ tol L P hP z0 rfl _ hp _ rfl
  refine ⟨_, _, _, hp, hmono, ?_⟩
  have hcert := hcert out.x
  rw [hobj, hobj, hzs] at hcert
  rw [hobj, hobj, hobj, hzs] at h2
  rcases h2 with h2 | h2 | h2
  · left
    refine h2.trans (mul_le_mul_of_nonneg_right ?_ (sub_nonneg.2 (hxs _)))
    obtain ⟨r0, r1⟩ := rho_le hε hε1
    exact pow_le_pow_left₀ (by positivity) (mul_le_mul_of_nonneg_left (pow_le_pow_left₀ r0 r1 L) zero_le_two) 2
  · right; left
    rw [hn] at h2
    simp only [hnb] at h2
    have hstep : norm2 (out.x - z0.getD 0) ≤ √(1 + ε) * (2 * norm2 b) := by
      refine (hlow _).trans (mul_le_mul_of_nonneg_left ?_ (Real.sqrt_nonneg _))
      have e : (aLift A (√δ) * P.mat) *ᵥ (out.x - z0.getD 0) =
          (catv b 0 - (aLift A (√δ) * P.mat) *ᵥ z0.getD 0) - (catv b 0 - (aLift A (√δ) * P.mat) *ᵥ out.x) := by
        rw [mulVec_sub]; abel
      rw [e]
      refine (norm2_sub_le _ _).trans ?_
      rw [hn, hn]
      have b1 : √(f (P.mat *ᵥ z0.getD 0)) ≤ norm2 b := Real.sqrt_le_sqrt h0
      have b2 : √(f (P.mat *ᵥ out.x)) ≤ norm2 b := Real.sqrt_le_sqrt (hmono.trans h0)
      linarith
    have h3 : √(f (P.mat *ᵥ out.x)) ≤ tol * norm2 b * (1 + 2 * √(n * (1 + ε) / (1 - ε))) := by
      refine h2.trans ?_
      have c1 : fro (aLift A (√δ) * P.mat) * norm2 (out.x - z0.getD 0) ≤ √(n / (1 - ε)) * (√(1 + ε) * (2 * norm2 b)) :=
        mul_le_mul hfro hstep (norm2_nonneg _) (Real.sqrt_nonneg _)
      have c2 : √(n / (1 - ε)) * √(1 + ε) = √(n * (1 + ε) / (1 - ε)) := by
        rw [← Real.sqrt_mul (div_nonneg (Nat.cast_nonneg _) (by linarith)), div_mul_eq_mul_div]
      have c3 := mul_le_mul_of_nonneg_left c1 ht
      rw [← mul_assoc (√(n / (1 - ε))), c2] at c3
      calc tol * norm2 b + tol * fro (aLift A (√δ) * P.mat) * norm2 (out.x - z0.getD 0)
          = tol * norm2 b + tol * (fro (aLift A (√δ) * P.mat) * norm2 (out.x - z0.getD 0)) := by ring
        _ ≤ tol * norm2 b + tol * (√(n * (1 + ε) / (1 - ε)) * (2 * norm2 b)) := by linarith
        _ = _ := by ring
    calc f (P.mat *ᵥ out.x) = √(f (P.mat *ᵥ out.x)) ^ 2 := (Real.sq_sqrt (hf0 _)).symm
      _ ≤ _ := pow_le_pow_left₀ (Real.sqrt_nonneg _) h3 2
  · right; right
    rw [hn] at h2
    have hfin : norm2 ((aLift A (√δ) * P.mat)ᵀ *ᵥ (catv b 0 - (aLift A (√δ) * P.mat) *ᵥ out.x)) ≤
        tol * (√(n / (1 - ε)) * √(f (P.mat *ᵥ out.x)) + eps) := by
      refine h2.trans (mul_le_mul_of_nonneg_left ?_ ht)
      have := mul_le_mul_of_nonneg_right hfro (Real.sqrt_nonneg (f (P.mat *ᵥ out.x)))
      linarith
    have := mul_le_mul_of_nonneg_left (pow_le_pow_left₀ (norm2_nonneg _) hfin 2) (by linarith : 0 ≤ 1 + ε)
    linarith

/-- the start is never worse than zero -/
theorem start_obj {A : Matrix (Fin m) (Fin n) ℝ} {b : Fin m → ℝ} (hb : b ≠ 0) {δ : ℝ} (hδ : 0 ≤ δ) {f : SPOFac n}
    (hf : f.x = f.P.mat *ᵥ f.z) :
    sqNorm (A *ᵥ (f.P.mat *ᵥ (spoStart A b δ f).getD 0) - b) +
      δ * sqNorm (f.P.mat *ᵥ (spoStart A b δ f).getD 0) ≤ sqNorm b := by
  cases hs : spoStart A b δ f with
  | none =>
    rw [Option.getD_none, mulVec_zero, mulVec_zero, zero_sub, sqNorm_neg, sqNorm_zero', mul_zero, add_zero]
  | some z =>
    have hz : z = f.z := by
      unfold spoStart at hs
      by_cases hc : norm2 (catv (A *ᵥ f.x - b)
          (scaleEye (liftRows n (Real.sqrt δ)) n (Real.sqrt δ) *ᵥ f.x)) / norm2 b ≥ 1 ∨
          (norm2 (catv (A *ᵥ f.x - b)
          (scaleEye (liftRows n (Real.sqrt δ)) n (Real.sqrt δ) *ᵥ f.x)) / norm2 b > 1 / 10 ^ 15 ∧
            n ≠ f.P.dim)
      · simp only [if_pos hc] at hs; cases hs
      · simp only [if_neg hc] at hs; cases hs; rfl
    rw [Option.getD_some, hz, ← hf]
    by_contra hc
    push Not at hc
    rw [spoStart_none hδ hb hc.le] at hs
    cases hs

end Parla.Proof
