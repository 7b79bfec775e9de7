import Verif.Model.RoundingNys
import Verif.Props.RoundingEVD
import Verif.Props.EVD2
import Verif.Proof.RoundingFac

/-! # C101: EVD2 with rounding errors -/

namespace Parla.Props

open Matrix Parla Spec Parla.Proof

variable {G : Type} {n : ℕ}

/-! ### Exact arithmetic -/

theorem evd2CompsFl_exact (la : LinAlg) {p : ℕ} (sigma : Fin p → ℝ) (nu : ℝ) (l : List ℕ) :
    ∀ comps, evd2CompsFl (exactNys la) sigma nu comps l = evd2Comps sigma nu comps l := by
  induction l with
  | nil => intro comps; rfl
  | cons i l ih =>
    intro comps
    simp only [evd2CompsFl, evd2Comps, ih]
    have e : ∀ x : ℝ, (exactNys la).smul x x = x ^ 2 := fun x => (pow_two x).symm
    simp only [e]

theorem evd2PostFl_exact (la : LinAlg) (A : Matrix (Fin n) (Fin n) ℝ) (k : ℕ) (S : Cols n) :
    evd2PostFl (exactNys la) A k S = evd2Post la A k S := by
  unfold evd2PostFl evd2Post
  simp only [evd2CompsFl_exact]
  have e : ∀ x : ℝ, ∀ nu, (exactNys la).ssub ((exactNys la).smul x x) nu = x ^ 2 - nu := fun x nu => by rw [pow_two]; rfl
  simp only [e]
  rfl

/-- **C101** (exact arithmetic is a special case): with exact operations the routine with rounding is `evd2`. -/
theorem C101_exact (la : LinAlg) (gen : SkOpGen G) (A : Matrix (Fin n) (Fin n) ℝ) (k : ℤ) (over : ℕ) (p : ℤ) :
    evd2Fl (exactNys la) gen A k over p = evd2 la gen A k over p := by
  unfold evd2Fl evd2 evd2CallFl evd2Call
  simp only [evd2PostFl_exact]
  rw [show (exactNys la).toFlAlg = exactFl la from rfl, RS1Fl_exact]
  rfl

/-! ### Lemmas -/

theorem upSym_eq {c : ℕ} (C : Matrix (Fin c) (Fin c) ℝ) : upSym C = lowSym Cᵀ := by
  ext i j
  unfold upSym lowSym
  rcases lt_trichotomy i j with h | h | h
  · rw [if_pos h.le, if_neg (not_le.2 h)]; rfl
  · rw [h]; simp
  · rw [if_neg (not_le.2 h), if_pos h.le]; rfl

theorem fro_upSym_sub {c : ℕ} (C M : Matrix (Fin c) (Fin c) ℝ) (hM : Mᵀ = M) : fro (upSym C - M) ≤ 2 * fro (C - M) := by
  rw [upSym_eq]
  refine (fro_lowSym_sub Cᵀ M hM).trans (le_of_eq ?_)
  conv_lhs => rw [← hM, ← transpose_sub, fro_tr]

theorem evd2CompsFl_ok {fl : FlNys} {p : ℕ} {sigma : Fin p → ℝ} {nu : ℝ} (l : List ℕ) :
    ∀ comps : List ℕ, (∀ i ∈ l, i + 1 < p) → ∃ out, evd2CompsFl fl sigma nu comps l = .ok out ∧
      ∀ x, x ∈ out ↔ x ∈ comps ∨ (x ∈ l ∧ ∃ h : x + 1 < p, fl.smul (sigma ⟨x + 1, h⟩) (sigma ⟨x + 1, h⟩) ≤ nu) := by
  induction l with
  | nil => intro comps _; exact ⟨comps, rfl, by simp⟩
  | cons i l ih =>
    intro comps hl
    have hp : i + 1 < p := hl i (by simp)
    simp only [evd2CompsFl, dif_pos hp]
    by_cases hs : fl.smul (sigma ⟨i + 1, hp⟩) (sigma ⟨i + 1, hp⟩) ≤ nu
    · rw [if_pos hs]
      obtain ⟨out, h1, h2⟩ := ih (comps ++ [i]) fun j hj => hl j (by simp [hj])
      refine ⟨out, h1, fun x => ?_⟩
      rw [h2]
      simp only [List.mem_append, List.mem_cons, List.not_mem_nil, or_false]
      constructor
      · rintro ((h | rfl) | h)
        · exact Or.inl h
        · exact Or.inr ⟨Or.inl rfl, hp, hs⟩
        · exact Or.inr ⟨Or.inr h.1, h.2⟩
      · rintro (h | ⟨rfl | h, h'⟩)
        · exact Or.inl (Or.inl h)
        · exact Or.inl (Or.inr rfl)
        · exact Or.inr ⟨h, h'⟩
    · rw [if_neg hs]
      obtain ⟨out, h1, h2⟩ := ih comps fun j hj => hl j (by simp [hj])
      refine ⟨out, h1, fun x => ?_⟩
      rw [h2]
      simp only [List.mem_cons]
      constructor
      · rintro (h | h)
        · exact Or.inl h
        · exact Or.inr ⟨Or.inr h.1, h.2⟩
      · rintro (h | ⟨rfl | h, h'⟩)
        · exact Or.inl h
        · obtain ⟨_, h'⟩ := h'; exact absurd h' hs
        · exact Or.inr ⟨h, h'⟩

theorem smul_round {fl : FlNys} {N : ℕ} {ε : ℝ} (hfl : fl.Accurate N ε) {x y : ℝ} (hx : 0 ≤ x) (hy : 0 ≤ y) :
    (1 - ε) * (x * y) ≤ fl.smul x y ∧ fl.smul x y ≤ (1 + ε) * (x * y) := by
  have h := hfl.alg.smul x y
  rw [abs_of_nonneg (mul_nonneg hx hy)] at h
  have := abs_le.1 h
  constructor <;> linarith

/-- **C101** (the regularisation parameter): it is nonnegative, and `√n eps ‖A S‖` up to rounding. -/
theorem C101_nu {fl : FlNys} {N : ℕ} {ε : ℝ} (hfl : fl.Accurate N ε) (hε : 0 ≤ ε) (hε1 : ε ≤ 1) (hn : n ≤ N) {c : ℕ} (hc : c ≤ N)
    (A : Matrix (Fin n) (Fin n) ℝ) (S : Matrix (Fin n) (Fin c) ℝ) :
    0 ≤ evd2NuFl fl A S ∧
    (1 - ε) ^ 4 * (Real.sqrt n * eps * (fro (A * S) - ε * fro A * fro S)) ≤ evd2NuFl fl A S ∧
    evd2NuFl fl A S ≤ (1 + ε) ^ 4 * (Real.sqrt n * eps * (fro (A * S) + ε * fro A * fro S)) := by
  obtain ⟨x, hx⟩ : ∃ x, x = fl.sqrt n := ⟨_, rfl⟩
  obtain ⟨y, hy⟩ : ∃ y, y = fl.smul x eps := ⟨_, rfl⟩
  obtain ⟨Z, hZ⟩ : ∃ Z, Z = fl.mul A S := ⟨_, rfl⟩
  obtain ⟨z, hz⟩ : ∃ z, z = fl.norm Z := ⟨_, rfl⟩
  have e0 := eps_pos
  have h1 : (1 - ε) * Real.sqrt n ≤ x ∧ x ≤ (1 + ε) * Real.sqrt n := by
    have := abs_le.1 (hfl.sqrt n (Nat.cast_nonneg n))
    rw [← hx] at this
    constructor <;> linarith
  have s0 : 0 ≤ Real.sqrt n := Real.sqrt_nonneg _
  have u0 : 0 ≤ 1 - ε := by linarith
  have x0 : 0 ≤ x := (mul_nonneg u0 s0).trans h1.1
  have h2 := smul_round hfl x0 e0.le
  rw [← hy] at h2
  have y0 : 0 ≤ y := (mul_nonneg u0 (mul_nonneg x0 e0.le)).trans h2.1
  have h3 : (1 - ε) * fro Z ≤ z ∧ z ≤ (1 + ε) * fro Z := by
    have := abs_le.1 (hfl.alg.norm Z hn hc)
    rw [← hz] at this
    constructor <;> linarith
  have Z0 : 0 ≤ fro Z := fro_nonneg _
  have z0 : 0 ≤ z := (mul_nonneg u0 Z0).trans h3.1
  have h4 := smul_round hfl y0 z0
  have h5 : fro (Z - A * S) ≤ ε * fro A * fro S := by rw [hZ]; exact hfl.alg.mul A S hn hn hc
  have h6 := fro_le_add Z (A * S)
  have h7 := fro_le_add (A * S) Z
  rw [fro_sub_comm] at h7
  have hnu : evd2NuFl fl A S = fl.smul y z := by rw [hz, hZ, hy, hx]; rfl
  rw [hnu]
  refine ⟨(mul_nonneg u0 (mul_nonneg y0 z0)).trans h4.1, ?_, ?_⟩
  · refine le_trans ?_ h4.1
    have k1 : (1 - ε) * ((1 - ε) * Real.sqrt n * eps) ≤ y :=
      (mul_le_mul_of_nonneg_left (mul_le_mul_of_nonneg_right h1.1 e0.le) u0).trans h2.1
    have k2 : (1 - ε) * ((1 - ε) * Real.sqrt n * eps) * ((1 - ε) * fro Z) ≤ y * z :=
      mul_le_mul k1 h3.1 (mul_nonneg u0 Z0) y0
    have k3 := mul_le_mul_of_nonneg_left k2 u0
    refine le_trans ?_ k3
    have k4 : (1 - ε) ^ 4 * (Real.sqrt n * eps) * (fro (A * S) - ε * fro A * fro S) ≤
        (1 - ε) ^ 4 * (Real.sqrt n * eps) * fro Z :=
      mul_le_mul_of_nonneg_left (by linarith) (mul_nonneg (pow_nonneg u0 4) (mul_nonneg s0 e0.le))
    calc _ = (1 - ε) ^ 4 * (Real.sqrt n * eps) * (fro (A * S) - ε * fro A * fro S) := by ring
      _ ≤ _ := k4
      _ = _ := by ring
  · refine h4.2.trans ?_
    have u1 : 0 ≤ 1 + ε := by linarith
    have k1 : y ≤ (1 + ε) * ((1 + ε) * Real.sqrt n * eps) :=
      h2.2.trans (mul_le_mul_of_nonneg_left (mul_le_mul_of_nonneg_right h1.2 e0.le) u1)
    have k2 : y * z ≤ (1 + ε) * ((1 + ε) * Real.sqrt n * eps) * ((1 + ε) * fro Z) :=
      mul_le_mul k1 h3.2 z0 (by positivity)
    have k3 := mul_le_mul_of_nonneg_left k2 u1
    refine k3.trans ?_
    have k4 : (1 + ε) ^ 4 * (Real.sqrt n * eps) * fro Z ≤
        (1 + ε) ^ 4 * (Real.sqrt n * eps) * (fro (A * S) + ε * fro A * fro S) :=
      mul_le_mul_of_nonneg_left (by linarith) (by positivity)
    calc _ = (1 + ε) ^ 4 * (Real.sqrt n * eps) * fro Z := by ring
      _ ≤ _ := k4
      _ = _ := by ring

theorem width_of_bounded_below {c : ℕ} {S : Matrix (Fin n) (Fin c) ℝ} {s : ℝ} (hs : 0 < s)
    (hS : ∀ v, s ^ 2 * sqNorm v ≤ sqNorm (S *ᵥ v)) : c ≤ n := by
  have hinj : Function.Injective S.mulVecLin := by
    rw [← LinearMap.ker_eq_bot, LinearMap.ker_eq_bot']
    intro v hv
    have h1 := hS v
    have : S *ᵥ v = 0 := hv
    rw [this] at h1
    have h2 : sqNorm (0 : Fin n → ℝ) = 0 := by simp [sqNorm]
    rw [h2] at h1
    have h3 : sqNorm v ≤ 0 := by
      by_contra h
      have := mul_pos (pow_pos hs 2) (not_le.1 h)
      linarith
    funext i
    have h4 : v i ^ 2 ≤ sqNorm v := Finset.single_le_sum (f := fun i => v i ^ 2) (fun _ _ => sq_nonneg _) (Finset.mem_univ i)
    have : v i ^ 2 = 0 := le_antisymm (by linarith) (sq_nonneg _)
    exact pow_eq_zero_iff two_ne_zero |>.1 this
  simpa using LinearMap.finrank_le_finrank_of_injective hinj

theorem fro_smul (t : ℝ) {m n : ℕ} (M : Matrix (Fin m) (Fin n) ℝ) : fro (t • M) = |t| * fro M := by
  rw [fro, show froSq (t • M) = t ^ 2 * froSq M by
    simp only [froSq, Matrix.smul_apply, smul_eq_mul, mul_pow, Finset.mul_sum], Real.sqrt_mul (sq_nonneg _), Real.sqrt_sq_eq_abs]
  rfl

/-- the regularised sketch and its core matrix, with rounding -/
theorem nys_chain {fl : FlNys} {N : ℕ} {ε : ℝ} (hfl : fl.Accurate N ε) (hε : 0 ≤ ε) (hε1 : ε ≤ 1) (hn : n ≤ N) {c : ℕ}
    (hc : c ≤ N) (A : Matrix (Fin n) (Fin n) ℝ) (hA : Aᵀ = A) (S : Matrix (Fin n) (Fin c) ℝ) {nu : ℝ} (hnu : 0 ≤ nu) :
    fro (fl.axpy (fl.mul A S) nu S - (A * S + nu • S)) ≤ ε * (fro S * (3 * fro A + nu)) ∧
    fro (upSym (fl.mul Sᵀ (fl.axpy (fl.mul A S) nu S)) - Sᵀ * (A * S + nu • S)) ≤ 14 * ε * (fro S ^ 2 * (fro A + nu)) ∧
    fro (upSym (fl.mul Sᵀ (fl.axpy (fl.mul A S) nu S))) ≤ 15 * (fro S ^ 2 * (fro A + nu)) := by
  obtain ⟨Z, hZ⟩ : ∃ Z, Z = fl.mul A S := ⟨_, rfl⟩
  obtain ⟨Y, hY⟩ : ∃ Y, Y = fl.axpy Z nu S := ⟨_, rfl⟩
  obtain ⟨C, hC⟩ : ∃ C, C = fl.mul Sᵀ Y := ⟨_, rfl⟩
  obtain ⟨q, hq⟩ : ∃ q, q = fro S := ⟨_, rfl⟩
  obtain ⟨a, ha⟩ : ∃ a, a = fro A := ⟨_, rfl⟩
  have q0 : 0 ≤ q := hq ▸ fro_nonneg _
  have a0 : 0 ≤ a := ha ▸ fro_nonneg _
  rw [← hZ, ← hY, ← hC, ← hq, ← ha]
  have h1 : fro (Z - A * S) ≤ ε * a * q := by rw [hZ, ha, hq]; exact hfl.alg.mul A S hn hn hc
  have h2 : fro (A * S) ≤ a * q := by rw [ha, hq]; exact fro_mul_le _ _
  have p0 : 0 ≤ a * q := mul_nonneg a0 q0
  have t0 : 0 ≤ nu * q := mul_nonneg hnu q0
  have e1 : ε * (a * q) ≤ a * q := by nlinarith
  have e2 : ε * (nu * q) ≤ nu * q := by nlinarith
  have h3 : fro Z ≤ 2 * (a * q) := by
    have := fro_le_add Z (A * S)
    linarith
  have h4 : fro (Y - (Z + nu • S)) ≤ ε * (2 * (a * q) + nu * q) := by
    rw [hY]
    refine (hfl.axpy Z nu S hn hc).trans (mul_le_mul_of_nonneg_left ?_ hε)
    rw [abs_of_nonneg hnu, ← hq]; linarith
  have h5 : fro (Y - (A * S + nu • S)) ≤ ε * (q * (3 * a + nu)) := by
    have := fro_sub_le Y (Z + nu • S) (A * S + nu • S)
    rw [add_sub_add_right_eq_sub] at this
    calc _ ≤ _ := this
      _ ≤ ε * (2 * (a * q) + nu * q) + ε * a * q := add_le_add h4 h1
      _ = _ := by ring
  have h6 : fro (A * S + nu • S) ≤ q * (a + nu) := by
    have h := fro_triangle (A * S) (nu • S)
    rw [fro_smul, abs_of_nonneg hnu, ← hq] at h
    linarith
  have h7 : fro Y ≤ q * (4 * a + 2 * nu) := by
    have := fro_le_add Y (A * S + nu • S)
    have e3 : ε * (q * (3 * a + nu)) = 3 * (ε * (a * q)) + ε * (nu * q) := by ring
    rw [e3] at h5
    linarith
  have h8 : fro (C - Sᵀ * Y) ≤ ε * q * (q * (4 * a + 2 * nu)) := by
    have := hfl.alg.mul Sᵀ Y hc hn hc
    rw [fro_tr, ← hq, ← hC] at this
    exact this.trans (mul_le_mul_of_nonneg_left h7 (mul_nonneg hε q0))
  have h9 : fro (C - Sᵀ * (A * S + nu • S)) ≤ 7 * ε * (q ^ 2 * (a + nu)) := by
    have k1 := fro_sub_le C (Sᵀ * Y) (Sᵀ * (A * S + nu • S))
    rw [← Matrix.mul_sub] at k1
    have k2 : fro (Sᵀ * (Y - (A * S + nu • S))) ≤ q * (ε * (q * (3 * a + nu))) := by
      refine (fro_mul_le _ _).trans ?_
      rw [fro_tr, ← hq]
      exact mul_le_mul_of_nonneg_left h5 q0
    have k3 : 0 ≤ ε * (q ^ 2 * nu) := by positivity
    calc _ ≤ ε * q * (q * (4 * a + 2 * nu)) + q * (ε * (q * (3 * a + nu))) := by linarith
      _ = 7 * ε * (q ^ 2 * (a + nu)) - 4 * (ε * (q ^ 2 * nu)) := by ring
      _ ≤ _ := by linarith
  have hsym : (Sᵀ * (A * S + nu • S))ᵀ = Sᵀ * (A * S + nu • S) := by
    rw [Matrix.mul_add, transpose_add, transpose_mul, transpose_mul, transpose_transpose, hA, Matrix.mul_smul, transpose_smul,
      transpose_mul, transpose_transpose, Matrix.mul_assoc]
  have h10 : fro (upSym C - Sᵀ * (A * S + nu • S)) ≤ 14 * ε * (q ^ 2 * (a + nu)) := by
    have := fro_upSym_sub C _ hsym
    linarith
  refine ⟨h5, h10, ?_⟩
  have h11 : fro (Sᵀ * (A * S + nu • S)) ≤ q * (q * (a + nu)) := by
    refine (fro_mul_le _ _).trans ?_
    rw [fro_tr, ← hq]
    exact mul_le_mul_of_nonneg_left h6 q0
  have h12 := fro_le_add (upSym C) (Sᵀ * (A * S + nu • S))
  have h13 : 0 ≤ q ^ 2 * (a + nu) := by positivity
  have h14 : ε * (q ^ 2 * (a + nu)) ≤ q ^ 2 * (a + nu) := by nlinarith
  have h15 : q * (q * (a + nu)) = q ^ 2 * (a + nu) := by ring
  rw [h15] at h11
  linarith

/-- a Cholesky factor, when there is one -/
theorem nys_chol_ok {fl : FlNys} {N : ℕ} {ε : ℝ} (hfl : fl.Accurate N ε) (hε : 0 ≤ ε) (hε1 : ε ≤ 1) (hn : n ≤ N) {c : ℕ}
    (hc : c ≤ N) (A : Matrix (Fin n) (Fin n) ℝ) (hA : Aᵀ = A) (S : Matrix (Fin n) (Fin c) ℝ) {nu : ℝ} (hnu : 0 ≤ nu)
    (R : Matrix (Fin c) (Fin c) ℝ) (hR : fl.chol (fl.mul Sᵀ (fl.axpy (fl.mul A S) nu S)) = .ok R) :
    (∀ i j, j < i → R i j = 0) ∧ (∀ i, 0 < R i i) ∧
      fro (Rᵀ * R - Sᵀ * (A * S + nu • S)) ≤ 29 * ε * (fro S ^ 2 * (fro A + nu)) := by
  obtain ⟨-, h1, h2⟩ := nys_chain hfl hε hε1 hn hc A hA S hnu
  obtain ⟨r1, r2, r3⟩ := hfl.chol _ R hc hR
  refine ⟨r1, r2, ?_⟩
  have h3 := mul_le_mul_of_nonneg_left h2 hε
  have := fro_sub_le (Rᵀ * R) (upSym (fl.mul Sᵀ (fl.axpy (fl.mul A S) nu S))) (Sᵀ * (A * S + nu • S))
  linarith

/-- the Cholesky factorisation goes through -/
theorem nys_chol {fl : FlNys} {N : ℕ} {ε : ℝ} (hfl : fl.Accurate N ε) (hε : 0 ≤ ε) (hε1 : ε ≤ 1) (hn : n ≤ N) {c : ℕ}
    (hc : c ≤ N) (A : Matrix (Fin n) (Fin n) ℝ) (hA : IsPSD A) (S : Matrix (Fin n) (Fin c) ℝ) {nu : ℝ} (hnu : 0 ≤ nu)
    {s : ℝ} (hS : ∀ v, s ^ 2 * sqNorm v ≤ sqNorm (S *ᵥ v))
    (hgap : 29 * ε * (fro S ^ 2 * (fro A + nu)) < nu * s ^ 2) :
    ∃ R, fl.chol (fl.mul Sᵀ (fl.axpy (fl.mul A S) nu S)) = .ok R := by
  obtain ⟨-, h1, h2⟩ := nys_chain hfl hε hε1 hn hc A hA.1 S hnu
  obtain ⟨C, hC⟩ : ∃ C, C = fl.mul Sᵀ (fl.axpy (fl.mul A S) nu S) := ⟨_, rfl⟩
  obtain ⟨H, hH⟩ : ∃ H, H = Sᵀ * (A * S + nu • S) := ⟨_, rfl⟩
  obtain ⟨b, hb⟩ : ∃ b, b = fro S ^ 2 * (fro A + nu) := ⟨_, rfl⟩
  rw [← hC, ← hH, ← hb] at h1
  rw [← hC, ← hb] at h2
  rw [← hb] at hgap
  rw [← hC]
  have h3 : ε * fro (upSym C) ≤ 15 * ε * b := by
    have := mul_le_mul_of_nonneg_left h2 hε
    linarith
  cases hR : fl.chol C with
  | error e =>
    exfalso
    obtain ⟨v, hv, hq⟩ := hfl.chol_fail C e hc hR
    have hsq : 0 < sqNorm v := by
      obtain ⟨i, hi⟩ := Function.ne_iff.1 hv
      have h4 : v i ^ 2 ≤ sqNorm v :=
        Finset.single_le_sum (f := fun i => v i ^ 2) (fun _ _ => sq_nonneg _) (Finset.mem_univ i)
      have : 0 < v i ^ 2 := sq_pos_iff.2 hi
      linarith
    have k1 : nu * s ^ 2 * sqNorm v ≤ v ⬝ᵥ (H *ᵥ v) := by
      have e1 : v ⬝ᵥ (H *ᵥ v) = (S *ᵥ v) ⬝ᵥ (A *ᵥ (S *ᵥ v)) + nu * sqNorm (S *ᵥ v) := by
        rw [hH, Matrix.mul_add, Matrix.add_mulVec, dotProduct_add, Matrix.mul_smul, Matrix.smul_mulVec, dotProduct_smul, gram_dot,
          smul_eq_mul]
        congr 1
        rw [← mulVec_mulVec, ← mulVec_mulVec, dotProduct_mulVec v Sᵀ, vecMul_transpose]
      rw [e1]
      have k2 := hA.2 (S *ᵥ v)
      have k3 := mul_le_mul_of_nonneg_left (hS v) hnu
      linarith
    have k4 := quad_le (upSym C - H) v
    rw [Matrix.sub_mulVec, dotProduct_sub] at k4
    have k5 := (abs_le.1 k4).1
    have k6 := mul_le_mul_of_nonneg_right h1 hsq.le
    have k7 := mul_le_mul_of_nonneg_right h3 hsq.le
    have k8 := mul_lt_mul_of_pos_right hgap hsq
    linarith
  | ok R => exact ⟨R, rfl⟩

theorem fro_mul_orthCols_le {m p k : ℕ} {U : Matrix (Fin p) (Fin k) ℝ} (hU : OrthoCols U) (M : Matrix (Fin m) (Fin p) ℝ) :
    fro (M * U) ≤ fro M := by
  rw [← fro_tr (M * U), transpose_mul, ← fro_tr M]
  exact fro_orth_transpose_mul_le hU _

theorem fro_submatrix_cols_le {m p k : ℕ} (M : Matrix (Fin m) (Fin p) ℝ) {I : Fin k → Fin p} (hI : Function.Injective I) :
    fro (M.submatrix id I) ≤ fro M := by
  unfold fro
  refine Real.sqrt_le_sqrt ?_
  unfold froSq
  refine Finset.sum_le_sum fun i _ => ?_
  simp only [submatrix_apply, id]
  rw [← Finset.sum_image (f := fun l => M i l ^ 2) (g := I) (s := Finset.univ) (fun a _ b _ e => hI e)]
  exact Finset.sum_le_sum_of_subset_of_nonneg (Finset.subset_univ _) fun _ _ _ => sq_nonneg _

/-- the retained singular vectors and values -/
theorem nys_svd {fl : FlNys} {N : ℕ} {ε : ℝ} (hfl : fl.Accurate N ε) (hε : 0 ≤ ε) (hε1 : ε ≤ 1) (hn : n ≤ N) {c : ℕ}
    (hc : c ≤ N) (B : Matrix (Fin n) (Fin c) ℝ) (r : ℕ) (V : Matrix (Fin n) (Fin (min r (min n c))) ℝ)
    (hV : V = (fl.svdFull B).1.submatrix id (minL ∘ takeIdx r (min n c))) (σ : Fin (min r (min n c)) → ℝ)
    (hσ : σ = takev r (fl.svdFull B).2.1) :
    fro (Vᵀ * V - 1) ≤ 3 * ε ∧ fro (B * Bᵀ * V - V * diagonal fun i => σ i ^ 2) ≤ 8 * ε * fro B ^ 2 := by
  obtain ⟨U', V', hU', hV', dU, -, dB⟩ := hfl.svdFull B hn hc
  obtain ⟨U, hU⟩ : ∃ U, U = (fl.svdFull B).1 := ⟨_, rfl⟩
  obtain ⟨t, ht⟩ : ∃ t, t = (fl.svdFull B).2.1 := ⟨_, rfl⟩
  rw [← hU] at hV dU
  rw [← ht] at hσ dB
  obtain ⟨B', hB'⟩ : ∃ M, M = U'.submatrix id minL * diagonal t * V'.submatrix minR id := ⟨_, rfl⟩
  rw [← hB'] at dB
  have iL : Function.Injective (minL : Fin (min n c) → Fin n) := fun a b h => Fin.ext (by
    have h2 := congrArg Fin.val h; exact h2)
  have iR : Function.Injective (minR : Fin (min n c) → Fin c) := fun a b h => Fin.ext (by
    have h2 := congrArg Fin.val h; exact h2)
  have iJ : Function.Injective (minL ∘ takeIdx r (min n c) : Fin (min r (min n c)) → Fin n) :=
    iL.comp (takeIdx_injective _ _)
  obtain ⟨P, hP⟩ : ∃ P, P = U'.submatrix id (minL ∘ takeIdx r (min n c)) := ⟨_, rfl⟩
  have oP : OrthoCols P := by rw [hP]; exact orth_submatrix hU' iJ
  have dV : fro (V - P) ≤ ε := by
    rw [hV, hP, show U.submatrix id (minL ∘ takeIdx r (min n c)) - U'.submatrix id (minL ∘ takeIdx r (min n c)) =
      (U - U').submatrix id (minL ∘ takeIdx r (min n c)) from rfl]
    exact (fro_submatrix_cols_le _ iJ).trans dU
  obtain ⟨b, hb⟩ : ∃ b, b = fro B := ⟨_, rfl⟩
  have b0 : 0 ≤ b := hb ▸ fro_nonneg _
  rw [← hb] at dB
  have nB' : fro B' ≤ 2 * b := by
    have := fro_le_add B' B
    nlinarith
  constructor
  · have := gram_near_orth oP dV
    nlinarith
  · have oU : OrthoCols (U'.submatrix id (minL : Fin (min n c) → Fin n)) := orth_submatrix hU' iL
    have oV : V'.submatrix (minR : Fin (min n c) → Fin c) id * (V'.submatrix (minR : Fin (min n c) → Fin c) id)ᵀ = 1 := by
      have h1 : OrthoCols (V'ᵀ.submatrix id (minR : Fin (min n c) → Fin c)) :=
        orth_submatrix (by rw [transpose_transpose]; exact hV') iR
      unfold OrthoCols at h1
      rw [transpose_submatrix, transpose_transpose] at h1
      rw [transpose_submatrix]; exact h1
    have eB : B' * B'ᵀ = U'.submatrix id (minL : Fin (min n c) → Fin n) * diagonal (fun i => t i ^ 2) * (U'.submatrix id (minL : Fin (min n c) → Fin n))ᵀ := by
      rw [hB', transpose_mul, transpose_mul, diagonal_transpose]
      calc _ = U'.submatrix id (minL : Fin (min n c) → Fin n) * diagonal t * (V'.submatrix (minR : Fin (min n c) → Fin c) id * (V'.submatrix (minR : Fin (min n c) → Fin c) id)ᵀ) *
            (diagonal t * (U'.submatrix id (minL : Fin (min n c) → Fin n))ᵀ) := by simp only [Matrix.mul_assoc]
        _ = U'.submatrix id (minL : Fin (min n c) → Fin n) * (diagonal t * diagonal t) * (U'.submatrix id (minL : Fin (min n c) → Fin n))ᵀ := by
            rw [oV, Matrix.mul_one]; simp only [Matrix.mul_assoc]
        _ = _ := by rw [diagonal_mul_diagonal]; simp only [pow_two]
    have ePP : P = (U'.submatrix id minL).submatrix id (takeIdx r (min n c)) := by rw [hP]; rfl
    have hOne : (U'.submatrix id (minL : Fin (min n c) → Fin n))ᵀ * P =
        (1 : Matrix (Fin (min n c)) (Fin (min n c)) ℝ).submatrix id (takeIdx r (min n c)) := by
      have h1 : (U'.submatrix id (minL : Fin (min n c) → Fin n))ᵀ * U'.submatrix id minL = 1 := oU
      rw [ePP, ← h1]; rfl
    have eP : B' * B'ᵀ * P = P * diagonal fun i => σ i ^ 2 := by
      rw [eB, Matrix.mul_assoc, hOne, ePP, hσ]
      ext i j
      rw [mul_diagonal, mul_apply, Finset.sum_eq_single (takeIdx r (min n c) j)]
      · rw [submatrix_apply, id, one_apply_eq, mul_one, mul_diagonal]; rfl
      · intro l _ hl
        simp only [submatrix_apply, id, one_apply, if_neg hl, mul_zero]
      · simp
    have d2 : fro (B * Bᵀ - B' * B'ᵀ) ≤ 3 * ε * b ^ 2 := by
      have e1 : B * Bᵀ - B' * B'ᵀ = (B - B') * Bᵀ + B' * (B - B')ᵀ := by
        simp only [Matrix.sub_mul, Matrix.mul_sub, transpose_sub]; abel
      rw [e1]
      have h1 := fro_triangle ((B - B') * Bᵀ) (B' * (B - B')ᵀ)
      have h2 := fro_mul_le (B - B') Bᵀ
      have h3 := fro_mul_le B' (B - B')ᵀ
      rw [fro_tr] at h2 h3
      rw [fro_sub_comm] at dB
      rw [← hb] at h2
      have h4 : fro (B - B') * b ≤ ε * b * b := mul_le_mul_of_nonneg_right dB b0
      have h5 : fro B' * fro (B - B') ≤ 2 * b * (ε * b) := mul_le_mul nB' dB (fro_nonneg _) (by linarith)
      calc _ ≤ ε * b * b + 2 * b * (ε * b) := by linarith
        _ = _ := by ring
    have d3 : fro (diagonal fun i => σ i ^ 2) ≤ 4 * b ^ 2 := by
      have h1 : diagonal (fun i => σ i ^ 2) = Pᵀ * (B' * B'ᵀ * P) := by
        rw [eP, ← Matrix.mul_assoc, show Pᵀ * P = 1 from oP, Matrix.one_mul]
      rw [h1]
      refine (fro_orth_transpose_mul_le oP _).trans ((fro_mul_orthCols_le oP _).trans ((fro_mul_le _ _).trans ?_))
      rw [fro_tr]
      have := mul_le_mul nB' nB' (fro_nonneg _) (by linarith)
      linarith
    have e2 : B * Bᵀ * V - V * diagonal (fun i => σ i ^ 2) =
        (B * Bᵀ * (V - P) + (B * Bᵀ - B' * B'ᵀ) * P) + (P - V) * diagonal fun i => σ i ^ 2 := by
      rw [Matrix.sub_mul (B * Bᵀ), eP]
      simp only [Matrix.sub_mul, Matrix.mul_sub]; abel
    rw [e2]
    have h1 := fro_triangle (B * Bᵀ * (V - P) + (B * Bᵀ - B' * B'ᵀ) * P) ((P - V) * diagonal fun i => σ i ^ 2)
    have h2 := fro_triangle (B * Bᵀ * (V - P)) ((B * Bᵀ - B' * B'ᵀ) * P)
    have h3 : fro (B * Bᵀ * (V - P)) ≤ b * b * ε := by
      refine (fro_mul_le _ _).trans (mul_le_mul ?_ dV (fro_nonneg _) (mul_nonneg b0 b0))
      refine (fro_mul_le _ _).trans ?_
      rw [fro_tr, ← hb]
    have h4 := (fro_mul_orthCols_le oP (B * Bᵀ - B' * B'ᵀ)).trans d2
    have h5 : fro ((P - V) * diagonal fun i => σ i ^ 2) ≤ ε * (4 * b ^ 2) := by
      refine (fro_mul_le _ _).trans (mul_le_mul ?_ d3 (fro_nonneg _) hε)
      rw [fro_sub_comm]; exact dV
    calc _ ≤ b * b * ε + 3 * ε * b ^ 2 + ε * (4 * b ^ 2) := by linarith
      _ = _ := by rw [← hb]; ring

/-! ### The theorems -/

/-- What `EVD2` promises on a machine accurate to `ε`, for the sketching matrix `S`, the regularisation parameter `nu` it computed
and the arrays `V, lamb` it returned. -/
structure Evd2Round (ε : ℝ) (A : Matrix (Fin n) (Fin n) ℝ) (k : ℤ) {c : ℕ} (S : Matrix (Fin n) (Fin c) ℝ) (nu : ℝ) (out : EVDOut n) :
    Prop where
  /-- at most `k` eigenpairs -/
  count : (out.r : ℤ) ≤ k
  /-- orthonormal vectors, up to `3 ε` -/
  orth : fro (out.Vᵀ * out.V - 1) ≤ 3 * ε
  /-- all but possibly the first eigenvalue are nonnegative -/
  nonneg : ∀ i : Fin out.r, 0 < i.1 → 0 ≤ out.lamb i
  /-- `R` is a Cholesky factor of `S' (A + nu I) S` and `B` solves `B R = (A + nu I) S`, up to `ε`; the columns of `V` and the
  numbers `lamb + nu` are eigenpairs of `B B'`, the Nyström approximation of `A + nu I`, up to `ε` -/
  nystrom : ∃ (R : Matrix (Fin c) (Fin c) ℝ) (B : Matrix (Fin n) (Fin c) ℝ) (t : Fin out.r → ℝ),
    (∀ i j, j < i → R i j = 0) ∧ (∀ i, 0 < R i i) ∧
    fro (Rᵀ * R - Sᵀ * (A * S + nu • S)) ≤ 29 * ε * (fro S ^ 2 * (fro A + nu)) ∧
    fro (B * R - (A * S + nu • S)) ≤ ε * (fro R * fro B + fro S * (3 * fro A + nu)) ∧
    fro (B * Bᵀ * out.V - out.V * diagonal t) ≤ 8 * ε * fro B ^ 2 ∧
    (∀ i, 0 ≤ t i) ∧ (∀ i j, i ≤ j → t j ≤ t i) ∧
    ∀ i, |out.lamb i + nu - t i| ≤ 3 * ε * (t i + nu)

set_option maxHeartbeats 1000000 in
theorem evd2PostFl_ok {fl : FlNys} {N : ℕ} {ε : ℝ} (hfl : fl.Accurate N ε) (hε : 0 ≤ ε) (hε1 : ε ≤ 1) (hn : n ≤ N)
    (A : Matrix (Fin n) (Fin n) ℝ) (hA : Aᵀ = A) (k : ℕ) (S : Cols n) (hc : S.c ≤ N) (hk : k ≤ S.c) (hkn : k ≤ n)
    (R : Matrix (Fin S.c) (Fin S.c) ℝ)
    (hR : fl.chol (fl.mul S.matᵀ (fl.axpy (fl.mul A S.mat) (evd2NuFl fl A S.mat) S.mat)) = .ok R) :
    ∃ out, evd2PostFl fl A k S = .ok out ∧ Evd2Round ε A k S.mat (evd2NuFl fl A S.mat) out := by
  have hnu := (C101_nu hfl hε hε1 hn hc A S.mat).1
  obtain ⟨nu, hnue⟩ : ∃ nu, nu = evd2NuFl fl A S.mat := ⟨_, rfl⟩
  rw [← hnue] at hnu hR
  obtain ⟨r1, r2, r3⟩ := nys_chol_ok hfl hε hε1 hn hc A hA S.mat hnu R hR
  obtain ⟨y1, -, -⟩ := nys_chain hfl hε hε1 hn hc A hA S.mat hnu
  obtain ⟨Y, hY⟩ : ∃ Y, Y = fl.axpy (fl.mul A S.mat) nu S.mat := ⟨_, rfl⟩
  rw [← hY] at hR y1
  obtain ⟨X, hX, x1⟩ := hfl.solveT R Yᵀ hc hn r1 fun i => (r2 i).ne'
  obtain ⟨B, hB⟩ : ∃ B, B = Xᵀ := ⟨_, rfl⟩
  obtain ⟨sigma, hsig⟩ : ∃ t, t = (fl.svdFull B).2.1 := ⟨_, rfl⟩
  obtain ⟨comps, hcm, hmem⟩ := evd2CompsFl_ok (fl := fl) (sigma := sigma) (nu := nu) (List.range (k - 1)) [k] (by
    intro i hi
    have := List.mem_range.1 hi
    omega)
  obtain ⟨m1, m2, m3⟩ := foldl_min_spec comps k
  obtain ⟨r, hr⟩ : ∃ r, r = comps.foldl min k := ⟨_, rfl⟩
  rw [← hr] at m1 m2 m3
  obtain ⟨g1, g2⟩ := nys_svd hfl hε hε1 hn hc B r _ rfl _ rfl
  rw [← hsig] at g2
  have hnn : ∀ i, 0 ≤ takev r sigma i := fun i => by rw [hsig]; exact hfl.svdFull_nonneg B _
  have hrel : ∀ i : Fin (min r (min n S.c)), (1 - ε) * takev r sigma i ^ 2 ≤ fl.smul (takev r sigma i) (takev r sigma i) ∧
      fl.smul (takev r sigma i) (takev r sigma i) ≤ (1 + ε) * takev r sigma i ^ 2 := by
    intro i
    have := smul_round hfl (hnn i) (hnn i)
    rw [← pow_two] at this
    exact this
  refine ⟨⟨min r (min n S.c), (fl.svdFull B).1.submatrix id (minL ∘ takeIdx r (min n S.c)),
    fun i => fl.ssub (fl.smul (takev r sigma i) (takev r sigma i)) nu⟩, ?_, ?_⟩
  · unfold evd2PostFl
    simp only [← hnue, ← hY, hR, hX, ← hB, ← hsig, hcm, bind, Except.bind]
    rw [hr]
  · rw [← hnue]
    refine ⟨?_, g1, ?_, R, B, fun i => takev r sigma i ^ 2, r1, r2, r3, ?_, g2, fun i => sq_nonneg _, ?_, ?_⟩
    · have : min r (min n S.c) ≤ k := by omega
      exact_mod_cast this
    · intro i hi
      have hir : i.1 < min r (min n S.c) := i.2
      have hnot : (i.1 - 1) ∉ comps := fun h => by have := m2 _ h; omega
      have hgt : nu < fl.smul (takev r sigma i) (takev r sigma i) := by
        by_contra hle
        refine hnot ((hmem _).2 (Or.inr ⟨List.mem_range.2 (by omega), by omega, ?_⟩))
        have e : (⟨i.1 - 1 + 1, by omega⟩ : Fin (min n S.c)) = takeIdx r (min n S.c) i :=
          Fin.ext (by show i.1 - 1 + 1 = i.1; omega)
        rw [e]
        exact not_lt.1 hle
      have h1 := hfl.alg.ssub (fl.smul (takev r sigma i) (takev r sigma i)) nu
      rw [abs_of_pos (by linarith : 0 < fl.smul (takev r sigma i) (takev r sigma i) - nu)] at h1
      have h2 := (abs_le.1 h1).1
      have h3 : ε * (fl.smul (takev r sigma i) (takev r sigma i) - nu) ≤ 1 * (fl.smul (takev r sigma i) (takev r sigma i) - nu) :=
        mul_le_mul_of_nonneg_right hε1 (by linarith)
      show 0 ≤ fl.ssub _ _
      linarith
    · have h1 : fro (B * R - Y) ≤ ε * fro R * fro B := by
        rw [hB, ← fro_tr, transpose_sub, transpose_mul, transpose_transpose, fro_tr X]
        exact x1
      have := fro_sub_le (B * R) Y (A * S.mat + nu • S.mat)
      linarith
    · intro i j hij
      have h1 : takev r sigma j ≤ takev r sigma i := by
        rw [hsig]
        exact hfl.svdFull_anti B (show takeIdx r (min n S.c) i ≤ takeIdx r (min n S.c) j from hij)
      exact pow_le_pow_left₀ (hnn j) h1 2
    · intro i
      obtain ⟨z, hz⟩ : ∃ z, z = fl.smul (takev r sigma i) (takev r sigma i) := ⟨_, rfl⟩
      have h0 := hrel i
      obtain ⟨y, hy⟩ : ∃ y, y = takev r sigma i ^ 2 := ⟨_, rfl⟩
      have y0 : 0 ≤ y := hy ▸ sq_nonneg _
      rw [← hz, ← hy] at h0
      have h1 := hfl.alg.ssub z nu
      show |fl.ssub (fl.smul (takev r sigma i) (takev r sigma i)) nu + nu - takev r sigma i ^ 2| ≤ 3 * ε * (takev r sigma i ^ 2 + nu)
      rw [← hz, ← hy]
      have hz2 : z ≤ 2 * y := by nlinarith
      have hz0 : 0 ≤ z := le_trans (mul_nonneg (by linarith) y0) h0.1
      have h2 : |z - nu| ≤ 2 * y + nu := abs_le.2 ⟨by linarith, by linarith⟩
      have h3 := mul_le_mul_of_nonneg_left h2 hε
      obtain ⟨h4, h5⟩ := abs_le.1 (h1.trans h3)
      have h6 : 0 ≤ ε * nu := mul_nonneg hε hnu
      have h7 : 0 ≤ ε * y := mul_nonneg hε y0
      refine abs_le.2 ⟨?_, ?_⟩ <;> nlinarith

/-- **C101** (EVD2 with rounding errors).  On a machine accurate to `ε`, for every symmetric `A`: if the sketcher returned an `S`
with at least `k` columns then `EVD2` either returns arrays with the guarantees of `Evd2Round`, or raises what the Cholesky
factorisation of the regularised core matrix raised. -/
theorem C101_evd2_class {fl : FlNys} {N : ℕ} {ε : ℝ} (hfl : fl.Accurate N ε) (hε : 0 ≤ ε) (hε1 : ε ≤ 1) (hn : n ≤ N)
    (skOp : RowSketcher G) (A : Matrix (Fin n) (Fin n) ℝ) (hA : Aᵀ = A) (k : ℤ) (hk : 0 < k) (hk' : k < n) (tol : Tol) (over : ℕ)
    (w w1 : World G) (S : Cols n) (hS : skOp n n A (k + over).toNat (afterTolWarning tol w) = .ok (S, w1)) (hc : S.c ≤ N)
    (hkc : k ≤ S.c) :
    (∃ out, evd2CallFl fl skOp A k tol over w = .ok (out, { w1 with trace := w1.trace ++ [Ev.mulA] }) ∧
      Evd2Round ε A k S.mat (evd2NuFl fl A S.mat) out) ∨
    ∃ e, fl.chol (fl.mul S.matᵀ (fl.axpy (fl.mul A S.mat) (evd2NuFl fl A S.mat) S.mat)) = .error e ∧
      evd2CallFl fl skOp A k tol over w = .error e := by
  have hrun : evd2CallFl fl skOp A k tol over w =
      Py.lift (evd2PostFl fl A k.toNat S) { w1 with trace := w1.trace ++ [Ev.mulA] } := by
    unfold evd2CallFl
    rw [Py.assert_pos_bind hk, Py.assert_pos_bind hk']
    have h2 : (skOp n n A (k + over).toNat >>= fun S => (Py.emit .mulA : Py G Unit) >>= fun _ =>
        Py.lift (evd2PostFl fl A k.toNat S)) (afterTolWarning tol w) =
        Py.lift (evd2PostFl fl A k.toNat S) { w1 with trace := w1.trace ++ [Ev.mulA] } := by
      rw [Py.bind_eq_of_ok hS, Py.bind_eq_of_ok (Py.emit_apply _ _)]
    cases tol with
    | nan => exact h2
    | val t => exact h2
  rw [hrun]
  cases hR : fl.chol (fl.mul S.matᵀ (fl.axpy (fl.mul A S.mat) (evd2NuFl fl A S.mat) S.mat)) with
  | error e =>
    refine Or.inr ⟨e, rfl, ?_⟩
    have : evd2PostFl fl A k.toNat S = .error e := by
      unfold evd2PostFl
      simp only [hR, bind, Except.bind]
    rw [this]
    rfl
  | ok R =>
    obtain ⟨out, h1, h2⟩ := evd2PostFl_ok hfl hε hε1 hn A hA k.toNat S hc (by omega) (by omega) R hR
    refine Or.inl ⟨out, by rw [h1]; rfl, ?_⟩
    rwa [show ((k.toNat : ℕ) : ℤ) = k by omega] at h2

/-- **C101** (when EVD2 with rounding errors does not fail).  If `A` is positive semidefinite, the columns of `S` are independent by
a margin `s` and the regularisation parameter exceeds the rounding errors,
`29 ε ‖S‖² (‖A‖ + nu) < nu s²`, then the Cholesky factorisation goes through and `EVD2` returns. -/
theorem C101_evd2_returns {fl : FlNys} {N : ℕ} {ε : ℝ} (hfl : fl.Accurate N ε) (hε : 0 ≤ ε) (hε1 : ε ≤ 1) (hn : n ≤ N)
    (skOp : RowSketcher G) (A : Matrix (Fin n) (Fin n) ℝ) (hA : IsPSD A) (k : ℤ) (hk : 0 < k) (hk' : k < n) (tol : Tol) (over : ℕ)
    (w w1 : World G) (S : Cols n) (hS : skOp n n A (k + over).toNat (afterTolWarning tol w) = .ok (S, w1))
    (hkc : k ≤ S.c) (s : ℝ) (hs : 0 < s) (hlow : ∀ v, s ^ 2 * sqNorm v ≤ sqNorm (S.mat *ᵥ v))
    (hgap : 29 * ε * (fro S.mat ^ 2 * (fro A + evd2NuFl fl A S.mat)) < evd2NuFl fl A S.mat * s ^ 2) :
    ∃ out, evd2CallFl fl skOp A k tol over w = .ok (out, { w1 with trace := w1.trace ++ [Ev.mulA] }) ∧
      Evd2Round ε A k S.mat (evd2NuFl fl A S.mat) out := by
  have hc : S.c ≤ N := (width_of_bounded_below hs hlow).trans hn
  rcases C101_evd2_class hfl hε hε1 hn skOp A hA.1 k hk hk' tol over w w1 S hS hc hkc with h | ⟨e, h, -⟩
  · exact h
  · obtain ⟨R, hR⟩ := nys_chol hfl hε hε1 hn hc A hA S.mat (C101_nu hfl hε hε1 hn hc A S.mat).1 hlow hgap
    rw [hR] at h
    cases h

/-! ### The driver -/

/-- an array with `n` rows and `l` columns made by `la.qr` -/
def IsQ (fl : FlAlg) (l b : ℕ) (S : Cols n) : Prop := ∃ X : Cols n, S = ⟨_, (fl.qr X.mat).1⟩ ∧ min n X.c = l ∧ X.c ≤ b

theorem maybeStab_one_pass (stab : Stab) (d : ℕ) {r : ℕ} (S : Cols r) : (maybeStab stab 1 d S : Py G (Cols r)) = callStab stab S := by
  unfold maybeStab
  rw [if_neg one_ne_zero, if_pos (Nat.mod_one _)]

theorem rs1LoopFl_ok (fl : FlAlg) (A : Matrix (Fin n) (Fin n) ℝ) (q : ℕ) :
    ∀ (done : ℕ) (S : Cols n) (w : World G), ∃ S' w', rs1LoopFl fl (orthFl fl) 1 A q done S w = .ok (S', w') ∧
      (q = 0 → S' = S) ∧ (0 < q → IsQ fl (min n S.c) n S') := by
  induction q with
  | zero => intro done S w; exact ⟨S, w, rfl, fun _ => rfl, fun h => absurd h (lt_irrefl _)⟩
  | succ q ih =>
    intro done S w
    obtain ⟨Z, w1, hZ, hq⟩ : ∃ Z w1, rs1LoopFl fl (orthFl fl) 1 A (q + 1) done S w =
        rs1LoopFl fl (orthFl fl) 1 A q (done + 2) Z w1 ∧ IsQ fl (min n S.c) n Z := by
      simp only [rs1LoopFl, maybeStab_one_pass]
      exact ⟨_, _, rfl, ⟨_, _⟩, rfl, by show min n (min n S.c) = min n S.c; omega, by show min n S.c ≤ n; omega⟩
    obtain ⟨S', w', h1, h2, h3⟩ := ih (done + 2) Z w1
    refine ⟨S', w', hZ.trans h1, fun h => absurd h (Nat.succ_ne_zero q), fun _ => ?_⟩
    rcases Nat.eq_zero_or_pos q with h0 | h0
    · rw [h2 h0]; exact hq
    · have h4 := h3 h0
      obtain ⟨X, rfl, hX, -⟩ := hq
      have e : min n (min n X.c) = min n S.c := by omega
      change IsQ fl (min n (min n X.c)) n S' at h4
      rwa [e] at h4

theorem rs1Fl_ok (fl : FlAlg) (gen : SkOpGen G) (A : Matrix (Fin n) (Fin n) ℝ) (p : ℤ) (hp : 1 ≤ p) (l : ℕ) (w : World G)
    (hgen : ∃ X w', gen n l w = .ok (X, w')) :
    ∃ S w', RS1Fl fl gen p (orthFl fl) 1 n n A l w = .ok (S, w') ∧ IsQ fl (min n l) (max n l) S := by
  obtain ⟨X, w1, hX⟩ := hgen
  have wid : ∀ {S : Cols n}, IsQ fl (min n l) n S → IsQ fl (min n l) (max n l) S :=
    fun ⟨X, h1, h2, h3⟩ => ⟨X, h1, h2, h3.trans (le_max_left _ _)⟩
  unfold RS1Fl rs1CallFl
  rw [Py.assert_pos_bind (by omega : p ≥ 0)]
  split
  · rename_i h
    obtain ⟨S', w', h1, -, h3⟩ := rs1LoopFl_ok fl A ((p - 0) / 2).toNat 0 ⟨l, X⟩ w1
    refine ⟨S', w', ?_, wid (h3 (by omega))⟩
    rw [Py.bind_eq_of_ok hX]; exact h1
  · rename_i h
    obtain ⟨Z, w2, hZ, hq⟩ : ∃ Z w2, (passATFl fl A ⟨l, X⟩ >>= fun S => (if (1 : ℕ) = 1 then callStab (orthFl fl) S else pure S) >>=
        fun S => rs1LoopFl fl (orthFl fl) 1 A ((p - 1) / 2).toNat 1 S) w1 =
        rs1LoopFl fl (orthFl fl) 1 A ((p - 1) / 2).toNat 1 Z w2 ∧ IsQ fl (min n l) (max n l) Z :=
      ⟨_, _, rfl, ⟨_, _⟩, rfl, rfl, le_max_right _ _⟩
    obtain ⟨S', w', h1, h2, h3⟩ := rs1LoopFl_ok fl A ((p - 1) / 2).toNat 1 Z w2
    refine ⟨S', w', ?_, ?_⟩
    · rw [Py.bind_eq_of_ok hX]; exact hZ.trans h1
    · rcases Nat.eq_zero_or_pos ((p - 1) / 2).toNat with h0 | h0
      · rw [h2 h0]; exact hq
      · have h4 := h3 h0
        obtain ⟨Y, rfl, hY, -⟩ := hq
        have e : min n (min n Y.c) = min n l := by omega
        change IsQ fl (min n (min n Y.c)) n S' at h4
        rw [e] at h4
        exact wid h4

theorem near_orth_low {c : ℕ} {Q Q' : Matrix (Fin n) (Fin c) ℝ} (hQ : OrthoCols Q') {ε : ℝ} (hε1 : ε ≤ 1) (h : fro (Q - Q') ≤ ε)
    (v : Fin c → ℝ) : (1 - ε) ^ 2 * sqNorm v ≤ sqNorm (Q *ᵥ v) := by
  have h1 : norm2 (Q' *ᵥ v) = norm2 v := by
    unfold norm2
    rw [sqNorm_orth_mulVec hQ]
  have h2 : norm2 ((Q - Q') *ᵥ v) ≤ ε * norm2 v :=
    (norm2_mulVec_fro _ _).trans (mul_le_mul_of_nonneg_right h (norm2_nonneg v))
  have h3 : norm2 (Q' *ᵥ v) ≤ norm2 (Q *ᵥ v) + norm2 ((Q - Q') *ᵥ v) := by
    have e : Q' *ᵥ v = Q *ᵥ v + -((Q - Q') *ᵥ v) := by rw [Matrix.sub_mulVec]; abel
    rw [e]
    refine (norm2_add_le' _ _).trans (le_of_eq ?_)
    congr 1
    unfold norm2 sqNorm
    simp
  have h4 : (1 - ε) * norm2 v ≤ norm2 (Q *ᵥ v) := by linarith
  have h5 := pow_le_pow_left₀ (mul_nonneg (by linarith) (norm2_nonneg v)) h4 2
  rw [mul_pow, norm2_sq, norm2_sq] at h5
  exact h5

/-- **C101** (`evd2` with rounding errors).  On a machine accurate to `ε < 1`, with at least two passes over a positive semidefinite
`A`: `evd2` sketches with an `S` of `c = min n (k + over)` columns that are orthonormal up to `ε`; if the regularisation parameter
exceeds the rounding errors, `29 ε (√c + 1)² (‖A‖ + nu) < nu (1 - ε)²`, it returns, with the guarantees of `Evd2Round`; and whenever
it returns it is with these guarantees. -/
theorem C101_evd2 {fl : FlNys} {N : ℕ} {ε : ℝ} (hfl : fl.Accurate N ε) (hε : 0 ≤ ε) (hε1 : ε < 1) (hn : n ≤ N)
    (gen : SkOpGen G) (A : Matrix (Fin n) (Fin n) ℝ) (hA : IsPSD A) (k : ℤ) (hk : 0 < k) (hk' : k < n) (over : ℕ)
    (hl : (k + over).toNat ≤ N) (p : ℤ) (hp : 2 ≤ p) (w : World G) (hgen : ∃ X w', gen n (k + over).toNat w = .ok (X, w')) :
    ∃ S : Cols n, S.c = min n (k + over).toNat ∧ fro (S.matᵀ * S.mat - 1) ≤ 3 * ε ∧
      (29 * ε * ((Real.sqrt S.c + 1) ^ 2 * (fro A + evd2NuFl fl A S.mat)) < evd2NuFl fl A S.mat * (1 - ε) ^ 2 →
        ∃ out w', evd2Fl fl gen A k over p w = .ok (out, w')) ∧
      ∀ out w', evd2Fl fl gen A k over p w = .ok (out, w') → Evd2Round ε A k S.mat (evd2NuFl fl A S.mat) out := by
  obtain ⟨S, w1, hS, hQ⟩ := rs1Fl_ok fl.toFlAlg gen A (p - 1) (by omega) (k + over).toNat w hgen
  have hrun : evd2Fl fl gen A k over p w =
      evd2CallFl fl (RS1Fl fl.toFlAlg gen (p - 1) (orthFl fl.toFlAlg) 1) A k .nan over w := by
    unfold evd2Fl
    rw [Py.assert_pos_bind (by omega : p ≥ 1)]
  obtain ⟨X, rfl, hX, hXN⟩ := hQ
  have hcn : min n X.c ≤ n := min_le_left _ _
  obtain ⟨Q', o1, o2, -⟩ := hfl.alg.qr X.mat hn (hXN.trans (max_le hn hl))
  refine ⟨⟨min n X.c, (fl.qr X.mat).1⟩, hX, ?_, ?_, ?_⟩
  · have := gram_near_orth o1 o2
    nlinarith
  · intro hgap
    rw [hrun]
    refine (C101_evd2_returns hfl hε hε1.le hn _ A hA k hk hk' .nan over w w1 _ hS (by show k ≤ (min n X.c : ℕ); omega) (1 - ε)
      (by linarith) (near_orth_low o1 hε1.le o2) (lt_of_le_of_lt ?_ hgap)).imp fun out h => ⟨_, h.1⟩
    have h1 : fro (fl.qr X.mat).1 ≤ Real.sqrt (min n X.c : ℕ) + 1 := by linarith [fro_near_orth o1 o2]
    have h2 := pow_le_pow_left₀ (fro_nonneg _) h1 2
    refine mul_le_mul_of_nonneg_left (mul_le_mul_of_nonneg_right h2 (add_nonneg (fro_nonneg _) ?_)) (by linarith)
    exact (C101_nu hfl hε hε1.le hn (hcn.trans hn) A _).1
  · intro out w' h
    rw [hrun] at h
    rcases C101_evd2_class hfl hε hε1.le hn _ A hA.1 k hk hk' .nan over w w1 _ hS (hcn.trans hn)
      (by show k ≤ (min n X.c : ℕ); omega) with ⟨o, h1, h2⟩ | ⟨e, -, h1⟩
    · rw [h] at h1
      cases h1
      exact h2
    · rw [h] at h1
      cases h1

end Parla.Props
