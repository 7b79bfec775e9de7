import Verif.Proof.GramPcSS1

/-! PcSS2 under a change of coordinates of the two spaces (helper lemmas). -/

namespace Parla

open Matrix Spec

variable {m m₁ m₂ n r₁ r₂ : ℕ}

/-- `B = P A T` where `P` is an isometry, `Ti` is the inverse of `T`, and `δ' I = δ T' T`: the
regularised problem for `B` with `δ'` is the one for `A` with `δ` in other coordinates. -/
structure Coords (A : Matrix (Fin m₂) (Fin n) ℝ) (B : Matrix (Fin m₁) (Fin n) ℝ) (P : Matrix (Fin m₁) (Fin m₂) ℝ)
    (T Ti : Matrix (Fin n) (Fin n) ℝ) (δ δ' : ℝ) : Prop where
  eq : B = P * A * T
  iso : Pᵀ * P = 1
  inv : T * Ti = 1
  nn : 0 ≤ δ
  nn' : 0 ≤ δ'
  zero : δ' = 0 ↔ δ = 0
  reg : δ' • (1 : Matrix (Fin n) (Fin n) ℝ) = δ • (Tᵀ * T)

variable {A : Matrix (Fin m₂) (Fin n) ℝ} {B : Matrix (Fin m₁) (Fin n) ℝ} {P : Matrix (Fin m₁) (Fin m₂) ℝ}
    {T Ti : Matrix (Fin n) (Fin n) ℝ} {δ δ' : ℝ}

theorem Coords.inv' (h : Coords A B P T Ti δ δ') : Ti * T = 1 := mul_eq_one_comm.1 h.inv

theorem Coords.reg' (h : Coords A B P T Ti δ δ') : δ' • Ti = δ • Tᵀ := by
  have := congrArg (· * Ti) h.reg
  simp only [Matrix.smul_mul, Matrix.one_mul, Matrix.mul_assoc, h.inv, Matrix.mul_one] at this
  exact this

theorem Coords.BT (h : Coords A B P T Ti δ δ') (u : Fin m₂ → ℝ) : Bᵀ *ᵥ (P *ᵥ u) = Tᵀ *ᵥ (Aᵀ *ᵥ u) := by
  rw [h.eq, transpose_mul, transpose_mul, mulVec_mulVec, Matrix.mul_assoc, Matrix.mul_assoc, h.iso, Matrix.mul_one,
    mulVec_mulVec]

theorem scaleEye_self (n : ℕ) (s : ℝ) : scaleEye n n s = s • 1 := by
  ext i j
  simp only [scaleEye, of_apply, Matrix.smul_apply, Matrix.one_apply, smul_eq_mul, mul_ite, mul_one, mul_zero, Fin.ext_iff]

/-- the isometry of the lifted spaces -/
theorem exists_liftIso (P : Matrix (Fin m₁) (Fin m₂) ℝ) (p₁ p₂ : ℕ) (W : Matrix (Fin p₁) (Fin p₂) ℝ) :
    ∃ U : Matrix (Fin (m₁ + p₁)) (Fin (m₂ + p₂)) ℝ, ∀ w, U *ᵥ w = catv (P *ᵥ topv w) (W *ᵥ botv w) := by
  have hadd : ∀ {a b : ℕ} (u u' : Fin a → ℝ) (v v' : Fin b → ℝ), catv (u + u') (v + v') = catv u v + catv u' v' := by
    intro a b u u' v v'
    funext i
    refine Fin.addCases (fun i => ?_) (fun i => ?_) i <;> simp
  have hsm : ∀ {a b : ℕ} (c : ℝ) (u : Fin a → ℝ) (v : Fin b → ℝ), catv (c • u) (c • v) = c • catv u v := by
    intro a b c u v
    funext i
    refine Fin.addCases (fun i => ?_) (fun i => ?_) i <;> simp
  let f : (Fin (m₂ + p₂) → ℝ) →ₗ[ℝ] (Fin (m₁ + p₁) → ℝ) :=
    { toFun := fun w => catv (P *ᵥ topv w) (W *ᵥ botv w)
      map_add' := fun w w' => by
        rw [show topv (w + w') = topv w + topv w' from rfl, show botv (w + w') = botv w + botv w' from rfl,
          mulVec_add, mulVec_add, hadd]
      map_smul' := fun c w => by
        rw [show topv (c • w) = c • topv w from rfl, show botv (c • w) = c • botv w from rfl,
          mulVec_smul, mulVec_smul, hsm]; rfl }
  exact ⟨LinearMap.toMatrix' f, fun w => LinearMap.toMatrix'_mulVec f w⟩

/-- the lower block -/
theorem exists_lower (h : Coords A B P T Ti δ δ') :
    ∃ W : Matrix (Fin (liftRows n (Real.sqrt δ'))) (Fin (liftRows n (Real.sqrt δ))) ℝ, (∀ v, sqNorm (W *ᵥ v) = sqNorm v) ∧
      (∀ x, W *ᵥ (scaleEye (liftRows n (Real.sqrt δ)) n (Real.sqrt δ) *ᵥ x) =
        scaleEye (liftRows n (Real.sqrt δ')) n (Real.sqrt δ') *ᵥ (Ti *ᵥ x)) ∧
      (∀ v, (scaleEye (liftRows n (Real.sqrt δ')) n (Real.sqrt δ'))ᵀ *ᵥ (W *ᵥ v) =
        Tᵀ *ᵥ ((scaleEye (liftRows n (Real.sqrt δ)) n (Real.sqrt δ))ᵀ *ᵥ v)) := by
  have hz := h.zero
  have hnn := h.nn
  have hnn' := h.nn'
  have hreg := h.reg'
  have hinv := h.inv
  have hinv' := h.inv'
  have gen : ∀ (p₁ p₂ : ℕ) (s' s : ℝ), (p₁ = 0 ∧ p₂ = 0 ∧ s' = 0 ∧ s = 0) ∨
      (p₁ = n ∧ p₂ = n ∧ 0 < s' ∧ 0 < s ∧ s' ^ 2 • Ti = s ^ 2 • Tᵀ) →
      ∃ W : Matrix (Fin p₁) (Fin p₂) ℝ, (∀ v, sqNorm (W *ᵥ v) = sqNorm v) ∧
      (∀ x, W *ᵥ (scaleEye p₂ n s *ᵥ x) = scaleEye p₁ n s' *ᵥ (Ti *ᵥ x)) ∧
      (∀ v, (scaleEye p₁ n s')ᵀ *ᵥ (W *ᵥ v) = Tᵀ *ᵥ ((scaleEye p₂ n s)ᵀ *ᵥ v)) := by
    rintro p₁ p₂ s' s (⟨rfl, rfl, rfl, rfl⟩ | ⟨rfl, rfl, hs', hs, he⟩)
    · refine ⟨0, fun v => ?_, fun x => ?_, fun v => ?_⟩
      · simp [sqNorm]
      · exact Subsingleton.elim _ _
      · funext i
        rw [show v = 0 from Subsingleton.elim _ _]
        simp
    · have e1 : (s' / s) • Ti = (s / s') • Tᵀ := by
        have := congrArg ((s * s')⁻¹ • ·) he
        simp only [smul_smul] at this
        rw [show (s * s')⁻¹ * s' ^ 2 = s' / s by field_simp, show (s * s')⁻¹ * s ^ 2 = s / s' by field_simp] at this
        exact this
      refine ⟨(s' / s) • Ti, fun v => ?_, fun x => ?_, fun v => ?_⟩
      · refine sqNorm_orth_mulVec ?_ v
        nth_rw 1 [e1]
        rw [transpose_smul, transpose_transpose, smul_mul_smul, hinv, show s / s' * (s' / s) = 1 by field_simp, one_smul]
      · rw [scaleEye_self, scaleEye_self, smul_mulVec, smul_mulVec, one_mulVec, smul_mulVec, one_mulVec, mulVec_smul,
          smul_smul, div_mul_cancel₀ _ hs.ne']
      · rw [e1, scaleEye_self, scaleEye_self, transpose_smul, transpose_smul, transpose_one, smul_mulVec, smul_mulVec,
          smul_mulVec, one_mulVec, one_mulVec, mulVec_smul, smul_smul, mul_div_cancel₀ _ hs'.ne']
  apply gen
  rcases hnn.lt_or_eq with hp | h0
  · have hp' : 0 < δ' := lt_of_le_of_ne hnn' fun e => hp.ne' (hz.1 e.symm)
    have q1 := Real.sqrt_pos.2 hp
    have q2 := Real.sqrt_pos.2 hp'
    exact Or.inr ⟨liftRows_ne q2.ne', liftRows_ne q1.ne', q2, q1, by rw [Real.sq_sqrt hnn, Real.sq_sqrt hnn', hreg]⟩
  · have h0' := hz.2 h0.symm
    subst h0 h0'
    rw [Real.sqrt_zero]
    exact Or.inl ⟨liftRows_zero, liftRows_zero, rfl, rfl⟩

/-- the isometry between the lifted spaces -/
structure LiftIso (A : Matrix (Fin m₂) (Fin n) ℝ) (B : Matrix (Fin m₁) (Fin n) ℝ) (P : Matrix (Fin m₁) (Fin m₂) ℝ)
    (T Ti : Matrix (Fin n) (Fin n) ℝ) (δ δ' : ℝ) (W : Matrix (Fin (liftRows n (Real.sqrt δ'))) (Fin (liftRows n (Real.sqrt δ))) ℝ)
    (U : Matrix (Fin (m₁ + liftRows n (Real.sqrt δ'))) (Fin (m₂ + liftRows n (Real.sqrt δ))) ℝ) : Prop where
  norm : ∀ u, norm2 (U *ᵥ u) = norm2 u
  fwd : ∀ x, U *ᵥ (aLift A (Real.sqrt δ) *ᵥ x) = aLift B (Real.sqrt δ') *ᵥ (Ti *ᵥ x)
  adj : ∀ u, (aLift B (Real.sqrt δ'))ᵀ *ᵥ (U *ᵥ u) = Tᵀ *ᵥ ((aLift A (Real.sqrt δ))ᵀ *ᵥ u)
  cat : ∀ b c, U *ᵥ catv b c = catv (P *ᵥ b) (W *ᵥ c)

theorem LiftIso.top {W : Matrix (Fin (liftRows n (Real.sqrt δ'))) (Fin (liftRows n (Real.sqrt δ))) ℝ}
    {U : Matrix (Fin (m₁ + liftRows n (Real.sqrt δ'))) (Fin (m₂ + liftRows n (Real.sqrt δ))) ℝ}
    (h : LiftIso A B P T Ti δ δ' W U) (u) : topv (U *ᵥ u) = P *ᵥ topv u := by
  rw [← catv_top_bot u, h.cat, topv_catv, topv_catv]

theorem LiftIso.bot {W : Matrix (Fin (liftRows n (Real.sqrt δ'))) (Fin (liftRows n (Real.sqrt δ))) ℝ}
    {U : Matrix (Fin (m₁ + liftRows n (Real.sqrt δ'))) (Fin (m₂ + liftRows n (Real.sqrt δ))) ℝ}
    (h : LiftIso A B P T Ti δ δ' W U) (u) : botv (U *ᵥ u) = W *ᵥ botv u := by
  rw [← catv_top_bot u, h.cat, botv_catv, botv_catv]

/-- one lower block serves all matrices with the same change of variables -/
theorem Coords.exists_iso (h : Coords A B P T Ti δ δ') :
    ∃ W, ∀ {m₁ m₂ : ℕ} {A : Matrix (Fin m₂) (Fin n) ℝ} {B : Matrix (Fin m₁) (Fin n) ℝ} {P : Matrix (Fin m₁) (Fin m₂) ℝ},
      Coords A B P T Ti δ δ' → ∃ U, LiftIso A B P T Ti δ δ' W U := by
  obtain ⟨W, w1, w2, w3⟩ := exists_lower h
  refine ⟨W, fun {m₁ m₂ A B P} h => ?_⟩
  obtain ⟨U, hU⟩ := exists_liftIso P _ _ W
  refine ⟨U, fun u => ?_, fun x => ?_, fun u => ?_, fun b c => ?_⟩
  · unfold norm2
    rw [hU, sqNorm_catv, w1, sqNorm_orth_mulVec h.iso, ← sqNorm_catv, catv_top_bot]
  · rw [hU, aLift_mulVec, aLift_mulVec, topv_catv, botv_catv, w2, mulVec_mulVec, mulVec_mulVec _ B, h.eq,
      Matrix.mul_assoc _ T, h.inv, Matrix.mul_one]
  · rw [hU, aLift_T_mulVec, aLift_T_mulVec, ← scaleEye_T_mulVec, ← scaleEye_T_mulVec, topv_catv, botv_catv, w3, h.BT,
      mulVec_add]
  · rw [hU, topv_catv, botv_catv]

/-- the result in the other coordinates -/
def SaddleOut.coords (P : Matrix (Fin m₁) (Fin m₂) ℝ) (Ti : Matrix (Fin n) (Fin n) ℝ) (o : SaddleOut m₂ n) : SaddleOut m₁ n :=
  ⟨o.x.map (Ti *ᵥ ·), P *ᵥ o.y, o.errs⟩

/-- the right-hand side in the other coordinates -/
def BArg.coords (P : Matrix (Fin m₁) (Fin m₂) ℝ) : BArg m₂ → BArg m₁
  | .none => .none
  | .vec b => .vec (P *ᵥ b)
  | .multi k h => .multi k h

theorem Coords.rotated (h : Coords A B P T Ti δ δ') {M₁ : Matrix (Fin n) (Fin r₁) ℝ} {M₂ : Matrix (Fin n) (Fin r₂) ℝ}
    (hM : T * M₁ * (T * M₁)ᵀ = M₂ * M₂ᵀ) (hf₁ : FullColRank M₁) (hf₂ : FullColRank M₂) :
    ∃ (O : Matrix (Fin r₁) (Fin r₂) ℝ)
      (U : Matrix (Fin (m₁ + liftRows n (Real.sqrt δ'))) (Fin (m₂ + liftRows n (Real.sqrt δ))) ℝ),
      Rotated (aLift B (Real.sqrt δ') * M₁) (aLift A (Real.sqrt δ) * M₂) U O ∧ M₁ * O = Ti * M₂ ∧ O * M₂ᵀ = M₁ᵀ * Tᵀ ∧
      (∀ u, topv (U *ᵥ u) = P *ᵥ topv u) ∧ ∀ b, U *ᵥ catv b 0 = catv (P *ᵥ b) 0 := by
  have hf : FullColRank (T * M₁) := by
    obtain ⟨L, hL⟩ := exists_left_inv hf₁
    refine fullColRank_of_left_inv (L := L * Ti) ?_
    rw [Matrix.mul_assoc, ← Matrix.mul_assoc Ti, h.inv', Matrix.one_mul, hL]
  obtain ⟨O, hO, e1, e2⟩ := exists_rot hM hf hf₂
  obtain ⟨W, hW⟩ := h.exists_iso
  obtain ⟨U, hU⟩ := hW h
  have e1' : M₁ * O = Ti * M₂ := by
    rw [← e1, ← Matrix.mul_assoc, ← Matrix.mul_assoc, h.inv', Matrix.one_mul]
  rw [transpose_mul] at e2
  refine ⟨O, U, ⟨hU.norm, norm2_orth_mulVec hO, fun v => ?_, fun u => ?_⟩, e1', e2, hU.top, fun b => by
    rw [hU.cat, mulVec_zero]⟩
  · rw [← mulVec_mulVec _ _ M₂, hU.fwd, mulVec_mulVec, mulVec_mulVec, mulVec_mulVec, Matrix.mul_assoc, e1', Matrix.mul_assoc]
  · rw [mul_T_mulVec, hU.adj, mul_T_mulVec, mulVec_mulVec, ← e2, ← mulVec_mulVec]

/-- **PcSS2 in other coordinates** -/
theorem pcss2_coords (h : Coords A B P T Ti δ δ') (b : BArg m₂) (c : Option (Fin n → ℝ)) (tol : ℝ) (L : ℤ)
    {P₁ P₂ : Precond n} (hP₁ : P₁.Ok) (hP₂ : P₂.Ok) (hM : T * P₁.mat * (T * P₁.mat)ᵀ = P₂.mat * P₂.matᵀ)
    (hf₁ : FullColRank P₁.mat) (hf₂ : FullColRank P₂.mat)
    (z₁ : Option (Fin P₁.dim → ℝ)) (z₂ : Option (Fin P₂.dim → ℝ))
    (hz : z₁.map (P₁.mat *ᵥ ·) = z₂.map fun z => Ti *ᵥ (P₂.mat *ᵥ z)) :
    pcss2 B (b.coords P) (c.map (Tᵀ *ᵥ ·)) δ' tol L P₁ z₁ = (pcss2 A b c δ tol L P₂ z₂).map (SaddleOut.coords P Ti) := by
  obtain ⟨O, U, hR, e1, e2, u4, u5⟩ := h.rotated hM hf₁ hf₂
  have hTinj : ∀ c : Fin n → ℝ, Tᵀ *ᵥ c = 0 → c = 0 := by
    intro c hc
    have := congrArg (Tiᵀ *ᵥ ·) hc
    simp only [mulVec_mulVec, ← transpose_mul, h.inv, transpose_one, one_mulVec, mulVec_zero] at this
    exact this
  have hPinj : ∀ b : Fin m₂ → ℝ, P *ᵥ b = 0 → b = 0 := by
    intro b hb
    have := congrArg (Pᵀ *ᵥ ·) hb
    simp only [mulVec_mulVec, h.iso, one_mulVec, mulVec_zero] at this
    exact this
  have hz' : z₁ = z₂.map (O *ᵥ ·) := by
    cases z₁ with
    | none => cases z₂ with
      | none => rfl
      | some z => cases hz
    | some z => cases z₂ with
      | none => cases hz
      | some z' =>
        simp only [Option.map, Option.some.injEq] at hz ⊢
        obtain ⟨L₁, hL₁⟩ := exists_left_inv hf₁
        have := congrArg (L₁ *ᵥ ·) hz
        simp only [mulVec_mulVec, hL₁, one_mulVec] at this
        rw [this, ← Matrix.mul_assoc, Matrix.mul_assoc, ← e1, ← Matrix.mul_assoc, hL₁, Matrix.one_mul]
  have hcz : cIsZero (c.map (Tᵀ *ᵥ ·)) ↔ cIsZero c := by
    cases c with
    | none => exact Iff.rfl
    | some c =>
      change norm2 (Tᵀ *ᵥ c) = 0 ↔ norm2 c = 0
      rw [norm2_eq_zero, norm2_eq_zero]
      exact ⟨hTinj c, fun e => by rw [e, mulVec_zero]⟩
  have hcv : ∀ c : Option (Fin n → ℝ), cIsZero c ↔ Props.cVec c = 0 := by
    intro c
    cases c with
    | none => exact ⟨fun _ => rfl, fun _ => trivial⟩
    | some c => exact norm2_eq_zero
  have hbz : (b.coords P).isZero ↔ b.isZero := by
    cases b with
    | none => exact Iff.rfl
    | multi k hk => exact Iff.rfl
    | vec b =>
      change norm2 (P *ᵥ b) = 0 ↔ norm2 b = 0
      rw [norm2_eq_zero, norm2_eq_zero]
      exact ⟨hPinj b, fun e => by rw [e, mulVec_zero]⟩
  have under : b.isZero → ¬ cIsZero c → pcss2 B (b.coords P) (c.map (Tᵀ *ᵥ ·)) δ' tol L P₁ z₁ =
      (pcss2 A b c δ tol L P₂ z₂).map (SaddleOut.coords P Ti) := by
    intro hb hc
    cases c with
    | none => exact absurd trivial hc
    | some c =>
      have hc' : c ≠ 0 := fun h => hc (norm2_eq_zero.2 h)
      have hR' : Rotated (aLift B (Real.sqrt δ') * P₁.mat)ᵀ (aLift A (Real.sqrt δ) * P₂.mat)ᵀ O U :=
        ⟨hR.isoV, hR.isoU, hR.adj, fun v => by rw [transpose_transpose, transpose_transpose]; exact hR.fwd v⟩
      have := lsqr_rot hR' (P₂.matᵀ *ᵥ c) 0 ⟨tol, tol, 10 ^ 8⟩ L none
      rw [mulVec_mulVec, e2, ← mulVec_mulVec] at this
      rw [Option.map_some, Props.pcss2_under_eq B _ _ h.nn' tol L hP₁ z₁ (hbz.2 hb) (fun e => hc' (hTinj c e)),
        Props.pcss2_under_eq A b c h.nn tol L hP₂ z₂ hb hc']
      change lsqr _ _ _ _ _ none false = _ at this
      rw [this]
      cases lsqr (LinOp.ofMat (aLift A (Real.sqrt δ) * P₂.mat)ᵀ) (P₂.matᵀ *ᵥ c) 0 ⟨tol, tol, 10 ^ 8⟩ (some L) none with
      | error e => rfl
      | ok res =>
        simp only [Except.map, LsqrOut.rot, u4, SaddleOut.coords]
        congr 2
        rcases h.nn.lt_or_eq with hp | h0
        · have hp' : 0 < δ' := lt_of_le_of_ne h.nn' fun e => hp.ne' (h.zero.1 e.symm)
          rw [if_pos hp, if_pos hp', Option.map_some, h.BT, ← mulVec_sub]
          have : (1 / δ') • Tᵀ = (1 / δ) • Ti := by
            have := congrArg ((δ * δ')⁻¹ • ·) h.reg'
            simp only [smul_smul] at this
            rw [show (δ * δ')⁻¹ * δ' = 1 / δ by field_simp, show (δ * δ')⁻¹ * δ = 1 / δ' by field_simp] at this
            exact this.symm
          rw [mulVec_smul, ← smul_mulVec, ← smul_mulVec, this]
        · have h0' := h.zero.2 h0.symm
          rw [if_neg (by rw [h0']; exact lt_irrefl _), if_neg (by rw [← h0]; exact lt_irrefl _)]
          rfl
  by_cases hc : cIsZero c
  · cases b with
    | multi k hk =>
      exact ((Props.C34_pcss2_rejects B _ δ' tol L P₁ z₁).1 k hk).trans
        (by rw [(Props.C34_pcss2_rejects A c δ tol L P₂ z₂).1 k hk]; rfl)
    | none =>
      rcases h.nn.lt_or_eq with hp | h0
      · have hp' : 0 < δ' := lt_of_le_of_ne h.nn' fun e => hp.ne' (h.zero.1 e.symm)
        rw [(Props.C34_pcss2_rejects A c δ tol L P₂ z₂).2.2.1 ((hcv c).1 hc) hp]
        exact (Props.C34_pcss2_rejects B _ δ' tol L P₁ z₁).2.2.1 ((hcv _).1 (hcz.2 hc)) hp'
      · rw [(Props.C34_pcss2_rejects A c δ tol L P₂ z₂).2.2.2 ((hcv c).1 hc) h0.symm]
        exact (Props.C34_pcss2_rejects B _ δ' tol L P₁ z₁).2.2.2 ((hcv _).1 (hcz.2 hc)) (h.zero.2 h0.symm)
    | vec b =>
      have := lsqr_rot hR (catv b 0) 0 ⟨tol, tol, 10 ^ 8⟩ L z₂
      rw [u5, ← hz'] at this
      rw [Props.pcss2_over_eq A b c h.nn tol L hP₂ z₂ hc]
      refine (Props.pcss2_over_eq B (P *ᵥ b) _ h.nn' tol L hP₁ z₁ (hcz.2 hc)).trans ?_
      rw [this]
      cases lsqr (LinOp.ofMat (aLift A (Real.sqrt δ) * P₂.mat)) (catv b 0) 0 ⟨tol, tol, 10 ^ 8⟩ (some L) z₂ with
      | error e => rfl
      | ok res =>
        have e : P₁.mat *ᵥ (O *ᵥ res.x) = Ti *ᵥ (P₂.mat *ᵥ res.x) := by rw [mulVec_mulVec, mulVec_mulVec, e1]
        have e' : ∀ x, B *ᵥ (Ti *ᵥ x) = P *ᵥ (A *ᵥ x) := by
          intro x
          rw [h.eq, mulVec_mulVec, Matrix.mul_assoc, h.inv, Matrix.mul_one, mulVec_mulVec]
        simp only [Except.map, LsqrOut.rot, SaddleOut.coords, e, e', Option.map_some, mulVec_sub]
  · by_cases hb : b.isZero
    · exact under hb hc
    · cases b with
      | none => exact absurd trivial hb
      | multi k hk =>
        exact ((Props.C34_pcss2_rejects B _ δ' tol L P₁ z₁).1 k hk).trans
          (by rw [(Props.C34_pcss2_rejects A c δ tol L P₂ z₂).1 k hk]; rfl)
      | vec b =>
        have hb' : b ≠ 0 := fun h => hb (norm2_eq_zero.2 h)
        rw [(Props.C34_pcss2_rejects A c δ tol L P₂ z₂).2.1 b hb' fun e => hc ((hcv c).2 e)]
        exact (Props.C34_pcss2_rejects B _ δ' tol L P₁ z₁).2.1 _ (fun e => hb' (hPinj b e))
          fun e => hc (hcz.1 ((hcv _).2 e))

end Parla
