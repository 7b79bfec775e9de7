import Verif.Proof.ChangeVars
import Verif.Props.Backend

/-! # C88: changes of variables and units

Replace `A` by `P A T` with `P` orthogonal and `T` invertible, `b` by `P b`, `c` by `T' c`, and draw the
sketch in the new coordinates.  The drivers that use LSQR return the same answer in the new coordinates,
after the same number of iterations and with the same log: the conditioning of `A` is irrelevant. -/

namespace Parla.Spec

open Matrix

/-- From every random state `gen'` draws a matrix `S'` for which `S' P` is what `gen` draws. -/
def SketchesAlike {G : Type} {m : ℕ} (gen gen' : SkOpGen G) (P : Matrix (Fin m) (Fin m) ℝ) : Prop :=
  ∀ (d : ℕ) (w : World G), gen d m w = (gen' d m w).map fun r => (r.1 * P, r.2)

end Parla.Spec

namespace Parla.Props

open Matrix Spec

variable {G : Type} {m n d : ℕ}

theorem coords_of {A : Matrix (Fin m) (Fin n) ℝ} {P : Matrix (Fin m) (Fin m) ℝ} {T Ti : Matrix (Fin n) (Fin n) ℝ} {δ δ' : ℝ}
    (hn : n ≠ 0) (hP : Pᵀ * P = 1) (hT : T * Ti = 1) (hδ : 0 ≤ δ) (hδ' : 0 ≤ δ')
    (hreg : δ' • (1 : Matrix (Fin n) (Fin n) ℝ) = δ • (Tᵀ * T)) : Coords A (P * A * T) P T Ti δ δ' := by
  refine ⟨rfl, hP, hT, hδ, hδ', ⟨fun h => ?_, fun h => ?_⟩, hreg⟩
  · subst h
    rw [zero_smul] at hreg
    have := congrArg (fun X => Tiᵀ * X * Ti) hreg
    simp only [Matrix.mul_zero, Matrix.zero_mul, Matrix.mul_smul, Matrix.smul_mul, Matrix.mul_assoc, hT, Matrix.mul_one] at this
    rw [← transpose_mul, hT, transpose_one] at this
    have := congrFun (congrFun this ⟨0, by omega⟩) ⟨0, by omega⟩
    simpa using this.symm
  · subst h
    rw [zero_smul] at hreg
    have := congrFun (congrFun hreg ⟨0, by omega⟩) ⟨0, by omega⟩
    simpa using this

/-- the sketched matrices are related by the same change of variables -/
theorem _root_.Parla.Coords.sketch {A B : Matrix (Fin m) (Fin n) ℝ} {P : Matrix (Fin m) (Fin m) ℝ} {T Ti : Matrix (Fin n) (Fin n) ℝ}
    {δ δ' : ℝ} (h : Coords A B P T Ti δ δ') {S S' : Matrix (Fin d) (Fin m) ℝ} (hS : S' * P = S) :
    Coords (S * A) (S' * B) 1 T Ti δ δ' :=
  ⟨by rw [h.eq, ← hS]; simp only [Matrix.mul_assoc, Matrix.one_mul], by rw [transpose_one, Matrix.one_mul], h.inv, h.nn,
    h.nn', h.zero, h.reg⟩

theorem _root_.Parla.Coords.full {A : Matrix (Fin m) (Fin n) ℝ} {B : Matrix (Fin d) (Fin n) ℝ} {P : Matrix (Fin d) (Fin m) ℝ}
    {T Ti : Matrix (Fin n) (Fin n) ℝ} {δ δ' : ℝ} (h : Coords A B P T Ti δ δ') :
    FullColRank (aLift B (Real.sqrt δ')) ↔ FullColRank (aLift A (Real.sqrt δ)) := by
  obtain ⟨W, hW⟩ := h.exists_iso
  obtain ⟨U, hU⟩ := hW h
  rw [fullColRank_iff_inj, fullColRank_iff_inj]
  have key : ∀ x, aLift A (Real.sqrt δ) *ᵥ x = 0 ↔ aLift B (Real.sqrt δ') *ᵥ (Ti *ᵥ x) = 0 := by
    intro x
    rw [← hU.fwd, ← norm2_eq_zero, ← norm2_eq_zero, hU.norm]
  refine ⟨fun hb x hx => ?_, fun ha x hx => ?_⟩
  · have := congrArg (T *ᵥ ·) (hb _ ((key x).1 hx))
    simpa only [mulVec_mulVec, h.inv, one_mulVec, mulVec_zero] using this
  · have := ha (T *ᵥ x) ((key _).2 (by rwa [mulVec_mulVec _ Ti T, h.inv', one_mulVec]))
    have := congrArg (Ti *ᵥ ·) this
    simpa only [mulVec_mulVec, h.inv', one_mulVec, mulVec_zero] using this

/-- the Gram matrices of the lifted matrices -/
theorem _root_.Parla.Coords.gram {A : Matrix (Fin m) (Fin n) ℝ} {B : Matrix (Fin d) (Fin n) ℝ} {P : Matrix (Fin d) (Fin m) ℝ}
    {T Ti : Matrix (Fin n) (Fin n) ℝ} {δ δ' : ℝ} (h : Coords A B P T Ti δ δ') :
    Bᵀ * B + δ' • 1 = Tᵀ * (Aᵀ * A + δ • 1) * T := by
  rw [h.reg, h.eq, Matrix.mul_add, Matrix.add_mul, transpose_mul, transpose_mul]
  congr 1
  · simp only [Matrix.mul_assoc]
    rw [← Matrix.mul_assoc Pᵀ, h.iso, Matrix.one_mul]
  · rw [Matrix.mul_smul, Matrix.smul_mul, Matrix.mul_one]

/-- inverse preconditioners -/
theorem coords_inv {N X Y T Ti : Matrix (Fin n) (Fin n) ℝ} (hT : T * Ti = 1) (hX : X * (Tᵀ * N * T) = 1) (hY : Y * N = 1) :
    T * X * Tᵀ = Y := by
  refine gram_inv_eq (N := N) ?_ hY
  have := congrArg (fun Z => T * Z * Ti) hX
  simp only [Matrix.mul_one, hT] at this
  rw [← this]
  simp only [Matrix.mul_assoc, hT, Matrix.mul_one]

/-- the result of SPO in the other coordinates -/
def SPOOut.coords (Ti : Matrix (Fin n) (Fin n) ℝ) (o : SPOOut n) : SPOOut n := ⟨o.x.map (Ti *ᵥ ·), o.log⟩

theorem spoPost_coords {A B : Matrix (Fin m) (Fin n) ℝ} {P : Matrix (Fin m) (Fin m) ℝ} {T Ti : Matrix (Fin n) (Fin n) ℝ}
    {δ δ' : ℝ} (h : Coords A B P T Ti δ δ') {S S' : Matrix (Fin d) (Fin m) ℝ} (hS : S' * P = S) (b : Fin m → ℝ)
    (tol : ℝ) (L : ℤ) (logging : Bool) (clock : LogTimes) {la la' : LinAlg} {mode mode' : SPOMode}
    {f f' : SPOFac n} (hf : spoFactor la mode S A b δ = .ok f) (hf' : spoFactor la' mode' S' B (P *ᵥ b) δ' = .ok f')
    (hg : SPOGood S A b δ f) (hg' : SPOGood S' B (P *ᵥ b) δ' f') (hdim : f'.P.dim = f.P.dim)
    (hM : T * f'.P.mat * (T * f'.P.mat)ᵀ = f.P.mat * f.P.matᵀ) :
    spoPost la' mode' S' B (P *ᵥ b) δ' tol L logging clock =
      (spoPost la mode S A b δ tol L logging clock).map (SPOOut.coords Ti) := by
  have hSB : S' * B = S * A * T := by rw [(h.sketch hS).eq, Matrix.one_mul]
  have hSb : S' *ᵥ (P *ᵥ b) = S *ᵥ b := by rw [mulVec_mulVec, hS]
  have hx : f'.x = Ti *ᵥ f.x := by
    rw [hg.x, hg'.x, hg.z, hg'.z, mulVec_mulVec _ f.P.mat, mulVec_mulVec _ f'.P.mat, ← hM, hSB, hSb, transpose_mul,
      transpose_mul, transpose_mul]
    simp only [mulVec_mulVec]
    congr 1
    simp only [Matrix.mul_assoc]
    rw [← Matrix.mul_assoc Ti T, h.inv', Matrix.one_mul]
  have hc : FullColRank f.P.mat := fullColRank_of_left_inv (by
    have := hg.orth
    rwa [← Matrix.mul_assoc] at this)
  have hc' : FullColRank f'.P.mat := fullColRank_of_left_inv (by
    have := hg'.orth
    rwa [← Matrix.mul_assoc] at this)
  have hnb : norm2 (P *ᵥ b) = norm2 b := norm2_orth_mulVec h.iso b
  have hz : (spoStart B (P *ᵥ b) δ' f').map (f'.P.mat *ᵥ ·) = (spoStart A b δ f).map fun z => Ti *ᵥ (f.P.mat *ᵥ z) := by
    have hr : norm2 (catv (B *ᵥ f'.x - P *ᵥ b) (scaleEye (liftRows n (Real.sqrt δ')) n (Real.sqrt δ') *ᵥ f'.x)) =
        norm2 (catv (A *ᵥ f.x - b) (scaleEye (liftRows n (Real.sqrt δ)) n (Real.sqrt δ) *ᵥ f.x)) := by
      obtain ⟨W, hW⟩ := h.exists_iso
      obtain ⟨U, hU⟩ := hW h
      have e : ∀ (k : ℕ) (A : Matrix (Fin m) (Fin n) ℝ) (s : ℝ) (x : Fin n → ℝ) (b : Fin m → ℝ),
          catv (A *ᵥ x - b) (scaleEye (liftRows n s) n s *ᵥ x) = aLift A s *ᵥ x - catv b 0 := by
        intro k A s x b
        rw [aLift_mulVec, catv_sub, sub_zero]
      rw [e 0, e 0, hx, ← hU.fwd, show catv (P *ᵥ b) 0 = U *ᵥ catv b 0 by rw [hU.cat, mulVec_zero], ← mulVec_sub, hU.norm]
    unfold spoStart
    simp only [hr, hnb, hdim]
    split
    · rfl
    · simp only [Option.map, ← hg.x, ← hg'.x, hx]
  have hr := pcss2_coords h (.vec b) none tol L hg'.ok hg.ok hM hc' hc _ _ hz
  change pcss2 B (.vec (P *ᵥ b)) none δ' tol L f'.P _ = _ at hr
  have hlog : norm2 (f'.P.matᵀ *ᵥ (Bᵀ *ᵥ (P *ᵥ b))) = norm2 (f.P.matᵀ *ᵥ (Aᵀ *ᵥ b)) := by
    rw [h.BT, ← gram_norm_eq hM, mul_T_mulVec]
  unfold spoPost
  simp only [hf, hf', bind, Except.bind, hr, precAdj_eq hg.ok, precAdj_eq hg'.ok, hlog]
  cases pcss2 A (BArg.vec b) none δ tol L f.P (spoStart A b δ f) with
  | error e => rfl
  | ok res =>
    simp only [Except.map, SaddleOut.coords]
    cases logging with
    | false => rfl
    | true =>
      simp only [if_true]
      cases finishLog true clock res.errs (norm2 (f.P.matᵀ *ᵥ (Aᵀ *ᵥ b))) <;> rfl

/-- **C88** (SPO).  Let `P` be orthogonal, `T` invertible with inverse `Ti`, and `δ' I = δ T' T` (so `T` is arbitrary
for `δ = 0`, and a multiple of an orthogonal matrix for `δ > 0`).  On `P A T`, `P b`, `δ'`, with the sketch drawn in the
new coordinates, SPO returns `T⁻¹ x` and the same log, or raises the same exception.  In mode `'svd'` the sketches must be
above the rank cutoff. -/
theorem C88_spo (la la' : LinAlg) (gen gen' : SkOpGen G) (sf : ℝ) (mode : SPOMode) (A : Matrix (Fin m) (Fin n) ℝ)
    (hn : n ≠ 0) (P : Matrix (Fin m) (Fin m) ℝ) (hP : Pᵀ * P = 1) (hgen : SketchesAlike gen gen' P)
    (T Ti : Matrix (Fin n) (Fin n) ℝ) (hT : T * Ti = 1) (b : Fin m → ℝ) (δ δ' : ℝ) (hδ : 0 ≤ δ) (hδ' : 0 ≤ δ')
    (hreg : δ' • (1 : Matrix (Fin n) (Fin n) ℝ) = δ • (Tᵀ * T)) (tol : ℝ) (L : ℤ) (logging : Bool) (clock : LogTimes)
    (w : World G)
    (hS : mode = .svd → ∀ (d : ℕ) (w₁ w₂ : World G) S, n ≤ d → gen d m w₁ = .ok (S, w₂) → w₁.rng = w.rng →
      WellCond (aLift (S * A) (Real.sqrt δ)) ∧ WellCond (aLift (S * A * T) (Real.sqrt δ'))) :
    spoCall la' gen' sf mode (P * A * T) (P *ᵥ b) δ' tol L logging clock w =
      (spoCall la gen sf mode A b δ tol L logging clock w).map fun r => (⟨r.1.x.map (Ti *ᵥ ·), r.1.log⟩, r.2) := by
  have h := coords_of (A := A) hn hP hT hδ hδ' hreg
  unfold spoCall
  cases h1 : (dimChecks sf m n : Py G ℕ) w with
  | error e => rw [Py.bind_eq_of_error h1, Py.bind_eq_of_error h1]; rfl
  | ok r =>
    obtain ⟨d, w₁⟩ := r
    rw [Py.bind_eq_of_ok h1, Py.bind_eq_of_ok h1]
    obtain ⟨-, -, hd, -, -, hw⟩ := dimChecks_ok h1
    have hgw := hgen d w₁
    cases h2 : gen' d m w₁ with
    | error e =>
      rw [h2] at hgw
      rw [Py.bind_eq_of_error h2, Py.bind_eq_of_error hgw]; rfl
    | ok r =>
      obtain ⟨S', w₂⟩ := r
      rw [h2] at hgw
      rw [Py.bind_eq_of_ok h2, Py.bind_eq_of_ok hgw]
      have key : spoPost la' mode S' (P * A * T) (P *ᵥ b) δ' tol L logging clock =
          (spoPost la mode (S' * P) A b δ tol L logging clock).map (SPOOut.coords Ti) := by
        have hs := h.sketch (S' := S') rfl
        have herr : ∀ e, spoFactor la' mode S' (P * A * T) (P *ᵥ b) δ' = .error e →
            spoFactor la mode (S' * P) A b δ = .error e →
            spoPost la' mode S' (P * A * T) (P *ᵥ b) δ' tol L logging clock =
              (spoPost la mode (S' * P) A b δ tol L logging clock).map (SPOOut.coords Ti) := by
          intro e q1 q2
          unfold spoPost
          rw [q1, q2]; rfl
        have good : ∀ (q : mode = .svd ∧ n ≠ 0 ∧ WellCond (aLift (S' * P * A) (Real.sqrt δ)) ∨
              (mode = .qr ∨ mode = .chol) ∧ FullColRank (aLift (S' * P * A) (Real.sqrt δ)))
            (q' : mode = .svd ∧ n ≠ 0 ∧ WellCond (aLift (S' * (P * A * T)) (Real.sqrt δ')) ∨
              (mode = .qr ∨ mode = .chol) ∧ FullColRank (aLift (S' * (P * A * T)) (Real.sqrt δ'))),
            spoPost la' mode S' (P * A * T) (P *ᵥ b) δ' tol L logging clock =
              (spoPost la mode (S' * P) A b δ tol L logging clock).map (SPOOut.coords Ti) := by
          intro q q'
          obtain ⟨f, e1, e2, e3, -⟩ := C37_spo_preconditioner la mode (S' * P) A b δ hδ hd q
          obtain ⟨f', e1', e2', e3', -⟩ := C37_spo_preconditioner la' mode S' (P * A * T) (P *ᵥ b) δ' hδ' hd q'
          refine spoPost_coords h rfl b tol L logging clock e1 e1' (spoFactor_ok la hδ hd e1).1 (spoFactor_ok la' hδ' hd e1').1
            (e2'.trans e2.symm) ?_
          rw [hs.gram] at e3'
          rw [transpose_mul, Matrix.mul_assoc, ← Matrix.mul_assoc _ _ Tᵀ, ← Matrix.mul_assoc]
          exact coords_inv hT e3' e3
        cases hm : mode with
        | other => subst hm; exact herr _ rfl rfl
        | qr =>
          subst hm
          by_cases hf : FullColRank (aLift (S' * P * A) (Real.sqrt δ))
          · exact good (Or.inr ⟨Or.inl rfl, hf⟩) (Or.inr ⟨Or.inl rfl, hs.full.2 hf⟩)
          · exact herr _ ((spoQR_spec la' S' _ _ hδ' hd).2 fun e => hf (hs.full.1 e)) ((spoQR_spec la _ A b hδ hd).2 hf)
        | chol =>
          subst hm
          by_cases hf : FullColRank (aLift (S' * P * A) (Real.sqrt δ))
          · exact good (Or.inr ⟨Or.inr rfl, hf⟩) (Or.inr ⟨Or.inr rfl, hs.full.2 hf⟩)
          · exact herr _ ((spoChol_spec la' S' _ _ hδ').2 fun e => hf (hs.full.1 e)) ((spoChol_spec la _ A b hδ).2 hf)
        | svd =>
          subst hm
          obtain ⟨c1, c2⟩ := hS rfl d w₁ w₂ (S' * P) hd hgw (by rw [hw])
          refine good (Or.inl ⟨rfl, hn, c1⟩) (Or.inl ⟨rfl, hn, ?_⟩)
          rw [hs.eq, Matrix.one_mul]; exact c2
      change (Py.lift _) w₂ = _
      rw [key]
      change _ = Except.map _ ((Py.lift _) w₂)
      cases spoPost la mode (S' * P) A b δ tol L logging clock <;> rfl

/-! ## SSO1 -/

/-- the state after the two warnings -/
def ssoWarned (tol : Tol) (L : ℤ) (w : World G) : World G := { w with warns := w.warns + sso1Warns tol L }

theorem sso1_cases (la : LinAlg) (gen : SkOpGen G) (sf : ℝ) (A : Matrix (Fin m) (Fin n) ℝ) (b : Fin m → ℝ) (δ : ℝ)
    (tol : Tol) (L : ℤ) (w : World G) :
    sso1Call la gen sf A b δ tol L w =
      match (dimChecks sf m n : Py G ℕ) (ssoWarned tol L w) with
      | .error e => .error e
      | .ok (d, w₁) => match gen d m w₁ with
        | .error e => .error e
        | .ok (S, w₂) => .ok (la.lstsqv (aLift (S * A) (Real.sqrt δ)) (catv (S *ᵥ b) 0), w₂) := by
  rw [sso1_eq]
  change (dimChecks sf m n >>= _ : Py G _) (ssoWarned tol L w) = _
  cases h1 : (dimChecks sf m n : Py G ℕ) (ssoWarned tol L w) with
  | error e => rw [Py.bind_eq_of_error h1]
  | ok r =>
    obtain ⟨d, w₁⟩ := r
    rw [Py.bind_eq_of_ok h1]
    simp only
    cases h2 : gen d m w₁ with
    | error e => rw [Py.bind_eq_of_error h2]
    | ok r => rw [Py.bind_eq_of_ok h2]; rfl

theorem lstsqv_linear (la la₁ la₂ : LinAlg) (A : Matrix (Fin m) (Fin n) ℝ) (b b' : Fin m → ℝ) (α β : ℝ) :
    la.lstsqv A (α • b + β • b') = α • la₁.lstsqv A b + β • la₂.lstsqv A b' := by
  have h := ls_unique (A := A) (X := la.lstsq A (Matrix.of fun i (_ : Fin 1) => (α • b + β • b') i))
    (Y := α • la₁.lstsq A (Matrix.of fun i (_ : Fin 1) => b i) + β • la₂.lstsq A (Matrix.of fun i (_ : Fin 1) => b' i)) ?_
    (la.lstsq_row A _) ?_
  · funext i
    exact congrFun (congrFun h i) 0
  · rw [la.lstsq_normal, Matrix.mul_add, Matrix.mul_add, Matrix.mul_smul, Matrix.mul_smul, Matrix.mul_smul, Matrix.mul_smul,
      la₁.lstsq_normal, la₂.lstsq_normal, ← Matrix.mul_smul, ← Matrix.mul_smul, ← Matrix.mul_add]
    rfl
  · obtain ⟨W₁, h₁⟩ := la₁.lstsq_row A (Matrix.of fun i (_ : Fin 1) => b i)
    obtain ⟨W₂, h₂⟩ := la₂.lstsq_row A (Matrix.of fun i (_ : Fin 1) => b' i)
    exact ⟨α • W₁ + β • W₂, by rw [h₁, h₂, Matrix.mul_add, Matrix.mul_smul, Matrix.mul_smul]⟩

/-- **C88** (SSO1, right-hand sides).  From the same random state SSO1 is linear in `b`, whatever the rank. -/
theorem C88_sso1_linear (la : LinAlg) (gen : SkOpGen G) (sf : ℝ) (A : Matrix (Fin m) (Fin n) ℝ) (b b' : Fin m → ℝ)
    (α β δ : ℝ) (tol : Tol) (L : ℤ) (w w' : World G) (x : Fin n → ℝ)
    (h : sso1Call la gen sf A b δ tol L w = .ok (x, w')) :
    ∃ x', sso1Call la gen sf A b' δ tol L w = .ok (x', w') ∧
      sso1Call la gen sf A (α • b + β • b') δ tol L w = .ok (α • x + β • x', w') := by
  rw [sso1_cases] at h ⊢
  rw [sso1_cases]
  cases h1 : (dimChecks sf m n : Py G ℕ) (ssoWarned tol L w) with
  | error e => rw [h1] at h; cases h
  | ok r =>
    obtain ⟨d, w₁⟩ := r
    rw [h1] at h
    simp only at h ⊢
    cases h2 : gen d m w₁ with
    | error e => rw [h2] at h; cases h
    | ok r =>
      obtain ⟨S, w₂⟩ := r
      rw [h2] at h
      cases h
      refine ⟨_, rfl, ?_⟩
      simp only
      rw [← lstsqv_linear la la la]
      congr 4
      rw [mulVec_add, mulVec_smul, mulVec_smul]
      funext i
      refine Fin.addCases (fun i => ?_) (fun i => ?_) i <;> simp

/-- **C88** (SSO1, variables).  As for SPO; the lifted sketch must be of full column rank (which it always is
for `δ > 0`). -/
theorem C88_sso1 (la la' : LinAlg) (gen gen' : SkOpGen G) (sf : ℝ) (A : Matrix (Fin m) (Fin n) ℝ)
    (hn : n ≠ 0) (P : Matrix (Fin m) (Fin m) ℝ) (hP : Pᵀ * P = 1) (hgen : SketchesAlike gen gen' P)
    (T Ti : Matrix (Fin n) (Fin n) ℝ) (hT : T * Ti = 1) (b : Fin m → ℝ) (δ δ' : ℝ) (hδ : 0 ≤ δ) (hδ' : 0 ≤ δ')
    (hreg : δ' • (1 : Matrix (Fin n) (Fin n) ℝ) = δ • (Tᵀ * T)) (tol : Tol) (L : ℤ) (w : World G)
    (hS : δ = 0 → ∀ (d : ℕ) (w₁ w₂ : World G) S, n ≤ d → gen d m w₁ = .ok (S, w₂) → w₁.rng = w.rng → FullColRank (S * A)) :
    sso1Call la' gen' sf (P * A * T) (P *ᵥ b) δ' tol L w =
      (sso1Call la gen sf A b δ tol L w).map fun r => (Ti *ᵥ r.1, r.2) := by
  have h := coords_of (A := A) hn hP hT hδ hδ' hreg
  rw [sso1_cases, sso1_cases]
  cases h1 : (dimChecks sf m n : Py G ℕ) (ssoWarned tol L w) with
  | error e => rfl
  | ok r =>
    obtain ⟨d, w₁⟩ := r
    obtain ⟨-, -, hd, -, -, hw⟩ := dimChecks_ok h1
    have hgw := hgen d w₁
    simp only
    cases h2 : gen' d m w₁ with
    | error e => rw [h2] at hgw; rw [hgw]; rfl
    | ok r =>
      obtain ⟨S', w₂⟩ := r
      rw [h2] at hgw
      rw [hgw]
      simp only [Except.map]
      have hs := h.sketch (S' := S') rfl
      have hfull : FullColRank (aLift (S' * P * A) (Real.sqrt δ)) := by
        rcases hδ.lt_or_eq with hp | h0
        · exact aLift_full_of_pos _ hp
        · exact aLift_full_of_full _ _ (hS h0.symm d w₁ w₂ _ hd hgw (by rw [hw]; rfl))
      congr 2
      obtain ⟨W, hW⟩ := hs.exists_iso
      obtain ⟨U, hU⟩ := hW hs
      have hf' := hs.full.2 hfull
      obtain ⟨x, hx⟩ : ∃ x, x = la.lstsqv (aLift (S' * P * A) (Real.sqrt δ)) (catv ((S' * P) *ᵥ b) 0) := ⟨_, rfl⟩
      have n1 := lstsqv_normal la (aLift (S' * P * A) (Real.sqrt δ)) (catv ((S' * P) *ᵥ b) 0)
      have n2 := lstsqv_normal la' (aLift (S' * (P * A * T)) (Real.sqrt δ')) (catv (S' *ᵥ (P *ᵥ b)) 0)
      rw [← hx] at n1 ⊢
      have e : catv (S' *ᵥ (P *ᵥ b)) 0 = U *ᵥ catv ((S' * P) *ᵥ b) 0 := by
        rw [hU.cat, mulVec_zero, one_mulVec, mulVec_mulVec]
      have n3 : (aLift (S' * (P * A * T)) (Real.sqrt δ'))ᵀ *ᵥ (aLift (S' * (P * A * T)) (Real.sqrt δ') *ᵥ (Ti *ᵥ x)) =
          (aLift (S' * (P * A * T)) (Real.sqrt δ'))ᵀ *ᵥ catv (S' *ᵥ (P *ᵥ b)) 0 := by
        rw [← hU.fwd, hU.adj, n1, e, hU.adj]
      have := congrArg (((aLift (S' * (P * A * T)) (Real.sqrt δ'))ᵀ * aLift (S' * (P * A * T)) (Real.sqrt δ'))⁻¹ *ᵥ ·)
        (n2.trans n3.symm)
      rwa [mulVec_mulVec _ (aLift _ _)ᵀ, mulVec_mulVec _ (aLift _ _)ᵀ, mulVec_mulVec _ _⁻¹, mulVec_mulVec _ _⁻¹,
        nonsing_inv_mul _ hf'.gram_unit, one_mulVec, one_mulVec] at this

/-! ## SPU1 -/

/-- the SVD preconditioners of the two sketches -/
theorem svd_coords {A : Matrix (Fin d) (Fin n) ℝ} {B : Matrix (Fin m) (Fin n) ℝ} {T Ti : Matrix (Fin n) (Fin n) ℝ}
    (hT : T * Ti = 1) (hAB : Bᵀ * B = Tᵀ * (Aᵀ * A) * T) (la la' : LinAlg) (hA : WellCond A) (hB : WellCond B)
    {o : PrecOut d n} {o' : PrecOut m n} (ho : svdRightPrecond la A = .ok o) (ho' : svdRightPrecond la' B = .ok o') :
    o.r = n ∧ o'.r = n ∧ T * o'.M * (T * o'.M)ᵀ = o.M * o.Mᵀ ∧ FullColRank o.M ∧ FullColRank o'.M := by
  have r1 := WellCond.no_truncation la hA ho
  have r2 := WellCond.no_truncation la' hB ho'
  have e1 := ((C26_svd_right_precond la _ o ho).2.2.2.2.2.2 r1).1
  have e2 := ((C26_svd_right_precond la' _ o' ho').2.2.2.2.2.2 r2).1
  refine ⟨r1, r2, ?_, (svdRightPrecond_prec la ho).full, (svdRightPrecond_prec la' ho').full⟩
  rw [hAB] at e2
  rw [transpose_mul, Matrix.mul_assoc, ← Matrix.mul_assoc _ _ Tᵀ, ← Matrix.mul_assoc]
  exact coords_inv hT e2 e1

/-- **C88** (SPU1).  On `P A T` and `T' c`, with the sketch drawn in the new coordinates, SPU1 returns `P y` and the same
log; the two sketches must be above the rank cutoff. -/
theorem C88_spu1 (la la' : LinAlg) (gen gen' : SkOpGen G) (sf : ℝ) (A : Matrix (Fin m) (Fin n) ℝ)
    (hn : n ≠ 0) (P : Matrix (Fin m) (Fin m) ℝ) (hP : Pᵀ * P = 1) (hgen : SketchesAlike gen gen' P)
    (T Ti : Matrix (Fin n) (Fin n) ℝ) (hT : T * Ti = 1) (c : Fin n → ℝ) (tol : ℝ) (L : ℤ) (logging : Bool) (clock : LogTimes)
    (w : World G)
    (hS : ∀ (d : ℕ) (w₁ w₂ : World G) S, n ≤ d → gen d m w₁ = .ok (S, w₂) → w₁.rng = w.rng →
      WellCond (S * A) ∧ WellCond (S * A * T)) :
    spu1Call la' gen' sf (P * A * T) (Tᵀ *ᵥ c) tol L logging clock w =
      (spu1Call la gen sf A c tol L logging clock w).map fun r => (⟨P *ᵥ r.1.y, r.1.log⟩, r.2) := by
  have h := coords_of (A := A) hn hP hT le_rfl le_rfl (by rw [zero_smul, zero_smul])
  unfold spu1Call
  cases h1 : (dimChecks sf m n : Py G ℕ) w with
  | error e => rw [Py.bind_eq_of_error h1, Py.bind_eq_of_error h1]; rfl
  | ok r =>
    obtain ⟨d, w₁⟩ := r
    rw [Py.bind_eq_of_ok h1, Py.bind_eq_of_ok h1]
    obtain ⟨-, -, hd, -, -, hw⟩ := dimChecks_ok h1
    have hgw := hgen d w₁
    cases h2 : gen' d m w₁ with
    | error e =>
      rw [h2] at hgw
      rw [Py.bind_eq_of_error h2, Py.bind_eq_of_error hgw]; rfl
    | ok r =>
      obtain ⟨S', w₂⟩ := r
      rw [h2] at hgw
      rw [Py.bind_eq_of_ok h2, Py.bind_eq_of_ok hgw]
      obtain ⟨c1, c2⟩ := hS d w₁ w₂ (S' * P) hd hgw (by rw [hw])
      have hs := h.sketch (S' := S') rfl
      have c2' : WellCond (S' * (P * A * T)) := by rw [hs.eq, Matrix.one_mul]; exact c2
      obtain ⟨o, ho⟩ := (C26_empty la (S' * P * A)).2 (by omega) hn
      obtain ⟨o', ho'⟩ := (C26_empty la' (S' * (P * A * T))).2 (by omega) hn
      have hg := hs.gram
      rw [zero_smul, add_zero, add_zero] at hg
      obtain ⟨-, -, hM, f1, f2⟩ := svd_coords hT hg la la' c1 c2' ho ho'
      have hr := pcss2_coords h .none (some c) tol L (P₁ := .gen o'.r o'.M) (P₂ := .gen o.r o.M) trivial trivial hM f2 f1
        none none rfl
      change pcss2 (P * A * T) .none (some (Tᵀ *ᵥ c)) 0 tol L (.gen o'.r o'.M) none = _ at hr
      have hlog : norm2 ((P * A * T) *ᵥ (o'.M *ᵥ (o'.Mᵀ *ᵥ (Tᵀ *ᵥ c)))) = norm2 (A *ᵥ (o.M *ᵥ (o.Mᵀ *ᵥ c))) := by
        have : (P * A * T) *ᵥ (o'.M *ᵥ (o'.Mᵀ *ᵥ (Tᵀ *ᵥ c))) = P *ᵥ (A *ᵥ ((T * o'.M * (T * o'.M)ᵀ) *ᵥ c)) := by
          simp only [mulVec_mulVec, transpose_mul, Matrix.mul_assoc]
        rw [this, norm2_orth_mulVec hP, hM, ← mulVec_mulVec]
      have key : spuPost la' S' (P * A * T) (Tᵀ *ᵥ c) tol L logging clock =
          (spuPost la (S' * P) A c tol L logging clock).map fun r => ⟨P *ᵥ r.y, r.log⟩ := by
        unfold spuPost
        simp only [ho, ho', bind, Except.bind, hr, hlog]
        cases pcss2 A BArg.none (some c) 0 tol L (.gen o.r o.M) none with
        | error e => rfl
        | ok res =>
          simp only [Except.map, SaddleOut.coords]
          cases finishLog logging clock res.errs (norm2 (A *ᵥ (o.M *ᵥ (o.Mᵀ *ᵥ c)))) <;> rfl
      change (Py.lift _) w₂ = _
      rw [key]
      change _ = Except.map _ ((Py.lift _) w₂)
      cases spuPost la (S' * P) A c tol L logging clock <;> rfl

/-! ## SPS2 -/

theorem orth_of_iso {p q : ℕ} {U : Matrix (Fin p) (Fin q) ℝ} (h : ∀ u, sqNorm (U *ᵥ u) = sqNorm u) : Uᵀ * U = 1 := by
  have pol : ∀ {k : ℕ} (x y : Fin k → ℝ), x ⬝ᵥ y = (sqNorm (x + y) - sqNorm x - sqNorm y) / 2 := by
    intro k x y
    rw [sqNorm_eq_dot, sqNorm_eq_dot, sqNorm_eq_dot, dotProduct_add, add_dotProduct, add_dotProduct, dotProduct_comm y x]
    ring
  ext i j
  have e : (Uᵀ * U) i j = (U *ᵥ Pi.single i 1) ⬝ᵥ (U *ᵥ Pi.single j 1) := by
    rw [mulVec_single_one, mulVec_single_one]; rfl
  rw [e, pol, ← mulVec_add, h, h, h, ← pol, single_one_dotProduct, Matrix.one_apply]
  by_cases hij : i = j
  · subst hij; simp
  · rw [Pi.single_eq_of_ne hij, if_neg hij]

/-- the augmented matrices are related by the isometry of the lifted spaces -/
theorem LiftIso.coords {m₁ m₂ : ℕ} {A : Matrix (Fin m₂) (Fin n) ℝ} {B : Matrix (Fin m₁) (Fin n) ℝ}
    {P : Matrix (Fin m₁) (Fin m₂) ℝ} {T Ti : Matrix (Fin n) (Fin n) ℝ} {δ δ' : ℝ} (h : Coords A B P T Ti δ δ')
    {W : Matrix (Fin (liftRows n (Real.sqrt δ'))) (Fin (liftRows n (Real.sqrt δ))) ℝ}
    {U : Matrix (Fin (m₁ + liftRows n (Real.sqrt δ'))) (Fin (m₂ + liftRows n (Real.sqrt δ))) ℝ}
    (hU : LiftIso A B P T Ti δ δ' W U) :
    Coords (aLift A (Real.sqrt δ)) (aLift B (Real.sqrt δ')) U T Ti 0 0 := by
  refine ⟨?_, ?_, h.inv, le_rfl, le_rfl, Iff.rfl, by rw [zero_smul, zero_smul]⟩
  · refine Matrix.ext_of_mulVec_single fun i => ?_
    have := hU.fwd (T *ᵥ Pi.single i 1)
    rw [mulVec_mulVec _ Ti T, h.inv', one_mulVec] at this
    rw [← this, mulVec_mulVec, mulVec_mulVec, Matrix.mul_assoc]
  · have hsq : ∀ u, sqNorm (U *ᵥ u) = sqNorm u := by
      intro u
      rw [← norm2_sq, ← norm2_sq, hU.norm]
    exact orth_of_iso hsq

theorem sps2_v {d : ℕ} {δ : ℝ} {o : PrecOut (d + liftRows n (Real.sqrt δ)) n}
    {SA : Matrix (Fin d) (Fin n) ℝ} (la : LinAlg) (ho : svdRightPrecond la (aLift SA (Real.sqrt δ)) = .ok o) (c : Fin n → ℝ) :
    (o.U *ᵥ fun j => 1 / o.sigma j * (o.Vh *ᵥ c) j) = aLift SA (Real.sqrt δ) *ᵥ ((o.M * o.Mᵀ) *ᵥ c) := by
  have k1 : (fun j => 1 / o.sigma j * (o.Vh *ᵥ c) j) = o.Mᵀ *ᵥ c := by
    funext j; exact sv_coords (svdRightPrecond_prec la ho) c j
  rw [k1, ← (C26_svd_right_precond la _ o ho).1]
  simp only [mulVec_mulVec, Matrix.mul_assoc]

/-- the starting point, without reference to the factorisation -/
theorem sps2Start_map {d : ℕ} {A : Matrix (Fin m) (Fin n) ℝ} {S : Matrix (Fin d) (Fin m) ℝ} {δ : ℝ} (hδ : 0 ≤ δ)
    {o : PrecOut (d + liftRows n (Real.sqrt δ)) n} (la : LinAlg)
    (ho : svdRightPrecond la (aLift (S * A) (Real.sqrt δ)) = .ok o) (q : Fin (m + liftRows n (Real.sqrt δ)) → ℝ) :
    (sps2Start S o (aLift A (Real.sqrt δ)) q).map (o.M *ᵥ ·) =
      (let x := (o.M * o.Mᵀ) *ᵥ ((aLift (S * A) (Real.sqrt δ))ᵀ *ᵥ catv (S *ᵥ topv q) (botv q))
       if norm2 (q - aLift A (Real.sqrt δ) *ᵥ x) ≥ norm2 q then none else some x) := by
  have hU := (C26_svd_right_precond la _ o ho).1
  have ht : ∀ (v : Fin d → ℝ) (u : Fin (liftRows n (Real.sqrt δ)) → ℝ),
      (topRows (aLift (S * A) (Real.sqrt δ) * o.M))ᵀ *ᵥ v + (botRows (aLift (S * A) (Real.sqrt δ) * o.M))ᵀ *ᵥ u =
        o.Mᵀ *ᵥ ((aLift (S * A) (Real.sqrt δ))ᵀ *ᵥ catv v u) := by
    intro v u
    rw [← mul_T_mulVec]
    funext j
    simp only [mulVec, dotProduct, Pi.add_apply, transpose_apply, Fin.sum_univ_add, catv_castAdd, catv_natAdd]
    rfl
  have hb : ¬ 0 < δ → (botRows (aLift (S * A) (Real.sqrt δ) * o.M))ᵀ *ᵥ botv q = 0 := by
    intro h
    have h0 : δ = 0 := le_antisymm (not_lt.1 h) hδ
    have : ∀ {k : ℕ} (hk : k = 0) (M : Matrix (Fin k) (Fin o.r) ℝ) (u : Fin k → ℝ), Mᵀ *ᵥ u = 0 := by
      rintro k rfl M u
      funext j
      simp [mulVec, dotProduct]
    exact this (by rw [h0, Real.sqrt_zero]; exact liftRows_zero) _ _
  obtain ⟨z, hz⟩ : ∃ z, z = o.Mᵀ *ᵥ ((aLift (S * A) (Real.sqrt δ))ᵀ *ᵥ catv (S *ᵥ topv q) (botv q)) := ⟨_, rfl⟩
  have e : (if 0 < δ then (topRows o.U)ᵀ *ᵥ (S *ᵥ topv q) + (botRows o.U)ᵀ *ᵥ botv q else (topRows o.U)ᵀ *ᵥ (S *ᵥ topv q)) =
      z := by
    rw [← hU, hz, ← ht]
    split
    · rfl
    · rename_i h; rw [hb h, add_zero]
  have ex : (o.M * o.Mᵀ) *ᵥ ((aLift (S * A) (Real.sqrt δ))ᵀ *ᵥ catv (S *ᵥ topv q) (botv q)) = o.M *ᵥ z := by
    rw [hz, mulVec_mulVec _ o.M]
  unfold sps2Start
  simp only [gt_iff_lt]
  rw [ex]
  simp only [e]
  split <;> rfl

/-- **C88** (SPS2 with PcSS2).  On `P A T`, `P b`, `T' c` and `δ'`, with the sketch drawn in the new coordinates, SPS2 returns
`T⁻¹ x`, `P y` and the same log. -/
theorem C88_sps2 (la la' : LinAlg) (gen gen' : SkOpGen G) (sf : ℝ) (A : Matrix (Fin m) (Fin n) ℝ)
    (hn : n ≠ 0) (P : Matrix (Fin m) (Fin m) ℝ) (hP : Pᵀ * P = 1) (hgen : SketchesAlike gen gen' P)
    (T Ti : Matrix (Fin n) (Fin n) ℝ) (hT : T * Ti = 1) (b : Option (Fin m → ℝ)) (c : Option (Fin n → ℝ)) (δ δ' : ℝ)
    (hδ : 0 ≤ δ) (hδ' : 0 ≤ δ') (hreg : δ' • (1 : Matrix (Fin n) (Fin n) ℝ) = δ • (Tᵀ * T)) (tol : ℝ) (L : ℤ) (logging : Bool)
    (clock : LogTimes) (w : World G)
    (hS : ∀ (d : ℕ) (w₁ w₂ : World G) S, n ≤ d → gen d m w₁ = .ok (S, w₂) → w₁.rng = w.rng →
      WellCond (aLift (S * A) (Real.sqrt δ)) ∧ WellCond (aLift (S * A * T) (Real.sqrt δ'))) :
    sps2Call la' gen' sf PcSS2 (P * A * T) (b.map (P *ᵥ ·)) (c.map (Tᵀ *ᵥ ·)) δ' tol L logging clock w =
      (sps2Call la gen sf PcSS2 A b c δ tol L logging clock w).map fun r =>
        (⟨r.1.x.map (Ti *ᵥ ·), r.1.y.map (P *ᵥ ·), r.1.log⟩, r.2) := by
  have h := coords_of (A := A) hn hP hT hδ hδ' hreg
  have hb0 : (b.map (P *ᵥ ·)).getD 0 = P *ᵥ b.getD 0 := by
    cases b with
    | none => exact (mulVec_zero _).symm
    | some b => rfl
  unfold sps2Call
  rw [hb0]
  cases h1 : (dimChecks sf m n : Py G ℕ) w with
  | error e => rw [Py.bind_eq_of_error h1, Py.bind_eq_of_error h1]; rfl
  | ok r =>
    obtain ⟨d, w₁⟩ := r
    rw [Py.bind_eq_of_ok h1, Py.bind_eq_of_ok h1]
    obtain ⟨-, -, hd, -, -, hw⟩ := dimChecks_ok h1
    have hgw := hgen d w₁
    cases h2 : gen' d m w₁ with
    | error e =>
      rw [h2] at hgw
      rw [Py.bind_eq_of_error h2, Py.bind_eq_of_error hgw]; rfl
    | ok r =>
      obtain ⟨S', w₂⟩ := r
      rw [h2] at hgw
      rw [Py.bind_eq_of_ok h2, Py.bind_eq_of_ok hgw]
      obtain ⟨c1, c2⟩ := hS d w₁ w₂ (S' * P) hd hgw (by rw [hw])
      have hs := h.sketch (S' := S') rfl
      have c2' : WellCond (aLift (S' * (P * A * T)) (Real.sqrt δ')) := by rw [hs.eq, Matrix.one_mul]; exact c2
      obtain ⟨o, ho⟩ := (C26_empty la (aLift (S' * P * A) (Real.sqrt δ))).2 (by omega) hn
      obtain ⟨o', ho'⟩ := (C26_empty la' (aLift (S' * (P * A * T)) (Real.sqrt δ'))).2 (by omega) hn
      obtain ⟨W, hW⟩ := h.exists_iso
      obtain ⟨U, hU⟩ := hW h
      obtain ⟨V, hV⟩ := hW hs
      have hCV := LiftIso.coords hs hV
      have hCU := LiftIso.coords h hU
      have hg := hCV.gram
      rw [zero_smul, add_zero, add_zero] at hg
      obtain ⟨-, -, hM, f1, f2⟩ := svd_coords hT hg la la' c1 c2' ho ho'
      have hM' : ∀ v, (o'.M * o'.Mᵀ) *ᵥ (Tᵀ *ᵥ v) = Ti *ᵥ ((o.M * o.Mᵀ) *ᵥ v) := by
        intro v
        rw [← hM, transpose_mul]
        simp only [mulVec_mulVec, Matrix.mul_assoc]
        rw [← Matrix.mul_assoc Ti T, h.inv', Matrix.one_mul]
      have hPP : P * Pᵀ = 1 := mul_eq_one_comm.1 hP
      have hrhs : sps2Rhs S' o' (P *ᵥ b.getD 0) (c.map (Tᵀ *ᵥ ·)) = U *ᵥ sps2Rhs (S' * P) o (b.getD 0) c := by
        unfold sps2Rhs
        cases c with
        | none => rw [Option.map_none, hU.cat, mulVec_zero]
        | some c =>
          simp only [Option.map_some]
          by_cases hc : c = 0
          · subst hc
            rw [mulVec_zero, if_neg, if_neg, hU.cat, mulVec_zero] <;>
              rw [norm2_eq_zero.2 rfl] <;> exact lt_irrefl _
          · have p1 : norm2 c > 0 := lt_of_le_of_ne (norm2_nonneg _) fun e => hc (norm2_eq_zero.1 e.symm)
            have p2 : norm2 (Tᵀ *ᵥ c) > 0 := lt_of_le_of_ne (norm2_nonneg _) fun e => hc (by
              have := congrArg (Tiᵀ *ᵥ ·) (norm2_eq_zero.1 e.symm)
              simpa only [mulVec_mulVec, ← transpose_mul, hT, transpose_one, one_mulVec, mulVec_zero] using this)
            rw [if_pos p1, if_pos p2, sps2_v la ho, sps2_v la' ho', hM', ← hV.fwd, hU.cat, hV.top, hV.bot, mulVec_sub, mulVec_sub,
              mulVec_zero, one_mulVec, mulVec_mulVec _ P, transpose_mul, ← Matrix.mul_assoc, hPP, Matrix.one_mul]
      have hz : (sps2Start S' o' (aLift (P * A * T) (Real.sqrt δ')) (U *ᵥ sps2Rhs (S' * P) o (b.getD 0) c)).map (o'.M *ᵥ ·) =
          (sps2Start (S' * P) o (aLift A (Real.sqrt δ)) (sps2Rhs (S' * P) o (b.getD 0) c)).map
            fun z => Ti *ᵥ (o.M *ᵥ z) := by
        have e := sps2Start_map hδ (S := S' * P) (A := A) la ho (sps2Rhs (S' * P) o (b.getD 0) c)
        have e' := sps2Start_map hδ' (S := S') (A := P * A * T) la' ho' (U *ᵥ sps2Rhs (S' * P) o (b.getD 0) c)
        rw [e', ← Function.comp_def (Ti *ᵥ ·) (o.M *ᵥ ·), ← Option.map_map, e]
        simp only
        obtain ⟨q, hq⟩ : ∃ q, q = sps2Rhs (S' * P) o (b.getD 0) c := ⟨_, rfl⟩
        rw [← hq]
        have ec : catv (S' *ᵥ topv (U *ᵥ q)) (botv (U *ᵥ q)) = V *ᵥ catv ((S' * P) *ᵥ topv q) (botv q) := by
          rw [hV.cat, hU.top, hU.bot, mulVec_mulVec, one_mulVec]
        rw [ec, hV.adj, hM', ← hU.fwd, ← mulVec_sub, hU.norm, hU.norm]
        split <;> rfl
      have hr := pcss2_coords hCU (.vec (sps2Rhs (S' * P) o (b.getD 0) c)) none tol L (P₁ := .gen o'.r o'.M)
        (P₂ := .gen o.r o.M) trivial trivial hM f2 f1 _ _ hz
      change pcss2 (aLift (P * A * T) (Real.sqrt δ')) (.vec (U *ᵥ sps2Rhs (S' * P) o (b.getD 0) c)) none 0 tol L
        (.gen o'.r o'.M) _ = _ at hr
      have hlog : norm2 (o'.Mᵀ *ᵥ ((aLift (P * A * T) (Real.sqrt δ'))ᵀ *ᵥ (U *ᵥ sps2Rhs (S' * P) o (b.getD 0) c))) =
          norm2 (o.Mᵀ *ᵥ ((aLift A (Real.sqrt δ))ᵀ *ᵥ sps2Rhs (S' * P) o (b.getD 0) c)) := by
        rw [hU.adj, ← gram_norm_eq hM, mul_T_mulVec]
      have key : sps2Post la' PcSS2 S' (P * A * T) (P *ᵥ b.getD 0) (c.map (Tᵀ *ᵥ ·)) δ' tol L logging clock =
          (sps2Post la PcSS2 (S' * P) A (b.getD 0) c δ tol L logging clock).map fun r =>
            ⟨r.x.map (Ti *ᵥ ·), r.y.map (P *ᵥ ·), r.log⟩ := by
        have eAT : ∀ x, (P * A * T) *ᵥ (Ti *ᵥ x) = P *ᵥ (A *ᵥ x) := by
          intro x
          rw [mulVec_mulVec, Matrix.mul_assoc, hT, Matrix.mul_one, mulVec_mulVec]
        unfold sps2Post
        simp only [ho, ho', bind, Except.bind, hrhs, hlog, PcSS2, hr]
        cases pcss2 (aLift A (Real.sqrt δ)) (.vec (sps2Rhs (S' * P) o (b.getD 0) c)) none 0 tol L (.gen o.r o.M)
          (sps2Start (S' * P) o (aLift A (Real.sqrt δ)) (sps2Rhs (S' * P) o (b.getD 0) c)) with
        | error e => rfl
        | ok res =>
          simp only [Except.map, SaddleOut.coords]
          cases finishLog logging clock res.errs
            (norm2 (o.Mᵀ *ᵥ ((aLift A (Real.sqrt δ))ᵀ *ᵥ sps2Rhs (S' * P) o (b.getD 0) c))) with
          | error e => rfl
          | ok l =>
            simp only [pure, Except.pure]
            congr 2
            cases res.x with
            | none => rfl
            | some x => simp only [Option.map_some, eAT, mulVec_sub]
      change (Py.lift _) w₂ = _
      rw [key]
      change _ = Except.map _ ((Py.lift _) w₂)
      cases sps2Post la PcSS2 (S' * P) A (b.getD 0) c δ tol L logging clock <;> rfl

end Parla.Props
