import Verif.Proof.LSQR

/-! `lsqr` under orthogonal changes of coordinates (helper lemmas): if `F₁ V = U F₂` and
`F₁ᵀ U = V F₂ᵀ` for isometries `U`, `V`, the run on `(F₁, U b, V x0)` is the run on `(F₂, b, x0)`
in other coordinates. -/

namespace Parla

open Matrix

variable {p₁ q₁ p₂ q₂ : ℕ}

/-- Two operators that are the same up to orthogonal coordinates. -/
structure Rotated (F₁ : Matrix (Fin p₁) (Fin q₁) ℝ) (F₂ : Matrix (Fin p₂) (Fin q₂) ℝ)
    (U : Matrix (Fin p₁) (Fin p₂) ℝ) (V : Matrix (Fin q₁) (Fin q₂) ℝ) : Prop where
  isoU : ∀ u, norm2 (U *ᵥ u) = norm2 u
  isoV : ∀ v, norm2 (V *ᵥ v) = norm2 v
  fwd : ∀ v, F₁ *ᵥ (V *ᵥ v) = U *ᵥ (F₂ *ᵥ v)
  adj : ∀ u, F₁ᵀ *ᵥ (U *ᵥ u) = V *ᵥ (F₂ᵀ *ᵥ u)

/-- the state in the other coordinates -/
def LsqrState.rot (U : Matrix (Fin p₁) (Fin p₂) ℝ) (V : Matrix (Fin q₁) (Fin q₂) ℝ)
    (s : LsqrState p₂ q₂) : LsqrState p₁ q₁ :=
  { x := V *ᵥ s.x, u := U *ᵥ s.u, v := V *ᵥ s.v, w := V *ᵥ s.w, alfa := s.alfa, rhobar := s.rhobar,
    phibar := s.phibar, anorm := s.anorm, acond := s.acond, ddnorm := s.ddnorm, res2 := s.res2,
    xnorm := s.xnorm, xxnorm := s.xxnorm, z := s.z, cs2 := s.cs2, sn2 := s.sn2, r1norm := s.r1norm,
    r2norm := s.r2norm, arnorm := s.arnorm, itn := s.itn, var := 0 }

/-- the returned tuple in the other coordinates -/
def LsqrOut.rot (V : Matrix (Fin q₁) (Fin q₂) ℝ) (o : LsqrOut q₂) : LsqrOut q₁ :=
  { x := V *ᵥ o.x, istop := o.istop, itn := o.itn, r1norm := o.r1norm, r2norm := o.r2norm,
    anorm := o.anorm, acond := o.acond, arnorms := o.arnorms, xnorm := o.xnorm, var := 0 }

variable {F₁ : Matrix (Fin p₁) (Fin q₁) ℝ} {F₂ : Matrix (Fin p₂) (Fin q₂) ℝ}
  {U : Matrix (Fin p₁) (Fin p₂) ℝ} {V : Matrix (Fin q₁) (Fin q₂) ℝ}

theorem mulVec_ite {a b : ℕ} (M : Matrix (Fin a) (Fin b) ℝ) (c : Prop) [Decidable c] (x y : Fin b → ℝ) :
    M *ᵥ (if c then x else y) = if c then M *ᵥ x else M *ᵥ y := by
  split <;> rfl

theorem lsqrInit_rot (h : Rotated F₁ F₂ U V) (b : Fin p₂ → ℝ) (x0 : Option (Fin q₂ → ℝ)) :
    lsqrInit (LinOp.ofMat F₁) (U *ᵥ b) (x0.map (V *ᵥ ·)) =
      (lsqrInit (LinOp.ofMat F₂) b x0).map (LsqrState.rot U V) := by
  cases x0 with
  | none =>
    unfold lsqrInit
    simp only [Option.map, LinOp.ofMat, pure, Except.pure, bind, Except.bind, h.isoU]
    by_cases hb : 0 < norm2 b
    · simp only [if_pos hb, Except.map, LsqrState.rot, mulVec_ite, mulVec_smul, mulVec_zero, ← mulVec_smul, h.adj, h.isoV]
    · simp only [if_neg hb, Except.map, LsqrState.rot, mulVec_ite, mulVec_smul, mulVec_zero, lt_irrefl, if_false]
  | some x =>
    unfold lsqrInit
    have e : U *ᵥ b - F₁ *ᵥ (V *ᵥ x) = U *ᵥ (b - F₂ *ᵥ x) := by rw [h.fwd, mulVec_sub]
    simp only [Option.map, LinOp.ofMat, pure, Except.pure, bind, Except.bind, e, h.isoU]
    by_cases hb : 0 < norm2 (b - F₂ *ᵥ x)
    · simp only [if_pos hb, Except.map, LsqrState.rot, mulVec_ite, ← mulVec_smul, h.adj, h.isoV]
    · simp only [if_neg hb, Except.map, LsqrState.rot, mulVec_ite, mulVec_smul, mulVec_zero, lt_irrefl, if_false]

theorem lsqrBidiag_rot (h : Rotated F₁ F₂ U V) (damp : ℝ) (s : LsqrState p₂ q₂) :
    lsqrBidiag (LinOp.ofMat F₁) damp (s.rot U V) =
      (lsqrBidiag (LinOp.ofMat F₂) damp s).map fun r => (r.1.rot U V, r.2) := by
  unfold lsqrBidiag
  have e : F₁ *ᵥ (V *ᵥ s.v) - s.alfa • U *ᵥ s.u = U *ᵥ (F₂ *ᵥ s.v - s.alfa • s.u) := by
    rw [h.fwd, mulVec_sub, mulVec_smul]
  simp only [LinOp.ofMat, pure, Except.pure, bind, Except.bind, LsqrState.rot, e, h.isoU]
  by_cases hb : 0 < norm2 (F₂ *ᵥ s.v - s.alfa • s.u)
  · simp only [if_pos hb, Except.map, LsqrState.rot, mulVec_ite, ← mulVec_smul, ← mulVec_sub, h.adj, h.isoV]
  · simp only [if_neg hb, Except.map, LsqrState.rot]

theorem lsqrRotate_rot (hV : ∀ v, norm2 (V *ᵥ v) = norm2 v) (damp : ℝ) (s : LsqrState p₂ q₂) (beta : ℝ) :
    lsqrRotate damp (s.rot U V) beta false = (lsqrRotate damp s beta false).rot U V := by
  unfold lsqrRotate
  simp only [LsqrState.rot, ← mulVec_smul, ← mulVec_add, hV, Bool.false_eq_true, if_false]
  rfl

theorem lsqrStep_rot (h : Rotated F₁ F₂ U V) (damp : ℝ) (s : LsqrState p₂ q₂) :
    lsqrStep (LinOp.ofMat F₁) damp (s.rot U V) false =
      (lsqrStep (LinOp.ofMat F₂) damp s false).map (LsqrState.rot U V) := by
  unfold lsqrStep
  rw [lsqrBidiag_rot h]
  cases lsqrBidiag (LinOp.ofMat F₂) damp s with
  | error e => rfl
  | ok r =>
    simp only [Except.map, bind, Except.bind, pure, Except.pure]
    rw [lsqrRotate_rot h.isoV]

theorem lsqrLoop_rot (h : Rotated F₁ F₂ U V) (damp : ℝ) (T : LsqrTol) (bn : ℝ) (L : ℕ) :
    ∀ (k : ℕ) (s : LsqrState p₂ q₂) (arr : List ℝ),
      lsqrLoop (LinOp.ofMat F₁) damp T bn L false k (s.rot U V) arr =
        (lsqrLoop (LinOp.ofMat F₂) damp T bn L false k s arr).map fun r => (r.1.rot U V, r.2) := by
  intro k
  induction k with
  | zero => intro s arr; rfl
  | succ k ih =>
    intro s arr
    simp only [lsqrLoop, lsqrStep_rot h]
    cases lsqrStep (LinOp.ofMat F₂) damp s false with
    | error e => rfl
    | ok s' =>
      have hs : lsqrStop T bn L (s'.rot U V) = lsqrStop T bn L s' := rfl
      simp only [Except.map, hs]
      by_cases hi : lsqrStop T bn L s' = 0
      · simp only [hi, ne_eq, not_true_eq_false, if_false]
        exact ih s' _
      · simp only [ne_eq, hi, not_false_eq_true, if_true]
        rfl

/-- `lsqr` commutes with orthogonal changes of coordinates. -/
theorem lsqr_rot (h : Rotated F₁ F₂ U V) (b : Fin p₂ → ℝ) (damp : ℝ) (T : LsqrTol) (L : ℤ)
    (x0 : Option (Fin q₂ → ℝ)) :
    lsqr (LinOp.ofMat F₁) (U *ᵥ b) damp T (some L) (x0.map (V *ᵥ ·)) false =
      (lsqr (LinOp.ofMat F₂) b damp T (some L) x0 false).map (LsqrOut.rot V) := by
  unfold lsqr
  rw [lsqrInit_rot h, h.isoU]
  cases hi : lsqrInit (LinOp.ofMat F₂) b x0 with
  | error e => rfl
  | ok s =>
    simp only [Except.map, Option.getD]
    have ha : (s.rot U V).arnorm = s.arnorm := rfl
    rw [ha]
    by_cases h0 : s.arnorm = 0
    · simp only [if_pos h0]; rfl
    · simp only [if_neg h0]
      by_cases hL : L < 0
      · simp only [if_pos hL]
      · simp only [if_neg hL, lsqrLoop_rot h]
        cases lsqrLoop (LinOp.ofMat F₂) damp T (norm2 b) L.toNat false L.toNat s
            (List.replicate L.toNat (-1)) with
        | error e => rfl
        | ok r => rfl

end Parla
