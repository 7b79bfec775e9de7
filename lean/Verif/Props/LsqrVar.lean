import Verif.Props.LSQR
import Verif.Props.RatesLS

/-! # Property C69: `lsqr(..., calc_var=True)` -/

namespace Parla.Props

open Matrix Parla Spec

variable {p q : ℕ}

/-! ### `calc_var` changes nothing but `var` -/

/-- a state without its `var` -/
def eraseVar (s : LsqrState p q) : LsqrState p q := { s with var := 0 }

theorem bidiag_erase (A : LinOp p q) (damp : ℝ) (s : LsqrState p q) :
    lsqrBidiag A damp (eraseVar s) = (lsqrBidiag A damp s).map (fun t => (eraseVar t.1, t.2)) := by
  unfold lsqrBidiag
  show ((A.mv s.v).bind _) = _
  cases h1 : A.mv s.v with
  | error e => simp only [h1]; rfl
  | ok Av =>
    simp only [h1, bind, Except.bind, pure, Except.pure]
    show (if 0 < norm2 (Av - s.alfa • s.u) then _ else _) = _
    by_cases hb : 0 < norm2 (Av - s.alfa • s.u)
    · rw [if_pos hb, if_pos hb]
      have e1 : (eraseVar s).alfa = s.alfa := rfl
      have e2 : (eraseVar s).u = s.u := rfl
      simp only [e1, e2]
      cases hr : A.rmv ((1 / norm2 (Av - s.alfa • s.u)) • (Av - s.alfa • s.u)) with
      | error e => rfl
      | ok y => rfl
    · rw [if_neg hb, if_neg hb]
      rfl

theorem step_erase (A : LinOp p q) (damp : ℝ) (s : LsqrState p q) :
    (lsqrStep A damp s true).map eraseVar = lsqrStep A damp (eraseVar s) false := by
  unfold lsqrStep
  rw [bidiag_erase]
  cases lsqrBidiag A damp s with
  | error e => rfl
  | ok t => rfl

theorem loop_erase (A : LinOp p q) (damp : ℝ) (T : LsqrTol) (bn : ℝ) (L : ℕ) :
    ∀ (k : ℕ) (s : LsqrState p q) (arr : List ℝ),
      (lsqrLoop A damp T bn L true k s arr).map (fun t => (eraseVar t.1, t.2)) =
        lsqrLoop A damp T bn L false k (eraseVar s) arr
  | 0, s, arr => rfl
  | k + 1, s, arr => by
    have h := step_erase A damp s
    rw [lsqrLoop, lsqrLoop, ← h]
    cases hs : lsqrStep A damp s true with
    | error e => rfl
    | ok t =>
      simp only [Except.map]
      have e : lsqrStop T bn L (eraseVar t) = lsqrStop T bn L t := rfl
      rw [e]
      by_cases h0 : lsqrStop T bn L t = 0
      · simp only [h0, ne_eq, not_true_eq_false, if_false]
        rw [← loop_erase A damp T bn L k t]
        rfl
      · simp only [ne_eq, h0, not_false_eq_true, if_true]
        rfl

/-- **C69** (`calc_var` only adds `var`).  For every operator, also one whose products raise: the call with
`calc_var=True` raises what the call with `calc_var=False` raises, and returns the same tuple except for `var`, which is
zero for `calc_var=False`. -/
theorem C69_calc_var_adds (A : LinOp p q) (b : Fin p → ℝ) (damp : ℝ) (T : LsqrTol) (lim : Option ℤ)
    (x0 : Option (Fin q → ℝ)) :
    (lsqr A b damp T lim x0 true).map (fun out => { out with var := 0 }) = lsqr A b damp T lim x0 false := by
  unfold lsqr
  simp only
  have hv : ∀ s, lsqrInit A b x0 = .ok s → eraseVar s = s := by
    intro s hs
    unfold lsqrInit at hs
    cases x0 with
    | none =>
      simp only [bind, Except.bind, pure, Except.pure] at hs
      by_cases hb : 0 < norm2 b
      · simp only [if_pos hb] at hs
        cases hr : A.rmv ((1 / norm2 b) • b) with
        | error e => rw [hr] at hs; cases hs
        | ok y => rw [hr] at hs; cases hs; rfl
      · simp only [if_neg hb] at hs; cases hs; rfl
    | some x =>
      simp only [bind, Except.bind, pure, Except.pure] at hs
      cases hx : A.mv x with
      | error e => rw [hx] at hs; cases hs
      | ok Ax =>
        rw [hx] at hs
        simp only at hs
        by_cases hb : 0 < norm2 (b - Ax)
        · simp only [if_pos hb] at hs
          cases hr : A.rmv ((1 / norm2 (b - Ax)) • (b - Ax)) with
          | error e => rw [hr] at hs; cases hs
          | ok y => rw [hr] at hs; cases hs; rfl
        · simp only [if_neg hb] at hs; cases hs; rfl
  cases hs : lsqrInit A b x0 with
  | error e => rfl
  | ok s =>
    have h0 := hv s hs
    simp only
    by_cases ha : s.arnorm = 0
    · simp only [if_pos ha, Except.map]
      rw [← h0]; rfl
    · simp only [if_neg ha]
      by_cases hL : lim.getD (2 * q) < 0
      · simp only [if_pos hL, Except.map]
      · simp only [if_neg hL]
        have := loop_erase A damp T (norm2 b) (lim.getD (2 * q)).toNat (lim.getD (2 * q)).toNat s
          (List.replicate (lim.getD (2 * q)).toNat (-1))
        rw [h0] at this
        rw [← this]
        cases lsqrLoop A damp T (norm2 b) (lim.getD (2 * q)).toNat true (lim.getD (2 * q)).toNat s
          (List.replicate (lim.getD (2 * q)).toNat (-1)) with
        | error e => rfl
        | ok t => rfl

/-! ### The value of `var` -/

/-- the vector `dk` of an iteration from the state `s` -/
noncomputable def dkP (F : Matrix (Fin p) (Fin q) ℝ) (damp : ℝ) (s : LsqrState p q) : Fin q → ℝ :=
  (1 / (symOrtho (Real.sqrt ((bidP F damp s).rhobar ^ 2 + damp ^ 2)) (norm2 (F *ᵥ s.v - s.alfa • s.u))).2.2) •
    (bidP F damp s).w

theorem stepV (F : Matrix (Fin p) (Fin q) ℝ) (damp : ℝ) (s : LsqrState p q) (v : Fin q → ℝ) :
    lsqrStep (LinOp.ofMat F) damp { s with var := v } true =
      .ok { stepP F damp s with var := v + dkP F damp s ^ 2 } := by
  unfold lsqrStep
  have : lsqrBidiag (LinOp.ofMat F) damp { s with var := v } =
      .ok ({ bidP F damp s with var := v }, norm2 (F *ᵥ s.v - s.alfa • s.u)) := by
    unfold lsqrBidiag bidP LinOp.ofMat
    by_cases h : 0 < norm2 (F *ᵥ s.v - s.alfa • s.u)
    · simp only [Except.bind, bind, pure, Except.pure, if_pos h]
    · simp only [Except.bind, bind, pure, Except.pure, if_neg h]
  rw [this]
  rfl

theorem loopV (F : Matrix (Fin p) (Fin q) ℝ) (damp : ℝ) (T : LsqrTol) (bn : ℝ) (L : ℕ) :
    ∀ (k : ℕ) (s : LsqrState p q) (v : Fin q → ℝ) (arr : List ℝ), ∃ K i a,
      lsqrLoop (LinOp.ofMat F) damp T bn L true k { s with var := v } arr =
        .ok ({ (stepP F damp)^[K] s with var := v + ∑ j ∈ Finset.range K, dkP F damp ((stepP F damp)^[j] s) ^ 2 }, i, a)
  | 0, s, v, arr => ⟨0, 0, arr, by simp [lsqrLoop]⟩
  | k + 1, s, v, arr => by
    rw [lsqrLoop]
    simp only [stepV]
    have e : lsqrStop T bn L { stepP F damp s with var := v + dkP F damp s ^ 2 } = lsqrStop T bn L (stepP F damp s) := rfl
    rw [e]
    by_cases h0 : lsqrStop T bn L (stepP F damp s) = 0
    · simp only [h0, ne_eq, not_true_eq_false, if_false]
      obtain ⟨K, i, a, h⟩ := loopV F damp T bn L k (stepP F damp s) (v + dkP F damp s ^ 2) (arr.set s.itn s.arnorm)
      refine ⟨K + 1, i, a, ?_⟩
      rw [h, Finset.sum_range_succ']
      simp only [Function.iterate_succ_apply, Function.iterate_zero, id_eq]
      rw [add_assoc v, add_comm (dkP F damp s ^ 2)]
    · simp only [ne_eq, h0, not_false_eq_true, if_true]
      exact ⟨1, lsqrStop T bn L (stepP F damp s), arr.set s.itn s.arnorm, by simp⟩

/-- what a call with `calc_var=True` returns -/
theorem lsqr_var {F : Matrix (Fin p) (Fin q) ℝ} {b : Fin p → ℝ} {x0 : Option (Fin q → ℝ)} {damp : ℝ}
    {T : LsqrTol} {lim : Option ℤ} {out : LsqrOut q} (h : lsqr (LinOp.ofMat F) b damp T lim x0 true = .ok out) :
    out.var = ∑ j ∈ Finset.range out.itn, dkP F damp (seqP F b (x0.getD 0) damp j) ^ 2 ∧
      (∀ j < out.itn, (seqP F b (x0.getD 0) damp j).arnorm ≠ 0) ∧
      out.acond = (if out.itn = 0 then 0 else out.anorm * Real.sqrt (seqP F b (x0.getD 0) damp out.itn).ddnorm) ∧
      (out.itn = 0 → out.anorm = 0) := by
  have hf : lsqr (LinOp.ofMat F) b damp T lim x0 = .ok { out with var := 0 } := by
    have := C69_calc_var_adds (LinOp.ofMat F) b damp T lim x0
    rw [h] at this
    exact this.symm
  have hitn : (∀ j < out.itn, (seqP F b (x0.getD 0) damp j).arnorm ≠ 0) ∧
      out.acond = (if out.itn = 0 then 0 else out.anorm * Real.sqrt (seqP F b (x0.getD 0) damp out.itn).ddnorm) ∧
      (out.itn = 0 → out.anorm = 0) := by
    rcases lsqr_ok hf with ⟨hg, ho⟩ | ⟨hg, L, hL, K, hK, hK0, ho, h4, h5, h6⟩
    · have e : out.itn = 0 := congrArg LsqrOut.itn ho
      have e2 : out.acond = 0 := congrArg LsqrOut.acond ho
      have e3 : out.anorm = 0 := congrArg LsqrOut.anorm ho
      exact ⟨fun j hj => by omega, by rw [e2, if_pos e], fun _ => e3⟩
    · have e : out.itn = K := congrArg LsqrOut.itn ho
      have e2 : out.acond = (seqP F b (x0.getD 0) damp K).acond := congrArg LsqrOut.acond ho
      have e3 : out.anorm = (seqP F b (x0.getD 0) damp K).anorm := congrArg LsqrOut.anorm ho
      rw [e, e2, e3]
      refine ⟨h6, ?_, fun hK => by subst hK; rfl⟩
      cases K with
      | zero => rfl
      | succ K => rw [if_neg (Nat.succ_ne_zero K), seqP_succ]; rfl
  refine ⟨?_, hitn⟩
  unfold lsqr at h
  simp only [lsqrInit_ofMat] at h
  by_cases ha : (initP F b (x0.getD 0)).arnorm = 0
  · rw [if_pos ha] at h
    cases h
    rfl
  · rw [if_neg ha] at h
    by_cases hL : lim.getD (2 * q) < 0
    · rw [if_pos hL] at h; cases h
    · rw [if_neg hL] at h
      obtain ⟨K, i, a, hl⟩ := loopV F damp T (norm2 b) (lim.getD (2 * q)).toNat (lim.getD (2 * q)).toNat
        (initP F b (x0.getD 0)) 0 (List.replicate (lim.getD (2 * q)).toNat (-1))
      rw [show ({ initP F b (x0.getD 0) with var := 0 } : LsqrState p q) = initP F b (x0.getD 0) from rfl] at hl
      rw [hl] at h
      cases h
      show 0 + _ = _
      have e : ((stepP F damp)^[K] (initP F b (x0.getD 0))).itn = K := seqP_itn F b (x0.getD 0) damp K
      show _ = ∑ j ∈ Finset.range ((stepP F damp)^[K] (initP F b (x0.getD 0))).itn, _
      rw [e, zero_add]
      rfl

/-- one direction: of unit energy and conjugate to the previous ones -/
theorem dk_conj {F : Matrix (Fin p) (Fin q) ℝ} {b : Fin p → ℝ} {x0 : Fin q → ℝ} {damp : ℝ} {k : ℕ}
    (h : ∀ j ≤ k, (seqP F b x0 damp j).arnorm ≠ 0) :
    dkP F damp (seqP F b x0 damp k) ∈ vSpan F b x0 damp (k + 1) ∧
    (∀ e ∈ vSpan F b x0 damp k, (F *ᵥ dkP F damp (seqP F b x0 damp k)) ⬝ᵥ (F *ᵥ e) +
      damp ^ 2 * (dkP F damp (seqP F b x0 damp k) ⬝ᵥ e) = 0) ∧
    sqNorm (F *ᵥ dkP F damp (seqP F b x0 damp k)) + damp ^ 2 * sqNorm (dkP F damp (seqP F b x0 damp k)) = 1 ∧
    (seqP F b x0 damp (k + 1)).ddnorm = (seqP F b x0 damp k).ddnorm + sqNorm (dkP F damp (seqP F b x0 damp k)) := by
  obtain ⟨t1, g1, t2, g2, y, SU, I⟩ := seqP_inv_span h
  rw [seqP_succ]
  obtain ⟨s, hs⟩ : ∃ s, s = seqP F b x0 damp k := ⟨_, rfl⟩
  rw [show vSpan F b x0 damp (k + 1) = vSpan F b x0 damp k ⊔ Submodule.span ℝ {(seqP F b x0 damp k).v} from rfl]
  rw [← hs] at I ⊢
  obtain ⟨bx, bw, brho, bphi, bres, bxx, bz, bcs2, bsn2, bitn, bdd, bu, bpos, bzero⟩ := bidP_spec F damp s
  obtain ⟨β, hβ⟩ : ∃ β, β = norm2 (F *ᵥ s.v - s.alfa • s.u) := ⟨_, rfl⟩
  have hdk : dkP F damp s = (1 / Real.sqrt (Real.sqrt (s.rhobar ^ 2 + damp ^ 2) ^ 2 + β ^ 2)) • s.w := by
    unfold dkP
    rw [symOrtho_eq, bw, brho, hβ]
  have hr : s.rhobar ^ 2 ≠ 0 := pow_ne_zero _ I.rhobar
  have hr1 : 0 < s.rhobar ^ 2 := by positivity
  rw [Real.sq_sqrt (by positivity)] at hdk
  obtain ⟨ρ, hρ⟩ : ∃ ρ, ρ = Real.sqrt (s.rhobar ^ 2 + damp ^ 2 + β ^ 2) := ⟨_, rfl⟩
  have hρ2 : ρ ^ 2 = s.rhobar ^ 2 + damp ^ 2 + β ^ 2 := by rw [hρ, Real.sq_sqrt (by positivity)]
  have hρ0 : 0 < ρ := by rw [hρ]; exact Real.sqrt_pos.2 (by positivity)
  rw [← hρ] at hdk
  have hw1 : F *ᵥ s.w = s.rhobar • t1 + (F *ᵥ s.v - s.alfa • s.u) := by rw [I.w1]; abel
  have hsum : ∀ e ∈ vSpan F b x0 damp k, (F *ᵥ s.w) ⬝ᵥ (F *ᵥ e) + damp ^ 2 * (s.w ⬝ᵥ e) = 0 := by
    intro e he
    have h1 := I.gk _ (I.fd e he)
    have h2 := I.vd e he
    have h3 : damp ^ 2 * (s.w ⬝ᵥ e) = damp * (s.rhobar * (t2 ⬝ᵥ e)) := by
      have : damp * (s.w ⬝ᵥ e) = s.rhobar * (t2 ⬝ᵥ e) := by
        rw [← smul_eq_mul, ← smul_dotProduct, I.w2, add_dotProduct, smul_dotProduct, smul_dotProduct, h2]
        simp
      rw [sq, mul_assoc, this]
    have h4 := congrArg (· ⬝ᵥ e) I.n1
    simp only [add_dotProduct, smul_dotProduct, smul_eq_mul, h2, mul_zero] at h4
    have h5 : t1 ⬝ᵥ (F *ᵥ e) = (Fᵀ *ᵥ t1) ⬝ᵥ e := by rw [dot_mulVec]
    rw [hw1, add_dotProduct, sub_dotProduct, smul_dotProduct, smul_dotProduct, h1, h3, h5]
    simp only [smul_eq_mul]
    linear_combination s.rhobar * h4
  have hn : sqNorm (F *ᵥ s.w) + damp ^ 2 * sqNorm s.w = ρ ^ 2 := by
    have hU : t1 ⬝ᵥ (F *ᵥ s.v - s.alfa • s.u) = 0 := by
      have := I.gk _ I.t1m
      rw [dotProduct_sub, dotProduct_smul, dotProduct_comm t1 (F *ᵥ s.v), this, dotProduct_comm t1 s.u, smul_eq_mul,
        sub_self]
    have hV : s.v ⬝ᵥ t2 = 0 := I.vd _ I.t2m
    have hβ2 : (F *ᵥ s.v - s.alfa • s.u) ⬝ᵥ (F *ᵥ s.v - s.alfa • s.u) = β ^ 2 := by
      rw [hβ, norm2_sq, sqNorm_eq_dot]
    have h1 : sqNorm (F *ᵥ s.w) = s.rhobar ^ 2 * (t1 ⬝ᵥ t1) + β ^ 2 := by
      rw [sqNorm_eq_dot, hw1]
      obtain ⟨U, hUd⟩ : ∃ U, U = F *ᵥ s.v - s.alfa • s.u := ⟨_, rfl⟩
      rw [← hUd] at hU hβ2 ⊢
      rw [add_dotProduct, dotProduct_add, dotProduct_add, hβ2, dotProduct_comm U]
      simp only [smul_dotProduct, dotProduct_smul, hU, smul_eq_mul]
      ring
    have h2 : damp ^ 2 * sqNorm s.w = s.rhobar ^ 2 * (t2 ⬝ᵥ t2) + damp ^ 2 := by
      rw [← sqNorm_smul, sqNorm_eq_dot, I.w2, add_dotProduct, dotProduct_add, dotProduct_add]
      simp only [smul_dotProduct, dotProduct_smul, hV, dotProduct_comm t2 s.v, I.vv, smul_eq_mul]
      ring
    rw [h1, h2, hρ2]
    linear_combination s.rhobar ^ 2 * I.tt
  refine ⟨?_, fun e he => ?_, ?_, ?_⟩
  · rw [hdk]; exact Submodule.smul_mem _ _ I.wm
  · rw [hdk, mulVec_smul, smul_dotProduct, smul_dotProduct, smul_eq_mul, smul_eq_mul]
    linear_combination (1 / ρ) * hsum e he
  · rw [hdk, mulVec_smul, sqNorm_smul, sqNorm_smul]
    rw [show (1 / ρ) ^ 2 * sqNorm (F *ᵥ s.w) + damp ^ 2 * ((1 / ρ) ^ 2 * sqNorm s.w) =
      (1 / ρ) ^ 2 * (sqNorm (F *ᵥ s.w) + damp ^ 2 * sqNorm s.w) by ring, hn]
    field_simp
  · show (bidP F damp s).ddnorm + norm2 (dkP F damp s) ^ 2 = _
    rw [bdd, norm2_sq]

/-- the spans grow -/
theorem vSpan_mono (F : Matrix (Fin p) (Fin q) ℝ) (b : Fin p → ℝ) (x0 : Fin q → ℝ) (damp : ℝ) :
    Monotone (vSpan F b x0 damp) := monotone_nat_of_le_succ fun _ => le_sup_left

theorem damped_mulVec (F : Matrix (Fin p) (Fin q) ℝ) (damp : ℝ) (v : Fin q → ℝ) :
    (Fᵀ * F + damp ^ 2 • (1 : Matrix (Fin q) (Fin q) ℝ)) *ᵥ v = Fᵀ *ᵥ (F *ᵥ v) + damp ^ 2 • v := by
  rw [add_mulVec, smul_mulVec, one_mulVec, mulVec_mulVec]

/-- the matrix of the first `N` directions -/
noncomputable def dkMat (F : Matrix (Fin p) (Fin q) ℝ) (b : Fin p → ℝ) (x0 : Fin q → ℝ) (damp : ℝ) (N : ℕ) :
    Matrix (Fin q) (Fin N) ℝ := Matrix.of fun i j => dkP F damp (seqP F b x0 damp j.1) i

/-- the directions are conjugate -/
theorem dkMat_gram {F : Matrix (Fin p) (Fin q) ℝ} {b : Fin p → ℝ} {x0 : Fin q → ℝ} {damp : ℝ} {N : ℕ}
    (h : ∀ j < N, (seqP F b x0 damp j).arnorm ≠ 0) :
    (dkMat F b x0 damp N)ᵀ * (Fᵀ * F + damp ^ 2 • (1 : Matrix (Fin q) (Fin q) ℝ)) * dkMat F b x0 damp N = 1 := by
  have key : ∀ a c : Fin N, c < a → (F *ᵥ dkP F damp (seqP F b x0 damp a.1)) ⬝ᵥ (F *ᵥ dkP F damp (seqP F b x0 damp c.1)) +
      damp ^ 2 * (dkP F damp (seqP F b x0 damp a.1) ⬝ᵥ dkP F damp (seqP F b x0 damp c.1)) = 0 := by
    intro a c hac
    refine (dk_conj (k := a.1) fun j hj => h j (by omega)).2.1 _ ?_
    exact vSpan_mono F b x0 damp (show c.1 + 1 ≤ a.1 from hac)
      (dk_conj (k := c.1) fun j hj => h j (by omega)).1
  ext a c
  rw [Matrix.mul_assoc, mul_apply]
  have e : ∀ i, ((Fᵀ * F + damp ^ 2 • (1 : Matrix (Fin q) (Fin q) ℝ)) * dkMat F b x0 damp N) i c =
      (Fᵀ *ᵥ (F *ᵥ dkP F damp (seqP F b x0 damp c.1)) + damp ^ 2 • dkP F damp (seqP F b x0 damp c.1)) i := by
    intro i
    rw [← damped_mulVec]
    rfl
  simp only [e]
  show dkP F damp (seqP F b x0 damp a.1) ⬝ᵥ (Fᵀ *ᵥ (F *ᵥ dkP F damp (seqP F b x0 damp c.1)) +
    damp ^ 2 • dkP F damp (seqP F b x0 damp c.1)) = _
  rw [dotProduct_add, dot_mulVec, transpose_transpose, dotProduct_smul, smul_eq_mul, one_apply]
  rcases lt_trichotomy c a with hca | rfl | hac
  · rw [if_neg hca.ne', key a c hca]
  · rw [if_pos rfl, ← sqNorm_eq_dot, ← sqNorm_eq_dot]
    exact (dk_conj (k := c.1) fun j hj => h j (by omega)).2.2.1
  · rw [if_neg hac.ne, ← key c a hac, dotProduct_comm, dotProduct_comm (dkP F damp (seqP F b x0 damp a.1))]

theorem var_eq_diag {F : Matrix (Fin p) (Fin q) ℝ} {b : Fin p → ℝ} {x0 : Fin q → ℝ} {damp : ℝ} {N : ℕ} (i : Fin q) :
    (∑ j ∈ Finset.range N, dkP F damp (seqP F b x0 damp j) ^ 2) i =
      (dkMat F b x0 damp N * (dkMat F b x0 damp N)ᵀ) i i := by
  rw [Finset.sum_apply, mul_apply, ← Fin.sum_univ_eq_sum_range (fun j => (dkP F damp (seqP F b x0 damp j) ^ 2) i)]
  refine Finset.sum_congr rfl fun j _ => ?_
  rw [Pi.pow_apply, sq]
  rfl

/-- **C69** (what `var` is).  With `calc_var=True`, writing `K = A'A + damp² I`: every entry of `var` is nonnegative and
never exceeds the quantity it estimates, `var_i ≤ z_i` whenever `K z = e_i` (so `var_i ≤ (K⁻¹)_{ii}` if `K` is
invertible); after `n` iterations `K` is invertible and `var` is exactly the diagonal of `K⁻¹`; and the reported
condition estimate is `acond = anorm √(∑ var)`. -/
theorem C69_lsqr_var (F : Matrix (Fin p) (Fin q) ℝ) (b : Fin p → ℝ) (damp : ℝ) (T : LsqrTol) (lim : Option ℤ)
    (x0 : Option (Fin q → ℝ)) (out : LsqrOut q) (h : lsqr (LinOp.ofMat F) b damp T lim x0 true = .ok out)
    (K : Matrix (Fin q) (Fin q) ℝ) (hK : K = Fᵀ * F + damp ^ 2 • 1) :
    (∀ i, 0 ≤ out.var i) ∧ (∀ i z, K *ᵥ z = Pi.single i 1 → out.var i ≤ z i) ∧
    (IsUnit K.det → ∀ i, out.var i ≤ K⁻¹ i i) ∧
    (out.itn = q → IsUnit K.det ∧ ∀ i, out.var i = K⁻¹ i i) ∧
    out.acond = out.anorm * Real.sqrt (∑ i, out.var i) := by
  obtain ⟨hv, hj, hac, han⟩ := lsqr_var h
  obtain ⟨N, hN⟩ : ∃ N, N = out.itn := ⟨_, rfl⟩
  rw [← hN] at hv hj hac han ⊢
  obtain ⟨D, hD⟩ : ∃ D, D = dkMat F b (x0.getD 0) damp N := ⟨_, rfl⟩
  have hG := dkMat_gram hj
  rw [← hD, ← hK] at hG
  have hd : ∀ i, out.var i = (D * Dᵀ) i i := fun i => by rw [hv, hD, var_eq_diag]
  have hKs : Kᵀ = K := by rw [hK, transpose_add, transpose_smul, transpose_mul, transpose_transpose, transpose_one]
  have hKp : ∀ v, 0 ≤ v ⬝ᵥ (K *ᵥ v) := by
    intro v
    rw [hK, damped_mulVec, dotProduct_add, dotProduct_smul, dot_mulVec, transpose_transpose, ← sqNorm_eq_dot,
      ← sqNorm_eq_dot, smul_eq_mul]
    exact add_nonneg (sqNorm_nonneg _) (mul_nonneg (sq_nonneg _) (sqNorm_nonneg _))
  have hnn : ∀ i, 0 ≤ out.var i := by
    intro i
    rw [hd, mul_apply]
    exact Finset.sum_nonneg fun j _ => by rw [transpose_apply]; exact mul_self_nonneg _
  have hle : ∀ i z, K *ᵥ z = Pi.single i 1 → out.var i ≤ z i := by
    intro i z hz
    -- Bessel's inequality in the inner product of `K`
    have h1 := hKp (z - D *ᵥ (Dᵀ *ᵥ (K *ᵥ z)))
    obtain ⟨y, hy⟩ : ∃ y, y = Dᵀ *ᵥ (K *ᵥ z) := ⟨_, rfl⟩
    rw [← hy, mulVec_sub, sub_dotProduct, dotProduct_sub, dotProduct_sub] at h1
    have h2 : z ⬝ᵥ (K *ᵥ (D *ᵥ y)) = y ⬝ᵥ y := by
      rw [dot_mulVec, hKs, dot_mulVec, ← hy]
    have h3 : (D *ᵥ y) ⬝ᵥ (K *ᵥ z) = y ⬝ᵥ y := by
      rw [dotProduct_comm, dot_mulVec, ← hy]
    have h4 : (D *ᵥ y) ⬝ᵥ (K *ᵥ (D *ᵥ y)) = y ⬝ᵥ y := by
      rw [dotProduct_comm, dot_mulVec, mulVec_mulVec, mulVec_mulVec, hG, one_mulVec]
    rw [h2, h3, h4, hz, dotProduct_single, mul_one] at h1
    have h5 : out.var i = y ⬝ᵥ y := by
      rw [hd, hy, hz, mulVec_single_one, mul_apply]
      rfl
    linarith
  refine ⟨hnn, hle, fun hu i => ?_, fun hq => ?_, ?_⟩
  · refine hle i (K⁻¹ *ᵥ Pi.single i 1) (by rw [mulVec_mulVec, mul_nonsing_inv _ hu, one_mulVec]) |>.trans ?_
    rw [mulVec_single_one]
    exact le_rfl
  · subst hq
    have h1 : D * (Dᵀ * K) = 1 := mul_eq_one_comm.1 hG
    rw [← Matrix.mul_assoc] at h1
    have hu : IsUnit K.det := (Matrix.isUnit_iff_isUnit_det _).1 (IsUnit.of_mul_eq_one_right _ h1)
    refine ⟨hu, fun i => ?_⟩
    rw [hd, Matrix.inv_eq_left_inv h1]
  · rw [hac]
    split_ifs with h0
    · rw [han h0, zero_mul]
    · congr 2
      have hdd : ∀ M ≤ N, (seqP F b (x0.getD 0) damp M).ddnorm =
          ∑ j ∈ Finset.range M, sqNorm (dkP F damp (seqP F b (x0.getD 0) damp j)) := by
        intro M hM
        induction M with
        | zero => rfl
        | succ M ih =>
          rw [Finset.sum_range_succ, (dk_conj (k := M) fun j hj' => hj j (by omega)).2.2.2, ih (by omega)]
      rw [hdd N le_rfl, hv]
      simp only [Finset.sum_apply, Pi.pow_apply]
      rw [Finset.sum_comm]
      rfl

/-- **C69** (monotone).  A larger iteration limit never lowers an entry of `var`. -/
theorem C69_lsqr_var_monotone (F : Matrix (Fin p) (Fin q) ℝ) (b : Fin p → ℝ) (damp : ℝ) (T : LsqrTol) (l l' : ℕ)
    (hl : l ≤ l') (x0 : Option (Fin q → ℝ)) (out out' : LsqrOut q)
    (h : lsqr (LinOp.ofMat F) b damp T (some l) x0 true = .ok out)
    (h' : lsqr (LinOp.ofMat F) b damp T (some l') x0 true = .ok out') (i : Fin q) : out.var i ≤ out'.var i := by
  rw [(lsqr_var h).1, (lsqr_var h').1, Finset.sum_apply, Finset.sum_apply]
  refine Finset.sum_le_sum_of_subset_of_nonneg (Finset.range_subset_range.2 ?_)
    fun j _ _ => by rw [Pi.pow_apply]; positivity
  have e : ∀ (k : ℕ) (o : LsqrOut q), lsqr (LinOp.ofMat F) b damp T (some (k : ℤ)) x0 true = .ok o →
      lsqr (LinOp.ofMat F) b damp T (some (k : ℤ)) x0 = .ok { o with var := 0 } := by
    intro k o ho
    have := C69_calc_var_adds (LinOp.ofMat F) b damp T (some (k : ℤ)) x0
    rw [ho] at this
    exact this.symm
  rcases lsqr_ok (e l out h) with ⟨hg, ho⟩ | ⟨hg, L, hL, N, hN, hN0, ho, h4, h5, h6⟩
  · rw [show out.itn = 0 from congrArg LsqrOut.itn ho]; exact Nat.zero_le _
  · rcases lsqr_ok (e l' out' h') with ⟨hg', -⟩ | ⟨-, L', hL', N', hN', hN0', ho', h4', h5', h6'⟩
    · exact absurd hg' hg
    · rw [show out.itn = N from congrArg LsqrOut.itn ho, show out'.itn = N' from congrArg LsqrOut.itn ho']
      have eL : L = l := by simpa using hL.symm
      have eL' : L' = l' := by simpa using hL'.symm
      subst eL; subst eL'
      by_contra hlt
      push Not at hlt
      have hpos : 0 < N' := hN0' (by omega)
      exact h4' hpos (lsqrStop_limit (h5 N' hpos hlt) (by rw [seqP_itn]; omega))

/-- a run with `calc_var=True` exists whenever one without it does -/
theorem lsqr_var_total {A : LinOp p q} {b : Fin p → ℝ} {damp : ℝ} {T : LsqrTol} {lim : Option ℤ}
    {x0 : Option (Fin q → ℝ)} {o : LsqrOut q} (h : lsqr A b damp T lim x0 = .ok o) :
    ∃ out, lsqr A b damp T lim x0 true = .ok out ∧ out.itn = o.itn := by
  have := C69_calc_var_adds A b damp T lim x0
  rw [h] at this
  cases ht : lsqr A b damp T lim x0 true with
  | error e => rw [ht] at this; cases this
  | ok out =>
    rw [ht] at this
    cases this
    exact ⟨out, rfl, rfl⟩

/-- **C69** on a run: one column of norm `√5`, damping 2; after one iteration `var` is `1/9`. -/
example : ∃ out, lsqr (LinOp.ofMat (!![2; 1] : Matrix (Fin 2) (Fin 1) ℝ)) ![1, 0] 2 ⟨0, 0, 0⟩ (some 1) none true = .ok out ∧
    out.itn = 1 ∧ out.var 0 = 1 / 9 := by
  have hg : (!![2; 1] : Matrix (Fin 2) (Fin 1) ℝ)ᵀ *ᵥ (![1, 0] - (!![2; 1] : Matrix (Fin 2) (Fin 1) ℝ) *ᵥ
      (none : Option (Fin 1 → ℝ)).getD 0) ≠ 0 := by
    intro h
    have := congrFun h 0
    simp [mulVec, dotProduct, Fin.sum_univ_two] at this
  obtain ⟨N, h1, h2, h3, -⟩ := lsqr_run _ ![1, 0] none 2 ⟨0, 0, 0⟩ (some 1) 1 hg rfl
  have hN : N = 1 := by have := h2 one_pos; omega
  obtain ⟨out, g1, g2⟩ := lsqr_var_total h3
  have g3 : out.itn = 1 := by rw [g2]; exact hN
  refine ⟨out, g1, g3, ?_⟩
  obtain ⟨hu, hv⟩ := (C69_lsqr_var _ _ _ _ _ _ _ g1 (!![9] : Matrix (Fin 1) (Fin 1) ℝ) (by
    ext i j; fin_cases i; fin_cases j; simp [mul_apply, Fin.sum_univ_two]; norm_num)).2.2.2.1 g3
  rw [hv 0, Matrix.inv_def]
  simp

end Parla.Props
