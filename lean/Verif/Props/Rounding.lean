import Verif.Model.Rounding
import Verif.Proof.Rounding
import Verif.Props.QB2

/-! # C81: QB and SVD with rounding errors -/

namespace Parla.Props

open Matrix Parla Spec Parla.Proof

variable {G : Type} {m n : ℕ}

/-! ### The exact model is the case without rounding errors -/

theorem rs1LoopFl_exact (la : LinAlg) (stab : Stab) (pps : ℕ) (A : Matrix (Fin m) (Fin n) ℝ) (q : ℕ) :
    ∀ (done : ℕ) (S : Cols n), (rs1LoopFl (exactFl la) stab pps A q done S : Py G (Cols n)) = rs1Loop stab pps A q done S := by
  induction q with
  | zero => intro done S; rfl
  | succ q ih =>
    intro done S
    unfold rs1LoopFl rs1Loop
    simp only [ih]
    rfl

theorem RS1Fl_exact (la : LinAlg) (gen : SkOpGen G) (p : ℤ) (stab : Stab) (pps : ℕ) :
    RS1Fl (exactFl la) gen p stab pps = RS1 gen p stab pps := by
  funext m n A k
  unfold RS1Fl RS1 rs1CallFl rs1Call
  simp only [rs1LoopFl_exact]
  rfl

theorem RF1Fl_exact (la : LinAlg) (rso : RowSketcher G) : RF1Fl (exactFl la) rso = RF1 la rso := rfl

theorem qb2LoopFl_exact (la : LinAlg) (rf : RangeFinder G) (k : ℕ) (useTol : Prop) (ast : ℝ) (fuel : ℕ) :
    ∀ st : QB2St m n, qb2LoopFl (exactFl la) rf k useTol ast fuel st = qb2Loop la rf k useTol ast fuel st := by
  induction fuel with
  | zero => intro st; rfl
  | succ fuel ih =>
    intro st
    unfold qb2LoopFl qb2Loop
    have e : ∀ blk (st : QB2St m n) out, qb2UpdateFl (exactFl la) blk st out = qb2Update la blk st out := fun blk st out => by
      unfold qb2UpdateFl qb2Update
      simp only [exactFl, projectOutFl, projectOut, sq]
    have e' : (qb2UpdateFl (exactFl la) : ℕ → QB2St m n → Cols m → QB2St m n) = qb2Update la := by
      funext blk st out; exact e blk st out
    have ih' : (qb2LoopFl (exactFl la) rf k useTol ast fuel : QB2St m n → Py G (QB2St m n)) =
        qb2Loop la rf k useTol ast fuel := funext ih
    rw [e', ih']

theorem qb2CallFl_exact (la : LinAlg) (rf : RangeFinder G) (blk : ℕ) (o : Bool) (A : Matrix (Fin m) (Fin n) ℝ) (k : ℤ)
    (tol : Tol) : qb2CallFl (exactFl la) rf blk o A k tol = qb2Call la rf blk o A k tol := by
  have e1 : absSqTolFl (exactFl la) tol A = absSqTol tol A := by
    cases tol with
    | nan => rfl
    | val t => simp only [absSqTolFl, absSqTol, exactFl, sq]
  have e2 : qb2InitFl (exactFl la) A blk = qb2Init A blk := by
    simp only [qb2InitFl, qb2Init, exactFl, sq]
  unfold qb2CallFl qb2Call qb2RunFl qb2Run
  simp only [qb2LoopFl_exact, e1, e2]

/-- **C81** (refinement): with exact arithmetic the rounded routines are the ones all other claims are about. -/
theorem C81_exact (la : LinAlg) (gen : SkOpGen G) (A : Matrix (Fin m) (Fin n) ℝ) (k : ℤ) (p : ℤ) (blk : ℕ) (o : Bool)
    (tol : Tol) (k' over : ℕ) :
    qbFl (exactFl la) gen p A k = qb la gen p A k ∧
    qbBFl (exactFl la) gen p blk o A k tol = qbB la gen p blk o A k tol ∧
    svd1Fl (exactFl la) gen A k' over tol p blk = svd1 la gen A k' over tol p blk := by
  refine ⟨?_, ?_, ?_⟩
  · unfold qbFl qb
    rw [RS1Fl_exact]; rfl
  · unfold qbBFl qbB
    rw [RS1Fl_exact, qb2CallFl_exact]; rfl
  · unfold svd1Fl svd1
    rw [RS1Fl_exact]
    have : ∀ rf : RangeFinder G, QB2Fl (exactFl la) rf blk false = QB2 la rf blk false := fun rf => by
      funext m n A k tol
      unfold QB2Fl QB2
      rw [qb2CallFl_exact]
    rw [this]; rfl

/-! ### Scalars -/

theorem sq_norm_round {fl : FlAlg} {N : ℕ} {ε : ℝ} (hfl : fl.Accurate N ε) (hε0 : 0 ≤ ε) (hε1 : ε ≤ 1)
    (A : Matrix (Fin m) (Fin n) ℝ) (hm : m ≤ N) (hn : n ≤ N) :
    |fl.smul (fl.norm A) (fl.norm A) - fro A ^ 2| ≤ 7 * ε * fro A ^ 2 := by
  obtain ⟨x, hx⟩ : ∃ x, x = fl.norm A := ⟨_, rfl⟩
  obtain ⟨a, ha⟩ : ∃ a, a = fro A := ⟨_, rfl⟩
  have ha0 : 0 ≤ a := ha ▸ fro_nonneg _
  have h1 : |x - a| ≤ ε * a := by rw [hx, ha]; exact hfl.norm A hm hn
  have h2 := hfl.smul x x
  rw [← hx, ← ha]
  have hxa := abs_le.1 h1
  have hεa : ε * a ≤ a := by nlinarith
  have h3 : |x ^ 2 - a ^ 2| ≤ ε * a * (3 * a) := by
    refine abs_sq_sub_sq_le h1 ?_
    rw [abs_le]; constructor <;> linarith
  have hx2 : x ^ 2 ≤ 4 * a ^ 2 := by
    have : x ^ 2 ≤ (2 * a) ^ 2 := sq_le_sq' (by linarith) (by linarith)
    linarith
  have h4 : |x * x| = x ^ 2 := by rw [← sq, abs_of_nonneg (sq_nonneg x)]
  rw [h4] at h2
  have h5 : |fl.smul x x - a ^ 2| ≤ |fl.smul x x - x * x| + |x ^ 2 - a ^ 2| := by
    have := abs_add_le (fl.smul x x - x * x) (x ^ 2 - a ^ 2)
    rwa [show fl.smul x x - x * x + (x ^ 2 - a ^ 2) = fl.smul x x - a ^ 2 by ring] at this
  have h6 : ε * x ^ 2 ≤ ε * (4 * a ^ 2) := mul_le_mul_of_nonneg_left hx2 hε0
  linarith [mul_nonneg hε0 (sq_nonneg a)]

/-! ### The loop of QB2 -/

/-- What holds after `t` blocks. -/
structure RoundInv (A : Matrix (Fin m) (Fin n) ℝ) (θ ε : ℝ) (st : QB2St m n) : Prop where
  norm : fro st.A ≤ (1 + θ) ^ st.calls.length * fro A
  resid : fro (st.A - (A - st.Q * st.B)) ≤ ((1 + θ) ^ st.calls.length - 1) * fro A
  sqn : |st.sqn - fro st.A ^ 2| ≤ ((1 + 8 * θ) ^ (st.calls.length + 1) - 1) * fro A ^ 2
  cols : ∀ j, |norm2 (fun i => st.Q i j) - 1| ≤ ε
  len : st.calls.length ≤ st.c
  energy : |fro st.A ^ 2 + fro st.B ^ 2 - fro A ^ 2| ≤ ((1 + 8 * θ) ^ (st.calls.length + 1) - 1) * fro A ^ 2

theorem norm2_col_le (M : Matrix (Fin m) (Fin n) ℝ) (j : Fin n) : norm2 (fun i => M i j) ≤ fro M := by
  rw [norm2, fro]
  refine Real.sqrt_le_sqrt ?_
  unfold sqNorm froSq
  exact Finset.sum_le_sum fun i _ => Finset.single_le_sum (f := fun j => M i j ^ 2) (fun _ _ => sq_nonneg _) (Finset.mem_univ j)

theorem norm2_add_le' (u v : Fin n → ℝ) : norm2 (u + v) ≤ norm2 u + norm2 v := by
  have := fro_triangle (Matrix.of fun i (_ : Fin 1) => u i) (Matrix.of fun i (_ : Fin 1) => v i)
  simpa [fro, froSq, norm2, sqNorm] using this

/-- the columns of an array near an orthonormal one have norm near one -/
theorem col_near_orth {b : ℕ} {Q Q' : Matrix (Fin m) (Fin b) ℝ} {ε : ℝ} (h1 : OrthoCols Q') (h2 : fro (Q - Q') ≤ ε)
    (j : Fin b) : |norm2 (fun i => Q i j) - 1| ≤ ε := by
  have hcol : norm2 (fun i => Q' i j) = 1 := by
    have : sqNorm (fun i => Q' i j) = 1 := by
      have := congrFun (congrFun h1 j) j
      rw [Matrix.mul_apply, Matrix.one_apply_eq] at this
      rw [← this]
      simp [sqNorm, sq]
    rw [norm2, this, Real.sqrt_one]
  have hd : norm2 (fun i => (Q - Q') i j) ≤ ε := (norm2_col_le _ _).trans h2
  have ha := norm2_add_le' (fun i => (Q - Q') i j) (fun i => Q' i j)
  have hb := norm2_add_le' (fun i => (Q' - Q) i j) (fun i => Q i j)
  have e1 : (fun i => (Q - Q') i j) + (fun i => Q' i j) = fun i => Q i j := by funext i; simp
  have e2 : (fun i => (Q' - Q) i j) + (fun i => Q i j) = fun i => Q' i j := by funext i; simp
  have e3 : norm2 (fun i => (Q' - Q) i j) = norm2 (fun i => (Q - Q') i j) := by
    unfold norm2 sqNorm
    congr 1
    exact Finset.sum_congr rfl fun i _ => by simp only [Matrix.sub_apply]; ring
  rw [e1] at ha
  rw [e2, e3] at hb
  rw [abs_le]
  constructor <;> linarith

theorem round_step {fl : FlAlg} {N : ℕ} {ε θ q : ℝ} (hfl : fl.Accurate N ε) (hε : 0 ≤ ε) (hm : m ≤ N) (hn : n ≤ N)
    (hq1 : 1 ≤ q) (hθ : θ = 7 * (1 + q) * ε) (hθ1 : θ ≤ 1) {A : Matrix (Fin m) (Fin n) ℝ} {st : QB2St m n} (blk : ℕ)
    {out : Cols m} (hout1 : 1 ≤ min m out.c) (hout : out.c ≤ N) (hq : Real.sqrt (min m out.c : ℕ) + 1 ≤ q) (h : RoundInv A θ ε st) :
    RoundInv A θ ε (qb2UpdateFl fl blk st out) := by
  have hε1 : ε ≤ 1 := by nlinarith
  have hθ0 : 0 ≤ θ := by rw [hθ]; exact mul_nonneg (mul_nonneg (by norm_num) (by linarith)) hε
  have hεθ : 14 * ε ≤ θ := by rw [hθ]; nlinarith
  obtain ⟨W, hW⟩ : ∃ W, W = projectOutFl fl out.mat st.Q := ⟨_, rfl⟩
  obtain ⟨Q', hQ', hQ, -⟩ := hfl.qr W hm hout
  obtain ⟨Qi, hQi⟩ : ∃ Qi, Qi = (fl.qr W).1 := ⟨_, rfl⟩
  rw [← hQi] at hQ
  obtain ⟨Bi, hBi⟩ : ∃ Bi, Bi = fl.mul Qiᵀ st.A := ⟨_, rfl⟩
  obtain ⟨A', hA'⟩ : ∃ A', A' = fl.sub st.A (fl.mul Qi Bi) := ⟨_, rfl⟩
  have hb : min m out.c ≤ N := (min_le_left _ _).trans hm
  have hqn : fro Qi ≤ q := (fro_near_orth hQ' hQ).trans (by linarith)
  obtain ⟨g1, g2, g3, g4⟩ := round_block (A := st.A) (P := fl.mul Qi Bi) (A' := A') (B := Bi) hε hQ' hQ
    (by rw [hBi]; exact hfl.mul _ _ hb hm hn) (hfl.mul _ _ hm hb hn) (by rw [hA']; exact hfl.sub _ _ hm hn) hqn hθ hθ1
  have hs := sq_norm_round hfl hε hε1 Bi hb hn
  obtain ⟨s, hs'⟩ : ∃ s, s = fl.smul (fl.norm Bi) (fl.norm Bi) := ⟨_, rfl⟩
  rw [← hs'] at hs
  have hss := hfl.ssub st.sqn s
  obtain ⟨t, ht⟩ : ∃ t, t = st.calls.length := ⟨_, rfl⟩
  have hst : qb2UpdateFl fl blk st out = ⟨st.c + min m out.c, hcat st.Q Qi, vcat st.B Bi, A', fl.ssub st.sqn s, blk,
      st.calls ++ [⟨st.A, blk, out⟩]⟩ := by
    rw [hs', hA', hBi, hQi, hW]; rfl
  have hlen : (st.calls ++ [(⟨st.A, blk, out⟩ : RFCall m n)]).length = t + 1 := by simp [ht]
  obtain ⟨i1, i2, i3, i4, i5, i6⟩ := h
  rw [← ht] at i1 i2 i3 i5 i6
  have ha0 : 0 ≤ fro A := fro_nonneg A
  have hp : 1 ≤ (1 + θ) ^ t := one_le_pow₀ (by linarith)
  have hsqA : fro st.A ^ 2 ≤ (1 + 8 * θ) ^ (t + 1) * fro A ^ 2 := by
    have h1 : fro st.A ^ 2 ≤ ((1 + θ) ^ t * fro A) ^ 2 := pow_le_pow_left₀ (fro_nonneg _) i1 2
    have h2 : ((1 + θ) ^ t) ^ 2 ≤ (1 + 8 * θ) ^ (t + 1) := by
      rw [← pow_mul, mul_comm t 2, pow_mul]
      have h3 : (1 + θ) ^ 2 ≤ 1 + 8 * θ := by nlinarith
      calc ((1 + θ) ^ 2) ^ t ≤ (1 + 8 * θ) ^ t := pow_le_pow_left₀ (sq_nonneg _) h3 t
        _ ≤ (1 + 8 * θ) ^ (t + 1) := pow_le_pow_right₀ (by linarith) (Nat.le_succ t)
    rw [mul_pow] at h1
    exact h1.trans (mul_le_mul_of_nonneg_right h2 (sq_nonneg _))
  rw [hst]
  refine ⟨?_, ?_, ?_, ?_, ?_, ?_⟩
  · rw [hlen]
    change fro A' ≤ _
    calc fro A' ≤ (1 + θ) * fro st.A := g2
      _ ≤ (1 + θ) * ((1 + θ) ^ t * fro A) := mul_le_mul_of_nonneg_left i1 (by linarith)
      _ = _ := by ring
  · rw [hlen]
    change fro (A' - (A - hcat st.Q Qi * vcat st.B Bi)) ≤ _
    rw [hcat_mul_vcat]
    have h1 := fro_sub_le A' (st.A - Qi * Bi) (A - (st.Q * st.B + Qi * Bi))
    have e : st.A - Qi * Bi - (A - (st.Q * st.B + Qi * Bi)) = st.A - (A - st.Q * st.B) := by abel
    rw [e] at h1
    have h2 : θ * fro st.A ≤ θ * ((1 + θ) ^ t * fro A) := mul_le_mul_of_nonneg_left i1 hθ0
    have e2 : ((1 + θ) ^ (t + 1) - 1) * fro A = ((1 + θ) ^ t - 1) * fro A + θ * ((1 + θ) ^ t * fro A) := by ring
    linarith
  · rw [hlen]
    change |fl.ssub st.sqn s - fro A' ^ 2| ≤ _
    obtain ⟨a, ha⟩ : ∃ a, a = fro st.A := ⟨_, rfl⟩
    rw [← ha] at g3 g4 i1 i3
    have haa : 0 ≤ a := ha ▸ fro_nonneg _
    obtain ⟨e, he⟩ : ∃ e, e = |st.sqn - a ^ 2| := ⟨_, rfl⟩
    have hsn : |s| ≤ 16 * a ^ 2 := by
      have h1 : |s| ≤ |s - fro Bi ^ 2| + fro Bi ^ 2 := by
        have := abs_add_le (s - fro Bi ^ 2) (fro Bi ^ 2)
        rwa [sub_add_cancel, abs_of_nonneg (sq_nonneg (fro Bi))] at this
      have h2 : 7 * ε * fro Bi ^ 2 ≤ 7 * 1 * fro Bi ^ 2 :=
        mul_le_mul_of_nonneg_right (by linarith) (sq_nonneg _)
      linarith
    have hd : |st.sqn - s| ≤ e + 17 * a ^ 2 := by
      have h1 := abs_sub (st.sqn - a ^ 2) (s - a ^ 2)
      rw [sub_sub_sub_cancel_right] at h1
      have h2 := abs_sub s (a ^ 2)
      rw [abs_of_nonneg (sq_nonneg a)] at h2
      linarith
    have htot : |fl.ssub st.sqn s - fro A' ^ 2| ≤ ε * |st.sqn - s| + e + 7 * ε * fro Bi ^ 2 + 4 * θ * a ^ 2 := by
      have e1 : fl.ssub st.sqn s - fro A' ^ 2 = (fl.ssub st.sqn s - (st.sqn - s)) + (st.sqn - a ^ 2) - (s - fro Bi ^ 2) -
          (fro A' ^ 2 - (a ^ 2 - fro Bi ^ 2)) := by ring
      rw [e1]
      have h1 := abs_sub ((fl.ssub st.sqn s - (st.sqn - s)) + (st.sqn - a ^ 2) - (s - fro Bi ^ 2))
        (fro A' ^ 2 - (a ^ 2 - fro Bi ^ 2))
      have h2 := abs_sub ((fl.ssub st.sqn s - (st.sqn - s)) + (st.sqn - a ^ 2)) (s - fro Bi ^ 2)
      have h3 := abs_add_le (fl.ssub st.sqn s - (st.sqn - s)) (st.sqn - a ^ 2)
      linarith
    have hsq : a ^ 2 ≤ (1 + 8 * θ) ^ (t + 1) * fro A ^ 2 := ha ▸ hsqA
    have he0 : 0 ≤ e := he ▸ abs_nonneg _
    have h1 : ε * |st.sqn - s| ≤ ε * (e + 17 * a ^ 2) := mul_le_mul_of_nonneg_left hd hε
    have h2 : 7 * ε * fro Bi ^ 2 ≤ 7 * ε * (2 * a ^ 2) := mul_le_mul_of_nonneg_left g3 (by linarith)
    have h3 : |fl.ssub st.sqn s - fro A' ^ 2| ≤ (1 + θ) * e + 7 * θ * a ^ 2 := by
      have k1 : ε * e ≤ θ * e := mul_le_mul_of_nonneg_right (by linarith) he0
      have k2 : 31 * ε * a ^ 2 ≤ 3 * θ * a ^ 2 := mul_le_mul_of_nonneg_right (by linarith) (sq_nonneg _)
      linarith
    refine h3.trans ?_
    have h4 : (1 + θ) * e ≤ (1 + θ) * (((1 + 8 * θ) ^ (t + 1) - 1) * fro A ^ 2) :=
      mul_le_mul_of_nonneg_left (he ▸ i3) (by linarith)
    have h5 : 7 * θ * a ^ 2 ≤ 7 * θ * ((1 + 8 * θ) ^ (t + 1) * fro A ^ 2) :=
      mul_le_mul_of_nonneg_left hsq (by linarith)
    have e3 : ((1 + 8 * θ) ^ (t + 1 + 1) - 1) * fro A ^ 2 = (1 + θ) * (((1 + 8 * θ) ^ (t + 1) - 1) * fro A ^ 2) +
        7 * θ * ((1 + 8 * θ) ^ (t + 1) * fro A ^ 2) + θ * fro A ^ 2 := by ring
    linarith [mul_nonneg hθ0 (sq_nonneg (fro A))]
  · intro j
    change |norm2 (fun i => hcat st.Q Qi i j) - 1| ≤ ε
    refine Fin.addCases (fun j => ?_) (fun j => ?_) j
    · have : (fun i => hcat st.Q Qi i (Fin.castAdd _ j)) = fun i => st.Q i j := by funext i; simp
      rw [this]; exact i4 j
    · have : (fun i => hcat st.Q Qi i (Fin.natAdd _ j)) = fun i => Qi i j := by funext i; simp
      rw [this]
      exact col_near_orth hQ' hQ j
  · rw [hlen]
    change t + 1 ≤ st.c + min m out.c
    omega
  · rw [hlen]
    change |fro A' ^ 2 + fro (vcat st.B Bi) ^ 2 - fro A ^ 2| ≤ _
    have hv : fro (vcat st.B Bi) ^ 2 = fro st.B ^ 2 + fro Bi ^ 2 := by
      rw [fro_sq, fro_sq, fro_sq, froSq_vcat]
    have e1 : fro A' ^ 2 + fro (vcat st.B Bi) ^ 2 - fro A ^ 2 = (fro A' ^ 2 - (fro st.A ^ 2 - fro Bi ^ 2)) +
        (fro st.A ^ 2 + fro st.B ^ 2 - fro A ^ 2) := by rw [hv]; ring
    rw [e1]
    refine (abs_add_le _ _).trans ?_
    have h1 : 4 * θ * fro st.A ^ 2 ≤ 4 * θ * ((1 + 8 * θ) ^ (t + 1) * fro A ^ 2) :=
      mul_le_mul_of_nonneg_left hsqA (by linarith)
    have e3 : ((1 + 8 * θ) ^ (t + 1 + 1) - 1) * fro A ^ 2 = ((1 + 8 * θ) ^ (t + 1) - 1) * fro A ^ 2 +
        8 * θ * ((1 + 8 * θ) ^ (t + 1) * fro A ^ 2) := by ring
    have h2 : 0 ≤ θ * ((1 + 8 * θ) ^ (t + 1) * fro A ^ 2) := by positivity
    linarith

theorem qb2LoopFl_cols {fl : FlAlg} {rf : RangeFinder G} {k : ℕ} {useTol : Prop} {ast : ℝ} (fuel : ℕ) :
    ∀ (st st' : QB2St m n) (w w' : World G), qb2LoopFl fl rf k useTol ast fuel st w = .ok (st', w') → st.c ≤ st'.c := by
  induction fuel with
  | zero => intro st st' w w' h; cases h
  | succ fuel ih =>
    intro st st' w w' h
    unfold qb2LoopFl at h
    rw [Py.bind_ok_iff] at h
    obtain ⟨out, wd, hd, h⟩ := h
    obtain ⟨v, h1, rfl⟩ := qb2Draw_ok_iff.1 hd
    have hc : st.c ≤ (qb2UpdateFl fl (qb2Blk k st.c st.blk) st out).c := Nat.le_add_right _ _
    split_ifs at h with h2 h3
    · cases h; exact hc
    · cases h; exact hc
    · exact hc.trans (ih _ _ _ _ h)

theorem qb2LoopFl_inv {fl : FlAlg} {N : ℕ} {ε θ q : ℝ} (hfl : fl.Accurate N ε) (hε : 0 ≤ ε) (hm : m ≤ N) (hn : n ≤ N)
    (hq1 : 1 ≤ q) (hθ : θ = 7 * (1 + q) * ε) (hθ1 : θ ≤ 1) {A : Matrix (Fin m) (Fin n) ℝ} {rf : RangeFinder G}
    (hrf : ∀ A k tol w out w', rf m n A k tol w = .ok (out, w') → 1 ≤ min m out.c ∧ out.c ≤ N) {k : ℕ} {useTol : Prop} {ast : ℝ} (fuel : ℕ) :
    ∀ (st st' : QB2St m n) (w w' : World G), RoundInv A θ ε st →
      qb2LoopFl fl rf k useTol ast fuel st w = .ok (st', w') → Real.sqrt st'.c + 1 ≤ q →
      RoundInv A θ ε st' ∧ (useTol ∧ st'.sqn ≤ ast ∨ k ≤ st'.c) := by
  induction fuel with
  | zero => intro st st' w w' _ h; cases h
  | succ fuel ih =>
    intro st st' w w' hi h hq
    unfold qb2LoopFl at h
    rw [Py.bind_ok_iff] at h
    obtain ⟨out, wd, hd, h⟩ := h
    obtain ⟨v, h1, rfl⟩ := qb2Draw_ok_iff.1 hd
    obtain ⟨st1, hst1⟩ : ∃ st1, st1 = qb2UpdateFl fl (qb2Blk k st.c st.blk) st out := ⟨_, rfl⟩
    have hc : st1.c = st.c + min m out.c := by rw [hst1]; rfl
    have step : st1.c ≤ st'.c → RoundInv A θ ε st1 := fun hle => by
      rw [hst1]
      refine round_step hfl hε hm hn hq1 hθ hθ1 _ (hrf _ _ _ _ _ _ h1).1 (hrf _ _ _ _ _ _ h1).2 (le_trans ?_ hq) hi
      have : ((min m out.c : ℕ) : ℝ) ≤ (st'.c : ℝ) := by exact_mod_cast (by omega)
      linarith [Real.sqrt_le_sqrt this]
    rw [← hst1] at h
    split_ifs at h with h2 h3
    · cases h; exact ⟨step le_rfl, Or.inl h2⟩
    · cases h; exact ⟨step le_rfl, Or.inr h3⟩
    · exact ih _ _ _ _ (step (qb2LoopFl_cols _ _ _ _ _ h)) h hq

/-- the residual bound promised for a requested tolerance: `θ` measures the rounding errors of one block, `c` the number of
columns -/
noncomputable def roundBound (θ : ℝ) (c : ℕ) (t : ℝ) : ℝ :=
  Real.sqrt ((1 + 3 * θ) * t ^ 2 + ((1 + 8 * θ) ^ (c + 1) - 1)) + ((1 + θ) ^ c - 1)

/-- **C81** (blocked QB with rounding errors): whatever the rangefinder returns (arrays with at least one and at most `N`
columns), `QB2` with operations accurate to `ε` returns `Q, B` such that, `c` being the number of columns and
`θ = 7 (2 + √c) ε ≤ 1`:

* the columns of `Q` have norm within `ε` of one;
* `A - Q B` has at most the norm of `A`, up to rounding;
* `B` has at most the norm of `A`, up to rounding;
* the caller's array, if it is overwritten, ends up as `A - Q B` up to rounding;
* if the routine stopped before its target rank because of `tol`, then `‖A - Q B‖ ≤ roundBound θ c tol * ‖A‖`.

No orthogonality between blocks is needed for any of this. -/
theorem C81_qb2 {fl : FlAlg} {N : ℕ} {ε : ℝ} (hfl : fl.Accurate N ε) (hε : 0 ≤ ε) (hm : m ≤ N) (hn : n ≤ N)
    (rf : RangeFinder G)
    (hrf : ∀ A k tol w out w', rf m n A k tol w = .ok (out, w') → 1 ≤ min m out.c ∧ out.c ≤ N) (blk : ℕ) (o : Bool)
    (A : Matrix (Fin m) (Fin n) ℝ) (k : ℤ) (tol : Tol) (w w' : World G) (out : QBOut m n) (A' : Matrix (Fin m) (Fin n) ℝ)
    (h : qb2CallFl fl rf blk o A k tol w = .ok ((out, A'), w')) (θ : ℝ) (hθ : θ = 7 * (2 + Real.sqrt out.c) * ε)
    (hθ1 : θ ≤ 1) :
    (∀ j, |norm2 (fun i => out.Q i j) - 1| ≤ ε) ∧
    fro (A - out.Q * out.B) ≤ (2 * (1 + θ) ^ out.c - 1) * fro A ∧
    (if o then fro (A' - (A - out.Q * out.B)) ≤ ((1 + θ) ^ out.c - 1) * fro A else A' = A) ∧
    fro out.B ^ 2 ≤ (1 + 8 * θ) ^ (out.c + 1) * fro A ^ 2 ∧
    ∀ t, tol = .val t → 0 < t → (out.c : ℤ) < min k (min m n : ℕ) →
      fro (A - out.Q * out.B) ≤ roundBound θ out.c t * fro A := by
  have hs0 : 0 ≤ Real.sqrt out.c := Real.sqrt_nonneg _
  have hθ0 : 0 ≤ θ := by rw [hθ]; exact mul_nonneg (mul_nonneg (by norm_num) (by linarith)) hε
  have hεθ : 14 * ε ≤ θ := by rw [hθ]; nlinarith
  have hε1 : ε ≤ 1 := by linarith
  unfold qb2CallFl at h
  rw [Py.bind_ok_iff] at h
  obtain ⟨st, v, h1, h⟩ := h
  have hout : out = ⟨st.c, st.Q, st.B⟩ := by cases h; rfl
  have hA' : A' = if o then st.A else A := by cases h; rfl
  subst hout
  change θ = 7 * (2 + Real.sqrt st.c) * ε at hθ
  clear h
  unfold qb2RunFl at h1
  rw [Py.bind_ok_iff] at h1
  obtain ⟨-, v1, -, h1⟩ := h1
  rw [Py.bind_ok_iff] at h1
  obtain ⟨k', v2, hk', h1⟩ := h1
  rw [Py.bind_ok_iff] at h1
  obtain ⟨-, v3, -, h1⟩ := h1
  have hkk : k' = min k (min m n : ℕ) := by
    split_ifs at hk' with hc
    · cases hk'; omega
    · rw [Py.bind_ok_iff] at hk'
      obtain ⟨-, v4, -, hk'⟩ := hk'
      cases hk'; omega
  have hinit : RoundInv A θ ε (qb2InitFl fl A blk) := by
    refine ⟨?_, ?_, ?_, fun j => j.elim0, le_rfl, ?_⟩
    · change fro A ≤ (1 + θ) ^ 0 * fro A
      simp
    · change fro (A - (A - (0 : Matrix (Fin m) (Fin 0) ℝ) * (0 : Matrix (Fin 0) (Fin n) ℝ))) ≤ ((1 + θ) ^ 0 - 1) * fro A
      simp [fro, froSq]
    · change |fl.smul (fl.norm A) (fl.norm A) - fro A ^ 2| ≤ ((1 + 8 * θ) ^ (0 + 1) - 1) * fro A ^ 2
      refine (sq_norm_round hfl hε hε1 A hm hn).trans ?_
      refine mul_le_mul_of_nonneg_right ?_ (sq_nonneg _)
      rw [zero_add, pow_one]
      linarith
    · change |fro A ^ 2 + fro (0 : Matrix (Fin 0) (Fin n) ℝ) ^ 2 - fro A ^ 2| ≤ ((1 + 8 * θ) ^ (0 + 1) - 1) * fro A ^ 2
      rw [fro_sq (0 : Matrix (Fin 0) (Fin n) ℝ), froSq_zero, add_zero, sub_self, abs_zero]
      exact mul_nonneg (by rw [zero_add, pow_one]; linarith) (sq_nonneg _)
  obtain ⟨⟨i1, i2, -, i4, i5, i6⟩, -⟩ := qb2LoopFl_inv hfl hε hm hn (q := Real.sqrt st.c + 1) (by linarith) (by rw [hθ]; ring) hθ1
    hrf _ _ _ _ _ hinit h1 le_rfl
  obtain ⟨⟨-, -, i3, -, -, -⟩, hstop⟩ := qb2LoopFl_inv hfl hε hm hn (q := Real.sqrt st.c + 1) (by linarith) (by rw [hθ]; ring) hθ1
    hrf _ _ _ _ _ hinit h1 le_rfl
  obtain ⟨a, ha⟩ : ∃ a, a = fro A := ⟨_, rfl⟩
  have ha0 : 0 ≤ a := ha ▸ fro_nonneg _
  rw [← ha] at i1 i2 i3 i6 ⊢
  have hpow : (1 + θ) ^ st.calls.length ≤ (1 + θ) ^ st.c := pow_le_pow_right₀ (by linarith) i5
  have hpow8 : (1 + 8 * θ) ^ (st.calls.length + 1) ≤ (1 + 8 * θ) ^ (st.c + 1) :=
    pow_le_pow_right₀ (by linarith) (by omega)
  have j2 : fro (st.A - (A - st.Q * st.B)) ≤ ((1 + θ) ^ st.c - 1) * a :=
    i2.trans (mul_le_mul_of_nonneg_right (by linarith) ha0)
  have j1 : fro st.A ≤ (1 + θ) ^ st.c * a := i1.trans (mul_le_mul_of_nonneg_right hpow ha0)
  have hres : fro (A - st.Q * st.B) ≤ ((1 + θ) ^ st.c - 1) * a + fro st.A := by
    have := fro_le_add (A - st.Q * st.B) st.A
    rw [fro_sub_comm (A - st.Q * st.B) st.A] at this
    linarith
  refine ⟨i4, ?_, ?_, ?_, ?_⟩
  · change fro (A - st.Q * st.B) ≤ (2 * (1 + θ) ^ st.c - 1) * a
    linarith
  · rw [hA']
    cases o with
    | true => exact j2
    | false => rfl
  · change fro st.B ^ 2 ≤ (1 + 8 * θ) ^ (st.c + 1) * a ^ 2
    have h1 := (abs_le.1 i6).2
    have h2 : ((1 + 8 * θ) ^ (st.calls.length + 1)) * a ^ 2 ≤ ((1 + 8 * θ) ^ (st.c + 1)) * a ^ 2 :=
      mul_le_mul_of_nonneg_right hpow8 (sq_nonneg _)
    linarith [sq_nonneg (fro st.A)]
  · rintro t rfl ht hc
    change (st.c : ℤ) < min k (min m n : ℕ) at hc
    change fro (A - st.Q * st.B) ≤ roundBound θ st.c t * a
    have hs : st.sqn ≤ absSqTolFl fl (.val t) A := by
      rcases hstop with hs | hs
      · exact hs.2
      · exfalso; rw [hkk] at hs; omega
    -- the threshold
    have hth : absSqTolFl fl (.val t) A ≤ (1 + 3 * θ) * t ^ 2 * a ^ 2 := by
      change fl.smul (fl.smul (fl.norm A) (fl.norm A)) (fl.smul t t) ≤ _
      have h1 := sq_norm_round hfl hε hε1 A hm hn
      have h2 := hfl.smul t t
      obtain ⟨x, hx⟩ : ∃ x, x = fl.smul (fl.norm A) (fl.norm A) := ⟨_, rfl⟩
      obtain ⟨y, hy⟩ : ∃ y, y = fl.smul t t := ⟨_, rfl⟩
      have h3 := hfl.smul x y
      rw [← hx, ← ha] at h1
      rw [← hy, ← sq, abs_of_nonneg (sq_nonneg t)] at h2
      rw [← hx, ← hy]
      have hx1 : |x| ≤ (1 + 7 * ε) * a ^ 2 := by
        have := abs_add_le (x - a ^ 2) (a ^ 2)
        rw [sub_add_cancel, abs_of_nonneg (sq_nonneg a)] at this
        linarith
      have hy1 : |y| ≤ (1 + ε) * t ^ 2 := by
        have := abs_add_le (y - t ^ 2) (t ^ 2)
        rw [sub_add_cancel, abs_of_nonneg (sq_nonneg t)] at this
        linarith
      have hxy : |x * y| ≤ (1 + 7 * ε) * a ^ 2 * ((1 + ε) * t ^ 2) := by
        rw [abs_mul]
        exact mul_le_mul hx1 hy1 (abs_nonneg _) (mul_nonneg (by linarith) (sq_nonneg _))
      have h4 : fl.smul x y ≤ (1 + ε) * |x * y| := by
        have := (abs_le.1 h3).2
        linarith [le_abs_self (x * y)]
      have hat : 0 ≤ a ^ 2 * t ^ 2 := mul_nonneg (sq_nonneg _) (sq_nonneg _)
      calc fl.smul x y ≤ (1 + ε) * |x * y| := h4
        _ ≤ (1 + ε) * ((1 + 7 * ε) * a ^ 2 * ((1 + ε) * t ^ 2)) := mul_le_mul_of_nonneg_left hxy (by linarith)
        _ = ((1 + ε) * (1 + 7 * ε) * (1 + ε)) * (a ^ 2 * t ^ 2) := by ring
        _ ≤ (1 + 3 * θ) * (a ^ 2 * t ^ 2) := by
          refine mul_le_mul_of_nonneg_right ?_ hat
          have e2 : ε ^ 2 ≤ ε := by nlinarith
          have e3 : ε ^ 3 ≤ ε := by nlinarith
          nlinarith
        _ = _ := by ring
    have hA2 : fro st.A ^ 2 ≤ ((1 + 3 * θ) * t ^ 2 + ((1 + 8 * θ) ^ (st.c + 1) - 1)) * a ^ 2 := by
      have h1 := (abs_le.1 i3).1
      have h2 : ((1 + 8 * θ) ^ (st.calls.length + 1) - 1) * a ^ 2 ≤ ((1 + 8 * θ) ^ (st.c + 1) - 1) * a ^ 2 :=
        mul_le_mul_of_nonneg_right (by linarith) (sq_nonneg _)
      linarith
    have hin : 0 ≤ (1 + 3 * θ) * t ^ 2 + ((1 + 8 * θ) ^ (st.c + 1) - 1) := by
      have : (1 : ℝ) ≤ (1 + 8 * θ) ^ (st.c + 1) := one_le_pow₀ (by linarith)
      have := mul_nonneg (by linarith : 0 ≤ 1 + 3 * θ) (sq_nonneg t)
      linarith
    have hA1 : fro st.A ≤ Real.sqrt ((1 + 3 * θ) * t ^ 2 + ((1 + 8 * θ) ^ (st.c + 1) - 1)) * a := by
      rw [← Real.sqrt_sq (fro_nonneg st.A), ← Real.sqrt_sq ha0, ← Real.sqrt_mul hin]
      exact Real.sqrt_le_sqrt hA2
    unfold roundBound
    linarith

/-! ### `qb_b` -/

theorem maybeStabFl_width {fl : FlAlg} {pps done r : ℕ} {S S' : Cols r} {w w' : World G} {k : ℕ} (hr : 1 ≤ r)
    (h : maybeStab (orthFl fl) pps done S w = .ok (S', w')) (hS : 1 ≤ S.c ∧ S.c ≤ k) : 1 ≤ S'.c ∧ S'.c ≤ k := by
  unfold maybeStab at h
  split_ifs at h with h1 h2
  · cases h
  · cases h
    change 1 ≤ min r S.c ∧ min r S.c ≤ k
    omega
  · cases h; exact hS

theorem rs1LoopFl_width {fl : FlAlg} {pps : ℕ} {A : Matrix (Fin m) (Fin n) ℝ} {k : ℕ} (hm : 1 ≤ m) (hn : 1 ≤ n) (q : ℕ) :
    ∀ (done : ℕ) (S S' : Cols n) (w w' : World G), rs1LoopFl fl (orthFl fl) pps A q done S w = .ok (S', w') →
      1 ≤ S.c ∧ S.c ≤ k → 1 ≤ S'.c ∧ S'.c ≤ k := by
  induction q with
  | zero => intro done S S' w w' h hS; cases h; exact hS
  | succ q ih =>
    intro done S S' w w' h hS
    unfold rs1LoopFl at h
    rw [Py.bind_ok_iff] at h
    obtain ⟨Y, v1, h1, h⟩ := h
    rw [Py.bind_ok_iff] at h
    obtain ⟨Y2, v2, h2, h⟩ := h
    rw [Py.bind_ok_iff] at h
    obtain ⟨Z, v3, h3, h⟩ := h
    rw [Py.bind_ok_iff] at h
    obtain ⟨Z2, v4, h4, h⟩ := h
    have c1 : Y.c = S.c := by cases h1; rfl
    have c3 : Z.c = Y2.c := by cases h3; rfl
    have k2 := maybeStabFl_width (k := k) hm h2 (by omega)
    exact ih _ _ _ _ _ h (maybeStabFl_width hn h4 (by omega))

theorem RS1Fl_width {fl : FlAlg} {gen : SkOpGen G} {p : ℤ} {pps : ℕ} {A : Matrix (Fin m) (Fin n) ℝ} {k : ℕ} (hm : 1 ≤ m)
    (hn : 1 ≤ n) (hk : 1 ≤ k) {S : Cols n} {w w' : World G} (h : RS1Fl fl gen p (orthFl fl) pps m n A k w = .ok (S, w')) :
    1 ≤ S.c ∧ S.c ≤ k := by
  unfold RS1Fl rs1CallFl at h
  rw [Py.bind_ok_iff] at h
  obtain ⟨-, v, -, h⟩ := h
  split_ifs at h with hp
  · rw [Py.bind_ok_iff] at h
    obtain ⟨S0, v1, -, h⟩ := h
    exact rs1LoopFl_width hm hn _ _ _ _ _ _ h ⟨hk, le_rfl⟩
  all_goals
    rw [Py.bind_ok_iff] at h
    obtain ⟨S0, v1, -, h⟩ := h
    rw [Py.bind_ok_iff] at h
    obtain ⟨S1, v2, h1, h⟩ := h
    have c1 : S1.c = k := by cases h1; rfl
    rw [Py.bind_ok_iff] at h
    obtain ⟨S2, v3, h2, h⟩ := h
    refine rs1LoopFl_width hm hn _ _ _ _ _ _ h ?_
    cases h2
    first
    | (change 1 ≤ min n S1.c ∧ min n S1.c ≤ k; omega)
    | (change 1 ≤ S1.c ∧ S1.c ≤ k; omega)

/-- what `RF1` does -/
theorem RF1Fl_open {fl : FlAlg} {rso : RowSketcher G} {A : Matrix (Fin m) (Fin n) ℝ} {k : ℤ} {tol : Tol} {Q : Cols m}
    {w w' : World G} (h : RF1Fl fl rso m n A k tol w = .ok (Q, w')) :
    0 < k ∧ k ≤ (min m n : ℕ) ∧ ∃ (S : Cols n) (v v' : World G), v.rng = w.rng ∧ v'.rng = w'.rng ∧
      rso m n A k.toNat v = .ok (S, v') ∧ Q = ⟨_, (fl.qr (fl.mul A S.mat)).1⟩ := by
  unfold RF1Fl rf1CallFl at h
  by_cases h1 : k > 0
  swap
  · rw [Py.assert_neg_bind h1] at h; cases h
  by_cases h2 : k ≤ (min m n : ℕ)
  swap
  · rw [Py.assert_pos_bind h1, Py.assert_neg_bind h2] at h; cases h
  rw [Py.assert_pos_bind h1, Py.assert_pos_bind h2] at h
  have key : ∀ v : World G, v.rng = w.rng → (do
      let S ← rso m n A k.toNat
      let Y ← passAFl fl A S
      pure ⟨_, (fl.qr Y.mat).1⟩ : Py G (Cols m)) v = .ok (Q, w') →
      ∃ (S : Cols n) (v v' : World G), v.rng = w.rng ∧ v'.rng = w'.rng ∧
      rso m n A k.toNat v = .ok (S, v') ∧ Q = ⟨_, (fl.qr (fl.mul A S.mat)).1⟩ := fun v hv h => by
    rw [Py.bind_ok_iff] at h
    obtain ⟨S, v1, hS, h⟩ := h
    rw [Py.bind_ok_iff] at h
    obtain ⟨Y, v2, hY, h⟩ := h
    refine ⟨S, v, v1, hv, ?_, hS, ?_⟩
    · cases hY; cases h; rfl
    · cases hY; cases h; rfl
  refine ⟨h1, h2, ?_⟩
  dsimp only at h
  split_ifs at h with h3
  · exact key w rfl h
  · rw [Py.bind_ok_iff] at h
    obtain ⟨_, v, hv, h⟩ := h
    exact key v (by cases hv; rfl) h

/-- **C81** (`qb_b` with rounding errors): `C81_qb2` for the routine users call. -/
theorem C81_qb_b {fl : FlAlg} {N : ℕ} {ε : ℝ} (hfl : fl.Accurate N ε) (hε : 0 ≤ ε) (hm : m ≤ N) (hn : n ≤ N)
    (gen : SkOpGen G) (p : ℤ) (blk : ℕ) (o : Bool) (A : Matrix (Fin m) (Fin n) ℝ) (k : ℤ) (tol : Tol) (w w' : World G)
    (out : QBOut m n) (A' : Matrix (Fin m) (Fin n) ℝ) (h : qbBFl fl gen p blk o A k tol w = .ok ((out, A'), w')) (θ : ℝ)
    (hθ : θ = 7 * (2 + Real.sqrt out.c) * ε) (hθ1 : θ ≤ 1) :
    (∀ j, |norm2 (fun i => out.Q i j) - 1| ≤ ε) ∧
    fro (A - out.Q * out.B) ≤ (2 * (1 + θ) ^ out.c - 1) * fro A ∧
    (if o then fro (A' - (A - out.Q * out.B)) ≤ ((1 + θ) ^ out.c - 1) * fro A else A' = A) ∧
    fro out.B ^ 2 ≤ (1 + 8 * θ) ^ (out.c + 1) * fro A ^ 2 ∧
    ∀ t, tol = .val t → 0 < t → (out.c : ℤ) < min k (min m n : ℕ) →
      fro (A - out.Q * out.B) ≤ roundBound θ out.c t * fro A := by
  refine C81_qb2 hfl hε hm hn _ (fun A k tol w Q w' hQ => ?_) blk o A k tol w w' out A' h θ hθ hθ1
  obtain ⟨h1, h2, S, v, v', -, -, hS, rfl⟩ := RF1Fl_open hQ
  have := RS1Fl_width (by omega) (by omega) (by omega) hS
  change 1 ≤ min m (min m S.c) ∧ min m S.c ≤ N
  omega

/-- **C81** (the promise in plain terms): once the accumulated rounding `x = (c+1) θ` is at most `1/8`, a tolerance `t` is
honoured up to `2 θ t + 5 √x`. -/
theorem C81_bound (θ : ℝ) (hθ : 0 ≤ θ) (c : ℕ) (t : ℝ) (ht : 0 ≤ t) (x : ℝ) (hx : x = (c + 1) * θ) (hx1 : x ≤ 1 / 8) :
    roundBound θ c t ≤ (1 + 2 * θ) * t + 5 * Real.sqrt x := by
  have hx0 : 0 ≤ x := by rw [hx]; exact mul_nonneg (by positivity) hθ
  have pw : ∀ (y : ℝ) (j : ℕ), 0 ≤ y → (1 + y) ^ j ≤ Real.exp (j * y) := fun y j hy => by
    have h1 : 1 + y ≤ Real.exp y := by linarith [Real.add_one_le_exp y]
    calc (1 + y) ^ j ≤ Real.exp y ^ j := pow_le_pow_left₀ (by linarith) h1 j
      _ = Real.exp (j * y) := by rw [Real.exp_nat_mul]
  have ex : ∀ y : ℝ, 0 ≤ y → y ≤ 1 → Real.exp y - 1 ≤ 2 * y := fun y h0 h1 => by
    have := Real.abs_exp_sub_one_le (x := y) (by rw [abs_of_nonneg h0]; exact h1)
    rw [abs_of_nonneg h0] at this
    exact (le_abs_self _).trans this
  have h8 : (1 + 8 * θ) ^ (c + 1) - 1 ≤ 16 * x := by
    have h1 := pw (8 * θ) (c + 1) (by linarith)
    have e : ((c + 1 : ℕ) : ℝ) * (8 * θ) = 8 * x := by rw [hx]; push_cast; ring
    rw [e] at h1
    have := ex (8 * x) (by linarith) (by linarith)
    linarith
  have h1 : (1 + θ) ^ c - 1 ≤ 2 * x := by
    have h1 := pw θ c hθ
    have h2 : (c : ℝ) * θ ≤ x := by rw [hx]; nlinarith
    have := ex (c * θ) (mul_nonneg (by positivity) hθ) (by linarith)
    linarith
  have hs : 2 * x ≤ Real.sqrt x := by
    refine Real.le_sqrt_of_sq_le ?_
    nlinarith
  have hr : Real.sqrt ((1 + 3 * θ) * t ^ 2 + ((1 + 8 * θ) ^ (c + 1) - 1)) ≤ (1 + 2 * θ) * t + 4 * Real.sqrt x := by
    have hpos : 0 ≤ (1 + 2 * θ) * t + 4 * Real.sqrt x :=
      add_nonneg (mul_nonneg (by linarith) ht) (mul_nonneg (by norm_num) (Real.sqrt_nonneg _))
    rw [Real.sqrt_le_left hpos]
    have e : ((1 + 2 * θ) * t + 4 * Real.sqrt x) ^ 2 =
        (1 + 2 * θ) ^ 2 * t ^ 2 + 8 * ((1 + 2 * θ) * t * Real.sqrt x) + 16 * x := by
      have := Real.sq_sqrt hx0
      ring_nf
      ring_nf at this
      rw [this]
    rw [e]
    have h2 : (1 + 3 * θ) * t ^ 2 ≤ (1 + 2 * θ) ^ 2 * t ^ 2 := mul_le_mul_of_nonneg_right (by nlinarith) (sq_nonneg _)
    have h3 : 0 ≤ (1 + 2 * θ) * t * Real.sqrt x :=
      mul_nonneg (mul_nonneg (by linarith) ht) (Real.sqrt_nonneg _)
    linarith
  unfold roundBound
  linarith

/-! ### `qb` -/

/-- **C81** (single QB with rounding errors): `QB1(RF1(rso))` with operations accurate to `ε` returns a nearly orthonormal `Q`,
and a `Q B` whose error is, up to `θ ‖A‖`, at most `‖A - A S X‖ + 3 ε ‖A‖ ‖S‖ ‖X‖` for every `X`, where `S` is the sketching
matrix that `rso` returned. -/
theorem C81_qb1 {fl : FlAlg} {N : ℕ} {ε : ℝ} (hfl : fl.Accurate N ε) (hε : 0 ≤ ε) (hm : m ≤ N) (hn : n ≤ N)
    (rso : RowSketcher G) (A : Matrix (Fin m) (Fin n) ℝ) (k : ℤ) (tol : Tol) (w w' : World G) (out : QBOut m n)
    (h : qb1CallFl fl (RF1Fl fl rso) A k tol w = .ok (out, w')) (θ : ℝ) (hθ : θ = 3 * (2 + Real.sqrt out.c) * ε)
    (hθ1 : θ ≤ 1) :
    0 < k ∧ k ≤ (min m n : ℕ) ∧ ∃ (S : Cols n) (v v' : World G), v.rng = w.rng ∧ v'.rng = w'.rng ∧
      rso m n A k.toNat v = .ok (S, v') ∧ out.c = min m S.c ∧ (S.c ≤ N →
      fro (out.Qᵀ * out.Q - 1) ≤ 3 * ε ∧
      ∀ X, fro (A - out.Q * out.B) ≤ fro (A - A * S.mat * X) + 3 * ε * fro A * fro S.mat * fro X + θ * fro A) := by
  unfold qb1CallFl at h
  rw [Py.bind_ok_iff] at h
  obtain ⟨_, w1, h1, h⟩ := h
  rw [Py.bind_ok_iff] at h
  obtain ⟨_, w2, h2, h⟩ := h
  rw [Py.bind_ok_iff] at h
  obtain ⟨_, w3, h3, h⟩ := h
  rw [Py.bind_ok_iff] at h
  obtain ⟨Q, w4, h4, h⟩ := h
  rw [Py.bind_ok_iff] at h
  obtain ⟨_, w5, h5, h⟩ := h
  have r1 : w1.rng = w.rng := by
    unfold Py.assert at h1; split_ifs at h1 <;> cases h1; rfl
  have r2 : w2.rng = w1.rng := by
    unfold Py.assert at h2; split_ifs at h2 <;> cases h2; rfl
  have r3 : w3.rng = w2.rng := by
    unfold assertTol at h3
    cases tol with
    | nan => cases h3; rfl
    | val t =>
      dsimp only at h3
      rw [Py.bind_ok_iff] at h3
      obtain ⟨_, u, g1, g2⟩ := h3
      unfold Py.assert at g1 g2
      split_ifs at g1 g2 <;> cases g1 <;> cases g2
      rfl
  have r5 : w5.rng = w4.rng := by cases h5; rfl
  have hout : out = ⟨Q.c, Q.mat, fl.mul Q.matᵀ A⟩ := by cases h; rfl
  have r6 : w' = w5 := by cases h; rfl
  obtain ⟨k1, k2, S, v, v', hv, hv', hS, rfl⟩ := RF1Fl_open h4
  refine ⟨k1, k2, S, v, v', by rw [hv, r3, r2, r1], by rw [hv', r6, r5], hS, by rw [hout], fun hSN => ?_⟩
  subst hout
  change θ = 3 * (2 + Real.sqrt (min m S.c : ℕ)) * ε at hθ
  obtain ⟨Q', hQ', hQ, hR⟩ := hfl.qr (fl.mul A S.mat) hm hSN
  have hs0 : 0 ≤ Real.sqrt (min m S.c : ℕ) := Real.sqrt_nonneg _
  have hε1 : ε ≤ 1 := by nlinarith
  refine ⟨?_, fun X => ?_⟩
  · refine (gram_near_orth hQ' hQ).trans ?_
    nlinarith
  · have hq := (fro_near_orth hQ' hQ).trans (by linarith : _ ≤ Real.sqrt (min m S.c : ℕ) + 1)
    have g1 := round_project hε hQ' hQ (hfl.mul (fl.qr (fl.mul A S.mat)).1ᵀ A ((min_le_left _ _).trans hm) hm hn) hq
      (by rw [hθ]; ring) hθ1
    have g2 := round_range hε hε1 hQ' (hfl.mul A S.mat hm hn hSN) hR X
    have g3 := fro_sub_le A (Q' * (Q'ᵀ * A)) ((fl.qr (fl.mul A S.mat)).1 * fl.mul (fl.qr (fl.mul A S.mat)).1ᵀ A)
    rw [fro_sub_comm (Q' * (Q'ᵀ * A))] at g3
    change fro (A - (fl.qr (fl.mul A S.mat)).1 * fl.mul (fl.qr (fl.mul A S.mat)).1ᵀ A) ≤ _
    linarith

/-- **C81** (`qb` with two passes and rounding errors): the exact-arithmetic error bound of Halko, Martinsson and Tropp, plus a
multiple of `ε ‖A‖` that depends on how well the drawn `S` is conditioned with respect to the leading right singular vectors
(`W` is any right inverse of `V_1' S`). -/
theorem C81_qb {fl : FlAlg} {N : ℕ} {ε : ℝ} (hfl : fl.Accurate N ε) (hε : 0 ≤ ε) (hm : m ≤ N) (hn : n ≤ N)
    (gen : SkOpGen G) (A : Matrix (Fin m) (Fin n) ℝ) (k : ℤ) (w w' : World G) (out : QBOut m n)
    (h : qbFl fl gen 2 A k w = .ok (out, w')) (θ : ℝ) (hθ : θ = 3 * (2 + Real.sqrt out.c) * ε) (hθ1 : θ ≤ 1) :
    ∃ (S : Matrix (Fin n) (Fin k.toNat) ℝ) (v v' : World G), v.rng = w.rng ∧ v'.rng = w'.rng ∧
      gen n k.toNat v = .ok (S, v') ∧ (out.c : ℤ) = k ∧ fro (out.Qᵀ * out.Q - 1) ≤ 3 * ε ∧
      ∀ (r t : ℕ) (U : Matrix (Fin m) (Fin r) ℝ) (s : Fin r → ℝ) (V : Matrix (Fin n) (Fin r) ℝ), IsSVD A U s V →
        ∀ (ht : t ≤ r) (W : Matrix (Fin k.toNat) (Fin t) ℝ), ((Vᵀ * S).submatrix (Fin.castLE ht) id) * W = 1 →
        fro (A - out.Q * out.B) ≤ Real.sqrt (tailSq s t + froSq (diagonal (tail s t) * (Vᵀ * S * W))) +
          (3 * ε * (fro S * fro W) + θ) * fro A := by
  obtain ⟨k1, k2, S, v, v', hv, hv', hS, hc, g⟩ := C81_qb1 hfl hε hm hn _ A k .nan w w' out h θ hθ hθ1
  have hS' : ∃ S0, S = ⟨k.toNat, S0⟩ ∧ gen n k.toNat v = .ok (S0, v') := by
    change rs1CallFl fl gen (2 - 2) (orthFl fl) 1 A k.toNat v = .ok (S, v') at hS
    unfold rs1CallFl at hS
    rw [Py.assert_pos_bind (by norm_num), if_pos (by norm_num), Py.bind_ok_iff] at hS
    obtain ⟨S0, v1, g1, g2⟩ := hS
    refine ⟨S0, ?_, ?_⟩
    · cases g2; rfl
    · cases g2; exact g1
  obtain ⟨S0, rfl, hgen⟩ := hS'
  change out.c = min m k.toNat at hc
  obtain ⟨g1, g2⟩ := g (by change k.toNat ≤ N; omega)
  refine ⟨S0, v, v', hv, hv', hgen, by omega, g1, fun r t U s V hsvd ht W hW => ?_⟩
  obtain ⟨X, hX1, hX2⟩ := sketch_resid hsvd ht S0 W hW
  have g3 := g2 X
  change fro (A - out.Q * out.B) ≤ fro (A - A * S0 * X) + 3 * ε * fro A * fro S0 * fro X + θ * fro A at g3
  have e : fro (A - A * S0 * X) = Real.sqrt (tailSq s t + froSq (diagonal (tail s t) * (Vᵀ * S0 * W))) := by
    rw [← hX2]; rfl
  rw [e, hX1] at g3
  linarith

end Parla.Props
