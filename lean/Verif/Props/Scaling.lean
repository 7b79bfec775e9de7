import Verif.Props.ChangeVars

/-! # C88: units of the right-hand sides

PCG tests residuals relative to the first one, so that PcSS1, SPS1 and SPS2 (with PcSS1) are exactly homogeneous in the
right-hand sides: on `a b`, `a c` they return `a x`, `a y` after the same number of iterations. -/

namespace Parla.Spec

/-- errors in other units -/
noncomputable def _root_.Parla.ErrLog.scale (a : ℝ) : ErrLog → ErrLog
  | .arr l => .arr (l.map (|a| * ·))
  | .scalar t => .scalar (|a| * t)

/-- a log whose errors are in other units; the times are the same -/
noncomputable def _root_.Parla.SPLog.scale (a : ℝ) (l : SPLog) : SPLog := ⟨l.times, l.errors.map (|a| * ·)⟩

end Parla.Spec

namespace Parla.Props

open Matrix Spec

variable {G : Type} {m n d r : ℕ}

noncomputable def _root_.Parla.PCGState.scale (a : ℝ) (s : PCGState n) : PCGState n :=
  ⟨a • s.x, a • s.r, s.d.map (a • ·), a ^ 2 * s.delta1, |a| * s.curErr, s.log.map (|a| * ·), s.i⟩

noncomputable def _root_.Parla.SaddleOut.scale (a : ℝ) (o : SaddleOut m n) : SaddleOut m n :=
  ⟨o.x.map (a • ·), a • o.y, o.errs.scale a⟩

theorem pcgStep_scale {a : ℝ} (ha : a ≠ 0) {mvMat mvPre : (Fin n → ℝ) → Fin n → ℝ}
    (h1 : ∀ v, mvMat (a • v) = a • mvMat v) (h2 : ∀ v, mvPre (a • v) = a • mvPre v) (rhs : Fin n → ℝ) (s : PCGState n) :
    pcgStep mvMat mvPre (a • rhs) (s.scale a) = (pcgStep mvMat mvPre rhs s).map (PCGState.scale a) := by
  unfold pcgStep
  cases hd : s.d with
  | none => simp only [PCGState.scale, hd, Option.map_none]; rfl
  | some d =>
    have hden : (a • d) ⬝ᵥ mvMat (a • d) = a ^ 2 * (d ⬝ᵥ mvMat d) := by
      rw [h1, smul_dotProduct, dotProduct_smul, smul_eq_mul, smul_eq_mul]; ring
    have ha2 : a ^ 2 ≠ 0 := pow_ne_zero 2 ha
    simp only [PCGState.scale, hd, Option.map_some, hden]
    by_cases h0 : d ⬝ᵥ mvMat d = 0
    · rw [if_pos h0, if_pos (by rw [h0, mul_zero])]; rfl
    · rw [if_neg h0, if_neg (mul_ne_zero ha2 h0), mul_div_mul_left _ _ ha2]
      simp only [Except.map]
      have hx : a • s.x + (s.delta1 / (d ⬝ᵥ mvMat d)) • a • d = a • (s.x + (s.delta1 / (d ⬝ᵥ mvMat d)) • d) := by
        rw [smul_add, smul_comm a]
      have hr : (if s.i % 10 = 0 then a • rhs - mvMat (a • (s.x + (s.delta1 / (d ⬝ᵥ mvMat d)) • d))
          else a • s.r - (s.delta1 / (d ⬝ᵥ mvMat d)) • mvMat (a • d)) =
          a • (if s.i % 10 = 0 then rhs - mvMat (s.x + (s.delta1 / (d ⬝ᵥ mvMat d)) • d)
          else s.r - (s.delta1 / (d ⬝ᵥ mvMat d)) • mvMat d) := by
        split
        · rw [h1, smul_sub]
        · rw [h1, smul_sub, smul_comm a]
      rw [hx, hr]
      obtain ⟨r, hr'⟩ : ∃ r, r = (if s.i % 10 = 0 then rhs - mvMat (s.x + (s.delta1 / (d ⬝ᵥ mvMat d)) • d)
          else s.r - (s.delta1 / (d ⬝ᵥ mvMat d)) • mvMat d) := ⟨_, rfl⟩
      rw [← hr']
      have hn : (a • r) ⬝ᵥ mvPre (a • r) = a ^ 2 * (r ⬝ᵥ mvPre r) := by
        rw [h2, smul_dotProduct, dotProduct_smul, smul_eq_mul, smul_eq_mul]; ring
      have hdel : (a ^ 2 * s.delta1 = 0) ↔ s.delta1 = 0 := by simp [ha]
      rw [hn, h2, norm2_smul]
      simp only [PCGState.scale, List.map_append, List.map_cons, List.map_nil]
      congr 2
      by_cases hz : s.delta1 = 0
      · rw [if_pos hz, if_pos (hdel.2 hz)]; rfl
      · rw [if_neg hz, if_neg fun e => hz (hdel.1 e), mul_div_mul_left _ _ ha2, Option.map_some, smul_add, smul_comm a]

theorem pcgLoop_scale {a : ℝ} (ha : a ≠ 0) {mvMat mvPre : (Fin n → ℝ) → Fin n → ℝ}
    (h1 : ∀ v, mvMat (a • v) = a • mvMat v) (h2 : ∀ v, mvPre (a • v) = a • mvPre v) (rhs : Fin n → ℝ) (t : ℝ) :
    ∀ (k : ℕ) (s : PCGState n), pcgLoop mvMat mvPre (a • rhs) (|a| * t) k (s.scale a) =
      (pcgLoop mvMat mvPre rhs t k s).map (PCGState.scale a) := by
  intro k
  induction k with
  | zero => intro s; rfl
  | succ k ih =>
    intro s
    have hap : 0 < |a| := abs_pos.2 ha
    have hlt : (s.scale a).curErr > |a| * t ↔ s.curErr > t := mul_lt_mul_iff_right₀ hap
    unfold pcgLoop
    by_cases hc : s.curErr > t
    · rw [if_pos hc, if_pos (hlt.2 hc), pcgStep_scale ha h1 h2]
      cases pcgStep mvMat mvPre rhs s with
      | error e => rfl
      | ok s' => exact ih s'
    · rw [if_neg hc, if_neg fun e => hc (hlt.1 e)]; rfl

/-- **C88** (pcg): exact homogeneity, and the same number of iterations. -/
theorem C88_pcg {a : ℝ} (ha : a ≠ 0) {mvMat mvPre : (Fin n → ℝ) → Fin n → ℝ}
    (h1 : ∀ v, mvMat (a • v) = a • mvMat v) (h2 : ∀ v, mvPre (a • v) = a • mvPre v) (rhs x0 : Fin n → ℝ) (L : ℤ) (tol : ℝ) :
    pcg mvMat (a • rhs) mvPre L tol (a • x0) = (pcg mvMat rhs mvPre L tol x0).map fun r => (a • r.1, r.2.map (|a| * ·)) := by
  unfold pcg
  by_cases hL : L < 0
  · rw [if_pos hL, if_pos hL]; rfl
  · rw [if_neg hL, if_neg hL]
    have hi : pcgInit mvMat mvPre (a • rhs) (a • x0) = (pcgInit mvMat mvPre rhs x0).scale a := by
      unfold pcgInit PCGState.scale
      have e : a • rhs - mvMat (a • x0) = a • (rhs - mvMat x0) := by rw [h1, smul_sub]
      simp only [e, h2, norm2_smul, smul_dotProduct, dotProduct_smul, smul_eq_mul, Option.map_some, List.map_nil]
      congr 1
      ring
    have ht : tol * ((pcgInit mvMat mvPre rhs x0).scale a).curErr = |a| * (tol * (pcgInit mvMat mvPre rhs x0).curErr) := by
      change tol * (|a| * _) = _; ring
    simp only [hi, ht, pcgLoop_scale ha h1 h2]
    cases pcgLoop mvMat mvPre rhs (tol * (pcgInit mvMat mvPre rhs x0).curErr) L.toNat (pcgInit mvMat mvPre rhs x0) <;> rfl

theorem normalRhs_scale (A : Matrix (Fin m) (Fin n) ℝ) (b : Fin m → ℝ) (c : Option (Fin n → ℝ)) (a : ℝ) :
    normalRhs A (a • b) (c.map (a • ·)) = a • normalRhs A b c := by
  cases c with
  | none => exact mulVec_smul _ _ _
  | some c => change Aᵀ *ᵥ (a • b) - a • c = _; rw [mulVec_smul, ← smul_sub]; rfl

/-- **C88** (PcSS1): exact homogeneity in the right-hand sides. -/
theorem C88_pcss1 {a : ℝ} (ha : a ≠ 0) (A : Matrix (Fin m) (Fin n) ℝ) (b : Fin m → ℝ) (c : Option (Fin n → ℝ))
    (δ tol : ℝ) (L : ℤ) (R : Matrix (Fin n) (Fin r) ℝ) (z : Option (Fin r → ℝ)) :
    pcss1 A (.vec (a • b)) (c.map (a • ·)) δ tol L (.gen r R) (z.map (a • ·)) =
      (pcss1 A (.vec b) c δ tol L (.gen r R) z).map (SaddleOut.scale a) := by
  change pcss1Core A (a • b) (c.map (a • ·)) δ tol L R (z.map (a • ·)) = (pcss1Core A b c δ tol L R z).map _
  unfold pcss1Core
  cases hp : pcss1Pre R δ with
  | error e => rfl
  | ok q =>
    obtain ⟨mv, R'⟩ := q
    have h2 : ∀ v, mv (a • v) = a • mv v := by
      intro v
      unfold pcss1Pre at hp
      split at hp
      · cases hp; simp only [mulVec_smul]
      · split at hp
        · cases hp; simp only [mulVec_smul, smul_add, smul_sub]
        · cases hp
    have h1 : ∀ v, mvGram A δ (a • v) = a • mvGram A δ v := by
      intro v
      unfold mvGram
      rw [mulVec_smul, mulVec_smul, smul_add, smul_comm a]
    have hs : pcss1Start R' (z.map (a • ·)) = a • pcss1Start R' z := by
      unfold pcss1Start
      split
      · cases z with
        | none => exact (smul_zero a).symm
        | some z => exact mulVec_smul _ _ _
      · exact (smul_zero a).symm
    simp only [normalRhs_scale, hs, C88_pcg ha h1 h2]
    cases pcg (mvGram A δ) (normalRhs A b c) mv L tol (pcss1Start R' z) with
    | error e => rfl
    | ok q =>
      simp only [Except.map, SaddleOut.scale, ErrLog.scale, Option.map_some, mulVec_smul, smul_sub]

theorem finishLog_scale (a : ℝ) (logging : Bool) (t : LogTimes) (e : ErrLog) (i : ℝ) :
    finishLog logging t (e.scale a) (|a| * i) = (finishLog logging t e i).map (Option.map (SPLog.scale a)) := by
  unfold finishLog
  cases logging with
  | false => rfl
  | true =>
    simp only [if_true]
    cases e with
    | scalar x => rfl
    | arr l =>
      simp only [wrapUp, ErrLog.scale, Except.map, List.length_map, Option.map_some, SPLog.scale, List.map_cons]

noncomputable def _root_.Parla.SPSOut.scale (a : ℝ) (o : SPSOut m n) : SPSOut m n :=
  ⟨o.x.map (a • ·), o.y.map (a • ·), o.log.map (SPLog.scale a)⟩

theorem norm2_ge_scale {p q : ℕ} {a : ℝ} (ha : a ≠ 0) (u : Fin p → ℝ) (v : Fin q → ℝ) :
    norm2 (a • u) ≥ norm2 (a • v) ↔ norm2 u ≥ norm2 v := by
  rw [norm2_smul, norm2_smul]
  exact mul_le_mul_iff_right₀ (abs_pos.2 ha)

theorem sps1Post_scale {a : ℝ} (ha : a ≠ 0) (A : Matrix (Fin m) (Fin n) ℝ) (b : Fin m → ℝ) (c : Option (Fin n → ℝ))
    (δ tol : ℝ) (L : ℤ) (p : SPSPrec n) (logging : Bool) (clock : LogTimes) :
    sps1Post PcSS1 A (a • b) (c.map (a • ·)) δ tol L ⟨p.r, p.M, p.z.map (a • ·)⟩ logging clock =
      (sps1Post PcSS1 A b c δ tol L p logging clock).map (SPSOut.scale a) := by
  unfold sps1Post
  simp only [PcSS1, C88_pcss1 ha, normalRhs_scale, norm2_smul, bind, Except.bind]
  cases pcss1 A (.vec b) c δ tol L (.gen p.r p.M) p.z with
  | error e => rfl
  | ok res =>
    simp only [Except.map, SaddleOut.scale, finishLog_scale]
    cases finishLog logging clock res.errs (norm2 (normalRhs A b c)) <;> rfl

theorem getD_scale (b : Option (Fin m → ℝ)) (a : ℝ) : (b.map (a • ·)).getD 0 = a • b.getD 0 := by
  cases b with
  | none => exact (smul_zero a).symm
  | some b => rfl

theorem lift_map {α β : Type} (f : α → β) (x : Except PyErr α) (w : World G) :
    (Py.lift (x.map f) : Py G β) w = ((Py.lift x : Py G α) w).map fun r => (f r.1, r.2) := by
  cases x <;> rfl

/-- **C88** (SPS1 with PcSS1): on `a b` and `a c` the driver returns `a x`, `a y`, and a log with the errors in the new unit
and the same length, from the same random state and with the same exceptions. -/
theorem C88_sps1 {a : ℝ} (ha : a ≠ 0) (la : LinAlg) (gen : SkOpGen G) (sf : ℝ) (strategy : NystromStrategy)
    (A : Matrix (Fin m) (Fin n) ℝ) (b : Option (Fin m → ℝ)) (c : Option (Fin n → ℝ)) (δ tol : ℝ) (L : ℤ) (logging : Bool)
    (clock : LogTimes) (w : World G) :
    sps1Call la gen sf PcSS1 strategy A (b.map (a • ·)) (c.map (a • ·)) δ tol L logging clock w =
      (sps1Call la gen sf PcSS1 strategy A b c δ tol L logging clock w).map fun r =>
        (⟨r.1.x.map (a • ·), r.1.y.map (a • ·), r.1.log.map (SPLog.scale a)⟩, r.2) := by
  have hsvd : ∀ {d : ℕ} (S : Matrix (Fin d) (Fin m) ℝ) (rhs : Fin n → ℝ), sps1Svd la S A (a • rhs) δ =
      (sps1Svd la S A rhs δ).map fun p => ⟨p.r, p.M, p.z.map (a • ·)⟩ := by
    intro d S rhs
    unfold sps1Svd
    simp only
    cases svdRightPrecond la (aLift (S * A) (Real.sqrt δ)) with
    | error e => rfl
    | ok o =>
      have hz : (fun j => (o.Vh *ᵥ (a • rhs)) j / o.sigma j) = a • fun j => (o.Vh *ᵥ rhs) j / o.sigma j := by
        funext j
        rw [mulVec_smul, Pi.smul_apply, Pi.smul_apply, smul_eq_mul, smul_eq_mul, mul_div_assoc]
      have hl : ∀ z : Fin o.r → ℝ, o.Mᵀ *ᵥ (Aᵀ *ᵥ (A *ᵥ (o.M *ᵥ (a • z))) + δ • o.M *ᵥ (a • z)) - o.Mᵀ *ᵥ (a • rhs) =
          a • (o.Mᵀ *ᵥ (Aᵀ *ᵥ (A *ᵥ (o.M *ᵥ z)) + δ • o.M *ᵥ z) - o.Mᵀ *ᵥ rhs) := by
        intro z
        simp only [mulVec_smul, smul_sub, smul_comm δ a, ← smul_add]
      simp only [hz, hl, Except.map]
      rw [mulVec_smul]
      by_cases hc : norm2 (o.Mᵀ *ᵥ (Aᵀ *ᵥ (A *ᵥ (o.M *ᵥ fun j => (o.Vh *ᵥ rhs) j / o.sigma j)) +
          δ • o.M *ᵥ fun j => (o.Vh *ᵥ rhs) j / o.sigma j) - o.Mᵀ *ᵥ rhs) ≥ norm2 (o.Mᵀ *ᵥ rhs)
      · rw [if_pos hc, if_pos ((norm2_ge_scale ha _ _).2 hc)]; rfl
      · rw [if_neg hc, if_neg fun e => hc ((norm2_ge_scale ha _ _).1 e)]; rfl
  have nyst : ∀ (k l : ℕ) (f : Matrix (Fin k) (Fin l) ℝ → SPSPrec n), (∀ S, (f S).z = none) →
      (gen k l >>= fun S => Py.lift (sps1Post PcSS1 A (a • b.getD 0) (c.map (a • ·)) δ tol L (f S) logging clock) : Py G _) w =
        ((gen k l >>= fun S => Py.lift (sps1Post PcSS1 A (b.getD 0) c δ tol L (f S) logging clock) : Py G _) w).map fun r =>
          (r.1.scale a, r.2) := by
    intro k l f hf
    cases hg : gen k l w with
    | error e => rw [Py.bind_eq_of_error hg, Py.bind_eq_of_error hg]; rfl
    | ok q =>
      obtain ⟨S, w₁⟩ := q
      rw [Py.bind_eq_of_ok hg, Py.bind_eq_of_ok hg]
      have := sps1Post_scale ha A (b.getD 0) c δ tol L (f S) logging clock
      rw [hf, Option.map_none] at this
      have e : (⟨(f S).r, (f S).M, none⟩ : SPSPrec n) = f S := by rw [← hf S]
      rw [e] at this
      rw [this]
      exact lift_map _ _ _
  unfold sps1Call
  simp only [getD_scale, normalRhs_scale, hsvd]
  by_cases hs : strategy ≠ .other
  · rw [Py.assert_pos_bind hs, Py.assert_pos_bind hs]
    by_cases h1 : pyInt (sf * n) < 0
    · rw [if_pos h1, if_pos h1]; rfl
    · rw [if_neg h1, if_neg h1]
      by_cases h2 : ¬ (pyInt (sf * n)).toNat < n
      · rw [if_pos h2, if_pos h2]
        cases hg : gen (pyInt (sf * n)).toNat m w with
        | error e => rw [Py.bind_eq_of_error hg, Py.bind_eq_of_error hg]; rfl
        | ok q =>
          obtain ⟨S, w₁⟩ := q
          rw [Py.bind_eq_of_ok hg, Py.bind_eq_of_ok hg]
          cases hp : sps1Svd la S A (normalRhs A (b.getD 0) c) δ with
          | error e => rfl
          | ok p =>
            change (Py.lift (sps1Post PcSS1 A (a • b.getD 0) (c.map (a • ·)) δ tol L ⟨p.r, p.M, p.z.map (a • ·)⟩ logging clock) :
              Py G _) w₁ = Except.map _ ((Py.lift (sps1Post PcSS1 A (b.getD 0) c δ tol L p logging clock) : Py G _) w₁)
            rw [sps1Post_scale ha]
            exact lift_map _ _ _
      · rw [if_neg h2, if_neg h2]
        by_cases h3 : strategy = .right
        · rw [if_pos h3, if_pos h3]
          exact nyst _ _ _ fun S => rfl
        · rw [if_neg h3, if_neg h3]
          exact nyst _ _ _ fun S => rfl
  · rw [Py.assert_neg_bind hs, Py.assert_neg_bind hs]; rfl

theorem catv_smul {p q : ℕ} (a : ℝ) (u : Fin p → ℝ) (v : Fin q → ℝ) : catv (a • u) (a • v) = a • catv u v := by
  funext i
  refine Fin.addCases (fun i => ?_) (fun i => ?_) i <;> simp

/-- **C88** (SPS2 with PcSS1): exact homogeneity in the right-hand sides. -/
theorem C88_sps2_scale {a : ℝ} (ha : a ≠ 0) (la : LinAlg) (gen : SkOpGen G) (sf : ℝ)
    (A : Matrix (Fin m) (Fin n) ℝ) (b : Option (Fin m → ℝ)) (c : Option (Fin n → ℝ)) (δ tol : ℝ) (L : ℤ) (logging : Bool)
    (clock : LogTimes) (w : World G) :
    sps2Call la gen sf PcSS1 A (b.map (a • ·)) (c.map (a • ·)) δ tol L logging clock w =
      (sps2Call la gen sf PcSS1 A b c δ tol L logging clock w).map fun r =>
        (⟨r.1.x.map (a • ·), r.1.y.map (a • ·), r.1.log.map (SPLog.scale a)⟩, r.2) := by
  have hpost : ∀ {d : ℕ} (S : Matrix (Fin d) (Fin m) ℝ) (b : Fin m → ℝ),
      sps2Post la PcSS1 S A (a • b) (c.map (a • ·)) δ tol L logging clock =
        (sps2Post la PcSS1 S A b c δ tol L logging clock).map (SPSOut.scale a) := by
    intro d S b
    unfold sps2Post
    simp only
    cases svdRightPrecond la (aLift (S * A) (Real.sqrt δ)) with
    | error e => rfl
    | ok o =>
      have hrhs : sps2Rhs S o (a • b) (c.map (a • ·)) = a • sps2Rhs S o b c := by
        unfold sps2Rhs
        cases c with
        | none =>
          simp only [Option.map_none]
          rw [← catv_smul, smul_zero]
        | some c =>
          simp only [Option.map_some]
          have hp : norm2 (a • c) > 0 ↔ norm2 c > 0 := by
            rw [norm2_smul]; exact mul_pos_iff_of_pos_left (abs_pos.2 ha)
          have hv : (o.U *ᵥ fun j => 1 / o.sigma j * (o.Vh *ᵥ (a • c)) j) =
              a • (o.U *ᵥ fun j => 1 / o.sigma j * (o.Vh *ᵥ c) j) := by
            rw [← mulVec_smul]
            congr 1
            funext j
            rw [mulVec_smul, Pi.smul_apply, Pi.smul_apply, smul_eq_mul, smul_eq_mul]
            ring
          by_cases hc : norm2 c > 0
          · rw [if_pos hc, if_pos (hp.2 hc)]
            simp only [hv]
            generalize (o.U *ᵥ fun j => 1 / o.sigma j * (o.Vh *ᵥ c) j) = v
            rw [← catv_smul, smul_sub, smul_sub, smul_zero, ← mulVec_smul]
            rfl
          · rw [if_neg hc, if_neg fun e => hc (hp.1 e), ← catv_smul, smul_zero]
      obtain ⟨q, hq⟩ : ∃ q, q = sps2Rhs S o b c := ⟨_, rfl⟩
      have hst : sps2Start S o (aLift A (Real.sqrt δ)) (a • q) =
          (sps2Start S o (aLift A (Real.sqrt δ)) q).map (a • ·) := by
        have hz : (if δ > 0 then (topRows o.U)ᵀ *ᵥ (S *ᵥ topv (a • q)) + (botRows o.U)ᵀ *ᵥ botv (a • q)
            else (topRows o.U)ᵀ *ᵥ (S *ᵥ topv (a • q))) =
            a • (if δ > 0 then (topRows o.U)ᵀ *ᵥ (S *ᵥ topv q) + (botRows o.U)ᵀ *ᵥ botv q
            else (topRows o.U)ᵀ *ᵥ (S *ᵥ topv q)) := by
          rw [show topv (a • q) = a • topv q from rfl, show botv (a • q) = a • botv q from rfl]
          split <;> simp only [mulVec_smul, smul_add]
        unfold sps2Start
        simp only [hz]
        obtain ⟨z, hz'⟩ : ∃ z, z = (if δ > 0 then (topRows o.U)ᵀ *ᵥ (S *ᵥ topv q) + (botRows o.U)ᵀ *ᵥ botv q
            else (topRows o.U)ᵀ *ᵥ (S *ᵥ topv q)) := ⟨_, rfl⟩
        rw [← hz', mulVec_smul, mulVec_smul, ← smul_sub]
        by_cases hc : norm2 (q - aLift A (Real.sqrt δ) *ᵥ (o.M *ᵥ z)) ≥ norm2 q
        · rw [if_pos hc, if_pos ((norm2_ge_scale ha _ _).2 hc)]; rfl
        · rw [if_neg hc, if_neg fun e => hc ((norm2_ge_scale ha _ _).1 e)]; rfl
      have hn := C88_pcss1 ha (aLift A (Real.sqrt δ)) q none 0 tol L o.M (sps2Start S o (aLift A (Real.sqrt δ)) q)
      rw [Option.map_none] at hn
      simp only [bind, Except.bind, hrhs, ← hq, hst, PcSS1, hn, mulVec_smul, norm2_smul]
      cases pcss1 (aLift A (Real.sqrt δ)) (.vec q) none 0 tol L (.gen o.r o.M) (sps2Start S o (aLift A (Real.sqrt δ)) q) with
      | error e => rfl
      | ok res =>
        simp only [Except.map, SaddleOut.scale, finishLog_scale]
        cases finishLog logging clock res.errs (norm2 (o.Mᵀ *ᵥ ((aLift A (Real.sqrt δ))ᵀ *ᵥ q))) with
        | error e => rfl
        | ok l =>
          simp only [pure, Except.pure, SPSOut.scale]
          congr 2
          cases res.x with
          | none => rfl
          | some x => simp only [Option.map_some, mulVec_smul, smul_sub]
  unfold sps2Call
  rw [getD_scale]
  cases h1 : (dimChecks sf m n : Py G ℕ) w with
  | error e => rw [Py.bind_eq_of_error h1, Py.bind_eq_of_error h1]; rfl
  | ok r =>
    obtain ⟨d, w₁⟩ := r
    rw [Py.bind_eq_of_ok h1, Py.bind_eq_of_ok h1]
    cases h2 : gen d m w₁ with
    | error e => rw [Py.bind_eq_of_error h2, Py.bind_eq_of_error h2]; rfl
    | ok r =>
      obtain ⟨S, w₂⟩ := r
      rw [Py.bind_eq_of_ok h2, Py.bind_eq_of_ok h2, hpost]
      exact lift_map _ _ _

/-! ## LSQR -/

/-- the state in other units -/
noncomputable def _root_.Parla.LsqrState.scale {p q : ℕ} (a : ℝ) (s : LsqrState p q) : LsqrState p q :=
  { s with x := a • s.x, phibar := a * s.phibar, res2 := a ^ 2 * s.res2, xnorm := a * s.xnorm, xxnorm := a ^ 2 * s.xxnorm,
           z := a * s.z, r1norm := a * s.r1norm, r2norm := a * s.r2norm, arnorm := a * s.arnorm }

variable {p q : ℕ}

theorem bidP_scale (a : ℝ) (F : Matrix (Fin p) (Fin q) ℝ) (damp : ℝ) (s : LsqrState p q) :
    bidP F damp (s.scale a) = (bidP F damp s).scale a := by
  obtain ⟨x, u, v, w, alfa, rhobar, phibar, anorm, acond, ddnorm, res2, xnorm, xxnorm, z, cs2, sn2, r1norm, r2norm,
    arnorm, itn, var⟩ := s
  unfold bidP LsqrState.scale
  simp only
  split <;> rfl

theorem rotate_scale {a : ℝ} (ha : 0 < a) (damp : ℝ) (s : LsqrState p q) (β : ℝ) :
    lsqrRotate damp (s.scale a) β = (lsqrRotate damp s β).scale a := by
  have hs : ∀ t : ℝ, Real.sqrt (a ^ 2 * t) = a * Real.sqrt t := fun t => by
    rw [Real.sqrt_mul (sq_nonneg a), Real.sqrt_sq ha.le]
  obtain ⟨x, u, v, w, alfa, rhobar, phibar, anorm, acond, ddnorm, res2, xnorm, xxnorm, z, cs2, sn2, r1norm, r2norm,
    arnorm, itn, var⟩ := s
  unfold lsqrRotate LsqrState.scale
  simp only
  have e0 : ∀ c d e f g h : ℝ, (c * (d * (a * e)) - f * (a * g)) / h = a * ((c * (d * e) - f * g) / h) := by
    intros; ring
  have hr : ∀ r R : ℝ, R = a ^ 2 * r →
      (if R < 0 then -Real.sqrt |R| else Real.sqrt |R|) = a * (if r < 0 then -Real.sqrt |r| else Real.sqrt |r|) := by
    intro r R h
    subst h
    rw [abs_mul, abs_of_nonneg (sq_nonneg a), hs]
    by_cases hr : r < 0
    · rw [if_pos hr, if_pos (mul_neg_of_pos_of_neg (pow_pos ha 2) hr)]; ring
    · rw [if_neg hr, if_neg fun h => hr (by nlinarith [pow_pos ha 2])]
  have hq : ∀ A B X Y : ℝ, A = a ^ 2 * B → X = a ^ 2 * Y →
      Real.sqrt A ^ 2 - damp ^ 2 * X = a ^ 2 * (Real.sqrt B ^ 2 - damp ^ 2 * Y) := by
    intro A B X Y h1 h2
    subst h1 h2
    rw [hs]; ring
  have hb : ∀ t T : ℝ, T = a * t → alfa * |T| = a * (alfa * |t|) := by
    intro t T h
    subst h
    rw [abs_mul, abs_of_pos ha]; ring
  congr 1
  · rw [smul_add, smul_smul]
    congr 2
    ring
  · ring
  · ring
  · rw [e0, ← hs]; congr 1; ring
  · ring
  · ring
  · apply hr; apply hq <;> ring
  · rw [← hs]; congr 1; ring
  · apply hb; ring

theorem stepP_scale {a : ℝ} (ha : 0 < a) (F : Matrix (Fin p) (Fin q) ℝ) (damp : ℝ) (s : LsqrState p q) :
    stepP F damp (s.scale a) = (stepP F damp s).scale a := by
  unfold stepP
  rw [bidP_scale, rotate_scale ha]
  rfl

theorem initP_scale {a : ℝ} (ha : 0 < a) (F : Matrix (Fin p) (Fin q) ℝ) (b : Fin p → ℝ) (x0 : Fin q → ℝ)
    (h0 : b - F *ᵥ x0 ≠ 0) : initP F (a • b) (a • x0) = (initP F b x0).scale a := by
  have hna : ∀ {k : ℕ} (v : Fin k → ℝ), norm2 (a • v) = a * norm2 v := fun v => by rw [norm2_smul, abs_of_pos ha]
  have hb : 0 < norm2 (b - F *ᵥ x0) := lt_of_le_of_ne (norm2_nonneg _) fun e => h0 (norm2_eq_zero.1 e.symm)
  have hu : (1 / (a * norm2 (b - F *ᵥ x0))) • (a • (b - F *ᵥ x0)) = (1 / norm2 (b - F *ᵥ x0)) • (b - F *ᵥ x0) := by
    rw [smul_smul]
    congr 1
    field_simp
  unfold initP LsqrState.scale
  simp only [mulVec_smul, ← smul_sub, hna, if_pos hb, if_pos (mul_pos ha hb), hu, mul_zero]
  congr 1
  ring

theorem seqP_scale {a : ℝ} (ha : 0 < a) (F : Matrix (Fin p) (Fin q) ℝ) (b : Fin p → ℝ) (x0 : Fin q → ℝ) (damp : ℝ)
    (h0 : b - F *ᵥ x0 ≠ 0) (k : ℕ) : seqP F (a • b) (a • x0) damp k = (seqP F b x0 damp k).scale a := by
  induction k with
  | zero => exact initP_scale ha F b x0 h0
  | succ k ih => rw [seqP_succ, seqP_succ, ih, stepP_scale ha]

/-- Every test except the one on the normalised gradient is exactly homogeneous; that one is harder to pass in
smaller units. -/
theorem lsqrStop_scale {a : ℝ} (ha : 1 ≤ a) (T : LsqrTol) (bn : ℝ) (L : ℕ) (s : LsqrState p q)
    (hAr : 0 ≤ s.arnorm) (hr : 0 ≤ s.r2norm) (hA : 0 ≤ s.anorm) (h2 : lsqrStop T bn L s ≠ 2) :
    lsqrStop T (a * bn) L (s.scale a) = lsqrStop T bn L s := by
  have ha0 : 0 < a := lt_of_lt_of_le one_pos ha
  have hbn : a * bn = 0 ↔ bn = 0 := by simp [ha0.ne']
  have hp1 : (if a * bn = 0 then 0 < a * s.r2norm ∧ 0 < T.atol * s.anorm * (a * s.xnorm)
      else a * s.r2norm / (a * bn) ≤ T.btol + T.atol * s.anorm * (a * s.xnorm) / (a * bn)) ↔
      (if bn = 0 then 0 < s.r2norm ∧ 0 < T.atol * s.anorm * s.xnorm
      else s.r2norm / bn ≤ T.btol + T.atol * s.anorm * s.xnorm / bn) := by
    by_cases h : bn = 0
    · rw [if_pos h, if_pos (hbn.2 h), mul_left_comm, mul_pos_iff_of_pos_left ha0, mul_pos_iff_of_pos_left ha0]
    · rw [if_neg h, if_neg fun e => h (hbn.1 e), mul_left_comm, mul_div_mul_left _ _ ha0.ne', mul_div_mul_left _ _ ha0.ne']
  have hp4 : (a * bn ≠ 0 ∧ a * s.r2norm / (a * bn) / (1 + s.anorm * (a * s.xnorm) / (a * bn)) ≤ 0) ↔
      (bn ≠ 0 ∧ s.r2norm / bn / (1 + s.anorm * s.xnorm / bn) ≤ 0) := by
    rw [Ne, hbn, mul_left_comm, mul_div_mul_left _ _ ha0.ne', mul_div_mul_left _ _ ha0.ne']
  have hden : 0 < s.anorm * s.r2norm + eps := add_pos_of_nonneg_of_pos (mul_nonneg hA hr) eps_pos'
  have hden' : 0 < s.anorm * (a * s.r2norm) + eps :=
    add_pos_of_nonneg_of_pos (mul_nonneg hA (mul_nonneg ha0.le hr)) eps_pos'
  have hle : s.arnorm / (s.anorm * s.r2norm + eps) ≤ a * s.arnorm / (s.anorm * (a * s.r2norm) + eps) := by
    rw [div_le_div_iff₀ hden hden']
    nlinarith [mul_nonneg (mul_nonneg hAr eps_pos'.le) (sub_nonneg.2 ha)]
  have hp5 : a * s.arnorm / (s.anorm * (a * s.r2norm) + eps) ≤ 0 ↔ s.arnorm / (s.anorm * s.r2norm + eps) ≤ 0 := by
    refine ⟨fun h => hle.trans h, fun h => ?_⟩
    have : s.arnorm = 0 := by
      refine le_antisymm ?_ hAr
      by_contra hc
      exact absurd h (not_le.2 (div_pos (not_le.1 hc) hden))
    rw [this, mul_zero, zero_div]
  have hk : lsqrStop T bn L s = if (if bn = 0 then 0 < s.r2norm ∧ 0 < T.atol * s.anorm * s.xnorm
      else s.r2norm / bn ≤ T.btol + T.atol * s.anorm * s.xnorm / bn) then 1
      else if s.arnorm / (s.anorm * s.r2norm + eps) ≤ T.atol then 2
      else if 1 / (s.acond + eps) ≤ (if T.conlim > 0 then 1 / T.conlim else 0) then 3
      else if (bn ≠ 0 ∧ s.r2norm / bn / (1 + s.anorm * s.xnorm / bn) ≤ 0) then 4
      else if s.arnorm / (s.anorm * s.r2norm + eps) ≤ 0 then 5
      else if 1 / (s.acond + eps) ≤ 0 then 6 else if s.itn ≥ L then 7 else 0 := rfl
  have hk' : lsqrStop T (a * bn) L (s.scale a) =
      if (if a * bn = 0 then 0 < a * s.r2norm ∧ 0 < T.atol * s.anorm * (a * s.xnorm)
      else a * s.r2norm / (a * bn) ≤ T.btol + T.atol * s.anorm * (a * s.xnorm) / (a * bn)) then 1
      else if a * s.arnorm / (s.anorm * (a * s.r2norm) + eps) ≤ T.atol then 2
      else if 1 / (s.acond + eps) ≤ (if T.conlim > 0 then 1 / T.conlim else 0) then 3
      else if (a * bn ≠ 0 ∧ a * s.r2norm / (a * bn) / (1 + s.anorm * (a * s.xnorm) / (a * bn)) ≤ 0) then 4
      else if a * s.arnorm / (s.anorm * (a * s.r2norm) + eps) ≤ 0 then 5
      else if 1 / (s.acond + eps) ≤ 0 then 6 else if s.itn ≥ L then 7 else 0 := rfl
  rw [hk] at h2 ⊢
  rw [hk']
  simp only [hp1, hp4, hp5]
  by_cases h1 : (if bn = 0 then 0 < s.r2norm ∧ 0 < T.atol * s.anorm * s.xnorm
      else s.r2norm / bn ≤ T.btol + T.atol * s.anorm * s.xnorm / bn)
  · rw [if_pos h1, if_pos h1]
  · rw [if_neg h1] at h2 ⊢
    rw [if_neg h1]
    have n2 : ¬ s.arnorm / (s.anorm * s.r2norm + eps) ≤ T.atol := fun h => h2 (if_pos h)
    rw [if_neg n2, if_neg fun h => n2 (hle.trans h)]

/-- the output in other units -/
noncomputable def _root_.Parla.LsqrOut.scale {q : ℕ} (a : ℝ) (o : LsqrOut q) : LsqrOut q :=
  { o with x := a • o.x, r1norm := a * o.r1norm, r2norm := a * o.r2norm, arnorms := o.arnorms.scale a, xnorm := a * o.xnorm }

/-- **C88** (LSQR): multiplying the right-hand side and the starting point by `a ≥ 1`.  If the run stopped for any
reason other than the normalised gradient test (`istop = 2`, whose denominator contains the machine epsilon), the
output is exactly the old one in new units: the same number of iterations and the same stop code.  In every case
the new run makes at least as many iterations, and stopped after as many iterations as the old one it returns
exactly the old iterate in the new units. -/
theorem C88_lsqr {a : ℝ} (ha : 1 ≤ a) (F : Matrix (Fin p) (Fin q) ℝ) (b : Fin p → ℝ) (damp : ℝ) (T : LsqrTol)
    (lim : Option ℤ) (x0 : Option (Fin q → ℝ)) {o : LsqrOut q} (h : lsqr (LinOp.ofMat F) b damp T lim x0 = .ok o) :
    (o.istop ≠ 2 → lsqr (LinOp.ofMat F) (a • b) damp T lim (x0.map (a • ·)) = .ok (o.scale a)) ∧
    (∃ o', lsqr (LinOp.ofMat F) (a • b) damp T lim (x0.map (a • ·)) = .ok o' ∧ o.itn ≤ o'.itn) ∧
    ∃ o', lsqr (LinOp.ofMat F) (a • b) damp T (some o.itn) (x0.map (a • ·)) = .ok o' ∧ o'.x = a • o.x ∧
      o'.itn = o.itn ∧ o'.r2norm = a * o.r2norm := by
  have ha0 : 0 < a := lt_of_lt_of_le one_pos ha
  have hg : (x0.map (a • ·)).getD 0 = a • x0.getD 0 := getD_scale x0 a
  have hgrad : Fᵀ *ᵥ (a • b - F *ᵥ (a • x0.getD 0)) = a • (Fᵀ *ᵥ (b - F *ᵥ x0.getD 0)) := by
    rw [mulVec_smul, ← smul_sub, mulVec_smul]
  have hnb : norm2 (a • b) = a * norm2 b := by rw [norm2_smul, abs_of_pos ha0]
  rcases lsqr_ok h with ⟨hz, ho⟩ | ⟨hz, L, hL, K, hKL, hLK, ho, hs, hj, har⟩
  · have e : ∀ l, lsqr (LinOp.ofMat F) (a • b) damp T l (x0.map (a • ·)) = .ok (o.scale a) := by
      intro l
      rw [lsqr_early F (a • b) _ damp T l (by rw [hg, hgrad, hz, smul_zero]), ho, hg]
      unfold lsqrOut0 LsqrOut.scale
      simp only [mulVec_smul, ← smul_sub, norm2_smul, abs_of_pos ha0, mul_zero, ErrLog.scale]
    exact ⟨fun _ => e _, ⟨_, e _, le_refl _⟩, _, e _, rfl, rfl, rfl⟩
  · have hz' : Fᵀ *ᵥ (a • b - F *ᵥ (x0.map (a • ·)).getD 0) ≠ 0 := by
      rw [hg, hgrad]; exact smul_ne_zero ha0.ne' hz
    have hr0 : b - F *ᵥ x0.getD 0 ≠ 0 := fun e => hz (by rw [e, mulVec_zero])
    have hseq := fun k => seqP_scale ha0 F b (x0.getD 0) damp hr0 k
    have hfac := fun k (hk : k ≤ K) => seqP_facts (F := F) (b := b) (x0 := x0.getD 0) (damp := damp) (k := k)
      fun j hjk => har j (lt_of_lt_of_le hjk hk)
    have hstop : ∀ k ≤ K, lsqrStop T (norm2 b) L (seqP F b (x0.getD 0) damp k) ≠ 2 →
        lsqrStop T (norm2 (a • b)) L (seqP F (a • b) (a • x0.getD 0) damp k) =
          lsqrStop T (norm2 b) L (seqP F b (x0.getD 0) damp k) := by
      intro k hk h2
      rw [hseq, hnb]
      refine lsqrStop_scale ha T _ L _ ?_ ?_ ?_ h2
      · rw [(hfac k hk).arnorm]; exact norm2_nonneg _
      · rw [(hfac k hk).r2norm]; exact Real.sqrt_nonneg _
      · exact (hfac k hk).anorm0
    have hcont : ∀ j, 0 < j → j < K → lsqrStop T (norm2 (a • b)) L (seqP F (a • b) ((x0.map (a • ·)).getD 0) damp j) = 0 := by
      intro j h0 hjK
      rw [hg, hstop j hjK.le (by rw [hj j h0 hjK]; norm_num), hj j h0 hjK]
    obtain ⟨K', hK'L, hLK', hrun, hs', hj', -⟩ := lsqr_run F (a • b) (x0.map (a • ·)) damp T lim L hz' hL
    have hKK' : K ≤ K' := by
      by_contra hc
      have hc := not_le.1 hc
      have h0 : 0 < K' := hLK' (by omega)
      exact hs' h0 (hcont K' h0 hc)
    refine ⟨fun h2 => ?_, ⟨_, hrun, by rw [ho]; exact hKK'⟩, ?_⟩
    · have hK0 : K = K' := by
        rcases Nat.eq_zero_or_pos K with h0 | h0
        · have : L = 0 := by
            by_contra hc
            have := hLK (Nat.pos_of_ne_zero hc)
            omega
          omega
        · refine le_antisymm hKK' (not_lt.1 fun hc => ?_)
          have h3 := hj' K h0 hc
          rw [ho] at h2
          simp only [lsqrOutP, if_neg h0.ne'] at h2
          rw [hg, hstop K le_rfl h2] at h3
          exact hs h0 h3
      rw [hrun, ← hK0, ho, hg]
      rw [ho] at h2
      congr 1
      simp only [lsqrOutP, LsqrOut.scale, hseq, LsqrState.scale, ErrLog.scale, List.map_map] at h2 ⊢
      congr 1
      · by_cases h0 : K = 0
        · rw [if_pos h0, if_pos h0]
        · rw [if_neg h0] at h2 ⊢
          rw [if_neg h0, ← hstop K le_rfl h2, hseq]
          rfl
      · congr 1
        refine List.map_congr_left fun j _ => ?_
        simp only [Function.comp_apply, abs_of_pos ha0]
    · have hp := lsqr_prefix (L := L) (K := K) hz' hcont (i := K) le_rfl
      rw [ho]
      refine ⟨_, hp, ?_, rfl, ?_⟩
      · simp only [lsqrOutP, hg, hseq]; rfl
      · simp only [lsqrOutP, hg, hseq]; rfl

/-! ## Consequences and witnesses -/

theorem sketchesAlike_one (gen : SkOpGen G) (m : ℕ) : SketchesAlike gen gen (1 : Matrix (Fin m) (Fin m) ℝ) := by
  intro d w
  cases gen d m w with
  | error e => rfl
  | ok r => simp only [Except.map, Matrix.mul_one]

/-- **C88** (SPO without regularisation: conditioning is irrelevant).  In the modes `'qr'` and `'chol'`, from the same
random state, SPO on `A T` returns `T⁻¹ x` and the same log as on `A`, for every invertible `T`. -/
theorem C88_spo_conditioning (la la' : LinAlg) (gen : SkOpGen G) (sf : ℝ) (mode : SPOMode) (hmode : mode ≠ .svd)
    (A : Matrix (Fin m) (Fin n) ℝ) (hn : n ≠ 0) (T Ti : Matrix (Fin n) (Fin n) ℝ) (hT : T * Ti = 1) (b : Fin m → ℝ)
    (tol : ℝ) (L : ℤ) (logging : Bool) (clock : LogTimes) (w : World G) :
    spoCall la' gen sf mode (A * T) b 0 tol L logging clock w =
      (spoCall la gen sf mode A b 0 tol L logging clock w).map fun r => (⟨r.1.x.map (Ti *ᵥ ·), r.1.log⟩, r.2) := by
  have := C88_spo la la' gen gen sf mode A hn 1 (by simp) (sketchesAlike_one gen m) T Ti hT b 0 0 le_rfl le_rfl
    (by rw [zero_smul, zero_smul]) tol L logging clock w (fun h => absurd h hmode)
  rwa [Matrix.one_mul, one_mulVec] at this

/-- **C88** (SPO, units of the matrix).  In the modes `'qr'` and `'chol'`, from the same random state, SPO on `a A` and
`a² δ` returns `x / a` and the same log as on `A` and `δ`. -/
theorem C88_spo_units (la la' : LinAlg) (gen : SkOpGen G) (sf : ℝ) (mode : SPOMode) (hmode : mode ≠ .svd)
    (A : Matrix (Fin m) (Fin n) ℝ) (hn : n ≠ 0) {a : ℝ} (ha : a ≠ 0) (b : Fin m → ℝ) (δ : ℝ) (hδ : 0 ≤ δ)
    (tol : ℝ) (L : ℤ) (logging : Bool) (clock : LogTimes) (w : World G) :
    spoCall la' gen sf mode (a • A) b (a ^ 2 * δ) tol L logging clock w =
      (spoCall la gen sf mode A b δ tol L logging clock w).map fun r => (⟨r.1.x.map (a⁻¹ • ·), r.1.log⟩, r.2) := by
  have := C88_spo la la' gen gen sf mode A hn 1 (by simp) (sketchesAlike_one gen m) (a • 1) (a⁻¹ • 1)
    (by rw [Matrix.smul_mul, Matrix.one_mul, smul_smul, mul_inv_cancel₀ ha, one_smul]) b δ (a ^ 2 * δ) hδ
    (mul_nonneg (sq_nonneg a) hδ)
    (by rw [transpose_smul, transpose_one, Matrix.smul_mul, Matrix.one_mul, smul_smul, smul_smul]; congr 1; ring)
    tol L logging clock w (fun h => absurd h hmode)
  rw [Matrix.one_mul, one_mulVec, Matrix.mul_smul, Matrix.mul_one] at this
  rw [this]
  congr 1
  funext r
  congr 3
  funext x
  rw [smul_mulVec, one_mulVec]

/-- rows in reverse order -/
def revMat (m : ℕ) : Matrix (Fin m) (Fin m) ℝ := Matrix.of fun i j => if i.rev = j then 1 else 0

theorem revMat_mul (m : ℕ) {k : ℕ} (B : Matrix (Fin m) (Fin k) ℝ) : revMat m * B = Matrix.of fun i j => B i.rev j := by
  ext i j
  simp [revMat, mul_apply]

theorem mul_revMat (m : ℕ) {k : ℕ} (B : Matrix (Fin k) (Fin m) ℝ) : B * revMat m = Matrix.of fun i j => B i j.rev := by
  ext i j
  simp [revMat, mul_apply, Fin.rev_eq_iff]

/-- the identity with its columns in reverse order -/
def revGen : SkOpGen G := fun _ _ => pure (Matrix.of fun i j => if i.1 = j.rev.1 then 1 else 0)

/-- The hypotheses of `C88_spo` hold in every mode for a 3 x 1 problem with its rows in reverse order and its variable
in other units. -/
example (mode : SPOMode) (tol : ℝ) (L : ℤ) (logging : Bool) :
    spoCall LinAlg.ref (revGen (G := ℕ)) 3 mode (revMat 3 * (!![1; 1; 1] : Matrix (Fin 3) (Fin 1) ℝ) * (!![2] : Matrix (Fin 1) (Fin 1) ℝ))
      (revMat 3 *ᵥ ![1, 2, 6]) 0 tol L logging ⟨0, 0, 0, 0, 0⟩ ⟨0, 0, []⟩ =
    (spoCall LinAlg.ref (idGen (G := ℕ)) 3 mode (!![1; 1; 1] : Matrix (Fin 3) (Fin 1) ℝ) ![1, 2, 6]
      0 tol L logging ⟨0, 0, 0, 0, 0⟩ ⟨0, 0, []⟩).map fun r => (⟨r.1.x.map ((!![1 / 2] : Matrix (Fin 1) (Fin 1) ℝ) *ᵥ ·), r.1.log⟩, r.2) := by
  refine C88_spo _ _ _ _ 3 mode _ one_ne_zero _ ?_ ?_ !![2] !![1 / 2] ?_ _ 0 0 le_rfl le_rfl (by rw [zero_smul, zero_smul])
    _ _ _ _ _ ?_
  · rw [mul_revMat]
    ext i j
    simp [revMat, Matrix.one_apply, eq_comm]
  · intro d w
    change Except.ok _ = Except.ok (_ * revMat 3, w)
    rw [mul_revMat]
    simp only [of_apply, Fin.rev_rev]
  · ext i j
    fin_cases i; fin_cases j
    simp
  · intro _ d w₁ w₂ S hd h _
    cases h
    have e : ((Matrix.of fun (i : Fin d) (j : Fin 3) => if i.1 = j.1 then (1 : ℝ) else 0) *
        (!![1; 1; 1] : Matrix (Fin 3) (Fin 1) ℝ)) ⟨0, hd⟩ 0 ≠ 0 := by
      rw [mul_apply, Fin.sum_univ_three]
      simp
    refine ⟨single_aLift _ ⟨0, hd⟩ e, single_aLift _ ⟨0, hd⟩ ?_⟩
    rw [mul_apply, Fin.sum_univ_one]
    exact mul_ne_zero e (by simp)

/-- The hypothesis of `C88_lsqr` holds, and the run makes an iteration, on a 2 x 1 problem; in units a thousand times
smaller the same number of iterations gives a thousand times the iterate. -/
example : ∃ o o', lsqr (LinOp.ofMat (!![1; 1] : Matrix (Fin 2) (Fin 1) ℝ)) ![1, 3] 0 ⟨0, 0, 0⟩ (some 1) none = .ok o ∧
    o.itn = 1 ∧ lsqr (LinOp.ofMat (!![1; 1] : Matrix (Fin 2) (Fin 1) ℝ)) ((1000 : ℝ) • ![1, 3]) 0 ⟨0, 0, 0⟩ (some 1) none = .ok o' ∧
    o'.x = (1000 : ℝ) • o.x := by
  have hg : (!![1; 1] : Matrix (Fin 2) (Fin 1) ℝ)ᵀ *ᵥ
      (![1, 3] - (!![1; 1] : Matrix (Fin 2) (Fin 1) ℝ) *ᵥ (none : Option (Fin 1 → ℝ)).getD 0) ≠ 0 := by
    intro h
    have := congrFun h 0
    rw [Option.getD_none, mulVec_zero, sub_zero, mulVec, dotProduct, Fin.sum_univ_two] at this
    simp at this
    norm_num at this
  obtain ⟨K, h1, h2, h3, -⟩ := lsqr_run (!![1; 1] : Matrix (Fin 2) (Fin 1) ℝ) ![1, 3] none 0 ⟨0, 0, 0⟩ (some 1) 1 hg rfl
  have hK : K = 1 := by have := h2 one_pos; omega
  subst hK
  obtain ⟨-, -, o', h4, h5, -⟩ := C88_lsqr (a := 1000) (by norm_num) _ _ _ _ _ _ h3
  exact ⟨_, o', h3, rfl, h4, h5⟩

/-- `C88_pcg`, `C88_sps1` and `C88_sps2_scale` have no hypothesis but `a ≠ 0`. -/
example (b : Fin 3 → ℝ) (tol : ℝ) (L : ℤ) :
    sps2Call LinAlg.ref (idGen (G := ℕ)) 3 PcSS1 (!![1; 1; 1] : Matrix (Fin 3) (Fin 1) ℝ) (some ((-2 : ℝ) • b)) none 1 tol L
      true ⟨0, 0, 0, 0, 0⟩ ⟨0, 0, []⟩ =
    (sps2Call LinAlg.ref (idGen (G := ℕ)) 3 PcSS1 (!![1; 1; 1] : Matrix (Fin 3) (Fin 1) ℝ) (some b) none 1 tol L
      true ⟨0, 0, 0, 0, 0⟩ ⟨0, 0, []⟩).map fun r =>
        (⟨r.1.x.map ((-2 : ℝ) • ·), r.1.y.map ((-2 : ℝ) • ·), r.1.log.map (SPLog.scale (-2))⟩, r.2) :=
  C88_sps2_scale (by norm_num) _ _ _ _ (some b) none _ _ _ _ _ _

end Parla.Props
