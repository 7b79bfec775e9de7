import Verif.Props.RoundingSPS
import Verif.Props.SSO1

/-! # C104: the hypotheses are met by arithmetic that does round -/

namespace Parla.Props

open Matrix Parla Spec Parla.Proof

variable {G : Type} {m n : ℕ}

/-- There is always a bound on the iterates of `SPS1`. -/
theorem exists_sps1_bound (fl : FlSPS) (gen : SkOpGen G) (sf : ℝ) (strategy : NystromStrategy) (A : Matrix (Fin m) (Fin n) ℝ)
    (b : Option (Fin m → ℝ)) (c : Option (Fin n → ℝ)) (δ tol : ℝ) (L : ℕ) (clock : LogTimes) (w : World G) :
    ∃ X, ∀ j : ℤ, j ≤ L → ∀ o w'', sps1CallFl fl gen sf strategy A b c δ tol j true clock w = .ok (o, w'') →
      ∀ x, o.x = some x → norm2 x ≤ X := by
  rcases sps1Fl_setup fl gen sf strategy A b c δ tol w with ⟨p, w1, hs⟩ | ⟨e, he⟩
  swap
  · exact ⟨0, fun j _ o w'' h => by rw [he] at h; cases h⟩
  cases hp : fl.pre p.M δ with
  | error e =>
    refine ⟨0, fun j _ o w'' h => ?_⟩
    rw [hs] at h
    obtain ⟨res, log, hres, -, -⟩ := (sps1PostFl_ok_iff ..).1 (Py.lift_ok_iff.1 h).1
    obtain ⟨mvPre, R', x, l, h1, -, -⟩ := pcss1Fl_ok_iff.1 hres
    rw [hp] at h1; cases h1
  | ok v =>
    obtain ⟨X, hX⟩ := exists_iterate_bound fl.toFlVec (mvGramFl fl.toFlVec A δ) v.1 (normalRhsFl fl.toFlVec A (b.getD 0) c)
      (pcss1StartFl fl.toFlVec v.2 p.z) L tol
    refine ⟨X, fun j hj o w'' h x hx => ?_⟩
    rw [hs] at h
    obtain ⟨res, log, hres, -, rfl⟩ := (sps1PostFl_ok_iff ..).1 (Py.lift_ok_iff.1 h).1
    obtain ⟨mvPre, R', x', l, h1, h2, rfl⟩ := pcss1Fl_ok_iff.1 hres
    rw [hp] at h1
    cases h1
    cases hx
    exact hX j hj _ _ h2

/-- A machine off by one percent which sets up no preconditioner. -/
noncomputable def plainSPS : FlSPS where
  toFlVec := inflatedVec (1 / 100)
  pre R _ := .ok (id, R)
  svd {_ n _} _ _ _ _ := .ok ⟨n, 1, none⟩
  right {_ n _} _ _ := ⟨n, 1, none⟩
  left {_ n _} _ _ := ⟨n, 1, none⟩

/-- a run with an iteration, as `C104_sps1` asks for: `A = [[1], [1]]`, `b = (1, 1)` -/
example (clock : LogTimes) (w : World G) : plainSPS.toFlVec.Accurate 2 (1 / 100) ∧ ∃ out w' X,
    sps1CallFl plainSPS (idGen (G := G)) 1 .left !![1; 1] (some ![1, 1]) none 1 0 1 true clock w = .ok (out, w') ∧
    (∃ times e0 e1, out.log = some ⟨times, [e0, e1]⟩) ∧
    ∀ j : ℤ, j ≤ 1 → ∀ o w'', sps1CallFl plainSPS (idGen (G := G)) 1 .left !![1; 1] (some ![1, 1]) none 1 0 j true clock w =
      .ok (o, w'') → ∀ x, o.x = some x → norm2 x ≤ X := by
  refine ⟨inflatedVec_accurate (by norm_num) 2, ?_⟩
  obtain ⟨X, hX⟩ := exists_sps1_bound plainSPS (idGen (G := G)) 1 .left !![1; 1] (some ![1, 1]) none 1 0 1 clock w
  obtain ⟨A, eA⟩ : ∃ A : Matrix (Fin 2) (Fin 1) ℝ, A = !![1; 1] := ⟨_, rfl⟩
  obtain ⟨fl, ef⟩ : ∃ fl, fl = inflatedVec (1 / 100) := ⟨_, rfl⟩
  obtain ⟨rhs, er⟩ : ∃ rhs, rhs = normalRhsFl fl A ![1, 1] none := ⟨_, rfl⟩
  have hrhs : rhs = fun _ => 1.01 * 2 := by
    rw [er, ef, eA]
    show (1 + 1 / 100 : ℝ) • ((!![1; 1] : Matrix (Fin 2) (Fin 1) ℝ)ᵀ *ᵥ ![1, 1]) = _
    ext i; fin_cases i; simp [mulVec, dotProduct, Fin.sum_univ_two]; norm_num
  obtain ⟨s, es⟩ : ∃ s, s = pcgInitFl fl (mvGramFl fl A 1) id rhs (pcss1StartFl fl (1 : Matrix (Fin 1) (Fin 1) ℝ) none) := ⟨_, rfl⟩
  have hmv : ∀ v : Fin 1 → ℝ, mvGramFl fl A 1 v 0 = 1.01 * (1.01 * (1.01 * (2 * v 0)) + 1.01 * v 0) := by
    intro v
    rw [ef, eA]
    show ((1 + 1 / 100 : ℝ) • ((1 + 1 / 100 : ℝ) • ((!![1; 1] : Matrix (Fin 2) (Fin 1) ℝ)ᵀ *ᵥ
      ((1 + 1 / 100 : ℝ) • (!![1; 1] *ᵥ v))) + (1 + 1 / 100 : ℝ) • ((1 : ℝ) • v))) 0 = _
    simp [mulVec, dotProduct, Fin.sum_univ_two]; ring
  have esr : s.r 0 ≠ 0 := by
    have h0 : s.r 0 = 1.01 * (rhs 0 - mvGramFl fl A 1 0 0) := by
      rw [es, ef]
      show (1 + 1 / 100 : ℝ) * (rhs 0 - mvGramFl (inflatedVec (1 / 100)) A 1 0 0) = _
      norm_num
    rw [h0, hmv, hrhs]; norm_num
  have ed : s.d = some s.r := by rw [es]; rfl
  have ec : s.curErr > 0 := by
    have : s.curErr = (1 + 1 / 100) * norm2 s.r := by rw [es, ef]; rfl
    rw [this]
    exact mul_pos (by norm_num) (norm2_pos.2 fun h => esr (congrFun h 0))
  obtain ⟨s', hs'⟩ : ∃ s', pcgStepFl fl (mvGramFl fl A 1) id rhs s = .ok s' := by
    unfold pcgStepFl
    rw [ed]
    have hd : fl.dot s.r (mvGramFl fl A 1 s.r) ≠ 0 := by
      have : fl.dot s.r (mvGramFl fl A 1 s.r) = 1.01 * (s.r 0 * mvGramFl fl A 1 s.r 0) := by
        rw [ef]
        show (1 + 1 / 100 : ℝ) * (s.r ⬝ᵥ mvGramFl (inflatedVec (1 / 100)) A 1 s.r) = _
        simp [dotProduct]; norm_num
      rw [this, hmv]
      have h2 : (1.01 : ℝ) * (s.r 0 * (1.01 * (1.01 * (1.01 * (2 * s.r 0)) + 1.01 * s.r 0))) =
        1.01 * (1.01 * (1.01 * 1.01 * 2 + 1.01)) * (s.r 0 * s.r 0) := by ring
      rw [h2]
      exact mul_ne_zero (by norm_num) (mul_ne_zero esr esr)
    simp only
    rw [show fl.div s.delta1 (fl.dot s.r (mvGramFl fl A 1 s.r)) =
      some ((1 + 1 / 100) * (s.delta1 / fl.dot s.r (mvGramFl fl A 1 s.r))) by
        rw [ef] at hd ⊢; exact if_neg hd]
    exact ⟨_, rfl⟩
  have hl : s'.log = [s.curErr] := by
    obtain ⟨_, _, -, -, -, hl, -⟩ := pcgStepFl_ok hs'
    rw [hl, es]
    rfl
  have hg : pcgFl fl (mvGramFl fl A 1) rhs id 1 0 (pcss1StartFl fl (1 : Matrix (Fin 1) (Fin 1) ℝ) none) = .ok (s'.x, [s.curErr]) := by
    refine pcgFl_ok_iff.2 ⟨by norm_num, s', ?_, rfl, hl⟩
    have hm' : fl.mul 0 (fl.norm (fl.sub rhs (mvGramFl fl A 1 (pcss1StartFl fl (1 : Matrix (Fin 1) (Fin 1) ℝ) none)))) = 0 := by
      rw [ef]
      show (1 + 1 / 100 : ℝ) * (0 * _) = 0
      simp
    rw [← es, hm']
    show pcgLoopFl _ _ _ _ 0 (0 + 1) s = _
    rw [pcgLoopFl_step ec hs']
    rfl
  have hpost : ∃ out, sps1PostFl plainSPS A ![1, 1] none 1 0 1 ⟨1, 1, none⟩ true clock = .ok out ∧
      ∃ times e0 e1, out.log = some ⟨times, [e0, e1]⟩ := by
    refine ⟨⟨some s'.x, some (fl.sub ![1, 1] (fl.mulv A s'.x)), some ⟨clock.setup ::
        (linspace clock.iterate 1).map fun t => clock.setup + clock.presolve + t, fl.norm rhs :: [s.curErr]⟩⟩,
      (sps1PostFl_ok_iff ..).2 ⟨⟨some s'.x, fl.sub ![1, 1] (fl.mulv A s'.x), .arr [s.curErr]⟩, _, ?_, ?_, rfl⟩, _, _, _, rfl⟩
    · rw [show plainSPS.toFlVec = fl from ef.symm]
      exact pcss1Fl_ok_iff.2 ⟨id, 1, s'.x, [s.curErr], rfl, by rw [← er]; exact hg, rfl⟩
    · rw [show plainSPS.toFlVec = fl from ef.symm, ← er]; rfl
  obtain ⟨out, ho, hlog⟩ := hpost
  have e1 : pyInt (1 * ((1 : ℕ) : ℝ)) = 1 := by
    unfold pyInt; rw [if_pos (by norm_num), Int.floor_eq_iff]; norm_num
  refine ⟨out, w, X, ?_, hlog, by exact_mod_cast hX⟩
  rw [← eA]
  unfold sps1CallFl
  rw [Py.assert_pos_bind (by decide), e1, if_neg (by norm_num), if_pos (by norm_num)]
  show (Py.lift (sps1PostFl plainSPS A ![1, 1] none 1 0 1 ⟨1, 1, none⟩ true clock) : Py G _) w = _
  rw [ho]; rfl

end Parla.Props
