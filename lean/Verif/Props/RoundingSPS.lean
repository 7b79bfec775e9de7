import Verif.Model.RoundingSPS
import Verif.Props.RoundingPCG

/-! # C104: SPS1 with rounding errors -/

namespace Parla.Props

open Matrix Parla Spec Parla.Proof

variable {G : Type} {m n : ℕ}

theorem normalRhsFl_exact (A : Matrix (Fin m) (Fin n) ℝ) (b : Fin m → ℝ) (c : Option (Fin n → ℝ)) :
    normalRhsFl exactVec A b c = normalRhs A b c := by cases c <;> rfl

theorem PcSS1Fl_exact (la : LinAlg) : PcSS1Fl (exactSPS la) = PcSS1 := by
  funext m n A b c δ tol L P z0
  cases P with
  | tri R => cases b <;> rfl
  | gen r R =>
    cases b with
    | multi _ _ => rfl
    | none => exact (C85_exact (r := r) id id 0 0 L tol A 0 c δ R z0).2
    | vec b => exact (C85_exact (r := r) id id 0 0 L tol A b c δ R z0).2

/-- **C104** (exact arithmetic is a special case): with exact operations `SPS1` with rounding is `SPS1` with `PcSS1`. -/
theorem C104_exact (la : LinAlg) (gen : SkOpGen G) (sf : ℝ) (strategy : NystromStrategy) (A : Matrix (Fin m) (Fin n) ℝ)
    (b : Option (Fin m → ℝ)) (c : Option (Fin n → ℝ)) (δ tol : ℝ) (L : ℤ) (logging : Bool) (clock : LogTimes) :
    sps1CallFl (exactSPS la) gen sf strategy A b c δ tol L logging clock =
      sps1Call la gen sf PcSS1 strategy A b c δ tol L logging clock := by
  have hp : ∀ (b : Fin m → ℝ) (p : SPSPrec n), sps1PostFl (exactSPS la) A b c δ tol L p logging clock =
      sps1Post PcSS1 A b c δ tol L p logging clock := by
    intro b p
    unfold sps1PostFl sps1Post
    rw [PcSS1Fl_exact, show (exactSPS la).toFlVec = exactVec from rfl, normalRhsFl_exact]
    rfl
  unfold sps1CallFl sps1Call
  simp only [hp, show (exactSPS la).toFlVec = exactVec from rfl, normalRhsFl_exact]
  rfl

/-- whatever the limit and the logging flag, a call of `SPS1` first makes the same preconditioner and start -/
theorem sps1Fl_setup (fl : FlSPS) (gen : SkOpGen G) (sf : ℝ) (strategy : NystromStrategy) (A : Matrix (Fin m) (Fin n) ℝ)
    (b : Option (Fin m → ℝ)) (c : Option (Fin n → ℝ)) (δ tol : ℝ) (w : World G) :
    (∃ p w', ∀ L logging clock, sps1CallFl fl gen sf strategy A b c δ tol L logging clock w =
      (Py.lift (sps1PostFl fl A (b.getD 0) c δ tol L p logging clock) : Py G _) w') ∨
    ∃ e, ∀ L logging clock, sps1CallFl fl gen sf strategy A b c δ tol L logging clock w = .error e := by
  unfold sps1CallFl
  by_cases hs : strategy ≠ .other
  · simp only [Py.assert_pos_bind hs]
    by_cases hd : pyInt (sf * n) < 0
    · simp only [if_pos hd]
      exact .inr ⟨.value, fun _ _ _ => rfl⟩
    · simp only [if_neg hd]
      by_cases hdn : ¬ (pyInt (sf * n)).toNat < n
      · simp only [if_pos hdn]
        cases hS : gen (pyInt (sf * n)).toNat m w with
        | error e => exact .inr ⟨e, fun _ _ _ => Py.bind_eq_of_error hS⟩
        | ok v =>
          obtain ⟨S, w1⟩ := v
          simp only [Py.bind_eq_of_ok hS]
          cases hp : fl.svd S A (normalRhsFl fl.toFlVec A (b.getD 0) c) δ with
          | error e => exact .inr ⟨e, fun _ _ _ => rfl⟩
          | ok p => exact .inl ⟨p, w1, fun _ _ _ => rfl⟩
      · simp only [if_neg hdn]
        by_cases hr : strategy = .right
        · simp only [if_pos hr]
          cases hS : gen n (pyInt (sf * n)).toNat w with
          | error e => exact .inr ⟨e, fun _ _ _ => Py.bind_eq_of_error hS⟩
          | ok v => exact .inl ⟨fl.right v.1 A, v.2, fun _ _ _ => Py.bind_eq_of_ok hS⟩
        · simp only [if_neg hr]
          cases hS : gen (pyInt (sf * n)).toNat m w with
          | error e => exact .inr ⟨e, fun _ _ _ => Py.bind_eq_of_error hS⟩
          | ok v => exact .inl ⟨fl.left v.1 A, v.2, fun _ _ _ => Py.bind_eq_of_ok hS⟩
  · simp only [Py.assert_neg_bind hs]
    exact .inr ⟨.assertion, fun _ _ _ => rfl⟩

theorem sps1PostFl_ok_iff (fl : FlSPS) (A : Matrix (Fin m) (Fin n) ℝ) (b : Fin m → ℝ) (c : Option (Fin n → ℝ)) (δ tol : ℝ) (L : ℤ)
    (p : SPSPrec n) (logging : Bool) (clock : LogTimes) (out : SPSOut m n) :
    sps1PostFl fl A b c δ tol L p logging clock = .ok out ↔
      ∃ res log, pcss1CoreFl fl.toFlVec fl.pre A b c δ tol L p.M p.z = .ok res ∧
        finishLog logging clock res.errs (fl.norm (normalRhsFl fl.toFlVec A b c)) = .ok log ∧ out = ⟨res.x, some res.y, log⟩ := by
  have e : sps1PostFl fl A b c δ tol L p logging clock =
      (pcss1CoreFl fl.toFlVec fl.pre A b c δ tol L p.M p.z).bind fun res =>
        (finishLog logging clock res.errs (fl.norm (normalRhsFl fl.toFlVec A b c))).bind fun log =>
          .ok ⟨res.x, some res.y, log⟩ := rfl
  rw [e]
  cases pcss1CoreFl fl.toFlVec fl.pre A b c δ tol L p.M p.z with
  | error e => simp [Except.bind]
  | ok res =>
    simp only [Except.bind, Except.ok.injEq]
    cases hl : finishLog logging clock res.errs (fl.norm (normalRhsFl fl.toFlVec A b c)) with
    | error e => simp [hl]
    | ok log =>
      simp only [Except.ok.injEq]
      constructor
      · rintro rfl; exact ⟨res, log, rfl, hl, rfl⟩
      · rintro ⟨r', l', rfl, hl', rfl⟩
        rw [hl] at hl'; cases hl'; rfl

/-- **C104** (logging).  Whether errors are logged does not change what `SPS1` returns, or the generator state it leaves. -/
theorem C104_sps1_logging (fl : FlSPS) (gen : SkOpGen G) (sf : ℝ) (strategy : NystromStrategy) (A : Matrix (Fin m) (Fin n) ℝ)
    (b : Option (Fin m → ℝ)) (c : Option (Fin n → ℝ)) (δ tol : ℝ) (L : ℤ) (clock clock' : LogTimes) (out : SPSOut m n)
    (w w' : World G) (h : sps1CallFl fl gen sf strategy A b c δ tol L false clock w = .ok (out, w')) :
    ∃ log, sps1CallFl fl gen sf strategy A b c δ tol L true clock' w = .ok (⟨out.x, out.y, some log⟩, w') := by
  rcases sps1Fl_setup fl gen sf strategy A b c δ tol w with ⟨p, w1, hs⟩ | ⟨e, he⟩
  · rw [hs] at h
    obtain ⟨h1, rfl⟩ := Py.lift_ok_iff.1 h
    obtain ⟨res, log, hres, hlog, rfl⟩ := (sps1PostFl_ok_iff ..).1 h1
    obtain ⟨mvPre, R', x, l, -, -, hr⟩ := pcss1Fl_ok_iff.1 hres
    have he : res.errs = .arr l := by rw [hr]
    refine ⟨⟨clock'.setup :: (linspace clock'.iterate l.length).map fun s => clock'.setup + clock'.presolve + s,
      fl.norm (normalRhsFl fl.toFlVec A (b.getD 0) c) :: l⟩, ?_⟩
    rw [hs]
    refine Py.lift_ok_iff.2 ⟨(sps1PostFl_ok_iff ..).2 ⟨res, _, hres, ?_, rfl⟩, rfl⟩
    rw [he]; rfl
  · rw [he] at h; cases h

/-- **C104** (SPS1 with rounding errors).  Let the vector operations be accurate to `ε ≤ 1/100`, whatever is done to sketch, factor,
presolve, and apply the preconditioner.  Suppose `SPS1` with `PcSS1` returns `(x, y, log)`, no `x` it returns from the same generator
state under a smaller `iter_lim` is longer than `X`, and let `P = ‖A‖ ‖b‖ + ‖c‖ + (‖A‖² + δ) X`.  Then `y` solves the upper block of
equations up to `3 ε (‖b‖ + ‖A‖ X)`; the first logged error is the norm of `A'b - c` up to `5 ε P`; each further one is the norm of the
residual of the normal equations at the `x` that the same call with that `iter_lim` returns, up to `220 ε P`; and if fewer than
`iter_lim` iterations were made, the residual `A'y - δx - c` of the lower block is at most `tol` times the initial residual of the
normal equations, up to an error of the same kind. -/
theorem C104_sps1 (fl : FlSPS) (N : ℕ) (ε : ℝ) (hfl : fl.toFlVec.Accurate N ε) (hε : 0 ≤ ε) (hε1 : ε ≤ 1 / 100) (hm : m ≤ N)
    (hn : n ≤ N) (gen : SkOpGen G) (sf : ℝ) (strategy : NystromStrategy) (A : Matrix (Fin m) (Fin n) ℝ)
    (b : Option (Fin m → ℝ)) (c : Option (Fin n → ℝ)) (δ tol : ℝ) (hδ : 0 ≤ δ) (htol : 0 ≤ tol) (L : ℤ) (clock : LogTimes)
    (out : SPSOut m n) (w w' : World G) (h : sps1CallFl fl gen sf strategy A b c δ tol L true clock w = .ok (out, w')) (X : ℝ)
    (hX : ∀ j : ℤ, j ≤ L → ∀ o w'', sps1CallFl fl gen sf strategy A b c δ tol j true clock w = .ok (o, w'') →
      ∀ x, o.x = some x → norm2 x ≤ X) (P : ℝ)
    (hP : P = fro A * norm2 (b.getD 0) + norm2 (c.getD 0) + (fro A ^ 2 + δ) * X) :
    ∃ x y times e0 errors, out = ⟨some x, some y, some ⟨times, e0 :: errors⟩⟩ ∧
      norm2 (y + A *ᵥ x - b.getD 0) ≤ 3 * (ε * (norm2 (b.getD 0) + fro A * X)) ∧
      |e0 - norm2 (Aᵀ *ᵥ b.getD 0 - c.getD 0)| ≤ 5 * (ε * P) ∧
      (errors.length : ℤ) ≤ L ∧
      (∀ i (hi : i < errors.length), ∃ o xi, sps1CallFl fl gen sf strategy A b c δ tol i true clock w = .ok (o, w') ∧
        o.x = some xi ∧ |errors[i] - norm2 (Aᵀ *ᵥ b.getD 0 - c.getD 0 - (Aᵀ * A + δ • 1) *ᵥ xi)| ≤ 220 * (ε * P)) ∧
      ((errors.length : ℤ) = L ∨ ∃ o xs, sps1CallFl fl gen sf strategy A b c δ tol 0 true clock w = .ok (o, w') ∧ o.x = some xs ∧
        norm2 (Aᵀ *ᵥ y - δ • x - c.getD 0) ≤
          (1 + ε) * tol * (norm2 (Aᵀ *ᵥ b.getD 0 - c.getD 0 - (Aᵀ * A + δ • 1) *ᵥ xs) + 220 * (ε * P)) + 225 * (ε * P)) := by
  rcases sps1Fl_setup fl gen sf strategy A b c δ tol w with ⟨p, w1, hs⟩ | ⟨e, he⟩
  swap
  · rw [he] at h; cases h
  rw [hs] at h
  obtain ⟨h1, rfl⟩ := Py.lift_ok_iff.1 h
  obtain ⟨res, log, hres, hlog, rfl⟩ := (sps1PostFl_ok_iff ..).1 h1
  rename' b => bo
  obtain ⟨b, eb⟩ : ∃ b', b' = bo.getD 0 := ⟨_, rfl⟩
  rw [← eb] at hP hres hlog ⊢
  have hrun : ∀ (j : ℤ) (o : SaddleOut m n), pcss1CoreFl fl.toFlVec fl.pre A b c δ tol j p.M p.z = .ok o →
      ∃ o', sps1CallFl fl gen sf strategy A bo c δ tol j true clock w = .ok (o', w') ∧ o'.x = o.x := by
    intro j o ho
    obtain ⟨mvPre, R', x, l, -, -, hr⟩ := pcss1Fl_ok_iff.1 ho
    have he : o.errs = .arr l := by rw [hr]
    refine ⟨⟨o.x, some o.y, some ⟨clock.setup :: (linspace clock.iterate l.length).map fun s => clock.setup + clock.presolve + s,
      fl.norm (normalRhsFl fl.toFlVec A b c) :: l⟩⟩, ?_, rfl⟩
    rw [hs, ← eb]
    refine Py.lift_ok_iff.2 ⟨(sps1PostFl_ok_iff ..).2 ⟨o, _, ho, ?_, rfl⟩, rfl⟩
    rw [he]; rfl
  obtain ⟨x, errors, ex, ee, q1, q2, q3, q4⟩ := C85_pcss1_honest fl.toFlVec N ε hfl hε hε1 hm hn fl.pre A b c δ tol hδ htol L p.M p.z
    res hres X (fun j hj o ho x hx => by
      obtain ⟨o', ho', hx'⟩ := hrun j o ho
      exact hX j hj o' w' ho' x (by rw [hx', hx])) P hP
  have hX0 : 0 ≤ X := by
    obtain ⟨o', ho', hx'⟩ := hrun L res hres
    exact (norm2_nonneg x).trans (hX L le_rfl o' w' ho' x (by rw [hx', ex]))
  rw [ee] at hlog
  cases hlog
  refine ⟨x, res.y, _, _, errors, by rw [ex], q1, ?_, q2, fun i hi => ?_, q4.imp id ?_⟩
  · obtain ⟨r1, r2⟩ := normalRhsFl_close hfl hε hε1 hm hn A b c
    have r3 := hfl.norm (normalRhsFl fl.toFlVec A b c) hn
    have hr0 : rhsOf A b c = Aᵀ *ᵥ b - c.getD 0 := rfl
    rw [← hr0]
    obtain ⟨r4, r5⟩ := norm2_abs_le r1
    obtain ⟨T, eT⟩ : ∃ T, T = fro A * norm2 b + norm2 (c.getD 0) := ⟨_, rfl⟩
    rw [← eT] at r2 r4 r5 hP
    obtain ⟨ν, eν⟩ : ∃ ν, ν = norm2 (normalRhsFl fl.toFlVec A b c) := ⟨_, rfl⟩
    rw [← eν] at r3 r4 r5
    have hT : 0 ≤ T := (norm2_nonneg _).trans r2
    have hTP : T ≤ P := by
      rw [hP]
      have : 0 ≤ (fro A ^ 2 + δ) * X := mul_nonneg (by positivity) hX0
      linarith
    have h1 : ε * T ≤ ε * P := mul_le_mul_of_nonneg_left hTP hε
    have hεT := mul_nonneg hε hT
    have h2 : ν ≤ 1.03 * T := by
      have := mul_le_mul_of_nonneg_right hε1 hT
      linarith
    have h3 := mul_le_mul_of_nonneg_left h2 hε
    obtain ⟨r6, r7⟩ := abs_le.1 r3
    rw [abs_le]
    constructor <;> linarith
  · obtain ⟨o, xi, ho, hxi, hb⟩ := q3 i hi
    obtain ⟨o', ho', hx'⟩ := hrun i o ho
    exact ⟨o', xi, ho', by rw [hx', hxi], hb⟩
  · rintro ⟨o, xs, ho, hxs, hb⟩
    obtain ⟨o', ho', hx'⟩ := hrun 0 o ho
    exact ⟨o', xs, ho', by rw [hx', hxs], hb⟩

end Parla.Props
