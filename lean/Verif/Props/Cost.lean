import Verif.SpecCost
import Verif.Props.Mem
import Verif.Props.PCG

/-! # C92: how often the iterative solvers call the operators -/

namespace Parla.Props

open Matrix Parla Spec
open Parla.Proof

variable {n p q : ℕ}

private theorem mem_ok {α β : Type} {x : Mem α} {f : α → Mem β} {h h' : Heap} {b : β} (e : (x >>= f) h = (.ok b, h')) :
    ∃ a h1, x h = (.ok a, h1) ∧ f a h1 = (.ok b, h') := by
  change Mem.bind x f h = _ at e
  unfold Mem.bind at e
  rcases hx : x h with ⟨_ | a, h1⟩
  · rw [hx] at e; cases e
  · rw [hx] at e; exact ⟨a, h1, rfl, e⟩

/-- the number of times the residual is recomputed from scratch in `K` iterations of `pcg` -/
def recomputed (K : ℕ) : ℕ := (K + 9) / 10

private theorem pcgStep_cost {μ : Heap → ℝ} (hμ : Meter μ) {mvMat mvPre : ℕ → Mem ℕ} {cm cp : ℝ} (hm : Charges μ mvMat cm)
    (hp : Charges μ mvPre cp) {rhs : ℕ} {s s' : PCGRefs} {h h' : Heap} (e : pcgStepM n mvMat mvPre rhs s h = (.ok s', h')) :
    μ h' = μ h + cm * (1 + if s.i % 10 = 0 then 1 else 0) + cp ∧ s'.i = s.i + 1 ∧ s'.log.length = s.log.length + 1 := by
  unfold pcgStepM at e
  rcases hd : s.d with _ | d
  · rw [hd] at e; cases e
  rw [hd] at e
  dsimp only at e
  obtain ⟨q, h1, e1, e⟩ := mem_ok e
  have k1 := hm _ _ _ _ e1
  rw [mem_get, mem_get] at e
  split at e
  · cases e
  rw [mem_get, mem_get, mem_set] at e
  obtain ⟨r, h2, e2, e⟩ := mem_ok e
  have k2 : μ h2 = μ h1 + cm * if s.i % 10 = 0 then 1 else 0 := by
    by_cases hi : s.i % 10 = 0
    · rw [if_pos hi] at e2 ⊢
      obtain ⟨t, h3, e3, e2⟩ := mem_ok e2
      rw [mem_get, mem_get, mem_new'] at e2
      cases e2
      rw [hμ.new, hm _ _ _ _ e3, hμ.set, mul_one]
    · rw [if_neg hi] at e2 ⊢
      rw [mem_get, mem_get, mem_set, mem_pure] at e2
      cases e2
      rw [hμ.set, hμ.set, mul_zero, add_zero]
  rw [mem_get] at e
  obtain ⟨sv, h3, e3, e⟩ := mem_ok e
  have k3 := hp _ _ _ _ e3
  rw [mem_get, mem_get] at e
  obtain ⟨d', h4, e4, e⟩ := mem_ok e
  have k4 : μ h4 = μ h3 := by
    by_cases hi : s.delta1 = 0
    · rw [if_pos hi] at e4
      cases e4; rfl
    · rw [if_neg hi] at e4
      rw [mem_get, mem_get, mem_new] at e4
      cases e4
      exact hμ.new _ _ _
  cases e
  refine ⟨?_, rfl, by simp⟩
  rw [k4, k3, k2, k1]
  ring

private theorem pcgLoop_cost {μ : Heap → ℝ} (hμ : Meter μ) {mvMat mvPre : ℕ → Mem ℕ} {cm cp : ℝ} (hm : Charges μ mvMat cm)
    (hp : Charges μ mvPre cp) {rhs : ℕ} {t : ℝ} (k : ℕ) : ∀ {s s' : PCGRefs} {h h' : Heap},
    pcgLoopM n mvMat mvPre rhs t k s h = (.ok s', h') → s.i = s.log.length → s'.i = s'.log.length ∧
    s.log.length ≤ s'.log.length ∧
    μ h' + cm * (s.log.length + recomputed s.log.length) + cp * s.log.length =
      μ h + cm * (s'.log.length + recomputed s'.log.length) + cp * s'.log.length := by
  induction k with
  | zero => intro s s' h h' e hi; cases e; exact ⟨hi, le_rfl, rfl⟩
  | succ k ih =>
    intro s s' h h' e hi
    unfold pcgLoopM at e
    split at e
    · obtain ⟨s1, h1, e1, e⟩ := mem_ok e
      obtain ⟨c1, c2, c3⟩ := pcgStep_cost hμ hm hp e1
      obtain ⟨d1, d2, d3⟩ := ih e (by omega)
      refine ⟨d1, by omega, ?_⟩
      have hr : recomputed s1.log.length = recomputed s.log.length + if s.i % 10 = 0 then 1 else 0 := by
        unfold recomputed
        rw [c3, hi]
        split <;> omega
      rw [c3, c1] at d3
      rw [c3] at hr
      rw [hr] at d3
      rw [Nat.cast_add, Nat.cast_add, Nat.cast_ite, Nat.cast_one, Nat.cast_zero] at d3
      linarith
    · cases e
      exact ⟨hi, le_rfl, rfl⟩

/-- **C92** (`pcg`).  A call that returns after `K` iterations (the length of its log) has called the operator
`1 + K + ⌈K/10⌉` times (one for the initial residual, one per iteration, and one more in every tenth iteration) and the
preconditioner `1 + K` times.  Here with a cost `cm` per call of the operator and `cp` per call of the preconditioner. -/
theorem C92_pcg {μ : Heap → ℝ} (hμ : Meter μ) {mvMat mvPre : ℕ → Mem ℕ} {cm cp : ℝ} (hm : Charges μ mvMat cm)
    (hp : Charges μ mvPre cp) (rhs x0 : ℕ) (L : ℤ) (tol : ℝ) (h h' : Heap) (x : ℕ) (log : List ℝ)
    (e : pcgM n mvMat rhs mvPre L tol x0 h = (.ok (x, log), h')) :
    μ h' = μ h + cm * (1 + log.length + ((log.length + 9) / 10 : ℕ)) + cp * (1 + log.length) := by
  unfold pcgM at e
  rw [mem_get, mem_new] at e
  split at e
  · cases e
  obtain ⟨t, h1, e1, e⟩ := mem_ok e
  have k1 := hm _ _ _ _ e1
  rw [mem_get, mem_get, mem_new] at e
  obtain ⟨d, h2, e2, e⟩ := mem_ok e
  have k2 := hp _ _ _ _ e2
  rw [mem_get, mem_get, mem_get] at e
  obtain ⟨s, h3, e3, e⟩ := mem_ok e
  cases e
  obtain ⟨-, -, k3⟩ := pcgLoop_cost hμ hm hp _ e3 rfl
  rw [hμ.new] at k1 k2
  rw [show (List.length ([] : List ℝ)) = 0 from rfl, show recomputed 0 = 0 from rfl] at k3
  unfold recomputed at k3
  rw [k2, k1] at k3
  rw [Nat.cast_zero] at k3
  linarith

/-! ## lsqr -/

private theorem lsqrInit_cost {μ : Heap → ℝ} (hμ : Meter μ) {mv rmv : ℕ → Mem ℕ} {cA cT : ℝ} (hA : Charges μ mv cA)
    (hT : Charges μ rmv cT) {b : ℕ} {x0 : Option ℕ} {s : LsqrRefs p q} {h h' : Heap}
    (e : lsqrInitM p q mv rmv b x0 h = (.ok s, h')) :
    ∃ j : ℕ, μ h' = μ h + cA * (if x0.isSome then 1 else 0) + cT * j ∧ (j = 0 ∧ s.num.r2norm = 0 ∨ j = 1 ∧ s.num.r2norm ≠ 0) ∧
      s.num.itn = 0 ∧ s.num.phibar = s.num.r2norm ∧ s.num.arnorm = s.num.rhobar * s.num.r2norm ∧ s.num.res2 = 0 := by
  unfold lsqrInitM at e
  rw [mem_new] at e
  obtain ⟨⟨x, u, beta⟩, h1, e1, e⟩ := mem_ok e
  have k1 : μ h1 = μ h + cA * (if x0.isSome then 1 else 0) ∧ 0 ≤ beta := by
    rcases x0 with _ | x0
    · dsimp only at e1
      rw [mem_new, mem_get] at e1
      cases e1
      refine ⟨?_, norm2_nonneg _⟩
      rw [hμ.new, hμ.new]; simp
    · dsimp only at e1
      obtain ⟨Ax, h2, e2, e1⟩ := mem_ok e1
      rw [mem_get, mem_get, mem_new, mem_get] at e1
      cases e1
      refine ⟨?_, norm2_nonneg _⟩
      rw [hμ.new, hA _ _ _ _ e2, hμ.new]; simp
  dsimp only at e
  obtain ⟨⟨u', v, alfa⟩, h2, e2, e⟩ := mem_ok e
  have k2 : ∃ j : ℕ, μ h2 = μ h1 + cT * j ∧ (j = 0 ∧ beta = 0 ∨ j = 1 ∧ beta ≠ 0) := by
    by_cases hb : 0 < beta
    · rw [if_pos hb, mem_get, mem_new] at e2
      obtain ⟨v, h3, e3, e2⟩ := mem_ok e2
      rw [mem_get] at e2
      cases e2
      refine ⟨1, ?_, .inr ⟨rfl, hb.ne'⟩⟩
      rw [hT _ _ _ _ e3, hμ.new, Nat.cast_one, mul_one]
    · rw [if_neg hb, mem_get, mem_new] at e2
      cases e2
      refine ⟨0, ?_, .inl ⟨rfl, le_antisymm (not_lt.1 hb) k1.2⟩⟩
      rw [hμ.new, Nat.cast_zero, mul_zero, add_zero]
  dsimp only at e
  obtain ⟨v', h3, e3, e⟩ := mem_ok e
  have k3 : μ h3 = μ h2 := by
    split at e3
    · rw [mem_get, mem_new'] at e3
      cases e3
      exact hμ.new _ _ _
    · cases e3; rfl
  rw [mem_get, mem_new] at e
  cases e
  obtain ⟨j, j1, j2⟩ := k2
  refine ⟨j, ?_, j2, rfl, rfl, rfl, rfl⟩
  rw [hμ.new, k3, j1, k1.1]

/-- what `_sym_ortho` does with nonnegative arguments, as far as signs are concerned -/
private theorem rot_sn (a β : ℝ) : (symOrtho a β).2.1 = 0 ↔ β = 0 := by
  rw [symOrtho_eq]
  constructor
  · intro h
    rcases div_eq_zero_iff.1 h with h | h
    · exact h
    · rw [Real.sqrt_eq_zero (by positivity)] at h
      nlinarith [sq_nonneg a, sq_nonneg β]
  · intro h; rw [h]; simp

private theorem lsqrStep_cost {μ : Heap → ℝ} (hμ : Meter μ) {mv rmv : ℕ → Mem ℕ} {cA cT : ℝ} (hA : Charges μ mv cA)
    (hT : Charges μ rmv cT) {damp : ℝ} {cv : Bool} {s s' : LsqrRefs p q} {h h' : Heap}
    (e : lsqrStepM mv rmv damp s cv h = (.ok s', h')) :
    ∃ j : ℕ, μ h' = μ h + cA + cT * j ∧ s'.num.itn = s.num.itn + 1 ∧ j ≤ 1 ∧ (s'.num.arnorm ≠ 0 → j = 1) ∧
      (s'.num.arnorm ≠ 0 → s'.num.phibar ≠ 0 ∧ s'.num.rhobar ≠ 0) ∧
      (damp = 0 → s.num.res2 = 0 → s'.num.res2 = 0 ∧
        (s.num.phibar ≠ 0 → s.num.rhobar ≠ 0 → (s'.num.r2norm = 0 ↔ j = 0))) := by
  unfold lsqrStepM at e
  obtain ⟨⟨s1, beta⟩, h1, e1, e⟩ := mem_ok e
  have k1 : ∃ j : ℕ, μ h1 = μ h + cA + cT * j ∧ s1.num.itn = s.num.itn + 1 ∧ (j = 0 ∧ beta = 0 ∨ j = 1 ∧ beta ≠ 0) ∧
      s1.num.phibar = s.num.phibar ∧ s1.num.rhobar = s.num.rhobar ∧ s1.num.res2 = s.num.res2 := by
    unfold lsqrBidiagM at e1
    obtain ⟨Av, h2, e2, e1⟩ := mem_ok e1
    have c := hA _ _ _ _ e2
    rw [mem_get, mem_get, mem_new, mem_get] at e1
    dsimp only at e1
    split at e1
    · rename_i hb
      rw [mem_get, mem_new] at e1
      obtain ⟨Atu, h3, e3, e1⟩ := mem_ok e1
      have c3 := hT _ _ _ _ e3
      rw [mem_get, mem_get, mem_new, mem_get] at e1
      obtain ⟨v', h4, e4, e1⟩ := mem_ok e1
      have k4 : μ h4 = μ h3 := by
        split at e4
        · rw [mem_get, mem_new'] at e4
          cases e4
          rw [hμ.new, hμ.new]
        · cases e4
          rw [hμ.new]
      cases e1
      refine ⟨1, ?_, rfl, .inr ⟨rfl, hb.ne'⟩, rfl, rfl, rfl⟩
      rw [k4, c3, hμ.new, hμ.new, c, Nat.cast_one, mul_one]
    · rename_i hb
      cases e1
      refine ⟨0, ?_, rfl, .inl ⟨rfl, le_antisymm (not_lt.1 hb) (norm2_nonneg _)⟩, rfl, rfl, rfl⟩
      rw [hμ.new, c, Nat.cast_zero, mul_zero, add_zero]
  dsimp only at e
  unfold lsqrRotateM LsqrRefs.read at e
  rw [mem_assoc, mem_get, mem_assoc, mem_get, mem_assoc, mem_get, mem_assoc, mem_get, mem_assoc, mem_get,
    mem_pure_bind, mem_new, mem_new] at e
  obtain ⟨var, h2, e2, e⟩ := mem_ok e
  have k2 : μ h2 = μ h1 := by
    split at e2
    · rw [mem_new'] at e2
      cases e2
      rw [hμ.new, hμ.new, hμ.new]
    · cases e2
      rw [hμ.new, hμ.new]
  cases e
  obtain ⟨j, j1, j2, j3, j4, j5, j6⟩ := k1
  refine ⟨j, by rw [k2, j1], ?_, by omega, ?_, ?_, ?_⟩
  · exact j2
  · intro ha
    rcases j3 with ⟨rfl, hb⟩ | h
    · exact absurd (by simp only [lsqrRotate, (rot_sn _ _).2 hb, zero_mul, abs_zero, mul_zero]) ha
    · exact h.1
  · intro ha
    simp only [lsqrRotate] at ha ⊢
    have h1 := left_ne_zero_of_mul ha
    have h2 := abs_ne_zero.1 (right_ne_zero_of_mul ha)
    have h3 := left_ne_zero_of_mul h2
    have h4 := right_ne_zero_of_mul h2
    exact ⟨mul_ne_zero h3 (right_ne_zero_of_mul h4), mul_ne_zero (neg_ne_zero.2 (left_ne_zero_of_mul h4)) h1⟩
  · intro hd hr
    have hres : ∀ t : LsqrState p q, t.res2 = 0 → (lsqrRotate damp t beta cv).res2 = 0 := by
      intro t ht
      simp [lsqrRotate, ht, hd]
    refine ⟨hres _ (by simpa [j6] using hr), ?_⟩
    intro hp hrho
    simp only [lsqrRotate]
    rw [j4, j5, j6, hr, hd]
    have hr1 : Real.sqrt (s.num.rhobar ^ 2 + (0 : ℝ) ^ 2) ≠ 0 := by
      rw [Real.sqrt_ne_zero (by positivity)]
      positivity
    rw [Real.sqrt_eq_zero (by positivity)]
    simp only [zero_div, zero_mul, ne_eq, OfNat.ofNat_ne_zero, not_false_eq_true, zero_pow, add_zero, pow_eq_zero_iff,
      mul_eq_zero, rot_sn] at hr1 ⊢
    constructor
    · rintro (h | h)
      · rcases j3 with h' | h'
        · exact h'.1
        · exact absurd h h'.2
      · rcases h with h | h
        · rcases div_eq_zero_iff.1 h with h | h
          · exact absurd h hrho
          · exact absurd h hr1
        · exact absurd h hp
    · intro h0
      left
      rcases j3 with h' | h'
      · exact h'.2
      · omega

private theorem lsqrLoop_cost {μ : Heap → ℝ} (hμ : Meter μ) {mv rmv : ℕ → Mem ℕ} {cA cT : ℝ} (hA : Charges μ mv cA)
    (hT : Charges μ rmv cT) {damp : ℝ} {cv : Bool} {T : LsqrTol} {bn : ℝ} {L : ℕ} (k : ℕ) :
    ∀ {s s' : LsqrRefs p q} {arr arr' : List ℝ} {i : ℕ} {h h' : Heap},
    lsqrLoopM mv rmv damp T bn L cv k s arr h = (.ok (s', i, arr'), h') → s.num.phibar ≠ 0 → s.num.rhobar ≠ 0 →
    (damp = 0 → s.num.res2 = 0 ∧ s.num.r2norm ≠ 0) →
    ∃ n j : ℕ, s'.num.itn = s.num.itn + n ∧ μ h' = μ h + cA * n + cT * j ∧ (j = n ∨ j + 1 = n) ∧
      (damp = 0 → (s'.num.r2norm = 0 ↔ j + 1 = n)) := by
  induction k with
  | zero =>
    intro s s' arr arr' i h h' e _ _ h0
    cases e
    exact ⟨0, 0, rfl, by simp, .inl rfl, fun a => by simp [(h0 a).2]⟩
  | succ k ih =>
    intro s s' arr arr' i h h' e hp hr hi
    unfold lsqrLoopM at e
    dsimp only at e
    obtain ⟨s1, h1, e1, e⟩ := mem_ok e
    obtain ⟨j, j1, j2, j3, j4, j5, j6⟩ := lsqrStep_cost hμ hA hT e1
    split at e
    · cases e
      refine ⟨1, j, j2, by rw [j1, Nat.cast_one, mul_one], by omega, ?_⟩
      intro hd
      rw [(j6 hd (hi hd).1).2 hp hr]
      omega
    · rename_i hs
      have hs := (lsqrStop_eq_zero (not_not.1 hs)).2
      obtain ⟨n, j', i1, i2, i3, i4⟩ := ih e (j5 hs).1 (j5 hs).2 (by
        intro hd
        have hj := j4 hs
        refine ⟨(j6 hd (hi hd).1).1, fun h0 => ?_⟩
        rw [(j6 hd (hi hd).1).2 hp hr] at h0
        omega)
      have hj := j4 hs
      subst hj
      refine ⟨n + 1, j' + 1, by omega, by rw [i2, j1]; push_cast; ring, by omega, ?_⟩
      intro hd
      rw [i4 hd]
      omega

/-- **C92** (`lsqr`).  A call that returns after `itn` iterations has applied the operator `itn` times, once more if a starting
point was given, and its transpose `j` times, where `j` is `itn` or `itn + 1`; without damping it is `itn` exactly if the
estimate `r2norm` of the residual it returns is zero.  Here with a cost `cA` per application of the operator and `cT` of
the transpose. -/
theorem C92_lsqr {μ : Heap → ℝ} (hμ : Meter μ) {mv rmv : ℕ → Mem ℕ} {cA cT : ℝ} (hA : Charges μ mv cA)
    (hT : Charges μ rmv cT) (b : ℕ) (damp : ℝ) (T : LsqrTol) (L : Option ℤ) (x0 : Option ℕ) (cv : Bool) (h h' : Heap)
    (o : LsqrOutRefs q) (e : lsqrM p q mv rmv b damp T L x0 cv h = (.ok o, h')) :
    ∃ j : ℕ, μ h' = μ h + cA * (o.rest.itn + if x0.isSome then 1 else 0) + cT * j ∧
      (j = o.rest.itn ∨ j = o.rest.itn + 1) ∧ (damp = 0 → (j = o.rest.itn ↔ o.rest.r2norm = 0)) := by
  unfold lsqrM at e
  rw [mem_get] at e
  obtain ⟨s, h1, e1, e⟩ := mem_ok e
  obtain ⟨j, j1, j2, j3, j4, j5, j6⟩ := lsqrInit_cost hμ hA hT e1
  split at e
  · cases e
    refine ⟨j, ?_, ?_, fun _ => ?_⟩
    · dsimp only; rw [j1, j3, Nat.cast_zero, zero_add]
    · dsimp only; rw [j3]; omega
    · dsimp only
      rw [j3]
      constructor
      · intro h0
        rcases j2 with h | h
        · exact h.2
        · omega
      · intro h0
        rcases j2 with h | h
        · exact h.1
        · exact absurd h0 h.2
  · rename_i ha
    rw [j5] at ha
    split at e
    · cases e
    obtain ⟨⟨s', i, arr⟩, h2, e2, e⟩ := mem_ok e
    cases e
    have hr := right_ne_zero_of_mul ha
    obtain ⟨n, k, k1, k2, k3, k4⟩ := lsqrLoop_cost hμ hA hT _ e2 (by rw [j4]; exact hr) (left_ne_zero_of_mul ha)
      (fun _ => ⟨j6, hr⟩)
    have hj : j = 1 := by
      rcases j2 with h | h
      · exact absurd h.2 hr
      · exact h.1
    dsimp only
    refine ⟨k + 1, ?_, by omega, fun hd => ?_⟩
    · rw [k2, j1, k1, j3, hj]
      push_cast
      ring
    · rw [k4 hd]
      omega

/-! ## Function handles that count their calls -/

/-- a function handle that first adds one to the counter kept in the `1 × 1` array at the address `a` -/
noncomputable def counted (a : ℕ) (op : ℕ → Mem ℕ) (x : ℕ) : Mem ℕ := do
  let c ← getMat 1 1 a
  setMat a (c + Matrix.of fun _ _ => 1)
  op x

/-- what the counter says -/
def counter (a : ℕ) (h : Heap) : ℝ := h.mat a 1 1 0 0

theorem counter_meter (a : ℕ) : Meter (counter a) := ⟨fun _ _ _ => rfl, fun _ _ _ _ => rfl⟩

/-- multiplication by a matrix held by the function handle: a new array -/
noncomputable def timesM (M : Matrix (Fin p) (Fin q) ℝ) (x : ℕ) : Mem ℕ := do
  newVec (M *ᵥ (← getVec q x))

theorem counted_charges (a : ℕ) (M : Matrix (Fin p) (Fin q) ℝ) : Charges (counter a) (counted a (timesM M)) 1 := by
  intro x h b h' e
  unfold counted timesM at e
  rw [mem_getM, mem_setM, mem_get, mem_new'] at e
  cases e
  unfold counter
  rw [newV_mat, setM_self]
  rfl

theorem other_charges {a a' : ℕ} (ha : a ≠ a') (M : Matrix (Fin p) (Fin q) ℝ) :
    Charges (counter a) (counted a' (timesM M)) 0 := by
  intro x h b h' e
  unfold counted timesM at e
  rw [mem_getM, mem_setM, mem_get, mem_new'] at e
  cases e
  unfold counter
  rw [newV_mat, setM_mat _ _ _ ha, add_zero]

theorem counted_computes (a : ℕ) (M : Matrix (Fin p) (Fin q) ℝ) (h : Heap) (W : Set ℕ) (ha : a ∈ W) :
    Computes h W (counted a (timesM M)) fun v => .ok (M *ᵥ v) := by
  intro h1 x h2 hx hxW
  have e : counted a (timesM M) x h1 =
      (.ok h1.next, (h1.setM a (h1.mat a 1 1 + Matrix.of fun _ _ => 1)).newV (M *ᵥ h1.vec x q)) := rfl
  rw [e]
  refine ⟨?_, ?_, .inr le_rfl, ?_⟩
  · exact om_newV (om_setM (om_refl W h1) _ (.inl ha)) _
  · simp
  · exact newV_self _ _

/-- **C92** (`pcg`, with two counters).  Run on matrices `M` and `N` whose products are counted, `pcg` returns what it
returns by value, and after `K` iterations the counters have advanced by `1 + K + ⌈K/10⌉` and `1 + K`. -/
theorem C92_pcg_counters (M N : Matrix (Fin n) (Fin n) ℝ) (h : Heap) (a a' rhs x0 : ℕ) (ha : a < h.next) (ha' : a' < h.next)
    (hne : a ≠ a') (hrhs : rhs < h.next) (h1 : rhs ≠ a) (h2 : rhs ≠ a') (L : ℤ) (tol : ℝ) (x : Fin n → ℝ) (log : List ℝ)
    (e : pcg (fun v => M *ᵥ v) (h.vec rhs n) (fun v => N *ᵥ v) L tol (h.vec x0 n) = .ok (x, log)) :
    ∃ y h', pcgM n (counted a (timesM M)) rhs (counted a' (timesM N)) L tol x0 h = (.ok (y, log), h') ∧ h'.vec y n = x ∧
      counter a h' = counter a h + (1 + log.length + ((log.length + 9) / 10 : ℕ)) ∧
      counter a' h' = counter a' h + (1 + log.length) := by
  have hs := C83_pcg (n := n) (W := {a, a'}) (counted_computes a M h {a, a'} (by simp))
    (counted_computes a' N h {a, a'} (by simp)) (by rintro b (rfl | rfl) <;> assumption) hrhs
    (by rintro (h | h) <;> contradiction) L tol (x0 := x0)
  unfold Sim at hs
  rw [e] at hs
  rcases hm : pcgM n (counted a (timesM M)) rhs (counted a' (timesM N)) L tol x0 h with ⟨_ | ⟨y, log'⟩, h'⟩
  · rw [hm] at hs; exact hs.2.elim
  rw [hm] at hs
  obtain ⟨-, hs1, hs2⟩ := hs
  dsimp only at hs1 hs2
  subst hs2
  refine ⟨y, h', rfl, hs1.2.2, ?_, ?_⟩
  · rw [C92_pcg (counter_meter a) (counted_charges a M) (other_charges hne N) _ _ _ _ _ _ _ _ hm]; ring
  · rw [C92_pcg (counter_meter a') (other_charges (Ne.symm hne) M) (counted_charges a' N) _ _ _ _ _ _ _ _ hm]; ring

/-- **C92** (`lsqr`, with two counters).  Run on a matrix whose products, and those of whose transpose, are counted,
`lsqr` returns what it returns by value; the counters have advanced by `itn` (one more if a starting point was given)
and by `itn + 1`, except that the last product with the transpose is not made if the residual became zero. -/
theorem C92_lsqr_counters (F : Matrix (Fin p) (Fin q) ℝ) (h : Heap) (a a' b : ℕ) (x0 : Option ℕ) (ha : a < h.next)
    (ha' : a' < h.next) (hne : a ≠ a') (hb : b < h.next) (h1 : b ≠ a) (h2 : b ≠ a')
    (hx : ∀ c ∈ x0, c < h.next ∧ c ≠ a ∧ c ≠ a') (T : LsqrTol) (L : Option ℤ) (cv : Bool) (o : LsqrOut q)
    (e : lsqr (LinOp.ofMat F) (h.vec b p) 0 T L (x0.map fun c => h.vec c q) cv = .ok o) :
    ∃ r h', lsqrM p q (counted a (timesM F)) (counted a' (timesM Fᵀ)) b 0 T L x0 cv h = (.ok r, h') ∧ h'.vec r.x q = o.x ∧
      counter a h' = counter a h + (o.itn + if x0.isSome then 1 else 0) ∧
      counter a' h' = counter a' h + (o.itn + if o.r2norm = 0 then 0 else 1) := by
  have hs := C83_lsqr (p := p) (q := q) (W := {a, a'}) (A := LinOp.ofMat F) (counted_computes a F h {a, a'} (by simp))
    (counted_computes a' Fᵀ h {a, a'} (by simp)) (by rintro b (rfl | rfl) <;> assumption) hb
    (by rintro (h | h) <;> contradiction) (x0 := x0)
    (fun c hc => ⟨(hx c hc).1, by rintro (h | h); exact (hx c hc).2.1 h; exact (hx c hc).2.2 h⟩) 0 T L cv
  unfold Sim at hs
  rw [e] at hs
  rcases hm : lsqrM p q (counted a (timesM F)) (counted a' (timesM Fᵀ)) b 0 T L x0 cv h with ⟨_ | r, h'⟩
  · rw [hm] at hs; exact hs.2.elim
  rw [hm] at hs
  obtain ⟨-, hs1, -, -, hs2⟩ := hs
  dsimp only at hs1 hs2
  have i1 : r.rest.itn = o.itn := by rw [← hs2]
  have i2 : r.rest.r2norm = o.r2norm := by rw [← hs2]
  refine ⟨r, h', rfl, ?_, ?_, ?_⟩
  · rcases hs1 with h | h
    · exact h.2.2
    · exact h.2.2
  · obtain ⟨j, j1, -⟩ := C92_lsqr (counter_meter a) (counted_charges a F) (other_charges hne Fᵀ) _ _ _ _ _ _ _ _ _ hm
    rw [j1, i1]; ring
  · obtain ⟨j, j1, j2, j3⟩ := C92_lsqr (counter_meter a') (other_charges (Ne.symm hne) F) (counted_charges a' Fᵀ)
      _ _ _ _ _ _ _ _ _ hm
    rw [i1] at j2 j3
    rw [i2] at j3
    rw [j1]
    by_cases h0 : o.r2norm = 0
    · rw [if_pos h0, (j3 rfl).2 h0]; ring
    · rw [if_neg h0, j2.resolve_left fun h => h0 ((j3 rfl).1 h)]; push_cast; ring

/-- **C92** (`pcg`, a budget): for a consistent positive semidefinite system of rank `r` and a positive definite
preconditioner, `pcg` returns and makes at most `1 + r + ⌈r/10⌉` products with the matrix, however large the iteration
limit and however small the tolerance. -/
theorem C92_pcg_budget (M N : Matrix (Fin n) (Fin n) ℝ) (hM : IsPSD M) (hN : IsPD N) (h : Heap) (a a' rhs x0 : ℕ)
    (ha : a < h.next) (ha' : a' < h.next) (hne : a ≠ a') (hrhs : rhs < h.next) (h1 : rhs ≠ a) (h2 : rhs ≠ a')
    (hx : ∃ xs, M *ᵥ xs = h.vec rhs n) (L : ℤ) (hL : 0 ≤ L) (tol : ℝ) (ht : 0 ≤ tol) :
    ∃ y log h', pcgM n (counted a (timesM M)) rhs (counted a' (timesM N)) L tol x0 h = (.ok (y, log), h') ∧
      counter a h' ≤ counter a h + (1 + M.rank + ((M.rank + 9) / 10 : ℕ)) ∧
      counter a' h' ≤ counter a' h + (1 + M.rank) := by
  obtain ⟨x, log, e, hl, -⟩ := C28_pcg_converges M N hM hN (h.vec rhs n) (h.vec x0 n) hx L hL tol ht
  obtain ⟨y, h', e', -, c1, c2⟩ := C92_pcg_counters M N h a a' rhs x0 ha ha' hne hrhs h1 h2 L tol x log e
  refine ⟨y, log, h', e', ?_, ?_⟩
  · rw [c1]
    have h3 : (log.length + 9) / 10 ≤ (M.rank + 9) / 10 := by omega
    have h4 : ((log.length : ℕ) : ℝ) ≤ M.rank := by exact_mod_cast hl
    have h5 : (((log.length + 9) / 10 : ℕ) : ℝ) ≤ ((M.rank + 9) / 10 : ℕ) := by exact_mod_cast h3
    linarith
  · rw [c2]
    have h4 : ((log.length : ℕ) : ℝ) ≤ M.rank := by exact_mod_cast hl
    linarith

/-- the hypotheses are met: four objects in memory, the right-hand side at the address 2, the start at 3 -/
example : ∃ (h : Heap) (y : ℕ) (log : List ℝ) (h' : Heap),
    pcgM 2 (counted 0 (timesM !![2, 1; 1, 2])) 2 (counted 1 (timesM !![1, 0; 0, 3])) 50 0 3 h = (.ok (y, log), h') ∧
    h.vec 2 2 = ![1, -1] ∧ h.vec 3 2 = ![5, 7] ∧ counter 0 h' ≤ counter 0 h + 4 := by
  obtain ⟨h, hh⟩ : ∃ h : Heap, h = ⟨4, fun a k => if e : k = 2 then (if a = 2 then ![1, -1] else ![5, 7]) ∘ Fin.cast e
    else 0, fun _ _ _ => 0⟩ := ⟨_, rfl⟩
  have v2 : h.vec 2 2 = ![1, -1] := by rw [hh]; rfl
  have v3 : h.vec 3 2 = ![5, 7] := by rw [hh]; rfl
  have hn : h.next = 4 := by rw [hh]
  obtain ⟨y, log, h', e, c, -⟩ := C92_pcg_budget (n := 2) !![2, 1; 1, 2] !![1, 0; 0, 3] ⟨by
      ext i j; fin_cases i <;> fin_cases j <;> rfl, by
      intro x
      simp [Matrix.mulVec, dotProduct, Fin.sum_univ_two]
      nlinarith [sq_nonneg (x 0 + x 1), sq_nonneg (x 0), sq_nonneg (x 1)]⟩ ⟨by
      ext i j; fin_cases i <;> fin_cases j <;> rfl, by
      intro x hx
      have h0 : x 0 ≠ 0 ∨ x 1 ≠ 0 := by
        by_contra hc
        push Not at hc
        exact hx (by ext i; fin_cases i; exact hc.1; exact hc.2)
      simp [Matrix.mulVec, dotProduct, Fin.sum_univ_two]
      rcases h0 with h0 | h0
      · nlinarith [mul_self_pos.2 h0, mul_self_nonneg (x 1)]
      · nlinarith [mul_self_pos.2 h0, mul_self_nonneg (x 0)]⟩ h 0 1 2 3 (by omega) (by omega) (by omega) (by omega)
    (by omega) (by omega) ⟨![1, -1], by
      rw [v2]; ext i; fin_cases i <;> simp [Matrix.mulVec, dotProduct, Fin.sum_univ_two] <;> norm_num⟩ 50 (by norm_num) 0 le_rfl
  refine ⟨h, y, log, h', e, v2, v3, c.trans ?_⟩
  have hr : (!![2, 1; 1, 2] : Matrix (Fin 2) (Fin 2) ℝ).rank ≤ 2 := Matrix.rank_le_width _
  have h1 : ((!![2, 1; 1, 2] : Matrix (Fin 2) (Fin 2) ℝ).rank + 9) / 10 ≤ 1 := by omega
  have hr' : (((!![2, 1; 1, 2] : Matrix (Fin 2) (Fin 2) ℝ).rank : ℕ) : ℝ) ≤ 2 := by exact_mod_cast hr
  have h1' : ((((!![2, 1; 1, 2] : Matrix (Fin 2) (Fin 2) ℝ).rank + 9) / 10 : ℕ) : ℝ) ≤ 1 := by exact_mod_cast h1
  linarith

end Parla.Props
