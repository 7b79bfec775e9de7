import Verif.Model.Oblivious
import Verif.Props.Sampling
import Verif.Props.Orthonormal
import Verif.Props.SparseSign

/-! # Property C50: the sketch operator generator classes -/

namespace Parla.Props

open Matrix Parla Spec

variable {G : Type}

theorem asOp_ok {r c : ℕ} {x : Py G (Matrix (Fin r) (Fin c) ℝ)} {w w' : World G} {res : SkRes r c}
    (h : x.asOp w = .ok (res, w')) : ∃ M, x w = .ok (M, w') ∧ res = some (.ofMat M) := by
  unfold Py.asOp at h
  rw [Py.bind_ok_iff] at h
  obtain ⟨M, w₁, h1, h⟩ := h
  cases h
  exact ⟨M, h1, rfl⟩

/-- **C50** (the result of a generator).  Whatever class is used, if the call returns then
* for `SkOpSS` the result is `None`, although a sparse sign operator was drawn;
* the base class never returns;
* otherwise the result is an operator, and there is one matrix `M` of the requested shape such that the
  products with vectors are those of `M` and `M'`; this excludes only a wide `SkOpIN` with repeated
  indices. -/
theorem C50_generator_result (la : LinAlg) (R : NpRng G) (cls : SketchClass) (r c : ℕ) (w w' : World G)
    (res : SkRes r c) (h : cls.call la R r c w = .ok (res, w'))
    (hd : ∀ l, cls = .IN (some l) → r ≤ c → l.Nodup) :
    cls ≠ .base ∧ ((∃ ρ, cls = .SS ρ) → res = none) ∧
    ((∀ ρ, cls ≠ .SS ρ) → ∃ S, res = some S ∧ ∃ M : Matrix (Fin r) (Fin c) ℝ,
      (∀ x, S.mv x = .ok (M *ᵥ x)) ∧ ∀ y, S.rmv y = .ok (Mᵀ *ᵥ y)) := by
  have ofM : ∀ M : Matrix (Fin r) (Fin c) ℝ, res = some (.ofMat M) → ∃ S, res = some S ∧
      ∃ M : Matrix (Fin r) (Fin c) ℝ, (∀ x, S.mv x = .ok (M *ᵥ x)) ∧ ∀ y, S.rmv y = .ok (Mᵀ *ᵥ y) :=
    fun M e => ⟨_, e, M, fun _ => rfl, fun _ => rfl⟩
  cases cls with
  | base => cases h
  | ON =>
    obtain ⟨M, h1, h2⟩ := asOp_ok h
    exact ⟨by simp, by simp, fun _ => ofM M h2⟩
  | GA nrm =>
    obtain ⟨M, h1, h2⟩ := asOp_ok h
    exact ⟨by simp, by simp, fun _ => ofM M h2⟩
  | SJ k =>
    obtain ⟨M, h1, h2⟩ := asOp_ok h
    exact ⟨by simp, by simp, fun _ => ofM M h2⟩
  | SS ρ =>
    refine ⟨by simp, fun _ => ?_, fun h => absurd rfl (h ρ)⟩
    change (skOpSSCall R ρ r c) w = _ at h
    unfold skOpSSCall at h
    rw [Py.bind_ok_iff] at h
    obtain ⟨M, w₁, h1, h⟩ := h
    cases h
    rfl
  | TC =>
    refine ⟨by simp, by simp, fun _ => ?_⟩
    change (skOpTCCall la R r c) w = _ at h
    unfold skOpTCCall at h
    rw [Py.bind_ok_iff] at h
    obtain ⟨S, w₁, h1, h⟩ := h
    cases h
    obtain ⟨M, e1, e2, -⟩ := C47_srct_operator la R r c w _ S h1
    exact ⟨S, rfl, M, e1, e2⟩
  | IN l =>
    refine ⟨by simp, by simp, fun _ => ?_⟩
    change (skOpINCall R l r c) w = _ at h
    unfold skOpINCall at h
    rw [Py.bind_ok_iff] at h
    obtain ⟨S, w₁, h1, h⟩ := h
    cases h
    refine ⟨S, rfl, ?_⟩
    have tr : ∀ N : Matrix (Fin c) (Fin r) ℝ, ActsAs S.T N → ∃ M : Matrix (Fin r) (Fin c) ℝ,
        (∀ x, S.mv x = .ok (M *ᵥ x)) ∧ ∀ y, S.rmv y = .ok (Mᵀ *ᵥ y) := fun N hN =>
      ⟨Nᵀ, fun x => hN.2.1 x, fun y => by rw [transpose_transpose]; exact hN.1 y⟩
    cases l with
    | none =>
      by_cases hrc : r ≤ c
      · obtain ⟨S', w', g1, -, -, f, -, -, g2, -⟩ := C48_sampling_wide_drawn R r c hrc w
        rw [g1] at h1
        cases h1
        exact ⟨_, g2.1, g2.2.1⟩
      · obtain ⟨S', w', g1, -, f, -, g2, -⟩ := C48_sampling_tall_drawn R r c (by omega) w
        rw [g1] at h1
        cases h1
        exact tr _ g2
    | some l =>
      have hlen : l.length = min r c := by
        by_contra hne
        rw [(C48_sampling_errors R l r c w).1 hne] at h1
        cases h1
      by_cases hrc : r ≤ c
      · have hlt : ∀ i ∈ l, i < c := by
          by_contra hne
          push Not at hne
          rw [(C48_sampling_errors R l r c w).2 hrc (by omega) hne] at h1
          cases h1
        obtain ⟨S', g1, -, -, g2⟩ := C48_sampling_wide_given R l r c hrc (by omega) hlt w
        rw [g1] at h1
        cases h1
        obtain ⟨M, g3, -⟩ := g2 (hd l rfl hrc)
        exact ⟨M, g3.1, g3.2.1⟩
      · obtain ⟨S', g1, f, -, -, g2, -⟩ := C48_sampling_tall_given R l r c (by omega) (by omega) w
        rw [g1] at h1
        cases h1
        exact tr _ g2

/-- **C50** (the base class).  Calling `SketchOpGen` itself raises `NotImplementedError`. -/
theorem C50_base_raises (la : LinAlg) (R : NpRng G) (r c : ℕ) (w : World G) :
    SketchClass.base.call la R r c w = .error .notImplemented := rfl

/-- **C50** (parameters are passed on).  The operators of the classes that wrap an array have the
products of the array the utility builds from the stored parameters, and advance the generator in the
same way; exceptions are those of the utility. -/
theorem C50_parameters (la : LinAlg) (R : NpRng G) (cls : SketchClass) (r c : ℕ) (w : World G)
    (util : Py G (Matrix (Fin r) (Fin c) ℝ))
    (hu : cls = .ON ∧ util = orthonormalOperator la R r c ∨
      (∃ b, cls = .GA b ∧ util = gaussianOperator R b r c) ∨
      (∃ k, cls = .SJ k ∧ util = sjltOperator R k r c)) :
    (∀ M w', util w = .ok (M, w') → ∃ S, cls.call la R r c w = .ok (some S, w') ∧
      (∀ x, S.mv x = .ok (M *ᵥ x)) ∧ (∀ y, S.rmv y = .ok (Mᵀ *ᵥ y)) ∧
      (∀ l X, S.mm l X = .ok (M * X)) ∧ ∀ l Y, S.rmm l Y = .ok (Mᵀ * Y)) ∧
    ∀ e, util w = .error e → cls.call la R r c w = .error e := by
  have hcall : cls.call la R r c = util.asOp := by
    rcases hu with ⟨rfl, rfl⟩ | ⟨b, rfl, rfl⟩ | ⟨k, rfl, rfl⟩ <;> rfl
  rw [hcall]
  constructor
  · intro M w' h
    refine ⟨.ofMat M, ?_, fun _ => rfl, fun _ => rfl, fun _ _ => rfl, fun _ _ => rfl⟩
    unfold Py.asOp
    rw [Py.bind_eq_of_ok h]
    rfl
  · intro e h
    unfold Py.asOp
    rw [Py.bind_eq_of_error h]

/-- **C50** (`SkOpSS` is unusable).  `SkOpSS(1.0)` succeeds on a nonempty shape and returns `None`. -/
theorem C50_sparse_sign_none (la : LinAlg) (R : NpRng G) (r c : ℕ) (h : 0 < r * c) (w : World G) :
    ∃ w', (SketchClass.SS 1).call la R r c w = .ok (none, w') := by
  obtain ⟨S, w', h1⟩ : ∃ S w', sparseSignOperator R 1 r c w = .ok (S, w') := by
    have hm : ∀ (u : Fin (r * c) → ℝ), (∀ i, u i < 1) → ¬ ∀ t, ¬ u t < 1 :=
      fun u hu hn => hn ⟨0, h⟩ (hu _)
    unfold sparseSignOperator drawMask
    rw [Py.bind_eq_of_ok (Py.bind_eq_of_ok (Py.draw_apply _ _))]
    rw [Py.bind_eq_of_ok (a := fun t => (R.random (r * c) w.rng).1 t < 1)
      (w₁ := { w with rng := (R.random (r * c) w.rng).2 })]
    · exact ⟨_, _, rfl⟩
    · unfold maskLoop
      rw [if_neg (hm _ (R.random_lt_one _ _))]
      rfl
  refine ⟨w', ?_⟩
  show skOpSSCall R 1 r c w = _
  unfold skOpSSCall
  rw [Py.bind_eq_of_ok h1]
  rfl

/-- The hypotheses of `C50_generator_result` are met, with a call that succeeds. -/
example : ∃ S w', (SketchClass.SJ 2).call LinAlg.ref demoRng 3 5 ⟨0, 0, []⟩ = .ok (some S, w') := by
  obtain ⟨M, w', h⟩ := (C44_sjlt_total demoRng 2 3 5 ⟨0, 0, []⟩).1 (by norm_num)
  obtain ⟨S, hS, -⟩ := (C50_parameters LinAlg.ref demoRng (.SJ 2) 3 5 ⟨0, 0, []⟩ _
    (Or.inr (Or.inr ⟨2, rfl, rfl⟩))).1 M w' h
  exact ⟨S, w', hS⟩

end Parla.Props
