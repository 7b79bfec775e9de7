import Mathlib.MeasureTheory.Measure.Lebesgue.EqHaar
import Mathlib.Analysis.InnerProductSpace.PiL2

/-! # Finite nets of the sphere -/

namespace Parla.Proof

open MeasureTheory Metric Set Module
open scoped ENNReal

variable {E : Type} [NormedAddCommGroup E] [NormedSpace ℝ E] [FiniteDimensional ℝ E]

/-- points of the unit ball at mutual distance at least `1/4`: at most `9^dim` of them (disjoint balls of
radius `1/8` in the ball of radius `9/8`) -/
theorem card_separated (s : Finset E) (hs : ∀ c ∈ s, ‖c‖ ≤ 1)
    (h : ∀ c ∈ s, ∀ d ∈ s, c ≠ d → 1 / 4 ≤ ‖c - d‖) : s.card ≤ 9 ^ finrank ℝ E := by
  borelize E
  let μ : Measure E := Measure.addHaar
  let δ : ℝ := (1 : ℝ) / 8
  let ρ : ℝ := (9 : ℝ) / 8
  have ρpos : 0 < ρ := by norm_num [ρ]
  have δpos : 0 < δ := by norm_num [δ]
  have D : Set.Pairwise (s : Set E) (Function.onFun Disjoint fun c => ball (c : E) δ) := by
    rintro c hc d hd hcd
    apply ball_disjoint_ball
    rw [dist_eq_norm]
    refine le_trans ?_ (h c hc d hd hcd)
    norm_num [δ]
  have hsub : (⋃ c ∈ s, ball (c : E) δ) ⊆ ball (0 : E) ρ := by
    refine iUnion₂_subset fun x hx => ?_
    apply ball_subset_ball'
    rw [dist_zero_right]
    have := hs x hx
    simp only [δ, ρ]
    linarith
  have I : (s.card : ℝ≥0∞) * ENNReal.ofReal (δ ^ finrank ℝ E) * μ (ball 0 1) ≤
      ENNReal.ofReal (ρ ^ finrank ℝ E) * μ (ball 0 1) :=
    calc
      (s.card : ℝ≥0∞) * ENNReal.ofReal (δ ^ finrank ℝ E) * μ (ball 0 1) = μ (⋃ c ∈ s, ball (c : E) δ) := by
        rw [measure_biUnion_finset D fun c _ => measurableSet_ball]
        simp only [μ.addHaar_ball_of_pos _ δpos]
        simp only [Finset.sum_const, nsmul_eq_mul, mul_assoc]
      _ ≤ μ (ball (0 : E) ρ) := measure_mono hsub
      _ = ENNReal.ofReal (ρ ^ finrank ℝ E) * μ (ball 0 1) := by
        simp only [μ.addHaar_ball_of_pos _ ρpos]
  have J : (s.card : ℝ≥0∞) * ENNReal.ofReal (δ ^ finrank ℝ E) ≤ ENNReal.ofReal (ρ ^ finrank ℝ E) :=
    (ENNReal.mul_le_mul_iff_left (measure_ball_pos _ _ zero_lt_one).ne' measure_ball_lt_top.ne).1 I
  have K : (s.card : ℝ) ≤ (9 : ℝ) ^ finrank ℝ E := by
    have := ENNReal.toReal_le_of_le_ofReal (pow_nonneg ρpos.le _) J
    simpa [ρ, δ, div_eq_mul_inv, mul_pow] using this
  exact mod_cast K

/-- The unit sphere has a `1/4`-net of at most `9^dim` points. -/
theorem exists_net (E : Type) [NormedAddCommGroup E] [NormedSpace ℝ E] [FiniteDimensional ℝ E] :
    ∃ N : Finset E, N.card ≤ 9 ^ finrank ℝ E ∧ (∀ y ∈ N, ‖y‖ = 1) ∧
      ∀ x : E, ‖x‖ = 1 → ∃ y ∈ N, ‖x - y‖ ≤ 1 / 4 := by
  classical
  let P : Finset E → Prop := fun s => (∀ c ∈ s, ‖c‖ = 1) ∧ ∀ c ∈ s, ∀ d ∈ s, c ≠ d → 1 / 4 ≤ ‖c - d‖
  let Q : ℕ → Prop := fun k => ∃ s, P s ∧ s.card = k
  have hb : ∀ s, P s → s.card ≤ 9 ^ finrank ℝ E := fun s hs => card_separated s (fun c hc => (hs.1 c hc).le) hs.2
  have h0 : Q 0 := ⟨∅, ⟨by simp, by simp⟩, rfl⟩
  obtain ⟨N, hN, hcard⟩ : Q (Nat.findGreatest Q (9 ^ finrank ℝ E)) :=
    Nat.findGreatest_spec (Nat.zero_le _) h0
  refine ⟨N, hb N hN, hN.1, fun x hx => ?_⟩
  by_contra hc
  push Not at hc
  have hxN : x ∉ N := fun h => by
    have := hc x h
    rw [sub_self, norm_zero] at this
    norm_num at this
  have hP : P (insert x N) := by
    refine ⟨fun c h => ?_, fun c hcm d hdm hne => ?_⟩
    · rcases Finset.mem_insert.1 h with rfl | h
      · exact hx
      · exact hN.1 c h
    · rcases Finset.mem_insert.1 hcm with rfl | h1 <;> rcases Finset.mem_insert.1 hdm with rfl | h2
      · exact absurd rfl hne
      · exact (hc d h2).le
      · rw [norm_sub_rev]; exact (hc c h1).le
      · exact hN.2 c h1 d h2 hne
  have hle := hb _ hP
  have := Nat.le_findGreatest hle (show Q _ from ⟨_, hP, rfl⟩)
  rw [Finset.card_insert_of_notMem hxN] at this
  omega

end Parla.Proof
