import Verif.Props.SparseSignEmbed
import Verif.Props.SRCTEmbed

/-! # Property C84: drivers built with sparse sign operators

`sparseSignOperator R q` is the generator object of a user whose `__call__` returns `sparse_sign_operator(n_rows, n_cols,
rng, q)`; `SkOpSS` itself returns `None` (C50). -/

namespace Parla.Props

open MeasureTheory ProbabilityTheory Matrix Parla Spec Proof

variable {m n : ℕ}

/-- **C84** (`SSO1` with sparse signs).  For any `A`, `b ≠ 0`, `d = min(int(sampling_factor * n), m) ≥ n > 0` and
`0 < ε < 1`, except for draws of probability at most `((n+1)² + (n+1)/density)/(d ε²)`: for every `δ ≥ 0`, `SSO1` with
sparse sign operators returns an `x` with `f(x) ≤ (1+ε)/(1-ε) f(z)` for every `z`, where `f(x) = ‖Ax - b‖² + δ‖x‖²`. -/
theorem C84_sso1 (A : Matrix (Fin m) (Fin n) ℝ) (hn : 0 < n) (b : Fin m → ℝ) (hb : b ≠ 0) (q : ℝ) (hq : 0 < q)
    (hq1 : q ≤ 1) (sf : ℝ) (hd : n ≤ sketchRows sf m n) (ε : ℝ) (hε : 0 < ε) (hε1 : ε < 1) :
    ∃ E : Set ((Fin (sketchRows sf m n * m) → ℝ) × (Fin (sketchRows sf m n * m) → ℝ)),
      sparseDraws _ m E ≤ ENNReal.ofReal (((n + 1) ^ 2 + (n + 1) / q) / (sketchRows sf m n * ε ^ 2)) ∧
      ∀ u v, (u, v) ∉ E → ∀ (G : Type) (la : LinAlg) (R : NpRng G) (w : World G) (δ : ℝ) (tol : Tol) (L : ℤ),
        0 ≤ δ → NextSparse R w q _ u v →
        ∃ x w', sso1Call la (sparseSignOperator R q) sf A b δ tol L w = .ok (x, w') ∧
          ∀ z, sqNorm (A *ᵥ x - b) + δ * sqNorm x ≤
            (1 + ε) / (1 - ε) * (sqNorm (A *ᵥ z - b) + δ * sqNorm z) := by
  have hmn : n ≤ m := by unfold sketchRows at hd; omega
  have hsf : (n : ℤ) ≤ pyInt (sf * n) := by unfold sketchRows at hd; omega
  have hdm : sketchRows sf m n ≤ m := by unfold sketchRows; omega
  have hU : colSpace A ⊔ Submodule.span ℝ {b} ≠ ⊥ := by
    intro h
    have : b ∈ colSpace A ⊔ Submodule.span ℝ {b} := Submodule.mem_sup_right (Submodule.mem_span_singleton_self b)
    rw [h] at this
    exact hb ((Submodule.mem_bot ℝ).1 this)
  obtain ⟨⟨E, h1, h2⟩, -⟩ := C84_sparse_sign_subspace (colSpace A ⊔ Submodule.span ℝ {b}) hU q hq hq1
    (by omega : 0 < sketchRows sf m n) hdm ε hε hε1
  have hfr : (Module.finrank ℝ ↥(colSpace A ⊔ Submodule.span ℝ {b}) : ℝ) ≤ n + 1 := by
    exact_mod_cast finrank_with_vector A b
  refine ⟨E, h1.trans (ENNReal.ofReal_le_ofReal (div_le_div_of_nonneg_right (add_le_add
    (pow_le_pow_left₀ (by positivity) hfr 2) (div_le_div_of_nonneg_right hfr hq.le))
    (by positivity))), fun u v hE G la R w δ tol L hδ hw => ?_⟩
  obtain ⟨S, w2, hgen, hS⟩ := h2 u v hE G R { w with warns := w.warns + sso1Warns tol L +
      (if (m : ℤ) < pyInt (sf * n) then 1 else 0) } hw
  have key : ∃ x w', sso1Call la (sparseSignOperator R q) sf A b δ tol L w = .ok (x, w') := by
    rw [sso1_eq, Py.bind_eq_of_ok (sjlt_driver hmn hsf { w with warns := w.warns + sso1Warns tol L })]
    rw [Py.bind_eq_of_ok hgen]
    exact ⟨_, _, rfl⟩
  obtain ⟨x, w', hx⟩ := key
  refine ⟨x, w', hx, fun z => ?_⟩
  obtain ⟨dd, S', -, -, e3, hg, hmin, -⟩ := C36_sso1 la _ _ A b δ hδ _ _ w w' x hx
  obtain rfl : dd = sketchRows sf m n := by unfold sketchRows; omega
  obtain ⟨S2, w3, hg', hS2⟩ := h2 u v hE G R { w with warns := w.warns + (if tol.isNaN then 0 else 1) + (if L > 1 then 1 else 0) +
        (if (m : ℤ) < pyInt (sf * n) then 1 else 0) } hw
  rw [hg'] at hg
  cases hg
  exact sketched_near_opt hδ hε.le hε1 (fun x => hS2 _ (mem_with_vector A b x)) hmin z

/-- **C84** (`SPO` with sparse signs).  Let `A` have full column rank, `d = min(int(sampling_factor * n), m) ≥ n > 0`,
`0 < ε < 1` and `n √((1+ε)/(1-ε)) < 10^8 - eps`.  Except for draws of probability at most `(n² + n/density)/(d ε²)`: for
every `b`, `δ ≥ 0` and limit `L`, `SPO` with sparse sign operators and `tol = 0` in mode `'qr'` or `'chol'` returns an
`x` with `f(x) - min f ≤ (2 ε^L)² (‖b‖² - min f)`, where `f(x) = ‖Ax - b‖² + δ‖x‖²`, or raises ValueError; if
`lo ‖x‖ ≤ ‖A x‖ ≤ hi ‖x‖` with `√((1+ε)/(1-ε)) hi n eps < lo` the same holds in mode `'svd'`. -/
theorem C84_spo (A : Matrix (Fin m) (Fin n) ℝ) (hA : FullColRank A) (hn : 0 < n) (q : ℝ) (hq : 0 < q) (hq1 : q ≤ 1) (sf : ℝ)
    (hd : n ≤ sketchRows sf m n) (ε : ℝ) (hε : 0 < ε) (hε1 : ε < 1)
    (hc : n * √((1 + ε) / (1 - ε)) < 10 ^ 8 - eps) :
    ∃ E : Set ((Fin (sketchRows sf m n * m) → ℝ) × (Fin (sketchRows sf m n * m) → ℝ)),
      sparseDraws _ m E ≤ ENNReal.ofReal ((n ^ 2 + n / q) / (sketchRows sf m n * ε ^ 2)) ∧
      ∀ u v, (u, v) ∉ E → ∀ (G : Type) (la : LinAlg) (R : NpRng G) (w : World G) (b : Fin m → ℝ) (δ : ℝ) (L : ℕ)
        (clock : LogTimes) (mode : SPOMode) (xs : Fin n → ℝ), 0 ≤ δ → NextSparse R w q _ u v → IsRidgeMin A b δ xs →
        mode ≠ .other → (mode = .svd → ∃ lo hi, (∀ x, lo * norm2 x ≤ norm2 (A *ᵥ x)) ∧
          (∀ x, norm2 (A *ᵥ x) ≤ hi * norm2 x) ∧ 0 ≤ hi ∧ √((1 + ε) / (1 - ε)) * hi * n * eps < lo) →
        spoCall la (sparseSignOperator R q) sf mode A b δ 0 L true clock w = .error .value ∨
        ∃ out w' x lg, spoCall la (sparseSignOperator R q) sf mode A b δ 0 L true clock w = .ok (out, w') ∧ out.x = some x ∧
          out.log = some lg ∧
          (sqNorm (A *ᵥ x - b) + δ * sqNorm x) - (sqNorm (A *ᵥ xs - b) + δ * sqNorm xs) ≤
            (2 * ε ^ L) ^ 2 * (sqNorm b - (sqNorm (A *ᵥ xs - b) + δ * sqNorm xs)) := by
  have hmn : n ≤ m := by unfold sketchRows at hd; omega
  have hsf : (n : ℤ) ≤ pyInt (sf * n) := by unfold sketchRows at hd; omega
  have hdm : sketchRows sf m n ≤ m := by unfold sketchRows; omega
  have hA0 : A ≠ 0 := by
    rintro rfl
    have : (0 : Matrix (Fin m) (Fin n) ℝ).rank = n := hA
    rw [rank_zero] at this
    omega
  obtain ⟨E, h1, h2⟩ := C84_sparse_sign_embeds A hA0 q hq hq1 (by omega : 0 < sketchRows sf m n) hdm ε hε hε1
  rw [show A.rank = n from hA] at h1
  refine ⟨E, h1, fun u v hE G la R w b δ L clock mode xs hδ hw hxs hm hsv => ?_⟩
  have hw' : NextSparse R { w with warns := w.warns + if (m : ℤ) < pyInt (sf * n) then 1 else 0 } q _ u v := hw
  obtain ⟨S, w', hgen, hS⟩ := h2 u v hE G R _ hw'
  obtain ⟨x0, x, g1, g2, -, g4, g5⟩ := spo_given la (gen := sparseSignOperator R q) A hA b hδ hn hd (sjlt_driver hmn hsf w) hgen
    hε.le hε1 hS hc L clock mode hm (fun h => by
      obtain ⟨lo, hi, k1, k2, k3, k4⟩ := hsv h
      exact wellCond_lift_of_embeds hn hδ hε.le hε1 hS k1 k2 k3 k4) xs hxs _ rfl
  by_cases hx0 : IsRidgeMin A b δ x0
  · exact Or.inl (g4 hx0)
  · obtain ⟨lg, hlg⟩ := g5 hx0
    refine Or.inr ⟨_, w', x, lg, hlg, rfl, rfl, g1.trans (mul_le_mul_of_nonneg_left ?_ (sq_nonneg _))⟩
    exact sub_le_sub_right g2 _

/-- **C84** (`SPU1` with sparse signs).  Let `lo ‖x‖ ≤ ‖A x‖ ≤ hi ‖x‖` with `√((1+ε)/(1-ε)) hi n eps < lo`,
`d = min(int(sampling_factor * n), m) ≥ n` and `0 < ε < 1`.  Except for draws of probability at most
`(n² + n/density)/(d ε²)`: for every `c ≠ 0`, tolerance and limit `≥ 0`, `SPU1` with sparse sign operators returns a `y`
with a log, and if it made `k` iterations its squared distance to the minimum-norm solution `y*` of `A'y = c` is at most
`(2 ε^k)² (1+ε)/(1-ε) ‖y*‖²`. -/
theorem C84_spu1 (A : Matrix (Fin m) (Fin n) ℝ) (hn : 0 < n) (q : ℝ) (hq : 0 < q) (hq1 : q ≤ 1) (sf : ℝ)
    (hd : n ≤ sketchRows sf m n)
    (ε lo hi : ℝ) (hε : 0 < ε) (hε1 : ε < 1) (hlo : ∀ x, lo * norm2 x ≤ norm2 (A *ᵥ x))
    (hhi : ∀ x, norm2 (A *ᵥ x) ≤ hi * norm2 x) (h0 : 0 ≤ hi) (hls : √((1 + ε) / (1 - ε)) * hi * n * eps < lo) :
    ∃ E : Set ((Fin (sketchRows sf m n * m) → ℝ) × (Fin (sketchRows sf m n * m) → ℝ)),
      sparseDraws _ m E ≤ ENNReal.ofReal ((n ^ 2 + n / q) / (sketchRows sf m n * ε ^ 2)) ∧
      ∀ u v, (u, v) ∉ E → ∀ (G : Type) (la : LinAlg) (R : NpRng G) (w : World G) (c : Fin n → ℝ) (tol : ℝ) (L : ℤ)
        (clock : LogTimes) (ys : Fin m → ℝ), c ≠ 0 → 0 ≤ L → NextSparse R w q _ u v → IsMinNormSol A c ys →
        ∃ out lg w', spu1Call la (sparseSignOperator R q) sf A c tol L true clock w = .ok (out, w') ∧ out.log = some lg ∧
          ∀ k, lg.errors.length = k + 1 →
            sqNorm (out.y - ys) ≤ (2 * ε ^ k) ^ 2 * ((1 + ε) / (1 - ε)) * sqNorm ys := by
  have hmn : n ≤ m := by unfold sketchRows at hd; omega
  have hsf : (n : ℤ) ≤ pyInt (sf * n) := by unfold sketchRows at hd; omega
  have hdm : sketchRows sf m n ≤ m := by unfold sketchRows; omega
  have hlo0 : 0 < lo := lt_of_le_of_lt (by unfold eps; positivity) hls
  have hA : FullColRank A := fullColRank_iff_inj.2 fun x hx => by
    have h1 := hlo x
    rw [hx, show norm2 (0 : Fin m → ℝ) = 0 from norm2_eq_zero.2 rfl] at h1
    have h2 := norm2_nonneg x
    exact norm2_eq_zero.1 (by nlinarith)
  have hA0 : A ≠ 0 := by
    rintro rfl
    have : (0 : Matrix (Fin m) (Fin n) ℝ).rank = n := hA
    rw [rank_zero] at this
    omega
  obtain ⟨E, h1, h2⟩ := C84_sparse_sign_embeds A hA0 q hq hq1 (by omega : 0 < sketchRows sf m n) hdm ε hε hε1
  rw [show A.rank = n from hA] at h1
  refine ⟨E, h1, fun u v hE G la R w c tol L clock ys hc hL hw hys => ?_⟩
  have hw' : NextSparse R { w with warns := w.warns + if (m : ℤ) < pyInt (sf * n) then 1 else 0 } q _ u v := hw
  obtain ⟨S, w', hgen, hS⟩ := h2 u v hE G R _ hw'
  have hSw := wellCond_of_embeds hε.le hε1 hS hlo hhi h0 hls
  have hdd := sjlt_driver (n := n) (m := m) hmn hsf w
  rcases spu1_given la (gen := sparseSignOperator R q) A c hc tol L hL clock hn hd hdd hgen with ⟨out, lg, g1, g2, g3, g4⟩ | ⟨-, g⟩
  swap
  · exact absurd hSw g
  refine ⟨out, lg, w', g1, g2, fun k hk => ?_⟩
  refine C67_spu1_rate la _ _ A c hc tol L clock w w' out g1 ε hε.le hε1 (fun d w₁ S' k1 k2 => ?_) lg g2 k hk ys hys
  rw [hdd] at k1
  cases k1
  rw [hgen] at k2
  cases k2
  exact ⟨hS, hSw⟩

/-- The hypotheses of the theorems of this file are met, with a failure probability below `1/20`: one column of a
thousand ones, `ε = 1/2`, `density = 1/4`, sampling factor 1000, and a generator that makes the draws. -/
example : ∃ A : Matrix (Fin 1000) (Fin 1) ℝ, FullColRank A ∧ 1 ≤ sketchRows 1000 1000 1 ∧
    (1 : ℕ) * √((1 + 1 / 2) / (1 - 1 / 2)) < 10 ^ 8 - eps ∧
    (((1 : ℕ) + 1) ^ 2 + ((1 : ℕ) + 1) / (1 / 4)) / (sketchRows 1000 1000 1 * (1 / 2) ^ 2) ≤ (1 / 20 : ℝ) ∧
    (∀ x, norm2 x ≤ norm2 (A *ᵥ x) ∧ norm2 (A *ᵥ x) ≤ 1000 * norm2 x) ∧
    √((1 + 1 / 2) / (1 - 1 / 2)) * 1000 * (1 : ℕ) * eps < 1 ∧
    NextSparse demoRng ⟨0, 0, []⟩ (1 / 4) (sketchRows 1000 1000 1 * 1000) (fun _ => 1 / 4) (fun _ => 1 / 4) := by
  have hp : pyInt (1000 * (1 : ℕ)) = 1000 := by
    unfold pyInt; rw [if_pos (by norm_num), Int.floor_eq_iff]; norm_num
  have hr : sketchRows 1000 1000 1 = 1000 := by unfold sketchRows; rw [hp]; rfl
  have h2 : √((1 + 1 / 2) / (1 - 1 / 2)) ≤ 2 := by
    rw [Real.sqrt_le_left (by norm_num)]; norm_num
  refine ⟨fun _ _ => 1, demo31_full _ 0 (by norm_num), by rw [hr]; norm_num, ?_, ?_, fun x => ?_, ?_, rfl, fun t => rfl⟩
  · have h1 : eps ≤ 1 := by unfold eps; norm_num
    push_cast
    norm_num at h2 ⊢
    linarith
  · rw [hr]; norm_num
  · have e : sqNorm ((fun _ _ => 1 : Matrix (Fin 1000) (Fin 1) ℝ) *ᵥ x) = 1000 * sqNorm x := by
      simp [sqNorm, mulVec, dotProduct]
    unfold norm2
    rw [e, Real.sqrt_mul (by norm_num)]
    have h0 := Real.sqrt_nonneg (sqNorm x)
    have h1 : 1 ≤ √(1000 : ℝ) := Real.one_le_sqrt.2 (by norm_num)
    have h3 : √(1000 : ℝ) ≤ 1000 := by rw [Real.sqrt_le_left (by norm_num)]; norm_num
    exact ⟨by nlinarith, by nlinarith⟩
  · have h1 : eps ≤ 1 / 10 ^ 4 := by unfold eps; norm_num
    have h3 : 0 < eps := eps_pos
    push_cast
    norm_num at h1 h2 ⊢
    nlinarith

end Parla.Props
