import Verif.Proof.Precond
import Verif.Model.LSQR
import Verif.Spec
import Mathlib.Tactic.LinearCombination
import Mathlib.Tactic.Module
import Mathlib.Tactic.FieldSimp
import Mathlib.Tactic.Positivity
import Mathlib.LinearAlgebra.FiniteDimensional.Basic
import Mathlib.LinearAlgebra.FiniteDimensional.Lemmas

/-! Proofs about LSQR: invariants of its main loop. -/

namespace Parla

open Matrix

variable {p q : ℕ}

/-! ## `_sym_ortho` -/

theorem symOrtho_eq (a b : ℝ) : symOrtho a b =
    (a / Real.sqrt (a ^ 2 + b ^ 2), b / Real.sqrt (a ^ 2 + b ^ 2), Real.sqrt (a ^ 2 + b ^ 2)) := by
  have sgn : ∀ x : ℝ, x ≠ 0 → Real.sign x = x / |x| := by
    intro x hx
    rcases lt_or_gt_of_ne hx with h | h
    · rw [Real.sign_of_neg h, abs_of_neg h, div_neg, div_self hx]
    · rw [Real.sign_of_pos h, abs_of_pos h, div_self hx]
  have key : ∀ x y : ℝ, x ≠ 0 → |x| * Real.sqrt (1 + y / x * (y / x)) = Real.sqrt (x ^ 2 + y ^ 2) := by
    intro x y hx
    rw [← Real.sqrt_sq_eq_abs, ← Real.sqrt_mul (sq_nonneg x)]
    congr 1
    field_simp
  have pos : ∀ x y : ℝ, 0 < Real.sqrt (1 + y / x * (y / x)) := fun x y =>
    Real.sqrt_pos.2 (by nlinarith [mul_self_nonneg (y / x)])
  unfold symOrtho
  by_cases hb : b = 0
  · rw [if_pos hb, hb]
    simp only [ne_eq, OfNat.ofNat_ne_zero, not_false_eq_true, zero_pow, add_zero, Real.sqrt_sq_eq_abs,
      zero_div]
    by_cases ha : a = 0
    · simp [ha]
    · rw [sgn a ha]
  · rw [if_neg hb]
    by_cases ha : a = 0
    · rw [if_pos ha, ha]
      simp only [ne_eq, OfNat.ofNat_ne_zero, not_false_eq_true, zero_pow, zero_add,
        Real.sqrt_sq_eq_abs, zero_div, sgn b hb]
    · rw [if_neg ha]
      by_cases hab : |b| > |a|
      · rw [if_pos hab]
        simp only
        have h1 := key b a hb
        have h2 := pos b a
        have hb' := abs_pos.2 hb
        rw [add_comm (a ^ 2), ← h1, sgn b hb]
        simp only [Prod.mk.injEq]
        refine ⟨?_, ?_, ?_⟩ <;> field_simp
      · rw [if_neg hab]
        simp only
        have h1 := key a b ha
        have h2 := pos a b
        have ha' := abs_pos.2 ha
        rw [← h1, sgn a ha]
        simp only [Prod.mk.injEq]
        refine ⟨?_, ?_, ?_⟩ <;> field_simp

/-! ## The step for a matrix operator -/

open Classical in
/-- `lsqrBidiag` for a matrix operator -/
noncomputable def bidP (F : Matrix (Fin p) (Fin q) ℝ) (damp : ℝ) (s : LsqrState p q) :
    LsqrState p q :=
  let U := F *ᵥ s.v - s.alfa • s.u
  let V := Fᵀ *ᵥ ((1 / norm2 U) • U) - norm2 U • s.v
  if 0 < norm2 U then
    { s with itn := s.itn + 1, u := (1 / norm2 U) • U,
             v := if 0 < norm2 V then (1 / norm2 V) • V else V, alfa := norm2 V,
             anorm := Real.sqrt (s.anorm ^ 2 + s.alfa ^ 2 + norm2 U ^ 2 + damp ^ 2) }
  else { s with itn := s.itn + 1, u := U }

/-- `lsqrStep` for a matrix operator -/
noncomputable def stepP (F : Matrix (Fin p) (Fin q) ℝ) (damp : ℝ) (s : LsqrState p q) :
    LsqrState p q :=
  lsqrRotate damp (bidP F damp s) (norm2 (F *ᵥ s.v - s.alfa • s.u))

theorem lsqrStep_ofMat (F : Matrix (Fin p) (Fin q) ℝ) (damp : ℝ) (s : LsqrState p q) :
    lsqrStep (LinOp.ofMat F) damp s = .ok (stepP F damp s) := by
  unfold lsqrStep stepP
  have : lsqrBidiag (LinOp.ofMat F) damp s =
      .ok (bidP F damp s, norm2 (F *ᵥ s.v - s.alfa • s.u)) := by
    unfold lsqrBidiag bidP LinOp.ofMat
    by_cases h : 0 < norm2 (F *ᵥ s.v - s.alfa • s.u)
    · simp only [Except.bind, bind, pure, Except.pure, if_pos h]
    · simp only [Except.bind, bind, pure, Except.pure, if_neg h]
  rw [this]
  rfl

/-- What one bidiagonalisation step guarantees. -/
theorem bidP_spec (F : Matrix (Fin p) (Fin q) ℝ) (damp : ℝ) (s : LsqrState p q) :
    let s1 := bidP F damp s
    let β := norm2 (F *ᵥ s.v - s.alfa • s.u)
    s1.x = s.x ∧ s1.w = s.w ∧ s1.rhobar = s.rhobar ∧ s1.phibar = s.phibar ∧ s1.res2 = s.res2 ∧
    s1.xxnorm = s.xxnorm ∧ s1.z = s.z ∧ s1.cs2 = s.cs2 ∧ s1.sn2 = s.sn2 ∧ s1.itn = s.itn + 1 ∧
    s1.ddnorm = s.ddnorm ∧ β • s1.u = F *ᵥ s.v - s.alfa • s.u ∧
    (β ≠ 0 → s1.u ⬝ᵥ s1.u = 1 ∧ s1.alfa • s1.v = Fᵀ *ᵥ s1.u - β • s.v ∧
      0 ≤ s1.alfa ∧ (s1.alfa ≠ 0 → s1.v ⬝ᵥ s1.v = 1) ∧
      s1.anorm = Real.sqrt (s.anorm ^ 2 + s.alfa ^ 2 + β ^ 2 + damp ^ 2)) ∧
    (β = 0 → s1.alfa = s.alfa ∧ s1.v = s.v ∧ s1.u = 0 ∧ s1.anorm = s.anorm) := by
  have unit : ∀ {k : ℕ} (V : Fin k → ℝ), 0 < norm2 V →
      ((1 / norm2 V) • V) ⬝ᵥ ((1 / norm2 V) • V) = 1 := by
    intro k V hV
    rw [← sqNorm_eq_dot, sqNorm_smul, ← norm2_sq]
    field_simp
  intro s1 β
  simp only [s1, bidP]
  by_cases h : 0 < norm2 (F *ᵥ s.v - s.alfa • s.u)
  · rw [if_pos h]
    refine ⟨rfl, rfl, rfl, rfl, rfl, rfl, rfl, rfl, rfl, rfl, rfl, ?_, fun _ => ⟨unit _ h, ?_,
      norm2_nonneg _, fun hα => ?_, rfl⟩, fun h' => absurd h' h.ne'⟩
    · show β • ((1 / β) • _) = _
      rw [smul_smul, mul_one_div_cancel h.ne', one_smul]
    · show norm2 _ • (if _ then _ else _) = Fᵀ *ᵥ ((1 / β) • _) - β • s.v
      split_ifs with hV
      · rw [smul_smul, mul_one_div_cancel hV.ne', one_smul]
      · have h0 : norm2 (Fᵀ *ᵥ ((1 / β) • (F *ᵥ s.v - s.alfa • s.u)) - β • s.v) = 0 :=
          le_antisymm (not_lt.1 hV) (norm2_nonneg _)
        rw [norm2_eq_zero.1 h0]
        simp
    · show (if _ then _ else _) ⬝ᵥ (if _ then _ else _) = _
      have hα' : 0 < norm2 (Fᵀ *ᵥ ((1 / β) • (F *ᵥ s.v - s.alfa • s.u)) - β • s.v) :=
        lt_of_le_of_ne (norm2_nonneg _) (Ne.symm hα)
      rw [if_pos hα', unit _ hα']
  · rw [if_neg h]
    have h0 : β = 0 := le_antisymm (not_lt.1 h) (norm2_nonneg _)
    have h1 : F *ᵥ s.v - s.alfa • s.u = 0 := norm2_eq_zero.1 h0
    refine ⟨rfl, rfl, rfl, rfl, rfl, rfl, rfl, rfl, rfl, rfl, rfl, ?_, fun h' => absurd h0 h',
      fun _ => ⟨rfl, rfl, h1, rfl⟩⟩
    show β • (F *ᵥ s.v - s.alfa • s.u) = _
    rw [h1, smul_zero]

/-- What the rotations of one step compute. -/
theorem rotate_spec (damp : ℝ) (s : LsqrState p q) (β : ℝ) (hρ : s.rhobar ≠ 0) (hc : s.cs2 ≠ 0) :
    ∃ ρ1 c1 s1 ρ c sn gb γ zb, 0 < ρ1 ∧ 0 < ρ ∧ 0 < γ ∧ gb ≠ 0 ∧ c1 * ρ1 = s.rhobar ∧ s1 * ρ1 = damp ∧
      c1 ^ 2 + s1 ^ 2 = 1 ∧ c * ρ = ρ1 ∧ sn * ρ = β ∧ c ^ 2 + sn ^ 2 = 1 ∧
      gb = -s.cs2 * ρ ∧ gb ^ 2 + (sn * s.alfa) ^ 2 = γ ^ 2 ∧
      zb * gb = c * (c1 * s.phibar) - s.sn2 * ρ * s.z ∧
      (lsqrRotate damp s β).x = s.x + (c * (c1 * s.phibar) / ρ) • s.w ∧
      (lsqrRotate damp s β).w = s.v + (-(sn * s.alfa) / ρ) • s.w ∧
      (lsqrRotate damp s β).u = s.u ∧ (lsqrRotate damp s β).v = s.v ∧
      (lsqrRotate damp s β).alfa = s.alfa ∧ (lsqrRotate damp s β).itn = s.itn ∧
      (lsqrRotate damp s β).anorm = s.anorm ∧
      (lsqrRotate damp s β).rhobar = -c * s.alfa ∧
      (lsqrRotate damp s β).phibar = sn * (c1 * s.phibar) ∧
      (lsqrRotate damp s β).res2 = s.res2 + (s1 * s.phibar) ^ 2 ∧
      (lsqrRotate damp s β).r2norm =
        Real.sqrt ((sn * (c1 * s.phibar)) ^ 2 + (s.res2 + (s1 * s.phibar) ^ 2)) ∧
      (lsqrRotate damp s β).arnorm = s.alfa * |sn * (c * (c1 * s.phibar))| ∧
      (lsqrRotate damp s β).xnorm = Real.sqrt (s.xxnorm + zb ^ 2) ∧
      (lsqrRotate damp s β).cs2 * γ = gb ∧ (lsqrRotate damp s β).sn2 * γ = sn * s.alfa ∧
      (lsqrRotate damp s β).z * γ = zb * gb ∧
      (lsqrRotate damp s β).xxnorm = s.xxnorm + (lsqrRotate damp s β).z ^ 2 ∧
      (lsqrRotate damp s β).ddnorm = s.ddnorm + norm2 ((1 / ρ) • s.w) ^ 2 := by
  have h1 : 0 < Real.sqrt (s.rhobar ^ 2 + damp ^ 2) := Real.sqrt_pos.2 (by positivity)
  have e1 := Real.sq_sqrt (show 0 ≤ s.rhobar ^ 2 + damp ^ 2 by positivity)
  set ρ1 := Real.sqrt (s.rhobar ^ 2 + damp ^ 2) with hρ1
  have h2 : 0 < Real.sqrt (ρ1 ^ 2 + β ^ 2) := Real.sqrt_pos.2 (by positivity)
  have e2 := Real.sq_sqrt (show 0 ≤ ρ1 ^ 2 + β ^ 2 by positivity)
  set ρ := Real.sqrt (ρ1 ^ 2 + β ^ 2) with hρ
  have h3 : -s.cs2 * ρ ≠ 0 := mul_ne_zero (neg_ne_zero.2 hc) h2.ne'
  have h4 : 0 < Real.sqrt ((-s.cs2 * ρ) ^ 2 + (β / ρ * s.alfa) ^ 2) := Real.sqrt_pos.2 (by positivity)
  have e4 := Real.sq_sqrt (show 0 ≤ (-s.cs2 * ρ) ^ 2 + (β / ρ * s.alfa) ^ 2 by positivity)
  refine ⟨ρ1, s.rhobar / ρ1, damp / ρ1, ρ, ρ1 / ρ, β / ρ, -s.cs2 * ρ,
    Real.sqrt ((-s.cs2 * ρ) ^ 2 + (β / ρ * s.alfa) ^ 2),
    (ρ1 / ρ * (s.rhobar / ρ1 * s.phibar) - s.sn2 * ρ * s.z) / (-s.cs2 * ρ),
    h1, h2, h4, h3, div_mul_cancel₀ _ h1.ne', div_mul_cancel₀ _ h1.ne', ?_,
    div_mul_cancel₀ _ h2.ne', div_mul_cancel₀ _ h2.ne', ?_, rfl, e4.symm, div_mul_cancel₀ _ h3, ?_⟩
  · rw [div_pow, div_pow, ← add_div, ← e1, div_self (by positivity)]
  · rw [div_pow, div_pow, ← add_div, ← e2, div_self (by positivity)]
  · have hs : symOrtho ρ1 β = (ρ1 / ρ, β / ρ, ρ) := symOrtho_eq _ _
    unfold lsqrRotate
    simp only [← hρ1, hs, true_and, div_mul_cancel₀ _ h3]
    exact ⟨div_mul_cancel₀ _ h4.ne', div_mul_cancel₀ _ h4.ne', div_mul_cancel₀ _ h4.ne', trivial⟩

/-! ## The loop invariant -/

/-- The facts about the current point that the scalar variables report. -/
structure LsqrFacts (F : Matrix (Fin p) (Fin q) ℝ) (b : Fin p → ℝ) (x0 : Fin q → ℝ) (damp : ℝ)
    (s : LsqrState p q) : Prop where
  arnorm : s.arnorm = norm2 (Fᵀ *ᵥ (b - F *ᵥ s.x) - damp ^ 2 • (s.x - x0))
  r2norm : s.r2norm = Real.sqrt (sqNorm (b - F *ᵥ s.x) + damp ^ 2 * sqNorm (s.x - x0))
  xnorm : s.xnorm = norm2 (s.x - x0)
  range : s.x - x0 ∈ colSpace Fᵀ
  anorm0 : 0 ≤ s.anorm
  anorm : s.anorm ^ 2 ≤ froSq F + s.itn * damp ^ 2
  dd0 : 0 ≤ s.ddnorm
  dd : ∀ σ : ℝ, (∀ z ∈ colSpace Fᵀ, σ ^ 2 * sqNorm z ≤ sqNorm (F *ᵥ z) + damp ^ 2 * sqNorm z) →
    σ ^ 2 * s.ddnorm ≤ s.itn

/-- The invariant of a continuing loop.  `t` and `g` are the current and the finished direction of
the residual of the lifted system, `SU` and `SV` the spans of the vectors `u` so far and of the
previous vectors `v`. -/
structure LsqrInv (F : Matrix (Fin p) (Fin q) ℝ) (b : Fin p → ℝ) (x0 : Fin q → ℝ) (damp : ℝ)
    (s : LsqrState p q) (t1 g1 : Fin p → ℝ) (t2 g2 y : Fin q → ℝ) (SU : Submodule ℝ (Fin p → ℝ))
    (SV : Submodule ℝ (Fin q → ℝ)) : Prop where
  alfa : 0 < s.alfa
  rhobar : s.rhobar ≠ 0
  phibar : s.phibar ≠ 0
  cs2 : s.cs2 ≠ 0
  r1 : b - F *ᵥ s.x = s.phibar • t1 + g1
  r2 : -(damp • (s.x - x0)) = s.phibar • t2 + g2
  n1 : Fᵀ *ᵥ t1 + damp • t2 = s.rhobar • s.v
  n2 : Fᵀ *ᵥ g1 + damp • g2 = 0
  w1 : F *ᵥ s.w = s.rhobar • t1 + F *ᵥ s.v - s.alfa • s.u
  w2 : damp • s.w = s.rhobar • t2 + damp • s.v
  tt : t1 ⬝ᵥ t1 + t2 ⬝ᵥ t2 = 1
  uu : s.u ⬝ᵥ s.u = 1
  vv : s.v ⬝ᵥ s.v = 1
  gg : g1 ⬝ᵥ g1 + g2 ⬝ᵥ g2 = s.res2
  gt : g1 ⬝ᵥ t1 + g2 ⬝ᵥ t2 = 0
  t1m : t1 ∈ SU
  g1m : g1 ∈ SU
  um : s.u ∈ SU
  t2m : t2 ∈ SV
  g2m : g2 ∈ SV
  gk : ∀ a ∈ SU, (F *ᵥ s.v) ⬝ᵥ a = s.alfa * (s.u ⬝ᵥ a)
  fa : ∀ a ∈ SU, Fᵀ *ᵥ a ∈ SV ⊔ Submodule.span ℝ {s.v}
  vd : ∀ d ∈ SV, s.v ⬝ᵥ d = 0
  fd : ∀ d ∈ SV, F *ᵥ d ∈ SU
  dim : s.itn ≤ Module.finrank ℝ SV
  svr : SV ≤ colSpace Fᵀ
  vr : s.v ∈ colSpace Fᵀ
  wr : s.w ∈ colSpace Fᵀ
  xr : s.x - x0 ∈ colSpace Fᵀ
  ye : s.x - x0 + (s.sn2 * s.z) • s.w = y
  yy : y ⬝ᵥ y = s.xxnorm
  yw : y ⬝ᵥ s.w = 0
  ww : s.cs2 ^ 2 * (s.w ⬝ᵥ s.w) = 1
  ym : y ∈ SV ⊔ Submodule.span ℝ {s.v}
  wm : s.w ∈ SV ⊔ Submodule.span ℝ {s.v}
  rn : s.r2norm = Real.sqrt (s.phibar ^ 2 + s.res2)
  an0 : 0 ≤ s.anorm
  an : ∃ G : Matrix (Fin p) (Fin q) ℝ, froSq G + s.anorm ^ 2 = froSq F + s.itn * damp ^ 2 ∧
    ∀ a, (∀ d ∈ SV, a ⬝ᵥ d = 0) → G *ᵥ a = F *ᵥ a
  dd0 : 0 ≤ s.ddnorm
  dd : ∀ σ : ℝ, (∀ z ∈ colSpace Fᵀ, σ ^ 2 * sqNorm z ≤ sqNorm (F *ᵥ z) + damp ^ 2 * sqNorm z) →
    σ ^ 2 * s.ddnorm ≤ s.itn

/-- Removing a unit direction from a matrix. -/
theorem deflate {G : Matrix (Fin p) (Fin q) ℝ} {v : Fin q → ℝ} (hv : v ⬝ᵥ v = 1) :
    froSq (G - vecMulVec (G *ᵥ v) v) = froSq G - sqNorm (G *ᵥ v) := by
  have h : ∀ i, ∑ j, (G - vecMulVec (G *ᵥ v) v) i j ^ 2 = ∑ j, G i j ^ 2 - (G *ᵥ v) i ^ 2 := by
    intro i
    have e1 : ∑ j, G i j * v j = (G *ᵥ v) i := rfl
    have e2 : ∑ j, v j * v j = 1 := hv
    calc ∑ j, (G - vecMulVec (G *ᵥ v) v) i j ^ 2
        = ∑ j, (G i j ^ 2 - 2 * (G *ᵥ v) i * (G i j * v j) + (G *ᵥ v) i ^ 2 * (v j * v j)) := by
          refine Finset.sum_congr rfl fun j _ => ?_
          rw [Matrix.sub_apply, vecMulVec_apply]; ring
      _ = _ := by
          rw [Finset.sum_add_distrib, Finset.sum_sub_distrib, ← Finset.mul_sum, ← Finset.mul_sum, e1, e2]
          ring
  unfold froSq sqNorm
  rw [Finset.sum_congr rfl fun i _ => h i, Finset.sum_sub_distrib]

theorem mem_sup_span {k : ℕ} {S : Submodule ℝ (Fin k → ℝ)} {v a : Fin k → ℝ} :
    a ∈ S ⊔ Submodule.span ℝ {v} ↔ ∃ d ∈ S, ∃ l : ℝ, a = d + l • v := by
  rw [Submodule.mem_sup]
  constructor
  · rintro ⟨d, hd, e, he, rfl⟩
    obtain ⟨l, rfl⟩ := Submodule.mem_span_singleton.1 he
    exact ⟨d, hd, l, rfl⟩
  · rintro ⟨d, hd, l, rfl⟩
    exact ⟨d, hd, l • v, Submodule.mem_span_singleton.2 ⟨l, rfl⟩, rfl⟩

/-- One step: the reported quantities are true, the residual strictly decreases, and the
invariant holds again unless the reported normal-equation residual is zero. -/
theorem stepP_inv {F : Matrix (Fin p) (Fin q) ℝ} {b : Fin p → ℝ} {x0 : Fin q → ℝ} {damp : ℝ}
    {s : LsqrState p q} {t1 g1 : Fin p → ℝ} {t2 g2 y : Fin q → ℝ} {SU : Submodule ℝ (Fin p → ℝ)}
    {SV : Submodule ℝ (Fin q → ℝ)} (I : LsqrInv F b x0 damp s t1 g1 t2 g2 y SU SV) :
    LsqrFacts F b x0 damp (stepP F damp s) ∧ (stepP F damp s).r2norm < s.r2norm ∧
    (stepP F damp s).itn = s.itn + 1 ∧
    ((stepP F damp s).arnorm ≠ 0 → ∃ t1 g1 t2 g2 y SU,
      LsqrInv F b x0 damp (stepP F damp s) t1 g1 t2 g2 y SU (SV ⊔ Submodule.span ℝ {s.v})) := by
  obtain ⟨bx, bw, brho, bphi, bres, bxx, bz, bcs2, bsn2, bitn, bdd, bu, bpos, bzero⟩ := bidP_spec F damp s
  set S1 := bidP F damp s with hS1
  set β := norm2 (F *ᵥ s.v - s.alfa • s.u) with hβ
  obtain ⟨ρ1, c1, s1, ρ, c, sn, gb, γ, zb, hρ1, hρ, hγ, hgb, e1, e2, e3, e4, e5, e6, e7, e8, e9,
    fx, fw, fu, fv, falfa, fitn, fanorm, frho, fphi, fres, fr2, far, fxn, fcs2, fsn2, fz, fxx, fdd⟩ :=
    rotate_spec damp S1 β (by rw [brho]; exact I.rhobar) (by rw [bcs2]; exact I.cs2)
  have hS : stepP F damp s = lsqrRotate damp S1 β := rfl
  rw [← hS] at fx fw fu fv falfa fitn fanorm frho fphi fres fr2 far fxn fcs2 fsn2 fz fxx fdd
  set S2 := stepP F damp s with hS2
  rw [bx, bphi, bw] at fx
  rw [bw] at fw
  rw [brho] at e1
  rw [bphi] at fphi
  rw [bres, bphi] at fres
  rw [bres, bphi] at fr2
  rw [bphi] at far
  rw [bxx] at fxn
  rw [bxx] at fxx
  rw [bphi, bsn2, bz] at e9
  rw [bcs2] at e7
  rw [bdd, bw] at fdd
  -- orthogonality of the new `u`
  have hU : ∀ a ∈ SU, β * (S1.u ⬝ᵥ a) = 0 := by
    intro a ha
    rw [← smul_eq_mul, ← smul_dotProduct, bu, sub_dotProduct, smul_dotProduct, I.gk a ha, smul_eq_mul,
      sub_self]
  have hc1 : c1 ≠ 0 := by rintro rfl; rw [zero_mul] at e1; exact I.rhobar e1.symm
  have hc : c ≠ 0 := by rintro rfl; rw [zero_mul] at e4; exact hρ1.ne e4
  -- residual identities
  have Fw : F *ᵥ s.w = (ρ1 * c1) • t1 + β • S1.u := by
    rw [I.w1, bu, mul_comm ρ1, e1]; abel
  have Dw : damp • s.w = ρ1 • (c1 • t2 + s1 • s.v) := by
    rw [I.w2, ← e1, ← e2]; module
  have hphi : c * (c1 * s.phibar) / ρ * ρ1 = c ^ 2 * (c1 * s.phibar) := by
    rw [← e4]; field_simp
  have hphiβ : c * (c1 * s.phibar) / ρ * β = c * sn * (c1 * s.phibar) := by
    rw [← e5]; field_simp
  have R1 : b - F *ᵥ S2.x = S2.phibar • (sn • (c1 • t1) - c • S1.u) +
      (g1 + (s1 * s.phibar) • (s1 • t1)) := by
    rw [fx, mulVec_add, mulVec_smul, Fw, sub_add_eq_sub_sub, I.r1, fphi]
    rw [smul_add, smul_smul, smul_smul, hphiβ, ← mul_assoc, hphi]
    match_scalars <;> first | ring1 | linear_combination -(s.phibar) * e3 - (c1 ^ 2 * s.phibar) * e6
  have R2 : -(damp • (S2.x - x0)) = S2.phibar • (sn • (c1 • t2 + s1 • s.v)) +
      (g2 + (s1 * s.phibar) • (s1 • t2 - c1 • s.v)) := by
    have : -(damp • (S2.x - x0)) =
      -(damp • (s.x - x0)) - (c * (c1 * s.phibar) / ρ) • (damp • s.w) := by
      rw [fx]; module
    rw [this, I.r2, Dw, smul_smul, hphi, fphi]
    match_scalars <;> first
      | ring1
      | linear_combination -(s.phibar) * e3 - (c1 ^ 2 * s.phibar) * e6
      | linear_combination -(c1 * s1 * s.phibar) * e6
  -- the new directions
  have Q0 : Fᵀ *ᵥ (s1 • t1) + damp • (s1 • t2 - c1 • s.v) = 0 := by
    have : Fᵀ *ᵥ (s1 • t1) + damp • (s1 • t2 - c1 • s.v) =
        s1 • (Fᵀ *ᵥ t1 + damp • t2) - (damp * c1) • s.v := by rw [mulVec_smul]; module
    rw [this, I.n1, ← e1, ← e2]; module
  have T0 : Fᵀ *ᵥ (c1 • t1) + damp • (c1 • t2 + s1 • s.v) = ρ1 • s.v := by
    have : Fᵀ *ᵥ (c1 • t1) + damp • (c1 • t2 + s1 • s.v) =
        c1 • (Fᵀ *ᵥ t1 + damp • t2) + (damp * s1) • s.v := by rw [mulVec_smul]; module
    rw [this, I.n1, ← e1, ← e2]
    match_scalars; linear_combination ρ1 * e3
  have N2 : Fᵀ *ᵥ (g1 + (s1 * s.phibar) • (s1 • t1)) +
      damp • (g2 + (s1 * s.phibar) • (s1 • t2 - c1 • s.v)) = 0 := by
    have : Fᵀ *ᵥ (g1 + (s1 * s.phibar) • (s1 • t1)) +
      damp • (g2 + (s1 * s.phibar) • (s1 • t2 - c1 • s.v)) = (Fᵀ *ᵥ g1 + damp • g2) +
        (s1 * s.phibar) • (Fᵀ *ᵥ (s1 • t1) + damp • (s1 • t2 - c1 • s.v)) := by
      rw [mulVec_add, mulVec_smul]; module
    rw [this, I.n2, Q0, smul_zero, add_zero]
  have vt : s.v ⬝ᵥ t2 = 0 := I.vd _ I.t2m
  have vg : s.v ⬝ᵥ g2 = 0 := I.vd _ I.g2m
  have tv : t2 ⬝ᵥ s.v = 0 := by rw [dotProduct_comm, vt]
  have gv : g2 ⬝ᵥ s.v = 0 := by rw [dotProduct_comm, vg]
  have GG : (g1 + (s1 * s.phibar) • (s1 • t1)) ⬝ᵥ (g1 + (s1 * s.phibar) • (s1 • t1)) +
      (g2 + (s1 * s.phibar) • (s1 • t2 - c1 • s.v)) ⬝ᵥ
        (g2 + (s1 * s.phibar) • (s1 • t2 - c1 • s.v)) = S2.res2 := by
    have tg1 := dotProduct_comm t1 g1
    have tg2 := dotProduct_comm t2 g2
    rw [fres]
    simp only [add_dotProduct, dotProduct_add, smul_dotProduct, dotProduct_smul, sub_dotProduct,
      dotProduct_sub, smul_eq_mul, vt, vg, tv, gv, tg1, tg2, I.vv]
    linear_combination I.gg + (2 * s1 ^ 2 * s.phibar) * I.gt + (s1 ^ 4 * s.phibar ^ 2) * I.tt +
      (s1 ^ 2 * s.phibar ^ 2) * e3
  -- the gradient
  have GRAD : Fᵀ *ᵥ (b - F *ᵥ S2.x) - damp ^ 2 • (S2.x - x0) =
      S2.phibar • (sn • (ρ1 • s.v) - c • (Fᵀ *ᵥ S1.u)) := by
    have : Fᵀ *ᵥ (b - F *ᵥ S2.x) - damp ^ 2 • (S2.x - x0) =
      Fᵀ *ᵥ (b - F *ᵥ S2.x) + damp • (-(damp • (S2.x - x0))) := by module
    rw [this, R1, R2]
    have : Fᵀ *ᵥ (S2.phibar • (sn • (c1 • t1) - c • S1.u) + (g1 + (s1 * s.phibar) • (s1 • t1))) +
        damp • (S2.phibar • (sn • (c1 • t2 + s1 • s.v)) +
          (g2 + (s1 * s.phibar) • (s1 • t2 - c1 • s.v))) =
        S2.phibar • (sn • (Fᵀ *ᵥ (c1 • t1) + damp • (c1 • t2 + s1 • s.v)) - c • (Fᵀ *ᵥ S1.u)) +
        (Fᵀ *ᵥ (g1 + (s1 * s.phibar) • (s1 • t1)) +
          damp • (g2 + (s1 * s.phibar) • (s1 • t2 - c1 • s.v))) := by
      simp only [mulVec_add, mulVec_smul, mulVec_sub]; module
    rw [this, T0, N2, add_zero]
  have hcomb : sn * ρ1 = c * β := by rw [← e4, ← e5]; ring
  -- xnorm
  have hh : (-s.cs2 • s.w) ⬝ᵥ (-s.cs2 • s.w) = 1 := by
    rw [smul_dotProduct, dotProduct_smul, smul_eq_mul, smul_eq_mul]
    linear_combination I.ww
  have XN : S2.x - x0 = y + zb • (-s.cs2 • s.w) := by
    have h1 : zb * -s.cs2 = c * (c1 * s.phibar) / ρ - s.sn2 * s.z := by
      field_simp
      rw [e7] at e9
      linear_combination e9
    rw [fx, smul_smul, h1, ← I.ye]; module
  have yh : y ⬝ᵥ (-s.cs2 • s.w) = 0 := by rw [dotProduct_smul, I.yw, smul_zero]
  have xfact : S2.xnorm = norm2 (S2.x - x0) := by
    rw [fxn, norm2, XN, sqNorm_eq_dot]
    congr 1
    have hy := dotProduct_comm (-s.cs2 • s.w) y
    simp only [add_dotProduct, dotProduct_add, smul_dotProduct zb, dotProduct_smul zb, hh, yh, hy, I.yy,
      smul_eq_mul]
    ring
  have xrange : S2.x - x0 ∈ colSpace Fᵀ := by
    have : S2.x - x0 = (s.x - x0) + (c * (c1 * s.phibar) / ρ) • s.w := by rw [fx]; module
    rw [this]
    exact Submodule.add_mem _ I.xr (Submodule.smul_mem _ _ I.wr)
  have hres0 : 0 ≤ s.res2 := by
    rw [← I.gg, ← sqNorm_eq_dot, ← sqNorm_eq_dot]
    exact add_nonneg (sqNorm_nonneg _) (sqNorm_nonneg _)
  have hdec : S2.r2norm < s.r2norm := by
    rw [fr2, I.rn]
    refine Real.sqrt_lt_sqrt (by positivity) ?_
    have h1 : 0 < (c * c1 * s.phibar) ^ 2 :=
      pow_pos (abs_pos.2 (mul_ne_zero (mul_ne_zero hc hc1) I.phibar)) 2 |>.trans_eq (sq_abs _)
    have h2 : (sn * (c1 * s.phibar)) ^ 2 + (s.res2 + (s1 * s.phibar) ^ 2) =
        s.phibar ^ 2 + s.res2 - (c * c1 * s.phibar) ^ 2 := by
      linear_combination (s.phibar ^ 2) * e3 + (c1 ^ 2 * s.phibar ^ 2) * e6
    rw [h2]; linarith
  obtain ⟨G, hG1, hG2⟩ := I.an
  have hGv : G *ᵥ s.v = F *ᵥ s.v := hG2 _ I.vd
  have hsum : sqNorm (b - F *ᵥ S2.x) + damp ^ 2 * sqNorm (S2.x - x0) =
      (b - F *ᵥ S2.x) ⬝ᵥ (b - F *ᵥ S2.x) + (-(damp • (S2.x - x0))) ⬝ᵥ (-(damp • (S2.x - x0))) := by
    rw [← sqNorm_eq_dot, ← sqNorm_eq_dot, sqNorm_neg, sqNorm_smul]
  have hFw2 : sqNorm (F *ᵥ s.w) + damp ^ 2 * sqNorm s.w = ρ ^ 2 := by
    have e10 : damp ^ 2 * sqNorm s.w = (damp • s.w) ⬝ᵥ (damp • s.w) := by
      rw [← sqNorm_eq_dot, sqNorm_smul]
    have e11 : ρ ^ 2 = ρ1 ^ 2 + β ^ 2 := by
      rw [← e4, ← e5]; linear_combination -(ρ ^ 2) * e6
    have e12 : β * (S1.u ⬝ᵥ t1) = 0 := hU t1 I.t1m
    have e13 : t1 ⬝ᵥ S1.u = S1.u ⬝ᵥ t1 := dotProduct_comm _ _
    have e14 : β ^ 2 * (S1.u ⬝ᵥ S1.u) = β ^ 2 := by
      by_cases h0 : β = 0
      · rw [h0]; ring
      · rw [(bpos h0).1, mul_one]
    rw [e10, sqNorm_eq_dot, Fw, Dw, e11]
    simp only [add_dotProduct, dotProduct_add, smul_dotProduct, dotProduct_smul, smul_eq_mul, vt, tv,
      I.vv, e13]
    linear_combination (2 * ρ1 * c1) * e12 + e14 + (ρ1 ^ 2 * c1 ^ 2) * I.tt + ρ1 ^ 2 * e3
  have hdd0 : 0 ≤ S2.ddnorm := by
    rw [fdd]; exact add_nonneg I.dd0 (sq_nonneg _)
  have hdd : ∀ σ : ℝ, (∀ z ∈ colSpace Fᵀ,
      σ ^ 2 * sqNorm z ≤ sqNorm (F *ᵥ z) + damp ^ 2 * sqNorm z) → σ ^ 2 * S2.ddnorm ≤ S2.itn := by
    intro σ hσ
    have h1 := I.dd σ hσ
    have h2 := hσ s.w I.wr
    rw [hFw2] at h2
    rw [fdd, norm2_sq, sqNorm_smul, fitn, bitn]
    push_cast
    have h3 : σ ^ 2 * ((1 / ρ) ^ 2 * sqNorm s.w) ≤ 1 := by
      rw [div_pow, one_pow, one_div, ← mul_assoc, mul_comm (σ ^ 2), mul_assoc, inv_mul_le_iff₀ (by positivity),
        mul_one]
      exact h2
    linarith
  by_cases hβ0 : β = 0
  · have hsn : sn = 0 := by
      rw [hβ0] at e5
      exact (mul_eq_zero.1 e5).resolve_right hρ.ne'
    have hph : S2.phibar = 0 := by rw [fphi, hsn, zero_mul]
    have har : S2.arnorm = 0 := by rw [far, hsn, zero_mul, abs_zero, mul_zero]
    refine ⟨⟨?_, ?_, xfact, xrange, ?_, ?_, hdd0, hdd⟩, hdec, by rw [fitn, bitn], fun h => absurd har h⟩
    rotate_left 2
    · rw [fanorm, (bzero hβ0).2.2.2]; exact I.an0
    · rw [fanorm, (bzero hβ0).2.2.2, fitn, bitn]
      have := froSq_nonneg G
      have := sq_nonneg damp
      push_cast
      linarith
    · rw [har, GRAD, hph, zero_smul, norm2_zero]
    · rw [hsum, R1, R2, hph, zero_smul, zero_smul, zero_add, zero_add, GG, fr2, fres, hsn]
      congr 1; ring
  · obtain ⟨uu, av, a0, vv, an⟩ := bpos hβ0
    have hsn : sn ≠ 0 := by
      rintro rfl; rw [zero_mul] at e5; exact hβ0 e5.symm
    have uS : ∀ a ∈ SU, S1.u ⬝ᵥ a = 0 := fun a ha => (mul_eq_zero.1 (hU a ha)).resolve_left hβ0
    have uS' : ∀ a ∈ SU, a ⬝ᵥ S1.u = 0 := fun a ha => by rw [dotProduct_comm, uS a ha]
    have GRAD2 : sn • (ρ1 • s.v) - c • (Fᵀ *ᵥ S1.u) = -c • (S1.alfa • S1.v) := by
      rw [av, smul_smul, hcomb]; module
    have TT : (sn • (c1 • t1) - c • S1.u) ⬝ᵥ (sn • (c1 • t1) - c • S1.u) +
        (sn • (c1 • t2 + s1 • s.v)) ⬝ᵥ (sn • (c1 • t2 + s1 • s.v)) = 1 := by
      simp only [add_dotProduct, dotProduct_add, smul_dotProduct, dotProduct_smul, sub_dotProduct,
        dotProduct_sub, smul_eq_mul, vt, tv, uS _ I.t1m, uS' _ I.t1m, I.vv, uu]
      linear_combination (sn ^ 2 * c1 ^ 2) * I.tt + e6 + sn ^ 2 * e3
    have GT : (g1 + (s1 * s.phibar) • (s1 • t1)) ⬝ᵥ (sn • (c1 • t1) - c • S1.u) +
        (g2 + (s1 * s.phibar) • (s1 • t2 - c1 • s.v)) ⬝ᵥ (sn • (c1 • t2 + s1 • s.v)) = 0 := by
      simp only [add_dotProduct, dotProduct_add, smul_dotProduct, dotProduct_smul, sub_dotProduct,
        dotProduct_sub, smul_eq_mul, vt, tv, vg, gv, uS' _ I.t1m, uS' _ I.g1m, I.vv]
      linear_combination (sn * c1) * I.gt + (s1 ^ 2 * s.phibar * sn * c1) * I.tt
    have hph : S2.phibar ≠ 0 := by
      rw [fphi]; exact mul_ne_zero hsn (mul_ne_zero hc1 I.phibar)
    have hFv : F *ᵥ s.v = β • S1.u + s.alfa • s.u := by rw [bu]; abel
    have hFv2 : sqNorm (F *ᵥ s.v) = β ^ 2 + s.alfa ^ 2 := by
      rw [hFv, sqNorm_eq_dot]
      simp only [add_dotProduct, dotProduct_add, smul_dotProduct, dotProduct_smul, smul_eq_mul,
        uS _ I.um, uS' _ I.um, uu, I.uu]
      ring
    have hdef := deflate (G := G) I.vv
    rw [hGv, hFv2] at hdef
    have han : S2.anorm ^ 2 = s.anorm ^ 2 + s.alfa ^ 2 + β ^ 2 + damp ^ 2 := by
      rw [fanorm, an, Real.sq_sqrt (by positivity)]
    have hnew : froSq (G - vecMulVec (F *ᵥ s.v) s.v) + S2.anorm ^ 2 =
        froSq F + S2.itn * damp ^ 2 := by
      rw [hdef, han, fitn, bitn]
      push_cast
      linarith
    have han0 : 0 ≤ S2.anorm := by rw [fanorm, an]; exact Real.sqrt_nonneg _
    refine ⟨⟨?_, ?_, xfact, xrange, han0, ?_, hdd0, hdd⟩, hdec, by rw [fitn, bitn], fun har => ?_⟩
    rotate_left 2
    · have := froSq_nonneg (G - vecMulVec (F *ᵥ s.v) s.v)
      linarith
    rotate_left 1
    · rw [GRAD, GRAD2, far, norm2_smul, norm2_smul, norm2_smul, fphi, abs_neg, abs_of_nonneg a0]
      by_cases hα : S1.alfa = 0
      · rw [hα]; ring
      · have : norm2 S1.v = 1 := by rw [norm2, sqNorm_eq_dot, vv hα, Real.sqrt_one]
        simp only [this, abs_mul]; ring
    · rw [hsum, R1, R2, fr2]
      congr 1
      have h1 := dotProduct_comm (g1 + (s1 * s.phibar) • (s1 • t1)) (sn • (c1 • t1) - c • S1.u)
      have h2 := dotProduct_comm (g2 + (s1 * s.phibar) • (s1 • t2 - c1 • s.v))
        (sn • (c1 • t2 + s1 • s.v))
      generalize sn • (c1 • t1) - c • S1.u = T1 at *
      generalize sn • (c1 • t2 + s1 • s.v) = T2 at *
      generalize g1 + (s1 * s.phibar) • (s1 • t1) = G1 at *
      generalize g2 + (s1 * s.phibar) • (s1 • t2 - c1 • s.v) = G2 at *
      rw [← fres, ← fphi]
      simp only [add_dotProduct, dotProduct_add, smul_dotProduct, dotProduct_smul, smul_eq_mul, ← h1,
        ← h2]
      linear_combination -GG - S2.phibar ^ 2 * TT - (2 * S2.phibar) * GT
    · have hα : S1.alfa ≠ 0 := by
        intro h; apply har; rw [far, h, zero_mul]
      have hα' : 0 < S1.alfa := lt_of_le_of_ne a0 (Ne.symm hα)
      have vv' := vv hα
      have vS : ∀ d ∈ SV ⊔ Submodule.span ℝ {s.v}, S1.v ⬝ᵥ d = 0 := by
        intro d hd0
        obtain ⟨d, hd, l, rfl⟩ := mem_sup_span.1 hd0
        have h1 : S1.alfa * (S1.v ⬝ᵥ (d + l • s.v)) = 0 := by
          rw [← smul_eq_mul, ← smul_dotProduct, av, sub_dotProduct, ← dot_mulVec, mulVec_add,
            mulVec_smul, hFv]
          simp only [add_dotProduct, dotProduct_add, smul_dotProduct, dotProduct_smul, smul_eq_mul,
            uS _ (I.fd d hd), uS _ I.um, uu, I.vd d hd, I.vv]
          ring
        exact (mul_eq_zero.1 h1).resolve_left hα
      have vS' : ∀ d ∈ SV ⊔ Submodule.span ℝ {s.v}, d ⬝ᵥ S1.v = 0 := fun d hd => by
        rw [dotProduct_comm, vS d hd]
      have hFu : Fᵀ *ᵥ S1.u = β • s.v + S1.alfa • S1.v := by rw [av]; abel
      have hvmem : s.v ∈ SV ⊔ Submodule.span ℝ {s.v} :=
        Submodule.mem_sup_right (Submodule.mem_span_singleton_self _)
      have hle : SV ≤ SV ⊔ Submodule.span ℝ {s.v} := le_sup_left
      have hcs2 : S2.cs2 = gb / γ := by rw [← fcs2]; field_simp
      have hsn2 : S2.sn2 = sn * S1.alfa / γ := by rw [← fsn2]; field_simp
      have hz : S2.z = zb * gb / γ := by rw [← fz]; field_simp
      have hunit : S2.cs2 ^ 2 + S2.sn2 ^ 2 = 1 := by
        rw [hcs2, hsn2, div_pow, div_pow, ← add_div, e8, div_self (by positivity)]
      have hwv : (-s.cs2 • s.w) ⬝ᵥ S1.v = 0 := by
        rw [smul_dotProduct, vS' _ I.wm, smul_zero]
      have hvw : S1.v ⬝ᵥ (-s.cs2 • s.w) = 0 := by rw [dotProduct_comm, hwv]
      have hyv : y ⬝ᵥ S1.v = 0 := vS' _ I.ym
      have hbar : -S2.cs2 • S2.w = S2.sn2 • (-s.cs2 • s.w) - S2.cs2 • S1.v := by
        have h1 : S2.cs2 * (sn * S1.alfa / ρ) = -(S2.sn2 * s.cs2) := by
          rw [hcs2, hsn2, e7]; field_simp
        rw [fw, smul_smul, smul_add, smul_smul]
        match_scalars
        · ring
        · linear_combination h1
      have hzero : S2.cs2 ≠ 0 := by
        rw [hcs2]; exact div_ne_zero hgb hγ.ne'
      have hye : S2.x - x0 + (S2.sn2 * S2.z) • S2.w =
          y + S2.z • (S2.cs2 • (-s.cs2 • s.w) + S2.sn2 • S1.v) := by
        have h1 : zb * s.cs2 + S2.sn2 * S2.z * (sn * S1.alfa / ρ) = S2.z * S2.cs2 * s.cs2 := by
          rw [hcs2, hsn2, hz, e7]
          rw [e7] at e8
          field_simp
          linear_combination -(zb * s.cs2) * e8
        rw [XN, fw, smul_add, smul_smul]
        match_scalars
        · ring
        · linear_combination -h1
        · ring
      refine ⟨sn • (c1 • t1) - c • S1.u, g1 + (s1 * s.phibar) • (s1 • t1),
        sn • (c1 • t2 + s1 • s.v), g2 + (s1 * s.phibar) • (s1 • t2 - c1 • s.v),
        y + S2.z • (S2.cs2 • (-s.cs2 • s.w) + S2.sn2 • S1.v),
        SU ⊔ Submodule.span ℝ {S1.u}, ?_⟩
      have hle1 : SU ≤ SU ⊔ Submodule.span ℝ {S1.u} := le_sup_left
      have humem : S1.u ∈ SU ⊔ Submodule.span ℝ {S1.u} :=
        Submodule.mem_sup_right (Submodule.mem_span_singleton_self _)
      have hvr : S1.v ∈ colSpace Fᵀ := by
        have : S1.v = S1.alfa⁻¹ • (Fᵀ *ᵥ S1.u - β • s.v) := by
          rw [← av, smul_smul, inv_mul_cancel₀ hα, one_smul]
        rw [this]
        exact Submodule.smul_mem _ _ (Submodule.sub_mem _ (mem_colSpace.2 ⟨_, rfl⟩)
          (Submodule.smul_mem _ _ I.vr))
      refine {
        alfa := by rw [falfa]; exact hα'
        rhobar := by rw [frho]; exact mul_ne_zero (neg_ne_zero.2 hc) hα
        phibar := hph
        cs2 := hzero
        r1 := R1
        r2 := R2
        n1 := ?_
        n2 := N2
        w1 := ?_
        w2 := ?_
        tt := TT
        uu := by rw [fu]; exact uu
        vv := by rw [fv]; exact vv'
        gg := GG
        gt := GT
        t1m := Submodule.sub_mem _ (hle1 (SU.smul_mem _ (SU.smul_mem _ I.t1m)))
          (Submodule.smul_mem _ _ humem)
        g1m := hle1 (SU.add_mem I.g1m (SU.smul_mem _ (SU.smul_mem _ I.t1m)))
        um := by rw [fu]; exact humem
        t2m := Submodule.smul_mem _ _ (Submodule.add_mem _ (hle (SV.smul_mem _ I.t2m))
          (Submodule.smul_mem _ _ hvmem))
        g2m := Submodule.add_mem _ (hle I.g2m) (Submodule.smul_mem _ _ (Submodule.sub_mem _
          (hle (SV.smul_mem _ I.t2m)) (Submodule.smul_mem _ _ hvmem)))
        gk := ?_
        fa := ?_
        vd := by rw [fv]; exact vS
        fd := ?_
        dim := ?_
        svr := sup_le I.svr ((Submodule.span_singleton_le_iff_mem _ _).2 I.vr)
        vr := by rw [fv]; exact hvr
        wr := by
          rw [fw]; exact Submodule.add_mem _ hvr (Submodule.smul_mem _ _ I.wr)
        xr := xrange
        ye := hye
        yy := ?_
        yw := ?_
        ww := ?_
        ym := ?_
        wm := ?_
        rn := by rw [fr2, fphi, fres]
        an0 := han0
        an := ⟨_, hnew, fun a ha => ?_⟩
        dd0 := hdd0
        dd := hdd }
      · -- n1
        have : Fᵀ *ᵥ (sn • (c1 • t1) - c • S1.u) + damp • (sn • (c1 • t2 + s1 • s.v)) =
            sn • (Fᵀ *ᵥ (c1 • t1) + damp • (c1 • t2 + s1 • s.v)) - c • (Fᵀ *ᵥ S1.u) := by
          simp only [mulVec_smul, mulVec_sub]; module
        rw [this, T0, GRAD2, frho, fv]; module
      · -- w1
        have h1 : sn * S1.alfa / ρ * (ρ1 * c1) = sn * S1.alfa * c * c1 := by
          rw [← e4]; field_simp
        have h2 : sn * S1.alfa / ρ * β = sn ^ 2 * S1.alfa := by
          rw [← e5]; field_simp
        rw [fw, fv, fu, frho, falfa, mulVec_add, mulVec_smul, Fw, smul_add, smul_smul, smul_smul,
          neg_div, neg_mul, neg_mul, h1, h2]
        match_scalars
        · ring
        · ring
        · linear_combination -S1.alfa * e6
      · -- w2
        have h1 : sn * S1.alfa / ρ * ρ1 = sn * S1.alfa * c := by
          rw [← e4]; field_simp
        have : damp • S2.w = damp • S1.v + (-(sn * S1.alfa / ρ)) • (damp • s.w) := by
          rw [fw, neg_div]; module
        rw [this, fv, frho, Dw, smul_smul, neg_mul, h1]
        module
      · -- gk
        intro a ha0
        obtain ⟨a, ha, l, rfl⟩ := mem_sup_span.1 ha0
        have h1 : S1.v ⬝ᵥ (Fᵀ *ᵥ a) = 0 := vS _ (I.fa a ha)
        have h2 : (F *ᵥ S1.v) ⬝ᵥ a = 0 := by
          rw [dotProduct_comm, dot_mulVec, dotProduct_comm]; exact h1
        have h3 : (F *ᵥ S1.v) ⬝ᵥ S1.u = S1.alfa := by
          rw [dotProduct_comm, dot_mulVec, hFu]
          simp only [add_dotProduct, smul_dotProduct, smul_eq_mul, vv', vS' _ hvmem]
          ring
        rw [fv, fu, falfa, dotProduct_add, dotProduct_add, dotProduct_smul, dotProduct_smul, h2, h3,
          uS a ha, uu]
        simp only [smul_eq_mul]; ring
      · -- fa
        intro a ha0
        obtain ⟨a, ha, l, rfl⟩ := mem_sup_span.1 ha0
        rw [fv, mulVec_add, mulVec_smul, hFu]
        refine Submodule.add_mem _ (Submodule.mem_sup_left (I.fa a ha)) (Submodule.smul_mem _ _
          (Submodule.add_mem _ (Submodule.mem_sup_left (Submodule.smul_mem _ _ hvmem))
          (Submodule.mem_sup_right (Submodule.smul_mem _ _ (Submodule.mem_span_singleton_self _)))))
      · -- fd
        intro d hd0
        obtain ⟨d, hd, l, rfl⟩ := mem_sup_span.1 hd0
        rw [mulVec_add, mulVec_smul, hFv]
        exact Submodule.add_mem _ (hle1 (I.fd d hd)) (Submodule.smul_mem _ _
          (Submodule.add_mem _ (Submodule.smul_mem _ _ humem) (hle1 (SU.smul_mem _ I.um))))
      · -- dim
        have hlt : SV < SV ⊔ Submodule.span ℝ {s.v} := by
          refine lt_of_le_of_ne hle fun h => ?_
          have : s.v ∈ SV := by rw [h]; exact hvmem
          have := I.vd _ this
          rw [I.vv] at this
          exact one_ne_zero this
        have h1 := Submodule.finrank_lt_finrank_of_lt hlt
        have h2 := I.dim
        rw [fitn, bitn]
        omega
      · -- yy
        have h1 := dotProduct_comm (-s.cs2 • s.w) y
        have h2 := dotProduct_comm S1.v y
        generalize -s.cs2 • s.w = hb at *
        simp only [add_dotProduct, dotProduct_add, smul_dotProduct, dotProduct_smul, smul_eq_mul, h1, h2,
          yh, hyv, hwv, hvw, vv', hh, I.yy, fxx]
        linear_combination S2.z ^ 2 * hunit
      · -- yw
        have h1 : (y + S2.z • (S2.cs2 • (-s.cs2 • s.w) + S2.sn2 • S1.v)) ⬝ᵥ (-S2.cs2 • S2.w) = 0 := by
          rw [hbar]
          generalize -s.cs2 • s.w = hb at *
          simp only [add_dotProduct, dotProduct_sub, smul_dotProduct, dotProduct_smul, smul_eq_mul,
            yh, hyv, hwv, hvw, vv', hh]
          ring
        rw [dotProduct_smul, smul_eq_mul] at h1
        exact (mul_eq_zero.1 h1).resolve_left (neg_ne_zero.2 hzero)
      · -- ww
        have h1 : (-S2.cs2 • S2.w) ⬝ᵥ (-S2.cs2 • S2.w) = 1 := by
          rw [hbar]
          generalize -s.cs2 • s.w = hb at *
          simp only [sub_dotProduct, dotProduct_sub, smul_dotProduct, dotProduct_smul, smul_eq_mul,
            hwv, hvw, vv', hh]
          linear_combination hunit
        rw [smul_dotProduct, dotProduct_smul, smul_eq_mul, smul_eq_mul] at h1
        linear_combination h1
      · -- ym
        rw [fv]
        refine Submodule.add_mem _ (Submodule.mem_sup_left I.ym) (Submodule.smul_mem _ _
          (Submodule.add_mem _ (Submodule.mem_sup_left (Submodule.smul_mem _ _ (Submodule.smul_mem _ _
            I.wm))) (Submodule.mem_sup_right (Submodule.smul_mem _ _
            (Submodule.mem_span_singleton_self _)))))
      · -- wm
        rw [fv, fw]
        exact Submodule.add_mem _ (Submodule.mem_sup_right (Submodule.mem_span_singleton_self _))
          (Submodule.mem_sup_left (Submodule.smul_mem _ _ I.wm))
      · -- an
        have h1 : s.v ⬝ᵥ a = 0 := by rw [dotProduct_comm]; exact ha _ hvmem
        rw [sub_mulVec, hG2 a fun d hd => ha d (hle hd), vecMulVec_mulVec, h1]
        simp

/-! ## Initialisation -/

open Classical in
/-- `lsqrInit` for a matrix operator -/
noncomputable def initP (F : Matrix (Fin p) (Fin q) ℝ) (b : Fin p → ℝ) (x0 : Fin q → ℝ) :
    LsqrState p q :=
  let r := b - F *ᵥ x0
  let β := norm2 r
  let u := if 0 < β then (1 / β) • r else r
  let v0 := if 0 < β then Fᵀ *ᵥ ((1 / β) • r) else x0
  let alfa := if 0 < β then norm2 (Fᵀ *ᵥ ((1 / β) • r)) else 0
  let v := if 0 < alfa then (1 / alfa) • v0 else v0
  { x := x0, u := u, v := v, w := v, alfa := alfa, rhobar := alfa, phibar := β
    anorm := 0, acond := 0, ddnorm := 0, res2 := 0, xnorm := 0, xxnorm := 0, z := 0
    cs2 := -1, sn2 := 0, r1norm := β, r2norm := β, arnorm := alfa * β, itn := 0, var := 0 }

theorem lsqrInit_ofMat (F : Matrix (Fin p) (Fin q) ℝ) (b : Fin p → ℝ) (x0 : Option (Fin q → ℝ)) :
    lsqrInit (LinOp.ofMat F) b x0 = .ok (initP F b (x0.getD 0)) := by
  unfold lsqrInit initP LinOp.ofMat
  cases x0 with
  | none =>
    simp only [Option.getD_none, mulVec_zero, sub_zero, Except.bind, bind, pure, Except.pure]
    by_cases h : 0 < norm2 b
    · simp only [if_pos h]
    · simp only [if_neg h]
  | some x0 =>
    simp only [Option.getD_some, Except.bind, bind, pure, Except.pure]
    by_cases h : 0 < norm2 (b - F *ᵥ x0)
    · simp only [if_pos h]
    · simp only [if_neg h]

/-- What initialisation establishes. -/
theorem initP_spec (F : Matrix (Fin p) (Fin q) ℝ) (b : Fin p → ℝ) (x0 : Fin q → ℝ) (damp : ℝ) :
    LsqrFacts F b x0 damp (initP F b x0) ∧ ((initP F b x0).arnorm ≠ 0 → ∃ t1 g1 t2 g2 y SU,
      LsqrInv F b x0 damp (initP F b x0) t1 g1 t2 g2 y SU ⊥) := by
  have hx : (initP F b x0).x = x0 := rfl
  have har : (initP F b x0).arnorm = norm2 (Fᵀ *ᵥ (b - F *ᵥ x0)) := by
    show (if _ then _ else _) * norm2 (b - F *ᵥ x0) = _
    by_cases h : 0 < norm2 (b - F *ᵥ x0)
    · rw [if_pos h, mulVec_smul, norm2_smul, abs_of_pos (by positivity)]
      field_simp
    · rw [if_neg h, zero_mul]
      have h0 : norm2 (b - F *ᵥ x0) = 0 := le_antisymm (not_lt.1 h) (norm2_nonneg _)
      rw [norm2_eq_zero.1 h0, mulVec_zero, norm2_zero]
  refine ⟨⟨?_, ?_, ?_, ?_, le_rfl, ?_, le_rfl, fun σ _ => ?_⟩, fun h => ?_⟩
  rotate_left 4
  · show (0 : ℝ) ^ 2 ≤ froSq F + ((0 : ℕ) : ℝ) * damp ^ 2
    have := froSq_nonneg F
    simpa using this
  · show σ ^ 2 * (0 : ℝ) ≤ ((0 : ℕ) : ℝ)
    simp
  rotate_left 1
  · rw [har, hx, sub_self, smul_zero, sub_zero]
  · show norm2 (b - F *ᵥ x0) = _
    rw [hx, sub_self, sqNorm_eq_zero.2 rfl, mul_zero, add_zero, norm2]
  · show 0 = norm2 _
    rw [hx, sub_self, norm2_zero]
  · rw [hx, sub_self]; exact Submodule.zero_mem _
  · have hβ : 0 < norm2 (b - F *ᵥ x0) := by
      rw [norm2_pos]
      intro h0
      rw [har, h0, mulVec_zero, norm2_zero] at h
      exact h rfl
    set β := norm2 (b - F *ᵥ x0) with hβd
    set u := (1 / β) • (b - F *ᵥ x0) with hu
    have hα : 0 < norm2 (Fᵀ *ᵥ u) := by
      rw [hu, mulVec_smul, norm2_smul, ← har]
      exact mul_pos (abs_pos.2 (by positivity)) (lt_of_le_of_ne (har ▸ norm2_nonneg _) (Ne.symm h))
    set α := norm2 (Fᵀ *ᵥ u) with hαd
    have hinit : initP F b x0 = { x := x0, u := u, v := (1 / α) • (Fᵀ *ᵥ u), w := (1 / α) • (Fᵀ *ᵥ u)
                                  alfa := α, rhobar := α, phibar := β
                                  anorm := 0, acond := 0, ddnorm := 0, res2 := 0, xnorm := 0
                                  xxnorm := 0, z := 0, cs2 := -1, sn2 := 0, r1norm := β
                                  r2norm := β, arnorm := α * β, itn := 0, var := 0 } := by
      unfold initP
      simp only [← hβd, if_pos hβ, ← hu, ← hαd, if_pos hα]
    have hbu : b - F *ᵥ x0 = β • u := by rw [hu, smul_smul, mul_one_div_cancel hβ.ne', one_smul]
    have huu : u ⬝ᵥ u = 1 := by
      rw [hu, ← sqNorm_eq_dot, sqNorm_smul, ← norm2_sq, ← hβd]; field_simp
    have hvv : ((1 / α) • (Fᵀ *ᵥ u)) ⬝ᵥ ((1 / α) • (Fᵀ *ᵥ u)) = 1 := by
      rw [← sqNorm_eq_dot, sqNorm_smul, ← norm2_sq, ← hαd]; field_simp
    have hFu : Fᵀ *ᵥ u = α • ((1 / α) • (Fᵀ *ᵥ u)) := by
      rw [smul_smul, mul_one_div_cancel hα.ne', one_smul]
    rw [hinit]
    clear_value α u β
    refine ⟨u, 0, 0, 0, 0, Submodule.span ℝ {u}, ?_⟩
    refine {
      alfa := hα
      rhobar := hα.ne'
      phibar := hβ.ne'
      cs2 := by norm_num
      r1 := by simpa using hbu
      r2 := by simp
      n1 := by simpa using hFu
      n2 := by simp
      w1 := by simp
      w2 := by simp
      tt := by simpa using huu
      uu := huu
      vv := hvv
      gg := by simp
      gt := by simp
      t1m := Submodule.mem_span_singleton_self _
      g1m := Submodule.zero_mem _
      um := Submodule.mem_span_singleton_self _
      t2m := Submodule.zero_mem _
      g2m := Submodule.zero_mem _
      gk := ?_
      fa := ?_
      vd := ?_
      fd := ?_
      dim := Nat.zero_le _
      svr := bot_le
      vr := Submodule.smul_mem _ _ (mem_colSpace.2 ⟨_, rfl⟩)
      wr := Submodule.smul_mem _ _ (mem_colSpace.2 ⟨_, rfl⟩)
      xr := by simp
      ye := by simp
      yy := by simp
      yw := by simp
      ww := by
        show (-1 : ℝ) ^ 2 * _ = 1
        rw [hvv]; norm_num
      ym := Submodule.zero_mem _
      wm := Submodule.mem_sup_right (Submodule.mem_span_singleton_self _)
      rn := by
        show β = Real.sqrt (β ^ 2 + 0)
        rw [add_zero, Real.sqrt_sq hβ.le]
      an0 := le_rfl
      an := ⟨F, by simp, fun _ _ => rfl⟩
      dd0 := le_rfl
      dd := fun σ _ => by
        show σ ^ 2 * (0 : ℝ) ≤ ((0 : ℕ) : ℝ)
        simp }
    · intro a ha
      obtain ⟨l, rfl⟩ := Submodule.mem_span_singleton.1 ha
      show (F *ᵥ ((1 / α) • (Fᵀ *ᵥ u))) ⬝ᵥ (l • u) = α * (u ⬝ᵥ (l • u))
      rw [dotProduct_smul, dotProduct_smul, huu, dotProduct_comm, dot_mulVec]
      nth_rw 1 [hFu]
      rw [smul_dotProduct, hvv]
      simp only [smul_eq_mul]; ring
    · intro a ha
      obtain ⟨l, rfl⟩ := Submodule.mem_span_singleton.1 ha
      refine Submodule.mem_sup_right (Submodule.mem_span_singleton.2 ⟨l * α, ?_⟩)
      show (l * α) • ((1 / α) • (Fᵀ *ᵥ u)) = _
      rw [mulVec_smul, mul_smul, ← hFu]
    · intro d hd
      rw [(Submodule.mem_bot ℝ).1 hd, dotProduct_zero]
    · intro d hd
      rw [(Submodule.mem_bot ℝ).1 hd, mulVec_zero]
      exact Submodule.zero_mem _

/-! ## Stop codes -/

theorem eps_pos' : (0 : ℝ) < eps := by unfold eps; positivity

/-- The tests behind the stop codes. -/
theorem lsqrStop_cases (T : LsqrTol) (bn : ℝ) (L : ℕ) (s : LsqrState p q) :
    let k := lsqrStop T bn L s
    let test2 := s.arnorm / (s.anorm * s.r2norm + eps)
    let test3 := 1 / (s.acond + eps)
    let ctol := if T.conlim > 0 then 1 / T.conlim else 0
    let pass1 := if bn = 0 then 0 < s.r2norm ∧ 0 < T.atol * s.anorm * s.xnorm
      else s.r2norm / bn ≤ T.btol + T.atol * s.anorm * s.xnorm / bn
    let small1 := bn ≠ 0 ∧ s.r2norm / bn / (1 + s.anorm * s.xnorm / bn) ≤ 0
    (k = 1 ∧ pass1) ∨
    (¬ pass1 ∧ ((k = 2 ∧ test2 ≤ T.atol) ∨
    (¬ test2 ≤ T.atol ∧ ((k = 3 ∧ test3 ≤ ctol) ∨
    (¬ test3 ≤ ctol ∧ ((k = 4 ∧ small1) ∨
    (¬ small1 ∧ ((k = 5 ∧ test2 ≤ 0) ∨
    (¬ test2 ≤ 0 ∧ ((k = 6 ∧ test3 ≤ 0) ∨
    (¬ test3 ≤ 0 ∧ ((k = 7 ∧ L ≤ s.itn) ∨ (k = 0 ∧ s.itn < L))))))))))))) := by
  intro k test2 test3 ctol pass1 small1
  have hk : k = if pass1 then 1 else if test2 ≤ T.atol then 2 else if test3 ≤ ctol then 3 else
      if small1 then 4 else if test2 ≤ 0 then 5 else if test3 ≤ 0 then 6 else
      if s.itn ≥ L then 7 else 0 := rfl
  rw [hk]
  by_cases h1 : pass1
  · left; rw [if_pos h1]; exact ⟨rfl, h1⟩
  right; rw [if_neg h1]; refine ⟨h1, ?_⟩
  by_cases h2 : test2 ≤ T.atol
  · left; rw [if_pos h2]; exact ⟨rfl, h2⟩
  right; rw [if_neg h2]; refine ⟨h2, ?_⟩
  by_cases h3 : test3 ≤ ctol
  · left; rw [if_pos h3]; exact ⟨rfl, h3⟩
  right; rw [if_neg h3]; refine ⟨h3, ?_⟩
  by_cases h4 : small1
  · left; rw [if_pos h4]; exact ⟨rfl, h4⟩
  right; rw [if_neg h4]; refine ⟨h4, ?_⟩
  by_cases h5 : test2 ≤ 0
  · left; rw [if_pos h5]; exact ⟨rfl, h5⟩
  right; rw [if_neg h5]; refine ⟨h5, ?_⟩
  by_cases h6 : test3 ≤ 0
  · left; rw [if_pos h6]; exact ⟨rfl, h6⟩
  right; rw [if_neg h6]; refine ⟨h6, ?_⟩
  by_cases h7 : s.itn ≥ L
  · left; rw [if_pos h7]; exact ⟨rfl, h7⟩
  · right; rw [if_neg h7]; exact ⟨rfl, not_le.1 h7⟩

theorem lsqrStop_eq_zero {T : LsqrTol} {bn : ℝ} {L : ℕ} {s : LsqrState p q}
    (h : lsqrStop T bn L s = 0) : s.itn < L ∧ s.arnorm ≠ 0 := by
  have := lsqrStop_cases T bn L s
  simp only [h] at this
  simp only [OfNat.zero_ne_ofNat, false_and, false_or, zero_ne_one] at this
  obtain ⟨-, -, -, -, h5, -, -, h7⟩ := this
  exact ⟨h7, fun h => h5 (by rw [h, zero_div])⟩

/-- The limit only matters through `itn >= iter_lim`. -/
theorem lsqrStop_limit {T : LsqrTol} {bn : ℝ} {L L' : ℕ} {s : LsqrState p q}
    (h : lsqrStop T bn L s = 0) (h' : s.itn < L') : lsqrStop T bn L' s = 0 := by
  have := lsqrStop_cases T bn L s
  simp only [h] at this
  simp only [OfNat.zero_ne_ofNat, false_and, false_or, zero_ne_one] at this
  obtain ⟨a1, a2, a3, a4, a5, a6, -, -⟩ := this
  rcases lsqrStop_cases T bn L' s with b | ⟨-, b | ⟨-, b | ⟨-, b | ⟨-, b | ⟨-, b | ⟨-, b | b⟩⟩⟩⟩⟩⟩
  · exact absurd b.2 a1
  · exact absurd b.2 a2
  · exact absurd b.2 a3
  · exact absurd b.2 a4
  · exact absurd b.2 a5
  · exact absurd b.2 a6
  · exact absurd b.2 (not_le.2 h')
  · exact b.1

theorem lsqrStop_le {T : LsqrTol} {bn : ℝ} {L : ℕ} {s : LsqrState p q} (h : L ≤ s.itn) :
    lsqrStop T bn L s ≠ 0 := fun h0 => absurd (lsqrStop_eq_zero h0).1 (not_lt.2 h)

/-! ## The loop -/

theorem stepP_itn (F : Matrix (Fin p) (Fin q) ℝ) (damp : ℝ) (s : LsqrState p q) :
    (stepP F damp s).itn = s.itn + 1 := by
  have := (bidP_spec F damp s).2.2.2.2.2.2.2.2.2.1
  exact this

theorem iter_itn (F : Matrix (Fin p) (Fin q) ℝ) (damp : ℝ) (s : LsqrState p q) (k : ℕ) :
    ((stepP F damp)^[k] s).itn = s.itn + k := by
  induction k generalizing s with
  | zero => rfl
  | succ k ih => rw [Function.iterate_succ_apply, ih, stepP_itn]; omega

/-- The loop runs until the first non-zero stop code. -/
theorem lsqrLoop_spec (F : Matrix (Fin p) (Fin q) ℝ) (damp : ℝ) (T : LsqrTol) (bn : ℝ) (L : ℕ) :
    ∀ (fuel : ℕ) (s : LsqrState p q) (pre : List ℝ), s.itn + fuel = L → pre.length = s.itn →
    ∃ K ≤ fuel, (0 < fuel → 0 < K) ∧
      lsqrLoop (LinOp.ofMat F) damp T bn L false fuel s (pre ++ List.replicate fuel (-1)) =
        .ok ((stepP F damp)^[K] s, if K = 0 then 0 else lsqrStop T bn L ((stepP F damp)^[K] s),
          pre ++ (List.range K).map (fun j => ((stepP F damp)^[j] s).arnorm) ++
            List.replicate (fuel - K) (-1)) ∧
      (0 < K → lsqrStop T bn L ((stepP F damp)^[K] s) ≠ 0) ∧
      ∀ j, 0 < j → j < K → lsqrStop T bn L ((stepP F damp)^[j] s) = 0 := by
  intro fuel
  induction fuel with
  | zero =>
    intro s pre _ _
    exact ⟨0, le_rfl, fun h => absurd h (lt_irrefl _), by simp [lsqrLoop],
      fun h => absurd h (lt_irrefl _), fun j h1 h2 => by omega⟩
  | succ fuel ih =>
    intro s pre h1 h2
    have harr : (pre ++ List.replicate (fuel + 1) (-1)).set s.itn s.arnorm =
        (pre ++ [s.arnorm]) ++ List.replicate fuel (-1) := by
      rw [← h2, List.set_append_right _ _ le_rfl, Nat.sub_self, List.replicate_succ, List.set_cons_zero,
        List.append_assoc, List.singleton_append]
    have hloop : lsqrLoop (LinOp.ofMat F) damp T bn L false (fuel + 1) s
        (pre ++ List.replicate (fuel + 1) (-1)) =
        if lsqrStop T bn L (stepP F damp s) ≠ 0 then
          .ok (stepP F damp s, lsqrStop T bn L (stepP F damp s),
            (pre ++ [s.arnorm]) ++ List.replicate fuel (-1))
        else lsqrLoop (LinOp.ofMat F) damp T bn L false fuel (stepP F damp s)
          ((pre ++ [s.arnorm]) ++ List.replicate fuel (-1)) := by
      rw [lsqrLoop]
      simp only [lsqrStep_ofMat, harr]
    by_cases hs : lsqrStop T bn L (stepP F damp s) ≠ 0
    · refine ⟨1, by omega, fun _ => one_pos, ?_, fun _ => hs, fun j h3 h4 => by omega⟩
      rw [hloop, if_pos hs, if_neg one_ne_zero]
      simp
    · have hitn := stepP_itn F damp s
      have h0 : lsqrStop T bn L (stepP F damp s) = 0 := not_not.1 hs
      have hlt := (lsqrStop_eq_zero h0).1
      obtain ⟨K, hK, hK0, hl, hst, hj⟩ := ih (stepP F damp s) (pre ++ [s.arnorm]) (by omega)
        (by rw [List.length_append, h2, hitn]; rfl)
      have hKpos : 0 < K := hK0 (by omega)
      refine ⟨K + 1, by omega, fun _ => Nat.succ_pos _, ?_, fun _ => ?_, ?_⟩
      · rw [hloop, if_neg hs, hl, if_neg hKpos.ne', if_neg (Nat.succ_ne_zero K),
          Function.iterate_succ_apply, List.range_succ_eq_map, List.map_cons, List.map_map,
          Nat.add_sub_add_right]
        simp [Function.comp_def, Function.iterate_succ_apply]
      · rw [Function.iterate_succ_apply]; exact hst hKpos
      · intro j h3 h4
        cases j with
        | zero => omega
        | succ j =>
          rw [Function.iterate_succ_apply]
          cases j with
          | zero => exact h0
          | succ j => exact hj _ (Nat.succ_pos _) (by omega)

end Parla

namespace Parla

open Matrix

variable {p q : ℕ}

/-! ## The sequence of states -/

/-- The state after `k` iterations. -/
noncomputable def seqP (F : Matrix (Fin p) (Fin q) ℝ) (b : Fin p → ℝ) (x0 : Fin q → ℝ) (damp : ℝ)
    (k : ℕ) : LsqrState p q := (stepP F damp)^[k] (initP F b x0)

theorem seqP_itn (F : Matrix (Fin p) (Fin q) ℝ) (b : Fin p → ℝ) (x0 : Fin q → ℝ) (damp : ℝ) (k : ℕ) :
    (seqP F b x0 damp k).itn = k := by
  have := iter_itn F damp (initP F b x0) k
  rw [show (initP F b x0).itn = 0 from rfl, zero_add] at this
  exact this

theorem seqP_succ (F : Matrix (Fin p) (Fin q) ℝ) (b : Fin p → ℝ) (x0 : Fin q → ℝ) (damp : ℝ) (k : ℕ) :
    seqP F b x0 damp (k + 1) = stepP F damp (seqP F b x0 damp k) :=
  Function.iterate_succ_apply' _ _ _

/-- the span of the first `k` vectors `v` of the bidiagonalisation -/
noncomputable def vSpan (F : Matrix (Fin p) (Fin q) ℝ) (b : Fin p → ℝ) (x0 : Fin q → ℝ) (damp : ℝ) :
    ℕ → Submodule ℝ (Fin q → ℝ)
  | 0 => ⊥
  | k + 1 => vSpan F b x0 damp k ⊔ Submodule.span ℝ {(seqP F b x0 damp k).v}

theorem seqP_inv_span {F : Matrix (Fin p) (Fin q) ℝ} {b : Fin p → ℝ} {x0 : Fin q → ℝ} {damp : ℝ} {k : ℕ}
    (h : ∀ j ≤ k, (seqP F b x0 damp j).arnorm ≠ 0) : ∃ t1 g1 t2 g2 y SU,
      LsqrInv F b x0 damp (seqP F b x0 damp k) t1 g1 t2 g2 y SU (vSpan F b x0 damp k) := by
  induction k with
  | zero => exact (initP_spec F b x0 damp).2 (h 0 le_rfl)
  | succ k ih =>
    obtain ⟨t1, g1, t2, g2, y, SU, I⟩ := ih fun j hj => h j (by omega)
    rw [seqP_succ]
    exact (stepP_inv I).2.2.2 (by rw [← seqP_succ]; exact h _ le_rfl)

theorem seqP_inv {F : Matrix (Fin p) (Fin q) ℝ} {b : Fin p → ℝ} {x0 : Fin q → ℝ} {damp : ℝ} {k : ℕ}
    (h : ∀ j ≤ k, (seqP F b x0 damp j).arnorm ≠ 0) : ∃ t1 g1 t2 g2 y SU SV,
      LsqrInv F b x0 damp (seqP F b x0 damp k) t1 g1 t2 g2 y SU SV := by
  obtain ⟨t1, g1, t2, g2, y, SU, I⟩ := seqP_inv_span h
  exact ⟨t1, g1, t2, g2, y, SU, _, I⟩

/-- the iterates move inside the spans of the vectors `v` -/
theorem seqP_mem_span {F : Matrix (Fin p) (Fin q) ℝ} {b : Fin p → ℝ} {x0 : Fin q → ℝ} {damp : ℝ} {k : ℕ}
    (h : ∀ j < k, (seqP F b x0 damp j).arnorm ≠ 0) :
    (seqP F b x0 damp k).x - x0 ∈ vSpan F b x0 damp k := by
  induction k with
  | zero =>
    rw [show (seqP F b x0 damp 0).x = x0 from rfl, sub_self]
    exact Submodule.zero_mem _
  | succ k ih =>
    obtain ⟨t1, g1, t2, g2, y, SU, I⟩ := seqP_inv_span (k := k) fun j hj => h j (by omega)
    have hx : ∃ c : ℝ, (seqP F b x0 damp (k + 1)).x =
        (seqP F b x0 damp k).x + c • (seqP F b x0 damp k).w := by
      rw [seqP_succ]
      obtain ⟨bx, bw, brho, bphi, bres, bxx, bz, bcs2, bsn2, bitn, bdd, bu, bpos, bzero⟩ :=
        bidP_spec F damp (seqP F b x0 damp k)
      obtain ⟨ρ1, c1, s1, ρ, c, sn, gb, γ, zb, hρ1, hρ, hγ, hgb, e1, e2, e3, e4, e5, e6, e7, e8, e9,
        fx, -⟩ := rotate_spec damp (bidP F damp (seqP F b x0 damp k))
          (norm2 (F *ᵥ (seqP F b x0 damp k).v - (seqP F b x0 damp k).alfa • (seqP F b x0 damp k).u))
          (by rw [brho]; exact I.rhobar) (by rw [bcs2]; exact I.cs2)
      rw [bx, bw] at fx
      exact ⟨_, fx⟩
    obtain ⟨c, hc⟩ := hx
    rw [hc, show (seqP F b x0 damp k).x + c • (seqP F b x0 damp k).w - x0 =
      ((seqP F b x0 damp k).x - x0) + c • (seqP F b x0 damp k).w by abel]
    exact Submodule.add_mem _ (Submodule.mem_sup_left (ih fun j hj => h j (by omega)))
      (Submodule.smul_mem _ _ I.wm)

theorem LsqrInv.rhobar' {F : Matrix (Fin p) (Fin q) ℝ} {b : Fin p → ℝ} {x0 : Fin q → ℝ} {damp : ℝ}
    {s : LsqrState p q} {t1 g1 : Fin p → ℝ} {t2 g2 y : Fin q → ℝ} {SU : Submodule ℝ (Fin p → ℝ)}
    {SV : Submodule ℝ (Fin q → ℝ)} (I : LsqrInv F b x0 damp s t1 g1 t2 g2 y SU SV) :
    (bidP F damp s).rhobar ≠ 0 := by
  rw [(bidP_spec F damp s).2.2.1]; exact I.rhobar

theorem LsqrInv.cs2' {F : Matrix (Fin p) (Fin q) ℝ} {b : Fin p → ℝ} {x0 : Fin q → ℝ} {damp : ℝ}
    {s : LsqrState p q} {t1 g1 : Fin p → ℝ} {t2 g2 y : Fin q → ℝ} {SU : Submodule ℝ (Fin p → ℝ)}
    {SV : Submodule ℝ (Fin q → ℝ)} (I : LsqrInv F b x0 damp s t1 g1 t2 g2 y SU SV) :
    (bidP F damp s).cs2 ≠ 0 := by
  rw [(bidP_spec F damp s).2.2.2.2.2.2.2.1]; exact I.cs2

theorem seqP_facts {F : Matrix (Fin p) (Fin q) ℝ} {b : Fin p → ℝ} {x0 : Fin q → ℝ} {damp : ℝ} {k : ℕ}
    (h : ∀ j < k, (seqP F b x0 damp j).arnorm ≠ 0) : LsqrFacts F b x0 damp (seqP F b x0 damp k) := by
  cases k with
  | zero => exact (initP_spec F b x0 damp).1
  | succ k =>
    obtain ⟨t1, g1, t2, g2, y, SU, SV, I⟩ := seqP_inv (k := k) fun j hj => h j (Nat.lt_succ_of_le hj)
    rw [seqP_succ]
    exact (stepP_inv I).1

theorem seqP_dec {F : Matrix (Fin p) (Fin q) ℝ} {b : Fin p → ℝ} {x0 : Fin q → ℝ} {damp : ℝ} {k : ℕ}
    (h : ∀ j ≤ k, (seqP F b x0 damp j).arnorm ≠ 0) :
    (seqP F b x0 damp (k + 1)).r2norm < (seqP F b x0 damp k).r2norm := by
  obtain ⟨t1, g1, t2, g2, y, SU, SV, I⟩ := seqP_inv h
  rw [seqP_succ]
  exact (stepP_inv I).2.1

/-- The normal-equation residual cannot stay non-zero for `rank F` iterations. -/
theorem seqP_rank {F : Matrix (Fin p) (Fin q) ℝ} {b : Fin p → ℝ} {x0 : Fin q → ℝ} {damp : ℝ} {k : ℕ}
    (h : ∀ j ≤ k, (seqP F b x0 damp j).arnorm ≠ 0) : k + 1 ≤ F.rank := by
  obtain ⟨t1, g1, t2, g2, y, SU, SV, I⟩ := seqP_inv h
  have hlt : SV < SV ⊔ Submodule.span ℝ {(seqP F b x0 damp k).v} := by
    refine lt_of_le_of_ne le_sup_left fun h => ?_
    have : (seqP F b x0 damp k).v ∈ SV := by
      rw [h]; exact Submodule.mem_sup_right (Submodule.mem_span_singleton_self _)
    have := I.vd _ this
    rw [I.vv] at this
    exact one_ne_zero this
  have h1 := Submodule.finrank_lt_finrank_of_lt hlt
  have h2 := Submodule.finrank_mono
    (sup_le I.svr ((Submodule.span_singleton_le_iff_mem _ _).2 I.vr))
  have h3 := I.dim
  rw [seqP_itn] at h3
  rw [finrank_colSpace, rank_transpose] at h2
  omega

theorem seqP_acond {F : Matrix (Fin p) (Fin q) ℝ} {b : Fin p → ℝ} {x0 : Fin q → ℝ} {damp : ℝ} {k : ℕ}
    (h : ∀ j < k, (seqP F b x0 damp j).arnorm ≠ 0) : 0 ≤ (seqP F b x0 damp k).acond := by
  cases k with
  | zero => exact le_rfl
  | succ k =>
    have := (seqP_facts h).anorm0
    have e : (seqP F b x0 damp (k + 1)).acond =
        (seqP F b x0 damp (k + 1)).anorm * Real.sqrt (seqP F b x0 damp (k + 1)).ddnorm := by
      rw [seqP_succ]; rfl
    rw [e]
    exact mul_nonneg this (Real.sqrt_nonneg _)

/-! ## The whole call -/

/-- What a call that entered the main loop returns after `K` iterations. -/
noncomputable def lsqrOutP (F : Matrix (Fin p) (Fin q) ℝ) (b : Fin p → ℝ) (x0 : Fin q → ℝ) (damp : ℝ)
    (T : LsqrTol) (L K : ℕ) : LsqrOut q :=
  let s := seqP F b x0 damp K
  ⟨s.x, if K = 0 then 0 else lsqrStop T (norm2 b) L s, K, s.r1norm, s.r2norm, s.anorm, s.acond,
    .arr ((List.range K).map fun j => (seqP F b x0 damp j).arnorm), s.xnorm, s.var⟩

/-- What a call that returns before the main loop returns. -/
noncomputable def lsqrOut0 (F : Matrix (Fin p) (Fin q) ℝ) (b : Fin p → ℝ) (x0 : Fin q → ℝ) : LsqrOut q :=
  ⟨x0, 0, 0, norm2 (b - F *ᵥ x0), norm2 (b - F *ᵥ x0), 0, 0, .scalar 0, 0, 0⟩

theorem arnorm0_iff (F : Matrix (Fin p) (Fin q) ℝ) (b : Fin p → ℝ) (x0 : Fin q → ℝ) (damp : ℝ) :
    (seqP F b x0 damp 0).arnorm = 0 ↔ Fᵀ *ᵥ (b - F *ᵥ x0) = 0 := by
  have := (initP_spec F b x0 damp).1.arnorm
  rw [show (initP F b x0).x = x0 from rfl, sub_self, smul_zero, sub_zero] at this
  rw [← norm2_eq_zero, ← this]
  rfl

theorem lsqr_early (F : Matrix (Fin p) (Fin q) ℝ) (b : Fin p → ℝ) (x0 : Option (Fin q → ℝ)) (damp : ℝ)
    (T : LsqrTol) (lim : Option ℤ) (h : Fᵀ *ᵥ (b - F *ᵥ x0.getD 0) = 0) :
    lsqr (LinOp.ofMat F) b damp T lim x0 = .ok (lsqrOut0 F b (x0.getD 0)) := by
  have h0 : (initP F b (x0.getD 0)).arnorm = 0 := (arnorm0_iff F b _ damp).2 h
  unfold lsqr
  simp only [lsqrInit_ofMat, if_pos h0]
  rw [h0]
  rfl

theorem lsqr_neg (F : Matrix (Fin p) (Fin q) ℝ) (b : Fin p → ℝ) (x0 : Option (Fin q → ℝ)) (damp : ℝ)
    (T : LsqrTol) (lim : Option ℤ) (h : Fᵀ *ᵥ (b - F *ᵥ x0.getD 0) ≠ 0)
    (hL : lim.getD (2 * q) < 0) : lsqr (LinOp.ofMat F) b damp T lim x0 = .error .value := by
  have h0 : (initP F b (x0.getD 0)).arnorm ≠ 0 := fun h' => h ((arnorm0_iff F b _ damp).1 h')
  unfold lsqr
  simp only [lsqrInit_ofMat, if_neg h0, if_pos hL]

theorem lsqr_run (F : Matrix (Fin p) (Fin q) ℝ) (b : Fin p → ℝ) (x0 : Option (Fin q → ℝ)) (damp : ℝ)
    (T : LsqrTol) (lim : Option ℤ) (L : ℕ) (h : Fᵀ *ᵥ (b - F *ᵥ x0.getD 0) ≠ 0)
    (hL : lim.getD (2 * q) = L) : ∃ K ≤ L, (0 < L → 0 < K) ∧
      lsqr (LinOp.ofMat F) b damp T lim x0 = .ok (lsqrOutP F b (x0.getD 0) damp T L K) ∧
      (0 < K → lsqrStop T (norm2 b) L (seqP F b (x0.getD 0) damp K) ≠ 0) ∧
      (∀ j, 0 < j → j < K → lsqrStop T (norm2 b) L (seqP F b (x0.getD 0) damp j) = 0) ∧
      ∀ j < K, (seqP F b (x0.getD 0) damp j).arnorm ≠ 0 := by
  have h0 : (initP F b (x0.getD 0)).arnorm ≠ 0 := fun h' => h ((arnorm0_iff F b _ damp).1 h')
  obtain ⟨K, h1, h2, h3, h4, h5⟩ := lsqrLoop_spec F damp T (norm2 b) L L (initP F b (x0.getD 0)) []
    (by rw [show (initP F b (x0.getD 0)).itn = 0 from rfl]; omega) rfl
  have h6 : ∀ j < K, (seqP F b (x0.getD 0) damp j).arnorm ≠ 0 := by
    intro j hj
    cases j with
    | zero => exact h0
    | succ j => exact (lsqrStop_eq_zero (h5 _ (Nat.succ_pos j) hj)).2
  refine ⟨K, h1, h2, ?_, h4, h5, h6⟩
  unfold lsqr
  rw [List.nil_append] at h3
  simp only [lsqrInit_ofMat, if_neg h0, hL, Int.toNat_natCast, h3,
    if_neg (show ¬ ((L : ℤ) < 0) by omega)]
  congr 1
  unfold lsqrOutP
  simp only
  have hf : (List.filter (fun e => decide (-1 < e))
      ([] ++ (List.range K).map (fun j => ((stepP F damp)^[j] (initP F b (x0.getD 0))).arnorm) ++
        List.replicate (L - K) (-1))) =
      (List.range K).map (fun j => (seqP F b (x0.getD 0) damp j).arnorm) := by
    rw [List.nil_append, List.filter_append, List.filter_eq_self.2, List.filter_eq_nil_iff.2,
      List.append_nil]
    · rfl
    · intro a ha
      rw [(List.mem_replicate.1 ha).2]
      simp
    · intro a ha
      obtain ⟨j, hj, rfl⟩ := List.mem_map.1 ha
      have hj := List.mem_range.1 hj
      have := (seqP_facts (F := F) (b := b) (x0 := x0.getD 0) (damp := damp) (k := j)
        fun i hi => h6 i (by omega)).arnorm
      have h7 : 0 ≤ (seqP F b (x0.getD 0) damp j).arnorm := by rw [this]; exact norm2_nonneg _
      rw [decide_eq_true_eq]
      exact lt_of_lt_of_le (by norm_num) h7
  rw [hf]
  congr 1
  exact seqP_itn F b _ damp K

/-- Every successful call is one of the two kinds. -/
theorem lsqr_ok {F : Matrix (Fin p) (Fin q) ℝ} {b : Fin p → ℝ} {x0 : Option (Fin q → ℝ)} {damp : ℝ}
    {T : LsqrTol} {lim : Option ℤ} {out : LsqrOut q}
    (h : lsqr (LinOp.ofMat F) b damp T lim x0 = .ok out) :
    (Fᵀ *ᵥ (b - F *ᵥ x0.getD 0) = 0 ∧ out = lsqrOut0 F b (x0.getD 0)) ∨
    (Fᵀ *ᵥ (b - F *ᵥ x0.getD 0) ≠ 0 ∧ ∃ L : ℕ, lim.getD (2 * q) = L ∧ ∃ K ≤ L, (0 < L → 0 < K) ∧
      out = lsqrOutP F b (x0.getD 0) damp T L K ∧
      (0 < K → lsqrStop T (norm2 b) L (seqP F b (x0.getD 0) damp K) ≠ 0) ∧
      (∀ j, 0 < j → j < K → lsqrStop T (norm2 b) L (seqP F b (x0.getD 0) damp j) = 0) ∧
      ∀ j < K, (seqP F b (x0.getD 0) damp j).arnorm ≠ 0) := by
  by_cases hg : Fᵀ *ᵥ (b - F *ᵥ x0.getD 0) = 0
  · rw [lsqr_early F b x0 damp T lim hg] at h
    exact Or.inl ⟨hg, (Except.ok.inj h).symm⟩
  · right
    refine ⟨hg, ?_⟩
    rcases lt_or_ge (lim.getD (2 * q)) 0 with hL | hL
    · rw [lsqr_neg F b x0 damp T lim hg hL] at h; cases h
    · obtain ⟨L, hL⟩ := Int.eq_ofNat_of_zero_le hL
      obtain ⟨K, h1, h2, h3, h4⟩ := lsqr_run F b x0 damp T lim L hg hL
      rw [h3] at h
      exact ⟨L, hL, K, h1, h2, (Except.ok.inj h).symm, h4⟩

/-- Running with limit `i` no larger than the number of iterations made gives the `i`-th state. -/
theorem lsqr_prefix {F : Matrix (Fin p) (Fin q) ℝ} {b : Fin p → ℝ} {x0 : Option (Fin q → ℝ)} {damp : ℝ}
    {T : LsqrTol} {L K : ℕ} (h : Fᵀ *ᵥ (b - F *ᵥ x0.getD 0) ≠ 0)
    (hj : ∀ j, 0 < j → j < K → lsqrStop T (norm2 b) L (seqP F b (x0.getD 0) damp j) = 0)
    {i : ℕ} (hi : i ≤ K) :
    lsqr (LinOp.ofMat F) b damp T (some (i : ℤ)) x0 = .ok (lsqrOutP F b (x0.getD 0) damp T i i) := by
  obtain ⟨K', h1, h2, h3, h4, h5, h6⟩ := lsqr_run F b x0 damp T (some (i : ℤ)) i h rfl
  have : K' = i := by
    by_contra hne
    have hlt : K' < i := by omega
    have hpos := h2 (by omega)
    exact h4 hpos (lsqrStop_limit (hj K' hpos (by omega)) (by rw [seqP_itn]; exact hlt))
  rw [h3, this]

end Parla
