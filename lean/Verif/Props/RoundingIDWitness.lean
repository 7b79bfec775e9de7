import Verif.Props.RoundingID
import Verif.Props.RoundingWitness
import Verif.Props.IDError

/-! # C102: the hypotheses are met by arithmetic that does round -/

namespace Parla.Props

open Matrix Parla Spec Parla.Proof

variable {G : Type}

/-- A machine whose products are too large by the factor `1 + ε`. -/
noncomputable def inflatedID (la : LinAlg) (ε : ℝ) : FlID where
  toFlAlg := inflated la ε
  qrp := la.qrp
  solve := solveUpper

theorem inflatedID_accurate (la : LinAlg) {ε : ℝ} (hε : 0 ≤ ε) (N : ℕ) : (inflatedID la ε).Accurate N ε where
  alg := inflated_accurate la hε N
  qrp Y _ _ := ⟨(la.qrp Y).1, la.qrp_orth Y, by
    change fro ((la.qrp Y).1 * (la.qrp Y).2.1 - Y.submatrix id (la.qrp Y).2.2) ≤ _
    rw [la.qrp_mul, sub_self, fro, froSq_zero, Real.sqrt_zero]; exact mul_nonneg hε (fro_nonneg _)⟩
  qrp_upper := la.qrp_upper
  solve R Z X _ _ hup h := by
    have h' := (solveUpper_ok h).2
    rw [triu_eq_self hup] at h'
    rw [h', sub_self, fro, froSq_zero, Real.sqrt_zero]
    exact mul_nonneg (mul_nonneg hε (fro_nonneg _)) (fro_nonneg _)

theorem demo32_osid1_round (la : LinAlg) {ε : ℝ} (hε : 0 ≤ ε) (w : World G) :
    ∃ o w', (OSID1Fl (inflatedID la ε) (coordSketcher (G := G))).col 3 2 demo32 1 1 w = .ok (o, w') := by
  obtain ⟨S, w1, h, ho, hne, hc⟩ := demo32_sketch w
  have hm : ((inflatedID la ε).mul demo32ᵀ S.mat)ᵀ = (1 + ε) • (S.matᵀ * demo32) := by
    change ((1 + ε) • (demo32ᵀ * S.mat))ᵀ = _
    rw [transpose_smul, transpose_mul, transpose_transpose]
  have hr : 1 ≤ ((inflatedID la ε).mul demo32ᵀ S.mat)ᵀ.rank := by
    rw [Nat.one_le_iff_ne_zero]
    intro h0
    have h1 := rank_eq_zero_iff'.1 h0
    rw [hm] at h1
    rcases smul_eq_zero.1 h1 with h2 | h2
    · linarith
    · exact hne h2
  obtain ⟨o, ho⟩ := (qrcpCol_cases la ((inflatedID la ε).mul demo32ᵀ S.mat)ᵀ 1).1 hr
  refine ⟨o, { w1 with trace := w1.trace ++ [.mulA] }, ?_⟩
  show (sketchColsFl (inflatedID la ε) coordSketcher demo32 1 1 >>= fun Yt => Py.lift (qrcpColFl (inflatedID la ε) Yt.matᵀ 1)) w = _
  rw [Py.bind_ok_iff]
  refine ⟨⟨S.c, (inflatedID la ε).mul demo32ᵀ S.mat⟩, { w1 with trace := w1.trace ++ [.mulA] }, ?_, Py.lift_ok_iff.2 ⟨ho, rfl⟩⟩
  unfold sketchColsFl
  rw [Py.bind_eq_of_ok h]
  rfl

/-- runs as `C102_osid1_column` and `C102_tsid1_tall` ask for, on a machine that rounds -/
example (la : LinAlg) {ε : ℝ} (hε : 0 ≤ ε) (w : World G) :
    ∃ out w', tsid1CallFl (inflatedID la ε) (OSID1Fl (inflatedID la ε) (coordSketcher (G := G))) demo32 1 1 w = .ok (out, w') ∧
      out.col.c ≤ 1 ∧ ∃ S w1, (coordSketcher (G := G)) 2 3 demo32ᵀ (1 + 1) w = .ok (S, w1) ∧ S.c ≤ 3 := by
  obtain ⟨o, w', h⟩ := demo32_osid1_round la hε w
  obtain ⟨S, w1, hS, -, -, hc⟩ := demo32_sketch w
  have hoc : o.c = 1 := by
    have h' : (sketchColsFl (inflatedID la ε) coordSketcher demo32 1 1 >>=
      fun Yt => Py.lift (qrcpColFl (inflatedID la ε) Yt.matᵀ 1)) w = .ok (o, w') := h
    rw [Py.bind_ok_iff] at h'
    obtain ⟨Yt, w2, -, h2⟩ := h'
    exact (qrcpCol_facts la (Py.lift_ok_iff.1 h2).1).1
  obtain ⟨c, X, Js⟩ := o
  change c = 1 at hoc
  subst hoc
  have hr : 1 ≤ ((demo32.submatrix id Js)ᵀ).rank := by
    rw [Nat.one_le_iff_ne_zero]
    intro h0
    have h1 := rank_eq_zero_iff'.1 h0
    have h2 := congrFun (congrFun h1 0) 2
    have h3 : demo32 2 (Js 0) = 0 := h2
    have : ∀ j : Fin 2, demo32 2 j = 1 := by intro j; fin_cases j <;> simp [demo32]
    rw [this] at h3
    exact one_ne_zero h3
  obtain ⟨z, hz⟩ := (qrcpCol_cases la (demo32.submatrix id Js)ᵀ 1).1 hr
  refine ⟨⟨⟨z.c, z.Xᵀ, z.Js⟩, ⟨1, X, Js⟩⟩, w', ?_, le_rfl, S, w1, hS, by omega⟩
  unfold tsid1CallFl
  rw [if_pos (by norm_num), Py.bind_eq_of_ok h]
  have hrow : qrcpRowFl (inflatedID la ε) (demo32.submatrix id Js) 1 = .ok ⟨z.c, z.Xᵀ, z.Js⟩ := by
    have : qrcpColFl (inflatedID la ε) (demo32.submatrix id Js)ᵀ 1 = .ok z := hz
    unfold qrcpRowFl
    rw [this]
    rfl
  rw [Py.bind_ok_iff]
  exact ⟨_, _, Py.lift_ok_iff.2 ⟨hrow, rfl⟩, rfl⟩

end Parla.Props
