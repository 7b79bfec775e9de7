import Verif.Props.RoundingCUR
import Verif.Props.RoundingIDWitness

/-! # C103: the hypotheses are met by arithmetic that does round -/

namespace Parla.Props

open Matrix Parla Spec Parla.Proof

variable {G : Type}

/-- A machine whose products are too large by the factor `1 + ε`. -/
noncomputable def inflatedCUR (la : LinAlg) (ε : ℝ) : FlCUR where
  toFlID := inflatedID la ε
  lstsq := la.lstsq

theorem inflatedCUR_accurate (la : LinAlg) {ε : ℝ} (hε : 0 ≤ ε) (N : ℕ) : (inflatedCUR la ε).Accurate N ε where
  id := inflatedID_accurate la hε N
  lstsq {m n p} M B j _ _ _ := by
    refine ⟨0, 0, ?_, ?_, fun z => ?_⟩
    · rw [fro, froSq_zero, Real.sqrt_zero]; exact mul_nonneg hε (fro_nonneg _)
    · have : norm2 (0 : Fin m → ℝ) = 0 := by unfold norm2 sqNorm; simp
      rw [this]; exact mul_nonneg hε (norm2_nonneg _)
    · rw [add_zero, add_zero]
      have h : Mᵀ *ᵥ (B.col j - M *ᵥ (la.lstsq M B).col j) = 0 := by
        rw [Matrix.mulVec_sub]
        have h := la.lstsq_normal M B
        rw [sub_eq_zero]
        funext i
        exact (congrFun (congrFun h i) j).symm
      have h2 := lsq_of_normal h z
      have hneg : ∀ u v : Fin m → ℝ, norm2 (u - v) = norm2 (v - u) := by
        intro u v
        unfold norm2 sqNorm
        exact congrArg _ (Finset.sum_congr rfl fun i _ => by simp only [Pi.sub_apply]; ring)
      change norm2 (M *ᵥ (la.lstsq M B).col j - B.col j) ≤ _
      rw [hneg, hneg _ (B.col j)]
      unfold norm2
      refine Real.sqrt_le_sqrt ?_
      rw [h2]
      have : 0 ≤ sqNorm (M *ᵥ ((la.lstsq M B).col j - z)) := sqNorm_nonneg _
      linarith

/-- runs as `C103_osid2_column` and `C103_cur1_tall` ask for, on a machine that rounds -/
example (la : LinAlg) {ε : ℝ} (hε : 0 ≤ ε) (w : World G) :
    (∃ o w', (OSID2Fl (inflatedCUR la ε) (coordSketcher (G := G))).col 3 2 demo32 1 1 w = .ok (o, w')) ∧
    ∃ out w', cur1CallFl (inflatedCUR la ε) (OSID1Fl (inflatedCUR la ε).toFlID (coordSketcher (G := G))) demo32 1 1 w =
      .ok (out, w') ∧ out.a ≤ 2 := by
  constructor
  · obtain ⟨S, w1, h, -⟩ := demo32_sketch w
    refine ⟨_, { w1 with trace := w1.trace ++ [.mulA] }, Py.bind_ok_iff.2 ⟨⟨S.c, (inflatedID la ε).mul demo32ᵀ S.mat⟩,
      { w1 with trace := w1.trace ++ [.mulA] }, ?_, rfl⟩⟩
    show sketchColsFl (inflatedID la ε) coordSketcher demo32 1 1 w = _
    unfold sketchColsFl
    rw [Py.bind_eq_of_ok h]
    rfl
  · obtain ⟨o, w', h⟩ := demo32_osid1_round la hε w
    have hoc : o.c = 1 := by
      have h' : (sketchColsFl (inflatedID la ε) coordSketcher demo32 1 1 >>=
        fun Yt => Py.lift (qrcpColFl (inflatedID la ε) Yt.matᵀ 1)) w = .ok (o, w') := h
      rw [Py.bind_ok_iff] at h'
      obtain ⟨Yt, w2, -, h2⟩ := h'
      exact (qrcpCol_facts la (Py.lift_ok_iff.1 h2).1).1
    let out : CUROut 3 2 := ⟨o.c, (pivotsFl (inflatedCUR la ε) ⟨o.c, demo32.submatrix id o.Js⟩ 1).c, o.Js,
      applyPinvOnRightFl (inflatedCUR la ε) o.X
        (demo32.submatrix (pivotsFl (inflatedCUR la ε) ⟨o.c, demo32.submatrix id o.Js⟩ 1).idx id),
      (pivotsFl (inflatedCUR la ε) ⟨o.c, demo32.submatrix id o.Js⟩ 1).idx⟩
    refine ⟨out, w', ?_, by change o.c ≤ 2; omega⟩
    unfold cur1CallFl
    rw [if_pos (by norm_num), Py.bind_ok_iff]
    exact ⟨o, w', h, rfl⟩

end Parla.Props
