import Verif.Proof.Expect
import Verif.Proof.Rank
import Mathlib.Algebra.MvPolynomial.Equiv
import Mathlib.Algebra.Polynomial.Roots
import Mathlib.LinearAlgebra.Matrix.MvPolynomial
import Mathlib.Topology.Algebra.MvPolynomial
import Mathlib.MeasureTheory.Measure.Prod
import Mathlib.MeasureTheory.Constructions.Pi

/-! # Independent continuous draws avoid the zero set of any nonzero polynomial -/

namespace Parla.Proof

open MeasureTheory

theorem poly_null_fin {μ : Measure ℝ} [SigmaFinite μ] [NullSingletonClass μ] {N : ℕ}
    (p : MvPolynomial (Fin N) ℝ) (hp : p ≠ 0) :
    (indep (Fin N) μ) {x | MvPolynomial.eval x p = 0} = 0 := by
  induction N with
  | zero =>
    obtain ⟨c, rfl⟩ := MvPolynomial.C_surjective (R := ℝ) (Fin 0) p
    have hc : c ≠ 0 := by rintro rfl; simp at hp
    simp [hc]
  | succ N ih =>
    have hmeas : ∀ {K : ℕ} (q : MvPolynomial (Fin K) ℝ),
        MeasurableSet {x : Fin K → ℝ | MvPolynomial.eval x q = 0} := fun q =>
      (isClosed_singleton.preimage (MvPolynomial.continuous_eval q)).measurableSet
    have hq : MvPolynomial.finSuccEquiv ℝ N p ≠ 0 := by
      simpa using hp
    set q := MvPolynomial.finSuccEquiv ℝ N p with hqdef
    have hlead := ih q.leadingCoeff (Polynomial.leadingCoeff_ne_zero.2 hq)
    have hmp := (measurePreserving_piFinSuccAbove (fun _ : Fin (N + 1) => μ) 0).symm
    have hsw : MeasurePreserving (Prod.swap : (Fin N → ℝ) × ℝ → ℝ × (Fin N → ℝ))
        ((indep (Fin N) μ).prod μ) (μ.prod (indep (Fin N) μ)) := by
      unfold indep
      exact Measure.measurePreserving_swap
    have hcomp := hmp.comp hsw
    have := hcomp.measure_preimage (hmeas p).nullMeasurableSet
    unfold indep at this hlead ⊢
    rw [← this, Measure.measure_prod_null (hcomp.measurable (hmeas p))]
    filter_upwards [compl_mem_ae_iff.2 hlead] with t ht
    simp only [Set.mem_compl_iff, Set.mem_setOf_eq] at ht
    have hne : Polynomial.map (MvPolynomial.eval t) q ≠ 0 := by
      intro h0
      have := congrArg (fun r => r.coeff q.natDegree) h0
      simp only [Polynomial.coeff_map, Polynomial.coeff_zero, Polynomial.coeff_natDegree] at this
      exact ht this
    have hfin : ((Polynomial.map (MvPolynomial.eval t) q).roots.toFinset : Set ℝ).Finite :=
      Finset.finite_toSet _
    refine measure_mono_null ?_ (hfin.measure_zero μ)
    intro y hy
    simp only [Set.mem_preimage, Set.mem_setOf_eq, Function.comp_apply, Prod.swap_prod_mk] at hy
    simp only [Finset.mem_coe, Multiset.mem_toFinset]
    rw [Polynomial.mem_roots hne, Polynomial.IsRoot.def, ← MvPolynomial.eval_eq_eval_mv_eval']
    have he : (MeasurableEquiv.piFinSuccAbove (fun _ : Fin (N + 1) => ℝ) 0).symm (y, t) =
        (Fin.cons y t : Fin (N + 1) → ℝ) := by
      funext i
      refine Fin.cases ?_ (fun j => ?_) i <;>
        simp [MeasurableEquiv.piFinSuccAbove, Fin.insertNthEquiv]
    rw [← he]; exact hy

theorem poly_null {ι : Type} [Fintype ι] {μ : Measure ℝ} [SigmaFinite μ] [NullSingletonClass μ]
    (p : MvPolynomial ι ℝ) (hp : p ≠ 0) :
    (indep ι μ) {x | MvPolynomial.eval x p = 0} = 0 := by
  let e := Fintype.equivFin ι
  have h := poly_null_fin (μ := μ) (MvPolynomial.rename e p)
    (by simpa using (MvPolynomial.rename_injective e e.injective).ne hp)
  have hmp := measurePreserving_piCongrLeft (fun _ : ι => μ) e.symm
  have hmeas : MeasurableSet {x : ι → ℝ | MvPolynomial.eval x p = 0} :=
    (isClosed_singleton.preimage (MvPolynomial.continuous_eval p)).measurableSet
  have := hmp.measure_preimage hmeas.nullMeasurableSet
  unfold indep at h ⊢
  rw [← this, ← h]
  congr 1
  ext x
  simp only [Set.mem_preimage, MvPolynomial.eval_rename, Set.mem_ofPred_eq]
  have : (MeasurableEquiv.piCongrLeft (fun _ : ι => ℝ) e.symm) x = x ∘ e := by
    ext i
    have := MeasurableEquiv.piCongrLeft_apply_apply (β := fun _ : ι => ℝ) e.symm x (e i)
    simpa using this
  rw [this]

open Matrix Spec

/-- the matrix whose entries are the draws `Z` -/
def drawMat {n b : ℕ} (Z : Fin n × Fin b → ℝ) : Matrix (Fin n) (Fin b) ℝ :=
  Matrix.of fun i j => Z (i, j)

theorem exists_full_cols {a n : ℕ} (X : Matrix (Fin a) (Fin n) ℝ) {r : ℕ} (hr : r ≤ X.rank) :
    ∃ S : Matrix (Fin n) (Fin r) ℝ, FullColRank (X * S) := by
  obtain ⟨f, hf⟩ := exists_linearIndependent_of_le_finrank (R := ℝ)
    (M := LinearMap.range X.mulVecLin) hr
  choose s hs using fun i => LinearMap.mem_range.1 (f i).2
  refine ⟨Matrix.of fun i j => s j i, fullColRank_iff_li.2 ?_⟩
  have h2 : LinearIndependent ℝ (fun i => (f i : Fin a → ℝ)) :=
    hf.map' (Submodule.subtype _) (Submodule.ker_subtype _)
  convert h2 using 1
  funext j
  rw [← hs j]
  ext i
  simp [Matrix.mul_apply, Matrix.mulVec, dotProduct, Matrix.col]

theorem fullColRank_of_det {a r : ℕ} {Y : Matrix (Fin a) (Fin r) ℝ} (h : (Yᵀ * Y).det ≠ 0) :
    FullColRank Y :=
  fullColRank_of_left_inv (L := (Yᵀ * Y)⁻¹ * Yᵀ) (by
    rw [Matrix.mul_assoc, Matrix.nonsing_inv_mul _ (isUnit_iff_ne_zero.2 h)])

/-- A draw with independent atomless entries loses no rank: `rank(X Z) = min(b, rank X)` almost
surely. -/
theorem ae_rank_mul {μ : Measure ℝ} [SigmaFinite μ] [NullSingletonClass μ] {a n : ℕ}
    (X : Matrix (Fin a) (Fin n) ℝ) (b : ℕ) :
    ∀ᵐ Z ∂(indep (Fin n × Fin b) μ), (X * drawMat Z).rank = min b X.rank := by
  obtain ⟨r, hr⟩ : ∃ r, r = min b X.rank := ⟨_, rfl⟩
  rw [← hr]
  obtain ⟨S, hS⟩ := exists_full_cols X (show r ≤ X.rank by omega)
  let ι : Fin r → Fin b := Fin.castLE (by omega)
  let Y : Matrix (Fin a) (Fin r) (MvPolynomial (Fin n × Fin b) ℝ) :=
    X.map MvPolynomial.C * (Matrix.mvPolynomialX (Fin n) (Fin b) ℝ).submatrix id ι
  let p : MvPolynomial (Fin n × Fin b) ℝ := (Yᵀ * Y).det
  have hev : ∀ Z : Fin n × Fin b → ℝ, MvPolynomial.eval Z p =
      (((X * drawMat Z).submatrix id ι)ᵀ * (X * drawMat Z).submatrix id ι).det := by
    intro Z
    have hY : Y.map (MvPolynomial.eval Z) = (X * drawMat Z).submatrix id ι := by
      ext i j
      simp [Y, Matrix.mul_apply, drawMat, Matrix.mvPolynomialX_apply]
    change MvPolynomial.eval Z (Yᵀ * Y).det = _
    rw [RingHom.map_det, RingHom.mapMatrix_apply, Matrix.map_mul, Matrix.transpose_map, hY]
  have hp : p ≠ 0 := by
    intro h0
    let Z0 : Fin n × Fin b → ℝ := fun q => if h : q.2.1 < r then S q.1 ⟨q.2.1, h⟩ else 0
    have h1 := hev Z0
    have h2 : (X * drawMat Z0).submatrix id ι = X * S := by
      ext i j
      simp [Matrix.mul_apply, drawMat, Z0, ι]
    rw [h0, h2, map_zero] at h1
    exact (isUnit_iff_ne_zero.1 hS.gram_unit) h1.symm
  have hnull := poly_null (μ := μ) p hp
  filter_upwards [compl_mem_ae_iff.2 hnull] with Z hZ
  simp only [Set.mem_compl_iff, Set.mem_ofPred_eq, hev] at hZ
  have h3 := fullColRank_of_det hZ
  apply le_antisymm
  · rw [hr]; exact le_min (Matrix.rank_le_width _) (Matrix.rank_mul_le_left _ _)
  · have h4 : ((X * drawMat Z).submatrix id ι).rank ≤ (X * drawMat Z).rank := by
      have : (X * drawMat Z).submatrix id ι =
          (X * drawMat Z) * (1 : Matrix (Fin b) (Fin b) ℝ).submatrix id ι := by
        ext i j
        simp [Matrix.mul_apply, Matrix.one_apply]
      rw [this]
      exact Matrix.rank_mul_le_left _ _
    rw [← h3]; exact h4

end Parla.Proof
