import Verif.Proof.Generic
import Mathlib.MeasureTheory.Constructions.BorelSpace.Real
import Mathlib.MeasureTheory.Group.Arithmetic

/-! # Sequences of independent draws, each of which is generic for what the earlier ones left -/

namespace Parla.Proof

open MeasureTheory Matrix Spec

/-! ### Measurable matrix-valued maps -/

/-- every entry is a measurable function -/
def EMeas {X : Type} [MeasurableSpace X] {a b : ℕ} (f : X → Matrix (Fin a) (Fin b) ℝ) : Prop :=
  ∀ i j, Measurable fun x => f x i j

variable {X : Type} [MeasurableSpace X] {a b c : ℕ}

theorem EMeas.mul {f : X → Matrix (Fin a) (Fin b) ℝ} {g : X → Matrix (Fin b) (Fin c) ℝ} (hf : EMeas f)
    (hg : EMeas g) : EMeas fun x => f x * g x := by
  intro i j
  simp only [Matrix.mul_apply]
  exact Finset.measurable_sum _ fun k _ => (hf i k).mul (hg k j)

theorem EMeas.sub {f g : X → Matrix (Fin a) (Fin b) ℝ} (hf : EMeas f) (hg : EMeas g) :
    EMeas fun x => f x - g x := by
  intro i j
  simp only [Matrix.sub_apply]
  exact (hf i j).sub (hg i j)

theorem EMeas.transpose {f : X → Matrix (Fin a) (Fin b) ℝ} (hf : EMeas f) : EMeas fun x => (f x)ᵀ :=
  fun i j => hf j i

theorem EMeas.pow {f : X → Matrix (Fin a) (Fin a) ℝ} (hf : EMeas f) (q : ℕ) : EMeas fun x => f x ^ q := by
  induction q with
  | zero => simp only [pow_zero]; exact fun i j => measurable_const
  | succ q ih => simp only [pow_succ]; exact ih.mul hf

theorem EMeas.det {f : X → Matrix (Fin a) (Fin a) ℝ} (hf : EMeas f) : Measurable fun x => (f x).det := by
  simp only [Matrix.det_apply]
  refine Finset.measurable_sum _ fun σ _ => ?_
  simp only [Units.smul_def, zsmul_eq_mul]
  exact (Finset.measurable_prod _ fun k _ => hf _ _).const_mul _

theorem EMeas.inv {f : X → Matrix (Fin a) (Fin a) ℝ} (hf : EMeas f) : EMeas fun x => (f x)⁻¹ := by
  intro i j
  simp only [Matrix.inv_def, Matrix.smul_apply, smul_eq_mul, Ring.inverse_eq_inv', Matrix.adjugate_apply]
  refine hf.det.inv.mul (EMeas.det fun k l => ?_)
  by_cases h : k = j
  · subst h
    simp only [Matrix.updateRow_self]
    exact measurable_const
  · simp only [Matrix.updateRow_ne h]
    exact hf k l

theorem EMeas.submatrix {f : X → Matrix (Fin a) (Fin b) ℝ} (hf : EMeas f) {a' b' : ℕ} (r : Fin a' → Fin a)
    (s : Fin b' → Fin b) : EMeas fun x => (f x).submatrix r s :=
  fun i j => hf (r i) (s j)

theorem le_rank_iff (M : Matrix (Fin a) (Fin b) ℝ) (r : ℕ) :
    r ≤ M.rank ↔ ∃ s : Fin r → Fin b, ((M.submatrix id s)ᵀ * M.submatrix id s).det ≠ 0 := by
  constructor
  · intro h
    have e : M.rank = Module.finrank ℝ (Submodule.span ℝ (Set.range M.col)) := Matrix.rank_eq_finrank_span_cols M
    obtain ⟨f, hf1, -, hf3⟩ := Submodule.exists_fun_fin_finrank_span_eq ℝ (Set.range M.col)
    choose g hg using hf1
    refine ⟨fun i => g (Fin.castLE (by omega) i), ?_⟩
    have hfull : FullColRank (M.submatrix id fun i : Fin r => g (Fin.castLE (by omega) i)) := by
      rw [fullColRank_iff_li]
      have := hf3.comp (Fin.castLE (by omega) : Fin r → _) (Fin.castLE_injective _)
      have e2 : (M.submatrix id fun i : Fin r => g (Fin.castLE (by omega) i)).col =
          f ∘ (Fin.castLE (by omega) : Fin r → _) := by
        funext i
        simp only [Function.comp]
        rw [← hg]
        rfl
      rw [e2]
      exact this
    exact isUnit_iff_ne_zero.1 hfull.gram_unit
  · rintro ⟨s, hs⟩
    have h := fullColRank_of_det hs
    have h4 : (M.submatrix id s).rank ≤ M.rank := by
      have : M.submatrix id s = M * (1 : Matrix (Fin b) (Fin b) ℝ).submatrix id s := by
        ext i j
        simp [Matrix.mul_apply, Matrix.one_apply]
      rw [this]
      exact Matrix.rank_mul_le_left _ _
    rw [← show _ = r from h]
    exact h4

theorem EMeas.rank {f : X → Matrix (Fin a) (Fin b) ℝ} (hf : EMeas f) : Measurable fun x => (f x).rank := by
  refine measurable_to_countable' fun r => ?_
  have hge : ∀ r : ℕ, MeasurableSet {x | r ≤ (f x).rank} := by
    intro r
    have : {x | r ≤ (f x).rank} = ⋃ s : Fin r → Fin b,
        {x | (((f x).submatrix id s)ᵀ * (f x).submatrix id s).det ≠ 0} := by
      ext x
      simp [le_rank_iff]
    rw [this]
    refine MeasurableSet.iUnion fun s => ?_
    have h1 := ((hf.submatrix id s).transpose.mul (hf.submatrix id s)).det
    exact (measurableSet_singleton (0 : ℝ)).compl.preimage h1
  have : (fun x => (f x).rank) ⁻¹' {r} = {x | r ≤ (f x).rank} \ {x | r + 1 ≤ (f x).rank} := by
    ext x
    simp only [Set.mem_preimage, Set.mem_singleton_iff, Set.mem_sdiff, Set.mem_ofPred_eq]
    omega
  rw [this]
  exact (hge r).diff (hge (r + 1))

/-! ### Sequences of draws -/

/-- a sequence of arrays with `r` rows and the given widths -/
def Draws (r : ℕ) : List ℕ → Type
  | [] => Unit
  | b :: bs => (Fin r × Fin b → ℝ) × Draws r bs

instance instMeasDraws (r : ℕ) : (bs : List ℕ) → MeasurableSpace (Draws r bs)
  | [] => inferInstanceAs (MeasurableSpace Unit)
  | b :: bs =>
    letI := instMeasDraws r bs
    inferInstanceAs (MeasurableSpace ((Fin r × Fin b → ℝ) × Draws r bs))

/-- the law of a sequence of arrays all of whose entries are independent with law `μ` -/
noncomputable def drawsLaw (μ : Measure ℝ) (r : ℕ) : (bs : List ℕ) → Measure (Draws r bs)
  | [] => (Measure.dirac () : Measure Unit)
  | b :: bs => (indep (Fin r × Fin b) μ).prod (drawsLaw μ r bs)

instance instSFiniteDraws (μ : Measure ℝ) [IsProbabilityMeasure μ] (r : ℕ) :
    (bs : List ℕ) → IsProbabilityMeasure (drawsLaw μ r bs)
  | [] => inferInstanceAs (IsProbabilityMeasure (Measure.dirac () : Measure Unit))
  | b :: bs => by
    have := instSFiniteDraws μ r bs
    have : IsProbabilityMeasure (indep (Fin r × Fin b) μ) := by unfold indep; infer_instance
    exact inferInstanceAs (IsProbabilityMeasure ((indep (Fin r × Fin b) μ).prod (drawsLaw μ r bs)))

variable {m n r : ℕ}

/-- what remains of `A` after projecting out the range of `Y`, `0` if `Y` is rank deficient -/
noncomputable def residual (A : Matrix (Fin m) (Fin n) ℝ) {b : ℕ} (Y : Matrix (Fin m) (Fin b) ℝ) :
    Matrix (Fin m) (Fin n) ℝ :=
  if (Yᵀ * Y).det = 0 then 0 else A - Y * ((Yᵀ * Y)⁻¹ * (Yᵀ * A))

theorem EMeas.residual {f : X → Matrix (Fin m) (Fin n) ℝ} {g : X → Matrix (Fin m) (Fin b) ℝ} (hf : EMeas f)
    (hg : EMeas g) : EMeas fun x => residual (f x) (g x) := by
  have h1 := (hg.transpose.mul hg).det
  have h2 := hf.sub (hg.mul ((hg.transpose.mul hg).inv.mul (hg.transpose.mul hf)))
  intro i j
  have : (fun x => Proof.residual (f x) (g x) i j) = fun x =>
      if ((g x)ᵀ * g x).det = 0 then 0 else
        (f x - g x * (((g x)ᵀ * g x)⁻¹ * ((g x)ᵀ * f x))) i j := by
    funext x
    unfold Proof.residual
    split <;> rfl
  rw [this]
  exact Measurable.ite ((measurableSet_singleton (0 : ℝ)).preimage h1) measurable_const (h2 i j)

/-- each draw loses no rank against what the earlier ones left (`L A` is the matrix the draw is multiplied with) -/
def AllGood (L : Matrix (Fin m) (Fin n) ℝ → Matrix (Fin m) (Fin r) ℝ) :
    (bs : List ℕ) → Matrix (Fin m) (Fin n) ℝ → Draws r bs → Prop
  | [], _, _ => True
  | b :: bs, A, Z => (L A * drawMat (b := b) Z.1).rank = min b A.rank ∧
      AllGood L bs (residual A (L A * drawMat Z.1)) Z.2

theorem EMeas.draw {g : X → (Fin r × Fin b → ℝ)} (hg : Measurable g) : EMeas fun x => drawMat (g x) :=
  fun i j => (measurable_pi_apply (i, j)).comp hg

theorem measurableSet_allGood (L : Matrix (Fin m) (Fin n) ℝ → Matrix (Fin m) (Fin r) ℝ)
    (hL : ∀ (X : Type) [MeasurableSpace X] (f : X → Matrix (Fin m) (Fin n) ℝ), EMeas f → EMeas fun x => L (f x))
    (bs : List ℕ) {X : Type} [MeasurableSpace X] (f : X → Matrix (Fin m) (Fin n) ℝ) (hf : EMeas f)
    (g : X → Draws r bs) (hg : Measurable g) : MeasurableSet {x | AllGood L bs (f x) (g x)} := by
  induction bs generalizing f with
  | nil => exact MeasurableSet.univ
  | cons b bs ih =>
    have hg1 : Measurable fun x => (g x).1 := measurable_fst.comp hg
    have hg2 : Measurable fun x => (g x).2 := measurable_snd.comp hg
    have hY : EMeas fun x => L (f x) * drawMat (b := b) (g x).1 := (hL _ _ hf).mul (EMeas.draw hg1)
    have h1 : MeasurableSet {x | (L (f x) * drawMat (b := b) (g x).1).rank = min b (f x).rank} :=
      measurableSet_eq_fun hY.rank (measurable_const.min hf.rank)
    exact h1.inter (ih (fun x => residual (f x) (L (f x) * drawMat (b := b) (g x).1)) (hf.residual hY) _ hg2)

theorem allGood_ae {μ : Measure ℝ} [IsProbabilityMeasure μ] [NullSingletonClass μ]
    (L : Matrix (Fin m) (Fin n) ℝ → Matrix (Fin m) (Fin r) ℝ)
    (hL : ∀ (X : Type) [MeasurableSpace X] (f : X → Matrix (Fin m) (Fin n) ℝ), EMeas f → EMeas fun x => L (f x))
    (hr : ∀ A, (L A).rank = A.rank) (bs : List ℕ) (A : Matrix (Fin m) (Fin n) ℝ) :
    ∀ᵐ Z ∂(drawsLaw μ r bs), AllGood L bs A Z := by
  induction bs generalizing A with
  | nil => exact Filter.Eventually.of_forall fun _ => trivial
  | cons b bs ih =>
    have hm := measurableSet_allGood L hL (b :: bs) (X := Draws r (b :: bs)) (fun _ => A)
      (fun i j => measurable_const) id measurable_id
    have : ∀ᵐ Z ∂((indep (Fin r × Fin b) μ).prod (drawsLaw μ r bs)), AllGood L (b :: bs) A Z := by
      refine (Measure.ae_prod_iff_ae_ae hm).2 ?_
      filter_upwards [ae_rank_mul (μ := μ) (L A) b] with Z hZ
      rw [hr] at hZ
      filter_upwards [ih (residual A (L A * drawMat Z))] with Zs hZs
      exact ⟨hZ, hZs⟩
    exact this

end Parla.Proof
