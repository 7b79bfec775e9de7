import Verif.Base.LinAlg
import Mathlib.Tactic.FieldSimp
import Mathlib.Tactic.LinearCombination

/-!
# Existence of QR factorisations, plain and pivoted (for `LinAlg`'s consistency)
-/

namespace Parla.Backend

open Matrix

/-- A reflection that maps `a` to a multiple of the first unit vector. -/
theorem exists_householder {m : ℕ} (a : Fin (m + 1) → ℝ) :
    ∃ H : Matrix (Fin (m + 1)) (Fin (m + 1)) ℝ, Hᵀ = H ∧ H * H = 1 ∧
      ∀ i, i ≠ 0 → (H *ᵥ a) i = 0 := by
  set α : ℝ := Real.sqrt (a ⬝ᵥ a)
  have hα : α * α = a ⬝ᵥ a := Real.mul_self_sqrt (Finset.sum_nonneg fun i _ => mul_self_nonneg _)
  set e : Fin (m + 1) → ℝ := Pi.single 0 1
  have he : e ⬝ᵥ e = 1 := by simp [e]
  set v : Fin (m + 1) → ℝ := a - α • e
  by_cases hv : v = 0
  · refine ⟨1, by simp, by simp, ?_⟩
    intro i hi
    have : a = α • e := sub_eq_zero.1 hv
    rw [one_mulVec, this]; simp [e, hi]
  · have hvv : v ⬝ᵥ v ≠ 0 := by
      rw [Ne, dotProduct_self_eq_zero]; exact hv
    have hva : v ⬝ᵥ v = 2 * (v ⬝ᵥ a) := by
      have h1 : v ⬝ᵥ a = a ⬝ᵥ a - α * (e ⬝ᵥ a) := by
        simp [v, sub_dotProduct, smul_dotProduct]
      have h2 : v ⬝ᵥ v = v ⬝ᵥ a - α * (v ⬝ᵥ e) := by
        conv_lhs => rw [show v ⬝ᵥ v = v ⬝ᵥ (a - α • e) from rfl]
        simp [dotProduct_sub, dotProduct_smul]
      have h3 : v ⬝ᵥ e = a ⬝ᵥ e - α := by
        simp [v, sub_dotProduct, smul_dotProduct, he]
      have h4 : a ⬝ᵥ e = e ⬝ᵥ a := dotProduct_comm _ _
      rw [h2, h3, h1, h4]; linear_combination hα
    refine ⟨1 - (2 / (v ⬝ᵥ v)) • vecMulVec v v, ?_, ?_, ?_⟩
    · simp [transpose_vecMulVec]
    · have : vecMulVec v v * vecMulVec v v = (v ⬝ᵥ v) • vecMulVec v v := by
        rw [vecMulVec_mul_vecMulVec]; ext i j; simp [vecMulVec_apply]; ring
      rw [sub_mul, mul_sub, mul_sub]
      simp only [Matrix.smul_mul, Matrix.mul_smul, this, one_mul, mul_one, smul_smul]
      have : 2 / (v ⬝ᵥ v) * (2 / (v ⬝ᵥ v) * (v ⬝ᵥ v)) = 2 / (v ⬝ᵥ v) + 2 / (v ⬝ᵥ v) := by
        field_simp; ring
      rw [this, add_smul]; abel
    · intro i hi
      have h : (2 / (v ⬝ᵥ v)) * (v ⬝ᵥ a) = 1 := by 
        have hne : v ⬝ᵥ a ≠ 0 := by intro h; apply hvv; rw [hva, h, mul_zero]
        rw [hva]; field_simp
      have : (1 - (2 / (v ⬝ᵥ v)) • vecMulVec v v) *ᵥ a = α • e := by
        rw [sub_mulVec, one_mulVec, smul_mulVec, vecMulVec_mulVec]
        have : (2 / (v ⬝ᵥ v)) • MulOpposite.op (v ⬝ᵥ a) • v = v := by
          ext i; simp only [Pi.smul_apply, MulOpposite.smul_eq_mul_unop, MulOpposite.unop_op, smul_eq_mul]
          linear_combination v i * h
        rw [this]; simp [v]
      rw [this]; simp [e, hi]

/-- `blockdiag(1, Q)` -/
def bord {m : ℕ} (Q : Matrix (Fin m) (Fin m) ℝ) : Matrix (Fin (m + 1)) (Fin (m + 1)) ℝ :=
  Matrix.of fun i j => Fin.cases (Fin.cases 1 (fun _ => 0) j) (fun i => Fin.cases 0 (fun j => Q i j) j) i

theorem bord_orth {m : ℕ} {Q : Matrix (Fin m) (Fin m) ℝ} (h : Qᵀ * Q = 1) :
    (bord Q)ᵀ * bord Q = 1 := by
  ext i j
  have h' := fun i j => congrFun (congrFun h i) j
  simp only [mul_apply, transpose_apply] at h'
  refine Fin.cases ?_ (fun i => ?_) i <;> refine Fin.cases ?_ (fun j => ?_) j <;>
    simp [bord, mul_apply, Fin.sum_univ_succ, h', one_apply]
  intro h; exact absurd h.symm (Fin.succ_ne_zero _)

/-- Full (square `Q`) QR; with `p` the pivots are greedy, without it no column moves. -/
theorem exists_qr_full (p : Prop) : ∀ (m n : ℕ) (A : Matrix (Fin m) (Fin n) ℝ),
    ∃ (Q : Matrix (Fin m) (Fin m) ℝ) (R : Matrix (Fin m) (Fin n) ℝ) (σ : Equiv.Perm (Fin n)),
      Qᵀ * Q = 1 ∧ Q * R = A.submatrix id σ ∧ (∀ i j, j.1 < i.1 → R i j = 0) ∧
      (¬ p → σ = 1) ∧
      (p → ∀ (i : Fin m) (j k : Fin n), i.1 = k.1 → i.1 ≤ j.1 →
        ∑ l ∈ Finset.univ.filter (fun l => i ≤ l), R l j ^ 2 ≤ R i k ^ 2) := by
  classical
  intro m
  induction m with
  | zero =>
    intro n A
    exact ⟨1, A, 1, by simp, by ext i; exact i.elim0, fun i => i.elim0, fun _ => rfl,
      fun _ i => i.elim0⟩
  | succ m ih =>
    intro n A
    cases n with
    | zero =>
      exact ⟨1, A, 1, by simp, by ext i j; exact j.elim0, fun _ j => j.elim0, fun _ => rfl,
        fun _ _ j => j.elim0⟩
    | succ n =>
      obtain ⟨c, hc, hc'⟩ : ∃ c : Fin (n + 1), (¬ p → c = 0) ∧
          (p → ∀ j, ∑ i, A i j ^ 2 ≤ ∑ i, A i c ^ 2) := by
        by_cases hp : p
        · obtain ⟨c, -, hc⟩ := Finset.exists_max_image (Finset.univ : Finset (Fin (n + 1)))
            (fun j => ∑ i, A i j ^ 2) ⟨0, Finset.mem_univ _⟩
          exact ⟨c, fun h => absurd hp h, fun _ j => hc j (Finset.mem_univ _)⟩
        · exact ⟨0, fun _ => rfl, fun h => absurd h hp⟩
      set s : Equiv.Perm (Fin (n + 1)) := Equiv.swap 0 c
      set A' := A.submatrix id s
      obtain ⟨H, hHt, hHH, hH⟩ := exists_householder (fun i => A' i 0)
      set B := H * A'
      have hB0 : ∀ i : Fin m, B i.succ 0 = 0 := fun i => by
        have := hH i.succ (Fin.succ_ne_zero i)
        simpa [B, mul_apply, mulVec, dotProduct] using this
      obtain ⟨Q1, R1, σ1, hQ1, hR1, hU1, hp1, hg1⟩ := ih n (Matrix.of fun i j => B i.succ j.succ)
      set t : Equiv.Perm (Fin (n + 1)) := Equiv.Perm.decomposeFin.symm (0, σ1)
      have ht0 : t 0 = 0 := by simp [t]
      have hts : ∀ j : Fin n, t j.succ = (σ1 j).succ := fun j => by simp [t]
      set R : Matrix (Fin (m + 1)) (Fin (n + 1)) ℝ :=
        Matrix.of fun i j => Fin.cases (B 0 (t j)) (fun i => Fin.cases 0 (fun j => R1 i j) j) i
      have hR0 : ∀ j, R 0 j = B 0 (t j) := fun j => rfl
      have hRs0 : ∀ i : Fin m, R i.succ 0 = 0 := fun i => rfl
      have hRss : ∀ (i : Fin m) (j : Fin n), R i.succ j.succ = R1 i j := fun i j => rfl
      have hbR : bord Q1 * R = B.submatrix id t := by
        ext i j
        refine Fin.cases ?_ (fun i => ?_) i
        · simp [bord, mul_apply, Fin.sum_univ_succ, hR0]
        · refine Fin.cases ?_ (fun j => ?_) j
          · simp [bord, mul_apply, Fin.sum_univ_succ, hRs0, ht0, hB0]
          · have := congrFun (congrFun hR1 i) j
            simp only [mul_apply, submatrix_apply, of_apply, id] at this
            simp [bord, mul_apply, Fin.sum_univ_succ, hRss, hts, this]
      have hHA : (H * bord Q1) * R = A.submatrix id (s * t : Equiv.Perm _) := by
        rw [Matrix.mul_assoc, hbR]
        have : H * B.submatrix id t = (H * B).submatrix id t := by
          ext i j; simp [mul_apply]
        rw [this]
        have : H * B = A' := by simp only [B]; rw [← Matrix.mul_assoc, hHH, Matrix.one_mul]
        rw [this]; rfl
      refine ⟨H * bord Q1, R, s * t, ?_, hHA, ?_, ?_, ?_⟩
      · rw [transpose_mul, hHt, Matrix.mul_assoc, ← Matrix.mul_assoc H, hHH, Matrix.one_mul,
          bord_orth hQ1]
      · intro i j hij
        cases i using Fin.cases with
        | zero => simp at hij
        | succ i =>
          cases j using Fin.cases with
          | zero => exact hRs0 i
          | succ j => rw [hRss]; exact hU1 i j (by simpa using hij)
      · intro hp
        have h1 := hp1 hp
        have h2 := hc hp
        ext j
        cases j using Fin.cases with
        | zero => simp [Equiv.Perm.mul_apply, ht0, s, h2]
        | succ j => simp [Equiv.Perm.mul_apply, hts, s, h2, h1]
      · intro hp i j k hik hij
        cases i using Fin.cases with
        | zero =>
          have hk : k = 0 := by ext; simpa using hik.symm
          subst hk
          have hfil : Finset.univ.filter (fun l : Fin (m + 1) => 0 ≤ l) = Finset.univ := by
            ext l; simp
          rw [hfil]
          have hnorm : ∀ j, ∑ l, R l j ^ 2 = ∑ l, A l ((s * t : Equiv.Perm _) j) ^ 2 := by
            intro j
            have hO : (H * bord Q1)ᵀ * (H * bord Q1) = 1 := by
              rw [transpose_mul, hHt, Matrix.mul_assoc, ← Matrix.mul_assoc H, hHH, Matrix.one_mul,
                bord_orth hQ1]
            have e1 : Rᵀ * R = (A.submatrix id (s * t : Equiv.Perm _))ᵀ *
                A.submatrix id (s * t : Equiv.Perm _) := by
              rw [← hHA, transpose_mul (H * bord Q1) R, Matrix.mul_assoc,
                ← Matrix.mul_assoc (H * bord Q1)ᵀ, hO, Matrix.one_mul]
            have := congrFun (congrFun e1 j) j
            simpa [mul_apply, ← sq] using this
          rw [hnorm]
          refine (hc' hp _).trans ?_
          have : ∑ l, R l 0 ^ 2 = R 0 0 ^ 2 := by
            rw [Fin.sum_univ_succ]; simp [hRs0]
          rw [← this, hnorm]
          simp [Equiv.Perm.mul_apply, ht0, s]
        | succ i =>
          cases j using Fin.cases with
          | zero => simp at hij
          | succ j =>
            cases k using Fin.cases with
            | zero => simp at hik
            | succ k =>
              have := hg1 hp i j k (by simpa using hik) (by simpa using hij)
              rw [hRss]
              refine le_trans (le_of_eq ?_) this
              rw [Finset.sum_filter, Finset.sum_filter, Fin.sum_univ_succ]
              simp [hRss]

theorem econ_mul {m n : ℕ} (Q : Matrix (Fin m) (Fin m) ℝ) (R : Matrix (Fin m) (Fin n) ℝ)
    (hR : ∀ i j, j.1 < i.1 → R i j = 0) :
    Q.submatrix id (minL : Fin (min m n) → Fin m) * R.submatrix minL id = Q * R := by
  ext i j
  simp only [mul_apply, submatrix_apply, id]
  have hinj : Function.Injective (minL : Fin (min m n) → Fin m) := fun a b h => by
    have := congrArg Fin.val h; simpa [minL, Fin.ext_iff] using this
  rw [← Finset.sum_image (f := fun l => Q i l * R l j) (s := Finset.univ) (g := minL)
    (fun a _ b _ h => hinj h)]
  refine Finset.sum_subset (Finset.subset_univ _) ?_
  intro l _ hl
  rw [hR l j, mul_zero]
  by_contra hlt
  apply hl
  rw [Finset.mem_image]
  exact ⟨⟨l.1, by omega⟩, Finset.mem_univ _, rfl⟩

theorem econ_orth {m n : ℕ} {Q : Matrix (Fin m) (Fin m) ℝ} (h : Qᵀ * Q = 1) :
    (Q.submatrix id (minL : Fin (min m n) → Fin m))ᵀ *
      Q.submatrix id (minL : Fin (min m n) → Fin m) = 1 := by
  ext i j
  have := congrFun (congrFun h (minL i)) (minL j)
  simp only [mul_apply, transpose_apply, submatrix_apply, id] at this ⊢
  rw [this, one_apply, one_apply]
  simp [minL, Fin.ext_iff]

/-- economic QR -/
theorem exists_qr {m n : ℕ} (A : Matrix (Fin m) (Fin n) ℝ) :
    ∃ x : Matrix (Fin m) (Fin (min m n)) ℝ × Matrix (Fin (min m n)) (Fin n) ℝ,
      x.1 * x.2 = A ∧ x.1ᵀ * x.1 = 1 ∧ ∀ i j, j.1 < i.1 → x.2 i j = 0 := by
  obtain ⟨Q, R, σ, h1, h2, h3, h4, -⟩ := exists_qr_full False m n A
  refine ⟨(Q.submatrix id minL, R.submatrix minL id), ?_, econ_orth h1, ?_⟩
  · rw [econ_mul Q R h3, h2, h4 not_false]; rfl
  · intro i j hij; exact h3 _ _ hij

/-- economic QR with greedy column pivoting -/
theorem exists_qrp {m n : ℕ} (A : Matrix (Fin m) (Fin n) ℝ) :
    ∃ x : Matrix (Fin m) (Fin (min m n)) ℝ × Matrix (Fin (min m n)) (Fin n) ℝ ×
        Equiv.Perm (Fin n),
      x.1 * x.2.1 = A.submatrix id x.2.2 ∧ x.1ᵀ * x.1 = 1 ∧ (∀ i j, j.1 < i.1 → x.2.1 i j = 0) ∧
      ∀ (i : Fin (min m n)) (j : Fin n), i.1 ≤ j.1 →
        ∑ l ∈ Finset.univ.filter (fun l => i ≤ l), x.2.1 l j ^ 2 ≤ x.2.1 i (minR i) ^ 2 := by
  obtain ⟨Q, R, σ, h1, h2, h3, -, h5⟩ := exists_qr_full True m n A
  refine ⟨(Q.submatrix id minL, R.submatrix minL id, σ), ?_, econ_orth h1, ?_, ?_⟩
  · rw [econ_mul Q R h3, h2]
  · intro i j hij; exact h3 _ _ hij
  · intro i j hij
    have := h5 trivial (minL i) j (minR i) rfl hij
    refine le_trans ?_ this
    simp only [submatrix_apply, id]
    have hinj : Function.Injective (minL : Fin (min m n) → Fin m) := fun a b h => by
      have := congrArg Fin.val h; simpa [minL, Fin.ext_iff] using this
    rw [← Finset.sum_image (f := fun l => R l j ^ 2) (g := minL)
      (s := Finset.univ.filter (fun l => i ≤ l)) (fun a _ b _ h => hinj h)]
    refine Finset.sum_le_sum_of_subset_of_nonneg ?_ (fun _ _ _ => sq_nonneg _)
    intro l hl
    obtain ⟨a, ha, rfl⟩ := Finset.mem_image.1 hl
    simp only [Finset.mem_filter, Finset.mem_univ, true_and] at ha ⊢
    exact ha

end Parla.Backend
