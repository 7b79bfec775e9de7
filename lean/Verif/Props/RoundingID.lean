import Verif.Model.RoundingID
import Verif.Props.ID2
import Verif.Props.RoundingNys

/-! # C102: interpolative decompositions with rounding errors -/

namespace Parla.Props

open Matrix Parla Spec Parla.Proof

variable {G : Type} {m n k : ℕ}

/-! ### Exact arithmetic -/

theorem qrcpColFl_exact (la : LinAlg) (Y : Matrix (Fin m) (Fin n) ℝ) (k : ℕ) : qrcpColFl (exactID la) Y k = qrcpCol la Y k := rfl

theorem OSID1Fl_exact (la : LinAlg) (skOp : RowSketcher G) : OSID1Fl (exactID la) skOp = OSID1 la skOp := rfl

/-- **C102** (exact arithmetic is a special case): with exact operations the routines with rounding are `osid1` and `tsid1`. -/
theorem C102_exact (la : LinAlg) (gen : SkOpGen G) (A : Matrix (Fin m) (Fin n) ℝ) (k over : ℕ) (p axis : ℤ) :
    osid1Fl (exactID la) gen A k over p axis = osid1 la gen A k over p axis ∧
    tsid1Fl (exactID la) gen A k over p = tsid1 la gen A k over p := by
  unfold osid1Fl osid1 tsid1Fl tsid1
  rw [show (exactID la).toFlAlg = exactFl la from rfl, RS1Fl_exact, OSID1Fl_exact]
  exact ⟨rfl, rfl⟩

/-! ### The pivoted QR factorisation -/

/-- the Frobenius norm of the block of `R` below row and right of column `k` -/
noncomputable def trailFro (R : Matrix (Fin m) (Fin n) ℝ) (k : ℕ) : ℝ :=
  fro (Matrix.of fun i j => if k ≤ i.1 ∧ k ≤ j.1 then R i j else 0)

theorem fro_block {a b c d : ℕ} (Z : Matrix (Fin a) (Fin b) ℝ) (D : Matrix (Fin c) (Fin d) ℝ) (f : Fin c → Fin a) (g : Fin d → Fin b)
    (hf : Function.Injective f) (hg : Function.Injective g) (h : ∀ i j, Z (f i) (g j) = D i j)
    (h0 : ∀ i j, i ∉ Set.range f ∨ j ∉ Set.range g → Z i j = 0) : fro Z = fro D := by
  unfold fro froSq
  congr 1
  symm
  refine Finset.sum_of_injOn f (hf.injOn) (by simp) ?_ ?_
  · intro i _ hi
    refine Finset.sum_eq_zero fun j _ => ?_
    rw [h0 i j (Or.inl fun ⟨x, hx⟩ => hi ⟨x, by simp, hx⟩), zero_pow two_ne_zero]
  · intro i _
    refine Finset.sum_of_injOn g (hg.injOn) (by simp) ?_ ?_
    · intro j _ hj
      rw [h0 _ j (Or.inr fun ⟨x, hx⟩ => hj ⟨x, by simp, hx⟩), zero_pow two_ne_zero]
    · intro j _
      rw [h]

theorem fro_submatrix_le {a b c d : ℕ} (M : Matrix (Fin a) (Fin b) ℝ) {f : Fin c → Fin a} {g : Fin d → Fin b}
    (hf : Function.Injective f) (hg : Function.Injective g) : fro (M.submatrix f g) ≤ fro M := by
  have e : M.submatrix f g = (((M.submatrix id g)ᵀ).submatrix id f)ᵀ := rfl
  rw [e, fro_tr]
  refine (fro_submatrix_cols_le _ hf).trans ?_
  rw [fro_tr]
  exact fro_submatrix_cols_le _ hg

theorem fro_perm_cols (M : Matrix (Fin m) (Fin n) ℝ) (J : Equiv.Perm (Fin n)) : fro (M.submatrix id J) = fro M := by
  unfold fro froSq
  congr 1
  refine Finset.sum_congr rfl fun i _ => ?_
  exact Equiv.sum_comp J fun j => M i j ^ 2

set_option maxHeartbeats 1000000 in
theorem qrcpColFl_facts {fl : FlID} {N : ℕ} {ε : ℝ} (hfl : fl.Accurate N ε) (hε : 0 ≤ ε) (hε1 : ε ≤ 1) (hm : m ≤ N) (hn : n ≤ N)
    {Y : Matrix (Fin m) (Fin n) ℝ} {o : ColID n} (h : qrcpColFl fl Y k = .ok o) :
    o.c = k ∧ k ≤ min m n ∧ Function.Injective o.Js ∧ o.X.submatrix id o.Js = 1 ∧
      fro (Y - Y.submatrix id o.Js * o.X) ≤ trailFro (fl.qrp Y).2.1 k + ε * fro Y * (1 + 3 * fro o.X) := by
  unfold qrcpColFl at h
  by_cases hk : k ≤ min m n
  swap
  · rw [dif_neg hk] at h; cases h
  rw [dif_pos hk] at h
  simp only [bind, Except.bind] at h
  have hkn : k ≤ n := hk.trans (min_le_right m n)
  obtain ⟨R, hR⟩ : ∃ R, R = (fl.qrp Y).2.1 := ⟨_, rfl⟩
  obtain ⟨J, hJ⟩ : ∃ J, J = (fl.qrp Y).2.2 := ⟨_, rfl⟩
  rw [← hR, ← hJ] at h
  obtain ⟨Q', oQ, dQ⟩ := hfl.qrp Y hm hn
  have hup : ∀ i j, j.1 < i.1 → R i j = 0 := by rw [hR]; exact hfl.qrp_upper Y
  rw [← hR, ← hJ] at dQ
  rw [← hR]
  obtain ⟨lead, hlead⟩ : ∃ M : Matrix (Fin k) (Fin k) ℝ, M = R.submatrix (Fin.castLE hk) (Fin.castLE hkn) := ⟨_, rfl⟩
  obtain ⟨trail, htrail⟩ : ∃ M : Matrix (Fin k) (Fin (n - k)) ℝ, M = R.submatrix (Fin.castLE hk) (fun j => ⟨k + j.1, by omega⟩) :=
    ⟨_, rfl⟩
  rw [← hlead, ← htrail] at h
  cases hs : fl.solve lead trail with
  | error e => rw [hs] at h; cases h
  | ok T =>
    rw [hs] at h
    simp only at h
    cases h
    have hsol := hfl.solve lead trail T (by omega) (by omega) (fun i j hij => by rw [hlead]; exact hup _ _ hij) hs
    obtain ⟨f, hf⟩ : ∃ f : Fin k → Fin n, f = Fin.castLE hkn := ⟨_, rfl⟩
    have hfv : ∀ i, (f i).1 = i.1 := fun i => by rw [hf]; rfl
    have hfi : Function.Injective f := by rw [hf]; exact Fin.castLE_injective hkn
    have hgi : Function.Injective (fun j : Fin (n - k) => (⟨k + j.1, by omega⟩ : Fin n)) := by
      intro a b h
      have := Fin.val_eq_of_eq h
      exact Fin.ext (by simpa using this)
    have hgv : ∀ j : Fin (n - k), k + j.1 - k = j.1 := fun j => by omega
    have hHf : (eyeStack T).submatrix id f = 1 := by
      ext i j
      simp only [submatrix_apply, id, eyeStack, of_apply, one_apply]
      rw [dif_pos (by rw [hfv]; exact j.2), hfv]
      simp only [Fin.ext_iff]
    obtain ⟨H, hH⟩ : ∃ H : Matrix (Fin k) (Fin n) ℝ, H = eyeStack T := ⟨_, rfl⟩
    rw [← hH] at hHf
    dsimp only
    rw [← hf, ← hH]
    refine ⟨rfl, hk, J.injective.comp hfi, ?_, ?_⟩
    · rw [← hHf]
      ext i j
      simp
    · have nX : fro (H.submatrix id J.symm) = fro H := fro_perm_cols H J.symm
      rw [nX]
      obtain ⟨E, hE⟩ : ∃ E, E = Y.submatrix id J - Q' * R := ⟨_, rfl⟩
      have nE : fro E ≤ ε * fro Y := by rw [hE, fro_sub_comm]; exact dQ
      have hYJ : Y.submatrix id J = Q' * R + E := by rw [hE]; abel
      -- in the order of the pivots
      have e1 : (Y - Y.submatrix id (J ∘ f) * H.submatrix id J.symm).submatrix id J =
          Q' * (R - R.submatrix id f * H) + (E - E.submatrix id f * H) := by
        have h1 : (Y.submatrix id (J ∘ f) * H.submatrix id J.symm).submatrix id J = Y.submatrix id (J ∘ f) * H := by
          ext i j; simp [mul_apply]
        have h2 : Y.submatrix id (J ∘ f) = Q' * R.submatrix id f + E.submatrix id f := by
          have : Y.submatrix id (J ∘ f) = (Y.submatrix id J).submatrix id f := rfl
          rw [this, hYJ]
          ext i j
          simp [mul_apply]
        have h3 : (Y - Y.submatrix id (J ∘ f) * H.submatrix id J.symm).submatrix id J =
            Y.submatrix id J - (Y.submatrix id (J ∘ f) * H.submatrix id J.symm).submatrix id J := rfl
        rw [h3, h1, h2, hYJ, Matrix.add_mul, Matrix.mul_sub, Matrix.mul_assoc]
        abel
      rw [← fro_perm_cols _ J, e1]
      have a1 := fro_triangle (Q' * (R - R.submatrix id f * H)) (E - E.submatrix id f * H)
      rw [fro_orth_mul oQ] at a1
      have h0 := fro_nonneg H
      have y0 := fro_nonneg Y
      have a2 : fro (E - E.submatrix id f * H) ≤ ε * fro Y * (1 + fro H) := by
        have b1 := fro_triangle E (-(E.submatrix id f * H))
        rw [← sub_eq_add_neg] at b1
        have b2 : fro (-(E.submatrix id f * H)) = fro (E.submatrix id f * H) := by
          have := fro_sub_comm (0 : Matrix (Fin m) (Fin n) ℝ) (E.submatrix id f * H)
          rwa [zero_sub, sub_zero] at this
        have b3 := fro_mul_le (E.submatrix id f) H
        have b4 := fro_submatrix_cols_le E hfi
        have b5 : fro (E.submatrix id f) * fro H ≤ ε * fro Y * fro H := mul_le_mul_of_nonneg_right (b4.trans nE) h0
        linarith
      -- the triangular factor
      have hhead : R - R.submatrix id f * H = (Matrix.of fun i j => if k ≤ i.1 ∧ k ≤ j.1 then R i j else 0) +
          Matrix.of fun i j => if h : i.1 < k then (if h' : j.1 < k then 0 else (trail - lead * T) ⟨i.1, h⟩ ⟨j.1 - k, by omega⟩)
            else 0 := by
        ext i j
        rw [Matrix.sub_apply, mul_apply, Matrix.add_apply, of_apply, of_apply]
        by_cases hj : j.1 < k
        · rw [if_neg (fun h => absurd h.2 (not_le.2 hj)), Finset.sum_eq_single ⟨j.1, hj⟩]
          · have e : f ⟨j.1, hj⟩ = j := Fin.ext (hfv _)
            rw [submatrix_apply, id, e, hH]
            simp [eyeStack, hj]
          · intro b _ hb
            rw [hH]
            simp only [eyeStack, of_apply, dif_pos hj]
            rw [if_neg (fun e => hb (Fin.ext e)), mul_zero]
          · simp
        · have hs2 : ∑ l, R.submatrix id f i l * H l j = ∑ l, R i (f l) * T l ⟨j.1 - k, by omega⟩ := by
            refine Finset.sum_congr rfl fun l _ => ?_
            rw [hH]
            simp only [eyeStack, of_apply, dif_neg hj, submatrix_apply, id]
          rw [hs2]
          by_cases hi : i.1 < k
          · rw [if_neg (fun h => absurd h.1 (not_le.2 hi)), dif_pos hi, dif_neg hj, zero_add, Matrix.sub_apply, mul_apply, htrail,
              hlead]
            congr 1
            · simp only [submatrix_apply]
              congr 1
              exact Fin.ext (by show j.1 = k + (j.1 - k); omega)
            · refine Finset.sum_congr rfl fun l _ => ?_
              rw [submatrix_apply, hf]
              rfl
          · rw [if_pos ⟨not_lt.1 hi, not_lt.1 hj⟩, dif_neg hi, add_zero, Finset.sum_eq_zero, sub_zero]
            intro l _
            rw [hup i (f l) (by rw [hfv]; exact lt_of_lt_of_le l.2 (not_lt.1 hi)), zero_mul]
      have a3 : fro (R - R.submatrix id f * H) ≤ trailFro R k + fro (lead * T - trail) := by
        rw [hhead]
        refine (fro_triangle _ _).trans (add_le_add le_rfl ?_)
        rw [fro_sub_comm]
        refine le_of_eq (fro_block _ _ (Fin.castLE hk) (fun j : Fin (n - k) => (⟨k + j.1, by omega⟩ : Fin n)) (Fin.castLE_injective hk)
          hgi ?_ ?_)
        · intro i j
          simp [hgv]
        · rintro i j (hi | hj)
          · rw [of_apply, dif_neg fun h => hi ⟨⟨i.1, h⟩, rfl⟩]
          · rw [of_apply]
            split_ifs with h1 h2
            · rfl
            · exact absurd ⟨⟨j.1 - k, by omega⟩, Fin.ext (by show k + (j.1 - k) = j.1; omega)⟩ hj
            · rfl
      have nR : fro R ≤ 2 * fro Y := by
        have b1 : fro R = fro (Q' * R) := (fro_orth_mul oQ R).symm
        have b2 := fro_le_add (Q' * R) (Y.submatrix id J)
        rw [fro_perm_cols] at b2
        nlinarith
      have nL : fro lead ≤ fro R := by
        rw [hlead]; exact fro_submatrix_le R (Fin.castLE_injective hk) (Fin.castLE_injective hkn)
      have nT : fro T ≤ fro H := by
        have e : T = H.submatrix id (fun j : Fin (n - k) => (⟨k + j.1, by omega⟩ : Fin n)) := by
          rw [hH]
          ext i j
          simp [eyeStack]
        rw [e]
        exact fro_submatrix_cols_le H hgi
      have a4 : fro (lead * T - trail) ≤ ε * fro Y * (2 * fro H) := by
        refine hsol.trans ?_
        have b1 : fro lead * fro T ≤ 2 * fro Y * fro H := mul_le_mul (nL.trans nR) nT (fro_nonneg _) (by linarith)
        have b2 := mul_le_mul_of_nonneg_left b1 hε
        calc _ = ε * (fro lead * fro T) := by ring
          _ ≤ _ := b2
          _ = _ := by ring
      have : ε * fro Y * (1 + fro H) + ε * fro Y * (2 * fro H) = ε * fro Y * (1 + 3 * fro H) := by ring
      linarith

theorem interp_reproduces {c : ℕ} (A : Matrix (Fin m) (Fin n) ℝ) {X : Matrix (Fin c) (Fin n) ℝ} {Js : Fin c → Fin n}
    (h : X.submatrix id Js = 1) : (A.submatrix id Js * X).submatrix id Js = A.submatrix id Js := by
  have e : (A.submatrix id Js * X).submatrix id Js = A.submatrix id Js * X.submatrix id Js := by
    ext i j; simp [mul_apply]
  rw [e, h, Matrix.mul_one]

/-! ### One-sided decompositions -/

/-- **C102** (column ID with rounding errors).  When `OSID1` returns, on a machine accurate to `ε`, having sketched with `S`:

* it returns `k` distinct column indices, and coefficients with an identity at these columns, so these columns of `A` are
  reproduced exactly in spite of rounding;
* with `R` the computed triangular factor, `M` any matrix: the error is at most `(1 + ‖X‖) ‖A - M S'A‖`, plus `‖M‖` times the norm
  of the trailing block of `R`, plus `‖M‖ ε ‖A‖ ‖S‖ (3 + 7 ‖X‖)`. -/
theorem C102_osid1_column {fl : FlID} {N : ℕ} {ε : ℝ} (hfl : fl.Accurate N ε) (hε : 0 ≤ ε) (hε1 : ε ≤ 1) (hm : m ≤ N) (hn : n ≤ N)
    (skOp : RowSketcher G) (A : Matrix (Fin m) (Fin n) ℝ) (k over : ℕ) (o : ColID n) (w w' : World G)
    (h : (OSID1Fl fl skOp).col m n A k over w = .ok (o, w')) :
    ∃ S w1, skOp n m Aᵀ (k + over) w = .ok (S, w1) ∧ (S.c ≤ N →
      o.c = k ∧ Function.Injective o.Js ∧ o.X.submatrix id o.Js = 1 ∧
      (A.submatrix id o.Js * o.X).submatrix id o.Js = A.submatrix id o.Js ∧
      ∀ M : Matrix (Fin m) (Fin S.c) ℝ, fro (A - A.submatrix id o.Js * o.X) ≤ (1 + fro o.X) * fro (A - M * (S.matᵀ * A)) +
        fro M * (trailFro (fl.qrp (fl.mul Aᵀ S.mat)ᵀ).2.1 k + ε * (fro A * fro S.mat) * (3 + 7 * fro o.X))) := by
  have h' : (sketchColsFl fl skOp A k over >>= fun Yt => Py.lift (qrcpColFl fl Yt.matᵀ k)) w = .ok (o, w') := h
  rw [Py.bind_ok_iff] at h'
  obtain ⟨Yt, w2, hY, h2⟩ := h'
  unfold sketchColsFl at hY
  rw [Py.bind_ok_iff] at hY
  obtain ⟨S, w1, hS, hY⟩ := hY
  refine ⟨S, w1, hS, fun hc => ?_⟩
  have hYt : Yt = ⟨S.c, fl.mul Aᵀ S.mat⟩ := by
    unfold passAFl at hY
    rw [Py.bind_eq_of_ok (Py.emit_apply _ _)] at hY
    cases hY; rfl
  rw [Py.lift_ok_iff] at h2
  have hq := h2.1
  rw [hYt] at hq
  change qrcpColFl fl (fl.mul Aᵀ S.mat)ᵀ k = .ok o at hq
  obtain ⟨Y, hYe⟩ : ∃ Y, Y = (fl.mul Aᵀ S.mat)ᵀ := ⟨_, rfl⟩
  rw [← hYe] at hq ⊢
  obtain ⟨f1, f2, f3, f4, f5⟩ := qrcpColFl_facts hfl hε hε1 hc hn hq
  refine ⟨f1, f3, f4, interp_reproduces A f4, fun M => ?_⟩
  obtain ⟨t, ht⟩ : ∃ t, t = trailFro (fl.qrp Y).2.1 k := ⟨_, rfl⟩
  obtain ⟨x, hx⟩ : ∃ x, x = fro o.X := ⟨_, rfl⟩
  obtain ⟨p, hp⟩ : ∃ p, p = fro A * fro S.mat := ⟨_, rfl⟩
  rw [← ht, ← hx] at f5
  rw [← ht, ← hx, ← hp]
  have x0 : 0 ≤ x := hx ▸ fro_nonneg _
  have p0 : 0 ≤ p := hp ▸ mul_nonneg (fro_nonneg _) (fro_nonneg _)
  have m0 := fro_nonneg M
  have d1 : fro (Y - S.matᵀ * A) ≤ ε * p := by
    have := hfl.alg.mul Aᵀ S.mat hn hm hc
    rw [fro_tr A, mul_assoc, ← hp] at this
    rw [hYe, ← fro_tr, transpose_sub, transpose_transpose, transpose_mul, transpose_transpose]
    exact this
  have nY : fro Y ≤ 2 * p := by
    have h1 := fro_le_add Y (S.matᵀ * A)
    have h2 := fro_mul_le S.matᵀ A
    rw [fro_tr, mul_comm, ← hp] at h2
    nlinarith
  have f6 : fro (Y - Y.submatrix id o.Js * o.X) ≤ t + ε * p * (2 + 6 * x) := by
    refine f5.trans (add_le_add le_rfl ?_)
    have h1 : fro Y * (1 + 3 * x) ≤ 2 * p * (1 + 3 * x) := mul_le_mul_of_nonneg_right nY (by linarith)
    have h2 := mul_le_mul_of_nonneg_left h1 hε
    calc _ = ε * (fro Y * (1 + 3 * x)) := by ring
      _ ≤ _ := h2
      _ = _ := by ring
  -- A = M Y + F
  obtain ⟨F, hF⟩ : ∃ F, F = A - M * Y := ⟨_, rfl⟩
  have nF : fro F ≤ fro (A - M * (S.matᵀ * A)) + fro M * (ε * p) := by
    rw [hF]
    have h1 := fro_sub_le A (M * (S.matᵀ * A)) (M * Y)
    rw [← Matrix.mul_sub] at h1
    have h2 := fro_mul_le M (S.matᵀ * A - Y)
    rw [fro_sub_comm] at d1
    have h3 := mul_le_mul_of_nonneg_left d1 m0
    linarith
  have e1 : A - A.submatrix id o.Js * o.X = M * (Y - Y.submatrix id o.Js * o.X) + (F - F.submatrix id o.Js * o.X) := by
    have h1 : A.submatrix id o.Js = M * Y.submatrix id o.Js + F.submatrix id o.Js := by
      rw [hF]; ext i j; simp [mul_apply]
    rw [h1, Matrix.add_mul, Matrix.mul_sub, Matrix.mul_assoc]
    have h2 : A = M * Y + F := by rw [hF]; abel
    nth_rewrite 1 [h2]
    abel
  rw [e1]
  have g1 := fro_triangle (M * (Y - Y.submatrix id o.Js * o.X)) (F - F.submatrix id o.Js * o.X)
  have g2 : fro (M * (Y - Y.submatrix id o.Js * o.X)) ≤ fro M * (t + ε * p * (2 + 6 * x)) :=
    (fro_mul_le _ _).trans (mul_le_mul_of_nonneg_left f6 m0)
  have g3 : fro (F - F.submatrix id o.Js * o.X) ≤ (1 + x) * fro F := by
    have b2 := fro_sub_le F 0 (F.submatrix id o.Js * o.X)
    rw [sub_zero, fro_sub_comm 0, sub_zero] at b2
    have b3 := fro_mul_le (F.submatrix id o.Js) o.X
    rw [← hx] at b3
    have b4 := mul_le_mul_of_nonneg_right (fro_submatrix_cols_le F f3) x0
    linarith
  have g4 := mul_le_mul_of_nonneg_left nF (by linarith : 0 ≤ 1 + x)
  calc _ ≤ fro M * (t + ε * p * (2 + 6 * x)) + (1 + x) * (fro (A - M * (S.matᵀ * A)) + fro M * (ε * p)) := by linarith
    _ = _ := by ring

theorem osid1Fl_row_ok {fl : FlID} {skOp : RowSketcher G} {A : Matrix (Fin m) (Fin n) ℝ} {over : ℕ}
    {w w' : World G} {o : RowID m} (h : (OSID1Fl fl skOp).row m n A k over w = .ok (o, w')) :
    ∃ o', (OSID1Fl fl skOp).col n m Aᵀ k over w = .ok (o', w') ∧ o = ⟨o'.c, o'.Xᵀ, o'.Js⟩ := by
  have h' : (sketchRowsFl fl skOp A k over >>= fun Y => Py.lift (qrcpRowFl fl Y.mat k)) w = .ok (o, w') := h
  rw [Py.bind_ok_iff] at h'
  obtain ⟨Y, w1, h1, h2⟩ := h'
  rw [Py.lift_ok_iff] at h2
  obtain ⟨h2, rfl⟩ := h2
  unfold qrcpRowFl at h2
  cases hc : qrcpColFl fl Y.matᵀ k with
  | error e => rw [hc] at h2; cases h2
  | ok o' =>
    rw [hc] at h2
    refine ⟨o', ?_, by cases h2; rfl⟩
    show (sketchColsFl fl skOp Aᵀ k over >>= fun Yt => Py.lift (qrcpColFl fl Yt.matᵀ k)) w = _
    rw [Py.bind_ok_iff]
    refine ⟨Y, _, ?_, Py.lift_ok_iff.2 ⟨hc, rfl⟩⟩
    unfold sketchColsFl
    rw [transpose_transpose]
    exact h1

/-- **C102** (row ID with rounding errors): the same for rows. -/
theorem C102_osid1_row {fl : FlID} {N : ℕ} {ε : ℝ} (hfl : fl.Accurate N ε) (hε : 0 ≤ ε) (hε1 : ε ≤ 1) (hm : m ≤ N) (hn : n ≤ N)
    (skOp : RowSketcher G) (A : Matrix (Fin m) (Fin n) ℝ) (k over : ℕ) (o : RowID m) (w w' : World G)
    (h : (OSID1Fl fl skOp).row m n A k over w = .ok (o, w')) :
    ∃ S w1, skOp m n A (k + over) w = .ok (S, w1) ∧ (S.c ≤ N →
      o.c = k ∧ Function.Injective o.Is ∧ o.Z.submatrix o.Is id = 1 ∧
      (o.Z * A.submatrix o.Is id).submatrix o.Is id = A.submatrix o.Is id ∧
      ∀ M : Matrix (Fin S.c) (Fin n) ℝ, fro (A - o.Z * A.submatrix o.Is id) ≤ (1 + fro o.Z) * fro (A - A * S.mat * M) +
        fro M * (trailFro (fl.qrp (fl.mul A S.mat)ᵀ).2.1 k + ε * (fro A * fro S.mat) * (3 + 7 * fro o.Z))) := by
  obtain ⟨o', h1, rfl⟩ := osid1Fl_row_ok h
  obtain ⟨S, w1, hS, hrest⟩ := C102_osid1_column hfl hε hε1 hn hm skOp Aᵀ k over o' w w' h1
  rw [transpose_transpose] at hS hrest
  refine ⟨S, w1, hS, fun hc => ?_⟩
  obtain ⟨g1, g2, g3, g4, g5⟩ := hrest hc
  have e0 : ∀ B : Matrix (Fin n) (Fin m) ℝ, B.submatrix id o'.Js = (Bᵀ.submatrix o'.Js id)ᵀ := fun B => rfl
  refine ⟨g1, g2, ?_, ?_, fun M => ?_⟩
  · have := congrArg transpose g3
    rw [transpose_one] at this
    exact this
  · have := congrArg transpose g4
    rw [transpose_submatrix, transpose_mul, transpose_submatrix, transpose_transpose] at this
    exact this
  · have := g5 Mᵀ
    rw [fro_tr, fro_tr A, ← fro_tr (Aᵀ - _), transpose_sub, transpose_transpose, transpose_mul, transpose_submatrix,
      transpose_transpose, ← fro_tr (Aᵀ - _), transpose_sub, transpose_transpose, transpose_mul, transpose_mul, transpose_transpose,
      transpose_transpose, transpose_transpose] at this
    show fro (A - o'.Xᵀ * A.submatrix o'.Js id) ≤ (1 + fro o'.Xᵀ) * _ + _
    rw [fro_tr o'.X]
    exact this

/-! ### Two-sided decompositions -/

theorem trailFro_zero {R : Matrix (Fin m) (Fin n) ℝ} (h : m ≤ k) : trailFro R k = 0 := by
  unfold trailFro
  have : (Matrix.of fun (i : Fin m) (j : Fin n) => if k ≤ i.1 ∧ k ≤ j.1 then R i j else 0) = 0 := by
    ext i j
    rw [of_apply, if_neg fun e => absurd (i.2.trans_le h) (not_lt.2 e.1)]
    rfl
  rw [this, fro, froSq_zero, Real.sqrt_zero]

theorem qrcpRowFl_ok {fl : FlID} {Y : Matrix (Fin m) (Fin n) ℝ} {o : RowID m} (h : qrcpRowFl fl Y k = .ok o) :
    ∃ o', qrcpColFl fl Yᵀ k = .ok o' ∧ o = ⟨o'.c, o'.Xᵀ, o'.Js⟩ := by
  unfold qrcpRowFl at h
  cases hc : qrcpColFl fl Yᵀ k with
  | error e => rw [hc] at h; cases h
  | ok o' => rw [hc] at h; exact ⟨o', rfl, by cases h; rfl⟩

/-- a row ID of a matrix with at most `k` columns has no error but rounding -/
theorem qrcpRowFl_facts {fl : FlID} {N : ℕ} {ε : ℝ} (hfl : fl.Accurate N ε) (hε : 0 ≤ ε) (hε1 : ε ≤ 1) (hm : m ≤ N) (hn : n ≤ N)
    (hnk : n ≤ k) {Y : Matrix (Fin m) (Fin n) ℝ} {o : RowID m} (h : qrcpRowFl fl Y k = .ok o) :
    o.c = k ∧ Function.Injective o.Is ∧ o.Z.submatrix o.Is id = 1 ∧
      fro (Y - o.Z * Y.submatrix o.Is id) ≤ ε * fro Y * (1 + 3 * fro o.Z) := by
  obtain ⟨o', h1, rfl⟩ := qrcpRowFl_ok h
  obtain ⟨f1, -, f3, f4, f5⟩ := qrcpColFl_facts hfl hε hε1 hn hm h1
  refine ⟨f1, f3, ?_, ?_⟩
  · have := congrArg transpose f4
    rw [transpose_one] at this
    exact this
  · rw [trailFro_zero ((min_le_left _ _).trans hnk), zero_add, fro_tr, ← fro_tr (Yᵀ - _), transpose_sub, transpose_transpose,
      transpose_mul, transpose_submatrix, transpose_transpose] at f5
    show fro (Y - o'.Xᵀ * Y.submatrix o'.Js id) ≤ ε * fro Y * (1 + 3 * fro o'.Xᵀ)
    rw [fro_tr o'.X]
    exact f5

/-- **C102** (two-sided ID of a tall matrix, with rounding errors): whatever the one-sided ID is, if it returned at most `k` columns,
then `Z` has an identity at the `k` distinct rows `Is` and the second step adds only rounding,
`ε ‖A[:, Js]‖ (1 + 3 ‖Z‖) ‖X‖`, to the error. -/
theorem C102_tsid1_tall {fl : FlID} {N : ℕ} {ε : ℝ} (hfl : fl.Accurate N ε) (hε : 0 ≤ ε) (hε1 : ε ≤ 1) (hm : m ≤ N) (hkN : k ≤ N)
    (osid : OneSidedID G) (A : Matrix (Fin m) (Fin n) ℝ) (hmn : n < m) (over : ℕ) (out : TSIDOut m n) (w w' : World G)
    (h : tsid1CallFl fl osid A k over w = .ok (out, w')) :
    osid.col m n A k over w = .ok (out.col, w') ∧ (out.col.c ≤ k →
      out.row.c = k ∧ Function.Injective out.row.Is ∧ out.row.Z.submatrix out.row.Is id = 1 ∧
      fro (A - out.row.Z * A.submatrix out.row.Is out.col.Js * out.col.X) ≤ fro (A - A.submatrix id out.col.Js * out.col.X) +
        ε * fro (A.submatrix id out.col.Js) * (1 + 3 * fro out.row.Z) * fro out.col.X) := by
  unfold tsid1CallFl at h
  rw [if_pos hmn, Py.bind_ok_iff] at h
  obtain ⟨X, w1, h1, h⟩ := h
  rw [Py.bind_ok_iff] at h
  obtain ⟨Z, w2, h2, h⟩ := h
  rw [Py.lift_ok_iff] at h2
  obtain ⟨h2, h3⟩ := h2
  cases h
  subst h3
  refine ⟨h1, fun hc => ?_⟩
  obtain ⟨f1, f2, f3, f4⟩ := qrcpRowFl_facts hfl hε hε1 hm (hc.trans hkN) hc h2
  refine ⟨f1, f2, f3, ?_⟩
  have e1 : A - Z.Z * A.submatrix Z.Is X.Js * X.X = (A - A.submatrix id X.Js * X.X) +
      (A.submatrix id X.Js - Z.Z * (A.submatrix id X.Js).submatrix Z.Is id) * X.X := by
    rw [Matrix.sub_mul, show (A.submatrix id X.Js).submatrix Z.Is id = A.submatrix Z.Is X.Js from rfl]
    abel
  show fro (A - Z.Z * A.submatrix Z.Is X.Js * X.X) ≤ _
  rw [e1]
  refine (fro_triangle _ _).trans (add_le_add le_rfl ((fro_mul_le _ _).trans ?_))
  exact mul_le_mul_of_nonneg_right f4 (fro_nonneg _)

/-- **C102** (two-sided ID of a matrix that is not tall, with rounding errors). -/
theorem C102_tsid1_wide {fl : FlID} {N : ℕ} {ε : ℝ} (hfl : fl.Accurate N ε) (hε : 0 ≤ ε) (hε1 : ε ≤ 1) (hn : n ≤ N) (hkN : k ≤ N)
    (osid : OneSidedID G) (A : Matrix (Fin m) (Fin n) ℝ) (hmn : m ≤ n) (over : ℕ) (out : TSIDOut m n) (w w' : World G)
    (h : tsid1CallFl fl osid A k over w = .ok (out, w')) :
    osid.row m n A k over w = .ok (out.row, w') ∧ (out.row.c ≤ k →
      out.col.c = k ∧ Function.Injective out.col.Js ∧ out.col.X.submatrix id out.col.Js = 1 ∧
      fro (A - out.row.Z * A.submatrix out.row.Is out.col.Js * out.col.X) ≤ fro (A - out.row.Z * A.submatrix out.row.Is id) +
        fro out.row.Z * (ε * fro (A.submatrix out.row.Is id) * (1 + 3 * fro out.col.X))) := by
  unfold tsid1CallFl at h
  rw [if_neg (not_lt.2 hmn), Py.bind_ok_iff] at h
  obtain ⟨Z, w1, h1, h⟩ := h
  rw [Py.bind_ok_iff] at h
  obtain ⟨X, w2, h2, h⟩ := h
  rw [Py.lift_ok_iff] at h2
  obtain ⟨h2, h3⟩ := h2
  cases h
  subst h3
  refine ⟨h1, fun hc => ?_⟩
  obtain ⟨f1, -, f2, f3, f4⟩ := qrcpColFl_facts hfl hε hε1 (hc.trans hkN) hn h2
  rw [trailFro_zero ((min_le_left _ _).trans hc), zero_add] at f4
  refine ⟨f1, f2, f3, ?_⟩
  have e1 : A - Z.Z * A.submatrix Z.Is X.Js * X.X = (A - Z.Z * A.submatrix Z.Is id) +
      Z.Z * (A.submatrix Z.Is id - (A.submatrix Z.Is id).submatrix id X.Js * X.X) := by
    rw [Matrix.mul_sub, show (A.submatrix Z.Is id).submatrix id X.Js = A.submatrix Z.Is X.Js from rfl, Matrix.mul_assoc]
    abel
  show fro (A - Z.Z * A.submatrix Z.Is X.Js * X.X) ≤ _
  rw [e1]
  refine (fro_triangle _ _).trans (add_le_add le_rfl ((fro_mul_le _ _).trans ?_))
  exact mul_le_mul_of_nonneg_left f4 (fro_nonneg _)

end Parla.Props
