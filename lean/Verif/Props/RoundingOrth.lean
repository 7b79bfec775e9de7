import Verif.Props.RoundingSVD
import Verif.Props.RoundingWitness
import Verif.Proof.RoundingOrth

/-! # C81: orthonormality of the blocked QB with rounding errors -/

namespace Parla.Props

open Matrix Parla Spec Parla.Proof

variable {G : Type} {m n : ℕ}

/-- Given the columns found so far and the arrays the rangefinder returns next: every one of them, once the columns before it
are projected out, keeps all its singular values at least `σ`. -/
def WellProjected (fl : FlAlg) (σ : ℝ) : {c : ℕ} → Matrix (Fin m) (Fin c) ℝ → List (Cols m) → Prop
  | _, _, [] => True
  | _, Q, out :: rest =>
    (∀ v, σ * norm2 v ≤ norm2 (projectOutFl fl out.mat Q *ᵥ v)) ∧
      WellProjected fl σ (hcat Q (fl.qr (projectOutFl fl out.mat Q)).1) rest

/-- the columns after projecting and orthonormalising each of a list of blocks -/
def stackQ (fl : FlAlg) : Cols m → List (Cols m) → Cols m
  | Q, [] => Q
  | Q, out :: rest => stackQ fl ⟨_, hcat Q.mat (fl.qr (projectOutFl fl out.mat Q.mat)).1⟩ rest

theorem stackQ_c (fl : FlAlg) (l : List (Cols m)) : ∀ Q : Cols m, Q.c ≤ (stackQ fl Q l).c := by
  induction l with
  | nil => intro Q; exact le_rfl
  | cons o l ih =>
    intro Q
    have := ih ⟨_, hcat Q.mat (fl.qr (projectOutFl fl o.mat Q.mat)).1⟩
    exact (Nat.le_add_right Q.c _).trans this

theorem froSq_gram_hcat {a b : ℕ} (Q : Matrix (Fin m) (Fin a) ℝ) (R : Matrix (Fin m) (Fin b) ℝ) :
    froSq ((hcat Q R)ᵀ * hcat Q R - 1) = froSq (Qᵀ * Q - 1) + froSq (Qᵀ * R) + froSq (Qᵀ * R) + froSq (Rᵀ * R - 1) := by
  have h4 : froSq (Qᵀ * R) = froSq (Rᵀ * Q) := by
    rw [← froSq_transpose, transpose_mul, transpose_transpose]
  have h11 : ∀ i j, ((hcat Q R)ᵀ * hcat Q R - 1 : Matrix (Fin (a + b)) (Fin (a + b)) ℝ) (Fin.castAdd b i) (Fin.castAdd b j) = (Qᵀ * Q - 1 : Matrix (Fin a) (Fin a) ℝ) i j := fun i j => by
    simp [Matrix.sub_apply, Matrix.mul_apply, Matrix.one_apply]
  have h12 : ∀ i j, ((hcat Q R)ᵀ * hcat Q R - 1 : Matrix (Fin (a + b)) (Fin (a + b)) ℝ) (Fin.castAdd b i) (Fin.natAdd a j) = (Qᵀ * R) i j := fun i j => by
    have : (1 : Matrix (Fin (a + b)) (Fin (a + b)) ℝ) (Fin.castAdd b i) (Fin.natAdd a j) = 0 :=
      Matrix.one_apply_ne (fun h => by have := congrArg Fin.val h; simp at this; omega)
    rw [Matrix.sub_apply, this]
    simp [Matrix.mul_apply]
  have h21 : ∀ i j, ((hcat Q R)ᵀ * hcat Q R - 1 : Matrix (Fin (a + b)) (Fin (a + b)) ℝ) (Fin.natAdd a i) (Fin.castAdd b j) = (Rᵀ * Q) i j := fun i j => by
    have : (1 : Matrix (Fin (a + b)) (Fin (a + b)) ℝ) (Fin.natAdd a i) (Fin.castAdd b j) = 0 :=
      Matrix.one_apply_ne (fun h => by have := congrArg Fin.val h; simp at this; omega)
    rw [Matrix.sub_apply, this]
    simp [Matrix.mul_apply]
  have h22 : ∀ i j, ((hcat Q R)ᵀ * hcat Q R - 1 : Matrix (Fin (a + b)) (Fin (a + b)) ℝ) (Fin.natAdd a i) (Fin.natAdd a j) = (Rᵀ * R - 1 : Matrix (Fin b) (Fin b) ℝ) i j := fun i j => by
    simp [Matrix.sub_apply, Matrix.mul_apply, Matrix.one_apply]
  nth_rewrite 2 [h4]
  unfold froSq
  rw [Fin.sum_univ_add]
  simp only [Fin.sum_univ_add, h11, h12, h21, h22, Finset.sum_add_distrib]
  ring

theorem fro_gram_hcat {a b : ℕ} (Q : Matrix (Fin m) (Fin a) ℝ) (R : Matrix (Fin m) (Fin b) ℝ) :
    fro ((hcat Q R)ᵀ * hcat Q R - 1) ≤ fro (Qᵀ * Q - 1) + 2 * fro (Qᵀ * R) + fro (Rᵀ * R - 1) := by
  have e := froSq_gram_hcat Q R
  have a0 := fro_nonneg (Qᵀ * Q - 1)
  have b0 := fro_nonneg (Qᵀ * R)
  have d0 := fro_nonneg (Rᵀ * R - 1)
  rw [fro_le_iff_sq (by linarith), e, ← fro_sq, ← fro_sq, ← fro_sq]
  nlinarith [mul_nonneg a0 b0, mul_nonneg a0 d0, mul_nonneg b0 d0]

/-- loss of orthonormality along a list of blocks -/
theorem stackQ_orth {fl : FlAlg} {N : ℕ} {ε q σ : ℝ} (hfl : fl.Accurate N ε) (hε : 0 ≤ ε) (hε1 : ε ≤ 1) (hm : m ≤ N)
    (hσ : 0 < σ) (hq1 : 1 ≤ q) (hσε : 20 * ε * q ^ 3 ≤ σ) (l : List (Cols m)) :
    ∀ (Q : Cols m) (δ : ℝ), (∀ o ∈ l, fro o.mat ≤ q ∧ o.c ≤ N) → (stackQ fl Q l).c ≤ N →
      (1 + ε) * Real.sqrt (stackQ fl Q l).c ≤ q → (∀ j, |norm2 (fun i => Q.mat i j) - 1| ≤ ε) →
      fro (Q.matᵀ * Q.mat - 1) ≤ δ → WellProjected fl σ Q.mat l →
      fro ((stackQ fl Q l).matᵀ * (stackQ fl Q l).mat - 1) ≤
        (1 + 4 * q ^ 3 / σ) ^ l.length * (δ + l.length * (18 * q ^ 2 * ε)) := by
  induction l with
  | nil =>
    intro Q δ _ _ _ _ hδ _
    rw [List.length_nil, pow_zero, Nat.cast_zero, zero_mul, add_zero, one_mul]
    exact hδ
  | cons o l ih =>
    intro Q δ ho hN hcq hcol hδ hwp
    obtain ⟨hlow, hwp⟩ := hwp
    have hq0 : 0 ≤ q := by linarith
    obtain ⟨W, hW⟩ : ∃ W, W = projectOutFl fl o.mat Q.mat := ⟨_, rfl⟩
    rw [← hW] at hlow
    obtain ⟨hon, hoc⟩ := ho o (List.mem_cons_self ..)
    obtain ⟨Q', hQ', hQi, hR⟩ := hfl.qr W hm hoc
    obtain ⟨Qn, hQn⟩ : ∃ Qn : Cols m, Qn = ⟨_, hcat Q.mat (fl.qr W).1⟩ := ⟨_, rfl⟩
    have hst : stackQ fl Q (o :: l) = stackQ fl Qn l := by rw [hQn, hW]; rfl
    rw [hst] at hN hcq ⊢
    have hcn : Q.c + min m o.c ≤ (stackQ fl Qn l).c := by
      have := stackQ_c fl l Qn
      rw [hQn] at this ⊢
      exact this
    have hQc : Q.c ≤ N := by omega
    have hmono : ∀ a : ℕ, a ≤ (stackQ fl Qn l).c → (1 + ε) * Real.sqrt a ≤ q := fun a ha =>
      (mul_le_mul_of_nonneg_left (Real.sqrt_le_sqrt (by exact_mod_cast ha)) (by linarith)).trans hcq
    have hQn' : fro Q.mat ≤ q := (fro_of_cols hε hcol).trans (hmono _ (by omega))
    have hpq : Real.sqrt (min m o.c : ℕ) ≤ q := by
      have := hmono (min m o.c) (by omega)
      nlinarith [Real.sqrt_nonneg ((min m o.c : ℕ) : ℝ)]
    obtain ⟨g1, g2⟩ := round_projectOut (O := o.mat) (Q := Q.mat) (T := fl.mul Q.matᵀ o.mat)
      (P := fl.mul Q.mat (fl.mul Q.matᵀ o.mat)) (W := W) hε hε1 hq1 hon hQn' (hfl.mul _ _ hQc hm hoc)
      (hfl.mul _ _ hm hQc hoc) (by rw [hW]; exact hfl.sub _ _ hm hoc)
    have g3 := round_cross hε hε1 hq1 (min_le_right _ _) hσ hσε hpq hon hQn' hδ g1 g2 hlow hQ' hQi hR
    have g4 := gram_near_orth hQ' hQi
    have g5 := fro_gram_hcat Q.mat (fl.qr W).1
    have hδ0 : 0 ≤ δ := (fro_nonneg _).trans hδ
    obtain ⟨κ, hκ⟩ : ∃ κ, κ = 1 + 4 * q ^ 3 / σ := ⟨_, rfl⟩
    have hκ1 : 1 ≤ κ := by rw [hκ]; have : 0 ≤ 4 * q ^ 3 / σ := by positivity
                           linarith
    have hg0 : 0 ≤ 18 * q ^ 2 * ε := by positivity
    have hδ' : fro (Qn.matᵀ * Qn.mat - 1) ≤ κ * (δ + 18 * q ^ 2 * ε) := by
      rw [hQn]
      refine g5.trans ?_
      have e1 : 2 * (2 * q / σ * (δ * q ^ 2 + 18 * ε * q ^ 4)) = 4 * q ^ 3 / σ * (δ + 18 * q ^ 2 * ε) := by ring
      have e2 : κ * (δ + 18 * q ^ 2 * ε) = (δ + 18 * q ^ 2 * ε) + 4 * q ^ 3 / σ * (δ + 18 * q ^ 2 * ε) := by rw [hκ]; ring
      have h1 : (2 + ε) * ε ≤ 3 * ε := by nlinarith
      have h2 : 2 * (q * ε) + 3 * ε ≤ 18 * q ^ 2 * ε := by
        have : 2 * q + 3 ≤ 18 * q ^ 2 := by nlinarith
        nlinarith
      linarith
    have := ih Qn (κ * (δ + 18 * q ^ 2 * ε)) (fun o' h' => ho o' (List.mem_cons_of_mem _ h')) hN hcq (by
      rw [hQn]
      intro j
      refine Fin.addCases (fun j => ?_) (fun j => ?_) j
      · have : (fun i => hcat Q.mat (fl.qr W).1 i (Fin.castAdd _ j)) = fun i => Q.mat i j := by funext i; simp
        rw [this]; exact hcol j
      · have : (fun i => hcat Q.mat (fl.qr W).1 i (Fin.natAdd _ j)) = fun i => (fl.qr W).1 i j := by funext i; simp
        rw [this]; exact col_near_orth hQ' hQi j) hδ' (by rw [hQn, hW]; exact hwp)
    refine this.trans ?_
    rw [← hκ, List.length_cons]
    have hp : 0 ≤ κ ^ l.length := by positivity
    have e : κ ^ (l.length + 1) * (δ + (l.length + 1 : ℕ) * (18 * q ^ 2 * ε)) =
        κ ^ l.length * (κ * (δ + 18 * q ^ 2 * ε) + l.length * (18 * q ^ 2 * ε)) +
        κ ^ l.length * ((κ - 1) * (l.length * (18 * q ^ 2 * ε))) := by push_cast; ring
    rw [e]
    have : 0 ≤ κ ^ l.length * ((κ - 1) * (l.length * (18 * q ^ 2 * ε))) :=
      mul_nonneg hp (mul_nonneg (by linarith) (mul_nonneg (Nat.cast_nonneg _) hg0))
    linarith

theorem qb2LoopFl_stack {fl : FlAlg} {rf : RangeFinder G} {k : ℕ} {useTol : Prop} {ast : ℝ} (P : Cols m → Prop)
    (hP : ∀ A k tol w out w', rf m n A k tol w = .ok (out, w') → P out) (fuel : ℕ) :
    ∀ (st st' : QB2St m n) (w w' : World G), qb2LoopFl fl rf k useTol ast fuel st w = .ok (st', w') →
      ∃ l : List (RFCall m n), st'.calls = st.calls ++ l ∧ (∀ x ∈ l, P x.out) ∧
        (⟨st'.c, st'.Q⟩ : Cols m) = stackQ fl ⟨st.c, st.Q⟩ (l.map (·.out)) := by
  induction fuel with
  | zero => intro st st' w w' h; cases h
  | succ fuel ih =>
    intro st st' w w' h
    unfold qb2LoopFl at h
    rw [Py.bind_ok_iff] at h
    obtain ⟨out, wd, hd, h⟩ := h
    obtain ⟨v, h1, rfl⟩ := qb2Draw_ok_iff.1 hd
    have one : ∃ l : List (RFCall m n), (qb2UpdateFl fl (qb2Blk k st.c st.blk) st out).calls = st.calls ++ l ∧
        (∀ x ∈ l, P x.out) ∧ (⟨_, (qb2UpdateFl fl (qb2Blk k st.c st.blk) st out).Q⟩ : Cols m) =
          stackQ fl ⟨st.c, st.Q⟩ (l.map (·.out)) :=
      ⟨[⟨st.A, qb2Blk k st.c st.blk, out⟩], rfl, fun x hx => by
        rw [List.mem_singleton] at hx; rw [hx]; exact hP _ _ _ _ _ _ h1, rfl⟩
    split_ifs at h with h2 h3
    · cases h; exact one
    · cases h; exact one
    · obtain ⟨l, e1, e2, e3⟩ := ih _ _ _ _ h
      refine ⟨⟨st.A, qb2Blk k st.c st.blk, out⟩ :: l, ?_, ?_, ?_⟩
      · rw [e1]
        change (st.calls ++ [_]) ++ l = _
        rw [List.append_assoc]; rfl
      · intro x hx
        rcases List.mem_cons.1 hx with rfl | hx
        · exact hP _ _ _ _ _ _ h1
        · exact e2 x hx
      · rw [e3]; rfl

/-- **C81** (orthonormality of `qb_b` with rounding errors).  Say that after projection every block the rangefinder delivered
keeps its singular values at least `σ`, and that rounding is small against that (`20 ε q³ ≤ σ`, `q = 2 + √c`).  Then the
returned `Q` is orthonormal up to `18 q² ε t κ^t`, where `t` is the number of blocks and `κ = 1 + 4 q³ / σ`. -/
theorem C81_orth {fl : FlAlg} {N : ℕ} {ε : ℝ} (hfl : fl.Accurate N ε) (hε : 0 ≤ ε) (hm : m ≤ N) (hn : n ≤ N)
    (gen : SkOpGen G) (p : ℤ) (blk : ℕ) (o : Bool) (A : Matrix (Fin m) (Fin n) ℝ) (k : ℤ) (tol : Tol) (w w' : World G)
    (out : QBOut m n) (A' : Matrix (Fin m) (Fin n) ℝ) (h : qbBFl fl gen p blk o A k tol w = .ok ((out, A'), w'))
    (hθ1 : 7 * (2 + Real.sqrt out.c) * ε ≤ 1) :
    ∃ st : QB2St m n, qb2RunFl fl (RF1Fl fl (RS1Fl fl gen (p - 2) (orthFl fl) 1)) blk A k tol w = .ok (st, w') ∧
      out = ⟨st.c, st.Q, st.B⟩ ∧ st.calls.length ≤ out.c ∧
      ∀ σ q, 0 < σ → q = 2 + Real.sqrt out.c → 20 * ε * q ^ 3 ≤ σ →
        WellProjected fl σ (0 : Matrix (Fin m) (Fin 0) ℝ) (st.calls.map (·.out)) →
        fro (out.Qᵀ * out.Q - 1) ≤ 18 * q ^ 2 * ε * st.calls.length * (1 + 4 * q ^ 3 / σ) ^ st.calls.length := by
  have hs0 : 0 ≤ Real.sqrt out.c := Real.sqrt_nonneg _
  have hε1 : ε ≤ 1 := by nlinarith
  unfold qbBFl qb2CallFl at h
  rw [Py.bind_ok_iff] at h
  obtain ⟨st, v, h1, h⟩ := h
  have hv : v = w' := by cases h; rfl
  have hout : out = ⟨st.c, st.Q, st.B⟩ := by cases h; rfl
  clear h
  subst hv hout
  have h0 := h1
  unfold qb2RunFl at h1
  rw [Py.bind_ok_iff] at h1
  obtain ⟨-, v1, -, h1⟩ := h1
  rw [Py.bind_ok_iff] at h1
  obtain ⟨k', v2, hk', h1⟩ := h1
  rw [Py.bind_ok_iff] at h1
  obtain ⟨-, v3, -, h1⟩ := h1
  have hkk : k' = min k (min m n : ℕ) := by
    split_ifs at hk' with hc
    · cases hk'; omega
    · rw [Py.bind_ok_iff] at hk'
      obtain ⟨-, v4, -, hk'⟩ := hk'
      cases hk'; omega
  have hcle : st.c ≤ k'.toNat := qb2LoopFl_le (fun A k tol w Q w' hQ => by
      obtain ⟨h1, h2, S, v, v', -, -, hS, rfl⟩ := RF1Fl_open hQ
      have := RS1Fl_width (by omega) (by omega) (by omega) hS
      change ((min m S.c : ℕ) : ℤ) ≤ k
      omega) _ _ _ _ _ (Nat.zero_le _) h1
  obtain ⟨l, e1, e2, e3⟩ := qb2LoopFl_stack (fun Q => 1 ≤ min m Q.c ∧ Q.c ≤ N ∧ fro Q.mat ≤ Real.sqrt (min m Q.c : ℕ) + 1)
    (fun A k tol w Q w' hQ => by
      obtain ⟨h1, h2, S, v, v', -, -, hS, rfl⟩ := RF1Fl_open hQ
      have hw := RS1Fl_width (by omega) (by omega) (by omega) hS
      obtain ⟨Q', hQ', hQd, -⟩ := hfl.qr (fl.mul A S.mat) hm (by omega)
      have := fro_near_orth hQ' hQd
      refine ⟨?_, ?_, ?_⟩
      · change 1 ≤ min m (min m S.c); omega
      · change min m S.c ≤ N; omega
      · change fro (fl.qr (fl.mul A S.mat)).1 ≤ Real.sqrt (min m (min m S.c) : ℕ) + 1
        rw [show min m (min m S.c) = min m S.c by omega]
        linarith) _ _ _ _ _ h1
  have e1' : st.calls = l := e1
  subst e1'
  -- widths
  have width : ∀ (l : List (Cols m)) (Q : Cols m), (∀ x ∈ l, 1 ≤ min m x.c) → Q.c + l.length ≤ (stackQ fl Q l).c ∧
      ∀ x ∈ l, min m x.c ≤ (stackQ fl Q l).c := by
    intro l
    induction l with
    | nil => intro Q _; exact ⟨le_rfl, fun x hx => absurd hx List.not_mem_nil⟩
    | cons x l ih =>
      intro Q hx
      obtain ⟨i1, i2⟩ := ih ⟨_, hcat Q.mat (fl.qr (projectOutFl fl x.mat Q.mat)).1⟩
        fun y hy => hx y (List.mem_cons_of_mem _ hy)
      have hx1 := hx x (List.mem_cons_self ..)
      change Q.c + min m x.c + l.length ≤ _ at i1
      have hl : (x :: l).length = l.length + 1 := rfl
      refine ⟨?_, fun y hy => ?_⟩
      · change Q.c + (x :: l).length ≤ (stackQ fl ⟨_, hcat Q.mat (fl.qr (projectOutFl fl x.mat Q.mat)).1⟩ l).c
        omega
      · change min m y.c ≤ (stackQ fl ⟨_, hcat Q.mat (fl.qr (projectOutFl fl x.mat Q.mat)).1⟩ l).c
        rcases List.mem_cons.1 hy with rfl | hy
        · omega
        · exact i2 y hy
  obtain ⟨w1, w2⟩ := width (st.calls.map (·.out)) ⟨0, 0⟩ (fun x hx => by
    obtain ⟨y, hy, rfl⟩ := List.mem_map.1 hx
    exact (e2 y hy).1)
  have e3' : (⟨st.c, st.Q⟩ : Cols m) = stackQ fl ⟨0, 0⟩ (st.calls.map (·.out)) := e3
  have ec : (stackQ fl ⟨0, 0⟩ (st.calls.map (·.out))).c = st.c := by rw [← e3']
  rw [ec] at w1 w2
  rw [List.length_map] at w1
  change 0 + st.calls.length ≤ st.c at w1
  refine ⟨st, h0, rfl, by change st.calls.length ≤ st.c; omega, fun σ q hσ hq hσε hwp => ?_⟩
  change q = 2 + Real.sqrt st.c at hq
  change 0 ≤ Real.sqrt st.c at hs0
  change 7 * (2 + Real.sqrt st.c) * ε ≤ 1 at hθ1
  have key := stackQ_orth hfl hε hε1 hm hσ (q := q) (by linarith) hσε (st.calls.map (·.out)) ⟨0, 0⟩ 0 (fun x hx => by
      have := w2 x hx
      obtain ⟨y, hy, rfl⟩ := List.mem_map.1 hx
      obtain ⟨-, f1, f2⟩ := e2 y hy
      refine ⟨f2.trans ?_, f1⟩
      have := Real.sqrt_le_sqrt (show ((min m y.out.c : ℕ) : ℝ) ≤ st.c by exact_mod_cast this)
      linarith) (by rw [ec]; omega) (by rw [ec, hq]; nlinarith) (fun j => j.elim0)
      (by
        have : fro (((0 : Matrix (Fin m) (Fin 0) ℝ))ᵀ * (0 : Matrix (Fin m) (Fin 0) ℝ) - 1) = 0 := by simp [fro, froSq]
        exact this.le) hwp
  rw [← e3', List.length_map] at key
  change fro (st.Qᵀ * st.Q - 1) ≤ _ at key ⊢
  refine key.trans (le_of_eq ?_)
  ring

/-! ### Without the condition on the blocks -/

/-- first unit vector as a column -/
def unit1 : Matrix (Fin 2) (Fin 1) ℝ := Matrix.of fun i _ => if i.1 = 0 then 1 else 0

theorem unit1_orth : unit1ᵀ * unit1 = 1 := by
  ext i j
  fin_cases i; fin_cases j
  simp [unit1, Matrix.mul_apply, Fin.sum_univ_two]

/-- a column that is plus or minus the first unit vector -/
def Along (V : Matrix (Fin 2) (Fin 1) ℝ) : Prop := ∃ z : ℝ, z ^ 2 = 1 ∧ V = z • unit1

theorem Along.proj {Q V : Matrix (Fin 2) (Fin 1) ℝ} (hQ : Along Q) (hV : ∃ z : ℝ, V = z • unit1) : Q * (Qᵀ * V) = V := by
  obtain ⟨z, hz, rfl⟩ := hQ
  obtain ⟨y, rfl⟩ := hV
  simp only [transpose_smul, Matrix.smul_mul, Matrix.mul_smul, unit1_orth, Matrix.mul_one, smul_smul]
  congr 1
  linear_combination y * hz

theorem along_qr {s : ℝ} (hs : s ≠ 0) : Along (LinAlg.ref.qr (s • unit1)).1 := by
  obtain ⟨Q, hQ⟩ : ∃ Q : Matrix (Fin 2) (Fin 1) ℝ, Q = (LinAlg.ref.qr (s • unit1)).1 := ⟨_, rfl⟩
  obtain ⟨R, hR⟩ : ∃ R : Matrix (Fin 1) (Fin 1) ℝ, R = (LinAlg.ref.qr (s • unit1)).2 := ⟨_, rfl⟩
  have h1 : Q * R = s • unit1 := by rw [hQ, hR]; exact LinAlg.ref.qr_mul _
  have h2 : Qᵀ * Q = 1 := by rw [hQ]; exact LinAlg.ref.qr_orth _
  have e0 : Q 0 0 * R 0 0 = s := by
    have := congrFun (congrFun h1 0) 0
    simpa [Matrix.mul_apply, unit1] using this
  have e1 : Q 1 0 * R 0 0 = 0 := by
    have := congrFun (congrFun h1 1) 0
    simpa [Matrix.mul_apply, unit1] using this
  have e2 : Q 0 0 * Q 0 0 + Q 1 0 * Q 1 0 = 1 := by
    have := congrFun (congrFun h2 0) 0
    simpa [Matrix.mul_apply, Fin.sum_univ_two] using this
  have hr : R 0 0 ≠ 0 := fun h => hs (by rw [← e0, h, mul_zero])
  have hq : Q 1 0 = 0 := (mul_eq_zero.1 e1).resolve_right hr
  change Along (LinAlg.ref.qr (s • unit1)).1
  refine ⟨Q 0 0, by rw [hq] at e2; linarith, ?_⟩
  rw [← hQ]
  ext i j
  fin_cases j
  fin_cases i
  · simp [unit1]
  · simpa [unit1] using hq

theorem hcat_zero_one (Q : Matrix (Fin 2) (Fin 1) ℝ) : hcat (0 : Matrix (Fin 2) (Fin 0) ℝ) Q = Q := by
  ext i j
  have hj : j = Fin.natAdd 0 (0 : Fin 1) := Subsingleton.elim (α := Fin 1) _ _
  rw [hj]
  simp [hcat]
  rfl

/-- **C81** (no orthonormality in general).  However accurate the arithmetic is required to be, that alone does not make the
`Q` of `qb_b` orthonormal: for every `ε > 0` there is arithmetic accurate to `ε` for arrays of all sizes, and a call (on a
matrix whose rank is below the target rank) that returns a `Q` of two columns which are equal up to sign, `‖Q'Q - I‖ ≥ 1`. -/
theorem C81_orth_fails (ε : ℝ) (hε : 0 < ε) : ∃ fl : FlAlg, (∀ N, fl.Accurate N ε) ∧
    ∃ out w', qbBFl fl (idGen (G := ℕ)) 2 1 false (!![3, 0; 0, 0] : Matrix (Fin 2) (Fin 2) ℝ) 2 .nan ⟨0, 0, []⟩ = .ok (out, w') ∧
      out.1.c = 2 ∧ 1 ≤ fro (out.1.Qᵀ * out.1.Q - 1) := by
  obtain ⟨fl, hfl⟩ : ∃ fl, fl = inflated LinAlg.ref ε := ⟨_, rfl⟩
  refine ⟨fl, fun N => hfl ▸ inflated_accurate _ hε.le N, ?_⟩
  obtain ⟨A, hA⟩ : ∃ A, A = (!![3, 0; 0, 0] : Matrix (Fin 2) (Fin 2) ℝ) := ⟨_, rfl⟩
  obtain ⟨S, hS⟩ : ∃ S, S = (Matrix.of fun i j => if i.1 = j.1 then 1 else 0 : Matrix (Fin 2) (Fin 1) ℝ) := ⟨_, rfl⟩
  obtain ⟨τ, hτ⟩ : ∃ τ, τ = (1 + ε) * (1 - (1 + ε) * (1 + ε)) := ⟨_, rfl⟩
  have hτ0 : τ ≠ 0 := by rw [hτ]; refine mul_ne_zero (by linarith) ?_; nlinarith
  have hone : (1 + ε) ≠ 0 := by linarith
  rw [← hA]
  have hAS : A * S = (3 : ℝ) • unit1 := by
    rw [hA, hS]; ext i j; fin_cases i <;> fin_cases j <;> simp [Matrix.mul_apply, unit1]
  have hAu : A = unit1 * (!![3, 0] : Matrix (Fin 1) (Fin 2) ℝ) := by
    rw [hA]; ext i j; fin_cases i <;> fin_cases j <;> simp [Matrix.mul_apply, unit1]
  have hAproj : ∀ Q, Along Q → Q * (Qᵀ * A) = A := fun Q hQ => by
    have h1 := hQ.proj (V := unit1) ⟨1, (one_smul _ _).symm⟩
    rw [hAu, ← Matrix.mul_assoc Qᵀ, ← Matrix.mul_assoc Q, h1]
  have hrf : ∀ (a : ℝ) (w : World ℕ), RF1Fl fl (RS1Fl fl (idGen (G := ℕ)) (2 - 2) (orthFl fl) 1) 2 2 (a • A) 1 .nan w =
      .ok (⟨1, (LinAlg.ref.qr (((1 + ε) * (a * 3)) • unit1)).1⟩, ⟨w.rng, w.warns, w.trace ++ [.mulA]⟩) := fun a w => by
    have : ((1 + ε) * (a * 3)) • unit1 = (1 + ε) • ((a • A) * S) := by
      rw [Matrix.smul_mul, hAS, smul_smul, smul_smul, mul_assoc]
    rw [this, hfl, hS]; rfl
  obtain ⟨O1, hO1⟩ : ∃ O : Matrix (Fin 2) (Fin 1) ℝ, O = (LinAlg.ref.qr (((1 + ε) * (1 * 3)) • unit1)).1 := ⟨_, rfl⟩
  obtain ⟨O2, hO2⟩ : ∃ O : Matrix (Fin 2) (Fin 1) ℝ, O = (LinAlg.ref.qr (((1 + ε) * (τ * 3)) • unit1)).1 := ⟨_, rfl⟩
  have a1 : Along O1 := by rw [hO1]; exact along_qr (by norm_num; exact hone)
  have a2 : Along O2 := by rw [hO2]; exact along_qr (mul_ne_zero hone (mul_ne_zero hτ0 (by norm_num)))
  -- first block
  obtain ⟨Q1, hQ1⟩ : ∃ Q : Matrix (Fin 2) (Fin 1) ℝ, Q = (fl.qr (projectOutFl fl O1 (0 : Matrix (Fin 2) (Fin 0) ℝ))).1 := ⟨_, rfl⟩
  have b1 : Along Q1 := by
    obtain ⟨z, hz, hz'⟩ := a1
    have : projectOutFl fl O1 (0 : Matrix (Fin 2) (Fin 0) ℝ) = ((1 + ε) * z) • unit1 := by
      rw [hfl]
      change (1 + ε) • (O1 - (1 + ε) • ((0 : Matrix (Fin 2) (Fin 0) ℝ) * _)) = _
      rw [Matrix.zero_mul, smul_zero, sub_zero, hz', smul_smul]
    rw [hQ1, this, hfl]
    exact along_qr (mul_ne_zero hone (fun h => by rw [h] at hz; norm_num at hz))
  have hA1 : fl.sub A (fl.mul Q1 (fl.mul Q1ᵀ A)) = τ • A := by
    rw [hfl]
    change (1 + ε) • (A - (1 + ε) • (Q1 * ((1 + ε) • (Q1ᵀ * A)))) = _
    rw [Matrix.mul_smul, hAproj Q1 b1, smul_smul, hτ]
    module
  -- second block
  obtain ⟨Q2, hQ2⟩ : ∃ Q : Matrix (Fin 2) (Fin 1) ℝ, Q = (fl.qr (projectOutFl fl O2 Q1)).1 := ⟨_, rfl⟩
  have b2 : Along Q2 := by
    have hp := b1.proj (V := O2) (by obtain ⟨z, -, hz⟩ := a2; exact ⟨z, hz⟩)
    obtain ⟨z, hz, hz'⟩ := a2
    have : projectOutFl fl O2 Q1 = (τ * z) • unit1 := by
      rw [hfl]
      change (1 + ε) • (O2 - (1 + ε) • (Q1 * ((1 + ε) • (Q1ᵀ * O2)))) = _
      rw [Matrix.mul_smul, hp, smul_smul, hz', hτ]
      module
    rw [hQ2, this, hfl]
    exact along_qr (mul_ne_zero hτ0 (fun h => by rw [h] at hz; norm_num at hz))
  obtain ⟨st1, hst1⟩ : ∃ st1, st1 = qb2UpdateFl fl 1 (qb2InitFl fl A 1) ⟨1, O1⟩ := ⟨_, rfl⟩
  have hst1A : st1.A = τ • A := by
    rw [hst1, ← hA1, hQ1]; rfl
  have hloop : qb2LoopFl fl (RF1Fl fl (RS1Fl fl (idGen (G := ℕ)) (2 - 2) (orthFl fl) 1)) 2 (Tol.nan).use
      (absSqTolFl fl .nan A) (2 + 1) (qb2InitFl fl A 1) ⟨0, 0, []⟩ =
      .ok (qb2UpdateFl fl 1 st1 ⟨1, O2⟩, ⟨0, 0, [.mulA, .mulAT, .mulA, .mulAT]⟩) := by
    have h1 := hrf 1 ⟨0, 0, []⟩
    rw [one_smul, ← hO1] at h1
    have h2 := hrf τ ⟨0, 0, [.mulA, .mulAT]⟩
    rw [← hO2, ← hst1A] at h2
    have second : qb2LoopFl fl (RF1Fl fl (RS1Fl fl (idGen (G := ℕ)) (2 - 2) (orthFl fl) 1)) 2 (Tol.nan).use
        (absSqTolFl fl .nan A) 2 st1 ⟨0, 0, [.mulA, .mulAT]⟩ =
        .ok (qb2UpdateFl fl 1 st1 ⟨1, O2⟩, ⟨0, 0, [.mulA, .mulAT, .mulA, .mulAT]⟩) := by
      unfold qb2LoopFl
      have hb : qb2Blk 2 st1.c st1.blk = 1 := by rw [hst1]; rfl
      dsimp only
      rw [hb]
      refine (Py.bind_eq_of_ok (qb2Draw_of_ok h2)).trans ?_
      refine (congrFun (if_neg (by simp [Tol.use])) _).trans ?_
      refine (congrFun (if_pos (by rw [hst1]; exact le_rfl)) _).trans ?_
      rfl
    unfold qb2LoopFl
    refine (Py.bind_eq_of_ok (qb2Draw_of_ok h1)).trans ?_
    refine (congrFun (if_neg (by simp [Tol.use])) _).trans ?_
    refine (congrFun (if_neg (by change ¬ 1 ≥ 2; norm_num)) _).trans ?_
    exact (hst1 ▸ second)
  have hrun : qb2RunFl fl (RF1Fl fl (RS1Fl fl (idGen (G := ℕ)) (2 - 2) (orthFl fl) 1)) 1 A 2 .nan ⟨0, 0, []⟩ =
      .ok (qb2UpdateFl fl 1 st1 ⟨1, O2⟩, ⟨0, 0, [.mulA, .mulAT, .mulA, .mulAT]⟩) := hloop
  refine ⟨_, _, (by unfold qbBFl qb2CallFl; rw [Py.bind_eq_of_ok hrun]; rfl), by rw [hst1]; rfl, ?_⟩
  have hc : froSq (st1.Qᵀ * (fl.qr (projectOutFl fl O2 st1.Q)).1) = 1 := by
    have e1 : st1 = qb2UpdateFl fl 1 (qb2InitFl fl A 1) ⟨1, O1⟩ := hst1
    have : froSq ((hcat (0 : Matrix (Fin 2) (Fin 0) ℝ) Q1)ᵀ * (fl.qr (projectOutFl fl O2 (hcat (0 : Matrix (Fin 2) (Fin 0) ℝ) Q1))).1) = 1 := by
      rw [hcat_zero_one]
      have : froSq (Q1ᵀ * Q2) = 1 := by
        obtain ⟨y, hy, rfl⟩ := b1
        obtain ⟨z, hz, hz'⟩ := b2
        rw [hz']
        simp only [transpose_smul, Matrix.smul_mul, Matrix.mul_smul, unit1_orth, smul_smul]
        have : froSq ((z * y) • (1 : Matrix (Fin 1) (Fin 1) ℝ)) = (z * y) ^ 2 := by
          unfold froSq; simp
        first | rw [this, mul_pow, hz, hy, one_mul] | (rw [mul_comm y z, this, mul_pow, hz, hy, one_mul])
      rw [← this, hQ2]
    subst hst1
    rw [← this, hQ1]
    rfl
  obtain ⟨V, hV⟩ : ∃ V, V = (fl.qr (projectOutFl fl O2 st1.Q)).1 := ⟨_, rfl⟩
  rw [← hV] at hc
  have hfin : 1 ≤ fro ((hcat st1.Q V)ᵀ * hcat st1.Q V - (1 : Matrix (Fin (st1.c + _)) (Fin (st1.c + _)) ℝ)) := by
    have hg := froSq_gram_hcat st1.Q V
    refine Real.le_sqrt_of_sq_le ?_
    rw [hc] at hg
    have p1 := froSq_nonneg (st1.Qᵀ * st1.Q - 1)
    have p2 := froSq_nonneg (Vᵀ * V - 1)
    nlinarith [hg, p1, p2]
  rw [hV] at hfin
  exact hfin

end Parla.Props
