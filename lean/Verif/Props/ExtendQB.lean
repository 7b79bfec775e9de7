import Verif.SpecExtend
import Verif.Props.QB2
import Verif.Props.QB3
import Verif.Props.Witness

/-! # C90: asking for more extends the answer - blocked QB

A blocked QB with a larger target rank or a tighter tolerance, from the same generator state, starts with the same
columns of `Q` and rows of `B`, and leaves a residual that is no larger. -/

namespace Parla.Props

open Matrix Parla Spec

variable {G : Type} {m n : ℕ}

theorem ExtendsQB.refl (o : QBOut m n) : ExtendsQB o o := ⟨le_rfl, fun _ _ => rfl, fun _ _ => rfl⟩

theorem ExtendsQB.trans {o o' o'' : QBOut m n} (h : ExtendsQB o o') (h' : ExtendsQB o' o'') : ExtendsQB o o'' := by
  obtain ⟨a, b, c⟩ := h
  obtain ⟨a', b', c'⟩ := h'
  refine ⟨a.trans a', fun i j => ?_, fun i j => ?_⟩
  · rw [← b, ← b']; rfl
  · rw [← c, ← c']; rfl

theorem extendsQB_cat {a b : ℕ} (Q : Matrix (Fin m) (Fin a) ℝ) (B : Matrix (Fin a) (Fin n) ℝ) (Q' : Matrix (Fin m) (Fin b) ℝ)
    (B' : Matrix (Fin b) (Fin n) ℝ) : ExtendsQB (⟨a, Q, B⟩ : QBOut m n) ⟨a + b, hcat Q Q', vcat B B'⟩ :=
  ⟨Nat.le_add_right _ _, fun i j => hcat_castAdd Q Q' i j, fun i j => vcat_castAdd B B' i j⟩

/-- what `st'` adds to `st` -/
private def After (st st' : QB2St m n) : Prop :=
  ExtendsQB (⟨st.c, st.Q, st.B⟩ : QBOut m n) ⟨st'.c, st'.Q, st'.B⟩ ∧ froSq st'.A ≤ froSq st.A

private theorem After.trans {s s' s'' : QB2St m n} (h : After s s') (h' : After s' s'') : After s s'' :=
  ⟨ExtendsQB.trans h.1 h'.1, h'.2.trans h.2⟩

private theorem after_update (la : LinAlg) (st : QB2St m n) (blk : ℕ) (out : Cols m) :
    After st (qb2Update la blk st out) := by
  refine ⟨extendsQB_cat _ _ _ _, ?_⟩
  change froSq (st.A - _ * (_ᵀ * st.A)) ≤ _
  rw [froSq_sub_proj (la.qr_orth _)]
  have := froSq_nonneg ((la.qr (projectOut out.mat st.Q)).1ᵀ * st.A)
  linarith

private theorem after_loop {la : LinAlg} {rf : RangeFinder G} {k : ℕ} {useTol : Prop} {tl : ℝ} {fuel : ℕ}
    {st st' : QB2St m n} {w w' : World G} (h : qb2Loop la rf k useTol tl fuel st w = .ok (st', w')) (hc : st.c < k) :
    After st st' :=
  (qb2Loop_ind (P := fun s => After st s) (fun s _ _ _ hs _ _ => hs.trans (after_update la s _ _)) fuel st st' w w' h hc
    ⟨ExtendsQB.refl _, le_rfl⟩).1

private theorem loop_extend {la : LinAlg} {rf : RangeFinder G} (hrf : RFShape rf m n) {k k' b : ℕ}
    (hkk : k ≤ k') (hk' : k' ≤ m) {u u' : Prop} {t t' : ℝ} (hu : u' → u ∧ t' ≤ t) (fuel : ℕ) :
    ∀ (fuel' : ℕ) (st s s' : QB2St m n) (w v v' : World G), st.c < k → st.blk = b →
      qb2Loop la rf k u t fuel st w = .ok (s, v) → qb2Loop la rf k' u' t' fuel' st w = .ok (s', v') →
      (k = k' ∨ (b ∣ k ∧ b ∣ st.c) ∨ s.c < k) → After s s' := by
  induction fuel with
  | zero => intro fuel' st s s' w v v' _ _ h; simp [qb2Loop] at h
  | succ fuel ih =>
    intro fuel' st s s' w v v' hc hblk h h' hcase
    cases fuel' with
    | zero => simp [qb2Loop] at h'
    | succ fuel' =>
      unfold qb2Loop at h h'
      rw [Py.bind_ok_iff] at h h'
      obtain ⟨out, wd, hd, h⟩ := h
      obtain ⟨out', wd', hd', h'⟩ := h'
      obtain ⟨w1, h1, e1⟩ := qb2Draw_ok_iff.1 hd
      have hw := hrf _ _ _ _ _ _ h1
      have hbk : qb2Blk k st.c st.blk ≤ k := by unfold qb2Blk; split <;> omega
      have hcc : (qb2Update la (qb2Blk k st.c st.blk) st out).c = st.c + qb2Blk k st.c st.blk := by
        change st.c + min m out.c = _
        omega
      have hle : s.c < k → (qb2Update la (qb2Blk k st.c st.blk) st out).c ≤ s.c := by
        intro hs
        by_cases c1 : u ∧ (qb2Update la (qb2Blk k st.c st.blk) st out).sqn ≤ t
        · rw [if_pos c1] at h; cases h; exact le_rfl
        · rw [if_neg c1] at h
          by_cases c2 : (qb2Update la (qb2Blk k st.c st.blk) st out).c ≥ k
          · rw [if_pos c2] at h; cases h; exact le_rfl
          · rw [if_neg c2] at h; exact (after_loop h (by omega)).1.1
      have hfit : k = k' ∨ st.c + b ≤ k := by
        rcases hcase with h0 | ⟨⟨x, hx⟩, ⟨y, hy⟩⟩ | h0
        · exact Or.inl h0
        · refine Or.inr ?_
          have : y < x := by
            rw [hx, hy] at hc
            exact lt_of_mul_lt_mul_left hc (Nat.zero_le b)
          calc st.c + b = b * (y + 1) := by rw [hy]; ring
            _ ≤ b * x := Nat.mul_le_mul_left _ this
            _ = k := hx.symm
        · refine Or.inr ?_
          by_contra hn
          have := hle h0
          rw [hcc] at this
          unfold qb2Blk at this
          rw [hblk, if_pos (by omega)] at this
          omega
      have hsame : qb2Blk k' st.c st.blk = qb2Blk k st.c st.blk := by
        rcases hfit with rfl | hfit
        · rfl
        · unfold qb2Blk
          rw [hblk, if_neg (by omega), if_neg (by omega)]
      rw [hsame] at hd' h'
      rw [hd] at hd'
      cases hd'
      obtain ⟨st1, hst1⟩ : ∃ x, x = qb2Update la (qb2Blk k st.c st.blk) st out := ⟨_, rfl⟩
      rw [← hst1] at h h' hle hcc
      have hstep : s = st1 → After s s' := by
        rintro rfl
        by_cases c1 : u' ∧ s.sqn ≤ t'
        · rw [if_pos c1] at h'; cases h'; exact ⟨ExtendsQB.refl _, le_rfl⟩
        · rw [if_neg c1] at h'
          by_cases c2 : s.c ≥ k'
          · rw [if_pos c2] at h'; cases h'; exact ⟨ExtendsQB.refl _, le_rfl⟩
          · rw [if_neg c2] at h'; exact after_loop h' (by omega)
      by_cases c1 : u ∧ st1.sqn ≤ t
      · rw [if_pos c1] at h; cases h; exact hstep rfl
      · rw [if_neg c1] at h
        by_cases c2 : st1.c ≥ k
        · rw [if_pos c2] at h; cases h; exact hstep rfl
        · rw [if_neg c2] at h
          have c1' : ¬ (u' ∧ st1.sqn ≤ t') := fun hh => c1 ⟨(hu hh.1).1, hh.2.trans (hu hh.1).2⟩
          rw [if_neg c1', if_neg (by omega)] at h'
          have hfull : st.c + b ≤ k := by
            by_contra hn
            unfold qb2Blk at hcc
            rw [hblk, if_pos (by omega)] at hcc
            omega
          have hbb : qb2Blk k st.c st.blk = b := by
            unfold qb2Blk
            rw [hblk, if_neg (by omega)]
          refine ih fuel' st1 s s' _ v v' (by omega) (by rw [hst1]; exact hbb) h h' ?_
          rcases hcase with h0 | ⟨h0, h0'⟩ | h0
          · exact Or.inl h0
          · exact Or.inr (Or.inl ⟨h0, by rw [hcc, hbb]; exact Dvd.dvd.add h0' dvd_rfl⟩)
          · exact Or.inr (Or.inr h0)

theorem absSqTol_tighter {tol tol' : Tol} (ht : TighterTol tol' tol) (A : Matrix (Fin m) (Fin n) ℝ) (h : tol'.use) :
    tol.use ∧ absSqTol tol' A ≤ absSqTol tol A := by
  cases tol' with
  | nan => exact absurd h id
  | val t' =>
    have h' : 0 < t' := h
    cases tol with
    | nan => exact absurd ht (not_le.2 h')
    | val t =>
      have h1 : t' ≤ t := ht.resolve_left (not_le.2 h')
      exact ⟨h'.trans_le h1, mul_le_mul_of_nonneg_left (pow_le_pow_left₀ h'.le h1 2) (sq_nonneg _)⟩

/-- **C90** (QB2).  Two calls from the same generator state, the second with a target rank at least as large and a tolerance
at least as tight.  If the first call did not have to shorten its last block (the block size divides `k`, or it stopped
early because of the tolerance) or the target ranks agree, then the second answer extends the first: the same leading
columns of `Q`, the same leading rows of `B`, and a residual that is no larger. -/
theorem C90_qb2 (la : LinAlg) (rf : RangeFinder G) (hrf : RFShape rf m n) (blk : ℕ) (ow ow' : Bool)
    (A : Matrix (Fin m) (Fin n) ℝ) (hmn : 0 < min m n) (k k' : ℤ) (hkk : k ≤ k') (hk' : k' ≤ (min m n : ℕ)) (tol tol' : Tol)
    (ht : TighterTol tol' tol) (w v v' : World G) (o o' : QBOut m n) (A1 A1' : Matrix (Fin m) (Fin n) ℝ)
    (h : qb2Call la rf blk ow A k tol w = .ok ((o, A1), v)) (h' : qb2Call la rf blk ow' A k' tol' w = .ok ((o', A1'), v'))
    (hblk : k = k' ∨ (blk : ℤ) ∣ k ∨ (o.c : ℤ) < k) :
    ExtendsQB o o' ∧ fro (A - o'.Q * o'.B) ≤ fro (A - o.Q * o.B) := by
  unfold qb2Call at h h'
  rw [Py.bind_ok_iff] at h h'
  obtain ⟨s, w1, h1, h⟩ := h
  obtain ⟨s', w1', h1', h'⟩ := h'
  cases h
  cases h'
  have hk : 0 < k := by
    by_contra hn
    unfold qb2Run at h1
    rw [Py.assert_neg_bind hn] at h1
    cases h1
  rw [qb2Run_open _ hk, if_pos (by omega)] at h1
  rw [qb2Run_open _ (by omega), if_pos (by omega)] at h1'
  have e : clampK k m n = k.toNat := by unfold clampK; omega
  have e' : clampK k' m n = k'.toNat := by unfold clampK; omega
  rw [e] at h1
  rw [e'] at h1'
  have hinv : ∀ {K : ℕ} {u : Prop} {t : ℝ} {f : ℕ} {z : QB2St m n} {y y' : World G}, 0 < K →
      qb2Loop la rf K u t f (qb2Init A blk) y = .ok (z, y') → z.A = A - z.Q * z.B := fun hK hz =>
    (qb2Loop_ind (P := QB2Inv A) (fun _ _ _ _ hs _ _ => qb2Inv_update la hs _ _) _ _ _ _ _ hz hK (qb2Inv_init A blk)).1.1
  obtain ⟨a, b⟩ := loop_extend hrf (k := k.toNat) (k' := k'.toNat) (b := blk) (by omega) (by omega)
    (absSqTol_tighter ht A) _ _ _ _ _ _ _ _ (show (qb2Init A blk).c < k.toNat from by change 0 < _; omega) rfl h1 h1' (by
      rcases hblk with h0 | h0 | h0
      · exact Or.inl (by rw [h0])
      · refine Or.inr (Or.inl ⟨?_, dvd_zero _⟩)
        rw [← Int.natCast_dvd_natCast, Int.toNat_of_nonneg hk.le]
        exact h0
      · exact Or.inr (Or.inr (by change ((s.c : ℕ) : ℤ) < k at h0; omega)))
  refine ⟨a, ?_⟩
  rw [hinv (by omega) h1, hinv (by omega) h1'] at b
  exact Real.sqrt_le_sqrt b

private theorem loop_done {la : LinAlg} {rf : RangeFinder G} (hrf : RFShape rf m n) {k k' b : ℕ}
    (hkk : k ≤ k') (hk' : k' ≤ m) {u : Prop} {t : ℝ} (hu : u) (fuel : ℕ) :
    ∀ (fuel' : ℕ) (st s : QB2St m n) (w v : World G), fuel ≤ fuel' → st.c < k → st.blk = b →
      qb2Loop la rf k u t fuel st w = .ok (s, v) → s.sqn ≤ t →
      (k = k' ∨ (b ∣ k ∧ b ∣ st.c) ∨ s.c < k) → qb2Loop la rf k' u t fuel' st w = .ok (s, v) := by
  induction fuel with
  | zero => intro fuel' st s w v _ _ _ h; simp [qb2Loop] at h
  | succ fuel ih =>
    intro fuel' st s w v hf hc hblk h hs hcase
    cases fuel' with
    | zero => omega
    | succ fuel' =>
      unfold qb2Loop at h
      rw [Py.bind_ok_iff] at h
      obtain ⟨out, wd, hd, h⟩ := h
      obtain ⟨w1, h1, e1⟩ := qb2Draw_ok_iff.1 hd
      have hw := hrf _ _ _ _ _ _ h1
      have hbk : qb2Blk k st.c st.blk ≤ k := by unfold qb2Blk; split <;> omega
      have hcc : (qb2Update la (qb2Blk k st.c st.blk) st out).c = st.c + qb2Blk k st.c st.blk := by
        change st.c + min m out.c = _
        omega
      have hle : s.c < k → (qb2Update la (qb2Blk k st.c st.blk) st out).c ≤ s.c := by
        intro hs
        by_cases c1 : u ∧ (qb2Update la (qb2Blk k st.c st.blk) st out).sqn ≤ t
        · rw [if_pos c1] at h; cases h; exact le_rfl
        · rw [if_neg c1] at h
          by_cases c2 : (qb2Update la (qb2Blk k st.c st.blk) st out).c ≥ k
          · rw [if_pos c2] at h; cases h; exact le_rfl
          · rw [if_neg c2] at h; exact (after_loop h (by omega)).1.1
      have hfit : k = k' ∨ st.c + b ≤ k := by
        rcases hcase with h0 | ⟨⟨x, hx⟩, ⟨y, hy⟩⟩ | h0
        · exact Or.inl h0
        · refine Or.inr ?_
          have : y < x := by
            rw [hx, hy] at hc
            exact lt_of_mul_lt_mul_left hc (Nat.zero_le b)
          calc st.c + b = b * (y + 1) := by rw [hy]; ring
            _ ≤ b * x := Nat.mul_le_mul_left _ this
            _ = k := hx.symm
        · refine Or.inr ?_
          by_contra hn
          have := hle h0
          rw [hcc] at this
          unfold qb2Blk at this
          rw [hblk, if_pos (by omega)] at this
          omega
      have hsame : qb2Blk k' st.c st.blk = qb2Blk k st.c st.blk := by
        rcases hfit with rfl | hfit
        · rfl
        · unfold qb2Blk
          rw [hblk, if_neg (by omega), if_neg (by omega)]
      unfold qb2Loop
      rw [hsame, Py.bind_eq_of_ok hd]
      obtain ⟨st1, hst1⟩ : ∃ x, x = qb2Update la (qb2Blk k st.c st.blk) st out := ⟨_, rfl⟩
      rw [← hst1] at h hle hcc
      rw [← hst1]
      by_cases c1 : u ∧ st1.sqn ≤ t
      · rw [if_pos c1] at h ⊢; exact h
      · rw [if_neg c1] at h
        by_cases c2 : st1.c ≥ k
        · rw [if_pos c2] at h; cases h; exact absurd ⟨hu, hs⟩ c1
        · rw [if_neg c2] at h
          rw [if_neg c1, if_neg (by omega)]
          have hfull : st.c + b ≤ k := by
            by_contra hn
            unfold qb2Blk at hcc
            rw [hblk, if_pos (by omega)] at hcc
            omega
          have hbb : qb2Blk k st.c st.blk = b := by
            unfold qb2Blk
            rw [hblk, if_neg (by omega)]
          refine ih fuel' st1 s _ v (by omega) (by omega) (by rw [hst1]; exact hbb) h hs ?_
          rcases hcase with h0 | ⟨h0, h0'⟩ | h0
          · exact Or.inl h0
          · exact Or.inr (Or.inl ⟨h0, by rw [hcc, hbb]; exact Dvd.dvd.add h0' dvd_rfl⟩)
          · exact Or.inr (Or.inr h0)

/-- **C90** (QB2, the tolerance met).  If the call with the smaller target rank meets the tolerance, then the call with the
larger one returns exactly the same, from the same state to the same state. -/
theorem C90_qb2_done (la : LinAlg) (rf : RangeFinder G) (hrf : RFShape rf m n) (blk : ℕ) (ow : Bool)
    (A : Matrix (Fin m) (Fin n) ℝ) (hmn : 0 < min m n) (k k' : ℤ) (hkk : k ≤ k') (hk' : k' ≤ (min m n : ℕ)) (t : ℝ) (ht : 0 < t)
    (w v : World G) (o : QBOut m n) (A1 : Matrix (Fin m) (Fin n) ℝ)
    (h : qb2Call la rf blk ow A k (.val t) w = .ok ((o, A1), v)) (hmet : fro (A - o.Q * o.B) ≤ t * fro A)
    (hblk : k = k' ∨ (blk : ℤ) ∣ k ∨ (o.c : ℤ) < k) :
    qb2Call la rf blk ow A k' (.val t) w = .ok ((o, A1), v) := by
  unfold qb2Call at h ⊢
  rw [Py.bind_ok_iff] at h
  obtain ⟨s, w1, h1, h⟩ := h
  have hk : 0 < k := by
    by_contra hn
    unfold qb2Run at h1
    rw [Py.assert_neg_bind hn] at h1
    cases h1
  rw [qb2Run_open _ hk, if_pos (by omega)] at h1
  have e : clampK k m n = k.toNat := by unfold clampK; omega
  have e' : clampK k' m n = k'.toNat := by unfold clampK; omega
  rw [e] at h1
  obtain ⟨hi1, hi2⟩ := (qb2Loop_ind (P := QB2Inv A) (fun _ _ _ _ hs _ _ => qb2Inv_update la hs _ _) _ _ _ _ _ h1
    (show (qb2Init A blk).c < _ from by change 0 < _; omega) (qb2Inv_init A blk)).1
  cases h
  have hs : s.sqn ≤ absSqTol (.val t) A := by
    rw [hi2, ← fro_sq, hi1]
    change _ ≤ fro A ^ 2 * t ^ 2
    rw [← mul_pow, mul_comm]
    exact pow_le_pow_left₀ (fro_nonneg _) hmet 2
  have key := loop_done hrf (k := k.toNat) (k' := k'.toNat) (b := blk) (by omega) (by omega) (u := (Tol.val t).use) ht
    _ (k'.toNat + 1) _ _ _ _ (by omega) (show (qb2Init A blk).c < k.toNat from by change 0 < _; omega) rfl h1 hs (by
      rcases hblk with h0 | h0 | h0
      · exact Or.inl (by rw [h0])
      · refine Or.inr (Or.inl ⟨?_, dvd_zero _⟩)
        rw [← Int.natCast_dvd_natCast, Int.toNat_of_nonneg hk.le]
        exact h0
      · exact Or.inr (Or.inr (by change ((s.c : ℕ) : ℤ) < k at h0; omega)))
  have h2 : qb2Run la rf blk A k' (.val t) w = .ok (s, v) := by
    rw [qb2Run_open _ (by omega), if_pos (by omega), e']
    exact key
  rw [Py.bind_eq_of_ok h2]
  rfl

/-- **C90** (qb_b).  The same for `qb_b`, with any sketching operator. -/
theorem C90_qb_b (la : LinAlg) (gen : SkOpGen G) (inner : ℤ) (blk : ℕ) (ow ow' : Bool)
    (A : Matrix (Fin m) (Fin n) ℝ) (hmn : 0 < min m n) (k k' : ℤ) (hkk : k ≤ k') (hk' : k' ≤ (min m n : ℕ)) (tol tol' : Tol)
    (ht : TighterTol tol' tol) (w v v' : World G) (o o' : QBOut m n) (A1 A1' : Matrix (Fin m) (Fin n) ℝ)
    (h : qbB la gen inner blk ow A k tol w = .ok ((o, A1), v)) (h' : qbB la gen inner blk ow' A k' tol' w = .ok ((o', A1'), v'))
    (hblk : k = k' ∨ (blk : ℤ) ∣ k ∨ (o.c : ℤ) < k) :
    ExtendsQB o o' ∧ fro (A - o'.Q * o'.B) ≤ fro (A - o.Q * o.B) :=
  C90_qb2 la _ (C05_rf1_shape la gen _ _ (Or.inl rfl) _) blk ow ow' A hmn k k' hkk hk' tol tol' ht w v v' o o' A1 A1' h h' hblk

/-- a rangefinder that returns the leading columns of the array -/
def leadRF : RangeFinder G := fun _ n A k _ =>
  if 0 ≤ k then pure ⟨k.toNat, Matrix.of fun i j => if h : j.1 < n then A i ⟨j.1, h⟩ else 0⟩ else Py.raise .assertion

theorem leadRF_shape : RFShape (leadRF (G := G)) m n := by
  intro A k tol w Q w' h
  unfold leadRF at h
  split at h
  · cases h; exact Int.toNat_of_nonneg ‹_›
  · cases h

-- the hypotheses of `C90_qb2` are met: one column of `demoQB`, then two, in blocks of one
example : ∃ o o' : QBOut 3 2, ∃ v v' : World ℕ,
    qb2Call LinAlg.ref leadRF 1 false demoQB 1 .nan ⟨0, 0, []⟩ = .ok ((o, demoQB), v) ∧
    qb2Call LinAlg.ref leadRF 1 false demoQB 2 .nan ⟨0, 0, []⟩ = .ok ((o', demoQB), v') ∧
    o.c = 1 ∧ o'.c = 2 ∧ ExtendsQB o o' := by
  have hrf : ∀ (A' : Matrix (Fin 3) (Fin 2) ℝ) (b : ℤ) (w : World ℕ), 0 < b → b ≤ (min 3 2 : ℕ) →
      ∃ Q w', leadRF 3 2 A' b .nan w = .ok (Q, w') ∧ (Q.c : ℤ) = b := by
    intro A' b w hb _
    exact ⟨_, _, by unfold leadRF; rw [if_pos hb.le]; rfl, Int.toNat_of_nonneg hb.le⟩
  obtain ⟨⟨o, A1⟩, v, h⟩ := C05_qb2_terminates LinAlg.ref leadRF 1 one_pos false demoQB (by decide) 1 one_pos .nan hrf ⟨0, 0, []⟩
  obtain ⟨⟨o', A1'⟩, v', h'⟩ := C05_qb2_terminates LinAlg.ref leadRF 1 one_pos false demoQB (by decide) 2 two_pos .nan hrf ⟨0, 0, []⟩
  have e : A1 = demoQB := by
    unfold qb2Call at h
    rw [Py.bind_ok_iff] at h
    obtain ⟨s, w1, -, h⟩ := h
    cases h; rfl
  have e' : A1' = demoQB := by
    unfold qb2Call at h'
    rw [Py.bind_ok_iff] at h'
    obtain ⟨s, w1, -, h'⟩ := h'
    cases h'; rfl
  subst e e'
  have hc := C05_qb2_no_tol _ _ leadRF_shape 1 one_pos false demoQB (by decide) 1 .nan (Or.inl rfl) _ _ _ _ h
  have hc' := C05_qb2_no_tol _ _ leadRF_shape 1 one_pos false demoQB (by decide) 2 .nan (Or.inl rfl) _ _ _ _ h'
  refine ⟨o, o', v, v', h, h', ?_, ?_, (C90_qb2 _ _ leadRF_shape 1 false false demoQB (by decide) 1 2 (by norm_num) (by simp)
    .nan .nan trivial _ _ _ _ _ _ _ h h' (Or.inr (Or.inl ⟨1, by norm_num⟩))).1⟩
  · norm_num at hc; exact_mod_cast hc
  · norm_num at hc'; exact_mod_cast hc'

/-! ## QB3 -/

private theorem except_bind_ok {α β : Type} {x : Except PyErr α} {f : α → Except PyErr β} {b : β} :
    (x >>= f) = .ok b ↔ ∃ a, x = .ok a ∧ f a = .ok b := by
  cases x with
  | error e => exact ⟨fun h => (by cases h), fun ⟨a, h, _⟩ => (by cases h)⟩
  | ok a => exact ⟨fun h => ⟨a, rfl, h⟩, fun ⟨a', h, h'⟩ => by cases h; exact h'⟩

private theorem qb3Step_ext {la : LinAlg} {S : Cols n} {Gm : Matrix (Fin m) (Fin S.c) ℝ} {H : Matrix (Fin n) (Fin S.c) ℝ}
    {a b : ℕ} {st st' : QB3St m n} (h : qb3Step la S Gm H a b st = .ok st') :
    ExtendsQB (⟨st.c, st.Q, st.B⟩ : QBOut m n) ⟨st'.c, st'.Q, st'.B⟩ := by
  unfold qb3Step at h
  dsimp only at h
  split at h
  · rw [except_bind_ok] at h
    obtain ⟨Bi, -, h⟩ := h
    cases h
    exact extendsQB_cat _ _ _ _
  · cases h

private theorem qb3Loop_ext {la : LinAlg} {S : Cols n} {Gm : Matrix (Fin m) (Fin S.c) ℝ} {H : Matrix (Fin n) (Fin S.c) ℝ}
    {k blk : ℕ} {u : Prop} {t : ℝ} (rem : ℕ) : ∀ (i : ℕ) {st st' : QB3St m n},
    qb3Loop la S Gm H k blk u t rem i st = .ok st' →
    ExtendsQB (⟨st.c, st.Q, st.B⟩ : QBOut m n) ⟨st'.c, st'.Q, st'.B⟩ := by
  induction rem with
  | zero => intro i st st' h; cases h; exact ExtendsQB.refl _
  | succ rem ih =>
    intro i st st' h
    unfold qb3Loop at h
    rw [except_bind_ok] at h
    obtain ⟨s1, h1, h⟩ := h
    by_cases c : u ∧ s1.sqn ≤ t
    · rw [if_pos c] at h; cases h; exact qb3Step_ext h1
    · rw [if_neg c] at h; exact ExtendsQB.trans (qb3Step_ext h1) (ih _ h)

private theorem qb3Loop_tighter {la : LinAlg} {S : Cols n} {Gm : Matrix (Fin m) (Fin S.c) ℝ} {H : Matrix (Fin n) (Fin S.c) ℝ}
    {k blk : ℕ} {u u' : Prop} {t t' : ℝ} (hu : u' → u ∧ t' ≤ t) (rem : ℕ) : ∀ (i : ℕ) {st s s' : QB3St m n},
    qb3Loop la S Gm H k blk u t rem i st = .ok s → qb3Loop la S Gm H k blk u' t' rem i st = .ok s' →
    ExtendsQB (⟨s.c, s.Q, s.B⟩ : QBOut m n) ⟨s'.c, s'.Q, s'.B⟩ := by
  induction rem with
  | zero => intro i st s s' h h'; cases h; cases h'; exact ExtendsQB.refl _
  | succ rem ih =>
    intro i st s s' h h'
    unfold qb3Loop at h h'
    rw [except_bind_ok] at h h'
    obtain ⟨s1, h1, h⟩ := h
    obtain ⟨s1', h1', h'⟩ := h'
    rw [h1] at h1'
    cases h1'
    by_cases c' : u' ∧ s1.sqn ≤ t'
    · rw [if_pos c'] at h'
      rw [if_pos ⟨(hu c'.1).1, c'.2.trans (hu c'.1).2⟩] at h
      cases h; cases h'; exact ExtendsQB.refl _
    · rw [if_neg c'] at h'
      by_cases c : u ∧ s1.sqn ≤ t
      · rw [if_pos c] at h
        cases h
        exact qb3Loop_ext _ _ h'
      · rw [if_neg c] at h
        exact ih _ h h'

/-- **C90** (QB3).  Tightening the tolerance of the pass-efficient QB, from the same generator state, keeps the columns of
`Q` and the rows of `B` found so far.  `QB3` sketches once with all `k` columns, so the target rank has to agree. -/
theorem C90_qb3 (la : LinAlg) (skOp : RowSketcher G) (blk : ℕ) (A : Matrix (Fin m) (Fin n) ℝ) (k : ℤ) (tol tol' : Tol)
    (ht : TighterTol tol' tol) (w v v' : World G) (o o' : QBOut m n) (h : qb3Call la skOp blk A k tol w = .ok (o, v))
    (h' : qb3Call la skOp blk A k tol' w = .ok (o', v')) : ExtendsQB o o' := by
  unfold qb3Call at h h'
  rw [Py.bind_ok_iff] at h h'
  obtain ⟨_, w1, h1, h⟩ := h
  obtain ⟨_, w1', h1', h'⟩ := h'
  rw [h1] at h1'; cases h1'
  rw [Py.bind_ok_iff] at h h'
  obtain ⟨_, w2, h2, h⟩ := h
  obtain ⟨_, w2', h2', h'⟩ := h'
  rw [h2] at h2'; cases h2'
  rw [Py.bind_ok_iff] at h h'
  obtain ⟨S, w3, h3, h⟩ := h
  obtain ⟨S', w3', h3', h'⟩ := h'
  rw [h3] at h3'; cases h3'
  rw [Py.bind_eq_of_ok (Py.emit_apply _ _)] at h h'
  dsimp only at h h'
  rw [Py.bind_eq_of_ok (Py.emit_apply _ _)] at h h'
  by_cases hb : blk = 0
  · rw [if_pos hb] at h; cases h
  · rw [if_neg hb] at h h'
    rw [Py.bind_ok_iff] at h h'
    obtain ⟨s, w4, h4, h⟩ := h
    obtain ⟨s', w4', h4', h'⟩ := h'
    rw [Py.lift_ok_iff] at h4 h4'
    cases h
    cases h'
    exact qb3Loop_tighter (absSqTol_tighter ht A) _ _ h4.1 h4'.1

-- non-vacuity: the identity of order 3, two columns in blocks of one, with and without a tolerance
example (la : LinAlg) (w : World G) : ∃ out v out' v',
    qb3Call la (coordSketcher (G := G)) 1 (1 : Matrix (Fin 3) (Fin 3) ℝ) 2 (.val (9 / 10)) w = .ok (out, v) ∧
    qb3Call la (coordSketcher (G := G)) 1 (1 : Matrix (Fin 3) (Fin 3) ℝ) 2 .nan w = .ok (out', v') ∧ ExtendsQB out out' := by
  have key : ∀ tol : Tol, ∃ out w',
      qb3Call la (coordSketcher (G := G)) 1 (1 : Matrix (Fin 3) (Fin 3) ℝ) 2 tol w = .ok (out, w') := by
    intro tol
    refine C10_qb3_returns la _ 1 (by norm_num) _ 2 tol w w _ (by norm_num) (by simp) rfl rfl ?_
    apply fullColRank_of_left_inv
      (L := Matrix.of fun (i : Fin 2) (j : Fin 3) => if i.1 = j.1 then 1 else 0)
    ext i j
    fin_cases i <;> fin_cases j <;> simp [Matrix.mul_apply, Fin.sum_univ_three]
  obtain ⟨o, v, h⟩ := key (.val (9 / 10))
  obtain ⟨o', v', h'⟩ := key .nan
  exact ⟨o, v, o', v', h, h', C90_qb3 la _ 1 _ 2 (.val (9 / 10)) .nan trivial _ _ _ _ _ h h'⟩

/-- **C90** (qb_b_pe) -/
theorem C90_qb_b_pe (la : LinAlg) (gen : SkOpGen G) (passes : ℤ) (blk : ℕ) (A : Matrix (Fin m) (Fin n) ℝ) (k : ℤ)
    (tol tol' : Tol) (ht : TighterTol tol' tol) (w v v' : World G) (o o' : QBOut m n)
    (h : qbBPe la gen passes blk A k tol w = .ok (o, v)) (h' : qbBPe la gen passes blk A k tol' w = .ok (o', v')) :
    ExtendsQB o o' :=
  C90_qb3 la _ blk A k tol tol' ht w v v' o o' h h'

end Parla.Props
