import Verif.Proof.Blocks
import Verif.Props.AlmostSure
import Verif.Props.LowRank
import Verif.Props.EVD1

/-! # C63: the blocked algorithms (`qb_b`, `svd1`, `evd1`) with Gaussian sketches, almost surely

The runs draw one array of normals per block.  `∀ᵐ Zs` ranges over sequences of arrays, all entries of all arrays
independent standard normals; the statement about a run is: for almost every sequence, in *every* run (backend,
generator, state) in which the generator returns those arrays one after the other. -/

namespace Parla.Props

open Matrix Parla Spec MeasureTheory Proof

variable {G : Type} {m n : ℕ}

/-- the block sizes of a blocked algorithm that builds `k` columns: `blk, blk, ..., ` and what is left -/
def blockWidths (k blk : ℕ) : List ℕ :=
  List.replicate (k / blk) blk ++ if k % blk = 0 then [] else [k % blk]

/-- a sequence of arrays of independent standard normals, with `r` rows and the given widths -/
noncomputable abbrev normalSeq (r : ℕ) (bs : List ℕ) : Measure (Draws r bs) := drawsLaw stdNormal r bs

/-- started in state `g`, the generator returns the arrays `Z` one after the other -/
def NextDraws (R : NpRng G) {r : ℕ} : (bs : List ℕ) → G → Draws r bs → Prop
  | [], _, _ => True
  | b :: bs, g, Z => (R.standardNormal r b g).1 = drawMat (b := b) Z.1 ∧
      NextDraws R bs (R.standardNormal r b g).2 Z.2

theorem blockWidths_zero (blk : ℕ) : blockWidths 0 blk = [] := by
  simp [blockWidths]

theorem blockWidths_pos {k blk : ℕ} (hk : 0 < k) (hb : 0 < blk) :
    blockWidths k blk = min blk k :: blockWidths (k - min blk k) blk := by
  rcases lt_or_ge k blk with h | h
  · rw [min_eq_right h.le, Nat.sub_self, blockWidths_zero]
    unfold blockWidths
    rw [Nat.div_eq_of_lt h, Nat.mod_eq_of_lt h, if_neg (by omega)]
    rfl
  · rw [min_eq_left h]
    unfold blockWidths
    obtain ⟨j, rfl⟩ : ∃ j, k = j + blk := ⟨k - blk, by omega⟩
    rw [Nat.add_sub_cancel, Nat.add_div_right _ hb, Nat.add_mod_right]
    rfl

/-! ### One block -/

/-- the power iteration with `p` passes spans the range of `L A` times its start -/
structure PowMap (p : ℤ) {r : ℕ} (L : Matrix (Fin m) (Fin n) ℝ → Matrix (Fin m) (Fin r) ℝ) : Prop where
  rows : r = startRows p m n
  rank : ∀ A, (L A).rank = A.rank
  le : ∀ A, colSpace (L A) ≤ colSpace A
  meas : ∀ (X : Type) [MeasurableSpace X] (f : X → Matrix (Fin m) (Fin n) ℝ), EMeas f → EMeas fun x => L (f x)
  call : ∀ (G : Type) (la : LinAlg) (gen : SkOpGen G) (A : Matrix (Fin m) (Fin n) ℝ) (k : ℕ) (w w' : World G)
    (S : Cols n), rs1Call gen p (orth la) 1 A k w = .ok (S, w') →
    ∃ S0 w1, gen r k w = .ok (S0, w1) ∧ colSpace (L A * S0) ≤ colSpace (A * S.mat)

theorem rank_power_even' (A : Matrix (Fin m) (Fin n) ℝ) (q : ℕ) : (A * (Aᵀ * A) ^ q).rank = A.rank := by
  have := rank_power_even A q (1 : Matrix (Fin n) (Fin n) ℝ)
  rwa [Matrix.mul_one, Matrix.mul_one] at this

theorem rank_power_odd' (A : Matrix (Fin m) (Fin n) ℝ) (q : ℕ) :
    (A * ((Aᵀ * A) ^ q * Aᵀ)).rank = A.rank := by
  have := rank_power_odd A q (1 : Matrix (Fin m) (Fin m) ℝ)
  rwa [Matrix.mul_one, rank_transpose] at this

theorem exists_powMap (p : ℤ) :
    ∃ L : Matrix (Fin m) (Fin n) ℝ → Matrix (Fin m) (Fin (startRows p m n)) ℝ, PowMap p L := by
  obtain ⟨r, hr⟩ : ∃ r, r = startRows p m n := ⟨_, rfl⟩
  rw [← hr]
  rcases Int.emod_two_eq_zero_or_one p with hp | hp
  · obtain rfl : r = n := by rw [hr]; exact if_pos hp
    refine ⟨fun A => A * (Aᵀ * A) ^ (p / 2).toNat, hr, fun A => rank_power_even' A _,
      fun A => colSpace_mul_le _ _, fun X _ f hf => hf.mul ((hf.transpose.mul hf).pow _), ?_⟩
    intro G la gen A k w w' S h
    obtain ⟨S0, ⟨w2, hd⟩, hle, -⟩ := (C02_rs1_range_parla la gen p (orth la) (Or.inl rfl) 1 A k w w' S h).1 hp
    refine ⟨S0, w2, hd, ?_⟩
    rw [Matrix.mul_assoc]
    exact colSpace_mul_mono A hle
  · obtain rfl : r = m := by rw [hr]; exact if_neg (by omega)
    refine ⟨fun A => A * ((Aᵀ * A) ^ ((p - 1) / 2).toNat * Aᵀ), hr, fun A => rank_power_odd' A _,
      fun A => colSpace_mul_le _ _, fun X _ f hf => hf.mul (((hf.transpose.mul hf).pow _).mul hf.transpose), ?_⟩
    intro G la gen A k w w' S h
    obtain ⟨S0, ⟨w2, hd⟩, hle, -⟩ := (C02_rs1_range_parla la gen p (orth la) (Or.inl rfl) 1 A k w w' S h).2 hp
    refine ⟨S0, w2, hd, ?_⟩
    rw [Matrix.mul_assoc, Matrix.mul_assoc]
    exact colSpace_mul_mono A hle

/-- one rangefinder call with a Gaussian start -/
theorem rf_step {p : ℤ} (hp : 0 ≤ p) {r : ℕ} {L : Matrix (Fin m) (Fin n) ℝ → Matrix (Fin m) (Fin r) ℝ}
    (hL : PowMap p L) (la : LinAlg) (R : NpRng G) (A : Matrix (Fin m) (Fin n) ℝ) {b : ℕ} (hb : 0 < b)
    (hb' : b ≤ min m n) (w : World G) {Z : Fin r × Fin b → ℝ}
    (hZ : (R.standardNormal r b w.rng).1 = drawMat Z) :
    ∃ out w', RF1 la (RS1 (gaussianOperator R true) p (orth la) 1) m n A (b : ℤ) .nan w = .ok (out, w') ∧
      w'.rng = (R.standardNormal r b w.rng).2 ∧ out.c = b ∧ OrthoCols out.mat ∧
      colSpace (L A * drawMat Z) ≤ colSpace out.mat := by
  have hr := hL.rows
  have hne : min r b ≠ 0 := by
    rw [hr]; unfold startRows; split <;> omega
  obtain ⟨t, ht, hgen⟩ := gaussian_next R hne (w := w) (Z := Z) hZ
  obtain ⟨S, w1, h1, h1r⟩ : ∃ S w', rs1Call (gaussianOperator R true) p (orth la) 1 A b w = .ok (S, w') ∧
      w'.rng = (R.standardNormal r b w.rng).2 := by
    subst hr
    obtain ⟨S, w', h, h'⟩ := rs1Call_total _ p hp (orth la) A b w _ _ hgen
    exact ⟨S, w', h, h'⟩
  have hSc : S.c = b := rs1Call_width_eq (fun _ _ => rfl) hb' h1
  refine ⟨⟨_, (la.qr (A * S.mat)).1⟩, { w1 with trace := w1.trace ++ [.mulA] }, ?_, h1r, ?_, la.qr_orth _, ?_⟩
  · unfold RF1 rf1Call
    rw [Py.assert_pos_bind (by exact_mod_cast hb), Py.assert_pos_bind (by exact_mod_cast hb')]
    simp only [Tol.isNaN_nan, not_true_eq_false, if_false]
    have h1' : RS1 (gaussianOperator R true) p (orth la) 1 m n A (b : ℤ).toNat w = .ok (S, w1) := by
      rw [Int.toNat_natCast]; exact h1
    rw [Py.bind_eq_of_ok h1']
    rfl
  · change min m S.c = b
    omega
  · obtain ⟨S0, w2, hd, hle⟩ := hL.call G la _ A b w w1 S h1
    rw [hgen] at hd
    cases hd
    refine le_trans ?_ (hle.trans (qr_range la _))
    rw [Matrix.mul_smul]
    refine colSpace_le_iff.2 ⟨t⁻¹ • 1, ?_⟩
    rw [Matrix.mul_smul, Matrix.mul_one, smul_smul, inv_mul_cancel₀ ht, one_smul]

theorem proj_unique {c b : ℕ} {Q : Matrix (Fin m) (Fin c) ℝ} (hQ : Qᵀ * Q = 1) {Y : Matrix (Fin m) (Fin b) ℝ}
    (hY : IsUnit (Yᵀ * Y).det) (h : colSpace Q = colSpace Y) : Q * Qᵀ = Y * ((Yᵀ * Y)⁻¹ * Yᵀ) := by
  obtain ⟨W, hW⟩ := colSpace_le_iff.1 h.le
  have h1 : Y * ((Yᵀ * Y)⁻¹ * Yᵀ) * Q = Q := by
    conv_lhs => rw [hW]
    rw [Matrix.mul_assoc, Matrix.mul_assoc, ← Matrix.mul_assoc Yᵀ, ← Matrix.mul_assoc _ (Yᵀ * Y),
      Matrix.nonsing_inv_mul _ hY, Matrix.one_mul, ← hW]
  have h2 : Q * Qᵀ * Y = Y := by
    rw [Matrix.mul_assoc]; exact proj_fix hQ h.ge
  have hs : (Y * ((Yᵀ * Y)⁻¹ * Yᵀ))ᵀ = Y * ((Yᵀ * Y)⁻¹ * Yᵀ) := by
    rw [transpose_mul, transpose_mul, transpose_transpose, transpose_nonsing_inv, transpose_mul,
      transpose_transpose, Matrix.mul_assoc]
  have h3 := congrArg Matrix.transpose h1
  rw [transpose_mul, hs] at h3
  calc Q * Qᵀ = Q * (Qᵀ * (Y * ((Yᵀ * Y)⁻¹ * Yᵀ))) := by rw [h3]
    _ = Q * Qᵀ * Y * ((Yᵀ * Y)⁻¹ * Yᵀ) := by simp only [Matrix.mul_assoc]
    _ = _ := by rw [h2]

/-- what the block loop leaves, given a good draw -/
theorem block_step {r : ℕ} {L : Matrix (Fin m) (Fin n) ℝ → Matrix (Fin m) (Fin r) ℝ}
    (hle : ∀ A, colSpace (L A) ≤ colSpace A) (la : LinAlg) {A0 : Matrix (Fin m) (Fin n) ℝ} {st : QB2St m n}
    (hI : QB2Inv A0 st) (hF : QB2Full A0 st ∨ st.A = 0) {b : ℕ} (hb : 0 < b) (out : Cols m) (hc : out.c = b)
    (ho : OrthoCols out.mat) {Z : Fin r × Fin b → ℝ}
    (hg : (L st.A * drawMat Z).rank = min b st.A.rank)
    (hout : colSpace (L st.A * drawMat Z) ≤ colSpace out.mat) :
    Captures ⟨st.A, b, out⟩ ∧
    (qb2Update la b st out).A = Proof.residual st.A (L st.A * drawMat Z) ∧
    (QB2Full A0 (qb2Update la b st out) ∨ (qb2Update la b st out).A = 0) := by
  subst hc
  obtain ⟨Y, hY⟩ : ∃ Y, Y = L st.A * drawMat Z := ⟨_, rfl⟩
  rw [← hY] at hg hout ⊢
  have hYA : colSpace Y ≤ colSpace st.A := by
    rw [hY]; exact (colSpace_mul_le _ _).trans (hle _)
  rcases le_or_gt out.c st.A.rank with hbr | hbr
  · rw [min_eq_left hbr] at hg
    have hcs : colSpace Y = colSpace out.mat := colSpace_eq_of_le_rank hout (by omega)
    have hfb : FullBlock ⟨st.A, out.c, out⟩ := ⟨orthoCols_rank ho, hcs ▸ hYA⟩
    have hF' : QB2Full A0 st := by
      rcases hF with h | h
      · exact h
      · rw [h, Matrix.rank_zero] at hbr; omega
    refine ⟨Or.inl hfb, ?_, Or.inl (qb2Full_update la hI hF' _ out hfb.1 hfb.2)⟩
    have hQA := qb2_resid_orth hI hF'.1 hF'.2.1
    have hproj : projectOut out.mat st.Q = out.mat := by
      obtain ⟨C, hC⟩ := colSpace_le_iff.1 hfb.2
      have hC : out.mat = st.A * C := hC
      unfold projectOut
      rw [hC, ← Matrix.mul_assoc st.Qᵀ, hQA]; simp
    have hYf : FullColRank Y := hg
    have hu := hYf.gram_unit
    change st.A - (la.qr (projectOut out.mat st.Q)).1 * ((la.qr (projectOut out.mat st.Q)).1ᵀ * st.A) = _
    rw [hproj, ← Matrix.mul_assoc, proj_unique (la.qr_orth _) hu (by rw [qr_colSpace_of_orth la ho, hcs])]
    unfold Proof.residual
    rw [if_neg (isUnit_iff_ne_zero.1 hu)]
    simp only [Matrix.mul_assoc]
  · rw [min_eq_right hbr.le] at hg
    have hcs : colSpace Y = colSpace st.A :=
      Submodule.eq_of_le_of_finrank_le hYA (by rw [finrank_colSpace, finrank_colSpace]; omega)
    have hcap : colSpace st.A ≤ colSpace out.mat := hcs ▸ hout
    have hz : (qb2Update la out.c st out).A = 0 := by
      rcases hF with h | h
      · exact qb2Zero_update la hI h.1 h.2.1 _ out hcap
      · exact qb2Zero_stays la h _ out
    have hd : (Yᵀ * Y).det = 0 := by
      by_contra hd
      have : Y.rank = out.c := fullColRank_of_det hd
      omega
    refine ⟨Or.inr hcap, ?_, Or.inr hz⟩
    rw [hz]
    unfold Proof.residual
    rw [if_pos hd]

/-- the loop of QB2 with good draws -/
theorem loop_good {p : ℤ} (hp : 0 ≤ p) {r : ℕ} {L : Matrix (Fin m) (Fin n) ℝ → Matrix (Fin m) (Fin r) ℝ}
    (hL : PowMap p L) (la : LinAlg) (R : NpRng G) (A0 : Matrix (Fin m) (Fin n) ℝ) {K blk : ℕ} (hblk : 0 < blk)
    (hK : K ≤ min m n) (useTol : Prop) (tl : ℝ) (fuel : ℕ) (st : QB2St m n) (w : World G) (hc : st.c < K)
    (hf : K - st.c < fuel) (hst : st.blk = blk) (bs : List ℕ) (hbs : bs = blockWidths (K - st.c) blk)
    (Zs : Draws r bs) (hI : QB2Inv A0 st) (hF : QB2Full A0 st ∨ st.A = 0) (hcap : ∀ x ∈ st.calls, Captures x)
    (hg : AllGood L bs st.A Zs) (hR : NextDraws R bs w.rng Zs) :
    ∃ st' w', qb2Loop la (RF1 la (RS1 (gaussianOperator R true) p (orth la) 1)) K useTol tl fuel st w =
      .ok (st', w') ∧ ∀ x ∈ st'.calls, Captures x := by
  induction fuel generalizing st w bs with
  | zero => omega
  | succ fuel ih =>
    rw [blockWidths_pos (by omega) hblk] at hbs
    subst hbs
    obtain ⟨Z, Zs⟩ := Zs
    obtain ⟨hg1, hg2⟩ := hg
    obtain ⟨hR1, hR2⟩ := hR
    have hblkeq : qb2Blk K st.c st.blk = min blk (K - st.c) := by
      unfold qb2Blk; rw [hst]; split <;> omega
    obtain ⟨out, w1, h1, h2, h3, h4, h5⟩ := rf_step hp hL la R st.A (b := min blk (K - st.c)) (by omega)
      (by omega) w hR1
    obtain ⟨g1, g2, g3⟩ := block_step hL.le la hI hF (by omega) out h3 h4 hg1 h5
    unfold qb2Loop
    simp only [hblkeq]
    rw [Py.bind_eq_of_ok (qb2Draw_of_ok h1)]
    have hcalls : ∀ x ∈ (qb2Update la (min blk (K - st.c)) st out).calls, Captures x := by
      intro x hx
      change x ∈ st.calls ++ [_] at hx
      rcases List.mem_append.1 hx with hx | hx
      · exact hcap x hx
      · rw [List.mem_singleton.1 hx]; exact g1
    split
    · exact ⟨_, _, rfl, hcalls⟩
    · split
      · exact ⟨_, _, rfl, hcalls⟩
      · rename_i hge
        have hc' : (qb2Update la (min blk (K - st.c)) st out).c = st.c + min blk (K - st.c) := by
          change st.c + min m out.c = _
          omega
        refine ih _ { w1 with trace := w1.trace ++ [.mulAT] } (by omega) (by omega) ?_ _ ?_ Zs (qb2Inv_update la hI _ _) g3 hcalls ?_ ?_
        · change min blk (K - st.c) = blk
          omega
        · rw [hc', Nat.sub_sub]
        · rw [g2]; exact hg2
        · rw [h2]; exact hR2

/-- QB2 over Gaussian power sketches: for almost every sequence of draws the run returns and every rangefinder
call captures what it can. -/
theorem qb2Run_ae (A : Matrix (Fin m) (Fin n) ℝ) (hmn : 0 < min m n) (k : ℤ) (hk : 0 < k) (p : ℤ) (hp : 0 ≤ p)
    (blk : ℕ) (hblk : 0 < blk) :
    ∀ᵐ Zs ∂(normalSeq (startRows p m n) (blockWidths (min k.toNat (min m n)) blk)),
      ∀ (G : Type) (la : LinAlg) (R : NpRng G) (tol : Tol) (w : World G), NextDraws R _ w.rng Zs →
      ∃ st w', qb2Run la (RF1 la (RS1 (gaussianOperator R true) p (orth la) 1)) blk A k tol w = .ok (st, w') ∧
        ∀ x ∈ st.calls, Captures x := by
  obtain ⟨L, hL⟩ := exists_powMap (m := m) (n := n) p
  have : IsProbabilityMeasure stdNormal := by unfold stdNormal; infer_instance
  filter_upwards [allGood_ae (μ := stdNormal) L hL.meas hL.rank (blockWidths (min k.toNat (min m n)) blk) A]
    with Zs hZs G la R tol w hw
  rw [qb2Run_open w hk]
  have hcl : clampK k m n = min k.toNat (min m n) := rfl
  refine loop_good hp hL la R A hblk (by rw [hcl]; omega) _ _ _ _ _ ?_ ?_ rfl _ ?_ Zs (qb2Inv_init A blk)
    (Or.inl ⟨orth_empty _, by ext i; exact i.elim0, rfl⟩) (by intro x hx; cases hx) hZs ?_
  · change 0 < _; rw [hcl]; omega
  · change _ - 0 < _; omega
  · change _ = blockWidths (clampK k m n - 0) blk; rfl
  · split
    · exact hw
    · exact hw

/-- A QB2 run that fits in one block returns an orthonormal `Q` and `B = Q'A`, whatever the rangefinder does. -/
theorem single_block (la : LinAlg) (rf : RangeFinder G) (hrf : RFShape rf m n) (blk : ℕ)
    (A : Matrix (Fin m) (Fin n) ℝ) (hmn : 0 < min m n) (k : ℤ) (hk : 0 < k) (hb : min k.toNat (min m n) ≤ blk)
    (tol : Tol) (w w' : World G) (st : QB2St m n) (h : qb2Run la rf blk A k tol w = .ok (st, w')) :
    OrthoCols st.Q ∧ st.B = st.Qᵀ * A := by
  rw [qb2Run_open w hk] at h
  have hK : clampK k m n ≤ blk := hb
  have hK0 : 0 < clampK k m n := by unfold clampK; omega
  have hKm : clampK k m n ≤ min m n := by unfold clampK; omega
  unfold qb2Loop at h
  rw [Py.bind_ok_iff] at h
  obtain ⟨out, wd, hd, h⟩ := h
  obtain ⟨w1, h1, rfl⟩ := qb2Draw_ok_iff.1 hd
  have hbl : qb2Blk (clampK k m n) (qb2Init A blk).c (qb2Init A blk).blk = clampK k m n := by
    change qb2Blk (clampK k m n) 0 blk = _
    unfold qb2Blk; split <;> omega
  have hoc := hrf _ _ _ _ _ _ h1
  rw [hbl] at hoc h
  have hst : st = qb2Update la (clampK k m n) (qb2Init A blk) out := by
    by_cases c1 : tol.use ∧ (qb2Update la (clampK k m n) (qb2Init A blk) out).sqn ≤ absSqTol tol A
    · rw [if_pos c1] at h; cases h; rfl
    · rw [if_neg c1, if_pos (by
        change 0 + min m out.c ≥ _
        omega)] at h
      cases h; rfl
  rw [hst]
  have h2 : (la.qr (projectOut out.mat (0 : Matrix (Fin m) (Fin 0) ℝ))).1ᵀ *
      (la.qr (projectOut out.mat (0 : Matrix (Fin m) (Fin 0) ℝ))).1 = 1 := la.qr_orth _
  refine ⟨?_, ?_⟩
  · change (hcat (0 : Matrix (Fin m) (Fin 0) ℝ) _)ᵀ * hcat (0 : Matrix (Fin m) (Fin 0) ℝ) _ = 1
    exact hcat_orth (orth_empty _) h2 (by simp)
  · change vcat (0 : Matrix (Fin 0) (Fin n) ℝ) _ = (hcat (0 : Matrix (Fin m) (Fin 0) ℝ) _)ᵀ * A
    rw [hcat_transpose, vcat_mul]
    congr 1
    ext i; exact i.elim0

/-- what is known of a QB2 run in which every rangefinder call captured what it could -/
theorem run_conclusions (la : LinAlg) (gauss : SkOpGen G) (p : ℤ) (blk : ℕ) (hblk : 0 < blk)
    (A : Matrix (Fin m) (Fin n) ℝ) (hmn : 0 < min m n) (k : ℤ) (hk : 0 < k)
    (tol : Tol) (w w' : World G) (st : QB2St m n)
    (h : qb2Run la (RF1 la (RS1 gauss p (orth la) 1)) blk A k tol w = .ok (st, w'))
    (hcap : ∀ x ∈ st.calls, Captures x) :
    (st.c : ℤ) ≤ min k (min m n : ℕ) ∧
    ((st.c : ℤ) = min k (min m n : ℕ) ∨
      ∃ t, tol = .val t ∧ 0 < t ∧ fro (A - st.Q * st.B) ≤ t * fro A) ∧
    (A - st.Q * st.B).rank = A.rank - st.c ∧
    (k ≤ A.rank ∨ min k (min m n : ℕ) ≤ blk → OrthoCols st.Q ∧ st.B = st.Qᵀ * A) ∧
    (A.rank ≤ k → (∀ t, tol = .val t → 0 ≤ t → fro (A - st.Q * st.B) ≤ t * fro A) ∧
      (tol = .nan → st.Q * st.B = A)) := by
  have hrf : RFShape (RF1 la (RS1 gauss p (orth la) 1)) m n := C05_rf1_shape la gauss _ _ (Or.inl rfl) _
  have hcall : qb2Call la (RF1 la (RS1 gauss p (orth la) 1)) blk false A k tol w =
      .ok ((⟨st.c, st.Q, st.B⟩, A), w') := by
    unfold qb2Call; rw [Py.bind_eq_of_ok h]; rfl
  obtain ⟨h1, h2⟩ := C05_qb2_exit la _ hrf blk hblk false A hmn k tol w w' _ _ hcall
  have h3 := C07_qb2_rank_drop la _ blk A hmn k tol w w' st h hcap
  have h1' : (st.c : ℤ) ≤ min k (min m n : ℕ) := h1
  have h2' : (st.c : ℤ) = min k (min m n : ℕ) ∨
      ∃ t, tol = .val t ∧ 0 < t ∧ fro (A - st.Q * st.B) ≤ t * fro A := h2
  have hA1 := rank_le_width' A
  have hA2 : A.rank ≤ m := by simpa using A.rank_le_height
  have hex : A.rank ≤ k → (st.c : ℤ) = min k (min m n : ℕ) → A - st.Q * st.B = 0 := by
    intro hr hc
    exact rank_eq_zero_iff'.1 (by omega)
  refine ⟨h1', h2', h3, ?_, fun hr => ⟨?_, ?_⟩⟩
  · rintro (hkr | hkb)
    · exact C06_qb2_orthonormal_rank la _ hrf blk hblk A hmn k hkr tol w w' st h hcap
    · exact single_block la _ hrf blk A hmn k hk (by omega) tol w w' st h
  · rintro t rfl ht
    rcases h2' with hc | ⟨t', e, -, he⟩
    · rw [hex hr hc, fro_zero]
      exact mul_nonneg ht (fro_nonneg A)
    · cases e; exact he
  · rintro rfl
    rcases h2' with hc | ⟨t', e, -⟩
    · exact (sub_eq_zero.1 (hex hr hc)).symm
    · cases e

/-- **C63** (`qb_b`).  With `inner_num_pass ≥ 2` and Gaussian sketches, for almost every sequence of draws
`qb_b(p, blk, overwrite, A, k, tol, rng)` returns, with `min(k, m, n)` columns or the tolerance met; the residual's
rank is exactly `rank(A)` minus the number of columns (floored at 0); `Q` is orthonormal with `B = Q'A` if
`k ≤ rank(A)` or everything fits in one block; and if `k ≥ rank(A)` every tolerance is met, `QB = A` without one. -/
theorem C63_qb_b (A : Matrix (Fin m) (Fin n) ℝ) (hmn : 0 < min m n) (k : ℤ) (hk : 0 < k) (p : ℤ) (hp : 2 ≤ p)
    (blk : ℕ) (hblk : 0 < blk) :
    ∀ᵐ Zs ∂(normalSeq (startRows (p - 2) m n) (blockWidths (min k.toNat (min m n)) blk)),
      ∀ (G : Type) (la : LinAlg) (R : NpRng G) (ow : Bool) (tol : Tol) (w : World G), NextDraws R _ w.rng Zs →
      ∃ (out : QBOut m n) (A' : Matrix (Fin m) (Fin n) ℝ) (w' : World G),
        qbB la (gaussianOperator R true) p blk ow A k tol w = .ok ((out, A'), w') ∧
        (out.c : ℤ) ≤ min k (min m n : ℕ) ∧
        ((out.c : ℤ) = min k (min m n : ℕ) ∨
          ∃ t, tol = .val t ∧ 0 < t ∧ fro (A - out.Q * out.B) ≤ t * fro A) ∧
        (A - out.Q * out.B).rank = A.rank - out.c ∧
        (k ≤ A.rank ∨ min k (min m n : ℕ) ≤ blk → OrthoCols out.Q ∧ out.B = out.Qᵀ * A) ∧
        (A.rank ≤ k → (∀ t, tol = .val t → 0 ≤ t → fro (A - out.Q * out.B) ≤ t * fro A) ∧
          (tol = .nan → out.Q * out.B = A)) := by
  filter_upwards [qb2Run_ae A hmn k hk (p - 2) (by omega) blk hblk] with Zs hZs G la R ow tol w hw
  obtain ⟨st, w', h1, h2⟩ := hZs G la R tol w hw
  refine ⟨⟨st.c, st.Q, st.B⟩, if ow then st.A else A, w', ?_,
    run_conclusions la _ (p - 2) blk hblk A hmn k hk tol w w' st h1 h2⟩
  unfold qbB qb2Call
  rw [Py.bind_eq_of_ok h1]
  rfl

/-- **C63** (`svd1`).  With `inner_num_pass ≥ 2` and Gaussian sketches, for almost every sequence of draws
`svd1(A, k, over, tol, p, blk, rng)` returns.  If `k + over ≤ rank(A)`, or everything fits in one block, the
factors are valid: at most `k` components, `U` and `Vh` orthonormal, the singular values non-increasing and at least
`10 eps`.  If moreover `k + over ≥ rank(A)` the result is a best rank-`k` approximation up to the tolerance and the
singular values below `10 eps` that are dropped (`s` are the singular values of `A`). -/
theorem C63_svd1 (A : Matrix (Fin m) (Fin n) ℝ) (hmn : 0 < min m n)
    {r : ℕ} {U : Matrix (Fin m) (Fin r) ℝ} {s : Fin r → ℝ} {V : Matrix (Fin n) (Fin r) ℝ} (hA : IsSVD A U s V)
    (k over : ℕ) (hk : 0 < k + over) (p : ℤ) (hp : 2 ≤ p) (blk : ℕ) (hblk : 0 < blk) :
    ∀ᵐ Zs ∂(normalSeq (startRows (p - 2) m n) (blockWidths (min (k + over) (min m n)) blk)),
      ∀ (G : Type) (la : LinAlg) (R : NpRng G) (tol : Tol) (w : World G), NextDraws R _ w.rng Zs →
      ∃ (out : SVDOut m n) (w' : World G),
        svd1 la (gaussianOperator R true) A k over tol p blk w = .ok (out, w') ∧
        (k + over ≤ A.rank ∨ min (k + over) (min m n) ≤ blk →
          out.r ≤ k ∧ OrthoCols out.U ∧ OrthoRows out.Vh ∧ Antitone out.s ∧ (∀ i, 10 * eps ≤ out.s i) ∧
          tailSq s k ≤ fro (A - out.U * diagonal out.s * out.Vh) ^ 2 ∧
          (A.rank ≤ k + over → ∀ t, 0 ≤ t → tol = .val t ∨ tol = .nan →
            fro (A - out.U * diagonal out.s * out.Vh) ^ 2 ≤
              tailSq s k + (t * fro A) ^ 2 + (10 * eps) ^ 2 * (min (k + over) n : ℕ))) := by
  have hae := qb2Run_ae A hmn ((k + over : ℕ) : ℤ) (by exact_mod_cast hk) (p - 2) (by omega) blk hblk
  rw [Int.toNat_natCast] at hae
  filter_upwards [hae] with Zs hZs G la R tol w hw
  obtain ⟨st, w', h1, h2⟩ := hZs G la R tol w hw
  have hc := run_conclusions la _ (p - 2) blk hblk A hmn _ (by exact_mod_cast hk) tol w w' st h1 h2
  have hqb : QB2 la (RF1 la (RS1 (gaussianOperator R true) (p - 2) (orth la) 1)) blk false m n A
      ((k + over : ℕ) : ℤ) tol w = .ok (⟨st.c, st.Q, st.B⟩, w') := by
    unfold QB2 qb2Call
    rw [Py.bind_eq_of_ok (Py.bind_eq_of_ok h1)]; rfl
  have hex : ∃ out : SVDOut m n, svd1 la (gaussianOperator R true) A k over tol p blk w = .ok (out, w') := by
    obtain ⟨r, hr, hcall, -⟩ := svd1_open la _ A k tol over w w' _ hqb
    exact ⟨_, hcall⟩
  obtain ⟨out, hout⟩ := hex
  refine ⟨out, w', hout, fun hor => ?_⟩
  obtain ⟨hQ, hB⟩ := hc.2.2.2.1 (by
    rcases hor with h | h
    · left; exact_mod_cast h
    · right; exact_mod_cast h)
  have hcc : st.c ≤ k + over := by
    have := hc.1
    omega
  obtain ⟨out', g1, g2, g3, g4, g5, g6, -⟩ := C12_svd1_valid la _ A k tol over w w' _ hqb hQ hcc
  obtain ⟨out'', g1', e1, e2⟩ := C62_svd1_near_optimal la _ A hA k tol over w w' _ hqb hQ hB hcc
  have hout' : svd1 la (gaussianOperator R true) A k over tol p blk w = .ok (out', w') := g1
  have hout'' : svd1 la (gaussianOperator R true) A k over tol p blk w = .ok (out'', w') := g1'
  rw [hout] at hout' hout''
  cases hout'
  cases hout''
  refine ⟨g2, g3, g4, g5, g6, e1, fun hr t ht htol => e2.trans ?_⟩
  obtain ⟨f1, f2⟩ := hc.2.2.2.2 (by exact_mod_cast hr)
  have h5 : fro (A - st.Q * st.B) ≤ t * fro A := by
    rcases htol with h | h
    · exact f1 t h ht
    · rw [f2 h, sub_self, fro_zero]
      exact mul_nonneg ht (fro_nonneg A)
  have h6 := pow_le_pow_left₀ (fro_nonneg (A - st.Q * st.B)) h5 2
  have h7 : ((min st.c n : ℕ) : ℝ) ≤ (min (k + over) n : ℕ) := by
    exact_mod_cast (by omega : min st.c n ≤ min (k + over) n)
  have h8 := mul_le_mul_of_nonneg_left h7 (sq_nonneg (10 * eps))
  change tailSq s k + fro (A - st.Q * st.B) ^ 2 + (10 * eps) ^ 2 * ((min st.c n : ℕ) : ℝ) ≤ _
  linarith

/-- **C63** (`svd1`, tolerance).  Without oversampling and with `k ≥ rank(A)`, for almost every sequence of draws the
relative error of `svd1(A, k, 0, tol, p, blk, rng)` is at most `tol`, up to the singular values below `10 eps` that
it drops - also when several blocks make `Q` lose orthonormality. -/
theorem C63_svd1_tolerance (A : Matrix (Fin m) (Fin n) ℝ) (hmn : 0 < min m n) (k : ℕ) (hk : 0 < k)
    (hr : A.rank ≤ k) (p : ℤ) (hp : 2 ≤ p) (blk : ℕ) (hblk : 0 < blk) :
    ∀ᵐ Zs ∂(normalSeq (startRows (p - 2) m n) (blockWidths (min k (min m n)) blk)),
      ∀ (G : Type) (la : LinAlg) (R : NpRng G) (t : ℝ) (w : World G), 0 ≤ t → NextDraws R _ w.rng Zs →
      ∃ (out : SVDOut m n) (w' : World G),
        svd1 la (gaussianOperator R true) A k 0 (.val t) p blk w = .ok (out, w') ∧
        fro (A - out.U * diagonal out.s * out.Vh) ≤ t * fro A + 10 * eps * (min k (min m n) : ℕ) := by
  have hae := qb2Run_ae A hmn ((k + 0 : ℕ) : ℤ) (by exact_mod_cast hk) (p - 2) (by omega) blk hblk
  rw [Int.toNat_natCast] at hae
  filter_upwards [hae] with Zs hZs G la R t w ht hw
  obtain ⟨st, w', h1, h2⟩ := hZs G la R (.val t) w hw
  have hc := run_conclusions la _ (p - 2) blk hblk A hmn _ (by exact_mod_cast hk) (.val t) w w' st h1 h2
  have hqb : QB2 la (RF1 la (RS1 (gaussianOperator R true) (p - 2) (orth la) 1)) blk false m n A
      ((k + 0 : ℕ) : ℤ) (.val t) w = .ok (⟨st.c, st.Q, st.B⟩, w') := by
    unfold QB2 qb2Call
    rw [Py.bind_eq_of_ok (Py.bind_eq_of_ok h1)]; rfl
  obtain ⟨out, hout, -, he⟩ := C13_svd1_tolerance la _ A k (.val t) w w' _ hqb
  refine ⟨out, w', hout, (he (C06_qb2_unconditional la _ blk A hmn _ _ w w' st h1).1).trans ?_⟩
  refine add_le_add ((hc.2.2.2.2 (by exact_mod_cast hr)).1 t rfl ht) ?_
  have h7 : (st.c : ℝ) ≤ (min k (min m n) : ℕ) := by
    have := hc.1
    exact_mod_cast (by omega : st.c ≤ min k (min m n))
  exact mul_le_mul_of_nonneg_left h7 (by have := eps_pos; positivity)

/-- **C63** (`evd1`).  With `inner_num_pass ≥ 2`, a target rank `1 ≤ k ≤ n`, a tolerance that is not negative (or
none) and Gaussian sketches, for almost every sequence of draws `evd1(A, k, tol, over, p, blk, rng)` returns for a
symmetric `A`.  If `k + over ≤ rank(A)`, or everything fits in one block, the factors are valid: at most `k`
components, `V` orthonormal, the eigenvalues in order of decreasing magnitude and above `10 eps`.  If moreover
`k + over ≥ rank(A)` the result is a best rank-`k` approximation up to the tolerance and the eigenvalues below
`10 eps` that are dropped (`s` are the singular values of `A`). -/
theorem C63_evd1 (A : Matrix (Fin n) (Fin n) ℝ) (hsym : Aᵀ = A)
    {r : ℕ} {U : Matrix (Fin n) (Fin r) ℝ} {s : Fin r → ℝ} {V : Matrix (Fin n) (Fin r) ℝ} (hA : IsSVD A U s V)
    (k over : ℕ) (hk : 0 < k) (hk' : k ≤ n) (p : ℤ) (hp : 2 ≤ p) (blk : ℕ) (hblk : 0 < blk) :
    ∀ᵐ Zs ∂(normalSeq (startRows (p - 2) n n) (blockWidths (min (k + over) n) blk)),
      ∀ (G : Type) (la : LinAlg) (R : NpRng G) (tol : Tol) (w : World G),
      (tol = .nan ∨ ∃ t, tol = .val t ∧ 0 ≤ t) → NextDraws R _ w.rng Zs →
      ∃ (out : EVDOut n) (w' : World G),
        evd1 la (gaussianOperator R true) A k tol over p blk w = .ok (out, w') ∧
        (k + over ≤ A.rank ∨ min (k + over) n ≤ blk →
          out.r ≤ k ∧ OrthoCols out.V ∧ (∀ i j, i ≤ j → |out.lamb j| ≤ |out.lamb i|) ∧
          (∀ i, 10 * eps < |out.lamb i|) ∧
          √(tailSq s k) ≤ fro (A - out.V * diagonal out.lamb * out.Vᵀ) ∧
          (A.rank ≤ k + over → ∀ t, 0 ≤ t → tol = .val t ∨ tol = .nan →
            fro (A - out.V * diagonal out.lamb * out.Vᵀ) ≤
              √2 / 4 * t * fro A + √(tailSq s k + (10 * eps) ^ 2 * (k + over : ℕ)))) := by
  have hn : 0 < min n n := by omega
  have hko : 0 < k + over := by omega
  have hae := qb2Run_ae A hn ((k + over : ℕ) : ℤ) (by exact_mod_cast hko) (p - 2) (by omega) blk hblk
  rw [Int.toNat_natCast, min_self] at hae
  filter_upwards [hae] with Zs hZs G la R tol w htol hw
  obtain ⟨st, w', h1, h2⟩ := hZs G la R tol.half.half w hw
  have hc := run_conclusions la _ (p - 2) blk hblk A hn _ (by exact_mod_cast hko) tol.half.half w w' st h1 h2
  have hqb : QB2 la (RF1 la (RS1 (gaussianOperator R true) (p - 2) (orth la) 1)) blk false n n A
      ((k : ℤ) + over) tol.half.half w = .ok (⟨st.c, st.Q, st.B⟩, w') := by
    unfold QB2 qb2Call
    rw [← Nat.cast_add, Py.bind_eq_of_ok (Py.bind_eq_of_ok h1)]; rfl
  have htol' : tol.half = .nan ∨ ∃ t, tol.half = .val t ∧ 0 ≤ t := by
    rcases htol with rfl | ⟨t, rfl, ht⟩
    · exact Or.inl rfl
    · exact Or.inr ⟨t / 2, rfl, by positivity⟩
  have hopen : ∀ out, evd1Call la (QB2 la (RF1 la (RS1 (gaussianOperator R true) (p - 2) (orth la) 1)) blk false)
      A k tol.half over w = .ok (out, w') →
      evd1 la (gaussianOperator R true) A k tol over p blk w = .ok (out, w') := by
    intro out h
    unfold evd1
    rw [Py.assert_pos_bind hp]; exact h
  have hk0 : 0 < (k : ℤ) := by exact_mod_cast hk
  have hk1 : (k : ℤ) ≤ n := by exact_mod_cast hk'
  obtain ⟨out, hout⟩ : ∃ out, evd1Call la
      (QB2 la (RF1 la (RS1 (gaussianOperator R true) (p - 2) (orth la) 1)) blk false)
      A k tol.half over w = .ok (out, w') :=
    ⟨_, evd1_open la _ A k hk0 hk1 tol.half htol' over w w' _ hqb⟩
  refine ⟨out, w', hopen out hout, fun hor => ?_⟩
  obtain ⟨hQ, hB⟩ := hc.2.2.2.1 (by
    rcases hor with h | h
    · left; exact_mod_cast h
    · right; rw [min_self]; exact_mod_cast h)
  obtain ⟨out', g1, g2, g3, g4, g5, -⟩ := C14_evd1_valid la _ A hsym k hk0 hk1 tol.half htol' over w w' _ hqb hQ hB
  obtain ⟨out'', g1', e1, e2⟩ := C62_evd1_near_optimal la _ A hsym hA k hk0 hk1 tol.half htol' over w w' _ hqb hQ hB
  rw [hout] at g1 g1'
  cases g1
  cases g1'
  rw [Int.toNat_natCast] at g5 e1 e2
  refine ⟨by rw [g5]; exact min_le_left _ _, g2, g3, g4, e1, fun hr t ht htt => e2.trans ?_⟩
  obtain ⟨f1, f2⟩ := hc.2.2.2.2 (by exact_mod_cast hr)
  have h5 : fro (A - st.Q * st.B) ≤ t / 2 / 2 * fro A := by
    rcases htt with rfl | rfl
    · exact f1 (t / 2 / 2) rfl (by positivity)
    · rw [f2 rfl, sub_self, fro_zero]
      exact mul_nonneg (by positivity) (fro_nonneg A)
  refine add_le_add ?_ (Real.sqrt_le_sqrt (add_le_add le_rfl ?_))
  · have := mul_le_mul_of_nonneg_left h5 (Real.sqrt_nonneg 2)
    change √2 * fro (A - st.Q * st.B) ≤ _
    linarith
  · refine mul_le_mul_of_nonneg_left ?_ (sq_nonneg _)
    change (st.c : ℝ) ≤ _
    have := hc.1
    exact_mod_cast (by omega : st.c ≤ k + over)

/-! ### Non-vacuity -/

example : blockWidths 5 2 = [2, 2, 1] := by decide

example : blockWidths 6 3 = [3, 3] := by decide

/-- a generator that returns two given arrays one after the other: its state counts the calls -/
noncomputable def twoDraws {r b c : ℕ} (Z : Fin r × Fin b → ℝ) (Z' : Fin r × Fin c → ℝ) : NpRng ℕ :=
  { demoRng with
    standardNormal := fun r' b' g =>
      (fun i j => if g = 0 then (if h : i.1 < r ∧ j.1 < b then Z (⟨i.1, h.1⟩, ⟨j.1, h.2⟩) else 0)
        else (if h : i.1 < r ∧ j.1 < c then Z' (⟨i.1, h.1⟩, ⟨j.1, h.2⟩) else 0), g + 1) }

/-- every pair of draws is produced by some generator -/
example {r b c : ℕ} (Z : Fin r × Fin b → ℝ) (Z' : Fin r × Fin c → ℝ) :
    NextDraws (twoDraws Z Z') [b, c] 0 (Z, Z', ()) := by
  refine ⟨?_, ?_, trivial⟩
  · ext i j
    simp [twoDraws, drawMat]
  · ext i j
    simp [twoDraws, drawMat]

end Parla.Props
