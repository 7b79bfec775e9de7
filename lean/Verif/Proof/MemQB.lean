import Verif.Proof.MemSaddle
import Verif.SpecMem
import Verif.Proof.Mat

/-! # QB2 on mutable arrays -/

namespace Parla.Proof

open Matrix

variable {G : Type} {m n : ℕ} {h : Heap}

/-- the loop state by value -/
noncomputable def _root_.Parla.QB2Locals.st (s : QB2Locals m n) (A : Matrix (Fin m) (Fin n) ℝ) (calls : List (RFCall m n)) : QB2St m n :=
  ⟨s.c, s.Q, s.B, A, s.sqn, s.blk, calls⟩

theorem qb2Loop_sim (la : LinAlg) (rf : RangeFinder G) (k : ℕ) (useTol : Prop) (ab : ℝ) (A : ℕ) (A0 : Matrix (Fin m) (Fin n) ℝ) :
    ∀ (fuel : ℕ) (s : QB2Locals m n) (w : World G) (h : Heap) (calls : List (RFCall m n)),
      Deflated A0 (h.mat A m n) →
      OnlyModifies {A} h (qb2LoopM la rf k useTol ab A fuel s w h).2 ∧
      Deflated A0 ((qb2LoopM la rf k useTol ab A fuel s w h).2.mat A m n) ∧
      match (qb2LoopM la rf k useTol ab A fuel s w h).1 with
      | .ok (s', w') => ∃ calls', qb2Loop la rf k useTol ab fuel (s.st (h.mat A m n) calls) w =
            .ok (s'.st ((qb2LoopM la rf k useTol ab A fuel s w h).2.mat A m n) calls', w')
      | .error e => qb2Loop la rf k useTol ab fuel (s.st (h.mat A m n) calls) w = .error e := by
  intro fuel
  induction fuel with
  | zero => exact fun s w h calls hA => ⟨om_refl _ _, hA, rfl⟩
  | succ fuel ih =>
    intro s w h calls hA
    rcases hrf : qb2Draw rf (h.mat A m n) (qb2Blk k s.c s.blk) w with e | ⟨out, w1⟩
    · have hst : qb2StepM la rf k A s w h = (.error e, h) := by
        have : qb2StepM la rf k A s w h = (Mem.lift (qb2Draw rf (h.mat A m n) (qb2Blk k s.c s.blk) w) >>= _ ) h := rfl
        rw [hrf] at this
        exact this
      have hl : qb2LoopM la rf k useTol ab A (fuel + 1) s w h = (.error e, h) := mem_bind_error hst _
      have hp : qb2Loop la rf k useTol ab (fuel + 1) (s.st (h.mat A m n) calls) w = .error e := Py.bind_eq_of_error hrf
      rw [hl]
      exact ⟨om_refl _ _, hA, hp⟩
    · obtain ⟨Qi, hQi⟩ : ∃ Qi, Qi = (la.qr (projectOut out.mat s.Q)).1 := ⟨_, rfl⟩
      obtain ⟨Bi, hBi⟩ : ∃ Bi, Bi = Qiᵀ * h.mat A m n := ⟨_, rfl⟩
      obtain ⟨h1, hh1⟩ : ∃ h1, h1 = h.setM A (h.mat A m n - Qi * Bi) := ⟨_, rfl⟩
      obtain ⟨s1, hs1⟩ : ∃ s1 : QB2Locals m n, s1 = ⟨s.c + min m out.c, hcat s.Q Qi, vcat s.B Bi, s.sqn - fro Bi ^ 2, qb2Blk k s.c s.blk⟩ := ⟨_, rfl⟩
      have hst : qb2StepM la rf k A s w h = (.ok (s1, w1), h1) := by
        have : qb2StepM la rf k A s w h = (Mem.lift (qb2Draw rf (h.mat A m n) (qb2Blk k s.c s.blk) w) >>= _ ) h := rfl
        rw [hrf] at this
        rw [this, hs1, hh1, hBi, hQi]
        rfl
      have hm1 : h1.mat A m n = h.mat A m n - Qi * Bi := by rw [hh1]; exact setM_self _ _ _
      have ho1 : OnlyModifies {A} h h1 := hh1 ▸ om_setM (om_refl _ _) _ (Or.inl rfl)
      have hA1 : Deflated A0 (h1.mat A m n) := by
        obtain ⟨L, hL, hLA⟩ := hA
        refine ⟨L ++ [⟨_, Qi⟩], ?_, ?_⟩
        · intro Q hQ
          rcases List.mem_append.mp hQ with hQ | hQ
          · exact hL Q hQ
          · rw [List.mem_singleton.mp hQ]
            show Qiᵀ * Qi = 1
            rw [hQi]
            exact la.qr_orth _
        · rw [List.foldl_append, ← hLA, hm1, hBi]
          rfl
      have hup : qb2Update la (qb2Blk k s.c s.blk) (s.st (h.mat A m n) calls) out =
          s1.st (h1.mat A m n) (calls ++ [⟨h.mat A m n, qb2Blk k s.c s.blk, out⟩]) := by
        rw [hm1, hs1, hBi, hQi]
        rfl
      have hp : qb2Loop la rf k useTol ab (fuel + 1) (s.st (h.mat A m n) calls) w = _ := Py.bind_eq_of_ok hrf
      rw [show qb2Blk k (s.st (h.mat A m n) calls).c (s.st (h.mat A m n) calls).blk = qb2Blk k s.c s.blk from rfl, hup] at hp
      have hl : qb2LoopM la rf k useTol ab A (fuel + 1) s w h = _ := mem_bind_ok hst _
      simp only at hp hl
      rw [show (s1.st (h1.mat A m n) (calls ++ [⟨h.mat A m n, qb2Blk k s.c s.blk, out⟩])).sqn = s1.sqn from rfl,
        show (s1.st (h1.mat A m n) (calls ++ [⟨h.mat A m n, qb2Blk k s.c s.blk, out⟩])).c = s1.c from rfl] at hp
      by_cases t1 : useTol ∧ s1.sqn ≤ ab
      · rw [if_pos t1] at hp hl
        rw [hl, hp]
        exact ⟨ho1, hA1, _, rfl⟩
      rw [if_neg t1] at hp hl
      by_cases t2 : s1.c ≥ k
      · rw [if_pos t2] at hp hl
        rw [hl, hp]
        exact ⟨ho1, hA1, _, rfl⟩
      rw [if_neg t2] at hp hl
      rw [hl, hp]
      obtain ⟨i1, i2, i3⟩ := ih s1 w1 h1 (calls ++ [⟨h.mat A m n, qb2Blk k s.c s.blk, out⟩]) hA1
      exact ⟨om_trans ho1 i1, i2, i3⟩

theorem lift_step {α β : Type} {x : Except PyErr α} {f : α → Mem β} {h : Heap} :
    (Mem.lift x >>= f) h = match x with | .error e => (.error e, h) | .ok a => f a h := by
  rcases x with e | a <;> rfl

theorem qb2Body_sim (la : LinAlg) (rf : RangeFinder G) (blk : ℕ) {A : ℕ} (hA : A < h.next) (k : ℤ) (tol : Tol) (w : World G) :
    OnlyModifies {A} h (qb2BodyM la rf blk m n A k tol w h).2 ∧
    Deflated (h.mat A m n) ((qb2BodyM la rf blk m n A k tol w h).2.mat A m n) ∧
    match (qb2BodyM la rf blk m n A k tol w h).1 with
    | .ok (o, w') => ∃ st, qb2Run la rf blk (h.mat A m n) k tol w = .ok (st, w') ∧ o.c = st.c ∧ h.next ≤ o.Q ∧
        o.Q < (qb2BodyM la rf blk m n A k tol w h).2.next ∧ (qb2BodyM la rf blk m n A k tol w h).2.mat o.Q m st.c = st.Q ∧
        h.next ≤ o.B ∧ o.B < (qb2BodyM la rf blk m n A k tol w h).2.next ∧
        (qb2BodyM la rf blk m n A k tol w h).2.mat o.B st.c n = st.B ∧ o.Q ≠ o.B ∧
        (qb2BodyM la rf blk m n A k tol w h).2.mat A m n = st.A
    | .error e => qb2Run la rf blk (h.mat A m n) k tol w = .error e := by
  have hself : Deflated (h.mat A m n) (h.mat A m n) := ⟨[], by simp, rfl⟩
  have hb : qb2BodyM la rf blk m n A k tol w h = _ := lift_step
  rcases h1 : (Py.assert (k > 0) w : Except PyErr (Unit × World G)) with e | ⟨u, w1⟩
  · rw [h1] at hb
    simp only at hb
    have hp : qb2Run la rf blk (h.mat A m n) k tol w = .error e := Py.bind_eq_of_error h1
    rw [hb]
    exact ⟨om_refl _ _, hself, hp⟩
  rw [h1] at hb
  have hp : qb2Run la rf blk (h.mat A m n) k tol w = _ := Py.bind_eq_of_ok h1
  simp only [lift_step] at hb
  obtain ⟨kk, hkk⟩ : ∃ kk : Py G ℤ, kk = (if ¬ k ≤ (min m n : ℕ) then do Py.warn; pure ((min m n : ℕ) : ℤ) else pure k : Py G ℤ) := ⟨_, rfl⟩
  rw [← hkk] at hb hp
  rcases h2 : kk w1 with e | ⟨k', w2⟩
  · rw [h2] at hb
    rw [Py.bind_eq_of_error h2] at hp
    simp only at hb
    rw [hb]
    exact ⟨om_refl _ _, hself, hp⟩
  rw [h2] at hb
  rw [Py.bind_eq_of_ok h2] at hp
  simp only at hb
  rcases h3 : (Py.assert (k' ≤ (min m n : ℕ)) w2 : Except PyErr (Unit × World G)) with e | ⟨u, w3⟩
  · rw [h3] at hb
    rw [Py.bind_eq_of_error h3] at hp
    simp only at hb
    rw [hb]
    exact ⟨om_refl _ _, hself, hp⟩
  rw [h3] at hb
  rw [Py.bind_eq_of_ok h3] at hp
  simp only at hb
  rw [mem_getM] at hb
  obtain ⟨i1, i2, i3⟩ := qb2Loop_sim la rf k'.toNat tol.use (absSqTol tol (h.mat A m n)) A (h.mat A m n) (k'.toNat + 1)
    (⟨0, 0, 0, fro (h.mat A m n) ^ 2, blk⟩ : QB2Locals m n) w3 h [] hself
  have hinit : (⟨0, 0, 0, fro (h.mat A m n) ^ 2, blk⟩ : QB2Locals m n).st (h.mat A m n) [] = qb2Init (h.mat A m n) blk := rfl
  rw [hinit] at i3
  rcases hl : qb2LoopM la rf k'.toNat tol.use (absSqTol tol (h.mat A m n)) A (k'.toNat + 1)
    (⟨0, 0, 0, fro (h.mat A m n) ^ 2, blk⟩ : QB2Locals m n) w3 h with ⟨e | ⟨s, w4⟩, h4⟩
  · rw [hl] at i1 i2 i3
    rw [mem_bind_error hl] at hb
    rw [hb]
    exact ⟨i1, i2, hp.trans i3⟩
  · rw [hl] at i1 i2 i3
    rw [mem_bind_ok hl] at hb
    obtain ⟨calls', hc⟩ := i3
    have l4 : h.next ≤ h4.next := i1.1
    have hb2 : qb2BodyM la rf blk m n A k tol w h = (.ok (⟨s.c, h4.next, h4.next + 1⟩, w4), (h4.newM s.Q).newM s.B) := hb
    have o5 : OnlyModifies ∅ h4 ((h4.newM s.Q).newM s.B) := om_newM (om_newM (om_refl _ _) _) _
    have hAm : ((h4.newM s.Q).newM s.B).mat A m n = h4.mat A m n := om_mat o5 (by omega) (by simp) _ _
    have hQm : ((h4.newM s.Q).newM s.B).mat h4.next m s.c = s.Q := by
      have o6 : OnlyModifies ∅ (h4.newM s.Q) ((h4.newM s.Q).newM s.B) := om_newM (om_refl _ _) _
      have hlt : h4.next < (h4.newM s.Q).next := Nat.lt_succ_self _
      rw [om_mat o6 hlt (by simp)]
      exact newM_self _ _
    rw [hb2]
    refine ⟨om_trans i1 (om_mono o5 (by simp)), hAm.symm ▸ i2, _, hp.trans hc, rfl, l4, ?_, hQm, ?_, ?_, newM_self _ _, ?_, ?_⟩
    · show h4.next < h4.next + 1 + 1; omega
    · show h.next ≤ h4.next + 1; omega
    · show h4.next + 1 < h4.next + 1 + 1; omega
    · show h4.next ≠ h4.next + 1; omega
    · exact hAm

end Parla.Proof
