import Verif.Proof.MemLSQR
import Verif.Proof.Precond

/-! # PcSS2 on mutable arrays -/

namespace Parla.Proof

open Matrix

variable {m n r p q : ℕ} {W : Set ℕ} {h0 h h' : Heap}

theorem mat_lift_zero (F : (k : ℕ) → Matrix (Fin k) (Fin n) ℝ) {e : ℕ} (he : e = 0) (S : Matrix (Fin e) (Fin n) ℝ) :
    F (m + e) = vcat (F m) S := by
  subst he
  ext i j
  have : i = Fin.castAdd 0 i := rfl
  conv_rhs => rw [this]
  rw [vcat_castAdd]
  rfl

theorem vec_lift_zero (F : (k : ℕ) → Fin k → ℝ) {e : ℕ} (he : e = 0) (S : Fin e → ℝ) :
    F (m + e) = catv (F m) S := by
  subst he
  ext i
  have : i = Fin.castAdd 0 i := rfl
  conv_rhs => rw [this]
  exact (Fin.addCases_left (motive := fun _ => ℝ) (left := F m) (right := S) i).symm

theorem topv_lift_zero (F : (k : ℕ) → Fin k → ℝ) {e : ℕ} (he : e = 0) : topv (F (m + e)) = F m := by
  subst he
  rfl

theorem choice_bind {α : Type} (c : Heap → Bool) (f : Bool → Mem α) (h : Heap) :
    (Mem.choice c >>= f) h = f (c h) h := rfl

theorem lift_bind_ok {α β : Type} (a : α) (f : α → Mem β) (h : Heap) :
    (Mem.lift (.ok a) >>= f) h = f a h := rfl

theorem lift_bind_error {α β : Type} (e : PyErr) (f : α → Mem β) (h : Heap) :
    (Mem.lift (.error e) >>= f) h = (.error e, h) := rfl

theorem computes_forwardTri {A_lift R w : ℕ} {A : Matrix (Fin m) (Fin n) ℝ} {δ : ℝ} (ip : Heap → Bool)
    (hA : A_lift < h0.next) (hAw : A_lift ≠ w) (hR : R < h0.next) (hRw : R ≠ w) (hw : w < h0.next)
    (hL : h0.mat A_lift (m + liftRows n (Real.sqrt δ)) n = aLift A (Real.sqrt δ)) :
    Computes h0 {w} (forwardTriM m n ip A_lift R w δ)
      fun x : Fin n → ℝ => (forwardTri A δ (h0.mat R n n) x 0).map Prod.fst := by
  intro h a hh ha haW
  have hl := hh.1
  have hRh := om_mat hh hR (by simpa using hRw) n n
  have hAh := om_mat hh hA (by simpa using hAw) (m + liftRows n (Real.sqrt δ)) n
  have hunf : forwardTriM m n ip A_lift R w δ a h = _ :=
    (mem_get _ _ _ _).trans ((mem_set _ _ _ _).trans ((mem_getM _ _ _ _ _).trans (mem_get _ _ _ _)))
  rw [setV_mat, setV_self, hRh] at hunf
  have hin : w ∈ ({w} : Set ℕ) := rfl
  have o1 : OnlyModifies {w} h (h.setV w (h.vec a n)) := om_setV (om_refl _ _) _ (Or.inl hin)
  unfold forwardTri
  rcases hs : solveUpperv (h0.mat R n n) (h.vec a n) with e | z
  · rw [hs, lift_bind_error] at hunf
    rw [hunf]
    simp only [hs]
    exact ⟨o1, rfl⟩
  · rw [hs, lift_bind_ok, choice_bind] at hunf
    cases hc : ip (h.setV w (h.vec a n))
    · rw [hc] at hunf
      simp only [Bool.false_eq_true, if_false, mem_new, mem_getM, mem_get, mem_new', newV_mat, setV_mat, newV_self,
        hAh, hL] at hunf
      rw [hunf]
      simp only [hs, bind, Except.bind, Except.map, pure, Except.pure]
      refine ⟨om_newV (om_newV o1 _) _, by simp, Or.inr (by simp), ?_⟩
      rw [newV_self]
    · rw [hc] at hunf
      simp only [if_true, mem_assoc, mem_set, mem_pure_bind, mem_getM, mem_get, mem_new', setV_mat, setV_self,
        hAh, hL] at hunf
      rw [hunf]
      simp only [hs, bind, Except.bind, Except.map, pure, Except.pure]
      refine ⟨om_newV (om_setV o1 _ (Or.inl hin)) _, by simp, Or.inr (by simp), ?_⟩
      rw [newV_self]

theorem adjointWork_sim {A w : ℕ} {δ : ℝ} {a : ℕ} (haw : a ≠ w) (h : Heap) :
    ∃ h', adjointWorkM m n A w δ a h = (.ok (), h') ∧ OnlyModifies {w} h h' ∧ h'.next = h.next ∧ h'.mat = h.mat ∧
      h'.vec w n = (if 0 < δ then (h.mat A m n)ᵀ *ᵥ topv (h.vec a (m + liftRows n (Real.sqrt δ))) +
        Real.sqrt δ • padv n (botv (h.vec a (m + liftRows n (Real.sqrt δ)))) else
        (h.mat A m n)ᵀ *ᵥ topv (h.vec a (m + liftRows n (Real.sqrt δ)))) := by
  have hin : w ∈ ({w} : Set ℕ) := rfl
  unfold adjointWorkM
  simp only [mem_getM, mem_get, mem_set]
  by_cases hδ : 0 < δ
  · rw [if_pos hδ, if_pos hδ]
    simp only [mem_get, setV_self, setV_vec _ _ _ haw]
    refine ⟨_, rfl, om_setV (om_setV (om_refl _ _) _ (Or.inl hin)) _ (Or.inl hin), rfl, rfl, ?_⟩
    rw [setV_self]
  · rw [if_neg hδ, if_neg hδ]
    refine ⟨_, rfl, om_setV (om_refl _ _) _ (Or.inl hin), rfl, rfl, ?_⟩
    rw [setV_self]

theorem computes_adjointTri {A R w : ℕ} {δ : ℝ} (hA : A < h0.next) (hAw : A ≠ w) (hR : R < h0.next) (hRw : R ≠ w) :
    Computes h0 {w} (adjointTriM m n A R w δ)
      fun y : Fin (m + liftRows n (Real.sqrt δ)) → ℝ => (adjointTri (h0.mat A m n) δ (h0.mat R n n) y 0).map Prod.fst := by
  intro h a hh ha haW
  have hl := hh.1
  have hRh := om_mat hh hR (by simpa using hRw) n n
  have hAh := om_mat hh hA (by simpa using hAw) m n
  obtain ⟨h1, hwk, o1, hn1, hm1, hv1⟩ := adjointWork_sim (m := m) (n := n) (A := A) (w := w) (δ := δ) (a := a)
    (by simpa using haW) h
  have hunf : adjointTriM m n A R w δ a h = _ :=
    (mem_bind_ok hwk _).trans ((mem_getM _ _ _ _ _).trans (mem_get _ _ _ _))
  rw [hm1, hv1, hRh, hAh] at hunf
  unfold adjointTri
  obtain ⟨wk, hwkv⟩ : ∃ wk, wk = (if 0 < δ then (h0.mat A m n)ᵀ *ᵥ topv (h.vec a (m + liftRows n (Real.sqrt δ))) +
        Real.sqrt δ • padv n (botv (h.vec a (m + liftRows n (Real.sqrt δ)))) else
        (h0.mat A m n)ᵀ *ᵥ topv (h.vec a (m + liftRows n (Real.sqrt δ)))) := ⟨_, rfl⟩
  rw [← hwkv] at hunf
  simp only
  rw [← hwkv]
  rcases hs : solveUpperTv (h0.mat R n n) wk with e | z
  · rw [hs, lift_bind_error] at hunf
    rw [hunf]
    exact ⟨o1, rfl⟩
  · rw [hs, lift_bind_ok, mem_new'] at hunf
    rw [hunf]
    simp only [bind, Except.bind, Except.map, pure, Except.pure]
    refine ⟨om_newV o1 _, by simp, Or.inr (by omega), ?_⟩
    rw [newV_self]

theorem computes_forwardGen {A_lift R w : ℕ} {A : Matrix (Fin m) (Fin n) ℝ} {δ : ℝ}
    (hA : A_lift < h0.next) (hAw : A_lift ≠ w) (hR : R < h0.next) (hRw : R ≠ w)
    (hL : h0.mat A_lift (m + liftRows n (Real.sqrt δ)) n = aLift A (Real.sqrt δ)) :
    Computes h0 {w} (forwardGenM m n r A_lift R w δ)
      fun x : Fin r → ℝ => (forwardGen A δ (h0.mat R n r) x 0).map Prod.fst := by
  intro h a hh ha haW
  have hl := hh.1
  have hRh := om_mat hh hR (by simpa using hRw) n r
  have hAh := om_mat hh hA (by simpa using hAw) (m + liftRows n (Real.sqrt δ)) n
  have hin : w ∈ ({w} : Set ℕ) := rfl
  have hunf : forwardGenM m n r A_lift R w δ a h = _ :=
    (mem_getM _ _ _ _ _).trans ((mem_get _ _ _ _).trans ((mem_set _ _ _ _).trans
      ((mem_getM _ _ _ _ _).trans ((mem_get _ _ _ _).trans (mem_new' _ _)))))
  rw [setV_mat, setV_self, hRh, hAh, hL] at hunf
  rw [hunf]
  simp only [forwardGen, Except.map]
  refine ⟨om_newV (om_setV (om_refl _ _) _ (Or.inl hin)) _, by simp, Or.inr (by simp), ?_⟩
  rw [newV_self]

theorem computes_adjointGen {A R w : ℕ} {δ : ℝ} (hA : A < h0.next) (hAw : A ≠ w) (hR : R < h0.next) (hRw : R ≠ w) :
    Computes h0 {w} (adjointGenM m n r A R w δ)
      fun y : Fin (m + liftRows n (Real.sqrt δ)) → ℝ => (adjointGen (h0.mat A m n) δ (h0.mat R n r) y 0).map Prod.fst := by
  intro h a hh ha haW
  have hl := hh.1
  have hRh := om_mat hh hR (by simpa using hRw) n r
  have hAh := om_mat hh hA (by simpa using hAw) m n
  obtain ⟨h1, hwk, o1, hn1, hm1, hv1⟩ := adjointWork_sim (m := m) (n := n) (A := A) (w := w) (δ := δ) (a := a)
    (by simpa using haW) h
  have hunf : adjointGenM m n r A R w δ a h = _ :=
    (mem_bind_ok hwk _).trans ((mem_getM _ _ _ _ _).trans ((mem_get _ _ _ _).trans (mem_new' _ _)))
  rw [hm1, hv1, hRh, hAh] at hunf
  rw [hunf]
  simp only [adjointGen, Except.map]
  refine ⟨om_newV o1 _, by simp, Or.inr (by omega), ?_⟩
  rw [newV_self]

/-- a handle that only reads -/
theorem computes_read {R w : ℕ} (hR : R < h0.next) (hRw : R ≠ w) (k l : ℕ)
    (f : Matrix (Fin k) (Fin l) ℝ → (Fin q → ℝ) → Except PyErr (Fin p → ℝ)) :
    Computes h0 {w} (fun z => do
      let x ← Mem.lift (f (← getMat k l R) (← getVec q z))
      newVec x) (f (h0.mat R k l)) := by
  intro h a hh ha haW
  have hRh := om_mat hh hR (by simpa using hRw) k l
  simp only [mem_getM, mem_get, hRh]
  rcases f (h0.mat R k l) (h.vec a q) with e | v
  · exact ⟨om_refl _ _, rfl⟩
  · simp only [lift_bind_ok, mem_new']
    exact ⟨om_newV (om_refl _ _) _, by simp, Or.inr le_rfl, newV_self _ _⟩

/-- the handle always returns a new array -/
def ReturnsNew (op : ℕ → Mem ℕ) : Prop := ∀ h a x h', op a h = (.ok x, h') → h.next ≤ x

theorem returnsNew_read (R k l : ℕ) (f : Matrix (Fin k) (Fin l) ℝ → (Fin q → ℝ) → Except PyErr (Fin p → ℝ)) :
    ReturnsNew (fun z => do
      let x ← Mem.lift (f (← getMat k l R) (← getVec q z))
      newVec x) := by
  intro h a x h' he
  simp only [mem_getM, mem_get] at he
  rcases hf : f (h.mat R k l) (h.vec a q) with e | v
  · rw [hf, lift_bind_error] at he; cases he
  · rw [hf, lift_bind_ok, mem_new'] at he
    cases he
    exact le_rfl

theorem aLift_sim {A : ℕ} (hA : A < h.next) (s : ℝ) :
    ∃ a h', aLiftM m n A s h = (.ok a, h') ∧ OnlyModifies ∅ h h' ∧ a < h'.next ∧
      h'.mat a (m + liftRows n s) n = aLift (h.mat A m n) s := by
  unfold aLiftM
  by_cases hs : s = 0
  · rw [if_pos hs]
    refine ⟨_, _, rfl, om_refl _ _, hA, ?_⟩
    subst hs
    exact mat_lift_zero (fun k => h.mat A k n) liftRows_zero _
  · rw [if_neg hs]
    refine ⟨_, _, rfl, om_newM (om_refl _ _) _, by simp, ?_⟩
    rw [newM_self]

theorem aLiftPrecond_sim {A : ℕ} (hA : A < h.next) (ip : Heap → Bool) (δ : ℝ) (P : PrecRef) (hP : P.addr < h.next) (k : ℕ) :
    ∃ res h1, aLiftPrecondM m n ip A δ P k h = (res, h1) ∧ OnlyModifies ∅ h h1 ∧
      match res, aLiftPrecond (h.mat A m n) δ (P.val n h) k with
      | .ok pc, .ok pcv => ∃ w, h.next ≤ w ∧ w < h1.next ∧ Computes h1 {w} pc.fwd pcv.op.mv ∧ Computes h1 {w} pc.adj pcv.op.rmv ∧
          Computes h1 {w} pc.mFwd pcv.mFwd ∧ Computes h1 {w} pc.mAdj pcv.mAdj ∧ ReturnsNew pc.mFwd
      | .error e, .error e' => e = e'
      | _, _ => False := by
  unfold aLiftPrecondM aLiftPrecond
  by_cases hk : k ≠ 1
  · rw [if_pos hk, if_pos hk]
    exact ⟨_, _, rfl, om_refl _ _, rfl⟩
  · rw [if_neg hk, if_neg hk]
    obtain ⟨a, h1, ha, o1, hlt, hal⟩ := aLift_sim (m := m) (n := n) hA (Real.sqrt δ)
    rw [mem_bind_ok ha, mem_new]
    obtain ⟨w, hw⟩ : ∃ w, w = h1.next := ⟨_, rfl⟩
    obtain ⟨h2, hh2⟩ : ∃ h2, h2 = h1.newV (0 : Fin n → ℝ) := ⟨_, rfl⟩
    rw [← hw, ← hh2]
    have o2 : OnlyModifies ∅ h h2 := hh2 ▸ om_newV o1 _
    have hn2 : h2.next = h1.next + 1 := by rw [hh2]; rfl
    have l1 := o1.1
    have hal2 : h2.mat a (m + liftRows n (Real.sqrt δ)) n = aLift (h.mat A m n) (Real.sqrt δ) := by
      rw [hh2, newV_mat, hal]
    have hA2 : h2.mat A m n = h.mat A m n := om_mat o2 hA (by simp) _ _
    rcases P with R | ⟨r, R⟩
    · have hP : R < h.next := hP
      have hR2 : h2.mat R n n = h.mat R n n := om_mat o2 hP (by simp) _ _
      refine ⟨_, _, rfl, o2, ?_⟩
      simp only [PrecRef.val]
      refine ⟨w, by omega, by omega, ?_, ?_, ?_, ?_, ?_⟩
      · have := computes_forwardTri (h0 := h2) (A_lift := a) (R := R) (w := w) ip (by omega) (by omega) (by omega) (by omega)
          (by omega) hal2
        rw [hR2] at this
        exact this
      · have := computes_adjointTri (h0 := h2) (m := m) (n := n) (A := A) (R := R) (w := w) (δ := δ) (by omega) (by omega)
          (by omega) (by omega)
        rw [hR2, hA2] at this
        exact this
      · have := computes_read (h0 := h2) (R := R) (w := w) (by omega) (by omega) n n (fun M v => solveUpperv M v)
        rw [hR2] at this
        exact this
      · have := computes_read (h0 := h2) (R := R) (w := w) (by omega) (by omega) n n (fun M v => solveUpperTv M v)
        rw [hR2] at this
        exact this
      · exact returnsNew_read R n n (fun M v => solveUpperv M v)
    · have hP : R < h.next := hP
      have hR2 : h2.mat R n r = h.mat R n r := om_mat o2 hP (by simp) _ _
      refine ⟨_, _, rfl, o2, ?_⟩
      simp only [PrecRef.val]
      refine ⟨w, by omega, by omega, ?_, ?_, ?_, ?_, ?_⟩
      · have := computes_forwardGen (h0 := h2) (A_lift := a) (R := R) (r := r) (w := w) (by omega) (by omega) (by omega)
          (by omega) hal2
        rw [hR2] at this
        exact this
      · have := computes_adjointGen (h0 := h2) (m := m) (n := n) (r := r) (A := A) (R := R) (w := w) (δ := δ) (by omega)
          (by omega) (by omega) (by omega)
        rw [hR2, hA2] at this
        exact this
      · have := computes_read (h0 := h2) (R := R) (w := w) (by omega) (by omega) n r
          (fun M (v : Fin r → ℝ) => Except.ok (M *ᵥ v))
        rw [hR2] at this
        exact this
      · have := computes_read (h0 := h2) (R := R) (w := w) (by omega) (by omega) n r
          (fun M (v : Fin n → ℝ) => Except.ok (Mᵀ *ᵥ v))
        rw [hR2] at this
        exact this
      · exact returnsNew_read R n r (fun M (v : Fin r → ℝ) => Except.ok (M *ᵥ v))

theorem sim_getM {α β : Type} {P : α → β → Heap → Prop} {a k l : ℕ} {M : Matrix (Fin k) (Fin l) ℝ}
    {f : Matrix (Fin k) (Fin l) ℝ → Mem α} {e : Except PyErr β} (hM : h.mat a k l = M) (h1 : Sim W h (f M) e P) :
    Sim W h (getMat k l a >>= f) e P := by
  unfold Sim
  rw [mem_getM, hM]
  exact h1

/-- calling a function handle that returns new arrays -/
theorem sim_callNew {op : ℕ → Mem ℕ} {f : (Fin q → ℝ) → Except PyErr (Fin p → ℝ)} (hop : Computes h0 W op f)
    (hnew : ReturnsNew op)
    (hW : ∀ a ∈ W, a < h0.next) (ho : OnlyModifies W h0 h) {a : ℕ} {v : Fin q → ℝ} (ha : Holds W h a q v) :
    Sim W h (op a) (f v) fun r w h' => Holds W h' r p w ∧ h.next ≤ r := by
  have := sim_call hop hW ho ha
  unfold Sim at this ⊢
  refine ⟨this.1, ?_⟩
  have h2 := this.2
  rcases hm : op a h with ⟨e1 | x, h'⟩ <;> rcases hfv : f v with e' | b <;> rw [hm, hfv] at h2
  · exact h2
  · exact h2
  · exact h2
  · exact ⟨h2.1, hnew _ _ _ _ hm⟩

theorem pcss2Over_sim {pc : LiftRefs} {δ : ℝ} {pcv : LiftPrecond m n r δ} {w : ℕ} (hw : w < h.next)
    (h1 : Computes h {w} pc.fwd pcv.op.mv) (h2 : Computes h {w} pc.adj pcv.op.rmv) (h3 : Computes h {w} pc.mFwd pcv.mFwd)
    (hnew : ReturnsNew pc.mFwd)
    {A b : ℕ} (hA : A < h.next) (hAw : A ≠ w) (hb : b < h.next) (hbw : b ≠ w) {z0 : Option ℕ} (hz : ∀ a ∈ z0, a < h.next ∧ a ≠ w)
    (tol : ℝ) (L : ℤ) :
    Sim {w} h (pcss2OverM m n r A δ pc b tol L z0)
      (pcss2Over (h.mat A m n) pcv (h.vec b m) tol L (z0.map fun a => h.vec a r)) fun o o' h' => o.Is o' h h' := by
  have hW : ∀ a ∈ ({w} : Set ℕ), a < h.next := by rintro a rfl; exact hw
  have hpure : pcss2Over (h.mat A m n) pcv (h.vec b m) tol L (z0.map fun a => h.vec a r) = (do
      let result ← lsqr pcv.op (catv (h.vec b m) 0) 0 (pcss2Tol tol) (some L) (z0.map fun a => h.vec a r)
      let x ← pcv.mFwd result.x
      .ok ⟨some x, topv (catv (h.vec b m) (0 : Fin (liftRows n (Real.sqrt δ)) → ℝ)) - h.mat A m n *ᵥ x, result.arnorms⟩) := by
    unfold pcss2Over
    simp only
    rcases lsqr pcv.op (catv (h.vec b m) 0) 0 (pcss2Tol tol) (some L) (z0.map fun a => h.vec a r) with e | res
    · rfl
    · simp only [bind, Except.bind]
      rcases pcv.mFwd res.x with e | x <;> rfl
  rw [hpure]
  unfold pcss2OverM
  have hbr : Sim {w} h (if 0 < δ then (do newVec (catv (← getVec m b) (0 : Fin (liftRows n (Real.sqrt δ)) → ℝ)))
      else pure b : Mem ℕ) (.ok (catv (h.vec b m) (0 : Fin (liftRows n (Real.sqrt δ)) → ℝ)))
      fun a v h' => Holds {w} h' a (m + liftRows n (Real.sqrt δ)) v := by
    by_cases hδ : 0 < δ
    · rw [if_pos hδ]
      exact sim_get ⟨hb, by simpa using hbw, rfl⟩ (sim_new' hW fun h' o n hh => hh)
    · rw [if_neg hδ]
      refine sim_pure ⟨hb, by simpa using hbw, ?_⟩
      have e : Real.sqrt δ = 0 := Real.sqrt_eq_zero_of_nonpos (not_lt.mp hδ)
      exact vec_lift_zero (h.vec b) (by rw [e]; exact liftRows_zero) 0
  refine sim_bind' hbr ?_
  intro bl h4 o4 hbl
  refine sim_bind (lsqr_sim h1 h2 hW o4 hbl (x0 := z0) (xv := z0.map fun a => h.vec a r) ?_ 0 (pcss2Tol tol) (some L) false) ?_
  · rcases z0 with _ | z
    · trivial
    · have := hz z rfl
      exact Holds.om ⟨this.1, by simpa using this.2, rfl⟩ o4
  rintro res resv h5 o5 ⟨hx, hvar, -, -, hor, hrest⟩
  have O5 := om_trans o4 o5
  refine sim_bind (sim_callNew h3 hnew hW O5 hx) ?_
  rintro x xv h6 o6 ⟨hxv, hxor⟩
  have O6 := om_trans O5 o6
  refine sim_get ((hbl.om o5).om o6) (sim_getM (om_mat O6 hA (by simpa using hAw) _ _) (sim_get hxv
    (sim_new (wlt hW O6) fun h7 o7 n7 hy => sim_pure ?_)))
  have l5 := O5.1
  have l6 := O6.1
  have hxlt := hxv.lt
  have hx7 := hxv.om o7
  refine ⟨⟨?_, hx7.lt, hx7.eq⟩, ⟨by omega, hy.lt, hy.eq⟩, ?_, ?_⟩
  · omega
  · simp only [ne_eq, Option.some.injEq]; omega
  · rw [← hrest]

/-- a computation that starts by setting up objects of its own -/
theorem sim_prefix {α β γ : Type} {P Q : γ → β → Heap → Prop} {W' : Set ℕ} {p : Mem α} {f : α → Mem γ} {a : α}
    {e : Except PyErr β} (hp : p h = (.ok a, h')) (ho : OnlyModifies W h h') (hW : ∀ a ∈ W', h.next ≤ a)
    (h1 : Sim W' h' (f a) e P) (h2 : ∀ x y h2, OnlyModifies W h h2 → P x y h2 → Q x y h2) : Sim W h (p >>= f) e Q := by
  unfold Sim at h1 ⊢
  rw [mem_bind_ok hp]
  have o2 : OnlyModifies W h (f a h').2 := om_trans' ho h1.1 (fun a ha hlt => by have := hW a ha; omega)
  refine ⟨o2, ?_⟩
  have h3 := h1.2
  rcases hm : f a h' with ⟨e1 | a, h'⟩ <;> rcases e with e' | b <;> rw [hm] at h3 o2
  · exact h3
  · exact h3
  · exact h3
  · exact h2 _ _ _ o2 h3

theorem SaddleRefs.is_mono {o : SaddleRefs} {o' : SaddleOut m n} (hi : o.Is o' h h') (hle : h0.next ≤ h.next) :
    o.Is o' h0 h' := by
  obtain ⟨ox, oy, oe⟩ := o
  obtain ⟨ox', oy', oe'⟩ := o'
  obtain ⟨hx, h1, h2⟩ := hi
  refine ⟨?_, ⟨hle.trans h1.1, h1.2⟩, h2⟩
  rcases ox with _ | x <;> rcases ox' with _ | xv
  · trivial
  · exact hx
  · exact hx
  · exact ⟨hle.trans hx.1, hx.2⟩

theorem pcss2Under_sim {pc : LiftRefs} {δ : ℝ} {pcv : LiftPrecond m n r δ} {w : ℕ} (hw : w < h.next)
    (h1 : Computes h {w} pc.fwd pcv.op.mv) (h2 : Computes h {w} pc.adj pcv.op.rmv) (h3 : Computes h {w} pc.mAdj pcv.mAdj)
    {A c : ℕ} (hA : A < h.next) (hAw : A ≠ w) (hc : c < h.next) (hcw : c ≠ w) (tol : ℝ) (L : ℤ) :
    Sim {w} h (pcss2UnderM m n r A δ pc c tol L) (pcss2Under (h.mat A m n) pcv (h.vec c n) tol L)
      fun o o' h' => o.Is o' h h' := by
  have hW : ∀ a ∈ ({w} : Set ℕ), a < h.next := by rintro a rfl; exact hw
  have hpure : pcss2Under (h.mat A m n) pcv (h.vec c n) tol L = (do
      let cpc ← pcv.mAdj (h.vec c n)
      let result ← lsqr pcv.op.T cpc 0 (pcss2Tol tol) (some L) none
      .ok ⟨if 0 < δ then some ((1 / δ) • ((h.mat A m n)ᵀ *ᵥ topv result.x - h.vec c n)) else none, topv result.x,
        result.arnorms⟩) := by
    unfold pcss2Under
    rcases pcv.mAdj (h.vec c n) with e | cpc
    · rfl
    · simp only [bind, Except.bind]
      rcases lsqr pcv.op.T cpc 0 (pcss2Tol tol) (some L) none with e | x <;> rfl
  rw [hpure]
  unfold pcss2UnderM
  have hcH : Holds {w} h c n (h.vec c n) := ⟨hc, by simpa using hcw, rfl⟩
  refine sim_bind (sim_call h3 hW (om_refl _ _) hcH) ?_
  rintro cpc cv h4 o4 ⟨hcpc, -⟩
  refine sim_bind (lsqr_sim (A := pcv.op.T) h2 h1 hW o4 hcpc (x0 := none) (xv := none) trivial 0 (pcss2Tol tol) (some L) false) ?_
  rintro res resv h5 o5 ⟨hx, hvar, -, -, hor, hrest⟩
  have O5 := om_trans o4 o5
  have l4 := o4.1
  have hlo : h.next ≤ res.x := by
    rcases hor with hor | ⟨_, hor⟩
    · omega
    · cases hor
  by_cases hδ : 0 < δ
  · rw [if_pos hδ, if_pos hδ]
    refine sim_get hx (sim_new (wlt hW O5) fun h6 o6 n6 hy => ?_)
    have O6 := om_trans O5 o6
    refine sim_getM (om_mat O6 hA (by simpa using hAw) _ _) (sim_get hy (sim_get (hcH.om O6)
      (sim_new (wlt hW O6) fun h7 o7 n7 hxx => sim_pure ?_)))
    have l5 := O5.1
    have hy7 := hy.om o7
    refine ⟨⟨by omega, hxx.lt, hxx.eq⟩, ⟨by simp only; omega, hy7.lt, hy7.eq⟩, ?_, ?_⟩
    · simp only [ne_eq, Option.some.injEq]; omega
    · rw [← hrest]
  · rw [if_neg hδ, if_neg hδ]
    have e : Real.sqrt δ = 0 := Real.sqrt_eq_zero_of_nonpos (not_lt.mp hδ)
    refine sim_pure ⟨trivial, ⟨hlo, hx.lt, ?_⟩, by simp, ?_⟩
    · rw [← hx.eq]
      exact (topv_lift_zero (h5.vec res.x) (by rw [e]; exact liftRows_zero)).symm
    · rw [← hrest]

/-- PcSS2, by address and by value: it modifies nothing. -/
theorem pcss2_sim {A : ℕ} {b : BRef} {c z0 : Option ℕ} {P : PrecRef} (hA : A < h.next) (hb : ∀ a, b = .vec a → a < h.next)
    (hc : ∀ a ∈ c, a < h.next) (hP : P.addr < h.next) (hz : ∀ a ∈ z0, a < h.next) (ip : Heap → Bool) (δ tol : ℝ) (L : ℤ) :
    Sim ∅ h (pcss2M ip m n A b c δ tol L P z0)
      (pcss2 (h.mat A m n) (b.val m h) (c.map fun a => h.vec a n) δ tol L (P.val n h)
        (z0.map fun a => h.vec a (P.val n h).dim)) fun o o' h' => o.Is o' h h' := by
  obtain ⟨res, h1, hpc, o1, hres⟩ := aLiftPrecond_sim (m := m) (n := n) hA ip δ P hP b.k
  have hk : (b.val m h).k = b.k := by rcases b with _ | b | ⟨k, hk⟩ <;> rfl
  unfold pcss2
  rw [hk]
  rcases res with e | pc <;> rcases hpp : aLiftPrecond (h.mat A m n) δ (P.val n h) b.k with e' | pcv <;> rw [hpp] at hres
  · unfold Sim pcss2M
    rw [mem_bind_error hpc]
    exact ⟨o1, hres⟩
  · exact hres.elim
  · exact hres.elim
  obtain ⟨w, hw0, hw1, hf, hg, hmf, hma, hnew⟩ := hres
  have l1 := o1.1
  have hW1 : ∀ a ∈ ({w} : Set ℕ), h.next ≤ a := by rintro a rfl; exact hw0
  unfold pcss2M
  refine sim_prefix (W' := {w}) (P := fun o o' h' => o.Is o' h1 h') hpc o1 hW1 ?_ fun x y h2 _ hi => SaddleRefs.is_mono hi l1
  have hA1 : h1.mat A m n = h.mat A m n := om_mat o1 hA (by simp) _ _
  have hz1 : (z0.map fun a => h1.vec a (P.val n h).dim) = z0.map fun a => h.vec a (P.val n h).dim := by
    rcases z0 with _ | z
    · rfl
    · simp only [Option.map_some, om_vec o1 (hz z rfl) (by simp)]
  have hover : ∀ {b : ℕ}, b < h.next → Sim {w} h1 (pcss2OverM m n (P.dim n) A δ pc b tol L z0)
      (pcss2Over (h.mat A m n) pcv (h.vec b m) tol L (z0.map fun a => h.vec a (P.val n h).dim))
      fun o o' h' => o.Is o' h1 h' := by
    intro b hb
    have := pcss2Over_sim (h := h1) hw1 hf hg hmf hnew (A := A) (b := b) (by omega) (by omega) (by omega) (by omega)
      (z0 := z0) (fun a ha => by have := hz a ha; omega) tol L
    rw [hA1, om_vec o1 hb (by simp), hz1] at this
    rcases P with R | ⟨r, R⟩ <;> exact this
  have hunder : ∀ {c : ℕ}, c < h.next → Sim {w} h1 (pcss2UnderM m n (P.dim n) A δ pc c tol L)
      (pcss2Under (h.mat A m n) pcv (h.vec c n) tol L) fun o o' h' => o.Is o' h1 h' := by
    intro c hc
    have := pcss2Under_sim (h := h1) hw1 hf hg hma (A := A) (c := c) (by omega) (by omega) (by omega) (by omega) tol L
    rw [hA1, om_vec o1 hc (by simp)] at this
    rcases P with R | ⟨r, R⟩ <;> exact this
  have hcz : Sim {w} h1 (match (generalizing := false) c with
        | none => pure True
        | some c => do pure (norm2 (← getVec n c) = 0) : Mem Prop) (.ok (cIsZero (c.map fun a => h.vec a n)))
      fun a b h' => a = b ∧ h' = h1 := by
    rcases c with _ | c
    · exact sim_pure ⟨rfl, rfl⟩
    · have := hc c rfl
      refine sim_get (v := h.vec c n) ⟨by omega, by simp; omega, om_vec o1 this (by simp) _⟩ (sim_pure ⟨rfl, rfl⟩)
  refine sim_bind' hcz ?_
  rintro cz h2 - ⟨rfl, rfl⟩
  by_cases hz0 : cIsZero (c.map fun a => h.vec a n)
  · rw [if_pos hz0]
    simp only [if_pos hz0]
    rcases b with _ | b | ⟨k, hk'⟩
    · simp only [BRef.val]
      split_ifs <;> exact sim_raise _
    · exact hover (hb b rfl)
    · simp only [BRef.val]
      split_ifs <;> exact sim_raise _
  · rw [if_neg hz0]
    simp only [if_neg hz0]
    have hbz : Sim {w} h2 (match (generalizing := false) b with
          | .none => pure True
          | .vec b => do pure (norm2 (← getVec m b) = 0)
          | .multi _ _ => pure False : Mem Prop) (.ok (b.val m h).isZero) fun a b h' => a = b ∧ h' = h2 := by
      rcases b with _ | b | ⟨k, hk'⟩
      · exact sim_pure ⟨rfl, rfl⟩
      · have := hb b rfl
        refine sim_get (v := h.vec b m) ⟨by omega, by simp; omega, om_vec o1 this (by simp) _⟩ (sim_pure ⟨rfl, rfl⟩)
      · exact sim_pure ⟨rfl, rfl⟩
    refine sim_bind' hbz ?_
    rintro bz h3 - ⟨rfl, rfl⟩
    by_cases hb0 : (b.val m h).isZero
    · rw [if_pos hb0, if_pos hb0]
      rcases c with _ | c
      · exact sim_raise _
      · exact hunder (hc c rfl)
    · rw [if_neg hb0, if_neg hb0]
      exact sim_raise _

end Parla.Proof
