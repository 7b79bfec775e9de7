import Verif.Proof.MemPcSS2

/-! # The drivers on mutable arrays -/

namespace Parla.Proof

open Matrix

variable {m n r d p q : ℕ} {α β γ δ' : Type} {W : Set ℕ} {h0 h h' : Heap}

/-! ## PcSS1 and PcSS2 as solvers -/

theorem pcss1_runs : SaddleSolverM.Runs pcss1M PcSS1 := by
  intro m n h A b c δ tol L P z0 hA hb hc hP hz
  have core : ∀ {h' : Heap} {b : ℕ} {r R : ℕ}, OnlyModifies ∅ h h' → b < h'.next → R < h.next →
      Sim {R} h' (pcss1CoreM m n r A b c δ tol L R z0)
        (pcss1Core (h.mat A m n) (h'.vec b m) (c.map fun a => h.vec a n) δ tol L (h.mat R n r)
          (z0.map fun a => h.vec a r)) fun o o' h'' => o.Is o' h' h'' := by
    intro h' b r R ho hb hR
    have hl := ho.1
    obtain ⟨res, h'', hrun, ho2, -, hres⟩ := pcss1Core_sim (h := h') (m := m) (n := n) (r := r) (A := A) (b := b) (R := R)
      (c := c) (z0 := z0) (by omega) hb (by omega) (fun a ha => by have := hc a ha; omega)
      (fun a ha => by have := hz a ha; omega) δ tol L
    have ec : (c.map fun a => h'.vec a n) = c.map fun a => h.vec a n := by
      rcases c with _ | c
      · rfl
      · simp only [Option.map_some, om_vec ho (hc c rfl) (by simp)]
    have ez : (z0.map fun a => h'.vec a r) = z0.map fun a => h.vec a r := by
      rcases z0 with _ | c
      · rfl
      · simp only [Option.map_some, om_vec ho (hz c rfl) (by simp)]
    rw [om_mat ho hA (by simp), ec, ez, om_mat ho hR (by simp)] at hres
    unfold Sim
    rw [hrun]
    refine ⟨om_mono ho2 fun a ha => ha.1, ?_⟩
    rcases res with e | o <;> rcases hpp : pcss1Core (h.mat A m n) (h'.vec b m) (c.map fun a => h.vec a n) δ tol L
          (h.mat R n r) (z0.map fun a => h.vec a r) with e' | o' <;> rw [hpp] at hres
    · exact hres
    · exact hres
    · exact hres
    · obtain ⟨ox, oy, oe⟩ := o
      obtain ⟨ox', oy', oe'⟩ := o'
      obtain ⟨x, xv, h1, h2, h3, h4, h5, h6, h7, h8, h9, h10⟩ := hres
      simp only at h1 h2 h6 h7 h8 h9 h10
      subst h1 h2
      exact ⟨⟨h3, h4, h5⟩, ⟨h6, h7, h8⟩, by simpa using h9, h10⟩
  rcases b with _ | b | ⟨k, hk⟩
  · rcases P with R | ⟨r, R⟩
    · exact ⟨om_newV (om_refl _ _) _, rfl⟩
    · have hP : R < h.next := hP
      have := core (h' := h.newV (0 : Fin m → ℝ)) (b := h.next) (r := r) (R := R) (om_newV (om_refl _ _) _) (by simp) hP
      rw [newV_self] at this
      have hp : newVec (0 : Fin m → ℝ) h = (.ok h.next, h.newV (0 : Fin m → ℝ)) := rfl
      have h2 : Sim {R} h (newVec (0 : Fin m → ℝ) >>= fun b => pcss1CoreM m n r A b c δ tol L R z0)
          (pcss1Core (h.mat A m n) 0 (c.map fun a => h.vec a n) δ tol L (h.mat R n r) (z0.map fun a => h.vec a r))
          fun o o' h'' => o.Is o' h h'' := by
        obtain ⟨t1, t2⟩ := this
        unfold Sim
        rw [mem_bind_ok hp]
        refine ⟨om_trans' (om_newV (om_refl _ _) _) t1 (fun a ha _ => ha), ?_⟩
        rcases hm : pcss1CoreM m n r A h.next c δ tol L R z0 (h.newV (0 : Fin m → ℝ)) with ⟨e | o, h''⟩ <;>
          rcases hpp : pcss1Core (h.mat A m n) 0 (c.map fun a => h.vec a n) δ tol L (h.mat R n r)
            (z0.map fun a => h.vec a r) with e' | o' <;> rw [hm, hpp] at t2
        · exact t2
        · exact t2
        · exact t2
        · exact SaddleRefs.is_mono t2 (by simp)
      exact h2
  · rcases P with R | ⟨r, R⟩
    · exact ⟨om_refl _ _, rfl⟩
    · have hP : R < h.next := hP
      exact core (om_refl _ _) (hb b rfl) hP
  · exact ⟨om_refl _ _, rfl⟩

theorem pcss2_runs (ip : Heap → Bool) : SaddleSolverM.Runs (pcss2M ip) PcSS2 := by
  intro m n h A b c δ tol L P z0 hA hb hc hP hz
  have := pcss2_sim (m := m) (n := n) hA hb hc hP hz ip δ tol L
  exact ⟨om_mono this.1 (by simp), this.2⟩

/-! ## Rules -/

/-- as `Sim ∅`, with the changes counted from the state `h0` in which the driver was called -/
def SimB (h0 h : Heap) (m : Mem α) (e : Except PyErr β) (Post : α → β → Heap → Prop) : Prop :=
  OnlyModifies ∅ h0 (m h).2 ∧
  match (m h).1, e with
  | .ok a, .ok b => Post a b (m h).2
  | .error e, .error e' => e = e'
  | _, _ => False

variable {P : α → β → Heap → Prop} {Q : γ → δ' → Heap → Prop} {e : Except PyErr β}

theorem sim_of_simB {m : Mem α} (hh : SimB h h m e P) : Sim ∅ h m e P := hh

theorem simB_pure {a : α} {b : β} (ho : OnlyModifies ∅ h0 h) (hp : P a b h) : SimB h0 h (pure a : Mem α) (.ok b) P :=
  ⟨ho, hp⟩

theorem simB_raise (ho : OnlyModifies ∅ h0 h) (e : PyErr) :
    SimB h0 h (Mem.raise e : Mem α) (.error e : Except PyErr β) P := ⟨ho, rfl⟩

theorem simB_bind {m : Mem α} {f : α → Mem γ} {g : β → Except PyErr δ'} (h1 : SimB h0 h m e P)
    (h2 : ∀ a b h', OnlyModifies ∅ h0 h' → P a b h' → SimB h0 h' (f a) (g b) Q) :
    SimB h0 h (m >>= f) (e >>= g) Q := by
  unfold SimB at h1
  rcases hm : m h with ⟨e1 | a, h'⟩ <;> rcases e with e' | b <;> rw [hm] at h1
  · unfold SimB
    rw [mem_bind_error hm]
    exact h1
  · exact h1.2.elim
  · exact h1.2.elim
  · have := h2 a b h' h1.1 h1.2
    unfold SimB
    rw [mem_bind_ok hm]
    exact this

theorem simB_bind' {m : Mem α} {b : β} {f : α → Mem γ} {e : Except PyErr δ'} (h1 : SimB h0 h m (.ok b) P)
    (h2 : ∀ a h', OnlyModifies ∅ h0 h' → P a b h' → SimB h0 h' (f a) e Q) :
    SimB h0 h (m >>= f) e Q := by
  unfold SimB at h1
  rcases hm : m h with ⟨e1 | a, h'⟩ <;> rw [hm] at h1
  · exact h1.2.elim
  · have := h2 a h' h1.1 h1.2
    unfold SimB
    rw [mem_bind_ok hm]
    exact this

theorem simB_imp {m : Mem α} {P' : α → β → Heap → Prop} (h1 : SimB h0 h m e P) (h2 : ∀ a b h', P a b h' → P' a b h') :
    SimB h0 h m e P' := by
  unfold SimB at h1 ⊢
  rcases hm : m h with ⟨e1 | a, h'⟩ <;> rcases e with e' | b <;> rw [hm] at h1
  · exact h1
  · exact h1
  · exact h1
  · exact ⟨h1.1, h2 _ _ _ h1.2⟩

theorem simB_lift {e : Except PyErr α} {f : α → Mem γ} {g : α → Except PyErr δ'} (ho : OnlyModifies ∅ h0 h)
    (h2 : ∀ a, e = .ok a → SimB h0 h (f a) (g a) Q) : SimB h0 h (Mem.lift e >>= f) (e >>= g) Q := by
  rcases e with e | a
  · exact ⟨ho, rfl⟩
  · exact h2 a rfl

theorem simB_liftok {a : α} {f : α → Mem γ} {e : Except PyErr δ'} (h2 : SimB h0 h (f a) e Q) :
    SimB h0 h (Mem.lift (.ok a) >>= f) e Q := h2

theorem simB_get {a : ℕ} {v : Fin n → ℝ} {f : (Fin n → ℝ) → Mem α} (hv : h.vec a n = v)
    (h1 : SimB h0 h (f v) e P) : SimB h0 h (getVec n a >>= f) e P := by
  unfold SimB
  rw [mem_get, hv]
  exact h1

theorem simB_getM {a k l : ℕ} {M : Matrix (Fin k) (Fin l) ℝ} {f : Matrix (Fin k) (Fin l) ℝ → Mem α} (hM : h.mat a k l = M)
    (h1 : SimB h0 h (f M) e P) : SimB h0 h (getMat k l a >>= f) e P := by
  unfold SimB
  rw [mem_getM, hM]
  exact h1

theorem simB_new {v : Fin n → ℝ} {f : ℕ → Mem α} (ho : OnlyModifies ∅ h0 h)
    (h1 : ∀ h', OnlyModifies ∅ h h' → OnlyModifies ∅ h0 h' → h'.next = h.next + 1 → h'.vec h.next n = v →
      SimB h0 h' (f h.next) e P) : SimB h0 h (newVec v >>= f) e P :=
  h1 (h.newV v) (om_newV (om_refl _ _) v) (om_newV ho v) rfl (newV_self _ _)

theorem simB_newM {k l : ℕ} {v : Matrix (Fin k) (Fin l) ℝ} {f : ℕ → Mem α} (ho : OnlyModifies ∅ h0 h)
    (h1 : ∀ h', OnlyModifies ∅ h h' → OnlyModifies ∅ h0 h' → h'.next = h.next + 1 → h'.mat h.next k l = v →
      SimB h0 h' (f h.next) e P) : SimB h0 h (newMat v >>= f) e P :=
  h1 (h.newM v) (om_newM (om_refl _ _) v) (om_newM ho v) rfl (newM_self _ _)

theorem simB_set {a : ℕ} {v : Fin n → ℝ} {f : Unit → Mem α} (ho : OnlyModifies ∅ h0 h) (ha : h0.next ≤ a)
    (h1 : ∀ h', OnlyModifies {a} h h' → OnlyModifies ∅ h0 h' → h'.next = h.next → h'.vec a n = v →
      SimB h0 h' (f ()) e P) : SimB h0 h (setVec a v >>= f) e P :=
  h1 (h.setV a v) (om_setV (om_refl _ _) v (Or.inl rfl)) (om_setV ho v (Or.inr ha)) rfl (setV_self _ _ _)

theorem simB_destroy {J : Leftover} {k l a : ℕ} {f : Unit → Mem α} (ho : OnlyModifies ∅ h0 h) (ha : h0.next ≤ a)
    (h1 : ∀ h', OnlyModifies {a} h h' → OnlyModifies ∅ h0 h' → h'.next = h.next →
      SimB h0 h' (f ()) e P) : SimB h0 h (destroyMat J k l a >>= f) e P :=
  h1 (h.setM a (J k l h)) (om_setM (om_refl _ _) _ (Or.inl rfl)) (om_setM ho _ (Or.inr ha)) rfl

theorem simB_destroyV {J : Leftover} {k a : ℕ} {f : Unit → Mem α} (ho : OnlyModifies ∅ h0 h) (ha : h0.next ≤ a)
    (h1 : ∀ h', OnlyModifies {a} h h' → OnlyModifies ∅ h0 h' → h'.next = h.next →
      SimB h0 h' (f ()) e P) : SimB h0 h (destroyVec J k a >>= f) e P :=
  h1 (h.setV a fun i => J k 1 h i 0) (om_setV (om_refl _ _) _ (Or.inl rfl)) (om_setV ho _ (Or.inr ha)) rfl

/-- a call that modifies only objects in `W'`, which are the driver's own -/
theorem simB_sim {W' : Set ℕ} {m : Mem α} (ho : OnlyModifies ∅ h0 h) (h1 : Sim W' h m e P) (hW : ∀ a ∈ W', h0.next ≤ a) :
    SimB h0 h m e fun a b h' => OnlyModifies W' h h' ∧ P a b h' := by
  unfold Sim at h1
  unfold SimB
  refine ⟨om_trans' ho h1.1 (fun a ha hlt => by have := hW a ha; omega), ?_⟩
  rcases hm : m h with ⟨e1 | a, h'⟩ <;> rcases e with e' | b <;> rw [hm] at h1
  · exact h1.2
  · exact h1.2
  · exact h1.2
  · exact h1

theorem simB_aLift {A : ℕ} {f : ℕ → Mem α} (ho : OnlyModifies ∅ h0 h) (hA : A < h.next) (s : ℝ)
    (h1 : ∀ a h', OnlyModifies ∅ h h' → OnlyModifies ∅ h0 h' → a < h'.next → (a = A ∨ h.next ≤ a) →
      h'.mat a (m + liftRows n s) n = aLift (h.mat A m n) s → SimB h0 h' (f a) e P) :
    SimB h0 h (aLiftM m n A s >>= f) e P := by
  unfold aLiftM
  by_cases hs : s = 0
  · rw [if_pos hs]
    refine h1 A h (om_refl _ _) ho hA (Or.inl rfl) ?_
    subst hs
    exact mat_lift_zero (fun k => h.mat A k n) liftRows_zero _
  · rw [if_neg hs]
    exact h1 h.next (h.newM (aLift (h.mat A m n) s)) (om_newM (om_refl _ _) _) (om_newM ho _) (by simp) (Or.inr le_rfl)
      (newM_self _ _)

theorem svdRightPrecond_simB (la : LinAlg) (J : Leftover) {A : ℕ} (ho : OnlyModifies ∅ h0 h) (hA0 : h0.next ≤ A)
    (hA : A < h.next) {A0 : Matrix (Fin d) (Fin n) ℝ} (hM : h.mat A d n = A0) :
    SimB h0 h (svdRightPrecondM la J d n A) (svdRightPrecond la A0) fun a o h' =>
      OnlyModifies {A} h h' ∧ a.2 = o ∧ h.next ≤ a.1 ∧ a.1 < h'.next ∧ h'.mat a.1 n o.r = o.M := by
  unfold svdRightPrecondM
  refine simB_getM hM (simB_destroy ho hA0 fun h1 o1 ho1 n1 => ?_)
  rcases svdRightPrecond la A0 with e | o
  · exact ⟨ho1, rfl⟩
  refine simB_liftok (simB_newM ho1 fun h2 o2 ho2 n2 hm => simB_pure ho2 ?_)
  exact ⟨om_trans o1 (om_mono o2 (by simp)), rfl, by simp only; omega, by simp only; omega, hm⟩

/-! ## SPO -/

/-- the results of the factorisation stage, by address and by value -/
def SPORefs.Is (f : SPORefs n) (f' : SPOFac n) (h h' : Heap) : Prop :=
  h.next ≤ f.P.addr ∧ f.P.addr < h'.next ∧ f.P.val n h' = f'.P ∧ h.next ≤ f.z ∧ f.z < h'.next ∧
    h'.vec f.z f'.P.dim = f'.z ∧ f.x = f'.x

theorem spoQR_simB (la : LinAlg) (J : Leftover) (S : Matrix (Fin d) (Fin m) ℝ) {A b : ℕ} (hA : A < h.next) (hb : b < h.next)
    (δ : ℝ) :
    SimB h h (spoQRM la J S n A b δ) (spoQR la S (h.mat A m n) (h.vec b m) δ) fun f f' h' => SPORefs.Is f f' h h' := by
  unfold spoQRM
  refine simB_getM rfl (simB_newM (om_refl _ _) fun h1 o1 ho1 n1 hm1 => ?_)
  refine simB_aLift ho1 (by omega) _ fun a h2 o2 ho2 ha hor hm2 => ?_
  rw [hm1] at hm2
  have l2 := o2.1
  refine simB_getM hm2 (simB_destroy ho2 (by omega) fun h3 o3 ho3 n3 => ?_)
  unfold spoQR
  simp only
  by_cases hmin : min (d + liftRows n (Real.sqrt δ)) n = n
  · rw [dif_pos hmin, dif_pos hmin]
    refine simB_newM ho3 fun h4 o4 ho4 n4 hm4 => simB_get (om_vec ho4 hb (by simp) _) ?_
    refine simB_new ho4 fun h5 o5 ho5 n5 hv5 => simB_get hv5 (simB_new ho5 fun h6 o6 ho6 n6 hv6 => ?_)
    have hR6 : h6.mat h3.next n n = castRows hmin (la.qr (aLift (S * h.mat A m n) (Real.sqrt δ))).2 := by
      rw [om_mat o6 (by omega) (by simp), om_mat o5 (by omega) (by simp), hm4]
    refine simB_getM hR6 (simB_get hv6 ?_)
    rcases hs : solveUpperv (castRows hmin (la.qr (aLift (S * h.mat A m n) (Real.sqrt δ))).2)
      ((topRows (castCols hmin (la.qr (aLift (S * h.mat A m n) (Real.sqrt δ))).1))ᵀ *ᵥ (S *ᵥ h.vec b m)) with e | x
    · exact ⟨ho6, rfl⟩
    · refine simB_pure ho6 ⟨?_, ?_, ?_, ?_, ?_, ?_, rfl⟩
      · simp only [PrecRef.addr]; have := ho3.1; omega
      · simp only [PrecRef.addr]; omega
      · simp only [PrecRef.val, hR6]
      · simp only; have := ho5.1; omega
      · simp only; omega
      · exact hv6
  · rw [dif_neg hmin, dif_neg hmin]
    exact simB_raise ho3 _

theorem spoChol_simB (la : LinAlg) (S : Matrix (Fin d) (Fin m) ℝ) {A b : ℕ} (hb : b < h.next)
    (δ : ℝ) :
    SimB h h (spoCholM la S n A b δ) (spoChol la S (h.mat A m n) (h.vec b m) δ) fun f f' h' => SPORefs.Is f f' h h' := by
  unfold spoCholM
  refine simB_getM rfl (simB_newM (om_refl _ _) fun h1 o1 ho1 n1 hm1 => simB_getM hm1 ?_)
  unfold spoChol
  simp only
  rcases la.cholesky ((S * h.mat A m n)ᵀ * (S * h.mat A m n) + δ • (1 : Matrix (Fin n) (Fin n) ℝ)) with e | R
  · exact ⟨ho1, rfl⟩
  refine simB_liftok (simB_newM ho1 fun h2 o2 ho2 n2 hm2 => simB_get (om_vec ho2 hb (by simp) _)
    (simB_new ho2 fun h3 o3 ho3 n3 hv3 => ?_))
  have hR3 : h3.mat h1.next n n = R := by rw [om_mat o3 (by omega) (by simp), hm2]
  have hA3 : h3.mat h.next d n = S * h.mat A m n := by
    rw [om_mat o3 (by omega) (by simp), om_mat o2 (by omega) (by simp), hm1]
  refine simB_getM hR3 (simB_getM hA3 (simB_get hv3 ?_))
  simp only
  rcases hs : solveUpperTv R ((S * h.mat A m n)ᵀ *ᵥ (S *ᵥ h.vec b m)) with e | z
  · exact ⟨ho3, rfl⟩
  refine simB_liftok (simB_new ho3 fun h4 o4 ho4 n4 hv4 => ?_)
  have hR4 : h4.mat h1.next n n = R := by rw [om_mat o4 (by omega) (by simp), hR3]
  refine simB_getM hR4 (simB_get hv4 ?_)
  simp only
  rcases solveUpperv R z with e | x
  · exact ⟨ho4, rfl⟩
  · refine simB_pure ho4 ⟨?_, ?_, ?_, ?_, ?_, ?_, rfl⟩
    · simp only [PrecRef.addr]; omega
    · simp only [PrecRef.addr]; omega
    · simp only [PrecRef.val, hR4]
    · simp only; omega
    · simp only; omega
    · exact hv4

theorem spoSVD_simB (la : LinAlg) (J : Leftover) (S : Matrix (Fin d) (Fin m) ℝ) {A b : ℕ} (hb : b < h.next)
    (δ : ℝ) :
    SimB h h (spoSVDM la J S n A b δ) (spoSVD la S (h.mat A m n) (h.vec b m) δ) fun f f' h' => SPORefs.Is f f' h h' := by
  unfold spoSVDM
  refine simB_getM rfl (simB_newM (om_refl _ _) fun h1 o1 ho1 n1 hm1 => ?_)
  refine simB_aLift ho1 (by omega) _ fun a h2 o2 ho2 ha hor hm2 => ?_
  rw [hm1] at hm2
  have l2 := o2.1
  have hpure : spoSVD la S (h.mat A m n) (h.vec b m) δ = (svdRightPrecond la (aLift (S * h.mat A m n) (Real.sqrt δ)) >>=
      fun o => .ok ⟨.gen o.r o.M, (topRows o.U)ᵀ *ᵥ (S *ᵥ h.vec b m), o.M *ᵥ ((topRows o.U)ᵀ *ᵥ (S *ᵥ h.vec b m))⟩) := by
    unfold spoSVD
    simp only
    rcases svdRightPrecond la (aLift (S * h.mat A m n) (Real.sqrt δ)) with e | o <;> rfl
  rw [hpure]
  refine simB_bind (svdRightPrecond_simB la J ho2 (by omega) ha hm2) ?_
  rintro ⟨R, o'⟩ o h3 ho3 ⟨o3, ho', hR0, hRlt, hRM⟩
  simp only at ho' hR0 hRlt hRM
  subst ho'
  refine simB_get (om_vec ho3 hb (by simp) _) (simB_new ho3 fun h4 o4 ho4 n4 hv4 => simB_get hv4
    (simB_new ho4 fun h5 o5 ho5 n5 hv5 => ?_))
  have hR5 : h5.mat R n o'.r = o'.M := by rw [om_mat o5 (by omega) (by simp), om_mat o4 (by omega) (by simp), hRM]
  refine simB_getM hR5 (simB_get hv5 (simB_pure ho5 ⟨?_, ?_, ?_, ?_, ?_, ?_, rfl⟩))
  · simp only [PrecRef.addr]; omega
  · simp only [PrecRef.addr]; omega
  · simp only [PrecRef.val, hR5]
  · simp only; have := ho4.1; omega
  · simp only; omega
  · exact hv5

theorem spoFactor_simB (la : LinAlg) (J : Leftover) (mode : SPOMode) (S : Matrix (Fin d) (Fin m) ℝ) {A b : ℕ}
    (hA : A < h.next) (hb : b < h.next) (δ : ℝ) :
    SimB h h (spoFactorM la J mode S n A b δ) (spoFactor la mode S (h.mat A m n) (h.vec b m) δ)
      fun f f' h' => SPORefs.Is f f' h h' := by
  cases mode
  · exact spoQR_simB la J S hA hb δ
  · exact spoChol_simB la S hb δ
  · exact spoSVD_simB la J S hb δ
  · exact simB_raise (om_refl _ _) _

theorem om_optvec (ho : OnlyModifies ∅ h h') {z : Option ℕ} (hz : ∀ a ∈ z, a < h.next) (k : ℕ) :
    (z.map fun a => h'.vec a k) = z.map fun a => h.vec a k := by
  rcases z with _ | z
  · rfl
  · simp only [Option.map_some, om_vec ho (hz z rfl) (by simp)]

theorem isNew_om {a : ℕ} {v : Fin n → ℝ} {h1 h2 : Heap} (hv : IsNew h h1 a n v) (ho : OnlyModifies ∅ h1 h2) :
    IsNew h h2 a n v := ⟨hv.1, hv.2.1.trans_le ho.1, by rw [om_vec ho hv.2.1 (by simp), hv.2.2]⟩

theorem isNewOpt_om {a : Option ℕ} {v : Option (Fin n → ℝ)} {h1 h2 : Heap} (hv : IsNewOpt h h1 a n v)
    (ho : OnlyModifies ∅ h1 h2) : IsNewOpt h h2 a n v := by
  rcases a with _ | a <;> rcases v with _ | v
  · trivial
  · exact hv
  · exact hv
  · exact isNew_om hv ho

theorem isNewOpt_mono {a : Option ℕ} {v : Option (Fin n → ℝ)} (hv : IsNewOpt h h' a n v) (hle : h0.next ≤ h.next) :
    IsNewOpt h0 h' a n v := by
  rcases a with _ | a <;> rcases v with _ | v
  · trivial
  · exact hv
  · exact hv
  · exact ⟨hle.trans hv.1, hv.2⟩

theorem ar0_simB {A b : ℕ} {P : PrecRef} {Am : Matrix (Fin m) (Fin n) ℝ} {bv : Fin m → ℝ} (ho : OnlyModifies ∅ h0 h)
    (hA : h.mat A m n = Am) (hb : h.vec b m = bv) :
    SimB h0 h (ar0M m n A b P) (precAdj (P.val n h) (Amᵀ *ᵥ bv)) fun a v h' => h' = h ∧ a = norm2 v := by
  unfold ar0M
  refine simB_getM hA (simB_get hb ?_)
  rcases P with R | ⟨r, R⟩
  · refine simB_getM rfl ?_
    simp only [precAdj, PrecRef.val]
    rcases solveUpperTv (h.mat R n n) (Amᵀ *ᵥ bv) with e | v
    · exact ⟨ho, rfl⟩
    · exact simB_liftok (simB_pure ho ⟨rfl, rfl⟩)
  · exact simB_getM rfl (simB_pure ho ⟨rfl, rfl⟩)

theorem spoPost_sim (la : LinAlg) (J : Leftover) (ip : Heap → Bool) (mode : SPOMode) (S : Matrix (Fin d) (Fin m) ℝ)
    {A b : ℕ} (hA : A < h.next) (hb : b < h.next) (δ tol : ℝ) (L : ℤ) (logging : Bool) (clock : LogTimes) :
    Sim ∅ h (spoPostM la J ip mode S n A b δ tol L logging clock)
      (spoPost la mode S (h.mat A m n) (h.vec b m) δ tol L logging clock) fun o o' h' =>
        IsNewOpt h h' o.1 n o'.x ∧ o.2 = o'.log := by
  refine sim_of_simB ?_
  unfold spoPostM spoPost
  refine simB_bind (spoFactor_simB la J mode S hA hb δ) ?_
  rintro ⟨P, z, x⟩ ⟨Pv, zv, xv⟩ h1 ho1 ⟨hP0, hPlt, hPv, hz0, hzlt, hzv, hx⟩
  simp only at hP0 hPlt hPv hz0 hzlt hzv hx
  subst hPv hx
  have hA1 : h1.mat A m n = h.mat A m n := om_mat ho1 hA (by simp) _ _
  have hb1 : h1.vec b m = h.vec b m := om_vec ho1 hb (by simp) _
  have l1 := ho1.1
  have hdim : P.dim n = (P.val n h1).dim := by rcases P with R | ⟨r, R⟩ <;> rfl
  have hst : SimB h h1 (spoStartM m n A b δ ⟨P, z, x⟩) (.ok (spoStart (h.mat A m n) (h.vec b m) δ ⟨P.val n h1, zv, x⟩))
      fun a v h' => h' = h1 ∧ (∀ c ∈ a, c < h1.next) ∧ a.map (fun c => h1.vec c (P.val n h1).dim) = v := by
    unfold spoStartM
    refine simB_getM hA1 (simB_get hb1 (simB_get hb1 (simB_pure ho1 ⟨rfl, ?_⟩)))
    unfold spoStart
    simp only [hdim]
    split_ifs
    · exact ⟨by simp, rfl⟩
    · exact ⟨by simpa using hzlt, by simp only [Option.map_some, hzv]⟩
  refine simB_bind' hst ?_
  rintro z0 h2 - ⟨rfl, hz0, hz0v⟩
  have hpc := pcss2_sim (m := m) (n := n) (h := h2) (A := A) (b := .vec b) (c := none) (P := P) (z0 := z0) (by omega)
    (fun a ha => by cases ha; omega) (by simp) hPlt hz0 ip δ tol L
  simp only [BRef.val, Option.map_none, hA1, hb1, hz0v] at hpc
  refine simB_bind (simB_sim ho1 hpc (by simp)) ?_
  rintro res resv h3 ho3 ⟨o3, hres⟩
  have hxn := isNewOpt_mono hres.1 l1
  cases logging
  · exact simB_pure ho3 ⟨hxn, rfl⟩
  · have hP3 : P.val n h3 = P.val n h2 := by
      rcases P with R | ⟨r, R⟩
      · have hPlt : R < h2.next := hPlt
        simp only [PrecRef.val, om_mat o3 hPlt (by simp)]
      · have hPlt : R < h2.next := hPlt
        simp only [PrecRef.val, om_mat o3 hPlt (by simp)]
    have har := ar0_simB (h0 := h) (h := h3) (A := A) (b := b) (P := P) (m := m) (n := n) ho3
      (om_mat ho3 hA (by simp) _ _) (om_vec ho3 hb (by simp) _)
    rw [hP3] at har
    refine simB_bind har ?_
    rintro a v h4 - ⟨rfl, rfl⟩
    rw [← hres.2.2.2]
    rcases finishLog true clock res.errs (norm2 v) with e | lg
    · exact ⟨ho3, rfl⟩
    · exact simB_liftok (simB_pure ho3 ⟨hxn, rfl⟩)

/-! ## SPU1 -/

theorem spuPost_sim (la : LinAlg) (J : Leftover) (ip : Heap → Bool) (S : Matrix (Fin d) (Fin m) ℝ)
    {A c : ℕ} (hA : A < h.next) (hc : c < h.next) (tol : ℝ) (L : ℤ) (logging : Bool) (clock : LogTimes) :
    Sim ∅ h (spuPostM la J ip S n A c tol L logging clock)
      (spuPost la S (h.mat A m n) (h.vec c n) tol L logging clock) fun o o' h' =>
        IsNew h h' o.1 m o'.y ∧ o.2 = o'.log := by
  refine sim_of_simB ?_
  unfold spuPostM spuPost
  refine simB_getM rfl (simB_newM (om_refl _ _) fun h1 o1 ho1 n1 hm1 => ?_)
  refine simB_bind (svdRightPrecond_simB la J ho1 le_rfl (by omega) hm1) ?_
  rintro ⟨M, o'⟩ o h2 ho2 ⟨o2, rfl, hM0, hMlt, hMv⟩
  simp only at hM0 hMlt hMv ⊢
  have l2 := ho2.1
  have hA2 : h2.mat A m n = h.mat A m n := om_mat ho2 hA (by simp) _ _
  have hc2 : h2.vec c n = h.vec c n := om_vec ho2 hc (by simp) _
  have hpc := pcss2_sim (m := m) (n := n) (h := h2) (A := A) (b := .none) (c := some c) (P := .gen o'.r M) (z0 := none)
    (by omega) (by simp) (by simp; omega) hMlt (by simp) ip 0 tol L
  simp only [BRef.val, Option.map_none, Option.map_some, hA2, hc2, PrecRef.val] at hpc
  have hMv : h2.mat M n o'.r = o'.M := hMv
  have hMlt : M < h2.next := hMlt
  rw [hMv] at hpc
  refine simB_bind (simB_sim ho2 hpc (by simp)) ?_
  rintro res resv h3 ho3 ⟨o3, hres⟩
  refine simB_getM ((om_mat o3 hMlt (by simp) _ _).trans hMv) (simB_getM (om_mat ho3 hA (by simp) _ _)
    (simB_get (om_vec ho3 hc (by simp) _) ?_))
  rw [← hres.2.2.2]
  rcases finishLog logging clock res.errs (norm2 (h.mat A m n *ᵥ (o'.M *ᵥ (o'.Mᵀ *ᵥ h.vec c n)))) with e | lg
  · exact ⟨ho3, rfl⟩
  · refine simB_liftok (simB_pure ho3 ⟨⟨?_, hres.2.1.2⟩, rfl⟩)
    have := hres.2.1.1
    simp only; omega

/-! ## SSO1 -/

theorem sso1Post_sim (la : LinAlg) (J : Leftover) (S : Matrix (Fin d) (Fin m) ℝ) {A b : ℕ} (hb : b < h.next) (δ : ℝ) :
    Sim ∅ h (sso1PostM la J S n A b δ)
      (.ok (la.lstsqv (aLift (S * h.mat A m n) (Real.sqrt δ)) (catv (S *ᵥ h.vec b m) 0))) fun o o' h' =>
        IsNew h h' o n o' := by
  refine sim_of_simB ?_
  unfold sso1PostM
  refine simB_getM rfl (simB_newM (om_refl _ _) fun h1 o1 ho1 n1 hm1 => simB_get (om_vec ho1 hb (by simp) _)
    (simB_new ho1 fun h2 o2 ho2 n2 hv2 => ?_))
  refine simB_aLift ho2 (by omega) _ fun a h3 o3 ho3 ha hor hm3 => ?_
  rw [om_mat o2 (by omega) (by simp), hm1] at hm3
  have l3 := o3.1
  refine simB_get ((om_vec o3 (by omega) (by simp) _).trans hv2) (simB_new ho3 fun h4 o4 ho4 n4 hv4 => ?_)
  refine simB_getM ((om_mat o4 ha (by simp) _ _).trans hm3) (simB_get hv4 (simB_destroy ho4 (by omega) fun h5 o5 ho5 n5 =>
    simB_destroyV ho5 (by omega) fun h6 o6 ho6 n6 => ?_))
  exact ⟨om_newV ho6 _, by have := ho6.1; exact this, Nat.lt_succ_self _, newV_self _ _⟩

/-! ## SPS1 -/

theorem bOrZeros_simB {b : Option ℕ} (hb : ∀ a ∈ b, a < h.next) :
    SimB h h (bOrZeros m b) (.ok ((b.map fun a => h.vec a m).getD 0)) fun a v h' =>
      a < h'.next ∧ h'.vec a m = v := by
  rcases b with _ | b
  · exact ⟨om_newV (om_refl _ _) _, Nat.lt_succ_self _, newV_self _ _⟩
  · exact ⟨om_refl _ _, hb b rfl, rfl⟩

theorem normalRhs_simB {A b : ℕ} {c : Option ℕ} (ho : OnlyModifies ∅ h0 h) (hA : A < h0.next) (hc : ∀ a ∈ c, a < h0.next) :
    SimB h0 h (normalRhsM m n A b c) (.ok (normalRhs (h0.mat A m n) (h.vec b m) (c.map fun a => h0.vec a n)))
      fun a v h' => OnlyModifies ∅ h h' ∧ h.next ≤ a ∧ a < h'.next ∧ h'.vec a n = v := by
  have l := ho.1
  obtain ⟨h', h1, h2, h3, h4⟩ := normalRhs_sim (m := m) (n := n) (h := h) (A := A) (b := b) (c := c)
    (fun a ha => by have := hc a ha; omega)
  rw [om_mat ho hA (by simp), om_optvec ho hc] at h4
  unfold SimB
  rw [h1]
  refine ⟨om_trans ho h2, h2, le_rfl, ?_, h4⟩
  show h.next < h'.next
  omega

/-- the results of the preconditioner stage, by address and by value -/
def SPSPrecRefs.Is (f : SPSPrecRefs) (f' : SPSPrec n) (h h' : Heap) : Prop :=
  f.r = f'.r ∧ h.next ≤ f.M ∧ f.M < h'.next ∧ h'.mat f.M n f'.r = f'.M ∧
    (∀ a ∈ f.z, a < h'.next) ∧ (f.z.map fun a => h'.vec a f'.r) = f'.z

theorem sps1Svd_simB (la : LinAlg) (J : Leftover) (S : Matrix (Fin d) (Fin m) ℝ) {A rhs : ℕ} (hA : A < h.next)
    (hr : rhs < h.next) (δ : ℝ) :
    SimB h h (sps1SvdM la J S n A rhs δ) (sps1Svd la S (h.mat A m n) (h.vec rhs n) δ)
      fun f f' h' => SPSPrecRefs.Is f f' h h' := by
  unfold sps1SvdM
  refine simB_getM rfl (simB_newM (om_refl _ _) fun h1 o1 ho1 n1 hm1 => ?_)
  refine simB_aLift ho1 (by omega) _ fun a h2 o2 ho2 ha hor hm2 => ?_
  rw [hm1] at hm2
  have l2 := o2.1
  obtain ⟨z, hz⟩ : ∃ z : (o : PrecOut (d + liftRows n (Real.sqrt δ)) n) → Fin o.r → ℝ,
    z = fun o j => (o.Vh *ᵥ h.vec rhs n) j / o.sigma j := ⟨_, rfl⟩
  have hpure : sps1Svd la S (h.mat A m n) (h.vec rhs n) δ = (svdRightPrecond la (aLift (S * h.mat A m n) (Real.sqrt δ)) >>=
      fun o => .ok ⟨o.r, o.M, if norm2 (o.Mᵀ *ᵥ ((h.mat A m n)ᵀ *ᵥ (h.mat A m n *ᵥ (o.M *ᵥ z o)) + δ • (o.M *ᵥ z o)) -
        o.Mᵀ *ᵥ h.vec rhs n) ≥ norm2 (o.Mᵀ *ᵥ h.vec rhs n) then none else some (z o)⟩) := by
    unfold sps1Svd
    simp only [hz]
    rcases svdRightPrecond la (aLift (S * h.mat A m n) (Real.sqrt δ)) with e | o <;> rfl
  rw [hpure]
  refine simB_bind (svdRightPrecond_simB la J ho2 (by omega) ha hm2) ?_
  rintro ⟨M, o'⟩ o h3 ho3 ⟨o3, ho', hM0, hMlt, hMv⟩
  simp only at ho' hM0 hMlt hMv
  subst ho'
  refine simB_get (om_vec ho3 hr (by simp) _) (simB_new ho3 fun h4 o4 ho4 n4 hv4 => ?_)
  have hM4 : h4.mat M n o'.r = o'.M := by rw [om_mat o4 (by omega) (by simp), hMv]
  refine simB_getM hM4 (simB_getM (om_mat ho4 hA (by simp) _ _) (simB_get hv4 (simB_pure ho4 ?_)))
  have ez : (fun j => (o'.Vh *ᵥ h.vec rhs n) j / o'.sigma j) = z o' := by rw [hz]
  rw [ez] at hv4 ⊢
  refine ⟨rfl, by simp only; omega, by simp only; omega, hM4, ?_, ?_⟩
  · simp only
    split_ifs
    · simp
    · simp; omega
  · simp only
    split_ifs
    · rfl
    · simp only [Option.map_some, hv4]

/-- a solver called with own `R` -/
theorem solver_simB {sM : SaddleSolverM} {s : SaddleSolver} (hs : sM.Runs s) (ho : OnlyModifies ∅ h0 h)
    {A b M r : ℕ} {c z : Option ℕ} (hA : A < h.next) (hb : b < h.next) (hc : ∀ a ∈ c, a < h.next) (hM0 : h0.next ≤ M)
    (hM : M < h.next) (hz : ∀ a ∈ z, a < h.next) (δ tol : ℝ) (L : ℤ) :
    SimB h0 h (sM m n A (.vec b) c δ tol L (.gen r M) z)
      (s m n (h.mat A m n) (.vec (h.vec b m)) (c.map fun a => h.vec a n) δ tol L (.gen r (h.mat M n r))
        (z.map fun a => h.vec a r)) fun o o' h' => OnlyModifies {M} h h' ∧ o.Is o' h h' :=
  simB_sim ho (hs m n h A (.vec b) c δ tol L (.gen r M) z hA (fun a ha => by cases ha; exact hb) hc hM hz)
    (by rintro a rfl; exact hM0)

theorem sps1Post_simB {sM : SaddleSolverM} {s : SaddleSolver} (hs : sM.Runs s) (ho : OnlyModifies ∅ h0 h)
    {A b rhs : ℕ} {c : Option ℕ} (hA : A < h0.next) (hb : b < h.next) {bv : Fin m → ℝ} (hbv : h.vec b m = bv)
    (hc : ∀ a ∈ c, a < h0.next) (hr : rhs < h.next)
    (hrv : h.vec rhs n = normalRhs (h0.mat A m n) bv (c.map fun a => h0.vec a n))
    {h1 : Heap} (hl : h0.next ≤ h1.next) {p : SPSPrecRefs} {p' : SPSPrec n} (hp : SPSPrecRefs.Is p p' h1 h) (hpr : rhs ≠ p.M)
    (δ tol : ℝ) (L : ℤ) (logging : Bool) (clock : LogTimes) :
    SimB h0 h (sps1PostM sM m n A b c rhs δ tol L p logging clock)
      (sps1Post s (h0.mat A m n) bv (c.map fun a => h0.vec a n) δ tol L p' logging clock) fun o o' h' =>
        IsNewOpt h0 h' o.x n o'.x ∧ IsNewOpt h0 h' o.y m o'.y ∧ (o.x = o.y → o.x = none) ∧ o.log = o'.log := by
  obtain ⟨r, M, z⟩ := p
  obtain ⟨r', Mv, zv⟩ := p'
  obtain ⟨h2, h3, h4, h5, h6, h7⟩ := hp
  simp only at h2 h3 h4 h5 h6 h7 hpr
  subst h2
  have l := ho.1
  have := solver_simB (m := m) (n := n) (r := r) hs ho (A := A) (b := b) (M := M) (c := c) (z := z) (by omega) hb
    (fun a ha => by have := hc a ha; omega) (by omega) h4 h6 δ tol L
  rw [om_mat ho hA (by simp), hbv, om_optvec ho hc, h5, h7] at this
  unfold sps1PostM sps1Post
  refine simB_bind this ?_
  rintro res resv h8 ho8 ⟨o8, hres⟩
  refine simB_get ((om_vec o8 hr (by simpa using hpr) _).trans hrv) ?_
  rw [← hres.2.2.2]
  rcases finishLog logging clock res.errs (norm2 (normalRhs (h0.mat A m n) bv (c.map fun a => h0.vec a n))) with e | lg
  · exact ⟨ho8, rfl⟩
  · refine simB_liftok (simB_pure ho8 ⟨isNewOpt_mono hres.1 l, ⟨l.trans hres.2.1.1, hres.2.1.2⟩, ?_, rfl⟩)
    intro he
    exact absurd he hres.2.2.1

theorem sps1SvdCall_sim (la : LinAlg) (J : Leftover) {sM : SaddleSolverM} {s : SaddleSolver} (hs : sM.Runs s)
    (S : Matrix (Fin d) (Fin m) ℝ) {A : ℕ} {b c : Option ℕ} (hA : A < h.next) (hb : ∀ a ∈ b, a < h.next)
    (hc : ∀ a ∈ c, a < h.next) (δ tol : ℝ) (L : ℤ) (logging : Bool) (clock : LogTimes) :
    Sim ∅ h (do
        let b ← bOrZeros m b
        let rhs ← normalRhsM m n A b c
        let p ← sps1SvdM la J S n A rhs δ
        sps1PostM sM m n A b c rhs δ tol L p logging clock)
      (sps1Svd la S (h.mat A m n) (normalRhs (h.mat A m n) ((b.map fun a => h.vec a m).getD 0) (c.map fun a => h.vec a n)) δ >>=
        fun p => sps1Post s (h.mat A m n) ((b.map fun a => h.vec a m).getD 0) (c.map fun a => h.vec a n) δ tol L p logging clock)
      fun o o' h' => SPSOutRefs.Is o o' h h' ∧ o.log = o'.log := by
  refine sim_of_simB (simB_bind' (bOrZeros_simB hb) ?_)
  rintro b1 h1 ho1 ⟨hb1, hbv1⟩
  have l1 := ho1.1
  refine simB_bind' (normalRhs_simB ho1 hA hc) ?_
  rintro rhs h2 ho2 ⟨o2, hr0, hr, hrv⟩
  have l2 := o2.1
  have hsv := sps1Svd_simB la J S (h := h2) (A := A) (rhs := rhs) (n := n) (by omega) hr δ
  rw [om_mat ho2 hA (by simp), hrv, hbv1] at hsv
  refine simB_bind (simB_sim ho2 (sim_of_simB hsv) (by simp)) ?_
  rintro p p' h3 ho3 ⟨o3, hp⟩
  have l3 := o3.1
  have := sps1Post_simB (m := m) (n := n) hs ho3 (A := A) (b := b1) (rhs := rhs) (c := c) hA (by omega)
    (((om_vec o3 (by omega) (by simp) _).trans (om_vec o2 hb1 (by simp) _)).trans hbv1) hc (by omega)
    ((om_vec o3 hr (by simp) _).trans (by rw [hrv, hbv1])) (h1 := h2) (by omega) hp
    (by have := hp.2.1; omega) δ tol L logging clock
  refine simB_imp this ?_
  rintro o o' h4 ⟨t1, t2, t3, t4⟩
  exact ⟨⟨t1, t2, t3⟩, t4⟩

theorem sps1NysCall_sim {sM : SaddleSolverM} {s : SaddleSolver} (hs : sM.Runs s)
    {A : ℕ} {b c : Option ℕ} (hA : A < h.next) (hb : ∀ a ∈ b, a < h.next)
    (hc : ∀ a ∈ c, a < h.next) (pf : Matrix (Fin m) (Fin n) ℝ → SPSPrec n) (hpf : ∀ M, (pf M).z = none)
    (δ tol : ℝ) (L : ℤ) (logging : Bool) (clock : LogTimes) :
    Sim ∅ h (do
        let b ← bOrZeros m b
        let p ← (do
          let p := pf (← getMat m n A)
          let M ← newMat p.M
          pure ⟨p.r, M, none⟩ : Mem SPSPrecRefs)
        let rhs ← normalRhsM m n A b c
        sps1PostM sM m n A b c rhs δ tol L p logging clock)
      (sps1Post s (h.mat A m n) ((b.map fun a => h.vec a m).getD 0) (c.map fun a => h.vec a n) δ tol L
        (pf (h.mat A m n)) logging clock)
      fun o o' h' => SPSOutRefs.Is o o' h h' ∧ o.log = o'.log := by
  refine sim_of_simB (simB_bind' (bOrZeros_simB hb) ?_)
  rintro b1 h1 ho1 ⟨hb1, hbv1⟩
  have l1 := ho1.1
  have hp : SimB h h1 (do
          let p := pf (← getMat m n A)
          let M ← newMat p.M
          pure ⟨p.r, M, none⟩ : Mem SPSPrecRefs) (.ok (pf (h.mat A m n))) fun p p' h' =>
        OnlyModifies ∅ h1 h' ∧ SPSPrecRefs.Is p p' h1 h' := by
    refine simB_getM (om_mat ho1 hA (by simp) _ _) (simB_newM ho1 fun h2 o2 ho2 n2 hm2 => simB_pure ho2 ⟨o2, rfl, le_rfl, ?_, hm2, ?_, ?_⟩)
    · simp only; omega
    · simp
    · rw [hpf]; rfl
  refine simB_bind' hp ?_
  rintro p h2 ho2 ⟨o2, hp⟩
  have l2 := o2.1
  refine simB_bind' (normalRhs_simB ho2 hA hc) ?_
  rintro rhs h3 ho3 ⟨o3, hr0, hr, hrv⟩
  have l3 := o3.1
  rw [om_vec o2 hb1 (by simp), hbv1] at hrv
  have hp3 : SPSPrecRefs.Is p (pf (h.mat A m n)) h1 h3 := by
    obtain ⟨t1, t2, t3, t4, t5, t6⟩ := hp
    refine ⟨t1, t2, by omega, (om_mat o3 t3 (by simp) _ _).trans t4, fun a ha => by have := t5 a ha; omega, ?_⟩
    rw [om_optvec o3 t5, t6]
  have := sps1Post_simB (m := m) (n := n) hs ho3 (A := A) (b := b1) (rhs := rhs) (c := c) hA (by omega)
    (((om_vec o3 (by omega) (by simp) _).trans (om_vec o2 hb1 (by simp) _)).trans hbv1) hc hr hrv (h1 := h1) (by omega) hp3
    (by have := hp.2.2.1; omega) δ tol L logging clock
  refine simB_imp this ?_
  rintro o o' h4 ⟨t1, t2, t3, t4⟩
  exact ⟨⟨t1, t2, t3⟩, t4⟩

/-! ## SPS2 -/

theorem sps2Rhs_simB (S : Matrix (Fin d) (Fin m) ℝ) (ho : OnlyModifies ∅ h0 h) {b : ℕ} {c : Option ℕ} (δ : ℝ)
    (o : PrecOut (d + liftRows n (Real.sqrt δ)) n) (hc : ∀ a ∈ c, a < h0.next) :
    SimB h0 h (sps2RhsM δ S n o b c) (.ok (sps2Rhs S o (h.vec b m) (c.map fun a => h0.vec a n))) fun a v h' =>
      OnlyModifies ∅ h h' ∧ h.next ≤ a ∧ a < h'.next ∧ h'.vec a (m + liftRows n (Real.sqrt δ)) = v := by
  have l := ho.1
  have hz : ¬ 0 < δ → liftRows n (Real.sqrt δ) = 0 := fun h => by
    rw [Real.sqrt_eq_zero_of_nonpos (not_lt.mp h)]; exact liftRows_zero
  have h1 : SimB h0 h (if 0 < δ then do
      newVec (catv (← getVec m b) (0 : Fin (liftRows n (Real.sqrt δ)) → ℝ))
    else do newVec (← getVec (m + liftRows n (Real.sqrt δ)) b) : Mem ℕ) (.ok (catv (h.vec b m) 0)) fun a v h' =>
      OnlyModifies ∅ h h' ∧ h.next ≤ a ∧ a < h'.next ∧ h'.vec a (m + liftRows n (Real.sqrt δ)) = v := by
    by_cases hd : 0 < δ
    · rw [if_pos hd]
      exact ⟨om_newV ho _, om_newV (om_refl _ _) _, le_rfl, Nat.lt_succ_self _, newV_self _ _⟩
    · rw [if_neg hd]
      refine ⟨om_newV ho _, om_newV (om_refl _ _) _, le_rfl, Nat.lt_succ_self _, (newV_self _ _).trans ?_⟩
      exact vec_lift_zero (fun k => h.vec b k) (hz hd) _
  unfold sps2RhsM
  refine simB_bind' h1 ?_
  rintro a h1 ho1 ⟨o1, ha0, ha, hav⟩
  rcases c with _ | c
  · exact simB_pure ho1 ⟨o1, ha0, ha, hav⟩
  refine simB_get (om_vec ho1 (hc c rfl) (by simp) _) ?_
  simp only [sps2Rhs, Option.map_some]
  by_cases hcn : norm2 (h0.vec c n) > 0
  · rw [if_pos hcn, if_pos hcn]
    refine simB_get hav (simB_set ho1 (by omega) fun h2 o2 ho2 n2 hv2 => ?_)
    have om2 : OnlyModifies ∅ h h2 := om_trans' o1 o2 (fun x hx hlt => by rw [Set.mem_singleton_iff] at hx; omega)
    simp only [topv_catv, botv_catv] at hv2
    by_cases hd : 0 < δ
    · rw [if_pos hd]
      refine simB_get hv2 (simB_set ho2 (by omega) fun h3 o3 ho3 n3 hv3 => simB_pure ho3 ⟨?_, ha0, ?_, ?_⟩)
      · exact om_trans' om2 o3 (fun x hx hlt => by rw [Set.mem_singleton_iff] at hx; omega)
      · omega
      · rw [hv3, topv_catv, botv_catv]
    · rw [if_neg hd]
      refine simB_pure ho2 ⟨om2, ha0, by omega, hv2.trans ?_⟩
      congr 1
      have : IsEmpty (Fin (liftRows n (Real.sqrt δ))) := by rw [hz hd]; infer_instance
      exact Subsingleton.elim _ _
  · rw [if_neg hcn, if_neg hcn]
    exact simB_pure ho1 ⟨o1, ha0, ha, hav⟩

theorem sps2Start_simB (S : Matrix (Fin d) (Fin m) ℝ) (ho : OnlyModifies ∅ h0 h) {M Aa ba : ℕ} (δ : ℝ)
    (o : PrecOut (d + liftRows n (Real.sqrt δ)) n) (hM : M < h.next) (hMv : h.mat M n o.r = o.M) (hA : Aa < h.next) :
    SimB h0 h (sps2StartM δ S n M o Aa ba) (.ok (sps2Start S o (h.mat Aa _ n) (h.vec ba _))) fun a v h' =>
      OnlyModifies ∅ h h' ∧ (∀ c ∈ a, c < h'.next) ∧ (a.map fun c => h'.vec c o.r) = v := by
  have l := ho.1
  unfold sps2StartM sps2Start
  refine simB_get rfl (simB_new ho fun h1 o1 ho1 n1 hv1 => ?_)
  by_cases hd : 0 < δ
  · rw [if_pos hd]
    refine simB_get hv1 (simB_set ho1 (by omega) fun h2 o2 ho2 n2 hv2 => ?_)
    have om2 : OnlyModifies ∅ h h2 := om_trans' o1 o2 (fun x hx hlt => by rw [Set.mem_singleton_iff] at hx; omega)
    refine simB_getM ((om_mat om2 hM (by simp) _ _).trans hMv) (simB_get hv2 (simB_getM (om_mat om2 hA (by simp) _ _)
      (simB_pure ho2 ⟨om2, ?_⟩)))
    simp only [if_pos (show δ > 0 from hd)]
    split_ifs
    · exact ⟨by simp, rfl⟩
    · exact ⟨by simp; omega, by simp only [Option.map_some, hv2]⟩
  · rw [if_neg hd]
    refine simB_getM ((om_mat o1 hM (by simp) _ _).trans hMv) (simB_get hv1 (simB_getM (om_mat o1 hA (by simp) _ _)
      (simB_pure ho1 ⟨o1, ?_⟩)))
    simp only [if_neg (show ¬ δ > 0 from hd)]
    split_ifs
    · exact ⟨by simp, rfl⟩
    · exact ⟨by simp; omega, by simp only [Option.map_some, hv1]⟩

theorem sps2Resid_simB (ho : OnlyModifies ∅ h0 h) {A b : ℕ} {x : Option ℕ} {xv : Option (Fin n → ℝ)}
    (hx : IsNewOpt h0 h x n xv) :
    SimB h0 h (sps2ResidM m n A b x) (.ok (xv.map fun x => h.vec b m - h.mat A m n *ᵥ x)) fun y yv h' =>
      OnlyModifies ∅ h h' ∧ IsNewOpt h0 h' y m yv ∧ (x = y → x = none) := by
  rcases x with _ | x <;> rcases xv with _ | xv
  · exact simB_pure ho ⟨om_refl _ _, trivial, fun _ => rfl⟩
  · exact hx.elim
  · exact hx.elim
  · obtain ⟨x0, x1, x2⟩ := hx
    unfold sps2ResidM
    refine simB_get rfl (simB_getM rfl (simB_get x2 (simB_new ho fun h1 o1 ho1 n1 hv1 => simB_pure ho1 ⟨o1, ⟨?_, ?_, hv1⟩, ?_⟩)))
    · exact ho.1
    · omega
    · intro he
      simp only [Option.some.injEq] at he
      omega

theorem finishLog_agree (logging : Bool) (clock : LogTimes) (errs : ErrLog) (u v : ℝ) :
    match finishLog logging clock errs u, finishLog logging clock errs v with
    | .ok l, .ok l' => SPLogAgree l l'
    | .error e, .error e' => e = e'
    | _, _ => False := by
  cases logging
  · trivial
  · rcases errs with e | l
    · rfl
    · exact ⟨rfl, rfl⟩

theorem sps2Post_sim (la : LinAlg) (J : Leftover) {sM : SaddleSolverM} {s : SaddleSolver} (hs : sM.Runs s)
    (S : Matrix (Fin d) (Fin m) ℝ) {A : ℕ} {b c : Option ℕ} (hA : A < h.next) (hb : ∀ a ∈ b, a < h.next)
    (hc : ∀ a ∈ c, a < h.next) (δ tol : ℝ) (L : ℤ) (logging : Bool) (clock : LogTimes) :
    Sim ∅ h (sps2PostM la J sM S n A b c δ tol L logging clock)
      (sps2Post la s S (h.mat A m n) ((b.map fun a => h.vec a m).getD 0) (c.map fun a => h.vec a n) δ tol L logging clock)
      fun o o' h' => SPSOutRefs.Is o o' h h' ∧ SPLogAgree o.log o'.log ∧ (sM.KeepsR → o.log = o'.log) := by
  refine sim_of_simB ?_
  unfold sps2PostM
  refine simB_bind' (bOrZeros_simB hb) ?_
  rintro b1 h1 ho1 ⟨hb1, hbv1⟩
  have l1 := ho1.1
  refine simB_getM (om_mat ho1 hA (by simp) _ _) (simB_newM ho1 fun h2 o2 ho2 n2 hm2 => ?_)
  refine simB_aLift ho2 (by omega) _ fun a h3 o3 ho3 ha hor hm3 => ?_
  rw [hm2] at hm3
  have l3 := o3.1
  unfold sps2Post
  simp only
  refine simB_bind (svdRightPrecond_simB la J ho3 (by omega) ha hm3) ?_
  rintro ⟨M, o'⟩ o h4 ho4 ⟨o4, ho', hM0, hMlt, hMv⟩
  simp only at ho' hM0 hMlt hMv
  subst ho'
  have l4 := o4.1
  simp only
  have hb4 : h4.vec b1 m = (b.map fun a => h.vec a m).getD 0 := by
    rw [om_vec o4 (by omega) (by rintro rfl; omega), om_vec o3 (by omega) (by simp), om_vec o2 (by omega) (by simp), hbv1]
  refine simB_aLift ho4 (by omega) _ fun Aa h5 o5 ho5 hAa hor5 hm5 => ?_
  rw [om_mat ho4 hA (by simp)] at hm5
  have l5 := o5.1
  have hrhs := sps2Rhs_simB S ho5 (n := n) (b := b1) (c := c) δ o' hc
  rw [om_vec o5 (by omega) (by simp), hb4] at hrhs
  refine simB_bind' hrhs ?_
  rintro ba h6 ho6 ⟨o6, hba0, hba, hbav⟩
  have l6 := o6.1
  have hMv6 : h6.mat M n o'.r = o'.M := by
    rw [om_mat o6 (by omega) (by simp), om_mat o5 hMlt (by simp), hMv]
  have hA6 : h6.mat Aa (m + liftRows n (Real.sqrt δ)) n = aLift (h.mat A m n) (Real.sqrt δ) := by
    rw [om_mat o6 hAa (by simp), hm5]
  have hst := sps2Start_simB S ho6 (n := n) (M := M) (Aa := Aa) (ba := ba) δ o' (by omega) hMv6 (by omega)
  rw [hA6, hbav] at hst
  refine simB_bind' hst ?_
  rintro z h7 ho7 ⟨o7, hzlt, hzv⟩
  have l7 := o7.1
  have hMv7 : h7.mat M n o'.r = o'.M := (om_mat o7 (by omega) (by simp) _ _).trans hMv6
  have hA7 : h7.mat Aa (m + liftRows n (Real.sqrt δ)) n = aLift (h.mat A m n) (Real.sqrt δ) :=
    (om_mat o7 (by omega) (by simp) _ _).trans hA6
  have hb7 := (om_vec o7 hba (by simp) (m + liftRows n (Real.sqrt δ))).trans hbav
  have hsolve := solver_simB (m := m + liftRows n (Real.sqrt δ)) (n := n) (r := o'.r) hs ho7 (A := Aa) (b := ba) (M := M)
    (c := none) (z := z) (by omega) (by omega) (by simp) (by omega) (by omega) hzlt 0 tol L
  rw [hA7, hb7, hMv7, hzv] at hsolve
  have hkeep : sM.KeepsR → (sM (m + liftRows n (Real.sqrt δ)) n Aa (.vec ba) none 0 tol L (.gen o'.r M) z h7).2.mat M n o'.r = o'.M := by
    intro hk
    have := hk (m + liftRows n (Real.sqrt δ)) n h7 Aa (.vec ba) none 0 tol L (.gen o'.r M) z (by omega)
      (fun a ha => by cases ha; omega) (by simp) (by show M < h7.next; omega) hzlt
    rw [show (PrecRef.gen o'.r M).addr = M from rfl] at this
    rw [this, hMv7]
  rcases hrun : sM (m + liftRows n (Real.sqrt δ)) n Aa (.vec ba) none 0 tol L (.gen o'.r M) z h7 with ⟨res, h8⟩
  rw [hrun] at hkeep
  have hsolve' : SimB h h7 (sM (m + liftRows n (Real.sqrt δ)) n Aa (.vec ba) none 0 tol L (.gen o'.r M) z)
      (s (m + liftRows n (Real.sqrt δ)) n (aLift (h.mat A m n) (Real.sqrt δ))
        (.vec (sps2Rhs S o' ((b.map fun a => h.vec a m).getD 0) (c.map fun a => h.vec a n))) none 0 tol L (.gen o'.r o'.M)
        (sps2Start S o' (aLift (h.mat A m n) (Real.sqrt δ)) (sps2Rhs S o' ((b.map fun a => h.vec a m).getD 0) (c.map fun a => h.vec a n))))
      fun o o1 h' => (OnlyModifies {M} h7 h' ∧ o.Is o1 h7 h') ∧ (sM.KeepsR → h'.mat M n o'.r = o'.M) := by
    unfold SimB at hsolve ⊢
    rw [hrun] at hsolve ⊢
    refine ⟨hsolve.1, ?_⟩
    have h2 := hsolve.2
    rcases res with e | r <;> rcases hpp : s (m + liftRows n (Real.sqrt δ)) n (aLift (h.mat A m n) (Real.sqrt δ))
        (.vec (sps2Rhs S o' ((b.map fun a => h.vec a m).getD 0) (c.map fun a => h.vec a n))) none 0 tol L (.gen o'.r o'.M)
        (sps2Start S o' (aLift (h.mat A m n) (Real.sqrt δ)) (sps2Rhs S o' ((b.map fun a => h.vec a m).getD 0) (c.map fun a => h.vec a n))) with e' | r' <;>
      rw [Option.map_none, hpp] at h2
    · exact h2
    · exact h2
    · exact h2
    · exact ⟨h2, hkeep⟩
  refine simB_bind hsolve' ?_
  rintro res resv h9 ho9 ⟨⟨o9, hres⟩, hkeep⟩
  have hxn : IsNewOpt h h9 res.x n resv.x := isNewOpt_mono hres.1 (by omega)
  have hrd := sps2Resid_simB (m := m) (A := A) (b := b1) ho9 hxn
  have hb9 : h9.vec b1 m = (b.map fun a => h.vec a m).getD 0 := by
    rw [om_vec o9 (by omega) (by rintro rfl; omega), om_vec o7 (by omega) (by simp), om_vec o6 (by omega) (by simp),
      om_vec o5 (by omega) (by simp), hb4]
  rw [hb9, om_mat ho9 hA (by simp)] at hrd
  refine simB_bind' hrd ?_
  rintro y h10 ho10 ⟨o10, hyn, hxy⟩
  have l9 := o9.1
  have hAa9 : h9.mat Aa (m + liftRows n (Real.sqrt δ)) n = aLift (h.mat A m n) (Real.sqrt δ) :=
    (om_mat o9 (by omega) (by rintro rfl; omega) _ _).trans hA7
  have hba9 := (om_vec o9 (by omega) (by rintro rfl; omega) (m + liftRows n (Real.sqrt δ))).trans hb7
  refine simB_getM rfl (simB_getM ((om_mat o10 (by omega) (by simp) _ _).trans hAa9)
    (simB_get ((om_vec o10 (by omega) (by simp) _).trans hba9) ?_))
  rw [← hres.2.2.2]
  obtain ⟨u, hu⟩ : ∃ u, u = norm2 ((h10.mat M n o'.r)ᵀ *ᵥ ((aLift (h.mat A m n) (Real.sqrt δ))ᵀ *ᵥ
    sps2Rhs S o' ((b.map fun a => h.vec a m).getD 0) (c.map fun a => h.vec a n))) := ⟨_, rfl⟩
  obtain ⟨v, hv⟩ : ∃ v, v = norm2 ((o'.M)ᵀ *ᵥ ((aLift (h.mat A m n) (Real.sqrt δ))ᵀ *ᵥ
    sps2Rhs S o' ((b.map fun a => h.vec a m).getD 0) (c.map fun a => h.vec a n))) := ⟨_, rfl⟩
  rw [← hu, ← hv]
  have hk : sM.KeepsR → u = v := by
    intro hk
    rw [hu, hv, om_mat o10 (by omega) (by simp), hkeep hk]
  have hagr := finishLog_agree logging clock res.errs u v
  have hx10 := isNewOpt_om hxn o10
  rcases hf1 : finishLog logging clock res.errs u with e | lg <;> rcases hf2 : finishLog logging clock res.errs v with e' | lg' <;>
    rw [hf1, hf2] at hagr
  · exact ⟨ho10, hagr⟩
  · exact hagr.elim
  · exact hagr.elim
  · refine simB_liftok (simB_pure ho10 ⟨⟨hx10, hyn, hxy⟩, hagr, fun hkr => ?_⟩)
    rw [hk hkr, hf2] at hf1
    injection hf1 with hf1
    exact hf1.symm

/-! ## Whole calls -/

section
variable {G : Type}

theorem simCall_bind {γ : Type} {x : Py G γ} {f : γ → Py G (Mem α)} {g : γ → Py G β} {P : α → β → Heap → Prop}
    (hh : ∀ a, SimCall h (f a) (g a) P) : SimCall h (x >>= f) (x >>= g) P := by
  intro w
  rcases hx : x w with e | ⟨a, w1⟩
  · rw [Py.bind_eq_of_error hx, Py.bind_eq_of_error hx]
  · rw [Py.bind_eq_of_ok hx, Py.bind_eq_of_ok hx]
    exact hh a w1

theorem simCall_raise {P : α → β → Heap → Prop} (e : PyErr) :
    SimCall h (Py.raise e : Py G (Mem α)) (Py.raise e : Py G β) P := fun _ => rfl

theorem simCall_post {P : α → β → Heap → Prop} {m : Mem α} {e : Except PyErr β} (hh : Sim ∅ h m e P) :
    SimCall h (pure m : Py G (Mem α)) (Py.lift e) P := by
  intro w
  obtain ⟨h1, h2⟩ := hh
  refine ⟨h1, ?_⟩
  rcases hm : m h with ⟨e1 | a, h'⟩ <;> rcases e with e' | b <;> rw [hm] at h2
  · subst h2; rfl
  · exact h2.elim
  · exact h2.elim
  · exact ⟨b, rfl, h2⟩

theorem lift_bind {γ : Type} (x : Except PyErr γ) (f : γ → Except PyErr β) :
    (Py.lift (x >>= f) : Py G β) = Py.lift x >>= fun a => Py.lift (f a) := by
  funext w
  rcases x with e | a <;> rfl

end

theorem pcss1M_none {A R : ℕ} {c z0 : Option ℕ} (δ tol : ℝ) (L : ℤ) :
    pcss1M m n A .none c δ tol L (.gen r R) z0 h = pcss1CoreM m n r A h.next c δ tol L R z0 (h.newV (0 : Fin m → ℝ)) := by
  have hp : newVec (0 : Fin m → ℝ) h = (.ok h.next, h.newV (0 : Fin m → ℝ)) := rfl
  have : pcss1M m n A .none c δ tol L (.gen r R) z0 =
    newVec (0 : Fin m → ℝ) >>= fun b => pcss1CoreM m n r A b c δ tol L R z0 := rfl
  rw [this, mem_bind_ok hp]

theorem pcss1M_vec {A b R : ℕ} {c z0 : Option ℕ} (δ tol : ℝ) (L : ℤ) :
    pcss1M m n A (.vec b) c δ tol L (.gen r R) z0 = pcss1CoreM m n r A b c δ tol L R z0 := rfl

theorem pcss1_writes {A : ℕ} {b : BRef} {c : Option ℕ} {P : PrecRef} {z0 : Option ℕ} (hA : A < h.next)
    (hb : ∀ a, b = .vec a → a < h.next) (hc : ∀ a ∈ c, a < h.next) (hP : P.addr < h.next) (hz : ∀ a ∈ z0, a < h.next)
    (δ tol : ℝ) (L : ℤ) :
    OnlyModifies {a | ∃ r, P = .gen r a ∧ r ≠ n} h (pcss1M m n A b c δ tol L P z0 h).2 := by
  rcases P with R | ⟨r, R⟩
  · rcases b with _ | b | ⟨k, hk⟩
    · exact om_newV (om_refl _ _) _
    · exact om_refl _ _
    · exact om_refl _ _
  · have hP : R < h.next := hP
    have hset : {a | ∃ r', PrecRef.gen r R = .gen r' a ∧ r' ≠ n} = {a | a = R ∧ r ≠ n} := by
      ext a
      constructor
      · rintro ⟨r', h1, h2⟩
        injection h1 with h1 h3
        subst h1 h3
        exact ⟨rfl, h2⟩
      · rintro ⟨rfl, h2⟩
        exact ⟨r, rfl, h2⟩
    rw [hset]
    rcases b with _ | b | ⟨k, hk⟩
    · obtain ⟨res, h', h1, h2, -, -⟩ := pcss1Core_sim (h := h.newV (0 : Fin m → ℝ)) (m := m) (n := n) (r := r) (A := A) (b := h.next)
        (R := R) (c := c) (z0 := z0) (by show A < h.next + 1; omega) (Nat.lt_succ_self _) (by show R < h.next + 1; omega)
        (fun a ha => by have := hc a ha; show a < h.next + 1; omega) (fun a ha => by have := hz a ha; show a < h.next + 1; omega) δ tol L
      rw [← pcss1M_none] at h1
      rw [h1]
      exact om_trans' (om_newV (om_refl _ _) _) h2 (fun a ha _ => ha)
    · obtain ⟨res, h', h1, h2, -, -⟩ := pcss1Core_sim (h := h) (m := m) (n := n) (r := r) (A := A) (b := b)
        (R := R) (c := c) (z0 := z0) hA (hb b rfl) hP hc hz δ tol L
      rw [← pcss1M_vec] at h1
      rw [h1]
      exact h2
    · exact om_refl _ _

theorem pcss1_leaves {A R : ℕ} {b : BRef} {c : Option ℕ} {z0 : Option ℕ} (hA : A < h.next)
    (hb : ∀ a, b = .vec a → a < h.next) (hb1 : ∀ k hk, b ≠ .multi k hk) (hc : ∀ a ∈ c, a < h.next) (hP : R < h.next)
    (hz : ∀ a ∈ z0, a < h.next) (δ tol : ℝ) (L : ℤ) (hr : 0 < r) (hrn : r ≠ n) :
    (pcss1M m n A b c δ tol L (.gen r R) z0 h).2.mat R n r = lowRankR (h.mat R n r) δ hr := by
  rcases b with _ | b | ⟨k, hk⟩
  · obtain ⟨res, h', h1, -, h2, -⟩ := pcss1Core_sim (h := h.newV (0 : Fin m → ℝ)) (m := m) (n := n) (r := r) (A := A) (b := h.next)
      (R := R) (c := c) (z0 := z0) (by show A < h.next + 1; omega) (Nat.lt_succ_self _) (by show R < h.next + 1; omega)
      (fun a ha => by have := hc a ha; show a < h.next + 1; omega) (fun a ha => by have := hz a ha; show a < h.next + 1; omega) δ tol L
    rw [← pcss1M_none] at h1
    rw [h1, h2 hr hrn]
    rfl
  · obtain ⟨res, h', h1, -, h2, -⟩ := pcss1Core_sim (h := h) (m := m) (n := n) (r := r) (A := A) (b := b)
      (R := R) (c := c) (z0 := z0) hA (hb b rfl) hP hc hz δ tol L
    rw [← pcss1M_vec] at h1
    rw [h1, h2 hr hrn]
  · exact absurd rfl (hb1 k hk)

end Parla.Proof
