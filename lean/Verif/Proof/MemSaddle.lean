import Verif.Proof.Mem

/-! # PcSS1 on mutable arrays -/

namespace Parla.Proof

open Matrix

variable {m n r : ℕ} {W : Set ℕ} {h0 h h' : Heap}

theorem om_vec (h1 : OnlyModifies W h0 h) {a : ℕ} (ha : a < h0.next) (hW : a ∉ W) (k : ℕ) :
    h.vec a k = h0.vec a k := by rw [(h1.2 a ha hW).1]

theorem om_mat (h1 : OnlyModifies W h0 h) {a : ℕ} (ha : a < h0.next) (hW : a ∉ W) (k l : ℕ) :
    h.mat a k l = h0.mat a k l := by rw [(h1.2 a ha hW).2]

theorem computes_mvGram {A work2 : ℕ} (hA : A < h0.next) (hAW : A ∉ W) (hw : work2 ∈ W)
    (hW : ∀ a ∈ W, a < h0.next) (δ : ℝ) :
    Computes h0 W (mvGramM m n A work2 δ) fun v : Fin n → ℝ => .ok (mvGram (h0.mat A m n) δ v) := by
  intro h a hh ha haW
  have hl := hh.1
  have hwl := hW _ hw
  have haw : a ≠ work2 := fun e => haW (e ▸ hw)
  have hAh := om_mat hh hA hAW m n
  have hunf : mvGramM m n A work2 δ a h = _ :=
    (mem_getM _ _ _ _ _).trans ((mem_get _ _ _ _).trans ((mem_set _ _ _ _).trans
      ((mem_getM _ _ _ _ _).trans ((mem_get _ _ _ _).trans (mem_new _ _ _)))))
  simp only [mem_get, mem_set, mem_pure, setV_mat, setV_self, hAh, newV_self] at hunf
  rw [hunf]
  simp only
  have hnx : (h.setV work2 ((h0.mat A m n) *ᵥ h.vec a n)).next = h.next := rfl
  refine ⟨om_setV (om_newV (om_setV (om_refl _ _) _ (Or.inl hw)) _) _ (Or.inr le_rfl), ?_, Or.inr le_rfl, ?_⟩
  · simp
  · rw [setV_self, newV_vec _ _ (by rw [setV_next]; omega), setV_vec _ _ _ haw]; rfl

theorem computes_mvPreFull {R work1 : ℕ} (hR : R < h0.next) (hRW : R ∉ W) (hw : work1 ∈ W)
    (hW : ∀ a ∈ W, a < h0.next) :
    Computes h0 W (mvPreFullM n r R work1)
      fun v : Fin n → ℝ => .ok (h0.mat R n r *ᵥ ((h0.mat R n r)ᵀ *ᵥ v)) := by
  intro h a hh ha haW
  have hl := hh.1
  have hwl := hW _ hw
  have hRh := om_mat hh hR hRW n r
  have hunf : mvPreFullM n r R work1 a h = _ :=
    (mem_getM _ _ _ _ _).trans ((mem_get _ _ _ _).trans ((mem_set _ _ _ _).trans
      ((mem_getM _ _ _ _ _).trans ((mem_get _ _ _ _).trans (mem_new' _ _)))))
  simp only [setV_mat, setV_self, hRh] at hunf
  rw [hunf]
  simp only
  refine ⟨om_newV (om_setV (om_refl _ _) _ (Or.inl hw)) _, ?_, Or.inr le_rfl, ?_⟩
  · simp
  · rw [newV_self]

theorem computes_mvPreLow {R V work1 work3 : ℕ} (hR : R < h0.next) (hRW : R ∉ W) (hV : V < h0.next)
    (hVW : V ∉ W) (hw : work1 ∈ W) (hw3 : work3 ∈ W) (hne : work1 ≠ work3) (hW : ∀ a ∈ W, a < h0.next) :
    Computes h0 W (mvPreLowM n r R V work1 work3)
      fun v : Fin n → ℝ => .ok (h0.mat R n r *ᵥ ((h0.mat R n r)ᵀ *ᵥ v) + v -
        h0.mat V n r *ᵥ ((h0.mat V n r)ᵀ *ᵥ v)) := by
  intro h a hh ha haW
  have hl := hh.1
  have hwl := hW _ hw
  have hwl3 := hW _ hw3
  have haw : a ≠ work1 := fun e => haW (e ▸ hw)
  have hRh := om_mat hh hR hRW n r
  have hVh := om_mat hh hV hVW n r
  have hunf : mvPreLowM n r R V work1 work3 a h = _ :=
    (mem_getM _ _ _ _ _).trans ((mem_get _ _ _ _).trans ((mem_set _ _ _ _).trans
      ((mem_getM _ _ _ _ _).trans ((mem_get _ _ _ _).trans (mem_new _ _ _)))))
  simp only [mem_get, mem_getM, mem_set, mem_pure, setV_mat, newV_mat, setV_self, hRh, hVh, newV_self] at hunf
  rw [hunf]
  simp only
  refine ⟨om_setV (om_setV (om_setV (om_setV (om_newV (om_setV (om_refl _ _) _ (Or.inl hw)) _) _ (Or.inr le_rfl)) _
    (Or.inl hw)) _ (Or.inl hw3)) _ (Or.inr le_rfl), ?_, Or.inr le_rfl, ?_⟩
  · simp
  · have e1 : (h.setV work1 ((h0.mat R n r)ᵀ *ᵥ h.vec a n)).next = h.next := rfl
    rw [setV_self]
    rw [setV_vec _ _ _ (by rw [e1]; omega), setV_vec _ _ _ (by rw [e1]; omega), setV_self]
    rw [newV_vec _ _ (by rw [e1]; omega), setV_vec _ _ _ haw, setV_vec _ _ _ (by rw [e1]; omega),
      newV_vec _ _ (by rw [e1]; omega), setV_vec _ _ _ haw]

/-- the set-up of `mv_pre` -/
theorem pcss1Pre_sim (R : ℕ) (hR : R < h.next) (δ : ℝ) :
    (match pcss1Pre (h.mat R n r) δ with
    | .error e => pcss1PreM n r R δ h = (.error e, h.newV (0 : Fin r → ℝ))
    | .ok (g, R') => ∃ op h1, ∃ W' : Set ℕ, pcss1PreM n r R δ h = (.ok op, h1) ∧
        OnlyModifies {a | a = R ∧ r ≠ n} h h1 ∧ h1.mat R n r = R' ∧
        (∀ a m', a < h.next → h1.mat a m' n = h.mat a m' n) ∧ (∀ a < h.next, h1.vec a = h.vec a) ∧
        (∀ a ∈ W', h.next ≤ a ∧ a < h1.next) ∧
        ∀ h2 W, OnlyModifies ∅ h1 h2 → W' ⊆ W → (∀ a ∈ W, a ∈ W' ∨ a < h.next ∧ a ≠ R) →
          Computes h2 W op fun v => .ok (g v)) := by
  unfold pcss1Pre
  have hunf : pcss1PreM n r R δ h = _ := mem_new _ _ _
  by_cases hrn : r = n
  · simp only [hrn, if_true] at hunf ⊢
    subst hrn
    refine ⟨_, _, {h.next}, hunf, om_newV (om_refl _ _) _, rfl, fun _ _ _ => rfl, ?_, ?_, ?_⟩
    · exact fun a ha => newV_vec _ _ (by omega)
    · rintro a rfl; simp
    · intro h2 W ho hW hW'
      have hl := ho.1
      simp only [newV_next] at hl
      have hc := computes_mvPreFull (h0 := h2) (W := W) (R := R) (n := r) (r := r) (work1 := h.next) (by omega)
        (fun hm => by rcases hW' R hm with e | e; exacts [absurd e (by simp; omega), e.2 rfl]) (hW rfl)
        (fun a ha => by
          rcases hW' a ha with e | e
          · have e : a = h.next := e
            omega
          · omega)
      rw [om_mat ho (by simp; omega) (by simp) r r] at hc
      exact hc
  · rw [if_neg hrn]
    by_cases h0r : 0 < r
    · rw [dif_pos h0r]
      simp only
      simp only [if_neg hrn, dif_pos h0r, mem_getM, mem_newM, mem_setM, mem_new, mem_pure, setM_self, newV_mat,
        newV_next] at hunf
      obtain ⟨h1, hh1⟩ : ∃ h1, h1 = h.newV (0 : Fin r → ℝ) := ⟨_, rfl⟩
      have hn1 : h1.next = h.next + 1 := by rw [hh1]; rfl
      have hR1 : h1.mat R n r = h.mat R n r := by rw [hh1]; rfl
      rw [← hh1] at hunf
      have hV : (h1.newM (colNormalize (h.mat R n r))).mat (h.next + 1) n r = colNormalize (h.mat R n r) := by
        rw [← hn1]; exact newM_self _ _
      rw [hV] at hunf
      obtain ⟨h2, hh2⟩ : ∃ h2, h2 = h1.newM (colNormalize (h.mat R n r)) := ⟨_, rfl⟩
      rw [← hh2] at hunf hV
      have hn2 : h2.next = h.next + 2 := by rw [hh2, newM_next]; omega
      have hRW : R ∈ {a | a = R ∧ r ≠ n} := ⟨rfl, hrn⟩
      have hlow : (Matrix.of fun i j => colNormalize (h.mat R n r) i j /
          (shiftedSing (h.mat R n r) δ j / shiftedSing (h.mat R n r) δ ⟨r - 1, by omega⟩)) =
        lowRankR (h.mat R n r) δ h0r := rfl
      rw [hlow] at hunf
      simp only [setM_next, hn1, hn2] at hunf
      obtain ⟨Rl, hRl⟩ : ∃ Rl, Rl = lowRankR (h.mat R n r) δ h0r := ⟨_, rfl⟩
      obtain ⟨Vl, hVl⟩ : ∃ Vl, Vl = colNormalize (h.mat R n r) := ⟨_, rfl⟩
      rw [← hRl, ← hVl] at hunf
      rw [← hVl] at hV hh2
      rw [← hRl, ← hVl]
      clear hlow
      refine ⟨_, _, {h.next, h.next + 2}, hunf, ?_, ?_, ?_, ?_, ?_, ?_⟩
      · refine om_newV (om_setM (om_setM ?_ _ (Or.inl hRW)) _ (Or.inl hRW)) _
        rw [hh2, hh1]
        exact om_newM (om_newV (om_refl _ _) _) _
      · rw [newV_mat, setM_self]
      · intro a m' ha
        rw [newV_mat, setM_mat_shape _ _ _ (fun _ _ => Ne.symm hrn), setM_mat_shape _ _ _ (fun _ _ => Ne.symm hrn), hh2,
          newM_mat _ _ (by omega), hh1, newV_mat]
      · intro a ha
        rw [newV_vec _ _ (by simp; omega), setM_vec, setM_vec, hh2, newM_vec, hh1, newV_vec _ _ (by omega)]
      · intro a ha
        rcases ha with rfl | ha
        · simp; omega
        · have ha : a = h.next + 2 := ha
          subst ha; simp; omega
      · intro h3 W ho hW hW'
        have hl := ho.1
        simp only [newV_next, setM_next, hn2] at hl
        have hc := computes_mvPreLow (h0 := h3) (W := W) (R := R) (V := h.next + 1) (n := n) (r := r) (work1 := h.next)
          (work3 := h.next + 2) (by omega)
          (fun hm => by rcases hW' R hm with e | e; exacts [absurd e (by simp; omega), e.2 rfl]) (by omega)
          (fun hm => by rcases hW' _ hm with e | e; exacts [absurd e (by simp), by omega]) (hW (by simp)) (hW (by simp))
          (by omega)
          (fun a ha => by
            rcases hW' a ha with e | e
            · rcases e with rfl | e
              · omega
              · have e : a = h.next + 2 := e
                omega
            · omega)
        rw [om_mat ho (by simp; omega) (by simp) n r, om_mat ho (by simp; omega) (by simp) n r, newV_mat, setM_self,
          setM_mat _ _ _ (by omega), setM_mat _ _ _ (by omega), hV] at hc
        exact hc
    · rw [dif_neg h0r]
      simp only [if_neg hrn, dif_neg h0r, mem_raise] at hunf
      exact hunf

theorem normalRhs_sim {A b : ℕ} {c : Option ℕ} (hc : ∀ a ∈ c, a < h.next) :
    ∃ h', normalRhsM m n A b c h = (.ok h.next, h') ∧ OnlyModifies ∅ h h' ∧ h'.next = h.next + 1 ∧
      h'.vec h.next n = normalRhs (h.mat A m n) (h.vec b m) (c.map fun a => h.vec a n) := by
  have hunf : normalRhsM m n A b c h = _ :=
    (mem_getM _ _ _ _ _).trans ((mem_get _ _ _ _).trans (mem_new _ _ _))
  rcases c with _ | c
  · exact ⟨_, hunf, om_newV (om_refl _ _) _, rfl, newV_self _ _⟩
  · simp only [mem_get, mem_set, mem_pure] at hunf
    have hcl := hc c rfl
    refine ⟨_, hunf, om_setV (om_newV (om_refl _ _) _) _ (Or.inr le_rfl), rfl, ?_⟩
    rw [setV_self, newV_self, newV_vec _ _ (by omega)]
    rfl

theorem pcss1Start_sim {R : ℕ} {z0 : Option ℕ} :
    ∃ h', pcss1StartM n r R z0 h = (.ok h.next, h') ∧ OnlyModifies ∅ h h' ∧ h'.next = h.next + 1 ∧
      h'.vec h.next n = pcss1Start (h.mat R n r) (z0.map fun a => h.vec a r) := by
  unfold pcss1StartM pcss1Start
  by_cases hr : r = n
  · rw [if_pos hr, if_pos hr]
    rcases z0 with _ | z
    · exact ⟨_, rfl, om_newV (om_refl _ _) _, rfl, newV_self _ _⟩
    · exact ⟨_, rfl, om_newV (om_refl _ _) _, rfl, newV_self _ _⟩
  · rw [if_neg hr, if_neg hr]
    exact ⟨_, rfl, om_newV (om_refl _ _) _, rfl, newV_self _ _⟩

/-- What PcSS1 does with its arguments and what it returns, by address and by value. -/
theorem pcss1Core_sim {A b R : ℕ} {c z0 : Option ℕ} (hA : A < h.next) (hb : b < h.next) (hR : R < h.next)
    (hc : ∀ a ∈ c, a < h.next) (hz : ∀ a ∈ z0, a < h.next) (δ tol : ℝ) (L : ℤ) :
    ∃ res h', pcss1CoreM m n r A b c δ tol L R z0 h = (res, h') ∧
      OnlyModifies {a | a = R ∧ r ≠ n} h h' ∧
      (∀ hr : 0 < r, r ≠ n → h'.mat R n r = lowRankR (h.mat R n r) δ hr) ∧
      match res, pcss1Core (h.mat A m n) (h.vec b m) (c.map fun a => h.vec a n) δ tol L (h.mat R n r)
        (z0.map fun a => h.vec a r) with
      | .ok o, .ok o' => ∃ x xv, o.x = some x ∧ o'.x = some xv ∧ h.next ≤ x ∧ x < h'.next ∧ h'.vec x n = xv ∧
          h.next ≤ o.y ∧ o.y < h'.next ∧ h'.vec o.y m = o'.y ∧ x ≠ o.y ∧ o.errs = o'.errs
      | .error e, .error e' => e = e'
      | _, _ => False := by
  have hunf : pcss1CoreM m n r A b c δ tol L R z0 h = _ := mem_new _ _ _
  obtain ⟨h1, hh1⟩ : ∃ h1, h1 = h.newV (0 : Fin m → ℝ) := ⟨_, rfl⟩
  rw [← hh1] at hunf
  have hn1 : h1.next = h.next + 1 := by rw [hh1]; rfl
  have ho1 : OnlyModifies ∅ h h1 := hh1 ▸ om_newV (om_refl _ _) _
  have hm1 : ∀ a, a < h.next → h1.mat a = h.mat a := fun a ha => (ho1.2 a ha (by simp)).2
  have hv1 : ∀ a, a < h.next → h1.vec a = h.vec a := fun a ha => (ho1.2 a ha (by simp)).1
  have hpre := pcss1Pre_sim (n := n) (r := r) (h := h1) R (by omega) δ
  have hcz : (c.map fun a => h1.vec a n) = c.map fun a => h.vec a n := by
    rcases c with _ | c
    · rfl
    · simp only [Option.map_some, hv1 c (hc c rfl)]
  rw [hm1 R hR] at hpre
  rcases hp : pcss1Pre (h.mat R n r) δ with e | ⟨g, R'⟩
  · rw [hp] at hpre
    simp only at hpre
    rw [mem_bind_error hpre] at hunf
    refine ⟨_, _, hunf, om_newV (om_mono ho1 (by simp)) _, ?_, ?_⟩
    · intro hr hrn
      simp only [pcss1Pre, if_neg hrn, dif_pos hr] at hp
      cases hp
    · simp only [pcss1Core, hp]
  · rw [hp] at hpre
    simp only at hpre
    obtain ⟨op, h2, W', hop, ho2, hR2, hm2, hv2, hW', hcomp⟩ := hpre
    rw [mem_bind_ok hop] at hunf
    have hl2 := ho2.1
    obtain ⟨h3, hrhs, ho3, hn3, hrv⟩ := normalRhs_sim (m := m) (n := n) (h := h2) (A := A) (b := b) (c := c)
      (fun a ha => by have := hc a ha; omega)
    rw [mem_bind_ok hrhs] at hunf
    obtain ⟨h4, hst, ho4, hn4, hsv⟩ := pcss1Start_sim (n := n) (r := r) (h := h3) (R := R) (z0 := z0)
    rw [mem_bind_ok hst] at hunf
    have ho24 := om_trans ho3 ho4
    have hA4 : h4.mat A m n = h.mat A m n := by
      rw [om_mat ho24 (by omega) (by simp), hm2 A m (by omega), hm1 A hA]
    have hWl : ∀ a ∈ W' ∪ {h.next}, a < h4.next := by
      rintro a (ha | ha)
      · have := (hW' a ha).2; omega
      · have ha : a = h.next := ha
        omega
    have hW0 : ∀ a ∈ W' ∪ {h.next}, h.next ≤ a ∧ a < h2.next := by
      rintro a (ha | ha)
      · have := hW' a ha; omega
      · have ha : a = h.next := ha
        omega
    have hcg := computes_mvGram (m := m) (n := n) (h0 := h4) (W := W' ∪ {h.next}) (A := A) (work2 := h.next) (by omega)
      (fun hm => by have := hW0 _ hm; omega) (Or.inr rfl) hWl δ
    rw [hA4] at hcg
    have hcp := hcomp h4 (W' ∪ {h.next}) ho24 Set.subset_union_left (by
      rintro a (ha | ha)
      · exact Or.inl ha
      · have ha : a = h.next := ha
        exact Or.inr ⟨by omega, by omega⟩)
    have hpcg := pcg_sim (h := h4) hcg hcp hWl (rhs := h2.next) (x0 := h3.next) (by omega)
      (fun hm => by have := hW0 _ hm; omega) L tol (om_refl _ _)
    rw [om_vec ho4 (by omega) (by simp), hrv, hsv, hm2 A m (by omega), hm1 A hA, hv2 b (by omega), hv1 b hb,
      om_mat ho3 (by omega) (by simp), hR2] at hpcg
    have ec : (c.map fun a => h2.vec a n) = c.map fun a => h.vec a n := by
      rcases c with _ | c
      · rfl
      · have := hc c rfl
        simp only [Option.map_some, hv2 c (by omega), hv1 c this]
    have ez : (z0.map fun a => h3.vec a r) = z0.map fun a => h.vec a r := by
      rcases z0 with _ | z
      · rfl
      · have := hz z rfl
        simp only [Option.map_some, om_vec ho3 (a := z) (by omega) (by simp), hv2 z (by omega), hv1 z this]
    rw [ec, ez] at hpcg
    have hR' : ∀ hr : 0 < r, r ≠ n → R' = lowRankR (h.mat R n r) δ hr := by
      intro hr hrn
      simp only [pcss1Pre, if_neg hrn, dif_pos hr] at hp
      cases hp; rfl
    have hR4 : h4.mat R n r = R' := by rw [om_mat ho24 (by omega) (by simp), hR2]
    have hoo : ∀ {h5}, OnlyModifies (W' ∪ {h.next}) h4 h5 →
        OnlyModifies {a | a = R ∧ r ≠ n} h h5 ∧ h5.mat R n r = R' := by
      intro h5 ho
      refine ⟨om_trans' (om_trans' (om_trans (om_mono ho1 (by simp)) ho2) ho24 (by simp)) ho ?_, ?_⟩
      · intro a ha hlt
        have := hW0 a ha
        omega
      · rw [om_mat ho (by omega) (fun hm => by have := hW0 _ hm; omega), hR4]
    rcases hm : pcgM n (mvGramM m n A h.next δ) h2.next op L tol h3.next h4 with ⟨e | ⟨x, log⟩, h5⟩ <;>
      rcases hpp : pcg (mvGram (h.mat A m n) δ) (normalRhs (h.mat A m n) (h.vec b m) (c.map fun a => h.vec a n)) g L tol
        (pcss1Start R' (z0.map fun a => h.vec a r)) with e' | ⟨xv, log'⟩ <;> rw [hm, hpp] at hpcg
    · rw [mem_bind_error hm] at hunf
      refine ⟨_, _, hunf, (hoo hpcg.1).1, fun hr hrn => (hoo hpcg.1).2.trans (hR' hr hrn), ?_⟩
      simp only [pcss1Core, hp, hpp]
      exact hpcg.2
    · exact hpcg.2.elim
    · exact hpcg.2.elim
    · rw [mem_bind_ok hm] at hunf
      obtain ⟨ho5, hx0, hx5, hxv, hlog⟩ := hpcg
      simp only at hx0 hx5 hxv hlog
      have hl5 := ho5.1
      have hbn : b ∉ W' ∪ {h.next} := fun hm => by have := hW0 _ hm; omega
      have hAn : A ∉ W' ∪ {h.next} := fun hm => by have := hW0 _ hm; omega
      simp only [mem_get, mem_getM, mem_new, mem_pure, hxv] at hunf
      rw [om_vec ho5 (by omega) hbn, om_vec ho24 (by omega) (by simp), hv2 b (by omega), hv1 b hb,
        om_mat ho5 (by omega) hAn, hA4] at hunf
      refine ⟨_, _, hunf, om_newV (hoo ho5).1 _, fun hr hrn => ?_, ?_⟩
      · rw [newV_mat]; exact (hoo ho5).2.trans (hR' hr hrn)
      · simp only [pcss1Core, hp, hpp]
        refine ⟨x, xv, rfl, rfl, by omega, ?_, ?_, ?_, ?_, ?_, ?_, ?_⟩
        · simp; omega
        · rw [newV_vec _ _ (by omega), hxv]
        · have := hoo ho5
          have := this.1.1
          omega
        · simp
        · rw [newV_self]
        · omega
        · rw [hlog]

end Parla.Proof
