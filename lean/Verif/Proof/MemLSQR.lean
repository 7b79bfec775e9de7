import Verif.Proof.MemSaddle
import Verif.Model.MemLSQR

/-! # `lsqr` on mutable arrays -/

namespace Parla.Proof

open Matrix

variable {m n r p q : ℕ} {α β γ δ' : Type} {W : Set ℕ} {h0 h h' : Heap}

/-- the array at `a` exists, is nobody's workspace and has the content `v` -/
structure Holds (W : Set ℕ) (h : Heap) (a n : ℕ) (v : Fin n → ℝ) : Prop where
  lt : a < h.next
  nW : a ∉ W
  eq : h.vec a n = v

theorem Holds.om {a : ℕ} {v : Fin n → ℝ} (hv : Holds W h a n v) (ho : OnlyModifies W h h') : Holds W h' a n v :=
  ⟨hv.lt.trans_le ho.1, hv.nW, by rw [om_vec ho hv.lt hv.nW, hv.eq]⟩

theorem sim_pure {Post : α → β → Heap → Prop} {a : α} {b : β} (hp : Post a b h) :
    Sim W h (pure a : Mem α) (.ok b) Post := ⟨om_refl _ _, hp⟩

theorem sim_raise {Post : α → β → Heap → Prop} (e : PyErr) :
    Sim W h (Mem.raise e : Mem α) (.error e : Except PyErr β) Post := ⟨om_refl _ _, rfl⟩

theorem sim_bind {P : α → β → Heap → Prop} {Q : γ → δ' → Heap → Prop} {m : Mem α} {e : Except PyErr β}
    {f : α → Mem γ} {g : β → Except PyErr δ'} (h1 : Sim W h m e P)
    (h2 : ∀ a b h', OnlyModifies W h h' → P a b h' → Sim W h' (f a) (g b) Q) :
    Sim W h (m >>= f) (e >>= g) Q := by
  unfold Sim at h1
  rcases hm : m h with ⟨e1 | a, h'⟩ <;> rcases e with e' | b <;> rw [hm] at h1
  · unfold Sim
    rw [mem_bind_error hm]
    exact h1
  · exact h1.2.elim
  · exact h1.2.elim
  · have := h2 a b h' h1.1 h1.2
    unfold Sim
    rw [mem_bind_ok hm]
    exact ⟨om_trans h1.1 this.1, this.2⟩

theorem sim_bind' {P : α → β → Heap → Prop} {Q : γ → δ' → Heap → Prop} {m : Mem α} {b : β}
    {f : α → Mem γ} {e : Except PyErr δ'} (h1 : Sim W h m (.ok b) P)
    (h2 : ∀ a h', OnlyModifies W h h' → P a b h' → Sim W h' (f a) e Q) :
    Sim W h (m >>= f) e Q := by
  unfold Sim at h1
  rcases hm : m h with ⟨e1 | a, h'⟩ <;> rw [hm] at h1
  · exact h1.2.elim
  · have := h2 a h' h1.1 h1.2
    unfold Sim
    rw [mem_bind_ok hm]
    exact ⟨om_trans h1.1 this.1, this.2⟩

theorem sim_mono {P Q : α → β → Heap → Prop} {m : Mem α} {e : Except PyErr β} (h1 : Sim W h m e P)
    (h2 : ∀ a b h', OnlyModifies W h h' → P a b h' → Q a b h') : Sim W h m e Q := by
  unfold Sim at h1 ⊢
  rcases hm : m h with ⟨e1 | a, h'⟩ <;> rcases e with e' | b <;> rw [hm] at h1
  · exact h1
  · exact h1
  · exact h1
  · exact ⟨h1.1, h2 _ _ _ h1.1 h1.2⟩

theorem sim_get {P : α → β → Heap → Prop} {a : ℕ} {v : Fin n → ℝ} {f : (Fin n → ℝ) → Mem α} {e : Except PyErr β}
    (hv : Holds W h a n v) (h1 : Sim W h (f v) e P) : Sim W h (getVec n a >>= f) e P := by
  unfold Sim
  rw [mem_get, hv.eq]
  exact h1

theorem sim_new {P : α → β → Heap → Prop} {v : Fin n → ℝ} {f : ℕ → Mem α} {e : Except PyErr β}
    (hW : ∀ a ∈ W, a < h.next)
    (h1 : ∀ h', OnlyModifies W h h' → h'.next = h.next + 1 → Holds W h' h.next n v → Sim W h' (f h.next) e P) :
    Sim W h (newVec v >>= f) e P := by
  have ho : OnlyModifies W h (h.newV v) := om_newV (om_refl _ _) v
  have := h1 (h.newV v) ho rfl ⟨by simp, fun hm => by have := hW _ hm; omega, newV_self _ _⟩
  unfold Sim
  rw [mem_new]
  exact ⟨om_trans ho this.1, this.2⟩

theorem sim_new' {P : ℕ → β → Heap → Prop} {v : Fin n → ℝ} {b : β} (hW : ∀ a ∈ W, a < h.next)
    (h1 : ∀ h', OnlyModifies W h h' → h'.next = h.next + 1 → Holds W h' h.next n v → P h.next b h') :
    Sim W h (newVec v) (.ok b) P :=
  ⟨om_newV (om_refl _ _) v,
    h1 (h.newV v) (om_newV (om_refl _ _) v) rfl ⟨by simp, fun hm => by have := hW _ hm; omega, newV_self _ _⟩⟩

/-- calling a function handle -/
theorem sim_call {op : ℕ → Mem ℕ} {f : (Fin q → ℝ) → Except PyErr (Fin p → ℝ)} (hop : Computes h0 W op f)
    (hW : ∀ a ∈ W, a < h0.next) (ho : OnlyModifies W h0 h) {a : ℕ} {v : Fin q → ℝ} (ha : Holds W h a q v) :
    Sim W h (op a) (f v) fun r w h' => Holds W h' r p w ∧ (r = a ∨ h.next ≤ r) := by
  unfold Sim
  rcases hf : f v with e | w
  · obtain ⟨h', h1, h2, h3⟩ := computes_error hop ho ha.lt ha.nW (by rw [ha.eq]; exact hf)
    rw [h1]
    exact ⟨h2, rfl⟩
  · obtain ⟨r, h', h1, h2, h3, h4, h5, h6, h7⟩ := computes_ok hop hW ho ha.lt ha.nW (by rw [ha.eq]; exact hf)
    rw [h1]
    exact ⟨h2, ⟨h4, h6, h7⟩, h5⟩

/-! ## lsqr -/

/-- the variables of `lsqr`, by address and by value -/
structure LsqrRel (W : Set ℕ) (h : Heap) (s : LsqrRefs p q) (t : LsqrState p q) : Prop where
  x : Holds W h s.x q t.x
  u : Holds W h s.u p t.u
  v : Holds W h s.v q t.v
  w : Holds W h s.w q t.w
  var : Holds W h s.var q t.var
  xvar : s.x ≠ s.var
  num : { s.num with x := t.x, u := t.u, v := t.v, w := t.w, var := t.var } = t

theorem wlt (hW : ∀ a ∈ W, a < h0.next) (ho : OnlyModifies W h0 h) : ∀ a ∈ W, a < h.next :=
  fun a ha => (hW a ha).trans_le ho.1

theorem lsqrInit_sim {mv rmv : ℕ → Mem ℕ} {A : LinOp p q} (hf : Computes h0 W mv A.mv) (hg : Computes h0 W rmv A.rmv)
    (hW : ∀ a ∈ W, a < h0.next) (ho : OnlyModifies W h0 h) {b : ℕ} {bv : Fin p → ℝ} (hb : Holds W h b p bv)
    {x0 : Option ℕ} {xv : Option (Fin q → ℝ)}
    (hx : match x0, xv with
      | none, none => True
      | some a, some v => Holds W h a q v
      | _, _ => False) :
    Sim W h (lsqrInitM p q mv rmv b x0) (lsqrInit A bv xv) fun s t h' =>
      LsqrRel W h' s t ∧ (∀ a ∈ x0, s.x = a) ∧ (x0 = none → h.next ≤ s.x) ∧ h.next ≤ s.var ∧ t.itn = 0 := by
  unfold lsqrInitM
  refine sim_new (wlt hW ho) fun h1 o1 n1 hvar => ?_
  unfold lsqrInit
  refine sim_bind (P := fun a b' h' => Holds W h' a.1 q b'.1 ∧ Holds W h' a.2.1 p b'.2.1 ∧ a.2.2 = b'.2.2 ∧
    (∀ c ∈ x0, a.1 = c) ∧ (x0 = none → h1.next ≤ a.1)) ?_ ?_
  · rcases x0 with _ | x0 <;> rcases xv with _ | xv
    · refine sim_new (wlt hW (om_trans ho o1)) fun h2 o2 n2 hx => ?_
      refine sim_get ((hb.om o1).om o2) ?_
      exact sim_pure ⟨hx, (hb.om o1).om o2, rfl, by simp, fun _ => le_rfl⟩
    · exact hx.elim
    · exact hx.elim
    · refine sim_bind (sim_call hf hW (om_trans ho o1) (hx.om o1)) ?_
      rintro Ax Axv h2 o2 ⟨hAx, -⟩
      refine sim_get ((hb.om o1).om o2) (sim_get hAx (sim_new (wlt hW (om_trans (om_trans ho o1) o2)) ?_))
      intro h3 o3 n3 hu
      refine sim_get hu (sim_pure ⟨((hx.om o1).om o2).om o3, hu, rfl, by simp, by simp⟩)
  · rintro ⟨x, u, beta⟩ ⟨xv', uv, beta'⟩ h2 o2 ⟨hx', hu, hbeta, hxx, hxn⟩
    simp only at hx' hu hbeta hxx hxn
    subst hbeta
    have O2 := om_trans (om_trans ho o1) o2
    refine sim_bind (P := fun a b' h' => Holds W h' a.1 p b'.1 ∧ Holds W h' a.2.1 q b'.2.1 ∧ a.2.2 = b'.2.2) ?_ ?_
    · simp only
      by_cases hb0 : 0 < beta
      · rw [if_pos hb0, if_pos hb0]
        refine sim_get hu (sim_new (wlt hW O2) fun h3 o3 n3 hu3 => ?_)
        refine sim_bind (sim_call hg hW (om_trans O2 o3) hu3) ?_
        rintro v vv h4 o4 ⟨hv, -⟩
        exact sim_get hv (sim_pure ⟨hu3.om o4, hv, rfl⟩)
      · rw [if_neg hb0, if_neg hb0]
        exact sim_get hx' (sim_new (wlt hW O2) fun h3 o3 n3 hv => sim_pure ⟨hu.om o3, hv, rfl⟩)
    · rintro ⟨u', v, alfa⟩ ⟨uv', vv, alfa'⟩ h3 o3 ⟨hu', hv, ha⟩
      simp only at hu' hv ha
      subst ha
      have O3 := om_trans O2 o3
      simp only
      have hbr : Sim W h3 (if 0 < alfa then (do newVec ((1 / alfa) • (← getVec q v))) else pure v : Mem ℕ)
          (.ok (if 0 < alfa then (1 / alfa) • vv else vv)) fun a w h' => Holds W h' a q w := by
        by_cases ha0 : 0 < alfa
        · rw [if_pos ha0, if_pos ha0]
          exact sim_get hv (sim_new' (wlt hW O3) fun h4 o4 n4 hh => hh)
        · rw [if_neg ha0, if_neg ha0]
          exact sim_pure hv
      refine sim_bind' hbr ?_
      intro v' h4 o4 hv'
      refine sim_get hv' (sim_new (wlt hW (om_trans O3 o4)) fun h5 o5 n5 hw => sim_pure ?_)
      have hvar5 := ((((hvar.om o2).om o3).om o4).om o5)
      have l1 := o1.1
      have l2 := o2.1
      refine ⟨⟨((hx'.om o3).om o4).om o5, (hu'.om o4).om o5, hv'.om o5, hw, hvar5, ?_, rfl⟩, hxx, ?_, ?_⟩
      · simp only
        rcases x0 with _ | x0
        · have := hxn rfl; omega
        · rw [hxx x0 rfl]
          rcases xv with _ | xv
          · exact hx.elim
          · have := hx.lt; omega
      · intro e
        have := hxn e
        simp only; omega
      · exact ⟨le_rfl, rfl⟩

theorem lsqrBidiag_sim {mv rmv : ℕ → Mem ℕ} {A : LinOp p q} (hf : Computes h0 W mv A.mv) (hg : Computes h0 W rmv A.rmv)
    (hW : ∀ a ∈ W, a < h0.next) (ho : OnlyModifies W h0 h) (damp : ℝ) {s : LsqrRefs p q} {t : LsqrState p q}
    (hs : LsqrRel W h s t) :
    Sim W h (lsqrBidiagM mv rmv damp s) (lsqrBidiag A damp t) fun a b h' =>
      LsqrRel W h' a.1 b.1 ∧ a.2 = b.2 ∧ a.1.x = s.x ∧ a.1.var = s.var := by
  obtain ⟨sx, su, sv, sw, svar, num⟩ := s
  obtain ⟨hx, hu, hv, hw, hvar, hxv, hnum⟩ := hs
  simp only at hx hu hv hw hvar hxv hnum
  generalize t.x = tx at hx hnum
  generalize t.u = tu at hu hnum
  generalize t.v = tv at hv hnum
  generalize t.w = tw at hw hnum
  generalize t.var = tvar at hvar hnum
  subst hnum
  unfold lsqrBidiagM lsqrBidiag
  simp only
  refine sim_bind (sim_call hf hW ho hv) ?_
  rintro Av Avv h1 o1 ⟨hAv, -⟩
  refine sim_get hAv (sim_get (hu.om o1) (sim_new (wlt hW (om_trans ho o1)) fun h2 o2 n2 hu2 => sim_get hu2 ?_))
  have O2 := om_trans (om_trans ho o1) o2
  by_cases hb : 0 < norm2 (Avv - num.alfa • tu)
  · rw [if_pos hb, if_pos hb]
    refine sim_get hu2 (sim_new (wlt hW O2) fun h3 o3 n3 hu3 => ?_)
    refine sim_bind (sim_call hg hW (om_trans O2 o3) hu3) ?_
    rintro Atu Atuv h4 o4 ⟨hAtu, -⟩
    have O4 := om_trans (om_trans O2 o3) o4
    have o14 := om_trans (om_trans (om_trans o1 o2) o3) o4
    refine sim_get hAtu (sim_get (hv.om o14) (sim_new (wlt hW O4) fun h5 o5 n5 hv5 => sim_get hv5 ?_))
    have hbr : Sim W h5 (if 0 < norm2 (Atuv - norm2 (Avv - num.alfa • tu) • tv) then
          (do newVec ((1 / norm2 (Atuv - norm2 (Avv - num.alfa • tu) • tv)) • (← getVec q h4.next))) else pure h4.next : Mem ℕ)
        (.ok (if 0 < norm2 (Atuv - norm2 (Avv - num.alfa • tu) • tv) then
          (1 / norm2 (Atuv - norm2 (Avv - num.alfa • tu) • tv)) • (Atuv - norm2 (Avv - num.alfa • tu) • tv)
          else Atuv - norm2 (Avv - num.alfa • tu) • tv)) fun a w h' => Holds W h' a q w := by
      by_cases ha0 : 0 < norm2 (Atuv - norm2 (Avv - num.alfa • tu) • tv)
      · rw [if_pos ha0, if_pos ha0]
        exact sim_get hv5 (sim_new' (wlt hW (om_trans O4 o5)) fun h4 o4 n4 hh => hh)
      · rw [if_neg ha0, if_neg ha0]
        exact sim_pure hv5
    refine sim_bind' hbr ?_
    intro v' h6 o6 hv'
    have o16 := om_trans (om_trans o14 o5) o6
    exact sim_pure ⟨⟨hx.om o16, ((hu3.om o4).om o5).om o6, hv', hw.om o16, hvar.om o16, hxv, rfl⟩, rfl, rfl, rfl⟩
  · rw [if_neg hb, if_neg hb]
    have o12 := om_trans o1 o2
    exact sim_pure ⟨⟨hx.om o12, hu2, hv.om o12, hw.om o12, hvar.om o12, hxv, rfl⟩, rfl, rfl, rfl⟩

theorem lsqrRotate_sim (hW : ∀ a ∈ W, a < h.next) (damp : ℝ) {s : LsqrRefs p q} {t : LsqrState p q}
    (hs : LsqrRel W h s t) (beta : ℝ) (cv : Bool) :
    Sim W h (lsqrRotateM damp s beta cv) (.ok (lsqrRotate damp t beta cv)) fun s' t' h' =>
      LsqrRel W h' s' t' ∧ h.next ≤ s'.x ∧ (s'.var = s.var ∨ h.next ≤ s'.var) := by
  have hread : s.read h = (.ok t, h) := by
    have : s.read h = (Except.ok
        { s.num with x := h.vec s.x q, u := h.vec s.u p, v := h.vec s.v q, w := h.vec s.w q, var := h.vec s.var q }, h) :=
      rfl
    rw [this, hs.x.eq, hs.u.eq, hs.v.eq, hs.w.eq, hs.var.eq, hs.num]
  unfold lsqrRotateM
  have e0 : ∀ {α : Type} (f : LsqrState p q → Mem α), (s.read >>= f) h = f t h := fun f => mem_bind_ok hread f
  suffices Sim W h (do
      let x ← newVec (lsqrRotate damp t beta cv).x
      let w ← newVec (lsqrRotate damp t beta cv).w
      let var ← (if cv then newVec (lsqrRotate damp t beta cv).var else pure s.var : Mem ℕ)
      pure ⟨x, s.u, s.v, w, var, lsqrRotate damp t beta cv⟩) (.ok (lsqrRotate damp t beta cv)) fun s' t' h' =>
        LsqrRel W h' s' t' ∧ h.next ≤ s'.x ∧ (s'.var = s.var ∨ h.next ≤ s'.var) by
    unfold Sim at this ⊢
    rw [e0]
    exact this
  refine sim_new hW fun h1 o1 n1 hx => ?_
  refine sim_new (wlt hW o1) fun h2 o2 n2 hw => ?_
  have O2 := om_trans o1 o2
  have hbr : Sim W h2 (if cv then newVec (lsqrRotate damp t beta cv).var else pure s.var : Mem ℕ)
      (.ok (lsqrRotate damp t beta cv).var) fun a v h' => Holds W h' a q v ∧ a ≠ h.next ∧ (a = s.var ∨ h.next ≤ a) := by
    cases cv
    · exact sim_pure ⟨(hs.var.om O2), by have := hs.var.lt; omega, Or.inl rfl⟩
    · refine sim_new' (wlt hW O2) fun h3 o3 n3 hh => ⟨hh, by omega, Or.inr (by omega)⟩
  refine sim_bind' hbr ?_
  rintro var h3 o3 ⟨hvar, hne, hor⟩
  refine sim_pure ⟨⟨(hx.om o2).om o3, (hs.u.om O2).om o3, (hs.v.om O2).om o3, hw.om o3, hvar, Ne.symm hne, rfl⟩,
    le_rfl, hor⟩

theorem lsqrStep_sim {mv rmv : ℕ → Mem ℕ} {A : LinOp p q} (hf : Computes h0 W mv A.mv) (hg : Computes h0 W rmv A.rmv)
    (hW : ∀ a ∈ W, a < h0.next) (ho : OnlyModifies W h0 h) (damp : ℝ) {s : LsqrRefs p q} {t : LsqrState p q}
    (hs : LsqrRel W h s t) (cv : Bool) :
    Sim W h (lsqrStepM mv rmv damp s cv) (lsqrStep A damp t cv) fun s' t' h' =>
      LsqrRel W h' s' t' ∧ h.next ≤ s'.x ∧ (s'.var = s.var ∨ h.next ≤ s'.var) := by
  unfold lsqrStepM lsqrStep
  refine sim_bind (lsqrBidiag_sim hf hg hW ho damp hs) ?_
  rintro ⟨s1, beta⟩ ⟨t1, beta'⟩ h1 o1 ⟨hs1, hb, hx, hv⟩
  simp only at hs1 hb hx hv
  subst hb
  refine sim_mono (lsqrRotate_sim (wlt hW (om_trans ho o1)) damp hs1 beta cv) ?_
  rintro s2 t2 h2 o2 ⟨h3, h4, h5⟩
  have := o1.1
  refine ⟨h3, by omega, ?_⟩
  rw [← hv]
  rcases h5 with h5 | h5
  · exact Or.inl h5
  · right; omega

theorem lsqrLoop_sim {mv rmv : ℕ → Mem ℕ} {A : LinOp p q} (hf : Computes h0 W mv A.mv) (hg : Computes h0 W rmv A.rmv)
    (hW : ∀ a ∈ W, a < h0.next) (damp : ℝ) (T : LsqrTol) (bn : ℝ) (L : ℕ) (cv : Bool) (k : ℕ) :
    ∀ {h : Heap} {s : LsqrRefs p q} {t : LsqrState p q} (arr : List ℝ), OnlyModifies W h0 h → LsqrRel W h s t →
    Sim W h (lsqrLoopM mv rmv damp T bn L cv k s arr) (lsqrLoop A damp T bn L cv k t arr) fun a b h' =>
      LsqrRel W h' a.1 b.1 ∧ a.2 = b.2 ∧ (k = 0 → a.1.x = s.x) ∧ (k = 0 → b.1 = t) ∧ (k ≠ 0 → h.next ≤ a.1.x) ∧
      (a.1.var = s.var ∨ h.next ≤ a.1.var) := by
  induction k with
  | zero =>
    intro h s t arr ho hs
    exact sim_pure ⟨hs, rfl, fun _ => rfl, fun _ => rfl, fun e => absurd rfl e, Or.inl rfl⟩
  | succ k ih =>
    intro h s t arr ho hs
    have hnum : s.num.itn = t.itn ∧ s.num.arnorm = t.arnorm := by
      have := hs.num
      constructor
      · rw [← this]
      · rw [← this]
    have hpure : lsqrLoop A damp T bn L cv (k + 1) t arr = (do
        let t' ← lsqrStep A damp t cv
        if lsqrStop T bn L t' ≠ 0 then .ok (t', lsqrStop T bn L t', arr.set t.itn t.arnorm)
        else lsqrLoop A damp T bn L cv k t' (arr.set t.itn t.arnorm)) := by
      rw [lsqrLoop]
      rcases lsqrStep A damp t cv with e | t' <;> rfl
    rw [hpure]
    unfold lsqrLoopM
    rw [hnum.1, hnum.2]
    refine sim_bind (lsqrStep_sim hf hg hW ho damp hs cv) ?_
    rintro s1 t1 h1 o1 ⟨hs1, hx1, hv1⟩
    have hstop : lsqrStop T bn L s1.num = lsqrStop T bn L t1 := by rw [← hs1.num]; rfl
    simp only [hstop]
    by_cases hst : lsqrStop T bn L t1 ≠ 0
    · rw [if_pos hst, if_pos hst]
      exact sim_pure ⟨hs1, rfl, by simp, by simp, fun _ => hx1, hv1⟩
    · rw [if_neg hst, if_neg hst]
      refine sim_mono (ih _ (om_trans ho o1) hs1) ?_
      rintro a b h2 o2 ⟨ha, hb, hc, -, hd, he⟩
      have := o1.1
      refine ⟨ha, hb, by simp, by simp, fun _ => ?_, ?_⟩
      · by_cases hk : k = 0
        · rw [hc hk]; exact hx1
        · have := hd hk; omega
      · rcases he with he | he
        · rw [he]; exact hv1
        · right; omega

/-- `lsqr`, by address and by value: the arrays it is given are only read; the result `x` is a new array, except that
`lsqr` returns the array `x0` itself if it performs no iteration. -/
theorem lsqr_sim {mv rmv : ℕ → Mem ℕ} {A : LinOp p q} (hf : Computes h0 W mv A.mv) (hg : Computes h0 W rmv A.rmv)
    (hW : ∀ a ∈ W, a < h0.next) (ho : OnlyModifies W h0 h) {b : ℕ} {bv : Fin p → ℝ} (hb : Holds W h b p bv)
    {x0 : Option ℕ} {xv : Option (Fin q → ℝ)}
    (hx : match x0, xv with
      | none, none => True
      | some a, some v => Holds W h a q v
      | _, _ => False) (damp : ℝ) (T : LsqrTol) (L : Option ℤ) (cv : Bool) :
    Sim W h (lsqrM p q mv rmv b damp T L x0 cv) (lsqr A bv damp T L xv cv) fun o o' h' =>
      Holds W h' o.x q o'.x ∧ Holds W h' o.var q o'.var ∧ h.next ≤ o.var ∧ o.x ≠ o.var ∧
      (h.next ≤ o.x ∨ o'.itn = 0 ∧ x0 = some o.x) ∧
      { o.rest with x := o'.x, var := o'.var } = o' := by
  unfold lsqrM
  refine sim_get hb ?_
  have hpure : lsqr A bv damp T L xv cv = (do
      let s ← lsqrInit A bv xv
      if s.arnorm = 0 then
        .ok ⟨s.x, 0, s.itn, s.r1norm, s.r2norm, s.anorm, s.acond, .scalar s.arnorm, s.xnorm, s.var⟩
      else if L.getD (2 * q) < 0 then .error .value
      else do
        let (s, istop, arr) ← lsqrLoop A damp T (norm2 bv) (L.getD (2 * q)).toNat cv (L.getD (2 * q)).toNat s
          (List.replicate (L.getD (2 * q)).toNat (-1))
        .ok ⟨s.x, istop, s.itn, s.r1norm, s.r2norm, s.anorm, s.acond,
          .arr (arr.filter fun e => decide (-1 < e)), s.xnorm, s.var⟩) := by
    unfold lsqr
    rcases lsqrInit A bv xv with e | s
    · rfl
    · simp only [bind, Except.bind]
      split_ifs
      · rfl
      · rfl
      · rcases lsqrLoop A damp T (norm2 bv) (L.getD (2 * q)).toNat cv (L.getD (2 * q)).toNat s
          (List.replicate (L.getD (2 * q)).toNat (-1)) with e | ⟨s, i, a⟩ <;> rfl
  rw [hpure]
  refine sim_bind (lsqrInit_sim hf hg hW ho hb hx) ?_
  rintro s t h1 o1 ⟨hs, hx1, hx2, hv, hitn⟩
  have hnum := hs.num
  have e1 : s.num.arnorm = t.arnorm := by rw [← hnum]
  have hxor : h.next ≤ s.x ∨ x0 = some s.x := by
    rcases x0 with _ | a
    · exact Or.inl (hx2 rfl)
    · exact Or.inr (by rw [hx1 a rfl])
  rw [e1]
  by_cases ha : t.arnorm = 0
  · rw [if_pos ha, if_pos ha]
    refine sim_pure ⟨hs.x, hs.var, hv, hs.xvar, ?_, by rw [← hnum]⟩
    rcases hxor with hxor | hxor
    · exact Or.inl hxor
    · exact Or.inr ⟨hitn, hxor⟩
  · rw [if_neg ha, if_neg ha]
    by_cases hL : L.getD (2 * q) < 0
    · rw [if_pos hL, if_pos hL]
      exact sim_raise _
    · rw [if_neg hL, if_neg hL]
      refine sim_bind (lsqrLoop_sim hf hg hW damp T (norm2 bv) _ cv _ _ (om_trans ho o1) hs) ?_
      rintro ⟨s2, i2, a2⟩ ⟨t2, i2', a2'⟩ h2 o2 ⟨hs2, he, hk0, hk0', hk1, hv2⟩
      simp only [Prod.mk.injEq] at hs2 he hk0 hk0' hk1 hv2
      obtain ⟨rfl, rfl⟩ := he
      have := o1.1
      have hnum2 := hs2.num
      refine sim_pure ⟨hs2.x, hs2.var, ?_, hs2.xvar, ?_, by rw [← hnum2]⟩
      · simp only
        rcases hv2 with hv2 | hv2 <;> omega
      · simp only
        by_cases hk : (L.getD (2 * q)).toNat = 0
        · rw [hk0 hk]
          rcases hxor with hxor | hxor
          · exact Or.inl hxor
          · exact Or.inr ⟨by rw [hk0' hk, hitn], hxor⟩
        · left
          have := hk1 hk
          omega

end Parla.Proof
