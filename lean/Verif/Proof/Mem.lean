import Verif.SpecMem
import Verif.Model.Mem

/-! # Lemmas on mutable arrays -/

namespace Parla.Proof

open Matrix

variable {n r c : ℕ} {α β : Type}

theorem mem_get (n a : ℕ) (f : (Fin n → ℝ) → Mem α) (h : Heap) : (getVec n a >>= f) h = f (h.vec a n) h := rfl
theorem mem_getM (r c a : ℕ) (f : Matrix (Fin r) (Fin c) ℝ → Mem α) (h : Heap) :
    (getMat r c a >>= f) h = f (h.mat a r c) h := rfl
theorem mem_new (v : Fin n → ℝ) (f : ℕ → Mem α) (h : Heap) : (newVec v >>= f) h = f h.next (h.newV v) := rfl
theorem mem_newM (v : Matrix (Fin r) (Fin c) ℝ) (f : ℕ → Mem α) (h : Heap) :
    (newMat v >>= f) h = f h.next (h.newM v) := rfl
theorem mem_new' (v : Fin n → ℝ) (h : Heap) : newVec v h = (.ok h.next, h.newV v) := rfl
theorem mem_set (a : ℕ) (v : Fin n → ℝ) (f : Unit → Mem α) (h : Heap) :
    (setVec a v >>= f) h = f () (h.setV a v) := rfl
theorem mem_setM (a : ℕ) (v : Matrix (Fin r) (Fin c) ℝ) (f : Unit → Mem α) (h : Heap) :
    (setMat a v >>= f) h = f () (h.setM a v) := rfl
theorem mem_pure (a : α) (h : Heap) : (pure a : Mem α) h = (.ok a, h) := rfl
theorem mem_pure_bind (a : α) (f : α → Mem β) (h : Heap) : ((pure a : Mem α) >>= f) h = f a h := rfl
theorem mem_raise (e : PyErr) (h : Heap) : (Mem.raise e : Mem α) h = (.error e, h) := rfl
theorem mem_raise_bind (e : PyErr) (f : α → Mem β) (h : Heap) :
    ((Mem.raise e : Mem α) >>= f) h = (.error e, h) := rfl
theorem mem_bind_ok {p : Mem α} {h h' : Heap} {a : α} (hp : p h = (.ok a, h')) (f : α → Mem β) :
    (p >>= f) h = f a h' := by
  change Mem.bind p f h = _
  simp only [Mem.bind, hp]
theorem mem_bind_error {p : Mem α} {h h' : Heap} {e : PyErr} (hp : p h = (.error e, h')) (f : α → Mem β) :
    (p >>= f) h = (.error e, h') := by
  change Mem.bind p f h = _
  simp only [Mem.bind, hp]
theorem mem_assoc {γ : Type} (p : Mem α) (f : α → Mem β) (g : β → Mem γ) (h : Heap) :
    ((p >>= f) >>= g) h = (p >>= fun a => f a >>= g) h := by
  change Mem.bind (Mem.bind p f) g h = Mem.bind p (fun a => Mem.bind (f a) g) h
  unfold Mem.bind
  rcases hp : p h with ⟨e | a, h'⟩ <;> rfl

@[simp] theorem newV_next (h : Heap) (v : Fin n → ℝ) : (h.newV v).next = h.next + 1 := rfl
@[simp] theorem newM_next (h : Heap) (v : Matrix (Fin r) (Fin c) ℝ) : (h.newM v).next = h.next + 1 := rfl
@[simp] theorem setV_next (h : Heap) (a : ℕ) (v : Fin n → ℝ) : (h.setV a v).next = h.next := rfl
@[simp] theorem setM_next (h : Heap) (a : ℕ) (v : Matrix (Fin r) (Fin c) ℝ) : (h.setM a v).next = h.next := rfl
@[simp] theorem newV_mat (h : Heap) (v : Fin n → ℝ) : (h.newV v).mat = h.mat := rfl
@[simp] theorem setV_mat (h : Heap) (a : ℕ) (v : Fin n → ℝ) : (h.setV a v).mat = h.mat := rfl
@[simp] theorem newM_vec (h : Heap) (v : Matrix (Fin r) (Fin c) ℝ) : (h.newM v).vec = h.vec := rfl
@[simp] theorem setM_vec (h : Heap) (a : ℕ) (v : Matrix (Fin r) (Fin c) ℝ) : (h.setM a v).vec = h.vec := rfl
@[simp] theorem newV_self (h : Heap) (v : Fin n → ℝ) : (h.newV v).vec h.next n = v := by
  simp [Heap.newV]
theorem newV_vec (h : Heap) (v : Fin n → ℝ) {a : ℕ} (ha : a ≠ h.next) : (h.newV v).vec a = h.vec a := by
  simp [Heap.newV, Function.update_of_ne ha]
@[simp] theorem setV_self (h : Heap) (a : ℕ) (v : Fin n → ℝ) : (h.setV a v).vec a n = v := by
  simp [Heap.setV]
theorem setV_vec (h : Heap) (a : ℕ) (v : Fin n → ℝ) {b : ℕ} (hb : b ≠ a) : (h.setV a v).vec b = h.vec b := by
  simp [Heap.setV, Function.update_of_ne hb]
@[simp] theorem newM_self (h : Heap) (v : Matrix (Fin r) (Fin c) ℝ) : (h.newM v).mat h.next r c = v := by
  simp [Heap.newM]
theorem newM_mat (h : Heap) (v : Matrix (Fin r) (Fin c) ℝ) {a : ℕ} (ha : a ≠ h.next) :
    (h.newM v).mat a = h.mat a := by
  simp [Heap.newM, Function.update_of_ne ha]
@[simp] theorem setM_self (h : Heap) (a : ℕ) (v : Matrix (Fin r) (Fin c) ℝ) : (h.setM a v).mat a r c = v := by
  simp [Heap.setM]
theorem setM_mat (h : Heap) (a : ℕ) (v : Matrix (Fin r) (Fin c) ℝ) {b : ℕ} (hb : b ≠ a) :
    (h.setM a v).mat b = h.mat b := by
  simp [Heap.setM, Function.update_of_ne hb]
/-- writing a matrix of one shape leaves other shapes alone -/
theorem setM_mat_shape (h : Heap) (a : ℕ) (v : Matrix (Fin r) (Fin c) ℝ) {b r' c' : ℕ}
    (hb : b = a → r' = r → c' ≠ c) : (h.setM a v).mat b r' c' = h.mat b r' c' := by
  by_cases e1 : b = a
  · subst e1
    by_cases e2 : r' = r
    · subst e2
      simp [Heap.setM, Function.update_of_ne (hb rfl rfl)]
    · simp [Heap.setM, Function.update_of_ne e2]
  · rw [setM_mat h a v e1]

variable {W : Set ℕ} {h0 h h' : Heap}

theorem om_refl (W : Set ℕ) (h : Heap) : OnlyModifies W h h := ⟨le_rfl, fun _ _ _ => ⟨rfl, rfl⟩⟩

theorem om_trans (h1 : OnlyModifies W h0 h) (h2 : OnlyModifies W h h') : OnlyModifies W h0 h' :=
  ⟨h1.1.trans h2.1, fun a ha hW =>
    ⟨((h2.2 a (ha.trans_le h1.1) hW).1).trans (h1.2 a ha hW).1,
      ((h2.2 a (ha.trans_le h1.1) hW).2).trans (h1.2 a ha hW).2⟩⟩

/-- composition with a call that has its own set of objects to modify -/
theorem om_trans' {W' : Set ℕ} (h1 : OnlyModifies W h0 h) (h2 : OnlyModifies W' h h')
    (hW : ∀ a ∈ W', a < h0.next → a ∈ W) : OnlyModifies W h0 h' :=
  ⟨h1.1.trans h2.1, fun a ha hn =>
    have hn' : a ∉ W' := fun hm => hn (hW a hm ha)
    ⟨((h2.2 a (ha.trans_le h1.1) hn').1).trans (h1.2 a ha hn).1,
      ((h2.2 a (ha.trans_le h1.1) hn').2).trans (h1.2 a ha hn).2⟩⟩

theorem om_mono {W' : Set ℕ} (h1 : OnlyModifies W h0 h) (hW : W ⊆ W') : OnlyModifies W' h0 h :=
  ⟨h1.1, fun a ha hn => h1.2 a ha fun hm => hn (hW hm)⟩

theorem om_newV (h1 : OnlyModifies W h0 h) (v : Fin n → ℝ) : OnlyModifies W h0 (h.newV v) :=
  ⟨h1.1.trans (Nat.le_succ _), fun a ha hW => by
    have := h1.1
    rw [newV_vec h v (by omega), newV_mat]; exact h1.2 a ha hW⟩

theorem om_newM (h1 : OnlyModifies W h0 h) (v : Matrix (Fin r) (Fin c) ℝ) : OnlyModifies W h0 (h.newM v) :=
  ⟨h1.1.trans (Nat.le_succ _), fun a ha hW => by
    have := h1.1
    rw [newM_mat h v (by omega), newM_vec]; exact h1.2 a ha hW⟩

theorem om_setV (h1 : OnlyModifies W h0 h) (v : Fin n → ℝ) {a : ℕ} (ha : a ∈ W ∨ h0.next ≤ a) :
    OnlyModifies W h0 (h.setV a v) :=
  ⟨h1.1, fun b hb hW => by
    have hne : b ≠ a := by
      rintro rfl
      rcases ha with ha | ha
      · exact hW ha
      · omega
    rw [setV_vec h a v hne, setV_mat]; exact h1.2 b hb hW⟩

theorem om_setM (h1 : OnlyModifies W h0 h) (v : Matrix (Fin r) (Fin c) ℝ) {a : ℕ} (ha : a ∈ W ∨ h0.next ≤ a) :
    OnlyModifies W h0 (h.setM a v) :=
  ⟨h1.1, fun b hb hW => by
    have hne : b ≠ a := by
      rintro rfl
      rcases ha with ha | ha
      · exact hW ha
      · omega
    rw [setM_mat h a v hne, setM_vec]; exact h1.2 b hb hW⟩

/-- a handle that computes a total function returns -/
theorem computes_ok {p q : ℕ} {op : ℕ → Mem ℕ} {f : (Fin q → ℝ) → Except PyErr (Fin p → ℝ)}
    (hop : Computes h0 W op f) (hW : ∀ a ∈ W, a < h0.next) (hh : OnlyModifies W h0 h) {a : ℕ} (ha : a < h.next) (haW : a ∉ W)
    {v : Fin p → ℝ} (hv : f (h.vec a q) = .ok v) :
    ∃ r h', op a h = (.ok r, h') ∧ OnlyModifies W h h' ∧ OnlyModifies W h0 h' ∧ r < h'.next ∧
      (r = a ∨ h.next ≤ r) ∧ r ∉ W ∧ h'.vec r p = v := by
  have := hop h a hh ha haW
  rw [hv] at this
  rcases hr : op a h with ⟨e | r, h'⟩
  · rw [hr] at this; exact this.2.elim
  · rw [hr] at this
    refine ⟨r, h', rfl, this.1, om_trans hh this.1, this.2.1, this.2.2.1, ?_, this.2.2.2⟩
    rcases this.2.2.1 with rfl | hge
    · exact haW
    · intro hm
      have := hW r hm
      have := hh.1
      omega

theorem computes_error {p q : ℕ} {op : ℕ → Mem ℕ} {f : (Fin q → ℝ) → Except PyErr (Fin p → ℝ)}
    (hop : Computes h0 W op f) (hh : OnlyModifies W h0 h) {a : ℕ} (ha : a < h.next) (haW : a ∉ W)
    {e : PyErr} (hv : f (h.vec a q) = .error e) :
    ∃ h', op a h = (.error e, h') ∧ OnlyModifies W h h' ∧ OnlyModifies W h0 h' := by
  have := hop h a hh ha haW
  rw [hv] at this
  rcases hr : op a h with ⟨e' | r, h'⟩
  · rw [hr] at this
    have h2 : e' = e := this.2
    exact ⟨h', by rw [h2], this.1, om_trans hh this.1⟩
  · rw [hr] at this; exact this.2.elim

/-! ## pcg -/

/-- the local variables of `pcg`, by address and by value -/
structure PCGRel (h0 h : Heap) (s : PCGRefs) (t : PCGState n) : Prop where
  x0 : h0.next ≤ s.x
  xlt : s.x < h.next
  x : h.vec s.x n = t.x
  r0 : h0.next ≤ s.r
  rlt : s.r < h.next
  r : h.vec s.r n = t.r
  rx : s.r ≠ s.x
  d : match s.d, t.d with
    | none, none => True
    | some d, some dv => h0.next ≤ d ∧ d < h.next ∧ h.vec d n = dv ∧ d ≠ s.x ∧ (d = s.r → s.i % 10 = 0)
    | _, _ => False
  delta1 : s.delta1 = t.delta1
  curErr : s.curErr = t.curErr
  log : s.log = t.log
  i : s.i = t.i

theorem pcgStep_sim {mvMat mvPre : ℕ → Mem ℕ} {f g : (Fin n → ℝ) → Fin n → ℝ}
    (hf : Computes h0 W mvMat fun v => .ok (f v)) (hg : Computes h0 W mvPre fun v => .ok (g v))
    (hW : ∀ a ∈ W, a < h0.next) {rhs : ℕ} (hrhs : rhs < h0.next) (hrW : rhs ∉ W)
    {s : PCGRefs} {t : PCGState n} (hh : OnlyModifies W h0 h) (hst : PCGRel h0 h s t) :
    OnlyModifies W h0 (pcgStepM n mvMat mvPre rhs s h).2 ∧
    match (pcgStepM n mvMat mvPre rhs s h).1, pcgStep f g (h0.vec rhs n) t with
    | .ok s', .ok t' => PCGRel h0 (pcgStepM n mvMat mvPre rhs s h).2 s' t'
    | .error e, .error e' => e = e'
    | _, _ => False := by
  obtain ⟨sx, sr, sd, sdelta, serr, slog, si⟩ := s
  obtain ⟨tx, tr, td, tdelta, terr, tlog, ti⟩ := t
  have Hd := hst.d
  rcases sd with _ | d <;> rcases td with _ | dv
  · exact ⟨hh, rfl⟩
  · exact Hd.elim
  · exact Hd.elim
  obtain ⟨hd0, hdlt, hdv, hdx, hdr⟩ := Hd
  obtain ⟨hx0, hxlt, hx, hr0, hrlt, hr, hrx, -, h1, h2, h3, h4⟩ := hst
  simp only at hx0 hxlt hx hr0 hrlt hr hrx h1 h2 h3 h4 hdx hdr
  subst h1 h2 h3 h4
  have fresh : ∀ {a}, h0.next ≤ a → a ∉ W := fun {a} ha hm => by have := hW a hm; omega
  have hl0 := hh.1
  -- q = mv_mat(d)
  obtain ⟨q, h1, hq, hq1, hq2, hqlt, hqa, hqW, hqv⟩ := computes_ok hf hW hh hdlt (fresh hd0) rfl
  rw [hdv] at hqv
  have hl1 := hq1.1
  have hdv1 : h1.vec d n = dv := by rw [(hq1.2 d hdlt (fresh hd0)).1, hdv]
  have hx1 : h1.vec sx n = tx := by rw [(hq1.2 sx hxlt (fresh hx0)).1, hx]
  have hr1 : h1.vec sr n = tr := by rw [(hq1.2 sr hrlt (fresh hr0)).1, hr]
  have hqx : q ≠ sx := by rcases hqa with rfl | hge; exacts [hdx, by omega]
  have hunf : pcgStepM n mvMat mvPre rhs ⟨sx, sr, some d, sdelta, serr, slog, si⟩ h = _ :=
    (mem_bind_ok hq _)
  simp only [mem_get, hdv1, hqv] at hunf
  simp only [pcgStep]
  by_cases hden : dv ⬝ᵥ f dv = 0
  · rw [if_pos hden, mem_raise] at hunf
    rw [hunf, if_pos hden]
    exact ⟨hq2, rfl⟩
  rw [if_neg hden] at hunf
  rw [if_neg hden]
  simp only [mem_get, mem_set, hx1, hdv1] at hunf
  obtain ⟨al, hal⟩ : ∃ al, al = sdelta / (dv ⬝ᵥ f dv) := ⟨_, rfl⟩
  rw [← hal] at hunf ⊢
  obtain ⟨h2, hh2⟩ : ∃ h2, h2 = h1.setV sx (tx + al • dv) := ⟨_, rfl⟩
  rw [← hh2] at hunf
  have ho2 : OnlyModifies W h0 h2 := hh2 ▸ om_setV hq2 _ (Or.inr hx0)
  have hn2 : h2.next = h1.next := by rw [hh2]; rfl
  have hx2 : h2.vec sx n = tx + al • dv := by rw [hh2, setV_self]
  have hd2 : h2.vec d n = dv := by rw [hh2, setV_vec _ _ _ hdx, hdv1]
  have hr2 : h2.vec sr n = tr := by rw [hh2, setV_vec _ _ _ hrx, hr1]
  have hq2' : h2.vec q n = f dv := by rw [hh2, setV_vec _ _ _ hqx, hqv]
  -- the new residual
  obtain ⟨rv, hrv⟩ : ∃ rv, rv = (if si % 10 = 0 then h0.vec rhs n - f (tx + al • dv) else tr - al • f dv) := ⟨_, rfl⟩
  have hbr : ∃ r' h4, (if si % 10 = 0 then (do
          let t ← mvMat sx
          newVec ((← getVec n rhs) - (← getVec n t)) : Mem ℕ)
        else (do
          setVec sr ((← getVec n sr) - al • (← getVec n q))
          pure sr : Mem ℕ)) h2 = (.ok r', h4) ∧ OnlyModifies W h0 h4 ∧ h2.next ≤ h4.next ∧ h0.next ≤ r' ∧ r' < h4.next ∧
        h4.vec r' n = rv ∧ h4.vec sx n = tx + al • dv ∧ h4.vec d n = dv ∧ r' ≠ sx ∧ r' ≠ d := by
    by_cases hi : si % 10 = 0
    · rw [if_pos hi]
      rw [if_pos hi] at hrv
      obtain ⟨t, h3, ht, ht1, ht2, htlt, hta, htW, htv⟩ :=
        computes_ok hf hW ho2 (a := sx) (by omega) (fresh hx0) rfl
      have hl3 := ht1.1
      rw [mem_bind_ok ht]
      simp only [mem_get, mem_new']
      refine ⟨_, _, rfl, om_newV ht2 _, ?_, ?_, ?_, ?_, ?_, ?_, ?_, ?_⟩
      · simp; omega
      · omega
      · simp
      · rw [newV_self, htv, hx2, (ht2.2 rhs hrhs hrW).1, hrv]
      · rw [newV_vec _ _ (by omega), (ht1.2 sx (by omega) (fresh hx0)).1, hx2]
      · rw [newV_vec _ _ (by omega), (ht1.2 d (by omega) (fresh hd0)).1, hd2]
      · omega
      · omega
    · rw [if_neg hi]
      rw [if_neg hi] at hrv
      simp only [mem_get, mem_set, mem_pure, hr2, hq2']
      have hdr' : d ≠ sr := fun e => hi (hdr e)
      refine ⟨_, _, rfl, om_setV ho2 _ (Or.inr hr0), le_rfl, hr0, ?_, ?_, ?_, ?_, hrx, hdr'.symm⟩
      · simp; omega
      · rw [setV_self, hrv]
      · rw [setV_vec _ _ _ hrx.symm, hx2]
      · rw [setV_vec _ _ _ hdr', hd2]
  obtain ⟨r', h4, hbr, ho4, hl4, hr'0, hr'lt, hr'v, hx4, hd4, hr'x, hr'd⟩ := hbr
  rw [mem_bind_ok hbr] at hunf
  simp only [mem_get, hr'v] at hunf
  rw [← hrv]
  -- s = mv_pre(r)
  obtain ⟨sv, h5, hs, hs1, hs2, hslt, hsa, hsW, hsv⟩ := computes_ok hg hW ho4 hr'lt (fresh hr'0) rfl
  have hl5 := hs1.1
  rw [mem_bind_ok hs] at hunf
  have hr5 : h5.vec r' n = rv := by rw [(hs1.2 r' hr'lt (fresh hr'0)).1, hr'v]
  have hd5 : h5.vec d n = dv := by rw [(hs1.2 d (by omega) (fresh hd0)).1, hd4]
  have hx5 : h5.vec sx n = tx + al • dv := by rw [(hs1.2 sx (by omega) (fresh hx0)).1, hx4]
  rw [hr'v] at hsv
  simp only [mem_get, hr5, hsv] at hunf
  by_cases hz : sdelta = 0
  · rw [if_pos hz, mem_pure_bind, mem_pure] at hunf
    rw [hunf, if_pos hz]
    refine ⟨hs2, ?_⟩
    constructor <;> simp only
    · exact hx0
    · omega
    · exact hx5
    · exact hr'0
    · omega
    · exact hr5
    · exact hr'x
  · rw [if_neg hz, mem_assoc] at hunf
    simp only [mem_get, mem_assoc, mem_new, mem_pure_bind, mem_pure, hsv, hd5] at hunf
    rw [hunf, if_neg hz]
    refine ⟨om_newV hs2 _, ?_⟩
    constructor <;> simp only [newV_next, newV_self]
    · exact hx0
    · omega
    · rw [newV_vec _ _ (by omega), hx5]
    · exact hr'0
    · omega
    · rw [newV_vec _ _ (by omega), hr5]
    · exact hr'x
    · refine ⟨by omega, by omega, trivial, by omega, fun e => by omega⟩

theorem pcgLoop_sim {mvMat mvPre : ℕ → Mem ℕ} {f g : (Fin n → ℝ) → Fin n → ℝ}
    (hf : Computes h0 W mvMat fun v => .ok (f v)) (hg : Computes h0 W mvPre fun v => .ok (g v))
    (hW : ∀ a ∈ W, a < h0.next) {rhs : ℕ} (hrhs : rhs < h0.next) (hrW : rhs ∉ W) (tol : ℝ) (k : ℕ) :
    ∀ {h : Heap} {s : PCGRefs} {t : PCGState n} (_ : OnlyModifies W h0 h) (_ : PCGRel h0 h s t),
    OnlyModifies W h0 (pcgLoopM n mvMat mvPre rhs tol k s h).2 ∧
    match (pcgLoopM n mvMat mvPre rhs tol k s h).1, pcgLoop f g (h0.vec rhs n) tol k t with
    | .ok s', .ok t' => PCGRel h0 (pcgLoopM n mvMat mvPre rhs tol k s h).2 s' t'
    | .error e, .error e' => e = e'
    | _, _ => False := by
  induction k with
  | zero => exact fun {h s t} hh hst => ⟨hh, hst⟩
  | succ k ih =>
    intro h s t hh hst
    simp only [pcgLoopM, pcgLoop, hst.curErr]
    by_cases hc : t.curErr > tol
    · rw [if_pos hc, if_pos hc]
      have hs := pcgStep_sim hf hg hW hrhs hrW hh hst
      rcases hm : pcgStepM n mvMat mvPre rhs s h with ⟨e | s', h'⟩ <;>
        rcases hp : pcgStep f g (h0.vec rhs n) t with e' | t' <;> rw [hm, hp] at hs
      · rw [mem_bind_error hm]; exact hs
      · exact hs.2.elim
      · exact hs.2.elim
      · rw [mem_bind_ok hm]; exact ih hs.1 hs.2
    · rw [if_neg hc, if_neg hc]
      exact ⟨hh, hst⟩

theorem pcg_sim {mvMat mvPre : ℕ → Mem ℕ} {f g : (Fin n → ℝ) → Fin n → ℝ}
    (hf : Computes h0 W mvMat fun v => .ok (f v)) (hg : Computes h0 W mvPre fun v => .ok (g v))
    (hW : ∀ a ∈ W, a < h0.next) {rhs x0 : ℕ} (hrhs : rhs < h0.next) (hrW : rhs ∉ W) (L : ℤ) (tol : ℝ)
    (hh : OnlyModifies W h0 h) :
    OnlyModifies W h0 (pcgM n mvMat rhs mvPre L tol x0 h).2 ∧
    match (pcgM n mvMat rhs mvPre L tol x0 h).1, pcg f (h0.vec rhs n) g L tol (h.vec x0 n) with
    | .ok o, .ok o' => h0.next ≤ o.1 ∧ o.1 < (pcgM n mvMat rhs mvPre L tol x0 h).2.next ∧
        (pcgM n mvMat rhs mvPre L tol x0 h).2.vec o.1 n = o'.1 ∧ o.2 = o'.2
    | .error e, .error e' => e = e'
    | _, _ => False := by
  have hl0 := hh.1
  have fresh : ∀ {a}, h0.next ≤ a → a ∉ W := fun {a} ha hm => by have := hW a hm; omega
  have hunf : pcgM n mvMat rhs mvPre L tol x0 h = _ := (mem_get _ _ _ _).trans (mem_new _ _ _)
  obtain ⟨x, hx⟩ : ∃ x, x = h.next := ⟨_, rfl⟩
  obtain ⟨h1, hh1⟩ : ∃ h1, h1 = h.newV (h.vec x0 n) := ⟨_, rfl⟩
  rw [← hh1, ← hx] at hunf
  have ho1 : OnlyModifies W h0 h1 := hh1 ▸ om_newV hh _
  have hn1 : h1.next = h.next + 1 := by rw [hh1]; rfl
  have hx1 : h1.vec x n = h.vec x0 n := by rw [hh1, hx, newV_self]
  have hx0 : h0.next ≤ x := by omega
  unfold pcg
  by_cases hL : L < 0
  · rw [if_pos hL, mem_raise] at hunf
    rw [hunf, if_pos hL]
    exact ⟨ho1, rfl⟩
  rw [if_neg hL] at hunf
  rw [if_neg hL]
  obtain ⟨t, h2, ht, ht1, ht2, htlt, hta, htW, htv⟩ :=
    computes_ok hf hW ho1 (a := x) (by omega) (fresh hx0) rfl
  have hl2 := ht1.1
  rw [mem_bind_ok ht] at hunf
  simp only [mem_get, mem_new] at hunf
  rw [htv, hx1, (ht2.2 rhs hrhs hrW).1] at hunf
  obtain ⟨rv, hrv⟩ : ∃ rv, rv = h0.vec rhs n - f (h.vec x0 n) := ⟨_, rfl⟩
  rw [← hrv] at hunf
  obtain ⟨r, hr⟩ : ∃ r, r = h2.next := ⟨_, rfl⟩
  obtain ⟨h3, hh3⟩ : ∃ h3, h3 = h2.newV rv := ⟨_, rfl⟩
  rw [← hh3, ← hr] at hunf
  have ho3 : OnlyModifies W h0 h3 := hh3 ▸ om_newV ht2 _
  have hn3 : h3.next = h2.next + 1 := by rw [hh3]; rfl
  have hr3 : h3.vec r n = rv := by rw [hh3, hr, newV_self]
  have hx3 : h3.vec x n = h.vec x0 n := by
    rw [hh3, newV_vec _ _ (by omega), (ht1.2 x (by omega) (fresh hx0)).1, hx1]
  obtain ⟨d, h4, hd, hd1, hd2, hdlt, hda, hdW, hdv⟩ :=
    computes_ok hg hW ho3 (a := r) (by omega) (fresh (by omega)) rfl
  have hl4 := hd1.1
  rw [mem_bind_ok hd] at hunf
  have hr4 : h4.vec r n = rv := by rw [(hd1.2 r (by omega) (fresh (by omega))).1, hr3]
  have hx4 : h4.vec x n = h.vec x0 n := by rw [(hd1.2 x (by omega) (fresh hx0)).1, hx3]
  rw [hr3] at hdv
  simp only [mem_get, hr4, hdv] at hunf
  have hrel : PCGRel h0 h4 ⟨x, r, some d, rv ⬝ᵥ g rv, norm2 rv, [], 0⟩ (pcgInit f g (h0.vec rhs n) (h.vec x0 n)) := by
    constructor <;> simp only [pcgInit, ← hrv]
    · exact hx0
    · omega
    · exact hx4
    · omega
    · omega
    · exact hr4
    · omega
    · refine ⟨by omega, hdlt, hdv, by omega, fun _ => by norm_num⟩
  have hloop := pcgLoop_sim hf hg hW hrhs hrW (tol * norm2 rv) L.toNat hd2 hrel
  have hc : (pcgInit f g (h0.vec rhs n) (h.vec x0 n)).curErr = norm2 rv := by simp only [pcgInit, ← hrv]
  simp only [hc]
  rcases hm : pcgLoopM n mvMat mvPre rhs (tol * norm2 rv) L.toNat ⟨x, r, some d, rv ⬝ᵥ g rv, norm2 rv, [], 0⟩ h4
    with ⟨e | s', h'⟩ <;>
    rcases hp : pcgLoop f g (h0.vec rhs n) (tol * norm2 rv) L.toNat (pcgInit f g (h0.vec rhs n) (h.vec x0 n))
      with e' | t' <;> rw [hm, hp] at hloop
  · rw [mem_bind_error hm] at hunf
    rw [hunf]; exact hloop
  · exact hloop.2.elim
  · exact hloop.2.elim
  · rw [mem_bind_ok hm, mem_pure] at hunf
    rw [hunf]
    exact ⟨hloop.1, hloop.2.x0, hloop.2.xlt, hloop.2.x, hloop.2.log⟩

end Parla.Proof
