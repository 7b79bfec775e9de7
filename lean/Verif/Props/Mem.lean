import Verif.Proof.MemDrivers
import Verif.Proof.MemQB
import Verif.Props.SSO1

/-! # C83: which arrays a call modifies, and aliasing

The solvers, the least squares and saddle point drivers and `QB2`, given the addresses of their array arguments (`Model/Mem`, `Model/MemLSQR`,
`Model/MemDrivers`), do what the model by value does with the contents of these arrays at the time of
the call.  The addresses need not be distinct.  All arrays that existed before the call are as before
when it returns or raises, except as stated; the arrays returned are new. -/

namespace Parla

open Matrix

variable {G : Type} {m n r p q : ℕ} {W : Set ℕ} {h : Heap}

/-! ## The solvers -/

/-- `pcg`: `rhs` and `x0` are not modified (they may be the same array), the result is a new array and
has the value that `pcg` has by value, although `x` and `r` are updated in place and even if the
function handles return their argument or an array of their own making. -/
theorem C83_pcg {mvMat mvPre : ℕ → Mem ℕ} {f g : (Fin n → ℝ) → Fin n → ℝ}
    (hf : Computes h W mvMat fun v => .ok (f v)) (hg : Computes h W mvPre fun v => .ok (g v))
    (hW : ∀ a ∈ W, a < h.next) {rhs x0 : ℕ} (hrhs : rhs < h.next) (hrW : rhs ∉ W) (iterLim : ℤ) (tol : ℝ) :
    Sim W h (pcgM n mvMat rhs mvPre iterLim tol x0) (pcg f (h.vec rhs n) g iterLim tol (h.vec x0 n))
      fun o o' h' => IsNew h h' o.1 n o'.1 ∧ o.2 = o'.2 := by
  have := Proof.pcg_sim hf hg hW hrhs hrW (x0 := x0) iterLim tol (Proof.om_refl W h)
  unfold Sim
  refine ⟨this.1, ?_⟩
  have h2 := this.2
  rcases hm : pcgM n mvMat rhs mvPre iterLim tol x0 h with ⟨e | o, h'⟩ <;>
    rcases hp : pcg f (h.vec rhs n) g iterLim tol (h.vec x0 n) with e' | o' <;> rw [hm, hp] at h2
  · exact h2
  · exact h2
  · exact h2
  · exact ⟨⟨h2.1, h2.2.1, h2.2.2.1⟩, h2.2.2.2⟩

/-- `lsqr`: `b` and `x0` are not modified, `var` is a new array; `x` is a new array, except that it is
the array `x0` itself if there was no iteration.  The results are those of `lsqr` by value. -/
theorem C83_lsqr {mv rmv : ℕ → Mem ℕ} {A : LinOp p q} (hf : Computes h W mv A.mv) (hg : Computes h W rmv A.rmv)
    (hW : ∀ a ∈ W, a < h.next) {b : ℕ} (hb : b < h.next) (hbW : b ∉ W) {x0 : Option ℕ}
    (hx : ∀ a ∈ x0, a < h.next ∧ a ∉ W) (damp : ℝ) (T : LsqrTol) (iterLim : Option ℤ) (calcVar : Bool) :
    Sim W h (lsqrM p q mv rmv b damp T iterLim x0 calcVar)
      (lsqr A (h.vec b p) damp T iterLim (x0.map fun a => h.vec a q) calcVar) fun o o' h' =>
        (IsNew h h' o.x q o'.x ∨ o'.itn = 0 ∧ x0 = some o.x ∧ h'.vec o.x q = o'.x) ∧ IsNew h h' o.var q o'.var ∧
        o.x ≠ o.var ∧ { o.rest with x := o'.x, var := o'.var } = o' := by
  have := Proof.lsqr_sim hf hg hW (Proof.om_refl W h) (b := b) (bv := h.vec b p) ⟨hb, hbW, rfl⟩ (x0 := x0)
    (xv := x0.map fun a => h.vec a q) (by
      rcases x0 with _ | a
      · trivial
      · exact ⟨(hx a rfl).1, (hx a rfl).2, rfl⟩) damp T iterLim calcVar
  unfold Sim at this ⊢
  refine ⟨this.1, ?_⟩
  have h2 := this.2
  rcases hm : lsqrM p q mv rmv b damp T iterLim x0 calcVar h with ⟨e | o, h'⟩ <;>
    rcases hp : lsqr A (h.vec b p) damp T iterLim (x0.map fun a => h.vec a q) calcVar with e' | o' <;> rw [hm, hp] at h2
  · exact h2
  · exact h2
  · exact h2
  · obtain ⟨⟨x1, x2, x3⟩, ⟨v1, v2, v3⟩, v4, hne, hor, hrest⟩ := h2
    refine ⟨?_, ⟨v4, v1, v3⟩, hne, hrest⟩
    rcases hor with hn | ⟨hi, he⟩
    · exact Or.inl ⟨hn, x1, x3⟩
    · exact Or.inr ⟨hi, he, x3⟩

/-- `PcSS1`: nothing of the caller's is modified but the array `R`, and that only if `R` is not
square. -/
theorem C83_pcss1 {A : ℕ} {b : BRef} {c : Option ℕ} {P : PrecRef} {z0 : Option ℕ} (hA : A < h.next)
    (hb : ∀ a, b = .vec a → a < h.next) (hc : ∀ a ∈ c, a < h.next) (hP : P.addr < h.next) (hz : ∀ a ∈ z0, a < h.next)
    (delta tol : ℝ) (iterLim : ℤ) :
    Sim {a | ∃ r, P = .gen r a ∧ r ≠ n} h (pcss1M m n A b c delta tol iterLim P z0)
      (pcss1 (h.mat A m n) (b.val m h) (c.map fun a => h.vec a n) delta tol iterLim (P.val n h)
        (z0.map fun a => h.vec a (P.val n h).dim)) fun o o' h' => o.Is o' h h' := by
  have h1 := Proof.pcss1_runs m n h A b c delta tol iterLim P z0 hA hb hc hP hz
  refine ⟨Proof.pcss1_writes hA hb hc hP hz delta tol iterLim, h1.2⟩

/-- `PcSS1` with an `R` that is not square: whether it returns or raises, it leaves in the caller's
`R`, instead of the column `R[:, j]`, the unit vector in its direction times
`sqrt(1 / ‖R[:, -1]‖² + delta) / sqrt(1 / ‖R[:, j]‖² + delta)`. -/
theorem C83_pcss1_R {A R : ℕ} {b : BRef} {c : Option ℕ} {z0 : Option ℕ} (hA : A < h.next)
    (hb : ∀ a, b = .vec a → a < h.next) (hb1 : ∀ k hk, b ≠ .multi k hk) (hc : ∀ a ∈ c, a < h.next) (hR : R < h.next)
    (hz : ∀ a ∈ z0, a < h.next) (delta tol : ℝ) (iterLim : ℤ) (hr : 0 < r) (hrn : r ≠ n) (i : Fin n) (j : Fin r) :
    (pcss1M m n A b c delta tol iterLim (.gen r R) z0 h).2.mat R n r i j =
      h.mat R n r i j * (1 / norm2 fun i => h.mat R n r i j) /
        (Real.sqrt ((1 / norm2 fun i => h.mat R n r i j) ^ 2 + delta) /
          Real.sqrt ((1 / norm2 fun i => h.mat R n r i ⟨r - 1, by omega⟩) ^ 2 + delta)) := by
  rw [Proof.pcss1_leaves hA hb hb1 hc hR hz delta tol iterLim hr hrn]
  rfl

/-- `PcSS2` modifies no array of the caller's, whether or not SciPy's `solve_triangular` chooses to
work in place on the workspace it is given. -/
theorem C83_pcss2 {A : ℕ} {b : BRef} {c : Option ℕ} {P : PrecRef} {z0 : Option ℕ} (hA : A < h.next)
    (hb : ∀ a, b = .vec a → a < h.next) (hc : ∀ a ∈ c, a < h.next) (hP : P.addr < h.next) (hz : ∀ a ∈ z0, a < h.next)
    (inPlace : Heap → Bool) (delta tol : ℝ) (iterLim : ℤ) :
    Sim ∅ h (pcss2M inPlace m n A b c delta tol iterLim P z0)
      (pcss2 (h.mat A m n) (b.val m h) (c.map fun a => h.vec a n) delta tol iterLim (P.val n h)
        (z0.map fun a => h.vec a (P.val n h).dim)) fun o o' h' => o.Is o' h h' :=
  Proof.pcss2_sim hA hb hc hP hz inPlace delta tol iterLim

/-! ## The drivers -/

/-- `SSO1` modifies no array of the caller's and returns a new array, whatever LAPACK leaves in the
arrays it is allowed to destroy. -/
theorem C83_sso1 (la : LinAlg) (J : Leftover) (gen : SkOpGen G) (sf : ℝ) {A b : ℕ} (hb : b < h.next) (delta : ℝ)
    (tol : Tol) (iterLim : ℤ) :
    SimCall h (sso1CallM la J gen sf m n A b delta tol iterLim)
      (sso1Call la gen sf (h.mat A m n) (h.vec b m) delta tol iterLim) fun o o' h' => IsNew h h' o n o' := by
  unfold sso1CallM sso1Call
  have main : SimCall h (dimChecks sf m n >>= fun d => gen d m >>= fun S => pure (sso1PostM la J S n A b delta))
      (dimChecks sf m n >>= fun d => gen d m >>= fun S =>
        pure (la.lstsqv (aLift (S * h.mat A m n) (Real.sqrt delta)) (catv (S *ᵥ h.vec b m) 0)))
      fun o o' h' => IsNew h h' o n o' :=
    Proof.simCall_bind fun d => Proof.simCall_bind fun S => Proof.simCall_post (Proof.sso1Post_sim la J S hb delta)
  simp only
  split_ifs <;> first
    | exact main
    | exact Proof.simCall_bind fun _ => main
    | exact Proof.simCall_bind fun _ => Proof.simCall_bind fun _ => main

/-- `SPO` modifies no array of the caller's; `x_star` is a new array. -/
theorem C83_spo (la : LinAlg) (J : Leftover) (inPlace : Heap → Bool) (gen : SkOpGen G) (sf : ℝ) (mode : SPOMode) {A b : ℕ}
    (hA : A < h.next) (hb : b < h.next) (delta tol : ℝ) (iterLim : ℤ) (logging : Bool) (clock : LogTimes) :
    SimCall h (spoCallM la J inPlace gen sf mode m n A b delta tol iterLim logging clock)
      (spoCall la gen sf mode (h.mat A m n) (h.vec b m) delta tol iterLim logging clock) fun o o' h' =>
        IsNewOpt h h' o.1 n o'.x ∧ o.2 = o'.log := by
  unfold spoCallM spoCall
  refine Proof.simCall_bind fun d => Proof.simCall_bind fun S => ?_
  exact Proof.simCall_post (Proof.spoPost_sim la J inPlace mode S hA hb delta tol iterLim logging clock)

/-- `SPU1` modifies no array of the caller's; `y_star` is a new array. -/
theorem C83_spu1 (la : LinAlg) (J : Leftover) (inPlace : Heap → Bool) (gen : SkOpGen G) (sf : ℝ) {A c : ℕ}
    (hA : A < h.next) (hc : c < h.next) (tol : ℝ) (iterLim : ℤ) (logging : Bool) (clock : LogTimes) :
    SimCall h (spu1CallM la J inPlace gen sf m n A c tol iterLim logging clock)
      (spu1Call la gen sf (h.mat A m n) (h.vec c n) tol iterLim logging clock) fun o o' h' =>
        IsNew h h' o.1 m o'.y ∧ o.2 = o'.log := by
  unfold spu1CallM spu1Call
  refine Proof.simCall_bind fun d => Proof.simCall_bind fun S => ?_
  exact Proof.simCall_post (Proof.spuPost_sim la J inPlace S hA hc tol iterLim logging clock)

/-- `SPS1` with any solver that modifies at most the `R` it is given (such as `PcSS1`, which does) modifies
no array of the caller's; `x_star` and `y_star` are new arrays and not the same one. -/
theorem C83_sps1 (la : LinAlg) (J : Leftover) (gen : SkOpGen G) (sf : ℝ) {sM : SaddleSolverM} {s : SaddleSolver}
    (hs : sM.Runs s) (strategy : NystromStrategy) {A : ℕ} {b c : Option ℕ} (hA : A < h.next) (hb : ∀ a ∈ b, a < h.next)
    (hc : ∀ a ∈ c, a < h.next) (delta tol : ℝ) (iterLim : ℤ) (logging : Bool) (clock : LogTimes) :
    SimCall h (sps1CallM la J gen sf sM strategy m n A b c delta tol iterLim logging clock)
      (sps1Call la gen sf s strategy (h.mat A m n) (b.map fun a => h.vec a m) (c.map fun a => h.vec a n) delta tol iterLim
        logging clock) fun o o' h' => o.Is o' h h' ∧ o.log = o'.log := by
  unfold sps1CallM sps1Call
  refine Proof.simCall_bind fun _ => ?_
  by_cases h1 : pyInt (sf * n) < 0
  · rw [if_pos h1, if_pos h1]
    exact Proof.simCall_raise _
  rw [if_neg h1, if_neg h1]
  simp only
  by_cases h2 : ¬ (pyInt (sf * n)).toNat < n
  · rw [if_pos h2, if_pos h2]
    refine Proof.simCall_bind fun S => ?_
    rw [← Proof.lift_bind]
    exact Proof.simCall_post (Proof.sps1SvdCall_sim la J hs S hA hb hc delta tol iterLim logging clock)
  rw [if_neg h2, if_neg h2]
  by_cases h3 : strategy = .right
  · rw [if_pos h3, if_pos h3]
    refine Proof.simCall_bind fun S => ?_
    exact Proof.simCall_post (Proof.sps1NysCall_sim hs hA hb hc (sps1Right la S) (fun _ => rfl) delta tol iterLim logging clock)
  · rw [if_neg h3, if_neg h3]
    refine Proof.simCall_bind fun S => ?_
    exact Proof.simCall_post (Proof.sps1NysCall_sim hs hA hb hc (sps1Left la S) (fun _ => rfl) delta tol iterLim logging clock)

/-- `SPS2` with any such solver modifies no array of the caller's, although it changes its right-hand
side in place; `x_star` and `y_star` are new arrays and not the same one, and the log is right except
possibly for its first error, which is right too if the solver does not change its `R`. -/
theorem C83_sps2 (la : LinAlg) (J : Leftover) (gen : SkOpGen G) (sf : ℝ) {sM : SaddleSolverM} {s : SaddleSolver}
    (hs : sM.Runs s) {A : ℕ} {b c : Option ℕ} (hA : A < h.next) (hb : ∀ a ∈ b, a < h.next)
    (hc : ∀ a ∈ c, a < h.next) (delta tol : ℝ) (iterLim : ℤ) (logging : Bool) (clock : LogTimes) :
    SimCall h (sps2CallM la J gen sf sM m n A b c delta tol iterLim logging clock)
      (sps2Call la gen sf s (h.mat A m n) (b.map fun a => h.vec a m) (c.map fun a => h.vec a n) delta tol iterLim
        logging clock) fun o o' h' => o.Is o' h h' ∧ SPLogAgree o.log o'.log ∧ (sM.KeepsR → o.log = o'.log) := by
  unfold sps2CallM sps2Call
  refine Proof.simCall_bind fun d => Proof.simCall_bind fun S => ?_
  exact Proof.simCall_post (Proof.sps2Post_sim la J hs S hA hb hc delta tol iterLim logging clock)

/-- The solvers of the library are such solvers, and `PcSS2` does not change its `R`. -/
theorem C83_solvers (inPlace : Heap → Bool) :
    SaddleSolverM.Runs pcss1M PcSS1 ∧ SaddleSolverM.Runs (pcss2M inPlace) PcSS2 ∧ (SaddleSolverM.KeepsR (pcss2M inPlace)) := by
  refine ⟨Proof.pcss1_runs, Proof.pcss2_runs inPlace, ?_⟩
  intro m n h A b c delta tol iterLim P z0 hA hb hc hP hz
  exact ((Proof.pcss2_sim (m := m) (n := n) hA hb hc hP hz inPlace delta tol iterLim).1.2 P.addr hP (by simp)).2

/-- `QB2`: with `overwrite_a=False` the caller's `A` is unchanged, whether the call returns or the
rangefinder raises.  With `overwrite_a=True`, `A` is the only array modified; if the call returns it
contains what C08 says, and if the rangefinder raises in some round it contains the matrix with the
blocks found before projected out.  `Q` and `B` are new arrays and as they are by value. -/
theorem C83_qb2 (la : LinAlg) (rf : RangeFinder G) (blk : ℕ) (overwriteA : Bool) {A : ℕ} (hA : A < h.next) (k : ℤ)
    (tol : Tol) (w : World G) {res : Except PyErr (QBRefs × World G)} {h' : Heap}
    (hrun : qb2M la rf blk overwriteA m n A k tol w h = (res, h')) :
    OnlyModifies (if overwriteA then {A} else ∅) h h' ∧ Deflated (h.mat A m n) (h'.mat A m n) ∧
    match res, qb2Call la rf blk overwriteA (h.mat A m n) k tol w with
    | .ok (o, w1), .ok ((out, A'), w2) => w1 = w2 ∧ o.c = out.c ∧ IsNewMat h h' o.Q out.Q ∧ IsNewMat h h' o.B out.B ∧
        o.Q ≠ o.B ∧ h'.mat A m n = A'
    | .error e, .error e' => e = e'
    | _, _ => False := by
  have hpure : qb2Call la rf blk overwriteA (h.mat A m n) k tol w = match qb2Run la rf blk (h.mat A m n) k tol w with
      | .ok (st, w') => .ok ((⟨st.c, st.Q, st.B⟩, if overwriteA then st.A else h.mat A m n), w')
      | .error e => .error e := by
    unfold qb2Call
    rcases hq : qb2Run la rf blk (h.mat A m n) k tol w with e | ⟨st, w'⟩
    · rw [Py.bind_eq_of_error hq]
    · rw [Py.bind_eq_of_ok hq]
      rfl
  cases overwriteA
  · have hr : qb2M la rf blk false m n A k tol w h = qb2BodyM la rf blk m n h.next k tol w (h.newM (h.mat A m n)) := rfl
    have ho : OnlyModifies ∅ h (h.newM (h.mat A m n)) := Proof.om_newM (Proof.om_refl _ _) _
    obtain ⟨t1, t2, t3⟩ := Proof.qb2Body_sim (m := m) (n := n) la rf blk (h := h.newM (h.mat A m n)) (A := h.next) (Nat.lt_succ_self _)
      k tol w
    rw [← hr, hrun] at t1 t2 t3
    have o1 : OnlyModifies ∅ h h' := Proof.om_trans' ho t1 (fun a ha hlt => by rw [Set.mem_singleton_iff] at ha; omega)
    have hA' : h'.mat A m n = h.mat A m n := Proof.om_mat o1 hA (by simp) _ _
    refine ⟨by simpa using o1, hA' ▸ ⟨[], by simp, rfl⟩, ?_⟩
    rw [hpure]
    have e1 : (h.newM (h.mat A m n)).mat h.next m n = h.mat A m n := Proof.newM_self _ _
    rw [e1] at t3
    have hlt : h.next < (h.newM (h.mat A m n)).next := Nat.lt_succ_self _
    rcases res with e | ⟨o, w1⟩
    · simp only at t3
      rw [t3]
    · obtain ⟨st, h1, h2, h3, h4, h5, h6, h7, h8, h9, h10⟩ := t3
      rw [h1]
      exact ⟨rfl, h2, ⟨hlt.le.trans h3, h4, h5⟩, ⟨hlt.le.trans h6, h7, h8⟩, h9, by simpa using hA'⟩
  · have hr : qb2M la rf blk true m n A k tol w h = qb2BodyM la rf blk m n A k tol w h := rfl
    obtain ⟨t1, t2, t3⟩ := Proof.qb2Body_sim (m := m) (n := n) la rf blk hA k tol w
    rw [← hr, hrun] at t1 t2 t3
    refine ⟨by simpa using t1, t2, ?_⟩
    rw [hpure]
    rcases res with e | ⟨o, w1⟩
    · simp only at t3
      rw [t3]
    · obtain ⟨st, h1, h2, h3, h4, h5, h6, h7, h8, h9, h10⟩ := t3
      rw [h1]
      exact ⟨rfl, h2, ⟨h3, h4, h5⟩, ⟨h6, h7, h8⟩, h9, by simpa using h10⟩

/-! ## Concrete cases -/

/-- three arrays: the vectors `(1, 2)` at 0 and `(0, 0)` at 1, and the matrix `[[2, 0], [0, 3]]` at 2 -/
noncomputable def demoHeap : Heap :=
  (((⟨0, fun _ _ _ => 0, fun _ _ _ => 0⟩ : Heap).newV (![1, 2] : Fin 2 → ℝ)).newV (![0, 0] : Fin 2 → ℝ)).newM
    (!![2, 0; 0, 3] : Matrix (Fin 2) (Fin 2) ℝ)

theorem demoHeap_next : demoHeap.next = 3 := rfl

theorem demoHeap_vec : demoHeap.vec 0 2 = ![1, 2] := by
  simp [demoHeap, Heap.newM, Heap.newV]

/-- the handle `lambda v: v`, which returns its argument -/
theorem demo_identity (W : Set ℕ) (h : Heap) :
    Computes (q := n) h W (fun a => (pure a : Mem ℕ)) fun v => .ok v := by
  intro h' a _ ha _
  exact ⟨Proof.om_refl _ _, ha, Or.inl rfl, rfl⟩

/-- `pcg(lambda v: v, v, lambda v: v, 5, 0.1, v)`: `rhs` and `x0` are one array, `(1, 2)`, and both
handles return their argument; `v` is unchanged and the result is a new array. -/
example : Sim ∅ demoHeap (pcgM 2 (fun a => pure a) 0 (fun a => pure a) 5 (1 / 10) 0)
    (pcg (fun v => v) ![1, 2] (fun v => v) 5 (1 / 10) ![1, 2])
    fun o o' h' => IsNew demoHeap h' o.1 2 o'.1 ∧ o.2 = o'.2 := by
  have := C83_pcg (h := demoHeap) (W := ∅) (n := 2) (demo_identity _ _) (demo_identity _ _) (by simp) (rhs := 0) (x0 := 0)
    (by rw [demoHeap_next]; norm_num) (by simp) 5 (1 / 10)
  rwa [demoHeap_vec] at this

/-- `lsqr` with handles that return their argument and `x0` the same array as `b` -/
example (T : LsqrTol) : Sim ∅ demoHeap (lsqrM 2 2 (fun a => pure a) (fun a => pure a) 0 0 T (some 5) (some 0) true)
    (lsqr (⟨fun v => .ok v, fun v => .ok v⟩ : LinOp 2 2) ![1, 2] 0 T (some 5) (some ![1, 2]) true) fun o o' h' =>
        (IsNew demoHeap h' o.x 2 o'.x ∨ o'.itn = 0 ∧ some 0 = some o.x ∧ h'.vec o.x 2 = o'.x) ∧ IsNew demoHeap h' o.var 2 o'.var ∧
        o.x ≠ o.var ∧ { o.rest with x := o'.x, var := o'.var } = o' := by
  have := C83_lsqr (h := demoHeap) (W := ∅) (A := (⟨fun v => .ok v, fun v => .ok v⟩ : LinOp 2 2)) (demo_identity _ _)
    (demo_identity _ _) (by simp) (b := 0) (by rw [demoHeap_next]; norm_num) (by simp) (x0 := some 0)
    (by simp [demoHeap_next]) 0 T (some 5) true
  rw [Option.map_some, demoHeap_vec] at this
  exact this

/-- `PcSS1` with the array `R = (2, 0)ᵀ` (not square): it is overwritten by `(1, 0)ᵀ`, even if the call
raises. -/
example (delta tol : ℝ) (hd : 0 ≤ delta) (iterLim : ℤ) :
    ∃ h : Heap, h.mat 0 2 1 = !![2; 0] ∧
      (pcss1M 2 2 0 (.vec 0) none delta tol iterLim (.gen 1 0) none h).2.mat 0 2 1 = !![1; 0] := by
  refine ⟨(⟨0, fun _ _ _ => 0, fun _ _ _ => 0⟩ : Heap).newM (!![2; 0] : Matrix (Fin 2) (Fin 1) ℝ), Proof.newM_self _ _, ?_⟩
  ext i j
  obtain rfl : j = 0 := Subsingleton.elim _ _
  have hR : ((⟨0, fun _ _ _ => 0, fun _ _ _ => 0⟩ : Heap).newM (!![2; 0] : Matrix (Fin 2) (Fin 1) ℝ)).mat 0 2 1 = !![2; 0] :=
    Proof.newM_self (⟨0, fun _ _ _ => 0, fun _ _ _ => 0⟩ : Heap) (!![2; 0] : Matrix (Fin 2) (Fin 1) ℝ)
  rw [C83_pcss1_R (Nat.lt_succ_self _) (by rintro a h; cases h; exact Nat.lt_succ_self _) (by simp) (by simp) (Nat.lt_succ_self _)
    (by simp) delta tol iterLim (by norm_num) (by norm_num) i 0, hR]
  have hn : norm2 (fun i => (!![2; 0] : Matrix (Fin 2) (Fin 1) ℝ) i 0) = 2 := by
    simp [norm2, sqNorm, Fin.sum_univ_two]
  have hl : (⟨1 - 1, by omega⟩ : Fin 1) = 0 := rfl
  rw [hl, hn]
  have hp : Real.sqrt ((1 / 2 : ℝ) ^ 2 + delta) ≠ 0 := by positivity
  rw [div_self hp]
  fin_cases i <;> simp

/-- `SPS2` with `PcSS1`, `b` and `c` being one array: afterwards the array is as before. -/
example (la : LinAlg) (J : Leftover) (gen : SkOpGen G) (sf delta tol : ℝ) (iterLim : ℤ) (logging : Bool) (clock : LogTimes) :
    SimCall demoHeap (sps2CallM la J gen sf pcss1M 2 2 2 (some 0) (some 0) delta tol iterLim logging clock)
      (sps2Call la gen sf PcSS1 (demoHeap.mat 2 2 2) (some ![1, 2]) (some ![1, 2]) delta tol iterLim logging clock)
      fun o o' h' => o.Is o' demoHeap h' ∧ SPLogAgree o.log o'.log ∧ (SaddleSolverM.KeepsR pcss1M → o.log = o'.log) := by
  have := C83_sps2 (h := demoHeap) (m := 2) (n := 2) la J gen sf (C83_solvers fun _ => true).1 (A := 2) (b := some 0) (c := some 0)
    (by rw [demoHeap_next]; norm_num) (by simp [demoHeap_next]) (by simp [demoHeap_next]) delta tol iterLim logging clock
  simp only [Option.map_some, demoHeap_vec] at this
  exact this

/-- `QB2` with a rangefinder that raises: the caller's array, here `[[2, 0], [0, 3]]`, is as before. -/
example (la : LinAlg) (overwriteA : Bool) (w : World ℕ) :
    ∃ e h', qb2M la (fun _ _ _ _ _ => Py.raise .value : RangeFinder ℕ) 1 overwriteA 2 2 2 2 .nan w demoHeap = (.error e, h') ∧
      (overwriteA = false → h'.mat 2 = demoHeap.mat 2) := by
  rcases hr : qb2M la (fun _ _ _ _ _ => Py.raise .value : RangeFinder ℕ) 1 overwriteA 2 2 2 2 .nan w demoHeap with ⟨res, h'⟩
  obtain ⟨h1, -, h3⟩ := C83_qb2 la _ 1 overwriteA (A := 2) (by rw [demoHeap_next]; norm_num) 2 .nan w hr
  have hc : qb2Call la (fun _ _ _ _ _ => Py.raise .value : RangeFinder ℕ) 1 overwriteA (demoHeap.mat 2 2 2) 2 .nan w = .error .value := rfl
  rw [hc] at h3
  rcases res with e | o
  · refine ⟨e, h', rfl, fun ho => ?_⟩
    subst ho
    exact (h1.2 2 (by rw [demoHeap_next]; norm_num) (by simp)).2
  · exact h3.elim

end Parla
