import Verif.Model.Seeds
import Verif.Props.AlmostSure
import Verif.Props.SJLT

/-! # C80: the argument `rng`

A call with an integer seed is the call with the Generator `default_rng(seed)`, whatever happens inside: it does not touch
or depend on any other generator.  With a Generator, a call advances it by exactly the draws of its sketches. -/

namespace Parla.Props

open Matrix Parla Spec Parla.Proof

variable {m n d : ℕ} {G α β : Type}

/-- `call rng` behaves as the argument `rng` is documented to: let `body w` be the call with a Generator in state `w.rng`.
Then `call` with a Generator is `body`; with an int `s`, or with None when the operating system's entropy makes the state
`fresh`, it returns what `body` returns from the state `seed s`, or `fresh`, with the same warnings and passes over the
data, raises what `body` raises, and leaves the caller's generator `w.rng` as it was. -/
def HonoursRng (seed : ℕ → G) (call : RngArg G → Py G α) (body : Py G α) : Prop :=
  (∀ w, call .gen w = body w) ∧
  (∀ arg state, (∃ s, arg = .int s ∧ state = seed s) ∨ arg = .none state → ∀ w : World G,
    (∀ a w', call arg w = .ok (a, w') ↔
      ∃ g, body ⟨state, w.warns, w.trace⟩ = .ok (a, ⟨g, w'.warns, w'.trace⟩) ∧ w'.rng = w.rng) ∧
    ∀ e, call arg w = .error e ↔ body ⟨state, w.warns, w.trace⟩ = .error e)

theorem honours_default (seed : ℕ → G) (body : Py G α) : HonoursRng seed (fun rng => defaultRng seed rng body) body := by
  have key : ∀ (g₀ : G) (w : World G) (r : Except PyErr (α × World G)),
      r = (body { w with rng := g₀ }).map (fun r => (r.1, { r.2 with rng := w.rng })) →
      (∀ a w', r = .ok (a, w') ↔
        ∃ g, body ⟨g₀, w.warns, w.trace⟩ = .ok (a, ⟨g, w'.warns, w'.trace⟩) ∧ w'.rng = w.rng) ∧
      ∀ e, r = .error e ↔ body ⟨g₀, w.warns, w.trace⟩ = .error e := by
    intro g₀ w r hr
    change r = (body ⟨g₀, w.warns, w.trace⟩).map _ at hr
    subst hr
    cases hb : body ⟨g₀, w.warns, w.trace⟩ with
    | error e => exact ⟨fun a w' => by simp [Except.map], fun e' => by simp [Except.map]⟩
    | ok p =>
      obtain ⟨a, w1⟩ := p
      refine ⟨fun a' w' => ?_, fun e' => by simp [Except.map]⟩
      simp only [Except.map, Except.ok.injEq, Prod.mk.injEq]
      constructor
      · rintro ⟨rfl, rfl⟩
        exact ⟨w1.rng, ⟨rfl, rfl⟩, rfl⟩
      · rintro ⟨g, ⟨rfl, rfl⟩, h⟩
        refine ⟨rfl, ?_⟩
        rw [← h]
  refine ⟨fun w => rfl, ?_⟩
  rintro arg state (⟨s, rfl, rfl⟩ | rfl) w
  · exact key _ w _ rfl
  · exact key _ w _ rfl

/-- an assertion before the conversion -/
theorem honours_assert (seed : ℕ → G) (p : Prop) [Decidable p] {call : RngArg G → Py G α} {body : Py G α}
    (h : HonoursRng seed call body) :
    HonoursRng seed (fun rng => do Py.assert p; call rng) (do Py.assert p; body) := by
  by_cases hp : p
  · simpa only [Py.assert_pos_bind hp] using h
  · refine ⟨fun w => by simp only [Py.assert_neg_bind hp], fun arg state _ w => ⟨fun a w' => ?_, fun e => ?_⟩⟩ <;>
      simp only [Py.assert_neg_bind hp, Py.raise_apply] <;> simp

/-- **C80** (reproducibility): two calls with the same integer seed, in any two worlds that have issued the same warnings
and made the same passes, return equal results or raise the same exception; neither touches the generator at hand. -/
theorem C80_reproducible (seed : ℕ → G) (call : RngArg G → Py G α) (body : Py G α) (h : HonoursRng seed call body) (s : ℕ)
    (w₁ w₂ : World G) (h1 : w₁.warns = w₂.warns) (h2 : w₁.trace = w₂.trace) :
    (∀ a v₁, call (.int s) w₁ = .ok (a, v₁) → v₁.rng = w₁.rng ∧
      call (.int s) w₂ = .ok (a, ⟨w₂.rng, v₁.warns, v₁.trace⟩)) ∧
    ∀ e, call (.int s) w₁ = .error e → call (.int s) w₂ = .error e := by
  have k1 := h.2 (.int s) (seed s) (Or.inl ⟨s, rfl, rfl⟩) w₁
  have k2 := h.2 (.int s) (seed s) (Or.inl ⟨s, rfl, rfl⟩) w₂
  rw [h1, h2] at k1
  refine ⟨fun a v₁ hv => ?_, fun e he => (k2.2 e).2 ((k1.2 e).1 he)⟩
  obtain ⟨g, g1, g2⟩ := (k1.1 a v₁).1 hv
  exact ⟨g2, (k2.1 a _).2 ⟨g, g1, rfl⟩⟩

/-! ### Which calls honour `rng` -/

theorem gaussRS_gen (seed : ℕ → G) (R : NpRng G) (la : LinAlg) (p : ℤ) :
    gaussRS seed R la p .gen = RS1 (gaussianOperator R true) p (orth la) 1 := rfl

/-- **C80** (rangefinder and QB): `rs1`, `rf1`, `qb`, `qb_b` and `qb_b_pe`.  In particular all blocks of `qb_b` with an
integer seed come from one stream, instead of starting it again. -/
theorem C80_qb (seed : ℕ → G) (R : NpRng G) (la : LinAlg) (A : Matrix (Fin m) (Fin n) ℝ) (k p : ℤ) (blk : ℕ)
    (overwriteA : Bool) (tol : Tol) :
    HonoursRng seed (rs1Arg seed R la A k p) (rs1 la (gaussianOperator R true) A k p) ∧
    HonoursRng seed (rf1Arg seed R la A k p) (rf1 la (gaussianOperator R true) A k p) ∧
    HonoursRng seed (qbArg seed R la p A k) (qb la (gaussianOperator R true) p A k) ∧
    HonoursRng seed (qbBArg seed R la p blk overwriteA A k tol) (qbB la (gaussianOperator R true) p blk overwriteA A k tol) ∧
    HonoursRng seed (qbBPeArg seed R la p blk A k tol) (qbBPe la (gaussianOperator R true) p blk A k tol) :=
  ⟨honours_assert _ _ (honours_assert _ _ (honours_assert _ _ (honours_default _ _))), honours_default _ _,
    honours_default _ _, honours_default _ _, honours_default _ _⟩

/-- **C80** (SVD and eigendecompositions): `svd1`, `evd1` and `evd2`. -/
theorem C80_svd_evd (seed : ℕ → G) (R : NpRng G) (la : LinAlg) (A : Matrix (Fin m) (Fin n) ℝ) (k over : ℕ) (p : ℤ)
    (blk : ℕ) (tol : Tol) (B : Matrix (Fin n) (Fin n) ℝ) (k' : ℤ) :
    HonoursRng seed (svd1Arg seed R la A k over tol p blk) (svd1 la (gaussianOperator R true) A k over tol p blk) ∧
    HonoursRng seed (evd1Arg seed R la B k' tol over p blk) (evd1 la (gaussianOperator R true) B k' tol over p blk) ∧
    HonoursRng seed (evd2Arg seed R la B k' over p) (evd2 la (gaussianOperator R true) B k' over p) :=
  ⟨honours_default _ _, honours_assert _ _ (honours_default _ _), honours_assert _ _ (honours_default _ _)⟩

/-- **C80** (the objects).  Called directly with an argument `rng`, an algorithm object honours it whatever its components do
with what they are handed: they are handed the Generator, never the seed, so that a component called several times (the
rangefinder of `QB2`, once per block) does not restart the stream. -/
theorem C80_objects (seed : ℕ → G) (la : LinAlg) (gen : RngArg G → SkOpGen G) (rs : RngArg G → RowSketcher G)
    (rf : RngArg G → RangeFinder G) (qb : RngArg G → QBDecomposer G) (osid : RngArg G → OneSidedID G) (stab : Stab) (pps : ℕ)
    (A : Matrix (Fin m) (Fin n) ℝ) (B : Matrix (Fin n) (Fin n) ℝ) (k p axis : ℤ) (j over blk : ℕ) (o : Bool) (tol : Tol) :
    HonoursRng seed (fun rng => RS1Arg seed gen p stab pps rng m n A j) (RS1 (gen .gen) p stab pps m n A j) ∧
    HonoursRng seed (fun rng => RF1Arg seed la rs rng m n A k tol) (RF1 la (rs .gen) m n A k tol) ∧
    HonoursRng seed (fun rng => QB1Arg seed rf rng m n A k tol) (QB1 (rf .gen) m n A k tol) ∧
    HonoursRng seed (fun rng => QB2Arg seed la rf blk o rng A k tol) (qb2Call la (rf .gen) blk o A k tol) ∧
    HonoursRng seed (fun rng => QB3Arg seed la rs blk rng m n A k tol) (qb3Call la (rs .gen) blk A k tol) ∧
    HonoursRng seed (fun rng => SVD1Arg seed la qb rng m n A j tol over) (svd1Call la (qb .gen) A j tol over) ∧
    HonoursRng seed (fun rng => EVD1Arg seed la qb rng B k tol over) (evd1Call la (qb .gen) B k tol over) ∧
    HonoursRng seed (fun rng => EVD2Arg seed la rs rng B k tol over) (evd2Call la (rs .gen) B k tol over) ∧
    HonoursRng seed (fun rng => ROCS1Arg seed la rs rng A j over axis) (rocs1Call la (rs .gen) A j over axis) ∧
    HonoursRng seed (fun rng => (OSID1Arg seed la rs rng).row m n A j over) ((OSID1 la (rs .gen)).row m n A j over) ∧
    HonoursRng seed (fun rng => (OSID1Arg seed la rs rng).col m n A j over) ((OSID1 la (rs .gen)).col m n A j over) ∧
    HonoursRng seed (fun rng => (OSID2Arg seed la rs rng).row m n A j over) ((OSID2 la (rs .gen)).row m n A j over) ∧
    HonoursRng seed (fun rng => (OSID2Arg seed la rs rng).col m n A j over) ((OSID2 la (rs .gen)).col m n A j over) ∧
    HonoursRng seed (fun rng => TSID1Arg seed la osid rng A j over) (tsid1Call la (osid .gen) A j over) ∧
    HonoursRng seed (fun rng => CUR1Arg seed la osid rng A j over) (cur1Call la (osid .gen) A j over) :=
  ⟨honours_default _ _, honours_default _ _, honours_default _ _, honours_default _ _, honours_default _ _,
    honours_default _ _, honours_default _ _, honours_default _ _, honours_default _ _, honours_default _ _,
    honours_default _ _, honours_default _ _, honours_default _ _, honours_default _ _, honours_default _ _⟩

/-- **C80** (interpolative and CUR decompositions): `rocs1`, `osid1`, `osid2`, `tsid1` and `cur1`. -/
theorem C80_interpolative (seed : ℕ → G) (R : NpRng G) (la : LinAlg) (A : Matrix (Fin m) (Fin n) ℝ) (k over : ℕ)
    (p axis : ℤ) :
    HonoursRng seed (rocs1Arg seed R la A k over p axis) (rocs1 la (gaussianOperator R true) A k over p axis) ∧
    HonoursRng seed (osid1Arg seed R la A k over p axis) (osid1 la (gaussianOperator R true) A k over p axis) ∧
    HonoursRng seed (osid2Arg seed R la A k over p axis) (osid2 la (gaussianOperator R true) A k over p axis) ∧
    HonoursRng seed (tsid1Arg seed R la A k over p) (tsid1 la (gaussianOperator R true) A k over p) ∧
    HonoursRng seed (cur1Arg seed R la A k over p) (cur1 la (gaussianOperator R true) A k over p) :=
  ⟨honours_default _ _, honours_default _ _, honours_default _ _, honours_default _ _, honours_default _ _⟩

/-- **C80** (least squares and saddle point systems): `sso1`, `spo1`, `spo3`, `spu1` and `sps`. -/
theorem C80_lstsq (seed : ℕ → G) (R : NpRng G) (la : LinAlg) (A : Matrix (Fin m) (Fin n) ℝ) (b : Fin m → ℝ)
    (b' : Option (Fin m → ℝ)) (c : Fin n → ℝ) (c' : Option (Fin n → ℝ)) (δ tol : ℝ) (L : ℤ) (clock : LogTimes)
    (a : SketchArgs) (mode : SPOMode) (method : SpsMethod) :
    HonoursRng seed (sso1Arg seed R la A b δ a) (sso1Fn la R A b δ a) ∧
    HonoursRng seed (spo1Arg seed R la A b δ tol L clock a) (spo1Fn la R A b δ tol L clock a) ∧
    HonoursRng seed (spo3Arg seed R la A b δ tol L clock a mode) (spo3Fn la R A b δ tol L clock a mode) ∧
    HonoursRng seed (spu1Arg seed R la A c tol L clock a) (spu1Fn la R A c tol L clock a) ∧
    HonoursRng seed (spsArg seed R la A b' c' δ tol L clock a method) (spsFn la R A b' c' δ tol L clock a method) := by
  refine ⟨honours_default _ _, honours_default _ _, honours_default _ _, honours_default _ _, ?_⟩
  cases method with
  | pcg => exact honours_default _ _
  | lsqr => exact honours_default _ _
  | other =>
    refine ⟨fun w => rfl, fun arg state _ w => ⟨fun a w' => ?_, fun e => Iff.rfl⟩⟩
    constructor
    · intro h; cases h
    · rintro ⟨g, h, -⟩; cases h

/-- **C80** (`gaussian_operator`, `sjlt_operator` and `srct_operator` called directly): the first two honour `rng`; the
third takes a Generator only, and raises AttributeError on an int or None. -/
theorem C80_operators (seed : ℕ → G) (R : NpRng G) (la : LinAlg) (r c vecNnz : ℕ) :
    HonoursRng seed (fun rng => gaussianArg R seed rng r c) (gaussianOperator R true r c) ∧
    HonoursRng seed (fun rng => sjltArg R seed vecNnz rng r c) (sjltOperator R vecNnz r c) ∧
    (∀ w, srctArg la R .gen r c w = srctOperator la R r c w) ∧
    ∀ rng : RngArg G, rng ≠ .gen → ∀ w, srctArg la R rng r c w = .error .attribute := by
  refine ⟨honours_default _ _, honours_default _ _, fun w => rfl, fun rng h w => ?_⟩
  cases rng with
  | gen => exact absurd rfl h
  | int s => rfl
  | none g => rfl

/-! ### What a call takes from a Generator -/

/-- every run of `x` that returns takes the generator from state `g` to state `f g` -/
def Moves (f : G → G) (x : Py G α) : Prop := ∀ w a w', x w = .ok (a, w') → w'.rng = f w.rng

theorem moves_bind {f g : G → G} {x : Py G α} {y : α → Py G β} (hx : Moves f x) (hy : ∀ a, Moves g (y a)) :
    Moves (fun s => g (f s)) (x >>= y) := fun w b w' h => by
  obtain ⟨a, w1, h1, h2⟩ := Py.bind_ok_iff.1 h
  rw [hy a _ _ _ h2, hx _ _ _ h1]

theorem moves_bind_left {f : G → G} {x : Py G α} {y : α → Py G β} (hx : Moves f x) (hy : ∀ a, Moves id (y a)) :
    Moves f (x >>= y) := moves_bind (g := id) hx hy

theorem moves_bind_right {f : G → G} {x : Py G α} {y : α → Py G β} (hx : Moves id x) (hy : ∀ a, Moves f (y a)) :
    Moves f (x >>= y) := moves_bind (f := id) hx hy

theorem moves_pure (a : α) : Moves (id : G → G) (pure a : Py G α) := fun w b w' h => by cases h; rfl
theorem moves_raise (f : G → G) (e : PyErr) : Moves f (Py.raise e : Py G α) := fun w b w' h => by cases h
theorem moves_warn : Moves (id : G → G) Py.warn := fun w b w' h => by cases h; rfl
theorem moves_emit (e : Ev) : Moves (id : G → G) (Py.emit e) := fun w b w' h => by cases h; rfl
theorem moves_lift (x : Except PyErr α) : Moves (id : G → G) (Py.lift x) := fun w b w' h => by
  rw [(Py.lift_ok_iff.1 h).2]; rfl
theorem moves_assert (p : Prop) [Decidable p] : Moves (id : G → G) (Py.assert p) := fun w b w' h => by
  rw [(Py.assert_ok_iff.1 h).2]; rfl
theorem moves_draw (f : G → α × G) : Moves (fun g => (f g).2) (Py.draw f) := fun w b w' h => by cases h; rfl
theorem moves_ite {f : G → G} {p : Prop} [Decidable p] {x y : Py G α} (hx : Moves f x) (hy : Moves f y) :
    Moves f (if p then x else y) := by split <;> assumption

theorem moves_rs1Loop (stab : Stab) (pps : ℕ) (A : Matrix (Fin m) (Fin n) ℝ) (q : ℕ) :
    ∀ (done : ℕ) (S : Cols n), Moves (id : G → G) (rs1Loop stab pps A q done S) := by
  have hst : ∀ {r : ℕ} (done : ℕ) (S : Cols r), Moves (id : G → G) (maybeStab stab pps done S) := fun done S => by
    unfold maybeStab
    refine moves_ite (moves_raise _ _) (moves_ite ?_ (moves_pure _))
    exact moves_bind_left (moves_emit _) fun _ => moves_pure _
  induction q with
  | zero => exact fun _ _ => moves_pure _
  | succ q ih =>
    intro done S
    unfold rs1Loop
    refine moves_bind_left (f := id) (moves_bind_left (moves_emit _) fun _ => moves_pure _) fun Y => ?_
    refine moves_bind_left (hst _ _) fun Y => ?_
    refine moves_bind_left (f := id) (moves_bind_left (moves_emit _) fun _ => moves_pure _) fun Y => ?_
    exact moves_bind_left (hst _ _) fun Y => ih _ _

theorem moves_rs1 {gen : SkOpGen G} {p : ℤ} {stab : Stab} {pps : ℕ} (A : Matrix (Fin m) (Fin n) ℝ) (k : ℕ) {f : G → G}
    (hg : Moves f (gen (startRows p m n) k)) : Moves f (rs1Call gen p stab pps A k) := by
  unfold rs1Call
  refine moves_bind_right (moves_assert _) fun _ => ?_
  unfold startRows at hg
  split
  · rename_i h
    rw [if_pos h] at hg
    exact moves_bind_left hg fun S => moves_rs1Loop _ _ _ _ _ _
  · rename_i h
    rw [if_neg h] at hg
    refine moves_bind_left hg fun S => ?_
    refine moves_bind_left (f := id) (moves_bind_left (moves_emit _) fun _ => moves_pure _) fun S => ?_
    refine moves_bind_left (f := id) (moves_ite ?_ (moves_pure _)) fun S => moves_rs1Loop _ _ _ _ _ _
    exact moves_bind_left (moves_emit _) fun _ => moves_pure _

theorem moves_gaussian (R : NpRng G) (r c : ℕ) :
    Moves (fun g => (R.standardNormal r c g).2) (gaussianOperator R true r c) := by
  unfold gaussianOperator
  rw [if_pos rfl]
  refine moves_ite (moves_raise _ _) ?_
  exact moves_bind_left (moves_draw _) fun _ => moves_pure _

theorem moves_passA (A : Matrix (Fin m) (Fin n) ℝ) (S : Cols n) : Moves (id : G → G) (passA A S) :=
  moves_bind_left (moves_emit _) fun _ => moves_pure _

/-- `RS1` with a Gaussian start -/
theorem moves_gauss (R : NpRng G) (p : ℤ) (stab : Stab) (pps : ℕ) (A : Matrix (Fin m) (Fin n) ℝ) (k : ℕ) :
    Moves (fun g => (R.standardNormal (startRows p m n) k g).2) (rs1Call (gaussianOperator R true) p stab pps A k) :=
  moves_rs1 A k (moves_gaussian R _ _)

theorem moves_rf1 {la : LinAlg} {rso : RowSketcher G} {A : Matrix (Fin m) (Fin n) ℝ} {k : ℤ} {tol : Tol} {f : G → G}
    (h : Moves f (rso m n A k.toNat)) : Moves f (rf1Call la rso A k tol) := by
  classical
  unfold rf1Call
  refine moves_bind_right (moves_assert _) fun _ => moves_bind_right (moves_assert _) fun _ => ?_
  dsimp only
  refine moves_ite (moves_bind_right moves_warn fun _ => ?_) ?_ <;>
  exact moves_bind_left h fun S => moves_bind_left (moves_passA _ _) fun _ => moves_pure _

theorem moves_sketchRows {skOp : RowSketcher G} {A : Matrix (Fin m) (Fin n) ℝ} {k over : ℕ} {f : G → G}
    (h : Moves f (skOp m n A (k + over))) : Moves f (Parla.sketchRows skOp A k over) :=
  moves_bind_left h fun _ => moves_passA _ _

theorem moves_sketchCols {skOp : RowSketcher G} {A : Matrix (Fin m) (Fin n) ℝ} {k over : ℕ} {f : G → G}
    (h : Moves f (skOp n m Aᵀ (k + over))) : Moves f (sketchCols skOp A k over) :=
  moves_bind_left h fun _ => moves_passA _ _

/-- **C80** (the stream, rangefinder and QB).  A call with a Generator takes from it exactly one
`standard_normal((r, k))`, where `r` is `n` or `m` by the parity of the number of passes: nothing else, whatever the data.
So a second call with the same Generator goes on where the first stopped. -/
theorem C80_stream_qb (R : NpRng G) (la : LinAlg) (A : Matrix (Fin m) (Fin n) ℝ) (k p : ℤ) (blk : ℕ) (tol : Tol) :
    Moves (fun g => (R.standardNormal (startRows p m n) k.toNat g).2) (rs1 la (gaussianOperator R true) A k p) ∧
    Moves (fun g => (R.standardNormal (startRows (p - 1) m n) k.toNat g).2) (rf1 la (gaussianOperator R true) A k p) ∧
    Moves (fun g => (R.standardNormal (startRows (p - 2) m n) k.toNat g).2) (qb la (gaussianOperator R true) p A k) ∧
    Moves (fun g => (R.standardNormal (startRows (p - 1) m n) k.toNat g).2)
      (qbBPe la (gaussianOperator R true) p blk A k tol) := by
  refine ⟨?_, moves_rf1 (moves_gauss _ _ _ _ _ _), ?_, ?_⟩
  · exact moves_bind_right (moves_assert _) fun _ => moves_bind_right (moves_assert _) fun _ =>
      moves_bind_right (moves_assert _) fun _ => moves_gauss _ _ _ _ _ _
  · refine moves_bind_right (moves_assert _) fun _ => moves_bind_right (moves_assert _) fun _ =>
      moves_bind_right (moves_pure _) fun _ => moves_bind_left (moves_rf1 (moves_gauss _ _ _ _ _ _)) fun Q =>
      moves_bind_left (moves_emit _) fun _ => moves_pure _
  · refine moves_bind_right (moves_assert _) fun _ => moves_bind_right (moves_assert _) fun _ =>
      moves_bind_left (moves_gauss _ _ _ _ _ _) fun S => moves_bind_left (moves_emit _) fun _ =>
      moves_bind_left (moves_emit _) fun _ => moves_ite (moves_raise _ _) ?_
    exact moves_bind_left (moves_lift _) fun _ => moves_pure _

/-- **C80** (the stream, `evd2` and the interpolative decompositions).  With a Generator, `evd2` takes from it exactly one
`standard_normal` array with `k + over` columns, and so do `rocs1`, `osid1` and `osid2` (for a row decomposition; the array
for a column decomposition has the rows of the transposed problem), `tsid1` and `cur1`. -/
theorem C80_stream_id (R : NpRng G) (la : LinAlg) (A : Matrix (Fin m) (Fin n) ℝ) (k over : ℕ) (p : ℤ)
    (B : Matrix (Fin n) (Fin n) ℝ) (k' : ℤ) :
    Moves (fun g => (R.standardNormal n (k' + over).toNat g).2) (evd2 la (gaussianOperator R true) B k' over p) ∧
    Moves (fun g => (R.standardNormal (startRows (p - 1) m n) (k + over) g).2)
      (rocs1 la (gaussianOperator R true) A k over p 0) ∧
    Moves (fun g => (R.standardNormal (startRows (p - 1) n m) (k + over) g).2)
      (rocs1 la (gaussianOperator R true) A k over p 1) ∧
    Moves (fun g => (R.standardNormal (startRows (p - 1) m n) (k + over) g).2)
      (osid1 la (gaussianOperator R true) A k over p 0) ∧
    Moves (fun g => (R.standardNormal (startRows (p - 1) n m) (k + over) g).2)
      (osid1 la (gaussianOperator R true) A k over p 1) ∧
    Moves (fun g => (R.standardNormal (startRows (p - 1) m n) (k + over) g).2)
      (osid2 la (gaussianOperator R true) A k over p 0) ∧
    Moves (fun g => (R.standardNormal (startRows (p - 1) n m) (k + over) g).2)
      (osid2 la (gaussianOperator R true) A k over p 1) ∧
    Moves (fun g => (R.standardNormal (if m > n then startRows (p - 1) n m else startRows (p - 1) m n) (k + over) g).2)
      (tsid1 la (gaussianOperator R true) A k over p) ∧
    Moves (fun g => (R.standardNormal (if m > n then startRows (p - 2) n m else startRows (p - 2) m n) (k + over) g).2)
      (cur1 la (gaussianOperator R true) A k over p) := by
  classical
  refine ⟨?_, ?_, ?_, ?_, ?_, ?_, ?_, ?_, ?_⟩
  · have h : startRows (p - 1) n n = n := by unfold startRows; split <;> rfl
    have hg := moves_gauss R (p - 1) (orth la) 1 B (k' + over).toNat
    rw [h] at hg
    unfold evd2 evd2Call
    refine moves_bind_right (moves_assert _) fun _ => moves_bind_right (moves_assert _) fun _ =>
      moves_bind_right (moves_assert _) fun _ => ?_
    dsimp only
    refine moves_ite (moves_bind_right moves_warn fun _ => ?_) ?_ <;>
    exact moves_bind_left hg fun S => moves_bind_left (moves_emit _) fun _ => moves_lift _
  · exact moves_bind_left (moves_sketchRows (moves_gauss _ _ _ _ _ _)) fun _ => moves_pure _
  · exact moves_bind_left (moves_sketchCols (moves_gauss _ _ _ _ _ _)) fun _ => moves_pure _
  · exact moves_bind_left (moves_bind_left (moves_sketchRows (moves_gauss _ _ _ _ _ _)) fun _ => moves_lift _)
      fun _ => moves_pure _
  · exact moves_bind_left (moves_bind_left (moves_sketchCols (moves_gauss _ _ _ _ _ _)) fun _ => moves_lift _)
      fun _ => moves_pure _
  · exact moves_bind_left (moves_bind_left (moves_sketchRows (moves_gauss _ _ _ _ _ _)) fun _ => moves_pure _)
      fun _ => moves_pure _
  · exact moves_bind_left (moves_bind_left (moves_sketchCols (moves_gauss _ _ _ _ _ _)) fun _ => moves_pure _)
      fun _ => moves_pure _
  · unfold tsid1 tsid1Call
    by_cases h : m > n
    · rw [if_pos h, if_pos h]
      exact moves_bind_left (moves_bind_left (moves_sketchCols (moves_gauss _ _ _ _ _ _)) fun _ => moves_lift _)
        fun _ => moves_bind_left (moves_lift _) fun _ => moves_pure _
    · rw [if_neg h, if_neg h]
      exact moves_bind_left (moves_bind_left (moves_sketchRows (moves_gauss _ _ _ _ _ _)) fun _ => moves_lift _)
        fun _ => moves_bind_left (moves_lift _) fun _ => moves_pure _
  · unfold cur1 cur1Call
    by_cases h : m > n
    · rw [if_pos h, if_pos h]
      exact moves_bind_left (moves_bind_left (moves_sketchCols (moves_gauss _ _ _ _ _ _)) fun _ => moves_lift _)
        fun _ => moves_pure _
    · rw [if_neg h, if_neg h]
      exact moves_bind_left (moves_bind_left (moves_sketchRows (moves_gauss _ _ _ _ _ _)) fun _ => moves_lift _)
        fun _ => moves_pure _

/-! ### Blocks -/

theorem rf1_width {la : LinAlg} {gen : SkOpGen G} {p : ℤ} {A : Matrix (Fin m) (Fin n) ℝ} {b : ℕ} {w w' : World G}
    {out : Cols m} (h : RF1 la (RS1 gen p (orth la) 1) m n A b .nan w = .ok (out, w')) :
    0 < b ∧ b ≤ min m n ∧ out.c = b := by
  unfold RF1 rf1Call at h
  rw [Py.bind_ok_iff] at h
  obtain ⟨_, w1, h1, h⟩ := h
  obtain ⟨hb, rfl⟩ := Py.assert_ok_iff.1 h1
  rw [Py.bind_ok_iff] at h
  obtain ⟨_, w2, h2, h⟩ := h
  obtain ⟨hb', rfl⟩ := Py.assert_ok_iff.1 h2
  simp only [Tol.isNaN_nan, not_true_eq_false, if_false] at h
  rw [Py.bind_ok_iff] at h
  obtain ⟨S, w3, h3, h⟩ := h
  rw [Int.toNat_natCast] at h3
  have hSc : S.c = b := rs1Call_width_eq (fun _ _ => rfl) (by omega) h3
  rw [Py.bind_ok_iff] at h
  obtain ⟨Y, w4, h4, h⟩ := h
  cases h
  cases h4
  refine ⟨by omega, by omega, ?_⟩
  change min m S.c = b
  omega

theorem qb2Loop_stream (R : NpRng G) (la : LinAlg) (p : ℤ) (k : ℕ) (useTol : Prop) (ast : ℝ) (fuel : ℕ) :
    ∀ (st st' : QB2St m n) (w w' : World G),
      qb2Loop la (RF1 la (RS1 (gaussianOperator R true) p (orth la) 1)) k useTol ast fuel st w = .ok (st', w') →
      ∃ bs : List ℕ, bs ≠ [] ∧ (∀ b ∈ bs, 0 < b ∧ b ≤ st.blk) ∧ st'.c = st.c + bs.sum ∧
        w'.rng = bs.foldl (fun g b => (R.standardNormal (startRows p m n) b g).2) w.rng := by
  induction fuel with
  | zero => intro st st' w w' h; cases h
  | succ fuel ih =>
    intro st st' w w' h
    unfold qb2Loop at h
    rw [Py.bind_ok_iff] at h
    obtain ⟨out, wd, hd, h⟩ := h
    obtain ⟨w1, h1, rfl⟩ := qb2Draw_ok_iff.1 hd
    obtain ⟨hb, hb', hc⟩ := rf1_width h1
    have hm := moves_rf1 (la := la) (k := (qb2Blk k st.c st.blk : ℤ)) (tol := .nan)
      (moves_gauss R p (orth la) 1 st.A (qb2Blk k st.c st.blk : ℤ).toNat) _ _ _ h1
    rw [Int.toNat_natCast] at hm
    have hle : qb2Blk k st.c st.blk ≤ st.blk := by unfold qb2Blk; split <;> omega
    have hc' : (qb2Update la (qb2Blk k st.c st.blk) st out).c = st.c + qb2Blk k st.c st.blk := by
      change st.c + min m out.c = _
      omega
    have base : ∃ bs : List ℕ, bs ≠ [] ∧ (∀ b ∈ bs, 0 < b ∧ b ≤ st.blk) ∧
        (qb2Update la (qb2Blk k st.c st.blk) st out).c = st.c + bs.sum ∧
        w1.rng = bs.foldl (fun g b => (R.standardNormal (startRows p m n) b g).2) w.rng :=
      ⟨[qb2Blk k st.c st.blk], by simp, fun b hb2 => by
        rw [List.mem_singleton] at hb2; subst hb2; exact ⟨hb, hle⟩, by rw [hc', List.sum_singleton], hm⟩
    split at h
    · cases h; exact base
    split at h
    · cases h; exact base
    · obtain ⟨bs, g0, g1, g2, g3⟩ := ih _ _ _ _ h
      refine ⟨qb2Blk k st.c st.blk :: bs, by simp, fun b hb2 => ?_, ?_, ?_⟩
      · rcases List.mem_cons.1 hb2 with rfl | hb2
        · exact ⟨hb, hle⟩
        · exact ⟨(g1 b hb2).1, (g1 b hb2).2.trans hle⟩
      · rw [g2, hc', List.sum_cons, add_assoc]
      · rw [g3, List.foldl_cons, hm]

theorem qb2_stream {R : NpRng G} {la : LinAlg} {p : ℤ} {blk : ℕ} {o : Bool} {A : Matrix (Fin m) (Fin n) ℝ} {k : ℤ}
    {tol : Tol} {w w' : World G} {out : QBOut m n × Matrix (Fin m) (Fin n) ℝ}
    (h : qb2Call la (RF1 la (RS1 (gaussianOperator R true) p (orth la) 1)) blk o A k tol w = .ok (out, w')) :
    ∃ bs : List ℕ, bs ≠ [] ∧ (∀ b ∈ bs, 0 < b ∧ b ≤ blk) ∧ out.1.c = bs.sum ∧
      w'.rng = bs.foldl (fun g b => (R.standardNormal (startRows p m n) b g).2) w.rng := by
  unfold qb2Call at h
  rw [Py.bind_ok_iff] at h
  obtain ⟨st, w1, h1, h⟩ := h
  cases h
  unfold qb2Run at h1
  rw [Py.bind_ok_iff] at h1
  obtain ⟨_, w2, h2, h1⟩ := h1
  obtain ⟨-, rfl⟩ := Py.assert_ok_iff.1 h2
  rw [Py.bind_ok_iff] at h1
  obtain ⟨k', w3, h3, h1⟩ := h1
  have hr : w3.rng = w2.rng := by
    split at h3 <;> cases h3 <;> rfl
  rw [Py.bind_ok_iff] at h1
  obtain ⟨_, w4, h4, h1⟩ := h1
  obtain ⟨-, rfl⟩ := Py.assert_ok_iff.1 h4
  obtain ⟨bs, g0, g1, g2, g3⟩ := qb2Loop_stream _ _ _ _ _ _ _ _ _ _ _ h1
  refine ⟨bs, g0, g1, ?_, by rw [g3, hr]⟩
  change st.c = _
  rw [g2]
  exact Nat.zero_add _

/-- **C80** (the stream, blocked QB).  A call of `qb_b` with a Generator takes from it one
`standard_normal((r, b))` per block, one after another, where the block sizes `b ≤ blk` add up to the number of columns
returned. -/
theorem C80_stream_qb_b (R : NpRng G) (la : LinAlg) (A : Matrix (Fin m) (Fin n) ℝ) (k p : ℤ) (blk : ℕ) (o : Bool)
    (tol : Tol) (w w' : World G) (out : QBOut m n × Matrix (Fin m) (Fin n) ℝ)
    (h : qbB la (gaussianOperator R true) p blk o A k tol w = .ok (out, w')) :
    ∃ bs : List ℕ, bs ≠ [] ∧ (∀ b ∈ bs, 0 < b ∧ b ≤ blk) ∧ out.1.c = bs.sum ∧
      w'.rng = bs.foldl (fun g b => (R.standardNormal (startRows (p - 2) m n) b g).2) w.rng :=
  qb2_stream h

/-! ### Least squares -/

/-- the embedding dimension a successful `dim_checks` returns -/
theorem dimChecks_open {sf : ℝ} {w w' : World G} {d : ℕ} (h : (dimChecks sf m n : Py G ℕ) w = .ok (d, w')) :
    (d : ℤ) = min (pyInt (sf * n)) m ∧ w'.rng = w.rng := by
  by_cases hmn : n ≤ m ∧ (n : ℤ) ≤ pyInt (sf * n)
  · obtain ⟨d', g1, g2⟩ := (C35_dim_checks sf m n w).2 hmn.1 hmn.2
    rw [g1] at h
    cases h
    exact ⟨g2.2.2, rfl⟩
  · exfalso
    have := (C35_dim_checks sf m n w).1
    rw [this (by omega)] at h
    cases h

/-- **C80** (the stream, least squares and saddle point systems).  With a Generator, a call of `sso1`, `spo1`, `spo3` or
`spu1` that returns has drawn from it exactly one `sjlt_operator(d, m, rng, vec_nnz)`, `d = min(int(sampling_factor * n), m)`,
and nothing after that; `sps` the same with `d = int(sampling_factor * n)`. -/
theorem C80_stream_lstsq (R : NpRng G) (la : LinAlg) (A : Matrix (Fin m) (Fin n) ℝ) (b : Fin m → ℝ)
    (b' : Option (Fin m → ℝ)) (c : Fin n → ℝ) (c' : Option (Fin n → ℝ)) (δ tol : ℝ) (L : ℤ) (clock : LogTimes)
    (a : SketchArgs) (mode : SPOMode) (method : SpsMethod) (w w' : World G) (drawn : ℤ → Prop)
    (hdrawn : drawn = fun e => ∃ (d : ℕ) (S : Matrix (Fin d) (Fin m) ℝ) (v : World G), (d : ℤ) = e ∧ v.rng = w.rng ∧
      sjltOperator R a.vecNnz d m v = .ok (S, w')) :
    (∀ x, sso1Fn la R A b δ a w = .ok (x, w') → drawn (min (pyInt (a.samplingFactor * n)) m)) ∧
    (∀ x, spo1Fn la R A b δ tol L clock a w = .ok (x, w') → drawn (min (pyInt (a.samplingFactor * n)) m)) ∧
    (∀ x, spo3Fn la R A b δ tol L clock a mode w = .ok (x, w') → drawn (min (pyInt (a.samplingFactor * n)) m)) ∧
    (∀ x, spu1Fn la R A c tol L clock a w = .ok (x, w') → drawn (min (pyInt (a.samplingFactor * n)) m)) ∧
    ∀ x, spsFn la R A b' c' δ tol L clock a method w = .ok (x, w') → drawn (pyInt (a.samplingFactor * n)) := by
  have spo : ∀ mode x, spoCall la (a.skop R) a.samplingFactor mode A b δ tol L true clock w = .ok (x, w') →
      drawn (min (pyInt (a.samplingFactor * n)) m) := fun mode x h => by
    unfold spoCall at h
    rw [Py.bind_ok_iff] at h
    obtain ⟨d, v, h1, h⟩ := h
    rw [Py.bind_ok_iff] at h
    obtain ⟨S, v', h2, h⟩ := h
    obtain ⟨-, rfl⟩ := Py.lift_ok_iff.1 h
    obtain ⟨g1, g2⟩ := dimChecks_open h1
    rw [hdrawn]
    exact ⟨d, S, v, g1, g2, h2⟩
  have sps : ∀ solver x, sps1Call la (a.skop R) a.samplingFactor solver .left A b' c' δ tol L true clock w = .ok (x, w') →
      drawn (pyInt (a.samplingFactor * n)) := fun solver x h => by
    unfold sps1Call at h
    rw [Py.bind_ok_iff] at h
    obtain ⟨_, v, h1, h⟩ := h
    obtain ⟨-, rfl⟩ := Py.assert_ok_iff.1 h1
    rw [hdrawn]
    split at h
    · cases h
    rename_i hd
    have e : ((pyInt (a.samplingFactor * n)).toNat : ℤ) = pyInt (a.samplingFactor * n) := Int.toNat_of_nonneg (by omega)
    dsimp only at h
    rw [if_neg (by simp : ¬ NystromStrategy.left = .right)] at h
    by_cases hdn : ¬ (pyInt (a.samplingFactor * n)).toNat < n
    · rw [if_pos hdn, Py.bind_ok_iff] at h
      obtain ⟨S, v', h2, h⟩ := h
      rw [Py.bind_ok_iff] at h
      obtain ⟨p, v'', h3, h⟩ := h
      obtain ⟨-, rfl⟩ := Py.lift_ok_iff.1 h3
      obtain ⟨-, rfl⟩ := Py.lift_ok_iff.1 h
      exact ⟨_, S, _, e, rfl, h2⟩
    · rw [if_neg hdn, Py.bind_ok_iff] at h
      obtain ⟨S, v', h2, h⟩ := h
      obtain ⟨-, rfl⟩ := Py.lift_ok_iff.1 h
      exact ⟨_, S, _, e, rfl, h2⟩
  refine ⟨fun x h => ?_, fun x h => spo _ x h, fun x h => spo _ x h, fun x h => ?_, fun x h => ?_⟩
  · unfold sso1Fn sso1Call at h
    simp only [Tol.isNaN_nan, not_true_eq_false, if_false, lt_irrefl, gt_iff_lt] at h
    rw [Py.bind_ok_iff] at h
    obtain ⟨d, v, h1, h⟩ := h
    rw [Py.bind_ok_iff] at h
    obtain ⟨S, v', h2, h⟩ := h
    cases h
    obtain ⟨g1, g2⟩ := dimChecks_open h1
    rw [hdrawn]
    exact ⟨d, S, v, g1, g2, h2⟩
  · unfold spu1Fn spu1Call at h
    rw [Py.bind_ok_iff] at h
    obtain ⟨d, v, h1, h⟩ := h
    rw [Py.bind_ok_iff] at h
    obtain ⟨S, v', h2, h⟩ := h
    obtain ⟨-, rfl⟩ := Py.lift_ok_iff.1 h
    obtain ⟨g1, g2⟩ := dimChecks_open h1
    rw [hdrawn]
    exact ⟨d, S, v, g1, g2, h2⟩
  · cases method with
    | pcg => exact sps _ x h
    | lsqr => exact sps _ x h
    | other => cases h

end Parla.Props
