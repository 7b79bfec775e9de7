import Mathlib.Data.Real.Basic

/-!
# Python-level effects: exceptions, warnings, random generator state

This file models the part of the Python runtime that PARLA's control logic touches.
-/

namespace Parla

/-- The exceptions PARLA's code can raise (directly, or through NumPy/SciPy).
`nonTermination` is not a Python exception: a loop modelled with fuel returns it when the
fuel runs out, and theorems prove it is never returned. -/
inductive PyErr where
  | assertion        -- `assert` failed
  | value            -- `ValueError`
  | notImplemented   -- `NotImplementedError`
  | linAlg           -- `scipy.linalg.LinAlgError`
  | runtime          -- `RuntimeError`
  | type             -- `TypeError`
  | attribute        -- `AttributeError`
  | zeroDivision     -- `ZeroDivisionError`
  | index            -- `IndexError`
  | nonTermination   -- loop fuel exhausted (model artefact)
  deriving DecidableEq, Repr

/-- An observable event of the randomised power method: a product with the data matrix, a
product with its transpose, or a call of the user's stabiliser. -/
inductive Ev where
  | mulA
  | mulAT
  | stab
  deriving DecidableEq, Repr

/-- Interpreter state threaded through every call: the state of the NumPy `Generator`
(an arbitrary type `G`), the number of `warnings.warn` calls so far, and (ghost) the events
so far, oldest first. -/
structure World (G : Type) where
  rng : G
  warns : ℕ
  trace : List Ev := []

/-- A Python call that may read/advance the generator, warn, return or raise.
After an exception the state is not observable (simplification: PARLA never catches). -/
def Py (G : Type) (α : Type) : Type := World G → Except PyErr (α × World G)

namespace Py

variable {G α β : Type}

/-- return a value without effects -/
def ret (a : α) : Py G α := fun w => .ok (a, w)

/-- sequencing -/
def seq (x : Py G α) (f : α → Py G β) : Py G β := fun w =>
  match x w with
  | .ok (a, w') => f a w'
  | .error e => .error e

instance : Monad (Py G) where
  pure := ret
  bind := seq

/-- `raise e` -/
def raise (e : PyErr) : Py G α := fun _ => .error e

/-- `warnings.warn(...)` -/
def warn : Py G Unit := fun w => .ok ((), { w with warns := w.warns + 1 })

/-- `assert p` -/
def assert (p : Prop) [Decidable p] : Py G Unit := if p then ret () else raise .assertion

/-- A draw from the generator. -/
def draw (f : G → α × G) : Py G α := fun w => .ok ((f w.rng).1, { w with rng := (f w.rng).2 })

/-- record an event -/
def emit (e : Ev) : Py G Unit := fun w => .ok ((), { w with trace := w.trace ++ [e] })

/-- Lift a pure computation that may raise. -/
def lift (x : Except PyErr α) : Py G α := fun w =>
  match x with
  | .ok a => .ok (a, w)
  | .error e => .error e

@[simp] theorem pure_apply (a : α) (w : World G) : (pure a : Py G α) w = .ok (a, w) := rfl
@[simp] theorem ret_apply (a : α) (w : World G) : (ret a : Py G α) w = .ok (a, w) := rfl
@[simp] theorem raise_apply (e : PyErr) (w : World G) : (raise e : Py G α) w = .error e := rfl
@[simp] theorem warn_apply (w : World G) :
    (warn : Py G Unit) w = .ok ((), { w with warns := w.warns + 1 }) := rfl
@[simp] theorem draw_apply (f : G → α × G) (w : World G) :
    (draw f : Py G α) w = .ok ((f w.rng).1, { w with rng := (f w.rng).2 }) := rfl
@[simp] theorem emit_apply (e : Ev) (w : World G) :
    (emit e : Py G Unit) w = .ok ((), { w with trace := w.trace ++ [e] }) := rfl
@[simp] theorem lift_ok (a : α) (w : World G) : (lift (.ok a) : Py G α) w = .ok (a, w) := rfl
@[simp] theorem lift_error (e : PyErr) (w : World G) :
    (lift (.error e) : Py G α) w = .error e := rfl

theorem bind_def (x : Py G α) (f : α → Py G β) : x >>= f = seq x f := rfl

theorem bind_apply (x : Py G α) (f : α → Py G β) (w : World G) :
    (x >>= f) w = match x w with
      | .ok (a, w') => f a w'
      | .error e => .error e := rfl

/-- A sequence returns exactly when both parts do. -/
theorem bind_ok_iff {x : Py G α} {f : α → Py G β} {w w' : World G} {b : β} :
    (x >>= f) w = .ok (b, w') ↔ ∃ a w₁, x w = .ok (a, w₁) ∧ f a w₁ = .ok (b, w') := by
  rw [bind_apply]
  constructor
  · intro h
    cases hx : x w with
    | error e => rw [hx] at h; cases h
    | ok p => rw [hx] at h; exact ⟨p.1, p.2, rfl, h⟩
  · rintro ⟨a, w₁, hx, hf⟩
    rw [hx]; exact hf

theorem bind_eq_of_ok {x : Py G α} {f : α → Py G β} {w w₁ : World G} {a : α}
    (h : x w = .ok (a, w₁)) : (x >>= f) w = f a w₁ := by
  rw [bind_apply, h]

theorem bind_eq_of_error {x : Py G α} {f : α → Py G β} {w : World G} {e : PyErr}
    (h : x w = .error e) : (x >>= f) w = .error e := by
  rw [bind_apply, h]

@[simp] theorem pure_bind' (a : α) (f : α → Py G β) : (pure a >>= f) = f a := rfl

@[simp] theorem raise_bind (e : PyErr) (f : α → Py G β) : ((raise e : Py G α) >>= f) = raise e := rfl

@[simp] theorem lift_ok_bind (a : α) (f : α → Py G β) :
    ((lift (.ok a) : Py G α) >>= f) = f a := rfl

@[simp] theorem lift_error_bind (e : PyErr) (f : α → Py G β) :
    ((lift (.error e) : Py G α) >>= f) = raise e := rfl

theorem assert_apply (p : Prop) [Decidable p] (w : World G) :
    (assert p : Py G Unit) w = if p then .ok ((), w) else .error .assertion := by
  unfold assert; split <;> rfl

theorem assert_ok_iff {p : Prop} [Decidable p] {w w' : World G} :
    (assert p : Py G Unit) w = .ok ((), w') ↔ p ∧ w' = w := by
  rw [assert_apply]; split
  · rename_i h; constructor
    · intro h'; cases h'; exact ⟨h, rfl⟩
    · rintro ⟨_, rfl⟩; rfl
  · rename_i h; constructor
    · intro h'; cases h'
    · rintro ⟨h', _⟩; exact absurd h' h

@[simp] theorem assert_pos_bind {p : Prop} [Decidable p] (h : p) (f : Unit → Py G β) :
    ((assert p : Py G Unit) >>= f) = f () := by
  funext w; rw [bind_apply, assert_apply, if_pos h]

@[simp] theorem assert_neg_bind {p : Prop} [Decidable p] (h : ¬ p) (f : Unit → Py G β) :
    ((assert p : Py G Unit) >>= f) = raise .assertion := by
  funext w; rw [bind_apply, assert_apply, if_neg h]; rfl

theorem lift_ok_iff {x : Except PyErr α} {w w' : World G} {a : α} :
    (lift x : Py G α) w = .ok (a, w') ↔ x = .ok a ∧ w' = w := by
  cases x with
  | error e => simp
  | ok b => simp only [lift_ok, Except.ok.injEq, Prod.mk.injEq]; constructor
            · rintro ⟨rfl, rfl⟩; exact ⟨rfl, rfl⟩
            · rintro ⟨rfl, rfl⟩; exact ⟨rfl, rfl⟩

end Py

/-- A Python float used as a tolerance: `np.nan` or a finite real.
(Infinities are not modelled; PARLA's contract for `tol` excludes them.) -/
inductive Tol where
  | nan
  | val (x : ℝ)

namespace Tol

/-- `np.isnan(tol)` -/
def isNaN : Tol → Prop
  | nan => True
  | val _ => False

instance : DecidablePred isNaN := fun t => match t with
  | nan => .isTrue trivial
  | val _ => .isFalse id

/-- `tol / 2` (NaN propagates). -/
noncomputable def half : Tol → Tol
  | nan => nan
  | val x => val (x / 2)

/-- `not np.isnan(tol) and tol > 0` (parla/comps/qb.py:454, 558). -/
def use : Tol → Prop
  | nan => False
  | val x => 0 < x

/-- `a <= tol`-style comparisons with NaN are False: `tol >= 0`. -/
def nonneg : Tol → Prop
  | nan => False
  | val x => 0 ≤ x

/-- `tol < 1` -/
def ltOne : Tol → Prop
  | nan => False
  | val x => x < 1

@[simp] theorem isNaN_nan : isNaN nan := trivial
@[simp] theorem not_isNaN_val (x : ℝ) : ¬ isNaN (val x) := id
@[simp] theorem not_use_nan : ¬ use nan := id
@[simp] theorem use_val (x : ℝ) : use (val x) ↔ 0 < x := Iff.rfl

end Tol

end Parla
