import Verif.Model.MemDrivers
import Verif.Model.MemQB
import Verif.Spec

/-! # What it means to do by address what the model does by value

Specification for the claims on mutable arrays. -/

namespace Parla

open Matrix

/-- The function handle `op`, called with the address of a vector, computes `f` of its content,
whatever happened since the state `h0` to objects that did not exist in `h0` or belong to `W`: it
raises what `f` raises, or returns the address of the result, which is a new array or the argument
itself.  It modifies nothing but its private workspace `W`. -/
def Computes {p q : ℕ} (h0 : Heap) (W : Set ℕ) (op : ℕ → Mem ℕ)
    (f : (Fin q → ℝ) → Except PyErr (Fin p → ℝ)) : Prop :=
  ∀ h a, OnlyModifies W h0 h → a < h.next → a ∉ W →
    OnlyModifies W h (op a h).2 ∧
    match (op a h).1, f (h.vec a q) with
    | .ok r, .ok v => r < (op a h).2.next ∧ (r = a ∨ h.next ≤ r) ∧ (op a h).2.vec r p = v
    | .error e, .error e' => e = e'
    | _, _ => False

/-- The computation `m`, started in the state `h`, does what `e` does by value: it raises what `e`
raises, or both return and their results are related by `Post` (which also takes the final state).
In both cases it modifies only objects in `W` and objects of its own. -/
def Sim {α β : Type} (W : Set ℕ) (h : Heap) (m : Mem α) (e : Except PyErr β) (Post : α → β → Heap → Prop) : Prop :=
  OnlyModifies W h (m h).2 ∧
  match (m h).1, e with
  | .ok a, .ok b => Post a b (m h).2
  | .error e, .error e' => e = e'
  | _, _ => False

/-- The same for a driver: its sketching operator is drawn first, in the world `w`, without touching
any array (if this raises, so does the call by value); then the rest runs on the arrays in the state `h`
and modifies none of them. -/
def SimCall {G α β : Type} (h : Heap) (mM : Py G (Mem α)) (e : Py G β) (Post : α → β → Heap → Prop) : Prop :=
  ∀ w, match mM w with
  | .error err => e w = .error err
  | .ok (mm, w') => OnlyModifies ∅ h (mm h).2 ∧
    match (mm h).1 with
    | .ok a => ∃ b, e w = .ok (b, w') ∧ Post a b (mm h).2
    | .error err => e w = .error err

variable {m n : ℕ}

/-- the contents of the arguments `(R, upper_tri)` -/
def PrecRef.val (P : PrecRef) (n : ℕ) (h : Heap) : Precond n :=
  match P with
  | .tri R => .tri (h.mat R n n)
  | .gen r R => .gen r (h.mat R n r)

/-- the address of `R` -/
def PrecRef.addr : PrecRef → ℕ
  | .tri R => R
  | .gen _ R => R

/-- the content of `b` -/
def BRef.val (b : BRef) (m : ℕ) (h : Heap) : BArg m :=
  match b with
  | .none => .none
  | .vec b => .vec (h.vec b m)
  | .multi k hk => .multi k hk

/-- In the state `h'`, `a` is the address of an array that did not exist in `h`, with content `v`. -/
def IsNew (h h' : Heap) (a n : ℕ) (v : Fin n → ℝ) : Prop := h.next ≤ a ∧ a < h'.next ∧ h'.vec a n = v

/-- the same for a result that may be NaN -/
def IsNewOpt (h h' : Heap) (a : Option ℕ) (n : ℕ) (v : Option (Fin n → ℝ)) : Prop :=
  match a, v with
  | none, none => True
  | some a, some v => IsNew h h' a n v
  | _, _ => False

/-- The results of a saddle point solver, by address and by value: new arrays, which are not the same
object, with the right content. -/
def SaddleRefs.Is (o : SaddleRefs) (o' : SaddleOut m n) (h h' : Heap) : Prop :=
  IsNewOpt h h' o.x n o'.x ∧ IsNew h h' o.y m o'.y ∧ o.x ≠ some o.y ∧ o.errs = o'.errs

/-- A solver that works by address does what a solver that works by value does, and modifies nothing
of its caller's but (possibly) the array `R`. -/
def SaddleSolverM.Runs (sM : SaddleSolverM) (s : SaddleSolver) : Prop :=
  ∀ (m n : ℕ) (h : Heap) (A : ℕ) (b : BRef) (c : Option ℕ) (delta tol : ℝ) (iterLim : ℤ) (P : PrecRef) (z0 : Option ℕ),
    A < h.next → (∀ a, b = .vec a → a < h.next) → (∀ a ∈ c, a < h.next) → P.addr < h.next → (∀ a ∈ z0, a < h.next) →
    Sim {P.addr} h (sM m n A b c delta tol iterLim P z0)
      (s m n (h.mat A m n) (b.val m h) (c.map fun a => h.vec a n) delta tol iterLim (P.val n h)
        (z0.map fun a => h.vec a (P.val n h).dim))
      fun o o' h' => o.Is o' h h'

/-- The solver leaves the array `R` it is given as it is. -/
def SaddleSolverM.KeepsR (sM : SaddleSolverM) : Prop :=
  ∀ (m n : ℕ) (h : Heap) (A : ℕ) (b : BRef) (c : Option ℕ) (delta tol : ℝ) (iterLim : ℤ) (P : PrecRef) (z0 : Option ℕ),
    A < h.next → (∀ a, b = .vec a → a < h.next) → (∀ a ∈ c, a < h.next) → P.addr < h.next → (∀ a ∈ z0, a < h.next) →
    (sM m n A b c delta tol iterLim P z0 h).2.mat P.addr = h.mat P.addr

/-- What the user gets from a saddle point driver: new arrays with the right content, `x_star` and
`y_star` not the same object. -/
def SPSOutRefs.Is (o : SPSOutRefs) (o' : SPSOut m n) (h h' : Heap) : Prop :=
  IsNewOpt h h' o.x n o'.x ∧ IsNewOpt h h' o.y m o'.y ∧ (o.x = o.y → o.x = none)

/-- Two logs agree except possibly in the first entry of `errors`. -/
def SPLogAgree (l l' : Option SPLog) : Prop :=
  match l, l' with
  | none, none => True
  | some l, some l' => l.times = l'.times ∧ l.errors.tail = l'.errors.tail
  | _, _ => False

/-- `X` is `A0` after projecting out, one after the other, finitely many blocks of orthonormal
columns. -/
def Deflated (A0 X : Matrix (Fin m) (Fin n) ℝ) : Prop :=
  ∃ L : List (Cols m), (∀ Q ∈ L, Spec.OrthoCols Q.mat) ∧ X = L.foldl (fun X Q => X - Q.mat * (Q.matᵀ * X)) A0

/-- In the state `h'`, `a` is the address of a matrix that did not exist in `h`, with content `M`. -/
def IsNewMat (h h' : Heap) (a : ℕ) {r c : ℕ} (M : Matrix (Fin r) (Fin c) ℝ) : Prop :=
  h.next ≤ a ∧ a < h'.next ∧ h'.mat a r c = M

end Parla
