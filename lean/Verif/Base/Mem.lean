import Verif.Base.Py
import Verif.Base.Mat

/-! # Arrays as mutable objects

The rest of the model passes arrays by value.  Here an array is an object with an address, as in
NumPy: names may be bound to the same object, `x += v`, `R[:] = V` and `np.dot(.., out=w)` change
the object in place, whereas `x = x + v` makes a new one.  This is what is needed to say which
arrays of the caller a call modifies, and whether it still does what it should if several of its
arguments are one and the same object.

An exception does not undo the changes made before it was raised: a computation returns the memory
in both cases.

Simplification: distinct addresses are disjoint objects.  Views that overlap only in part (say two
slices of one buffer passed as two arguments) are not modelled; a view that is only read is modelled
by reading the part in question. -/

namespace Parla

open Matrix

/-- The array objects.  An address below `next` has been handed out.  The object at an address is a
vector or a matrix of some shape: `vec a n` is its content seen as a vector of length `n`, `mat a r c`
as an `r × c` matrix (only the fields for the shape the object has matter). -/
structure Heap where
  next : ℕ
  vec : (a : ℕ) → (n : ℕ) → Fin n → ℝ
  mat : (a : ℕ) → (r : ℕ) → (c : ℕ) → Matrix (Fin r) (Fin c) ℝ

/-- A computation on mutable arrays: it returns or raises, and leaves the memory in some state. -/
def Mem (α : Type) := Heap → Except PyErr α × Heap

/-- Sequencing: an exception skips the rest and keeps the memory as it is. -/
def Mem.bind {α β : Type} (p : Mem α) (f : α → Mem β) : Mem β := fun h =>
  match p h with
  | (.ok a, h') => f a h'
  | (.error e, h') => (.error e, h')

instance : Monad Mem where
  pure a := fun h => (.ok a, h)
  bind := Mem.bind

/-- `raise` -/
def Mem.raise {α : Type} (e : PyErr) : Mem α := fun h => (.error e, h)

/-- a computation that touches no array -/
def Mem.lift {α : Type} (e : Except PyErr α) : Mem α := fun h => (e, h)

/-- a choice left to a library routine: any function of the state -/
def Mem.choice (c : Heap → Bool) : Mem Bool := fun h => (.ok (c h), h)

variable {n r c : ℕ}

/-- the memory with one more vector -/
def Heap.newV (h : Heap) (v : Fin n → ℝ) : Heap :=
  { h with next := h.next + 1, vec := Function.update h.vec h.next (Function.update (h.vec h.next) n v) }

/-- the memory with one more matrix -/
def Heap.newM (h : Heap) (M : Matrix (Fin r) (Fin c) ℝ) : Heap :=
  { h with
    next := h.next + 1
    mat := Function.update h.mat h.next
      (Function.update (h.mat h.next) r (Function.update (h.mat h.next r) c M)) }

/-- the memory after overwriting the vector `a` -/
def Heap.setV (h : Heap) (a : ℕ) (v : Fin n → ℝ) : Heap :=
  { h with vec := Function.update h.vec a (Function.update (h.vec a) n v) }

/-- the memory after overwriting the matrix `a` -/
def Heap.setM (h : Heap) (a : ℕ) (M : Matrix (Fin r) (Fin c) ℝ) : Heap :=
  { h with
    mat := Function.update h.mat a
      (Function.update (h.mat a) r (Function.update (h.mat a r) c M)) }

/-- The value of an expression that makes a new vector (`a + b`, `A @ x`, `x.copy()`, ...). -/
def newVec (v : Fin n → ℝ) : Mem ℕ := fun h => (.ok h.next, h.newV v)

/-- The value of an expression that makes a new matrix. -/
def newMat (M : Matrix (Fin r) (Fin c) ℝ) : Mem ℕ := fun h => (.ok h.next, h.newM M)

/-- Reading a vector. -/
def getVec (n : ℕ) (a : ℕ) : Mem (Fin n → ℝ) := fun h => (.ok (h.vec a n), h)

/-- Reading a matrix. -/
def getMat (r c : ℕ) (a : ℕ) : Mem (Matrix (Fin r) (Fin c) ℝ) := fun h => (.ok (h.mat a r c), h)

/-- Overwriting a vector: `x[:] = v`, `x += ..`, `np.dot(.., out=x)`. -/
def setVec (a : ℕ) (v : Fin n → ℝ) : Mem Unit := fun h => (.ok (), h.setV a v)

/-- Overwriting a matrix. -/
def setMat (a : ℕ) (M : Matrix (Fin r) (Fin c) ℝ) : Mem Unit := fun h => (.ok (), h.setM a M)

/-- Between `h` and `h'` only the objects in `W`, and objects that did not exist in `h`, changed. -/
def OnlyModifies (W : Set ℕ) (h h' : Heap) : Prop :=
  h.next ≤ h'.next ∧ ∀ a < h.next, a ∉ W → h'.vec a = h.vec a ∧ h'.mat a = h.mat a

end Parla
