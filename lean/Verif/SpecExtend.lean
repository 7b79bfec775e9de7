import Verif.Model.LSQR
import Verif.Model.QB

/-! # Specification vocabulary of C90 -/

namespace Parla.Spec

open Parla

/-- the log `l` is an initial part of the log `l'` (a solver that needs no iterations returns a scalar, not a log) -/
def LogPrefix : ErrLog → ErrLog → Prop
  | .scalar e, .scalar e' => e = e'
  | .arr l, .arr l' => l <+: l'
  | _, _ => False

/-- the tolerances `T'` are at least as tight as `T`; a `conlim` that is not positive means no limit -/
structure Tighter (T' T : LsqrTol) : Prop where
  atol : T'.atol ≤ T.atol
  btol : T'.btol ≤ T.btol
  conlim : T'.conlim ≤ 0 ∨ (0 < T.conlim ∧ T.conlim ≤ T'.conlim)

/-- the truncation tolerance `t'` is at least as tight as `t`; NaN or a number that is not positive means
that there is no tolerance -/
def TighterTol : Tol → Tol → Prop
  | .nan, _ => True
  | .val t', .nan => t' ≤ 0
  | .val t', .val t => t' ≤ 0 ∨ t' ≤ t

/-- the factors of `o` are the leading columns of `Q` and the leading rows of `B` of `o'` -/
def ExtendsQB {m n : ℕ} (o o' : QBOut m n) : Prop :=
  ∃ h : o.c ≤ o'.c, (∀ i j, o'.Q i (Fin.castLE h j) = o.Q i j) ∧ ∀ i j, o'.B (Fin.castLE h i) j = o.B i j

end Parla.Spec
