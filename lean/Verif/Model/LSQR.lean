import Verif.Model.PcSS1
import Mathlib.Data.Real.Sign

/-! # Model of parla/comps/determiter/lsqr.py

`show=True` (the printing) is not modelled.  The
tests `1 + t <= 1` of lines 513-517 are modelled in exact arithmetic, where they read `t <= 0`.
Lean's `x / 0 = 0` is never exercised by a run: `lsqr_divisors` (in Props/LSQR) proves that no
divisor in the loop vanishes.  The divisions by `bnorm` are modelled with NumPy's conventions for
`bnorm == 0`. -/

namespace Parla

open Matrix

variable {p q : ℕ}

open Classical in
/-- `_sym_ortho(a, b)`: parla/comps/determiter/lsqr.py:63-95. -/
noncomputable def symOrtho (a b : ℝ) : ℝ × ℝ × ℝ :=
  if b = 0 then (Real.sign a, 0, |a|)
  else if a = 0 then (0, Real.sign b, |b|)
  else if |b| > |a| then
    let tau := a / b
    let s := Real.sign b / Real.sqrt (1 + tau * tau)
    let c := s * tau
    let r := b / s
    (c, s, r)
  else
    let tau := b / a
    let c := Real.sign a / Real.sqrt (1 + tau * tau)
    let s := c * tau
    let r := a / c
    (c, s, r)

/-- The variables that live across iterations of the main loop of `lsqr`
(parla/comps/determiter/lsqr.py:318, 342-392).  `rnorm` always equals `r2norm` there. -/
structure LsqrState (p q : ℕ) where
  x : Fin q → ℝ
  u : Fin p → ℝ
  v : Fin q → ℝ
  w : Fin q → ℝ
  alfa : ℝ
  rhobar : ℝ
  phibar : ℝ
  anorm : ℝ
  acond : ℝ
  ddnorm : ℝ
  res2 : ℝ
  xnorm : ℝ
  xxnorm : ℝ
  z : ℝ
  cs2 : ℝ
  sn2 : ℝ
  r1norm : ℝ
  r2norm : ℝ
  arnorm : ℝ
  itn : ℕ
  var : Fin q → ℝ

open Classical in
/-- Initialisation: parla/comps/determiter/lsqr.py:318, 342-392. -/
noncomputable def lsqrInit (A : LinOp p q) (b : Fin p → ℝ) (x0 : Option (Fin q → ℝ)) :
    Except PyErr (LsqrState p q) := do
  let (x, u, beta) ← (match x0 with
    | none => pure (0, b, norm2 b)
    | some x0 => do
      let Ax ← A.mv x0
      let u := b - Ax
      pure (x0, u, norm2 u) : Except PyErr ((Fin q → ℝ) × (Fin p → ℝ) × ℝ))
  let (u, v, alfa) ← (if 0 < beta then do
      let u := (1 / beta) • u
      let v ← A.rmv u
      pure (u, v, norm2 v)
    else pure (u, x, 0) : Except PyErr ((Fin p → ℝ) × (Fin q → ℝ) × ℝ))
  let v := if 0 < alfa then (1 / alfa) • v else v
  pure {
    x := x, u := u, v := v, w := v, alfa := alfa, rhobar := alfa, phibar := beta
    anorm := 0, acond := 0, ddnorm := 0, res2 := 0, xnorm := 0, xxnorm := 0, z := 0
    cs2 := -1, sn2 := 0, r1norm := beta, r2norm := beta, arnorm := alfa * beta, itn := 0, var := 0 }

open Classical in
/-- One step of the bidiagonalisation, returning also `beta`:
parla/comps/determiter/lsqr.py:414-430. -/
noncomputable def lsqrBidiag (A : LinOp p q) (damp : ℝ) (s : LsqrState p q) :
    Except PyErr (LsqrState p q × ℝ) := do
  let s := { s with itn := s.itn + 1 }
  let Av ← A.mv s.v
  let u := Av - s.alfa • s.u
  let beta := norm2 u
  if 0 < beta then
    let u := (1 / beta) • u
    let anorm := Real.sqrt (s.anorm ^ 2 + s.alfa ^ 2 + beta ^ 2 + damp ^ 2)
    let Atu ← A.rmv u
    let v := Atu - beta • s.v
    let alfa := norm2 v
    let v := if 0 < alfa then (1 / alfa) • v else v
    pure ({ s with u := u, v := v, alfa := alfa, anorm := anorm }, beta)
  else
    pure ({ s with u := u }, beta)

open Classical in
/-- The plane rotations, the update of `x` and `w`, the variance estimate and the norm estimates:
parla/comps/determiter/lsqr.py:432-496. -/
noncomputable def lsqrRotate (damp : ℝ) (s : LsqrState p q) (beta : ℝ) (calcVar : Bool := false) :
    LsqrState p q :=
  let rhobar1 := Real.sqrt (s.rhobar ^ 2 + damp ^ 2)
  let cs1 := s.rhobar / rhobar1
  let sn1 := damp / rhobar1
  let psi := sn1 * s.phibar
  let phibar := cs1 * s.phibar
  let cs := (symOrtho rhobar1 beta).1
  let sn := (symOrtho rhobar1 beta).2.1
  let rho := (symOrtho rhobar1 beta).2.2
  let theta := sn * s.alfa
  let rhobar := -cs * s.alfa
  let phi := cs * phibar
  let phibar := sn * phibar
  let tau := sn * phi
  let t1 := phi / rho
  let t2 := -theta / rho
  let dk := (1 / rho) • s.w
  let x := s.x + t1 • s.w
  let w := s.v + t2 • s.w
  let ddnorm := s.ddnorm + norm2 dk ^ 2
  let var := if calcVar then s.var + dk ^ 2 else s.var
  let delta := s.sn2 * rho
  let gambar := -s.cs2 * rho
  let rhs := phi - delta * s.z
  let zbar := rhs / gambar
  let xnorm := Real.sqrt (s.xxnorm + zbar ^ 2)
  let gamma := Real.sqrt (gambar ^ 2 + theta ^ 2)
  let cs2 := gambar / gamma
  let sn2 := theta / gamma
  let z := rhs / gamma
  let xxnorm := s.xxnorm + z ^ 2
  let acond := s.anorm * Real.sqrt ddnorm
  let res1 := phibar ^ 2
  let res2 := s.res2 + psi ^ 2
  let rnorm := Real.sqrt (res1 + res2)
  let arnorm := s.alfa * |tau|
  let r1sq := rnorm ^ 2 - damp ^ 2 * xxnorm
  let r1norm := Real.sqrt |r1sq|
  let r1norm := if r1sq < 0 then -r1norm else r1norm
  { s with x := x, w := w, rhobar := rhobar, phibar := phibar, acond := acond, ddnorm := ddnorm,
           res2 := res2, xnorm := xnorm, xxnorm := xxnorm, z := z, cs2 := cs2, sn2 := sn2,
           r1norm := r1norm, r2norm := rnorm, arnorm := arnorm, var := var }

/-- The part of the loop body that changes the iteration variables:
parla/comps/determiter/lsqr.py:414-496. -/
noncomputable def lsqrStep (A : LinOp p q) (damp : ℝ) (s : LsqrState p q) (calcVar : Bool := false) :
    Except PyErr (LsqrState p q) := do
  let (s, beta) ← lsqrBidiag A damp s
  pure (lsqrRotate damp s beta calcVar)

/-- The tolerances of a call: `atol`, `btol`, `conlim`. -/
structure LsqrTol where
  atol : ℝ
  btol : ℝ
  conlim : ℝ

open Classical in
/-- `istop` at the end of a loop body: parla/comps/determiter/lsqr.py:344-346 and 498-526.

For `bnorm == 0` NumPy computes `test1 = inf` (or NaN if `rnorm == 0`), `t1 = NaN` and
`rtol = inf` (`-inf`, NaN) according to the sign of `atol*anorm*xnorm`, so that `t1` never passes its
test and `test1 <= rtol` holds exactly when `rnorm > 0` and `atol*anorm*xnorm > 0`. -/
noncomputable def lsqrStop (T : LsqrTol) (bnorm : ℝ) (iterLim : ℕ) (s : LsqrState p q) : ℕ :=
  let ctol := if T.conlim > 0 then 1 / T.conlim else 0
  let rnorm := s.r2norm
  let test1 := rnorm / bnorm
  let test2 := s.arnorm / (s.anorm * rnorm + eps)
  let test3 := 1 / (s.acond + eps)
  let t1 := test1 / (1 + s.anorm * s.xnorm / bnorm)
  let rtol := T.btol + T.atol * s.anorm * s.xnorm / bnorm
  let small1 : Prop := bnorm ≠ 0 ∧ t1 ≤ 0
  let pass1 : Prop := if bnorm = 0 then 0 < rnorm ∧ 0 < T.atol * s.anorm * s.xnorm else test1 ≤ rtol
  let istop := 0
  let istop := if s.itn ≥ iterLim then 7 else istop
  let istop := if test3 ≤ 0 then 6 else istop
  let istop := if test2 ≤ 0 then 5 else istop
  let istop := if small1 then 4 else istop
  let istop := if test3 ≤ ctol then 3 else istop
  let istop := if test2 ≤ T.atol then 2 else istop
  let istop := if pass1 then 1 else istop
  istop

open Classical in
/-- `while itn < iter_lim` (parla/comps/determiter/lsqr.py:412-555).  The first argument is
`iter_lim - itn`; `arr` is the array `arnorms`. -/
noncomputable def lsqrLoop (A : LinOp p q) (damp : ℝ) (T : LsqrTol) (bnorm : ℝ) (iterLim : ℕ)
    (calcVar : Bool := false) : ℕ → LsqrState p q → List ℝ → Except PyErr (LsqrState p q × ℕ × List ℝ)
  | 0, s, arr => .ok (s, 0, arr)
  | k + 1, s, arr =>
    let arr := arr.set s.itn s.arnorm
    match lsqrStep A damp s calcVar with
    | .error e => .error e
    | .ok s =>
      let istop := lsqrStop T bnorm iterLim s
      if istop ≠ 0 then .ok (s, istop, arr)
      else lsqrLoop A damp T bnorm iterLim calcVar k s arr

/-- The tuple returned by `lsqr`. -/
structure LsqrOut (q : ℕ) where
  x : Fin q → ℝ
  istop : ℕ
  itn : ℕ
  r1norm : ℝ
  r2norm : ℝ
  anorm : ℝ
  acond : ℝ
  arnorms : ErrLog
  xnorm : ℝ
  var : Fin q → ℝ

open Classical in
/-- `lsqr(A, b, damp, atol, btol, conlim, iter_lim, x0=x0, calc_var=calc_var)`:
parla/comps/determiter/lsqr.py:98-574.  A negative `iter_lim` makes `np.ones` raise `ValueError`
(line 410), unless the call returned in line 395. -/
noncomputable def lsqr (A : LinOp p q) (b : Fin p → ℝ) (damp : ℝ) (T : LsqrTol)
    (iterLim : Option ℤ) (x0 : Option (Fin q → ℝ)) (calcVar : Bool := false) : Except PyErr (LsqrOut q) :=
  let L : ℤ := iterLim.getD (2 * q)
  match lsqrInit A b x0 with
  | .error e => .error e
  | .ok s =>
    if s.arnorm = 0 then
      .ok ⟨s.x, 0, s.itn, s.r1norm, s.r2norm, s.anorm, s.acond, .scalar s.arnorm, s.xnorm,
        s.var⟩
    else if L < 0 then .error .value
    else
      match lsqrLoop A damp T (norm2 b) L.toNat calcVar L.toNat s (List.replicate L.toNat (-1)) with
      | .error e => .error e
      | .ok (s, istop, arr) =>
        .ok ⟨s.x, istop, s.itn, s.r1norm, s.r2norm, s.anorm, s.acond,
          .arr (arr.filter fun e => decide (-1 < e)), s.xnorm, s.var⟩

end Parla
