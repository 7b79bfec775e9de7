import Verif.Model.PcSS1

/-! # Model of parla/comps/determiter/logging.py -/

namespace Parla

/-- The timing fields of `SketchAndPrecondLog` (parla/comps/determiter/logging.py:52-58).  Clock
readings are arbitrary real numbers: a driver receives the values these fields will have. -/
structure LogTimes where
  sketch : ℝ
  factor : ℝ
  presolve : ℝ
  convert : ℝ
  iterate : ℝ

/-- the property `time_setup` (parla/comps/determiter/logging.py:63-70) -/
noncomputable def LogTimes.setup (t : LogTimes) : ℝ := t.sketch + t.factor + t.convert

/-- The fields `times` and `errors` of a `SketchAndPrecondLog`. -/
structure SPLog where
  times : List ℝ
  errors : List ℝ

/-- `np.linspace(0, T, k, endpoint=True)` (used in parla/comps/determiter/logging.py:89): `[]` for
`k = 0`, `[0.]` for `k = 1`, else `k` equally spaced numbers from `0` to `T`. -/
noncomputable def linspace (T : ℝ) (k : ℕ) : List ℝ :=
  (List.range k).map fun i : ℕ => (i : ℝ) * (T / ((k : ℝ) - 1))

/-- `wrap_up(iter_errors, init_error)`: parla/comps/determiter/logging.py:72-94.  A 0-dimensional
`iter_errors` has `size == 1`, but `np.concatenate` (line 93) raises `ValueError` for it. -/
noncomputable def wrapUp (t : LogTimes) (iterErrors : ErrLog) (initError : ℝ) : Except PyErr SPLog :=
  match iterErrors with
  | .scalar _ => .error .value
  | .arr l =>
    let iters := l.length
    let timeSetup := t.setup
    let iterating := linspace t.iterate iters
    let cumulative := iterating.map fun s => timeSetup + t.presolve + s
    .ok { times := timeSetup :: cumulative, errors := initError :: l }

/-- `if logging: log.wrap_up(res[2], init_error)`; without logging the fields `times` and `errors`
stay `None` (parla/comps/determiter/logging.py:59-60). -/
noncomputable def finishLog (logging : Bool) (t : LogTimes) (iterErrors : ErrLog) (initError : ℝ) :
    Except PyErr (Option SPLog) :=
  if logging then (wrapUp t iterErrors initError).map some else .ok none

end Parla
