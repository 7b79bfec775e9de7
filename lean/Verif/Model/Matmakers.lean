import Verif.Model.Sketching

/-! # Model of parla/tests/matmakers.py and notebooks/least_squares/helpers.py: the test problems -/

namespace Parla

open Matrix

variable {G : Type} {m n : ℕ}

/-- The `spectrum` argument of `rand_low_rank` (parla/tests/matmakers.py:7-10): an int or a float array. -/
inductive SpectrumArg where
  | int (k : ℤ)
  | arr (r : ℕ) (s : Fin r → ℝ)

/-- What `rand_low_rank` returns with `factors=True` (parla/tests/matmakers.py:18-19): `M`, `U`, `spectrum`, `V`,
packed with the number of components.  With `factors=False` it returns `M` only. -/
structure LowRankOut (m n : ℕ) where
  r : ℕ
  M : Matrix (Fin m) (Fin n) ℝ
  U : Matrix (Fin m) (Fin r) ℝ
  s : Fin r → ℝ
  V : Matrix (Fin r) (Fin n) ℝ

/-- The spectrum before sorting (parla/tests/matmakers.py:9-10): for an int a draw of `rng.random`, which raises
ValueError for a negative size. -/
noncomputable def spectrumOf (R : NpRng G) : SpectrumArg → Py G (Σ r : ℕ, Fin r → ℝ)
  | .int k =>
    if k < 0 then Py.raise .value
    else do
      let u ← Py.draw (R.random k.toNat)
      pure ⟨k.toNat, u⟩
  | .arr r s => pure ⟨r, s⟩

/-- `np.sort(spectrum)[::-1]` divided by its first entry (parla/tests/matmakers.py:11-13).  `np.sort` copies, so the
caller's array is not written.  A zero largest entry gives nan in NumPy; the theorems assume a positive one. -/
noncomputable def sortedSpectrum (la : LinAlg) {r : ℕ} (s : Fin (r + 1) → ℝ) : Fin (r + 1) → ℝ :=
  let t := fun i : Fin (r + 1) => s (la.argsort s i.rev)
  fun i => t i / t 0

/-- Lines 14-17 of `rand_low_rank` (parla/tests/matmakers.py:14-17): the two orthonormal factors and the product
`(U * spectrum) @ V`. -/
noncomputable def lowRankOf (la : LinAlg) (R : NpRng G) {r : ℕ} (s : Fin r → ℝ) : Py G (LowRankOut m n) := do
  let U ← orthonormalOperator la R m r
  let V ← orthonormalOperator la R r n
  pure ⟨r, (Matrix.of fun i j => U i j * s j) * V, U, s, V⟩

/-- `rand_low_rank(n_rows, n_cols, spectrum, rng, factors=True)`: parla/tests/matmakers.py:7-21.  An empty spectrum
makes `spectrum[0]` raise IndexError. -/
noncomputable def randLowRank (la : LinAlg) (R : NpRng G) (m n : ℕ) (spectrum : SpectrumArg) :
    Py G (LowRankOut m n) := do
  match ← spectrumOf R spectrum with
  | ⟨0, _⟩ => Py.raise .index
  | ⟨_ + 1, s⟩ => lowRankOf la R (sortedSpectrum la s)

/-- `simple_mat(n_rows, n_cols, scale, rng)`: parla/tests/matmakers.py:24-31.  The code takes the full QR
factorisation; its product with the scaled columns of `R` is that of the economic one, used here.
`1 + scale * j` is assumed positive (NumPy gives nan otherwise). -/
noncomputable def simpleMat (la : LinAlg) (R : NpRng G) (m n : ℕ) (scale : ℝ) : Py G (Matrix (Fin m) (Fin n) ℝ) := do
  let A ← Py.draw (R.standardNormal m n)
  let QA := (la.qr A).1
  let RA := (la.qr A).2
  let damp := fun j : Fin n => 1 / Real.sqrt (1 + scale * j)
  pure (QA * Matrix.of fun i j => RA i j * damp j)

/-- `exponent_spectrum(n_rows, n_cols, rank, rng, spectrum_param, factors=True)`: parla/tests/matmakers.py:34-36.
`np.arange(1, rank)` has `max(rank - 1, 0)` entries.  `spectrum_param` is assumed nonzero. -/
noncomputable def exponentSpectrum (la : LinAlg) (R : NpRng G) (m n : ℕ) (rank : ℤ) (param : ℝ) :
    Py G (LowRankOut m n) :=
  randLowRank la R m n (.arr (rank - 1).toNat fun i => Real.exp ((-(1 + (i : ℝ)) + 1) / param))

/-- `s_shaped_spectrum(n_rows, n_cols, rank, rng, factors=True)`: parla/tests/matmakers.py:39-41. -/
noncomputable def sShapedSpectrum (la : LinAlg) (R : NpRng G) (m n : ℕ) (rank : ℤ) : Py G (LowRankOut m n) :=
  randLowRank la R m n (.arr (rank - 1).toNat fun i => 1 / 10000 + 1 / (1 + Real.exp ((1 + (i : ℝ)) - 29)))

/-- The data of an `LSDemoHelper` (notebooks/least_squares/helpers.py:32-36). -/
structure DemoHelper (m n : ℕ) where
  r : ℕ
  A : Matrix (Fin m) (Fin n) ℝ
  b : Fin m → ℝ
  xOpt : Fin n → ℝ
  U : Matrix (Fin m) (Fin r) ℝ
  s : Fin r → ℝ
  Vt : Matrix (Fin r) (Fin n) ℝ

/-- `np.mean(s)` -/
noncomputable def npMean {r : ℕ} (s : Fin r → ℝ) : ℝ := (∑ i, s i) / r

/-- The right-hand side built from a Gaussian vector (notebooks/least_squares/helpers.py:17-22, 40-45).  A zero
`b_range` or `b_orthog` gives nan in NumPy; the theorems assume both nonzero. -/
noncomputable def demoRhs {r : ℕ} (U : Matrix (Fin m) (Fin r) ℝ) (s : Fin r → ℝ) (propRange : ℝ) (b0 : Fin m → ℝ) :
    Fin m → ℝ :=
  let bRange := U *ᵥ (Uᵀ *ᵥ b0)
  let bOrthog := b0 - bRange
  let bRange := (npMean s / norm2 bRange) • bRange
  let bOrthog := (npMean s / norm2 bOrthog) • bOrthog
  propRange • bRange + (1 - propRange) • bOrthog

/-- `LSDemoHelper.solve` and `x_opt` (notebooks/least_squares/helpers.py:27, 36, 53-54): `(Vt.T / s) @ (U.T @ vec)`. -/
noncomputable def demoSolve {r : ℕ} (U : Matrix (Fin m) (Fin r) ℝ) (s : Fin r → ℝ) (Vt : Matrix (Fin r) (Fin n) ℝ)
    (v : Fin m → ℝ) : Fin n → ℝ :=
  (Matrix.of fun i j => Vtᵀ i j / s j) *ᵥ (Uᵀ *ᵥ v)

/-- `make_demo_helper(m, n, spectrum, prop_range, rng)`: notebooks/least_squares/helpers.py:7-29.  The vector
`rng.standard_normal(m)` is the column of a draw of shape `(m, 1)`. -/
noncomputable def makeDemoHelper (la : LinAlg) (R : NpRng G) (m n : ℕ) {r : ℕ} (s : Fin r → ℝ) (propRange : ℝ) :
    Py G (DemoHelper m n) := do
  let U ← orthonormalOperator la R m r
  let Vt ← orthonormalOperator la R r n
  let A := (Matrix.of fun i j => U i j * s j) * Vt
  let b0 ← Py.draw (R.standardNormal m 1)
  let b := demoRhs U s propRange fun i => b0 i 0
  pure ⟨r, A, b, demoSolve U s Vt b, U, s, Vt⟩

/-- `LSDemoHelper.resample_b(prop_range, rng)`: notebooks/least_squares/helpers.py:38-48: a new right-hand side and
its solution, for the same matrix. -/
noncomputable def resampleB (R : NpRng G) (h : DemoHelper m n) (propRange : ℝ) : Py G (DemoHelper m n) := do
  let b0 ← Py.draw (R.standardNormal m 1)
  let b := demoRhs h.U h.s propRange fun i => b0 i 0
  pure { h with b := b, xOpt := demoSolve h.U h.s h.Vt b }

end Parla
