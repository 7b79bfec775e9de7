import Verif.Props.RidgePath
import Verif.Props.SPS2

/-!
# C108: what the solutions of the saddle-point system optimise, and how they depend on `b` and `c`
-/

namespace Parla.Props
open Matrix Parla Spec

variable {G : Type} {m n d : ℕ}

theorem sqNorm_add_expand (u v : Fin n → ℝ) : sqNorm (u + v) = sqNorm u + 2 * (u ⬝ᵥ v) + sqNorm v := by
  simp only [sqNorm_eq_dot, add_dotProduct, dotProduct_add]
  rw [dotProduct_comm v u]; ring

theorem dot_transpose (A : Matrix (Fin m) (Fin n) ℝ) (y : Fin m → ℝ) (z : Fin n → ℝ) :
    (Aᵀ *ᵥ y) ⬝ᵥ z = y ⬝ᵥ (A *ᵥ z) := by
  rw [dotProduct_mulVec, mulVec_transpose]

/-- **C108** (primal problem).  If `(x, y)` solves the block system, the function
`z ↦ |A z - b|² + δ |z|² + 2 ⟨c, z⟩` exceeds its value at `x` by exactly `|A (z - x)|² + δ |z - x|²`. -/
theorem C108_primal (A : Matrix (Fin m) (Fin n) ℝ) (b : Fin m → ℝ) (c : Fin n → ℝ) (δ : ℝ)
    (x : Fin n → ℝ) (y : Fin m → ℝ) (h : SolvesSaddle A b c δ x y) (z : Fin n → ℝ) :
    sqNorm (A *ᵥ z - b) + δ * sqNorm z + 2 * (c ⬝ᵥ z) =
      sqNorm (A *ᵥ x - b) + δ * sqNorm x + 2 * (c ⬝ᵥ x) + (sqNorm (A *ᵥ (z - x)) + δ * sqNorm (z - x)) := by
  obtain ⟨e, rfl⟩ : ∃ e, z = x + e := ⟨z - x, by simp⟩
  have hy : A *ᵥ x - b = -y := by rw [← h.1]; simp
  have h1 : A *ᵥ (x + e) - b = -y + A *ᵥ e := by rw [mulVec_add, add_sub_right_comm, hy]
  rw [h1, hy, add_sub_cancel_left, sqNorm_add_expand, sqNorm_add_expand, dotProduct_add]
  have h2 : y ⬝ᵥ (A *ᵥ e) = c ⬝ᵥ e + δ * (x ⬝ᵥ e) := by
    rw [← dot_transpose, eq_add_of_sub_eq h.2, add_dotProduct, smul_dotProduct, smul_eq_mul]
  rw [neg_dotProduct, h2]
  ring

/-- **C108** (converse).  Every minimiser of that function, `δ ≥ 0`, is the `x` part of a solution, with
`y = b - A x`. -/
theorem C108_primal_converse (A : Matrix (Fin m) (Fin n) ℝ) (b : Fin m → ℝ) (c : Fin n → ℝ) {δ : ℝ} (hδ : 0 ≤ δ)
    (x : Fin n → ℝ)
    (h : ∀ z, sqNorm (A *ᵥ x - b) + δ * sqNorm x + 2 * (c ⬝ᵥ x) ≤
      sqNorm (A *ᵥ z - b) + δ * sqNorm z + 2 * (c ⬝ᵥ z)) : SolvesSaddle A b c δ x (b - A *ᵥ x) := by
  refine ⟨by simp, ?_⟩
  obtain ⟨g, hg⟩ : ∃ g, g = Aᵀ *ᵥ (b - A *ᵥ x) - δ • x - c := ⟨_, rfl⟩
  have key : ∀ t : ℝ, 0 ≤ (sqNorm (A *ᵥ g) + δ * sqNorm g) * (t * t) + (-2 * sqNorm g) * t + 0 := by
    intro t
    have h1 := h (x + t • g)
    have h2 : A *ᵥ (x + t • g) - b = (A *ᵥ x - b) + t • (A *ᵥ g) := by
      rw [mulVec_add, mulVec_smul, add_sub_right_comm]
    rw [h2, sqNorm_add_expand, sqNorm_add_expand x, dotProduct_add, dotProduct_smul, dotProduct_smul,
      dotProduct_smul] at h1
    have h3 : sqNorm (t • (A *ᵥ g)) = t * t * sqNorm (A *ᵥ g) := by
      simp only [sqNorm_eq_dot, smul_dotProduct, dotProduct_smul, smul_eq_mul]; ring
    have h4 : sqNorm (t • g) = t * t * sqNorm g := by
      simp only [sqNorm_eq_dot, smul_dotProduct, dotProduct_smul, smul_eq_mul]; ring
    have h5 : sqNorm g = -((A *ᵥ x - b) ⬝ᵥ (A *ᵥ g)) - δ * (x ⬝ᵥ g) - c ⬝ᵥ g := by
      have : sqNorm g = (Aᵀ *ᵥ (b - A *ᵥ x) - δ • x - c) ⬝ᵥ g := by rw [← hg, sqNorm_eq_dot]
      rw [this, sub_dotProduct, sub_dotProduct, dot_transpose, smul_dotProduct, smul_eq_mul,
        ← neg_sub b (A *ᵥ x), neg_dotProduct]
      ring
    rw [h3, h4] at h1
    simp only [smul_eq_mul] at h1
    linear_combination h1 + (2 * t) * h5
  have hd := discrim_le_zero key
  unfold discrim at hd
  have h0 : sqNorm g = 0 := by nlinarith [sqNorm_nonneg g]
  rw [sqNorm_eq_zero] at h0
  rw [hg] at h0
  exact sub_eq_zero.1 h0

/-- **C108** (dual problem, `δ > 0`).  If `(x, y)` solves the block system, the function
`v ↦ |v - b|² + |A'v - c|² / δ` exceeds its value at `y` by exactly `|v - y|² + |A'(v - y)|² / δ`, and its minimum
and that of the primal problem add up to `|b|²`. -/
theorem C108_dual (A : Matrix (Fin m) (Fin n) ℝ) (b : Fin m → ℝ) (c : Fin n → ℝ) {δ : ℝ} (hδ : 0 < δ)
    (x : Fin n → ℝ) (y : Fin m → ℝ) (h : SolvesSaddle A b c δ x y) :
    (∀ v, sqNorm (v - b) + sqNorm (Aᵀ *ᵥ v - c) / δ =
      sqNorm (y - b) + sqNorm (Aᵀ *ᵥ y - c) / δ + (sqNorm (v - y) + sqNorm (Aᵀ *ᵥ (v - y)) / δ)) ∧
    (sqNorm (A *ᵥ x - b) + δ * sqNorm x + 2 * (c ⬝ᵥ x)) + (sqNorm (y - b) + sqNorm (Aᵀ *ᵥ y - c) / δ) =
      sqNorm b := by
  have hb : y - b = -(A *ᵥ x) := by rw [← h.1]; simp
  have hc : Aᵀ *ᵥ y - c = δ • x := by rw [← h.2]; simp
  have hs : sqNorm (δ • x) = δ * (δ * sqNorm x) := by
    simp only [sqNorm_eq_dot, smul_dotProduct, dotProduct_smul, smul_eq_mul]
  have hneg : ∀ {k : ℕ} (u : Fin k → ℝ), sqNorm (-u) = sqNorm u := fun u => by
    simp only [sqNorm_eq_dot, neg_dotProduct, dotProduct_neg, neg_neg]
  constructor
  · intro v
    obtain ⟨e, rfl⟩ : ∃ e, v = y + e := ⟨v - y, by simp⟩
    have h1 : y + e - b = -(A *ᵥ x) + e := by rw [add_sub_right_comm, hb]
    have h2 : Aᵀ *ᵥ (y + e) - c = δ • x + Aᵀ *ᵥ e := by rw [mulVec_add, add_sub_right_comm, hc]
    rw [h1, h2, hb, hc, add_sub_cancel_left, sqNorm_add_expand, sqNorm_add_expand, neg_dotProduct, smul_dotProduct,
      smul_eq_mul, dotProduct_comm x, dot_transpose, dotProduct_comm e]
    field_simp
    ring
  · have h3 : A *ᵥ x - b = -y := by rw [← h.1]; simp
    have h4 : sqNorm b = sqNorm y + 2 * (y ⬝ᵥ (A *ᵥ x)) + sqNorm (A *ᵥ x) := by
      rw [← h.1, sqNorm_add_expand]
    have h5 : y ⬝ᵥ (A *ᵥ x) = c ⬝ᵥ x + δ * sqNorm x := by
      rw [← dot_transpose, eq_add_of_sub_eq h.2, add_dotProduct, smul_dotProduct, smul_eq_mul, sqNorm_eq_dot]
    rw [h3, hb, hc, hs, hneg, hneg, h4, h5, mul_div_cancel_left₀ _ hδ.ne']
    ring

/-- **C108** (dual problem, `δ = 0`).  The `y` part of a solution is the point nearest to `b` among all solutions of
`A'v = c`, and the only one. -/
theorem C108_dual_zero (A : Matrix (Fin m) (Fin n) ℝ) (b : Fin m → ℝ) (c : Fin n → ℝ)
    (x : Fin n → ℝ) (y : Fin m → ℝ) (h : SolvesSaddle A b c 0 x y) :
    Aᵀ *ᵥ y = c ∧ ∀ v, Aᵀ *ᵥ v = c → norm2 (y - b) ≤ norm2 (v - b) ∧ (norm2 (v - b) ≤ norm2 (y - b) → v = y) := by
  have hc : Aᵀ *ᵥ y = c := by have := h.2; rwa [zero_smul, sub_zero] at this
  refine ⟨hc, fun v hv => ?_⟩
  have hb : y - b = -(A *ᵥ x) := by rw [← h.1]; simp
  have h1 : sqNorm (v - b) = sqNorm (y - b) + sqNorm (v - y) := by
    have e1 : v - b = (y - b) + (v - y) := by abel
    have e2 : (y - b) ⬝ᵥ (v - y) = 0 := by
      rw [hb, neg_dotProduct, dotProduct_comm, ← dot_transpose, mulVec_sub, hv, hc, sub_self, zero_dotProduct,
        neg_zero]
    rw [e1, sqNorm_add_expand, e2]; ring
  have h2 := sqNorm_nonneg (v - y)
  refine ⟨norm2_le_norm2.2 (by linarith), fun h3 => ?_⟩
  have h4 := norm2_le_norm2.1 h3
  exact sub_eq_zero.1 (sqNorm_eq_zero.1 (by linarith))

/-- **C108** (stability).  For `δ > 0` the solutions for `(b, c)` and `(b', c')` satisfy
`|y - y'|² + δ |x - x'|² ≤ |b - b'|² + |c - c'|² / δ`. -/
theorem C108_stable (A : Matrix (Fin m) (Fin n) ℝ) (b b' : Fin m → ℝ) (c c' : Fin n → ℝ) {δ : ℝ} (hδ : 0 < δ)
    (x x' : Fin n → ℝ) (y y' : Fin m → ℝ) (h : SolvesSaddle A b c δ x y) (h' : SolvesSaddle A b' c' δ x' y') :
    sqNorm (y - y') + δ * sqNorm (x - x') ≤ sqNorm (b - b') + sqNorm (c - c') / δ := by
  have e1 : b - b' = (y - y') + A *ᵥ (x - x') := by rw [← h.1, ← h'.1, mulVec_sub]; abel
  have e2 : c - c' = Aᵀ *ᵥ (y - y') - δ • (x - x') := by rw [← h.2, ← h'.2, mulVec_sub, smul_sub]; abel
  generalize y - y' = u at *
  generalize x - x' = v at *
  have e3 : (Aᵀ *ᵥ u) ⬝ᵥ v = u ⬝ᵥ (A *ᵥ v) := dot_transpose A u v
  rw [e1, e2, sqNorm_add_expand]
  have e4 : sqNorm (Aᵀ *ᵥ u - δ • v) = sqNorm (Aᵀ *ᵥ u) - 2 * δ * (u ⬝ᵥ (A *ᵥ v)) + δ * (δ * sqNorm v) := by
    rw [sub_eq_add_neg, sqNorm_add_expand, ← e3]
    simp only [sqNorm_eq_dot, dotProduct_neg, neg_dotProduct, smul_dotProduct, dotProduct_smul, smul_eq_mul]
    ring
  rw [e4]
  have e5 : (sqNorm (Aᵀ *ᵥ u) - 2 * δ * (u ⬝ᵥ (A *ᵥ v)) + δ * (δ * sqNorm v)) / δ =
      sqNorm (Aᵀ *ᵥ u) / δ - 2 * (u ⬝ᵥ (A *ᵥ v)) + δ * sqNorm v := by field_simp
  rw [e5]
  have := div_nonneg (sqNorm_nonneg (Aᵀ *ᵥ u)) hδ.le
  have := sqNorm_nonneg (A *ᵥ v)
  linarith

/-- For `δ > 0` the block system has at most one solution. -/
theorem saddle_unique {A : Matrix (Fin m) (Fin n) ℝ} {b : Fin m → ℝ} {c : Fin n → ℝ} {δ : ℝ} (hδ : 0 < δ)
    {x x' : Fin n → ℝ} {y y' : Fin m → ℝ} (h : SolvesSaddle A b c δ x y) (h' : SolvesSaddle A b c δ x' y') :
    x = x' ∧ y = y' := by
  have h1 := C108_stable A b b c c hδ x x' y y' h h'
  have h0 : ∀ k : ℕ, sqNorm (0 : Fin k → ℝ) = 0 := fun k => by simp [sqNorm]
  rw [sub_self, sub_self, h0, h0, zero_div, add_zero] at h1
  have h2 := sqNorm_nonneg (y - y')
  have h3 := mul_nonneg hδ.le (sqNorm_nonneg (x - x'))
  refine ⟨sub_eq_zero.1 (sqNorm_eq_zero.1 ?_), sub_eq_zero.1 (sqNorm_eq_zero.1 (by linarith))⟩
  have h4 : δ * sqNorm (x - x') = 0 := by linarith
  exact (mul_eq_zero.1 h4).resolve_left hδ.ne'

/-! ### The drivers -/

/-- For `δ > 0` solutions are linear in `(b, c)`. -/
theorem saddle_linear {A : Matrix (Fin m) (Fin n) ℝ} {b b' : Fin m → ℝ} {c c' : Fin n → ℝ} {δ : ℝ}
    {x x' : Fin n → ℝ} {y y' : Fin m → ℝ} (h : SolvesSaddle A b c δ x y) (h' : SolvesSaddle A b' c' δ x' y')
    (α β : ℝ) : SolvesSaddle A (α • b + β • b') (α • c + β • c') δ (α • x + β • x') (α • y + β • y') := by
  constructor
  · rw [← h.1, ← h'.1, mulVec_add, mulVec_smul, mulVec_smul]; module
  · rw [← h.2, ← h'.2, mulVec_add, mulVec_smul, mulVec_smul]; module

/-- **C108** (`sps` run to the end).  For `delta > 0`, `tol = 0`, at least `n` iterations: on every state of the
generator `sps` returns the same pair `(x, y)`, independent of the state; `x` is the unique minimiser of
`|A z - b|² + δ |z|² + 2 ⟨c, z⟩` and `y` that of `|v - b|² + |A'v - c|² / δ`. -/
theorem C108_sps_optimal (la : LinAlg) (R : NpRng G) (A : Matrix (Fin m) (Fin n) ℝ)
    (b : Option (Fin m → ℝ)) (c : Option (Fin n → ℝ)) {δ : ℝ} (hδ : 0 < δ) (L : ℤ)
    (hL : (n : ℤ) ≤ L) (clock : LogTimes) (a : SketchArgs) (hn : 0 < n) (hm : 0 < m)
    (hne : (n : ℝ) * eps < 1) (hsf : (n : ℤ) ≤ pyInt (a.samplingFactor * n)) :
    ∃ x y, (∀ w, ∃ out w', spsFn la R A b c δ 0 L clock a .pcg w = .ok (out, w') ∧ out.x = some x ∧ out.y = some y) ∧
      (∀ z, sqNorm (A *ᵥ x - b.getD 0) + δ * sqNorm x + 2 * (c.getD 0 ⬝ᵥ x) + δ * sqNorm (z - x) ≤
        sqNorm (A *ᵥ z - b.getD 0) + δ * sqNorm z + 2 * (c.getD 0 ⬝ᵥ z)) ∧
      (∀ v, sqNorm (y - b.getD 0) + sqNorm (Aᵀ *ᵥ y - c.getD 0) / δ + sqNorm (v - y) ≤
        sqNorm (v - b.getD 0) + sqNorm (Aᵀ *ᵥ v - c.getD 0) / δ) := by
  have hc : cVec c = c.getD 0 := by cases c <;> rfl
  obtain ⟨x, y, hxy⟩ := saddle_exists A (b.getD 0) (c.getD 0) hδ
  refine ⟨x, y, fun w => ?_, fun z => ?_, fun v => ?_⟩
  · obtain ⟨d, S, w', hd, hS, h⟩ := C58_sps_pcg_converges la R A b c δ 0 hδ.le le_rfl L (by omega) clock a w hn hm
      hne hsf (saddle_exists A _ _ hδ)
    obtain ⟨out, x', y', -, -, h1, h3, h4, -, -, -, -, h8⟩ := h (Or.inr hδ)
    have h9 := h8 hL rfl
    rw [hc] at h9
    obtain ⟨rfl, rfl⟩ := saddle_unique hδ hxy h9
    exact ⟨out, w', h1, h3, h4⟩
  · rw [C108_primal A _ _ δ x y hxy z]
    have := sqNorm_nonneg (A *ᵥ (z - x))
    linarith
  · rw [(C108_dual A _ _ hδ x y hxy).1 v]
    have := div_nonneg (sqNorm_nonneg (Aᵀ *ᵥ (v - y))) hδ.le
    linarith

/-- **C108** (`sps` run to the end, in its right-hand sides).  From one state of the generator or from different ones:
the results for `(b, c)` and `(b', c')` differ by at most what `C108_stable` says, and the result for
`α (b, c) + β (b', c')` is the same combination of the two. -/
theorem C108_sps_linear_stable (la : LinAlg) (R : NpRng G) (A : Matrix (Fin m) (Fin n) ℝ)
    (b b' : Fin m → ℝ) (c c' : Fin n → ℝ) {δ : ℝ} (hδ : 0 < δ) (L : ℤ)
    (hL : (n : ℤ) ≤ L) (clock : LogTimes) (a : SketchArgs) (hn : 0 < n) (hm : 0 < m)
    (hne : (n : ℝ) * eps < 1) (hsf : (n : ℤ) ≤ pyInt (a.samplingFactor * n)) (α β : ℝ) (w w' w'' : World G) :
    ∃ o o' o'' v v' v'' x y x' y', spsFn la R A (some b) (some c) δ 0 L clock a .pcg w = .ok (o, v) ∧
      spsFn la R A (some b') (some c') δ 0 L clock a .pcg w' = .ok (o', v') ∧
      spsFn la R A (some (α • b + β • b')) (some (α • c + β • c')) δ 0 L clock a .pcg w'' = .ok (o'', v'') ∧
      o.x = some x ∧ o.y = some y ∧ o'.x = some x' ∧ o'.y = some y' ∧
      o''.x = some (α • x + β • x') ∧ o''.y = some (α • y + β • y') ∧
      sqNorm (y - y') + δ * sqNorm (x - x') ≤ sqNorm (b - b') + sqNorm (c - c') / δ := by
  have key : ∀ (b : Fin m → ℝ) (c : Fin n → ℝ) (w : World G), ∃ o v x y,
      spsFn la R A (some b) (some c) δ 0 L clock a .pcg w = .ok (o, v) ∧ o.x = some x ∧ o.y = some y ∧
        SolvesSaddle A b c δ x y := by
    intro b c w
    obtain ⟨d, S, w', hd, hS, h⟩ := C58_sps_pcg_converges la R A (some b) (some c) δ 0 hδ.le le_rfl L (by omega)
      clock a w hn hm hne hsf (saddle_exists A _ _ hδ)
    obtain ⟨out, x', y', -, -, h1, h3, h4, -, -, -, -, h8⟩ := h (Or.inr hδ)
    exact ⟨out, w', x', y', h1, h3, h4, h8 hL rfl⟩
  obtain ⟨o, v, x, y, h1, h2, h3, h4⟩ := key b c w
  obtain ⟨o', v', x', y', k1, k2, k3, k4⟩ := key b' c' w'
  obtain ⟨o'', v'', x'', y'', l1, l2, l3, l4⟩ := key (α • b + β • b') (α • c + β • c') w''
  obtain ⟨rfl, rfl⟩ := saddle_unique hδ (saddle_linear h4 k4 α β) l4
  exact ⟨o, o', o'', v, v', v'', x, y, x', y', h1, k1, l1, h2, h3, k2, k3, l2, l3,
    C108_stable A b b' c c' hδ x x' y y' h4 k4⟩

/-- **C108** (`sps` run to the end, other coordinates).  Let `Q` have orthonormal columns (a permutation of the rows,
appended zero rows, any change of orthonormal coordinates) and `V` be orthogonal.  Whatever the two states, if `sps`
returns `(x, y)` for `(A, b, c)`, it returns `(V'x, Q y)` for `(Q A V, Q b, V'c)`. -/
theorem C108_sps_isometry (la : LinAlg) (R : NpRng G) (A : Matrix (Fin m) (Fin n) ℝ) {m' : ℕ}
    (Q : Matrix (Fin m') (Fin m) ℝ) (V : Matrix (Fin n) (Fin n) ℝ) (hQ : Qᵀ * Q = 1) (hV : Vᵀ * V = 1)
    (b : Fin m → ℝ) (c : Fin n → ℝ) {δ : ℝ} (hδ : 0 < δ) (L : ℤ)
    (hL : (n : ℤ) ≤ L) (clock : LogTimes) (a : SketchArgs) (hn : 0 < n) (hm : 0 < m) (hm' : 0 < m')
    (hne : (n : ℝ) * eps < 1) (hsf : (n : ℤ) ≤ pyInt (a.samplingFactor * n)) (w w' : World G) :
    ∃ o o' v v' x y, spsFn la R A (some b) (some c) δ 0 L clock a .pcg w = .ok (o, v) ∧
      spsFn la R (Q * A * V) (some (Q *ᵥ b)) (some (Vᵀ *ᵥ c)) δ 0 L clock a .pcg w' = .ok (o', v') ∧
      o.x = some x ∧ o.y = some y ∧ o'.x = some (Vᵀ *ᵥ x) ∧ o'.y = some (Q *ᵥ y) := by
  have hV' : V * Vᵀ = 1 := mul_eq_one_comm.1 hV
  obtain ⟨d, S, v, -, -, h⟩ := C58_sps_pcg_converges la R A (some b) (some c) δ 0 hδ.le le_rfl L (by omega)
    clock a w hn hm hne hsf (saddle_exists A _ _ hδ)
  obtain ⟨o, x, y, -, -, h1, h2, h3, -, -, -, -, h8⟩ := h (Or.inr hδ)
  have h9 : SolvesSaddle A b c δ x y := h8 hL rfl
  obtain ⟨d', S', v', -, -, k⟩ := C58_sps_pcg_converges la R (Q * A * V) (some (Q *ᵥ b)) (some (Vᵀ *ᵥ c)) δ 0 hδ.le
    le_rfl L (by omega) clock a w' hn hm' hne hsf (saddle_exists _ _ _ hδ)
  obtain ⟨o', x', y', -, -, k1, k2, k3, -, -, -, -, k8⟩ := k (Or.inr hδ)
  have k9 : SolvesSaddle (Q * A * V) (Q *ᵥ b) (Vᵀ *ᵥ c) δ x' y' := k8 hL rfl
  have e : SolvesSaddle (Q * A * V) (Q *ᵥ b) (Vᵀ *ᵥ c) δ (Vᵀ *ᵥ x) (Q *ᵥ y) := by
    constructor
    · rw [mulVec_mulVec, Matrix.mul_assoc, Matrix.mul_assoc, hV', Matrix.mul_one, ← mulVec_mulVec, ← mulVec_add, h9.1]
    · rw [transpose_mul, transpose_mul, mulVec_mulVec, Matrix.mul_assoc, Matrix.mul_assoc, hQ, Matrix.mul_one,
        ← mulVec_mulVec, ← mulVec_smul, ← mulVec_sub, h9.2]
  obtain ⟨rfl, rfl⟩ := saddle_unique hδ e k9
  exact ⟨o, o', v, v', x, y, h1, k1, h2, h3, k2, k3⟩

/-- **C108** (`SPS2` run to the end).  Under the hypotheses of `C40_sps2_exact` the returned `x` minimises
`|A z - b|² + δ |z|² + 2 ⟨c, z⟩`, and `y = b - A x`; for `δ = 0` the returned `y` is the point of `{v | A'v = c}`
nearest to `b`. -/
theorem C108_sps2_optimal (la : LinAlg) (gen : SkOpGen G) (sf : ℝ)
    (A : Matrix (Fin m) (Fin n) ℝ) (b : Option (Fin m → ℝ)) (c : Option (Fin n → ℝ)) (δ : ℝ)
    (hδ : 0 ≤ δ) (L : ℤ) (hL : (n : ℤ) ≤ L) (clock : LogTimes) (w : World G) (hn : n ≠ 0)
    (hmn : n ≤ m) (hsf : (n : ℤ) ≤ pyInt (sf * n))
    (hgen : ∀ d w, n ≤ d → d ≤ m → ∃ S w', gen d m w = .ok (S, w'))
    (ε : ℝ) (hε : 0 ≤ ε) (hε1 : ε < 1)
    (hS : ∀ d : ℕ, (d : ℤ) = min (pyInt (sf * n)) m → ∀ v S w', v.rng = w.rng → gen d m v = .ok (S, w') →
      Embeds S A ε ∧ WellCond (aLift (S * A) (Real.sqrt δ)))
    (hcond : n * Real.sqrt ((1 + ε) / (1 - ε)) < 10 ^ 8 - eps) :
    ∃ out w' x y, sps2Call la gen sf PcSS2 A b c δ 0 L false clock w = .ok (out, w') ∧
      out.x = some x ∧ out.y = some y ∧ y = b.getD 0 - A *ᵥ x ∧
      (∀ z, sqNorm (A *ᵥ x - b.getD 0) + δ * sqNorm x + 2 * (c.getD 0 ⬝ᵥ x) ≤
        sqNorm (A *ᵥ z - b.getD 0) + δ * sqNorm z + 2 * (c.getD 0 ⬝ᵥ z)) ∧
      (δ = 0 → Aᵀ *ᵥ y = c.getD 0 ∧ ∀ v, Aᵀ *ᵥ v = c.getD 0 → norm2 (y - b.getD 0) ≤ norm2 (v - b.getD 0)) := by
  have hc : cVec c = c.getD 0 := by cases c <;> rfl
  obtain ⟨out, w', x, y, h1, h2, h3, h4⟩ := C40_sps2_exact la gen sf A b c δ hδ L hL clock w hn hmn hsf hgen ε hε hε1
    hS hcond
  rw [hc] at h4
  refine ⟨out, w', x, y, h1, h2, h3, eq_sub_of_add_eq h4.1, fun z => ?_, ?_⟩
  · rw [C108_primal A _ _ δ x y h4 z]
    have := sqNorm_nonneg (A *ᵥ (z - x))
    have := mul_nonneg hδ (sqNorm_nonneg (z - x))
    linarith
  · rintro rfl
    obtain ⟨k1, k2⟩ := C108_dual_zero A _ _ x y h4
    exact ⟨k1, fun v hv => (k2 v hv).1⟩

/-- The hypotheses of `C108` are met by every 9 x 3 system. -/
example (A : Matrix (Fin 9) (Fin 3) ℝ) (b b' : Fin 9 → ℝ) (c c' : Fin 3 → ℝ) (g : ℕ) :
    ∃ o o' o'' v v' v'' x y x' y',
      spsFn LinAlg.ref demoRng A (some b) (some c) 2 0 3 ⟨0, 0, 0, 0, 0⟩ {} .pcg ⟨g, 0, []⟩ = .ok (o, v) ∧
      spsFn LinAlg.ref demoRng A (some b') (some c') 2 0 3 ⟨0, 0, 0, 0, 0⟩ {} .pcg ⟨g + 1, 0, []⟩ = .ok (o', v') ∧
      spsFn LinAlg.ref demoRng A (some ((1 : ℝ) • b + (-1 : ℝ) • b')) (some ((1 : ℝ) • c + (-1 : ℝ) • c')) 2 0 3
        ⟨0, 0, 0, 0, 0⟩ {} .pcg ⟨g, 0, []⟩ = .ok (o'', v'') ∧
      o.x = some x ∧ o.y = some y ∧ o'.x = some x' ∧ o'.y = some y' ∧
      o''.x = some ((1 : ℝ) • x + (-1 : ℝ) • x') ∧ o''.y = some ((1 : ℝ) • y + (-1 : ℝ) • y') ∧
      sqNorm (y - y') + 2 * sqNorm (x - x') ≤ sqNorm (b - b') + sqNorm (c - c') / 2 :=
  C108_sps_linear_stable LinAlg.ref demoRng A b b' c c' two_pos 3 (by norm_num) _ _ (by norm_num)
    (by norm_num) (by unfold eps; norm_num) (by rw [pyInt_three]; norm_num) 1 (-1) _ _ _

/-- ... also in other coordinates: the columns of a 9 x 3 matrix with their signs flipped. -/
example (A : Matrix (Fin 9) (Fin 3) ℝ) (b : Fin 9 → ℝ) (c : Fin 3 → ℝ) (g : ℕ) :
    ∃ o o' v v' x y,
      spsFn LinAlg.ref demoRng A (some b) (some c) 2 0 3 ⟨0, 0, 0, 0, 0⟩ {} .pcg ⟨g, 0, []⟩ = .ok (o, v) ∧
      spsFn LinAlg.ref demoRng ((1 : Matrix (Fin 9) (Fin 9) ℝ) * A * (-1 : Matrix (Fin 3) (Fin 3) ℝ))
        (some ((1 : Matrix (Fin 9) (Fin 9) ℝ) *ᵥ b)) (some ((-1 : Matrix (Fin 3) (Fin 3) ℝ)ᵀ *ᵥ c)) 2 0 3
        ⟨0, 0, 0, 0, 0⟩ {} .pcg ⟨g + 7, 0, []⟩ = .ok (o', v') ∧
      o.x = some x ∧ o.y = some y ∧ o'.x = some ((-1 : Matrix (Fin 3) (Fin 3) ℝ)ᵀ *ᵥ x) ∧
      o'.y = some ((1 : Matrix (Fin 9) (Fin 9) ℝ) *ᵥ y) :=
  C108_sps_isometry LinAlg.ref demoRng A 1 (-1) (by simp) (by simp) b c two_pos 3 (by norm_num) _ _ (by norm_num)
    (by norm_num) (by norm_num) (by unfold eps; norm_num) (by rw [pyInt_three]; norm_num) _ _

/-- ... and those of the general statements: a system with both right-hand sides and no regularisation. -/
example : SolvesSaddle (!![1; 1] : Matrix (Fin 2) (Fin 1) ℝ) ![3, 1] ![2] 0 ![1] ![2, 0] ∧
    ∀ v, (!![1; 1] : Matrix (Fin 2) (Fin 1) ℝ)ᵀ *ᵥ v = ![2] → norm2 (![2, 0] - ![3, 1]) ≤ norm2 (v - ![3, 1]) := by
  have h : SolvesSaddle (!![1; 1] : Matrix (Fin 2) (Fin 1) ℝ) ![3, 1] ![2] 0 ![1] ![2, 0] := by
    constructor
    · funext i; fin_cases i <;> simp [mulVec, dotProduct] <;> norm_num
    · funext i; fin_cases i; simp [mulVec, dotProduct, Fin.sum_univ_two]
  exact ⟨h, fun v hv => ((C108_dual_zero _ _ _ _ _ h).2 v hv).1⟩

end Parla.Props
