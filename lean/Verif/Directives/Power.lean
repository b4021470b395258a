import Mathlib.LinearAlgebra.Matrix.DotProduct
import Mathlib.Analysis.SpecificLimits.Normed
import Mathlib.Data.Real.Sqrt
import Mathlib.LinearAlgebra.Matrix.Notation
import Mathlib.Tactic.Ring
import Mathlib.Tactic.Linarith
import Mathlib.Tactic.FieldSimp
import Mathlib.Tactic.Positivity

/-! Model of `eigenvalue_by_power_iteration` (`simpeg/utils/mat_utils.py` 127-237). -/

namespace Verif.Directives
open Matrix

noncomputable section

variable {ι : Type} [Fintype ι]

/-- `np.linalg.norm` of a vector. -/
def nrm (x : ι → ℝ) : ℝ := Real.sqrt (x ⬝ᵥ x)

/-- A combination of objective functions at the current model: multipliers and Hessians
(`obj.deriv2(model, v)` is `A *ᵥ v`). A single objective function has the multiplier one (190). -/
abbrev Combo (ι : Type) := List (ℝ × Matrix ι ι ℝ)

/-- One power iteration (208-221): the sum over the terms, divided by its norm. `Zero` terms are
zero matrices. -/
def powStep (c : Combo ι) (x : ι → ℝ) : ι → ℝ :=
  let x1 := (c.map fun p => p.1 • (p.2 *ᵥ x)).sum
  (1 / nrm x1) • x1

/-- `eigenvalue_by_power_iteration` with `k` iterations and the random start `x0`. -/
def powerIter (c : Combo ι) (k : Nat) (x0 : ι → ℝ) : ℝ :=
  let x := (powStep c)^[k] ((1 / nrm x0) • x0)
  (c.map fun p => p.1 * (x ⬝ᵥ (p.2 *ᵥ x))).sum

namespace Props

/-! ### C93: the estimate of the largest eigenvalue -/

/-- The Hessian of the combination. -/
def hess (c : Combo ι) : Matrix ι ι ℝ := (c.map fun p => p.1 • p.2).sum

theorem hess_mulVec (c : Combo ι) (x : ι → ℝ) :
    (c.map fun p => p.1 • (p.2 *ᵥ x)).sum = hess c *ᵥ x := by
  induction c with
  | nil => simp [hess]
  | cons p c ih =>
    simp only [hess, List.map_cons, List.sum_cons, add_mulVec, smul_mulVec] at ih ⊢
    rw [ih]

theorem hess_quad (c : Combo ι) (x : ι → ℝ) :
    (c.map fun p => p.1 * (x ⬝ᵥ (p.2 *ᵥ x))).sum = x ⬝ᵥ (hess c *ᵥ x) := by
  induction c with
  | nil => simp [hess]
  | cons p c ih =>
    simp only [hess, List.map_cons, List.sum_cons, add_mulVec, smul_mulVec, dotProduct_add,
      dotProduct_smul, smul_eq_mul] at ih ⊢
    rw [ih]

theorem dotProduct_self_nonneg (x : ι → ℝ) : 0 ≤ x ⬝ᵥ x :=
  Finset.sum_nonneg fun i _ => mul_self_nonneg (x i)

theorem dot_pos {x : ι → ℝ} (h : x ≠ 0) : 0 < x ⬝ᵥ x := by
  rcases lt_or_eq_of_le (dotProduct_self_nonneg x) with h' | h'
  · exact h'
  · exact absurd (dotProduct_self_eq_zero.mp h'.symm) h

theorem nrm_pos {x : ι → ℝ} (h : x ≠ 0) : 0 < nrm x := Real.sqrt_pos.mpr (dot_pos h)

theorem nrm_sq (x : ι → ℝ) : nrm x * nrm x = x ⬝ᵥ x :=
  Real.mul_self_sqrt (dotProduct_self_nonneg x)

theorem nrm_smul {a : ℝ} (ha : 0 ≤ a) (x : ι → ℝ) : nrm (a • x) = a * nrm x := by
  unfold nrm
  rw [dotProduct_smul, smul_dotProduct, smul_eq_mul, smul_eq_mul, ← mul_assoc,
    Real.sqrt_mul (mul_self_nonneg a), Real.sqrt_mul_self ha]

variable [DecidableEq ι]

theorem iterate_eq (c : Combo ι) (x0 : ι → ℝ) : ∀ k, hess c ^ k *ᵥ x0 ≠ 0 →
    (powStep c)^[k] ((1 / nrm x0) • x0) =
      (1 / nrm (hess c ^ k *ᵥ x0)) • (hess c ^ k *ᵥ x0)
  | 0, _ => by simp
  | k + 1, h => by
    have hk : hess c ^ k *ᵥ x0 ≠ 0 := by
      intro h0; apply h; rw [pow_succ', ← mulVec_mulVec, h0, mulVec_zero]
    rw [Function.iterate_succ_apply', iterate_eq c x0 k hk]
    unfold powStep
    rw [hess_mulVec]
    dsimp only
    have hp := nrm_pos hk
    have hp' := nrm_pos h
    rw [mulVec_smul, nrm_smul (by positivity), mulVec_mulVec, ← pow_succ', smul_smul]
    congr 1
    field_simp

/-- C93. The estimate is the Rayleigh quotient of the Hessian of the combination, multipliers
included, at the start vector after `k` applications of the Hessian, if that is not zero. -/
theorem C93_rayleigh (c : Combo ι) (k : Nat) (x0 : ι → ℝ) (h : hess c ^ k *ᵥ x0 ≠ 0) :
    powerIter c k x0 =
      ((hess c ^ k *ᵥ x0) ⬝ᵥ (hess c *ᵥ (hess c ^ k *ᵥ x0))) /
        ((hess c ^ k *ᵥ x0) ⬝ᵥ (hess c ^ k *ᵥ x0)) := by
  unfold powerIter
  dsimp only
  rw [hess_quad, iterate_eq c x0 k h, mulVec_smul, dotProduct_smul, smul_dotProduct, ← nrm_sq]
  have := nrm_pos h
  simp only [smul_eq_mul]
  field_simp

/-- C93. It lies between any bounds of the Rayleigh quotient; in particular it never exceeds the
largest eigenvalue and is not negative if the Hessian is positive semidefinite. -/
theorem C93_bounds (c : Combo ι) (k : Nat) (x0 : ι → ℝ) (lo hi : ℝ)
    (hlo : ∀ v, lo * (v ⬝ᵥ v) ≤ v ⬝ᵥ (hess c *ᵥ v))
    (hhi : ∀ v, v ⬝ᵥ (hess c *ᵥ v) ≤ hi * (v ⬝ᵥ v)) (h : hess c ^ k *ᵥ x0 ≠ 0) :
    lo ≤ powerIter c k x0 ∧ powerIter c k x0 ≤ hi := by
  rw [C93_rayleigh c k x0 h]
  have := dot_pos h
  exact ⟨by rw [le_div_iff₀ this]; exact hlo _, by rw [div_le_iff₀ this]; exact hhi _⟩

theorem symm_dot {H : Matrix ι ι ℝ} (hs : Hᵀ = H) (x y : ι → ℝ) :
    (H *ᵥ x) ⬝ᵥ y = x ⬝ᵥ (H *ᵥ y) := by
  conv_lhs => rw [← hs]
  rw [mulVec_transpose, dotProduct_mulVec]

/-- The Rayleigh quotient of a positive semidefinite matrix does not decrease when the matrix is
applied to the vector. -/
theorem rayleigh_mono {H : Matrix ι ι ℝ} (hs : Hᵀ = H) (hp : ∀ v, 0 ≤ v ⬝ᵥ (H *ᵥ v))
    (y : ι → ℝ) (hy : y ≠ 0) (hHy : H *ᵥ y ≠ 0) :
    (y ⬝ᵥ (H *ᵥ y)) / (y ⬝ᵥ y) ≤
      ((H *ᵥ y) ⬝ᵥ (H *ᵥ (H *ᵥ y))) / ((H *ᵥ y) ⬝ᵥ (H *ᵥ y)) := by
  have p0 := dot_pos hy
  have p2 := dot_pos hHy
  -- moments m0, m1, m2, m3; m1² ≤ m0 m2 and, for the form of H, m2² ≤ m1 m3
  set m0 := y ⬝ᵥ y
  set m1 := y ⬝ᵥ (H *ᵥ y)
  set m2 := (H *ᵥ y) ⬝ᵥ (H *ᵥ y)
  set m3 := (H *ᵥ y) ⬝ᵥ (H *ᵥ (H *ᵥ y))
  have q1 : ∀ t : ℝ, 0 ≤ m2 - 2 * t * m1 + t * t * m0 := by
    intro t
    have := dotProduct_self_nonneg (H *ᵥ y - t • y)
    simp only [sub_dotProduct, dotProduct_sub, smul_dotProduct, dotProduct_smul, smul_eq_mul] at this
    rw [dotProduct_comm (H *ᵥ y) y] at this
    linarith
  have q2 : ∀ t : ℝ, 0 ≤ m3 - 2 * t * m2 + t * t * m1 := by
    intro t
    have := hp (H *ᵥ y - t • y)
    simp only [mulVec_sub, mulVec_smul, sub_dotProduct, dotProduct_sub, smul_dotProduct,
      dotProduct_smul, smul_eq_mul] at this
    rw [← symm_dot hs y (H *ᵥ y)] at this
    linarith
  have h1 := q1 (m1 / m0)
  have h2 := q2 (m1 / m0)
  have m1n : 0 ≤ m1 := hp y
  set r := m1 / m0
  have hr : r * m0 = m1 := by simp only [r]; field_simp
  have rn : 0 ≤ r := by positivity
  rw [le_div_iff₀ p2]
  have e1 : 0 ≤ m2 - r * m1 := by nlinarith [h1]
  nlinarith [mul_nonneg rn e1]

/-- The square of the norm grows in one step at most by the square of the next quotient. -/
theorem growth {H : Matrix ι ι ℝ} (hs : Hᵀ = H) (hp : ∀ v, 0 ≤ v ⬝ᵥ (H *ᵥ v))
    (y : ι → ℝ) (hHy : H *ᵥ y ≠ 0) :
    (H *ᵥ y) ⬝ᵥ (H *ᵥ y) ≤
      (((H *ᵥ y) ⬝ᵥ (H *ᵥ (H *ᵥ y))) / ((H *ᵥ y) ⬝ᵥ (H *ᵥ y))) ^ 2 * (y ⬝ᵥ y) := by
  have p2 := dot_pos hHy
  have p0 := dotProduct_self_nonneg y
  set m0 := y ⬝ᵥ y
  set m1 := y ⬝ᵥ (H *ᵥ y)
  set m2 := (H *ᵥ y) ⬝ᵥ (H *ᵥ y)
  set m3 := (H *ᵥ y) ⬝ᵥ (H *ᵥ (H *ᵥ y))
  have q1 : ∀ t : ℝ, 0 ≤ m0 - 2 * t * m1 + t * t * m2 := by
    intro t
    have := dotProduct_self_nonneg (y - t • (H *ᵥ y))
    simp only [sub_dotProduct, dotProduct_sub, smul_dotProduct, dotProduct_smul, smul_eq_mul] at this
    rw [dotProduct_comm (H *ᵥ y) y] at this
    linarith
  have q2 : ∀ t : ℝ, 0 ≤ m3 - 2 * t * m2 + t * t * m1 := by
    intro t
    have := hp (H *ᵥ y - t • y)
    simp only [mulVec_sub, mulVec_smul, sub_dotProduct, dotProduct_sub, smul_dotProduct,
      dotProduct_smul, smul_eq_mul] at this
    rw [← symm_dot hs y (H *ᵥ y)] at this
    linarith
  have m1n : 0 ≤ m1 := hp y
  have m3n : 0 ≤ m3 := hp (H *ᵥ y)
  have m1p : 0 < m1 := by
    rcases lt_or_eq_of_le m1n with h | h
    · exact h
    · exfalso
      have := q2 ((m3 + 1) / m2)
      rw [← h] at this
      have e : 2 * ((m3 + 1) / m2) * m2 = 2 * (m3 + 1) := by field_simp
      rw [e] at this
      linarith
  set r := m3 / m2
  have hr : r * m2 = m3 := by simp only [r]; field_simp
  have rn : 0 ≤ r := by positivity
  have h2 : m2 ≤ r * m1 := by
    have := q2 (m2 / m1)
    have e : m2 / m1 * m1 = m2 := by field_simp
    have e1 : m3 - 2 * (m2 / m1) * m2 + m2 / m1 * (m2 / m1) * m1 = m3 - (m2 / m1) * m2 := by
      rw [mul_assoc (m2 / m1) (m2 / m1) m1, e]; ring
    rw [e1, ← hr] at this
    have h3 : m2 / m1 * m2 ≤ r * m2 := by linarith
    have h4 : m2 / m1 ≤ r := le_of_mul_le_mul_right h3 p2
    rw [div_le_iff₀ m1p] at h4
    exact h4
  have h1 : m1 ≤ r * m0 := by
    have := q1 (m1 / m2)
    have e : m1 / m2 * m2 = m1 := by field_simp
    have e1 : m0 - 2 * (m1 / m2) * m1 + m1 / m2 * (m1 / m2) * m2 = m0 - (m1 / m2) * m1 := by
      rw [mul_assoc (m1 / m2) (m1 / m2) m2, e]; ring
    rw [e1] at this
    have h3 : m1 * m1 ≤ m0 * m2 := by
      have h5 : m1 / m2 * m1 * m2 = m1 * m1 := by field_simp
      nlinarith [mul_nonneg this p2.le]
    have h4 : m1 * m1 ≤ (r * m0) * m1 := by nlinarith
    exact le_of_mul_le_mul_right h4 m1p
  nlinarith [mul_le_mul_of_nonneg_left h1 rn]

/-- C93. For a positive semidefinite Hessian, more iterations never make the estimate worse: it
grows towards the largest eigenvalue. -/
theorem C93_monotone (c : Combo ι) (x0 : ι → ℝ) (hs : (hess c)ᵀ = hess c)
    (hp : ∀ v, 0 ≤ v ⬝ᵥ (hess c *ᵥ v)) (k : Nat) (h : hess c ^ (k + 1) *ᵥ x0 ≠ 0) :
    powerIter c k x0 ≤ powerIter c (k + 1) x0 := by
  have hk : hess c ^ k *ᵥ x0 ≠ 0 := by
    intro h0; apply h; rw [pow_succ', ← mulVec_mulVec, h0, mulVec_zero]
  rw [C93_rayleigh c k x0 hk, C93_rayleigh c (k + 1) x0 h, pow_succ', ← mulVec_mulVec]
  exact rayleigh_mono hs hp _ hk (by rw [mulVec_mulVec, ← pow_succ']; exact h)

/-- C93. Multiplying the combination by a positive number multiplies the estimate by it. -/
theorem C93_scale (c : Combo ι) (a : ℝ) (ha : 0 < a) (k : Nat) (x0 : ι → ℝ)
    (h : hess c ^ k *ᵥ x0 ≠ 0) :
    powerIter (c.map fun p => (a * p.1, p.2)) k x0 = a * powerIter c k x0 := by
  have hh : hess (c.map fun p => (a * p.1, p.2)) = a • hess c := by
    unfold hess
    rw [List.map_map, List.smul_sum, List.map_map]
    congr 1
    apply List.map_congr_left
    intro p _
    simp [smul_smul]
  have hk : hess (c.map fun p => (a * p.1, p.2)) ^ k *ᵥ x0 = a ^ k • (hess c ^ k *ᵥ x0) := by
    rw [hh, smul_pow, smul_mulVec]
  have hak : a ^ k ≠ 0 := (pow_pos ha k).ne'
  rw [C93_rayleigh _ k x0 (by rw [hk]; exact smul_ne_zero hak h), C93_rayleigh c k x0 h, hk, hh]
  simp only [smul_mulVec, mulVec_smul, dotProduct_smul, smul_dotProduct, smul_eq_mul]
  have := (dot_pos h).ne'
  field_simp

theorem mono_le (c : Combo ι) (x0 : ι → ℝ) (hs : (hess c)ᵀ = hess c)
    (hp : ∀ v, 0 ≤ v ⬝ᵥ (hess c *ᵥ v)) (hne : ∀ k, hess c ^ k *ᵥ x0 ≠ 0) :
    Monotone fun k => powerIter c k x0 :=
  monotone_nat_of_le_succ fun k => C93_monotone c x0 hs hp k (hne (k + 1))

theorem est_nonneg (c : Combo ι) (k : Nat) (x0 : ι → ℝ) (hp : ∀ v, 0 ≤ v ⬝ᵥ (hess c *ᵥ v))
    (h : hess c ^ k *ᵥ x0 ≠ 0) : 0 ≤ powerIter c k x0 := by
  rw [C93_rayleigh c k x0 h]
  exact div_nonneg (hp _) (dot_pos h).le

theorem norm_growth (c : Combo ι) (x0 : ι → ℝ) (hs : (hess c)ᵀ = hess c)
    (hp : ∀ v, 0 ≤ v ⬝ᵥ (hess c *ᵥ v)) (hne : ∀ k, hess c ^ k *ᵥ x0 ≠ 0) (n : Nat) :
    ∀ k, k ≤ n → (hess c ^ k *ᵥ x0) ⬝ᵥ (hess c ^ k *ᵥ x0) ≤
      powerIter c n x0 ^ (2 * k) * (x0 ⬝ᵥ x0)
  | 0, _ => by simp
  | k + 1, hk => by
    have ih := norm_growth c x0 hs hp hne n k (by omega)
    have g := growth hs hp (hess c ^ k *ᵥ x0) (by rw [mulVec_mulVec, ← pow_succ']; exact hne _)
    rw [mulVec_mulVec, ← pow_succ'] at g
    rw [← C93_rayleigh c (k + 1) x0 (hne _)] at g
    have hm := mono_le c x0 hs hp hne hk
    dsimp only at hm
    have h0 := est_nonneg c (k + 1) x0 hp (hne _)
    have hsq : powerIter c (k + 1) x0 ^ 2 ≤ powerIter c n x0 ^ 2 := by
      exact pow_le_pow_left₀ h0 hm 2
    calc _ ≤ _ := g
      _ ≤ powerIter c n x0 ^ 2 * ((hess c ^ k *ᵥ x0) ⬝ᵥ (hess c ^ k *ᵥ x0)) :=
        mul_le_mul_of_nonneg_right hsq (dotProduct_self_nonneg _)
      _ ≤ powerIter c n x0 ^ 2 * (powerIter c n x0 ^ (2 * k) * (x0 ⬝ᵥ x0)) :=
        mul_le_mul_of_nonneg_left ih (sq_nonneg _)
      _ = _ := by rw [← mul_assoc, ← pow_add]; congr 2; ring

theorem cauchy (x y : ι → ℝ) : (x ⬝ᵥ y) ^ 2 ≤ (x ⬝ᵥ x) * (y ⬝ᵥ y) := by
  simp only [dotProduct]
  have := Finset.sum_mul_sq_le_sq_mul_sq Finset.univ x y
  simpa only [pow_two] using this

theorem pow_eig {H : Matrix ι ι ℝ} {e : ι → ℝ} {l : ℝ} (he : H *ᵥ e = l • e) :
    ∀ k : Nat, H ^ k *ᵥ e = l ^ k • e
  | 0 => by simp
  | k + 1 => by rw [pow_succ', ← mulVec_mulVec, pow_eig he k, mulVec_smul, he, smul_smul, pow_succ]

theorem pow_symm {H : Matrix ι ι ℝ} (hs : Hᵀ = H) (k : Nat) : (H ^ k)ᵀ = H ^ k := by
  rw [transpose_pow, hs]

theorem ne_of_overlap {H : Matrix ι ι ℝ} (hs : Hᵀ = H) {e x0 : ι → ℝ} {l : ℝ}
    (he : H *ᵥ e = l • e) (hl : l ≠ 0) (hov : x0 ⬝ᵥ e ≠ 0) (k : Nat) : H ^ k *ᵥ x0 ≠ 0 := by
  intro h
  have := symm_dot (pow_symm hs k) x0 e
  rw [h, zero_dotProduct, pow_eig he, dotProduct_smul, smul_eq_mul] at this
  rcases mul_eq_zero.mp this.symm with h' | h'
  · exact hl (pow_eq_zero_iff_of_pos_nat h')
  · exact hov h'
where
  pow_eq_zero_iff_of_pos_nat {l : ℝ} {k : Nat} (h : l ^ k = 0) : l = 0 := by
    by_contra hl
    exact pow_ne_zero k hl h

/-- C93. How good the estimate is: for a positive semidefinite Hessian with an eigenvector `e` of
eigenvalue `l > 0` that the start vector is not orthogonal to, the estimate after `k` iterations
is at least `l` times the `k`-th root of the cosine between the two. -/
theorem C93_accuracy (c : Combo ι) (x0 e : ι → ℝ) (l : ℝ) (hs : (hess c)ᵀ = hess c)
    (hp : ∀ v, 0 ≤ v ⬝ᵥ (hess c *ᵥ v)) (hl : 0 < l) (he : hess c *ᵥ e = l • e)
    (hov : x0 ⬝ᵥ e ≠ 0) (k : Nat) :
    l ^ (2 * k) * (x0 ⬝ᵥ e) ^ 2 ≤ powerIter c k x0 ^ (2 * k) * ((x0 ⬝ᵥ x0) * (e ⬝ᵥ e)) := by
  have hne := ne_of_overlap hs he hl.ne' hov
  have h1 := norm_growth c x0 hs hp hne k k le_rfl
  have h2 := cauchy (hess c ^ k *ᵥ x0) e
  rw [symm_dot (pow_symm hs k), pow_eig he, dotProduct_smul, smul_eq_mul, mul_pow, ← pow_mul,
    mul_comm k 2] at h2
  calc _ ≤ _ := h2
    _ ≤ powerIter c k x0 ^ (2 * k) * (x0 ⬝ᵥ x0) * (e ⬝ᵥ e) :=
      mul_le_mul_of_nonneg_right h1 (dotProduct_self_nonneg _)
    _ = _ := by ring

/-- C93. With more and more iterations the estimate tends to the largest eigenvalue. -/
theorem C93_limit (c : Combo ι) (x0 e : ι → ℝ) (l : ℝ) (hs : (hess c)ᵀ = hess c)
    (hp : ∀ v, 0 ≤ v ⬝ᵥ (hess c *ᵥ v)) (hmax : ∀ v, v ⬝ᵥ (hess c *ᵥ v) ≤ l * (v ⬝ᵥ v))
    (hl : 0 < l) (he : hess c *ᵥ e = l • e) (hov : x0 ⬝ᵥ e ≠ 0) :
    Filter.Tendsto (fun k => powerIter c k x0) Filter.atTop (nhds l) := by
  have hne := ne_of_overlap hs he hl.ne' hov
  have hmono := mono_le c x0 hs hp hne
  have hle : ∀ k, powerIter c k x0 ≤ l := fun k =>
    (C93_bounds c k x0 0 l (by simpa using hp) hmax (hne k)).2
  have hbdd : BddAbove (Set.range fun k => powerIter c k x0) := ⟨l, by rintro _ ⟨k, rfl⟩; exact hle k⟩
  have ht := tendsto_atTop_ciSup hmono hbdd
  set L := ⨆ k, powerIter c k x0
  have hLl : L ≤ l := ciSup_le hle
  have hkL : ∀ k, powerIter c k x0 ≤ L := fun k => le_ciSup hbdd k
  rcases lt_or_eq_of_le hLl with hlt | heq
  · exfalso
    have h0 : 0 ≤ L := (est_nonneg c 0 x0 hp (hne 0)).trans (hkL 0)
    have hb : ∀ k : Nat, (x0 ⬝ᵥ e) ^ 2 ≤ ((L / l) ^ 2) ^ k * ((x0 ⬝ᵥ x0) * (e ⬝ᵥ e)) := by
      intro k
      have h1 := C93_accuracy c x0 e l hs hp hl he hov k
      have h2 : powerIter c k x0 ^ (2 * k) ≤ L ^ (2 * k) :=
        pow_le_pow_left₀ (est_nonneg c k x0 hp (hne k)) (hkL k) _
      have h3 := h1.trans (mul_le_mul_of_nonneg_right h2
        (mul_nonneg (dotProduct_self_nonneg x0) (dotProduct_self_nonneg e)))
      have h4 : 0 < l ^ (2 * k) := by positivity
      rw [← pow_mul, div_pow, div_mul_eq_mul_div, le_div_iff₀ h4]
      linarith
    have hr : (L / l) ^ 2 < 1 := by
      rw [div_pow, div_lt_one (by positivity)]
      exact pow_lt_pow_left₀ hlt h0 (by norm_num)
    have htz := (tendsto_pow_atTop_nhds_zero_of_lt_one (by positivity) hr).mul_const
      ((x0 ⬝ᵥ x0) * (e ⬝ᵥ e))
    rw [zero_mul] at htz
    have := ge_of_tendsto' htz hb
    have hpos : 0 < (x0 ⬝ᵥ e) ^ 2 := by positivity
    linarith
  · rw [← heq]; exact ht

/-- Two terms, one with the multiplier 2; the start is not an eigenvector and the largest
eigenvalue is 6. -/
example :
    let c : Combo (Fin 2) := [(2, !![3, 0; 0, 1]), (1, !![0, 0; 0, 1])]
    (hess c)ᵀ = hess c ∧ (∀ v, 0 ≤ v ⬝ᵥ (hess c *ᵥ v)) ∧
    (∀ v, v ⬝ᵥ (hess c *ᵥ v) ≤ 6 * (v ⬝ᵥ v)) ∧ hess c *ᵥ ![1, 0] = (6 : ℝ) • ![1, 0] ∧
    (![1, 1] : Fin 2 → ℝ) ⬝ᵥ ![1, 0] ≠ 0 := by
  have hh : hess ([(2, !![3, 0; 0, 1]), (1, !![0, 0; 0, 1])] : Combo (Fin 2)) =
      !![6, 0; 0, 3] := by
    ext i j
    fin_cases i <;> fin_cases j <;> norm_num [hess]
  dsimp only
  rw [hh]
  refine ⟨?_, ?_, ?_, ?_, ?_⟩
  · ext i j; fin_cases i <;> fin_cases j <;> rfl
  · intro v
    simp only [dotProduct, mulVec, Fin.sum_univ_two, Matrix.of_apply, cons_val_zero, cons_val_one]
    nlinarith [mul_self_nonneg (v 0), mul_self_nonneg (v 1)]
  · intro v
    simp only [dotProduct, mulVec, Fin.sum_univ_two, Matrix.of_apply, cons_val_zero, cons_val_one]
    nlinarith [mul_self_nonneg (v 0), mul_self_nonneg (v 1)]
  · ext i; fin_cases i <;> norm_num [mulVec, dotProduct, Fin.sum_univ_two]
  · norm_num [dotProduct, Fin.sum_univ_two]

end Props
end
end Verif.Directives
