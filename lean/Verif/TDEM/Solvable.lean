import Verif.TDEM.Laws

/-!
C72: the systems which the time domain simulations solve have exactly one solution, for positive time
steps and physical properties; so do the DC problems of grounded sources.
-/

namespace Verif.TDEM.Props
open Matrix Verif.EM Verif.EM.Props Verif.TDEM

noncomputable section

variable {p s ν c ε φ n : Type} [Fintype p] [Fintype s] [Fintype ν] [Fintype c] [Fintype ε] [Fintype φ]
  [Fintype n] [DecidableEq ν] [DecidableEq c] [DecidableEq ε] [DecidableEq φ] [DecidableEq n]

set_option linter.unusedSectionVars false

/-- The quadratic form of a matrix is positive. -/
def Pos (A : Matrix n n ℝ) : Prop := ∀ v : n → ℝ, v ≠ 0 → 0 < v ⬝ᵥ (A *ᵥ v)

/-- The quadratic form of a matrix is not negative. -/
def NonNeg (A : Matrix n n ℝ) : Prop := ∀ v : n → ℝ, 0 ≤ v ⬝ᵥ (A *ᵥ v)

theorem Pos.nonNeg {A : Matrix n n ℝ} (h : Pos A) : NonNeg A := by
  intro v
  by_cases hv : v = 0
  · simp [hv]
  · exact (h v hv).le

theorem Pos.det_ne {A : Matrix n n ℝ} (h : Pos A) : A.det ≠ 0 := by
  intro h0
  obtain ⟨v, hv, h1⟩ := Matrix.exists_mulVec_eq_zero_iff.2 h0
  have := h v hv
  rw [h1, dotProduct_zero] at this
  exact lt_irrefl _ this

theorem dot_sandwich (B : Matrix φ ε ℝ) (M : Matrix φ φ ℝ) (v : ε → ℝ) :
    v ⬝ᵥ (Bᵀ *ᵥ (M *ᵥ (B *ᵥ v))) = (B *ᵥ v) ⬝ᵥ (M *ᵥ (B *ᵥ v)) := by
  rw [Matrix.dotProduct_mulVec _ Bᵀ, Matrix.vecMul_transpose]

/-- A diagonal mass matrix with positive entries, and its inverse, have positive quadratic forms. -/
theorem mass_pos {M : Mass p s ε} {m : p → ℝ} (hi : GoodInv M m) (hp : ∀ i, 0 < M.mat ℝ m i i) :
    Pos (M.mat ℝ m) ∧ Pos (M.inv ℝ m) := by
  have hd : M.mat ℝ m = Matrix.diagonal fun i => M.mat ℝ m i i := by
    ext i j
    by_cases hij : i = j
    · subst hij; simp
    · rw [Matrix.diagonal_apply_ne _ hij]
      have := hi.diag
      simp [Mass.mat, PDE.Inner.mat, this i j _ hij]
  have hq : ∀ d : ε → ℝ, (∀ i, 0 < d i) → Pos (Matrix.diagonal d) := by
    intro d hd v hv
    have e : v ⬝ᵥ (Matrix.diagonal d *ᵥ v) = ∑ i, d i * v i ^ 2 := by
      simp only [dotProduct, Matrix.mulVec_diagonal]
      exact Finset.sum_congr rfl fun i _ => by ring
    rw [e]
    obtain ⟨i, hvi⟩ := Function.ne_iff.1 hv
    exact Finset.sum_pos' (fun j _ => mul_nonneg (hd j).le (sq_nonneg _))
      ⟨i, Finset.mem_univ _, mul_pos (hd i) (sq_pos_of_ne_zero hvi)⟩
  have h1 : Pos (M.mat ℝ m) := by rw [hd]; exact hq _ hp
  refine ⟨h1, ?_⟩
  have h2 : M.inv ℝ m = Matrix.diagonal fun i => (M.mat ℝ m i i)⁻¹ := by
    have h3 : M.mat ℝ m * Matrix.diagonal (fun i => (M.mat ℝ m i i)⁻¹) = 1 := by
      rw [hd, Matrix.diagonal_mul_diagonal, ← Matrix.diagonal_one]
      congr 1
      funext i
      rw [Matrix.diagonal_apply_eq]
      exact mul_inv_cancel₀ (hp i).ne'
    calc M.inv ℝ m = M.inv ℝ m * (M.mat ℝ m * Matrix.diagonal (fun i => (M.mat ℝ m i i)⁻¹)) := by
          rw [h3, mul_one]
      _ = _ := by rw [← mul_assoc, EM.Props.inv_mul hi, one_mul]
  rw [h2]
  exact hq _ fun i => inv_pos.2 (hp i)

/-- **C72, electric field.** For positive conductivity and time steps, and a permeability which is not
negative, every time step can be solved. -/
theorem C72_solvable_electric_field (o : EB p s ν ε φ) (m : p → ℝ) (hs : Pos (o.sigma.mat ℝ m))
    (hmu : NonNeg o.mui) {dt : ℝ} (hdt : 0 < dt) : (o.eA dt m).det ≠ 0 := by
  apply Pos.det_ne
  intro v hv
  rw [EB.eA, Matrix.add_mulVec, dotProduct_add, ← Matrix.mulVec_mulVec, ← Matrix.mulVec_mulVec,
    dot_sandwich, Matrix.smul_mulVec, dotProduct_smul, smul_eq_mul]
  exact add_pos_of_nonneg_of_pos (hmu _) (mul_pos (by positivity) (hs v hv))

/-- **C72, electric field.** The DC problem of a grounded source can be solved on a connected mesh: one
on which a potential whose gradient is zero, and which is zero at one node, is zero. -/
theorem C72_solvable_dc_electric_field (o : EB p s ν ε φ) (m : p → ℝ) (hs : Pos (o.sigma.mat ℝ m))
    (hG : ∀ u : ν → ℝ, o.G *ᵥ u = 0 → u o.node0 = 0 → u = 0) : (o.adc m).det ≠ 0 := by
  apply Pos.det_ne
  intro v hv
  have e : v ⬝ᵥ (Matrix.single o.node0 o.node0 (1 : ℝ) *ᵥ v) = v o.node0 ^ 2 := by
    rw [Matrix.single_mulVec, one_mul]
    exact (dotProduct_single v (v o.node0) o.node0).trans (sq _).symm
  rw [EB.adc, Matrix.add_mulVec, dotProduct_add, e, Matrix.mul_assoc, ← Matrix.mulVec_mulVec,
    ← Matrix.mulVec_mulVec, dot_sandwich]
  by_cases h0 : o.G *ᵥ v = 0
  · have h1 : v o.node0 ≠ 0 := fun h => hv (hG v h0 h)
    rw [h0, zero_dotProduct, zero_add]
    positivity
  · exact add_pos_of_pos_of_nonneg (hs _ h0) (sq_nonneg _)

/-- **C72, magnetic flux density.** -/
theorem C72_solvable_magnetic_flux_density (o : EB p s ν ε φ) (m : p → ℝ)
    (hs : NonNeg (o.sigma.inv ℝ m)) (hms : o.muiᵀ = o.mui) (hmu : Pos o.mui) {dt : ℝ} (hdt : 0 < dt) :
    (o.bA dt m).det ≠ 0 := by
  apply Pos.det_ne
  intro v hv
  have e : o.bA dt m *ᵥ v = (1 / dt) • (o.mui *ᵥ v) +
      (o.Cᵀ * o.mui)ᵀ *ᵥ (o.sigma.inv ℝ m *ᵥ ((o.Cᵀ * o.mui) *ᵥ v)) := by
    rw [EB.bA, hms, Matrix.transpose_mul, hms, Matrix.transpose_transpose, mul_add, Matrix.add_mulVec,
      Matrix.mul_smul, mul_one, Matrix.smul_mulVec]
    simp only [← Matrix.mulVec_mulVec]
  rw [e, dotProduct_add, dotProduct_smul, smul_eq_mul, dot_sandwich]
  exact add_pos_of_pos_of_nonneg (mul_pos (by positivity) (hmu v hv)) (hs _)

/-- **C72, magnetic field.** -/
theorem C72_solvable_magnetic_field (o : HJ p s c ε φ) (m : p → ℝ) (hr : NonNeg (o.rho.mat ℝ m))
    (hmu : Pos o.mu) {dt : ℝ} (hdt : 0 < dt) : (o.hA dt m).det ≠ 0 := by
  apply Pos.det_ne
  intro v hv
  rw [HJ.hA, Matrix.add_mulVec, dotProduct_add, ← Matrix.mulVec_mulVec, ← Matrix.mulVec_mulVec,
    dot_sandwich, Matrix.smul_mulVec, dotProduct_smul, smul_eq_mul]
  exact add_pos_of_nonneg_of_pos (hr _) (mul_pos (by positivity) (hmu v hv))

/-- **C72, current density.** -/
theorem C72_solvable_current_density (o : HJ p s c ε φ) (m : p → ℝ) (hr : Pos (o.rho.mat ℝ m))
    (hrs : (o.rho.mat ℝ m)ᵀ = o.rho.mat ℝ m) (hmu : NonNeg o.muI) {dt : ℝ} (hdt : 0 < dt) :
    (o.jA dt m).det ≠ 0 := by
  apply Pos.det_ne
  intro v hv
  have e : o.jA dt m *ᵥ v = (1 / dt) • (o.rho.mat ℝ m *ᵥ v) +
      (o.Cᵀ * o.rho.mat ℝ m)ᵀ *ᵥ (o.muI *ᵥ ((o.Cᵀ * o.rho.mat ℝ m) *ᵥ v)) := by
    rw [HJ.jA, hrs, Matrix.transpose_mul, hrs, Matrix.transpose_transpose, mul_add, Matrix.add_mulVec,
      Matrix.mul_smul, mul_one, Matrix.smul_mulVec, add_comm]
    simp only [← Matrix.mulVec_mulVec]
  rw [e, dotProduct_add, dotProduct_smul, smul_eq_mul, dot_sandwich]
  exact add_pos_of_pos_of_nonneg (mul_pos (by positivity) (hr v hv)) (hmu _)

/-- **C72, current density.** The DC problem of a grounded source can be solved when only the zero
potential has no gradient, as with the potential zero outside of the mesh. -/
theorem C72_solvable_dc_current_density (o : HJ p s c ε φ) (m : p → ℝ) (hr : Pos (o.rho.inv ℝ m))
    (hD : ∀ u : c → ℝ, o.Dᵀ *ᵥ u = 0 → u = 0) : (o.adc m).det ≠ 0 := by
  apply Pos.det_ne
  intro v hv
  have e := dot_sandwich o.Dᵀ (o.rho.inv ℝ m) v
  rw [Matrix.transpose_transpose] at e
  rw [HJ.adc, Matrix.mul_assoc, ← Matrix.mulVec_mulVec, ← Matrix.mulVec_mulVec, e]
  exact hr _ fun h => hv (hD v h)

end

end Verif.TDEM.Props
