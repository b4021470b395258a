import Verif.JacobianK

/-!
More rules for Jacobians of functions of a real model with values in `ℝ` or `ℂ`: products of a matrix
and a vector which both depend on the model, and linear systems given by their residual.
-/

namespace Verif
open Matrix

variable {𝕜 : Type} [RCLike 𝕜]
variable {ι κ μ n : Type} [Fintype ι] [Fintype κ] [Fintype μ] [Fintype n] [DecidableEq n]

set_option linter.unusedSectionVars false

/-- Every differentiable function has a Jacobian. -/
theorem exists_isJacK {f : (ι → ℝ) → (κ → 𝕜)} {m : ι → ℝ}
    (hf : ∀ k, DifferentiableAt ℝ (fun y => f y k) m) : ∃ J : Matrix κ ι 𝕜, IsJacK f J m := by
  classical
  have h : HasFDerivAt f (fderiv ℝ f m) m := (differentiableAt_pi.2 hf).hasFDerivAt
  refine ⟨fun k i => fderiv ℝ f m (Pi.single i 1) k, HasFDerivAt.congr_fderiv h ?_⟩
  ext v k
  have hv : v = ∑ i, v i • Pi.single (M := fun _ => ℝ) i 1 := by
    funext j
    simp [Finset.sum_apply, Pi.single_apply]
  conv_lhs => rw [hv, map_sum]
  simp only [map_smul, Finset.sum_apply, Pi.smul_apply, mulVecK_apply, Matrix.mulVec, dotProduct,
    castV_apply]
  refine Finset.sum_congr rfl fun i _ => ?_
  rw [RCLike.real_smul_eq_coe_mul, mul_comm, castV_apply]

theorem IsJacK.differentiableAt {f : (ι → ℝ) → (κ → 𝕜)} {A : Matrix κ ι 𝕜} {m : ι → ℝ}
    (h : IsJacK f A m) (k : κ) : DifferentiableAt ℝ (fun y => f y k) m :=
  ((isJacK_iff.1 h) k).differentiableAt

/-- A matrix depending on the model times a function which vanishes at `m`: only the function is
differentiated. -/
theorem IsJacK.matMul_zero {M : (ι → ℝ) → Matrix μ κ 𝕜} {g : (ι → ℝ) → (κ → 𝕜)}
    {G : Matrix κ ι 𝕜} {m : ι → ℝ} (hM : ∀ i k, DifferentiableAt ℝ (fun y => M y i k) m)
    (hg : IsJacK g G m) (h0 : g m = 0) : IsJacK (fun y => M y *ᵥ g y) (M m * G) m := by
  rw [isJacK_iff] at hg ⊢
  intro i
  have h1 : HasFDerivAt (fun y => ∑ k, M y i k * g y k) _ m :=
    HasFDerivAt.fun_sum (u := Finset.univ) fun k _ => ((hM i k).hasFDerivAt).mul (hg k)
  refine h1.congr_fderiv ?_
  ext v
  simp [← Matrix.mulVec_mulVec, Matrix.mulVec, dotProduct, h0]

/-- Product rule for a matrix and a vector which both depend on the model. -/
theorem IsJacK.matMul {M : (ι → ℝ) → Matrix μ κ 𝕜} {g : (ι → ℝ) → (κ → 𝕜)}
    {G : Matrix κ ι 𝕜} {dM : Matrix μ ι 𝕜} {m : ι → ℝ}
    (hM : ∀ i k, DifferentiableAt ℝ (fun y => M y i k) m)
    (hd : IsJacK (fun y => M y *ᵥ g m) dM m) (hg : IsJacK g G m) :
    IsJacK (fun y => M y *ᵥ g y) (dM + M m * G) m := by
  have hg' : IsJacK (fun y => g y - g m) G m := by
    simpa using hg.sub (isJacK_const (g m) m)
  have h := hd.add (IsJacK.matMul_zero hM hg' (sub_self _))
  refine IsJacK.congr h (Filter.Eventually.of_forall fun y => ?_)
  rw [Matrix.mulVec_sub]; abel

/-- The solution of `A(m) u = q(m)` has the Jacobian `A⁻¹ R`, where `R` is the derivative of the
residual `q − A u` with `u` frozen at the solution. -/
theorem isJacK_solve_residual {A : (ι → ℝ) → Matrix n n 𝕜} {q : (ι → ℝ) → (n → 𝕜)} {m : ι → ℝ}
    {R : Matrix n ι 𝕜}
    (hA : ∀ i j, DifferentiableAt ℝ (fun y => A y i j) m) (h0 : (A m).det ≠ 0)
    (hR : IsJacK (fun y => q y - A y *ᵥ ((A m)⁻¹ *ᵥ q m)) R m) :
    IsJacK (fun y => (A y)⁻¹ *ᵥ q y) ((A m)⁻¹ * R) m := by
  have hAu : ∀ i, DifferentiableAt ℝ (fun y => (A y *ᵥ ((A m)⁻¹ *ᵥ q m)) i) m := by
    intro i
    simp only [Matrix.mulVec, dotProduct]
    exact DifferentiableAt.fun_sum fun j _ => (hA i j).mul (differentiableAt_const _)
  obtain ⟨dA, hdA⟩ := exists_isJacK hAu
  have hq : IsJacK q (R + dA) m := by
    refine IsJacK.congr (hR.add hdA) (Filter.Eventually.of_forall fun y => ?_)
    simp
  have := isJacK_solve (A := A) (q := q) hA h0 hdA hq
  simpa using this

/-- The solution solves the system. -/
theorem mulVec_solve {A : Matrix n n 𝕜} (h0 : A.det ≠ 0) (q : n → 𝕜) : A *ᵥ (A⁻¹ *ᵥ q) = q := by
  rw [Matrix.mulVec_mulVec, Matrix.mul_nonsing_inv _ (isUnit_iff_ne_zero.2 h0), Matrix.one_mulVec]

/-- The solution is the only one. -/
theorem solve_unique {A : Matrix n n 𝕜} (h0 : A.det ≠ 0) {q u : n → 𝕜} (h : A *ᵥ u = q) :
    A⁻¹ *ᵥ q = u := by
  rw [← h, Matrix.mulVec_mulVec, Matrix.nonsing_inv_mul _ (isUnit_iff_ne_zero.2 h0),
    Matrix.one_mulVec]

end Verif
