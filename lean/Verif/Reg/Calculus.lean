import Verif.Jacobian
import Mathlib.Analysis.Calculus.FDeriv.Mul
import Mathlib.Analysis.Calculus.FDeriv.Add
import Mathlib.LinearAlgebra.Matrix.Notation

/-!
Small rules about gradients and Jacobians used for the regularizations.
-/

namespace Verif
open Matrix

variable {ι κ : Type} [Fintype ι] [Fintype κ]

/-- Multiplication by a fixed matrix has that matrix as its Jacobian. -/
theorem isJacobian_mulVec (B : Matrix κ ι ℝ) (m : ι → ℝ) : IsJacobian (fun x => B *ᵥ x) B m :=
  ContinuousLinearMap.hasFDerivAt (mulVecL B)

theorem diag_mulVec [DecidableEq ι] (a x : ι → ℝ) : diagonal a *ᵥ x = a * x := by
  funext i; simp [Matrix.mulVec_diagonal]

omit [Fintype κ] in
theorem matrix_ext_mulVec {A B : Matrix κ ι ℝ} (h : ∀ v, A *ᵥ v = B *ᵥ v) : A = B :=
  mulVecL_injective (by ext v i; exact congrFun (h v) i)

theorem IsJacobian.of_mulVec {f : (ι → ℝ) → (κ → ℝ)} {A B : Matrix κ ι ℝ} {m : ι → ℝ}
    (hf : IsJacobian f A m) (h : ∀ v, A *ᵥ v = B *ᵥ v) : IsJacobian f B m :=
  matrix_ext_mulVec h ▸ hf

theorem IsJacobian.sum {π : Type} [Fintype π] {f : π → (ι → ℝ) → (κ → ℝ)}
    {A : π → Matrix κ ι ℝ} {m : ι → ℝ} (hf : ∀ i, IsJacobian (f i) (A i) m) :
    IsJacobian (fun x => ∑ i, f i x) (∑ i, A i) m := by
  classical
  have hs := HasFDerivAt.fun_sum (u := Finset.univ) fun i (_ : i ∈ Finset.univ) => hf i
  refine HasFDerivAt.congr_fderiv hs ?_
  ext v c
  rw [_root_.sum_apply]
  simp [Matrix.sum_mulVec]

/-- The sum of the entries of a function with a Jacobian. -/
theorem isGradient_sum {f : (ι → ℝ) → (κ → ℝ)} {A : Matrix κ ι ℝ} {m g : ι → ℝ}
    (hf : IsJacobian f A m) (h : ∀ v, ∑ c, (A *ᵥ v) c = g ⬝ᵥ v) :
    IsGradient (fun x => ∑ c, f x c) g m := by
  rw [isJacobian_iff] at hf
  have hs := HasFDerivAt.fun_sum (u := Finset.univ) fun c (_ : c ∈ Finset.univ) => hf c
  refine HasFDerivAt.congr_fderiv hs ?_
  ext v
  rw [_root_.sum_apply]
  simp only [dotL_apply]
  exact h v

end Verif
