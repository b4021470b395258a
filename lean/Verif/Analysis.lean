import Mathlib.Analysis.Calculus.FDeriv.Comp
import Mathlib.Analysis.Calculus.FDeriv.Add
import Mathlib.Analysis.Calculus.FDeriv.Mul
import Mathlib.Analysis.Calculus.FDeriv.Pi
import Mathlib.Topology.Algebra.Module.FiniteDimension
import Mathlib.LinearAlgebra.Matrix.ToLin
import Mathlib.LinearAlgebra.Matrix.DotProduct

/-!
Vocabulary shared by the calculus theorems: gradients and Jacobians of functions of real
vectors, as plain arrays and matrices (which is what the Python code returns).
-/

namespace Verif
open Matrix

variable {ι κ : Type} [Fintype ι] [Fintype κ]

/-- `v ↦ g · v` as a continuous linear functional. -/
noncomputable def dotL (g : ι → ℝ) : (ι → ℝ) →L[ℝ] ℝ :=
  LinearMap.toContinuousLinearMap
    { toFun := fun v => g ⬝ᵥ v
      map_add' := fun x y => dotProduct_add g x y
      map_smul' := fun c x => by simp [dotProduct_smul] }

@[simp] theorem dotL_apply (g v : ι → ℝ) : dotL g v = g ⬝ᵥ v := rfl

/-- `v ↦ A v` as a continuous linear map. -/
noncomputable def mulVecL (A : Matrix κ ι ℝ) : (ι → ℝ) →L[ℝ] (κ → ℝ) :=
  LinearMap.toContinuousLinearMap A.mulVecLin

omit [Fintype κ] in
@[simp] theorem mulVecL_apply (A : Matrix κ ι ℝ) (v : ι → ℝ) : mulVecL A v = A *ᵥ v := rfl

/-- `g` is the gradient of `f` at `m` (full Fréchet sense). -/
def IsGradient (f : (ι → ℝ) → ℝ) (g : ι → ℝ) (m : ι → ℝ) : Prop :=
  HasFDerivAt f (dotL g) m

/-- `A` is the Jacobian of `f` at `m` (full Fréchet sense). -/
def IsJacobian (f : (ι → ℝ) → (κ → ℝ)) (A : Matrix κ ι ℝ) (m : ι → ℝ) : Prop :=
  HasFDerivAt f (mulVecL A) m

theorem dotL_add (g h : ι → ℝ) : dotL (g + h) = dotL g + dotL h := by
  ext v; simp [add_dotProduct]

theorem dotL_smul (c : ℝ) (g : ι → ℝ) : dotL (c • g) = c • dotL g := by
  ext v; simp [smul_dotProduct]

theorem dotL_zero : dotL (0 : ι → ℝ) = 0 := by
  ext v; simp

end Verif
