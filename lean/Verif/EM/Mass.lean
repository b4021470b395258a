import Verif.PDE.Mass
import Verif.JacobianM

/-!
A mass matrix of an electromagnetic simulation together with its model derivatives: the members
`MeSigma`, `MeSigmaI`, `MeSigmaDeriv`, `MeSigmaIDeriv` and so on, which
`with_property_mass_matrices` (`simpeg/base/pde_simulation.py` 86-410) adds for a physical property.
-/

namespace Verif.EM
open Matrix Verif.PDE

noncomputable section

variable {𝕜 : Type} [RCLike 𝕜]
variable {p s e : Type} [Fintype p] [Fintype s] [Fintype e] [DecidableEq e]

/-- A mass matrix: the inner product, whether the mesh gives the fast derivative, the physical property
as a function of the model and its derivative (`sigma`, `sigmaDeriv`; without a map the property is
constant and the derivative zero). -/
structure Mass (p s e : Type) where
  I : Inner e s
  fast : Bool
  val : (p → ℝ) → s → ℝ
  D : (p → ℝ) → Matrix s p ℝ

/-- `MeSigma` (151-160). -/
def Mass.mat (𝕜 : Type) [RCLike 𝕜] (M : Mass p s e) (m : p → ℝ) : Matrix e e 𝕜 := M.I.mat 𝕜 (M.val m)

/-- `MeSigmaI` (212-223). -/
def Mass.inv (𝕜 : Type) [RCLike 𝕜] (M : Mass p s e) (m : p → ℝ) : Matrix e e 𝕜 := (M.mat 𝕜 m)⁻¹

/-- `MeSigmaDeriv(u, v)` (296-321). -/
def Mass.der (M : Mass p s e) (m : p → ℝ) (u : e → 𝕜) (v : p → 𝕜) : e → 𝕜 :=
  (stash M.fast M.I (M.D m)).mul u v

/-- `MeSigmaDeriv(u, w, adjoint=True)` (296-321). -/
def Mass.derT (M : Mass p s e) (m : p → ℝ) (u w : e → 𝕜) : p → 𝕜 :=
  (stash M.fast M.I (M.D m)).mulT u w

/-- `MeSigmaDeriv(u)` (296-321). -/
def Mass.derMat (M : Mass p s e) (m : p → ℝ) (u : e → 𝕜) : Matrix e p 𝕜 :=
  (stash M.fast M.I (M.D m)).toMat u

/-- `MeSigmaIDeriv(u, v)` (373-388). -/
def Mass.invDer (M : Mass p s e) (m : p → ℝ) (u : e → 𝕜) (v : p → 𝕜) : e → 𝕜 :=
  (stash M.fast M.I (M.D m)).mul (invArg M.I (M.val m) u) v

/-- `MeSigmaIDeriv(u, w, adjoint=True)` (373-388). -/
def Mass.invDerT (M : Mass p s e) (m : p → ℝ) (u w : e → 𝕜) : p → 𝕜 :=
  (stash M.fast M.I (M.D m)).mulT (invArg M.I (M.val m) u) w

/-- `MeSigmaIDeriv(u)` (373-388). -/
def Mass.invDerMat (M : Mass p s e) (m : p → ℝ) (u : e → 𝕜) : Matrix e p 𝕜 :=
  (stash M.fast M.I (M.D m)).toMat (invArg M.I (M.val m) u)

end

end Verif.EM

namespace Verif.EM.Props
open Matrix Verif.PDE Verif.PDE.Props Verif.EM

noncomputable section

variable {𝕜 : Type} [RCLike 𝕜]
variable {p s e : Type} [Fintype p] [Fintype s] [Fintype e] [DecidableEq e]

set_option linter.unusedSectionVars false

/-- The property is differentiated correctly by its map, and the fast derivative is only used for
diagonal inner products. -/
structure Good (M : Mass p s e) (m : p → ℝ) : Prop where
  map : IsJacobian M.val (M.D m) m
  fast : M.fast = true → Diagonal M.I
  symm : Symmetric M.I

/-- The mass matrix can be inverted the way the code does it. -/
structure GoodInv (M : Mass p s e) (m : p → ℝ) : Prop extends Good M m where
  diag : Diagonal M.I
  ne : ∀ i, (M.mat ℝ m) i i ≠ 0

theorem der_eq (M : Mass p s e) (m : p → ℝ) (u : e → 𝕜) (v : p → 𝕜) :
    M.der m u v = M.derMat m u *ᵥ v := by
  unfold Mass.der Mass.derMat
  cases h : M.fast with
  | false => simp [stash, Stash.mul, Stash.toMat, Matrix.mulVec_mulVec]
  | true =>
    simp only [stash, Stash.mul, Stash.toMat, if_true, ← Matrix.mulVec_mulVec]
    funext i
    rw [Matrix.mulVec_diagonal]

theorem derT_eq (M : Mass p s e) (m : p → ℝ) (u w : e → 𝕜) :
    M.derT m u w = (M.derMat m u)ᵀ *ᵥ w := by
  unfold Mass.derT Mass.derMat
  cases h : M.fast with
  | false => simp [stash, Stash.mulT, Stash.toMat, Matrix.mulVec_mulVec, Matrix.transpose_mul]
  | true =>
    simp only [stash, Stash.mulT, Stash.toMat, if_true, Matrix.transpose_mul,
      Matrix.diagonal_transpose, ← Matrix.mulVec_mulVec]
    congr 2
    funext i
    rw [Matrix.mulVec_diagonal]

theorem invDer_eq (M : Mass p s e) (m : p → ℝ) (u : e → 𝕜) (v : p → 𝕜) :
    M.invDer m u v = M.invDerMat m u *ᵥ v := der_eq M m _ v

theorem invDerT_eq (M : Mass p s e) (m : p → ℝ) (u w : e → 𝕜) :
    M.invDerT m u w = (M.invDerMat m u)ᵀ *ᵥ w := derT_eq M m _ w

theorem derMat_jac {M : Mass p s e} {m : p → ℝ} (h : Good M m) (u : e → 𝕜) :
    IsJacK (fun y => M.mat 𝕜 y *ᵥ u) (M.derMat m u) m :=
  (C67_derivative M.fast M.I h.fast h.map u).1

theorem mat_diff {M : Mass p s e} {m : p → ℝ} (h : Good M m) (i j : e) :
    DifferentiableAt ℝ (fun y => M.mat 𝕜 y i j) m := by
  have h1 := (derMat_jac (𝕜 := 𝕜) h (Pi.single j 1)).differentiableAt i
  simpa [Matrix.mulVec_single_one] using h1

theorem mat_ne {M : Mass p s e} {m : p → ℝ} (h : GoodInv M m) (i : e) : (M.mat 𝕜 m) i i ≠ 0 := by
  have := h.ne i
  simp only [Mass.mat, Inner.mat] at this ⊢
  exact fun h => this (by exact_mod_cast h)

theorem det_ne {M : Mass p s e} {m : p → ℝ} (h : GoodInv M m) : (M.mat 𝕜 m).det ≠ 0 := by
  unfold Mass.mat
  rw [mat_diagonal h.diag, Matrix.det_diagonal]
  exact Finset.prod_ne_zero_iff.2 fun i _ => mat_ne h i

theorem invDerMat_jac {M : Mass p s e} {m : p → ℝ} (h : GoodInv M m) (u : e → 𝕜) :
    IsJacK (fun y => M.inv 𝕜 y *ᵥ u) (M.invDerMat m u) m :=
  C67_inverse_partial M.fast M.I h.diag h.map u (mat_ne h)

theorem inv_diff {M : Mass p s e} {m : p → ℝ} (h : GoodInv M m) (i j : e) :
    DifferentiableAt ℝ (fun y => M.inv 𝕜 y i j) m :=
  differentiableAt_inv (mat_diff h.toGood) (det_ne h) i j

theorem mat_transpose {M : Mass p s e} {m : p → ℝ} (h : Good M m) : (M.mat 𝕜 m)ᵀ = M.mat 𝕜 m :=
  mat_symm h.symm _

theorem inv_transpose {M : Mass p s e} {m : p → ℝ} (h : Good M m) : (M.inv 𝕜 m)ᵀ = M.inv 𝕜 m := by
  unfold Mass.inv
  rw [Matrix.transpose_nonsing_inv, mat_transpose h]

/-- Product rule for a mass matrix times a vector which depends on the model. -/
theorem mat_jac {M : Mass p s e} {m : p → ℝ} (h : Good M m) {g : (p → ℝ) → (e → 𝕜)}
    {G : Matrix e p 𝕜} (hg : IsJacK g G m) :
    IsJacK (fun y => M.mat 𝕜 y *ᵥ g y) (M.derMat m (g m) + M.mat 𝕜 m * G) m :=
  IsJacK.matMul (mat_diff h) (derMat_jac h _) hg

/-- Product rule for an inverse mass matrix times a vector which depends on the model. -/
theorem inv_jac {M : Mass p s e} {m : p → ℝ} (h : GoodInv M m) {g : (p → ℝ) → (e → 𝕜)}
    {G : Matrix e p 𝕜} (hg : IsJacK g G m) :
    IsJacK (fun y => M.inv 𝕜 y *ᵥ g y) (M.invDerMat m (g m) + M.inv 𝕜 m * G) m :=
  IsJacK.matMul (inv_diff h) (invDerMat_jac h _) hg

theorem inv_mul {M : Mass p s e} {m : p → ℝ} (h : GoodInv M m) : M.inv 𝕜 m * M.mat 𝕜 m = 1 :=
  Matrix.nonsing_inv_mul _ (isUnit_iff_ne_zero.2 (det_ne h))

theorem mul_inv {M : Mass p s e} {m : p → ℝ} (h : GoodInv M m) : M.mat 𝕜 m * M.inv 𝕜 m = 1 :=
  Matrix.mul_nonsing_inv _ (isUnit_iff_ne_zero.2 (det_ne h))

end

end Verif.EM.Props
