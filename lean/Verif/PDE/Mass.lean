import Verif.JacobianK
import Mathlib.LinearAlgebra.Matrix.Notation
import Mathlib.Algebra.BigOperators.Fin

/-!
Property mass matrices and their model derivatives (`simpeg/base/pde_simulation.py`):
`_inner_mat_mul_op` (15-83) and the members which `with_property_mass_matrices` (86-410) adds.

The inner products of the mesh come from `discretize`, which is not part of the repository.  They are
modelled by their coefficients: an inner product is a matrix which is linear in the cell property,
`M(σ)ᵢⱼ = Σₛ T i j s σₛ` (`T` also covers axis-aligned and full tensor properties, `s` then runs over
all the components), and `get_*_inner_product_deriv(model)(u)` is the matrix `Σⱼ T i j s uⱼ`.
-/

namespace Verif.PDE
open Matrix

noncomputable section

variable {𝕜 : Type} [RCLike 𝕜]
variable {p s e k : Type} [Fintype p] [Fintype s] [Fintype e] [Fintype k] [DecidableEq e]

/-- An inner product on the edges, faces, nodes or cells `e` of a mesh, linear in a property with
components `s`. -/
structure Inner (e s : Type) where
  T : e → e → s → ℝ

/-- `mesh.get_face_inner_product(model=prop)` and its relatives (`pde_simulation.py` 141, 154). -/
def Inner.mat (𝕜 : Type) [RCLike 𝕜] (I : Inner e s) (σ : s → ℝ) : Matrix e e 𝕜 :=
  fun i j => ((∑ t, I.T i j t * σ t : ℝ) : 𝕜)

/-- `mesh.get_face_inner_product_deriv(model=prop)(u)` (`pde_simulation.py` 264, 293). -/
def Inner.deriv (I : Inner e s) (u : e → 𝕜) : Matrix e s 𝕜 :=
  fun i t => ∑ j, (I.T i j t : 𝕜) * u j

/-- `Mcc` / `Mn` (113-116, 123-128): `diags(ave.T * (vol * prop))`; for cell centres the average is the
identity. -/
def nodeInner [DecidableEq s] (ave : Matrix s e ℝ) (vol : s → ℝ) : Inner e s :=
  ⟨fun i j t => if i = j then ave t i * vol t else 0⟩

/-- What is stashed as `_Mf_prop_deriv` (255-277): a matrix on meshes whose inner product is diagonal,
otherwise the pair of the mesh derivative and the property derivative. -/
inductive Stash (𝕜 p s e : Type) where
  | sparse (M : Matrix e p 𝕜)
  | tuple (f : (e → 𝕜) → Matrix e s 𝕜) (D : Matrix s p 𝕜)

/-- 262-277: `fast` stands for `t_type < 3` and a cylindrical, tensor or tree mesh. -/
def stash (fast : Bool) (I : Inner e s) (D : Matrix s p ℝ) : Stash 𝕜 p s e :=
  if fast then .sparse (I.deriv (fun _ => (1 : 𝕜)) * D.map (RCLike.ofReal : ℝ → 𝕜))
  else .tuple I.deriv (D.map (RCLike.ofReal : ℝ → 𝕜))

/-- `_inner_mat_mul_op(M, u, v)` for one field (15-83, lines 40 and 78). -/
def Stash.mul (M : Stash 𝕜 p s e) (u : e → 𝕜) (v : p → 𝕜) : e → 𝕜 :=
  match M with
  | .sparse M => fun i => u i * (M *ᵥ v) i
  | .tuple f D => f u *ᵥ (D *ᵥ v)

/-- `_inner_mat_mul_op(M, u, v, adjoint=True)` for one field (37, 77). -/
def Stash.mulT (M : Stash 𝕜 p s e) (u : e → 𝕜) (w : e → 𝕜) : p → 𝕜 :=
  match M with
  | .sparse M => Mᵀ *ᵥ fun i => u i * w i
  | .tuple f D => Dᵀ *ᵥ ((f u)ᵀ *ᵥ w)

/-- `_inner_mat_mul_op(M, u)` for one field (45-50, 71-74). -/
def Stash.toMat (M : Stash 𝕜 p s e) (u : e → 𝕜) : Matrix e p 𝕜 :=
  match M with
  | .sparse M => diagonal u * M
  | .tuple f D => f u * D

/-- Several fields at once: `u` is `n × k`, `v` a single vector (38-39, 68-69). -/
def Stash.mulMany (M : Stash 𝕜 p s e) (u : Matrix e k 𝕜) (v : p → 𝕜) : Matrix e k 𝕜 :=
  match M with
  | .sparse M => fun i a => u i a * (M *ᵥ v) i
  | .tuple f D => fun i a => (f (fun j => u j a) *ᵥ (D *ᵥ v)) i

/-- Several fields at once, adjoint: `w` is `n × k` (35-36, 64-67).  Not modelled: a `w` with several
vectors per field (lines 28-30), which the tuple branch does not support. -/
def Stash.mulManyT (M : Stash 𝕜 p s e) (u w : Matrix e k 𝕜) : p → 𝕜 :=
  match M with
  | .sparse M => Mᵀ *ᵥ fun i => ∑ a, u i a * w i a
  | .tuple f D => ∑ a, Dᵀ *ᵥ ((f fun j => u j a)ᵀ *ᵥ fun i => w i a)

/-- `MfPropIDeriv` and relatives (332-390): the right-hand side `u` is replaced by
`MI @ (MI @ -u)`. -/
def invArg (I : Inner e s) (σ : s → ℝ) (u : e → 𝕜) : e → 𝕜 :=
  (I.mat 𝕜 σ)⁻¹ *ᵥ ((I.mat 𝕜 σ)⁻¹ *ᵥ (-u))

end

end Verif.PDE

namespace Verif.PDE.Props
open Matrix Verif.PDE

noncomputable section

variable {𝕜 : Type} [RCLike 𝕜]
variable {p s e k : Type} [Fintype p] [Fintype s] [Fintype e] [Fintype k] [DecidableEq e]

set_option linter.unusedSectionVars false

/-- The inner product is diagonal for every property. -/
def Diagonal (I : Inner e s) : Prop := ∀ i j t, i ≠ j → I.T i j t = 0

/-- The inner product is symmetric for every property. -/
def Symmetric (I : Inner e s) : Prop := ∀ i j t, I.T i j t = I.T j i t

theorem mat_mulVec (I : Inner e s) (σ : s → ℝ) (u : e → 𝕜) :
    I.mat 𝕜 σ *ᵥ u = I.deriv u *ᵥ castV 𝕜 σ := by
  funext i
  simp only [Matrix.mulVec, dotProduct, Inner.mat, Inner.deriv, castV_apply]
  simp only [RCLike.ofReal_sum, RCLike.ofReal_mul, Finset.sum_mul]
  rw [Finset.sum_comm]
  refine Finset.sum_congr rfl fun t _ => Finset.sum_congr rfl fun j _ => by ring

theorem mat_diagonal {I : Inner e s} (h : Diagonal I) (σ : s → ℝ) :
    I.mat 𝕜 σ = diagonal fun i => I.mat 𝕜 σ i i := by
  ext i j
  by_cases hij : i = j
  · subst hij; simp
  · rw [diagonal_apply_ne _ hij]
    simp [Inner.mat, h i j _ hij]

theorem mat_symm {I : Inner e s} (h : Symmetric I) (σ : s → ℝ) : (I.mat 𝕜 σ)ᵀ = I.mat 𝕜 σ := by
  ext i j
  simp [Inner.mat, h j i]

theorem diagonal_symmetric {I : Inner e s} (h : Diagonal I) : Symmetric I := by
  intro i j t
  by_cases hij : i = j
  · subst hij; rfl
  · rw [h i j t hij, h j i t (Ne.symm hij)]

theorem deriv_diagonal {I : Inner e s} (h : Diagonal I) (u : e → 𝕜) :
    I.deriv u = diagonal u * I.deriv (fun _ => (1 : 𝕜)) := by
  ext i t
  rw [Matrix.diagonal_mul]
  simp only [Inner.deriv, mul_one]
  rw [Finset.sum_eq_single i, Finset.sum_eq_single i]
  · ring
  · intro j _ hj; simp [h i j t (Ne.symm hj)]
  · simp
  · intro j _ hj; simp [h i j t (Ne.symm hj)]
  · simp

theorem deriv_neg (I : Inner e s) (u : e → 𝕜) : I.deriv (-u) = -I.deriv u := by
  ext i t; simp [Inner.deriv]

/-- The derivative matrix is the same with either stash. -/
theorem toMat_stash (fast : Bool) (I : Inner e s) (hI : fast = true → Diagonal I) (D : Matrix s p ℝ)
    (u : e → 𝕜) :
    (stash fast I D : Stash 𝕜 p s e).toMat u = I.deriv u * D.map (RCLike.ofReal : ℝ → 𝕜) := by
  cases fast with
  | false => rfl
  | true =>
    simp only [stash, Stash.toMat, if_true]
    rw [deriv_diagonal (hI rfl) u, Matrix.mul_assoc]

/-- **C67.** The product of a mass matrix with a fixed field is differentiable in the model, with the
matrix `MPropDeriv(u)` as Jacobian; `MPropDeriv(u, v)` is that matrix times `v`, and
`MPropDeriv(u, w, adjoint=True)` its transpose times `w`. -/
theorem C67_derivative (fast : Bool) (I : Inner e s) (hI : fast = true → Diagonal I)
    {σ : (p → ℝ) → (s → ℝ)} {D : Matrix s p ℝ} {m : p → ℝ} (hσ : IsJacobian σ D m) (u : e → 𝕜) :
    IsJacK (fun y => I.mat 𝕜 (σ y) *ᵥ u) ((stash fast I D).toMat u) m ∧
    (∀ v, (stash fast I D).mul u v = (stash fast I D).toMat u *ᵥ v) ∧
    (∀ w, (stash fast I D).mulT u w = ((stash fast I D).toMat u)ᵀ *ᵥ w) := by
  refine ⟨?_, ?_, ?_⟩
  · rw [toMat_stash fast I hI]
    simp only [mat_mulVec]
    exact (IsJacobian.cast hσ).mulVec _
  · intro v
    cases fast with
    | false => simp [stash, Stash.mul, Stash.toMat, Matrix.mulVec_mulVec]
    | true =>
      simp only [stash, Stash.mul, Stash.toMat, if_true, ← Matrix.mulVec_mulVec]
      funext i
      rw [Matrix.mulVec_diagonal]
  · intro w
    cases fast with
    | false => simp [stash, Stash.mulT, Stash.toMat, Matrix.mulVec_mulVec, Matrix.transpose_mul]
    | true =>
      simp only [stash, Stash.mulT, Stash.toMat, if_true, Matrix.transpose_mul,
        Matrix.diagonal_transpose, ← Matrix.mulVec_mulVec]
      congr 2
      funext i
      rw [Matrix.mulVec_diagonal]

/-- **C67.** Several fields at once give the fields one by one, and the adjoint sums over them. -/
theorem C67_many (M : Stash 𝕜 p s e) (u w : Matrix e k 𝕜) (v : p → 𝕜) :
    (∀ a, (fun i => M.mulMany u v i a) = M.mul (fun j => u j a) v) ∧
    M.mulManyT u w = ∑ a, M.mulT (fun j => u j a) fun i => w i a := by
  cases M with
  | tuple f D => exact ⟨fun a => rfl, rfl⟩
  | sparse M =>
    refine ⟨fun a => rfl, ?_⟩
    simp only [Stash.mulManyT, Stash.mulT]
    funext q
    simp only [Matrix.mulVec, dotProduct, Finset.sum_apply, Finset.mul_sum]
    rw [Finset.sum_comm]

/-- **C67.** The forward and adjoint forms are adjoint to one another, for any number of fields. -/
theorem C67_adjoint (fast : Bool) (I : Inner e s) (D : Matrix s p ℝ) (u w : Matrix e k 𝕜)
    (v : p → 𝕜) :
    ∑ a, (fun i => (stash fast I D).mulMany u v i a) ⬝ᵥ (fun i => w i a) =
      v ⬝ᵥ (stash fast I D).mulManyT u w := by
  rw [(C67_many _ u w v).2, dotProduct_sum]
  refine Finset.sum_congr rfl fun a _ => ?_
  rw [(C67_many _ u w v).1 a]
  cases fast with
  | false =>
    simp only [stash, Stash.mul, Stash.mulT, Bool.false_eq_true, if_false]
    rw [Matrix.dotProduct_mulVec, Matrix.vecMul_transpose, Matrix.dotProduct_mulVec,
      Matrix.vecMul_transpose]
  | true =>
    simp only [stash, Stash.mul, Stash.mulT, if_true]
    rw [Matrix.dotProduct_mulVec, Matrix.vecMul_transpose]
    simp only [dotProduct]
    exact Finset.sum_congr rfl fun i _ => by ring

/-- **C67.** For diagonal inner products (every mesh on which the inverse is available) the derivative
of the inverse mass matrix times a fixed field is what `MPropIDeriv` returns. -/
theorem C67_inverse_partial (fast : Bool) (I : Inner e s) (hI : Diagonal I)
    {σ : (p → ℝ) → (s → ℝ)} {D : Matrix s p ℝ} {m : p → ℝ} (hσ : IsJacobian σ D m) (u : e → 𝕜)
    (h0 : ∀ i, I.mat 𝕜 (σ m) i i ≠ 0) :
    IsJacK (fun y => (I.mat 𝕜 (σ y))⁻¹ *ᵥ u) ((stash fast I D).toMat (invArg I (σ m) u)) m := by
  have hdet : (I.mat 𝕜 (σ m)).det ≠ 0 := by
    rw [mat_diagonal hI, Matrix.det_diagonal]
    exact Finset.prod_ne_zero_iff.2 fun i _ => h0 i
  have hA : ∀ i j, DifferentiableAt ℝ (fun y => I.mat 𝕜 (σ y) i j) m := by
    intro i j
    have h := (C67_derivative (𝕜 := 𝕜) fast I (fun _ => hI) hσ (Pi.single j 1)).1
    have h1 := ((isJacK_iff.1 h) i).differentiableAt
    simpa [Matrix.mulVec_single_one] using h1
  have key := isJacK_solve (A := fun y => I.mat 𝕜 (σ y)) (q := fun _ => u) hA hdet
    (C67_derivative (𝕜 := 𝕜) fast I (fun _ => hI) hσ ((I.mat 𝕜 (σ m))⁻¹ *ᵥ u)).1
    (isJacK_const u m)
  suffices hs : (stash fast I D).toMat (invArg I (σ m) u) = (I.mat 𝕜 (σ m))⁻¹ *
      (0 - (stash fast I D).toMat ((I.mat 𝕜 (σ m))⁻¹ *ᵥ u)) by rw [hs]; exact key
  rw [toMat_stash fast I (fun _ => hI), toMat_stash fast I (fun _ => hI), zero_sub, Matrix.mul_neg,
    ← Matrix.mul_assoc]
  unfold invArg
  rw [Matrix.mulVec_neg, Matrix.mulVec_neg, deriv_neg, Matrix.neg_mul]
  congr 2
  rw [deriv_diagonal hI ((I.mat 𝕜 (σ m))⁻¹ *ᵥ u),
    deriv_diagonal hI ((I.mat 𝕜 (σ m))⁻¹ *ᵥ (I.mat 𝕜 (σ m))⁻¹ *ᵥ u), ← Matrix.mul_assoc]
  congr 1
  have hinv : (I.mat 𝕜 (σ m))⁻¹ = diagonal fun i => (I.mat 𝕜 (σ m) i i)⁻¹ := by
    refine Matrix.inv_eq_left_inv ?_
    rw [mat_diagonal hI, Matrix.diagonal_mul_diagonal, ← Matrix.diagonal_one]
    congr 1
    funext i
    simp only [Matrix.diagonal_apply_eq]
    exact inv_mul_cancel₀ (h0 i)
  rw [hinv, Matrix.diagonal_mul_diagonal]
  congr 1
  funext i
  rw [Matrix.mulVec_diagonal]

/-- The inner product `[[σ₀, σ₁], [σ₁, 0]]`: symmetric, not diagonal. -/
def exInner : Inner (Fin 2) (Fin 2) :=
  ⟨fun i j t => if i = 0 ∧ j = 0 then (if t = 0 then 1 else 0)
    else if i = 1 ∧ j = 1 then 0 else (if t = 1 then 1 else 0)⟩

/-- **C67.** The formula of `MPropIDeriv` really needs the diagonal inner product: for a symmetric
inner product which is not diagonal it is not the derivative of the inverse. -/
theorem C67_inverse_needs_diagonal :
    ¬ IsJacK (𝕜 := ℝ) (fun y : Fin 2 → ℝ => (exInner.mat ℝ y)⁻¹ *ᵥ ![1, 0])
      ((stash false exInner (1 : Matrix (Fin 2) (Fin 2) ℝ)).toMat (invArg exInner ![1, 1] ![1, 0]))
      ![1, 1] := by
  intro h
  have hM : exInner.mat ℝ ![1, 1] = !![1, 1; 1, 0] := by
    ext i j; fin_cases i <;> fin_cases j <;> simp [Inner.mat, exInner]
  have hMi : (exInner.mat ℝ ![1, 1])⁻¹ = !![0, 1; 1, -1] := by
    rw [hM]
    refine Matrix.inv_eq_left_inv ?_
    ext i j; fin_cases i <;> fin_cases j <;> simp [Matrix.mul_apply, Fin.sum_univ_two]
  have hdet : (exInner.mat ℝ ![1, 1]).det ≠ 0 := by
    rw [hM]; simp [Matrix.det_fin_two]
  have hσ : IsJacobian (fun y : Fin 2 → ℝ => y) 1 ![1, 1] := isJacobian_id _
  have hA : ∀ i j, DifferentiableAt ℝ (fun y => exInner.mat ℝ y i j) ![1, 1] := by
    intro i j
    have h := (C67_derivative (𝕜 := ℝ) false exInner (by simp) hσ (Pi.single j 1)).1
    have h1 := ((isJacK_iff.1 h) i).differentiableAt
    simpa [Matrix.mulVec_single_one] using h1
  have key := isJacK_solve (A := fun y => exInner.mat ℝ y) (q := fun _ => ![1, 0]) hA hdet
    (C67_derivative (𝕜 := ℝ) false exInner (by simp) hσ ((exInner.mat ℝ ![1, 1])⁻¹ *ᵥ ![1, 0])).1
    (isJacK_const ![1, 0] ![1, 1])
  have e := congrFun (congrFun (h.unique key) 0) 0
  rw [toMat_stash false exInner (by simp), toMat_stash false exInner (by simp)] at e
  unfold invArg at e
  rw [hMi] at e
  simp [Matrix.mul_apply, Fin.sum_univ_two, Inner.deriv, exInner, Matrix.mulVec,
    dotProduct] at e

/-- Non-vacuity: the cell centred mass matrix of a two cell mesh is diagonal, and with the property
equal to the model all the hypotheses of `C67_inverse_partial` hold. -/
example : Diagonal (nodeInner (1 : Matrix (Fin 2) (Fin 2) ℝ) ![2, 3]) ∧
    IsJacobian (fun y : Fin 2 → ℝ => y) 1 ![5, 7] ∧
    ∀ i, (nodeInner (1 : Matrix (Fin 2) (Fin 2) ℝ) ![2, 3]).mat ℝ ![5, 7] i i ≠ 0 := by
  refine ⟨fun i j t h => by simp [nodeInner, h], isJacobian_id _, ?_⟩
  intro i
  fin_cases i <;> simp [nodeInner, Inner.mat, Fin.sum_univ_two]

/-- **C67.** The cell centre and node mass matrices are diagonal whatever the averaging operator and
the cell volumes, and carry `aveᵀ (vol * prop)` on the diagonal. -/
theorem C67_node [DecidableEq s] (ave : Matrix s e ℝ) (vol : s → ℝ) (σ : s → ℝ) :
    Diagonal (nodeInner ave vol) ∧
    (nodeInner ave vol).mat ℝ σ = diagonal (aveᵀ *ᵥ fun t => vol t * σ t) := by
  refine ⟨fun i j t h => by simp [nodeInner, h], ?_⟩
  ext i j
  by_cases hij : i = j
  · subst hij
    simp [Inner.mat, nodeInner, Matrix.mulVec, dotProduct, mul_assoc]
  · simp [Inner.mat, nodeInner, hij]

end

end Verif.PDE.Props
