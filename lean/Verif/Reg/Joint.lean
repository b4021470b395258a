import Verif.Basic
import Verif.Reg.Calculus
import Mathlib.Analysis.SpecialFunctions.Sqrt
import Mathlib.Analysis.SpecialFunctions.Pow.Real
import Mathlib.Algebra.Order.BigOperators.Ring.Finset
import Mathlib.Data.Matrix.Block
import Mathlib.Data.Matrix.ColumnRowPartitioned

/-!
C81 and C82: the other coupling terms of joint inversions, `JointTotalVariation`
(`simpeg/regularization/jtv.py`) and `LinearCorrespondence`
(`simpeg/regularization/correspondence.py`). `κ` are the active cells, `φ` the active faces, `π` the
properties of a model; the entries of a model are `π × κ`, property by property. Simplified: the
wires select the properties in the order of the model, all of the size of the mesh.
-/

noncomputable section
namespace Verif.Reg.Joint
open Matrix

variable {κ φ π : Type} [Fintype κ] [Fintype φ] [Fintype π] [DecidableEq κ] [DecidableEq φ]
  [DecidableEq π]

set_option linter.unusedSectionVars false

/-! ### Joint total variation -/

/-- A `JointTotalVariation` object: gradient and average of the regularization mesh, cell volumes,
the product of the registered weights (the volumes among them), and `eps`
(`simpeg/regularization/jtv.py` 126-131). -/
structure Jtv (κ φ : Type) where
  G : Matrix φ κ ℝ
  A : Matrix κ φ ℝ
  vol : κ → ℝ
  weights : κ → ℝ
  eps : ℝ

/-- `JointTotalVariation.W` (`simpeg/regularization/jtv.py` 133-151). -/
def Jtv.W (o : Jtv κ φ) : Matrix κ φ ℝ := diagonal (fun c => o.weights c ^ 2) * o.A

/-- `G @ m` for the property `i` of the model (`simpeg/regularization/jtv.py` 191-192). -/
def Jtv.g (o : Jtv κ φ) (m : π × κ → ℝ) (i : π) : φ → ℝ := o.G *ᵥ fun c => m (i, c)

/-- `sq` (`simpeg/regularization/jtv.py` 186-195). -/
def Jtv.sq (o : Jtv κ φ) (m : π × κ → ℝ) : κ → ℝ :=
  fun c => Real.sqrt ((o.W *ᵥ ∑ i, o.g m i * o.g m i) c + o.eps * o.vol c ^ 2)

/-- `JointTotalVariation.__call__` (`simpeg/regularization/jtv.py` 171-196). -/
def Jtv.value (o : Jtv κ φ) (m : π × κ → ℝ) : ℝ := ∑ c, o.sq m c

/-- `mid` (`simpeg/regularization/jtv.py` 237). -/
def Jtv.mid (o : Jtv κ φ) (m : π × κ → ℝ) : φ → ℝ := o.Wᵀ *ᵥ fun c => 1 / o.sq m c

/-- `JointTotalVariation.deriv` (`simpeg/regularization/jtv.py` 198-241). -/
def Jtv.deriv (o : Jtv κ φ) (m : π × κ → ℝ) : π × κ → ℝ :=
  fun p => (o.Gᵀ *ᵥ (o.mid m * o.g m p.1)) p.2

/-- `JointTotalVariation.deriv2(model, v)` (`simpeg/regularization/jtv.py` 286-311). -/
def Jtv.deriv2v (o : Jtv κ φ) (m v : π × κ → ℝ) : π × κ → ℝ :=
  let tmp := ∑ i, o.Wᵀ *ᵥ fun c => (o.W *ᵥ (o.g m i * o.g v i)) c / o.sq m c ^ 3
  fun p => (o.Gᵀ *ᵥ (o.mid m * o.g v p.1 - o.g m p.1 * tmp)) p.2

/-- `Row` (`simpeg/regularization/jtv.py` 313-320). -/
def Jtv.row (o : Jtv κ φ) (m : π × κ → ℝ) : Matrix κ (π × κ) ℝ :=
  fun c p => (diagonal (fun c => o.sq m c ^ (-1.5 : ℝ)) * o.W * diagonal (o.g m p.1) * o.G) c p.2

/-- `Diag` (`simpeg/regularization/jtv.py` 314-321). -/
def Jtv.diag (o : Jtv κ φ) (m : π × κ → ℝ) : Matrix (π × κ) (π × κ) ℝ :=
  fun p q => if p.1 = q.1 then (o.Gᵀ * diagonal (o.mid m) * o.G) p.2 q.2 else 0

/-- `JointTotalVariation.deriv2(model)` (`simpeg/regularization/jtv.py` 312-322). -/
def Jtv.deriv2 (o : Jtv κ φ) (m : π × κ → ℝ) : Matrix (π × κ) (π × κ) ℝ :=
  o.diag m - (o.row m)ᵀ * o.row m

/-- The matrix which selects a property. -/
def sel (κ : Type) [DecidableEq κ] (i : π) : Matrix κ (π × κ) ℝ :=
  fun c p => if p = (i, c) then 1 else 0

theorem sel_mulVec (i : π) (v : π × κ → ℝ) : sel κ i *ᵥ v = fun c => v (i, c) := by
  funext c; simp [sel, Matrix.mulVec, dotProduct]

theorem sel_sum (x : π → κ → ℝ) : (∑ i, (sel κ i)ᵀ *ᵥ x i) = fun p => x p.1 p.2 := by
  funext p
  rw [Finset.sum_apply]
  have : ∀ i, ((sel κ i)ᵀ *ᵥ x i) p = if p.1 = i then x i p.2 else 0 := by
    intro i
    obtain ⟨j, c⟩ := p
    by_cases h : j = i
    · subst h; simp [sel, Matrix.mulVec, dotProduct, Prod.ext_iff]
    · simp [sel, Matrix.mulVec, dotProduct, Prod.ext_iff, h]
  simp [this]

theorem g_jac (o : Jtv κ φ) (i : π) (m : π × κ → ℝ) :
    IsJacobian (fun x => o.g x i) (o.G * sel κ i) m := by
  have h := (isJacobian_mulVec (sel κ i) m).mulVec o.G
  simp only [sel_mulVec] at h
  exact h

theorem g_sel (o : Jtv κ φ) (i : π) (v : π × κ → ℝ) : (o.G * sel κ i) *ᵥ v = o.g v i := by
  rw [← Matrix.mulVec_mulVec, sel_mulVec]; rfl

/-- What is needed of the mesh: averages are not negative, volumes and `eps` positive. -/
structure Jtv.Good (o : Jtv κ φ) : Prop where
  avg : ∀ c f, 0 ≤ o.A c f
  vol : ∀ c, 0 < o.vol c
  eps : 0 < o.eps

theorem W_nonneg (o : Jtv κ φ) (h : o.Good) (c : κ) (f : φ) : 0 ≤ o.W c f := by
  unfold Jtv.W; rw [Matrix.diagonal_mul]; exact mul_nonneg (sq_nonneg _) (h.avg c f)

theorem Wg_nonneg (o : Jtv κ φ) (h : o.Good) (m : π × κ → ℝ) (c : κ) :
    0 ≤ (o.W *ᵥ ∑ i, o.g m i * o.g m i) c := by
  refine Finset.sum_nonneg fun f _ => mul_nonneg (W_nonneg o h c f) ?_
  rw [Finset.sum_apply]
  exact Finset.sum_nonneg fun i _ => mul_self_nonneg _

theorem eps_pos (o : Jtv κ φ) (h : o.Good) (c : κ) : 0 < o.eps * o.vol c ^ 2 :=
  mul_pos h.eps (pow_pos (h.vol c) 2)

theorem arg_pos (o : Jtv κ φ) (h : o.Good) (m : π × κ → ℝ) (c : κ) :
    0 < (o.W *ᵥ ∑ i, o.g m i * o.g m i) c + o.eps * o.vol c ^ 2 :=
  add_pos_of_nonneg_of_pos (Wg_nonneg o h m c) (eps_pos o h c)

theorem sq_pos' (o : Jtv κ φ) (h : o.Good) (m : π × κ → ℝ) (c : κ) : 0 < o.sq m c :=
  Real.sqrt_pos.2 (arg_pos o h m c)

/-- The Jacobian of `sq`. -/
def Jtv.sqJ (o : Jtv κ φ) (m : π × κ → ℝ) : Matrix κ (π × κ) ℝ :=
  diagonal (fun c => 1 / (2 * o.sq m c)) *
    (o.W * ∑ i, (diagonal (o.g m i) * (o.G * sel κ i) + diagonal (o.g m i) * (o.G * sel κ i)))

theorem sq_jac (o : Jtv κ φ) (h : o.Good) (m : π × κ → ℝ) : IsJacobian o.sq (o.sqJ m) m := by
  have h1 := (IsJacobian.sum fun i => (g_jac o i m).mul (g_jac o i m)).mulVec o.W
  have h2 := h1.add (isJacobian_const (fun c => o.eps * o.vol c ^ 2) m)
  rw [add_zero] at h2
  exact h2.map (φ := fun _ => Real.sqrt) (φ' := fun c => 1 / (2 * o.sq m c))
    (fun c => Real.hasDerivAt_sqrt (arg_pos o h m c).ne')

theorem sqJ_mulVec (o : Jtv κ φ) (m v : π × κ → ℝ) (c : κ) :
    (o.sqJ m *ᵥ v) c = (o.W *ᵥ ∑ i, o.g m i * o.g v i) c / o.sq m c := by
  unfold Jtv.sqJ
  rw [← Matrix.mulVec_mulVec, ← Matrix.mulVec_mulVec, diag_mulVec, Matrix.sum_mulVec]
  simp only [Matrix.add_mulVec, ← Matrix.mulVec_mulVec, diag_mulVec, sel_mulVec]
  have : ∀ i, (o.G *ᵥ fun c => v (i, c)) = o.g v i := fun _ => rfl
  simp only [this, Finset.sum_add_distrib, Matrix.mulVec_add, Pi.mul_apply, Pi.add_apply]
  rw [one_div, mul_inv]
  ring

theorem deriv_dot (o : Jtv κ φ) (x : π → φ → ℝ) (v : π × κ → ℝ) :
    (fun p : π × κ => (o.Gᵀ *ᵥ x p.1) p.2) ⬝ᵥ v = ∑ i, x i ⬝ᵥ o.g v i := by
  unfold dotProduct
  rw [Fintype.sum_prod_type]
  refine Finset.sum_congr rfl fun i _ => ?_
  have : (o.Gᵀ *ᵥ x i) ⬝ᵥ (fun c => v (i, c)) = x i ⬝ᵥ o.g v i := by
    rw [Matrix.mulVec_transpose, ← Matrix.dotProduct_mulVec]; rfl
  exact this

/-- C81: the value is the documented one: the sum over the cells of the root of the weighted
squared gradients of all properties. -/
theorem C81_value (o : Jtv κ φ) (m : π × κ → ℝ) :
    o.value m = ∑ c, Real.sqrt (o.weights c ^ 2 * ∑ i, ∑ f, o.A c f *
      (∑ k, o.G f k * m (i, k)) ^ 2 + o.eps * o.vol c ^ 2) := by
  unfold Jtv.value Jtv.sq Jtv.W
  refine Finset.sum_congr rfl fun c _ => ?_
  rw [← Matrix.mulVec_mulVec, diag_mulVec]
  congr 2
  simp only [Pi.mul_apply]
  congr 1
  simp only [Matrix.mulVec, dotProduct, Finset.sum_apply, Pi.mul_apply, Jtv.g]
  rw [Finset.sum_comm]
  simp only [Finset.mul_sum, pow_two]

/-- C81: `deriv` is the gradient of the value. -/
theorem C81_gradient (o : Jtv κ φ) (h : o.Good) (m : π × κ → ℝ) :
    IsGradient o.value (o.deriv m) m := by
  refine isGradient_sum (sq_jac o h m) fun v => ?_
  have hd : o.deriv m ⬝ᵥ v = ∑ i, (o.mid m * o.g m i) ⬝ᵥ o.g v i :=
    deriv_dot o (fun i => o.mid m * o.g m i) v
  rw [hd]
  simp only [sqJ_mulVec]
  have e : ∀ i, (o.mid m * o.g m i) ⬝ᵥ o.g v i = o.mid m ⬝ᵥ (o.g m i * o.g v i) := fun i => by
    simp [dotProduct, mul_assoc]
  simp only [e, ← dotProduct_sum]
  unfold Jtv.mid
  rw [Matrix.mulVec_transpose, ← Matrix.dotProduct_mulVec]
  refine Finset.sum_congr rfl fun c _ => ?_
  ring

/-- C81: the value is at least what it is for constant models, and is that only if all gradients
near cells with weights vanish. -/
theorem C81_lower_bound (o : Jtv κ φ) (h : o.Good) (m : π × κ → ℝ) :
    Real.sqrt o.eps * ∑ c, o.vol c ≤ o.value m ∧
      (o.value m = Real.sqrt o.eps * ∑ c, o.vol c ↔
        ∀ c f i, o.weights c * o.A c f ≠ 0 → o.g m i f = 0) := by
  have e : Real.sqrt o.eps * ∑ c, o.vol c = ∑ c, Real.sqrt (o.eps * o.vol c ^ 2) := by
    rw [Finset.mul_sum]
    refine Finset.sum_congr rfl fun c _ => ?_
    rw [Real.sqrt_mul h.eps.le, Real.sqrt_sq (h.vol c).le]
  rw [e]
  have le : ∀ c, Real.sqrt (o.eps * o.vol c ^ 2) ≤ o.sq m c := fun c =>
    Real.sqrt_le_sqrt (le_add_of_nonneg_left (Wg_nonneg o h m c))
  refine ⟨Finset.sum_le_sum fun c _ => le c, ?_⟩
  have h1 : (o.value m = ∑ c, Real.sqrt (o.eps * o.vol c ^ 2)) ↔
      ∀ c, (o.W *ᵥ ∑ i, o.g m i * o.g m i) c = 0 := by
    unfold Jtv.value
    rw [eq_comm, Finset.sum_eq_sum_iff_of_le fun c _ => le c]
    constructor
    · intro hh c
      have := hh c (Finset.mem_univ _)
      unfold Jtv.sq at this
      rw [Real.sqrt_inj (eps_pos o h c).le (arg_pos o h m c).le] at this
      linarith
    · intro hh c _
      unfold Jtv.sq
      rw [hh c, zero_add]
  rw [h1]
  constructor
  · intro hh c f i hne
    have h2 := hh c
    have h3 := (Finset.sum_eq_zero_iff_of_nonneg fun f _ =>
      mul_nonneg (W_nonneg o h c f) (by
        rw [Finset.sum_apply]
        exact Finset.sum_nonneg fun i _ => mul_self_nonneg (o.g m i f))).1 h2 f (Finset.mem_univ _)
    have hW : o.W c f ≠ 0 := by
      unfold Jtv.W
      rw [Matrix.diagonal_mul]
      have := mul_ne_zero_iff.1 hne
      exact mul_ne_zero (pow_ne_zero 2 this.1) this.2
    have h4 := (mul_eq_zero.1 h3).resolve_left hW
    rw [Finset.sum_apply] at h4
    have h5 := (Finset.sum_eq_zero_iff_of_nonneg fun i _ => mul_self_nonneg (o.g m i f)).1 h4 i
      (Finset.mem_univ _)
    exact mul_self_eq_zero.1 h5
  · intro hh c
    refine Finset.sum_eq_zero fun f _ => ?_
    by_cases hne : o.weights c * o.A c f = 0
    · have : o.W c f = 0 := by
        unfold Jtv.W
        rw [Matrix.diagonal_mul]
        rcases mul_eq_zero.1 hne with h0 | h0 <;> rw [h0] <;> ring
      show o.W c f * _ = 0
      rw [this, zero_mul]
    · show o.W c f * _ = 0
      rw [Finset.sum_apply]
      simp [hh c f _ hne]

theorem pow_three (x : ℝ) (hx : 0 < x) : x ^ (-1.5 : ℝ) * x ^ (-1.5 : ℝ) = 1 / x ^ 3 := by
  rw [← Real.rpow_add hx, show (-1.5 : ℝ) + -1.5 = -(3 : ℕ) by norm_num, Real.rpow_neg hx.le,
    Real.rpow_natCast, one_div]

/-- C81: the product with a vector is the product with the matrix. -/
theorem C81_hessian_product (o : Jtv κ φ) (h : o.Good) (m v : π × κ → ℝ) :
    o.deriv2 m *ᵥ v = o.deriv2v m v := by
  have hdiag : o.diag m *ᵥ v = fun p => (o.Gᵀ *ᵥ (o.mid m * o.g v p.1)) p.2 := by
    funext p
    simp only [Matrix.mulVec, Jtv.diag, dotProduct]
    rw [Fintype.sum_prod_type]
    rw [Finset.sum_eq_single p.1]
    · simp only [if_true]
      have : ∑ k, (o.Gᵀ * diagonal (o.mid m) * o.G) p.2 k * v (p.1, k)
          = ((o.Gᵀ * diagonal (o.mid m) * o.G) *ᵥ fun k => v (p.1, k)) p.2 := rfl
      rw [this, ← Matrix.mulVec_mulVec, ← Matrix.mulVec_mulVec, diag_mulVec]
      rfl
    · intro i _ hi; simp [Ne.symm hi]
    · intro hh; exact absurd (Finset.mem_univ _) hh
  have hrow : o.row m *ᵥ v = fun c => o.sq m c ^ (-1.5 : ℝ) * (o.W *ᵥ ∑ i, o.g m i * o.g v i) c := by
    funext c
    have : (o.row m *ᵥ v) c = ∑ i, ((diagonal (fun c => o.sq m c ^ (-1.5 : ℝ)) * o.W *
        diagonal (o.g m i) * o.G) *ᵥ fun k => v (i, k)) c := by
      simp only [Matrix.mulVec, dotProduct, Jtv.row]
      rw [Fintype.sum_prod_type]
    rw [this]
    simp only [← Matrix.mulVec_mulVec, diag_mulVec, Pi.mul_apply]
    rw [← Finset.mul_sum, Matrix.mulVec_sum, Finset.sum_apply]
    rfl
  have hrowT : ∀ y : κ → ℝ, (o.row m)ᵀ *ᵥ y = fun p =>
      (o.Gᵀ *ᵥ (o.g m p.1 * (o.Wᵀ *ᵥ fun c => o.sq m c ^ (-1.5 : ℝ) * y c))) p.2 := by
    intro y
    funext p
    have : ((o.row m)ᵀ *ᵥ y) p = ((diagonal (fun c => o.sq m c ^ (-1.5 : ℝ)) * o.W *
        diagonal (o.g m p.1) * o.G)ᵀ *ᵥ y) p.2 := rfl
    rw [this]
    simp only [Matrix.transpose_mul, Matrix.diagonal_transpose, ← Matrix.mulVec_mulVec, diag_mulVec]
    rfl
  unfold Jtv.deriv2 Jtv.deriv2v
  rw [Matrix.sub_mulVec, hdiag, ← Matrix.mulVec_mulVec, hrow, hrowT]
  funext p
  simp only [Pi.sub_apply, Matrix.mulVec_sub]
  congr 3
  rw [← Matrix.mulVec_sum]
  congr 2
  funext c
  rw [Finset.sum_apply, ← mul_assoc, pow_three _ (sq_pos' o h m c), Matrix.mulVec_sum,
    Finset.sum_apply, Finset.mul_sum]
  exact Finset.sum_congr rfl fun i _ => by rw [one_div, inv_mul_eq_div]

/-- C81: `deriv2` is the Hessian of the value. -/
theorem C81_hessian (o : Jtv κ φ) (h : o.Good) (m : π × κ → ℝ) :
    IsJacobian o.deriv (o.deriv2 m) m := by
  have hinv := (sq_jac o h m).inv fun c => (sq_pos' o h m c).ne'
  have hmid := IsJacobian.mulVec o.Wᵀ hinv
  have hT := IsJacobian.sum fun i : π =>
    IsJacobian.mulVec (sel κ i)ᵀ (IsJacobian.mulVec o.Gᵀ (hmid.mul (g_jac o i m)))
  have hf : o.deriv = fun x : π × κ → ℝ => ∑ i : π, (sel κ i)ᵀ *ᵥ (o.Gᵀ *ᵥ
      ((o.Wᵀ *ᵥ fun c => (o.sq x c)⁻¹) * o.g x i)) := by
    funext x
    rw [sel_sum fun i => o.Gᵀ *ᵥ ((o.Wᵀ *ᵥ fun c => (o.sq x c)⁻¹) * o.g x i)]
    funext p
    unfold Jtv.deriv Jtv.mid
    simp only [one_div]
  rw [hf]
  refine hT.of_mulVec fun v => ?_
  rw [C81_hessian_product o h, Matrix.sum_mulVec]
  have e : ∀ i : π, ∀ B : Matrix κ (π × κ) ℝ, ((sel κ i)ᵀ * B) *ᵥ v = (sel κ i)ᵀ *ᵥ (B *ᵥ v) :=
    fun i B => (Matrix.mulVec_mulVec _ _ _).symm
  simp only [e]
  rw [sel_sum]
  funext p
  simp only [← Matrix.mulVec_mulVec v o.Gᵀ, Matrix.add_mulVec]
  unfold Jtv.deriv2v
  refine congrFun (congrArg (fun z => o.Gᵀ *ᵥ z) ?_) p.2
  rw [← Matrix.mulVec_mulVec v (diagonal _) (o.G * _), diag_mulVec, g_sel,
    ← Matrix.mulVec_mulVec v (diagonal _), diag_mulVec, ← Matrix.mulVec_mulVec v o.Wᵀ,
    ← Matrix.mulVec_mulVec v (diagonal _), diag_mulVec]
  have e2 : ((fun c => -(o.sq m c ^ 2)⁻¹) * o.sqJ m *ᵥ v) =
      -∑ i, fun c => (o.W *ᵥ (o.g m i * o.g v i)) c / o.sq m c ^ 3 := by
    funext c
    rw [Pi.mul_apply, sqJ_mulVec, Pi.neg_apply, Finset.sum_apply, Matrix.mulVec_sum,
      Finset.sum_apply]
    simp only [div_eq_mul_inv]
    rw [← Finset.sum_mul]
    have := (sq_pos' o h m c).ne'
    field_simp
  rw [e2, Matrix.mulVec_neg, Matrix.mulVec_sum]
  unfold Jtv.mid
  funext f
  simp only [one_div, Pi.add_apply, Pi.mul_apply, Pi.sub_apply, Pi.neg_apply]
  ring

/-- C81: the Hessian is symmetric. -/
theorem C81_hessian_symmetric (o : Jtv κ φ) (m : π × κ → ℝ) : (o.deriv2 m)ᵀ = o.deriv2 m := by
  unfold Jtv.deriv2
  rw [Matrix.transpose_sub, Matrix.transpose_mul, Matrix.transpose_transpose]
  congr 1
  ext p q
  have hs : (o.Gᵀ * diagonal (o.mid m) * o.G)ᵀ = o.Gᵀ * diagonal (o.mid m) * o.G := by
    simp [Matrix.transpose_mul, Matrix.mul_assoc]
  simp only [Matrix.transpose_apply, Jtv.diag, eq_comm (a := q.1)]
  split
  · exact congrFun (congrFun hs p.2) q.2
  · rfl

theorem hessian_dot (o : Jtv κ φ) (m v : π × κ → ℝ) :
    o.deriv2v m v ⬝ᵥ v = ∑ c, ((o.W *ᵥ ∑ i, o.g v i * o.g v i) c / o.sq m c -
      (o.W *ᵥ ∑ i, o.g m i * o.g v i) c ^ 2 / o.sq m c ^ 3) := by
  have hd := deriv_dot o (fun i => o.mid m * o.g v i - o.g m i * ∑ j, o.Wᵀ *ᵥ fun c =>
    (o.W *ᵥ (o.g m j * o.g v j)) c / o.sq m c ^ 3) v
  refine hd.trans ?_
  simp only [sub_dotProduct, Finset.sum_sub_distrib]
  congr 1
  · have e : ∀ i, (o.mid m * o.g v i) ⬝ᵥ o.g v i = o.mid m ⬝ᵥ (o.g v i * o.g v i) := fun i => by
      simp [dotProduct, mul_assoc]
    simp only [e, ← dotProduct_sum]
    unfold Jtv.mid
    rw [Matrix.mulVec_transpose, ← Matrix.dotProduct_mulVec]
    exact Finset.sum_congr rfl fun c _ => by ring
  · rw [← Matrix.mulVec_sum]
    set y := ∑ j, fun c => (o.W *ᵥ (o.g m j * o.g v j)) c / o.sq m c ^ 3 with hy
    have e : ∀ i, (o.g m i * o.Wᵀ *ᵥ y) ⬝ᵥ o.g v i = (o.Wᵀ *ᵥ y) ⬝ᵥ (o.g m i * o.g v i) := fun i => by
      simp only [dotProduct, Pi.mul_apply]
      exact Finset.sum_congr rfl fun f _ => by ring
    simp only [e, ← dotProduct_sum]
    rw [Matrix.mulVec_transpose, ← Matrix.dotProduct_mulVec]
    refine Finset.sum_congr rfl fun c _ => ?_
    have hyc : y c = (o.W *ᵥ ∑ j, o.g m j * o.g v j) c / o.sq m c ^ 3 := by
      rw [hy, Finset.sum_apply, Matrix.mulVec_sum, Finset.sum_apply]
      simp only [div_eq_mul_inv]
      rw [← Finset.sum_mul]
    rw [hyc]
    ring

/-- The inequality of Cauchy and Schwarz for the weights of a cell. -/
theorem cauchy (o : Jtv κ φ) (h : o.Good) (m v : π × κ → ℝ) (c : κ) :
    (o.W *ᵥ ∑ i, o.g m i * o.g v i) c ^ 2 ≤
      (o.W *ᵥ ∑ i, o.g m i * o.g m i) c * (o.W *ᵥ ∑ i, o.g v i * o.g v i) c := by
  have e : ∀ a b : π → φ → ℝ, (o.W *ᵥ ∑ i, a i * b i) c =
      ∑ p : φ × π, (Real.sqrt (o.W c p.1) * a p.2 p.1) * (Real.sqrt (o.W c p.1) * b p.2 p.1) := by
    intro a b
    rw [Fintype.sum_prod_type]
    simp only [Matrix.mulVec, dotProduct, Finset.sum_apply, Pi.mul_apply, Finset.mul_sum]
    refine Finset.sum_congr rfl fun f _ => Finset.sum_congr rfl fun i _ => ?_
    have := Real.mul_self_sqrt (W_nonneg o h c f)
    calc o.W c f * (a i f * b i f) = (Real.sqrt (o.W c f) * Real.sqrt (o.W c f)) * (a i f * b i f) := by
          rw [this]
      _ = _ := by ring
  rw [e, e, e]
  have := Finset.sum_mul_sq_le_sq_mul_sq Finset.univ
    (fun p : φ × π => Real.sqrt (o.W c p.1) * o.g m p.2 p.1)
    (fun p : φ × π => Real.sqrt (o.W c p.1) * o.g v p.2 p.1)
  simp only [pow_two] at this ⊢
  exact this

/-- C81: the Hessian is positive semidefinite. -/
theorem C81_hessian_psd (o : Jtv κ φ) (h : o.Good) (m v : π × κ → ℝ) :
    0 ≤ (o.deriv2 m *ᵥ v) ⬝ᵥ v := by
  rw [C81_hessian_product o h, hessian_dot]
  refine Finset.sum_nonneg fun c _ => ?_
  have hs := sq_pos' o h m c
  have hsq : o.sq m c ^ 2 = (o.W *ᵥ ∑ i, o.g m i * o.g m i) c + o.eps * o.vol c ^ 2 :=
    Real.sq_sqrt (arg_pos o h m c).le
  have hc := cauchy o h m v c
  have hv := Wg_nonneg o h v c
  have he := eps_pos o h c
  have e : (o.W *ᵥ ∑ i, o.g v i * o.g v i) c / o.sq m c -
      (o.W *ᵥ ∑ i, o.g m i * o.g v i) c ^ 2 / o.sq m c ^ 3 =
      (o.sq m c ^ 2 * (o.W *ᵥ ∑ i, o.g v i * o.g v i) c -
        (o.W *ᵥ ∑ i, o.g m i * o.g v i) c ^ 2) / o.sq m c ^ 3 := by
    field_simp
  rw [e]
  refine div_nonneg ?_ (pow_pos hs 3).le
  rw [hsq]
  nlinarith [mul_nonneg he.le hv]

/-- C81: with positive `eps` no value or derivative divides by zero or takes the root of a negative
number. -/
theorem C81_defined (o : Jtv κ φ) (h : o.Good) (m : π × κ → ℝ) (c : κ) :
    0 < (o.W *ᵥ ∑ i, o.g m i * o.g m i) c + o.eps * o.vol c ^ 2 ∧ 0 < o.sq m c :=
  ⟨arg_pos o h m c, sq_pos' o h m c⟩

/-- C81 is violated: `eps` is not validated. With `eps = 0` the derivative divides by zero at every
constant model. -/
theorem C81_violated_eps (o : Jtv κ φ) (h : o.eps = 0) (m : π × κ → ℝ) (hm : ∀ i, o.g m i = 0)
    (c : κ) : o.sq m c = 0 := by
  simp [Jtv.sq, hm, h]

/-! ### Linear correspondence -/

/-- `LinearCorrespondence.coefficients` (`simpeg/regularization/correspondence.py` 54-87), set to
(1, -1, 0) if not given. -/
structure Lin where
  k1 : ℝ := 1
  k2 : ℝ := -1
  k3 : ℝ := 0

/-- `LinearCorrespondence.relation` (`simpeg/regularization/correspondence.py` 89-116). -/
def Lin.relation (o : Lin) (m : κ ⊕ κ → ℝ) : κ → ℝ :=
  fun c => o.k1 * m (.inl c) + o.k2 * m (.inr c) + o.k3

/-- `LinearCorrespondence.__call__` (`simpeg/regularization/correspondence.py` 118-133). -/
def Lin.value (o : Lin) (m : κ ⊕ κ → ℝ) : ℝ := o.relation m ⬝ᵥ o.relation m

/-- `LinearCorrespondence.deriv` (`simpeg/regularization/correspondence.py` 135-170). -/
def Lin.deriv (o : Lin) (m : κ ⊕ κ → ℝ) : κ ⊕ κ → ℝ :=
  (2 : ℝ) • Sum.elim (fun c => o.k1 * o.relation m c) fun c => o.k2 * o.relation m c

/-- `LinearCorrespondence.deriv2(model, v)` (`simpeg/regularization/correspondence.py` 215-220). -/
def Lin.deriv2v (o : Lin) (v : κ ⊕ κ → ℝ) : κ ⊕ κ → ℝ :=
  (2 : ℝ) • Sum.elim (fun c => o.k1 ^ 2 * v (.inl c) + o.k2 * o.k1 * v (.inr c))
    fun c => o.k2 * o.k1 * v (.inl c) + o.k2 ^ 2 * v (.inr c)

/-- `LinearCorrespondence.deriv2(model)` (`simpeg/regularization/correspondence.py` 221-226); `κ'`
are the cells of the regularization mesh, of which the sizes of the wires are independent. -/
def Lin.deriv2 (o : Lin) (κ' : Type) [DecidableEq κ'] : Matrix (κ' ⊕ κ') (κ' ⊕ κ') ℝ :=
  (2 : ℝ) • Matrix.fromBlocks (diagonal fun _ => o.k1 ^ 2) (diagonal fun _ => o.k1 * o.k2)
    (diagonal fun _ => o.k1 * o.k2) (diagonal fun _ => o.k2 ^ 2)

/-- C82: the value is the documented square of the norm. -/
theorem C82_value (o : Lin) (m : κ ⊕ κ → ℝ) :
    o.value m = ∑ c, (o.k1 * m (.inl c) + o.k2 * m (.inr c) + o.k3) ^ 2 := by
  simp [Lin.value, Lin.relation, dotProduct, pow_two]

/-- C82: the value is never negative and is zero exactly for the models which obey the relation in
every cell; by default for equal properties. -/
theorem C82_zero (o : Lin) (m : κ ⊕ κ → ℝ) :
    0 ≤ o.value m ∧ (o.value m = 0 ↔ ∀ c, o.k1 * m (.inl c) + o.k2 * m (.inr c) + o.k3 = 0) ∧
      (Lin.value {} m = 0 ↔ ∀ c, m (.inl c) = m (.inr c)) := by
  have key : ∀ o : Lin, o.value m = 0 ↔
      ∀ c, o.k1 * m (.inl c) + o.k2 * m (.inr c) + o.k3 = 0 := by
    intro o
    rw [C82_value, Finset.sum_eq_zero_iff_of_nonneg fun c _ => sq_nonneg _]
    simp
  refine ⟨?_, key o, ?_⟩
  · rw [C82_value]; exact Finset.sum_nonneg fun c _ => sq_nonneg _
  · rw [key]
    refine forall_congr' fun c => ?_
    simp only
    constructor <;> intro h <;> linarith

/-- The Jacobian of the relation. -/
def Lin.J (o : Lin) (κ : Type) [DecidableEq κ] : Matrix κ (κ ⊕ κ) ℝ :=
  Matrix.fromCols (diagonal fun _ => o.k1) (diagonal fun _ => o.k2)

theorem J_mulVec (o : Lin) (v : κ ⊕ κ → ℝ) :
    o.J κ *ᵥ v = fun c => o.k1 * v (.inl c) + o.k2 * v (.inr c) := by
  funext c
  unfold Lin.J
  rw [Matrix.fromCols_mulVec]
  simp [diag_mulVec]

theorem relation_jac (o : Lin) (m : κ ⊕ κ → ℝ) : IsJacobian o.relation (o.J κ) m := by
  have h := (isJacobian_mulVec (o.J κ) m).add (isJacobian_const (fun _ => o.k3) m)
  rw [add_zero] at h
  simp only [J_mulVec] at h
  exact h

/-- C82: `deriv` is the gradient of the value. -/
theorem C82_gradient (o : Lin) (m : κ ⊕ κ → ℝ) : IsGradient o.value (o.deriv m) m := by
  have h := isGradient_sum (g := o.deriv m) ((relation_jac o m).mul (relation_jac o m)) fun v => by
    simp only [Matrix.add_mulVec, ← Matrix.mulVec_mulVec, diag_mulVec, J_mulVec]
    simp only [Lin.deriv, dotProduct, Fintype.sum_sum_type, Pi.smul_apply, Sum.elim_inl,
      Sum.elim_inr, smul_eq_mul, Pi.add_apply, Pi.mul_apply]
    rw [← Finset.sum_add_distrib]
    exact Finset.sum_congr rfl fun c _ => by ring
  exact h

/-- C82: the product with a vector is the product with the matrix. -/
theorem C82_hessian_product (o : Lin) (v : κ ⊕ κ → ℝ) : o.deriv2 κ *ᵥ v = o.deriv2v v := by
  unfold Lin.deriv2 Lin.deriv2v
  rw [Matrix.smul_mulVec, Matrix.fromBlocks_mulVec]
  congr 1
  funext x
  rcases x with c | c <;> simp [diag_mulVec, Pi.mul_apply] <;> exact .inl (mul_comm _ _)

/-- C82: `deriv2` is the Hessian of the value. -/
theorem C82_hessian (o : Lin) (m : κ ⊕ κ → ℝ) : IsJacobian o.deriv (o.deriv2 κ) m := by
  have hd : o.deriv = fun x : κ ⊕ κ → ℝ => ((2 : ℝ) • (o.J κ)ᵀ) *ᵥ o.relation x := by
    funext x
    unfold Lin.deriv Lin.J
    rw [Matrix.smul_mulVec, Matrix.transpose_fromCols, Matrix.fromRows_mulVec]
    congr 1
    funext y
    rcases y with c | c <;> simp [diag_mulVec]
  rw [hd]
  refine (IsJacobian.mulVec _ (relation_jac o m)).of_mulVec fun v => ?_
  rw [C82_hessian_product, ← Matrix.mulVec_mulVec, J_mulVec, Matrix.smul_mulVec]
  unfold Lin.deriv2v Lin.J
  rw [Matrix.transpose_fromCols, Matrix.fromRows_mulVec]
  congr 1
  funext y
  rcases y with c | c <;> simp [diag_mulVec] <;> ring

/-- C82: the Hessian is symmetric and positive semidefinite, hence the term is convex. -/
theorem C82_hessian_psd (o : Lin) (v : κ ⊕ κ → ℝ) :
    (o.deriv2 κ)ᵀ = o.deriv2 κ ∧ (o.deriv2 κ *ᵥ v) ⬝ᵥ v =
      2 * ∑ c, (o.k1 * v (.inl c) + o.k2 * v (.inr c)) ^ 2 := by
  constructor
  · unfold Lin.deriv2
    rw [Matrix.transpose_smul, Matrix.fromBlocks_transpose]
    simp
  · rw [C82_hessian_product]
    simp only [Lin.deriv2v, dotProduct, Fintype.sum_sum_type, Pi.smul_apply, Sum.elim_inl,
      Sum.elim_inr, smul_eq_mul]
    rw [Finset.mul_sum, ← Finset.sum_add_distrib]
    exact Finset.sum_congr rfl fun c _ => by ring

/-! ### Wires -/

/-- `BaseSimilarityMeasure.wire_map` (`simpeg/regularization/base.py` 2404-2415), given the sizes of
the maps of the wires. With another number of maps than two no `ValueError` is raised, but the
variables are unbound in the following line (2407-2411). The size of the mesh is not looked at. -/
def setWires (_nC : ℕ) : List ℕ → Except Err (List ℕ)
  | [a, b] => if a ≠ b then .error .valueError else .ok [a, b]
  | _ => .error .exception

/-- `JointTotalVariation.wire_map` (`simpeg/regularization/jtv.py` 158-169). -/
def setWiresJtv (nC : ℕ) (sizes : List ℕ) : Except Err (List ℕ) :=
  if sizes.any (nC ≠ ·) then .error .valueError else .ok sizes

/-- C81: wires are accepted if and only if all properties have the size of the mesh. -/
theorem C81_wires (nC : ℕ) (sizes : List ℕ) :
    (∀ n ∈ sizes, n = nC) ∧ setWiresJtv nC sizes = .ok sizes ∨
      (∃ n ∈ sizes, n ≠ nC) ∧ setWiresJtv nC sizes = .error .valueError := by
  by_cases h : ∀ n ∈ sizes, n = nC
  · refine .inl ⟨h, ?_⟩
    have : sizes.any (nC ≠ ·) = false := by
      rw [List.any_eq_false]; intro n hn; simp [h n hn]
    unfold setWiresJtv
    rw [this]; simp
  · refine .inr ⟨by push Not at h; exact h, ?_⟩
    push Not at h
    obtain ⟨n, hn, hne⟩ := h
    have : sizes.any (nC ≠ ·) = true := List.any_eq_true.2 ⟨n, hn, by simpa using hne.symm⟩
    unfold setWiresJtv
    rw [this]; simp

/-- C82: exactly two properties of the same size are accepted. Missing: that it is the size of the
mesh, see `C82_violated_size`. -/
theorem C82_wires_partial (nC : ℕ) (sizes s : List ℕ) :
    setWires nC sizes = .ok s ↔ ∃ n, sizes = [n, n] ∧ s = [n, n] := by
  unfold setWires
  split
  · rename_i a b
    by_cases h : a = b
    · subst h; simp [eq_comm]
    · simp only [ne_eq, h, not_false_eq_true, if_true, reduceCtorEq, false_iff]
      rintro ⟨n, h1, -⟩
      simp only [List.cons.injEq, and_true] at h1
      exact h (h1.1.trans h1.2.symm)
  · rename_i hne
    simp only [reduceCtorEq, false_iff]
    rintro ⟨n, rfl, -⟩
    exact hne n n rfl

/-- C82 is violated: properties of any size are accepted, and then the Hessian has the size of the
mesh and not the size of the gradient. -/
theorem C82_violated_size (nC n : ℕ) (h : n ≠ nC) :
    setWires nC [n, n] = .ok [n, n] ∧
      Fintype.card (Fin nC ⊕ Fin nC) ≠ Fintype.card (Fin n ⊕ Fin n) := by
  refine ⟨by simp [setWires], ?_⟩
  simp only [Fintype.card_sum, Fintype.card_fin]
  omega

/-! ### Concrete objects -/

/-- Three cells of length 1 in a row with two faces between them, and weights of one. -/
def toyJtv : Jtv (Fin 3) (Fin 2) where
  G := !![-1, 1, 0; 0, -1, 1]
  A := !![1/2, 0; 1/2, 1/2; 0, 1/2]
  vol _ := 1
  weights _ := 1
  eps := 1 / 4

example : toyJtv.Good where
  avg := by
    intro c f
    fin_cases c <;> fin_cases f <;> simp [toyJtv]
  vol _ := by simp [toyJtv]
  eps := by simp [toyJtv]

/-- A model with two properties, of which one jumps. -/
example : Jtv.value (π := Fin 2) toyJtv (fun p => if p = (1, 2) then 1 else 0) =
    1 / 2 + Real.sqrt 3 := by
  have h4 : Real.sqrt 4 = 2 := by
    rw [show (4 : ℝ) = 2 ^ 2 by norm_num, Real.sqrt_sq (by norm_num)]
  rw [C81_value]
  simp [toyJtv, Fin.sum_univ_succ, Prod.ext_iff]
  rw [show ((2 : ℝ)⁻¹ + 4⁻¹) = 3 / 4 by norm_num, Real.sqrt_div (by norm_num), h4]
  ring

/-- The default coefficients, one cell. -/
example : Lin.value {} (Sum.elim (fun _ : Fin 2 => 3) fun _ => 1) = 8 := by
  rw [C82_value]
  simp
  norm_num

end Verif.Reg.Joint
