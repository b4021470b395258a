import Verif.Reg.Calculus
import Mathlib.Analysis.Calculus.FDeriv.Mul
import Mathlib.Analysis.Calculus.FDeriv.Pow
import Mathlib.Analysis.SpecialFunctions.Pow.Real
import Mathlib.LinearAlgebra.CrossProduct
import Mathlib.Algebra.Order.BigOperators.Ring.Finset
import Mathlib.Data.Matrix.Block

/-!
C80: the cross-gradient coupling term of joint inversions
(`simpeg/regularization/cross_gradient.py`). A model holds two properties, one after the other:
`κ ⊕ κ` are its entries, `κ` the active cells, `φ` the active faces (of all directions). Simplified:
the wires are those of two properties of the size of the mesh, in the order of the model.
-/

noncomputable section
namespace Verif.Reg.CrossGrad
open Matrix

variable {κ φ : Type} [Fintype κ] [Fintype φ] [DecidableEq κ] [DecidableEq φ]

set_option linter.unusedSectionVars false

/-- A `CrossGradient` object: gradient (cells to faces) and average (faces to cells) of the
regularization mesh, cell volumes, the product of the registered weights, and the flag
`approx_hessian` (`simpeg/regularization/cross_gradient.py` 132-159). -/
structure Obj (κ φ : Type) where
  G : Matrix φ κ ℝ
  A : Matrix κ φ ℝ
  vol : κ → ℝ
  weights : κ → ℝ
  approx : Bool

/-- `self._Av` (`simpeg/regularization/cross_gradient.py` 141). -/
def Obj.Av (o : Obj κ φ) : Matrix κ φ ℝ := diagonal (fun c => Real.sqrt (o.vol c)) * o.A

/-- `G @ m1` and `G @ m2` with `m1, m2 = self.wire_map * model`
(`simpeg/regularization/cross_gradient.py` 246-250). -/
def Obj.g1 (o : Obj κ φ) (m : κ ⊕ κ → ℝ) : φ → ℝ := o.G *ᵥ fun c => m (.inl c)

@[inherit_doc Obj.g1]
def Obj.g2 (o : Obj κ φ) (m : κ ⊕ κ → ℝ) : φ → ℝ := o.G *ᵥ fun c => m (.inr c)

/-- `CrossGradient.__call__` (`simpeg/regularization/cross_gradient.py` 230-251). -/
def Obj.value (o : Obj κ φ) (m : κ ⊕ κ → ℝ) : ℝ :=
  ∑ c, ((o.Av *ᵥ (o.g1 m * o.g1 m)) c * (o.Av *ᵥ (o.g2 m * o.g2 m)) c
    - ((o.Av *ᵥ (o.g1 m * o.g2 m)) c) ^ 2)

/-- `CrossGradient.deriv` (`simpeg/regularization/cross_gradient.py` 253-297). -/
def Obj.deriv (o : Obj κ φ) (m : κ ⊕ κ → ℝ) : κ ⊕ κ → ℝ :=
  (2 : ℝ) • Sum.elim
    ((((o.Av *ᵥ (o.g2 m * o.g2 m)) ᵥ* o.Av) * o.g1 m) ᵥ* o.G
      - (((o.Av *ᵥ (o.g1 m * o.g2 m)) ᵥ* o.Av) * o.g2 m) ᵥ* o.G)
    ((((o.Av *ᵥ (o.g1 m * o.g1 m)) ᵥ* o.Av) * o.g2 m) ᵥ* o.G
      - (((o.Av *ᵥ (o.g1 m * o.g2 m)) ᵥ* o.Av) * o.g1 m) ᵥ* o.G)

/-- The three vectors `d11_mid`, `d12_mid`, `d22_mid`
(`simpeg/regularization/cross_gradient.py` 345-347). -/
def Obj.d11 (o : Obj κ φ) (m : κ ⊕ κ → ℝ) : φ → ℝ := o.Avᵀ *ᵥ (o.Av *ᵥ (o.g2 m * o.g2 m))

@[inherit_doc Obj.d11]
def Obj.d12 (o : Obj κ φ) (m : κ ⊕ κ → ℝ) : φ → ℝ := -(o.Avᵀ *ᵥ (o.Av *ᵥ (o.g1 m * o.g2 m)))

@[inherit_doc Obj.d11]
def Obj.d22 (o : Obj κ φ) (m : κ ⊕ κ → ℝ) : φ → ℝ := o.Avᵀ *ᵥ (o.Av *ᵥ (o.g1 m * o.g1 m))

/-- `CrossGradient.deriv2(model)`: the matrix (`simpeg/regularization/cross_gradient.py`
349-369). -/
def Obj.deriv2 (o : Obj κ φ) (m : κ ⊕ κ → ℝ) : Matrix (κ ⊕ κ) (κ ⊕ κ) ℝ :=
  let D11 := if o.approx then diagonal (o.d11 m)
    else diagonal (o.d11 m) - diagonal (o.g2 m) * o.Avᵀ * o.Av * diagonal (o.g2 m)
  let D12 := if o.approx then diagonal (o.d12 m)
    else diagonal (o.d12 m) + (2 : ℝ) • diagonal (o.g1 m) * o.Avᵀ * o.Av * diagonal (o.g2 m)
      - diagonal (o.g2 m) * o.Avᵀ * o.Av * diagonal (o.g1 m)
  let D22 := if o.approx then diagonal (o.d22 m)
    else diagonal (o.d22 m) - diagonal (o.g1 m) * o.Avᵀ * o.Av * diagonal (o.g1 m)
  (2 : ℝ) • fromBlocks (o.Gᵀ * D11 * o.G) (o.Gᵀ * D12 * o.G) ((o.Gᵀ * D12 * o.G)ᵀ)
    (o.Gᵀ * D22 * o.G)

/-- `CrossGradient.deriv2(model, v)` (`simpeg/regularization/cross_gradient.py` 371-393). -/
def Obj.deriv2v (o : Obj κ φ) (m v : κ ⊕ κ → ℝ) : κ ⊕ κ → ℝ :=
  let Gv1 := o.G *ᵥ fun c => v (.inl c)
  let Gv2 := o.G *ᵥ fun c => v (.inr c)
  let p1 := o.Gᵀ *ᵥ (o.d11 m * Gv1 + o.d12 m * Gv2)
  let p2 := o.Gᵀ *ᵥ (o.d12 m * Gv1 + o.d22 m * Gv2)
  let p1 := if o.approx then p1 else p1 + o.Gᵀ *ᵥ
    (-o.g2 m * (o.Avᵀ *ᵥ (o.Av *ᵥ (o.g2 m * Gv1)))
      + (2 : ℝ) • o.g1 m * (o.Avᵀ *ᵥ (o.Av *ᵥ (o.g2 m * Gv2)))
      - o.g2 m * (o.Avᵀ *ᵥ (o.Av *ᵥ (o.g1 m * Gv2))))
  let p2 := if o.approx then p2 else p2 + o.Gᵀ *ᵥ
    (-o.g1 m * (o.Avᵀ *ᵥ (o.Av *ᵥ (o.g1 m * Gv2)))
      + (2 : ℝ) • o.g2 m * (o.Avᵀ *ᵥ (o.Av *ᵥ (o.g1 m * Gv1)))
      - o.g1 m * (o.Avᵀ *ᵥ (o.Av *ᵥ (o.g2 m * Gv1))))
  (2 : ℝ) • Sum.elim p1 p2

/-! ### Specification -/

/-- What the documentation says the term is (`simpeg/regularization/cross_gradient.py` 67-83):
the weighted sum over the cells of `|∇m₁|² |∇m₂|² - (∇m₁ · ∇m₂)²`, squares and products of
gradients averaged from the faces. -/
def documented (w : κ → ℝ) (A : Matrix κ φ ℝ) (a b : φ → ℝ) : ℝ :=
  ∑ c, w c * ((∑ f, A c f * a f ^ 2) * (∑ f, A c f * b f ^ 2) - (∑ f, A c f * (a f * b f)) ^ 2)

/-! ### Value -/

theorem Av_mulVec (o : Obj κ φ) (x : φ → ℝ) (c : κ) :
    (o.Av *ᵥ x) c = Real.sqrt (o.vol c) * ∑ f, o.A c f * x f := by
  simp only [Obj.Av, ← Matrix.mulVec_mulVec, Matrix.mulVec_diagonal]
  rfl

/-- C80: the value is the documented one for the weights of a fresh object, the cell volumes. -/
theorem C80_value (o : Obj κ φ) (hv : ∀ c, 0 ≤ o.vol c) (m : κ ⊕ κ → ℝ) :
    o.value m = documented o.vol o.A (o.g1 m) (o.g2 m) := by
  unfold Obj.value documented
  refine Finset.sum_congr rfl fun c _ => ?_
  rw [Av_mulVec, Av_mulVec, Av_mulVec]
  have hs := Real.mul_self_sqrt (hv c)
  have e1 : ∀ x : φ → ℝ, ∑ f, o.A c f * (x * x) f = ∑ f, o.A c f * x f ^ 2 := fun x =>
    Finset.sum_congr rfl fun f _ => by rw [Pi.mul_apply, pow_two]
  have e2 : ∑ f, o.A c f * (o.g1 m * o.g2 m) f = ∑ f, o.A c f * (o.g1 m f * o.g2 m f) := rfl
  rw [e1, e1, e2]
  linear_combination ((∑ f, o.A c f * o.g1 m f ^ 2) * (∑ f, o.A c f * o.g2 m f ^ 2)
    - (∑ f, o.A c f * (o.g1 m f * o.g2 m f)) ^ 2) * hs

/-- One cell is not negative: Cauchy and Schwarz with the averaging weights. -/
theorem cell_nonneg {A : φ → ℝ} (hA : ∀ f, 0 ≤ A f) (a b : φ → ℝ) :
    (∑ f, A f * (a f * b f)) ^ 2 ≤ (∑ f, A f * a f ^ 2) * (∑ f, A f * b f ^ 2) := by
  have h := Finset.sum_mul_sq_le_sq_mul_sq Finset.univ (fun f => Real.sqrt (A f) * a f)
    (fun f => Real.sqrt (A f) * b f)
  have e1 : ∀ f, Real.sqrt (A f) * a f * (Real.sqrt (A f) * b f) = A f * (a f * b f) := fun f => by
    have := Real.mul_self_sqrt (hA f); linear_combination (a f * b f) * this
  have e2 : ∀ (x : φ → ℝ) f, (Real.sqrt (A f) * x f) ^ 2 = A f * x f ^ 2 := fun x f => by
    rw [mul_pow, Real.sq_sqrt (hA f)]
  simpa only [e1, e2] using h

/-- C80: the value is never negative. -/
theorem C80_nonneg (o : Obj κ φ) (hv : ∀ c, 0 ≤ o.vol c) (hA : ∀ c f, 0 ≤ o.A c f)
    (m : κ ⊕ κ → ℝ) : 0 ≤ o.value m := by
  rw [C80_value o hv]
  exact Finset.sum_nonneg fun c _ => mul_nonneg (hv c) (sub_nonneg.2 (cell_nonneg (hA c) _ _))

/-- C80: the value is zero if the gradients of the two properties are parallel everywhere, in
particular if one property is an affine function of the other. -/
theorem C80_parallel (o : Obj κ φ) (hv : ∀ c, 0 ≤ o.vol c) (m : κ ⊕ κ → ℝ)
    (h : ∀ c, ∃ s t : ℝ, (s ≠ 0 ∨ t ≠ 0) ∧ ∀ f, o.A c f ≠ 0 → s * o.g1 m f = t * o.g2 m f) :
    o.value m = 0 := by
  rw [C80_value o hv]
  refine Finset.sum_eq_zero fun c _ => ?_
  obtain ⟨s, t, hst, hf⟩ := h c
  have key : ∀ x : φ → ℝ, s * ∑ f, o.A c f * (o.g1 m f * x f) = t * ∑ f, o.A c f * (o.g2 m f * x f) := by
    intro x
    rw [Finset.mul_sum, Finset.mul_sum]
    refine Finset.sum_congr rfl fun f _ => ?_
    by_cases h0 : o.A c f = 0
    · simp [h0]
    · linear_combination (o.A c f * x f) * hf f h0
  have k1 := key (o.g1 m)
  have k2 := key (o.g2 m)
  have e1 : ∀ x : φ → ℝ, ∑ f, o.A c f * x f ^ 2 = ∑ f, o.A c f * (x f * x f) := fun x =>
    Finset.sum_congr rfl fun f _ => by rw [pow_two]
  have e3 : ∑ f, o.A c f * (o.g2 m f * o.g1 m f) = ∑ f, o.A c f * (o.g1 m f * o.g2 m f) :=
    Finset.sum_congr rfl fun f _ => by ring
  rw [e3] at k1
  rw [e1, e1]
  set X := ∑ f, o.A c f * (o.g1 m f * o.g1 m f)
  set Y := ∑ f, o.A c f * (o.g1 m f * o.g2 m f)
  set Z := ∑ f, o.A c f * (o.g2 m f * o.g2 m f)
  have : X * Z - Y ^ 2 = 0 := by
    rcases hst with hs | ht
    · have : s * (X * Z - Y ^ 2) = 0 := by linear_combination Z * k1 - Y * k2
      exact (mul_eq_zero.1 this).resolve_left hs
    · have : t * (X * Z - Y ^ 2) = 0 := by linear_combination Y * k1 - X * k2
      exact (mul_eq_zero.1 this).resolve_left ht
  rw [this, mul_zero]

/-! ### Derivatives -/

/-- The matrix which selects the first or second property. -/
def S1 (κ : Type) [DecidableEq κ] : Matrix κ (κ ⊕ κ) ℝ := fun c p => if p = .inl c then 1 else 0

@[inherit_doc S1]
def S2 (κ : Type) [DecidableEq κ] : Matrix κ (κ ⊕ κ) ℝ := fun c p => if p = .inr c then 1 else 0

theorem S1_mulVec (v : κ ⊕ κ → ℝ) : S1 κ *ᵥ v = fun c => v (.inl c) := by
  funext c; simp [S1, Matrix.mulVec, dotProduct]

theorem S2_mulVec (v : κ ⊕ κ → ℝ) : S2 κ *ᵥ v = fun c => v (.inr c) := by
  funext c; simp [S2, Matrix.mulVec, dotProduct]

theorem S_elim (x y : κ → ℝ) : (S1 κ)ᵀ *ᵥ x + (S2 κ)ᵀ *ᵥ y = Sum.elim x y := by
  funext p
  rcases p with p | p <;> simp [S1, S2, Matrix.mulVec, dotProduct]

theorem g1_jac (o : Obj κ φ) (m : κ ⊕ κ → ℝ) : IsJacobian o.g1 (o.G * S1 κ) m := by
  have h := (isJacobian_mulVec (S1 κ) m).mulVec o.G
  simp only [S1_mulVec] at h
  exact h

theorem g2_jac (o : Obj κ φ) (m : κ ⊕ κ → ℝ) : IsJacobian o.g2 (o.G * S2 κ) m := by
  have h := (isJacobian_mulVec (S2 κ) m).mulVec o.G
  simp only [S2_mulVec] at h
  exact h

theorem gS1 (o : Obj κ φ) (v : κ ⊕ κ → ℝ) : (o.G * S1 κ) *ᵥ v = o.g1 v := by
  rw [← Matrix.mulVec_mulVec, S1_mulVec]; rfl

theorem gS2 (o : Obj κ φ) (v : κ ⊕ κ → ℝ) : (o.G * S2 κ) *ᵥ v = o.g2 v := by
  rw [← Matrix.mulVec_mulVec, S2_mulVec]; rfl

/-- The scalar product with a pair of vectors pulled back by the gradient. -/
theorem elim_dot (o : Obj κ φ) (x y : φ → ℝ) (v : κ ⊕ κ → ℝ) :
    Sum.elim (x ᵥ* o.G) (y ᵥ* o.G) ⬝ᵥ v = x ⬝ᵥ o.g1 v + y ⬝ᵥ o.g2 v := by
  have : Sum.elim (x ᵥ* o.G) (y ᵥ* o.G) ⬝ᵥ v
      = (x ᵥ* o.G) ⬝ᵥ (fun c => v (.inl c)) + (y ᵥ* o.G) ⬝ᵥ (fun c => v (.inr c)) := by
    simp [dotProduct, Fintype.sum_sum_type]
  rw [this, ← Matrix.dotProduct_mulVec, ← Matrix.dotProduct_mulVec]
  rfl

theorem pull_dot (o : Obj κ φ) (x : κ → ℝ) (g w : φ → ℝ) :
    ((x ᵥ* o.Av) * g) ⬝ᵥ w = x ⬝ᵥ (o.Av *ᵥ (g * w)) := by
  rw [Matrix.dotProduct_mulVec]
  simp [dotProduct, mul_assoc]

/-- C80: `deriv` is the gradient of the value. -/
theorem C80_gradient (o : Obj κ φ) (m : κ ⊕ κ → ℝ) : IsGradient o.value (o.deriv m) m := by
  have hP := ((g1_jac o m).mul (g1_jac o m)).mulVec o.Av
  have hQ := ((g2_jac o m).mul (g2_jac o m)).mulVec o.Av
  have hR := ((g1_jac o m).mul (g2_jac o m)).mulVec o.Av
  have hPQ := ((hP.mul hQ).sub (hR.mul hR))
  have hval : o.value = fun x => ∑ c, ((o.Av *ᵥ (o.g1 x * o.g1 x)) * (o.Av *ᵥ (o.g2 x * o.g2 x))
      - (o.Av *ᵥ (o.g1 x * o.g2 x)) * (o.Av *ᵥ (o.g1 x * o.g2 x))) c := by
    funext x
    refine Finset.sum_congr rfl fun c _ => ?_
    simp only [Pi.sub_apply, Pi.mul_apply]; ring
  rw [hval]
  refine isGradient_sum hPQ fun v => ?_
  set P := o.Av *ᵥ (o.g1 m * o.g1 m) with hPd
  set Q := o.Av *ᵥ (o.g2 m * o.g2 m) with hQd
  set R := o.Av *ᵥ (o.g1 m * o.g2 m) with hRd
  set a := o.g1 m
  set b := o.g2 m
  set M := diagonal P * (o.Av * (diagonal b * (o.G * S2 κ) + diagonal b * (o.G * S2 κ)))
    + diagonal Q * (o.Av * (diagonal a * (o.G * S1 κ) + diagonal a * (o.G * S1 κ)))
    - (diagonal R * (o.Av * (diagonal a * (o.G * S2 κ) + diagonal b * (o.G * S1 κ)))
    + diagonal R * (o.Av * (diagonal a * (o.G * S2 κ) + diagonal b * (o.G * S1 κ)))) with hM
  have hMv : M *ᵥ v = P * (o.Av *ᵥ (b * o.g2 v + b * o.g2 v)) + Q * (o.Av *ᵥ (a * o.g1 v + a * o.g1 v))
      - (R * (o.Av *ᵥ (a * o.g2 v + b * o.g1 v)) + R * (o.Av *ᵥ (a * o.g2 v + b * o.g1 v))) := by
    rw [hM]
    simp only [Matrix.sub_mulVec, Matrix.add_mulVec, ← Matrix.mulVec_mulVec, diag_mulVec,
      S1_mulVec, S2_mulVec]
    rfl
  rw [hMv]
  have hd : o.deriv m ⬝ᵥ v = 2 * ((((Q ᵥ* o.Av) * a - (R ᵥ* o.Av) * b) ⬝ᵥ o.g1 v)
      + (((P ᵥ* o.Av) * b - (R ᵥ* o.Av) * a) ⬝ᵥ o.g2 v)) := by
    rw [← elim_dot]
    unfold Obj.deriv
    rw [smul_dotProduct, smul_eq_mul, Matrix.sub_vecMul, Matrix.sub_vecMul]
  rw [hd, sub_dotProduct, sub_dotProduct, pull_dot, pull_dot, pull_dot, pull_dot]
  simp only [Matrix.mulVec_add, dotProduct, Pi.add_apply, Pi.sub_apply, Pi.mul_apply,
    Finset.sum_sub_distrib, Finset.sum_add_distrib, mul_add]
  ring

/-- The parts of `deriv2v` without the factor two. -/
def Obj.p1 (o : Obj κ φ) (m v : κ ⊕ κ → ℝ) : φ → ℝ :=
  let base := o.d11 m * o.g1 v + o.d12 m * o.g2 v
  if o.approx then base else base +
    (-o.g2 m * (o.Avᵀ *ᵥ (o.Av *ᵥ (o.g2 m * o.g1 v)))
      + (2 : ℝ) • o.g1 m * (o.Avᵀ *ᵥ (o.Av *ᵥ (o.g2 m * o.g2 v)))
      - o.g2 m * (o.Avᵀ *ᵥ (o.Av *ᵥ (o.g1 m * o.g2 v))))

@[inherit_doc Obj.p1]
def Obj.p2 (o : Obj κ φ) (m v : κ ⊕ κ → ℝ) : φ → ℝ :=
  let base := o.d12 m * o.g1 v + o.d22 m * o.g2 v
  if o.approx then base else base +
    (-o.g1 m * (o.Avᵀ *ᵥ (o.Av *ᵥ (o.g1 m * o.g2 v)))
      + (2 : ℝ) • o.g2 m * (o.Avᵀ *ᵥ (o.Av *ᵥ (o.g1 m * o.g1 v)))
      - o.g1 m * (o.Avᵀ *ᵥ (o.Av *ᵥ (o.g2 m * o.g1 v))))

theorem deriv2v_eq (o : Obj κ φ) (m v : κ ⊕ κ → ℝ) :
    o.deriv2v m v = (2 : ℝ) • Sum.elim (o.Gᵀ *ᵥ o.p1 m v) (o.Gᵀ *ᵥ o.p2 m v) := by
  unfold Obj.deriv2v Obj.p1 Obj.p2
  cases o.approx
  · simp only [Bool.false_eq_true, if_false, Matrix.mulVec_add]
    rfl
  · simp only [if_true]
    rfl

/-- C80: the product with a vector is the product with the matrix, with and without
approximation. -/
theorem C80_hessian_product (o : Obj κ φ) (m v : κ ⊕ κ → ℝ) :
    o.deriv2 m *ᵥ v = o.deriv2v m v := by
  rw [deriv2v_eq]
  unfold Obj.deriv2 Obj.p1 Obj.p2
  have h1 : (o.G *ᵥ (v ∘ Sum.inl)) = o.g1 v := rfl
  have h2 : (o.G *ᵥ (v ∘ Sum.inr)) = o.g2 v := rfl
  rw [Matrix.smul_mulVec, Matrix.fromBlocks_mulVec]
  cases o.approx
  · simp only [Bool.false_eq_true, if_false, Matrix.transpose_mul, Matrix.transpose_transpose,
      Matrix.transpose_add, Matrix.transpose_sub, Matrix.transpose_smul, Matrix.diagonal_transpose,
      Matrix.sub_mulVec, Matrix.add_mulVec, Matrix.smul_mulVec, ← Matrix.mulVec_mulVec,
      diag_mulVec, h1, h2, Matrix.mulVec_add, Matrix.mulVec_sub, Matrix.mulVec_smul,
      Matrix.smul_mul, Matrix.mul_smul]
    congr 1
    funext x
    rcases x with x | x <;>
    simp only [Sum.elim_inl, Sum.elim_inr, neg_mul, Matrix.mulVec_neg, Pi.add_apply, Pi.sub_apply,
      Pi.neg_apply, smul_mul_assoc, Matrix.mulVec_smul, Pi.smul_apply, smul_eq_mul] <;> ring
  · simp only [if_true, Matrix.transpose_mul, Matrix.transpose_transpose,
      Matrix.diagonal_transpose, ← Matrix.mulVec_mulVec, diag_mulVec, h1, h2, Matrix.mulVec_add]

/-- C80: without approximation, `deriv2` is the Hessian of the value. -/
theorem C80_hessian (o : Obj κ φ) (ho : o.approx = false) (m : κ ⊕ κ → ℝ) :
    IsJacobian o.deriv (o.deriv2 m) m := by
  have hA := g1_jac o m
  have hB := g2_jac o m
  have hP := (((hA.mul hA).mulVec o.Av).mulVec o.Avᵀ)
  have hQ := (((hB.mul hB).mulVec o.Av).mulVec o.Avᵀ)
  have hR := (((hA.mul hB).mulVec o.Av).mulVec o.Avᵀ)
  have hX := ((hQ.mul hA).sub (hR.mul hB)).mulVec o.Gᵀ
  have hY := ((hP.mul hB).sub (hR.mul hA)).mulVec o.Gᵀ
  have hXY := (hX.mulVec (S1 κ)ᵀ).add (hY.mulVec (S2 κ)ᵀ)
  have hT := hXY.smul 2
  have hf : o.deriv = fun x => (2 : ℝ) • ((S1 κ)ᵀ *ᵥ (o.Gᵀ *ᵥ
      ((o.Avᵀ *ᵥ (o.Av *ᵥ (o.g2 x * o.g2 x))) * o.g1 x
        - (o.Avᵀ *ᵥ (o.Av *ᵥ (o.g1 x * o.g2 x))) * o.g2 x))
      + (S2 κ)ᵀ *ᵥ (o.Gᵀ *ᵥ
      ((o.Avᵀ *ᵥ (o.Av *ᵥ (o.g1 x * o.g1 x))) * o.g2 x
        - (o.Avᵀ *ᵥ (o.Av *ᵥ (o.g1 x * o.g2 x))) * o.g1 x))) := by
    funext x
    rw [S_elim]
    unfold Obj.deriv
    simp only [Matrix.mulVec_transpose, Matrix.sub_vecMul]
  rw [hf]
  have hm : ∀ v, ((2 : ℝ) • ((S1 κ)ᵀ * (o.Gᵀ * (diagonal (o.Avᵀ *ᵥ o.Av *ᵥ (o.g2 m * o.g2 m)) * (o.G * S1 κ)
      + diagonal (o.g1 m) * (o.Avᵀ * (o.Av * (diagonal (o.g2 m) * (o.G * S2 κ) + diagonal (o.g2 m) * (o.G * S2 κ))))
      - (diagonal (o.Avᵀ *ᵥ o.Av *ᵥ (o.g1 m * o.g2 m)) * (o.G * S2 κ) + diagonal (o.g2 m) *
        (o.Avᵀ * (o.Av * (diagonal (o.g1 m) * (o.G * S2 κ) + diagonal (o.g2 m) * (o.G * S1 κ)))))))
      + (S2 κ)ᵀ * (o.Gᵀ * (diagonal (o.Avᵀ *ᵥ o.Av *ᵥ (o.g1 m * o.g1 m)) * (o.G * S2 κ)
      + diagonal (o.g2 m) * (o.Avᵀ * (o.Av * (diagonal (o.g1 m) * (o.G * S1 κ) + diagonal (o.g1 m) * (o.G * S1 κ))))
      - (diagonal (o.Avᵀ *ᵥ o.Av *ᵥ (o.g1 m * o.g2 m)) * (o.G * S1 κ) + diagonal (o.g1 m) *
        (o.Avᵀ * (o.Av * (diagonal (o.g1 m) * (o.G * S2 κ) + diagonal (o.g2 m) * (o.G * S1 κ))))))))) *ᵥ v
      = o.deriv2v m v := by
    intro v
    rw [deriv2v_eq, Matrix.smul_mulVec, Matrix.add_mulVec,
      ← Matrix.mulVec_mulVec v (S1 κ)ᵀ, ← Matrix.mulVec_mulVec v (S2 κ)ᵀ, S_elim,
      ← Matrix.mulVec_mulVec v o.Gᵀ, ← Matrix.mulVec_mulVec v o.Gᵀ]
    simp only [Matrix.sub_mulVec, Matrix.add_mulVec, ← Matrix.mulVec_mulVec, diag_mulVec]
    simp only [S1_mulVec, S2_mulVec]
    unfold Obj.p1 Obj.p2 Obj.d11 Obj.d12 Obj.d22
    simp only [ho, Bool.false_eq_true, if_false]
    have h1 : (o.G *ᵥ fun c => v (.inl c)) = o.g1 v := rfl
    have h2 : (o.G *ᵥ fun c => v (.inr c)) = o.g2 v := rfl
    rw [h1, h2]
    congr 2 <;> congr 1 <;> funext f <;>
    simp only [Matrix.mulVec_add, Pi.add_apply, Pi.sub_apply, Pi.mul_apply, Pi.neg_apply,
      Pi.smul_apply, smul_eq_mul] <;> ring
  exact hT.of_mulVec fun v => (hm v).trans (C80_hessian_product o m v).symm

/-- C80: `deriv2` is symmetric. -/
theorem C80_hessian_symmetric (o : Obj κ φ) (m : κ ⊕ κ → ℝ) : (o.deriv2 m)ᵀ = o.deriv2 m := by
  unfold Obj.deriv2
  cases o.approx <;>
  simp [Matrix.fromBlocks_transpose, Matrix.mul_assoc]

/-- The quadratic form of the approximate Hessian is a sum of squares. -/
theorem approx_form (o : Obj κ φ) (ho : o.approx = true) (m v : κ ⊕ κ → ℝ) :
    v ⬝ᵥ o.deriv2 m *ᵥ v = 2 * ∑ f, ∑ c, ∑ f', o.Av c f * o.Av c f' *
      (o.g2 m f' * o.g1 v f - o.g1 m f' * o.g2 v f) ^ 2 := by
  rw [C80_hessian_product, deriv2v_eq, dotProduct_smul, smul_eq_mul, dotProduct_comm]
  simp only [Matrix.mulVec_transpose]
  rw [elim_dot]
  unfold Obj.p1 Obj.p2
  simp only [ho, if_true]
  congr 1
  simp only [dotProduct, Pi.add_apply, Pi.mul_apply, ← Finset.sum_add_distrib]
  refine Finset.sum_congr rfl fun f _ => ?_
  have h11 : o.d11 m f = ∑ c, ∑ f', o.Av c f * o.Av c f' * (o.g2 m f' * o.g2 m f') := by
    simp [Obj.d11, Matrix.mulVec, dotProduct, Finset.mul_sum, mul_assoc]
  have h22 : o.d22 m f = ∑ c, ∑ f', o.Av c f * o.Av c f' * (o.g1 m f' * o.g1 m f') := by
    simp [Obj.d22, Matrix.mulVec, dotProduct, Finset.mul_sum, mul_assoc]
  have h12 : o.d12 m f = -∑ c, ∑ f', o.Av c f * o.Av c f' * (o.g1 m f' * o.g2 m f') := by
    simp [Obj.d12, -Matrix.mulVec_mulVec, Matrix.mulVec, dotProduct, Finset.mul_sum, mul_assoc]
  rw [h11, h22, h12]
  have e : ∀ c f', o.Av c f * o.Av c f' * (o.g2 m f' * o.g1 v f - o.g1 m f' * o.g2 v f) ^ 2
      = o.Av c f * o.Av c f' * (o.g2 m f' * o.g2 m f') * (o.g1 v f * o.g1 v f)
      + (-(2 * (o.Av c f * o.Av c f' * (o.g1 m f' * o.g2 m f') * (o.g1 v f * o.g2 v f)))
      + o.Av c f * o.Av c f' * (o.g1 m f' * o.g1 m f') * (o.g2 v f * o.g2 v f)) := fun c f' => by ring
  simp only [e, Finset.sum_add_distrib, Finset.sum_neg_distrib, ← Finset.mul_sum, ← Finset.sum_mul]
  ring

/-- C80: the approximate Hessian is positive semidefinite. -/
theorem C80_approximation_psd (o : Obj κ φ) (ho : o.approx = true) (hA : ∀ c f, 0 ≤ o.A c f)
    (m v : κ ⊕ κ → ℝ) : 0 ≤ v ⬝ᵥ o.deriv2 m *ᵥ v := by
  rw [approx_form o ho]
  have hAv : ∀ c f, 0 ≤ o.Av c f := fun c f => by
    unfold Obj.Av; rw [Matrix.diagonal_mul]; exact mul_nonneg (Real.sqrt_nonneg _) (hA c f)
  exact mul_nonneg (by norm_num) (Finset.sum_nonneg fun f _ => Finset.sum_nonneg fun c _ =>
    Finset.sum_nonneg fun f' _ => mul_nonneg (mul_nonneg (hAv c f) (hAv c f')) (sq_nonneg _))

/-! ### Cross gradients at cell centers -/

variable {δ : Type} [Fintype δ] [DecidableEq δ]

/-- `CrossGradient._calculate_gradient` without normalization: the components of the gradient at
the cells, the faces of each direction averaged separately; `dir` is the direction of a face
(`simpeg/regularization/cross_gradient.py` 158-188). -/
def Obj.cellGradient (o : Obj κ φ) (dir : φ → δ) (m : κ → ℝ) (c : κ) (d : δ) : ℝ :=
  ∑ f, if dir f = d then o.A c f * (o.G *ᵥ m) f else 0

/-- `np.linalg.norm(gradient, axis=-1)` of one cell. -/
def norm2 (a : δ → ℝ) : ℝ := Real.sqrt (∑ d, a d ^ 2)

/-- The normalization of `CrossGradient._calculate_gradient`; `top` is the largest norm
(`simpeg/regularization/cross_gradient.py` 190-196). -/
def normalize (rtol top : ℝ) (a : δ → ℝ) : δ → ℝ :=
  open Classical in if norm2 a ≤ top * rtol then 0 else fun d => a d / norm2 a

/-- `CrossGradient.calculate_cross_gradient` of one cell of a two dimensional mesh:
`np.cross` (`simpeg/regularization/cross_gradient.py` 224-228). -/
def cross2 (a b : Fin 2 → ℝ) : ℝ := a 0 * b 1 - a 1 * b 0

/-- `CrossGradient.calculate_cross_gradient` of one cell of a three dimensional mesh: the norm of
`np.cross` (`simpeg/regularization/cross_gradient.py` 224-228). -/
def cross3 (a b : Fin 3 → ℝ) : ℝ := norm2 (crossProduct a b)

/-- `|a|² |b|² - (a · b)²` as a sum over pairs of components. -/
theorem lagrange (A a b : φ → ℝ) :
    (∑ f, A f * a f ^ 2) * (∑ f, A f * b f ^ 2) - (∑ f, A f * (a f * b f)) ^ 2
      = (1 / 2) * ∑ f, ∑ f', A f * A f' * (a f * b f' - a f' * b f) ^ 2 := by
  have e : ∀ f f', A f * A f' * (a f * b f' - a f' * b f) ^ 2
      = A f * a f ^ 2 * (A f' * b f' ^ 2) + (-(2 * (A f * (a f * b f) * (A f' * (a f' * b f')))))
        + A f * b f ^ 2 * (A f' * a f' ^ 2) := fun f f' => by ring
  simp only [e, Finset.sum_add_distrib, Finset.sum_neg_distrib, ← Finset.mul_sum, ← Finset.sum_mul]
  ring

theorem weighted_sq {ψ : Type} [Fintype ψ] [DecidableEq ψ] (w x : ψ → ℝ) (hw : ∀ p, 0 ≤ w p)
    (h1 : ∑ p, w p ≤ 1) : (∑ p, w p * x p) ^ 2 ≤ ∑ p, w p * x p ^ 2 := by
  have h := cell_nonneg hw (fun _ => 1) x
  simp only [one_mul, one_pow, mul_one] at h
  have h0 : 0 ≤ ∑ p, w p * x p ^ 2 := Finset.sum_nonneg fun p _ => mul_nonneg (hw p) (sq_nonneg _)
  nlinarith

/-- One cell: the squared cross product of the averaged gradients is at most the averaged
expression. -/
theorem cell_cross_le (A : φ → ℝ) (hA : ∀ f, 0 ≤ A f) (dir : φ → δ)
    (h1 : ∀ d, ∑ f, (if dir f = d then A f else 0) ≤ 1) (a b : φ → ℝ) :
    (1 / 2) * ∑ d, ∑ d', ((∑ f, if dir f = d then A f * a f else 0)
        * (∑ f, if dir f = d' then A f * b f else 0)
        - (∑ f, if dir f = d' then A f * a f else 0) * (∑ f, if dir f = d then A f * b f else 0)) ^ 2
      ≤ (∑ f, A f * a f ^ 2) * (∑ f, A f * b f ^ 2) - (∑ f, A f * (a f * b f)) ^ 2 := by
  rw [lagrange]
  refine mul_le_mul_of_nonneg_left ?_ (by norm_num)
  have step : ∀ d d', ((∑ f, if dir f = d then A f * a f else 0)
        * (∑ f, if dir f = d' then A f * b f else 0)
        - (∑ f, if dir f = d' then A f * a f else 0) * (∑ f, if dir f = d then A f * b f else 0)) ^ 2
      ≤ ∑ p : φ × φ, (if dir p.1 = d then A p.1 else 0) * (if dir p.2 = d' then A p.2 else 0)
        * (a p.1 * b p.2 - a p.2 * b p.1) ^ 2 := by
    intro d d'
    have hw := weighted_sq (ψ := φ × φ)
      (fun p => (if dir p.1 = d then A p.1 else 0) * (if dir p.2 = d' then A p.2 else 0))
      (fun p => a p.1 * b p.2 - a p.2 * b p.1)
      (fun p => mul_nonneg (by split_ifs <;> [exact hA _; exact le_rfl])
        (by split_ifs <;> [exact hA _; exact le_rfl]))
      (by
        rw [Fintype.sum_prod_type]
        simp only [← Finset.mul_sum, ← Finset.sum_mul]
        have n : ∀ d, 0 ≤ ∑ f, (if dir f = d then A f else 0) := fun d =>
          Finset.sum_nonneg fun f _ => by split_ifs <;> [exact hA _; exact le_rfl]
        exact mul_le_one₀ (h1 d) (n d') (h1 d'))
    refine le_trans (le_of_eq ?_) hw
    congr 1
    rw [Fintype.sum_prod_type]
    have e : ∀ f f', (if dir f = d then A f else 0) * (if dir f' = d' then A f' else 0)
        * (a f * b f' - a f' * b f)
        = (if dir f = d then A f * a f else 0) * (if dir f' = d' then A f' * b f' else 0)
        + -((if dir f = d then A f * b f else 0) * (if dir f' = d' then A f' * a f' else 0)) := by
      intro f f'; split_ifs <;> ring
    simp only [e, Finset.sum_add_distrib, Finset.sum_neg_distrib, ← Finset.mul_sum, ← Finset.sum_mul]
    ring
  refine le_trans (Finset.sum_le_sum fun d _ => Finset.sum_le_sum fun d' _ => step d d') ?_
  simp only [Fintype.sum_prod_type]
  have h1 : ∀ d, ∑ d', ∑ f, ∑ f', (if dir f = d then A f else 0) * (if dir f' = d' then A f' else 0)
      * (a f * b f' - a f' * b f) ^ 2
      = ∑ f, ∑ f', (if dir f = d then A f else 0) * A f' * (a f * b f' - a f' * b f) ^ 2 := by
    intro d
    rw [Finset.sum_comm]
    refine Finset.sum_congr rfl fun f _ => ?_
    rw [Finset.sum_comm]
    refine Finset.sum_congr rfl fun f' _ => ?_
    rw [Finset.sum_eq_single (dir f')]
    · simp
    · intro d' _ hd'; rw [if_neg (Ne.symm hd')]; ring
    · intro h; exact absurd (Finset.mem_univ _) h
  simp only [h1]
  rw [Finset.sum_comm]
  refine le_of_eq (Finset.sum_congr rfl fun f _ => ?_)
  rw [Finset.sum_comm]
  refine Finset.sum_congr rfl fun f' _ => ?_
  rw [Finset.sum_eq_single (dir f)]
  · simp
  · intro d _ hd; rw [if_neg (Ne.symm hd)]; ring
  · intro h; exact absurd (Finset.mem_univ _) h

theorem cross2_sq (a b : Fin 2 → ℝ) :
    cross2 a b ^ 2 = (1 / 2) * ∑ d, ∑ d', (a d * b d' - a d' * b d) ^ 2 := by
  simp only [cross2, Fin.sum_univ_two]; ring

theorem cross3_sq (a b : Fin 3 → ℝ) :
    cross3 a b ^ 2 = (1 / 2) * ∑ d, ∑ d', (a d * b d' - a d' * b d) ^ 2 := by
  unfold cross3 norm2
  rw [Real.sq_sqrt (Finset.sum_nonneg fun d _ => sq_nonneg _)]
  simp only [cross_apply, Fin.sum_univ_three, Matrix.cons_val_zero, Matrix.cons_val_one,
    Matrix.cons_val]
  ring

/-- C80: on a two dimensional mesh the value is at least the volume integral of the squared cross
gradient reported for the cells. In particular a value of zero means that no cell with a volume has
a cross gradient. -/
theorem C80_bounds_cross2 (o : Obj κ φ) (hv : ∀ c, 0 ≤ o.vol c) (hA : ∀ c f, 0 ≤ o.A c f)
    (dir : φ → Fin 2) (h1 : ∀ c d, ∑ f, (if dir f = d then o.A c f else 0) ≤ 1)
    (m : κ ⊕ κ → ℝ) :
    ∑ c, o.vol c * cross2 (o.cellGradient dir (fun c => m (.inl c)) c)
      (o.cellGradient dir (fun c => m (.inr c)) c) ^ 2 ≤ o.value m := by
  rw [C80_value o hv]
  refine Finset.sum_le_sum fun c _ => mul_le_mul_of_nonneg_left ?_ (hv c)
  rw [cross2_sq]
  exact cell_cross_le (o.A c) (hA c) dir (h1 c) (o.g1 m) (o.g2 m)

/-- C80: the same on a three dimensional mesh. -/
theorem C80_bounds_cross3 (o : Obj κ φ) (hv : ∀ c, 0 ≤ o.vol c) (hA : ∀ c f, 0 ≤ o.A c f)
    (dir : φ → Fin 3) (h1 : ∀ c d, ∑ f, (if dir f = d then o.A c f else 0) ≤ 1)
    (m : κ ⊕ κ → ℝ) :
    ∑ c, o.vol c * cross3 (o.cellGradient dir (fun c => m (.inl c)) c)
      (o.cellGradient dir (fun c => m (.inr c)) c) ^ 2 ≤ o.value m := by
  rw [C80_value o hv]
  refine Finset.sum_le_sum fun c _ => mul_le_mul_of_nonneg_left ?_ (hv c)
  rw [cross3_sq]
  exact cell_cross_le (o.A c) (hA c) dir (h1 c) (o.g1 m) (o.g2 m)

theorem norm2_nonneg (a : δ → ℝ) : 0 ≤ norm2 a := Real.sqrt_nonneg _

theorem norm2_sq (a : δ → ℝ) : norm2 a ^ 2 = ∑ d, a d ^ 2 :=
  Real.sq_sqrt (Finset.sum_nonneg fun _ _ => sq_nonneg _)

/-- C80: normalized gradients have norm one, or are zero exactly where the gradient is at most the
cutoff (for a cutoff which is not negative). -/
theorem C80_normalize (rtol top : ℝ) (h : 0 ≤ top * rtol) (a : δ → ℝ) :
    (norm2 a ≤ top * rtol ∧ normalize rtol top a = 0) ∨
      (top * rtol < norm2 a ∧ norm2 (normalize rtol top a) = 1 ∧
        a = norm2 a • normalize rtol top a) := by
  unfold normalize
  by_cases hc : norm2 a ≤ top * rtol
  · exact Or.inl ⟨hc, by rw [if_pos hc]⟩
  · right
    rw [if_neg hc]
    push Not at hc
    have hp : 0 < norm2 a := lt_of_le_of_lt h hc
    refine ⟨hc, ?_, ?_⟩
    · have : norm2 (fun d => a d / norm2 a) ^ 2 = 1 := by
        rw [norm2_sq]
        simp only [div_eq_mul_inv, mul_pow, ← Finset.sum_mul]
        rw [← norm2_sq, ← mul_pow, mul_inv_cancel₀ hp.ne', one_pow]
      nlinarith [norm2_nonneg (fun d => a d / norm2 a)]
    · funext d
      simp only [Pi.smul_apply, smul_eq_mul]
      field_simp

theorem norm2_normalize_le (rtol top : ℝ) (h : 0 ≤ top * rtol) (a : δ → ℝ) :
    norm2 (normalize rtol top a) ≤ 1 := by
  rcases C80_normalize rtol top h a with ⟨_, h0⟩ | ⟨_, h1, _⟩
  · rw [h0]; simp [norm2]
  · exact h1.le

/-- C80: normalized cross gradients lie between minus one and one. -/
theorem C80_normalized_cross (rtol t1 t2 : ℝ) (h1 : 0 ≤ t1 * rtol) (h2 : 0 ≤ t2 * rtol)
    (a b : Fin 2 → ℝ) (a3 b3 : Fin 3 → ℝ) :
    |cross2 (normalize rtol t1 a) (normalize rtol t2 b)| ≤ 1 ∧
      cross3 (normalize rtol t1 a3) (normalize rtol t2 b3) ≤ 1 := by
  have key2 : ∀ x y : Fin 2 → ℝ, cross2 x y ^ 2 ≤ norm2 x ^ 2 * norm2 y ^ 2 := by
    intro x y
    rw [norm2_sq, norm2_sq]
    simp only [cross2, Fin.sum_univ_two]
    nlinarith [sq_nonneg (x 0 * y 0 + x 1 * y 1)]
  have key3 : ∀ x y : Fin 3 → ℝ, cross3 x y ^ 2 ≤ norm2 x ^ 2 * norm2 y ^ 2 := by
    intro x y
    rw [cross3_sq, norm2_sq, norm2_sq]
    simp only [Fin.sum_univ_three]
    nlinarith [sq_nonneg (x 0 * y 0 + x 1 * y 1 + x 2 * y 2)]
  have one : ∀ {n : ℕ} (x y : Fin n → ℝ), norm2 x ≤ 1 → norm2 y ≤ 1 → norm2 x ^ 2 * norm2 y ^ 2 ≤ 1 := by
    intro n x y hx hy
    exact mul_le_one₀ (pow_le_one₀ (norm2_nonneg _) hx) (sq_nonneg _)
      (pow_le_one₀ (norm2_nonneg _) hy)
  constructor
  · rw [← sq_le_one_iff_abs_le_one]
    exact (key2 _ _).trans (one _ _ (norm2_normalize_le _ _ h1 a) (norm2_normalize_le _ _ h2 b))
  · have := (key3 (normalize rtol t1 a3) (normalize rtol t2 b3)).trans
      (one _ _ (norm2_normalize_le _ _ h1 a3) (norm2_normalize_le _ _ h2 b3))
    exact (le_abs_self _).trans ((sq_le_one_iff_abs_le_one _).1 this)

/-! ### A case, and what does not hold -/

/-- Three cells in an L: cell 0 with a neighbour in x and one in y; unit distances. -/
def toy (approx : Bool) (w : Fin 3 → ℝ) : Obj (Fin 3) (Fin 2) :=
  ⟨!![-1, 1, 0; -1, 0, 1], !![1/2, 1/2; 1/2, 0; 0, 1/2], fun _ => 1, w, approx⟩

/-- First property varies in x, the second in y (or against it). -/
def toyModel (s : ℝ) : Fin 3 ⊕ Fin 3 → ℝ := Sum.elim ![0, 1, 0] ![0, 0, s]

theorem toy_value (b : Bool) (w : Fin 3 → ℝ) (s : ℝ) : (toy b w).value (toyModel s) = s ^ 2 / 4 := by
  rw [C80_value _ (fun _ => by simp [toy])]
  simp [documented, toy, toyModel, Obj.g1, Obj.g2, Fin.sum_univ_succ, Matrix.mulVec, dotProduct]
  ring

/-- The hypotheses of the theorems hold for the case, and the value is not zero. -/
example : (∀ c, 0 ≤ (toy false 1).vol c) ∧ (∀ c f, 0 ≤ (toy false 1).A c f) ∧
    (∀ c (d : Fin 2), ∑ f, (if id f = d then (toy false 1).A c f else 0) ≤ 1) ∧
    (toy false 1).approx = false ∧ (toy true 1).approx = true ∧
    (toy false 1).value (toyModel 2) = 1 := by
  refine ⟨fun _ => by simp [toy], ?_, ?_, rfl, rfl, by rw [toy_value]; norm_num⟩
  · intro c f; fin_cases c <;> fin_cases f <;> simp [toy]
  · intro c d; fin_cases c <;> fin_cases d <;> simp [toy, Fin.sum_univ_succ] <;> norm_num

/-- Parallel gradients: the second property is twice the first plus one. -/
example : (toy false 1).value (Sum.elim ![0, 1, 5] ![1, 3, 11]) = 0 := by
  refine C80_parallel _ (fun _ => by simp [toy]) _ fun c => ⟨2, 1, Or.inl two_ne_zero, fun f _ => ?_⟩
  fin_cases f <;> simp [toy, Obj.g1, Obj.g2, Fin.sum_univ_succ, Matrix.mulVec, dotProduct] <;> norm_num

/-- C80 is violated: registered weights have no influence, although the documentation says that
the weights multiply the cells. -/
theorem C80_violated_weights : ∃ (o : Obj (Fin 3) (Fin 2)) (m : Fin 3 ⊕ Fin 3 → ℝ),
    (∀ c, 0 < o.weights c) ∧
      o.value m ≠ documented (fun c => o.vol c * o.weights c) o.A (o.g1 m) (o.g2 m) := by
  refine ⟨toy true fun _ => 2, toyModel 2, fun _ => by simp [toy], ?_⟩
  rw [toy_value]
  simp [documented, toy, toyModel, Obj.g1, Obj.g2, Fin.sum_univ_succ, Matrix.mulVec, dotProduct]
  norm_num

/-- C80 is violated: in two dimensions the "magnitudes" of the cross gradients can be negative. -/
theorem C80_violated_magnitude :
    cross2 ((toy true 1).cellGradient id (fun c => toyModel (-4) (.inl c)) 0)
      ((toy true 1).cellGradient id (fun c => toyModel (-4) (.inr c)) 0) < 0 := by
  simp [cross2, Obj.cellGradient, toy, toyModel, Fin.sum_univ_succ, Matrix.mulVec, dotProduct]

/-- The approximate Hessian is not the Hessian, and the Hessian is not semidefinite: the term is
not convex. -/
theorem C80_not_convex : ∃ (m v : Fin 3 ⊕ Fin 3 → ℝ),
    v ⬝ᵥ (toy false 1).deriv2 m *ᵥ v < 0 ∧ (toy false 1).deriv2 m ≠ (toy true 1).deriv2 m := by
  have h : (Sum.elim ![0, 0, 1] ![0, 1, 0] : Fin 3 ⊕ Fin 3 → ℝ) ⬝ᵥ
      (toy false 1).deriv2 (toyModel 1) *ᵥ Sum.elim ![0, 0, 1] ![0, 1, 0] < 0 := by
    rw [C80_hessian_product, deriv2v_eq]
    simp [Obj.p1, Obj.p2, Obj.d11, Obj.d12, Obj.d22, Obj.Av, toy, toyModel, Obj.g1, Obj.g2,
      Fin.sum_univ_succ, Matrix.mulVec, dotProduct, -Matrix.mulVec_mulVec, Matrix.diagonal_mul]
  refine ⟨toyModel 1, Sum.elim ![0, 0, 1] ![0, 1, 0], h, fun he => ?_⟩
  rw [he] at h
  refine absurd (C80_approximation_psd (toy true 1) rfl ?_ _ _) (not_le.2 h)
  intro c f; fin_cases c <;> fin_cases f <;> simp [toy]

end Verif.Reg.CrossGrad
