import Verif.Objective.Props

/-! Model of the value, gradient and Hessian of the regularisations
(`simpeg/regularization/base.py` 373-464, 619-755, 1008-1092, 1094-1161, 1366-1507). -/

noncomputable section
namespace Verif.Reg
open Verif Matrix

variable {ι κ φ : Type} [Fintype ι] [Fintype κ] [Fintype φ] [DecidableEq κ] [DecidableEq φ]

/-- A mapping: what `mapping * m` and `mapping.deriv(m)` return. -/
structure Mapping (ι κ : Type) where
  apply : (ι → ℝ) → κ → ℝ
  deriv : (ι → ℝ) → Matrix κ ι ℝ

/-- A regularisation, as the base class uses it: the product of the registered weights (see
`Verif.Reg.Weights` for how it is formed), `f_m` and `f_m_deriv`. -/
structure Term (ι φ : Type) where
  weights : φ → ℝ
  fm : (ι → ℝ) → φ → ℝ
  fmDeriv : (ι → ℝ) → Matrix φ ι ℝ

/-- The diagonal of `W` (351-354, 1176-1193, 1522-1525): the square root of the product of the weights. -/
def Term.w (t : Term ι φ) (j : φ) : ℝ := Real.sqrt (t.weights j)

/-- `__call__` (381-395). -/
def Term.value (t : Term ι φ) (m : ι → ℝ) : ℝ :=
  let r := diagonal t.w *ᵥ t.fm m
  r ⬝ᵥ r

/-- `deriv` (408-429). -/
def Term.deriv (t : Term ι φ) (m : ι → ℝ) : ι → ℝ :=
  let r := diagonal t.w *ᵥ t.fm m
  ((2 : ℝ) • (t.fmDeriv m)ᵀ) *ᵥ ((diagonal t.w)ᵀ *ᵥ r)

/-- `deriv2(m)` (460-462). -/
def Term.deriv2 (t : Term ι φ) (m : ι → ℝ) : Matrix ι ι ℝ :=
  ((2 : ℝ) • (t.fmDeriv m)ᵀ) * (((diagonal t.w)ᵀ * diagonal t.w) * t.fmDeriv m)

/-- `deriv2(m, v)` (464). -/
def Term.deriv2v (t : Term ι φ) (m v : ι → ℝ) : ι → ℝ :=
  ((2 : ℝ) • (t.fmDeriv m)ᵀ) *ᵥ ((diagonal t.w)ᵀ *ᵥ (diagonal t.w *ᵥ (t.fmDeriv m *ᵥ v)))

/-- The mapped model relative to the reference model (675-679), or not (1080-1084, 1426-1430);
`ref = none` is no reference model. -/
def delta (P : Mapping ι κ) (ref : Option (ι → ℝ)) (m : ι → ℝ) : κ → ℝ :=
  match ref with
  | none => P.apply m
  | some r => P.apply m - P.apply r

/-- `Smallness` (467-755). -/
def smallnessTerm (w : κ → ℝ) (P : Mapping ι κ) (ref : Option (ι → ℝ)) : Term ι κ :=
  ⟨w, delta P ref, P.deriv⟩

/-- The reference model used by the smoothness terms (1082, 1428). -/
def smoothRef (inSmooth : Bool) (ref : Option (ι → ℝ)) : Option (ι → ℝ) :=
  if inSmooth then ref else none

/-- `SmoothnessFirstOrder` (758-1205), units other than radian; `G` is `cell_gradient`. -/
def firstOrderTerm (w : φ → ℝ) (G : Matrix φ κ ℝ) (P : Mapping ι κ) (inSmooth : Bool)
    (ref : Option (ι → ℝ)) : Term ι φ :=
  ⟨w, fun m => G *ᵥ delta P (smoothRef inSmooth ref) m, fun m => G * P.deriv m⟩

/-- `SmoothnessSecondOrder` (1208-1530), units other than radian. -/
def secondOrderTerm (w : κ → ℝ) (G : Matrix φ κ ℝ) (P : Mapping ι κ) (inSmooth : Bool)
    (ref : Option (ι → ℝ)) : Term ι κ :=
  ⟨w, fun m => Gᵀ *ᵥ (G *ᵥ delta P (smoothRef inSmooth ref) m), fun m => Gᵀ * G * P.deriv m⟩

namespace Props

/-! ### C40 -/

/-- C40. The value is the weighted sum of squares `Σ w_j f_j²` with the product of the weights: it
is never negative, and it is zero exactly when every residual with a non-zero weight is zero. -/
theorem C40_value (t : Term ι φ) (hw : ∀ j, 0 ≤ t.weights j) (m : ι → ℝ) :
    t.value m = ∑ j, t.weights j * t.fm m j ^ 2 ∧ 0 ≤ t.value m ∧
      (t.value m = 0 ↔ ∀ j, t.weights j ≠ 0 → t.fm m j = 0) := by
  have h : t.value m = ∑ j, t.weights j * t.fm m j ^ 2 := by
    simp only [Term.value, dotProduct, mulVec_diagonal, Term.w]
    refine Finset.sum_congr rfl fun j _ => ?_
    nth_rewrite 3 [← Real.mul_self_sqrt (hw j)]
    ring
  have hp : ∀ j, 0 ≤ t.weights j * t.fm m j ^ 2 := fun j => mul_nonneg (hw j) (sq_nonneg _)
  refine ⟨h, by rw [h]; exact Finset.sum_nonneg fun j _ => hp j, ?_⟩
  rw [h, Finset.sum_eq_zero_iff_of_nonneg fun j _ => hp j]
  constructor
  · intro h0 j hj
    have := h0 j (Finset.mem_univ j)
    rcases mul_eq_zero.mp this with h1 | h1
    · exact absurd h1 hj
    · exact pow_eq_zero_iff (by norm_num) |>.mp h1
  · intro h0 j _
    by_cases hj : t.weights j = 0
    · simp [hj]
    · simp [h0 j hj]

/-- The corresponding function of C11. -/
def toL2 (t : Term ι φ) : Objective.L2.Mapping ι φ := ⟨t.fm, t.fmDeriv⟩

/-- C40. If `f_m_deriv` is the Jacobian of `f_m` at `m`, `deriv` is the gradient of the value. -/
theorem C40_gradient (t : Term ι φ) (m : ι → ℝ) (h : IsJacobian t.fm (t.fmDeriv m) m) :
    IsGradient t.value (t.deriv m) m := by
  have h1 := Objective.Props.C11_gradient (diagonal t.w) (toL2 t) m h
  have e : Objective.L2.deriv (diagonal t.w) (toL2 t) m = t.deriv m := by
    simp [Objective.L2.deriv, Term.deriv, toL2, Matrix.smul_mulVec, two_mul, two_smul]
  rw [← e]
  exact h1

/-- C40. Both forms of `deriv2` agree, and it is symmetric and positive semidefinite. -/
theorem C40_hessian (t : Term ι φ) (hw : ∀ j, 0 ≤ t.weights j) (m : ι → ℝ) :
    (t.deriv2 m)ᵀ = t.deriv2 m ∧
    ∀ v, t.deriv2 m *ᵥ v = t.deriv2v m v ∧
      v ⬝ᵥ t.deriv2v m v = 2 * ∑ j, t.weights j * (t.fmDeriv m *ᵥ v) j ^ 2 ∧
      0 ≤ v ⬝ᵥ t.deriv2v m v := by
  refine ⟨?_, fun v => ⟨?_, ?_⟩⟩
  · simp [Term.deriv2, Matrix.transpose_mul, Matrix.transpose_smul, Matrix.mul_assoc]
  · simp only [Term.deriv2, Term.deriv2v, Matrix.mulVec_mulVec, Matrix.mul_assoc]
  · have h : v ⬝ᵥ t.deriv2v m v = 2 * ∑ j, t.weights j * (t.fmDeriv m *ᵥ v) j ^ 2 := by
      simp only [Term.deriv2v, Matrix.smul_mulVec, dotProduct_smul, diagonal_transpose]
      rw [Matrix.dotProduct_mulVec, Matrix.vecMul_transpose]
      simp only [dotProduct, mulVec_diagonal, smul_eq_mul]
      congr 1
      refine Finset.sum_congr rfl fun j _ => ?_
      have hs : t.w j * t.w j = t.weights j := Real.mul_self_sqrt (hw j)
      rw [← hs]
      ring
    refine ⟨h, ?_⟩
    rw [h]
    exact mul_nonneg (by norm_num)
      (Finset.sum_nonneg fun j _ => mul_nonneg (hw j) (sq_nonneg _))

/-- C40. If `f_m_deriv` does not depend on the model and is the Jacobian of `f_m`, `deriv2` is
the exact Hessian: the Jacobian of `deriv`. -/
theorem C40_hessian_exact (t : Term ι φ) (A : Matrix φ ι ℝ) (hA : ∀ m, t.fmDeriv m = A)
    (hJ : ∀ m, IsJacobian t.fm A m) (m : ι → ℝ) : IsJacobian t.deriv (t.deriv2 m) m := by
  have h1 : HasFDerivAt (fun x => (((2 : ℝ) • Aᵀ) * ((diagonal t.w)ᵀ * diagonal t.w)) *ᵥ t.fm x)
      ((mulVecL (((2 : ℝ) • Aᵀ) * ((diagonal t.w)ᵀ * diagonal t.w))).comp (mulVecL A)) m :=
    HasFDerivAt.comp (g := mulVecL (((2 : ℝ) • Aᵀ) * ((diagonal t.w)ᵀ * diagonal t.w))) m
      (ContinuousLinearMap.hasFDerivAt _) (hJ m)
  have e : t.deriv = fun x =>
      (((2 : ℝ) • Aᵀ) * ((diagonal t.w)ᵀ * diagonal t.w)) *ᵥ t.fm x := by
    funext x
    simp [Term.deriv, hA, Matrix.mulVec_mulVec, Matrix.mul_assoc]
  unfold IsJacobian
  rw [e]
  refine h1.congr_fderiv ?_
  ext v
  simp [Term.deriv2, hA, Matrix.mulVec_mulVec, Matrix.mul_assoc]

theorem delta_jacobian (P : Mapping ι κ) (ref : Option (ι → ℝ)) (m : ι → ℝ)
    (h : IsJacobian P.apply (P.deriv m) m) : IsJacobian (delta P ref) (P.deriv m) m := by
  cases ref with
  | none => exact h
  | some r => exact HasFDerivAt.sub_const _ h

theorem comp_jacobian (G : Matrix φ κ ℝ) (f : (ι → ℝ) → κ → ℝ) (D : Matrix κ ι ℝ) (m : ι → ℝ)
    (h : IsJacobian f D m) : IsJacobian (fun x => G *ᵥ f x) (G * D) m := by
  have h1 : HasFDerivAt (fun x => G *ᵥ f x) ((mulVecL G).comp (mulVecL D)) m :=
    (mulVecL G).hasFDerivAt.comp m h
  refine h1.congr_fderiv ?_
  ext v
  simp [Matrix.mulVec_mulVec]

/-- C40. For the three kinds of terms, `f_m_deriv` is the Jacobian of `f_m` wherever the mapping's
`deriv` is that of the mapping, for every reference model and gradient operator; so the theorems
above apply to them. -/
theorem C40_jacobians (P : Mapping ι κ) (G : Matrix φ κ ℝ) (wc : κ → ℝ) (wf : φ → ℝ) (b : Bool)
    (ref : Option (ι → ℝ)) (m : ι → ℝ) (h : IsJacobian P.apply (P.deriv m) m) :
    (let t := smallnessTerm wc P ref; IsJacobian t.fm (t.fmDeriv m) m) ∧
    (let t := firstOrderTerm wf G P b ref; IsJacobian t.fm (t.fmDeriv m) m) ∧
    (let t := secondOrderTerm wc G P b ref; IsJacobian t.fm (t.fmDeriv m) m) := by
  refine ⟨delta_jacobian P ref m h, ?_, ?_⟩
  · exact comp_jacobian G _ _ m (delta_jacobian P _ m h)
  · have := comp_jacobian Gᵀ _ _ m (comp_jacobian G _ _ m (delta_jacobian P (smoothRef b ref) m h))
    rw [← Matrix.mul_assoc] at this
    exact this

/-- C40. For a linear mapping (constant derivative, exact) `deriv2` of the three kinds of terms is
the exact Hessian. -/
theorem C40_hessian_linear_mapping (P : Mapping ι κ) (A : Matrix κ ι ℝ) (hA : ∀ m, P.deriv m = A)
    (hJ : ∀ m, IsJacobian P.apply A m) (G : Matrix φ κ ℝ) (wc : κ → ℝ) (wf : φ → ℝ) (b : Bool)
    (ref : Option (ι → ℝ)) (m : ι → ℝ) :
    (let t := smallnessTerm wc P ref; IsJacobian t.deriv (t.deriv2 m) m) ∧
    (let t := firstOrderTerm wf G P b ref; IsJacobian t.deriv (t.deriv2 m) m) ∧
    (let t := secondOrderTerm wc G P b ref; IsJacobian t.deriv (t.deriv2 m) m) := by
  have hj : ∀ m, IsJacobian P.apply (P.deriv m) m := fun m => by rw [hA]; exact hJ m
  refine ⟨C40_hessian_exact _ A hA (fun x => ?_) m, C40_hessian_exact _ (G * A)
    (fun x => by simp [firstOrderTerm, hA]) (fun x => ?_) m, C40_hessian_exact _ (Gᵀ * G * A)
    (fun x => by simp [secondOrderTerm, hA]) (fun x => ?_) m⟩
  · have := (C40_jacobians P G wc wf b ref x (hj x)).1
    simpa [smallnessTerm, hA] using this
  · have := (C40_jacobians P G wc wf b ref x (hj x)).2.1
    simpa [firstOrderTerm, hA] using this
  · have := (C40_jacobians P G wc wf b ref x (hj x)).2.2
    simpa [secondOrderTerm, hA] using this

/-- C40. At the reference model the smallness vanishes, and so do the smoothness terms if they
use the reference model; without it they vanish where the mapped model is in the kernel of the
gradient, for instance where it is constant. -/
theorem C40_vanishes (P : Mapping ι κ) (G : Matrix φ κ ℝ) (wc : κ → ℝ) (wf : φ → ℝ)
    (m : ι → ℝ) :
    (smallnessTerm wc P (some m)).value m = 0 ∧
    (firstOrderTerm wf G P true (some m)).value m = 0 ∧
    (secondOrderTerm wc G P true (some m)).value m = 0 ∧
    ∀ ref, G *ᵥ P.apply m = 0 →
      (firstOrderTerm wf G P false ref).value m = 0 ∧
      (secondOrderTerm wc G P false ref).value m = 0 := by
  refine ⟨?_, ?_, ?_, fun ref h => ⟨?_, ?_⟩⟩
  · simp [Term.value, smallnessTerm, delta]
  · simp [Term.value, firstOrderTerm, delta, smoothRef]
  · simp [Term.value, secondOrderTerm, delta, smoothRef]
  · simp [Term.value, firstOrderTerm, delta, smoothRef, h]
  · have e : (secondOrderTerm wc G P false ref).fm m = 0 := by
      simp only [secondOrderTerm, smoothRef, delta, Bool.false_eq_true, if_false, h, mulVec_zero]
    simp [Term.value, e]

/-- A mapping and gradient to which the theorems apply: identity on two cells, one face. -/
example : ∃ (P : Mapping (Fin 2) (Fin 2)) (G : Matrix (Fin 1) (Fin 2) ℝ),
    (∀ m, IsJacobian P.apply (P.deriv m) m) ∧
    (firstOrderTerm (fun _ => 2) G P true (some ![1, 1])).value ![1, 4] = 18 := by
  refine ⟨⟨id, fun _ => 1⟩, !![-1, 1], fun m => ?_, ?_⟩
  · refine (hasFDerivAt_id m).congr_fderiv ?_
    ext v; simp
  · rw [(C40_value _ (fun j => by simp [firstOrderTerm]) _).1]
    simp [firstOrderTerm, delta, smoothRef, Matrix.mulVec, dotProduct, Fin.sum_univ_two]
    norm_num

end Props
end Verif.Reg
