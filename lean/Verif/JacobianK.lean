import Verif.Jacobian
import Mathlib.Analysis.RCLike.Lemmas
import Mathlib.Analysis.Calculus.FDeriv.Mul
import Mathlib.Analysis.Calculus.FDeriv.Pi
import Mathlib.LinearAlgebra.Matrix.Adjugate
import Mathlib.LinearAlgebra.Matrix.NonsingularInverse

/-!
Jacobians of real or complex vector valued functions of a *real* parameter vector (the inversion
model is real, the fields of a frequency domain simulation are complex), and the derivative of the
solution of a linear system whose matrix and right-hand side depend on the parameters.
-/

namespace Verif
open Matrix

variable {𝕜 : Type} [RCLike 𝕜]
variable {ι κ μ : Type} [Fintype ι] [Fintype κ] [Fintype μ]

set_option linter.unusedSectionVars false

/-- A real vector seen as a vector over `𝕜`. -/
def castV (𝕜 : Type) [RCLike 𝕜] {ι : Type} (v : ι → ℝ) : ι → 𝕜 := fun i => (v i : 𝕜)

@[simp] theorem castV_apply (v : ι → ℝ) (i : ι) : castV 𝕜 v i = (v i : 𝕜) := rfl

@[simp] theorem castV_real (v : ι → ℝ) : castV ℝ v = v := by
  funext i; simp [castV]

/-- Multiplication by a matrix over `𝕜`, as a real-linear map of real vectors. -/
noncomputable def mulVecK (A : Matrix κ ι 𝕜) : (ι → ℝ) →L[ℝ] (κ → 𝕜) :=
  LinearMap.toContinuousLinearMap
    { toFun := fun v => A *ᵥ castV 𝕜 v
      map_add' := by
        intro v w
        have : castV 𝕜 (v + w) = castV 𝕜 v + castV 𝕜 w := by funext i; simp [castV]
        rw [this, Matrix.mulVec_add]
      map_smul' := by
        intro c v
        have : castV 𝕜 (c • v) = (c : 𝕜) • castV 𝕜 v := by funext i; simp [castV]
        rw [this, Matrix.mulVec_smul]
        funext i
        simp [RCLike.real_smul_eq_coe_mul] }

@[simp] theorem mulVecK_apply (A : Matrix κ ι 𝕜) (v : ι → ℝ) : mulVecK A v = A *ᵥ castV 𝕜 v := rfl

/-- The matrix `A` is the (full Fréchet) derivative of `f` at `m`. -/
def IsJacK (f : (ι → ℝ) → (κ → 𝕜)) (A : Matrix κ ι 𝕜) (m : ι → ℝ) : Prop :=
  HasFDerivAt f (mulVecK A) m

/-- For real valued functions this is `IsJacobian`. -/
theorem isJacK_real {f : (ι → ℝ) → (κ → ℝ)} {A : Matrix κ ι ℝ} {m : ι → ℝ} :
    IsJacK f A m ↔ IsJacobian f A m := by
  have : mulVecK A = mulVecL A := by
    ext v i; simp
  unfold IsJacK IsJacobian
  rw [this]

theorem mulVecK_injective {A B : Matrix κ ι 𝕜} (h : mulVecK A = mulVecK B) : A = B := by
  classical
  ext i j
  have := congrFun (congrArg (fun L : (ι → ℝ) →L[ℝ] (κ → 𝕜) => L (Pi.single j 1)) h) i
  have e : castV 𝕜 (Pi.single j (1:ℝ)) = Pi.single j (1:𝕜) := by
    funext k
    by_cases hk : k = j
    · subst hk; simp [castV]
    · simp [castV, Pi.single_eq_of_ne hk]
  simpa [e, Matrix.mulVec_single_one] using this

theorem IsJacK.unique {f : (ι → ℝ) → (κ → 𝕜)} {A B : Matrix κ ι 𝕜} {m : ι → ℝ}
    (h1 : IsJacK f A m) (h2 : IsJacK f B m) : A = B :=
  mulVecK_injective (HasFDerivAt.unique h1 h2)

theorem IsJacK.congr {f g : (ι → ℝ) → (κ → 𝕜)} {A : Matrix κ ι 𝕜} {m : ι → ℝ}
    (h : IsJacK f A m) (hg : ∀ᶠ x in nhds m, g x = f x) : IsJacK g A m :=
  HasFDerivAt.congr_of_eventuallyEq h hg

/-- Jacobians entry by entry. -/
theorem isJacK_iff {f : (ι → ℝ) → (κ → 𝕜)} {A : Matrix κ ι 𝕜} {m : ι → ℝ} :
    IsJacK f A m ↔
      ∀ i, HasFDerivAt (fun x => f x i) ((ContinuousLinearMap.proj i).comp (mulVecK A)) m := by
  unfold IsJacK
  rw [hasFDerivAt_pi']

theorem isJacK_const (c : κ → 𝕜) (m : ι → ℝ) : IsJacK (fun _ => c) (0 : Matrix κ ι 𝕜) m := by
  have : mulVecK (0 : Matrix κ ι 𝕜) = 0 := by ext v i; simp
  unfold IsJacK; rw [this]; exact hasFDerivAt_const c m

theorem IsJacK.add {f g : (ι → ℝ) → (κ → 𝕜)} {A B : Matrix κ ι 𝕜} {m : ι → ℝ}
    (hf : IsJacK f A m) (hg : IsJacK g B m) : IsJacK (fun x => f x + g x) (A + B) m := by
  have : mulVecK (A + B) = mulVecK A + mulVecK B := by ext v i; simp [Matrix.add_mulVec]
  unfold IsJacK; rw [this]; exact HasFDerivAt.add hf hg

theorem IsJacK.neg {f : (ι → ℝ) → (κ → 𝕜)} {A : Matrix κ ι 𝕜} {m : ι → ℝ}
    (hf : IsJacK f A m) : IsJacK (fun x => -f x) (-A) m := by
  have : mulVecK (-A) = -mulVecK A := by ext v i; simp [Matrix.neg_mulVec]
  unfold IsJacK; rw [this]; exact HasFDerivAt.neg hf

theorem IsJacK.sub {f g : (ι → ℝ) → (κ → 𝕜)} {A B : Matrix κ ι 𝕜} {m : ι → ℝ}
    (hf : IsJacK f A m) (hg : IsJacK g B m) : IsJacK (fun x => f x - g x) (A - B) m := by
  have : mulVecK (A - B) = mulVecK A - mulVecK B := by ext v i; simp [Matrix.sub_mulVec]
  unfold IsJacK; rw [this]; exact HasFDerivAt.sub hf hg

theorem IsJacK.smul (c : 𝕜) {f : (ι → ℝ) → (κ → 𝕜)} {A : Matrix κ ι 𝕜} {m : ι → ℝ}
    (hf : IsJacK f A m) : IsJacK (fun x => c • f x) (c • A) m := by
  rw [isJacK_iff] at hf ⊢
  intro i
  have h := (hf i).const_mul c
  refine h.congr_fderiv ?_
  ext v
  simp [Matrix.smul_mulVec]

/-- A constant matrix times a function. -/
theorem IsJacK.mulVec (D : Matrix μ κ 𝕜) {f : (ι → ℝ) → (κ → 𝕜)} {A : Matrix κ ι 𝕜}
    {m : ι → ℝ} (hf : IsJacK f A m) : IsJacK (fun x => D *ᵥ f x) (D * A) m := by
  rw [isJacK_iff] at hf ⊢
  intro i
  have h : HasFDerivAt (fun x => ∑ k, D i k * f x k)
      (∑ k, D i k • ((ContinuousLinearMap.proj k).comp (mulVecK A))) m :=
    HasFDerivAt.fun_sum fun k _ => (hf k).const_mul (D i k)
  refine h.congr_fderiv ?_
  ext v
  simp [← Matrix.mulVec_mulVec, Matrix.mulVec, dotProduct]

/-- Chain rule with a real inner function. -/
theorem IsJacK.comp {g : (κ → ℝ) → (μ → 𝕜)} {f : (ι → ℝ) → (κ → ℝ)} {B : Matrix μ κ 𝕜}
    {A : Matrix κ ι ℝ} {m : ι → ℝ} (hg : IsJacK g B (f m)) (hf : IsJacobian f A m) :
    IsJacK (fun x => g (f x)) (B * A.map (RCLike.ofReal : ℝ → 𝕜)) m := by
  have h := HasFDerivAt.comp m hg hf
  refine HasFDerivAt.congr_fderiv h ?_
  ext v i
  have e : castV 𝕜 (A *ᵥ v) = A.map (RCLike.ofReal : ℝ → 𝕜) *ᵥ castV 𝕜 v := by
    funext k
    simp [castV, Matrix.mulVec, dotProduct]
  simp [← Matrix.mulVec_mulVec, e]

/-- Entrywise product. -/
theorem IsJacK.mul [DecidableEq κ] {f g : (ι → ℝ) → (κ → 𝕜)} {A B : Matrix κ ι 𝕜} {m : ι → ℝ}
    (hf : IsJacK f A m) (hg : IsJacK g B m) :
    IsJacK (fun x => f x * g x) (diagonal (f m) * B + diagonal (g m) * A) m := by
  rw [isJacK_iff] at hf hg ⊢
  intro i
  have h := (hf i).mul (hg i)
  refine h.congr_fderiv ?_
  ext v
  simp [Matrix.add_mulVec, ← Matrix.mulVec_mulVec, Matrix.mulVec_diagonal]

/-- A real valued Jacobian seen over `𝕜`. -/
theorem IsJacobian.cast {f : (ι → ℝ) → (κ → ℝ)} {A : Matrix κ ι ℝ} {m : ι → ℝ}
    (hf : IsJacobian f A m) :
    IsJacK (fun x => castV 𝕜 (f x)) (A.map (RCLike.ofReal : ℝ → 𝕜)) m := by
  rw [isJacobian_iff] at hf
  rw [isJacK_iff]
  intro i
  have h := (RCLike.ofRealCLM (K := 𝕜)).hasFDerivAt.comp m (hf i)
  refine HasFDerivAt.congr_fderiv h ?_
  ext v
  simp [Matrix.mulVec, dotProduct, castV]

/-! ### Linear systems depending on parameters -/

section system
variable {n : Type} [Fintype n] [DecidableEq n]

theorem differentiableAt_det {A : (ι → ℝ) → Matrix n n 𝕜} {m : ι → ℝ}
    (hA : ∀ i j, DifferentiableAt ℝ (fun y => A y i j) m) :
    DifferentiableAt ℝ (fun y => (A y).det) m := by
  simp only [Matrix.det_apply]
  refine DifferentiableAt.fun_sum fun σ _ => ?_
  refine DifferentiableAt.const_smul ?_ _
  exact (HasFDerivAt.finsetProd (u := Finset.univ) (g := fun i y => A y (σ i) i)
    fun i _ => (hA (σ i) i).hasFDerivAt).differentiableAt

theorem differentiableAt_adjugate {A : (ι → ℝ) → Matrix n n 𝕜} {m : ι → ℝ}
    (hA : ∀ i j, DifferentiableAt ℝ (fun y => A y i j) m) (i j : n) :
    DifferentiableAt ℝ (fun y => (A y).adjugate i j) m := by
  simp only [Matrix.adjugate_apply]
  refine differentiableAt_det fun k l => ?_
  by_cases hk : k = j
  · subst hk
    simp only [Matrix.updateRow_self]
    exact differentiableAt_const _
  · simp only [Matrix.updateRow_ne hk]
    exact hA k l

theorem differentiableAt_inv {A : (ι → ℝ) → Matrix n n 𝕜} {m : ι → ℝ}
    (hA : ∀ i j, DifferentiableAt ℝ (fun y => A y i j) m) (h0 : (A m).det ≠ 0) (i j : n) :
    DifferentiableAt ℝ (fun y => (A y)⁻¹ i j) m := by
  simp only [Matrix.inv_def, Matrix.smul_apply, Ring.inverse_eq_inv', smul_eq_mul]
  exact ((differentiableAt_det hA).inv h0).mul (differentiableAt_adjugate hA i j)

/-- The solution of `A(m) u = q(m)` has the Jacobian `A⁻¹ (dq − dA(u))`, where `dA` is the
derivative of `A(·) u` with `u` frozen at the solution. -/
theorem isJacK_solve {A : (ι → ℝ) → Matrix n n 𝕜} {q : (ι → ℝ) → (n → 𝕜)} {m : ι → ℝ}
    {dA dq : Matrix n ι 𝕜}
    (hA : ∀ i j, DifferentiableAt ℝ (fun y => A y i j) m) (h0 : (A m).det ≠ 0)
    (hd : IsJacK (fun y => A y *ᵥ ((A m)⁻¹ *ᵥ q m)) dA m) (hq : IsJacK q dq m) :
    IsJacK (fun y => (A y)⁻¹ *ᵥ q y) ((A m)⁻¹ * (dq - dA)) m := by
  set u : (ι → ℝ) → (n → 𝕜) := fun y => (A y)⁻¹ *ᵥ q y with hu
  have hqd : ∀ i, DifferentiableAt ℝ (fun y => q y i) m := fun i =>
    ((isJacK_iff.1 hq) i).differentiableAt
  have hud : ∀ i, DifferentiableAt ℝ (fun y => u y i) m := by
    intro i
    simp only [hu, Matrix.mulVec, dotProduct]
    exact DifferentiableAt.fun_sum fun j _ => (differentiableAt_inv hA h0 i j).mul (hqd j)
  -- the derivative of the solution, as a linear map
  have hU : HasFDerivAt u (fderiv ℝ u m) m := (differentiableAt_pi.2 hud).hasFDerivAt
  have hdet : ∀ᶠ y in nhds m, (A y).det ≠ 0 :=
    (differentiableAt_det hA).continuousAt.eventually_ne h0
  have hsol : ∀ᶠ y in nhds m, q y = A y *ᵥ u y := by
    filter_upwards [hdet] with y hy
    have : IsUnit (A y).det := isUnit_iff_ne_zero.2 hy
    simp only [hu, Matrix.mulVec_mulVec, Matrix.mul_nonsing_inv _ this, Matrix.one_mulVec]
  -- differentiate `A(y) u(y)`: the frozen parts
  have hprod : HasFDerivAt (fun y => A y *ᵥ u y)
      (mulVecK dA + ((mulVecLin (A m)).restrictScalars ℝ).toContinuousLinearMap.comp
        (fderiv ℝ u m)) m := by
    rw [hasFDerivAt_pi']
    intro i
    have hUk : ∀ k, HasFDerivAt (fun y => u y k)
        ((ContinuousLinearMap.proj (R := ℝ) (φ := fun _ : n => 𝕜) k).comp (fderiv ℝ u m)) m :=
      (hasFDerivAt_pi'.1 hU)
    have hAk : ∀ k, HasFDerivAt (fun y => A y i k) (fderiv ℝ (fun y => A y i k) m) m :=
      fun k => (hA i k).hasFDerivAt
    have h1 := HasFDerivAt.fun_sum (u := Finset.univ) fun k _ => (hAk k).mul (hUk k)
    have h2 : HasFDerivAt (fun y => ∑ k, A y i k * u m k)
        (∑ k, u m k • fderiv ℝ (fun y => A y i k) m) m :=
      HasFDerivAt.fun_sum fun k _ => (hAk k).mul_const' (u m k) |>.congr_fderiv (by
        ext v; simp)
    have h3 : HasFDerivAt (fun y => ∑ k, A y i k * u m k)
        ((ContinuousLinearMap.proj i).comp (mulVecK dA)) m := (isJacK_iff.1 hd) i
    have h4 := h2.unique h3
    refine HasFDerivAt.congr_fderiv h1 ?_
    rw [ContinuousLinearMap.comp_add, ← h4, Finset.sum_add_distrib, add_comm]
    ext v
    simp [Matrix.mulVec, dotProduct]
  have hq' : HasFDerivAt (fun y => A y *ᵥ u y) (mulVecK dq) m :=
    HasFDerivAt.congr_of_eventuallyEq hq (by filter_upwards [hsol] with y hy; exact hy.symm)
  have hE := hprod.unique hq'
  have hUnit : IsUnit (A m).det := isUnit_iff_ne_zero.2 h0
  refine hU.congr_fderiv ?_
  ext v : 1
  have hv := congrArg (fun L : (ι → ℝ) →L[ℝ] (n → 𝕜) => L v) hE
  simp only [_root_.add_apply, mulVecK_apply] at hv
  have hv' : dA *ᵥ castV 𝕜 v + A m *ᵥ (fderiv ℝ u m v) = dq *ᵥ castV 𝕜 v := hv
  have : A m *ᵥ (fderiv ℝ u m v) = (dq - dA) *ᵥ castV 𝕜 v := by
    rw [Matrix.sub_mulVec, ← hv']; abel
  rw [mulVecK_apply, ← Matrix.mulVec_mulVec, ← this, Matrix.mulVec_mulVec,
    Matrix.nonsing_inv_mul _ hUnit, Matrix.one_mulVec]

end system

end Verif
