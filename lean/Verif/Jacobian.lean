import Verif.Analysis
import Mathlib.Analysis.Calculus.FDeriv.Prod
import Mathlib.Analysis.Calculus.FDeriv.Linear
import Mathlib.Analysis.Calculus.Deriv.Basic
import Mathlib.Analysis.Calculus.Deriv.Comp
import Mathlib.Analysis.Calculus.Deriv.Inv
import Mathlib.LinearAlgebra.Matrix.NonsingularInverse
import Mathlib.LinearAlgebra.Matrix.Notation

/-!
Rules for Jacobians of functions of real vectors given as matrices (`Verif.IsJacobian`): sums,
products, chain rule, uniqueness.
-/

namespace Verif
open Matrix

variable {ι κ μ ν : Type} [Fintype ι] [Fintype κ] [Fintype μ] [Fintype ν]

omit [Fintype κ] in
theorem mulVecL_injective {A B : Matrix κ ι ℝ} (h : mulVecL A = mulVecL B) : A = B := by
  classical
  ext i j
  have := congrFun (congrArg (fun L : (ι → ℝ) →L[ℝ] (κ → ℝ) => L (Pi.single j 1)) h) i
  simpa [Matrix.mulVec_single_one] using this

omit [Fintype κ] in
theorem mulVecL_add (A B : Matrix κ ι ℝ) : mulVecL (A + B) = mulVecL A + mulVecL B := by
  ext v i; simp [Matrix.add_mulVec]

omit [Fintype κ] in
theorem mulVecL_neg (A : Matrix κ ι ℝ) : mulVecL (-A) = -mulVecL A := by
  ext v i; simp [Matrix.neg_mulVec]

omit [Fintype κ] in
theorem mulVecL_sub (A B : Matrix κ ι ℝ) : mulVecL (A - B) = mulVecL A - mulVecL B := by
  ext v i; simp [Matrix.sub_mulVec]

omit [Fintype κ] in
theorem mulVecL_smul (c : ℝ) (A : Matrix κ ι ℝ) : mulVecL (c • A) = c • mulVecL A := by
  ext v i; simp [Matrix.smul_mulVec]

omit [Fintype κ] in
theorem mulVecL_zero : mulVecL (0 : Matrix κ ι ℝ) = 0 := by
  ext v i; simp

theorem mulVecL_mul (A : Matrix μ κ ℝ) (B : Matrix κ ι ℝ) :
    mulVecL (A * B) = (mulVecL A).comp (mulVecL B) := by
  ext v i; simp [Matrix.mulVec_mulVec]

theorem mulVecL_one [DecidableEq ι] : mulVecL (1 : Matrix ι ι ℝ) = ContinuousLinearMap.id ℝ _ := by
  ext v i; simp

theorem IsJacobian.unique {f : (ι → ℝ) → (κ → ℝ)} {A B : Matrix κ ι ℝ} {m : ι → ℝ}
    (h1 : IsJacobian f A m) (h2 : IsJacobian f B m) : A = B :=
  mulVecL_injective (HasFDerivAt.unique h1 h2)

theorem IsJacobian.congr {f g : (ι → ℝ) → (κ → ℝ)} {A : Matrix κ ι ℝ} {m : ι → ℝ}
    (h : IsJacobian f A m) (hg : ∀ᶠ x in nhds m, g x = f x) : IsJacobian g A m :=
  HasFDerivAt.congr_of_eventuallyEq h hg

theorem isJacobian_const (c : κ → ℝ) (m : ι → ℝ) :
    IsJacobian (fun _ => c) (0 : Matrix κ ι ℝ) m := by
  unfold IsJacobian; rw [mulVecL_zero]; exact hasFDerivAt_const c m

theorem isJacobian_id [DecidableEq ι] (m : ι → ℝ) : IsJacobian (fun x => x) (1 : Matrix ι ι ℝ) m := by
  unfold IsJacobian; rw [mulVecL_one]; exact hasFDerivAt_id m

theorem IsJacobian.add {f g : (ι → ℝ) → (κ → ℝ)} {A B : Matrix κ ι ℝ} {m : ι → ℝ}
    (hf : IsJacobian f A m) (hg : IsJacobian g B m) : IsJacobian (fun x => f x + g x) (A + B) m := by
  unfold IsJacobian; rw [mulVecL_add]; exact HasFDerivAt.add hf hg

theorem IsJacobian.sub {f g : (ι → ℝ) → (κ → ℝ)} {A B : Matrix κ ι ℝ} {m : ι → ℝ}
    (hf : IsJacobian f A m) (hg : IsJacobian g B m) : IsJacobian (fun x => f x - g x) (A - B) m := by
  unfold IsJacobian; rw [mulVecL_sub]; exact HasFDerivAt.sub hf hg

theorem IsJacobian.neg {f : (ι → ℝ) → (κ → ℝ)} {A : Matrix κ ι ℝ} {m : ι → ℝ}
    (hf : IsJacobian f A m) : IsJacobian (fun x => -f x) (-A) m := by
  unfold IsJacobian; rw [mulVecL_neg]; exact HasFDerivAt.neg hf

theorem IsJacobian.smul (c : ℝ) {f : (ι → ℝ) → (κ → ℝ)} {A : Matrix κ ι ℝ} {m : ι → ℝ}
    (hf : IsJacobian f A m) : IsJacobian (fun x => c • f x) (c • A) m := by
  unfold IsJacobian; rw [mulVecL_smul]; exact HasFDerivAt.const_smul hf c

/-- A constant matrix times a function. -/
theorem IsJacobian.mulVec (D : Matrix μ κ ℝ) {f : (ι → ℝ) → (κ → ℝ)} {A : Matrix κ ι ℝ}
    {m : ι → ℝ} (hf : IsJacobian f A m) : IsJacobian (fun x => D *ᵥ f x) (D * A) m := by
  unfold IsJacobian
  rw [mulVecL_mul]
  exact HasFDerivAt.comp (g := mulVecL D) m (ContinuousLinearMap.hasFDerivAt _) hf

/-- Chain rule. -/
theorem IsJacobian.comp {g : (κ → ℝ) → (μ → ℝ)} {f : (ι → ℝ) → (κ → ℝ)} {B : Matrix μ κ ℝ}
    {A : Matrix κ ι ℝ} {m : ι → ℝ} (hg : IsJacobian g B (f m)) (hf : IsJacobian f A m) :
    IsJacobian (fun x => g (f x)) (B * A) m := by
  unfold IsJacobian
  rw [mulVecL_mul]
  exact HasFDerivAt.comp m hg hf

/-- Jacobians entry by entry. -/
theorem isJacobian_iff {f : (ι → ℝ) → (κ → ℝ)} {A : Matrix κ ι ℝ} {m : ι → ℝ} :
    IsJacobian f A m ↔ ∀ i, HasFDerivAt (fun x => f x i) (dotL (A i)) m := by
  unfold IsJacobian
  rw [hasFDerivAt_pi']
  have : ∀ i, (ContinuousLinearMap.proj i).comp (mulVecL A) = dotL (A i) := by
    intro i; ext v; simp [Matrix.mulVec]
  simp only [this]

/-- Entrywise product. -/
theorem IsJacobian.mul [DecidableEq κ] {f g : (ι → ℝ) → (κ → ℝ)} {A B : Matrix κ ι ℝ} {m : ι → ℝ}
    (hf : IsJacobian f A m) (hg : IsJacobian g B m) :
    IsJacobian (fun x => f x * g x) (diagonal (f m) * B + diagonal (g m) * A) m := by
  rw [isJacobian_iff] at hf hg ⊢
  intro i
  have h := (hf i).mul (hg i)
  have e : dotL ((diagonal (f m) * B + diagonal (g m) * A) i) =
      f m i • dotL (B i) + g m i • dotL (A i) := by
    ext v
    simp [dotProduct, Matrix.add_apply, Matrix.diagonal_mul, add_mul, Finset.sum_add_distrib,
      Finset.mul_sum, mul_assoc]
  rw [e]
  exact h

/-- A real function applied to every entry. -/
theorem IsJacobian.map [DecidableEq κ] {f : (ι → ℝ) → (κ → ℝ)} {A : Matrix κ ι ℝ} {m : ι → ℝ}
    {φ : κ → ℝ → ℝ} {φ' : κ → ℝ} (hφ : ∀ i, HasDerivAt (φ i) (φ' i) (f m i))
    (hf : IsJacobian f A m) :
    IsJacobian (fun x i => φ i (f x i)) (diagonal φ' * A) m := by
  rw [isJacobian_iff] at hf ⊢
  intro i
  have h := (hφ i).comp_hasFDerivAt m (hf i)
  have e : dotL ((diagonal φ' * A) i) = φ' i • dotL (A i) := by
    ext v
    simp [dotProduct, Matrix.diagonal_mul, Finset.mul_sum, mul_assoc]
  rw [e]
  exact h

/-- Entrywise inverse. -/
theorem IsJacobian.inv [DecidableEq κ] {f : (ι → ℝ) → (κ → ℝ)} {A : Matrix κ ι ℝ} {m : ι → ℝ}
    (h0 : ∀ i, f m i ≠ 0) (hf : IsJacobian f A m) :
    IsJacobian (fun x i => (f x i)⁻¹) (diagonal (fun i => -(f m i ^ 2)⁻¹) * A) m :=
  IsJacobian.map (φ := fun _ x => x⁻¹) (fun i => hasDerivAt_inv (h0 i)) hf

/-- `F` has the partial Jacobians `Am`, `Au` at `(m, u)`, jointly (full Fréchet sense). -/
def IsJacobian₂ (F : (ι → ℝ) → (κ → ℝ) → (μ → ℝ)) (Am : Matrix μ ι ℝ) (Au : Matrix μ κ ℝ)
    (m : ι → ℝ) (u : κ → ℝ) : Prop :=
  HasFDerivAt (fun x : (ι → ℝ) × (κ → ℝ) => F x.1 x.2) ((mulVecL Am).coprod (mulVecL Au)) (m, u)

/-- The total Jacobian along two functions. -/
theorem IsJacobian₂.comp {F : (ι → ℝ) → (κ → ℝ) → (μ → ℝ)} {Am : Matrix μ ι ℝ} {Au : Matrix μ κ ℝ}
    {f : (ν → ℝ) → (ι → ℝ)} {u : (ν → ℝ) → (κ → ℝ)} {M : Matrix ι ν ℝ} {U : Matrix κ ν ℝ}
    {x : ν → ℝ} (hF : IsJacobian₂ F Am Au (f x) (u x)) (hf : IsJacobian f M x)
    (hu : IsJacobian u U x) : IsJacobian (fun y => F (f y) (u y)) (Am * M + Au * U) x := by
  have hfu : HasFDerivAt (fun y => (f y, u y)) ((mulVecL M).prod (mulVecL U)) x :=
    HasFDerivAt.prodMk hf hu
  have h := HasFDerivAt.comp (f := fun y => (f y, u y)) x
    (g := fun z : (ι → ℝ) × (κ → ℝ) => F z.1 z.2) hF hfu
  have e : mulVecL (Am * M + Au * U) =
      ((mulVecL Am).coprod (mulVecL Au)).comp ((mulVecL M).prod (mulVecL U)) := by
    rw [mulVecL_add, mulVecL_mul, mulVecL_mul]
    ext v i
    simp
  unfold IsJacobian
  rw [e]
  exact h

end Verif
