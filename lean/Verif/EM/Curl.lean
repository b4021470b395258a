import Verif.PF.Spheres
import Mathlib.Analysis.Calculus.Deriv.Mul
import Mathlib.Analysis.Calculus.Deriv.Comp
import Mathlib.Tactic.Module

/-!
Partial derivatives, curl and divergence of fields in space with values in a real normed space, and those of the
two kinds of fields that dipoles have. Used for C162 and C163.
-/

noncomputable section
namespace Verif.EM.Curl
open Verif.VRM Verif.VRM.Props Verif.PF.Spheres

variable {E : Type} [NormedAddCommGroup E] [NormedSpace ℝ E]

/-! ### Specification -/

/-- `d` is the derivative of `F` at `x` in the direction of axis `j`. -/
def Partial (F : Pt → E) (j : Fin 3) (x : Pt) (d : E) : Prop :=
  HasDerivAt (fun t : ℝ => F (Function.update x j t)) d (x j)

/-- `c` is the curl of the field `F` at `x`. -/
def IsCurl (F : Pt → Fin 3 → E) (x : Pt) (c : Fin 3 → E) : Prop :=
  ∃ D : Fin 3 → Fin 3 → E, (∀ k j, Partial (fun y => F y k) j x (D k j)) ∧
    c 0 = D 2 1 - D 1 2 ∧ c 1 = D 0 2 - D 2 0 ∧ c 2 = D 1 0 - D 0 1

/-- `c` is the divergence of the field `F` at `x`. -/
def IsDiv (F : Pt → Fin 3 → E) (x : Pt) (c : E) : Prop :=
  ∃ D : Fin 3 → E, (∀ k, Partial (fun y => F y k) k x (D k)) ∧ c = D 0 + D 1 + D 2

/-- Vector product. -/
def cross (m u : Pt) : Pt := ![m 1 * u 2 - m 2 * u 1, m 2 * u 0 - m 0 * u 2, m 0 * u 1 - m 1 * u 0]

/-! ### Rules -/

theorem Partial.unique {F : Pt → E} {j : Fin 3} {x : Pt} {d d' : E} (h : Partial F j x d)
    (h' : Partial F j x d') : d = d' := HasDerivAt.unique h h'

/-- A field has at most one curl. -/
theorem IsCurl.unique {F : Pt → Fin 3 → E} {x : Pt} {c c' : Fin 3 → E} (h : IsCurl F x c)
    (h' : IsCurl F x c') : c = c' := by
  obtain ⟨D, hD, h0, h1, h2⟩ := h
  obtain ⟨D', hD', h0', h1', h2'⟩ := h'
  have e : ∀ k j, D k j = D' k j := fun k j => (hD k j).unique (hD' k j)
  funext k
  fin_cases k
  · simp [h0, h0', e]
  · simp [h1, h1', e]
  · simp [h2, h2', e]

theorem IsCurl.congr {F G : Pt → Fin 3 → E} {x : Pt} {c c' : Fin 3 → E} (h : IsCurl F x c)
    (hF : ∀ y k, G y k = F y k) (hc : ∀ k, c' k = c k) : IsCurl G x c' := by
  obtain rfl : G = F := by funext y k; exact hF y k
  obtain rfl : c' = c := by funext k; exact hc k
  exact h

theorem IsDiv.congr {F G : Pt → Fin 3 → E} {x : Pt} {c c' : E} (h : IsDiv F x c)
    (hF : ∀ y k, G y k = F y k) (hc : c' = c) : IsDiv G x c' := by
  obtain rfl : G = F := by funext y k; exact hF y k
  subst hc
  exact h

/-- Affine functions. -/
theorem affine {f : ℝ → ℝ} {c0 c1 t0 : ℝ} (h : ∀ t, f t = c0 + (t - t0) * c1) : HasDerivAt f c1 t0 := by
  obtain rfl : f = fun t => c0 + (t - t0) * c1 := funext h
  simpa using (((hasDerivAt_id t0).sub_const t0).mul_const c1).const_add c0

theorem pCoord (a x : Pt) (k j : Fin 3) :
    Partial (fun y => y k - a k) j x (if k = j then 1 else 0) := by
  refine affine (c0 := x k - a k) fun t => ?_
  by_cases h : k = j
  · subst h; simp
  · simp [h]

theorem pMdot (m a x : Pt) (j : Fin 3) : Partial (fun y => mdotr m y a) j x (m j) := by
  refine affine (c0 := mdotr m x a) fun t => ?_
  fin_cases j <;> simp [mdotr, Function.update] <;> ring

theorem pCross (m a x : Pt) (k j : Fin 3) :
    Partial (fun y => cross m (y - a) k) j x (cross m (Pi.single j 1) k) := by
  refine affine (c0 := cross m (x - a) k) fun t => ?_
  fin_cases j <;> fin_cases k <;> simp [cross, Function.update, Pi.single] <;> ring

theorem pDist {a x : Pt} (hx : x ≠ a) (j : Fin 3) :
    Partial (fun y => dist3 y a) j x ((x j - a j) / dist3 x a) := by
  have hq := (quad_pos hx).ne'
  have h : HasDerivAt (fun t : ℝ => quad a (Function.update x j t)) (2 * (x j - a j)) (x j) := by
    have h1 : ∀ k, HasDerivAt (fun t : ℝ => (Function.update x j t k - a k) ^ 2)
        (2 * (x k - a k) * (if k = j then 1 else 0)) (x j) := fun k => by
      have h3 := HasDerivAt.pow (pCoord a x k j) 2
      refine (HasDerivAt.congr_deriv h3 ?_ : HasDerivAt (fun t : ℝ => (Function.update x j t k - a k) ^ 2) _ _)
      simp
    refine (((h1 0).add (h1 1)).add (h1 2)).congr_deriv ?_
    fin_cases j <;> simp
  have h2 := h.sqrt (by simpa using hq)
  refine HasDerivAt.congr_deriv (f' := 2 * (x j - a j) / (2 * Real.sqrt (quad a x))) ?_ ?_
  · simpa [Partial, dist_eq] using h2
  · rw [dist_eq]; ring

theorem pRadial {f : ℝ → E} {f' : E} {a x : Pt} (hx : x ≠ a) (hf : HasDerivAt f f' (dist3 x a))
    (j : Fin 3) : Partial (fun y => f (dist3 y a)) j x (((x j - a j) / dist3 x a) • f') := by
  have h := pDist hx j
  have hf' : HasDerivAt f f' (dist3 (Function.update x j (x j)) a) := by simpa using hf
  exact hf'.scomp (x j) h

theorem pSmul {c : Pt → ℝ} {F : Pt → E} {j : Fin 3} {x : Pt} {c' : ℝ} {F' : E} (hc : Partial c j x c')
    (hF : Partial F j x F') : Partial (fun y => c y • F y) j x (c x • F' + c' • F x) := by
  have h := HasDerivAt.smul hc hF
  refine (HasDerivAt.congr_deriv h ?_ :
    HasDerivAt (fun t : ℝ => c (Function.update x j t) • F (Function.update x j t)) _ _)
  simp

theorem pAdd {F G : Pt → E} {j : Fin 3} {x : Pt} {F' G' : E} (hF : Partial F j x F')
    (hG : Partial G j x G') : Partial (fun y => F y + G y) j x (F' + G') := HasDerivAt.add hF hG

theorem pMul {c d : Pt → ℝ} {j : Fin 3} {x : Pt} {c' d' : ℝ} (hc : Partial c j x c')
    (hd : Partial d j x d') : Partial (fun y => c y * d y) j x (c' * d x + c x * d') := by
  have h := HasDerivAt.mul hc hd
  refine (HasDerivAt.congr_deriv h ?_ :
    HasDerivAt (fun t : ℝ => c (Function.update x j t) * d (Function.update x j t)) _ _)
  simp

theorem pConst (e : ℝ) (j : Fin 3) (x : Pt) : Partial (fun _ => e) j x 0 := hasDerivAt_const _ _

/-! ### Fields of dipoles -/

/-- The curl of `f(r) m × u`. -/
theorem curl_S {f : ℝ → E} {f' : E} (m : Pt) {a x : Pt} (hx : x ≠ a) (hf : HasDerivAt f f' (dist3 x a)) :
    IsCurl (fun y k => cross m (y - a) k • f (dist3 y a)) x fun k =>
      (2 * m k) • f (dist3 x a) +
        ((m k * dist3 x a ^ 2 - (x k - a k) * mdotr m x a) / dist3 x a) • f' := by
  refine ⟨fun k j => _, fun k j => pSmul (pCross m a x k j) (pRadial hx hf j), ?_, ?_, ?_⟩
  all_goals
    rw [dist_sq]
    simp only [cross, mdotr, Pi.single, Function.update, Pi.sub_apply, Matrix.cons_val_zero, Matrix.cons_val_one,
      Matrix.cons_val]
    simp
    generalize f (dist3 x a) = F
    module

/-- The divergence of `f(r) m × u` is zero. -/
theorem div_S {f : ℝ → E} {f' : E} (m : Pt) {a x : Pt} (hx : x ≠ a) (hf : HasDerivAt f f' (dist3 x a)) :
    IsDiv (fun y k => cross m (y - a) k • f (dist3 y a)) x 0 := by
  refine ⟨fun k => _, fun k => pSmul (pCross m a x k k) (pRadial hx hf k), ?_⟩
  simp only [cross, Pi.single, Function.update, Pi.sub_apply, Matrix.cons_val_zero, Matrix.cons_val_one,
      Matrix.cons_val]
  simp
  generalize f (dist3 x a) = F
  module

theorem pT {A B : ℝ → E} {A' B' : E} (m : Pt) {a x : Pt} (hx : x ≠ a) (hA : HasDerivAt A A' (dist3 x a))
    (hB : HasDerivAt B B' (dist3 x a)) (k j : Fin 3) :
    Partial (fun y => (mdotr m y a * (y k - a k)) • A (dist3 y a) + m k • B (dist3 y a)) j x
      ((mdotr m x a * (x k - a k)) • (((x j - a j) / dist3 x a) • A') +
        (m j * (x k - a k) + mdotr m x a * if k = j then 1 else 0) • A (dist3 x a) +
        (m k • (((x j - a j) / dist3 x a) • B') + (0 : ℝ) • B (dist3 x a))) :=
  pAdd (pSmul (pMul (pMdot m a x j) (pCoord a x k j)) (pRadial hx hA j))
    (pSmul (pConst (m k) j x) (pRadial hx hB j))

/-- The curl of `A(r) (m · u) u + B(r) m`. -/
theorem curl_T {A B : ℝ → E} {A' B' : E} (m : Pt) {a x : Pt} (hx : x ≠ a)
    (hA : HasDerivAt A A' (dist3 x a)) (hB : HasDerivAt B B' (dist3 x a)) :
    IsCurl (fun y k => (mdotr m y a * (y k - a k)) • A (dist3 y a) + m k • B (dist3 y a)) x fun k =>
      cross m (x - a) k • A (dist3 x a) - (cross m (x - a) k / dist3 x a) • B' := by
  refine ⟨fun k j => _, fun k j => pT m hx hA hB k j, ?_, ?_, ?_⟩
  all_goals
    simp [cross]
    generalize A (dist3 x a) = F
    module

/-- The divergence of `A(r) (m · u) u + B(r) m`. -/
theorem div_T {A B : ℝ → E} {A' B' : E} (m : Pt) {a x : Pt} (hx : x ≠ a)
    (hA : HasDerivAt A A' (dist3 x a)) (hB : HasDerivAt B B' (dist3 x a)) :
    IsDiv (fun y k => (mdotr m y a * (y k - a k)) • A (dist3 y a) + m k • B (dist3 y a)) x
      ((4 * mdotr m x a) • A (dist3 x a) + (mdotr m x a * dist3 x a) • A'
        + (mdotr m x a / dist3 x a) • B') := by
  refine ⟨fun k => _, fun k => pT m hx hA hB k k, ?_⟩
  have e : mdotr m x a * dist3 x a = mdotr m x a *
      ((x 0 - a 0) ^ 2 + (x 1 - a 1) ^ 2 + (x 2 - a 2) ^ 2) / dist3 x a := by
    rw [← dist_sq]; have := (dist_pos hx).ne'; field_simp
  rw [e]
  generalize A (dist3 x a) = F
  generalize dist3 x a = r
  simp [mdotr]
  module

end Verif.EM.Curl
