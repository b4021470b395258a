import Verif.Analysis
import Mathlib.Analysis.SpecialFunctions.Log.Deriv
import Mathlib.Analysis.SpecialFunctions.ExpDeriv
import Mathlib.Analysis.Calculus.Deriv.Inv
import Mathlib.Tactic.FieldSimp
import Mathlib.Tactic.NormNum
import Mathlib.Tactic.Linarith
import Mathlib.Tactic.Positivity

/-!
Elementwise maps of `simpeg/maps/_property_maps.py`, over the reals, with C16: exact
derivatives and inverses.  `expit` and `logit` are scipy's functions.
-/

namespace Verif.Maps.Elementary
open Verif Matrix

/-- An elementwise map on one parameter: transform, derivative entry, inverse. -/
structure Scalar where
  f : ℝ → ℝ
  d : ℝ → ℝ
  inv : ℝ → ℝ

/-- `ExpMap` (47-108). -/
noncomputable def expMap : Scalar := ⟨Real.exp, Real.exp, Real.log⟩

/-- `ReciprocalMap` (140-200): `1.0 / m`, `-m ** (-2)`. -/
noncomputable def reciprocalMap : Scalar := ⟨fun m => 1 / m, fun m => -(m ^ 2)⁻¹, fun D => 1 / D⟩

/-- `LogMap` (232-297): the derivative is set to 0 where `|m| < 1e-16`. -/
noncomputable def logMap : Scalar :=
  ⟨Real.log, fun m => if (1e-16 : ℝ) ≤ |m| then 1 / m else 0, Real.exp⟩

/-- `scipy.special.expit`. -/
noncomputable def expit (x : ℝ) : ℝ := 1 / (1 + Real.exp (-x))

/-- `scipy.special.logit`. -/
noncomputable def logit (p : ℝ) : ℝ := Real.log (p / (1 - p))

/-- `LogisticSigmoidMap` (395-455), one component with its bounds. -/
noncomputable def sigmoidMap (lo hi : ℝ) : Scalar :=
  ⟨fun m => lo + (hi - lo) * expit m, fun m => (hi - lo) * expit m * (1 - expit m),
   fun m => logit ((m - lo) / (hi - lo))⟩

/-- `ChiMap` (489-552). -/
noncomputable def chiMap (mu0 : ℝ) : Scalar :=
  ⟨fun m => mu0 * (1 + m), fun _ => mu0, fun m => m / mu0 - 1⟩

/-- `EffectiveSusceptibilityMap` (590-599). -/
noncomputable def effSuscMap (a : ℝ) : Scalar := ⟨fun m => m * a, fun _ => a, fun m => m / a⟩

/-- `MuRelative` (629-691). -/
noncomputable def muRelativeMap (mu0 : ℝ) : Scalar :=
  ⟨fun m => mu0 * m, fun _ => mu0, fun m => 1 / mu0 * m⟩

/-- `Weighting` (768-836), one component with its weight. -/
noncomputable def weightingMap (w : ℝ) : Scalar := ⟨fun m => w * m, fun _ => w, fun D => w⁻¹ * D⟩

/-- The map on a model vector: component `i` uses its own scalar map (bounds and weights may
differ between components); `deriv(m)` is `sdiag` of the entries. -/
def transform {n : Nat} (s : Fin n → Scalar) (m : Fin n → ℝ) : Fin n → ℝ := fun i => (s i).f (m i)

/-- `deriv(m)`. -/
def deriv {n : Nat} (s : Fin n → Scalar) (m : Fin n → ℝ) : Matrix (Fin n) (Fin n) ℝ :=
  Matrix.diagonal fun i => (s i).d (m i)

/-- `inverse(D)`. -/
def inverse {n : Nat} (s : Fin n → Scalar) (D : Fin n → ℝ) : Fin n → ℝ := fun i => (s i).inv (D i)

namespace Props

/-- Elementwise maps: derivatives of the components give the Jacobian. -/
theorem elementwise {n : Nat} (s : Fin n → Scalar) (m : Fin n → ℝ)
    (h : ∀ i, HasDerivAt (s i).f ((s i).d (m i)) (m i)) :
    IsJacobian (transform s) (deriv s m) m := by
  unfold IsJacobian
  rw [hasFDerivAt_pi']
  intro i
  have := (h i).hasFDerivAt.comp m (hasFDerivAt_apply (𝕜 := ℝ) i m)
  refine this.congr_fderiv ?_
  ext v
  simp only [ContinuousLinearMap.comp_apply, ContinuousLinearMap.proj_apply]
  change _ = (deriv s m *ᵥ v) i
  simp [deriv, mulVec_diagonal, mul_comm]

/-- The documented domain of a scalar map at `m`, for C16. -/
inductive Dom : Scalar → ℝ → Prop
  | exp (m : ℝ) : Dom expMap m
  | reciprocal (m : ℝ) (h : m ≠ 0) : Dom reciprocalMap m
  | log (m : ℝ) (h : 1e-16 ≤ m) : Dom logMap m
  | sigmoid (lo hi m : ℝ) (h : lo ≠ hi) : Dom (sigmoidMap lo hi) m
  | chi (mu0 m : ℝ) (h : mu0 ≠ 0) : Dom (chiMap mu0) m
  | effSusc (a m : ℝ) (h : a ≠ 0) : Dom (effSuscMap a) m
  | muRelative (mu0 m : ℝ) (h : mu0 ≠ 0) : Dom (muRelativeMap mu0) m
  | weighting (w m : ℝ) (h : w ≠ 0) : Dom (weightingMap w) m

theorem expit_pos (x : ℝ) : 0 < expit x := by unfold expit; positivity

theorem expit_lt_one (x : ℝ) : expit x < 1 := by
  unfold expit
  have := Real.exp_pos (-x)
  rw [div_lt_one (by positivity)]
  linarith

theorem hasDerivAt_expit (x : ℝ) : HasDerivAt expit (expit x * (1 - expit x)) x := by
  have hp : (1 + Real.exp (-x)) ≠ 0 := by positivity
  have h1 : HasDerivAt (fun y : ℝ => 1 + Real.exp (-y)) (-Real.exp (-x)) x := by
    have := ((hasDerivAt_neg x).exp).const_add 1
    simpa using this
  have h2 := h1.inv hp
  have e : expit = fun y => (1 + Real.exp (-y))⁻¹ := by funext y; simp [expit]
  rw [e]
  refine h2.congr_deriv ?_
  field_simp
  ring

theorem logit_expit (x : ℝ) : logit (expit x) = x := by
  unfold logit
  have hp : (1 + Real.exp (-x)) ≠ 0 := by positivity
  have : expit x / (1 - expit x) = Real.exp x := by
    have h1 : 1 - expit x = Real.exp (-x) / (1 + Real.exp (-x)) := by
      unfold expit; field_simp; ring
    rw [h1]
    unfold expit
    rw [Real.exp_neg]
    field_simp
  rw [this, Real.log_exp]

theorem hasDerivAt_of_dom {s : Scalar} {m : ℝ} (h : Dom s m) : HasDerivAt s.f (s.d m) m := by
  cases h with
  | exp m => exact Real.hasDerivAt_exp m
  | reciprocal m h =>
    have := hasDerivAt_inv h
    simpa [reciprocalMap, one_div] using this
  | log m h =>
    have hm : 0 < m := lt_of_lt_of_le (by norm_num) h
    have e : logMap.d m = m⁻¹ := by
      simp only [logMap]
      rw [abs_of_pos hm, if_pos h, one_div]
    rw [e]
    exact Real.hasDerivAt_log hm.ne'
  | sigmoid lo hi m h =>
    have := ((hasDerivAt_expit m).const_mul (hi - lo)).const_add lo
    simp only [sigmoidMap]
    refine this.congr_deriv ?_
    ring
  | chi mu0 m h =>
    have := ((hasDerivAt_id m).const_add 1).const_mul mu0
    simpa [chiMap] using this
  | effSusc a m h =>
    have := (hasDerivAt_id m).mul_const a
    simpa [effSuscMap] using this
  | muRelative mu0 m h =>
    have := (hasDerivAt_id m).const_mul mu0
    simpa [muRelativeMap] using this
  | weighting w m h =>
    have := (hasDerivAt_id m).const_mul w
    simpa [weightingMap] using this

theorem inverse_of_dom {s : Scalar} {m : ℝ} (h : Dom s m) : s.inv (s.f m) = m := by
  cases h with
  | exp m => exact Real.log_exp m
  | reciprocal m h => simp [reciprocalMap]
  | log m h => exact Real.exp_log (lt_of_lt_of_le (by norm_num) h)
  | sigmoid lo hi m h =>
    have : hi - lo ≠ 0 := sub_ne_zero.mpr (Ne.symm h)
    simp only [sigmoidMap]
    rw [show (lo + (hi - lo) * expit m - lo) / (hi - lo) = expit m by field_simp; ring]
    exact logit_expit m
  | chi mu0 m h => simp only [chiMap]; field_simp; ring
  | effSusc a m h => simp only [effSuscMap]; field_simp
  | muRelative mu0 m h => simp only [muRelativeMap]; field_simp
  | weighting w m h => simp only [weightingMap]; field_simp

/-- C16. On their documented domains, the elementwise maps return their exact Jacobian,
for models of every length, component-wise parameters included. -/
theorem C16_exact_derivative_partial {n : Nat} (s : Fin n → Scalar) (m : Fin n → ℝ)
    (h : ∀ i, Dom (s i) (m i)) : IsJacobian (transform s) (deriv s m) m :=
  elementwise s m fun i => hasDerivAt_of_dom (h i)

/-- C16. `inverse(map * m) = m` on the documented domains. -/
theorem C16_inverse {n : Nat} (s : Fin n → Scalar) (m : Fin n → ℝ)
    (h : ∀ i, Dom (s i) (m i)) : inverse s (transform s m) = m := by
  funext i
  exact inverse_of_dom (h i)

/-- C16. The sigmoid map stays strictly between its bounds (whichever is larger) and its
derivative has the sign of `hi - lo`. -/
theorem C16_sigmoid_range (lo hi m : ℝ) (h : lo < hi) :
    lo < (sigmoidMap lo hi).f m ∧ (sigmoidMap lo hi).f m < hi ∧ 0 < (sigmoidMap lo hi).d m := by
  have h1 := expit_pos m
  have h2 := expit_lt_one m
  simp only [sigmoidMap]
  have h3 : 0 < hi - lo := by linarith
  refine ⟨by nlinarith, by nlinarith, ?_⟩
  have : 0 < 1 - expit m := by linarith
  positivity

/-- C16 fails for `LogMap` between 0 and `1e-16`: the returned derivative 0 is not the
derivative of the logarithm. -/
theorem C16_violated_log_small (m : ℝ) (h0 : 0 < m) (h1 : m < 1e-16) :
    logMap.d m = 0 ∧ ¬ HasDerivAt logMap.f (logMap.d m) m := by
  have e : logMap.d m = 0 := by
    simp only [logMap]
    rw [abs_of_pos h0, if_neg (not_le.mpr h1)]
  refine ⟨e, fun h => ?_⟩
  rw [e] at h
  have := h.unique (Real.hasDerivAt_log h0.ne')
  have h2 : (0 : ℝ) < m⁻¹ := by positivity
  linarith

/-- A model using three different maps' domains. -/
example : ∀ i : Fin 3, Dom (![logMap, sigmoidMap 5 2, weightingMap (-3)] i)
    (![1 / 100, -7, 0] i) := by
  intro i
  match i with
  | 0 => exact .log _ (by norm_num)
  | 1 => exact .sigmoid _ _ _ (by norm_num)
  | 2 => exact .weighting _ _ (by norm_num)

example : ∃ m : ℝ, 0 < m ∧ m < 1e-16 := ⟨1e-17, by norm_num, by norm_num⟩

end Props
end Verif.Maps.Elementary
