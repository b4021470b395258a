import Verif.Basic
import Mathlib.Analysis.SpecialFunctions.Integrals.Basic
import Mathlib.Analysis.Calculus.ParametricIntervalIntegral
import Mathlib.Analysis.SpecialFunctions.Complex.Arg
import Mathlib.MeasureTheory.Integral.IntervalIntegral.FundThmCalculus
import Mathlib.MeasureTheory.Integral.IntervalIntegral.IntegrationByParts
import Mathlib.Tactic.FieldSimp
import Mathlib.Tactic.Ring
import Mathlib.Tactic.Linarith
import Mathlib.Tactic.Positivity

/-!
C143: the coefficients of the Hankel transforms of the layered electromagnetic simulations
(`simpeg/electromagnetics/base_1d.py` 399-606): for each source, receiver and location the factors of
`J0` and `J1`.
-/

noncomputable section
namespace Verif.EM.Hankel
open Verif

/-- A vector of three entries. -/
abbrev V3 := Fin 3 → ℝ

/-! ### The code -/

/-- `C0` of a magnetic dipole, at one location and one `lambd` (`base_1d.py` 490-573): `m` is
`src.orientation * src.moment / (4 * np.pi)`, `o` the orientation of the receiver, `dx`, `dy` the
entries of `dxyz` and `r` the offset. -/
def dipoleC0 (m o : V3) (dx dy r lam : ℝ) : ℝ :=
  (if m 0 ≠ 0 then
    (if o 0 ≠ 0 then m 0 * o 0 * (dx ^ 2 / r ^ 2) * lam ^ 2 else 0)
    + (if o 1 ≠ 0 then m 0 * o 1 * (dx * dy / r ^ 2) * lam ^ 2 else 0)
   else 0)
  + (if m 1 ≠ 0 then
    (if o 0 ≠ 0 then m 1 * o 0 * o 0 * (dx * dy / r ^ 2) * lam ^ 2 else 0)
    + (if o 1 ≠ 0 then m 1 * o 1 * (dy ^ 2 / r ^ 2) * lam ^ 2 else 0)
   else 0)
  + (if m 2 ≠ 0 then
    (if o 2 ≠ 0 then m 2 * o 2 * lam ^ 2 else 0)
   else 0)

/-- `C1` of a magnetic dipole (`base_1d.py` 490-573). -/
def dipoleC1 (m o : V3) (dx dy r lam : ℝ) : ℝ :=
  (if m 0 ≠ 0 then
    (if o 0 ≠ 0 then m 0 * o 0 * (1 / r - 2 * dx ^ 2 / r ^ 3) * lam else 0)
    - (if o 1 ≠ 0 then m 0 * o 1 * (2 * dx * dy / r ^ 3) * lam else 0)
    - (if o 2 ≠ 0 then m 0 * o 2 * dx / r * lam ^ 2 else 0)
   else 0)
  + (if m 1 ≠ 0 then
    -(if o 0 ≠ 0 then m 1 * o 0 * (2 * dx * dy / r ^ 3) * lam else 0)
    + (if o 1 ≠ 0 then m 1 * o 1 * (1 / r - 2 * dy ^ 2 / r ^ 3) * lam else 0)
    - (if o 2 ≠ 0 then m 1 * o 2 * dy / r * lam ^ 2 else 0)
   else 0)
  + (if m 2 ≠ 0 then
    (if o 0 ≠ 0 then m 2 * o 0 * dx / r * lam ^ 2 else 0)
    + (if o 1 ≠ 0 then m 2 * o 1 * dy / r * lam ^ 2 else 0)
   else 0)

/-- `C1` of a horizontal circular loop with its receiver in the centre (`base_1d.py` 423-425,
484-488): `mz` is the third entry of `src.orientation * src.moment / (4 * np.pi)`. -/
def loopC1 (mz oz radius lam : ℝ) : ℝ := mz * oz * (2 / radius) * lam

/-- The vertical part of a path from source to receiver: `z + h` (`base_1d.py` 418-421, 457-462) with
`h = 0` if the height is in the model. -/
def pathHeight (hMap offset : Bool) (srcZ rxZ topo : ℝ) : ℝ :=
  let h := if hMap then 0 else srcZ - topo
  let z := if offset then h + rxZ else h + rxZ - srcZ
  z + h

/-- `np.arctan2(dy, dx)`. -/
def arctan2 (dy dx : ℝ) : ℝ := Complex.arg ⟨dx, dy⟩

/-- A quadrature point of a wire from `a` to `b`: `lk.dot(R.T) + xy_src_path[i_path, :]`
(`base_1d.py` 433-441), for the node `x` of the rule. -/
def wirePoint (a b : ℝ × ℝ) (x : ℝ) : ℝ × ℝ :=
  let dx := b.1 - a.1
  let dy := b.2 - a.2
  let dl := Real.sqrt (dx ^ 2 + dy ^ 2)
  let l := (x + 1) * dl / 2;
  (l * (dx / dl) + 0 * (-dy / dl) + a.1, l * (dy / dl) + 0 * (dx / dl) + a.2)

/-- `C1` of a quadrature point of a wire (`base_1d.py` 433-448, 464-468, 574-585), for the node `x`
with weight `w`, the current `I` and a receiver at `p`. The orientation `o` is not used. -/
def wireC1 (I : ℝ) (a b : ℝ × ℝ) (x w : ℝ) (_o : V3) (p : ℝ × ℝ) (lam : ℝ) : ℝ :=
  let dl := Real.sqrt ((b.1 - a.1) ^ 2 + (b.2 - a.2) ^ 2)
  let theta := -arctan2 (b.2 - a.2) (b.1 - a.1)
  let weight := w * dl / 2 * I
  let q := wirePoint a b x
  let dx := p.1 - q.1
  let dy := p.2 - q.2
  let offset := Real.sqrt (dx ^ 2 + dy ^ 2)
  let rotY := dx * Real.sin theta + dy * Real.cos theta
  1 / (4 * Real.pi) * (rotY / offset * weight) * lam

/-! ### Specification -/

/-- The Bessel functions of order 0 and 1, by Bessel's integrals. -/
def J0 (x : ℝ) : ℝ := 1 / Real.pi * ∫ t in (0 : ℝ)..Real.pi, Real.cos (x * Real.sin t)
def J1 (x : ℝ) : ℝ := 1 / Real.pi * ∫ t in (0 : ℝ)..Real.pi, Real.sin t * Real.sin (x * Real.sin t)

/-- A partial derivative. -/
def pd (i : Fin 3) (f : V3 → ℝ) (p : V3) : ℝ := deriv (fun t => f (Function.update p i t)) (p i)

/-- The upgoing wave with wave number `lam` around the source at height `h`. -/
def wave (lam h : ℝ) (p : V3) : ℝ :=
  Real.exp (-lam * (p 2 + h)) * J0 (lam * Real.sqrt (p 0 ^ 2 + p 1 ^ 2))

/-- The potential of what a layered Earth with unit reflection returns of a dipole with moment `m`:
that of the image dipole, with reversed horizontal moment. -/
def image (m : V3) (lam h : ℝ) (p : V3) : ℝ :=
  -(m 0 * pd 0 (wave lam h) p) - m 1 * pd 1 (wave lam h) p + m 2 * pd 2 (wave lam h) p

/-- The field along `o`. -/
def along (o : V3) (f : V3 → ℝ) (p : V3) : ℝ := o 0 * pd 0 f p + o 1 * pd 1 f p + o 2 * pd 2 f p

namespace Props

/-! ### Bessel functions -/

theorem J0_deriv (x : ℝ) : HasDerivAt J0 (-J1 x) x := by
  have h : HasDerivAt (fun x : ℝ => ∫ t in (0 : ℝ)..Real.pi, Real.cos (x * Real.sin t))
      (∫ t in (0 : ℝ)..Real.pi, -(Real.sin t * Real.sin (x * Real.sin t))) x := by
    refine (intervalIntegral.hasDerivAt_integral_of_dominated_loc_of_deriv_le (𝕜 := ℝ) (s := Set.univ)
      (F := fun x t => Real.cos (x * Real.sin t))
      (F' := fun x t => -(Real.sin t * Real.sin (x * Real.sin t)))
      (bound := fun _ => (1 : ℝ)) Filter.univ_mem ?_ ?_ ?_ ?_ ?_ ?_).2
    · exact .of_forall fun x => (Continuous.aestronglyMeasurable (by fun_prop))
    · exact Continuous.intervalIntegrable (by fun_prop) _ _
    · exact (Continuous.aestronglyMeasurable (by fun_prop))
    · refine .of_forall fun t _ y _ => ?_
      rw [Real.norm_eq_abs, abs_neg, abs_mul]
      exact mul_le_one₀ (Real.abs_sin_le_one _) (abs_nonneg _) (Real.abs_sin_le_one _)
    · exact intervalIntegrable_const
    · refine .of_forall fun t _ y _ => ?_
      have := (((hasDerivAt_id y).mul_const (Real.sin t))).cos
      refine this.congr_deriv ?_
      simp only [id]
      ring
  have := h.const_mul (1 / Real.pi)
  refine this.congr_deriv ?_
  rw [intervalIntegral.integral_neg, J1]
  ring

theorem J1_parts (x : ℝ) : J1 x =
    x * (1 / Real.pi * ∫ t in (0 : ℝ)..Real.pi, Real.cos t ^ 2 * Real.cos (x * Real.sin t)) := by
  have h : ∫ t in (0 : ℝ)..Real.pi, Real.sin (x * Real.sin t) * Real.sin t =
      Real.sin (x * Real.sin Real.pi) * -Real.cos Real.pi
        - Real.sin (x * Real.sin 0) * -Real.cos 0
        - ∫ t in (0 : ℝ)..Real.pi, (x * Real.cos t * Real.cos (x * Real.sin t)) * -Real.cos t := by
    refine intervalIntegral.integral_mul_deriv_eq_deriv_mul (A := ℝ)
      (u := fun t => Real.sin (x * Real.sin t)) (v := fun t => -Real.cos t)
      (u' := fun t => x * Real.cos t * Real.cos (x * Real.sin t)) (v' := Real.sin) (fun t _ => ?_) (fun t _ => ?_) ?_ ?_
    · have := ((Real.hasDerivAt_sin t).const_mul x).sin
      refine this.congr_deriv ?_
      ring
    · have := (Real.hasDerivAt_cos t).neg
      refine this.congr_deriv ?_
      ring
    · exact Continuous.intervalIntegrable (by fun_prop) _ _
    · exact Continuous.intervalIntegrable (by fun_prop) _ _
  simp only [Real.sin_pi, mul_zero, Real.sin_zero, zero_mul, sub_zero, zero_sub] at h
  have e1 : ∫ t in (0 : ℝ)..Real.pi, Real.sin t * Real.sin (x * Real.sin t) =
      ∫ t in (0 : ℝ)..Real.pi, Real.sin (x * Real.sin t) * Real.sin t := by
    congr 1; ext t; ring
  have e2 : ∫ t in (0 : ℝ)..Real.pi, (x * Real.cos t * Real.cos (x * Real.sin t)) * -Real.cos t =
      -x * ∫ t in (0 : ℝ)..Real.pi, Real.cos t ^ 2 * Real.cos (x * Real.sin t) := by
    rw [← intervalIntegral.integral_const_mul]
    congr 1; ext t; ring
  rw [J1, e1, h, e2]
  ring

theorem J1_deriv {x : ℝ} (hx : x ≠ 0) : HasDerivAt J1 (J0 x - J1 x / x) x := by
  have h : HasDerivAt (fun x : ℝ => ∫ t in (0 : ℝ)..Real.pi, Real.sin t * Real.sin (x * Real.sin t))
      (∫ t in (0 : ℝ)..Real.pi, Real.sin t ^ 2 * Real.cos (x * Real.sin t)) x := by
    refine (intervalIntegral.hasDerivAt_integral_of_dominated_loc_of_deriv_le (𝕜 := ℝ) (s := Set.univ)
      (F := fun x t => Real.sin t * Real.sin (x * Real.sin t))
      (F' := fun x t => Real.sin t ^ 2 * Real.cos (x * Real.sin t))
      (bound := fun _ => (1 : ℝ)) Filter.univ_mem ?_ ?_ ?_ ?_ ?_ ?_).2
    · exact .of_forall fun x => (Continuous.aestronglyMeasurable (by fun_prop))
    · exact Continuous.intervalIntegrable (by fun_prop) _ _
    · exact (Continuous.aestronglyMeasurable (by fun_prop))
    · refine .of_forall fun t _ y _ => ?_
      rw [Real.norm_eq_abs, abs_mul, abs_pow]
      exact mul_le_one₀ (pow_le_one₀ (abs_nonneg _) (Real.abs_sin_le_one _)) (abs_nonneg _)
        (Real.abs_cos_le_one _)
    · exact intervalIntegrable_const
    · refine .of_forall fun t _ y _ => ?_
      have := (((hasDerivAt_id y).mul_const (Real.sin t))).sin.const_mul (Real.sin t)
      refine this.congr_deriv ?_
      simp only [id]
      ring
  have := h.const_mul (1 / Real.pi)
  refine this.congr_deriv ?_
  have e : J1 x / x = 1 / Real.pi * ∫ t in (0 : ℝ)..Real.pi, Real.cos t ^ 2 * Real.cos (x * Real.sin t) := by
    rw [J1_parts]
    field_simp
  rw [e, J0, ← mul_sub, ← intervalIntegral.integral_sub]
  · congr 2
    ext t
    have := Real.sin_sq_add_cos_sq t
    have h2 : Real.sin t ^ 2 = 1 - Real.cos t ^ 2 := by linarith
    rw [h2]
    ring
  · exact Continuous.intervalIntegrable (by fun_prop) _ _
  · exact Continuous.intervalIntegrable (by fun_prop) _ _

theorem J1_zero : J1 0 = 0 := by simp [J1]

theorem J1_cont : Continuous J1 := by
  unfold J1
  apply Continuous.mul continuous_const
  exact intervalIntegral.continuous_parametric_intervalIntegral_of_continuous' (by fun_prop) _ _

theorem J0_cont : Continuous J0 := by
  have : Differentiable ℝ J0 := fun x => (J0_deriv x).differentiableAt
  exact this.continuous

/-! ### Dipoles -/

theorem root_deriv {x c : ℝ} (h : 0 < x ^ 2 + c) :
    HasDerivAt (fun x => Real.sqrt (x ^ 2 + c)) (x / Real.sqrt (x ^ 2 + c)) x := by
  have h1 : HasDerivAt (fun x : ℝ => x ^ 2 + c) (2 * x) x := by
    have := (hasDerivAt_pow 2 x).add_const c
    simpa using this
  refine (h1.sqrt h.ne').congr_deriv ?_
  have := (Real.sqrt_pos.2 h).ne'
  field_simp

theorem J0_root {x c lam : ℝ} (h : 0 < x ^ 2 + c) :
    HasDerivAt (fun x => J0 (lam * Real.sqrt (x ^ 2 + c)))
      (-lam * x / Real.sqrt (x ^ 2 + c) * J1 (lam * Real.sqrt (x ^ 2 + c))) x := by
  refine ((J0_deriv _).comp x ((root_deriv h).const_mul lam)).congr_deriv ?_
  ring

theorem J1_root {x c lam : ℝ} (h : 0 < x ^ 2 + c) (hl : lam ≠ 0) :
    HasDerivAt (fun x => J1 (lam * Real.sqrt (x ^ 2 + c)) / Real.sqrt (x ^ 2 + c))
      (lam * x / Real.sqrt (x ^ 2 + c) ^ 2 * J0 (lam * Real.sqrt (x ^ 2 + c))
        - 2 * x / Real.sqrt (x ^ 2 + c) ^ 3 * J1 (lam * Real.sqrt (x ^ 2 + c))) x := by
  have hr := (Real.sqrt_pos.2 h).ne'
  refine (((J1_deriv (mul_ne_zero hl hr)).comp x ((root_deriv h).const_mul lam)).div
    (root_deriv h) hr).congr_deriv ?_
  simp only [Function.comp]
  generalize Real.sqrt (x ^ 2 + c) = r at hr ⊢
  field_simp
  ring

/-- The first derivatives of the wave, as functions. -/
def grad (lam h : ℝ) : Fin 3 → V3 → ℝ
  | 0 => fun p => Real.exp (-lam * (p 2 + h)) * (-lam * (p 0 *
      (J1 (lam * Real.sqrt (p 0 ^ 2 + p 1 ^ 2)) / Real.sqrt (p 0 ^ 2 + p 1 ^ 2))))
  | 1 => fun p => Real.exp (-lam * (p 2 + h)) * (-lam * (p 1 *
      (J1 (lam * Real.sqrt (p 0 ^ 2 + p 1 ^ 2)) / Real.sqrt (p 0 ^ 2 + p 1 ^ 2))))
  | 2 => fun p => -lam * Real.exp (-lam * (p 2 + h)) * J0 (lam * Real.sqrt (p 0 ^ 2 + p 1 ^ 2))

theorem exp_deriv (lam h z : ℝ) :
    HasDerivAt (fun z => Real.exp (-lam * (z + h))) (-lam * Real.exp (-lam * (z + h))) z := by
  have := ((((hasDerivAt_id z).add_const h).const_mul (-lam))).exp
  refine this.congr_deriv ?_
  simp only [id]
  ring

theorem pd_of {i : Fin 3} {f : V3 → ℝ} {p : V3} {g : ℝ → ℝ} {v : ℝ} (h : HasDerivAt g v (p i))
    (e : ∀ t, f (Function.update p i t) = g t) : pd i f p = v := by
  unfold pd
  rw [show (fun t => f (Function.update p i t)) = g from funext e]
  exact h.deriv

theorem up0 (p : V3) (t : ℝ) : Function.update p 0 t 0 = t ∧ Function.update p 0 t 1 = p 1 ∧
    Function.update p 0 t 2 = p 2 := ⟨rfl, rfl, rfl⟩
theorem up1 (p : V3) (t : ℝ) : Function.update p 1 t 0 = p 0 ∧ Function.update p 1 t 1 = t ∧
    Function.update p 1 t 2 = p 2 := ⟨rfl, rfl, rfl⟩
theorem up2 (p : V3) (t : ℝ) : Function.update p 2 t 0 = p 0 ∧ Function.update p 2 t 1 = p 1 ∧
    Function.update p 2 t 2 = t := ⟨rfl, rfl, rfl⟩

theorem pd_wave {p : V3} (lam h : ℝ) (hp : 0 < p 0 ^ 2 + p 1 ^ 2) (i : Fin 3) :
    pd i (wave lam h) p = grad lam h i p := by
  have hr := (Real.sqrt_pos.2 hp).ne'
  fin_cases i
  · have h1 := (J0_root (lam := lam) hp).const_mul (Real.exp (-lam * (p 2 + h)))
    refine (pd_of (i := 0) h1 (fun t => ?_)).trans ?_
    · simp only [wave, (up0 p t).1, (up0 p t).2.1, (up0 p t).2.2]
    · simp only [grad]
      ring
  · have hp' : 0 < p 1 ^ 2 + p 0 ^ 2 := by rwa [add_comm]
    have h1 := (J0_root (lam := lam) hp').const_mul (Real.exp (-lam * (p 2 + h)))
    refine (pd_of (i := 1) h1 (fun t => ?_)).trans ?_
    · simp only [wave, (up1 p t).1, (up1 p t).2.1, (up1 p t).2.2, add_comm (p 0 ^ 2)]
    · simp only [grad, add_comm (p 1 ^ 2)]
      ring
  · have h1 := (exp_deriv lam h (p 2)).mul_const (J0 (lam * Real.sqrt (p 0 ^ 2 + p 1 ^ 2)))
    refine (pd_of (i := 2) h1 (fun t => ?_)).trans ?_
    · simp only [wave, (up2 p t).1, (up2 p t).2.1, (up2 p t).2.2]
    · simp only [grad]

/-- The image potential, in closed form off the axis. -/
def imageF (m : V3) (lam h : ℝ) (p : V3) : ℝ :=
  -(m 0 * grad lam h 0 p) - m 1 * grad lam h 1 p + m 2 * grad lam h 2 p

theorem pd_congr {f g : V3 → ℝ} {p : V3} (hp : 0 < p 0 ^ 2 + p 1 ^ 2)
    (hfg : ∀ q : V3, 0 < q 0 ^ 2 + q 1 ^ 2 → f q = g q) (i : Fin 3) : pd i f p = pd i g p := by
  unfold pd
  apply Filter.EventuallyEq.deriv_eq
  have hc : ContinuousAt (fun t => (Function.update p i t) 0 ^ 2 + (Function.update p i t) 1 ^ 2) (p i) := by
    have hu : Continuous fun t => Function.update p i t := continuous_const.update i continuous_id
    have h0 : Continuous fun t => (Function.update p i t) 0 := (continuous_apply 0).comp hu
    have h1 : Continuous fun t => (Function.update p i t) 1 := (continuous_apply 1).comp hu
    exact ((h0.pow 2).add (h1.pow 2)).continuousAt
  have := hc.eventually (lt_mem_nhds (show (0 : ℝ) < _ by
    simp only [Function.update_eq_self]; exact hp))
  filter_upwards [this] with t ht
  exact hfg _ ht

theorem image_eq (m : V3) (lam h : ℝ) {p : V3} (hp : 0 < p 0 ^ 2 + p 1 ^ 2) :
    image m lam h p = imageF m lam h p := by
  simp only [image, imageF, pd_wave lam h hp]

/-- The second derivatives of the image potential. -/
theorem pd_image (m : V3) {lam : ℝ} (hl : lam ≠ 0) (h : ℝ) {p : V3} (hp : 0 < p 0 ^ 2 + p 1 ^ 2) :
    let r := Real.sqrt (p 0 ^ 2 + p 1 ^ 2)
    let E := Real.exp (-lam * (p 2 + h))
    let B0 := J0 (lam * r)
    let B1 := J1 (lam * r)
    pd 0 (image m lam h) p = E * ((m 0 * (p 0 ^ 2 / r ^ 2) + m 1 * (p 0 * p 1 / r ^ 2)) * lam ^ 2 * B0
      + (m 0 * (1 / r - 2 * p 0 ^ 2 / r ^ 3) - m 1 * (2 * p 0 * p 1 / r ^ 3)) * lam * B1
      + m 2 * p 0 / r * lam ^ 2 * B1) ∧
    pd 1 (image m lam h) p = E * ((m 0 * (p 0 * p 1 / r ^ 2) + m 1 * (p 1 ^ 2 / r ^ 2)) * lam ^ 2 * B0
      + (-(m 0 * (2 * p 0 * p 1 / r ^ 3)) + m 1 * (1 / r - 2 * p 1 ^ 2 / r ^ 3)) * lam * B1
      + m 2 * p 1 / r * lam ^ 2 * B1) ∧
    pd 2 (image m lam h) p = E * (-(m 0 * p 0 / r + m 1 * p 1 / r) * lam ^ 2 * B1
      + m 2 * lam ^ 2 * B0) := by
  intro r E B0 B1
  have hr : r ≠ 0 := (Real.sqrt_pos.2 hp).ne'
  refine ⟨?_, ?_, ?_⟩
  · rw [pd_congr hp (fun q hq => image_eq m lam h hq)]
    have h0 := ((hasDerivAt_id (p 0)).mul (J1_root hp hl)).const_mul (-lam)
    have h1 := (J1_root hp hl).const_mul (p 1) |>.const_mul (-lam)
    have h2 := J0_root (lam := lam) hp
    have := (((h0.const_mul E).const_mul (m 0)).neg.sub ((h1.const_mul E).const_mul (m 1))).add
      ((h2.const_mul (-lam * E)).const_mul (m 2))
    refine (pd_of (i := 0) this (fun t => ?_)).trans ?_
    · simp only [imageF, grad, (up0 p t).1, (up0 p t).2.1, (up0 p t).2.2, Pi.add_apply, Pi.sub_apply,
        Pi.neg_apply, Pi.mul_apply, id, E]
    simp only [id, show J1 (lam * Real.sqrt (p 0 ^ 2 + p 1 ^ 2)) = B1 from rfl,
      show J0 (lam * Real.sqrt (p 0 ^ 2 + p 1 ^ 2)) = B0 from rfl,
      show Real.sqrt (p 0 ^ 2 + p 1 ^ 2) = r from rfl]
    ring
  · rw [pd_congr hp (fun q hq => image_eq m lam h hq)]
    have hp' : 0 < p 1 ^ 2 + p 0 ^ 2 := by rwa [add_comm]
    have h0 := (J1_root hp' hl).const_mul (p 0) |>.const_mul (-lam)
    have h1 := ((hasDerivAt_id (p 1)).mul (J1_root hp' hl)).const_mul (-lam)
    have h2 := J0_root (lam := lam) hp'
    have := (((h0.const_mul E).const_mul (m 0)).neg.sub ((h1.const_mul E).const_mul (m 1))).add
      ((h2.const_mul (-lam * E)).const_mul (m 2))
    refine (pd_of (i := 1) this (fun t => ?_)).trans ?_
    · simp only [imageF, grad, (up1 p t).1, (up1 p t).2.1, (up1 p t).2.2, Pi.add_apply, Pi.sub_apply,
        Pi.neg_apply, Pi.mul_apply, id, E, add_comm (p 0 ^ 2)]
    simp only [id, add_comm (p 1 ^ 2)]
    simp only [show J1 (lam * Real.sqrt (p 0 ^ 2 + p 1 ^ 2)) = B1 from rfl,
      show J0 (lam * Real.sqrt (p 0 ^ 2 + p 1 ^ 2)) = B0 from rfl,
      show Real.sqrt (p 0 ^ 2 + p 1 ^ 2) = r from rfl]
    ring
  · rw [pd_congr hp (fun q hq => image_eq m lam h hq)]
    have hE := exp_deriv lam h (p 2)
    have h0 := hE.mul_const (-lam * (p 0 * (B1 / r)))
    have h1 := hE.mul_const (-lam * (p 1 * (B1 / r)))
    have h2 := (hE.const_mul (-lam)).mul_const B0
    have := ((h0.const_mul (m 0)).neg.sub (h1.const_mul (m 1))).add (h2.const_mul (m 2))
    refine (pd_of (i := 2) this (fun t => ?_)).trans ?_
    · simp only [imageF, grad, (up2 p t).1, (up2 p t).2.1, (up2 p t).2.2, Pi.add_apply, Pi.sub_apply,
        Pi.neg_apply, r, B0, B1]
    simp only [show Real.exp (-lam * (p 2 + h)) = E from rfl]
    ring

theorem ite_ne {a b : ℝ} (h : a = 0 → b = 0) : (if a ≠ 0 then b else 0) = b := by
  by_cases e : a = 0
  · simp [e, h e]
  · simp [e]

theorem C0_eq (m o : V3) (dx dy r lam : ℝ) : dipoleC0 m o dx dy r lam =
    (m 0 * o 0 * (dx ^ 2 / r ^ 2) + m 0 * o 1 * (dx * dy / r ^ 2)
      + m 1 * o 0 * o 0 * (dx * dy / r ^ 2) + m 1 * o 1 * (dy ^ 2 / r ^ 2) + m 2 * o 2)
      * lam ^ 2 := by
  unfold dipoleC0
  rw [ite_ne (a := o 0), ite_ne (a := o 1), ite_ne (a := o 0), ite_ne (a := o 1), ite_ne (a := o 2),
    ite_ne (a := m 0), ite_ne (a := m 1), ite_ne (a := m 2)]
  · ring
  all_goals intro h; rw [h]; ring

theorem C1_eq (m o : V3) (dx dy r lam : ℝ) : dipoleC1 m o dx dy r lam =
    (m 0 * o 0 * (1 / r - 2 * dx ^ 2 / r ^ 3) - m 0 * o 1 * (2 * dx * dy / r ^ 3)
      - m 1 * o 0 * (2 * dx * dy / r ^ 3) + m 1 * o 1 * (1 / r - 2 * dy ^ 2 / r ^ 3)) * lam
    + (-(m 0 * o 2 * dx / r) - m 1 * o 2 * dy / r + m 2 * o 0 * dx / r + m 2 * o 1 * dy / r)
      * lam ^ 2 := by
  unfold dipoleC1
  rw [ite_ne (a := o 0), ite_ne (a := o 1), ite_ne (a := o 2), ite_ne (a := o 0), ite_ne (a := o 1),
    ite_ne (a := o 2), ite_ne (a := o 0), ite_ne (a := o 1),
    ite_ne (a := m 0), ite_ne (a := m 1), ite_ne (a := m 2)]
  · ring
  all_goals intro h; rw [h]; ring

/-- C143. **Dipoles**: for receivers along an axis (or in the plane of `y` and `z`, or with a source
without `y` component) the coefficients are those of the field of the image dipole over the Earth, for
each wave number, off the axis of the source.
Missing: other receivers with a source that has a `y` component, see `C143_violated_oblique`. -/
theorem C143_dipole_partial (m o : V3) (ho : m 1 = 0 ∨ o 0 = 0 ∨ o 0 = 1) {lam : ℝ} (hl : lam ≠ 0)
    (h : ℝ) {p : V3} (hp : 0 < p 0 ^ 2 + p 1 ^ 2) :
    let r := Real.sqrt (p 0 ^ 2 + p 1 ^ 2)
    Real.exp (-lam * (p 2 + h)) * (dipoleC0 m o (p 0) (p 1) r lam * J0 (lam * r)
      + dipoleC1 m o (p 0) (p 1) r lam * J1 (lam * r)) = along o (image m lam h) p := by
  intro r
  obtain ⟨e0, e1, e2⟩ := pd_image m hl h hp
  rw [along, e0, e1, e2]
  rw [C0_eq, C1_eq]
  have hoo : m 1 * o 0 * o 0 = m 1 * o 0 := by
    rcases ho with ho | ho | ho <;> rw [ho] <;> ring
  rw [hoo]
  simp only [show Real.sqrt (p 0 ^ 2 + p 1 ^ 2) = r from rfl]
  ring

/-- C143. **Oblique receivers**: the coefficient of a `y` dipole has the square of the `x` component of
the receiver. Turning the receiver around does not reverse it. -/
theorem C143_violated_oblique {my dx dy r lam : ℝ} (hm : my ≠ 0) (hx : dx ≠ 0) (hy : dy ≠ 0)
    (hr : r ≠ 0) (hl : lam ≠ 0) :
    dipoleC0 ![0, my, 0] ![-1, 0, 0] dx dy r lam = dipoleC0 ![0, my, 0] ![1, 0, 0] dx dy r lam ∧
    dipoleC0 ![0, my, 0] ![1, 0, 0] dx dy r lam ≠ 0 ∧
    dipoleC1 ![0, my, 0] ![-1, 0, 0] dx dy r lam = -dipoleC1 ![0, my, 0] ![1, 0, 0] dx dy r lam := by
  refine ⟨?_, ?_, ?_⟩
  · simp [dipoleC0, hm]
  · simp [dipoleC0, hm, hx, hy, hr, hl]
  · simp [dipoleC1, hm]

/-! ### Loops -/

/-- C143. **Loops**: the coefficient of a circular loop is the sum of the coefficients of vertical
dipoles over its area. `I` is the current; the moment of the loop is `I π a²`. -/
theorem C143_loop (I oz : ℝ) {a : ℝ} (ha : 0 < a) (lam : ℝ) :
    loopC1 (I * Real.pi * a ^ 2 / (4 * Real.pi)) oz a lam * J1 (lam * a) =
      ∫ s in (0 : ℝ)..a, 2 * Real.pi * s *
        (dipoleC0 ![0, 0, I / (4 * Real.pi)] ![0, 0, oz] s 0 s lam * J0 (lam * s)
          + dipoleC1 ![0, 0, I / (4 * Real.pi)] ![0, 0, oz] s 0 s lam * J1 (lam * s)) := by
  have hpi := Real.pi_ne_zero
  have c0 : ∀ s, dipoleC0 ![0, 0, I / (4 * Real.pi)] ![0, 0, oz] s 0 s lam =
      I / (4 * Real.pi) * oz * lam ^ 2 := by
    intro s
    rw [C0_eq]
    simp
  have c1 : ∀ s, dipoleC1 ![0, 0, I / (4 * Real.pi)] ![0, 0, oz] s 0 s lam = 0 := by
    intro s
    rw [C1_eq]
    simp
  simp only [c0, c1, zero_mul, add_zero]
  rcases eq_or_ne lam 0 with rfl | hl
  · simp [loopC1]
  have key : ∫ s in (0 : ℝ)..a, 2 * Real.pi * s * (I / (4 * Real.pi) * oz * lam ^ 2 * J0 (lam * s)) =
      (I / 2 * oz * lam) * (a * J1 (lam * a)) - (I / 2 * oz * lam) * (0 * J1 (lam * 0)) := by
    refine intervalIntegral.integral_eq_sub_of_hasDerivAt_of_le ha.le
      (f := fun s => (I / 2 * oz * lam) * (s * J1 (lam * s))) ?_ (fun s hs => ?_) ?_
    · have := J1_cont
      exact Continuous.continuousOn (by fun_prop)
    · have hs0 : lam * s ≠ 0 := mul_ne_zero hl hs.1.ne'
      have h1 := ((J1_deriv hs0).comp s ((hasDerivAt_id s).const_mul lam))
      refine (((hasDerivAt_id s).mul h1).const_mul (I / 2 * oz * lam)).congr_deriv ?_
      simp only [id, Function.comp]
      have hs' : s ≠ 0 := hs.1.ne'
      field_simp
      ring
    · have := J0_cont
      exact Continuous.intervalIntegrable (by fun_prop) _ _
  rw [key, loopC1]
  field_simp
  ring

/-! ### Heights -/

/-- C143. **Heights**: unless the height is in the model, waves go down from the source and up to the
receiver, whether its location is absolute or relative to the source; otherwise they have the length of
the difference between receiver and source only, the height is left to the use of the coefficients. -/
theorem C143_height (srcZ rxZ topo : ℝ) :
    pathHeight false false srcZ rxZ topo = (srcZ - topo) + (rxZ - topo) ∧
    pathHeight false true srcZ rxZ topo = (srcZ - topo) + (srcZ + rxZ - topo) ∧
    pathHeight true false srcZ rxZ topo = rxZ - srcZ ∧
    pathHeight true true srcZ rxZ topo = rxZ := by
  simp only [pathHeight]
  refine ⟨?_, ?_, ?_, ?_⟩ <;> simp <;> ring

/-! ### Wires -/

theorem rot_wire {a b : ℝ × ℝ} (hab : a ≠ b) :
    let dl := Real.sqrt ((b.1 - a.1) ^ 2 + (b.2 - a.2) ^ 2)
    0 < dl ∧ Real.cos (arctan2 (b.2 - a.2) (b.1 - a.1)) * dl = b.1 - a.1 ∧
      Real.sin (arctan2 (b.2 - a.2) (b.1 - a.1)) * dl = b.2 - a.2 := by
  intro dl
  have hz : (⟨b.1 - a.1, b.2 - a.2⟩ : ℂ) ≠ 0 := by
    intro h
    have h1 := congrArg Complex.re h
    have h2 := congrArg Complex.im h
    simp only [Complex.zero_re, Complex.zero_im] at h1 h2
    exact hab (Prod.ext (by linarith) (by linarith))
  have hn : ‖(⟨b.1 - a.1, b.2 - a.2⟩ : ℂ)‖ = dl := by
    rw [Complex.norm_def, Complex.normSq_mk]
    congr 1
    ring
  have hd : 0 < dl := by
    rw [← hn]
    exact norm_pos_iff.2 hz
  refine ⟨hd, ?_, ?_⟩
  · rw [arctan2, Complex.cos_arg hz, hn]
    field_simp
  · rw [arctan2, Complex.sin_arg, hn]
    field_simp

/-- C143. **Wires**: the quadrature points divide the wire as the nodes divide `[-1, 1]`, and each
carries the vertical component of the curl of its part of the current, for each wave number; receivers
off the points. -/
theorem C143_wire (I : ℝ) {a b : ℝ × ℝ} (hab : a ≠ b) (x w : ℝ) (o : V3) (p : V3) {lam : ℝ}
    (h : ℝ) :
    let q := wirePoint a b x
    let P : V3 := ![p 0 - q.1, p 1 - q.2, p 2]
    (q = (a.1 + (x + 1) / 2 * (b.1 - a.1), a.2 + (x + 1) / 2 * (b.2 - a.2))) ∧
    (0 < P 0 ^ 2 + P 1 ^ 2 →
      Real.exp (-lam * (p 2 + h)) * (wireC1 I a b x w o (p 0, p 1) lam
        * J1 (lam * Real.sqrt (P 0 ^ 2 + P 1 ^ 2))) =
      I / (4 * Real.pi) * (w / 2) *
        ((b.2 - a.2) * pd 0 (wave lam h) P - (b.1 - a.1) * pd 1 (wave lam h) P)) := by
  intro q P
  obtain ⟨hd, hc, hs⟩ := rot_wire hab
  refine ⟨?_, ?_⟩
  · simp only [q, wirePoint]
    generalize hdl : Real.sqrt ((b.1 - a.1) ^ 2 + (b.2 - a.2) ^ 2) = dl at hd
    ext <;> · simp only; field_simp; ring
  · intro hP
    rw [pd_wave lam h hP, pd_wave lam h hP]
    have hr := (Real.sqrt_pos.2 hP).ne'
    have e : wireC1 I a b x w o (p 0, p 1) lam = 1 / (4 * Real.pi) * ((P 0 *
        Real.sin (-arctan2 (b.2 - a.2) (b.1 - a.1)) + P 1 *
        Real.cos (-arctan2 (b.2 - a.2) (b.1 - a.1))) / Real.sqrt (P 0 ^ 2 + P 1 ^ 2) *
        (w * Real.sqrt ((b.1 - a.1) ^ 2 + (b.2 - a.2) ^ 2) / 2 * I)) * lam := rfl
    rw [e, Real.sin_neg, Real.cos_neg]
    have hP2 : P 2 = p 2 := rfl
    simp only [grad, hP2]
    generalize Real.sqrt (P 0 ^ 2 + P 1 ^ 2) = r at hr ⊢
    generalize Real.sqrt ((b.1 - a.1) ^ 2 + (b.2 - a.2) ^ 2) = dl at hc hs ⊢
    generalize Real.sin (arctan2 (b.2 - a.2) (b.1 - a.1)) = S at hs ⊢
    generalize Real.cos (arctan2 (b.2 - a.2) (b.1 - a.1)) = C at hc ⊢
    rw [← hc, ← hs]
    ring

/-- C143. **Orientation of receivers of wires**: it is ignored, horizontal receivers get the vertical
field, turned receivers the same sign. -/
theorem C143_violated_wire (I : ℝ) (a b : ℝ × ℝ) (x w : ℝ) (o o' : V3) (p : ℝ × ℝ) (lam : ℝ) :
    wireC1 I a b x w o p lam = wireC1 I a b x w o' p lam ∧
    wireC1 2 (0, 0) (2, 0) 0 1 ![0, 0, 1] (1, 1) 1 ≠ 0 := by
  refine ⟨rfl, ?_⟩
  have h0 : arctan2 (0 - 0) (2 - 0) = 0 := by
    simp only [arctan2, sub_zero]
    rw [show (⟨2, 0⟩ : ℂ) = ((2 : ℝ) : ℂ) from rfl]
    exact Complex.arg_ofReal_of_nonneg (by norm_num)
  simp only [wireC1, wirePoint, h0]
  norm_num [Real.pi_ne_zero]

/-! ### Cases -/

example : Real.exp (-2 * (1 + 3)) *
    (dipoleC0 ![1, 2, 3] ![0, 0.6, 0.8] 3 4 (Real.sqrt (3 ^ 2 + 4 ^ 2)) 2 * J0 (2 * Real.sqrt (3 ^ 2 + 4 ^ 2))
      + dipoleC1 ![1, 2, 3] ![0, 0.6, 0.8] 3 4 (Real.sqrt (3 ^ 2 + 4 ^ 2)) 2
        * J1 (2 * Real.sqrt (3 ^ 2 + 4 ^ 2))) =
    along ![0, 0.6, 0.8] (image ![1, 2, 3] 2 3) ![3, 4, 1] :=
  C143_dipole_partial ![1, 2, 3] ![0, 0.6, 0.8] (Or.inr (Or.inl rfl)) two_ne_zero 3
    (p := ![3, 4, 1]) (by norm_num)

example : wirePoint (0, 0) (3, 4) (-1) = (0, 0) ∧ wirePoint (0, 0) (3, 4) 1 = (3, 4) := by
  constructor
  · rw [(C143_wire 1 (by simp) (-1) 1 0 0 (lam := 1) 0).1]; norm_num
  · rw [(C143_wire 1 (by simp) 1 1 0 0 (lam := 1) 0).1]; norm_num

end Props
end Verif.EM.Hankel
