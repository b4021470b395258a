import Verif.VRM.Waveforms
import Mathlib.MeasureTheory.Integral.ExpDecay
import Mathlib.MeasureTheory.Integral.IntegralEqImproper
import Mathlib.Analysis.SpecialFunctions.ExpDeriv
import Mathlib.Analysis.SpecialFunctions.Integrals.Basic

/-!
C139: the decay of viscous remanent magnetization with a log-uniform distribution of relaxation
times (`simpeg/electromagnetics/viscous_remanent_magnetization/waveforms.py` 88-158, 237-341).
-/

noncomputable section
namespace Verif.VRM
open Verif MeasureTheory

/-- `np.sign`. -/
def sgn (x : ℝ) : ℝ := if x < 0 then -1 else if x = 0 then 0 else 1

/-- `scipy.special.expi` at a negative argument, the only ones in the off-time. -/
def expi (x : ℝ) : ℝ := -∫ s in Set.Ioi (-x), Real.exp (-s) / s

/-- One entry of `StepOff.getLogUniformDecay` (`waveforms.py` 128-156), for one cell and one time.
The branches `h` and `b` (128-141) are behind a validation that refuses them (118). -/
def stepLog (t0 : ℝ) (ft : FT) (_chi0 dchi tau1 tau2 t : ℝ) : Except Err ℝ :=
  match ft with
  | .h => .error .valueError
  | .b => .error .valueError
  | .dhdt => .ok (0 + 0.5 * (1 + sgn (t - t0)) * (dchi / Real.log (tau2 / tau1))
      * (Real.exp (-(t - t0) / tau1) - Real.exp (-(t - t0) / tau2)) / (t - t0))
  | .dbdt => .ok (mu0 * (0 + 0.5 * (1 + sgn (t - t0)) * (dchi / Real.log (tau2 / tau1))
      * (Real.exp (-(t - t0) / tau1) - Real.exp (-(t - t0) / tau2)) / (t - t0)))

/-- The unreachable branch `h` of `StepOff.getLogUniformDecay` (`waveforms.py` 128-133). -/
def stepLogH (t0 chi0 dchi tau1 tau2 t : ℝ) : ℝ :=
  0.5 * (1 - sgn (t - t0)) * chi0 + 0.5 * (1 + sgn (t - t0)) * (dchi / Real.log (tau2 / tau1))
    * (expi (-(t - t0) / tau2) - expi (-(t - t0) / tau1))

/-- One entry of `SquarePulse.getLogUniformDecay`, field type `h` (`waveforms.py` 280-288). -/
def pulseLogH (delt t0 chi0 dchi tau1 tau2 t : ℝ) : ℝ :=
  (sgn (t - t0 + delt) - sgn (t - t0)) * (chi0 - dchi)
    - 0.5 * (1 + sgn (t - t0)) * (dchi / Real.log (tau2 / tau1))
      * (expi (-(t - t0) / tau2) - expi (-(t - t0) / tau1)
        - expi (-(t - t0 + delt) / tau2) + expi (-(t - t0 + delt) / tau1))

/-- One entry of `SquarePulse.getLogUniformDecay`, field type `dhdt` (`waveforms.py` 301-318). -/
def pulseLogD (delt t0 dchi tau1 tau2 t : ℝ) : ℝ :=
  0 + 0.5 * (1 + sgn (t - t0)) * (dchi / Real.log (tau2 / tau1))
      * (Real.exp (-(t - t0) / tau1) - Real.exp (-(t - t0) / tau2)) / (t - t0)
    - 0.5 * (1 + sgn (t - t0 + delt)) * (dchi / Real.log (tau2 / tau1))
      * (Real.exp (-(t - t0 + delt) / tau1) - Real.exp (-(t - t0 + delt) / tau2)) / (t - t0 + delt)

/-- `SquarePulse.getLogUniformDecay` (`waveforms.py` 266-341). -/
def pulseLog (delt t0 : ℝ) (ft : FT) (chi0 dchi tau1 tau2 t : ℝ) : ℝ :=
  match ft with
  | .h => pulseLogH delt t0 chi0 dchi tau1 tau2 t
  | .b => mu0 * pulseLogH delt t0 chi0 dchi tau1 tau2 t
  | .dhdt => pulseLogD delt t0 dchi tau1 tau2 t
  | .dbdt => mu0 * pulseLogD delt t0 dchi tau1 tau2 t

namespace Props

/-! ### Specification -/

/-- The mean of `f` over a distribution of relaxation times which is uniform in the logarithm,
between `tau1` and `tau2`. -/
def logMean (tau1 tau2 : ℝ) (f : ℝ → ℝ) : ℝ :=
  (∫ tau in tau1..tau2, f tau / tau) / Real.log (tau2 / tau1)

/-- The magnetization left at a time `s` after a unit field is switched off, of grains with
relaxation times `tau1` to `tau2`. -/
def remanent (dchi tau1 tau2 s : ℝ) : ℝ := dchi * logMean tau1 tau2 fun tau => Real.exp (-s / tau)

/-! ### Tools -/

theorem sgn_pos {x : ℝ} (h : 0 < x) : sgn x = 1 := by
  rw [sgn, if_neg (not_lt.2 h.le), if_neg h.ne']

theorem exp_div_integrable {a : ℝ} (ha : 0 < a) :
    IntegrableOn (fun s => Real.exp (-s) / s) (Set.Ioi a) := by
  have h0 : IntegrableOn (fun s => Real.exp (-s)) (Set.Ioi a) := by
    simpa using exp_neg_integrableOn_Ioi a one_pos
  have h1 : IntegrableOn (fun s => Real.exp (-s) * a⁻¹) (Set.Ioi a) := Integrable.mul_const h0 _
  refine h1.mono' ?_ ?_
  · refine ContinuousOn.aestronglyMeasurable ?_ measurableSet_Ioi
    intro s hs
    have : s ≠ 0 := (ha.trans hs).ne'
    exact ContinuousAt.continuousWithinAt (by fun_prop (disch := assumption))
  · refine (ae_restrict_mem measurableSet_Ioi).mono fun s hs => ?_
    have hs0 : 0 < s := ha.trans hs
    rw [Real.norm_of_nonneg (by positivity), div_eq_mul_inv]
    have : s⁻¹ ≤ a⁻¹ := inv_anti₀ ha hs.le
    exact mul_le_mul_of_nonneg_left this (Real.exp_pos _).le

theorem expi_sub {a b : ℝ} (ha : 0 < a) (hb : 0 < b) :
    expi (-a) - expi (-b) = -∫ s in a..b, Real.exp (-s) / s := by
  simp only [expi, neg_neg]
  have := intervalIntegral.integral_Ioi_sub_Ioi' (exp_div_integrable ha) (exp_div_integrable hb)
  rw [← this]
  ring

theorem exp_div_continuousAt {x : ℝ} (hx : 0 < x) :
    ContinuousAt (fun s => Real.exp (-s) / s) x := by
  have := hx.ne'
  fun_prop (disch := assumption)

theorem uIcc_pos {a b x : ℝ} (ha : 0 < a) (hb : 0 < b) (hx : x ∈ Set.uIcc a b) : 0 < x :=
  lt_of_lt_of_le (lt_min ha hb) hx.1

theorem exp_div_interval {a b : ℝ} (ha : 0 < a) (hb : 0 < b) :
    IntervalIntegrable (fun s => Real.exp (-s) / s) volume a b := by
  apply ContinuousOn.intervalIntegrable
  intro x hx
  exact (exp_div_continuousAt (uIcc_pos ha hb hx)).continuousWithinAt

/-- The distribution of relaxation times in terms of `x = s / tau`. -/
theorem mean_exp {s tau1 tau2 : ℝ} (hs : 0 < s) (h1 : 0 < tau1) (h2 : 0 < tau2) :
    ∫ tau in tau1..tau2, Real.exp (-s / tau) / tau = ∫ x in (s / tau2)..(s / tau1), Real.exp (-x) / x := by
  have hd : ∀ x ∈ Set.uIcc tau1 tau2, HasDerivAt (fun tau => s / tau) (-s / x ^ 2) x := by
    intro x hx
    have hx0 := (uIcc_pos h1 h2 hx).ne'
    have := (hasDerivAt_const x s).div (hasDerivAt_id x) hx0
    exact this.congr_deriv (by simp)
  have key := intervalIntegral.integral_comp_mul_deriv'' (a := tau1) (b := tau2)
    (f := fun tau => s / tau) (f' := fun x => -s / x ^ 2) (g := fun x => Real.exp (-x) / x)
    (fun x hx => (hd x hx).continuousAt.continuousWithinAt)
    (fun x hx => (hd x (Set.Ioo_subset_Icc_self hx)).hasDerivWithinAt)
    (fun x hx => by
      have := (uIcc_pos h1 h2 hx).ne'
      have h' : x ^ 2 ≠ 0 := pow_ne_zero _ this
      exact ContinuousAt.continuousWithinAt (by fun_prop (disch := assumption)))
    (by
      rintro y ⟨x, hx, rfl⟩
      exact (exp_div_continuousAt (div_pos hs (uIcc_pos h1 h2 hx))).continuousWithinAt)
  rw [intervalIntegral.integral_symm (s / tau1), ← key, ← intervalIntegral.integral_neg]
  refine intervalIntegral.integral_congr fun x hx => ?_
  have hx0 := (uIcc_pos h1 h2 hx).ne'
  have hs0 := hs.ne'
  simp only [Function.comp_apply]
  rw [neg_div]
  field_simp

theorem remanent_expi {s tau1 tau2 : ℝ} (dchi : ℝ) (hs : 0 < s) (h1 : 0 < tau1) (h2 : 0 < tau2) :
    remanent dchi tau1 tau2 s =
      -(dchi / Real.log (tau2 / tau1) * (expi (-s / tau2) - expi (-s / tau1))) := by
  rw [neg_div, neg_div, expi_sub (div_pos hs h2) (div_pos hs h1), ← mean_exp hs h1 h2, remanent,
    logMean]
  ring

/-- The rate of change of the magnetization. -/
theorem remanent_rate {s tau1 tau2 : ℝ} (dchi : ℝ) (hs : 0 < s) (h1 : 0 < tau1) (h2 : 0 < tau2) :
    HasDerivAt (remanent dchi tau1 tau2)
      (dchi / Real.log (tau2 / tau1) * (Real.exp (-s / tau1) - Real.exp (-s / tau2)) / s) s := by
  have hΦ : ∀ y : ℝ, 0 < y → HasDerivAt (fun y => ∫ x in (1 : ℝ)..y, Real.exp (-x) / x)
      (Real.exp (-y) / y) y := by
    intro y hy
    refine intervalIntegral.integral_hasDerivAt_right (exp_div_interval one_pos hy) ?_
      (exp_div_continuousAt hy)
    refine ContinuousOn.stronglyMeasurableAtFilter isOpen_Ioi (s := Set.Ioi 0) ?_ y hy
    intro x hx
    exact (exp_div_continuousAt hx).continuousWithinAt
  have hd : ∀ tau : ℝ, HasDerivAt (fun s => s / tau) (1 / tau) s := fun tau =>
    (hasDerivAt_id s).div_const tau
  have c1 := (hΦ _ (div_pos hs h1)).comp s (hd tau1)
  have c2 := (hΦ _ (div_pos hs h2)).comp s (hd tau2)
  have c3 := (c1.sub c2).const_mul (dchi / Real.log (tau2 / tau1))
  have c4 : remanent dchi tau1 tau2 =ᶠ[nhds s] fun y => dchi / Real.log (tau2 / tau1) *
      (((fun y => ∫ x in (1 : ℝ)..y, Real.exp (-x) / x) ∘ fun s => s / tau1)
        - (fun y => ∫ x in (1 : ℝ)..y, Real.exp (-x) / x) ∘ fun s => s / tau2) y := by
    filter_upwards [lt_mem_nhds hs] with s' hs'
    rw [remanent, logMean, mean_exp hs' h1 h2]
    have := intervalIntegral.integral_interval_sub_left
      (exp_div_interval one_pos (div_pos hs' h1)) (exp_div_interval one_pos (div_pos hs' h2))
    simp only [Pi.sub_apply, Function.comp_apply]
    rw [this]
    ring
  refine (c3.congr_of_eventuallyEq c4).congr_deriv ?_
  rw [neg_div, neg_div]
  generalize dchi / Real.log (tau2 / tau1) = xi
  field_simp

/-! ### Theorems -/

/-- C139. **The step-off**: in the off-time, `dhdt` is the rate of change of the magnetization of
grains whose relaxation times are spread uniformly in the logarithm between `tau1` and `tau2`;
`dbdt` is `mu0` times that; `h` and `b` are refused. -/
theorem C139_step {t0 t tau1 tau2 : ℝ} (chi0 dchi : ℝ) (ht : t0 < t) (h1 : 0 < tau1)
    (h2 : 0 < tau2) :
    ∃ d, HasDerivAt (fun t => remanent dchi tau1 tau2 (t - t0)) d t ∧
      stepLog t0 .dhdt chi0 dchi tau1 tau2 t = .ok d ∧
      stepLog t0 .dbdt chi0 dchi tau1 tau2 t = .ok (mu0 * d) ∧
      stepLog t0 .h chi0 dchi tau1 tau2 t = .error .valueError ∧
      stepLog t0 .b chi0 dchi tau1 tau2 t = .error .valueError := by
  have hs : 0 < t - t0 := by linarith
  have hd := (remanent_rate dchi hs h1 h2).comp t ((hasDerivAt_id t).sub_const t0)
  refine ⟨_, hd, ?_, ?_, rfl, rfl⟩
  · simp only [stepLog, sgn_pos hs]
    congr 1
    ring
  · simp only [stepLog, sgn_pos hs]
    congr 1
    ring

/-- C139. The same, written as a mean over the relaxation times of the rates of single grains. -/
theorem C139_step_mean {t0 t tau1 tau2 : ℝ} (chi0 dchi : ℝ) (ht : t0 < t) (h1 : 0 < tau1)
    (h2 : 0 < tau2) :
    stepLog t0 .dhdt chi0 dchi tau1 tau2 t =
      .ok (dchi * logMean tau1 tau2 fun tau => -(1 / tau) * Real.exp (-(t - t0) / tau)) := by
  have hs : 0 < t - t0 := by linarith
  set s := t - t0 with hsd
  have hd : ∀ x ∈ Set.uIcc tau1 tau2, HasDerivAt (fun tau => -(1 / s) * Real.exp (-s / tau))
      (-(1 / x) * Real.exp (-s / x) / x) x := by
    intro x hx
    have hx0 := (uIcc_pos h1 h2 hx).ne'
    have h := ((hasDerivAt_const x (-s)).div (hasDerivAt_id x) hx0).exp.const_mul (-(1 / s))
    refine h.congr_deriv ?_
    simp only [Pi.div_apply, id_eq]
    have := hs.ne'
    field_simp
    ring
  have hi := intervalIntegral.integral_eq_sub_of_hasDerivAt hd (by
    apply ContinuousOn.intervalIntegrable
    intro x hx
    have := (uIcc_pos h1 h2 hx).ne'
    exact ContinuousAt.continuousWithinAt (by fun_prop (disch := assumption)))
  simp only [stepLog, ← hsd, sgn_pos hs, logMean]
  rw [hi]
  congr 1
  ring

/-- C139. **The square pulse**: in the off-time, `h` is what is left of a field switched off at `t0`
less what is left of the field not yet switched on before `t0 - delt`; the susceptibility `chi0`
does not enter; `dhdt` is its rate of change; `b` and `dbdt` are `mu0` times these. -/
theorem C139_pulse {delt t0 t tau1 tau2 : ℝ} (chi0 dchi : ℝ) (hdel : 0 < delt) (ht : t0 < t)
    (h1 : 0 < tau1) (h2 : 0 < tau2) :
    pulseLog delt t0 .h chi0 dchi tau1 tau2 t =
      remanent dchi tau1 tau2 (t - t0) - remanent dchi tau1 tau2 (t - t0 + delt) ∧
    HasDerivAt (pulseLog delt t0 .h chi0 dchi tau1 tau2)
      (pulseLog delt t0 .dhdt chi0 dchi tau1 tau2 t) t ∧
    pulseLog delt t0 .b chi0 dchi tau1 tau2 t = mu0 * pulseLog delt t0 .h chi0 dchi tau1 tau2 t ∧
    pulseLog delt t0 .dbdt chi0 dchi tau1 tau2 t =
      mu0 * pulseLog delt t0 .dhdt chi0 dchi tau1 tau2 t := by
  have E : ∀ t, t0 < t → pulseLog delt t0 .h chi0 dchi tau1 tau2 t =
      remanent dchi tau1 tau2 (t - t0) - remanent dchi tau1 tau2 (t - t0 + delt) := by
    intro t ht
    have hs : 0 < t - t0 := by linarith
    have hs' : 0 < t - t0 + delt := by linarith
    rw [remanent_expi dchi hs h1 h2, remanent_expi dchi hs' h1 h2]
    simp only [pulseLog, pulseLogH, sgn_pos hs, sgn_pos hs']
    ring
  refine ⟨E t ht, ?_, rfl, rfl⟩
  have hs : 0 < t - t0 := by linarith
  have hs' : 0 < t - t0 + delt := by linarith
  have d1 := (remanent_rate dchi hs h1 h2).comp t ((hasDerivAt_id t).sub_const t0)
  have d2 := (remanent_rate dchi hs' h1 h2).comp t
    (((hasDerivAt_id t).sub_const t0).add_const delt)
  refine ((d1.sub d2).congr_of_eventuallyEq ?_).congr_deriv ?_
  · filter_upwards [lt_mem_nhds ht] with t' ht'
    rw [E t' ht']
    rfl
  · simp only [pulseLog, pulseLogD, sgn_pos hs, sgn_pos hs']
    ring

theorem exp_neg_le {x : ℝ} (hx : 0 < x) : Real.exp (-x) ≤ 1 / x := by
  rw [Real.exp_neg, inv_eq_one_div]
  exact one_div_le_one_div_of_le hx (by linarith [Real.add_one_le_exp x])

theorem close {u tau1 tau2 : ℝ} (hu : 0 < u) (h1 : 0 < tau1) (h12 : tau1 < tau2) :
    0 ≤ 1 + Real.exp (-u / tau1) - Real.exp (-u / tau2) ∧
    1 + Real.exp (-u / tau1) - Real.exp (-u / tau2) ≤ tau1 / u + u / tau2 := by
  have h2 := h1.trans h12
  have e1 := exp_neg_le (div_pos hu h1)
  have e2 := Real.add_one_le_exp (-(u / tau2))
  have e3 : Real.exp (-(u / tau2)) ≤ 1 := Real.exp_le_one_iff.2 (by
    have := div_pos hu h2
    linarith)
  have e4 := Real.exp_pos (-(u / tau1))
  rw [one_div_div] at e1
  rw [neg_div, neg_div]
  constructor <;> linarith

/-- C139. **The two formulations agree** as far as the channels lie well between the relaxation
times: with `xi = dchi / log (tau2 / tau1)`, the step-off rate differs from `xi` times the
characteristic decay by at most `xi (tau1 / s + s / tau2) / s`, `s` the time since the switch-off. -/
theorem C139_linear {t0 t tau1 tau2 : ℝ} (chi0 : ℝ) {dchi : ℝ} (hd : 0 ≤ dchi) (ht : t0 < t)
    (h1 : 0 < tau1) (h12 : tau1 < tau2) :
    ∃ d, stepLog t0 .dhdt chi0 dchi tau1 tau2 t = .ok d ∧
      |d - dchi / Real.log (tau2 / tau1) * stepEta t0 .dhdt t| ≤
        dchi / Real.log (tau2 / tau1) * ((tau1 / (t - t0) + (t - t0) / tau2) / (t - t0)) := by
  have hs : 0 < t - t0 := by linarith
  have hlog : 0 < Real.log (tau2 / tau1) := Real.log_pos ((one_lt_div h1).2 h12)
  have hxi : 0 ≤ dchi / Real.log (tau2 / tau1) := by positivity
  obtain ⟨c0, c1⟩ := close hs h1 h12
  refine ⟨_, rfl, ?_⟩
  rw [sgn_pos hs]
  set xi := dchi / Real.log (tau2 / tau1)
  have e : 0 + 0.5 * (1 + 1) * xi * (Real.exp (-(t - t0) / tau1) - Real.exp (-(t - t0) / tau2))
      / (t - t0) - xi * stepEta t0 .dhdt t =
      xi * ((1 + Real.exp (-(t - t0) / tau1) - Real.exp (-(t - t0) / tau2)) / (t - t0)) := by
    simp only [stepEta]
    ring
  rw [e, abs_of_nonneg (mul_nonneg hxi (div_nonneg c0 hs.le))]
  exact mul_le_mul_of_nonneg_left (div_le_div_of_nonneg_right c1 hs.le) hxi

/-- C139. The same for the field of a pulse. -/
theorem C139_linear_pulse {delt t0 t tau1 tau2 : ℝ} (chi0 : ℝ) {dchi : ℝ} (hd : 0 ≤ dchi)
    (hdel : 0 < delt) (ht : t0 < t) (h1 : 0 < tau1) (h12 : tau1 < tau2) :
    |pulseLog delt t0 .h chi0 dchi tau1 tau2 t
      - dchi / Real.log (tau2 / tau1) * pulseEta delt t0 .h t| ≤
      dchi / Real.log (tau2 / tau1) *
        (tau1 * (1 / (t - t0) - 1 / (t - t0 + delt)) + delt / tau2) := by
  have hs : 0 < t - t0 := by linarith
  have h2 := h1.trans h12
  have hlog : 0 < Real.log (tau2 / tau1) := Real.log_pos ((one_lt_div h1).2 h12)
  have hxi : 0 ≤ dchi / Real.log (tau2 / tau1) := by positivity
  set s := t - t0 with hsd
  set xi := dchi / Real.log (tau2 / tau1) with hxid
  have hsub : ∀ x ∈ Set.uIcc s (s + delt), 0 < x := fun x hx =>
    uIcc_pos hs (by linarith) hx
  set err := fun u : ℝ => (1 + Real.exp (-u / tau1) - Real.exp (-u / tau2)) / u with herr
  have cerr : ∀ u, 0 < u → ContinuousAt err u := by
    intro u hu
    have := hu.ne'
    simp only [herr]
    fun_prop (disch := assumption)
  have ierr : IntervalIntegrable err volume s (s + delt) := by
    apply ContinuousOn.intervalIntegrable
    exact fun x hx => (cerr x (hsub x hx)).continuousWithinAt
  have hder : ∀ x ∈ Set.uIcc s (s + delt), HasDerivAt
      (fun u => remanent dchi tau1 tau2 u + xi * Real.log u) (xi * err x) x := by
    intro x hx
    have hx0 := hsub x hx
    have := (remanent_rate dchi hx0 h1 h2).add ((Real.hasDerivAt_log hx0.ne').const_mul xi)
    refine this.congr_deriv ?_
    simp only [herr, ← hxid]
    field_simp
    ring
  have hint := intervalIntegral.integral_eq_sub_of_hasDerivAt hder (ierr.const_mul xi)
  have e : pulseLog delt t0 .h chi0 dchi tau1 tau2 t - xi * pulseEta delt t0 .h t =
      -∫ u in s..(s + delt), xi * err u := by
    rw [hint, (C139_pulse chi0 dchi hdel ht h1 h2).1, ← hsd]
    have : Real.log (1 + delt / s) = Real.log (s + delt) - Real.log s := by
      rw [← Real.log_div (by linarith) hs.ne']
      congr 1
      field_simp
    simp only [pulseEta, ← hsd, this]
    ring
  have hbig : ∫ u in s..(s + delt), (tau1 / u ^ 2 + 1 / tau2) =
      tau1 * (1 / s - 1 / (s + delt)) + delt / tau2 := by
    have hd' : ∀ x ∈ Set.uIcc s (s + delt), HasDerivAt (fun u => -tau1 / u + u / tau2)
        (tau1 / x ^ 2 + 1 / tau2) x := by
      intro x hx
      have hx0 := (hsub x hx).ne'
      have := ((hasDerivAt_const x (-tau1)).div (hasDerivAt_id x) hx0).add
        ((hasDerivAt_id x).div_const tau2)
      exact this.congr_deriv (by simp)
    rw [intervalIntegral.integral_eq_sub_of_hasDerivAt hd']
    · ring
    · apply ContinuousOn.intervalIntegrable
      intro x hx
      have hx0 : x ^ 2 ≠ 0 := pow_ne_zero _ (hsub x hx).ne'
      exact ContinuousAt.continuousWithinAt (by fun_prop (disch := assumption))
  have ibig : IntervalIntegrable (fun u => tau1 / u ^ 2 + 1 / tau2) volume s (s + delt) := by
    apply ContinuousOn.intervalIntegrable
    intro x hx
    have hx0 : x ^ 2 ≠ 0 := pow_ne_zero _ (hsub x hx).ne'
    exact ContinuousAt.continuousWithinAt (by fun_prop (disch := assumption))
  have hle : ∫ u in s..(s + delt), err u ≤ ∫ u in s..(s + delt), (tau1 / u ^ 2 + 1 / tau2) := by
    refine intervalIntegral.integral_mono_on (by linarith) ierr ibig fun u hu => ?_
    have hu0 : 0 < u := lt_of_lt_of_le hs hu.1
    have := (close hu0 h1 h12).2
    simp only [herr]
    rw [div_le_iff₀ hu0]
    refine this.trans (le_of_eq ?_)
    field_simp
  have hge : 0 ≤ ∫ u in s..(s + delt), err u := by
    refine intervalIntegral.integral_nonneg (by linarith) fun u hu => ?_
    have hu0 : 0 < u := lt_of_lt_of_le hs hu.1
    exact div_nonneg (close hu0 h1 h12).1 hu0.le
  rw [e, intervalIntegral.integral_const_mul, abs_neg, abs_of_nonneg (mul_nonneg hxi hge), ← hbig]
  exact mul_le_mul_of_nonneg_left hle hxi

/-- C139, as the code has it: the branch `h` of the step-off, which the validation hides, is the
magnetization with the opposite sign. -/
theorem C139_violated_hidden {t0 t tau1 tau2 : ℝ} (chi0 dchi : ℝ) (ht : t0 < t) (h1 : 0 < tau1)
    (h2 : 0 < tau2) :
    stepLogH t0 chi0 dchi tau1 tau2 t = -remanent dchi tau1 tau2 (t - t0) := by
  have hs : 0 < t - t0 := by linarith
  rw [remanent_expi dchi hs h1 h2]
  simp only [stepLogH, sgn_pos hs]
  ring

/-- C139, as the code has it: `getLogUniformDecay` accepts channels in the on-time, and answers
twice the susceptibility for ground without viscous magnetization. -/
theorem C139_violated_on_time {delt t0 t : ℝ} (chi0 tau1 tau2 : ℝ) (h : t0 - delt < t) (ht : t < t0) :
    pulseLog delt t0 .h chi0 0 tau1 tau2 t = 2 * chi0 := by
  have h1 : sgn (t - t0) = -1 := by rw [sgn, if_pos (by linarith)]
  have h2 : sgn (t - t0 + delt) = 1 := sgn_pos (by linarith)
  simp only [pulseLog, pulseLogH, h1, h2]
  ring

example : ∃ d, HasDerivAt (fun t => remanent 3 1 10 (t - 0)) d 2 ∧
    stepLog 0 .dhdt 1 3 1 10 2 = .ok d :=
  let ⟨d, h1, h2, _⟩ := C139_step 1 3 (by norm_num) (by norm_num) (by norm_num)
  ⟨d, h1, h2⟩

example : HasDerivAt (pulseLog 2 0 .h 1 3 1 10) (pulseLog 2 0 .dhdt 1 3 1 10 1) 1 :=
  (C139_pulse 1 3 (by norm_num) (by norm_num) (by norm_num) (by norm_num)).2.1

example : pulseLog 2 0 .h 1 0 1 10 (-1) = 2 * 1 :=
  C139_violated_on_time 1 1 10 (by norm_num) (by norm_num)

end Props
end Verif.VRM
