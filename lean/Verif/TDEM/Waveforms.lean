import Verif.Basic
import Mathlib.Analysis.SpecialFunctions.Trigonometric.Deriv
import Mathlib.Analysis.SpecialFunctions.ExpDeriv
import Mathlib.MeasureTheory.Integral.DivergenceTheorem
import Mathlib.Analysis.Calculus.FDeriv.Measurable
import Mathlib.Tactic.Linarith
import Mathlib.Tactic.FieldSimp
import Mathlib.Tactic.Ring

/-!
C77: the current waveforms of time domain sources
(`simpeg/electromagnetics/time_domain/sources.py` 34-1041): step, ramp, VTEM, trapezoid, triangle, sines
and exponential.  `PiecewiseLinearWaveform` is in `Piecewise.lean`.

Simplified: times are real numbers, not floats; `eval_deriv` of an array is taken at one time.
`RawWaveform` returns what the function of the user returns and is not modelled.
-/

namespace Verif.TDEM.Waveforms

noncomputable section
open Classical

/-- `StepOffWaveform` (148-180). -/
structure StepOff where
  off : ℝ
  eps : ℝ

/-- `StepOffWaveform.eval` (176-180). -/
def StepOff.eval (w : StepOff) (t : ℝ) : ℝ :=
  if |t - 0| < w.eps ∨ t - w.off < w.eps then 1 else 0

/-- `RampOffWaveform` (183-336). -/
structure RampOff where
  start : ℝ
  stop : ℝ
  eps : ℝ

/-- `RampOffWaveform.__init__` (215-264) with `ramp_start` and `ramp_end`, and the setters `ramp_end`
(299-304) and `epsilon` (112-114), which check their values. -/
def RampOff.build (start stop eps : ℝ) : Except Err RampOff :=
  if stop ≤ start then .error .valueError
  else if eps < 0 then .error .valueError
  else .ok ⟨start, stop, eps⟩

/-- `RampOffWaveform.eval` (314-322). -/
def RampOff.eval (w : RampOff) (t : ℝ) : ℝ :=
  if t - w.start < w.eps then 1
  else if t < w.stop then 1 - (t - w.start) / (w.stop - w.start)
  else 0

/-- `RampOffWaveform.eval_deriv` (324-335). -/
def RampOff.evalDeriv (w : RampOff) (t : ℝ) : ℝ :=
  if t < w.stop ∧ w.eps ≤ t - w.start then -1 / (w.stop - w.start) else 0

/-- `RampOffWaveform.time_nodes` (337-339). -/
def RampOff.nodes (w : RampOff) : List ℝ := [w.start, w.stop]

/-- `VTEMWaveform` (404-505). -/
structure VTEM where
  off : ℝ
  peak : ℝ
  rate : ℝ

/-- `VTEMWaveform.eval` (474-482). -/
def VTEM.eval (w : VTEM) (t : ℝ) : ℝ :=
  if t ≤ w.peak then (1 - Real.exp (-w.rate * t / w.peak)) / (1 - Real.exp (-w.rate))
  else if t < w.off ∧ w.peak < t then -1 / (w.off - w.peak) * (t - w.off)
  else 0

/-- `VTEMWaveform.eval_deriv` (484-501). -/
def VTEM.evalDeriv (w : VTEM) (t : ℝ) : ℝ :=
  if w.peak < t ∧ t < w.off then -1 / (w.off - w.peak)
  else if t ≤ w.peak ∧ 0 ≤ t then
    w.rate / w.peak * Real.exp (-w.rate * t / w.peak) / (1 - Real.exp (-w.rate))
  else 0

/-- `VTEMWaveform.time_nodes` (503-505). -/
def VTEM.nodes (w : VTEM) : List ℝ := [0, w.peak, w.off]

/-- `TrapezoidWaveform` (508-613), with the attributes `ramp_on`, `ramp_off` and `off_time`. -/
structure Trapezoid where
  on0 : ℝ
  on1 : ℝ
  off0 : ℝ
  off1 : ℝ
  offTime : ℝ

/-- `TrapezoidWaveform.__init__` (535-539). -/
def Trapezoid.build (on0 on1 off0 off1 : ℝ) (offTime : Option ℝ) : Trapezoid :=
  ⟨on0, on1, off0, off1, offTime.getD off1⟩

/-- The setter `off_time` (93-96). -/
def Trapezoid.setOffTime (w : Trapezoid) (x : ℝ) : Trapezoid := { w with offTime := x }

/-- `TrapezoidWaveform.eval` (580-594). -/
def Trapezoid.eval (w : Trapezoid) (t : ℝ) : ℝ :=
  if t < w.on0 then 0
  else if w.on0 ≤ t ∧ t ≤ w.on1 then 1 / (w.on1 - w.on0) * (t - w.on0)
  else if w.on1 < t ∧ t < w.off0 then 1
  else if w.off0 ≤ t ∧ t ≤ w.off1 then 1 - 1 / (w.off1 - w.off0) * (t - w.off0)
  else 0

/-- `TrapezoidWaveform.eval_deriv` (596-608): the second assignment wins. -/
def Trapezoid.evalDeriv (w : Trapezoid) (t : ℝ) : ℝ :=
  if w.off0 ≤ t ∧ t ≤ w.off1 then -1 / (w.off1 - w.off0)
  else if w.on0 ≤ t ∧ t ≤ w.on1 then 1 / (w.on1 - w.on0)
  else 0

/-- `TrapezoidWaveform.time_nodes` (610-612), as a list with possible duplicates. -/
def Trapezoid.nodes (w : Trapezoid) : List ℝ := [w.on0, w.on1, w.off0, w.off1]

/-- `TriangularWaveform.__init__` (639-650) and the setter `peak_time` (665-670). -/
def triangular (start off peak : ℝ) : Except Err Trapezoid :=
  if off < peak then .error .valueError else .ok (Trapezoid.build start peak peak off (some off))

/-- `QuarterSineRampOnWaveform.eval` (700-717). -/
def Trapezoid.quarterEval (w : Trapezoid) (t : ℝ) : ℝ :=
  if t < w.on0 then 0
  else if w.on0 ≤ t ∧ t ≤ w.on1 then Real.sin (Real.pi / 2 * (1 / (w.on1 - w.on0)) * (t - w.on0))
  else if w.on1 < t ∧ t < w.off0 then 1
  else if w.off0 ≤ t ∧ t ≤ w.off1 then 1 - 1 / (w.off1 - w.off0) * (t - w.off0)
  else 0

/-- `QuarterSineRampOnWaveform.eval_deriv` (719-742). -/
def Trapezoid.quarterDeriv (w : Trapezoid) (t : ℝ) : ℝ :=
  if w.on0 ≤ t ∧ t < w.on1 then
    Real.pi / 2 / (w.on1 - w.on0) * Real.cos (Real.pi / 2 * (t - w.on0) / (w.on1 - w.on0))
  else if w.off0 ≤ t ∧ t < w.off1 then -1 / (w.off1 - w.off0)
  else 0

/-- `HalfSineWaveform.eval` (764-783). -/
def Trapezoid.halfEval (w : Trapezoid) (t : ℝ) : ℝ :=
  if t < w.on0 then 0
  else if w.on0 ≤ t ∧ t ≤ w.on1 then Real.sin (Real.pi / 2 * ((t - w.on0) / (w.on1 - w.on0)))
  else if w.on1 < t ∧ t < w.off0 then 1
  else if w.off0 ≤ t ∧ t ≤ w.off1 then Real.cos (Real.pi / 2 * ((t - w.off0) / (w.off1 - w.off0)))
  else 0

/-- `HalfSineWaveform.eval_deriv` (785-814). -/
def Trapezoid.halfDeriv (w : Trapezoid) (t : ℝ) : ℝ :=
  if w.on0 ≤ t ∧ t < w.on1 then
    Real.pi / 2 / (w.on1 - w.on0) * Real.cos (Real.pi / 2 * (t - w.on0) / (w.on1 - w.on0))
  else if w.off0 ≤ t ∧ t < w.off1 then
    -Real.pi / 2 / (w.off1 - w.off0) * Real.sin (Real.pi / 2 * (t - w.off0) / (w.off1 - w.off0))
  else 0

/-- `ExponentialWaveform` (911-1041). -/
structure Exponential where
  start : ℝ
  peak : ℝ
  tau : ℝ
  off : ℝ

/-- `ExponentialWaveform.__init__` (939-950) and the setters `start_time` (962-967), `peak_time`
(979-988) and `ramp_on_tau` (1002-1005), which check their values. -/
def Exponential.build (start peak tau off : ℝ) : Except Err Exponential :=
  if off ≤ start then .error .valueError
  else if peak ≤ start ∨ off < peak then .error .valueError
  else if tau ≤ 0 then .error .valueError
  else .ok ⟨start, peak, tau, off⟩

/-- `ExponentialWaveform.eval` (1007-1020). -/
def Exponential.eval (w : Exponential) (t : ℝ) : ℝ :=
  if t ≤ w.start then 0
  else if t ≤ w.peak then
    (1 - Real.exp (-(t - w.start) / w.tau)) / (1 - Real.exp (-(w.peak - w.start) / w.tau))
  else if t < w.off ∧ w.peak < t then -1 / (w.off - w.peak) * (t - w.off)
  else 0

/-- `ExponentialWaveform.eval_deriv` (1022-1037). -/
def Exponential.evalDeriv (w : Exponential) (t : ℝ) : ℝ :=
  if w.peak < t ∧ t < w.off then -1 / (w.off - w.peak)
  else if t ≤ w.peak ∧ w.start ≤ t then
    Real.exp (-(t - w.start) / w.tau) / (w.tau * (1 - Real.exp (-(w.peak - w.start) / w.tau)))
  else 0

/-- `ExponentialWaveform.time_nodes` (1039-1041). -/
def Exponential.nodes (w : Exponential) : List ℝ := [w.start, w.peak, w.off]

/-! ### Specification -/

/-- `d` is the time derivative of `f`, except at the time nodes `s`. -/
def DerivOff (f d : ℝ → ℝ) (s : List ℝ) : Prop := ∀ t, t ∉ s → HasDerivAt f (d t) t

/-- The integral of `d` over any interval is the change of `f`. -/
def Charge (f d : ℝ → ℝ) : Prop := ∀ a b, ∫ t in a..b, d t = f b - f a

/-- The current is between zero and the peak current. -/
def Normalised (f : ℝ → ℝ) : Prop := ∀ t, 0 ≤ f t ∧ f t ≤ 1

/-- The nodes of a trapezoid are in order. -/
structure Trapezoid.Ordered (w : Trapezoid) : Prop where
  on : w.on0 < w.on1
  mid : w.on1 ≤ w.off0
  off : w.off0 < w.off1

namespace Props
open MeasureTheory

/-! ### Tools -/

theorem deriv_lt {f g : ℝ → ℝ} {b t g' : ℝ} (ht : t < b) (h : ∀ x, x < b → f x = g x)
    (hg : HasDerivAt g g' t) : HasDerivAt f g' t :=
  hg.congr_of_eventuallyEq (by filter_upwards [Iio_mem_nhds ht] with x hx using h x hx)

theorem deriv_gt {f g : ℝ → ℝ} {a t g' : ℝ} (ht : a < t) (h : ∀ x, a < x → f x = g x)
    (hg : HasDerivAt g g' t) : HasDerivAt f g' t :=
  hg.congr_of_eventuallyEq (by filter_upwards [Ioi_mem_nhds ht] with x hx using h x hx)

theorem deriv_in {f g : ℝ → ℝ} {a b t g' : ℝ} (ha : a < t) (hb : t < b)
    (h : ∀ x, a < x → x < b → f x = g x) (hg : HasDerivAt g g' t) : HasDerivAt f g' t :=
  hg.congr_of_eventuallyEq
    (by filter_upwards [Ioo_mem_nhds ha hb] with x hx using h x hx.1 hx.2)

/-- A continuous function whose derivative is bounded, off finitely many times. -/
theorem charge_of {f d : ℝ → ℝ} {s : List ℝ} (hc : Continuous f) (hd : DerivOff f d s) (K : ℝ)
    (hK : ∀ t, |d t| ≤ K) : Charge f d := by
  intro a b
  have hs : (s.toFinset : Set ℝ).Countable := s.toFinset.countable_toSet
  refine integral_eq_of_hasDerivAt_off_countable f d hs hc.continuousOn
    (fun x hx => hd x (fun h => hx.2 (by simpa using h))) ?_
  have hae : ∀ᵐ t ∂(volume.restrict (Set.uIoc a b)), deriv f t = d t := by
    refine ae_restrict_of_ae ?_
    filter_upwards [hs.ae_notMem volume] with t ht
    exact (hd t (fun h => ht (by simpa using h))).deriv
  have hi : IntervalIntegrable (deriv f) volume a b := by
    rw [intervalIntegrable_iff]
    refine Measure.integrableOn_of_bounded (M := K) (by simp [Set.uIoc]) ?_ ?_
    · exact (measurable_deriv f).aestronglyMeasurable
    · filter_upwards [hae] with t ht
      rw [ht]; exact hK t
  exact hi.congr_ae hae

theorem line_deriv (c a : ℝ) (t : ℝ) : HasDerivAt (fun x => c * (x - a)) c t := by
  simpa using ((hasDerivAt_id t).sub_const a).const_mul c

theorem one_sub_exp_pos {x : ℝ} (h : 0 < x) : 0 < 1 - Real.exp (-x) := by
  have : Real.exp (-x) < 1 := by rw [Real.exp_lt_one_iff]; linarith
  linarith

/-! ### Step -/

/-- **C77, step**: the current is one before the time `off_time` and zero after it, when the waveform is
switched off at time zero or later. -/
theorem C77_step_off_partial (w : StepOff) (h : 0 ≤ w.off) :
    (∀ t < w.off, 0 ≤ w.eps → w.eval t = 1) ∧ (∀ t, w.off + w.eps ≤ t → w.eval t = 0) ∧
      Normalised w.eval := by
  refine ⟨fun t ht he => if_pos (Or.inr (by linarith)), fun t ht => if_neg ?_, fun t => ?_⟩
  · rintro (h1 | h1)
    · have := (abs_lt.1 h1).2; linarith
    · linarith
  · unfold StepOff.eval; split_ifs <;> norm_num

/-- **C77 is violated, step**: a waveform which is switched off before time zero is on at time zero again. -/
theorem C77_violated_step_off (w : StepOff) (he : 0 < w.eps) (h : w.off ≤ -2 * w.eps) :
    w.eval (-w.eps) = 0 ∧ w.eval 0 = 1 ∧ w.eval w.eps = 0 := by
  refine ⟨if_neg ?_, if_pos (Or.inl (by simpa using he)), if_neg ?_⟩
  · rintro (h1 | h1)
    · rw [sub_zero, abs_neg, abs_of_pos he] at h1; exact lt_irrefl _ h1
    · linarith
  · rintro (h1 | h1)
    · rw [sub_zero, abs_of_pos he] at h1; exact lt_irrefl _ h1
    · linarith

example : (⟨-1, 1 / 1000000000⟩ : StepOff).eval 0 = 1 :=
  (C77_violated_step_off ⟨-1, 1 / 1000000000⟩ (by norm_num) (by norm_num)).2.1

example : (⟨1, 1 / 1000000000⟩ : StepOff).eval 2 = 0 :=
  (C77_step_off_partial ⟨1, 1 / 1000000000⟩ (by norm_num)).2.1 2 (by norm_num)

/-! ### Ramp -/

theorem RampOff.build_ok {a b e : ℝ} {w : RampOff} (h : RampOff.build a b e = .ok w) :
    w = ⟨a, b, e⟩ ∧ a < b ∧ 0 ≤ e := by
  unfold RampOff.build at h
  split_ifs at h with h1 h2
  exact ⟨(Except.ok.inj h).symm, not_le.1 h1, not_lt.1 h2⟩

/-- **C77, ramp**: `eval_deriv` is the derivative, except at the time nodes and at the end of the window
`epsilon` in which the ramp is not yet begun. -/
theorem C77_deriv_ramp_off_partial {a b e : ℝ} {w : RampOff} (h : RampOff.build a b e = .ok w) :
    DerivOff w.eval w.evalDeriv (w.nodes ++ [a + e]) := by
  obtain ⟨rfl, hab, he⟩ := RampOff.build_ok h
  intro t ht
  simp only [RampOff.nodes, List.cons_append, List.nil_append, List.mem_cons, List.not_mem_nil,
    or_false, not_or] at ht
  obtain ⟨-, h2, h3⟩ := ht
  rcases lt_or_gt_of_ne h3 with h3 | h3
  · rw [RampOff.evalDeriv, if_neg (by rintro ⟨-, h⟩; simp only at h; linarith)]
    exact deriv_lt h3 (fun x hx => if_pos (by simp only; linarith)) (hasDerivAt_const t 1)
  · rcases lt_or_gt_of_ne h2 with h2 | h2
    · rw [RampOff.evalDeriv, if_pos ⟨h2, by simp only; linarith⟩]
      refine deriv_in (g := fun x => 1 - 1 / (b - a) * (x - a)) h3 h2 (fun x hx hx' => ?_) ?_
      · rw [RampOff.eval, if_neg (by simp only; linarith), if_pos hx']; ring
      · have := (line_deriv (1 / (b - a)) a t).const_sub 1
        rw [neg_div]; exact this
    · rw [RampOff.evalDeriv, if_neg (by rintro ⟨h, -⟩; simp only at h; linarith)]
      have hm : max (a + e) b < t := max_lt h3 h2
      refine deriv_gt hm (fun x hx => ?_) (hasDerivAt_const t 0)
      have := max_lt_iff.1 hx
      rw [RampOff.eval, if_neg (by simp only; linarith [this.1]), if_neg (by simp only; linarith [this.2])]

/-- **C77 is violated, ramp**: for a positive `epsilon`, which is the default, the current jumps at the end
of the window, which is not a time node; `eval_deriv` misses the jump. -/
theorem C77_violated_ramp_off {a b e : ℝ} {w : RampOff} (h : RampOff.build a b e = .ok w) (he : 0 < e)
    (heb : e < b - a) : a + e ∉ w.nodes ∧ ¬ ContinuousAt w.eval (a + e) := by
  obtain ⟨rfl, hab, -⟩ := RampOff.build_ok h
  have hw : 0 < b - a := by linarith
  refine ⟨?_, fun hc => ?_⟩
  · simp only [RampOff.nodes, List.mem_cons, List.not_mem_nil, or_false, not_or]
    exact ⟨by linarith, by linarith⟩
  have hv : RampOff.eval ⟨a, b, e⟩ (a + e) = 1 - e / (b - a) := by
    rw [RampOff.eval, if_neg (by simp), if_pos (by simp only; linarith)]; simp
  have h1 : Filter.Tendsto (RampOff.eval ⟨a, b, e⟩) (nhdsWithin (a + e) (Set.Iio (a + e))) (nhds 1) := by
    refine tendsto_const_nhds.congr' ?_
    filter_upwards [self_mem_nhdsWithin] with x hx
    rw [RampOff.eval, if_pos]
    simp only [Set.mem_Iio] at hx ⊢
    linarith
  have h2 := tendsto_nhds_unique h1 (hc.tendsto.mono_left nhdsWithin_le_nhds)
  rw [hv] at h2
  have := div_pos he hw
  linarith

theorem ramp_bound (a b e : ℝ) (hab : a < b) (t : ℝ) :
    |RampOff.evalDeriv ⟨a, b, e⟩ t| ≤ 1 / (b - a) := by
  have hw : 0 < b - a := by linarith
  unfold RampOff.evalDeriv
  split_ifs
  · rw [neg_div, abs_neg, abs_of_pos (by positivity)]
  · simpa using hw.le

theorem ramp_cont (a b : ℝ) (hab : a < b) : Continuous (RampOff.eval ⟨a, b, 0⟩) := by
  have hw : b - a ≠ 0 := by linarith
  have hf : RampOff.eval ⟨a, b, 0⟩ = fun t => if t ≤ a then 1 else
      if t ≤ b then 1 - (t - a) / (b - a) else 0 := by
    funext t
    unfold RampOff.eval
    simp only
    rcases lt_trichotomy t a with h | rfl | h
    · rw [if_pos (by linarith), if_pos h.le]
    · rw [if_neg (by linarith), if_pos hab, if_pos le_rfl]; simp
    · rw [if_neg (show ¬ t - a < 0 by linarith), if_neg (show ¬ t ≤ a by linarith)]
      rcases lt_trichotomy t b with h' | rfl | h'
      · rw [if_pos h', if_pos h'.le]
      · rw [if_neg (lt_irrefl _), if_pos le_rfl, div_self hw]; simp
      · rw [if_neg (show ¬ t < b by linarith), if_neg (show ¬ t ≤ b by linarith)]
  rw [hf]
  refine Continuous.if_le continuous_const ?_ continuous_id continuous_const ?_
  · refine Continuous.if_le (by fun_prop) continuous_const continuous_id continuous_const ?_
    intro x hx; subst hx; rw [div_self hw]; simp
  · intro x hx; subst hx; rw [if_pos hab.le]; simp

/-- **C77, ramp**: with `epsilon = 0` the integral of `eval_deriv` is the change of the current. -/
theorem C77_charge_ramp_off_partial {a b : ℝ} {w : RampOff} (h : RampOff.build a b 0 = .ok w) :
    Charge w.eval w.evalDeriv := by
  obtain ⟨rfl, hab, -⟩ := RampOff.build_ok h
  exact charge_of (ramp_cont a b hab) (C77_deriv_ramp_off_partial h) _ (ramp_bound a b 0 hab)

/-- **C77, ramp**: the current is one before the ramp, zero after it, and never above one or below zero. -/
theorem C77_ramp_off {a b e : ℝ} {w : RampOff} (h : RampOff.build a b e = .ok w) :
    Normalised w.eval ∧ (∀ t ≤ a, w.eval t = 1) ∧ ∀ t, b ≤ t → a + e ≤ t → w.eval t = 0 := by
  obtain ⟨rfl, hab, he⟩ := RampOff.build_ok h
  have hw : 0 < b - a := by linarith
  refine ⟨fun t => ?_, fun t ht => ?_, fun t hb ht => ?_⟩
  · unfold RampOff.eval
    simp only
    split_ifs with h1 h2
    · norm_num
    · have h3 : 0 ≤ (t - a) / (b - a) := div_nonneg (by linarith) hw.le
      have h4 : (t - a) / (b - a) ≤ 1 := by rw [div_le_one hw]; linarith
      constructor <;> linarith
    · norm_num
  · unfold RampOff.eval
    simp only
    split_ifs with h1 h2
    · rfl
    · have : t = a := by linarith
      subst this; simp
    · linarith
  · rw [RampOff.eval, if_neg (by simp only; linarith), if_neg (by simp only; linarith)]

example : RampOff.build 0 1 (1 / 10) = .ok ⟨0, 1, 1 / 10⟩ := by
  unfold RampOff.build; norm_num

/-! ### VTEM -/

theorem vtem_line (w : VTEM) (t : ℝ) :
    HasDerivAt (fun x => -1 / (w.off - w.peak) * (x - w.off)) (-1 / (w.off - w.peak)) t :=
  line_deriv _ _ t

theorem vtem_exp (w : VTEM) (t : ℝ) :
    HasDerivAt (fun x => (1 - Real.exp (-w.rate * x / w.peak)) / (1 - Real.exp (-w.rate)))
      (w.rate / w.peak * Real.exp (-w.rate * t / w.peak) / (1 - Real.exp (-w.rate))) t := by
  have h1 : HasDerivAt (fun x => -w.rate * x / w.peak) (-w.rate / w.peak) t := by
    simpa using ((hasDerivAt_id t).const_mul (-w.rate)).div_const w.peak
  refine ((h1.exp.const_sub 1).div_const (1 - Real.exp (-w.rate))).congr_deriv ?_
  ring

/-- **C77, VTEM**: `eval_deriv` is the derivative of the current from time zero on, except at the time
nodes. -/
theorem C77_deriv_vtem_partial (w : VTEM) (hp : w.peak ≤ w.off) (t : ℝ) (h0 : 0 ≤ t)
    (ht : t ∉ w.nodes) : HasDerivAt w.eval (w.evalDeriv t) t := by
  simp only [VTEM.nodes, List.mem_cons, List.not_mem_nil, or_false, not_or] at ht
  obtain ⟨-, h2, h3⟩ := ht
  rcases lt_or_gt_of_ne h2 with h2 | h2
  · rw [VTEM.evalDeriv, if_neg (by rintro ⟨h, -⟩; linarith), if_pos ⟨h2.le, h0⟩]
    exact deriv_lt h2 (fun x hx => if_pos hx.le) (vtem_exp w t)
  · rcases lt_or_gt_of_ne h3 with h3 | h3
    · rw [VTEM.evalDeriv, if_pos ⟨h2, h3⟩]
      refine deriv_in h2 h3 (fun x hx hx' => ?_) (vtem_line w t)
      rw [VTEM.eval, if_neg (by linarith), if_pos ⟨hx', hx⟩]
    · rw [VTEM.evalDeriv, if_neg (by rintro ⟨-, h⟩; linarith), if_neg (by rintro ⟨h, -⟩; linarith)]
      refine deriv_gt h3 (fun x hx => ?_) (hasDerivAt_const t 0)
      rw [VTEM.eval, if_neg (by linarith), if_neg (by rintro ⟨h, -⟩; linarith)]

/-- **C77 is violated, VTEM**: before time zero, when the transmitter is off, the current is negative
and grows without limit, while `eval_deriv` returns zero. -/
theorem C77_violated_vtem (w : VTEM) (hr : 0 < w.rate) (hp : 0 < w.peak) :
    (∀ t < 0, w.eval t < 0 ∧ ¬ HasDerivAt w.eval (w.evalDeriv t) t) ∧
      w.eval (-w.peak) = -Real.exp w.rate := by
  have hq := one_sub_exp_pos hr
  constructor
  · intro t ht
    constructor
    · rw [VTEM.eval, if_pos (by linarith)]
      refine div_neg_of_neg_of_pos ?_ hq
      have : 0 < -w.rate * t / w.peak := div_pos (by nlinarith) hp
      have := Real.one_lt_exp_iff.2 this
      linarith
    · intro h
      have h1 : HasDerivAt w.eval
          (w.rate / w.peak * Real.exp (-w.rate * t / w.peak) / (1 - Real.exp (-w.rate))) t :=
        deriv_lt (by linarith : t < w.peak) (fun x hx => if_pos hx.le) (vtem_exp w t)
      have h2 := h.unique h1
      rw [VTEM.evalDeriv, if_neg (by rintro ⟨h, -⟩; linarith),
        if_neg (by rintro ⟨-, h⟩; linarith)] at h2
      have : 0 < w.rate / w.peak * Real.exp (-w.rate * t / w.peak) / (1 - Real.exp (-w.rate)) := by
        have := Real.exp_pos (-w.rate * t / w.peak)
        positivity
      linarith
  · rw [VTEM.eval, if_pos (by linarith)]
    have : -w.rate * -w.peak / w.peak = w.rate := by field_simp
    rw [this, div_eq_iff hq.ne', neg_mul, mul_sub, mul_one, ← Real.exp_add, add_neg_cancel,
      Real.exp_zero]
    ring

/-- **C77, VTEM**: from time zero on the current is between zero and one; it is zero at time zero and from
`off_time` on, and one at the peak. -/
theorem C77_vtem_partial (w : VTEM) (hr : 0 < w.rate) (hp : 0 < w.peak) (ho : w.peak < w.off) :
    (∀ t, 0 ≤ t → 0 ≤ w.eval t ∧ w.eval t ≤ 1) ∧ w.eval 0 = 0 ∧ w.eval w.peak = 1 ∧
      ∀ t, w.off ≤ t → w.eval t = 0 := by
  have hq := one_sub_exp_pos hr
  have hw : 0 < w.off - w.peak := by linarith
  refine ⟨fun t ht => ?_, ?_, ?_, fun t ht => ?_⟩
  · unfold VTEM.eval
    split_ifs with h1 h2
    · have h3 : -w.rate * t / w.peak ≤ 0 := by
        rw [neg_mul, neg_div]; exact neg_nonpos.2 (by positivity)
      have h4 : -w.rate ≤ -w.rate * t / w.peak := by
        rw [le_div_iff₀ hp]; nlinarith
      have h5 := Real.exp_le_one_iff.2 h3
      have h6 := Real.exp_le_exp.2 h4
      exact ⟨div_nonneg (by linarith) hq.le, by rw [div_le_one hq]; linarith⟩
    · have h3 : -1 / (w.off - w.peak) * (t - w.off) = (w.off - t) / (w.off - w.peak) := by ring
      rw [h3]
      exact ⟨div_nonneg (by linarith) hw.le, by rw [div_le_one hw]; linarith⟩
    · norm_num
  · rw [VTEM.eval, if_pos hp.le]; simp
  · rw [VTEM.eval, if_pos le_rfl, mul_div_assoc, div_self hp.ne', mul_one, div_self hq.ne']
  · rw [VTEM.eval, if_neg (by linarith), if_neg (by rintro ⟨h, -⟩; linarith)]

example : (0 : ℝ) < 3 ∧ (0 : ℝ) < 273 / 100000 ∧ (273 / 100000 : ℝ) < 42 / 10000 := by norm_num

/-! ### Trapezoid -/

theorem trap_bound (w : Trapezoid) (h : w.Ordered) (t : ℝ) :
    |w.evalDeriv t| ≤ 1 / (w.on1 - w.on0) + 1 / (w.off1 - w.off0) := by
  have h1 : 0 < w.on1 - w.on0 := by linarith [h.on]
  have h2 : 0 < w.off1 - w.off0 := by linarith [h.off]
  have h3 : 0 < 1 / (w.on1 - w.on0) := by positivity
  have h4 : 0 < 1 / (w.off1 - w.off0) := by positivity
  unfold Trapezoid.evalDeriv
  split_ifs
  · rw [neg_div, abs_neg, abs_of_pos h4]; linarith
  · rw [abs_of_pos h3]; linarith
  · rw [abs_zero]; linarith

/-- What the three waveforms with four nodes have in common: a shape on each side. -/
theorem shape_deriv {w : Trapezoid} {f d g₁ g₂ d₁ d₂ : ℝ → ℝ} (ho : w.Ordered)
    (hf : ∀ t, f t = if t < w.on0 then 0 else if w.on0 ≤ t ∧ t ≤ w.on1 then g₁ t
      else if w.on1 < t ∧ t < w.off0 then 1 else if w.off0 ≤ t ∧ t ≤ w.off1 then g₂ t else 0)
    (h1 : ∀ t, HasDerivAt g₁ (d₁ t) t) (h2 : ∀ t, HasDerivAt g₂ (d₂ t) t)
    (e0 : ∀ t, t < w.on0 → d t = 0) (e1 : ∀ t, w.on0 < t → t < w.on1 → d t = d₁ t)
    (e2 : ∀ t, w.on1 < t → t < w.off0 → d t = 0) (e3 : ∀ t, w.off0 < t → t < w.off1 → d t = d₂ t)
    (e4 : ∀ t, w.off1 < t → d t = 0) : DerivOff f d w.nodes := by
  intro t ht
  simp only [Trapezoid.nodes, List.mem_cons, List.not_mem_nil, or_false, not_or] at ht
  obtain ⟨n0, n1, n2, n3⟩ := ht
  obtain ⟨o1, o2, o3⟩ := ho
  rcases lt_or_gt_of_ne n0 with n0 | n0
  · rw [e0 t n0]
    exact deriv_lt n0 (fun x hx => by rw [hf, if_pos hx]) (hasDerivAt_const t 0)
  rcases lt_or_gt_of_ne n1 with n1 | n1
  · rw [e1 t n0 n1]
    exact deriv_in n0 n1 (fun x hx hx' => by
      rw [hf, if_neg (by linarith), if_pos ⟨hx.le, hx'.le⟩]) (h1 t)
  rcases lt_or_gt_of_ne n2 with n2 | n2
  · rw [e2 t n1 n2]
    exact deriv_in n1 n2 (fun x hx hx' => by
      rw [hf, if_neg (by linarith), if_neg (by rintro ⟨-, h⟩; linarith), if_pos ⟨hx, hx'⟩])
      (hasDerivAt_const t 1)
  rcases lt_or_gt_of_ne n3 with n3 | n3
  · rw [e3 t n2 n3]
    exact deriv_in n2 n3 (fun x hx hx' => by
      rw [hf, if_neg (by linarith), if_neg (by rintro ⟨-, h⟩; linarith),
        if_neg (by rintro ⟨-, h⟩; linarith), if_pos ⟨hx.le, hx'.le⟩]) (h2 t)
  · rw [e4 t n3]
    exact deriv_gt n3 (fun x hx => by
      rw [hf, if_neg (by linarith), if_neg (by rintro ⟨-, h⟩; linarith),
        if_neg (by rintro ⟨-, h⟩; linarith), if_neg (by rintro ⟨-, h⟩; linarith)])
      (hasDerivAt_const t 0)

theorem shape_cont {w : Trapezoid} {f g₁ g₂ : ℝ → ℝ} (ho : w.Ordered)
    (hf : ∀ t, f t = if t < w.on0 then 0 else if w.on0 ≤ t ∧ t ≤ w.on1 then g₁ t
      else if w.on1 < t ∧ t < w.off0 then 1 else if w.off0 ≤ t ∧ t ≤ w.off1 then g₂ t else 0)
    (c1 : Continuous g₁) (c2 : Continuous g₂) (a0 : g₁ w.on0 = 0) (a1 : g₁ w.on1 = 1)
    (b0 : g₂ w.off0 = 1) (b1 : g₂ w.off1 = 0) : Continuous f := by
  obtain ⟨o1, o2, o3⟩ := ho
  have he : f = fun t => if t ≤ w.on0 then 0 else if t ≤ w.on1 then g₁ t else
      if t ≤ w.off0 then 1 else if t ≤ w.off1 then g₂ t else 0 := by
    funext t
    rw [hf]
    rcases lt_trichotomy t w.on0 with h | rfl | h
    · rw [if_pos h, if_pos h.le]
    · rw [if_neg (lt_irrefl _), if_pos ⟨le_rfl, o1.le⟩, if_pos le_rfl, a0]
    rw [if_neg (show ¬ t < w.on0 by linarith), if_neg (show ¬ t ≤ w.on0 by linarith)]
    rcases le_or_gt t w.on1 with h' | h'
    · rw [if_pos ⟨h.le, h'⟩, if_pos h']
    rw [if_neg (show ¬ (w.on0 ≤ t ∧ t ≤ w.on1) by rintro ⟨-, h⟩; linarith),
      if_neg (show ¬ t ≤ w.on1 by linarith)]
    rcases lt_trichotomy t w.off0 with k | k | k
    · rw [if_pos ⟨h', k⟩, if_pos k.le]
    · rw [if_neg (show ¬ (w.on1 < t ∧ t < w.off0) by rintro ⟨-, h⟩; linarith),
        if_pos (show w.off0 ≤ t ∧ t ≤ w.off1 from ⟨k.ge, by linarith⟩), if_pos k.le, k, b0]
    rw [if_neg (show ¬ (w.on1 < t ∧ t < w.off0) by rintro ⟨-, h⟩; linarith),
      if_neg (show ¬ t ≤ w.off0 by linarith)]
    rcases le_or_gt t w.off1 with k' | k'
    · rw [if_pos ⟨k.le, k'⟩, if_pos k']
    · rw [if_neg (show ¬ (w.off0 ≤ t ∧ t ≤ w.off1) by rintro ⟨-, h⟩; linarith),
        if_neg (show ¬ t ≤ w.off1 by linarith)]
  rw [he]
  refine Continuous.if_le continuous_const ?_ continuous_id continuous_const ?_
  · refine Continuous.if_le c1 ?_ continuous_id continuous_const ?_
    · refine Continuous.if_le continuous_const ?_ continuous_id continuous_const ?_
      · refine Continuous.if_le c2 continuous_const continuous_id continuous_const ?_
        intro x hx; rw [hx, b1]
      · intro x hx; rw [if_pos (by rw [hx]; exact o3.le), hx, b0]
    · intro x hx; rw [if_pos (by rw [hx]; exact o2), hx, a1]
  · intro x hx; rw [if_pos (by rw [hx]; exact o1.le), hx, a0]

theorem shape_range {w : Trapezoid} {f g₁ g₂ : ℝ → ℝ}
    (hf : ∀ t, f t = if t < w.on0 then 0 else if w.on0 ≤ t ∧ t ≤ w.on1 then g₁ t
      else if w.on1 < t ∧ t < w.off0 then 1 else if w.off0 ≤ t ∧ t ≤ w.off1 then g₂ t else 0)
    (r1 : ∀ t, w.on0 ≤ t → t ≤ w.on1 → 0 ≤ g₁ t ∧ g₁ t ≤ 1)
    (r2 : ∀ t, w.off0 ≤ t → t ≤ w.off1 → 0 ≤ g₂ t ∧ g₂ t ≤ 1) : Normalised f := by
  intro t
  rw [hf]
  split_ifs with h1 h2 h3 h4
  · norm_num
  · exact r1 t h2.1 h2.2
  · norm_num
  · exact r2 t h4.1 h4.2
  · norm_num

theorem shape_ends {w : Trapezoid} {f g₁ g₂ : ℝ → ℝ} (ho : w.Ordered)
    (hf : ∀ t, f t = if t < w.on0 then 0 else if w.on0 ≤ t ∧ t ≤ w.on1 then g₁ t
      else if w.on1 < t ∧ t < w.off0 then 1 else if w.off0 ≤ t ∧ t ≤ w.off1 then g₂ t else 0)
    (a0 : g₁ w.on0 = 0) (a1 : g₁ w.on1 = 1) (b0 : g₂ w.off0 = 1) (b1 : g₂ w.off1 = 0) :
    (∀ t ≤ w.on0, f t = 0) ∧ (∀ t, w.on1 ≤ t → t ≤ w.off0 → f t = 1) ∧ ∀ t, w.off1 ≤ t → f t = 0 := by
  obtain ⟨o1, o2, o3⟩ := ho
  refine ⟨fun t ht => ?_, fun t ht ht' => ?_, fun t ht => ?_⟩
  · rw [hf]
    rcases ht.lt_or_eq with h | rfl
    · rw [if_pos h]
    · rw [if_neg (lt_irrefl _), if_pos ⟨le_rfl, o1.le⟩, a0]
  · rw [hf, if_neg (by linarith)]
    rcases ht.lt_or_eq with h | h
    · rw [if_neg (by rintro ⟨-, h⟩; linarith)]
      rcases ht'.lt_or_eq with k | k
      · rw [if_pos ⟨h, k⟩]
      · rw [if_neg (by rintro ⟨-, h⟩; linarith), if_pos ⟨k.ge, by linarith⟩, k, b0]
    · rw [if_pos ⟨by linarith, h.ge⟩, ← h, a1]
  · rw [hf, if_neg (by linarith), if_neg (by rintro ⟨-, h⟩; linarith),
      if_neg (by rintro ⟨-, h⟩; linarith)]
    split_ifs with h
    · have : t = w.off1 := le_antisymm h.2 ht
      rw [this, b1]
    · rfl

/-- **C77, trapezoid and triangle**: `eval_deriv` is the derivative, except at the time nodes. -/
theorem C77_deriv_trapezoid (w : Trapezoid) (ho : w.Ordered) : DerivOff w.eval w.evalDeriv w.nodes := by
  obtain ⟨o1, o2, o3⟩ := id ho
  refine shape_deriv ho (g₁ := fun t => 1 / (w.on1 - w.on0) * (t - w.on0))
    (g₂ := fun t => 1 - 1 / (w.off1 - w.off0) * (t - w.off0)) (d₁ := fun _ => 1 / (w.on1 - w.on0))
    (d₂ := fun _ => -1 / (w.off1 - w.off0)) (fun t => rfl) (fun t => line_deriv _ _ t)
    (fun t => by have := (line_deriv (1 / (w.off1 - w.off0)) w.off0 t).const_sub 1
                 rw [neg_div]; exact this) ?_ ?_ ?_ ?_ ?_
  · intro t h
    rw [Trapezoid.evalDeriv, if_neg (by rintro ⟨h, -⟩; linarith), if_neg (by rintro ⟨h, -⟩; linarith)]
  · intro t h h'
    rw [Trapezoid.evalDeriv, if_neg (by rintro ⟨h, -⟩; linarith), if_pos ⟨h.le, h'.le⟩]
  · intro t h h'
    rw [Trapezoid.evalDeriv, if_neg (by rintro ⟨h, -⟩; linarith), if_neg (by rintro ⟨-, h⟩; linarith)]
  · intro t h h'
    rw [Trapezoid.evalDeriv, if_pos ⟨h.le, h'.le⟩]
  · intro t h
    rw [Trapezoid.evalDeriv, if_neg (by rintro ⟨-, h⟩; linarith), if_neg (by rintro ⟨-, h⟩; linarith)]

/-- **C77, trapezoid**: the integral of `eval_deriv` is the change of the current. -/
theorem C77_charge_trapezoid (w : Trapezoid) (ho : w.Ordered) : Charge w.eval w.evalDeriv := by
  have h1 : w.on1 - w.on0 ≠ 0 := by linarith [ho.on]
  have h2 : w.off1 - w.off0 ≠ 0 := by linarith [ho.off]
  refine charge_of (shape_cont ho (fun t => rfl) (by fun_prop) (by fun_prop) ?_ ?_ ?_ ?_)
    (C77_deriv_trapezoid w ho) _ (trap_bound w ho)
  · simp
  · rw [one_div_mul_cancel h1]
  · simp
  · rw [one_div_mul_cancel h2]; simp

/-- **C77, trapezoid**: the current is between zero and one, zero until the ramp on begins, one between the
ramps, and zero after the ramp off. -/
theorem C77_trapezoid (w : Trapezoid) (ho : w.Ordered) :
    Normalised w.eval ∧ (∀ t ≤ w.on0, w.eval t = 0) ∧
      (∀ t, w.on1 ≤ t → t ≤ w.off0 → w.eval t = 1) ∧ ∀ t, w.off1 ≤ t → w.eval t = 0 := by
  have h1 : 0 < w.on1 - w.on0 := by linarith [ho.on]
  have h2 : 0 < w.off1 - w.off0 := by linarith [ho.off]
  refine ⟨shape_range (fun t => rfl) (fun t ht ht' => ?_) (fun t ht ht' => ?_),
    shape_ends ho (fun t => rfl) ?_ ?_ ?_ ?_⟩
  · rw [one_div_mul_eq_div]
    exact ⟨div_nonneg (by linarith) h1.le, by rw [div_le_one h1]; linarith⟩
  · have h3 : 0 ≤ 1 / (w.off1 - w.off0) * (t - w.off0) := by
      rw [one_div_mul_eq_div]; exact div_nonneg (by linarith) h2.le
    have h4 : 1 / (w.off1 - w.off0) * (t - w.off0) ≤ 1 := by
      rw [one_div_mul_eq_div, div_le_one h2]; linarith
    constructor <;> linarith
  · simp
  · rw [one_div_mul_cancel h1.ne']
  · simp
  · rw [one_div_mul_cancel h2.ne']; simp

/-- **C77, trapezoid**: with the default `off_time`, the current is zero from that time on. -/
theorem C77_off_time_trapezoid_partial (on0 on1 off0 off1 : ℝ)
    (ho : (Trapezoid.build on0 on1 off0 off1 none).Ordered) (t : ℝ)
    (ht : (Trapezoid.build on0 on1 off0 off1 none).offTime ≤ t) :
    (Trapezoid.build on0 on1 off0 off1 none).eval t = 0 :=
  (C77_trapezoid _ ho).2.2.2 t ht

/-- **C77, triangle**: a triangle rises from zero to one at the peak and is zero from `off_time` on. -/
theorem C77_triangular {start off peak : ℝ} (h1 : start < peak) (h2 : peak < off) :
    ∃ w, triangular start off peak = .ok w ∧ w.Ordered ∧ w.eval start = 0 ∧ w.eval peak = 1 ∧
      ∀ t, w.offTime ≤ t → w.eval t = 0 := by
  refine ⟨Trapezoid.build start peak peak off (some off), if_neg (by linarith), ⟨h1, le_rfl, h2⟩, ?_⟩
  obtain ⟨-, a, b, c⟩ := C77_trapezoid (Trapezoid.build start peak peak off (some off)) ⟨h1, le_rfl, h2⟩
  exact ⟨a _ le_rfl, b _ le_rfl le_rfl, c⟩

/-- **C77 is violated, `off_time`**: setting `off_time` of a trapezoid or triangle does not change the
current, which is then not zero after `off_time`. -/
theorem C77_violated_off_time (w : Trapezoid) (x : ℝ) :
    (w.setOffTime x).offTime = x ∧ ∀ t, (w.setOffTime x).eval t = w.eval t := ⟨rfl, fun _ => rfl⟩

/-- **C77 is violated, `off_time`**: a triangle which is switched off earlier keeps its current. -/
theorem C77_violated_triangular :
    ∃ w, triangular 0 4 2 = .ok w ∧ (w.setOffTime 2).offTime ≤ 3 ∧ (w.setOffTime 2).eval 3 = 1 / 2 := by
  refine ⟨Trapezoid.build 0 2 2 4 (some 4), if_neg (by norm_num), by norm_num [Trapezoid.setOffTime], ?_⟩
  norm_num [Trapezoid.setOffTime, Trapezoid.build, Trapezoid.eval]

/-- **C77 is violated, overlapping ramps**: nothing checks the order of the nodes; where the ramps overlap
the current rises while `eval_deriv` is negative. -/
theorem C77_violated_overlap :
    ∃ w : Trapezoid, w.on0 < w.on1 ∧ w.off0 < w.off1 ∧
      HasDerivAt w.eval (1 / 2) (3 / 2) ∧ w.evalDeriv (3 / 2) = -1 / 2 := by
  refine ⟨Trapezoid.build 0 2 1 3 none, by norm_num [Trapezoid.build], by norm_num [Trapezoid.build],
    ?_, ?_⟩
  · refine deriv_in (g := fun x => 1 / 2 * (x - 0)) (by norm_num : (0 : ℝ) < 3 / 2)
      (by norm_num : (3 / 2 : ℝ) < 2) (fun x hx hx' => ?_) (line_deriv _ _ _)
    have h1 : Trapezoid.eval (Trapezoid.build 0 2 1 3 none) x = 1 / (2 - 0) * (x - 0) := by
      exact (if_neg (show ¬ x < 0 by linarith)).trans
        (if_pos (show (0 : ℝ) ≤ x ∧ x ≤ 2 from ⟨hx.le, hx'.le⟩))
    rw [h1]
    norm_num
  · norm_num [Trapezoid.evalDeriv, Trapezoid.build]

example : (Trapezoid.build 0 2 4 6 none).Ordered := by
  constructor <;> norm_num [Trapezoid.build]

/-! ### Sines -/

theorem sin_deriv (a c : ℝ) (t : ℝ) :
    HasDerivAt (fun x => Real.sin (Real.pi / 2 * ((x - a) / c)))
      (Real.pi / 2 / c * Real.cos (Real.pi / 2 * (t - a) / c)) t := by
  have h1 : HasDerivAt (fun x => Real.pi / 2 * ((x - a) / c)) (Real.pi / 2 * (1 / c)) t := by
    simpa using (((hasDerivAt_id t).sub_const a).div_const c).const_mul (Real.pi / 2)
  refine h1.sin.congr_deriv ?_
  rw [mul_div_assoc (Real.pi / 2) (t - a) c]; ring

theorem cos_deriv (a c : ℝ) (t : ℝ) :
    HasDerivAt (fun x => Real.cos (Real.pi / 2 * ((x - a) / c)))
      (-Real.pi / 2 / c * Real.sin (Real.pi / 2 * (t - a) / c)) t := by
  have h1 : HasDerivAt (fun x => Real.pi / 2 * ((x - a) / c)) (Real.pi / 2 * (1 / c)) t := by
    simpa using (((hasDerivAt_id t).sub_const a).div_const c).const_mul (Real.pi / 2)
  refine h1.cos.congr_deriv ?_
  rw [mul_div_assoc (Real.pi / 2) (t - a) c]; ring

theorem quarter_angle (a c x : ℝ) :
    Real.sin (Real.pi / 2 * (1 / c) * (x - a)) = Real.sin (Real.pi / 2 * ((x - a) / c)) := by
  congr 1; ring

theorem sin_range {x : ℝ} (h0 : 0 ≤ x) (h1 : x ≤ 1) :
    0 ≤ Real.sin (Real.pi / 2 * x) ∧ Real.sin (Real.pi / 2 * x) ≤ 1 :=
  ⟨Real.sin_nonneg_of_nonneg_of_le_pi (by have := Real.pi_pos; positivity)
    (by nlinarith [Real.pi_pos]), Real.sin_le_one _⟩

theorem cos_range {x : ℝ} (h0 : 0 ≤ x) (h1 : x ≤ 1) :
    0 ≤ Real.cos (Real.pi / 2 * x) ∧ Real.cos (Real.pi / 2 * x) ≤ 1 :=
  ⟨Real.cos_nonneg_of_neg_pi_div_two_le_of_le (by nlinarith [Real.pi_pos])
    (by nlinarith [Real.pi_pos]), Real.cos_le_one _⟩

theorem trig_bound {c u : ℝ} (hc : 0 < c) (hu : |u| ≤ 1) : |Real.pi / 2 / c * u| ≤ Real.pi / 2 / c := by
  have hp : 0 < Real.pi / 2 / c := by have := Real.pi_pos; positivity
  rw [abs_mul, abs_of_pos hp]
  nlinarith

theorem quarter_shape (w : Trapezoid) (t : ℝ) :
    w.quarterEval t = if t < w.on0 then 0
      else if w.on0 ≤ t ∧ t ≤ w.on1 then Real.sin (Real.pi / 2 * ((t - w.on0) / (w.on1 - w.on0)))
      else if w.on1 < t ∧ t < w.off0 then 1
      else if w.off0 ≤ t ∧ t ≤ w.off1 then 1 - 1 / (w.off1 - w.off0) * (t - w.off0) else 0 := by
  unfold Trapezoid.quarterEval
  rw [quarter_angle]

/-- **C77, quarter sine**: `eval_deriv` is the derivative, except at the time nodes. -/
theorem C77_deriv_quarter_sine (w : Trapezoid) (ho : w.Ordered) :
    DerivOff w.quarterEval w.quarterDeriv w.nodes := by
  obtain ⟨o1, o2, o3⟩ := id ho
  refine shape_deriv ho (d₂ := fun _ => -1 / (w.off1 - w.off0)) (quarter_shape w)
    (fun t => sin_deriv _ _ t)
    (fun t => by have := (line_deriv (1 / (w.off1 - w.off0)) w.off0 t).const_sub 1
                 rw [neg_div]; exact this) ?_ ?_ ?_ ?_ ?_
  · intro t h
    rw [Trapezoid.quarterDeriv, if_neg (by rintro ⟨h, -⟩; linarith),
      if_neg (by rintro ⟨h, -⟩; linarith)]
  · intro t h h'
    rw [Trapezoid.quarterDeriv, if_pos ⟨h.le, h'⟩]
  · intro t h h'
    rw [Trapezoid.quarterDeriv, if_neg (by rintro ⟨-, h⟩; linarith),
      if_neg (by rintro ⟨h, -⟩; linarith)]
  · intro t h h'
    rw [Trapezoid.quarterDeriv, if_neg (by rintro ⟨-, h⟩; linarith), if_pos ⟨h.le, h'⟩]
  · intro t h
    rw [Trapezoid.quarterDeriv, if_neg (by rintro ⟨-, h⟩; linarith),
      if_neg (by rintro ⟨-, h⟩; linarith)]

/-- **C77, quarter sine**: the integral of `eval_deriv` is the change of the current. -/
theorem C77_charge_quarter_sine (w : Trapezoid) (ho : w.Ordered) :
    Charge w.quarterEval w.quarterDeriv := by
  have h1 : 0 < w.on1 - w.on0 := by linarith [ho.on]
  have h2 : 0 < w.off1 - w.off0 := by linarith [ho.off]
  refine charge_of (shape_cont ho (quarter_shape w) (by fun_prop) (by fun_prop) ?_ ?_ ?_ ?_)
    (C77_deriv_quarter_sine w ho) (Real.pi / 2 / (w.on1 - w.on0) + 1 / (w.off1 - w.off0)) (fun t => ?_)
  · simp
  · rw [div_self h1.ne', mul_one, Real.sin_pi_div_two]
  · simp
  · rw [one_div_mul_cancel h2.ne']; simp
  · have hp : 0 < Real.pi / 2 / (w.on1 - w.on0) := by have := Real.pi_pos; positivity
    have hq : 0 < 1 / (w.off1 - w.off0) := by positivity
    unfold Trapezoid.quarterDeriv
    split_ifs
    · have := trig_bound h1 (Real.abs_cos_le_one (Real.pi / 2 * (t - w.on0) / (w.on1 - w.on0)))
      linarith
    · rw [neg_div, abs_neg, abs_of_pos hq]; linarith
    · rw [abs_zero]; linarith

/-- **C77, quarter sine**: range and ends. -/
theorem C77_quarter_sine (w : Trapezoid) (ho : w.Ordered) :
    Normalised w.quarterEval ∧ (∀ t ≤ w.on0, w.quarterEval t = 0) ∧
      (∀ t, w.on1 ≤ t → t ≤ w.off0 → w.quarterEval t = 1) ∧ ∀ t, w.off1 ≤ t → w.quarterEval t = 0 := by
  have h1 : 0 < w.on1 - w.on0 := by linarith [ho.on]
  have h2 : 0 < w.off1 - w.off0 := by linarith [ho.off]
  refine ⟨shape_range (quarter_shape w) (fun t ht ht' => sin_range (div_nonneg (by linarith) h1.le)
    (by rw [div_le_one h1]; linarith)) (fun t ht ht' => ?_), shape_ends ho (quarter_shape w) ?_ ?_ ?_ ?_⟩
  · have h3 : 0 ≤ 1 / (w.off1 - w.off0) * (t - w.off0) := by
      rw [one_div_mul_eq_div]; exact div_nonneg (by linarith) h2.le
    have h4 : 1 / (w.off1 - w.off0) * (t - w.off0) ≤ 1 := by
      rw [one_div_mul_eq_div, div_le_one h2]; linarith
    constructor <;> linarith
  · simp
  · rw [div_self h1.ne', mul_one, Real.sin_pi_div_two]
  · simp
  · rw [one_div_mul_cancel h2.ne']; simp

/-- **C77, half sine**: `eval_deriv` is the derivative, except at the time nodes. -/
theorem C77_deriv_half_sine (w : Trapezoid) (ho : w.Ordered) :
    DerivOff w.halfEval w.halfDeriv w.nodes := by
  obtain ⟨o1, o2, o3⟩ := id ho
  refine shape_deriv ho (fun t => rfl) (fun t => sin_deriv _ _ t) (fun t => cos_deriv _ _ t) ?_ ?_ ?_ ?_ ?_
  · intro t h
    rw [Trapezoid.halfDeriv, if_neg (by rintro ⟨h, -⟩; linarith), if_neg (by rintro ⟨h, -⟩; linarith)]
  · intro t h h'
    rw [Trapezoid.halfDeriv, if_pos ⟨h.le, h'⟩]
  · intro t h h'
    rw [Trapezoid.halfDeriv, if_neg (by rintro ⟨-, h⟩; linarith), if_neg (by rintro ⟨h, -⟩; linarith)]
  · intro t h h'
    rw [Trapezoid.halfDeriv, if_neg (by rintro ⟨-, h⟩; linarith), if_pos ⟨h.le, h'⟩]
  · intro t h
    rw [Trapezoid.halfDeriv, if_neg (by rintro ⟨-, h⟩; linarith), if_neg (by rintro ⟨-, h⟩; linarith)]

/-- **C77, half sine**: the integral of `eval_deriv` is the change of the current. -/
theorem C77_charge_half_sine (w : Trapezoid) (ho : w.Ordered) : Charge w.halfEval w.halfDeriv := by
  have h1 : 0 < w.on1 - w.on0 := by linarith [ho.on]
  have h2 : 0 < w.off1 - w.off0 := by linarith [ho.off]
  refine charge_of (shape_cont ho (fun t => rfl) (by fun_prop) (by fun_prop) ?_ ?_ ?_ ?_)
    (C77_deriv_half_sine w ho) (Real.pi / 2 / (w.on1 - w.on0) + Real.pi / 2 / (w.off1 - w.off0))
    (fun t => ?_)
  · simp
  · rw [div_self h1.ne', mul_one, Real.sin_pi_div_two]
  · simp
  · rw [div_self h2.ne', mul_one, Real.cos_pi_div_two]
  · have hp : 0 < Real.pi / 2 / (w.on1 - w.on0) := by have := Real.pi_pos; positivity
    have hq : 0 < Real.pi / 2 / (w.off1 - w.off0) := by have := Real.pi_pos; positivity
    unfold Trapezoid.halfDeriv
    split_ifs
    · have := trig_bound h1 (Real.abs_cos_le_one (Real.pi / 2 * (t - w.on0) / (w.on1 - w.on0)))
      linarith
    · have := trig_bound h2 (Real.abs_sin_le_one (Real.pi / 2 * (t - w.off0) / (w.off1 - w.off0)))
      rw [neg_div, neg_div, neg_mul, abs_neg]; linarith
    · rw [abs_zero]; linarith

/-- **C77, half sine**: range and ends. -/
theorem C77_half_sine (w : Trapezoid) (ho : w.Ordered) :
    Normalised w.halfEval ∧ (∀ t ≤ w.on0, w.halfEval t = 0) ∧
      (∀ t, w.on1 ≤ t → t ≤ w.off0 → w.halfEval t = 1) ∧ ∀ t, w.off1 ≤ t → w.halfEval t = 0 := by
  have h1 : 0 < w.on1 - w.on0 := by linarith [ho.on]
  have h2 : 0 < w.off1 - w.off0 := by linarith [ho.off]
  refine ⟨shape_range (fun t => rfl) (fun t ht ht' => sin_range (div_nonneg (by linarith) h1.le)
    (by rw [div_le_one h1]; linarith)) (fun t ht ht' => cos_range (div_nonneg (by linarith) h2.le)
    (by rw [div_le_one h2]; linarith)), shape_ends ho (fun t => rfl) ?_ ?_ ?_ ?_⟩
  · simp
  · rw [div_self h1.ne', mul_one, Real.sin_pi_div_two]
  · simp
  · rw [div_self h2.ne', mul_one, Real.cos_pi_div_two]

/-! ### Exponential -/

theorem Exponential.build_ok {start peak tau off : ℝ} {w : Exponential}
    (h : Exponential.build start peak tau off = .ok w) :
    w = ⟨start, peak, tau, off⟩ ∧ start < peak ∧ peak ≤ off ∧ 0 < tau := by
  unfold Exponential.build at h
  split_ifs at h with h1 h2 h3
  rw [not_or] at h2
  exact ⟨(Except.ok.inj h).symm, not_le.1 h2.1, not_lt.1 h2.2, not_le.1 h3⟩

theorem exp_deriv (w : Exponential) (t : ℝ) :
    HasDerivAt (fun x => (1 - Real.exp (-(x - w.start) / w.tau)) /
        (1 - Real.exp (-(w.peak - w.start) / w.tau)))
      (Real.exp (-(t - w.start) / w.tau) / (w.tau * (1 - Real.exp (-(w.peak - w.start) / w.tau)))) t := by
  have h1 : HasDerivAt (fun x => -(x - w.start) / w.tau) (-1 / w.tau) t := by
    simpa using (((hasDerivAt_id t).sub_const w.start).fun_neg).div_const w.tau
  refine ((h1.exp.const_sub 1).div_const (1 - Real.exp (-(w.peak - w.start) / w.tau))).congr_deriv ?_
  rw [div_mul_eq_div_div]
  ring

theorem exp_denom {w : Exponential} (hs : w.start < w.peak) (ht : 0 < w.tau) :
    0 < 1 - Real.exp (-(w.peak - w.start) / w.tau) := by
  rw [neg_div]
  exact one_sub_exp_pos (div_pos (by linarith) ht)

/-- **C77, exponential**: `eval_deriv` is the derivative, except at the time nodes. -/
theorem C77_deriv_exponential {start peak tau off : ℝ} {w : Exponential}
    (h : Exponential.build start peak tau off = .ok w) : DerivOff w.eval w.evalDeriv w.nodes := by
  obtain ⟨hw, hs, hp, ht⟩ := Exponential.build_ok h
  have hs' : w.start < w.peak := by rw [hw]; exact hs
  have hp' : w.peak ≤ w.off := by rw [hw]; exact hp
  intro t hn
  simp only [Exponential.nodes, List.mem_cons, List.not_mem_nil, or_false, not_or] at hn
  obtain ⟨n0, n1, n2⟩ := hn
  rcases lt_or_gt_of_ne n0 with n0 | n0
  · rw [Exponential.evalDeriv, if_neg (by rintro ⟨h, -⟩; linarith), if_neg (by rintro ⟨-, h⟩; linarith)]
    exact deriv_lt n0 (fun x hx => if_pos hx.le) (hasDerivAt_const t 0)
  rcases lt_or_gt_of_ne n1 with n1 | n1
  · rw [Exponential.evalDeriv, if_neg (by rintro ⟨h, -⟩; linarith), if_pos ⟨n1.le, n0.le⟩]
    exact deriv_in n0 n1 (fun x hx hx' => by
      rw [Exponential.eval, if_neg (by linarith), if_pos hx'.le]) (exp_deriv w t)
  rcases lt_or_gt_of_ne n2 with n2 | n2
  · rw [Exponential.evalDeriv, if_pos ⟨n1, n2⟩]
    exact deriv_in n1 n2 (fun x hx hx' => by
      rw [Exponential.eval, if_neg (by linarith), if_neg (by linarith), if_pos ⟨hx', hx⟩])
      (line_deriv _ _ t)
  · rw [Exponential.evalDeriv, if_neg (by rintro ⟨-, h⟩; linarith), if_neg (by rintro ⟨h, -⟩; linarith)]
    exact deriv_gt n2 (fun x hx => by
      rw [Exponential.eval, if_neg (by linarith), if_neg (by linarith),
        if_neg (by rintro ⟨h, -⟩; linarith)]) (hasDerivAt_const t 0)

/-- **C77, exponential**: the current is between zero and one, zero until the start and from `off_time` on,
and one at the peak. -/
theorem C77_exponential {start peak tau off : ℝ} {w : Exponential}
    (h : Exponential.build start peak tau off = .ok w) :
    Normalised w.eval ∧ (∀ t ≤ start, w.eval t = 0) ∧ w.eval peak = 1 ∧
      ∀ t, off ≤ t → peak < t → w.eval t = 0 := by
  obtain ⟨rfl, hs, hp, ht⟩ := Exponential.build_ok h
  have hq := exp_denom (w := ⟨start, peak, tau, off⟩) hs ht
  simp only at hq
  refine ⟨fun t => ?_, fun t h => if_pos h, ?_, fun t h h' => ?_⟩
  · unfold Exponential.eval
    simp only
    split_ifs with h1 h2 h3
    · norm_num
    · have h3 : -(t - start) / tau ≤ 0 := div_nonpos_of_nonpos_of_nonneg (by linarith) ht.le
      have h4 : -(peak - start) / tau ≤ -(t - start) / tau :=
        div_le_div_of_nonneg_right (by linarith) ht.le
      have h5 := Real.exp_le_one_iff.2 h3
      have h6 := Real.exp_le_exp.2 h4
      exact ⟨div_nonneg (by linarith) hq.le, by rw [div_le_one hq]; linarith⟩
    · have hw : 0 < off - peak := by linarith [h3.1, h3.2]
      have h4 : -1 / (off - peak) * (t - off) = (off - t) / (off - peak) := by ring
      rw [h4]
      exact ⟨div_nonneg (by linarith [h3.1]) hw.le, by rw [div_le_one hw]; linarith⟩
    · norm_num
  · rw [Exponential.eval, if_neg (by simp only; linarith), if_pos (by simp only; exact le_rfl)]
    exact div_self hq.ne'
  · rw [Exponential.eval, if_neg (by simp only; linarith), if_neg (by simp only; linarith),
      if_neg (by rintro ⟨h, -⟩; simp only at h; linarith)]

theorem exp_cont {w : Exponential} (hs : w.start < w.peak) (hp : w.peak < w.off) (ht : 0 < w.tau) :
    Continuous w.eval := by
  have hq := exp_denom hs ht
  have hw : w.off - w.peak ≠ 0 := by linarith
  have he : w.eval = fun t => if t ≤ w.start then 0 else if t ≤ w.peak then
      (1 - Real.exp (-(t - w.start) / w.tau)) / (1 - Real.exp (-(w.peak - w.start) / w.tau))
      else if t ≤ w.off then -1 / (w.off - w.peak) * (t - w.off) else 0 := by
    funext t
    unfold Exponential.eval
    split_ifs with h1 h2 h3 h4 h4
    · rfl
    · rfl
    · rfl
    · exact absurd h3.1.le h4
    · have : t = w.off := by
        by_contra hne
        exact h3 ⟨lt_of_le_of_ne h4 hne, not_le.1 h2⟩
      rw [this]; simp
    · rfl
  rw [he]
  refine Continuous.if_le continuous_const ?_ continuous_id continuous_const ?_
  · refine Continuous.if_le (by fun_prop) ?_ continuous_id continuous_const ?_
    · refine Continuous.if_le (by fun_prop) continuous_const continuous_id continuous_const ?_
      intro x hx; rw [hx]; simp
    · intro x hx
      rw [if_pos (by rw [hx]; exact hp.le), hx, div_self hq.ne']
      field_simp
      ring
  · intro x hx; rw [if_pos (by rw [hx]; exact hs.le), hx]; simp

/-- **C77, exponential**: the integral of `eval_deriv` is the change of the current, if the peak is before
the end. -/
theorem C77_charge_exponential_partial {start peak tau off : ℝ} {w : Exponential}
    (h : Exponential.build start peak tau off = .ok w) (hpo : peak < off) : Charge w.eval w.evalDeriv := by
  obtain ⟨hw, hs, -, ht⟩ := Exponential.build_ok h
  have hd := C77_deriv_exponential h
  have hs' : w.start < w.peak := by rw [hw]; exact hs
  have hp' : w.peak < w.off := by rw [hw]; exact hpo
  have ht' : 0 < w.tau := by rw [hw]; exact ht
  have hq := exp_denom hs' ht'
  refine charge_of (exp_cont hs' hp' ht') hd
    (1 / (w.off - w.peak) + 1 / (w.tau * (1 - Real.exp (-(w.peak - w.start) / w.tau)))) (fun t => ?_)
  have h1 : 0 < 1 / (w.off - w.peak) := by have : 0 < w.off - w.peak := by linarith
                                           positivity
  have h2 : 0 < w.tau * (1 - Real.exp (-(w.peak - w.start) / w.tau)) := by positivity
  have h3 : 0 < 1 / (w.tau * (1 - Real.exp (-(w.peak - w.start) / w.tau))) := by positivity
  unfold Exponential.evalDeriv
  split_ifs with c1 c2
  · rw [neg_div, abs_neg, abs_of_pos h1]; linarith
  · have h4 : Real.exp (-(t - w.start) / w.tau) ≤ 1 :=
      Real.exp_le_one_iff.2 (div_nonpos_of_nonpos_of_nonneg (by linarith [c2.2]) ht'.le)
    rw [abs_of_nonneg (div_nonneg (Real.exp_pos _).le h2.le)]
    have := div_le_div_of_nonneg_right h4 h2.le
    linarith
  · rw [abs_zero]; linarith

example : Exponential.build (-10) (-1) 1 0 = .ok ⟨-10, -1, 1, 0⟩ := by
  unfold Exponential.build; norm_num

end Props
end
end Verif.TDEM.Waveforms
