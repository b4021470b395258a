import Verif.Basic
import Mathlib.Analysis.SpecialFunctions.Pow.Real
import Mathlib.Analysis.SpecialFunctions.Complex.LogDeriv
import Mathlib.Analysis.SpecialFunctions.Integrals.Basic
import Mathlib.MeasureTheory.Integral.IntervalIntegral.FundThmCalculus
import Mathlib.Analysis.SpecialFunctions.Pow.Asymptotics
import Mathlib.Tactic.FieldSimp
import Mathlib.Tactic.Ring
import Mathlib.Tactic.Linarith
import Mathlib.Tactic.Positivity

/-!
C145: the relaxation models of the layered electromagnetic simulations: complex conductivities and
permeabilities (`simpeg/electromagnetics/base_1d.py` 236-371) and the functions `ColeCole` and
`LogUniform` (`simpeg/electromagnetics/utils/em1d_utils.py` 148-221).
-/

noncomputable section
namespace Verif.EM.Relaxation
open Verif

/-! ### The code -/

/-- A physical property: a number or an array. -/
inductive Val
  | scalar (x : ℝ)
  | array (a : List ℝ)

/-- `np.all(x == 0.0)`. -/
def Val.allZero : Val → Prop
  | .scalar x => x = 0
  | .array a => ∀ x ∈ a, x = 0

/-- `sig_inf - sig_inf * eta / (1 + (1 - eta) * (1j * w * tau) ** c)` with `w = 2 * np.pi * f`
(`em1d_utils.py` 178-187). -/
def coleCole (f sigInf eta tau c : ℝ) : ℂ :=
  sigInf - sigInf * eta / (1 + (1 - eta) * (Complex.I * (2 * Real.pi * f : ℝ) * tau) ^ (c : ℂ))

/-- `LogUniform` (`em1d_utils.py` 218-221). -/
def logUniform (f chiInf dChi tau1 tau2 : ℝ) : ℂ :=
  chiInf + dChi * (1 - Complex.log ((1 + Complex.I * (2 * Real.pi * f : ℝ) * tau2) /
    (1 + Complex.I * (2 * Real.pi * f : ℝ) * tau1)) / (Real.log (tau2 / tau1) : ℝ))

/-- Broadcasting of a property against an array of layers and frequencies: entries go along the last
axis, the frequencies. -/
def bcast (nF : ℕ) : Val → Except Err (ℕ → ℕ → ℝ)
  | .scalar x => .ok fun _ _ => x
  | .array a => if a.length = nF then .ok fun _ k => a.getD k 0
      else if a.length = 1 then .ok fun _ _ => a.getD 0 0 else .error .valueError

/-- `np.tile(x.reshape([-1, 1]), (1, n_frequency))` and its use with arrays of `n` layers; numbers have
no `reshape`. -/
def tile (n : ℕ) : Val → Except Err (ℕ → ℕ → ℝ)
  | .scalar _ => .error .attributeError
  | .array a => if a.length = n then .ok fun l _ => a.getD l 0
      else if a.length = 1 then .ok fun _ _ => a.getD 0 0 else .error .valueError

/-- A number or an array, as `np.isscalar` says. -/
def Val.isScalar : Val → Bool
  | .scalar _ => true
  | .array _ => false

/-- A parameter of the relaxation as it is used: `sc` says that the first is a number. -/
def readVal (sc : Bool) (nF n : ℕ) (v : Val) : Except Err (ℕ → ℕ → ℝ) := if sc then bcast nF v else tile n v

/-- Three of them; the first exception is raised. -/
def with3 (a b c : Except Err (ℕ → ℕ → ℝ)) (k : (ℕ → ℕ → ℝ) → (ℕ → ℕ → ℝ) → (ℕ → ℕ → ℝ) → ℕ → ℕ → ℂ) :
    Except Err (ℕ → ℕ → ℂ) :=
  match a, b, c with
  | .ok a, .ok b, .ok c => .ok (k a b c)
  | .error x, _, _ => .error x
  | _, .error x, _ => .error x
  | _, _, .error x => .error x

open Classical in
/-- `compute_complex_sigma` (`base_1d.py` 277-307), by layer and frequency. The multiplier
`(1j * w * tau) ** c` and the rest are elementwise. -/
def complexSigma (freqs sigma : List ℝ) (eta tau c : Val) : Except Err (ℕ → ℕ → ℂ) :=
  if eta.allZero then .ok fun l _ => (sigma.getD l 0 : ℂ)
  else
    let rd := readVal eta.isScalar freqs.length sigma.length;
    with3 (rd eta) (rd tau) (rd c) fun e t c l k =>
      coleCole (freqs.getD k 0) (sigma.getD l 0) (e l k) (t l k) (c l k)

/-- `x * np.ones_like(self.mu)` for a number `x` and `mu`. -/
def onesLike (mu : Val) (x : ℝ) : Val :=
  match mu with
  | .scalar _ => .scalar x
  | .array a => .array (a.map fun _ => x)

/-- The number of a property that is a number (the code has `dchi`, `tau1`, `tau2` all numbers or all
arrays here). -/
def Val.num : Val → ℝ
  | .scalar x => x
  | .array _ => 0

/-- `mu`, an array in any case (`base_1d.py` 337-340). -/
def muBase (mu : Val) (l : ℕ) : ℝ :=
  match mu with
  | .scalar x => x
  | .array a => a.getD l 0

open Classical in
/-- `compute_complex_mu` (`base_1d.py` 337-371), by layer and frequency; `mu0` is the permeability of
free space. With `dchi` a number, `tau1` and `tau2` are taken to be numbers. -/
def complexMu (mu0 : ℝ) (freqs : List ℝ) (n : ℕ) (mu dchi tau1 tau2 : Val) : Except Err (ℕ → ℕ → ℂ) :=
  if dchi.allZero then .ok fun l _ => (muBase mu l : ℂ)
  else
    let rd := fun v : Val => if dchi.isScalar then bcast freqs.length (onesLike mu v.num) else tile n v;
    with3 (rd dchi) (rd tau1) (rd tau2) fun d t1 t2 l k =>
      muBase mu l + mu0 * logUniform (freqs.getD k 0) 0 (d l k) (t1 l k) (t2 l k)

/-! ### Specification -/

/-- The entry of a property for a layer. -/
def Val.layer (l : ℕ) : Val → ℝ
  | .scalar x => x
  | .array a => a.getD l 0

/-- The mean of a function of the relaxation time over times that are uniform in their logarithm. -/
def logMean (g : ℝ → ℂ) (t1 t2 : ℝ) : ℂ := (∫ t in t1..t2, g t * (t⁻¹ : ℝ)) / (∫ t in t1..t2, (t⁻¹ : ℝ) : ℝ)

/-- Whether all three are numbers, or all three have an entry for each of `n` layers. -/
def alike (n : ℕ) (a b c : Val) : Prop :=
  (∃ x y z, a = .scalar x ∧ b = .scalar y ∧ c = .scalar z) ∨
  (∃ x y z, a = .array x ∧ b = .array y ∧ c = .array z ∧ x.length = n ∧ y.length = n ∧ z.length = n)

namespace Props

/-! ### Cole-Cole -/

/-- The power of an imaginary number: of the quadrant if the exponent is at most 1. -/
theorem pow_quadrant {x c : ℝ} (hx : 0 ≤ x) (hc0 : 0 < c) (hc1 : c ≤ 1) :
    ‖(Complex.I * (x : ℂ)) ^ (c : ℂ)‖ = x ^ c ∧
    0 ≤ ((Complex.I * (x : ℂ)) ^ (c : ℂ)).re ∧ 0 ≤ ((Complex.I * (x : ℂ)) ^ (c : ℂ)).im := by
  rcases hx.eq_or_lt with rfl | hx
  · have : (c : ℂ) ≠ 0 := by exact_mod_cast hc0.ne'
    simp [Complex.zero_cpow this, Real.zero_rpow hc0.ne']
  have h0 : Complex.I * (x : ℂ) ≠ 0 := mul_ne_zero Complex.I_ne_zero (by exact_mod_cast hx.ne')
  have hl : Complex.log (Complex.I * (x : ℂ)) = (Real.log x : ℂ) + (Real.pi / 2 : ℝ) * Complex.I := by
    rw [mul_comm, Complex.log_ofReal_mul hx Complex.I_ne_zero, Complex.log_I]
    push_cast
    ring
  have he : (Complex.I * (x : ℂ)) ^ (c : ℂ) =
      ((Real.exp (c * Real.log x) : ℝ) : ℂ) * Complex.exp ((c * (Real.pi / 2) : ℝ) * Complex.I) := by
    rw [Complex.cpow_def_of_ne_zero h0, hl, Complex.ofReal_exp, ← Complex.exp_add]
    congr 1
    push_cast
    ring
  have hp := Real.pi_pos
  have hle : c * (Real.pi / 2) ≤ Real.pi / 2 := by nlinarith
  have hge : 0 ≤ c * (Real.pi / 2) := by positivity
  refine ⟨?_, ?_, ?_⟩
  · rw [he, norm_mul, Complex.norm_exp_ofReal_mul_I, mul_one, Complex.norm_real,
      Real.norm_of_nonneg (Real.exp_pos _).le, Real.rpow_def_of_pos hx, mul_comm]
  · rw [he, Complex.re_ofReal_mul, Complex.exp_ofReal_mul_I_re]
    exact mul_nonneg (Real.exp_pos _).le (Real.cos_nonneg_of_mem_Icc ⟨by linarith, hle⟩)
  · rw [he, Complex.im_ofReal_mul, Complex.exp_ofReal_mul_I_im]
    exact mul_nonneg (Real.exp_pos _).le (Real.sin_nonneg_of_nonneg_of_le_pi hge (by linarith))

theorem inv_quadrant {z : ℂ} (h1 : 0 ≤ z.re) (h2 : 0 ≤ z.im) :
    0 < (1 / (1 + z)).re ∧ (1 / (1 + z)).re ≤ 1 ∧ (1 / (1 + z)).im ≤ 0 ∧ ‖1 / (1 + z)‖ ≤ 1 := by
  have hn : Complex.normSq (1 + z) = (1 + z.re) ^ 2 + z.im ^ 2 := by
    rw [Complex.normSq_apply]
    simp
    ring
  have hpos : 0 < (1 + z.re) ^ 2 + z.im ^ 2 := by positivity
  have hre : (1 / (1 + z)).re = (1 + z.re) / ((1 + z.re) ^ 2 + z.im ^ 2) := by
    rw [one_div, Complex.inv_re, hn]
    simp
  have him : (1 / (1 + z)).im = -z.im / ((1 + z.re) ^ 2 + z.im ^ 2) := by
    rw [one_div, Complex.inv_im, hn]
    simp
  refine ⟨?_, ?_, ?_, ?_⟩
  · rw [hre]
    positivity
  · rw [hre, div_le_one hpos]
    nlinarith [sq_nonneg z.im]
  · rw [him]
    exact div_nonpos_of_nonpos_of_nonneg (by linarith) hpos.le
  · rw [norm_div, norm_one]
    have : (1 : ℝ) ≤ ‖1 + z‖ := by
      have := Complex.abs_re_le_norm (1 + z)
      have h3 : (1 + z).re = 1 + z.re := by simp
      rw [h3, abs_of_pos (by linarith)] at this
      linarith
    exact (div_le_one (by linarith)).2 this

theorem cole_form (f s eta tau c : ℝ) :
    coleCole f s eta tau c = s * (1 - eta * (1 / (1 + (1 - eta) *
      (Complex.I * ((2 * Real.pi * f * tau : ℝ) : ℂ)) ^ (c : ℂ)))) := by
  unfold coleCole
  rw [show Complex.I * ((2 * Real.pi * f : ℝ) : ℂ) * (tau : ℂ) =
    Complex.I * ((2 * Real.pi * f * tau : ℝ) : ℂ) by push_cast; ring]
  ring

/-- C145. **Conductivities**: for chargeabilities from 0 to 1 and exponents up to 1 the real part is
between the conductivities at zero and infinite frequency, and the imaginary part is not negative;
the value at frequency 0 is `(1 - eta) * sig_inf`, without chargeability it is `sig_inf`. -/
theorem C145_cole {f s eta tau c : ℝ} (hf : 0 ≤ f) (hs : 0 ≤ s) (he0 : 0 ≤ eta) (he1 : eta ≤ 1)
    (ht : 0 ≤ tau) (hc0 : 0 < c) (hc1 : c ≤ 1) :
    (1 - eta) * s ≤ (coleCole f s eta tau c).re ∧ (coleCole f s eta tau c).re ≤ s ∧
    0 ≤ (coleCole f s eta tau c).im ∧
    coleCole 0 s eta tau c = ((1 - eta) * s : ℝ) ∧ coleCole f s 0 tau c = s := by
  have hx : 0 ≤ 2 * Real.pi * f * tau := by have := Real.pi_pos; positivity
  obtain ⟨-, q1, q2⟩ := pow_quadrant hx hc0 hc1
  have e : ((1 : ℂ) - eta) * (Complex.I * ((2 * Real.pi * f * tau : ℝ) : ℂ)) ^ (c : ℂ) =
      ((1 - eta : ℝ) : ℂ) * (Complex.I * ((2 * Real.pi * f * tau : ℝ) : ℂ)) ^ (c : ℂ) := by push_cast; ring
  have r1 : 0 ≤ (((1 : ℂ) - eta) * (Complex.I * ((2 * Real.pi * f * tau : ℝ) : ℂ)) ^ (c : ℂ)).re := by
    rw [e, Complex.re_ofReal_mul]
    exact mul_nonneg (by linarith) q1
  have r2 : 0 ≤ (((1 : ℂ) - eta) * (Complex.I * ((2 * Real.pi * f * tau : ℝ) : ℂ)) ^ (c : ℂ)).im := by
    rw [e, Complex.im_ofReal_mul]
    exact mul_nonneg (by linarith) q2
  obtain ⟨i1, i2, i3, -⟩ := inv_quadrant r1 r2
  refine ⟨?_, ?_, ?_, ?_, ?_⟩
  · rw [cole_form, Complex.re_ofReal_mul, Complex.sub_re, Complex.one_re, Complex.re_ofReal_mul]
    nlinarith [mul_nonneg hs he0]
  · rw [cole_form, Complex.re_ofReal_mul, Complex.sub_re, Complex.one_re, Complex.re_ofReal_mul]
    nlinarith [mul_nonneg (mul_nonneg hs he0) i1.le]
  · rw [cole_form, Complex.im_ofReal_mul, Complex.sub_im, Complex.one_im, Complex.im_ofReal_mul]
    have := mul_nonneg he0 (neg_nonneg.2 i3)
    exact mul_nonneg hs (by linarith)
  · rw [cole_form]
    have : (c : ℂ) ≠ 0 := by exact_mod_cast hc0.ne'
    simp [Complex.zero_cpow this]
    ring
  · rw [cole_form]
    simp

/-- C145. **Infinite frequency**: the conductivity tends to `sig_inf`. -/
theorem C145_cole_limit (s : ℝ) {eta tau c : ℝ} (he1 : eta < 1) (ht : 0 < tau)
    (hc0 : 0 < c) (hc1 : c ≤ 1) :
    Filter.Tendsto (fun f => coleCole f s eta tau c) Filter.atTop (nhds (s : ℂ)) := by
  simp only [cole_form]
  have key : Filter.Tendsto (fun f : ℝ => 1 / (1 + ((1 : ℂ) - eta) *
      (Complex.I * ((2 * Real.pi * f * tau : ℝ) : ℂ)) ^ (c : ℂ))) Filter.atTop (nhds 0) := by
    rw [tendsto_zero_iff_norm_tendsto_zero]
    have hlin : Filter.Tendsto (fun f : ℝ => 2 * Real.pi * f * tau) Filter.atTop Filter.atTop := by
      have hp := Real.pi_pos
      exact (Filter.tendsto_id.const_mul_atTop (by positivity)).atTop_mul_const ht
    have hpow : Filter.Tendsto (fun f : ℝ => (1 - eta) * (2 * Real.pi * f * tau) ^ c - 1)
        Filter.atTop Filter.atTop :=
      Filter.tendsto_atTop_add_const_right _ _
        (((tendsto_rpow_atTop hc0).comp hlin).const_mul_atTop (by linarith))
    refine squeeze_zero' (Filter.Eventually.of_forall fun f => norm_nonneg _) ?_
      (tendsto_inv_atTop_zero.comp hpow)
    filter_upwards [hpow.eventually_gt_atTop 0, Filter.eventually_ge_atTop 0] with f h1 h2
    have hx : 0 ≤ 2 * Real.pi * f * tau := by have := Real.pi_pos; positivity
    obtain ⟨q0, -, -⟩ := pow_quadrant hx hc0 hc1
    rw [norm_div, norm_one, Function.comp, ← one_div]
    refine one_div_le_one_div_of_le h1 ?_
    have n1 : ‖((1 : ℂ) - eta) * (Complex.I * ((2 * Real.pi * f * tau : ℝ) : ℂ)) ^ (c : ℂ)‖ =
        (1 - eta) * (2 * Real.pi * f * tau) ^ c := by
      rw [norm_mul, q0, show (1 : ℂ) - eta = ((1 - eta : ℝ) : ℂ) by push_cast; ring, Complex.norm_real,
        Real.norm_of_nonneg (by linarith)]
    have n2 := norm_sub_norm_le (((1 : ℂ) - eta) *
      (Complex.I * ((2 * Real.pi * f * tau : ℝ) : ℂ)) ^ (c : ℂ)) (-1)
    rw [n1, norm_neg, norm_one, sub_neg_eq_add, add_comm _ (1 : ℂ)] at n2
    exact n2
  have := ((key.const_mul (eta : ℂ)).const_sub 1).const_mul (s : ℂ)
  simpa using this

/-- C145. **Documentation of `ColeCole`**: it has `1 + i ω τ` raised to the exponent, which differs: at
frequency 0 it would give `σ (1 - η / (2 - η))`. -/
theorem C145_violated_documentation {s eta : ℝ} (hs : s ≠ 0) (h0 : eta ≠ 0) (h1 : eta ≠ 1) (h2 : eta ≠ 2)
    (tau : ℝ) {c : ℝ} (hc : c ≠ 0) :
    (s : ℂ) * (1 - eta * (1 / (1 + (1 - eta) *
      (1 + Complex.I * ((2 * Real.pi * 0 : ℝ) : ℂ) * tau) ^ (c : ℂ)))) ≠ coleCole 0 s eta tau c := by
  have hcc : (c : ℂ) ≠ 0 := by exact_mod_cast hc
  have : coleCole 0 s eta tau c = ((s * (1 - eta) : ℝ) : ℂ) := by
    rw [cole_form]
    simp [Complex.zero_cpow hcc]
  rw [this]
  have e : (s : ℂ) * (1 - eta * (1 / (1 + (1 - eta) *
      (1 + Complex.I * ((2 * Real.pi * 0 : ℝ) : ℂ) * tau) ^ (c : ℂ)))) =
      ((s * (1 - eta * (1 / (2 - eta))) : ℝ) : ℂ) := by
    simp
    left
    left
    ring
  rw [e]
  intro h
  have h := Complex.ofReal_injective h
  have h := mul_left_cancel₀ hs h
  have h3 : 2 - eta ≠ 0 := sub_ne_zero.2 h2.symm
  field_simp at h
  have h4 : eta * (1 - eta) = 0 := by linarith
  rcases mul_eq_zero.1 h4 with h5 | h5
  · exact h0 h5
  · exact h1 (by linarith)

/-- C145. **Conductivities of layers**: with the parameters of the relaxation all numbers or all one per
layer, each layer has its own conductivity and relaxation, at each frequency.
Missing: numbers together with arrays, see `C145_violated_mixed`. -/
theorem C145_sigma_partial (freqs sigma : List ℝ) (eta tau c : Val) (h : alike sigma.length eta tau c) :
    ∃ r, complexSigma freqs sigma eta tau c = .ok r ∧ ∀ l k, l < sigma.length →
      r l k = coleCole (freqs.getD k 0) (sigma.getD l 0) (eta.layer l) (tau.layer l) (c.layer l) := by
  have z : ∀ f s t c : ℝ, coleCole f s 0 t c = s := by
    intro f s t c
    rw [cole_form]
    simp
  unfold complexSigma
  rcases h with ⟨x, y, w, rfl, rfl, rfl⟩ | ⟨x, y, w, rfl, rfl, rfl, hx, hy, hw⟩
  · by_cases h0 : (Val.scalar x).allZero
    · have : x = 0 := h0
      subst this
      rw [if_pos h0]
      exact ⟨_, rfl, fun l k _ => (z _ _ _ _).symm⟩
    · rw [if_neg h0]
      exact ⟨_, rfl, fun l k _ => rfl⟩
  · by_cases h0 : (Val.array x).allZero
    · rw [if_pos h0]
      refine ⟨_, rfl, fun l k hl => ?_⟩
      have : x.getD l 0 = 0 := by
        rw [List.getD_eq_getElem?_getD, List.getElem?_eq_getElem (by omega), Option.getD_some]
        exact h0 _ (List.getElem_mem _)
      simp only [Val.layer, this, z]
    · rw [if_neg h0]
      simp only [Val.isScalar, readVal, Bool.false_eq_true, if_false, tile, hx, hy, hw, if_true, with3]
      exact ⟨_, rfl, fun l k _ => rfl⟩

/-- C145. **Numbers and arrays**: with a chargeability for all layers and times for each, these are taken
by frequency if there are as many frequencies as layers, and raise ValueError otherwise; with
chargeabilities for each layer and one time for all, AttributeError is raised. -/
theorem C145_violated_mixed (freqs sigma : List ℝ) {eta : ℝ} (h0 : eta ≠ 0) (tau : List ℝ) (c t : ℝ)
    (etas : List ℝ) (hs : ∃ x ∈ etas, x ≠ 0) (hl : etas.length = sigma.length) :
    (tau.length = freqs.length → ∃ r, complexSigma freqs sigma (.scalar eta) (.array tau) (.scalar c) = .ok r ∧
      ∀ l k, r l k = coleCole (freqs.getD k 0) (sigma.getD l 0) eta (tau.getD k 0) c) ∧
    (tau.length ≠ freqs.length → tau.length ≠ 1 →
      complexSigma freqs sigma (.scalar eta) (.array tau) (.scalar c) = .error .valueError) ∧
    complexSigma freqs sigma (.array etas) (.scalar t) (.scalar c) = .error .attributeError := by
  have hn : ¬(Val.scalar eta).allZero := h0
  have hm : ¬(Val.array etas).allZero := by
    obtain ⟨x, hx, hx0⟩ := hs
    exact fun h => hx0 (h x hx)
  refine ⟨fun h => ?_, fun h h1 => ?_, ?_⟩
  · unfold complexSigma
    rw [if_neg hn]
    simp only [Val.isScalar, readVal, if_true, bcast, h, with3]
    exact ⟨_, rfl, fun l k => rfl⟩
  · unfold complexSigma
    rw [if_neg hn]
    simp only [Val.isScalar, readVal, if_true, bcast, h, h1, if_false, with3]
  · unfold complexSigma
    rw [if_neg hm]
    simp only [Val.isScalar, readVal, Bool.false_eq_true, if_false, tile, hl, if_true, with3]

/-! ### Log-uniform -/

theorem base_ne (x : ℝ) : (1 : ℂ) + Complex.I * x ≠ 0 := by
  intro h
  have := congrArg Complex.re h
  simp at this

theorem base_ratio {w a b : ℝ} (ha : 0 < a) (hb : 0 < b) :
    ((1 + Complex.I * w * b) / (1 + Complex.I * w * a)) ∈ Complex.slitPlane := by
  left
  rw [Complex.div_re]
  have hn : 0 < Complex.normSq (1 + Complex.I * w * a) := by
    rw [Complex.normSq_pos]
    have := base_ne (w * a)
    push_cast at this
    rwa [← mul_assoc] at this
  have : 0 < w ^ 2 * a * b + 1 := by positivity
  simp only [Complex.add_re, Complex.add_im, Complex.mul_re, Complex.mul_im, Complex.I_re, Complex.I_im,
    Complex.one_re, Complex.one_im, Complex.ofReal_re, Complex.ofReal_im]
  ring_nf
  have h2 := inv_pos.2 hn
  nlinarith [mul_nonneg (mul_nonneg (sq_nonneg w) ha.le) hb.le, mul_pos this h2]

theorem integrand {w t : ℝ} (ht : 0 < t) :
    1 / (1 + Complex.I * w * t) * ((t⁻¹ : ℝ) : ℂ) =
      ((t⁻¹ : ℝ) : ℂ) - Complex.I * w / (1 + Complex.I * w * t) := by
  have h1 : (1 : ℂ) + Complex.I * w * t ≠ 0 := by
    have := base_ne (w * t)
    push_cast at this
    rwa [← mul_assoc] at this
  have h2 : (t : ℂ) ≠ 0 := by exact_mod_cast ht.ne'
  push_cast
  field_simp
  ring

theorem log_integral {w a b : ℝ} (ha : 0 < a) (hab : a ≤ b) :
    ∫ t in a..b, 1 / (1 + Complex.I * w * t) * ((t⁻¹ : ℝ) : ℂ) =
      (Real.log (b / a) : ℝ) - Complex.log ((1 + Complex.I * w * b) / (1 + Complex.I * w * a)) := by
  have hne : ∀ t : ℝ, (1 : ℂ) + Complex.I * w * t ≠ 0 := by
    intro t
    have := base_ne (w * t)
    push_cast at this
    rwa [← mul_assoc] at this
  have hd : ∀ t ∈ Set.uIcc a b, HasDerivAt (fun t : ℝ => ((Real.log t : ℝ) : ℂ) -
      Complex.log ((1 + Complex.I * w * t) / (1 + Complex.I * w * a)))
      (1 / (1 + Complex.I * w * t) * ((t⁻¹ : ℝ) : ℂ)) t := by
    intro t ht
    rw [Set.uIcc_of_le hab] at ht
    have ht0 : 0 < t := lt_of_lt_of_le ha ht.1
    have h1 := (Real.hasDerivAt_log ht0.ne').ofReal_comp
    have h2 : HasDerivAt (fun t : ℝ => (1 + Complex.I * w * (t : ℂ)) / (1 + Complex.I * w * a))
        (Complex.I * w / (1 + Complex.I * w * a)) t := by
      have := (((hasDerivAt_id t).ofReal_comp.const_mul (Complex.I * w)).const_add 1).div_const
        (1 + Complex.I * w * a)
      simpa using this
    have h3 := h2.clog_real (base_ratio ha ht0)
    refine (h1.sub h3).congr_deriv ?_
    rw [integrand ht0]
    congr 1
    have := hne t
    have := hne a
    field_simp
  rw [intervalIntegral.integral_eq_sub_of_hasDerivAt hd]
  · have hb : 0 < b := lt_of_lt_of_le ha hab
    rw [div_self (hne a), Complex.log_one, Real.log_div hb.ne' ha.ne']
    push_cast
    ring
  · apply ContinuousOn.intervalIntegrable
    rw [Set.uIcc_of_le hab]
    apply ContinuousOn.mul
    · apply ContinuousOn.div continuousOn_const (by fun_prop)
      exact fun t _ => hne t
    · have : ContinuousOn (fun t : ℝ => t⁻¹) (Set.Icc a b) :=
        continuousOn_inv₀.mono fun t ht => (lt_of_lt_of_le ha ht.1).ne'
      exact Complex.continuous_ofReal.comp_continuousOn this

theorem inv_integral {a b : ℝ} (ha : 0 < a) (hab : a ≤ b) : (∫ t in a..b, (t⁻¹ : ℝ)) = Real.log (b / a) :=
  integral_inv_of_pos ha (lt_of_lt_of_le ha hab)

/-- C145. **Susceptibilities**: the model of a log-uniform distribution is the mean of the relaxations
`1 / (1 + i ω τ)` over it. -/
theorem C145_log_uniform (f chi d : ℝ) {t1 t2 : ℝ} (h1 : 0 < t1) (h12 : t1 < t2) :
    logUniform f chi d t1 t2 =
      chi + d * logMean (fun t => 1 / (1 + Complex.I * (2 * Real.pi * f : ℝ) * t)) t1 t2 := by
  unfold logUniform logMean
  rw [log_integral h1 h12.le, inv_integral h1 h12.le]
  have hl : Real.log (t2 / t1) ≠ 0 := (Real.log_pos ((one_lt_div h1).2 h12)).ne'
  have hl' : ((Real.log (t2 / t1) : ℝ) : ℂ) ≠ 0 := by exact_mod_cast hl
  rw [sub_div, div_self hl']

/-- C145. **Susceptibilities**: at frequency 0 it is `chi + d`; the real part is between `chi` and
`chi + d`, the imaginary part not positive. -/
theorem C145_log_uniform_range {f chi d : ℝ} (hf : 0 ≤ f) (hd : 0 ≤ d) {t1 t2 : ℝ} (h1 : 0 < t1) (h12 : t1 < t2) :
    logUniform 0 chi d t1 t2 = ((chi + d : ℝ) : ℂ) ∧
    chi ≤ (logUniform f chi d t1 t2).re ∧ (logUniform f chi d t1 t2).re ≤ chi + d ∧
    (logUniform f chi d t1 t2).im ≤ 0 := by
  have hl : 0 < Real.log (t2 / t1) := Real.log_pos ((one_lt_div h1).2 h12)
  refine ⟨?_, ?_⟩
  · simp [logUniform]
  rw [C145_log_uniform f chi d h1 h12]
  set w : ℝ := 2 * Real.pi * f with hw
  have hw0 : 0 ≤ w := by have := Real.pi_pos; positivity
  have hint : IntervalIntegrable (fun t : ℝ => 1 / (1 + Complex.I * (w : ℂ) * t) * ((t⁻¹ : ℝ) : ℂ))
      MeasureTheory.volume t1 t2 := by
    apply ContinuousOn.intervalIntegrable
    rw [Set.uIcc_of_le h12.le]
    apply ContinuousOn.mul
    · apply ContinuousOn.div continuousOn_const (by fun_prop)
      intro t _
      have := base_ne (w * t)
      push_cast at this
      rwa [← mul_assoc] at this
    · have : ContinuousOn (fun t : ℝ => t⁻¹) (Set.Icc t1 t2) :=
        continuousOn_inv₀.mono fun t ht => (lt_of_lt_of_le h1 ht.1).ne'
      exact Complex.continuous_ofReal.comp_continuousOn this
  have q : ∀ t ∈ Set.Icc t1 t2, 0 < (1 / (1 + Complex.I * (w : ℂ) * t)).re ∧
      (1 / (1 + Complex.I * (w : ℂ) * t)).re ≤ 1 ∧ (1 / (1 + Complex.I * (w : ℂ) * t)).im ≤ 0 := by
    intro t ht
    have ht0 : 0 < t := lt_of_lt_of_le h1 ht.1
    obtain ⟨a, b, c, -⟩ := inv_quadrant (z := Complex.I * (w : ℂ) * t) (by simp)
      (by simp; positivity)
    exact ⟨a, b, c⟩
  have hre : (∫ t in t1..t2, 1 / (1 + Complex.I * (w : ℂ) * t) * ((t⁻¹ : ℝ) : ℂ)).re =
      ∫ t in t1..t2, (1 / (1 + Complex.I * (w : ℂ) * t)).re * t⁻¹ := by
    have := Complex.reCLM.intervalIntegral_comp_comm hint
    rw [Complex.reCLM_apply] at this
    rw [← this]
    congr 1
    funext t
    rw [Complex.reCLM_apply, Complex.re_mul_ofReal]
  have him : (∫ t in t1..t2, 1 / (1 + Complex.I * (w : ℂ) * t) * ((t⁻¹ : ℝ) : ℂ)).im =
      ∫ t in t1..t2, (1 / (1 + Complex.I * (w : ℂ) * t)).im * t⁻¹ := by
    have := Complex.imCLM.intervalIntegral_comp_comm hint
    rw [Complex.imCLM_apply] at this
    rw [← this]
    congr 1
    funext t
    rw [Complex.imCLM_apply, Complex.im_mul_ofReal]
  have ire : IntervalIntegrable (fun t : ℝ => (1 / (1 + Complex.I * (w : ℂ) * t)).re * t⁻¹)
      MeasureTheory.volume t1 t2 := by
    have := Complex.reCLM.integrable_comp hint.1
    have h2 := Complex.reCLM.integrable_comp hint.2
    simp only [Complex.reCLM_apply, Complex.re_mul_ofReal] at this h2
    exact ⟨this, h2⟩
  have iinv : IntervalIntegrable (fun t : ℝ => t⁻¹) MeasureTheory.volume t1 t2 := by
    apply ContinuousOn.intervalIntegrable
    rw [Set.uIcc_of_le h12.le]
    exact continuousOn_inv₀.mono fun t ht => (lt_of_lt_of_le h1 ht.1).ne'
  have b0 : 0 ≤ ∫ t in t1..t2, (1 / (1 + Complex.I * (w : ℂ) * t)).re * t⁻¹ :=
    intervalIntegral.integral_nonneg h12.le fun t ht =>
      mul_nonneg (q t ht).1.le (inv_nonneg.2 (lt_of_lt_of_le h1 ht.1).le)
  have b1 : ∫ t in t1..t2, (1 / (1 + Complex.I * (w : ℂ) * t)).re * t⁻¹ ≤ Real.log (t2 / t1) := by
    rw [← inv_integral h1 h12.le]
    refine intervalIntegral.integral_mono_on h12.le ire iinv fun t ht => ?_
    have := inv_nonneg.2 (lt_of_lt_of_le h1 ht.1).le
    nlinarith [(q t ht).2.1]
  have b2 : 0 ≤ ∫ t in t1..t2, -((1 / (1 + Complex.I * (w : ℂ) * t)).im * t⁻¹) :=
    intervalIntegral.integral_nonneg h12.le fun t ht => by
      have := mul_nonneg (neg_nonneg.2 (q t ht).2.2) (inv_nonneg.2 (lt_of_lt_of_le h1 ht.1).le)
      linarith
  rw [intervalIntegral.integral_neg] at b2
  unfold logMean
  rw [inv_integral h1 h12.le]
  rw [Complex.add_re, Complex.add_im, Complex.ofReal_re, Complex.ofReal_im, Complex.re_ofReal_mul,
    Complex.im_ofReal_mul, Complex.div_ofReal_re, Complex.div_ofReal_im, hre, him]
  refine ⟨?_, ?_, ?_⟩
  · have := mul_nonneg hd (div_nonneg b0 hl.le)
    linarith
  · have := mul_le_mul_of_nonneg_left ((div_le_one hl).2 b1) hd
    linarith
  · have := mul_nonneg hd (div_nonneg b2 hl.le)
    rw [neg_div] at this
    linarith

/-- C145. **Permeabilities of layers**: with the parameters of the relaxation one per layer, or all
numbers and one permeability for all layers, each layer has its own permeability and relaxation.
Missing: see `C145_violated_mu`. -/
theorem C145_mu_partial (mu0 : ℝ) (freqs : List ℝ) (n : ℕ) (mu dchi tau1 tau2 : Val)
    (h : alike n dchi tau1 tau2) (hm : mu.isScalar = true ∨ dchi.isScalar = false) :
    ∃ r, complexMu mu0 freqs n mu dchi tau1 tau2 = .ok r ∧ ∀ l k, l < n → r l k =
      mu.layer l + mu0 * logUniform (freqs.getD k 0) 0 (dchi.layer l) (tau1.layer l) (tau2.layer l) := by
  have z : ∀ f t t' : ℝ, logUniform f 0 0 t t' = 0 := by
    intro f t t'
    simp [logUniform]
  have hb : ∀ l, muBase mu l = mu.layer l := by
    intro l
    cases mu <;> rfl
  unfold complexMu
  rcases h with ⟨x, y, w, rfl, rfl, rfl⟩ | ⟨x, y, w, rfl, rfl, rfl, hx, hy, hw⟩
  · by_cases h0 : (Val.scalar x).allZero
    · have : x = 0 := h0
      subst this
      rw [if_pos h0]
      refine ⟨_, rfl, fun l k _ => ?_⟩
      simp only [hb, Val.layer, z, mul_zero, add_zero]
    · rw [if_neg h0]
      cases mu with
      | array a => simp [Val.isScalar] at hm
      | scalar a => exact ⟨_, rfl, fun l k _ => rfl⟩
  · by_cases h0 : (Val.array x).allZero
    · rw [if_pos h0]
      refine ⟨_, rfl, fun l k hl => ?_⟩
      have : x.getD l 0 = 0 := by
        rw [List.getD_eq_getElem?_getD, List.getElem?_eq_getElem (by omega), Option.getD_some]
        exact h0 _ (List.getElem_mem _)
      simp only [hb, Val.layer, this, z, mul_zero, add_zero]
    · rw [if_neg h0]
      simp only [Val.isScalar, Bool.false_eq_true, if_false, tile, hx, hy, hw, if_true, with3]
      refine ⟨_, rfl, fun l k _ => ?_⟩
      simp only [hb, Val.layer]

/-- C145. **One relaxation for layers with their own permeabilities**: raises ValueError unless there are
as many frequencies as layers. -/
theorem C145_violated_mu (mu0 : ℝ) (freqs : List ℝ) (mu : List ℝ) {d : ℝ} (hd : d ≠ 0) (t1 t2 : ℝ)
    (h1 : mu.length ≠ freqs.length) (h2 : mu.length ≠ 1) :
    complexMu mu0 freqs mu.length (.array mu) (.scalar d) (.scalar t1) (.scalar t2) = .error .valueError := by
  have hn : ¬(Val.scalar d).allZero := hd
  unfold complexMu
  rw [if_neg hn]
  simp only [Val.isScalar, if_true, onesLike, bcast, List.length_map, h1, h2, if_false, with3]

/-! ### Cases -/

example : (1 - 0.5) * 2 ≤ (coleCole 10 2 0.5 0.1 0.5).re ∧ (coleCole 10 2 0.5 0.1 0.5).re ≤ 2 := by
  have := C145_cole (f := 10) (s := 2) (eta := 0.5) (tau := 0.1) (c := 0.5) (by norm_num) (by norm_num)
    (by norm_num) (by norm_num) (by norm_num) (by norm_num) (by norm_num)
  exact ⟨this.1, this.2.1⟩

example : ∃ r, complexSigma [1, 10] [0.1, 0.2, 0.3] (.array [0, 0.5, 0]) (.array [1, 2, 3]) (.array [1, 1, 1]) =
    .ok r ∧ ∀ l k, l < 3 → r l k = coleCole ([1, 10].getD k 0) ([0.1, 0.2, 0.3].getD l 0)
      ([0, 0.5, 0].getD l 0) ([1, 2, 3].getD l 0) ([1, 1, 1].getD l 0) :=
  C145_sigma_partial _ _ _ _ _ (Or.inr ⟨_, _, _, rfl, rfl, rfl, rfl, rfl, rfl⟩)

example : complexMu 1 [1, 10] 3 (.array [1, 1, 1]) (.scalar 0.5) (.scalar 1) (.scalar 2) = .error .valueError :=
  C145_violated_mu 1 [1, 10] [1, 1, 1] (by norm_num) 1 2 (by simp) (by simp)

end Props
end Verif.EM.Relaxation
