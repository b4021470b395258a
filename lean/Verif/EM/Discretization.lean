import Verif.Basic
import Mathlib.Analysis.SpecialFunctions.Pow.Real
import Mathlib.Analysis.SpecialFunctions.Log.Base
import Mathlib.MeasureTheory.Integral.IntervalIntegral.Basic
import Mathlib.Algebra.Order.Floor.Ring
import Mathlib.Tactic.FieldSimp
import Mathlib.Tactic.Ring
import Mathlib.Tactic.Linarith
import Mathlib.Tactic.Positivity

/-!
C146: recommended layers (`simpeg/electromagnetics/utils/em1d_utils.py` 8-141) and the transform to the
time domain of the layered simulation (`get_splined_dlf_points`, `em1d_utils.py` 224-257, and
`simpeg/electromagnetics/time_domain/simulation_1d.py` 104-212).

Numbers are exact reals; the rounding of the ratio of the filter to 15 digits is left out.
-/

noncomputable section
namespace Verif.EM.Discretization
open Verif

/-! ### The code: layers -/

/-- `minimum_dz * geomtric_factor ** np.arange(n_layer)` (`em1d_utils.py` 27). -/
def geometric (n : ℕ) (dz factor : ℝ) : List ℝ := (List.range n).map fun j : ℕ => dz * factor ^ j

/-- `np.logspace(a, b, n)`: powers of 10 with exponents from `a` to `b`; one entry is at `a`. -/
def logspace (a b : ℝ) (n : ℕ) : List ℝ :=
  (List.range n).map fun j : ℕ => (10 : ℝ) ^ (if n = 1 then a else a + j * ((b - a) / ((n : ℝ) - 1)))

/-- `hz` for a value of `i` (`em1d_utils.py` 80, 85, 134, 138). -/
def layers (n : ℕ) (hz : ℝ) (i : ℕ) : List ℝ := logspace (Real.logb 10 hz) (Real.logb 10 (hz * i)) n

/-- The `while` loop (`em1d_utils.py` 79-87, 133-140), as a relation: from `i` it returns `r`. It may not
return. -/
inductive Returns (n : ℕ) (hz zMax : ℝ) : ℕ → List ℝ → Prop
  | stop {i : ℕ} (h : zMax ≤ (layers n hz i).sum) : Returns n hz zMax i (layers n hz i)
  | next {i : ℕ} {r : List ℝ} (h : (layers n hz i).sum < zMax) (hr : Returns n hz zMax (i + 1) r) :
      Returns n hz zMax i r

/-! ### The code: filter points -/

/-- A filter: its `base` and its number of points. -/
structure Filter where
  N : ℕ
  base : ℕ → ℝ

/-- `1 / pts_per_dec`: the logarithm of the ratio of the first points (`em1d_utils.py` 245-247). -/
def Filter.step (f : Filter) : ℝ := Real.log (f.base 1 / f.base 0)

/-- `nout` (`em1d_utils.py` 242-251). -/
def nout (f : Filter) (vMin vMax : ℝ) : ℕ :=
  let outmax := f.base (f.N - 1) / vMin
  let outmin := f.base 0 / vMax
  let n := (⌈Real.log (outmax / outmin) * (1 / f.step)⌉ + 1).toNat
  if n < f.N + 3 then f.N + 3 else n

/-- `out` (`em1d_utils.py` 252-254), entry `k`. -/
def out (f : Filter) (vMax : ℝ) (k : ℕ) : ℝ := Real.exp (Real.log (f.base 0 / vMax) + k * f.step)

/-- The number of spline points (`em1d_utils.py` 256). -/
def nSpline (f : Filter) (vMin vMax : ℝ) : ℕ := nout f vMin vMax - f.N + 1

/-- `spline_points` (`em1d_utils.py` 256), entry `j`. -/
def spline (f : Filter) (vMax : ℝ) (j : ℕ) : ℝ := vMax * Real.exp (-(j * f.step))

/-- `iuSpline(..., k=5)` (`simulation_1d.py` 149-153): a spline of order 5 needs more than 5 points. -/
def makeSplines (nT : ℕ) : Except Err Unit := if 5 < nT then .ok () else .error .exception

/-! ### The code: transform -/

/-- `A_dft[i, :]` before the rows are reversed (`simulation_1d.py` 142-144). -/
def aDft (f : Filter) (c : ℕ → ℝ) (i k : ℕ) : ℝ :=
  if i ≤ k ∧ k < i + f.N then c (k - i) * (-2 / Real.pi) else 0

/-- `A_dft[::-1]` (`simulation_1d.py` 145) with `nT` rows. -/
def aDftRev (f : Filter) (c : ℕ → ℝ) (nT i k : ℕ) : ℝ := aDft f c (nT - 1 - i) k

/-- The times of the splines: `t_spline_points[::-1]` (`simulation_1d.py` 152). -/
def tSpline (f : Filter) (vMax : ℝ) (nT i : ℕ) : ℝ := spline f vMax (nT - 1 - i)

/-- `func(t, i)` (`simulation_1d.py` 163-170); `tMin` is the smallest spline point, `s` the basis
splines. -/
def func (s : ℕ → ℝ → ℝ) (tMin t : ℝ) (i : ℕ) : ℝ :=
  let t := if 0 < t ∧ t ≤ tMin then tMin else t
  if 0 < t then s i (Real.log t) / t else 0

/-- A datum of a step-off waveform: `A @ A_dft` applied to a spectrum `F` (`simulation_1d.py` 173-178,
204); for fields `F` includes the division by the frequencies (202), the factor `mu_0` (208) is left out. -/
def stepOff (f : Filter) (c : ℕ → ℝ) (s : ℕ → ℝ → ℝ) (vMin vMax : ℝ) (F : ℝ → ℝ) (t : ℝ) : ℝ :=
  let nT := nSpline f vMin vMax
  ∑ i ∈ Finset.range nT, func s (tSpline f vMax nT 0) t i *
    ∑ k ∈ Finset.range (nout f vMin vMax), aDftRev f c nT i k * F (out f vMax k)

/-- The loop over the intervals of another waveform (`simulation_1d.py` 182-200) for a function `g` of
time: `quad g a b` stands for the quadrature over the interval, `rate` for `wave.eval_deriv`. -/
def convolve (quad : (ℝ → ℝ) → ℝ → ℝ → ℝ) (rate g : ℝ → ℝ) (t : ℝ) : List ℝ → ℝ
  | n0 :: n1 :: ns =>
    -(quad (fun s => rate (t - s) * g s) (max (t - n1) 0) (max (t - n0) 0)) + convolve quad rate g t (n1 :: ns)
  | _ => 0

/-- A point of the rule over an interval (`simulation_1d.py` 190): `x` in `[-1, 1]`. -/
def quadTime (a b x : ℝ) : ℝ := (b - a) * (x + 1) / 2 + a

/-- The points of which the range of times is taken (`simulation_1d.py` 124-130). -/
def rangeTime (a b x : ℝ) : ℝ := (b - a) * (x + 1) + a

/-! ### Specification -/

/-- A filter with points that are uniform in their logarithm. -/
def Filter.regular (f : Filter) : Prop :=
  1 ≤ f.N ∧ 0 < f.base 0 ∧ f.base 0 < f.base 1 ∧ ∀ k, f.base k = f.base 0 * (f.base 1 / f.base 0) ^ k

/-- The cosine transform by the filter at the time `t`. -/
def cosTransform (f : Filter) (c : ℕ → ℝ) (F : ℝ → ℝ) (t : ℝ) : ℝ :=
  -2 / Real.pi * (∑ b ∈ Finset.range f.N, c b * F (f.base b / t)) / t

namespace Props

/-! ### Layers -/

theorem layers_get {n : ℕ} (hn : 2 ≤ n) {hz : ℝ} (h : 0 < hz) {i : ℕ} (hi : 0 < i) {j : ℕ} (hj : j < n) :
    (layers n hz i)[j]? = some (hz * (i : ℝ) ^ ((j : ℝ) / ((n : ℝ) - 1))) := by
  have hi' : (0 : ℝ) < i := by exact_mod_cast hi
  have e : (10 : ℝ) ^ (Real.logb 10 hz + j * ((Real.logb 10 (hz * i) - Real.logb 10 hz) / ((n : ℝ) - 1))) =
      hz * (i : ℝ) ^ ((j : ℝ) / ((n : ℝ) - 1)) := by
    rw [Real.logb_mul h.ne' hi'.ne', add_sub_cancel_left, Real.rpow_add (by norm_num),
      Real.rpow_logb (by norm_num) (by norm_num) h]
    congr 1
    rw [show (j : ℝ) * (Real.logb 10 i / ((n : ℝ) - 1)) = Real.logb 10 i * (j / ((n : ℝ) - 1)) by ring,
      Real.rpow_mul (by norm_num), Real.rpow_logb (by norm_num) (by norm_num) hi']
  unfold layers logspace
  rw [List.getElem?_map, List.getElem?_range hj]
  simp only [Option.map_some, show ¬ n = 1 by omega, if_false, e]

theorem layers_length (n : ℕ) (hz : ℝ) (i : ℕ) : (layers n hz i).length = n := by
  simp [layers, logspace]

theorem layers_pos (n : ℕ) (hz : ℝ) (i : ℕ) : ∀ x ∈ layers n hz i, 0 < x := by
  intro x hx
  obtain ⟨j, -, rfl⟩ := List.mem_map.1 hx
  exact Real.rpow_pos_of_pos (by norm_num) _

theorem mem_le_sum {l : List ℝ} (h : ∀ x ∈ l, 0 < x) {x : ℝ} (hx : x ∈ l) : x ≤ l.sum := by
  induction l with
  | nil => simp at hx
  | cons a l ih =>
    have hs : 0 ≤ l.sum := List.sum_nonneg fun y hy => (h y (by simp [hy])).le
    rw [List.sum_cons]
    rcases List.mem_cons.1 hx with rfl | hx
    · linarith
    · have := ih (fun y hy => h y (by simp [hy])) hx
      have := h a (by simp)
      linarith

theorem sum_ge {n : ℕ} (hn : 2 ≤ n) {hz : ℝ} (h : 0 < hz) {i : ℕ} (hi : 0 < i) :
    hz * i ≤ (layers n hz i).sum := by
  have hl := layers_get hn h hi (show n - 1 < n by omega)
  have h1 : ((n - 1 : ℕ) : ℝ) / ((n : ℝ) - 1) = 1 := by
    rw [Nat.cast_sub (by omega)]
    have : (n : ℝ) - 1 ≠ 0 := by
      have : (2 : ℝ) ≤ n := by exact_mod_cast hn
      linarith
    simp only [Nat.cast_one]
    exact div_self this
  rw [h1, Real.rpow_one] at hl
  exact mem_le_sum (layers_pos n hz i) (List.mem_of_getElem? hl)

/-- C146. **Layers**: with at least two layers and a positive smallest thickness the loop ends for every
depth. The thicknesses grow by a constant factor from the smallest one to `i` times that, `i` is at least
4, reach the depth, and do not reach it with the factor before. -/
theorem C146_layers {n : ℕ} (hn : 2 ≤ n) {hz : ℝ} (h : 0 < hz) (zMax : ℝ) :
    (∃ r, Returns n hz zMax 4 r) ∧
    ∀ r, Returns n hz zMax 4 r → ∃ i : ℕ, 4 ≤ i ∧ r.length = n ∧ zMax ≤ r.sum ∧
      (∀ j < n, r[j]? = some (hz * (i : ℝ) ^ ((j : ℝ) / ((n : ℝ) - 1)))) ∧
      (4 < i → (layers n hz (i - 1)).sum < zMax) := by
  constructor
  · obtain ⟨N, hN⟩ := exists_nat_ge (zMax / hz)
    have key : ∀ m i : ℕ, 0 < i → N ≤ i + m → ∃ r, Returns n hz zMax i r := by
      intro m
      induction m with
      | zero =>
        intro i hi hNi
        refine ⟨_, Returns.stop (le_trans ?_ (sum_ge hn h hi))⟩
        have : (N : ℝ) ≤ i := by exact_mod_cast hNi
        rw [div_le_iff₀ h] at hN
        nlinarith
      | succ m ih =>
        intro i hi hNi
        by_cases hs : zMax ≤ (layers n hz i).sum
        · exact ⟨_, Returns.stop hs⟩
        · obtain ⟨r, hr⟩ := ih (i + 1) (by omega) (by omega)
          exact ⟨r, Returns.next (not_le.1 hs) hr⟩
    exact key N 4 (by norm_num) (by omega)
  · have key : ∀ i0 r, Returns n hz zMax i0 r → 4 ≤ i0 → (4 < i0 → (layers n hz (i0 - 1)).sum < zMax) →
        ∃ i : ℕ, 4 ≤ i ∧ r.length = n ∧ zMax ≤ r.sum ∧
          (∀ j < n, r[j]? = some (hz * (i : ℝ) ^ ((j : ℝ) / ((n : ℝ) - 1)))) ∧
          (4 < i → (layers n hz (i - 1)).sum < zMax) := by
      intro i0 r hr
      induction hr with
      | stop hs =>
        intro h4 hp
        exact ⟨_, h4, layers_length _ _ _, hs, fun j hj => layers_get hn h (by omega) hj, hp⟩
      | next hs _ ih =>
        intro h4 _
        exact ih (by omega) (fun _ => by simpa using hs)
    exact fun r hr => key 4 r hr le_rfl (fun h => absurd h (lt_irrefl 4))

/-- C146. **One layer**: the loop does not end if the depth exceeds the smallest thickness. -/
theorem C146_violated_one_layer {hz zMax : ℝ} (h : 0 < hz) (hz' : hz < zMax) :
    ¬ ∃ r, Returns 1 hz zMax 4 r := by
  have hs : ∀ i : ℕ, (layers 1 hz i).sum = hz := by
    intro i
    simp [layers, logspace, List.range_succ, Real.rpow_logb (by norm_num : (0 : ℝ) < 10) (by norm_num) h]
  have key : ∀ i r, Returns 1 hz zMax i r → False := by
    intro i r hr
    induction hr with
    | stop hs' => rw [hs] at hs'; linarith
    | next _ _ ih => exact ih
  rintro ⟨r, hr⟩
  exact key 4 r hr

/-- C146. **Geometric series** of a given factor. -/
theorem C146_geometric (n : ℕ) (dz : ℝ) {factor : ℝ} (h : factor ≠ 1) :
    (geometric n dz factor).length = n ∧ (geometric n dz factor).sum = dz * (factor ^ n - 1) / (factor - 1) := by
  refine ⟨by simp [geometric], ?_⟩
  have h' : factor - 1 ≠ 0 := sub_ne_zero.2 h
  induction n with
  | zero => simp [geometric]
  | succ n ih =>
    have : geometric (n + 1) dz factor = geometric n dz factor ++ [dz * factor ^ n] := by
      simp [geometric, List.range_succ]
    rw [this, List.sum_append, ih, List.sum_singleton]
    field_simp
    ring

/-! ### Filter points -/

theorem step_pos {f : Filter} (h : f.regular) : 0 < f.step :=
  Real.log_pos ((one_lt_div h.2.1).2 h.2.2.1)

theorem base_exp {f : Filter} (h : f.regular) (k : ℕ) : f.base k = f.base 0 * Real.exp (k * f.step) := by
  have hq : 0 < f.base 1 / f.base 0 := div_pos (h.2.1.trans h.2.2.1) h.2.1
  rw [h.2.2.2 k, Filter.step, ← Real.log_pow, Real.exp_log (pow_pos hq k)]

theorem nout_ge (f : Filter) (vMin vMax : ℝ) : f.N + 3 ≤ nout f vMin vMax := by
  unfold nout
  simp only
  split_ifs with h
  · exact le_rfl
  · exact not_lt.1 h

theorem nout_eq {f : Filter} (h : f.regular) {vMin vMax : ℝ} (h0 : 0 < vMin) (h1 : vMin ≤ vMax) :
    nout f vMin vMax = f.N + max 3 ⌈Real.log (vMax / vMin) / f.step⌉.toNat := by
  have hs := step_pos h
  have hv : 0 < vMax := lt_of_lt_of_le h0 h1
  have hN : ((f.N - 1 : ℕ) : ℝ) = (f.N : ℝ) - 1 := by
    rw [Nat.cast_sub h.1, Nat.cast_one]
  have e : Real.log (f.base (f.N - 1) / vMin / (f.base 0 / vMax)) * (1 / f.step) =
      ((f.N : ℝ) - 1) + Real.log (vMax / vMin) / f.step := by
    have hb := h.2.1.ne'
    rw [base_exp h, show f.base 0 * Real.exp (((f.N - 1 : ℕ) : ℝ) * f.step) / vMin / (f.base 0 / vMax) =
      Real.exp (((f.N - 1 : ℕ) : ℝ) * f.step) * (vMax / vMin) by field_simp,
      Real.log_mul (Real.exp_pos _).ne' (div_pos hv h0).ne', Real.log_exp, hN]
    field_simp
  have hl : 0 ≤ Real.log (vMax / vMin) / f.step :=
    div_nonneg (Real.log_nonneg ((one_le_div h0).2 h1)) hs.le
  have e2 : (⌈Real.log (f.base (f.N - 1) / vMin / (f.base 0 / vMax)) * (1 / f.step)⌉ + 1).toNat =
      f.N + ⌈Real.log (vMax / vMin) / f.step⌉.toNat := by
    rw [e, show ((f.N : ℝ) - 1) = (((f.N : ℤ) - 1 : ℤ) : ℝ) by push_cast; ring, Int.ceil_intCast_add]
    have : 0 ≤ ⌈Real.log (vMax / vMin) / f.step⌉ := Int.ceil_nonneg hl
    have := h.1
    omega
  unfold nout
  simp only
  rw [e2]
  split_ifs with hlt
  · rw [max_eq_left (by omega)]
  · rw [max_eq_right (by omega)]

/-- C146. **Filter points**: every point of the filter at every spline time is among the points in the
frequency domain; the spline times fall by the ratio of the filter from `v_max` to `v_min` or below. -/
theorem C146_points {f : Filter} (h : f.regular) {vMin vMax : ℝ} (h0 : 0 < vMin) (h1 : vMin ≤ vMax) :
    (∀ i < f.N, ∀ j < nSpline f vMin vMax, j + i < nout f vMin vMax ∧
      out f vMax (j + i) = f.base i / spline f vMax j) ∧
    spline f vMax 0 = vMax ∧ spline f vMax (nSpline f vMin vMax - 1) ≤ vMin ∧
    (∀ j, spline f vMax (j + 1) < spline f vMax j ∧
      spline f vMax (j + 1) * (f.base 1 / f.base 0) = spline f vMax j) := by
  have hs := step_pos h
  have hv : 0 < vMax := lt_of_lt_of_le h0 h1
  have hq : 0 < f.base 1 / f.base 0 := div_pos (h.2.1.trans h.2.2.1) h.2.1
  refine ⟨?_, ?_, ?_, ?_⟩
  · intro i hi j hj
    unfold nSpline at hj
    have := nout_ge f vMin vMax
    refine ⟨by omega, ?_⟩
    unfold out spline
    rw [base_exp h i, Real.exp_add, Real.exp_log (div_pos h.2.1 hv), Real.exp_neg]
    push_cast
    rw [add_mul, Real.exp_add]
    have := (Real.exp_pos ((j : ℝ) * f.step)).ne'
    field_simp
  · simp [spline]
  · have e := nout_eq h h0 h1
    have hj : nSpline f vMin vMax - 1 = max 3 ⌈Real.log (vMax / vMin) / f.step⌉.toNat := by
      unfold nSpline
      omega
    rw [hj]
    have hc : Real.log (vMax / vMin) / f.step ≤
        ((max 3 ⌈Real.log (vMax / vMin) / f.step⌉.toNat : ℕ) : ℝ) := by
      refine (Int.le_ceil _).trans ?_
      have h5 : ⌈Real.log (vMax / vMin) / f.step⌉ ≤
          ((max 3 ⌈Real.log (vMax / vMin) / f.step⌉.toNat : ℕ) : ℤ) := by omega
      exact_mod_cast h5
    rw [div_le_iff₀ hs] at hc
    unfold spline
    have h2 : Real.exp (-(((max 3 ⌈Real.log (vMax / vMin) / f.step⌉.toNat : ℕ) : ℝ) * f.step)) ≤
        Real.exp (-Real.log (vMax / vMin)) := Real.exp_le_exp.2 (by linarith)
    have h3 : Real.exp (-Real.log (vMax / vMin)) = vMin / vMax := by
      rw [Real.exp_neg, Real.exp_log (div_pos hv h0), inv_div]
    rw [h3] at h2
    calc _ ≤ vMax * (vMin / vMax) := mul_le_mul_of_nonneg_left h2 hv.le
      _ = vMin := by field_simp
  · intro j
    have e : spline f vMax (j + 1) * (f.base 1 / f.base 0) = spline f vMax j := by
      unfold spline
      have : Real.exp f.step = f.base 1 / f.base 0 := by rw [Filter.step, Real.exp_log hq]
      rw [← this, mul_assoc, ← Real.exp_add]
      congr 2
      push_cast
      ring
    refine ⟨?_, e⟩
    have hp : 0 < spline f vMax (j + 1) := mul_pos hv (Real.exp_pos _)
    have : 1 < f.base 1 / f.base 0 := (one_lt_div h.2.1).2 h.2.2.1
    rw [← e]
    nlinarith

/-- C146. **Narrow ranges of times**: if all times are within four ratios of the filter (one time
channel, for instance), there are fewer points than a spline of order 5 needs, and an exception is
raised; otherwise there are enough. -/
theorem C146_violated_narrow {f : Filter} (h : f.regular) {vMin vMax : ℝ} (h0 : 0 < vMin) (h1 : vMin ≤ vMax) :
    (vMax ≤ vMin * (f.base 1 / f.base 0) ^ 4 → makeSplines (nSpline f vMin vMax) = .error .exception) ∧
    (vMin * (f.base 1 / f.base 0) ^ 4 < vMax → makeSplines (nSpline f vMin vMax) = .ok ()) := by
  have hs := step_pos h
  have hv : 0 < vMax := lt_of_lt_of_le h0 h1
  have hq : 0 < f.base 1 / f.base 0 := div_pos (h.2.1.trans h.2.2.1) h.2.1
  have e := nout_eq h h0 h1
  have hn : nSpline f vMin vMax = max 3 ⌈Real.log (vMax / vMin) / f.step⌉.toNat + 1 := by
    unfold nSpline
    omega
  have hlog : Real.log ((f.base 1 / f.base 0) ^ 4) = 4 * f.step := by
    rw [Real.log_pow, Filter.step]
    norm_num
  constructor
  · intro hle
    have h2 : Real.log (vMax / vMin) ≤ 4 * f.step := by
      rw [← hlog]
      exact Real.log_le_log (div_pos hv h0) ((div_le_iff₀ h0).2 (by linarith))
    have h3 : ⌈Real.log (vMax / vMin) / f.step⌉ ≤ 4 := by
      rw [Int.ceil_le]
      push_cast
      rwa [div_le_iff₀ hs]
    unfold makeSplines
    rw [if_neg (by omega)]
  · intro hlt
    have h2 : 4 * f.step < Real.log (vMax / vMin) := by
      rw [← hlog]
      exact Real.log_lt_log (pow_pos hq 4) ((lt_div_iff₀ h0).2 (by linarith))
    have h3 : 4 < ⌈Real.log (vMax / vMin) / f.step⌉ := by
      rw [Int.lt_ceil]
      push_cast
      rwa [lt_div_iff₀ hs]
    unfold makeSplines
    rw [if_pos (by omega)]

/-! ### Transform -/

theorem row_sum {f : Filter} (h : f.regular) (c : ℕ → ℝ) {vMin vMax : ℝ} (h0 : 0 < vMin) (h1 : vMin ≤ vMax)
    (F : ℝ → ℝ) {i : ℕ} (hi : i < nSpline f vMin vMax) :
    ∑ k ∈ Finset.range (nout f vMin vMax), aDftRev f c (nSpline f vMin vMax) i k * F (out f vMax k) =
      -2 / Real.pi * ∑ b ∈ Finset.range f.N, c b * F (f.base b / tSpline f vMax (nSpline f vMin vMax) i) := by
  have hn := nout_ge f vMin vMax
  set j := nSpline f vMin vMax - 1 - i with hj
  have hjn : j < nSpline f vMin vMax := by omega
  have hjN : j + f.N ≤ nout f vMin vMax := by
    unfold nSpline at hjn
    omega
  have hsub : (Finset.range f.N).image (fun b => j + b) ⊆ Finset.range (nout f vMin vMax) := by
    intro k hk
    obtain ⟨b, hb, rfl⟩ := Finset.mem_image.1 hk
    have := Finset.mem_range.1 hb
    exact Finset.mem_range.2 (by omega)
  rw [← Finset.sum_subset hsub]
  · rw [Finset.sum_image (by intro a _ b _ hab; simpa using hab), Finset.mul_sum]
    refine Finset.sum_congr rfl fun b hb => ?_
    have hb := Finset.mem_range.1 hb
    have hp := ((C146_points h h0 h1).1 b hb j hjn).2
    unfold aDftRev aDft tSpline
    rw [← hj, if_pos (by omega), hp, Nat.add_sub_cancel_left]
    ring
  · intro k _ hk
    unfold aDftRev aDft
    rw [← hj, if_neg, zero_mul]
    intro hc
    exact hk (Finset.mem_image.2 ⟨k - j, Finset.mem_range.2 (by omega), by omega⟩)

theorem func_low (s : ℕ → ℝ → ℝ) {tMin t : ℝ} (ht : 0 < t) (hle : t ≤ tMin) (i : ℕ) :
    func s tMin t i = s i (Real.log tMin) / tMin := by
  have e : (if 0 < t ∧ t ≤ tMin then tMin else t) = tMin := if_pos ⟨ht, hle⟩
  unfold func
  simp only [e]
  exact if_pos (ht.trans_le hle)

theorem func_high (s : ℕ → ℝ → ℝ) {tMin t : ℝ} (ht : 0 < t) (hle : tMin ≤ t) (i : ℕ) :
    func s tMin t i = s i (Real.log t) / t := by
  have e : (if 0 < t ∧ t ≤ tMin then tMin else t) = t := by
    split_ifs with hc
    · exact le_antisymm hle hc.2
    · rfl
  unfold func
  simp only [e]
  exact if_pos ht

theorem func_zero (s : ℕ → ℝ → ℝ) {tMin t : ℝ} (ht : t ≤ 0) (i : ℕ) : func s tMin t i = 0 := by
  have e : (if 0 < t ∧ t ≤ tMin then tMin else t) = t := if_neg fun hc => not_lt.2 ht hc.1
  unfold func
  simp only [e]
  exact if_neg (not_lt.2 ht)

/-- C146. **Step-off waveforms**: at the spline times the datum is the cosine transform of the spectrum
by the filter, if the basis splines interpolate; it is 0 up to time 0, and divided by the smallest
spline time before that. -/
theorem C146_step_off {f : Filter} (h : f.regular) (c : ℕ → ℝ) (s : ℕ → ℝ → ℝ) {vMin vMax : ℝ} (h0 : 0 < vMin)
    (h1 : vMin ≤ vMax) (F : ℝ → ℝ)
    (hs : ∀ i j, i < nSpline f vMin vMax → j < nSpline f vMin vMax →
      s i (Real.log (tSpline f vMax (nSpline f vMin vMax) j)) = if i = j then 1 else 0) :
    (∀ j < nSpline f vMin vMax, stepOff f c s vMin vMax F (tSpline f vMax (nSpline f vMin vMax) j) =
      cosTransform f c F (tSpline f vMax (nSpline f vMin vMax) j)) ∧
    (∀ t ≤ 0, stepOff f c s vMin vMax F t = 0) ∧
    (∀ t, 0 < t → t ≤ tSpline f vMax (nSpline f vMin vMax) 0 → stepOff f c s vMin vMax F t =
      cosTransform f c F (tSpline f vMax (nSpline f vMin vMax) 0)) := by
  have hv : 0 < vMax := lt_of_lt_of_le h0 h1
  have hst := step_pos h
  set nT := nSpline f vMin vMax with hnT
  have hpos : ∀ j, 0 < tSpline f vMax nT j := fun j => mul_pos hv (Real.exp_pos _)
  have hmono : ∀ j < nT, tSpline f vMax nT 0 ≤ tSpline f vMax nT j := by
    intro j hj
    unfold tSpline spline
    refine mul_le_mul_of_nonneg_left (Real.exp_le_exp.2 ?_) hv.le
    have : ((nT - 1 - j : ℕ) : ℝ) ≤ ((nT - 1 - 0 : ℕ) : ℝ) := by exact_mod_cast (by omega)
    nlinarith
  have hnp : 0 < nT := by
    rw [hnT]
    unfold nSpline
    omega
  have main : ∀ j < nT, stepOff f c s vMin vMax F (tSpline f vMax nT j) =
      cosTransform f c F (tSpline f vMax nT j) := by
    intro j hj
    unfold stepOff cosTransform
    simp only
    rw [← hnT, Finset.sum_eq_single j]
    · rw [row_sum h c h0 h1 F hj]
      have hf : func s (tSpline f vMax nT 0) (tSpline f vMax nT j) j = 1 / tSpline f vMax nT j := by
        rw [func_high s (hpos j) (hmono j hj), hs j j hj hj, if_pos rfl]
      rw [hf]
      ring
    · intro i hi hij
      have hi := Finset.mem_range.1 hi
      have hf : func s (tSpline f vMax nT 0) (tSpline f vMax nT j) i = 0 := by
        rw [func_high s (hpos j) (hmono j hj), hs i j hi hj, if_neg hij, zero_div]
      rw [hf, zero_mul]
    · intro hn
      exact absurd (Finset.mem_range.2 hj) hn
  refine ⟨main, ?_, ?_⟩
  · intro t ht
    unfold stepOff
    simp only
    refine Finset.sum_eq_zero fun i _ => ?_
    rw [← hnT, func_zero s ht, zero_mul]
  · intro t ht hle
    rw [← main 0 hnp]
    unfold stepOff
    simp only
    rw [← hnT]
    refine Finset.sum_congr rfl fun i _ => ?_
    congr 1
    rw [func_low s ht hle, func_low s (hpos 0) le_rfl]

/-! ### Waveforms -/

/-- C146. **Waveforms**: with exact quadratures over the intervals between the times of a waveform, the
datum is minus the integral of the rate of the current times the step response over the past. -/
theorem C146_waveform (rate g : ℝ → ℝ) (t : ℝ) (n0 : ℝ) (ns : List ℝ)
    (hsort : (n0 :: ns).Pairwise (· ≤ ·))
    (hi : ∀ a b, IntervalIntegrable (fun s => rate (t - s) * g s) MeasureTheory.volume a b) :
    convolve (fun f a b => ∫ s in a..b, f s) rate g t (n0 :: ns) =
      -∫ s in (max (t - (n0 :: ns).getLast (by simp)) 0)..(max (t - n0) 0), rate (t - s) * g s := by
  induction ns generalizing n0 with
  | nil => simp [convolve]
  | cons n1 ns ih =>
    rw [convolve, ih n1 (List.Pairwise.tail hsort)]
    have hlast : (n0 :: n1 :: ns).getLast (by simp) = (n1 :: ns).getLast (by simp) :=
      List.getLast_cons (by simp)
    rw [hlast, ← neg_add, add_comm,
      intervalIntegral.integral_add_adjacent_intervals (hi _ _) (hi _ _)]

/-- C146. **Times before the current changes**: 0. -/
theorem C146_waveform_before (rate g : ℝ → ℝ) (t : ℝ) (ns : List ℝ) (h : ∀ x ∈ ns, t ≤ x) :
    convolve (fun f a b => ∫ s in a..b, f s) rate g t ns = 0 := by
  induction ns with
  | nil => rfl
  | cons n0 ns ih =>
    cases ns with
    | nil => rfl
    | cons n1 ns =>
      have e0 : max (t - n0) 0 = 0 := max_eq_right (by linarith [h n0 (by simp)])
      have e1 : max (t - n1) 0 = 0 := max_eq_right (by linarith [h n1 (by simp)])
      rw [convolve, ih (fun x hx => h x (by simp [hx])), e0, e1]
      simp

/-- C146. **Range of times**: the points of which the range is taken are not those of the quadrature,
but twice as far from the start of the interval: the largest is covered. -/
theorem C146_range_partial {a b x : ℝ} (hab : a ≤ b) (hx : -1 ≤ x) : quadTime a b x ≤ rangeTime a b x := by
  unfold quadTime rangeTime
  nlinarith [mul_nonneg (sub_nonneg.2 hab) (by linarith : (0 : ℝ) ≤ x + 1)]

/-- C146. **Range of times**: the smallest is not; for an interval that starts at 0 it is half of that
of the range. -/
theorem C146_violated_range {b x : ℝ} (hb : 0 < b) (hx : -1 < x) :
    quadTime 0 b x = rangeTime 0 b x / 2 ∧ quadTime 0 b x < rangeTime 0 b x := by
  unfold quadTime rangeTime
  have : 0 < b * (x + 1) := mul_pos hb (by linarith)
  constructor
  · ring
  · nlinarith

/-! ### Cases -/

/-- A filter of three points with ratio 2. -/
def filt : Filter := ⟨3, fun k => 2 ^ k⟩

theorem filt_regular : filt.regular := by
  refine ⟨by decide, ?_, ?_, fun k => ?_⟩ <;> norm_num [filt]

example : makeSplines (nSpline filt 1 16) = .error .exception :=
  (C146_violated_narrow filt_regular one_pos (by norm_num)).1 (by norm_num [filt])

example : makeSplines (nSpline filt 1 17) = .ok () :=
  (C146_violated_narrow filt_regular one_pos (by norm_num)).2 (by norm_num [filt])

example : ∃ r, Returns 2 1 100 4 r := (C146_layers le_rfl one_pos 100).1

end Props
end Verif.EM.Discretization
