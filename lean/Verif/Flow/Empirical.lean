import Verif.Jacobian
import Verif.Flow.Richards
import Mathlib.Analysis.SpecialFunctions.Pow.Deriv
import Mathlib.Analysis.Calculus.Deriv.Abs
import Mathlib.Data.Real.Sign
import Mathlib.Tactic.Linarith
import Mathlib.Tactic.FieldSimp

/-! Model of the empirical curves of `simpeg/flow/richards/empirical.py`, one cell at a time:
values, derivatives with respect to the pressure head and with respect to every parameter. -/

noncomputable section
namespace Verif.Flow.Empirical
open Verif Matrix Real

/-- `x[u >= 0] = y`. -/
def atSat (u y x : ℝ) : ℝ := if 0 ≤ u then y else x

/-! ### Haverkamp -/

/-- `Haverkamp_theta.__call__` (127-136). -/
def hTheta (thr ths al be u : ℝ) : ℝ :=
  atSat u ths (al * (ths - thr) / (al + |u| ^ be) + thr)

/-- `_derivTheta_r` (163-170): `ddm`. -/
def hTheta_r (al be u : ℝ) : ℝ := atSat u 0 (-al / (al + |u| ^ be) + 1)

/-- `_derivTheta_s` (172-179): the diagonal of `P_p + P_n sdiag(...)`. -/
def hTheta_s (al be u : ℝ) : ℝ := atSat u 1 (al / (al + |u| ^ be))

/-- `_derivAlpha` (181-190). -/
def hTheta_al (thr ths al be u : ℝ) : ℝ :=
  atSat u 0 (-al * (-thr + ths) / (al + |u| ^ be) ^ 2 + (-thr + ths) / (al + |u| ^ be))

/-- `_derivBeta` (192-205). -/
def hTheta_be (thr ths al be u : ℝ) : ℝ :=
  atSat u 0 (-al * (-thr + ths) * log |u| * |u| ^ be / (al + |u| ^ be) ^ 2)

/-- `derivU` (207-217). -/
def hTheta_u (thr ths al be u : ℝ) : ℝ :=
  atSat u 0 (al * ((ths - thr) / (al + |u| ^ be) ^ 2) * (-be * |u| ^ (be - 1) * Real.sign u))

/-- `Haverkamp_k.__call__` (249-254). -/
def hK (Ks A ga u : ℝ) : ℝ := atSat u Ks (Ks * A / (A + |u| ^ ga))

/-- `derivU` (256-262). -/
def hK_u (Ks A ga u : ℝ) : ℝ :=
  atSat u 0 (-(Ks * A * ga * |u| ^ (ga - 1) * Real.sign u) / ((A + |u| ^ ga) ^ 2))

/-- `_derivKs` (267-276). -/
def hK_Ks (A ga u : ℝ) : ℝ := atSat u 1 (A / (A + |u| ^ ga))

/-- `_derivA` (278-285). -/
def hK_A (Ks A ga u : ℝ) : ℝ :=
  atSat u 0 (Ks / (A + |u| ^ ga) - Ks * A / (A + |u| ^ ga) ^ 2)

/-- `_derivGamma` (287-294). -/
def hK_ga (Ks A ga u : ℝ) : ℝ :=
  atSat u 0 (-(A * Ks * log |u| * |u| ^ ga) / (A + |u| ^ ga) ^ 2)

/-! ### Van Genuchten -/

/-- `Vangenuchten_theta.__call__` (371-381). -/
def vTheta (thr ths al n u : ℝ) : ℝ :=
  atSat u ths ((ths - thr) / ((1 + |al * u| ^ n) ^ (1 - 1 / n)) + thr)

/-- `_derivTheta_r` (413-420). -/
def vTheta_r (al n u : ℝ) : ℝ := atSat u 0 (-((|al * u| ^ n + 1) ^ (-1 + 1 / n)) + 1)

/-- `_derivTheta_s` (422-433). -/
def vTheta_s (al n u : ℝ) : ℝ := atSat u 1 ((|al * u| ^ n + 1) ^ (-1 + 1 / n))

/-- `_derivN` (435-453). -/
def vTheta_n (thr ths al n u : ℝ) : ℝ :=
  atSat u 0 ((-thr + ths) *
    ((-1 + 1 / n) * log |al * u| * |al * u| ^ n / (|al * u| ^ n + 1) -
      1 * log (|al * u| ^ n + 1) / n ^ 2) *
    (|al * u| ^ n + 1) ^ (-1 + 1 / n))

/-- `_derivAlpha` (455-472). -/
def vTheta_al (thr ths al n u : ℝ) : ℝ :=
  atSat u 0 (n * u * (-1 + 1 / n) * (-thr + ths) * (|al * u| ^ n + 1) ^ (-1 + 1 / n) *
    |al * u| ^ n * Real.sign (al * u) / ((|al * u| ^ n + 1) * |al * u|))

/-- `derivU` (474-486). -/
def vTheta_u (thr ths al n u : ℝ) : ℝ :=
  atSat u 0 (-al * n * |al * u| ^ (n - 1) * Real.sign (al * u) * (1 / n - 1) * (thr - ths) *
    (|al * u| ^ n + 1) ^ (1 / n - 2))

/-- `Vangenuchten_k.__call__` (523-538); `m` as in `_get_params`. -/
def vK (Ks al I n u : ℝ) : ℝ :=
  let m := 1 - 1 / n
  let te := 1 / ((1 + |al * u| ^ n) ^ m)
  atSat u Ks (Ks * te ^ I * ((1 - (1 - te ^ (1 / m)) ^ m) ^ 2))

/-- `_derivKs` (569-583). -/
def vK_Ks (al I n u : ℝ) : ℝ :=
  let m := 1 - 1 / n
  let te := 1 / ((1 + |al * u| ^ n) ^ m)
  atSat u 1 (te ^ I * ((1 - (1 - te ^ (1 / m)) ^ m) ^ 2))

/-- The expression `_derivAlpha` (585-634) and `derivU` (762-807) share, with `x = u` and
`x = alpha`. -/
def vK_prod (x Ks al I n u : ℝ) : ℝ :=
  let Y := |al * u| ^ n + 1
  let B := 1 - 1 / (Y ^ (1 / n - 1)) ^ (1 / (1 / n - 1))
  atSat u 0
    (I * x * n * Ks * |al * u| ^ (n - 1) * Real.sign (al * u) * (1 / n - 1) *
        (Y ^ (1 / n - 1)) ^ (I - 1) * (B ^ (1 - 1 / n) - 1) ^ 2 * Y ^ (1 / n - 2) -
      (2 * x * n * Ks * |al * u| ^ (n - 1) * Real.sign (al * u) * (1 / n - 1) *
        (Y ^ (1 / n - 1)) ^ I * (B ^ (1 - 1 / n) - 1) * Y ^ (1 / n - 2)) /
        ((Y ^ (1 / n - 1)) ^ (1 / (1 / n - 1) + 1) * B ^ (1 / n)))

/-- `_derivAlpha` (585-634). -/
def vK_al (Ks al I n u : ℝ) : ℝ := vK_prod u Ks al I n u

/-- `derivU` (762-807). -/
def vK_u (Ks al I n u : ℝ) : ℝ := vK_prod al Ks al I n u

/-- `_derivN` (636-731). -/
def vK_n (Ks al I n u : ℝ) : ℝ :=
  let X := |al * u| ^ n
  let te := 1 * (X + 1) ^ (-1 + 1 / n)
  let B := -(te ^ (1 / (1 - 1 / n))) + 1
  let L := (-1 + 1 / n) * log |al * u| * X / (X + 1) - 1 * log (X + 1) / n ^ 2
  atSat u 0
    (1 * I * Ks * te ^ I * L * (-(B ^ (1 - 1 / n)) + 1) ^ 2 *
        (X + 1) ^ (-1 + 1 / n) * (X + 1) ^ (1 - 1 / n) -
      2 * Ks * te ^ I * B ^ (1 - 1 / n) *
        (-(te ^ (1 / (1 - 1 / n))) * (1 - 1 / n) *
            (1 * L * (X + 1) ^ (-1 + 1 / n) * (X + 1) ^ (1 - 1 / n) / (1 - 1 / n) -
              1 * log te / (n ^ 2 * (1 - 1 / n) ^ 2)) / B +
          1 * log B / n ^ 2) *
        (-(B ^ (1 - 1 / n)) + 1))

/-- `_derivI` (733-760). -/
def vK_I (Ks al I n u : ℝ) : ℝ :=
  let te := 1 * (|al * u| ^ n + 1) ^ (-1 + 1 / n)
  let B := -(te ^ (1 / (1 - 1 / n))) + 1
  atSat u 0 (Ks * te ^ I * (-(B ^ (1 - 1 / n)) + 1) ^ 2 * log te)

namespace Props

variable {E : Type*} [NormedAddCommGroup E] [NormedSpace ℝ E] {x : E}

/-- A value chosen by the sign of the head has the derivative chosen the same way. -/
theorem atSat_deriv {u f g : E → ℝ} {u' f' g' : E →L[ℝ] ℝ} (hu : HasFDerivAt u u' x)
    (h0 : u x ≠ 0) (hf : 0 < u x → HasFDerivAt f f' x) (hg : u x < 0 → HasFDerivAt g g' x) :
    HasFDerivAt (fun y => atSat (u y) (f y) (g y)) (if 0 ≤ u x then f' else g') x := by
  have hc : ContinuousAt u x := hu.continuousAt
  rcases lt_or_gt_of_ne h0 with h | h
  · rw [if_neg (not_le.mpr h)]
    refine (hg h).congr_of_eventuallyEq ?_
    filter_upwards [hc.eventually_lt continuousAt_const h] with y hy
    simp [atSat, not_le.mpr hy]
  · rw [if_pos h.le]
    refine (hf h).congr_of_eventuallyEq ?_
    filter_upwards [(continuousAt_const (y := (0:ℝ))).eventually_lt hc h] with y hy
    simp [atSat, hy.le]

theorem abs_deriv {u : E → ℝ} {u' : E →L[ℝ] ℝ} (hu : HasFDerivAt u u' x) (h0 : u x ≠ 0) :
    HasFDerivAt (fun y => |u y|) (Real.sign (u x) • u') x := by
  rcases lt_or_gt_of_ne h0 with h | h
  · rw [Real.sign_of_neg h]
    exact (hasDerivAt_abs_neg h).comp_hasFDerivAt x hu
  · rw [Real.sign_of_pos h]
    exact (hasDerivAt_abs_pos h).comp_hasFDerivAt x hu

theorem inv_deriv {u : E → ℝ} {u' : E →L[ℝ] ℝ} (hu : HasFDerivAt u u' x) (h0 : u x ≠ 0) :
    HasFDerivAt (fun y => (u y)⁻¹) ((-(u x ^ 2)⁻¹) • u') x :=
  (hasDerivAt_inv h0).comp_hasFDerivAt x hu

/-- C61. Along any differentiable change of parameters and head, the Haverkamp water retention
curve changes as its derivatives say. -/
theorem C61_haverkamp_theta {thr ths al be u : E → ℝ} {thr' ths' al' be' u' : E →L[ℝ] ℝ}
    (hr : HasFDerivAt thr thr' x) (hs : HasFDerivAt ths ths' x) (ha : HasFDerivAt al al' x)
    (hb : HasFDerivAt be be' x) (hu : HasFDerivAt u u' x) (h0 : u x ≠ 0) (hpos : 0 < al x) :
    HasFDerivAt (fun y => hTheta (thr y) (ths y) (al y) (be y) (u y))
      (hTheta_r (al x) (be x) (u x) • thr' + hTheta_s (al x) (be x) (u x) • ths' +
        hTheta_al (thr x) (ths x) (al x) (be x) (u x) • al' +
        hTheta_be (thr x) (ths x) (al x) (be x) (u x) • be' +
        hTheta_u (thr x) (ths x) (al x) (be x) (u x) • u') x := by
  have hX := (abs_deriv hu h0).rpow hb (abs_pos.mpr h0)
  have hXpos : 0 < |u x| ^ be x := rpow_pos_of_pos (abs_pos.mpr h0) _
  have hne : al x + |u x| ^ be x ≠ 0 := by positivity
  have hinv := inv_deriv (ha.add hX) hne
  have tot := ((ha.mul (hs.sub hr)).mul hinv).add hr
  have key := atSat_deriv hu h0 (fun _ => hs) (fun _ => tot)
  refine (key.congr_fderiv ?_)
  unfold hTheta_r hTheta_s hTheta_al hTheta_be hTheta_u atSat
  by_cases h : 0 ≤ u x
  · simp [h]
  · simp only [h, if_false]
    ext v
    simp
    field_simp
    ring

/-- C61. The same for the Haverkamp conductivity. -/
theorem C61_haverkamp_k {Ks A ga u : E → ℝ} {Ks' A' ga' u' : E →L[ℝ] ℝ}
    (hk : HasFDerivAt Ks Ks' x) (ha : HasFDerivAt A A' x)
    (hg : HasFDerivAt ga ga' x) (hu : HasFDerivAt u u' x) (h0 : u x ≠ 0) (hpos : 0 < A x) :
    HasFDerivAt (fun y => hK (Ks y) (A y) (ga y) (u y))
      (hK_Ks (A x) (ga x) (u x) • Ks' + hK_A (Ks x) (A x) (ga x) (u x) • A' +
        hK_ga (Ks x) (A x) (ga x) (u x) • ga' + hK_u (Ks x) (A x) (ga x) (u x) • u') x := by
  have hX := (abs_deriv hu h0).rpow hg (abs_pos.mpr h0)
  have hXpos : 0 < |u x| ^ ga x := rpow_pos_of_pos (abs_pos.mpr h0) _
  have hne : A x + |u x| ^ ga x ≠ 0 := by positivity
  have hinv := inv_deriv (ha.add hX) hne
  have tot := (hk.mul ha).mul hinv
  have key := atSat_deriv hu h0 (fun _ => hk) (fun _ => tot)
  refine (key.congr_fderiv ?_)
  unfold hK_Ks hK_A hK_ga hK_u atSat
  by_cases h : 0 ≤ u x
  · simp [h]
  · simp only [h, if_false]
    ext v
    simp
    field_simp
    ring

/-- The parts of the Van Genuchten curves: `|alpha u| ^ n`. -/
theorem vX_deriv {al n u : E → ℝ} {al' n' u' : E →L[ℝ] ℝ} (ha : HasFDerivAt al al' x)
    (hn : HasFDerivAt n n' x) (hu : HasFDerivAt u u' x) (h0 : al x * u x ≠ 0) :
    HasFDerivAt (fun y => |al y * u y| ^ n y)
      ((n x * |al x * u x| ^ n x / |al x * u x| * Real.sign (al x * u x)) •
          (al x • u' + u x • al') +
        (|al x * u x| ^ n x * log |al x * u x|) • n') x := by
  have hw : 0 < |al x * u x| := abs_pos.mpr h0
  have h := (abs_deriv (ha.fun_mul hu) h0).rpow hn hw
  refine h.congr_fderiv ?_
  rw [rpow_sub_one hw.ne']
  ext v
  simp
  field_simp

theorem vm_deriv {n : E → ℝ} {n' : E →L[ℝ] ℝ} (hn : HasFDerivAt n n' x) (h0 : n x ≠ 0) :
    HasFDerivAt (fun y => 1 - 1 / n y) ((n x ^ 2)⁻¹ • n') x := by
  have h := (inv_deriv hn h0).const_sub 1
  simp only [one_div]
  refine h.congr_fderiv ?_
  ext v
  simp

/-- C61. The same for the Van Genuchten water retention curve. -/
theorem C61_vangenuchten_theta {thr ths al n u : E → ℝ} {thr' ths' al' n' u' : E →L[ℝ] ℝ}
    (hr : HasFDerivAt thr thr' x) (hs : HasFDerivAt ths ths' x) (ha : HasFDerivAt al al' x)
    (hn : HasFDerivAt n n' x) (hu : HasFDerivAt u u' x) (h0 : u x ≠ 0) (ha0 : al x ≠ 0)
    (hn0 : n x ≠ 0) :
    HasFDerivAt (fun y => vTheta (thr y) (ths y) (al y) (n y) (u y))
      (vTheta_r (al x) (n x) (u x) • thr' + vTheta_s (al x) (n x) (u x) • ths' +
        vTheta_n (thr x) (ths x) (al x) (n x) (u x) • n' +
        vTheta_al (thr x) (ths x) (al x) (n x) (u x) • al' +
        vTheta_u (thr x) (ths x) (al x) (n x) (u x) • u') x := by
  have hau : al x * u x ≠ 0 := mul_ne_zero ha0 h0
  have hw : 0 < |al x * u x| := abs_pos.mpr hau
  have hXpos : 0 < |al x * u x| ^ n x := rpow_pos_of_pos hw _
  have hYpos : 0 < 1 + |al x * u x| ^ n x := by positivity
  have hY := (vX_deriv ha hn hu hau).const_add 1
  have hm := vm_deriv hn hn0
  have hθ := hY.rpow hm hYpos
  have hθpos : 0 < (1 + |al x * u x| ^ n x) ^ (1 - 1 / n x) := rpow_pos_of_pos hYpos _
  have tot := ((hs.sub hr).mul (inv_deriv hθ hθpos.ne')).add hr
  have key := atSat_deriv hu h0 (fun _ => hs) (fun _ => tot)
  refine (key.congr_fderiv ?_)
  unfold vTheta_r vTheta_s vTheta_al vTheta_n vTheta_u atSat
  by_cases h : 0 ≤ u x
  · simp [h]
  · simp only [h, if_false]
    have e1 : (|al x * u x| ^ n x + 1) = 1 + |al x * u x| ^ n x := add_comm _ _
    have e2 : (1 + |al x * u x| ^ n x) ^ (-1 + 1 / n x) =
        ((1 + |al x * u x| ^ n x) ^ (1 - 1 / n x))⁻¹ := by
      rw [← rpow_neg hYpos.le]; congr 1; ring
    have e3 : (1 + |al x * u x| ^ n x) ^ (1 / n x - 2) =
        ((1 + |al x * u x| ^ n x) ^ (1 - 1 / n x))⁻¹ / (1 + |al x * u x| ^ n x) := by
      rw [← rpow_neg hYpos.le, ← rpow_sub_one hYpos.ne']; congr 1; ring
    have e4 : |al x * u x| ^ (n x - 1) = |al x * u x| ^ n x / |al x * u x| := rpow_sub_one hw.ne' _
    rw [e1, e2, e3, e4, rpow_sub_one hYpos.ne']
    generalize (1 + |al x * u x| ^ n x) ^ (1 - 1 / n x) = θ at hθpos ⊢
    generalize hY' : 1 + |al x * u x| ^ n x = Y at hYpos ⊢
    generalize log Y = lY
    generalize |al x * u x| ^ n x = X at hXpos ⊢
    generalize log |al x * u x| = lw
    generalize |al x * u x| = w at hw ⊢
    generalize Real.sign (al x * u x) = sg
    ext v
    simp
    field_simp
    ring

/-- C61. The same for the Van Genuchten conductivity, if `n` is neither `0` nor `1`. -/
theorem C61_vangenuchten_k {Ks al I n u : E → ℝ} {Ks' al' I' n' u' : E →L[ℝ] ℝ}
    (hk : HasFDerivAt Ks Ks' x) (ha : HasFDerivAt al al' x) (hI : HasFDerivAt I I' x)
    (hn : HasFDerivAt n n' x) (hu : HasFDerivAt u u' x) (h0 : u x ≠ 0) (ha0 : al x ≠ 0)
    (hn0 : n x ≠ 0) (hn1 : n x ≠ 1) :
    HasFDerivAt (fun y => vK (Ks y) (al y) (I y) (n y) (u y))
      (vK_Ks (al x) (I x) (n x) (u x) • Ks' + vK_I (Ks x) (al x) (I x) (n x) (u x) • I' +
        vK_n (Ks x) (al x) (I x) (n x) (u x) • n' +
        vK_al (Ks x) (al x) (I x) (n x) (u x) • al' +
        vK_u (Ks x) (al x) (I x) (n x) (u x) • u') x := by
  have hau : al x * u x ≠ 0 := mul_ne_zero ha0 h0
  have hw : 0 < |al x * u x| := abs_pos.mpr hau
  have hXpos : 0 < |al x * u x| ^ n x := rpow_pos_of_pos hw _
  have hYpos : 0 < 1 + |al x * u x| ^ n x := by positivity
  have hY := (vX_deriv ha hn hu hau).const_add 1
  have hm := vm_deriv hn hn0
  have hm0 : 1 - 1 / n x ≠ 0 := by
    intro e
    rw [sub_eq_zero, eq_div_iff hn0, one_mul] at e
    exact hn1 e
  have hθ := hY.rpow hm.fun_neg hYpos
  have hθpos : 0 < (1 + |al x * u x| ^ n x) ^ (-(1 - 1 / n x)) := rpow_pos_of_pos hYpos _
  have hP := hθ.rpow hI hθpos
  have hS := (inv_deriv hY hYpos.ne').const_sub 1
  have hSpos : 0 < 1 - (1 + |al x * u x| ^ n x)⁻¹ := by
    rw [sub_pos]
    exact inv_lt_one_of_one_lt₀ (by linarith)
  have hQ := (hS.rpow hm hSpos).const_sub 1
  have tot := (hk.fun_mul hP).fun_mul (hQ.fun_mul hQ)
  -- the code's expression agrees with this form nearby
  have hev : ∀ᶠ y in nhds x, Ks y * (1 / ((1 + |al y * u y| ^ n y) ^ (1 - 1 / n y))) ^ I y *
      ((1 - (1 - (1 / ((1 + |al y * u y| ^ n y) ^ (1 - 1 / n y))) ^ (1 / (1 - 1 / n y))) ^
        (1 - 1 / n y)) ^ 2) =
      Ks y * ((1 + |al y * u y| ^ n y) ^ (-(1 - 1 / n y))) ^ I y *
        ((1 - (1 - (1 + |al y * u y| ^ n y)⁻¹) ^ (1 - 1 / n y)) *
          (1 - (1 - (1 + |al y * u y| ^ n y)⁻¹) ^ (1 - 1 / n y))) := by
    filter_upwards [hY.continuousAt.eventually_ne hYpos.ne',
      hm.continuousAt.eventually_ne hm0] with y _ hmy
    have hYy : 0 < 1 + |al y * u y| ^ n y := by
      have : 0 ≤ |al y * u y| ^ n y := rpow_nonneg (abs_nonneg _) _
      linarith
    have a1 : 1 / (1 + |al y * u y| ^ n y) ^ (1 - 1 / n y) =
        (1 + |al y * u y| ^ n y) ^ (-(1 - 1 / n y)) := by
      rw [rpow_neg hYy.le, one_div]
    have a2 : ((1 + |al y * u y| ^ n y) ^ (-(1 - 1 / n y))) ^ (1 / (1 - 1 / n y)) =
        (1 + |al y * u y| ^ n y)⁻¹ := by
      rw [← rpow_mul hYy.le, ← rpow_neg_one]
      congr 1
      field_simp
    rw [a1, a2, sq]
  have tot' := tot.congr_of_eventuallyEq hev
  have key := atSat_deriv hu h0 (fun _ => hk) (fun _ => tot')
  refine (key.congr_fderiv ?_)
  clear key tot' tot hev hQ hP hS hθ hm hY
  unfold vK_Ks vK_I vK_n vK_al vK_u vK_prod atSat
  by_cases h : 0 ≤ u x
  · simp [h]
  · simp only [h, if_false, one_mul]
    have e1 : (|al x * u x| ^ n x + 1) = 1 + |al x * u x| ^ n x := add_comm _ _
    rw [e1]
    have e2 : (1 + |al x * u x| ^ n x) ^ (-1 + 1 / n x) =
        (1 + |al x * u x| ^ n x) ^ (-(1 - 1 / n x)) := by
      congr 1; ring
    have e2' : (1 + |al x * u x| ^ n x) ^ (1 / n x - 1) =
        (1 + |al x * u x| ^ n x) ^ (-(1 - 1 / n x)) := by
      congr 1; ring
    have e2'' : 1 / (1 + |al x * u x| ^ n x) ^ (1 - 1 / n x) =
        (1 + |al x * u x| ^ n x) ^ (-(1 - 1 / n x)) := by
      rw [rpow_neg hYpos.le, one_div]
    have e2''' : (1 + |al x * u x| ^ n x) ^ (1 - 1 / n x) =
        ((1 + |al x * u x| ^ n x) ^ (-(1 - 1 / n x)))⁻¹ := by
      rw [rpow_neg hYpos.le, inv_inv]
    have e3 : (1 + |al x * u x| ^ n x) ^ (1 / n x - 2) =
        (1 + |al x * u x| ^ n x) ^ (-(1 - 1 / n x)) / (1 + |al x * u x| ^ n x) := by
      rw [← rpow_sub_one hYpos.ne']; congr 1; ring
    have e4 : |al x * u x| ^ (n x - 1) = |al x * u x| ^ n x / |al x * u x| := rpow_sub_one hw.ne' _
    have e5 : ((1 + |al x * u x| ^ n x) ^ (-(1 - 1 / n x))) ^ (1 / (1 / n x - 1)) =
        1 + |al x * u x| ^ n x := by
      have hm2 : 1 / n x - 1 ≠ 0 := by
        intro e; exact hm0 (by linarith)
      rw [← rpow_mul hYpos.le]
      conv_rhs => rw [← rpow_one (1 + |al x * u x| ^ n x)]
      congr 1
      field_simp
      ring
    have e6 : ((1 + |al x * u x| ^ n x) ^ (-(1 - 1 / n x))) ^ (1 / (1 - 1 / n x)) =
        (1 + |al x * u x| ^ n x)⁻¹ := by
      rw [← rpow_mul hYpos.le, ← rpow_neg_one]
      congr 1
      field_simp
    have e7 : log ((1 + |al x * u x| ^ n x) ^ (-(1 - 1 / n x))) =
        -(1 - 1 / n x) * log (1 + |al x * u x| ^ n x) := log_rpow hYpos _
    rw [e2'', e2, e2', e3, e4]
    rw [rpow_add_one hθpos.ne', rpow_sub_one hθpos.ne', e5, e6, e7, rpow_sub_one hYpos.ne',
      rpow_sub_one hSpos.ne', e2''']
    rw [show 1 - 1 / (1 + |al x * u x| ^ n x) = 1 - (1 + |al x * u x| ^ n x)⁻¹ by rw [one_div],
      show -(1 + |al x * u x| ^ n x)⁻¹ + 1 = 1 - (1 + |al x * u x| ^ n x)⁻¹ by ring]
    have e8 : (1 - (1 + |al x * u x| ^ n x)⁻¹) ^ (1 / n x) =
        (1 - (1 + |al x * u x| ^ n x)⁻¹) /
          (1 - (1 + |al x * u x| ^ n x)⁻¹) ^ (1 - 1 / n x) := by
      rw [eq_div_iff (rpow_pos_of_pos hSpos _).ne', ← rpow_add hSpos]
      conv_rhs => rw [← rpow_one (1 - (1 + |al x * u x| ^ n x)⁻¹)]
      congr 1
      ring
    rw [e8]
    have hQpos := rpow_pos_of_pos hSpos (1 - 1 / n x)
    have hPpos := rpow_pos_of_pos hθpos (I x)
    generalize (1 - (1 + |al x * u x| ^ n x)⁻¹) ^ (1 - 1 / n x) = Q at hQpos ⊢
    generalize ((1 + |al x * u x| ^ n x) ^ (-(1 - 1 / n x))) ^ I x = P at hPpos ⊢
    generalize (1 + |al x * u x| ^ n x) ^ (-(1 - 1 / n x)) = θ at hθpos ⊢
    generalize log (1 - (1 + |al x * u x| ^ n x)⁻¹) = lS
    generalize log (1 + |al x * u x| ^ n x) = lY
    have hSx : 1 - (1 + |al x * u x| ^ n x)⁻¹ = |al x * u x| ^ n x / (1 + |al x * u x| ^ n x) := by
      field_simp
      ring
    rw [hSx]
    generalize |al x * u x| ^ n x = X at hXpos hYpos ⊢
    generalize log |al x * u x| = lw
    generalize |al x * u x| = w at hw ⊢
    generalize Real.sign (al x * u x) = sg
    have hn1' : n x - 1 ≠ 0 := sub_ne_zero.mpr hn1
    ext v
    simp
    field_simp
    ring

/-! ### All cells at once -/

variable {p c : Type} [Fintype p] [Fintype c] [DecidableEq c]

/-- If the entries of a curve change with the parameters of their cell, which change with the
model, then `Σ sdiag(ddm) * parameterDeriv` and `sdiag(g)` are the partial Jacobians. -/
theorem cellwise {J : Type} [Fintype J] {F : (p → ℝ) → (c → ℝ) → (c → ℝ)} {m : p → ℝ} {h : c → ℝ}
    (d : J → c → ℝ) (D : J → Matrix c p ℝ) (du : c → ℝ)
    (hF : ∀ i, HasFDerivAt (fun z : (p → ℝ) × (c → ℝ) => F z.1 z.2 i)
      (∑ j, d j i • (dotL (D j i)).comp (ContinuousLinearMap.fst ℝ (p → ℝ) (c → ℝ)) +
        du i • (ContinuousLinearMap.proj i).comp (ContinuousLinearMap.snd ℝ (p → ℝ) (c → ℝ)))
      (m, h)) :
    IsJacobian₂ F (∑ j, diagonal (d j) * D j) (diagonal du) m h := by
  unfold IsJacobian₂
  rw [hasFDerivAt_pi']
  intro i
  refine (hF i).congr_fderiv ?_
  ext v
  · simp [Matrix.sum_mulVec, ← Matrix.mulVec_mulVec, mulVec_diagonal]
    rfl
  · simp [mulVec_diagonal]

theorem param_deriv {P : (p → ℝ) → (c → ℝ)} {D : Matrix c p ℝ} {m : p → ℝ} (h : c → ℝ)
    (hP : IsJacobian P D m) (i : c) :
    HasFDerivAt (fun z : (p → ℝ) × (c → ℝ) => P z.1 i)
      ((dotL (D i)).comp (ContinuousLinearMap.fst ℝ (p → ℝ) (c → ℝ))) (m, h) :=
  HasFDerivAt.comp (f := Prod.fst) (g := fun y => P y i) (m, h) (isJacobian_iff.mp hP i)
    hasFDerivAt_fst

theorem head_deriv (m : p → ℝ) (h : c → ℝ) (i : c) :
    HasFDerivAt (fun z : (p → ℝ) × (c → ℝ) => z.2 i)
      ((ContinuousLinearMap.proj i).comp (ContinuousLinearMap.snd ℝ (p → ℝ) (c → ℝ))) (m, h) :=
  HasFDerivAt.comp (f := Prod.snd) (g := fun y : c → ℝ => y i) (m, h)
    (ContinuousLinearMap.hasFDerivAt (ContinuousLinearMap.proj (R := ℝ) (φ := fun _ : c => ℝ) i))
    hasFDerivAt_snd

/-- The parameters of the Haverkamp curves as functions of the model, with the derivatives of
their maps (zero for parameters without a map). -/
structure HaverkampParams (p c : Type) where
  thr : (p → ℝ) → (c → ℝ)
  ths : (p → ℝ) → (c → ℝ)
  al : (p → ℝ) → (c → ℝ)
  be : (p → ℝ) → (c → ℝ)
  Ks : (p → ℝ) → (c → ℝ)
  A : (p → ℝ) → (c → ℝ)
  ga : (p → ℝ) → (c → ℝ)
  thrD : (p → ℝ) → Matrix c p ℝ
  thsD : (p → ℝ) → Matrix c p ℝ
  alD : (p → ℝ) → Matrix c p ℝ
  beD : (p → ℝ) → Matrix c p ℝ
  KsD : (p → ℝ) → Matrix c p ℝ
  AD : (p → ℝ) → Matrix c p ℝ
  gaD : (p → ℝ) → Matrix c p ℝ

/-- The curves `haverkamp(mesh, ...)` builds (127-217, 249-294). -/
def HaverkampParams.curves (P : HaverkampParams p c) : Richards.Curves p c :=
  { T := fun m h i => hTheta (P.thr m i) (P.ths m i) (P.al m i) (P.be m i) (h i)
    K := fun m h i => hK (P.Ks m i) (P.A m i) (P.ga m i) (h i)
    Tu := fun m h => diagonal fun i => hTheta_u (P.thr m i) (P.ths m i) (P.al m i) (P.be m i) (h i)
    Tm := fun m h =>
      diagonal (fun i => hTheta_r (P.al m i) (P.be m i) (h i)) * P.thrD m +
      diagonal (fun i => hTheta_s (P.al m i) (P.be m i) (h i)) * P.thsD m +
      diagonal (fun i => hTheta_al (P.thr m i) (P.ths m i) (P.al m i) (P.be m i) (h i)) * P.alD m +
      diagonal (fun i => hTheta_be (P.thr m i) (P.ths m i) (P.al m i) (P.be m i) (h i)) * P.beD m
    Ku := fun m h => diagonal fun i => hK_u (P.Ks m i) (P.A m i) (P.ga m i) (h i)
    Km := fun m h =>
      diagonal (fun i => hK_Ks (P.A m i) (P.ga m i) (h i)) * P.KsD m +
      diagonal (fun i => hK_A (P.Ks m i) (P.A m i) (P.ga m i) (h i)) * P.AD m +
      diagonal (fun i => hK_ga (P.Ks m i) (P.A m i) (P.ga m i) (h i)) * P.gaD m }

/-- C61. `derivM` and `derivU` of the Haverkamp curves are the partial derivatives of the curves
with respect to the model and the heads, at heads other than zero: they are what the sensitivity
theorem C60 asks for. -/
theorem C61_haverkamp_exact (P : HaverkampParams p c) (m : p → ℝ) (h : c → ℝ)
    (h1 : IsJacobian P.thr (P.thrD m) m) (h2 : IsJacobian P.ths (P.thsD m) m)
    (h3 : IsJacobian P.al (P.alD m) m) (h4 : IsJacobian P.be (P.beD m) m)
    (h5 : IsJacobian P.Ks (P.KsD m) m) (h6 : IsJacobian P.A (P.AD m) m)
    (h7 : IsJacobian P.ga (P.gaD m) m) (h0 : ∀ i, h i ≠ 0) (hal : ∀ i, 0 < P.al m i)
    (hA : ∀ i, 0 < P.A m i) :
    Richards.Props.Curves.Exact P.curves m h := by
  constructor
  · have := cellwise (F := P.curves.T) (m := m) (h := h) (J := Fin 4)
      (![fun i => hTheta_r (P.al m i) (P.be m i) (h i),
        fun i => hTheta_s (P.al m i) (P.be m i) (h i),
        fun i => hTheta_al (P.thr m i) (P.ths m i) (P.al m i) (P.be m i) (h i),
        fun i => hTheta_be (P.thr m i) (P.ths m i) (P.al m i) (P.be m i) (h i)])
      (![P.thrD m, P.thsD m, P.alD m, P.beD m])
      (fun i => hTheta_u (P.thr m i) (P.ths m i) (P.al m i) (P.be m i) (h i))
      (by
        intro i
        have := C61_haverkamp_theta (x := (m, h)) (param_deriv h h1 i) (param_deriv h h2 i)
          (param_deriv h h3 i) (param_deriv h h4 i) (head_deriv m h i) (h0 i) (hal i)
        rw [Fin.sum_univ_four]
        exact this)
    rw [Fin.sum_univ_four] at this
    exact this
  · have := cellwise (F := P.curves.K) (m := m) (h := h) (J := Fin 3)
      (![fun i => hK_Ks (P.A m i) (P.ga m i) (h i),
        fun i => hK_A (P.Ks m i) (P.A m i) (P.ga m i) (h i),
        fun i => hK_ga (P.Ks m i) (P.A m i) (P.ga m i) (h i)])
      (![P.KsD m, P.AD m, P.gaD m])
      (fun i => hK_u (P.Ks m i) (P.A m i) (P.ga m i) (h i))
      (by
        intro i
        have := C61_haverkamp_k (x := (m, h)) (param_deriv h h5 i) (param_deriv h h6 i)
          (param_deriv h h7 i) (head_deriv m h i) (h0 i) (hA i)
        rw [Fin.sum_univ_three]
        exact this)
    rw [Fin.sum_univ_three] at this
    exact this

/-- The parameters of the Van Genuchten curves. -/
structure VanGenuchtenParams (p c : Type) where
  thr : (p → ℝ) → (c → ℝ)
  ths : (p → ℝ) → (c → ℝ)
  Ks : (p → ℝ) → (c → ℝ)
  I : (p → ℝ) → (c → ℝ)
  al : (p → ℝ) → (c → ℝ)
  n : (p → ℝ) → (c → ℝ)
  thrD : (p → ℝ) → Matrix c p ℝ
  thsD : (p → ℝ) → Matrix c p ℝ
  KsD : (p → ℝ) → Matrix c p ℝ
  ID : (p → ℝ) → Matrix c p ℝ
  alD : (p → ℝ) → Matrix c p ℝ
  nD : (p → ℝ) → Matrix c p ℝ

/-- The curves `van_genuchten(mesh, ...)` builds (371-486, 531-807). -/
def VanGenuchtenParams.curves (P : VanGenuchtenParams p c) : Richards.Curves p c :=
  { T := fun m h i => vTheta (P.thr m i) (P.ths m i) (P.al m i) (P.n m i) (h i)
    K := fun m h i => vK (P.Ks m i) (P.al m i) (P.I m i) (P.n m i) (h i)
    Tu := fun m h => diagonal fun i => vTheta_u (P.thr m i) (P.ths m i) (P.al m i) (P.n m i) (h i)
    Tm := fun m h =>
      diagonal (fun i => vTheta_r (P.al m i) (P.n m i) (h i)) * P.thrD m +
      diagonal (fun i => vTheta_s (P.al m i) (P.n m i) (h i)) * P.thsD m +
      diagonal (fun i => vTheta_n (P.thr m i) (P.ths m i) (P.al m i) (P.n m i) (h i)) * P.nD m +
      diagonal (fun i => vTheta_al (P.thr m i) (P.ths m i) (P.al m i) (P.n m i) (h i)) * P.alD m
    Ku := fun m h => diagonal fun i => vK_u (P.Ks m i) (P.al m i) (P.I m i) (P.n m i) (h i)
    Km := fun m h =>
      diagonal (fun i => vK_Ks (P.al m i) (P.I m i) (P.n m i) (h i)) * P.KsD m +
      diagonal (fun i => vK_I (P.Ks m i) (P.al m i) (P.I m i) (P.n m i) (h i)) * P.ID m +
      diagonal (fun i => vK_n (P.Ks m i) (P.al m i) (P.I m i) (P.n m i) (h i)) * P.nD m +
      diagonal (fun i => vK_al (P.Ks m i) (P.al m i) (P.I m i) (P.n m i) (h i)) * P.alD m }

/-- C61. The same for the Van Genuchten curves. -/
theorem C61_vangenuchten_exact (P : VanGenuchtenParams p c) (m : p → ℝ) (h : c → ℝ)
    (h1 : IsJacobian P.thr (P.thrD m) m) (h2 : IsJacobian P.ths (P.thsD m) m)
    (h3 : IsJacobian P.Ks (P.KsD m) m) (h4 : IsJacobian P.I (P.ID m) m)
    (h5 : IsJacobian P.al (P.alD m) m) (h6 : IsJacobian P.n (P.nD m) m)
    (h0 : ∀ i, h i ≠ 0) (hal : ∀ i, P.al m i ≠ 0) (hn : ∀ i, 1 < P.n m i) :
    Richards.Props.Curves.Exact P.curves m h := by
  have hn0 : ∀ i, P.n m i ≠ 0 := fun i => by have := hn i; linarith
  have hn1 : ∀ i, P.n m i ≠ 1 := fun i => (hn i).ne'
  constructor
  · have := cellwise (F := P.curves.T) (m := m) (h := h) (J := Fin 4)
      (![fun i => vTheta_r (P.al m i) (P.n m i) (h i),
        fun i => vTheta_s (P.al m i) (P.n m i) (h i),
        fun i => vTheta_n (P.thr m i) (P.ths m i) (P.al m i) (P.n m i) (h i),
        fun i => vTheta_al (P.thr m i) (P.ths m i) (P.al m i) (P.n m i) (h i)])
      (![P.thrD m, P.thsD m, P.nD m, P.alD m])
      (fun i => vTheta_u (P.thr m i) (P.ths m i) (P.al m i) (P.n m i) (h i))
      (by
        intro i
        have := C61_vangenuchten_theta (x := (m, h)) (param_deriv h h1 i) (param_deriv h h2 i)
          (param_deriv h h5 i) (param_deriv h h6 i) (head_deriv m h i) (h0 i) (hal i) (hn0 i)
        rw [Fin.sum_univ_four]
        exact this)
    rw [Fin.sum_univ_four] at this
    exact this
  · have := cellwise (F := P.curves.K) (m := m) (h := h) (J := Fin 4)
      (![fun i => vK_Ks (P.al m i) (P.I m i) (P.n m i) (h i),
        fun i => vK_I (P.Ks m i) (P.al m i) (P.I m i) (P.n m i) (h i),
        fun i => vK_n (P.Ks m i) (P.al m i) (P.I m i) (P.n m i) (h i),
        fun i => vK_al (P.Ks m i) (P.al m i) (P.I m i) (P.n m i) (h i)])
      (![P.KsD m, P.ID m, P.nD m, P.alD m])
      (fun i => vK_u (P.Ks m i) (P.al m i) (P.I m i) (P.n m i) (h i))
      (by
        intro i
        have := C61_vangenuchten_k (x := (m, h)) (param_deriv h h3 i) (param_deriv h h5 i)
          (param_deriv h h4 i) (param_deriv h h6 i) (head_deriv m h i) (h0 i) (hal i) (hn0 i)
          (hn1 i)
        rw [Fin.sum_univ_four]
        exact this)
    rw [Fin.sum_univ_four] at this
    exact this

/-! ### Ranges -/

/-- C62. The Haverkamp water content lies between the residual and the saturated content. -/
theorem C62_haverkamp_theta (thr ths al be u : ℝ) (hal : 0 < al) (h : thr ≤ ths) :
    thr ≤ hTheta thr ths al be u ∧ hTheta thr ths al be u ≤ ths := by
  unfold hTheta atSat
  split
  · exact ⟨h, le_rfl⟩
  · have hX : 0 ≤ |u| ^ be := rpow_nonneg (abs_nonneg _) _
    have h1 : 0 ≤ al * (ths - thr) / (al + |u| ^ be) := by
      have : 0 ≤ ths - thr := sub_nonneg.mpr h
      positivity
    have h2 : al * (ths - thr) / (al + |u| ^ be) ≤ ths - thr := by
      rw [div_le_iff₀ (by positivity)]
      have : 0 ≤ (ths - thr) * |u| ^ be := mul_nonneg (sub_nonneg.mpr h) hX
      nlinarith
    constructor <;> linarith

/-- C62. The Haverkamp conductivity is positive and at most the saturated one. -/
theorem C62_haverkamp_k (Ks A ga u : ℝ) (hK0 : 0 < Ks) (hA : 0 < A) :
    0 < hK Ks A ga u ∧ hK Ks A ga u ≤ Ks := by
  unfold hK atSat
  split
  · exact ⟨hK0, le_rfl⟩
  · have hX : 0 ≤ |u| ^ ga := rpow_nonneg (abs_nonneg _) _
    refine ⟨by positivity, ?_⟩
    rw [div_le_iff₀ (by positivity)]
    have : 0 ≤ Ks * |u| ^ ga := mul_nonneg hK0.le hX
    nlinarith

/-- C62. The Van Genuchten water content lies between the residual and the saturated content. -/
theorem C62_vangenuchten_theta (thr ths al n u : ℝ) (hn : 1 < n) (h : thr ≤ ths) :
    thr ≤ vTheta thr ths al n u ∧ vTheta thr ths al n u ≤ ths := by
  unfold vTheta atSat
  split
  · exact ⟨h, le_rfl⟩
  · have hX : 0 ≤ |al * u| ^ n := rpow_nonneg (abs_nonneg _) _
    have hm : 0 ≤ 1 - 1 / n := by
      rw [sub_nonneg, div_le_one (by linarith)]; exact hn.le
    have h1 : 1 ≤ (1 + |al * u| ^ n) ^ (1 - 1 / n) := one_le_rpow (by linarith) hm
    have h0 : 0 ≤ ths - thr := sub_nonneg.mpr h
    have h2 : 0 ≤ (ths - thr) / (1 + |al * u| ^ n) ^ (1 - 1 / n) := by positivity
    have h3 : (ths - thr) / (1 + |al * u| ^ n) ^ (1 - 1 / n) ≤ ths - thr := div_le_self h0 h1
    constructor <;> linarith

/-- C62. The Van Genuchten conductivity is positive and at most the saturated one. -/
theorem C62_vangenuchten_k (Ks al I n u : ℝ) (hK0 : 0 < Ks) (hn : 1 < n) (hI : 0 ≤ I)
    (hu : al ≠ 0) :
    0 < vK Ks al I n u ∧ vK Ks al I n u ≤ Ks := by
  unfold vK atSat
  simp only
  split
  · exact ⟨hK0, le_rfl⟩
  · rename_i hneg
    have hau : 0 < |al * u| := abs_pos.mpr (mul_ne_zero hu (by
      intro e; exact hneg (by rw [e])))
    have hX : 0 < |al * u| ^ n := rpow_pos_of_pos hau _
    have hm : 0 < 1 - 1 / n := by
      rw [sub_pos, div_lt_one (by linarith)]; exact hn
    have hY1 : 1 < 1 + |al * u| ^ n := by linarith
    have hY0 : 0 < 1 + |al * u| ^ n := by linarith
    have hYm : 1 < (1 + |al * u| ^ n) ^ (1 - 1 / n) := one_lt_rpow hY1 hm
    set te := 1 / (1 + |al * u| ^ n) ^ (1 - 1 / n) with hte
    have ht0 : 0 < te := by positivity
    have ht1 : te < 1 := by rw [hte, div_lt_one (by linarith)]; exact hYm
    have hS0 : 0 < te ^ (1 / (1 - 1 / n)) := rpow_pos_of_pos ht0 _
    have hS1 : te ^ (1 / (1 - 1 / n)) < 1 := rpow_lt_one ht0.le ht1 (by positivity)
    set s := 1 - te ^ (1 / (1 - 1 / n)) with hs
    have hs0 : 0 < s := by linarith
    have hs1 : s < 1 := by linarith
    have hQ0 : 0 < s ^ (1 - 1 / n) := rpow_pos_of_pos hs0 _
    have hQ1 : s ^ (1 - 1 / n) < 1 := rpow_lt_one hs0.le hs1 hm
    have hP0 : 0 < te ^ I := rpow_pos_of_pos ht0 _
    have hP1 : te ^ I ≤ 1 := rpow_le_one ht0.le ht1.le hI
    have hR0 : 0 < (1 - s ^ (1 - 1 / n)) ^ 2 := by
      have : 0 < 1 - s ^ (1 - 1 / n) := by linarith
      positivity
    have hR1 : (1 - s ^ (1 - 1 / n)) ^ 2 ≤ 1 := by
      have a : 0 < 1 - s ^ (1 - 1 / n) := by linarith
      nlinarith
    refine ⟨by positivity, ?_⟩
    calc Ks * te ^ I * (1 - s ^ (1 - 1 / n)) ^ 2 ≤ Ks * te ^ I * 1 :=
          mul_le_mul_of_nonneg_left hR1 (by positivity)
      _ ≤ Ks * 1 := by rw [mul_one]; exact mul_le_mul_of_nonneg_left hP1 hK0.le
      _ = Ks := mul_one _

/-- C62. At zero and positive heads the curves take their saturated values. -/
theorem C62_saturated (thr ths al be n Ks A ga I u : ℝ) (hu : 0 ≤ u) :
    hTheta thr ths al be u = ths ∧ vTheta thr ths al n u = ths ∧ hK Ks A ga u = Ks ∧
      vK Ks al I n u = Ks := by
  simp [hTheta, vTheta, hK, vK, atSat, hu]

/-- C62. Drier is drier: below saturation, the Haverkamp curves do not decrease with the head. -/
theorem C62_haverkamp_monotone (thr ths al be Ks A ga : ℝ) (hal : 0 < al) (h : thr ≤ ths)
    (hbe : 0 ≤ be) (hK0 : 0 ≤ Ks) (hA : 0 < A) (hga : 0 ≤ ga) :
    Monotone (hTheta thr ths al be) ∧ Monotone (hK Ks A ga) := by
  have hX : ∀ (e u w : ℝ), 0 ≤ e → u ≤ w → w < 0 → |w| ^ e ≤ |u| ^ e := by
    intro e u w he huw hw
    refine rpow_le_rpow (abs_nonneg _) ?_ he
    rw [abs_of_neg hw, abs_of_neg (by linarith)]
    linarith
  constructor
  · intro u w huw
    by_cases hw : 0 ≤ w
    · rw [(C62_saturated thr ths al be 0 0 0 0 0 w hw).1]
      exact (C62_haverkamp_theta thr ths al be u hal h).2
    · have hu : ¬ 0 ≤ u := by linarith
      have := hX be u w hbe huw (by linarith)
      have p1 : 0 ≤ |w| ^ be := rpow_nonneg (abs_nonneg _) _
      simp only [hTheta, atSat, hu, hw, if_false]
      have h0 : 0 ≤ al * (ths - thr) := mul_nonneg hal.le (sub_nonneg.mpr h)
      have : al * (ths - thr) / (al + |u| ^ be) ≤ al * (ths - thr) / (al + |w| ^ be) :=
        div_le_div_of_nonneg_left h0 (by linarith) (by linarith)
      linarith
  · intro u w huw
    have h0 : 0 ≤ Ks * A := mul_nonneg hK0 hA.le
    by_cases hw : 0 ≤ w
    · rw [(C62_saturated 0 0 0 0 0 Ks A ga 0 w hw).2.2.1]
      unfold hK atSat
      split
      · exact le_rfl
      · have p1 : 0 ≤ |u| ^ ga := rpow_nonneg (abs_nonneg _) _
        rw [div_le_iff₀ (by linarith)]
        nlinarith [mul_nonneg hK0 p1]
    · have hu : ¬ 0 ≤ u := by linarith
      have := hX ga u w hga huw (by linarith)
      have p1 : 0 ≤ |w| ^ ga := rpow_nonneg (abs_nonneg _) _
      simp only [hK, atSat, hu, hw, if_false]
      exact div_le_div_of_nonneg_left h0 (by linarith) (by linarith)

/-- A case meeting the hypotheses of C61: every parameter of the model in one cell, at `u = -1`. -/
example : Richards.Props.Curves.Exact
    (HaverkampParams.curves (p := Fin 1) (c := Fin 1)
      ⟨fun _ => 0, fun m => m, fun _ => 1, fun _ => 2, fun m => m, fun _ => 1, fun _ => 2,
        0, 1, 0, 0, 1, 0, 0⟩) (fun _ => 1) (fun _ => -1) :=
  C61_haverkamp_exact _ _ _ (isJacobian_const _ _) (isJacobian_id _) (isJacobian_const _ _)
    (isJacobian_const _ _) (isJacobian_id _) (isJacobian_const _ _) (isJacobian_const _ _)
    (by intro i; norm_num) (by intro i; norm_num) (by intro i; norm_num)

example : Richards.Props.Curves.Exact
    (VanGenuchtenParams.curves (p := Fin 1) (c := Fin 1)
      ⟨fun _ => 0, fun m => m, fun m => m, fun _ => 1, fun m => m, fun _ => 2,
        0, 1, 1, 0, 1, 0⟩) (fun _ => 1) (fun _ => -1) :=
  C61_vangenuchten_exact _ _ _ (isJacobian_const _ _) (isJacobian_id _) (isJacobian_id _)
    (isJacobian_const _ _) (isJacobian_id _) (isJacobian_const _ _)
    (by intro i; norm_num) (by intro i; norm_num) (by intro i; norm_num)

end Props
end Verif.Flow.Empirical
