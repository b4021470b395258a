import Verif.EM.Curl
import Mathlib.Analysis.SpecialFunctions.Gaussian.GaussianIntegral
import Mathlib.MeasureTheory.Integral.IntegralEqImproper
import Mathlib.MeasureTheory.Integral.IntervalIntegral.FundThmCalculus

/-!
C162: the analytic transient fields of dipoles and loops (`simpeg/electromagnetics/analytics/TDEM.py`).
-/

noncomputable section
namespace Verif.TDEM.Dipoles
open Verif Verif.VRM Verif.EM.Curl Real

/-! ### The code -/

/-- `scipy.special.erf`. -/
def erf (x : ℝ) : ℝ := 2 / √π * ∫ s in (0 : ℝ)..x, exp (-(s ^ 2))

/-- `hzAnalyticDipoleT`, `mu0` is `mu_0` (7-14). -/
def hzDipole (mu0 r t sigma : ℝ) : ℝ :=
  let theta := √((sigma * mu0) / (4 * t));
  let tr := theta * r;
  let etr := erf tr;
  let t1 := (9 / (2 * tr ^ 2) - 1) * etr;
  let t2 := (1 / √π) * (9 / tr + 4 * tr) * exp (-(tr ^ 2));
  (t1 - t2) / (4 * π * r ^ 3)

/-- `hzAnalyticCentLoopT` (17-24). -/
def hzLoop (mu0 a t sigma : ℝ) : ℝ :=
  let theta := √((sigma * mu0) / (4 * t));
  let ta := theta * a;
  let eta := erf ta;
  let t1 := (3 / (√π * ta)) * exp (-(ta ^ 2));
  let t2 := (1 - (3 / (2 * ta ^ 2))) * eta;
  (t1 + t2) / (2 * a)

/-- The argument `moment`. -/
inductive Moment
  | str (s : String)
  | vec (m : Pt)

/-- The chain of comparisons with `"X"`, `"Y"` and `"Z"` (38-45, 124-131). -/
def axis (s : String) : Except Err Pt :=
  if s = "X" then .ok ![1, 0, 0]
  else if s = "Y" then .ok ![0, 1, 0]
  else if s = "Z" then .ok ![0, 0, 1]
  else .error .exception

/-- `mx, my, mz` of `TransientMagneticDipoleWholeSpace` (37-48). -/
def magMoment : Moment → Except Err Pt
  | .str s => axis s
  | .vec m => .ok m

/-- `mx, my, mz` of `TransientElectricDipoleWholeSpace` (123-134). -/
def elecMoment : Moment → Except Err Pt
  | .str s => axis s.toUpper
  | .vec m => .ok m

/-- `mu` (35, 121). -/
def perm (mu_r : ℝ) : ℝ := 4 * π * 1e-7 * mu_r

/-- `k` (57, 143). -/
def kOf (mu sig t : ℝ) : ℝ := √(mu * sig / (4 * t))

/-- `mid` (62, 148). -/
def midOf (kr : ℝ) : ℝ := 3 * erf kr - (4 * kr ^ 3 + 6 * kr) * exp (-(kr ^ 2)) / √π

/-- `end` (63, 149). -/
def endOf (kr : ℝ) : ℝ := -erf kr + (4 * kr ^ 3 + 2 * kr) * exp (-(kr ^ 2)) / √π

/-- `Fx, Fy, Fz` from `front`, `mid` and `end` (65-81, 88-104). -/
def dyad (front mid fin r : ℝ) (m d : Pt) : Pt :=
  ![front * (m 0 * ((d 0 / r) ^ 2 * mid + fin) + m 1 * ((d 1 * d 0 / r ^ 2) * mid)
      + m 2 * ((d 0 * d 2 / r ^ 2) * mid)),
    front * (m 0 * ((d 0 * d 1 / r ^ 2) * mid) + m 1 * ((d 1 / r) ^ 2 * mid + fin)
      + m 2 * ((d 1 * d 2 / r ^ 2) * mid)),
    front * (m 0 * ((d 0 * d 2 / r ^ 2) * mid) + m 1 * ((d 1 * d 2 / r ^ 2) * mid)
      + m 2 * ((d 2 / r) ^ 2 * mid + fin))]

/-- `fieldType="h"` of the magnetic dipole (61-81). -/
def magH (mu sig t : ℝ) (m a x : Pt) : Pt :=
  let r := dist3 x a;
  let kr := kOf mu sig t * r;
  dyad (1 / (4 * π * r ^ 3)) (midOf kr) (endOf kr) r m (x - a)

/-- `fieldType="dhdt"` of the magnetic dipole (84-104). -/
def magDhdt (mu sig t : ℝ) (m a x : Pt) : Pt :=
  let r := dist3 x a;
  let k := kOf mu sig t;
  let kr := k * r;
  dyad ((4 * k ^ 5 / (π ^ (1.5 : ℝ) * mu * sig)) * exp (-(kr ^ 2))) (kr ^ 2) (1 - kr ^ 2) r m (x - a)

/-- `fieldType="e"` of the magnetic dipole (107-113). -/
def magE (mu sig t : ℝ) (m a x : Pt) : Pt :=
  let r := dist3 x a;
  let d := x - a;
  let k := kOf mu sig t;
  let kr := k * r;
  let front := (2 * k ^ 5 / (π ^ (1.5 : ℝ) * sig)) * exp (-(kr ^ 2));
  ![front * (m 1 * (-d 2 / r) + m 2 * (d 1 / r)), front * (m 0 * (d 2 / r) + m 2 * (-d 0 / r)),
    front * (m 0 * (-d 1 / r) + m 1 * (d 0 / r))]

/-- `fieldType="e"` of the electric dipole (147-167). -/
def elecE (mu sig t : ℝ) (m a x : Pt) : Pt :=
  let r := dist3 x a;
  let d := x - a;
  let kr := kOf mu sig t * r;
  let front := 1 / (4 * π * sig * r ^ 3);
  let mid := midOf kr;
  let fin := endOf kr;
  ![front * (m 0 * ((d 0 ^ 2 / r ^ 2) * mid + fin) + m 1 * (d 1 * d 0 / r ^ 2) * mid
      + m 2 * (d 2 * d 0 / r ^ 2) * mid),
    front * (m 0 * (d 0 * d 1 / r ^ 2) * mid + m 1 * ((d 1 ^ 2 / r ^ 2) * mid + fin)
      + m 2 * (d 2 * d 1 / r ^ 2) * mid),
    front * (m 0 * (d 0 * d 2 / r ^ 2) * mid + m 1 * (d 1 * d 2 / r ^ 2) * mid
      + m 2 * ((d 2 ^ 2 / r ^ 2) * mid + fin))]

/-- `fieldType="h"` of the electric dipole (170-178). -/
def elecH (mu sig t : ℝ) (m a x : Pt) : Pt :=
  let r := dist3 x a;
  let d := x - a;
  let kr := kOf mu sig t * r;
  let front := (1 / (4 * π * r ^ 3)) * (erf kr - 2 * kr * exp (-(kr ^ 2)) / √π);
  ![front * (m 1 * -d 2 + m 2 * d 1), front * (m 0 * d 2 + m 2 * -d 0), front * (m 0 * -d 1 + m 1 * d 0)]

/-- `fieldType="dhdt"` of the electric dipole (181-187). -/
def elecDhdt (mu sig t : ℝ) (m a x : Pt) : Pt :=
  let r := dist3 x a;
  let d := x - a;
  let k := kOf mu sig t;
  let kr := k * r;
  let front := -(2 * k ^ 5 / (π ^ (1.5 : ℝ) * mu * sig)) * exp (-(kr ^ 2));
  ![front * (m 1 * -d 2 + m 2 * d 1), front * (m 0 * d 2 + m 2 * -d 0), front * (m 0 * -d 1 + m 1 * d 0)]

/-- What is not a number at the place of the dipole, where distances are divided by. -/
def away (x a : Pt) (F : Pt) : Option Pt := if x = a then none else some F

/-- `TransientMagneticDipoleWholeSpace` at one place (27-115). Another `fieldType` leaves `Fx` unbound. -/
def transientMagnetic (a : Pt) (sig t : ℝ) (moment : Moment) (fieldType : String) (mu_r : ℝ) (x : Pt) :
    Except Err (Option Pt) := do
  let m ← magMoment moment
  if fieldType = "h" then return away x a (magH (perm mu_r) sig t m a x)
  else if fieldType = "dhdt" then return away x a (magDhdt (perm mu_r) sig t m a x)
  else if fieldType = "e" then return away x a (magE (perm mu_r) sig t m a x)
  else .error .exception

/-- `TransientElectricDipoleWholeSpace` at one place (118-189). -/
def transientElectric (a : Pt) (sig t : ℝ) (moment : Moment) (fieldType : String) (mu_r : ℝ) (x : Pt) :
    Except Err (Option Pt) := do
  let m ← elecMoment moment
  if fieldType = "e" then return away x a (elecE (perm mu_r) sig t m a x)
  else if fieldType = "h" then return away x a (elecH (perm mu_r) sig t m a x)
  else if fieldType = "dhdt" then return some (elecDhdt (perm mu_r) sig t m a x)
  else .error .exception

/-! ### Specification -/

/-- Maxwell's equations without displacement current, for fields `e` and `h` of time and place: outside of
sources, at time `t` and place `x`. -/
def Maxwell (mu sig : ℝ) (e h : ℝ → Pt → Pt) (t : ℝ) (x : Pt) : Prop :=
  IsCurl (h t) x (fun k => sig * e t x k) ∧
  (∃ dh : Pt, (∀ k, HasDerivAt (fun s => h s x k) (dh k) t) ∧ IsCurl (e t) x fun k => -mu * dh k) ∧
  IsDiv (h t) x 0

end Verif.TDEM.Dipoles

namespace Verif.TDEM.Dipoles.Props
open Verif Verif.VRM Verif.VRM.Props Verif.PF.Spheres Verif.EM.Curl Verif.TDEM.Dipoles Real Filter Topology

/-! ### The error function -/

theorem erf_deriv (x : ℝ) : HasDerivAt erf (2 / √π * exp (-(x ^ 2))) x := by
  have hc : Continuous fun s : ℝ => exp (-(s ^ 2)) := by fun_prop
  exact (intervalIntegral.integral_hasDerivAt_right (hc.intervalIntegrable _ _)
    (hc.stronglyMeasurableAtFilter _ _) hc.continuousAt).const_mul _

theorem erf_zero : erf 0 = 0 := by simp [erf]

theorem erf_top : Tendsto erf atTop (𝓝 1) := by
  have h1 : MeasureTheory.IntegrableOn (fun s : ℝ => exp (-(s ^ 2))) (Set.Ioi 0) := by
    have := (integrable_exp_neg_mul_sq (b := 1) one_pos).integrableOn (s := Set.Ioi 0)
    simpa using this
  have h2 := MeasureTheory.intervalIntegral_tendsto_integral_Ioi 0 h1 tendsto_id
  have h3 : ∫ s in Set.Ioi (0 : ℝ), exp (-(s ^ 2)) = √π / 2 := by
    have := integral_gaussian_Ioi 1
    simpa using this
  rw [h3] at h2
  have hp : √π ≠ 0 := (sqrt_pos.2 pi_pos).ne'
  have h4 := h2.const_mul (2 / √π)
  have e : 2 / √π * (√π / 2) = 1 := by field_simp
  rw [e] at h4
  exact h4

theorem pi15 : π ^ (1.5 : ℝ) = π * √π := by
  rw [sqrt_eq_rpow, show (1.5 : ℝ) = 1 + 1 / 2 by norm_num, rpow_add pi_pos, rpow_one]

theorem exp_deriv (x : ℝ) : HasDerivAt (fun y : ℝ => exp (-(y ^ 2))) (-(2 * x) * exp (-(x ^ 2))) x := by
  have h := ((hasDerivAt_pow 2 x).neg).exp
  refine h.congr_deriv ?_
  simp; ring

theorem mid_deriv (x : ℝ) : HasDerivAt midOf (8 * x ^ 4 * exp (-(x ^ 2)) / √π) x := by
  have hp : HasDerivAt (fun y : ℝ => 4 * y ^ 3 + 6 * y) (12 * x ^ 2 + 6) x := by
    refine (((hasDerivAt_pow 3 x).const_mul 4).add ((hasDerivAt_id x).const_mul 6)).congr_deriv ?_
    simp; ring
  have h := ((erf_deriv x).const_mul 3).sub ((hp.mul (exp_deriv x)).div_const (√π))
  refine h.congr_deriv ?_
  ring

theorem end_deriv (x : ℝ) : HasDerivAt endOf ((8 * x ^ 2 - 8 * x ^ 4) * exp (-(x ^ 2)) / √π) x := by
  have hp : HasDerivAt (fun y : ℝ => 4 * y ^ 3 + 2 * y) (12 * x ^ 2 + 2) x := by
    refine (((hasDerivAt_pow 3 x).const_mul 4).add ((hasDerivAt_id x).const_mul 2)).congr_deriv ?_
    simp; ring
  have h := (erf_deriv x).neg.add ((hp.mul (exp_deriv x)).div_const (√π))
  refine h.congr_deriv ?_
  ring

/-- `erf x - 2 x exp(-x²)/√π`. -/
def sOf (x : ℝ) : ℝ := erf x - 2 * x * exp (-(x ^ 2)) / √π

theorem s_deriv (x : ℝ) : HasDerivAt sOf (4 * x ^ 2 * exp (-(x ^ 2)) / √π) x := by
  have hp : HasDerivAt (fun y : ℝ => 2 * y) 2 x := by simpa using (hasDerivAt_id x).const_mul 2
  have h := (erf_deriv x).sub ((hp.mul (exp_deriv x)).div_const (√π))
  refine h.congr_deriv ?_
  ring

theorem k_pos {mu sig t : ℝ} (hm : 0 < mu) (hs : 0 < sig) (ht : 0 < t) : 0 < kOf mu sig t :=
  sqrt_pos.2 (by positivity)

theorem k_sq {mu sig t : ℝ} (hm : 0 < mu) (hs : 0 < sig) (ht : 0 < t) :
    kOf mu sig t ^ 2 = mu * sig / (4 * t) := sq_sqrt (by positivity)

theorem k_deriv {mu sig t : ℝ} (hm : 0 < mu) (hs : 0 < sig) (ht : 0 < t) :
    HasDerivAt (kOf mu sig) (-(2 * kOf mu sig t ^ 3 / (mu * sig))) t := by
  have h1 : HasDerivAt (fun s : ℝ => mu * sig / (4 * s)) (-(mu * sig / (4 * t ^ 2))) t := by
    have := (((hasDerivAt_id t).const_mul 4).inv (by simpa using ht.ne')).const_mul (mu * sig)
    refine (this.congr_deriv ?_)
    simp; field_simp
  have h2 := h1.sqrt (by positivity)
  refine h2.congr_deriv ?_
  have hk := k_pos hm hs ht
  have hk2 := k_sq hm hs ht
  change -(mu * sig / (4 * t ^ 2)) / (2 * kOf mu sig t) = _
  have ht' : t = mu * sig / (4 * kOf mu sig t ^ 2) := by rw [hk2]; field_simp
  generalize kOf mu sig t = k at *
  rw [ht']; field_simp; norm_num

/-! ### Shapes -/

theorem magH_shape (mu sig t : ℝ) (m a x : Pt) (k : Fin 3) :
    magH mu sig t m a x k = (mdotr m x a * (x k - a k)) •
        (fun ρ => midOf (kOf mu sig t * ρ) / (4 * π * ρ ^ 5)) (dist3 x a)
      + m k • (fun ρ => endOf (kOf mu sig t * ρ) / (4 * π * ρ ^ 3)) (dist3 x a) := by
  fin_cases k <;> simp [magH, dyad, mdotr] <;> ring

theorem elecE_shape (mu sig t : ℝ) (m a x : Pt) (k : Fin 3) :
    elecE mu sig t m a x k = 1 / sig * magH mu sig t m a x k := by
  fin_cases k <;> simp [elecE, magH, dyad] <;> ring

theorem elecH_shape (mu sig t : ℝ) (m a x : Pt) (k : Fin 3) :
    -elecH mu sig t m a x k = cross m (x - a) k •
      (fun ρ => sOf (kOf mu sig t * ρ) / (4 * π * ρ ^ 3)) (dist3 x a) := by
  fin_cases k <;> simp [elecH, cross, sOf] <;> ring

/-- The radial part of the electric field of a magnetic dipole. -/
def eRad (mu sig t ρ : ℝ) : ℝ :=
  2 * kOf mu sig t ^ 5 / (π * √π * sig) * exp (-((kOf mu sig t * ρ) ^ 2))

theorem magE_shape (mu sig t : ℝ) (m a x : Pt) (k : Fin 3) :
    -(dist3 x a * magE mu sig t m a x k) = cross m (x - a) k • eRad mu sig t (dist3 x a) := by
  by_cases hx : x = a
  · subst hx
    fin_cases k <;> simp [magE, cross, dist3]
  · have hr := (dist_pos hx).ne'
    fin_cases k <;> simp [magE, cross, eRad, pi15] <;> field_simp <;> ring

theorem elecDhdt_shape (mu sig t : ℝ) (m a x : Pt) (k : Fin 3) :
    elecDhdt mu sig t m a x k = cross m (x - a) k • (1 / mu * eRad mu sig t (dist3 x a)) := by
  fin_cases k <;> simp [elecDhdt, cross, eRad, pi15] <;> ring

theorem magDhdt_shape (mu sig t : ℝ) (m : Pt) {a x : Pt} (hx : x ≠ a) (k : Fin 3) :
    magDhdt mu sig t m a x k = 2 / mu * eRad mu sig t (dist3 x a) *
      (kOf mu sig t ^ 2 * mdotr m x a * (x k - a k) + (1 - (kOf mu sig t * dist3 x a) ^ 2) * m k) := by
  have hr := (dist_pos hx).ne'
  fin_cases k <;> simp [magDhdt, dyad, mdotr, eRad, pi15] <;> field_simp <;> ring

theorem eRad_deriv (mu sig t ρ : ℝ) :
    HasDerivAt (eRad mu sig t) (-(2 * kOf mu sig t ^ 2 * ρ) * eRad mu sig t ρ) ρ := by
  have h := ((exp_deriv (kOf mu sig t * ρ)).comp ρ ((hasDerivAt_id ρ).const_mul (kOf mu sig t))).const_mul
    (2 * kOf mu sig t ^ 5 / (π * √π * sig))
  refine h.congr_deriv ?_
  simp only [eRad, id]; ring

theorem rad_deriv {F : ℝ → ℝ} {F' k ρ : ℝ} (n : ℕ) (hρ : ρ ≠ 0) (h : HasDerivAt F F' (k * ρ)) :
    HasDerivAt (fun ρ => F (k * ρ) / (4 * π * ρ ^ n))
      (k * F' / (4 * π * ρ ^ n) - n * F (k * ρ) / (4 * π * ρ ^ (n + 1))) ρ := by
  have h1 := h.comp ρ ((hasDerivAt_id ρ).const_mul k)
  have hp : 4 * π * ρ ^ n ≠ 0 := mul_ne_zero (mul_ne_zero four_ne_zero pi_pos.ne') (pow_ne_zero _ hρ)
  have h2 := h1.div ((hasDerivAt_pow n ρ).const_mul (4 * π)) hp
  refine h2.congr_deriv ?_
  simp only [Function.comp, id]
  cases n with
  | zero => simp; field_simp
  | succ n =>
    simp only [Nat.add_sub_cancel]
    have := pi_pos.ne'
    field_simp
    push_cast
    ring

/-! ### The magnetic dipole -/

theorem magH_time {mu sig t : ℝ} (hm : 0 < mu) (hs : 0 < sig) (ht : 0 < t) (m : Pt) {a x : Pt} (hx : x ≠ a)
    (k : Fin 3) : HasDerivAt (fun s => magH mu sig s m a x k) (-magDhdt mu sig t m a x k) t := by
  have hk := k_deriv hm hs ht
  have hr := (dist_pos hx).ne'
  have h1 :=
    (mid_deriv (kOf mu sig t * dist3 x a)).comp t (hk.mul_const (dist3 x a))
  have h2 :=
    (end_deriv (kOf mu sig t * dist3 x a)).comp t (hk.mul_const (dist3 x a))
  have h3 := ((h1.div_const (4 * π * dist3 x a ^ 5)).const_mul (mdotr m x a * (x k - a k))).add
    ((h2.div_const (4 * π * dist3 x a ^ 3)).const_mul (m k))
  have e : (fun s => magH mu sig s m a x k) = _ := funext fun s => magH_shape mu sig s m a x k
  rw [e]
  refine h3.congr_deriv ?_
  rw [magDhdt_shape mu sig t m hx, eRad]
  have hp := pi_pos.ne'
  have hp2 : √π ≠ 0 := (sqrt_pos.2 pi_pos).ne'
  field_simp
  ring

theorem magH_curl {mu sig t : ℝ} (hs : 0 < sig) (m : Pt) {a x : Pt} (hx : x ≠ a) :
    IsCurl (magH mu sig t m a) x fun k => sig * -(dist3 x a * magE mu sig t m a x k) := by
  have hr := (dist_pos hx).ne'
  refine (curl_T m hx (rad_deriv 5 hr (mid_deriv _)) (rad_deriv 3 hr (end_deriv _))).congr
    (magH_shape mu sig t m a) fun k => ?_
  rw [magE_shape]
  simp only [smul_eq_mul, midOf, endOf, eRad]
  have hp := pi_pos.ne'
  have hp2 : √π ≠ 0 := (sqrt_pos.2 pi_pos).ne'
  have := hs.ne'
  field_simp
  ring

theorem magH_div (mu sig t : ℝ) (m : Pt) {a x : Pt} (hx : x ≠ a) : IsDiv (magH mu sig t m a) x 0 := by
  have hr := (dist_pos hx).ne'
  refine (div_T m hx (rad_deriv 5 hr (mid_deriv _)) (rad_deriv 3 hr (end_deriv _))).congr
    (magH_shape mu sig t m a) ?_
  simp only [smul_eq_mul, midOf, endOf]
  have hp := pi_pos.ne'
  have hp2 : √π ≠ 0 := (sqrt_pos.2 pi_pos).ne'
  push_cast
  field_simp
  ring

theorem magE_curl {mu sig t : ℝ} (hm : 0 < mu) (m : Pt) {a x : Pt} (hx : x ≠ a) :
    IsCurl (fun y k => -(dist3 y a * magE mu sig t m a y k)) x fun k => mu * magDhdt mu sig t m a x k := by
  have hr := (dist_pos hx).ne'
  refine (curl_S m hx (eRad_deriv mu sig t (dist3 x a))).congr (fun y k => magE_shape mu sig t m a y k)
    fun k => ?_
  rw [magDhdt_shape mu sig t m hx]
  simp only [smul_eq_mul]
  have := hm.ne'
  field_simp
  ring

/-! ### Limits -/

theorem pow_exp (n : ℕ) : Tendsto (fun x : ℝ => x ^ n * exp (-(x ^ 2))) atTop (𝓝 0) := by
  refine squeeze_zero' ?_ ?_ (tendsto_pow_mul_exp_neg_atTop_nhds_zero n)
  · filter_upwards [eventually_ge_atTop 0] with x hx
    positivity
  · filter_upwards [eventually_ge_atTop 1] with x hx
    gcongr
    nlinarith

theorem mid_top : Tendsto midOf atTop (𝓝 3) := by
  have h := (erf_top.const_mul 3).sub ((((pow_exp 3).const_mul 4).add ((pow_exp 1).const_mul 6)).div_const (√π))
  have e : midOf = fun x => 3 * erf x - (4 * (x ^ 3 * exp (-(x ^ 2))) + 6 * (x ^ 1 * exp (-(x ^ 2)))) / √π := by
    funext x; simp only [midOf]; ring
  rw [e]
  simpa using h

theorem end_top : Tendsto endOf atTop (𝓝 (-1)) := by
  have h := erf_top.neg.add ((((pow_exp 3).const_mul 4).add ((pow_exp 1).const_mul 2)).div_const (√π))
  have e : endOf = fun x => -erf x + (4 * (x ^ 3 * exp (-(x ^ 2))) + 2 * (x ^ 1 * exp (-(x ^ 2)))) / √π := by
    funext x; simp only [endOf]; ring
  rw [e]
  simpa using h

theorem s_top : Tendsto sOf atTop (𝓝 1) := by
  have h := erf_top.sub (((pow_exp 1).const_mul 2).div_const (√π))
  have e : sOf = fun x => erf x - (2 * (x ^ 1 * exp (-(x ^ 2)))) / √π := by
    funext x; simp only [sOf]; ring
  rw [e]
  simpa using h

theorem k_top {mu sig : ℝ} (hm : 0 < mu) (hs : 0 < sig) : Tendsto (kOf mu sig) (𝓝[>] 0) atTop := by
  have h : Tendsto (fun t : ℝ => mu * sig / (4 * t)) (𝓝[>] 0) atTop := by
    have h1 := (tendsto_inv_nhdsGT_zero (𝕜 := ℝ)).const_mul_atTop (show 0 < mu * sig / 4 by positivity)
    refine h1.congr fun t => ?_
    rw [div_mul_eq_div_div, div_eq_mul_inv _ t]
  exact tendsto_sqrt_atTop.comp h

theorem k_zero (mu sig : ℝ) : Tendsto (kOf mu sig) atTop (𝓝 0) := by
  have h : Tendsto (fun t : ℝ => mu * sig / (4 * t)) atTop (𝓝 0) :=
    tendsto_const_nhds.div_atTop (tendsto_id.const_mul_atTop four_pos)
  have := h.sqrt
  rw [sqrt_zero] at this
  exact this

theorem magH_lim {mu sig : ℝ} {l : Filter ℝ} {M N : ℝ} (m a x : Pt)
    (h1 : Tendsto (fun t => midOf (kOf mu sig t * dist3 x a)) l (𝓝 M))
    (h2 : Tendsto (fun t => endOf (kOf mu sig t * dist3 x a)) l (𝓝 N)) (k : Fin 3) :
    Tendsto (fun t => magH mu sig t m a x k) l
      (𝓝 (mdotr m x a * (x k - a k) * (M / (4 * π * dist3 x a ^ 5)) + m k * (N / (4 * π * dist3 x a ^ 3)))) := by
  have e : (fun s => magH mu sig s m a x k) = _ := funext fun s => magH_shape mu sig s m a x k
  rw [e]
  exact ((h1.div_const _).const_mul _).add ((h2.div_const _).const_mul _)

/-- At late times. -/
theorem late {F : ℝ → ℝ} (mu sig ρ : ℝ) (hF : ContinuousAt F 0) :
    Tendsto (fun t => F (kOf mu sig t * ρ)) atTop (𝓝 (F 0)) := by
  have h := (k_zero mu sig).mul_const ρ
  rw [zero_mul] at h
  exact hF.tendsto.comp h

/-- At early times. -/
theorem early {F : ℝ → ℝ} {L mu sig ρ : ℝ} (hm : 0 < mu) (hs : 0 < sig) (hρ : 0 < ρ)
    (hF : Tendsto F atTop (𝓝 L)) : Tendsto (fun t => F (kOf mu sig t * ρ)) (𝓝[>] 0) (𝓝 L) :=
  hF.comp ((k_top hm hs).atTop_mul_const hρ)

/-! ### C162 -/

/-- C162. **The magnetic field of a magnetic dipole switched off in a conductive whole-space** has no sources,
starts as the static field of the dipole, fades, and satisfies Maxwell's equations together with the
electric field returned when that is multiplied by minus the distance (missing: with the electric field
as returned, see `C162_violated_e`). -/
theorem C162_magnetic_partial {mu sig : ℝ} (hm : 0 < mu) (hs : 0 < sig) (m : Pt) {a x : Pt} (hx : x ≠ a) :
    (∀ t, 0 < t → Maxwell mu sig (fun t y k => -(dist3 y a * magE mu sig t m a y k))
      (fun t => magH mu sig t m a) t x) ∧
    (∀ k, Tendsto (fun t => magH mu sig t m a x k) (𝓝[>] 0) (𝓝 (dipoleH0 m a x k))) ∧
    ∀ k, Tendsto (fun t => magH mu sig t m a x k) atTop (𝓝 0) := by
  refine ⟨fun t ht => ⟨magH_curl hs m hx, ⟨_, magH_time hm hs ht m hx, ?_⟩, magH_div mu sig t m hx⟩,
    fun k => ?_, fun k => ?_⟩
  · exact (magE_curl hm m hx).congr (fun _ _ => rfl) fun k => by ring
  · have h := magH_lim m a x (early hm hs (dist_pos hx) mid_top) (early hm hs (dist_pos hx) end_top) k
    have e : dipoleH0 m a x k = mdotr m x a * (x k - a k) * (3 / (4 * π * dist3 x a ^ 5))
        + m k * (-1 / (4 * π * dist3 x a ^ 3)) := by
      rw [dipoleH0]; ring
    rw [e]; exact h
  · have h := magH_lim m a x (late mu sig (dist3 x a) (mid_deriv 0).continuousAt)
      (late mu sig (dist3 x a) (end_deriv 0).continuousAt) k
    have e1 : midOf 0 = 0 := by simp [midOf, erf_zero]
    have e2 : endOf 0 = 0 := by simp [endOf, erf_zero]
    simpa [e1, e2] using h

/-- A vertical dipole in sea water, seen from a hundred metres. -/
example : Maxwell (perm 1) 3 (fun t y k => -(dist3 y 0 * magE (perm 1) 3 t ![0, 0, 1] 0 y k))
    (fun t => magH (perm 1) 3 t ![0, 0, 1] 0) (1 / 1000) ![100, 0, 0] :=
  (C162_magnetic_partial (by unfold perm; positivity) (by norm_num) _
    fun h => by simpa using congrFun h 0).1 _ (by norm_num)

/-- C162. Violated: what is returned as the time derivative of the magnetic field of a magnetic dipole is
minus that derivative. -/
theorem C162_violated_dhdt {mu sig t : ℝ} (hm : 0 < mu) (hs : 0 < sig) (ht : 0 < t) (m : Pt) {a x : Pt}
    (hx : x ≠ a) (k : Fin 3) :
    HasDerivAt (fun s => magH mu sig s m a x k) (-magDhdt mu sig t m a x k) t :=
  magH_time hm hs ht m hx k

/-- C162. Violated by the electric field of a magnetic dipole: wherever it is not zero, it is not the one
that goes with the magnetic field. -/
theorem C162_violated_e {mu sig t : ℝ} (hs : 0 < sig) (m : Pt) {a x : Pt} (hx : x ≠ a)
    (he : magE mu sig t m a x ≠ 0) :
    ¬ IsCurl (magH mu sig t m a) x fun k => sig * magE mu sig t m a x k := by
  intro h
  have h2 := h.unique (magH_curl hs m hx)
  apply he
  funext k
  have h3 := congrFun h2 k
  have hr := dist_pos hx
  have h4 : magE mu sig t m a x k = -(dist3 x a * magE mu sig t m a x k) := mul_left_cancel₀ hs.ne' h3
  have h5 : (1 + dist3 x a) * magE mu sig t m a x k = 0 := by linarith
  rcases mul_eq_zero.1 h5 with h | h
  · linarith
  · exact h

/-- The field of a vertical dipole is not zero at the side of it. -/
example : magE 1 1 1 ![0, 0, 1] 0 ![1, 0, 0] ≠ 0 := by
  intro h
  have h1 := congrFun h 1
  have h2 : π ^ (1.5 : ℝ) ≠ 0 := (rpow_pos_of_pos pi_pos _).ne'
  simp [magE, dist3, kOf] at h1
  exact h2 h1

theorem elecH_time {mu sig t : ℝ} (hm : 0 < mu) (hs : 0 < sig) (ht : 0 < t) (m : Pt) {a x : Pt} (hx : x ≠ a)
    (k : Fin 3) : HasDerivAt (fun s => elecH mu sig s m a x k) (elecDhdt mu sig t m a x k) t := by
  have hk := k_deriv hm hs ht
  have hr := (dist_pos hx).ne'
  have h1 := (s_deriv (kOf mu sig t * dist3 x a)).comp t (hk.mul_const (dist3 x a))
  have h3 := ((h1.div_const (4 * π * dist3 x a ^ 3)).const_mul (cross m (x - a) k)).neg
  have e : (fun s => elecH mu sig s m a x k) = fun s => -(cross m (x - a) k •
      (fun ρ => sOf (kOf mu sig s * ρ) / (4 * π * ρ ^ 3)) (dist3 x a)) :=
    funext fun s => by rw [← elecH_shape]; ring
  rw [e]
  refine h3.congr_deriv ?_
  rw [elecDhdt_shape mu sig t m, eRad, smul_eq_mul]
  have hp := pi_pos.ne'
  have hp2 : √π ≠ 0 := (sqrt_pos.2 pi_pos).ne'
  field_simp

theorem elecH_curl {mu sig t : ℝ} (hs : 0 < sig) (m : Pt) {a x : Pt} (hx : x ≠ a) :
    IsCurl (fun y k => -elecH mu sig t m a y k) x fun k => sig * elecE mu sig t m a x k := by
  have hr := (dist_pos hx).ne'
  refine (curl_S m hx (rad_deriv 3 hr (s_deriv _))).congr (elecH_shape mu sig t m a) fun k => ?_
  rw [elecE_shape, magH_shape]
  simp only [smul_eq_mul, midOf, endOf, sOf]
  have hp := pi_pos.ne'
  have hp2 : √π ≠ 0 := (sqrt_pos.2 pi_pos).ne'
  have := hs.ne'
  push_cast
  field_simp
  ring

theorem curl_const {F : Pt → Pt} {x c : Pt} (s : ℝ) (h : IsCurl F x c) :
    IsCurl (fun y k => s * F y k) x fun k => s * c k := by
  obtain ⟨D, hD, h0, h1, h2⟩ := h
  refine ⟨fun k j => s * D k j, fun k j => HasDerivAt.const_mul s (hD k j), ?_, ?_, ?_⟩
  · simp only [h0]; ring
  · simp only [h1]; ring
  · simp only [h2]; ring

/-- C162. **The fields of an electric dipole switched off in a conductive whole-space** satisfy Maxwell's
equations, when the magnetic field returned is given the other sign; the electric field starts as the static
field of the dipole and fades; what is returned as the time derivative of the magnetic field is that of the
magnetic field returned (missing: Maxwell's equations with the magnetic field as returned, see
`C162_violated_h`). -/
theorem C162_electric_partial {mu sig : ℝ} (hm : 0 < mu) (hs : 0 < sig) (m : Pt) {a x : Pt} (hx : x ≠ a) :
    (∀ t, 0 < t → Maxwell mu sig (fun t => elecE mu sig t m a) (fun t y k => -elecH mu sig t m a y k) t x) ∧
    (∀ k, Tendsto (fun t => elecE mu sig t m a x k) (𝓝[>] 0) (𝓝 (dipoleH0 m a x k / sig))) ∧
    (∀ k, Tendsto (fun t => elecE mu sig t m a x k) atTop (𝓝 0)) ∧
    (∀ k, Tendsto (fun t => -elecH mu sig t m a x k) (𝓝[>] 0)
      (𝓝 (cross m (x - a) k / (4 * π * dist3 x a ^ 3)))) ∧
    (∀ k, Tendsto (fun t => elecH mu sig t m a x k) atTop (𝓝 0)) ∧
    ∀ t, 0 < t → ∀ k, HasDerivAt (fun s => elecH mu sig s m a x k) (elecDhdt mu sig t m a x k) t := by
  obtain ⟨-, h0, h1⟩ := C162_magnetic_partial hm hs m hx
  have hr := (dist_pos hx).ne'
  refine ⟨fun t ht => ⟨elecH_curl hs m hx, ⟨_, fun k => (elecH_time hm hs ht m hx k).neg, ?_⟩, ?_⟩,
    fun k => ?_, fun k => ?_, fun k => ?_, fun k => ?_, fun t ht => elecH_time hm hs ht m hx⟩
  · refine (curl_const (1 / sig) (magH_curl hs m hx)).congr (elecE_shape mu sig t m a) fun k => ?_
    rw [elecDhdt_shape, magE_shape]
    have := hm.ne'
    have := hs.ne'
    simp only [smul_eq_mul]
    field_simp
  · exact (div_S m hx (rad_deriv 3 hr (s_deriv _))).congr (elecH_shape mu sig t m a) rfl
  · have := (h0 k).const_mul (1 / sig)
    simp only [elecE_shape]
    convert this using 2
    ring
  · have := (h1 k).const_mul (1 / sig)
    simp only [elecE_shape]
    simpa using this
  · have h := ((early hm hs (dist_pos hx) s_top).div_const (4 * π * dist3 x a ^ 3)).const_mul
      (cross m (x - a) k)
    rw [mul_one_div] at h
    simp only [elecH_shape]
    exact h
  · have h := (((late mu sig (dist3 x a) (s_deriv 0).continuousAt).div_const
      (4 * π * dist3 x a ^ 3)).const_mul (cross m (x - a) k)).neg
    have e : (fun s => elecH mu sig s m a x k) = fun s => -(cross m (x - a) k *
        (sOf (kOf mu sig s * dist3 x a) / (4 * π * dist3 x a ^ 3))) :=
      funext fun s => by have := elecH_shape mu sig s m a x k; simp only [smul_eq_mul] at this; linarith
    rw [e]
    have e1 : sOf 0 = 0 := by simp [sOf, erf_zero]
    simpa [e1] using h

example : Maxwell (perm 1) 3 (fun t => elecE (perm 1) 3 t ![1, 0, 0] 0)
    (fun t y k => -elecH (perm 1) 3 t ![1, 0, 0] 0 y k) (1 / 1000) ![0, 100, 0] :=
  (C162_electric_partial (by unfold perm; positivity) (by norm_num) _
    fun h => by simpa using congrFun h 1).1 _ (by norm_num)

/-- C162. Violated by the magnetic field of an electric dipole: its curl is minus the electric current, so
that Ampère's law fails wherever there is a current; at early times it is minus the field of the law of Biot
and Savart. -/
theorem C162_violated_h {mu sig t : ℝ} (hs : 0 < sig) (m : Pt) {a x : Pt} (hx : x ≠ a) :
    IsCurl (elecH mu sig t m a) x (fun k => -(sig * elecE mu sig t m a x k)) ∧
    (elecE mu sig t m a x ≠ 0 → ¬ IsCurl (elecH mu sig t m a) x fun k => sig * elecE mu sig t m a x k) := by
  have h : IsCurl (elecH mu sig t m a) x (fun k => -(sig * elecE mu sig t m a x k)) :=
    (curl_const (-1) (elecH_curl hs m hx)).congr (fun y k => by ring) fun k => by ring
  refine ⟨h, fun he h2 => he ?_⟩
  have h3 := h.unique h2
  funext k
  have h4 := congrFun h3 k
  have h5 : sig * elecE mu sig t m a x k = 0 := by linarith
  exact (mul_eq_zero.1 h5).resolve_left hs.ne'

/-- C162. **Reciprocity of loops and dipoles**: growing a loop adds, at its centre, the vertical field of the
dipoles on the rim. -/
theorem C162_loop {mu0 t sigma a : ℝ} (hm : 0 < mu0) (hs : 0 < sigma) (ht : 0 < t) (ha : 0 < a) :
    HasDerivAt (fun a => hzLoop mu0 a t sigma) (2 * π * a * hzDipole mu0 a t sigma) a := by
  have hθ : 0 < √(sigma * mu0 / (4 * t)) := sqrt_pos.2 (by positivity)
  unfold hzLoop hzDipole
  generalize √(sigma * mu0 / (4 * t)) = θ at *
  have hx : HasDerivAt (fun a : ℝ => θ * a) θ a := by simpa using (hasDerivAt_id a).const_mul θ
  have hp2 : 0 < √π := sqrt_pos.2 pi_pos
  have h1 := ((hx.const_mul (√π)).inv (by positivity)).const_mul 3
  have h2 := h1.mul ((exp_deriv (θ * a)).comp a hx)
  have h3 := ((((hx.pow 2).const_mul 2).inv (by simp; constructor <;> positivity)).const_mul 3).const_sub 1
  have h4 := h3.mul ((erf_deriv (θ * a)).comp a hx)
  have h5 := (h2.add h4).div ((hasDerivAt_id a).const_mul 2) (by simp; positivity)
  refine (HasDerivAt.congr_deriv h5 ?_)
  simp
  field_simp
  ring

/-- C162. The field at the centre of the loop is that of the current before it is switched off. -/
theorem C162_loop_start {mu0 sigma a : ℝ} (hm : 0 < mu0) (hs : 0 < sigma) (ha : 0 < a) :
    Tendsto (fun t => hzLoop mu0 a t sigma) (𝓝[>] 0) (𝓝 (1 / (2 * a))) := by
  have hg : Tendsto (fun x : ℝ => 3 / (√π * x) * exp (-(x ^ 2)) + (1 - 3 / (2 * x ^ 2)) * erf x) atTop
      (𝓝 1) := by
    have i1 : Tendsto (fun x : ℝ => x⁻¹) atTop (𝓝 0) := tendsto_inv_atTop_zero
    have h1 := ((i1.const_mul (3 / √π)).mul (pow_exp 0)).add
      ((((i1.pow 2).const_mul (3 / 2)).const_sub 1).mul erf_top)
    simp only [mul_zero, zero_add, sub_zero, mul_one, zero_pow two_ne_zero] at h1
    refine h1.congr fun x => ?_
    rw [div_mul_eq_div_div, div_eq_mul_inv _ x, div_mul_eq_div_div, div_eq_mul_inv _ (x ^ 2), inv_pow]
    ring
  have h := (early (mu := sigma) (sig := mu0) hs hm ha hg).div_const (2 * a)
  exact h

/-- C162. The functions return these fields, for moments given as vectors or by name. -/
theorem C162_returns (a : Pt) (sig t mu_r : ℝ) (m : Pt) {x : Pt} (hx : x ≠ a) :
    transientMagnetic a sig t (.vec m) "h" mu_r x = .ok (some (magH (perm mu_r) sig t m a x)) ∧
    transientMagnetic a sig t (.vec m) "dhdt" mu_r x = .ok (some (magDhdt (perm mu_r) sig t m a x)) ∧
    transientMagnetic a sig t (.vec m) "e" mu_r x = .ok (some (magE (perm mu_r) sig t m a x)) ∧
    transientElectric a sig t (.vec m) "h" mu_r x = .ok (some (elecH (perm mu_r) sig t m a x)) ∧
    transientElectric a sig t (.vec m) "dhdt" mu_r x = .ok (some (elecDhdt (perm mu_r) sig t m a x)) ∧
    transientElectric a sig t (.vec m) "e" mu_r x = .ok (some (elecE (perm mu_r) sig t m a x)) ∧
    (∀ f, transientMagnetic a sig t (.str "X") f mu_r x = transientMagnetic a sig t (.vec ![1, 0, 0]) f mu_r x ∧
      transientMagnetic a sig t (.str "Y") f mu_r x = transientMagnetic a sig t (.vec ![0, 1, 0]) f mu_r x ∧
      transientMagnetic a sig t (.str "Z") f mu_r x = transientMagnetic a sig t (.vec ![0, 0, 1]) f mu_r x) := by
  refine ⟨?_, ?_, ?_, ?_, ?_, ?_, fun f => ⟨?_, ?_, ?_⟩⟩
  all_goals
    simp [transientMagnetic, transientElectric, magMoment, elecMoment, away, hx, axis, Bind.bind, Except.bind, pure,
      Except.pure]

/-- C162. Violated: names of axes in lower case are accepted for electric dipoles and refused for magnetic
ones. -/
theorem C162_violated_case (a : Pt) (sig t mu_r : ℝ) (x : Pt) (f : String) :
    transientElectric a sig t (.str "x") f mu_r x = transientElectric a sig t (.str "X") f mu_r x ∧
    transientMagnetic a sig t (.str "x") f mu_r x = .error .exception := by
  constructor
  · have e : "x".toUpper = "X".toUpper := by decide +kernel
    simp only [transientElectric, elecMoment, e]
  · simp [transientMagnetic, magMoment, axis, Bind.bind, Except.bind]

end Verif.TDEM.Dipoles.Props
