import Verif.EM.Curl
import Verif.NSEM.Analytic
import Mathlib.Analysis.SpecialFunctions.ExpDeriv
import Mathlib.Analysis.Complex.RealDeriv

/-!
C163: the analytic fields of harmonic dipoles (`simpeg/electromagnetics/analytics/FDEM.py`).
-/

noncomputable section
namespace Verif.FDEM.Dipoles
open Verif Verif.VRM Verif.EM.Curl Complex

/-- `scipy.constants.pi`. -/
local notation "π" => Real.pi

/-! ### The code -/

/-- `k` of `hzAnalyticDipoleF` (42). -/
def kHz (freq mu sigma : ℝ) : ℂ := (-1 * I * 2 * π * freq * mu * sigma : ℂ) ^ (1 / 2 : ℂ)

/-- `hzAnalyticDipoleF` at one distance and frequency (41-58); `none` is not a number, where the code divides
zero by zero. -/
def hzDipole (r freq sigma : ℝ) (secondary : Bool) (mu : ℝ) : Option ℂ :=
  let r : ℝ := |r|;
  let k := kHz freq mu sigma;
  if k ^ 2 * r ^ 5 = 0 then none
  else
    let front := 1 / (2 * π * k ^ 2 * r ^ 5);
    let back := 9 - (9 + 9 * I * k * r - 4 * k ^ 2 * r ^ 2 - I * k ^ 3 * r ^ 3) * exp (-1 * I * k * r);
    let hz := front * back;
    if secondary then
      let hp : ℂ := -1 / (4 * π * r ^ 3);
      some (hz - hp)
    else some hz

/-- `k` (142, 231). -/
def kOf (w mu sig eps : ℝ) : ℂ := (-1 * I * w * mu * sig + w ^ 2 * mu * eps : ℂ) ^ (1 / 2 : ℂ)

/-- A field with complex components. -/
abbrev Fld := Fin 3 → ℂ

/-- `fieldType="h"` of the magnetic dipole (146-165). -/
def magH (w mu sig eps : ℝ) (m a x : Pt) : Fld :=
  let d := x - a;
  let r := dist3 x a;
  let kr := kOf w mu sig eps * r;
  let front := 1 / (4 * π * r ^ 3) * exp (-1 * I * kr);
  let mid := -(kr ^ 2) + 3 * 1 * I * kr + 3;
  ![front * (m 0 * ((d 0 / r : ℂ) ^ 2 * mid + (kr ^ 2 - 1 * I * kr - 1)) + m 1 * ((d 1 * d 0 / r ^ 2) * mid)
      + m 2 * ((d 0 * d 2 / r ^ 2) * mid)),
    front * (m 0 * ((d 0 * d 1 / r ^ 2) * mid) + m 1 * ((d 1 / r : ℂ) ^ 2 * mid + (kr ^ 2 - 1 * I * kr - 1))
      + m 2 * ((d 1 * d 2 / r ^ 2) * mid)),
    front * (m 0 * ((d 0 * d 2 / r ^ 2) * mid) + m 1 * ((d 1 * d 2 / r ^ 2) * mid)
      + m 2 * ((d 2 / r : ℂ) ^ 2 * mid + (kr ^ 2 - 1 * I * kr - 1)))]

/-- `fieldType="e"` of the magnetic dipole (171-177). -/
def magE (w mu sig eps : ℝ) (m a x : Pt) : Fld :=
  let d := x - a;
  let r := dist3 x a;
  let kr := kOf w mu sig eps * r;
  let front := 1 * I * w * mu * (1 + 1 * I * kr) / (4 * π * r ^ 3) * exp (-1 * I * kr);
  ![front * (m 1 * (d 2 / r) + m 2 * (-d 1 / r)), front * (m 0 * (-d 2 / r) + m 2 * (d 0 / r)),
    front * (m 0 * (d 1 / r) + m 1 * (-d 0 / r))]

/-- `fieldType="e"` of the electric dipole (235-254). -/
def elecE (w mu sig eps : ℝ) (m a x : Pt) : Fld :=
  let d := x - a;
  let r := dist3 x a;
  let k := kOf w mu sig eps;
  let front := 1 / (4 * π * sig * r ^ 3) * exp (-1 * I * k * r);
  let mid := -(k ^ 2) * r ^ 2 + 3 * 1 * I * k * r + 3;
  let fin := k ^ 2 * r ^ 2 - 1 * I * k * r - 1;
  ![front * (m 0 * ((d 0 ^ 2 / r ^ 2) * mid + fin) + m 1 * (d 1 * d 0 / r ^ 2) * mid
      + m 2 * (d 2 * d 0 / r ^ 2) * mid),
    front * (m 0 * (d 0 * d 1 / r ^ 2) * mid + m 1 * ((d 1 ^ 2 / r ^ 2) * mid + fin)
      + m 2 * (d 2 * d 1 / r ^ 2) * mid),
    front * (m 0 * (d 0 * d 2 / r ^ 2) * mid + m 1 * (d 1 * d 2 / r ^ 2) * mid
      + m 2 * ((d 2 ^ 2 / r ^ 2) * mid + fin))]

/-- `fieldType="h"` of the electric dipole (257-263). -/
def elecH (w mu sig eps : ℝ) (m a x : Pt) : Fld :=
  let d := x - a;
  let r := dist3 x a;
  let k := kOf w mu sig eps;
  let kr := k * r;
  let front := (1 + 1 * I * kr) / (4 * π * r ^ 2) * exp (-1 * I * k * r);
  ![front * (m 1 * (d 2 / r) + m 2 * (-d 1 / r)), front * (m 0 * (-d 2 / r) + m 2 * (d 0 / r)),
    front * (m 0 * (d 1 / r) + m 1 * (-d 0 / r))]

/-- `mu * Fx, mu * Fy, mu * Fz` (168, 266). -/
def flux (mu : ℝ) (F : Fld) : Fld := ![mu * F 0, mu * F 1, mu * F 2]

/-- `MagneticDipoleWholeSpace` at one place, for a moment given as a vector (61-179); `none` is not a number,
at the place of the dipole. Another `fieldType` leaves `Fx` unbound. The keywords that are refused are left
out; moments given by name are those of C162. `mu0` and `eps0` are the constants of scipy. -/
def magnetic (mu0 eps0 : ℝ) (a : Pt) (sig f : ℝ) (m : Pt) (fieldType : String) (mu_r eps_r : ℝ) (x : Pt) :
    Except Err (Option Fld) :=
  let mu := mu0 * mu_r;
  let eps := eps0 * eps_r;
  let w := 2 * π * f;
  if fieldType = "h" ∨ fieldType = "b" then
    let F := magH w mu sig eps m a x;
    if x = a then .ok none else if fieldType = "b" then .ok (some (flux mu F)) else .ok (some F)
  else if fieldType = "e" then
    if x = a then .ok none else .ok (some (magE w mu sig eps m a x))
  else .error .exception

/-- `ElectricDipoleWholeSpace`, likewise (182-268). -/
def electric (mu0 eps0 : ℝ) (a : Pt) (sig f : ℝ) (m : Pt) (fieldType : String) (mu_r eps_r : ℝ) (x : Pt) :
    Except Err (Option Fld) :=
  let mu := mu0 * mu_r;
  let eps := eps0 * eps_r;
  let w := 2 * π * f;
  if fieldType = "e" then
    if x = a then .ok none else .ok (some (elecE w mu sig eps m a x))
  else if fieldType = "h" ∨ fieldType = "b" then
    let F := elecH w mu sig eps m a x;
    if x = a then .ok none else if fieldType = "b" then .ok (some (flux mu F)) else .ok (some F)
  else .error .exception

/-! ### Specification -/

/-- Maxwell's equations for the time dependence `exp(i w t)`, outside of sources. -/
def Maxwell (w mu sig eps : ℝ) (e h : Pt → Fld) (x : Pt) : Prop :=
  IsCurl e x (fun k => -(I * w * mu) * h x k) ∧
  IsCurl h x (fun k => (sig + I * w * eps) * e x k) ∧ IsDiv h x 0

end Verif.FDEM.Dipoles

namespace Verif.FDEM.Dipoles.Props
open Verif Verif.VRM Verif.VRM.Props Verif.PF.Spheres Verif.EM.Curl Verif.FDEM.Dipoles Complex Filter Topology

local notation "π" => Real.pi

theorem k_sq (w mu sig eps : ℝ) :
    kOf w mu sig eps ^ 2 = -(I * w * mu) * (sig + I * w * eps) := by
  have := Complex.cpow_nat_inv_pow (-1 * I * w * mu * sig + w ^ 2 * mu * eps : ℂ) (n := 2) (by norm_num)
  have e : kOf w mu sig eps ^ 2 = -1 * I * w * mu * sig + w ^ 2 * mu * eps := by
    rw [← this, kOf]; norm_num
  rw [e]
  linear_combination ((w : ℂ) ^ 2 * mu * eps) * I_sq

theorem k_wave (w mu sig eps : ℝ) : kOf w mu sig eps = NSEM.Analytic.wave eps mu w sig := by
  unfold kOf NSEM.Analytic.wave
  congr 1
  push_cast; ring

/-! ### Shapes -/

/-- Radial parts. -/
def fA (k : ℂ) (z : ℂ) : ℂ := (-((k * z) ^ 2) + 3 * I * (k * z) + 3) * exp (-(I * k * z)) / (4 * π * z ^ 5)
def fB (k : ℂ) (z : ℂ) : ℂ := ((k * z) ^ 2 - I * (k * z) - 1) * exp (-(I * k * z)) / (4 * π * z ^ 3)
def fS (k : ℂ) (z : ℂ) : ℂ := (1 + I * (k * z)) * exp (-(I * k * z)) / (4 * π * z ^ 3)

theorem magH_shape (w mu sig eps : ℝ) (m a x : Pt) (k : Fin 3) :
    magH w mu sig eps m a x k = (mdotr m x a * (x k - a k)) • fA (kOf w mu sig eps) (dist3 x a)
      + m k • fB (kOf w mu sig eps) (dist3 x a) := by
  have e : -1 * I * (kOf w mu sig eps * (dist3 x a : ℂ)) = -(I * kOf w mu sig eps * (dist3 x a : ℂ)) := by ring
  fin_cases k <;> simp [magH, mdotr, fA, fB, e] <;> ring

theorem elecE_shape (w mu sig eps : ℝ) (m a x : Pt) (k : Fin 3) :
    elecE w mu sig eps m a x k = 1 / sig * magH w mu sig eps m a x k := by
  have e : I * kOf w mu sig eps * (dist3 x a : ℂ) = I * (kOf w mu sig eps * (dist3 x a : ℂ)) := by ring
  fin_cases k <;> simp [elecE, magH, e] <;> ring

theorem elecH_shape (w mu sig eps : ℝ) (m a x : Pt) (k : Fin 3) :
    elecH w mu sig eps m a x k = cross m (x - a) k • fS (kOf w mu sig eps) (dist3 x a) := by
  fin_cases k <;> simp [elecH, cross, fS] <;> ring

theorem magE_shape (w mu sig eps : ℝ) (m : Pt) {a x : Pt} (hx : x ≠ a) (k : Fin 3) :
    dist3 x a * magE w mu sig eps m a x k = I * w * mu * elecH w mu sig eps m a x k := by
  have hr : (dist3 x a : ℂ) ≠ 0 := by exact_mod_cast (dist_pos hx).ne'
  have e : I * kOf w mu sig eps * (dist3 x a : ℂ) = I * (kOf w mu sig eps * (dist3 x a : ℂ)) := by ring
  fin_cases k <;> simp [elecH, magE, e] <;> field_simp

/-! ### Derivatives -/

theorem exp_deriv (k z : ℂ) :
    HasDerivAt (fun z => exp (-(I * k * z))) (-(I * k) * exp (-(I * k * z))) z := by
  have h := (((hasDerivAt_id z).const_mul (I * k)).neg).cexp
  refine h.congr_deriv ?_
  simp; ring

theorem rad {P : ℂ → ℂ} {P' k : ℂ} {ρ : ℝ} (n : ℕ) (hρ : ρ ≠ 0) (h : HasDerivAt P P' (ρ : ℂ)) :
    HasDerivAt (fun s : ℝ => P s * exp (-(I * k * s)) / (4 * π * (s : ℂ) ^ n))
      ((P' * ρ - I * k * ρ * P ρ - n * P ρ) * exp (-(I * k * ρ)) / (4 * π * (ρ : ℂ) ^ (n + 1))) ρ := by
  have hz : (ρ : ℂ) ≠ 0 := by exact_mod_cast hρ
  have hpi : (π : ℂ) ≠ 0 := by exact_mod_cast Real.pi_ne_zero
  have hd : (4 * π * (ρ : ℂ) ^ n) ≠ 0 := mul_ne_zero (mul_ne_zero (by norm_num) hpi) (pow_ne_zero _ hz)
  have h1 := (h.mul (exp_deriv k ρ)).div ((hasDerivAt_pow n (ρ : ℂ)).const_mul (4 * π : ℂ)) hd
  refine (HasDerivAt.comp_ofReal h1).congr_deriv ?_
  simp only [Pi.mul_apply]
  cases n with
  | zero => simp; field_simp; ring
  | succ n =>
    simp only [Nat.add_sub_cancel]
    field_simp
    push_cast
    ring

theorem fA_deriv (k : ℂ) {ρ : ℝ} (hρ : ρ ≠ 0) :
    HasDerivAt (fun s : ℝ => fA k s) (((-(2 * k ^ 2 * ρ) + 3 * I * k) * ρ
      - I * k * ρ * (-((k * ρ) ^ 2) + 3 * I * (k * ρ) + 3) - 5 * (-((k * ρ) ^ 2) + 3 * I * (k * ρ) + 3))
      * exp (-(I * k * ρ)) / (4 * π * (ρ : ℂ) ^ 6)) ρ := by
  have hk := (hasDerivAt_id (ρ : ℂ)).const_mul k
  have hp : HasDerivAt (fun z : ℂ => -((k * z) ^ 2) + 3 * I * (k * z) + 3) (-(2 * k ^ 2 * ρ) + 3 * I * k) ρ := by
    refine (((hk.pow 2).neg.add (hk.const_mul (3 * I))).add_const 3).congr_deriv ?_
    simp; ring
  exact rad 5 hρ hp

theorem fB_deriv (k : ℂ) {ρ : ℝ} (hρ : ρ ≠ 0) :
    HasDerivAt (fun s : ℝ => fB k s) (((2 * k ^ 2 * ρ - I * k) * ρ
      - I * k * ρ * ((k * ρ) ^ 2 - I * (k * ρ) - 1) - 3 * ((k * ρ) ^ 2 - I * (k * ρ) - 1))
      * exp (-(I * k * ρ)) / (4 * π * (ρ : ℂ) ^ 4)) ρ := by
  have hk := (hasDerivAt_id (ρ : ℂ)).const_mul k
  have hp : HasDerivAt (fun z : ℂ => (k * z) ^ 2 - I * (k * z) - 1) (2 * k ^ 2 * ρ - I * k) ρ := by
    refine (((hk.pow 2).sub (hk.const_mul I)).sub_const 1).congr_deriv ?_
    simp; ring
  exact rad 3 hρ hp

theorem fS_deriv (k : ℂ) {ρ : ℝ} (hρ : ρ ≠ 0) :
    HasDerivAt (fun s : ℝ => fS k s) (((I * k) * ρ
      - I * k * ρ * (1 + I * (k * ρ)) - 3 * (1 + I * (k * ρ)))
      * exp (-(I * k * ρ)) / (4 * π * (ρ : ℂ) ^ 4)) ρ := by
  have hk := (hasDerivAt_id (ρ : ℂ)).const_mul k
  have hp : HasDerivAt (fun z : ℂ => 1 + I * (k * z)) (I * k) ρ := by
    refine ((hk.const_mul I).const_add 1).congr_deriv ?_
    simp
  exact rad 3 hρ hp

/-! ### Curls -/

theorem curl_const {F : Pt → Fld} {x : Pt} {c : Fld} (s : ℂ) (h : IsCurl F x c) :
    IsCurl (fun y k => s * F y k) x fun k => s * c k := by
  obtain ⟨D, hD, h0, h1, h2⟩ := h
  refine ⟨fun k j => s * D k j, fun k j => HasDerivAt.const_mul s (hD k j), ?_, ?_, ?_⟩
  · simp only [h0]; ring
  · simp only [h1]; ring
  · simp only [h2]; ring

/-- Curls are local. -/
theorem curl_local {F G : Pt → Fld} {a x : Pt} {c : Fld} (hx : x ≠ a) (h : IsCurl F x c)
    (hF : ∀ y, y ≠ a → ∀ k, G y k = F y k) : IsCurl G x c := by
  obtain ⟨D, hD, h0⟩ := h
  refine ⟨D, fun k j => HasDerivAt.congr_of_eventuallyEq (hD k j) ?_, h0⟩
  have hc : ContinuousAt (fun t : ℝ => Function.update x j t) (x j) := by fun_prop
  have hn : ∀ᶠ t in 𝓝 (x j), Function.update x j t ≠ a :=
    hc.eventually_ne (by simpa using hx)
  filter_upwards [hn] with t ht
  exact hF _ ht k

theorem magH_curl (w mu sig eps : ℝ) (m : Pt) {a x : Pt} (hx : x ≠ a) :
    IsCurl (magH w mu sig eps m a) x fun k => kOf w mu sig eps ^ 2 * elecH w mu sig eps m a x k := by
  have hr := (dist_pos hx).ne'
  refine (curl_T m hx (fA_deriv _ hr) (fB_deriv _ hr)).congr (magH_shape w mu sig eps m a) fun k => ?_
  have hz : (dist3 x a : ℂ) ≠ 0 := by exact_mod_cast hr
  have hpi : (π : ℂ) ≠ 0 := by exact_mod_cast Real.pi_ne_zero
  rw [elecH_shape]
  simp only [Complex.real_smul, fA, fS]
  push_cast
  generalize kOf w mu sig eps = q
  field_simp
  ring_nf
  simp only [I_sq, I_pow_three]
  ring

theorem magH_div (w mu sig eps : ℝ) (m : Pt) {a x : Pt} (hx : x ≠ a) :
    IsDiv (magH w mu sig eps m a) x 0 := by
  have hr := (dist_pos hx).ne'
  refine (div_T m hx (fA_deriv _ hr) (fB_deriv _ hr)).congr (magH_shape w mu sig eps m a) ?_
  have hz : (dist3 x a : ℂ) ≠ 0 := by exact_mod_cast hr
  have hpi : (π : ℂ) ≠ 0 := by exact_mod_cast Real.pi_ne_zero
  simp only [Complex.real_smul, fA]
  push_cast
  generalize kOf w mu sig eps = q
  field_simp
  ring_nf
  simp only [I_sq, I_pow_three]
  ring

theorem elecH_curl (w mu sig eps : ℝ) (m : Pt) {a x : Pt} (hx : x ≠ a) :
    IsCurl (elecH w mu sig eps m a) x fun k => magH w mu sig eps m a x k := by
  have hr := (dist_pos hx).ne'
  refine (curl_S m hx (fS_deriv _ hr)).congr (elecH_shape w mu sig eps m a) fun k => ?_
  have hz : (dist3 x a : ℂ) ≠ 0 := by exact_mod_cast hr
  have hpi : (π : ℂ) ≠ 0 := by exact_mod_cast Real.pi_ne_zero
  rw [magH_shape]
  simp only [Complex.real_smul, fA, fB, fS]
  push_cast
  generalize kOf w mu sig eps = q
  field_simp
  ring_nf
  simp only [I_sq, I_pow_three]
  ring

theorem elecH_div (w mu sig eps : ℝ) (m : Pt) {a x : Pt} (hx : x ≠ a) :
    IsDiv (elecH w mu sig eps m a) x 0 :=
  (div_S m hx (fS_deriv _ (dist_pos hx).ne')).congr (elecH_shape w mu sig eps m a) rfl

/-! ### Far away and at low frequencies -/

theorem pow_exp (n : ℕ) {b : ℝ} (hb : 0 < b) :
    Tendsto (fun s : ℝ => s ^ n * Real.exp (-(b * s))) atTop (𝓝 0) := by
  have h := (Real.tendsto_pow_mul_exp_neg_atTop_nhds_zero n).comp (tendsto_id.const_mul_atTop hb)
  have h2 := h.const_mul ((b ^ n)⁻¹)
  rw [mul_zero] at h2
  refine h2.congr fun s => ?_
  have : b ^ n ≠ 0 := pow_ne_zero _ hb.ne'
  simp only [Function.comp, id, mul_pow]
  field_simp

theorem cpow_exp (n : ℕ) {q : ℂ} (hq : q.im < 0) :
    Tendsto (fun s : ℝ => (s : ℂ) ^ n * exp (-(I * q * s))) atTop (𝓝 0) := by
  rw [tendsto_zero_iff_norm_tendsto_zero]
  have h := pow_exp n (neg_pos.2 hq)
  refine h.congr' ?_
  filter_upwards [eventually_ge_atTop 0] with s hs
  rw [norm_mul, norm_pow, Complex.norm_exp, Complex.norm_real, Real.norm_of_nonneg hs]
  congr 2
  simp

/-- Far from the dipole, along the line in the direction `v`. -/
theorem dist_ray (a v : Pt) {s : ℝ} (hs : 0 ≤ s) : dist3 (a + s • v) a = s * dist3 v 0 := by
  simp only [dist3, Pi.add_apply, Pi.smul_apply, smul_eq_mul, add_sub_cancel_left, Pi.zero_apply, sub_zero]
  rw [show (s * v 0) ^ 2 + (s * v 1) ^ 2 + (s * v 2) ^ 2 = s ^ 2 * (v 0 ^ 2 + v 1 ^ 2 + v 2 ^ 2) by ring,
    Real.sqrt_mul (sq_nonneg s), Real.sqrt_sq hs]

/-! ### C163 -/

/-- C163. **The magnetic field of a harmonic magnetic dipole** has no sources and satisfies Maxwell's
equations, with displacement current, together with the electric field returned when that is multiplied by
minus the distance, for all conductivities, permittivities, permeabilities and frequencies (missing: with
the electric field as returned, see `C163_violated_e`). -/
theorem C163_magnetic_partial (w mu sig eps : ℝ) (m : Pt) {a x : Pt} (hx : x ≠ a) :
    Maxwell w mu sig eps (fun y k => -(dist3 y a * magE w mu sig eps m a y k)) (magH w mu sig eps m a) x := by
  refine ⟨?_, (magH_curl w mu sig eps m hx).congr (fun _ _ => rfl) fun k => ?_, magH_div w mu sig eps m hx⟩
  · refine curl_local hx ((curl_const (-(I * w * mu)) (elecH_curl w mu sig eps m hx))) fun y hy k => ?_
    rw [magE_shape w mu sig eps m hy]; ring
  · simp only [magE_shape w mu sig eps m hx, k_sq]; ring

/-- C163. Violated by the electric field of a magnetic dipole: wherever it is not zero, it is not the one
that goes with the magnetic field. -/
theorem C163_violated_e (w mu eps : ℝ) {sig : ℝ} (hs : 0 < sig) (m : Pt) {a x : Pt} (hx : x ≠ a)
    (he : magE w mu sig eps m a x ≠ 0) :
    ¬ IsCurl (magH w mu sig eps m a) x fun k => (sig + I * w * eps) * magE w mu sig eps m a x k := by
  intro h
  have h2 := h.unique (C163_magnetic_partial w mu sig eps m hx).2.1
  apply he
  funext k
  have h3 := congrFun h2 k
  have hr := dist_pos hx
  have hy : (sig + I * w * eps : ℂ) ≠ 0 := fun h => by
    have := congrArg Complex.re h
    simp at this
    exact hs.ne' this
  have h4 : magE w mu sig eps m a x k = -(dist3 x a * magE w mu sig eps m a x k) := mul_left_cancel₀ hy h3
  have h5 : (1 + dist3 x a : ℂ) * magE w mu sig eps m a x k = 0 := by linear_combination h4
  refine (mul_eq_zero.1 h5).resolve_left fun h => ?_
  have : (1 : ℝ) + dist3 x a = 0 := by exact_mod_cast h
  linarith

/-- A vertical dipole, seen from the side. -/
example : magE 1 1 1 1 ![0, 0, 1] 0 ![1, 0, 0] ≠ 0 := by
  intro h0
  have h1 := congrFun h0 1
  simp [magE, dist3] at h1
  have h2 : kOf 1 1 1 1 = I := by linear_combination (-I) * h1 + (kOf 1 1 1 1) * I_sq
  have h3 := k_sq 1 1 1 1
  rw [h2] at h3
  have := congrArg Complex.im h3
  simp [pow_two] at this

/-- C163. **The fields of a harmonic electric dipole** satisfy Maxwell's equations without displacement current,
when the permittivity is zero; with any permittivity the magnetic field has no sources (missing: Maxwell's
equations with permittivity, see `C163_violated_permittivity`). -/
theorem C163_electric_partial (w mu : ℝ) {sig : ℝ} (hs : 0 < sig) (eps : ℝ) (m : Pt) {a x : Pt} (hx : x ≠ a) :
    (eps = 0 → Maxwell w mu sig eps (elecE w mu sig eps m a) (elecH w mu sig eps m a) x) ∧
    IsCurl (elecH w mu sig eps m a) x (fun k => sig * elecE w mu sig eps m a x k) ∧
    IsCurl (elecE w mu sig eps m a) x
      (fun k => -(I * w * mu) * (1 + I * w * eps / sig) * elecH w mu sig eps m a x k) ∧
    IsDiv (elecH w mu sig eps m a) x 0 := by
  have hs' : (sig : ℂ) ≠ 0 := by exact_mod_cast hs.ne'
  have h1 : IsCurl (elecH w mu sig eps m a) x (fun k => sig * elecE w mu sig eps m a x k) :=
    (elecH_curl w mu sig eps m hx).congr (fun _ _ => rfl) fun k => by
      rw [elecE_shape]; field_simp
  have h2 : IsCurl (elecE w mu sig eps m a) x
      (fun k => -(I * w * mu) * (1 + I * w * eps / sig) * elecH w mu sig eps m a x k) :=
    (curl_const (1 / sig : ℂ) (magH_curl w mu sig eps m hx)).congr
      (elecE_shape w mu sig eps m a) fun k => by rw [k_sq]; field_simp
  refine ⟨?_, h1, h2, elecH_div w mu sig eps m hx⟩
  rintro rfl
  exact ⟨h2.congr (fun _ _ => rfl) fun k => by simp, h1.congr (fun _ _ => rfl) fun k => by simp,
    elecH_div w mu sig 0 m hx⟩

example : Maxwell (2 * π * 100) (4 * π / 10 ^ 7) 3 0 (elecE (2 * π * 100) (4 * π / 10 ^ 7) 3 0 ![1, 0, 0] 0)
    (elecH (2 * π * 100) (4 * π / 10 ^ 7) 3 0 ![1, 0, 0] 0) ![0, 50, 0] :=
  (C163_electric_partial _ _ (by norm_num) 0 _ fun h => by simpa using congrFun h 1).1 rfl

/-- C163. Violated with permittivity: the wave number has the displacement current and the electric field of an
electric dipole does not, so that neither Ampère's nor Faraday's law holds wherever the fields are not zero. -/
theorem C163_violated_permittivity {w mu sig eps : ℝ} (hw : w ≠ 0) (hm : mu ≠ 0) (hs : 0 < sig)
    (hε : eps ≠ 0) (m : Pt) {a x : Pt} (hx : x ≠ a) :
    (elecE w mu sig eps m a x ≠ 0 →
      ¬ IsCurl (elecH w mu sig eps m a) x fun k => (sig + I * w * eps) * elecE w mu sig eps m a x k) ∧
    (elecH w mu sig eps m a x ≠ 0 →
      ¬ IsCurl (elecE w mu sig eps m a) x fun k => -(I * w * mu) * elecH w mu sig eps m a x k) := by
  have hs' : (sig : ℂ) ≠ 0 := by exact_mod_cast hs.ne'
  have hw' : (w : ℂ) ≠ 0 := by exact_mod_cast hw
  have hm' : (mu : ℂ) ≠ 0 := by exact_mod_cast hm
  have hε' : (eps : ℂ) ≠ 0 := by exact_mod_cast hε
  obtain ⟨-, h1, h2, -⟩ := C163_electric_partial w mu hs eps m hx
  constructor
  · intro he h
    apply he
    funext k
    have h3 := congrFun (h.unique h1) k
    have h4 : (I * w * eps) * elecE w mu sig eps m a x k = 0 := by linear_combination h3
    exact (mul_eq_zero.1 h4).resolve_left (mul_ne_zero (mul_ne_zero I_ne_zero hw') hε')
  · intro he h
    apply he
    funext k
    have h3 := congrFun (h.unique h2) k
    have h4 : (I * w * mu * (I * w * eps / sig)) * elecH w mu sig eps m a x k = 0 := by linear_combination h3
    exact (mul_eq_zero.1 h4).resolve_left (mul_ne_zero (mul_ne_zero (mul_ne_zero I_ne_zero hw') hm')
      (div_ne_zero (mul_ne_zero (mul_ne_zero I_ne_zero hw') hε') hs'))

/-- C163. **At zero frequency** the fields are the static ones: that of a magnetic dipole, that of a dipole of
current in a conductor, and that of the law of Biot and Savart. -/
theorem C163_static (mu sig eps : ℝ) (m a x : Pt) (k : Fin 3) :
    magH 0 mu sig eps m a x k = dipoleH0 m a x k ∧
    elecE 0 mu sig eps m a x k = dipoleH0 m a x k / sig ∧
    elecH 0 mu sig eps m a x k = cross m (x - a) k / (4 * π * dist3 x a ^ 3) := by
  have hk : kOf 0 mu sig eps = 0 := by simp [kOf]
  have h1 : magH 0 mu sig eps m a x k = dipoleH0 m a x k := by
    rw [magH_shape, hk]
    simp [fA, fB, dipoleH0]; ring
  refine ⟨h1, ?_, ?_⟩
  · rw [elecE_shape, h1]; ring
  · rw [elecH_shape, hk]
    simp [fS]; ring

/-- C163. **Away from the dipole the fields fade faster than the static ones**, in every direction: the root
taken for the wave number is the one of outgoing, decaying waves. -/
theorem C163_decay {w mu sig : ℝ} (hw : 0 < w) (hm : 0 < mu) (hs : 0 < sig) (eps : ℝ) (m a : Pt) {v : Pt}
    (hv : v ≠ 0) (k : Fin 3) :
    Tendsto (fun s : ℝ => (s : ℂ) ^ 3 * magH w mu sig eps m a (a + s • v) k) atTop (𝓝 0) ∧
    Tendsto (fun s : ℝ => (s : ℂ) ^ 3 * elecE w mu sig eps m a (a + s • v) k) atTop (𝓝 0) ∧
    Tendsto (fun s : ℝ => (s : ℂ) ^ 2 * elecH w mu sig eps m a (a + s • v) k) atTop (𝓝 0) := by
  have hρ := dist_pos hv
  have hq : (kOf w mu sig eps * dist3 v 0).im < 0 := by
    rw [k_wave, Complex.im_mul_ofReal]
    exact mul_neg_of_neg_of_pos (NSEM.Analytic.wave_im hw hm hs) hρ
  have hz : (dist3 v 0 : ℂ) ≠ 0 := by exact_mod_cast hρ.ne'
  have hpi : (π : ℂ) ≠ 0 := by exact_mod_cast Real.pi_ne_zero
  have h1 : Tendsto (fun s : ℝ => (s : ℂ) ^ 3 * magH w mu sig eps m a (a + s • v) k) atTop (𝓝 0) := by
    have h0 := (((cpow_exp 0 hq).const_mul (mdotr m v 0 * v k * 3 / (4 * π * (dist3 v 0) ^ 5)
          - m k / (4 * π * dist3 v 0 ^ 3) : ℂ)).add
        ((cpow_exp 1 hq).const_mul (I * kOf w mu sig eps * dist3 v 0 *
          (mdotr m v 0 * v k * 3 / (4 * π * (dist3 v 0) ^ 5) - m k / (4 * π * dist3 v 0 ^ 3))))).add
        ((cpow_exp 2 hq).const_mul ((kOf w mu sig eps * dist3 v 0) ^ 2 *
          (-(mdotr m v 0 * v k / (4 * π * (dist3 v 0) ^ 5)) + m k / (4 * π * dist3 v 0 ^ 3))))
    simp only [mul_zero, add_zero] at h0
    refine h0.congr' ?_
    filter_upwards [eventually_gt_atTop 0] with s hs0
    have hsz : (s : ℂ) ≠ 0 := by exact_mod_cast hs0.ne'
    rw [magH_shape, dist_ray a v hs0.le]
    have e : mdotr m (a + s • v) a = s * mdotr m v 0 := by simp [mdotr]; ring
    rw [e]
    simp only [Pi.add_apply, Pi.smul_apply, smul_eq_mul, add_sub_cancel_left, fA, fB, Complex.real_smul]
    push_cast
    rw [show I * (kOf w mu sig eps * (dist3 v 0 : ℂ)) * (s : ℂ) = I * kOf w mu sig eps * (s * dist3 v 0) by ring]
    generalize kOf w mu sig eps = q
    field_simp
    ring
  refine ⟨h1, ?_, ?_⟩
  · have h2 := h1.const_mul (1 / sig : ℂ)
    rw [mul_zero] at h2
    refine h2.congr fun s => ?_
    rw [elecE_shape]; ring
  · have h0 := ((cpow_exp 0 hq).const_mul (cross m v k / (4 * π * (dist3 v 0) ^ 3) : ℂ)).add
        ((cpow_exp 1 hq).const_mul (I * kOf w mu sig eps * dist3 v 0 *
          (cross m v k / (4 * π * (dist3 v 0) ^ 3))))
    simp only [mul_zero, add_zero] at h0
    refine h0.congr' ?_
    filter_upwards [eventually_gt_atTop 0] with s hs0
    have hsz : (s : ℂ) ≠ 0 := by exact_mod_cast hs0.ne'
    rw [elecH_shape, dist_ray a v hs0.le]
    have e : cross m (a + s • v - a) k = s * cross m v k := by
      fin_cases k <;> simp [cross] <;> ring
    rw [e]
    simp only [fS, Complex.real_smul]
    push_cast
    rw [show I * (kOf w mu sig eps * (dist3 v 0 : ℂ)) * (s : ℂ) = I * kOf w mu sig eps * (s * dist3 v 0) by ring]
    generalize kOf w mu sig eps = q
    field_simp

example : Tendsto (fun s : ℝ => (s : ℂ) ^ 3 * magH 1 1 1 1 ![0, 0, 1] 0 (0 + s • ![1, 2, 3]) 2) atTop (𝓝 0) :=
  (C163_decay one_pos one_pos one_pos 1 _ 0 (fun h => by simpa using congrFun h 0) 2).1

/-- C163. The functions return these fields; the flux is the permeability times the magnetic field. -/
theorem C163_returns (mu0 eps0 : ℝ) (a : Pt) (sig f : ℝ) (m : Pt) (mu_r eps_r : ℝ) {x : Pt} (hx : x ≠ a) :
    magnetic mu0 eps0 a sig f m "h" mu_r eps_r x
      = .ok (some (magH (2 * π * f) (mu0 * mu_r) sig (eps0 * eps_r) m a x)) ∧
    magnetic mu0 eps0 a sig f m "b" mu_r eps_r x
      = .ok (some fun k => mu0 * mu_r * magH (2 * π * f) (mu0 * mu_r) sig (eps0 * eps_r) m a x k) ∧
    magnetic mu0 eps0 a sig f m "e" mu_r eps_r x
      = .ok (some (magE (2 * π * f) (mu0 * mu_r) sig (eps0 * eps_r) m a x)) ∧
    electric mu0 eps0 a sig f m "h" mu_r eps_r x
      = .ok (some (elecH (2 * π * f) (mu0 * mu_r) sig (eps0 * eps_r) m a x)) ∧
    electric mu0 eps0 a sig f m "b" mu_r eps_r x
      = .ok (some fun k => mu0 * mu_r * elecH (2 * π * f) (mu0 * mu_r) sig (eps0 * eps_r) m a x k) ∧
    electric mu0 eps0 a sig f m "e" mu_r eps_r x
      = .ok (some (elecE (2 * π * f) (mu0 * mu_r) sig (eps0 * eps_r) m a x)) := by
  have hf : ∀ (mu : ℝ) (F : Fld), flux mu F = fun k => mu * F k := fun mu F => by
    funext k; fin_cases k <;> rfl
  refine ⟨?_, ?_, ?_, ?_, ?_, ?_⟩ <;> simp [magnetic, electric, hx, hf]

/-! ### The vertical field on a half-space -/

theorem kHz_sq (freq mu sigma : ℝ) : kHz freq mu sigma ^ 2 = -(I * 2 * π * freq * mu * sigma) := by
  have := Complex.cpow_nat_inv_pow (-1 * I * 2 * π * freq * mu * sigma : ℂ) (n := 2) (by norm_num)
  have e : kHz freq mu sigma ^ 2 = -1 * I * 2 * π * freq * mu * sigma := by
    rw [← this, kHz]; norm_num
  rw [e]; ring

/-- The function of `z = i k r` in the formula. -/
theorem hz_limit : Tendsto (fun z : ℂ => (9 - (9 + 9 * z + 4 * z ^ 2 + z ^ 3) * exp (-z)) / z ^ 2) (𝓝[≠] 0)
    (𝓝 (1 / 2)) := by
  have hR : ∀ z : ℂ, ‖exp (-z) - (1 - z + z ^ 2 / 2)‖ ≤ ‖z‖ ^ 3 * Real.exp ‖z‖ := fun z => by
    have := Complex.norm_exp_sub_sum_le_norm_mul_exp (-z) 3
    simp only [Finset.sum_range_succ, Finset.sum_range_zero, norm_neg] at this
    convert this using 3
    norm_num [Nat.factorial]
    ring
  have h1 : Tendsto (fun z : ℂ => (9 + 9 * z + 4 * z ^ 2 + z ^ 3) *
      ((exp (-z) - (1 - z + z ^ 2 / 2)) / z ^ 2)) (𝓝[≠] 0) (𝓝 0) := by
    have hr : Tendsto (fun z : ℂ => (exp (-z) - (1 - z + z ^ 2 / 2)) / z ^ 2) (𝓝[≠] 0) (𝓝 0) := by
      have hb : Tendsto (fun z : ℂ => ‖z‖ * Real.exp ‖z‖) (𝓝[≠] 0) (𝓝 0) := by
        have : Continuous fun z : ℂ => ‖z‖ * Real.exp ‖z‖ := by fun_prop
        have h := this.tendsto 0
        simp only [norm_zero, zero_mul] at h
        exact h.mono_left nhdsWithin_le_nhds
      refine squeeze_zero_norm' ?_ hb
      filter_upwards [self_mem_nhdsWithin] with z hz
      have hz' : 0 < ‖z‖ := norm_pos_iff.2 hz
      rw [norm_div, norm_pow, div_le_iff₀ (by positivity)]
      calc _ ≤ _ := hR z
        _ = _ := by ring
    have hc : Tendsto (fun z : ℂ => 9 + 9 * z + 4 * z ^ 2 + z ^ 3) (𝓝[≠] 0) (𝓝 9) := by
      have : Continuous fun z : ℂ => 9 + 9 * z + 4 * z ^ 2 + z ^ 3 := by fun_prop
      have h := this.tendsto 0
      simp only [mul_zero, add_zero, ne_eq, OfNat.ofNat_ne_zero, not_false_eq_true, zero_pow] at h
      exact h.mono_left nhdsWithin_le_nhds
    simpa using hc.mul hr
  have h2 : Tendsto (fun z : ℂ => 1 / 2 - 3 / 2 * z - z ^ 2 - z ^ 3 / 2) (𝓝[≠] 0) (𝓝 (1 / 2)) := by
    have : Continuous fun z : ℂ => 1 / 2 - 3 / 2 * z - z ^ 2 - z ^ 3 / 2 := by fun_prop
    have h := this.tendsto 0
    simp only [mul_zero, sub_zero, ne_eq, OfNat.ofNat_ne_zero, not_false_eq_true, zero_pow, zero_div] at h
    exact h.mono_left nhdsWithin_le_nhds
  have h3 := h2.sub h1
  rw [sub_zero] at h3
  refine h3.congr' ?_
  filter_upwards [self_mem_nhdsWithin] with z hz
  have hz' : z ≠ 0 := hz
  field_simp
  ring

/-- C163. **The vertical field of a dipole on a half-space at low frequencies** is that of the dipole in free
space, and the secondary field fades. The function returns no number at zero frequency. -/
theorem C163_low {r mu sigma : ℝ} (hr : r ≠ 0) (hm : 0 < mu) (hs : 0 < sigma) :
    (∃ H : ℝ → ℂ, (∀ f, 0 < f → hzDipole r f sigma false mu = some (H f)) ∧
      Tendsto H (𝓝[>] 0) (𝓝 ((-1 / (4 * π * |r| ^ 3) : ℝ) : ℂ))) ∧
    (∃ H : ℝ → ℂ, (∀ f, 0 < f → hzDipole r f sigma true mu = some (H f)) ∧ Tendsto H (𝓝[>] 0) (𝓝 0)) ∧
    ∀ b, hzDipole r 0 sigma b mu = none := by
  have hr' : 0 < |r| := abs_pos.2 hr
  have hz : ((|r| : ℝ) : ℂ) ≠ 0 := by exact_mod_cast hr'.ne'
  have hpi : (π : ℂ) ≠ 0 := by exact_mod_cast Real.pi_ne_zero
  have hk0 : ∀ f, 0 < f → kHz f mu sigma ≠ 0 := fun f hf h => by
    have h2 := kHz_sq f mu sigma
    rw [h] at h2
    have h3 := congrArg Complex.im h2
    simp at h3
    rcases h3 with (h | h) | h
    · exact hf.ne' h
    · exact hm.ne' h
    · exact hs.ne' h
  have hlim : Tendsto (fun f => I * kHz f mu sigma * (|r| : ℝ)) (𝓝[>] 0) (𝓝[≠] 0) := by
    refine tendsto_nhdsWithin_iff.2 ⟨?_, ?_⟩
    · rw [tendsto_zero_iff_norm_tendsto_zero]
      have h1 : Tendsto (fun f : ℝ => ‖kHz f mu sigma‖ ^ 2) (𝓝[>] 0) (𝓝 0) := by
        have hc : Continuous fun f : ℝ => ‖-(I * 2 * π * f * mu * sigma)‖ := by fun_prop
        have h := hc.tendsto 0
        simp only [ofReal_zero, mul_zero, zero_mul, neg_zero, norm_zero] at h
        refine (h.mono_left nhdsWithin_le_nhds).congr fun f => ?_
        rw [← kHz_sq, norm_pow]
      have h2 := (h1.sqrt.mul_const |r|)
      simp only [Real.sqrt_zero, zero_mul] at h2
      refine h2.congr fun f => ?_
      rw [Real.sqrt_sq (norm_nonneg _), norm_mul, norm_mul, norm_I, one_mul, Complex.norm_real,
        Real.norm_of_nonneg (abs_nonneg r)]
    · filter_upwards [self_mem_nhdsWithin] with f hf
      exact mul_ne_zero (mul_ne_zero I_ne_zero (hk0 f hf)) hz
  have hT : Tendsto (fun f => 1 / (2 * π * kHz f mu sigma ^ 2 * (|r| : ℝ) ^ 5) * (9 - (9 + 9 * I * kHz f mu sigma *
      (|r| : ℝ) - 4 * kHz f mu sigma ^ 2 * (|r| : ℝ) ^ 2 - I * kHz f mu sigma ^ 3 * (|r| : ℝ) ^ 3) *
      exp (-1 * I * kHz f mu sigma * (|r| : ℝ)))) (𝓝[>] 0) (𝓝 ((-1 / (4 * π * |r| ^ 3) : ℝ) : ℂ)) := by
    have h := (hz_limit.comp hlim).const_mul (-1 / (2 * π * (|r| : ℝ) ^ 3) : ℂ)
    have e : (-1 / (2 * π * ((|r| : ℝ) : ℂ) ^ 3) : ℂ) * (1 / 2) = ((-1 / (4 * π * |r| ^ 3) : ℝ) : ℂ) := by
      push_cast; field_simp; norm_num
    rw [e] at h
    refine h.congr' ?_
    filter_upwards [self_mem_nhdsWithin] with f hf
    have hk := hk0 f hf
    simp only [Function.comp]
    rw [show -1 * I * kHz f mu sigma * ((|r| : ℝ) : ℂ) = -(I * kHz f mu sigma * ((|r| : ℝ) : ℂ)) by ring]
    generalize kHz f mu sigma = q at *
    generalize exp (-(I * q * ((|r| : ℝ) : ℂ))) = E
    generalize ((|r| : ℝ) : ℂ) = R at *
    have e1 : (I * q * R) ^ 2 = -(q * R) ^ 2 := by rw [mul_assoc, mul_pow, I_sq]; ring
    have e2 : (I * q * R) ^ 3 = -I * (q * R) ^ 3 := by rw [mul_assoc, mul_pow, I_pow_three]
    rw [e1, e2]
    field_simp
    ring
  have hne : ∀ f, 0 < f → kHz f mu sigma ^ 2 * ((|r| : ℝ) : ℂ) ^ 5 ≠ 0 := fun f hf =>
    mul_ne_zero (pow_ne_zero _ (hk0 f hf)) (pow_ne_zero _ hz)
  refine ⟨⟨_, fun f hf => ?_, hT⟩, ⟨fun f => 1 / (2 * π * kHz f mu sigma ^ 2 * (|r| : ℝ) ^ 5) *
      (9 - (9 + 9 * I * kHz f mu sigma * (|r| : ℝ) - 4 * kHz f mu sigma ^ 2 * (|r| : ℝ) ^ 2
        - I * kHz f mu sigma ^ 3 * (|r| : ℝ) ^ 3) * exp (-1 * I * kHz f mu sigma * (|r| : ℝ)))
      - -1 / (4 * π * (|r| : ℝ) ^ 3), fun f hf => ?_, ?_⟩, fun b => ?_⟩
  · simp only [hzDipole, hne f hf, if_false, Bool.false_eq_true]
  · simp only [hzDipole, hne f hf, if_false, if_true]
  · have h := hT.sub_const ((-1 / (4 * π * |r| ^ 3) : ℝ) : ℂ)
    rw [sub_self] at h
    refine h.congr fun f => ?_
    push_cast; ring
  · have : kHz 0 mu sigma = 0 := by simp [kHz]
    simp [hzDipole, this]

end Verif.FDEM.Dipoles.Props
