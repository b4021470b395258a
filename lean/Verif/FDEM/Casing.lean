import Verif.EM.Wave
import Verif.FDEM.Dipoles

/-!
C165: the wave number of `simpeg/electromagnetics/utils/waveform_utils.py` and the fields of a vertical magnetic
dipole in a cased borehole (`simpeg/electromagnetics/analytics/FDEMcasing.py`).
-/

noncomputable section
namespace Verif.FDEM.Casing
open Verif Verif.VRM Verif.EM.Curl Verif.EM.Wave Complex
open Verif.FDEM.Dipoles (Fld)

local notation "π" => Real.pi

/-! ### The code -/

/-- The arguments other than the places; numbers 0, 1, 2 are the inside, the casing and the formation. -/
structure Par where
  freq : ℝ
  sigma : Fin 3 → ℝ
  a : ℝ
  b : ℝ
  mu : Fin 3 → ℝ
  eps : ℝ
  moment : ℝ

/-- `getKc` (7-11). -/
def getKc (freq sigma a b mu eps : ℝ) : ℂ := √(b / a) * exp (-1 * I * k freq sigma mu eps * (b - a))

/-- `k2` (29, 47, 65, 88, 112, 150). -/
def Par.k2 (p : Par) : ℂ := k p.freq (p.sigma 2) (p.mu 2) p.eps

/-- `r` and `sqrtr2z2` for `dxyz = d` (27-28, 45-46, 84-87). -/
def hor (d : Pt) : ℝ := √(d 0 ^ 2 + d 1 ^ 2)
def rad (d : Pt) : ℝ := √(d 0 ^ 2 + d 1 ^ 2 + d 2 ^ 2)

/-- `_getCasingHertzMagDipole` at one place (18-31). -/
def hertz (p : Par) (d : Pt) : ℂ :=
  getKc p.freq (p.sigma 1) p.a p.b (p.mu 1) p.eps * p.moment / (4 * π) * exp (-1 * I * p.k2 * rad d) / rad d

/-- `_getCasingHertzMagDipoleDeriv_r` (34-49). -/
def hertzR (p : Par) (d : Pt) : ℂ := -hertz p d * hor d / rad d * (1 * I * p.k2 + 1 / rad d)

/-- `_getCasingHertzMagDipoleDeriv_z` (52-67). -/
def hertzZ (p : Par) (d : Pt) : ℂ := -hertz p d * d 2 / rad d * (1 * I * p.k2 + 1 / rad d)

/-- `_getCasingHertzMagDipole2Deriv_z_r` (70-92). -/
def hertzZR (p : Par) (d : Pt) : ℂ :=
  hertzR p d * (-d 2 / rad d) * (1 * I * p.k2 + 1 / rad d)
    + hertz p d * (d 2 * hor d / (rad d : ℂ) ^ 3) * (1 * I * p.k2 + 2 / rad d)

/-- `_getCasingHertzMagDipole2Deriv_z_z` (95-116). -/
def hertzZZ (p : Par) (d : Pt) : ℂ :=
  (hertzZ p d * d 2 + hertz p d) / rad d * (-1 * I * p.k2 - 1 / rad d)
    + hertz p d * d 2 / (rad d : ℂ) ^ 3 * (1 * I * p.k2 * d 2 + 2 * d 2 / rad d)

/-- `getCasingHrMagDipole` (134-140) and `getCasingHzMagDipole` (143-154) at one place. -/
def Hr (p : Par) (src obs : Pt) : ℂ := hertzZR p (obs - src)
def Hz (p : Par) (src obs : Pt) : ℂ := hertzZZ p (obs - src) + p.k2 ^ 2 * hertz p (obs - src)

/-- `getCasingEphiMagDipole` (119-131): the array of the three permeabilities is multiplied with the array of the
values of all places, so that they are broadcast. -/
def Ephi (p : Par) (src : Pt) (obs : List Pt) : Except Err (List ℂ) :=
  let mu := [p.mu 0, p.mu 1, p.mu 2];
  let dr := obs.map fun x => hertzR p (x - src);
  match dr with
  | [v] => .ok (mu.map fun m : ℝ => 1 * I * (2 * π * p.freq) * m * v)
  | [_, _, _] => .ok (List.zipWith (fun (m : ℝ) v => 1 * I * (2 * π * p.freq) * m * v) mu dr)
  | _ => .error .valueError

/-- `getCasingBrMagDipole` (157-163) and `getCasingBzMagDipole` (166-172) at one place. -/
def Br (mu0 : ℝ) (p : Par) (src obs : Pt) : ℂ := mu0 * Hr p src obs
def Bz (mu0 : ℝ) (p : Par) (src obs : Pt) : ℂ := mu0 * Hz p src obs

/-! ### Specification -/

/-- The field with components `r` and `z` in cylindrical coordinates around `src`. -/
def cylH (fr fz : Pt → ℂ) (src x : Pt) : Fld :=
  ![fr x * ((x - src) 0 / hor (x - src)), fr x * ((x - src) 1 / hor (x - src)), fz x]

/-- The field with azimuthal component `f`. -/
def cylE (f : Pt → ℂ) (src x : Pt) : Fld :=
  ![f x * (-(x - src) 1 / hor (x - src)), f x * ((x - src) 0 / hor (x - src)), 0]

/-- The azimuthal electric field in the formation, which the code should return. -/
def EphiOf (p : Par) (src x : Pt) : ℂ := I * (2 * π * p.freq) * p.mu 2 * hertzR p (x - src)

end Verif.FDEM.Casing

namespace Verif.FDEM.Casing.Props
open Verif Verif.VRM Verif.VRM.Props Verif.PF.Spheres Verif.EM.Curl Verif.EM.Wave Verif.FDEM.Casing Complex
open Filter Topology
open Verif.FDEM.Dipoles (Fld Maxwell kOf magH elecH)
open Verif.FDEM.Dipoles.Props (curl_const curl_local)

local notation "π" => Real.pi

/-- C165. **The wave number** is the root of `ω²με - iωμσ` whose waves travel outwards and decay. -/
theorem C165_wavenumber {freq sigma mu eps : ℝ} (hf : 0 < freq) (hm : 0 < mu) (he : 0 < eps) (hs : 0 ≤ sigma) :
    let w := 2 * π * freq
    k freq sigma mu eps ^ 2 = -(I * w * mu) * (sigma + I * w * eps) ∧ 0 < (k freq sigma mu eps).re ∧
      (k freq sigma mu eps).im ≤ 0 ∧ (0 < sigma → (k freq sigma mu eps).im < 0) := by
  intro w
  obtain ⟨h1, h2⟩ := k_parts hf hm he hs
  refine ⟨?_, h2⟩
  rw [h1]
  simp only [w]
  push_cast
  linear_combination ((2 * π * freq : ℂ) ^ 2 * mu * eps) * I_sq

/-- C165. Violated at zero frequency or without permittivity, where the wave number is not a number, and at
negative frequencies of conductors, where the sign is that of positive ones. -/
theorem C165_violated_frequency (sigma mu eps freq : ℝ) :
    kAt 0 sigma mu eps = none ∧ kAt freq sigma mu 0 = none ∧
    k (-freq) sigma mu eps = -k freq sigma mu eps := by
  refine ⟨by simp [kAt], by simp [kAt], ?_⟩
  simp only [k, mul_neg, div_neg, neg_sq]
  push_cast; ring

theorem rad_dist (x a : Pt) : rad (x - a) = dist3 x a := by simp [rad, dist3]

theorem hor_sq (d : Pt) : (hor d : ℂ) ^ 2 = (d 0 : ℂ) ^ 2 + (d 1 : ℂ) ^ 2 := by
  have : hor d ^ 2 = d 0 ^ 2 + d 1 ^ 2 := Real.sq_sqrt (by positivity)
  exact_mod_cast this

theorem rad_sq (d : Pt) : (rad d : ℂ) ^ 2 = (d 0 : ℂ) ^ 2 + (d 1 : ℂ) ^ 2 + (d 2 : ℂ) ^ 2 := by
  have : rad d ^ 2 = d 0 ^ 2 + d 1 ^ 2 + d 2 ^ 2 := Real.sq_sqrt (by positivity)
  exact_mod_cast this

theorem hor_cancel (d : Pt) (k : Fin 3) (hk : k = 0 ∨ k = 1) : (hor d : ℂ) * (d k / hor d) = d k := by
  by_cases h : (hor d : ℂ) = 0
  · have h2 : hor d ^ 2 = d 0 ^ 2 + d 1 ^ 2 := Real.sq_sqrt (by positivity)
    have h3 : hor d = 0 := by exact_mod_cast h
    rw [h3] at h2
    have : d k = 0 := by
      rcases hk with rfl | rfl <;> nlinarith [sq_nonneg (d 0), sq_nonneg (d 1)]
    simp [this]
  · field_simp

/-- The strength of the equivalent dipole in the formation. -/
def strength (p : Par) : ℂ := getKc p.freq (p.sigma 1) p.a p.b (p.mu 1) p.eps

theorem cylH_eq (p : Par) (hk : p.k2 = kOf (2 * π * p.freq) (p.mu 2) (p.sigma 2) p.eps) {src x : Pt} (hx : x ≠ src)
    (j : Fin 3) : cylH (Hr p src) (Hz p src) src x j =
      strength p * magH (2 * π * p.freq) (p.mu 2) (p.sigma 2) p.eps ![0, 0, p.moment] src x j := by
  have hr : (rad (x - src) : ℂ) ≠ 0 := by rw [rad_dist]; exact_mod_cast (dist_pos hx).ne'
  have hpi : (π : ℂ) ≠ 0 := by exact_mod_cast Real.pi_ne_zero
  have hstr : getKc p.freq (p.sigma 1) p.a p.b (p.mu 1) p.eps = strength p := rfl
  have h2 := rad_sq (x - src)
  have hc0 := hor_cancel (x - src) 0 (Or.inl rfl)
  have hc1 := hor_cancel (x - src) 1 (Or.inr rfl)
  have hhor : Hr p src x = strength p * p.moment / (4 * π) * exp (-1 * I * p.k2 * rad (x - src)) *
      ((x - src) 2 * hor (x - src)) * (-(p.k2 * rad (x - src)) ^ 2 + 3 * I * (p.k2 * rad (x - src)) + 3)
        / (rad (x - src) : ℂ) ^ 5 := by
    simp only [Hr, hertzZR, hertzR, hertz, hstr]
    field_simp
    ring_nf
    simp only [I_sq]
    ring
  rw [Dipoles.Props.magH_shape, ← hk, ← rad_dist]
  have e : exp (-1 * I * p.k2 * rad (x - src)) = exp (-(I * p.k2 * rad (x - src))) := by congr 1; ring
  rw [e] at hhor
  have hx0 : Hr p src x * ((x - src) 0 / hor (x - src) : ℂ) = strength p * p.moment / (4 * π) *
      exp (-(I * p.k2 * rad (x - src))) * (x - src) 2 * (x - src) 0 *
        (-(p.k2 * rad (x - src)) ^ 2 + 3 * I * (p.k2 * rad (x - src)) + 3) / (rad (x - src) : ℂ) ^ 5 := by
    rw [hhor]
    linear_combination (strength p * p.moment / (4 * π) * exp (-(I * p.k2 * rad (x - src))) * (x - src) 2 *
        (-(p.k2 * rad (x - src)) ^ 2 + 3 * I * (p.k2 * rad (x - src)) + 3) / (rad (x - src) : ℂ) ^ 5) * hc0
  have hx1 : Hr p src x * ((x - src) 1 / hor (x - src) : ℂ) = strength p * p.moment / (4 * π) *
      exp (-(I * p.k2 * rad (x - src))) * (x - src) 2 * (x - src) 1 *
        (-(p.k2 * rad (x - src)) ^ 2 + 3 * I * (p.k2 * rad (x - src)) + 3) / (rad (x - src) : ℂ) ^ 5 := by
    rw [hhor]
    linear_combination (strength p * p.moment / (4 * π) * exp (-(I * p.k2 * rad (x - src))) * (x - src) 2 *
        (-(p.k2 * rad (x - src)) ^ 2 + 3 * I * (p.k2 * rad (x - src)) + 3) / (rad (x - src) : ℂ) ^ 5) * hc1
  fin_cases j
  · refine hx0.trans ?_
    simp [mdotr, Dipoles.Props.fA]
    ring
  · refine hx1.trans ?_
    simp [mdotr, Dipoles.Props.fA]
    ring
  · simp only [cylH, Hz, hertzZZ, hertzZ, hertz, hstr, e]
    simp [mdotr, Dipoles.Props.fA, Dipoles.Props.fB]
    field_simp
    ring_nf
    simp only [I_sq]
    ring

theorem cylE_eq (p : Par) (hk : p.k2 = kOf (2 * π * p.freq) (p.mu 2) (p.sigma 2) p.eps) {src x : Pt} (hx : x ≠ src)
    (j : Fin 3) : cylE (EphiOf p src) src x j = (-(I * (2 * π * p.freq : ℝ) * p.mu 2) * strength p) *
      elecH (2 * π * p.freq) (p.mu 2) (p.sigma 2) p.eps ![0, 0, p.moment] src x j := by
  have hr : (rad (x - src) : ℂ) ≠ 0 := by rw [rad_dist]; exact_mod_cast (dist_pos hx).ne'
  have hpi : (π : ℂ) ≠ 0 := by exact_mod_cast Real.pi_ne_zero
  have hstr : getKc p.freq (p.sigma 1) p.a p.b (p.mu 1) p.eps = strength p := rfl
  have hc0 := hor_cancel (x - src) 0 (Or.inl rfl)
  have hc1 := hor_cancel (x - src) 1 (Or.inr rfl)
  have e : exp (-1 * I * p.k2 * rad (x - src)) = exp (-(I * p.k2 * rad (x - src))) := by congr 1; ring
  have hE : EphiOf p src x = -(I * (2 * π * p.freq) * p.mu 2 * strength p * p.moment *
      Dipoles.Props.fS p.k2 (rad (x - src))) * hor (x - src) := by
    simp only [EphiOf, hertzR, hertz, hstr, e, Dipoles.Props.fS]
    field_simp
    ring
  rw [Dipoles.Props.elecH_shape, ← hk, ← rad_dist]
  fin_cases j
  · simp only [cylE, hE]
    simp [cross]
    simp at hc1
    linear_combination (I * (2 * π * p.freq) * p.mu 2 * strength p * p.moment *
      Dipoles.Props.fS p.k2 (rad (x - src))) * hc1
  · simp only [cylE, hE]
    simp [cross]
    simp at hc0
    linear_combination (I * (2 * π * p.freq) * p.mu 2 * strength p * p.moment *
      Dipoles.Props.fS p.k2 (rad (x - src))) * hc0
  · simp [cylE, cross]

/-- C165. **The fields in the formation satisfy Maxwell's equations** with displacement current: those returned
for the magnetic field and the azimuthal field with the permeability of the formation (missing: the code
returns another electric field, see `C165_violated_e`). The field is finite on the axis. -/
theorem C165_maxwell_partial (p : Par) (hf : 0 < p.freq) (hm : 0 < p.mu 2) (he : 0 < p.eps) (hs : 0 ≤ p.sigma 2)
    {src x : Pt} (hx : x ≠ src) :
    Maxwell (2 * π * p.freq) (p.mu 2) (p.sigma 2) p.eps (cylE (EphiOf p src) src)
      (cylH (Hr p src) (Hz p src) src) x := by
  have hk : p.k2 = kOf (2 * π * p.freq) (p.mu 2) (p.sigma 2) p.eps := by
    rw [Dipoles.Props.k_wave]; exact k_wave hf hm he hs
  refine ⟨?_, ?_, ?_⟩
  · have h := curl_const (-(I * (2 * π * p.freq : ℝ) * p.mu 2) * strength p)
      (Dipoles.Props.elecH_curl (2 * π * p.freq) (p.mu 2) (p.sigma 2) p.eps ![0, 0, p.moment] hx)
    refine (curl_local hx h fun y hy j => cylE_eq p hk hy j).congr (fun _ _ => rfl) fun j => ?_
    rw [cylH_eq p hk hx]; ring
  · have h := curl_const (strength p)
      (Dipoles.Props.magH_curl (2 * π * p.freq) (p.mu 2) (p.sigma 2) p.eps ![0, 0, p.moment] hx)
    refine (curl_local hx h fun y hy j => cylH_eq p hk hy j).congr (fun _ _ => rfl) fun j => ?_
    rw [cylE_eq p hk hx, Dipoles.Props.k_sq]; ring
  · obtain ⟨D, hD, h0⟩ := Dipoles.Props.magH_div (2 * π * p.freq) (p.mu 2) (p.sigma 2) p.eps ![0, 0, p.moment] hx
    refine ⟨fun j => strength p * D j, fun j => ?_, by rw [← mul_zero (strength p), h0]; ring⟩
    refine HasDerivAt.congr_of_eventuallyEq (HasDerivAt.const_mul (strength p) (hD j)) ?_
    have hc : ContinuousAt (fun t : ℝ => Function.update x j t) (x j) := by fun_prop
    have hn : ∀ᶠ t in 𝓝 (x j), Function.update x j t ≠ src := hc.eventually_ne (by simpa using hx)
    filter_upwards [hn] with t ht
    exact cylH_eq p hk ht j

/-- A steel casing. -/
example : ∃ p : Par, 0 < p.freq ∧ 0 < p.mu 2 ∧ 0 < p.eps ∧ 0 ≤ p.sigma 2 ∧ p.mu 1 ≠ p.mu 2 ∧ p.a < p.b :=
  ⟨⟨100, ![1 / 10 ^ 8, 5 * 10 ^ 6, 1 / 100], 5 / 100, 6 / 100, ![1, 100, 1], 1, 1⟩, by norm_num, by simp, by simp,
    by simp, by simp, by norm_num⟩

/-- C165. **The derivatives of the potential** are those of the code: along and across the axis, of first and
second order. -/
theorem C165_derivatives (p : Par) {src x : Pt} (hx : x ≠ src) :
    Partial (fun y => hertz p (y - src)) 2 x (hertzZ p (x - src)) ∧
    Partial (fun y => hertzZ p (y - src)) 2 x (hertzZZ p (x - src)) ∧
    ∀ j : Fin 3, j = 0 ∨ j = 1 →
      Partial (fun y => hertz p (y - src)) j x (hertzR p (x - src) * ((x - src) j / hor (x - src))) ∧
      Partial (fun y => hertzZ p (y - src)) j x (hertzZR p (x - src) * ((x - src) j / hor (x - src))) := by
  have hd := (dist_pos hx).ne'
  have hr : (rad (x - src) : ℂ) ≠ 0 := by rw [rad_dist]; exact_mod_cast hd
  have hpi : (π : ℂ) ≠ 0 := by exact_mod_cast Real.pi_ne_zero
  have hstr : getKc p.freq (p.sigma 1) p.a p.b (p.mu 1) p.eps = strength p := rfl
  have ex : ∀ y : Pt, exp (-1 * I * p.k2 * rad (y - src)) = exp (-(I * p.k2 * rad (y - src))) := fun y => by
    congr 1; ring
  have hg : ∀ j : Fin 3, Partial (fun y => hertz p (y - src)) j x
      ((x j - src j : ℝ) * (-(strength p * p.moment * Dipoles.Props.fS p.k2 (rad (x - src))))) := fun j => by
    have h := HasDerivAt.const_mul (strength p * p.moment)
      (pRadial hx (Dipoles.Props.rad (k := p.k2) 1 hd (hasDerivAt_const (dist3 x src : ℂ) (1 : ℂ))) j)
    refine HasDerivAt.congr_of_eventuallyEq (h.congr_deriv ?_) (Eventually.of_forall fun t => ?_)
    · rw [← rad_dist, Complex.real_smul]
      simp only [Dipoles.Props.fS]
      push_cast
      field_simp
      ring
    · simp only [hertz, hstr, ex, rad_dist]
      rw [pow_one]
      ring
  have hZ : ∀ y : Pt, y ≠ src → hertzZ p (y - src) =
      (y 2 - src 2) • (-(strength p * p.moment * Dipoles.Props.fS p.k2 (dist3 y src))) := fun y hy => by
    have hr' : (rad (y - src) : ℂ) ≠ 0 := by rw [rad_dist]; exact_mod_cast (dist_pos hy).ne'
    rw [← rad_dist, Complex.real_smul]
    simp only [hertzZ, hertz, hstr, ex, Dipoles.Props.fS, Pi.sub_apply]
    push_cast
    field_simp
    ring
  have hgz : ∀ j : Fin 3, Partial (fun y => hertzZ p (y - src)) j x
      ((x 2 - src 2) • (((x j - src j) / dist3 x src) • (-(strength p * p.moment *
        (((I * p.k2) * dist3 x src - I * p.k2 * dist3 x src * (1 + I * (p.k2 * dist3 x src))
          - 3 * (1 + I * (p.k2 * dist3 x src))) * exp (-(I * p.k2 * dist3 x src)) / (4 * π * (dist3 x src : ℂ) ^ 4)))))
        + (if (2 : Fin 3) = j then 1 else 0 : ℝ) • (-(strength p * p.moment * Dipoles.Props.fS p.k2 (dist3 x src)))) :=
    fun j => by
    have h := pSmul (pCoord src x 2 j)
      (pRadial hx ((Dipoles.Props.fS_deriv p.k2 hd).const_mul (strength p * p.moment)).neg j)
    refine HasDerivAt.congr_of_eventuallyEq h ?_
    have hc : ContinuousAt (fun t : ℝ => Function.update x j t) (x j) := by fun_prop
    have hn : ∀ᶠ t in 𝓝 (x j), Function.update x j t ≠ src := hc.eventually_ne (by simpa using hx)
    filter_upwards [hn] with t ht
    exact hZ _ ht
  refine ⟨HasDerivAt.congr_deriv (hg 2) ?_, HasDerivAt.congr_deriv (hgz 2) ?_, fun j hj =>
    ⟨HasDerivAt.congr_deriv (hg j) ?_, HasDerivAt.congr_deriv (hgz j) ?_⟩⟩
  · simp only [hertzZ, hertz, hstr, ex, Dipoles.Props.fS, Pi.sub_apply]
    push_cast
    field_simp
    ring
  · rw [if_pos rfl, ← rad_dist]
    simp only [hertzZZ, hertzZ, hertz, hstr, ex, Dipoles.Props.fS, Pi.sub_apply, Complex.real_smul]
    push_cast
    field_simp
    ring
  · have hc := hor_cancel (x - src) j hj
    have e : hertzR p (x - src) * ((x - src) j / hor (x - src) : ℂ) =
        -hertz p (x - src) / rad (x - src) * (1 * I * p.k2 + 1 / rad (x - src)) * (x - src) j := by
      rw [hertzR]
      linear_combination (-hertz p (x - src) / rad (x - src) * (1 * I * p.k2 + 1 / rad (x - src))) * hc
    rw [e]
    simp only [hertz, hstr, ex, Dipoles.Props.fS, Pi.sub_apply]
    push_cast
    field_simp
    ring
  · have hc := hor_cancel (x - src) j hj
    have hj2 : (2 : Fin 3) ≠ j := by rcases hj with rfl | rfl <;> decide
    have e : hertzZR p (x - src) * ((x - src) j / hor (x - src) : ℂ) =
        (-hertz p (x - src) / rad (x - src) * (1 * I * p.k2 + 1 / rad (x - src)) * (-(x - src) 2 / rad (x - src)) *
          (1 * I * p.k2 + 1 / rad (x - src)) + hertz p (x - src) * ((x - src) 2 / (rad (x - src) : ℂ) ^ 3) *
            (1 * I * p.k2 + 2 / rad (x - src))) * (x - src) j := by
      rw [hertzZR, hertzR]
      linear_combination (-hertz p (x - src) / rad (x - src) * (1 * I * p.k2 + 1 / rad (x - src)) *
        (-(x - src) 2 / rad (x - src)) * (1 * I * p.k2 + 1 / rad (x - src)) + hertz p (x - src) *
          ((x - src) 2 / (rad (x - src) : ℂ) ^ 3) * (1 * I * p.k2 + 2 / rad (x - src))) * hc
    rw [e, if_neg hj2, ← rad_dist]
    simp only [hertz, hstr, ex, Pi.sub_apply, Complex.real_smul]
    push_cast
    field_simp
    ring

/-- C165. **The casing attenuates**: the strength of the equivalent dipole, with a wave number of the casing that
decays; without thickness there is no casing and the field is that of the dipole in the formation. -/
theorem C165_attenuation (p : Par) (hf : 0 < p.freq) (hm : 0 < p.mu 1) (he : 0 < p.eps) (hs : 0 < p.sigma 1)
    (ha : 0 < p.a) (hb : p.a < p.b) :
    ‖getKc p.freq (p.sigma 1) p.a p.b (p.mu 1) p.eps‖ < √(p.b / p.a) := by
  have hi := (C165_wavenumber hf hm he hs.le).2.2.2 hs
  have hb' : 0 < p.b := ha.trans hb
  have h0 : 0 < √(p.b / p.a) := Real.sqrt_pos.2 (by positivity)
  rw [getKc, norm_mul, Complex.norm_real, Real.norm_of_nonneg h0.le, Complex.norm_exp]
  refine mul_lt_of_lt_one_right h0 ?_
  rw [← Real.exp_zero, Real.exp_lt_exp]
  have e : (-1 * I * k p.freq (p.sigma 1) (p.mu 1) p.eps * ((p.b : ℂ) - p.a)).re =
      (k p.freq (p.sigma 1) (p.mu 1) p.eps).im * (p.b - p.a) := by
    rw [← Complex.ofReal_sub, Complex.re_mul_ofReal]; simp
  rw [e]
  exact mul_neg_of_neg_of_pos hi (by linarith)

theorem C165_no_casing (p : Par) (hf : 0 < p.freq) (hm : 0 < p.mu 2) (he : 0 < p.eps) (hs : 0 ≤ p.sigma 2)
    (ha : p.a ≠ 0) (hab : p.b = p.a) {src x : Pt} (hx : x ≠ src) :
    cylH (Hr p src) (Hz p src) src x =
      magH (2 * π * p.freq) (p.mu 2) (p.sigma 2) p.eps ![0, 0, p.moment] src x := by
  have hk : p.k2 = kOf (2 * π * p.freq) (p.mu 2) (p.sigma 2) p.eps := by
    rw [Dipoles.Props.k_wave]; exact k_wave hf hm he hs
  funext j
  rw [cylH_eq p hk hx]
  simp [strength, getKc, hab, div_self ha]

/-- C165. Violated by the electric field: only one or three places are accepted; of three places each gets the
permeability of another region, and one place gets three values. -/
theorem C165_violated_e (p : Par) (src : Pt) :
    (∀ obs : List Pt, obs.length ≠ 1 → obs.length ≠ 3 → Ephi p src obs = .error .valueError) ∧
    (∀ x y z : Pt, hertzR p (x - src) ≠ 0 → 0 < p.freq → p.mu 0 ≠ p.mu 2 → ∀ v, Ephi p src [x, y, z] = .ok v →
      v ≠ [EphiOf p src x, EphiOf p src y, EphiOf p src z]) ∧
    ∀ x : Pt, ∃ v, Ephi p src [x] = .ok v ∧ v.length = 3 := by
  refine ⟨fun obs h1 h3 => ?_, fun x y z hne hf hmu v hv h => ?_, fun x => ⟨_, rfl, rfl⟩⟩
  · rcases obs with _ | ⟨a, _ | ⟨b, _ | ⟨c, _ | ⟨d, t⟩⟩⟩⟩
    · rfl
    · exact absurd rfl h1
    · rfl
    · exact absurd rfl h3
    · rfl
  · subst h
    simp only [Ephi, List.map_cons, List.map_nil, List.zipWith_cons_cons, Except.ok.injEq, List.cons.injEq] at hv
    have h1 := hv.1
    have hf' : (p.freq : ℂ) ≠ 0 := by exact_mod_cast hf.ne'
    have hpi : (π : ℂ) ≠ 0 := by exact_mod_cast Real.pi_ne_zero
    apply hmu
    have h2 : (I * (2 * π * p.freq) * hertzR p (x - src)) * (p.mu 0 : ℂ) =
        (I * (2 * π * p.freq) * hertzR p (x - src)) * p.mu 2 := by
      rw [EphiOf] at h1; linear_combination h1
    exact_mod_cast mul_left_cancel₀ (mul_ne_zero (mul_ne_zero I_ne_zero (by simp [hf', hpi])) hne) h2

/-- C165. With one permeability for all regions the three values of one place, and those of three places, are the
azimuthal field. -/
theorem C165_e_partial (p : Par) (src : Pt) (h0 : p.mu 0 = p.mu 2) (h1 : p.mu 1 = p.mu 2) (x y z : Pt) :
    Ephi p src [x] = .ok [EphiOf p src x, EphiOf p src x, EphiOf p src x] ∧
    Ephi p src [x, y, z] = .ok [EphiOf p src x, EphiOf p src y, EphiOf p src z] := by
  constructor <;> simp [Ephi, EphiOf, h0, h1]

/-- C165. Violated by the magnetic flux, which has the permeability of free space whatever that of the formation
is. -/
theorem C165_violated_b (p : Par) (mu0 : ℝ) (hmu : p.mu 2 ≠ mu0) (src x : Pt) (hz : Hz p src x ≠ 0) :
    Bz mu0 p src x ≠ p.mu 2 * Hz p src x := by
  intro h
  apply hmu
  exact_mod_cast (mul_right_cancel₀ hz h).symm

theorem C165_b_partial (p : Par) (src x : Pt) :
    Br (p.mu 2) p src x = p.mu 2 * Hr p src x ∧ Bz (p.mu 2) p src x = p.mu 2 * Hz p src x := ⟨rfl, rfl⟩

end Verif.FDEM.Casing.Props
