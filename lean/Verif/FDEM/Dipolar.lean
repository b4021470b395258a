import Verif.FDEM.Dipoles

/-!
C164: fields and potentials of a harmonic electric dipole and their galvanic and inductive parts
(`simpeg/electromagnetics/analytics/FDEMDipolarfields.py`).
-/

noncomputable section
namespace Verif.FDEM.Dipolar
open Verif Verif.VRM Verif.EM.Curl Complex
open Verif.FDEM.Dipoles (Fld)

local notation "π" => Real.pi

/-! ### The code -/

/-- The arguments other than the place and the orientation, after `mu = mu_0 * (1 + kappa)`,
`epsilon = epsilon_0 * epsr` and `omega(f)`; `cl` is `current * length` (6-7, 23-24). -/
structure Par where
  w : ℝ
  mu : ℝ
  sig : ℝ
  eps : ℝ
  cl : ℝ

/-- `sig_hat` (25, 76, 127). -/
def Par.sigHat (p : Par) : ℂ := p.sig + 1 * I * p.w * p.eps

/-- `k` (40, 91, 142, 272, 350). -/
def Par.k (p : Par) : ℂ := ((p.w : ℂ) ^ 2 * p.mu * p.eps - 1 * I * p.w * p.mu * p.sig) ^ (1 / 2 : ℂ)

/-- `front` of the electric fields (42, 93, 144). -/
def frontE (p : Par) (r : ℝ) : ℂ := p.cl / (4 * π * p.sigHat * r ^ 3) * exp (-1 * I * p.k * r)

/-- `mid` (43, 94). -/
def mid (p : Par) (r : ℝ) : ℂ := -(p.k ^ 2) * r ^ 2 + 3 * 1 * I * p.k * r + 3

/-- `E_from_ElectricDipoleWholeSpace` along an axis (45-63). -/
def E (p : Par) (o : Fin 3) (a x : Pt) : Fld :=
  let d : Fld := fun k => (x k - a k : ℝ);
  let r := dist3 x a;
  let front := frontE p r;
  let mid := mid p r;
  let fin := p.k ^ 2 * r ^ 2 - 1 * I * p.k * r - 1;
  match o with
  | 0 => ![front * ((d 0 ^ 2 / r ^ 2) * mid + fin), front * (d 0 * d 1 / r ^ 2) * mid,
      front * (d 0 * d 2 / r ^ 2) * mid]
  | 1 => ![front * (d 1 * d 0 / r ^ 2) * mid, front * ((d 1 ^ 2 / r ^ 2) * mid + fin),
      front * (d 1 * d 2 / r ^ 2) * mid]
  | 2 => ![front * (d 2 * d 0 / r ^ 2) * mid, front * (d 2 * d 1 / r ^ 2) * mid,
      front * ((d 2 ^ 2 / r ^ 2) * mid + fin)]

/-- `E_galvanic_from_ElectricDipoleWholeSpace` (96-114). -/
def galvanic (p : Par) (o : Fin 3) (a x : Pt) : Fld :=
  let d : Fld := fun k => (x k - a k : ℝ);
  let r := dist3 x a;
  let front := frontE p r;
  let mid := mid p r;
  let fin := -1 * I * p.k * r - 1;
  match o with
  | 0 => ![front * ((d 0 ^ 2 / r ^ 2) * mid + fin), front * (d 0 * d 1 / r ^ 2) * mid,
      front * (d 0 * d 2 / r ^ 2) * mid]
  | 1 => ![front * (d 1 * d 0 / r ^ 2) * mid, front * ((d 1 ^ 2 / r ^ 2) * mid + fin),
      front * (d 1 * d 2 / r ^ 2) * mid]
  | 2 => ![front * (d 2 * d 0 / r ^ 2) * mid, front * (d 2 * d 1 / r ^ 2) * mid,
      front * ((d 2 ^ 2 / r ^ 2) * mid + fin)]

/-- `E_inductive_from_ElectricDipoleWholeSpace` (146-164). -/
def inductive_ (p : Par) (o : Fin 3) (a x : Pt) : Fld :=
  let r := dist3 x a;
  let front := frontE p r;
  match o with
  | 0 => ![front * (p.k ^ 2 * r ^ 2), 0, 0]
  | 1 => ![0, front * (p.k ^ 2 * r ^ 2), 0]
  | 2 => ![0, 0, front * (p.k ^ 2 * r ^ 2)]

/-- `H_from_ElectricDipoleWholeSpace` (274-298). -/
def H (p : Par) (o : Fin 3) (a x : Pt) : Fld :=
  let d : Fld := fun k => (x k - a k : ℝ);
  let r := dist3 x a;
  let front := p.cl / (4 * π * r ^ 2) * (-1 * I * p.k * r + 1) * exp (-1 * I * p.k * r);
  match o with
  | 0 => ![0, front * (-d 2 / r), front * (d 1 / r)]
  | 1 => ![front * (d 2 / r), 0, front * (-d 0 / r)]
  | 2 => ![front * (-d 1 / r), front * (d 0 / r), 0]

/-- The value of `A_from_ElectricDipoleWholeSpace` along an axis (352-370), as intended for the third one. -/
def A (p : Par) (o : Fin 3) (a x : Pt) : Fld :=
  let r := dist3 x a;
  let front : ℂ := p.cl / (4 * π * r);
  match o with
  | 0 => ![front * exp (-1 * I * p.k * r), 0, 0]
  | 1 => ![0, front * exp (-1 * I * p.k * r), 0]
  | 2 => ![0, 0, front * exp (-1 * I * p.k * r)]

/-- The comparisons of `orientation.upper()`. -/
def axisOf (s : String) : Option (Fin 3) :=
  if s.toUpper = "X" then some 0 else if s.toUpper = "Y" then some 1
  else if s.toUpper = "Z" then some 2 else none

/-- `XYZ.shape[0] > 1 & f.shape[0] > 1`, which Python reads as
`XYZ.shape[0] > (1 & f.shape[0]) and (1 & f.shape[0]) > 1` (29, 80, 131, 261, 340). -/
def refused (n nf : ℕ) : Bool := decide (n > 1 &&& nf) && decide (1 &&& nf > 1)

/-- The argument `f`: a number, which has no `shape`, or an array. -/
inductive Freq
  | num (f : ℝ)
  | arr (f : List ℝ)

/-- What the functions do with their arguments: `none` is the `None` of a function that ends without
`return`; otherwise the fields at all pairs of a place and a frequency which broadcasting makes (either
there are as many of both or one of them is alone). -/
def call (field : ℝ → Fin 3 → Pt → Fld) (f : Freq) (xyz : List Pt) (orientation : String) :
    Except Err (Option (List Fld)) :=
  match f with
  | .num _ => .error .attributeError
  | .arr fs =>
    if refused xyz.length fs.length then .error .exception
    else if fs.length = xyz.length then
      match axisOf orientation with
      | none => .ok none
      | some o => .ok (some (List.zipWith (fun f x => field f o x) fs xyz))
    else match fs, xyz with
      | [f], xyz => (match axisOf orientation with
        | none => .ok none
        | some o => .ok (some (xyz.map fun x => field f o x)))
      | fs, [x] => (match axisOf orientation with
        | none => .ok none
        | some o => .ok (some (fs.map fun f => field f o x)))
      | _, _ => .error .valueError

/-- `E_from_ElectricDipoleWholeSpace`; `kappa` is 0 by default (15-63). -/
def eFrom (mu0 eps0 : ℝ) (a : Pt) (sig cl kappa epsr : ℝ) (f : Freq) (xyz : List Pt) (o : String) :=
  call (fun f o x => E ⟨2 * π * f, mu0 * (1 + kappa), sig, eps0 * epsr, cl⟩ o a x) f xyz o

/-- `E_galvanic_from_ElectricDipoleWholeSpace`; `kappa` is 1 by default (66-114). -/
def galvanicFrom (mu0 eps0 : ℝ) (a : Pt) (sig cl kappa epsr : ℝ) (f : Freq) (xyz : List Pt) (o : String) :=
  call (fun f o x => galvanic ⟨2 * π * f, mu0 * (1 + kappa), sig, eps0 * epsr, cl⟩ o a x) f xyz o

/-- `E_inductive_from_ElectricDipoleWholeSpace`; `kappa` is 1 by default (117-164). -/
def inductiveFrom (mu0 eps0 : ℝ) (a : Pt) (sig cl kappa epsr : ℝ) (f : Freq) (xyz : List Pt) (o : String) :=
  call (fun f o x => inductive_ ⟨2 * π * f, mu0 * (1 + kappa), sig, eps0 * epsr, cl⟩ o a x) f xyz o

/-- `J_from_ElectricDipoleWholeSpace`: `None` cannot be unpacked (176-190). -/
def jFrom (mu0 eps0 : ℝ) (a : Pt) (sig cl kappa epsr : ℝ) (f : Freq) (xyz : List Pt) (o : String) :
    Except Err (List Fld) :=
  match eFrom mu0 eps0 a sig cl kappa epsr f xyz o with
  | .error e => .error e
  | .ok none => .error .typeError
  | .ok (some Es) => .ok (Es.map fun e => ![sig * e 0, sig * e 1, sig * e 2])

/-- `H_from_ElectricDipoleWholeSpace` (249-298). -/
def hFrom (mu0 eps0 : ℝ) (a : Pt) (sig cl kappa epsr : ℝ) (f : Freq) (xyz : List Pt) (o : String) :=
  call (fun f o x => H ⟨2 * π * f, mu0 * (1 + kappa), sig, eps0 * epsr, cl⟩ o a x) f xyz o

/-- `B_from_ElectricDipoleWholeSpace` (310-325). -/
def bFrom (mu0 eps0 : ℝ) (a : Pt) (sig cl kappa epsr : ℝ) (f : Freq) (xyz : List Pt) (o : String) :
    Except Err (List Fld) :=
  match hFrom mu0 eps0 a sig cl kappa epsr f xyz o with
  | .error e => .error e
  | .ok none => .error .typeError
  | .ok (some Hs) => .ok (Hs.map fun e =>
      let mu := mu0 * (1 + kappa); ![mu * e 0, mu * e 1, mu * e 2])

/-- `A_from_ElectricDipoleWholeSpace`: the branch of `"Z"` reads `Ay` before it exists (328-370). -/
def aFrom (mu0 eps0 : ℝ) (a : Pt) (sig cl kappa epsr : ℝ) (f : Freq) (xyz : List Pt) (o : String) :
    Except Err (Option (List Fld)) :=
  match call (fun f o x => A ⟨2 * π * f, mu0 * (1 + kappa), sig, eps0 * epsr, cl⟩ o a x) f xyz o with
  | .error e => .error e
  | .ok v => if axisOf o = some 2 then .error .exception else .ok v

/-! ### Specification -/

/-- The moment of a dipole along an axis. -/
def moment (p : Par) (o : Fin 3) : Pt := Pi.single o p.cl

end Verif.FDEM.Dipolar

namespace Verif.FDEM.Dipolar.Props
open Verif Verif.VRM Verif.VRM.Props Verif.PF.Spheres Verif.EM.Curl Verif.FDEM.Dipolar Complex Filter Topology
open Verif.FDEM.Dipoles (Fld Maxwell)
open Verif.FDEM.Dipoles.Props (curl_const curl_local)

local notation "π" => Real.pi

theorem k_eq (p : Par) : p.k = Dipoles.kOf p.w p.mu p.sig p.eps := by
  unfold Par.k Dipoles.kOf
  congr 1
  ring

theorem k_sq (p : Par) : p.k ^ 2 = -(I * p.w * p.mu) * p.sigHat := by
  rw [k_eq, Dipoles.Props.k_sq, Par.sigHat]; ring

theorem E_eq (p : Par) (o : Fin 3) (a x : Pt) (k : Fin 3) :
    E p o a x k = 1 / p.sigHat * Dipoles.magH p.w p.mu p.sig p.eps (moment p o) a x k := by
  have e : I * p.k * (dist3 x a : ℂ) = I * (p.k * (dist3 x a : ℂ)) := by ring
  fin_cases o <;> fin_cases k <;>
    simp [E, Dipoles.magH, moment, ← k_eq, frontE, mid, e, Pi.single, Function.update] <;> ring

/-- C164. **The electric field is the sum of its galvanic and inductive parts**, with the same arguments. -/
theorem C164_sum (p : Par) (o : Fin 3) (a x : Pt) (k : Fin 3) :
    E p o a x k = galvanic p o a x k + inductive_ p o a x k := by
  fin_cases o <;> fin_cases k <;> simp [E, galvanic, inductive_] <;> ring

/-- C164. **The inductive part is the one of the vector potential**: `-i w mu A`. -/
theorem C164_inductive (p : Par) (o : Fin 3) {a x : Pt} (hx : x ≠ a) (hs : p.sigHat ≠ 0) (k : Fin 3) :
    inductive_ p o a x k = -(I * p.w * p.mu) * A p o a x k := by
  have hr : (dist3 x a : ℂ) ≠ 0 := by exact_mod_cast (dist_pos hx).ne'
  have hpi : (π : ℂ) ≠ 0 := by exact_mod_cast Real.pi_ne_zero
  fin_cases o <;> fin_cases k <;> simp [inductive_, A, frontE] <;> rw [k_sq] <;> field_simp

/-- The radial part of the potential. -/
def g (q : ℂ) (z : ℝ) : ℂ := 1 * exp (-(I * q * z)) / (4 * π * (z : ℂ) ^ 1)

theorem g_deriv (q : ℂ) {ρ : ℝ} (hρ : ρ ≠ 0) :
    HasDerivAt (g q) ((-(I * q * ρ) - 1) * exp (-(I * q * ρ)) / (4 * π * (ρ : ℂ) ^ 2)) ρ := by
  have h := Dipoles.Props.rad (k := q) 1 hρ (hasDerivAt_const (ρ : ℂ) (1 : ℂ))
  refine h.congr_deriv ?_
  norm_num

/-- The potential with its direction. -/
theorem A_shape (p : Par) (o : Fin 3) (a x : Pt) (k : Fin 3) :
    A p o a x k = (mdotr (moment p o) x a * (x k - a k)) • (fun _ : ℝ => (0 : ℂ)) (dist3 x a)
      + moment p o k • g p.k (dist3 x a) := by
  fin_cases o <;> fin_cases k <;> simp [A, moment, Pi.single, Function.update, g] <;> ring

/-- The curl of the potential. -/
theorem A_curl (p : Par) (o : Fin 3) {a x : Pt} (hx : x ≠ a) :
    IsCurl (A p o a) x (Dipoles.elecH p.w p.mu p.sig p.eps (moment p o) a x) := by
  have hr := (dist_pos hx).ne'
  refine (curl_T (moment p o) hx (hasDerivAt_const _ _) (g_deriv p.k hr)).congr (A_shape p o a) fun k => ?_
  have hz : (dist3 x a : ℂ) ≠ 0 := by exact_mod_cast hr
  have hpi : (π : ℂ) ≠ 0 := by exact_mod_cast Real.pi_ne_zero
  rw [Dipoles.Props.elecH_shape, ← k_eq]
  simp only [Complex.real_smul, Dipoles.Props.fS]
  push_cast
  field_simp
  ring

/-- The divergence of the potential. -/
def divA (p : Par) (o : Fin 3) (a x : Pt) : ℂ :=
  mdotr (moment p o) x a • -(Dipoles.Props.fS p.k (dist3 x a))

theorem A_div (p : Par) (o : Fin 3) {a x : Pt} (hx : x ≠ a) : IsDiv (A p o a) x (divA p o a x) := by
  have hr := (dist_pos hx).ne'
  refine (div_T (moment p o) hx (hasDerivAt_const _ _) (g_deriv p.k hr)).congr (A_shape p o a) ?_
  have hz : (dist3 x a : ℂ) ≠ 0 := by exact_mod_cast hr
  have hpi : (π : ℂ) ≠ 0 := by exact_mod_cast Real.pi_ne_zero
  simp only [Complex.real_smul, Dipoles.Props.fS, divA]
  push_cast
  field_simp
  ring

theorem divA_partial (p : Par) (o : Fin 3) {a x : Pt} (hx : x ≠ a) (hs : p.sigHat ≠ 0) (j : Fin 3) :
    Partial (divA p o a) j x (p.sigHat * galvanic p o a x j) := by
  have hr := (dist_pos hx).ne'
  have h := pSmul (pMdot (moment p o) a x j) (pRadial hx (Dipoles.Props.fS_deriv p.k hr).neg j)
  refine HasDerivAt.congr_deriv h ?_
  have hz : (dist3 x a : ℂ) ≠ 0 := by exact_mod_cast hr
  have hpi : (π : ℂ) ≠ 0 := by exact_mod_cast Real.pi_ne_zero
  have e : I * p.k * (dist3 x a : ℂ) = I * (p.k * (dist3 x a : ℂ)) := by ring
  fin_cases o <;> fin_cases j <;>
    simp [galvanic, moment, Pi.single, Function.update, frontE, mid, mdotr, Dipoles.Props.fS, e] <;>
    field_simp <;> ring_nf <;> simp only [I_sq] <;> ring

/-- C164. **The galvanic part is the one of the scalar potential**: it is the gradient of the divergence of the
vector potential over the admittivity. -/
theorem C164_galvanic (p : Par) (o : Fin 3) {a : Pt} (hs : p.sigHat ≠ 0) :
    ∃ D : Pt → ℂ, (∀ y, y ≠ a → IsDiv (A p o a) y (D y)) ∧
      ∀ x, x ≠ a → ∀ j, Partial D j x (p.sigHat * galvanic p o a x j) :=
  ⟨divA p o a, fun _ hy => A_div p o hy, fun _ hx j => divA_partial p o hx hs j⟩

/-- C164. **The electric field and the curl of the vector potential satisfy Maxwell's equations**, with
displacement current (missing: the magnetic field returned is not that curl, see `C164_violated_h`). -/
theorem C164_maxwell_partial (p : Par) (o : Fin 3) {a : Pt} (hs : p.sigHat ≠ 0) :
    ∃ Hs : Pt → Fld, (∀ y, y ≠ a → IsCurl (A p o a) y (Hs y)) ∧
      ∀ x, x ≠ a → Maxwell p.w p.mu p.sig p.eps (E p o a) Hs x := by
  refine ⟨Dipoles.elecH p.w p.mu p.sig p.eps (moment p o) a, fun y hy => A_curl p o hy, fun x hx =>
    ⟨?_, ?_, Dipoles.Props.elecH_div _ _ _ _ _ hx⟩⟩
  · refine (curl_const (1 / p.sigHat) (Dipoles.Props.magH_curl p.w p.mu p.sig p.eps (moment p o) hx)).congr
      (E_eq p o a) fun k => ?_
    rw [← k_eq, k_sq]
    field_simp
  · refine (Dipoles.Props.elecH_curl p.w p.mu p.sig p.eps (moment p o) hx).congr (fun _ _ => rfl) fun k => ?_
    rw [E_eq]
    have e : (p.sig + I * p.w * p.eps : ℂ) = p.sigHat := by rw [Par.sigHat]; ring
    rw [e]; field_simp

/-- A dipole in sea water. -/
example (w mu eps : ℝ) : (⟨w, mu, 3, eps, 1⟩ : Par).sigHat ≠ 0 := fun h => by
  have := congrArg Complex.re h
  simp [Par.sigHat] at this

theorem H_eq (p : Par) (o : Fin 3) (a x : Pt) (k : Fin 3) :
    H p o a x k = cross (moment p o) (x - a) k •
      ((1 - I * p.k * dist3 x a) * exp (-(I * p.k * dist3 x a)) / (4 * π * (dist3 x a : ℂ) ^ 3)) := by
  fin_cases o <;> fin_cases k <;> simp [H, moment, cross, Pi.single, Function.update] <;> ring

/-- C164. Violated by the magnetic field: the sign of the wave number is wrong in one place, so that it is not
the curl of the vector potential, nor in accordance with Ampère's law, wherever the wave number and the
vector product of the moment and the place are not zero; it agrees at zero frequency. -/
theorem C164_violated_h (p : Par) (o : Fin 3) {a x : Pt} (hx : x ≠ a) (hk : p.k ≠ 0)
    (hc : cross (moment p o) (x - a) ≠ 0) : ¬ IsCurl (A p o a) x (H p o a x) := by
  intro h
  have h2 := h.unique (A_curl p o hx)
  apply hc
  funext k
  have h3 := congrFun h2 k
  rw [H_eq, Dipoles.Props.elecH_shape, ← k_eq] at h3
  have hz : (dist3 x a : ℂ) ≠ 0 := by exact_mod_cast (dist_pos hx).ne'
  have hpi : (π : ℂ) ≠ 0 := by exact_mod_cast Real.pi_ne_zero
  simp only [Complex.real_smul, Dipoles.Props.fS] at h3
  by_contra hne
  have hne' : (cross (moment p o) (x - a) k : ℂ) ≠ 0 := by exact_mod_cast hne
  have he := exp_ne_zero (-(I * p.k * dist3 x a))
  have h4 := mul_left_cancel₀ hne' h3
  rw [div_left_inj' (mul_ne_zero (mul_ne_zero (by norm_num) hpi) (pow_ne_zero _ hz))] at h4
  have h5 := mul_right_cancel₀ he h4
  have h6 : I * p.k * (dist3 x a : ℂ) = 0 := by linear_combination (-1 / 2) * h5
  exact mul_ne_zero (mul_ne_zero I_ne_zero hk) hz h6

theorem C164_static (p : Par) (o : Fin 3) {a x : Pt} (hx : x ≠ a) (hk : p.k = 0) :
    IsCurl (A p o a) x (H p o a x) := by
  refine (A_curl p o hx).congr (fun _ _ => rfl) fun k => ?_
  rw [H_eq, Dipoles.Props.elecH_shape, ← k_eq, hk]
  simp [Dipoles.Props.fS]

/-- C164. Violated by the values taken when no permeability is given: then the electric field is that of free
space and its parts are those of twice the permeability, so that they do not add up. Here on the axis of a
dipole in an insulator. -/
theorem C164_violated_defaults {w mu0 eps : ℝ} (hw : 0 < w) (hm : 0 < mu0) (hε : 0 < eps) {cl : ℝ} (hc : cl ≠ 0)
    {s : ℝ} (hs : 0 < s) :
    E ⟨w, mu0 * (1 + 0), 0, eps, cl⟩ 0 0 ![s, 0, 0] 0 ≠
      galvanic ⟨w, mu0 * (1 + 1), 0, eps, cl⟩ 0 0 ![s, 0, 0] 0
        + inductive_ ⟨w, mu0 * (1 + 1), 0, eps, cl⟩ 0 0 ![s, 0, 0] 0 := by
  rw [← C164_sum]
  intro h
  have hr : dist3 ![s, 0, 0] 0 = s := by simp [dist3, Real.sqrt_sq hs.le]
  have hk : ∀ mu : ℝ, 0 < mu → (⟨w, mu, 0, eps, cl⟩ : Par).k = ((w * √(mu * eps) : ℝ) : ℂ) := fun mu hmu => by
    have hh : 0 ≤ w ^ 2 * mu * eps := by positivity
    have e : ((w : ℂ) ^ 2 * mu * eps - 1 * I * w * mu * (0 : ℝ)) = ((w ^ 2 * mu * eps : ℝ) : ℂ) := by
      push_cast; ring
    unfold Par.k
    rw [e, show (1 / 2 : ℂ) = ((1 / 2 : ℝ) : ℂ) by push_cast; rfl, ← Complex.ofReal_cpow hh, ← Real.sqrt_eq_rpow,
      mul_assoc, Real.sqrt_mul (sq_nonneg w), Real.sqrt_sq hw.le]
  have hn : ∀ mu : ℝ, 0 < mu → ‖E ⟨w, mu, 0, eps, cl⟩ 0 0 ![s, 0, 0] 0‖ ^ 2
      = (|cl| / (2 * π * (w * eps) * s ^ 3)) ^ 2 * (1 + w ^ 2 * mu * eps * s ^ 2) := fun mu hmu => by
    have hpi := Real.pi_pos
    have e : E ⟨w, mu, 0, eps, cl⟩ 0 0 ![s, 0, 0] 0 = (cl / (2 * π * (I * w * eps) * s ^ 3) : ℂ) *
        exp (((-(w * √(mu * eps) * s) : ℝ) : ℂ) * I) * (((1 : ℝ) : ℂ) + ((w * √(mu * eps) * s : ℝ) : ℂ) * I) := by
      have hsz : (s : ℂ) ≠ 0 := by exact_mod_cast hs.ne'
      simp only [E, hr, frontE, mid, hk mu hmu, Par.sigHat]
      simp
      rw [show -(I * ((w : ℂ) * (√(mu * eps) : ℝ)) * s) = -((w : ℂ) * (√(mu * eps) : ℝ) * s * I) by ring]
      have hpi' : (π : ℂ) ≠ 0 := by exact_mod_cast Real.pi_ne_zero
      have hw' : (w : ℂ) ≠ 0 := by exact_mod_cast hw.ne'
      have hε' : (eps : ℂ) ≠ 0 := by exact_mod_cast hε.ne'
      field_simp
      ring
    have h1 : ‖(((1 : ℝ) : ℂ) + ((w * √(mu * eps) * s : ℝ) : ℂ) * I)‖ ^ 2 = 1 + w ^ 2 * mu * eps * s ^ 2 := by
      rw [Complex.sq_norm, Complex.normSq_add_mul_I, mul_pow, mul_pow, Real.sq_sqrt (by positivity)]
      ring
    rw [e, norm_mul, norm_mul, Complex.norm_exp_ofReal_mul_I, mul_one, mul_pow, h1]
    congr 2
    simp [abs_of_pos hw, abs_of_pos hε, abs_of_pos hs, abs_of_pos hpi]
  have h1 := hn (mu0 * (1 + 0)) (by positivity)
  rw [h, hn (mu0 * (1 + 1)) (by positivity)] at h1
  have hpos : 0 < (|cl| / (2 * π * (w * eps) * s ^ 3)) ^ 2 := by
    have := Real.pi_pos
    have := abs_pos.2 hc
    positivity
  have h2 := mul_left_cancel₀ hpos.ne' h1
  have : 0 < w ^ 2 * mu0 * eps * s ^ 2 := by positivity
  nlinarith

/-- C164. Current densities and fluxes are the conductivity and the permeability times the fields. -/
theorem C164_densities (mu0 eps0 : ℝ) (a : Pt) (sig cl kappa epsr : ℝ) (f : Freq) (xyz : List Pt) (o : String) :
    (∀ Es, eFrom mu0 eps0 a sig cl kappa epsr f xyz o = .ok (some Es) →
      jFrom mu0 eps0 a sig cl kappa epsr f xyz o = .ok (Es.map fun e k => sig * e k)) ∧
    (∀ Hs, hFrom mu0 eps0 a sig cl kappa epsr f xyz o = .ok (some Hs) →
      bFrom mu0 eps0 a sig cl kappa epsr f xyz o = .ok (Hs.map fun e k => (mu0 * (1 + kappa) : ℝ) * e k)) := by
  constructor
  · intro Es h
    rw [jFrom, h]
    simp only [Except.ok.injEq]
    refine List.map_congr_left fun e _ => ?_
    funext k; fin_cases k <;> rfl
  · intro Hs h
    rw [bFrom, h]
    simp only [Except.ok.injEq]
    refine List.map_congr_left fun e _ => ?_
    funext k; fin_cases k <;> simp

/-- C164. With one frequency, the fields of all places are returned, in the order of the places; capitals do not
matter. -/
theorem C164_places (field : ℝ → Fin 3 → Pt → Fld) (f : ℝ) (xyz : List Pt) :
    call field (.arr [f]) xyz "X" = .ok (some (xyz.map (field f 0))) ∧
    call field (.arr [f]) xyz "Y" = .ok (some (xyz.map (field f 1))) ∧
    call field (.arr [f]) xyz "Z" = .ok (some (xyz.map (field f 2))) ∧
    call field (.arr [f]) xyz "x" = call field (.arr [f]) xyz "X" ∧
    call field (.arr [f]) xyz "y" = call field (.arr [f]) xyz "Y" ∧
    call field (.arr [f]) xyz "z" = call field (.arr [f]) xyz "Z" := by
  have ex : axisOf "X" = some 0 := by decide +kernel
  have ey : axisOf "Y" = some 1 := by decide +kernel
  have ez : axisOf "Z" = some 2 := by decide +kernel
  have ex' : axisOf "x" = some 0 := by decide +kernel
  have ey' : axisOf "y" = some 1 := by decide +kernel
  have ez' : axisOf "z" = some 2 := by decide +kernel
  have hr : refused xyz.length 1 = false := by simp [refused]
  have key : ∀ (s : String) (i : Fin 3), axisOf s = some i →
      call field (.arr [f]) xyz s = .ok (some (xyz.map (field f i))) := fun s i h => by
    simp only [call, List.length_singleton, hr, h, Bool.false_eq_true, if_false]
    rcases xyz with _ | ⟨x, _ | ⟨y, t⟩⟩
    · simp
    · simp
    · simp
  refine ⟨key _ _ ex, key _ _ ey, key _ _ ez, ?_, ?_, ?_⟩
  · rw [key _ _ ex, key _ _ ex']
  · rw [key _ _ ey, key _ _ ey']
  · rw [key _ _ ez, key _ _ ez']

/-- C164. At one place, the fields of all frequencies are returned, in the order of the frequencies. -/
theorem C164_frequencies (field : ℝ → Fin 3 → Pt → Fld) (fs : List ℝ) (x : Pt) (o : String) (i : Fin 3)
    (ho : axisOf o = some i) :
    call field (.arr fs) [x] o = .ok (some (fs.map fun f => field f i x)) := by
  have hr : refused 1 fs.length = false := by
    simp only [refused, Bool.and_eq_false_iff, decide_eq_false_iff_not]
    have : 1 &&& fs.length ≤ 1 := Nat.and_le_left
    omega
  simp only [call, List.length_singleton, hr, ho, Bool.false_eq_true, if_false]
  rcases fs with _ | ⟨f, _ | ⟨g, t⟩⟩ <;> simp

/-- C164. With the same permeability, what the functions return for the electric field is the sum of what they
return for its galvanic and inductive parts, at all places. -/
theorem C164_parts (mu0 eps0 : ℝ) (a : Pt) (sig cl kappa epsr f : ℝ) (xyz : List Pt) (o : String)
    (Es Gs Is : List Fld)
    (he : eFrom mu0 eps0 a sig cl kappa epsr (.arr [f]) xyz o = .ok (some Es))
    (hg : galvanicFrom mu0 eps0 a sig cl kappa epsr (.arr [f]) xyz o = .ok (some Gs))
    (hi : inductiveFrom mu0 eps0 a sig cl kappa epsr (.arr [f]) xyz o = .ok (some Is)) :
    Es = List.zipWith (fun g i k => g k + i k) Gs Is := by
  have hr : refused xyz.length 1 = false := by simp [refused]
  have key : ∀ (F : ℝ → Fin 3 → Pt → Fld) (l : List Fld), call F (.arr [f]) xyz o = .ok (some l) →
      ∃ i, axisOf o = some i ∧ l = xyz.map (F f i) := by
    intro F l h
    cases ho : axisOf o with
    | none =>
      simp only [call, List.length_singleton, hr, ho, Bool.false_eq_true, if_false] at h
      rcases xyz with _ | ⟨x, _ | ⟨y, t⟩⟩ <;> simp at h
    | some i =>
      refine ⟨i, rfl, ?_⟩
      simp only [call, List.length_singleton, hr, ho, Bool.false_eq_true, if_false] at h
      rcases xyz with _ | ⟨x, _ | ⟨y, t⟩⟩ <;> simp at h <;> simp [← h]
  obtain ⟨i, h1, rfl⟩ := key _ _ he
  obtain ⟨j, h2, rfl⟩ := key _ _ hg
  obtain ⟨k, h3, rfl⟩ := key _ _ hi
  obtain rfl : i = j := Option.some.inj (h1.symm.trans h2)
  obtain rfl : i = k := Option.some.inj (h1.symm.trans h3)
  rw [List.zipWith_map, List.zipWith_self]
  refine List.map_congr_left fun x _ => ?_
  funext c
  exact C164_sum _ i a x c

/-- C164. Violated: several places with several frequencies, which the functions say they refuse, never are;
with equal numbers of both, each place gets another frequency. -/
theorem C164_violated_check (n nf : ℕ) : refused n nf = false := by
  have : 1 &&& nf ≤ 1 := Nat.and_le_left
  simp only [refused, Bool.and_eq_false_iff, decide_eq_false_iff_not]
  right
  omega

theorem C164_violated_pairs (field : ℝ → Fin 3 → Pt → Fld) (f g : ℝ) (x y : Pt) :
    call field (.arr [f, g]) [x, y] "X" = .ok (some [field f 0 x, field g 0 y]) := by
  have ex : axisOf "X" = some 0 := by decide +kernel
  simp [call, C164_violated_check, ex]

/-- C164. Violated: a number is refused as frequency, as is the vertical direction by the vector potential;
other names of directions give `None`, or make the densities fail. -/
theorem C164_violated_arguments (field : ℝ → Fin 3 → Pt → Fld) (mu0 eps0 : ℝ) (a : Pt) (sig cl kappa epsr f : ℝ)
    (xyz : List Pt) (o : String) (ho : axisOf o = none) :
    call field (.num f) xyz o = .error .attributeError ∧
    aFrom mu0 eps0 a sig cl kappa epsr (.arr [f]) xyz "Z" = .error .exception ∧
    call field (.arr [f]) xyz o = .ok none ∧
    jFrom mu0 eps0 a sig cl kappa epsr (.arr [f]) xyz o = .error .typeError ∧
    bFrom mu0 eps0 a sig cl kappa epsr (.arr [f]) xyz o = .error .typeError := by
  have hr : refused xyz.length 1 = false := C164_violated_check _ _
  have key : ∀ F : ℝ → Fin 3 → Pt → Fld, call F (.arr [f]) xyz o = .ok none := fun F => by
    simp only [call, List.length_singleton, hr, ho, Bool.false_eq_true, if_false]
    rcases xyz with _ | ⟨x, _ | ⟨y, t⟩⟩ <;> simp
  have ez : axisOf "Z" = some 2 := by decide +kernel
  refine ⟨rfl, ?_, key _, ?_, ?_⟩
  · rw [aFrom, (C164_places _ f xyz).2.2.1]
    simp [ez]
  · rw [jFrom, eFrom, key]
  · rw [bFrom, hFrom, key]

example : axisOf "vertical" = none := by decide +kernel

end Verif.FDEM.Dipolar.Props
