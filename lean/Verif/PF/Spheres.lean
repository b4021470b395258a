import Verif.VRM.Sources
import Verif.Utils.Angles
import Mathlib.Topology.Instances.Real.Lemmas
import Mathlib.Algebra.Order.Floor.Ring

/-!
C160: the analytic fields of spheres (`simpeg/potential_fields/gravity/analytics.py` and
`simpeg/potential_fields/magnetics/analytics.py`). Arrays are treated one location at a time; `none`
stands for a value that is not a number. Constants of nature are parameters.
-/

noncomputable section
namespace Verif.PF.Spheres
open Verif Verif.VRM Verif.VRM.Props Verif.Maps.Parametric.Props Filter Topology

/-! ### The code -/

/-- The test of the sizes at the beginning of every function (`gravity/analytics.py` 16-18, 53-55,
`magnetics/analytics.py` 24-26, 225-227, 283-285): `~n` is `-n - 1`, and comparisons are chained. -/
def sizesRefused (nx ny nz : ℕ) : Bool := decide (-(nx : ℤ) - 1 = ny) && decide (ny = nz)

/-- A number written to an array like the locations, which may be an array of integers
(`np.empty_like(x)`): integers take the whole part. -/
def store (int : Bool) (v : ℝ) : ℝ :=
  if int then (if 0 ≤ v then ((⌊v⌋ : ℤ) : ℝ) else ((⌈v⌉ : ℤ) : ℝ)) else v

/-- `M` (`gravity/analytics.py` 31-33, 70-72, `magnetics/analytics.py` 333-335). `int` says whether the
array of the first coordinates is of integers. -/
def mass (int : Bool) (R rho r : ℝ) : ℝ :=
  store int (if R ≤ r then R ^ 3 * 4 / 3 * Real.pi * rho else r ^ 3 * 4 / 3 * Real.pi * rho)

/-- `GravSphereFreeSpace` (`gravity/analytics.py` 6-41), with the gravitational constant `G`. -/
def grav (G : ℝ) (int : Bool) (R : ℝ) (c : Pt) (rho : ℝ) (x : Pt) : Option Pt :=
  let r := dist3 x c;
  if r = 0 then none else
  let g := -G * (1 / r ^ 2) * mass int R rho r * 100000000;
  some fun k => g * ((x k - c k) / r)

/-- The six numbers returned for a symmetric tensor. -/
structure Tensor where
  xx : ℝ
  xy : ℝ
  xz : ℝ
  yy : ℝ
  yz : ℝ
  zz : ℝ

/-- `gxx`, ..., `gyz` (`gravity/analytics.py` 76-81, `magnetics/analytics.py` 339-344). -/
def tensor (g : ℝ) (c x : Pt) : Tensor :=
  let rx := x 0 - c 0;
  let ry := x 1 - c 1;
  let rz := x 2 - c 2;
  let gxx := g * (2 * (rx * rx) - ry * ry - rz * rz);
  let gyy := g * (2 * (ry * ry) - rx * rx - rz * rz);
  ⟨gxx, g * (3 * rx * ry), g * (3 * rx * rz), gyy, g * (3 * ry * rz), -gxx - gyy⟩

/-- `GravityGradientSphereFreeSpace` (`gravity/analytics.py` 44-83). -/
def gravGrad (G : ℝ) (int : Bool) (R : ℝ) (c : Pt) (rho : ℝ) (x : Pt) : Option Tensor :=
  let r := dist3 x c;
  if r = 0 then none else
  some (tensor (G * (1 / (r * r * r * r * r)) * mass int R rho r * 1000000000000) c x)

/-- `MagSphereAnaFun` (`magnetics/analytics.py` 8-78): the field is along the first axis. Any other
flag than these two leaves zeros. -/
def magAna (R : ℝ) (c : Pt) (mu1 mu2 H0 : ℝ) (flag : String) (x : Pt) : Option Pt :=
  let r := dist3 x c;
  let rf2 := 3 * mu1 / (mu2 + 2 * mu1);
  let rf1 := (mu2 - mu1) / (mu2 + 2 * mu1);
  let dx := x 0 - c 0;
  let dy := x 1 - c 1;
  let dz := x 2 - c 2;
  if r < R then
    some ![if flag = "total" then mu2 * H0 * rf2
      else if flag = "secondary" then mu2 * H0 * rf2 - mu1 * H0 else 0, 0, 0]
  else if r = 0 then none else
    some ![if flag = "total" then
          mu1 * (H0 + H0 / r ^ 5 * R ^ 3 * rf1 * (2 * dx ^ 2 - dy ^ 2 - dz ^ 2))
        else if flag = "secondary" then
          mu1 * (H0 / r ^ 5 * R ^ 3 * rf1 * (2 * dx ^ 2 - dy ^ 2 - dz ^ 2)) else 0,
      mu1 * (H0 / r ^ 5 * R ^ 3 * rf1 * (3 * dx * dy)),
      mu1 * (H0 / r ^ 5 * R ^ 3 * rf1 * (3 * dx * dz))]

/-- `Bot` (`magnetics/analytics.py` 109, 232). -/
def size3 (b : Pt) : ℝ := Real.sqrt (b 0 ^ 2 + b 1 ^ 2 + b 2 ^ 2)

/-- The field of a dipole `const`, along the direction of `Bo`, as both `CongruousMagBC` (124-198) and
`MagSphereAnaFunA` (262-269) write it. -/
def dipoleB (const : ℝ) (Bo c x : Pt) (k : Fin 3) : ℝ :=
  let r := dist3 x c;
  let m := fun k => Bo k / size3 Bo;
  let mdotr := m 0 * (x 0 - c 0) / r + m 1 * (x 1 - c 1) / r + m 2 * (x 2 - c 2) / r;
  const / r ^ 3 * (3 * mdotr * (x k - c k) / r - m k)

/-- `MagSphereAnaFunA` (`magnetics/analytics.py` 203-271). `m0` is the permeability of free space. -/
def magAnaA (m0 R : ℝ) (c : Pt) (chi : ℝ) (Bo : Pt) (flag : String) (x : Pt) : Option Pt :=
  let r := dist3 x c;
  let rf2 := 3 / (chi + 3) * (1 + chi);
  let V := 4 * Real.pi * R ^ 3 / 3;
  let mom := size3 Bo / m0 * chi / (1 + chi / 3) * V;
  let const := m0 / (4 * Real.pi) * mom;
  if r < R then
    some fun k => if flag = "total" then Bo k * rf2
      else if flag = "secondary" then Bo k * rf2 - Bo k else 0
  else if r = 0 ∨ size3 Bo = 0 then none else some (dipoleB const Bo c x)

/-- `MagSphereFreeSpace` (`magnetics/analytics.py` 285-357): the three components and `tmi`. -/
def magFree (int : Bool) (R : ℝ) (c : Pt) (chi : ℝ) (Bo x : Pt) : Option (Pt × Option ℝ) :=
  let r := dist3 x c;
  if r = 0 then none else
  let t := tensor (1 / (4 * Real.pi) * (1 / (r * r * r * r * r)) * mass int R chi r) c x;
  let B : Pt := ![t.xx * Bo 0 + t.xy * Bo 1 + t.xz * Bo 2, t.xy * Bo 0 + t.yy * Bo 1 + t.yz * Bo 2,
    t.xz * Bo 0 + t.yz * Bo 1 + t.zz * Bo 2];
  some (B, if size3 Bo = 0 then none else
    some (B 0 * (Bo 0 / size3 Bo) + B 1 * (Bo 1 / size3 Bo) + B 2 * (Bo 2 / size3 Bo)))

/-- `IDTtoxyz` (`magnetics/analytics.py` 274-282). -/
def idtToXyz (inc dec btot : ℝ) : Pt :=
  ![btot * Real.cos (inc / 180 * Real.pi) * Real.sin (dec / 180 * Real.pi),
    btot * Real.cos (inc / 180 * Real.pi) * Real.cos (dec / 180 * Real.pi),
    btot * Real.sin (inc / 180 * Real.pi)]

/-- The cells of a mesh with their susceptibilities. -/
structure Cells (ι : Type) where
  vol : ι → ℝ
  cen : ι → Pt
  chi : ι → ℝ

section
variable {ι : Type} [Fintype ι]

/-- `V`, the volume of the cells with positive susceptibility (`magnetics/analytics.py` 103-104). -/
def Cells.volume (m : Cells ι) : ℝ := ∑ i, if 0 < m.chi i then m.vol i else 0

/-- `gamma` (`magnetics/analytics.py` 106). -/
def Cells.gamma (m : Cells ι) : ℝ := 1 / m.volume * ∑ i, m.chi i * m.vol i

/-- `xc`, `yc`, `zc` (`magnetics/analytics.py` 114-116). -/
def Cells.centre (m : Cells ι) (k : Fin 3) : ℝ :=
  (∑ i, if 0 < m.chi i then m.chi i * m.cen i k else 0) / ∑ i, if 0 < m.chi i then m.chi i else 0

/-- `mom` (`magnetics/analytics.py` 113), with the size of the inducing field. -/
def congMoment (m0 Bot gamma V : ℝ) : ℝ := 1 / m0 * Bot * gamma * V / (1 + gamma / 3)

/-- `CongruousMagBC` (`magnetics/analytics.py` 81-200): the value for a boundary face with centre `x`
whose normal is the axis `k`. -/
def congruous (m0 : ℝ) (m : Cells ι) (Bo x : Pt) (k : Fin 3) : Option ℝ :=
  let mom := congMoment m0 (size3 Bo) m.gamma m.volume;
  if m.volume = 0 ∨ size3 Bo = 0 ∨ dist3 x m.centre = 0 then none
  else some (dipoleB (m0 / (4 * Real.pi) * mom) Bo m.centre x k)

/-- The number returned with it (`magnetics/analytics.py` 200). -/
def congruousConst (gamma V : ℝ) : ℝ := (1 / gamma - 1 / (3 + gamma)) * 1 / V

end

/-! ### Specification -/

/-- The potential of attraction of a homogeneous ball. -/
def potential (G R : ℝ) (c : Pt) (rho : ℝ) (x : Pt) : ℝ :=
  if dist3 x c < R then 2 * Real.pi * G * rho * (R ^ 2 - dist3 x c ^ 2 / 3)
  else G * (4 / 3 * Real.pi * R ^ 3 * rho) / dist3 x c

/-- The entry of a tensor in row `i`, column `j`. -/
def Tensor.at (t : Tensor) (i j : Fin 3) : ℝ :=
  (!![t.xx, t.xy, t.xz; t.xy, t.yy, t.yz; t.xz, t.yz, t.zz] : Matrix (Fin 3) (Fin 3) ℝ) i j

/-- `u` is the value of the gravity function at `x` (zero where it is not a number). -/
def gravAt (G R : ℝ) (c : Pt) (rho : ℝ) (x : Pt) : Pt := (grav G false R c rho x).getD fun _ => 0

/-- What a magnetic field with permeability `mo` outside and `mi` inside must satisfy at a point of the
surface of the sphere with centre `c`: the flux through the surface is continuous, and so is the
magnetic field along it (the jump of `B / mu` is normal). -/
def Interface (c x : Pt) (mo mi : ℝ) (bo bi : Pt) : Prop :=
  ((x 0 - c 0) * bo 0 + (x 1 - c 1) * bo 1 + (x 2 - c 2) * bo 2 =
    (x 0 - c 0) * bi 0 + (x 1 - c 1) * bi 1 + (x 2 - c 2) * bi 2) ∧
  ∃ lam : ℝ, ∀ k, bo k / mo - bi k / mi = lam * (x k - c k)

/-! ### Gravity -/

theorem dist_eq (x c : Pt) : dist3 x c = Real.sqrt (quad c x) := rfl

theorem dist_sq (x c : Pt) :
    dist3 x c ^ 2 = (x 0 - c 0) ^ 2 + (x 1 - c 1) ^ 2 + (x 2 - c 2) ^ 2 := by
  rw [dist_eq, Real.sq_sqrt (by unfold quad; positivity)]; rfl

theorem dist_pos {x c : Pt} (h : x ≠ c) : 0 < dist3 x c := Real.sqrt_pos.2 (quad_pos h)

theorem ne_of_dist {x c : Pt} {R : ℝ} (hR : 0 < R) (h : R ≤ dist3 x c) : x ≠ c := by
  rintro rfl
  have : dist3 x x = 0 := by simp [dist3]
  linarith

theorem dist_cont (c : Pt) : Continuous fun x : Pt => dist3 x c := by
  unfold dist3
  fun_prop

theorem gEvent {f g : Pt → ℝ} {u m : Pt} (h : IsGradient f u m) (e : f =ᶠ[𝓝 m] g) : IsGradient g u m :=
  HasFDerivAt.congr_of_eventuallyEq h e.symm

/-- A function which is always one of two functions with the same value and gradient at a point. -/
theorem gGlue {f g h : Pt → ℝ} {u m : Pt} (hf : IsGradient f u m) (hg : IsGradient g u m)
    (e : f m = g m) (hh : ∀ y, h y = f y ∨ h y = g y) : IsGradient h u m := by
  unfold IsGradient at *
  have hm : h m = f m := by rcases hh m with q | q <;> simp [q, e]
  have h1 : HasFDerivWithinAt h (dotL u) {y | h y = f y} m :=
    hf.hasFDerivWithinAt.congr (fun y hy => hy) hm
  have h2 : HasFDerivWithinAt h (dotL u) {y | h y = g y} m :=
    hg.hasFDerivWithinAt.congr (fun y hy => hy) (hm.trans e)
  have h3 := h1.union h2
  have eu : {y | h y = f y} ∪ {y | h y = g y} = Set.univ := by
    ext y; simpa using hh y
  rw [eu] at h3
  exact hasFDerivWithinAt_univ.1 h3

theorem inv_pow1 {q : ℝ} (hq : 0 < q) :
    HasDerivAt (fun q => 1 / Real.sqrt q) (-(1 / 2) / Real.sqrt q ^ 3) q := by
  have hs : Real.sqrt q ≠ 0 := (Real.sqrt_pos.2 hq).ne'
  have h := (hasDerivAt_const q (1 : ℝ)).div (Real.hasDerivAt_sqrt hq.ne') hs
  refine h.congr_deriv ?_
  field_simp
  ring

theorem pot_in (G R : ℝ) (c : Pt) (rho : ℝ) (x : Pt) :
    IsGradient (fun x => 2 * Real.pi * G * rho * (R ^ 2 - dist3 x c ^ 2 / 3))
      (fun k => -(4 / 3 * Real.pi * G * rho) * (x k - c k)) x := by
  have h := gSmul (2 * Real.pi * G * rho) (gSub (gConst (R ^ 2)) (gSmul (1 / 3) (g_quad c x)))
  have e : (fun y : Pt => 2 * Real.pi * G * rho * (R ^ 2 - 1 / 3 * quad c y)) =
      fun x => 2 * Real.pi * G * rho * (R ^ 2 - dist3 x c ^ 2 / 3) := by
    funext y
    rw [dist_sq, quad]; ring
  rw [e] at h
  exact gCongr h fun k => by ring

theorem pot_out (G R : ℝ) (c : Pt) (rho : ℝ) {x : Pt} (hx : x ≠ c) :
    IsGradient (fun x => G * (4 / 3 * Real.pi * R ^ 3 * rho) / dist3 x c)
      (fun k => -(G * (4 / 3 * Real.pi * R ^ 3 * rho)) * (x k - c k) / dist3 x c ^ 3) x := by
  have h := gSmul (G * (4 / 3 * Real.pi * R ^ 3 * rho)) (gComp (inv_pow1 (quad_pos hx)) (g_quad c x))
  have e : (fun y : Pt => G * (4 / 3 * Real.pi * R ^ 3 * rho) * (1 / Real.sqrt (quad c y))) =
      fun x => G * (4 / 3 * Real.pi * R ^ 3 * rho) / dist3 x c := by
    funext y
    rw [dist_eq]; ring
  rw [e] at h
  refine gCongr h fun k => ?_
  rw [dist_eq]; ring

/-- The value of the gravity function outside of the sphere. -/
theorem grav_out (G : ℝ) {R : ℝ} (c : Pt) (rho : ℝ) {x : Pt} (hx : x ≠ c) (h : R ≤ dist3 x c) :
    grav G false R c rho x = some fun k => 100000000 *
      (-(G * (4 / 3 * Real.pi * R ^ 3 * rho)) * (x k - c k) / dist3 x c ^ 3) := by
  have hr := (dist_pos hx).ne'
  unfold grav
  simp only [hr, if_false, mass, store, h, if_true, Bool.false_eq_true]
  congr 1
  funext k
  field_simp

/-- The value of the gravity function inside of the sphere. -/
theorem grav_in (G : ℝ) {R : ℝ} (c : Pt) (rho : ℝ) {x : Pt} (hx : x ≠ c) (h : dist3 x c < R) :
    grav G false R c rho x = some fun k => 100000000 *
      (-(4 / 3 * Real.pi * G * rho) * (x k - c k)) := by
  have hr := (dist_pos hx).ne'
  unfold grav
  simp only [hr, if_false, mass, store, not_le.2 h, Bool.false_eq_true]
  congr 1
  funext k
  field_simp

/-- C160. **Gravity of a sphere** is the gradient of the potential of attraction of a homogeneous ball,
inside, outside and on its surface, except at its centre; in mGal for densities in g/cc. -/
theorem C160_gravity (G : ℝ) {R : ℝ} (hR : 0 < R) (c : Pt) (rho : ℝ) {x : Pt} (hx : x ≠ c) :
    ∃ g, grav G false R c rho x = some (fun k => 100000000 * g k) ∧
      IsGradient (potential G R c rho) g x := by
  have hc := dist_cont c
  rcases lt_trichotomy (dist3 x c) R with h | h | h
  · refine ⟨_, grav_in G c rho hx h, gEvent (pot_in G R c rho x) ?_⟩
    filter_upwards [(isOpen_lt hc continuous_const).mem_nhds h] with y hy
    have hy' : dist3 y c < R := hy
    simp [potential, hy']
  · refine ⟨_, grav_out G c rho hx h.ge, gGlue (f := fun x => 2 * Real.pi * G * rho * (R ^ 2 - dist3 x c ^ 2 / 3))
      (gCongr (pot_in G R c rho x) fun k => ?_) (pot_out G R c rho hx) ?_ fun y => ?_⟩
    · rw [h]; field_simp
    · simp only [h]; field_simp; ring
    · unfold potential
      by_cases q : dist3 y c < R
      · left; rw [if_pos q]
      · right; rw [if_neg q]
  · refine ⟨_, grav_out G c rho hx h.le, gEvent (pot_out G R c rho hx) ?_⟩
    filter_upwards [(isOpen_lt continuous_const hc).mem_nhds h] with y hy
    have hy' : R < dist3 y c := hy
    simp [potential, not_lt.2 hy'.le]

/-- Inside of the sphere, gravity grows in proportion to the distance from the centre. -/
theorem C160_inside (G : ℝ) {R : ℝ} (c : Pt) (rho : ℝ) {x : Pt} (hx : x ≠ c) (h : dist3 x c < R)
    (k : Fin 3) :
    IsGradient (fun y => gravAt G R c rho y k)
      (fun j => if j = k then -(100000000 * (4 / 3 * Real.pi * G * rho)) else 0) x := by
  have h1 := gSmul (100000000 * -(4 / 3 * Real.pi * G * rho)) (g_coord c x k)
  refine gCongr (gEvent h1 ?_) fun j => ?_
  · filter_upwards [(isOpen_lt (dist_cont c) continuous_const).mem_nhds h,
      isOpen_ne.mem_nhds hx] with y hy hyc
    rw [gravAt, grav_in G c rho hyc hy]
    simp; ring
  · by_cases q : j = k <;> simp [q]

/-- C160. **The gradient tensor of a sphere** has the derivatives of gravity outside of the sphere: row `k`
is the gradient of component `k` (in Eötvös: `10⁴` times mGal per metre). -/
theorem C160_gradient (G : ℝ) {R : ℝ} (hR : 0 < R) (c : Pt) (rho : ℝ) {x : Pt} (h : R < dist3 x c) :
    ∃ t, gravGrad G false R c rho x = some t ∧
      ∀ k, IsGradient (fun y => 10000 * gravAt G R c rho y k) (t.at k) x := by
  have hx := ne_of_dist hR h.le
  have hr := (dist_pos hx).ne'
  refine ⟨tensor (G * (1 / (dist3 x c * dist3 x c * dist3 x c * dist3 x c * dist3 x c)) *
    mass false R rho (dist3 x c) * 1000000000000) c x, by simp only [gravGrad, hr, if_false], fun k => ?_⟩
  have hq := quad_pos hx
  have h1 := gSmul (10000 * 100000000 * -(G * (4 / 3 * Real.pi * R ^ 3 * rho)))
    (gMul (g_coord c x k) (gComp (inv_pow3 hq) (g_quad c x)))
  refine gCongr (gEvent h1 ?_) fun j => ?_
  · filter_upwards [(isOpen_lt continuous_const (dist_cont c)).mem_nhds h] with y hy
    rw [gravAt, grav_out G c rho (ne_of_dist hR (le_of_lt hy)) (le_of_lt hy)]
    simp only [Option.getD_some, dist_eq]
    ring
  · have hsq := dist_sq x c
    have hs : Real.sqrt (quad c x) ≠ 0 := (Real.sqrt_pos.2 hq).ne'
    simp only [mass, store, h.le, if_true, Bool.false_eq_true, if_false, tensor, Tensor.at]
    rw [dist_eq] at hsq ⊢
    generalize Real.sqrt (quad c x) = r at hs hsq ⊢
    generalize Real.pi = p
    clear h1
    fin_cases k <;> fin_cases j <;> simp <;> field_simp <;>
      first
        | ring1
        | linear_combination (-1000000000000 * G * p * rho) * hsq

/-- The Earth seen from twice its radius. -/
example : ∃ t, gravGrad 1 false 1 ![0, 0, 0] 1 ![2, 0, 0] = some t ∧
    ∀ k, IsGradient (fun y => 10000 * gravAt 1 1 ![0, 0, 0] 1 y k) (t.at k) ![2, 0, 0] :=
  C160_gradient 1 one_pos _ 1 (by
    have : dist3 ![2, 0, 0] ![0, 0, 0] = 2 := by
      simp [dist3]
    rw [this]; norm_num)

/-- The trace of the tensors is zero. -/
theorem trace_zero (g : ℝ) (c x : Pt) :
    (tensor g c x).at 0 0 + (tensor g c x).at 1 1 + (tensor g c x).at 2 2 = 0 := by
  simp [Tensor.at, tensor]

/-- C160. Violated inside of the sphere: the tensor returned there is never that of the derivatives of
gravity, whatever the place and the density. -/
theorem C160_violated_inside {G R : ℝ} (c : Pt) {rho : ℝ} (hG : G ≠ 0) (hrho : rho ≠ 0) {x : Pt}
    (hx : x ≠ c) (h : dist3 x c < R) :
    ∃ t, gravGrad G false R c rho x = some t ∧
      ¬∀ k, IsGradient (fun y => 10000 * gravAt G R c rho y k) (t.at k) x := by
  have hr := (dist_pos hx).ne'
  refine ⟨tensor (G * (1 / (dist3 x c * dist3 x c * dist3 x c * dist3 x c * dist3 x c)) *
    mass false R rho (dist3 x c) * 1000000000000) c x, by simp only [gravGrad, hr, if_false], fun H => ?_⟩
  have ht := trace_zero (G * (1 / (dist3 x c * dist3 x c * dist3 x c * dist3 x c * dist3 x c)) *
    mass false R rho (dist3 x c) * 1000000000000) c x
  have e : ∀ k, (tensor (G * (1 / (dist3 x c * dist3 x c * dist3 x c * dist3 x c * dist3 x c)) *
    mass false R rho (dist3 x c) * 1000000000000) c x).at k k = 10000 *
      -(100000000 * (4 / 3 * Real.pi * G * rho)) := by
    intro k
    have := congrFun (gUnique (H k) (gSmul 10000 (C160_inside G c rho hx h k))) k
    simpa using this
  rw [e 0, e 1, e 2] at ht
  have hp := Real.pi_ne_zero
  have : Real.pi * G * rho = 0 := by linarith
  simp [hp, hG, hrho] at this

/-- A point inside of the Earth. -/
example : ∃ t, gravGrad 1 false 1 ![0, 0, 0] 1 ![1 / 2, 0, 0] = some t ∧
    ¬∀ k, IsGradient (fun y => 10000 * gravAt 1 1 ![0, 0, 0] 1 y k) (t.at k) ![1 / 2, 0, 0] :=
  C160_violated_inside _ one_ne_zero one_ne_zero (fun h => by
    have := congrFun h 0
    norm_num at this) (by
    have : dist3 ![1 / 2, 0, 0] ![0, 0, 0] = 1 / 2 := by
      simp [dist3]
    rw [this]; norm_num)

/-- C160. Violated at the centre, where gravity is zero: the functions return no number. -/
theorem C160_violated_centre (G : ℝ) (int : Bool) (R : ℝ) (c : Pt) (rho : ℝ) :
    grav G int R c rho c = none ∧ gravGrad G int R c rho c = none := by
  have : dist3 c c = 0 := by simp [dist3]
  simp [grav, gravGrad, this]

/-- C160. Violated for locations given as integers: the mass is cut to a whole number. When it is less
than one, gravity and its gradients are zero. -/
theorem C160_violated_integers (G : ℝ) {R : ℝ} (hR : 0 < R) (c : Pt) {rho : ℝ} (hrho : 0 ≤ rho)
    (hm : 4 / 3 * Real.pi * R ^ 3 * rho < 1) {x : Pt} (h : R ≤ dist3 x c) :
    grav G true R c rho x = some (fun _ => 0) ∧
      gravGrad G true R c rho x = some ⟨0, 0, 0, 0, 0, 0⟩ := by
  have hr := (dist_pos (ne_of_dist hR h)).ne'
  have hp := Real.pi_pos
  have h0 : 0 ≤ R ^ 3 * 4 / 3 * Real.pi * rho := by positivity
  have h1 : ⌊R ^ 3 * 4 / 3 * Real.pi * rho⌋ = 0 := Int.floor_eq_zero_iff.2 ⟨h0, by linarith⟩
  have hM : mass true R rho (dist3 x c) = 0 := by
    simp only [mass, store, h, if_true, h0, h1, Int.cast_zero]
  constructor
  · simp [grav, hr, hM]
  · simp [gravGrad, hr, hM, tensor]

/-- A sphere of radius one and density one tenth. -/
example : grav 1 true 1 ![0, 0, 0] (1 / 10) ![2, 0, 0] = some fun _ => 0 :=
  (C160_violated_integers 1 one_pos _ (by norm_num) (by
    have := Real.pi_le_four
    linarith) (by
    have : dist3 ![2, 0, 0] ![0, 0, 0] = 2 := by
      simp [dist3]
    rw [this]; norm_num)).1

/-- C160. Violated: coordinates of different sizes, which the functions say they refuse, never are. -/
theorem C160_violated_sizes (nx ny nz : ℕ) : sizesRefused nx ny nz = false := by
  unfold sizesRefused
  have : ¬(-(nx : ℤ) - 1 = ny) := by omega
  simp [this]

/-! ### Magnetics -/

/-- C160. **A permeable sphere in a uniform field**: with the total field, the flux and the magnetic field
along the surface are continuous at the surface. -/
theorem C160_interface {R : ℝ} (hR : 0 < R) (c : Pt) {mu1 mu2 : ℝ} (h1 : 0 < mu1) (h2 : 0 < mu2)
    (H0 : ℝ) {x y : Pt} (hx : dist3 x c = R) (hy : dist3 y c < R) :
    ∃ bo bi, magAna R c mu1 mu2 H0 "total" x = some bo ∧ magAna R c mu1 mu2 H0 "total" y = some bi ∧
      Interface c x mu1 mu2 bo bi := by
  have hs : mu2 + 2 * mu1 ≠ 0 := by positivity
  have hsq := dist_sq x c
  rw [hx] at hsq
  simp only [magAna, hx, lt_irrefl, if_false, hR.ne', hy, if_true]
  refine ⟨_, _, rfl, rfl, ?_, 3 * H0 * ((mu2 - mu1) / (mu2 + 2 * mu1)) * (x 0 - c 0) / R ^ 2, fun k => ?_⟩
  · simp only [Matrix.cons_val_zero, Matrix.cons_val_one, Matrix.cons_val]
    generalize x 0 - c 0 = u at hsq ⊢
    generalize x 1 - c 1 = v at hsq ⊢
    generalize x 2 - c 2 = w at hsq ⊢
    linear_combination (norm := (field_simp; ring))
      (-(2 * mu1 * H0 * ((mu2 - mu1) / (mu2 + 2 * mu1)) * u / R ^ 2)) * hsq
  · generalize hu : x 0 - c 0 = u at hsq ⊢
    generalize hv : x 1 - c 1 = v at hsq ⊢
    generalize hw : x 2 - c 2 = w at hsq ⊢
    fin_cases k
    · simp [hu]
      linear_combination (norm := (field_simp; ring))
        (H0 * ((mu2 - mu1) / (mu2 + 2 * mu1)) / R ^ 2) * hsq
    · simp [hv]; field_simp
    · simp [hw]; field_simp

/-- An iron sphere of radius one. -/
example : ∃ bo bi, magAna 1 ![0, 0, 0] 1 100 1 "total" ![1, 0, 0] = some bo ∧
    magAna 1 ![0, 0, 0] 1 100 1 "total" ![0, 0, 0] = some bi ∧
      Interface ![0, 0, 0] ![1, 0, 0] 1 100 bo bi :=
  C160_interface one_pos _ one_pos (by norm_num) 1 (by simp [dist3]) (by simp [dist3])

/-- The dipole of the sphere: outside, the secondary field is that of this moment. -/
def moment (R mu1 mu2 H0 : ℝ) : Pt := ![4 * Real.pi * R ^ 3 * ((mu2 - mu1) / (mu2 + 2 * mu1)) * H0, 0, 0]

theorem ana_out {R : ℝ} (hR : 0 < R) (c : Pt) (mu1 mu2 H0 : ℝ) {x : Pt} (h : R ≤ dist3 x c) :
    magAna R c mu1 mu2 H0 "secondary" x =
      some fun k => mu1 * dipoleH0 (moment R mu1 mu2 H0) c x k := by
  have hr : dist3 x c ≠ 0 := by linarith
  have hp := Real.pi_ne_zero
  have hsq := dist_sq x c
  simp only [magAna, not_lt.2 h, if_false, hr, dipoleH0, mdotr, moment]
  congr 1
  generalize dist3 x c = r at hr hsq ⊢
  generalize (mu2 - mu1) / (mu2 + 2 * mu1) = f
  generalize hu : x 0 - c 0 = u at hsq ⊢
  generalize hv : x 1 - c 1 = v at hsq ⊢
  generalize hw : x 2 - c 2 = w at hsq ⊢
  funext k
  fin_cases k
  · simp [hu]
    left
    linear_combination (norm := (field_simp; ring)) (H0 * R ^ 3 * f / r ^ 5) * hsq
  · simp [hv]; left; field_simp
  · simp [hw]; left; field_simp

/-- C160. The secondary field is the total field without the uniform field, everywhere but at the centre
of a sphere without extent. -/
theorem C160_secondary {R : ℝ} (hR : 0 < R) (c : Pt) (mu1 mu2 H0 : ℝ) (x : Pt) :
    ∃ bt bs, magAna R c mu1 mu2 H0 "total" x = some bt ∧ magAna R c mu1 mu2 H0 "secondary" x = some bs ∧
      ∀ k, bs k = bt k - (![mu1 * H0, 0, 0] : Pt) k := by
  by_cases h : dist3 x c < R
  · simp only [magAna, h, if_true]
    refine ⟨_, _, rfl, rfl, fun k => ?_⟩
    fin_cases k <;> simp
  · have hr : dist3 x c ≠ 0 := by push Not at h; linarith
    simp only [magAna, h, if_false, hr]
    refine ⟨_, _, rfl, rfl, fun k => ?_⟩
    fin_cases k <;> simp
    ring

/-- C160. Outside of the sphere the secondary field has a potential and no sources, and it fades with the
cube of the distance. -/
theorem C160_outside {R : ℝ} (hR : 0 < R) (c : Pt) {mu1 mu2 : ℝ} (h1 : 0 < mu1) (h2 : 0 < mu2) (H0 : ℝ)
    {x : Pt} (h : R < dist3 x c) :
    ∃ b, magAna R c mu1 mu2 H0 "secondary" x = some b ∧
      (∃ φ, IsGradient φ b x ∧ ∀ᶠ y in 𝓝 x, ∃ b', magAna R c mu1 mu2 H0 "secondary" y = some b' ∧
        IsGradient φ b' y) ∧
      (∃ g : Fin 3 → Pt, (∀ k, IsGradient
        (fun y => (magAna R c mu1 mu2 H0 "secondary" y).getD (fun _ => 0) k) (g k) x) ∧
        g 0 0 + g 1 1 + g 2 2 = 0) ∧
      ∀ k, |b k| ≤ 2 * mu1 * |H0| * (R / dist3 x c) ^ 3 := by
  have hx := ne_of_dist hR h.le
  have pot : ∀ {y : Pt}, y ≠ c → IsGradient
      (fun x => mu1 * -(mdotr (moment R mu1 mu2 H0) x c / (4 * Real.pi * dist3 x c ^ 3)))
      (fun k => mu1 * dipoleH0 (moment R mu1 mu2 H0) c y k) y :=
    fun hy => gSmul mu1 (C140_dipole_potential _ hy)
  have hopen := (isOpen_lt continuous_const (dist_cont c)).mem_nhds h
  refine ⟨_, ana_out hR c mu1 mu2 H0 h.le, ⟨_, pot hx, ?_⟩, ?_, ?_⟩
  · filter_upwards [hopen] with y hy
    exact ⟨_, ana_out hR c mu1 mu2 H0 (le_of_lt hy), pot (ne_of_dist hR (le_of_lt hy))⟩
  · obtain ⟨g, hg, h0⟩ := C140_dipole_divergence (moment R mu1 mu2 H0) hx
    refine ⟨fun k j => mu1 * g k j, fun k => gEvent (gSmul mu1 (hg k)) ?_, by
      linear_combination mu1 * h0⟩
    filter_upwards [hopen] with y hy
    rw [ana_out hR c mu1 mu2 H0 (le_of_lt hy)]
    rfl
  · intro k
    have e := ana_out hR c mu1 mu2 H0 h.le
    have hr : 0 < dist3 x c := dist_pos hx
    simp only [magAna, not_lt.2 h.le, if_false, hr.ne', if_true] at e
    have e' := congrFun (Option.some.inj e) k
    rw [← e']
    have hsq := dist_sq x c
    have hf : |(mu2 - mu1) / (mu2 + 2 * mu1)| ≤ 1 := by
      rw [abs_div, abs_of_pos (show 0 < mu2 + 2 * mu1 by positivity), div_le_one (by positivity), abs_le]
      constructor <;> linarith
    have key : ∀ q, |q| ≤ 2 * dist3 x c ^ 2 →
        |mu1 * (H0 / dist3 x c ^ 5 * R ^ 3 * ((mu2 - mu1) / (mu2 + 2 * mu1)) * q)| ≤
          2 * mu1 * |H0| * (R / dist3 x c) ^ 3 := by
      intro q hq
      rw [abs_mul, abs_mul, abs_mul, abs_mul, abs_div, abs_of_pos h1, abs_of_pos (pow_pos hr 5),
        abs_of_pos (pow_pos hR 3)]
      calc mu1 * (|H0| / dist3 x c ^ 5 * R ^ 3 * |(mu2 - mu1) / (mu2 + 2 * mu1)| * |q|)
          ≤ mu1 * (|H0| / dist3 x c ^ 5 * R ^ 3 * 1 * (2 * dist3 x c ^ 2)) := by gcongr
        _ = 2 * mu1 * |H0| * (R / dist3 x c) ^ 3 := by field_simp
    fin_cases k
    · refine key _ (abs_le.2 ⟨?_, ?_⟩) <;>
        nlinarith [sq_nonneg (x 0 - c 0), sq_nonneg (x 1 - c 1), sq_nonneg (x 2 - c 2)]
    · refine key _ (abs_le.2 ⟨?_, ?_⟩) <;>
        nlinarith [sq_nonneg (x 0 - c 0 - (x 1 - c 1)), sq_nonneg (x 0 - c 0 + (x 1 - c 1)),
          sq_nonneg (x 0 - c 0), sq_nonneg (x 1 - c 1), sq_nonneg (x 2 - c 2)]
    · refine key _ (abs_le.2 ⟨?_, ?_⟩) <;>
        nlinarith [sq_nonneg (x 0 - c 0 - (x 2 - c 2)), sq_nonneg (x 0 - c 0 + (x 2 - c 2)),
          sq_nonneg (x 0 - c 0), sq_nonneg (x 1 - c 1), sq_nonneg (x 2 - c 2)]

/-- C160. Violated: another word for the kind of field is accepted; the first component is then zero, and
the others are those of the secondary field. -/
theorem C160_violated_flag {R : ℝ} (hR : 0 < R) (c : Pt) (mu1 mu2 H0 : ℝ) {flag : String}
    (ht : flag ≠ "total") (hs : flag ≠ "secondary") (x : Pt) :
    ∃ b bs, magAna R c mu1 mu2 H0 flag x = some b ∧ magAna R c mu1 mu2 H0 "secondary" x = some bs ∧
      b 0 = 0 ∧ b 1 = bs 1 ∧ b 2 = bs 2 := by
  by_cases h : dist3 x c < R
  · simp only [magAna, h, if_true, ht, hs, if_false]
    exact ⟨_, _, rfl, rfl, rfl, rfl, rfl⟩
  · have hr : dist3 x c ≠ 0 := by push Not at h; linarith
    simp only [magAna, h, if_false, hr, ht, hs]
    exact ⟨_, _, rfl, rfl, rfl, rfl, rfl⟩

example : ∃ b bs, magAna 1 ![0, 0, 0] 1 2 1 "Total" ![3, 0, 0] = some b ∧
    magAna 1 ![0, 0, 0] 1 2 1 "secondary" ![3, 0, 0] = some bs ∧ b 0 = 0 ∧ b 1 = bs 1 ∧ b 2 = bs 2 :=
  C160_violated_flag one_pos _ 1 2 1 (by decide) (by decide) _

theorem size_sq (b : Pt) : size3 b ^ 2 = b 0 ^ 2 + b 1 ^ 2 + b 2 ^ 2 :=
  Real.sq_sqrt (by positivity)

/-- The field outside, without the direction of the inducing field. -/
theorem dipoleB_eq (const : ℝ) {Bo : Pt} (hB : size3 Bo ≠ 0) {c x : Pt} (hr : dist3 x c ≠ 0) (k : Fin 3) :
    dipoleB (const * size3 Bo) Bo c x k =
      const * (3 * (x k - c k) * mdotr Bo x c / dist3 x c ^ 5 - Bo k / dist3 x c ^ 3) := by
  unfold dipoleB mdotr
  field_simp

/-- The field outside of a sphere in a uniform field of any direction. -/
theorem anaA_out {m0 R : ℝ} (hm : m0 ≠ 0) (hR : 0 < R) (c : Pt) {chi : ℝ} (hc : -1 < chi) {Bo : Pt}
    (hB : size3 Bo ≠ 0) (flag : String) {x : Pt} (h : R ≤ dist3 x c) :
    magAnaA m0 R c chi Bo flag x = some fun k => R ^ 3 * (chi / (chi + 3)) *
      (3 * (x k - c k) * mdotr Bo x c / dist3 x c ^ 5 - Bo k / dist3 x c ^ 3) := by
  have hr : dist3 x c ≠ 0 := by linarith
  have hp := Real.pi_ne_zero
  have h3 : chi + 3 ≠ 0 := by linarith
  have h3' : 1 + chi / 3 ≠ 0 := by
    intro q; apply h3; linarith
  have h3'' : 3 + chi ≠ 0 := by linarith
  simp only [magAnaA, not_lt.2 h, if_false, hr, hB, or_self]
  congr 1
  funext k
  rw [← dipoleB_eq _ hB hr k]
  congr 1
  field_simp
  ring

/-- C160. **A sphere in a uniform field of any direction**: with the uniform field added outside, the flux
and the magnetic field along the surface are continuous at the surface. -/
theorem C160_direction {m0 R : ℝ} (hm : 0 < m0) (hR : 0 < R) (c : Pt) {chi : ℝ} (hc : -1 < chi) {Bo : Pt}
    (hB : size3 Bo ≠ 0) {x y : Pt} (hx : dist3 x c = R) (hy : dist3 y c < R) :
    ∃ bo bi, magAnaA m0 R c chi Bo "secondary" x = some bo ∧ magAnaA m0 R c chi Bo "total" y = some bi ∧
      Interface c x m0 (m0 * (1 + chi)) (fun k => Bo k + bo k) bi := by
  have h3 : chi + 3 ≠ 0 := by linarith
  have h1 : 1 + chi ≠ 0 := by linarith
  have hsq := dist_sq x c
  refine ⟨_, fun k => Bo k * (3 / (chi + 3) * (1 + chi)), anaA_out hm.ne' hR c hc hB _ hx.ge, by
    simp [magAnaA, hy], ?_, 3 * (chi / (chi + 3)) * mdotr Bo x c / R ^ 2 / m0, fun k => ?_⟩
  · rw [hx] at hsq ⊢
    simp only [mdotr]
    generalize x 0 - c 0 = u at hsq ⊢
    generalize x 1 - c 1 = v at hsq ⊢
    generalize x 2 - c 2 = w at hsq ⊢
    linear_combination (norm := (field_simp; ring))
      (-(3 * (chi / (chi + 3)) * (Bo 0 * u + Bo 1 * v + Bo 2 * w) / R ^ 2)) * hsq
  · rw [hx]
    field_simp
    ring

/-- A magnetite sphere in an oblique field. -/
example : ∃ bo bi, magAnaA 1 1 ![0, 0, 0] 2 ![1, 2, 2] "secondary" ![1, 0, 0] = some bo ∧
    magAnaA 1 1 ![0, 0, 0] 2 ![1, 2, 2] "total" ![0, 0, 0] = some bi ∧
      Interface ![0, 0, 0] ![1, 0, 0] 1 (1 * (1 + 2)) (fun k => (![1, 2, 2] : Pt) k + bo k) bi :=
  C160_direction one_pos one_pos _ (by norm_num) (by
    intro h
    have := size_sq ![1, 2, 2]
    rw [h] at this
    simp at this
    norm_num at this) (by simp [dist3]) (by simp [dist3])

/-- C160. The two functions for spheres agree: the secondary field for the uniform field along the first
axis is that of the permeabilities `m0` and `m0 (1 + chi)`. -/
theorem C160_agree {m0 R : ℝ} (hm : 0 < m0) (hR : 0 < R) (c : Pt) {chi : ℝ} (hc : -1 < chi) {H0 : ℝ}
    (hH : H0 ≠ 0) (x : Pt) :
    magAnaA m0 R c chi ![m0 * H0, 0, 0] "secondary" x =
      magAna R c m0 (m0 * (1 + chi)) H0 "secondary" x := by
  have h3 : chi + 3 ≠ 0 := by linarith
  have e0 : m0 * (1 + chi) + 2 * m0 = m0 * (chi + 3) := by ring
  have e1 : (m0 * (1 + chi) - m0) / (m0 * (1 + chi) + 2 * m0) = chi / (chi + 3) := by
    rw [e0]; field_simp; ring
  have e2 : 3 * m0 / (m0 * (1 + chi) + 2 * m0) = 3 / (chi + 3) := by
    rw [e0]; field_simp
  by_cases h : dist3 x c < R
  · simp only [magAna, magAnaA, h, if_true, e2]
    congr 1
    funext k
    fin_cases k
    · simp
      field_simp
    · simp
    · simp
  · push Not at h
    have hB : size3 ![m0 * H0, 0, 0] ≠ 0 := by
      intro q
      have := size_sq ![m0 * H0, 0, 0]
      rw [q] at this
      have h0 : 0 = (m0 * H0) ^ 2 := by simpa using this
      exact mul_ne_zero hm.ne' hH (pow_eq_zero_iff two_ne_zero |>.1 h0.symm)
    rw [anaA_out hm.ne' hR c hc hB _ h, ana_out hR c _ _ _ h]
    have hp := Real.pi_ne_zero
    have hr : dist3 x c ≠ 0 := by linarith
    congr 1
    funext k
    simp only [dipoleH0, mdotr, moment, e1]
    fin_cases k <;> simp <;> field_simp

/-- C160. Violated: outside of the sphere the total field lacks the uniform field; it is the secondary
field, whatever the flag says. -/
theorem C160_violated_total {m0 R : ℝ} (hm : m0 ≠ 0) (hR : 0 < R) (c : Pt) {chi : ℝ} (hc : -1 < chi)
    {Bo : Pt} (hB : size3 Bo ≠ 0) (flag : String) {x : Pt} (h : R ≤ dist3 x c) :
    magAnaA m0 R c chi Bo flag x = magAnaA m0 R c chi Bo "secondary" x := by
  rw [anaA_out hm hR c hc hB _ h, anaA_out hm hR c hc hB _ h]

/-- C160. **Spheres of weak susceptibility**: outside of the sphere, the function for free space returns
`1 + chi / 3` times the secondary field, and the total intensity along the inducing field. -/
theorem C160_free {m0 R : ℝ} (hm : m0 ≠ 0) (hR : 0 < R) (c : Pt) {chi : ℝ} (hc : -1 < chi)
    {Bo : Pt} (hB : size3 Bo ≠ 0) {x : Pt} (h : R ≤ dist3 x c) :
    ∃ b tmi bs, magFree false R c chi Bo x = some (b, some tmi) ∧
      magAnaA m0 R c chi Bo "secondary" x = some bs ∧ (∀ k, b k = (1 + chi / 3) * bs k) ∧
      tmi * size3 Bo = b 0 * Bo 0 + b 1 * Bo 1 + b 2 * Bo 2 := by
  have hr : dist3 x c ≠ 0 := by linarith
  have hp := Real.pi_ne_zero
  have h3 : chi + 3 ≠ 0 := by linarith
  have hsq := dist_sq x c
  rw [anaA_out hm hR c hc hB _ h]
  simp only [magFree, hr, if_false, hB]
  refine ⟨_, _, _, rfl, rfl, fun k => ?_, by field_simp⟩
  simp only [mass, store, h, if_true, Bool.false_eq_true, if_false, tensor, mdotr]
  generalize dist3 x c = r at hr hsq ⊢
  generalize hu : x 0 - c 0 = u at hsq ⊢
  generalize hv : x 1 - c 1 = v at hsq ⊢
  generalize hw : x 2 - c 2 = w at hsq ⊢
  fin_cases k
  · simp [hu]
    linear_combination (norm := (field_simp; ring)) (R ^ 3 * chi / 3 * Bo 0 / r ^ 5) * hsq
  · simp [hv]
    linear_combination (norm := (field_simp; ring)) (R ^ 3 * chi / 3 * Bo 1 / r ^ 5) * hsq
  · simp [hw]
    linear_combination (norm := (field_simp; ring)) (R ^ 3 * chi / 3 * Bo 2 / r ^ 5) * hsq

/-- A sphere of susceptibility one. -/
example : ∃ b tmi bs, magFree false 1 ![0, 0, 0] 1 ![3, 0, 0] ![2, 0, 0] = some (b, some tmi) ∧
    magAnaA 1 1 ![0, 0, 0] 1 ![3, 0, 0] "secondary" ![2, 0, 0] = some bs ∧
    (∀ k, b k = (1 + 1 / 3) * bs k) ∧
      tmi * size3 ![3, 0, 0] = b 0 * (![3, 0, 0] : Pt) 0 + b 1 * (![3, 0, 0] : Pt) 1
        + b 2 * (![3, 0, 0] : Pt) 2 :=
  C160_free one_ne_zero one_pos _ (by norm_num) (by simp [size3]) (by
    have : dist3 ![2, 0, 0] ![0, 0, 0] = 2 := by simp [dist3]
    rw [this]; norm_num)

/-- C160. Violated inside of the sphere: away from the centre across the inducing field, the function for
free space returns a field against the inducing field, where the sphere adds to it. -/
theorem C160_violated_free_inside (m0 : ℝ) {R : ℝ} (c : Pt) (chi : ℝ) (Bo : Pt) {x : Pt} (hx : x ≠ c)
    (h : dist3 x c < R) (hp : mdotr Bo x c = 0) :
    (∃ b tmi, magFree false R c chi Bo x = some (b, tmi) ∧ ∀ k, b k = -(chi / 3) * Bo k) ∧
      (-1 < chi → ∃ b, magAnaA m0 R c chi Bo "secondary" x = some b ∧
        ∀ k, b k = 2 * chi / (chi + 3) * Bo k) := by
  have hr := (dist_pos hx).ne'
  have hpi := Real.pi_ne_zero
  have hsq := dist_sq x c
  constructor
  · simp only [magFree, hr, if_false]
    refine ⟨_, _, rfl, fun k => ?_⟩
    simp only [mass, store, not_le.2 h, if_false, Bool.false_eq_true, tensor]
    unfold mdotr at hp
    generalize dist3 x c = r at hr hsq ⊢
    generalize hu : x 0 - c 0 = u at hsq hp ⊢
    generalize hv : x 1 - c 1 = v at hsq hp ⊢
    generalize hw : x 2 - c 2 = w at hsq hp ⊢
    fin_cases k
    · simp
      linear_combination (norm := (field_simp; ring)) (chi / 3 * Bo 0 / r ^ 2) * hsq +
        (chi * u / r ^ 2) * hp
    · simp
      linear_combination (norm := (field_simp; ring)) (chi / 3 * Bo 1 / r ^ 2) * hsq +
        (chi * v / r ^ 2) * hp
    · simp
      linear_combination (norm := (field_simp; ring)) (chi / 3 * Bo 2 / r ^ 2) * hsq +
        (chi * w / r ^ 2) * hp
  · intro hc
    have h3 : chi + 3 ≠ 0 := by linarith
    refine ⟨fun k => Bo k * (3 / (chi + 3) * (1 + chi)) - Bo k, by simp [magAnaA, h], fun k => ?_⟩
    field_simp
    ring

/-- Half way to the surface, north of the centre in a vertical field. -/
example : ∃ b tmi, magFree false 1 ![0, 0, 0] 1 ![0, 0, 3] ![0, 1 / 2, 0] = some (b, tmi) ∧
    ∀ k, b k = -(1 / 3) * (![0, 0, 3] : Pt) k :=
  (C160_violated_free_inside 1 _ 1 _ (fun h => by
    have := congrFun h 1
    norm_num at this) (by
    have : dist3 ![0, 1 / 2, 0] ![0, 0, 0] = 1 / 2 := by simp [dist3]
    rw [this]; norm_num) (by simp [mdotr])).1

/-- C160. **The equivalent sphere of a mesh**: the boundary values are those of the sphere with the volume of
the susceptible cells and their mean susceptibility. -/
theorem C160_congruous {ι : Type} [Fintype ι] {m0 : ℝ} (hm : 0 < m0) (m : Cells ι) (S : Finset ι)
    (hS : ∀ i ∈ S, 0 < m.chi i) (hS' : ∀ i, i ∉ S → m.chi i = 0) {R : ℝ} (hR : 0 < R)
    (hV : ∑ i ∈ S, m.vol i = 4 * Real.pi * R ^ 3 / 3) {g : ℝ}
    (hg : g = (∑ i ∈ S, m.chi i * m.vol i) / ∑ i ∈ S, m.vol i) {Bo : Pt} (hB : size3 Bo ≠ 0) {x : Pt}
    (h : R ≤ dist3 x m.centre) (k : Fin 3) :
    ∃ b, magAnaA m0 R m.centre g Bo "secondary" x = some b ∧ congruous m0 m Bo x k = some (b k) := by
  have hvol : m.volume = 4 * Real.pi * R ^ 3 / 3 := by
    rw [← hV, Cells.volume, ← Finset.sum_subset (Finset.subset_univ S)]
    · exact Finset.sum_congr rfl fun i hi => by rw [if_pos (hS i hi)]
    · intro i _ hi
      rw [hS' i hi, if_neg (lt_irrefl _)]
  have hgam : m.gamma = g := by
    have : ∑ i, m.chi i * m.vol i = ∑ i ∈ S, m.chi i * m.vol i := by
      rw [← Finset.sum_subset (Finset.subset_univ S)]
      intro i _ hi
      rw [hS' i hi, zero_mul]
    rw [Cells.gamma, this, hg, hvol, hV]
    ring
  have hr : dist3 x m.centre ≠ 0 := by linarith
  have hp := Real.pi_pos
  have hv : m.volume ≠ 0 := by rw [hvol]; positivity
  refine ⟨dipoleB (m0 / (4 * Real.pi) * (size3 Bo / m0 * g / (1 + g / 3) *
    (4 * Real.pi * R ^ 3 / 3))) Bo m.centre x, by
      simp only [magAnaA, not_lt.2 h, if_false, hr, hB, or_self], ?_⟩
  simp only [congruous, hv, hB, hr, or_self, if_false, congMoment, hgam]
  congr 2
  rw [hvol]
  ring

/-- The second result is the relative change of the moment with the total susceptibility `γ V`. -/
theorem C160_congruous_change {m0 Bot gamma V : ℝ} (hV : V ≠ 0) (hg : 0 < gamma) :
    HasDerivAt (fun s => congMoment m0 Bot (s / V) V) (congruousConst gamma V * congMoment m0 Bot gamma V)
      (gamma * V) := by
  have h3 : 1 + gamma / 3 ≠ 0 := by positivity
  have h3' : 3 + gamma ≠ 0 := by positivity
  have e : gamma * V / V = gamma := by field_simp
  have h := ((((hasDerivAt_id (gamma * V)).div_const V).const_mul (1 / m0 * Bot)).mul_const V).div
    (((hasDerivAt_id (gamma * V)).div_const V).div_const 3 |>.const_add 1) (by simpa [e] using h3)
  refine h.congr_deriv ?_
  simp only [id, e, congruousConst, congMoment]
  field_simp

/-- The centre of the magnetic moment of the susceptible cells. -/
def momentCentre {ι : Type} [Fintype ι] (m : Cells ι) (k : Fin 3) : ℝ :=
  (∑ i, if 0 < m.chi i then m.chi i * m.vol i * m.cen i k else 0) /
    ∑ i, if 0 < m.chi i then m.chi i * m.vol i else 0

/-- C160. With cells of one size the sphere is at the centre of the magnetic moment. -/
theorem C160_centre_partial {ι : Type} [Fintype ι] (m : Cells ι) {v : ℝ} (hv : 0 < v)
    (h : ∀ i, m.vol i = v) : m.centre = momentCentre m := by
  funext k
  unfold Cells.centre momentCentre
  have e1 : (∑ i, if 0 < m.chi i then m.chi i * m.vol i * m.cen i k else 0) =
      v * ∑ i, if 0 < m.chi i then m.chi i * m.cen i k else 0 := by
    rw [Finset.mul_sum]
    refine Finset.sum_congr rfl fun i _ => ?_
    rw [h i]; split <;> ring
  have e2 : (∑ i, if 0 < m.chi i then m.chi i * m.vol i else 0) =
      v * ∑ i, if 0 < m.chi i then m.chi i else 0 := by
    rw [Finset.mul_sum]
    refine Finset.sum_congr rfl fun i _ => ?_
    rw [h i]; split <;> ring
  rw [e1, e2, mul_div_mul_left _ _ hv.ne']

/-- C160. Violated with cells of different sizes: the volumes are left out of the centre. -/
theorem C160_violated_cells :
    let m : Cells (Fin 2) := ⟨![1, 3], ![![0, 0, 0], ![1, 0, 0]], ![1, 1]⟩
    m.centre 0 = 1 / 2 ∧ momentCentre m 0 = 3 / 4 := by
  constructor
  · simp [Cells.centre, Fin.sum_univ_two]; norm_num
  · simp [momentCentre, Fin.sum_univ_two]; norm_num

/-- C160. **The inducing field from inclination and declination** has the given size and vertical part, and
it is the inducing field of surveys with the sign of the inclination changed: `z` points down here. -/
theorem C160_angles (inc dec btot : ℝ) :
    let b := idtToXyz inc dec btot
    let v := Utils.Angles.dipAzimuth2cartesian (-inc) dec
    b 0 ^ 2 + b 1 ^ 2 + b 2 ^ 2 = btot ^ 2 ∧ b 0 = btot * v.1 ∧ b 1 = btot * v.2.1 ∧
      b 2 = btot * v.2.2 := by
  obtain ⟨hv, -⟩ := Utils.Angles.Props.C59_dip_azimuth (-inc) dec
  have ei : Utils.Angles.deg2rad (-inc) = -(inc / 180 * Real.pi) := by
    unfold Utils.Angles.deg2rad; ring
  have ed : Utils.Angles.deg2rad dec = dec / 180 * Real.pi := by
    unfold Utils.Angles.deg2rad; ring
  simp only [hv, ei, ed, Real.cos_neg, Real.sin_neg, neg_neg, idtToXyz]
  have h1 := Real.sin_sq_add_cos_sq (inc / 180 * Real.pi)
  have h2 := Real.sin_sq_add_cos_sq (dec / 180 * Real.pi)
  refine ⟨?_, ?_, ?_, ?_⟩
  · simp only [Matrix.cons_val_zero, Matrix.cons_val_one, Matrix.cons_val]
    generalize Real.sin (inc / 180 * Real.pi) = a at *
    generalize Real.cos (inc / 180 * Real.pi) = b at *
    generalize Real.sin (dec / 180 * Real.pi) = d at *
    generalize Real.cos (dec / 180 * Real.pi) = e at *
    linear_combination btot ^ 2 * b ^ 2 * h2 + btot ^ 2 * h1
  all_goals simp
  all_goals ring

end Verif.PF.Spheres
