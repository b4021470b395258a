import Verif.PF.Spheres
import Verif.DC.Geometry
import Mathlib.Analysis.Calculus.Deriv.Inv
import Mathlib.Analysis.Calculus.Deriv.ZPow

/-!
C161: analytic potentials of current electrodes, in homogeneous ground and with a sphere
(`simpeg/electromagnetics/analytics/DC.py`). Arrays of receivers are treated one row at a time; `none`
stands for a value that is infinite or not a number. Conductivities are real and not zero.
-/

noncomputable section
namespace Verif.DC.Analytic
open Verif Verif.VRM Verif.VRM.Props Verif.Maps.Parametric.Props Verif.PF.Spheres Filter Topology

/-! ### The code -/

/-- `1 / r` for the distance of two electrodes. -/
def recip (a m : Pt) : Option ℝ := if dist3 m a = 0 then none else some (1 / dist3 m a)

/-- `if earth_type == "halfspace": phi *= 2`, which ends all of these functions. -/
def doubled (earth : String) (phi : ℝ) : ℝ := if earth = "halfspace" then phi * 2 else phi

/-- `frontFactor`. -/
def front (sigma current : ℝ) : ℝ := current / (4 * Real.pi * sigma)

/-- `DCAnalytic_Pole_Pole` (`DC.py` 72-94). -/
def polePole (a m : Pt) (sigma current : ℝ) (earth : String) : Option ℝ := do
  let am ← recip a m
  some (doubled earth (front sigma current * am))

/-- `DCAnalytic_Pole_Dipole` (`DC.py` 5-37). -/
def poleDipole (a m n : Pt) (sigma current : ℝ) (earth : String) : Option ℝ := do
  let am ← recip a m
  let an ← recip a n
  some (doubled earth (front sigma current * am - front sigma current * an))

/-- `DCAnalytic_Dipole_Pole` (`DC.py` 40-69). -/
def dipolePole (a b m : Pt) (sigma current : ℝ) (earth : String) : Option ℝ := do
  let am ← recip a m
  let bm ← recip b m
  some (doubled earth (front sigma current * (am - bm)))

/-- `DCAnalytic_Dipole_Dipole` (`DC.py` 97-138). -/
def dipoleDipole (a b m n : Pt) (sigma current : ℝ) (earth : String) : Option ℝ := do
  let am ← recip a m
  let an ← recip a n
  let bm ← recip b m
  let bn ← recip b n
  some (doubled earth (front sigma current * (am - bm) - front sigma current * (an - bn)))

/-- `AnBnfun` (`DC.py` 221-226), with unit current. -/
def AnBn (n : ℕ) (radius x0 rho rho1 : ℝ) : ℝ × ℝ :=
  let const := 1 * rho / (4 * Real.pi);
  let bunmo := n * rho + (n + 1) * rho1;
  (const * radius ^ (2 * n + 1) / x0 ^ (n + 1) * n * (rho1 - rho) / bunmo,
   const * 1 / x0 ^ (n + 1) * (2 * n + 1) * rho1 / bunmo)

/-- `prim` (`DC.py` 187-189), by the distance from the centre of the sphere and the cosine. -/
def primAt (rho x0 r ct : ℝ) : ℝ :=
  rho * 1 / (4 * Real.pi * Real.sqrt (r ^ 2 + x0 ^ 2 - 2 * r * x0 * ct))

/-- `out` inside of the sphere (`DC.py` 196-202). `P` are the Legendre polynomials. -/
def innerAt (P : ℕ → ℝ → ℝ) (order : ℕ) (radius x0 rho rho1 r ct : ℝ) : ℝ :=
  ∑ n ∈ Finset.range order, (AnBn n radius x0 rho rho1).2 * r ^ n * P n ct

/-- `out` outside of the sphere (`DC.py` 196-204). -/
def outerAt (P : ℕ → ℝ → ℝ) (order : ℕ) (radius x0 rho rho1 r ct : ℝ) : ℝ :=
  (∑ n ∈ Finset.range order, (AnBn n radius x0 rho rho1).1 * (1 / r ^ (n + 1)) * P n ct) +
    primAt rho x0 r ct

/-- What `DCAnalyticSphere` returns for one receiver. -/
inductive Out
  | num (v : ℝ)
  /-- not a number, or infinite -/
  | nan
  /-- Python's `None` -/
  | nothing

/-- The distance of a receiver from the centre of the sphere (`DC.py` 177-180): the centre is at the
elevation zero, below the source along the second axis. -/
def centreDist (tx rx : Pt) (xc : ℝ) : ℝ :=
  Real.sqrt ((rx 0 - xc) ^ 2 + (rx 1 - tx 1) ^ 2 + rx 2 ^ 2)

/-- `costheta` (`DC.py` 182-184). -/
def cosTheta (tx rx : Pt) (xc : ℝ) : ℝ :=
  (rx 0 - xc) / centreDist tx rx xc * (tx 0 - xc) / |tx 0 - xc|

/-- `DCAnalyticSphere` (`DC.py` 141-218). -/
def sphere (P : ℕ → ℝ → ℝ) (tx rx : Pt) (xc radius sigma sigma1 : ℝ) (field : String) (order : ℕ)
    (half : Bool) : Out :=
  let rho := 1 / sigma;
  let rho1 := 1 / sigma1;
  let r := centreDist tx rx xc;
  let x0 := |tx 0 - xc|;
  let ct := cosTheta tx rx xc;
  if r = 0 ∨ x0 = 0 ∨ Real.sqrt (r ^ 2 + x0 ^ 2 - 2 * r * x0 * ct) = 0 then .nan else
  let prim := primAt rho x0 r ct;
  if field = "primary" then .num prim else
  let out := if r < radius then innerAt P order radius x0 rho rho1 r ct
    else outerAt P order radius x0 rho rho1 r ct;
  let scale : ℝ := if half then 2 else 1;
  if field = "secondary" then .num (scale * (out - prim))
  else if field = "total" then .num (scale * out)
  else .nothing

/-! ### Homogeneous ground -/

/-- The points of the survey model (`Verif/DC/Geometry.lean`). -/
def toLoc (x : Pt) : Geometry.Loc 3 := .pt (WithLp.toLp 2 x)

/-- The kind of space for the geometric factor. -/
def spaceOf (earth : String) : Geometry.Space := if earth = "halfspace" then .half else .whole

theorem dist_loc (a m : Pt) : dist (WithLp.toLp 2 a : Geometry.Pt 3) (WithLp.toLp 2 m) = dist3 m a := by
  rw [EuclideanSpace.dist_eq, dist3, Fin.sum_univ_three]
  congr 1
  simp only [Real.dist_eq, sq_abs]
  ring

theorem recip_loc (a m : Pt) : Geometry.recip (toLoc a) (toLoc m) = recip a m := by
  simp only [Geometry.recip, toLoc, recip, dist_loc]

theorem fact_front (sigma current : ℝ) (hs : sigma ≠ 0) (earth : String) (g : ℝ) :
    doubled earth (front sigma current * g) =
      current / sigma * (g / ((spaceOf earth).fact * Real.pi)) := by
  have hp := Real.pi_ne_zero
  unfold doubled front spaceOf
  by_cases h : earth = "halfspace"
  · simp only [h, if_true, Geometry.Space.fact]; field_simp; ring
  · simp only [h, if_false, Geometry.Space.fact]; field_simp

/-- C161. **The apparent resistivity of homogeneous ground is its resistivity**: the analytic voltages are
the current and the resistivity times the geometric factor of the survey, for every arrangement of
electrodes, in the whole space and on a half-space. -/
theorem C161_apparent (a b m n : Pt) {sigma : ℝ} (hs : sigma ≠ 0) (current : ℝ) (earth : String) :
    dipoleDipole a b m n sigma current earth =
      (Geometry.factorAt (spaceOf earth).fact (toLoc a, toLoc b) (toLoc m, toLoc n)).map
        (current / sigma * ·) ∧
    poleDipole a m n sigma current earth =
      (Geometry.factorAt (spaceOf earth).fact (toLoc a, .plus) (toLoc m, toLoc n)).map
        (current / sigma * ·) ∧
    dipolePole a b m sigma current earth =
      (Geometry.factorAt (spaceOf earth).fact (toLoc a, toLoc b) (toLoc m, .minus)).map
        (current / sigma * ·) ∧
    polePole a m sigma current earth =
      (Geometry.factorAt (spaceOf earth).fact (toLoc a, .plus) (toLoc m, .minus)).map
        (current / sigma * ·) := by
  have hp : ∀ x, Geometry.recip (d := 3) .plus (toLoc x) = some 0 := fun _ => rfl
  have hq : ∀ x, Geometry.recip (d := 3) (toLoc x) .minus = some 0 := fun _ => rfl
  have hpm : Geometry.recip (d := 3) .plus .minus = some 0 := rfl
  refine ⟨?_, ?_, ?_, ?_⟩
  · simp only [dipoleDipole, Geometry.factorAt, recip_loc]
    cases recip a m <;> cases recip a n <;> cases recip b m <;> cases recip b n <;> simp
    rw [← mul_sub, fact_front _ _ hs]
    ring
  · simp only [poleDipole, Geometry.factorAt, recip_loc, hp]
    cases recip a m <;> cases recip a n <;> simp
    rw [← mul_sub, fact_front _ _ hs]
  · simp only [dipolePole, Geometry.factorAt, recip_loc, hq]
    cases recip a m <;> cases recip b m <;> simp
    rw [fact_front _ _ hs]
  · simp only [polePole, Geometry.factorAt, recip_loc, hp, hq, hpm]
    cases recip a m <;> simp
    rw [fact_front _ _ hs]

/-- C161. **Reciprocity**: exchanging the current and the potential electrodes keeps the voltage. -/
theorem C161_reciprocity (a b m n : Pt) (sigma current : ℝ) (earth : String) :
    dipoleDipole a b m n sigma current earth = dipoleDipole m n a b sigma current earth ∧
      dipolePole a b m sigma current earth = poleDipole m a b sigma current earth ∧
      polePole a m sigma current earth = polePole m a sigma current earth := by
  have hs : ∀ x y, recip x y = recip y x := by
    intro x y
    have : dist3 y x = dist3 x y := by
      unfold dist3; congr 1; ring
    simp [recip, this]
  refine ⟨?_, ?_, ?_⟩
  · simp only [dipoleDipole, hs m a, hs m b, hs n a, hs n b]
    cases recip a m <;> cases recip a n <;> cases recip b m <;> cases recip b n <;> simp
    congr 1; ring
  · simp only [dipolePole, poleDipole, hs m a, hs m b]
    cases recip a m <;> cases recip b m <;> simp
    congr 1; ring
  · simp only [polePole, hs m a]

theorem pole_value (a m : Pt) (h : m ≠ a) (sigma current : ℝ) (earth : String) :
    polePole a m sigma current earth = some (doubled earth (front sigma current) * (1 / dist3 m a)) := by
  have hd := (dist_pos h).ne'
  simp only [polePole, recip, hd, if_false, Option.bind_eq_bind, Option.bind_some, doubled]
  split <;> simp <;> ring

/-- The gradient of the potential of a pole. -/
theorem pole_gradient (a : Pt) (sigma current : ℝ) (earth : String) {m : Pt} (h : m ≠ a) :
    IsGradient (fun x => (polePole a x sigma current earth).getD 0)
      (fun k => -(doubled earth (front sigma current)) * (m k - a k) / dist3 m a ^ 3) m := by
  have h1 := gSmul (doubled earth (front sigma current)) (gComp (inv_pow1 (quad_pos h)) (g_quad a m))
  refine gCongr (gEvent h1 ?_) fun k => ?_
  · filter_upwards [isOpen_ne.mem_nhds h] with y hy
    rw [pole_value a y hy]
    simp [dist_eq]
  · rw [dist_eq]; ring

/-- C161. **The potential of a pole in the whole space** solves the equation of the electric current: the
current density `-σ ∇φ` is outward with size `I / (4 π r²)` at the distance `r`, so that the whole
current leaves through every sphere around the electrode, and it has no sources elsewhere. -/
theorem C161_whole (a : Pt) {sigma : ℝ} (hs : sigma ≠ 0) (current : ℝ) {m : Pt} (h : m ≠ a) :
    ∃ g, IsGradient (fun x => (polePole a x sigma current "wholespace").getD 0) g m ∧
      (∀ k, -sigma * g k = current / (4 * Real.pi * dist3 m a ^ 2) * ((m k - a k) / dist3 m a)) ∧
      ∃ J : Fin 3 → Pt, (∀ k, IsGradient (fun x => -(doubled "wholespace" (front sigma current)) * (x k - a k) / dist3 x a ^ 3)
        (J k) m) ∧ J 0 0 + J 1 1 + J 2 2 = 0 := by
  have hd := (dist_pos h).ne'
  have hp := Real.pi_ne_zero
  refine ⟨_, pole_gradient a sigma current _ h, fun k => ?_, ?_⟩
  · simp only [doubled, front, show ("wholespace" : String) ≠ "halfspace" by decide, if_false]
    field_simp
  · have hq := quad_pos h
    have hJ : ∀ k : Fin 3, IsGradient
        (fun x : Pt => -(doubled "wholespace" (front sigma current)) * (x k - a k) / dist3 x a ^ 3) _ m := fun k => by
      have h1 := gSmul (-(doubled "wholespace" (front sigma current)))
        (gMul (g_coord a m k) (gComp (inv_pow3 hq) (g_quad a m)))
      refine gEvent h1 (Filter.Eventually.of_forall fun y => ?_)
      simp only [dist_eq]; ring
    refine ⟨_, hJ, ?_⟩
    have hsq := dist_sq m a
    have hr : Real.sqrt (quad a m) ≠ 0 := hd
    rw [dist_eq] at hsq
    simp only [if_true]
    generalize Real.sqrt (quad a m) = r at hr hsq ⊢
    linear_combination (norm := (field_simp; ring))
      (-(doubled "wholespace" (front sigma current)) * 3 / r ^ 5) * hsq

/-- C161. **The potential of a pole on a half-space**: no current crosses the level of the electrode, and the
whole current leaves through half spheres: the density is `I / (2 π r²)`. -/
theorem C161_half (a : Pt) {sigma : ℝ} (hs : sigma ≠ 0) (current : ℝ) {m : Pt} (h : m ≠ a) :
    ∃ g, IsGradient (fun x => (polePole a x sigma current "halfspace").getD 0) g m ∧
      (∀ k, -sigma * g k = current / (2 * Real.pi * dist3 m a ^ 2) * ((m k - a k) / dist3 m a)) ∧
      (m 2 = a 2 → g 2 = 0) := by
  have hd := (dist_pos h).ne'
  have hp := Real.pi_ne_zero
  refine ⟨_, pole_gradient a sigma current _ h, fun k => ?_, fun h2 => by simp [h2]⟩
  simp only [doubled, front, if_true]
  field_simp
  ring

/-- An electrode at the origin. -/
example : ∃ g, IsGradient (fun x => (polePole ![0, 0, 0] x 1 1 "halfspace").getD 0) g ![1, 0, 0] ∧
    (∀ k, -(1 : ℝ) * g k = 1 / (2 * Real.pi * dist3 ![1, 0, 0] ![0, 0, 0] ^ 2) *
      (((![1, 0, 0] : Pt) k - (![0, 0, 0] : Pt) k) / dist3 ![1, 0, 0] ![0, 0, 0])) ∧
    ((![1, 0, 0] : Pt) 2 = (![0, 0, 0] : Pt) 2 → g 2 = 0) :=
  C161_half _ one_ne_zero 1 fun h => by simpa using congrFun h 0

/-- C161. Violated by electrodes below the surface of the half-space: current flows through the surface,
everywhere. -/
theorem C161_violated_buried (a : Pt) {sigma current : ℝ} (hs : sigma ≠ 0) (hc : current ≠ 0)
    (hz : a 2 < 0) {m : Pt} (hm : m 2 = 0) :
    ∃ g, IsGradient (fun x => (polePole a x sigma current "halfspace").getD 0) g m ∧ g 2 ≠ 0 := by
  have h : m ≠ a := by rintro rfl; linarith
  have hd := (dist_pos h).ne'
  have hp := Real.pi_ne_zero
  refine ⟨_, pole_gradient a sigma current _ h, ?_⟩
  have h2 : m 2 - a 2 ≠ 0 := by rw [hm]; linarith
  simp only [doubled, front, if_true]
  exact div_ne_zero (mul_ne_zero (neg_ne_zero.2 (mul_ne_zero (div_ne_zero hc
    (mul_ne_zero (mul_ne_zero four_ne_zero hp) hs)) two_ne_zero)) h2) (pow_ne_zero 3 hd)

/-- C161. Violated: any other spelling of the kind of ground is taken as the whole space. -/
theorem C161_violated_name (a b m n : Pt) (sigma current : ℝ) {earth : String}
    (h : earth ≠ "halfspace") :
    dipoleDipole a b m n sigma current earth = dipoleDipole a b m n sigma current "wholespace" := by
  simp [dipoleDipole, doubled, h]

example : dipoleDipole ![0, 0, 0] ![1, 0, 0] ![2, 0, 0] ![3, 0, 0] 1 1 "half-space" =
    dipoleDipole ![0, 0, 0] ![1, 0, 0] ![2, 0, 0] ![3, 0, 0] 1 1 "wholespace" :=
  C161_violated_name _ _ _ _ 1 1 (by decide)

/-! ### The sphere -/

/-- The terms of the expansion of the primary potential about the centre of the sphere. -/
def primTerm (P : ℕ → ℝ → ℝ) (rho x0 r ct : ℝ) (n : ℕ) : ℝ :=
  rho / (4 * Real.pi) * (r ^ n / x0 ^ (n + 1)) * P n ct

/-- C161. **At the surface of the sphere the potential is continuous up to the order of the expansion**: the
jump is what the expansion of the primary potential leaves out, whatever the sphere is made of. -/
theorem C161_sphere_potential (P : ℕ → ℝ → ℝ) (order : ℕ) {radius x0 rho rho1 : ℝ} (hr : 0 < radius)
    (hx : 0 < x0) (h0 : 0 < rho) (h1 : 0 < rho1) (ct : ℝ) :
    outerAt P order radius x0 rho rho1 radius ct - innerAt P order radius x0 rho rho1 radius ct =
      primAt rho x0 radius ct - ∑ n ∈ Finset.range order, primTerm P rho x0 radius ct n := by
  have hp := Real.pi_ne_zero
  have : (∑ n ∈ Finset.range order, (AnBn n radius x0 rho rho1).1 * (1 / radius ^ (n + 1)) * P n ct) +
      ∑ n ∈ Finset.range order, primTerm P rho x0 radius ct n =
      innerAt P order radius x0 rho rho1 radius ct := by
    unfold innerAt
    rw [← Finset.sum_add_distrib]
    refine Finset.sum_congr rfl fun n _ => ?_
    have hb : (n : ℝ) * rho + (n + 1) * rho1 ≠ 0 := by positivity
    simp only [AnBn, primTerm]
    field_simp
    ring
  unfold outerAt
  linarith

/-- C161. **So is the current through the surface**: the jump of `σ ∂φ/∂r` is what the expansion of the primary
potential leaves out. -/
theorem C161_sphere_current (P : ℕ → ℝ → ℝ) (order : ℕ) {radius x0 rho rho1 : ℝ} (hr : 0 < radius)
    (hx : 0 < x0) (h0 : 0 < rho) (h1 : 0 < rho1) (ct : ℝ)
    (hs : 0 < radius ^ 2 + x0 ^ 2 - 2 * radius * x0 * ct) :
    ∃ dO dI dP dT, HasDerivAt (fun r => outerAt P order radius x0 rho rho1 r ct) dO radius ∧
      HasDerivAt (fun r => innerAt P order radius x0 rho rho1 r ct) dI radius ∧
      HasDerivAt (fun r => primAt rho x0 r ct) dP radius ∧
      HasDerivAt (fun r => ∑ n ∈ Finset.range order, primTerm P rho x0 r ct n) dT radius ∧
      1 / rho * dO - 1 / rho1 * dI = 1 / rho * (dP - dT) := by
  have hp := Real.pi_ne_zero
  have hprim : ∃ dP, HasDerivAt (fun r => primAt rho x0 r ct) dP radius := by
    have hq : HasDerivAt (fun r : ℝ => r ^ 2 + x0 ^ 2 - 2 * r * x0 * ct) (2 * radius - 2 * x0 * ct) radius := by
      have := (((hasDerivAt_id radius).pow 2).add_const (x0 ^ 2)).sub
        ((((hasDerivAt_id radius).const_mul 2).mul_const x0).mul_const ct)
      refine this.congr_deriv ?_
      simp
    have h := ((inv_pow1 hs).comp radius hq).const_mul (rho / (4 * Real.pi))
    refine ⟨_, h.congr_of_eventuallyEq (Filter.Eventually.of_forall fun r => ?_)⟩
    simp only [primAt, Function.comp]
    ring
  obtain ⟨dP, hdP⟩ := hprim
  have hA : ∀ n ∈ Finset.range order, HasDerivAt
      (fun r : ℝ => (AnBn n radius x0 rho rho1).1 * (1 / r ^ (n + 1)) * P n ct)
      ((AnBn n radius x0 rho rho1).1 * (-(n + 1) / radius ^ (n + 2)) * P n ct) radius := by
    intro n _
    have h := ((((hasDerivAt_id radius).pow (n + 1)).inv (pow_ne_zero _ hr.ne')).const_mul
      (AnBn n radius x0 rho rho1).1).mul_const (P n ct)
    refine (h.congr_of_eventuallyEq (Filter.Eventually.of_forall fun r => by simp)).congr_deriv ?_
    simp
    field_simp
    left; left
    ring
  have hB : ∀ n ∈ Finset.range order, HasDerivAt
      (fun r : ℝ => (AnBn n radius x0 rho rho1).2 * r ^ n * P n ct)
      ((AnBn n radius x0 rho rho1).2 * (n * radius ^ (n - 1)) * P n ct) radius :=
    fun n _ => ((hasDerivAt_pow n radius).const_mul _).mul_const _
  have hT : ∀ n ∈ Finset.range order, HasDerivAt (fun r : ℝ => primTerm P rho x0 r ct n)
      (rho / (4 * Real.pi) * (n * radius ^ (n - 1) / x0 ^ (n + 1)) * P n ct) radius :=
    fun n _ => (((hasDerivAt_pow n radius).div_const _).const_mul _).mul_const _
  refine ⟨_, _, dP, _, (HasDerivAt.fun_sum hA).add hdP, HasDerivAt.fun_sum hB, hdP, HasDerivAt.fun_sum hT, ?_⟩
  have key : 1 / rho * (∑ n ∈ Finset.range order,
      (AnBn n radius x0 rho rho1).1 * (-(n + 1) / radius ^ (n + 2)) * P n ct) -
      1 / rho1 * (∑ n ∈ Finset.range order,
        (AnBn n radius x0 rho rho1).2 * (n * radius ^ (n - 1)) * P n ct) +
      1 / rho * (∑ n ∈ Finset.range order,
        rho / (4 * Real.pi) * (n * radius ^ (n - 1) / x0 ^ (n + 1)) * P n ct) = 0 := by
    rw [Finset.mul_sum, Finset.mul_sum, Finset.mul_sum, ← Finset.sum_sub_distrib,
      ← Finset.sum_add_distrib]
    refine Finset.sum_eq_zero fun n _ => ?_
    have hb : (n : ℝ) * rho + (n + 1) * rho1 ≠ 0 := by positivity
    cases n with
    | zero => simp [AnBn]
    | succ n =>
      simp only [AnBn, Nat.add_sub_cancel]
      push_cast at hb ⊢
      field_simp
      ring
  linear_combination key

/-- A conductive sphere of radius one, three away from the electrode; a receiver at the side. -/
example : ∃ dO dI dP dT,
    HasDerivAt (fun r => outerAt (fun n x => x ^ n) 12 1 3 1 (1 / 10) r 0) dO 1 ∧
      HasDerivAt (fun r => innerAt (fun n x => x ^ n) 12 1 3 1 (1 / 10) r 0) dI 1 ∧
      HasDerivAt (fun r => primAt 1 3 r 0) dP 1 ∧
      HasDerivAt (fun r => ∑ n ∈ Finset.range 12, primTerm (fun n x => x ^ n) 1 3 r 0 n) dT 1 ∧
      1 / 1 * dO - 1 / (1 / 10) * dI = 1 / 1 * (dP - dT) :=
  C161_sphere_current _ 12 one_pos (by norm_num) one_pos (by norm_num) 0 (by norm_num)

/-- C161. Without a contrast, the potential outside of the sphere is the primary potential. -/
theorem C161_sphere_none (P : ℕ → ℝ → ℝ) (order : ℕ) (radius x0 rho r ct : ℝ) :
    outerAt P order radius x0 rho rho r ct = primAt rho x0 r ct := by
  simp [outerAt, AnBn]

/-- The distance in the code is that of the receiver and the projection of the source on the level of the
centre. -/
theorem sphere_dist (tx rx : Pt) (xc : ℝ) (hr : centreDist tx rx xc ≠ 0) (hx : tx 0 ≠ xc) :
    Real.sqrt (centreDist tx rx xc ^ 2 + |tx 0 - xc| ^ 2 -
      2 * centreDist tx rx xc * |tx 0 - xc| * cosTheta tx rx xc) = dist3 rx ![tx 0, tx 1, 0] := by
  have hx0 : |tx 0 - xc| ≠ 0 := abs_ne_zero.2 (sub_ne_zero.2 hx)
  have hsq : centreDist tx rx xc ^ 2 = (rx 0 - xc) ^ 2 + (rx 1 - tx 1) ^ 2 + rx 2 ^ 2 :=
    Real.sq_sqrt (by positivity)
  have e : 2 * centreDist tx rx xc * |tx 0 - xc| * cosTheta tx rx xc = 2 * (rx 0 - xc) * (tx 0 - xc) := by
    unfold cosTheta
    field_simp
  rw [e, hsq, sq_abs, dist3]
  congr 1
  simp
  ring

/-- C161. **The primary potential** is that of the pole in the whole space, for sources at the level of the
centre of the sphere. -/
theorem C161_sphere_primary_partial (P : ℕ → ℝ → ℝ) (tx rx : Pt) {xc : ℝ} (radius : ℝ) {sigma : ℝ}
    (sigma1 : ℝ) (order : ℕ) (half : Bool) (hs : sigma ≠ 0) (hz : tx 2 = 0)
    (hr : centreDist tx rx xc ≠ 0) (hx : tx 0 ≠ xc) (hne : rx ≠ tx) :
    ∃ v, sphere P tx rx xc radius sigma sigma1 "primary" order half = .num v ∧
      polePole tx rx sigma 1 "wholespace" = some v := by
  have ht : (![tx 0, tx 1, 0] : Pt) = tx := by
    funext k; fin_cases k <;> simp [hz]
  have hd := sphere_dist tx rx xc hr hx
  rw [ht] at hd
  have hd0 := (dist_pos hne).ne'
  have hx0 : |tx 0 - xc| ≠ 0 := abs_ne_zero.2 (sub_ne_zero.2 hx)
  have hp := Real.pi_ne_zero
  refine ⟨primAt (1 / sigma) |tx 0 - xc| (centreDist tx rx xc) (cosTheta tx rx xc), ?_, ?_⟩
  · simp only [sphere, hr, hx0, hd, hd0, or_self, if_false, if_true]
  · rw [pole_value tx rx hne]
    simp only [primAt, hd, doubled, front, show ("wholespace" : String) ≠ "halfspace" by decide, if_false]
    congr 1
    field_simp

/-- A source two away from the centre of the sphere. -/
example : ∃ v, sphere (fun n x => x ^ n) ![2, 0, 0] ![0, 0, 3] 0 1 1 1 "primary" 12 false = .num v ∧
    polePole ![2, 0, 0] ![0, 0, 3] 1 1 "wholespace" = some v :=
  C161_sphere_primary_partial _ _ _ 1 1 12 false one_ne_zero (by simp) (by simp [centreDist])
    (by simp) fun h => by simpa using congrFun h 0

/-- C161. Violated: the depth of the source is not used; the potentials are those of a source at the level
of the centre of the sphere. -/
theorem C161_violated_depth (P : ℕ → ℝ → ℝ) (x y z z' : ℝ) (rx : Pt) (xc radius sigma sigma1 : ℝ)
    (field : String) (order : ℕ) (half : Bool) :
    sphere P ![x, y, z] rx xc radius sigma sigma1 field order half =
      sphere P ![x, y, z'] rx xc radius sigma sigma1 field order half := by
  simp [sphere, centreDist, cosTheta]

/-- C161. **The total potential is the sum of the primary and the secondary one** in the whole space. -/
theorem C161_sphere_sum_partial (P : ℕ → ℝ → ℝ) (tx rx : Pt) (xc radius sigma sigma1 : ℝ) (order : ℕ)
    {p s t : ℝ} (hp : sphere P tx rx xc radius sigma sigma1 "primary" order false = .num p)
    (hs : sphere P tx rx xc radius sigma sigma1 "secondary" order false = .num s)
    (ht : sphere P tx rx xc radius sigma sigma1 "total" order false = .num t) : t = p + s := by
  unfold sphere at hp hs ht
  simp only at hp hs ht
  split at hp
  · simp at hp
  next hn =>
    rw [if_neg hn, if_neg (by decide), if_pos trivial] at hs
    rw [if_neg hn, if_neg (by decide), if_neg (by decide), if_pos trivial] at ht
    rw [if_pos trivial] at hp
    rw [← Out.num.inj hp, ← Out.num.inj hs, ← Out.num.inj ht]
    by_cases hq : centreDist tx rx xc < radius <;> simp [hq] <;> ring

/-- C161. Violated on a half-space: the total potential exceeds the sum of the primary and the secondary one
by the primary one, which is never doubled. -/
theorem C161_violated_half_space (P : ℕ → ℝ → ℝ) (tx rx : Pt) (xc radius sigma sigma1 : ℝ) (order : ℕ)
    {p s t : ℝ} (hp : sphere P tx rx xc radius sigma sigma1 "primary" order true = .num p)
    (hs : sphere P tx rx xc radius sigma sigma1 "secondary" order true = .num s)
    (ht : sphere P tx rx xc radius sigma sigma1 "total" order true = .num t) : t = p + s + p := by
  unfold sphere at hp hs ht
  simp only at hp hs ht
  split at hp
  · simp at hp
  next hn =>
    rw [if_neg hn, if_neg (by decide), if_pos trivial] at hs
    rw [if_neg hn, if_neg (by decide), if_neg (by decide), if_pos trivial] at ht
    rw [if_pos trivial] at hp
    rw [← Out.num.inj hp, ← Out.num.inj hs, ← Out.num.inj ht]
    by_cases hq : centreDist tx rx xc < radius <;> simp [hq] <;> ring

/-- C161. Violated at the centre of the sphere and for sources straight above it: not a number. -/
theorem C161_violated_sphere_centre (P : ℕ → ℝ → ℝ) (tx rx : Pt) (xc radius sigma sigma1 : ℝ)
    (field : String) (order : ℕ) (half : Bool)
    (h : (rx 0 = xc ∧ rx 1 = tx 1 ∧ rx 2 = 0) ∨ tx 0 = xc) :
    sphere P tx rx xc radius sigma sigma1 field order half = .nan := by
  rcases h with ⟨h0, h1, h2⟩ | h
  · have : centreDist tx rx xc = 0 := by simp [centreDist, h0, h1, h2]
    simp [sphere, this]
  · simp [sphere, h]

end Verif.DC.Analytic
