import Verif.Basic
import Verif.Utils.Bounds
import Mathlib.Analysis.SpecialFunctions.Trigonometric.Arctan
import Mathlib.Analysis.SpecialFunctions.Trigonometric.Bounds
import Mathlib.Analysis.SpecialFunctions.Log.Deriv
import Mathlib.Analysis.SpecialFunctions.Arsinh
import Mathlib.Analysis.SpecialFunctions.Trigonometric.DerivHyp
import Mathlib.Algebra.Order.BigOperators.Group.Finset
import Mathlib.Topology.Order.IntermediateValue
import Mathlib.Data.List.Sort
import Mathlib.Tactic.FieldSimp
import Mathlib.Tactic.Positivity
import Mathlib.Tactic.LinearCombination

/-! Model of `SelfConsistentEffectiveMedium` with randomly oriented inclusions
(`simpeg/maps/_property_maps.py` 1018-1526, `random=True`). -/

noncomputable section
namespace Verif.Maps.EffectiveMedium
open Verif Verif.Utils.Bounds

/-- `getQ` (1356-1376).  For NaN the code returns `None`; not modelled. -/
def getQ (a : ℝ) : ℝ :=
  if a < 1 then
    let chi := Real.sqrt (1 / a ^ 2 - 1)
    1 / 2 * (1 + 1 / (a ^ 2 - 1) * (1 - Real.arctan chi / chi))
  else if 1 < a then
    let chi := Real.sqrt (1 - 1 / a ^ 2)
    1 / 2 * (1 + 1 / (a ^ 2 - 1) * (1 - 1 / (2 * chi) * Real.log ((1 + chi) / (1 - chi))))
  else 1 / 3

/-- `getR` (1385-1395), isotropic branch. -/
def getR (sj se a : ℝ) : ℝ :=
  if a = 1 then 3 * se / (2 * se + sj)
  else
    let Q := getQ a
    se / 3 * (2 / (se + Q * (sj - se)) + 1 / (sj - 2 * Q * (sj - se)))

/-- `getdR` (1404-1425), isotropic branch. -/
def getdR (sj se a : ℝ) : ℝ :=
  if a = 1 then 3 / (2 * se + sj) - 6 * se / (2 * se + sj) ^ 2
  else
    let Q := getQ a
    1 / 3 * (2 / (se + Q * (sj - se)) + 1 / (sj - 2 * Q * (sj - se)) +
      se * (-2 * (1 - Q) / (se + Q * (sj - se)) ^ 2 - 2 * Q / (sj - 2 * Q * (sj - se)) ^ 2))

/-- The settings of the map (1104-1128). -/
structure Cfg where
  s0 : ℝ
  s1 : ℝ
  a0 : ℝ
  a1 : ℝ
  relTol : ℝ
  maxIter : Nat

/-- One pass of the loop for one cell (1453-1460). -/
def step (c : Cfg) (p1 se : ℝ) : ℝ :=
  let p0 := 1 - p1
  let R0 := getR c.s0 se c.a0
  let R1 := getR c.s1 se c.a1
  (p0 * c.s0 * R0 + p1 * c.s1 * R1) / (p0 * R0 + p1 * R1)

open Classical in
/-- The loop (1452-1477) from the start value: the result and whether it converged. -/
def loop {n : Nat} (c : Cfg) (tol : ℝ) (phi : Fin n → ℝ) : Nat → (Fin n → ℝ) → (Fin n → ℝ) × Bool
  | 0, s => (s, false)
  | k + 1, s =>
    let s2 := fun i => step c (phi i) (s i)
    if ∀ i, |s2 i - s i| ≤ tol then (s2, true) else loop c tol phi k s2

/-- The object: settings and the two cached values (1119, 1265-1267). -/
structure Obj (n : Nat) where
  cfg : Cfg
  sigstart : Option (Fin n → ℝ) := none
  tol : Option ℝ := none

/-- `tol` (1259-1267). -/
def Obj.tolOf {n : Nat} (o : Obj n) : ℝ :=
  o.tol.getD (o.cfg.relTol * min o.cfg.s0 o.cfg.s1)

/-- The start value (1444-1447): the mean of all Wiener bounds, or the stored value. -/
def Obj.start {n : Nat} (o : Obj n) (phi : Fin n → ℝ) : Fin n → ℝ :=
  o.sigstart.getD fun _ =>
    (∑ i, ((wiener o.cfg.s0 o.cfg.s1 (phi i)).1 + (wiener o.cfg.s0 o.cfg.s1 (phi i)).2)) / (2 * n)

/-- `_sc2phaseEMTSpheroidstransform` (1431-1477) for fractions between 0 and 1: the object
afterwards and the result.  Without iterations `sige2` is not defined. -/
def transform {n : Nat} (o : Obj n) (phi : Fin n → ℝ) : Obj n × Except Err (Fin n → ℝ) :=
  if o.cfg.maxIter = 0 then (o, .error .exception)
  else
    let o := { o with tol := some o.tolOf }
    let r := loop o.cfg o.tolOf phi o.cfg.maxIter (o.start phi)
    (if r.2 ∧ o.sigstart = none then { o with sigstart := some r.1 } else o, .ok r.1)

/-- `_sc2phaseEMTSpheroidsinversetransform` (1479-1486). -/
def inverse (c : Cfg) (se : ℝ) : ℝ :=
  let R0 := getR c.s0 se c.a0
  let R1 := getR c.s1 se c.a1
  (-(c.s0 - se) * R0) / ((c.s1 - se) * R1 - (c.s0 - se) * R0)

/-- `_sc2phaseEMTSpheroidstransformDeriv` (1488-1502), one diagonal entry. -/
def derivEntry (c : Cfg) (se p1 : ℝ) : ℝ :=
  let p0 := 1 - p1
  let R0 := getR c.s0 se c.a0
  let R1 := getR c.s1 se c.a1
  let dR0 := getdR c.s0 se c.a0
  let dR1 := getdR c.s1 se c.a1
  ((se - c.s0) * R0 - (se - c.s1) * R1) /
    (p0 * (R0 + (se - c.s0) * dR0) + p1 * (R1 + (se - c.s1) * dR1))

/-- Assigning `sigma0` (1141-1143): the cached values stay. -/
def Obj.setSigma0 {n : Nat} (o : Obj n) (v : ℝ) : Obj n := { o with cfg := { o.cfg with s0 := v } }

/-- The replacement of fractions outside [0, 1] (1437-1439) over ℚ: the median of all the numbers
in the table, one number for all cells. -/
def clip (phi : List ℚ) : List ℚ :=
  if phi.all fun p => decide (0 ≤ p) && decide (p ≤ 1) then phi
  else
    let t := (phi.map (fun _ => 0) ++ phi ++ phi.map (fun _ => 1)).insertionSort (· ≤ ·)
    [if t.length % 2 = 1 then t.getD (t.length / 2) 0
      else (t.getD (t.length / 2 - 1) 0 + t.getD (t.length / 2) 0) / 2]

namespace Props

/-! ### Specification -/

/-- Settings the validators let through, except zero conductivities and aspect ratios. -/
def Good (c : Cfg) : Prop := 0 < c.s0 ∧ 0 < c.s1 ∧ 0 < c.a0 ∧ 0 < c.a1

/-- The effective medium condition: the fractions of the two phases balance. -/
def Balanced (c : Cfg) (p1 se : ℝ) : Prop :=
  (1 - p1) * ((c.s0 - se) * getR c.s0 se c.a0) + p1 * ((c.s1 - se) * getR c.s1 se c.a1) = 0

/-! ### The shape factor -/

theorem oblate_bound {x : ℝ} (hx : 0 < x) : x / (1 + x ^ 2) ≤ Real.arctan x := by
  have h := Real.sin_le (x := 2 * Real.arctan x) (by have := Real.arctan_pos.mpr hx; linarith)
  rw [Real.sin_two_mul, Real.sin_arctan, Real.cos_arctan] at h
  have h1 : (0 : ℝ) < 1 + x ^ 2 := by positivity
  have : 2 * (x / Real.sqrt (1 + x ^ 2)) * (1 / Real.sqrt (1 + x ^ 2)) = 2 * (x / (1 + x ^ 2)) := by
    rw [mul_assoc, div_mul_div_comm, mul_one, Real.mul_self_sqrt h1.le]
  rw [this] at h
  linarith

theorem arctan_le {x : ℝ} (hx : 0 < x) : Real.arctan x ≤ x := by
  have h := Real.le_tan (Real.arctan_pos.mpr hx).le (Real.arctan_lt_pi_div_two x)
  rwa [Real.tan_arctan] at h

theorem prolate_lower {x : ℝ} (h0 : 0 < x) (h1 : x < 1) : 2 * x ≤ Real.log ((1 + x) / (1 - x)) := by
  have h := Real.hasSum_log_sub_log_of_abs_lt_one (x := x) (by rw [abs_of_pos h0]; exact h1)
  rw [Real.log_div (by linarith) (by linarith)]
  have := sum_le_hasSum {0} (fun i _ => by positivity) h
  simpa using this

theorem prolate_upper {x : ℝ} (h0 : 0 < x) (h1 : x < 1) :
    Real.log ((1 + x) / (1 - x)) ≤ 2 * x / (1 - x ^ 2) := by
  have hx : 0 < 1 - x := by linarith
  set y := (1 + x) / (1 - x) with hy
  have hy1 : 1 ≤ y := by rw [hy, le_div_iff₀ hx]; linarith
  have hy0 : 0 < y := by linarith
  have h := Real.self_le_sinh_iff.mpr (Real.log_nonneg hy1)
  rw [Real.sinh_eq, Real.exp_log hy0, Real.exp_neg, Real.exp_log hy0] at h
  have e : (y - y⁻¹) / 2 = 2 * x / (1 - x ^ 2) := by
    have h2 : (1 : ℝ) - x ^ 2 ≠ 0 := by nlinarith
    have h3 : (1 : ℝ) + x ≠ 0 := by linarith
    rw [hy]
    have : (1 : ℝ) - x ^ 2 = (1 - x) * (1 + x) := by ring
    rw [this]
    field_simp
    ring
  rwa [e] at h

/-- C58. The depolarisation factor of every spheroid is between 0 and 1/2. -/
theorem C58_shape_factor (a : ℝ) (ha : 0 < a) : 0 ≤ getQ a ∧ getQ a ≤ 1 / 2 := by
  unfold getQ
  rcases lt_trichotomy a 1 with h | h | h
  · rw [if_pos h]
    have ha2 : a ^ 2 < 1 := by nlinarith
    have hpos : 0 < 1 / a ^ 2 - 1 := by
      rw [sub_pos, lt_div_iff₀ (by positivity)]; linarith
    set x := Real.sqrt (1 / a ^ 2 - 1) with hx
    have hx0 : 0 < x := Real.sqrt_pos.mpr hpos
    have hxx : x ^ 2 = 1 / a ^ 2 - 1 := Real.sq_sqrt hpos.le
    have e : 1 / (a ^ 2 - 1) = -((1 + x ^ 2) / x ^ 2) := by
      rw [hxx]
      have : a ^ 2 - 1 ≠ 0 := by linarith
      have : 1 - a ^ 2 ≠ 0 := by linarith
      field_simp
      ring
    simp only [e]
    have b1 := oblate_bound hx0
    have b2 := arctan_le hx0
    have u1 : Real.arctan x / x ≤ 1 := by rw [div_le_one hx0]; exact b2
    have u2 : 1 / (1 + x ^ 2) ≤ Real.arctan x / x := by
      rw [le_div_iff₀ hx0, one_div_mul_eq_div]; exact b1
    have hA : 0 < (1 + x ^ 2) / x ^ 2 := by positivity
    have k1 : 0 ≤ (1 + x ^ 2) / x ^ 2 * (1 - Real.arctan x / x) :=
      mul_nonneg hA.le (by linarith)
    have k2 : (1 + x ^ 2) / x ^ 2 * (1 - Real.arctan x / x) ≤
        (1 + x ^ 2) / x ^ 2 * (1 - 1 / (1 + x ^ 2)) :=
      mul_le_mul_of_nonneg_left (by linarith) hA.le
    have k3 : (1 + x ^ 2) / x ^ 2 * (1 - 1 / (1 + x ^ 2)) = 1 := by
      field_simp
      ring
    constructor <;> nlinarith
  · subst h
    norm_num
  · rw [if_neg (by linarith), if_pos h]
    have ha2 : 1 < a ^ 2 := by nlinarith
    have hpos : 0 < 1 - 1 / a ^ 2 := by
      rw [sub_pos, div_lt_iff₀ (by positivity)]; linarith
    set x := Real.sqrt (1 - 1 / a ^ 2) with hx
    have hx0 : 0 < x := Real.sqrt_pos.mpr hpos
    have hxx : x ^ 2 = 1 - 1 / a ^ 2 := Real.sq_sqrt hpos.le
    have hx1 : x < 1 := by
      have : 0 < 1 / a ^ 2 := by positivity
      nlinarith
    have e : 1 / (a ^ 2 - 1) = (1 - x ^ 2) / x ^ 2 := by
      rw [hxx]
      have : a ^ 2 - 1 ≠ 0 := by linarith
      field_simp
      ring
    simp only [e]
    have b1 := prolate_lower hx0 hx1
    have b2 := prolate_upper hx0 hx1
    set L := Real.log ((1 + x) / (1 - x))
    have h1x : 0 < 1 - x ^ 2 := by nlinarith
    have u1 : 1 ≤ 1 / (2 * x) * L := by
      rw [one_div_mul_eq_div, le_div_iff₀ (by positivity)]; linarith
    have u2 : 1 / (2 * x) * L ≤ 1 / (1 - x ^ 2) := by
      rw [one_div_mul_eq_div, div_le_iff₀ (by positivity)]
      calc L ≤ 2 * x / (1 - x ^ 2) := b2
        _ = _ := by ring
    have hA : 0 < (1 - x ^ 2) / x ^ 2 := by positivity
    have k1 : (1 - x ^ 2) / x ^ 2 * (1 - 1 / (2 * x) * L) ≤ 0 :=
      mul_nonpos_of_nonneg_of_nonpos hA.le (by linarith)
    have k2 : (1 - x ^ 2) / x ^ 2 * (1 - 1 / (1 - x ^ 2)) ≤
        (1 - x ^ 2) / x ^ 2 * (1 - 1 / (2 * x) * L) :=
      mul_le_mul_of_nonneg_left (by linarith) hA.le
    have k3 : (1 - x ^ 2) / x ^ 2 * (1 - 1 / (1 - x ^ 2)) = -1 := by
      field_simp
      ring
    constructor <;> nlinarith

theorem getQ_one : getQ 1 = 1 / 3 := by simp [getQ]

/-- The two formulas of `getR` agree. -/
theorem getR_eq (sj se a : ℝ) (hj : 0 < sj) (he : 0 < se) :
    getR sj se a = se / 3 * (2 / ((1 - getQ a) * se + getQ a * sj) +
      1 / ((1 - 2 * getQ a) * sj + 2 * getQ a * se)) := by
  unfold getR
  split
  · rename_i h
    subst h
    rw [getQ_one]
    have : 2 * se + sj ≠ 0 := by positivity
    rw [show (1 - 1 / 3 : ℝ) * se + 1 / 3 * sj = (2 * se + sj) / 3 by ring,
      show (1 - 2 * (1 / 3) : ℝ) * sj + 2 * (1 / 3) * se = (2 * se + sj) / 3 by ring]
    field_simp
    ring
  · simp only
    rw [show se + getQ a * (sj - se) = (1 - getQ a) * se + getQ a * sj by ring,
      show sj - 2 * getQ a * (sj - se) = (1 - 2 * getQ a) * sj + 2 * getQ a * se by ring]

theorem denA_pos {sj se a : ℝ} (hj : 0 < sj) (he : 0 < se) (ha : 0 < a) :
    0 < (1 - getQ a) * se + getQ a * sj := by
  obtain ⟨q0, q1⟩ := C58_shape_factor a ha
  have h1 : 0 < (1 - getQ a) * se := mul_pos (by linarith) he
  have h2 : 0 ≤ getQ a * sj := mul_nonneg q0 hj.le
  linarith

theorem denB_pos {sj se a : ℝ} (hj : 0 < sj) (he : 0 < se) (ha : 0 < a) :
    0 < (1 - 2 * getQ a) * sj + 2 * getQ a * se := by
  obtain ⟨q0, q1⟩ := C58_shape_factor a ha
  rcases eq_or_lt_of_le q0 with h | h
  · rw [← h]; linarith
  · have h1 : 0 ≤ (1 - 2 * getQ a) * sj := mul_nonneg (by linarith) hj.le
    have h2 : 0 < 2 * getQ a * se := by positivity
    linarith

theorem getR_pos {sj se a : ℝ} (hj : 0 < sj) (he : 0 < se) (ha : 0 < a) : 0 < getR sj se a := by
  rw [getR_eq sj se a hj he]
  have h1 := denA_pos hj he ha
  have h2 := denB_pos hj he ha
  positivity

/-! ### C58 -/

/-- One pass of the loop gives a weighted mean of the two conductivities. -/
theorem step_between (c : Cfg) (hc : Good c) {p se : ℝ} (hp : 0 ≤ p) (hp' : p ≤ 1) (he : 0 < se) :
    min c.s0 c.s1 ≤ step c p se ∧ step c p se ≤ max c.s0 c.s1 := by
  obtain ⟨h0, h1, ha0, ha1⟩ := hc
  have r0 := getR_pos (se := se) h0 he ha0
  have r1 := getR_pos (se := se) h1 he ha1
  have hq : 0 ≤ 1 - p := by linarith
  have w0 : 0 ≤ (1 - p) * getR c.s0 se c.a0 := mul_nonneg hq r0.le
  have w1 : 0 ≤ p * getR c.s1 se c.a1 := mul_nonneg hp r1.le
  have hden : 0 < (1 - p) * getR c.s0 se c.a0 + p * getR c.s1 se c.a1 := by
    rcases eq_or_lt_of_le hp with h | h
    · rw [← h]; simpa using r0
    · have := mul_pos h r1; linarith
  unfold step
  simp only
  rw [le_div_iff₀ hden, div_le_iff₀ hden]
  constructor
  · nlinarith [min_le_left c.s0 c.s1, min_le_right c.s0 c.s1,
      mul_le_mul_of_nonneg_left (min_le_left c.s0 c.s1) w0,
      mul_le_mul_of_nonneg_left (min_le_right c.s0 c.s1) w1]
  · nlinarith [mul_le_mul_of_nonneg_left (le_max_left c.s0 c.s1) w0,
      mul_le_mul_of_nonneg_left (le_max_right c.s0 c.s1) w1]

theorem loop_between {n : Nat} (c : Cfg) (hc : Good c) (tol : ℝ) (phi : Fin n → ℝ)
    (hphi : ∀ i, 0 ≤ phi i ∧ phi i ≤ 1) (k : Nat) (s : Fin n → ℝ) (hs : ∀ i, 0 < s i) :
    ∀ i, min c.s0 c.s1 ≤ (loop c tol phi (k + 1) s).1 i ∧
      (loop c tol phi (k + 1) s).1 i ≤ max c.s0 c.s1 := by
  induction k generalizing s with
  | zero =>
    intro i
    have := step_between c hc (hphi i).1 (hphi i).2 (hs i)
    simp only [loop]
    split <;> exact this
  | succ k ih =>
    intro i
    rw [loop]
    simp only
    split
    · exact step_between c hc (hphi i).1 (hphi i).2 (hs i)
    · refine ih _ (fun j => ?_) i
      exact lt_of_lt_of_le (lt_min hc.1 hc.2.1)
        (step_between c hc (hphi j).1 (hphi j).2 (hs j)).1

theorem loop_converged {n : Nat} (c : Cfg) (hc : Good c) (tol : ℝ) (phi : Fin n → ℝ)
    (hphi : ∀ i, 0 ≤ phi i ∧ phi i ≤ 1) (k : Nat) (s : Fin n → ℝ) (hs : ∀ i, 0 < s i)
    (h : (loop c tol phi k s).2 = true) :
    ∃ s' : Fin n → ℝ, (∀ i, 0 < s' i) ∧ ∀ i,
      (loop c tol phi k s).1 i = step c (phi i) (s' i) ∧
      |(loop c tol phi k s).1 i - s' i| ≤ tol := by
  induction k generalizing s with
  | zero => simp [loop] at h
  | succ k ih =>
    rw [loop] at h ⊢
    simp only at h ⊢
    split
    · rename_i hall
      exact ⟨s, hs, fun i => ⟨rfl, hall i⟩⟩
    · rename_i hall
      rw [if_neg hall] at h
      exact ih _ (fun j => lt_of_lt_of_le (lt_min hc.1 hc.2.1)
        (step_between c hc (hphi j).1 (hphi j).2 (hs j)).1) h

theorem start_pos {n : Nat} (o : Obj n) (hc : Good o.cfg) (phi : Fin n → ℝ)
    (hphi : ∀ i, 0 ≤ phi i ∧ phi i ≤ 1) (hs : ∀ s, o.sigstart = some s → ∀ i, 0 < s i) :
    ∀ i, 0 < o.start phi i := by
  intro i
  unfold Obj.start
  cases h : o.sigstart with
  | some s => exact hs s h i
  | none =>
    have hn : 0 < n := i.pos
    have hw : ∀ j, 0 < (wiener o.cfg.s0 o.cfg.s1 (phi j)).1 +
        (wiener o.cfg.s0 o.cfg.s1 (phi j)).2 := by
      intro j
      have := Verif.Utils.Bounds.Props.C46_wiener hc.1 hc.2.1 (hphi j).1 (hphi j).2
      have hm := lt_min hc.1 hc.2.1
      linarith [this.1, this.2.1]
    have : 0 < ∑ j, ((wiener o.cfg.s0 o.cfg.s1 (phi j)).1 +
        (wiener o.cfg.s0 o.cfg.s1 (phi j)).2) :=
      Finset.sum_pos (fun j _ => hw j) ⟨i, Finset.mem_univ i⟩
    have hn' : (0 : ℝ) < 2 * n := by positivity
    exact div_pos this hn'

/-- Calls of the map and changes of `sigma0` in any order: the object afterwards. -/
inductive Op (n : Nat) where
  | call (phi : Fin n → ℝ)
  | sigma0 (v : ℝ)

def run {n : Nat} (o : Obj n) : List (Op n) → Obj n
  | [] => o
  | .call phi :: ops => run (transform o phi).1 ops
  | .sigma0 v :: ops => run (o.setSigma0 v) ops

def Legal {n : Nat} : Op n → Prop
  | .call phi => ∀ i, 0 ≤ phi i ∧ phi i ≤ 1
  | .sigma0 v => 0 < v

/-- What the histories preserve: settings are legal and the stored start is positive. -/
def Inv {n : Nat} (o : Obj n) : Prop :=
  Good o.cfg ∧ ∀ s, o.sigstart = some s → ∀ i, 0 < s i

theorem transform_inv {n : Nat} (o : Obj n) (h : Inv o) (phi : Fin n → ℝ)
    (hphi : ∀ i, 0 ≤ phi i ∧ phi i ≤ 1) : Inv (transform o phi).1 := by
  unfold transform
  split
  · exact h
  · rename_i hk
    obtain ⟨k, hk'⟩ := Nat.exists_eq_succ_of_ne_zero hk
    simp only
    split
    · refine ⟨h.1, ?_⟩
      intro s hs i
      simp only [Option.some.injEq] at hs
      rw [← hs, hk']
      exact lt_of_lt_of_le (lt_min h.1.1 h.1.2.1)
        (loop_between o.cfg h.1 _ phi hphi k _ (start_pos _ h.1 phi hphi h.2) i).1
    · exact h

theorem run_inv {n : Nat} (o : Obj n) (h : Inv o) (ops : List (Op n)) (hops : ∀ x ∈ ops, Legal x) :
    Inv (run o ops) := by
  induction ops generalizing o with
  | nil => exact h
  | cons x ops ih =>
    cases x with
    | call phi =>
      exact ih _ (transform_inv o h phi (hops (.call phi) (by simp)))
        fun y hy => hops y (by simp [hy])
    | sigma0 v =>
      refine ih _ ⟨⟨hops (.sigma0 v) (by simp), h.1.2⟩, h.2⟩ fun y hy => hops y (by simp [hy])

/-- C58. After any history of calls and changes of a conductivity, the effective conductivity of
every cell lies between those of the two phases, converged or not. -/
theorem C58_between {n : Nat} (c : Cfg) (hc : Good c) (ops : List (Op n))
    (hops : ∀ x ∈ ops, Legal x) (phi : Fin n → ℝ) (hphi : ∀ i, 0 ≤ phi i ∧ phi i ≤ 1)
    (r : Fin n → ℝ) :
    let o := run { cfg := c } ops
    (transform o phi).2 = .ok r →
      ∀ i, min o.cfg.s0 o.cfg.s1 ≤ r i ∧ r i ≤ max o.cfg.s0 o.cfg.s1 := by
  intro o hr i
  have hinv : Inv o := run_inv _ ⟨hc, by simp⟩ ops hops
  unfold transform at hr
  split at hr
  · cases hr
  · rename_i hk
    obtain ⟨k, hk'⟩ := Nat.exists_eq_succ_of_ne_zero hk
    simp only [Except.ok.injEq] at hr
    rw [← hr, hk']
    exact loop_between o.cfg hinv.1 _ phi hphi k _ (start_pos _ hinv.1 phi hphi hinv.2) i

/-- The difference of phase and medium, divided by the medium. -/
def bal (sj se a : ℝ) : ℝ :=
  (se - sj) / 3 * (2 / ((1 - getQ a) * se + getQ a * sj) +
    1 / ((1 - 2 * getQ a) * sj + 2 * getQ a * se))

theorem bal_eq {sj se a : ℝ} (hj : 0 < sj) (he : 0 < se) :
    (sj - se) * getR sj se a = -se * bal sj se a := by
  rw [getR_eq sj se a hj he, bal]; ring

theorem bal_mono {sj a x y : ℝ} (hj : 0 < sj) (ha : 0 < a) (hx : 0 < x) (hxy : x < y) :
    bal sj x a < bal sj y a := by
  have hy : 0 < y := hx.trans hxy
  have ax := denA_pos (se := x) hj hx ha
  have ay := denA_pos (se := y) hj hy ha
  have bx := denB_pos (se := x) hj hx ha
  have by' := denB_pos (se := y) hj hy ha
  have e : ∀ (z A B : ℝ), (z - sj) / 3 * (2 / A + 1 / B) = 2 / 3 * ((z - sj) / A) +
      1 / 3 * ((z - sj) / B) := by
    intro z A B; ring
  unfold bal
  rw [e, e]
  have hxs : 0 < sj * (y - x) := mul_pos hj (by linarith)
  have k1 : (x - sj) / ((1 - getQ a) * x + getQ a * sj) <
      (y - sj) / ((1 - getQ a) * y + getQ a * sj) := by
    rw [div_lt_div_iff₀ ax ay]; nlinarith
  have k2 : (x - sj) / ((1 - 2 * getQ a) * sj + 2 * getQ a * x) <
      (y - sj) / ((1 - 2 * getQ a) * sj + 2 * getQ a * y) := by
    rw [div_lt_div_iff₀ bx by']; nlinarith
  linarith

theorem balanced_iff {c : Cfg} (hc : Good c) {p se : ℝ} (he : 0 < se) :
    Balanced c p se ↔ (1 - p) * bal c.s0 se c.a0 + p * bal c.s1 se c.a1 = 0 := by
  unfold Balanced
  rw [bal_eq hc.1 he, bal_eq hc.2.1 he]
  constructor
  · intro h
    have : -se * ((1 - p) * bal c.s0 se c.a0 + p * bal c.s1 se c.a1) = 0 := by linarith
    rcases mul_eq_zero.mp this with h | h
    · linarith
    · exact h
  · intro h
    linear_combination -se * h

/-- C58. For every fraction the effective medium condition has at most one solution, and the
fixed points of the iteration are exactly its solutions. -/
theorem C58_unique (c : Cfg) (hc : Good c) (p : ℝ) (hp : 0 ≤ p) (hp' : p ≤ 1) :
    (∀ x y, 0 < x → 0 < y → Balanced c p x → Balanced c p y → x = y) ∧
    (∀ x, 0 < x → (step c p x = x ↔ Balanced c p x)) := by
  constructor
  · have key : ∀ x y, 0 < x → x < y → Balanced c p x → Balanced c p y → False := by
      intro x y hx hxy h1 h2
      rw [balanced_iff hc hx] at h1
      rw [balanced_iff hc (hx.trans hxy)] at h2
      have m0 := bal_mono hc.1 hc.2.2.1 hx hxy
      have m1 := bal_mono hc.2.1 hc.2.2.2 hx hxy
      rcases eq_or_lt_of_le hp with h | h
      · rw [← h] at h1 h2; linarith
      · have := mul_lt_mul_of_pos_left m1 h
        have := mul_le_mul_of_nonneg_left m0.le (show 0 ≤ 1 - p by linarith)
        linarith
    intro x y hx hy h1 h2
    rcases lt_trichotomy x y with h | h | h
    · exact (key x y hx h h1 h2).elim
    · exact h
    · exact (key y x hy h h2 h1).elim
  · intro x hx
    have r0 := getR_pos (se := x) hc.1 hx hc.2.2.1
    have r1 := getR_pos (se := x) hc.2.1 hx hc.2.2.2
    have hden : 0 < (1 - p) * getR c.s0 x c.a0 + p * getR c.s1 x c.a1 := by
      rcases eq_or_lt_of_le hp with h | h
      · rw [← h]; simpa using r0
      · have := mul_pos h r1
        have := mul_nonneg (show 0 ≤ 1 - p by linarith) r0.le
        linarith
    unfold step Balanced
    simp only
    rw [div_eq_iff hden.ne']
    constructor <;> intro h <;> linear_combination h

/-- C58. A balanced conductivity exists for every fraction, between those of the two phases. -/
theorem C58_exists (c : Cfg) (hc : Good c) (p : ℝ) (hp : 0 ≤ p) (hp' : p ≤ 1) :
    ∃ x, min c.s0 c.s1 ≤ x ∧ x ≤ max c.s0 c.s1 ∧ Balanced c p x := by
  have hmin := lt_min hc.1 hc.2.1
  have hle : min c.s0 c.s1 ≤ max c.s0 c.s1 := min_le_max
  have hpos : ∀ x ∈ Set.Icc (min c.s0 c.s1) (max c.s0 c.s1), 0 < x := fun x hx => hmin.trans_le hx.1
  have hcont : ∀ sj a, 0 < sj → 0 < a → ContinuousOn (fun x => bal sj x a)
      (Set.Icc (min c.s0 c.s1) (max c.s0 c.s1)) := by
    intro sj a hj ha
    unfold bal
    refine ContinuousOn.mul (by fun_prop) (ContinuousOn.add ?_ ?_)
    · exact ContinuousOn.div (by fun_prop) (by fun_prop)
        fun x hx => (denA_pos hj (hpos x hx) ha).ne'
    · exact ContinuousOn.div (by fun_prop) (by fun_prop)
        fun x hx => (denB_pos hj (hpos x hx) ha).ne'
  have hF : ContinuousOn (fun x => (1 - p) * bal c.s0 x c.a0 + p * bal c.s1 x c.a1)
      (Set.Icc (min c.s0 c.s1) (max c.s0 c.s1)) :=
    ((hcont _ _ hc.1 hc.2.2.1).const_mul _ |>.add ((hcont _ _ hc.2.1 hc.2.2.2).const_mul _)
      : ContinuousOn _ _)
  have sgn : ∀ sj se a, 0 < sj → 0 < se → 0 < a → (se ≤ sj → bal sj se a ≤ 0) ∧
      (sj ≤ se → 0 ≤ bal sj se a) := by
    intro sj se a hj he ha
    have h1 := denA_pos (se := se) hj he ha
    have h2 := denB_pos (se := se) hj he ha
    have hk : 0 < 2 / ((1 - getQ a) * se + getQ a * sj) +
      1 / ((1 - 2 * getQ a) * sj + 2 * getQ a * se) := by positivity
    unfold bal
    constructor
    · intro h; exact mul_nonpos_of_nonpos_of_nonneg (by linarith) hk.le
    · intro h; exact mul_nonneg (by linarith) hk.le
  have hmax : 0 < max c.s0 c.s1 := hmin.trans_le hle
  have lo : (1 - p) * bal c.s0 (min c.s0 c.s1) c.a0 + p * bal c.s1 (min c.s0 c.s1) c.a1 ≤ 0 := by
    have a := (sgn c.s0 _ c.a0 hc.1 hmin hc.2.2.1).1 (min_le_left _ _)
    have b := (sgn c.s1 _ c.a1 hc.2.1 hmin hc.2.2.2).1 (min_le_right _ _)
    have := mul_nonpos_of_nonneg_of_nonpos (show 0 ≤ 1 - p by linarith) a
    have := mul_nonpos_of_nonneg_of_nonpos hp b
    linarith
  have hi : 0 ≤ (1 - p) * bal c.s0 (max c.s0 c.s1) c.a0 + p * bal c.s1 (max c.s0 c.s1) c.a1 := by
    have a := (sgn c.s0 _ c.a0 hc.1 hmax hc.2.2.1).2 (le_max_left _ _)
    have b := (sgn c.s1 _ c.a1 hc.2.1 hmax hc.2.2.2).2 (le_max_right _ _)
    have := mul_nonneg (show 0 ≤ 1 - p by linarith) a
    have := mul_nonneg hp b
    linarith
  obtain ⟨x, hx, hx0⟩ := intermediate_value_Icc hle hF ⟨lo, hi⟩
  exact ⟨x, hx.1, hx.2, (balanced_iff hc (hpos x hx)).mpr hx0⟩

/-- C58. `inverse` recovers the fraction from the balanced conductivity, if the two phases
differ. -/
theorem C58_inverse (c : Cfg) (hc : Good c) (hne : c.s0 ≠ c.s1) (p se : ℝ)
    (he : 0 < se) (hb : Balanced c p se) : inverse c se = p := by
  have r0 := getR_pos (se := se) hc.1 he hc.2.2.1
  have r1 := getR_pos (se := se) hc.2.1 he hc.2.2.2
  have hden : (c.s1 - se) * getR c.s1 se c.a1 - (c.s0 - se) * getR c.s0 se c.a0 ≠ 0 := by
    intro h0
    unfold Balanced at hb
    have e0 : (c.s0 - se) * getR c.s0 se c.a0 = 0 := by linear_combination hb - p * h0
    have e1 : (c.s1 - se) * getR c.s1 se c.a1 = 0 := by linear_combination h0 + e0
    have f0 : c.s0 = se := by
      rcases mul_eq_zero.mp e0 with h | h
      · linarith
      · exact absurd h r0.ne'
    have f1 : c.s1 = se := by
      rcases mul_eq_zero.mp e1 with h | h
      · linarith
      · exact absurd h r1.ne'
    exact hne (f0.trans f1.symm)
  unfold inverse
  simp only
  rw [div_eq_iff hden]
  unfold Balanced at hb
  linear_combination -hb

/-- C58. `getdR` is the derivative of `getR`. -/
theorem C58_getdR (sj se a : ℝ) (hj : 0 < sj) (he : 0 < se) (ha : 0 < a) :
    HasDerivAt (fun x => getR sj x a) (getdR sj se a) se := by
  unfold getR getdR
  by_cases h : a = 1
  · simp only [h, if_true]
    have hd : 2 * se + sj ≠ 0 := by positivity
    have h1 : HasDerivAt (fun x : ℝ => 3 * x) 3 se := by simpa using (hasDerivAt_id se).const_mul 3
    have h2 : HasDerivAt (fun x : ℝ => 2 * x + sj) 2 se := by
      simpa using ((hasDerivAt_id se).const_mul 2).add_const sj
    have h3 := h1.div h2 hd
    have e : (3 * (2 * se + sj) - 3 * se * 2) / (2 * se + sj) ^ 2 =
        3 / (2 * se + sj) - 6 * se / (2 * se + sj) ^ 2 := by
      field_simp
      ring
    rw [e] at h3
    exact h3
  · simp only [h, if_false]
    have hA : se + getQ a * (sj - se) ≠ 0 := by
      have := (denA_pos (se := se) hj he ha).ne'
      rwa [show (1 - getQ a) * se + getQ a * sj = se + getQ a * (sj - se) by ring] at this
    have hB : sj - 2 * getQ a * (sj - se) ≠ 0 := by
      have := (denB_pos (se := se) hj he ha).ne'
      rwa [show (1 - 2 * getQ a) * sj + 2 * getQ a * se = sj - 2 * getQ a * (sj - se) by ring]
        at this
    have id' := hasDerivAt_id' se
    have dA : HasDerivAt (fun x : ℝ => x + getQ a * (sj - x)) (1 + getQ a * (0 - 1)) se :=
      id'.add (((hasDerivAt_const se sj).sub id').const_mul _)
    have dB : HasDerivAt (fun x : ℝ => sj - 2 * getQ a * (sj - x)) (0 - 2 * getQ a * (0 - 1)) se :=
      (hasDerivAt_const se sj).sub (((hasDerivAt_const se sj).sub id').const_mul _)
    have d := (id'.div_const 3).mul
      (((hasDerivAt_const se (2 : ℝ)).div dA hA).add ((hasDerivAt_const se (1 : ℝ)).div dB hB))
    refine d.congr_deriv ?_
    simp only [Pi.add_apply, Pi.div_apply]
    set Q := getQ a
    set A := se + Q * (sj - se)
    set B := sj - 2 * Q * (sj - se)
    field_simp
    ring

/-- C58. Wherever the balanced conductivity depends differentiably on the fraction, its derivative
is what `deriv` returns at the balanced conductivity; the denominator is not zero. -/
theorem C58_deriv (c : Cfg) (hc : Good c) (p : ℝ) (hp : 0 ≤ p) (hp' : p ≤ 1) (s : ℝ → ℝ) (s' : ℝ)
    (hs : HasDerivAt s s' p) (hpos : 0 < s p)
    (hb : ∀ᶠ q in nhds p, Balanced c q (s q)) :
    s' = derivEntry c (s p) p := by
  have r0 := C58_getdR c.s0 (s p) c.a0 hc.1 hpos hc.2.2.1
  have r1 := C58_getdR c.s1 (s p) c.a1 hc.2.1 hpos hc.2.2.2
  have g : ∀ sj a, HasDerivAt (fun x => getR sj x a) (getdR sj (s p) a) (s p) →
      HasDerivAt (fun q => (sj - s q) * getR sj (s q) a)
        ((0 - s') * getR sj (s p) a + (sj - s p) * (getdR sj (s p) a * s')) p := by
    intro sj a hr
    exact ((hasDerivAt_const p sj).sub hs).mul (HasDerivAt.comp p hr hs)
  have dq : HasDerivAt (fun q : ℝ => q) 1 p := hasDerivAt_id' p
  have d1 : HasDerivAt (fun q : ℝ => 1 - q) (0 - 1) p := (hasDerivAt_const p (1 : ℝ)).sub dq
  have dF := (d1.mul (g c.s0 c.a0 r0)).add (dq.mul (g c.s1 c.a1 r1))
  have dz : HasDerivAt (fun _ : ℝ => (0 : ℝ)) 0 p := hasDerivAt_const p 0
  have heq : (fun q => (1 - q) * ((c.s0 - s q) * getR c.s0 (s q) c.a0) +
      q * ((c.s1 - s q) * getR c.s1 (s q) c.a1)) =ᶠ[nhds p] fun _ => (0 : ℝ) := hb
  have h0 := dF.unique (dz.congr_of_eventuallyEq heq)
  have hbp : Balanced c p (s p) := hb.self_of_nhds
  -- the denominator is the derivative of the balance, which is positive
  have hden : 0 < (1 - p) * (getR c.s0 (s p) c.a0 + (s p - c.s0) * getdR c.s0 (s p) c.a0) +
      p * (getR c.s1 (s p) c.a1 + (s p - c.s1) * getdR c.s1 (s p) c.a1) := by
    have part : ∀ sj a, 0 < sj → 0 < a →
        0 < s p * (getR sj (s p) a + (s p - sj) * getdR sj (s p) a) - (s p - sj) * getR sj (s p) a := by
      intro sj a hj ha
      have hA := denA_pos (se := s p) hj hpos ha
      have hB := denB_pos (se := s p) hj hpos ha
      have e1 := getR_eq sj (s p) a hj hpos
      have e2 : getdR sj (s p) a = 1 / 3 * (2 / ((1 - getQ a) * s p + getQ a * sj) +
          1 / ((1 - 2 * getQ a) * sj + 2 * getQ a * s p) +
          s p * (-2 * (1 - getQ a) / ((1 - getQ a) * s p + getQ a * sj) ^ 2 -
            2 * getQ a / ((1 - 2 * getQ a) * sj + 2 * getQ a * s p) ^ 2)) := by
        unfold getdR
        split
        · rename_i h
          subst h
          rw [getQ_one]
          have : 2 * s p + sj ≠ 0 := by positivity
          rw [show (1 - 1 / 3 : ℝ) * s p + 1 / 3 * sj = (2 * s p + sj) / 3 by ring,
            show (1 - 2 * (1 / 3) : ℝ) * sj + 2 * (1 / 3) * s p = (2 * s p + sj) / 3 by ring]
          field_simp
          ring
        · simp only
          rw [show s p + getQ a * (sj - s p) = (1 - getQ a) * s p + getQ a * sj by ring,
            show sj - 2 * getQ a * (sj - s p) = (1 - 2 * getQ a) * sj + 2 * getQ a * s p by ring]
      rw [e1, e2]
      set A := (1 - getQ a) * s p + getQ a * sj with hAdef
      set B := (1 - 2 * getQ a) * sj + 2 * getQ a * s p with hBdef
      have : s p * (s p / 3 * (2 / A + 1 / B) + (s p - sj) * (1 / 3 * (2 / A + 1 / B +
          s p * (-2 * (1 - getQ a) / A ^ 2 - 2 * getQ a / B ^ 2)))) -
          (s p - sj) * (s p / 3 * (2 / A + 1 / B)) =
          s p ^ 2 / 3 * (2 * sj / A ^ 2 + sj / B ^ 2) := by
        have ea : (s p - sj) * (1 - getQ a) = A - sj := by rw [hAdef]; ring
        have eb : (s p - sj) * (2 * getQ a) = B - sj := by rw [hBdef]; ring
        field_simp
        linear_combination (-2 * B ^ 2) * ea - A ^ 2 * eb
      rw [this]
      positivity
    have q0 := part c.s0 c.a0 hc.1 hc.2.2.1
    have q1 := part c.s1 c.a1 hc.2.1 hc.2.2.2
    have hsum : s p * ((1 - p) * (getR c.s0 (s p) c.a0 + (s p - c.s0) * getdR c.s0 (s p) c.a0) +
      p * (getR c.s1 (s p) c.a1 + (s p - c.s1) * getdR c.s1 (s p) c.a1)) > 0 := by
      have : s p * ((1 - p) * (getR c.s0 (s p) c.a0 + (s p - c.s0) * getdR c.s0 (s p) c.a0) +
        p * (getR c.s1 (s p) c.a1 + (s p - c.s1) * getdR c.s1 (s p) c.a1)) =
        (1 - p) * (s p * (getR c.s0 (s p) c.a0 + (s p - c.s0) * getdR c.s0 (s p) c.a0) -
          (s p - c.s0) * getR c.s0 (s p) c.a0) +
        p * (s p * (getR c.s1 (s p) c.a1 + (s p - c.s1) * getdR c.s1 (s p) c.a1) -
          (s p - c.s1) * getR c.s1 (s p) c.a1) := by
        unfold Balanced at hbp
        linear_combination -hbp
      rw [this]
      rcases eq_or_lt_of_le hp with h | h
      · rw [← h]; rw [← h] at q0; linarith
      · have := mul_pos h q1
        have := mul_nonneg (show 0 ≤ 1 - p by linarith) q0.le
        linarith
    exact (mul_pos_iff_of_pos_left hpos).mp hsum
  unfold derivEntry
  simp only
  rw [eq_div_iff hden.ne']
  linear_combination -h0

/-- C58 (partial). What a converged call returns satisfies the effective medium condition up to
the tolerance: it is one step from a conductivity at most `tol` away. Missing: the result also
depends on the calls made before (`C58_history`), and `tol` on earlier settings
(`C58_tolerance_stale`). -/
theorem C58_converged_partial {n : Nat} (o : Obj n) (h : Inv o) (phi : Fin n → ℝ)
    (hphi : ∀ i, 0 ≤ phi i ∧ phi i ≤ 1) (r : Fin n → ℝ) (hr : (transform o phi).2 = .ok r)
    (hfirst : o.sigstart = none) (hconv : (transform o phi).1.sigstart ≠ none) :
    ∃ s : Fin n → ℝ, ∀ i, 0 < s i ∧ r i = step o.cfg (phi i) (s i) ∧ |r i - s i| ≤ o.tolOf := by
  unfold transform at hr hconv
  split at hr
  · cases hr
  · rename_i hk
    rw [if_neg hk] at hconv
    simp only [Except.ok.injEq] at hr hconv
    split at hconv
    · rename_i hc
      have htol : ({ o with tol := some o.tolOf } : Obj n).tolOf = o.tolOf := rfl
      rw [htol] at hr hc
      obtain ⟨s, hs, hs'⟩ := loop_converged o.cfg h.1 o.tolOf phi hphi o.cfg.maxIter _
        (start_pos ({ o with tol := some o.tolOf } : Obj n) h.1 phi hphi h.2) hc.1
      refine ⟨s, fun i => ?_⟩
      rw [← hr]
      exact ⟨hs i, hs' i⟩
    · exact absurd hfirst hconv

/-- C58 (violation). The same fractions give another result when the map has been called before:
the first result is kept as the start value. -/
theorem C58_history : ∃ (c : Cfg) (phi : Fin 1 → ℝ), Good c ∧ (∀ i, 0 ≤ phi i ∧ phi i ≤ 1) ∧
    (transform (transform { cfg := c } phi).1 phi).2 ≠ (transform { cfg := c } phi).2 := by
  refine ⟨⟨1, 2, 1, 1, 1, 1⟩, fun _ => 1 / 2, ?_, ?_, ?_⟩
  · simp [Good]
  · intro i; norm_num
  · have hstep : ∀ x : ℝ, step ⟨1, 2, 1, 1, 1, 1⟩ (1 / 2) x =
        ((1 - 1 / 2) * 1 * (3 * x / (2 * x + 1)) + 1 / 2 * 2 * (3 * x / (2 * x + 2))) /
        ((1 - 1 / 2) * (3 * x / (2 * x + 1)) + 1 / 2 * (3 * x / (2 * x + 2))) := by
      intro x
      simp [step, getR]
    have h1 : transform ({ cfg := ⟨1, 2, 1, 1, 1, 1⟩ } : Obj 1) (fun _ => 1 / 2) =
        ({ cfg := ⟨1, 2, 1, 1, 1, 1⟩, tol := some 1,
           sigstart := some fun _ => step ⟨1, 2, 1, 1, 1, 1⟩ (1 / 2) (17 / 12) },
          .ok fun _ => step ⟨1, 2, 1, 1, 1, 1⟩ (1 / 2) (17 / 12)) := by
      have e : ({ cfg := ⟨1, 2, 1, 1, 1, 1⟩, tol := some 1 } : Obj 1).start (fun _ => 1 / 2) =
          fun _ => 17 / 12 := by
        funext i
        simp [Obj.start, wiener]
        norm_num
      have et : ({ cfg := ⟨1, 2, 1, 1, 1, 1⟩ } : Obj 1).tolOf = 1 := by simp [Obj.tolOf]
      have et' : ({ cfg := ⟨1, 2, 1, 1, 1, 1⟩, tol := some 1 } : Obj 1).tolOf = 1 := by
        simp [Obj.tolOf]
      have hcv : |step ⟨1, 2, 1, 1, 1, 1⟩ (1 / 2) (17 / 12) - 17 / 12| ≤ 1 := by
        rw [hstep]; norm_num [abs_le]
      unfold transform
      rw [if_neg (by simp)]
      simp only [et, et', e, loop]
      simp only [hcv, implies_true, if_true]
      simp
    rw [h1]
    unfold transform
    rw [if_neg (by simp)]
    simp only [loop, Obj.tolOf, Obj.start, Option.getD_some]
    intro h
    have h' : step ⟨1, 2, 1, 1, 1, 1⟩ (1 / 2) (step ⟨1, 2, 1, 1, 1, 1⟩ (1 / 2) (17 / 12)) =
        step ⟨1, 2, 1, 1, 1, 1⟩ (1 / 2) (17 / 12) := by
      split at h <;> exact congrFun (Except.ok.inj h) 0
    rw [hstep (17 / 12), hstep] at h'
    norm_num at h'

/-- C58 (violation). The absolute tolerance is that of the first call, also after a conductivity
was changed. -/
theorem C58_tolerance_stale {n : Nat} (c : Cfg) (hk : c.maxIter ≠ 0) (phi : Fin n → ℝ) (v : ℝ) :
    ((transform ({ cfg := c } : Obj n) phi).1.setSigma0 v).tolOf = c.relTol * min c.s0 c.s1 := by
  unfold transform
  rw [if_neg hk]
  simp only
  split <;> simp [Obj.setSigma0, Obj.tolOf]

/-- C58 (violation). A fraction outside [0, 1] in one cell changes the fraction used in all cells. -/
theorem C58_out_of_range : clip [2, 1 / 4] = [5 / 8] := by decide +kernel

example : Good ⟨1, 2, 1 / 2, 3, 1 / 1000, 50⟩ := by norm_num [Good]

end Props
end Verif.Maps.EffectiveMedium
