import Verif.Maps.EffectiveConverge
import Mathlib.LinearAlgebra.Matrix.NonsingularInverse
import Mathlib.Data.Matrix.Mul
import Mathlib.Topology.Instances.Matrix

/-! Model of `SelfConsistentEffectiveMedium` with aligned inclusions
(`simpeg/maps/_property_maps.py` 1378-1477, `random=False`), for C58. -/

noncomputable section
namespace Verif.Maps.EffectiveMedium.Aligned
open Verif Verif.Maps.EffectiveMedium Matrix Filter Topology

/-- Three by three matrices. -/
abbrev M3 := Matrix (Fin 3) (Fin 3) ℝ

/-- `*` of two arrays in numpy: entry by entry. -/
def hmul (a b : M3) : M3 := Matrix.of fun i j => a i j * b i j

/-- `getA` (1378-1383); `R` is the matrix of `rotation_matrix_from_normals`. -/
def getA (alpha : ℝ) (R : M3) : M3 :=
  Rᵀ * diagonal ![getQ alpha, getQ alpha, 1 - 2 * getQ alpha] * R

/-- `getR` (1397-1402), anisotropic branch, with the tensor of `getA`. -/
def getR (sj : ℝ) (se : M3) (A : M3) : M3 :=
  (1 + hmul (hmul A se⁻¹) (sj • (1 : M3) - se))⁻¹

/-- One pass of the loop (1453-1463). `p j` is the fraction in column `j`: numpy spreads a single
fraction over the columns, and the fractions of three cells one to each column; other numbers of
cells are a `ValueError` and not modelled. -/
def stepM (s0 s1 : ℝ) (A0 A1 : M3) (p : Fin 3 → ℝ) (se : M3) : M3 :=
  let R0 := getR s0 se A0
  let R1 := getR s1 se A1
  let den : M3 := Matrix.of fun i j => (1 - p j) * R0 i j + p j * R1 i j
  let num : M3 := Matrix.of fun i j => (1 - p j) * s0 * R0 i j + p j * s1 * R1 i j
  hmul num den⁻¹

open Classical in
/-- The loop (1452-1477) with the test on the largest entry of the change (1464). -/
def loopM (s0 s1 : ℝ) (A0 A1 : M3) (p : Fin 3 → ℝ) (tol : ℝ) : Nat → M3 → M3 × Bool
  | 0, s => (s, false)
  | k + 1, s =>
    let s2 := stepM s0 s1 A0 A1 p s
    if ∀ i j, |s2 i j - s i j| ≤ tol then (s2, true) else loopM s0 s1 A0 A1 p tol k s2

namespace Props
open Verif.Maps.EffectiveMedium.Props

/-! ### Specification -/

/-- The balance of the two phases along one axis, for depolarization factors `a0` and `a1`. -/
def BalancedAxis (s0 s1 a0 a1 p x : ℝ) : Prop :=
  (1 - p) * ((s0 - x) / (x + a0 * (s0 - x))) + p * ((s1 - x) / (x + a1 * (s1 - x))) = 0

/-! ### A fixed point iteration that shrinks ratios -/

theorem iterate_tendsto (g : ℝ → ℝ) (m M z : ℝ) (hm : 0 < m) (hz : 0 < z) (fz : g z = z)
    (hb : ∀ x, 0 < x → m ≤ g x ∧ g x ≤ M) (hc : ∀ x, 0 < x → ContinuousAt g x)
    (hr : ∀ x y, 0 < x → x < y → g y * x < g x * y ∧ g x * x < g y * y) (x : ℝ) (hx : 0 < x) :
    Tendsto (fun k => g^[k] x) atTop (𝓝 z) := by
  have gpos : ∀ x, 0 < x → 0 < g x := fun x hx => hm.trans_le (hb x hx).1
  have closer : ∀ x, 0 < x → x ≠ z →
      |Real.log (g x) - Real.log z| < |Real.log x - Real.log z| := by
    intro x hx hne
    have hg := gpos x hx
    rcases lt_or_gt_of_ne hne with h | h
    · obtain ⟨h1, h2⟩ := hr x z hx h
      rw [fz] at h1 h2
      have h1' : x < g x := by nlinarith
      have l1 := Real.log_lt_log hx h1'
      have l2 := Real.log_lt_log (mul_pos hg hx) h2
      rw [Real.log_mul hg.ne' hx.ne', Real.log_mul hz.ne' hz.ne'] at l2
      have l3 := Real.log_lt_log hx h
      rw [abs_of_neg (show Real.log x - Real.log z < 0 by linarith), abs_lt]
      constructor <;> linarith
    · obtain ⟨h1, h2⟩ := hr z x hz h
      rw [fz] at h1 h2
      have h1' : g x < x := by nlinarith
      have l1 := Real.log_lt_log hg h1'
      have l2 := Real.log_lt_log (mul_pos hz hz) h2
      rw [Real.log_mul hg.ne' hx.ne', Real.log_mul hz.ne' hz.ne'] at l2
      have l3 := Real.log_lt_log hz h
      rw [abs_of_pos (show 0 < Real.log x - Real.log z by linarith), abs_lt]
      constructor <;> linarith
  set u : Nat → ℝ := fun k => g^[k] x with hu
  have usucc : ∀ k, u (k + 1) = g (u k) := fun k => Function.iterate_succ_apply' _ _ _
  have upos : ∀ k, 0 < u k := by
    intro k
    induction k with
    | zero => exact hx
    | succ k ih => rw [usucc]; exact gpos _ ih
  set d : Nat → ℝ := fun k => |Real.log (u k) - Real.log z| with hd
  have danti : Antitone d := by
    refine antitone_nat_of_succ_le fun k => ?_
    simp only [hd, usucc]
    by_cases h : u k = z
    · rw [h, fz]
    · exact (closer _ (upos k) h).le
  have dbdd : BddBelow (Set.range d) := ⟨0, by rintro _ ⟨k, rfl⟩; exact abs_nonneg _⟩
  have dlim := tendsto_atTop_ciInf danti dbdd
  set L := ⨅ k, d k with hL
  have hmem : ∀ k, u (k + 1) ∈ Set.Icc m M := by
    intro k
    rw [usucc]
    exact hb _ (upos k)
  obtain ⟨y, hy, φ, hφ, hlim⟩ := isCompact_Icc.tendsto_subseq hmem
  have hy0 : 0 < y := hm.trans_le hy.1
  have lim1 : Tendsto (fun k => d (φ k + 1)) atTop (𝓝 |Real.log y - Real.log z|) := by
    have := ((Real.continuousAt_log hy0.ne').tendsto.comp hlim).sub_const (Real.log z)
    exact this.abs
  have lim1' : Tendsto (fun k => d (φ k + 1)) atTop (𝓝 L) :=
    dlim.comp ((tendsto_add_atTop_nat 1).comp hφ.tendsto_atTop)
  have lim2 : Tendsto (fun k => d (φ k + 1 + 1)) atTop (𝓝 |Real.log (g y) - Real.log z|) := by
    have h1 := (hc y hy0).tendsto.comp hlim
    have h2 := ((Real.continuousAt_log (gpos y hy0).ne').tendsto.comp h1).sub_const (Real.log z)
    refine h2.abs.congr fun k => ?_
    simp only [hd, Function.comp, usucc]
  have lim2' : Tendsto (fun k => d (φ k + 1 + 1)) atTop (𝓝 L) :=
    dlim.comp ((tendsto_add_atTop_nat 1).comp ((tendsto_add_atTop_nat 1).comp hφ.tendsto_atTop))
  have e1 := tendsto_nhds_unique lim1 lim1'
  have e2 := tendsto_nhds_unique lim2 lim2'
  have hyz : y = z := by
    by_contra h
    have := closer y hy0 h
    rw [e1, e2] at this
    exact lt_irrefl _ this
  have hL0 : L = 0 := by rw [← e1, hyz]; simp
  rw [hL0] at dlim
  have dl : Tendsto (fun k => Real.log (u k)) atTop (𝓝 (Real.log z)) := by
    rw [tendsto_iff_dist_tendsto_zero]
    exact dlim
  have := (Real.continuous_exp.tendsto _).comp dl
  rw [Real.exp_log hz] at this
  refine this.congr fun k => ?_
  simp only [Function.comp, Real.exp_log (upos k)]

/-! ### One axis -/

/-- The denominator of the concentration along an axis. -/
def dn (s a x : ℝ) : ℝ := x + a * (s - x)

theorem dn_pos {s a x : ℝ} (hs : 0 < s) (hx : 0 < x) (h0 : 0 ≤ a) (h1 : a ≤ 1) : 0 < dn s a x := by
  have e : dn s a x = (1 - a) * x + a * s := by unfold dn; ring
  rw [e]
  rcases eq_or_lt_of_le h0 with h | h
  · rw [← h]; linarith
  · have := mul_pos h hs
    have := mul_nonneg (show 0 ≤ 1 - a by linarith) hx.le
    linarith

/-- One pass along an axis. -/
def axis (s0 s1 a0 a1 p x : ℝ) : ℝ :=
  ((1 - p) * (s0 / dn s0 a0 x) + p * (s1 / dn s1 a1 x)) /
    ((1 - p) * (1 / dn s0 a0 x) + p * (1 / dn s1 a1 x))

structure Ax (s0 s1 a0 a1 p : ℝ) : Prop where
  s0 : 0 < s0
  s1 : 0 < s1
  a0 : 0 ≤ a0 ∧ a0 ≤ 1
  a1 : 0 ≤ a1 ∧ a1 ≤ 1
  p : 0 ≤ p ∧ p ≤ 1

theorem mix_pos {p u v : ℝ} (hp : 0 ≤ p ∧ p ≤ 1) (hu : 0 < u) (hv : 0 < v) :
    0 < (1 - p) * u + p * v := by
  have := mix_lt hp.1 hp.2 hu hv
  linarith

variable {s0 s1 a0 a1 p : ℝ}

theorem axis_den_pos (h : Ax s0 s1 a0 a1 p) {x : ℝ} (hx : 0 < x) :
    0 < (1 - p) * (1 / dn s0 a0 x) + p * (1 / dn s1 a1 x) :=
  mix_pos h.p (one_div_pos.mpr (dn_pos h.s0 hx h.a0.1 h.a0.2))
    (one_div_pos.mpr (dn_pos h.s1 hx h.a1.1 h.a1.2))

theorem axis_between (h : Ax s0 s1 a0 a1 p) {x : ℝ} (hx : 0 < x) :
    min s0 s1 ≤ axis s0 s1 a0 a1 p x ∧ axis s0 s1 a0 a1 p x ≤ max s0 s1 := by
  have d := axis_den_pos h hx
  have w0 : 0 ≤ (1 - p) * (1 / dn s0 a0 x) := mul_nonneg (by linarith [h.p.2])
    (one_div_pos.mpr (dn_pos h.s0 hx h.a0.1 h.a0.2)).le
  have w1 : 0 ≤ p * (1 / dn s1 a1 x) := mul_nonneg h.p.1
    (one_div_pos.mpr (dn_pos h.s1 hx h.a1.1 h.a1.2)).le
  unfold axis
  rw [le_div_iff₀ d, div_le_iff₀ d, div_eq_mul_one_div s0, div_eq_mul_one_div s1]
  constructor
  · nlinarith [mul_le_mul_of_nonneg_left (min_le_left s0 s1) w0,
      mul_le_mul_of_nonneg_left (min_le_right s0 s1) w1]
  · nlinarith [mul_le_mul_of_nonneg_left (le_max_left s0 s1) w0,
      mul_le_mul_of_nonneg_left (le_max_right s0 s1) w1]

theorem axis_cont (h : Ax s0 s1 a0 a1 p) {x : ℝ} (hx : 0 < x) :
    ContinuousAt (axis s0 s1 a0 a1 p) x := by
  have c0 : ContinuousAt (dn s0 a0) x := by unfold dn; fun_prop
  have c1 : ContinuousAt (dn s1 a1) x := by unfold dn; fun_prop
  have n0 := (dn_pos h.s0 hx h.a0.1 h.a0.2).ne'
  have n1 := (dn_pos h.s1 hx h.a1.1 h.a1.2).ne'
  unfold axis
  exact ContinuousAt.div
    (((continuousAt_const.div c0 n0).const_mul _).add ((continuousAt_const.div c1 n1).const_mul _))
    (((continuousAt_const.div c0 n0).const_mul _).add ((continuousAt_const.div c1 n1).const_mul _))
    (axis_den_pos h hx).ne'

theorem inv_anti {s a x y : ℝ} (hs : 0 < s) (h0 : 0 ≤ a) (h1 : a ≤ 1) (hx : 0 < x) (hxy : x < y) :
    1 / dn s a y ≤ 1 / dn s a x ∧ x * (1 / dn s a x) ≤ y * (1 / dn s a y) ∧
    (1 / dn s a y < 1 / dn s a x ∨ x * (1 / dn s a x) < y * (1 / dn s a y)) := by
  have hy := hx.trans hxy
  have dx := dn_pos hs hx h0 h1
  have dy := dn_pos hs hy h0 h1
  rw [mul_one_div, mul_one_div, div_le_div_iff₀ dy dx, div_le_div_iff₀ dx dy,
    div_lt_div_iff₀ dy dx, div_lt_div_iff₀ dx dy]
  unfold dn
  have e1 := mul_nonneg (show 0 ≤ 1 - a by linarith) (show 0 ≤ y - x by linarith)
  have e2 := mul_nonneg h0 (mul_pos hs (show 0 < y - x by linarith)).le
  refine ⟨by nlinarith, by nlinarith, ?_⟩
  rcases lt_or_eq_of_le h1 with h | h
  · left
    have := mul_pos (show 0 < 1 - a by linarith) (show 0 < y - x by linarith)
    nlinarith
  · right
    have := mul_pos hs (show 0 < y - x by linarith)
    rw [h]
    nlinarith

theorem axis_ratio (h : Ax s0 s1 a0 a1 p) (x y : ℝ) (hx : 0 < x) (hxy : x < y) :
    axis s0 s1 a0 a1 p y * x < axis s0 s1 a0 a1 p x * y ∧
    axis s0 s1 a0 a1 p x * x < axis s0 s1 a0 a1 p y * y := by
  have hy := hx.trans hxy
  obtain ⟨u1, u2, u3⟩ := inv_anti h.s0 h.a0.1 h.a0.2 hx hxy
  obtain ⟨v1, v2, v3⟩ := inv_anti h.s1 h.a1.1 h.a1.2 hx hxy
  have dx := axis_den_pos h hx
  have dy := axis_den_pos h hy
  have ux := one_div_pos.mpr (dn_pos h.s0 hx h.a0.1 h.a0.2)
  have uy := one_div_pos.mpr (dn_pos h.s0 hy h.a0.1 h.a0.2)
  have vx := one_div_pos.mpr (dn_pos h.s1 hx h.a1.1 h.a1.2)
  have vy := one_div_pos.mpr (dn_pos h.s1 hy h.a1.1 h.a1.2)
  unfold axis
  simp only [div_eq_mul_one_div s0, div_eq_mul_one_div s1]
  generalize 1 / dn s0 a0 x = U at *
  generalize 1 / dn s0 a0 y = U' at *
  generalize 1 / dn s1 a1 x = V at *
  generalize 1 / dn s1 a1 y = V' at *
  have hs0 := h.s0
  have hs1 := h.s1
  have hq : 0 ≤ 1 - p := by linarith [h.p.2]
  have nx : 0 < (1 - p) * (s0 * U) + p * (s1 * V) := mix_pos h.p (by positivity) (by positivity)
  have ny : 0 < (1 - p) * (s0 * U') + p * (s1 * V') := mix_pos h.p (by positivity) (by positivity)
  have n1 : (1 - p) * (s0 * U') + p * (s1 * V') ≤ (1 - p) * (s0 * U) + p * (s1 * V) :=
    add_le_add (mul_le_mul_of_nonneg_left (mul_le_mul_of_nonneg_left u1 hs0.le) hq)
      (mul_le_mul_of_nonneg_left (mul_le_mul_of_nonneg_left v1 hs1.le) h.p.1)
  have d1 : (1 - p) * U' + p * V' ≤ (1 - p) * U + p * V :=
    add_le_add (mul_le_mul_of_nonneg_left u1 hq) (mul_le_mul_of_nonneg_left v1 h.p.1)
  have n2 : x * ((1 - p) * (s0 * U) + p * (s1 * V)) ≤ y * ((1 - p) * (s0 * U') + p * (s1 * V')) := by
    have := add_le_add (mul_le_mul_of_nonneg_left (mul_le_mul_of_nonneg_left u2 hs0.le) hq)
      (mul_le_mul_of_nonneg_left (mul_le_mul_of_nonneg_left v2 hs1.le) h.p.1)
    linarith
  have d2 : x * ((1 - p) * U + p * V) ≤ y * ((1 - p) * U' + p * V') := by
    have := add_le_add (mul_le_mul_of_nonneg_left u2 hq) (mul_le_mul_of_nonneg_left v2 h.p.1)
    linarith
  -- one of the two phases is present, and it moves strictly
  have strict : ((1 - p) * (s0 * U') + p * (s1 * V') < (1 - p) * (s0 * U) + p * (s1 * V) ∧
        (1 - p) * U' + p * V' < (1 - p) * U + p * V) ∨
      (x * ((1 - p) * (s0 * U) + p * (s1 * V)) < y * ((1 - p) * (s0 * U') + p * (s1 * V')) ∧
        x * ((1 - p) * U + p * V) < y * ((1 - p) * U' + p * V')) := by
    rcases eq_or_lt_of_le h.p.1 with hp | hp
    · rw [← hp]
      rcases u3 with u3 | u3
      · left
        have := mul_lt_mul_of_pos_left u3 hs0
        constructor <;> linarith
      · right
        have := mul_lt_mul_of_pos_left u3 hs0
        constructor <;> linarith
    · have k1 := mul_le_mul_of_nonneg_left u1 hq
      have k2 := mul_le_mul_of_nonneg_left (mul_le_mul_of_nonneg_left u1 hs0.le) hq
      have k3 := mul_le_mul_of_nonneg_left u2 hq
      have k4 := mul_le_mul_of_nonneg_left (mul_le_mul_of_nonneg_left u2 hs0.le) hq
      rcases v3 with v3 | v3
      · left
        have := mul_lt_mul_of_pos_left v3 hp
        have := mul_lt_mul_of_pos_left (mul_lt_mul_of_pos_left v3 hs1) hp
        constructor <;> linarith
      · right
        have := mul_lt_mul_of_pos_left v3 hp
        have := mul_lt_mul_of_pos_left (mul_lt_mul_of_pos_left v3 hs1) hp
        constructor <;> linarith
  generalize (1 - p) * (s0 * U) + p * (s1 * V) = Nx at *
  generalize (1 - p) * (s0 * U') + p * (s1 * V') = Ny at *
  generalize (1 - p) * U + p * V = Dx at *
  generalize (1 - p) * U' + p * V' = Dy at *
  rw [div_mul_eq_mul_div, div_mul_eq_mul_div, div_lt_div_iff₀ dy dx, div_mul_eq_mul_div,
    div_mul_eq_mul_div, div_lt_div_iff₀ dx dy]
  have xD : 0 < x * Dx := mul_pos hx dx
  have yD : 0 < y * Dy := mul_pos hy dy
  have xN : 0 < x * Nx := mul_pos hx nx
  have yN : 0 < y * Ny := mul_pos hy ny
  rcases strict with ⟨a, b⟩ | ⟨a, b⟩
  · constructor
    · calc Ny * x * Dx = Ny * (x * Dx) := by ring
        _ < Nx * (x * Dx) := mul_lt_mul_of_pos_right a xD
        _ ≤ Nx * (y * Dy) := mul_le_mul_of_nonneg_left d2 nx.le
        _ = Nx * y * Dy := by ring
    · calc Nx * x * Dy = (x * Nx) * Dy := by ring
        _ < (x * Nx) * Dx := mul_lt_mul_of_pos_left b xN
        _ ≤ (y * Ny) * Dx := mul_le_mul_of_nonneg_right n2 dx.le
        _ = Ny * y * Dx := by ring
  · constructor
    · calc Ny * x * Dx = Ny * (x * Dx) := by ring
        _ < Ny * (y * Dy) := mul_lt_mul_of_pos_left b ny
        _ ≤ Nx * (y * Dy) := mul_le_mul_of_nonneg_right n1 yD.le
        _ = Nx * y * Dy := by ring
    · calc Nx * x * Dy = (x * Nx) * Dy := by ring
        _ < (y * Ny) * Dy := mul_lt_mul_of_pos_right a dy
        _ ≤ (y * Ny) * Dx := mul_le_mul_of_nonneg_left d1 yN.le
        _ = Ny * y * Dx := by ring

theorem axis_fix (h : Ax s0 s1 a0 a1 p) {x : ℝ} (hx : 0 < x) :
    axis s0 s1 a0 a1 p x = x ↔ BalancedAxis s0 s1 a0 a1 p x := by
  unfold axis BalancedAxis
  rw [div_eq_iff (axis_den_pos h hx).ne']
  change _ ↔ (1 - p) * ((s0 - x) / dn s0 a0 x) + p * ((s1 - x) / dn s1 a1 x) = 0
  simp only [div_eq_mul_one_div (s0 - x), div_eq_mul_one_div (s1 - x), div_eq_mul_one_div s0,
    div_eq_mul_one_div s1]
  constructor <;> intro e <;> linear_combination e

/-- A balanced conductivity exists along every axis, between those of the phases, and is unique. -/
theorem axis_exists (h : Ax s0 s1 a0 a1 p) :
    ∃ x, min s0 s1 ≤ x ∧ x ≤ max s0 s1 ∧ BalancedAxis s0 s1 a0 a1 p x := by
  have hm : 0 < min s0 s1 := lt_min h.s0 h.s1
  have hcont : ContinuousOn (fun x => axis s0 s1 a0 a1 p x - x)
      (Set.Icc (min s0 s1) (max s0 s1)) := fun x hx =>
    ((axis_cont h (hm.trans_le hx.1)).sub continuousAt_id).continuousWithinAt
  have hle : min s0 s1 ≤ max s0 s1 := min_le_max
  have lo := (axis_between h hm).1
  have hi := (axis_between h (hm.trans_le hle)).2
  obtain ⟨x, hx, e⟩ := intermediate_value_Icc' hle hcont
    (show (0 : ℝ) ∈ Set.Icc _ _ from ⟨by simpa using hi, by simpa using lo⟩)
  refine ⟨x, hx.1, hx.2, (axis_fix h (hm.trans_le hx.1)).mp ?_⟩
  simpa [sub_eq_zero] using e

/-! ### Matrices -/

theorem inv_diag (v : Fin 3 → ℝ) (hv : ∀ k, v k ≠ 0) :
    (diagonal v : M3)⁻¹ = diagonal fun k => 1 / v k := by
  refine Matrix.inv_eq_right_inv ?_
  rw [diagonal_mul_diagonal, ← diagonal_one]
  congr 1
  funext k
  rw [mul_one_div, div_self (hv k)]

theorem getR_diag (sj : ℝ) (v : Fin 3 → ℝ) (A : M3) (hs : 0 < sj) (hv : ∀ k, 0 < v k)
    (hA : ∀ k, 0 ≤ A k k ∧ A k k ≤ 1) :
    getR sj (diagonal v) A = diagonal fun k => v k / dn sj (A k k) (v k) := by
  have e : (1 + hmul (hmul A (diagonal v : M3)⁻¹) (sj • (1 : M3) - diagonal v) : M3) =
      diagonal fun k => dn sj (A k k) (v k) / v k := by
    rw [inv_diag v fun k => (hv k).ne']
    ext i j
    by_cases h : i = j
    · subst h
      have := (hv i).ne'
      simp [hmul, dn]
      field_simp
    · simp [hmul, h]
  unfold getR
  rw [e, inv_diag]
  · congr 1
    funext k
    rw [one_div_div]
  · intro k
    exact (div_pos (dn_pos hs (hv k) (hA k).1 (hA k).2) (hv k)).ne'

/-- Settings for which the theorems hold: positive conductivities, fractions between 0 and 1, and
depolarization tensors with diagonal entries between 0 and 1. -/
structure GoodA (s0 s1 : ℝ) (A0 A1 : M3) (p : Fin 3 → ℝ) : Prop where
  s0 : 0 < s0
  s1 : 0 < s1
  A0 : ∀ k, 0 ≤ A0 k k ∧ A0 k k ≤ 1
  A1 : ∀ k, 0 ≤ A1 k k ∧ A1 k k ≤ 1
  p : ∀ k, 0 ≤ p k ∧ p k ≤ 1

theorem GoodA.ax {s0 s1 : ℝ} {A0 A1 : M3} {p : Fin 3 → ℝ} (h : GoodA s0 s1 A0 A1 p) (k : Fin 3) :
    Ax s0 s1 (A0 k k) (A1 k k) (p k) := ⟨h.s0, h.s1, h.A0 k, h.A1 k, h.p k⟩

theorem stepM_diag {s0 s1 : ℝ} {A0 A1 : M3} {p : Fin 3 → ℝ} (h : GoodA s0 s1 A0 A1 p)
    (v : Fin 3 → ℝ) (hv : ∀ k, 0 < v k) :
    stepM s0 s1 A0 A1 p (diagonal v) =
      diagonal fun k => axis s0 s1 (A0 k k) (A1 k k) (p k) (v k) := by
  have hden : (Matrix.of fun i j => (1 - p j) * getR s0 (diagonal v) A0 i j +
      p j * getR s1 (diagonal v) A1 i j : M3) =
      diagonal fun k => v k * ((1 - p k) * (1 / dn s0 (A0 k k) (v k)) +
        p k * (1 / dn s1 (A1 k k) (v k))) := by
    rw [getR_diag s0 v A0 h.s0 hv h.A0, getR_diag s1 v A1 h.s1 hv h.A1]
    ext i j
    by_cases hij : i = j
    · subst hij
      simp
      ring
    · simp [hij]
  unfold stepM
  simp only
  rw [hden, inv_diag]
  · rw [getR_diag s0 v A0 h.s0 hv h.A0, getR_diag s1 v A1 h.s1 hv h.A1]
    ext i j
    by_cases hij : i = j
    · subst hij
      have hd := (axis_den_pos (h.ax i) (hv i)).ne'
      have hvi := (hv i).ne'
      simp only [hmul, of_apply, diagonal_apply_eq]
      unfold axis
      rw [mul_one_div, ← mul_div_mul_left _ ((1 - p i) * (1 / dn s0 (A0 i i) (v i)) +
        p i * (1 / dn s1 (A1 i i) (v i))) hvi]
      congr 1
      ring
    · simp [hmul, hij]
  · intro k
    exact (mul_pos (hv k) (axis_den_pos (h.ax k) (hv k))).ne'

/-- The tensor of `getA` has diagonal entries between 0 and 1 for every rotation. -/
theorem C58_aligned_tensor (alpha : ℝ) (ha : 0 < alpha) (R : M3) (hR : Rᵀ * R = 1) (k : Fin 3) :
    0 ≤ getA alpha R k k ∧ getA alpha R k k ≤ 1 := by
  obtain ⟨q0, q1⟩ := C58_shape_factor alpha ha
  have e : getA alpha R k k = R 0 k ^ 2 * getQ alpha + R 1 k ^ 2 * getQ alpha +
      R 2 k ^ 2 * (1 - 2 * getQ alpha) := by
    simp [getA, Matrix.mul_apply, Fin.sum_univ_three]
    ring
  have n : R 0 k ^ 2 + R 1 k ^ 2 + R 2 k ^ 2 = 1 := by
    have := congrFun (congrFun hR k) k
    simp [Matrix.mul_apply, Fin.sum_univ_three] at this
    linarith
  rw [e]
  constructor
  · have := mul_nonneg (sq_nonneg (R 2 k)) (show 0 ≤ 1 - 2 * getQ alpha by linarith)
    positivity
  · nlinarith [sq_nonneg (R 0 k), sq_nonneg (R 1 k), sq_nonneg (R 2 k),
      mul_nonneg (sq_nonneg (R 0 k)) (show 0 ≤ 1 - getQ alpha by linarith),
      mul_nonneg (sq_nonneg (R 1 k)) (show 0 ≤ 1 - getQ alpha by linarith),
      mul_nonneg (sq_nonneg (R 2 k)) q0]

theorem stepM_iterate {s0 s1 : ℝ} {A0 A1 : M3} {p : Fin 3 → ℝ} (h : GoodA s0 s1 A0 A1 p)
    (v : Fin 3 → ℝ) (hv : ∀ k, 0 < v k) (n : Nat) :
    (stepM s0 s1 A0 A1 p)^[n] (diagonal v) =
      diagonal (fun k => (axis s0 s1 (A0 k k) (A1 k k) (p k))^[n] (v k)) ∧
    ∀ k, 0 < (axis s0 s1 (A0 k k) (A1 k k) (p k))^[n] (v k) := by
  induction n with
  | zero => exact ⟨rfl, hv⟩
  | succ n ih =>
    obtain ⟨e, pos⟩ := ih
    constructor
    · rw [Function.iterate_succ_apply', e, stepM_diag h _ pos]
      congr 1
      funext k
      rw [Function.iterate_succ_apply']
    · intro k
      rw [Function.iterate_succ_apply']
      exact (lt_min h.s0 h.s1).trans_le (axis_between (h.ax k) (pos k)).1

/-- C58 (aligned inclusions). From every positive diagonal start the passes converge to the diagonal
tensor whose entries are the balanced conductivities along the axes; these exist and lie between
the conductivities of the phases. -/
theorem C58_aligned_iteration (s0 s1 : ℝ) (A0 A1 : M3) (p : Fin 3 → ℝ) (h : GoodA s0 s1 A0 A1 p) :
    ∃ z : Fin 3 → ℝ,
      (∀ k, min s0 s1 ≤ z k ∧ z k ≤ max s0 s1 ∧
        BalancedAxis s0 s1 (A0 k k) (A1 k k) (p k) (z k)) ∧
      ∀ v : Fin 3 → ℝ, (∀ k, 0 < v k) →
        Tendsto (fun n => (stepM s0 s1 A0 A1 p)^[n] (diagonal v)) atTop (𝓝 (diagonal z)) := by
  have hm : 0 < min s0 s1 := lt_min h.s0 h.s1
  choose z hz using fun k => axis_exists (h.ax k)
  refine ⟨z, hz, fun v hv => ?_⟩
  have hk : ∀ k, Tendsto (fun n => (axis s0 s1 (A0 k k) (A1 k k) (p k))^[n] (v k)) atTop
      (𝓝 (z k)) := by
    intro k
    have zk := hm.trans_le (hz k).1
    exact iterate_tendsto _ _ _ (z k) hm zk ((axis_fix (h.ax k) zk).mpr (hz k).2.2)
      (fun x hx => axis_between (h.ax k) hx) (fun x hx => axis_cont (h.ax k) hx)
      (axis_ratio (h.ax k)) (v k) (hv k)
  refine tendsto_pi_nhds.mpr fun i => tendsto_pi_nhds.mpr fun j => ?_
  by_cases hij : i = j
  · subst hij
    rw [diagonal_apply_eq]
    refine (hk i).congr fun n => ?_
    rw [(stepM_iterate h v hv n).1, diagonal_apply_eq]
  · rw [diagonal_apply_ne _ hij]
    refine tendsto_const_nhds.congr fun n => ?_
    rw [(stepM_iterate h v hv n).1, diagonal_apply_ne _ hij]

open Classical in
theorem loopM_succ (s0 s1 : ℝ) (A0 A1 : M3) (p : Fin 3 → ℝ) (tol : ℝ) (k : Nat) (s : M3) :
    loopM s0 s1 A0 A1 p tol (k + 1) s =
      if ∀ i j, |stepM s0 s1 A0 A1 p s i j - s i j| ≤ tol then (stepM s0 s1 A0 A1 p s, true)
      else loopM s0 s1 A0 A1 p tol k (stepM s0 s1 A0 A1 p s) := rfl

theorem loopM_stops (s0 s1 : ℝ) (A0 A1 : M3) (p : Fin 3 → ℝ) (tol : ℝ) (K : Nat) (s : M3)
    (h : ∀ i j, |(stepM s0 s1 A0 A1 p)^[K + 1] s i j - (stepM s0 s1 A0 A1 p)^[K] s i j| ≤ tol)
    (k : Nat) (hk : K < k) : (loopM s0 s1 A0 A1 p tol k s).2 = true := by
  induction K generalizing k s with
  | zero =>
    obtain ⟨k, rfl⟩ := Nat.exists_eq_succ_of_ne_zero hk.ne'
    rw [loopM_succ]
    rw [if_pos (by simpa using h)]
  | succ K ih =>
    obtain ⟨k, rfl⟩ := Nat.exists_eq_succ_of_ne_zero (Nat.ne_of_gt (Nat.zero_lt_of_lt hk))
    rw [loopM_succ]
    split
    · rfl
    · refine ih _ ?_ k (by omega)
      intro i j
      simpa only [Function.iterate_succ_apply] using h i j

/-- C58 (aligned inclusions). For every positive tolerance a large enough limit on the passes makes
the loop stop by itself. -/
theorem C58_aligned_terminates (s0 s1 : ℝ) (A0 A1 : M3) (p : Fin 3 → ℝ) (h : GoodA s0 s1 A0 A1 p)
    (tol : ℝ) (htol : 0 < tol) (v : Fin 3 → ℝ) (hv : ∀ k, 0 < v k) :
    ∃ K, ∀ k, K < k → (loopM s0 s1 A0 A1 p tol k (diagonal v)).2 = true := by
  obtain ⟨z, -, hz⟩ := C58_aligned_iteration s0 s1 A0 A1 p h
  have hl := hz v hv
  have hev : ∀ i j, ∀ᶠ K in atTop, |(stepM s0 s1 A0 A1 p)^[K + 1] (diagonal v) i j -
      (stepM s0 s1 A0 A1 p)^[K] (diagonal v) i j| ≤ tol := by
    intro i j
    have h1 := tendsto_pi_nhds.mp (tendsto_pi_nhds.mp hl i) j
    have hd := ((h1.comp (tendsto_add_atTop_nat 1)).sub h1).abs
    rw [sub_self, abs_zero] at hd
    filter_upwards [hd.eventually (gt_mem_nhds htol)] with K hK
    exact hK.le
  obtain ⟨K, hK⟩ := (eventually_all.mpr fun i => eventually_all.mpr (hev i)).exists
  exact ⟨K, loopM_stops s0 s1 A0 A1 p tol K _ hK⟩

/-- C58 (aligned inclusions). Whether the loop stops by itself or runs out of passes, the result is
diagonal, with entries between the conductivities of the phases. -/
theorem C58_aligned_between (s0 s1 : ℝ) (A0 A1 : M3) (p : Fin 3 → ℝ) (h : GoodA s0 s1 A0 A1 p)
    (tol : ℝ) (k : Nat) (v : Fin 3 → ℝ) (hv : ∀ k, 0 < v k) :
    ∃ r : Fin 3 → ℝ, (loopM s0 s1 A0 A1 p tol (k + 1) (diagonal v)).1 = diagonal r ∧
      ∀ i, min s0 s1 ≤ r i ∧ r i ≤ max s0 s1 := by
  induction k generalizing v with
  | zero =>
    refine ⟨fun k => axis s0 s1 (A0 k k) (A1 k k) (p k) (v k), ?_,
      fun i => axis_between (h.ax i) (hv i)⟩
    rw [← stepM_diag h v hv]
    rw [loopM_succ]
    split <;> rfl
  | succ k ih =>
    rw [loopM_succ]
    split
    · exact ⟨_, stepM_diag h v hv, fun i => axis_between (h.ax i) (hv i)⟩
    · rw [stepM_diag h v hv]
      exact ih _ fun i => (lt_min h.s0 h.s1).trans_le (axis_between (h.ax i) (hv i)).1

theorem near_fixed (g : ℝ → ℝ) (m M z : ℝ) (hm : 0 < m) (fix : ∀ x, 0 < x → g x = x → x = z)
    (hb : ∀ x, 0 < x → m ≤ g x ∧ g x ≤ M) (hc : ∀ x, 0 < x → ContinuousAt g x) (ε : ℝ)
    (hε : 0 < ε) :
    ∃ t, 0 < t ∧ ∀ x, 0 < x → |g x - x| ≤ t → |g x - z| < ε := by
  set K : Set ℝ := Set.Icc (m / 2) (M + 1) ∩ {x | ε / 2 ≤ |x - z|} with hK
  have hKc : IsCompact K := isCompact_Icc.inter_right (isClosed_le continuous_const (by fun_prop))
  have hKpos : ∀ x ∈ K, 0 < x := fun x hx => (half_pos hm).trans_le hx.1.1
  have hcont : ContinuousOn (fun x => |g x - x|) K := fun x hx =>
    (((hc x (hKpos x hx)).sub continuousAt_id).abs).continuousWithinAt
  have hlow : ∃ δ, 0 < δ ∧ ∀ x ∈ K, δ ≤ |g x - x| := by
    rcases K.eq_empty_or_nonempty with h | h
    · exact ⟨1, one_pos, by simp [h]⟩
    · obtain ⟨x, hx, hmin⟩ := hKc.exists_isMinOn h hcont
      refine ⟨_, ?_, fun y hy => hmin hy⟩
      rw [abs_pos, sub_ne_zero]
      intro e
      have := fix x (hKpos x hx) e
      have h2 := hx.2
      simp only [Set.mem_setOf_eq, this, sub_self, abs_zero] at h2
      linarith
  obtain ⟨δ, hδ, hδK⟩ := hlow
  refine ⟨min (min (δ / 2) (ε / 2)) (min (m / 2) 1), by positivity, ?_⟩
  intro x hx h
  have b := hb x hx
  have h1 : |g x - x| ≤ δ / 2 := h.trans ((min_le_left _ _).trans (min_le_left _ _))
  have h4 : |g x - x| ≤ ε / 2 := h.trans ((min_le_left _ _).trans (min_le_right _ _))
  have h2 : |g x - x| ≤ m / 2 := h.trans ((min_le_right _ _).trans (min_le_left _ _))
  have h3 : |g x - x| ≤ 1 := h.trans ((min_le_right _ _).trans (min_le_right _ _))
  rw [abs_le] at h2 h3
  by_cases hcon : ε / 2 ≤ |x - z|
  · have := hδK x ⟨⟨by linarith, by linarith⟩, hcon⟩
    linarith
  · push Not at hcon
    calc |g x - z| = |(g x - x) + (x - z)| := by ring_nf
      _ ≤ |g x - x| + |x - z| := abs_add_le _ _
      _ < ε := by linarith

theorem loopM_converged {s0 s1 : ℝ} {A0 A1 : M3} {p : Fin 3 → ℝ} (h : GoodA s0 s1 A0 A1 p)
    (tol : ℝ) (k : Nat) (v : Fin 3 → ℝ) (hv : ∀ k, 0 < v k)
    (hk : (loopM s0 s1 A0 A1 p tol k (diagonal v)).2 = true) :
    ∃ s : Fin 3 → ℝ, (∀ k, 0 < s k) ∧
      (loopM s0 s1 A0 A1 p tol k (diagonal v)).1 =
        diagonal (fun k => axis s0 s1 (A0 k k) (A1 k k) (p k) (s k)) ∧
      ∀ k, |axis s0 s1 (A0 k k) (A1 k k) (p k) (s k) - s k| ≤ tol := by
  induction k generalizing v with
  | zero => simp [loopM] at hk
  | succ k ih =>
    rw [loopM_succ] at hk ⊢
    split
    · rename_i hall
      refine ⟨v, hv, stepM_diag h v hv, fun k => ?_⟩
      have := hall k k
      rwa [stepM_diag h v hv, diagonal_apply_eq, diagonal_apply_eq] at this
    · rename_i hall
      rw [if_neg hall] at hk
      rw [stepM_diag h v hv] at hk ⊢
      exact ih _ (fun i => (lt_min h.s0 h.s1).trans_le (axis_between (h.ax i) (hv i)).1) hk

/-- C58 (aligned inclusions). When the loop stopped by itself, the entries are as close to the
balanced conductivities along the axes as wanted, for a small enough tolerance and every start. -/
theorem C58_aligned_accuracy (s0 s1 : ℝ) (A0 A1 : M3) (p : Fin 3 → ℝ) (h : GoodA s0 s1 A0 A1 p)
    (z : Fin 3 → ℝ)
    (hz : ∀ k, 0 < z k ∧ BalancedAxis s0 s1 (A0 k k) (A1 k k) (p k) (z k)) (ε : ℝ) (hε : 0 < ε) :
    ∃ t, 0 < t ∧ ∀ tol, tol ≤ t → ∀ v : Fin 3 → ℝ, (∀ k, 0 < v k) → ∀ k,
      (loopM s0 s1 A0 A1 p tol k (diagonal v)).2 = true →
      ∃ r : Fin 3 → ℝ, (loopM s0 s1 A0 A1 p tol k (diagonal v)).1 = diagonal r ∧
        ∀ i, |r i - z i| < ε := by
  have hm : 0 < min s0 s1 := lt_min h.s0 h.s1
  have fix : ∀ k x, 0 < x → axis s0 s1 (A0 k k) (A1 k k) (p k) x = x → x = z k := by
    intro k x hx hfx
    have fz := (axis_fix (h.ax k) (hz k).1).mpr (hz k).2
    rcases lt_trichotomy x (z k) with hl | hl | hl
    · have := (axis_ratio (h.ax k) x (z k) hx hl).1
      rw [hfx, fz] at this
      exact absurd this (by rw [mul_comm]; exact lt_irrefl _)
    · exact hl
    · have := (axis_ratio (h.ax k) (z k) x (hz k).1 hl).1
      rw [hfx, fz] at this
      exact absurd this (by rw [mul_comm]; exact lt_irrefl _)
  choose t ht htx using fun k => near_fixed _ _ _ (z k) hm (fix k)
    (fun x hx => axis_between (h.ax k) hx) (fun x hx => axis_cont (h.ax k) hx) ε hε
  obtain ⟨j, hj⟩ := Finite.exists_min t
  refine ⟨t j, ht j, ?_⟩
  intro tol htol v hv k hk
  obtain ⟨s, hs, e, hc⟩ := loopM_converged h tol k v hv hk
  exact ⟨_, e, fun i => htx i (s i) (hs i) ((hc i).trans (htol.trans (hj i)))⟩

/-- C58 (violation). Because the tensors are multiplied entry by entry, the orientation of the
inclusions counts only through the diagonal of the depolarization tensor: inclusions tilted one way
and the other give the same diagonal result, after any number of passes. -/
theorem C58_aligned_violated_orientation (s0 s1 : ℝ) (A0 A1 B0 B1 : M3) (p : Fin 3 → ℝ)
    (h : GoodA s0 s1 A0 A1 p) (e0 : ∀ k, A0 k k = B0 k k) (e1 : ∀ k, A1 k k = B1 k k) (tol : ℝ)
    (k : Nat) (v : Fin 3 → ℝ) (hv : ∀ k, 0 < v k) :
    loopM s0 s1 A0 A1 p tol k (diagonal v) = loopM s0 s1 B0 B1 p tol k (diagonal v) := by
  have h' : GoodA s0 s1 B0 B1 p := ⟨h.s0, h.s1, fun k => by rw [← e0]; exact h.A0 k,
    fun k => by rw [← e1]; exact h.A1 k, h.p⟩
  have step : ∀ v : Fin 3 → ℝ, (∀ k, 0 < v k) →
      stepM s0 s1 A0 A1 p (diagonal v) = stepM s0 s1 B0 B1 p (diagonal v) := by
    intro v hv
    rw [stepM_diag h v hv, stepM_diag h' v hv]
    simp only [e0, e1]
  induction k generalizing v with
  | zero => rfl
  | succ k ih =>
    rw [loopM_succ, loopM_succ, ← step v hv]
    split
    · rfl
    · rw [stepM_diag h v hv]
      exact ih _ fun i => (lt_min h.s0 h.s1).trans_le (axis_between (h.ax i) (hv i)).1

/-- The tensors of inclusions tilted one way and the other are different and have the same
diagonal. -/
theorem C58_aligned_violated_tilt (q c s : ℝ) (alpha : ℝ) (hq : getQ alpha = q) :
    let R : M3 := !![c, 0, -s; 0, 1, 0; s, 0, c]
    let R' : M3 := !![c, 0, s; 0, 1, 0; -s, 0, c]
    (∀ k, getA alpha R k k = getA alpha R' k k) ∧
    getA alpha R 0 2 = s * c * (1 - 3 * q) ∧ getA alpha R' 0 2 = -(s * c * (1 - 3 * q)) := by
  intro R R'
  refine ⟨?_, ?_, ?_⟩
  · intro k
    fin_cases k <;> simp [getA, R, R', Matrix.mul_apply, Fin.sum_univ_three]
  · simp [getA, R, Matrix.mul_apply, Fin.sum_univ_three, hq]; ring
  · simp [getA, R', Matrix.mul_apply, Fin.sum_univ_three, hq]; ring

/-- C58 (violation). Given the fractions of three cells, the map returns one tensor, whose entry
along axis `k` is that of cell `k` alone. -/
theorem C58_aligned_violated_cells (s0 s1 : ℝ) (A0 A1 : M3) (p q : Fin 3 → ℝ) (k : Fin 3)
    (h : GoodA s0 s1 A0 A1 p) (h' : GoodA s0 s1 A0 A1 q) (e : p k = q k) (v : Fin 3 → ℝ)
    (hv : ∀ k, 0 < v k) (n : Nat) :
    (stepM s0 s1 A0 A1 p)^[n] (diagonal v) k k = (stepM s0 s1 A0 A1 q)^[n] (diagonal v) k k := by
  rw [(stepM_iterate h v hv n).1, (stepM_iterate h' v hv n).1, diagonal_apply_eq,
    diagonal_apply_eq, e]

/-- Spheres: the tensor is a third of the identity, and the settings are good. -/
example : GoodA 1 (7 / 2) (getA 1 1) (getA 1 1) (fun _ => 1 / 2) := by
  refine ⟨by norm_num, by norm_num, ?_, ?_, fun k => by norm_num⟩ <;>
  exact fun k => C58_aligned_tensor 1 one_pos 1 (by simp) k

/-- Spheres in equal parts balance at 2 along every axis, as without alignment. -/
example : BalancedAxis 1 (7 / 2) (1 / 3) (1 / 3) (1 / 2) 2 := by norm_num [BalancedAxis]

end Props
end Verif.Maps.EffectiveMedium.Aligned
