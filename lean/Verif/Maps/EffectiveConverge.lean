import Verif.Maps.EffectiveMedium
import Mathlib.Topology.Order.MonotoneConvergence
import Mathlib.Topology.MetricSpace.Sequences

/-! Convergence of the fixed point iteration of `SelfConsistentEffectiveMedium`
(`simpeg/maps/_property_maps.py` 1431-1477, modelled in `EffectiveMedium`). -/

noncomputable section
namespace Verif.Maps.EffectiveMedium.Props
open Verif Filter Topology

/-- `getR` without its factor `se / 3`. -/
def hh (sj x a : ℝ) : ℝ :=
  2 / ((1 - getQ a) * x + getQ a * sj) + 1 / ((1 - 2 * getQ a) * sj + 2 * getQ a * x)

theorem hh_pos {sj x a : ℝ} (hj : 0 < sj) (hx : 0 < x) (ha : 0 < a) : 0 < hh sj x a := by
  have h1 := denA_pos hj hx ha
  have h2 := denB_pos hj hx ha
  unfold hh
  positivity

theorem hh_anti {sj a x y : ℝ} (hj : 0 < sj) (ha : 0 < a) (hx : 0 < x) (hxy : x < y) :
    hh sj y a < hh sj x a := by
  have hy : 0 < y := hx.trans hxy
  obtain ⟨q0, q1⟩ := C58_shape_factor a ha
  have ax := denA_pos (se := x) hj hx ha
  have ay := denA_pos (se := y) hj hy ha
  have bx := denB_pos (se := x) hj hx ha
  have by' := denB_pos (se := y) hj hy ha
  unfold hh
  refine add_lt_add_of_lt_of_le ?_ ?_
  · rw [div_lt_div_iff₀ ay ax]
    nlinarith
  · rw [div_le_div_iff₀ by' bx]
    nlinarith

theorem hh_mul {sj a x y : ℝ} (hj : 0 < sj) (ha : 0 < a) (hx : 0 < x) (hxy : x < y) :
    x * hh sj x a < y * hh sj y a := by
  have hy : 0 < y := hx.trans hxy
  obtain ⟨q0, q1⟩ := C58_shape_factor a ha
  have ax := denA_pos (se := x) hj hx ha
  have ay := denA_pos (se := y) hj hy ha
  have bx := denB_pos (se := x) hj hx ha
  have by' := denB_pos (se := y) hj hy ha
  have e : ∀ (z A B : ℝ), z * (2 / A + 1 / B) = 2 * z / A + z / B := by intro z A B; ring
  unfold hh
  rw [e, e]
  have hs : 0 < sj * (y - x) := mul_pos hj (by linarith)
  rcases eq_or_lt_of_le q0 with h | h
  · refine add_lt_add_of_le_of_lt ?_ ?_
    · rw [div_le_div_iff₀ ax ay]
      nlinarith [mul_nonneg q0 hs.le]
    · rw [div_lt_div_iff₀ bx by', ← h]
      nlinarith
  · refine add_lt_add_of_lt_of_le ?_ ?_
    · rw [div_lt_div_iff₀ ax ay]
      nlinarith [mul_pos h hs]
    · rw [div_le_div_iff₀ bx by']
      nlinarith [mul_nonneg (show 0 ≤ 1 - 2 * getQ a by linarith) hs.le]

/-- A mean of two numbers, weighted with the fractions. -/
theorem mix_lt {p u v u' v' : ℝ} (hp : 0 ≤ p) (hp' : p ≤ 1) (hu : u < u') (hv : v < v') :
    (1 - p) * u + p * v < (1 - p) * u' + p * v' := by
  rcases eq_or_lt_of_le hp with h | h
  · rw [← h]; linarith
  · have := mul_lt_mul_of_pos_left hv h
    have := mul_le_mul_of_nonneg_left hu.le (show 0 ≤ 1 - p by linarith)
    linarith

theorem step_eq (c : Cfg) (hc : Good c) (p : ℝ) {x : ℝ} (hx : 0 < x) :
    step c p x = ((1 - p) * (c.s0 * hh c.s0 x c.a0) + p * (c.s1 * hh c.s1 x c.a1)) /
      ((1 - p) * hh c.s0 x c.a0 + p * hh c.s1 x c.a1) := by
  unfold step
  simp only
  rw [getR_eq _ _ _ hc.1 hx, getR_eq _ _ _ hc.2.1 hx]
  rw [← mul_div_mul_left _ ((1 - p) * hh c.s0 x c.a0 + p * hh c.s1 x c.a1)
    (show x / 3 ≠ 0 by positivity)]
  unfold hh
  congr 1 <;> ring

theorem den_pos (c : Cfg) (hc : Good c) {p x : ℝ} (hp : 0 ≤ p) (hp' : p ≤ 1) (hx : 0 < x) :
    0 < (1 - p) * hh c.s0 x c.a0 + p * hh c.s1 x c.a1 := by
  have := mix_lt hp hp' (hh_pos hc.1 hx hc.2.2.1) (hh_pos hc.2.1 hx hc.2.2.2)
  linarith

theorem num_pos (c : Cfg) (hc : Good c) {p x : ℝ} (hp : 0 ≤ p) (hp' : p ≤ 1) (hx : 0 < x) :
    0 < (1 - p) * (c.s0 * hh c.s0 x c.a0) + p * (c.s1 * hh c.s1 x c.a1) := by
  have := mix_lt hp hp' (mul_pos hc.1 (hh_pos hc.1 hx hc.2.2.1))
    (mul_pos hc.2.1 (hh_pos hc.2.1 hx hc.2.2.2))
  linarith

theorem step_pos (c : Cfg) (hc : Good c) {p x : ℝ} (hp : 0 ≤ p) (hp' : p ≤ 1) (hx : 0 < x) :
    0 < step c p x :=
  (lt_min hc.1 hc.2.1).trans_le (step_between c hc hp hp' hx).1

/-- One pass shrinks ratios. -/
theorem step_ratio (c : Cfg) (hc : Good c) {p x y : ℝ} (hp : 0 ≤ p) (hp' : p ≤ 1) (hx : 0 < x)
    (hxy : x < y) :
    step c p y * x < step c p x * y ∧ step c p x * x < step c p y * y := by
  have hy : 0 < y := hx.trans hxy
  rw [step_eq c hc p hx, step_eq c hc p hy]
  have dx := den_pos c hc hp hp' hx
  have dy := den_pos c hc hp hp' hy
  have nx := num_pos c hc hp hp' hx
  have ny := num_pos c hc hp hp' hy
  have n1 := mix_lt hp hp' (mul_lt_mul_of_pos_left (hh_anti hc.1 hc.2.2.1 hx hxy) hc.1)
    (mul_lt_mul_of_pos_left (hh_anti hc.2.1 hc.2.2.2 hx hxy) hc.2.1)
  have d1 := mix_lt hp hp' (hh_anti hc.1 hc.2.2.1 hx hxy) (hh_anti hc.2.1 hc.2.2.2 hx hxy)
  have n2 := mix_lt hp hp' (mul_lt_mul_of_pos_left (hh_mul hc.1 hc.2.2.1 hx hxy) hc.1)
    (mul_lt_mul_of_pos_left (hh_mul hc.2.1 hc.2.2.2 hx hxy) hc.2.1)
  have d2 := mix_lt hp hp' (hh_mul hc.1 hc.2.2.1 hx hxy) (hh_mul hc.2.1 hc.2.2.2 hx hxy)
  have n2' : x * ((1 - p) * (c.s0 * hh c.s0 x c.a0) + p * (c.s1 * hh c.s1 x c.a1)) <
      y * ((1 - p) * (c.s0 * hh c.s0 y c.a0) + p * (c.s1 * hh c.s1 y c.a1)) := by linarith
  have d2' : x * ((1 - p) * hh c.s0 x c.a0 + p * hh c.s1 x c.a1) <
      y * ((1 - p) * hh c.s0 y c.a0 + p * hh c.s1 y c.a1) := by linarith
  generalize (1 - p) * (c.s0 * hh c.s0 x c.a0) + p * (c.s1 * hh c.s1 x c.a1) = Nx at *
  generalize (1 - p) * (c.s0 * hh c.s0 y c.a0) + p * (c.s1 * hh c.s1 y c.a1) = Ny at *
  generalize (1 - p) * hh c.s0 x c.a0 + p * hh c.s1 x c.a1 = Dx at *
  generalize (1 - p) * hh c.s0 y c.a0 + p * hh c.s1 y c.a1 = Dy at *
  rw [div_mul_eq_mul_div, div_mul_eq_mul_div, div_lt_div_iff₀ dy dx, div_mul_eq_mul_div,
    div_mul_eq_mul_div, div_lt_div_iff₀ dx dy]
  constructor
  · calc Ny * x * Dx = Ny * (x * Dx) := by ring
      _ < Nx * (y * Dy) := mul_lt_mul'' n1 d2' ny.le (by positivity)
      _ = Nx * y * Dy := by ring
  · calc Nx * x * Dy = (x * Nx) * Dy := by ring
      _ < (y * Ny) * Dx := mul_lt_mul'' n2' d1 (by positivity) dy.le
      _ = Ny * y * Dx := by ring

/-- C58. Every pass brings a conductivity closer to the balanced one: towards it, and by less than
the reflection at it. -/
theorem C58_closer (c : Cfg) (hc : Good c) (p : ℝ) (hp : 0 ≤ p) (hp' : p ≤ 1) (x z : ℝ)
    (hx : 0 < x) (hz : 0 < z) (hb : Balanced c p z) :
    (x < z → x < step c p x ∧ step c p x * x < z * z) ∧
    (z < x → step c p x < x ∧ z * z < step c p x * x) := by
  have fz := ((C58_unique c hc p hp hp').2 z hz).mpr hb
  constructor
  · intro h
    obtain ⟨h1, h2⟩ := step_ratio c hc hp hp' hx h
    rw [fz] at h1 h2
    exact ⟨by nlinarith, h2⟩
  · intro h
    obtain ⟨h1, h2⟩ := step_ratio c hc hp hp' hz h
    rw [fz] at h1 h2
    exact ⟨by nlinarith, h2⟩

theorem closer_log (c : Cfg) (hc : Good c) {p x z : ℝ} (hp : 0 ≤ p) (hp' : p ≤ 1)
    (hx : 0 < x) (hz : 0 < z) (hb : Balanced c p z) (hne : x ≠ z) :
    |Real.log (step c p x) - Real.log z| < |Real.log x - Real.log z| := by
  have hg := step_pos c hc hp hp' hx
  obtain ⟨k1, k2⟩ := C58_closer c hc p hp hp' x z hx hz hb
  rcases lt_or_gt_of_ne hne with h | h
  · obtain ⟨h1, h2⟩ := k1 h
    have l1 := Real.log_lt_log hx h1
    have l2 := Real.log_lt_log (mul_pos hg hx) h2
    rw [Real.log_mul hg.ne' hx.ne', Real.log_mul hz.ne' hz.ne'] at l2
    have l3 := Real.log_lt_log hx h
    rw [abs_of_neg (show Real.log x - Real.log z < 0 by linarith), abs_lt]
    constructor <;> linarith
  · obtain ⟨h1, h2⟩ := k2 h
    have l1 := Real.log_lt_log hg h1
    have l2 := Real.log_lt_log (mul_pos hz hz) h2
    rw [Real.log_mul hg.ne' hx.ne', Real.log_mul hz.ne' hz.ne'] at l2
    have l3 := Real.log_lt_log hz h
    rw [abs_of_pos (show 0 < Real.log x - Real.log z by linarith), abs_lt]
    constructor <;> linarith

theorem step_cont (c : Cfg) (hc : Good c) {p x : ℝ} (hp : 0 ≤ p) (hp' : p ≤ 1) (hx : 0 < x) :
    ContinuousAt (step c p) x := by
  have hh_cont : ∀ sj a, 0 < sj → 0 < a → ContinuousAt (fun x => hh sj x a) x := by
    intro sj a hj ha
    unfold hh
    refine ContinuousAt.add ?_ ?_
    · exact ContinuousAt.div (by fun_prop) (by fun_prop) (denA_pos hj hx ha).ne'
    · exact ContinuousAt.div (by fun_prop) (by fun_prop) (denB_pos hj hx ha).ne'
  have e : step c p =ᶠ[𝓝 x] fun x =>
      ((1 - p) * (c.s0 * hh c.s0 x c.a0) + p * (c.s1 * hh c.s1 x c.a1)) /
      ((1 - p) * hh c.s0 x c.a0 + p * hh c.s1 x c.a1) := by
    filter_upwards [lt_mem_nhds hx] with y hy
    exact step_eq c hc p hy
  refine ContinuousAt.congr ?_ e.symm
  have c0 := hh_cont _ _ hc.1 hc.2.2.1
  have c1 := hh_cont _ _ hc.2.1 hc.2.2.2
  refine ContinuousAt.div ?_ ?_ (den_pos c hc hp hp' hx).ne'
  · exact ((c0.const_mul _).const_mul _).add ((c1.const_mul _).const_mul _)
  · exact (c0.const_mul _).add (c1.const_mul _)

/-- C58. For every fraction and every positive start the passes converge to the balanced
conductivity, for all shapes. -/
theorem C58_iteration (c : Cfg) (hc : Good c) (p : ℝ) (hp : 0 ≤ p) (hp' : p ≤ 1) (x z : ℝ)
    (hx : 0 < x) (hz : 0 < z) (hb : Balanced c p z) :
    Tendsto (fun k => (step c p)^[k] x) atTop (𝓝 z) := by
  set u : Nat → ℝ := fun k => (step c p)^[k] x with hu
  have usucc : ∀ k, u (k + 1) = step c p (u k) := fun k => Function.iterate_succ_apply' _ _ _
  have upos : ∀ k, 0 < u k := by
    intro k
    induction k with
    | zero => exact hx
    | succ k ih => rw [usucc]; exact step_pos c hc hp hp' ih
  have fz := ((C58_unique c hc p hp hp').2 z hz).mpr hb
  set d : Nat → ℝ := fun k => |Real.log (u k) - Real.log z| with hd
  have danti : Antitone d := by
    refine antitone_nat_of_succ_le fun k => ?_
    simp only [hd, usucc]
    by_cases h : u k = z
    · rw [h, fz]
    · exact (closer_log c hc hp hp' (upos k) hz hb h).le
  have dbdd : BddBelow (Set.range d) := ⟨0, by rintro _ ⟨k, rfl⟩; exact abs_nonneg _⟩
  have dlim := tendsto_atTop_ciInf danti dbdd
  set L := ⨅ k, d k with hL
  have hm : 0 < min c.s0 c.s1 := lt_min hc.1 hc.2.1
  have hmem : ∀ k, u (k + 1) ∈ Set.Icc (min c.s0 c.s1) (max c.s0 c.s1) := by
    intro k
    rw [usucc]
    exact step_between c hc hp hp' (upos k)
  obtain ⟨y, hy, φ, hφ, hlim⟩ := isCompact_Icc.tendsto_subseq hmem
  have hy0 : 0 < y := hm.trans_le hy.1
  have lim1 : Tendsto (fun k => d (φ k + 1)) atTop (𝓝 |Real.log y - Real.log z|) := by
    have := ((Real.continuousAt_log hy0.ne').tendsto.comp hlim).sub_const (Real.log z)
    exact this.abs
  have lim1' : Tendsto (fun k => d (φ k + 1)) atTop (𝓝 L) :=
    dlim.comp ((tendsto_add_atTop_nat 1).comp hφ.tendsto_atTop)
  have lim2 : Tendsto (fun k => d (φ k + 1 + 1)) atTop
      (𝓝 |Real.log (step c p y) - Real.log z|) := by
    have h1 := (step_cont c hc hp hp' hy0).tendsto.comp hlim
    have h2 := ((Real.continuousAt_log (step_pos c hc hp hp' hy0).ne').tendsto.comp h1).sub_const
      (Real.log z)
    refine h2.abs.congr fun k => ?_
    simp only [hd, Function.comp, usucc]
  have lim2' : Tendsto (fun k => d (φ k + 1 + 1)) atTop (𝓝 L) :=
    dlim.comp ((tendsto_add_atTop_nat 1).comp ((tendsto_add_atTop_nat 1).comp hφ.tendsto_atTop))
  have e1 := tendsto_nhds_unique lim1 lim1'
  have e2 := tendsto_nhds_unique lim2 lim2'
  have hyz : y = z := by
    by_contra h
    have := closer_log c hc hp hp' hy0 hz hb h
    rw [e1, e2] at this
    exact lt_irrefl _ this
  have hL0 : L = 0 := by rw [← e1, hyz]; simp
  rw [hL0] at dlim
  have dl : Tendsto (fun k => Real.log (u k)) atTop (𝓝 (Real.log z)) := by
    rw [tendsto_iff_dist_tendsto_zero]
    exact dlim
  have := (Real.continuous_exp.tendsto _).comp dl
  rw [Real.exp_log hz] at this
  refine this.congr fun k => ?_
  simp only [Function.comp, Real.exp_log (upos k)]

theorem loop_stops {n : Nat} (c : Cfg) (tol : ℝ) (phi : Fin n → ℝ) (K : Nat) (s : Fin n → ℝ)
    (h : ∀ i, |(step c (phi i))^[K + 1] (s i) - (step c (phi i))^[K] (s i)| ≤ tol) (k : Nat)
    (hk : K < k) : (loop c tol phi k s).2 = true := by
  induction K generalizing k s with
  | zero =>
    obtain ⟨k, rfl⟩ := Nat.exists_eq_succ_of_ne_zero hk.ne'
    rw [loop]
    simp only
    rw [if_pos (by simpa using h)]
  | succ K ih =>
    obtain ⟨k, rfl⟩ := Nat.exists_eq_succ_of_ne_zero (Nat.ne_of_gt (Nat.zero_lt_of_lt hk))
    rw [loop]
    simp only
    split
    · rfl
    · refine ih (fun i => step c (phi i) (s i)) ?_ k (by omega)
      intro i
      simpa only [Function.iterate_succ_apply] using h i

/-- C58. For every positive tolerance a large enough limit on the passes makes the loop stop by
itself, for any number of cells, any fractions and any positive start. -/
theorem C58_terminates {n : Nat} (c : Cfg) (hc : Good c) (tol : ℝ) (htol : 0 < tol)
    (phi : Fin n → ℝ) (hphi : ∀ i, 0 ≤ phi i ∧ phi i ≤ 1) (s : Fin n → ℝ) (hs : ∀ i, 0 < s i) :
    ∃ K, ∀ k, K < k → (loop c tol phi k s).2 = true := by
  have hev : ∀ i, ∀ᶠ K in atTop,
      |(step c (phi i))^[K + 1] (s i) - (step c (phi i))^[K] (s i)| ≤ tol := by
    intro i
    obtain ⟨z, hz, _, hb⟩ := C58_exists c hc (phi i) (hphi i).1 (hphi i).2
    have hl := C58_iteration c hc (phi i) (hphi i).1 (hphi i).2 (s i) z (hs i)
      ((lt_min hc.1 hc.2.1).trans_le hz) hb
    have hd := ((hl.comp (tendsto_add_atTop_nat 1)).sub hl).abs
    rw [sub_self, abs_zero] at hd
    filter_upwards [hd.eventually (gt_mem_nhds htol)] with K hK
    exact hK.le
  obtain ⟨K, hK⟩ := (eventually_all.mpr hev).exists
  exact ⟨K, loop_stops c tol phi K s hK⟩

/-- C58. The result of a loop that stopped by itself is as close to the balanced conductivities as
wanted when the tolerance is small enough, whatever start was kept from earlier calls. -/
theorem C58_accuracy {n : Nat} (c : Cfg) (hc : Good c) (phi : Fin n → ℝ)
    (hphi : ∀ i, 0 ≤ phi i ∧ phi i ≤ 1) (z : Fin n → ℝ)
    (hz : ∀ i, 0 < z i ∧ Balanced c (phi i) (z i)) (ε : ℝ) (hε : 0 < ε) :
    ∃ t, 0 < t ∧ ∀ tol, tol ≤ t → ∀ (s : Fin n → ℝ), (∀ i, 0 < s i) → ∀ k,
      (loop c tol phi k s).2 = true → ∀ i, |(loop c tol phi k s).1 i - z i| < ε := by
  have hm : 0 < min c.s0 c.s1 := lt_min hc.1 hc.2.1
  have one : ∀ i, ∃ t, 0 < t ∧ t ≤ ε / 2 ∧ ∀ x, 0 < x → |step c (phi i) x - x| ≤ t →
      |x - z i| < ε / 2 := by
    intro i
    set K : Set ℝ := Set.Icc (min c.s0 c.s1 / 2) (max c.s0 c.s1 + 1) ∩ {x | ε / 2 ≤ |x - z i|}
      with hK
    have hKc : IsCompact K := isCompact_Icc.inter_right
      (isClosed_le continuous_const (by fun_prop))
    have hKpos : ∀ x ∈ K, 0 < x := fun x hx => (half_pos hm).trans_le hx.1.1
    have hcont : ContinuousOn (fun x => |step c (phi i) x - x|) K := fun x hx =>
      (((step_cont c hc (hphi i).1 (hphi i).2 (hKpos x hx)).sub continuousAt_id).abs
        ).continuousWithinAt
    have fix : ∀ x, 0 < x → step c (phi i) x = x → x = z i := by
      intro x hx h
      exact (C58_unique c hc (phi i) (hphi i).1 (hphi i).2).1 x (z i) hx (hz i).1
        (((C58_unique c hc (phi i) (hphi i).1 (hphi i).2).2 x hx).mp h) (hz i).2
    have hlow : ∃ δ, 0 < δ ∧ ∀ x ∈ K, δ ≤ |step c (phi i) x - x| := by
      rcases K.eq_empty_or_nonempty with h | h
      · exact ⟨1, one_pos, by simp [h]⟩
      · obtain ⟨x, hx, hmin⟩ := hKc.exists_isMinOn h hcont
        refine ⟨_, ?_, fun y hy => hmin hy⟩
        rw [abs_pos, sub_ne_zero]
        intro e
        have := fix x (hKpos x hx) e
        have h2 := hx.2
        simp only [Set.mem_setOf_eq, this, sub_self, abs_zero] at h2
        linarith
    obtain ⟨δ, hδ, hδK⟩ := hlow
    refine ⟨min (min (δ / 2) (ε / 2)) (min (min c.s0 c.s1 / 2) 1), by positivity,
      (min_le_left _ _).trans (min_le_right _ _), ?_⟩
    intro x hx h
    by_contra hcon
    push Not at hcon
    have b := step_between c hc (hphi i).1 (hphi i).2 hx
    have h1 : |step c (phi i) x - x| ≤ δ / 2 := h.trans ((min_le_left _ _).trans (min_le_left _ _))
    have h2 : |step c (phi i) x - x| ≤ min c.s0 c.s1 / 2 :=
      h.trans ((min_le_right _ _).trans (min_le_left _ _))
    have h3 : |step c (phi i) x - x| ≤ 1 := h.trans ((min_le_right _ _).trans (min_le_right _ _))
    rw [abs_le] at h2 h3
    have := hδK x ⟨⟨by linarith, by linarith⟩, hcon⟩
    linarith
  choose t ht hte htx using one
  have hmin : ∃ T, 0 < T ∧ ∀ i, T ≤ t i := by
    rcases isEmpty_or_nonempty (Fin n) with h | h
    · exact ⟨1, one_pos, fun i => (h.false i).elim⟩
    · obtain ⟨j, hj⟩ := Finite.exists_min t
      exact ⟨t j, ht j, hj⟩
  obtain ⟨T, hT, hTi⟩ := hmin
  refine ⟨T, hT, ?_⟩
  intro tol htol s hs k hk i
  obtain ⟨s', hs', hr⟩ := loop_converged c hc tol phi hphi k s hs hk
  obtain ⟨h1, h2⟩ := hr i
  have h3 := htx i (s' i) (hs' i) (by rw [← h1]; exact h2.trans (htol.trans (hTi i)))
  have h4 : |(loop c tol phi k s).1 i - s' i| ≤ ε / 2 := h2.trans (htol.trans ((hTi i).trans (hte i)))
  calc |(loop c tol phi k s).1 i - z i|
      = |((loop c tol phi k s).1 i - s' i) + (s' i - z i)| := by ring_nf
    _ ≤ |(loop c tol phi k s).1 i - s' i| + |s' i - z i| := abs_add_le _ _
    _ < ε := by linarith

/-- Spheres of conductivities 1 and 7/2 in equal parts balance at 2; a pass from 1 comes closer. -/
example : Good ⟨1, 7 / 2, 1, 1, 1 / 1000, 50⟩ ∧
    Balanced ⟨1, 7 / 2, 1, 1, 1 / 1000, 50⟩ (1 / 2) 2 ∧
    1 < step ⟨1, 7 / 2, 1, 1, 1 / 1000, 50⟩ (1 / 2) 1 ∧
    step ⟨1, 7 / 2, 1, 1, 1 / 1000, 50⟩ (1 / 2) 1 < 2 := by
  norm_num [Good, Balanced, step, getR]

end Verif.Maps.EffectiveMedium.Props
