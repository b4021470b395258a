import Mathlib.Data.Real.Basic
import Mathlib.Analysis.Calculus.Deriv.Inv
import Mathlib.Analysis.Calculus.Deriv.Add
import Mathlib.Analysis.Calculus.Deriv.Mul
import Mathlib.Tactic.FieldSimp
import Mathlib.Tactic.Linarith
import Mathlib.Tactic.Positivity

/-! Model of the bounds of `SelfConsistentEffectiveMedium`
(`simpeg/maps/_property_maps.py` 1282-1317), one entry at a time. -/

noncomputable section
namespace Verif.Utils.Bounds

/-- `wiener_bounds(phi1)` (1282-1292): lower and upper. -/
def wiener (s0 s1 p1 : ℝ) : ℝ × ℝ :=
  let p0 := 1 - p1
  (1 / (p0 / s0 + p1 / s1), p0 * s0 + p1 * s1)

/-- `hashin_shtrikman_bounds(phi1)` (1294-1317): "lower" and "upper". -/
def hashinShtrikman (s0 s1 p1 : ℝ) : ℝ × ℝ :=
  let p0 := 1 - p1
  let wu := (wiener s0 s1 p1).2
  let st := p0 * s1 + p1 * s0
  let lo := min s0 s1
  let hi := max s0 s1
  (wu - p0 * p1 * (s0 - s1) ^ 2 / (st + 2 * hi), wu - p0 * p1 * (s0 - s1) ^ 2 / (st + 2 * lo))

namespace Props

variable {s0 s1 p1 : ℝ}

theorem st_pos (h0 : 0 < s0) (h1 : 0 < s1) (hp : 0 ≤ p1) (hp' : p1 ≤ 1) :
    0 < (1 - p1) * s1 + p1 * s0 := by
  rcases eq_or_lt_of_le hp with h | h
  · rw [← h]; linarith
  · have : 0 < p1 * s0 := mul_pos h h0
    have : 0 ≤ (1 - p1) * s1 := mul_nonneg (by linarith) h1.le
    linarith

/-- The lower Wiener bound in terms of the upper. -/
theorem wiener_lower (h0 : 0 < s0) (h1 : 0 < s1) (hp : 0 ≤ p1) (hp' : p1 ≤ 1) :
    (wiener s0 s1 p1).1 = (wiener s0 s1 p1).2 -
      (1 - p1) * p1 * (s0 - s1) ^ 2 / ((1 - p1) * s1 + p1 * s0) := by
  have hst := st_pos h0 h1 hp hp'
  have e : (1 - p1) / s0 + p1 / s1 = ((1 - p1) * s1 + p1 * s0) / (s0 * s1) := by
    field_simp
  simp only [wiener, e]
  rw [eq_sub_iff_add_eq, one_div_div, ← add_div, div_eq_iff hst.ne']
  ring

/-! ### C46 -/

/-- C46. The Wiener bounds are ordered, and lie between the two conductivities. -/
theorem C46_wiener (h0 : 0 < s0) (h1 : 0 < s1) (hp : 0 ≤ p1) (hp' : p1 ≤ 1) :
    min s0 s1 ≤ (wiener s0 s1 p1).1 ∧ (wiener s0 s1 p1).1 ≤ (wiener s0 s1 p1).2 ∧
      (wiener s0 s1 p1).2 ≤ max s0 s1 := by
  have hst := st_pos h0 h1 hp hp'
  have hq : 0 ≤ 1 - p1 := by linarith
  refine ⟨?_, ?_, ?_⟩
  · have e : (wiener s0 s1 p1).1 = s0 * s1 / ((1 - p1) * s1 + p1 * s0) := by
      simp only [wiener]
      rw [one_div, show (1 - p1) / s0 + p1 / s1 = ((1 - p1) * s1 + p1 * s0) / (s0 * s1) by
        field_simp, inv_div]
    rw [e, le_div_iff₀ hst]
    rcases le_total s0 s1 with h | h
    · rw [min_eq_left h]
      nlinarith [mul_nonneg hp (mul_nonneg h0.le (sub_nonneg.mpr h))]
    · rw [min_eq_right h]
      nlinarith [mul_nonneg hq (mul_nonneg h1.le (sub_nonneg.mpr h))]
  · rw [wiener_lower h0 h1 hp hp']
    have : 0 ≤ (1 - p1) * p1 * (s0 - s1) ^ 2 / ((1 - p1) * s1 + p1 * s0) :=
      div_nonneg (mul_nonneg (mul_nonneg hq hp) (sq_nonneg _)) hst.le
    linarith
  · simp only [wiener]
    have a1 := mul_le_mul_of_nonneg_left (le_max_left s0 s1) hq
    have a2 := mul_le_mul_of_nonneg_left (le_max_right s0 s1) hp
    linarith

/-- C46. Both Hashin–Shtrikman bounds lie between the Wiener bounds. -/
theorem C46_hs_within_wiener (h0 : 0 < s0) (h1 : 0 < s1) (hp : 0 ≤ p1) (hp' : p1 ≤ 1) :
    let w := wiener s0 s1 p1
    let b := hashinShtrikman s0 s1 p1
    (w.1 ≤ b.1 ∧ b.1 ≤ w.2) ∧ (w.1 ≤ b.2 ∧ b.2 ≤ w.2) := by
  have hst := st_pos h0 h1 hp hp'
  have hn : 0 ≤ (1 - p1) * p1 * (s0 - s1) ^ 2 :=
    mul_nonneg (mul_nonneg (by linarith) hp) (sq_nonneg _)
  have hlo : 0 < min s0 s1 := lt_min h0 h1
  have hhi : 0 < max s0 s1 := lt_max_of_lt_left h0
  have key : ∀ c, 0 < c → (wiener s0 s1 p1).1 ≤ (wiener s0 s1 p1).2 -
        (1 - p1) * p1 * (s0 - s1) ^ 2 / ((1 - p1) * s1 + p1 * s0 + 2 * c) ∧
      (wiener s0 s1 p1).2 -
        (1 - p1) * p1 * (s0 - s1) ^ 2 / ((1 - p1) * s1 + p1 * s0 + 2 * c) ≤
        (wiener s0 s1 p1).2 := by
    intro c hc
    constructor
    · rw [wiener_lower h0 h1 hp hp']
      have := div_le_div_of_nonneg_left hn hst
        (show (1 - p1) * s1 + p1 * s0 ≤ (1 - p1) * s1 + p1 * s0 + 2 * c by linarith)
      linarith
    · have := div_nonneg hn (show 0 ≤ (1 - p1) * s1 + p1 * s0 + 2 * c by linarith)
      linarith
  exact ⟨key _ hhi, key _ hlo⟩

/-- C46 (violation). The two bounds are returned in the wrong order: the first, "lower", is at
least the second, and strictly more for any proper mixture of different phases. -/
theorem C46_hs_swapped (h0 : 0 < s0) (h1 : 0 < s1) (hp : 0 ≤ p1) (hp' : p1 ≤ 1) :
    let b := hashinShtrikman s0 s1 p1
    b.2 ≤ b.1 ∧ (0 < p1 → p1 < 1 → s0 ≠ s1 → b.2 < b.1) := by
  have hst := st_pos h0 h1 hp hp'
  have hn : 0 ≤ (1 - p1) * p1 * (s0 - s1) ^ 2 :=
    mul_nonneg (mul_nonneg (by linarith) hp) (sq_nonneg _)
  have hlo : 0 < min s0 s1 := lt_min h0 h1
  constructor
  · have := div_le_div_of_nonneg_left hn
      (show 0 < (1 - p1) * s1 + p1 * s0 + 2 * min s0 s1 by linarith)
      (show (1 - p1) * s1 + p1 * s0 + 2 * min s0 s1 ≤ (1 - p1) * s1 + p1 * s0 + 2 * max s0 s1 by
        linarith [min_le_max (a := s0) (b := s1)])
    simp only [hashinShtrikman]
    linarith
  · intro q1 q2 hne
    have hn' : 0 < (1 - p1) * p1 * (s0 - s1) ^ 2 :=
      mul_pos (mul_pos (by linarith) q1) (sq_pos_of_ne_zero (sub_ne_zero.mpr hne))
    have hlt : min s0 s1 < max s0 s1 := min_lt_max.mpr hne
    have := div_lt_div_of_pos_left hn'
      (show 0 < (1 - p1) * s1 + p1 * s0 + 2 * min s0 s1 by linarith)
      (show (1 - p1) * s1 + p1 * s0 + 2 * min s0 s1 < (1 - p1) * s1 + p1 * s0 + 2 * max s0 s1 by
        linarith)
    simp only [hashinShtrikman]
    linarith

/-- A concrete mixture. -/
example : wiener 1 3 (1 / 2) = (3 / 2, 2) ∧ hashinShtrikman 1 3 (1 / 2) = (15 / 8, 7 / 4) := by
  constructor
  · simp only [wiener]; norm_num
  · have h1 : min (1 : ℝ) 3 = 1 := min_eq_left (by norm_num)
    have h2 : max (1 : ℝ) 3 = 3 := max_eq_right (by norm_num)
    simp only [hashinShtrikman, wiener, h1, h2]; norm_num

end Props
end Verif.Utils.Bounds
