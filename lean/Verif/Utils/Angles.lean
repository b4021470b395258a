import Mathlib.Analysis.SpecialFunctions.Trigonometric.Inverse
import Mathlib.Analysis.SpecialFunctions.Complex.Arg

/-! Model of the angle and coordinate conversions in `simpeg/utils/mat_utils.py` (241-453), one
row of the arrays at a time, with real numbers. -/

noncomputable section
namespace Verif.Utils.Angles
open Real

/-- `a % b` of Python and NumPy floats, `b > 0`. -/
def pymod (a b : ℝ) : ℝ := a - ⌊a / b⌋ * b

/-- `coterminal` (427-453). -/
def coterminal (θ : ℝ) : ℝ := pymod (θ + π) (2 * π) - π

/-- `np.arctan2(y, x)`. -/
def arctan2 (y x : ℝ) : ℝ := Complex.arg ⟨x, y⟩

/-- One row of `cartesian2spherical` (241-296): amplitude, elevation and azimuth. -/
def cartesian2spherical (x y z : ℝ) : ℝ × ℝ × ℝ :=
  let a := sqrt (x ^ 2 + y ^ 2 + z ^ 2)
  (a, if a > 0 then arcsin (z / a) else 0, if a > 0 then arctan2 y x else 0)

/-- One row of `spherical2cartesian` (299-344); `1e-8` is added to the amplitude (338). -/
def spherical2cartesian (a t p : ℝ) : ℝ × ℝ × ℝ :=
  let a' := a + 1 / 10 ^ 8
  (a' * cos t * cos p, a' * cos t * sin p, a' * sin t)

/-- `np.deg2rad`. -/
def deg2rad (d : ℝ) : ℝ := d * (π / 180)

/-- One row of `dip_azimuth2cartesian` (347-424). -/
def dipAzimuth2cartesian (dip azm : ℝ) : ℝ × ℝ × ℝ :=
  let azmX := pymod (450 - azm) 360
  let inc := -deg2rad dip
  let dec := deg2rad azmX
  (cos inc * cos dec, cos inc * sin dec, sin inc)

namespace Props

theorem pymod_range (a b : ℝ) (hb : 0 < b) : 0 ≤ pymod a b ∧ pymod a b < b := by
  unfold pymod
  have h1 := Int.floor_le (a / b)
  have h2 := Int.lt_floor_add_one (a / b)
  rw [le_div_iff₀ hb] at h1
  rw [div_lt_iff₀ hb] at h2
  constructor <;> linarith

/-! ### C44 -/

/-- C44. The result is in `[-π, π)`, differs from the argument by a multiple of `2π`, and is the
only such number; so an angle already in range is unchanged, and the function is idempotent. -/
theorem C44_coterminal (θ : ℝ) :
    (-π ≤ coterminal θ ∧ coterminal θ < π) ∧ (∃ n : ℤ, θ = 2 * π * n + coterminal θ) ∧
    (∀ γ : ℝ, -π ≤ γ → γ < π → (∃ n : ℤ, θ = 2 * π * n + γ) → coterminal θ = γ) ∧
    (-π ≤ θ → θ < π → coterminal θ = θ) ∧ coterminal (coterminal θ) = coterminal θ := by
  have h2 : (0 : ℝ) < 2 * π := by positivity
  have hr : ∀ θ, -π ≤ coterminal θ ∧ coterminal θ < π := by
    intro θ
    have := pymod_range (θ + π) (2 * π) h2
    unfold coterminal
    constructor <;> linarith
  have he : ∀ θ, ∃ n : ℤ, θ = 2 * π * n + coterminal θ := by
    intro θ
    refine ⟨⌊(θ + π) / (2 * π)⌋, ?_⟩
    unfold coterminal pymod
    ring
  have hu : ∀ θ γ : ℝ, -π ≤ γ → γ < π → (∃ n : ℤ, θ = 2 * π * n + γ) → coterminal θ = γ := by
    rintro θ γ h3 h4 ⟨n, hn⟩
    obtain ⟨k, hk⟩ := he θ
    have hc := hr θ
    have hlt : ((k : ℝ) - n) * (2 * π) = γ - coterminal θ := by linarith
    have hk' : k = n := by
      have u1 : ((k : ℝ) - n) * (2 * π) < 1 * (2 * π) := by linarith
      have u2 : (-1 : ℝ) * (2 * π) < ((k : ℝ) - n) * (2 * π) := by linarith
      have v1 := lt_of_mul_lt_mul_right u1 h2.le
      have v2 := lt_of_mul_lt_mul_right u2 h2.le
      have w1 : k - n < 1 := by exact_mod_cast v1
      have w2 : -1 < k - n := by exact_mod_cast v2
      omega
    rw [hk'] at hlt
    linarith
  refine ⟨hr θ, he θ, hu θ, fun h3 h4 => hu θ θ h3 h4 ⟨0, by simp⟩, ?_⟩
  exact hu _ _ (hr θ).1 (hr θ).2 ⟨0, by simp⟩

/-! ### C59 -/

/-- C59. Converting a vector to spherical coordinates and back gives the vector lengthened by
`1e-8`, in the same direction; for the zero vector the result is `(1e-8, 0, 0)`. -/
theorem C59_there_and_back (x y z : ℝ) :
    let s := cartesian2spherical x y z
    let v := spherical2cartesian s.1 s.2.1 s.2.2
    let r := sqrt (x ^ 2 + y ^ 2 + z ^ 2)
    (0 < r → v.1 = x * (1 + 1 / 10 ^ 8 / r) ∧ v.2.1 = y * (1 + 1 / 10 ^ 8 / r) ∧
      v.2.2 = z * (1 + 1 / 10 ^ 8 / r)) ∧
    (r = 0 → v = (1 / 10 ^ 8, 0, 0)) := by
  intro s v r
  constructor
  · intro hr
    have hs : s = (r, arcsin (z / r), arctan2 y x) := by
      simp only [s, cartesian2spherical]
      rw [if_pos hr, if_pos hr]
    have hr2 : r ^ 2 = x ^ 2 + y ^ 2 + z ^ 2 := sq_sqrt (by positivity)
    have hz : z ^ 2 ≤ r ^ 2 := by rw [hr2]; nlinarith [sq_nonneg x, sq_nonneg y]
    have hz' : |z| ≤ r := by
      have := sq_le_sq.mp hz
      rwa [abs_of_pos hr] at this
    obtain ⟨hz1, hz2⟩ := abs_le.mp hz'
    have q1 : -1 ≤ z / r := by rw [le_div_iff₀ hr]; linarith
    have q2 : z / r ≤ 1 := by rw [div_le_one hr]; exact hz2
    have hsin : sin (arcsin (z / r)) = z / r := sin_arcsin q1 q2
    set w : ℂ := ⟨x, y⟩ with hw
    have hnorm : ‖w‖ ^ 2 = x ^ 2 + y ^ 2 := by
      rw [← Complex.normSq_eq_norm_sq, Complex.normSq_mk]
      ring
    have hcos : r * cos (arcsin (z / r)) = ‖w‖ := by
      rw [cos_arcsin]
      have e : 1 - (z / r) ^ 2 = (‖w‖ / r) ^ 2 := by
        rw [div_pow, div_pow, hnorm, hr2]
        have : x ^ 2 + y ^ 2 + z ^ 2 ≠ 0 := by rw [← hr2]; positivity
        field_simp
        ring
      rw [e, sqrt_sq (by positivity)]
      field_simp
    have hx : ‖w‖ * cos (arctan2 y x) = x := by
      have := Complex.norm_mul_cos_arg w
      simpa [arctan2, hw] using this
    have hy : ‖w‖ * sin (arctan2 y x) = y := by
      have := Complex.norm_mul_sin_arg w
      simpa [arctan2, hw] using this
    have hc : cos (arcsin (z / r)) = ‖w‖ / r := by rw [← hcos]; field_simp
    have hv : v = spherical2cartesian r (arcsin (z / r)) (arctan2 y x) := by simp only [v, hs]
    rw [hv]
    simp only [spherical2cartesian, hc, hsin]
    refine ⟨?_, ?_, ?_⟩
    · nth_rewrite 2 [← hx]
      field_simp
    · nth_rewrite 2 [← hy]
      field_simp
    · field_simp
  · intro hr
    have hs : s = (0, 0, 0) := by
      simp only [s, cartesian2spherical]
      have : ¬ sqrt (x ^ 2 + y ^ 2 + z ^ 2) > 0 := by
        change ¬ r > 0
        rw [hr]
        exact lt_irrefl _
      rw [if_neg this, if_neg this]
      exact Prod.ext hr rfl
    have hv : v = spherical2cartesian 0 0 0 := by simp only [v, hs]
    rw [hv]
    simp [spherical2cartesian]

/-- C59. The other way round: an amplitude `≥ 0`, an elevation strictly between the poles and an
azimuth in `(-π, π]` come back, with `1e-8` added to the amplitude. -/
theorem C59_back_and_there (a t p : ℝ) (ha : 0 ≤ a) (ht : -(π / 2) < t) (ht' : t < π / 2)
    (hp : -π < p) (hp' : p ≤ π) :
    let v := spherical2cartesian a t p
    cartesian2spherical v.1 v.2.1 v.2.2 = (a + 1 / 10 ^ 8, t, p) := by
  intro v
  set a' := a + 1 / 10 ^ 8 with ha'
  have hpos : 0 < a' := by positivity
  have hc : 0 < cos t := cos_pos_of_mem_Ioo ⟨ht, ht'⟩
  have hv : v = (a' * cos t * cos p, a' * cos t * sin p, a' * sin t) := rfl
  have hr : sqrt (v.1 ^ 2 + v.2.1 ^ 2 + v.2.2 ^ 2) = a' := by
    have e : v.1 ^ 2 + v.2.1 ^ 2 + v.2.2 ^ 2 = a' ^ 2 := by
      rw [hv]
      have h1 := cos_sq_add_sin_sq p
      have h2 := cos_sq_add_sin_sq t
      calc (a' * cos t * cos p) ^ 2 + (a' * cos t * sin p) ^ 2 + (a' * sin t) ^ 2
          = a' ^ 2 * (cos t ^ 2 * (cos p ^ 2 + sin p ^ 2) + sin t ^ 2) := by ring
        _ = a' ^ 2 := by rw [h1, mul_one, h2, mul_one]
    rw [e, sqrt_sq hpos.le]
  have harg : arctan2 v.2.1 v.1 = p := by
    have e : (⟨v.1, v.2.1⟩ : ℂ) = ((a' * cos t : ℝ) : ℂ) * (Complex.cos p + Complex.sin p * Complex.I) := by
      rw [hv]
      apply Complex.ext
      · simp [← Complex.ofReal_cos, ← Complex.ofReal_sin]
      · simp [← Complex.ofReal_cos, ← Complex.ofReal_sin]
    unfold arctan2
    rw [e]
    exact Complex.arg_mul_cos_add_sin_mul_I (by positivity) ⟨hp, hp'⟩
  unfold cartesian2spherical
  simp only [hr, harg, if_pos hpos]
  refine Prod.ext rfl (Prod.ext ?_ rfl)
  simp only
  have : v.2.2 / a' = sin t := by rw [hv]; field_simp
  rw [this, arcsin_sin ht.le ht'.le]

/-- C59. `dip_azimuth2cartesian` gives a unit vector with eastward, northward and upward
components `(cos dip sin azm, cos dip cos azm, -sin dip)`, angles in degrees. -/
theorem C59_dip_azimuth (dip azm : ℝ) :
    let v := dipAzimuth2cartesian dip azm
    v = (cos (deg2rad dip) * sin (deg2rad azm), cos (deg2rad dip) * cos (deg2rad azm),
      -sin (deg2rad dip)) ∧ v.1 ^ 2 + v.2.1 ^ 2 + v.2.2 ^ 2 = 1 := by
  have e : deg2rad (pymod (450 - azm) 360) =
      (π / 2 - deg2rad azm) - ((⌊(450 - azm) / 360⌋ - 1 : ℤ) : ℝ) * (2 * π) := by
    unfold deg2rad pymod
    push_cast
    ring
  have hcos : cos (deg2rad (pymod (450 - azm) 360)) = sin (deg2rad azm) := by
    rw [e, cos_sub_int_mul_two_pi, cos_pi_div_two_sub]
  have hsin : sin (deg2rad (pymod (450 - azm) 360)) = cos (deg2rad azm) := by
    rw [e, sin_sub_int_mul_two_pi, sin_pi_div_two_sub]
  have hv : dipAzimuth2cartesian dip azm = (cos (deg2rad dip) * sin (deg2rad azm),
      cos (deg2rad dip) * cos (deg2rad azm), -sin (deg2rad dip)) := by
    simp only [dipAzimuth2cartesian, hcos, hsin, cos_neg, sin_neg]
  refine ⟨hv, ?_⟩
  simp only [hv]
  have h1 := cos_sq_add_sin_sq (deg2rad azm)
  have h2 := cos_sq_add_sin_sq (deg2rad dip)
  calc (cos (deg2rad dip) * sin (deg2rad azm)) ^ 2 + (cos (deg2rad dip) * cos (deg2rad azm)) ^ 2 +
        (-sin (deg2rad dip)) ^ 2
      = cos (deg2rad dip) ^ 2 * (cos (deg2rad azm) ^ 2 + sin (deg2rad azm) ^ 2)
        + sin (deg2rad dip) ^ 2 := by ring
    _ = 1 := by rw [h1, mul_one, h2]

/-- Concrete cases: the vector `(3, 0, 4)` has length 5; the angle `3π` is `-π`. -/
example : (cartesian2spherical 3 0 4).1 = 5 ∧ coterminal (3 * π) = -π := by
  constructor
  · simp only [cartesian2spherical]
    rw [show ((3 : ℝ) ^ 2 + 0 ^ 2 + 4 ^ 2) = 5 ^ 2 by norm_num, sqrt_sq (by norm_num)]
  · refine (C44_coterminal (3 * π)).2.2.1 (-π) le_rfl (by linarith [pi_pos]) ⟨2, ?_⟩
    push_cast
    ring

end Props
end Verif.Utils.Angles
