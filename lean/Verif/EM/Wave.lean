import Verif.NSEM.Analytic

/-!
The wave number `k` of `simpeg/electromagnetics/utils/waveform_utils.py`, used by C165 and C166.
-/

noncomputable section
namespace Verif.EM.Wave
open Verif Complex

/-- `k`, for numbers (45-48). Where `eps * w` is zero the code divides by it and the value is not a number, see
`kAt`. -/
def k (freq sigma mu eps : ℝ) : ℂ :=
  let w := 2 * Real.pi * freq;
  let alp := w * √(mu * eps / 2 * (√(1 + (sigma / (eps * w)) ^ 2) + 1));
  let beta := w * √(mu * eps / 2 * (√(1 + (sigma / (eps * w)) ^ 2) - 1));
  alp - 1 * I * beta

/-- `k` with the case of a frequency or permittivity of zero, where it is not a number (45-48). -/
def kAt (freq sigma mu eps : ℝ) : Option ℂ :=
  if eps * (2 * Real.pi * freq) = 0 then none else some (k freq sigma mu eps)

variable {freq sigma mu eps : ℝ}

theorem k_parts (hf : 0 < freq) (hm : 0 < mu) (he : 0 < eps) (hs : 0 ≤ sigma) :
    (k freq sigma mu eps) ^ 2 = ((eps * mu * (2 * Real.pi * freq) ^ 2 : ℝ) - I * mu * sigma * (2 * Real.pi * freq : ℝ) : ℂ)
      ∧ 0 < (k freq sigma mu eps).re ∧ (k freq sigma mu eps).im ≤ 0 ∧ (0 < sigma → (k freq sigma mu eps).im < 0) := by
  have hw : 0 < 2 * Real.pi * freq := by have := Real.pi_pos; positivity
  unfold k
  set w := 2 * Real.pi * freq
  set S := √(1 + (sigma / (eps * w)) ^ 2) with hS
  have hS2 : S ^ 2 = 1 + (sigma / (eps * w)) ^ 2 := Real.sq_sqrt (by positivity)
  have hS1 : 1 ≤ S := by rw [hS, Real.one_le_sqrt]; nlinarith [sq_nonneg (sigma / (eps * w))]
  have hA : √(mu * eps / 2 * (S + 1)) ^ 2 = mu * eps / 2 * (S + 1) := Real.sq_sqrt (by positivity)
  have hB : √(mu * eps / 2 * (S - 1)) ^ 2 = mu * eps / 2 * (S - 1) :=
    Real.sq_sqrt (mul_nonneg (by positivity) (by linarith))
  have hAB : √(mu * eps / 2 * (S + 1)) * √(mu * eps / 2 * (S - 1)) = mu * sigma / (2 * w) := by
    rw [← Real.sqrt_mul (by positivity), Real.sqrt_eq_iff_mul_self_eq (mul_nonneg (by positivity)
      (mul_nonneg (by positivity) (by linarith))) (by positivity)]
    have : mu * eps / 2 * (S + 1) * (mu * eps / 2 * (S - 1)) = (mu * eps / 2) ^ 2 * (S ^ 2 - 1) := by ring
    rw [this, hS2]; field_simp; ring
  have hA0 : 0 < √(mu * eps / 2 * (S + 1)) := Real.sqrt_pos.2 (by positivity)
  set α := √(mu * eps / 2 * (S + 1))
  set β := √(mu * eps / 2 * (S - 1)) with hβ
  refine ⟨?_, ?_, ?_, ?_⟩
  · have h1 : w ^ 2 * α ^ 2 - w ^ 2 * β ^ 2 = eps * mu * w ^ 2 := by rw [hA, hB]; ring
    have h2 : 2 * (w * α) * (w * β) = mu * sigma * w := by
      have : 2 * (w * α) * (w * β) = 2 * w ^ 2 * (α * β) := by ring
      rw [this, hAB]; field_simp
    have h1' : (w : ℂ) ^ 2 * (α : ℂ) ^ 2 - (w : ℂ) ^ 2 * (β : ℂ) ^ 2 = eps * mu * (w : ℂ) ^ 2 := by exact_mod_cast h1
    have h2' : 2 * ((w : ℂ) * α) * (w * β) = mu * sigma * w := by exact_mod_cast h2
    push_cast
    linear_combination h1' - I * h2' + (w * β : ℂ) ^ 2 * I_sq
  · simp; positivity
  · simp; positivity
  · intro h
    have h1 : 1 < S := by
      rw [hS, Real.lt_sqrt (by norm_num)]
      have : 0 < (sigma / (eps * w)) ^ 2 := by positivity
      linarith
    have h2 : 0 < β := Real.sqrt_pos.2 (mul_pos (by positivity) (by linarith))
    simp; positivity

/-- The wave number is the principal root of `ω²με - iωμσ`. -/
theorem k_wave (hf : 0 < freq) (hm : 0 < mu) (he : 0 < eps) (hs : 0 ≤ sigma) :
    k freq sigma mu eps = NSEM.Analytic.wave eps mu (2 * Real.pi * freq) sigma := by
  obtain ⟨h1, h2, -⟩ := k_parts hf hm he hs
  unfold NSEM.Analytic.wave
  rw [← h1, show (1 / 2 : ℂ) = ((2 : ℕ) : ℂ)⁻¹ by norm_num]
  refine (Complex.pow_cpow_nat_inv two_ne_zero ?_ ?_).symm
  · have := Complex.abs_arg_lt_pi_div_two_iff.2 (Or.inl h2)
    rw [abs_lt] at this
    have := this.1
    push_cast; linarith
  · have := Complex.abs_arg_lt_pi_div_two_iff.2 (Or.inl h2)
    rw [abs_lt] at this
    have := this.2
    push_cast; linarith

end Verif.EM.Wave
