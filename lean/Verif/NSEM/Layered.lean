import Verif.Basic
import Verif.Jacobian
import Verif.Maps.Parametric
import Mathlib.Analysis.SpecialFunctions.Pow.Complex
import Mathlib.Analysis.SpecialFunctions.Complex.Arg
import Mathlib.Analysis.SpecialFunctions.Trigonometric.Complex
import Mathlib.Analysis.SpecialFunctions.Trigonometric.DerivHyp
import Mathlib.Analysis.Calculus.MeanValue
import Mathlib.Analysis.Calculus.Deriv.MeanValue
import Mathlib.Analysis.Calculus.Deriv.Star

/-!
C136: the magnetotelluric response of a layered Earth, `Simulation1DRecursive`
(`simpeg/electromagnetics/natural_source/simulation_1d.py`). Arrays of the code that are reversed (top
layer first) are functions of `ℕ`; entries outside of the arrays are never read. `n` is the number of
layers above the half-space, `n_layer - 1`.
-/

noncomputable section
namespace Verif.NSEM.Layered
open Complex

/-! ### The code -/

/-- `alphas`: `np.sqrt(1j * omega * mu_0 * sigma)`, the principal root
(`simpeg/electromagnetics/natural_source/simulation_1d.py` 127, 175). -/
def alpha (ω μ σ : ℝ) : ℂ := (I * ω * μ * σ) ^ (1 / 2 : ℂ)

/-- `ratios` (`simpeg/electromagnetics/natural_source/simulation_1d.py` 128, 176). -/
def ratio (ω μ σ : ℝ) : ℂ := alpha ω μ σ / σ

/-- `tanhs` (`simpeg/electromagnetics/natural_source/simulation_1d.py` 129, 177). -/
def tanhs (ω μ σ h : ℝ) : ℂ := tanh (alpha ω μ σ * h)

/-- `Zs[ii]`, with `k` layers between the top of layer `ii` and the half-space: the loop from the bottom
(`simpeg/electromagnetics/natural_source/simulation_1d.py` 179-189). `r` and `t` are `ratios` and
`tanhs`. -/
def Zs (r t : ℕ → ℂ) : ℕ → ℕ → ℂ
  | 0, ii => -r ii
  | k + 1, ii =>
    let Z := Zs r t k (ii + 1)
    r ii * ((Z / r ii - t ii) / (1 - Z / r ii * t ii))

/-- `Z` of `_get_recursive_impedances`, which keeps the last value only and multiplies before it
divides (`simpeg/electromagnetics/natural_source/simulation_1d.py` 131-137). -/
def Zloop (r t : ℕ → ℂ) (n : ℕ) : ℕ → ℂ
  | 0 => -r n
  | k + 1 =>
    let Z := Zloop r t n k
    let ii := n - (k + 1)
    r ii * (Z / r ii - t ii) / (1 - Z / r ii * t ii)

/-- The arrays from the user's arrays, which start at the bottom: `sigmas[::-1]` and
`thicknesses[::-1]` (`simpeg/electromagnetics/natural_source/simulation_1d.py` 120-121, 168-169). -/
def rev {n : ℕ} (a : Fin n → ℝ) (ii : ℕ) : ℝ := if h : ii < n then a ⟨n - 1 - ii, by omega⟩ else 0

/-- `_get_recursive_impedances` at one angular frequency
(`simpeg/electromagnetics/natural_source/simulation_1d.py` 98-137). -/
def impedance {n : ℕ} (ω μ : ℝ) (σ : Fin (n + 1) → ℝ) (h : Fin n → ℝ) : ℂ :=
  Zloop (fun ii => ratio ω μ (rev σ ii)) (fun ii => tanhs ω μ (rev σ ii) (rev h ii)) n n

/-- The arrays of the second loop at position `ii`: `Zs[ii]`, `Zs[ii + 1]`, `tops`, `bots`. -/
def top (r t : ℕ → ℂ) (n ii : ℕ) : ℂ := Zs r t (n - (ii + 1)) (ii + 1) / r ii - t ii
def bot (r t : ℕ → ℂ) (n ii : ℕ) : ℂ := 1 - Zs r t (n - (ii + 1)) (ii + 1) / r ii * t ii

/-- `gZ` at the beginning of the pass `ii` of the loop from the top
(`simpeg/electromagnetics/natural_source/simulation_1d.py` 191-205). -/
def gZ (r t : ℕ → ℂ) (n : ℕ) : ℕ → ℂ
  | 0 => 1
  | ii + 1 =>
    let g := gZ r t n ii
    let gtop := r ii / bot r t n ii * g
    let gbot := -Zs r t (n - ii) ii / bot r t n ii * g;
    -t ii / r ii * gbot + gtop / r ii

/-- `gratios[ii]` for a layer (`simpeg/electromagnetics/natural_source/simulation_1d.py` 195-206). -/
def gratio (r t : ℕ → ℂ) (n ii : ℕ) : ℂ :=
  let g := gZ r t n ii
  let gtop := r ii / bot r t n ii * g
  let gbot := -Zs r t (n - ii) ii / bot r t n ii * g
  let Z' := Zs r t (n - (ii + 1)) (ii + 1)
  top r t n ii / bot r t n ii * g + Z' * t ii / r ii ^ 2 * gbot - Z' / r ii ^ 2 * gtop

/-- `gtanhs[ii]` (`simpeg/electromagnetics/natural_source/simulation_1d.py` 201-207). -/
def gtanh (r t : ℕ → ℂ) (n ii : ℕ) : ℂ :=
  let g := gZ r t n ii
  let gtop := r ii / bot r t n ii * g
  let gbot := -Zs r t (n - ii) ii / bot r t n ii * g
  let Z' := Zs r t (n - (ii + 1)) (ii + 1);
  -Z' / r ii * gbot - gtop

/-- `gratios[ii]`, the half-space included: `gratios[-1] = -gZ`
(`simpeg/electromagnetics/natural_source/simulation_1d.py` 208). -/
def gratios (r t : ℕ → ℂ) (n ii : ℕ) : ℂ := if ii < n then gratio r t n ii else -gZ r t n n

/-- `d_thick[ii]` before it is reversed
(`simpeg/electromagnetics/natural_source/simulation_1d.py` 209). -/
def dThick (ω μ : ℝ) (s h : ℕ → ℝ) (n ii : ℕ) : ℂ :=
  let r := fun ii => ratio ω μ (s ii)
  let t := fun ii => tanhs ω μ (s ii) (h ii)
  (1 - t ii ^ 2) * alpha ω μ (s ii) * gtanh r t n ii

/-- `d_sigma[ii]` before it is reversed
(`simpeg/electromagnetics/natural_source/simulation_1d.py` 211-215). -/
def dSigma (ω μ : ℝ) (s h : ℕ → ℝ) (n ii : ℕ) : ℂ :=
  let r := fun ii => ratio ω μ (s ii)
  let t := fun ii => tanhs ω μ (s ii) (h ii)
  let galpha := gratios r t n ii / s ii + if ii < n then (1 - t ii ^ 2) * h ii * gtanh r t n ii else 0;
  -r ii / s ii * gratios r t n ii + (0.5 * I * ω * μ) / alpha ω μ (s ii) * galpha

/-- `d_sigma[::-1]`, `d_thick[::-1]`
(`simpeg/electromagnetics/natural_source/simulation_1d.py` 219). -/
def impedanceDsigma {n : ℕ} (ω μ : ℝ) (σ : Fin (n + 1) → ℝ) (h : Fin n → ℝ) (k : Fin (n + 1)) : ℂ :=
  dSigma ω μ (rev σ) (rev h) n (n - k)
def impedanceDthick {n : ℕ} (ω μ : ℝ) (σ : Fin (n + 1) → ℝ) (h : Fin n → ℝ) (k : Fin n) : ℂ :=
  dThick ω μ (rev σ) (rev h) n (n - 1 - k)

/-! ### Specification: the fields in the Earth -/

/-- Plane wave fields in a layer `a ≤ z ≤ b` of conductivity `σ`, `z` upwards, time dependence
`exp(iωt)`: `dE/dz = -iωμ H`, `dH/dz = -σ E`. -/
def Maxwell (ω μ σ : ℝ) (E H : ℝ → ℂ) (s : Set ℝ) : Prop :=
  ∀ z ∈ s, HasDerivWithinAt E (-(I * ω * μ) * H z) s z ∧ HasDerivWithinAt H (-(σ : ℂ) * E z) s z

/-- The top of the layer `k` (the half-space is layer 0 and ends at 0). -/
def height {n : ℕ} (h : Fin n → ℝ) (k : ℕ) : ℝ := ∑ j : Fin n, if j.1 < k then h j else 0

/-- Fields of a source above the Earth: Maxwell's equations in all layers, bounded in the half-space,
not zero. Tangential fields are continuous as `E` and `H` are functions with one-sided derivatives. -/
structure IsField {n : ℕ} (ω μ : ℝ) (σ : Fin (n + 1) → ℝ) (h : Fin n → ℝ) (E H : ℝ → ℂ) : Prop where
  halfspace : Maxwell ω μ (σ 0) E H (Set.Iic 0)
  layer : ∀ k : Fin n, Maxwell ω μ (σ k.succ) E H (Set.Icc (height h k) (height h (k + 1)))
  bounded : ∃ C, ∀ z ≤ 0, ‖E z‖ ≤ C
  nonzero : ¬ (E 0 = 0 ∧ H 0 = 0)

/-! ### Lemmas -/

variable {ω μ σ : ℝ}

theorem alpha_eq (hω : 0 < ω) (hμ : 0 < μ) (hσ : 0 < σ) :
    alpha ω μ σ = (Real.sqrt (ω * μ * σ / 2) : ℂ) * (1 + I) := by
  have hx : 0 < Real.sqrt (ω * μ * σ / 2) := Real.sqrt_pos.2 (by positivity)
  set x := Real.sqrt (ω * μ * σ / 2) with hxdef
  have hsq : x ^ 2 = ω * μ * σ / 2 := Real.sq_sqrt (by positivity)
  have e : I * ω * μ * σ = ((x : ℂ) * (1 + I)) ^ 2 := by
    have : ((x : ℂ)) ^ 2 = (ω * μ * σ / 2 : ℝ) := by rw [← hsq]; push_cast; ring
    rw [mul_pow, this]
    have h2 : (1 + I) ^ 2 = 2 * I := by ring_nf; rw [I_sq]; ring
    rw [h2]; push_cast; ring
  have hre : 0 < ((x : ℂ) * (1 + I)).re := by simpa using hx
  have harg := Complex.abs_arg_lt_pi_div_two_iff.2 (Or.inl hre)
  rw [abs_lt] at harg
  unfold alpha
  rw [e]
  have := Complex.pow_cpow_nat_inv (x := (x : ℂ) * (1 + I)) (n := 2) (by norm_num)
    (by push_cast; linarith [harg.1]) (by push_cast; linarith [harg.2])
  simpa using this

theorem alpha_sq (ω μ σ : ℝ) : alpha ω μ σ ^ 2 = I * ω * μ * σ := by
  have := Complex.cpow_nat_inv_pow (I * ω * μ * σ) (n := 2) (by norm_num)
  simpa [alpha] using this

theorem alpha_re (hω : 0 < ω) (hμ : 0 < μ) (hσ : 0 < σ) : 0 < (alpha ω μ σ).re := by
  rw [alpha_eq hω hμ hσ]; simp; positivity

theorem alpha_im (hω : 0 < ω) (hμ : 0 < μ) (hσ : 0 < σ) : 0 < (alpha ω μ σ).im := by
  rw [alpha_eq hω hμ hσ]; simp; positivity

theorem alpha_ne (hω : 0 < ω) (hμ : 0 < μ) (hσ : 0 < σ) : alpha ω μ σ ≠ 0 := by
  intro h; have := alpha_re hω hμ hσ; rw [h] at this; simp at this

theorem ratio_ne (hω : 0 < ω) (hμ : 0 < μ) (hσ : 0 < σ) : ratio ω μ σ ≠ 0 :=
  div_ne_zero (alpha_ne hω hμ hσ) (by exact_mod_cast hσ.ne')

/-- The hyperbolic cosine has no zero in the right half-plane. -/
theorem cosh_ne {x : ℂ} (h : x.re ≠ 0) : cosh x ≠ 0 := by
  intro h0
  have h1 : exp x = -exp (-x) := by
    have : (exp x + exp (-x)) / 2 = 0 := h0
    linear_combination 2 * this
  have h2 := congrArg norm h1
  rw [norm_neg, Complex.norm_exp, Complex.norm_exp, neg_re] at h2
  have := Real.exp_injective h2
  exact h (by linarith)

/-- The two exponential parts of the fields in a homogeneous layer. -/
theorem parts (hω : 0 < ω) (hμ : 0 < μ) (hσ : 0 < σ) {E H : ℝ → ℂ} {a b : ℝ}
    (hm : Maxwell ω μ σ E H (Set.Icc a b)) (z : ℝ) (hz : z ∈ Set.Icc a b) :
    E z - ratio ω μ σ * H z = (E a - ratio ω μ σ * H a) * exp (alpha ω μ σ * (z - a)) ∧
    E z + ratio ω μ σ * H z = (E a + ratio ω μ σ * H a) * exp (-(alpha ω μ σ * (z - a))) := by
  have hs : (σ : ℂ) ≠ 0 := by exact_mod_cast hσ.ne'
  have hα := alpha_ne hω hμ hσ
  set α := alpha ω μ σ with hαdef
  have hr : ratio ω μ σ = α / σ := rfl
  have hsq : α ^ 2 = I * ω * μ * σ := alpha_sq ω μ σ
  have hw : I * ω * μ = α ^ 2 / σ := by rw [hsq]; field_simp
  have key : ∀ (e : ℂ) (he : e = 1 ∨ e = -1), ∀ z ∈ Set.Icc a b,
      (E z - e * (ratio ω μ σ * H z)) * exp (-(e * α * (z - a))) = E a - e * (ratio ω μ σ * H a) := by
    intro e he
    have hee : e * e = 1 := by rcases he with rfl | rfl <;> norm_num
    have hd : ∀ z ∈ Set.Icc a b, HasDerivWithinAt
        (fun z : ℝ => (E z - e * (ratio ω μ σ * H z)) * exp (-(e * α * ((z : ℂ) - a)))) 0 (Set.Icc a b) z := by
      intro z hz
      obtain ⟨h1, h2⟩ := hm z hz
      have h3 : HasDerivWithinAt (fun z : ℝ => -(e * α * ((z : ℂ) - a))) (-(e * α * 1)) (Set.Icc a b) z :=
        (((hasDerivAt_id z).ofReal_comp.hasDerivWithinAt.sub_const (a : ℂ)).const_mul (e * α)).neg
      have h4 := (h1.sub ((h2.const_mul (ratio ω μ σ)).const_mul e)).mul h3.cexp
      refine h4.congr_deriv ?_
      simp only [Pi.sub_apply]
      rw [hr, hw]
      field_simp
      linear_combination (α ^ 2 * H z * exp (-(α * e * (z - a)))) * hee
    have hc : ContinuousOn (fun z : ℝ => (E z - e * (ratio ω μ σ * H z)) * exp (-(e * α * ((z : ℂ) - a))))
        (Set.Icc a b) := fun z hz => (hd z hz).continuousWithinAt
    have hd' : ∀ z ∈ Set.Ico a b, HasDerivWithinAt
        (fun z : ℝ => (E z - e * (ratio ω μ σ * H z)) * exp (-(e * α * ((z : ℂ) - a)))) 0 (Set.Ici z) z := by
      intro z hz
      refine (hd z (Set.Ico_subset_Icc_self hz)).mono_of_mem_nhdsWithin ?_
      exact Filter.mem_of_superset (Icc_mem_nhdsGE hz.2) (Set.Icc_subset_Icc_left hz.1)
    intro z hz
    have := constant_of_has_deriv_right_zero hc hd' z hz
    simpa using this
  have h1 := key 1 (Or.inl rfl) z hz
  have h2 := key (-1) (Or.inr rfl) z hz
  constructor
  · rw [one_mul, one_mul, one_mul] at h1
    rw [← h1, mul_assoc, ← exp_add]; simp
  · simp only [neg_one_mul, sub_neg_eq_add] at h2
    rw [← h2, mul_assoc, ← exp_add]; simp

theorem Maxwell.mono {E H : ℝ → ℂ} {s s' : Set ℝ} (hm : Maxwell ω μ σ E H s) (h : s' ⊆ s) :
    Maxwell ω μ σ E H s' := fun z hz => ⟨(hm z (h hz)).1.mono h, (hm z (h hz)).2.mono h⟩

/-- Bounded fields in the half-space go downwards only. -/
theorem halfspace (hω : 0 < ω) (hμ : 0 < μ) (hσ : 0 < σ) {E H : ℝ → ℂ}
    (hm : Maxwell ω μ σ E H (Set.Iic 0)) (hb : ∃ C, ∀ z ≤ 0, ‖E z‖ ≤ C) :
    E 0 = -ratio ω μ σ * H 0 := by
  obtain ⟨C, hC⟩ := hb
  set α := alpha ω μ σ with hα
  set P := E 0 - ratio ω μ σ * H 0 with hP
  set Q := E 0 + ratio ω μ σ * H 0 with hQ
  have hre : 0 < α.re := alpha_re hω hμ hσ
  have key : ∀ x : ℝ, 0 ≤ x → ‖Q‖ * (α.re * x) ≤ 2 * C + ‖P‖ := by
    intro x hx
    have hm' : Maxwell ω μ σ E H (Set.Icc (-x) 0) := hm.mono Set.Icc_subset_Iic_self
    obtain ⟨h1, h2⟩ := parts hω hμ hσ hm' 0 ⟨by linarith, le_rfl⟩
    have h1' : E (-x) - ratio ω μ σ * H (-x) = P * exp (-(α * x)) := by
      rw [hP, h1, mul_assoc, ← exp_add]; push_cast; simp [hα]
    have h2' : E (-x) + ratio ω μ σ * H (-x) = Q * exp (α * x) := by
      rw [hQ, h2, mul_assoc, ← exp_add]; push_cast; simp [hα]
    have h3 : Q * exp (α * x) = 2 * E (-x) - P * exp (-(α * x)) := by
      rw [← h2', ← h1']; ring
    have h4 : ‖Q‖ * Real.exp (α.re * x) ≤ 2 * C + ‖P‖ := by
      have e1 : ‖Q * exp (α * x)‖ = ‖Q‖ * Real.exp (α.re * x) := by
        rw [norm_mul, Complex.norm_exp]; simp
      have e2 : ‖P * exp (-(α * x))‖ ≤ ‖P‖ := by
        rw [norm_mul, Complex.norm_exp]
        refine mul_le_of_le_one_right (norm_nonneg _) (Real.exp_le_one_iff.2 ?_)
        have : 0 ≤ α.re * x := by positivity
        simpa using this
      rw [← e1, h3]
      refine (norm_sub_le _ _).trans (add_le_add ?_ e2)
      rw [norm_mul]
      have := hC (-x) (by linarith)
      simpa using this
    have h5 := Real.add_one_le_exp (α.re * x)
    have : ‖Q‖ * (α.re * x) ≤ ‖Q‖ * Real.exp (α.re * x) :=
      mul_le_mul_of_nonneg_left (by linarith) (norm_nonneg _)
    linarith
  have hQ0 : Q = 0 := by
    by_contra hne
    have hq : 0 < ‖Q‖ := norm_pos_iff.2 hne
    have hK : 0 ≤ 2 * C + ‖P‖ := by simpa using key 0 le_rfl
    have := key ((2 * C + ‖P‖ + 1) / (‖Q‖ * α.re)) (by positivity)
    rw [← mul_assoc, mul_div_cancel₀ _ (by positivity)] at this
    linarith
  rw [neg_mul]
  exact eq_neg_of_add_eq_zero_left hQ0

/-- The upward flux of energy, and the stored energy, do not grow upwards. -/
theorem flux (hω : 0 < ω) (hμ : 0 < μ) (hσ : 0 < σ) {E H : ℝ → ℂ} {a b : ℝ} (hab : a ≤ b)
    (hm : Maxwell ω μ σ E H (Set.Icc a b)) :
    (E b * (starRingEnd ℂ) (H b)).re ≤ (E a * (starRingEnd ℂ) (H a)).re ∧
    (E b * (starRingEnd ℂ) (H b)).im ≤ (E a * (starRingEnd ℂ) (H a)).im := by
  have hd : ∀ z ∈ Set.Icc a b, HasDerivWithinAt (fun z => E z * (starRingEnd ℂ) (H z))
      (-(I * ω * μ) * normSq (H z) - σ * normSq (E z)) (Set.Icc a b) z := by
    intro z hz
    obtain ⟨h1, h2⟩ := hm z hz
    have h3 : HasDerivWithinAt (fun z => (starRingEnd ℂ) (H z)) ((starRingEnd ℂ) (-(σ : ℂ) * E z)) (Set.Icc a b) z :=
      h2.star
    refine (h1.mul h3).congr_deriv ?_
    rw [map_mul, map_neg, conj_ofReal, normSq_eq_conj_mul_self, normSq_eq_conj_mul_self]
    ring
  have hre : ∀ z ∈ Set.Icc a b, HasDerivWithinAt (fun z => (E z * (starRingEnd ℂ) (H z)).re)
      (-(I * ω * μ) * normSq (H z) - σ * normSq (E z)).re (Set.Icc a b) z := fun z hz =>
    reCLM.hasFDerivAt.comp_hasDerivWithinAt z (hd z hz)
  have him : ∀ z ∈ Set.Icc a b, HasDerivWithinAt (fun z => (E z * (starRingEnd ℂ) (H z)).im)
      (-(I * ω * μ) * normSq (H z) - σ * normSq (E z)).im (Set.Icc a b) z := fun z hz =>
    imCLM.hasFDerivAt.comp_hasDerivWithinAt z (hd z hz)
  have anti : ∀ (f : ℝ → ℝ) (f' : ℝ → ℝ), (∀ z ∈ Set.Icc a b, HasDerivWithinAt f (f' z) (Set.Icc a b) z) →
      (∀ z, f' z ≤ 0) → f b ≤ f a := by
    intro f f' h h0
    have : AntitoneOn f (Set.Icc a b) := by
      apply antitoneOn_of_deriv_nonpos (convex_Icc a b) fun z hz => (h z hz).continuousWithinAt
      · intro z hz
        exact ((h z (interior_subset hz)).hasDerivAt (mem_interior_iff_mem_nhds.1 hz)).differentiableAt.differentiableWithinAt
      · intro z hz
        rw [((h z (interior_subset hz)).hasDerivAt (mem_interior_iff_mem_nhds.1 hz)).deriv]
        exact h0 z
    exact this ⟨le_rfl, hab⟩ ⟨hab, le_rfl⟩ hab
  constructor
  · refine anti _ _ hre fun z => ?_
    have := normSq_nonneg (E z)
    simp
    positivity
  · refine anti _ _ him fun z => ?_
    have := normSq_nonneg (H z)
    simp
    positivity

/-- One step of the recursion. -/
def lstep (r t Z : ℂ) : ℂ := r * ((Z / r - t) / (1 - Z / r * t))

/-- Third quadrant. -/
def Quad (Z : ℂ) : Prop := Z.re < 0 ∧ Z.im < 0

theorem quad_bottom (hω : 0 < ω) (hμ : 0 < μ) (hσ : 0 < σ) : Quad (-ratio ω μ σ) := by
  have h1 := alpha_re hω hμ hσ
  have h2 := alpha_im hω hμ hσ
  constructor <;> simp [ratio, div_ofReal_re, div_ofReal_im] <;> positivity

/-- The fields above a layer with impedance `Z` below. -/
theorem maxwell_explicit (hω : 0 < ω) (hμ : 0 < μ) (hσ : 0 < σ) (Z : ℂ) (s : Set ℝ) :
    Maxwell ω μ σ
      (fun z => Z * cosh (alpha ω μ σ * z) - ratio ω μ σ * sinh (alpha ω μ σ * z))
      (fun z => cosh (alpha ω μ σ * z) - Z / ratio ω μ σ * sinh (alpha ω μ σ * z)) s := by
  intro z _
  have hs : (σ : ℂ) ≠ 0 := by exact_mod_cast hσ.ne'
  have hα := alpha_ne hω hμ hσ
  have hw : I * ω * μ = alpha ω μ σ ^ 2 / σ := by rw [alpha_sq]; field_simp
  have h0 : HasDerivWithinAt (fun z : ℝ => alpha ω μ σ * (z : ℂ)) (alpha ω μ σ * 1) s z :=
    ((hasDerivAt_id z).ofReal_comp.const_mul (alpha ω μ σ)).hasDerivWithinAt
  have hc := (Complex.hasDerivAt_cosh (alpha ω μ σ * z)).comp_hasDerivWithinAt z h0
  have hsn := (Complex.hasDerivAt_sinh (alpha ω μ σ * z)).comp_hasDerivWithinAt z h0
  constructor
  · refine ((hc.const_mul Z).sub (hsn.const_mul (ratio ω μ σ))).congr_deriv ?_
    rw [hw, ratio]
    field_simp
    ring
  · refine (hc.sub (hsn.const_mul (Z / ratio ω μ σ))).congr_deriv ?_
    rw [ratio]
    field_simp
    ring

/-- The impedance stays in the third quadrant and nothing is divided by zero. -/
theorem quad_step (hω : 0 < ω) (hμ : 0 < μ) (hσ : 0 < σ) {h : ℝ} (hh : 0 ≤ h) {Z : ℂ} (hZ : Quad Z) :
    1 - Z / ratio ω μ σ * tanhs ω μ σ h ≠ 0 ∧ Quad (lstep (ratio ω μ σ) (tanhs ω μ σ h) Z) := by
  have hr := ratio_ne hω hμ hσ
  set E := fun z : ℝ => Z * cosh (alpha ω μ σ * z) - ratio ω μ σ * sinh (alpha ω μ σ * z) with hE
  set H := fun z : ℝ => cosh (alpha ω μ σ * z) - Z / ratio ω μ σ * sinh (alpha ω μ σ * z) with hH
  have hf := flux hω hμ hσ hh (maxwell_explicit hω hμ hσ Z (Set.Icc 0 h))
  have e0 : E 0 * (starRingEnd ℂ) (H 0) = Z := by simp [hE, hH]
  have hf1 : (E h * (starRingEnd ℂ) (H h)).re < 0 := lt_of_le_of_lt hf.1 (by
    have : ((E 0 * (starRingEnd ℂ) (H 0))).re < 0 := by rw [e0]; exact hZ.1
    exact this)
  have hf2 : (E h * (starRingEnd ℂ) (H h)).im < 0 := lt_of_le_of_lt hf.2 (by
    have : ((E 0 * (starRingEnd ℂ) (H 0))).im < 0 := by rw [e0]; exact hZ.2
    exact this)
  have hHne : H h ≠ 0 := by intro h0; rw [h0] at hf1; simp at hf1
  have hcosh : cosh (alpha ω μ σ * h) ≠ 0 ∨ h = 0 := by
    rcases hh.lt_or_eq with h0 | h0
    · left
      apply cosh_ne
      have : 0 < (alpha ω μ σ).re * h := mul_pos (alpha_re hω hμ hσ) h0
      simpa using this.ne'
    · exact Or.inr h0.symm
  have hcosh : cosh (alpha ω μ σ * h) ≠ 0 := by
    rcases hcosh with h0 | h0
    · exact h0
    · rw [h0]; simp
  have hb : 1 - Z / ratio ω μ σ * tanhs ω μ σ h = H h / cosh (alpha ω μ σ * h) := by
    rw [tanhs, Complex.tanh_eq_sinh_div_cosh, hH]
    field_simp
  have hq : lstep (ratio ω μ σ) (tanhs ω μ σ h) Z = E h / H h := by
    rw [lstep, hb, tanhs, Complex.tanh_eq_sinh_div_cosh, hE]
    field_simp
  refine ⟨by rw [hb]; exact div_ne_zero hHne hcosh, ?_⟩
  rw [hq]
  have hn : 0 < normSq (H h) := normSq_pos.2 hHne
  have e : E h / H h = (E h * (starRingEnd ℂ) (H h)) / (normSq (H h) : ℝ) := by
    rw [normSq_eq_conj_mul_self, mul_comm ((starRingEnd ℂ) (H h))]
    have : (starRingEnd ℂ) (H h) ≠ 0 := by simpa using hHne
    field_simp
  rw [e]
  constructor
  · rw [div_ofReal_re]; exact div_neg_of_neg_of_pos hf1 hn
  · rw [div_ofReal_im]; exact div_neg_of_neg_of_pos hf2 hn

theorem Zs_succ (r t : ℕ → ℂ) (k ii : ℕ) :
    Zs r t (k + 1) ii = lstep (r ii) (t ii) (Zs r t k (ii + 1)) := rfl

/-- The two loops give the same impedances. -/
theorem Zloop_eq (r t : ℕ → ℂ) (n : ℕ) : ∀ k ≤ n, Zloop r t n k = Zs r t k (n - k)
  | 0, _ => rfl
  | k + 1, hk => by
    rw [Zs_succ, Zloop, Zloop_eq r t n k (by omega), show n - (k + 1) + 1 = n - k by omega, lstep, mul_div_assoc]

/-- All arrays positive. -/
theorem rev_pos {n : ℕ} {a : Fin n → ℝ} (ha : ∀ i, 0 < a i) {ii : ℕ} (h : ii < n) : 0 < rev a ii := by
  rw [rev, dif_pos h]; exact ha _

theorem rev_nonneg {n : ℕ} {a : Fin n → ℝ} (ha : ∀ i, 0 ≤ a i) (ii : ℕ) : 0 ≤ rev a ii := by
  unfold rev; split
  · exact ha _
  · exact le_rfl

theorem rev_at {n : ℕ} (a : Fin n → ℝ) (k : Fin n) : rev a (n - 1 - k) = a k := by
  have := k.2
  rw [rev, dif_pos (by omega)]
  congr 1
  ext
  simp only
  omega

/-- Impedances at all tops. -/
theorem Zs_quad (hω : 0 < ω) (hμ : 0 < μ) {s h : ℕ → ℝ} {n : ℕ} (hs : ∀ ii ≤ n, 0 < s ii)
    (hh : ∀ ii, 0 ≤ h ii) : ∀ k ii, ii + k ≤ n →
    Quad (Zs (fun ii => ratio ω μ (s ii)) (fun ii => tanhs ω μ (s ii) (h ii)) k ii)
  | 0, ii, hi => quad_bottom hω hμ (hs ii (by omega))
  | k + 1, ii, hi => by
    rw [Zs_succ]
    exact (quad_step hω hμ (hs ii (by omega)) (hh ii) (Zs_quad hω hμ hs hh k (ii + 1) (by omega))).2

theorem height_succ {n : ℕ} (h : Fin n → ℝ) (k : Fin n) : height h (k + 1) = height h k + h k := by
  unfold height
  rw [← sub_eq_iff_eq_add', ← Finset.sum_sub_distrib, Finset.sum_eq_single k]
  · simp
  · intro j _ hj
    have : j.1 ≠ k.1 := fun h => hj (Fin.ext h)
    by_cases h1 : j.1 < k.1
    · rw [if_pos h1, if_pos (by omega), sub_self]
    · rw [if_neg h1, if_neg (by omega), sub_self]
  · simp

/-- Across a layer. -/
theorem layer_step (hω : 0 < ω) (hμ : 0 < μ) (hσ : 0 < σ) {a h : ℝ} (hh : 0 ≤ h) {E H : ℝ → ℂ} {Z : ℂ}
    (hm : Maxwell ω μ σ E H (Set.Icc a (a + h))) (hZ : Quad Z) (hH : H a ≠ 0) (hE : E a = Z * H a) :
    H (a + h) ≠ 0 ∧ E (a + h) = lstep (ratio ω μ σ) (tanhs ω μ σ h) Z * H (a + h) := by
  have hr := ratio_ne hω hμ hσ
  obtain ⟨h1, h2⟩ := parts hω hμ hσ hm (a + h) ⟨by linarith, le_rfl⟩
  have hc : cosh (alpha ω μ σ * h) ≠ 0 := by
    rcases hh.lt_or_eq with h0 | h0
    · apply cosh_ne
      have : 0 < (alpha ω μ σ).re * h := mul_pos (alpha_re hω hμ hσ) h0
      simpa using this.ne'
    · rw [← h0]; simp
  have hb := (quad_step hω hμ hσ hh hZ).1
  have eE : E (a + h) = H a * (Z * cosh (alpha ω μ σ * h) - ratio ω μ σ * sinh (alpha ω μ σ * h)) := by
    have : 2 * E (a + h) = (E (a + h) - ratio ω μ σ * H (a + h)) + (E (a + h) + ratio ω μ σ * H (a + h)) := by ring
    rw [h1, h2, hE] at this
    have e : (((a + h : ℝ) : ℂ) - a) = h := by push_cast; ring
    rw [e] at this
    rw [Complex.cosh, Complex.sinh]
    linear_combination this / 2
  have eH : H (a + h) = H a * (cosh (alpha ω μ σ * h) - Z / ratio ω μ σ * sinh (alpha ω μ σ * h)) := by
    have : 2 * (ratio ω μ σ * H (a + h)) = (E (a + h) + ratio ω μ σ * H (a + h)) - (E (a + h) - ratio ω μ σ * H (a + h)) := by ring
    rw [h1, h2, hE] at this
    have e : (((a + h : ℝ) : ℂ) - a) = h := by push_cast; ring
    rw [e] at this
    rw [Complex.cosh, Complex.sinh]
    field_simp
    linear_combination this
  have hx : cosh (alpha ω μ σ * h) - Z / ratio ω μ σ * sinh (alpha ω μ σ * h) =
      cosh (alpha ω μ σ * h) * (1 - Z / ratio ω μ σ * tanhs ω μ σ h) := by
    rw [tanhs, Complex.tanh_eq_sinh_div_cosh]; field_simp
  refine ⟨by rw [eH, hx]; exact mul_ne_zero hH (mul_ne_zero hc hb), ?_⟩
  rw [eE, eH, hx, lstep]
  have : ratio ω μ σ * ((Z / ratio ω μ σ - tanhs ω μ σ h) / (1 - Z / ratio ω μ σ * tanhs ω μ σ h)) *
      (H a * (cosh (alpha ω μ σ * h) * (1 - Z / ratio ω μ σ * tanhs ω μ σ h))) =
      ratio ω μ σ * (Z / ratio ω μ σ - tanhs ω μ σ h) * (H a * cosh (alpha ω μ σ * h)) := by
    generalize 1 - Z / ratio ω μ σ * tanhs ω μ σ h = B at hb
    generalize Z / ratio ω μ σ - tanhs ω μ σ h = A
    field_simp
  rw [this, tanhs, Complex.tanh_eq_sinh_div_cosh]
  field_simp

/-- The derivative of `np.sqrt(1j * omega * mu_0 * sigma)`. -/
theorem alpha_deriv (hω : 0 < ω) (hμ : 0 < μ) (hσ : 0 < σ) :
    HasDerivAt (fun s : ℝ => alpha ω μ s) (0.5 * I * ω * μ / alpha ω μ σ) σ := by
  have hα := alpha_ne hω hμ hσ
  have hsl : I * ω * μ * (σ : ℂ) ∈ slitPlane := by
    refine Or.inr ?_
    simp
    exact ⟨⟨hω.ne', hμ.ne'⟩, hσ.ne'⟩
  have h1 : HasDerivAt (fun z : ℂ => I * ω * μ * z) (I * ω * μ * 1) (σ : ℂ) :=
    (hasDerivAt_id _).const_mul _
  have h2 := (h1.cpow_const (c := (1 / 2 : ℂ)) hsl).comp_ofReal
  refine h2.congr_deriv ?_
  have h3 : (I * ω * μ * (σ : ℂ)) ^ (1 / 2 - 1 : ℂ) = 1 / alpha ω μ σ := by
    rw [Complex.cpow_sub _ _ (slitPlane_ne_zero hsl), cpow_one]
    change alpha ω μ σ / _ = _
    rw [← alpha_sq]
    field_simp
  rw [h3]
  norm_num
  field_simp

theorem tanh_deriv {z : ℂ} (hz : cosh z ≠ 0) : HasDerivAt tanh (1 - tanh z ^ 2) z := by
  have h := (Complex.hasDerivAt_sinh z).div (Complex.hasDerivAt_cosh z) hz
  have e : tanh = fun z => sinh z / cosh z := by funext z; exact Complex.tanh_eq_sinh_div_cosh z
  have h' : HasDerivAt tanh ((cosh z * cosh z - sinh z * sinh z) / cosh z ^ 2) z := by rw [e]; exact h
  refine h'.congr_deriv ?_
  rw [Complex.tanh_eq_sinh_div_cosh]
  field_simp

section sweep
variable {V : Type*} [NormedAddCommGroup V] [NormedSpace ℝ V] {x : V}
variable {R T : ℕ → V → ℂ} {R' T' : ℕ → V →L[ℝ] ℂ}

/-- The derivative of a step. -/
theorem step_deriv {f g p : V → ℂ} {f' g' p' : V →L[ℝ] ℂ} (hf : HasFDerivAt f f' x) (hg : HasFDerivAt g g' x)
    (hp : HasFDerivAt p p' x) (h0 : f x ≠ 0) (hb : 1 - p x / f x * g x ≠ 0) :
    ∃ D : V →L[ℝ] ℂ, HasFDerivAt (fun y => lstep (f y) (g y) (p y)) D x ∧ ∀ v,
      let top := p x / f x - g x
      let bot := 1 - p x / f x * g x
      let Z := lstep (f x) (g x) (p x)
      D v = top / bot * f' v
        + f x / bot * (p' v / f x - p x / f x ^ 2 * f' v - g' v)
        - Z / bot * (-(g x / f x) * p' v + p x * g x / f x ^ 2 * f' v - p x / f x * g' v) := by
  have hi : HasFDerivAt (fun y => (f y)⁻¹) (-(f x ^ 2)⁻¹ • f') x := (hasDerivAt_inv h0).comp_hasFDerivAt x hf
  have hq := hp.mul hi
  have hbot := (hq.mul hg).const_sub 1
  have hb' : 1 - p x * (f x)⁻¹ * g x ≠ 0 := by rwa [← div_eq_mul_inv]
  have hbi := (hasDerivAt_inv hb').comp_hasFDerivAt x hbot
  refine ⟨_, hf.mul ((hq.sub hg).mul hbi), fun v => ?_⟩
  simp [lstep]
  simp only [← div_eq_mul_inv]
  set B := 1 - p x / f x * g x with hB
  field_simp
  ring

/-- Reverse mode: what the second loop accumulates. -/
theorem sweep (n : ℕ) (hR : ∀ ii ≤ n, HasFDerivAt (R ii) (R' ii) x) (hT : ∀ ii < n, HasFDerivAt (T ii) (T' ii) x)
    (h0 : ∀ ii < n, R ii x ≠ 0) (hb : ∀ ii < n, bot (fun j => R j x) (fun j => T j x) n ii ≠ 0) :
    ∀ k ii, ii + k = n → ∃ D : V →L[ℝ] ℂ,
      HasFDerivAt (fun y => Zs (fun j => R j y) (fun j => T j y) k ii) D x ∧
      ∀ v, gZ (fun j => R j x) (fun j => T j x) n ii * D v =
        ∑ j ∈ Finset.Ico ii n, (gratio (fun j => R j x) (fun j => T j x) n j * R' j v +
          gtanh (fun j => R j x) (fun j => T j x) n j * T' j v) -
        gZ (fun j => R j x) (fun j => T j x) n n * R' n v
  | 0, ii, h => by
    obtain rfl : ii = n := by omega
    refine ⟨-R' ii, (hR ii le_rfl).neg, fun v => ?_⟩
    simp
  | k + 1, ii, h => by
    obtain ⟨D, hD, hv⟩ := sweep n hR hT h0 hb k (ii + 1) (by omega)
    have hlt : ii < n := by omega
    have hbi : 1 - Zs (fun j => R j x) (fun j => T j x) k (ii + 1) / R ii x * T ii x ≠ 0 := by
      have := hb ii hlt
      rw [bot, show n - (ii + 1) = k by omega] at this
      exact this
    obtain ⟨D2, hD2, hv2⟩ := step_deriv (hR ii hlt.le) (hT ii hlt) hD (h0 ii hlt) hbi
    refine ⟨D2, hD2, fun v => ?_⟩
    have hz : Zs (fun j => R j x) (fun j => T j x) (k + 1) ii =
      lstep (R ii x) (T ii x) (Zs (fun j => R j x) (fun j => T j x) k (ii + 1)) := rfl
    have h3 := hv v
    rw [Finset.sum_eq_sum_Ico_succ_bot hlt, add_sub_assoc, ← h3, hv2 v, gratio, gtanh, gZ, top, bot,
      show n - (ii + 1) = k by omega, show n - ii = k + 1 by omega, hz]
    ring

end sweep

/-- The impedance at the top of layer `m`, with the arrays in the user's order. -/
def up (ω μ : ℝ) (σ h : ℕ → ℝ) : ℕ → ℂ
  | 0 => -ratio ω μ (σ 0)
  | m + 1 => lstep (ratio ω μ (σ (m + 1))) (tanhs ω μ (σ (m + 1)) (h m)) (up ω μ σ h m)

theorem up_succ (σ h : ℕ → ℝ) (m : ℕ) : up ω μ σ h (m + 1) =
    lstep (ratio ω μ (σ (m + 1))) (tanhs ω μ (σ (m + 1)) (h m)) (up ω μ σ h m) := rfl

/-- An array as a function of `ℕ`. -/
def ext {n : ℕ} (a : Fin n → ℝ) (i : ℕ) : ℝ := if h : i < n then a ⟨i, h⟩ else 0

theorem rev_ext {n : ℕ} (a : Fin n → ℝ) {i : ℕ} (h : i < n) : rev a i = ext a (n - 1 - i) := by
  rw [rev, dif_pos h, ext, dif_pos (by omega)]

theorem ext_fin {n : ℕ} (a : Fin n → ℝ) (k : Fin n) : ext a k = a k := by rw [ext, dif_pos k.2]

theorem Zs_up {n : ℕ} (σ : Fin (n + 1) → ℝ) (h : Fin n → ℝ) : ∀ m ≤ n,
    Zs (fun ii => ratio ω μ (rev σ ii)) (fun ii => tanhs ω μ (rev σ ii) (rev h ii)) m (n - m)
      = up ω μ (ext σ) (ext h) m
  | 0, _ => by
    rw [Zs, up, rev_ext σ (by omega)]; congr 4; omega
  | m + 1, hm => by
    rw [Zs_succ, up, show n - (m + 1) + 1 = n - m by omega, Zs_up σ h m (by omega), rev_ext σ (by omega),
      rev_ext h (by omega), show n + 1 - 1 - (n - (m + 1)) = m + 1 by omega,
      show n - 1 - (n - (m + 1)) = m by omega]

theorem impedance_up {n : ℕ} (σ : Fin (n + 1) → ℝ) (h : Fin n → ℝ) :
    impedance ω μ σ h = up ω μ (ext σ) (ext h) n := by
  rw [impedance, Zloop_eq _ _ n n le_rfl, Zs_up σ h n le_rfl]

theorem up_quad (hω : 0 < ω) (hμ : 0 < μ) {s h : ℕ → ℝ} {n : ℕ} (hs : ∀ i ≤ n, 0 < s i)
    (hh : ∀ i < n, 0 ≤ h i) : ∀ m ≤ n, Quad (up ω μ s h m)
  | 0, hm => quad_bottom hω hμ (hs 0 (by omega))
  | m + 1, hm => (quad_step hω hμ (hs (m + 1) hm) (hh m (by omega)) (up_quad hω hμ hs hh m (by omega))).2

theorem ext_pos {n : ℕ} {a : Fin n → ℝ} (ha : ∀ i, 0 < a i) {i : ℕ} (h : i < n) : 0 < ext a i := by
  rw [ext, dif_pos h]; exact ha _

theorem ext_nonneg {n : ℕ} {a : Fin n → ℝ} (ha : ∀ i, 0 ≤ a i) (i : ℕ) : 0 ≤ ext a i := by
  unfold ext; split
  · exact ha _
  · exact le_rfl

/-- Two layers of one conductivity are one layer. -/
theorem lstep_add (hω : 0 < ω) (hμ : 0 < μ) (hσ : 0 < σ) {a b : ℝ} (ha : 0 ≤ a) (hb : 0 ≤ b) {Z : ℂ}
    (hZ : Quad Z) :
    lstep (ratio ω μ σ) (tanhs ω μ σ b) (lstep (ratio ω μ σ) (tanhs ω μ σ a) Z) =
      lstep (ratio ω μ σ) (tanhs ω μ σ (a + b)) Z := by
  have hm := fun s => maxwell_explicit hω hμ hσ Z s
  obtain ⟨h1, e1⟩ := layer_step (a := 0) (h := a) hω hμ hσ ha (hm _) hZ (by simp) (by simp)
  obtain ⟨h2, e2⟩ := layer_step (a := 0 + a) (h := b) hω hμ hσ hb (hm _) (quad_step hω hμ hσ ha hZ).2 h1 e1
  obtain ⟨h3, e3⟩ := layer_step (a := 0) (h := a + b) hω hμ hσ (by linarith) (hm _) hZ (by simp) (by simp)
  rw [← add_assoc] at h3 e3
  exact mul_right_cancel₀ h3 (e2.symm.trans e3)

/-- A perfectly matched layer. -/
theorem lstep_match (hω : 0 < ω) (hμ : 0 < μ) (hσ : 0 < σ) {a : ℝ} (ha : 0 ≤ a) :
    lstep (ratio ω μ σ) (tanhs ω μ σ a) (-ratio ω μ σ) = -ratio ω μ σ := by
  have hr := ratio_ne hω hμ hσ
  have hb := (quad_step hω hμ hσ ha (quad_bottom hω hμ hσ)).1
  have e : -ratio ω μ σ / ratio ω μ σ = -1 := by field_simp
  rw [e] at hb
  rw [lstep, e, show -1 - tanhs ω μ σ a = -(1 - -1 * tanhs ω μ σ a) by ring, neg_div, div_self hb]
  ring

/-! ### C136 -/

namespace Props

variable {n : ℕ} {s : Fin (n + 1) → ℝ} {h : Fin n → ℝ}

/-- **C136** (main result). For every layered Earth and every field of a source above it, the impedance
computed by the recursion is the ratio of the horizontal electric and magnetic fields at the surface;
the magnetic field at the surface is not zero. -/
theorem C136_impedance (hω : 0 < ω) (hμ : 0 < μ) (hs : ∀ k, 0 < s k) (hh : ∀ k, 0 ≤ h k)
    {E H : ℝ → ℂ} (hf : IsField ω μ s h E H) :
    H (∑ k, h k) ≠ 0 ∧ E (∑ k, h k) = impedance ω μ s h * H (∑ k, h k) := by
  have key : ∀ m ≤ n, H (height h m) ≠ 0 ∧ E (height h m) = up ω μ (ext s) (ext h) m * H (height h m) := by
    intro m
    induction m with
    | zero =>
      intro _
      have h0 : height h 0 = 0 := by simp [height]
      have e := halfspace hω hμ (hs 0) hf.halfspace hf.bounded
      rw [h0, up, show ext s 0 = s 0 from ext_fin s 0]
      refine ⟨fun hH => hf.nonzero ⟨by rw [e, hH]; simp, hH⟩, e⟩
    | succ m ih =>
      intro hm
      obtain ⟨i1, i2⟩ := ih (by omega)
      let k : Fin n := ⟨m, by omega⟩
      have hl := hf.layer k
      have hk : height h (m + 1) = height h m + h k := height_succ h k
      rw [show (k : ℕ) = m from rfl, hk] at hl
      have := layer_step hω hμ (hs k.succ) (hh k) hl
        (up_quad (n := n) hω hμ (fun i hi => ext_pos hs (by omega)) (fun i _ => ext_nonneg hh i) m (by omega)) i1 i2
      rw [hk, up, show ext s (m + 1) = s k.succ from ext_fin s k.succ, show ext h m = h k from ext_fin h k]
      exact this
  have := key n le_rfl
  rw [← impedance_up, show height h n = ∑ k, h k by simp [height]] at this
  exact this

/-- The fields that the recursion follows, layer by layer. -/
def field (ω μ : ℝ) (σ h : ℕ → ℝ) (H : ℕ → ℝ) : ℕ → ℝ → ℂ × ℂ
  | 0, z => (-ratio ω μ (σ 0) * exp (alpha ω μ (σ 0) * z), exp (alpha ω μ (σ 0) * z))
  | m + 1, z =>
    if z ≤ H m then field ω μ σ h H m z
    else
      let α := alpha ω μ (σ (m + 1))
      let r := ratio ω μ (σ (m + 1))
      let p := field ω μ σ h H m (H m)
      (p.1 * cosh (α * (z - H m : ℝ)) - r * p.2 * sinh (α * (z - H m : ℝ)),
        p.2 * cosh (α * (z - H m : ℝ)) - p.1 / r * sinh (α * (z - H m : ℝ)))

/-- **C136.** There is such a field for every layered Earth, so the impedance is determined. -/
theorem C136_field_exists (hω : 0 < ω) (hμ : 0 < μ) (hs : ∀ k, 0 < s k) (hh : ∀ k, 0 ≤ h k) :
    ∃ E H, IsField ω μ s h E H := by
  set F := field ω μ (ext s) (ext h) (height h) with hF
  have h0 : height h 0 = 0 := by simp [height]
  have mono : ∀ a b, a ≤ b → height h a ≤ height h b := by
    intro a b hab
    refine Finset.sum_le_sum fun j _ => ?_
    by_cases h1 : j.1 < a
    · rw [if_pos h1, if_pos (by omega)]
    · rw [if_neg h1]; split
      · exact hh j
      · exact le_rfl
  have below : ∀ m k z, m ≤ k → z ≤ height h m → F k z = F m z := by
    intro m k z hmk hz
    induction k with
    | zero => rw [show m = 0 by omega]
    | succ k ih =>
      rcases Nat.lt_or_ge k m with h1 | h1
      · rw [show m = k + 1 by omega]
      · rw [← ih h1, hF]
        show field _ _ _ _ _ (k + 1) z = _
        rw [field, if_pos (hz.trans (mono m k h1))]
  have hs0 : ext s 0 = s 0 := ext_fin s 0
  have zero : ∀ z ≤ 0, F n z = (-ratio ω μ (s 0) * exp (alpha ω μ (s 0) * z), exp (alpha ω μ (s 0) * z)) := by
    intro z hz
    rw [below 0 n z (by omega) (by rw [h0]; exact hz), hF]
    show field _ _ _ _ _ 0 z = _
    rw [field, hs0]
  refine ⟨fun z => (F n z).1, fun z => (F n z).2, ⟨?_, ?_, ?_, ?_⟩⟩
  · intro z hz
    have hσ := hs 0
    have hsc : ((s 0 : ℝ) : ℂ) ≠ 0 := by exact_mod_cast hσ.ne'
    have e1 : HasDerivAt (fun z : ℝ => exp (alpha ω μ (s 0) * z)) (exp (alpha ω μ (s 0) * z) * (alpha ω μ (s 0) * 1)) z :=
      ((hasDerivAt_id z).ofReal_comp.const_mul (alpha ω μ (s 0))).cexp
    have hw : I * ω * μ = alpha ω μ (s 0) ^ 2 / s 0 := by rw [alpha_sq]; field_simp
    constructor
    · refine ((e1.const_mul (-ratio ω μ (s 0))).hasDerivWithinAt.congr (fun y hy => by simp only [zero y hy])
        (by simp only [zero z hz])).congr_deriv ?_
      simp only [zero z hz]
      rw [hw, ratio]; field_simp
    · refine (e1.hasDerivWithinAt.congr (fun y hy => by simp only [zero y hy])
        (by simp only [zero z hz])).congr_deriv ?_
      simp only [zero z hz]
      rw [ratio]; field_simp
  · intro k
    have hσ := hs k.succ
    set α := alpha ω μ (s k.succ) with hα
    set r := ratio ω μ (s k.succ) with hr
    set a := height h k with ha
    set p := F k a with hp
    have hsc : ((s k.succ : ℝ) : ℂ) ≠ 0 := by exact_mod_cast hσ.ne'
    have hαne : α ≠ 0 := alpha_ne hω hμ hσ
    have hw : I * ω * μ = α ^ 2 / s k.succ := by rw [hα, alpha_sq]; field_simp
    have hform : ∀ z ∈ Set.Icc a (height h (k + 1)), F n z =
        (p.1 * cosh (α * (z - a : ℝ)) - r * p.2 * sinh (α * (z - a : ℝ)),
        p.2 * cosh (α * (z - a : ℝ)) - p.1 / r * sinh (α * (z - a : ℝ))) := by
      intro z hz
      rw [below (k + 1) n z k.2 hz.2]
      rcases hz.1.eq_or_lt with h1 | h1
      · rw [← h1, below k (k + 1) a (by omega) le_rfl]
        simp [hp]
      · rw [hF]
        show field _ _ _ _ _ (k + 1) z = _
        rw [field, if_neg (by rw [← ha]; exact not_le.2 h1), show ext s (k + 1) = s k.succ from ext_fin s k.succ]
    intro z hz
    have d0 : HasDerivAt (fun z : ℝ => α * ((z - a : ℝ) : ℂ)) (α * 1) z := by
      have := ((hasDerivAt_id z).sub_const a).ofReal_comp.const_mul α
      simpa using this
    have hc := (Complex.hasDerivAt_cosh (α * ((z - a : ℝ) : ℂ))).comp_hasDerivWithinAt z d0.hasDerivWithinAt
      (s := Set.Icc a (height h (k + 1)))
    have hsn := (Complex.hasDerivAt_sinh (α * ((z - a : ℝ) : ℂ))).comp_hasDerivWithinAt z d0.hasDerivWithinAt
      (s := Set.Icc a (height h (k + 1)))
    constructor
    · refine (((hc.const_mul p.1).sub (hsn.const_mul (r * p.2))).congr (fun y hy => by simp [hform y hy])
        (by simp [hform z hz])).congr_deriv ?_
      simp only [hform z hz]
      rw [hw, hr, ratio, ← hα]; field_simp; ring
    · refine (((hc.const_mul p.2).sub (hsn.const_mul (p.1 / r))).congr (fun y hy => by simp [hform y hy])
        (by simp [hform z hz])).congr_deriv ?_
      simp only [hform z hz]
      rw [hr, ratio, ← hα]; field_simp; ring
  · refine ⟨‖ratio ω μ (s 0)‖, fun z hz => ?_⟩
    simp only [zero z hz]
    rw [norm_mul, norm_neg, Complex.norm_exp]
    refine mul_le_of_le_one_right (norm_nonneg _) (Real.exp_le_one_iff.2 ?_)
    have := alpha_re hω hμ (hs 0)
    simp
    exact mul_nonpos_of_nonneg_of_nonpos this.le hz
  · simp [zero 0 le_rfl]

/-- A conductive layer above a resistive half-space. -/
example : ∃ E H, IsField (2 * Real.pi) 1 ![1 / 100, 1 / 10] ![(50 : ℝ)] E H :=
  C136_field_exists (by positivity) one_pos (by intro k; fin_cases k <;> norm_num) (by intro k; fin_cases k; norm_num)

/-- **C136.** The impedance is in the third quadrant: its phase is between -180 and -90 degrees and the
apparent resistivity is positive. -/
theorem C136_quadrant (hω : 0 < ω) (hμ : 0 < μ) (hs : ∀ k, 0 < s k) (hh : ∀ k, 0 ≤ h k) :
    (impedance ω μ s h).re < 0 ∧ (impedance ω μ s h).im < 0 := by
  rw [impedance_up]
  exact up_quad hω hμ (fun i hi => ext_pos hs (by omega)) (fun i _ => ext_nonneg hh i) n le_rfl

/-- **C136.** In a uniform Earth the layers cannot be seen: the apparent resistivity `|Z|²/(ωμ)` is the
resistivity and the phase is -135 degrees. -/
theorem C136_uniform (hω : 0 < ω) (hμ : 0 < μ) {c : ℝ} (hc : 0 < c) (hs : ∀ k, s k = c) (hh : ∀ k, 0 ≤ h k) :
    ‖impedance ω μ s h‖ ^ 2 / (ω * μ) = 1 / c ∧ arg (impedance ω μ s h) = -(3 * Real.pi / 4) := by
  have e : ∀ m ≤ n, up ω μ (ext s) (ext h) m = -ratio ω μ c := by
    intro m
    induction m with
    | zero => intro _; rw [up, show ext s 0 = s 0 from ext_fin s 0, hs]
    | succ m ih =>
      intro hm
      rw [up, ih (by omega), show ext s (m + 1) = s ⟨m + 1, by omega⟩ from ext_fin s ⟨m + 1, by omega⟩, hs,
        lstep_match hω hμ hc (ext_nonneg hh m)]
  rw [impedance_up, e n le_rfl]
  have hx : 0 < Real.sqrt (ω * μ * c / 2) / c := by positivity
  have hz : -ratio ω μ c = ((Real.sqrt (ω * μ * c / 2) / c : ℝ) : ℂ) * (-1 - I) := by
    rw [ratio, alpha_eq hω hμ hc]; push_cast; ring
  constructor
  · rw [← Complex.normSq_eq_norm_sq, hz, normSq_mul, normSq_ofReal]
    have h2 : normSq (-1 - I) = 2 := by simp [normSq_apply]; norm_num
    rw [h2, div_mul_div_comm, Real.mul_self_sqrt (by positivity)]
    field_simp
  · rw [hz, arg_real_mul _ hx]
    have h3 : (-1 - I : ℂ) = (Real.sqrt 2 : ℝ) * (cos (-(3 * Real.pi / 4) : ℝ) + sin (-(3 * Real.pi / 4) : ℝ) * I) := by
      rw [← ofReal_cos, ← ofReal_sin, Real.cos_neg, Real.sin_neg,
        show 3 * Real.pi / 4 = Real.pi - Real.pi / 4 by ring, Real.cos_pi_sub, Real.sin_pi_sub,
        Real.cos_pi_div_four, Real.sin_pi_div_four]
      have h2 : ((Real.sqrt 2 : ℝ) : ℂ) * (Real.sqrt 2 : ℝ) = 2 := by
        rw [← ofReal_mul, Real.mul_self_sqrt (by norm_num)]; norm_num
      push_cast
      linear_combination (1 / 2 + I / 2) * h2
    rw [h3]
    exact arg_mul_cos_add_sin_mul_I (by positivity) ⟨by linarith [Real.pi_pos], by linarith [Real.pi_pos]⟩

/-- Three layers of one conductivity. -/
example : arg (impedance (2 * Real.pi) 1 (fun _ : Fin 3 => (1 / 10 : ℝ)) ![50, 70]) = -(3 * Real.pi / 4) :=
  (C136_uniform (by positivity) one_pos (by norm_num) (fun _ => rfl) (by intro k; fin_cases k <;> norm_num)).2

/-- **C136.** Splitting a layer into two layers of its conductivity changes nothing. -/
theorem C136_split (hω : 0 < ω) (hμ : 0 < μ) (hs : ∀ k, 0 < s k) (hh : ∀ k, 0 ≤ h k) (k : Fin n)
    {s' : Fin (n + 2) → ℝ} {h' : Fin (n + 1) → ℝ}
    (hs1 : ∀ j : Fin (n + 1), j ≤ k.succ → s' j.castSucc = s j) (hs2 : ∀ j : Fin (n + 1), k.succ ≤ j → s' j.succ = s j)
    (hh1 : ∀ j : Fin n, j < k → h' j.castSucc = h j) (hh2 : ∀ j : Fin n, k < j → h' j.succ = h j)
    (ha : 0 ≤ h' k.castSucc) (hb : 0 ≤ h' k.succ) (hab : h' k.castSucc + h' k.succ = h k) :
    impedance ω μ s' h' = impedance ω μ s h := by
  have q := up_quad (μ := μ) (s := ext s) (h := ext h) (n := n) hω hμ (fun i hi => ext_pos hs (by omega))
    (fun i _ => ext_nonneg hh i)
  have lo : ∀ m ≤ k.1, up ω μ (ext s') (ext h') m = up ω μ (ext s) (ext h) m := by
    intro m
    induction m with
    | zero =>
      intro _
      have := hs1 0 (Fin.zero_le _)
      rw [up, up, show ext s' 0 = s' (Fin.castSucc 0) from ext_fin s' (Fin.castSucc 0), this, show ext s 0 = s 0 from ext_fin s 0]
    | succ m ih =>
      intro hm
      have hk := k.2
      have e1 := hs1 ⟨m + 1, by omega⟩ (by rw [Fin.le_def]; simp; omega)
      have e2 := hh1 ⟨m, by omega⟩ (by rw [Fin.lt_def]; simp; omega)
      rw [up, up, ih (by omega), show ext s' (m + 1) = s' (Fin.castSucc ⟨m + 1, by omega⟩) from ext_fin s' (Fin.castSucc ⟨m + 1, by omega⟩), e1,
        show ext h' m = h' (Fin.castSucc ⟨m, by omega⟩) from ext_fin h' (Fin.castSucc ⟨m, by omega⟩), e2,
        show ext s (m + 1) = s ⟨m + 1, by omega⟩ from ext_fin s ⟨m + 1, by omega⟩,
        show ext h m = h ⟨m, by omega⟩ from ext_fin h ⟨m, by omega⟩]
  have hi : ∀ j, k.1 + 1 + j ≤ n → up ω μ (ext s') (ext h') (k + 1 + j + 1) = up ω μ (ext s) (ext h) (k + 1 + j) := by
    intro j
    induction j with
    | zero =>
      intro _
      have e1 := hs1 k.succ le_rfl
      have e2 := hs2 k.succ le_rfl
      rw [show k.1 + 1 + 0 + 1 = (k.1 + 1) + 1 by omega, show k.1 + 1 + 0 = k.1 + 1 by omega, up, up, up,
        lo k le_rfl, show ext s' (k.1 + 1) = s' k.succ.castSucc from ext_fin s' k.succ.castSucc, e1,
        show ext s' (k.1 + 1 + 1) = s' k.succ.succ from ext_fin s' k.succ.succ, e2,
        show ext h' (k.1 + 1) = h' k.succ from ext_fin h' k.succ,
        show ext h' k.1 = h' k.castSucc from ext_fin h' k.castSucc,
        lstep_add hω hμ (hs k.succ) ha hb (q k k.2.le), hab,
        show ext s (k.1 + 1) = s k.succ from ext_fin s k.succ, show ext h k.1 = h k from ext_fin h k]
    | succ j ih =>
      intro hj
      have e1 := hs2 ⟨k + 1 + (j + 1), by omega⟩ (by rw [Fin.le_def]; simp)
      have e2 := hh2 ⟨k + 1 + j, by omega⟩ (by rw [Fin.lt_def]; simp; omega)
      rw [show k.1 + 1 + (j + 1) = k.1 + 1 + j + 1 by omega, up_succ (ext s') (ext h') (k.1 + 1 + j + 1), up_succ (ext s) (ext h) (k.1 + 1 + j), ih (by omega),
        show ext s' (k.1 + 1 + j + 1 + 1) = s' (Fin.succ ⟨k + 1 + (j + 1), by omega⟩) from ext_fin s' (Fin.succ ⟨k + 1 + (j + 1), by omega⟩), e1,
        show ext h' (k.1 + 1 + j + 1) = h' (Fin.succ ⟨k + 1 + j, by omega⟩) from ext_fin h' (Fin.succ ⟨k + 1 + j, by omega⟩), e2,
        show ext s (k.1 + 1 + j + 1) = s ⟨k + 1 + (j + 1), by omega⟩ from ext_fin s ⟨k + 1 + (j + 1), by omega⟩,
        show ext h (k.1 + 1 + j) = h ⟨k + 1 + j, by omega⟩ from ext_fin h ⟨k + 1 + j, by omega⟩]
  rw [impedance_up, impedance_up]
  have hk := k.2
  have := hi (n - (k + 1)) (by omega)
  rw [show k.1 + 1 + (n - (k + 1)) = n by omega] at this
  exact this

/-- A layer of 50 m split into 20 m and 30 m. -/
example : impedance (2 * Real.pi) 1 ![1 / 100, 1 / 10, 1 / 10] ![(20 : ℝ), 30] =
    impedance (2 * Real.pi) 1 ![1 / 100, 1 / 10] ![(50 : ℝ)] :=
  C136_split (by positivity) one_pos (by intro k; fin_cases k <;> norm_num) (by intro k; fin_cases k; norm_num) 0
    (by intro j _; fin_cases j <;> rfl) (by intro j hj; fin_cases j <;> simp_all)
    (by intro j hj; fin_cases j; simp at hj) (by intro j hj; fin_cases j; simp at hj)
    (by simp) (by simp) (by simp; norm_num)

/-- **C136.** The two loops of the code, of predictions and of sensitivities, give the same impedance. -/
theorem C136_loops : Zs (fun ii => ratio ω μ (rev s ii)) (fun ii => tanhs ω μ (rev s ii) (rev h ii)) n 0 =
    impedance ω μ s h := by
  rw [impedance, Zloop_eq _ _ n n le_rfl, Nat.sub_self]

/-- **C136.** The sensitivities returned by the code are the derivatives of the impedance with respect to
the conductivities and the thicknesses, along every differentiable path of models. -/
theorem C136_sensitivity {V : Type*} [NormedAddCommGroup V] [NormedSpace ℝ V] {x : V}
    {S : V → Fin (n + 1) → ℝ} {T : V → Fin n → ℝ} {S' : Fin (n + 1) → V →L[ℝ] ℝ} {T' : Fin n → V →L[ℝ] ℝ}
    (hω : 0 < ω) (hμ : 0 < μ) (hs : ∀ k, 0 < S x k) (hh : ∀ k, 0 ≤ T x k)
    (hS : ∀ k, HasFDerivAt (fun y => S y k) (S' k) x) (hT : ∀ k, HasFDerivAt (fun y => T y k) (T' k) x) :
    ∃ D : V →L[ℝ] ℂ, HasFDerivAt (fun y => impedance ω μ (S y) (T y)) D x ∧
      ∀ v, D v = ∑ k, impedanceDsigma ω μ (S x) (T x) k * (S' k v : ℝ)
        + ∑ k, impedanceDthick ω μ (S x) (T x) k * (T' k v : ℝ) := by
  let S1 : ℕ → V →L[ℝ] ℝ := fun ii => if hi : ii < n + 1 then S' ⟨n + 1 - 1 - ii, by omega⟩ else 0
  let T1 : ℕ → V →L[ℝ] ℝ := fun ii => if hi : ii < n then T' ⟨n - 1 - ii, by omega⟩ else 0
  have hS1 : ∀ ii ≤ n, HasFDerivAt (fun y => rev (S y) ii) (S1 ii) x := by
    intro ii hi
    have h1 : ii < n + 1 := by omega
    simp only [rev, S1, dif_pos h1]
    exact hS _
  have hT1 : ∀ ii < n, HasFDerivAt (fun y => rev (T y) ii) (T1 ii) x := by
    intro ii hi
    simp only [rev, T1, dif_pos hi]
    exact hT _
  have pos : ∀ ii ≤ n, 0 < rev (S x) ii := fun ii hi => rev_pos hs (by omega)
  let a' : ℕ → ℂ := fun ii => 0.5 * I * ω * μ / alpha ω μ (rev (S x) ii)
  -- the roots
  have hα : ∀ ii ≤ n, HasFDerivAt (fun y => alpha ω μ (rev (S y) ii)) ((S1 ii).smulRight (a' ii)) x := by
    intro ii hi
    have := (alpha_deriv hω hμ (pos ii hi)).hasFDerivAt.comp x (hS1 ii hi)
    refine this.congr_fderiv ?_
    ext v
    simp [a']
  have hRex : ∀ ii ≤ n, ∃ D : V →L[ℝ] ℂ, HasFDerivAt (fun y => ratio ω μ (rev (S y) ii)) D x ∧
      ∀ v, D v = (a' ii / rev (S x) ii - ratio ω μ (rev (S x) ii) / rev (S x) ii) * (S1 ii v : ℝ) := by
    intro ii hi
    have hne : ((rev (S x) ii : ℝ) : ℂ) ≠ 0 := by exact_mod_cast (pos ii hi).ne'
    have hσ : HasFDerivAt (fun y => ((rev (S y) ii : ℝ) : ℂ)) (ofRealCLM.comp (S1 ii)) x :=
      ofRealCLM.hasFDerivAt.comp x (hS1 ii hi)
    have hinv := (hasDerivAt_inv hne).comp_hasFDerivAt x hσ
    refine ⟨_, (hα ii hi).mul hinv, fun v => ?_⟩
    simp [ratio]
    field_simp
    ring
  have hTex : ∀ ii < n, ∃ D : V →L[ℝ] ℂ, HasFDerivAt (fun y => tanhs ω μ (rev (S y) ii) (rev (T y) ii)) D x ∧
      ∀ v, D v = (1 - tanhs ω μ (rev (S x) ii) (rev (T x) ii) ^ 2) *
        (a' ii * rev (T x) ii * (S1 ii v : ℝ) + alpha ω μ (rev (S x) ii) * (T1 ii v : ℝ)) := by
    intro ii hi
    have hτ : HasFDerivAt (fun y => ((rev (T y) ii : ℝ) : ℂ)) (ofRealCLM.comp (T1 ii)) x :=
      ofRealCLM.hasFDerivAt.comp x (hT1 ii hi)
    have hc : cosh (alpha ω μ (rev (S x) ii) * (rev (T x) ii : ℝ)) ≠ 0 := by
      rcases (rev_nonneg hh ii).lt_or_eq with h0 | h0
      · apply cosh_ne
        have : 0 < (alpha ω μ (rev (S x) ii)).re * rev (T x) ii := mul_pos (alpha_re hω hμ (pos ii hi.le)) h0
        simpa using this.ne'
      · rw [← h0]; simp
    refine ⟨_, (tanh_deriv hc).comp_hasFDerivAt x ((hα ii hi.le).mul hτ), fun v => ?_⟩
    simp [tanhs]
    ring
  choose! R1 hR1 hR2 using hRex
  choose! Q1 hQ1 hQ2 using hTex
  have hb : ∀ ii < n, bot (fun ii => ratio ω μ (rev (S x) ii)) (fun ii => tanhs ω μ (rev (S x) ii) (rev (T x) ii)) n ii ≠ 0 := by
    intro ii hi
    exact (quad_step hω hμ (pos ii hi.le) (rev_nonneg hh ii)
      (Zs_quad (n := n) hω hμ (s := rev (S x)) (h := rev (T x)) pos (rev_nonneg hh) (n - (ii + 1)) (ii + 1) (by omega))).1
  obtain ⟨D, hD, hv⟩ := sweep n hR1 hQ1 (fun ii hi => ratio_ne hω hμ (pos ii hi.le)) hb n 0 (by omega)
  refine ⟨D, hD.congr_of_eventuallyEq (Filter.Eventually.of_forall fun y => C136_loops.symm), fun v => ?_⟩
  have h1 := hv v
  rw [gZ, one_mul] at h1
  rw [h1]
  have e1 : ∑ k, impedanceDsigma ω μ (S x) (T x) k * (S' k v : ℝ) =
      ∑ ii ∈ Finset.range (n + 1), dSigma ω μ (rev (S x)) (rev (T x)) n ii * (S1 ii v : ℝ) := by
    rw [← Fin.sum_univ_eq_sum_range (fun ii => dSigma ω μ (rev (S x)) (rev (T x)) n ii * (S1 ii v : ℝ)),
      ← Equiv.sum_comp Fin.revPerm]
    refine Finset.sum_congr rfl fun k _ => ?_
    have hk := k.2
    simp only [Fin.revPerm_apply, impedanceDsigma, S1, dif_pos hk]
    have e : Fin.rev k = ⟨n + 1 - 1 - k, by omega⟩ := by ext; simp [Fin.val_rev]
    rw [e]
    simp only
    rw [show n - (n + 1 - 1 - k.1) = k by omega]
  have e2 : ∑ k, impedanceDthick ω μ (S x) (T x) k * (T' k v : ℝ) =
      ∑ ii ∈ Finset.range n, dThick ω μ (rev (S x)) (rev (T x)) n ii * (T1 ii v : ℝ) := by
    rw [← Fin.sum_univ_eq_sum_range (fun ii => dThick ω μ (rev (S x)) (rev (T x)) n ii * (T1 ii v : ℝ)),
      ← Equiv.sum_comp Fin.revPerm]
    refine Finset.sum_congr rfl fun k _ => ?_
    have hk := k.2
    simp only [Fin.revPerm_apply, impedanceDthick, T1, dif_pos hk]
    have e : Fin.rev k = ⟨n - 1 - k, by omega⟩ := by ext; simp [Fin.val_rev]; omega
    rw [e]
    simp only
    rw [show n - 1 - (n - 1 - k.1) = k by omega]
  rw [e1, e2, Finset.sum_range_succ, add_right_comm, ← Finset.sum_add_distrib, Finset.range_eq_Ico, sub_eq_add_neg]
  congr 1
  · refine Finset.sum_congr rfl fun ii hi => ?_
    have hi : ii < n := by simpa using hi
    rw [hR2 ii hi.le, hQ2 ii hi, dSigma, dThick]
    simp only [gratios, if_pos hi, a']
    ring
  · rw [hR2 n le_rfl, dSigma]
    simp only [gratios, lt_irrefl, if_false, a']
    ring

/-- The model vector itself: two conductivities and a thickness. -/
example : ∃ D : (Fin 3 → ℝ) →L[ℝ] ℂ, HasFDerivAt
    (fun m : Fin 3 → ℝ => impedance (2 * Real.pi) 1 ![m 0, m 1] ![m 2]) D ![1 / 100, 1 / 10, 50] := by
  obtain ⟨D, hD, _⟩ := C136_sensitivity (n := 1) (V := Fin 3 → ℝ) (x := ![1 / 100, 1 / 10, 50])
    (S := fun m => ![m 0, m 1]) (T := fun m => ![m 2])
    (S' := ![ContinuousLinearMap.proj 0, ContinuousLinearMap.proj 1]) (T' := ![ContinuousLinearMap.proj 2])
    (ω := 2 * Real.pi) (μ := 1) (by positivity) one_pos (by intro k; fin_cases k <;> norm_num)
    (by intro k; fin_cases k; show (0 : ℝ) ≤ 50; norm_num)
    (by intro k; fin_cases k <;> exact hasFDerivAt_apply _ _) (by intro k; fin_cases k; exact hasFDerivAt_apply _ _)
  exact ⟨D, hD⟩

end Props

end Verif.NSEM.Layered
