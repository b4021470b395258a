import Verif.NSEM.Layered
import Mathlib.Analysis.SpecialFunctions.Pow.Real

/-!
C159: the analytic plane wave fields and impedances of a layered Earth, `getEHfields` and `getImpedance`
(`simpeg/electromagnetics/natural_source/utils/analytic_1d.py`). Arrays are functions of `ℕ`, from the bottom;
entries outside of the arrays are never read. `n` is the number of cells, `σ` their conductivities.
-/

noncomputable section
namespace Verif.NSEM.Analytic
open Verif Complex

/-! ### The code -/

/-- `np.sqrt(eps * mu * w**2 - 1j * mu * sig * w)`, the principal root (28, 119). -/
def wave (ε μ w σ : ℝ) : ℂ := ((ε * μ * w ^ 2 : ℝ) - I * μ * σ * w : ℂ) ^ (1 / 2 : ℂ)

/-- `sig`: the half-space below the mesh, then the cells (26). -/
def sig (σ : ℕ → ℝ) : ℕ → ℝ
  | 0 => σ 0
  | j + 1 => σ j

/-- Up and down components at the top of the layer, from those at the top of the layer below (40-55). -/
def prop (w μ : ℝ) (k k' : ℂ) (h : ℝ) (p : ℂ × ℂ) : ℂ × ℂ :=
  let yp1 := k / (w * μ);
  let zp := (w * μ) / k';
  let a := 1 * p.1 + 1 * p.2;
  let b := yp1 * p.1 + -yp1 * p.2;
  let u := 1 / 2 * (1 * a + zp * b);
  let d := 1 / 2 * (1 * a + -zp * b);
  (exp (-1 * I * k' * h) * u, exp (1 * I * k' * h) * d)

/-- One pass of the loop (38-66). Divisions by zero give values that are not finite. -/
def pass (w μ : ℝ) (k : ℕ → ℂ) (h : ℕ → ℝ) (scaleUD : Bool) (scaleValue : ℂ) (lnr : ℕ) (UDp : ℕ → ℂ × ℂ) :
    ℕ → ℂ × ℂ :=
  let new := prop w μ (k lnr) (k (lnr + 1)) (h lnr) (UDp lnr);
  let UDp := fun j => if j = lnr + 1 then new else UDp j;
  if scaleUD then
    if new.2 = 0 then
      fun j => if j ≤ lnr + 1 then (if j = lnr + 1 then (0, scaleValue) else (0, 0)) else UDp j
    else fun j => if j ≤ lnr + 1 then ((UDp j).1 / new.2, (UDp j).2 / new.2) else UDp j
  else UDp

/-- `UDp` after `m` passes (31-66). -/
def loop (w μ : ℝ) (k : ℕ → ℂ) (h : ℕ → ℝ) (scaleUD : Bool) (scaleValue : ℂ) : ℕ → ℕ → ℂ × ℂ
  | 0 => fun j => if j = 0 then (0, scaleValue) else (0, 0)
  | m + 1 => pass w μ k h scaleUD scaleValue m (loop w μ k h scaleUD scaleValue m)

/-- `m1d.nodes_x`. -/
def node (x0 : ℝ) (h : ℕ → ℝ) (j : ℕ) : ℝ := x0 + ∑ i ∈ Finset.range j, h i

/-- `Ed, Eu, Hd, Hu` at a place below `dup` in a layer (78-81, 91-94). -/
def values (w μ : ℝ) (k : ℂ) (dup : ℝ) (p : ℂ × ℂ) (zd : ℝ) : ℂ × ℂ × ℂ × ℂ :=
  (p.2 * exp (-1 * I * k * (dup - zd)), p.1 * exp (1 * I * k * (dup - zd)),
    k / (w * μ) * p.2 * exp (-1 * I * k * (dup - zd)), -(k / (w * μ)) * p.1 * exp (1 * I * k * (dup - zd)))

/-- The loop that fills the fields of a place; `none` is what `np.empty` left there (68-94). -/
def fill (w μ : ℝ) (k : ℕ → ℂ) (x0 : ℝ) (h : ℕ → ℝ) (UDp : ℕ → ℂ × ℂ) (zd : ℝ) : ℕ → Option (ℂ × ℂ × ℂ × ℂ)
  | 0 => if node x0 h 0 ≥ zd then some (values w μ (k 0) (node x0 h 0) (UDp 0) zd) else none
  | m + 1 =>
    if node x0 h (m + 1) ≥ zd ∧ zd > node x0 h m then
      some (values w μ (k (m + 1)) (node x0 h (m + 1)) (UDp (m + 1)) zd)
    else fill w μ k x0 h UDp zd m

/-- `getEHfields` at a place (6-97). -/
def getEHfields (ε μ freq x0 : ℝ) (n : ℕ) (h σ : ℕ → ℝ) (scaleUD : Bool) (scaleValue : ℂ) (zd : ℝ) :
    Option (ℂ × ℂ × ℂ × ℂ) :=
  let w := 2 * Real.pi * freq;
  let k := fun j => wave ε μ w (sig σ j);
  fill w μ k x0 h (loop w μ k h scaleUD scaleValue n) zd n

/-- `Zall` (110-127). -/
def Zall (ε μ om : ℝ) (h σ : ℕ → ℝ) : ℕ → ℂ
  | 0 => (μ * om) / wave ε μ om (σ 0)
  | nr + 1 =>
    let k := wave ε μ om (σ nr);
    let Z := (μ * om) / k;
    let Zb := Zall ε μ om h σ nr;
    Z * ((Zb + Z * tanh (1 * I * k * h nr)) / (Z + Zb * tanh (1 * I * k * h nr)))

/-- `getImpedance` at a frequency (100-132). -/
def getImpedance (ε μ freq : ℝ) (n : ℕ) (h σ : ℕ → ℝ) : ℂ := Zall ε μ (2 * Real.pi * freq) h σ n

/-! ### Specification -/

/-- Plane wave fields in a layer, `z` upwards, time dependence `exp(iωt)`: `dE/dz = iωμ H`,
`dH/dz = (σ + iωε) E`, the displacement current included. -/
def Maxwell (ε μ ω σ : ℝ) (E H : ℝ → ℂ) (s : Set ℝ) : Prop :=
  ∀ z ∈ s, HasDerivWithinAt E (I * ω * μ * H z) s z ∧ HasDerivWithinAt H ((σ + I * ω * ε) * E z) s z

/-- Fields of a source above the mesh: Maxwell's equations in all cells and in the half-space below, whose
conductivity is that of the lowest cell; bounded below; not zero. Both fields are continuous. -/
structure IsField (ε μ ω x0 : ℝ) (n : ℕ) (h σ : ℕ → ℝ) (E H : ℝ → ℂ) : Prop where
  halfspace : Maxwell ε μ ω (σ 0) E H (Set.Iic x0)
  layer : ∀ j < n, Maxwell ε μ ω (σ j) E H (Set.Icc (node x0 h j) (node x0 h (j + 1)))
  bounded : ∃ C, ∀ z ≤ x0, ‖E z‖ ≤ C
  nonzero : ¬ (E x0 = 0 ∧ H x0 = 0)

/-! ### Lemmas -/

section lemmas
variable {ε μ ω σ : ℝ}

theorem wave_sq (ε μ ω σ : ℝ) : wave ε μ ω σ ^ 2 = (ε * μ * ω ^ 2 : ℝ) - I * μ * σ * ω := by
  have := Complex.cpow_nat_inv_pow ((ε * μ * ω ^ 2 : ℝ) - I * μ * σ * ω : ℂ) (n := 2) (by norm_num)
  simpa [wave] using this

theorem wave_re (hω : 0 < ω) (hμ : 0 < μ) (hσ : 0 < σ) : 0 < (wave ε μ ω σ).re := by
  unfold wave
  rw [one_div, Complex.cpow_inv_two_re]
  apply Real.sqrt_pos.mpr
  set x := ((ε * μ * ω ^ 2 : ℝ) - I * μ * σ * ω : ℂ) with hx
  have him : x.im ≠ 0 := by
    have : x.im = -(μ * σ * ω) := by rw [hx, Complex.sub_im, Complex.ofReal_im]; simp
    rw [this]; have : 0 < μ * σ * ω := by positivity
    linarith
  have := Complex.abs_re_lt_norm.mpr him
  have h2 := neg_abs_le x.re
  linarith

theorem wave_im (hω : 0 < ω) (hμ : 0 < μ) (hσ : 0 < σ) : (wave ε μ ω σ).im < 0 := by
  have h1 := wave_re (ε := ε) hω hμ hσ
  have h2 := congrArg Complex.im (wave_sq ε μ ω σ)
  rw [pow_two, Complex.mul_im] at h2
  have h3 : ((ε * μ * ω ^ 2 : ℝ) - I * μ * σ * ω : ℂ).im = -(μ * σ * ω) := by
    rw [Complex.sub_im, Complex.ofReal_im]; simp
  rw [h3] at h2
  have : 0 < μ * σ * ω := by positivity
  nlinarith

theorem wave_ne (hω : 0 < ω) (hμ : 0 < μ) (hσ : 0 < σ) : wave ε μ ω σ ≠ 0 := by
  intro h; have := wave_re (ε := ε) hω hμ hσ; rw [h] at this; simp at this

/-- Impedance of the medium. -/
def imp (ε μ ω σ : ℝ) : ℂ := (ω * μ) / wave ε μ ω σ

theorem imp_ne (hω : 0 < ω) (hμ : 0 < μ) (hσ : 0 < σ) : imp ε μ ω σ ≠ 0 := by
  unfold imp
  exact div_ne_zero (mul_ne_zero (by exact_mod_cast hω.ne') (by exact_mod_cast hμ.ne')) (wave_ne hω hμ hσ)

theorem coef1 (hω : 0 < ω) (hμ : 0 < μ) (hσ : 0 < σ) :
    (I * ω * μ : ℂ) = I * wave ε μ ω σ * imp ε μ ω σ := by
  have := wave_ne (ε := ε) hω hμ hσ
  unfold imp; field_simp

theorem coef2 (hω : 0 < ω) (hμ : 0 < μ) (hσ : 0 < σ) :
    (σ + I * ω * ε : ℂ) * imp ε μ ω σ = I * wave ε μ ω σ := by
  have h1 := wave_ne (ε := ε) hω hμ hσ
  have h2 := wave_sq ε μ ω σ
  unfold imp
  rw [mul_div_assoc', div_eq_iff h1]
  push_cast at h2
  linear_combination (-I) * h2 + (μ * σ * ω : ℂ) * I_sq

theorem Maxwell.mono {E H : ℝ → ℂ} {s s' : Set ℝ} (hm : Maxwell ε μ ω σ E H s) (h : s' ⊆ s) :
    Maxwell ε μ ω σ E H s' := fun z hz => ⟨(hm z (h hz)).1.mono h, (hm z (h hz)).2.mono h⟩

/-- The two exponential parts of the fields in a homogeneous layer. -/
theorem parts (hω : 0 < ω) (hμ : 0 < μ) (hσ : 0 < σ) {E H : ℝ → ℂ} {a b : ℝ}
    (hm : Maxwell ε μ ω σ E H (Set.Icc a b)) (z : ℝ) (hz : z ∈ Set.Icc a b) :
    E z - imp ε μ ω σ * H z = (E a - imp ε μ ω σ * H a) * exp (-(I * wave ε μ ω σ * (z - a))) ∧
    E z + imp ε μ ω σ * H z = (E a + imp ε μ ω σ * H a) * exp (I * wave ε μ ω σ * (z - a)) := by
  have c1 := coef1 (ε := ε) hω hμ hσ
  have c2 := coef2 (ε := ε) hω hμ hσ
  set Z := imp ε μ ω σ
  set κ := I * wave ε μ ω σ
  have key : ∀ (e : ℂ) (he : e = 1 ∨ e = -1), ∀ z ∈ Set.Icc a b,
      (E z - e * (Z * H z)) * exp (e * κ * (z - a)) = E a - e * (Z * H a) := by
    intro e he
    have hee : e * e = 1 := by rcases he with rfl | rfl <;> norm_num
    have hd : ∀ z ∈ Set.Icc a b, HasDerivWithinAt
        (fun z : ℝ => (E z - e * (Z * H z)) * exp (e * κ * ((z : ℂ) - a))) 0 (Set.Icc a b) z := by
      intro z hz
      obtain ⟨h1, h2⟩ := hm z hz
      have h3 : HasDerivWithinAt (fun z : ℝ => e * κ * ((z : ℂ) - a)) (e * κ * 1) (Set.Icc a b) z :=
        ((hasDerivAt_id z).ofReal_comp.hasDerivWithinAt.sub_const (a : ℂ)).const_mul (e * κ)
      have h4 := (h1.sub ((h2.const_mul Z).const_mul e)).mul h3.cexp
      refine h4.congr_deriv ?_
      simp only [Pi.sub_apply]
      rw [c1]
      linear_combination (-e * E z * exp (e * κ * (z - a))) * c2 - (κ * Z * H z * exp (e * κ * (z - a))) * hee
    have hc : ContinuousOn (fun z : ℝ => (E z - e * (Z * H z)) * exp (e * κ * ((z : ℂ) - a)))
        (Set.Icc a b) := fun z hz => (hd z hz).continuousWithinAt
    have hd' : ∀ z ∈ Set.Ico a b, HasDerivWithinAt
        (fun z : ℝ => (E z - e * (Z * H z)) * exp (e * κ * ((z : ℂ) - a))) 0 (Set.Ici z) z := by
      intro z hz
      refine (hd z (Set.Ico_subset_Icc_self hz)).mono_of_mem_nhdsWithin ?_
      exact Filter.mem_of_superset (Icc_mem_nhdsGE hz.2) (Set.Icc_subset_Icc_left hz.1)
    intro z hz
    have := constant_of_has_deriv_right_zero hc hd' z hz
    simpa using this
  have h1 := key 1 (Or.inl rfl) z hz
  have h2 := key (-1) (Or.inr rfl) z hz
  constructor
  · rw [one_mul, one_mul, one_mul] at h1
    rw [← h1, mul_assoc, ← exp_add]; simp
  · simp only [neg_one_mul, sub_neg_eq_add] at h2
    rw [← h2, mul_assoc, ← exp_add]; simp

/-- Bounded fields in the half-space go downwards only. -/
theorem halfspace (hω : 0 < ω) (hμ : 0 < μ) (hσ : 0 < σ) {E H : ℝ → ℂ} {x0 : ℝ}
    (hm : Maxwell ε μ ω σ E H (Set.Iic x0)) (hb : ∃ C, ∀ z ≤ x0, ‖E z‖ ≤ C) :
    E x0 = imp ε μ ω σ * H x0 := by
  obtain ⟨C, hC⟩ := hb
  set κ := I * wave ε μ ω σ with hκ
  set Z := imp ε μ ω σ
  set P := E x0 + Z * H x0 with hP
  set Q := E x0 - Z * H x0 with hQ
  have hre : 0 < κ.re := by
    have := wave_im (ε := ε) hω hμ hσ
    rw [hκ]; simp; exact this
  have key : ∀ x : ℝ, 0 ≤ x → ‖Q‖ * (κ.re * x) ≤ 2 * C + ‖P‖ := by
    intro x hx
    have hm' : Maxwell ε μ ω σ E H (Set.Icc (x0 - x) x0) := hm.mono Set.Icc_subset_Iic_self
    obtain ⟨h1, h2⟩ := parts hω hμ hσ hm' x0 ⟨by linarith, le_rfl⟩
    have h2' : E (x0 - x) + Z * H (x0 - x) = P * exp (-(κ * x)) := by
      rw [hP, h2, mul_assoc, ← exp_add]; push_cast; simp [hκ, Z]
    have h1' : E (x0 - x) - Z * H (x0 - x) = Q * exp (κ * x) := by
      rw [hQ, h1, mul_assoc, ← exp_add]; push_cast; simp [hκ, Z]
    have h3 : Q * exp (κ * x) = 2 * E (x0 - x) - P * exp (-(κ * x)) := by
      rw [← h2', ← h1']; ring
    have h4 : ‖Q‖ * Real.exp (κ.re * x) ≤ 2 * C + ‖P‖ := by
      have e1 : ‖Q * exp (κ * x)‖ = ‖Q‖ * Real.exp (κ.re * x) := by
        rw [norm_mul, Complex.norm_exp]; simp
      have e2 : ‖P * exp (-(κ * x))‖ ≤ ‖P‖ := by
        rw [norm_mul, Complex.norm_exp]
        refine mul_le_of_le_one_right (norm_nonneg _) (Real.exp_le_one_iff.2 ?_)
        have : 0 ≤ κ.re * x := by positivity
        simpa using this
      rw [← e1, h3]
      refine (norm_sub_le _ _).trans (add_le_add ?_ e2)
      rw [norm_mul]
      have := hC (x0 - x) (by linarith)
      simpa using this
    have h5 := Real.add_one_le_exp (κ.re * x)
    have : ‖Q‖ * (κ.re * x) ≤ ‖Q‖ * Real.exp (κ.re * x) :=
      mul_le_mul_of_nonneg_left (by linarith) (norm_nonneg _)
    linarith
  have hQ0 : Q = 0 := by
    by_contra hne
    have hq : 0 < ‖Q‖ := norm_pos_iff.2 hne
    have hK : 0 ≤ 2 * C + ‖P‖ := by simpa using key 0 le_rfl
    have := key ((2 * C + ‖P‖ + 1) / (‖Q‖ * κ.re)) (by positivity)
    rw [← mul_assoc, mul_div_cancel₀ _ (by positivity)] at this
    linarith
  exact sub_eq_zero.mp hQ0

/-- The downward flux of energy does not decrease upwards. -/
theorem power (hσ : 0 < σ) {E H : ℝ → ℂ} {a b : ℝ} (hab : a ≤ b)
    (hm : Maxwell ε μ ω σ E H (Set.Icc a b)) :
    (E a * (starRingEnd ℂ) (H a)).re ≤ (E b * (starRingEnd ℂ) (H b)).re := by
  have hd : ∀ z ∈ Set.Icc a b, HasDerivWithinAt (fun z => E z * (starRingEnd ℂ) (H z))
      (I * ω * μ * normSq (H z) + (σ - I * ω * ε) * normSq (E z)) (Set.Icc a b) z := by
    intro z hz
    obtain ⟨h1, h2⟩ := hm z hz
    have h3 : HasDerivWithinAt (fun z => (starRingEnd ℂ) (H z)) ((starRingEnd ℂ) ((σ + I * ω * ε : ℂ) * E z))
        (Set.Icc a b) z := h2.star
    refine (h1.mul h3).congr_deriv ?_
    rw [map_mul, map_add, map_mul, map_mul, conj_ofReal, conj_ofReal, conj_ofReal, conj_I, normSq_eq_conj_mul_self,
      normSq_eq_conj_mul_self]
    ring
  have hre : ∀ z ∈ Set.Icc a b, HasDerivWithinAt (fun z => (E z * (starRingEnd ℂ) (H z)).re)
      (I * ω * μ * normSq (H z) + (σ - I * ω * ε) * normSq (E z) : ℂ).re (Set.Icc a b) z := fun z hz =>
    reCLM.hasFDerivAt.comp_hasDerivWithinAt z (hd z hz)
  have : MonotoneOn (fun z => (E z * (starRingEnd ℂ) (H z)).re) (Set.Icc a b) := by
    apply monotoneOn_of_deriv_nonneg (convex_Icc a b) fun z hz => (hre z hz).continuousWithinAt
    · intro z hz
      exact ((hre z (interior_subset hz)).hasDerivAt (mem_interior_iff_mem_nhds.1 hz)).differentiableAt.differentiableWithinAt
    · intro z hz
      rw [((hre z (interior_subset hz)).hasDerivAt (mem_interior_iff_mem_nhds.1 hz)).deriv]
      have := normSq_nonneg (E z)
      simp
      positivity
  exact this ⟨le_rfl, hab⟩ ⟨hab, le_rfl⟩ hab

theorem node_succ (x0 : ℝ) (h : ℕ → ℝ) (j : ℕ) : node x0 h (j + 1) = node x0 h j + h j := by
  unfold node; rw [Finset.sum_range_succ]; ring

theorem node_zero (x0 : ℝ) (h : ℕ → ℝ) : node x0 h 0 = x0 := by simp [node]

/-- Fields at the top of a layer from those at its bottom. -/
theorem layer_top (hω : 0 < ω) (hμ : 0 < μ) (hσ : 0 < σ) {E H : ℝ → ℂ} {a h : ℝ} (hh : 0 ≤ h)
    (hm : Maxwell ε μ ω σ E H (Set.Icc a (a + h))) :
    E (a + h) = cosh (I * wave ε μ ω σ * h) * E a + imp ε μ ω σ * sinh (I * wave ε μ ω σ * h) * H a ∧
    imp ε μ ω σ * H (a + h) =
      imp ε μ ω σ * cosh (I * wave ε μ ω σ * h) * H a + sinh (I * wave ε μ ω σ * h) * E a := by
  obtain ⟨h1, h2⟩ := parts hω hμ hσ hm (a + h) ⟨by linarith, le_rfl⟩
  have e : ((a + h : ℝ) : ℂ) - a = h := by push_cast; ring
  rw [e] at h1 h2
  have hc : cosh (I * wave ε μ ω σ * h) =
      (exp (I * wave ε μ ω σ * h) + exp (-(I * wave ε μ ω σ * h))) / 2 := rfl
  have hs : sinh (I * wave ε μ ω σ * h) =
      (exp (I * wave ε μ ω σ * h) - exp (-(I * wave ε μ ω σ * h))) / 2 := rfl
  rw [hc, hs]
  constructor
  · linear_combination (h1 + h2) / 2
  · linear_combination (h2 - h1) / 2

end lemmas

namespace Props
variable {ε μ ω x0 : ℝ} {n : ℕ} {h σ : ℕ → ℝ}

/-- Energy goes down everywhere. -/
theorem power_pos (hω : 0 < ω) (hμ : 0 < μ) (hn : 0 < n) (hσ : ∀ j < n, 0 < σ j) (hh : ∀ j < n, 0 ≤ h j)
    {E H : ℝ → ℂ} (hf : IsField ε μ ω x0 n h σ E H) :
    ∀ j ≤ n, 0 < (E (node x0 h j) * (starRingEnd ℂ) (H (node x0 h j))).re := by
  intro j
  induction j with
  | zero =>
    intro _
    rw [node_zero]
    have e := halfspace hω hμ (hσ 0 hn) hf.halfspace hf.bounded
    have hH : H x0 ≠ 0 := fun h0 => hf.nonzero ⟨by rw [e, h0, mul_zero], h0⟩
    have hn' : 0 < normSq (H x0) := normSq_pos.mpr hH
    rw [e, mul_assoc, Complex.mul_conj, Complex.re_mul_ofReal]
    refine mul_pos ?_ hn'
    unfold imp
    have hre := wave_re (ε := ε) hω hμ (hσ 0 hn)
    rw [← Complex.ofReal_mul, Complex.div_re]
    simp only [Complex.ofReal_re, Complex.ofReal_im, zero_mul, zero_div, add_zero]
    have : 0 < normSq (wave ε μ ω (σ 0)) := normSq_pos.mpr (wave_ne hω hμ (hσ 0 hn))
    positivity
  | succ j ih =>
    intro hj
    have := power (hσ j (by omega)) (by rw [node_succ]; linarith [hh j (by omega)]) (hf.layer j (by omega))
    exact lt_of_lt_of_le (ih (by omega)) this

/-- **The impedance** computed by the recursion is the ratio of the electric and magnetic fields at the top of the
mesh, for every layered Earth, frequency and permittivity and every field of a source above; the magnetic field
there is not zero. -/
theorem C159_impedance {freq : ℝ} (hfr : 0 < freq) (hμ : 0 < μ) (hn : 0 < n) (hσ : ∀ j < n, 0 < σ j)
    (hh : ∀ j < n, 0 ≤ h j) {E H : ℝ → ℂ} (hf : IsField ε μ (2 * Real.pi * freq) x0 n h σ E H) :
    H (node x0 h n) ≠ 0 ∧ E (node x0 h n) = getImpedance ε μ freq n h σ * H (node x0 h n) := by
  have hω : 0 < 2 * Real.pi * freq := by have := Real.pi_pos; positivity
  unfold getImpedance
  set ω := 2 * Real.pi * freq
  have hpw := power_pos hω hμ hn hσ hh hf
  have hH : ∀ j ≤ n, H (node x0 h j) ≠ 0 := by
    intro j hj h0
    have := hpw j hj
    rw [h0] at this
    simp at this
  refine ⟨hH n le_rfl, ?_⟩
  have key : ∀ j ≤ n, E (node x0 h j) = Zall ε μ ω h σ j * H (node x0 h j) := by
    intro j
    induction j with
    | zero =>
      intro _
      rw [node_zero, halfspace hω hμ (hσ 0 hn) hf.halfspace hf.bounded, Zall, imp, mul_comm (ω : ℂ)]
    | succ j ih =>
      intro hj
      have ih := ih (by omega)
      have hs := hσ j (by omega)
      have hl := hf.layer j (by omega)
      rw [node_succ] at hl
      obtain ⟨e1, e2⟩ := layer_top hω hμ hs (hh j (by omega)) hl
      have hH1 := hH (j + 1) hj
      have hZ := imp_ne (ε := ε) hω hμ hs
      have hc : cosh (I * wave ε μ ω (σ j) * h j) ≠ 0 := by
        rcases (hh j (by omega)).eq_or_lt with h0 | h0
        · rw [← h0]; simp
        · apply Layered.cosh_ne
          have := wave_im (ε := ε) hω hμ hs
          have h2 : 0 < -(wave ε μ ω (σ j)).im * h j := mul_pos (by linarith) h0
          have h3 : (I * wave ε μ ω (σ j) * h j).re = -(wave ε μ ω (σ j)).im * h j := by simp
          rw [h3]; exact h2.ne'
      rw [← node_succ] at e1 e2
      rw [Zall]
      simp only [one_mul]
      rw [show (μ : ℂ) * ω / wave ε μ ω (σ j) = imp ε μ ω (σ j) by rw [imp, mul_comm (μ : ℂ)],
        Complex.tanh_eq_sinh_div_cosh]
      set c := cosh (I * wave ε μ ω (σ j) * h j)
      set s := sinh (I * wave ε μ ω (σ j) * h j)
      set Z := imp ε μ ω (σ j)
      set zb := Zall ε μ ω h σ j
      have h3 : Z * H (node x0 h (j + 1)) = c * (Z + zb * (s / c)) * H (node x0 h j) := by
        rw [e2, ih]; field_simp
      have hden : Z + zb * (s / c) ≠ 0 := by
        intro h0
        rw [h0, mul_zero, zero_mul] at h3
        exact mul_ne_zero hZ hH1 h3
      have h4 : Z * ((zb + Z * (s / c)) / (Z + zb * (s / c))) * H (node x0 h (j + 1)) =
          (zb + Z * (s / c)) / (Z + zb * (s / c)) * (Z * H (node x0 h (j + 1))) := by ring
      have h5 : (zb + Z * (s / c)) / (Z + zb * (s / c)) * (c * (Z + zb * (s / c)) * H (node x0 h j)) =
          (zb + Z * (s / c)) * c * H (node x0 h j) := by
        rw [div_mul_eq_mul_div, div_eq_iff hden]; ring
      rw [h4, h3, h5, e1, ih]
      field_simp
  exact key n le_rfl

/-! ### The fields of the code -/

/-- Fields of the components `p` in a layer with its top at `d`. -/
def LE (k : ℂ) (d : ℝ) (p : ℂ × ℂ) (z : ℝ) : ℂ := p.2 * exp (-1 * I * k * (d - z)) + p.1 * exp (1 * I * k * (d - z))
def LH (ω μ : ℝ) (k : ℂ) (d : ℝ) (p : ℂ × ℂ) (z : ℝ) : ℂ :=
  k / (ω * μ) * p.2 * exp (-1 * I * k * (d - z)) + -(k / (ω * μ)) * p.1 * exp (1 * I * k * (d - z))

theorem layer_maxwell {s : ℝ} (hω : 0 < ω) (hμ : 0 < μ) (d : ℝ) (p : ℂ × ℂ) (S : Set ℝ) :
    Maxwell ε μ ω s (LE (wave ε μ ω s) d p) (LH ω μ (wave ε μ ω s) d p) S := by
  intro z _
  have hk := wave_sq ε μ ω s
  set k := wave ε μ ω s
  have hw : (ω : ℂ) ≠ 0 := by exact_mod_cast hω.ne'
  have hm : (μ : ℂ) ≠ 0 := by exact_mod_cast hμ.ne'
  have h0 : HasDerivWithinAt (fun z : ℝ => (d : ℂ) - z) (-1) S z :=
    ((hasDerivAt_id z).ofReal_comp.hasDerivWithinAt.const_sub (d : ℂ)).congr_deriv (by simp)
  have h1 : HasDerivWithinAt (fun z : ℝ => exp (-1 * I * k * ((d : ℂ) - z)))
      (exp (-1 * I * k * (d - z)) * (-1 * I * k * -1)) S z := (h0.const_mul (-1 * I * k)).cexp
  have h2 : HasDerivWithinAt (fun z : ℝ => exp (1 * I * k * ((d : ℂ) - z)))
      (exp (1 * I * k * (d - z)) * (1 * I * k * -1)) S z := (h0.const_mul (1 * I * k)).cexp
  constructor
  · refine ((h1.const_mul p.2).add (h2.const_mul p.1)).congr_deriv ?_
    unfold LH
    field_simp
  · refine ((h1.const_mul (k / (ω * μ) * p.2)).add (h2.const_mul (-(k / (ω * μ)) * p.1))).congr_deriv ?_
    unfold LE
    have h3 : (s + I * ω * ε : ℂ) = I * k ^ 2 / (ω * μ) := by
      rw [hk]; push_cast; field_simp; linear_combination (s : ℂ) * I_sq
    rw [h3]
    field_simp

theorem LE_top (k : ℂ) (d : ℝ) (p : ℂ × ℂ) : LE k d p d = p.1 + p.2 := by simp [LE]; ring
theorem LH_top (ω μ : ℝ) (k : ℂ) (d : ℝ) (p : ℂ × ℂ) : LH ω μ k d p d = k / (ω * μ) * (p.2 - p.1) := by
  simp [LH]; ring

/-- Fields are continuous where two layers meet. -/
theorem meet (hω : 0 < ω) (hμ : 0 < μ) {k k' : ℂ} (hk' : k' ≠ 0) (d a : ℝ) (p : ℂ × ℂ) :
    LE k' d (prop ω μ k k' (d - a) p) a = p.1 + p.2 ∧
    LH ω μ k' d (prop ω μ k k' (d - a) p) a = k / (ω * μ) * (p.2 - p.1) := by
  have hw : (ω : ℂ) ≠ 0 := by exact_mod_cast hω.ne'
  have hm : (μ : ℂ) ≠ 0 := by exact_mod_cast hμ.ne'
  have e1 : exp (-1 * I * k' * ((d - a : ℝ) : ℂ)) * exp (1 * I * k' * (d - a)) = 1 := by
    rw [← exp_add]; push_cast
    rw [show -1 * I * k' * (d - a) + 1 * I * k' * (d - a) = 0 by ring, exp_zero]
  have e2 : exp (1 * I * k' * ((d - a : ℝ) : ℂ)) * exp (-1 * I * k' * (d - a)) = 1 := by
    rw [← exp_add]; push_cast
    rw [show 1 * I * k' * (d - a) + -1 * I * k' * (d - a) = 0 by ring, exp_zero]
  unfold LE LH prop
  simp only
  set A := 1 / 2 * (1 * (1 * p.1 + 1 * p.2) + ω * μ / k' * (k / (ω * μ) * p.1 + -(k / (ω * μ)) * p.2)) with hA
  set B := 1 / 2 * (1 * (1 * p.1 + 1 * p.2) + -(ω * μ / k') * (k / (ω * μ) * p.1 + -(k / (ω * μ)) * p.2)) with hB
  constructor
  · calc _ = B * (exp (1 * I * k' * ((d - a : ℝ) : ℂ)) * exp (-1 * I * k' * (d - a))) +
        A * (exp (-1 * I * k' * ((d - a : ℝ) : ℂ)) * exp (1 * I * k' * (d - a))) := by ring
      _ = p.1 + p.2 := by rw [e1, e2, hA, hB]; ring
  · calc _ = k' / (ω * μ) * (B * (exp (1 * I * k' * ((d - a : ℝ) : ℂ)) * exp (-1 * I * k' * (d - a))) -
        A * (exp (-1 * I * k' * ((d - a : ℝ) : ℂ)) * exp (1 * I * k' * (d - a)))) := by ring
      _ = _ := by
        rw [e1, e2, hA, hB]; field_simp; ring

/-- The components of a field: no up-going wave in the half-space, each layer from the one below. -/
structure Comp (ε μ ω : ℝ) (h σ : ℕ → ℝ) (m : ℕ) (c : ℕ → ℂ × ℂ) : Prop where
  zero : (c 0).1 = 0
  ne : (c 0).2 ≠ 0
  step : ∀ j < m, c (j + 1) = prop ω μ (wave ε μ ω (sig σ j)) (wave ε μ ω (sig σ (j + 1))) (h j) (c j)

/-- Flux of energy of components. -/
def flow (ε μ ω : ℝ) (σ : ℕ → ℝ) (c : ℕ → ℂ × ℂ) (j : ℕ) : ℝ :=
  (((c j).1 + (c j).2) *
    (starRingEnd ℂ) (wave ε μ ω (sig σ j) / (ω * μ) * ((c j).2 - (c j).1))).re

theorem sig_pos (hn : 0 < n) (hσ : ∀ j < n, 0 < σ j) : ∀ j ≤ n, 0 < sig σ j
  | 0, _ => hσ 0 hn
  | j + 1, hj => hσ j (by omega)

theorem flow_pos (hω : 0 < ω) (hμ : 0 < μ) (hn : 0 < n) (hσ : ∀ j < n, 0 < σ j) (hh : ∀ j < n, 0 < h j) {m : ℕ}
    (hm : m ≤ n) {c : ℕ → ℂ × ℂ} (hc : Comp ε μ ω h σ m c) : ∀ j ≤ m, 0 < flow ε μ ω σ c j := by
  intro j
  induction j with
  | zero =>
    intro _
    unfold flow
    have hre := wave_re (ε := ε) hω hμ (sig_pos hn hσ 0 (by omega))
    rw [hc.zero, zero_add, sub_zero, map_mul]
    have : (c 0).2 * ((starRingEnd ℂ) (wave ε μ ω (sig σ 0) / (ω * μ)) * (starRingEnd ℂ) (c 0).2) =
        (starRingEnd ℂ) (wave ε μ ω (sig σ 0) / (ω * μ)) * (normSq (c 0).2 : ℂ) := by
      rw [Complex.normSq_eq_conj_mul_self]; ring
    rw [this, Complex.re_mul_ofReal, Complex.conj_re, ← Complex.ofReal_mul, Complex.div_ofReal_re]
    have := normSq_pos.mpr hc.ne
    positivity
  | succ j ih =>
    intro hj
    have ih := ih (by omega)
    have hs := sig_pos hn hσ (j + 1) (by omega)
    have hk := wave_ne (ε := ε) hω hμ hs
    have hmx := layer_maxwell (ε := ε) (s := sig σ (j + 1)) hω hμ (h j) (c (j + 1)) (Set.Icc 0 (h j))
    have hp := power hs (hh j (by omega)).le hmx
    rw [LE_top, LH_top] at hp
    have hmeet := meet hω hμ (k := wave ε μ ω (sig σ j)) hk (h j) 0 (c j)
    rw [sub_zero, ← hc.step j (by omega)] at hmeet
    rw [hmeet.1, hmeet.2] at hp
    exact lt_of_lt_of_le ih hp

theorem comp_ne (hω : 0 < ω) (hμ : 0 < μ) (hn : 0 < n) (hσ : ∀ j < n, 0 < σ j) (hh : ∀ j < n, 0 < h j) {m : ℕ}
    (hm : m ≤ n) {c : ℕ → ℂ × ℂ} (hc : Comp ε μ ω h σ m c) : ∀ j ≤ m, (c j).2 ≠ 0 := by
  intro j hj h0
  have h1 := flow_pos hω hμ hn hσ hh hm hc j hj
  have hre := wave_re (ε := ε) hω hμ (sig_pos hn hσ j (by omega))
  unfold flow at h1
  rw [h0, add_zero, zero_sub, map_mul, map_neg] at h1
  have : (c j).1 * ((starRingEnd ℂ) (wave ε μ ω (sig σ j) / (ω * μ)) * -(starRingEnd ℂ) (c j).1) =
      -((starRingEnd ℂ) (wave ε μ ω (sig σ j) / (ω * μ)) * (normSq (c j).1 : ℂ)) := by
    rw [Complex.normSq_eq_conj_mul_self]; ring
  rw [this, Complex.neg_re, Complex.re_mul_ofReal, Complex.conj_re, ← Complex.ofReal_mul, Complex.div_ofReal_re] at h1
  have h2 := normSq_nonneg (c j).1
  have : 0 ≤ (wave ε μ ω (sig σ j)).re / (ω * μ) * normSq (c j).1 := by positivity
  linarith

theorem prop_scale (w μ : ℝ) (k k' : ℂ) (h : ℝ) (p : ℂ × ℂ) (s : ℂ) :
    prop w μ k k' h (p.1 / s, p.2 / s) = ((prop w μ k k' h p).1 / s, (prop w μ k k' h p).2 / s) := by
  unfold prop
  simp only [Prod.mk.injEq]
  constructor <;> ring

/-- The loop keeps the components of a field; it never finds values that are not finite. -/
theorem loop_comp (hω : 0 < ω) (hμ : 0 < μ) (hn : 0 < n) (hσ : ∀ j < n, 0 < σ j) (hh : ∀ j < n, 0 < h j)
    (scaleUD : Bool) (sv : ℂ) (hsv : sv ≠ 0) : ∀ m ≤ n,
    Comp ε μ ω h σ m (loop ω μ (fun j => wave ε μ ω (sig σ j)) h scaleUD sv m) ∧
    (scaleUD = false → loop ω μ (fun j => wave ε μ ω (sig σ j)) h scaleUD sv m 0 = (0, sv)) ∧
    (scaleUD = true → 0 < m → (loop ω μ (fun j => wave ε μ ω (sig σ j)) h scaleUD sv m m).2 = 1) := by
  intro m
  induction m with
  | zero =>
    intro _
    refine ⟨⟨by simp [loop], by simpa [loop] using hsv, fun j hj => by omega⟩, fun _ => by simp [loop],
      fun _ h0 => by omega⟩
  | succ m ih =>
    intro hm
    obtain ⟨ihc, ih0, -⟩ := ih (by omega)
    rw [loop]
    set c := loop ω μ (fun j => wave ε μ ω (sig σ j)) h scaleUD sv m with hcdef
    set new := prop ω μ (wave ε μ ω (sig σ m)) (wave ε μ ω (sig σ (m + 1))) (h m) (c m) with hnew
    set c1 : ℕ → ℂ × ℂ := fun j => if j = m + 1 then new else c j with hc1
    have hcomp1 : Comp ε μ ω h σ (m + 1) c1 := by
      refine ⟨by simp [hc1, ihc.zero], by simpa [hc1] using ihc.ne, ?_⟩
      intro j hj
      by_cases h1 : j = m
      · subst h1
        simp [hc1, hnew]
      · have h2 : ¬ j + 1 = m + 1 := by omega
        have h3 : ¬ j = m + 1 := by omega
        simp only [hc1, h2, h3, if_false]
        exact ihc.step j (by omega)
    have hne : new.2 ≠ 0 := by
      have := comp_ne hω hμ hn hσ hh hm hcomp1 (m + 1) le_rfl
      simpa [hc1] using this
    cases hs : scaleUD
    · have hp : pass ω μ (fun j => wave ε μ ω (sig σ j)) h false sv m c = c1 := by
        unfold pass; simp [hc1, hnew]
      rw [hp]
      refine ⟨hcomp1, fun _ => ?_, fun h => by simp at h⟩
      have := ih0 hs
      simpa [hc1] using this
    · have hp : pass ω μ (fun j => wave ε μ ω (sig σ j)) h true sv m c =
          fun j => if j ≤ m + 1 then ((c1 j).1 / new.2, (c1 j).2 / new.2) else c1 j := by
        unfold pass
        simp only [if_true]
        rw [← hnew, if_neg hne]
      rw [hp]
      refine ⟨⟨?_, ?_, ?_⟩, fun h => by simp at h, fun _ _ => ?_⟩
      · simp [hcomp1.zero]
      · simp only [Nat.zero_le, if_true]
        exact div_ne_zero hcomp1.ne hne
      · intro j hj
        rw [if_pos (by omega), if_pos (by omega), prop_scale, ← hcomp1.step j hj]
      · simp only [le_refl, if_true]
        have : c1 (m + 1) = new := by simp [hc1]
        rw [this, div_self hne]

theorem node_mono (hh : ∀ j < n, 0 < h j) : ∀ b ≤ n, ∀ a ≤ b, node x0 h a ≤ node x0 h b := by
  intro b
  induction b with
  | zero => intro _ a ha; rw [show a = 0 by omega]
  | succ b ih =>
    intro hb a ha
    rcases Nat.lt_or_ge b a with h1 | h1
    · rw [show a = b + 1 by omega]
    · have := ih (by omega) a h1
      rw [node_succ]
      linarith [hh b (by omega)]

theorem fill_half (hh : ∀ j < n, 0 < h j) (w : ℝ) (k : ℕ → ℂ) (c : ℕ → ℂ × ℂ) (z : ℝ) (hz : z ≤ x0) :
    ∀ m ≤ n, fill w μ k x0 h c z m = some (values w μ (k 0) x0 (c 0) z) := by
  intro m
  induction m with
  | zero => intro _; rw [fill, node_zero, if_pos hz]
  | succ m ih =>
    intro hm
    have := node_mono (x0 := x0) hh m (by omega) 0 (by omega)
    rw [node_zero] at this
    rw [fill, if_neg (by intro hc; linarith [hc.2]), ih (by omega)]

theorem fill_layer (hh : ∀ j < n, 0 < h j) (w : ℝ) (k : ℕ → ℂ) (c : ℕ → ℂ × ℂ) (z : ℝ) (j : ℕ)
    (h1 : node x0 h j < z) (h2 : z ≤ node x0 h (j + 1)) :
    ∀ m, j < m → m ≤ n → fill w μ k x0 h c z m = some (values w μ (k (j + 1)) (node x0 h (j + 1)) (c (j + 1)) z) := by
  intro m
  induction m with
  | zero => intro h0; omega
  | succ m ih =>
    intro hj hm
    rcases Nat.lt_or_ge j m with h3 | h3
    · have := node_mono (x0 := x0) hh m (by omega) (j + 1) h3
      rw [fill, if_neg (by intro hc; linarith [hc.2]), ih h3 (by omega)]
    · have : m = j := by omega
      subst this
      rw [fill, if_pos ⟨h2, h1⟩]

theorem fill_above (hh : ∀ j < n, 0 < h j) (w : ℝ) (k : ℕ → ℂ) (c : ℕ → ℂ × ℂ) (z : ℝ) :
    ∀ m ≤ n, node x0 h m < z → fill w μ k x0 h c z m = none := by
  intro m
  induction m with
  | zero => intro _ h1; rw [fill, if_neg (by intro hc; linarith)]
  | succ m ih =>
    intro hm h1
    have := node_mono (x0 := x0) hh (m + 1) hm m (by omega)
    rw [fill, if_neg (by intro hc; linarith [hc.1]), ih (by omega) (by linarith)]

/-- Total fields at a place. -/
def totalE (q : Option (ℂ × ℂ × ℂ × ℂ)) : ℂ := match q with
  | some q => q.1 + q.2.1
  | none => 0
def totalH (q : Option (ℂ × ℂ × ℂ × ℂ)) : ℂ := match q with
  | some q => q.2.2.1 + q.2.2.2
  | none => 0

theorem totalE_values (w μ : ℝ) (k : ℂ) (d : ℝ) (p : ℂ × ℂ) (z : ℝ) : totalE (some (values w μ k d p z)) = LE k d p z :=
  rfl
theorem totalH_values (w μ : ℝ) (k : ℂ) (d : ℝ) (p : ℂ × ℂ) (z : ℝ) :
    totalH (some (values w μ k d p z)) = LH w μ k d p z := rfl

/-- **The fields** of `getEHfields` (the sums of the down-going and up-going parts), as functions of the place, are
those of a plane wave source above: Maxwell's equations with the displacement current hold in the half-space and in
all cells, up to their boundaries, the fields are continuous and bounded below; at places up to the top of the mesh
they are defined. The half-space has no up-going part. With `scaleUD` the down-going electric field is 1 at the
top; without it is `scaleValue` at the bottom. -/
theorem C159_fields {freq : ℝ} (hfr : 0 < freq) (hμ : 0 < μ) (hn : 0 < n) (hσ : ∀ j < n, 0 < σ j)
    (hh : ∀ j < n, 0 < h j) (scaleUD : Bool) (sv : ℂ) (hsv : sv ≠ 0) :
    IsField ε μ (2 * Real.pi * freq) x0 n h σ (fun z => totalE (getEHfields ε μ freq x0 n h σ scaleUD sv z))
      (fun z => totalH (getEHfields ε μ freq x0 n h σ scaleUD sv z)) ∧
    (∀ z ≤ node x0 h n, ∃ Ed Eu Hd Hu, getEHfields ε μ freq x0 n h σ scaleUD sv z = some (Ed, Eu, Hd, Hu) ∧
      (z ≤ x0 → Eu = 0 ∧ Hu = 0) ∧ (scaleUD = true → z = node x0 h n → Ed = 1) ∧
      (scaleUD = false → z = x0 → Ed = sv)) := by
  have hω : 0 < 2 * Real.pi * freq := by have := Real.pi_pos; positivity
  unfold getEHfields
  simp only
  set ω := 2 * Real.pi * freq
  obtain ⟨hc, hc0, hc1⟩ := loop_comp (ε := ε) hω hμ hn hσ hh scaleUD sv hsv n le_rfl
  set c := loop ω μ (fun j => wave ε μ ω (sig σ j)) h scaleUD sv n with hcdef
  set F := fun z => fill ω μ (fun j => wave ε μ ω (sig σ j)) x0 h c z n with hF
  have half : ∀ z ≤ x0, F z = some (values ω μ (wave ε μ ω (sig σ 0)) x0 (c 0) z) := fun z hz =>
    fill_half hh ω _ c z hz n le_rfl
  have lay : ∀ j < n, ∀ z, node x0 h j < z → z ≤ node x0 h (j + 1) →
      F z = some (values ω μ (wave ε μ ω (sig σ (j + 1))) (node x0 h (j + 1)) (c (j + 1)) z) := fun j hj z h1 h2 =>
    fill_layer hh ω _ c z j h1 h2 n hj le_rfl
  have lt_succ : ∀ j < n, node x0 h j < node x0 h (j + 1) := fun j hj => by rw [node_succ]; linarith [hh j hj]
  have atNode : ∀ j ≤ n, totalE (F (node x0 h j)) = (c j).1 + (c j).2 ∧
      totalH (F (node x0 h j)) = wave ε μ ω (sig σ j) / (ω * μ) * ((c j).2 - (c j).1) := by
    intro j hj
    cases j with
    | zero =>
      rw [node_zero, half x0 le_rfl, totalE_values, totalH_values, LE_top, LH_top]
      exact ⟨rfl, rfl⟩
    | succ j =>
      rw [lay j (by omega) _ (lt_succ j (by omega)) le_rfl, totalE_values, totalH_values, LE_top, LH_top]
      exact ⟨rfl, rfl⟩
  constructor
  · refine ⟨?_, ?_, ?_, ?_⟩
    · intro z hz
      have := layer_maxwell (ε := ε) (s := σ 0) hω hμ x0 (c 0) (Set.Iic x0) z hz
      have eE : ∀ z ∈ Set.Iic x0, totalE (F z) = LE (wave ε μ ω (σ 0)) x0 (c 0) z := fun z hz => by
        rw [half z hz, totalE_values]; rfl
      have eH : ∀ z ∈ Set.Iic x0, totalH (F z) = LH ω μ (wave ε μ ω (σ 0)) x0 (c 0) z := fun z hz => by
        rw [half z hz, totalH_values]; rfl
      constructor
      · change HasDerivWithinAt (fun z => totalE (F z)) (_ * totalH (F z)) _ z
        rw [eH z hz]; exact this.1.congr eE (eE z hz)
      · change HasDerivWithinAt (fun z => totalH (F z)) (_ * totalE (F z)) _ z
        rw [eE z hz]; exact this.2.congr eH (eH z hz)
    · intro j hj z hz
      have := layer_maxwell (ε := ε) (s := σ j) hω hμ (node x0 h (j + 1)) (c (j + 1))
        (Set.Icc (node x0 h j) (node x0 h (j + 1))) z hz
      have hk := wave_ne (ε := ε) hω hμ (hσ j hj)
      have hmeet := meet hω hμ (k := wave ε μ ω (sig σ j)) hk (node x0 h (j + 1)) (node x0 h j) (c j)
      rw [show node x0 h (j + 1) - node x0 h j = h j by rw [node_succ]; ring,
        show prop ω μ (wave ε μ ω (sig σ j)) (wave ε μ ω (σ j)) (h j) (c j) = c (j + 1) from (hc.step j hj).symm] at hmeet
      have eE : ∀ z ∈ Set.Icc (node x0 h j) (node x0 h (j + 1)),
          totalE (F z) = LE (wave ε μ ω (σ j)) (node x0 h (j + 1)) (c (j + 1)) z := by
        intro z hz
        rcases hz.1.eq_or_lt with h1 | h1
        · rw [← h1, (atNode j (by omega)).1, hmeet.1]
        · rw [lay j hj z h1 hz.2, totalE_values]; rfl
      have eH : ∀ z ∈ Set.Icc (node x0 h j) (node x0 h (j + 1)),
          totalH (F z) = LH ω μ (wave ε μ ω (σ j)) (node x0 h (j + 1)) (c (j + 1)) z := by
        intro z hz
        rcases hz.1.eq_or_lt with h1 | h1
        · rw [← h1, (atNode j (by omega)).2, hmeet.2]
        · rw [lay j hj z h1 hz.2, totalH_values]; rfl
      constructor
      · change HasDerivWithinAt (fun z => totalE (F z)) (_ * totalH (F z)) _ z
        rw [eH z hz]; exact this.1.congr eE (eE z hz)
      · change HasDerivWithinAt (fun z => totalH (F z)) (_ * totalE (F z)) _ z
        rw [eE z hz]; exact this.2.congr eH (eH z hz)
    · refine ⟨‖(c 0).2‖, fun z hz => ?_⟩
      change ‖totalE (F z)‖ ≤ _
      rw [half z hz, totalE_values, LE, hc.zero, zero_mul, add_zero, norm_mul, Complex.norm_exp]
      refine mul_le_of_le_one_right (norm_nonneg _) (Real.exp_le_one_iff.2 ?_)
      have him := wave_im (ε := ε) hω hμ (sig_pos hn hσ 0 (by omega))
      have : (-1 * I * wave ε μ ω (sig σ 0) * ((x0 : ℂ) - z)).re = (wave ε μ ω (sig σ 0)).im * (x0 - z) := by
        rw [← Complex.ofReal_sub, Complex.re_mul_ofReal]; simp
      rw [this]
      nlinarith
    · intro h0
      have := (atNode 0 (by omega)).1
      rw [node_zero, hc.zero, zero_add] at this
      exact hc.ne (this.symm.trans h0.1)
  · intro z hz
    by_cases h0 : z ≤ x0
    · refine ⟨_, _, _, _, half z h0, fun _ => ?_, ?_, ?_⟩
      · rw [hc.zero]; simp
      · intro _ hz'
        have h1 := lt_succ 0 hn
        have h2 := node_mono (x0 := x0) hh n le_rfl 1 hn
        rw [node_zero] at h1
        simp only [zero_add] at h1
        linarith
      · intro hs hz'
        rw [hz', hc0 hs]; simp
    · push Not at h0
      have : ∃ j < n, node x0 h j < z ∧ z ≤ node x0 h (j + 1) := by
        have : ∀ m ≤ n, z ≤ node x0 h m → ∃ j < n, node x0 h j < z ∧ z ≤ node x0 h (j + 1) := by
          intro m
          induction m with
          | zero => intro _ h1; rw [node_zero] at h1; linarith
          | succ m ih =>
            intro hm h1
            rcases le_or_gt z (node x0 h m) with h2 | h2
            · exact ih (by omega) h2
            · exact ⟨m, by omega, h2, h1⟩
        exact this n le_rfl hz
      obtain ⟨j, hj, h1, h2⟩ := this
      refine ⟨_, _, _, _, lay j hj z h1 h2, fun h3 => by linarith, ?_, fun _ h3 => by linarith⟩
      intro hs hz'
      have hjn : j + 1 = n := by
        by_contra hne
        have h3 := node_mono (x0 := x0) hh n le_rfl (j + 2) (by omega)
        have h4 := lt_succ (j + 1) (by omega)
        rw [show j + 1 + 1 = j + 2 from rfl] at h4
        linarith
      rw [hz', hjn, hc1 hs hn]; simp

/-- So the two functions agree: the fields at the top have the impedance. -/
theorem C159_agree {freq : ℝ} (hfr : 0 < freq) (hμ : 0 < μ) (hn : 0 < n) (hσ : ∀ j < n, 0 < σ j)
    (hh : ∀ j < n, 0 < h j) (scaleUD : Bool) (sv : ℂ) (hsv : sv ≠ 0) :
    ∃ Ed Eu Hd Hu, getEHfields ε μ freq x0 n h σ scaleUD sv (node x0 h n) = some (Ed, Eu, Hd, Hu) ∧
      Hd + Hu ≠ 0 ∧ Ed + Eu = getImpedance ε μ freq n h σ * (Hd + Hu) := by
  obtain ⟨h1, h2⟩ := C159_fields (ε := ε) (x0 := x0) hfr hμ hn hσ hh scaleUD sv hsv
  obtain ⟨Ed, Eu, Hd, Hu, h3, -⟩ := h2 _ le_rfl
  have h4 := C159_impedance hfr hμ hn hσ (fun j hj => (hh j hj).le) h1
  rw [h3] at h4
  exact ⟨Ed, Eu, Hd, Hu, h3, h4⟩

/-- **The impedance of the recursive simulation** (C136) is the opposite of this one without displacement current:
the two use opposite directions of the magnetic field. -/
theorem C159_recursive {freq : ℝ} (hfr : 0 < freq) (hμ : 0 < μ) (hn : 0 < n) (hσ : ∀ j < n, 0 < σ j)
    (hh : ∀ j < n, 0 < h j) :
    Layered.impedance (2 * Real.pi * freq) μ (fun k : Fin (n + 1) => sig σ k) (fun k : Fin n => h k) =
      -getImpedance 0 μ freq n h σ := by
  have hω : 0 < 2 * Real.pi * freq := by have := Real.pi_pos; positivity
  obtain ⟨hf, -⟩ := C159_fields (ε := 0) (x0 := 0) hfr hμ hn hσ hh true 1 one_ne_zero
  set E := fun z => totalE (getEHfields 0 μ freq 0 n h σ true 1 z)
  set H := fun z => totalH (getEHfields 0 μ freq 0 n h σ true 1 z)
  have hnode : ∀ j ≤ n, Layered.height (fun k : Fin n => h k) j = node 0 h j := by
    intro j hj
    unfold Layered.height node
    rw [zero_add, Fin.sum_univ_eq_sum_range (fun i => if i < j then h i else 0) n, ← Finset.sum_filter]
    congr 1
    ext i
    simp only [Finset.mem_filter, Finset.mem_range]
    omega
  have conv : ∀ s S, Maxwell 0 μ (2 * Real.pi * freq) s E H S →
      Layered.Maxwell (2 * Real.pi * freq) μ s E (fun z => -H z) S := by
    intro s S hm z hz
    obtain ⟨h1, h2⟩ := hm z hz
    constructor
    · refine h1.congr_deriv ?_; ring
    · refine h2.neg.congr_deriv ?_; push_cast; ring
  have hf' : Layered.IsField (2 * Real.pi * freq) μ (fun k : Fin (n + 1) => sig σ k) (fun k : Fin n => h k) E
      (fun z => -H z) := by
    refine ⟨conv _ _ hf.halfspace, ?_, hf.bounded, fun h0 => hf.nonzero ⟨h0.1, neg_eq_zero.mp h0.2⟩⟩
    intro k
    rw [hnode k.1 (by omega), hnode (k.1 + 1) (by omega)]
    exact conv _ _ (hf.layer k.1 k.2)
  have h1 := Layered.Props.C136_impedance hω hμ (fun k => sig_pos hn hσ k.1 (by omega)) (fun k => (hh k.1 k.2).le) hf'
  have h2 := C159_impedance hfr hμ hn hσ (fun j hj => (hh j hj).le) hf
  have hs : (∑ k : Fin n, h k) = node 0 h n := by
    unfold node; rw [zero_add, Fin.sum_univ_eq_sum_range]
  rw [hs] at h1
  have h3 := h1.2.symm.trans h2.2
  have h4 : (Layered.impedance (2 * Real.pi * freq) μ (fun k : Fin (n + 1) => sig σ k) (fun k : Fin n => h k) +
      getImpedance 0 μ freq n h σ) * H (node 0 h n) = 0 := by linear_combination -h3
  exact eq_neg_of_add_eq_zero_left ((mul_eq_zero.mp h4).resolve_right h2.1)

/-- **Above the mesh** the fields are what `np.empty` left in memory. -/
theorem C159_violated_above {freq : ℝ} (hh : ∀ j < n, 0 < h j) (scaleUD : Bool) (sv : ℂ) (z : ℝ)
    (hz : node x0 h n < z) : getEHfields ε μ freq x0 n h σ scaleUD sv z = none :=
  fill_above hh _ _ _ z n le_rfl hz

/-- **`scaleValue` has no effect with `scaleUD`**, although it is documented as the value at the top: the down-going
field there is 1 for every value (not zero). -/
theorem C159_violated_scale {freq : ℝ} (hfr : 0 < freq) (hμ : 0 < μ) (hn : 0 < n) (hσ : ∀ j < n, 0 < σ j)
    (hh : ∀ j < n, 0 < h j) (sv : ℂ) (hsv : sv ≠ 0) :
    ∃ Eu Hd Hu, getEHfields ε μ freq x0 n h σ true sv (node x0 h n) = some (1, Eu, Hd, Hu) := by
  obtain ⟨-, h2⟩ := C159_fields (ε := ε) (x0 := x0) hfr hμ hn hσ hh true sv hsv
  obtain ⟨Ed, Eu, Hd, Hu, h3, -, h4, -⟩ := h2 _ le_rfl
  exact ⟨Eu, Hd, Hu, by rw [h3, h4 rfl rfl]⟩

/-- Two cells, one of them resistive. -/
example : ∃ Ed Eu Hd Hu, getEHfields 1 1 1 0 2 (fun _ => 1) (fun j => if j = 0 then 1 else 1 / 100) true 3
    (node 0 (fun _ => 1) 2) = some (Ed, Eu, Hd, Hu) ∧ Hd + Hu ≠ 0 ∧
    Ed + Eu = getImpedance 1 1 1 2 (fun _ => 1) (fun j => if j = 0 then 1 else 1 / 100) * (Hd + Hu) :=
  C159_agree one_pos one_pos (by norm_num) (fun j _ => by split <;> norm_num) (fun _ _ => one_pos) true 3 (by norm_num)

end Props
end Verif.NSEM.Analytic
