import Verif.NSEM.Receivers
import Mathlib.LinearAlgebra.Matrix.Determinant.Basic

/-! Properties of the natural source receivers. -/

namespace Verif.NSEM.Props
open Verif Verif.NSEM Matrix

noncomputable section

variable {n ε φ : Type} [Fintype ε] [Fintype φ]

/-! ### Transfer functions -/

/-- `c = zx * a + zy * b` for both polarisations: `(zx, zy)` is the row of the transfer function from
`(a, b)` to `c`. -/
def Transfers (zx zy : ℂ) (a b c : Two) : Prop := ∀ k, c k = zx * a k + zy * b k

/-- Cramer's rule. -/
theorem transfers_iff {a b c : Two} (hd : det2 a b ≠ 0) (zx zy : ℂ) :
    Transfers zx zy a b c ↔ zx = det2 c b / det2 a b ∧ zy = det2 a c / det2 a b := by
  have e1 : (∀ k, c k = zx * a k + zy * b k) ↔
      c 0 = zx * a 0 + zy * b 0 ∧ c 1 = zx * a 1 + zy * b 1 := Fin.forall_fin_two
  unfold Transfers
  rw [e1, eq_div_iff hd, eq_div_iff hd]
  unfold det2 at *
  constructor
  · rintro ⟨h0, h1⟩
    constructor
    · rw [h0, h1]; ring
    · rw [h0, h1]; ring
  · rintro ⟨h0, h1⟩
    constructor
    · refine mul_left_cancel₀ hd ?_
      linear_combination -a 0 * h0 - b 0 * h1
    · refine mul_left_cancel₀ hd ?_
      linear_combination -a 1 * h0 - b 1 * h1

/-- The complex number with the given parts. -/
def cplx (x y : ℝ) : ℂ := ⟨x, y⟩

theorem impAt_x (e hx hy : Two) : impAt .x e hx hy = det2 e hy / det2 hx hy := by simp [impAt]

theorem impAt_y (e hx hy : Two) : impAt .y e hx hy = det2 hx e / det2 hx hy := by
  simp only [impAt, det2]
  congr 1
  simp
  ring

theorem tipAt_x (ho hx hy : Two) : tipAt .x ho hx hy = det2 ho hy / det2 hx hy := by
  simp only [tipAt, det2]
  congr 1
  simp
  ring

theorem tipAt_y (ho hx hy : Two) : tipAt .y ho hx hy = det2 hx ho / det2 hx hy := by
  simp [tipAt]

/-- **C100 (impedance).** Wherever the magnetic fields of the two polarisations are independent, the
real and imaginary data of the orientations `ox` and `oy` are the one row `(Zox, Zoy)` for which
`E_o = Zox H_x + Zoy H_y` for both polarisations. -/
theorem C100_impedance (Q : Proj n ε φ) (o : Ax) (alpha : ℝ) (e : Matrix ε (Fin 2) ℂ)
    (h : Matrix φ (Fin 2) ℂ) (i : n)
    (hd : det2 ((cm (Q.h1 .x) * h) i) ((cm (Q.h1 .y) * h) i) ≠ 0) (zx zy : ℂ) :
    Transfers zx zy ((cm (Q.h1 .x) * h) i) ((cm (Q.h1 .y) * h) i) ((cm (Q.e0 o) * e) i) ↔
      zx = cplx (impEval Q o .x .real alpha e h i) (impEval Q o .x .imag alpha e h i) ∧
      zy = cplx (impEval Q o .y .real alpha e h i) (impEval Q o .y .imag alpha e h i) := by
  rw [transfers_iff hd, ← impAt_x, ← impAt_y]
  exact Iff.rfl

/-- **C100 (tipper).** The real and imaginary data of the orientations `ox` and `oy` are the one row
`(Tox, Toy)` for which `H_o = Tox H_x + Toy H_y` for both polarisations, the horizontal fields being
those at the second locations. -/
theorem C100_tipper (Q : Proj n ε φ) (o : Ax3) (h : Matrix φ (Fin 2) ℂ) (i : n)
    (hd : det2 ((cm (Q.h1 .x) * h) i) ((cm (Q.h1 .y) * h) i) ≠ 0) (zx zy : ℂ) :
    Transfers zx zy ((cm (Q.h1 .x) * h) i) ((cm (Q.h1 .y) * h) i) ((cm (Q.h0 o) * h) i) ↔
      zx = cplx (tipEval Q o .x .real h i) (tipEval Q o .x .imag h i) ∧
      zy = cplx (tipEval Q o .y .real h i) (tipEval Q o .y .imag h i) := by
  rw [transfers_iff hd, ← tipAt_x, ← tipAt_y]
  exact Iff.rfl

/-- **C100 (admittance), partial.** With `(Yox, Yoy)` the row for which
`H_o = Yox E_x + Yoy E_y` for both polarisations, the datum of `ox` is `Yox` exactly if the second
polarisation has no `H_o` or the `E_x` of the second is the `E_y` of the first, and that of `oy` is
`Yoy` exactly if the first polarisation has no `H_o` or those two are the same.
Missing: that the data are the row for all fields, which is false, see `C100_violated_admittance`. -/
theorem C100_admittance_partial (Q : Proj n ε φ) (o : Ax3) (e : Matrix ε (Fin 2) ℂ)
    (h : Matrix φ (Fin 2) ℂ) (i : n)
    (hd : det2 ((cm (Q.e0 .x) * e) i) ((cm (Q.e0 .y) * e) i) ≠ 0) (yx yy : ℂ)
    (hy : Transfers yx yy ((cm (Q.e0 .x) * e) i) ((cm (Q.e0 .y) * e) i) ((cm (Q.h1 o) * h) i)) :
    (yx = cplx (admEval Q o .x .real e h i) (admEval Q o .x .imag e h i) ↔
      (cm (Q.h1 o) * h) i 1 = 0 ∨ (cm (Q.e0 .x) * e) i 1 = (cm (Q.e0 .y) * e) i 0) ∧
    (yy = cplx (admEval Q o .y .real e h i) (admEval Q o .y .imag e h i) ↔
      (cm (Q.h1 o) * h) i 0 = 0 ∨ (cm (Q.e0 .x) * e) i 1 = (cm (Q.e0 .y) * e) i 0) := by
  obtain ⟨h1, h2⟩ := (transfers_iff hd yx yy).1 hy
  have hc : ∀ z : ℂ, cplx z.re z.im = z := fun z => rfl
  unfold admEval
  simp only [NComp.val, hc]
  rw [h1, h2]
  generalize (cm (Q.e0 .x) * e) i = X at *
  generalize (cm (Q.e0 .y) * e) i = Y at *
  generalize (cm (Q.h1 o) * h) i = H at *
  constructor
  · simp only [admAt, if_true]
    rw [div_left_inj' hd]
    unfold det2
    constructor
    · intro g
      have : H 1 * (X 1 - Y 0) = 0 := by linear_combination g
      rcases mul_eq_zero.1 this with g | g
      · exact Or.inl g
      · exact Or.inr (sub_eq_zero.1 g)
    · rintro (g | g)
      · rw [g]; ring
      · rw [g]
  · simp only [admAt, reduceCtorEq, if_false]
    rw [div_left_inj' hd]
    unfold det2
    constructor
    · intro g
      have : H 0 * (X 1 - Y 0) = 0 := by linear_combination -g
      rcases mul_eq_zero.1 this with g | g
      · exact Or.inl g
      · exact Or.inr (sub_eq_zero.1 g)
    · rintro (g | g)
      · rw [g]; ring
      · rw [g]; ring

/-! ### A mesh with one place for each component -/

/-- Two edges and three faces, a single location. -/
def tinyProj : Proj Unit (Fin 2) (Fin 3) where
  e0 := fun a => match a with
    | .x => of fun _ j => if j = 0 then 1 else 0
    | .y => of fun _ j => if j = 1 then 1 else 0
  h0 := fun a => match a with
    | .x => of fun _ j => if j = 0 then 1 else 0
    | .y => of fun _ j => if j = 1 then 1 else 0
    | .z => of fun _ j => if j = 2 then 1 else 0
  h1 := fun a => match a with
    | .x => of fun _ j => if j = 0 then 1 else 0
    | .y => of fun _ j => if j = 1 then 1 else 0
    | .z => of fun _ j => if j = 2 then 1 else 0

theorem tiny_e0x (e : Matrix (Fin 2) (Fin 2) ℂ) : (cm (tinyProj.e0 .x) * e) () = e 0 := by
  funext k; simp [tinyProj, cm, Matrix.mul_apply]

theorem tiny_e0y (e : Matrix (Fin 2) (Fin 2) ℂ) : (cm (tinyProj.e0 .y) * e) () = e 1 := by
  funext k; simp [tinyProj, cm, Matrix.mul_apply]

theorem tiny_h1x (h : Matrix (Fin 3) (Fin 2) ℂ) : (cm (tinyProj.h1 .x) * h) () = h 0 := by
  funext k; simp [tinyProj, cm, Matrix.mul_apply, Fin.sum_univ_three]

theorem tiny_h1y (h : Matrix (Fin 3) (Fin 2) ℂ) : (cm (tinyProj.h1 .y) * h) () = h 1 := by
  funext k; simp [tinyProj, cm, Matrix.mul_apply, Fin.sum_univ_three]

theorem tiny_h0z (h : Matrix (Fin 3) (Fin 2) ℂ) : (cm (tinyProj.h0 .z) * h) () = h 2 := by
  funext k; simp [tinyProj, cm, Matrix.mul_apply, Fin.sum_univ_three]

/-- Two independent magnetic fields, and two electric fields. -/
example : det2 ((cm (tinyProj.h1 .x) * (!![1, 2; 0, 1; 5, 7] : Matrix (Fin 3) (Fin 2) ℂ)) ())
    ((cm (tinyProj.h1 .y) * (!![1, 2; 0, 1; 5, 7] : Matrix (Fin 3) (Fin 2) ℂ)) ()) ≠ 0 := by
  rw [tiny_h1x, tiny_h1y]; simp [det2]

example : impEval tinyProj .x .y .real 1 !![3, 4; 0, 1] !![1, 2; 0, 1; 5, 7] () = -2 := by
  unfold impEval
  rw [tiny_e0x, tiny_h1x, tiny_h1y]
  simp [impAt, det2, NComp.val]
  norm_num

/-- **C100 violated: admittance.** There are fields, both polarisations independent, for which the
row of the admittance is `(1, 0)` and the data are `(0, 1)`. -/
theorem C100_violated_admittance : ∃ (e : Matrix (Fin 2) (Fin 2) ℂ) (h : Matrix (Fin 3) (Fin 2) ℂ),
    det2 ((cm (tinyProj.e0 .x) * e) ()) ((cm (tinyProj.e0 .y) * e) ()) ≠ 0 ∧
    Transfers 1 0 ((cm (tinyProj.e0 .x) * e) ()) ((cm (tinyProj.e0 .y) * e) ())
      ((cm (tinyProj.h1 .x) * h) ()) ∧
    cplx (admEval tinyProj .x .x .real e h ()) (admEval tinyProj .x .x .imag e h ()) = 0 ∧
    cplx (admEval tinyProj .x .y .real e h ()) (admEval tinyProj .x .y .imag e h ()) = 1 := by
  refine ⟨!![1, 1; 0, 1], !![1, 1; 0, 0; 0, 0], ?_, ?_, ?_, ?_⟩
  · rw [tiny_e0x, tiny_e0y]; simp [det2]
  · rw [tiny_e0x, tiny_e0y, tiny_h1x]
    intro k
    fin_cases k <;> simp
  · unfold admEval
    rw [tiny_e0x, tiny_e0y, tiny_h1x]
    apply Complex.ext <;> simp [admAt, det2, NComp.val, cplx]
  · unfold admEval
    rw [tiny_e0x, tiny_e0y, tiny_h1x]
    apply Complex.ext <;> simp [admAt, det2, NComp.val, cplx]

/-- Electric fields for which the data are the row. -/
example : (cm (tinyProj.e0 .x) * (!![1, 2; 2, 1] : Matrix (Fin 2) (Fin 2) ℂ)) () 1 =
    (cm (tinyProj.e0 .y) * (!![1, 2; 2, 1] : Matrix (Fin 2) (Fin 2) ℂ)) () 0 := by
  rw [tiny_e0x, tiny_e0y]; simp

/-! ### The choice of the polarisations -/

theorem det2_mix (a b : Two) (M : Matrix (Fin 2) (Fin 2) ℂ) :
    det2 (a ᵥ* M) (b ᵥ* M) = det2 a b * M.det := by
  simp only [det2, Matrix.vecMul, dotProduct, Fin.sum_univ_two, Matrix.det_fin_two]
  ring

theorem row_mul_mix {α β : Type} [Fintype β] (P : Matrix α β ℂ) (f : Matrix β (Fin 2) ℂ)
    (M : Matrix (Fin 2) (Fin 2) ℂ) (i : α) : (P * (f * M)) i = ((P * f) i) ᵥ* M := by
  rw [← Matrix.mul_assoc]
  rfl

/-- **C100 (polarisations).** The data of impedance and tipper receivers do not depend on which two
independent polarisations the fields were simulated for: combining the two simulations with any
invertible matrix changes no datum, for any orientation and component. -/
theorem C100_polarisation (Q : Proj n ε φ) (o1 o2 : Ax) (o3 : Ax3) (c : NComp) (alpha : ℝ)
    (e : Matrix ε (Fin 2) ℂ) (h : Matrix φ (Fin 2) ℂ) (M : Matrix (Fin 2) (Fin 2) ℂ)
    (hM : M.det ≠ 0) (i : n) :
    impEval Q o1 o2 c alpha (e * M) (h * M) i = impEval Q o1 o2 c alpha e h i ∧
    tipEval Q o3 o2 c (h * M) i = tipEval Q o3 o2 c h i := by
  unfold impEval tipEval
  simp only [row_mul_mix]
  cases o2
  · simp only [impAt_x, tipAt_x, det2_mix, mul_div_mul_right _ _ hM, and_self]
  · simp only [impAt_y, tipAt_y, det2_mix, mul_div_mul_right _ _ hM, and_self]

example : (!![1, 2; 3, 4] : Matrix (Fin 2) (Fin 2) ℂ).det ≠ 0 := by
  rw [Matrix.det_fin_two]; simp; norm_num

/-- **C100 violated: polarisations.** The data of admittance receivers do depend on the choice. -/
theorem C100_violated_polarisation : ∃ (e : Matrix (Fin 2) (Fin 2) ℂ) (h : Matrix (Fin 3) (Fin 2) ℂ)
    (M : Matrix (Fin 2) (Fin 2) ℂ), M.det ≠ 0 ∧
    det2 ((cm (tinyProj.e0 .x) * e) ()) ((cm (tinyProj.e0 .y) * e) ()) ≠ 0 ∧
    admEval tinyProj .x .x .real (e * M) (h * M) () ≠ admEval tinyProj .x .x .real e h () := by
  refine ⟨1, !![1, 0; 0, 0; 0, 0], !![1, 1; 0, 1], ?_, ?_, ?_⟩
  · rw [Matrix.det_fin_two]; simp
  · rw [tiny_e0x, tiny_e0y]; simp [det2]
  · unfold admEval
    simp only [row_mul_mix]
    rw [tiny_e0x, tiny_e0y, tiny_h1x]
    simp [admAt, det2, NComp.val, Matrix.vecMul, dotProduct, Fin.sum_univ_two]

/-! ### Components -/

/-- **C100 (components).** Apparent resistivity and phase together are the impedance: its absolute
value is the root of the apparent resistivity times the angular frequency and the permeability, and its
argument is the phase, in degrees from -180, not included, to 180. -/
theorem C100_components (mu f : ℝ) (hm : 0 < mu) (hf : 0 < f) (z : ℂ) :
    let w := 2 * Real.pi * mu * f
    NComp.val (1 / w) .appRes z = ‖z‖ ^ 2 / w ∧
    -180 < NComp.val (1 / w) .phase z ∧ NComp.val (1 / w) .phase z ≤ 180 ∧
    z = Real.sqrt (NComp.val (1 / w) .appRes z * w) *
      Complex.exp (NComp.val (1 / w) .phase z * Real.pi / 180 * Complex.I) := by
  have hw : 0 < 2 * Real.pi * mu * f := by positivity
  have hpi := Real.pi_pos
  intro w
  have hn : ‖z‖ ^ 2 = z.re ^ 2 + z.im ^ 2 := by
    rw [← Complex.normSq_eq_norm_sq, Complex.normSq_apply]; ring
  have ha : NComp.val (1 / w) .appRes z = ‖z‖ ^ 2 / w := by
    rw [hn]; simp only [NComp.val]; ring
  refine ⟨ha, ?_, ?_, ?_⟩
  · simp only [NComp.val]
    have := Complex.neg_pi_lt_arg z
    rw [div_mul_eq_mul_div, lt_div_iff₀ hpi]
    nlinarith
  · simp only [NComp.val]
    have := Complex.arg_le_pi z
    rw [div_mul_eq_mul_div, div_le_iff₀ hpi]
    nlinarith
  · rw [ha, div_mul_cancel₀ _ hw.ne', Real.sqrt_sq (norm_nonneg z)]
    have : ((NComp.val (1 / w) .phase z : ℝ) : ℂ) * Real.pi / 180 = z.arg := by
      simp only [NComp.val]
      push_cast
      have : (Real.pi : ℂ) ≠ 0 := by exact_mod_cast hpi.ne'
      field_simp
    rw [this]
    exact (Complex.norm_mul_exp_arg_mul_I z).symm

/-- **C100 (half space).** Over a half space of resistivity `rho`, whose impedance is the root of
`i omega mu rho` in the right half plane, the apparent resistivity is `rho` and the phase 45 degrees;
for the other root, the impedance of the orientation `yx`, it is -135 degrees. -/
theorem C100_halfspace (mu f rho : ℝ) (hm : 0 < mu) (hf : 0 < f) (hr : 0 < rho) (z : ℂ)
    (hz : z ^ 2 = Complex.I * (2 * Real.pi * mu * f * rho : ℝ)) :
    NComp.val (1 / (2 * Real.pi * mu * f)) .appRes z = rho ∧
    (0 < z.re → NComp.val (1 / (2 * Real.pi * mu * f)) .phase z = 45) ∧
    (z.re < 0 → NComp.val (1 / (2 * Real.pi * mu * f)) .phase z = -135) := by
  have hpi := Real.pi_pos
  have hw : 0 < 2 * Real.pi * mu * f := by positivity
  generalize 2 * Real.pi * mu * f = w at *
  have hre : z.re * z.re - z.im * z.im = 0 := by
    have := congrArg Complex.re hz
    simpa [pow_two] using this
  have him : z.re * z.im + z.im * z.re = w * rho := by
    have := congrArg Complex.im hz
    simpa [pow_two] using this
  have hwr : 0 < w * rho := mul_pos hw hr
  have heq : z.im = z.re := by
    have h1 : (z.re - z.im) * (z.re + z.im) = 0 := by linear_combination hre
    rcases mul_eq_zero.1 h1 with g | g
    · linarith
    · have : z.im = -z.re := by linarith
      rw [this] at him
      nlinarith [mul_self_nonneg z.re]
  have hval : 2 * (z.re * z.re) = w * rho := by rw [heq] at him; linarith
  refine ⟨?_, ?_, ?_⟩
  · simp only [NComp.val]
    rw [heq]
    field_simp
    nlinarith
  · intro hp
    have hz' : z = (Real.sqrt 2 * z.re : ℝ) *
        (Complex.cos (Real.pi / 4 : ℝ) + Complex.sin (Real.pi / 4 : ℝ) * Complex.I) := by
      rw [← Complex.ofReal_cos, ← Complex.ofReal_sin, Real.cos_pi_div_four, Real.sin_pi_div_four]
      have h2 : Real.sqrt 2 * Real.sqrt 2 = 2 := Real.mul_self_sqrt (by norm_num)
      apply Complex.ext
      · simp
        linear_combination -(z.re / 2) * h2
      · simp
        rw [heq]
        linear_combination -(z.re / 2) * h2
    have harg : z.arg = Real.pi / 4 := by
      rw [hz']
      exact Complex.arg_mul_cos_add_sin_mul_I (by positivity)
        ⟨by linarith, by linarith⟩
    simp only [NComp.val]
    rw [harg]
    field_simp
    norm_num
  · intro hp
    have hz' : z = (-(Real.sqrt 2 * z.re) : ℝ) *
        (Complex.cos (Real.pi / 4 - Real.pi : ℝ) + Complex.sin (Real.pi / 4 - Real.pi : ℝ) * Complex.I) := by
      rw [← Complex.ofReal_cos, ← Complex.ofReal_sin, Real.cos_sub_pi, Real.sin_sub_pi,
        Real.cos_pi_div_four, Real.sin_pi_div_four]
      have h2 : Real.sqrt 2 * Real.sqrt 2 = 2 := Real.mul_self_sqrt (by norm_num)
      apply Complex.ext
      · simp
        linear_combination -(z.re / 2) * h2
      · simp
        rw [heq]
        linear_combination -(z.re / 2) * h2
    have harg : z.arg = Real.pi / 4 - Real.pi := by
      rw [hz']
      have hs : 0 < Real.sqrt 2 := by positivity
      exact Complex.arg_mul_cos_add_sin_mul_I (by nlinarith)
        ⟨by linarith, by linarith⟩
    simp only [NComp.val]
    rw [harg]
    field_simp
    norm_num

/-- The impedance of a half space. -/
example : (⟨2, 2⟩ : ℂ) ^ 2 = Complex.I * (2 * Real.pi * (1 / Real.pi) * 2 * 2 : ℝ) := by
  have := Real.pi_pos.ne'
  apply Complex.ext
  · simp [pow_two]
  · simp [pow_two]
    field_simp
    norm_num

/-- **C100 (apparent conductivity).** Where the fields are those of a half space of conductivity
`sigma`, `E_x = Z H_y`, `E_y = -Z H_x`, `H_z = 0` and `|Z|^2 = omega mu / sigma`, for both polarisations
and not all zero, the datum is `sigma`. -/
theorem C100_conductivity (Q : Proj n ε φ) (fact sigma : ℝ) (hf : 0 < fact) (hs : 0 < sigma)
    (e : Matrix ε (Fin 2) ℂ) (h : Matrix φ (Fin 2) ℂ) (i : n) (z : ℂ)
    (hz : ‖z‖ ^ 2 = fact / sigma)
    (h1 : ∀ k, (cm (Q.e0 .x) * e) i k = z * (cm (Q.h1 .y) * h) i k)
    (h2 : ∀ k, (cm (Q.e0 .y) * e) i k = -z * (cm (Q.h1 .x) * h) i k)
    (h3 : ∀ k, (cm (Q.h1 .z) * h) i k = 0)
    (h4 : ∃ k, (cm (Q.h1 .x) * h) i k ≠ 0 ∨ (cm (Q.h1 .y) * h) i k ≠ 0) :
    condEval Q fact e h i = sigma := by
  unfold condEval condAt
  simp only [h1, h2, h3]
  generalize (cm (Q.h1 .x) * h) i = X at *
  generalize (cm (Q.h1 .y) * h) i = Y at *
  simp only [norm_mul, norm_neg, mul_pow, hz, norm_zero, Fin.sum_univ_two]
  have hpos : 0 < ‖X 0‖ ^ 2 + ‖Y 0‖ ^ 2 + (‖X 1‖ ^ 2 + ‖Y 1‖ ^ 2) := by
    obtain ⟨k, hk⟩ := h4
    have a0 := sq_nonneg ‖X 0‖
    have a1 := sq_nonneg ‖X 1‖
    have b0 := sq_nonneg ‖Y 0‖
    have b1 := sq_nonneg ‖Y 1‖
    rcases hk with hk | hk
    · have := pow_pos (norm_pos_iff.2 hk) 2
      fin_cases k
      · have : 0 < ‖X 0‖ ^ 2 := this
        linarith
      · have : 0 < ‖X 1‖ ^ 2 := this
        linarith
    · have := pow_pos (norm_pos_iff.2 hk) 2
      fin_cases k
      · have : 0 < ‖Y 0‖ ^ 2 := this
        linarith
      · have : 0 < ‖Y 1‖ ^ 2 := this
        linarith
  have hb : fact / sigma * ‖Y 0‖ ^ 2 + fact / sigma * ‖X 0‖ ^ 2 +
      (fact / sigma * ‖Y 1‖ ^ 2 + fact / sigma * ‖X 1‖ ^ 2) =
      fact / sigma * (‖X 0‖ ^ 2 + ‖Y 0‖ ^ 2 + (‖X 1‖ ^ 2 + ‖Y 1‖ ^ 2)) := by ring
  rw [hb, zero_pow two_ne_zero, add_zero, add_zero]
  field_simp

/-- **C100 (one and two dimensions), partial.** For the orientations `xy` and `yx` the datum times the
magnetic field at `locations_h` is the electric field at `locations_e`, negated in one dimension if the
orientation is not the one of the simulated fields, provided the two locations are the same or the mesh
has two dimensions. Missing: different locations in one dimension, which is false, see
`C100_violated_locations`. -/
theorem C100_low_partial {L : Type} (dim : Nat) (neg : Bool) (PE : L → Matrix n ε ℝ)
    (PH : L → Matrix n φ ℝ) (le lh : L) (hl : dim = 2 ∨ dim = 1 ∧ le = lh) (e : ε → ℂ) (h : φ → ℂ) (i : n) (hb : (cm (PH lh) *ᵥ h) i ≠ 0) :
    impLow dim neg PE PH le lh e h i * (cm (PH lh) *ᵥ h) i =
      if dim = 1 ∧ neg = true then -(cm (PE le) *ᵥ e) i else (cm (PE le) *ᵥ e) i := by
  rcases hl with rfl | ⟨rfl, rfl⟩
  · simp [impLow, ratio, locsOf, hb]
  · cases neg
    · simp [impLow, ratio, locsOf, hb]
    · simp only [impLow, ratio, locsOf, decide_true, Bool.and_true, if_true, and_self]
      field_simp

/-- **C100 violated: locations in one dimension.** The magnetic field is taken at `locations_e`: there
are a mesh, fields and two locations for which the datum is 1, and the electric field at `locations_e`
over the magnetic field at `locations_h` is 2. -/
theorem C100_violated_locations : ∃ (PE PH : Bool → Matrix Unit Bool ℝ) (le lh : Bool)
    (e h : Bool → ℂ), impLow 1 false PE PH le lh e h () = 1 ∧
    (cm (PE le) *ᵥ e) () / (cm (PH lh) *ᵥ h) () = 2 := by
  refine ⟨fun l => of fun _ j => if j = l then 1 else 0, fun l => of fun _ j => if j = l then 1 else 0,
    true, false, fun _ => 2, fun b => if b then 2 else 1, ?_, ?_⟩
  · simp [impLow, ratio, locsOf, cm, Matrix.mulVec, dotProduct]
  · simp [cm, Matrix.mulVec, dotProduct]

end

end Verif.NSEM.Props
