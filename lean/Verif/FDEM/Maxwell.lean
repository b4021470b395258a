import Verif.FDEM.HJ

/-!
The equations which the frequency domain simulations solve, and the agreement of the formulations: the
electric field and the magnetic flux density formulation predict the same data, and so do the current
density and the magnetic field formulation
(`simpeg/electromagnetics/frequency_domain/simulation.py` 514-2187, `fields.py` 323-1819).
-/

namespace Verif.FDEM.Props
open Matrix Verif.FDEM Verif.EM Verif.EM.Props

noncomputable section

variable {p s t ε φ : Type} [Fintype p] [Fintype s] [Fintype t] [Fintype ε] [Fintype φ]
  [DecidableEq ε] [DecidableEq φ]

set_option linter.unusedSectionVars false

/-! ### Specification -/

/-- The discrete Maxwell equations in terms of `e` and `b`. -/
structure MaxwellEB (C : Matrix φ ε ℂ) (Mui : Matrix φ φ ℂ) (Sigma : Matrix ε ε ℂ) (iω : ℂ)
    (sm : φ → ℂ) (se : ε → ℂ) (e : ε → ℂ) (b : φ → ℂ) : Prop where
  faraday : C *ᵥ e + iω • b = sm
  ampere : Cᵀ *ᵥ (Mui *ᵥ b) - Sigma *ᵥ e = se

/-- The discrete Maxwell equations in terms of `h` and `j`. -/
structure MaxwellHJ (C : Matrix φ ε ℂ) (Rho : Matrix φ φ ℂ) (Mu : Matrix ε ε ℂ) (iω : ℂ)
    (sm : ε → ℂ) (se : φ → ℂ) (h : ε → ℂ) (j : φ → ℂ) : Prop where
  faraday : Cᵀ *ᵥ (Rho *ᵥ j) + iω • (Mu *ᵥ h) = sm
  ampere : C *ᵥ h - j = se

theorem iw_ne {f : ℚ} (hf : f ≠ 0) : iw f ≠ 0 := by
  unfold iw
  have : (2 * Real.pi * (f : ℝ) : ℝ) ≠ 0 := by
    have h1 : (f : ℝ) ≠ 0 := by exact_mod_cast hf
    positivity
  exact mul_ne_zero Complex.I_ne_zero (by exact_mod_cast this)

theorem maxwellEB_unique {C : Matrix φ ε ℂ} {Mui : Matrix φ φ ℂ} {Sigma : Matrix ε ε ℂ} {iω : ℂ}
    {sm : φ → ℂ} {se : ε → ℂ} {e e' : ε → ℂ} {b b' : φ → ℂ} (hω : iω ≠ 0)
    (hdet : (Cᵀ * Mui * C + iω • Sigma).det ≠ 0) (h : MaxwellEB C Mui Sigma iω sm se e b)
    (h' : MaxwellEB C Mui Sigma iω sm se e' b') : e = e' ∧ b = b' := by
  have key : ∀ {e : ε → ℂ} {b : φ → ℂ}, MaxwellEB C Mui Sigma iω sm se e b →
      (Cᵀ * Mui * C + iω • Sigma) *ᵥ e = Cᵀ *ᵥ (Mui *ᵥ sm) - iω • se := by
    intro e b h
    rw [← h.faraday, ← h.ampere]
    simp only [Matrix.add_mulVec, Matrix.smul_mulVec, ← Matrix.mulVec_mulVec, Matrix.mulVec_add,
      Matrix.mulVec_smul, smul_sub]
    abel
  have he : e = e' := (solve_unique hdet (key h)).symm.trans (solve_unique hdet (key h'))
  refine ⟨he, ?_⟩
  have h1 : iω • b = iω • b' := by
    have := h.faraday.trans h'.faraday.symm
    rw [he] at this
    exact add_left_cancel this
  have h2 := congrArg (fun x => iω⁻¹ • x) h1
  simpa [smul_smul, inv_mul_cancel₀ hω] using h2

theorem maxwellHJ_unique {C : Matrix φ ε ℂ} {Rho : Matrix φ φ ℂ} {Mu : Matrix ε ε ℂ} {iω : ℂ}
    {sm : ε → ℂ} {se : φ → ℂ} {h h' : ε → ℂ} {j j' : φ → ℂ}
    (hdet : (Cᵀ * (Rho * C) + iω • Mu).det ≠ 0) (w : MaxwellHJ C Rho Mu iω sm se h j)
    (w' : MaxwellHJ C Rho Mu iω sm se h' j') : h = h' ∧ j = j' := by
  have key : ∀ {h : ε → ℂ} {j : φ → ℂ}, MaxwellHJ C Rho Mu iω sm se h j →
      (Cᵀ * (Rho * C) + iω • Mu) *ᵥ h = sm + Cᵀ *ᵥ (Rho *ᵥ se) := by
    intro h j w
    rw [← w.faraday, ← w.ampere]
    simp only [Matrix.add_mulVec, Matrix.smul_mulVec, ← Matrix.mulVec_mulVec, Matrix.mulVec_sub]
    abel
  have he : h = h' := (solve_unique hdet (key w)).symm.trans (solve_unique hdet (key w'))
  refine ⟨he, ?_⟩
  have := w.ampere.trans w'.ampere.symm
  rw [he] at this
  exact sub_right_injective this

/-- The source as the electric field simulation sees it. -/
def EB.srcE (o : EB p s t ε φ) (src : SrcEB p ε φ) : Src p ε FldEB (LocEB ε φ) :=
  { freq := src.freq, q := o.eQ src, qD := o.eQD src, qDT := o.eQDT src, fld := o.eFld src,
    rx := src.rx }

/-- The source as the magnetic flux density simulation sees it. -/
def EB.srcB (o : EB p s t ε φ) (src : SrcEB p ε φ) : Src p φ FldEB (LocEB ε φ) :=
  { freq := src.freq, q := o.bQ src, qD := o.bQD src, qDT := o.bQDT src, fld := o.bFld src,
    rx := src.rx }

/-- The source as the current density simulation sees it. -/
def HJ.srcJ (o : HJ p s t ε φ) (src : SrcHJ p ε φ) : Src p φ FldHJ (LocHJ ε φ) :=
  { freq := src.freq, q := o.jQ src, qD := o.jQD src, qDT := o.jQDT src, fld := o.jFld src,
    rx := src.rx }

/-- The source as the magnetic field simulation sees it. -/
def HJ.srcH (o : HJ p s t ε φ) (src : SrcHJ p ε φ) : Src p ε FldHJ (LocHJ ε φ) :=
  { freq := src.freq, q := o.hQ src, qD := o.hQD src, qDT := o.hQDT src, fld := o.hFld src,
    rx := src.rx }

/-! ### The electric field and the magnetic flux density -/

/-- **C69.** The electric field formulation solves Maxwell's equations: the computed (secondary) `e`
and `b` satisfy Faraday's and Ampère's law with the source terms, at every frequency other than zero. -/
theorem C69_electric_field (o : EB p s t ε φ) (m : p → ℝ) (srcs : List (SrcEB p ε φ))
    (src : SrcEB p ε φ) (hf : src.freq ≠ 0) (hdet : (o.eA src.freq m).det ≠ 0) :
    let u := (o.simE srcs).sol m (EB.srcE o src)
    MaxwellEB o.C (o.mui.mat ℂ m) (o.sigma.mat ℂ m) (iw src.freq) (src.sm.val m) (src.se.val m)
      u ((o.eBs src).val m u) := by
  intro u
  have hw := iw_ne hf
  have hu : o.eA src.freq m *ᵥ u = o.eQ src m := mulVec_solve hdet _
  have h1 : ∀ x : φ → ℂ, iw src.freq • ((-1 / iw src.freq) • x) = -x := by
    intro x
    rw [smul_smul, mul_div_cancel₀ _ hw, neg_one_smul]
  have h2 : ∀ x : φ → ℂ, iw src.freq • ((1 / iw src.freq) • x) = x := by
    intro x
    rw [smul_smul, mul_div_cancel₀ _ hw, one_smul]
  have hF : o.C *ᵥ u + iw src.freq • (o.eBs src).val m u = src.sm.val m := by
    simp only [EB.eBs, smul_add, h1, h2]
    abel
  refine ⟨hF, ?_⟩
  have h3 : iw src.freq • (o.Cᵀ *ᵥ (o.mui.mat ℂ m *ᵥ (o.eBs src).val m u) - o.sigma.mat ℂ m *ᵥ u) =
      iw src.freq • src.se.val m := by
    have h4 : iw src.freq • (o.eBs src).val m u = src.sm.val m - o.C *ᵥ u := by
      rw [← hF]; abel
    rw [smul_sub, ← Matrix.mulVec_smul, ← Matrix.mulVec_smul, h4]
    simp only [EB.eA, EB.eQ, Matrix.add_mulVec, Matrix.smul_mulVec, ← Matrix.mulVec_mulVec] at hu
    rw [Matrix.mulVec_sub, Matrix.mulVec_sub]
    have := congrArg (fun x => o.Cᵀ *ᵥ (o.mui.mat ℂ m *ᵥ src.sm.val m) - x) hu
    simp only [sub_sub_cancel] at this
    rw [← this]
    abel
  have h5 := congrArg (fun x => (iw src.freq)⁻¹ • x) h3
  simpa only [smul_smul, inv_mul_cancel₀ hw, one_smul] using h5

theorem of_premultiplied {n : Type} [Fintype n] [DecidableEq n] {M A0 : Matrix n n ℂ} {q0 u : n → ℂ}
    (hdet : (M * A0).det ≠ 0) (hu : u = (M * A0)⁻¹ *ᵥ (M *ᵥ q0)) : A0 *ᵥ u = q0 := by
  have hM : M.det ≠ 0 := by
    intro h
    apply hdet
    rw [Matrix.det_mul, h, zero_mul]
  have h1 : (M * A0) *ᵥ u = M *ᵥ q0 := by rw [hu]; exact mulVec_solve hdet _
  have h2 := congrArg (fun x => M⁻¹ *ᵥ x) h1
  simpa [Matrix.mulVec_mulVec, ← Matrix.mul_assoc, Matrix.nonsing_inv_mul _ (isUnit_iff_ne_zero.2 hM)]
    using h2

/-- **C69.** The magnetic flux density formulation solves the same equations. -/
theorem C69_magnetic_flux_density (o : EB p s t ε φ) (m : p → ℝ) (srcs : List (SrcEB p ε φ))
    (src : SrcEB p ε φ) (hs : GoodInv o.sigma m) (hdet : (o.bA src.freq m).det ≠ 0) :
    let u := (o.simB srcs).sol m (EB.srcB o src)
    MaxwellEB o.C (o.mui.mat ℂ m) (o.sigma.mat ℂ m) (iw src.freq) (src.sm.val m) (src.se.val m)
      ((o.bE src).val m u - src.eP.val m) u := by
  intro u
  have hu : o.bA0 src.freq m *ᵥ u = o.bQ0 src m := of_premultiplied hdet rfl
  have he : (o.bE src).val m u - src.eP.val m =
      o.sigma.inv ℂ m *ᵥ (o.Cᵀ *ᵥ (o.mui.mat ℂ m *ᵥ u) - src.se.val m) := by
    simp only [EB.bE, sub_eq_add_neg]
    abel
  rw [he]
  refine ⟨?_, ?_⟩
  · simp only [EB.bA0, EB.bQ0, Matrix.add_mulVec, Matrix.smul_mulVec, ← Matrix.mulVec_mulVec,
      Matrix.one_mulVec] at hu
    rw [Matrix.mulVec_sub, Matrix.mulVec_sub, ← sub_eq_zero]
    rw [← sub_eq_zero] at hu
    rw [← hu]
    abel
  · rw [Matrix.mulVec_mulVec _ (o.sigma.mat ℂ m), EM.Props.mul_inv hs, Matrix.one_mulVec, sub_sub_cancel]

/-- **C69.** The two formulations in terms of `e` and `b` predict the same data: for every model and
survey with frequencies other than zero, whatever the receivers measure; receivers of `j` need sources
without a primary electric field. -/
theorem C69_same_data_EB (o : EB p s t ε φ) (m : p → ℝ) (srcs : List (SrcEB p ε φ))
    (hs : GoodInv o.sigma m) (hf : ∀ src ∈ srcs, src.freq ≠ 0)
    (hE : ∀ src ∈ srcs, (o.eA src.freq m).det ≠ 0) (hB : ∀ src ∈ srcs, (o.bA src.freq m).det ≠ 0)
    (hj : ∀ src ∈ srcs, ∀ r ∈ src.rx, r.field = .j → src.eP.val m = 0) :
    (o.simE srcs).dpred m = (o.simB srcs).dpred m := by
  have key : ∀ src ∈ srcs, (o.simE srcs).srcData m (EB.srcE o src) =
      (o.simB srcs).srcData m (EB.srcB o src) := by
    intro src hsrc
    have h1 := C69_electric_field o m srcs src (hf src hsrc) (hE src hsrc)
    have h2 := C69_magnetic_flux_density o m srcs src hs (hB src hsrc)
    obtain ⟨he, hb⟩ := maxwellEB_unique (iw_ne (hf src hsrc)) (hE src hsrc) h1 h2
    set ue := (o.simE srcs).sol m (EB.srcE o src)
    set ub := (o.simB srcs).sol m (EB.srcB o src)
    have hb' : (o.eB src).val m ue = (o.bB src).val m ub := by
      change src.bP m + (o.eBs src).val m ue = src.bP m + ub
      rw [hb]
    unfold Sim.srcData
    change src.rx.flatMap (fun r => List.ofFn (r.eval (o.eFld src r.field) m ue)) =
      src.rx.flatMap (fun r => List.ofFn (r.eval (o.bFld src r.field) m ub))
    have hl : ∀ (l : List (Rx FldEB (LocEB ε φ))), (∀ r ∈ l, r ∈ src.rx) →
        l.flatMap (fun r => List.ofFn (r.eval (o.eFld src r.field) m ue)) =
        l.flatMap (fun r => List.ofFn (r.eval (o.bFld src r.field) m ub)) := by
      intro l hl
      refine List.flatMap_congr fun r hr => ?_
      have hv : (o.eFld src r.field).val m ue = (o.bFld src r.field).val m ub := by
        have hjr := hj src hsrc r (hl r hr)
        clear hr
        generalize r.field = k at hjr ⊢
        cases k with
        | e =>
          change src.eP.val m + ue = _
          rw [he, add_sub_cancel]
          rfl
        | b => exact hb'
        | bSecondary => exact hb
        | h =>
          change o.MfI *ᵥ (o.mui.mat ℂ m *ᵥ (o.eB src).val m ue) = _
          rw [hb']
          rfl
        | j =>
          have h0 := hjr rfl
          change o.MeI *ᵥ (o.sigma.mat ℂ m *ᵥ (src.eP.val m + ue)) =
            o.MeI *ᵥ (o.Cᵀ *ᵥ (o.mui.mat ℂ m *ᵥ ub) - src.se.val m)
          have h3 := h2.ampere
          rw [← he] at h3
          rw [← h3, h0, zero_add, sub_sub_cancel]
      unfold Rx.eval
      rw [hv]
    exact hl src.rx fun r hr => hr
  change ((srcs.map (EB.srcE o)).flatMap ((o.simE srcs).srcData m)) =
    ((srcs.map (EB.srcB o)).flatMap ((o.simB srcs).srcData m))
  rw [List.flatMap_map, List.flatMap_map]
  exact List.flatMap_congr key

/-! ### The magnetic field and the current density -/

/-- **C69.** The magnetic field formulation solves Maxwell's equations: the computed (secondary) `h`
and `j` satisfy Faraday's and Ampère's law with the source terms. -/
theorem C69_magnetic_field (o : HJ p s t ε φ) (m : p → ℝ) (srcs : List (SrcHJ p ε φ))
    (src : SrcHJ p ε φ) (hdet : (o.hA src.freq m).det ≠ 0) :
    let u := (o.simH srcs).sol m (HJ.srcH o src)
    MaxwellHJ o.C (o.rho.mat ℂ m) (o.mu.mat ℂ m) (iw src.freq) (src.sm.val m) (src.se m)
      u ((o.hJ src).val m u - src.jP m) := by
  intro u
  have hu : o.hA src.freq m *ᵥ u = o.hQ src m := mulVec_solve hdet _
  have hj : (o.hJ src).val m u - src.jP m = o.C *ᵥ u - src.se m := by
    simp only [HJ.hJ, sub_eq_add_neg]
    abel
  rw [hj]
  refine ⟨?_, by abel⟩
  simp only [HJ.hA, HJ.hQ, Matrix.add_mulVec, Matrix.smul_mulVec, ← Matrix.mulVec_mulVec] at hu
  rw [Matrix.mulVec_sub, Matrix.mulVec_sub, ← sub_eq_zero]
  rw [← sub_eq_zero] at hu
  rw [← hu]
  abel

/-- **C69.** The current density formulation solves the same equations, at every frequency other than
zero. -/
theorem C69_current_density (o : HJ p s t ε φ) (m : p → ℝ) (srcs : List (SrcHJ p ε φ))
    (src : SrcHJ p ε φ) (hf : src.freq ≠ 0) (hm : GoodInv o.mu m)
    (hdet : (o.jA src.freq m).det ≠ 0) :
    let u := (o.simJ srcs).sol m (HJ.srcJ o src)
    MaxwellHJ o.C (o.rho.mat ℂ m) (o.mu.mat ℂ m) (iw src.freq) (src.sm.val m) (src.se m)
      ((o.jH src).val m u - src.hP m) u := by
  intro u
  have hw := iw_ne hf
  have hu : o.jA0 src.freq m *ᵥ u = o.jQ0 src m := of_premultiplied hdet rfl
  have hh : (o.jH src).val m u - src.hP m =
      (1 / iw src.freq) • (o.mu.inv ℂ m *ᵥ (src.sm.val m - o.Cᵀ *ᵥ (o.rho.mat ℂ m *ᵥ u))) := by
    have e : (-1 / iw src.freq : ℂ) = -(1 / iw src.freq) := by ring
    simp only [HJ.jH, e, add_sub_cancel_left, neg_smul, Matrix.mulVec_add, Matrix.mulVec_neg,
      Matrix.mulVec_sub, Matrix.mulVec_smul, smul_sub]
    abel
  rw [hh]
  refine ⟨?_, ?_⟩
  · rw [Matrix.mulVec_smul, Matrix.mulVec_mulVec _ (o.mu.mat ℂ m), EM.Props.mul_inv hm, Matrix.one_mulVec, smul_smul,
      mul_div_cancel₀ _ hw, one_smul]
    abel
  · simp only [HJ.jA0, HJ.jQ0, Matrix.add_mulVec, Matrix.smul_mulVec, ← Matrix.mulVec_mulVec,
      Matrix.one_mulVec] at hu
    have h1 : o.C *ᵥ (o.mu.inv ℂ m *ᵥ (src.sm.val m - o.Cᵀ *ᵥ (o.rho.mat ℂ m *ᵥ u))) =
        iw src.freq • (u + src.se m) := by
      rw [Matrix.mulVec_sub, Matrix.mulVec_sub, smul_add, ← sub_eq_zero]
      rw [← sub_eq_zero] at hu
      rw [← neg_eq_zero, ← hu]
      abel
    rw [Matrix.mulVec_smul, h1, smul_smul, one_div, inv_mul_cancel₀ hw, one_smul, add_sub_cancel_left]

/-- **C69.** The two formulations in terms of `h` and `j` predict the same data: for every model and
survey with frequencies other than zero, whatever the receivers measure. -/
theorem C69_same_data_HJ (o : HJ p s t ε φ) (m : p → ℝ) (srcs : List (SrcHJ p ε φ))
    (hm : GoodInv o.mu m) (hf : ∀ src ∈ srcs, src.freq ≠ 0)
    (hH : ∀ src ∈ srcs, (o.hA src.freq m).det ≠ 0) (hJ : ∀ src ∈ srcs, (o.jA src.freq m).det ≠ 0) :
    (o.simJ srcs).dpred m = (o.simH srcs).dpred m := by
  have key : ∀ src ∈ srcs, (o.simJ srcs).srcData m (HJ.srcJ o src) =
      (o.simH srcs).srcData m (HJ.srcH o src) := by
    intro src hsrc
    have h1 := C69_current_density o m srcs src (hf src hsrc) hm (hJ src hsrc)
    have h2 := C69_magnetic_field o m srcs src (hH src hsrc)
    obtain ⟨hh, hj⟩ := maxwellHJ_unique (hH src hsrc) h1 h2
    set uj := (o.simJ srcs).sol m (HJ.srcJ o src)
    set uh := (o.simH srcs).sol m (HJ.srcH o src)
    have hh' : (o.jH src).val m uj = (o.hH src).val m uh := by
      change _ = src.hP m + uh
      rw [← hh, add_sub_cancel]
    have hj' : (o.jJ src).val m uj = (o.hJ src).val m uh := by
      change src.jP m + uj = _
      rw [hj, add_sub_cancel]
    unfold Sim.srcData
    change src.rx.flatMap (fun r => List.ofFn (r.eval (o.jFld src r.field) m uj)) =
      src.rx.flatMap (fun r => List.ofFn (r.eval (o.hFld src r.field) m uh))
    refine List.flatMap_congr fun r hr => ?_
    have hv : (o.jFld src r.field).val m uj = (o.hFld src r.field).val m uh := by
      clear hr
      generalize r.field = k
      cases k with
      | j => exact hj'
      | h => exact hh'
      | e =>
        change o.MfI *ᵥ (o.rho.mat ℂ m *ᵥ (o.jJ src).val m uj) = _
        rw [hj']
        rfl
      | b =>
        change o.MeI *ᵥ (o.mu.mat ℂ m *ᵥ (o.jH src).val m uj) = _
        rw [hh']
        rfl
    unfold Rx.eval
    rw [hv]
  change ((srcs.map (HJ.srcJ o)).flatMap ((o.simJ srcs).srcData m)) =
    ((srcs.map (HJ.srcH o)).flatMap ((o.simH srcs).srcData m))
  rw [List.flatMap_map, List.flatMap_map]
  exact List.flatMap_congr key

/-! ### Reciprocity -/

theorem reciprocal (o : EB p s t ε φ) (m : p → ℝ) (hm : Good o.mui m) (hs : Good o.sigma m)
    (f : ℚ) (a b : ε → ℂ) :
    a ⬝ᵥ ((o.eA f m)⁻¹ *ᵥ (-(iw f • b))) = b ⬝ᵥ ((o.eA f m)⁻¹ *ᵥ (-(iw f • a))) := by
  have h : ((o.eA f m)⁻¹)ᵀ = (o.eA f m)⁻¹ := by
    rw [Matrix.transpose_nonsing_inv, eA_symm hm hs]
  rw [← neg_smul, ← neg_smul, Matrix.mulVec_smul, Matrix.mulVec_smul, dotProduct_smul,
    dotProduct_smul]
  congr 1
  rw [Matrix.dotProduct_mulVec, ← Matrix.mulVec_transpose, h, dotProduct_comm]

/-- An electric current source with the given edge values and one receiver of `e` with the given
weights. -/
def electric (f : ℚ) (c : Comp) (q w : ε → ℝ) : SrcEB p ε φ where
  freq := f
  sm := ⟨fun _ => 0, fun _ _ => 0, fun _ _ => 0⟩
  se := ⟨fun _ => castV ℂ q, fun _ _ => 0, fun _ _ => 0⟩
  eP := ⟨fun _ => 0, fun _ _ => 0, fun _ _ => 0⟩
  bP := fun _ => 0
  rx := [⟨1, c, .e, fun _ => w⟩]

/-- **C69.** Reciprocity of the electric field formulation: a receiver of `e` with the weights `b`
measures for the electric source `a` what a receiver with the weights `a` measures for the source `b`. -/
theorem C69_reciprocity (o : EB p s t ε φ) (m : p → ℝ) (hm : Good o.mui m) (hs : Good o.sigma m)
    (f : ℚ) (c : Comp) (a b : ε → ℝ) :
    (o.simE [electric f c a b]).dpred m = (o.simE [electric f c b a]).dpred m := by
  have key : ∀ a b : ε → ℝ, (o.simE [electric f c a b]).dpred m =
      [c.part (castV ℂ b ⬝ᵥ ((o.eA f m)⁻¹ *ᵥ (-(iw f • castV ℂ a))))] := by
    intro a b
    simp only [Sim.dpred, EB.simE, List.map_cons, List.map_nil, List.flatMap_cons, List.flatMap_nil,
      List.append_nil, Sim.srcData, electric, eval_eq]
    rw [List.ofFn_succ, List.ofFn_zero]
    congr 2
    simp only [Sim.sol, EB.eQ, EB.eFld, EB.eE, Matrix.mulVec_zero, zero_sub, zero_add]
    rfl
  rw [key, key, reciprocal o m hm hs]

end

end Verif.FDEM.Props
