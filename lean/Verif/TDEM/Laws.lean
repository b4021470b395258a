import Verif.TDEM.Maxwell

/-!
C75, C76: conservation laws, the initial fields of grounded sources, and stability of the time
stepping for any time steps.
-/

namespace Verif.TDEM.Props
open Matrix Verif.EM Verif.EM.Props Verif.TDEM Verif.Flow.Richards.Props

noncomputable section

variable {p s ν c ε φ : Type} [Fintype p] [Fintype s] [Fintype ν] [Fintype c] [Fintype ε] [Fintype φ]
  [DecidableEq ν] [DecidableEq c] [DecidableEq ε] [DecidableEq φ]

set_option linter.unusedSectionVars false

/-! ### Conservation -/

/-- **C75, electric field.** The divergence of the total current, induced plus source, does not change
with time, on a mesh where the curl of a gradient is zero. -/
theorem C75_charge_electric_field_partial (o : EB p s ν ε φ)
    (srcs : List (SrcEB ν ε φ × List (Rx FldE (LocE ε φ))))
    (x : SrcEB ν ε φ × List (Rx FldE (LocE ε φ))) (m : p → ℝ) (hf : Fresh (o.simE srcs))
    (hdt : ∀ d ∈ o.dts, d ≠ 0) (hdet : ∀ d ∈ o.dts, (o.eA d m).det ≠ 0) (hCG : o.C * o.G = 0)
    (k : ℕ) (hk : k ≤ o.dts.length) :
    o.Gᵀ *ᵥ (o.sigma.mat ℝ m *ᵥ (o.simE srcs).sol m (o.srcE x) k + x.1.se k) =
      o.Gᵀ *ᵥ (o.sigma.mat ℝ m *ᵥ o.eInit x.1 m + x.1.se 0) := by
  induction k with
  | zero => rfl
  | succ k ih =>
    have hk' : k < o.dts.length := hk
    have hkd : o.dt k = o.dts[k] := getD_eq hk'
    have hmem : o.dts[k] ∈ o.dts := List.getElem_mem hk'
    have h2 := (e_step x.1 (by rw [hkd]; exact hdt _ hmem)).1
      (sol_step (S := o.simE srcs) (t := o.srcE x) (m := m) (fac_eq hf k hk')
        (by change (o.eA (o.dt k) m).det ≠ 0; rw [hkd]; exact hdet _ hmem))
    have h3 := congrArg (fun z => o.Gᵀ *ᵥ z) h2
    have hz : o.Gᵀ * o.Cᵀ = 0 := by rw [← Matrix.transpose_mul, hCG, Matrix.transpose_zero]
    simp only [Matrix.mulVec_smul, Matrix.mulVec_sub] at h3
    rw [Matrix.mulVec_mulVec _ o.Gᵀ o.Cᵀ, Matrix.mulVec_mulVec _ o.Gᵀ o.Cᵀ, hz] at h3
    simp only [Matrix.zero_mulVec, sub_self, smul_zero] at h3
    rw [← ih (by omega)]
    exact sub_eq_zero.1 h3

/-- **C75, electric field.** A grounded source starts in equilibrium: the divergence of the total
current is zero at the beginning.  The gradient of a constant is zero; the source current is
`getRHSdc`'s. -/
theorem C75_start_electric_field (o : EB p s ν ε φ) (src : SrcEB ν ε φ) (m : p → ℝ)
    (hdc : src.dc = true) (hdet : (o.adc m).det ≠ 0) (hG : o.G *ᵥ (fun _ => 1) = 0)
    (hr : src.rhsdc = o.Gᵀ *ᵥ src.se 0) :
    o.Gᵀ *ᵥ (o.sigma.mat ℝ m *ᵥ o.eInit src m + src.se 0) = 0 := by
  set ph := (o.adc m)⁻¹ *ᵥ src.rhsdc with hph
  have h1 : o.adc m *ᵥ ph = src.rhsdc := mulVec_solve hdet _
  have h2 : o.Gᵀ *ᵥ (o.sigma.mat ℝ m *ᵥ (o.G *ᵥ ph)) + Pi.single o.node0 (ph o.node0) =
      src.rhsdc := by
    rw [← h1, EB.adc, Matrix.add_mulVec]
    simp only [← Matrix.mulVec_mulVec]
    congr 1
    funext i
    rw [Matrix.single_mulVec]
    simp [Pi.single_apply, Function.update_apply]
  have h3 : ph o.node0 = 0 := by
    have h4 := congrArg (fun z => (fun _ => 1 : ν → ℝ) ⬝ᵥ z) h2
    simp only [dotProduct_add] at h4
    have hz : ∀ y : ε → ℝ, (fun _ => 1 : ν → ℝ) ⬝ᵥ (o.Gᵀ *ᵥ y) = 0 := by
      intro y
      rw [Matrix.mulVec_transpose, dotProduct_comm, ← Matrix.dotProduct_mulVec, hG, dotProduct_zero]
    rw [hz, hr, hz, zero_add] at h4
    simpa [dotProduct, Pi.single_apply] using h4
  have h5 : o.eInit src m = -(o.G *ᵥ ph) := by simp [EB.eInit, hdc, hph]
  rw [h5, Matrix.mulVec_add, Matrix.mulVec_neg, Matrix.mulVec_neg, ← hr, ← h2, h3, Pi.single_zero]
  abel

/-- **C75, magnetic flux density.** The divergence of the flux changes only by that of the magnetic
source, on a mesh where the divergence of a curl is zero. -/
theorem C75_flux_magnetic_flux_density_partial (o : EB p s ν ε φ)
    (srcs : List (SrcEB ν ε φ × List (Rx FldB (LocB ε φ))))
    (x : SrcEB ν ε φ × List (Rx FldB (LocB ε φ))) (m : p → ℝ) (hf : Fresh (o.simB srcs))
    (hdt : ∀ d ∈ o.dts, d ≠ 0) (hdet : ∀ d ∈ o.dts, (o.bA d m).det ≠ 0)
    (D : Matrix c φ ℝ) (hDC : D * o.C = 0) (k : ℕ) (hk : k < o.dts.length) :
    D *ᵥ (o.simB srcs).sol m (o.srcB x) (k + 1) =
      D *ᵥ (o.simB srcs).sol m (o.srcB x) k + o.dts[k] • (D *ᵥ x.1.sm (k + 1)) := by
  have hkd : (o.simB srcs).dt k = o.dts[k] := getD_eq hk
  have hmem : o.dts[k] ∈ o.dts := List.getElem_mem hk
  have h1 := sol_step (t := o.srcB x) (fac_eq hf k hk) (m := m) (by rw [hkd]; exact hdet _ hmem)
  rw [hkd] at h1
  have h2 := (b_step x.1 (hdet _ hmem)).1 h1
  have h3 := congrArg (fun z => o.dts[k] • (D *ᵥ z)) h2
  simp only [Matrix.mulVec_add, Matrix.mulVec_smul, smul_add, smul_smul, mul_one_div,
    div_self (hdt _ hmem), one_smul, Matrix.mulVec_mulVec _ D o.C, hDC, Matrix.zero_mulVec, smul_zero,
    add_zero, Matrix.mulVec_sub] at h3
  rw [← h3]
  abel

/-- **C75, magnetic field.** The total current has no divergence at any time, on a mesh where the
divergence of a curl is zero. -/
theorem C75_charge_magnetic_field (o : HJ p s c ε φ) (src : SrcHJ c ε φ) (m : p → ℝ) (u : ε → ℝ)
    (hDC : o.D * o.C = 0) (k : ℕ) : o.D *ᵥ ((o.hJ src).val k m u + src.se k) = 0 := by
  simp only [HJ.hJ, sub_add_cancel]
  rw [Matrix.mulVec_mulVec, hDC, Matrix.zero_mulVec]

/-- **C75, current density.** The divergence of the total current does not change with time, on a mesh
where the divergence of a curl is zero, when the source is steady where the time step changes and at
the end. -/
theorem C75_charge_current_density_partial (o : HJ p s c ε φ)
    (srcs : List (SrcHJ c ε φ × List (Rx FldJ (LocJ ε φ))))
    (x : SrcHJ c ε φ × List (Rx FldJ (LocJ ε φ))) (m : p → ℝ) (hf : Fresh (o.simJ srcs))
    (hdt : ∀ d ∈ o.dts, d ≠ 0) (hdet : ∀ d ∈ o.dts, (o.jA d m).det ≠ 0)
    (hst : Steady o.dts x.1.sm x.1.se) (hDC : o.D * o.C = 0) (k : ℕ) (hk : k ≤ o.dts.length) :
    o.D *ᵥ ((o.simJ srcs).sol m (o.srcJ x) k + x.1.se k) =
      o.D *ᵥ (o.jInit x.1 m + x.1.se 0) := by
  induction k with
  | zero => rfl
  | succ k ih =>
    have hk' : k < o.dts.length := hk
    have hkd : o.dt k = o.dts[k] := getD_eq hk'
    have hmem : o.dts[k] ∈ o.dts := List.getElem_mem hk'
    have hde : (o.jA (o.dt k) m).det ≠ 0 := by rw [hkd]; exact hdet _ hmem
    have h2 := (j_step x.1 hst hk' (by rw [hkd]; exact hdt _ hmem) hde).1
      (sol_step (S := o.simJ srcs) (t := o.srcJ x) (m := m) (fac_eq hf k hk') hde)
    have h3 := congrArg (fun z => o.D *ᵥ z) h2
    simp only [Matrix.mulVec_smul] at h3
    rw [Matrix.mulVec_mulVec _ o.D o.C, hDC, Matrix.zero_mulVec, smul_zero, Matrix.mulVec_sub] at h3
    rw [← ih (by omega)]
    exact sub_eq_zero.1 h3

/-- **C75, current density.** A grounded source starts in equilibrium. -/
theorem C75_start_current_density (o : HJ p s c ε φ) (src : SrcHJ c ε φ) (m : p → ℝ)
    (hdc : src.dc = true) (hdet : (o.adc m).det ≠ 0) :
    o.D *ᵥ o.jInit src m + src.rhsdc = 0 := by
  have h1 : o.adc m *ᵥ o.phi0 src m = src.rhsdc := mulVec_solve hdet _
  rw [← h1]
  simp only [HJ.jInit, hdc, if_true, HJ.adc, Matrix.mulVec_neg, ← Matrix.mulVec_mulVec]
  abel

/-- **C75, magnetic field.** The magnetic field of a grounded source starts as that of the current it
drives: `∇×h = j + s_e`, with the `j` of the current density formulation. -/
theorem C75_start_magnetic_field (o : HJ p s c ε φ) (src : SrcHJ c ε φ) (m : p → ℝ)
    (hdc : src.dc = true) (hg : src.galvanic = true) (hdet : (o.adc m).det ≠ 0)
    (hmmr : o.ammr.det ≠ 0) (hDC : o.D * o.C = 0)
    (hr : src.rhsdc = o.D *ᵥ src.se0) :
    o.C *ᵥ o.hInit src m - o.jInit src m = src.se0 := by
  set r := src.se0 + o.jInit src m with hrr
  set a := o.ammr⁻¹ *ᵥ r with ha
  have h1 : o.ammr *ᵥ a = r := mulVec_solve hmmr _
  have h2 : o.C *ᵥ (o.muI *ᵥ (o.Cᵀ *ᵥ a)) -
      o.Dᵀ *ᵥ (Matrix.diagonal o.muiVol *ᵥ (o.D *ᵥ a)) = r := by
    rw [← h1, HJ.ammr, Matrix.sub_mulVec]
    simp only [← Matrix.mulVec_mulVec]
  have hDr : o.D *ᵥ r = 0 := by
    rw [hrr, Matrix.mulVec_add, ← hr, add_comm]
    exact C75_start_current_density o src m hdc hdet
  set y := Matrix.diagonal o.muiVol *ᵥ (o.D *ᵥ a) with hy
  have h3 : o.D *ᵥ (o.Dᵀ *ᵥ y) = 0 := by
    have h4 := congrArg (fun z => o.D *ᵥ z) h2
    simp only [Matrix.mulVec_sub] at h4
    rw [Matrix.mulVec_mulVec _ o.D o.C, hDC, Matrix.zero_mulVec, hDr, zero_sub, neg_eq_zero] at h4
    exact h4
  have h5 : o.Dᵀ *ᵥ y = 0 := by
    have h6 : (o.Dᵀ *ᵥ y) ⬝ᵥ (o.Dᵀ *ᵥ y) = 0 := by
      have h7 : y ⬝ᵥ (o.D *ᵥ (o.Dᵀ *ᵥ y)) = 0 := by rw [h3, dotProduct_zero]
      rwa [Matrix.dotProduct_mulVec, ← Matrix.mulVec_transpose] at h7
    exact dotProduct_self_eq_zero.1 h6
  have h8 : o.hInit src m = o.muI *ᵥ (o.Cᵀ *ᵥ a) := by
    simp only [HJ.hInit, hdc, hg, and_self, if_true, ha, hrr]
  rw [h8]
  have h9 : o.C *ᵥ (o.muI *ᵥ (o.Cᵀ *ᵥ a)) = r := by rw [← h2, h5, sub_zero]
  rw [h9, hrr]
  abel

/-! ### Stability -/

theorem decay_of {n : Type} [Fintype n] {M : Matrix n n ℝ} (hs : Mᵀ = M)
    (hp : ∀ v : n → ℝ, 0 ≤ v ⬝ᵥ (M *ᵥ v)) {x x' : n → ℝ} (h : x' ⬝ᵥ (M *ᵥ (x' - x)) ≤ 0) :
    x' ⬝ᵥ (M *ᵥ x') ≤ x ⬝ᵥ (M *ᵥ x) := by
  have h1 := hp (x' - x)
  have hsym : x ⬝ᵥ (M *ᵥ x') = x' ⬝ᵥ (M *ᵥ x) := by
    rw [Matrix.dotProduct_mulVec, ← Matrix.mulVec_transpose, hs, dotProduct_comm]
  simp only [Matrix.mulVec_sub, dotProduct_sub, sub_dotProduct] at h h1
  linarith

/-- **C76.** Along any solution of Maxwell's equations `eᵀσe` does not grow over a positive time step
during which there is no magnetic source and the electric source does not change; and `bᵀμ⁻¹b` does
not, if there is no electric source. -/
theorem maxwellEB_decay {C : Matrix φ ε ℝ} {mui : Matrix φ φ ℝ} {sigma : Matrix ε ε ℝ} {dts : List ℝ}
    {sm : ℕ → φ → ℝ} {se : ℕ → ε → ℝ} {e : ℕ → ε → ℝ} {b : ℕ → φ → ℝ}
    (h : MaxwellEB C mui sigma dts sm se e b) (hms : muiᵀ = mui) (hss : sigmaᵀ = sigma)
    (hm : ∀ v : φ → ℝ, 0 ≤ v ⬝ᵥ (mui *ᵥ v)) (hs : ∀ v : ε → ℝ, 0 ≤ v ⬝ᵥ (sigma *ᵥ v))
    (k : ℕ) (hk : k < dts.length) (hdt : 0 < dts[k]) (hsm : sm (k + 1) = 0) :
    (se (k + 1) = se k → e (k + 1) ⬝ᵥ (sigma *ᵥ e (k + 1)) ≤ e k ⬝ᵥ (sigma *ᵥ e k)) ∧
    (se (k + 1) = 0 → b (k + 1) ⬝ᵥ (mui *ᵥ b (k + 1)) ≤ b k ⬝ᵥ (mui *ᵥ b k)) := by
  have hF : b (k + 1) - b k = -(dts[k] • (C *ᵥ e (k + 1))) := by
    have h1 := h.faraday k hk
    rw [hsm] at h1
    have h2 := congrArg (fun z => dts[k] • z) h1
    simp only [smul_add, smul_smul, mul_one_div, div_self hdt.ne', one_smul, smul_zero] at h2
    exact eq_neg_of_add_eq_zero_left h2
  refine ⟨fun hse => decay_of hss hs ?_, fun hse => decay_of hms hm ?_⟩
  · have h1 : sigma *ᵥ (e (k + 1) - e k) = Cᵀ *ᵥ (mui *ᵥ (b (k + 1) - b k)) := by
      have a1 := h.ampere (k + 1) hk
      have a2 := h.ampere k hk.le
      rw [hse, ← a2] at a1
      simp only [Matrix.mulVec_sub]
      have a3 : Cᵀ *ᵥ (mui *ᵥ b (k + 1)) = Cᵀ *ᵥ (mui *ᵥ b k) - sigma *ᵥ e k +
          sigma *ᵥ e (k + 1) := by rw [← a1]; abel
      rw [a3]
      abel
    rw [h1, hF, Matrix.mulVec_neg, Matrix.mulVec_neg, Matrix.mulVec_smul, Matrix.mulVec_smul,
      dotProduct_neg, dotProduct_smul, smul_eq_mul, neg_nonpos, Matrix.dotProduct_mulVec _ Cᵀ,
      Matrix.vecMul_transpose]
    exact mul_nonneg hdt.le (hm _)
  · have a1 := h.ampere (k + 1) hk
    rw [hse, sub_eq_zero] at a1
    rw [hF, Matrix.mulVec_neg, dotProduct_neg, neg_nonpos, Matrix.mulVec_smul, dotProduct_smul,
      smul_eq_mul]
    refine mul_nonneg hdt.le ?_
    have e1 : b (k + 1) ⬝ᵥ (mui *ᵥ (C *ᵥ e (k + 1))) = e (k + 1) ⬝ᵥ (sigma *ᵥ e (k + 1)) := by
      rw [← a1, Matrix.dotProduct_mulVec, ← Matrix.mulVec_transpose, hms, Matrix.dotProduct_mulVec,
        ← Matrix.mulVec_transpose, dotProduct_comm]
    rw [e1]
    exact hs _

/-- **C76.** The same for `hᵀμh` and `jᵀρj`. -/
theorem maxwellHJ_decay {C : Matrix φ ε ℝ} {mu muI : Matrix ε ε ℝ} {rho : Matrix φ φ ℝ} {dts : List ℝ}
    {sm : ℕ → ε → ℝ} {se : ℕ → φ → ℝ} {h : ℕ → ε → ℝ} {j : ℕ → φ → ℝ}
    (hM : MaxwellHJ C mu rho dts sm se h j) (hms : muᵀ = mu) (hrs : rhoᵀ = rho)
    (hm : ∀ v : ε → ℝ, 0 ≤ v ⬝ᵥ (mu *ᵥ v)) (hr : ∀ v : φ → ℝ, 0 ≤ v ⬝ᵥ (rho *ᵥ v))
    (hI : muI * mu = 1) (hmI : ∀ v : ε → ℝ, 0 ≤ v ⬝ᵥ (muI *ᵥ v))
    (k : ℕ) (hk : k < dts.length) (hdt : 0 < dts[k]) (hsm : sm (k + 1) = 0) :
    (se (k + 1) = 0 → h (k + 1) ⬝ᵥ (mu *ᵥ h (k + 1)) ≤ h k ⬝ᵥ (mu *ᵥ h k)) ∧
    (se (k + 1) = se k → j (k + 1) ⬝ᵥ (rho *ᵥ j (k + 1)) ≤ j k ⬝ᵥ (rho *ᵥ j k)) := by
  have hF : mu *ᵥ (h (k + 1) - h k) = -(dts[k] • (Cᵀ *ᵥ (rho *ᵥ j (k + 1)))) := by
    have h1 := hM.faraday k hk
    rw [hsm] at h1
    have h2 := congrArg (fun z => dts[k] • z) h1
    simp only [Matrix.mulVec_smul, smul_add, smul_smul, mul_one_div, div_self hdt.ne', one_smul,
      smul_zero] at h2
    exact eq_neg_of_add_eq_zero_left h2
  refine ⟨fun hse => decay_of hms hm ?_, fun hse => decay_of hrs hr ?_⟩
  · have a1 := hM.ampere (k + 1) hk
    rw [hse, sub_eq_zero] at a1
    rw [hF, dotProduct_neg, neg_nonpos, dotProduct_smul, smul_eq_mul, Matrix.dotProduct_mulVec _ Cᵀ,
      Matrix.vecMul_transpose, a1]
    exact mul_nonneg hdt.le (hr _)
  · have h1 : j (k + 1) - j k = C *ᵥ (h (k + 1) - h k) := by
      have a1 := hM.ampere (k + 1) hk
      have a2 := hM.ampere k hk.le
      rw [hse, ← a2] at a1
      rw [Matrix.mulVec_sub]
      have a3 : C *ᵥ h (k + 1) = C *ᵥ h k - j k + j (k + 1) := by rw [← a1]; abel
      rw [a3]
      abel
    have h2 : h (k + 1) - h k = -(dts[k] • (muI *ᵥ (Cᵀ *ᵥ (rho *ᵥ j (k + 1))))) := by
      rw [← Matrix.mulVec_smul, ← Matrix.mulVec_neg, ← hF, Matrix.mulVec_mulVec, hI,
        Matrix.one_mulVec]
    rw [h1, h2, Matrix.mulVec_neg, Matrix.mulVec_neg, Matrix.mulVec_smul, Matrix.mulVec_smul,
      dotProduct_neg, neg_nonpos, dotProduct_smul, smul_eq_mul]
    refine mul_nonneg hdt.le ?_
    set w := Cᵀ *ᵥ (rho *ᵥ j (k + 1)) with hw
    have e1 : j (k + 1) ⬝ᵥ (rho *ᵥ (C *ᵥ (muI *ᵥ w))) = w ⬝ᵥ (muI *ᵥ w) := by
      rw [Matrix.dotProduct_mulVec, ← Matrix.mulVec_transpose, hrs, Matrix.dotProduct_mulVec,
        ← Matrix.mulVec_transpose]
    rw [e1]
    exact hmI _

/-- **C76, magnetic flux density.** `bᵀμ⁻¹b` never grows while the sources are off, whatever the (positive)
time steps are. -/
theorem C76_magnetic_flux_density_partial (o : EB p s ν ε φ)
    (srcs : List (SrcEB ν ε φ × List (Rx FldB (LocB ε φ))))
    (x : SrcEB ν ε φ × List (Rx FldB (LocB ε φ))) (m : p → ℝ) (hf : Fresh (o.simB srcs))
    (hi : GoodInv o.sigma m) (hdt : ∀ d ∈ o.dts, 0 < d) (hdet : ∀ d ∈ o.dts, (o.bA d m).det ≠ 0)
    (hms : o.muiᵀ = o.mui) (hm : ∀ v : φ → ℝ, 0 ≤ v ⬝ᵥ (o.mui *ᵥ v))
    (hs : ∀ v : ε → ℝ, 0 ≤ v ⬝ᵥ (o.sigma.mat ℝ m *ᵥ v))
    {k k' : ℕ} (hkk : k ≤ k') (hk : k' ≤ o.dts.length)
    (hoff : ∀ i, k < i → i ≤ k' → x.1.sm i = 0 ∧ x.1.se i = 0) :
    let b := (o.simB srcs).sol m (o.srcB x)
    b k' ⬝ᵥ (o.mui *ᵥ b k') ≤ b k ⬝ᵥ (o.mui *ᵥ b k) := by
  intro b
  have hM := (C72_magnetic_flux_density_partial o srcs x m hf hi hdet).1
  induction k', hkk using Nat.le_induction with
  | base => exact le_refl _
  | succ i hi' ih =>
    have h1 := hoff (i + 1) (by omega) (le_refl _)
    refine le_trans ((maxwellEB_decay hM hms (mat_transpose hi.toGood) hm hs i hk
      (hdt _ (List.getElem_mem _)) h1.1).2 h1.2) ?_
    exact ih (by omega) fun j h2 h3 => hoff j h2 (by omega)

/-- **C76, electric field.** `eᵀσe` never grows while there is no magnetic source and the electric
source does not change, whatever the (positive) time steps are. -/
theorem C76_electric_field_partial (o : EB p s ν ε φ)
    (srcs : List (SrcEB ν ε φ × List (Rx FldE (LocE ε φ))))
    (x : SrcEB ν ε φ × List (Rx FldE (LocE ε φ))) (m : p → ℝ) (hf : Fresh (o.simE srcs))
    (hg : Good o.sigma m) (hdt : ∀ d ∈ o.dts, 0 < d) (hdet : ∀ d ∈ o.dts, (o.eA d m).det ≠ 0)
    (hm : ∀ v : φ → ℝ, 0 ≤ v ⬝ᵥ (o.mui *ᵥ v))
    (hs : ∀ v : ε → ℝ, 0 ≤ v ⬝ᵥ (o.sigma.mat ℝ m *ᵥ v))
    {k k' : ℕ} (hkk : k ≤ k') (hk : k' ≤ o.dts.length)
    (hoff : ∀ i, k ≤ i → i < k' → x.1.sm (i + 1) = 0 ∧ x.1.se (i + 1) = x.1.se i) :
    let e := (o.simE srcs).sol m (o.srcE x)
    e k' ⬝ᵥ (o.sigma.mat ℝ m *ᵥ e k') ≤ e k ⬝ᵥ (o.sigma.mat ℝ m *ᵥ e k) := by
  intro e
  induction k', hkk using Nat.le_induction with
  | base => exact le_refl _
  | succ i hi' ih =>
    have h1 := hoff i hi' (by omega)
    refine le_trans (decay_of (mat_transpose hg) hs ?_)
      (ih (by omega) fun j h2 h3 => hoff j h2 (by omega))
    have hk' : i < o.dts.length := hk
    have hkd : o.dt i = o.dts[i] := getD_eq hk'
    have hmem : o.dts[i] ∈ o.dts := List.getElem_mem hk'
    have h2 := (e_step x.1 (by rw [hkd]; exact (hdt _ hmem).ne')).1
      (sol_step (S := o.simE srcs) (t := o.srcE x) (m := m) (fac_eq hf i hk')
        (by change (o.eA (o.dt i) m).det ≠ 0; rw [hkd]; exact hdet _ hmem))
    rw [h1.1, h1.2, add_sub_add_right_eq_sub, ← Matrix.mulVec_sub, zero_sub] at h2
    change e (i + 1) ⬝ᵥ (o.sigma.mat ℝ m *ᵥ (e (i + 1) - e i)) ≤ 0
    have h3 : o.sigma.mat ℝ m *ᵥ (e (i + 1) - e i) =
        o.dt i • (o.Cᵀ *ᵥ (o.mui *ᵥ -(o.C *ᵥ e (i + 1)))) := h2
    rw [h3, Matrix.mulVec_neg, Matrix.mulVec_neg, smul_neg, dotProduct_neg, neg_nonpos,
      dotProduct_smul, smul_eq_mul, Matrix.dotProduct_mulVec _ o.Cᵀ, Matrix.vecMul_transpose]
    rw [hkd]
    exact mul_nonneg (hdt _ hmem).le (hm _)

/-- **C76, magnetic field.** `hᵀμh` never grows while the sources are off, whatever the (positive) time
steps are. -/
theorem C76_magnetic_field_partial (o : HJ p s c ε φ)
    (srcs : List (SrcHJ c ε φ × List (Rx FldH (LocH ε φ))))
    (x : SrcHJ c ε φ × List (Rx FldH (LocH ε φ))) (m : p → ℝ) (hf : Fresh (o.simH srcs))
    (hdt : ∀ d ∈ o.dts, 0 < d) (hdet : ∀ d ∈ o.dts, (o.hA d m).det ≠ 0)
    (hI : o.muI * o.mu = 1) (hms : o.muᵀ = o.mu) (hm : ∀ v : ε → ℝ, 0 ≤ v ⬝ᵥ (o.mu *ᵥ v))
    (hr : ∀ v : φ → ℝ, 0 ≤ v ⬝ᵥ (o.rho.mat ℝ m *ᵥ v))
    {k k' : ℕ} (hkk : k ≤ k') (hk : k' ≤ o.dts.length)
    (hoff : ∀ i, k < i → i ≤ k' → x.1.sm i = 0 ∧ x.1.se i = 0) :
    let h := (o.simH srcs).sol m (o.srcH x)
    h k' ⬝ᵥ (o.mu *ᵥ h k') ≤ h k ⬝ᵥ (o.mu *ᵥ h k) := by
  intro h
  have hM := (C72_magnetic_field_partial o srcs x m hf hI hdet).1
  induction k', hkk using Nat.le_induction with
  | base => exact le_refl _
  | succ i hi' ih =>
    have h1 := hoff (i + 1) (by omega) (le_refl _)
    refine le_trans (decay_of hms hm ?_) (ih (by omega) fun j h2 h3 => hoff j h2 (by omega))
    have hk' : i < o.dts.length := hk
    have hpos := hdt _ (List.getElem_mem hk')
    have hF := hM.faraday i hk'
    have hA := hM.ampere (i + 1) hk'
    rw [h1.1] at hF
    rw [h1.2, sub_eq_zero] at hA
    have h2 := congrArg (fun z => o.dts[i] • z) hF
    simp only [Matrix.mulVec_smul, smul_add, smul_smul, mul_one_div, div_self hpos.ne', one_smul,
      smul_zero] at h2
    change h (i + 1) ⬝ᵥ (o.mu *ᵥ (h (i + 1) - h i)) ≤ 0
    have h3 : o.mu *ᵥ (h (i + 1) - h i) =
        -(o.dts[i] • (o.Cᵀ *ᵥ (o.rho.mat ℝ m *ᵥ (o.hJ x.1).val (i + 1) m (h (i + 1))))) :=
      eq_neg_of_add_eq_zero_left h2
    have hA' : o.C *ᵥ h (i + 1) = (o.hJ x.1).val (i + 1) m (h (i + 1)) := hA
    rw [h3, dotProduct_neg, neg_nonpos, dotProduct_smul, smul_eq_mul,
      Matrix.dotProduct_mulVec _ o.Cᵀ, Matrix.vecMul_transpose, hA']
    exact mul_nonneg hpos.le (hr _)

/-- **C76, current density.** `jᵀρj` never grows while there is no magnetic source and the electric
source does not change, whatever the (positive) time steps are. -/
theorem C76_current_density_partial (o : HJ p s c ε φ)
    (srcs : List (SrcHJ c ε φ × List (Rx FldJ (LocJ ε φ))))
    (x : SrcHJ c ε φ × List (Rx FldJ (LocJ ε φ))) (m : p → ℝ) (hf : Fresh (o.simJ srcs))
    (hg : Good o.rho m) (hdt : ∀ d ∈ o.dts, 0 < d) (hdet : ∀ d ∈ o.dts, (o.jA d m).det ≠ 0)
    (hmI : ∀ v : ε → ℝ, 0 ≤ v ⬝ᵥ (o.muI *ᵥ v))
    (hr : ∀ v : φ → ℝ, 0 ≤ v ⬝ᵥ (o.rho.mat ℝ m *ᵥ v)) (hlen : 2 ≤ o.dts.length)
    (hoff : ∀ i ≤ o.dts.length, x.1.sm i = 0 ∧ x.1.se i = x.1.se 0)
    {k k' : ℕ} (hkk : k ≤ k') (hk : k' ≤ o.dts.length) :
    let j := (o.simJ srcs).sol m (o.srcJ x)
    j k' ⬝ᵥ (o.rho.mat ℝ m *ᵥ j k') ≤ j k ⬝ᵥ (o.rho.mat ℝ m *ᵥ j k) := by
  intro j
  have hst : Steady o.dts x.1.sm x.1.se := by
    refine ⟨fun k h => Or.inr ?_, ?_, ?_, ?_⟩
    · rw [(hoff (k + 1) h.le).2, (hoff k (by omega)).2]
    · rw [if_neg (by omega), (hoff _ (by omega)).2, (hoff (o.dts.length - 1 - 1) (by omega)).2]
    · rw [(hoff _ (le_refl _)).2, (hoff (o.dts.length - 1) (by omega)).2]
    · rw [(hoff _ (le_refl _)).1, (hoff (o.dts.length - 1) (by omega)).1]
  induction k', hkk using Nat.le_induction with
  | base => exact le_refl _
  | succ i hi' ih =>
    refine le_trans (decay_of (mat_transpose hg) hr ?_) (ih (by omega))
    have hk' : i < o.dts.length := hk
    have hkd : o.dt i = o.dts[i] := getD_eq hk'
    have hmem : o.dts[i] ∈ o.dts := List.getElem_mem hk'
    have hde : (o.jA (o.dt i) m).det ≠ 0 := by rw [hkd]; exact hdet _ hmem
    have h2 := (j_step x.1 hst hk' (by rw [hkd]; exact (hdt _ hmem).ne') hde).1
      (sol_step (S := o.simJ srcs) (t := o.srcJ x) (m := m) (fac_eq hf i hk') hde)
    rw [(hoff (i + 1) hk).1, (hoff (i + 1) hk).2, (hoff i hk'.le).2, add_sub_add_right_eq_sub,
      zero_sub] at h2
    change j (i + 1) ⬝ᵥ (o.rho.mat ℝ m *ᵥ (j (i + 1) - j i)) ≤ 0
    set w := o.Cᵀ *ᵥ (o.rho.mat ℝ m *ᵥ j (i + 1)) with hw
    have h3 : j (i + 1) - j i = o.dt i • (o.C *ᵥ (o.muI *ᵥ -w)) := h2
    rw [h3, Matrix.mulVec_neg, Matrix.mulVec_neg, smul_neg, Matrix.mulVec_neg, dotProduct_neg,
      neg_nonpos, Matrix.mulVec_smul, dotProduct_smul, smul_eq_mul, hkd]
    refine mul_nonneg (hdt _ hmem).le ?_
    have e1 : j (i + 1) ⬝ᵥ (o.rho.mat ℝ m *ᵥ (o.C *ᵥ (o.muI *ᵥ w))) = w ⬝ᵥ (o.muI *ᵥ w) := by
      rw [Matrix.dotProduct_mulVec, ← Matrix.mulVec_transpose, mat_transpose hg,
        Matrix.dotProduct_mulVec, ← Matrix.mulVec_transpose]
    rw [e1]
    exact hmI _

end

end Verif.TDEM.Props
