import Verif.TDEM.HJ

/-!
C72, C74, C75: what the time stepping solves.  The specification is Maxwell's equations discretised in
time by the backward Euler rule, for vectors indexed by the nodes of the time mesh.
-/

namespace Verif.TDEM.Props
open Matrix Verif.EM Verif.EM.Props Verif.TDEM

noncomputable section

variable {p s ν c ε φ : Type} [Fintype p] [Fintype s] [Fintype ν] [Fintype c] [Fintype ε] [Fintype φ]
  [DecidableEq ν] [DecidableEq c] [DecidableEq ε] [DecidableEq φ]

set_option linter.unusedSectionVars false

/-! ### Specification -/

/-- Faraday's law `∂b/∂t + ∇×e = s_m` over each of the time steps `dts`, and Ampère's law
`∇×(μ⁻¹b) - σe = s_e` at every time, for `e` on edges and `b` on faces. -/
structure MaxwellEB (C : Matrix φ ε ℝ) (mui : Matrix φ φ ℝ) (sigma : Matrix ε ε ℝ) (dts : List ℝ)
    (sm : ℕ → φ → ℝ) (se : ℕ → ε → ℝ) (e : ℕ → ε → ℝ) (b : ℕ → φ → ℝ) : Prop where
  faraday : ∀ k (h : k < dts.length),
    (1 / dts[k]) • (b (k + 1) - b k) + C *ᵥ e (k + 1) = sm (k + 1)
  ampere : ∀ k ≤ dts.length, Cᵀ *ᵥ (mui *ᵥ b k) - sigma *ᵥ e k = se k

/-- Faraday's law `μ ∂h/∂t + ∇×(ρj) = s_m` over each of the time steps `dts`, and Ampère's law
`∇×h - j = s_e` at every time, for `h` on edges and `j` on faces. -/
structure MaxwellHJ (C : Matrix φ ε ℝ) (mu : Matrix ε ε ℝ) (rho : Matrix φ φ ℝ) (dts : List ℝ)
    (sm : ℕ → ε → ℝ) (se : ℕ → φ → ℝ) (h : ℕ → ε → ℝ) (j : ℕ → φ → ℝ) : Prop where
  faraday : ∀ k (hk : k < dts.length),
    mu *ᵥ ((1 / dts[k]) • (h (k + 1) - h k)) + Cᵀ *ᵥ (rho *ᵥ j (k + 1)) = sm (k + 1)
  ampere : ∀ k ≤ dts.length, C *ᵥ h k - j k = se k

/-! ### The recursion -/

theorem sol_step {n K : Type} [Fintype n] [DecidableEq n] {L : K → Type} [∀ k, Fintype (L k)]
    {S : Sim p n K L} {m : p → ℝ} {t : Src p n K L} {k : ℕ} (hf : S.fac k = S.dt k)
    (hdet : (S.Adiag (S.dt k) m).det ≠ 0) :
    S.Adiag (S.dt k) m *ᵥ S.sol m t (k + 1) + S.Asub (S.dt k) m *ᵥ S.sol m t k =
      t.rhs (k + 1) m := by
  rw [Sim.sol, hf, mulVec_solve hdet]
  abel

theorem sol_step_unique {n K : Type} [Fintype n] [DecidableEq n] {L : K → Type} [∀ k, Fintype (L k)]
    {S : Sim p n K L} {m : p → ℝ} {t : Src p n K L} {k : ℕ} (hf : S.fac k = S.dt k)
    (hdet : (S.Adiag (S.dt k) m).det ≠ 0) {x : n → ℝ}
    (h : S.Adiag (S.dt k) m *ᵥ x + S.Asub (S.dt k) m *ᵥ S.sol m t k = t.rhs (k + 1) m) :
    x = S.sol m t (k + 1) := by
  have h1 := sol_step (t := t) hf hdet
  rw [← h1] at h
  have h2 : S.Adiag (S.dt k) m *ᵥ (x - S.sol m t (k + 1)) = 0 := by
    rw [Matrix.mulVec_sub, add_right_cancel h, sub_self]
  have h3 := congrArg (fun z => (S.Adiag (S.dt k) m)⁻¹ *ᵥ z) h2
  simp only [Matrix.mulVec_mulVec, Matrix.mulVec_zero] at h3
  rw [Matrix.nonsing_inv_mul _ (isUnit_iff_ne_zero.2 hdet), Matrix.one_mulVec] at h3
  exact sub_eq_zero.1 h3

theorem inj_of_det {n : Type} [Fintype n] [DecidableEq n] {A : Matrix n n ℝ} (h : A.det ≠ 0)
    {x y : n → ℝ} (e : A *ᵥ x = A *ᵥ y) : x = y := by
  have h3 := congrArg (fun z => A⁻¹ *ᵥ z) e
  simpa only [Matrix.mulVec_mulVec, Matrix.nonsing_inv_mul _ (isUnit_iff_ne_zero.2 h),
    Matrix.one_mulVec] using h3

theorem getD_eq {l : List ℝ} {k : ℕ} (h : k < l.length) : l.getD k 0 = l[k] := by
  simp [List.getD, h]

/-! ### Magnetic flux density -/

variable {m : p → ℝ}

/-- The steps in the magnetic flux density formulation are Faraday's law with the field `e`. -/
theorem b_step {o : EB p s ν ε φ} (src : SrcEB ν ε φ) {dt : ℝ}
    (hdet : (o.bA dt m).det ≠ 0) {k : ℕ} {b b' : φ → ℝ} :
    o.bA dt m *ᵥ b' + o.bB dt *ᵥ b = o.bRhs src (k + 1) m ↔
      (1 / dt) • (b' - b) + o.C *ᵥ (o.bE src).val (k + 1) m b' = src.sm (k + 1) := by
  have hm : (o.muiᵀ).det ≠ 0 := by
    intro h0
    apply hdet
    rw [EB.bA, Matrix.det_mul, h0, zero_mul]
  have e1 : o.bA dt m *ᵥ b' + o.bB dt *ᵥ b = o.muiᵀ *ᵥ ((1 / dt) • (b' - b) +
      o.C *ᵥ (o.sigma.inv ℝ m *ᵥ (o.Cᵀ *ᵥ (o.mui *ᵥ b')))) := by
    simp only [EB.bA, EB.bB, ← Matrix.mulVec_mulVec, Matrix.add_mulVec, Matrix.smul_mulVec,
      Matrix.one_mulVec, Matrix.mulVec_add, Matrix.mulVec_smul, Matrix.mulVec_sub, smul_sub, neg_div,
      neg_smul, Matrix.neg_mulVec, Matrix.mulVec_neg]
    abel
  rw [e1, EB.bRhs]
  constructor
  · intro h
    have h2 := inj_of_det hm h
    simp only [EB.bE, Matrix.mulVec_sub]
    rw [← add_sub_assoc, h2]
    abel
  · intro h
    congr 1
    rw [← h]
    simp only [EB.bE, Matrix.mulVec_sub]
    abel

/-- **C72, magnetic flux density.** The computed `b` and the field `e` derived from it satisfy Maxwell's
equations over every time step, and `dbdt` is the difference quotient of `b`. -/
theorem C72_magnetic_flux_density_partial (o : EB p s ν ε φ)
    (srcs : List (SrcEB ν ε φ × List (Rx FldB (LocB ε φ))))
    (x : SrcEB ν ε φ × List (Rx FldB (LocB ε φ))) (m : p → ℝ)
    (hf : Fresh (o.simB srcs)) (hi : GoodInv o.sigma m)
    (hdet : ∀ d ∈ o.dts, (o.bA d m).det ≠ 0) :
    let b := fun k => (o.simB srcs).sol m (o.srcB x) k
    MaxwellEB o.C o.mui (o.sigma.mat ℝ m) o.dts x.1.sm x.1.se
      (fun k => (o.bE x.1).val k m (b k)) b ∧
    ∀ k (h : k < o.dts.length),
      (o.bDbdt x.1).val (k + 1) m (b (k + 1)) = (1 / o.dts[k]) • (b (k + 1) - b k) := by
  intro b
  have hF : ∀ k (h : k < o.dts.length), (1 / o.dts[k]) • (b (k + 1) - b k) +
      o.C *ᵥ (o.bE x.1).val (k + 1) m (b (k + 1)) = x.1.sm (k + 1) := by
    intro k h
    have hk : (o.simB srcs).dt k = o.dts[k] := getD_eq h
    have hmem : o.dts[k] ∈ o.dts := List.getElem_mem h
    refine (b_step x.1 (hdet _ hmem)).1 ?_
    have := sol_step (t := o.srcB x) (fac_eq hf k h) (m := m) (by rw [hk]; exact hdet _ hmem)
    rw [hk] at this
    exact this
  refine ⟨⟨hF, fun k _ => ?_⟩, fun k h => ?_⟩
  · have e1 : (o.bE x.1).val k m (b k) =
        o.sigma.inv ℝ m *ᵥ (o.Cᵀ *ᵥ (o.mui *ᵥ b k) - x.1.se k) := by
      simp only [EB.bE, Matrix.mulVec_sub]
    simp only [e1]
    rw [Matrix.mulVec_mulVec (_ - _), EM.Props.mul_inv hi, Matrix.one_mulVec]
    abel
  · simp only [EB.bDbdt, ← hF k h]
    abel

/-- **C72, magnetic flux density.** There is no other solution of Maxwell's equations with the same
initial flux. -/
theorem C72_unique_magnetic_flux_density_partial (o : EB p s ν ε φ)
    (srcs : List (SrcEB ν ε φ × List (Rx FldB (LocB ε φ))))
    (x : SrcEB ν ε φ × List (Rx FldB (LocB ε φ))) (m : p → ℝ)
    (hf : Fresh (o.simB srcs)) (hi : GoodInv o.sigma m)
    (hdet : ∀ d ∈ o.dts, (o.bA d m).det ≠ 0)
    {e : ℕ → ε → ℝ} {b : ℕ → φ → ℝ} (h0 : b 0 = x.1.b0)
    (h : MaxwellEB o.C o.mui (o.sigma.mat ℝ m) o.dts x.1.sm x.1.se e b) :
    ∀ k ≤ o.dts.length, b k = (o.simB srcs).sol m (o.srcB x) k ∧
      e k = (o.bE x.1).val k m ((o.simB srcs).sol m (o.srcB x) k) := by
  have he : ∀ k ≤ o.dts.length, e k = (o.bE x.1).val k m (b k) := by
    intro k hk
    have h1 : o.sigma.mat ℝ m *ᵥ e k = o.Cᵀ *ᵥ (o.mui *ᵥ b k) - x.1.se k := by
      rw [← h.ampere k hk]
      abel
    simp only [EB.bE]
    rw [← Matrix.mulVec_sub, ← h1, Matrix.mulVec_mulVec, EM.Props.inv_mul hi, Matrix.one_mulVec]
  have hb : ∀ k ≤ o.dts.length, b k = (o.simB srcs).sol m (o.srcB x) k := by
    intro k
    induction k with
    | zero => intro _; exact h0
    | succ k ih =>
      intro hk
      have hk' : k < o.dts.length := hk
      have hkd : (o.simB srcs).dt k = o.dts[k] := getD_eq hk'
      have hmem : o.dts[k] ∈ o.dts := List.getElem_mem hk'
      refine sol_step_unique (fac_eq hf k hk') (by rw [hkd]; exact hdet _ hmem) ?_
      rw [hkd, ← ih (by omega)]
      refine (b_step x.1 (hdet _ hmem)).2 ?_
      rw [← he (k + 1) hk]
      exact h.faraday k hk'
  intro k hk
  refine ⟨hb k hk, ?_⟩
  rw [he k hk, hb k hk]

/-! ### Electric field -/

theorem e_step {o : EB p s ν ε φ} (src : SrcEB ν ε φ) {k : ℕ} (hd : o.dt k ≠ 0) {e e' : ε → ℝ} :
    o.eA (o.dt k) m *ᵥ e' + o.eB (o.dt k) m *ᵥ e = o.eRhs src (k + 1) ↔
      (o.sigma.mat ℝ m *ᵥ e' + src.se (k + 1)) - (o.sigma.mat ℝ m *ᵥ e + src.se k) =
        o.dt k • (o.Cᵀ *ᵥ (o.mui *ᵥ (src.sm (k + 1) - o.C *ᵥ e'))) := by
  have e0 : k + 1 - 1 = k := rfl
  rw [← (smul_right_injective (ε → ℝ) hd).eq_iff]
  have key : o.dt k • (o.eA (o.dt k) m *ᵥ e' + o.eB (o.dt k) m *ᵥ e) - o.dt k • o.eRhs src (k + 1) =
      ((o.sigma.mat ℝ m *ᵥ e' + src.se (k + 1)) - (o.sigma.mat ℝ m *ᵥ e + src.se k)) -
        o.dt k • (o.Cᵀ *ᵥ (o.mui *ᵥ (src.sm (k + 1) - o.C *ᵥ e'))) := by
    simp only [EB.eA, EB.eB, EB.eRhs, e0, Matrix.add_mulVec, Matrix.smul_mulVec,
      ← Matrix.mulVec_mulVec, Matrix.mulVec_sub, smul_add, smul_sub, neg_div, neg_smul,
      Matrix.neg_mulVec, smul_neg, smul_smul, mul_one_div, div_self hd, one_smul]
    abel
  rw [← sub_eq_zero, key, sub_eq_zero]

/-- **C72, electric field.** For every magnetic flux which satisfies Ampère's law initially, the
computed `e` is the electric field of a solution of Maxwell's equations, and `dbdt` is the difference
quotient of its magnetic flux. -/
theorem C72_electric_field_partial (o : EB p s ν ε φ)
    (srcs : List (SrcEB ν ε φ × List (Rx FldE (LocE ε φ))))
    (x : SrcEB ν ε φ × List (Rx FldE (LocE ε φ))) (m : p → ℝ) (hf : Fresh (o.simE srcs))
    (hdt : ∀ d ∈ o.dts, d ≠ 0) (hdet : ∀ d ∈ o.dts, (o.eA d m).det ≠ 0) (b0 : φ → ℝ)
    (h0 : o.Cᵀ *ᵥ (o.mui *ᵥ b0) - o.sigma.mat ℝ m *ᵥ o.eInit x.1 m = x.1.se 0) :
    let e := fun k => (o.simE srcs).sol m (o.srcE x) k
    ∃ b : ℕ → φ → ℝ, b 0 = b0 ∧
      MaxwellEB o.C o.mui (o.sigma.mat ℝ m) o.dts x.1.sm x.1.se e b ∧
      ∀ k (h : k < o.dts.length),
        (o.eDbdt x.1).val (k + 1) m (e (k + 1)) = (1 / o.dts[k]) • (b (k + 1) - b k) := by
  intro e
  set b : ℕ → φ → ℝ := fun k => Nat.rec b0
    (fun k bk => bk + o.dt k • (x.1.sm (k + 1) - o.C *ᵥ e (k + 1))) k with hb
  have hs : ∀ k, b (k + 1) = b k + o.dt k • (x.1.sm (k + 1) - o.C *ᵥ e (k + 1)) := fun _ => rfl
  have hq : ∀ k (h : k < o.dts.length),
      (1 / o.dts[k]) • (b (k + 1) - b k) = x.1.sm (k + 1) - o.C *ᵥ e (k + 1) := by
    intro k h
    have hk : o.dt k = o.dts[k] := getD_eq h
    have hne := hdt _ (List.getElem_mem h)
    rw [hs, add_sub_cancel_left, hk, smul_smul, one_div, inv_mul_cancel₀ hne, one_smul]
  refine ⟨b, rfl, ⟨fun k h => ?_, fun k => ?_⟩, fun k h => ?_⟩
  · rw [hq k h]
    abel
  · induction k with
    | zero => intro _; exact h0
    | succ k ih =>
      intro hk
      have hk' : k < o.dts.length := hk
      have hkd : o.dt k = o.dts[k] := getD_eq hk'
      have hmem : o.dts[k] ∈ o.dts := List.getElem_mem hk'
      have hstep : o.eA (o.dt k) m *ᵥ e (k + 1) + o.eB (o.dt k) m *ᵥ e k = o.eRhs x.1 (k + 1) :=
        sol_step (S := o.simE srcs) (t := o.srcE x) (fac_eq hf k hk')
          (by change (o.eA (o.dt k) m).det ≠ 0; rw [hkd]; exact hdet _ hmem)
      have h2 := (e_step x.1 (by rw [hkd]; exact hdt _ hmem)).1 hstep
      have h3 := ih (by omega)
      rw [hs, Matrix.mulVec_add, Matrix.mulVec_add, Matrix.mulVec_smul, Matrix.mulVec_smul, ← h2]
      have h4 : o.Cᵀ *ᵥ (o.mui *ᵥ b k) = x.1.se k + o.sigma.mat ℝ m *ᵥ e k := by
        rw [← h3]; abel
      rw [h4]
      abel
  · rw [hq k h]
    rfl

/-- **C72, electric field.** There is no other solution of Maxwell's equations with the same initial
electric field. -/
theorem C72_unique_electric_field_partial (o : EB p s ν ε φ)
    (srcs : List (SrcEB ν ε φ × List (Rx FldE (LocE ε φ))))
    (x : SrcEB ν ε φ × List (Rx FldE (LocE ε φ))) (m : p → ℝ) (hf : Fresh (o.simE srcs))
    (hdt : ∀ d ∈ o.dts, d ≠ 0) (hdet : ∀ d ∈ o.dts, (o.eA d m).det ≠ 0)
    {e : ℕ → ε → ℝ} {b : ℕ → φ → ℝ} (h0 : e 0 = o.eInit x.1 m)
    (h : MaxwellEB o.C o.mui (o.sigma.mat ℝ m) o.dts x.1.sm x.1.se e b) :
    ∀ k ≤ o.dts.length, e k = (o.simE srcs).sol m (o.srcE x) k := by
  intro k
  induction k with
  | zero => intro _; exact h0
  | succ k ih =>
    intro hk
    have hk' : k < o.dts.length := hk
    have hkd : o.dt k = o.dts[k] := getD_eq hk'
    have hmem : o.dts[k] ∈ o.dts := List.getElem_mem hk'
    have hne : o.dt k ≠ 0 := by rw [hkd]; exact hdt _ hmem
    refine sol_step_unique (S := o.simE srcs) (fac_eq hf k hk')
      (by change (o.eA (o.dt k) m).det ≠ 0; rw [hkd]; exact hdet _ hmem) ?_
    rw [← ih (by omega)]
    refine (e_step x.1 hne).2 ?_
    have h1 : o.sigma.mat ℝ m *ᵥ e (k + 1) + x.1.se (k + 1) = o.Cᵀ *ᵥ (o.mui *ᵥ b (k + 1)) := by
      rw [← h.ampere (k + 1) hk]; abel
    have h2 : o.sigma.mat ℝ m *ᵥ e k + x.1.se k = o.Cᵀ *ᵥ (o.mui *ᵥ b k) := by
      rw [← h.ampere k (by omega)]; abel
    have h3 : x.1.sm (k + 1) - o.C *ᵥ e (k + 1) = (1 / o.dt k) • (b (k + 1) - b k) := by
      rw [← h.faraday k hk', hkd]; abel
    rw [h1, h2, h3, Matrix.mulVec_smul, Matrix.mulVec_smul, smul_smul, mul_one_div, div_self hne,
      one_smul, Matrix.mulVec_sub, Matrix.mulVec_sub]

/-- **C74.** The electric field and the magnetic flux density formulations compute the same electric
field, current density, `dbdt` and `dhdt` at every time after the first, when their initial fields
satisfy Ampère's law together. -/
theorem C74_same_fields_EB_partial (o : EB p s ν ε φ) (src : SrcEB ν ε φ)
    (sE : List (SrcEB ν ε φ × List (Rx FldE (LocE ε φ))))
    (sB : List (SrcEB ν ε φ × List (Rx FldB (LocB ε φ))))
    (rE : List (Rx FldE (LocE ε φ))) (rB : List (Rx FldB (LocB ε φ))) (m : p → ℝ)
    (hfE : Fresh (o.simE sE)) (hfB : Fresh (o.simB sB)) (hi : GoodInv o.sigma m)
    (hdt : ∀ d ∈ o.dts, d ≠ 0) (hE : ∀ d ∈ o.dts, (o.eA d m).det ≠ 0)
    (hB : ∀ d ∈ o.dts, (o.bA d m).det ≠ 0)
    (h0 : o.Cᵀ *ᵥ (o.mui *ᵥ src.b0) - o.sigma.mat ℝ m *ᵥ o.eInit src m = src.se 0)
    (k : ℕ) (hk : k ≤ o.dts.length) :
    let e := (o.simE sE).sol m (o.srcE (src, rE)) k
    let b := (o.simB sB).sol m (o.srcB (src, rB)) k
    (o.eE).val k m e = (o.bE src).val k m b ∧ (o.eJ).val k m e = (o.bJ src).val k m b ∧
      (o.eDbdt src).val k m e = (o.bDbdt src).val k m b ∧
      (o.eDhdt src).val k m e = (o.bDhdt src).val k m b := by
  intro e b
  obtain ⟨b', hb0, hM, _⟩ := C72_electric_field_partial o sE (src, rE) m hfE hdt hE src.b0 h0
  have h1 := (C72_unique_magnetic_flux_density_partial o sB (src, rB) m hfB hi hB hb0 hM k hk).2
  have he : e = (o.bE src).val k m b := h1
  refine ⟨he, ?_, ?_, ?_⟩
  · simp only [EB.eJ, EB.bJ, EB.eE, he]
  · simp only [EB.eDbdt, EB.bDbdt, he]
    abel
  · simp only [EB.eDhdt, EB.bDhdt, EB.eDbdt, EB.bDbdt, he]
    congr 2
    abel

/-! ### Magnetic field -/

theorem h_step {o : HJ p s c ε φ} (src : SrcHJ c ε φ) {dt : ℝ} {k : ℕ} {h h' : ε → ℝ} :
    o.hA dt m *ᵥ h' + o.hB dt *ᵥ h = o.hRhs src (k + 1) m ↔
      o.mu *ᵥ ((1 / dt) • (h' - h)) + o.Cᵀ *ᵥ (o.rho.mat ℝ m *ᵥ (o.hJ src).val (k + 1) m h') =
        src.sm (k + 1) := by
  have key : o.hA dt m *ᵥ h' + o.hB dt *ᵥ h - o.hRhs src (k + 1) m =
      o.mu *ᵥ ((1 / dt) • (h' - h)) + o.Cᵀ *ᵥ (o.rho.mat ℝ m *ᵥ (o.hJ src).val (k + 1) m h') -
        src.sm (k + 1) := by
    simp only [HJ.hA, HJ.hB, HJ.hRhs, HJ.hJ, Matrix.add_mulVec, Matrix.smul_mulVec,
      ← Matrix.mulVec_mulVec, Matrix.mulVec_sub, smul_sub, Matrix.mulVec_smul, neg_div, neg_smul,
      Matrix.neg_mulVec]
    abel
  rw [← sub_eq_zero, key, sub_eq_zero]

/-- **C72, magnetic field.** The computed `h` and the field `j` derived from it satisfy Maxwell's
equations over every time step, and `dhdt` is the difference quotient of `h`. -/
theorem C72_magnetic_field_partial (o : HJ p s c ε φ)
    (srcs : List (SrcHJ c ε φ × List (Rx FldH (LocH ε φ))))
    (x : SrcHJ c ε φ × List (Rx FldH (LocH ε φ))) (m : p → ℝ) (hf : Fresh (o.simH srcs))
    (hmu : o.muI * o.mu = 1) (hdet : ∀ d ∈ o.dts, (o.hA d m).det ≠ 0) :
    let h := fun k => (o.simH srcs).sol m (o.srcH x) k
    MaxwellHJ o.C o.mu (o.rho.mat ℝ m) o.dts x.1.sm x.1.se h (fun k => (o.hJ x.1).val k m (h k)) ∧
    ∀ k (hk : k < o.dts.length),
      (o.hDhdt x.1).val (k + 1) m (h (k + 1)) = (1 / o.dts[k]) • (h (k + 1) - h k) := by
  intro h
  have hF : ∀ k (hk : k < o.dts.length), o.mu *ᵥ ((1 / o.dts[k]) • (h (k + 1) - h k)) +
      o.Cᵀ *ᵥ (o.rho.mat ℝ m *ᵥ (o.hJ x.1).val (k + 1) m (h (k + 1))) = x.1.sm (k + 1) := by
    intro k hk
    have hkd : (o.simH srcs).dt k = o.dts[k] := getD_eq hk
    have hmem : o.dts[k] ∈ o.dts := List.getElem_mem hk
    refine (h_step x.1).1 ?_
    have := sol_step (t := o.srcH x) (fac_eq hf k hk) (m := m) (by rw [hkd]; exact hdet _ hmem)
    rw [hkd] at this
    exact this
  refine ⟨⟨hF, fun k _ => ?_⟩, fun k hk => ?_⟩
  · simp only [HJ.hJ]
    abel
  · have h1 : o.mu *ᵥ ((1 / o.dts[k]) • (h (k + 1) - h k)) = x.1.sm (k + 1) -
        o.Cᵀ *ᵥ (o.rho.mat ℝ m *ᵥ (o.hJ x.1).val (k + 1) m (h (k + 1))) := by
      rw [← hF k hk]; abel
    have h2 : (1 / o.dts[k]) • (h (k + 1) - h k) =
        o.muI *ᵥ (o.mu *ᵥ ((1 / o.dts[k]) • (h (k + 1) - h k))) := by
      rw [Matrix.mulVec_mulVec, hmu, Matrix.one_mulVec]
    rw [h2, h1]
    simp only [HJ.hDhdt, HJ.hJ, Matrix.mulVec_sub, Matrix.mulVec_add]
    abel

/-- **C72, magnetic field.** There is no other solution of Maxwell's equations with the same initial
magnetic field. -/
theorem C72_unique_magnetic_field_partial (o : HJ p s c ε φ)
    (srcs : List (SrcHJ c ε φ × List (Rx FldH (LocH ε φ))))
    (x : SrcHJ c ε φ × List (Rx FldH (LocH ε φ))) (m : p → ℝ) (hf : Fresh (o.simH srcs))
    (hdet : ∀ d ∈ o.dts, (o.hA d m).det ≠ 0) {h : ℕ → ε → ℝ} {j : ℕ → φ → ℝ}
    (h0 : h 0 = o.hInit x.1 m)
    (hM : MaxwellHJ o.C o.mu (o.rho.mat ℝ m) o.dts x.1.sm x.1.se h j) :
    ∀ k ≤ o.dts.length, h k = (o.simH srcs).sol m (o.srcH x) k ∧
      j k = (o.hJ x.1).val k m ((o.simH srcs).sol m (o.srcH x) k) := by
  have hj : ∀ k ≤ o.dts.length, j k = (o.hJ x.1).val k m (h k) := by
    intro k hk
    simp only [HJ.hJ]
    rw [← hM.ampere k hk]
    abel
  have hh : ∀ k ≤ o.dts.length, h k = (o.simH srcs).sol m (o.srcH x) k := by
    intro k
    induction k with
    | zero => intro _; exact h0
    | succ k ih =>
      intro hk
      have hk' : k < o.dts.length := hk
      have hkd : (o.simH srcs).dt k = o.dts[k] := getD_eq hk'
      have hmem : o.dts[k] ∈ o.dts := List.getElem_mem hk'
      refine sol_step_unique (fac_eq hf k hk') (by rw [hkd]; exact hdet _ hmem) ?_
      rw [hkd, ← ih (by omega)]
      refine (h_step x.1).2 ?_
      rw [← hj (k + 1) hk]
      exact hM.faraday k hk'
  intro k hk
  refine ⟨hh k hk, ?_⟩
  rw [hj k hk, hh k hk]

/-! ### Current density -/

/-- The source changes between two times only when the steps before and after the change are equal; it
does not change at the last two times. -/
structure Steady (dts : List ℝ) (sm : ℕ → ε → ℝ) (se : ℕ → φ → ℝ) : Prop where
  change : ∀ k (h : k + 1 < dts.length), dts[k + 1] = dts[k] ∨ se (k + 1) = se k
  prev : se (dts.length - 1) = se (if dts.length - 1 = 0 then dts.length else dts.length - 1 - 1)
  last : se dts.length = se (dts.length - 1)
  lastm : sm dts.length = sm (dts.length - 1)

theorem j_rhs {o : HJ p s c ε φ} (src : SrcHJ c ε φ) (hst : Steady o.dts src.sm src.se) {k : ℕ}
    (hk : k < o.dts.length) :
    o.jRhs src (k + 1) m = (o.rho.mat ℝ m)ᵀ *ᵥ ((-1 / o.dt k) • (src.se (k + 1) - src.se k) +
      o.C *ᵥ (o.muI *ᵥ src.sm (k + 1))) := by
  unfold HJ.jRhs
  by_cases he : k + 1 = o.dts.length
  · have h1 : o.jInd (k + 1) = o.dts.length - 1 := by rw [HJ.jInd, if_pos he, he]
    have h2 : src.se (k + 1) - src.se k = 0 := by
      have h3 := hst.last
      rw [← he] at h3
      simpa using sub_eq_zero.2 h3
    have h4 : src.se (o.jInd (k + 1)) - src.se (o.jPrev (o.jInd (k + 1))) = 0 := by
      rw [h1, HJ.jPrev, sub_eq_zero]
      exact hst.prev
    have h5 : src.sm (o.jInd (k + 1)) = src.sm (k + 1) := by rw [h1, he, hst.lastm]
    rw [h2, h4, h5, smul_zero, smul_zero]
  · have h1 : o.jInd (k + 1) = k + 1 := by rw [HJ.jInd, if_neg he]
    have h2 : o.jPrev (k + 1) = k := by simp [HJ.jPrev]
    rw [h1, h2]
    have hk1 : k + 1 < o.dts.length := by omega
    rcases hst.change k hk1 with h3 | h3
    · have : o.dt (k + 1) = o.dt k := by
        rw [HJ.dt, HJ.dt, getD_eq hk1, getD_eq hk, h3]
      rw [this]
    · rw [h3, sub_self, smul_zero, smul_zero]

theorem j_step {o : HJ p s c ε φ} (src : SrcHJ c ε φ) (hst : Steady o.dts src.sm src.se) {k : ℕ}
    (hk : k < o.dts.length) (hd : o.dt k ≠ 0) (hdet : (o.jA (o.dt k) m).det ≠ 0) {j j' : φ → ℝ} :
    o.jA (o.dt k) m *ᵥ j' + o.jB (o.dt k) m *ᵥ j = o.jRhs src (k + 1) m ↔
      (j' + src.se (k + 1)) - (j + src.se k) =
        o.dt k • (o.C *ᵥ (o.muI *ᵥ (src.sm (k + 1) - o.Cᵀ *ᵥ (o.rho.mat ℝ m *ᵥ j')))) := by
  have hm : ((o.rho.mat ℝ m)ᵀ).det ≠ 0 := by
    intro h0
    apply hdet
    rw [HJ.jA, Matrix.det_mul, h0, zero_mul]
  rw [j_rhs src hst hk]
  have e1 : o.jA (o.dt k) m *ᵥ j' + o.jB (o.dt k) m *ᵥ j = (o.rho.mat ℝ m)ᵀ *ᵥ
      (o.C *ᵥ (o.muI *ᵥ (o.Cᵀ *ᵥ (o.rho.mat ℝ m *ᵥ j'))) + (1 / o.dt k) • (j' - j)) := by
    simp only [HJ.jA, HJ.jB, ← Matrix.mulVec_mulVec, Matrix.add_mulVec, Matrix.smul_mulVec,
      Matrix.one_mulVec, Matrix.mulVec_add, Matrix.mulVec_smul, Matrix.mulVec_sub, smul_sub, neg_div,
      neg_smul, Matrix.neg_mulVec]
    abel
  rw [e1]
  have key : o.dt k • (o.C *ᵥ (o.muI *ᵥ (o.Cᵀ *ᵥ (o.rho.mat ℝ m *ᵥ j'))) + (1 / o.dt k) • (j' - j)) -
      o.dt k • ((-1 / o.dt k) • (src.se (k + 1) - src.se k) + o.C *ᵥ (o.muI *ᵥ src.sm (k + 1))) =
      ((j' + src.se (k + 1)) - (j + src.se k)) -
        o.dt k • (o.C *ᵥ (o.muI *ᵥ (src.sm (k + 1) - o.Cᵀ *ᵥ (o.rho.mat ℝ m *ᵥ j')))) := by
    simp only [Matrix.mulVec_sub, smul_add, smul_sub, neg_div, neg_smul, smul_neg, smul_smul,
      mul_one_div, div_self hd, one_smul]
    abel
  rw [← sub_eq_zero (b := o.dt k • _), ← key, sub_eq_zero, (smul_right_injective (φ → ℝ) hd).eq_iff]
  exact ⟨fun h => inj_of_det hm h, fun h => by rw [h]⟩

/-- **C72, current density.** For every magnetic field which satisfies Ampère's law initially, the
computed `j` is the current density of a solution of Maxwell's equations, and `dhdt` is the difference
quotient of its magnetic field, when the source is steady where the time step changes and at the end.
The full statement is without `Steady`. -/
theorem C72_current_density_partial (o : HJ p s c ε φ)
    (srcs : List (SrcHJ c ε φ × List (Rx FldJ (LocJ ε φ))))
    (x : SrcHJ c ε φ × List (Rx FldJ (LocJ ε φ))) (m : p → ℝ) (hf : Fresh (o.simJ srcs))
    (hmu : o.mu * o.muI = 1) (hdt : ∀ d ∈ o.dts, d ≠ 0)
    (hdet : ∀ d ∈ o.dts, (o.jA d m).det ≠ 0) (hst : Steady o.dts x.1.sm x.1.se) (h0 : ε → ℝ)
    (ha : o.C *ᵥ h0 - o.jInit x.1 m = x.1.se 0) :
    let j := fun k => (o.simJ srcs).sol m (o.srcJ x) k
    ∃ h : ℕ → ε → ℝ, h 0 = h0 ∧
      MaxwellHJ o.C o.mu (o.rho.mat ℝ m) o.dts x.1.sm x.1.se h j ∧
      ∀ k (hk : k < o.dts.length),
        (o.jDhdt x.1).val (k + 1) m (j (k + 1)) = (1 / o.dts[k]) • (h (k + 1) - h k) := by
  intro j
  set r : ℕ → ε → ℝ := fun k =>
    o.muI *ᵥ (x.1.sm k - o.Cᵀ *ᵥ (o.rho.mat ℝ m *ᵥ j k)) with hr
  set h : ℕ → ε → ℝ := fun k => Nat.rec h0 (fun k hk => hk + o.dt k • r (k + 1)) k with hh
  have hs : ∀ k, h (k + 1) = h k + o.dt k • r (k + 1) := fun _ => rfl
  have hq : ∀ k (hk : k < o.dts.length), (1 / o.dts[k]) • (h (k + 1) - h k) = r (k + 1) := by
    intro k hk
    have hkd : o.dt k = o.dts[k] := getD_eq hk
    have hne := hdt _ (List.getElem_mem hk)
    rw [hs, add_sub_cancel_left, hkd, smul_smul, one_div, inv_mul_cancel₀ hne, one_smul]
  refine ⟨h, rfl, ⟨fun k hk => ?_, fun k => ?_⟩, fun k hk => ?_⟩
  · rw [hq k hk, hr, Matrix.mulVec_mulVec, hmu, Matrix.one_mulVec]
    abel
  · induction k with
    | zero => intro _; exact ha
    | succ k ih =>
      intro hk
      have hk' : k < o.dts.length := hk
      have hkd : o.dt k = o.dts[k] := getD_eq hk'
      have hmem : o.dts[k] ∈ o.dts := List.getElem_mem hk'
      have hde : (o.jA (o.dt k) m).det ≠ 0 := by rw [hkd]; exact hdet _ hmem
      have hstep : o.jA (o.dt k) m *ᵥ j (k + 1) + o.jB (o.dt k) m *ᵥ j k = o.jRhs x.1 (k + 1) m :=
        sol_step (S := o.simJ srcs) (t := o.srcJ x) (fac_eq hf k hk') hde
      have h2 := (j_step x.1 hst hk' (by rw [hkd]; exact hdt _ hmem) hde).1 hstep
      have h3 := ih (by omega)
      rw [hs, Matrix.mulVec_add, Matrix.mulVec_smul, hr, ← h2]
      have h4 : o.C *ᵥ h k = x.1.se k + j k := by rw [← h3]; abel
      rw [h4]
      abel
  · rw [hq k hk, hr]
    simp only [HJ.jDhdt, Matrix.mulVec_sub]
    abel

/-- **C74.** The magnetic field and current density formulations compute the same current density,
electric field, `dhdt` and `dbdt`, when their initial fields satisfy Ampère's law together and the
source is steady where the time step changes and at the end. -/
theorem C74_same_fields_HJ_partial (o : HJ p s c ε φ) (src : SrcHJ c ε φ)
    (sH : List (SrcHJ c ε φ × List (Rx FldH (LocH ε φ))))
    (sJ : List (SrcHJ c ε φ × List (Rx FldJ (LocJ ε φ))))
    (rH : List (Rx FldH (LocH ε φ))) (rJ : List (Rx FldJ (LocJ ε φ))) (m : p → ℝ)
    (hfH : Fresh (o.simH sH)) (hfJ : Fresh (o.simJ sJ)) (hmu : o.mu * o.muI = 1)
    (hdt : ∀ d ∈ o.dts, d ≠ 0) (hH : ∀ d ∈ o.dts, (o.hA d m).det ≠ 0)
    (hJ : ∀ d ∈ o.dts, (o.jA d m).det ≠ 0) (hst : Steady o.dts src.sm src.se)
    (h0 : o.C *ᵥ o.hInit src m - o.jInit src m = src.se 0)
    (k : ℕ) (hk : k ≤ o.dts.length) :
    let h := (o.simH sH).sol m (o.srcH (src, rH)) k
    let j := (o.simJ sJ).sol m (o.srcJ (src, rJ)) k
    (o.hJ src).val k m h = o.jJ.val k m j ∧ (o.hE src).val k m h = o.jE.val k m j ∧
      (o.hDhdt src).val k m h = (o.jDhdt src).val k m j ∧
      (o.hDbdt src).val k m h = (o.jDbdt src).val k m j := by
  intro h j
  obtain ⟨h', hh0, hM, _⟩ := C72_current_density_partial o sJ (src, rJ) m hfJ hmu hdt hJ hst _ h0
  have h1 := (C72_unique_magnetic_field_partial o sH (src, rH) m hfH hH hh0 hM k hk).2
  have hj : j = (o.hJ src).val k m h := h1
  have hd : (o.hDhdt src).val k m h = (o.jDhdt src).val k m j := by
    simp only [HJ.jDhdt, hj]
    simp only [HJ.hDhdt, HJ.hJ, Matrix.mulVec_sub, Matrix.mulVec_add]
    abel
  refine ⟨hj.symm, ?_, hd, ?_⟩
  · simp only [HJ.jE, HJ.jJ, hj]
    rfl
  · simp only [HJ.hDbdt, HJ.jDbdt, hd]

end

end Verif.TDEM.Props
