import Verif.FDEM.Columns

/-!
Cases for the theorems on Maxwell's equations (`Verif/FDEM/Maxwell.lean`): simulations meeting the
hypotheses, and the receivers for which the two EB formulations disagree.
-/

namespace Verif.FDEM.Props
open Matrix Verif.FDEM Verif.EM Verif.EM.Props

noncomputable section

theorem toyE_det : ((toyEB 1 toyId (toyConst 3)).eA 1 fun _ => 5).det ≠ 0 := by
  rw [Matrix.det_unique]
  intro h0
  have := congrArg Complex.re h0
  simp [toyEB, toyId, toyConst, EB.eA, EB.C, Mass.mat, PDE.Inner.mat, iw, Matrix.mul_apply] at this

theorem toyB_det : ((toyEB 1 toyId (toyConst 3)).bA 1 fun _ => 5).det ≠ 0 := by
  rw [Matrix.det_unique]
  intro h0
  have := congrArg Complex.im h0
  simp [toyEB, toyId, toyConst, EB.bA, EB.bA0, EB.C, Mass.mat, Mass.inv, PDE.Inner.mat, iw,
    Matrix.mul_apply, Real.pi_ne_zero] at this

/-- The hypotheses of the theorems on the EB formulations can be met: a raw source with receivers of
all the fields. -/
example :
    let o := toyEB 1 toyId (toyConst 3)
    let rx : List (Rx FldEB (LocEB Unit Unit)) :=
      [⟨1, .real, .e, fun _ _ => 1⟩, ⟨1, .imag, .h, fun _ _ => 1⟩, ⟨1, .real, .j, fun _ _ => 1⟩,
        ⟨1, .real, .b, fun _ _ => 1⟩, ⟨1, .real, .bSecondary, fun _ _ => 1⟩]
    let src := rawVecEB 1 (fun _ => 4) (fun _ => 1) rx
    (o.simE [src]).dpred (fun _ => 5) = (o.simB [src]).dpred (fun _ => 5) := by
  intro o rx src
  have h : ∀ x ∈ [src], x = src := by simp
  refine C69_same_data_EB o _ _ (toyId_good _ (by norm_num)) ?_ ?_ ?_ ?_
  · intro x hx
    rw [h x hx]
    exact one_ne_zero
  · intro x hx
    rw [h x hx]
    exact toyE_det
  · intro x hx
    rw [h x hx]
    exact toyB_det
  · intro x hx r _ _
    rw [h x hx]
    rfl

/-- The hypotheses of the theorems on the HJ formulations can be met, with a curl that is not zero. -/
example :
    let o : HJ Unit Unit Unit Unit Unit := ⟨1, toyConst 3, toyId, 1, 1, true⟩
    let rx : List (Rx FldHJ (LocHJ Unit Unit)) :=
      [⟨1, .real, .e, fun _ _ => 1⟩, ⟨1, .imag, .h, fun _ _ => 1⟩, ⟨1, .real, .j, fun _ _ => 1⟩]
    let src := rawVecHJ 1 (fun _ => 4) (fun _ => 1) rx
    (o.simJ [src]).dpred (fun _ => 5) = (o.simH [src]).dpred (fun _ => 5) := by
  intro o rx src
  have h : ∀ x ∈ [src], x = src := by simp
  refine C69_same_data_HJ o _ _ (toyId_good _ (by norm_num)) ?_ ?_ ?_
  · intro x hx
    rw [h x hx]
    exact one_ne_zero
  · intro x hx
    rw [h x hx, Matrix.det_unique]
    intro h0
    have := congrArg Complex.re h0
    simp [o, src, rawVecHJ, toyId, toyConst, HJ.hA, HJ.C, Mass.mat, PDE.Inner.mat, iw,
      Matrix.mul_apply] at this
  · intro x hx
    rw [h x hx, Matrix.det_unique]
    intro h0
    have := congrArg Complex.im h0
    simp [o, src, rawVecHJ, toyId, toyConst, HJ.jA, HJ.jA0, HJ.C, Mass.mat, Mass.inv, PDE.Inner.mat, iw,
      Matrix.mul_apply, Real.pi_ne_zero] at this

/-- The hypotheses of the theorem on the sensitivities of the HJ formulations can be met: a dipole and a
raw source at the same frequency; the model is the resistivity. -/
example :
    let o : HJ Unit Unit Unit Unit Unit := ⟨1, toyId, toyConst 3, 1, 1, false⟩
    let rx : List (Rx FldHJ (LocHJ Unit Unit)) :=
      [⟨1, .real, .e, fun _ _ => 1⟩, ⟨1, .imag, .h, fun _ _ => 1⟩, ⟨1, .real, .j, fun _ _ => 1⟩]
    let srcs := [dipoleHJ o 1 (fun _ => 1) 2 rx, rawVecHJ 1 0 (fun _ => 1) rx]
    SensitivitiesCorrect (o.simJ srcs) (fun _ => 5) ∧ SensitivitiesCorrect (o.simH srcs) (fun _ => 5) := by
  intro o rx srcs
  have hf : ∀ src ∈ srcs, src.freq = 1 := by
    intro src h
    simp only [srcs, List.mem_cons, List.not_mem_nil, or_false] at h
    rcases h with rfl | rfl <;> rfl
  have h1 := C68_sources_HJ_partial o (fun _ => 5) srcs
    (by
      intro src h
      simp only [srcs, List.mem_cons, List.not_mem_nil, or_false] at h
      rcases h with rfl | rfl
      · exact PlainHJ.dipole _ _ _ _
      · exact PlainHJ.raw _ _ _ _)
    (toyId_good _ (by norm_num)).toGood (toyConst_good 3 _ (by norm_num)) rfl (fun _ _ => rfl) rfl
  refine ⟨h1.1 fun src h => ?_, h1.2 (by simp [o]) fun src h => ?_⟩
  · rw [hf src h, Matrix.det_unique]
    intro h0
    have := congrArg Complex.im h0
    simp [o, toyId, toyConst, HJ.jA, HJ.jA0, HJ.C, Mass.mat, Mass.inv, PDE.Inner.mat, iw,
      Matrix.mul_apply, Real.pi_ne_zero] at this
  · rw [hf src h, Matrix.det_unique]
    intro h0
    have := congrArg Complex.re h0
    simp [o, toyId, toyConst, HJ.hA, HJ.C, Mass.mat, PDE.Inner.mat, iw, Matrix.mul_apply] at this

/-- **C69, violated.** With a primary electric field the two EB formulations disagree about the current
density: the electric field formulation returns the conductivity times the total field, the magnetic
flux density formulation leaves the primary field out. -/
theorem C69_violated_j :
    ∃ (o : EB Unit Unit Unit Unit Unit) (m : Unit → ℝ) (src : SrcEB Unit Unit Unit),
      GoodInv o.sigma m ∧ GoodInv o.mui m ∧ src.freq ≠ 0 ∧ (o.eA src.freq m).det ≠ 0 ∧
      (o.bA src.freq m).det ≠ 0 ∧ (o.simE [src]).dpred m ≠ (o.simB [src]).dpred m := by
  set o := toyEB 1 toyId (toyConst 3) with ho
  set src : SrcEB Unit Unit Unit :=
    ⟨1, Term.fixed 0, Term.fixed 0, Term.fixed fun _ => 1, fun _ => 0, [⟨1, .real, .j, toyP⟩]⟩ with hs
  refine ⟨o, fun _ => 5, src, toyId_good _ (by norm_num), toyConst_good 3 _ (by norm_num), one_ne_zero,
    toyE_det, toyB_det, ?_⟩
  have hE : (o.simE [src]).sol (fun _ => 5) (EB.srcE o src) = 0 := by
    simp only [Sim.sol, EB.srcE, EB.eQ, hs, Term.fixed, Matrix.mulVec_zero, sub_self, smul_zero]
  have hB : (o.simB [src]).sol (fun _ => 5) (EB.srcB o src) = 0 := by
    simp only [Sim.sol, EB.srcB, EB.bQ, EB.bQ0, hs, Term.fixed, Matrix.mulVec_zero, add_zero]
  have h1 : (o.simE [src]).dpred (fun _ => 5) = [5] := by
    change [EB.srcE o src].flatMap (fun s => (o.simE [src]).srcData (fun _ => 5) s) = _
    rw [List.flatMap_cons, List.flatMap_nil, List.append_nil, Sim.srcData, hE]
    change (List.ofFn (Rx.eval (⟨1, .real, .j, toyP⟩ : Rx FldEB (LocEB Unit Unit)) (o.eJ src) _ 0)) ++ [] = _
    rw [List.append_nil, eval_eq, List.ofFn_succ, List.ofFn_zero]
    congr 1
    change ((toyP.map (fun a => (a : ℂ)) *ᵥ (o.eJ src).val (fun _ => 5) 0) 0).re = 5
    rw [toyP_eq]
    simp [EB.eJ, EB.eE, hs, Term.fixed, EB.MeI, ho, toyEB, toyId, Mass.mat, PDE.Inner.mat, Matrix.mulVec,
      dotProduct]
  have h2 : (o.simB [src]).dpred (fun _ => 5) = [0] := by
    change [EB.srcB o src].flatMap (fun s => (o.simB [src]).srcData (fun _ => 5) s) = _
    rw [List.flatMap_cons, List.flatMap_nil, List.append_nil, Sim.srcData, hB]
    change (List.ofFn (Rx.eval (⟨1, .real, .j, toyP⟩ : Rx FldEB (LocEB Unit Unit)) (o.bJ src) _ 0)) ++ [] = _
    rw [List.append_nil, eval_eq, List.ofFn_succ, List.ofFn_zero]
    congr 1
    change ((toyP.map (fun a => (a : ℂ)) *ᵥ (o.bJ src).val (fun _ => 5) 0) 0).re = 0
    rw [toyP_eq]
    simp [EB.bJ, hs, Term.fixed]
  rw [h1, h2]
  norm_num

end

end Verif.FDEM.Props
