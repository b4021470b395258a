import Verif.Misfit.Model
import Verif.Objective.Props
import Mathlib.Algebra.Order.Field.Basic
import Mathlib.Data.Matrix.Reflection
import Mathlib.Tactic.FinCases

/-! C12, C13: data misfit. -/

namespace Verif.Misfit.Props
open Verif Misfit Matrix

section C12
variable {ι κ : Type} [Fintype ι] [Fintype κ]

/-- C12. The value is the weighted sum of squared residuals. -/
theorem C12_value (W : Matrix κ κ ℝ) (s : Simulation ι κ) (dobs : κ → ℝ) (m : ι → ℝ) :
    value W s dobs m = ∑ i, (∑ j, W i j * (s.dpred m j - dobs j)) ^ 2 := by
  simp [value, residual, dotProduct, mulVec, sq]

/-- C12. With the default weights: `Σ ((F(m) - d)_i / std_i)²`. -/
theorem C12_value_default [DecidableEq κ] (std : κ → ℝ) (s : Simulation ι κ) (dobs : κ → ℝ)
    (m : ι → ℝ) :
    value (defaultW std) s dobs m = ∑ i, ((s.dpred m i - dobs i) / std i) ^ 2 := by
  simp only [value, residual, defaultW, mulVec_diagonal, dotProduct]
  refine Finset.sum_congr rfl fun i _ => ?_
  simp only [Pi.sub_apply]
  ring

/-- C12. `deriv` is the exact gradient of the misfit whenever the simulation's sensitivity
is the Jacobian of its prediction, for every weight matrix. -/
theorem C12_gradient (W : Matrix κ κ ℝ) (s : Simulation ι κ) (dobs : κ → ℝ) (m : ι → ℝ)
    (hJ : IsJacobian s.dpred (s.J m) m) :
    IsGradient (value W s dobs) (deriv W s dobs m) m := by
  let f : Objective.L2.Mapping ι κ := ⟨fun x => s.dpred x - dobs, s.J⟩
  have hf : IsJacobian f.apply (f.deriv m) m := hJ.sub_const dobs
  have h := Objective.Props.C11_gradient W f m hf
  have e : Objective.L2.deriv W f m = deriv W s dobs m := by
    simp [Objective.L2.deriv, deriv, residual, f, Matrix.smul_mulVec]
  rw [← e]
  exact h

/-- C12. For symmetric weights (in particular the default diagonal ones) `deriv2` is the
Gauss-Newton product `2 Jᵀ Wᵀ W J v`, hence positive semidefinite.  Missing from the full
claim: non-symmetric `W`, for which it is false (`C12_deriv2_wrong_for_nonsymmetric_W`). -/
theorem C12_gauss_newton_partial (W : Matrix κ κ ℝ) (hW : Wᵀ = W) (s : Simulation ι κ)
    (m v : ι → ℝ) :
    deriv2 W s m v = 2 • ((s.J m)ᵀ *ᵥ (Wᵀ *ᵥ (W *ᵥ (s.J m *ᵥ v)))) ∧
    v ⬝ᵥ deriv2 W s m v = 2 * ∑ i, ((W * s.J m) *ᵥ v) i ^ 2 ∧
    0 ≤ v ⬝ᵥ deriv2 W s m v := by
  have e : deriv2 W s m v = 2 • ((s.J m)ᵀ *ᵥ (Wᵀ *ᵥ (W *ᵥ (s.J m *ᵥ v)))) := by
    simp [deriv2, hW]
  let f : Objective.L2.Mapping ι κ := ⟨s.dpred, s.J⟩
  have h := (Objective.Props.C11_deriv2_symmetric_psd W f m).2 v
  have e2 : Objective.L2.deriv2 W f m v = deriv2 W s m v := by
    rw [e]; simp [Objective.L2.deriv2, f, Matrix.smul_mulVec]
  rw [e2] at h
  exact ⟨e, h⟩

/-- The default weights are symmetric. -/
theorem C12_default_weights_symmetric [DecidableEq κ] (std : κ → ℝ) :
    (defaultW std)ᵀ = defaultW std := by
  simp [defaultW]

/-- C12 fails for a non-symmetric `W`, which the setter accepts: the "Gauss-Newton" product
can be negative definite. -/
theorem C12_deriv2_wrong_for_nonsymmetric_W :
    ∃ (W : Matrix (Fin 2) (Fin 2) ℝ) (s : Simulation (Fin 2) (Fin 2)) (m v : Fin 2 → ℝ),
      (∀ x, IsJacobian s.dpred (s.J x) x) ∧ v ⬝ᵥ deriv2 W s m v < 0 ∧
      deriv2 W s m v ≠ 2 • ((s.J m)ᵀ *ᵥ (Wᵀ *ᵥ (W *ᵥ (s.J m *ᵥ v)))) := by
  refine ⟨!![0, 1; -1, 0], ⟨fun x => x, fun _ => 1⟩, 0, ![1, 0], fun x => ?_, ?_, ?_⟩
  · unfold IsJacobian
    have : mulVecL (1 : Matrix (Fin 2) (Fin 2) ℝ) = ContinuousLinearMap.id ℝ _ := by
      ext1 v; simp
    rw [this]
    exact hasFDerivAt_id x
  · simp [deriv2, Matrix.mulVec, dotProduct, Fin.sum_univ_two]
  · intro h
    simp only [deriv2, transpose_one, one_mulVec] at h
    have := congrFun h 0
    simp [Matrix.mulVec, dotProduct, Fin.sum_univ_two] at this
    norm_num at this

/-- A nonlinear simulation meeting the hypothesis of `C12_gradient`. -/
example (m : Fin 1 → ℝ) : IsJacobian (ι := Fin 1) (κ := Fin 1)
    (fun x => fun _ => x 0 * x 0) (fun _ _ => 2 * m 0) m := by
  unfold IsJacobian
  rw [hasFDerivAt_pi']
  intro i
  have := (hasFDerivAt_apply (𝕜 := ℝ) (0 : Fin 1) m).mul (hasFDerivAt_apply (𝕜 := ℝ) (0 : Fin 1) m)
  refine this.congr_fderiv ?_
  ext v
  change _ = ((fun _ _ => 2 * m 0 : Matrix (Fin 1) (Fin 1) ℝ) *ᵥ v) i
  simp [mulVec, dotProduct]; ring

end C12

section C13
variable {K : Type} [Field K] [LinearOrder K] [IsStrictOrderedRing K]

omit [IsStrictOrderedRing K] in
/-- C13. A misfit whose weights were neither assigned nor read yet: reading `W` raises
exactly if some standard deviation is not positive, and otherwise returns the reciprocals
of the current standard deviations. -/
theorem C13_first_read (std : List K) :
    ((readW ⟨std, none⟩).2 = .error .exception ↔ ∃ x ∈ std, x ≤ 0) ∧
    ((∀ x ∈ std, 0 < x) → (readW ⟨std, none⟩).2 = .ok (.diag (std.map fun x => 1 / x))) := by
  unfold readW
  simp only
  by_cases h : ∃ x ∈ std, x ≤ 0
  · have h' : std.any (fun x => decide (x ≤ 0)) = true := by simpa using h
    obtain ⟨x, hx, hx0⟩ := h
    simp only [h', if_true, true_iff]
    exact ⟨⟨x, hx, hx0⟩, fun hp => absurd (hp x hx) (not_lt.mpr hx0)⟩
  · have h' : ¬ std.any (fun x => decide (x ≤ 0)) = true := by simpa using h
    simp [h', h]

/-- C13 (part that holds). Start from a fresh misfit and change the uncertainties in any way
without evaluating; then interleave any evaluations.  Every read of `W` returns the
reciprocals of the current standard deviations, all of them positive.  Missing: changes of
uncertainty after an evaluation (`C13_weights_are_stale`). -/
theorem C13_weights_follow_uncertainties_partial (std0 std : List K) (changes : List (List K))
    (k : Nat) (hs : (changes.getLast?).getD std0 = std) (hp : ∀ x ∈ std, 0 < x) :
    let s := run (run ⟨std0, none⟩ (changes.map Op.setStd)) (List.replicate k Op.readW)
    (readW s).2 = .ok (.diag (std.map fun x => 1 / x)) ∧ ∀ w ∈ std.map (fun x => 1 / x), 0 < w := by
  have h1 : ∀ (cs : List (List K)) (l : List K),
      run ⟨l, none⟩ (cs.map Op.setStd) = ⟨(cs.getLast?).getD l, none⟩ := by
    intro cs
    induction cs with
    | nil => intro l; rfl
    | cons c cs ih =>
      intro l
      simp only [run, List.map_cons, List.foldl_cons, step] at ih ⊢
      rw [ih c]
      cases cs with
      | nil => rfl
      | cons d ds => simp [List.getLast?_cons]
  have hr : ∀ s : State K, (s = ⟨std, none⟩ ∨ s = ⟨std, some (.diag (std.map fun x => 1 / x))⟩) →
      (step s .readW = ⟨std, some (.diag (std.map fun x => 1 / x))⟩ ∧
      (readW s).2 = .ok (.diag (std.map fun x => 1 / x))) := by
    rintro s (rfl | rfl)
    · have h' : ¬ std.any (fun x => decide (x ≤ 0)) = true := by
        simp only [List.any_eq_true, decide_eq_true_eq, not_exists, not_and, not_le]
        exact hp
      simp only [step, readW]
      rw [if_neg h']
      exact ⟨rfl, rfl⟩
    · simp [step, readW]
  have h2 : ∀ (k : Nat) (s : State K),
      (s = ⟨std, none⟩ ∨ s = ⟨std, some (.diag (std.map fun x => 1 / x))⟩) →
      (run s (List.replicate k Op.readW) = ⟨std, none⟩ ∨
       run s (List.replicate k Op.readW) = ⟨std, some (.diag (std.map fun x => 1 / x))⟩) := by
    intro k
    induction k with
    | zero => intro s h; exact h
    | succ k ih =>
      intro s h
      simp only [run, List.replicate_succ, List.foldl_cons] at ih ⊢
      exact ih _ (Or.inr (hr s h).1)
  intro s
  refine ⟨?_, ?_⟩
  · refine (hr s ?_).2
    refine h2 k _ (Or.inl ?_)
    rw [h1, hs]
  · intro w hw
    obtain ⟨x, hx, rfl⟩ := List.mem_map.mp hw
    exact one_div_pos.mpr (hp x hx)

omit [IsStrictOrderedRing K] in
/-- C13. Explicitly assigned weights: an accepted assignment is what every later evaluation
uses, whatever happens to the uncertainties in between, until the next accepted assignment. -/
theorem C13_assigned_weights_stick (s : State K) (v : WVal K) (ops : List (Op K))
    (hok : (setW s v).2 = .ok ()) (hops : ∀ op ∈ ops, ∀ u, op ≠ .setW u) :
    (readW (run (step s (.setW v)) ops)).2 = .ok (match v with
      | .identity => .diag (List.replicate s.std.length 1)
      | .vec w => .diag w
      | .mat r => .full r) := by
  have hst : ∀ (ops : List (Op K)) (t : State K) (w : Weights K), t.W = some w →
      (∀ op ∈ ops, ∀ u, op ≠ .setW u) → (run t ops).W = some w := by
    intro ops
    induction ops with
    | nil => intro t w h _; exact h
    | cons op ops ih =>
      intro t w h ho
      simp only [run, List.foldl_cons] at ih ⊢
      refine ih _ w ?_ (fun o hm => ho o (by simp [hm]))
      cases op with
      | setStd l => exact h
      | setW u => exact absurd rfl (ho (.setW u) (by simp) u)
      | readW => simp [step, readW, h]
  have hw : ∀ w, (step s (.setW v)).W = some w →
      (readW (run (step s (.setW v)) ops)).2 = .ok w := by
    intro w h
    have := hst ops _ w h hops
    simp [readW, this]
  apply hw
  cases v with
  | identity => rfl
  | vec w =>
    simp only [setW] at hok
    split at hok
    · next h => simp [step, setW, h]
    · cases hok
  | mat r =>
    simp only [setW] at hok
    split at hok
    · next h => simp only [step, setW]; rw [if_pos h]
    · cases hok

omit [IsStrictOrderedRing K] in
/-- C13. A rejected assignment changes nothing and never installs wrongly sized weights. -/
theorem C13_rejected_assignment (s : State K) (v : WVal K) (e : Err)
    (h : (setW s v).2 = .error e) : (setW s v).1 = s := by
  cases v with
  | identity => simp [setW] at h
  | vec w =>
    simp only [setW] at h ⊢
    split
    · next h' => simp [h'] at h
    · rfl
  | mat r =>
    simp only [setW] at h ⊢
    split
    · next h' => rw [if_pos h'] at h; cases h
    · rfl

/-- C13 is violated: after one evaluation, a change of the uncertainties (or of the data's
standard deviation) no longer reaches the weights. -/
theorem C13_weights_are_stale : ∃ (std : List ℚ) (ops : List (Op ℚ)),
    (∀ op ∈ ops, ∀ u, op ≠ .setW u) ∧
    let s := run ⟨std, none⟩ ops
    (∀ x ∈ s.std, 0 < x) ∧ (readW s).2 ≠ .ok (.diag (s.std.map fun x => 1 / x)) := by
  refine ⟨[1, 2], [.readW, .setStd [4, 5]], by simp, ?_⟩
  simp [run, step, readW]; norm_num

/-- and it stays stale even when the new uncertainties are invalid. -/
theorem C13_invalid_uncertainty_unnoticed : ∃ (std : List ℚ) (ops : List (Op ℚ)),
    (∀ op ∈ ops, ∀ u, op ≠ .setW u) ∧
    let s := run ⟨std, none⟩ ops
    (∃ x ∈ s.std, x ≤ 0) ∧ ∃ w, (readW s).2 = .ok w := by
  refine ⟨[1, 2], [.readW, .setStd [0, 5]], by simp, ?_, ⟨.diag [1, 1/2], ?_⟩⟩
  · decide
  · norm_num [run, step, readW]

example : (readW (run (run (⟨[0, 1], none⟩ : State ℚ) ([[3, 4], [2, 5]].map Op.setStd))
    (List.replicate 2 Op.readW))).2 = .ok (.diag [1/2, 1/5]) := by
  norm_num [run, step, readW, List.replicate]

example : (setW (⟨[1, 2], none⟩ : State ℚ) (.vec [3, 4])).2 = .ok () ∧
    (setW (⟨[1, 2], none⟩ : State ℚ) (.vec [3])).2 = .error .assertionError := by decide

end C13

end Verif.Misfit.Props
