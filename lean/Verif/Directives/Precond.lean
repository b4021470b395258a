import Verif.Directives.Beta
import Mathlib.Data.Real.Basic
import Mathlib.LinearAlgebra.Matrix.Notation
import Mathlib.Algebra.BigOperators.Fin
import Mathlib.Algebra.BigOperators.Ring.List
import Mathlib.Algebra.Order.BigOperators.Group.List
import Mathlib.Algebra.Order.BigOperators.Group.Finset
import Mathlib.Tactic.Positivity

/-! Model of `UpdatePreconditioner` (`simpeg/directives/_directives.py` 2180-2261) and of the
Hessian the optimiser works with (`inverse_problem.py`, `objective_function.py` 487-502,
`data_misfit.py` 308-343). -/

namespace Verif.Directives
open Verif Matrix

noncomputable section

variable {ι κ : Type} [Fintype ι] [Fintype κ] [DecidableEq ι]

/-- A data misfit in a combination: its multiplier, its weighting matrix and the sensitivity of
its simulation at the current model. All simulations have the same number of data here; shorter
ones are padded with zero rows. -/
structure DMis (κ ι : Type) where
  mult : ℝ
  W : Matrix κ κ ℝ
  J : Matrix κ ι ℝ

/-- A regularisation in a combination: its multiplier and `deriv2` at the current model, without
the multiplier. -/
structure RegH (ι : Type) where
  mult : ℝ
  H : Matrix ι ι ℝ

/-- `np.sum(np.power(dmisfit.W * sim.getJ(m), 2), axis=0)` (2221), which is also what
`getJtJdiag(m, W=dmisfit.W)` returns in the simulations that have it. -/
def DMis.jtjDiag (d : DMis κ ι) : ι → ℝ := fun p => ∑ i, (d.W * d.J) i p ^ 2

/-- The diagonal that is inverted (2207-2225, and the same at the end of an iteration,
2236-2258): the multipliers of the two combinations are not used. -/
def diagA (ds : List (DMis κ ι)) (rs : List (RegH ι)) (beta : ℝ) : ι → ℝ := fun p =>
  (ds.map fun d => d.jtjDiag p).sum + beta * (rs.map fun r => r.H p p).sum

/-- The preconditioner (2226-2227): the reciprocals, zeros left as they are. -/
def precond (ds : List (DMis κ ι)) (rs : List (RegH ι)) (beta : ℝ) : Matrix ι ι ℝ :=
  diagonal fun p => if diagA ds rs beta p ≠ 0 then (diagA ds rs beta p)⁻¹ else 0

/-- The Hessian of the objective function as the optimiser uses it: `deriv2` of the combinations,
multipliers included; the one of a data misfit is `2 Jᵀ Wᵀ W J` (`data_misfit.py` 341-343, with a
diagonal, hence symmetric, `W`). -/
def hessian (ds : List (DMis κ ι)) (rs : List (RegH ι)) (beta : ℝ) : Matrix ι ι ℝ :=
  (ds.map fun d => d.mult • (2 : ℝ) • ((d.W * d.J)ᵀ * (d.W * d.J))).sum +
    beta • (rs.map fun r => r.mult • r.H).sum

/-- The parts of an inversion the directive reads and writes: trade-off parameter, model,
preconditioner (`opt.approxHinv`). -/
structure PS (ι : Type) where
  beta : ℝ
  model : ι → ℝ
  prec : Matrix ι ι ℝ

/-- `UpdatePreconditioner` as a directive; `ds`, `rs`: sensitivities and Hessians as functions of
the model. -/
def updatePreconditioner (every : Bool) (ds : (ι → ℝ) → List (DMis κ ι))
    (rs : (ι → ℝ) → List (RegH ι)) : Directive (PS ι) where
  run r _ w := match r with
    | .initialize =>
      .ok { w with st := { w.st with prec := precond (ds w.st.model) (rs w.st.model) w.st.beta } }
    | .endIter => if every then
        .ok { w with st := { w.st with prec := precond (ds w.st.model) (rs w.st.model) w.st.beta } }
      else .ok w
    | .finish => .ok w

/-- A directive that changes the trade-off parameter at the end of an iteration, as
`BetaSchedule` (605-671) does. -/
def coolBeta (c : ℝ) : Directive (PS ι) where
  run r _ w := match r with
    | .endIter => .ok { w with st := { w.st with beta := w.st.beta / c } }
    | _ => .ok w

namespace Props

/-! ### C95 -/

theorem sum_apply_diag {n : Type} (l : List (Matrix n n ℝ)) (p : n) :
    l.sum p p = (l.map fun A => A p p).sum := by
  induction l with
  | nil => simp
  | cons A l ih => simp [ih]

theorem hessian_diag (ds : List (DMis κ ι)) (rs : List (RegH ι)) (beta : ℝ) (p : ι) :
    hessian ds rs beta p p = (ds.map fun d => d.mult * (2 * d.jtjDiag p)).sum +
      beta * (rs.map fun r => r.mult * r.H p p).sum := by
  unfold hessian
  rw [Matrix.add_apply, Matrix.smul_apply, sum_apply_diag, sum_apply_diag, List.map_map,
    List.map_map, smul_eq_mul]
  congr 3
  funext d
  simp only [Function.comp, Matrix.smul_apply, smul_eq_mul, Matrix.mul_apply (M := (d.W * d.J)ᵀ),
    transpose_apply, DMis.jtjDiag, pow_two]

theorem jtj_nonneg (d : DMis κ ι) (p : ι) : 0 ≤ d.jtjDiag p :=
  Finset.sum_nonneg fun _ _ => sq_nonneg _

theorem list_sum_between {α : Type} (l : List α) (f g : α → ℝ) (lo hi : ℝ)
    (h : ∀ a ∈ l, lo * f a ≤ g a ∧ g a ≤ hi * f a) :
    lo * (l.map f).sum ≤ (l.map g).sum ∧ (l.map g).sum ≤ hi * (l.map f).sum := by
  induction l with
  | nil => simp
  | cons a l ih =>
    obtain ⟨h1, h2⟩ := ih fun b hb => h b (List.mem_cons_of_mem _ hb)
    obtain ⟨h3, h4⟩ := h a (by simp)
    simp only [List.map_cons, List.sum_cons, mul_add]
    constructor <;> linarith

/-- C95 (partial). If all multipliers lie between `lo` and `hi` and the regularisations are
convex, each entry of the preconditioner times the diagonal entry of the Hessian lies between
`lo` and `2 hi`: with multipliers of one, the preconditioner is within a factor of two of the
Jacobi preconditioner. Where the diagonal of the Hessian is zero, so is the preconditioner. -/
theorem C95_near_jacobi_partial (ds : List (DMis κ ι)) (rs : List (RegH ι)) (beta lo hi : ℝ)
    (hb : 0 ≤ beta) (hlo : 0 < lo) (hd : ∀ d ∈ ds, lo ≤ d.mult ∧ d.mult ≤ hi)
    (hr : ∀ r ∈ rs, lo ≤ r.mult ∧ r.mult ≤ hi) (hH : ∀ r ∈ rs, ∀ p, 0 ≤ r.H p p) (p : ι) :
    (hessian ds rs beta p p = 0 ∧ precond ds rs beta p p = 0) ∨
    (0 < precond ds rs beta p p ∧ lo ≤ precond ds rs beta p p * hessian ds rs beta p p ∧
      precond ds rs beta p p * hessian ds rs beta p p ≤ 2 * hi) := by
  rw [hessian_diag]
  simp only [precond, diagonal_apply_eq]
  set a := (ds.map fun d => d.jtjDiag p).sum with ha
  set r := (rs.map fun r => r.H p p).sum with hrr
  have hD : diagA ds rs beta p = a + beta * r := rfl
  have h1 := list_sum_between ds (fun d => d.jtjDiag p) (fun d => d.mult * (2 * d.jtjDiag p))
    lo (2 * hi) (by
      intro d hd'
      have := jtj_nonneg d p
      obtain ⟨h1, h2⟩ := hd d hd'
      constructor <;> nlinarith)
  have h2 := list_sum_between rs (fun r => r.H p p) (fun r => r.mult * r.H p p) lo (2 * hi) (by
      intro r' hr'
      have := hH r' hr' p
      obtain ⟨h1, h2⟩ := hr r' hr'
      have h3 : r'.mult ≤ 2 * hi := by linarith
      constructor <;> nlinarith)
  rw [← ha] at h1
  rw [← hrr] at h2
  set A := (ds.map fun d => d.mult * (2 * d.jtjDiag p)).sum
  set R := (rs.map fun r => r.mult * r.H p p).sum
  have an : 0 ≤ a := List.sum_nonneg (by
    intro x hx
    obtain ⟨d, _, rfl⟩ := List.mem_map.mp hx
    exact jtj_nonneg d p)
  have rn : 0 ≤ r := List.sum_nonneg (by
    intro x hx
    obtain ⟨d, hd', rfl⟩ := List.mem_map.mp hx
    exact hH d hd' p)
  have hR1 := mul_le_mul_of_nonneg_left h2.1 hb
  have hR2 := mul_le_mul_of_nonneg_left h2.2 hb
  have b1 : lo * (a + beta * r) ≤ A + beta * R := by linarith [h1.1]
  have b2 : A + beta * R ≤ 2 * hi * (a + beta * r) := by linarith [h1.2]
  have brn : 0 ≤ beta * r := mul_nonneg hb rn
  rw [hD]
  by_cases h0 : a + beta * r = 0
  · left
    rw [h0] at b1 b2
    constructor
    · linarith
    · simp [h0]
  · right
    have hpos : 0 < a + beta * r := lt_of_le_of_ne (by linarith) (Ne.symm h0)
    rw [if_pos h0]
    refine ⟨inv_pos.mpr hpos, ?_, ?_⟩
    · rw [inv_mul_eq_div, le_div_iff₀ hpos]; exact b1
    · rw [inv_mul_eq_div, div_le_iff₀ hpos]; exact b2

/-- C95. Applied to a vector it is symmetric and positive: `v · M v ≥ 0`, and `> 0` for
every `v ≠ 0` if every parameter has some sensitivity or some regularisation. -/
theorem C95_positive (ds : List (DMis κ ι)) (rs : List (RegH ι)) (beta : ℝ) (hb : 0 ≤ beta)
    (hH : ∀ r ∈ rs, ∀ p, 0 ≤ r.H p p) :
    (precond ds rs beta)ᵀ = precond ds rs beta ∧
    (∀ v, 0 ≤ v ⬝ᵥ (precond ds rs beta *ᵥ v)) ∧
    ((∀ p, diagA ds rs beta p ≠ 0) → ∀ v, v ≠ 0 → 0 < v ⬝ᵥ (precond ds rs beta *ᵥ v)) := by
  have hn : ∀ p, 0 ≤ diagA ds rs beta p := by
    intro p
    refine add_nonneg (List.sum_nonneg ?_) (mul_nonneg hb (List.sum_nonneg ?_))
    · intro x hx
      obtain ⟨d, _, rfl⟩ := List.mem_map.mp hx
      exact jtj_nonneg d p
    · intro x hx
      obtain ⟨d, hd', rfl⟩ := List.mem_map.mp hx
      exact hH d hd' p
  have hq : ∀ v : ι → ℝ, v ⬝ᵥ (precond ds rs beta *ᵥ v) =
      ∑ p, (if diagA ds rs beta p ≠ 0 then (diagA ds rs beta p)⁻¹ else 0) * (v p * v p) := by
    intro v
    simp only [dotProduct, precond, mulVec_diagonal]
    exact Finset.sum_congr rfl fun p _ => by ring
  have hterm : ∀ (v : ι → ℝ) p,
      0 ≤ (if diagA ds rs beta p ≠ 0 then (diagA ds rs beta p)⁻¹ else 0) * (v p * v p) := by
    intro v p
    refine mul_nonneg ?_ (mul_self_nonneg _)
    split
    · exact inv_nonneg.mpr (hn p)
    · exact le_rfl
  refine ⟨diagonal_transpose _, fun v => ?_, fun hne v hv => ?_⟩
  · rw [hq]; exact Finset.sum_nonneg fun p _ => hterm v p
  · rw [hq]
    obtain ⟨p, hp⟩ := Function.ne_iff.mp hv
    refine Finset.sum_pos' (fun p _ => hterm v p) ⟨p, Finset.mem_univ _, ?_⟩
    rw [if_pos (hne p)]
    have h1 : 0 < diagA ds rs beta p := lt_of_le_of_ne (hn p) (Ne.symm (hne p))
    have h2 : 0 < v p * v p := mul_self_pos.mpr hp
    positivity

/-- C95, violated. It is not the inverse of the diagonal of the Hessian, nor a multiple of it: the
factor two of the data misfits is missing, that of the regularisations is there. With one
parameter seen by the data only and one by the regularisation only, the products are 2 and 1. -/
theorem C95_violated_factor :
    let ds : List (DMis (Fin 1) (Fin 2)) := [⟨1, 1, !![1, 0]⟩]
    let rs : List (RegH (Fin 2)) := [⟨1, !![0, 0; 0, 2]⟩]
    precond ds rs 1 0 0 * hessian ds rs 1 0 0 = 2 ∧
    precond ds rs 1 1 1 * hessian ds rs 1 1 1 = 1 := by
  constructor <;> rw [hessian_diag] <;> norm_num [precond, diagA, DMis.jtjDiag]

/-- C95, violated. The multipliers of the data misfits and of the regularisations are dropped, so
with them the mismatch has no bound: the products are `2 χ` and `1`. -/
theorem C95_violated_multipliers (χ : ℝ) :
    let ds : List (DMis (Fin 1) (Fin 2)) := [⟨χ, 1, !![1, 0]⟩]
    let rs : List (RegH (Fin 2)) := [⟨1, !![0, 0; 0, 2]⟩]
    precond ds rs 1 0 0 * hessian ds rs 1 0 0 = 2 * χ ∧
    precond ds rs 1 1 1 * hessian ds rs 1 1 1 = 1 := by
  constructor <;> rw [hessian_diag] <;> norm_num [precond, diagA, DMis.jtjDiag]
  ring

/-- C95 (partial). If it is updated at every iteration and stands last in the list (or the
directives after it change neither model nor trade-off parameter), the preconditioner the next
iteration uses is the one of the current model and trade-off parameter. -/
theorem C95_current_partial (ds : (ι → ℝ) → List (DMis κ ι)) (rs : (ι → ℝ) → List (RegH ι))
    (pre post : List (Directive (PS ι))) (iter : Nat) (w : World (PS ι))
    (hpost : ∀ d ∈ post, Keeps id d)
    (hok : (call .endIter iter 0 (pre ++ updatePreconditioner true ds rs :: post) w).2.2 = none) :
    let s := (call .endIter iter 0 (pre ++ updatePreconditioner true ds rs :: post) w).2.1.st
    s.prec = precond (ds s.model) (rs s.model) s.beta := by
  have hpre : (call .endIter iter 0 pre w).2.2 = none := by
    by_contra hne
    obtain ⟨e, he⟩ := Option.ne_none_iff_exists'.mp hne
    rw [call_append_err .endIter iter e pre _ 0 w he] at hok
    cases hok
  have h1 := call_append .endIter iter pre (updatePreconditioner true ds rs :: post) 0 w hpre
  let u := (call .endIter iter 0 pre w).2.1.st
  have h2 : (call .endIter iter 0 (pre ++ updatePreconditioner true ds rs :: post) w).2.1.st =
      ⟨u.beta, u.model, precond (ds u.model) (rs u.model) u.beta⟩ := by
    rw [h1]
    simp only [call, updatePreconditioner, if_true]
    exact call_keeps_st id .endIter iter post _ _ hpost
  intro s
  rw [show s = _ from h2]

/-- C95, violated. With a cooling schedule after it in the list, which is not refused, the
preconditioner belongs to the trade-off parameter before cooling. -/
theorem C95_violated_order :
    let ds : (Fin 1 → ℝ) → List (DMis (Fin 1) (Fin 1)) := fun _ => []
    let rs : (Fin 1 → ℝ) → List (RegH (Fin 1)) := fun _ => [⟨1, 1⟩]
    let s := (call .endIter 1 0 [updatePreconditioner true ds rs, coolBeta 8]
      ⟨false, ⟨8, 0, 0⟩⟩).2.1.st
    s.beta = 1 ∧ s.prec 0 0 = 1 / 8 ∧ precond (ds s.model) (rs s.model) s.beta 0 0 = 1 := by
  refine ⟨?_, ?_, ?_⟩ <;>
    norm_num [call, updatePreconditioner, coolBeta, precond, diagA]

/-- Two data misfits with multipliers between 1 and 3. -/
example :
    let ds : List (DMis (Fin 1) (Fin 2)) := [⟨1, 1, !![1, 2]⟩, ⟨3, 1, !![0, 1]⟩]
    let rs : List (RegH (Fin 2)) := [⟨2, !![2, 0; 0, 2]⟩]
    precond ds rs 1 0 0 * hessian ds rs 1 0 0 = 2 ∧
    precond ds rs 1 1 1 * hessian ds rs 1 1 1 = 18 / 7 := by
  constructor <;> rw [hessian_diag] <;>
    norm_num [precond, diagA, DMis.jtjDiag]

end Props
end
end Verif.Directives
