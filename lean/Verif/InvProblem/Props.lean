import Verif.InvProblem.Model
import Mathlib.Algebra.Order.Field.Basic
import Mathlib.Tactic.NormNum

set_option linter.unusedSectionVars false

/-! C14: the inverse problem evaluates the trade-off sum. -/

namespace Verif.InvProblem.Props
open Verif InvProblem

variable {K V Φ D : Type}

/-- A member's evaluation does not depend on whether its own fields are supplied. -/
def Sound (p : Member K V Φ D) : Prop :=
  ∀ s, p.sim = some s → ∀ m, p.value m (some (s.1 m)) = p.value m none ∧
    p.deriv m (some (s.1 m)) = p.deriv m none ∧
    ∀ v, p.deriv2 m v (some (s.1 m)) = p.deriv2 m v none

/-- No member without simulation comes before a member with one. -/
def Aligned : Misfit K V Φ D → Prop
  | [] => True
  | (_, p) :: rest => (p.sim = none → ∀ q ∈ rest, q.2.sim = none) ∧ Aligned rest

theorem fieldsList_none (dm : Misfit K V Φ D) (m : V) (h : ∀ q ∈ dm, q.2.sim = none) :
    fieldsList dm m = [] := by
  unfold fieldsList
  rw [List.filterMap_eq_nil_iff]
  intro q hq
  simp [h q hq]

/-- Under alignment, the `i`-th entry is the right one. -/
theorem aligned_get : ∀ (dm : Misfit K V Φ D) (m : V), Aligned dm →
    ∀ (i : Nat) (p : K × Member K V Φ D), dm[i]? = some p → ∀ s, p.2.sim = some s →
    (fieldsList dm m)[i]? = some (s.1 m)
  | [], m, _, i, p, h, s, hs => by simp at h
  | (c, q) :: rest, m, ha, i, p, h, s, hs => by
    cases hq : q.sim with
    | none =>
      exfalso
      have := ha.1 hq
      cases i with
      | zero => simp at h; subst h; rw [hq] at hs; cases hs
      | succ i =>
        simp at h
        have := this p (List.mem_of_getElem? h)
        rw [this] at hs; cases hs
    | some t =>
      have e : fieldsList ((c, q) :: rest) m = t.1 m :: fieldsList rest m := by
        simp [fieldsList, hq]
      rw [e]
      cases i with
      | zero => simp at h; subst h; rw [hq] at hs; cases hs; simp
      | succ i =>
        simp at h ⊢
        exact aligned_get rest m ha.2 i p h s hs

section
variable {X : Type} [Zero K] [DecidableEq K] [AddCommGroup X]

theorem comboLoop_ok (smul : K → X → X) (h0 : ∀ x, smul 0 x = 0)
    (get : Member K V Φ D → Option Φ → X) (f : List Φ) :
    ∀ (dm : Misfit K V Φ D) (i : Nat) (acc : X),
    (∀ (j : Nat) (p : K × Member K V Φ D), dm[j]? = some p → ∀ s, p.2.sim = some s →
      ∃ x, f[i + j]? = some x ∧ get p.2 (some x) = get p.2 none) →
    comboLoop smul get f i dm acc =
      .ok (acc + (dm.map fun p => smul p.1 (get p.2 none)).sum)
  | [], i, acc, _ => by simp [comboLoop]
  | (c, p) :: rest, i, acc, h => by
    have hrest : ∀ acc, comboLoop smul get f (i + 1) rest acc =
        .ok (acc + (rest.map fun p => smul p.1 (get p.2 none)).sum) := by
      intro acc
      refine comboLoop_ok smul h0 get f rest (i + 1) acc fun j q hj s hs => ?_
      have := h (j + 1) q (by simpa using hj) s hs
      rwa [show i + 1 + j = i + (j + 1) by omega]
    simp only [comboLoop, List.map_cons, List.sum_cons]
    split
    · next hc => rw [hrest, hc, h0, zero_add]
    · have harg : ∃ a, fieldsArg p f i = .ok a ∧ get p a = get p none := by
        unfold fieldsArg
        cases hp : p.sim with
        | none => exact ⟨none, rfl, rfl⟩
        | some s =>
          obtain ⟨x, hx, hg⟩ := h 0 (c, p) (by simp) s hp
          simp only [Nat.add_zero] at hx
          exact ⟨some x, by rw [hx], hg⟩
      obtain ⟨a, ha, hg⟩ := harg
      rw [ha]
      simp only [hrest, hg, add_assoc]

end

theorem getDpred_ok (m : V) (f : List Φ) : ∀ (dm : Misfit K V Φ D) (i : Nat),
    (∀ (j : Nat) (p : K × Member K V Φ D), dm[j]? = some p → ∀ s, p.2.sim = some s →
      f[i + j]? = some (s.1 m)) →
    getDpred m f i dm = .ok (dm.filterMap fun p => p.2.sim.map fun s => s.2 m (s.1 m))
  | [], i, _ => by simp [getDpred]
  | (c, p) :: rest, i, h => by
    have hrest : getDpred m f (i + 1) rest =
        .ok (rest.filterMap fun p => p.2.sim.map fun s => s.2 m (s.1 m)) := by
      refine getDpred_ok m f rest (i + 1) fun j q hj s hs => ?_
      have := h (j + 1) q (by simpa using hj) s hs
      rwa [show i + 1 + j = i + (j + 1) by omega]
    simp only [getDpred]
    cases hp : p.sim with
    | none => simp [hrest, hp]
    | some s =>
      have := h 0 (c, p) (by simp) s hp
      simp only [Nat.add_zero] at this
      simp [this, hrest, hp]

section main
variable [Field K] [LinearOrder K] [IsStrictOrderedRing K] [AddCommGroup V] [Module K V]

/-- Warm start entries hold the fields of their own model. -/
def WarmOk (dm : Misfit K V Φ D) (val : Nat → V) (s : State K Φ D) : Prop :=
  ∀ p ∈ s.warm, p.2 = fieldsList dm (val p.1)

theorem getFields_spec (dm : Misfit K V Φ D) (val : Nat → V) (warm : List (Nat × List Φ))
    (h : ∀ p ∈ warm, p.2 = fieldsList dm (val p.1)) (id : Nat) (store : Bool) :
    (getFields dm warm val id store).1 = fieldsList dm (val id) ∧
    ∀ p ∈ (getFields dm warm val id store).2, p.2 = fieldsList dm (val p.1) := by
  have h1 : (getFields dm warm val id store).1 = fieldsList dm (val id) := by
    unfold getFields
    simp only
    split
    · next p hp =>
      have h2 := List.mem_of_find?_eq_some hp
      have h3 := List.find?_some hp
      simp at h3
      rw [h p h2, h3]
    · rfl
  refine ⟨h1, ?_⟩
  intro p hp
  have h2 : (getFields dm warm val id store).2
      = if store then [(id, (getFields dm warm val id store).1)] else [] := rfl
  rw [h2] at hp
  split at hp
  · simp at hp; subst hp; exact h1
  · simp at hp

/-- What a correct call returns and leaves behind. -/
structure Correct (dm : Misfit K V Φ D) (reg : Reg K V) (m : V) (beta : K)
    (return_g return_H : Bool) (old : State K Φ D) (s : State K Φ D) (o : Out K V) : Prop where
  phi : o.phi = (dm.map fun p => p.1 * p.2.value m none).sum + beta * reg.value m
  grad : o.g = if return_g then
      some ((dm.map fun p => p.1 • p.2.deriv m none).sum + beta • reg.deriv m) else none
  hess_some : o.H.isSome = return_H
  hess : ∀ H, o.H = some H → ∀ v, H v =
      .ok ((dm.map fun p => p.1 • p.2.deriv2 m v none).sum + beta • reg.deriv2 m v)
  phi_d : s.phi_d = some ((dm.map fun p => p.1 * p.2.value m none).sum)
  phi_m : s.phi_m = some (reg.value m)
  last : s.phi_d_last = old.phi_d ∧ s.phi_m_last = old.phi_m
  beta : s.beta = old.beta
  dpred : s.dpred = dm.filterMap fun p => p.2.sim.map fun q => q.2 m (q.1 m)

theorem eval_spec (dm : Misfit K V Φ D) (reg : Reg K V) (val : Nat → V) (s : State K Φ D)
    (hs : ∀ p ∈ dm, Sound p.2) (ha : Aligned dm) (hw : WarmOk dm val s) (id : Nat)
    (return_g return_H : Bool) :
    ∃ s' o, evalFunction dm reg val s id return_g return_H = .ok (s', o) ∧ WarmOk dm val s' ∧
      Correct dm reg (val id) s.beta return_g return_H s s' o := by
  obtain ⟨hf, hw'⟩ := getFields_spec dm val s.warm hw id (!return_g && !return_H)
  have hget := aligned_get dm (val id) ha
  have hv := comboLoop_ok (X := K) (fun c x => c * x) (by simp)
    (fun (p : Member K V Φ D) a => p.value (val id) a) (fieldsList dm (val id)) dm 0 0
    (fun j p hj t ht => ⟨_, by simpa using hget j p hj t ht,
      (hs p (List.mem_of_getElem? hj) t ht (val id)).1⟩)
  have hg := comboLoop_ok (X := V) (fun (c : K) x => c • x) (by simp)
    (fun (p : Member K V Φ D) a => p.deriv (val id) a) (fieldsList dm (val id)) dm 0 0
    (fun j p hj t ht => ⟨_, by simpa using hget j p hj t ht,
      (hs p (List.mem_of_getElem? hj) t ht (val id)).2.1⟩)
  have hh := fun v => comboLoop_ok (X := V) (fun (c : K) x => c • x) (by simp)
    (fun (p : Member K V Φ D) a => p.deriv2 (val id) v a) (fieldsList dm (val id)) dm 0 0
    (fun j p hj t ht => ⟨_, by simpa using hget j p hj t ht,
      (hs p (List.mem_of_getElem? hj) t ht (val id)).2.2 v⟩)
  have hd := getDpred_ok (val id) (fieldsList dm (val id)) dm 0
    (fun j p hj t ht => by simpa using hget j p hj t ht)
  simp only [zero_add] at hv hg hh
  unfold evalFunction
  simp only [hf, hv, hg, hh, hd]
  cases return_g <;> cases return_H <;>
    exact ⟨_, _, rfl, hw', ⟨rfl, rfl, rfl, by first | (intro H h v; cases h; rfl) | (intro H h; cases h),
      rfl, rfl, ⟨rfl, rfl⟩, rfl, rfl⟩⟩

/-- C14. For every history of evaluations (with any flags, hence any warm starts) and `beta`
assignments, the next call of `evalFunction` returns
`phi_d(m) + beta phi_m(m)` with the current `beta`, the gradient and Hessian operator of the
same combination exactly when requested, and records `phi_d`, `phi_m`, the previous pair and
the predicted data.  Precondition on the data misfit: terms without a simulation come last.
Missing from the full claim: other orders, for which the call always fails
(`C14_misaligned_always_raises`). -/
theorem C14_trade_off_sum_partial (dm : Misfit K V Φ D) (reg : Reg K V) (val : Nat → V)
    (s0 : State K Φ D) (h0 : s0.warm = []) (hs : ∀ p ∈ dm, Sound p.2) (ha : Aligned dm)
    (ops : List (Op K)) (id : Nat) (return_g return_H : Bool) :
    let s := run dm reg val s0 ops
    ∃ s' o, evalFunction dm reg val s id return_g return_H = .ok (s', o) ∧
      Correct dm reg (val id) s.beta return_g return_H s s' o := by
  have inv : ∀ (ops : List (Op K)) (s : State K Φ D), WarmOk dm val s →
      WarmOk dm val (run dm reg val s ops) := by
    intro ops
    induction ops with
    | nil => intro s h; exact h
    | cons op ops ih =>
      intro s h
      simp only [run, List.foldl_cons] at ih ⊢
      apply ih
      cases op with
      | setBeta b =>
        simp only [step, setBeta]
        by_cases hb : b < 0
        · simp only [if_pos hb]; exact h
        · simp only [if_neg hb]; exact h
      | eval id g H =>
        obtain ⟨s', o, e, hw, _⟩ := eval_spec dm reg val s hs ha h id g H
        simp only [step, e]
        exact hw
  have hw := inv ops s0 (by intro p hp; rw [h0] at hp; simp at hp)
  obtain ⟨s', o, e, _, hc⟩ := eval_spec dm reg val _ hs ha hw id return_g return_H
  exact ⟨s', o, e, hc⟩

/-- C14. `beta` is never negative, and is the last accepted assignment. -/
theorem C14_beta (dm : Misfit K V Φ D) (reg : Reg K V) (val : Nat → V)
    (s0 : State K Φ D) (h0 : 0 ≤ s0.beta) (ops : List (Op K)) :
    (run dm reg val s0 ops).beta =
      ((ops.filterMap fun op => match op with
        | .setBeta b => if 0 ≤ b then some b else none
        | .eval _ _ _ => none).getLast?).getD s0.beta ∧
    0 ≤ (run dm reg val s0 ops).beta := by
  have hb : ∀ (s : State K Φ D) id g H s' o, evalFunction dm reg val s id g H = .ok (s', o) →
      s'.beta = s.beta := by
    intro s id g H s' o h
    unfold evalFunction at h
    simp only at h
    split at h
    · cases h
    · split at h
      · cases h
      · split at h
        · split at h
          · cases h
          · cases h; rfl
        · cases h; rfl
  have step_beta : ∀ (s : State K Φ D) (op : Op K), (step dm reg val s op).beta =
      ((match op with
        | .setBeta b => if 0 ≤ b then some b else none
        | .eval _ _ _ => none) : Option K).getD s.beta := by
    intro s op
    cases op with
    | setBeta b =>
      simp only [step, setBeta]
      by_cases hb : b < 0
      · simp [hb, not_le.mpr hb]
      · simp [hb, not_lt.mp hb]
    | eval id g H =>
      simp only [step]
      split
      · next s' o h => simpa using hb s id g H s' o h
      · rfl
  induction ops generalizing s0 with
  | nil => exact ⟨rfl, h0⟩
  | cons op ops ih =>
    have hs := step_beta s0 op
    have h0' : 0 ≤ (step dm reg val s0 op).beta := by
      rw [hs]
      cases op with
      | setBeta b =>
        by_cases hb : 0 ≤ b
        · simp [hb]
        · simp [hb, h0]
      | eval => simpa using h0
    have ih := ih (step dm reg val s0 op) h0'
    simp only [run, List.foldl_cons] at ih ⊢
    refine ⟨?_, ih.2⟩
    rw [ih.1, hs]
    cases op with
    | setBeta b =>
      by_cases hb : 0 ≤ b
      · simp only [List.filterMap_cons, hb, if_true, List.getLast?_cons, Option.getD_some]
      · simp only [List.filterMap_cons, hb, if_false, Option.getD_none]
    | eval => simp only [List.filterMap_cons, Option.getD_none]

/-- C14 cannot hold for other orders: if any term without a simulation precedes a term with
one, then `evalFunction` raises whatever the multipliers, from every state without stored
fields. -/
theorem C14_misaligned_always_raises (dm : Misfit K V Φ D) (reg : Reg K V) (val : Nat → V)
    (s : State K Φ D) (hw : s.warm = []) (ha : ¬ Aligned dm) (id : Nat)
    (return_g return_H : Bool) :
    evalFunction dm reg val s id return_g return_H = .error .indexError := by
  -- number of fields vs. position of the last term with a simulation
  have pos : ∀ (dm : Misfit K V Φ D) (m : V), ¬ Aligned dm → ∃ (j : Nat) (p : K × Member K V Φ D),
      dm[j]? = some p ∧ p.2.sim.isSome ∧ (fieldsList dm m).length ≤ j := by
    intro dm m
    induction dm with
    | nil => intro h; exact absurd trivial h
    | cons q rest ih =>
      intro h
      obtain ⟨c, q⟩ := q
      by_cases hr : Aligned rest
      · have h1 : ¬ (q.sim = none → ∀ q ∈ rest, q.2.sim = none) := fun h' => h ⟨h', hr⟩
        simp only [Classical.not_imp, not_forall] at h1
        obtain ⟨hq, r, hr1, hr2⟩ := h1
        -- the last term with a simulation in rest
        have last : ∀ l : Misfit K V Φ D, (∃ r ∈ l, r.2.sim ≠ none) →
            ∃ (j : Nat) (p : K × Member K V Φ D), l[j]? = some p ∧ p.2.sim.isSome ∧
              (fieldsList l m).length ≤ j + 1 := by
          intro l
          induction l with
          | nil => rintro ⟨r, hr, _⟩; simp at hr
          | cons a l ihl =>
            intro hex
            by_cases hl : ∃ r ∈ l, r.2.sim ≠ none
            · obtain ⟨j, p, h1, h2, h3⟩ := ihl hl
              refine ⟨j + 1, p, by simpa using h1, h2, ?_⟩
              simp only [fieldsList, List.filterMap_cons] at h3 ⊢
              split
              · omega
              · simp only [List.length_cons]; omega
            · obtain ⟨r, hr, hrs⟩ := hex
              have hl' : ∀ r ∈ l, r.2.sim = none := by
                intro r hr
                by_contra hc
                exact hl ⟨r, hr, hc⟩
              rcases List.mem_cons.mp hr with rfl | hr
              · refine ⟨0, r, by simp, Option.isSome_iff_ne_none.mpr hrs, ?_⟩
                have := fieldsList_none l m hl'
                simp only [fieldsList, List.filterMap_cons] at this ⊢
                split
                · simp [this]
                · simp [this]
              · exact absurd (hl' r hr) hrs
        obtain ⟨j, p, h1, h2, h3⟩ := last rest ⟨r, hr1, hr2⟩
        refine ⟨j + 1, p, by simpa using h1, h2, ?_⟩
        simp only [fieldsList, List.filterMap_cons, hq, Option.map_none] at h3 ⊢
        exact h3
      · obtain ⟨j, p, h1, h2, h3⟩ := ih hr
        refine ⟨j + 1, p, by simpa using h1, h2, ?_⟩
        simp only [fieldsList, List.filterMap_cons] at h3 ⊢
        split
        · omega
        · simp only [List.length_cons]; omega
  have loopErr : ∀ (dm : Misfit K V Φ D) (m : V) (f : List Φ) (i : Nat) (acc : K) (e : Err),
      comboLoop (fun c x => c * x) (fun p a => p.value m a) f i dm acc = .error e →
      e = .indexError := by
    intro dm m f
    induction dm with
    | nil => intro i acc e h; simp [comboLoop] at h
    | cons q rest ih =>
      intro i acc e h
      simp only [comboLoop] at h
      split at h
      · exact ih _ _ _ h
      · split at h
        · next e' he =>
          cases h
          unfold fieldsArg at he
          split at he
          · cases he
          · split at he
            · cases he
            · cases he; rfl
        · exact ih _ _ _ h
  have dpredErr : ∀ (dm : Misfit K V Φ D) (m : V) (f : List Φ) (i : Nat),
      (∃ (j : Nat) (p : K × Member K V Φ D), dm[j]? = some p ∧ p.2.sim.isSome ∧
        f.length ≤ i + j) →
      getDpred m f i dm = .error .indexError := by
    intro dm m f
    induction dm with
    | nil => rintro i ⟨j, p, h, _⟩; simp at h
    | cons q rest ih =>
      rintro i ⟨j, p, h1, h2, h3⟩
      obtain ⟨c, q⟩ := q
      simp only [getDpred]
      cases j with
      | zero =>
        simp at h1; subst h1
        simp only at h2
        obtain ⟨t, ht⟩ := Option.isSome_iff_exists.mp h2
        rw [ht]
        have : f[i]? = none := by simp; omega
        simp [this]
      | succ j =>
        have := ih (i + 1) ⟨j, p, by simpa using h1, h2, by omega⟩
        split
        · exact this
        · split
          · rfl
          · rw [this]
  obtain ⟨j, p, h1, h2, h3⟩ := pos dm (val id) ha
  have hf : (getFields dm s.warm val id (!return_g && !return_H)).1
      = fieldsList dm (val id) := by
    simp [getFields, hw]
  have hd := dpredErr dm (val id) (fieldsList dm (val id)) 0 ⟨j, p, h1, h2, by omega⟩
  unfold evalFunction
  simp only [hf, hd]
  split
  · next e he => rw [loopErr _ _ _ _ _ _ he]
  · rfl

end main

section Examples

/-- Simulation with fields `2 m`, data equal to the fields. -/
private def simM : Member ℚ ℚ ℚ ℚ where
  sim := some (fun m => 2 * m, fun _ f => f)
  value := fun m f => (f.getD (2 * m)) ^ 2
  deriv := fun m f => 4 * (f.getD (2 * m))
  deriv2 := fun _ v _ => 8 * v

/-- A term without simulation. -/
private def plainM : Member ℚ ℚ ℚ ℚ where
  sim := none
  value := fun m _ => m
  deriv := fun _ _ => 1
  deriv2 := fun _ _ _ => 0

example : Sound simM := by
  intro s hs m
  simp only [simM, Option.some.injEq] at hs
  subst hs
  simp [simM]

example : Aligned ([(1, simM), (3, plainM)] : Misfit ℚ ℚ ℚ ℚ) := by
  simp [Aligned, simM, plainM]

/-- A misaligned but perfectly sensible misfit (for instance `2*(a + b) + c` in Python, whose
first member is a combo). -/
example : ¬ Aligned ([(3, plainM), (1, simM)] : Misfit ℚ ℚ ℚ ℚ) := by
  simp [Aligned, simM, plainM]

end Examples

end Verif.InvProblem.Props
