import Verif.Basic
import Mathlib.Algebra.Order.Field.Rat
import Mathlib.Data.List.Forall2
import Mathlib.Tactic.NormNum

/-! Model of the norms of the sparse regularisation
(`simpeg/regularization/sparse.py` 103-133, 976-1008).  Numbers are exact. -/

namespace Verif.Reg.Norms
open Verif

/-- What can be assigned to `norm`: `None`, an array (a scalar is the array of shape `(1,)`, see
`validate_ndarray_with_shape`, utils/code_utils.py 1054-1114), or something not convertible. -/
inductive Arg where
  | none
  | arr (v : List Rat)
  | bad
  deriving DecidableEq

/-- `BaseSparse.norm` setter (116-133) for a component whose weights have `n` entries: the array
it stores, or the exception. -/
def setNorm (n : Nat) : Arg → Except Err (List Rat)
  | .none => .ok (List.replicate n 2)
  | .bad => .error .typeError
  | .arr v =>
    if v.length = n ∨ v.length = 1 then
      let v' := if v.length = 1 then List.replicate n (v.headD 0) else v
      if v'.any (fun x => decide (x < 0)) || v'.any (fun x => decide (2 < x)) then
        .error .valueError
      else .ok v'
    else .error .valueError

/-- A component: the size of its weights, and its `norm`. -/
abbrev Comp := Nat × List Rat

/-- A `Sparse` regularisation: its components and `_norms`. -/
structure St where
  comps : List Comp
  stored : List Arg
  deriving DecidableEq

/-- `for val, fct in zip(values, self.objfcts): fct.norm = val` (1001-1002, 1006-1007): the
components after the loop, and the exception that stopped it. -/
def assign : List Comp → List Arg → List Comp × Option Err
  | [], _ => ([], none)
  | cs, [] => (cs, none)
  | c :: cs, a :: as =>
    match setNorm c.1 a with
    | .error e => (c :: cs, some e)
    | .ok v => let r := assign cs as
               ((c.1, v) :: r.1, r.2)

/-- `values` after 991-998. -/
def expand (n : Nat) : Option (List Arg) → Except Err (List Arg)
  | some vs => if vs.length ≠ n then .error .valueError else .ok vs
  | none => .ok (List.replicate n .none)

/-- `Sparse.norms` setter (989-1008).  An exception during the reset replaces the first one. -/
def setNorms (s : St) (values : Option (List Arg)) : St × Option Err :=
  match expand s.comps.length values with
  | .error e => (s, some e)
  | .ok vs =>
    match assign s.comps vs with
    | (cs, none) => (⟨cs, vs⟩, none)
    | (cs, some e) =>
      match assign cs s.stored with
      | (cs', none) => ({ s with comps := cs' }, some e)
      | (cs', some e') => ({ s with comps := cs' }, some e')

/-- The state when `Sparse.__init__` assigns `norms` (923-946): components built with the default
norm 2 and no `_norms` (999). -/
def fresh (sizes : List Nat) : St :=
  ⟨sizes.map fun n => (n, List.replicate n 2), sizes.map fun _ => .none⟩

/-- What a user can do to the norms: assign all, assign that of one component, or change the list
they passed before, which `_norms` refers to (1003). -/
inductive Op where
  | norms (values : Option (List Arg))
  | component (i : Nat) (a : Arg)
  | mutate (i : Nat) (a : Arg)

/-- One such step. -/
def step (s : St) : Op → St
  | .norms v => (setNorms s v).1
  | .component i a =>
    match s.comps[i]? with
    | none => s
    | some c => match setNorm c.1 a with
      | .error _ => s
      | .ok v => { s with comps := s.comps.set i (c.1, v) }
  | .mutate i a => { s with stored := s.stored.set i a }

/-- A history. -/
def run (s : St) (h : List Op) : St := h.foldl step s

/-! ### Specification -/

/-- `v` is a valid norm array for a component with `n` entries, as the argument `a` means it:
`None` is norm 2 everywhere and a single number is used everywhere. -/
def Means (n : Nat) (a : Arg) (v : List Rat) : Prop :=
  (a = .none ∧ v = List.replicate n 2) ∨
  ((∃ x, a = .arr [x] ∧ v = List.replicate n x) ∨ (a = .arr v ∧ v.length = n)) ∧
    ∀ x ∈ v, 0 ≤ x ∧ x ≤ 2

/-- Only `norms` was assigned. -/
def OnlyNorms (h : List Op) : Prop := ∀ o ∈ h, ∃ v, o = .norms v

namespace Props

/-- The component setter stores exactly what the argument means, or raises. -/
theorem C42_component (n : Nat) (a : Arg) (v : List Rat) : setNorm n a = .ok v ↔ Means n a v := by
  cases a with
  | none => simp [setNorm, Means, eq_comm]
  | bad => simp [setNorm, Means]
  | arr w =>
    have hr : ∀ u : List Rat, (u.any (fun x => decide (x < 0)) || u.any (fun x => decide (2 < x)))
        = true ↔ ¬ ∀ x ∈ u, 0 ≤ x ∧ x ≤ 2 := by
      intro u
      simp only [Bool.or_eq_true, List.any_eq_true, decide_eq_true_eq]
      constructor
      · rintro (⟨x, hx, h⟩ | ⟨x, hx, h⟩) hall
        · exact absurd (hall x hx).1 (not_le.mpr h)
        · exact absurd (hall x hx).2 (not_le.mpr h)
      · intro h
        push Not at h
        obtain ⟨x, hx, h⟩ := h
        by_cases h0 : 0 ≤ x
        · exact Or.inr ⟨x, hx, h h0⟩
        · exact Or.inl ⟨x, hx, not_le.mp h0⟩
    simp only [setNorm, Means]
    by_cases hl : w.length = 1
    · obtain ⟨x, rfl⟩ := List.length_eq_one_iff.mp hl
      simp only [List.length_cons, List.length_nil, or_true, if_true, List.headD_cons, zero_add]
      by_cases hb : ∀ y ∈ List.replicate n x, 0 ≤ y ∧ y ≤ 2
      · rw [if_neg (by rw [hr]; exact not_not.mpr hb)]
        constructor
        · intro h
          cases h
          exact Or.inr ⟨Or.inl ⟨x, rfl, rfl⟩, hb⟩
        · rintro (⟨h, -⟩ | ⟨⟨y, h1, h2⟩ | ⟨h1, h2⟩, -⟩)
          · cases h
          · cases h1; rw [h2]
          · cases h1
            simp only [List.length_cons, List.length_nil, zero_add] at h2
            subst h2
            rfl
      · rw [if_pos (by rw [hr]; exact hb)]
        constructor
        · intro h; cases h
        · rintro (⟨h, -⟩ | ⟨⟨y, h1, h2⟩ | ⟨h1, h2⟩, h3⟩)
          · cases h
          · cases h1; subst h2; exact absurd h3 hb
          · cases h1
            simp only [List.length_cons, List.length_nil, zero_add] at h2
            subst h2
            exact absurd h3 hb
    · by_cases hn : w.length = n
      · simp only [hn, true_or, if_true]
        rw [if_neg (show ¬ n = 1 by omega)]
        by_cases hb : ∀ y ∈ w, 0 ≤ y ∧ y ≤ 2
        · rw [if_neg (by rw [hr]; exact not_not.mpr hb)]
          constructor
          · intro h; cases h; exact Or.inr ⟨Or.inr ⟨rfl, hn⟩, hb⟩
          · rintro (⟨h, -⟩ | ⟨⟨y, h1, h2⟩ | ⟨h1, h2⟩, -⟩)
            · cases h
            · cases h1; simp at hl
            · cases h1; rfl
        · rw [if_pos (by rw [hr]; exact hb)]
          constructor
          · intro h; cases h
          · rintro (⟨h, -⟩ | ⟨⟨y, h1, h2⟩ | ⟨h1, h2⟩, h3⟩)
            · cases h
            · cases h1; simp at hl
            · cases h1; exact absurd h3 hb
      · rw [if_neg (by omega)]
        constructor
        · intro h; cases h
        · rintro (⟨h, -⟩ | ⟨⟨y, h1, h2⟩ | ⟨h1, h2⟩, -⟩)
          · cases h
          · cases h1; simp at hl
          · cases h1; exact absurd h2 hn

/-- The components hold the norms that `_norms` says. -/
def Agrees (s : St) : Prop := List.Forall₂ (fun c a => setNorm c.1 a = .ok c.2) s.comps s.stored

theorem assign_sizes (cs : List Comp) (as : List Arg) :
    (assign cs as).1.map (·.1) = cs.map (·.1) := by
  induction cs generalizing as with
  | nil => simp [assign]
  | cons c cs ih =>
    cases as with
    | nil => simp [assign]
    | cons a as =>
      simp only [assign]
      split
      · rfl
      · simp [ih]

theorem assign_ok {cs : List Comp} {as : List Arg} (hl : as.length = cs.length)
    (h : (assign cs as).2 = none) :
    List.Forall₂ (fun c a => setNorm c.1 a = .ok c.2) (assign cs as).1 as := by
  induction cs generalizing as with
  | nil => cases as with
    | nil => exact .nil
    | cons _ _ => simp at hl
  | cons c cs ih =>
    cases as with
    | nil => simp at hl
    | cons a as =>
      simp only [assign] at h ⊢
      split at h
      · cases h
      · rename_i v hv
        simp only [hv]
        exact .cons hv (ih (by simpa using hl) h)

theorem assign_err {cs : List Comp} {as : List Arg} {e : Err} (h : (assign cs as).2 = some e) :
    ∃ p ∈ cs.zip as, setNorm p.1.1 p.2 = .error e := by
  induction cs generalizing as with
  | nil => simp [assign] at h
  | cons c cs ih =>
    cases as with
    | nil => simp [assign] at h
    | cons a as =>
      simp only [assign] at h
      split at h
      · rename_i e' he
        cases h
        exact ⟨(c, a), by simp, he⟩
      · obtain ⟨p, hp, hpe⟩ := ih h
        exact ⟨p, by simp [hp], hpe⟩

theorem assign_restore {cs : List Comp} {prev : List Arg}
    (h : List.Forall₂ (fun c a => setNorm c.1 a = .ok c.2) cs prev) (cs' : List Comp)
    (hs : cs'.map (·.1) = cs.map (·.1)) : assign cs' prev = (cs, none) := by
  induction h generalizing cs' with
  | nil =>
    cases cs' with
    | nil => rfl
    | cons _ _ => simp at hs
  | cons hca _ ih =>
    cases cs' with
    | nil => simp at hs
    | cons c' cs' =>
      simp only [List.map_cons, List.cons.injEq] at hs
      simp only [assign]
      rw [hs.1, hca]
      simp [ih cs' hs.2]

theorem expand_length {n : Nat} {v : Option (List Arg)} {vs : List Arg}
    (h : expand n v = .ok vs) : vs.length = n := by
  unfold expand at h
  split at h
  · split at h
    · cases h
    · cases h; omega
  · cases h; simp

/-- C42. If the assignment raises no exception every component has the norm its value means (and
`_norms` is the value), and its size is as before. -/
theorem C42_success (s : St) (values : Option (List Arg)) (h : (setNorms s values).2 = none) :
    ∃ vs, expand s.comps.length values = .ok vs ∧ (setNorms s values).1.stored = vs ∧
      List.Forall₂ (fun c a => Means c.1 a c.2) (setNorms s values).1.comps vs ∧
      (setNorms s values).1.comps.map (·.1) = s.comps.map (·.1) := by
  unfold setNorms at h ⊢
  split at h
  · cases h
  · rename_i vs hvs
    refine ⟨vs, hvs, ?_⟩
    have hz := assign_sizes s.comps vs
    rcases ha : assign s.comps vs with ⟨cs, _ | e⟩
    · have := assign_ok (expand_length hvs) (by rw [ha] : (assign s.comps vs).2 = none)
      rw [ha] at this hz
      exact ⟨rfl, this.imp fun _ _ h => (C42_component _ _ _).mp h, hz⟩
    · rw [ha] at h
      simp only at h
      split at h <;> cases h

/-- C42. When the components hold the norms last assigned through `norms`, the assignment raises
an exception exactly when a value is invalid for its component or the number of values is wrong,
and then nothing changes. Missing for the full claim: the hypothesis, which fails when the norm of
a component or the caller's list was changed since (`C42_component_edit_lost`,
`C42_list_edit_lost`). -/
theorem C42_atomic_partial (s : St) (hs : Agrees s) (values : Option (List Arg)) :
    ((setNorms s values).2 ≠ none → (setNorms s values).1 = s) ∧
    ((setNorms s values).2 = none ↔
      ∃ vs, expand s.comps.length values = .ok vs ∧
        ∀ p ∈ s.comps.zip vs, ∃ v, Means p.1.1 p.2 v) := by
  constructor
  · intro h
    unfold setNorms at h ⊢
    split
    · rfl
    · rename_i vs hvs
      rw [hvs] at h
      have hz := assign_sizes s.comps vs
      rcases ha : assign s.comps vs with ⟨cs, _ | e⟩
      · simp only [ha] at h
        exact absurd trivial (by simpa using h)
      · rw [ha] at hz
        simp only
        rw [assign_restore hs cs hz]
  · constructor
    · intro h
      obtain ⟨vs, hvs, -, hf, hz⟩ := C42_success s values h
      refine ⟨vs, hvs, ?_⟩
      have key : ∀ (cs cs' : List Comp) (vs : List Arg),
          List.Forall₂ (fun c a => Means c.1 a c.2) cs' vs → cs'.map (·.1) = cs.map (·.1) →
          ∀ p ∈ cs.zip vs, ∃ v, Means p.1.1 p.2 v := by
        intro cs cs' vs hf
        induction hf generalizing cs with
        | nil => intro _ p hp; simp at hp
        | cons hm _ ih =>
          intro hz p hp
          cases cs with
          | nil => simp at hp
          | cons c cs =>
            simp only [List.map_cons, List.cons.injEq] at hz
            simp only [List.zip_cons_cons, List.mem_cons] at hp
            rcases hp with rfl | hp
            · exact ⟨_, hz.1 ▸ hm⟩
            · exact ih cs hz.2 p hp
      exact key s.comps _ vs hf hz
    · rintro ⟨vs, hvs, hall⟩
      unfold setNorms
      rw [hvs]
      rcases ha : assign s.comps vs with ⟨cs, _ | e⟩
      · simp [ha]
      · obtain ⟨p, hp, he⟩ := assign_err (by rw [ha] : (assign s.comps vs).2 = some e)
        obtain ⟨v, hv⟩ := hall p hp
        rw [(C42_component _ _ _).mpr hv] at he
        cases he

theorem agrees_fresh (sizes : List Nat) : Agrees (fresh sizes) := by
  unfold Agrees fresh
  induction sizes with
  | nil => exact .nil
  | cons n ns ih => exact .cons rfl ih

theorem agrees_setNorms (s : St) (hs : Agrees s) (v : Option (List Arg)) :
    Agrees (setNorms s v).1 := by
  by_cases h : (setNorms s v).2 = none
  · obtain ⟨vs, -, h1, h2, -⟩ := C42_success s v h
    unfold Agrees
    rw [h1]
    exact h2.imp fun _ _ h => (C42_component _ _ _).mpr h
  · rw [(C42_atomic_partial s hs v).1 h]
    exact hs

/-- C42. From the construction on, as long as norms are only assigned through `norms`, every
assignment (also with invalid values) is all or nothing. -/
theorem C42_history_partial (sizes : List Nat) (h : List Op) (ho : OnlyNorms h)
    (values : Option (List Arg)) :
    let s := run (fresh sizes) h
    (setNorms s values).2 ≠ none → (setNorms s values).1 = s := by
  have key : ∀ (h : List Op) (s : St), OnlyNorms h → Agrees s → Agrees (run s h) := by
    intro h
    induction h with
    | nil => intro s _ hs; exact hs
    | cons o os ih =>
      intro s ho hs
      obtain ⟨v, rfl⟩ := ho o (by simp)
      exact ih _ (fun o' h' => ho o' (by simp [h'])) (agrees_setNorms s hs v)
  exact (C42_atomic_partial _ (key h _ ho (agrees_fresh sizes)) values).1

/-- C42 fails in general: after `reg.objfcts[1].norm = 0` a rejected assignment of `norms` also
resets that component. -/
theorem C42_component_edit_lost :
    ∃ (h : List Op) (values : Option (List Arg)),
      let s := run (fresh [2, 1]) h
      (setNorms s values).2 = some .valueError ∧ (setNorms s values).1.comps ≠ s.comps :=
  ⟨[.norms (some [.arr [1], .arr [1]]), .component 1 (.arr [0])],
    some [.arr [2], .arr [3]], by decide +kernel, by decide +kernel⟩

/-- C42 fails in general: after the caller changed the list they assigned, a rejected assignment
resets the components to the changed list. -/
theorem C42_list_edit_lost :
    ∃ (h : List Op) (values : Option (List Arg)),
      let s := run (fresh [2, 1]) h
      (setNorms s values).2 = some .valueError ∧ (setNorms s values).1.comps ≠ s.comps :=
  ⟨[.norms (some [.arr [1], .arr [1]]), .mutate 0 (.arr [0])],
    some [.arr [2], .arr [3]], by decide +kernel, by decide +kernel⟩

/-- A history to which the theorems apply: a valid and an invalid assignment. -/
example : OnlyNorms [.norms (some [.arr [1, 0], .none]), .norms (some [.arr [1], .arr [5 / 2]])] ∧
    run (fresh [2, 1]) [.norms (some [.arr [1, 0], .none]), .norms (some [.arr [1], .arr [5 / 2]])]
      = ⟨[(2, [1, 0]), (1, [2])], [.arr [1, 0], .none]⟩ := by
  refine ⟨?_, by decide +kernel⟩
  intro o ho
  simp only [List.mem_cons, List.not_mem_nil, or_false] at ho
  rcases ho with rfl | rfl <;> exact ⟨_, rfl⟩

end Props
end Verif.Reg.Norms
