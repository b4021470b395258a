import Mathlib.Data.List.Basic
import Mathlib.Tactic.NormNum
import Verif.Basic

/-! Model of `ComboObjectiveFunction.get_functions_of_type` (`simpeg/objective_function.py` 534-557) and of
the directives that use it (`simpeg/directives/_pgi_directives.py` 53-60 and 311-322), for C194. -/

namespace Verif
namespace Find

/-- An objective function: a single one, or a combination (an object of a subclass of
`ComboObjectiveFunction`) of others. `α` stands for the object itself. Multipliers play no part. -/
inductive Tree (α : Type) where
  | leaf (a : α)
  | combo (a : α) (cs : List (Tree α))

variable {α : Type}

/-- The object at the root. -/
def Tree.obj : Tree α → α
  | .leaf a => a
  | .combo a _ => a

/-- What the list of `get_functions_of_type` holds: a function, or a list. -/
inductive Res (α : Type) where
  | fn (t : Tree α)
  | list (l : List (Res α))

/-- `if fun` (`simpeg/objective_function.py` 557): lists and combinations have a length and are false when
they are empty; single functions are always true. -/
def truthy : Res α → Bool
  | .fn (.leaf _) => true
  | .fn (.combo _ cs) => !cs.isEmpty
  | .list l => !l.isEmpty

mutual
/-- `get_functions_of_type` (`simpeg/objective_function.py` 534-557); `p` is `isinstance(·, fun_class)`.
A method of combinations; single functions do not have it. -/
def find (p : α → Bool) : Tree α → List (Res α)
  | .leaf _ => []
  | .combo a cs => (if p a then [.fn (.combo a cs)] else findAll p cs).filter truthy
/-- The loop over `objfcts` (551-555): what comes back from a combination is added as one list. -/
def findAll (p : α → Bool) : List (Tree α) → List (Res α)
  | [] => []
  | .leaf a :: ts => (if p a then [.fn (.leaf a)] else []) ++ findAll p ts
  | .combo a cs :: ts => .list (find p (.combo a cs)) :: findAll p ts
end

/-- `PGI_UpdateParameters.initialize` (`simpeg/directives/_pgi_directives.py` 53-60) and
`PGI_BetaAlphaSchedule.pgi_regularization` (311-322): exactly one entry, which is taken; otherwise
`UserWarning` is raised. -/
def theOne (p : α → Bool) (reg : Tree α) : Except Err (Res α) :=
  match find p reg with
  | [r] => .ok r
  | _ => .error .exception

/-- The first use of what was taken, `self.pgi_reg.wiresmap` (65) or `alpha_pgi` (213): lists have no such
attributes. -/
def use : Res α → Except Err (Tree α)
  | .fn t => .ok t
  | .list _ => .error .attributeError

/-! ### Specification -/

mutual
/-- The outermost functions of a type, in order. -/
def outer (p : α → Bool) : Tree α → List (Tree α)
  | .leaf a => if p a then [.leaf a] else []
  | .combo a cs => if p a then [.combo a cs] else outerAll p cs
/-- The outermost functions of the terms. -/
def outerAll (p : α → Bool) : List (Tree α) → List (Tree α)
  | [] => []
  | t :: ts => outer p t ++ outerAll p ts
end

/-- Not a combination without terms. -/
def nonempty : Tree α → Bool
  | .leaf _ => true
  | .combo _ cs => !cs.isEmpty

mutual
/-- The functions in a result, lists opened. -/
def flat : Res α → List (Tree α)
  | .fn t => [t]
  | .list l => flatAll l
/-- The functions in a list of results. -/
def flatAll : List (Res α) → List (Tree α)
  | [] => []
  | r :: rs => flat r ++ flatAll rs
end

/-! ### Facts -/

theorem flatAll_append (l m : List (Res α)) : flatAll (l ++ m) = flatAll l ++ flatAll m := by
  induction l with
  | nil => rfl
  | cons r l ih => simp [flatAll, ih]

mutual
/-- Results of the search contain no empty combination and no empty list inside. -/
theorem find_flat (p : α → Bool) : ∀ (a : α) (cs : List (Tree α)),
    flatAll (find p (.combo a cs)) = (outer p (.combo a cs)).filter nonempty
  | a, cs => by
    rw [find]
    by_cases h : p a = true
    · simp only [h, if_true, outer]
      cases cs with
      | nil => simp [truthy, nonempty, flatAll]
      | cons t ts => simp [truthy, nonempty, flatAll, flat]
    · simp only [h, outer]
      exact findAll_flat p cs
theorem findAll_flat (p : α → Bool) : ∀ (ts : List (Tree α)),
    flatAll ((findAll p ts).filter truthy) = (outerAll p ts).filter nonempty
  | [] => rfl
  | .leaf a :: ts => by
    rw [findAll]
    simp only [outerAll, outer, List.filter_append, flatAll_append, findAll_flat p ts]
    congr 1
    by_cases h : p a = true
    · simp [h, List.filter, truthy, nonempty, flatAll, flat]
    · simp [h, flatAll]
  | .combo a cs :: ts => by
    rw [findAll]
    simp only [outerAll, List.filter_append]
    rw [List.filter_cons]
    by_cases h : truthy (Res.list (find p (.combo a cs))) = true
    · rw [if_pos h]
      simp only [flatAll, flat]
      rw [find_flat p a cs, findAll_flat p ts]
    · rw [if_neg h]
      have he : find p (.combo a cs) = [] := by
        simpa [truthy] using h
      have := find_flat p a cs
      rw [he] at this
      rw [← this, findAll_flat p ts]
      rfl
end

theorem findAll_leaves (p : α → Bool) : ∀ ts : List (Tree α), (∀ t ∈ ts, ∃ a, t = .leaf a) →
    findAll p ts = (ts.filter fun t => p t.obj).map .fn
  | [], _ => rfl
  | .leaf a :: ts, h => by
    rw [findAll, findAll_leaves p ts fun t ht => h t (List.mem_cons_of_mem _ ht), List.filter_cons]
    by_cases hp : p a = true
    · simp [hp, Tree.obj]
    · simp [hp, Tree.obj]
  | .combo a cs :: ts, h => by
    obtain ⟨b, hb⟩ := h _ (List.mem_cons_self ..)
    cases hb

theorem findAll_eq (p : α → Bool) : ∀ ts : List (Tree α), (∀ t ∈ ts, ∃ a cs, t = Tree.combo a cs) →
    findAll p ts = ts.map fun t => .list (find p t)
  | [], _ => rfl
  | .leaf a :: ts, h => by
    obtain ⟨b, cs, hb⟩ := h _ (List.mem_cons_self ..)
    cases hb
  | .combo a cs :: ts, h => by
    rw [findAll, findAll_eq p ts fun t ht => h t (List.mem_cons_of_mem _ ht)]
    rfl

/-! ### Theorems -/

/-- The functions of the search, with the lists opened, are the outermost functions of the type in the
tree, in order and without combinations that have no terms. -/
theorem C194_all (p : α → Bool) (a : α) (cs : List (Tree α)) :
    flatAll (find p (.combo a cs)) = (outer p (.combo a cs)).filter nonempty := find_flat p a cs

/-- A combination of single functions gives exactly its terms of the type; one of the type itself gives
itself only. -/
theorem C194_terms (p : α → Bool) (a : α) (cs : List (Tree α)) :
    (p a = false → (∀ t ∈ cs, ∃ b, t = .leaf b) →
      find p (.combo a cs) = (cs.filter fun t => p t.obj).map .fn) ∧
    (p a = true → cs ≠ [] → find p (.combo a cs) = [.fn (.combo a cs)]) := by
  constructor
  · intro h hl
    rw [find, h]
    simp only [Bool.false_eq_true, if_false]
    rw [findAll_leaves p cs hl, List.filter_eq_self]
    intro r hr
    obtain ⟨t, ht, rfl⟩ := List.mem_map.1 hr
    obtain ⟨b, rfl⟩ := hl t (List.mem_of_mem_filter ht)
    rfl
  · intro h hc
    rw [find, h]
    cases cs with
    | nil => exact absurd rfl hc
    | cons t ts => simp [truthy]

/-- With a combination of single functions the directives take the function of the type if there is
exactly one, and raise otherwise. -/
theorem C194_directive (p : α → Bool) (a : α) (cs : List (Tree α)) (h : p a = false)
    (hl : ∀ t ∈ cs, ∃ b, t = .leaf b) :
    (∀ t, cs.filter (fun t => p t.obj) = [t] →
      theOne p (.combo a cs) = .ok (.fn t) ∧ use (.fn t) = .ok t) ∧
    ((cs.filter fun t => p t.obj).length ≠ 1 → theOne p (.combo a cs) = .error .exception) := by
  have hf := (C194_terms p a cs).1 h hl
  constructor
  · intro t ht
    simp [theOne, hf, ht, use]
  · intro hn
    unfold theOne
    rw [hf]
    generalize cs.filter (fun t => p t.obj) = l at *
    match l with
    | [] => rfl
    | [t] => simp at hn
    | t :: u :: l => rfl

/-- The functions found in a combination inside another come as one list and not as functions: for every
sum of combinations the result has only lists. -/
theorem C194_violated_nested (p : α → Bool) (b : α) (hb : p b = false) (ts : List (Tree α))
    (h : ∀ t ∈ ts, ∃ a cs, t = Tree.combo a cs) :
    ∀ r ∈ find p (.combo b ts), ∃ l, r = .list l ∧ l ≠ [] := by
  intro r hr
  rw [find, hb] at hr
  simp only [Bool.false_eq_true, if_false] at hr
  rw [findAll_eq p ts h, List.mem_filter] at hr
  obtain ⟨hr, ht⟩ := hr
  obtain ⟨t, -, rfl⟩ := List.mem_map.1 hr
  exact ⟨_, rfl, by simpa [truthy] using ht⟩

/-- A petrophysical regularization in a sum with others: the directive accepts it, whether the combination
holds one function of the type or several or is of the type itself, and fails at its first use. -/
theorem C194_violated_sum (p : α → Bool) (b a : α) (cs others : List (Tree α)) (hb : p b = false)
    (ho : ∀ t ∈ others, ∃ c, t = .leaf c ∧ p c = false)
    (hc : (outer p (.combo a cs)).filter nonempty ≠ []) :
    ∃ r, theOne p (.combo b (.combo a cs :: others)) = .ok r ∧ use r = .error .attributeError ∧
      flat r = (outer p (.combo a cs)).filter nonempty := by
  have hn : find p (.combo a cs) ≠ [] := by
    intro e
    have := find_flat p a cs
    rw [e] at this
    exact hc this.symm
  have ho' : findAll p others = [] := by
    rw [findAll_leaves p others fun t ht => by obtain ⟨c, hc, -⟩ := ho t ht; exact ⟨c, hc⟩]
    have : others.filter (fun t => p t.obj) = [] := by
      rw [List.filter_eq_nil_iff]
      intro t ht
      obtain ⟨c, rfl, hc⟩ := ho t ht
      simp [Tree.obj, hc]
    rw [this]; rfl
  have hf : find p (.combo b (.combo a cs :: others)) = [.list (find p (.combo a cs))] := by
    rw [find, hb]
    simp only [Bool.false_eq_true, if_false]
    rw [findAll, ho']
    have : truthy (Res.list (find p (.combo a cs))) = true := by
      simp [truthy, hn]
    simp [this]
  refine ⟨.list (find p (.combo a cs)), by simp [theOne, hf], rfl, ?_⟩
  rw [flat]
  exact find_flat p a cs

/-- A combination without terms of the type is not found. -/
theorem C194_violated_empty (p : α → Bool) (a : α) : find p (.combo a []) = [] := by
  rw [find]
  split
  · simp [truthy]
  · simp [findAll]

/-- A regularization: a smallness of the type (`true`) with two others. -/
example : theOne (fun a : ℕ × Bool => a.2)
    (.combo (0, false) [.leaf (1, true), .leaf (2, false), .leaf (3, false)]) = .ok (.fn (.leaf (1, true))) := by
  simp [theOne, find, findAll, List.filter, truthy]

/-- The hypotheses of the last but one: that regularization plus a cross gradient. -/
example : (outer (fun a : ℕ × Bool => a.2)
    (.combo (0, false) [.leaf (1, true), .leaf (2, false)])).filter nonempty = [.leaf (1, true)] := by
  simp [outer, outerAll, nonempty]

end Find
end Verif
