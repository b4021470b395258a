import Verif.Basic
import Mathlib.Data.List.Infix
import Mathlib.Data.List.Sort
import Mathlib.Logic.Function.Basic

/-!
C183: hooks, memory of optimizations, keyword arguments and deprecated names. `call_hooks`, `set_kwargs`, `hook`,
`requires` and the deprecations (`simpeg/utils/code_utils.py`), `Remember` and the hooks of the end of an iteration
(`simpeg/optimization.py` 813-845, 853-906).

Names are lists of characters; the attributes of an object are a function of the names. Messages are not modelled.
-/

namespace Verif.Utils.Hooks

abbrev Text := List Char

/-! ### Model: hooks -/

/-- `[posible for posible in dir(self) if ("_" + match) in posible]` (code_utils 357-359, 368-370). -/
def hooksOf (dir : List Text) (name : Text) : List Text := dir.filter fun p => decide (('_' :: name) <:+: p)

/-- `for method in ...: getattr(self, method)(*args, **kwargs)`; what the methods return is dropped. -/
def callAll {S R : Type} (call : Text → S → Except Err (R × S)) : List Text → S → Except Err S
  | [], s => .ok s
  | p :: ps, s =>
    match call p s with
    | .error e => .error e
    | .ok (_, s') => callAll call ps s'

/-- The wrapper of `call_hooks` (code_utils 353-378). The names are found when the loop begins. -/
def wrapper {S R : Type} (dir : S → List Text) (call : Text → S → Except Err (R × S)) (name : Text)
    (main : S → Except Err (R × S)) (mainFirst : Bool) (s : S) : Except Err (R × S) :=
  if !mainFirst then
    match callAll call (hooksOf (dir s) name) s with
    | .error e => .error e
    | .ok s' => main s'
  else
    match main s with
    | .error e => .error e
    | .ok (out, s') =>
      match callAll call (hooksOf (dir s') name) s' with
      | .error e => .error e
      | .ok s'' => .ok (out, s'')

/-! ### Model: memory -/

/-- What is to be remembered: a name, a name with a function, or something else. `O` are the states of the
optimization. -/
inductive Param (O V : Type)
  | str (name : Text)
  | tuple (name : Text) (f : O → V)
  | other

/-- `_rememberList`: a dictionary. -/
abbrev Memory (V : Type) := Text → Option (List (Option V))

/-- `_startupRemember` (optimization 885-891). -/
def startup {O V : Type} (these : List (Param O V)) : Memory V :=
  these.foldl (fun mem p =>
    match p with
    | .str n => Function.update mem n (some [])
    | .tuple n _ => Function.update mem n (some [])
    | .other => mem) fun _ => none

/-- The value of a name (optimization 898-901): of the optimization, otherwise of the parent, if it has one. -/
def lookup {O V : Type} (attr : O → Text → Option V) (parent : O → Option (Text → Option V)) (n : Text) (o : O) :
    Option V :=
  match attr o n with
  | some v => some v
  | none =>
    match parent o with
    | some q => q n
    | none => none

/-- `self._rememberList[n].append(v)`. -/
def append {V : Type} (mem : Memory V) (n : Text) (v : Option V) : Except Err (Memory V) :=
  match mem n with
  | some l => .ok (Function.update mem n (some (l ++ [v])))
  | none => .error .keyError

/-- `_doEndIterationRemember` (optimization 893-906). -/
def endIteration {O V : Type} (attr : O → Text → Option V) (parent : O → Option (Text → Option V)) (o : O) :
    List (Param O V) → Memory V → Except Err (Memory V)
  | [], mem => .ok mem
  | .str n :: ps, mem =>
    match append mem n (lookup attr parent n o) with
    | .error e => .error e
    | .ok mem => endIteration attr parent o ps mem
  | .tuple n f :: ps, mem =>
    match append mem n (some (f o)) with
    | .error e => .error e
    | .ok mem => endIteration attr parent o ps mem
  | .other :: ps, mem => endIteration attr parent o ps mem

/-- The memory after iterations that end in the states `os`. -/
def run {O V : Type} (attr : O → Text → Option V) (parent : O → Option (Text → Option V))
    (these : List (Param O V)) : List O → Memory V → Except Err (Memory V)
  | [], mem => .ok mem
  | o :: os, mem =>
    match endIteration attr parent o these mem with
    | .error e => .error e
    | .ok mem => run attr parent these os mem

/-- The memory of a minimization whose iterations end in the states `os`. -/
def remembered {O V : Type} (attr : O → Text → Option V) (parent : O → Option (Text → Option V))
    (these : List (Param O V)) (os : List O) : Except Err (Memory V) :=
  run attr parent these os (startup these)

/-- `recall` (optimization 877-883). -/
def recall {V : Type} (mem : Memory V) (n : Text) : Except Err (List (Option V)) :=
  match mem n with
  | some l => .ok l
  | none => .error .assertionError

/-- The part of an optimization which the end of an iteration changes. -/
structure Opt (X : Type) where
  xc : X
  xLast : X
  iter : ℕ
  deriving DecidableEq

/-- `doEndIteration` itself, after the hooks (optimization 833-835). -/
def doEnd {X : Type} (xt : X) (o : Opt X) : Opt X := { xc := xt, xLast := o.xc, iter := o.iter + 1 }

/-- The states at which the hooks of the ends of the iterations run (the hooks are called before the function,
optimization 813), for accepted models `xs`. -/
def hookStates {X : Type} : Opt X → List X → List (Opt X)
  | _, [] => []
  | o, x :: xs => o :: hookStates (doEnd x o) xs

/-! ### Model: attributes -/

/-- `set_kwargs` (code_utils 156-179): the attributes afterwards, also after an error. -/
def setKwargs {V : Type} (ignore : List Text) : List (Text × V) → (Text → Option V) → Except Err Unit × (Text → Option V)
  | [], obj => (.ok (), obj)
  | (a, v) :: kw, obj =>
    if a ∈ ignore then setKwargs ignore kw obj
    else if (obj a).isSome then setKwargs ignore kw (Function.update obj a (some v))
    else (.error .exception, obj)

/-- `hook` (code_utils 146-154); `none` for the name of a lambda function. -/
def hook {V : Type} (obj : Text → Option V) (method : V) (methodName : Option Text) (name : Option Text)
    (overwrite : Bool) : Except Err (Text → Option V) :=
  match name.or methodName with
  | none => .error .exception
  | some n => if !(obj n).isSome || overwrite then .ok (Function.update obj n (some method)) else .ok obj

/-- `requires(var)` (code_utils 74-77); an attribute that is missing or `None` is `none`. -/
def requires {V S R : Type} (obj : Text → Option V) (var : Text) (f : S → Except Err R) (s : S) : Except Err R :=
  match obj var with
  | none => .error .exception
  | some _ => f s

/-- Categories of warnings. -/
inductive Warning | future | deprecation
  deriving DecidableEq

/-- A deprecated class, property, method or function (code_utils 560-568, 658-665, 667-674, 713-720, 769-776): the
warning and the result. -/
def deprecated {S R : Type} (futureWarn error : Bool) (f : S → Except Err R) (s : S) :
    Option Warning × Except Err R :=
  if futureWarn then (some .future, f s)
  else if error then (none, .error .exception)
  else (some .deprecation, f s)

/-! ### C183: hooks -/

/-- The journal of a state, to which every call adds. -/
theorem callAll_log {S R L : Type} (call : Text → S → Except Err (R × S)) (log : S → List L) (entry : Text → L)
    (hlog : ∀ p s r s', call p s = .ok (r, s') → log s' = log s ++ [entry p]) (ps : List Text) (s s' : S)
    (h : callAll call ps s = .ok s') : log s' = log s ++ ps.map entry := by
  induction ps generalizing s with
  | nil => simp only [callAll, Except.ok.injEq] at h; subst h; simp
  | cons p ps ih =>
    unfold callAll at h
    split at h
    · cases h
    · rename_i r s1 h1
      rw [ih s1 h, hlog p s r s1 h1]
      simp

/-- **C183, hooks**: in every call that succeeds, each attribute whose name contains `_` and the name is called
exactly once, in the order of `dir`, all of them before the function (or after it with `mainFirst`), and the result
is that of the function. `log` is any journal to which the calls add. -/
theorem C183_hooks {S R L : Type} (dir : S → List Text) (call : Text → S → Except Err (R × S)) (name : Text)
    (main : S → Except Err (R × S)) (log : S → List L) (entry : Text → L) (mainEntry : L)
    (hlog : ∀ p s r s', call p s = .ok (r, s') → log s' = log s ++ [entry p])
    (hmain : ∀ s r s', main s = .ok (r, s') → log s' = log s ++ [mainEntry]) (s s' : S) (r : R) :
    (wrapper dir call name main false s = .ok (r, s') →
      log s' = log s ++ ((dir s).filter fun p => decide (('_' :: name) <:+: p)).map entry ++ [mainEntry] ∧
      ∃ t, main t = .ok (r, s')) ∧
    (wrapper dir call name main true s = .ok (r, s') → ∃ t, main s = .ok (r, t) ∧
      log s' = log s ++ [mainEntry] ++ ((dir t).filter fun p => decide (('_' :: name) <:+: p)).map entry) := by
  constructor
  · intro h
    simp only [wrapper, Bool.not_false, if_true] at h
    split at h
    · cases h
    · rename_i t ht
      exact ⟨by rw [hmain t r s' h, callAll_log call log entry hlog _ s t ht]; rfl, t, h⟩
  · intro h
    simp only [wrapper, Bool.not_true, Bool.false_eq_true, if_false] at h
    split at h
    · cases h
    · rename_i out t ht
      split at h
      · cases h
      · rename_i u hu
        simp only [Except.ok.injEq, Prod.mk.injEq] at h
        obtain ⟨rfl, rfl⟩ := h
        exact ⟨t, ht, by rw [callAll_log call log entry hlog _ t _ hu, hmain s _ t ht]; rfl⟩

/-- **C183, errors of hooks**: an error of a hook ends the call; the function is not called. -/
theorem C183_hook_error {S R : Type} (dir : S → List Text) (call : Text → S → Except Err (R × S)) (name : Text)
    (main : S → Except Err (R × S)) (s t : S) (before after : List Text) (p : Text) (e : Err)
    (hd : (dir s).filter (fun p => decide (('_' :: name) <:+: p)) = before ++ p :: after)
    (hb : callAll call before s = .ok t) (hp : call p t = .error e) :
    wrapper dir call name main false s = .error e := by
  have key : ∀ (ps : List Text) (s : S), callAll call ps s = .ok t → callAll call (ps ++ p :: after) s = .error e := by
    intro ps
    induction ps with
    | nil =>
      intro s h
      simp only [callAll, Except.ok.injEq] at h
      subst h
      simp [callAll, hp]
    | cons q ps ih =>
      intro s h
      unfold callAll at h
      rw [List.cons_append]
      unfold callAll
      generalize call q s = c at h
      match c, h with
      | .ok (r, s1), h => exact ih s1 h
  simp only [wrapper, Bool.not_false, if_true, hooksOf]
  rw [hd, key before s hb]

/-- **C183, violated**: the documented names are those which begin with `_` and the name; a method with a longer
beginning is called too. -/
theorem C183_violated_infix (name pre post : Text) (dir : List Text) (h : pre ++ ('_' :: name) ++ post ∈ dir) :
    pre ++ ('_' :: name) ++ post ∈ hooksOf dir name := by
  unfold hooksOf
  rw [List.mem_filter]
  exact ⟨h, by simp only [decide_eq_true_eq]; exact ⟨pre, post, rfl⟩⟩

/-- **C183, violated**: what hooks return is dropped, so a hook of the projection cannot project: with hooks that
change nothing in the object the result is the model. -/
theorem C183_violated_projection {S X : Type} (dir : S → List Text) (x : X) (proj : Text → X → X) (s : S) :
    wrapper dir (fun p s => .ok (proj p x, s)) "projection".toList (fun s => .ok (x, s)) false s = .ok (x, s) := by
  have : ∀ ps : List Text, callAll (fun p s => Except.ok (proj p x, s)) ps s = .ok s := by
    intro ps
    induction ps with
    | nil => rfl
    | cons p ps ih => simpa [callAll] using ih
  simp only [wrapper, Bool.not_false, if_true, this]

/-! ### C183: memory -/

/-- The name of something to be remembered. -/
def Param.name? {O V : Type} : Param O V → Option Text
  | .str n => some n
  | .tuple n _ => some n
  | .other => none

/-- The value of something to be remembered in a state: the attribute or the parent's, or the function's. -/
def Param.value {O V : Type} (attr : O → Text → Option V) (parent : O → Option (Text → Option V)) (o : O) :
    Param O V → Option V
  | .str n => (attr o n).or ((parent o).bind fun q => q n)
  | .tuple _ f => some (f o)
  | .other => none

theorem lookup_eq {O V : Type} (attr : O → Text → Option V) (parent : O → Option (Text → Option V)) (n : Text)
    (o : O) : lookup attr parent n o = (attr o n).or ((parent o).bind fun q => q n) := by
  unfold lookup
  cases attr o n with
  | some v => rfl
  | none => cases parent o <;> rfl

theorem startup_at {O V : Type} (these : List (Param O V)) (n : Text) :
    startup these n = if ∃ p ∈ these, p.name? = some n then some [] else none := by
  have key : ∀ (ps : List (Param O V)) (mem : Memory V), (ps.foldl (fun mem p =>
    match p with
    | .str n => Function.update mem n (some [])
    | .tuple n _ => Function.update mem n (some [])
    | .other => mem) mem) n = if ∃ p ∈ ps, p.name? = some n then some [] else mem n := by
    intro ps
    induction ps with
    | nil => intro mem; simp
    | cons p ps ih =>
      intro mem
      rw [List.foldl_cons, ih]
      by_cases h1 : ∃ p ∈ ps, p.name? = some n
      · rw [if_pos h1, if_pos (by obtain ⟨q, hq, hn⟩ := h1; exact ⟨q, List.mem_cons_of_mem _ hq, hn⟩)]
      · rw [if_neg h1]
        by_cases h2 : p.name? = some n
        · rw [if_pos ⟨p, List.mem_cons_self, h2⟩]
          cases p <;> simp_all [Param.name?]
        · rw [if_neg (by
            rintro ⟨q, hq, hn⟩
            rcases List.mem_cons.mp hq with rfl | hq
            · exact h2 hn
            · exact h1 ⟨q, hq, hn⟩)]
          cases p with
          | other => rfl
          | str k => simp only [Param.name?, Option.some.injEq] at h2; simp [Function.update, Ne.symm h2]
          | tuple k f => simp only [Param.name?, Option.some.injEq] at h2; simp [Function.update, Ne.symm h2]
  exact key these _

/-- What a state adds to a name. -/
def added {O V : Type} (attr : O → Text → Option V) (parent : O → Option (Text → Option V))
    (ps : List (Param O V)) (n : Text) (o : O) : List (Option V) :=
  (ps.filter fun p => decide (p.name? = some n)).map (Param.value attr parent o)

theorem endIteration_ok {O V : Type} (attr : O → Text → Option V) (parent : O → Option (Text → Option V)) (o : O)
    (ps : List (Param O V)) (mem : Memory V) (hm : ∀ p ∈ ps, ∀ n, p.name? = some n → (mem n).isSome) :
    ∃ mem', endIteration attr parent o ps mem = .ok mem' ∧
      ∀ n, mem' n = (mem n).map (· ++ added attr parent ps n o) := by
  induction ps generalizing mem with
  | nil => exact ⟨mem, rfl, fun n => by simp [added]⟩
  | cons p ps ih =>
    have step : ∀ (k : Text) (v : Option V), p.name? = some k → v = p.value attr parent o →
        ∃ mem1, append mem k v = .ok mem1 ∧ ∃ mem', endIteration attr parent o ps mem1 = .ok mem' ∧
          ∀ n, mem' n = (mem n).map (· ++ added attr parent (p :: ps) n o) := by
      intro k v hk hv
      obtain ⟨l, hl⟩ := Option.isSome_iff_exists.mp (hm p List.mem_cons_self k hk)
      refine ⟨Function.update mem k (some (l ++ [v])), by simp [append, hl], ?_⟩
      obtain ⟨mem', h1, h2⟩ := ih (Function.update mem k (some (l ++ [v]))) (by
        intro q hq n hn
        by_cases hnk : n = k
        · subst hnk; simp
        · rw [Function.update_of_ne hnk]; exact hm q (List.mem_cons_of_mem _ hq) n hn)
      refine ⟨mem', h1, fun n => ?_⟩
      rw [h2 n]
      by_cases hnk : n = k
      · subst hnk
        rw [Function.update_self, hl]
        simp [added, hk, hv]
      · rw [Function.update_of_ne hnk]
        have : ¬ p.name? = some n := by rw [hk]; simp [Ne.symm hnk]
        simp [added, this]
    cases p with
    | other =>
      obtain ⟨mem', h1, h2⟩ := ih mem fun q hq => hm q (List.mem_cons_of_mem _ hq)
      exact ⟨mem', h1, fun n => by rw [h2 n]; simp [added, Param.name?]⟩
    | str k =>
      obtain ⟨mem1, h0, mem', h1, h2⟩ := step k (lookup attr parent k o) rfl (lookup_eq _ _ _ _)
      exact ⟨mem', by simp only [endIteration, h0, h1], h2⟩
    | tuple k f =>
      obtain ⟨mem1, h0, mem', h1, h2⟩ := step k (some (f o)) rfl rfl
      exact ⟨mem', by simp only [endIteration, h0, h1], h2⟩

theorem remembered_ok {O V : Type} (attr : O → Text → Option V) (parent : O → Option (Text → Option V))
    (these : List (Param O V)) (os : List O) :
    ∃ mem, remembered attr parent these os = .ok mem ∧
      ∀ n, mem n = (startup these n).map (· ++ os.flatMap (added attr parent these n)) := by
  have key : ∀ (os : List O) (mem : Memory V),
      (∀ p ∈ these, ∀ n, p.name? = some n → (mem n).isSome) →
      ∃ mem', run attr parent these os mem = .ok mem' ∧
        ∀ n, mem' n = (mem n).map (· ++ os.flatMap (added attr parent these n)) := by
    intro os
    induction os with
    | nil => intro mem _; exact ⟨mem, rfl, fun n => by simp⟩
    | cons o os ih =>
      intro mem hm
      obtain ⟨mem1, h1, h2⟩ := endIteration_ok attr parent o these mem hm
      obtain ⟨mem', h3, h4⟩ := ih mem1 (by
        intro p hp n hn
        rw [h2 n, Option.isSome_map]
        exact hm p hp n hn)
      refine ⟨mem', by unfold run; simp only [h1]; exact h3, fun n => ?_⟩
      rw [h4 n, h2 n, Option.map_map]
      congr 1
      funext l
      simp [List.flatMap_cons]
  refine key os (startup these) ?_
  intro p hp n hn
  rw [startup_at, if_pos ⟨p, hp, hn⟩]; rfl

/-- **C183, memory**: after any number of iterations, what was asked to be remembered once is recalled with one
value for each iteration, in their order: the attribute (of the parent if the optimization has none) or the value
of the function. -/
theorem C183_recall {O V : Type} (attr : O → Text → Option V) (parent : O → Option (Text → Option V))
    (these : List (Param O V)) (os : List O) (n : Text) (p : Param O V)
    (hp : these.filter (fun q => decide (q.name? = some n)) = [p]) :
    ∃ mem, remembered attr parent these os = .ok mem ∧
      recall mem n = .ok (os.map (Param.value attr parent · p)) := by
  obtain ⟨mem, h1, h2⟩ := remembered_ok attr parent these os
  refine ⟨mem, h1, ?_⟩
  have hmem : p ∈ these.filter (fun q => decide (q.name? = some n)) := by rw [hp]; exact List.mem_singleton.mpr rfl
  rw [List.mem_filter] at hmem
  have hs : startup these n = some [] := by
    rw [startup_at, if_pos ⟨p, hmem.1, by simpa using hmem.2⟩]
  unfold recall
  rw [h2 n, hs]
  simp only [Option.map_some, List.nil_append]
  congr 1
  have : ∀ o, added attr parent these n o = [Param.value attr parent o p] := by
    intro o; unfold added; rw [hp]; rfl
  have flat : ∀ os : List O, os.flatMap (added attr parent these n) = os.map (Param.value attr parent · p) := by
    intro os
    induction os with
    | nil => rfl
    | cons o os ih => rw [List.flatMap_cons, this, List.map_cons, ih]; rfl
  exact flat os

/-- **C183, memory**: what was not asked for is refused; every minimization begins with an empty memory. -/
theorem C183_forgotten {O V : Type} (attr : O → Text → Option V) (parent : O → Option (Text → Option V))
    (these : List (Param O V)) (os : List O) (n : Text) (hp : ∀ p ∈ these, p.name? ≠ some n) :
    (∃ mem, remembered attr parent these os = .ok mem ∧ recall mem n = .error .assertionError) ∧
    ∀ mem, remembered attr parent these [] = .ok mem → ∀ k l, recall mem k = .ok l → l = [] := by
  constructor
  · obtain ⟨mem, h1, h2⟩ := remembered_ok attr parent these os
    refine ⟨mem, h1, ?_⟩
    have hs : startup these n = none := by
      rw [startup_at, if_neg]
      rintro ⟨p, hpm, hn⟩
      exact hp p hpm hn
    unfold recall
    rw [h2 n, hs]
    rfl
  · intro mem hm k l hl
    have : startup these = mem := by simpa [remembered, run] using hm
    subst this
    unfold recall at hl
    rw [startup_at] at hl
    split_ifs at hl
    · simpa using hl.symm

/-- **C183, violated**: something asked for twice is remembered twice in each iteration. -/
theorem C183_violated_twice {O V : Type} (attr : O → Text → Option V) (parent : O → Option (Text → Option V))
    (n : Text) (os : List O) :
    ∃ mem l, remembered attr parent [.str n, .str n] os = .ok mem ∧ recall mem n = .ok l ∧
      l.length = 2 * os.length := by
  obtain ⟨mem, h1, h2⟩ := remembered_ok attr parent [Param.str n, .str n] os
  refine ⟨mem, os.flatMap (added attr parent [.str n, .str n] n), h1, ?_, ?_⟩
  · unfold recall
    rw [h2 n, startup_at, if_pos ⟨.str n, by simp, rfl⟩]
    simp
  · clear h1 h2
    induction os with
    | nil => rfl
    | cons o os ih =>
      rw [List.flatMap_cons, List.length_append, ih]
      simp [added, Param.name?]
      omega

/-- **C183, violated**: the current model that is remembered at the end of an iteration is the one before the
iteration, and its number too: the hooks run first. The last accepted model is not in the memory. -/
theorem C183_violated_late {X : Type} (o : Opt X) (xs : List X) :
    (hookStates o xs).map (·.xc) = (o.xc :: xs).take xs.length ∧
    (hookStates o xs).map (·.iter) = List.range' o.iter xs.length := by
  induction xs generalizing o with
  | nil => exact ⟨rfl, rfl⟩
  | cons x xs ih =>
    obtain ⟨h1, h2⟩ := ih (doEnd x o)
    constructor
    · simp only [hookStates, List.map_cons, h1, List.length_cons, List.take_succ_cons]
      rfl
    · simp only [hookStates, List.map_cons, h2, List.length_cons, List.range'_succ]
      rfl

/-! ### C183: attributes -/

/-- **C183, keyword arguments**: they are accepted exactly if every name is an attribute or ignored. Then each
attribute has the last value given for it, and all others have what they had. -/
theorem C183_kwargs {V : Type} (ignore : List Text) (kw : List (Text × V)) (obj : Text → Option V) :
    ((setKwargs ignore kw obj).1 = .ok () ↔ ∀ p ∈ kw, p.1 ∈ ignore ∨ (obj p.1).isSome) ∧
    ((setKwargs ignore kw obj).1 = .ok () → (kw.map Prod.fst).Nodup →
      (∀ p ∈ kw, p.1 ∉ ignore → (setKwargs ignore kw obj).2 p.1 = some p.2) ∧
      ∀ n, (n ∈ ignore ∨ n ∉ kw.map Prod.fst) → (setKwargs ignore kw obj).2 n = obj n) := by
  induction kw generalizing obj with
  | nil => simp [setKwargs]
  | cons q kw ih =>
    obtain ⟨a, v⟩ := q
    unfold setKwargs
    by_cases h1 : a ∈ ignore
    · rw [if_pos h1]
      obtain ⟨i1, i2⟩ := ih obj
      refine ⟨?_, ?_⟩
      · rw [i1]; simp [h1]
      · intro hok hnd
        simp only [List.map_cons, List.nodup_cons] at hnd
        obtain ⟨j1, j2⟩ := i2 hok hnd.2
        refine ⟨?_, ?_⟩
        · intro p hp hi
          rcases List.mem_cons.mp hp with rfl | hp
          · exact absurd h1 hi
          · exact j1 p hp hi
        · intro n hn
          refine j2 n ?_
          rcases hn with hn | hn
          · exact Or.inl hn
          · simp only [List.map_cons, List.mem_cons, not_or] at hn
            exact Or.inr hn.2
    · rw [if_neg h1]
      by_cases h2 : (obj a).isSome
      · rw [if_pos h2]
        obtain ⟨i1, i2⟩ := ih (Function.update obj a (some v))
        have hsome : ∀ n, (Function.update obj a (some v) n).isSome ↔ (obj n).isSome := by
          intro n
          by_cases hn : n = a
          · subst hn; simp [h2]
          · rw [Function.update_of_ne hn]
        refine ⟨?_, ?_⟩
        · rw [i1]
          simp only [hsome]
          constructor
          · intro h p hp
            rcases List.mem_cons.mp hp with rfl | hp
            · exact Or.inr h2
            · exact h p hp
          · exact fun h p hp => h p (List.mem_cons_of_mem _ hp)
        · intro hok hnd
          simp only [List.map_cons, List.nodup_cons] at hnd
          obtain ⟨j1, j2⟩ := i2 hok hnd.2
          refine ⟨?_, ?_⟩
          · intro p hp hi
            rcases List.mem_cons.mp hp with rfl | hp
            · rw [j2 a (Or.inr hnd.1), Function.update_self]
            · exact j1 p hp hi
          · intro n hn
            have hna : n ≠ a := by
              rintro rfl
              rcases hn with hn | hn
              · exact h1 hn
              · exact hn (by simp)
            rw [j2 n, Function.update_of_ne hna]
            rcases hn with hn | hn
            · exact Or.inl hn
            · simp only [List.map_cons, List.mem_cons, not_or] at hn
              exact Or.inr hn.2
      · rw [if_neg h2]
        refine ⟨?_, ?_⟩
        · constructor
          · intro h; cases h
          · intro h
            rcases h (a, v) List.mem_cons_self with h3 | h3
            · exact absurd h3 h1
            · exact absurd h3 h2
        · intro h; cases h

/-- **C183, violated**: keyword arguments which are refused have already changed the object. -/
theorem C183_violated_kwargs {V : Type} (ignore : List Text) (a b : Text) (v w : V) (obj : Text → Option V)
    (ha : a ∉ ignore) (hb : b ∉ ignore) (ha' : (obj a).isSome) (hb' : obj b = none) :
    setKwargs ignore [(a, v), (b, w)] obj = (.error .exception, Function.update obj a (some v)) := by
  have hne : b ≠ a := by rintro rfl; rw [hb'] at ha'; cases ha'
  simp [setKwargs, ha, hb, ha', Function.update_of_ne hne, hb']

/-- **C183, hooks of objects**: a method is bound to the name, unless it is there and is not to be overwritten; other
attributes stay. A lambda function needs a name. -/
theorem C183_hook {V : Type} (obj : Text → Option V) (method : V) (methodName name : Option Text)
    (overwrite : Bool) :
    (hook obj method methodName name overwrite = .error .exception ↔ name = none ∧ methodName = none) ∧
    ∀ obj', hook obj method methodName name overwrite = .ok obj' →
      ∃ n, name.or methodName = some n ∧ (∀ k, k ≠ n → obj' k = obj k) ∧
        obj' n = if overwrite ∨ obj n = none then some method else obj n := by
  constructor
  · unfold hook
    cases name <;> cases methodName <;> simp <;> split_ifs <;> simp
  · intro obj' h
    unfold hook at h
    split at h
    · cases h
    · rename_i n hn
      refine ⟨n, hn, ?_⟩
      split_ifs at h with hc
      · simp only [Except.ok.injEq] at h
        subst h
        refine ⟨fun k hk => Function.update_of_ne hk _ _, ?_⟩
        rw [Function.update_self, if_pos]
        cases ho : obj n <;> simp_all
      · simp only [Except.ok.injEq] at h
        subst h
        refine ⟨fun _ _ => rfl, ?_⟩
        rw [if_neg]
        cases ho : obj n <;> simp_all

/-- **C183, requirements**: a method is called exactly if the attribute is there, with its own result. -/
theorem C183_requires {V S R : Type} (obj : Text → Option V) (var : Text) (f : S → Except Err R) (s : S) :
    requires obj var f s = if (obj var).isSome then f s else .error .exception := by
  unfold requires
  cases obj var <;> rfl

/-- **C183, deprecated names**: what is deprecated still gives the result of what it is replaced by, with a warning,
or is refused; never silently. -/
theorem C183_deprecated {S R : Type} (futureWarn error : Bool) (f : S → Except Err R) (s : S) :
    (error = false → (deprecated futureWarn error f s).2 = f s ∧ (deprecated futureWarn error f s).1 ≠ none) ∧
    (futureWarn = false → error = true → deprecated futureWarn error f s = (none, .error .exception)) := by
  cases futureWarn <;> cases error <;> simp [deprecated]

/-- **C183, violated**: with both a warning of the future and an error asked for, there is no error, although the
message says that the name has been removed. -/
theorem C183_violated_both {S R : Type} (f : S → Except Err R) (s : S) :
    deprecated true true f s = (some .future, f s) := rfl

/-! ### Examples -/

/-- Hooks of the optimizations in the order of `dir`. -/
example : hooksOf ["_doEndIterationRemember".toList, "_doEndIteration_BFGS".toList, "doEndIteration".toList,
    "f".toList] "doEndIteration".toList
    = ["_doEndIterationRemember".toList, "_doEndIteration_BFGS".toList] := by decide

/-- Two iterations with a name and a function. -/
example : ∃ mem, remembered (O := ℕ) (V := ℕ) (fun o n => if n = ['f'] then some o else none) (fun _ => none)
    [.str ['f'], .tuple ['g'] (· + 1), .other] [5, 7] = .ok mem ∧ recall mem ['g'] = .ok [some 6, some 8] :=
  C183_recall _ _ _ [5, 7] ['g'] (.tuple ['g'] (· + 1)) (by simp [Param.name?])

end Verif.Utils.Hooks
