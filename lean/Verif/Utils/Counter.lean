import Verif.Basic
import Mathlib.Data.Real.Basic
import Mathlib.Algebra.BigOperators.Group.List.Basic
import Mathlib.Tactic.Ring
import Mathlib.Tactic.Linarith
import Mathlib.Tactic.NormNum

/-!
# Counters and timers of method calls

Model of `Counter`, `count` and `timeIt`, `/repo/simpeg/utils/counter_utils.py`. The clock is any
sequence of readings. Not modelled: the text `summary` prints (only the numbers in it).
-/

noncomputable section
namespace Verif.Utils.Counter

/-- `Counter.__init__`, `counter_utils.py` 42-44: counts and times by name; a missing name is `none`. -/
structure Counter where
  counts : String → Option ℕ
  times : String → Option (List ℝ)

/-- A new counter. -/
def new : Counter := ⟨fun _ => none, fun _ => none⟩

/-- `Counter.count`, `counter_utils.py` 46-57. -/
def count (c : Counter) (p : String) : Counter :=
  { c with counts := Function.update c.counts p (some ((c.counts p).getD 0 + 1)) }

/-- `Counter.countTic`, `counter_utils.py` 59-70; `t` is the reading of the clock. -/
def tic (c : Counter) (p : String) (t : ℝ) : Counter :=
  { c with times := Function.update c.times p (some ((c.times p).getD [] ++ [-t])) }

/-- Adds to the last entry of a list. -/
def addLast (l : List ℝ) (t : ℝ) : Except Err (List ℝ) :=
  match l.getLast? with
  | none => .error .indexError
  | some x => .ok (l.dropLast ++ [x + t])

/-- `Counter.countToc`, `counter_utils.py` 72-82. -/
def toc (c : Counter) (p : String) (t : ℝ) : Except Err Counter :=
  match c.times p with
  | none => .error .assertionError
  | some l => do
    let l' ← addLast l t
    .ok { c with times := Function.update c.times p (some l') }

/-- What happens to a counter. -/
inductive Ev
  | count (p : String)
  | tic (p : String) (t : ℝ)
  | toc (p : String) (t : ℝ)

def step (c : Counter) : Ev → Except Err Counter
  | .count p => .ok (count c p)
  | .tic p t => .ok (tic c p t)
  | .toc p t => toc c p t

def run (c : Counter) (l : List Ev) : Except Err Counter := l.foldlM step c

/-- The numbers `summary` prints for a timer, `counter_utils.py` 91-98: mean, sum, number. -/
def summary (c : Counter) (p : String) : Option (ℝ × ℝ × ℕ) :=
  (c.times p).map fun l => (l.sum / l.length, l.sum, l.length)

/-- The name of a method of an object, `counter_utils.py` 113, 134, 137. -/
def name (cls f : String) : String := cls ++ "." ++ f

/-- Calls of decorated methods during an execution, in order: each with its decorator, its name, the
clock when it starts and when it ends, whether it ends with an exception, and the calls made by it. -/
inductive Calls
  | nil
  | call (timed : Bool) (p : String) (t0 t1 : ℝ) (fails : Bool) (body rest : Calls)

/-- What the decorators `count` and `timeIt` do to the counter, `counter_utils.py` 110-116, 131-139: a
call that ends with an exception does not stop its timer. -/
def Calls.events : Calls → List Ev
  | .nil => []
  | .call timed p t0 t1 fails body rest =>
    (if timed then [.tic p t0] else [.count p]) ++ body.events ++
      (if timed && !fails then [.toc p t1] else []) ++ rest.events

/-! ## Specification -/

/-- A call: decorator, name, start, end. -/
structure Call where
  timed : Bool
  name : String
  start : ℝ
  stop : ℝ

/-- All calls, in the order of their starts. -/
def Calls.all : Calls → List Call
  | .nil => []
  | .call timed p t0 t1 _ body rest => ⟨timed, p, t0, t1⟩ :: (body.all ++ rest.all)

/-- No call ends with an exception. -/
def Calls.fine : Calls → Prop
  | .nil => True
  | .call _ _ _ _ fails body rest => fails = false ∧ body.fine ∧ rest.fine

/-- No timed call of a name is made during another one of that name. -/
def Calls.flat (p : String) : Calls → Prop
  | .nil => True
  | .call timed q _ _ _ body rest =>
    (timed = true ∧ q = p → ∀ c ∈ body.all, ¬ (c.timed = true ∧ c.name = p)) ∧ body.flat p ∧ rest.flat p

/-- Durations of the timed calls of a name. -/
def durations (p : String) (l : List Call) : List ℝ :=
  (l.filter fun c => c.timed && (c.name = p)).map fun c => c.stop - c.start

/-- Number of counted calls of a name. -/
def counted (p : String) (l : List Call) : ℕ := (l.filter fun c => !c.timed && (c.name = p)).length

/-! ## Any history -/

/-- Events as changes of one name. -/
def nCount (p : String) : List Ev → ℕ
  | [] => 0
  | .count q :: l => (if q = p then 1 else 0) + nCount p l
  | _ :: l => nCount p l

def nTic (p : String) : List Ev → ℕ
  | [] => 0
  | .tic q _ :: l => (if q = p then 1 else 0) + nTic p l
  | _ :: l => nTic p l

/-- Readings at the ends minus readings at the starts. -/
def balance (p : String) : List Ev → ℝ
  | [] => 0
  | .tic q t :: l => (if q = p then -t else 0) + balance p l
  | .toc q t :: l => (if q = p then t else 0) + balance p l
  | _ :: l => balance p l

theorem addLast_ok (l : List ℝ) (t : ℝ) (h : l ≠ []) :
    ∃ l', addLast l t = .ok l' ∧ l'.length = l.length ∧ l'.sum = l.sum + t ∧ l' ≠ [] := by
  obtain ⟨a, x, rfl⟩ := List.eq_nil_or_concat l |>.resolve_left h
  refine ⟨a ++ [x + t], by simp [addLast], by simp, by simp; ring, by simp⟩

theorem step_inv (c c' : Counter) (e : Ev) (h : step c e = .ok c') (p : String) :
    (c'.counts p).getD 0 = (c.counts p).getD 0 + nCount p [e] ∧
    ((c'.times p).getD []).length = ((c.times p).getD []).length + nTic p [e] ∧
    ((c'.times p).getD []).sum = ((c.times p).getD []).sum + balance p [e] := by
  cases e with
  | count q =>
    cases h
    by_cases hq : q = p
    · subst hq; simp [count, nCount, nTic, balance]
    · simp [count, nCount, nTic, balance, hq, Function.update_of_ne (Ne.symm hq)]
  | tic q t =>
    cases h
    by_cases hq : q = p
    · subst hq; simp [tic, nCount, nTic, balance]
    · simp [tic, nCount, nTic, balance, hq, Function.update_of_ne (Ne.symm hq)]
  | toc q t =>
    simp only [step, toc] at h
    cases hl : c.times q with
    | none => simp [hl] at h
    | some l =>
      rw [hl] at h
      by_cases h0 : l = []
      · subst h0; simp [addLast, bind, Except.bind] at h
      · obtain ⟨l', e1, e2, e3, -⟩ := addLast_ok l t h0
        simp only [e1, bind, Except.bind] at h
        cases h
        by_cases hq : q = p
        · subst hq; simp [nCount, nTic, balance, hl, e2, e3]
        · simp [nCount, nTic, balance, hq, Function.update_of_ne (Ne.symm hq)]

theorem nCount_cons (p e l) : nCount p (e :: l) = nCount p [e] + nCount p l := by
  cases e <;> simp [nCount]

theorem nTic_cons (p e l) : nTic p (e :: l) = nTic p [e] + nTic p l := by
  cases e <;> simp [nTic]

theorem balance_cons (p e l) : balance p (e :: l) = balance p [e] + balance p l := by
  cases e <;> simp [balance]

/-- **C170**, any history. However the calls of threads or recursions are interleaved: the count of
every name is the number of counted calls, its number of times is the number of starts, and its total
time is the sum of the readings at the ends minus that of the readings at the starts. -/
theorem C170_history (c c' : Counter) (l : List Ev) (h : run c l = .ok c') (p : String) :
    (c'.counts p).getD 0 = (c.counts p).getD 0 + nCount p l ∧
    ((c'.times p).getD []).length = ((c.times p).getD []).length + nTic p l ∧
    ((c'.times p).getD []).sum = ((c.times p).getD []).sum + balance p l := by
  induction l generalizing c with
  | nil =>
    cases h
    simp [nCount, nTic, balance]
  | cons e l ih =>
    rw [run, List.foldlM_cons] at h
    cases hs : step c e with
    | error x => simp [hs, bind, Except.bind] at h
    | ok d =>
      simp only [hs, bind, Except.bind] at h
      obtain ⟨a1, a2, a3⟩ := step_inv c d e hs p
      obtain ⟨b1, b2, b3⟩ := ih d h
      rw [nCount_cons, nTic_cons, balance_cons, b1, b2, b3, a1, a2, a3]
      refine ⟨by omega, by omega, by ring⟩

/-- A stop needs a start before it. -/
def Started : List Ev → Prop
  | l => ∀ pre p t post, l = pre ++ .toc p t :: post → ∃ s, .tic p s ∈ pre

theorem times_grow (c c' : Counter) (e : Ev) (h : step c e = .ok c') (p : String) (l : List ℝ)
    (hp : c.times p = some l) (h0 : l ≠ []) : ∃ l', c'.times p = some l' ∧ l' ≠ [] := by
  cases e with
  | count q => cases h; exact ⟨l, hp, h0⟩
  | tic q t =>
    cases h
    by_cases hq : q = p
    · subst hq; exact ⟨l ++ [-t], by simp [tic, hp], by simp⟩
    · exact ⟨l, by simp [tic, Function.update_of_ne (Ne.symm hq), hp], h0⟩
  | toc q t =>
    simp only [step, toc] at h
    cases hl : c.times q with
    | none => simp [hl] at h
    | some m =>
      rw [hl] at h
      by_cases hm : m = []
      · subst hm; simp [addLast, bind, Except.bind] at h
      · obtain ⟨l', e1, e2, e3, e4⟩ := addLast_ok m t hm
        simp only [e1, bind, Except.bind] at h
        cases h
        by_cases hq : q = p
        · subst hq; exact ⟨l', by simp, e4⟩
        · exact ⟨l, by simp [Function.update_of_ne (Ne.symm hq), hp], h0⟩

/-- **C170**, errors. A history in which every stop of a timer comes after some start of it raises no
exception; a stop without any start is an `AssertionError`. -/
theorem C170_no_error (l : List Ev) (h : Started l) : ∃ c', run new l = .ok c' := by
  suffices H : ∀ (l pre : List Ev) (c : Counter), Started (pre ++ l) →
      (∀ p s, .tic p s ∈ pre → ∃ m, c.times p = some m ∧ m ≠ []) → ∃ c', run c l = .ok c' from
    H l [] new h (by simp)
  intro l
  induction l with
  | nil => exact fun _ c _ _ => ⟨c, rfl⟩
  | cons e l ih =>
    intro pre c hs hc
    have : ∃ d, step c e = .ok d := by
      cases e with
      | count p => exact ⟨_, rfl⟩
      | tic p t => exact ⟨_, rfl⟩
      | toc p t =>
        obtain ⟨s, hm⟩ := hs pre p t l rfl
        obtain ⟨m, e1, e2⟩ := hc p s hm
        obtain ⟨l', e3, -⟩ := addLast_ok m t e2
        exact ⟨{ c with times := Function.update c.times p (some l') }, by
          simp only [step, toc, e1, e3, bind, Except.bind]⟩
    obtain ⟨d, hd⟩ := this
    obtain ⟨c', h'⟩ := ih (pre ++ [e]) d (by simpa using hs) (by
      intro p s hm
      rcases List.mem_append.1 hm with hm | hm
      · obtain ⟨m, e1, e2⟩ := hc p s hm
        exact times_grow c d e hd p m e1 e2
      · cases List.mem_singleton.1 hm
        cases hd
        exact ⟨(c.times p).getD [] ++ [-s], by simp [tic], by simp⟩)
    exact ⟨c', by rw [run, List.foldlM_cons, hd]; exact h'⟩

theorem C170_stop_first (p : String) (t : ℝ) (c : Counter) (h : c.times p = none) (l : List Ev) :
    run c (.toc p t :: l) = .error .assertionError := by
  rw [run, List.foldlM_cons]
  simp [step, toc, h, bind, Except.bind]

/-- Two threads in the same method. -/
example : Started [.tic "A.f" 1, .tic "A.f" 2, .toc "A.f" 5, .toc "A.f" 6] := by
  intro pre p t post h
  rcases pre with _ | ⟨a, _ | ⟨b, pre⟩⟩
  · simp at h
  · simp at h
  · simp only [List.cons_append, List.cons.injEq] at h
    obtain ⟨rfl, rfl, h⟩ := h
    refine ⟨1, ?_⟩
    have : Ev.toc p t ∈ [Ev.toc "A.f" 5, Ev.toc "A.f" 6] := by rw [h]; simp
    simp at this
    rcases this with ⟨rfl, -⟩ | ⟨rfl, -⟩ <;> simp

/-! ## Executions -/

theorem run_append (c : Counter) (l m : List Ev) : run c (l ++ m) = run c l >>= fun d => run d m := by
  simp [run, List.foldlM_append]

theorem nCount_append (p l m) : nCount p (l ++ m) = nCount p l + nCount p m := by
  induction l with
  | nil => simp [nCount]
  | cons e l ih => rw [List.cons_append, nCount_cons, ih, nCount_cons p e l]; omega

theorem nTic_append (p l m) : nTic p (l ++ m) = nTic p l + nTic p m := by
  induction l with
  | nil => simp [nTic]
  | cons e l ih => rw [List.cons_append, nTic_cons, ih, nTic_cons p e l]; omega

theorem balance_append (p l m) : balance p (l ++ m) = balance p l + balance p m := by
  induction l with
  | nil => simp [balance]
  | cons e l ih => rw [List.cons_append, balance_cons, ih, balance_cons p e l]; ring

theorem calls_run (k : Calls) (c : Counter) : ∃ d, run c k.events = .ok d ∧
    ∀ p l, c.times p = some l → l ≠ [] → ∃ l', d.times p = some l' ∧ l' ≠ [] := by
  induction k generalizing c with
  | nil => exact ⟨c, rfl, fun p l h h' => ⟨l, h, h'⟩⟩
  | call timed p t0 t1 fails body rest ih1 ih2 =>
    simp only [Calls.events, run_append]
    cases timed with
    | false =>
      obtain ⟨d1, e1, k1⟩ := ih1 (count c p)
      obtain ⟨d2, e2, k2⟩ := ih2 d1
      refine ⟨d2, ?_, fun q l h h' => ?_⟩
      · have : run c [Ev.count p] = .ok (count c p) := rfl
        simp only [Bool.false_eq_true, if_false, this, bind, Except.bind, e1, Bool.false_and]
        exact e2
      · obtain ⟨l1, a, b⟩ := k1 q l h h'
        exact k2 q l1 a b
    | true =>
      obtain ⟨d1, e1, k1⟩ := ih1 (tic c p t0)
      have ht : (tic c p t0).times p = some ((c.times p).getD [] ++ [-t0]) := by simp [tic]
      obtain ⟨l1, a1, b1⟩ := k1 p _ ht (by simp)
      have hc : run c [Ev.tic p t0] = .ok (tic c p t0) := rfl
      have hgrow : ∀ q l, c.times q = some l → l ≠ [] → ∃ l', d1.times q = some l' ∧ l' ≠ [] := by
        intro q l h h'
        obtain ⟨l2, a, b⟩ := times_grow c _ (.tic p t0) rfl q l h h'
        exact k1 q l2 a b
      cases fails with
      | true =>
        obtain ⟨d2, e2, k2⟩ := ih2 d1
        refine ⟨d2, ?_, fun q l h h' => ?_⟩
        · simp only [if_true, hc, bind, Except.bind, e1, Bool.not_true, Bool.and_false,
            Bool.false_eq_true, if_false]
          exact e2
        · obtain ⟨l2, a, b⟩ := hgrow q l h h'
          exact k2 q l2 a b
      | false =>
        obtain ⟨l', e3, -, -, e4⟩ := addLast_ok l1 t1 b1
        have hs : step d1 (.toc p t1) = .ok { d1 with times := Function.update d1.times p (some l') } := by
          simp only [step, toc, a1, e3, bind, Except.bind]
        obtain ⟨d2, e2, k2⟩ := ih2 { d1 with times := Function.update d1.times p (some l') }
        refine ⟨d2, ?_, fun q l h h' => ?_⟩
        · have hr : run d1 [Ev.toc p t1] = .ok { d1 with times := Function.update d1.times p (some l') } := by
            rw [run, List.foldlM_cons, hs]; rfl
          simp only [if_true, hc, bind, Except.bind, e1, Bool.not_false, Bool.and_true, hr]
          exact e2
        · obtain ⟨l2, a, b⟩ := hgrow q l h h'
          obtain ⟨l3, a', b'⟩ := times_grow d1 _ _ hs q l2 a b
          exact k2 q l3 a' b'

theorem counted_cons (p a l) : counted p (a :: l) = counted p [a] + counted p l := by
  rw [counted, counted, counted, ← List.length_append, ← List.filter_append]; rfl

theorem durations_cons (p a l) : durations p (a :: l) = durations p [a] ++ durations p l := by
  rw [durations, durations, durations, ← List.map_append, ← List.filter_append]; rfl

theorem durations_append (p l m) : durations p (l ++ m) = durations p l ++ durations p m := by
  rw [durations, durations, durations, List.filter_append, List.map_append]

theorem counted_append (p l m) : counted p (l ++ m) = counted p l + counted p m := by
  rw [counted, counted, counted, List.filter_append, List.length_append]

theorem events_count (k : Calls) (p : String) : nCount p k.events = counted p k.all ∧
    nTic p k.events = (durations p k.all).length := by
  induction k with
  | nil => simp [Calls.events, Calls.all, counted, durations, nCount, nTic]
  | call timed q t0 t1 fails body rest ih1 ih2 =>
    simp only [Calls.events, Calls.all, nCount_append, nTic_append, ih1, ih2]
    rw [counted_cons, durations_cons, counted_append, durations_append]
    cases timed <;> cases fails <;> by_cases hq : q = p <;>
      simp [hq, nCount, nTic, counted, durations] <;> omega

theorem events_balance (k : Calls) (hk : k.fine) (p : String) :
    balance p k.events = (durations p k.all).sum := by
  induction k with
  | nil => simp [Calls.events, Calls.all, durations, balance]
  | call timed q t0 t1 fails body rest ih1 ih2 =>
    obtain ⟨rfl, h1, h2⟩ := hk
    simp only [Calls.events, Calls.all, balance_append, ih1 h1, ih2 h2]
    rw [durations_cons, durations_append, List.sum_append, List.sum_append]
    cases timed <;> by_cases hq : q = p <;> simp [hq, balance, durations]
    ring

/-- **C170**, counts. In every execution, with recursion, nesting and exceptions, the count of a
method is the number of its calls, and the number of times is the number of its timed calls. -/
theorem C170_counts (k : Calls) : ∃ c, run new k.events = .ok c ∧ ∀ p,
    (c.counts p).getD 0 = counted p k.all ∧
    ((c.times p).getD []).length = (k.all.filter fun x => x.timed && (x.name = p)).length := by
  obtain ⟨c, e, -⟩ := calls_run k new
  refine ⟨c, e, fun p => ?_⟩
  obtain ⟨a, b, -⟩ := C170_history new c _ e p
  rw [a, b, (events_count k p).1, (events_count k p).2]
  simp [new, durations]

/-- **C170**, times. If no call ends with an exception, the summary shows for every timed method the
number of its calls, the sum and the mean of their durations, also if it calls itself. (Partial: see
`C170_violated_exception` and `C170_violated_recursion`.) -/
theorem C170_summary_partial (k : Calls) (hk : k.fine) : ∃ c, run new k.events = .ok c ∧ ∀ p s,
    summary c p = some s → s = ((durations p k.all).sum / (durations p k.all).length,
      (durations p k.all).sum, (durations p k.all).length) := by
  obtain ⟨c, e, -⟩ := calls_run k new
  refine ⟨c, e, fun p s hs => ?_⟩
  obtain ⟨-, b, d⟩ := C170_history new c _ e p
  rw [(events_count k p).2] at b
  rw [events_balance k hk p] at d
  unfold summary at hs
  cases hl : c.times p with
  | none => simp [hl] at hs
  | some l =>
    simp only [hl, Option.map_some, Option.some.injEq] at hs
    simp [hl, new] at b d
    rw [← hs, b, d]

/-- The methods in the summary are those that have been called. -/
theorem C170_shown (k : Calls) (c : Counter) (h : run new k.events = .ok c) (p : String)
    (hp : ∃ x ∈ k.all, x.timed = true ∧ x.name = p) : ∃ s, summary c p = some s := by
  obtain ⟨-, b, -⟩ := C170_history new c _ h p
  rw [(events_count k p).2] at b
  obtain ⟨x, hx, h1, h2⟩ := hp
  cases hl : c.times p with
  | some l => exact ⟨_, by simp [summary, hl]; rfl⟩
  | none =>
    exfalso
    simp only [hl, new, Option.getD_none, List.length_nil, zero_add, durations, List.length_map] at b
    have := List.length_eq_zero_iff.1 b.symm
    have hm : x ∈ k.all.filter fun x => x.timed && (x.name = p) := by simp [hx, h1, h2]
    rw [this] at hm
    simp at hm

/-! ## Single times -/

theorem no_tic (k : Calls) (c d : Counter) (h : run c k.events = .ok d) (p : String)
    (hp : ∀ x ∈ k.all, ¬ (x.timed = true ∧ x.name = p)) : d.times p = c.times p := by
  induction k generalizing c d with
  | nil => cases h; rfl
  | call timed q t0 t1 fails body rest ih1 ih2 =>
    simp only [Calls.all, List.mem_cons, List.mem_append] at hp
    have hq : timed = true → p ≠ q := fun ht hq => hp _ (Or.inl rfl) ⟨ht, hq.symm⟩
    simp only [Calls.events, run_append] at h
    have step1 : ∀ (c d : Counter) (e : Ev), run c [e] = .ok d → (∀ t, e ≠ .tic p t ∧ e ≠ .toc p t) →
        d.times p = c.times p := by
      intro c d e he hne
      rw [run, List.foldlM_cons] at he
      cases e with
      | count r => cases he; rfl
      | tic r t =>
        cases he
        have : p ≠ r := by rintro rfl; exact (hne t).1 rfl
        simp [tic, Function.update_of_ne this]
      | toc r t =>
        have hr : p ≠ r := by rintro rfl; exact (hne t).2 rfl
        simp only [step, toc] at he
        cases hl : c.times r with
        | none => simp [hl, bind, Except.bind] at he
        | some l =>
          cases ha : addLast l t with
          | error x => simp [hl, ha, bind, Except.bind] at he
          | ok l' =>
            simp only [hl, ha, bind, Except.bind] at he
            cases he
            simp [Function.update_of_ne hr]
    have part : ∀ (l : List Ev) (c d : Counter), run c l = .ok d →
        (∀ e ∈ l, ∀ t, e ≠ .tic p t ∧ e ≠ .toc p t) → d.times p = c.times p := by
      intro l
      induction l with
      | nil => intro c d h _; cases h; rfl
      | cons e l ih =>
        intro c d h hne
        have : run c (e :: l) = run c [e] >>= fun d => run d l := run_append c [e] l
        rw [this] at h
        cases he : run c [e] with
        | error x => simp [he, bind, Except.bind] at h
        | ok d1 =>
          simp only [he, bind, Except.bind] at h
          rw [ih d1 d h fun e h => hne e (List.mem_cons_of_mem _ h),
            step1 c d1 e he (hne e (by simp))]
    cases h1 : run c (if timed = true then [Ev.tic q t0] else [Ev.count q]) with
    | error x => simp [h1, bind, Except.bind] at h
    | ok d1 =>
      cases h2 : run d1 body.events with
      | error x => simp [h1, h2, bind, Except.bind] at h
      | ok d2 =>
        cases h3 : run d2 (if (timed && !fails) = true then [Ev.toc q t1] else []) with
        | error x => rw [h1] at h; simp only [bind, Except.bind, h2, h3] at h; cases h
        | ok d3 =>
          rw [h1] at h
          simp only [bind, Except.bind, h2, h3] at h
          rw [ih2 d3 d h fun x hx => hp x (Or.inr (Or.inr hx)), part _ d2 d3 h3 ?_,
            ih1 d1 d2 h2 fun x hx => hp x (Or.inr (Or.inl hx)), part _ c d1 h1 ?_]
          · intro e he t
            cases timed <;> simp at he <;> subst he <;> simp
            exact fun h => absurd h.symm (hq rfl)
          · intro e he t
            cases timed <;> cases fails <;> simp at he
            subst he; simp
            exact fun h => absurd h.symm (hq rfl)

/-- **C170**, single times. If no call ends with an exception and a method is not called while it is
running, the times of this method are the durations of its calls, in their order. -/
theorem C170_entries_partial (k : Calls) (hk : k.fine) (p : String) (hp : k.flat p) :
    ∃ c, run new k.events = .ok c ∧ (c.times p).getD [] = durations p k.all := by
  obtain ⟨c, e, -⟩ := calls_run k new
  refine ⟨c, e, ?_⟩
  suffices H : ∀ (k : Calls) (b c : Counter), k.fine → k.flat p → run b k.events = .ok c →
      (c.times p).getD [] = (b.times p).getD [] ++ durations p k.all by
    have := H k new c hk hp e
    simpa [new] using this
  clear e c hk hp k
  intro k
  induction k with
  | nil => intro b c _ _ h; cases h; simp [Calls.all, durations]
  | call timed q t0 t1 fails body rest ih1 ih2 =>
    intro b c hk hp h
    obtain ⟨rfl, k1, k2⟩ := hk
    obtain ⟨p0, p1, p2⟩ := hp
    simp only [Calls.events, run_append] at h
    cases h1 : run b (if timed = true then [Ev.tic q t0] else [Ev.count q]) with
    | error x => simp [h1, bind, Except.bind] at h
    | ok d1 =>
    obtain ⟨d2, h2, -⟩ := calls_run body d1
    cases h3 : run d2 (if (timed && !false) = true then [Ev.toc q t1] else []) with
    | error x => rw [h1] at h; simp only [bind, Except.bind, h2, h3] at h; cases h
    | ok d3 =>
    rw [h1] at h
    simp only [bind, Except.bind, h2, h3] at h
    rw [ih2 d3 c k2 p2 h, Calls.all, durations_cons, durations_append, ← List.append_assoc,
      ← List.append_assoc]
    congr 1
    by_cases ht : timed = true ∧ q = p
    · obtain ⟨rfl, rfl⟩ := ht
      have hb := no_tic body d1 d2 h2 q (p0 ⟨rfl, rfl⟩)
      have hd : durations q body.all = [] := by
        simp only [durations, List.map_eq_nil_iff, List.filter_eq_nil_iff]
        intro x hx h
        exact p0 ⟨rfl, rfl⟩ x hx (by simpa using h)
      cases h1
      simp only [tic, Function.update_self] at hb
      simp only [Bool.not_false, Bool.and_true, if_true] at h3
      rw [run, List.foldlM_cons] at h3
      simp [step, toc, hb, addLast, bind, Except.bind] at h3
      cases h3
      rw [hd]
      simp [durations]
      ring
    · have hn : durations p [⟨timed, q, t0, t1⟩] = [] := by
        simp only [durations, List.map_eq_nil_iff, List.filter_eq_nil_iff]
        intro x hx h
        cases List.mem_singleton.1 hx
        exact ht (by simpa using h)
      have e1 : d1.times p = b.times p := by
        refine no_tic (.call timed q t0 t1 true .nil .nil) b d1 ?_ p ?_
        · simpa [Calls.events] using h1
        · intro x hx
          simp only [Calls.all, List.append_nil, List.mem_singleton] at hx
          subst hx
          exact ht
      have e3 : d3.times p = d2.times p := by
        cases timed with
        | false => simp at h3; cases h3; rfl
        | true =>
          have hq : p ≠ q := fun h => ht ⟨rfl, h.symm⟩
          simp only [Bool.not_false, Bool.and_true, if_true] at h3
          rw [run, List.foldlM_cons] at h3
          simp only [step, toc] at h3
          cases hl : d2.times q with
          | none => simp [hl, bind, Except.bind] at h3
          | some l =>
            cases ha : addLast l t1 with
            | error x => simp [hl, ha, bind, Except.bind] at h3
            | ok l' =>
              simp only [hl, ha, bind, Except.bind] at h3
              cases h3
              simp [Function.update_of_ne hq]
      rw [e3, hn, List.append_nil, ih1 d1 d2 k1 p1 h2, e1]

/-- **C170** fails for recursion: the outer time becomes the negative of the clock at its start and
the inner one gets the clock at the end of the outer call. -/
theorem C170_violated_recursion (p : String) (t0 t1 t2 t3 : ℝ) :
    ∃ c, run new (Calls.call true p t0 t3 false (.call true p t1 t2 false .nil .nil) .nil).events = .ok c ∧
      c.times p = some [-t0, -t1 + t2 + t3] := by
  obtain ⟨c, e, -⟩ := calls_run
    (Calls.call true p t0 t3 false (.call true p t1 t2 false .nil .nil) .nil) new
  refine ⟨c, e, ?_⟩
  simp [Calls.events, run, step, toc, tic, new, addLast, bind, Except.bind, pure, Except.pure] at e
  rw [← e]
  simp

/-- **C170** fails for exceptions: the time of a call that ends with one is the negative of the clock
at its start, and the total that of the other calls minus this. -/
theorem C170_violated_exception (p : String) (t0 t1 t2 t3 : ℝ) :
    ∃ c, run new (Calls.call true p t0 t1 true .nil (.call true p t2 t3 false .nil .nil)).events = .ok c ∧
      c.times p = some [-t0, t3 - t2] ∧ summary c p = some ((t3 - t2 - t0) / 2, t3 - t2 - t0, 2) := by
  obtain ⟨c, e, -⟩ := calls_run
    (Calls.call true p t0 t1 true .nil (.call true p t2 t3 false .nil .nil)) new
  refine ⟨c, e, ?_⟩
  simp [Calls.events, run, step, toc, tic, new, addLast, bind, Except.bind, pure, Except.pure] at e
  have ht : c.times p = some [-t0, t3 - t2] := by
    rw [← e]
    simp
    ring
  refine ⟨ht, ?_⟩
  simp [summary, ht]
  ring

/-! ## Names -/

/-- **C170**, names. Methods of different classes or with different names are counted apart, if the
classes have different names. -/
theorem C170_names (c c' f f' : String) (h : '.' ∉ c.toList) (h' : '.' ∉ c'.toList) :
    name c f = name c' f' ↔ c = c' ∧ f = f' := by
  constructor
  · intro e
    have e' : c.toList ++ '.' :: f.toList = c'.toList ++ '.' :: f'.toList := by
      have := congrArg String.toList e
      simpa [name] using this
    have key : ∀ (a b x y : List Char), '.' ∉ a → '.' ∉ b → a ++ '.' :: x = b ++ '.' :: y →
        a = b ∧ x = y := by
      intro a
      induction a with
      | nil =>
        intro b x y _ hb e
        cases b with
        | nil => simpa using e
        | cons z b =>
          simp only [List.nil_append, List.cons_append, List.cons.injEq] at e
          exact absurd (by rw [e.1]; simp) hb
      | cons z a ih =>
        intro b x y ha hb e
        cases b with
        | nil =>
          simp only [List.nil_append, List.cons_append, List.cons.injEq] at e
          exact absurd (by rw [← e.1]; simp) ha
        | cons w b =>
          simp only [List.cons_append, List.cons.injEq] at e
          obtain ⟨e1, e2⟩ := ih b x y (fun h => ha (List.mem_cons_of_mem _ h))
            (fun h => hb (List.mem_cons_of_mem _ h)) e.2
          exact ⟨by rw [e.1, e1], e2⟩
    obtain ⟨e1, e2⟩ := key _ _ _ _ h h' e'
    exact ⟨String.toList_injective e1, String.toList_injective e2⟩
  · rintro ⟨rfl, rfl⟩; rfl

/-! ## Cases that meet the hypotheses -/

/-- A method with two calls of another one. -/
def sample : Calls := .call true "Sim.fields" 0 10 false
  (.call true "Sim.getA" 1 2 false .nil (.call false "Sim.getRHS" 2 2 false .nil
    (.call true "Sim.getA" 3 7 false .nil .nil))) .nil

example : sample.fine ∧ sample.flat "Sim.getA" ∧ durations "Sim.getA" sample.all = [2 - 1, 7 - 3] ∧
    '.' ∉ "Sim".toList := by
  refine ⟨by simp [sample, Calls.fine], by simp [sample, Calls.flat, Calls.all],
    by simp [sample, Calls.all, durations], by decide⟩

end Verif.Utils.Counter
