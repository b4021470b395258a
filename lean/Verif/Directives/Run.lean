import Verif.Basic
import Mathlib.Algebra.Order.Field.Basic

/-! Model of `BaseInversion.run` (`simpeg/inversion.py` 101-121), `DirectiveList.call`
(`simpeg/directives/_directives.py` 323-334) and the outer loop of `Minimize.minimize`
(`simpeg/optimization.py` 462-559, 814-838) as far as directives can see it. -/

namespace Verif.Directives
open Verif

/-- The three rules a directive list can be called with (329). -/
inductive Rule | initialize | endIter | finish
  deriving DecidableEq, Repr

/-- A call of a directive: rule, position in the list, value of `opt.iter`. -/
structure Ev where
  rule : Rule
  pos : Nat
  iter : Nat
  deriving DecidableEq, Repr

/-- What directives read and write: the flag `opt.stopNextIteration`, and everything else
(`σ`: trade-off parameter, misfit, regularisation, state of the directives themselves). The
counter `opt.iter` is passed separately: directives read it and do not assign it. -/
structure World (σ : Type) where
  stop : Bool
  st : σ

variable {σ : Type}

/-- A directive: what each rule does, possibly raising. -/
structure Directive (σ : Type) where
  run : Rule → Nat → World σ → Except Err (World σ)

/-- `DirectiveList.call` (323-334) from position `i` on: the calls made, the state after them,
and the exception that ended the loop early if there was one. -/
def call (r : Rule) (iter : Nat) : Nat → List (Directive σ) → World σ →
    List Ev × World σ × Option Err
  | _, [], w => ([], w, none)
  | i, d :: ds, w => match d.run r iter w with
    | .error e => ([⟨r, i, iter⟩], w, some e)
    | .ok w' => let q := call r iter (i + 1) ds w'; (⟨r, i, iter⟩ :: q.1, q.2)

/-- The optimiser, as the run sees it. `eval`: the evaluation at the head of the loop
(optimization.py 506). `stoppers`: `stoppingCriteria` (507). `step`: lines 509-521; `none` is a
failed line search with `require_decrease` (519). None of them touches `stopNextIteration`;
exceptions of the optimiser are not modelled here. -/
structure Optimiser (σ : Type) where
  eval : Nat → σ → σ
  stoppers : Nat → σ → Bool
  step : Nat → σ → Option σ

/-- The state at the end of a run: the calls made, the number of completed iterations, the
state, and the exception if one was raised. -/
structure Result (σ : Type) where
  log : List Ev
  iter : Nat
  world : World σ
  err : Option Err

/-- The loop 504-524 with a bound on the number of passes (`none`: bound reached). -/
def loop (O : Optimiser σ) (ds : List (Directive σ)) : Nat → Nat → World σ → Option (Result σ)
  | 0, _, _ => none
  | fuel + 1, iter, w =>
    let s1 := O.eval iter w.st
    if O.stoppers iter s1 then some ⟨[], iter, ⟨w.stop, s1⟩, none⟩
    else match O.step iter s1 with
      | none => some ⟨[], iter, ⟨w.stop, s1⟩, none⟩
      | some s2 =>
        -- `doEndIteration` (814-838): `iter += 1`, then the callback
        let c := call .endIter (iter + 1) 0 ds ⟨w.stop, s2⟩
        match c.2.2 with
        | some e => some ⟨c.1, iter + 1, c.2.1, some e⟩
        | none =>
          if c.2.1.stop then some ⟨c.1, iter + 1, c.2.1, none⟩
          else (loop O ds fuel (iter + 1) c.2.1).map fun r => { r with log := c.1 ++ r.log }

/-- `run` (101-118). `opt.iter` may have any value while `initialize` runs (that of an earlier
run); `startup` (optimization.py 532-559) sets it to 0 and clears `stopNextIteration`. -/
def run (O : Optimiser σ) (ds : List (Directive σ)) (fuel iter0 : Nat) (w : World σ) :
    Option (Result σ) :=
  let a := call .initialize iter0 0 ds w
  match a.2.2 with
  | some e => some ⟨a.1, iter0, a.2.1, some e⟩
  | none => match loop O ds fuel 0 ⟨false, a.2.1.st⟩ with
    | none => none
    | some r => match r.err with
      | some _ => some { r with log := a.1 ++ r.log }
      | none =>
        let f := call .finish r.iter 0 ds r.world
        some ⟨a.1 ++ r.log ++ f.1, r.iter, f.2.1, f.2.2⟩

namespace Props

/-! ### C38 -/

/-- All directives, in order, once. -/
def block (r : Rule) (iter n : Nat) : List Ev := (List.range n).map fun i => ⟨r, i, iter⟩

/-- The calls of a complete run of `k` iterations with `n` directives. -/
def schedule (iter0 n k : Nat) : List Ev :=
  block .initialize iter0 n ++ ((List.range k).flatMap fun j => block .endIter (j + 1) n) ++
    block .finish k n

theorem call_log (r : Rule) (iter : Nat) : ∀ (ds : List (Directive σ)) (i : Nat) (w : World σ),
    let full := (List.range' i ds.length).map (fun j => (⟨r, j, iter⟩ : Ev))
    ((call r iter i ds w).2.2 = none → (call r iter i ds w).1 = full) ∧
      (call r iter i ds w).1 <+: full
  | [], i, w => by simp [call]
  | d :: ds, i, w => by
    simp only [call]
    cases h : d.run r iter w with
    | error e => simp [List.range'_succ]
    | ok w' =>
      have ih := call_log r iter ds (i + 1) w'
      simp only [List.length_cons, List.range'_succ, List.map_cons] at ih ⊢
      exact ⟨fun hn => by rw [ih.1 hn], by simpa using ih.2⟩

theorem call_block (r : Rule) (iter : Nat) (ds : List (Directive σ)) (w : World σ) :
    ((call r iter 0 ds w).2.2 = none → (call r iter 0 ds w).1 = block r iter ds.length) ∧
      (call r iter 0 ds w).1 <+: block r iter ds.length := by
  have := call_log r iter ds 0 w
  simpa [block, List.range_eq_range'] using this

/-- The end-of-iteration calls of iterations `a + 1 .. a + k`. -/
def iters (n a k : Nat) : List Ev :=
  (List.range' a k).flatMap fun j => block .endIter (j + 1) n

theorem iters_succ (n a k : Nat) :
    iters n a (k + 1) = block .endIter (a + 1) n ++ iters n (a + 1) k := by
  simp [iters, List.range'_succ]

theorem loop_log (O : Optimiser σ) (ds : List (Directive σ)) : ∀ (fuel a : Nat) (w : World σ)
    (r : Result σ), loop O ds fuel a w = some r →
    ∃ k, r.iter = a + k ∧ (r.err = none → r.log = iters ds.length a k) ∧
      r.log <+: iters ds.length a k
  | 0, a, w, r, h => by simp [loop] at h
  | fuel + 1, a, w, r, h => by
    simp only [loop] at h
    split at h
    · cases h; exact ⟨0, by simp [iters]⟩
    · split at h
      · cases h; exact ⟨0, by simp [iters]⟩
      · next s2 hs2 =>
        have hc := call_block .endIter (a + 1) ds ⟨w.stop, s2⟩
        split at h
        · next e he =>
          cases h
          exact ⟨1, rfl, by simp, by simpa [iters] using hc.2⟩
        · next he =>
          split at h
          · cases h
            exact ⟨1, rfl, fun _ => by simpa [iters] using hc.1 he, by simpa [iters] using hc.2⟩
          · cases hl : loop O ds fuel (a + 1)
                (call .endIter (a + 1) 0 ds ⟨w.stop, s2⟩).2.1 with
            | none => rw [hl] at h; simp at h
            | some r' =>
              rw [hl] at h
              cases h
              obtain ⟨k, h1, h2, h3⟩ := loop_log O ds fuel _ _ _ hl
              refine ⟨k + 1, by simp only [h1]; omega, fun hn => ?_, ?_⟩
              · simp only
                rw [iters_succ, hc.1 he, h2 hn]
              · simp only
                rw [iters_succ, hc.1 he]
                exact List.prefix_append_right_inj _ |>.mpr h3

theorem iters_zero (n k : Nat) :
    iters n 0 k = (List.range k).flatMap fun j => block .endIter (j + 1) n := by
  simp [iters, List.range_eq_range']

/-- C38. A run without exception calls `initialize` of every directive once in list order, then
after each of its iterations (counted from 1) `endIter` of every directive once in list order,
then `finish` of every directive once in list order, and nothing else; also when the run ends by
a failed line search or a requested stop. -/
theorem C38_life_cycle (O : Optimiser σ) (ds : List (Directive σ)) (fuel iter0 : Nat)
    (w : World σ) (r : Result σ) (h : run O ds fuel iter0 w = some r) (he : r.err = none) :
    r.log = schedule iter0 ds.length r.iter := by
  simp only [run] at h
  have hi := call_block .initialize iter0 ds w
  split at h
  · cases h; cases he
  · next hie =>
    split at h
    · cases h
    · next r' hl =>
      obtain ⟨k, h1, h2, h3⟩ := loop_log O ds fuel _ _ _ hl
      split at h
      · next e hre => cases h; rw [hre] at he; cases he
      · next hre =>
        cases h
        have hf := call_block .finish r'.iter ds r'.world
        simp only at he ⊢
        rw [hi.1 hie, h2 hre, hf.1 he, schedule, iters_zero, h1, Nat.zero_add]

/-- C38. If a directive raises, the calls made are an initial part of the schedule of some
number of iterations: nothing is called twice or out of order. -/
theorem C38_prefix_on_error (O : Optimiser σ) (ds : List (Directive σ)) (fuel iter0 : Nat)
    (w : World σ) (r : Result σ) (h : run O ds fuel iter0 w = some r) :
    ∃ k, r.log <+: schedule iter0 ds.length k := by
  simp only [run] at h
  have hi := call_block .initialize iter0 ds w
  split at h
  · cases h
    refine ⟨0, hi.2.trans ?_⟩
    simp only [schedule, List.append_assoc]
    exact List.prefix_append _ _
  · next hie =>
    split at h
    · cases h
    · next r' hl =>
      obtain ⟨k, h1, h2, h3⟩ := loop_log O ds fuel _ _ _ hl
      split at h
      · next e hre =>
        cases h
        refine ⟨k, ?_⟩
        simp only [schedule, List.append_assoc, hi.1 hie]
        rw [List.prefix_append_right_inj, ← iters_zero]
        exact h3.trans (List.prefix_append _ _)
      · next hre =>
        cases h
        refine ⟨k, ?_⟩
        have hf := call_block .finish r'.iter ds r'.world
        rw [h1, Nat.zero_add] at hf
        simp only [schedule, hi.1 hie, h2 hre, h1, Nat.zero_add, ← iters_zero]
        rw [List.prefix_append_right_inj]
        exact hf.2

theorem loop_terminates (O : Optimiser σ) (ds : List (Directive σ)) (maxIter : Nat)
    (hO : ∀ i s, maxIter ≤ i → O.stoppers i s = true) : ∀ (fuel a : Nat) (w : World σ),
    maxIter < a + fuel → a ≤ maxIter → ∃ r, loop O ds fuel a w = some r ∧ r.iter ≤ maxIter
  | 0, a, w, h, ha => by omega
  | fuel + 1, a, w, h, ha => by
    simp only [loop]
    split
    · exact ⟨_, rfl, ha⟩
    · next hns =>
      have hlt : a < maxIter := Nat.lt_of_not_le fun hle => hns (hO a _ hle)
      split
      · exact ⟨_, rfl, ha⟩
      · next s2 _ =>
        split
        · exact ⟨_, rfl, hlt⟩
        · split
          · exact ⟨_, rfl, hlt⟩
          · obtain ⟨r, hr, hle⟩ := loop_terminates O ds maxIter hO fuel (a + 1)
              (call .endIter (a + 1) 0 ds ⟨w.stop, s2⟩).2.1 (by omega) hlt
            rw [hr]
            exact ⟨_, rfl, hle⟩

/-- C38. With the stopping criterion on the number of iterations the run ends, after at most
`maxIter` iterations, whatever the directives do. -/
theorem C38_terminates (O : Optimiser σ) (ds : List (Directive σ)) (maxIter iter0 : Nat)
    (w : World σ) (hO : ∀ i s, maxIter ≤ i → O.stoppers i s = true) :
    ∃ r, run O ds (maxIter + 1) iter0 w = some r := by
  simp only [run]
  split
  · exact ⟨_, rfl⟩
  · obtain ⟨r, hr, -⟩ := loop_terminates O ds maxIter hO (maxIter + 1) 0
      ⟨false, (call .initialize iter0 0 ds w).2.1.st⟩ (by omega) (by omega)
    rw [hr]
    simp only
    split <;> exact ⟨_, rfl⟩

/-- Counts up to two iterations; the second directive stops the run after the second. -/
example :
    let O : Optimiser Nat := ⟨fun _ s => s, fun i _ => decide (5 ≤ i), fun _ s => some (s + 1)⟩
    let d1 : Directive Nat := ⟨fun _ _ w => .ok w⟩
    let d2 : Directive Nat :=
      ⟨fun r _ w => .ok (if r = .endIter ∧ w.st = 2 then { w with stop := true } else w)⟩
    ∃ r, run O [d1, d2] 10 7 ⟨true, 0⟩ = some r ∧ r.err = none ∧ r.iter = 2 ∧ r.log =
      [⟨.initialize, 0, 7⟩, ⟨.initialize, 1, 7⟩, ⟨.endIter, 0, 1⟩, ⟨.endIter, 1, 1⟩,
       ⟨.endIter, 0, 2⟩, ⟨.endIter, 1, 2⟩, ⟨.finish, 0, 2⟩, ⟨.finish, 1, 2⟩] :=
  ⟨_, rfl, rfl, rfl, rfl⟩

/-! ### C37 -/

/-- The directive never withdraws a requested stop at the end of an iteration. -/
def KeepsStop (d : Directive σ) : Prop :=
  ∀ i w w', d.run .endIter i w = .ok w' → w.stop = true → w'.stop = true

theorem call_keeps (i : Nat) : ∀ (ds : List (Directive σ)) (p : Nat) (w : World σ),
    (∀ d ∈ ds, KeepsStop d) → (call .endIter i p ds w).2.2 = none → w.stop = true →
    (call .endIter i p ds w).2.1.stop = true
  | [], p, w, _, _, hw => hw
  | d :: ds, p, w, hd, hn, hw => by
    simp only [call] at hn ⊢
    cases h : d.run .endIter i w with
    | error e => rw [h] at hn; simp at hn
    | ok w' =>
      rw [h] at hn
      exact call_keeps i ds (p + 1) w' (fun d hd' => hd d (by simp [hd'])) hn
        (hd d (by simp) i w w' h hw)

theorem call_append (r : Rule) (i : Nat) : ∀ (ds es : List (Directive σ)) (p : Nat) (w : World σ),
    (call r i p ds w).2.2 = none →
    (call r i p (ds ++ es) w).2 = (call r i (p + ds.length) es (call r i p ds w).2.1).2
  | [], es, p, w, _ => by simp [call]
  | d :: ds, es, p, w, hn => by
    simp only [call, List.cons_append] at hn ⊢
    cases h : d.run r i w with
    | error e => rw [h] at hn; simp at hn
    | ok w' =>
      rw [h] at hn
      simp only
      rw [call_append r i ds es (p + 1) w' hn]
      rw [List.length_cons, show p + 1 + ds.length = p + (ds.length + 1) by omega]

theorem call_append_err (r : Rule) (i : Nat) (e : Err) :
    ∀ (ds es : List (Directive σ)) (p : Nat) (w : World σ),
    (call r i p ds w).2.2 = some e → (call r i p (ds ++ es) w).2.2 = some e
  | [], es, p, w, h => by simp [call] at h
  | d :: ds, es, p, w, hn => by
    simp only [call, List.cons_append] at hn ⊢
    cases h : d.run r i w with
    | error e' => rw [h] at hn; simpa using hn
    | ok w' =>
      rw [h] at hn
      exact call_append_err r i e ds es (p + 1) w' hn

/-- One iteration of the loop that is not stopped before its end: from the state `w` before it
to the state `s2` that the directives are called with. -/
def Completes (O : Optimiser σ) (iter : Nat) (w : World σ) (s2 : σ) : Prop :=
  O.stoppers iter (O.eval iter w.st) = false ∧ O.step iter (O.eval iter w.st) = some s2

/-- C37 (partial). If at the end of an iteration a directive leaves the stop flag set, and the
directives listed after it do not withdraw the request, no further iteration is made: the loop
ends there with the number of iterations completed so far (or with the exception of one of the
later directives). Missing from the full statement: `UpdateIRLS` does withdraw requests, see
`Irls.lean`. -/
theorem C37_stop_honoured_partial (O : Optimiser σ) (pre post : List (Directive σ))
    (d : Directive σ) (fuel iter : Nat) (w : World σ) (s2 : σ) (w1 : World σ)
    (hc : Completes O iter w s2)
    (hpre : (call .endIter (iter + 1) 0 pre ⟨w.stop, s2⟩).2.2 = none)
    (hd : d.run .endIter (iter + 1) (call .endIter (iter + 1) 0 pre ⟨w.stop, s2⟩).2.1 = .ok w1)
    (hw1 : w1.stop = true) (hpost : ∀ d' ∈ post, KeepsStop d') :
    ∃ r, loop O (pre ++ d :: post) (fuel + 1) iter w = some r ∧ r.iter = iter + 1 := by
  simp only [loop, hc.1, hc.2, Bool.false_eq_true, if_false]
  have h1 := call_append .endIter (iter + 1) pre (d :: post) 0 ⟨w.stop, s2⟩ hpre
  have h2 : ∀ p, (call .endIter (iter + 1) p (d :: post)
      (call .endIter (iter + 1) 0 pre ⟨w.stop, s2⟩).2.1).2 =
      (call .endIter (iter + 1) (p + 1) post w1).2 := by
    intro p; simp only [call, hd]
  rw [h1, h2]
  cases hq : (call .endIter (iter + 1) (0 + pre.length + 1) post w1).2.2 with
  | some e => exact ⟨_, rfl, rfl⟩
  | none =>
    simp only [call_keeps (iter + 1) post _ w1 hpost hq hw1, if_true]
    exact ⟨_, rfl, rfl⟩

/-- A stop requested while `initialize` runs is lost: the run still makes its iterations,
because `startup` clears the flag afterwards. -/
theorem C37_request_in_initialize_is_lost :
    ∃ (O : Optimiser Nat) (d : Directive Nat),
      (∀ i w, d.run .initialize i w = .ok { w with stop := true }) ∧ KeepsStop d ∧
      ∃ r, run O [d] 10 0 ⟨false, 0⟩ = some r ∧ r.err = none ∧ r.iter = 5 :=
  ⟨⟨fun _ s => s, fun i _ => decide (5 ≤ i), fun _ s => some s⟩,
   ⟨fun r _ w => .ok (if r = .initialize then { w with stop := true } else w)⟩,
   fun _ _ => rfl, fun _ _ _ h hw => by cases h; exact hw, _, rfl, rfl, rfl⟩

/-! ### Invariants -/

theorem call_invariant {P : σ → Prop} (r : Rule) (i : Nat) : ∀ (ds : List (Directive σ)) (p : Nat)
    (w : World σ), (∀ d ∈ ds, ∀ w w', P w.st → d.run r i w = .ok w' → P w'.st) → P w.st →
    P (call r i p ds w).2.1.st
  | [], _, _, _, hw => hw
  | d :: ds, p, w, hd, hw => by
    simp only [call]
    cases h : d.run r i w with
    | error e => exact hw
    | ok w' =>
      exact call_invariant r i ds (p + 1) w' (fun d' hd' => hd d' (by simp [hd']))
        (hd d (by simp) w w' hw h)

/-- A property of the state that the optimiser and the end-of-iteration rules preserve holds at
the end of the loop if it holds at its beginning. -/
theorem loop_invariant {P : σ → Prop} (O : Optimiser σ) (ds : List (Directive σ))
    (he : ∀ i s, P s → P (O.eval i s)) (hs : ∀ i s s', P s → O.step i s = some s' → P s')
    (hd : ∀ d ∈ ds, ∀ i w w', P w.st → d.run .endIter i w = .ok w' → P w'.st) :
    ∀ (fuel a : Nat) (w : World σ) (r : Result σ), P w.st → loop O ds fuel a w = some r →
    P r.world.st
  | 0, a, w, r, _, h => by simp [loop] at h
  | fuel + 1, a, w, r, hw, h => by
    simp only [loop] at h
    split at h
    · cases h; exact he _ _ hw
    · split at h
      · cases h; exact he _ _ hw
      · next s2 hs2 =>
        have hc := call_invariant .endIter (a + 1) ds 0 ⟨w.stop, s2⟩
          (fun d hd' => hd d hd' (a + 1)) (hs _ _ _ (he _ _ hw) hs2)
        split at h
        · cases h; exact hc
        · split at h
          · cases h; exact hc
          · cases hl : loop O ds fuel (a + 1)
                (call .endIter (a + 1) 0 ds ⟨w.stop, s2⟩).2.1 with
            | none => rw [hl] at h; simp at h
            | some r' =>
              rw [hl] at h
              cases h
              exact loop_invariant O ds he hs hd fuel (a + 1) _ r' hc hl

end Props
end Verif.Directives
