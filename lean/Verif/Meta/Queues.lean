import Mathlib.Algebra.BigOperators.Group.Finset.Basic
import Mathlib.Data.Fintype.Basic
import Mathlib.Tactic.Linarith
import Mathlib.Logic.Function.Basic

/-! The processes and queues of `simpeg/meta/multiprocessing.py` (31-178): a head process that
puts tasks into one queue per worker and takes replies from another, and workers that take a
task, work on it and put replies. Every schedule of head, workers and queues is allowed. -/

namespace Verif.Meta.Queues

variable {ι σ T R A : Type}

/-- What the head process does: put a task for worker `p`, wait for a reply of worker `p`, or
be finished. What follows may depend on the replies received. -/
inductive Prog (ι T R A : Type)
  | ret (a : A)
  | put (p : ι) (t : T) (k : Prog ι T R A)
  | get (p : ι) (k : R → Prog ι T R A)

/-- The state of all processes: the rest of the head's program; per worker the task queue, the
replies worked out but not yet visible in the result queue (a reply is visible some time after
it was put), the result queue and the local state. -/
structure Sys (ι σ T R A : Type) where
  prog : Prog ι T R A
  tq : ι → List T
  pend : ι → List R
  rq : ι → List R
  w : ι → σ

variable [DecidableEq ι] (work : ι → σ → T → σ × List R)

/-- After the head put task `t` for worker `p`. -/
@[simp] def Sys.doPut (s : Sys ι σ T R A) (p : ι) (t : T) (k : Prog ι T R A) : Sys ι σ T R A :=
  ⟨k, Function.update s.tq p (s.tq p ++ [t]), s.pend, s.rq, s.w⟩

/-- After the head took a reply of worker `p`, leaving `rs`. -/
@[simp] def Sys.doGet (s : Sys ι σ T R A) (p : ι) (rs : List R) (k : Prog ι T R A) :
    Sys ι σ T R A :=
  ⟨k, s.tq, s.pend, Function.update s.rq p rs, s.w⟩

/-- After worker `p` worked on `t`, with `ts` left in its queue. -/
@[simp] def Sys.doWork (s : Sys ι σ T R A) (p : ι) (t : T) (ts : List T) : Sys ι σ T R A :=
  ⟨s.prog, Function.update s.tq p ts, Function.update s.pend p (work p (s.w p) t).2, s.rq,
    Function.update s.w p (work p (s.w p) t).1⟩

/-- After a reply of worker `p` became visible. -/
@[simp] def Sys.doFlush (s : Sys ι σ T R A) (p : ι) (r : R) (rs : List R) : Sys ι σ T R A :=
  ⟨s.prog, s.tq, Function.update s.pend p rs, Function.update s.rq p (s.rq p ++ [r]), s.w⟩

/-- One step of one process. A worker takes its next task when its replies are out (55-115);
the head blocks in `get` while the result queue is empty (167-169). -/
inductive Step : Sys ι σ T R A → Sys ι σ T R A → Prop
  | put (s : Sys ι σ T R A) (p : ι) (t : T) (k) (h : s.prog = .put p t k) :
      Step s (s.doPut p t k)
  | get (s : Sys ι σ T R A) (p : ι) (k) (r : R) (rs : List R) (h : s.prog = .get p k)
      (hq : s.rq p = r :: rs) :
      Step s (s.doGet p rs (k r))
  | work (s : Sys ι σ T R A) (p : ι) (t : T) (ts : List T) (hq : s.tq p = t :: ts)
      (hp : s.pend p = []) :
      Step s (s.doWork work p t ts)
  | flush (s : Sys ι σ T R A) (p : ι) (r : R) (rs : List R) (hp : s.pend p = r :: rs) :
      Step s (s.doFlush p r rs)

/-- A finite run. -/
inductive Run : Nat → Sys ι σ T R A → Sys ι σ T R A → Prop
  | nil (s) : Run 0 s s
  | cons {n s t u} (h : Step work s t) (hr : Run n t u) : Run (n + 1) s u

/-- The start: empty queues. -/
def start (prog : Prog ι T R A) (w : ι → σ) : Sys ι σ T R A :=
  ⟨prog, fun _ => [], fun _ => [], fun _ => [], w⟩

/-- Serial execution, the specification: every task is worked on at once by its worker, and
`get` takes the oldest reply. `none` if a reply is awaited that will never come. The state per
worker is its local state and its replies not yet taken. -/
def serial : Prog ι T R A → (ι → σ × List R) → Option A
  | .ret a, _ => some a
  | .put p t k, e => serial k
      (Function.update e p ((work p (e p).1 t).1, (e p).2 ++ (work p (e p).1 t).2))
  | .get p k, e => match (e p).2 with
    | [] => none
    | r :: rs => serial (k r) (Function.update e p ((e p).1, rs))

/-- Working on a list of tasks. -/
def workAll (p : ι) : σ → List T → σ × List R
  | s, [] => (s, [])
  | s, t :: ts => let r := work p s t; let r' := workAll p r.1 ts; (r'.1, r.2 ++ r'.2)

/-- What worker `p` will have after its pending work. -/
def future (s : Sys ι σ T R A) (p : ι) : σ × List R :=
  ((workAll work p (s.w p) (s.tq p)).1, s.rq p ++ s.pend p ++ (workAll work p (s.w p) (s.tq p)).2)

omit [DecidableEq ι] in
theorem workAll_append (p : ι) : ∀ (ts : List T) (s : σ) (t : T),
    workAll work p s (ts ++ [t]) =
      ((work p (workAll work p s ts).1 t).1,
       (workAll work p s ts).2 ++ (work p (workAll work p s ts).1 t).2)
  | [], s, t => by simp [workAll]
  | a :: ts, s, t => by
    simp only [List.cons_append, workAll]
    rw [workAll_append p ts]
    simp

/-- No step changes the outcome of the serial execution of what is left. -/
theorem step_serial {s t : Sys ι σ T R A} (h : Step work s t) :
    serial work t.prog (future work t) = serial work s.prog (future work s) := by
  cases h with
  | put p t k h =>
    rw [h, serial]
    congr 1
    funext q
    by_cases e : q = p
    · subst e
      simp only [future, Sys.doPut, Function.update_self]
      rw [workAll_append]
      simp
    · simp [future, Function.update_of_ne e]
  | get p k r rs h hq =>
    rw [h, serial]
    have : (future work s p).2 = r :: (rs ++ s.pend p ++ (workAll work p (s.w p) (s.tq p)).2) := by
      simp [future, hq]
    rw [this]
    simp only
    congr 1
    funext q
    by_cases e : q = p
    · subst e; simp [future]
    · simp [future, Function.update_of_ne e]
  | work p t ts hq hp =>
    simp only [Sys.doWork]
    congr 1
    funext q
    by_cases e : q = p
    · subst e
      simp [future, hq, hp, workAll]
    · simp [future, Function.update_of_ne e]
  | flush p r rs hp =>
    simp only [Sys.doFlush]
    congr 1
    funext q
    by_cases e : q = p
    · subst e
      simp [future, hp]
    · simp [future, Function.update_of_ne e]

theorem run_serial {n : Nat} {s t : Sys ι σ T R A} (h : Run work n s t) :
    serial work t.prog (future work t) = serial work s.prog (future work s) := by
  induction h with
  | nil => rfl
  | cons h _ ih => rw [ih, step_serial work h]

theorem future_start (prog : Prog ι T R A) (w : ι → σ) :
    future work (start prog w) = fun p => (w p, []) := by
  funext p; simp [future, start, workAll]

/-- **Determinism.** Whatever the schedule, a finished run has the result of the serial
execution. -/
theorem run_result (prog : Prog ι T R A) (w : ι → σ) {n : Nat} {t : Sys ι σ T R A}
    (h : Run work n (start prog w) t) (a : A) (ha : t.prog = .ret a) :
    serial work prog (fun p => (w p, [])) = some a := by
  have := run_serial work h
  rw [ha, serial, future_start] at this
  exact this.symm

/-- **No deadlock.** If the serial execution finishes, then in every reachable state that is
not finished some process can move. -/
theorem run_progress (prog : Prog ι T R A) (w : ι → σ) (a : A)
    (hs : serial work prog (fun p => (w p, [])) = some a) {n : Nat} {t : Sys ι σ T R A}
    (h : Run work n (start prog w) t) (hne : ∀ a, t.prog ≠ .ret a) : ∃ u, Step work t u := by
  have hinv := run_serial work h
  rw [future_start, show (start prog w).prog = prog from rfl, hs] at hinv
  cases hp : t.prog with
  | ret a => exact absurd hp (hne a)
  | put p x k => exact ⟨_, .put t p x k hp⟩
  | get p k =>
    cases hq : t.rq p with
    | cons r rs => exact ⟨_, .get t p k r rs hp hq⟩
    | nil =>
      cases hpe : t.pend p with
      | cons r rs => exact ⟨_, .flush t p r rs hpe⟩
      | nil =>
        cases htq : t.tq p with
        | cons x ts => exact ⟨_, .work t p x ts htq hpe⟩
        | nil =>
          exfalso
          rw [hp, serial] at hinv
          have : (future work t p).2 = [] := by simp [future, hq, hpe, htq, workAll]
          rw [this] at hinv
          simp at hinv

/-- The number of steps the serial execution accounts for. -/
def cost : Prog ι T R A → (ι → σ × List R) → Nat
  | .ret _, _ => 0
  | .put p t k, e => 2 + (work p (e p).1 t).2.length + cost k
      (Function.update e p ((work p (e p).1 t).1, (e p).2 ++ (work p (e p).1 t).2))
  | .get p k, e => match (e p).2 with
    | [] => 0
    | r :: rs => 1 + cost (k r) (Function.update e p ((e p).1, rs))

/-- Steps of pending work at worker `p`. -/
def pending (s : Sys ι σ T R A) (p : ι) : Nat :=
  (s.tq p).length + (workAll work p (s.w p) (s.tq p)).2.length + (s.pend p).length

/-- A number that goes down by one with every step. -/
def measure [Fintype ι] (s : Sys ι σ T R A) : Nat :=
  cost work s.prog (future work s) + ∑ p, pending work s p

theorem sum_split [Fintype ι] (f : ι → Nat) (p : ι) :
    ∑ q, f q = f p + ∑ q ∈ Finset.univ.erase p, f q :=
  (Finset.add_sum_erase _ f (Finset.mem_univ p)).symm

theorem step_measure [Fintype ι] {s t : Sys ι σ T R A} (h : Step work s t) :
    measure work t + 1 = measure work s := by
  cases h with
  | put p t k h =>
    unfold measure
    rw [h, cost, sum_split _ p, sum_split (fun q => pending work s q) p]
    have e1 : ∀ q ∈ Finset.univ.erase p, pending work (s.doPut p t k) q = pending work s q := by
      intro q hq
      have : q ≠ p := Finset.ne_of_mem_erase hq
      simp [pending, Function.update_of_ne this]
    rw [Finset.sum_congr (f := pending work (s.doPut p t k)) (g := fun q => pending work s q) rfl e1]
    have e2 : future work (s.doPut p t k) =
        Function.update (future work s) p ((work p (future work s p).1 t).1,
          (future work s p).2 ++ (work p (future work s p).1 t).2) := by
      funext q
      by_cases e : q = p
      · subst e
        simp only [future, Sys.doPut, Function.update_self]
        rw [workAll_append]
        simp
      · simp [future, Function.update_of_ne e]
    rw [e2]
    have e3 : pending work (s.doPut p t k) p =
        pending work s p + 1 + (work p (future work s p).1 t).2.length := by
      simp only [pending, Sys.doPut, Function.update_self, future]
      rw [workAll_append]
      simp only [List.length_append, List.length_cons, List.length_nil]
      omega
    rw [e3]
    simp only [Sys.doPut]
    omega
  | get p k r rs h hq =>
    unfold measure
    have hf : (future work s p).2 = r :: (rs ++ s.pend p ++ (workAll work p (s.w p) (s.tq p)).2) := by
      simp [future, hq]
    rw [h, cost, hf]
    simp only
    have e2 : future work (s.doGet p rs (k r)) =
        Function.update (future work s) p ((future work s p).1,
          rs ++ s.pend p ++ (workAll work p (s.w p) (s.tq p)).2) := by
      funext q
      by_cases e : q = p
      · subst e; simp [future]
      · simp [future, Function.update_of_ne e]
    rw [e2]
    have e3 : ∀ q, pending work (s.doGet p rs (k r)) q =
        pending work s q := fun q => rfl
    simp only [e3]
    simp only [Sys.doGet]
    omega
  | work p t ts hq hp =>
    unfold measure
    have e2 : future work (s.doWork work p t ts) =
        future work s := by
      funext q
      by_cases e : q = p
      · subst e; simp [future, hq, hp, workAll]
      · simp [future, Function.update_of_ne e]
    rw [e2, sum_split _ p, sum_split (fun q => pending work s q) p]
    rw [Finset.sum_congr rfl (g := fun q => pending work s q) (by
      intro q hq
      have : q ≠ p := Finset.ne_of_mem_erase hq
      simp [pending, Function.update_of_ne this])]
    have e3 : pending work s p = 1 + pending work (s.doWork work p t ts) p := by
      simp only [pending, Sys.doWork, Sys.doFlush, Function.update_self, hq, hp, workAll, List.length_append,
        List.length_cons, List.length_nil]
      omega
    rw [e3]
    simp only [Sys.doWork]
    omega
  | flush p r rs hp =>
    unfold measure
    have e2 : future work (s.doFlush p r rs) =
        future work s := by
      funext q
      by_cases e : q = p
      · subst e; simp [future, hp]
      · simp [future, Function.update_of_ne e]
    rw [e2, sum_split _ p, sum_split (fun q => pending work s q) p]
    rw [Finset.sum_congr rfl (g := fun q => pending work s q) (by
      intro q hq
      have : q ≠ p := Finset.ne_of_mem_erase hq
      simp [pending, Function.update_of_ne this])]
    have e3 : pending work s p = 1 + pending work (s.doFlush p r rs) p := by
      simp only [pending, Sys.doWork, Sys.doFlush, Function.update_self, hp, List.length_cons]
      omega
    rw [e3]
    simp only [Sys.doFlush]
    omega

/-- **Termination.** No schedule is longer than the number of steps of the serial execution. -/
theorem run_bounded [Fintype ι] (prog : Prog ι T R A) (w : ι → σ) {n : Nat} {t : Sys ι σ T R A}
    (h : Run work n (start prog w) t) : n ≤ cost work prog (fun p => (w p, [])) := by
  have key : ∀ {n : Nat} {s t : Sys ι σ T R A}, Run work n s t →
      measure work t + n = measure work s := by
    intro n s t h
    induction h with
    | nil => rfl
    | cons h _ ih => rw [← step_measure work h]; omega
  have := key h
  have h0 : measure work (start prog w) = cost work prog (fun p => (w p, [])) := by
    unfold measure
    rw [future_start]
    simp [start, pending, workAll]
  omega

end Verif.Meta.Queues
