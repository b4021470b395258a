import Verif.Basic
import Verif.Meta.Layout
import Mathlib.Algebra.BigOperators.Group.List.Basic
import Mathlib.Data.List.Sort

/-!
C148: simulations on a cluster, `DaskMetaSimulation` and its subclasses (`simpeg/meta/dask_sim.py`).
Workers are natural numbers (addresses, which are compared as strings, in the code). What dask does is
taken as: a task runs on a worker it may run on, after the tasks whose futures it takes; `client.map` over
lists of different lengths stops with the shorter; each worker has its own copy of an object.
-/

namespace Verif.Meta.Dask
open Verif

/-! ### The code: reduction -/

variable {α : Type}

/-- `client.map(operation, items[::2], items[1::2])` (`simpeg/meta/dask_sim.py` 76). -/
def pairs (op : α → α → α) : List α → List α
  | a :: b :: r => op a b :: pairs op r
  | _ => []

/-- `new_reduce[-1] = operation(new_reduce[-1], last)` (`dask_sim.py` 77-80). -/
def onLast (op : α → α → α) (x : α) : List α → List α
  | [] => []
  | [a] => [op a x]
  | a :: r => a :: onLast op x r

/-- One pass of the loop (`dask_sim.py` 75-81). -/
def pass (op : α → α → α) (items : List α) : List α :=
  if items.length % 2 = 1 then
    match items.getLast? with
    | some x => onLast op x (pairs op items)
    | none => pairs op items
  else pairs op items

theorem pairs_length (op : α → α → α) : ∀ l : List α, (pairs op l).length = l.length / 2
  | [] => by simp [pairs]
  | [_] => by simp [pairs]
  | a :: b :: r => by
    simp only [pairs, List.length_cons, pairs_length op r]
    omega

theorem onLast_length (op : α → α → α) (x : α) : ∀ l : List α, (onLast op x l).length = l.length
  | [] => rfl
  | [_] => rfl
  | a :: b :: r => by simp [onLast, onLast_length op x (b :: r)]

theorem pass_length (op : α → α → α) (l : List α) : (pass op l).length = l.length / 2 := by
  unfold pass
  split_ifs
  · split <;> simp [onLast_length, pairs_length]
  · exact pairs_length op l

/-- The loop (`dask_sim.py` 75-82): `items[0]` of no items raises. -/
def loop (op : α → α → α) (items : List α) : Except Err α :=
  if _h : 1 < items.length then loop op (pass op items)
  else match items with
    | [] => .error .indexError
    | a :: _ => .ok a
termination_by items.length
decreasing_by rw [pass_length]; omega

/-- `sorted(zip(workers, items), key=lambda x: x[0])` (`dask_sim.py` 74). `None` is not comparable with
anything, and every key is compared if there are at least two. -/
def sortByWorker (workers : List (Option ℕ)) (items : List α) : Except Err (List α) :=
  let z := workers.zip items
  if 2 ≤ z.length ∧ none ∈ z.map (·.1) then .error .typeError
  else .ok ((z.mergeSort fun a b => decide (a.1.getD 0 ≤ b.1.getD 0)).map (·.2))

/-- `_reduce` (`dask_sim.py` 72-82). -/
def reduce (op : α → α → α) (items : List α) (workers : List (Option ℕ)) : Except Err α :=
  match sortByWorker workers items with
  | .error e => .error e
  | .ok l => loop op l

/-! ### The code: assignment of workers -/

/-- `workers_assign_count` (`dask_sim.py` 122-126). -/
def counts (who : ℕ → List ℕ) (objs : List ℕ) (w : ℕ) : ℕ := (objs.map fun o => (who o).count w).sum

/-- The loop over the workers of an object (`dask_sim.py` 137-142). -/
def choose (c : ℕ → ℕ) : List ℕ → Option ℕ → ℕ → Option ℕ
  | [], a, _ => a
  | w :: ws, a, n => if c w < n then choose c ws (some w) (c w) else choose c ws a n

/-- The loop over the objects (`dask_sim.py` 132-147), `N = len(objects)`. Counts do not go below 0 as a
worker was counted for each object it holds. -/
def assign (N : ℕ) (who : ℕ → List ℕ) : List ℕ → (ℕ → ℕ) → List (Option ℕ)
  | [], _ => []
  | o :: os, c =>
    let a := choose c (who o) none N
    a :: assign N who os fun w => if w ∈ who o ∧ some w ≠ a then c w - 1 else c w

/-- Workers of the objects without given workers (`dask_sim.py` 112-148). -/
def workersOf (who : ℕ → List ℕ) (objs : List ℕ) : List (Option ℕ) := assign objs.length who objs (counts who objs)

/-! ### The code: sensitivities of the members -/

section
variable {n : ℕ}

/-- The tasks of `Jtvec` (`dask_sim.py` 440-462), from member `i` on. A task that raises makes `result()`
raise. -/
noncomputable def jtParts (offs : List ℕ) (m : Fin n → ℝ) (v : List ℝ) : ℕ → List (Member n) → Except Err (List (Fin n → ℝ))
  | _, [] => .ok []
  | i, s :: ss =>
    match asVec s.nd ((v.drop (offs.getD i 0)).take (offs.getD (i + 1) 0 - offs.getD i 0)) with
    | .error e => .error e
    | .ok w => match jtParts offs m v (i + 1) ss with
      | .error e => .error e
      | .ok l => .ok ((Matrix.transpose (s.mapD m)).mulVec (s.Jtvec (s.map m) w) :: l)

/-- `DaskMetaSimulation.Jtvec` (`dask_sim.py` 440-465). -/
noncomputable def jtvec (ms : List (Member n)) (workers : List (Option ℕ)) (m : Fin n → ℝ) (v : List ℝ) :
    Except Err (Fin n → ℝ) :=
  match jtParts (offsets 0 (ms.map (·.nd))) m v 0 ms with
  | .error e => .error e
  | .ok l => reduce (· + ·) l workers

/-- The tasks of `DaskSumMetaSimulation.Jtvec` (`dask_sim.py` 596-617). -/
noncomputable def sumJtParts (m : Fin n → ℝ) (v : List ℝ) : List (Member n) → Except Err (List (Fin n → ℝ))
  | [] => .ok []
  | s :: ss => match asVec s.nd v with
    | .error e => .error e
    | .ok w => match sumJtParts m v ss with
      | .error e => .error e
      | .ok l => .ok ((Matrix.transpose (s.mapD m)).mulVec (s.Jtvec (s.map m) w) :: l)

/-- `DaskSumMetaSimulation.Jtvec` (`dask_sim.py` 596-620). -/
noncomputable def sumJtvec (ms : List (Member n)) (workers : List (Option ℕ)) (m : Fin n → ℝ) (v : List ℝ) :
    Except Err (Fin n → ℝ) :=
  match sumJtParts m v ms with
  | .error e => .error e
  | .ok l => reduce (· + ·) l workers

end

/-! ### The code: one member on the cluster -/

/-- What the head does with one member: it sends a model when its own was updated (`dask_sim.py` 345-370),
submits fields (372-389), and gathers what is computed from fields it submitted (391-420, 422-438). -/
inductive Cmd (X Q : Type)
  | store (x : X)
  | submit
  | query (q : Q) (k : ℕ)

/-- A simulation: its fields, and what is computed from its model and fields. -/
structure Sim (X F Q D : Type) where
  fields : X → F
  query : X → F → Q → D

/-- The copies of the simulation on the workers, the fields submitted but not computed, those computed,
how many were submitted, and what was gathered. -/
structure Cluster (X F D : Type) where
  copy : ℕ → X
  pending : List ℕ
  done : ℕ → Option F
  next : ℕ
  out : List D

/-- One step: the next command of the head, which waits for `store` and `query`, or a pending task. A task
runs on a worker in `on`: the assigned worker, or any if none is assigned. -/
inductive Step {X F Q D : Type} (s : Sim X F Q D) (on : ℕ → Prop) :
    Cluster X F D × List (Cmd X Q) → Cluster X F D × List (Cmd X Q) → Prop
  | store (c x r w) : on w → Step s on (c, .store x :: r) ({ c with copy := Function.update c.copy w x }, r)
  | submit (c r) : Step s on (c, .submit :: r) ({ c with pending := c.pending ++ [c.next], next := c.next + 1 }, r)
  | query (c q k r w f) : on w → c.done k = some f →
      Step s on (c, .query q k :: r) ({ c with out := c.out ++ [s.query (c.copy w) f q] }, r)
  | run (c k r w) : on w → k ∈ c.pending → Step s on (c, r)
      ({ c with pending := c.pending.erase k, done := Function.update c.done k (some (s.fields (c.copy w))) }, r)

/-- Any number of steps. -/
inductive Steps {X F Q D : Type} (s : Sim X F Q D) (on : ℕ → Prop) :
    Cluster X F D × List (Cmd X Q) → Cluster X F D × List (Cmd X Q) → Prop
  | refl (a) : Steps s on a a
  | head (a b c) : Step s on a b → Steps s on b c → Steps s on a c

/-- Before any command; `x` is the model of all copies. -/
def Cluster.init {X F D : Type} (x : X) : Cluster X F D := ⟨fun _ => x, [], fun _ => none, 0, []⟩

/-! ### The code: predictions of a repeated simulation -/

/-- `_calc_dpred` (`dask_sim.py` 40-44): with `apply_map` the field is not used. `mapped` is
`mapping @ model`, `own` the model of the copy. -/
def calcDpred {M F D : Type} (fields : M → F) (dpred : M → F → D) (applyMap : Bool) (mapped : Option M) (own : M) (field : F) : D :=
  match applyMap, mapped with
  | true, some m => dpred m (fields m)
  | _, _ => dpred own field

/-! ### Specification -/

/-- The member in the head itself, without cluster: fields are computed when they are asked for. -/
def serial {X F Q D : Type} (s : Sim X F Q D) : List (Cmd X Q) → X → List F → List D → Option (List D)
  | [], _, _, out => some out
  | .store x :: r, _, fs, out => serial s r x fs out
  | .submit :: r, m, fs, out => serial s r m (fs ++ [s.fields m]) out
  | .query q k :: r, m, fs, out =>
    match fs[k]? with
    | some f => serial s r m fs (out ++ [s.query m f q])
    | none => none

/-- Before another model is sent, something was gathered from all fields that were submitted (`opened` are
those from which nothing was gathered, `k` the number submitted). -/
def Synced {X Q : Type} : List (Cmd X Q) → List ℕ → ℕ → Prop
  | [], _, _ => True
  | .store _ :: r, o, k => o = [] ∧ Synced r [] k
  | .submit :: r, o, k => Synced r (k :: o) (k + 1)
  | .query _ j :: r, o, k => Synced r (o.filter (· ≠ j)) k

namespace Props

/-! ### Reduction -/

section
variable {M : Type} [Monoid M]

theorem pairs_prod : ∀ l : List M, l.length % 2 = 0 → (pairs (· * ·) l).prod = l.prod
  | [], _ => rfl
  | [_], h => by simp at h
  | a :: b :: r, h => by
    simp only [pairs, List.prod_cons]
    rw [pairs_prod r (by simp only [List.length_cons] at h; omega), mul_assoc]

theorem onLast_prod (x : M) : ∀ l : List M, l ≠ [] → (onLast (· * ·) x l).prod = l.prod * x
  | [], h => absurd rfl h
  | [a], _ => by simp [onLast]
  | a :: b :: r, _ => by
    simp only [onLast, List.prod_cons]
    rw [onLast_prod x (b :: r) (by simp)]
    simp [mul_assoc]

theorem pairs_odd : ∀ (l : List M) (x : M), l.length % 2 = 0 → pairs (· * ·) (l ++ [x]) = pairs (· * ·) l
  | [], _, _ => rfl
  | [_], _, h => by simp at h
  | a :: b :: r, x, h => by
    simp only [List.cons_append, pairs]
    rw [pairs_odd r x (by simp only [List.length_cons] at h; omega)]

theorem pass_prod (l : List M) (h : 1 < l.length) : (pass (· * ·) l).prod = l.prod := by
  unfold pass
  split_ifs with ho
  · have hne : l ≠ [] := by rintro rfl; simp at h
    obtain ⟨l', x, rfl⟩ : ∃ l' x, l = l' ++ [x] := ⟨_, _, (List.dropLast_append_getLast hne).symm⟩
    simp only [List.length_append, List.length_singleton] at ho h
    rw [List.getLast?_append]
    simp only [List.getLast?_singleton, Option.some_or]
    rw [pairs_odd l' x (by omega), onLast_prod, pairs_prod l' (by omega), List.prod_append, List.prod_singleton]
    intro he
    have := congrArg List.length he
    rw [pairs_length] at this
    simp at this
    omega
  · exact pairs_prod l (by omega)

/-- The loop combines all items in their order. -/
theorem loop_prod (l : List M) (h : l ≠ []) : loop (· * ·) l = .ok l.prod := by
  induction hl : l.length using Nat.strong_induction_on generalizing l with
  | _ k ih =>
    rw [loop]
    split_ifs with h1
    · rw [ih _ (by rw [pass_length]; omega) (pass (· * ·) l) ?_ rfl, pass_prod l h1]
      intro he
      have := congrArg List.length he
      rw [pass_length] at this
      simp at this
      omega
    · match l, h, h1 with
      | [a], _, _ => simp
      | _ :: _ :: _, _, h1 => simp at h1

end

/-- C148. **Order of the reduction**: for every associative operation the items are combined in the order
of the list, each once, whatever their number. -/
theorem C148_loop {M : Type} [Monoid M] (l : List M) :
    loop (· * ·) l = if l = [] then .error .indexError else .ok l.prod := by
  split_ifs with h
  · subst h
    rw [loop]
    simp
  · exact loop_prod l h

theorem sortByWorker_perm (workers : List (Option ℕ)) (items : List α) (hl : workers.length = items.length)
    (hs : none ∉ workers) : ∃ l, sortByWorker workers items = .ok l ∧ l.Perm items := by
  unfold sortByWorker
  have hz : (workers.zip items).map (·.1) = workers := List.map_fst_zip (by omega)
  simp only
  rw [if_neg (by rw [hz]; exact fun h => hs h.2)]
  refine ⟨_, rfl, ?_⟩
  have h2 : (workers.zip items).map (·.2) = items := List.map_snd_zip (by omega)
  have := (List.mergeSort_perm (workers.zip items) fun a b => decide (a.1.getD 0 ≤ b.1.getD 0)).map (·.2)
  rwa [h2] at this

/-- C148. **Sums**: a reduction is the sum of all items, for every number of items and distribution over
workers, if every item has a worker. -/
theorem C148_reduce {M : Type} [AddCommMonoid M] (items : List M) (workers : List (Option ℕ))
    (hl : workers.length = items.length) (hs : none ∉ workers) (hne : items ≠ []) :
    reduce (· + ·) items workers = .ok items.sum := by
  obtain ⟨l, h1, h2⟩ := sortByWorker_perm workers items hl hs
  unfold reduce
  rw [h1]
  simp only
  have hl' : l ≠ [] := fun h => hne (by simpa [h] using h2)
  have := loop_prod (M := Multiplicative M) l hl'
  have e : loop (fun a b : M => a + b) l = .ok l.sum := this
  rw [e, h2.sum_eq]

/-- C148. **No worker**: with at least two items one of which has no worker, TypeError. -/
theorem C148_violated_reduce (op : α → α → α) (items : List α) (workers : List (Option ℕ))
    (hl : workers.length = items.length) (h2 : 2 ≤ items.length) (hs : none ∈ workers) :
    reduce op items workers = .error .typeError := by
  unfold reduce sortByWorker
  have hz : (workers.zip items).map (·.1) = workers := List.map_fst_zip (by omega)
  simp only
  rw [if_pos]
  exact ⟨by simp; omega, by rw [hz]; exact hs⟩

/-- C148. **One item** is returned as it is, with or without a worker. -/
theorem C148_reduce_one (op : α → α → α) (a : α) (w : Option ℕ) : reduce op [a] [w] = .ok a := by
  have : sortByWorker [w] [a] = .ok [a] := by simp [sortByWorker]
  unfold reduce
  rw [this]
  simp only
  rw [loop]
  simp

/-! ### Sensitivities -/

section
variable {n : ℕ}

theorem jtParts_spec (offs : List ℕ) (m : Fin n → ℝ) (v : List ℝ) : ∀ (ms : List (Member n)) (i : ℕ) (acc : Fin n → ℝ),
    (∃ l, jtParts offs m v i ms = .ok l ∧ l.length = ms.length ∧ JtvecLoop offs m v i ms acc = .ok (acc + l.sum)) ∨
    ∃ e, jtParts offs m v i ms = .error e ∧ JtvecLoop offs m v i ms acc = .error e
  | [], i, acc => Or.inl ⟨[], rfl, rfl, by simp [JtvecLoop]⟩
  | s :: ss, i, acc => by
    simp only [jtParts, JtvecLoop]
    cases asVec s.nd ((v.drop (offs.getD i 0)).take (offs.getD (i + 1) 0 - offs.getD i 0)) with
    | error e => exact Or.inr ⟨e, rfl, rfl⟩
    | ok w =>
      simp only
      rcases jtParts_spec offs m v ss (i + 1) (acc + Matrix.mulVec (Matrix.transpose (s.mapD m)) (s.Jtvec (s.map m) w))
        with ⟨l, h1, h2, h3⟩ | ⟨e, h1, h2⟩
      · refine Or.inl ⟨_, by rw [h1], by simp [h2], ?_⟩
        rw [h3, List.sum_cons, add_assoc]
      · exact Or.inr ⟨e, by rw [h1], h2⟩

/-- C148. **Adjoint products** are those of the serial simulation, errors included, for every distribution
of the members over workers. -/
theorem C148_jtvec (ms : List (Member n)) (hne : ms ≠ []) (workers : List (Option ℕ)) (hl : workers.length = ms.length)
    (hs : none ∉ workers) (m : Fin n → ℝ) (v : List ℝ) : jtvec ms workers m v = Jtvec ms m v := by
  unfold jtvec Jtvec
  rcases jtParts_spec (offsets 0 (ms.map (·.nd))) m v ms 0 0 with ⟨l, h1, h2, h3⟩ | ⟨e, h1, h2⟩
  · rw [h1, h3, zero_add]
    refine C148_reduce l workers (by rw [hl, h2]) hs ?_
    rintro rfl
    exact hne (List.length_eq_zero_iff.1 h2.symm)
  · rw [h1, h2]

theorem sumJtParts_spec (m : Fin n → ℝ) (v : List ℝ) : ∀ (ms : List (Member n)) (acc : Fin n → ℝ),
    (∃ l, sumJtParts m v ms = .ok l ∧ l.length = ms.length ∧ Meta.sumJtvec m v ms acc = .ok (acc + l.sum)) ∨
    ∃ e, sumJtParts m v ms = .error e ∧ Meta.sumJtvec m v ms acc = .error e
  | [], acc => Or.inl ⟨[], rfl, rfl, by simp [Meta.sumJtvec]⟩
  | s :: ss, acc => by
    simp only [sumJtParts, Meta.sumJtvec]
    cases asVec s.nd v with
    | error e => exact Or.inr ⟨e, rfl, rfl⟩
    | ok w =>
      simp only
      rcases sumJtParts_spec m v ss (acc + Matrix.mulVec (Matrix.transpose (s.mapD m)) (s.Jtvec (s.map m) w))
        with ⟨l, h1, h2, h3⟩ | ⟨e, h1, h2⟩
      · refine Or.inl ⟨_, by rw [h1], by simp [h2], ?_⟩
        rw [h3, List.sum_cons, add_assoc]
      · exact Or.inr ⟨e, by rw [h1], h2⟩

/-- C148. The same for simulations whose data are summed. -/
theorem C148_sum_jtvec (ms : List (Member n)) (hne : ms ≠ []) (workers : List (Option ℕ)) (hl : workers.length = ms.length)
    (hs : none ∉ workers) (m : Fin n → ℝ) (v : List ℝ) : sumJtvec ms workers m v = Meta.sumJtvec m v ms 0 := by
  unfold sumJtvec
  rcases sumJtParts_spec m v ms 0 with ⟨l, h1, h2, h3⟩ | ⟨e, h1, h2⟩
  · rw [h1, h3, zero_add]
    refine C148_reduce l workers (by rw [hl, h2]) hs ?_
    rintro rfl
    exact hne (List.length_eq_zero_iff.1 h2.symm)
  · rw [h1, h2]

end

/-! ### Assignment of workers -/

theorem choose_mem (c : ℕ → ℕ) : ∀ (ws : List ℕ) (a : Option ℕ) (n : ℕ) (w : ℕ), choose c ws a n = some w →
    w ∈ ws ∨ a = some w
  | [], a, n, w, h => Or.inr h
  | u :: ws, a, n, w, h => by
    unfold choose at h
    split_ifs at h
    · rcases choose_mem c ws _ _ w h with h | h
      · exact Or.inl (by simp [h])
      · exact Or.inl (by simp at h; simp [h])
    · rcases choose_mem c ws _ _ w h with h | h
      · exact Or.inl (by simp [h])
      · exact Or.inr h

theorem choose_isSome (c : ℕ → ℕ) : ∀ (ws : List ℕ) (a : Option ℕ) (n : ℕ), a.isSome → (choose c ws a n).isSome
  | [], _, _, h => h
  | u :: ws, a, n, h => by
    unfold choose
    split_ifs
    · exact choose_isSome c ws _ _ rfl
    · exact choose_isSome c ws _ _ h

theorem choose_none_iff (c : ℕ → ℕ) : ∀ (ws : List ℕ) (n : ℕ), choose c ws none n = none ↔ ∀ w ∈ ws, n ≤ c w
  | [], n => by simp [choose]
  | u :: ws, n => by
    unfold choose
    split_ifs with h
    · constructor
      · intro h'
        have := choose_isSome c ws (some u) (c u) rfl
        rw [h'] at this
        simp at this
      · intro h'
        have := h' u (by simp)
        omega
    · rw [choose_none_iff c ws n]
      constructor
      · intro h' w hw
        rcases List.mem_cons.1 hw with rfl | hw
        · omega
        · exact h' w hw
      · exact fun h' w hw => h' w (by simp [hw])

theorem choose_least (c : ℕ → ℕ) : ∀ (ws : List ℕ) (a : Option ℕ) (n : ℕ), (∀ u, a = some u → c u = n) → ∀ w,
    choose c ws a n = some w → (∀ u ∈ ws, c w ≤ c u) ∧ c w ≤ n
  | [], a, n, ha, w, h => ⟨by simp, (ha w h).le⟩
  | u :: ws, a, n, ha, w, h => by
    unfold choose at h
    split_ifs at h with hc
    · obtain ⟨h1, h2⟩ := choose_least c ws (some u) (c u) (by simp) w h
      refine ⟨fun v hv => ?_, by omega⟩
      rcases List.mem_cons.1 hv with rfl | hv
      · exact h2
      · exact h1 v hv
    · obtain ⟨h1, h2⟩ := choose_least c ws a n ha w h
      refine ⟨fun v hv => ?_, h2⟩
      rcases List.mem_cons.1 hv with rfl | hv
      · omega
      · exact h1 v hv

theorem assign_length (N : ℕ) (who : ℕ → List ℕ) : ∀ (os : List ℕ) (c : ℕ → ℕ), (assign N who os c).length = os.length
  | [], _ => rfl
  | o :: os, c => by simp [assign, assign_length N who os]

theorem assign_holder (N : ℕ) (who : ℕ → List ℕ) : ∀ (os : List ℕ) (c : ℕ → ℕ) (i w : ℕ),
    (assign N who os c)[i]? = some (some w) → ∃ o, os[i]? = some o ∧ w ∈ who o
  | [], _, i, w, h => by simp [assign] at h
  | o :: os, c, 0, w, h => by
    simp only [assign, List.getElem?_cons_zero, Option.some.injEq] at h
    refine ⟨o, rfl, ?_⟩
    rcases choose_mem _ _ _ _ _ h with h | h
    · exact h
    · simp at h
  | o :: os, c, i + 1, w, h => by
    simp only [assign, List.getElem?_cons_succ] at h
    simpa using assign_holder N who os _ i w h

/-- C148. **Assigned workers hold their objects**, and there is an assignment, perhaps none, for every
object. -/
theorem C148_holder (who : ℕ → List ℕ) (objs : List ℕ) : (workersOf who objs).length = objs.length ∧
    ∀ i w : ℕ, (workersOf who objs)[i]? = some (some w) → ∃ o : ℕ, objs[i]? = some o ∧ w ∈ who o :=
  ⟨assign_length _ _ _ _, fun i w h => assign_holder _ _ _ _ i w h⟩

/-- The load of a worker when object `i` is assigned: objects before assigned to it, and others it holds. -/
def load (who : ℕ → List ℕ) (objs : List ℕ) (as : List (Option ℕ)) (i u : ℕ) : ℕ :=
  (as.take i).count (some u) + ((objs.drop i).filter fun o => u ∈ who o).length

theorem counts_eq {who : ℕ → List ℕ} (hnd : ∀ o, (who o).Nodup) (u : ℕ) : ∀ objs : List ℕ,
    counts who objs u = (objs.filter fun o => u ∈ who o).length
  | [] => rfl
  | o :: os => by
    have e : counts who (o :: os) u = (who o).count u + counts who os u := by simp [counts]
    rw [e, counts_eq hnd u os, List.filter_cons]
    split_ifs with h
    · have h : u ∈ who o := by simpa using h
      rw [List.count_eq_one_of_mem (hnd o) h, List.length_cons]
      omega
    · have h : u ∉ who o := by simpa using h
      rw [List.count_eq_zero_of_not_mem h, zero_add]

theorem assign_least {who : ℕ → List ℕ} (hnd : ∀ o, (who o).Nodup) (N : ℕ) : ∀ (os : List ℕ) (c : ℕ → ℕ) (pre : List (Option ℕ)),
    (∀ u, c u = pre.count (some u) + (os.filter fun o => u ∈ who o).length) →
    ∀ (i o w : ℕ), os[i]? = some o → (assign N who os c)[i]? = some (some w) → ∀ u ∈ who o,
      (pre ++ (assign N who os c).take i).count (some w) + ((os.drop i).filter fun o => w ∈ who o).length ≤
      (pre ++ (assign N who os c).take i).count (some u) + ((os.drop i).filter fun o => u ∈ who o).length
  | [], _, _, _, i, o, w, h, _, _, _ => by simp at h
  | o' :: os, c, pre, hc, 0, o, w, h, ha, u, hu => by
    simp only [List.getElem?_cons_zero, Option.some.injEq] at h
    subst h
    simp only [assign, List.getElem?_cons_zero, Option.some.injEq] at ha
    have := (choose_least c (who o') none N (by simp) w ha).1 u hu
    simpa [hc] using this
  | o' :: os, c, pre, hc, i + 1, o, w, h, ha, u, hu => by
    simp only [List.getElem?_cons_succ] at h
    simp only [assign, List.getElem?_cons_succ] at ha
    have hm : ∀ v, choose c (who o') none N = some v → v ∈ who o' := fun v hv => by
      rcases choose_mem _ _ _ _ _ hv with h | h
      · exact h
      · simp at h
    have := assign_least hnd N os _ (pre ++ [choose c (who o') none N]) (fun v => ?_) i o w h ha u hu
    · simpa [assign] using this
    · have e := hc v
      rw [List.filter_cons] at e
      rw [List.count_append, List.count_singleton]
      by_cases hv : v ∈ who o'
      · rw [if_pos (by simpa using hv), List.length_cons] at e
        by_cases hva : some v = choose c (who o') none N
        · rw [if_neg (by simp [hva]), if_pos (by simp [hva]), e]
          omega
        · rw [if_pos ⟨hv, hva⟩, if_neg (by simpa using fun h => hva h.symm), e]
          omega
      · rw [if_neg (by simpa using hv)] at e
        have hva : choose c (who o') none N ≠ some v := fun h => hv (hm v h)
        rw [if_neg (fun h => hv h.1), if_neg (by simpa using hva), e]
        omega

/-- C148. **Least loaded**: of the workers that hold an object, one with the smallest load is assigned. -/
theorem C148_least {who : ℕ → List ℕ} (hnd : ∀ o, (who o).Nodup) (objs : List ℕ) (i o w : ℕ) (ho : objs[i]? = some o)
    (hw : (workersOf who objs)[i]? = some (some w)) (u : ℕ) (hu : u ∈ who o) :
    load who objs (workersOf who objs) i w ≤ load who objs (workersOf who objs) i u := by
  have := assign_least hnd objs.length objs (counts who objs) [] (fun v => by simp [counts_eq hnd]) i o w ho hw u hu
  simpa [load, workersOf] using this

theorem assign_none (N : ℕ) (who : ℕ → List ℕ) : ∀ (os : List ℕ) (c : ℕ → ℕ),
    (∀ o ∈ os, ∃ w ∈ who o, c w < N) → none ∉ assign N who os c
  | [], _, _ => by simp [assign]
  | o :: os, c, h => by
    simp only [assign, List.mem_cons, not_or]
    constructor
    · intro hn
      obtain ⟨w, hw, hc⟩ := h o (by simp)
      have := (choose_none_iff c (who o) N).1 hn.symm w hw
      omega
    · refine assign_none N who os _ fun o' ho' => ?_
      obtain ⟨w, hw, hc⟩ := h o' (by simp [ho'])
      refine ⟨w, hw, ?_⟩
      split_ifs <;> omega

theorem counts_le {who : ℕ → List ℕ} (hnd : ∀ o, (who o).Nodup) (w : ℕ) : ∀ objs : List ℕ,
    counts who objs w ≤ objs.length ∧ ((∃ o ∈ objs, w ∉ who o) → counts who objs w < objs.length)
  | [] => by simp [counts]
  | o :: os => by
    obtain ⟨h1, h2⟩ := counts_le hnd w os
    have hc : (who o).count w ≤ 1 := List.nodup_iff_count_le_one.1 (hnd o) w
    have e : counts who (o :: os) w = (who o).count w + counts who os w := by simp [counts]
    rw [e, List.length_cons]
    refine ⟨by omega, ?_⟩
    rintro ⟨o', ho', hw⟩
    rcases List.mem_cons.1 ho' with rfl | ho'
    · rw [List.count_eq_zero_of_not_mem hw]
      omega
    · have := h2 ⟨o', ho', hw⟩
      omega

/-- C148. **Assignment**: if for every object there is a worker which holds it but not all objects, then
every object gets a worker that holds it.
Missing: otherwise see `C148_violated_one_worker` and `C148_violated_one_object`. -/
theorem C148_assigned_partial {who : ℕ → List ℕ} (hnd : ∀ o, (who o).Nodup) (objs : List ℕ)
    (h : ∀ o ∈ objs, ∃ w ∈ who o, ∃ o' ∈ objs, w ∉ who o') :
    none ∉ workersOf who objs := by
  refine assign_none _ who objs _ fun o ho => ?_
  obtain ⟨w, hw, h'⟩ := h o ho
  exact ⟨w, hw, (counts_le hnd w objs).2 h'⟩

theorem assign_single (N w : ℕ) : ∀ (k : ℕ) (c : ℕ → ℕ), c w < N →
    assign N (fun _ => [w]) (List.range k) c = List.replicate k (some w) ∧
    ∀ (os : List ℕ), assign N (fun _ => [w]) os c = List.replicate os.length (some w) := by
  have key : ∀ (os : List ℕ) (c : ℕ → ℕ), c w < N → assign N (fun _ => [w]) os c = List.replicate os.length (some w) := by
    intro os
    induction os with
    | nil => exact fun c _ => rfl
    | cons o os ih =>
      intro c hc
      have e : choose c [w] none N = some w := by simp [choose, hc]
      simp only [assign, e, List.length_cons, List.replicate_succ, List.cons.injEq, true_and]
      exact ih _ (by split_ifs <;> omega)
  intro k c hc
  exact ⟨by simpa using key (List.range k) c hc, fun os => key os c hc⟩

/-- C148. **One worker**: on a cluster of one worker the first of several members gets none, so that
products with the adjoint, sums and diagonals raise TypeError. -/
theorem C148_violated_one_worker {n : ℕ} (w : ℕ) (ms : List (Member n)) (h2 : 2 ≤ ms.length) (m : Fin n → ℝ) (v : List ℝ)
    (hv : ∃ r, Jtvec ms m v = .ok r) :
    workersOf (fun _ => [w]) (List.range ms.length) = none :: List.replicate (ms.length - 1) (some w) ∧
    jtvec ms (workersOf (fun _ => [w]) (List.range ms.length)) m v = .error .typeError := by
  have key : workersOf (fun _ => [w]) (List.range ms.length) = none :: List.replicate (ms.length - 1) (some w) := by
    obtain ⟨k, hk⟩ : ∃ k, ms.length = k + 1 := ⟨ms.length - 1, by omega⟩
    unfold workersOf
    rw [hk, List.length_range, List.range_succ_eq_map]
    have hc : counts (fun _ => [w]) (0 :: (List.range k).map Nat.succ) w = k + 1 := by
      simp [counts, Function.comp_def]
      omega
    have e : choose (counts (fun _ => [w]) (0 :: (List.range k).map Nat.succ)) [w] none (k + 1) = none := by
      simp [choose, hc]
    simp only [assign, e, List.cons.injEq, true_and]
    rw [(assign_single (k + 1) w 0 _ ?_).2]
    · simp
    · rw [if_pos (by simp), hc]
      omega
  refine ⟨key, ?_⟩
  unfold jtvec
  obtain ⟨r, hr⟩ := hv
  rcases jtParts_spec (offsets 0 (ms.map (·.nd))) m v ms 0 0 with ⟨l, h1, hl, -⟩ | ⟨e, -, h3⟩
  · rw [h1]
    refine C148_violated_reduce _ l _ ?_ (by omega) ?_
    · rw [(C148_holder _ _).1, List.length_range, hl]
    · rw [key]
      simp
  · exfalso
    unfold Jtvec at hr
    rw [h3] at hr
    simp at hr

/-- C148. **One object**: a single member never gets a worker, whichever workers hold it. -/
theorem C148_violated_one_object {who : ℕ → List ℕ} (o : ℕ) (hnd : (who o).Nodup) : workersOf who [o] = [none] := by
  have e : choose (counts who [o]) (who o) none 1 = none := by
    rw [choose_none_iff]
    intro w hw
    have : 0 < (who o).count w := List.count_pos_iff.2 hw
    simp [counts]
    omega
  simp [workersOf, assign, e]

/-! ### Schedules -/

section
variable {X F Q D : Type}

/-- What holds in every execution, `m` the model of the serial simulation, `fs` its fields. -/
structure Inv (s : Sim X F Q D) (on : ℕ → Prop) (c : Cluster X F D) (m : X) (fs : List F) (out : List D) (opened : List ℕ) : Prop where
  copy : ∀ w, on w → c.copy w = m
  next : c.next = fs.length
  out : c.out = out
  nodup : c.pending.Nodup
  pend : ∀ k ∈ c.pending, k ∈ opened ∧ k < fs.length ∧ fs[k]? = some (s.fields m) ∧ c.done k = none
  done : ∀ k f, c.done k = some f → fs[k]? = some f
  none : ∀ k, fs.length ≤ k → c.done k = none

/-- C148. **Schedules**: if the tasks of a member may only run on one worker, and the head gathers something
from submitted fields before it sends another model, then whatever the order in which the tasks run, what is
gathered in the end is what the serial simulation gives.
Missing: other programs, `C148_violated_race`, and members without worker, `C148_violated_any_worker`. -/
theorem C148_schedules_partial (s : Sim X F Q D) (on : ℕ → Prop) (h1 : ∀ w w', on w → on w' → w = w') (x : X) (p : List (Cmd X Q))
    (hp : Synced p [] 0) (c : Cluster X F D) (he : Steps s on (Cluster.init x, p) (c, [])) :
    serial s p x [] [] = some c.out := by
  have key : ∀ a b, Steps s on a b → b.2 = [] → ∀ m fs out opened, Inv s on a.1 m fs out opened →
      Synced a.2 opened fs.length → serial s a.2 m fs out = some b.1.out := by
    intro a b hab
    induction hab with
    | refl a =>
      intro hb m fs out opened hi _
      rw [hb]
      simp [serial, hi.out]
    | head a b c' hstep _ ih =>
      intro hb m fs out opened hi hs
      cases hstep with
      | store c x' r w hw =>
        obtain ⟨ho, hs⟩ := hs
        subst ho
        refine ih hb x' fs out [] ⟨?_, hi.next, hi.out, hi.nodup, ?_, hi.done, hi.none⟩ hs
        · intro w' hw'
          rw [h1 w' w hw' hw]
          simp
        · intro k hk
          exact absurd (hi.pend k hk).1 (by simp)
      | submit c r =>
        have hn := hi.next
        simp only at hn
        refine ih hb m (fs ++ [s.fields m]) out (fs.length :: opened)
          ⟨hi.copy, by simp [hn], hi.out, ?_, ?_, ?_, ?_⟩ (by rw [List.length_append]; exact hs)
        · refine List.Nodup.append hi.nodup (by simp) ?_
          intro k hk hk'
          have := (hi.pend k hk).2.1
          simp only [List.mem_singleton] at hk'
          omega
        · intro k hk
          rcases List.mem_append.1 hk with hk | hk
          · obtain ⟨a1, a2, a3, a4⟩ := hi.pend k hk
            refine ⟨by simp [a1], by simp; omega, ?_, a4⟩
            rw [List.getElem?_append_left a2]
            exact a3
          · simp only [List.mem_singleton] at hk
            subst hk
            refine ⟨by simp [hn], by simp [hn], ?_, hi.none _ (by omega)⟩
            rw [hn]
            simp
        · intro k f hf
          have := hi.done k f hf
          have hlt : k < fs.length := (List.getElem?_eq_some_iff.1 this).1
          rw [List.getElem?_append_left hlt]
          exact this
        · intro k hk
          refine hi.none k ?_
          simp at hk
          omega
      | query c q k r w f hw hf =>
        have hk := hi.done k f hf
        simp only [serial, hk]
        refine ih hb m fs _ (opened.filter (· ≠ k)) ⟨hi.copy, hi.next, ?_, hi.nodup, ?_, hi.done, hi.none⟩ hs
        · have e1 : c.out = out := hi.out
          have e2 : c.copy w = m := hi.copy w hw
          simp only [e1, e2]
        · intro j hj
          obtain ⟨a1, a2, a3, a4⟩ := hi.pend j hj
          refine ⟨List.mem_filter.2 ⟨a1, ?_⟩, a2, a3, a4⟩
          simp only [decide_eq_true_eq]
          rintro rfl
          exact absurd (hf.symm.trans a4) (by simp)
      | run c k r w hw hk =>
        obtain ⟨a1, a2, a3, a4⟩ := hi.pend k hk
        refine ih hb m fs out opened ⟨hi.copy, hi.next, hi.out, hi.nodup.erase k, ?_, ?_, ?_⟩ hs
        · intro j hj
          have hjk : j ≠ k := fun e => by subst e; exact (List.Nodup.not_mem_erase hi.nodup) hj
          obtain ⟨b1, b2, b3, b4⟩ := hi.pend j (List.mem_of_mem_erase hj)
          refine ⟨b1, b2, b3, ?_⟩
          simp only [Function.update_of_ne hjk]
          exact b4
        · intro j f hf
          by_cases hjk : j = k
          · subst hjk
            simp only [Function.update_self, Option.some.injEq] at hf
            rw [← hf, hi.copy w hw]
            exact a3
          · simp only [Function.update_of_ne hjk] at hf
            exact hi.done j f hf
        · intro j hj
          have hjk : j ≠ k := by omega
          simp only [Function.update_of_ne hjk]
          exact hi.none j hj
  exact key _ _ he rfl x [] [] [] ⟨fun _ _ => rfl, rfl, rfl, by simp [Cluster.init], by simp [Cluster.init],
    by simp [Cluster.init], by simp [Cluster.init]⟩ hp

/-- C148. There is such an execution for every program the serial simulation accepts, so that the cluster
does not block. -/
theorem C148_progress (s : Sim X F Q D) (on : ℕ → Prop) (w : ℕ) (hw : on w) (x : X) (p : List (Cmd X Q)) (out : List D)
    (h : serial s p x [] [] = some out) :
    ∃ c : Cluster X F D, Steps s on (Cluster.init x, p) (c, []) ∧ c.out = out := by
  have key : ∀ (p : List (Cmd X Q)) (c : Cluster X F D) fs, c.pending = [] → c.next = fs.length → (∀ k, c.done k = fs[k]?) →
      serial s p (c.copy w) fs c.out = some out → ∃ c' : Cluster X F D, Steps s on (c, p) (c', []) ∧ c'.out = out := by
    intro p
    induction p with
    | nil =>
      intro c fs _ _ _ h
      simp only [serial, Option.some.injEq] at h
      exact ⟨c, .refl _, h⟩
    | cons a r ih =>
      intro c fs hp hn hd h
      cases a with
      | store x' =>
        simp only [serial] at h
        obtain ⟨c', h1, h2⟩ := ih { c with copy := Function.update c.copy w x' } fs hp hn hd (by simpa using h)
        exact ⟨c', .head _ _ _ (.store c x' r w hw) h1, h2⟩
      | submit =>
        simp only [serial] at h
        obtain ⟨c', h1, h2⟩ := ih { c with
            pending := [c.next].erase c.next, next := c.next + 1
            done := Function.update c.done c.next (some (s.fields (c.copy w))) } (fs ++ [s.fields (c.copy w)])
          (by simp) (by simp [hn]) (by
            intro k
            by_cases hk : k = fs.length
            · subst hk
              simp [← hn]
            · rw [← hn] at hk
              simp only [Function.update_of_ne hk]
              rw [hd k]
              rcases Nat.lt_or_ge k fs.length with hlt | hge
              · rw [List.getElem?_append_left hlt]
              · rw [List.getElem?_eq_none hge, List.getElem?_eq_none (by simp; omega)]) h
        refine ⟨c', .head _ _ _ (.submit c r) (.head _ _ _ (.run _ c.next r w hw (by simp)) ?_), h2⟩
        simpa [hp] using h1
      | query q k =>
        simp only [serial] at h
        cases hk : fs[k]? with
        | none => rw [hk] at h; simp at h
        | some f =>
          rw [hk] at h
          obtain ⟨c', h1, h2⟩ := ih { c with out := c.out ++ [s.query (c.copy w) f q] } fs hp hn hd h
          exact ⟨c', .head _ _ _ (.query c q k r w f hw (by rw [hd, hk])) h1, h2⟩
  exact key p (Cluster.init x) [] rfl rfl (by simp [Cluster.init]) h

/-- C148. **Race**: fields of one model submitted before another model is sent may be those of the other
model, also on one worker. -/
theorem C148_violated_race (s : Sim X F Q D) (w : ℕ) (x0 x y : X) (q : Q) :
    let p : List (Cmd X Q) := [.store x, .submit, .store y, .query q 0]
    serial s p x0 [] [] = some [s.query y (s.fields x) q] ∧
    ∃ c : Cluster X F D, Steps s (· = w) (Cluster.init x0, p) (c, []) ∧ c.out = [s.query y (s.fields y) q] := by
  refine ⟨by simp [serial], _, .head _ _ _ (.store _ x _ w rfl) (.head _ _ _ (.submit _ _)
    (.head _ _ _ (.store _ y _ w rfl) (.head _ _ _ (.run _ 0 _ w rfl (by simp [Cluster.init]))
      (.head _ _ _ (.query _ q 0 _ w (s.fields y) rfl (by simp)) (.refl _))))), ?_⟩
  simp [Cluster.init]

/-- C148. **Any worker**: without an assigned worker the fields may be those of the model before. -/
theorem C148_violated_any_worker (s : Sim X F Q D) (w w' : ℕ) (hw : w ≠ w') (x0 x : X) (q : Q) :
    let p : List (Cmd X Q) := [.store x, .submit, .query q 0]
    serial s p x0 [] [] = some [s.query x (s.fields x) q] ∧ Synced p [] 0 ∧
    ∃ c : Cluster X F D, Steps s (fun _ => True) (Cluster.init x0, p) (c, []) ∧ c.out = [s.query x0 (s.fields x0) q] := by
  refine ⟨by simp [serial], by simp [Synced], _, .head _ _ _ (.store _ x _ w trivial) (.head _ _ _ (.submit _ _)
    (.head _ _ _ (.run _ 0 _ w' trivial (by simp [Cluster.init]))
      (.head _ _ _ (.query _ q 0 _ w' (s.fields x0) trivial (by simp [Cluster.init, Function.update_of_ne hw.symm])) (.refl _)))), ?_⟩
  simp [Cluster.init, Function.update_of_ne hw.symm]

end

/-! ### Predictions of a repeated simulation -/

/-- C148. **Predictions from given fields**: those of the mapped model if the fields are those of that
model.
Missing: with other fields, the fields are ignored by a repeated simulation, `C148_violated_fields`. -/
theorem C148_predictions_partial {M F D : Type} (fields : M → F) (dpred : M → F → D) (applyMap : Bool) (m : M) :
    calcDpred fields dpred applyMap (some m) m (fields m) = dpred m (fields m) := by
  cases applyMap <;> rfl

theorem C148_violated_fields {M F D : Type} (fields : M → F) (dpred : M → F → D) (m own : M) (f : F) :
    calcDpred fields dpred true (some m) own f = dpred m (fields m) := rfl

/-! ### Cases -/

/-- Five items on three workers. -/
example : reduce (· + ·) [1, 2, 3, 4, (5 : ℕ)] [some 2, some 0, some 1, some 0, some 2] = .ok 15 :=
  C148_reduce _ _ rfl (by decide) (by simp)

/-- Objects on two workers, one of them on both. -/
example : workersOf (fun o => if o = 1 then [0, 1] else [o % 2]) [0, 1, 2, 3] = [some 0, some 1, some 0, some 1] := by
  decide +kernel

example : none ∉ workersOf (fun o => if o = 1 then [0, 1] else [o % 2]) [0, 1, 2, 3] :=
  C148_assigned_partial (fun o => by split_ifs <;> simp) _ (by decide)

/-- Two models, the fields of each used before the next. -/
example : Synced ([.store 1, .submit, .query () 0, .query () 0, .store 2, .submit, .submit, .query () 2, .query () 1,
    .store 3] : List (Cmd ℕ Unit)) [] 0 := by
  simp [Synced]

end Props
end Verif.Meta.Dask
