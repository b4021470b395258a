import Verif.Basic
import Verif.Meta.Queues
import Mathlib.Data.Fintype.BigOperators

/-! `_SimulationProcess` and the calls of `MultiprocessingMetaSimulation`
(`simpeg/meta/multiprocessing.py` 8-178, 263-330) on the queues of `Meta/Queues.lean`. -/

namespace Verif.Meta.Parallel
open Verif Verif.Meta.Queues

/-- What comes out of a result queue: a key of a cached item, an array, or an exception
object, which is put like any other reply (113-115). -/
inductive Reply (D : Type)
  | key (n : Nat)
  | data (d : D)
  | err (e : Err)
  deriving DecidableEq

/-- Tasks (55-112). `query` stands for operations 2 to 5 (`dpred`, `Jvec`, `Jtvec`,
`getJtJdiag`); a task carries whatever the head holds as the key of the fields. -/
inductive Task (X Q D : Type)
  | store (x : X)
  | fields
  | query (q : Q) (key : Reply D)
  | del (key : Reply D)

/-- The simulation of one worker. Methods may raise. -/
structure Chunk (X F Q D : Type) where
  assign : X → Except Err Unit
  fields : X → Except Err F
  query : X → F → Q → Except Err D

/-- A worker: the model of its simulation, its cached fields, and the number of fields made.
Keys are `uuid4` in the code; here a counter, which is unique for certain. -/
structure WState (X F : Type) where
  model : X
  cache : Nat → Option F
  next : Nat

variable {X F Q D : Type}

/-- One pass of the loop of `_SimulationProcess.run` (54-115): `store_model` replies only when
it raises (74-78), the key of new fields is put before they are computed (79-86), unknown keys
raise `KeyError`, `del_item` never does (71-73). -/
def work (c : Chunk X F Q D) (s : WState X F) : Task X Q D → WState X F × List (Reply D)
  | .store x => match c.assign x with
    | .error e => (s, [.err e])
    | .ok _ => ({ s with model := x }, [])
  | .fields => match c.fields s.model with
    | .error e => ({ s with next := s.next + 1 }, [.key s.next, .err e])
    | .ok f => ({ s with cache := Function.update s.cache s.next (some f), next := s.next + 1 },
        [.key s.next])
  | .query q k => match k with
    | .key n => match s.cache n with
      | none => (s, [.err .keyError])
      | some f => match c.query s.model f q with
        | .error e => (s, [.err e])
        | .ok d => (s, [.data d])
    | _ => (s, [.err .keyError])
  | .del k => match k with
    | .key n => ({ s with cache := Function.update s.cache n none }, [])
    | _ => (s, [])

/-- What the user of the parallel simulation does. `setModel` is an assignment that changes the
model; `fields` makes fields for the present model; `query i q` is `dpred`, `Jvec`, ... with
the `i`-th fields made, `q p` being the argument for process `p` (the slice of the data
vector in `Jtvec`); `drop i` releases the `i`-th fields. A call without fields is `fields`,
`query`, `drop`. -/
inductive Call (P : Nat) (X Q : Type)
  | setModel (x : X)
  | fields
  | query (i : Nat) (q : Fin P → Q)
  | drop (i : Nat)

variable {P : Nat}

abbrev HProg (P : Nat) (X Q D A : Type) := Prog (Fin P) (Task X Q D) (Reply D) A

/-- `for p in processes: p.store_model(m)` (263-268). -/
def progStore {A : Type} (x : X) : List (Fin P) → HProg P X Q D A → HProg P X Q D A
  | [], k => k
  | p :: ps, k => .put p (.store x) (progStore x ps k)

/-- `for p in processes: f.append(p.get_fields())` (286-288, 131-137). -/
def progFields {A : Type} : List (Fin P) → List (Reply D) → (List (Reply D) → HProg P X Q D A) →
    HProg P X Q D A
  | [], acc, k => k acc
  | p :: ps, acc, k => .put p .fields (.get p fun r => progFields ps (acc ++ [r]) k)

/-- `for p, field in zip(processes, f): p.start_...(field)` (296-297, 309-310, 321-323). -/
def progStart {A : Type} (q : Fin P → Q) : List (Fin P × Reply D) → HProg P X Q D A →
    HProg P X Q D A
  | [], k => k
  | (p, r) :: l, k => .put p (.query (q p) r) (progStart q l k)

/-- `for p in processes: out.append(p.result())` (299-301). -/
def progResults {A : Type} : List (Fin P) → List (Reply D) →
    (List (Reply D) → HProg P X Q D A) → HProg P X Q D A
  | [], acc, k => k acc
  | p :: ps, acc, k => .get p fun r => progResults ps (acc ++ [r]) k

/-- The futures of a list of fields are collected (27-29). -/
def progDel {A : Type} : List (Fin P × Reply D) → HProg P X Q D A → HProg P X Q D A
  | [], k => k
  | (p, r) :: l, k => .put p (.del r) (progDel l k)

/-- The head process during a history of calls. `futs` are the fields the user holds, `outs`
the replies given to the queries so far. -/
def prog : List (Call P X Q) → List (Option (List (Reply D))) → List (List (Reply D)) →
    HProg P X Q D (List (List (Reply D)))
  | [], _, outs => .ret outs
  | .setModel x :: cs, futs, outs => progStore x (List.finRange P) (prog cs futs outs)
  | .fields :: cs, futs, outs =>
    progFields (List.finRange P) [] fun f => prog cs (futs ++ [some f]) outs
  | .query i q :: cs, futs, outs => match futs[i]? with
    | some (some f) => progStart q ((List.finRange P).zip f)
        (progResults (List.finRange P) [] fun r => prog cs futs (outs ++ [r]))
    | _ => prog cs futs outs
  | .drop i :: cs, futs, outs => match futs[i]? with
    | some (some f) => progDel ((List.finRange P).zip f) (prog cs (futs.set i none) outs)
    | _ => prog cs futs outs

/-- The queues while one worker is not the one a step is about. -/
abbrev Env (P : Nat) (X F D : Type) := Fin P → WState X F × List (Reply D)

/-! ### Specification: one process, no queues -/

/-- The simulations of the chunks used in one process, where a call is just a call. `x` is the
present model, `held` the fields objects the user holds, one component per chunk.
`Serial cs calls x held outs` says that none of the calls raises and that the queries return
`outs`: for each query, what each chunk's simulation returns for its part of the argument. -/
inductive Serial (cs : Fin P → Chunk X F Q D) :
    List (Call P X Q) → X → List (Option (Fin P → F)) → List (List D) → Prop
  | nil (x held) : Serial cs [] x held []
  | setModel {l x held outs} (y : X) (h : ∀ p, (cs p).assign y = .ok ())
      (hs : Serial cs l y held outs) : Serial cs (.setModel y :: l) x held outs
  | fields {l x held outs} (f : Fin P → F) (h : ∀ p, (cs p).fields x = .ok (f p))
      (hs : Serial cs l x (held ++ [some f]) outs) : Serial cs (.fields :: l) x held outs
  | query {l x held outs} (i : Nat) (q : Fin P → Q) (f : Fin P → F) (d : Fin P → D)
      (hf : held[i]? = some (some f)) (h : ∀ p, (cs p).query x (f p) (q p) = .ok (d p))
      (hs : Serial cs l x held outs) :
      Serial cs (.query i q :: l) x held ((List.finRange P).map d :: outs)
  | drop {l x held outs} (i : Nat) (f : Fin P → F) (hf : held[i]? = some (some f))
      (hs : Serial cs l x (held.set i none) outs) : Serial cs (.drop i :: l) x held outs

/-- Workers before the first call: they have the model `x` and no fields. -/
def fresh (x : X) : Fin P → WState X F := fun _ => ⟨x, fun _ => none, 0⟩

namespace Props

variable {A : Type} (cs : Fin P → Chunk X F Q D)

theorem serial_progStore (x : X) (h : ∀ p, (cs p).assign x = .ok ()) (k : HProg P X Q D A) :
    ∀ (ps : List (Fin P)), ps.Nodup → ∀ (e : Env P X F D),
    serial (fun p => work (cs p)) (progStore x ps k) e =
      serial (fun p => work (cs p)) k
        (fun p => if p ∈ ps then ({ (e p).1 with model := x }, (e p).2) else e p)
  | [], _, e => by simp [progStore]
  | p :: ps, hn, e => by
    rw [List.nodup_cons] at hn
    rw [progStore, serial, serial_progStore x h k ps hn.2]
    congr 1
    funext q
    by_cases hq : q = p
    · subst hq; simp [hn.1, work, h]
    · simp [Function.update_of_ne hq, hq]

theorem serial_progFields (x : X) (n : Nat) (f : Fin P → F) (h : ∀ p, (cs p).fields x = .ok (f p))
    (k : List (Reply D) → HProg P X Q D A) :
    ∀ (ps : List (Fin P)), ps.Nodup → ∀ (acc : List (Reply D)) (e : Env P X F D),
    (∀ p ∈ ps, (e p).1.model = x ∧ (e p).1.next = n ∧ (e p).2 = []) →
    serial (fun p => work (cs p)) (progFields ps acc k) e =
      serial (fun p => work (cs p)) (k (acc ++ ps.map fun _ => .key n))
        (fun p => if p ∈ ps then
          ({ (e p).1 with cache := Function.update (e p).1.cache n (some (f p)), next := n + 1 }, [])
          else e p)
  | [], _, acc, e, _ => by simp [progFields]
  | p :: ps, hn, acc, e, he => by
    rw [List.nodup_cons] at hn
    obtain ⟨h1, h2, h3⟩ := he p (by simp)
    have hw : work (cs p) (e p).1 .fields = ({ (e p).1 with
        cache := Function.update (e p).1.cache n (some (f p)), next := n + 1 }, [.key n]) := by
      simp [work, h1, h, h2]
    rw [progFields, serial, serial]
    simp only [Function.update_self, hw, h3, List.nil_append]
    rw [serial_progFields x n f h k ps hn.2 (acc ++ [Reply.key n])]
    · rw [List.append_assoc, List.map_cons, List.singleton_append]
      congr 1
      funext q
      by_cases hq : q = p
      · subst hq; simp [hn.1]
      · simp [Function.update_of_ne hq, hq]
    · intro q hq
      have : q ≠ p := fun e => hn.1 (e ▸ hq)
      simp only [Function.update_of_ne this]
      exact he q (by simp [hq])

theorem serial_progStart (x : X) (i : Nat) (q : Fin P → Q) (f : Fin P → F) (d : Fin P → D)
    (h : ∀ p, (cs p).query x (f p) (q p) = .ok (d p)) (k : HProg P X Q D A) :
    ∀ (ps : List (Fin P)), ps.Nodup → ∀ (e : Env P X F D),
    (∀ p ∈ ps, (e p).1.model = x ∧ (e p).1.cache i = some (f p)) →
    serial (fun p => work (cs p)) (progStart q (ps.map fun p => (p, .key i)) k) e =
      serial (fun p => work (cs p)) k
        (fun p => if p ∈ ps then ((e p).1, (e p).2 ++ [.data (d p)]) else e p)
  | [], _, e, _ => by simp [progStart]
  | p :: ps, hn, e, he => by
    rw [List.nodup_cons] at hn
    obtain ⟨h1, h2⟩ := he p (by simp)
    have hw : work (cs p) (e p).1 (.query (q p) (.key i)) = ((e p).1, [.data (d p)]) := by
      simp [work, h1, h, h2]
    rw [List.map_cons, progStart, serial]
    simp only [hw]
    rw [serial_progStart x i q f d h k ps hn.2]
    · congr 1
      funext q
      by_cases hq : q = p
      · subst hq; simp [hn.1]
      · simp [Function.update_of_ne hq, hq]
    · intro q hq
      have : q ≠ p := fun e => hn.1 (e ▸ hq)
      simp only [Function.update_of_ne this]
      exact he q (by simp [hq])

theorem serial_progResults (r : Fin P → Reply D) (k : List (Reply D) → HProg P X Q D A) :
    ∀ (ps : List (Fin P)), ps.Nodup → ∀ (acc : List (Reply D)) (e : Env P X F D),
    (∀ p ∈ ps, (e p).2 = [r p]) →
    serial (fun p => work (cs p)) (progResults ps acc k) e =
      serial (fun p => work (cs p)) (k (acc ++ ps.map r))
        (fun p => if p ∈ ps then ((e p).1, []) else e p)
  | [], _, acc, e, _ => by simp [progResults]
  | p :: ps, hn, acc, e, he => by
    rw [List.nodup_cons] at hn
    rw [progResults, serial]
    simp only [he p (by simp)]
    rw [serial_progResults r k ps hn.2 (acc ++ [r p])]
    · rw [List.append_assoc, List.map_cons, List.singleton_append]
      congr 1
      funext q
      by_cases hq : q = p
      · subst hq; simp [hn.1]
      · simp [Function.update_of_ne hq, hq]
    · intro q hq
      have : q ≠ p := fun e => hn.1 (e ▸ hq)
      simp only [Function.update_of_ne this]
      exact he q (by simp [hq])

theorem serial_progDel (i : Nat) (k : HProg P X Q D A) :
    ∀ (ps : List (Fin P)), ps.Nodup → ∀ (e : Env P X F D),
    serial (fun p => work (cs p)) (progDel (ps.map fun p => (p, .key i)) k) e =
      serial (fun p => work (cs p)) k
        (fun p => if p ∈ ps then
          ({ (e p).1 with cache := Function.update (e p).1.cache i none }, (e p).2) else e p)
  | [], _, e => by simp [progDel]
  | p :: ps, hn, e => by
    rw [List.nodup_cons] at hn
    rw [List.map_cons, progDel, serial, serial_progDel i k ps hn.2]
    congr 1
    funext q
    by_cases hq : q = p
    · subst hq; simp [hn.1, work]
    · simp [Function.update_of_ne hq, hq]

/-- Between calls: nothing is left in a queue, every worker has the present model and the
components of the fields the user holds. -/
def Idle (x : X) (held : List (Option (Fin P → F))) (e : Env P X F D) : Prop :=
  ∀ p, (e p).2 = [] ∧ (e p).1.model = x ∧ (e p).1.next = held.length ∧
    ∀ i f, held[i]? = some (some f) → (e p).1.cache i = some (f p)

/-- The futures of the `i`-th fields carry the key `i`. -/
def Futs (held : List (Option (Fin P → F))) (futs : List (Option (List (Reply D)))) : Prop :=
  futs.length = held.length ∧
  ∀ i f, held[i]? = some (some f) → futs[i]? = some (some ((List.finRange P).map fun _ => (Reply.key i : Reply D)))

theorem zip_keys (i : Nat) : (List.finRange P).zip ((List.finRange P).map fun _ => Reply.key i) =
    (List.finRange P).map fun p => (p, (Reply.key i : Reply D)) := by
  apply List.ext_getElem
  · simp
  · intro j h1 h2; simp

theorem serial_prog {l : List (Call P X Q)} {x : X} {held : List (Option (Fin P → F))}
    {outs : List (List D)} (h : Serial cs l x held outs) :
    ∀ (e : Env P X F D) (futs : List (Option (List (Reply D)))) (acc : List (List (Reply D))),
    Idle x held e → Futs held futs →
    serial (fun p => work (cs p)) (prog l futs acc) e =
      some (acc ++ outs.map fun o => o.map Reply.data) := by
  induction h with
  | nil x held => intro e futs acc _ _; simp [prog, serial]
  | @setModel l x held outs y h hs ih =>
    intro e futs acc hi hf
    rw [prog, serial_progStore cs y h _ _ (List.nodup_finRange P)]
    apply ih _ _ _ _ hf
    intro p
    obtain ⟨h1, h2, h3, h4⟩ := hi p
    simp only [List.mem_finRange, if_true]
    exact ⟨h1, trivial, h3, h4⟩
  | @fields l x held outs f h hs ih =>
    intro e futs acc hi hf
    rw [prog, serial_progFields cs x held.length f h _ _ (List.nodup_finRange P) _ _
      (fun p _ => ⟨(hi p).2.1, (hi p).2.2.1, (hi p).1⟩)]
    simp only [List.nil_append, List.mem_finRange, if_true]
    apply ih
    · intro p
      obtain ⟨h1, h2, h3, h4⟩ := hi p
      refine ⟨rfl, h2, by simp, ?_⟩
      intro i g hg
      rcases Nat.lt_trichotomy i held.length with hlt | rfl | hgt
      · rw [List.getElem?_append_left hlt] at hg
        simp only
        rw [Function.update_of_ne (by omega)]
        exact h4 i g hg
      · simp at hg
        simp [hg]
      · rw [List.getElem?_eq_none (by simp; omega)] at hg
        cases hg
    · refine ⟨by simp [hf.1], ?_⟩
      intro i g hg
      rcases Nat.lt_trichotomy i held.length with hlt | rfl | hgt
      · rw [List.getElem?_append_left hlt] at hg
        rw [List.getElem?_append_left (by rw [hf.1]; exact hlt)]
        exact hf.2 i g hg
      · rw [← hf.1]; simp
      · rw [List.getElem?_eq_none (by simp; omega)] at hg
        cases hg
  | @query l x held outs i q f d hfi h hs ih =>
    intro e futs acc hi hf
    simp only [prog, hf.2 i f hfi]
    rw [zip_keys, serial_progStart cs x i q f d h _ _ (List.nodup_finRange P) _
      (fun p _ => ⟨(hi p).2.1, (hi p).2.2.2 i f hfi⟩)]
    rw [serial_progResults cs (fun p => .data (d p)) _ _ (List.nodup_finRange P) _ _
      (fun p _ => by simp [(hi p).1])]
    simp only [List.nil_append, List.mem_finRange, if_true]
    rw [ih _ _ _ _ hf]
    · simp
    · intro p
      obtain ⟨h1, h2, h3, h4⟩ := hi p
      exact ⟨rfl, h2, h3, h4⟩
  | @drop l x held outs i f hfi hs ih =>
    intro e futs acc hi hf
    simp only [prog, hf.2 i f hfi]
    rw [zip_keys, serial_progDel cs i _ _ (List.nodup_finRange P)]
    simp only [List.mem_finRange, if_true]
    apply ih
    · intro p
      obtain ⟨h1, h2, h3, h4⟩ := hi p
      refine ⟨h1, h2, by simpa using h3, ?_⟩
      intro j g hg
      rw [List.getElem?_set] at hg
      split at hg
      · split at hg <;> cases hg
      · next hne =>
        simp only
        rw [Function.update_of_ne (by omega)]
        exact h4 j g hg
    · refine ⟨by simp [hf.1], ?_⟩
      intro j g hg
      rw [List.getElem?_set] at hg ⊢
      split at hg
      · split at hg <;> cases hg
      · next hne =>
        rw [if_neg hne]
        exact hf.2 j g hg

/-! ### C33 -/

/-- C33. For any number of processes, any simulations, any history of model changes, field
computations, predictions, products and releases of fields for which the serial simulation
raises nothing, and any schedule of the head process, the workers and the queues: a finished
run returns exactly what the serial simulation returns; a run that is not finished can go on;
and no run goes on forever. Missing: histories in which a worker raises, where the claim is false
(`C33_desync_after_exception`). -/
theorem C33_parallel_eq_serial_partial (calls : List (Call P X Q)) (x : X) (outs : List (List D))
    (h : Serial cs calls x [] outs) :
    (∀ n t, Run (fun p => work (cs p)) n (start (prog calls [] []) (fresh x)) t →
      ∀ res, t.prog = .ret res → res = outs.map fun o => o.map Reply.data) ∧
    (∀ n t, Run (fun p => work (cs p)) n (start (prog calls [] []) (fresh x)) t →
      (∀ res, t.prog ≠ .ret res) → ∃ u, Step (fun p => work (cs p)) t u) ∧
    ∃ N, ∀ n t, Run (fun p => work (cs p)) n (start (prog calls [] []) (fresh x)) t → n ≤ N := by
  have hser := serial_prog cs h (fun p => (fresh x p, [])) [] []
    (by intro p; simp [fresh]) (by simp [Futs])
  simp only [List.nil_append] at hser
  refine ⟨?_, ?_, ?_⟩
  · intro n t hr res hres
    have := run_result _ _ _ hr res hres
    rw [hser] at this
    exact (Option.some.inj this).symm
  · intro n t hr hne
    exact run_progress _ _ _ _ hser hr hne
  · exact ⟨_, fun n t hr => run_bounded _ _ _ hr⟩

/-- A history with two fields objects, a model change between them, a query of the older one
after the change, on two workers. -/
example : Serial (P := 2) (X := Nat) (F := Nat) (Q := Nat) (D := Nat)
    (fun p => ⟨fun _ => .ok (), fun x => .ok (x + p), fun x f q => .ok (100 * x + 10 * f + q)⟩)
    [.fields, .setModel 2, .fields, .query 0 (fun p => p), .drop 0, .query 1 (fun _ => 7)] 1 []
    [[210, 221], [227, 237]] := by
  rw [show ([210, 221] : List Nat) =
      (List.finRange 2).map (fun p : Fin 2 => 100 * 2 + 10 * (1 + p.1) + p.1) by decide,
    show ([227, 237] : List Nat) =
      (List.finRange 2).map (fun p : Fin 2 => 100 * 2 + 10 * (2 + p.1) + 7) by decide]
  refine .fields (fun p => 1 + p.1) (fun p => rfl) ?_
  refine .setModel 2 (fun p => rfl) ?_
  refine .fields (fun p => 2 + p.1) (fun p => rfl) ?_
  refine .query 0 _ (fun p => 1 + p.1) _ rfl (fun p => rfl) ?_
  refine .drop 0 _ rfl ?_
  exact .query 1 _ (fun p => 2 + p.1) _ rfl (fun p => rfl) (.nil _ _)

/-! ### C33, when a worker raises

`result()` never looks at what it takes from the queue, and a worker whose `store_model` or
`fields` raises puts a reply nobody waits for. From then on every reply is taken for the answer
to a later question. -/

/-- A simulation that rejects negative models, and then is used with a good one. -/
def picky : Chunk Int Int Unit Int :=
  ⟨fun x => if x < 0 then .error .valueError else .ok (), fun x => .ok x, fun _ f _ => .ok f⟩

/-- C33 fails after an exception in a worker: a rejected model is followed by a good one, and
the query on the good one returns a wrong object, although the serial simulation (where the
caller sees the exception and goes on) answers it. -/
theorem C33_desync_after_exception :
    Serial (P := 1) (fun _ => picky) [.setModel 5, .fields, .query 0 fun _ => ()] 1 [] [[5]] ∧
    serial (fun _ : Fin 1 => work picky)
      (prog [.setModel (-1), .setModel 5, .fields, .query 0 fun _ => ()] [] [])
      (fun p => (fresh 1 p, [])) = some [[.key 0]] := by
  constructor
  · refine .setModel 5 (fun p => rfl) ?_
    refine .fields (fun p => 5) (fun p => rfl) ?_
    exact .query 0 _ _ (fun p => 5) rfl (fun p => rfl) (.nil _ _)
  · decide

end Props
end Verif.Meta.Parallel
