import Verif.Basic
import Mathlib.Data.Rat.Defs
import Mathlib.Algebra.Order.Field.Basic
import Mathlib.Algebra.Order.Field.Rat
import Mathlib.Tactic.Linarith
import Mathlib.Tactic.NormNum
import Mathlib.Tactic.Ring
import Mathlib.Tactic.FieldSimp
import Mathlib.Algebra.Order.Archimedean.Basic
import Mathlib.Data.Rat.Floor

/-! Model of the `HasModel.model` setter (`simpeg/props.py` 402-485): length checks, nested
modelers with rollback, and the deletion of model-dependent caches. C22, C53. -/

namespace Verif.HasModel.Setter
open Verif

abbrev Vec := List ℚ

/-- The pairs numpy compares after broadcasting two one-dimensional arrays, `none` if their
lengths cannot be broadcast. -/
def broadcast (a b : Vec) : Option (List (ℚ × ℚ)) :=
  if a.length = b.length then some (a.zip b)
  else match a, b with
    | [x], b => some (b.map fun y => (x, y))
    | a, [y] => some (a.map fun x => (x, y))
    | _, _ => none

/-- `np.allclose(previous, value)`: `|p - v| <= atol + rtol |v|` with the default tolerances,
for all entries; ValueError when the shapes cannot be broadcast. Finite entries only. -/
def allclose (p v : Vec) : Except Err Bool :=
  match broadcast p v with
  | none => .error .valueError
  | some l => .ok (l.all fun q => decide (|q.1 - q.2| ≤ 1 / 100000000 + 1 / 100000 * |q.2|))

/-- An object with a model: the numbers of parameters of its active maps (`none` is `"*"`),
its model and one model-dependent cache (a name listed in `_delete_on_model_update`). -/
structure Node (β : Type) where
  maps : List (Option Nat)
  model : Option Vec
  cache : Option β

variable {β : Type}

/-- `needs_model` (350-353). -/
def Node.needs (s : Node β) : Bool := !s.maps.isEmpty

/-- The length test (422-439): every active map takes a model of that length. -/
def Node.accepts (s : Node β) (v : Vec) : Bool :=
  s.maps.all fun r => match r with
    | none => true
    | some k => k == v.length

/-- Lines 455-473: delete caches unless the new model is close to the old one, then store. -/
def Node.store (s : Node β) (v : Option Vec) : Except Err (Node β) :=
  match s.model, v with
  | some p, some v => match allclose p v with
    | .error e => .error e
    | .ok true => .ok { s with model := some v }
    | .ok false => .ok { s with model := some v, cache := none }
  | none, none => .ok s
  | _, v => .ok { s with model := v, cache := none }

/-- `obj.model = v` for an object without nested modelers. -/
def Node.assign (s : Node β) : Option Vec → Except Err (Node β)
  | none => s.store none
  | some v =>
    if s.needs = false then .error .valueError
    else if s.accepts v = false then .error .valueError
    else s.store (some v)

/-- `del obj.model` (480-485): the stored `(None,)` is never an array; it is `none` here. -/
def Node.delete (s : Node β) : Node β := { s with model := none, cache := none }

/-- Reading a model-dependent quantity `F(model)` through its cache. -/
def Node.read (F : Vec → β) (s : Node β) : Option β × Node β :=
  match s.cache with
  | some b => (some b, s)
  | none => match s.model with
    | none => (none, s)
    | some m => (some (F m), { s with cache := some (F m) })

/-- A modeler and its nested modelers (themselves without nested ones, as everywhere in the
package); the order of the list stands for the iteration order of the set. -/
structure Sim (β : Type) where
  self : Node β
  kids : List (Node β)

/-- The loop 441-445 (also 448-451): assign to the nested modelers that need a model, stop at
the first exception. -/
def setKids : List (Node β) → Option Vec → List (Node β) × Option Err
  | [], _ => ([], none)
  | k :: ks, v =>
    if k.needs then match k.assign v with
      | .error e => (k :: ks, some e)
      | .ok k' => let r := setKids ks v; (k' :: r.1, r.2)
    else let r := setKids ks v; (k :: r.1, r.2)

/-- `sim.model = v` (407-478): the object after the assignment, and the exception if any. -/
def Sim.assign (s : Sim β) : Option Vec → Sim β × Option Err
  | none => match s.self.store none with
    | .error e => (s, some e)
    | .ok n => ({ s with self := n }, none)
  | some v =>
    if s.self.needs = false ∧ s.kids = [] then (s, some .valueError)
    else if s.self.accepts v = false then (s, some .valueError)
    else
      let r := setKids s.kids (some v)
      match r.2 with
      | some e =>
        -- rollback (446-452)
        let b := setKids r.1 s.self.model
        match b.2 with
        | some e' => ({ s with kids := b.1 }, some e')
        | none => ({ s with kids := b.1 }, some e)
      | none => match s.self.store (some v) with
        | .error e => ({ s with kids := r.1 }, some e)
        | .ok n => (⟨n, r.1⟩, none)

namespace Props

/-! ### C53: the models of nested modelers -/

/-- `v` can be compared with the present model. -/
def comparable (s : Node β) (v : Vec) : Prop := ∀ p, s.model = some p → broadcast p v ≠ none

theorem broadcast_comm (a b : Vec) : broadcast a b = none ↔ broadcast b a = none := by
  unfold broadcast
  by_cases h : a.length = b.length
  · simp [h]
  · rw [if_neg h, if_neg (fun e => h e.symm)]
    match a, b with
    | [], [] => simp at h
    | [], [y] => simp
    | [], _ :: _ :: _ => simp
    | [x], [] => simp
    | [x], [y] => simp at h
    | [x], _ :: _ :: _ => simp
    | _ :: _ :: _, [] => simp
    | _ :: _ :: _, [y] => simp
    | _ :: _ :: _, _ :: _ :: _ => simp

theorem broadcast_self (a : Vec) : broadcast a a ≠ none := by simp [broadcast]

theorem store_cases (s : Node β) (v : Option Vec) :
    (∃ s', s.store v = .ok s' ∧ s'.model = v ∧ s'.maps = s.maps ∧ ∀ w, v = some w → comparable s w) ∨
    (∃ e w, s.store v = .error e ∧ v = some w ∧ ¬ comparable s w) := by
  unfold Node.store comparable
  cases hm : s.model with
  | none => cases v <;> simp_all
  | some p => cases v with
    | none => simp
    | some w =>
      simp only [allclose]
      cases hb : broadcast p w with
      | none => right; simp [hb]
      | some l =>
        left
        cases hl : l.all (fun q => decide (|q.1 - q.2| ≤ 1 / 100000000 + 1 / 100000 * |q.2|))
        · exact ⟨{ s with model := some w, cache := none }, by simp only [hl], rfl, rfl,
            by simp [hb]⟩
        · exact ⟨{ s with model := some w }, by simp only [hl], rfl, rfl, by simp [hb]⟩

theorem assign_ok {s s' : Node β} {v : Option Vec} (h : s.assign v = .ok s') :
    s'.model = v ∧ s'.maps = s.maps ∧ ∀ w, v = some w → comparable s w := by
  have hst : s.store v = .ok s' := by
    cases v with
    | none => exact h
    | some v =>
      simp only [Node.assign] at h
      split at h
      · cases h
      · split at h
        · cases h
        · exact h
  rcases store_cases s v with ⟨t, ht, h1, h2, h3⟩ | ⟨e, w, he, -, -⟩
  · rw [hst] at ht; cases ht; exact ⟨h1, h2, h3⟩
  · rw [hst] at he; cases he

theorem assign_succeeds (s : Node β) (v : Option Vec) (hn : s.needs = true)
    (ha : ∀ w, v = some w → s.accepts w = true ∧ comparable s w) :
    ∃ s', s.assign v = .ok s' := by
  have hst : ∃ s', s.store v = .ok s' := by
    rcases store_cases s v with ⟨t, ht, -⟩ | ⟨e, w, -, hw, hc⟩
    · exact ⟨t, ht⟩
    · exact absurd (ha w hw).2 hc
  cases v with
  | none => exact hst
  | some v => simpa [Node.assign, hn, (ha v rfl).1] using hst

/-- What the loop over the nested modelers can do to one of them. -/
def Touched (v : Option Vec) (k k' : Node β) : Prop :=
  k'.maps = k.maps ∧ (k' = k ∨ k'.model = v ∧ ∀ w, v = some w → comparable k w)

theorem setKids_touched (v : Option Vec) : ∀ ks : List (Node β),
    List.Forall₂ (Touched v) ks (setKids ks v).1
  | [] => .nil
  | k :: ks => by
    have refl : ∀ l : List (Node β), List.Forall₂ (Touched v) l l := by
      intro l
      induction l with
      | nil => exact .nil
      | cons a l ih => exact .cons ⟨rfl, Or.inl rfl⟩ ih
    simp only [setKids]
    split
    · cases h : k.assign v with
      | error e => exact refl _
      | ok k' =>
        obtain ⟨h1, h2, h3⟩ := assign_ok h
        exact .cons ⟨h2, Or.inr ⟨h1, h3⟩⟩ (setKids_touched v ks)
    · exact .cons ⟨rfl, Or.inl rfl⟩ (setKids_touched v ks)

theorem setKids_ok (v : Option Vec) : ∀ ks : List (Node β), (setKids ks v).2 = none →
    ∀ k ∈ (setKids ks v).1, k.needs = true → k.model = v
  | [], _, k, hk, _ => by simp [setKids] at hk
  | a :: ks, h, k, hk, hn => by
    simp only [setKids] at h hk
    by_cases ha : a.needs
    · simp only [ha, if_true] at h hk
      cases has : a.assign v with
      | error e => rw [has] at h; simp at h
      | ok a' =>
        rw [has] at h hk
        simp only [List.mem_cons] at hk
        rcases hk with rfl | hk
        · exact (assign_ok has).1
        · exact setKids_ok v ks h k hk hn
    · simp only [ha] at h hk
      simp only [Bool.false_eq_true, if_false, List.mem_cons] at h hk
      rcases hk with rfl | hk
      · exact absurd hn ha
      · exact setKids_ok v ks h k hk hn

theorem setKids_succeeds (v : Option Vec) : ∀ ks : List (Node β),
    (∀ k ∈ ks, k.needs = true → ∀ w, v = some w → k.accepts w = true ∧ comparable k w) →
    (setKids ks v).2 = none
  | [], _ => rfl
  | a :: ks, h => by
    have ih := setKids_succeeds v ks (fun k hk => h k (by simp [hk]))
    simp only [setKids]
    by_cases ha : a.needs
    · obtain ⟨a', ha'⟩ := assign_succeeds a v ha (h a (by simp) ha)
      simp only [ha, if_true, ha', ih]
    · simp only [ha]
      simpa using ih

theorem touched_mem {v : Option Vec} {ks ks' : List (Node β)}
    (h : List.Forall₂ (Touched v) ks ks') : ∀ k' ∈ ks', ∃ k ∈ ks, Touched v k k' := by
  induction h with
  | nil => intro k' hk'; simp at hk'
  | cons hab _ ih =>
    intro k' hk'
    simp only [List.mem_cons] at hk'
    rcases hk' with rfl | hk'
    · exact ⟨_, by simp, hab⟩
    · obtain ⟨k, hk, r⟩ := ih k' hk'
      exact ⟨k, by simp [hk], r⟩

/-- All nested modelers that need a model hold the outer model. -/
def Agree (s : Sim β) : Prop := ∀ k ∈ s.kids, k.needs = true → k.model = s.self.model

/-- The nested modelers that need a model take the present outer model (their maps were not
exchanged for ones of another size since it was set). -/
def Fits (s : Sim β) : Prop :=
  ∀ k ∈ s.kids, k.needs = true → ∀ p, s.self.model = some p → k.accepts p = true

/-- C53. A successful assignment gives the model to the object and to every nested modeler
that needs one. -/
theorem C53_success (s s' : Sim β) (v : Vec) (h : s.assign (some v) = (s', none)) :
    s'.self.model = some v ∧ Agree s' := by
  simp only [Sim.assign] at h
  split at h
  · simp at h
  · split at h
    · simp at h
    · split at h
      · split at h <;> simp at h
      · next hk =>
        cases hst : s.self.store (some v) with
        | error e => rw [hst] at h; simp at h
        | ok n =>
          rw [hst] at h
          simp only [Prod.mk.injEq, and_true] at h
          subst h
          have hn : n.model = some v := by
            rcases store_cases s.self (some v) with ⟨t, ht, h1, -⟩ | ⟨e, w, he, -⟩
            · rw [hst] at ht; cases ht; exact h1
            · rw [hst] at he; cases he
          refine ⟨hn, fun k hkm hneeds => ?_⟩
          simp only [hn]
          exact setKids_ok _ _ hk k hkm hneeds

theorem accepts_iff (s : Node β) (v : Vec) :
    s.accepts v = true ↔ ∀ n, some n ∈ s.maps → n = v.length := by
  simp only [Node.accepts, List.all_eq_true]
  constructor
  · intro h n hn
    simpa using h _ hn
  · intro h r hr
    cases r with
    | none => rfl
    | some n => simpa using h n hr

theorem setKids_accepts (v : Vec) : ∀ ks : List (Node β), (setKids ks (some v)).2 = none →
    ∀ k ∈ ks, k.needs = true → k.accepts v = true
  | [], _, k, hk, _ => by simp at hk
  | a :: ks, h, k, hk, hn => by
    simp only [setKids] at h
    by_cases ha : a.needs
    · simp only [ha, if_true] at h
      cases has : a.assign (some v) with
      | error e => rw [has] at h; simp at h
      | ok a' =>
        rw [has] at h
        rcases List.mem_cons.mp hk with rfl | hk
        · cases hacc : k.accepts v
          · simp [Node.assign, hn, hacc] at has
          · rfl
        · exact setKids_accepts v ks h k hk hn
    · simp only [ha] at h
      simp only [Bool.false_eq_true, if_false] at h
      rcases List.mem_cons.mp hk with rfl | hk
      · exact absurd hn ha
      · exact setKids_accepts v ks h k hk hn

/-- C53. Which models are accepted: when no model has been set yet, exactly those whose length
is the input size of every mapping with a fixed input size, in the object and in its nested
modelers, provided there is something to map. -/
theorem C53_accepted_iff (s : Sim β) (v : Vec)
    (h0 : s.self.model = none) (hk : ∀ k ∈ s.kids, k.model = none) :
    (s.assign (some v)).2 = none ↔
      (s.self.maps ≠ [] ∨ s.kids ≠ []) ∧ (∀ n, some n ∈ s.self.maps → n = v.length) ∧
        ∀ k ∈ s.kids, ∀ n, some n ∈ k.maps → n = v.length := by
  have hst : ∃ n, s.self.store (some v) = .ok n := by
    rcases store_cases s.self (some v) with ⟨t, ht, -⟩ | ⟨e, w, -, -, hc⟩
    · exact ⟨t, ht⟩
    · exact absurd (fun p hp => by rw [h0] at hp; cases hp) hc
  obtain ⟨n, hn⟩ := hst
  have hneed : (s.self.needs = false ∧ s.kids = []) ↔ ¬ (s.self.maps ≠ [] ∨ s.kids ≠ []) := by
    simp [Node.needs]
  simp only [Sim.assign]
  split
  · next h => simp only [reduceCtorEq, false_iff]; exact fun ⟨a, _⟩ => (hneed.mp h) a
  · next h =>
    have h1 : s.self.maps ≠ [] ∨ s.kids ≠ [] := not_not.mp (fun q => h (hneed.mpr q))
    split
    · next ha =>
      simp only [reduceCtorEq, false_iff]
      intro ⟨_, b, _⟩
      rw [(accepts_iff _ _).mpr b] at ha
      cases ha
    · next ha =>
      have hacc : ∀ n, some n ∈ s.self.maps → n = v.length :=
        (accepts_iff _ _).mp (by simpa using ha)
      split
      · next e he =>
        have : ¬ ∀ k ∈ s.kids, ∀ n, some n ∈ k.maps → n = v.length := by
          intro hall
          have := setKids_succeeds (some v) s.kids (fun k hkm _ w hw => by
            cases hw
            exact ⟨(accepts_iff _ _).mpr (hall k hkm),
              fun p hp => by rw [hk k hkm] at hp; cases hp⟩)
          rw [this] at he
          cases he
        constructor
        · intro hc
          split at hc <;> cases hc
        · exact fun ⟨_, _, c⟩ => absurd c this
      · next he =>
        rw [hn]
        simp only [true_iff]
        refine ⟨h1, hacc, fun k hkm m hm => ?_⟩
        refine (accepts_iff _ _).mp (setKids_accepts v _ he k hkm ?_) m hm
        simp only [Node.needs, Bool.not_eq_true']
        cases hh : k.maps with
        | nil => rw [hh] at hm; simp at hm
        | cons a l => rfl

/-- Two fixed input sizes and a free one: length 2 is accepted, length 3 is not. -/
example : let s : Sim Nat := ⟨⟨[some 2], none, none⟩, [⟨[none, some 2], none, none⟩]⟩
    (s.assign (some [1, 2])).2 = none ∧ (s.assign (some [1, 2, 3])).2 ≠ none := by
  intro s
  refine ⟨(C53_accepted_iff s _ rfl ?_).mpr ?_, fun h => ?_⟩
  · simp [s]
  · simp [s]
  · have := (C53_accepted_iff s _ rfl (by simp [s])).mp h
    simp [s] at this

/-- C53. A failed assignment leaves the outer model as it was, and nested modelers that
agreed with it still do: the rollback always succeeds and restores all of them. -/
theorem C53_failure_restores (s s' : Sim β) (v : Option Vec) (e : Err)
    (h : s.assign v = (s', some e)) (hA : Agree s) (hF : Fits s) :
    s'.self = s.self ∧ Agree s' := by
  cases v with
  | none =>
    simp only [Sim.assign] at h
    rcases store_cases s.self none with ⟨t, ht, -⟩ | ⟨e', w, -, hw, -⟩
    · rw [ht] at h; simp at h
    · cases hw
  | some v =>
    simp only [Sim.assign] at h
    split at h
    · simp only [Prod.mk.injEq] at h; obtain ⟨rfl, -⟩ := h; exact ⟨rfl, hA⟩
    · split at h
      · simp only [Prod.mk.injEq] at h; obtain ⟨rfl, -⟩ := h; exact ⟨rfl, hA⟩
      · have ht := setKids_touched (some v) s.kids
        split at h
        · -- a nested modeler raised
          have hroll : (setKids (setKids s.kids (some v)).1 s.self.model).2 = none := by
            apply setKids_succeeds
            intro k' hk' hn w hw
            obtain ⟨k, hk, hm, hor⟩ : ∃ k ∈ s.kids, k'.maps = k.maps ∧
                (k' = k ∨ k'.model = some v ∧ ∀ w, some v = some w → comparable k w) := by
              exact touched_mem ht k' hk'
            have hn' : k.needs = true := by
              simpa [Node.needs, hm] using hn
            refine ⟨by simpa [Node.accepts, hm] using hF k hk hn' w hw, ?_⟩
            intro p hp
            have hkm := hA k hk hn'
            rcases hor with rfl | ⟨hv, hc⟩
            · rw [hkm, hw] at hp
              cases hp
              exact broadcast_self _
            · rw [hv] at hp
              cases hp
              have := hc v rfl w (by rw [hkm, hw])
              exact fun e => this ((broadcast_comm _ _).mpr e)
          rw [hroll] at h
          simp only [Prod.mk.injEq] at h
          obtain ⟨rfl, -⟩ := h
          exact ⟨rfl, fun k hk hn => setKids_ok _ _ hroll k hk hn⟩
        · next hk =>
          -- the outer comparison raised: then no nested modeler needed a model
          rcases store_cases s.self (some v) with ⟨t, ht', -⟩ | ⟨e', w, he', hw, hc⟩
          · rw [ht'] at h; simp at h
          · cases hw
            rw [he'] at h
            simp only [Prod.mk.injEq] at h
            obtain ⟨rfl, -⟩ := h
            refine ⟨rfl, fun k hk' hn => ?_⟩
            exfalso
            have key : ∀ ks ks' : List (Node β), List.Forall₂ (Touched (some v)) ks ks' →
                (∀ k ∈ ks, k.needs = true → k.model = s.self.model) →
                ∀ k ∈ ks', k.needs = true → k.model = some v → comparable s.self v := by
              intro ks ks' hall
              induction hall with
              | nil => intro _ k hk; simp at hk
              | cons hab _ ih =>
                intro hag k hk hn hkv
                simp only [List.mem_cons] at hk
                rcases hk with rfl | hk
                · next a b _ _ =>
                  have hn' : a.needs = true := by simpa [Node.needs, hab.1] using hn
                  have ham := hag a (by simp) hn'
                  rcases hab.2 with rfl | ⟨-, hc'⟩
                  · intro p hp
                    rw [← ham, hkv] at hp
                    cases hp
                    exact broadcast_self _
                  · intro p hp
                    exact hc' v rfl p (by rw [ham, hp])
                · exact ih (fun k hk => hag k (by simp [hk])) k hk hn hkv
            exact hc (key _ _ ht hA k hk' hn (setKids_ok _ _ hk k hk' hn))

/-- Two nested modelers, the second of which rejects the new model: everything is restored. -/
example : (Sim.assign (β := Unit)
    ⟨⟨[none], some [1, 2], none⟩, [⟨[none], some [1, 2], none⟩, ⟨[some 2], some [1, 2], none⟩]⟩
    (some [7])).1.kids.map Node.model = [some [1, 2], some [1, 2]] := by
  simp [Sim.assign, Node.needs, Node.accepts, setKids, Node.assign, Node.store, allclose,
    broadcast]
  norm_num [Node.needs, Node.accepts, setKids, Node.assign, Node.store, allclose, broadcast]

/-! ### C22: caches -/

/-- What a user does with an object that has a model. `mutate` is an in-place change of the
array that was assigned (the setter does not copy: `astype(copy=False)`), and is possible
when a model is set. -/
inductive Op where
  | assign (v : Option Vec)
  | delete
  | read
  | mutate (v : Vec)

/-- A rejected assignment leaves the object as it was. -/
def step (F : Vec → β) (s : Node β) : Op → Node β
  | .assign v => match s.assign v with
    | .ok s' => s'
    | .error _ => s
  | .delete => s.delete
  | .read => (s.read F).2
  | .mutate v => match s.model with
    | some _ => { s with model := some v }
    | none => s

def run (F : Vec → β) (s : Node β) (ops : List Op) : Node β := ops.foldl (step F) s

/-- The models `p` and `v` are the same to the setter. -/
def Close (p v : Vec) : Prop := allclose p v = .ok true

/-- `v` is reached from `p` by steps each of which the setter considers no change. -/
inductive Drift : Vec → Vec → Prop
  | refl (p : Vec) : Drift p p
  | step {p q v : Vec} : Drift p q → Close q v → Drift p v

/-- The cached quantity belongs to a model from which the present one was reached by steps
each of which was within the tolerance. -/
def CacheInv (F : Vec → β) (s : Node β) : Prop :=
  ∀ b, s.cache = some b → ∃ p m, s.model = some m ∧ Drift p m ∧ b = F p

theorem assign_cache (F : Vec → β) {s s' : Node β} {v : Option Vec} (h : s.assign v = .ok s')
    (hI : CacheInv F s) : CacheInv F s' := by
  have hst : s.store v = .ok s' := by
    cases v with
    | none => exact h
    | some v =>
      simp only [Node.assign] at h
      split at h
      · cases h
      · split at h
        · cases h
        · exact h
  unfold Node.store at hst
  split at hst
  · next p w hp =>
    split at hst
    · cases hst
    · next hc =>
      cases hst
      intro b hb
      obtain ⟨q, m, hm, hd, rfl⟩ := hI b hb
      rw [hp] at hm
      cases hm
      exact ⟨q, w, rfl, .step hd hc, rfl⟩
    · cases hst; intro b hb; cases hb
  · cases hst; exact hI
  · cases hst; intro b hb; cases hb

/-- C22, the part that holds for every history without in-place changes: whatever is read
belongs to a model that differs from the present one by a chain of steps, each of which
`np.allclose` calls equal. -/
theorem C22_read_after_drift_partial (F : Vec → β) (maps : List (Option Nat)) (ops : List Op)
    (hops : ∀ w, Op.mutate w ∉ ops) (b : β)
    (hb : ((run F ⟨maps, none, none⟩ ops).read F).1 = some b) :
    ∃ p m, (run F ⟨maps, none, none⟩ ops).model = some m ∧ Drift p m ∧ b = F p := by
  have inv : ∀ (ops : List Op) (s : Node β), (∀ w, Op.mutate w ∉ ops) → CacheInv F s →
      CacheInv F (run F s ops) := by
    intro ops
    induction ops with
    | nil => intro s _ h; exact h
    | cons op ops ih =>
      intro s hn h
      simp only [run, List.foldl_cons]
      apply ih _ (fun w hw => hn w (by simp [hw]))
      cases op with
      | assign v =>
        simp only [step]
        split
        · next s' hs => exact assign_cache F hs h
        · exact h
      | delete => intro b hb; cases hb
      | read =>
        simp only [step, Node.read]
        split
        · exact h
        · split
          · exact h
          · next m hm =>
            intro b hb
            simp only [Option.some.injEq] at hb
            exact ⟨m, m, hm, .refl m, hb.symm⟩
      | mutate w => exact absurd (by simp) (hn w)
  have hI := inv ops ⟨maps, none, none⟩ hops (by intro b hb; cases hb)
  generalize run F ⟨maps, none, none⟩ ops = s at hI hb ⊢
  unfold Node.read at hb
  split at hb
  · next c hc => simp only [Option.some.injEq] at hb; subst hb; exact hI c hc
  · split at hb
    · simp at hb
    · next m hm =>
      simp only [Option.some.injEq] at hb
      exact ⟨m, m, hm, .refl m, hb.symm⟩

/-- C22. An accepted model that is not within the tolerance of the previous one discards the
cache: the next read is computed from the new model. -/
theorem C22_real_change_refreshes (F : Vec → β) (s s' : Node β) (v : Vec)
    (h : s.assign (some v) = .ok s') (hc : ∀ p, s.model = some p → ¬ Close p v) :
    (s'.read F).1 = some (F v) := by
  have hm := (assign_ok h).1
  have hcache : s'.cache = none := by
    simp only [Node.assign] at h
    split at h
    · cases h
    · split at h
      · cases h
      · unfold Node.store at h
        split at h
        · next p w hp hv =>
          cases hv
          split at h
          · cases h
          · next hcl => exact absurd hcl (hc p hp)
          · cases h; rfl
        · next hv => cases hv
        · cases h; rfl
  simp [Node.read, hcache, hm]

/-- C22 fails: by steps each within the tolerance the model moves arbitrarily far while the
quantity computed for the first model is still returned. -/
theorem C22_unbounded_drift (D : ℚ) : ∃ (ops : List Op) (m : ℚ),
    D < m ∧ (∀ w, Op.mutate w ∉ ops) ∧
    (run (fun v => v) ⟨[some 1], none, none⟩ ops).model = some [m] ∧
    ((run (fun v => v) ⟨[some 1], none, none⟩ ops).read (fun v => v)).1 = some [0] := by
  have key : ∀ N : ℕ, ∃ ops : List Op, (∀ w, Op.mutate w ∉ ops) ∧
      run (fun v => v) ⟨[some 1], none, none⟩ ops
        = ⟨[some 1], some [(N : ℚ) / 100000000], some [0]⟩ := by
    intro N
    induction N with
    | zero =>
      refine ⟨[.assign (some [0]), .read], by simp, ?_⟩
      simp [run, step, Node.assign, Node.needs, Node.accepts, Node.store, Node.read]
    | succ N ih =>
      obtain ⟨ops, hn, hr⟩ := ih
      refine ⟨ops ++ [.assign (some [((N + 1 : ℕ) : ℚ) / 100000000])], ?_, ?_⟩
      · intro w hw; simp at hw; exact hn w hw
      · rw [run, List.foldl_append]
        rw [run] at hr
        rw [hr]
        have hcl : allclose [(N : ℚ) / 100000000] [((N + 1 : ℕ) : ℚ) / 100000000] = .ok true := by
          simp only [allclose, broadcast, List.length_singleton, if_true, List.zip_cons_cons,
            List.zip_nil_right, List.all_cons, List.all_nil, Bool.and_true, Except.ok.injEq,
            decide_eq_true_eq]
          have : (N : ℚ) / 100000000 - ((N + 1 : ℕ) : ℚ) / 100000000 = -(1 / 100000000) := by
            push_cast; ring
          rw [this, abs_neg, abs_of_pos (by norm_num)]
          have := abs_nonneg (((N + 1 : ℕ) : ℚ) / 100000000)
          linarith
        simp only [List.foldl_cons, List.foldl_nil, step, Node.assign, Node.needs, Node.accepts,
          List.isEmpty_cons, Bool.not_false, Bool.true_eq_false, if_false, List.all_cons,
          List.length_singleton, beq_self_eq_true, List.all_nil, Bool.and_true, Node.store, hcl]
  obtain ⟨N, hN⟩ := exists_nat_gt (D * 100000000)
  obtain ⟨ops, hn, hr⟩ := key N
  refine ⟨ops, N / 100000000, ?_, hn, by rw [hr], by rw [hr]; rfl⟩
  rw [lt_div_iff₀ (by norm_num)]
  exact hN

/-- C22 fails: changing the assigned array in place and assigning it again keeps the old
cache, however large the change. -/
theorem C22_inplace_change_unnoticed (v w : Vec) (hv : v.length = w.length) :
    ((run (fun v => v) ⟨[none], none, none⟩
      [.assign (some v), .read, .mutate w, .assign (some w)]).read (fun v => v)).1 = some v ∧
    (run (fun v => v) ⟨[none], none, none⟩
      [.assign (some v), .read, .mutate w, .assign (some w)]).model = some w := by
  have hcl : allclose w w = .ok true := by
    have : (w.zip w).all (fun q => decide (|q.1 - q.2| ≤ 1 / 100000000 + 1 / 100000 * |q.2|))
        = true := by
      rw [List.all_eq_true]
      intro q hq
      have e : q.1 = q.2 := by
        clear hv
        induction w with
        | nil => simp at hq
        | cons a w ih =>
          simp only [List.zip_cons_cons, List.mem_cons] at hq
          rcases hq with rfl | hq
          · rfl
          · exact ih hq
      rw [e, sub_self, abs_zero]
      have := abs_nonneg q.2
      simp only [decide_eq_true_eq]
      linarith
    simp only [allclose, broadcast, if_true, this]
  simp [run, step, Node.assign, Node.needs, Node.accepts, Node.store, Node.read, hcl]

/-- A history in which each assignment is a real change. -/
example : ¬ Close [1, 2] [1, 3] := by
  simp [Close, allclose, broadcast]
  norm_num

end Props
end Verif.HasModel.Setter
