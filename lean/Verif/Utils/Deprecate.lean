import Mathlib.Data.List.Basic
import Mathlib.Data.List.TakeWhile
import Mathlib.Tactic.Linarith
import Verif.Basic

/-! Model of the deprecations of `simpeg/utils/code_utils.py` (514-832): classes, properties, methods,
functions and modules under old names, for C191. -/

namespace Verif
namespace Deprecate

abbrev Text := List Char

/-- The warnings of `warnings.warn`. -/
inductive Warning where
  | future
  | deprecation
deriving DecidableEq, Repr

/-- The options `future_warn` and `error`. -/
structure Opts where
  futureWarn : Bool
  error : Bool

/-- The branches at each use (`simpeg/utils/code_utils.py` 562-567, 608-613, 662-667, 671-676, 724-729):
`future_warn` is looked at first. -/
def notice (o : Opts) : Except Err Warning :=
  if o.futureWarn then .ok .future else if o.error then .error .exception else .ok .deprecation

/-! ### Classes -/

/-- An initializer: one written in a class, with its effect `tag`, the number `above` of classes that the
class derives from, and whether it calls that of `super()`; or the one that `deprecate_class` writes. -/
inductive Init where
  | body (tag : ℕ) (above : ℕ) (callsSuper : Bool)
  | wrapper (o : Opts)

/-- What a class has in its own dictionary: `__init__` and `_old__init__`. -/
structure Cls where
  init : Option Init
  old : Option Init

/-- `__init__` of a class by its chain of bases, the class first; `none` is the one of `object`. -/
def lookup : List Cls → Option Init
  | [] => none
  | c :: cs => match c.init with
    | some i => some i
    | none => lookup cs

/-- `_old__init__` of an object, by the chain of its class. -/
def lookupOld : List Cls → Option Init
  | [] => none
  | c :: cs => match c.old with
    | some i => some i
    | none => lookupOld cs

/-- `decorator(cls)` (`simpeg/utils/code_utils.py` 545-576): `cls._old__init__ = cls.__init__`, which may be
inherited, and a new `__init__`. The initializer of `object` is a body without effect. -/
def decorate (o : Opts) (c : Cls) (bases : List Cls) : Cls :=
  ⟨some (.wrapper o), some ((lookup (c :: bases)).getD (.body 0 0 false))⟩

/-- What happens while an object is made. -/
inductive Event where
  | warned (w : Warning)
  | ran (tag : ℕ)
deriving DecidableEq, Repr

/-- The end of making an object: exhausted (a call was still to be made), an error, or done, with the events so far. -/
inductive Outcome where
  | exhausted
  | raised (e : Err) (l : List Event)
  | done (l : List Event)
deriving DecidableEq

def Outcome.after (e : Event) : Outcome → Outcome
  | .exhausted => .exhausted
  | .raised x l => .raised x (e :: l)
  | .done l => .done (e :: l)

/-- Runs an initializer for an object whose class has the chain `mro`, with at most `fuel` nested calls. The
wrapper calls `self._old__init__`, which is looked up from the class of the object. -/
def run (mro : List Cls) : ℕ → Option Init → Outcome
  | 0, _ => .exhausted
  | _ + 1, none => .done []
  | k + 1, some (.body tag above cs) =>
      (if cs then run mro k (lookup (mro.drop (mro.length - above))) else .done []).after (.ran tag)
  | k + 1, some (.wrapper o) => match notice o with
    | .error e => .raised e []
    | .ok w => (run mro k (lookupOld mro)).after (.warned w)

/-- Making an object of the first class of the chain. -/
def make (mro : List Cls) (fuel : ℕ) : Outcome := run mro fuel (lookup mro)

/-! ### Properties, methods, functions and modules -/

/-- A property of objects with state `σ` and values `α`. -/
structure Property (σ α : Type) where
  get : σ → Except Err α
  set : Option (σ → α → Except Err σ)

/-- `get_dep` and `set_dep` of `deprecate_property` (`simpeg/utils/code_utils.py` 661-677), with the warnings
shown. A property without setter has `fset = None`, and calling it is a `TypeError`. -/
def depGet {σ α : Type} (o : Opts) (p : Property σ α) (s : σ) : Except Err (Warning × α) := do
  let w ← notice o
  let v ← p.get s
  return (w, v)

def depSet {σ α : Type} (o : Opts) (p : Property σ α) (s : σ) (v : α) : Except Err (Warning × σ) := do
  let w ← notice o
  match p.set with
  | none => .error .typeError
  | some f => do
    let s' ← f s v
    return (w, s')

/-- `new_method` and `dep_function` (`simpeg/utils/code_utils.py` 723-730, 783-790): a call with the same
arguments. -/
def depCall {A B : Type} (o : Opts) (f : A → Except Err B) (a : A) : Except Err (Warning × B) := do
  let w ← notice o
  let b ← f a
  return (w, b)

/-- Text before the first dot: `new_name.split(".")[0]`. -/
def firstPart (t : Text) : Text := t.takeWhile (· ≠ '.')

/-- The sentence of all messages (545-552, 599-606, 652-658, 714-720, 771-777). -/
def message (o : Opts) (old new : Text) (removal : Option Text) : Text :=
  if o.error then old ++ " has been removed, please use ".toList ++ new ++ ".".toList
  else old ++ " has been deprecated, please use ".toList ++ new ++ ".".toList ++
    match removal with
    | some v => " It will be removed in version ".toList ++ v ++ " of SimPEG.".toList
    | none => " It will be removed in a future version of SimPEG.".toList

/-- The old name in the messages of `deprecate_property` (`simpeg/utils/code_utils.py` 645-649): `qualname` is
that of the getter. -/
def propertyNames (qualname : Text) (old : Text) (new : Option Text) : Text × Text :=
  let new := new.getD qualname
  (firstPart new ++ ".".toList ++ old, new)

/-! ### Specification -/

/-- No class of the chain is deprecated. -/
def Plain (mro : List Cls) : Prop :=
  ∀ c ∈ mro, c.old = none ∧ ∀ o, c.init ≠ some (.wrapper o)

/-- The initializers refer to bases of their own classes. -/
def Placed : List Cls → Prop
  | [] => True
  | c :: cs => (∀ t a b, c.init = some (.body t a b) → a = cs.length) ∧ Placed cs

/-! ### Lemmas -/

theorem lookup_plain (mro : List Cls) (h : Plain mro) :
    lookup mro = none ∨ ∃ t a b, lookup mro = some (.body t a b) := by
  induction mro with
  | nil => exact Or.inl rfl
  | cons c cs ih =>
    unfold lookup
    cases hc : c.init with
    | none => exact ih fun d hd => h d (List.mem_cons_of_mem _ hd)
    | some i => cases i with
      | body t a b => exact Or.inr ⟨t, a, b, rfl⟩
      | wrapper o => exact absurd hc ((h c (List.mem_cons_self ..)).2 o)

theorem lookupOld_plain (mro : List Cls) (h : ∀ c ∈ mro, c.old = none) : lookupOld mro = none := by
  induction mro with
  | nil => rfl
  | cons c cs ih =>
    unfold lookupOld
    rw [h c (List.mem_cons_self ..)]
    exact ih fun d hd => h d (List.mem_cons_of_mem _ hd)

theorem lookup_above (mro : List Cls) (hp : Placed mro) (t a : ℕ) (b : Bool)
    (h : lookup mro = some (.body t a b)) : a < mro.length := by
  induction mro with
  | nil => cases h
  | cons c cs ih =>
    unfold lookup at h
    cases hc : c.init with
    | none =>
      rw [hc] at h
      have := ih hp.2 h
      simp only [List.length_cons]; omega
    | some i =>
      rw [hc] at h
      have := hp.1 t a b (by rw [hc]; exact h)
      simp only [List.length_cons]; omega

/-- Two chains with the same bases run the same initializers of these bases. -/
theorem run_bases (pre pre' bases : List Cls) (hb : Plain bases) (hp : Placed bases) (k : ℕ) :
    ∀ (d : ℕ) (suffix : List Cls), suffix = bases.drop d →
      run (pre ++ bases) k (lookup suffix) = run (pre' ++ bases) k (lookup suffix) := by
  have placedDrop : ∀ (l : List Cls) (d : ℕ), Placed l → Placed (l.drop d) := by
    intro l
    induction l with
    | nil => intro d h; rw [List.drop_nil]; exact h
    | cons c cs ih =>
      intro d h
      cases d with
      | zero => exact h
      | succ d => rw [List.drop_succ_cons]; exact ih d h.2
  induction k with
  | zero => intro _ _ _; rfl
  | succ k ih =>
    intro d suffix hs
    have hpl : Plain suffix := fun c hc => hb c (by rw [hs] at hc; exact List.mem_of_mem_drop hc)
    rcases lookup_plain suffix hpl with h | ⟨t, a, b, h⟩
    · rw [h]; rfl
    · have ha : a < suffix.length := lookup_above suffix (hs ▸ placedDrop bases d hp) t a b h
      have hle : suffix.length ≤ bases.length := by rw [hs, List.length_drop]; omega
      rw [h]
      unfold run
      have e : ∀ q : List Cls, (q ++ bases).drop ((q ++ bases).length - a) = bases.drop (bases.length - a) := by
        intro q
        rw [List.length_append, show q.length + bases.length - a = q.length + (bases.length - a) by omega,
          List.drop_append]
        simp
      rw [e pre, e pre']
      cases b with
      | false => rfl
      | true =>
        simp only [if_true]
        rw [ih (bases.length - a) _ rfl]

theorem run_enough (mro : List Cls) (hb : Plain mro) (hp : Placed mro) (k : ℕ) :
    ∀ d, (mro.drop d).length < k → run mro k (lookup (mro.drop d)) ≠ .exhausted := by
  have placedDrop : ∀ (l : List Cls) (d : ℕ), Placed l → Placed (l.drop d) := by
    intro l
    induction l with
    | nil => intro d h; rw [List.drop_nil]; exact h
    | cons c cs ih =>
      intro d h
      cases d with
      | zero => exact h
      | succ d => rw [List.drop_succ_cons]; exact ih d h.2
  induction k with
  | zero => intro d h; omega
  | succ k ih =>
    intro d hd
    have hpl : Plain (mro.drop d) := fun c hc => hb c (List.mem_of_mem_drop hc)
    rcases lookup_plain _ hpl with h | ⟨t, a, b, h⟩
    · rw [h]; unfold run; intro e; cases e
    · have ha := lookup_above _ (placedDrop mro d hp) t a b h
      rw [h]
      unfold run
      cases b with
      | false => simp [Outcome.after]
      | true =>
        simp only [if_true]
        have hlen : (mro.drop (mro.length - a)).length = a := by
          rw [List.length_drop] at ha ⊢; omega
        have := ih (mro.length - a) (by omega)
        cases hr : run mro k (lookup (mro.drop (mro.length - a))) with
        | exhausted => exact absurd hr this
        | raised _ _ => simp [Outcome.after]
        | done _ => simp [Outcome.after]

theorem plain_no_raise (mro : List Cls) (hb : Plain mro) (k : ℕ) :
    ∀ d x l, run mro k (lookup (mro.drop d)) ≠ .raised x l := by
  induction k with
  | zero => intro d x l h; cases h
  | succ k ih =>
    intro d x l
    have hpl : Plain (mro.drop d) := fun c hc => hb c (List.mem_of_mem_drop hc)
    rcases lookup_plain _ hpl with h | ⟨t, a, b, h⟩
    · rw [h]; unfold run; intro e; cases e
    · rw [h]
      unfold run
      cases b with
      | false => simp [Outcome.after]
      | true =>
        simp only [if_true]
        cases hr : run mro k (lookup (mro.drop (mro.length - a))) with
        | exhausted => simp [Outcome.after]
        | raised y l' => exact absurd hr (ih _ _ _)
        | done _ => simp [Outcome.after]

/-! ### C191 -/

/-- **C191.** A class under an old name, `class Old(New): pass`, makes the object that the new class makes,
after one warning; `FutureWarning` if asked for. -/
theorem C191_class (o : Opts) (bases : List Cls) (hb : Plain bases) (hp : Placed bases) (w : Warning)
    (hn : notice o = .ok w) (hne : (lookup bases).isSome) :
    ∃ l, (∀ fuel ≥ bases.length + 1, make bases fuel = .done l) ∧
      ∀ fuel ≥ bases.length + 3,
        make (decorate o ⟨none, none⟩ bases :: bases) fuel = .done (.warned w :: l) := by
  have dr : ∀ fuel ≥ bases.length + 1, ∃ l, make bases fuel = .done l := by
    intro fuel hf
    have h1 := run_enough bases hb hp fuel 0 (by rw [List.drop_zero]; omega)
    have h2 := plain_no_raise bases hb fuel 0
    unfold make
    rw [List.drop_zero] at h1 h2
    cases hr : run bases fuel (lookup bases) with
    | exhausted => exact absurd hr h1
    | raised x l => exact absurd hr (h2 x l)
    | done l => exact ⟨l, rfl⟩
  -- more fuel does not change what is done
  have mono : ∀ (mro : List Cls) (k : ℕ) (i : Option Init) (l : List Event),
      run mro k i = .done l → run mro (k + 1) i = .done l := by
    intro mro k
    induction k with
    | zero => intro i l h; cases h
    | succ k ih =>
      intro i l h
      cases i with
      | none => exact h
      | some i => cases i with
        | body t a b =>
          unfold run at h ⊢
          cases b with
          | false => exact h
          | true =>
            simp only [if_true] at h ⊢
            cases hr : run mro k (lookup (mro.drop (mro.length - a))) with
            | exhausted => rw [hr] at h; cases h
            | raised _ _ => rw [hr] at h; cases h
            | done l' => rw [ih _ _ hr]; rw [hr] at h; exact h
        | wrapper o' =>
          unfold run at h ⊢
          cases hn' : notice o' with
          | error e => rw [hn'] at h; cases h
          | ok w' =>
            rw [hn'] at h
            simp only at h ⊢
            cases hr : run mro k (lookupOld mro) with
            | exhausted => rw [hr] at h; cases h
            | raised _ _ => rw [hr] at h; cases h
            | done l' => rw [ih _ _ hr]; rw [hr] at h; exact h
  have monoLe : ∀ (mro : List Cls) (i : Option Init) (l : List Event) (a b : ℕ), a ≤ b →
      run mro a i = .done l → run mro b i = .done l := by
    intro mro i l a b hab h
    induction b, hab using Nat.le_induction with
    | base => exact h
    | succ b _ ih => exact mono mro b i l ih
  obtain ⟨l, hl⟩ := dr (bases.length + 1) le_rfl
  refine ⟨l, fun fuel hf => monoLe bases _ l _ fuel hf hl, ?_⟩
  intro fuel hf
  obtain ⟨k, rfl⟩ : ∃ k, fuel = k + 1 := ⟨fuel - 1, by omega⟩
  obtain ⟨i, hi⟩ := Option.isSome_iff_exists.mp hne
  have hold : lookupOld (decorate o ⟨none, none⟩ bases :: bases) = lookup bases := by
    unfold lookupOld decorate
    have : lookup (⟨none, none⟩ :: bases) = lookup bases := rfl
    simp only [this, hi, Option.getD_some]
  have hin : lookup (decorate o ⟨none, none⟩ bases :: bases) = some (.wrapper o) := rfl
  unfold make
  rw [hin]
  unfold run
  rw [hn]
  simp only
  rw [hold]
  have := run_bases [decorate o ⟨none, none⟩ bases] [] bases hb hp k 0 bases rfl
  rw [List.singleton_append, List.nil_append] at this
  rw [this, monoLe bases _ l (bases.length + 1) k (by omega) hl]
  rfl

/-- **C191.** A class that has been removed is never made: `NotImplementedError`, before anything is done. -/
theorem C191_class_removed (c : Cls) (bases : List Cls) (fuel : ℕ) :
    make (decorate ⟨false, true⟩ c bases :: bases) (fuel + 1) = .raised .exception [] := rfl

/-- **C191.** A class that derives from one under an old name, without an initializer, is made in the same
way. -/
theorem C191_derived (o : Opts) (bases : List Cls) (hb : Plain bases) (hp : Placed bases) (w : Warning)
    (hn : notice o = .ok w) (hne : (lookup bases).isSome) (fuel : ℕ) :
    make (⟨none, none⟩ :: decorate o ⟨none, none⟩ bases :: bases) fuel =
      make (decorate o ⟨none, none⟩ bases :: bases) fuel := by
  cases fuel with
  | zero => rfl
  | succ k =>
    have hin : ∀ q, lookup (q ++ (decorate o ⟨none, none⟩ bases :: bases)) = some (.wrapper o) →
        lookupOld (q ++ (decorate o ⟨none, none⟩ bases :: bases)) = lookup bases →
        make (q ++ (decorate o ⟨none, none⟩ bases :: bases)) (k + 1) =
          (run ((q ++ [decorate o ⟨none, none⟩ bases]) ++ bases) k (lookup bases)).after (.warned w) := by
      intro q h1 h2
      have e : make (q ++ (decorate o ⟨none, none⟩ bases :: bases)) (k + 1) =
          (run (q ++ (decorate o ⟨none, none⟩ bases :: bases)) k
            (lookupOld (q ++ (decorate o ⟨none, none⟩ bases :: bases)))).after (.warned w) := by
        unfold make
        rw [h1, run, hn]
      rw [e, h2, List.append_assoc, List.singleton_append]
    obtain ⟨i, hi⟩ := Option.isSome_iff_exists.mp hne
    have hold : lookupOld (decorate o ⟨none, none⟩ bases :: bases) = lookup bases := by
      unfold lookupOld decorate
      have : lookup (⟨none, none⟩ :: bases) = lookup bases := rfl
      simp only [this, hi, Option.getD_some]
    have e1 := hin [⟨none, none⟩] rfl (by
      change lookupOld (decorate o ⟨none, none⟩ bases :: bases) = lookup bases
      exact hold)
    have e2 := hin [] rfl hold
    rw [List.singleton_append] at e1
    rw [List.nil_append] at e2
    rw [e1, e2]
    congr 1
    exact run_bases _ _ bases hb hp k 0 bases rfl

/-- **C191, violated.** A class under an old name that derives from another one under an old name is never made:
both initializers call `self._old__init__`, which is looked up from the class of the object, and the calls
never end. -/
theorem C191_violated_nested (o o' : Opts) (w w' : Warning) (hn : notice o = .ok w) (hn' : notice o' = .ok w')
    (bases : List Cls) (fuel : ℕ) :
    let inner := decorate o' ⟨none, none⟩ bases
    make (decorate o ⟨none, none⟩ (inner :: bases) :: inner :: bases) fuel = .exhausted := by
  intro inner
  have hold : lookupOld (decorate o ⟨none, none⟩ (inner :: bases) :: inner :: bases) = some (.wrapper o') := rfl
  have stuck : ∀ k, run (decorate o ⟨none, none⟩ (inner :: bases) :: inner :: bases) k (some (.wrapper o')) =
      .exhausted := by
    intro k
    induction k with
    | zero => rfl
    | succ k ih =>
      unfold run
      rw [hn']
      simp only
      rw [hold, ih]
      rfl
  cases fuel with
  | zero => rfl
  | succ k =>
    unfold make
    have hin : lookup (decorate o ⟨none, none⟩ (inner :: bases) :: inner :: bases) = some (.wrapper o) := rfl
    rw [hin]
    unfold run
    rw [hn]
    simp only
    rw [hold, stuck k]
    rfl

theorem notice_ok (o : Opts) (h : o.error = false ∨ o.futureWarn = true) :
    ∃ w, notice o = .ok w ∧ (w = .future ↔ o.futureWarn = true) := by
  unfold notice
  cases hf : o.futureWarn with
  | true => exact ⟨.future, rfl, by simp⟩
  | false =>
    rcases h with h | h
    · rw [h]; exact ⟨.deprecation, rfl, by simp⟩
    · rw [hf] at h; cases h

/-- **C191.** A property under an old name that is not removed reads and writes the new one, with one warning;
errors are those of the new one. -/
theorem C191_property {σ α : Type} (o : Opts) (p : Property σ α) (s : σ) (v : α)
    (h : o.error = false ∨ o.futureWarn = true) :
    ∃ w, (w = .future ↔ o.futureWarn = true) ∧
      depGet o p s = (p.get s).map (fun a => (w, a)) ∧
      ∀ f, p.set = some f → depSet o p s v = (f s v).map (fun t => (w, t)) := by
  obtain ⟨w, hw, hi⟩ := notice_ok o h
  refine ⟨w, hi, ?_, ?_⟩
  · unfold depGet; rw [hw]; cases p.get s <;> rfl
  · intro f hf
    unfold depSet; rw [hw, hf]
    change (do let s' ← f s v; pure (w, s')) = _
    cases f s v <;> rfl

/-- **C191.** A method or function under an old name gives the results and errors of the new one for the same
arguments, with one warning. -/
theorem C191_call {A B : Type} (o : Opts) (f : A → Except Err B) (a : A)
    (h : o.error = false ∨ o.futureWarn = true) :
    ∃ w, (w = .future ↔ o.futureWarn = true) ∧ depCall o f a = (f a).map (fun b => (w, b)) := by
  obtain ⟨w, hw, hi⟩ := notice_ok o h
  refine ⟨w, hi, ?_⟩
  unfold depCall; rw [hw]; cases f a <;> rfl

/-- **C191.** Removed names are errors, and nothing is read, written or called. -/
theorem C191_removed {σ α A B : Type} (p : Property σ α) (s : σ) (v : α) (f : A → Except Err B) (a : A) :
    depGet ⟨false, true⟩ p s = .error .exception ∧ depSet ⟨false, true⟩ p s v = .error .exception ∧
    depCall ⟨false, true⟩ f a = .error .exception := ⟨rfl, rfl, rfl⟩

/-- **C191, violated.** With `future_warn` a removed name is not an error. -/
theorem C191_violated_error {A B : Type} (f : A → Except Err B) (a : A) (b : B) (h : f a = .ok b) :
    depCall ⟨true, true⟩ f a = .ok (.future, b) := by
  unfold depCall
  rw [h]
  rfl

/-- **C191.** The message begins with the old name and names the new one. -/
theorem C191_message (o : Opts) (old new : Text) (removal : Option Text) :
    old <+: message o old new removal ∧ new <:+: message o old new removal ∧
    (o.error = false → ∀ v, removal = some v → v <:+: message o old new removal) := by
  unfold message
  refine ⟨?_, ?_, ?_⟩
  · split
    · simp only [List.append_assoc]; exact List.prefix_append _ _
    · simp only [List.append_assoc]; exact List.prefix_append _ _
  · split
    · exact ⟨old ++ " has been removed, please use ".toList, ".".toList, by simp only [List.append_assoc]⟩
    · exact ⟨old ++ " has been deprecated, please use ".toList, _, by simp only [List.append_assoc]; rfl⟩
  · intro he v hv
    rw [he, hv]
    exact ⟨old ++ " has been deprecated, please use ".toList ++ new ++ ".".toList ++
      " It will be removed in version ".toList, " of SimPEG.".toList, by simp⟩

/-- **C191.** If no new name is given, the old name of a property is that of the class of the new one:
`Class.old`. -/
theorem C191_names (cls attr old : Text) (h : '.' ∉ cls) :
    propertyNames (cls ++ ".".toList ++ attr) old none =
      (cls ++ ".".toList ++ old, cls ++ ".".toList ++ attr) := by
  unfold propertyNames firstPart
  have : (cls ++ ".".toList ++ attr).takeWhile (· ≠ '.') = cls := by
    rw [List.append_assoc, List.takeWhile_append_of_pos]
    · simp
    · intro c hc
      simp only [ne_eq, decide_not, Bool.not_eq_true', decide_eq_false_iff_not]
      rintro rfl
      exact h hc
  simp only [Option.getD_none, this]

/-- **C191, violated.** If a new name is given, as nine times in the package, the message names the attribute in
place of the class: `active_cells.indActive` for `indActive`. -/
theorem C191_violated_names (qualname new old : Text) (h : '.' ∉ new) :
    propertyNames qualname old (some new) = (new ++ ".".toList ++ old, new) := by
  unfold propertyNames firstPart
  have : new.takeWhile (· ≠ '.') = new := by
    refine List.takeWhile_eq_self_iff.mpr ?_
    intro c hc
    simp only [ne_eq, decide_not, Bool.not_eq_true', decide_eq_false_iff_not]
    rintro rfl
    exact h hc
  simp only [Option.getD_some, this]

/-! ### Cases -/

/-- A class with an initializer that calls the one of its base. -/
def demoBases : List Cls := [⟨some (.body 2 1 true), none⟩, ⟨some (.body 1 0 false), none⟩]

theorem demo_plain : Plain demoBases := by
  intro c hc
  simp only [demoBases, List.mem_cons, List.not_mem_nil, or_false] at hc
  rcases hc with rfl | rfl
  · exact ⟨rfl, fun o h => by cases h⟩
  · exact ⟨rfl, fun o h => by cases h⟩

theorem demo_placed : Placed demoBases := by
  refine ⟨?_, ?_, trivial⟩
  · intro t a b h; cases h; rfl
  · intro t a b h; cases h; rfl

example : make (decorate ⟨true, false⟩ ⟨none, none⟩ demoBases :: demoBases) 5 =
    .done [.warned .future, .ran 2, .ran 1] := rfl

example : ∃ l, (∀ fuel ≥ demoBases.length + 1, make demoBases fuel = .done l) ∧
    ∀ fuel ≥ demoBases.length + 3,
      make (decorate ⟨true, false⟩ ⟨none, none⟩ demoBases :: demoBases) fuel = .done (.warned .future :: l) :=
  C191_class ⟨true, false⟩ demoBases demo_plain demo_placed .future rfl rfl

example : propertyNames "InjectActiveCells.active_cells".toList "indActive".toList (some "active_cells".toList) =
    ("active_cells.indActive".toList, "active_cells".toList) :=
  C191_violated_names _ _ _ (by decide)

end Deprecate
end Verif
