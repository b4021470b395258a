import Verif.Basic
import Mathlib.Data.Real.Sqrt
import Mathlib.Algebra.Order.Floor.Defs
import Mathlib.Data.Rat.Floor
import Mathlib.Data.List.Nodup
import Mathlib.Data.List.Forall2
import Mathlib.Tactic.Linarith
import Mathlib.Tactic.NormNum
import Mathlib.Tactic.FieldSimp
import Mathlib.Algebra.BigOperators.Field

/-! Model of the input validators (`simpeg/utils/code_utils.py` 793-1283). -/

namespace Verif.Utils.Validators
open Verif

/-! ### Numbers -/

/-- A Python float (exact). -/
inductive PyFloat where
  | num (q : Rat)
  | nan
  | posInf
  | negInf
  deriving DecidableEq

/-- What may be passed as a number: an int, a float, or something `int`/`float` refuse with
`TypeError` or `ValueError`. -/
inductive Num where
  | int (z : Int)
  | float (f : PyFloat)
  | bad

/-- `<` of Python floats: NaN compares false. -/
def PyFloat.lt : PyFloat → PyFloat → Bool
  | .num a, .num b => decide (a < b)
  | .nan, _ => false
  | _, .nan => false
  | .negInf, .negInf => false
  | .negInf, _ => true
  | _, .negInf => false
  | .posInf, _ => false
  | _, .posInf => true

/-- `<=` of Python floats. -/
def PyFloat.le : PyFloat → PyFloat → Bool
  | .nan, _ => false
  | _, .nan => false
  | a, b => !b.lt a

/-- Truncation towards zero, `int(q)`. -/
def trunc (q : Rat) : Int := if 0 ≤ q then ⌊q⌋ else ⌈q⌉

/-- `validate_integer` (842-876).  `int(nan)` raises `ValueError`, which becomes `TypeError`;
`int(inf)` raises `OverflowError`, which is not caught. -/
def validateInteger (lo hi : PyFloat) (v : Num) : Except Err Int :=
  let check (z : Int) : Except Err Int :=
    if (PyFloat.num z).lt lo || hi.lt (PyFloat.num z) then .error .valueError else .ok z
  match v with
  | .int z => check z
  | .float (.num q) => check (trunc q)
  | .float .nan => .error .typeError
  | .float _ => .error .exception
  | .bad => .error .typeError

/-- `float(v)`. -/
def toFloat : Num → Except Err PyFloat
  | .int z => .ok (.num z)
  | .float f => .ok f
  | .bad => .error .typeError

/-- `validate_float` (879-936). -/
def validateFloat (lo hi : PyFloat) (inclMin inclMax : Bool) (v : Num) : Except Err PyFloat :=
  match toFloat v with
  | .error e => .error e
  | .ok x =>
    if (inclMin && x.lt lo) || (!inclMin && x.le lo) || (inclMax && hi.lt x) ||
        (!inclMax && hi.le x) then .error .valueError
    else .ok x

/-! ### Strings -/

/-- An entry of `string_list`: a string, or a list of a name and its aliases. -/
inductive Entry where
  | one (s : String)
  | many (l : List String)

/-- The loop of `validate_string` (831-837); `fold` is `casefold`, or the identity. `item[0]` of
an empty list cannot be reached. -/
def matchEntries (fold : String → String) (v : String) : List Entry → Except Err String
  | [] => .error .valueError
  | .one s :: l => if fold v = fold s then .ok s else matchEntries fold v l
  | .many as :: l => if fold v ∈ as.map fold then .ok (as.headD "") else matchEntries fold v l

/-- `validate_string` (793-839); `v = none` is not a string. -/
def validateString (casefold : String → String) (caseSensitive : Bool)
    (entries : Option (List Entry)) (v : Option String) : Except Err String :=
  match v with
  | none => .error .typeError
  | some v => match entries with
    | none => .ok v
    | some l => if caseSensitive then matchEntries id v l else matchEntries casefold v l

/-! ### Lists -/

/-- What is passed to `validate_list_of_types`: a list of objects, or a single object; `isT` is
`isinstance`. -/
inductive ListArg (α : Type) where
  | list (l : List α)
  | single (a : α)

/-- The test of the number of items against `max_n` (971-978). -/
def overMax (minN : Nat) (maxN : Option Nat) (len : Nat) : Bool :=
  match maxN with
  | some m => (minN == m && len != m) || decide (m < len)
  | none => false

/-- `validate_list_of_types` (939-989). -/
def validateList {α : Type} [DecidableEq α] (isT : α → Bool) (unique : Bool) (minN : Nat)
    (maxN : Option Nat) (v : ListArg α) : Except Err (List α) :=
  let rest (l : List α) : Except Err (List α) :=
    if overMax minN maxN l.length then .error .valueError
    else if l.length < minN then .error .valueError
    else if l.all isT then
      (if unique && decide (l.dedup.length ≠ l.length) then .error .valueError else .ok l)
    else .error .typeError
  match v with
  | .list l => rest l
  | .single a => if isT a then rest [a] else .error .typeError

/-! ### Active cells -/

/-- An array of booleans or integers (after `squeeze`), or one of another type. -/
inductive IndexArr where
  | bools (l : List Bool)
  | ints (l : List Int)
  | other

/-- `tmp[index]` of NumPy: negative indices count from the end. -/
def wrap (n : Nat) (i : Int) : Option Nat :=
  if 0 ≤ i then (if i < n then some i.toNat else none)
  else (if -(n : Int) ≤ i then some (i + n).toNat else none)

/-- `validate_active_indices` for one-dimensional arrays (1233-1283).  The maximum of an empty
array raises `ValueError` (1265). -/
def validateActive (n : Nat) : IndexArr → Except Err (List Bool)
  | .bools l => if l.length = n then .ok l else .error .valueError
  | .other => .error .typeError
  | .ints l =>
    if l = [] then .error .valueError
    else if l.any fun i => decide ((n : Int) ≤ i) then .error .indexError
    else match l.mapM (wrap n) with
      | none => .error .indexError
      | some ks =>
        let tmp := ks.foldl (fun t k => t.set k true) (List.replicate n false)
        if tmp.count true ≠ l.length then .error .valueError else .ok tmp

/-! ### Shapes -/

/-- `np.atleast_1d/2d/3d` (1092-1097) on the shape. -/
def atleast (d : Nat) (shape : List Nat) : List Nat :=
  match d, shape with
  | 1, [] => [1]
  | 2, [] => [1, 1]
  | 2, [n] => [1, n]
  | 3, [] => [1, 1, 1]
  | 3, [n] => [1, n, 1]
  | 3, [m, n] => [m, n, 1]
  | _, s => s

/-- One entry of an allowed shape: a number or `"*"`. -/
def fits : Option Nat → Nat → Bool
  | none, _ => true
  | some a, b => a == b

/-- The loop over the allowed shapes (1085-1114): the shape of the returned array.  Allowed shapes
have 1 to 3 entries (1086-1087). -/
def validateShape (shapes : List (List (Option Nat))) (shape : List Nat) : Except Err (List Nat) :=
  match shapes with
  | [] => .error .valueError
  | s :: ss =>
    if s.length < shape.length then validateShape ss shape
    else if (List.zipWith fits s (atleast s.length shape)).all id then
      .ok (atleast s.length shape)
    else validateShape ss shape

/-! ### Directions -/

/-- The normalisation in `validate_direction` (1229). -/
noncomputable def normalise {d : Nat} (v : Fin d → ℝ) : Fin d → ℝ :=
  fun i => v i / Real.sqrt (∑ j, v j ^ 2)

/-- The unit vector of a named direction (1216-1223), `"x"`, `"y"`, `"z"` being 0, 1, 2. -/
noncomputable def axis {d : Nat} (k : Fin d) : Fin d → ℝ := fun i => if i = k then 1 else 0

namespace Props

/-! ### C49 -/

theorem trunc_int (z : Int) : trunc (z : Rat) = z := by
  unfold trunc
  split <;> simp

/-- C49. `validate_integer` returns an integer within the bounds or raises; an integer within
(finite) bounds is returned as it is, one outside raises `ValueError`. -/
theorem C49_integer (lo hi : Rat) (v : Num) :
    (∀ z, validateInteger (.num lo) (.num hi) v = .ok z → lo ≤ z ∧ (z : Rat) ≤ hi) ∧
    (∀ z : Int, lo ≤ z → (z : Rat) ≤ hi → validateInteger (.num lo) (.num hi) (.int z) = .ok z) ∧
    (∀ z : Int, (z : Rat) < lo ∨ hi < z →
      validateInteger (.num lo) (.num hi) (.int z) = .error .valueError) ∧
    (∀ z : Int, validateInteger .negInf .posInf (.int z) = .ok z) := by
  have key : ∀ z : Int, ((PyFloat.num z).lt (.num lo) || (PyFloat.num hi).lt (PyFloat.num z)) = true ↔
      ((z : Rat) < lo ∨ hi < z) := by
    intro z
    simp [PyFloat.lt]
  refine ⟨fun z h => ?_, fun z h1 h2 => ?_, fun z h => ?_, fun z => ?_⟩
  · have hc : ∀ y : Int, (if (PyFloat.num y).lt (.num lo) || (PyFloat.num hi).lt (PyFloat.num y)
        then Except.error Err.valueError else Except.ok y) = .ok z → lo ≤ z ∧ (z : Rat) ≤ hi := by
      intro y hy
      split at hy
      · cases hy
      · rename_i hb
        cases hy
        rw [key] at hb
        push Not at hb
        exact hb
    unfold validateInteger at h
    split at h
    · exact hc _ h
    · exact hc _ h
    · cases h
    · cases h
    · cases h
  · unfold validateInteger
    simp only
    rw [if_neg]
    rw [key]
    push Not
    exact ⟨h1, h2⟩
  · unfold validateInteger
    simp only
    rw [if_pos ((key z).mpr h)]
  · simp [validateInteger, PyFloat.lt]

/-- C49 (violation of "unchanged"). A float that is not an integer is accepted and truncated
towards zero. -/
theorem C49_integer_truncates (lo hi : Rat) (q : Rat) (h1 : lo ≤ trunc q) (h2 : (trunc q : Rat) ≤ hi) :
    validateInteger (.num lo) (.num hi) (.float (.num q)) = .ok (trunc q) := by
  have := (C49_integer lo hi .bad).2.1 (trunc q) h1 h2
  simpa [validateInteger] using this

/-- C49 (partial). A number that `validate_float` returns, other than NaN, satisfies the bounds;
a number within the bounds is returned as it is. Missing: NaN (`C49_float_nan`). -/
theorem C49_float_partial (lo hi q : Rat) (inclMin inclMax : Bool) :
    (validateFloat (.num lo) (.num hi) inclMin inclMax (.float (.num q)) = .ok (.num q) ↔
      ((if inclMin then lo ≤ q else lo < q) ∧ (if inclMax then q ≤ hi else q < hi))) ∧
    (∀ v r, validateFloat (.num lo) (.num hi) inclMin inclMax v = .ok r → r ≠ .nan →
      ∃ q, r = .num q ∧ (if inclMin then lo ≤ q else lo < q) ∧
        (if inclMax then q ≤ hi else q < hi)) ∧
    validateFloat (.num lo) (.num hi) inclMin inclMax .bad = .error .typeError := by
  have key : ∀ x : Rat, ((inclMin && (PyFloat.num x).lt (.num lo)) ||
      (!inclMin && (PyFloat.num x).le (.num lo)) || (inclMax && (PyFloat.num hi).lt (.num x)) ||
        (!inclMax && (PyFloat.num hi).le (.num x))) = true ↔
      ¬ ((if inclMin then lo ≤ x else lo < x) ∧ (if inclMax then x ≤ hi else x < hi)) := by
    intro x
    cases inclMin <;> cases inclMax <;>
      simp only [PyFloat.lt, PyFloat.le, Bool.not_true, Bool.not_false, Bool.true_and,
        Bool.false_and, Bool.or_false, Bool.false_or, Bool.or_eq_true, decide_eq_true_eq,
        Bool.not_eq_true', decide_eq_false_iff_not, not_lt, if_true, if_false, not_and_or, not_le,
        Bool.false_eq_true]
  refine ⟨?_, ?_, rfl⟩
  · simp only [validateFloat, toFloat]
    by_cases h : ((if inclMin then lo ≤ q else lo < q) ∧ (if inclMax then q ≤ hi else q < hi))
    · rw [if_neg (by rw [key]; exact not_not.mpr h)]
      simp [h]
    · rw [if_pos (by rw [key]; exact h)]
      simp [h]
  · intro v r hv hr
    unfold validateFloat at hv
    split at hv
    · cases hv
    · rename_i x hx
      split at hv
      · cases hv
      · rename_i hb
        cases hv
        cases r with
        | nan => exact absurd rfl hr
        | num q =>
          rw [key] at hb
          exact ⟨q, rfl, not_not.mp hb⟩
        | posInf => cases inclMin <;> cases inclMax <;> simp [PyFloat.lt, PyFloat.le] at hb
        | negInf => cases inclMin <;> cases inclMax <;> simp [PyFloat.lt, PyFloat.le] at hb

/-- C49 (violation). NaN is accepted by `validate_float` whatever the bounds. -/
theorem C49_float_nan (lo hi : PyFloat) (inclMin inclMax : Bool) :
    validateFloat lo hi inclMin inclMax (.float .nan) = .ok .nan := by
  cases lo <;> cases hi <;> cases inclMin <;> cases inclMax <;>
    simp [validateFloat, toFloat, PyFloat.lt, PyFloat.le]

/-- The spellings an entry accepts, and what is returned for it. -/
def _root_.Verif.Utils.Validators.Entry.accepts : Entry → List String
  | .one s => [s]
  | .many l => l

def _root_.Verif.Utils.Validators.Entry.canonical : Entry → String
  | .one s => s
  | .many l => l.headD ""

/-- C49. `validate_string` returns the first name of the first entry with a matching spelling
(upper and lower case not distinguished unless asked for), and raises `ValueError` if there is
none, `TypeError` for anything but a string. -/
theorem C49_string (casefold : String → String) (cs : Bool) (l : List Entry) (v : String) :
    let same := fun a b : String => if cs then a = b else casefold a = casefold b
    (∀ pre e post, l = pre ++ e :: post → (∀ e' ∈ pre, ∀ s ∈ e'.accepts, ¬ same v s) →
      (∃ s ∈ e.accepts, same v s) →
      validateString casefold cs (some l) (some v) = .ok e.canonical) ∧
    ((∀ e ∈ l, ∀ s ∈ e.accepts, ¬ same v s) →
      validateString casefold cs (some l) (some v) = .error .valueError) ∧
    validateString casefold cs (some l) none = .error .typeError ∧
    validateString casefold cs none (some v) = .ok v := by
  intro same
  have gen : ∀ f : String → String,
      (∀ l pre e post, l = pre ++ e :: post → (∀ e' ∈ pre, ∀ s ∈ e'.accepts, ¬ f v = f s) →
        (∃ s ∈ e.accepts, f v = f s) → matchEntries f v l = .ok e.canonical) ∧
      (∀ l : List Entry, (∀ e ∈ l, ∀ s ∈ e.accepts, ¬ f v = f s) →
        matchEntries f v l = .error .valueError) := by
    intro f
    have skip : ∀ (e : Entry) (l : List Entry), (∀ s ∈ e.accepts, ¬ f v = f s) →
        matchEntries f v (e :: l) = matchEntries f v l := by
      intro e l h
      cases e with
      | one s => simp only [matchEntries]; rw [if_neg (h s (by simp [Entry.accepts]))]
      | many as =>
        simp only [matchEntries]
        rw [if_neg]
        simp only [List.mem_map, not_exists, not_and]
        intro s hs he
        exact h s hs he.symm
    constructor
    · intro l pre
      induction pre generalizing l with
      | nil =>
        rintro e post rfl _ ⟨s, hs, he⟩
        cases e with
        | one t =>
          simp only [Entry.accepts, List.mem_singleton] at hs
          subst hs
          simp [matchEntries, he, Entry.canonical]
        | many as =>
          have : f v ∈ as.map f := List.mem_map.mpr ⟨s, hs, he.symm⟩
          simp only [List.nil_append, matchEntries]
          rw [if_pos this]
          rfl
      | cons p pre ih =>
        rintro e post rfl hpre he
        rw [List.cons_append, skip p _ (hpre p (by simp))]
        exact ih _ e post rfl (fun e' h' => hpre e' (by simp [h'])) he
    · intro l
      induction l with
      | nil => intro _; rfl
      | cons e l ih =>
        intro h
        rw [skip e l (h e (by simp))]
        exact ih fun e' h' => h e' (by simp [h'])
  cases cs with
  | true =>
    have g := gen id
    refine ⟨fun pre e post hl h1 h2 => ?_, fun h => ?_, rfl, rfl⟩
    · exact g.1 l pre e post hl (by simpa [same] using h1) (by simpa [same] using h2)
    · exact g.2 l (by simpa [same] using h)
  | false =>
    have g := gen casefold
    refine ⟨fun pre e post hl h1 h2 => ?_, fun h => ?_, rfl, rfl⟩
    · exact g.1 l pre e post hl (by simpa [same] using h1) (by simpa [same] using h2)
    · exact g.2 l (by simpa [same] using h)

/-- C49. `validate_list_of_types` accepts exactly the lists (or single objects) of the type with
an allowed number of items, without repetitions if asked for, and returns them as a list. -/
theorem C49_list {α : Type} [DecidableEq α] (isT : α → Bool) (unique : Bool) (minN : Nat)
    (maxN : Option Nat) (v : ListArg α) (r : List α) :
    validateList isT unique minN maxN v = .ok r ↔
      (v = .list r ∨ ∃ a, v = .single a ∧ r = [a]) ∧ (∀ x ∈ r, isT x = true) ∧
      minN ≤ r.length ∧ (∀ m, maxN = some m → r.length ≤ m) ∧ (unique = true → r.Nodup) := by
  have hdd : ∀ l : List α, l.dedup.length = l.length ↔ l.Nodup := by
    intro l
    constructor
    · intro h
      have := (List.dedup_sublist l).eq_of_length h
      rw [← this]
      exact List.nodup_dedup l
    · intro h; rw [h.dedup]
  have core : ∀ l : List α,
      (if overMax minN maxN l.length then Except.error Err.valueError
      else if l.length < minN then .error .valueError
      else if l.all isT then
        (if unique && decide (l.dedup.length ≠ l.length) then .error .valueError else .ok l)
      else .error .typeError) = .ok r ↔
      l = r ∧ (∀ x ∈ r, isT x = true) ∧ minN ≤ r.length ∧ (∀ m, maxN = some m → r.length ≤ m) ∧
        (unique = true → r.Nodup) := by
    intro l
    constructor
    · intro h
      split at h
      · cases h
      · rename_i hm
        split at h
        · cases h
        · rename_i hmin
          split at h
          · rename_i hall
            split at h
            · cases h
            · rename_i hu
              cases h
              refine ⟨rfl, by simpa using hall, by omega, ?_, ?_⟩
              · rintro m rfl
                simp only [overMax, Bool.not_eq_true, Bool.or_eq_false_iff,
                  decide_eq_false_iff_not, not_lt] at hm
                exact hm.2
              · intro hun
                simp only [hun, Bool.true_and, decide_eq_true_eq, not_not] at hu
                exact (hdd _).mp hu
          · cases h
    · rintro ⟨rfl, hall, hmin, hmax, hu⟩
      rw [if_neg, if_neg (by omega), if_pos (by simpa using hall), if_neg]
      · cases hun : unique with
        | false => simp
        | true => simp [(hdd l).mpr (hu hun)]
      · cases maxN with
        | none => simp [overMax]
        | some m =>
          have := hmax m rfl
          simp only [overMax, Bool.or_eq_true, Bool.and_eq_true, beq_iff_eq, bne_iff_ne,
            decide_eq_true_eq]
          omega
  cases v with
  | list l =>
    refine (core l).trans ?_
    constructor
    · rintro ⟨rfl, h⟩; exact ⟨Or.inl rfl, h⟩
    · rintro ⟨h1 | ⟨a, h1, -⟩, h⟩
      · cases h1; exact ⟨rfl, h⟩
      · cases h1
  | single a =>
    by_cases ha : isT a = true
    · have : validateList isT unique minN maxN (.single a) = validateList isT unique minN maxN (.list [a]) := by
        simp [validateList, ha]
      rw [this]
      refine (core [a]).trans ?_
      constructor
      · rintro ⟨rfl, h⟩; exact ⟨Or.inr ⟨a, rfl, rfl⟩, h⟩
      · rintro ⟨h1 | ⟨b, h1, h2⟩, h⟩
        · cases h1
        · cases h1; exact ⟨h2.symm, h⟩
    · have : validateList isT unique minN maxN (.single a) = .error .typeError := by
        simp [validateList, ha]
      rw [this]
      constructor
      · intro h; cases h
      · rintro ⟨h1 | ⟨b, h1, h2⟩, h, -⟩
        · cases h1
        · cases h1; subst h2
          exact absurd (h a (by simp)) ha

theorem set_foldl (ks : List Nat) (t : List Bool) :
    (ks.foldl (fun t k => t.set k true) t).length = t.length ∧
    ∀ i, i < t.length → (ks.foldl (fun t k => t.set k true) t)[i]? =
      some (decide (i ∈ ks) || t.getD i false) := by
  induction ks generalizing t with
  | nil =>
    refine ⟨rfl, fun i hi => ?_⟩
    simp [List.getD_eq_getElem?_getD, List.getElem?_eq_getElem hi]
  | cons k ks ih =>
    obtain ⟨h1, h2⟩ := ih (t.set k true)
    refine ⟨by simpa using h1, fun i hi => ?_⟩
    rw [List.foldl_cons, h2 i (by simpa using hi)]
    rw [List.getD_eq_getElem?_getD, List.getD_eq_getElem?_getD, List.getElem?_set]
    by_cases hk : k = i
    · subst hk; simp [hi]
    · have : i ≠ k := fun e => hk e.symm
      simp [hk, this]

theorem mapM_wrap {n : Nat} {l : List Int} {ks : List Nat} (h : l.mapM (wrap n) = some ks) :
    List.Forall₂ (fun i k => wrap n i = some k) l ks := by
  induction l generalizing ks with
  | nil => simp at h; subst h; exact .nil
  | cons i l ih =>
    simp only [List.mapM_cons, Option.bind_eq_bind, Option.pure_def] at h
    cases hw : wrap n i with
    | none => simp [hw] at h
    | some k =>
      cases hm : l.mapM (wrap n) with
      | none => simp [hw, hm] at h
      | some ks' =>
        simp [hw, hm] at h
        subst h
        exact .cons hw (ih hm)

theorem wrap_lt {n : Nat} {i : Int} {k : Nat} (h : wrap n i = some k) : k < n := by
  unfold wrap at h
  split at h
  · split at h
    · cases h; omega
    · cases h
  · split at h
    · cases h; omega
    · cases h

theorem wrap_eq {n : Nat} {i : Int} {k : Nat} (h : wrap n i = some k) :
    (0 ≤ i ∧ (k : Int) = i) ∨ (i < 0 ∧ (k : Int) = i + n) := by
  unfold wrap at h
  split at h
  · split at h
    · cases h; omega
    · cases h
  · split at h
    · cases h; omega
    · cases h

theorem count_indicator (n : Nat) (ks : List Nat) :
    ((List.range n).map fun i => decide (i ∈ ks)).count true =
      ((List.range n).filter fun i => decide (i ∈ ks)).length := by
  rw [List.count_eq_length_filter, List.filter_map, List.length_map]
  congr 1
  apply List.filter_congr
  intro i _
  simp

/-- C49. `validate_active_indices` returns a mask with one entry per cell: a mask of that length
is returned as it is, and indices (negative ones counted from the end) give the mask that is true
exactly there. An index out of range or a repeated one is never accepted. -/
theorem C49_active (n : Nat) (a : IndexArr) (mask : List Bool) (h : validateActive n a = .ok mask) :
    mask.length = n ∧
    (∀ l, a = .bools l → mask = l) ∧
    (∀ l, a = .ints l → ∃ ks : List Nat, List.Forall₂ (fun (i : Int) (k : Nat) => k < n ∧
      ((0 ≤ i ∧ (k : Int) = i) ∨ (i < 0 ∧ (k : Int) = i + n))) l ks ∧ ks.Nodup ∧
      ∀ i, i < n → (mask[i]? = some true ↔ i ∈ ks)) := by
  cases a with
  | other => cases h
  | bools l =>
    simp only [validateActive] at h
    split at h
    · rename_i hl
      cases h
      exact ⟨hl, fun l' e => by cases e; rfl, fun l' e => by cases e⟩
    · cases h
  | ints l =>
    simp only [validateActive] at h
    split at h
    · cases h
    · split at h
      · cases h
      · split at h
        · cases h
        · rename_i ks hks
          split at h
          · cases h
          · rename_i hc
            cases h
            have hf := mapM_wrap hks
            obtain ⟨s1, s2⟩ := set_foldl ks (List.replicate n false)
            rw [List.length_replicate] at s1 s2
            have hget : ∀ i, i < n → (ks.foldl (fun t k => t.set k true)
                (List.replicate n false))[i]? = some (decide (i ∈ ks)) := by
              intro i hi
              rw [s2 i hi]
              simp [List.getD_eq_getElem?_getD, List.getElem?_replicate, hi]
            refine ⟨s1, (fun l' e => by cases e), fun l' e => ⟨ks, ?_, ?_, fun i hi => ?_⟩⟩
            · cases e; exact hf.imp fun i k h => ⟨wrap_lt h, wrap_eq h⟩
            · have heq : ks.foldl (fun t k => t.set k true) (List.replicate n false) =
                  (List.range n).map fun i => decide (i ∈ ks) := by
                apply List.ext_getElem?
                intro i
                by_cases hi : i < n
                · rw [hget i hi]; simp [hi]
                · rw [List.getElem?_eq_none (by omega), List.getElem?_eq_none (by simp; omega)]
              rw [heq, count_indicator] at hc
              have hlen := hf.length_eq
              have hcount : ((List.range n).filter fun i => decide (i ∈ ks)).length = ks.length := by
                omega
              have hsub : ((List.range n).filter fun i => decide (i ∈ ks)) ⊆ ks.dedup := by
                intro i hi
                simp only [List.mem_filter, decide_eq_true_eq] at hi
                exact List.mem_dedup.mpr hi.2
              have hnd : ((List.range n).filter fun i => decide (i ∈ ks)).Nodup :=
                List.Nodup.filter _ List.nodup_range
              have hle := (hnd.subperm hsub).length_le
              have hdl := (List.dedup_sublist ks).length_le
              have := (List.dedup_sublist ks).eq_of_length (by omega)
              rw [← this]
              exact List.nodup_dedup ks
            · rw [hget i hi]
              simp

/-- C49. Indices in range without repetitions are accepted. -/
theorem C49_active_accepts (n : Nat) (l : List Nat) (hl : ∀ i ∈ l, i < n) (hn : l.Nodup)
    (h0 : l ≠ []) : ∃ mask, validateActive n (.ints (l.map Int.ofNat)) = .ok mask := by
  have hw : (l.map Int.ofNat).mapM (wrap n) = some l := by
    clear hn h0
    induction l with
    | nil => rfl
    | cons i l ih =>
      have hi := hl i (by simp)
      have : wrap n (Int.ofNat i) = some i := by
        simp [wrap, hi]
      rw [List.map_cons, List.mapM_cons, this, ih fun j hj => hl j (by simp [hj])]
      rfl
  obtain ⟨s1, s2⟩ := set_foldl l (List.replicate n false)
  rw [List.length_replicate] at s1 s2
  have heq : l.foldl (fun t k => t.set k true) (List.replicate n false) =
      (List.range n).map fun i => decide (i ∈ l) := by
    apply List.ext_getElem?
    intro i
    by_cases hi : i < n
    · rw [s2 i hi]; simp [hi, List.getD_eq_getElem?_getD, List.getElem?_replicate]
    · rw [List.getElem?_eq_none (by omega), List.getElem?_eq_none (by simp; omega)]
  have hperm : ((List.range n).filter fun i => decide (i ∈ l)).Perm l := by
    rw [List.perm_ext_iff_of_nodup (List.Nodup.filter _ List.nodup_range) hn]
    intro i
    simp only [List.mem_filter, List.mem_range, decide_eq_true_eq]
    exact ⟨fun h => h.2, fun h => ⟨hl i h, h⟩⟩
  refine ⟨l.foldl (fun t k => t.set k true) (List.replicate n false), ?_⟩
  simp only [validateActive]
  rw [if_neg (by simpa using h0), if_neg, hw]
  · simp only
    rw [if_neg]
    rw [heq, count_indicator, hperm.length_eq]
    simp
  · simp only [List.any_map, List.any_eq_true, Function.comp, decide_eq_true_eq, not_exists,
      not_and, not_le]
    intro i hi
    have := hl i hi
    simpa using this

theorem atleast_length (d : Nat) (shape : List Nat) (hd : 1 ≤ d) (hd' : d ≤ 3)
    (h : shape.length ≤ d) : (atleast d shape).length = d := by
  match d, shape with
  | 1, [] => rfl
  | 1, [_] => rfl
  | 2, [] => rfl
  | 2, [_] => rfl
  | 2, [_, _] => rfl
  | 3, [] => rfl
  | 3, [_] => rfl
  | 3, [_, _] => rfl
  | 3, [_, _, _] => rfl
  | 1, _ :: _ :: _ => simp at h
  | 2, _ :: _ :: _ :: _ => simp at h
  | 3, _ :: _ :: _ :: _ :: _ => simp at h; omega
  | 0, _ => omega
  | n + 4, _ => omega

/-- C49. An array is accepted exactly when it can be extended (`np.atleast_nd`) to one of the
allowed shapes, and then has the first of these. -/
theorem C49_shape (shapes : List (List (Option Nat))) (shape r : List Nat)
    (hs : ∀ s ∈ shapes, 1 ≤ s.length ∧ s.length ≤ 3) :
    validateShape shapes shape = .ok r ↔
      ∃ pre s post, shapes = pre ++ s :: post ∧
        (∀ s' ∈ pre, ¬ (shape.length ≤ s'.length ∧
          List.Forall₂ (fun o n => o = none ∨ o = some n) s' (atleast s'.length shape))) ∧
        shape.length ≤ s.length ∧
        List.Forall₂ (fun o n => o = none ∨ o = some n) s (atleast s.length shape) ∧
        r = atleast s.length shape := by
  have hfit : ∀ (s : List (Option Nat)) (t : List Nat), s.length = t.length →
      ((List.zipWith fits s t).all id = true ↔
        List.Forall₂ (fun o n => o = none ∨ o = some n) s t) := by
    intro s
    induction s with
    | nil => intro t ht; cases t with
      | nil => simp
      | cons _ _ => simp at ht
    | cons o s ih =>
      intro t ht
      cases t with
      | nil => simp at ht
      | cons n t =>
        simp only [List.length_cons, Nat.add_right_cancel_iff] at ht
        simp only [List.zipWith_cons_cons, List.all_cons, Bool.and_eq_true, id_eq,
          List.forall₂_cons, ih t ht]
        apply and_congr_left
        intro _
        cases o with
        | none => simp [fits]
        | some a => simp [fits]
  induction shapes with
  | nil =>
    simp only [validateShape]
    constructor
    · intro h; cases h
    · rintro ⟨pre, s, post, h, -⟩
      simp at h
  | cons s ss ih =>
    have hss : ∀ s' ∈ ss, 1 ≤ s'.length ∧ s'.length ≤ 3 := fun s' h' => hs s' (by simp [h'])
    have hs1 := hs s (by simp)
    by_cases hok : shape.length ≤ s.length ∧
        List.Forall₂ (fun o n => o = none ∨ o = some n) s (atleast s.length shape)
    · have hval : validateShape (s :: ss) shape = .ok (atleast s.length shape) := by
        simp only [validateShape]
        rw [if_neg (by omega), if_pos]
        exact (hfit s _ (atleast_length _ _ hs1.1 hs1.2 hok.1).symm).mpr hok.2
      rw [hval]
      constructor
      · intro h
        cases h
        exact ⟨[], s, ss, rfl, by simp, hok.1, hok.2, rfl⟩
      · rintro ⟨pre, s', post, h, hpre, h1, h2, rfl⟩
        cases pre with
        | nil => cases h; rfl
        | cons p pre =>
          simp only [List.cons_append, List.cons.injEq] at h
          exact absurd hok (by rw [h.1]; exact hpre p (by simp))
    · have hval : validateShape (s :: ss) shape = validateShape ss shape := by
        simp only [validateShape]
        by_cases hl : s.length < shape.length
        · rw [if_pos hl]
        · rw [if_neg hl, if_neg]
          intro h
          exact hok ⟨by omega,
            (hfit s _ (atleast_length _ _ hs1.1 hs1.2 (by omega)).symm).mp h⟩
      rw [hval]
      refine (ih hss).trans ?_
      constructor
      · rintro ⟨pre, s', post, rfl, hpre, h⟩
        refine ⟨s :: pre, s', post, rfl, ?_, h⟩
        intro t ht
        rcases List.mem_cons.mp ht with rfl | ht
        · exact hok
        · exact hpre t ht
      · rintro ⟨pre, s', post, h, hpre, h1, h2, hr⟩
        cases pre with
        | nil => cases h; exact absurd ⟨h1, h2⟩ hok
        | cons p pre =>
          simp only [List.cons_append, List.cons.injEq] at h
          exact ⟨pre, s', post, h.2, fun t ht => hpre t (by simp [ht]), h1, h2, hr⟩

/-- C49. A direction other than the zero vector is returned with length one, pointing the same
way; the unit vectors are unchanged. -/
theorem C49_direction {d : Nat} (v : Fin d → ℝ) (hv : v ≠ 0) :
    ∑ j, normalise v j ^ 2 = 1 ∧ (∃ c > 0, ∀ i, normalise v i = c * v i) ∧
    ∀ k : Fin d, normalise (axis k) = axis k := by
  obtain ⟨k, hk⟩ := Function.ne_iff.mp hv
  have hpos : 0 < ∑ j, v j ^ 2 :=
    Finset.sum_pos' (fun j _ => sq_nonneg _) ⟨k, Finset.mem_univ k, by
      have : v k ≠ 0 := hk
      positivity⟩
  refine ⟨?_, ⟨1 / Real.sqrt (∑ j, v j ^ 2), by positivity, fun i => ?_⟩, fun k => ?_⟩
  · simp only [normalise, div_pow, Real.sq_sqrt hpos.le]
    rw [← Finset.sum_div, div_self hpos.ne']
  · simp only [normalise]; ring
  · funext i
    have : ∑ j, (axis k : Fin d → ℝ) j ^ 2 = 1 := by simp [axis]
    simp only [normalise, this, Real.sqrt_one, div_one]

/-- Concrete inputs: a repeated index and 0/1 flags passed as integers are rejected. -/
example : validateActive 3 (.ints [0, -1]) = .ok [true, false, true] ∧
    validateActive 3 (.ints [2, -1]) = .error .valueError ∧
    validateActive 3 (.ints [1, 0, 1]) = .error .valueError ∧
    validateShape [[some 4, none], [some 4]] [4] = .ok [4] ∧
    validateString id false (some [.one "x", .many ["log", "ln"]]) (some "ln") = .ok "log" := by
  decide

end Props
end Verif.Utils.Validators
