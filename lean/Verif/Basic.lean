/-!
Shared vocabulary of the models: Python exceptions as values, insertion ordered
dictionaries, and numpy basic slicing of one-dimensional arrays.
-/

namespace Verif

/-- The Python exception classes raised by the modelled code. -/
inductive Err where
  | keyError
  | valueError
  | typeError
  | indexError
  | attributeError
  | assertionError
  | zeroDivision
  | exception
  deriving DecidableEq, Repr

/-- Equality of results is decidable (used in the concrete examples only). -/
instance {ε α : Type} [DecidableEq ε] [DecidableEq α] : DecidableEq (Except ε α)
  | .ok a, .ok b => if h : a = b then .isTrue (by rw [h]) else .isFalse (by simp [h])
  | .error a, .error b => if h : a = b then .isTrue (by rw [h]) else .isFalse (by simp [h])
  | .ok _, .error _ => .isFalse (by simp)
  | .error _, .ok _ => .isFalse (by simp)

/-- Python `dict.__setitem__`: overwrite in place, or append a new key at the end
(insertion order is kept). -/
def dictSet {κ α : Type} [DecidableEq κ] : List (κ × α) → κ → α → List (κ × α)
  | [], k, v => [(k, v)]
  | (k', v') :: d, k, v =>
    if k' = k then (k', v) :: d else (k', v') :: dictSet d k v

/-- Python `dict.get(k)`. -/
def dictGet {κ α : Type} [DecidableEq κ] : List (κ × α) → κ → Option α
  | [], _ => none
  | (k', v') :: d, k => if k' = k then some v' else dictGet d k

/-- Python `del d[k]`/`dict.pop(k)` on the keys (no error reporting). -/
def dictDel {κ α : Type} [DecidableEq κ] : List (κ × α) → κ → List (κ × α)
  | [], _ => []
  | (k', v') :: d, k => if k' = k then d else (k', v') :: dictDel d k

/-- numpy `a[start:stop]` for non-negative bounds: bounds are clipped to the length. -/
def readSlice {α : Type} (a : List α) (start stop : Nat) : List α :=
  (a.drop start).take (stop - start)

/-- numpy `a[start:stop] = v` for non-negative bounds and one-dimensional `v`:
bounds are clipped to the length of `a`; a value of length one broadcasts; any other
length mismatch raises `ValueError`. -/
def writeSlice {α : Type} (a : List α) (start stop : Nat) (v : List α) :
    Except Err (List α) :=
  let s := min start a.length
  let e := max s (min stop a.length)
  let n := e - s
  if v.length = n then .ok (a.take s ++ v ++ a.drop e)
  else match v with
    | [x] => .ok (a.take s ++ List.replicate n x ++ a.drop e)
    | _ => .error .valueError

end Verif
