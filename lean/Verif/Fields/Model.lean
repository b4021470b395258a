import Verif.Survey.Model

/-!
Model of `simpeg/fields.py`, class `Fields`: a dictionary from field name to a matrix with
one block of columns per source.  A stored matrix is a list of columns, each column a list
of `nP` values.  Field names are natural numbers.

Simplifications: the storage location (`CC`, `N`, `F`, `E`) enters only through the number
of rows `nP name`; data types are not modelled; a value is given as a list of columns (a
1-D array or a scalar is the one-column case); broadcasting along rows is not modelled.
-/

namespace Verif.Fields
open Verif Verif.Survey

/-- The fixed part of a `Fields` object: the survey's sources, `_knownFields` with their
number of rows (fields.py 212-222), and `_aliasFields` as (alias, (stored name, function))
(fields.py 131-155).  Alias functions get the stored columns and the source list. -/
structure Env (α : Type) where
  sources : List Src
  known : List (Nat × Nat)
  alias : List (Nat × (Nat × (List (List α) → List Nat → List (List α))))

/-- `_fields` (fields.py 90): stored matrices by name, as lists of columns. -/
abbrev Store (α : Type) := List (Nat × List (List α))

/-- A source selector: the full slice `:` or a list of sources (fields.py 244-249). -/
inductive SrcKey where
  | all
  | list (ids : List Nat)
  deriving Repr, DecidableEq

/-- `Fields.__init__` overlap check (fields.py 84-88). -/
def init {α : Type} (e : Env α) : Except Err (Store α) :=
  if e.known.any (fun k => (dictGet e.alias k.1).isSome) then .error .keyError else .ok []

/-- `_srcIndex` (fields.py 244-249) as a list of column numbers. -/
def srcIndex {α : Type} (e : Env α) : SrcKey → Except Err (List Nat)
  | .all => .ok (List.range (nFieldsTotal e.sources))
  | .list ids => getSourceIndices e.sources ids

/-- the source list passed to alias functions (fields.py 286-288, 337-338) -/
def srcList {α : Type} (e : Env α) : SrcKey → List Nat
  | .all => e.sources.map Src.id
  | .list ids => ids

/-- `_initStore` (fields.py 224-242): existing matrix or a new zero matrix. -/
def initStore {α : Type} [Zero α] (e : Env α) (st : Store α) (name nP : Nat) :
    List (List α) :=
  match dictGet st name with
  | some m => m
  | none => List.replicate (nFieldsTotal e.sources) (List.replicate nP 0)

/-- numpy `field[:, ind] = val` for a list `ind` of valid columns: columns are written in
order. -/
def writeCols {α : Type} : List (List α) → List Nat → List (List α) → List (List α)
  | m, i :: ind, v :: val => writeCols (m.set i v) ind val
  | m, _, _ => m

/-- `_setField` (fields.py 315-320) including numpy's shape rules: the value must have one
column (broadcast) or as many columns as selected, with the right number of rows; when the
storage has a single column the value is flattened by `mkvc` first (316-319), so it must
have one column. -/
def setCols {α : Type} (nP : Nat) (m : List (List α)) (ind : List Nat)
    (val : List (List α)) : Except Err (List (List α)) :=
  if !(val.all fun c => c.length == nP) then .error .valueError
  else if m.length = 1 ∧ val.length ≠ 1 then .error .valueError
  else if val.length = ind.length then .ok (writeCols m ind val)
  else match val with
    | [v] => .ok (writeCols m ind (List.replicate ind.length v))
    | _ => .error .valueError

/-- `__setitem__` with a field name (fields.py 290-304, 251-288). The name is looked up
first, then the source index. -/
def setItem {α : Type} [Zero α] (e : Env α) (st : Store α) (k : SrcKey) (name : Nat)
    (val : List (List α)) : Except Err (Store α) :=
  match dictGet e.known name with
  | none => .error .keyError
  | some nP =>
    match srcIndex e k with
    | .error er => .error er
    | .ok ind =>
      match setCols nP (initStore e st name nP) ind val with
      | .error er => .error er
      | .ok m => .ok (dictSet st name m)

/-- numpy `field[:, ind]` for valid columns. -/
def readCols {α : Type} (m : List (List α)) (ind : List Nat) : List (List α) :=
  ind.filterMap fun i => m[i]?

/-- `__getitem__` with a field name (fields.py 306-313, 322-342).  A known name that was
never stored falls into the alias branch and raises `KeyError`, as does an alias whose
base field was never stored. -/
def getItem {α : Type} (e : Env α) (st : Store α) (k : SrcKey) (name : Nat) :
    Except Err (List (List α)) :=
  if (dictGet e.known name).isNone && (dictGet e.alias name).isNone then .error .keyError
  else match srcIndex e k with
    | .error er => .error er
    | .ok ind =>
      match dictGet st name with
      | some m => .ok (readCols m ind)
      | none =>
        match dictGet e.alias name with
        | none => .error .keyError
        | some (base, f) =>
          match dictGet st base with
          | none => .error .keyError
          | some m => .ok (f (readCols m ind) (srcList e k))

/-- A failed assignment through `_initStore` leaves the freshly created zero matrix in
`_fields` (fields.py 303-304: `_initStore` runs before `_setField` raises).  `setEffect`
is the state after the statement, whether or not it raised. -/
def setEffect {α : Type} [Zero α] (e : Env α) (st : Store α) (k : SrcKey) (name : Nat)
    (val : List (List α)) : Store α :=
  match setItem e st k name val with
  | .ok st' => st'
  | .error _ =>
    match dictGet e.known name with
    | none => st
    | some nP =>
      match srcIndex e k with
      | .error _ => st
      | .ok _ => dictSet st name (initStore e st name nP)

end Verif.Fields
