import Verif.Basic
import Verif.Analysis
import Mathlib.Data.Matrix.Diagonal

/-! Model of the physical property descriptors (`simpeg/props.py` 11-275): a property, its map,
and optionally a reciprocal property with its map. -/

noncomputable section
namespace Verif.HasModel
open Verif Matrix

variable {k n : Nat}

/-- Value of a physical property. Scalars (`value.item()`, 166-167) are one-entry vectors. -/
abbrev Val (n : Nat) := Fin n → ℝ

/-- A mapping object: what `map * model` and `map.deriv(model)` return. Models all have the
length every map expects (the length test is `HasModel.model`'s, modelled in `ModelSetter`). -/
structure PMap (k n : Nat) where
  f : (Fin k → ℝ) → Val n
  J : (Fin k → ℝ) → Matrix (Fin n) (Fin k) ℝ

/-- `1.0 / value`. Division by zero gives `inf` in numpy and `0` here. -/
def recip (v : Val n) : Val n := fun i => 1 / v i

/-- `ReciprocalMap() * map` (53), whose transform is `1.0 / mkvc(m)` and whose derivative is
`sdiag(-(m**-2)) @ map.deriv(model)` (`maps/_property_maps.py` 118-200, `ComboMap.deriv`). -/
def recipMap (p : PMap k n) : PMap k n where
  f m := recip (p.f m)
  J m := Matrix.diagonal (fun i => -(p.f m i ^ 2)⁻¹) * p.J m

/-- The two properties of a reciprocal pair; a lone property is side `A`. -/
inductive Side | A | B
  deriving DecidableEq

def Side.other : Side → Side
  | .A => .B
  | .B => .A

/-- What the class body declares: whether the pair is reciprocal (`Reciprocal(A, B)`), which
of the properties have a mapping (`Invertible` or bare `PhysicalProperty`), and which are
optional. -/
structure Cls where
  isPair : Bool
  hasMap : Side → Bool
  optional : Side → Bool

/-- The private attributes `_prop` and `_propMap` of an instance. -/
structure State (k n : Nat) where
  val : Side → Option (Val n)
  map : Side → Option (PMap k n)

def State.init : State k n := ⟨fun _ => none, fun _ => none⟩

/-- `setattr(self, "_" + name, x)`. -/
def set {α : Type} (f : Side → α) (s : Side) (x : α) : Side → α := fun t => if t = s then x else f t

/-- `Mapping.fget` (43-53). -/
def getMap (c : Cls) (st : State k n) (s : Side) : Option (PMap k n) :=
  match st.map s with
  | some p => some p
  | none =>
    if c.isPair ∧ c.hasMap s.other then (st.map s.other).map recipMap else none

/-- `PhysicalProperty.fget` (125-156); `again` stands for the recursive read of line 146. -/
def readBody (c : Cls) (st : State k n) (model : Option (Fin k → ℝ))
    (again : Side → Except Err (Option (Val n))) (s : Side) : Except Err (Option (Val n)) :=
  match st.val s with
  | some v => .ok (some v)
  | none =>
    match (if c.isPair then st.val s.other else none) with
    | some v => .ok (some (recip v))
    | none =>
      if c.hasMap s = false then
        if c.isPair = false then .ok none
        else if c.hasMap s.other = false then .error .attributeError
        else match again s.other with
          | .error e => .error e
          | .ok none => .error .typeError
          | .ok (some v) => .ok (some (recip v))
      else match getMap c st s with
        | none => if c.optional s then .ok none else .error .attributeError
        | some p => match model with
          | none => .error .attributeError
          | some m => .ok (some (p.f m))

/-- Reading a property. The nested read only happens on a side that has a mapping, where no
further recursion occurs, so one unfolding is enough. -/
def read (c : Cls) (st : State k n) (model : Option (Fin k → ℝ)) (s : Side) :
    Except Err (Option (Val n)) :=
  readBody c st model (readBody c st model fun _ => .error .exception) s

/-- `Derivative.fget` (211-222); `Zero()` is the zero matrix. -/
def readDeriv (c : Cls) (st : State k n) (model : Option (Fin k → ℝ)) (s : Side) :
    Matrix (Fin n) (Fin k) ℝ :=
  if c.hasMap s = false then 0
  else match getMap c st s with
    | none => 0
    | some p => match model with
      | none => 0
      | some m => p.J m

/-- Assignments by the user. `reject` stands for an assignment whose value fails validation
(56, 161-165: validation comes before any change); `del` is `del obj.prop`. -/
inductive Op (k n : Nat) where
  | setVal (s : Side) (v : Option (Val n))
  | setMap (s : Side) (p : Option (PMap k n))
  | reject
  | delVal (s : Side)
  | delMap (s : Side)

/-- `PhysicalProperty.fset` (158-172). -/
def setVal (c : Cls) (st : State k n) (s : Side) : Option (Val n) → State k n
  | none => { st with val := set st.val s none }
  | some v =>
    let val1 := if c.isPair then set st.val s.other none else st.val
    -- clear_mappings (101-106)
    let map1 := if c.hasMap s then set st.map s none else st.map
    let map2 := if c.isPair ∧ c.hasMap s.other then set map1 s.other none else map1
    ⟨set val1 s (some v), map2⟩

/-- `Mapping.fset` (55-59) with `clear_props` (33-36). -/
def setMap (c : Cls) (st : State k n) (s : Side) : Option (PMap k n) → State k n
  | none => { st with map := set st.map s none }
  | some p =>
    let val1 := set st.val s none
    let val2 := if c.isPair then set val1 s.other none else val1
    let map1 := if c.isPair ∧ c.hasMap s.other then set st.map s.other none else st.map
    ⟨val2, set map1 s (some p)⟩

def step (c : Cls) (st : State k n) : Op k n → State k n
  | .setVal s v => setVal c st s v
  | .setMap s p => setMap c st s p
  | .reject => st
  | .delVal s => { st with val := set st.val s none }
  | .delMap s => { st with map := set st.map s none }

def run (c : Cls) (ops : List (Op k n)) : State k n := ops.foldl (step c) State.init

/-- The operations a class offers: side `B` exists for pairs only, maps only where declared. -/
def Op.avail (c : Cls) : Op k n → Prop
  | .setVal s _ => s = .A ∨ c.isPair = true
  | .setMap s _ => (s = .A ∨ c.isPair = true) ∧ c.hasMap s = true
  | .reject => True
  | .delVal s => s = .A ∨ c.isPair = true
  | .delMap s => (s = .A ∨ c.isPair = true) ∧ c.hasMap s = true

end Verif.HasModel
