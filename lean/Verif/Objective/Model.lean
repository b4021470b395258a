import Verif.Basic
import Mathlib.Algebra.Field.Defs
import Mathlib.Algebra.Module.Defs

/-!
Model of `simpeg/objective_function.py`: `BaseObjectiveFunction` arithmetic and
`ComboObjectiveFunction`.

`K` is the type of scalars, `V` the type of models.  The optional `f` (precomputed fields)
argument is not modelled here; see the inverse problem model.
-/

namespace Verif.Objective
open Verif

/-- A non-combo objective function: its number of parameters (`none` is `"*"`,
objective_function.py 86-99), its value, gradient and Hessian-vector product; `none` for the
latter two is discretize's `Zero()`. -/
structure Base (K V : Type) where
  nP : Option Nat
  value : V → K
  deriv : V → Option V
  deriv2 : V → V → Option V

/-- An objective function object: a base function, or a `ComboObjectiveFunction` with its
`_unpack_on_add` flag, `objfcts` and `multipliers` (389-419).  The `Zero()` multiplier is
represented by 0. -/
inductive Obj (K V : Type) where
  | base (b : Base K V)
  | combo (unpack : Bool) (fs : List (Obj K V)) (ms : List K)

variable {K V : Type}

mutual
/-- `nP` of an objective function; for a combo, the first defined `nP` of its members
(407-414, and 86-99: the default mapping of a combo without `nP` also has `nP = "*"`). -/
def Obj.nP : Obj K V → Option Nat
  | .base b => b.nP
  | .combo _ fs _ => nPList fs
/-- `number_of_parameters[0]` if there is one (408-412). -/
def nPList : List (Obj K V) → Option Nat
  | [] => none
  | f :: fs => match f.nP with
    | some n => some n
    | none => nPList fs
end

/-- A Python object used as multiplier: a number (or `Zero`), or something that
`_validate_multiplier` rejects (a `bool`, an array, a string ...). -/
inductive Mult (K : Type) where
  | num (c : K)
  | bad
  deriving DecidableEq

/-- `_validate_multiplier` over a list (404-405, 450-451, 679-689). -/
def validateMultipliers : List (Mult K) → Except Err (List K)
  | [] => .ok []
  | .bad :: _ => .error .typeError
  | .num c :: ms => match validateMultipliers ms with
    | .error e => .error e
    | .ok cs => .ok (c :: cs)

/-- `_validate_objective_functions` (653-676): all defined `nP` agree with the first. -/
def sameNP (fs : List (Obj K V)) : Bool :=
  match fs.filterMap Obj.nP with
  | [] => true
  | n :: ns => (n :: ns).all (· == n)

/-- `ComboObjectiveFunction.__init__` (389-419) with explicit multipliers. -/
def mkCombo (unpack : Bool) (fs : List (Obj K V)) (ms : List (Mult K)) :
    Except Err (Obj K V) :=
  if fs.length ≠ ms.length then .error .valueError
  else if !sameNP fs then .error .valueError
  else match validateMultipliers ms with
    | .error e => .error e
    | .ok cs => .ok (.combo unpack fs cs)

/-- `ComboObjectiveFunction.multipliers` setter (447-453): the object after the statement
and the exception if any. On base functions there is no such attribute. -/
def setMultipliers (o : Obj K V) (ms : List (Mult K)) : Obj K V × Option Err :=
  match o with
  | .base b => (.base b, some .attributeError)
  | .combo u fs cs =>
    match validateMultipliers ms with
    | .error e => (.combo u fs cs, some e)
    | .ok cs' =>
      if fs.length ≠ ms.length then (.combo u fs cs, some .valueError)
      else (.combo u fs cs', none)

/-- The contribution of one operand to `__add__` (284-290). -/
def unpackOperand [One K] : Obj K V → List (Obj K V) × List K
  | .base b => ([.base b], [1])
  | .combo true fs ms => (fs, ms)
  | .combo false fs ms => ([.combo false fs ms], [1])

/-- `__add__` of two objective functions (283-294). -/
def add [One K] (a b : Obj K V) : Except Err (Obj K V) :=
  let (fa, ma) := unpackOperand a
  let (fb, mb) := unpackOperand b
  mkCombo true (fa ++ fb) ((ma ++ mb).map Mult.num)

/-- `__mul__`/`__rmul__` (299-303). -/
def mul (a : Obj K V) (c : Mult K) : Except Err (Obj K V) := mkCombo true [a] [c]

/-- `__truediv__` (308-309): `self * (1.0 / denominator)`; dividing by zero raises, and
so does a denominator that is not a number. -/
def div [Field K] [DecidableEq K] (a : Obj K V) (c : Mult K) : Except Err (Obj K V) :=
  match c with
  | .bad => .error .typeError
  | .num c => if c = 0 then .error .zeroDivision else mul a (.num (1 / c))

section eval
variable [Field K] [DecidableEq K]

mutual
/-- `__call__` (455-470). -/
def Obj.value : Obj K V → V → K
  | .base b, m => b.value m
  | .combo _ fs ms, m => valueLoop fs ms m 0
/-- The loop of `__call__`; iteration over `self` stops at the shorter of the two lists
(`__getitem__`, 424-425, raises IndexError). -/
def valueLoop : List (Obj K V) → List K → V → K → K
  | f :: fs, c :: cs, m, acc =>
    if c = 0 then valueLoop fs cs m acc else valueLoop fs cs m (acc + c * f.value m)
  | _, _, _, acc => acc
end

/-- `Zero() + x` and `g += multiplier * aux` with `g` possibly still `Zero()`. -/
def accum [AddCommGroup V] [Module K V] (g : Option V) (c : K) (aux : V) : Option V :=
  match g with
  | none => some (c • aux)
  | some g => some (g + c • aux)

mutual
/-- `deriv` (472-485); `none` is `Zero()`. -/
def Obj.deriv [AddCommGroup V] [Module K V] : Obj K V → V → Option V
  | .base b, m => b.deriv m
  | .combo _ fs ms, m => derivLoop fs ms m none
/-- The loop of `deriv`. -/
def derivLoop [AddCommGroup V] [Module K V] : List (Obj K V) → List K → V → Option V → Option V
  | f :: fs, c :: cs, m, g =>
    if c = 0 then derivLoop fs cs m g
    else match f.deriv m with
      | none => derivLoop fs cs m g
      | some aux => derivLoop fs cs m (accum g c aux)
  | _, _, _, g => g
end

mutual
/-- `deriv2(m, v)` (487-499). -/
def Obj.deriv2 [AddCommGroup V] [Module K V] : Obj K V → V → V → Option V
  | .base b, m, v => b.deriv2 m v
  | .combo _ fs ms, m, v => deriv2Loop fs ms m v none
/-- The loop of `deriv2`; `multiplier * Zero()` is `Zero()` and adding it changes nothing. -/
def deriv2Loop [AddCommGroup V] [Module K V] :
    List (Obj K V) → List K → V → V → Option V → Option V
  | f :: fs, c :: cs, m, v, h =>
    if c = 0 then deriv2Loop fs cs m v h
    else match f.deriv2 m v with
      | none => deriv2Loop fs cs m v h
      | some aux => deriv2Loop fs cs m v (accum h c aux)
  | _, _, _, _, h => h
end

end eval

end Verif.Objective
