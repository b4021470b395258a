import Verif.Basic
import Verif.Analysis

/-!
Model of map composition, `simpeg/maps/_base.py`: `IdentityMap.__mul__`, `ComboMap`, `SumMap`.

Two views are modelled.  *Values*: maps between real vector spaces, with compatible
dimensions enforced by types (`MapT n m` maps vectors of length `n` to length `m`).
*Shapes*: the dimension checks themselves, with `"*"` for free dimensions (`ShapeT`).
-/

namespace Verif.Maps
open Verif Matrix

/-- A single map: `_transform`, and `deriv(m)`. -/
structure Map (n m : Nat) where
  transform : (Fin n → ℝ) → (Fin m → ℝ)
  deriv : (Fin n → ℝ) → Matrix (Fin m) (Fin n) ℝ
  isLinear : Bool

/- `MapT`: a map object: a single map or a `ComboMap` (357-546). `ComboMap.__init__` keeps
member combos nested (the first branch of 442-447 is always taken).
`Chain`: the list `self.maps`; `cons f rest` is `maps = [f] + rest`, so `f` is applied last. -/
mutual
inductive MapT : Nat → Nat → Type
  | leaf {n m : Nat} (f : Map n m) : MapT n m
  | combo {n m : Nat} (c : Chain n m) : MapT n m
inductive Chain : Nat → Nat → Type
  | nil {n : Nat} : Chain n n
  | cons {n k m : Nat} (f : MapT k m) (rest : Chain n k) : Chain n m
end

mutual
/-- `map * m` for an array of matching length (239-246, 476-479). -/
def MapT.apply : {n m : Nat} → MapT n m → (Fin n → ℝ) → (Fin m → ℝ)
  | _, _, .leaf f, x => f.transform x
  | _, _, .combo c, x => c.apply x
/-- `for map_i in reversed(self.maps): m = map_i * m` (477-479). -/
def Chain.apply : {n m : Nat} → Chain n m → (Fin n → ℝ) → (Fin m → ℝ)
  | _, _, .nil, x => x
  | _, _, .cons f rest, x => f.apply (rest.apply x)
end

mutual
/-- `map.deriv(m)` (481-534 with `v=None`: start from `deriv = 1`). -/
noncomputable def MapT.deriv : {n m : Nat} → MapT n m → (Fin n → ℝ) → Matrix (Fin m) (Fin n) ℝ
  | _, _, .leaf f, x => f.deriv x
  | n, _, .combo c, x => (c.derivLoop x (1 : Matrix (Fin n) (Fin n) ℝ)).1
/-- The loop 530-533: returns `(deriv, mi)` after the maps of the chain, where `deriv`
started as a matrix `d` (the identity for `v=None`, a single column for a vector `v`). -/
noncomputable def Chain.derivLoop : {n m : Nat} → Chain n m → {q : Type} → (Fin n → ℝ) →
    Matrix (Fin n) q ℝ → Matrix (Fin m) q ℝ × (Fin m → ℝ)
  | _, _, .nil, _, x, d => (d, x)
  | _, _, .cons f rest, _, x, d =>
    let (d', mi) := rest.derivLoop x d
    (f.deriv mi * d', f.apply mi)
end

/-- `ComboMap.deriv(m, v)` with a vector `v` (526: `deriv = v`). -/
noncomputable def Chain.derivVec {n m : Nat} (c : Chain n m) (x v : Fin n → ℝ) : Fin m → ℝ :=
  fun i => (c.derivLoop x (Matrix.of fun j (_ : Unit) => v j)).1 i ()

mutual
/-- `is_linear` (347-354, 545-546). -/
def MapT.isLinear : {n m : Nat} → MapT n m → Bool
  | _, _, .leaf f => f.isLinear
  | _, _, .combo c => c.isLinear
/-- `all(m.is_linear for m in self.maps)`. -/
def Chain.isLinear : {n m : Nat} → Chain n m → Bool
  | _, _, .nil => true
  | _, _, .cons f rest => f.isLinear && rest.isLinear
end

/-! ### Shapes -/

/-- A map seen through its `shape`: a leaf of free shape `("*", "*")` (elementwise maps
created without `nP` or mesh), a leaf of fixed shape `(rows, cols)`, or a combo. -/
inductive ShapeT where
  | free
  | fixed (rows cols : Nat)
  | combo (maps : List ShapeT)

mutual
/-- `shape[0]` (95-118, 450-463); `none` is `"*"`. -/
def ShapeT.rows : ShapeT → Option Nat
  | .free => none
  | .fixed r _ => some r
  | .combo l => rowsHead l
/-- `self.maps[0].shape[0]` -/
def rowsHead : List ShapeT → Option Nat
  | [] => none
  | s :: _ => s.rows
end

mutual
/-- `shape[1]` -/
def ShapeT.cols : ShapeT → Option Nat
  | .free => none
  | .fixed _ c => some c
  | .combo l => colsLast l
/-- `self.maps[-1].shape[1]` -/
def colsLast : List ShapeT → Option Nat
  | [] => none
  | [s] => s.cols
  | _ :: s :: l => colsLast (s :: l)
end

/-- The check `not (a == "*" or b == "*") and not a == b` (231-232, 425-426), negated. -/
def compatible (a b : Option Nat) : Bool :=
  match a, b with
  | some a, some b => a == b
  | _, _ => true

/-- The loop of `ComboMap.__init__` (419-447) over already built members: each new member's
rows are checked against the columns of the previous one. -/
def chainOk : List ShapeT → Bool
  | [] => true
  | [_] => true
  | a :: b :: l => compatible a.cols b.rows && chainOk (b :: l)

/-- `ComboMap(maps)`. -/
def mkCombo (l : List ShapeT) : Except Err ShapeT :=
  if chainOk l then .ok (.combo l) else .error .valueError

mutual
/-- Every combo inside was accepted by the constructor and is not empty. -/
def ShapeT.Accepted : ShapeT → Prop
  | .free => True
  | .fixed _ _ => True
  | .combo l => l ≠ [] ∧ chainOk l = true ∧ AcceptedList l
/-- All members accepted. -/
def AcceptedList : List ShapeT → Prop
  | [] => True
  | s :: l => s.Accepted ∧ AcceptedList l
end

mutual
/-- `map * array` as far as lengths go (239-246): the check of `shape[1]`, then the
transform. A leaf of fixed shape returns `rows` values; a free one keeps the length. -/
def ShapeT.applyLen : ShapeT → Nat → Except Err Nat
  | .free, n => .ok n
  | .fixed r c, n => if n = c then .ok r else .error .valueError
  | .combo l, n =>
    if compatible (colsLast l) (some n) then applyLens l n else .error .valueError
/-- `for map_i in reversed(self.maps): m = map_i * m`. -/
def applyLens : List ShapeT → Nat → Except Err Nat
  | [], n => .ok n
  | s :: l, n => match applyLens l n with
    | .error e => .error e
    | .ok k => s.applyLen k
end

/-! ### SumMap -/

/-- A member of a `SumMap` for a fixed model `m`, as far as `deriv(m, v)` with an array `v`
goes: `IdentityMap.deriv` returns the *same array object* `v` (177-178); other maps return
a fresh array `J v`. -/
inductive SumMember (V : Type) where
  | identity
  | fresh (J : V → V)

/-- The value of `map_i.deriv(m0, v=v)`. -/
def SumMember.jac {V : Type} : SumMember V → V → V
  | .identity, v => v
  | .fresh J, v => J v

/-- Loop state of `SumMap.deriv(m, v)` (847-861): the content of the caller's array `v`, the
content of `sumDeriv`, and whether they are the same array. -/
structure SumState (V : Type) where
  v : V
  sum : V
  aliased : Bool

/-- One later iteration (`ii > 0`): `deriv = map_i.deriv(m0, v=v); sumDeriv += deriv`, where
`+=` is in place. -/
def SumState.step {V : Type} [Add V] (s : SumState V) (f : SumMember V) : SumState V :=
  let d := f.jac s.v
  let new := s.sum + d
  { v := if s.aliased then new else s.v, sum := new, aliased := s.aliased }

/-- `SumMap.deriv(m, v)`: final content of the caller's `v`, and the result. -/
def sumDerivVec {V : Type} [Add V] (fs : List (SumMember V)) (v : V) : Except Err (SumState V) :=
  match fs with
  | [] => .error .attributeError
  | f :: fs =>
    let a := match f with
      | .identity => true
      | .fresh _ => false
    .ok (fs.foldl SumState.step ⟨v, f.jac v, a⟩)

/-- `SumMap._transform` (818-827): every member gets its own copy of `m`. -/
def sumTransform {V : Type} [Add V] (fs : List (V → V)) (m : V) : Except Err V :=
  match fs with
  | [] => .error .attributeError
  | f :: fs => .ok (fs.foldl (fun acc g => acc + g m) (f m))

end Verif.Maps
