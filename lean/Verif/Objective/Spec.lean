import Verif.Objective.Model

/-! Specification vocabulary for objective function algebra. -/

namespace Verif.Objective.Spec
open Verif.Objective

variable {K V : Type}

/-- User expressions over given objective functions. -/
inductive Expr (K V : Type) where
  | leaf (o : Obj K V)
  | add (a b : Expr K V)
  | mul (c : Mult K) (a : Expr K V)
  | div (a : Expr K V) (c : Mult K)

/-- What Python builds for an expression (operands first). -/
def build [Field K] [DecidableEq K] : Expr K V → Except Err (Obj K V)
  | .leaf o => .ok o
  | .add a b =>
    match build a with
    | .error e => .error e
    | .ok a => match build b with
      | .error e => .error e
      | .ok b => Objective.add a b
  | .mul c a =>
    match build a with
    | .error e => .error e
    | .ok a => Objective.mul a c
  | .div a c =>
    match build a with
    | .error e => .error e
    | .ok a => Objective.div a c

/-- The number a multiplier stands for. -/
def Mult.val [Zero K] : Mult K → K
  | .num c => c
  | .bad => 0

/-- The algebraic meaning of an expression, for any interpretation of the leaves in a
vector space (numbers for the value, vectors for gradient and Hessian products). -/
def denote {X : Type} [Field K] [AddCommGroup X] [Module K X] (leaf : Obj K V → X) :
    Expr K V → X
  | .leaf o => leaf o
  | .add a b => denote leaf a + denote leaf b
  | .mul c a => Mult.val c • denote leaf a
  | .div a c => (Mult.val c)⁻¹ • denote leaf a

mutual
/-- Plain linear combination meaning of an objective function object. -/
def total {X : Type} [Field K] [AddCommGroup X] [Module K X] (base : Base K V → X) :
    Obj K V → X
  | .base b => base b
  | .combo _ fs ms => totalList base fs ms
/-- `Σ cᵢ • fᵢ`. -/
def totalList {X : Type} [Field K] [AddCommGroup X] [Module K X] (base : Base K V → X) :
    List (Obj K V) → List K → X
  | f :: fs, c :: cs => c • total base f + totalList base fs cs
  | _, _ => 0
end

mutual
/-- Well-formedness: as many multipliers as functions, all defined numbers of parameters
agree, members well-formed. -/
def WF : Obj K V → Prop
  | .base _ => True
  | .combo _ fs ms => fs.length = ms.length ∧
      (∃ n, ∀ f ∈ fs, f.nP = none ∨ f.nP = some n) ∧ WFList fs
/-- all members well-formed -/
def WFList : List (Obj K V) → Prop
  | [] => True
  | f :: fs => WF f ∧ WFList fs
end

end Verif.Objective.Spec

namespace Verif.Objective.Spec
open Verif.Objective

variable {K V : Type}

/-- The objective functions an expression starts from. -/
def Expr.leaves : Expr K V → List (Obj K V)
  | .leaf o => [o]
  | .add a b => a.leaves ++ b.leaves
  | .mul _ a => a.leaves
  | .div a _ => a.leaves

/-- Every scalar of the expression is a number, and no divisor is zero. -/
def Expr.Legal [Zero K] : Expr K V → Prop
  | .leaf _ => True
  | .add a b => a.Legal ∧ b.Legal
  | .mul c a => c ≠ .bad ∧ a.Legal
  | .div a c => (∃ k, c = .num k ∧ k ≠ 0) ∧ a.Legal

mutual
/-- `P` holds of every base function occurring in the object. -/
def AllBases (P : Base K V → Prop) : Obj K V → Prop
  | .base b => P b
  | .combo _ fs _ => AllBasesList P fs
/-- `P` holds of every base function of the members. -/
def AllBasesList (P : Base K V → Prop) : List (Obj K V) → Prop
  | [] => True
  | f :: fs => AllBases P f ∧ AllBasesList P fs
end

end Verif.Objective.Spec
