import Verif.Basic
import Mathlib.Algebra.Field.Defs
import Mathlib.Algebra.Module.Defs

/-!
Model of `simpeg/inverse_problem.py`: `BaseInvProblem.beta`, `getFields`, `get_dpred`,
`evalFunction`.

* `K` scalars, `V` models (gradients live in the same space), `Φ` fields, `D` data vectors;
* a Python model array is an identity (`Nat`) with its content (`val`); arrays are not
  mutated in place (`warmstart` compares identities with `is`, 272-274);
* the data misfit is a combo whose members are given flat (members that are themselves
  combos are members without a `simulation` attribute, as in the code);
* the `"ubc"` printing block (326-351) only sets `phi_s ... phi_z` and is left out.
-/

namespace Verif.InvProblem
open Verif

variable {K V Φ D : Type}

/-- A member of `dmisfit.objfcts`. `sim` is `simulation.fields` and `simulation.dpred(m, f=f)`
for members with a `simulation` (these are the ones with `has_fields = True`,
data_misfit.py 40); `value m none` is `objfct(m)` and `value m (some f)` is `objfct(m, f=f)`. -/
structure Member (K V Φ D : Type) where
  sim : Option ((V → Φ) × (V → Φ → D))
  value : V → Option Φ → K
  deriv : V → Option Φ → V
  deriv2 : V → V → Option Φ → V

/-- The data misfit combo: members with multipliers. -/
abbrev Misfit (K V Φ D : Type) := List (K × Member K V Φ D)

/-- The regularization, as value, gradient and Hessian product. -/
structure Reg (K V : Type) where
  value : V → K
  deriv : V → V
  deriv2 : V → V → V

/-- State of an inverse problem that `evalFunction` reads and writes: `phi_d`, `phi_d_last`
and so on are `none` for `nan`. -/
structure State (K Φ D : Type) where
  beta : K
  warm : List (Nat × List Φ)
  phi_d : Option K
  phi_d_last : Option K
  phi_m : Option K
  phi_m_last : Option K
  dpred : List D

/-- The `beta` setter (70-72): `validate_float(min_val=0.0)`. -/
def setBeta [LT K] [DecidableLT K] [Zero K] (s : State K Φ D) (b : K) :
    Except Err (State K Φ D) :=
  if b < 0 then .error .valueError else .ok { s with beta := b }

/-- The list `f` built by `getFields` (284-289): one entry per member *with* a simulation,
nothing for the others. -/
def fieldsList (dm : Misfit K V Φ D) (m : V) : List Φ :=
  dm.filterMap fun p => p.2.sim.map fun s => s.1 m

/-- `getFields` (269-296), with `deleteWarmstart=True`: fields and the new warm start list. -/
def getFields (dm : Misfit K V Φ D) (warm : List (Nat × List Φ)) (val : Nat → V) (id : Nat)
    (store : Bool) : List Φ × List (Nat × List Φ) :=
  let f := match warm.find? (fun p => p.1 == id) with
    | some p => p.2
    | none => fieldsList dm (val id)
  (f, if store then [(id, f)] else [])

/-- The `f` argument of member number `i`: `f[i]` if it has fields (IndexError beyond the
end), none otherwise (objective_function.py 461-464, 479-482, 494-497). -/
def fieldsArg (p : Member K V Φ D) (f : List Φ) (i : Nat) : Except Err (Option Φ) :=
  match p.sim with
  | none => .ok none
  | some _ => match f[i]? with
    | some x => .ok (some x)
    | none => .error .indexError

section loops
variable {X : Type} [Zero K] [DecidableEq K] [AddCommGroup X]

/-- The loop over a combo with fields (objective_function.py 459-468, 475-484, 490-498),
for the value, the gradient and the Hessian product alike. -/
def comboLoop (smul : K → X → X) (get : Member K V Φ D → Option Φ → X) (f : List Φ) :
    Nat → Misfit K V Φ D → X → Except Err X
  | _, [], acc => .ok acc
  | i, (c, p) :: rest, acc =>
    if c = 0 then comboLoop smul get f (i + 1) rest acc
    else match fieldsArg p f i with
      | .error e => .error e
      | .ok a => comboLoop smul get f (i + 1) rest (acc + smul c (get p a))
end loops

/-- `get_dpred` (298-305). -/
def getDpred (m : V) (f : List Φ) : Nat → Misfit K V Φ D → Except Err (List D)
  | _, [] => .ok []
  | i, (_, p) :: rest =>
    match p.sim with
    | none => getDpred m f (i + 1) rest
    | some s => match f[i]? with
      | none => .error .indexError
      | some x => match getDpred m f (i + 1) rest with
        | .error e => .error e
        | .ok l => .ok (s.2 m x :: l)

/-- The output of `evalFunction`: `phi`, and on request the gradient and the operator. -/
structure Out (K V : Type) where
  phi : K
  g : Option V
  H : Option (V → Except Err V)

section eval
variable [Field K] [DecidableEq K] [AddCommGroup V] [Module K V]

/-- `evalFunction(m, return_g, return_H)` (308-373). The operator `H` reads `beta` when it is
applied; here it is the `beta` of the call. -/
def evalFunction (dm : Misfit K V Φ D) (reg : Reg K V) (val : Nat → V)
    (s : State K Φ D) (id : Nat) (return_g return_H : Bool) :
    Except Err (State K Φ D × Out K V) :=
  let m := val id
  let (f, warm) := getFields dm s.warm val id (!return_g && !return_H)
  match comboLoop (fun c x => c * x) (fun p a => p.value m a) f 0 dm 0 with
  | .error e => .error e
  | .ok phi_d =>
    match getDpred m f 0 dm with
    | .error e => .error e
    | .ok dpred =>
      let phi_m := reg.value m
      let s' := { s with warm := warm, phi_d := some phi_d, phi_d_last := s.phi_d,
                         phi_m := some phi_m, phi_m_last := s.phi_m, dpred := dpred }
      let phi := phi_d + s.beta * phi_m
      let H : Option (V → Except Err V) := if return_H then some (fun v =>
          match comboLoop (fun (c : K) x => c • x) (fun p a => p.deriv2 m v a) f 0 dm 0 with
          | .error e => .error e
          | .ok h => .ok (h + s.beta • reg.deriv2 m v))
        else none
      if return_g then
        match comboLoop (fun (c : K) x => c • x) (fun p a => p.deriv m a) f 0 dm 0 with
        | .error e => .error e
        | .ok g => .ok (s', ⟨phi, some (g + s.beta • reg.deriv m), H⟩)
      else .ok (s', ⟨phi, none, H⟩)

/-- What happens to an inverse problem during an inversion. -/
inductive Op (K : Type) where
  | setBeta (b : K)
  | eval (id : Nat) (return_g return_H : Bool)

/-- One operation; a raising one leaves the inversion (here: the state is kept). -/
def step [LT K] [DecidableLT K] (dm : Misfit K V Φ D) (reg : Reg K V) (val : Nat → V)
    (s : State K Φ D) : Op K → State K Φ D
  | .setBeta b => match setBeta s b with
    | .ok s' => s'
    | .error _ => s
  | .eval id g H => match evalFunction dm reg val s id g H with
    | .ok (s', _) => s'
    | .error _ => s

/-- A history. -/
def run [LT K] [DecidableLT K] (dm : Misfit K V Φ D) (reg : Reg K V) (val : Nat → V)
    (s : State K Φ D) (ops : List (Op K)) : State K Φ D :=
  ops.foldl (step dm reg val) s

end eval
end Verif.InvProblem
