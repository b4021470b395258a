import Verif.Survey.Model
import Mathlib.Analysis.Real.Sqrt

/-!
Model of `simpeg/data.py`, class `Data`: access by (source, receiver) and the uncertainty
attributes.  Observed data are real (complex data enter the uncertainties only through
their modulus).
-/

namespace Verif.Data
open Verif Verif.Survey

/-! ### access by source and receiver -/

/-- `Data.__setitem__` (data.py 291-293); `v` is `mkvc(value)`. -/
def setItem {α : Type} (l : List Src) (dobs : List α) (k : Nat × Nat) (v : List α) :
    Except Err (List α) :=
  match getSlice l k.1 k.2 with
  | .error e => .error e
  | .ok (a, b) => writeSlice dobs a b v

/-- `Data.__getitem__` (data.py 295-297). -/
def getItem {α : Type} (l : List Src) (dobs : List α) (k : Nat × Nat) : Except Err (List α) :=
  match getSlice l k.1 k.2 with
  | .error e => .error e
  | .ok (a, b) => .ok (readSlice dobs a b)

/-- State after the statement `data[k] = v`, raised or not. -/
def setEffect {α : Type} (l : List Src) (dobs : List α) (k : Nat × Nat) (v : List α) :
    List α :=
  match setItem l dobs k v with
  | .ok d => d
  | .error _ => dobs

/-! ### uncertainties -/

/-- A value assigned to an uncertainty attribute. -/
inductive Val (K : Type) where
  | none
  | scalar (x : K)
  | array (v : List K)

/-- The uncertainty state: `dobs`, `_relative_error`, `_noise_floor`. -/
structure Unc (K : Type) where
  dobs : List K
  rel : Option (List K)
  noise : Option (List K)

/-- The common part of the `relative_error` and `noise_floor` setters (data.py 164-177 and
207-220): scalars (and one-element arrays, which `float()` accepts) are broadcast to `nD`
values, arrays must have `nD` entries, negative entries are rejected. -/
def checkUnc {K : Type} [Zero K] [LT K] [DecidableLT K] (nD : Nat) :
    Val K → Except Err (Option (List K))
  | .none => .ok .none
  | .scalar x =>
    if (List.replicate nD x).any (fun y => decide (y < 0)) then .error .valueError
    else .ok (some (List.replicate nD x))
  | .array [x] =>
    if (List.replicate nD x).any (fun y => decide (y < 0)) then .error .valueError
    else .ok (some (List.replicate nD x))
  | .array v =>
    if v.length ≠ nD then .error .valueError
    else if v.any (fun y => decide (y < 0)) then .error .valueError
    else .ok (some v)

variable {K : Type} [Zero K] [LT K] [DecidableLT K]

/-- `relative_error` setter (data.py 164-177); the survey's `nD` equals `len(dobs)`, which
the `dobs` setter enforced (130-134). Result: the state, and the exception if any. -/
def setRel (u : Unc K) (v : Val K) : Unc K × Option Err :=
  match checkUnc u.dobs.length v with
  | .ok r => ({ u with rel := r }, none)
  | .error e => (u, some e)

/-- `noise_floor` setter (data.py 207-220). -/
def setNoise (u : Unc K) (v : Val K) : Unc K × Option Err :=
  match checkUnc u.dobs.length v with
  | .ok r => ({ u with noise := r }, none)
  | .error e => (u, some e)

/-- `standard_deviation` setter (data.py 260-263): first zero the relative error, then
assign the noise floor (which may raise). -/
def setStd (u : Unc K) (v : Val K) : Unc K × Option Err :=
  setNoise (setRel u (.array (List.replicate u.dobs.length 0))).1 v

/-- `dobs` setter (data.py 130-134): the shape must be `(survey.nD,)`. -/
def setDobs (u : Unc K) (d : List K) : Unc K × Option Err :=
  if d.length = u.dobs.length then ({ u with dobs := d }, none) else (u, some .valueError)

/-- `standard_deviation` getter (data.py 245-258), over the reals. -/
noncomputable def readStd (u : Unc ℝ) : Except Err (List ℝ) :=
  match u.rel, u.noise with
  | none, none => .error .typeError
  | some r, none => .ok ((List.zipWith (fun r d => (r * |d|) ^ 2) r u.dobs).map Real.sqrt)
  | none, some n => .ok ((n.map fun n => n ^ 2).map Real.sqrt)
  | some r, some n =>
    .ok ((List.zipWith (· + ·) (List.zipWith (fun r d => (r * |d|) ^ 2) r u.dobs)
      (n.map fun n => n ^ 2)).map Real.sqrt)

/-- `Data.__init__` (data.py 55-90) for given `dobs` (length already checked). The
constructor raises if one of the assignments raises. -/
def mk (dobs : List K) (rel noise std : Val K) : Except Err (Unc K) :=
  let u0 : Unc K := ⟨dobs, none, none⟩
  match setRel u0 rel with
  | (_, some e) => .error e
  | (u1, none) =>
    match setNoise u1 noise with
    | (_, some e) => .error e
    | (u2, none) =>
      match std, rel, noise with
      | .none, .none, .none =>
        match setStd u2 (.scalar 0) with
        | (_, some e) => .error e
        | (u3, none) => .ok u3
      | .none, _, _ => .ok u2
      | s, _, _ =>
        match setStd u2 s with
        | (_, some e) => .error e
        | (u3, none) => .ok u3

end Verif.Data
