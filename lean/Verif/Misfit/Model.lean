import Verif.Basic
import Verif.Analysis
import Mathlib.Algebra.Order.Field.Basic

/-! Model of `simpeg/data_misfit.py` (real data). -/

namespace Verif.Misfit
open Verif Matrix

section values
variable {ι κ : Type} [Fintype ι] [Fintype κ]

/-- The parts of a simulation the misfit uses: `dpred(m)`, and the sensitivity behind
`Jvec(m, v) = J(m) v` and `Jtvec(m, v) = J(m)ᵀ v` (simulation.py 199-285; whether a concrete
simulation's `Jvec`/`Jtvec` have this form is the subject of C29 and C47).  `Jvec_approx`
and `Jtvec_approx` default to them (simulation.py 256-316). -/
structure Simulation (ι κ : Type) where
  dpred : (ι → ℝ) → (κ → ℝ)
  J : (ι → ℝ) → Matrix κ ι ℝ

/-- `residual` (205-235), for a finite prediction. -/
def residual (s : Simulation ι κ) (dobs : κ → ℝ) (m : ι → ℝ) : κ → ℝ := s.dpred m - dobs

/-- `L2DataMisfit.__call__` (270-277). -/
def value (W : Matrix κ κ ℝ) (s : Simulation ι κ) (dobs : κ → ℝ) (m : ι → ℝ) : ℝ :=
  let R := W *ᵥ residual s dobs m
  R ⬝ᵥ R

/-- `L2DataMisfit.deriv` (280-306). -/
def deriv (W : Matrix κ κ ℝ) (s : Simulation ι κ) (dobs : κ → ℝ) (m : ι → ℝ) : ι → ℝ :=
  2 • ((s.J m)ᵀ *ᵥ (Wᵀ *ᵥ (W *ᵥ residual s dobs m)))

/-- `L2DataMisfit.deriv2` (309-343): note `W * (W * ...)`, not `W.T * (W * ...)`. -/
def deriv2 (W : Matrix κ κ ℝ) (s : Simulation ι κ) (m v : ι → ℝ) : ι → ℝ :=
  2 • ((s.J m)ᵀ *ᵥ (W *ᵥ (W *ᵥ (s.J m *ᵥ v))))

/-- `sdiag(1 / standard_deviation)` (188). -/
noncomputable def defaultW [DecidableEq κ] (std : κ → ℝ) : Matrix κ κ ℝ :=
  Matrix.diagonal fun i => 1 / std i

end values

section weights
variable {K : Type} [Field K] [LinearOrder K]

/-- The weights of a misfit: diagonal from standard deviations, or an explicitly assigned
square matrix (given by its rows). -/
inductive Weights (K : Type) where
  | diag (w : List K)
  | full (rows : List (List K))
  deriving DecidableEq

/-- A data misfit together with the current standard deviations of its data object; `W` is
the `_W` cache. -/
structure State (K : Type) where
  std : List K
  W : Option (Weights K)

/-- A value assigned to `W`: `Identity()`, a 1-D array, or a 2-D array. -/
inductive WVal (K : Type) where
  | identity
  | vec (w : List K)
  | mat (rows : List (List K))

/-- The `W` getter (148-189): state after the read and result. `data` and its
`standard_deviation` are never `None` here (data.py 182-199 always returns an array). -/
def readW (s : State K) : State K × Except Err (Weights K) :=
  match s.W with
  | some w => (s, .ok w)
  | none =>
    if s.std.any (fun x => decide (x ≤ 0)) then (s, .error .exception)
    else
      let w := .diag (s.std.map (1 / ·))
      ({ s with W := some w }, .ok w)

/-- The `W` setter (191-203). -/
def setW (s : State K) (v : WVal K) : State K × Except Err Unit :=
  let nD := s.std.length
  match v with
  | .identity => ({ s with W := some (.diag (List.replicate nD 1)) }, .ok ())
  | .vec w =>
    if w.length = nD then ({ s with W := some (.diag w) }, .ok ())
    else (s, .error .assertionError)
  | .mat rows =>
    if rows.length = nD ∧ ∀ r ∈ rows, r.length = nD then
      ({ s with W := some (.full rows) }, .ok ())
    else (s, .error .assertionError)

/-- What can happen to a misfit: the uncertainties of its data change (same number of
data), `W` is assigned, or `W` is read (every evaluation does). -/
inductive Op (K : Type) where
  | setStd (std : List K)
  | setW (v : WVal K)
  | readW

/-- One operation. -/
def step (s : State K) : Op K → State K
  | .setStd l => { s with std := l }
  | .setW v => (setW s v).1
  | .readW => (readW s).1

/-- A history. -/
def run (s : State K) (ops : List (Op K)) : State K := ops.foldl step s

end weights

end Verif.Misfit
