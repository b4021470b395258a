import Verif.Objective.Model
import Verif.Analysis
import Mathlib.Analysis.Real.Sqrt

/-! Model of `L2ObjectiveFunction` (objective_function.py 560-650) and of
`ComboObjectiveFunction.W` (503-532), with real arithmetic. -/

namespace Verif.Objective.L2
open Matrix

variable {ι κ ρ : Type} [Fintype ι] [Fintype κ] [Fintype ρ]

/-- A mapping: its transform and its `deriv` matrix. -/
structure Mapping (ι κ : Type) where
  apply : (ι → ℝ) → (κ → ℝ)
  deriv : (ι → ℝ) → Matrix κ ι ℝ

/-- `__call__` (632-635): `r = W * (mapping * m); r.dot(r)`. -/
noncomputable def value (W : Matrix ρ κ ℝ) (f : Mapping ι κ) (m : ι → ℝ) : ℝ :=
  let r := W *ᵥ (f.apply m)
  r ⬝ᵥ r

/-- `deriv` (637-639). -/
noncomputable def deriv (W : Matrix ρ κ ℝ) (f : Mapping ι κ) (m : ι → ℝ) : ι → ℝ :=
  (2 • (f.deriv m)ᵀ) *ᵥ (Wᵀ *ᵥ (W *ᵥ (f.apply m)))

/-- `deriv2(m, v)` (641-648). -/
noncomputable def deriv2 (W : Matrix ρ κ ℝ) (f : Mapping ι κ) (m v : ι → ℝ) : ι → ℝ :=
  (2 • (f.deriv m)ᵀ) *ᵥ (Wᵀ *ᵥ (W *ᵥ (f.deriv m *ᵥ v)))

/-- `deriv2(m)` (649-650), the matrix. -/
noncomputable def deriv2Mat (W : Matrix ρ κ ℝ) (f : Mapping ι κ) (m : ι → ℝ) : Matrix ι ι ℝ :=
  let WJ := W * f.deriv m
  (2 • WJᵀ) * WJ

/-- `ComboObjectiveFunction.W` (525-532) for members with full weight matrices: the matrix
whose rows are the rows of `sqrt(cᵢ) Wᵢ`, one block per member, stacked. -/
noncomputable def comboW {n : Nat} {rows : Fin n → Type} (c : Fin n → ℝ)
    (W : ∀ i, Matrix (rows i) κ ℝ) : Matrix (Σ i, rows i) κ ℝ :=
  fun p j => Real.sqrt (c p.1) * W p.1 p.2 j

end Verif.Objective.L2
