import Verif.TDEM.Sim

/-!
The electric field and magnetic flux density formulations of the time domain simulation
(`simpeg/electromagnetics/time_domain/simulation.py` 644-1723) and their fields objects
(`fields.py` 149-506).

Simplified: mesh operators are arbitrary matrices; the magnetic permeability does not depend on the
model (the constructor rejects a map for it, 57-61); the source terms of a source at the nodes of the
time mesh are given as vectors by time index, their derivatives are zero as in every source of the
code; a receiver for a field which the fields object does not provide (`b`, `h` of the electric field
formulation) is not represented.  The matrix is made symmetric, as `_makeASymmetric` is always `True`
(`electromagnetics/base.py` 39-43).
-/

namespace Verif.TDEM
open Matrix Verif.EM

noncomputable section

variable {p s ν ε φ : Type} [Fintype p] [Fintype s] [Fintype ν] [Fintype ε] [Fintype φ]
  [DecidableEq ν] [DecidableEq ε] [DecidableEq φ]

/-- The fields of `Fields3DElectricField` (`fields.py` 393-400). -/
inductive FldE where
  | e
  | j
  | dbdt
  | dhdt
  deriving DecidableEq

/-- Their grids. -/
@[reducible] def LocE (ε φ : Type) : FldE → Type
  | .e => ε
  | .j => ε
  | .dbdt => φ
  | .dhdt => φ

instance (k : FldE) : Fintype (LocE ε φ k) := by
  cases k <;> infer_instance

/-- The fields of `Fields3DMagneticFluxDensity` (`fields.py` 194-201). -/
inductive FldB where
  | b
  | h
  | e
  | j
  | dbdt
  | dhdt
  deriving DecidableEq

/-- Their grids. -/
@[reducible] def LocB (ε φ : Type) : FldB → Type
  | .b => φ
  | .h => φ
  | .e => ε
  | .j => ε
  | .dbdt => φ
  | .dhdt => φ

instance (k : FldB) : Fintype (LocB ε φ k) := by
  cases k <;> infer_instance

/-- What both EB simulations use: the time steps, `dt_threshold`, edge curl, nodal gradient, the node
with index 0, `MeSigma`, `MfMui`, `MeI` and `MfI`. -/
structure EB (p s ν ε φ : Type) where
  dts : List ℝ
  thr : ℝ
  C : Matrix φ ε ℝ
  G : Matrix ε ν ℝ
  node0 : ν
  sigma : Mass p s ε
  mui : Matrix φ φ ℝ
  meI : Matrix ε ε ℝ
  mfI : Matrix φ φ ℝ

/-- `time_steps[k]`. -/
def EB.dt (o : EB p s ν ε φ) (k : ℕ) : ℝ := o.dts.getD k 0

/-- The source terms `s_m` and `s_e` at the nodes of the time mesh (`getSourceTerm` 444-487), and what
the initial condition depends on: whether the class has an `eInitial` which solves a DC problem
(`LineCurrent`) and the waveform has initial fields, `srcType == "galvanic"`, `getRHSdc`, and
`bInitial`. -/
structure SrcEB (ν ε φ : Type) where
  sm : ℕ → φ → ℝ
  se : ℕ → ε → ℝ
  dc : Bool
  galvanic : Bool
  rhsdc : ν → ℝ
  b0 : φ → ℝ

/-! ### `Simulation3DElectricField` -/

/-- `getAdiag` (1371-1406). -/
def EB.eA (o : EB p s ν ε φ) (dt : ℝ) (m : p → ℝ) : Matrix ε ε ℝ :=
  o.Cᵀ * (o.mui * o.C) + (1 / dt) • o.sigma.mat ℝ m

/-- `getAsubdiag` (1466-1494). -/
def EB.eB (o : EB p s ν ε φ) (dt : ℝ) (m : p → ℝ) : Matrix ε ε ℝ := (-1 / dt) • o.sigma.mat ℝ m

/-- `getRHS` (1547-1587), one column, for a time index which is not 0. -/
def EB.eRhs (o : EB p s ν ε φ) (src : SrcEB ν ε φ) (k : ℕ) : ε → ℝ :=
  (-1 / o.dt (k - 1)) • (src.se k - src.se (k - 1)) + o.Cᵀ *ᵥ (o.mui *ᵥ src.sm k)

/-- `getAdc` (1641-1681). -/
def EB.adc (o : EB p s ν ε φ) (m : p → ℝ) : Matrix ν ν ℝ :=
  o.Gᵀ * o.sigma.mat ℝ m * o.G + Matrix.single o.node0 o.node0 1

/-- `getAdcDeriv` (1683-1723). -/
def EB.adcD (o : EB p s ν ε φ) (m : p → ℝ) (u : ε → ℝ) (v : p → ℝ) : ν → ℝ :=
  o.Gᵀ *ᵥ o.sigma.der m (-u) v

/-- `eInitial` (`sources.py` 1895-1915, 1855-1878; zero in the base class, 1133-1135). -/
def EB.eInit (o : EB p s ν ε φ) (src : SrcEB ν ε φ) (m : p → ℝ) : ε → ℝ :=
  if src.dc then -(o.G *ᵥ ((o.adc m)⁻¹ *ᵥ src.rhsdc)) else 0

/-- `eInitialDeriv` (`sources.py` 1917-1946); `e0` is `f[src, "e", 0]`. -/
def EB.eInitD (o : EB p s ν ε φ) (src : SrcEB ν ε φ) (m : p → ℝ) (e0 : ε → ℝ) (v : p → ℝ) : ε → ℝ :=
  if src.dc then o.G *ᵥ ((o.adc m)⁻¹ *ᵥ o.adcD m e0 v) else 0

/-- `e` (`fields.py` 415-422). -/
def EB.eE (_o : EB p s ν ε φ) : FieldFn p ε ε where
  val _ _ u := u
  du _ _ x := x
  duT _ _ w := w
  dm _ _ _ _ := 0
  dmT _ _ _ _ := 0

/-- `j` (`fields.py` 456-482). -/
def EB.eJ (o : EB p s ν ε φ) : FieldFn p ε ε where
  val k m u := o.meI *ᵥ (o.sigma.mat ℝ m *ᵥ o.eE.val k m u)
  du k m x := o.meI *ᵥ (o.sigma.mat ℝ m *ᵥ o.eE.du k m x)
  duT k m w := o.eE.duT k m ((o.sigma.mat ℝ m)ᵀ *ᵥ (o.meIᵀ *ᵥ w))
  dm k m u v := o.meI *ᵥ
    (o.sigma.derMat m (o.eE.val k m u) *ᵥ v + o.sigma.mat ℝ m *ᵥ o.eE.dm k m u v)
  dmT k m u w := (o.sigma.derMat m (o.eE.val k m u))ᵀ *ᵥ (o.meIᵀ *ᵥ w) +
    o.eE.dmT k m u ((o.sigma.mat ℝ m)ᵀ *ᵥ (o.meIᵀ *ᵥ w))

/-- `dbdt` (`fields.py` 424-440). -/
def EB.eDbdt (o : EB p s ν ε φ) (src : SrcEB ν ε φ) : FieldFn p ε φ where
  val k _ u := src.sm k - o.C *ᵥ u
  du _ _ x := -(o.C *ᵥ x)
  duT _ _ w := -(o.Cᵀ *ᵥ w)
  dm _ _ _ _ := 0
  dmT _ _ _ _ := 0

/-- `dhdt` (`fields.py` 484-506). -/
def EB.eDhdt (o : EB p s ν ε φ) (src : SrcEB ν ε φ) : FieldFn p ε φ where
  val k m u := o.mfI *ᵥ (o.mui *ᵥ (o.eDbdt src).val k m u)
  du k m x := o.mfI *ᵥ (o.mui *ᵥ (o.eDbdt src).du k m x)
  duT k m w := (o.eDbdt src).duT k m (o.muiᵀ *ᵥ (o.mfIᵀ *ᵥ w))
  dm k m u v := o.mfI *ᵥ (o.mui *ᵥ (o.eDbdt src).dm k m u v)
  dmT k m u w := (o.eDbdt src).dmT k m u (o.muiᵀ *ᵥ (o.mfIᵀ *ᵥ w))

/-- The fields object `Fields3DElectricField`. -/
def EB.eFld (o : EB p s ν ε φ) (src : SrcEB ν ε φ) : (k : FldE) → FieldFn p ε (LocE ε φ k)
  | .e => o.eE
  | .j => o.eJ
  | .dbdt => o.eDbdt src
  | .dhdt => o.eDhdt src

/-- A source with its receivers, as the electric field simulation sees it; `getRHSDeriv` is zero
(1589-1639). -/
def EB.srcE (o : EB p s ν ε φ) (x : SrcEB ν ε φ × List (Rx FldE (LocE ε φ))) :
    Src p ε FldE (LocE ε φ) where
  rhs k _ := o.eRhs x.1 k
  rhsD _ _ _ := 0
  rhsDT _ _ _ := 0
  init m := o.eInit x.1 m
  initD m e0 v := o.eInitD x.1 m e0 v
  fld := o.eFld x.1
  rx := x.2

/-- `Simulation3DElectricField` (1081-1723); the derivatives of the matrices are at 1408-1464 and
1496-1545. -/
def EB.simE (o : EB p s ν ε φ) (srcs : List (SrcEB ν ε φ × List (Rx FldE (LocE ε φ)))) :
    Sim p ε FldE (LocE ε φ) where
  dts := o.dts
  thr := o.thr
  Adiag := o.eA
  Asub := o.eB
  AdiagD dt m u v := (1 / dt) • o.sigma.der m u v
  AdiagDT dt m u w := (1 / dt) • o.sigma.derT m u w
  AsubD dt m u v := (-1 / dt) • o.sigma.der m u v
  AsubDT dt m u w := (-1 / dt) • o.sigma.derT m u w
  sources := srcs.map o.srcE

/-- What the treatment of the initial condition adds to `JTv` for a galvanic source (1332-1363).  `q` is
`df_duT_v`; `Asubdiag` is the matrix left over from the loop over time, that of the second step. -/
def EB.eTail (o : EB p s ν ε φ) (srcs : List (SrcEB ν ε φ × List (Rx FldE (LocE ε φ)))) (m : p → ℝ)
    (x : SrcEB ν ε φ × List (Rx FldE (LocE ε φ))) (q : ℕ → ε → ℝ) : p → ℝ :=
  let S := o.simE srcs
  let W := (S.back m (o.srcE x) q S.nT).1
  let W' := o.G *ᵥ ((o.adc m)⁻¹ *ᵥ (o.Gᵀ *ᵥ (q 0 - (o.eB (S.dt 1) m)ᵀ *ᵥ W)));
  -(o.sigma.derT m (S.sol m (o.srcE x) 0) W')

/-- What one source adds to `JTv`. -/
def EB.eSrcJtvec (o : EB p s ν ε φ) (srcs : List (SrcEB ν ε φ × List (Rx FldE (LocE ε φ)))) (m : p → ℝ)
    (x : SrcEB ν ε φ × List (Rx FldE (LocE ε φ))) (w : List ℝ) : p → ℝ :=
  (o.simE srcs).srcJtvec m (o.srcE x) w +
    if x.1.galvanic then o.eTail srcs m x ((o.simE srcs).rxSums m (o.srcE x) x.2 w).1 else 0

/-- `Jtvec` of `Simulation3DElectricField` (1209-1369).  With a galvanic source and a single time step
`Asubdiag` has no value (`UnboundLocalError`). -/
def EB.eJtvec (o : EB p s ν ε φ) (srcs : List (SrcEB ν ε φ × List (Rx FldE (LocE ε φ)))) (m : p → ℝ)
    (w : List ℝ) : Except Err (p → ℝ) :=
  if o.dts.length = 0 then .error .attributeError
  else if o.dts.length = 1 ∧ srcs.any (fun x => x.1.galvanic) then .error .exception
  else .ok (List.zipWith (o.eSrcJtvec srcs m) srcs (splitData (srcs.map o.srcE) w)).sum

/-! ### `Simulation3DMagneticFluxDensity` -/

/-- `getAdiag` (771-812). -/
def EB.bA (o : EB p s ν ε φ) (dt : ℝ) (m : p → ℝ) : Matrix φ φ ℝ :=
  o.muiᵀ * ((1 / dt) • 1 + o.C * (o.sigma.inv ℝ m * (o.Cᵀ * o.mui)))

/-- `getAsubdiag` (880-911). -/
def EB.bB (o : EB p s ν ε φ) (dt : ℝ) : Matrix φ φ ℝ := o.muiᵀ * ((-1 / dt) • 1)

/-- `getRHS` (961-1000), one column. -/
def EB.bRhs (o : EB p s ν ε φ) (src : SrcEB ν ε φ) (k : ℕ) (m : p → ℝ) : φ → ℝ :=
  o.muiᵀ *ᵥ (o.C *ᵥ (o.sigma.inv ℝ m *ᵥ src.se k) + src.sm k)

/-- `getRHSDeriv` (1002-1077). -/
def EB.bRhsD (o : EB p s ν ε φ) (src : SrcEB ν ε φ) (k : ℕ) (m v : p → ℝ) : φ → ℝ :=
  o.muiᵀ *ᵥ (o.C *ᵥ o.sigma.invDer m (src.se k) v)

/-- `getRHSDeriv(adjoint=True)` (1056-1066). -/
def EB.bRhsDT (o : EB p s ν ε φ) (src : SrcEB ν ε φ) (k : ℕ) (m : p → ℝ) (w : φ → ℝ) : p → ℝ :=
  o.sigma.invDerT m (src.se k) (o.Cᵀ *ᵥ (o.mui *ᵥ w))

/-- `getAdiagDeriv` (814-878). -/
def EB.bAD (o : EB p s ν ε φ) (m : p → ℝ) (u : φ → ℝ) (v : p → ℝ) : φ → ℝ :=
  o.muiᵀ *ᵥ (o.C *ᵥ o.sigma.invDer m (o.Cᵀ *ᵥ (o.mui *ᵥ u)) v)

/-- `getAdiagDeriv(adjoint=True)` (869-872). -/
def EB.bADT (o : EB p s ν ε φ) (m : p → ℝ) (u w : φ → ℝ) : p → ℝ :=
  o.sigma.invDerT m (o.Cᵀ *ᵥ (o.mui *ᵥ u)) (o.Cᵀ *ᵥ (o.mui *ᵥ w))

/-- `b` (`fields.py` 217-224). -/
def EB.bB' (_o : EB p s ν ε φ) : FieldFn p φ φ where
  val _ _ u := u
  du _ _ x := x
  duT _ _ w := w
  dm _ _ _ _ := 0
  dmT _ _ _ _ := 0

/-- `e` (`fields.py` 246-271). -/
def EB.bE (o : EB p s ν ε φ) (src : SrcEB ν ε φ) : FieldFn p φ ε where
  val k m u := o.sigma.inv ℝ m *ᵥ (o.Cᵀ *ᵥ (o.mui *ᵥ u)) - o.sigma.inv ℝ m *ᵥ src.se k
  du _ m x := o.sigma.inv ℝ m *ᵥ (o.Cᵀ *ᵥ (o.mui *ᵥ x))
  duT _ m w := o.muiᵀ *ᵥ (o.C *ᵥ ((o.sigma.inv ℝ m)ᵀ *ᵥ w))
  dm k m u v := o.sigma.invDer m (-src.se k + o.Cᵀ *ᵥ (o.mui *ᵥ u)) v
  dmT k m u w := o.sigma.invDerT m (-src.se k + o.Cᵀ *ᵥ (o.mui *ᵥ u)) w

/-- `j` (`fields.py` 273-299). -/
def EB.bJ (o : EB p s ν ε φ) (src : SrcEB ν ε φ) : FieldFn p φ ε where
  val k m u := o.meI *ᵥ (o.sigma.mat ℝ m *ᵥ (o.bE src).val k m u)
  du k m x := o.meI *ᵥ (o.sigma.mat ℝ m *ᵥ (o.bE src).du k m x)
  duT k m w := (o.bE src).duT k m ((o.sigma.mat ℝ m)ᵀ *ᵥ (o.meIᵀ *ᵥ w))
  dm k m u v := o.meI *ᵥ
    (o.sigma.derMat m ((o.bE src).val k m u) *ᵥ v + o.sigma.mat ℝ m *ᵥ (o.bE src).dm k m u v)
  dmT k m u w := (o.sigma.derMat m ((o.bE src).val k m u))ᵀ *ᵥ (o.meIᵀ *ᵥ w) +
    (o.bE src).dmT k m u ((o.sigma.mat ℝ m)ᵀ *ᵥ (o.meIᵀ *ᵥ w))

/-- `h` (`fields.py` 301-321). -/
def EB.bH (o : EB p s ν ε φ) : FieldFn p φ φ where
  val k m u := o.mfI *ᵥ (o.mui *ᵥ o.bB'.val k m u)
  du k m x := o.mfI *ᵥ (o.mui *ᵥ o.bB'.du k m x)
  duT k m w := o.bB'.duT k m (o.muiᵀ *ᵥ (o.mfIᵀ *ᵥ w))
  dm k m u v := o.mfI *ᵥ (o.mui *ᵥ o.bB'.dm k m u v)
  dmT k m u w := o.bB'.dmT k m u (o.muiᵀ *ᵥ (o.mfIᵀ *ᵥ w))

/-- `dbdt` (`fields.py` 226-244). -/
def EB.bDbdt (o : EB p s ν ε φ) (src : SrcEB ν ε φ) : FieldFn p φ φ where
  val k m u := -(o.C *ᵥ (o.bE src).val k m u) + src.sm k
  du k m x := -(o.C *ᵥ (o.bE src).du k m x)
  duT k m w := -((o.bE src).duT k m (o.Cᵀ *ᵥ w))
  dm k m u v := -(o.C *ᵥ (o.bE src).dm k m u v)
  dmT k m u w := -((o.bE src).dmT k m u (o.Cᵀ *ᵥ w))

/-- `dhdt` (`fields.py` 323-345). -/
def EB.bDhdt (o : EB p s ν ε φ) (src : SrcEB ν ε φ) : FieldFn p φ φ where
  val k m u := o.mfI *ᵥ (o.mui *ᵥ (o.bDbdt src).val k m u)
  du k m x := o.mfI *ᵥ (o.mui *ᵥ (o.bDbdt src).du k m x)
  duT k m w := (o.bDbdt src).duT k m (o.muiᵀ *ᵥ (o.mfIᵀ *ᵥ w))
  dm k m u v := o.mfI *ᵥ (o.mui *ᵥ (o.bDbdt src).dm k m u v)
  dmT k m u w := (o.bDbdt src).dmT k m u (o.muiᵀ *ᵥ (o.mfIᵀ *ᵥ w))

/-- The fields object `Fields3DMagneticFluxDensity`. -/
def EB.bFld (o : EB p s ν ε φ) (src : SrcEB ν ε φ) : (k : FldB) → FieldFn p φ (LocB ε φ k)
  | .b => o.bB'
  | .h => o.bH
  | .e => o.bE src
  | .j => o.bJ src
  | .dbdt => o.bDbdt src
  | .dhdt => o.bDhdt src

/-- A source with its receivers, as the magnetic flux density simulation sees it.  `bInitial` does not
depend on the model: for a grounded source it is not implemented (`sources.py` 2012-2014). -/
def EB.srcB (o : EB p s ν ε φ) (x : SrcEB ν ε φ × List (Rx FldB (LocB ε φ))) :
    Src p φ FldB (LocB ε φ) where
  rhs k m := o.bRhs x.1 k m
  rhsD k m v := o.bRhsD x.1 k m v
  rhsDT k m w := o.bRhsDT x.1 k m w
  init _ := x.1.b0
  initD _ _ _ := 0
  fld := o.bFld x.1
  rx := x.2

/-- `Simulation3DMagneticFluxDensity` (644-1077); `getAsubdiagDeriv` is zero (913-959). -/
def EB.simB (o : EB p s ν ε φ) (srcs : List (SrcEB ν ε φ × List (Rx FldB (LocB ε φ)))) :
    Sim p φ FldB (LocB ε φ) where
  dts := o.dts
  thr := o.thr
  Adiag := o.bA
  Asub dt _ := o.bB dt
  AdiagD _ m u v := o.bAD m u v
  AdiagDT _ m u w := o.bADT m u w
  AsubD _ _ _ _ := 0
  AsubDT _ _ _ _ := 0
  sources := srcs.map o.srcB

end

end Verif.TDEM

namespace Verif.TDEM.Props
open Matrix Verif.EM Verif.EM.Props Verif.TDEM Verif.Flow.Richards.Props

noncomputable section

variable {p s ν ε φ : Type} [Fintype p] [Fintype s] [Fintype ν] [Fintype ε] [Fintype φ]
  [DecidableEq ν] [DecidableEq ε] [DecidableEq φ]
variable {n g g' : Type} [Fintype n] [Fintype g] [Fintype g']

set_option linter.unusedSectionVars false

/-! ### Correct fields -/

/-- The solution itself. -/
theorem field_id (k : ℕ) (m : p → ℝ) (u : n → ℝ) :
    FieldCorrect (⟨fun _ _ u => u, fun _ _ x => x, fun _ _ w => w, fun _ _ _ _ => 0,
      fun _ _ _ _ => 0⟩ : FieldFn p n n) k m u := by
  classical
  refine ⟨1, 0, fun U dU _ hU => ?_, ?_, ?_, ?_, ?_⟩
  · simpa using hU
  · intro x; simp
  · intro v; simp
  · intro w; simp
  · intro w; simp

/-- A constant matrix times a field. -/
theorem field_lin {F : FieldFn p n g} {k : ℕ} {m : p → ℝ} {u : n → ℝ} (h : FieldCorrect F k m u)
    (D : Matrix g' g ℝ) :
    FieldCorrect (⟨fun k m u => D *ᵥ F.val k m u, fun k m x => D *ᵥ F.du k m x,
      fun k m w => F.duT k m (Dᵀ *ᵥ w), fun k m u v => D *ᵥ F.dm k m u v,
      fun k m u w => F.dmT k m u (Dᵀ *ᵥ w)⟩ : FieldFn p n g') k m u := by
  obtain ⟨Du, Dm, h1, h2, h3, h4, h5⟩ := h
  refine ⟨D * Du, D * Dm, fun U dU hU hd => ?_, ?_, ?_, ?_, ?_⟩
  · have := (h1 U dU hU hd).mulVec D
    rw [Matrix.mul_add, ← Matrix.mul_assoc] at this
    exact this
  · intro x; simp only [h2, Matrix.mulVec_mulVec]
  · intro v; simp only [h3, Matrix.mulVec_mulVec]
  · intro w; simp only [h4, Matrix.transpose_mul, Matrix.mulVec_mulVec]
  · intro w; simp only [h5, Matrix.transpose_mul, Matrix.mulVec_mulVec]

/-- A field plus something which does not depend on the model. -/
theorem field_shift {F : FieldFn p n g} {k : ℕ} {m : p → ℝ} {u : n → ℝ} (h : FieldCorrect F k m u)
    (c : ℕ → g → ℝ) : FieldCorrect { F with val := fun k m u => F.val k m u + c k } k m u := by
  obtain ⟨Du, Dm, h1, h2, h3, h4, h5⟩ := h
  refine ⟨Du, Dm, fun U dU hU hd => ?_, h2, h3, h4, h5⟩
  simpa using (h1 U dU hU hd).add (isJacK_const (c k) m)

/-- The same functions. -/
theorem field_congr {F F' : FieldFn p n g} {k : ℕ} {m : p → ℝ} {u : n → ℝ} (h : FieldCorrect F k m u)
    (h1 : ∀ m u, F'.val k m u = F.val k m u) (h2 : ∀ x, F'.du k m x = F.du k m x)
    (h3 : ∀ w, F'.duT k m w = F.duT k m w) (h4 : ∀ v, F'.dm k m u v = F.dm k m u v)
    (h5 : ∀ w, F'.dmT k m u w = F.dmT k m u w) : FieldCorrect F' k m u := by
  obtain ⟨Du, Dm, a1, a2, a3, a4, a5⟩ := h
  refine ⟨Du, Dm, fun U dU hU hd => ?_, ?_, ?_, ?_, ?_⟩
  · refine (a1 U dU hU hd).congr (Filter.Eventually.of_forall fun y => ?_)
    rw [h1]
  · intro x; rw [h2, a2]
  · intro x; rw [h4, a3]
  · intro x; rw [h3, a4]
  · intro x; rw [h5, a5]

/-- A mass matrix times a field. -/
theorem field_mass {F : FieldFn p n ε} {k : ℕ} {m : p → ℝ} {u : n → ℝ} (h : FieldCorrect F k m u)
    {M : Mass p s ε} (hM : Good M m) :
    FieldCorrect (⟨fun k m u => M.mat ℝ m *ᵥ F.val k m u, fun k m x => M.mat ℝ m *ᵥ F.du k m x,
      fun k m w => F.duT k m ((M.mat ℝ m)ᵀ *ᵥ w),
      fun k m u v => M.derMat m (F.val k m u) *ᵥ v + M.mat ℝ m *ᵥ F.dm k m u v,
      fun k m u w => (M.derMat m (F.val k m u))ᵀ *ᵥ w +
        F.dmT k m u ((M.mat ℝ m)ᵀ *ᵥ w)⟩ : FieldFn p n ε) k m u := by
  obtain ⟨Du, Dm, h1, h2, h3, h4, h5⟩ := h
  refine ⟨M.mat ℝ m * Du, M.derMat m (F.val k m u) + M.mat ℝ m * Dm, fun U dU hU hd => ?_,
    ?_, ?_, ?_, ?_⟩
  · have := mat_jac hM (h1 U dU hU hd)
    rw [hU] at this
    convert this using 1
    rw [Matrix.mul_add, Matrix.mul_assoc]
    abel
  · intro x; simp only [h2, Matrix.mulVec_mulVec]
  · intro v; simp only [h3]; rw [Matrix.add_mulVec, Matrix.mulVec_mulVec]
  · intro w; simp only [h4, Matrix.transpose_mul, Matrix.mulVec_mulVec]
  · intro w
    simp only [h5]
    rw [Matrix.transpose_add, Matrix.transpose_mul, Matrix.add_mulVec, Matrix.mulVec_mulVec]

/-! ### The electric field formulation -/

variable {o : EB p s ν ε φ}

theorem eFld_correct (src : SrcEB ν ε φ) {m : p → ℝ} (hs : Good o.sigma m) (f : FldE) (k : ℕ)
    (u : ε → ℝ) : FieldCorrect (o.eFld src f) k m u := by
  have hd : FieldCorrect (o.eDbdt src) k m u := by
    refine field_congr (field_shift (field_lin (field_id k m u) (-o.C)) src.sm) ?_ ?_ ?_ ?_ ?_
    · intro m u; simp [EB.eDbdt, Matrix.neg_mulVec]; abel
    · intro x; simp [EB.eDbdt, Matrix.neg_mulVec]
    · intro x; simp [EB.eDbdt, Matrix.neg_mulVec]
    · intro x; simp [EB.eDbdt]
    · intro x; simp [EB.eDbdt]
  cases f with
  | e => exact field_id k m u
  | j =>
    exact field_lin (field_mass (field_id k m u) hs) o.meI
  | dbdt => exact hd
  | dhdt => exact field_lin (field_lin hd o.mui) o.mfI

theorem eStep_correct {srcs : List (SrcEB ν ε φ × List (Rx FldE (LocE ε φ)))} {m : p → ℝ}
    (hs : Good o.sigma m) (x : SrcEB ν ε φ × List (Rx FldE (LocE ε φ))) (k : ℕ)
    (hdet : (o.eA (o.dt k) m).det ≠ 0) : StepCorrect (o.simE srcs) m (o.srcE x) k := by
  refine ⟨fun i j => ?_, fun i j => ?_, hdet, ?_⟩
  · change DifferentiableAt ℝ (fun y => (o.eA _ y) i j) m
    simp only [EB.eA, Matrix.add_apply, Matrix.smul_apply, smul_eq_mul]
    exact (differentiableAt_const _).add ((differentiableAt_const _).mul (mat_diff hs i j))
  · change DifferentiableAt ℝ (fun y => (o.eB _ y) i j) m
    simp only [EB.eB, Matrix.smul_apply, smul_eq_mul]
    exact (differentiableAt_const _).mul (mat_diff hs i j)
  · set u := (o.simE srcs).sol m (o.srcE x) k with hu
    set u' := (o.simE srcs).sol m (o.srcE x) (k + 1) with hu'
    refine ⟨-((-1 / o.dt k) • o.sigma.derMat m u) - (1 / o.dt k) • o.sigma.derMat m u', ?_, ?_, ?_⟩
    · have h1 := ((isJacK_const (o.eRhs x.1 (k + 1) - o.Cᵀ *ᵥ (o.mui *ᵥ (o.C *ᵥ u'))) m).sub
        ((derMat_jac (𝕜 := ℝ) hs u).smul (-1 / o.dt k))).sub
        ((derMat_jac (𝕜 := ℝ) hs u').smul (1 / o.dt k))
      rw [zero_sub] at h1
      refine h1.congr (Filter.Eventually.of_forall fun y => ?_)
      change o.eRhs x.1 (k + 1) - o.eB (o.dt k) y *ᵥ u - o.eA (o.dt k) y *ᵥ u' = _
      simp only [EB.eA, EB.eB, Matrix.add_mulVec, Matrix.smul_mulVec, ← Matrix.mulVec_mulVec]
      abel
    · intro v
      change (0 : ε → ℝ) - (-1 / o.dt k) • o.sigma.der m u v - (1 / o.dt k) • o.sigma.der m u' v = _
      rw [der_eq, der_eq, Matrix.sub_mulVec, Matrix.neg_mulVec, Matrix.smul_mulVec,
        Matrix.smul_mulVec, zero_sub]
    · intro W
      change -((1 / o.dt k) • o.sigma.derT m u' W) - (-1 / o.dt k) • o.sigma.derT m u W + 0 = _
      rw [derT_eq, derT_eq, Matrix.transpose_sub, Matrix.transpose_neg, Matrix.transpose_smul,
        Matrix.transpose_smul, Matrix.sub_mulVec, Matrix.neg_mulVec, Matrix.smul_mulVec,
        Matrix.smul_mulVec]
      abel

/-- The derivative of the initial electric field of a grounded source. -/
def eInitMat (o : EB p s ν ε φ) (src : SrcEB ν ε φ) (m : p → ℝ) : Matrix ε p ℝ :=
  if src.dc then o.G * ((o.adc m)⁻¹ * (o.Gᵀ * o.sigma.derMat m (-(o.eInit src m)))) else 0

theorem eInitMat_jac (src : SrcEB ν ε φ) {m : p → ℝ} (hs : Good o.sigma m)
    (hdc : src.dc = true → (o.adc m).det ≠ 0) :
    IsJacK (o.eInit src) (eInitMat o src m) m ∧
    ∀ v, o.eInitD src m (o.eInit src m) v = eInitMat o src m *ᵥ v := by
  unfold eInitMat
  cases hc : src.dc with
  | false =>
    refine ⟨?_, fun v => by simp [EB.eInitD, hc]⟩
    have : o.eInit src = fun _ => 0 := by funext y; simp [EB.eInit, hc]
    rw [this]
    simpa using isJacK_const (𝕜 := ℝ) (0 : ε → ℝ) m
  | true =>
    simp only [if_true]
    refine ⟨?_, fun v => ?_⟩
    · have hA : ∀ i j, DifferentiableAt ℝ (fun y => (o.adc y) i j) m := by
        intro i j
        simp only [EB.adc, Matrix.add_apply, Matrix.mul_apply]
        refine DifferentiableAt.add (DifferentiableAt.fun_sum fun a _ => DifferentiableAt.mul
          (DifferentiableAt.fun_sum fun b _ => ?_) (differentiableAt_const _))
          (differentiableAt_const _)
        exact (differentiableAt_const _).mul (mat_diff hs b a)
      set ph := (o.adc m)⁻¹ *ᵥ src.rhsdc with hph
      have he : o.eInit src m = -(o.G *ᵥ ph) := by simp [EB.eInit, hc, hph]
      have h1 : IsJacK (fun y => src.rhsdc - o.adc y *ᵥ ph)
          (-(o.Gᵀ * o.sigma.derMat m (o.G *ᵥ ph))) m := by
        have h2 := (isJacK_const (src.rhsdc - Matrix.single o.node0 o.node0 1 *ᵥ ph) m).sub
          ((derMat_jac (𝕜 := ℝ) hs (o.G *ᵥ ph)).mulVec o.Gᵀ)
        rw [zero_sub] at h2
        refine h2.congr (Filter.Eventually.of_forall fun y => ?_)
        simp only [EB.adc, Matrix.add_mulVec, ← Matrix.mulVec_mulVec]
        abel
      have h3 := ((isJacK_solve_residual (A := o.adc) (q := fun _ => src.rhsdc) hA (hdc hc)
        h1).mulVec o.G).neg
      have e1 : o.eInit src = fun y => -(o.G *ᵥ ((o.adc y)⁻¹ *ᵥ src.rhsdc)) := by
        funext y; simp [EB.eInit, hc]
      rw [← e1] at h3
      refine Eq.subst (motive := fun M => IsJacK (o.eInit src) M m) ?_ h3
      rw [he, neg_neg]
      simp [Matrix.mul_neg]
    · simp only [EB.eInitD, hc, if_true, EB.adcD, der_eq, Matrix.mulVec_mulVec, Matrix.mul_assoc]

/-- No receiver interpolates from the last time. -/
def NoLast {K : Type} {L : K → Type} (N : ℕ) (rs : List (Rx K L)) : Prop :=
  ∀ r ∈ rs, ∀ i, r.Pt i N = 0

/-- `sources_sum` with a source computed from something else. -/
theorem sources_sum_map {X K : Type} {L : K → Type} [∀ k, Fintype (L k)] (e : X → Src p n K L)
    (f : X → List ℝ → p → ℝ) (J : (s : Src p n K L) → (r : Rx K L) → Matrix (Fin r.nD) p ℝ)
    (v : p → ℝ) : ∀ (ss : List X) (w : List ℝ),
    (∀ s ∈ ss, ∀ w, dotList ((e s).rx.flatMap fun r => List.ofFn (J (e s) r *ᵥ v)) w = f s w ⬝ᵥ v) →
    (List.zipWith f ss (splitData (ss.map e) w)).sum ⬝ᵥ v =
      dotList ((ss.map e).flatMap fun s => s.rx.flatMap fun r => List.ofFn (J s r *ᵥ v)) w := by
  intro ss
  induction ss with
  | nil => intro w _; simp [splitData, dotList]
  | cons s ss ih =>
    intro w h
    have hlen : ((e s).rx.flatMap fun r => List.ofFn (J (e s) r *ᵥ v)).length = (e s).nD := by
      simp [Src.nD, List.length_flatMap]
    rw [List.map_cons, List.flatMap_cons, dotList_append, hlen,
      ← ih _ fun s' hs' => h s' (List.mem_cons_of_mem _ hs')]
    simp only [splitData, List.zipWith_cons_cons, List.sum_cons, add_dotProduct]
    rw [← h s List.mem_cons_self, ← hlen, dotList_take]

/-- **C73, electric field.** `Jvec` is the derivative of the predicted data, for any sources (grounded
ones included), when no receiver uses the last time and no step is solved with stale factors. -/
theorem C73_Jvec_electric_field_partial (o : EB p s ν ε φ)
    (srcs : List (SrcEB ν ε φ × List (Rx FldE (LocE ε φ)))) (m : p → ℝ) (hN : o.dts.length ≠ 0)
    (hf : Fresh (o.simE srcs)) (hs : Good o.sigma m)
    (hdet : ∀ k < o.dts.length, (o.eA (o.dt k) m).det ≠ 0) (hdc : (o.adc m).det ≠ 0)
    (hlast : ∀ x ∈ srcs, NoLast o.dts.length x.2) : JvecCorrect (o.simE srcs) m := by
  have hmem : ∀ t ∈ (o.simE srcs).sources, ∃ x ∈ srcs, o.srcE x = t := by
    intro t ht
    simpa [EB.simE] using ht
  refine jvec_correct _ m hN hf ?_ ?_ ?_ ?_
  · intro t ht k hk
    obtain ⟨x, _, rfl⟩ := hmem t ht
    exact eStep_correct hs x k (hdet k hk)
  · intro t ht
    obtain ⟨x, _, rfl⟩ := hmem t ht
    exact ⟨_, eInitMat_jac x.1 hs fun _ => hdc⟩
  · intro t ht r _ k _
    obtain ⟨x, _, rfl⟩ := hmem t ht
    exact eFld_correct x.1 hs r.field k _
  · intro t ht r hr i
    obtain ⟨x, hx, rfl⟩ := hmem t ht
    exact hlast x hx r hr i

/-- **C73, electric field.** `Jtvec` is the product with the transposed derivative of the predicted
data, when no step is solved with stale factors and, if there is a source with a DC initial condition,
that source is marked as galvanic, there are at least two time steps and the first two are equal. -/
theorem C73_Jtvec_electric_field_partial (o : EB p s ν ε φ)
    (srcs : List (SrcEB ν ε φ × List (Rx FldE (LocE ε φ)))) (m : p → ℝ) (hN : o.dts.length ≠ 0)
    (hf : Fresh (o.simE srcs)) (hs : Good o.sigma m)
    (hdet : ∀ k < o.dts.length, (o.eA (o.dt k) m).det ≠ 0) (hdc : (o.adc m).det ≠ 0)
    (hg : ∀ x ∈ srcs, x.1.dc = true → x.1.galvanic = true)
    (h2 : ∀ x ∈ srcs, x.1.galvanic = true → 2 ≤ o.dts.length ∧ o.dt 1 = o.dt 0) :
    TransposeCorrect (o.simE srcs) m (o.eJtvec srcs m) := by
  classical
  set S := o.simE srcs with hS
  have hN' : S.nT ≠ 0 := hN
  have hstep : ∀ x : SrcEB ν ε φ × List (Rx FldE (LocE ε φ)), ∀ k < S.nT,
      StepCorrect S m (o.srcE x) k := fun x k hk => eStep_correct hs x k (hdet k hk)
  have hinit : ∀ x : SrcEB ν ε φ × List (Rx FldE (LocE ε φ)), InitCorrect m (o.srcE x) :=
    fun x => ⟨_, eInitMat_jac x.1 hs fun _ => hdc⟩
  have hF : ∀ x : SrcEB ν ε φ × List (Rx FldE (LocE ε φ)), ∀ r ∈ (o.srcE x).rx, ∀ k ≤ S.nT,
      FieldCorrect ((o.srcE x).fld r.field) k m (S.sol m (o.srcE x) k) :=
    fun x r _ k _ => eFld_correct x.1 hs r.field k _
  have key : ∀ t : Src p ε FldE (LocE ε φ), ∀ r : Rx FldE (LocE ε φ),
      ∃ J : Matrix (Fin r.nD) p ℝ, t ∈ S.sources → r ∈ t.rx → IsJacobian (rxData S t r) J m := by
    intro t r
    by_cases ht : t ∈ S.sources ∧ r ∈ t.rx
    · obtain ⟨x, _, rfl⟩ : ∃ x ∈ srcs, o.srcE x = t := by simpa [hS, EB.simE] using ht.1
      obtain ⟨a⟩ := exists_srcJac hf (hstep x) (hinit x)
      obtain ⟨J, h1, _⟩ := rx_jac a r (hF x r ht.2)
      exact ⟨J, fun _ _ => h1⟩
    · exact ⟨0, fun h1 h2 => absurd ⟨h1, h2⟩ ht⟩
  choose J hJ using key
  have hany : ¬ (o.dts.length = 1 ∧ (srcs.any fun x => x.1.galvanic) = true) := by
    rintro ⟨h1, ha⟩
    obtain ⟨x, hx, hxg⟩ := List.any_eq_true.1 ha
    have := (h2 x hx hxg).1
    omega
  refine ⟨J, fun t ht r hr => hJ t r ht hr, fun w => ⟨_, by rw [EB.eJtvec, if_neg hN, if_neg hany], fun v => ?_⟩⟩
  have hsrc : ∀ x ∈ srcs, ∀ w, dotList (x.2.flatMap fun r => List.ofFn (J (o.srcE x) r *ᵥ v)) w =
      o.eSrcJtvec srcs m x w ⬝ᵥ v := by
    intro x hx w
    have hxS : o.srcE x ∈ S.sources := by
      rw [hS]; exact List.mem_map_of_mem hx
    obtain ⟨a⟩ := exists_srcJac hf (hstep x) (hinit x)
    have hJx : ∀ r ∈ (o.srcE x).rx, J (o.srcE x) r *ᵥ v = r.apply S.nT fun k =>
        ((o.srcE x).fld r.field).du k m (dU S m a.R a.D k *ᵥ v) +
          ((o.srcE x).fld r.field).dm k m (S.sol m (o.srcE x) k) v := by
      intro r hr
      obtain ⟨J', h1, h3⟩ := rx_jac a r (hF x r hr)
      have h4 := hJ (o.srcE x) r hxS hr
      rw [← isJacK_real] at h1 h4
      rw [h4.unique h1, h3]
    have h1 := src_transpose a hN' (J (o.srcE x)) (hF x) v hJx w
    have hD : a.D = eInitMat o x.1 m := a.init.unique (eInitMat_jac x.1 hs fun _ => hdc).1
    change dotList ((o.srcE x).rx.flatMap fun r => List.ofFn (J (o.srcE x) r *ᵥ v)) w = _
    rw [h1, EB.eSrcJtvec, add_dotProduct, hD]
    congr 1
    cases hc : x.1.galvanic with
    | false =>
      have hc' : x.1.dc = false := by
        by_contra hne
        have := hg x hx (by simpa using hne)
        rw [hc] at this
        exact absurd this (by simp)
      simp [eInitMat, hc']
    | true =>
      simp only [if_true]
      unfold EB.eTail
      simp only
      have hdt : S.dt 1 = S.dt 0 := (h2 x hx hc).2
      rw [← hS, hdt]
      set y := (S.rxSums m (o.srcE x) x.2 w).1 0 - (o.eB (S.dt 0) m)ᵀ *ᵥ
        (S.back m (o.srcE x) (S.rxSums m (o.srcE x) x.2 w).1 S.nT).1 with hy
      change y ⬝ᵥ (eInitMat o x.1 m *ᵥ v) = _
      have hsol : S.sol m (o.srcE x) 0 = o.eInit x.1 m := rfl
      rw [hsol, derT_eq, neg_dotProduct]
      have hadc : (o.adc m)ᵀ = o.adc m := by
        unfold EB.adc
        rw [Matrix.transpose_add, Matrix.transpose_mul, Matrix.transpose_mul,
          Matrix.transpose_transpose, mat_transpose hs, Matrix.transpose_single, Matrix.mul_assoc]
      have hder : o.sigma.derMat m (-(o.eInit x.1 m)) = -(o.sigma.derMat m (o.eInit x.1 m)) := by
        have e1 := derMat_jac (𝕜 := ℝ) hs (-(o.eInit x.1 m))
        have e2 := (derMat_jac (𝕜 := ℝ) hs (o.eInit x.1 m)).neg
        refine e1.unique (e2.congr (Filter.Eventually.of_forall fun y => ?_))
        simp [Matrix.mulVec_neg]
      cases hd : x.1.dc with
      | false =>
        have h0 : o.eInit x.1 m = 0 := by simp [EB.eInit, hd]
        have hz : o.sigma.derMat m (0 : ε → ℝ) = 0 := by
          have e1 := derMat_jac (𝕜 := ℝ) hs (0 : ε → ℝ)
          refine e1.unique ?_
          simpa using isJacK_const (𝕜 := ℝ) (0 : ε → ℝ) m
        simp [eInitMat, hd, h0, hz]
      | true =>
        simp only [eInitMat, hd, if_true, hder]
        set Dm := o.sigma.derMat m (o.eInit x.1 m)
        rw [Matrix.mulVec_transpose, ← Matrix.dotProduct_mulVec, Matrix.mul_neg, Matrix.mul_neg,
          Matrix.mul_neg, Matrix.neg_mulVec, dotProduct_neg]
        congr 1
        simp only [← Matrix.mulVec_mulVec]
        rw [dotProduct_comm y, dot_transpose, dot_inv, hadc, dot_transpose,
          Matrix.transpose_transpose, dotProduct_comm]
  exact sources_sum_map o.srcE (o.eSrcJtvec srcs m) J v srcs w hsrc

/-! ### The magnetic flux density formulation -/

theorem bE_correct (src : SrcEB ν ε φ) {m : p → ℝ} (hi : GoodInv o.sigma m)
    (k : ℕ) (u : φ → ℝ) : FieldCorrect (o.bE src) k m u := by
  refine ⟨o.sigma.inv ℝ m * (o.Cᵀ * o.mui),
    o.sigma.invDerMat m (-src.se k + o.Cᵀ *ᵥ (o.mui *ᵥ u)), fun U dU hU hd => ?_, ?_, ?_, ?_, ?_⟩
  · have h1 := inv_jac hi (((isJacK_const (-src.se k) m).add ((hd.mulVec o.mui).mulVec o.Cᵀ)))
    simp only [hU] at h1
    refine Eq.subst (motive := fun M => IsJacK _ M m) ?_
      (h1.congr (Filter.Eventually.of_forall fun y => ?_))
    · rw [zero_add, Matrix.mul_assoc, Matrix.mul_assoc]
      abel
    · simp only [EB.bE, Matrix.mulVec_add, Matrix.mulVec_neg]
      abel
  · intro x; simp [EB.bE, Matrix.mulVec_mulVec]
  · intro v; simp only [EB.bE, invDer_eq]
  · intro w
    simp only [EB.bE, Matrix.transpose_mul, Matrix.transpose_transpose, ← Matrix.mulVec_mulVec]
  · intro w; simp only [EB.bE, invDerT_eq]

theorem bFld_correct (src : SrcEB ν ε φ) {m : p → ℝ} (hi : GoodInv o.sigma m)
    (f : FldB) (k : ℕ) (u : φ → ℝ) : FieldCorrect (o.bFld src f) k m u := by
  have he := bE_correct src hi k u
  have hd : FieldCorrect (o.bDbdt src) k m u := by
    refine field_congr (field_shift (field_lin he (-o.C)) src.sm) ?_ ?_ ?_ ?_ ?_
    · intro m u; simp [EB.bDbdt, Matrix.neg_mulVec]
    · intro x; simp [EB.bDbdt, Matrix.neg_mulVec]
    · intro x; simp [EB.bDbdt, EB.bE, Matrix.neg_mulVec, Matrix.mulVec_neg]
    · intro x; simp [EB.bDbdt, Matrix.neg_mulVec]
    · intro x
      simp only [EB.bDbdt, EB.bE, Matrix.neg_mulVec, invDerT_eq, Matrix.mulVec_neg,
        Matrix.transpose_neg]
  cases f with
  | b => exact field_id k m u
  | h => exact field_lin (field_lin (field_id k m u) o.mui) o.mfI
  | e => exact he
  | j => exact field_lin (field_mass he hi.toGood) o.meI
  | dbdt => exact hd
  | dhdt => exact field_lin (field_lin hd o.mui) o.mfI

theorem bStep_correct {srcs : List (SrcEB ν ε φ × List (Rx FldB (LocB ε φ)))} {m : p → ℝ}
    (hi : GoodInv o.sigma m)
    (x : SrcEB ν ε φ × List (Rx FldB (LocB ε φ))) (k : ℕ)
    (hdet : (o.bA (o.dt k) m).det ≠ 0) : StepCorrect (o.simB srcs) m (o.srcB x) k := by
  refine ⟨fun i j => ?_, fun i j => ?_, hdet, ?_⟩
  · change DifferentiableAt ℝ (fun y => (o.bA _ y) i j) m
    simp only [EB.bA, Matrix.mul_apply, Matrix.add_apply]
    refine DifferentiableAt.fun_sum fun a _ => (differentiableAt_const _).mul
      ((differentiableAt_const _).add (DifferentiableAt.fun_sum fun b _ =>
        (differentiableAt_const _).mul (DifferentiableAt.fun_sum fun c _ => ?_)))
    exact (inv_diff hi b c).mul (differentiableAt_const _)
  · exact differentiableAt_const _
  · set u := (o.simB srcs).sol m (o.srcB x) k with hu
    set u' := (o.simB srcs).sol m (o.srcB x) (k + 1) with hu'
    refine ⟨o.muiᵀ * (o.C * (o.sigma.invDerMat m (x.1.se (k + 1)))) -
      o.muiᵀ * (o.C * (o.sigma.invDerMat m (o.Cᵀ *ᵥ (o.mui *ᵥ u')))), ?_, ?_, ?_⟩
    · have h1 := (((isJacK_const (o.muiᵀ *ᵥ x.1.sm (k + 1) - o.bB (o.dt k) *ᵥ u -
          o.muiᵀ *ᵥ ((1 / o.dt k) • u')) m).add
        (((invDerMat_jac (𝕜 := ℝ) hi (x.1.se (k + 1))).mulVec o.C).mulVec o.muiᵀ))).sub
        (((invDerMat_jac (𝕜 := ℝ) hi (o.Cᵀ *ᵥ (o.mui *ᵥ u'))).mulVec o.C).mulVec o.muiᵀ)
      rw [zero_add] at h1
      refine h1.congr (Filter.Eventually.of_forall fun y => ?_)
      change o.bRhs x.1 (k + 1) y - o.bB (o.dt k) *ᵥ u - o.bA (o.dt k) y *ᵥ u' = _
      simp only [EB.bA, EB.bRhs, Matrix.add_mulVec, Matrix.smul_mulVec, ← Matrix.mulVec_mulVec,
        Matrix.mulVec_add, Matrix.one_mulVec]
      abel
    · intro v
      change o.bRhsD x.1 (k + 1) m v - 0 - o.bAD m u' v = _
      simp only [EB.bRhsD, EB.bAD, invDer_eq, Matrix.sub_mulVec, ← Matrix.mulVec_mulVec,
        sub_zero]
    · intro W
      change -o.bADT m u' W - 0 + o.bRhsDT x.1 (k + 1) m W = _
      simp only [EB.bRhsDT, EB.bADT, invDerT_eq, Matrix.transpose_sub, Matrix.transpose_mul,
        Matrix.transpose_transpose, Matrix.sub_mulVec, ← Matrix.mulVec_mulVec, sub_zero]
      abel

/-- **C73, magnetic flux density.** `Jvec` is the derivative of the predicted data, when no receiver
uses the last time and no step is solved with stale factors. -/
theorem C73_Jvec_magnetic_flux_density_partial (o : EB p s ν ε φ)
    (srcs : List (SrcEB ν ε φ × List (Rx FldB (LocB ε φ)))) (m : p → ℝ) (hN : o.dts.length ≠ 0)
    (hf : Fresh (o.simB srcs)) (hi : GoodInv o.sigma m)
    (hdet : ∀ k < o.dts.length, (o.bA (o.dt k) m).det ≠ 0)
    (hlast : ∀ x ∈ srcs, NoLast o.dts.length x.2) : JvecCorrect (o.simB srcs) m := by
  have hmem : ∀ t ∈ (o.simB srcs).sources, ∃ x ∈ srcs, o.srcB x = t := by
    intro t ht
    simpa [EB.simB] using ht
  refine jvec_correct _ m hN hf ?_ ?_ ?_ ?_
  · intro t ht k hk
    obtain ⟨x, _, rfl⟩ := hmem t ht
    exact bStep_correct hi x k (hdet k hk)
  · intro t ht
    obtain ⟨x, _, rfl⟩ := hmem t ht
    exact ⟨0, isJacK_const _ m, fun v => by simp [EB.srcB]⟩
  · intro t ht r _ k _
    obtain ⟨x, _, rfl⟩ := hmem t ht
    exact bFld_correct x.1 hi r.field k _
  · intro t ht r hr i
    obtain ⟨x, hx, rfl⟩ := hmem t ht
    exact hlast x hx r hr i

/-- **C73, magnetic flux density.** `Jtvec` is the product with the transposed derivative of the
predicted data, when no step is solved with stale factors. -/
theorem C73_Jtvec_magnetic_flux_density_partial (o : EB p s ν ε φ)
    (srcs : List (SrcEB ν ε φ × List (Rx FldB (LocB ε φ)))) (m : p → ℝ) (hN : o.dts.length ≠ 0)
    (hf : Fresh (o.simB srcs)) (hi : GoodInv o.sigma m)
    (hdet : ∀ k < o.dts.length, (o.bA (o.dt k) m).det ≠ 0) :
    TransposeCorrect (o.simB srcs) m ((o.simB srcs).Jtvec m) := by
  have hmem : ∀ t ∈ (o.simB srcs).sources, ∃ x ∈ srcs, o.srcB x = t := by
    intro t ht
    simpa [EB.simB] using ht
  refine jtvec_correct _ m hN hf ?_ ?_ ?_
  · intro t ht k hk
    obtain ⟨x, _, rfl⟩ := hmem t ht
    exact bStep_correct hi x k (hdet k hk)
  · intro t ht
    obtain ⟨x, _, rfl⟩ := hmem t ht
    exact ⟨isJacK_const _ m, fun v => rfl⟩
  · intro t ht r _ k _
    obtain ⟨x, _, rfl⟩ := hmem t ht
    exact bFld_correct x.1 hi r.field k _

end

end Verif.TDEM.Props
