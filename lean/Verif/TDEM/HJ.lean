import Verif.TDEM.EB

/-!
The magnetic field and current density formulations of the time domain simulation
(`simpeg/electromagnetics/time_domain/simulation.py` 1726-2695) and their fields objects
(`fields.py` 509-878).  Simplified as in `EB.lean`; receivers for `charge` and `charge_density`, which
have no derivatives, are not represented.
-/

namespace Verif.TDEM
open Matrix Verif.EM

noncomputable section

variable {p s c ε φ : Type} [Fintype p] [Fintype s] [Fintype c] [Fintype ε] [Fintype φ]
  [DecidableEq c] [DecidableEq ε] [DecidableEq φ]

/-- The fields of `Fields3DMagneticField` (`fields.py` 555-563). -/
inductive FldH where
  | h
  | b
  | dhdt
  | dbdt
  | j
  | e
  deriving DecidableEq

/-- Their grids. -/
@[reducible] def LocH (ε φ : Type) : FldH → Type
  | .h => ε
  | .b => ε
  | .dhdt => ε
  | .dbdt => ε
  | .j => φ
  | .e => φ

instance (k : FldH) : Fintype (LocH ε φ k) := by
  cases k <;> infer_instance

/-- The fields of `Fields3DCurrentDensity` (`fields.py` 765-772). -/
inductive FldJ where
  | dhdt
  | dbdt
  | j
  | e
  deriving DecidableEq

/-- Their grids. -/
@[reducible] def LocJ (ε φ : Type) : FldJ → Type
  | .dhdt => ε
  | .dbdt => ε
  | .j => φ
  | .e => φ

instance (k : FldJ) : Fintype (LocJ ε φ k) := by
  cases k <;> infer_instance

/-- What both HJ simulations use: the time steps, `dt_threshold`, edge curl, the divergence times the
cell volumes, `MfRho`, `MeMu`, `MeMuI`, `MeI`, `MfI`, and the diagonal `mui / vol`. -/
structure HJ (p s c ε φ : Type) where
  dts : List ℝ
  thr : ℝ
  C : Matrix φ ε ℝ
  D : Matrix c φ ℝ
  rho : Mass p s φ
  mu : Matrix ε ε ℝ
  muI : Matrix ε ε ℝ
  meI : Matrix ε ε ℝ
  mfI : Matrix φ φ ℝ
  muiVol : c → ℝ

/-- `time_steps[k]`. -/
def HJ.dt (o : HJ p s c ε φ) (k : ℕ) : ℝ := o.dts.getD k 0

/-- The source terms `s_m` and `s_e` at the nodes of the time mesh, and what the initial condition
depends on: whether it is that of `LineCurrent` with a waveform with initial fields (`dc`), whether
`srcType` is not `"inductive"`, `getRHSdc`, `s_e(simulation, 0)`, and `hInitial` of the sources for which
it does not depend on the model. -/
structure SrcHJ (c ε φ : Type) where
  sm : ℕ → ε → ℝ
  se : ℕ → φ → ℝ
  dc : Bool
  galvanic : Bool
  rhsdc : c → ℝ
  se0 : φ → ℝ
  h0 : ε → ℝ

/-- `getAdc` (2121-2155, 2612-2650). -/
def HJ.adc (o : HJ p s c ε φ) (m : p → ℝ) : Matrix c c ℝ := o.D * o.rho.inv ℝ m * o.Dᵀ

/-- `getAdcDeriv` (2157-2200, 2652-2695). -/
def HJ.adcD (o : HJ p s c ε φ) (m : p → ℝ) (u : c → ℝ) (v : p → ℝ) : c → ℝ :=
  o.D *ᵥ o.rho.invDer m (o.Dᵀ *ᵥ u) v

/-- `phiInitial` (`sources.py` 1855-1878). -/
def HJ.phi0 (o : HJ p s c ε φ) (src : SrcHJ c ε φ) (m : p → ℝ) : c → ℝ := (o.adc m)⁻¹ *ᵥ src.rhsdc

/-- `_phiInitialDeriv` (`sources.py` 1880-1893). -/
def HJ.phi0D (o : HJ p s c ε φ) (src : SrcHJ c ε φ) (m v : p → ℝ) : c → ℝ :=
  (-1 : ℝ) • ((o.adc m)⁻¹ *ᵥ o.adcD m (o.phi0 src m) v)

/-- `jInitial` (`sources.py` 1948-1972). -/
def HJ.jInit (o : HJ p s c ε φ) (src : SrcHJ c ε φ) (m : p → ℝ) : φ → ℝ :=
  if src.dc then -(o.rho.inv ℝ m *ᵥ (o.Dᵀ *ᵥ o.phi0 src m)) else 0

/-- `jInitialDeriv` (`sources.py` 1974-2010). -/
def HJ.jInitD (o : HJ p s c ε φ) (src : SrcHJ c ε φ) (m v : p → ℝ) : φ → ℝ :=
  if src.dc then -(o.rho.invDer m (o.Dᵀ *ᵥ o.phi0 src m) v +
    o.rho.inv ℝ m *ᵥ (o.Dᵀ *ᵥ o.phi0D src m v)) else 0

/-- `_getAmmr` (`sources.py` 2012-2025). -/
def HJ.ammr (o : HJ p s c ε φ) : Matrix φ φ ℝ :=
  o.C * o.muI * o.Cᵀ - o.Dᵀ * Matrix.diagonal o.muiVol * o.D

/-- `hInitial` (`sources.py` 2064-2106, 2027-2046). -/
def HJ.hInit (o : HJ p s c ε φ) (src : SrcHJ c ε φ) (m : p → ℝ) : ε → ℝ :=
  if src.dc ∧ src.galvanic then o.muI *ᵥ (o.Cᵀ *ᵥ (o.ammr⁻¹ *ᵥ (src.se0 + o.jInit src m)))
  else src.h0

/-- `hInitialDeriv` (`sources.py` 2108-2130, 2159-2184, 2048-2062). -/
def HJ.hInitD (o : HJ p s c ε φ) (src : SrcHJ c ε φ) (m v : p → ℝ) : ε → ℝ :=
  if src.dc ∧ src.galvanic then o.muI *ᵥ (o.Cᵀ *ᵥ (o.ammr⁻¹ *ᵥ o.jInitD src m v)) else 0

/-! ### `Simulation3DMagneticField` -/

/-- `getAdiag` (1860-1895). -/
def HJ.hA (o : HJ p s c ε φ) (dt : ℝ) (m : p → ℝ) : Matrix ε ε ℝ :=
  o.Cᵀ * (o.rho.mat ℝ m * o.C) + (1 / dt) • o.mu

/-- `getAsubdiag` (1953-1981). -/
def HJ.hB (o : HJ p s c ε φ) (dt : ℝ) : Matrix ε ε ℝ := (-1 / dt) • o.mu

/-- `getAdiagDeriv` (1897-1951). -/
def HJ.hAD (o : HJ p s c ε φ) (m : p → ℝ) (u : ε → ℝ) (v : p → ℝ) : ε → ℝ :=
  o.Cᵀ *ᵥ o.rho.der m (o.C *ᵥ u) v

/-- `getAdiagDeriv(adjoint=True)`. -/
def HJ.hADT (o : HJ p s c ε φ) (m : p → ℝ) (u w : ε → ℝ) : p → ℝ :=
  o.rho.derT m (o.C *ᵥ u) (o.C *ᵥ w)

/-- `getRHS` (2029-2063), one column. -/
def HJ.hRhs (o : HJ p s c ε φ) (src : SrcHJ c ε φ) (k : ℕ) (m : p → ℝ) : ε → ℝ :=
  o.Cᵀ *ᵥ (o.rho.mat ℝ m *ᵥ src.se k) + src.sm k

/-- `getRHSDeriv` (2065-2118). -/
def HJ.hRhsD (o : HJ p s c ε φ) (src : SrcHJ c ε φ) (k : ℕ) (m v : p → ℝ) : ε → ℝ :=
  o.Cᵀ *ᵥ o.rho.der m (src.se k) v

/-- `getRHSDeriv(adjoint=True)`. -/
def HJ.hRhsDT (o : HJ p s c ε φ) (src : SrcHJ c ε φ) (k : ℕ) (m : p → ℝ) (w : ε → ℝ) : p → ℝ :=
  o.rho.derT m (src.se k) (o.C *ᵥ w)

/-- `h` (`fields.py` 580-587). -/
def HJ.hH (_o : HJ p s c ε φ) : FieldFn p ε ε where
  val _ _ u := u
  du _ _ x := x
  duT _ _ w := w
  dm _ _ _ _ := 0
  dmT _ _ _ _ := 0

/-- `dhdt` (`fields.py` 589-620). -/
def HJ.hDhdt (o : HJ p s c ε φ) (src : SrcHJ c ε φ) : FieldFn p ε ε where
  val k m u := o.muI *ᵥ (o.Cᵀ *ᵥ (o.rho.mat ℝ m *ᵥ src.se k) + src.sm k) +
    -(o.muI *ᵥ (o.Cᵀ *ᵥ (o.rho.mat ℝ m *ᵥ (o.C *ᵥ u))))
  du _ m x := -(o.muI *ᵥ (o.Cᵀ *ᵥ (o.rho.mat ℝ m *ᵥ (o.C *ᵥ x))))
  duT _ m w := -(o.Cᵀ *ᵥ ((o.rho.mat ℝ m)ᵀ *ᵥ (o.C *ᵥ (o.muI *ᵥ w))))
  dm k m u v := -(o.muI *ᵥ (o.Cᵀ *ᵥ o.rho.der m (o.C *ᵥ u - src.se k) v))
  dmT k m u w := -(o.rho.derT m (o.C *ᵥ u - src.se k) (o.C *ᵥ (o.muI *ᵥ w)))

/-- `j` (`fields.py` 622-636). -/
def HJ.hJ (o : HJ p s c ε φ) (src : SrcHJ c ε φ) : FieldFn p ε φ where
  val k _ u := o.C *ᵥ u - src.se k
  du _ _ x := o.C *ᵥ x
  duT _ _ w := o.Cᵀ *ᵥ w
  dm _ _ _ _ := 0
  dmT _ _ _ _ := 0

/-- `b` (`fields.py` 638-657). -/
def HJ.hBf (o : HJ p s c ε φ) : FieldFn p ε ε where
  val k m u := o.meI *ᵥ (o.mu *ᵥ o.hH.val k m u)
  du k m x := o.meI *ᵥ (o.mu *ᵥ o.hH.du k m x)
  duT k m w := o.hH.duT k m (o.muᵀ *ᵥ (o.meIᵀ *ᵥ w))
  dm k m u v := o.meI *ᵥ (o.mu *ᵥ o.hH.dm k m u v)
  dmT k m u w := o.hH.dmT k m u (o.muᵀ *ᵥ (o.meIᵀ *ᵥ w))

/-- `dbdt` (`fields.py` 659-680). -/
def HJ.hDbdt (o : HJ p s c ε φ) (src : SrcHJ c ε φ) : FieldFn p ε ε where
  val k m u := o.meI *ᵥ (o.mu *ᵥ (o.hDhdt src).val k m u)
  du k m x := o.meI *ᵥ (o.mu *ᵥ (o.hDhdt src).du k m x)
  duT k m w := (o.hDhdt src).duT k m (o.muᵀ *ᵥ (o.meIᵀ *ᵥ w))
  dm k m u v := o.meI *ᵥ (o.mu *ᵥ (o.hDhdt src).dm k m u v)
  dmT k m u w := (o.hDhdt src).dmT k m u (o.muᵀ *ᵥ (o.meIᵀ *ᵥ w))

/-- `e` (`fields.py` 682-705); `_jDeriv_m` is zero. -/
def HJ.hE (o : HJ p s c ε φ) (src : SrcHJ c ε φ) : FieldFn p ε φ where
  val k m u := o.mfI *ᵥ (o.rho.mat ℝ m *ᵥ (o.hJ src).val k m u)
  du k m x := o.mfI *ᵥ (o.rho.mat ℝ m *ᵥ (o.hJ src).du k m x)
  duT k m w := (o.hJ src).duT k m ((o.rho.mat ℝ m)ᵀ *ᵥ (o.mfIᵀ *ᵥ w))
  dm k m u v := o.mfI *ᵥ
    (o.rho.der m ((o.hJ src).val k m u) v + o.rho.mat ℝ m *ᵥ (o.hJ src).dm k m u v)
  dmT k m u w := o.rho.derT m ((o.hJ src).val k m u) (o.mfIᵀ *ᵥ w)

/-- The fields object `Fields3DMagneticField`. -/
def HJ.hFld (o : HJ p s c ε φ) (src : SrcHJ c ε φ) : (k : FldH) → FieldFn p ε (LocH ε φ k)
  | .h => o.hH
  | .b => o.hBf
  | .dhdt => o.hDhdt src
  | .dbdt => o.hDbdt src
  | .j => o.hJ src
  | .e => o.hE src

/-- A source with its receivers, as the magnetic field simulation sees it. -/
def HJ.srcH (o : HJ p s c ε φ) (x : SrcHJ c ε φ × List (Rx FldH (LocH ε φ))) :
    Src p ε FldH (LocH ε φ) where
  rhs k m := o.hRhs x.1 k m
  rhsD k m v := o.hRhsD x.1 k m v
  rhsDT k m w := o.hRhsDT x.1 k m w
  init m := o.hInit x.1 m
  initD m _ v := o.hInitD x.1 m v
  fld := o.hFld x.1
  rx := x.2

/-- `Simulation3DMagneticField` (1726-2200); `getAsubdiagDeriv` is zero (1983-2027). -/
def HJ.simH (o : HJ p s c ε φ) (srcs : List (SrcHJ c ε φ × List (Rx FldH (LocH ε φ)))) :
    Sim p ε FldH (LocH ε φ) where
  dts := o.dts
  thr := o.thr
  Adiag := o.hA
  Asub dt _ := o.hB dt
  AdiagD _ m u v := o.hAD m u v
  AdiagDT _ m u w := o.hADT m u w
  AsubD _ _ _ _ := 0
  AsubDT _ _ _ _ := 0
  sources := srcs.map o.srcH

/-! ### `Simulation3DCurrentDensity` -/

/-- `getAdiag` (2332-2374). -/
def HJ.jA (o : HJ p s c ε φ) (dt : ℝ) (m : p → ℝ) : Matrix φ φ ℝ :=
  (o.rho.mat ℝ m)ᵀ * (o.C * (o.muI * (o.Cᵀ * o.rho.mat ℝ m)) + (1 / dt) • 1)

/-- `getAsubdiag` (2440-2471). -/
def HJ.jB (o : HJ p s c ε φ) (dt : ℝ) (m : p → ℝ) : Matrix φ φ ℝ :=
  (-1 / dt) • (o.rho.mat ℝ m)ᵀ

/-- `getAdiagDeriv` (2376-2438). -/
def HJ.jAD (o : HJ p s c ε φ) (m : p → ℝ) (u : φ → ℝ) (v : p → ℝ) : φ → ℝ :=
  (o.rho.mat ℝ m)ᵀ *ᵥ (o.C *ᵥ (o.muI *ᵥ (o.Cᵀ *ᵥ o.rho.der m u v)))

/-- `getAdiagDeriv(adjoint=True)` (2430-2433). -/
def HJ.jADT (o : HJ p s c ε φ) (m : p → ℝ) (u w : φ → ℝ) : p → ℝ :=
  o.rho.derT m u (o.C *ᵥ (o.muIᵀ *ᵥ (o.Cᵀ *ᵥ (o.rho.mat ℝ m *ᵥ w))))

/-- The time index `getRHS` uses for the time index `k` (2549-2550): for the last one, that of the time
before. -/
def HJ.jInd (o : HJ p s c ε φ) (k : ℕ) : ℕ := if k = o.dts.length then k - 1 else k

/-- `times[k - 1]` (2556): for `k = 0` the index `-1` is that of the last time. -/
def HJ.jPrev (o : HJ p s c ε φ) (k : ℕ) : ℕ := if k = 0 then o.dts.length else k - 1

/-- `getRHS` (2519-2561), one column. -/
def HJ.jRhs (o : HJ p s c ε φ) (src : SrcHJ c ε φ) (k : ℕ) (m : p → ℝ) : φ → ℝ :=
  (o.rho.mat ℝ m)ᵀ *ᵥ ((-1 / o.dt (o.jInd k)) • (src.se (o.jInd k) - src.se (o.jPrev (o.jInd k))) +
    o.C *ᵥ (o.muI *ᵥ src.sm (o.jInd k)))

/-- `j` (`fields.py` 786-793). -/
def HJ.jJ (_o : HJ p s c ε φ) : FieldFn p φ φ where
  val _ _ u := u
  du _ _ x := x
  duT _ _ w := w
  dm _ _ _ _ := 0
  dmT _ _ _ _ := 0

/-- `dhdt` (`fields.py` 800-827). -/
def HJ.jDhdt (o : HJ p s c ε φ) (src : SrcHJ c ε φ) : FieldFn p φ ε where
  val k m u := o.muI *ᵥ src.sm k + -(o.muI *ᵥ (o.Cᵀ *ᵥ (o.rho.mat ℝ m *ᵥ u)))
  du _ m x := -(o.muI *ᵥ (o.Cᵀ *ᵥ (o.rho.mat ℝ m *ᵥ x)))
  duT _ m w := -((o.rho.mat ℝ m)ᵀ *ᵥ (o.C *ᵥ (o.muIᵀ *ᵥ w)))
  dm _ m u v := -(o.muI *ᵥ (o.Cᵀ *ᵥ o.rho.der m u v))
  dmT _ m u w := -(o.rho.derT m u (o.C *ᵥ (o.muI *ᵥ w)))

/-- `e` (`fields.py` 829-843). -/
def HJ.jE (o : HJ p s c ε φ) : FieldFn p φ φ where
  val k m u := o.mfI *ᵥ (o.rho.mat ℝ m *ᵥ o.jJ.val k m u)
  du _ m x := o.mfI *ᵥ (o.rho.mat ℝ m *ᵥ x)
  duT _ m w := (o.rho.mat ℝ m)ᵀ *ᵥ (o.mfIᵀ *ᵥ w)
  dm _ m u v := o.mfI *ᵥ o.rho.der m u v
  dmT _ m u w := o.rho.derT m u (o.mfIᵀ *ᵥ w)

/-- `dbdt` (`fields.py` 854-878). -/
def HJ.jDbdt (o : HJ p s c ε φ) (src : SrcHJ c ε φ) : FieldFn p φ ε where
  val k m u := o.meI *ᵥ (o.mu *ᵥ (o.jDhdt src).val k m u)
  du k m x := o.meI *ᵥ (o.mu *ᵥ (o.jDhdt src).du k m x)
  duT k m w := (o.jDhdt src).duT k m (o.muᵀ *ᵥ (o.meIᵀ *ᵥ w))
  dm k m u v := o.meI *ᵥ (o.mu *ᵥ (o.jDhdt src).dm k m u v)
  dmT k m u w := (o.jDhdt src).dmT k m u (o.muᵀ *ᵥ (o.meIᵀ *ᵥ w))

/-- The fields object `Fields3DCurrentDensity`. -/
def HJ.jFld (o : HJ p s c ε φ) (src : SrcHJ c ε φ) : (k : FldJ) → FieldFn p φ (LocJ ε φ k)
  | .dhdt => o.jDhdt src
  | .dbdt => o.jDbdt src
  | .j => o.jJ
  | .e => o.jE

/-- A source with its receivers, as the current density simulation sees it; `getRHSDeriv` is zero
(2563-2610). -/
def HJ.srcJ (o : HJ p s c ε φ) (x : SrcHJ c ε φ × List (Rx FldJ (LocJ ε φ))) :
    Src p φ FldJ (LocJ ε φ) where
  rhs k m := o.jRhs x.1 k m
  rhsD _ _ _ := 0
  rhsDT _ _ _ := 0
  init m := o.jInit x.1 m
  initD m _ v := o.jInitD x.1 m v
  fld := o.jFld x.1
  rx := x.2

/-- `Simulation3DCurrentDensity` (2206-2695); `getAsubdiagDeriv` is zero (2473-2517). -/
def HJ.simJ (o : HJ p s c ε φ) (srcs : List (SrcHJ c ε φ × List (Rx FldJ (LocJ ε φ)))) :
    Sim p φ FldJ (LocJ ε φ) where
  dts := o.dts
  thr := o.thr
  Adiag := o.jA
  Asub := o.jB
  AdiagD _ m u v := o.jAD m u v
  AdiagDT _ m u w := o.jADT m u w
  AsubD _ _ _ _ := 0
  AsubDT _ _ _ _ := 0
  sources := srcs.map o.srcJ

end

end Verif.TDEM

namespace Verif.TDEM.Props
open Matrix Verif.EM Verif.EM.Props Verif.TDEM Verif.Flow.Richards.Props

noncomputable section

variable {p s c ε φ : Type} [Fintype p] [Fintype s] [Fintype c] [Fintype ε] [Fintype φ]
  [DecidableEq c] [DecidableEq ε] [DecidableEq φ]
variable {o : HJ p s c ε φ} {m : p → ℝ}

set_option linter.unusedSectionVars false

/-! ### Initial conditions -/

/-- The derivative of the initial current density of a grounded source. -/
def jInitMat (o : HJ p s c ε φ) (src : SrcHJ c ε φ) (m : p → ℝ) : Matrix φ p ℝ :=
  if src.dc then -(o.rho.invDerMat m (o.Dᵀ *ᵥ o.phi0 src m) + o.rho.inv ℝ m * (o.Dᵀ *
    ((o.adc m)⁻¹ * -(o.D * o.rho.invDerMat m (o.Dᵀ *ᵥ o.phi0 src m))))) else 0

theorem jInitMat_jac (src : SrcHJ c ε φ) (hi : src.dc = true → GoodInv o.rho m)
    (hdc : src.dc = true → (o.adc m).det ≠ 0) :
    IsJacK (o.jInit src) (jInitMat o src m) m ∧
    ∀ v, o.jInitD src m v = jInitMat o src m *ᵥ v := by
  unfold jInitMat
  cases hc : src.dc with
  | false =>
    refine ⟨?_, fun v => by simp [HJ.jInitD, hc]⟩
    have : o.jInit src = fun _ => 0 := by funext y; simp [HJ.jInit, hc]
    rw [this]
    simpa using isJacK_const (𝕜 := ℝ) (0 : φ → ℝ) m
  | true =>
    simp only [if_true]
    have hi := hi hc
    refine ⟨?_, fun v => ?_⟩
    · have hA : ∀ i j, DifferentiableAt ℝ (fun y => (o.adc y) i j) m := by
        intro i j
        simp only [HJ.adc, Matrix.mul_apply]
        refine DifferentiableAt.fun_sum fun a _ => DifferentiableAt.mul
          (DifferentiableAt.fun_sum fun b _ => ?_) (differentiableAt_const _)
        exact (differentiableAt_const _).mul (inv_diff hi b a)
      set ph := o.phi0 src m with hph
      have h1 : IsJacK (fun y => src.rhsdc - o.adc y *ᵥ ph)
          (-(o.D * o.rho.invDerMat m (o.Dᵀ *ᵥ ph))) m := by
        have h2 := (isJacK_const src.rhsdc m).sub
          ((invDerMat_jac (𝕜 := ℝ) hi (o.Dᵀ *ᵥ ph)).mulVec o.D)
        rw [zero_sub] at h2
        refine h2.congr (Filter.Eventually.of_forall fun y => ?_)
        simp only [HJ.adc, ← Matrix.mulVec_mulVec]
      have h3 := isJacK_solve_residual (A := o.adc) (q := fun _ => src.rhsdc) hA (hdc hc) h1
      have h4 := (inv_jac hi (h3.mulVec o.Dᵀ)).neg
      have e1 : o.jInit src =
          fun y => -(o.rho.inv ℝ y *ᵥ (o.Dᵀ *ᵥ ((o.adc y)⁻¹ *ᵥ src.rhsdc))) := by
        funext y; simp [HJ.jInit, hc, HJ.phi0]
      rw [e1]
      exact h4
    · simp only [HJ.jInitD, hc, if_true, HJ.phi0D, HJ.adcD, invDer_eq, Matrix.neg_mulVec,
        Matrix.add_mulVec, ← Matrix.mulVec_mulVec, Matrix.mulVec_neg, neg_smul, one_smul]

theorem hInit_correct (src : SrcHJ c ε φ)
    (hi : src.dc = true → src.galvanic = true → GoodInv o.rho m)
    (hdc : src.dc = true → src.galvanic = true → (o.adc m).det ≠ 0) :
    ∃ D : Matrix ε p ℝ, IsJacK (o.hInit src) D m ∧ ∀ v, o.hInitD src m v = D *ᵥ v := by
  by_cases hc : src.dc = true ∧ src.galvanic = true
  · obtain ⟨h1, h2⟩ := jInitMat_jac src (fun h => hi h hc.2) (fun h => hdc h hc.2)
    have h3 := ((((isJacK_const src.se0 m).add h1).mulVec o.ammr⁻¹).mulVec o.Cᵀ).mulVec o.muI
    rw [zero_add] at h3
    refine ⟨_, h3.congr (Filter.Eventually.of_forall fun y => ?_), fun v => ?_⟩
    · simp only [HJ.hInit, hc, and_self, if_true]
    · simp only [HJ.hInitD, hc, and_self, if_true, h2, ← Matrix.mulVec_mulVec]
  · refine ⟨0, ?_, fun v => ?_⟩
    · have : o.hInit src = fun _ => src.h0 := by funext y; simp only [HJ.hInit, if_neg hc]
      rw [this]
      exact isJacK_const _ m
    · simp only [HJ.hInitD, if_neg hc, Matrix.zero_mulVec]

/-! ### The magnetic field formulation -/

theorem hDhdt_correct (src : SrcHJ c ε φ) (hs : Good o.rho m) (hmu : o.muIᵀ = o.muI) (k : ℕ)
    (u : ε → ℝ) : FieldCorrect (o.hDhdt src) k m u := by
  refine field_congr (field_shift (field_lin (field_mass (field_shift (field_lin (field_id k m u) o.C)
    (fun k => -src.se k)) hs) (-(o.muI * o.Cᵀ))) fun k => o.muI *ᵥ src.sm k) ?_ ?_ ?_ ?_ ?_
  · intro m u
    simp only [HJ.hDhdt, Matrix.neg_mulVec, Matrix.mulVec_add, Matrix.mulVec_neg,
      ← Matrix.mulVec_mulVec]
    abel
  · intro x
    simp only [HJ.hDhdt, Matrix.neg_mulVec, ← Matrix.mulVec_mulVec]
  · intro w
    simp only [HJ.hDhdt, Matrix.transpose_neg, Matrix.transpose_mul, Matrix.transpose_transpose, hmu,
      Matrix.neg_mulVec, Matrix.mulVec_neg, ← Matrix.mulVec_mulVec]
  · intro v
    simp only [HJ.hDhdt, der_eq, Matrix.neg_mulVec, ← Matrix.mulVec_mulVec, Matrix.mulVec_zero,
      add_zero, ← sub_eq_add_neg]
  · intro w
    simp only [HJ.hDhdt, derT_eq, Matrix.transpose_neg, Matrix.transpose_mul,
      Matrix.transpose_transpose, hmu, Matrix.neg_mulVec, Matrix.mulVec_neg, ← Matrix.mulVec_mulVec,
      add_zero, ← sub_eq_add_neg]

theorem hJ_correct (src : SrcHJ c ε φ) (k : ℕ) (u : ε → ℝ) : FieldCorrect (o.hJ src) k m u := by
  refine field_congr (field_shift (field_lin (field_id k m u) o.C) fun k => -src.se k) ?_ ?_ ?_ ?_ ?_
  · intro m u; simp only [HJ.hJ, sub_eq_add_neg]
  · intro x; rfl
  · intro x; rfl
  · intro x; simp [HJ.hJ]
  · intro x; rfl

theorem hFld_correct (src : SrcHJ c ε φ) (hs : Good o.rho m) (hmu : o.muIᵀ = o.muI) (f : FldH) (k : ℕ)
    (u : ε → ℝ) : FieldCorrect (o.hFld src f) k m u := by
  have hd := hDhdt_correct src hs hmu k u
  cases f with
  | h => exact field_id k m u
  | b => exact field_lin (field_lin (field_id k m u) o.mu) o.meI
  | dhdt => exact hd
  | dbdt => exact field_lin (field_lin hd o.mu) o.meI
  | j => exact hJ_correct src k u
  | e =>
    refine field_congr (field_lin (field_mass (hJ_correct (o := o) src k u) hs) o.mfI) ?_ ?_ ?_ ?_ ?_
    · intro m u; rfl
    · intro x; rfl
    · intro x; rfl
    · intro v; simp only [HJ.hFld, HJ.hE, der_eq]
    · intro w; simp [HJ.hFld, HJ.hE, HJ.hJ, derT_eq]

theorem hStep_correct {srcs : List (SrcHJ c ε φ × List (Rx FldH (LocH ε φ)))} (hs : Good o.rho m)
    (x : SrcHJ c ε φ × List (Rx FldH (LocH ε φ))) (k : ℕ)
    (hdet : (o.hA (o.dt k) m).det ≠ 0) : StepCorrect (o.simH srcs) m (o.srcH x) k := by
  refine ⟨fun i j => ?_, fun i j => ?_, hdet, ?_⟩
  · change DifferentiableAt ℝ (fun y => (o.hA _ y) i j) m
    simp only [HJ.hA, Matrix.mul_apply, Matrix.add_apply]
    refine DifferentiableAt.add (DifferentiableAt.fun_sum fun a _ => (differentiableAt_const _).mul
      (DifferentiableAt.fun_sum fun b _ => ?_)) (differentiableAt_const _)
    exact (mat_diff hs a b).mul (differentiableAt_const _)
  · exact differentiableAt_const _
  · set u := (o.simH srcs).sol m (o.srcH x) k with hu
    set u' := (o.simH srcs).sol m (o.srcH x) (k + 1) with hu'
    refine ⟨o.Cᵀ * o.rho.derMat m (x.1.se (k + 1)) - o.Cᵀ * o.rho.derMat m (o.C *ᵥ u'), ?_, ?_, ?_⟩
    · have h1 := ((isJacK_const (x.1.sm (k + 1) - o.hB (o.dt k) *ᵥ u - (1 / o.dt k) • (o.mu *ᵥ u'))
          m).add ((derMat_jac (𝕜 := ℝ) hs (x.1.se (k + 1))).mulVec o.Cᵀ)).sub
        ((derMat_jac (𝕜 := ℝ) hs (o.C *ᵥ u')).mulVec o.Cᵀ)
      rw [zero_add] at h1
      refine h1.congr (Filter.Eventually.of_forall fun y => ?_)
      change o.hRhs x.1 (k + 1) y - o.hB (o.dt k) *ᵥ u - o.hA (o.dt k) y *ᵥ u' = _
      simp only [HJ.hA, HJ.hRhs, Matrix.add_mulVec, Matrix.smul_mulVec, ← Matrix.mulVec_mulVec]
      abel
    · intro v
      change o.hRhsD x.1 (k + 1) m v - 0 - o.hAD m u' v = _
      simp only [HJ.hRhsD, HJ.hAD, der_eq, Matrix.sub_mulVec, ← Matrix.mulVec_mulVec, sub_zero]
    · intro W
      change -o.hADT m u' W - 0 + o.hRhsDT x.1 (k + 1) m W = _
      simp only [HJ.hRhsDT, HJ.hADT, derT_eq, Matrix.transpose_sub, Matrix.transpose_mul,
        Matrix.transpose_transpose, Matrix.sub_mulVec, ← Matrix.mulVec_mulVec, sub_zero]
      abel

/-! ### The current density formulation -/

theorem jDhdt_correct (src : SrcHJ c ε φ) (hs : Good o.rho m) (hmu : o.muIᵀ = o.muI) (k : ℕ)
    (u : φ → ℝ) : FieldCorrect (o.jDhdt src) k m u := by
  refine field_congr (field_shift (field_lin (field_mass (field_id k m u) hs) (-(o.muI * o.Cᵀ)))
    fun k => o.muI *ᵥ src.sm k) ?_ ?_ ?_ ?_ ?_
  · intro m u
    simp only [HJ.jDhdt, Matrix.neg_mulVec, ← Matrix.mulVec_mulVec]
    abel
  · intro x
    simp only [HJ.jDhdt, Matrix.neg_mulVec, ← Matrix.mulVec_mulVec]
  · intro w
    simp only [HJ.jDhdt, Matrix.transpose_neg, Matrix.transpose_mul, Matrix.transpose_transpose,
      Matrix.neg_mulVec, Matrix.mulVec_neg, ← Matrix.mulVec_mulVec]
  · intro v
    simp only [HJ.jDhdt, der_eq, Matrix.neg_mulVec, ← Matrix.mulVec_mulVec, Matrix.mulVec_zero,
      add_zero]
  · intro w
    simp only [HJ.jDhdt, derT_eq, Matrix.transpose_neg, Matrix.transpose_mul,
      Matrix.transpose_transpose, hmu, Matrix.neg_mulVec, Matrix.mulVec_neg, ← Matrix.mulVec_mulVec,
      add_zero]

theorem jFld_correct (src : SrcHJ c ε φ) (hs : Good o.rho m) (hmu : o.muIᵀ = o.muI) (f : FldJ) (k : ℕ)
    (u : φ → ℝ) : FieldCorrect (o.jFld src f) k m u := by
  have hd := jDhdt_correct src hs hmu k u
  cases f with
  | dhdt => exact hd
  | dbdt => exact field_lin (field_lin hd o.mu) o.meI
  | j => exact field_id k m u
  | e =>
    refine field_congr (field_lin (field_mass (field_id k m u) hs) o.mfI) ?_ ?_ ?_ ?_ ?_
    · intro m u; rfl
    · intro x; rfl
    · intro x; rfl
    · intro v; simp [HJ.jFld, HJ.jE, der_eq]
    · intro w; simp [HJ.jFld, HJ.jE, derT_eq]

theorem jStep_correct {srcs : List (SrcHJ c ε φ × List (Rx FldJ (LocJ ε φ)))} (hs : Good o.rho m)
    (x : SrcHJ c ε φ × List (Rx FldJ (LocJ ε φ))) (k : ℕ) (hf : (o.simJ srcs).fac k = o.dt k)
    (hdet : (o.jA (o.dt k) m).det ≠ 0) : StepCorrect (o.simJ srcs) m (o.srcJ x) k := by
  refine ⟨fun i j => ?_, fun i j => ?_, hdet, ?_⟩
  · change DifferentiableAt ℝ (fun y => (o.jA _ y) i j) m
    simp only [HJ.jA, Matrix.mul_apply, Matrix.add_apply, Matrix.transpose_apply]
    refine DifferentiableAt.fun_sum fun a _ => (mat_diff hs a i).mul (DifferentiableAt.add ?_
      (differentiableAt_const _))
    refine DifferentiableAt.fun_sum fun b _ => (differentiableAt_const _).mul
      (DifferentiableAt.fun_sum fun c _ => (differentiableAt_const _).mul
      (DifferentiableAt.fun_sum fun d _ => (differentiableAt_const _).mul (mat_diff hs d j)))
  · change DifferentiableAt ℝ (fun y => (o.jB _ y) i j) m
    simp only [HJ.jB, Matrix.smul_apply, smul_eq_mul, Matrix.transpose_apply]
    exact (differentiableAt_const _).mul (mat_diff hs j i)
  · set u := (o.simJ srcs).sol m (o.srcJ x) k with hu
    set u' := (o.simJ srcs).sol m (o.srcJ x) (k + 1) with hu'
    set q : φ → ℝ := (-1 / o.dt (o.jInd (k + 1))) •
      (x.1.se (o.jInd (k + 1)) - x.1.se (o.jPrev (o.jInd (k + 1)))) +
      o.C *ᵥ (o.muI *ᵥ x.1.sm (o.jInd (k + 1))) with hq
    set r : (p → ℝ) → φ → ℝ := fun y => q + (1 / o.dt k) • u - (1 / o.dt k) • u' -
      o.C *ᵥ (o.muI *ᵥ (o.Cᵀ *ᵥ (o.rho.mat ℝ y *ᵥ u'))) with hr
    have hres : ∀ y, (o.srcJ x).rhs (k + 1) y - o.jB (o.dt k) y *ᵥ u - o.jA (o.dt k) y *ᵥ u' =
        (o.rho.mat ℝ y)ᵀ *ᵥ r y := by
      intro y
      have e : (o.srcJ x).rhs (k + 1) y = (o.rho.mat ℝ y)ᵀ *ᵥ q := rfl
      rw [e]
      simp only [hr, HJ.jB, HJ.jA, Matrix.mulVec_sub, Matrix.mulVec_add,
        Matrix.mulVec_smul, Matrix.smul_mulVec, Matrix.add_mulVec, Matrix.one_mulVec,
        ← Matrix.mulVec_mulVec, neg_div, neg_smul, Matrix.neg_mulVec]
      abel
    have hsol : o.jA (o.dt k) m *ᵥ u' = (o.srcJ x).rhs (k + 1) m - o.jB (o.dt k) m *ᵥ u := by
      have : u' = (o.jA (o.dt k) m)⁻¹ *ᵥ ((o.srcJ x).rhs (k + 1) m - o.jB (o.dt k) m *ᵥ u) := by
        rw [hu', Sim.sol, hf]
        rfl
      rw [this]
      exact mulVec_solve hdet _
    have hd : ((o.rho.mat ℝ m)ᵀ).det ≠ 0 := by
      intro h0
      apply hdet
      rw [HJ.jA, Matrix.det_mul, h0, zero_mul]
    have hr0 : r m = 0 := by
      have h1 : (o.rho.mat ℝ m)ᵀ *ᵥ r m = 0 := by rw [← hres, hsol, sub_self]
      have h2 := congrArg (fun z => ((o.rho.mat ℝ m)ᵀ)⁻¹ *ᵥ z) h1
      simp only [Matrix.mulVec_mulVec, Matrix.mulVec_zero] at h2
      rwa [Matrix.nonsing_inv_mul _ (isUnit_iff_ne_zero.2 hd), Matrix.one_mulVec] at h2
    have hrj : IsJacK r (-(o.C * (o.muI * (o.Cᵀ * o.rho.derMat m u')))) m := by
      have h1 := (isJacK_const (q + (1 / o.dt k) • u - (1 / o.dt k) • u') m).sub
        ((((derMat_jac (𝕜 := ℝ) hs u').mulVec o.Cᵀ).mulVec o.muI).mulVec o.C)
      rw [zero_sub] at h1
      exact h1
    have hTd : ∀ i j, DifferentiableAt ℝ (fun y => (o.rho.mat ℝ y)ᵀ i j) m := fun i j =>
      mat_diff hs j i
    refine ⟨(o.rho.mat ℝ m)ᵀ * -(o.C * (o.muI * (o.Cᵀ * o.rho.derMat m u'))), ?_, ?_, ?_⟩
    · exact (IsJacK.matMul_zero hTd hrj hr0).congr
        (Filter.Eventually.of_forall fun y => hres y)
    · intro v
      change (0 : φ → ℝ) - 0 - o.jAD m u' v = _
      simp only [HJ.jAD, der_eq, ← Matrix.mulVec_mulVec, Matrix.neg_mulVec, Matrix.mulVec_neg,
        sub_zero, zero_sub]
    · intro W
      change -o.jADT m u' W - 0 + 0 = _
      simp only [HJ.jADT, derT_eq, Matrix.transpose_neg, Matrix.transpose_mul,
        Matrix.transpose_transpose, ← Matrix.mulVec_mulVec, Matrix.neg_mulVec, sub_zero, add_zero,
        Matrix.mulVec_neg]

/-! ### C73 -/

/-- **C73, magnetic field.** `Jvec` is the derivative of the predicted data, for any sources (grounded
ones included), when no receiver uses the last time and no step is solved with stale factors. -/
theorem C73_Jvec_magnetic_field_partial (o : HJ p s c ε φ)
    (srcs : List (SrcHJ c ε φ × List (Rx FldH (LocH ε φ)))) (m : p → ℝ) (hN : o.dts.length ≠ 0)
    (hf : Fresh (o.simH srcs)) (hs : Good o.rho m) (hmu : o.muIᵀ = o.muI)
    (hdet : ∀ k < o.dts.length, (o.hA (o.dt k) m).det ≠ 0)
    (hi : ∀ x ∈ srcs, x.1.dc = true → x.1.galvanic = true → GoodInv o.rho m ∧ (o.adc m).det ≠ 0)
    (hlast : ∀ x ∈ srcs, NoLast o.dts.length x.2) : JvecCorrect (o.simH srcs) m := by
  have hmem : ∀ t ∈ (o.simH srcs).sources, ∃ x ∈ srcs, o.srcH x = t := by
    intro t ht
    simpa [HJ.simH] using ht
  refine jvec_correct _ m hN hf ?_ ?_ ?_ ?_
  · intro t ht k hk
    obtain ⟨x, _, rfl⟩ := hmem t ht
    exact hStep_correct hs x k (hdet k hk)
  · intro t ht
    obtain ⟨x, hx, rfl⟩ := hmem t ht
    exact hInit_correct x.1 (fun a b => (hi x hx a b).1) (fun a b => (hi x hx a b).2)
  · intro t ht r _ k _
    obtain ⟨x, _, rfl⟩ := hmem t ht
    exact hFld_correct x.1 hs hmu r.field k _
  · intro t ht r hr i
    obtain ⟨x, hx, rfl⟩ := hmem t ht
    exact hlast x hx r hr i

/-- **C73, magnetic field.** `Jtvec` is the product with the transposed derivative of the predicted
data, when no step is solved with stale factors and no source is grounded with an initial condition. -/
theorem C73_Jtvec_magnetic_field_partial (o : HJ p s c ε φ)
    (srcs : List (SrcHJ c ε φ × List (Rx FldH (LocH ε φ)))) (m : p → ℝ) (hN : o.dts.length ≠ 0)
    (hf : Fresh (o.simH srcs)) (hs : Good o.rho m) (hmu : o.muIᵀ = o.muI)
    (hdet : ∀ k < o.dts.length, (o.hA (o.dt k) m).det ≠ 0)
    (hdc : ∀ x ∈ srcs, ¬ (x.1.dc = true ∧ x.1.galvanic = true)) :
    TransposeCorrect (o.simH srcs) m ((o.simH srcs).Jtvec m) := by
  have hmem : ∀ t ∈ (o.simH srcs).sources, ∃ x ∈ srcs, o.srcH x = t := by
    intro t ht
    simpa [HJ.simH] using ht
  refine jtvec_correct _ m hN hf ?_ ?_ ?_
  · intro t ht k hk
    obtain ⟨x, _, rfl⟩ := hmem t ht
    exact hStep_correct hs x k (hdet k hk)
  · intro t ht
    obtain ⟨x, hx, rfl⟩ := hmem t ht
    refine ⟨?_, fun v => ?_⟩
    · have : (o.srcH x).init = fun _ => x.1.h0 := by
        funext y; simp only [HJ.srcH, HJ.hInit, if_neg (hdc x hx)]
      rw [this]
      exact isJacK_const _ m
    · simp only [HJ.srcH, HJ.hInitD, if_neg (hdc x hx)]
  · intro t ht r _ k _
    obtain ⟨x, _, rfl⟩ := hmem t ht
    exact hFld_correct x.1 hs hmu r.field k _

/-- **C73, current density.** `Jvec` is the derivative of the predicted data, for any sources (grounded
ones included), when no receiver uses the last time and no step is solved with stale factors. -/
theorem C73_Jvec_current_density_partial (o : HJ p s c ε φ)
    (srcs : List (SrcHJ c ε φ × List (Rx FldJ (LocJ ε φ)))) (m : p → ℝ) (hN : o.dts.length ≠ 0)
    (hf : Fresh (o.simJ srcs)) (hs : Good o.rho m) (hmu : o.muIᵀ = o.muI)
    (hdet : ∀ k < o.dts.length, (o.jA (o.dt k) m).det ≠ 0)
    (hi : ∀ x ∈ srcs, x.1.dc = true → GoodInv o.rho m ∧ (o.adc m).det ≠ 0)
    (hlast : ∀ x ∈ srcs, NoLast o.dts.length x.2) : JvecCorrect (o.simJ srcs) m := by
  have hmem : ∀ t ∈ (o.simJ srcs).sources, ∃ x ∈ srcs, o.srcJ x = t := by
    intro t ht
    simpa [HJ.simJ] using ht
  refine jvec_correct _ m hN hf ?_ ?_ ?_ ?_
  · intro t ht k hk
    obtain ⟨x, _, rfl⟩ := hmem t ht
    exact jStep_correct hs x k (fac_eq hf k hk) (hdet k hk)
  · intro t ht
    obtain ⟨x, hx, rfl⟩ := hmem t ht
    exact ⟨_, jInitMat_jac x.1 (fun a => (hi x hx a).1) (fun a => (hi x hx a).2)⟩
  · intro t ht r _ k _
    obtain ⟨x, _, rfl⟩ := hmem t ht
    exact jFld_correct x.1 hs hmu r.field k _
  · intro t ht r hr i
    obtain ⟨x, hx, rfl⟩ := hmem t ht
    exact hlast x hx r hr i

/-- **C73, current density.** `Jtvec` is the product with the transposed derivative of the predicted
data, when no step is solved with stale factors and no source has an initial current. -/
theorem C73_Jtvec_current_density_partial (o : HJ p s c ε φ)
    (srcs : List (SrcHJ c ε φ × List (Rx FldJ (LocJ ε φ)))) (m : p → ℝ) (hN : o.dts.length ≠ 0)
    (hf : Fresh (o.simJ srcs)) (hs : Good o.rho m) (hmu : o.muIᵀ = o.muI)
    (hdet : ∀ k < o.dts.length, (o.jA (o.dt k) m).det ≠ 0)
    (hdc : ∀ x ∈ srcs, x.1.dc = false) :
    TransposeCorrect (o.simJ srcs) m ((o.simJ srcs).Jtvec m) := by
  have hmem : ∀ t ∈ (o.simJ srcs).sources, ∃ x ∈ srcs, o.srcJ x = t := by
    intro t ht
    simpa [HJ.simJ] using ht
  refine jtvec_correct _ m hN hf ?_ ?_ ?_
  · intro t ht k hk
    obtain ⟨x, _, rfl⟩ := hmem t ht
    exact jStep_correct hs x k (fac_eq hf k hk) (hdet k hk)
  · intro t ht
    obtain ⟨x, hx, rfl⟩ := hmem t ht
    refine ⟨?_, fun v => ?_⟩
    · have : (o.srcJ x).init = fun _ => 0 := by
        funext y; simp [HJ.srcJ, HJ.jInit, hdc x hx]
      rw [this]
      exact isJacK_const _ m
    · simp [HJ.srcJ, HJ.jInitD, hdc x hx]
  · intro t ht r _ k _
    obtain ⟨x, _, rfl⟩ := hmem t ht
    exact jFld_correct x.1 hs hmu r.field k _

end

end Verif.TDEM.Props
