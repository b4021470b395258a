import Verif.FDEM.Sim
import Mathlib.Analysis.Real.Pi.Bounds

/-!
The electric field and magnetic flux density formulations of the frequency domain simulation
(`simpeg/electromagnetics/frequency_domain/simulation.py` 514-1340) and their fields objects
(`fields.py` 323-1055).

Simplified: no permittivity (the code warns that its derivatives are not implemented); mesh operators
are arbitrary matrices; a source is given by its source terms and primary fields as functions of the
model (`Verif/FDEM/Sources.lean` has those of the code), `bPrimaryDeriv`, `hPrimaryDeriv` and
`jPrimaryDeriv` are zero as in every source of the code; frequencies are rational.
-/

namespace Verif.FDEM
open Matrix Verif.EM

noncomputable section

variable {p s t ε φ : Type} [Fintype p] [Fintype s] [Fintype t] [Fintype ε] [Fintype φ]
  [DecidableEq ε] [DecidableEq φ]

/-- `1j * omega(freq)` (`electromagnetics/utils/waveform_utils.py`, `omega = 2 pi f`). -/
def iw (f : ℚ) : ℂ := Complex.I * ((2 * Real.pi * (f : ℝ) : ℝ) : ℂ)

/-- A source term or primary field: value, derivative times a vector, and the adjoint. -/
structure Term (p g : Type) where
  val : (p → ℝ) → g → ℂ
  d : (p → ℝ) → (p → ℂ) → g → ℂ
  dT : (p → ℝ) → (g → ℂ) → p → ℂ

/-- The fields of the EB formulations. -/
inductive FldEB where
  | e
  | b
  | bSecondary
  | h
  | j
  deriving DecidableEq

/-- `_GLoc` (`fields.py` 395-401, 767-773): the grid on which a field lives. -/
@[reducible] def LocEB (ε φ : Type) : FldEB → Type
  | .e => ε
  | .j => ε
  | .b => φ
  | .bSecondary => φ
  | .h => φ

instance (k : FldEB) : Fintype (LocEB ε φ k) := by
  cases k <;> infer_instance

/-- A source of an EB simulation (`sources.py` and `electromagnetics/base.py` 53-211). -/
structure SrcEB (p ε φ : Type) where
  freq : ℚ
  sm : Term p φ
  se : Term p ε
  eP : Term p ε
  bP : (p → ℝ) → φ → ℂ
  rx : List (Rx FldEB (LocEB ε φ))

/-- What both EB simulations use: edge curl, `MeSigma`, `MfMui`, `MeI`, `MfI`, and whether there is a
map for the magnetic permeability. -/
structure EB (p s t ε φ : Type) where
  curl : Matrix φ ε ℝ
  sigma : Mass p s ε
  mui : Mass p t φ
  meI : Matrix ε ε ℝ
  mfI : Matrix φ φ ℝ
  muiMapped : Bool

/-- `mesh.edge_curl` acting on complex vectors. -/
def EB.C (o : EB p s t ε φ) : Matrix φ ε ℂ := o.curl.map fun x => (x : ℂ)

/-- `MeI`. -/
def EB.MeI (o : EB p s t ε φ) : Matrix ε ε ℂ := o.meI.map fun x => (x : ℂ)

/-- `MfI`. -/
def EB.MfI (o : EB p s t ε φ) : Matrix φ φ ℂ := o.mfI.map fun x => (x : ℂ)

/-! ### `Simulation3DElectricField` -/

/-- `getA` (`simulation.py` 614-651). -/
def EB.eA (o : EB p s t ε φ) (f : ℚ) (m : p → ℝ) : Matrix ε ε ℂ :=
  o.Cᵀ * o.mui.mat ℂ m * o.C + iw f • o.sigma.mat ℂ m

/-- `getADeriv` (`simulation.py` 653-804). -/
def EB.eAD (o : EB p s t ε φ) (f : ℚ) (m : p → ℝ) (u : ε → ℂ) (v : p → ℂ) : ε → ℂ :=
  iw f • o.sigma.der m u v + o.Cᵀ *ᵥ (o.mui.derMat m (o.C *ᵥ u) *ᵥ v)

/-- `getADeriv(adjoint=True)` (`simulation.py` 653-804). -/
def EB.eADT (o : EB p s t ε φ) (f : ℚ) (m : p → ℝ) (u w : ε → ℂ) : p → ℂ :=
  iw f • o.sigma.derT m u w + (o.mui.derMat m (o.C *ᵥ u))ᵀ *ᵥ (o.C *ᵥ w)

/-- `getRHS`, one column (`simulation.py` 806-839). -/
def EB.eQ (o : EB p s t ε φ) (src : SrcEB p ε φ) (m : p → ℝ) : ε → ℂ :=
  o.Cᵀ *ᵥ (o.mui.mat ℂ m *ᵥ src.sm.val m) - iw src.freq • src.se.val m

/-- `getRHSDeriv` when the source is the only one of its frequency (`simulation.py` 841-901). -/
def EB.eQD (o : EB p s t ε φ) (src : SrcEB p ε φ) (m : p → ℝ) (v : p → ℂ) : ε → ℂ :=
  o.Cᵀ *ᵥ (o.mui.mat ℂ m *ᵥ src.sm.d m v + o.mui.derMat m (src.sm.val m) *ᵥ v) -
    iw src.freq • src.se.d m v

/-- `getRHSDeriv(adjoint=True)` (`simulation.py` 893-898). -/
def EB.eQDT (o : EB p s t ε φ) (src : SrcEB p ε φ) (m : p → ℝ) (w : ε → ℂ) : p → ℂ :=
  src.sm.dT m (o.mui.mat ℂ m *ᵥ (o.C *ᵥ w)) + (o.mui.derMat m (src.sm.val m))ᵀ *ᵥ (o.C *ᵥ w) -
    iw src.freq • src.se.dT m w

/-- `e` of `Fields3DElectricField` (`fields.py` 403-467). -/
def EB.eE (_o : EB p s t ε φ) (src : SrcEB p ε φ) : FieldFn p ε ε where
  val m u := src.eP.val m + u
  du _ x := x
  duT _ w := w
  dm m _ v := src.eP.d m v
  dmT m _ w := src.eP.dT m w

/-- `bSecondary` (`fields.py` 493-515 for one source; the derivative is that of `b`, 239-256). -/
def EB.eBs (o : EB p s t ε φ) (src : SrcEB p ε φ) : FieldFn p ε φ where
  val m u := (-1 / iw src.freq) • (o.C *ᵥ u) + (1 / iw src.freq) • src.sm.val m
  du _ x := (-1 / iw src.freq) • (o.C *ᵥ x)
  duT _ w := (-1 / iw src.freq) • (o.Cᵀ *ᵥ w)
  dm m _ v := (1 / iw src.freq) • src.sm.d m v
  dmT m _ w := (1 / iw src.freq) • src.sm.dT m w

/-- `b` (`fields.py` 88-109, 469-554). -/
def EB.eB (o : EB p s t ε φ) (src : SrcEB p ε φ) : FieldFn p ε φ :=
  { o.eBs src with val := fun m u => src.bP m + (o.eBs src).val m u }

/-- `j` (`fields.py` 556-611). -/
def EB.eJ (o : EB p s t ε φ) (src : SrcEB p ε φ) : FieldFn p ε ε where
  val m u := o.MeI *ᵥ (o.sigma.mat ℂ m *ᵥ (o.eE src).val m u)
  du m x := o.MeI *ᵥ (o.sigma.mat ℂ m *ᵥ (o.eE src).du m x)
  duT m w := (o.eE src).duT m ((o.sigma.mat ℂ m)ᵀ *ᵥ (o.MeIᵀ *ᵥ w))
  dm m u v := o.MeI *ᵥ ((o.eE src).dm m u v + o.sigma.der m ((o.eE src).val m u) v)
  dmT m u w := o.sigma.derT m ((o.eE src).val m u) (o.MeIᵀ *ᵥ w) + (o.eE src).dmT m u (o.MeIᵀ *ᵥ w)

/-- `h` (`fields.py` 613-670). -/
def EB.eH (o : EB p s t ε φ) (src : SrcEB p ε φ) : FieldFn p ε φ where
  val m u := o.MfI *ᵥ (o.mui.mat ℂ m *ᵥ (o.eB src).val m u)
  du m x := o.MfI *ᵥ (o.mui.mat ℂ m *ᵥ (o.eB src).du m x)
  duT m w := (o.eB src).duT m ((o.mui.mat ℂ m)ᵀ *ᵥ (o.MfIᵀ *ᵥ w))
  dm m u v := o.MfI *ᵥ (o.mui.mat ℂ m *ᵥ (o.eB src).dm m u v) +
    o.MfI *ᵥ o.mui.der m ((o.eB src).val m u) v
  dmT m u w := (o.eB src).dmT m u ((o.mui.mat ℂ m)ᵀ *ᵥ (o.MfIᵀ *ᵥ w)) +
    o.mui.derT m ((o.eB src).val m u) (o.MfIᵀ *ᵥ w)

/-- The fields object of `Simulation3DElectricField`. -/
def EB.eFld (o : EB p s t ε φ) (src : SrcEB p ε φ) : (k : FldEB) → FieldFn p ε (LocEB ε φ k)
  | .e => o.eE src
  | .b => o.eB src
  | .bSecondary => o.eBs src
  | .h => o.eH src
  | .j => o.eJ src

/-- `Simulation3DElectricField`.  With a permeability map, `MfMuiDeriv(s_m)` in `getRHSDeriv` is built
from the source terms of all the sources of the frequency (line 889-891) and cannot be multiplied with
the curl when there is more than one. -/
def EB.simE (o : EB p s t ε φ) (srcs : List (SrcEB p ε φ)) : Sim p ε FldEB (LocEB ε φ) where
  A := o.eA
  aD := o.eAD
  aDT := o.eADT
  raises k := o.muiMapped && decide (2 ≤ k)
  sources := srcs.map fun src =>
    { freq := src.freq, q := o.eQ src, qD := o.eQD src, qDT := o.eQDT src, fld := o.eFld src,
      rx := src.rx }

/-! ### `Simulation3DMagneticFluxDensity` -/

/-- The system matrix before it is made symmetric (`simulation.py` 1033-1044). -/
def EB.bA0 (o : EB p s t ε φ) (f : ℚ) (m : p → ℝ) : Matrix φ φ ℂ :=
  o.C * (o.sigma.inv ℂ m * (o.Cᵀ * o.mui.mat ℂ m)) + iw f • (1 : Matrix φ φ ℂ)

/-- `getA` (`simulation.py` 1004-1048); `_makeASymmetric` is always true
(`electromagnetics/base.py` 39-43). -/
def EB.bA (o : EB p s t ε φ) (f : ℚ) (m : p → ℝ) : Matrix φ φ ℂ := (o.mui.mat ℂ m)ᵀ * o.bA0 f m

/-- `getADeriv` (`simulation.py` 1050-1223). -/
def EB.bAD (o : EB p s t ε φ) (_f : ℚ) (m : p → ℝ) (u : φ → ℂ) (v : p → ℂ) : φ → ℂ :=
  (o.mui.mat ℂ m)ᵀ *ᵥ (o.C *ᵥ o.sigma.invDer m (o.Cᵀ *ᵥ (o.mui.mat ℂ m *ᵥ u)) v +
    o.C *ᵥ (o.sigma.inv ℂ m *ᵥ (o.Cᵀ *ᵥ (o.mui.derMat m u *ᵥ v))))

/-- `getADeriv(adjoint=True)` (`simulation.py` 1050-1223). -/
def EB.bADT (o : EB p s t ε φ) (_f : ℚ) (m : p → ℝ) (u w : φ → ℂ) : p → ℂ :=
  let w := o.mui.mat ℂ m *ᵥ w
  o.sigma.invDerT m (o.Cᵀ *ᵥ (o.mui.mat ℂ m *ᵥ u)) (o.Cᵀ *ᵥ w) +
    (o.mui.derMat m u)ᵀ *ᵥ (o.C *ᵥ ((o.sigma.inv ℂ m)ᵀ *ᵥ (o.Cᵀ *ᵥ w)))

/-- The right-hand side before the premultiplication (`simulation.py` 1254-1264). -/
def EB.bQ0 (o : EB p s t ε φ) (src : SrcEB p ε φ) (m : p → ℝ) : φ → ℂ :=
  src.sm.val m + o.C *ᵥ (o.sigma.inv ℂ m *ᵥ src.se.val m)

/-- `getRHS`, one column (`simulation.py` 1225-1270). -/
def EB.bQ (o : EB p s t ε φ) (src : SrcEB p ε φ) (m : p → ℝ) : φ → ℂ :=
  (o.mui.mat ℂ m)ᵀ *ᵥ o.bQ0 src m

/-- `getRHSDeriv` (`simulation.py` 1272-1340). -/
def EB.bQD (o : EB p s t ε φ) (src : SrcEB p ε φ) (m : p → ℝ) (v : p → ℂ) : φ → ℂ :=
  (o.mui.mat ℂ m)ᵀ *ᵥ ((src.sm.d m v + o.C *ᵥ (o.sigma.inv ℂ m *ᵥ src.se.d m v)) +
    o.C *ᵥ o.sigma.invDer m (src.se.val m) v)

/-- `getRHSDeriv(adjoint=True)` (`simulation.py` 1272-1340). -/
def EB.bQDT (o : EB p s t ε φ) (src : SrcEB p ε φ) (m : p → ℝ) (w : φ → ℂ) : p → ℂ :=
  let w := o.mui.mat ℂ m *ᵥ w
  o.sigma.invDerT m (src.se.val m) (o.Cᵀ *ᵥ w) +
    (src.sm.dT m w + src.se.dT m ((o.sigma.inv ℂ m)ᵀ *ᵥ (o.Cᵀ *ᵥ w)))

/-- `b` of `Fields3DMagneticFluxDensity` (`fields.py` 775-834). -/
def EB.bB (_o : EB p s t ε φ) (src : SrcEB p ε φ) : FieldFn p φ φ where
  val m u := src.bP m + u
  du _ x := x
  duT _ w := w
  dm _ _ _ := 0
  dmT _ _ _ := 0

/-- `bSecondary` (`fields.py` 791-801, 239-256). -/
def EB.bBs (o : EB p s t ε φ) (src : SrcEB p ε φ) : FieldFn p φ φ :=
  { o.bB src with val := fun _ u => u }

/-- `e` (`fields.py` 836-930). -/
def EB.bE (o : EB p s t ε φ) (src : SrcEB p ε φ) : FieldFn p φ ε where
  val m u := src.eP.val m + o.sigma.inv ℂ m *ᵥ (o.Cᵀ *ᵥ (o.mui.mat ℂ m *ᵥ u) + -src.se.val m)
  du m x := o.sigma.inv ℂ m *ᵥ (o.Cᵀ *ᵥ (o.mui.mat ℂ m *ᵥ x))
  duT m w := (o.mui.mat ℂ m)ᵀ *ᵥ (o.C *ᵥ ((o.sigma.inv ℂ m)ᵀ *ᵥ w))
  dm m u v := o.sigma.invDer m (-src.se.val m + o.Cᵀ *ᵥ (o.mui.mat ℂ m *ᵥ u)) v +
    o.sigma.inv ℂ m *ᵥ (o.Cᵀ *ᵥ o.mui.der m u v) - o.sigma.inv ℂ m *ᵥ src.se.d m v + src.eP.d m v
  dmT m u w := o.sigma.invDerT m (-src.se.val m + o.Cᵀ *ᵥ (o.mui.mat ℂ m *ᵥ u)) w +
    o.mui.derT m u (o.C *ᵥ ((o.sigma.inv ℂ m)ᵀ *ᵥ w)) - src.se.dT m ((o.sigma.inv ℂ m)ᵀ *ᵥ w) +
    src.eP.dT m w

/-- `j` (`fields.py` 932-990): the derivative has no source term, and differentiates the permeability
at the total `b`. -/
def EB.bJ (o : EB p s t ε φ) (src : SrcEB p ε φ) : FieldFn p φ ε where
  val m u := o.MeI *ᵥ (o.Cᵀ *ᵥ (o.mui.mat ℂ m *ᵥ u) - src.se.val m)
  du m x := o.MeI *ᵥ (o.Cᵀ *ᵥ (o.mui.mat ℂ m *ᵥ x))
  duT m w := (o.mui.mat ℂ m)ᵀ *ᵥ (o.C *ᵥ (o.MeIᵀ *ᵥ w))
  dm m u v := o.MeI *ᵥ (o.Cᵀ *ᵥ o.mui.der m ((o.bB src).val m u) v)
  dmT m u w := o.mui.derT m ((o.bB src).val m u) (o.C *ᵥ (o.MeIᵀ *ᵥ w))

/-- `h` (`fields.py` 992-1038). -/
def EB.bH (o : EB p s t ε φ) (src : SrcEB p ε φ) : FieldFn p φ φ where
  val m u := o.MfI *ᵥ (o.mui.mat ℂ m *ᵥ (o.bB src).val m u)
  du m x := o.MfI *ᵥ (o.mui.mat ℂ m *ᵥ x)
  duT m w := (o.mui.mat ℂ m)ᵀ *ᵥ (o.MfIᵀ *ᵥ w)
  dm m u v := o.MfI *ᵥ o.mui.der m ((o.bB src).val m u) v
  dmT m u w := o.mui.derT m ((o.bB src).val m u) (o.MfIᵀ *ᵥ w)

/-- The fields object of `Simulation3DMagneticFluxDensity`. -/
def EB.bFld (o : EB p s t ε φ) (src : SrcEB p ε φ) : (k : FldEB) → FieldFn p φ (LocEB ε φ k)
  | .e => o.bE src
  | .b => o.bB src
  | .bSecondary => o.bBs src
  | .h => o.bH src
  | .j => o.bJ src

/-- `Simulation3DMagneticFluxDensity`. -/
def EB.simB (o : EB p s t ε φ) (srcs : List (SrcEB p ε φ)) : Sim p φ FldEB (LocEB ε φ) where
  A := o.bA
  aD := o.bAD
  aDT := o.bADT
  raises _ := false
  sources := srcs.map fun src =>
    { freq := src.freq, q := o.bQ src, qD := o.bQD src, qDT := o.bQDT src, fld := o.bFld src,
      rx := src.rx }

end

end Verif.FDEM

namespace Verif.FDEM.Props
open Matrix Verif.FDEM Verif.EM Verif.EM.Props Verif.Flow.Richards.Props

noncomputable section

variable {p s t ε φ g n : Type} [Fintype p] [Fintype s] [Fintype t] [Fintype ε] [Fintype φ]
  [Fintype g] [Fintype n] [DecidableEq n] [DecidableEq ε] [DecidableEq φ]
variable {K : Type} {L : K → Type} [∀ k, Fintype (L k)]

set_option linter.unusedSectionVars false

/-! ### Specification -/

/-- A source term or primary field which is differentiated correctly, with a correct adjoint. -/
def Term.Exact (τ : Term p g) (m : p → ℝ) : Prop :=
  ∃ D : Matrix g p ℂ, IsJacK τ.val D m ∧ (∀ v, τ.d m v = D *ᵥ v) ∧ ∀ w, τ.dT m w = Dᵀ *ᵥ w

/-- A term which does not depend on the model, and whose derivatives are zero. -/
def Term.Fixed (τ : Term p g) : Prop :=
  (∀ m m', τ.val m = τ.val m') ∧ (∀ m v, τ.d m v = 0) ∧ ∀ m w, τ.dT m w = 0

/-- The sensitivities of a simulation are right at the model `m`: `Jvec` returns the derivative of the
predicted data, receiver by receiver and in survey order; `Jtvec` is its adjoint; the rows of `getJ`
are those of the same matrix. -/
structure SensitivitiesCorrect (S : Sim p n K L) (m : p → ℝ) : Prop where
  exact : ∃ J : (s : Src p n K L) → (r : Rx K L) → Matrix (Fin r.nD) p ℝ,
    IsDataJacobian S m J ∧
    ∀ v, S.Jvec m v = .ok (blocks (S.sources.map fun s =>
      s.rx.flatMap fun r => List.ofFn (J s r *ᵥ v)))
  adjoint : ∃ (Jv : (p → ℝ) → List (List ℝ)) (Jt : List ℝ → p → ℝ),
    (∀ v, S.Jvec m v = .ok (blocks (Jv v))) ∧ (∀ w, S.Jtvec m w = .ok (Jt w)) ∧
    ∀ v w, dotList (Jv v).flatten w = Jt w ⬝ᵥ v
  rows : ∃ rows : List (List (p → ℝ)), S.getJ m = .ok (rows.map some) ∧
    ∀ v, S.Jvec m v = .ok (blocks (rows.map fun l => l.map fun row => row ⬝ᵥ v))

/-! ### Auxiliary facts -/

theorem correct_of (S : Sim p n K L) (m : p → ℝ) (hok : S.fails = false)
    (hS : ∀ s ∈ S.sources, SystemExact S m s) (hA : ∀ s ∈ S.sources, SystemAdjoint S m s)
    (hF : ∀ s ∈ S.sources, ∀ r ∈ s.rx, FieldExact (s.fld r.field) m (S.sol m s))
    (hT : ∀ s ∈ S.sources, ∀ r ∈ s.rx, FieldAdjoint (s.fld r.field) m (S.sol m s)) :
    SensitivitiesCorrect S m :=
  ⟨jvec_exact S m hok hS hF, jtvec_adjoint S m hok hA hT, getJ_rows S m hok hA hT⟩

/-- A matrix function is differentiable entry by entry if its products with vectors are. -/
theorem entries_diff {A : (p → ℝ) → Matrix g n ℂ} {m : p → ℝ}
    (h : ∀ u, ∃ J, IsJacK (fun y => A y *ᵥ u) J m) (i : g) (j : n) :
    DifferentiableAt ℝ (fun y => A y i j) m := by
  obtain ⟨J, hJ⟩ := h (Pi.single j 1)
  have h1 := hJ.differentiableAt i
  simpa [Matrix.mulVec_single_one] using h1

theorem Term.Fixed.exact {τ : Term p g} (h : Term.Fixed τ) (m : p → ℝ) : Term.Exact τ m := by
  refine ⟨0, ?_, ?_, ?_⟩
  · exact IsJacK.congr (isJacK_const (τ.val m) m) (Filter.Eventually.of_forall fun y => h.1 y m)
  · intro v; simp [h.2.1]
  · intro w; simp [h.2.2]

theorem fixed_jac {f : (p → ℝ) → g → ℂ} (h : ∀ m m', f m = f m') (m : p → ℝ) :
    IsJacK f (0 : Matrix g p ℂ) m :=
  IsJacK.congr (isJacK_const (f m) m) (Filter.Eventually.of_forall fun y => h y m)

theorem no_shared (srcs : List ℚ) (h : srcs.Nodup) (f : ℚ) : srcs.countP (fun x => x = f) ≤ 1 := by
  have h1 : srcs.countP (fun x => decide (x = f)) = srcs.count f := by
    rw [List.count]
    refine List.countP_congr fun x _ => ?_
    simp
  rw [h1]
  exact List.nodup_iff_count_le_one.1 h f

/-! ### The electric field formulation -/

section electric
variable {o : EB p s t ε φ} {m : p → ℝ}

theorem eA_jac (hm : Good o.mui m) (hs : Good o.sigma m) (f : ℚ) (u : ε → ℂ) :
    IsJacK (fun y => o.eA f y *ᵥ u)
      (iw f • o.sigma.derMat m u + o.Cᵀ * o.mui.derMat m (o.C *ᵥ u)) m := by
  have h1 := (derMat_jac (𝕜 := ℂ) hm (o.C *ᵥ u)).mulVec o.Cᵀ
  have h2 := (derMat_jac (𝕜 := ℂ) hs u).smul (iw f)
  rw [add_comm]
  refine IsJacK.congr (h1.add h2) (Filter.Eventually.of_forall fun y => ?_)
  simp only [EB.eA, Matrix.add_mulVec, Matrix.smul_mulVec, ← Matrix.mulVec_mulVec]

theorem eA_symm (hm : Good o.mui m) (hs : Good o.sigma m) (f : ℚ) : (o.eA f m)ᵀ = o.eA f m := by
  simp only [EB.eA, Matrix.transpose_add, Matrix.transpose_mul, Matrix.transpose_transpose,
    Matrix.transpose_smul, mat_transpose hm, mat_transpose hs, Matrix.mul_assoc]

theorem e_system (hm : Good o.mui m) (hs : Good o.sigma m) (srcs : List (SrcEB p ε φ))
    (src : SrcEB p ε φ) (hdet : (o.eA src.freq m).det ≠ 0) (hsm : Term.Exact src.sm m)
    (hse : Term.Exact src.se m) :
    let s' : Src p ε FldEB (LocEB ε φ) :=
      { freq := src.freq, q := o.eQ src, qD := o.eQD src, qDT := o.eQDT src, fld := o.eFld src,
        rx := src.rx }
    SystemExact (o.simE srcs) m s' ∧ SystemAdjoint (o.simE srcs) m s' := by
  intro s'
  obtain ⟨Dm, jm, dm, tm⟩ := hsm
  obtain ⟨De, je, de, te⟩ := hse
  set u := (o.simE srcs).sol m s'
  have hv : ∀ v, -(o.eAD src.freq m u v) + o.eQD src m v =
      (o.Cᵀ * (o.mui.derMat m (src.sm.val m) + o.mui.mat ℂ m * Dm) - iw src.freq • De -
        (iw src.freq • o.sigma.derMat m u + o.Cᵀ * o.mui.derMat m (o.C *ᵥ u))) *ᵥ v := by
    intro v
    simp only [EB.eAD, EB.eQD, der_eq, dm, de, Matrix.sub_mulVec, Matrix.add_mulVec,
      Matrix.smul_mulVec, ← Matrix.mulVec_mulVec, Matrix.mulVec_add]
    abel
  refine ⟨⟨entries_diff fun u => ⟨_, eA_jac hm hs src.freq u⟩, hdet, _, ?_, hv⟩,
    ⟨eA_symm hm hs src.freq, _, hv, ?_⟩⟩
  · exact ((((mat_jac hm jm).mulVec o.Cᵀ).sub (je.smul (iw src.freq))).sub
      (eA_jac hm hs src.freq u))
  · intro w
    change -(o.eADT src.freq m u w) + o.eQDT src m w = _
    simp only [EB.eADT, EB.eQDT, derT_eq, tm, te, Matrix.transpose_sub, Matrix.transpose_add,
      Matrix.transpose_mul, Matrix.transpose_smul, Matrix.transpose_transpose, mat_transpose hm,
      Matrix.sub_mulVec, Matrix.add_mulVec, Matrix.smul_mulVec, ← Matrix.mulVec_mulVec]
    abel

theorem eE_exact (src : SrcEB p ε φ) (u : ε → ℂ) (h : Term.Exact src.eP m) :
    FieldExact (o.eE src) m u ∧ FieldAdjoint (o.eE src) m u := by
  obtain ⟨D, j, d, dt⟩ := h
  refine ⟨⟨1, D, ?_, ?_, d⟩, ⟨1, D, ?_, d, ?_, dt⟩⟩
  · intro U dU hU hJ
    rw [Matrix.one_mul, add_comm]
    exact j.add hJ
  all_goals intro x; simp [EB.eE]

theorem eBs_exact (src : SrcEB p ε φ) (u : ε → ℂ) (h : Term.Exact src.sm m) :
    FieldExact (o.eBs src) m u ∧ FieldAdjoint (o.eBs src) m u := by
  obtain ⟨D, j, d, dt⟩ := h
  refine ⟨⟨(-1 / iw src.freq) • o.C, (1 / iw src.freq) • D, ?_, ?_, ?_⟩,
    ⟨(-1 / iw src.freq) • o.C, (1 / iw src.freq) • D, ?_, ?_, ?_, ?_⟩⟩
  · intro U dU hU hJ
    rw [Matrix.smul_mul]
    exact ((hJ.mulVec o.C).smul _).add (j.smul _)
  all_goals
    intro x
    simp [EB.eBs, d, dt, Matrix.smul_mulVec, Matrix.transpose_smul]

theorem eB_exact (src : SrcEB p ε φ) (u : ε → ℂ) (h : Term.Exact src.sm m)
    (hb : ∀ m m', src.bP m = src.bP m') :
    FieldExact (o.eB src) m u ∧ FieldAdjoint (o.eB src) m u := by
  obtain ⟨⟨Du, Dm, h1, h2, h3⟩, h4⟩ := eBs_exact (o := o) src u h
  refine ⟨⟨Du, Dm, ?_, h2, h3⟩, h4⟩
  intro U dU hU hJ
  have := (fixed_jac hb m).add (h1 U dU hU hJ)
  rw [zero_add] at this
  exact this

theorem eJ_exact (hs : Good o.sigma m) (src : SrcEB p ε φ) (u : ε → ℂ) (h : Term.Fixed src.eP) :
    FieldExact (o.eJ src) m u ∧ FieldAdjoint (o.eJ src) m u := by
  refine ⟨⟨o.MeI * o.sigma.mat ℂ m, o.MeI * o.sigma.derMat m ((o.eE src).val m u), ?_, ?_, ?_⟩,
    ⟨o.MeI * o.sigma.mat ℂ m, o.MeI * o.sigma.derMat m ((o.eE src).val m u), ?_, ?_, ?_, ?_⟩⟩
  · intro U dU hU hJ
    have hE : IsJacK (fun y => (o.eE src).val y (U y)) dU m := by
      have := (fixed_jac h.1 m).add hJ
      rwa [zero_add] at this
    have := (mat_jac hs hE).mulVec o.MeI
    rw [Matrix.mul_add, hU] at this
    rw [add_comm, Matrix.mul_assoc]
    exact this
  all_goals
    intro x
    simp [EB.eJ, EB.eE, h.2.1, h.2.2, der_eq, derT_eq, Matrix.transpose_mul, Matrix.mulVec_mulVec]

theorem eH_exact (hm : Good o.mui m) (src : SrcEB p ε φ) (u : ε → ℂ) (h : Term.Exact src.sm m)
    (hb : ∀ m m', src.bP m = src.bP m') :
    FieldExact (o.eH src) m u ∧ FieldAdjoint (o.eH src) m u := by
  obtain ⟨⟨Du, Dm, h1, h2, h3⟩, ⟨Du', Dm', k1, k2, k3, k4⟩⟩ := eB_exact (o := o) src u h hb
  refine ⟨⟨o.MfI * (o.mui.mat ℂ m * Du),
      o.MfI * (o.mui.mat ℂ m * Dm) + o.MfI * o.mui.derMat m ((o.eB src).val m u), ?_, ?_, ?_⟩,
    ⟨o.MfI * (o.mui.mat ℂ m * Du'),
      o.MfI * (o.mui.mat ℂ m * Dm') + o.MfI * o.mui.derMat m ((o.eB src).val m u), ?_, ?_, ?_, ?_⟩⟩
  · intro U dU hU hJ
    have hB := h1 U dU hU hJ
    have := (mat_jac hm hB).mulVec o.MfI
    rw [hU] at this
    have e : o.MfI * (o.mui.derMat m ((o.eB src).val m u) + o.mui.mat ℂ m * (Du * dU + Dm)) =
        o.MfI * (o.mui.mat ℂ m * Du) * dU + (o.MfI * (o.mui.mat ℂ m * Dm) +
          o.MfI * o.mui.derMat m ((o.eB src).val m u)) := by
      simp only [Matrix.mul_add, Matrix.mul_assoc]
      abel
    rw [e] at this
    exact this
  · intro x
    simp only [EB.eH, h2, ← Matrix.mulVec_mulVec]
  · intro x
    simp only [EB.eH, h3, der_eq, Matrix.add_mulVec, ← Matrix.mulVec_mulVec]
  all_goals
    intro x
    simp only [EB.eH, k1, k2, k3, k4, der_eq, derT_eq, Matrix.transpose_mul,
      Matrix.transpose_add, Matrix.add_mulVec, ← Matrix.mulVec_mulVec]

/-- **C68, electric field formulation.** For every mesh operators, model, list of sources (any number
per frequency, if the permeability is not inverted for) and receivers of `e`, `b`, the secondary `b`,
`h` and `j`: the sensitivities are right, provided the maps and the source terms are differentiated
correctly, the system is regular, the primary magnetic field does not depend on the model, and neither
does the primary electric field of a source with receivers of `j`. -/
theorem C68_electric_field (o : EB p s t ε φ) (m : p → ℝ) (srcs : List (SrcEB p ε φ))
    (hm : Good o.mui m) (hs : Good o.sigma m)
    (hdet : ∀ src ∈ srcs, (o.eA src.freq m).det ≠ 0)
    (hsm : ∀ src ∈ srcs, Term.Exact src.sm m) (hse : ∀ src ∈ srcs, Term.Exact src.se m)
    (heP : ∀ src ∈ srcs, Term.Exact src.eP m)
    (hbP : ∀ src ∈ srcs, ∀ m m', src.bP m = src.bP m')
    (hj : ∀ src ∈ srcs, ∀ r ∈ src.rx, r.field = .j → Term.Fixed src.eP)
    (hone : o.muiMapped = true → (srcs.map fun src => src.freq).Nodup) :
    SensitivitiesCorrect (o.simE srcs) m := by
  have hok : (o.simE srcs).fails = false := by
    unfold Sim.fails
    rw [List.any_eq_false]
    intro s' _ hr
    simp only [EB.simE, Bool.and_eq_true, decide_eq_true_eq] at hr
    have h1 := no_shared _ (hone hr.1) s'.freq
    rw [List.countP_map] at h1
    rw [List.countP_map] at hr
    simp only [Function.comp_def] at h1 hr
    omega
  have hF : ∀ src ∈ srcs, ∀ r ∈ src.rx, ∀ u, FieldExact (o.eFld src r.field) m u ∧
      FieldAdjoint (o.eFld src r.field) m u := by
    intro src hsrc r hr u
    cases hk : r.field with
    | e => exact eE_exact (o := o) src u (heP src hsrc)
    | b => exact eB_exact (o := o) src u (hsm src hsrc) (hbP src hsrc)
    | bSecondary => exact eBs_exact (o := o) src u (hsm src hsrc)
    | h => exact eH_exact hm src u (hsm src hsrc) (hbP src hsrc)
    | j => exact eJ_exact hs src u (hj src hsrc r hr hk)
  refine correct_of _ m hok ?_ ?_ ?_ ?_
  · intro s' hs'
    obtain ⟨src, hsrc, rfl⟩ := List.mem_map.1 hs'
    exact (e_system hm hs srcs src (hdet src hsrc) (hsm src hsrc) (hse src hsrc)).1
  · intro s' hs'
    obtain ⟨src, hsrc, rfl⟩ := List.mem_map.1 hs'
    exact (e_system hm hs srcs src (hdet src hsrc) (hsm src hsrc) (hse src hsrc)).2
  · intro s' hs' r hr
    obtain ⟨src, hsrc, rfl⟩ := List.mem_map.1 hs'
    exact (hF src hsrc r hr _).1
  · intro s' hs' r hr
    obtain ⟨src, hsrc, rfl⟩ := List.mem_map.1 hs'
    exact (hF src hsrc r hr _).2

end electric

/-! ### The magnetic flux density formulation -/

section magnetic
variable {o : EB p s t ε φ} {m : p → ℝ}

theorem bA0_jac (hm : Good o.mui m) (hs : GoodInv o.sigma m) (f : ℚ) (u : φ → ℂ) :
    IsJacK (fun y => o.bA0 f y *ᵥ u)
      (o.C * (o.sigma.invDerMat m (o.Cᵀ *ᵥ (o.mui.mat ℂ m *ᵥ u)) +
        o.sigma.inv ℂ m * (o.Cᵀ * o.mui.derMat m u))) m := by
  have h1 := ((derMat_jac (𝕜 := ℂ) hm u).mulVec o.Cᵀ)
  have h2 := (inv_jac hs h1).mulVec o.C
  have h3 := h2.add (isJacK_const (iw f • u) m)
  rw [add_zero] at h3
  refine IsJacK.congr h3 (Filter.Eventually.of_forall fun y => ?_)
  simp only [EB.bA0, Matrix.add_mulVec, Matrix.smul_mulVec, ← Matrix.mulVec_mulVec, Matrix.one_mulVec]

theorem muiT_diff (hm : Good o.mui m) (i k : φ) :
    DifferentiableAt ℝ (fun y => (o.mui.mat ℂ y)ᵀ i k) m := mat_diff hm k i

theorem bA_symm (hm : Good o.mui m) (hs : Good o.sigma m) (f : ℚ) : (o.bA f m)ᵀ = o.bA f m := by
  simp only [EB.bA, EB.bA0, Matrix.transpose_add, Matrix.transpose_mul, Matrix.transpose_transpose,
    Matrix.transpose_smul, mat_transpose hm, inv_transpose hs, Matrix.mul_assoc,
    Matrix.mul_add, Matrix.mul_smul, Matrix.mul_one]

theorem b_system (hm : Good o.mui m) (hs : GoodInv o.sigma m) (srcs : List (SrcEB p ε φ))
    (src : SrcEB p ε φ) (hdet : (o.bA src.freq m).det ≠ 0) (hsm : Term.Exact src.sm m)
    (hse : Term.Exact src.se m) :
    let s' : Src p φ FldEB (LocEB ε φ) :=
      { freq := src.freq, q := o.bQ src, qD := o.bQD src, qDT := o.bQDT src, fld := o.bFld src,
        rx := src.rx }
    SystemExact (o.simB srcs) m s' ∧ SystemAdjoint (o.simB srcs) m s' := by
  intro s'
  obtain ⟨Dm, jm, dm, tm⟩ := hsm
  obtain ⟨De, je, de, te⟩ := hse
  set u := (o.simB srcs).sol m s' with hu
  have hmu : (o.mui.mat ℂ m)ᵀ.det ≠ 0 := by
    intro h
    apply hdet
    rw [EB.bA, Matrix.det_mul, h, zero_mul]
  have hAu : o.bA src.freq m *ᵥ u = o.bQ src m := mulVec_solve hdet _
  have h0 : o.bQ0 src m - o.bA0 src.freq m *ᵥ u = 0 := by
    have h1 : (o.mui.mat ℂ m)ᵀ *ᵥ (o.bQ0 src m - o.bA0 src.freq m *ᵥ u) = 0 := by
      rw [Matrix.mulVec_sub, Matrix.mulVec_mulVec, ← EB.bA, hAu, EB.bQ, sub_self]
    have h2 := congrArg (fun x => ((o.mui.mat ℂ m)ᵀ)⁻¹ *ᵥ x) h1
    simpa [Matrix.mulVec_mulVec, Matrix.nonsing_inv_mul _ (isUnit_iff_ne_zero.2 hmu)] using h2
  have hQ0 : IsJacK (o.bQ0 src)
      (Dm + o.C * (o.sigma.invDerMat m (src.se.val m) + o.sigma.inv ℂ m * De)) m :=
    jm.add ((inv_jac hs je).mulVec o.C)
  have hv : ∀ v, -(o.bAD src.freq m u v) + o.bQD src m v =
      ((o.mui.mat ℂ m)ᵀ * (Dm + o.C * (o.sigma.invDerMat m (src.se.val m) + o.sigma.inv ℂ m * De) -
        o.C * (o.sigma.invDerMat m (o.Cᵀ *ᵥ (o.mui.mat ℂ m *ᵥ u)) +
          o.sigma.inv ℂ m * (o.Cᵀ * o.mui.derMat m u)))) *ᵥ v := by
    intro v
    simp only [EB.bAD, EB.bQD, invDer_eq, dm, de, Matrix.sub_mulVec, Matrix.add_mulVec,
      ← Matrix.mulVec_mulVec, Matrix.mulVec_add, Matrix.mulVec_sub]
    abel
  refine ⟨⟨entries_diff fun u => ?_, hdet, _, ?_, hv⟩,
    ⟨bA_symm hm hs.toGood src.freq, _, hv, ?_⟩⟩
  · have h1 := bA0_jac (o := o) hm hs src.freq u
    have h2 := mat_jac hm h1
    refine ⟨_, IsJacK.congr h2 (Filter.Eventually.of_forall fun y => ?_)⟩
    have hT : (o.mui.mat ℂ y)ᵀ = o.mui.mat ℂ y := PDE.Props.mat_symm hm.symm _
    change o.bA src.freq y *ᵥ u = _
    rw [EB.bA, hT, ← Matrix.mulVec_mulVec]
  · have h1 := IsJacK.matMul_zero (M := fun y => (o.mui.mat ℂ y)ᵀ) (muiT_diff hm)
      (hQ0.sub (bA0_jac (o := o) hm hs src.freq u)) h0
    refine IsJacK.congr h1 (Filter.Eventually.of_forall fun y => ?_)
    change o.bQ src y - o.bA src.freq y *ᵥ u = _
    rw [EB.bQ, EB.bA, Matrix.mulVec_sub, Matrix.mulVec_mulVec]
  · intro w
    change -(o.bADT src.freq m u w) + o.bQDT src m w = _
    simp only [EB.bADT, EB.bQDT, invDerT_eq, tm, te, Matrix.transpose_sub, Matrix.transpose_add,
      Matrix.transpose_mul, Matrix.transpose_transpose, Matrix.sub_mulVec, Matrix.add_mulVec,
      ← Matrix.mulVec_mulVec]
    abel

theorem bB_exact (src : SrcEB p ε φ) (u : φ → ℂ) (hb : ∀ m m', src.bP m = src.bP m') :
    FieldExact (o.bB src) m u ∧ FieldAdjoint (o.bB src) m u := by
  refine ⟨⟨1, 0, ?_, ?_, ?_⟩, ⟨1, 0, ?_, ?_, ?_, ?_⟩⟩
  · intro U dU hU hJ
    rw [Matrix.one_mul, add_comm]
    exact (fixed_jac hb m).add hJ
  all_goals intro x; simp [EB.bB]

theorem bBs_exact (src : SrcEB p ε φ) (u : φ → ℂ) :
    FieldExact (o.bBs src) m u ∧ FieldAdjoint (o.bBs src) m u := by
  refine ⟨⟨1, 0, ?_, ?_, ?_⟩, ⟨1, 0, ?_, ?_, ?_, ?_⟩⟩
  · intro U dU hU hJ
    rw [Matrix.one_mul, add_zero]
    exact hJ
  all_goals intro x; simp [EB.bBs, EB.bB]

theorem bE_exact (hm : Good o.mui m) (hs : GoodInv o.sigma m) (src : SrcEB p ε φ) (u : φ → ℂ)
    (hse : Term.Exact src.se m) (heP : Term.Exact src.eP m) :
    FieldExact (o.bE src) m u ∧ FieldAdjoint (o.bE src) m u := by
  obtain ⟨De, je, de, te⟩ := hse
  obtain ⟨Dp, jp, dp, tp⟩ := heP
  refine ⟨⟨o.sigma.inv ℂ m * (o.Cᵀ * o.mui.mat ℂ m),
      o.sigma.invDerMat m (-src.se.val m + o.Cᵀ *ᵥ (o.mui.mat ℂ m *ᵥ u)) +
        o.sigma.inv ℂ m * (o.Cᵀ * o.mui.derMat m u) - o.sigma.inv ℂ m * De + Dp, ?_, ?_, ?_⟩,
    ⟨o.sigma.inv ℂ m * (o.Cᵀ * o.mui.mat ℂ m),
      o.sigma.invDerMat m (-src.se.val m + o.Cᵀ *ᵥ (o.mui.mat ℂ m *ᵥ u)) +
        o.sigma.inv ℂ m * (o.Cᵀ * o.mui.derMat m u) - o.sigma.inv ℂ m * De + Dp, ?_, ?_, ?_, ?_⟩⟩
  · intro U dU hU hJ
    have h1 := ((mat_jac hm hJ).mulVec o.Cᵀ).add je.neg
    have h2 := jp.add (inv_jac hs h1)
    rw [hU] at h2
    have e : Dp + (o.sigma.invDerMat m (o.Cᵀ *ᵥ (o.mui.mat ℂ m *ᵥ u) + -src.se.val m) +
        o.sigma.inv ℂ m * (o.Cᵀ * (o.mui.derMat m u + o.mui.mat ℂ m * dU) + -De)) =
        o.sigma.inv ℂ m * (o.Cᵀ * o.mui.mat ℂ m) * dU +
        (o.sigma.invDerMat m (-src.se.val m + o.Cᵀ *ᵥ (o.mui.mat ℂ m *ᵥ u)) +
        o.sigma.inv ℂ m * (o.Cᵀ * o.mui.derMat m u) - o.sigma.inv ℂ m * De + Dp) := by
      rw [add_comm (-src.se.val m)]
      simp only [Matrix.mul_add, Matrix.mul_neg, Matrix.mul_assoc]
      abel
    rw [e] at h2
    exact h2
  all_goals
    intro x
    simp only [EB.bE, de, te, dp, tp, der_eq, derT_eq, invDer_eq, invDerT_eq, Matrix.transpose_mul,
      Matrix.transpose_add, Matrix.transpose_sub, Matrix.transpose_transpose, Matrix.add_mulVec,
      Matrix.sub_mulVec, ← Matrix.mulVec_mulVec]

/-- The electric source term varies with the model only as the code of `_jDeriv_m` assumes: through the
permeability in `-Cᵀ M(μ⁻¹) b_primary`. -/
def JTermOk (o : EB p s t ε φ) (m : p → ℝ) (src : SrcEB p ε φ) : Prop :=
  IsJacK src.se.val (-(o.Cᵀ * o.mui.derMat m (src.bP m))) m

theorem derMat_add (M : Mass p t φ) (m : p → ℝ) (a b : φ → ℂ) :
    M.derMat m (a + b) = M.derMat m a + M.derMat m b := by
  unfold Mass.derMat PDE.stash
  cases M.fast with
  | true => simp [PDE.Stash.toMat, ← Matrix.add_mul, Pi.add_def]
  | false =>
    simp only [PDE.Stash.toMat, Bool.false_eq_true, if_false]
    rw [← Matrix.add_mul]
    congr 1
    ext i j
    simp [PDE.Inner.deriv, mul_add, Finset.sum_add_distrib]

theorem bJ_exact (hm : Good o.mui m) (src : SrcEB p ε φ) (u : φ → ℂ) (hj : JTermOk o m src) :
    FieldExact (o.bJ src) m u := by
  refine ⟨o.MeI * (o.Cᵀ * o.mui.mat ℂ m), o.MeI * (o.Cᵀ * o.mui.derMat m ((o.bB src).val m u)),
    ?_, ?_, ?_⟩
  · intro U dU hU hJ
    have h1 := (((mat_jac hm hJ).mulVec o.Cᵀ).sub hj).mulVec o.MeI
    rw [hU] at h1
    have e : o.MeI * (o.Cᵀ * (o.mui.derMat m u + o.mui.mat ℂ m * dU) -
        -(o.Cᵀ * o.mui.derMat m (src.bP m))) =
        o.MeI * (o.Cᵀ * o.mui.mat ℂ m) * dU +
          o.MeI * (o.Cᵀ * o.mui.derMat m ((o.bB src).val m u)) := by
      have : (o.bB src).val m u = src.bP m + u := rfl
      rw [this, derMat_add]
      simp only [Matrix.mul_add, Matrix.mul_sub, Matrix.mul_neg, Matrix.mul_assoc]
      abel
    rw [e] at h1
    exact h1
  all_goals
    intro x
    simp only [EB.bJ, der_eq, ← Matrix.mulVec_mulVec]

theorem bJ_adjoint (src : SrcEB p ε φ) (u : φ → ℂ) : FieldAdjoint (o.bJ src) m u := by
  refine ⟨o.MeI * (o.Cᵀ * o.mui.mat ℂ m), o.MeI * (o.Cᵀ * o.mui.derMat m ((o.bB src).val m u)),
    ?_, ?_, ?_, ?_⟩
  all_goals
    intro x
    simp only [EB.bJ, der_eq, derT_eq, Matrix.transpose_mul, Matrix.transpose_transpose,
      ← Matrix.mulVec_mulVec]

theorem bH_exact (hm : Good o.mui m) (src : SrcEB p ε φ) (u : φ → ℂ)
    (hb : ∀ m m', src.bP m = src.bP m') :
    FieldExact (o.bH src) m u ∧ FieldAdjoint (o.bH src) m u := by
  refine ⟨⟨o.MfI * o.mui.mat ℂ m, o.MfI * o.mui.derMat m ((o.bB src).val m u), ?_, ?_, ?_⟩,
    ⟨o.MfI * o.mui.mat ℂ m, o.MfI * o.mui.derMat m ((o.bB src).val m u), ?_, ?_, ?_, ?_⟩⟩
  · intro U dU hU hJ
    have hB : IsJacK (fun y => (o.bB src).val y (U y)) dU m := by
      have := (fixed_jac hb m).add hJ
      rwa [zero_add] at this
    have h1 := (mat_jac hm hB).mulVec o.MfI
    rw [hU, Matrix.mul_add, ← Matrix.mul_assoc] at h1
    rw [add_comm]
    exact h1
  all_goals
    intro x
    simp only [EB.bH, der_eq, derT_eq, Matrix.transpose_mul, ← Matrix.mulVec_mulVec]

/-- **C68, magnetic flux density formulation.** For every mesh operators, model, list of sources and
receivers of `e`, `b`, the secondary `b`, `h` and `j`: the sensitivities are right, provided the maps
and the source terms are differentiated correctly, the inner product of the conductivity is diagonal,
the system is regular, the primary magnetic field does not depend on the model, and the electric source
term of a source with receivers of `j` varies only with the permeability of its primary field. -/
theorem C68_magnetic_flux_density (o : EB p s t ε φ) (m : p → ℝ) (srcs : List (SrcEB p ε φ))
    (hm : Good o.mui m) (hs : GoodInv o.sigma m)
    (hdet : ∀ src ∈ srcs, (o.bA src.freq m).det ≠ 0)
    (hsm : ∀ src ∈ srcs, Term.Exact src.sm m) (hse : ∀ src ∈ srcs, Term.Exact src.se m)
    (heP : ∀ src ∈ srcs, Term.Exact src.eP m)
    (hbP : ∀ src ∈ srcs, ∀ m m', src.bP m = src.bP m')
    (hj : ∀ src ∈ srcs, ∀ r ∈ src.rx, r.field = .j → JTermOk o m src) :
    SensitivitiesCorrect (o.simB srcs) m := by
  have hok : (o.simB srcs).fails = false := by
    unfold Sim.fails
    rw [List.any_eq_false]
    intro s' _ hr
    simp [EB.simB] at hr
  have hF : ∀ src ∈ srcs, ∀ r ∈ src.rx, ∀ u, FieldExact (o.bFld src r.field) m u ∧
      FieldAdjoint (o.bFld src r.field) m u := by
    intro src hsrc r hr u
    cases hk : r.field with
    | e => exact bE_exact hm hs src u (hse src hsrc) (heP src hsrc)
    | b => exact bB_exact (o := o) src u (hbP src hsrc)
    | bSecondary => exact bBs_exact (o := o) src u
    | h => exact bH_exact hm src u (hbP src hsrc)
    | j => exact ⟨bJ_exact hm src u (hj src hsrc r hr hk), bJ_adjoint src u⟩
  refine correct_of _ m hok ?_ ?_ ?_ ?_
  · intro s' hs'
    obtain ⟨src, hsrc, rfl⟩ := List.mem_map.1 hs'
    exact (b_system hm hs srcs src (hdet src hsrc) (hsm src hsrc) (hse src hsrc)).1
  · intro s' hs'
    obtain ⟨src, hsrc, rfl⟩ := List.mem_map.1 hs'
    exact (b_system hm hs srcs src (hdet src hsrc) (hsm src hsrc) (hse src hsrc)).2
  · intro s' hs' r hr
    obtain ⟨src, hsrc, rfl⟩ := List.mem_map.1 hs'
    exact (hF src hsrc r hr _).1
  · intro s' hs' r hr
    obtain ⟨src, hsrc, rfl⟩ := List.mem_map.1 hs'
    exact (hF src hsrc r hr _).2

end magnetic

end

end Verif.FDEM.Props
