import Verif.FDEM.EB

/-!
The current density and magnetic field formulations of the frequency domain simulation
(`simpeg/electromagnetics/frequency_domain/simulation.py` 1348-2187) and their fields objects
(`fields.py` 1058-1819).

Simplified: as for the EB formulations; moreover `s_eDeriv`, `ePrimaryDeriv` are zero, as they are for
every source of the code in these formulations (in `getRHSDeriv` of the magnetic field formulation the
adjoint of another `s_eDeriv` would be applied to a vector of the wrong size, line 2187).
-/

namespace Verif.FDEM
open Matrix Verif.EM

noncomputable section

variable {p s t ε φ : Type} [Fintype p] [Fintype s] [Fintype t] [Fintype ε] [Fintype φ]
  [DecidableEq ε] [DecidableEq φ]

/-- The fields of the HJ formulations. -/
inductive FldHJ where
  | j
  | h
  | e
  | b
  deriving DecidableEq

/-- `_GLoc` (`fields.py` 1133-1139, 1562-1568). -/
@[reducible] def LocHJ (ε φ : Type) : FldHJ → Type
  | .j => φ
  | .e => φ
  | .h => ε
  | .b => ε

instance (k : FldHJ) : Fintype (LocHJ ε φ k) := by
  cases k <;> infer_instance

/-- A source of an HJ simulation. -/
structure SrcHJ (p ε φ : Type) where
  freq : ℚ
  sm : Term p ε
  se : (p → ℝ) → φ → ℂ
  jP : (p → ℝ) → φ → ℂ
  hP : (p → ℝ) → ε → ℂ
  rx : List (Rx FldHJ (LocHJ ε φ))

/-- What both HJ simulations use: edge curl, `MfRho`, `MeMu`, `MeI`, `MfI`, and whether there is a map
for the magnetic permeability. -/
structure HJ (p s t ε φ : Type) where
  curl : Matrix φ ε ℝ
  rho : Mass p s φ
  mu : Mass p t ε
  meI : Matrix ε ε ℝ
  mfI : Matrix φ φ ℝ
  muMapped : Bool

/-- `mesh.edge_curl` acting on complex vectors. -/
def HJ.C (o : HJ p s t ε φ) : Matrix φ ε ℂ := o.curl.map fun x => (x : ℂ)

/-- `MeI`. -/
def HJ.MeI (o : HJ p s t ε φ) : Matrix ε ε ℂ := o.meI.map fun x => (x : ℂ)

/-- `MfI`. -/
def HJ.MfI (o : HJ p s t ε φ) : Matrix φ φ ℂ := o.mfI.map fun x => (x : ℂ)

/-! ### `Simulation3DCurrentDensity` -/

/-- The system matrix before it is made symmetric (`simulation.py` 1484-1495). -/
def HJ.jA0 (o : HJ p s t ε φ) (f : ℚ) (m : p → ℝ) : Matrix φ φ ℂ :=
  o.C * o.mu.inv ℂ m * o.Cᵀ * o.rho.mat ℂ m + iw f • (1 : Matrix φ φ ℂ)

/-- `getA` (`simulation.py` 1456-1499). -/
def HJ.jA (o : HJ p s t ε φ) (f : ℚ) (m : p → ℝ) : Matrix φ φ ℂ := (o.rho.mat ℂ m)ᵀ * o.jA0 f m

/-- `getADeriv` (`simulation.py` 1501-1670). -/
def HJ.jAD (o : HJ p s t ε φ) (_f : ℚ) (m : p → ℝ) (u : φ → ℂ) (v : p → ℂ) : φ → ℂ :=
  (o.rho.mat ℂ m)ᵀ *ᵥ (o.C *ᵥ (o.mu.inv ℂ m *ᵥ (o.Cᵀ *ᵥ o.rho.der m u v)) +
    o.C *ᵥ (o.mu.invDerMat m (o.Cᵀ *ᵥ (o.rho.mat ℂ m *ᵥ u)) *ᵥ v))

/-- `getADeriv(adjoint=True)` (`simulation.py` 1501-1670). -/
def HJ.jADT (o : HJ p s t ε φ) (_f : ℚ) (m : p → ℝ) (u w : φ → ℂ) : p → ℂ :=
  let w := o.rho.mat ℂ m *ᵥ w
  o.rho.derT m u (o.C *ᵥ ((o.mu.inv ℂ m)ᵀ *ᵥ (o.Cᵀ *ᵥ w))) +
    (o.mu.invDerMat m (o.Cᵀ *ᵥ (o.rho.mat ℂ m *ᵥ u)))ᵀ *ᵥ (o.Cᵀ *ᵥ w)

/-- The right-hand side before the premultiplication (`simulation.py` 1701-1705). -/
def HJ.jQ0 (o : HJ p s t ε φ) (src : SrcHJ p ε φ) (m : p → ℝ) : φ → ℂ :=
  o.C *ᵥ (o.mu.inv ℂ m *ᵥ src.sm.val m) - iw src.freq • src.se m

/-- `getRHS`, one column (`simulation.py` 1672-1710). -/
def HJ.jQ (o : HJ p s t ε φ) (src : SrcHJ p ε φ) (m : p → ℝ) : φ → ℂ :=
  (o.rho.mat ℂ m)ᵀ *ᵥ o.jQ0 src m

/-- `getRHSDeriv` when the source is the only one of its frequency (`simulation.py` 1712-1788). -/
def HJ.jQD (o : HJ p s t ε φ) (src : SrcHJ p ε φ) (m : p → ℝ) (v : p → ℂ) : φ → ℂ :=
  (o.rho.mat ℂ m)ᵀ *ᵥ (o.C *ᵥ (o.mu.inv ℂ m *ᵥ src.sm.d m v +
    o.mu.invDerMat m (src.sm.val m) *ᵥ v))

/-- `getRHSDeriv(adjoint=True)` (`simulation.py` 1769-1778). -/
def HJ.jQDT (o : HJ p s t ε φ) (src : SrcHJ p ε φ) (m : p → ℝ) (w : φ → ℂ) : p → ℂ :=
  let cw := o.Cᵀ *ᵥ (o.rho.mat ℂ m *ᵥ w)
  src.sm.dT m ((o.mu.inv ℂ m)ᵀ *ᵥ cw) + (o.mu.invDerMat m (src.sm.val m))ᵀ *ᵥ cw

/-- `j` of `Fields3DCurrentDensity` (`fields.py` 1141-1213). -/
def HJ.jJ (_o : HJ p s t ε φ) (src : SrcHJ p ε φ) : FieldFn p φ φ where
  val m u := src.jP m + u
  du _ x := x
  duT _ w := w
  dm _ _ _ := 0
  dmT _ _ _ := 0

/-- `h` (`fields.py` 1215-1345). -/
def HJ.jH (o : HJ p s t ε φ) (src : SrcHJ p ε φ) : FieldFn p φ ε where
  val m u := src.hP m + o.mu.inv ℂ m *ᵥ ((-1 / iw src.freq) • (o.Cᵀ *ᵥ (o.rho.mat ℂ m *ᵥ u)) +
    (1 / iw src.freq) • src.sm.val m)
  du m x := (-1 / iw src.freq) • (o.mu.inv ℂ m *ᵥ (o.Cᵀ *ᵥ (o.rho.mat ℂ m *ᵥ x)))
  duT m w := (-1 / iw src.freq) • ((o.rho.mat ℂ m)ᵀ *ᵥ (o.C *ᵥ ((o.mu.inv ℂ m)ᵀ *ᵥ w)))
  dm m u v := (1 / iw src.freq) • (-(o.mu.inv ℂ m *ᵥ (o.Cᵀ *ᵥ o.rho.der m u v) +
    o.mu.invDerMat m (o.Cᵀ *ᵥ (o.rho.mat ℂ m *ᵥ u)) *ᵥ v) + o.mu.inv ℂ m *ᵥ src.sm.d m v +
    o.mu.invDerMat m (src.sm.val m) *ᵥ v)
  dmT m u w := (1 / iw src.freq) • (-((o.rho.derMat m u)ᵀ *ᵥ (o.C *ᵥ ((o.mu.inv ℂ m)ᵀ *ᵥ w)) +
    (o.mu.invDerMat m (o.Cᵀ *ᵥ (o.rho.mat ℂ m *ᵥ u)))ᵀ *ᵥ w) + src.sm.dT m ((o.mu.inv ℂ m)ᵀ *ᵥ w) +
    (o.mu.invDerMat m (src.sm.val m))ᵀ *ᵥ w)

/-- `e` (`fields.py` 1347-1401): the value uses the total current density, the derivative only the
solution. -/
def HJ.jE (o : HJ p s t ε φ) (src : SrcHJ p ε φ) : FieldFn p φ φ where
  val m u := o.MfI *ᵥ (o.rho.mat ℂ m *ᵥ (o.jJ src).val m u)
  du m x := o.MfI *ᵥ (o.rho.mat ℂ m *ᵥ x)
  duT m w := (o.rho.mat ℂ m)ᵀ *ᵥ (o.MfIᵀ *ᵥ w)
  dm m u v := o.MfI *ᵥ (o.rho.derMat m u *ᵥ v)
  dmT m u w := (o.rho.derMat m u)ᵀ *ᵥ (o.MfIᵀ *ᵥ w)

/-- `b` (`fields.py` 1403-1465): the derivative is that of the right-hand side of Faraday's law. -/
def HJ.jB (o : HJ p s t ε φ) (src : SrcHJ p ε φ) : FieldFn p φ ε where
  val m u := o.MeI *ᵥ (o.mu.mat ℂ m *ᵥ (o.jH src).val m u)
  du m x := (-1 / iw src.freq) • (o.MeI *ᵥ (o.Cᵀ *ᵥ (o.rho.mat ℂ m *ᵥ x)))
  duT m w := (-1 / iw src.freq) • ((o.rho.mat ℂ m)ᵀ *ᵥ (o.C *ᵥ (o.MeIᵀ *ᵥ w)))
  dm m u v := (1 / iw src.freq) • (o.MeI *ᵥ (src.sm.d m v - o.Cᵀ *ᵥ o.rho.der m u v))
  dmT m u w := (1 / iw src.freq) • (src.sm.dT m (o.MeIᵀ *ᵥ w) -
    o.rho.derT m u (o.C *ᵥ (o.MeIᵀ *ᵥ w)))

/-- The fields object of `Simulation3DCurrentDensity`. -/
def HJ.jFld (o : HJ p s t ε φ) (src : SrcHJ p ε φ) : (k : FldHJ) → FieldFn p φ (LocHJ ε φ k)
  | .j => o.jJ src
  | .h => o.jH src
  | .e => o.jE src
  | .b => o.jB src

/-- `Simulation3DCurrentDensity`.  With a permeability map, `MeMuIDeriv(s_m)` in `getRHSDeriv` is built
from the source terms of all the sources of the frequency (line 1767) and cannot be used when there is
more than one. -/
def HJ.simJ (o : HJ p s t ε φ) (srcs : List (SrcHJ p ε φ)) : Sim p φ FldHJ (LocHJ ε φ) where
  A := o.jA
  aD := o.jAD
  aDT := o.jADT
  raises k := o.muMapped && decide (2 ≤ k)
  sources := srcs.map fun src =>
    { freq := src.freq, q := o.jQ src, qD := o.jQD src, qDT := o.jQDT src, fld := o.jFld src,
      rx := src.rx }

/-! ### `Simulation3DMagneticField` -/

/-- `getA` (`simulation.py` 1891-1929). -/
def HJ.hA (o : HJ p s t ε φ) (f : ℚ) (m : p → ℝ) : Matrix ε ε ℂ :=
  o.Cᵀ * (o.rho.mat ℂ m * o.C) + iw f • o.mu.mat ℂ m

/-- `getADeriv` (`simulation.py` 1931-2080). -/
def HJ.hAD (o : HJ p s t ε φ) (f : ℚ) (m : p → ℝ) (u : ε → ℂ) (v : p → ℂ) : ε → ℂ :=
  o.Cᵀ *ᵥ o.rho.der m (o.C *ᵥ u) v + iw f • (o.mu.derMat m u *ᵥ v)

/-- `getADeriv(adjoint=True)` (`simulation.py` 1931-2080). -/
def HJ.hADT (o : HJ p s t ε φ) (f : ℚ) (m : p → ℝ) (u w : ε → ℂ) : p → ℂ :=
  o.rho.derT m (o.C *ᵥ u) (o.C *ᵥ w) + iw f • ((o.mu.derMat m u)ᵀ *ᵥ w)

/-- `getRHS`, one column (`simulation.py` 2082-2122). -/
def HJ.hQ (o : HJ p s t ε φ) (src : SrcHJ p ε φ) (m : p → ℝ) : ε → ℂ :=
  src.sm.val m + o.Cᵀ *ᵥ (o.rho.mat ℂ m *ᵥ src.se m)

/-- `getRHSDeriv` (`simulation.py` 2124-2187). -/
def HJ.hQD (o : HJ p s t ε φ) (src : SrcHJ p ε φ) (m : p → ℝ) (v : p → ℂ) : ε → ℂ :=
  o.Cᵀ *ᵥ o.rho.der m (src.se m) v + src.sm.d m v

/-- `getRHSDeriv(adjoint=True)` (`simulation.py` 2124-2187). -/
def HJ.hQDT (o : HJ p s t ε φ) (src : SrcHJ p ε φ) (m : p → ℝ) (w : ε → ℂ) : p → ℂ :=
  o.rho.derT m (src.se m) (o.C *ᵥ w) + src.sm.dT m w

/-- `h` of `Fields3DMagneticField` (`fields.py` 1570-1628). -/
def HJ.hH (_o : HJ p s t ε φ) (src : SrcHJ p ε φ) : FieldFn p ε ε where
  val m u := src.hP m + u
  du _ x := x
  duT _ w := w
  dm _ _ _ := 0
  dmT _ _ _ := 0

/-- `j` (`fields.py` 1630-1696). -/
def HJ.hJ (o : HJ p s t ε φ) (src : SrcHJ p ε φ) : FieldFn p ε φ where
  val m u := src.jP m + (o.C *ᵥ u + -src.se m)
  du _ x := o.C *ᵥ x
  duT _ w := o.Cᵀ *ᵥ w
  dm _ _ _ := 0
  dmT _ _ _ := 0

/-- `e` (`fields.py` 1698-1749): the derivative ignores the primary current density. -/
def HJ.hE (o : HJ p s t ε φ) (src : SrcHJ p ε φ) : FieldFn p ε φ where
  val m u := o.MfI *ᵥ (o.rho.mat ℂ m *ᵥ (o.hJ src).val m u)
  du m x := o.MfI *ᵥ (o.rho.mat ℂ m *ᵥ (o.C *ᵥ x))
  duT m w := o.Cᵀ *ᵥ ((o.rho.mat ℂ m)ᵀ *ᵥ (o.MfI *ᵥ w))
  dm m u v := o.MfI *ᵥ (o.rho.der m (o.C *ᵥ u) v - o.rho.der m (src.se m) v)
  dmT m u w := o.rho.derT m (o.C *ᵥ u) (o.MfIᵀ *ᵥ w) - o.rho.derT m (src.se m) (o.MfIᵀ *ᵥ w)

/-- `b` (`fields.py` 1751-1800). -/
def HJ.hB (o : HJ p s t ε φ) (src : SrcHJ p ε φ) : FieldFn p ε ε where
  val m u := o.MeI *ᵥ (o.mu.mat ℂ m *ᵥ (o.hH src).val m u)
  du m x := o.MeI *ᵥ (o.mu.mat ℂ m *ᵥ x)
  duT m w := (o.mu.mat ℂ m)ᵀ *ᵥ (o.MeIᵀ *ᵥ w)
  dm m u v := o.MeI *ᵥ o.mu.der m ((o.hH src).val m u) v
  dmT m u w := o.mu.derT m ((o.hH src).val m u) (o.MeIᵀ *ᵥ w)

/-- The fields object of `Simulation3DMagneticField`. -/
def HJ.hFld (o : HJ p s t ε φ) (src : SrcHJ p ε φ) : (k : FldHJ) → FieldFn p ε (LocHJ ε φ k)
  | .j => o.hJ src
  | .h => o.hH src
  | .e => o.hE src
  | .b => o.hB src

/-- `Simulation3DMagneticField`. -/
def HJ.simH (o : HJ p s t ε φ) (srcs : List (SrcHJ p ε φ)) : Sim p ε FldHJ (LocHJ ε φ) where
  A := o.hA
  aD := o.hAD
  aDT := o.hADT
  raises _ := false
  sources := srcs.map fun src =>
    { freq := src.freq, q := o.hQ src, qD := o.hQD src, qDT := o.hQDT src, fld := o.hFld src,
      rx := src.rx }

end

end Verif.FDEM

namespace Verif.FDEM.Props
open Matrix Verif.FDEM Verif.EM Verif.EM.Props Verif.Flow.Richards.Props

noncomputable section

variable {p s t ε φ g n : Type} [Fintype p] [Fintype s] [Fintype t] [Fintype ε] [Fintype φ]
  [Fintype g] [Fintype n] [DecidableEq n] [DecidableEq ε] [DecidableEq φ]

set_option linter.unusedSectionVars false

theorem derMat_sub (M : Mass p t φ) (m : p → ℝ) (a b : φ → ℂ) :
    M.derMat m (a - b) = M.derMat m a - M.derMat m b := by
  have h := derMat_add M m (a - b) b
  rw [sub_add_cancel] at h
  rw [h, add_sub_cancel_right]

theorem invDerMat_add {M : Mass p t φ} {m : p → ℝ} (h : GoodInv M m) (a b : φ → ℂ) :
    M.invDerMat m (a + b) = M.invDerMat m a + M.invDerMat m b := by
  refine (invDerMat_jac h (a + b)).unique ?_
  refine IsJacK.congr ((invDerMat_jac h a).add (invDerMat_jac h b))
    (Filter.Eventually.of_forall fun y => ?_)
  simp only [Matrix.mulVec_add]

theorem invDerMat_smul {M : Mass p t φ} {m : p → ℝ} (h : GoodInv M m) (c : ℂ) (a : φ → ℂ) :
    M.invDerMat m (c • a) = c • M.invDerMat m a := by
  refine (invDerMat_jac h (c • a)).unique ?_
  refine IsJacK.congr ((invDerMat_jac h a).smul c) (Filter.Eventually.of_forall fun y => ?_)
  simp only [Matrix.mulVec_smul]

theorem mul_inv_near {M : Mass p t φ} {m : p → ℝ} (h : GoodInv M m) :
    ∀ᶠ y in nhds m, M.mat ℂ y * M.inv ℂ y = 1 := by
  have h1 := (differentiableAt_det (A := fun y => M.mat ℂ y) (fun i j => mat_diff h.toGood i j)
    ).continuousAt.eventually_ne (det_ne (𝕜 := ℂ) h)
  filter_upwards [h1] with y hy
  exact Matrix.mul_nonsing_inv _ (isUnit_iff_ne_zero.2 hy)

/-! ### The current density formulation -/

section current
variable {o : HJ p s t ε φ} {m : p → ℝ}

theorem jA0_jac (hr : Good o.rho m) (hm : GoodInv o.mu m) (f : ℚ) (u : φ → ℂ) :
    IsJacK (fun y => o.jA0 f y *ᵥ u)
      (o.C * (o.mu.invDerMat m (o.Cᵀ *ᵥ (o.rho.mat ℂ m *ᵥ u)) +
        o.mu.inv ℂ m * (o.Cᵀ * o.rho.derMat m u))) m := by
  have h1 := ((derMat_jac (𝕜 := ℂ) hr u).mulVec o.Cᵀ)
  have h2 := (inv_jac hm h1).mulVec o.C
  have h3 := h2.add (isJacK_const (iw f • u) m)
  rw [add_zero] at h3
  refine IsJacK.congr h3 (Filter.Eventually.of_forall fun y => ?_)
  simp only [HJ.jA0, Matrix.add_mulVec, Matrix.smul_mulVec, ← Matrix.mulVec_mulVec, Matrix.one_mulVec]

theorem jA_symm (hr : Good o.rho m) (hm : Good o.mu m) (f : ℚ) : (o.jA f m)ᵀ = o.jA f m := by
  simp only [HJ.jA, HJ.jA0, Matrix.transpose_add, Matrix.transpose_mul, Matrix.transpose_transpose,
    Matrix.transpose_smul, mat_transpose hr, inv_transpose hm, Matrix.mul_assoc,
    Matrix.mul_add, Matrix.mul_smul, Matrix.mul_one]

theorem j_system (hr : Good o.rho m) (hm : GoodInv o.mu m) (srcs : List (SrcHJ p ε φ))
    (src : SrcHJ p ε φ) (hdet : (o.jA src.freq m).det ≠ 0) (hsm : Term.Exact src.sm m)
    (hse : ∀ m m', src.se m = src.se m') :
    let s' : Src p φ FldHJ (LocHJ ε φ) :=
      { freq := src.freq, q := o.jQ src, qD := o.jQD src, qDT := o.jQDT src, fld := o.jFld src,
        rx := src.rx }
    SystemExact (o.simJ srcs) m s' ∧ SystemAdjoint (o.simJ srcs) m s' := by
  intro s'
  obtain ⟨Dm, jm, dm, tm⟩ := hsm
  set u := (o.simJ srcs).sol m s' with hu
  have hrho : (o.rho.mat ℂ m)ᵀ.det ≠ 0 := by
    intro h
    apply hdet
    rw [HJ.jA, Matrix.det_mul, h, zero_mul]
  have hAu : o.jA src.freq m *ᵥ u = o.jQ src m := mulVec_solve hdet _
  have h0 : o.jQ0 src m - o.jA0 src.freq m *ᵥ u = 0 := by
    have h1 : (o.rho.mat ℂ m)ᵀ *ᵥ (o.jQ0 src m - o.jA0 src.freq m *ᵥ u) = 0 := by
      rw [Matrix.mulVec_sub, Matrix.mulVec_mulVec, ← HJ.jA, hAu, HJ.jQ, sub_self]
    have h2 := congrArg (fun x => ((o.rho.mat ℂ m)ᵀ)⁻¹ *ᵥ x) h1
    simpa [Matrix.mulVec_mulVec, Matrix.nonsing_inv_mul _ (isUnit_iff_ne_zero.2 hrho)] using h2
  have hQ0 : IsJacK (o.jQ0 src)
      (o.C * (o.mu.invDerMat m (src.sm.val m) + o.mu.inv ℂ m * Dm)) m := by
    have := ((inv_jac hm jm).mulVec o.C).sub ((fixed_jac hse m).smul (iw src.freq))
    rw [smul_zero, sub_zero] at this
    exact this
  have hv : ∀ v, -(o.jAD src.freq m u v) + o.jQD src m v =
      ((o.rho.mat ℂ m)ᵀ * (o.C * (o.mu.invDerMat m (src.sm.val m) + o.mu.inv ℂ m * Dm) -
        o.C * (o.mu.invDerMat m (o.Cᵀ *ᵥ (o.rho.mat ℂ m *ᵥ u)) +
          o.mu.inv ℂ m * (o.Cᵀ * o.rho.derMat m u)))) *ᵥ v := by
    intro v
    simp only [HJ.jAD, HJ.jQD, der_eq, dm, Matrix.sub_mulVec, Matrix.add_mulVec,
      ← Matrix.mulVec_mulVec, Matrix.mulVec_add, Matrix.mulVec_sub]
    abel
  refine ⟨⟨entries_diff fun u => ?_, hdet, _, ?_, hv⟩,
    ⟨jA_symm hr hm.toGood src.freq, _, hv, ?_⟩⟩
  · have h1 := jA0_jac (o := o) hr hm src.freq u
    have h2 := mat_jac hr h1
    refine ⟨_, IsJacK.congr h2 (Filter.Eventually.of_forall fun y => ?_)⟩
    have hT : (o.rho.mat ℂ y)ᵀ = o.rho.mat ℂ y := PDE.Props.mat_symm hr.symm _
    change o.jA src.freq y *ᵥ u = _
    rw [HJ.jA, hT, ← Matrix.mulVec_mulVec]
  · have h1 := IsJacK.matMul_zero (M := fun y => (o.rho.mat ℂ y)ᵀ) (fun i k => mat_diff hr k i)
      (hQ0.sub (jA0_jac (o := o) hr hm src.freq u)) h0
    refine IsJacK.congr h1 (Filter.Eventually.of_forall fun y => ?_)
    change o.jQ src y - o.jA src.freq y *ᵥ u = _
    rw [HJ.jQ, HJ.jA, Matrix.mulVec_sub, Matrix.mulVec_mulVec]
  · intro w
    change -(o.jADT src.freq m u w) + o.jQDT src m w = _
    simp only [HJ.jADT, HJ.jQDT, derT_eq, tm, Matrix.transpose_sub, Matrix.transpose_add,
      Matrix.transpose_mul, Matrix.transpose_transpose, Matrix.sub_mulVec, Matrix.add_mulVec,
      ← Matrix.mulVec_mulVec]
    abel

theorem jJ_exact (src : SrcHJ p ε φ) (u : φ → ℂ) (hj : ∀ m m', src.jP m = src.jP m') :
    FieldExact (o.jJ src) m u ∧ FieldAdjoint (o.jJ src) m u := by
  refine ⟨⟨1, 0, ?_, ?_, ?_⟩, ⟨1, 0, ?_, ?_, ?_, ?_⟩⟩
  · intro U dU hU hJ
    rw [Matrix.one_mul, add_comm]
    exact (fixed_jac hj m).add hJ
  all_goals intro x; simp [HJ.jJ]

theorem jH_exact (hr : Good o.rho m) (hm : GoodInv o.mu m) (src : SrcHJ p ε φ) (u : φ → ℂ)
    (hsm : Term.Exact src.sm m) (hh : ∀ m m', src.hP m = src.hP m') :
    FieldExact (o.jH src) m u ∧ FieldAdjoint (o.jH src) m u := by
  obtain ⟨D, j, d, dt⟩ := hsm
  have hadd := invDerMat_add (M := o.mu) (m := m) hm
  have hsmul := invDerMat_smul (M := o.mu) (m := m) hm
  set Du : Matrix ε φ ℂ := (-1 / iw src.freq) • (o.mu.inv ℂ m * (o.Cᵀ * o.rho.mat ℂ m)) with hDu
  set Dm : Matrix ε p ℂ := (1 / iw src.freq) • (-(o.mu.inv ℂ m * (o.Cᵀ * o.rho.derMat m u) +
    o.mu.invDerMat m (o.Cᵀ *ᵥ (o.rho.mat ℂ m *ᵥ u))) + o.mu.inv ℂ m * D +
    o.mu.invDerMat m (src.sm.val m)) with hDm
  have e1 : ∀ x, (o.jH src).du m x = Du *ᵥ x := by
    intro x
    simp only [HJ.jH, hDu, Matrix.smul_mulVec, ← Matrix.mulVec_mulVec]
  have e2 : ∀ v, (o.jH src).dm m u v = Dm *ᵥ v := by
    intro x
    simp only [HJ.jH, hDm, d, der_eq, Matrix.smul_mulVec, Matrix.add_mulVec, Matrix.neg_mulVec,
      ← Matrix.mulVec_mulVec]
  refine ⟨⟨Du, Dm, ?_, e1, e2⟩, ⟨Du, Dm, e1, e2, ?_, ?_⟩⟩
  · intro U dU hU hJ
    have h1 := (((mat_jac hr hJ).mulVec o.Cᵀ).smul (-1 / iw src.freq)).add (j.smul (1 / iw src.freq))
    have h2 := (fixed_jac hh m).add (inv_jac hm h1)
    rw [hU, zero_add] at h2
    refine Eq.subst (motive := fun A => IsJacK _ A m) ?_ h2
    rw [hDu, hDm, hadd, hsmul, hsmul]
    have e : (-1 / iw src.freq : ℂ) = -(1 / iw src.freq) := by ring
    rw [e]
    simp only [Matrix.mul_add, Matrix.mul_smul, Matrix.smul_mul, Matrix.mul_assoc, smul_add, smul_neg,
      neg_smul, Matrix.mul_neg, Matrix.neg_mul]
    abel
  · intro w
    simp only [HJ.jH, hDu, Matrix.transpose_smul, Matrix.transpose_mul, Matrix.transpose_transpose,
      Matrix.smul_mulVec, ← Matrix.mulVec_mulVec]
  · intro w
    simp only [HJ.jH, hDm, dt, Matrix.transpose_smul, Matrix.transpose_mul, Matrix.transpose_add,
      Matrix.transpose_neg, Matrix.transpose_transpose, Matrix.smul_mulVec, Matrix.add_mulVec,
      Matrix.neg_mulVec, ← Matrix.mulVec_mulVec]

theorem jE_exact (hr : Good o.rho m) (src : SrcHJ p ε φ) (u : φ → ℂ)
    (hj : ∀ m m', src.jP m = src.jP m') (hz : o.rho.derMat m (src.jP m) = (0 : Matrix φ p ℂ)) :
    FieldExact (o.jE src) m u ∧ FieldAdjoint (o.jE src) m u := by
  refine ⟨⟨o.MfI * o.rho.mat ℂ m, o.MfI * o.rho.derMat m u, ?_, ?_, ?_⟩,
    ⟨o.MfI * o.rho.mat ℂ m, o.MfI * o.rho.derMat m u, ?_, ?_, ?_, ?_⟩⟩
  · intro U dU hU hJ
    have hB : IsJacK (fun y => (o.jJ src).val y (U y)) dU m := by
      have := (fixed_jac hj m).add hJ
      rwa [zero_add] at this
    have h1 := (mat_jac hr hB).mulVec o.MfI
    have e : (o.jJ src).val m (U m) = src.jP m + u := by rw [hU]; rfl
    rw [e, derMat_add, hz, zero_add, Matrix.mul_add, ← Matrix.mul_assoc] at h1
    rw [add_comm]
    exact h1
  all_goals
    intro x
    simp only [HJ.jE, Matrix.transpose_mul, ← Matrix.mulVec_mulVec]

theorem jB_exact (hr : Good o.rho m) (hm : GoodInv o.mu m) (src : SrcHJ p ε φ) (u : φ → ℂ)
    (hsm : Term.Exact src.sm m) (hh : ∀ m m', src.hP m = src.hP m')
    (hz : o.mu.derMat m (src.hP m) = (0 : Matrix ε p ℂ)) :
    FieldExact (o.jB src) m u ∧ FieldAdjoint (o.jB src) m u := by
  obtain ⟨D, j, d, dt⟩ := hsm
  set Du : Matrix ε φ ℂ := (-1 / iw src.freq) • (o.MeI * (o.Cᵀ * o.rho.mat ℂ m)) with hDu
  set Dm : Matrix ε p ℂ := (1 / iw src.freq) • (o.MeI * (D - o.Cᵀ * o.rho.derMat m u)) with hDm
  have e1 : ∀ x, (o.jB src).du m x = Du *ᵥ x := by
    intro x
    simp only [HJ.jB, hDu, Matrix.smul_mulVec, ← Matrix.mulVec_mulVec]
  have e2 : ∀ v, (o.jB src).dm m u v = Dm *ᵥ v := by
    intro x
    simp only [HJ.jB, hDm, d, der_eq, Matrix.smul_mulVec, Matrix.sub_mulVec, ← Matrix.mulVec_mulVec]
  refine ⟨⟨Du, Dm, ?_, e1, e2⟩, ⟨Du, Dm, e1, e2, ?_, ?_⟩⟩
  · intro U dU hU hJ
    have h1 := (((mat_jac hr hJ).mulVec o.Cᵀ).smul (-1 / iw src.freq)).add (j.smul (1 / iw src.freq))
    have h2 := mat_jac hm.toGood (fixed_jac hh m)
    rw [hz, Matrix.mul_zero, add_zero] at h2
    have h3 := (h2.add h1).mulVec o.MeI
    rw [hU, zero_add] at h3
    have h4 := IsJacK.congr (g := fun y => (o.jB src).val y (U y)) h3 (by
      filter_upwards [mul_inv_near hm] with y hy
      simp only [HJ.jB, HJ.jH]
      rw [Matrix.mulVec_add (o.mu.mat ℂ y), Matrix.mulVec_mulVec _ (o.mu.mat ℂ y) (o.mu.inv ℂ y), hy,
        Matrix.one_mulVec])
    refine Eq.subst (motive := fun A => IsJacK _ A m) ?_ h4
    rw [hDu, hDm]
    have e : (-1 / iw src.freq : ℂ) = -(1 / iw src.freq) := by ring
    rw [e]
    simp only [Matrix.mul_add, Matrix.mul_sub, Matrix.mul_smul, Matrix.smul_mul, Matrix.mul_assoc,
      smul_add, smul_sub, neg_smul, Matrix.mul_neg, Matrix.neg_mul]
    abel
  · intro w
    simp only [HJ.jB, hDu, Matrix.transpose_smul, Matrix.transpose_mul, Matrix.transpose_transpose,
      Matrix.smul_mulVec, ← Matrix.mulVec_mulVec]
  · intro w
    simp only [HJ.jB, hDm, dt, derT_eq, Matrix.transpose_smul, Matrix.transpose_mul,
      Matrix.transpose_sub, Matrix.transpose_transpose, Matrix.smul_mulVec, Matrix.sub_mulVec,
      ← Matrix.mulVec_mulVec]

/-- **C68, current density formulation.** The sensitivities are right for receivers of `j`, `h`, `e`
and `b`, provided the maps and `s_m` are differentiated correctly, the inner product of the
permeability is diagonal, the system is regular, `s_e` and the primary fields do not depend on the
model, the resistivity of a source with receivers of `e` varies only where it has no primary current
density, and the permeability of a source with receivers of `b` only where it has no primary field; with
a permeability map there may be only one source per frequency. -/
theorem C68_current_density (o : HJ p s t ε φ) (m : p → ℝ) (srcs : List (SrcHJ p ε φ))
    (hr : Good o.rho m) (hm : GoodInv o.mu m)
    (hdet : ∀ src ∈ srcs, (o.jA src.freq m).det ≠ 0)
    (hsm : ∀ src ∈ srcs, Term.Exact src.sm m)
    (hse : ∀ src ∈ srcs, ∀ m m', src.se m = src.se m')
    (hjP : ∀ src ∈ srcs, ∀ m m', src.jP m = src.jP m')
    (hhP : ∀ src ∈ srcs, ∀ m m', src.hP m = src.hP m')
    (he : ∀ src ∈ srcs, ∀ r ∈ src.rx, r.field = .e →
      o.rho.derMat m (src.jP m) = (0 : Matrix φ p ℂ))
    (hb : ∀ src ∈ srcs, ∀ r ∈ src.rx, r.field = .b →
      o.mu.derMat m (src.hP m) = (0 : Matrix ε p ℂ))
    (hone : o.muMapped = true → (srcs.map fun src => src.freq).Nodup) :
    SensitivitiesCorrect (o.simJ srcs) m := by
  have hok : (o.simJ srcs).fails = false := by
    unfold Sim.fails
    rw [List.any_eq_false]
    intro s' _ hr
    simp only [HJ.simJ, Bool.and_eq_true, decide_eq_true_eq] at hr
    have h1 := no_shared _ (hone hr.1) s'.freq
    rw [List.countP_map] at h1
    rw [List.countP_map] at hr
    simp only [Function.comp_def] at h1 hr
    omega
  have hF : ∀ src ∈ srcs, ∀ r ∈ src.rx, ∀ u, FieldExact (o.jFld src r.field) m u ∧
      FieldAdjoint (o.jFld src r.field) m u := by
    intro src hsrc r hr' u
    cases hk : r.field with
    | j => exact jJ_exact (o := o) src u (hjP src hsrc)
    | h => exact jH_exact hr hm src u (hsm src hsrc) (hhP src hsrc)
    | e => exact jE_exact hr src u (hjP src hsrc) (he src hsrc r hr' hk)
    | b => exact jB_exact hr hm src u (hsm src hsrc) (hhP src hsrc) (hb src hsrc r hr' hk)
  refine correct_of _ m hok ?_ ?_ ?_ ?_
  · intro s' hs'
    obtain ⟨src, hsrc, rfl⟩ := List.mem_map.1 hs'
    exact (j_system hr hm srcs src (hdet src hsrc) (hsm src hsrc) (hse src hsrc)).1
  · intro s' hs'
    obtain ⟨src, hsrc, rfl⟩ := List.mem_map.1 hs'
    exact (j_system hr hm srcs src (hdet src hsrc) (hsm src hsrc) (hse src hsrc)).2
  · intro s' hs' r hr'
    obtain ⟨src, hsrc, rfl⟩ := List.mem_map.1 hs'
    exact (hF src hsrc r hr' _).1
  · intro s' hs' r hr'
    obtain ⟨src, hsrc, rfl⟩ := List.mem_map.1 hs'
    exact (hF src hsrc r hr' _).2

end current

/-! ### The magnetic field formulation -/

section magneticField
variable {o : HJ p s t ε φ} {m : p → ℝ}

theorem hA_jac (hr : Good o.rho m) (hm : Good o.mu m) (f : ℚ) (u : ε → ℂ) :
    IsJacK (fun y => o.hA f y *ᵥ u)
      (o.Cᵀ * o.rho.derMat m (o.C *ᵥ u) + iw f • o.mu.derMat m u) m := by
  have h1 := (derMat_jac (𝕜 := ℂ) hr (o.C *ᵥ u)).mulVec o.Cᵀ
  have h2 := (derMat_jac (𝕜 := ℂ) hm u).smul (iw f)
  refine IsJacK.congr (h1.add h2) (Filter.Eventually.of_forall fun y => ?_)
  simp only [HJ.hA, Matrix.add_mulVec, Matrix.smul_mulVec, ← Matrix.mulVec_mulVec]

theorem hA_symm (hr : Good o.rho m) (hm : Good o.mu m) (f : ℚ) : (o.hA f m)ᵀ = o.hA f m := by
  simp only [HJ.hA, Matrix.transpose_add, Matrix.transpose_mul, Matrix.transpose_transpose,
    Matrix.transpose_smul, mat_transpose hr, mat_transpose hm, Matrix.mul_assoc]

theorem h_system (hr : Good o.rho m) (hm : Good o.mu m) (srcs : List (SrcHJ p ε φ))
    (src : SrcHJ p ε φ) (hdet : (o.hA src.freq m).det ≠ 0) (hsm : Term.Exact src.sm m)
    (hse : ∀ m m', src.se m = src.se m') :
    let s' : Src p ε FldHJ (LocHJ ε φ) :=
      { freq := src.freq, q := o.hQ src, qD := o.hQD src, qDT := o.hQDT src, fld := o.hFld src,
        rx := src.rx }
    SystemExact (o.simH srcs) m s' ∧ SystemAdjoint (o.simH srcs) m s' := by
  intro s'
  obtain ⟨Dm, jm, dm, tm⟩ := hsm
  set u := (o.simH srcs).sol m s'
  have hv : ∀ v, -(o.hAD src.freq m u v) + o.hQD src m v =
      (Dm + o.Cᵀ * o.rho.derMat m (src.se m) -
        (o.Cᵀ * o.rho.derMat m (o.C *ᵥ u) + iw src.freq • o.mu.derMat m u)) *ᵥ v := by
    intro v
    simp only [HJ.hAD, HJ.hQD, der_eq, dm, Matrix.sub_mulVec, Matrix.add_mulVec,
      Matrix.smul_mulVec, ← Matrix.mulVec_mulVec]
    abel
  refine ⟨⟨entries_diff fun u => ⟨_, hA_jac hr hm src.freq u⟩, hdet, _, ?_, hv⟩,
    ⟨hA_symm hr hm src.freq, _, hv, ?_⟩⟩
  · have h1 := (mat_jac hr (fixed_jac hse m)).mulVec o.Cᵀ
    rw [Matrix.mul_zero, add_zero] at h1
    exact (jm.add h1).sub (hA_jac hr hm src.freq u)
  · intro w
    change -(o.hADT src.freq m u w) + o.hQDT src m w = _
    simp only [HJ.hADT, HJ.hQDT, derT_eq, tm, Matrix.transpose_sub, Matrix.transpose_add,
      Matrix.transpose_mul, Matrix.transpose_smul, Matrix.transpose_transpose,
      Matrix.sub_mulVec, Matrix.add_mulVec, Matrix.smul_mulVec, ← Matrix.mulVec_mulVec]
    abel

theorem hH_exact (src : SrcHJ p ε φ) (u : ε → ℂ) (hh : ∀ m m', src.hP m = src.hP m') :
    FieldExact (o.hH src) m u ∧ FieldAdjoint (o.hH src) m u := by
  refine ⟨⟨1, 0, ?_, ?_, ?_⟩, ⟨1, 0, ?_, ?_, ?_, ?_⟩⟩
  · intro U dU hU hJ
    rw [Matrix.one_mul, add_comm]
    exact (fixed_jac hh m).add hJ
  all_goals intro x; simp [HJ.hH]

theorem hJ_jac (src : SrcHJ p ε φ) (hse : ∀ m m', src.se m = src.se m')
    (hj : ∀ m m', src.jP m = src.jP m') {U : (p → ℝ) → ε → ℂ} {dU : Matrix ε p ℂ}
    (hJ : IsJacK U dU m) : IsJacK (fun y => (o.hJ src).val y (U y)) (o.C * dU) m := by
  have h1 := (fixed_jac hj m).add ((hJ.mulVec o.C).add (fixed_jac hse m).neg)
  rw [zero_add, neg_zero, add_zero] at h1
  exact h1

theorem hJ_exact (src : SrcHJ p ε φ) (u : ε → ℂ) (hse : ∀ m m', src.se m = src.se m')
    (hj : ∀ m m', src.jP m = src.jP m') :
    FieldExact (o.hJ src) m u ∧ FieldAdjoint (o.hJ src) m u := by
  refine ⟨⟨o.C, 0, ?_, ?_, ?_⟩, ⟨o.C, 0, ?_, ?_, ?_, ?_⟩⟩
  · intro U dU hU hJ
    rw [add_zero]
    exact hJ_jac src hse hj hJ
  all_goals intro x; simp [HJ.hJ]

theorem hE_exact (hr : Good o.rho m) (src : SrcHJ p ε φ) (u : ε → ℂ) (hI : o.mfIᵀ = o.mfI)
    (hse : ∀ m m', src.se m = src.se m') (hj : ∀ m m', src.jP m = src.jP m')
    (hz : o.rho.derMat m (src.jP m) = (0 : Matrix φ p ℂ)) :
    FieldExact (o.hE src) m u ∧ FieldAdjoint (o.hE src) m u := by
  have hI' : o.MfIᵀ = o.MfI := by
    unfold HJ.MfI
    rw [← Matrix.transpose_map, hI]
  have e2 : ∀ v, (o.hE src).dm m u v =
      (o.MfI * (o.rho.derMat m (o.C *ᵥ u) - o.rho.derMat m (src.se m))) *ᵥ v := by
    intro v
    simp only [HJ.hE, der_eq, Matrix.sub_mulVec, ← Matrix.mulVec_mulVec]
  have e1 : ∀ x, (o.hE src).du m x = (o.MfI * (o.rho.mat ℂ m * o.C)) *ᵥ x := by
    intro x
    simp only [HJ.hE, ← Matrix.mulVec_mulVec]
  refine ⟨⟨_, _, ?_, e1, e2⟩, ⟨_, _, e1, e2, ?_, ?_⟩⟩
  · intro U dU hU hJ
    have h1 := (mat_jac hr (hJ_jac (o := o) src hse hj hJ)).mulVec o.MfI
    have e : (o.hJ src).val m (U m) = src.jP m + (o.C *ᵥ u - src.se m) := by
      rw [hU, sub_eq_add_neg]; rfl
    rw [e, derMat_add, hz, zero_add, derMat_sub, Matrix.mul_add] at h1
    refine Eq.subst (motive := fun A => IsJacK _ A m) ?_ h1
    simp only [Matrix.mul_assoc]
    abel
  · intro w
    simp only [HJ.hE, Matrix.transpose_mul, hI', ← Matrix.mulVec_mulVec]
  · intro w
    simp only [HJ.hE, derT_eq, Matrix.transpose_mul, Matrix.transpose_sub, Matrix.sub_mulVec,
      ← Matrix.mulVec_mulVec]

theorem hB_exact (hm : Good o.mu m) (src : SrcHJ p ε φ) (u : ε → ℂ)
    (hh : ∀ m m', src.hP m = src.hP m') :
    FieldExact (o.hB src) m u ∧ FieldAdjoint (o.hB src) m u := by
  refine ⟨⟨o.MeI * o.mu.mat ℂ m, o.MeI * o.mu.derMat m ((o.hH src).val m u), ?_, ?_, ?_⟩,
    ⟨o.MeI * o.mu.mat ℂ m, o.MeI * o.mu.derMat m ((o.hH src).val m u), ?_, ?_, ?_, ?_⟩⟩
  · intro U dU hU hJ
    have hB : IsJacK (fun y => (o.hH src).val y (U y)) dU m := by
      have := (fixed_jac hh m).add hJ
      rwa [zero_add] at this
    have h1 := (mat_jac hm hB).mulVec o.MeI
    rw [hU, Matrix.mul_add, ← Matrix.mul_assoc] at h1
    rw [add_comm]
    exact h1
  all_goals
    intro x
    simp only [HJ.hB, der_eq, derT_eq, Matrix.transpose_mul, ← Matrix.mulVec_mulVec]

/-- **C68, magnetic field formulation.** The sensitivities are right for receivers of `j`, `h`, `e` and
`b`, for any number of sources per frequency, provided the maps and `s_m` are differentiated correctly,
the system is regular, `s_e` and the primary fields do not depend on the model, and the resistivity of a
source with receivers of `e` varies only where it has no primary current density. -/
theorem C68_magnetic_field (o : HJ p s t ε φ) (m : p → ℝ) (srcs : List (SrcHJ p ε φ))
    (hr : Good o.rho m) (hm : Good o.mu m) (hI : o.mfIᵀ = o.mfI)
    (hdet : ∀ src ∈ srcs, (o.hA src.freq m).det ≠ 0)
    (hsm : ∀ src ∈ srcs, Term.Exact src.sm m)
    (hse : ∀ src ∈ srcs, ∀ m m', src.se m = src.se m')
    (hjP : ∀ src ∈ srcs, ∀ m m', src.jP m = src.jP m')
    (hhP : ∀ src ∈ srcs, ∀ m m', src.hP m = src.hP m')
    (he : ∀ src ∈ srcs, ∀ r ∈ src.rx, r.field = .e →
      o.rho.derMat m (src.jP m) = (0 : Matrix φ p ℂ)) :
    SensitivitiesCorrect (o.simH srcs) m := by
  have hok : (o.simH srcs).fails = false := by
    unfold Sim.fails
    rw [List.any_eq_false]
    intro s' _ hr
    simp [HJ.simH] at hr
  have hF : ∀ src ∈ srcs, ∀ r ∈ src.rx, ∀ u, FieldExact (o.hFld src r.field) m u ∧
      FieldAdjoint (o.hFld src r.field) m u := by
    intro src hsrc r hr' u
    cases hk : r.field with
    | j => exact hJ_exact (o := o) src u (hse src hsrc) (hjP src hsrc)
    | h => exact hH_exact (o := o) src u (hhP src hsrc)
    | e => exact hE_exact hr src u hI (hse src hsrc) (hjP src hsrc) (he src hsrc r hr' hk)
    | b => exact hB_exact hm src u (hhP src hsrc)
  refine correct_of _ m hok ?_ ?_ ?_ ?_
  · intro s' hs'
    obtain ⟨src, hsrc, rfl⟩ := List.mem_map.1 hs'
    exact (h_system hr hm srcs src (hdet src hsrc) (hsm src hsrc) (hse src hsrc)).1
  · intro s' hs'
    obtain ⟨src, hsrc, rfl⟩ := List.mem_map.1 hs'
    exact (h_system hr hm srcs src (hdet src hsrc) (hsm src hsrc) (hse src hsrc)).2
  · intro s' hs' r hr'
    obtain ⟨src, hsrc, rfl⟩ := List.mem_map.1 hs'
    exact (hF src hsrc r hr' _).1
  · intro s' hs' r hr'
    obtain ⟨src, hsrc, rfl⟩ := List.mem_map.1 hs'
    exact (hF src hsrc r hr' _).2

end magneticField

end

end Verif.FDEM.Props
