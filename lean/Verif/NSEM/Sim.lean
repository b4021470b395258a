import Verif.NSEM.Deriv
import Verif.FDEM.Maxwell
import Verif.FDEM.Sources

/-! The natural source simulations in one and two dimensions
(`simpeg/electromagnetics/natural_source/simulation.py` 21-208, 292-744) and their fields
(`fields.py` 16-180, 343-372).

The electric and magnetic field simulations, in one and in two dimensions, have the same form:
`A = C.T M1 C + i omega M2`, with a mass matrix `M1` for `mui` or `rho` on the cells, `M2` for `sigma` or
`mu` on the nodes or edges, and the gradient or the curl for `C`. The other field is the property of `M1`
times `C u`, up to a factor. Simplified as in `Verif/FDEM/Sim.lean`: exact solver, one source at a time;
the edges of the left, right, upper and lower boundary are disjoint, and the cells of the one-dimensional
meshes are in the order of the edges. -/

namespace Verif.NSEM
open Verif Matrix Verif.FDEM Verif.EM

noncomputable section

/-- The electric and the magnetic field simulations. -/
inductive Form | e | h
  deriving DecidableEq

/-- The factor of the boundary integral in `getRHS`: `1j * omega(freq)` (`simulation.py` 104,
439) or `-1` (154, 667). -/
def Form.rho (F : Form) (f : ℚ) : ℂ := match F with
  | .e => iw f
  | .h => -1

/-- The factor of the other field: `1 / (1j * omega)` (`fields.py` 66) or the sign of `_C`
(180, 372). -/
def Form.kap (F : Form) (f : ℚ) : ℂ := match F with
  | .e => 1 / iw f
  | .h => -1

/-- The field that is solved for, or the other one. -/
inductive Fld | sol | other
  deriving DecidableEq

/-- Where a field lives: nodes or edges, or cells. -/
@[reducible] def Loc (n g : Type) : Fld → Type
  | .sol => n
  | .other => g

instance {n g : Type} [Fintype n] [Fintype g] (k : Fld) : Fintype (Loc n g k) := by
  cases k <;> infer_instance

variable {p s t n g : Type} [Fintype p] [Fintype s] [Fintype t] [Fintype n] [Fintype g]
  [DecidableEq n] [DecidableEq g]

/-- The operators of a simulation: `nodal_gradient` or `edge_curl`; `MeMui`, `MeRho`, `MccMui` or
`MccRho`; `MfSigma`, `MnMu`, `MeSigma` or `MeMu`; `mui` or `rho` on the cells, and its derivative. -/
structure Low (p s t n g : Type) where
  form : Form
  C : Matrix g n ℝ
  stiff : Mass p t g
  mass : Mass p s n
  prop : (p → ℝ) → g → ℝ
  propD : (p → ℝ) → Matrix g p ℝ

/-- `getA` (`simulation.py` 74-89, 156-164, 406-421, 635-649). -/
def Low.A (o : Low p s t n g) (f : ℚ) (m : p → ℝ) : Matrix n n ℂ :=
  (cm o.C)ᵀ * o.stiff.mat ℂ m * cm o.C + iw f • o.mass.mat ℂ m

/-- `getADeriv` (91-98, 109-112; 166-177, 188-191; 441-453; 669-681). -/
def Low.aD (o : Low p s t n g) (f : ℚ) (m : p → ℝ) (u : n → ℂ) (v : p → ℂ) : n → ℂ :=
  iw f • o.mass.der m u v + (cm o.C)ᵀ *ᵥ o.stiff.der m (cm o.C *ᵥ u) v

/-- `getADeriv(adjoint=True)`. -/
def Low.aDT (o : Low p s t n g) (f : ℚ) (m : p → ℝ) (u w : n → ℂ) : p → ℂ :=
  iw f • o.mass.derT m u w + o.stiff.derT m (cm o.C *ᵥ u) (cm o.C *ᵥ w)

/-- The field that is solved for (`fields.py` 49-56, 103-110). -/
def Low.solFld (_o : Low p s t n g) : FieldFn p n n where
  val _ u := u
  du _ x := x
  duT _ w := w
  dm _ _ _ := 0
  dmT _ _ _ := 0

/-- The other field (58-94, 112-141), for a property given by a map. -/
def Low.otherFld (o : Low p s t n g) (f : ℚ) : FieldFn p n g where
  val m u := o.form.kap f • fun i => (o.prop m i : ℂ) * (cm o.C *ᵥ u) i
  du m x := o.form.kap f • fun i => (o.prop m i : ℂ) * (cm o.C *ᵥ x) i
  duT m w := o.form.kap f • ((cm o.C)ᵀ *ᵥ fun i => (o.prop m i : ℂ) * w i)
  dm m u v := o.form.kap f • fun i => (cm o.C *ᵥ u) i * (cm (o.propD m) *ᵥ v) i
  dmT m u w := o.form.kap f • ((cm (o.propD m))ᵀ *ᵥ fun i => (cm o.C *ᵥ u) i * w i)

/-- The fields. -/
def Low.fld (o : Low p s t n g) (f : ℚ) : (k : Fld) → FieldFn p n (Loc n g k)
  | .sol => o.solFld
  | .other => o.otherFld f

/-- The simulation with the right-hand side `q` at one frequency. -/
def Low.src (o : Low p s t n g) (f : ℚ) (q : Term p n) : Src p n Fld (Loc n g) where
  freq := f
  q := q.val
  qD := q.d
  qDT := q.dT
  fld := o.fld f
  rx := []

/-- The simulation, for `Sim.sol` and `Sim.du`. -/
def Low.sim (o : Low p s t n g) (f : ℚ) (q : Term p n) : Sim p n Fld (Loc n g) where
  A := o.A
  aD := o.aD
  aDT := o.aDT
  raises _ := false
  sources := [o.src f q]

/-- The solution. -/
def Low.sol (o : Low p s t n g) (f : ℚ) (q : Term p n) (m : p → ℝ) : n → ℂ :=
  (o.sim f q).sol m (o.src f q)

/-- A right-hand side that does not depend on the model: in one dimension (`getRHS`, 72, 100-107, 154,
179-186) and with given boundary values (438, 456-457; 666, 684-685). -/
def fixedRhs (F : Form) (f : ℚ) (b : n → ℂ) : Term p n where
  val _ := F.rho f • b
  d _ _ := 0
  dT _ _ := 0

/-- A field of a one-dimensional simulation as a function of the model: `f[src, "h"]` and
`field_deriv_m` (`fields.py` 17-40). -/
def Low.fieldTerm (o : Low p s t n g) (f : ℚ) (q : Term p n) (k : Fld) : Term p (Loc n g k) where
  val m := (o.fld f k).val m (o.sol f q m)
  d m v := (o.fld f k).du m ((o.sim f q).du m (o.src f q) v) + (o.fld f k).dm m (o.sol f q m) v
  dT m w :=
    let x := (o.A f m)⁻¹ *ᵥ (o.fld f k).duT m w
    (o.fld f k).dmT m (o.sol f q m) w + (-(o.aDT f m (o.sol f q m) x) + q.dT m x)

variable {gl gr γ : Type} [Fintype gl] [Fintype gr] [Fintype γ]

/-- `h_bc` or `e_bc` (`simulation.py` 428-436, 656-664) and its derivative: values of the
one-dimensional simulations on the left and the right edges, one on the upper edges, zero on the lower. -/
def bcTerm (top : γ → Bool) (L : Term p gl) (R : Term p gr) : Term p (gl ⊕ gr ⊕ γ) where
  val m := Sum.elim (L.val m) (Sum.elim (R.val m) fun i => if top i then 1 else 0)
  d m v := Sum.elim (L.d m v) (Sum.elim (R.d m v) fun _ => 0)
  dT m w := L.dT m (fun i => w (.inl i)) + R.dT m fun i => w (.inr (.inl i))

/-- `getRHS` and `getRHSDeriv` in two dimensions (423-439, 455-478; 651-667, 683-704); the adjoint
multiplies by the factor after or before the one-dimensional simulations. -/
def lowRhs (F : Form) (f : ℚ) (Mbc : Matrix n (gl ⊕ gr ⊕ γ) ℝ) (B : Term p (gl ⊕ gr ⊕ γ)) :
    Term p n where
  val m := F.rho f • (cm Mbc *ᵥ B.val m)
  d m v := F.rho f • (cm Mbc *ᵥ B.d m v)
  dT m w := match F with
    | .e => iw f • B.dT m ((cm Mbc)ᵀ *ᵥ w)
    | .h => B.dT m (-((cm Mbc)ᵀ *ᵥ w))

/-! ### Data -/

/-- A receiver of a quotient of two fields. -/
structure LowRx (n g : Type) where
  nD : Nat
  comp : NComp
  alpha : ℝ
  neg : Bool
  top : Fld
  bot : Fld
  PT : Matrix (Fin nD) (Loc n g top) ℝ
  PB : Matrix (Fin nD) (Loc n g bot) ℝ

/-- The quotients of a receiver. -/
def Low.quot (o : Low p s t n g) (f : ℚ) (q : Term p n) (r : LowRx n g) (m : p → ℝ) :
    Fin r.nD → ℂ :=
  ratio r.neg r.PT r.PB ((o.fld f r.top).val m (o.sol f q m)) ((o.fld f r.bot).val m (o.sol f q m))

/-- The data of a receiver. -/
def Low.dpred (o : Low p s t n g) (f : ℚ) (q : Term p n) (r : LowRx n g) (m : p → ℝ) :
    Fin r.nD → ℝ := fun i => r.comp.val r.alpha (o.quot f q r m i)

/-- `Jvec`, the part of a receiver (`frequency_domain/simulation.py` 248-256). -/
def Low.jvec (o : Low p s t n g) (f : ℚ) (q : Term p n) (r : LowRx n g) (m v : p → ℝ) :
    Fin r.nD → ℝ := fun i =>
  r.comp.deriv r.alpha (o.quot f q r m i)
    (ratioDeriv r.neg r.PT r.PB
      ((o.fld f r.top).val m (o.sol f q m)) ((o.fieldTerm f q r.top).d m (castV ℂ v))
      ((o.fld f r.bot).val m (o.sol f q m)) ((o.fieldTerm f q r.bot).d m (castV ℂ v)) i)

/-- A source: a frequency, its right-hand side, and its receivers. -/
structure LowSrc (p n g : Type) where
  f : ℚ
  q : Term p n
  k : Nat
  rx : Fin k → LowRx n g

/-- What a receiver hands back for the weights `w`, for the two fields (`receivers.py`, see
`Receivers.lean`). -/
def Low.back (o : Low p s t n g) (S : LowSrc p n g) (m : p → ℝ) (w : ∀ a, Fin (S.rx a).nD → ℝ)
    (a : Fin S.k) : (Loc n g (S.rx a).top → ℂ) × (Loc n g (S.rx a).bot → ℂ) :=
  let r := S.rx a
  ratioAdj r.neg r.PT r.PB ((o.fld S.f r.top).val m (o.sol S.f S.q m))
    ((o.fld S.f r.bot).val m (o.sol S.f S.q m))
    fun i => r.comp.wgt r.alpha (o.quot S.f S.q r m i) (w a i)

/-- `Jtvec` (`frequency_domain/simulation.py` 258-325), the part of a source: the receivers are summed
before the system is solved. -/
def Low.jtvec (o : Low p s t n g) (S : LowSrc p n g) (m : p → ℝ)
    (w : ∀ a, Fin (S.rx a).nD → ℝ) : p → ℝ :=
  let u := o.sol S.f S.q m
  let duT := ∑ a, ((o.fld S.f (S.rx a).bot).duT m (o.back S m w a).2 +
    (o.fld S.f (S.rx a).top).duT m (o.back S m w a).1)
  let dmT := ∑ a, ((o.fld S.f (S.rx a).bot).dmT m u (o.back S m w a).2 +
    (o.fld S.f (S.rx a).top).dmT m u (o.back S m w a).1)
  let x := (o.A S.f m)⁻¹ *ᵥ duT
  fun i => (dmT i + (-(o.aDT S.f m u x i) + S.q.dT m x i)).re

/-- `Jtvec`. -/
def Low.jtvecAll (o : Low p s t n g) {N : Nat} (srcs : Fin N → LowSrc p n g) (m : p → ℝ)
    (w : ∀ j a, Fin ((srcs j).rx a).nD → ℝ) : p → ℝ :=
  ∑ j, o.jtvec (srcs j) m (w j)

/-! ### The widths of the boundary cells of a tree mesh -/

/-- `_centers_to_widths` (`simulation.py` 21-28). -/
def widths (c : Nat → ℝ) : Nat → ℝ
  | 0 => 2 * c 0
  | i + 1 => 2 * (c (i + 1) - c i) - widths c i

/-! ### The boundary fields are kept -/

/-- A two-dimensional simulation without a map for a property: the model, the property set directly,
and `_boundary_fields`. -/
structure BSim (M S B : Type) where
  model : M
  sigma : S
  cache : Option B

/-- What a user does. -/
inductive BOp (M S : Type)
  | setModel (m : M)
  | setSigma (s : S)
  | query

/-- `boundary_fields()` (480-512, 706-738), computing `fields model sigma` if there are none. -/
def BSim.get {M S B : Type} (fields : M → S → B) (x : BSim M S B) : B × BSim M S B :=
  match x.cache with
  | some b => (b, x)
  | none => (fields x.model x.sigma, { x with cache := some (fields x.model x.sigma) })

/-- One step: setting the model deletes the boundary fields when it changes (`_delete_on_model_update`,
514-518, 740-744; `props.py` 455-472), setting a property does not. -/
def BSim.step {M S B : Type} [DecidableEq M] (fields : M → S → B) (x : BSim M S B) :
    BOp M S → BSim M S B
  | .setModel m => if m = x.model then x else { x with model := m, cache := none }
  | .setSigma s => { x with sigma := s }
  | .query => (x.get fields).2

/-! ### A property set without a map -/

/-- `_EField._h` (`fields.py` 58-66) if `mui` has an entry for each cell and was set without a map:
`mui * (self._C * e)` is a matrix, of which the receivers and the boundary conditions take the first
column. -/
def hDirect {k : Nat} (f : ℚ) (mui : Fin (k + 1) → ℝ) (ce : Fin (k + 1) → ℂ) : Fin (k + 1) → ℂ :=
  let v : Matrix (Fin (k + 1)) (Fin (k + 1)) ℂ := of fun i j => (mui j : ℂ) * ce i
  fun i => v i 0 / iw f

end

end Verif.NSEM

namespace Verif.NSEM.Props
open Verif Verif.NSEM Matrix Verif.FDEM Verif.FDEM.Props Verif.EM Verif.EM.Props
  Verif.Flow.Richards.Props

noncomputable section

variable {p s t n g : Type} [Fintype p] [Fintype s] [Fintype t] [Fintype n] [Fintype g]
  [DecidableEq n] [DecidableEq g]

set_option linter.unusedSectionVars false

/-- The maps of the properties are differentiated correctly, the inner products are those of a mesh, and
the system is regular. -/
structure LowGood (o : Low p s t n g) (f : ℚ) (m : p → ℝ) : Prop where
  stiff : Good o.stiff m
  mass : Good o.mass m
  prop : IsJacobian o.prop (o.propD m) m
  det : (o.A f m).det ≠ 0

variable {o : Low p s t n g} {f : ℚ} {m : p → ℝ}

theorem low_A_jac (h : LowGood o f m) (u : n → ℂ) :
    IsJacK (fun y => o.A f y *ᵥ u)
      (iw f • o.mass.derMat m u + (cm o.C)ᵀ * o.stiff.derMat m (cm o.C *ᵥ u)) m := by
  have h1 := (derMat_jac (𝕜 := ℂ) h.stiff (cm o.C *ᵥ u)).mulVec (cm o.C)ᵀ
  have h2 := (derMat_jac (𝕜 := ℂ) h.mass u).smul (iw f)
  rw [add_comm]
  refine IsJacK.congr (h1.add h2) (Filter.Eventually.of_forall fun y => ?_)
  simp only [Low.A, Matrix.add_mulVec, Matrix.smul_mulVec, ← Matrix.mulVec_mulVec]

theorem low_A_symm (h : LowGood o f m) : (o.A f m)ᵀ = o.A f m := by
  simp only [Low.A, Matrix.transpose_add, Matrix.transpose_mul, Matrix.transpose_transpose,
    Matrix.transpose_smul, mat_transpose h.stiff, mat_transpose h.mass, Matrix.mul_assoc]

theorem low_system (h : LowGood o f m) {q : Term p n} (hq : Term.Exact q m) :
    SystemExact (o.sim f q) m (o.src f q) ∧ SystemAdjoint (o.sim f q) m (o.src f q) := by
  obtain ⟨D, j, d, dt⟩ := hq
  set u := (o.sim f q).sol m (o.src f q)
  have hv : ∀ v, -(o.aD f m u v) + q.d m v =
      (D - (iw f • o.mass.derMat m u + (cm o.C)ᵀ * o.stiff.derMat m (cm o.C *ᵥ u))) *ᵥ v := by
    intro v
    simp only [Low.aD, der_eq, d, Matrix.sub_mulVec, Matrix.add_mulVec, Matrix.smul_mulVec,
      ← Matrix.mulVec_mulVec]
    abel
  refine ⟨⟨entries_diff fun u => ⟨_, low_A_jac h u⟩, h.det, _, ?_, hv⟩, ⟨low_A_symm h, _, hv, ?_⟩⟩
  · exact j.sub (low_A_jac h u)
  · intro w
    change -(o.aDT f m u w) + q.dT m w = _
    simp only [Low.aDT, derT_eq, dt, Matrix.transpose_sub, Matrix.transpose_add,
      Matrix.transpose_mul, Matrix.transpose_smul, Matrix.transpose_transpose, Matrix.sub_mulVec,
      Matrix.add_mulVec, Matrix.smul_mulVec, ← Matrix.mulVec_mulVec]
    abel

theorem diag_mulVec {α : Type} [Fintype α] [DecidableEq α] (d x : α → ℂ) :
    Matrix.diagonal d *ᵥ x = fun i => d i * x i := by
  funext i; rw [Matrix.mulVec_diagonal]

theorem low_fields (h : LowGood o f m) (u : n → ℂ) (k : Fld) :
    FieldExact (o.fld f k) m u ∧ FieldAdjoint (o.fld f k) m u := by
  cases k with
  | sol =>
    refine ⟨⟨1, 0, ?_, ?_, ?_⟩, ⟨1, 0, ?_, ?_, ?_, ?_⟩⟩
    · intro U dU hU hJ
      rw [Matrix.one_mul, add_zero]
      exact hJ
    all_goals intro x; simp [Low.fld, Low.solFld]
  | other =>
    set Du : Matrix g n ℂ := o.form.kap f • (Matrix.diagonal (fun i => (o.prop m i : ℂ)) * cm o.C)
    set Dm : Matrix g p ℂ := o.form.kap f • (Matrix.diagonal (cm o.C *ᵥ u) * cm (o.propD m))
    have h1 : ∀ x, (o.otherFld f).du m x = Du *ᵥ x := by
      intro x
      simp only [Low.otherFld, Du, Matrix.smul_mulVec, ← Matrix.mulVec_mulVec, diag_mulVec]
    have h2 : ∀ v, (o.otherFld f).dm m u v = Dm *ᵥ v := by
      intro v
      simp only [Low.otherFld, Dm, Matrix.smul_mulVec, ← Matrix.mulVec_mulVec, diag_mulVec]
    refine ⟨⟨Du, Dm, ?_, h1, h2⟩, ⟨Du, Dm, h1, h2, ?_, ?_⟩⟩
    · intro U dU hU hJ
      have h3 := ((IsJacobian.cast (𝕜 := ℂ) h.prop).mul (hJ.mulVec (cm o.C))).smul (o.form.kap f)
      rw [hU] at h3
      have e : Du * dU + Dm = o.form.kap f •
          (Matrix.diagonal (castV ℂ (o.prop m)) * (cm o.C * dU) +
            Matrix.diagonal (cm o.C *ᵥ u) * cm (o.propD m)) := by
        simp only [Du, Dm, Matrix.smul_mul, Matrix.mul_assoc, smul_add]
        rfl
      rw [e]
      exact h3
    · intro w
      simp only [Low.fld, Low.otherFld, Du, Matrix.transpose_smul, Matrix.transpose_mul,
        Matrix.diagonal_transpose, Matrix.smul_mulVec, ← Matrix.mulVec_mulVec, diag_mulVec]
    · intro w
      simp only [Low.fld, Low.otherFld, Dm, Matrix.transpose_smul, Matrix.transpose_mul,
        Matrix.diagonal_transpose, Matrix.smul_mulVec, ← Matrix.mulVec_mulVec, diag_mulVec]


theorem fixedRhs_exact (F : Form) (f : ℚ) (b : n → ℂ) (m : p → ℝ) :
    Term.Exact (fixedRhs (p := p) F f b) m :=
  ⟨0, isJacK_const _ _, by simp [fixedRhs], by simp [fixedRhs]⟩

theorem fieldTerm_exact (h : LowGood o f m) {q : Term p n} (hq : Term.Exact q m) (k : Fld) :
    Term.Exact (o.fieldTerm f q k) m := by
  classical
  obtain ⟨hE, hA⟩ := low_system h hq
  obtain ⟨Du, Dm, hval, h1, h2⟩ := (low_fields h (o.sol f q m) k).1
  obtain ⟨Du', Dm', h1', h2', h3, h4⟩ := (low_fields h (o.sol f q m) k).2
  have eu : Du' = Du := Matrix.ext_of_mulVec_single fun i => by rw [← h1, ← h1']
  have em : Dm' = Dm := Matrix.ext_of_mulVec_single fun i => by rw [← h2, ← h2']
  subst eu em
  obtain ⟨R, hR, hv⟩ := hE.res
  obtain ⟨symm, R', hv', hvT⟩ := hA
  have er : R' = R := Matrix.ext_of_mulVec_single fun i => by rw [← hv, ← hv']
  subst er
  have hU := isJacK_solve_residual (A := o.A f) (q := q.val) hE.diff hE.det hR
  refine ⟨_, hval _ _ rfl hU, ?_, ?_⟩
  · intro v
    change (o.fld f k).du m ((o.sim f q).du m (o.src f q) v) + (o.fld f k).dm m (o.sol f q m) v = _
    rw [h1, h2, Sim.du, hv v, Matrix.add_mulVec, ← Matrix.mulVec_mulVec, ← Matrix.mulVec_mulVec]
    rfl
  · intro w
    change (o.fld f k).dmT m (o.sol f q m) w + (-(o.aDT f m (o.sol f q m)
      ((o.A f m)⁻¹ *ᵥ (o.fld f k).duT m w)) + q.dT m ((o.A f m)⁻¹ *ᵥ (o.fld f k).duT m w)) = _
    have := hvT ((o.A f m)⁻¹ *ᵥ (o.fld f k).duT m w)
    change -(o.aDT f m (o.sol f q m) _) + q.dT m _ = _ at this
    rw [this, h3, h4, Matrix.transpose_add, Matrix.transpose_mul, Matrix.transpose_mul,
      Matrix.transpose_nonsing_inv, low_A_symm h, Matrix.add_mulVec, ← Matrix.mulVec_mulVec,
      ← Matrix.mulVec_mulVec, add_comm]

variable {gl gr γ : Type} [Fintype gl] [Fintype gr] [Fintype γ]

theorem bcTerm_exact {L : Term p gl} {R : Term p gr} (top : γ → Bool) (hL : Term.Exact L m)
    (hR : Term.Exact R m) : Term.Exact (bcTerm top L R) m := by
  obtain ⟨DL, jL, dL, tL⟩ := hL
  obtain ⟨DR, jR, dR, tR⟩ := hR
  refine ⟨of (Sum.elim DL (Sum.elim DR 0)), ?_, ?_, ?_⟩
  · rw [isJacK_iff] at jL jR ⊢
    rintro (i | i | i)
    · exact jL i
    · exact jR i
    · exact (isJacK_iff.1 (isJacK_const (𝕜 := ℂ) (fun i => if top i then 1 else 0) m)) i
  · intro v
    funext i
    rcases i with i | i | i
    · simp only [bcTerm, dL, Sum.elim_inl]; rfl
    · simp only [bcTerm, dR, Sum.elim_inl, Sum.elim_inr]; rfl
    · simp only [bcTerm, Sum.elim_inr]
      exact (zero_dotProduct v).symm
  · intro w
    funext i
    have h0 : ∑ a : γ, (of (Sum.elim DL (Sum.elim DR 0)) : Matrix (gl ⊕ gr ⊕ γ) p ℂ) (.inr (.inr a)) i *
        w (.inr (.inr a)) = 0 := Finset.sum_eq_zero fun a _ => zero_mul _
    simp only [bcTerm, tL, tR, Matrix.mulVec, dotProduct, Fintype.sum_sum_type,
      Matrix.transpose_apply, Pi.add_apply, h0, add_zero]
    rfl

theorem lowRhs_exact (F : Form) (f : ℚ) (Mbc : Matrix n (gl ⊕ gr ⊕ γ) ℝ)
    {B : Term p (gl ⊕ gr ⊕ γ)} (hB : Term.Exact B m) : Term.Exact (lowRhs F f Mbc B) m := by
  obtain ⟨D, j, d, t⟩ := hB
  refine ⟨F.rho f • (cm Mbc * D), (j.mulVec (cm Mbc)).smul (F.rho f), ?_, ?_⟩
  · intro v
    simp only [lowRhs, d, Matrix.smul_mulVec, Matrix.mulVec_mulVec]
  · intro w
    cases F <;>
      simp only [lowRhs, t, Form.rho, Matrix.transpose_smul, Matrix.transpose_mul,
        Matrix.smul_mulVec, ← Matrix.mulVec_mulVec, Matrix.mulVec_neg, neg_smul, one_smul,
        Matrix.transpose_neg, Matrix.neg_mulVec]

/-- The derivative of a field along a line of models. -/
theorem term_line {α : Type} [Fintype α] {T : Term p α} {v : p → ℝ} (h : Term.Exact T m) (i : α) :
    HasDerivAt (fun s : ℝ => T.val (m + s • v) i) (T.d m (castV ℂ v) i) 0 := by
  obtain ⟨D, j, d, -⟩ := h
  have hl : HasDerivAt (fun s : ℝ => m + s • v) v 0 := by
    simpa using ((hasDerivAt_id (0 : ℝ)).smul_const v).const_add m
  have hj := isJacK_iff.1 j i
  have e : m = m + (0 : ℝ) • v := by simp
  rw [e] at hj
  have := HasFDerivAt.comp_hasDerivAt (0 : ℝ) hj hl
  refine this.congr_deriv ?_
  rw [d]
  simp

theorem low_jvec (h : LowGood o f m) {q : Term p n} (hq : Term.Exact q m) (r : LowRx n g) (v : p → ℝ)
    (i : Fin r.nD) (h0 : (cm r.PB *ᵥ (o.fld f r.bot).val m (o.sol f q m)) i ≠ 0)
    (hc : r.comp = .phase → o.quot f q r m i ∈ Complex.slitPlane) :
    HasDerivAt (fun s : ℝ => o.dpred f q r (m + s • v) i) (o.jvec f q r m v i) 0 := by
  have ht := fun a => term_line (v := v) (fieldTerm_exact h hq r.top) a
  have hb := fun a => term_line (v := v) (fieldTerm_exact h hq r.bot) a
  have e : m + (0 : ℝ) • v = m := by simp
  have := C101_ratio r.alpha r.comp r.neg r.PT r.PB (t := 0) ht hb i
    (by rw [e]; exact h0) (by rw [e]; exact hc)
  rw [e] at this
  exact this

theorem dot_re {α : Type} [Fintype α] (x y : α → ℂ) : ∑ a, x a * y a = x ⬝ᵥ y := rfl

theorem low_jtvec (S : LowSrc p n g) (h : LowGood o S.f m) (hq : Term.Exact S.q m)
    (w : ∀ a, Fin (S.rx a).nD → ℝ) (v : p → ℝ) :
    ∑ a, ∑ i, w a i * o.jvec S.f S.q (S.rx a) m v i = ∑ i, o.jtvec S m w i * v i := by
  have key : ∀ a, ∑ i, w a i * o.jvec S.f S.q (S.rx a) m v i =
      ∑ i, ((o.fieldTerm S.f S.q (S.rx a).top).dT m (o.back S m w a).1 i +
        (o.fieldTerm S.f S.q (S.rx a).bot).dT m (o.back S m w a).2 i).re * v i := by
    intro a
    have := C101_ratio_adjoint (S.rx a).alpha (S.rx a).comp (S.rx a).neg (S.rx a).PT (S.rx a).PB
      ((o.fld S.f (S.rx a).top).val m (o.sol S.f S.q m))
      ((o.fieldTerm S.f S.q (S.rx a).top).d m (castV ℂ v))
      ((o.fld S.f (S.rx a).bot).val m (o.sol S.f S.q m))
      ((o.fieldTerm S.f S.q (S.rx a).bot).d m (castV ℂ v)) (w a)
    refine this.trans ?_
    obtain ⟨D1, -, d1, t1⟩ := fieldTerm_exact h hq (S.rx a).top
    obtain ⟨D2, -, d2, t2⟩ := fieldTerm_exact h hq (S.rx a).bot
    change (∑ b, (o.back S m w a).1 b * _ + ∑ b, (o.back S m w a).2 b * _).re = _
    rw [d1, d2, t1, t2, dot_re, dot_re, Matrix.dotProduct_mulVec, Matrix.dotProduct_mulVec,
      ← Matrix.mulVec_transpose, ← Matrix.mulVec_transpose, ← add_dotProduct]
    simp [dotProduct, Complex.re_sum]
  simp only [key]
  rw [Finset.sum_comm]
  refine Finset.sum_congr rfl fun i _ => ?_
  rw [← Finset.sum_mul]
  congr 1
  obtain ⟨R, -, hvT⟩ := (low_system h hq).2.res
  have hT : ∀ x, -(o.aDT S.f m (o.sol S.f S.q m) x) + S.q.dT m x = Rᵀ *ᵥ x := hvT
  have hTi : ∀ x, -(o.aDT S.f m (o.sol S.f S.q m) x i) + S.q.dT m x i = (Rᵀ *ᵥ x) i := by
    intro x; rw [← hT]; rfl
  simp only [Low.jtvec, hTi, Low.fieldTerm, hT, Pi.add_apply]
  rw [← Complex.re_sum]
  congr 1
  rw [Matrix.mulVec_sum, Matrix.mulVec_sum, Finset.sum_apply, Finset.sum_apply,
    ← Finset.sum_add_distrib]
  refine Finset.sum_congr rfl fun a _ => ?_
  simp only [Matrix.mulVec_add, Pi.add_apply]
  ring

/-! ### Specification -/

/-- The sensitivities of a simulation at the model `m` are right: `Jvec` is the derivative of the data
wherever they are differentiable, and `Jtvec` is its transpose. -/
structure LowCorrect (o : Low p s t n g) {N : Nat} (srcs : Fin N → LowSrc p n g) (m : p → ℝ) : Prop where
  jvec : ∀ j a (v : p → ℝ) i,
    (cm ((srcs j).rx a).PB *ᵥ
      (o.fld (srcs j).f ((srcs j).rx a).bot).val m (o.sol (srcs j).f (srcs j).q m)) i ≠ 0 →
    (((srcs j).rx a).comp = .phase →
      o.quot (srcs j).f (srcs j).q ((srcs j).rx a) m i ∈ Complex.slitPlane) →
    HasDerivAt (fun s : ℝ => o.dpred (srcs j).f (srcs j).q ((srcs j).rx a) (m + s • v) i)
      (o.jvec (srcs j).f (srcs j).q ((srcs j).rx a) m v i) 0
  jtvec : ∀ (w : ∀ j a, Fin ((srcs j).rx a).nD → ℝ) (v : p → ℝ),
    ∑ j, ∑ a, ∑ i, w j a i * o.jvec (srcs j).f (srcs j).q ((srcs j).rx a) m v i =
      o.jtvecAll srcs m w ⬝ᵥ v

theorem low_correct (o : Low p s t n g) {N : Nat} (srcs : Fin N → LowSrc p n g) (m : p → ℝ)
    (h : ∀ j, LowGood o (srcs j).f m) (hq : ∀ j, Term.Exact (srcs j).q m) : LowCorrect o srcs m where
  jvec j a v i h0 hc := low_jvec (h j) (hq j) _ v i h0 hc
  jtvec w v := by
    simp only [fun j => low_jtvec (srcs j) (h j) (hq j) (w j) v]
    rw [Finset.sum_comm]
    simp only [Low.jtvecAll, dotProduct, Finset.sum_apply, Finset.sum_mul]

/-! ### C102 -/

/-- C102: the sensitivities of the one-dimensional simulations, and of the two-dimensional ones with
given boundary values, are right. -/
theorem C102_fixed_boundary (o : Low p s t n g) {N : Nat} (srcs : Fin N → LowSrc p n g) (m : p → ℝ)
    (b : Fin N → n → ℂ) (hq : ∀ j, (srcs j).q = fixedRhs o.form (srcs j).f (b j))
    (h : ∀ j, LowGood o (srcs j).f m) : LowCorrect o srcs m :=
  low_correct o srcs m h fun j => by rw [hq]; exact fixedRhs_exact _ _ _ _

variable {s1 t1 n1 s2 t2 n2 : Type} [Fintype s1] [Fintype t1] [Fintype n1] [DecidableEq n1]
  [Fintype s2] [Fintype t2] [Fintype n2] [DecidableEq n2] [DecidableEq gl] [DecidableEq gr]

/-- C102: the sensitivities of the two-dimensional simulations whose boundary values are computed by
one-dimensional simulations on the left and on the right are right, although these depend on the
model. -/
theorem C102_boundary_fields (o : Low p s t n g) (L : Low p s1 t1 n1 gl) (R : Low p s2 t2 n2 gr)
    (Mbc : Matrix n (gl ⊕ gr ⊕ γ) ℝ) (top : γ → Bool) (bl : n1 → ℂ) (br : n2 → ℂ)
    {N : Nat} (srcs : Fin N → LowSrc p n g) (m : p → ℝ)
    (hq : ∀ j, (srcs j).q = lowRhs o.form (srcs j).f Mbc (bcTerm top
      (L.fieldTerm (srcs j).f (fixedRhs L.form (srcs j).f bl) .other)
      (R.fieldTerm (srcs j).f (fixedRhs R.form (srcs j).f br) .other)))
    (h : ∀ j, LowGood o (srcs j).f m) (hL : ∀ j, LowGood L (srcs j).f m)
    (hR : ∀ j, LowGood R (srcs j).f m) : LowCorrect o srcs m :=
  low_correct o srcs m h fun j => by
    rw [hq]
    exact lowRhs_exact _ _ _ (bcTerm_exact top
      (fieldTerm_exact (hL j) (fixedRhs_exact _ _ _ _) .other)
      (fieldTerm_exact (hR j) (fixedRhs_exact _ _ _ _) .other))

/-- C102: the electric field simulation solves Maxwell's equations with the boundary values `hb` of the
magnetic field: `h` times the permeability is the curl of `e` over `i omega`, and the curl of `h` plus the
current is the boundary integral. -/
theorem C102_maxwell_e (o : Low p s t n g) (f : ℚ) (hf : f ≠ 0) (m : p → ℝ) (hF : o.form = .e)
    (vol : g → ℝ) (hv : o.stiff.mat ℂ m = Matrix.diagonal fun i => ((vol i * o.prop m i : ℝ) : ℂ))
    (hp : ∀ i, o.prop m i ≠ 0) (q : Term p n) (b : n → ℂ) (hq : q.val m = Form.rho .e f • b)
    (hd : (o.A f m).det ≠ 0) :
    let e := (o.fld f .sol).val m (o.sol f q m)
    let h := (o.fld f .other).val m (o.sol f q m)
    (∀ i, iw f * ((o.prop m i : ℂ)⁻¹ * h i) = (cm o.C *ᵥ e) i) ∧
    (cm o.C)ᵀ *ᵥ (fun i => (vol i : ℂ) * h i) + o.mass.mat ℂ m *ᵥ e = b := by
  intro e h
  have hw : iw f ≠ 0 := iw_ne hf
  have hh : ∀ i, h i = (iw f)⁻¹ * ((o.prop m i : ℂ) * (cm o.C *ᵥ e) i) := by
    intro i
    simp [h, e, Low.fld, Low.otherFld, Low.solFld, hF, Form.kap]
  refine ⟨fun i => ?_, ?_⟩
  · have : (o.prop m i : ℂ) ≠ 0 := by exact_mod_cast hp i
    rw [hh]
    field_simp
  · have hs : o.A f m *ᵥ e = q.val m := by
      change o.A f m *ᵥ ((o.A f m)⁻¹ *ᵥ q.val m) = _
      rw [Matrix.mulVec_mulVec, Matrix.mul_nonsing_inv _ (isUnit_iff_ne_zero.2 hd),
        Matrix.one_mulVec]
    rw [hq] at hs
    simp only [Low.A, Matrix.add_mulVec, Matrix.smul_mulVec, ← Matrix.mulVec_mulVec, hv, diag_mulVec,
      Form.rho] at hs
    have e1 : (fun i => ((vol i * o.prop m i : ℝ) : ℂ) * (cm o.C *ᵥ e) i) =
        iw f • fun i => (vol i : ℂ) * h i := by
      funext i
      simp only [Pi.smul_apply, smul_eq_mul, hh]
      push_cast
      field_simp
    rw [e1, Matrix.mulVec_smul, ← smul_add] at hs
    exact smul_right_injective _ hw hs

/-- C102: the magnetic field simulation solves Maxwell's equations with the boundary values of the
electric field: `e` over the resistivity is minus the curl of `h`, and the curl of `e` minus
`i omega mu h` is the boundary integral. -/
theorem C102_maxwell_h (o : Low p s t n g) (f : ℚ) (m : p → ℝ) (hF : o.form = .h)
    (vol : g → ℝ) (hv : o.stiff.mat ℂ m = Matrix.diagonal fun i => ((vol i * o.prop m i : ℝ) : ℂ))
    (hp : ∀ i, o.prop m i ≠ 0) (q : Term p n) (b : n → ℂ) (hq : q.val m = Form.rho .h f • b)
    (hd : (o.A f m).det ≠ 0) :
    let h := (o.fld f .sol).val m (o.sol f q m)
    let e := (o.fld f .other).val m (o.sol f q m)
    (∀ i, (o.prop m i : ℂ)⁻¹ * e i = -(cm o.C *ᵥ h) i) ∧
    (cm o.C)ᵀ *ᵥ (fun i => (vol i : ℂ) * e i) - iw f • (o.mass.mat ℂ m *ᵥ h) = b := by
  intro h e
  have hh : ∀ i, e i = -((o.prop m i : ℂ) * (cm o.C *ᵥ h) i) := by
    intro i
    simp [h, e, Low.fld, Low.otherFld, Low.solFld, hF, Form.kap]
  refine ⟨fun i => ?_, ?_⟩
  · have : (o.prop m i : ℂ) ≠ 0 := by exact_mod_cast hp i
    rw [hh]
    field_simp
  · have hs : o.A f m *ᵥ h = q.val m := by
      change o.A f m *ᵥ ((o.A f m)⁻¹ *ᵥ q.val m) = _
      rw [Matrix.mulVec_mulVec, Matrix.mul_nonsing_inv _ (isUnit_iff_ne_zero.2 hd),
        Matrix.one_mulVec]
    rw [hq] at hs
    simp only [Low.A, Matrix.add_mulVec, Matrix.smul_mulVec, ← Matrix.mulVec_mulVec, hv, diag_mulVec,
      Form.rho] at hs
    have e1 : (fun i => ((vol i * o.prop m i : ℝ) : ℂ) * (cm o.C *ᵥ h) i) =
        -fun i => (vol i : ℂ) * e i := by
      funext i
      simp only [Pi.neg_apply, hh]
      push_cast
      ring
    rw [e1, Matrix.mulVec_neg, neg_one_smul] at hs
    have := congrArg Neg.neg hs
    rw [neg_neg, neg_add, neg_neg] at this
    rw [sub_eq_add_neg]
    exact this

/-- The centres of cells of widths `h` from the origin `x0`. -/
def centers (x0 : ℝ) (h : Nat → ℝ) (i : Nat) : ℝ := x0 + ∑ j ∈ Finset.range i, h j + h i / 2

/-- C102: the widths recovered from the centres of the boundary cells are off by twice the origin, with
alternating signs. -/
theorem C102_widths (x0 : ℝ) (h : Nat → ℝ) (i : Nat) :
    widths (centers x0 h) i = h i + (-1) ^ i * (2 * x0) := by
  induction i with
  | zero => simp [widths, centers]; ring
  | succ i ih =>
    rw [widths, ih]
    simp only [centers, Finset.sum_range_succ, pow_succ]
    ring

/-- C102 (missing: other origins): the widths of a mesh that starts at zero are recovered. -/
theorem C102_widths_partial (h : Nat → ℝ) : widths (centers 0 h) = h := by
  funext i
  rw [C102_widths]
  ring

/-- C102 is violated: on a tree mesh that does not start at zero the one-dimensional meshes of the
boundaries have other cells, the first possibly of negative width. -/
theorem C102_violated_widths (h : Nat → ℝ) (x0 : ℝ) (hx : x0 ≠ 0) :
    widths (centers x0 h) ≠ h ∧ (x0 < -(h 0 / 2) → widths (centers x0 h) 0 < 0) := by
  constructor
  · intro h'
    have := congrFun h' 0
    rw [C102_widths] at this
    apply hx
    linarith
  · intro hx
    rw [C102_widths]
    linarith

/-- The first and second widths of a mesh that starts at -10. -/
example : widths (centers (-10) fun _ => 5) 0 = -15 ∧ widths (centers (-10) fun _ => 5) 1 = 25 := by
  rw [C102_widths, C102_widths]
  norm_num

/-- The state after some steps. -/
def brun {M S B : Type} [DecidableEq M] (fields : M → S → B) (x : BSim M S B) (ops : List (BOp M S)) :
    BSim M S B := ops.foldl (BSim.step fields) x

/-- C102 (missing: setting a property directly): however often the model was set, the boundary fields are
those of the model and the property. -/
theorem C102_fresh_partial {M S B : Type} [DecidableEq M] (fields : M → S → B) (m : M) (s : S)
    (ops : List (BOp M S)) (hops : ∀ s', BOp.setSigma s' ∉ ops) :
    let x := brun fields ⟨m, s, none⟩ ops
    (x.get fields).1 = fields x.model x.sigma := by
  intro x
  have inv : ∀ (ops : List (BOp M S)) (y : BSim M S B), (∀ s', BOp.setSigma s' ∉ ops) →
      (∀ b, y.cache = some b → b = fields y.model y.sigma) →
      ∀ b, (brun fields y ops).cache = some b →
        b = fields (brun fields y ops).model (brun fields y ops).sigma := by
    intro ops
    induction ops with
    | nil => intro y _ h; exact h
    | cons op ops ih =>
      intro y ho hy
      refine ih (y.step fields op) (fun s' h => ho s' (List.mem_cons_of_mem _ h)) ?_
      cases op with
      | setModel m' =>
        simp only [BSim.step]
        split
        · exact hy
        · intro b hb; simp at hb
      | setSigma s' => exact absurd List.mem_cons_self (ho s')
      | query =>
        simp only [BSim.step, BSim.get]
        split
        · exact hy
        · intro b hb
          simp only [Option.some.injEq] at hb
          exact hb.symm
  have := inv ops ⟨m, s, none⟩ hops (by simp)
  simp only [BSim.get]
  split
  next b hb => exact this b hb
  · rfl

/-- C102 is violated: after a property was set directly, the boundary fields are those of the property
before. -/
theorem C102_violated_stale {M S B : Type} [DecidableEq M] (fields : M → S → B) (m : M) (s s' : S)
    (hs : fields m s ≠ fields m s') :
    let x := brun fields ⟨m, s, none⟩ [.query, .setSigma s']
    x.sigma = s' ∧ (x.get fields).1 ≠ fields x.model x.sigma :=
  ⟨rfl, hs⟩

/-- C102 (missing: values that differ): a property without a map gives the right magnetic field if it has
the same value in all cells. -/
theorem C102_direct_partial {k : Nat} (f : ℚ) (mui : Fin (k + 1) → ℝ) (ce : Fin (k + 1) → ℂ)
    (h : ∀ i j, mui i = mui j) (i : Fin (k + 1)) : hDirect f mui ce i = 1 / iw f * (mui i * ce i) := by
  simp only [hDirect, of_apply, h i 0]
  ring

/-- C102 is violated: with different values, every cell gets the first one. -/
theorem C102_violated_direct {k : Nat} (f : ℚ) (hf : f ≠ 0) (mui : Fin (k + 1) → ℝ)
    (ce : Fin (k + 1) → ℂ) (i : Fin (k + 1)) (hi : mui i ≠ mui 0) (hc : ce i ≠ 0) :
    hDirect f mui ce i = 1 / iw f * (mui 0 * ce i) ∧
    hDirect f mui ce i ≠ 1 / iw f * (mui i * ce i) := by
  have hw : iw f ≠ 0 := iw_ne hf
  have e : hDirect f mui ce i = 1 / iw f * (mui 0 * ce i) := by
    simp only [hDirect, of_apply]
    ring
  refine ⟨e, ?_⟩
  rw [e]
  intro h'
  apply hi
  field_simp at h'
  exact_mod_cast h'.symm

/-- A simulation meeting the hypotheses: the model is the conductivity. -/
def toyLow (F : Form) : Low Unit Unit Unit Unit Unit :=
  ⟨F, 1, toyConst 3, toyId, fun _ _ => 3, fun _ => 0⟩

theorem toyLow_good (F : Form) : LowGood (toyLow F) 1 fun _ => 5 where
  stiff := (toyConst_good 3 _ (by norm_num)).toGood
  mass := (toyId_good _ (by norm_num)).toGood
  prop := isJacobian_const _ _
  det := by
    rw [Matrix.det_unique]
    intro h0
    have := congrArg Complex.re h0
    simp [toyLow, toyId, toyConst, Low.A, Mass.mat, PDE.Inner.mat, iw, cm] at this

/-- Two sources with two receivers each; the boundary values depend on the model. -/
example (F : Form) : LowCorrect (toyLow F) (fun _ : Fin 2 =>
    (⟨1, lowRhs F 1 (of fun _ _ => 1) (bcTerm (fun _ : Unit => true)
      ((toyLow F).fieldTerm 1 (fixedRhs F 1 1) .other)
      ((toyLow F).fieldTerm 1 (fixedRhs F 1 1) .other)), 2,
      fun _ => ⟨1, .real, 1, false, .sol, .other, of fun _ _ => 1, of fun _ _ => 1⟩⟩ :
        LowSrc Unit Unit Unit)) fun _ => 5 :=
  C102_boundary_fields (toyLow F) (toyLow F) (toyLow F) (of fun _ _ => 1) (fun _ : Unit => true) 1 1 _ _
    (fun _ => rfl) (fun _ => toyLow_good F) (fun _ => toyLow_good F) fun _ => toyLow_good F

/-- The hypotheses of the theorems on Maxwell's equations can be met. -/
example : (toyLow .e).stiff.mat ℂ (fun _ => 5) =
    Matrix.diagonal fun i => ((1 * (toyLow .e).prop (fun _ => 5) i : ℝ) : ℂ) := by
  ext i j
  simp [toyLow, toyConst, Mass.mat, PDE.Inner.mat]

/-- The boundary fields after a change of the model and after a change of the property. -/
example : ((brun (fun (m s : Nat) => m + s) ⟨1, 10, none⟩
      [.query, .setModel 2, .query, .setModel 2]).get fun m s => m + s).1 = 12 ∧
    ((brun (fun (m s : Nat) => m + s) ⟨1, 10, none⟩
      [.query, .setSigma 20, .query]).get fun m s => m + s).1 = 11 := by
  decide

end

end Verif.NSEM.Props
