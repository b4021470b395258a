import Verif.PDE.Mass
import Verif.Flow.Richards

/-!
The static (direct current) resistivity simulations
(`simpeg/electromagnetics/static/resistivity/simulation.py`): system matrix, predicted data,
sensitivity products and the stored sensitivity matrix, in the nodal and the cell centred
formulation.

Simplified: the solver is exact; mesh operators are arbitrary matrices (the contracts needed from
`discretize` are hypotheses of the theorems); the fields handed to `Jvec`/`Jtvec` are those of the
model handed to them (what happens otherwise is in `Verif/DC/Cache.lean`); receivers measure the
potential or, in the cell centred formulation, the electric field; the miniaturised survey is in
`Verif/DC/Mini.lean`.
-/

namespace Verif.DC
open Matrix Verif.PDE

noncomputable section

variable {p s e f n : Type} [Fintype p] [Fintype s] [Fintype e] [Fintype f] [Fintype n]
  [DecidableEq e] [DecidableEq f] [DecidableEq n]

/-! ### System matrices -/

/-- "Handling Null space of A" (`simulation.py` 370-377 and 536-541): the first row is replaced by the
first unit vector. -/
def pinFirst (i0 : n) (A : Matrix n n ℝ) : Matrix n n ℝ :=
  fun i j => if i = i0 then (if j = i0 then 1 else 0) else A i j

/-- `Simulation3DNodal` (483-660).  `avg` is `_AvgBC`, `i0` the first node. -/
structure Nodal (p s e n : Type) where
  G : Matrix e n ℝ
  me : Inner e s
  fast : Bool
  avg : Matrix n s ℝ
  neumann : Bool
  i0 : n
  sigma : (p → ℝ) → s → ℝ
  sigmaD : (p → ℝ) → Matrix s p ℝ

/-- `Simulation3DNodal.getA` (523-555). -/
def Nodal.getA (o : Nodal p s e n) (m : p → ℝ) : Matrix n n ℝ :=
  let A := o.Gᵀ * o.me.mat ℝ (o.sigma m) * o.G
  if o.neumann then pinFirst o.i0 A else A + diagonal (o.avg *ᵥ o.sigma m)

/-- `Simulation3DNodal.getADeriv(u, v)` (557-571). -/
def Nodal.aDeriv (o : Nodal p s e n) (m : p → ℝ) (u : n → ℝ) (v : p → ℝ) : n → ℝ :=
  let out := o.Gᵀ *ᵥ (stash o.fast o.me (o.sigmaD m)).mul (o.G *ᵥ u) v
  if o.neumann then out
  else out + (Stash.sparse (s := s) (o.avg * o.sigmaD m)).mul u v

/-- `Simulation3DNodal.getADeriv(u, v, adjoint=True)` (557-571). -/
def Nodal.aDerivT (o : Nodal p s e n) (m : p → ℝ) (u w : n → ℝ) : p → ℝ :=
  let out := (stash o.fast o.me (o.sigmaD m)).mulT (o.G *ᵥ u) (o.G *ᵥ w)
  if o.neumann then out
  else out + (Stash.sparse (s := s) (o.avg * o.sigmaD m)).mulT u w

/-- Boundary conditions of the cell centred formulation (333-353). -/
inductive Bc where
  | dirichlet
  | neumann
  | robin
  deriving DecidableEq

/-- `Simulation3DCellCentered` (321-480).  `D` is `Div` (415), `B` the boundary part (478), `mfI` the
inverse face inner product of the constant one (`MfI`), `i0` the first cell. -/
structure Cell (p s f n : Type) where
  D : Matrix n f ℝ
  B : Matrix f n ℝ
  mfI : Matrix f f ℝ
  mf : Inner f s
  fast : Bool
  bc : Bc
  i0 : n
  rho : (p → ℝ) → s → ℝ
  rhoD : (p → ℝ) → Matrix s p ℝ

/-- `Grad` as left behind by `setBC` (412-480). -/
def Cell.grad (o : Cell p s f n) : Matrix f n ℝ :=
  match o.bc with
  | .dirichlet => o.Dᵀ
  | _ => o.Dᵀ - o.B

/-- `Simulation3DCellCentered.getA` (355-379). -/
def Cell.getA (o : Cell p s f n) (m : p → ℝ) : Matrix n n ℝ :=
  let A := o.D * (o.mf.mat ℝ (o.rho m))⁻¹ * o.grad
  if o.bc = .neumann then pinFirst o.i0 A else A

/-- `Simulation3DCellCentered.getADeriv(u, v)` (381-391). -/
def Cell.aDeriv (o : Cell p s f n) (m : p → ℝ) (u : n → ℝ) (v : p → ℝ) : n → ℝ :=
  o.D *ᵥ (stash o.fast o.mf (o.rhoD m)).mul (invArg o.mf (o.rho m) (o.grad *ᵥ u)) v

/-- `Simulation3DCellCentered.getADeriv(u, v, adjoint=True)` (381-391). -/
def Cell.aDerivT (o : Cell p s f n) (m : p → ℝ) (u w : n → ℝ) : p → ℝ :=
  (stash o.fast o.mf (o.rhoD m)).mulT (invArg o.mf (o.rho m) (o.grad *ᵥ u)) (o.Dᵀ *ᵥ w)

/-! ### Survey -/

/-- What a receiver measures: `phi` or `e` (`receivers.py`, `projField`). -/
inductive Field where
  | phi
  | e
  deriving DecidableEq

/-- A receiver of one source (`receivers.py` 11-244): `Pphi` or `Pe` is the projection `getP` for its
field, `geom` the geometric factor when the data type is apparent resistivity. -/
structure Rx (n f : Type) where
  nD : Nat
  field : Field
  Pphi : Matrix (Fin nD) n ℝ
  Pe : Matrix (Fin nD) f ℝ
  geom : Option (Fin nD → ℝ)

/-- A source: right-hand side (`sources.py` 64-88) and receivers. -/
structure Src (n f : Type) where
  q : n → ℝ
  rx : List (Rx n f)

/-- The projection applied to the potential: `P * f[src, projField]`; `F` takes the potential to the
electric field, `MfI * Grad` (`fields.py` 148-157). -/
def Rx.proj (r : Rx n f) (F : Matrix f n ℝ) (u : n → ℝ) : Fin r.nD → ℝ :=
  match r.field with
  | .phi => r.Pphi *ᵥ u
  | .e => r.Pe *ᵥ (F *ᵥ u)

/-- `BaseRx.eval` (`receivers.py` 156-192). -/
def Rx.eval (r : Rx n f) (F : Matrix f n ℝ) (u : n → ℝ) : Fin r.nD → ℝ :=
  match r.geom with
  | none => r.proj F u
  | some g => fun i => r.proj F u i / g i

/-- `BaseRx.evalDeriv(v)` (`receivers.py` 194-244) after `_phiDeriv`/`_eDeriv` (`fields.py` 19-54,
130-165; both `_phiDeriv_m` and `_eDeriv_m` are zero). -/
def Rx.deriv (r : Rx n f) (F : Matrix f n ℝ) (du : n → ℝ) : Fin r.nD → ℝ :=
  match r.geom with
  | none => r.proj F du
  | some g => fun i => 1 / g i * r.proj F du i

/-- `BaseRx.evalDeriv(w, adjoint=True)` followed by the adjoint of `_phiDeriv`/`_eDeriv`. -/
def Rx.derivT (r : Rx n f) (F : Matrix f n ℝ) (w : Fin r.nD → ℝ) : n → ℝ :=
  let w' : Fin r.nD → ℝ := match r.geom with
    | none => w
    | some g => fun i => 1 / g i * w i
  match r.field with
  | .phi => r.Pphiᵀ *ᵥ w'
  | .e => Fᵀ *ᵥ (r.Peᵀ *ᵥ w')

/-! ### The simulation -/

/-- What `BaseDCSimulation` needs from the formulation. -/
structure Sim (p n f : Type) where
  A : (p → ℝ) → Matrix n n ℝ
  aDeriv : (p → ℝ) → (n → ℝ) → (p → ℝ) → n → ℝ
  aDerivT : (p → ℝ) → (n → ℝ) → (n → ℝ) → p → ℝ
  F : Matrix f n ℝ
  sources : List (Src n f)

/-- The nodal simulation; only the potential can be differentiated (`fields.py` has no `_eDeriv_u` for
`Fields3DNodal`, 177-249). -/
def Nodal.sim (o : Nodal p s e n) (sources : List (Src n Empty)) : Sim p n Empty :=
  { A := o.getA, aDeriv := o.aDeriv, aDerivT := o.aDerivT, F := fun x => x.elim, sources := sources }

/-- The cell centred simulation. -/
def Cell.sim (o : Cell p s f n) (sources : List (Src n f)) : Sim p n f :=
  { A := o.getA, aDeriv := o.aDeriv, aDerivT := o.aDerivT, F := o.mfI * o.grad, sources := sources }

/-- The potential of one source: `fields` (100-113). -/
def Sim.solve (S : Sim p n f) (m : p → ℝ) (q : n → ℝ) : n → ℝ := (S.A m)⁻¹ *ᵥ q

/-- `dpred` without miniaturisation (123-135 and `BaseSimulation.dpred`). -/
def Sim.dpred (S : Sim p n f) (m : p → ℝ) : List ℝ :=
  S.sources.flatMap fun src => src.rx.flatMap fun r => List.ofFn (r.eval S.F (S.solve m src.q))

/-- `du_dm_v` of `Jvec` (176-179); `getRHSDeriv` is zero. -/
def Sim.du (S : Sim p n f) (m : p → ℝ) (q : n → ℝ) (v : p → ℝ) : n → ℝ :=
  (S.A m)⁻¹ *ᵥ (-(S.aDeriv m (S.solve m q) v))

/-- `Jvec` (156-187), with `storeJ = False`. -/
def Sim.Jvec (S : Sim p n f) (m v : p → ℝ) : List ℝ :=
  S.sources.flatMap fun src => src.rx.flatMap fun r => List.ofFn (r.deriv S.F (S.du m src.q v))

/-- One receiver's contribution to `_Jtvec` (229-251).  The solve is with `Ainv`, not with its
transpose. -/
def Sim.rxT (S : Sim p n f) (m : p → ℝ) (q : n → ℝ) (r : Rx n f) (w : Fin r.nD → ℝ) : p → ℝ :=
  -(S.aDerivT m (S.solve m q) ((S.A m)⁻¹ *ᵥ r.derivT S.F w))

/-- The receiver loop of `_Jtvec`, and what is left of the data vector after it. -/
def Sim.rxLoop (S : Sim p n f) (m : p → ℝ) (q : n → ℝ) : List (Rx n f) → List ℝ → (p → ℝ) × List ℝ
  | [], w => (0, w)
  | r :: rs, w =>
    let b := S.rxLoop m q rs (w.drop r.nD)
    (S.rxT m q r (fun i => w.getD i 0) + b.1, b.2)

/-- The source loop of `_Jtvec` (228-258); the slices of `get_all_slices` are the consecutive blocks
of the data vector. -/
def Sim.srcLoop (S : Sim p n f) (m : p → ℝ) : List (Src n f) → List ℝ → p → ℝ
  | [], _ => 0
  | src :: ss, w =>
    let b := S.rxLoop m src.q src.rx w
    b.1 + S.srcLoop m ss b.2

/-- `Jtvec` (189-203) with `storeJ = False`. -/
def Sim.Jtvec (S : Sim p n f) (m : p → ℝ) (w : List ℝ) : p → ℝ := S.srcLoop m S.sources w

/-- The rows of `getJ` (115-121): `_Jtvec` with `v=None` puts the contribution of every unit data
vector in its own column. -/
def Sim.getJ (S : Sim p n f) (m : p → ℝ) : List (p → ℝ) :=
  S.sources.flatMap fun src => src.rx.flatMap fun r =>
    List.ofFn fun i => S.rxT m src.q r (Pi.single i 1)

/-- `Jvec` with `storeJ = True` (165-167). -/
def Sim.JvecStored (S : Sim p n f) (m v : p → ℝ) : List ℝ := (S.getJ m).map fun row => row ⬝ᵥ v

end

end Verif.DC

namespace Verif.DC.Props
open Matrix Verif.PDE Verif.PDE.Props Verif.DC Verif.Flow.Richards.Props

noncomputable section

variable {p s e f n : Type} [Fintype p] [Fintype s] [Fintype e] [Fintype f] [Fintype n]
  [DecidableEq e] [DecidableEq f] [DecidableEq n]

set_option linter.unusedSectionVars false

/-! ### Specification -/

/-- The linear functionals a receiver measures, as a matrix acting on the potential. -/
def weights (r : Rx n f) (F : Matrix f n ℝ) : Matrix (Fin r.nD) n ℝ :=
  let P := match r.field with
    | .phi => r.Pphi
    | .e => r.Pe * F
  match r.geom with
  | none => P
  | some g => diagonal (fun i => (g i)⁻¹) * P

/-- The receiver measures a difference of potentials: a constant potential gives no data. -/
def Differences (r : Rx n f) : Prop := r.field = .phi → r.Pphi *ᵥ (fun _ => 1) = 0

/-! ### Auxiliary facts -/

theorem eval_weights (r : Rx n f) (F : Matrix f n ℝ) (u : n → ℝ) : r.eval F u = weights r F *ᵥ u := by
  cases r with
  | mk nD field Pphi Pe geom =>
    cases geom <;> cases field <;>
      simp [Rx.eval, Rx.proj, weights, ← Matrix.mulVec_mulVec]
    all_goals (funext i; rw [Matrix.mulVec_diagonal, div_eq_inv_mul])

theorem deriv_weights (r : Rx n f) (F : Matrix f n ℝ) (u : n → ℝ) :
    r.deriv F u = weights r F *ᵥ u := by
  cases r with
  | mk nD field Pphi Pe geom =>
    cases geom <;> cases field <;>
      simp [Rx.deriv, Rx.proj, weights, ← Matrix.mulVec_mulVec]
    all_goals (funext i; rw [Matrix.mulVec_diagonal])

theorem derivT_weights (r : Rx n f) (F : Matrix f n ℝ) (w : Fin r.nD → ℝ) :
    r.derivT F w = (weights r F)ᵀ *ᵥ w := by
  cases r with
  | mk nD field Pphi Pe geom =>
    cases geom <;> cases field <;>
      simp [Rx.derivT, weights, Matrix.transpose_mul, ← Matrix.mulVec_mulVec]
    all_goals (congr 1; try congr 1)
    all_goals (funext i; rw [Matrix.mulVec_diagonal])

theorem pin_mulVec (i0 : n) (A : Matrix n n ℝ) (u : n → ℝ) :
    pinFirst i0 A *ᵥ u = fun i => if i = i0 then u i0 else (A *ᵥ u) i := by
  funext i
  by_cases h : i = i0
  · simp [pinFirst, Matrix.mulVec, dotProduct, h]
  · simp [pinFirst, Matrix.mulVec, dotProduct, h]

theorem pin_one (i0 : n) (A : Matrix n n ℝ) (h1 : A *ᵥ (fun _ => 1) = 0) :
    pinFirst i0 A *ᵥ (fun _ => 1) = Pi.single i0 1 := by
  rw [pin_mulVec]
  funext i
  by_cases h : i = i0
  · subst h; simp
  · simp [h, h1]

/-- Solving with the pinned matrix from the first unit vector gives the constant. -/
theorem pin_inv_single (i0 : n) (A : Matrix n n ℝ) (h1 : A *ᵥ (fun _ => 1) = 0)
    (hdet : (pinFirst i0 A).det ≠ 0) : (pinFirst i0 A)⁻¹ *ᵥ Pi.single i0 1 = fun _ => 1 := by
  rw [← pin_one i0 A h1, Matrix.mulVec_mulVec,
    Matrix.nonsing_inv_mul _ (isUnit_iff_ne_zero.2 hdet), Matrix.one_mulVec]

/-- For data with total weight zero, solving with the pinned matrix or with its transpose differs by
a constant only. -/
theorem pin_inv_transpose (i0 : n) (A : Matrix n n ℝ) (hs : Aᵀ = A) (h1 : A *ᵥ (fun _ => 1) = 0)
    (hdet : (pinFirst i0 A).det ≠ 0) (y : n → ℝ) (hy : ∑ i, y i = 0) :
    ∃ c : ℝ, ((pinFirst i0 A)ᵀ)⁻¹ *ᵥ y = (pinFirst i0 A)⁻¹ *ᵥ y + fun _ => c := by
  set Q := pinFirst i0 A with hQ
  have hu : IsUnit Q.det := isUnit_iff_ne_zero.2 hdet
  have hut : IsUnit Qᵀ.det := by rw [Matrix.det_transpose]; exact hu
  set x := Q⁻¹ *ᵥ y with hx
  set z := (Qᵀ)⁻¹ *ᵥ y with hz
  have hQx : Q *ᵥ x = y := by
    rw [hx, Matrix.mulVec_mulVec, Matrix.mul_nonsing_inv _ hu, Matrix.one_mulVec]
  have hQz : Qᵀ *ᵥ z = y := by
    rw [hz, Matrix.mulVec_mulVec, Matrix.mul_nonsing_inv _ hut, Matrix.one_mulVec]
  -- the first entry of `z` vanishes
  have hz0 : z i0 = 0 := by
    have h2 : (Qᵀ *ᵥ z) ⬝ᵥ (fun _ => (1:ℝ)) = z ⬝ᵥ (Q *ᵥ fun _ => 1) := by
      rw [Matrix.dotProduct_mulVec, Matrix.mulVec_transpose]
    have h3 : y ⬝ᵥ (fun _ => (1:ℝ)) = 0 := by simpa [dotProduct] using hy
    rw [hQz, h3, hQ, pin_one i0 A h1] at h2
    simpa using h2.symm
  have hAz : ∀ i, i ≠ i0 → (A *ᵥ z) i = y i := by
    intro i hi
    have h := congrFun hQz i
    have hA : (A *ᵥ z) i = ∑ j, A i j * z j := rfl
    have hQi : (Qᵀ *ᵥ z) i = ∑ j, Q j i * z j := rfl
    rw [hA, ← h, hQi]
    refine Finset.sum_congr rfl fun j _ => ?_
    by_cases hj : j = i0
    · subst hj; rw [hz0]; simp
    · have : A i j = A j i := by
        have := congrFun (congrFun hs i) j
        simpa using this.symm
      simp [hQ, pinFirst, hj, this]
  refine ⟨-x i0, ?_⟩
  have hzero : Q *ᵥ (z - x + fun _ => x i0) = 0 := by
    rw [hQ, pin_mulVec]
    funext i
    by_cases hi : i = i0
    · subst hi; simp [hz0]
    · simp only [hi, if_false]
      rw [Matrix.mulVec_add, Matrix.mulVec_sub]
      have hc : (A *ᵥ fun _ => x i0) = 0 := by
        have : (fun _ : n => x i0) = x i0 • (fun _ : n => (1:ℝ)) := by funext; simp
        rw [this, Matrix.mulVec_smul, h1, smul_zero]
      have hAx : (A *ᵥ x) i = y i := by
        have h := congrFun hQx i
        rw [hQ, pin_mulVec] at h
        simpa [hi] using h
      rw [hc]
      simp [hAz i hi, hAx]
  have h0 : z - x + (fun _ => x i0) = 0 := by
    have := congrArg (fun t => Q⁻¹ *ᵥ t) hzero
    simpa [Matrix.mulVec_mulVec, Matrix.nonsing_inv_mul _ hu] using this
  funext i
  have := congrFun h0 i
  simp only [Pi.add_apply, Pi.sub_apply, Pi.zero_apply] at this ⊢
  linarith

/-- A matrix with one row set to zero. -/
def zeroRow (i0 : n) (M : Matrix n p ℝ) : Matrix n p ℝ := fun i j => if i = i0 then 0 else M i j

/-- The derivative of a pinned matrix times a fixed vector: the pinned row does not move. -/
theorem pin_jacobian {A : (p → ℝ) → Matrix n n ℝ} {m : p → ℝ} {dA : Matrix n p ℝ} (i0 : n)
    (u : n → ℝ) (h : IsJacobian (fun y => A y *ᵥ u) dA m) :
    IsJacobian (fun y => pinFirst i0 (A y) *ᵥ u) (zeroRow i0 dA) m := by
  rw [isJacobian_iff] at h ⊢
  intro i
  by_cases hi : i = i0
  · have : (fun y => (pinFirst i0 (A y) *ᵥ u) i) = fun _ => u i0 := by
      funext y; rw [pin_mulVec]; simp [hi]
    rw [this]
    have e : dotL (zeroRow i0 dA i) = 0 := by
      ext v; simp [zeroRow, hi, dotProduct]
    rw [e]
    exact hasFDerivAt_const (𝕜 := ℝ) (u i0) m
  · have : (fun y => (pinFirst i0 (A y) *ᵥ u) i) = fun y => (A y *ᵥ u) i := by
      funext y; rw [pin_mulVec]; simp [hi]
    rw [this]
    have e : zeroRow i0 dA i = dA i := by funext j; simp [zeroRow, hi]
    rw [e]
    exact h i

/-- The requirements on a formulation under which `Jvec` is exact for one source and receiver. -/
structure ExactAt (S : Sim p n f) (m : p → ℝ) (q : n → ℝ) (W : Matrix (Fin k) n ℝ) : Prop where
  diff : ∀ i j, DifferentiableAt ℝ (fun y => S.A y i j) m
  det : (S.A m).det ≠ 0
  ex : ∃ (dA : Matrix n p ℝ) (ℓ : p → ℝ) (z : n → ℝ),
    IsJacobian (fun y => S.A y *ᵥ S.solve m q) dA m ∧
    (∀ v, S.aDeriv m (S.solve m q) v = dA *ᵥ v + (ℓ ⬝ᵥ v) • z) ∧
    W *ᵥ ((S.A m)⁻¹ *ᵥ z) = 0

theorem exact_rx {S : Sim p n f} {m : p → ℝ} {q : n → ℝ} {r : Rx n f}
    (h : ExactAt S m q (weights r S.F)) :
    ∃ J : Matrix (Fin r.nD) p ℝ, IsJacobian (fun y => r.eval S.F (S.solve y q)) J m ∧
      ∀ v, r.deriv S.F (S.du m q v) = J *ᵥ v := by
  obtain ⟨dA, ℓ, z, hd, hv, hz⟩ := h.ex
  have key : IsJacobian (fun y => S.solve y q) ((S.A m)⁻¹ * (0 - dA)) m := by
    refine isJacK_real.1 ?_
    exact isJacK_solve (A := S.A) (q := fun _ => q) h.diff h.det (isJacK_real.2 hd)
      (isJacK_real.2 (isJacobian_const q m))
  refine ⟨weights r S.F * ((S.A m)⁻¹ * (0 - dA)), ?_, ?_⟩
  · simp only [eval_weights]
    exact key.mulVec _
  · intro v
    rw [deriv_weights, Sim.du, hv v, ← Matrix.mulVec_mulVec, ← Matrix.mulVec_mulVec, zero_sub,
      Matrix.neg_mulVec, neg_add, Matrix.mulVec_add, Matrix.mulVec_add]
    have h2 : weights r S.F *ᵥ ((S.A m)⁻¹ *ᵥ (-((ℓ ⬝ᵥ v) • z))) = 0 := by
      rw [Matrix.mulVec_neg, Matrix.mulVec_smul, Matrix.mulVec_neg, Matrix.mulVec_smul, hz,
        smul_zero, neg_zero]
    rw [h2, add_zero]

theorem exact_all {S : Sim p n f} {m : p → ℝ}
    (h : ∀ src ∈ S.sources, ∀ r ∈ src.rx, ExactAt S m src.q (weights r S.F)) :
    ∃ J : (src : Src n f) → (r : Rx n f) → Matrix (Fin r.nD) p ℝ,
      (∀ src ∈ S.sources, ∀ r ∈ src.rx,
        IsJacobian (fun y => r.eval S.F (S.solve y src.q)) (J src r) m) ∧
      ∀ v, S.Jvec m v =
        S.sources.flatMap fun src => src.rx.flatMap fun r => List.ofFn (J src r *ᵥ v) := by
  classical
  have key : ∀ src : Src n f, ∀ r : Rx n f, ∃ J : Matrix (Fin r.nD) p ℝ,
      src ∈ S.sources → r ∈ src.rx →
        IsJacobian (fun y => r.eval S.F (S.solve y src.q)) J m ∧
        ∀ v, r.deriv S.F (S.du m src.q v) = J *ᵥ v := by
    intro src r
    by_cases hm : src ∈ S.sources ∧ r ∈ src.rx
    · obtain ⟨J, hJ⟩ := exact_rx (h src hm.1 r hm.2)
      exact ⟨J, fun _ _ => hJ⟩
    · exact ⟨0, fun h1 h2 => absurd ⟨h1, h2⟩ hm⟩
  choose J hJ using key
  refine ⟨J, fun src hs r hr => (hJ src r hs hr).1, fun v => ?_⟩
  unfold Sim.Jvec
  refine List.flatMap_congr fun src hs => List.flatMap_congr fun r hr => ?_
  rw [(hJ src r hs hr).2 v]

/-- The requirements under which one receiver's adjoint is the adjoint. -/
structure AdjointAt (S : Sim p n f) (m : p → ℝ) (u : n → ℝ) (W : Matrix (Fin k) n ℝ) : Prop where
  pair : ∀ v x, S.aDeriv m u v ⬝ᵥ x = v ⬝ᵥ S.aDerivT m u x
  inv : ∀ w : Fin k → ℝ, ∃ z : n → ℝ,
    ((S.A m)ᵀ)⁻¹ *ᵥ (Wᵀ *ᵥ w) = (S.A m)⁻¹ *ᵥ (Wᵀ *ᵥ w) + z ∧ ∀ v, S.aDeriv m u v ⬝ᵥ z = 0

theorem adjoint_rx {S : Sim p n f} {m : p → ℝ} {q : n → ℝ} {r : Rx n f}
    (h : AdjointAt S m (S.solve m q) (weights r S.F)) (v : p → ℝ) (w : Fin r.nD → ℝ) :
    r.deriv S.F (S.du m q v) ⬝ᵥ w = v ⬝ᵥ S.rxT m q r w := by
  obtain ⟨z, hz, h0⟩ := h.inv w
  rw [deriv_weights, Sim.rxT, derivT_weights, Sim.du, dot_transpose, dot_inv, hz,
    dotProduct_add, neg_dotProduct, neg_dotProduct, h0 v, h.pair, dotProduct_neg, neg_zero,
    add_zero]

theorem dotList_nil_left (w : List ℝ) : dotList [] w = 0 := by simp [dotList]

theorem adjoint_loop {S : Sim p n f} {m : p → ℝ} {q : n → ℝ} (v : p → ℝ) :
    ∀ (rs : List (Rx n f)), (∀ r ∈ rs, AdjointAt S m (S.solve m q) (weights r S.F)) →
      ∀ w : List ℝ,
        dotList (rs.flatMap fun r => List.ofFn (r.deriv S.F (S.du m q v))) w =
          v ⬝ᵥ (S.rxLoop m q rs w).1 ∧
        (S.rxLoop m q rs w).2 =
          w.drop (rs.flatMap fun r => List.ofFn (r.deriv S.F (S.du m q v))).length := by
  intro rs
  induction rs with
  | nil => intro _ w; simp [Sim.rxLoop, dotList_nil_left]
  | cons r rs ih =>
    intro hall w
    have ih' := ih (fun r' hr' => hall r' (by simp [hr'])) (w.drop r.nD)
    have hr := adjoint_rx (hall r (by simp)) v fun i => w.getD i 0
    simp only [List.flatMap_cons, Sim.rxLoop]
    constructor
    · rw [dotList_append, dotList_ofFn, List.length_ofFn, ih'.1, dotProduct_add, hr]
    · rw [ih'.2]; simp [List.drop_drop]

theorem adjoint_all {S : Sim p n f} {m : p → ℝ}
    (h : ∀ src ∈ S.sources, ∀ r ∈ src.rx, AdjointAt S m (S.solve m src.q) (weights r S.F))
    (v : p → ℝ) (w : List ℝ) : dotList (S.Jvec m v) w = v ⬝ᵥ S.Jtvec m w := by
  unfold Sim.Jvec Sim.Jtvec
  generalize S.sources = ss at h
  induction ss generalizing w with
  | nil => simp [Sim.srcLoop, dotList_nil_left]
  | cons src ss ih =>
    have hl := adjoint_loop (S := S) (m := m) (q := src.q) v src.rx (h src (by simp)) w
    simp only [List.flatMap_cons, Sim.srcLoop]
    rw [dotList_append, dotProduct_add, hl.1, ← ih _ (fun s' hs' => h s' (by simp [hs'])), hl.2]

/-- Rows of the stored sensitivity times a model vector. -/
theorem stored_all {S : Sim p n f} {m : p → ℝ}
    (h : ∀ src ∈ S.sources, ∀ r ∈ src.rx, AdjointAt S m (S.solve m src.q) (weights r S.F))
    (v : p → ℝ) : S.JvecStored m v = S.Jvec m v := by
  unfold Sim.JvecStored Sim.getJ Sim.Jvec
  rw [List.map_flatMap]
  refine List.flatMap_congr fun src hs => ?_
  rw [List.map_flatMap]
  refine List.flatMap_congr fun r hr => ?_
  rw [List.map_ofFn]
  congr 1
  funext i
  have := adjoint_rx (h src hs r hr) v (Pi.single i 1)
  simp only [Function.comp]
  rw [dotProduct_comm, ← this]
  simp

/-! ### Auxiliary facts about the two formulations -/

theorem zeroRow_split (i0 : n) (M : Matrix n p ℝ) (v : p → ℝ) :
    M *ᵥ v = zeroRow i0 M *ᵥ v + (M i0 ⬝ᵥ v) • Pi.single i0 1 := by
  funext i
  by_cases h : i = i0
  · subst h; simp [zeroRow, Matrix.mulVec, dotProduct]
  · simp [zeroRow, Matrix.mulVec, dotProduct, h]

theorem diff_of_jacobian {A : (p → ℝ) → Matrix n n ℝ} {m : p → ℝ} {dA : (n → ℝ) → Matrix n p ℝ}
    (h : ∀ u, IsJacobian (fun y => A y *ᵥ u) (dA u) m) (i j : n) :
    DifferentiableAt ℝ (fun y => A y i j) m := by
  have h1 := ((isJacobian_iff.1 (h (Pi.single j 1))) i).differentiableAt
  simpa [Matrix.mulVec_single_one] using h1

theorem weights_one {r : Rx n f} {F : Matrix f n ℝ} (hr : Differences r)
    (hF : r.field = .e → F *ᵥ (fun _ => 1) = 0) : weights r F *ᵥ (fun _ => 1) = 0 := by
  rw [← eval_weights]
  cases r with
  | mk nD field Pphi Pe geom =>
    cases field with
    | phi =>
      have h1 : Pphi *ᵥ (fun _ => 1) = 0 := hr rfl
      cases geom <;> simp only [Rx.eval, Rx.proj, h1]
      funext i; simp
    | e =>
      have h1 : F *ᵥ (fun _ => 1) = 0 := hF rfl
      cases geom <;> simp only [Rx.eval, Rx.proj, h1, Matrix.mulVec_zero]
      funext i; simp

theorem sum_weightsT {k : Nat} (W : Matrix (Fin k) n ℝ) (h1 : W *ᵥ (fun _ => 1) = 0)
    (w : Fin k → ℝ) : ∑ i, (Wᵀ *ᵥ w) i = 0 := by
  have h : (Wᵀ *ᵥ w) ⬝ᵥ (fun _ => (1:ℝ)) = w ⬝ᵥ (W *ᵥ fun _ => 1) := by
    rw [Matrix.dotProduct_mulVec, Matrix.mulVec_transpose]
  rw [h1] at h
  simpa [dotProduct] using h

theorem mulVec_const {k : Type} (M : Matrix k n ℝ) (h1 : M *ᵥ (fun _ => 1) = 0) (c : ℝ) :
    M *ᵥ (fun _ => c) = 0 := by
  have : (fun _ : n => c) = c • (fun _ : n => (1:ℝ)) := by funext; simp
  rw [this, Matrix.mulVec_smul, h1, smul_zero]

/-- Derivative of the nodal matrix, before the boundary condition. -/
def nodalD (o : Nodal p s e n) (m : p → ℝ) (u : n → ℝ) : Matrix n p ℝ :=
  o.Gᵀ * (stash o.fast o.me (o.sigmaD m)).toMat (o.G *ᵥ u)

theorem nodal_base (o : Nodal p s e n) (m : p → ℝ) (hI : o.fast = true → Diagonal o.me)
    (hσ : IsJacobian o.sigma (o.sigmaD m) m) (u : n → ℝ) :
    IsJacobian (fun y => (o.Gᵀ * o.me.mat ℝ (o.sigma y) * o.G) *ᵥ u) (nodalD o m u) m := by
  have h := isJacK_real.1 (C67_derivative (𝕜 := ℝ) o.fast o.me hI hσ (o.G *ᵥ u)).1
  have h2 := h.mulVec o.Gᵀ
  simpa only [nodalD, Matrix.mulVec_mulVec, Matrix.mul_assoc] using h2

theorem nodal_bc (o : Nodal p s e n) (m : p → ℝ) (hσ : IsJacobian o.sigma (o.sigmaD m) m)
    (u : n → ℝ) :
    IsJacobian (fun y => diagonal (o.avg *ᵥ o.sigma y) *ᵥ u)
      (diagonal u * (o.avg * o.sigmaD m)) m := by
  have h := (isJacobian_const u m).mul (hσ.mulVec o.avg)
  have e : diagonal (o.avg *ᵥ o.sigma m) * (0 : Matrix n p ℝ) = 0 := Matrix.mul_zero _
  rw [e, add_zero] at h
  refine h.congr (Filter.Eventually.of_forall fun y => ?_)
  funext i
  rw [Matrix.mulVec_diagonal]
  simp [mul_comm]

theorem nodal_aDeriv (o : Nodal p s e n) (m : p → ℝ) (hI : o.fast = true → Diagonal o.me)
    (hσ : IsJacobian o.sigma (o.sigmaD m) m) (u : n → ℝ) (v : p → ℝ) :
    o.aDeriv m u v = nodalD o m u *ᵥ v +
      (if o.neumann then 0 else (diagonal u * (o.avg * o.sigmaD m)) *ᵥ v) := by
  have h := (C67_derivative (𝕜 := ℝ) o.fast o.me hI hσ (o.G *ᵥ u)).2.1 v
  unfold Nodal.aDeriv nodalD
  rw [h, Matrix.mulVec_mulVec]
  by_cases hn : o.neumann = true
  · simp [hn]
  · simp only [hn, if_false, Bool.false_eq_true]
    congr 1
    rw [← Matrix.mulVec_mulVec]
    funext i
    rw [Matrix.mulVec_diagonal]
    rfl

theorem nodal_pair (o : Nodal p s e n) (m : p → ℝ) (hI : o.fast = true → Diagonal o.me)
    (hσ : IsJacobian o.sigma (o.sigmaD m) m) (u x : n → ℝ) (v : p → ℝ) :
    o.aDeriv m u v ⬝ᵥ x = v ⬝ᵥ o.aDerivT m u x := by
  have h1 := (C67_derivative (𝕜 := ℝ) o.fast o.me hI hσ (o.G *ᵥ u)).2.1 v
  have h2 := (C67_derivative (𝕜 := ℝ) o.fast o.me hI hσ (o.G *ᵥ u)).2.2 (o.G *ᵥ x)
  have key : (o.Gᵀ *ᵥ (stash o.fast o.me (o.sigmaD m)).mul (o.G *ᵥ u) v) ⬝ᵥ x =
      v ⬝ᵥ (stash o.fast o.me (o.sigmaD m)).mulT (o.G *ᵥ u) (o.G *ᵥ x) := by
    rw [h1, h2, dot_transpose, Matrix.transpose_transpose, dot_transpose]
  unfold Nodal.aDeriv Nodal.aDerivT
  by_cases hn : o.neumann = true
  · simpa [hn] using key
  · simp only [hn, if_false, Bool.false_eq_true]
    rw [add_dotProduct, dotProduct_add, key]
    congr 1
    simp only [Stash.mul, Stash.mulT]
    rw [Matrix.dotProduct_mulVec, Matrix.vecMul_transpose]
    simp only [dotProduct]
    exact Finset.sum_congr rfl fun i _ => by ring

theorem nodal_base_symm (o : Nodal p s e n) (hS : Symmetric o.me) (m : p → ℝ) :
    (o.Gᵀ * o.me.mat ℝ (o.sigma m) * o.G)ᵀ = o.Gᵀ * o.me.mat ℝ (o.sigma m) * o.G := by
  simp [Matrix.transpose_mul, mat_symm hS, Matrix.mul_assoc]

/-! ### Property theorems: nodal formulation -/

/-- **C63 (nodal).** `Jvec` is the derivative of the predicted data.  With the Robin boundary condition
for every receiver; with the Neumann boundary condition for receivers which measure differences of
potentials (see `C63_neumann_pole_wrong`).  The hypotheses on the operators are that the gradient of a
constant is zero, and that inner products which the code treats as diagonal are so. -/
theorem C63_nodal (o : Nodal p s e n) (ss : List (Src n Empty)) (m : p → ℝ)
    (hI : o.fast = true → Diagonal o.me) (hσ : IsJacobian o.sigma (o.sigmaD m) m)
    (hdet : (o.getA m).det ≠ 0)
    (hN : o.neumann = true → o.G *ᵥ (fun _ => 1) = 0 ∧ ∀ src ∈ ss, ∀ r ∈ src.rx, Differences r) :
    ∃ J : (src : Src n Empty) → (r : Rx n Empty) → Matrix (Fin r.nD) p ℝ,
      (∀ src ∈ ss, ∀ r ∈ src.rx,
        IsJacobian (fun y => r.eval (o.sim ss).F ((o.sim ss).solve y src.q)) (J src r) m) ∧
      ∀ v, (o.sim ss).Jvec m v =
        ss.flatMap fun src => src.rx.flatMap fun r => List.ofFn (J src r *ᵥ v) := by
  refine exact_all (S := o.sim ss) ?_
  intro src hs r hr
  by_cases hn : o.neumann = true
  · obtain ⟨hG, hdiff⟩ := hN hn
    have hA : o.getA = fun y => pinFirst o.i0 (o.Gᵀ * o.me.mat ℝ (o.sigma y) * o.G) := by
      funext y; simp [Nodal.getA, hn]
    have hbase : (o.Gᵀ * o.me.mat ℝ (o.sigma m) * o.G) *ᵥ (fun _ => 1) = 0 := by
      rw [← Matrix.mulVec_mulVec, hG, Matrix.mulVec_zero]
    have hjac : ∀ u, IsJacobian (fun y => o.getA y *ᵥ u) (zeroRow o.i0 (nodalD o m u)) m := by
      intro u; rw [hA]; exact pin_jacobian o.i0 u (nodal_base o m hI hσ u)
    refine ⟨diff_of_jacobian hjac, hdet, zeroRow o.i0 (nodalD o m ((o.sim ss).solve m src.q)),
      nodalD o m ((o.sim ss).solve m src.q) o.i0, Pi.single o.i0 1, hjac _, ?_, ?_⟩
    · intro v
      have h := nodal_aDeriv o m hI hσ ((o.sim ss).solve m src.q) v
      simp only [hn, if_true, add_zero] at h
      exact h.trans (zeroRow_split o.i0 _ v)
    · have h1 : (o.getA m)⁻¹ *ᵥ Pi.single o.i0 1 = fun _ => 1 := by
        have hd := hdet
        rw [hA] at hd ⊢
        exact pin_inv_single o.i0 _ hbase hd
      change weights r _ *ᵥ ((o.getA m)⁻¹ *ᵥ Pi.single o.i0 1) = 0
      rw [h1]
      exact weights_one (hdiff src hs r hr) fun _ => funext fun x => x.elim
  · have hA : o.getA = fun y => o.Gᵀ * o.me.mat ℝ (o.sigma y) * o.G +
        diagonal (o.avg *ᵥ o.sigma y) := by
      funext y; simp [Nodal.getA, hn]
    have hjac : ∀ u, IsJacobian (fun y => o.getA y *ᵥ u)
        (nodalD o m u + diagonal u * (o.avg * o.sigmaD m)) m := by
      intro u
      rw [hA]
      simp only [Matrix.add_mulVec]
      exact (nodal_base o m hI hσ u).add (nodal_bc o m hσ u)
    refine ⟨diff_of_jacobian hjac, hdet, _, 0, 0, hjac _, ?_, ?_⟩
    · intro v
      have h := nodal_aDeriv o m hI hσ ((o.sim ss).solve m src.q) v
      simp only [hn, if_false, Bool.false_eq_true] at h
      rw [smul_zero, add_zero, Matrix.add_mulVec]
      exact h
    · simp

theorem nodal_adjointAt (o : Nodal p s e n) (ss : List (Src n Empty)) (m : p → ℝ)
    (hI : o.fast = true → Diagonal o.me) (hS : Symmetric o.me)
    (hσ : IsJacobian o.sigma (o.sigmaD m) m) (hdet : (o.getA m).det ≠ 0)
    (hN : o.neumann = true → o.G *ᵥ (fun _ => 1) = 0 ∧ ∀ src ∈ ss, ∀ r ∈ src.rx, Differences r) :
    ∀ src ∈ (o.sim ss).sources, ∀ r ∈ src.rx,
      AdjointAt (o.sim ss) m ((o.sim ss).solve m src.q) (weights r (o.sim ss).F) := by
  intro src hs r hr
  refine ⟨fun v x => nodal_pair o m hI hσ _ x v, fun w => ?_⟩
  by_cases hn : o.neumann = true
  · obtain ⟨hG, hdiff⟩ := hN hn
    have hA : o.getA m = pinFirst o.i0 (o.Gᵀ * o.me.mat ℝ (o.sigma m) * o.G) := by
      simp [Nodal.getA, hn]
    have hbase : (o.Gᵀ * o.me.mat ℝ (o.sigma m) * o.G) *ᵥ (fun _ => 1) = 0 := by
      rw [← Matrix.mulVec_mulVec, hG, Matrix.mulVec_zero]
    have hW : weights r (o.sim ss).F *ᵥ (fun _ => 1) = 0 :=
      weights_one (hdiff src hs r hr) fun _ => funext fun x => x.elim
    obtain ⟨c, hc⟩ := pin_inv_transpose o.i0 _ (nodal_base_symm o hS m) hbase (hA ▸ hdet)
      ((weights r (o.sim ss).F)ᵀ *ᵥ w) (sum_weightsT _ hW w)
    rw [← hA] at hc
    refine ⟨fun _ => c, hc, fun v => ?_⟩
    have h := nodal_pair o m hI hσ ((o.sim ss).solve m src.q) (fun _ => c) v
    refine h.trans ?_
    have h0 : o.aDerivT m ((o.sim ss).solve m src.q) (fun _ => c) = 0 := by
      simp only [Nodal.aDerivT, hn, if_true, mulVec_const o.G hG c]
      rw [(C67_derivative (𝕜 := ℝ) o.fast o.me hI hσ _).2.2 0, Matrix.mulVec_zero]
    rw [h0, dotProduct_zero]
  · refine ⟨0, ?_, fun v => dotProduct_zero _⟩
    have hA : (o.getA m)ᵀ = o.getA m := by
      simp only [Nodal.getA, hn, if_false, Bool.false_eq_true, Matrix.transpose_add,
        nodal_base_symm o hS, Matrix.diagonal_transpose]
    change ((o.getA m)ᵀ)⁻¹ *ᵥ _ = (o.getA m)⁻¹ *ᵥ _ + 0
    rw [hA, add_zero]

/-- **C64 (nodal).** `Jtvec` is the adjoint of `Jvec`, and the stored sensitivity matrix gives the same
products, for symmetric inner products; with the Neumann boundary condition for receivers which
measure differences. -/
theorem C64_nodal (o : Nodal p s e n) (ss : List (Src n Empty)) (m : p → ℝ)
    (hI : o.fast = true → Diagonal o.me) (hS : Symmetric o.me)
    (hσ : IsJacobian o.sigma (o.sigmaD m) m) (hdet : (o.getA m).det ≠ 0)
    (hN : o.neumann = true → o.G *ᵥ (fun _ => 1) = 0 ∧ ∀ src ∈ ss, ∀ r ∈ src.rx, Differences r)
    (v : p → ℝ) (w : List ℝ) :
    dotList ((o.sim ss).Jvec m v) w = v ⬝ᵥ (o.sim ss).Jtvec m w ∧
    (o.sim ss).JvecStored m v = (o.sim ss).Jvec m v :=
  ⟨adjoint_all (nodal_adjointAt o ss m hI hS hσ hdet hN) v w,
    stored_all (nodal_adjointAt o ss m hI hS hσ hdet hN) v⟩

/-! ### Property theorems: cell centred formulation -/

/-- The contracts of the mesh operators (`discretize`) used below: the boundary part only couples a
boundary face with its own cell; with the Neumann condition the gradient of a constant is zero, and
faces with a non-zero gradient are interior (what leaves one cell enters another). -/
structure CellOps (o : Cell p s f n) : Prop where
  locality : o.bc ≠ .dirichlet → ∀ i c c', o.B i c ≠ 0 → o.D c' i ≠ 0 → c' = c
  gradOne : o.bc = .neumann → o.grad *ᵥ (fun _ => 1) = 0
  interior : o.bc = .neumann → ∀ i, (∀ c, o.grad i c = 0) ∨ (o.Dᵀ *ᵥ fun _ => 1) i = 0

/-- Derivative of the cell centred matrix, before the boundary condition. -/
def cellD (o : Cell p s f n) (m : p → ℝ) (u : n → ℝ) : Matrix n p ℝ :=
  o.D * (stash o.fast o.mf (o.rhoD m)).toMat (invArg o.mf (o.rho m) (o.grad *ᵥ u))

theorem cell_base (o : Cell p s f n) (m : p → ℝ) (hI : Diagonal o.mf)
    (hρ : IsJacobian o.rho (o.rhoD m) m) (h0 : ∀ i, o.mf.mat ℝ (o.rho m) i i ≠ 0) (u : n → ℝ) :
    IsJacobian (fun y => (o.D * (o.mf.mat ℝ (o.rho y))⁻¹ * o.grad) *ᵥ u) (cellD o m u) m := by
  have h := isJacK_real.1 (C67_inverse_partial (𝕜 := ℝ) o.fast o.mf hI hρ (o.grad *ᵥ u) h0)
  have h2 := h.mulVec o.D
  simpa only [cellD, Matrix.mulVec_mulVec, Matrix.mul_assoc] using h2

theorem cell_aDeriv (o : Cell p s f n) (m : p → ℝ) (hI : Diagonal o.mf)
    (hρ : IsJacobian o.rho (o.rhoD m) m) (u : n → ℝ) (v : p → ℝ) :
    o.aDeriv m u v = cellD o m u *ᵥ v := by
  unfold Cell.aDeriv cellD
  rw [(C67_derivative (𝕜 := ℝ) o.fast o.mf (fun _ => hI) hρ _).2.1 v, Matrix.mulVec_mulVec]

theorem cell_pair (o : Cell p s f n) (m : p → ℝ) (hI : Diagonal o.mf)
    (hρ : IsJacobian o.rho (o.rhoD m) m) (u x : n → ℝ) (v : p → ℝ) :
    o.aDeriv m u v ⬝ᵥ x = v ⬝ᵥ o.aDerivT m u x := by
  unfold Cell.aDeriv Cell.aDerivT
  rw [(C67_derivative (𝕜 := ℝ) o.fast o.mf (fun _ => hI) hρ _).2.1 v,
    (C67_derivative (𝕜 := ℝ) o.fast o.mf (fun _ => hI) hρ _).2.2 _, dot_transpose, dot_transpose]

theorem mat_inv_diagonal {I : Inner f s} (hI : Diagonal I) (ρ : s → ℝ)
    (h0 : ∀ i, I.mat ℝ ρ i i ≠ 0) : (I.mat ℝ ρ)⁻¹ = diagonal fun i => (I.mat ℝ ρ i i)⁻¹ := by
  refine Matrix.inv_eq_left_inv ?_
  rw [mat_diagonal hI, Matrix.diagonal_mul_diagonal, ← Matrix.diagonal_one]
  congr 1
  funext i
  simp only [Matrix.diagonal_apply_eq]
  exact inv_mul_cancel₀ (h0 i)

/-- With a diagonal face inner product the system matrix, before pinning, is symmetric. -/
theorem cell_base_symm (o : Cell p s f n) (m : p → ℝ) (hO : CellOps o) (hI : Diagonal o.mf)
    (h0 : ∀ i, o.mf.mat ℝ (o.rho m) i i ≠ 0) :
    (o.D * (o.mf.mat ℝ (o.rho m))⁻¹ * o.grad)ᵀ = o.D * (o.mf.mat ℝ (o.rho m))⁻¹ * o.grad := by
  rw [mat_inv_diagonal hI _ h0]
  set g : f → ℝ := fun i => (o.mf.mat ℝ (o.rho m) i i)⁻¹
  have hsymm : (o.D * diagonal g * o.Dᵀ)ᵀ = o.D * diagonal g * o.Dᵀ := by
    simp [Matrix.transpose_mul, Matrix.mul_assoc]
  have hB : o.bc ≠ .dirichlet → (o.D * diagonal g * o.B)ᵀ = o.D * diagonal g * o.B := by
    intro hb
    have hdiag : ∀ a b, a ≠ b → (o.D * diagonal g * o.B) a b = 0 := by
      intro a b hab
      rw [Matrix.mul_apply]
      refine Finset.sum_eq_zero fun i _ => ?_
      rw [Matrix.mul_diagonal]
      by_cases h1 : o.B i b = 0
      · rw [h1, mul_zero]
      · by_cases h2 : o.D a i = 0
        · rw [h2]; ring
        · exact absurd (hO.locality hb i b a h1 h2) hab
    ext a b
    by_cases hab : a = b
    · subst hab; rfl
    · rw [Matrix.transpose_apply, hdiag a b hab, hdiag b a (Ne.symm hab)]
  unfold Cell.grad
  cases hb : o.bc with
  | dirichlet => exact hsymm
  | neumann =>
    simp only [Matrix.mul_sub, Matrix.transpose_sub]
    rw [hsymm, hB (by simp [hb])]
  | robin =>
    simp only [Matrix.mul_sub, Matrix.transpose_sub]
    rw [hsymm, hB (by simp [hb])]

/-- **C63 (cell centred).** `Jvec` is the derivative of the predicted data, for diagonal face inner
products: with Dirichlet and Robin conditions for every receiver of the potential or the electric
field, with the Neumann condition for differences of potentials and electric fields. -/
theorem C63_cell (o : Cell p s f n) (ss : List (Src n f)) (m : p → ℝ) (hO : CellOps o)
    (hI : Diagonal o.mf) (hρ : IsJacobian o.rho (o.rhoD m) m)
    (h0 : ∀ i, o.mf.mat ℝ (o.rho m) i i ≠ 0) (hdet : (o.getA m).det ≠ 0)
    (hN : o.bc = .neumann → ∀ src ∈ ss, ∀ r ∈ src.rx, Differences r) :
    ∃ J : (src : Src n f) → (r : Rx n f) → Matrix (Fin r.nD) p ℝ,
      (∀ src ∈ ss, ∀ r ∈ src.rx,
        IsJacobian (fun y => r.eval (o.sim ss).F ((o.sim ss).solve y src.q)) (J src r) m) ∧
      ∀ v, (o.sim ss).Jvec m v =
        ss.flatMap fun src => src.rx.flatMap fun r => List.ofFn (J src r *ᵥ v) := by
  refine exact_all (S := o.sim ss) ?_
  intro src hs r hr
  by_cases hn : o.bc = .neumann
  · have hG := hO.gradOne hn
    have hA : o.getA = fun y => pinFirst o.i0 (o.D * (o.mf.mat ℝ (o.rho y))⁻¹ * o.grad) := by
      funext y; simp [Cell.getA, hn]
    have hbase : (o.D * (o.mf.mat ℝ (o.rho m))⁻¹ * o.grad) *ᵥ (fun _ => 1) = 0 := by
      rw [← Matrix.mulVec_mulVec, hG, Matrix.mulVec_zero]
    have hjac : ∀ u, IsJacobian (fun y => o.getA y *ᵥ u) (zeroRow o.i0 (cellD o m u)) m := by
      intro u; rw [hA]; exact pin_jacobian o.i0 u (cell_base o m hI hρ h0 u)
    refine ⟨diff_of_jacobian hjac, hdet, zeroRow o.i0 (cellD o m ((o.sim ss).solve m src.q)),
      cellD o m ((o.sim ss).solve m src.q) o.i0, Pi.single o.i0 1, hjac _, ?_, ?_⟩
    · intro v
      exact (cell_aDeriv o m hI hρ _ v).trans (zeroRow_split o.i0 _ v)
    · have h1 : (o.getA m)⁻¹ *ᵥ Pi.single o.i0 1 = fun _ => 1 := by
        have hd := hdet
        rw [hA] at hd ⊢
        exact pin_inv_single o.i0 _ hbase hd
      change weights r _ *ᵥ ((o.getA m)⁻¹ *ᵥ Pi.single o.i0 1) = 0
      rw [h1]
      refine weights_one (hN hn src hs r hr) fun _ => ?_
      change (o.mfI * o.grad) *ᵥ (fun _ => 1) = 0
      rw [← Matrix.mulVec_mulVec, hG, Matrix.mulVec_zero]
  · have hA : o.getA = fun y => o.D * (o.mf.mat ℝ (o.rho y))⁻¹ * o.grad := by
      funext y; simp [Cell.getA, hn]
    have hjac : ∀ u, IsJacobian (fun y => o.getA y *ᵥ u) (cellD o m u) m := by
      intro u; rw [hA]; exact cell_base o m hI hρ h0 u
    refine ⟨diff_of_jacobian hjac, hdet, cellD o m _, 0, 0, hjac _, ?_, ?_⟩
    · intro v
      rw [smul_zero, add_zero]
      exact cell_aDeriv o m hI hρ _ v
    · simp

theorem cell_adjointAt (o : Cell p s f n) (ss : List (Src n f)) (m : p → ℝ) (hO : CellOps o)
    (hI : Diagonal o.mf) (hρ : IsJacobian o.rho (o.rhoD m) m)
    (h0 : ∀ i, o.mf.mat ℝ (o.rho m) i i ≠ 0) (hdet : (o.getA m).det ≠ 0)
    (hN : o.bc = .neumann → ∀ src ∈ ss, ∀ r ∈ src.rx, Differences r) :
    ∀ src ∈ (o.sim ss).sources, ∀ r ∈ src.rx,
      AdjointAt (o.sim ss) m ((o.sim ss).solve m src.q) (weights r (o.sim ss).F) := by
  intro src hs r hr
  refine ⟨fun v x => cell_pair o m hI hρ _ x v, fun w => ?_⟩
  have hsym := cell_base_symm o m hO hI h0
  by_cases hn : o.bc = .neumann
  · have hG := hO.gradOne hn
    have hA : o.getA m = pinFirst o.i0 (o.D * (o.mf.mat ℝ (o.rho m))⁻¹ * o.grad) := by
      simp [Cell.getA, hn]
    have hbase : (o.D * (o.mf.mat ℝ (o.rho m))⁻¹ * o.grad) *ᵥ (fun _ => 1) = 0 := by
      rw [← Matrix.mulVec_mulVec, hG, Matrix.mulVec_zero]
    have hW : weights r (o.sim ss).F *ᵥ (fun _ => 1) = 0 := by
      refine weights_one (hN hn src hs r hr) fun _ => ?_
      change (o.mfI * o.grad) *ᵥ (fun _ => 1) = 0
      rw [← Matrix.mulVec_mulVec, hG, Matrix.mulVec_zero]
    obtain ⟨c, hc⟩ := pin_inv_transpose o.i0 _ hsym hbase (hA ▸ hdet)
      ((weights r (o.sim ss).F)ᵀ *ᵥ w) (sum_weightsT _ hW w)
    rw [← hA] at hc
    refine ⟨fun _ => c, hc, fun v => ?_⟩
    have h := cell_pair o m hI hρ ((o.sim ss).solve m src.q) (fun _ => c) v
    refine h.trans ?_
    have h0' : o.aDerivT m ((o.sim ss).solve m src.q) (fun _ => c) = 0 := by
      unfold Cell.aDerivT
      rw [(C67_derivative (𝕜 := ℝ) o.fast o.mf (fun _ => hI) hρ _).2.2 _,
        toMat_stash o.fast o.mf (fun _ => hI), deriv_diagonal hI, Matrix.transpose_mul,
        Matrix.transpose_mul, Matrix.diagonal_transpose, ← Matrix.mulVec_mulVec,
        ← Matrix.mulVec_mulVec]
      have hz : diagonal (invArg o.mf (o.rho m) (o.grad *ᵥ (o.sim ss).solve m src.q)) *ᵥ
          (o.Dᵀ *ᵥ fun _ => c) = 0 := by
        funext i
        rw [Matrix.mulVec_diagonal]
        rcases hO.interior hn i with hi | hi
        · have : invArg o.mf (o.rho m) (o.grad *ᵥ (o.sim ss).solve m src.q) i = 0 := by
            unfold invArg
            rw [mat_inv_diagonal hI _ h0, Matrix.mulVec_diagonal, Matrix.mulVec_diagonal]
            simp [Matrix.mulVec, dotProduct, hi]
          rw [this, zero_mul]; rfl
        · have : (o.Dᵀ *ᵥ fun _ => c) i = 0 := by
            have hc1 : (fun _ : n => c) = c • (fun _ : n => (1:ℝ)) := by funext; simp
            rw [hc1, Matrix.mulVec_smul, Pi.smul_apply, hi, smul_zero]
          rw [this, mul_zero]; rfl
      rw [hz, Matrix.mulVec_zero, Matrix.mulVec_zero]
    rw [h0', dotProduct_zero]
  · refine ⟨0, ?_, fun v => dotProduct_zero _⟩
    have hA : (o.getA m)ᵀ = o.getA m := by
      simp only [Cell.getA, hn, if_false]
      exact hsym
    change ((o.getA m)ᵀ)⁻¹ *ᵥ _ = (o.getA m)⁻¹ *ᵥ _ + 0
    rw [hA, add_zero]

/-- **C64 (cell centred).** `Jtvec` is the adjoint of `Jvec`, and the stored sensitivity matrix gives
the same products. -/
theorem C64_cell (o : Cell p s f n) (ss : List (Src n f)) (m : p → ℝ) (hO : CellOps o)
    (hI : Diagonal o.mf) (hρ : IsJacobian o.rho (o.rhoD m) m)
    (h0 : ∀ i, o.mf.mat ℝ (o.rho m) i i ≠ 0) (hdet : (o.getA m).det ≠ 0)
    (hN : o.bc = .neumann → ∀ src ∈ ss, ∀ r ∈ src.rx, Differences r) (v : p → ℝ) (w : List ℝ) :
    dotList ((o.sim ss).Jvec m v) w = v ⬝ᵥ (o.sim ss).Jtvec m w ∧
    (o.sim ss).JvecStored m v = (o.sim ss).Jvec m v :=
  ⟨adjoint_all (cell_adjointAt o ss m hO hI hρ h0 hdet hN) v w,
    stored_all (cell_adjointAt o ss m hO hI hρ h0 hdet hN) v⟩

/-! ### A concrete mesh: two cells and the face between them -/

/-- Two cells with the resistivity of the face between them as model. -/
def exCell (bc : Bc) : Cell (Fin 1) (Fin 1) (Fin 1) (Fin 2) :=
  { D := !![1; -1], B := 0, mfI := 1, mf := ⟨fun _ _ _ => 1⟩, fast := true, bc := bc, i0 := 0,
    rho := fun m => m, rhoD := fun _ => 1 }

/-- A current into the second cell, with a receiver of the given potential weights. -/
def exRx (P : Matrix (Fin 1) (Fin 2) ℝ) : Rx (Fin 2) (Fin 1) :=
  { nD := 1, field := .phi, Pphi := P, Pe := 0, geom := none }

/-- See `exRx`. -/
def exSrc (P : Matrix (Fin 1) (Fin 2) ℝ) : Src (Fin 2) (Fin 1) := { q := ![0, 1], rx := [exRx P] }

/-- The cell centred Neumann simulation with that source and receiver. -/
def exSim (P : Matrix (Fin 1) (Fin 2) ℝ) : Sim (Fin 1) (Fin 2) (Fin 1) :=
  (exCell .neumann).sim [exSrc P]

theorem ex_ops : CellOps (exCell .neumann) := by
  refine ⟨fun _ i c c' h => absurd rfl h, fun _ => ?_, fun _ i => Or.inr ?_⟩
  · funext i; fin_cases i; simp [exCell, Cell.grad, Matrix.mulVec, dotProduct, Fin.sum_univ_two]
  · fin_cases i; simp [exCell, Matrix.mulVec, dotProduct, Fin.sum_univ_two]

theorem ex_diag : Diagonal (exCell .neumann).mf := fun i j _ h => absurd (Subsingleton.elim i j) h

theorem ex_mat (m : Fin 1 → ℝ) : (exCell .neumann).mf.mat ℝ m = diagonal m := by
  ext i j; fin_cases i; fin_cases j; simp [Inner.mat, exCell]

theorem ex_matInv (m : Fin 1 → ℝ) (hm : m 0 ≠ 0) :
    ((exCell .neumann).mf.mat ℝ m)⁻¹ = diagonal fun _ => (m 0)⁻¹ := by
  refine Matrix.inv_eq_left_inv ?_
  rw [ex_mat]
  ext i j; fin_cases i; fin_cases j; simp [hm]

theorem ex_A (m : Fin 1 → ℝ) (hm : m 0 ≠ 0) :
    (exCell .neumann).getA m = !![1, 0; -(m 0)⁻¹, (m 0)⁻¹] := by
  have h := ex_matInv m hm
  simp only [Cell.getA]
  have e : (exCell .neumann).rho m = m := rfl
  rw [e, h]
  ext i j
  fin_cases i <;> fin_cases j <;>
    simp [exCell, pinFirst, Cell.grad, Matrix.mul_apply]

theorem ex_AInv (m : Fin 1 → ℝ) (hm : m 0 ≠ 0) :
    ((exCell .neumann).getA m)⁻¹ = !![1, 0; 1, m 0] := by
  rw [ex_A m hm]
  refine Matrix.inv_eq_left_inv ?_
  ext i j
  fin_cases i <;> fin_cases j <;> simp [Matrix.mul_apply, Fin.sum_univ_two, hm]

/-- The potential of the second cell is the resistivity. -/
theorem ex_solve (P : Matrix (Fin 1) (Fin 2) ℝ) (m : Fin 1 → ℝ) (hm : m 0 ≠ 0) :
    (exSim P).solve m ![0, 1] = ![0, m 0] := by
  change ((exCell .neumann).getA m)⁻¹ *ᵥ ![0, 1] = _
  rw [ex_AInv m hm]
  funext i
  fin_cases i <;> simp [Matrix.mulVec, dotProduct, Fin.sum_univ_two]

theorem ex_aDeriv (m : Fin 1 → ℝ) (hm : m 0 ≠ 0) (v : Fin 1 → ℝ) :
    (exCell .neumann).aDeriv m ![0, m 0] v = ![v 0 / m 0, -(v 0 / m 0)] := by
  have e : (exCell .neumann).rho m = m := rfl
  unfold Cell.aDeriv invArg
  rw [e, ex_matInv m hm]
  funext i
  fin_cases i <;>
    simp [exCell, Cell.grad, stash, Stash.mul, Matrix.mulVec, dotProduct, Inner.deriv,
      Matrix.diagonal_apply, Fin.sum_univ_two] <;> field_simp

theorem ex_aDerivT (m : Fin 1 → ℝ) (hm : m 0 ≠ 0) (x : Fin 2 → ℝ) :
    (exCell .neumann).aDerivT m ![0, m 0] x = ![(x 0 - x 1) / m 0] := by
  have e : (exCell .neumann).rho m = m := rfl
  unfold Cell.aDerivT invArg
  rw [e, ex_matInv m hm]
  funext i
  fin_cases i
  simp [exCell, Cell.grad, stash, Stash.mulT, Matrix.mulVec, dotProduct, Inner.deriv,
    Matrix.diagonal_apply, Fin.sum_univ_two]
  field_simp
  ring

theorem ex_dpred (P : Matrix (Fin 1) (Fin 2) ℝ) (m : Fin 1 → ℝ) (hm : m 0 ≠ 0) :
    (exSim P).dpred m = [P 0 1 * m 0] := by
  have h : (exSim P).dpred m = List.ofFn (P *ᵥ (exSim P).solve m ![0, 1]) := by
    change (_ ++ []) ++ [] = _
    rw [List.append_nil, List.append_nil]
    rfl
  rw [h, ex_solve P m hm]
  simp [Matrix.mulVec, dotProduct, Fin.sum_univ_two]

theorem ex_Jvec (P : Matrix (Fin 1) (Fin 2) ℝ) (m : Fin 1 → ℝ) (hm : m 0 ≠ 0) (v : Fin 1 → ℝ) :
    (exSim P).Jvec m v = [P 0 0 * (-(v 0 / m 0)) + P 0 1 * (v 0 - v 0 / m 0)] := by
  have h : (exSim P).Jvec m v = List.ofFn (P *ᵥ (((exCell .neumann).getA m)⁻¹ *ᵥ
      -((exCell .neumann).aDeriv m ((exSim P).solve m ![0, 1]) v))) := by
    change (_ ++ []) ++ [] = _
    rw [List.append_nil, List.append_nil]
    rfl
  rw [h, ex_solve P m hm, ex_AInv m hm, ex_aDeriv m hm]
  simp [Matrix.mulVec, dotProduct, Fin.sum_univ_two]
  field_simp
  ring_nf
  exact Or.inl trivial

theorem ex_Jtvec (P : Matrix (Fin 1) (Fin 2) ℝ) (m : Fin 1 → ℝ) (hm : m 0 ≠ 0) (w : ℝ) :
    (exSim P).Jtvec m [w] = ![P 0 1 * w] := by
  have h : (exSim P).Jtvec m [w] =
      -((exCell .neumann).aDerivT m ((exSim P).solve m ![0, 1])
        (((exCell .neumann).getA m)⁻¹ *ᵥ (Pᵀ *ᵥ fun i => [w].getD i 0))) := by
    change (_ + 0) + 0 = _
    rw [add_zero, add_zero]
    rfl
  rw [h, ex_solve P m hm, ex_AInv m hm, ex_aDerivT m hm]
  funext i
  fin_cases i
  simp [Matrix.mulVec, dotProduct, Fin.sum_univ_two]
  field_simp

/-- Non-vacuity: all the hypotheses of `C63_cell` and `C64_cell` hold with the Neumann condition, a
dipole receiver and resistivity two. -/
example : CellOps (exCell .neumann) ∧ Diagonal (exCell .neumann).mf ∧
    IsJacobian (exCell .neumann).rho ((exCell .neumann).rhoD ![2]) ![2] ∧
    (∀ i, (exCell .neumann).mf.mat ℝ ((exCell .neumann).rho ![2]) i i ≠ 0) ∧
    ((exCell .neumann).getA ![2]).det ≠ 0 ∧
    (∀ src ∈ [exSrc !![-1, 1]], ∀ r ∈ src.rx, Differences r) ∧
    (exSim !![-1, 1]).dpred ![2] = [2] ∧ (exSim !![-1, 1]).Jvec ![2] ![1] = [1] := by
  refine ⟨ex_ops, ex_diag, isJacobian_id _, ?_, ?_, ?_, ?_, ?_⟩
  · intro i
    have e : (exCell .neumann).rho ![2] = ![2] := rfl
    rw [e, ex_mat]; fin_cases i; simp
  · rw [ex_A _ (by simp)]; simp [Matrix.det_fin_two]
  · intro src hs r hr _
    simp only [List.mem_singleton] at hs
    subst hs
    simp only [exSrc, List.mem_singleton] at hr
    subst hr
    funext i
    have hi : i = (0 : Fin 1) := Subsingleton.elim (α := Fin 1) i 0
    subst hi
    simp [exRx, Matrix.mulVec, dotProduct, Fin.sum_univ_two]
    rfl
  · rw [ex_dpred _ _ (by simp)]; simp
  · rw [ex_Jvec _ _ (by simp)]; simp

/-- Two nodes and the edge between them, with Robin conditions at both ends and the conductivity of
the edge as model. -/
def exNodal : Nodal (Fin 1) (Fin 1) (Fin 1) (Fin 2) :=
  { G := !![-1, 1], me := ⟨fun _ _ _ => 1⟩, fast := true, avg := !![1; 1], neumann := false, i0 := 0,
    sigma := fun m => m, sigmaD := fun _ => 1 }

theorem exNodal_A (m : Fin 1 → ℝ) : exNodal.getA m = !![2 * m 0, -m 0; -m 0, 2 * m 0] := by
  ext i j
  fin_cases i <;> fin_cases j <;>
    simp [exNodal, Nodal.getA, Inner.mat, Matrix.mul_apply, Matrix.mulVec, dotProduct] <;> ring

example : (exNodal.fast = true → Diagonal exNodal.me) ∧ Symmetric exNodal.me ∧
    IsJacobian exNodal.sigma (exNodal.sigmaD ![2]) ![2] ∧ (exNodal.getA ![2]).det ≠ 0 := by
  have hd : Diagonal exNodal.me := by
    intro i j _ h
    exact absurd (Subsingleton.elim (α := Fin 1) i j) h
  refine ⟨fun _ => hd, diagonal_symmetric hd, isJacobian_id _, ?_⟩
  rw [exNodal_A]
  norm_num [Matrix.det_fin_two]

/-- **C63 fails for single electrodes with the Neumann condition.** On a two cell mesh the predicted
potential of the second cell is the resistivity `ρ`, so its derivative is `1`, but `Jvec` returns
`1 - 1/ρ`: `getADeriv` also differentiates the row which `getA` has replaced. -/
theorem C63_neumann_pole_wrong (ρ v : ℝ) (hρ : ρ ≠ 0) :
    (exSim !![0, 1]).dpred ![ρ] = [ρ] ∧ (exSim !![0, 1]).Jvec ![ρ] ![v] = [v - v / ρ] := by
  have hm : (![ρ] : Fin 1 → ℝ) 0 ≠ 0 := by simpa using hρ
  rw [ex_dpred _ _ hm, ex_Jvec _ _ hm]
  simp

/-- **C64 fails for single electrodes with the Neumann condition**: `Jtvec` is not the adjoint of
`Jvec`. -/
theorem C64_neumann_pole_wrong :
    dotList ((exSim !![0, 1]).Jvec ![2] ![1]) [1] ≠ ![1] ⬝ᵥ (exSim !![0, 1]).Jtvec ![2] [1] := by
  have hm : (![2] : Fin 1 → ℝ) 0 ≠ 0 := by simp
  rw [ex_Jvec _ _ hm, ex_Jtvec _ _ hm]
  norm_num [dotList, dotProduct]

end

end Verif.DC.Props
