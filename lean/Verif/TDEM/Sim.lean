import Verif.EM.Mass
import Verif.Flow.Richards

/-!
The time domain simulations (`simpeg/electromagnetics/time_domain/simulation.py` 18-632,
`receivers.py` 104-208, `simpeg/simulation.py` 470-607), independently of the formulation: time
stepping, predicted data, `Jvec` and `Jtvec`.

Simplified: the solver is exact; the fields handed to the products are those of the model handed to
them; a term which is `Zero()` is a zero vector; the sums over sources and receivers, which the code
nests inside the loops over time, are taken source by source; the receivers of a source are distinct
objects, so that the slices of the data vector are consecutive.
-/

namespace Verif.TDEM
open Matrix

noncomputable section

variable {p n g : Type} [Fintype p] [Fintype n] [Fintype g] [DecidableEq n]
variable {K : Type} {L : K → Type} [∀ k, Fintype (L k)]

/-- A field computed from the solution at the time with the given index, with the derivatives
`_xDeriv_u` and `_xDeriv_m` of the fields object and their adjoints (`fields.py`).  The arguments are
the time index, the model, the solution, and the vector the derivative is applied to. -/
structure FieldFn (p n g : Type) where
  val : ℕ → (p → ℝ) → (n → ℝ) → g → ℝ
  du : ℕ → (p → ℝ) → (n → ℝ) → g → ℝ
  duT : ℕ → (p → ℝ) → (g → ℝ) → n → ℝ
  dm : ℕ → (p → ℝ) → (n → ℝ) → (p → ℝ) → g → ℝ
  dmT : ℕ → (p → ℝ) → (n → ℝ) → (g → ℝ) → p → ℝ

/-- A receiver (`receivers.py`): the field it measures (`projField`), the interpolation in time
`getTimeP` (row, time index) and in space `getSpatialP`. -/
structure Rx (K : Type) (L : K → Type) where
  nTimes : Nat
  nLoc : Nat
  field : K
  Pt : Fin nTimes → ℕ → ℝ
  Ps : Matrix (Fin nLoc) (L field) ℝ

/-- `rx.nD`. -/
abbrev Rx.nD (r : Rx K L) : Nat := r.nTimes * r.nLoc

/-- The columns of `P = kron(Pt, Ps)` (`receivers.py` 123-153) which belong to the time index `k`. -/
def Rx.P (r : Rx K L) (k : ℕ) : Matrix (Fin r.nD) (L r.field) ℝ :=
  Matrix.of fun d x => r.Pt (finProdFinEquiv.symm d).1 k * r.Ps (finProdFinEquiv.symm d).2 x

/-- `rx.eval` and `rx.evalDeriv` (`receivers.py` 155-204): `P` times the field (or its derivative) at
the times `0 … N`, stacked. -/
def Rx.apply (r : Rx K L) (N : ℕ) (x : ℕ → L r.field → ℝ) : Fin r.nD → ℝ :=
  ∑ k ∈ Finset.range (N + 1), r.P k *ᵥ x k

/-- A source as the simulation sees it: its column of `getRHS`, `getRHSDeriv` and the adjoint (by time
index), the initial solution and its derivative (`getInitialFields` 489-513, `getInitialFieldsDeriv`
515-571; the latter is also given the initial solution itself), and the fields. -/
structure Src (p n : Type) (K : Type) (L : K → Type) where
  rhs : ℕ → (p → ℝ) → n → ℝ
  rhsD : ℕ → (p → ℝ) → (p → ℝ) → n → ℝ
  rhsDT : ℕ → (p → ℝ) → (n → ℝ) → p → ℝ
  init : (p → ℝ) → n → ℝ
  initD : (p → ℝ) → (n → ℝ) → (p → ℝ) → n → ℝ
  fld : (k : K) → FieldFn p n (L k)
  rx : List (Rx K L)

/-- The number of data of a source. -/
def Src.nD (s : Src p n K L) : Nat := (s.rx.map fun r => r.nD).sum

/-- A simulation: the time steps, `dt_threshold`, the matrices `getAdiag` and `getAsubdiag`, which
depend on the time index only through the time step, and the products with their derivatives. -/
structure Sim (p n : Type) (K : Type) (L : K → Type) where
  dts : List ℝ
  thr : ℝ
  Adiag : ℝ → (p → ℝ) → Matrix n n ℝ
  Asub : ℝ → (p → ℝ) → Matrix n n ℝ
  AdiagD : ℝ → (p → ℝ) → (n → ℝ) → (p → ℝ) → n → ℝ
  AdiagDT : ℝ → (p → ℝ) → (n → ℝ) → (n → ℝ) → p → ℝ
  AsubD : ℝ → (p → ℝ) → (n → ℝ) → (p → ℝ) → n → ℝ
  AsubDT : ℝ → (p → ℝ) → (n → ℝ) → (n → ℝ) → p → ℝ
  sources : List (Src p n K L)

/-- `nT` (`simpeg/simulation.py` 563-572). -/
def Sim.nT (S : Sim p n K L) : ℕ := S.dts.length

/-- `time_steps[k]`. -/
def Sim.dt (S : Sim p n K L) (k : ℕ) : ℝ := S.dts.getD k 0

/-- The time step for which the matrix used at step `k` of `fields` was factored (128-141): it is
factored anew when the step has changed by more than `dt_threshold`. -/
def Sim.fac (S : Sim p n K L) : ℕ → ℝ
  | 0 => S.dt 0
  | k + 1 => if S.thr < |S.dt (k + 1) - S.dt k| then S.dt (k + 1) else S.fac k

/-- `fields` (102-166): the solution for a source at the time with index `k`. -/
def Sim.sol (S : Sim p n K L) (m : p → ℝ) (s : Src p n K L) : ℕ → n → ℝ
  | 0 => s.init m
  | k + 1 => (S.Adiag (S.fac k) m)⁻¹ *ᵥ (s.rhs (k + 1) m - S.Asub (S.dt k) m *ᵥ S.sol m s k)

/-- The data of a source. -/
def Sim.srcData (S : Sim p n K L) (m : p → ℝ) (s : Src p n K L) : List ℝ :=
  s.rx.flatMap fun r =>
    List.ofFn (r.apply S.nT fun k => (s.fld r.field).val k m (S.sol m s k))

/-- `dpred` (`simpeg/simulation.py` 589-607); without time steps `Ainv.clean()` (165) fails. -/
def Sim.dpred (S : Sim p n K L) (m : p → ℝ) : Except Err (List ℝ) :=
  if S.nT = 0 then .error .attributeError else .ok (S.sources.flatMap (S.srcData m))

/-- The time step for which the matrix used at step `k` of `Jvec` was factored (229-238): any change
of the step counts. -/
def Sim.jfac (S : Sim p n K L) : ℕ → ℝ
  | 0 => S.dt 0
  | k + 1 => if S.dt (k + 1) ≠ S.dt k then S.dt (k + 1) else S.jfac k

/-- `dun_dm_v` (217-222, 256-267) at the time with index `k`. -/
def Sim.dun (S : Sim p n K L) (m v : p → ℝ) (s : Src p n K L) : ℕ → n → ℝ
  | 0 => s.initD m (S.sol m s 0) v
  | k + 1 => (S.Adiag (S.jfac k) m)⁻¹ *ᵥ
      (s.rhsD (k + 1) m v - S.AsubD (S.dt k) m (S.sol m s k) v -
        S.AdiagD (S.dt k) m (S.sol m s (k + 1)) v - S.Asub (S.dt k) m *ᵥ S.dun m v s k)

/-- `df_dm_v` (225, 242-252): the field derivatives, which are stored at the beginning of each time
step; the last time index is not reached and keeps the zeros the storage starts with. -/
def Sim.df (S : Sim p n K L) (m v : p → ℝ) (s : Src p n K L) (F : FieldFn p n g) (k : ℕ) : g → ℝ :=
  if k < S.nT then F.du k m (S.dun m v s k) + F.dm k m (S.sol m s k) v else 0

/-- The part of `Jvec` belonging to one source (269-280). -/
def Sim.srcJvec (S : Sim p n K L) (m v : p → ℝ) (s : Src p n K L) : List ℝ :=
  s.rx.flatMap fun r => List.ofFn (r.apply S.nT fun k => S.df m v s (s.fld r.field) k)

/-- `Jvec` (168-284). -/
def Sim.Jvec (S : Sim p n K L) (m v : p → ℝ) : Except Err (List ℝ) :=
  if S.nT = 0 then .error .attributeError else .ok (S.sources.flatMap (S.srcJvec m v))

/-- The loop over the receivers in `Jtvec` (342-373): `df_duT_v` by time index and the sum of the
`cur[1]`. -/
def Sim.rxSums (S : Sim p n K L) (m : p → ℝ) (s : Src p n K L) :
    List (Rx K L) → List ℝ → (ℕ → n → ℝ) × (p → ℝ)
  | [], _ => (fun _ => 0, 0)
  | r :: rs, w =>
    let wr : Fin r.nD → ℝ := fun i => w.getD i 0
    let b := S.rxSums m s rs (w.drop r.nD)
    (fun k => (s.fld r.field).duT k m ((r.P k)ᵀ *ᵥ wr) + b.1 k,
      ∑ k ∈ Finset.range (S.nT + 1), (s.fld r.field).dmT k m (S.sol m s k) ((r.P k)ᵀ *ᵥ wr) + b.2)

/-- The time step for which the matrix used after `j` steps back from the last one was factored
(383-394). -/
def Sim.bfac (S : Sim p n K L) : ℕ → ℝ
  | 0 => S.dt (S.nT - 1)
  | j + 1 =>
    if S.dt (S.nT - 1 - (j + 1)) ≠ S.dt (S.nT - 1 - (j + 1) + 1) then S.dt (S.nT - 1 - (j + 1))
    else S.bfac j

/-- The back substitution of `Jtvec` (383-434) after `j` steps: `ATinv_df_duT_v` and what has been
added to `JTv`; `q` is `df_duT_v`. -/
def Sim.back (S : Sim p n K L) (m : p → ℝ) (s : Src p n K L) (q : ℕ → n → ℝ) :
    ℕ → (n → ℝ) × (p → ℝ)
  | 0 => (0, 0)
  | j + 1 =>
    let t := S.nT - 1 - j
    let prev := S.back m s q j
    let b := if j = 0 then q (t + 1) else q (t + 1) - (S.Asub (S.dt (t + 1)) m)ᵀ *ᵥ prev.1
    let W := ((S.Adiag (S.bfac j) m)ᵀ)⁻¹ *ᵥ b
    (W, prev.2 + (-(S.AdiagDT (S.dt t) m (S.sol m s (t + 1)) W) -
      S.AsubDT (S.dt t) m (S.sol m s t) W + s.rhsDT (t + 1) m W))

/-- What one source adds to `JTv`; the initial condition is not treated (436). -/
def Sim.srcJtvec (S : Sim p n K L) (m : p → ℝ) (s : Src p n K L) (w : List ℝ) : p → ℝ :=
  let b := S.rxSums m s s.rx w
  b.2 + (S.back m s b.1 S.nT).2

/-- The data of each source: the consecutive blocks of the data vector. -/
def splitData : List (Src p n K L) → List ℝ → List (List ℝ)
  | [], _ => []
  | s :: ss, w => w.take s.nD :: splitData ss (w.drop s.nD)

/-- `Jtvec` (286-442); without time steps the fields cannot be computed. -/
def Sim.Jtvec (S : Sim p n K L) (m : p → ℝ) (w : List ℝ) : Except Err (p → ℝ) :=
  if S.nT = 0 then .error .attributeError
  else .ok (List.zipWith (S.srcJtvec m) S.sources (splitData S.sources w)).sum

end

end Verif.TDEM

namespace Verif.TDEM.Props
open Matrix Verif.TDEM Verif.Flow.Richards.Props

noncomputable section

variable {p n g : Type} [Fintype p] [Fintype n] [Fintype g] [DecidableEq n]
variable {K : Type} {L : K → Type} [∀ k, Fintype (L k)]

set_option linter.unusedSectionVars false

/-! ### Specification -/

/-- The data of one receiver as a function of the model. -/
def rxData (S : Sim p n K L) (s : Src p n K L) (r : Rx K L) (y : p → ℝ) : Fin r.nD → ℝ :=
  r.apply S.nT fun k => (s.fld r.field).val k y (S.sol y s k)

/-- The derivatives of the data at `m`, for every source and receiver. -/
def IsDataJacobian (S : Sim p n K L) (m : p → ℝ)
    (J : (s : Src p n K L) → (r : Rx K L) → Matrix (Fin r.nD) p ℝ) : Prop :=
  ∀ s ∈ S.sources, ∀ r ∈ s.rx, IsJacobian (rxData S s r) (J s r) m

/-- The derivatives of the data in the direction `v`, in the order of the data. -/
def flat (S : Sim p n K L) (J : (s : Src p n K L) → (r : Rx K L) → Matrix (Fin r.nD) p ℝ)
    (v : p → ℝ) : List ℝ :=
  S.sources.flatMap fun s => s.rx.flatMap fun r => List.ofFn (J s r *ᵥ v)

/-- `Jvec` is the derivative of the predicted data. -/
def JvecCorrect (S : Sim p n K L) (m : p → ℝ) : Prop :=
  ∃ J, IsDataJacobian S m J ∧ ∀ v, S.Jvec m v = .ok (flat S J v)

/-- A product is the transposed derivative of the predicted data. -/
def TransposeCorrect (S : Sim p n K L) (m : p → ℝ) (f : List ℝ → Except Err (p → ℝ)) : Prop :=
  ∃ J, IsDataJacobian S m J ∧
    ∀ w, ∃ x, f w = .ok x ∧ ∀ v, x ⬝ᵥ v = dotList (flat S J v) w

/-! ### Requirements on a formulation -/

/-- A field is differentiated correctly, at the time with index `k`, the model `m` and the solution
`u`. -/
def FieldCorrect (F : FieldFn p n g) (k : ℕ) (m : p → ℝ) (u : n → ℝ) : Prop :=
  ∃ (Du : Matrix g n ℝ) (Dm : Matrix g p ℝ),
    (∀ (U : (p → ℝ) → n → ℝ) (dU : Matrix n p ℝ), U m = u → IsJacK U dU m →
      IsJacK (fun y => F.val k y (U y)) (Du * dU + Dm) m) ∧
    (∀ x, F.du k m x = Du *ᵥ x) ∧ (∀ v, F.dm k m u v = Dm *ᵥ v) ∧
    (∀ w, F.duT k m w = Duᵀ *ᵥ w) ∧ (∀ w, F.dmT k m u w = Dmᵀ *ᵥ w)

/-- A time step is differentiated correctly. -/
structure StepCorrect (S : Sim p n K L) (m : p → ℝ) (s : Src p n K L) (k : ℕ) : Prop where
  diffA : ∀ i j, DifferentiableAt ℝ (fun y => S.Adiag (S.dt k) y i j) m
  diffB : ∀ i j, DifferentiableAt ℝ (fun y => S.Asub (S.dt k) y i j) m
  det : (S.Adiag (S.dt k) m).det ≠ 0
  res : ∃ R : Matrix n p ℝ,
    IsJacK (fun y => s.rhs (k + 1) y - S.Asub (S.dt k) y *ᵥ S.sol m s k -
      S.Adiag (S.dt k) y *ᵥ S.sol m s (k + 1)) R m ∧
    (∀ v, s.rhsD (k + 1) m v - S.AsubD (S.dt k) m (S.sol m s k) v -
      S.AdiagD (S.dt k) m (S.sol m s (k + 1)) v = R *ᵥ v) ∧
    (∀ W, -(S.AdiagDT (S.dt k) m (S.sol m s (k + 1)) W) - S.AsubDT (S.dt k) m (S.sol m s k) W +
      s.rhsDT (k + 1) m W = Rᵀ *ᵥ W)

/-- The initial condition is differentiated correctly. -/
def InitCorrect (m : p → ℝ) (s : Src p n K L) : Prop :=
  ∃ D : Matrix n p ℝ, IsJacK s.init D m ∧ ∀ v, s.initD m (s.init m) v = D *ᵥ v

/-- Each time step is equal to the one before, or differs from it by more than `dt_threshold`. -/
def Fresh (S : Sim p n K L) : Prop :=
  ∀ k, k + 1 < S.dts.length →
    S.dts.getD (k + 1) 0 = S.dts.getD k 0 ∨ S.thr < |S.dts.getD (k + 1) 0 - S.dts.getD k 0|

/-! ### The factors -/

theorem jfac_eq (S : Sim p n K L) (k : ℕ) : S.jfac k = S.dt k := by
  induction k with
  | zero => rfl
  | succ k ih =>
    rw [Sim.jfac]
    split
    · rfl
    · rename_i h
      rw [ih]
      exact (not_not.1 h).symm

theorem bfac_eq (S : Sim p n K L) (j : ℕ) (hj : j < S.nT) : S.bfac j = S.dt (S.nT - 1 - j) := by
  induction j with
  | zero => rfl
  | succ j ih =>
    rw [Sim.bfac]
    split
    · rfl
    · rename_i h
      rw [ih (by omega), show S.nT - 1 - j = S.nT - 1 - (j + 1) + 1 by omega]
      exact (not_not.1 h).symm

/-- Steps which are equal or differ by more than the threshold from the one before are each solved with
their own matrix. -/
theorem fac_eq {S : Sim p n K L} (h : Fresh S) (k : ℕ) (hk : k < S.nT) : S.fac k = S.dt k := by
  induction k with
  | zero => rfl
  | succ k ih =>
    rw [Sim.fac]
    split
    · rfl
    · rename_i hn
      rcases h k hk with he | he
      · rw [ih (by omega)]; exact he.symm
      · exact absurd he hn

/-! ### Derivative of the solution -/

theorem step_jac {S : Sim p n K L} {m : p → ℝ} {s : Src p n K L} {k : ℕ} (h : StepCorrect S m s k)
    (hf : S.fac k = S.dt k) {R dU : Matrix n p ℝ}
    (hR : IsJacK (fun y => s.rhs (k + 1) y - S.Asub (S.dt k) y *ᵥ S.sol m s k -
      S.Adiag (S.dt k) y *ᵥ S.sol m s (k + 1)) R m)
    (hU : IsJacK (fun y => S.sol y s k) dU m) :
    IsJacK (fun y => S.sol y s (k + 1))
      ((S.Adiag (S.dt k) m)⁻¹ * (R - S.Asub (S.dt k) m * dU)) m := by
  have h0 : IsJacK (fun y => S.sol y s k - S.sol m s k) dU m := by
    simpa using hU.sub (isJacK_const (S.sol m s k) m)
  have h1 := IsJacK.matMul_zero h.diffB h0 (sub_self _)
  have h2 := hR.sub h1
  have key : (fun y => S.sol y s (k + 1)) =
      fun y => (S.Adiag (S.dt k) y)⁻¹ *ᵥ (s.rhs (k + 1) y - S.Asub (S.dt k) y *ᵥ S.sol y s k) := by
    funext y
    rw [Sim.sol, hf]
  rw [key]
  refine isJacK_solve_residual (A := S.Adiag (S.dt k))
    (q := fun y => s.rhs (k + 1) y - S.Asub (S.dt k) y *ᵥ S.sol y s k) h.diffA h.det ?_
  refine IsJacK.congr h2 (Filter.Eventually.of_forall fun y => ?_)
  have e : (S.Adiag (S.dt k) m)⁻¹ *ᵥ (s.rhs (k + 1) m - S.Asub (S.dt k) m *ᵥ S.sol m s k) =
      S.sol m s (k + 1) := by rw [Sim.sol, hf]
  simp only [e, Matrix.mulVec_sub]
  abel

/-- The derivatives of the solutions, by the recursion of the time steps. -/
def dU (S : Sim p n K L) (m : p → ℝ) (R : ℕ → Matrix n p ℝ) (D : Matrix n p ℝ) : ℕ → Matrix n p ℝ
  | 0 => D
  | k + 1 => (S.Adiag (S.dt k) m)⁻¹ * (R k - S.Asub (S.dt k) m * dU S m R D k)

theorem sol_jac {S : Sim p n K L} {m : p → ℝ} {s : Src p n K L} (hf : Fresh S)
    (hS : ∀ k < S.nT, StepCorrect S m s k) {D : Matrix n p ℝ} (hD : IsJacK s.init D m)
    {R : ℕ → Matrix n p ℝ}
    (hR : ∀ k < S.nT, IsJacK (fun y => s.rhs (k + 1) y - S.Asub (S.dt k) y *ᵥ S.sol m s k -
      S.Adiag (S.dt k) y *ᵥ S.sol m s (k + 1)) (R k) m) (k : ℕ) (hk : k ≤ S.nT) :
    IsJacK (fun y => S.sol y s k) (dU S m R D k) m := by
  induction k with
  | zero => exact hD
  | succ k ih => exact step_jac (hS k hk) (fac_eq hf k hk) (hR k hk) (ih (by omega))

theorem dun_eq {S : Sim p n K L} {m : p → ℝ} {s : Src p n K L} {D : Matrix n p ℝ}
    {R : ℕ → Matrix n p ℝ} (hD : ∀ v, s.initD m (s.init m) v = D *ᵥ v)
    (hR : ∀ k < S.nT, ∀ v, s.rhsD (k + 1) m v - S.AsubD (S.dt k) m (S.sol m s k) v -
      S.AdiagD (S.dt k) m (S.sol m s (k + 1)) v = R k *ᵥ v) (v : p → ℝ) (k : ℕ) (hk : k ≤ S.nT) :
    S.dun m v s k = dU S m R D k *ᵥ v := by
  induction k with
  | zero => exact hD v
  | succ k ih =>
    rw [Sim.dun, jfac_eq, hR k hk, ih (by omega), dU, ← Matrix.mulVec_mulVec, Matrix.sub_mulVec,
      Matrix.mulVec_mulVec (M := S.Asub _ _)]

theorem apply_jac (r : Rx K L) (N : ℕ) {x : (p → ℝ) → ℕ → L r.field → ℝ}
    {X : ℕ → Matrix (L r.field) p ℝ} {m : p → ℝ}
    (h : ∀ k ≤ N, IsJacK (fun y => x y k) (X k) m) :
    IsJacobian (fun y => r.apply N (x y)) (∑ k ∈ Finset.range (N + 1), r.P k * X k) m := by
  rw [← isJacK_real]
  unfold Rx.apply
  have : ∀ M, M ≤ N + 1 → IsJacK (fun y => ∑ k ∈ Finset.range M, r.P k *ᵥ x y k)
      (∑ k ∈ Finset.range M, r.P k * X k) m := by
    intro M hM
    induction M with
    | zero => simpa using isJacK_const (𝕜 := ℝ) (0 : Fin r.nD → ℝ) m
    | succ M ih =>
      simp only [Finset.sum_range_succ]
      exact (ih (by omega)).add ((h M (by omega)).mulVec (r.P M))
  exact this _ le_rfl

theorem apply_mulVec (r : Rx K L) (N : ℕ) (X : ℕ → Matrix (L r.field) p ℝ) (v : p → ℝ) :
    (∑ k ∈ Finset.range (N + 1), r.P k * X k) *ᵥ v = r.apply N fun k => X k *ᵥ v := by
  unfold Rx.apply
  rw [Matrix.sum_mulVec]
  exact Finset.sum_congr rfl fun k _ => by rw [Matrix.mulVec_mulVec]

/-- What is known about the derivative for one source. -/
structure SrcJac (S : Sim p n K L) (m : p → ℝ) (s : Src p n K L) where
  D : Matrix n p ℝ
  R : ℕ → Matrix n p ℝ
  sol : ∀ k ≤ S.nT, IsJacK (fun y => S.sol y s k) (dU S m R D k) m
  dun : ∀ v, ∀ k ≤ S.nT, S.dun m v s k = dU S m R D k *ᵥ v
  init : IsJacK s.init D m
  initD : ∀ v, s.initD m (s.init m) v = D *ᵥ v
  adj : ∀ k < S.nT, ∀ W, -(S.AdiagDT (S.dt k) m (S.sol m s (k + 1)) W) -
    S.AsubDT (S.dt k) m (S.sol m s k) W + s.rhsDT (k + 1) m W = (R k)ᵀ *ᵥ W

theorem exists_srcJac {S : Sim p n K L} {m : p → ℝ} {s : Src p n K L} (hf : Fresh S)
    (hS : ∀ k < S.nT, StepCorrect S m s k) (hI : InitCorrect m s) : Nonempty (SrcJac S m s) := by
  classical
  obtain ⟨D, hD, hDv⟩ := hI
  have key : ∀ k, ∃ R : Matrix n p ℝ, k < S.nT →
      IsJacK (fun y => s.rhs (k + 1) y - S.Asub (S.dt k) y *ᵥ S.sol m s k -
        S.Adiag (S.dt k) y *ᵥ S.sol m s (k + 1)) R m ∧
      (∀ v, s.rhsD (k + 1) m v - S.AsubD (S.dt k) m (S.sol m s k) v -
        S.AdiagD (S.dt k) m (S.sol m s (k + 1)) v = R *ᵥ v) ∧
      (∀ W, -(S.AdiagDT (S.dt k) m (S.sol m s (k + 1)) W) - S.AsubDT (S.dt k) m (S.sol m s k) W +
        s.rhsDT (k + 1) m W = Rᵀ *ᵥ W) := by
    intro k
    by_cases hk : k < S.nT
    · obtain ⟨R, hR⟩ := (hS k hk).res
      exact ⟨R, fun _ => hR⟩
    · exact ⟨0, fun h => absurd h hk⟩
  choose R hR using key
  exact ⟨{ D := D, R := R
           sol := sol_jac hf hS hD fun k hk => (hR k hk).1
           dun := fun v => dun_eq hDv (fun k hk => (hR k hk).2.1) v
           init := hD, initD := hDv
           adj := fun k hk => (hR k hk).2.2 }⟩

/-- The derivative of the data of one receiver. -/
theorem rx_jac {S : Sim p n K L} {m : p → ℝ} {s : Src p n K L} (j : SrcJac S m s) (r : Rx K L)
    (hF : ∀ k ≤ S.nT, FieldCorrect (s.fld r.field) k m (S.sol m s k)) :
    ∃ J : Matrix (Fin r.nD) p ℝ, IsJacobian (rxData S s r) J m ∧
      ∀ v, J *ᵥ v = r.apply S.nT fun k => (s.fld r.field).du k m (dU S m j.R j.D k *ᵥ v) +
        (s.fld r.field).dm k m (S.sol m s k) v := by
  classical
  have key : ∀ k, ∃ X : Matrix (L r.field) p ℝ, k ≤ S.nT →
      IsJacK (fun y => (s.fld r.field).val k y (S.sol y s k)) X m ∧
      ∀ v, X *ᵥ v = (s.fld r.field).du k m (dU S m j.R j.D k *ᵥ v) +
        (s.fld r.field).dm k m (S.sol m s k) v := by
    intro k
    by_cases hk : k ≤ S.nT
    · obtain ⟨Du, Dm, h1, h2, h3, _⟩ := hF k hk
      refine ⟨Du * dU S m j.R j.D k + Dm, fun _ => ⟨h1 _ _ rfl (j.sol k hk), fun v => ?_⟩⟩
      rw [h2, h3, Matrix.add_mulVec, ← Matrix.mulVec_mulVec]
    · exact ⟨0, fun h => absurd h hk⟩
  choose X hX using key
  refine ⟨∑ k ∈ Finset.range (S.nT + 1), r.P k * X k,
    apply_jac r S.nT fun k hk => (hX k hk).1, fun v => ?_⟩
  rw [apply_mulVec]
  unfold Rx.apply
  refine Finset.sum_congr rfl fun k hk => ?_
  simp only [(hX k (by simpa [Nat.lt_succ_iff] using hk)).2 v]

/-! ### `Jvec` -/

/-- **C73, any formulation.** When every step, initial condition and measured field is differentiated
correctly, no step uses the factors of another one, and no receiver uses the last time, `Jvec` is the
derivative of the predicted data. -/
theorem jvec_correct (S : Sim p n K L) (m : p → ℝ) (hN : S.nT ≠ 0) (hf : Fresh S)
    (hS : ∀ s ∈ S.sources, ∀ k < S.nT, StepCorrect S m s k)
    (hI : ∀ s ∈ S.sources, InitCorrect m s)
    (hF : ∀ s ∈ S.sources, ∀ r ∈ s.rx, ∀ k ≤ S.nT, FieldCorrect (s.fld r.field) k m (S.sol m s k))
    (hlast : ∀ s ∈ S.sources, ∀ r ∈ s.rx, ∀ i, r.Pt i S.nT = 0) : JvecCorrect S m := by
  classical
  have key : ∀ s : Src p n K L, ∀ r : Rx K L, ∃ J : Matrix (Fin r.nD) p ℝ,
      s ∈ S.sources → r ∈ s.rx → IsJacobian (rxData S s r) J m ∧
        ∀ v, r.apply S.nT (fun k => S.df m v s (s.fld r.field) k) = J *ᵥ v := by
    intro s r
    by_cases hm : s ∈ S.sources ∧ r ∈ s.rx
    · obtain ⟨j⟩ := exists_srcJac hf (hS s hm.1) (hI s hm.1)
      obtain ⟨J, h1, h2⟩ := rx_jac j r (hF s hm.1 r hm.2)
      refine ⟨J, fun _ _ => ⟨h1, fun v => ?_⟩⟩
      rw [h2]
      unfold Rx.apply
      refine Finset.sum_congr rfl fun k hk => ?_
      have hk' : k ≤ S.nT := by simpa [Nat.lt_succ_iff] using hk
      rcases Nat.lt_or_ge k S.nT with hlt | hge
      · simp only [Sim.df, if_pos hlt, j.dun v k hk']
      · have : k = S.nT := by omega
        subst this
        have hP : r.P S.nT = 0 := by
          ext d x
          simp [Rx.P, hlast s hm.1 r hm.2]
        rw [hP]; simp
    · exact ⟨0, fun h1 h2 => absurd ⟨h1, h2⟩ hm⟩
  choose J hJ using key
  refine ⟨J, fun s hs r hr => (hJ s r hs hr).1, fun v => ?_⟩
  rw [Sim.Jvec, if_neg hN]
  unfold flat Sim.srcJvec
  congr 1
  refine List.flatMap_congr fun s hs => List.flatMap_congr fun r hr => ?_
  rw [(hJ s r hs hr).2 v]

/-! ### `Jtvec` -/

theorem solveT_dot (A : Matrix n n ℝ) (x b : n → ℝ) :
    (A⁻¹ *ᵥ x) ⬝ᵥ b = x ⬝ᵥ ((Aᵀ)⁻¹ *ᵥ b) := dot_inv A x b

/-- The back substitution: the products of `q` with the derivatives at the times after `t = nT - j`. -/
theorem back_adjoint {S : Sim p n K L} {m : p → ℝ} {s : Src p n K L} (a : SrcJac S m s)
    (q : ℕ → n → ℝ) (v : p → ℝ) (j : ℕ) (hj : j ≤ S.nT) :
    ∑ i ∈ Finset.range j, q (S.nT - i) ⬝ᵥ (dU S m a.R a.D (S.nT - i) *ᵥ v) =
      (S.back m s q j).2 ⬝ᵥ v - (if j = 0 then 0 else
        (S.back m s q j).1 ⬝ᵥ (S.Asub (S.dt (S.nT - j)) m *ᵥ (dU S m a.R a.D (S.nT - j) *ᵥ v))) := by
  induction j with
  | zero => simp [Sim.back]
  | succ j ih =>
    rw [Finset.sum_range_succ, ih (by omega)]
    have et : S.nT - j = S.nT - 1 - j + 1 := by omega
    have et' : S.nT - (j + 1) = S.nT - 1 - j := by omega
    set t := S.nT - 1 - j with ht
    have htlt : t < S.nT := by omega
    rw [Sim.back]
    simp only [← ht, bfac_eq S j (by omega), et, et', Nat.succ_ne_zero, if_false]
    set B := S.back m s q j with hB
    set b : n → ℝ := if j = 0 then q (t + 1) else q (t + 1) - (S.Asub (S.dt (t + 1)) m)ᵀ *ᵥ B.1 with hb
    set W := ((S.Adiag (S.dt t) m)ᵀ)⁻¹ *ᵥ b with hW
    rw [a.adj t htlt W, add_dotProduct]
    have h1 : q (t + 1) ⬝ᵥ (dU S m a.R a.D (t + 1) *ᵥ v) - (if j = 0 then 0 else
        B.1 ⬝ᵥ (S.Asub (S.dt (t + 1)) m *ᵥ (dU S m a.R a.D (t + 1) *ᵥ v))) =
        b ⬝ᵥ (dU S m a.R a.D (t + 1) *ᵥ v) := by
      rw [hb]
      by_cases h0 : j = 0
      · simp [h0]
      · simp only [h0, if_false, sub_dotProduct]
        rw [Matrix.mulVec_transpose, ← Matrix.dotProduct_mulVec]
    have h2 : b ⬝ᵥ (dU S m a.R a.D (t + 1) *ᵥ v) =
        ((a.R t)ᵀ *ᵥ W) ⬝ᵥ v - W ⬝ᵥ (S.Asub (S.dt t) m *ᵥ (dU S m a.R a.D t *ᵥ v)) := by
      rw [dU, ← Matrix.mulVec_mulVec, dotProduct_comm, solveT_dot, ← hW, Matrix.sub_mulVec,
        sub_dotProduct, Matrix.mulVec_transpose, ← Matrix.dotProduct_mulVec,
        dotProduct_comm _ W, dotProduct_comm _ W, Matrix.mulVec_mulVec]
    linarith [h1, h2]

/-- All times. -/
theorem back_all {S : Sim p n K L} {m : p → ℝ} {s : Src p n K L} (a : SrcJac S m s)
    (q : ℕ → n → ℝ) (v : p → ℝ) (hN : S.nT ≠ 0) :
    ∑ k ∈ Finset.range (S.nT + 1), q k ⬝ᵥ (dU S m a.R a.D k *ᵥ v) =
      (S.back m s q S.nT).2 ⬝ᵥ v +
        (q 0 - (S.Asub (S.dt 0) m)ᵀ *ᵥ (S.back m s q S.nT).1) ⬝ᵥ (a.D *ᵥ v) := by
  have h := back_adjoint a q v S.nT le_rfl
  have hs : ∑ i ∈ Finset.range S.nT, q (S.nT - i) ⬝ᵥ (dU S m a.R a.D (S.nT - i) *ᵥ v) =
      ∑ k ∈ Finset.range S.nT, q (k + 1) ⬝ᵥ (dU S m a.R a.D (k + 1) *ᵥ v) := by
    rw [← Finset.sum_range_reflect]
    refine Finset.sum_congr rfl fun k hk => ?_
    have : k < S.nT := Finset.mem_range.1 hk
    rw [show S.nT - (S.nT - 1 - k) = k + 1 by omega]
  rw [hs] at h
  rw [Finset.sum_range_succ', h]
  simp only [hN, if_false, Nat.sub_self, dU, sub_dotProduct]
  rw [Matrix.mulVec_transpose, ← Matrix.dotProduct_mulVec]
  ring

theorem rxSums_adjoint {S : Sim p n K L} {m : p → ℝ} {s : Src p n K L} (a : SrcJac S m s) (v : p → ℝ)
    (J : (r : Rx K L) → Matrix (Fin r.nD) p ℝ) : ∀ (rs : List (Rx K L)) (w : List ℝ),
    (∀ r ∈ rs, ∀ k ≤ S.nT, FieldCorrect (s.fld r.field) k m (S.sol m s k)) →
    (∀ r ∈ rs, J r *ᵥ v = r.apply S.nT fun k => (s.fld r.field).du k m (dU S m a.R a.D k *ᵥ v) +
        (s.fld r.field).dm k m (S.sol m s k) v) →
    dotList (rs.flatMap fun r => List.ofFn (J r *ᵥ v)) w =
      ∑ k ∈ Finset.range (S.nT + 1), (S.rxSums m s rs w).1 k ⬝ᵥ (dU S m a.R a.D k *ᵥ v) +
        (S.rxSums m s rs w).2 ⬝ᵥ v := by
  intro rs
  induction rs with
  | nil => intro w _ _; simp [Sim.rxSums, dotList]
  | cons r rs ih =>
    intro w h hJ
    rw [List.flatMap_cons, dotList_append, List.length_ofFn, dotList_ofFn,
      ih _ (fun r' hr' => h r' (List.mem_cons_of_mem _ hr'))
        (fun r' hr' => hJ r' (List.mem_cons_of_mem _ hr')), hJ r List.mem_cons_self]
    simp only [Sim.rxSums, add_dotProduct, Finset.sum_add_distrib]
    set wr : Fin r.nD → ℝ := fun i => w.getD i 0
    have e : (r.apply S.nT fun k => (s.fld r.field).du k m (dU S m a.R a.D k *ᵥ v) +
        (s.fld r.field).dm k m (S.sol m s k) v) ⬝ᵥ wr =
        ∑ k ∈ Finset.range (S.nT + 1), ((s.fld r.field).duT k m ((r.P k)ᵀ *ᵥ wr) ⬝ᵥ
            (dU S m a.R a.D k *ᵥ v)) +
        (∑ k ∈ Finset.range (S.nT + 1),
          (s.fld r.field).dmT k m (S.sol m s k) ((r.P k)ᵀ *ᵥ wr)) ⬝ᵥ v := by
      unfold Rx.apply
      rw [sum_dotProduct, sum_dotProduct, ← Finset.sum_add_distrib]
      refine Finset.sum_congr rfl fun k hk => ?_
      obtain ⟨Du, Dm, _, h2, h3, h4, h5⟩ := h r List.mem_cons_self k
        (by simpa [Nat.lt_succ_iff] using hk)
      rw [dot_transpose]
      simp only [h2, h3, h4, h5, add_dotProduct]
      rw [ Matrix.mulVec_transpose Du,
        Matrix.mulVec_transpose Dm, ← Matrix.dotProduct_mulVec, ← Matrix.dotProduct_mulVec,
        dotProduct_comm _ (Du *ᵥ _), dotProduct_comm _ (Dm *ᵥ _)]
    rw [e]
    ring

/-- The product with the transpose for one source: what the code computes, and the part which comes
from the initial condition. -/
theorem src_transpose {S : Sim p n K L} {m : p → ℝ} {s : Src p n K L} (a : SrcJac S m s)
    (hN : S.nT ≠ 0) (J : (r : Rx K L) → Matrix (Fin r.nD) p ℝ)
    (hF : ∀ r ∈ s.rx, ∀ k ≤ S.nT, FieldCorrect (s.fld r.field) k m (S.sol m s k)) (v : p → ℝ)
    (hJ : ∀ r ∈ s.rx, J r *ᵥ v = r.apply S.nT fun k =>
      (s.fld r.field).du k m (dU S m a.R a.D k *ᵥ v) + (s.fld r.field).dm k m (S.sol m s k) v)
    (w : List ℝ) :
    dotList (s.rx.flatMap fun r => List.ofFn (J r *ᵥ v)) w = S.srcJtvec m s w ⬝ᵥ v +
      ((S.rxSums m s s.rx w).1 0 - (S.Asub (S.dt 0) m)ᵀ *ᵥ
        (S.back m s (S.rxSums m s s.rx w).1 S.nT).1) ⬝ᵥ (a.D *ᵥ v) := by
  rw [rxSums_adjoint a v J s.rx w hF hJ, back_all a _ v hN]
  unfold Sim.srcJtvec
  simp only [add_dotProduct]
  ring

theorem dotList_take (a w : List ℝ) : dotList a (w.take a.length) = dotList a w := by
  unfold dotList
  congr 1
  induction a generalizing w with
  | nil => simp
  | cons x a ih => cases w with
    | nil => simp
    | cons y w => simp [ih]

/-- Sums over the sources: if every source contributes the right product, so do all together. -/
theorem sources_sum {m : p → ℝ} (f : Src p n K L → List ℝ → p → ℝ)
    (J : (s : Src p n K L) → (r : Rx K L) → Matrix (Fin r.nD) p ℝ) (v : p → ℝ) :
    ∀ (ss : List (Src p n K L)) (w : List ℝ),
    (∀ s ∈ ss, ∀ w, dotList (s.rx.flatMap fun r => List.ofFn (J s r *ᵥ v)) w = f s w ⬝ᵥ v) →
    (List.zipWith f ss (splitData ss w)).sum ⬝ᵥ v =
      dotList (ss.flatMap fun s => s.rx.flatMap fun r => List.ofFn (J s r *ᵥ v)) w := by
  intro ss
  induction ss with
  | nil => intro w _; simp [splitData, dotList]
  | cons s ss ih =>
    intro w h
    have hlen : (s.rx.flatMap fun r => List.ofFn (J s r *ᵥ v)).length = s.nD := by
      simp [Src.nD, List.length_flatMap]
    rw [List.flatMap_cons, dotList_append, hlen, ← ih _ fun s' hs' => h s' (List.mem_cons_of_mem _ hs')]
    simp only [splitData, List.zipWith_cons_cons, List.sum_cons, add_dotProduct]
    rw [← h s List.mem_cons_self, ← hlen, dotList_take]

/-- **C73, any formulation.** When every step and measured field is differentiated correctly, no step
uses the factors of another one, and the initial condition does not depend on the model to first order,
`Jtvec` is the product with the transposed derivative of the predicted data. -/
theorem jtvec_correct (S : Sim p n K L) (m : p → ℝ) (hN : S.nT ≠ 0) (hf : Fresh S)
    (hS : ∀ s ∈ S.sources, ∀ k < S.nT, StepCorrect S m s k)
    (hI : ∀ s ∈ S.sources, IsJacK s.init 0 m ∧ ∀ v, s.initD m (s.init m) v = 0)
    (hF : ∀ s ∈ S.sources, ∀ r ∈ s.rx, ∀ k ≤ S.nT,
      FieldCorrect (s.fld r.field) k m (S.sol m s k)) :
    TransposeCorrect S m (S.Jtvec m) := by
  classical
  have key : ∀ s : Src p n K L, ∀ r : Rx K L, ∃ J : Matrix (Fin r.nD) p ℝ,
      s ∈ S.sources → ∃ a : SrcJac S m s, a.D = 0 ∧ (r ∈ s.rx → IsJacobian (rxData S s r) J m ∧
        ∀ v, J *ᵥ v = r.apply S.nT fun k => (s.fld r.field).du k m (dU S m a.R a.D k *ᵥ v) +
        (s.fld r.field).dm k m (S.sol m s k) v) := by
    intro s r
    by_cases hs : s ∈ S.sources
    · obtain ⟨a⟩ := exists_srcJac hf (hS s hs)
        ⟨0, (hI s hs).1, fun v => by rw [(hI s hs).2 v, Matrix.zero_mulVec]⟩
      have ha : a.D = 0 := a.init.unique (hI s hs).1
      by_cases hr : r ∈ s.rx
      · obtain ⟨J, h1, h2⟩ := rx_jac a r (hF s hs r hr)
        exact ⟨J, fun _ => ⟨a, ha, fun _ => ⟨h1, h2⟩⟩⟩
      · exact ⟨0, fun _ => ⟨a, ha, fun h => absurd h hr⟩⟩
    · exact ⟨0, fun h => absurd h hs⟩
  choose J hJ using key
  refine ⟨J, fun s hs r hr => ((hJ s r hs).choose_spec.2 hr).1, fun w => ⟨_, by
    rw [Sim.Jtvec, if_neg hN], fun v => ?_⟩⟩
  unfold flat
  refine sources_sum (m := m) (S.srcJtvec m) J v S.sources w fun s hs w => ?_
  obtain ⟨a⟩ := exists_srcJac hf (hS s hs)
    ⟨0, (hI s hs).1, fun v => by rw [(hI s hs).2 v, Matrix.zero_mulVec]⟩
  have ha : a.D = 0 := a.init.unique (hI s hs).1
  rw [src_transpose a hN (J s) (hF s hs) v (fun r hr => ?_) w, ha]
  · simp
  · obtain ⟨J', h1, h2⟩ := rx_jac a r (hF s hs r hr)
    have : J s r = J' := by
      have h3 := ((hJ s r hs).choose_spec.2 hr).1
      rw [← isJacK_real] at h1 h3
      exact h3.unique h1
    rw [this, h2]

end

end Verif.TDEM.Props
