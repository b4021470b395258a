import Verif.EM.Mass
import Verif.FDEM.Survey
import Verif.Flow.Richards
import Mathlib.Analysis.Complex.Basic

/-!
The frequency domain simulations (`simpeg/electromagnetics/frequency_domain/simulation.py` 21-506 and
`receivers.py` 170-258), independently of the formulation: predicted data, `Jvec`, `Jtvec` and `getJ`.

Simplified: the solver is exact (`Ainv * b` is the solution of the system, for a symmetric or
unsymmetric matrix alike); the fields handed to the products are those of the model handed to them;
only the frequency of a source decides with which others it is solved; a field derivative which is
`Zero()` is a zero vector; sources have one field each.
-/

namespace Verif.FDEM
open Matrix

noncomputable section

variable {p n g : Type} [Fintype p] [Fintype n] [Fintype g] [DecidableEq n]
variable {K : Type} {L : K → Type} [∀ k, Fintype (L k)]

/-- A field computed from the solution, with the derivatives `_xDeriv_u` and `_xDeriv_m` of the fields
object and their adjoints (`fields.py`).  The arguments are the model, the solution, and the vector the
derivative is applied to. -/
structure FieldFn (p n g : Type) where
  val : (p → ℝ) → (n → ℂ) → g → ℂ
  du : (p → ℝ) → (n → ℂ) → g → ℂ
  duT : (p → ℝ) → (g → ℂ) → n → ℂ
  dm : (p → ℝ) → (n → ℂ) → (p → ℂ) → g → ℂ
  dmT : (p → ℝ) → (n → ℂ) → (g → ℂ) → p → ℂ

/-- `component` of a receiver. -/
inductive Comp where
  | real
  | imag
  deriving DecidableEq

/-- `getattr(z, component)` (`receivers.py` 190, 232). -/
def Comp.part (c : Comp) (z : ℂ) : ℝ :=
  match c with
  | .real => z.re
  | .imag => z.im

/-- A receiver (`receivers.py`): the field it measures (`projField`), the projection `P` on the grid of
that field and the component. -/
structure Rx (K : Type) (L : K → Type) where
  nD : Nat
  comp : Comp
  field : K
  P : Matrix (Fin nD) (L field) ℝ

/-- `BaseRx.eval` (`receivers.py` 170-192): the component is taken before the projection. -/
def Rx.eval (r : Rx K L) (F : FieldFn p n (L r.field)) (m : p → ℝ) (u : n → ℂ) : Fin r.nD → ℝ :=
  r.P *ᵥ fun i => r.comp.part (F.val m u i)

/-- `BaseRx.evalDeriv` (`receivers.py` 226-234): the component is taken after the projection. -/
def Rx.deriv (r : Rx K L) (F : FieldFn p n (L r.field)) (m : p → ℝ) (u du : n → ℂ) (v : p → ℂ) :
    Fin r.nD → ℝ :=
  fun i => r.comp.part ((r.P.map (fun x => (x : ℂ)) *ᵥ (F.du m du + F.dm m u v)) i)

/-- The vector handed to the adjoint field derivatives (`receivers.py` 237-242). -/
def Rx.PT (r : Rx K L) (w : Fin r.nD → ℝ) : L r.field → ℂ :=
  match r.comp with
  | .imag => (-Complex.I) • castV ℂ (r.Pᵀ *ᵥ w)
  | .real => castV ℂ (r.Pᵀ *ᵥ w)

/-- A source at its frequency, as the simulation sees it: the column of `getRHS`, `getRHSDeriv` and its
adjoint, and the fields computed from the solution for this source. -/
structure Src (p n : Type) (K : Type) (L : K → Type) where
  freq : ℚ
  q : (p → ℝ) → n → ℂ
  qD : (p → ℝ) → (p → ℂ) → n → ℂ
  qDT : (p → ℝ) → (n → ℂ) → p → ℂ
  fld : (k : K) → FieldFn p n (L k)
  rx : List (Rx K L)

/-- The number of data of a source. -/
def Src.nD (s : Src p n K L) : Nat := (s.rx.map fun r => r.nD).sum

/-- A simulation: `getA`, `getADeriv` and its adjoint for a frequency, whether `getRHSDeriv` raises
when so many sources share a frequency, and the sources. -/
structure Sim (p n : Type) (K : Type) (L : K → Type) where
  A : ℚ → (p → ℝ) → Matrix n n ℂ
  aD : ℚ → (p → ℝ) → (n → ℂ) → (p → ℂ) → n → ℂ
  aDT : ℚ → (p → ℝ) → (n → ℂ) → (n → ℂ) → p → ℂ
  raises : Nat → Bool
  sources : List (Src p n K L)

/-- The solution for a source: a column of `u = Ainv * rhs` (`simulation.py` 194-203). -/
def Sim.sol (S : Sim p n K L) (m : p → ℝ) (s : Src p n K L) : n → ℂ := (S.A s.freq m)⁻¹ *ᵥ s.q m

/-- The data of a source: `rx.eval(src, mesh, f)` for its receivers. -/
def Sim.srcData (S : Sim p n K L) (m : p → ℝ) (s : Src p n K L) : List ℝ :=
  s.rx.flatMap fun r => List.ofFn (r.eval (s.fld r.field) m (S.sol m s))

/-- `dpred`. -/
def Sim.dpred (S : Sim p n K L) (m : p → ℝ) : List ℝ := S.sources.flatMap (S.srcData m)

/-- `du_dm_v` (`simulation.py` 248-251). -/
def Sim.du (S : Sim p n K L) (m : p → ℝ) (s : Src p n K L) (v : p → ℂ) : n → ℂ :=
  (S.A s.freq m)⁻¹ *ᵥ (-(S.aD s.freq m (S.sol m s) v) + s.qD m v)

/-- The part of `Jvec` belonging to one source (`simulation.py` 248-256). -/
def Sim.srcJvec (S : Sim p n K L) (m v : p → ℝ) (s : Src p n K L) : List ℝ :=
  s.rx.flatMap fun r =>
    List.ofFn (r.deriv (s.fld r.field) m (S.sol m s) (S.du m s (castV ℂ v)) (castV ℂ v))

/-- The survey of the simulation; a source is its position in the source list. -/
def Sim.survey (S : Sim p n K L) : Survey Nat :=
  Survey.build (fun i => ((S.sources.map fun s => s.freq)[i]?).getD 0) (List.range S.sources.length)

/-- Some frequency has a number of sources for which `getRHSDeriv` raises. -/
def Sim.fails (S : Sim p n K L) : Bool :=
  S.sources.any fun s => S.raises (S.sources.countP fun t => t.freq = s.freq)

/-- `Jvec` (`simulation.py` 207-258): the data vector, a block per source, `none` where it is still
`nan`. -/
def Sim.Jvec (S : Sim p n K L) (m v : p → ℝ) : Except Err (List (Option (List ℝ))) :=
  if S.fails then .error .valueError
  else do
    let l ← S.survey.visit
    pure (fill S.sources.length (fun i => ((S.sources.map (S.srcJvec m v))[i]?).getD []) l)

/-- The sums over the receivers in `Jtvec` (`simulation.py` 304-314): `df_duT_sum` and `df_dmT_sum`. -/
def Sim.rxSums (S : Sim p n K L) (m : p → ℝ) (s : Src p n K L) :
    List (Rx K L) → List ℝ → (n → ℂ) × (p → ℂ)
  | [], _ => (0, 0)
  | r :: rs, w =>
    let wr : Fin r.nD → ℝ := fun i => w.getD i 0
    let b := S.rxSums m s rs (w.drop r.nD)
    ((s.fld r.field).duT m (r.PT wr) + b.1, (s.fld r.field).dmT m (S.sol m s) (r.PT wr) + b.2)

/-- What one source adds to `Jtv` (`simulation.py` 303-323); the solve is with `Ainv`, not with its
transpose. -/
def Sim.srcJtvec (S : Sim p n K L) (m : p → ℝ) (s : Src p n K L) (w : List ℝ) : p → ℝ :=
  let b := S.rxSums m s s.rx w
  let x := (S.A s.freq m)⁻¹ *ᵥ b.1
  fun i => (b.2 i + (-(S.aDT s.freq m (S.sol m s) x i) + s.qDT m x i)).re

/-- The data of each source: the consecutive blocks of the data vector. -/
def splitData : List (Src p n K L) → List ℝ → List (List ℝ)
  | [], _ => []
  | s :: ss, w => w.take s.nD :: splitData ss (w.drop s.nD)

/-- `Jtvec` (`simulation.py` 260-325). -/
def Sim.Jtvec (S : Sim p n K L) (m : p → ℝ) (w : List ℝ) : Except Err (p → ℝ) :=
  if S.fails then .error .valueError
  else do
    let l ← S.survey.visit
    let c := List.zipWith (S.srcJtvec m) S.sources (splitData S.sources w)
    pure (l.foldl (fun acc i => acc + (c[i]?).getD 0) 0)

/-- The rows of `getJ` for one receiver (`simulation.py` 368-391), one unit data vector at a time. -/
def Sim.rxRow (S : Sim p n K L) (m : p → ℝ) (s : Src p n K L) (r : Rx K L) (k : Fin r.nD) : p → ℝ :=
  let w := r.PT (Pi.single k 1)
  let x := (S.A s.freq m)⁻¹ *ᵥ (s.fld r.field).duT m w
  fun i => (-(S.aDT s.freq m (S.sol m s) x i) + s.qDT m x i +
    (s.fld r.field).dmT m (S.sol m s) w i).re

/-- The rows of `getJ` belonging to one source. -/
def Sim.srcJ (S : Sim p n K L) (m : p → ℝ) (s : Src p n K L) : List (p → ℝ) :=
  s.rx.flatMap fun r => List.ofFn (S.rxRow m s r)

/-- `getJ` (`simulation.py` 327-395); rows which are not written stay zero, which is `none` here. -/
def Sim.getJ (S : Sim p n K L) (m : p → ℝ) : Except Err (List (Option (List (p → ℝ)))) :=
  if S.fails then .error .valueError
  else do
    let l ← S.survey.visit
    pure (fill S.sources.length (fun i => ((S.sources.map (S.srcJ m))[i]?).getD []) l)

end

end Verif.FDEM

namespace Verif.FDEM.Props
open Matrix Verif.FDEM Verif.Flow.Richards.Props

noncomputable section

variable {p n g : Type} [Fintype p] [Fintype n] [Fintype g] [DecidableEq n]
variable {K : Type} {L : K → Type} [∀ k, Fintype (L k)]

set_option linter.unusedSectionVars false

/-! ### Requirements on a formulation -/

/-- A field is differentiated correctly at the model `m` and the solution `u`. -/
def FieldExact (F : FieldFn p n g) (m : p → ℝ) (u : n → ℂ) : Prop :=
  ∃ (Du : Matrix g n ℂ) (Dm : Matrix g p ℂ),
    (∀ (U : (p → ℝ) → n → ℂ) (dU : Matrix n p ℂ), U m = u → IsJacK U dU m →
      IsJacK (fun y => F.val y (U y)) (Du * dU + Dm) m) ∧
    (∀ x, F.du m x = Du *ᵥ x) ∧ (∀ v, F.dm m u v = Dm *ᵥ v)

/-- The adjoint field derivatives are the transposes of the forward ones. -/
def FieldAdjoint (F : FieldFn p n g) (m : p → ℝ) (u : n → ℂ) : Prop :=
  ∃ (Du : Matrix g n ℂ) (Dm : Matrix g p ℂ),
    (∀ x, F.du m x = Du *ᵥ x) ∧ (∀ v, F.dm m u v = Dm *ᵥ v) ∧
    (∀ w, F.duT m w = Duᵀ *ᵥ w) ∧ (∀ w, F.dmT m u w = Dmᵀ *ᵥ w)

/-- The system of a source is differentiated correctly: `-aD + qD` is the derivative of the residual
`q − A u` with the solution frozen. -/
structure SystemExact (S : Sim p n K L) (m : p → ℝ) (s : Src p n K L) : Prop where
  diff : ∀ i j, DifferentiableAt ℝ (fun y => S.A s.freq y i j) m
  det : (S.A s.freq m).det ≠ 0
  res : ∃ R : Matrix n p ℂ,
    IsJacK (fun y => s.q y - S.A s.freq y *ᵥ S.sol m s) R m ∧
    ∀ v, -(S.aD s.freq m (S.sol m s) v) + s.qD m v = R *ᵥ v

/-- The adjoint products of the system of a source are the transposes, and the matrix is symmetric. -/
structure SystemAdjoint (S : Sim p n K L) (m : p → ℝ) (s : Src p n K L) : Prop where
  symm : (S.A s.freq m)ᵀ = S.A s.freq m
  res : ∃ R : Matrix n p ℂ,
    (∀ v, -(S.aD s.freq m (S.sol m s) v) + s.qD m v = R *ᵥ v) ∧
    ∀ w, -(S.aDT s.freq m (S.sol m s) w) + s.qDT m w = Rᵀ *ᵥ w

/-! ### Auxiliary facts -/

/-- The weight of a component in a real product. -/
def Comp.coef (c : Comp) : ℂ := match c with
  | .real => 1
  | .imag => -Complex.I

theorem part_eq (c : Comp) (z : ℂ) : c.part z = (Comp.coef c * z).re := by
  cases c <;> simp [Comp.part, Comp.coef]

theorem PT_eq (r : Rx K L) (w : Fin r.nD → ℝ) :
    r.PT w = Comp.coef r.comp • castV ℂ (r.Pᵀ *ᵥ w) := by
  cases r with
  | mk nD comp field P => cases comp <;> simp [Rx.PT, Comp.coef]

theorem part_sum (c : Comp) {ι : Type} [Fintype ι] (a : ι → ℝ) (z : ι → ℂ) :
    ∑ i, a i * c.part (z i) = c.part (∑ i, (a i : ℂ) * z i) := by
  cases c
  · simp [Comp.part, Complex.re_sum]
  · simp [Comp.part, Complex.im_sum]

/-- Taking the component before or after the real projection is the same. -/
theorem eval_eq (r : Rx K L) (F : FieldFn p n (L r.field)) (m : p → ℝ) (u : n → ℂ) :
    r.eval F m u = fun i => r.comp.part ((r.P.map (fun x => (x : ℂ)) *ᵥ F.val m u) i) := by
  funext i
  simp only [Rx.eval, Matrix.mulVec, dotProduct, part_sum, Matrix.map_apply]

/-- The matrix of a component of a complex Jacobian. -/
def partMat {κ ι : Type} (c : Comp) (J : Matrix κ ι ℂ) : Matrix κ ι ℝ := fun i j => c.part (J i j)

theorem partMat_mulVec {κ ι : Type} [Fintype ι] (c : Comp) (J : Matrix κ ι ℂ) (v : ι → ℝ) :
    (fun i => c.part ((J *ᵥ castV ℂ v) i)) = partMat c J *ᵥ v := by
  funext i
  simp only [Matrix.mulVec, dotProduct, partMat, castV_apply]
  have := part_sum c v (fun j => J i j)
  rw [show (∑ x, J i x * (RCLike.ofReal (v x) : ℂ)) = ∑ x, (v x : ℂ) * J i x from
    Finset.sum_congr rfl fun x _ => by rw [mul_comm]; rfl]
  rw [← this]
  exact Finset.sum_congr rfl fun x _ => mul_comm _ _

theorem isJac_part {κ : Type} [Fintype κ] (c : Comp) {f : (p → ℝ) → κ → ℂ} {J : Matrix κ p ℂ}
    {m : p → ℝ} (h : IsJacK f J m) :
    IsJacobian (fun y i => c.part (f y i)) (partMat c J) m := by
  rw [isJacobian_iff]
  rw [isJacK_iff] at h
  intro i
  have key : ∀ v, c.part ((J *ᵥ castV ℂ v) i) = (partMat c J i) ⬝ᵥ v := fun v =>
    congrFun (partMat_mulVec c J v) i
  cases c
  · have := (Complex.reCLM.hasFDerivAt).comp m (h i)
    refine HasFDerivAt.congr_fderiv this ?_
    ext v
    simpa [Comp.part] using key v
  · have := (Complex.imCLM.hasFDerivAt).comp m (h i)
    refine HasFDerivAt.congr_fderiv this ?_
    ext v
    simpa [Comp.part] using key v

theorem sol_jac {S : Sim p n K L} {m : p → ℝ} {s : Src p n K L} (h : SystemExact S m s) :
    ∃ dU : Matrix n p ℂ, IsJacK (fun y => S.sol y s) dU m ∧ ∀ v, S.du m s v = dU *ᵥ v := by
  obtain ⟨R, hR, hv⟩ := h.res
  refine ⟨(S.A s.freq m)⁻¹ * R, ?_, ?_⟩
  · exact isJacK_solve_residual (A := S.A s.freq) (q := s.q) h.diff h.det hR
  · intro v
    rw [Sim.du, hv v, Matrix.mulVec_mulVec]

theorem rx_jac {S : Sim p n K L} {m : p → ℝ} {s : Src p n K L} (h : SystemExact S m s) (r : Rx K L)
    (hF : FieldExact (s.fld r.field) m (S.sol m s)) :
    ∃ J : Matrix (Fin r.nD) p ℝ,
      IsJacobian (fun y => r.eval (s.fld r.field) y (S.sol y s)) J m ∧
      ∀ v, r.deriv (s.fld r.field) m (S.sol m s) (S.du m s (castV ℂ v)) (castV ℂ v) = J *ᵥ v := by
  obtain ⟨dU, hU, hdu⟩ := sol_jac h
  obtain ⟨Du, Dm, hval, h1, h2⟩ := hF
  have hv := (hval _ dU rfl hU).mulVec (r.P.map fun x => (x : ℂ))
  refine ⟨partMat r.comp (r.P.map (fun x => (x : ℂ)) * (Du * dU + Dm)), ?_, ?_⟩
  · simp only [eval_eq]
    exact isJac_part r.comp hv
  · intro v
    rw [← partMat_mulVec]
    funext i
    change r.comp.part ((_ *ᵥ ((s.fld r.field).du m _ + (s.fld r.field).dm m _ _)) i) = _
    rw [h1, h2, hdu, ← Matrix.mulVec_mulVec, Matrix.add_mulVec, ← Matrix.mulVec_mulVec]

/-! ### The loops -/

theorem visit_fill {α : Type} (S : Sim p n K L) (g : Nat → α) :
    (S.survey.visit.map fun l => fill S.sources.length g l) =
      .ok ((List.range S.sources.length).map fun i => some (g i)) := by
  obtain ⟨l, hl, hf⟩ := C70_data_order (fun i => ((S.sources.map fun s => s.freq)[i]?).getD 0)
    S.sources.length g
  unfold Sim.survey
  rw [hl]
  simp [Except.map, hf]

theorem range_getD {α β : Type} (l : List α) (f : α → β) (d : β) :
    ((List.range l.length).map fun i => some (((l.map f)[i]?).getD d)) = l.map fun x => some (f x) := by
  refine List.ext_getElem? fun i => ?_
  by_cases hi : i < l.length
  · simp [hi]
  · simp [hi]

theorem Jvec_eq (S : Sim p n K L) (m v : p → ℝ) (hok : S.fails = false) :
    S.Jvec m v = .ok (S.sources.map fun s => some (S.srcJvec m v s)) := by
  unfold Sim.Jvec
  rw [hok]
  have := visit_fill S fun i => ((S.sources.map (S.srcJvec m v))[i]?).getD []
  rw [range_getD] at this
  simp only [Bool.false_eq_true, if_false]
  rw [← this]
  rfl

theorem getJ_eq (S : Sim p n K L) (m : p → ℝ) (hok : S.fails = false) :
    S.getJ m = .ok (S.sources.map fun s => some (S.srcJ m s)) := by
  unfold Sim.getJ
  rw [hok]
  have := visit_fill S fun i => ((S.sources.map (S.srcJ m))[i]?).getD []
  rw [range_getD] at this
  simp only [Bool.false_eq_true, if_false]
  rw [← this]
  rfl

theorem length_splitData (ss : List (Src p n K L)) (w : List ℝ) : (splitData ss w).length = ss.length := by
  induction ss generalizing w with
  | nil => rfl
  | cons s ss ih => simp [splitData, ih]

theorem sum_range_getD {β : Type} [AddCommMonoid β] (c : List β) :
    ((List.range c.length).map fun i => (c[i]?).getD 0).sum = c.sum := by
  congr 1
  refine List.ext_getElem? fun i => ?_
  by_cases hi : i < c.length
  · simp [hi]
  · simp [hi]

theorem Jtvec_eq (S : Sim p n K L) (m : p → ℝ) (w : List ℝ) (hok : S.fails = false) :
    S.Jtvec m w = .ok (List.zipWith (S.srcJtvec m) S.sources (splitData S.sources w)).sum := by
  unfold Sim.Jtvec
  rw [hok]
  obtain ⟨l, hl, hf⟩ := C70_sum (fun i => ((S.sources.map fun s => s.freq)[i]?).getD 0)
    (List.range S.sources.length) List.nodup_range fun i =>
      ((List.zipWith (S.srcJtvec m) S.sources (splitData S.sources w))[i]?).getD 0
  have hlen : (List.zipWith (S.srcJtvec m) S.sources (splitData S.sources w)).length =
      S.sources.length := by simp [length_splitData]
  rw [← hlen, sum_range_getD] at hf
  simp only [Bool.false_eq_true, if_false]
  unfold Sim.survey
  rw [hl]
  change Except.ok _ = _
  rw [hf]

/-! ### C68: the generic statements -/

/-- The data vector a `Jvec` result stands for: every block must have been written. -/
def blocks (l : List (List ℝ)) : List (Option (List ℝ)) := l.map some

/-- A list of Jacobians, one per source and receiver, of the predicted data. -/
def IsDataJacobian (S : Sim p n K L) (m : p → ℝ)
    (J : (s : Src p n K L) → (r : Rx K L) → Matrix (Fin r.nD) p ℝ) : Prop :=
  ∀ s ∈ S.sources, ∀ r ∈ s.rx,
    IsJacobian (fun y => r.eval (s.fld r.field) y (S.sol y s)) (J s r) m

/-- **C68, any formulation.** If every system and every measured field is differentiated correctly,
`Jvec` writes, for every source and in the order of the survey, the derivative of the predicted data
in the direction `v`. -/
theorem jvec_exact (S : Sim p n K L) (m : p → ℝ) (hok : S.fails = false)
    (hS : ∀ s ∈ S.sources, SystemExact S m s)
    (hF : ∀ s ∈ S.sources, ∀ r ∈ s.rx, FieldExact (s.fld r.field) m (S.sol m s)) :
    ∃ J : (s : Src p n K L) → (r : Rx K L) → Matrix (Fin r.nD) p ℝ,
      IsDataJacobian S m J ∧
      ∀ v, S.Jvec m v = .ok (blocks (S.sources.map fun s =>
        s.rx.flatMap fun r => List.ofFn (J s r *ᵥ v))) := by
  classical
  have key : ∀ s : Src p n K L, ∀ r : Rx K L, ∃ J : Matrix (Fin r.nD) p ℝ,
      s ∈ S.sources → r ∈ s.rx →
        IsJacobian (fun y => r.eval (s.fld r.field) y (S.sol y s)) J m ∧
        ∀ v, r.deriv (s.fld r.field) m (S.sol m s) (S.du m s (castV ℂ v)) (castV ℂ v) = J *ᵥ v := by
    intro s r
    by_cases hm : s ∈ S.sources ∧ r ∈ s.rx
    · obtain ⟨J, hJ⟩ := rx_jac (hS s hm.1) r (hF s hm.1 r hm.2)
      exact ⟨J, fun _ _ => hJ⟩
    · exact ⟨0, fun h1 h2 => absurd ⟨h1, h2⟩ hm⟩
  choose J hJ using key
  refine ⟨J, fun s hs r hr => (hJ s r hs hr).1, fun v => ?_⟩
  rw [Jvec_eq S m v hok]
  unfold blocks
  rw [List.map_map]
  congr 1
  refine List.map_congr_left fun s hs => ?_
  simp only [Function.comp_def, Sim.srcJvec]
  congr 1
  refine List.flatMap_congr fun r hr => ?_
  rw [(hJ s r hs hr).2 v]

/-- One source and receiver: the transposed product in complex form. -/
theorem re_dot {κ : Type} [Fintype κ] (c : Comp) (w : κ → ℝ) (z : κ → ℂ) :
    (fun i => c.part (z i)) ⬝ᵥ w = ((Comp.coef c • castV ℂ w) ⬝ᵥ z).re := by
  simp only [dotProduct, part_eq, Pi.smul_apply, castV_apply, smul_eq_mul, Complex.re_sum]
  refine Finset.sum_congr rfl fun i _ => ?_
  have : (Comp.coef c * (RCLike.ofReal (w i) : ℂ) * z i) = ((w i : ℝ) : ℂ) * (Comp.coef c * z i) := by
    change Comp.coef c * ((w i : ℝ) : ℂ) * z i = _
    ring
  rw [this, Complex.re_ofReal_mul, mul_comm]

theorem rx_adjoint (r : Rx K L) (w : Fin r.nD → ℝ) (z : L r.field → ℂ) :
    (fun i => r.comp.part ((r.P.map (fun x => (x : ℂ)) *ᵥ z) i)) ⬝ᵥ w = ((r.PT w) ⬝ᵥ z).re := by
  rw [re_dot, PT_eq]
  congr 1
  rw [smul_dotProduct, smul_dotProduct, Matrix.dotProduct_mulVec]
  congr 2
  funext j
  simp only [Matrix.vecMul, dotProduct, castV_apply, Matrix.map_apply, Matrix.mulVec,
    Matrix.transpose_apply]
  change _ = (((∑ x, r.P x j * w x : ℝ)) : ℂ)
  push_cast
  exact Finset.sum_congr rfl fun x _ => by
    change ((w x : ℝ) : ℂ) * _ = _
    ring

theorem symm_solve_dot {A : Matrix n n ℂ} (hA : Aᵀ = A) (R : Matrix n p ℂ) (x : n → ℂ) (v : p → ℂ) :
    x ⬝ᵥ (A⁻¹ *ᵥ (R *ᵥ v)) = (Rᵀ *ᵥ (A⁻¹ *ᵥ x)) ⬝ᵥ v := by
  have h : (A⁻¹)ᵀ = A⁻¹ := by rw [Matrix.transpose_nonsing_inv, hA]
  rw [Matrix.dotProduct_mulVec, Matrix.dotProduct_mulVec, ← Matrix.mulVec_transpose,
    ← Matrix.mulVec_transpose, h]

theorem rxSums_adjoint {S : Sim p n K L} {m : p → ℝ} {s : Src p n K L} (v : p → ℝ)
    (du : n → ℂ) : ∀ (rs : List (Rx K L)) (w : List ℝ),
    (∀ r ∈ rs, FieldAdjoint (s.fld r.field) m (S.sol m s)) →
    dotList (rs.flatMap fun r => List.ofFn
        (r.deriv (s.fld r.field) m (S.sol m s) du (castV ℂ v))) w =
      ((S.rxSums m s rs w).1 ⬝ᵥ du + (S.rxSums m s rs w).2 ⬝ᵥ castV ℂ v).re := by
  intro rs
  induction rs with
  | nil => intro w _; simp [Sim.rxSums, dotList]
  | cons r rs ih =>
    intro w h
    rw [List.flatMap_cons, dotList_append, List.length_ofFn, dotList_ofFn,
      ih _ fun r' hr' => h r' (List.mem_cons_of_mem _ hr')]
    obtain ⟨Du, Dm, h1, h2, h3, h4⟩ := h r List.mem_cons_self
    simp only [Sim.rxSums]
    have e := rx_adjoint r (fun i => w.getD i 0)
      ((s.fld r.field).du m du + (s.fld r.field).dm m (S.sol m s) (castV ℂ v))
    have e1 : (r.deriv (s.fld r.field) m (S.sol m s) du (castV ℂ v)) =
      fun i => r.comp.part ((r.P.map (fun x => (x : ℂ)) *ᵥ
        ((s.fld r.field).du m du + (s.fld r.field).dm m (S.sol m s) (castV ℂ v))) i) := rfl
    rw [e1, e, ← Complex.add_re]
    congr 1
    rw [h1, h2, h3, h4, dotProduct_add, add_dotProduct, add_dotProduct,
      Matrix.mulVec_transpose, Matrix.mulVec_transpose, ← Matrix.dotProduct_mulVec,
      ← Matrix.dotProduct_mulVec]
    ring

theorem src_adjoint {S : Sim p n K L} {m : p → ℝ} {s : Src p n K L} (hS : SystemAdjoint S m s)
    (hF : ∀ r ∈ s.rx, FieldAdjoint (s.fld r.field) m (S.sol m s)) (v : p → ℝ) (w : List ℝ) :
    dotList (S.srcJvec m v s) w = S.srcJtvec m s w ⬝ᵥ v := by
  unfold Sim.srcJvec
  rw [rxSums_adjoint v _ s.rx w hF]
  obtain ⟨R, h1, h2⟩ := hS.res
  set b := S.rxSums m s s.rx w with hb
  have hsol : b.1 ⬝ᵥ S.du m s (castV ℂ v) =
      (Rᵀ *ᵥ ((S.A s.freq m)⁻¹ *ᵥ b.1)) ⬝ᵥ castV ℂ v := by
    unfold Sim.du
    rw [h1, symm_solve_dot hS.symm]
  rw [hsol]
  unfold Sim.srcJtvec
  simp only [← hb]
  have h3 := h2 ((S.A s.freq m)⁻¹ *ᵥ b.1)
  rw [← h3]
  simp only [dotProduct, Complex.add_re, Complex.re_sum, castV_apply, ← Finset.sum_add_distrib,
    Pi.add_apply, Pi.neg_apply]
  refine Finset.sum_congr rfl fun i _ => ?_
  have : ∀ z : ℂ, (z * (RCLike.ofReal (v i) : ℂ)).re = z.re * v i := fun z => by
    change (z * ((v i : ℝ) : ℂ)).re = _
    rw [Complex.re_mul_ofReal]
  rw [this, this, ← add_mul]
  congr 1
  simp only [Complex.add_re, Complex.neg_re]
  ring

theorem length_srcJvec (S : Sim p n K L) (m v : p → ℝ) (s : Src p n K L) :
    (S.srcJvec m v s).length = s.nD := by
  simp [Sim.srcJvec, Src.nD, List.length_flatMap]

theorem dotList_take (a w : List ℝ) : dotList a (w.take a.length) = dotList a w := by
  unfold dotList
  congr 1
  induction a generalizing w with
  | nil => simp
  | cons x a ih => cases w with
    | nil => simp
    | cons y w => simp [ih]

/-- **C68, any formulation.** `Jtvec` is the adjoint of `Jvec`, for every data vector `w`. -/
theorem jtvec_adjoint (S : Sim p n K L) (m : p → ℝ) (hok : S.fails = false)
    (hS : ∀ s ∈ S.sources, SystemAdjoint S m s)
    (hF : ∀ s ∈ S.sources, ∀ r ∈ s.rx, FieldAdjoint (s.fld r.field) m (S.sol m s)) :
    ∃ (Jv : (p → ℝ) → List (List ℝ)) (Jt : List ℝ → p → ℝ),
      (∀ v, S.Jvec m v = .ok (blocks (Jv v))) ∧ (∀ w, S.Jtvec m w = .ok (Jt w)) ∧
      ∀ v w, dotList (Jv v).flatten w = Jt w ⬝ᵥ v := by
  refine ⟨fun v => S.sources.map (S.srcJvec m v),
    fun w => (List.zipWith (S.srcJtvec m) S.sources (splitData S.sources w)).sum, ?_, ?_, ?_⟩
  · intro v
    rw [Jvec_eq S m v hok, blocks, List.map_map]
    rfl
  · exact fun w => Jtvec_eq S m w hok
  · intro v w
    have key : ∀ (ss : List (Src p n K L)) (w : List ℝ), (∀ s ∈ ss, s ∈ S.sources) →
        dotList (ss.map (S.srcJvec m v)).flatten w =
          (List.zipWith (S.srcJtvec m) ss (splitData ss w)).sum ⬝ᵥ v := by
      intro ss
      induction ss with
      | nil => intro w _; simp [splitData, dotList]
      | cons s ss ih =>
        intro w h
        rw [List.map_cons, List.flatten_cons, dotList_append,
          ih _ fun t ht => h t (List.mem_cons_of_mem _ ht)]
        have hs := h s List.mem_cons_self
        rw [splitData, List.zipWith_cons_cons, List.sum_cons, add_dotProduct,
          ← src_adjoint (hS s hs) (hF s hs), length_srcJvec]
        congr 1
        rw [← length_srcJvec S m v s, dotList_take]
    exact key S.sources w fun s hs => hs

theorem rxRow_eq {S : Sim p n K L} {m : p → ℝ} {s : Src p n K L} (hS : SystemAdjoint S m s)
    (r : Rx K L) (hF : FieldAdjoint (s.fld r.field) m (S.sol m s)) (v : p → ℝ) (k : Fin r.nD) :
    S.rxRow m s r k ⬝ᵥ v =
      r.deriv (s.fld r.field) m (S.sol m s) (S.du m s (castV ℂ v)) (castV ℂ v) k := by
  obtain ⟨R, h1, h2⟩ := hS.res
  obtain ⟨Du, Dm, g1, g2, g3, g4⟩ := hF
  have e := rx_adjoint r (Pi.single k 1)
    ((s.fld r.field).du m (S.du m s (castV ℂ v)) + (s.fld r.field).dm m (S.sol m s) (castV ℂ v))
  rw [dotProduct_single, mul_one] at e
  have e1 : (r.deriv (s.fld r.field) m (S.sol m s) (S.du m s (castV ℂ v)) (castV ℂ v)) k =
      r.comp.part ((r.P.map (fun x => (x : ℂ)) *ᵥ
        ((s.fld r.field).du m (S.du m s (castV ℂ v)) +
          (s.fld r.field).dm m (S.sol m s) (castV ℂ v))) k) := rfl
  rw [e1, e]
  set w := r.PT (Pi.single k 1)
  have hsol : (Duᵀ *ᵥ w) ⬝ᵥ S.du m s (castV ℂ v) =
      (Rᵀ *ᵥ ((S.A s.freq m)⁻¹ *ᵥ (Duᵀ *ᵥ w))) ⬝ᵥ castV ℂ v := by
    unfold Sim.du
    rw [h1, symm_solve_dot hS.symm]
  have hw : w ⬝ᵥ ((s.fld r.field).du m (S.du m s (castV ℂ v)) +
      (s.fld r.field).dm m (S.sol m s) (castV ℂ v)) =
      (Rᵀ *ᵥ ((S.A s.freq m)⁻¹ *ᵥ (Duᵀ *ᵥ w)) + Dmᵀ *ᵥ w) ⬝ᵥ castV ℂ v := by
    rw [g1, g2, dotProduct_add, Matrix.dotProduct_mulVec, Matrix.dotProduct_mulVec,
      ← Matrix.mulVec_transpose, ← Matrix.mulVec_transpose, hsol, add_dotProduct]
  rw [hw]
  have h3 := h2 ((S.A s.freq m)⁻¹ *ᵥ (Duᵀ *ᵥ w))
  rw [← h3, ← g4, ← g3]
  simp only [Sim.rxRow, dotProduct, Complex.re_sum, castV_apply, Pi.add_apply, Pi.neg_apply]
  refine Finset.sum_congr rfl fun i _ => ?_
  have : ∀ z : ℂ, (z * (RCLike.ofReal (v i) : ℂ)).re = z.re * v i := fun z => by
    change (z * ((v i : ℝ) : ℂ)).re = _
    rw [Complex.re_mul_ofReal]
  rw [this]

/-- **C68, any formulation.** The rows of `getJ` times `v` are `Jvec`. -/
theorem getJ_rows (S : Sim p n K L) (m : p → ℝ) (hok : S.fails = false)
    (hS : ∀ s ∈ S.sources, SystemAdjoint S m s)
    (hF : ∀ s ∈ S.sources, ∀ r ∈ s.rx, FieldAdjoint (s.fld r.field) m (S.sol m s)) :
    ∃ rows : List (List (p → ℝ)), S.getJ m = .ok (rows.map some) ∧
      ∀ v, S.Jvec m v = .ok (blocks (rows.map fun l => l.map fun row => row ⬝ᵥ v)) := by
  refine ⟨S.sources.map (S.srcJ m), ?_, ?_⟩
  · rw [getJ_eq S m hok, List.map_map]; rfl
  · intro v
    rw [Jvec_eq S m v hok, blocks, List.map_map, List.map_map]
    congr 1
    refine List.map_congr_left fun s hs => ?_
    simp only [Function.comp_def, Sim.srcJvec, Sim.srcJ, List.map_flatMap]
    congr 1
    refine List.flatMap_congr fun r hr => ?_
    rw [List.map_ofFn]
    congr 1
    funext k
    exact (rxRow_eq (hS s hs) r (hF s hs r hr) v k).symm

/-- **C68.** When several sources share a frequency and `getRHSDeriv` cannot handle it, no sensitivity
is available at all. -/
theorem jvec_fails (S : Sim p n K L) (m v : p → ℝ) (w : List ℝ) (h : S.fails = true) :
    S.Jvec m v = .error .valueError ∧ S.Jtvec m w = .error .valueError ∧
      S.getJ m = .error .valueError := by
  simp [Sim.Jvec, Sim.Jtvec, Sim.getJ, h]

end

end Verif.FDEM.Props
