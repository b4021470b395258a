import Verif.Basic
import Verif.Jacobian
import Mathlib.Algebra.BigOperators.Fin
import Mathlib.Tactic.Linarith
import Mathlib.Tactic.FieldSimp
import Mathlib.Tactic.NoncommRing

/-! Model of the Richards equation simulation (`simpeg/flow/richards/simulation.py`,
`receivers.py`, `survey.py`): residual, its derivatives, and the sensitivity products. -/

noncomputable section
namespace Verif.Flow.Richards
open Verif Matrix

variable {c f p : Type} [Fintype c] [Fintype f] [Fintype p] [DecidableEq c] [DecidableEq f]
  [DecidableEq p]

/-! ### Residual -/

/-- The operators of the mesh (275-279, 325-329): divergence, gradient, `BC * bc`, the average
`aveF2CC.T` and the vertical divergence.  `boundary_conditions` is an array (82-85), so `bc` is the
same at all times. -/
structure Ops (c f : Type) where
  DIV : Matrix c f ℝ
  GRAD : Matrix f c ℝ
  bc : f → ℝ
  AV : Matrix f c ℝ
  Dz : Matrix c f ℝ

/-- The water retention curve `T` and the hydraulic conductivity `K` as functions of the model and
the pressure head, with `derivU` and `derivM`. -/
structure Curves (p c : Type) where
  T : (p → ℝ) → (c → ℝ) → (c → ℝ)
  K : (p → ℝ) → (c → ℝ) → (c → ℝ)
  Tu : (p → ℝ) → (c → ℝ) → Matrix c c ℝ
  Tm : (p → ℝ) → (c → ℝ) → Matrix c p ℝ
  Ku : (p → ℝ) → (c → ℝ) → Matrix c c ℝ
  Km : (p → ℝ) → (c → ℝ) → Matrix c p ℝ

/-- `method` (116-117). -/
inductive Method where
  | mixed
  | head

/-- `aveK = 1.0 / (AV * (1.0 / K))` (337). -/
def aveK (o : Ops c f) (k : c → ℝ) : f → ℝ := fun i => ((o.AV *ᵥ fun j => (k j)⁻¹) i)⁻¹

/-- `RHS` (339). -/
def rhs (o : Ops c f) (k h : c → ℝ) : c → ℝ :=
  o.DIV *ᵥ (diagonal (aveK o k) *ᵥ (o.GRAD *ᵥ h + o.bc)) + o.Dz *ᵥ aveK o k

/-- `getResidual(..., return_g=False)` (317-346). -/
def residual (o : Ops c f) (C : Curves p c) (method : Method) (dt : ℝ) (m : p → ℝ) (hn h : c → ℝ) :
    c → ℝ :=
  match method with
  | .mixed => dt⁻¹ • (C.T m h - C.T m hn) - rhs o (C.K m h) h
  | .head => dt⁻¹ • (C.Tu m h *ᵥ (h - hn)) - rhs o (C.K m h) h

/-- `J` of `getResidual` (348-353). -/
def residualJ (o : Ops c f) (C : Curves p c) (doNewton : Bool) (dt : ℝ) (m : p → ℝ) (h : c → ℝ) :
    Matrix c c ℝ :=
  let a := aveK o (C.K m h)
  let J := dt⁻¹ • C.Tu m h - o.DIV * diagonal a * o.GRAD
  if doNewton then
    let D := diagonal (fun i => a i ^ 2) * o.AV * diagonal (fun j => (C.K m h j ^ 2)⁻¹) * C.Ku m h
    J - o.DIV * diagonal (o.GRAD *ᵥ h + o.bc) * D - o.Dz * D
  else J

/-- The blocks of one time step. -/
structure Block (c p : Type) where
  sub : Matrix c c ℝ
  diag : Matrix c c ℝ
  rhs : Matrix c p ℝ

/-- `diagsJacobian` (257-314). -/
def diagsJacobian (o : Ops c f) (C : Curves p c) (dt : ℝ) (m : p → ℝ) (hn hn1 : c → ℝ) :
    Block c p :=
  let K1 := C.K m hn1
  let G := o.DIV * diagonal (o.GRAD *ᵥ hn1 + o.bc)
  let av := o.AV *ᵥ fun j => (K1 j)⁻¹
  let H := diagonal (fun i => (av i ^ 2)⁻¹) * o.AV * diagonal (fun j => (K1 j ^ 2)⁻¹)
  { sub := (-dt⁻¹) • C.Tu m hn
    diag := dt⁻¹ • C.Tu m hn1 - G * H * C.Ku m hn1 - o.DIV * diagonal (fun i => (av i)⁻¹) * o.GRAD -
      o.Dz * H * C.Ku m hn1
    rhs := G * H * C.Km m hn1 + o.Dz * H * C.Km m hn1 + dt⁻¹ • (C.Tm m hn - C.Tm m hn1) }

/-! ### Receivers -/

/-- A receiver: the blocks of its projection matrix `getP` for the times `0 … nT`; `sat` for
`Saturation`, otherwise `Pressure` (`receivers.py`). -/
structure Rx (c : Type) where
  nD : Nat
  P : Nat → Matrix (Fin nD) c ℝ
  sat : Bool

/-- `rx(U, simulation)` (`receivers.py` 10-17, 55-59); `N` is the number of time steps. -/
def Rx.eval (r : Rx c) (C : Curves p c) (N : Nat) (m : p → ℝ) (U : Nat → c → ℝ) : Fin r.nD → ℝ :=
  ∑ k ∈ Finset.range (N + 1), r.P k *ᵥ (if r.sat then C.T m (U k) else U k)

/-- `rx.deriv(U, simulation, du_dm_v, v)` (`receivers.py` 19-46, 61-94).  `dT_dm` is zero for
curves without a model. -/
def Rx.deriv (r : Rx c) (C : Curves p c) (N : Nat) (m : p → ℝ) (U du : Nat → c → ℝ) (v : p → ℝ) :
    Fin r.nD → ℝ :=
  if r.sat then
    ∑ k ∈ Finset.range (N + 1), r.P k *ᵥ (C.Tu m (U k) *ᵥ du k) +
      ∑ k ∈ Finset.range (N + 1), r.P k *ᵥ (C.Tm m (U k) *ᵥ v)
  else ∑ k ∈ Finset.range (N + 1), r.P k *ᵥ du k

/-- `rx.deriv(..., adjoint=True)` (`receivers.py` 47-49, 97-100). -/
def Rx.derivAdjoint (r : Rx c) (C : Curves p c) (N : Nat) (m : p → ℝ) (U : Nat → c → ℝ)
    (w : Fin r.nD → ℝ) : (Nat → c → ℝ) × (p → ℝ) :=
  if r.sat then
    (fun k => (C.Tu m (U k))ᵀ *ᵥ ((r.P k)ᵀ *ᵥ w),
      ∑ k ∈ Finset.range (N + 1), (C.Tm m (U k))ᵀ *ᵥ ((r.P k)ᵀ *ᵥ w))
  else (fun k => (r.P k)ᵀ *ᵥ w, 0)

/-- `dpred` (216-237). -/
def dpred (rs : List (Rx c)) (C : Curves p c) (N : Nat) (m : p → ℝ) (U : Nat → c → ℝ) : List ℝ :=
  rs.flatMap fun r => List.ofFn (r.eval C N m U)

/-- `survey.deriv` (`survey.py` 41-64). -/
def surveyDeriv (rs : List (Rx c)) (C : Curves p c) (N : Nat) (m : p → ℝ) (U du : Nat → c → ℝ)
    (v : p → ℝ) : List ℝ :=
  rs.flatMap fun r => List.ofFn (r.deriv C N m U du v)

/-- The loop of `survey.derivAdjoint` (`survey.py` 83-91): `w` is what is left of `v` after `cnt`
entries. -/
def surveyAdjoint (C : Curves p c) (N : Nat) (m : p → ℝ) (U : Nat → c → ℝ) :
    List (Rx c) → List ℝ → (Nat → c → ℝ) × (p → ℝ)
  | [], _ => (fun _ => 0, 0)
  | r :: rs, w =>
    let a := r.derivAdjoint C N m U fun i => w.getD i 0
    let b := surveyAdjoint C N m U rs (w.drop r.nD)
    (fun k => a.1 k + b.1 k, a.2 + b.2)

/-! ### Sensitivities -/

/-- The forward substitution of `Jvec` (394-408): `JvC[k]`.  The solver is taken to be exact. -/
def forward (b : Nat → Block c p) (v : p → ℝ) : Nat → c → ℝ
  | 0 => (b 0).diag⁻¹ *ᵥ ((b 0).rhs *ᵥ v)
  | k + 1 => (b (k + 1)).diag⁻¹ *ᵥ ((b (k + 1)).rhs *ᵥ v - (b (k + 1)).sub *ᵥ forward b v k)

/-- The backward substitution of `Jtvec` (422-434) over `n` time steps: `minus` and `BJtv` after
the steps `n - 1, …, 0`. -/
def backward : Nat → (Nat → Block c p) → (Nat → c → ℝ) → (c → ℝ) × (p → ℝ)
  | 0, _, _ => (0, 0)
  | n + 1, b, w =>
    let r := backward n (fun k => b (k + 1)) (fun k => w (k + 1))
    let J := ((b 0).diagᵀ)⁻¹ *ᵥ (w 0 - r.1)
    ((b 0).subᵀ *ᵥ J, r.2 + (b 0).rhsᵀ *ᵥ J)

/-- `np.concatenate([np.zeros(nC)] + JvC)` (410). -/
def withZero (x : Nat → c → ℝ) : Nat → c → ℝ
  | 0 => 0
  | k + 1 => x k

/-- The simulation: operators, curves, time steps and receivers. -/
structure Sim (p c f : Type) where
  o : Ops c f
  C : Curves p c
  dts : List ℝ
  rs : List (Rx c)

/-- The blocks for given fields (398, 404-406, 426-428). -/
def Sim.blocks (s : Sim p c f) (m : p → ℝ) (U : Nat → c → ℝ) (k : Nat) : Block c p :=
  diagsJacobian s.o s.C (s.dts.getD k 0) m (U k) (U (k + 1))

/-- `Jvec(m, v, f)` (390-412). -/
def Sim.Jvec (s : Sim p c f) (m v : p → ℝ) (U : Nat → c → ℝ) : List ℝ :=
  surveyDeriv s.rs s.C s.dts.length m U (withZero (forward (s.blocks m U) v)) v

/-- `Jtvec(m, v, f)` (415-436); without `f` the code calls `self.field`, which does not exist. -/
def Sim.Jtvec (s : Sim p c f) (m : p → ℝ) (w : List ℝ) (U : Option (Nat → c → ℝ)) :
    Except Err (p → ℝ) :=
  match U with
  | none => .error .attributeError
  | some U =>
    let P := surveyAdjoint s.C s.dts.length m U s.rs w
    let r := backward s.dts.length (s.blocks m U) (fun k => P.1 (k + 1))
    .ok (r.2 + P.2)

/-- The matrix `A = As + Ad` of `Jfull` (368-372). -/
def fullA (N : Nat) (b : Nat → Block c p) : Matrix (Fin N × c) (Fin N × c) ℝ :=
  fun x y => (if x.1 = y.1 then (b x.1).diag x.2 y.2 else 0) +
    (if x.1.val = y.1.val + 1 then (b x.1).sub x.2 y.2 else 0)

/-- `B = vstack(Bs)` (373). -/
def fullB (N : Nat) (b : Nat → Block c p) : Matrix (Fin N × c) p ℝ := fun x q => (b x.1).rhs x.2 q

/-- `AinvB` of `Jfull` (375-378), column `q`, at time `k`; zero at the first time. -/
def fullColumn (N : Nat) (b : Nat → Block c p) (q : p) : Nat → c → ℝ
  | 0 => 0
  | k + 1 => fun i => if h : k < N then ((fullA N b)⁻¹ * fullB N b) (⟨k, h⟩, i) q else 0

/-- `Jfull` (356-387), column `q`: the survey derivative of that column, in which `dT_dm` is used
unmultiplied. -/
def Sim.JfullColumn (s : Sim p c f) (m : p → ℝ) (U : Nat → c → ℝ) (q : p) : List ℝ :=
  surveyDeriv s.rs s.C s.dts.length m U (fullColumn s.dts.length (s.blocks m U) q) (Pi.single q 1)

namespace Props

/-! ### Specification -/

/-- The curves have the derivatives they claim, at a head and model. -/
def Curves.Exact (C : Curves p c) (m : p → ℝ) (h : c → ℝ) : Prop :=
  IsJacobian₂ C.T (C.Tm m h) (C.Tu m h) m h ∧ IsJacobian₂ C.K (C.Km m h) (C.Ku m h) m h

/-- The conductivities and their harmonic averages are defined. -/
def Regular (o : Ops c f) (C : Curves p c) (m : p → ℝ) (h : c → ℝ) : Prop :=
  (∀ j, C.K m h j ≠ 0) ∧ ∀ i, (o.AV *ᵥ fun j => (C.K m h j)⁻¹) i ≠ 0

/-- The sum of products of two lists of data. -/
def dotList (a b : List ℝ) : ℝ := (List.zipWith (· * ·) a b).sum

/-! ### C47 -/

theorem dot_inv (A : Matrix c c ℝ) (x y : c → ℝ) : (A⁻¹ *ᵥ x) ⬝ᵥ y = x ⬝ᵥ ((Aᵀ)⁻¹ *ᵥ y) := by
  rw [← Matrix.transpose_nonsing_inv, dotProduct_mulVec, vecMul_transpose]

theorem dot_transpose {a b : Type} [Fintype a] [Fintype b] (A : Matrix a b ℝ) (x : b → ℝ)
    (y : a → ℝ) : (A *ᵥ x) ⬝ᵥ y = x ⬝ᵥ (Aᵀ *ᵥ y) := by
  rw [dotProduct_mulVec, vecMul_transpose]

/-- The substitution with something before the first step. -/
def forwardFrom (y : c → ℝ) (b : Nat → Block c p) (v : p → ℝ) : Nat → c → ℝ
  | 0 => (b 0).diag⁻¹ *ᵥ ((b 0).rhs *ᵥ v - (b 0).sub *ᵥ y)
  | k + 1 => (b (k + 1)).diag⁻¹ *ᵥ ((b (k + 1)).rhs *ᵥ v - (b (k + 1)).sub *ᵥ forwardFrom y b v k)

theorem forward_eq (b : Nat → Block c p) (v : p → ℝ) (k : Nat) :
    forward b v k = forwardFrom 0 b v k := by
  induction k with
  | zero => simp [forward, forwardFrom]
  | succ k ih => simp [forward, forwardFrom, ih]

theorem forwardFrom_shift (y : c → ℝ) (b : Nat → Block c p) (v : p → ℝ) (k : Nat) :
    forwardFrom y b v (k + 1) = forwardFrom (forwardFrom y b v 0) (fun j => b (j + 1)) v k := by
  induction k with
  | zero => rfl
  | succ k ih =>
    change _ *ᵥ (_ - _ *ᵥ forwardFrom y b v (k + 1)) = _ *ᵥ (_ - _ *ᵥ forwardFrom _ _ v k)
    rw [ih]

theorem backward_adjoint (n : Nat) (b : Nat → Block c p) (w : Nat → c → ℝ) (y : c → ℝ) (v : p → ℝ) :
    ∑ k ∈ Finset.range n, forwardFrom y b v k ⬝ᵥ w k =
      v ⬝ᵥ (backward n b w).2 - y ⬝ᵥ (backward n b w).1 := by
  induction n generalizing b w y with
  | zero => simp [backward]
  | succ n ih =>
    rw [Finset.sum_range_succ']
    simp only [forwardFrom_shift]
    rw [ih (fun k => b (k + 1)) (fun k => w (k + 1))]
    rw [backward]
    set r := backward n (fun k => b (k + 1)) (fun k => w (k + 1)) with hr
    simp only
    set J := ((b 0).diagᵀ)⁻¹ *ᵥ (w 0 - r.1) with hJ
    have h1 : forwardFrom y b v 0 ⬝ᵥ w 0 - forwardFrom y b v 0 ⬝ᵥ r.1 =
        v ⬝ᵥ ((b 0).rhsᵀ *ᵥ J) - y ⬝ᵥ ((b 0).subᵀ *ᵥ J) := by
      rw [← dotProduct_sub, forwardFrom, dot_inv, ← hJ, sub_dotProduct, dot_transpose,
        dot_transpose]
    rw [dotProduct_add]
    linarith

theorem rx_adjoint (r : Rx c) (C : Curves p c) (N : Nat) (m : p → ℝ) (U du : Nat → c → ℝ)
    (v : p → ℝ) (w : Fin r.nD → ℝ) :
    r.deriv C N m U du v ⬝ᵥ w =
      ∑ k ∈ Finset.range (N + 1), du k ⬝ᵥ (r.derivAdjoint C N m U w).1 k +
        v ⬝ᵥ (r.derivAdjoint C N m U w).2 := by
  unfold Rx.deriv Rx.derivAdjoint
  cases r.sat with
  | false =>
    simp only [Bool.false_eq_true, if_false, dotProduct_zero, add_zero]
    rw [sum_dotProduct]
    exact Finset.sum_congr rfl fun k _ => dot_transpose _ _ _
  | true =>
    simp only [if_true]
    rw [add_dotProduct, sum_dotProduct, sum_dotProduct, dotProduct_sum]
    congr 1
    · exact Finset.sum_congr rfl fun k _ => by rw [dot_transpose, dot_transpose]
    · exact Finset.sum_congr rfl fun k _ => by rw [dot_transpose, dot_transpose]

theorem dotList_append (a b w : List ℝ) :
    dotList (a ++ b) w = dotList a w + dotList b (w.drop a.length) := by
  induction a generalizing w with
  | nil => simp [dotList]
  | cons x a ih =>
    cases w with
    | nil => simp [dotList]
    | cons y w =>
      have := ih w
      simp only [dotList, List.cons_append, List.zipWith_cons_cons, List.sum_cons,
        List.length_cons, List.drop_succ_cons] at this ⊢
      rw [this]; ring

theorem dotList_ofFn (n : Nat) (x : Fin n → ℝ) (w : List ℝ) :
    dotList (List.ofFn x) w = x ⬝ᵥ fun i => w.getD i 0 := by
  induction n generalizing w with
  | zero => simp [dotList]
  | succ n ih =>
    rw [List.ofFn_succ]
    cases w with
    | nil => simp [dotList, dotProduct]
    | cons y w =>
      have := ih (fun i => x i.succ) w
      simp only [dotList, List.zipWith_cons_cons, List.sum_cons, dotProduct] at this ⊢
      rw [this, Fin.sum_univ_succ]
      simp

theorem survey_adjoint (rs : List (Rx c)) (C : Curves p c) (N : Nat) (m : p → ℝ)
    (U du : Nat → c → ℝ) (v : p → ℝ) (w : List ℝ) :
    dotList (surveyDeriv rs C N m U du v) w =
      ∑ k ∈ Finset.range (N + 1), du k ⬝ᵥ (surveyAdjoint C N m U rs w).1 k +
        v ⬝ᵥ (surveyAdjoint C N m U rs w).2 := by
  induction rs generalizing w with
  | nil => simp [surveyDeriv, surveyAdjoint, dotList]
  | cons r rs ih =>
    have hcons : surveyDeriv (r :: rs) C N m U du v =
        List.ofFn (r.deriv C N m U du v) ++ surveyDeriv rs C N m U du v := by
      simp [surveyDeriv]
    rw [hcons, dotList_append, dotList_ofFn, ih, rx_adjoint, List.length_ofFn]
    simp only [surveyAdjoint, dotProduct_add, Finset.sum_add_distrib]
    ring

/-- C47. `Jtvec` is the adjoint of `Jvec` for every number of time steps, all curves (correct or
not), receivers, fields and vectors: `⟨Jvec v, w⟩ = ⟨v, Jtvec w⟩`. -/
theorem C47_adjoint (s : Sim p c f) (m v : p → ℝ) (w : List ℝ) (U : Nat → c → ℝ) :
    ∃ g, s.Jtvec m w (some U) = .ok g ∧ dotList (s.Jvec m v U) w = v ⬝ᵥ g := by
  refine ⟨_, rfl, ?_⟩
  unfold Sim.Jvec
  rw [survey_adjoint, Finset.sum_range_succ']
  simp only [withZero, zero_dotProduct, add_zero, forward_eq]
  rw [backward_adjoint s.dts.length (s.blocks m U)
    (fun k => (surveyAdjoint s.C s.dts.length m U s.rs w).1 (k + 1)) 0 v]
  simp [dotProduct_add]

/-- C47. `Jvec` has as many entries as the predicted data. -/
theorem C47_length (s : Sim p c f) (m v : p → ℝ) (U : Nat → c → ℝ) :
    (s.Jvec m v U).length = (dpred s.rs s.C s.dts.length m U).length := by
  unfold Sim.Jvec surveyDeriv dpred
  induction s.rs with
  | nil => rfl
  | cons r rs ih => simp [List.flatMap_cons, ih]

/-- C47 (violation). `Jtvec(m, v)` without fields raises. -/
theorem C47_jtvec_needs_fields (s : Sim p c f) (m : p → ℝ) (w : List ℝ) :
    s.Jtvec m w none = .error .attributeError := rfl

theorem fullA_apply (N : Nat) (b : Nat → Block c p) (x : Fin N × c → ℝ) (k : Fin N) (i : c) :
    (fullA N b *ᵥ x) (k, i) = ((b k).diag *ᵥ fun j => x (k, j)) i +
      (if h : 0 < k.val then
        ((b k).sub *ᵥ fun j => x (⟨k.val - 1, by omega⟩, j)) i else 0) := by
  have h1 : ∀ l : Fin N, ∑ j, (if k = l then (b k).diag i j else 0) * x (l, j) =
      if k = l then ((b k).diag *ᵥ fun j => x (k, j)) i else 0 := by
    intro l
    by_cases h : k = l
    · subst h; simp [mulVec, dotProduct]
    · simp [h]
  have h2 : ∀ l : Fin N, ∑ j, (if k.val = l.val + 1 then (b k).sub i j else 0) * x (l, j) =
      if k.val = l.val + 1 then ((b k).sub *ᵥ fun j => x (l, j)) i else 0 := by
    intro l
    by_cases h : k.val = l.val + 1
    · simp [h, mulVec, dotProduct]
    · simp [h]
  have h3 : (fullA N b *ᵥ x) (k, i) = ∑ l, ∑ j, ((if k = l then (b k).diag i j else 0) +
      (if k.val = l.val + 1 then (b k).sub i j else 0)) * x (l, j) := by
    simp only [mulVec, dotProduct, fullA]
    rw [Fintype.sum_prod_type]
  rw [h3]
  simp only [add_mul, Finset.sum_add_distrib, h1, h2]
  congr 1
  · simp
  · by_cases h : 0 < k.val
    · rw [dif_pos h, Finset.sum_eq_single (⟨k.val - 1, by omega⟩ : Fin N)]
      · rw [if_pos (by simp only; omega)]
      · intro l _ hl
        rw [if_neg]
        intro e
        exact hl (Fin.ext (by simp only; omega))
      · simp
    · rw [dif_neg h]
      apply Finset.sum_eq_zero
      intro l _
      rw [if_neg (by omega)]

/-- A solution of the block system is found by forward substitution. -/
theorem solve_forward (N : Nat) (b : Nat → Block c p) (hb : ∀ k, k < N → IsUnit (b k).diag.det)
    (v : p → ℝ) (x : Fin N × c → ℝ) (hx : fullA N b *ᵥ x = fullB N b *ᵥ v) :
    ∀ k (h : k < N), (fun i => x (⟨k, h⟩, i)) = forward b v k := by
  have hB : ∀ (k : Fin N) (i : c), (fullB N b *ᵥ v) (k, i) = ((b k).rhs *ᵥ v) i := fun k i => rfl
  intro k
  induction k with
  | zero =>
    intro h
    have e : (b 0).diag *ᵥ (fun j => x (⟨0, h⟩, j)) = (b 0).rhs *ᵥ v := by
      funext i
      have := congrFun hx (⟨0, h⟩, i)
      rw [fullA_apply, hB] at this
      simpa using this
    rw [forward, ← e, mulVec_mulVec, Matrix.nonsing_inv_mul _ (hb 0 h), one_mulVec]
  | succ k ih =>
    intro h
    have hp := ih (by omega)
    have e : (b (k + 1)).diag *ᵥ (fun j => x (⟨k + 1, h⟩, j)) =
        (b (k + 1)).rhs *ᵥ v - (b (k + 1)).sub *ᵥ forward b v k := by
      funext i
      have := congrFun hx (⟨k + 1, h⟩, i)
      rw [fullA_apply, hB, dif_pos (by simp)] at this
      simp only [Nat.add_sub_cancel, hp] at this
      rw [Pi.sub_apply]
      linarith
    rw [forward, ← e, mulVec_mulVec, Matrix.nonsing_inv_mul _ (hb (k + 1) h), one_mulVec]

theorem fullA_unit (N : Nat) (b : Nat → Block c p) (hb : ∀ k, k < N → IsUnit (b k).diag.det) :
    IsUnit (fullA N b) := by
  rw [← Matrix.mulVec_injective_iff_isUnit]
  intro x y hxy
  have h0 : fullA N b *ᵥ (x - y) = fullB N b *ᵥ (0 : p → ℝ) := by
    rw [mulVec_sub, mulVec_zero]
    exact sub_eq_zero.mpr hxy
  have hz : ∀ k, forward b (0 : p → ℝ) k = 0 := by
    intro k
    induction k with
    | zero => simp [forward]
    | succ k ih => simp [forward, ih]
  have := solve_forward N b hb 0 (x - y) h0
  funext ⟨k, i⟩
  have hk := congrFun (this k.val k.isLt) i
  rw [hz] at hk
  have : (x - y) (k, i) = 0 := hk
  have h2 : x (k, i) - y (k, i) = 0 := this
  linarith

/-- C47. `Jfull` and `Jvec` agree: column `q` of the full sensitivity is `Jvec` of the unit vector,
if the diagonal blocks are invertible. -/
theorem C47_full (s : Sim p c f) (m : p → ℝ) (U : Nat → c → ℝ)
    (hb : ∀ k, k < s.dts.length → IsUnit (s.blocks m U k).diag.det) (q : p) :
    s.JfullColumn m U q = s.Jvec m (Pi.single q 1) U := by
  set N := s.dts.length with hN
  set b := s.blocks m U
  have hu := fullA_unit N b hb
  set x : Fin N × c → ℝ := ((fullA N b)⁻¹ * fullB N b) *ᵥ Pi.single q 1 with hxdef
  have hx : fullA N b *ᵥ x = fullB N b *ᵥ Pi.single q 1 := by
    rw [hxdef, mulVec_mulVec, ← Matrix.mul_assoc,
      Matrix.mul_nonsing_inv _ ((Matrix.isUnit_iff_isUnit_det _).mp hu), Matrix.one_mul]
  have hf := solve_forward N b hb _ x hx
  have hcol : ∀ k, k < N + 1 → fullColumn N b q k =
      withZero (forward b (Pi.single q 1)) k := by
    intro k hk
    cases k with
    | zero => rfl
    | succ k =>
      have hk' : k < N := by omega
      rw [withZero, ← hf k hk']
      funext i
      simp only [fullColumn, dif_pos hk', hxdef, Matrix.mulVec_single_one]
      rfl
  unfold Sim.JfullColumn Sim.Jvec surveyDeriv
  rw [← hN]
  congr 1
  funext r
  congr 1
  unfold Rx.deriv
  split
  · congr 1
    exact Finset.sum_congr rfl fun k hk => by rw [hcol k (Finset.mem_range.mp hk)]
  · exact Finset.sum_congr rfl fun k hk => by rw [hcol k (Finset.mem_range.mp hk)]

/-! ### C60 -/

variable {q : Type} [Fintype q] [DecidableEq q]

theorem aveK_jacobian (o : Ops c f) {k : (q → ℝ) → (c → ℝ)} {A : Matrix c q ℝ} {x : q → ℝ}
    (hk : IsJacobian k A x) (h0 : ∀ j, k x j ≠ 0)
    (h1 : ∀ i, (o.AV *ᵥ fun j => (k x j)⁻¹) i ≠ 0) :
    IsJacobian (fun y => aveK o (k y))
      (diagonal (fun i => ((o.AV *ᵥ fun j => (k x j)⁻¹) i ^ 2)⁻¹) * o.AV *
        diagonal (fun j => (k x j ^ 2)⁻¹) * A) x := by
  have a1 := IsJacobian.inv h0 hk
  have a2 := IsJacobian.mulVec o.AV a1
  have a3 := IsJacobian.inv (f := fun y => o.AV *ᵥ fun i => (k y i)⁻¹) h1 a2
  have e : diagonal (fun i => -((o.AV *ᵥ fun j => (k x j)⁻¹) i ^ 2)⁻¹) *
      (o.AV * (diagonal (fun j => -(k x j ^ 2)⁻¹) * A)) =
      diagonal (fun i => ((o.AV *ᵥ fun j => (k x j)⁻¹) i ^ 2)⁻¹) * o.AV *
        diagonal (fun j => (k x j ^ 2)⁻¹) * A := by
    have n1 : diagonal (fun i => -((o.AV *ᵥ fun j => (k x j)⁻¹) i ^ 2)⁻¹) =
        -diagonal (fun i => ((o.AV *ᵥ fun j => (k x j)⁻¹) i ^ 2)⁻¹) := by
      rw [Matrix.diagonal_neg]
    have n2 : diagonal (fun j => -(k x j ^ 2)⁻¹) = -diagonal (fun j => (k x j ^ 2)⁻¹) := by
      rw [Matrix.diagonal_neg]
    rw [n1, n2]
    simp only [Matrix.neg_mul, Matrix.mul_neg, neg_neg, Matrix.mul_assoc]
  rw [e] at a3
  exact a3

theorem rhs_jacobian (o : Ops c f) {k h : (q → ℝ) → (c → ℝ)} {A H : Matrix c q ℝ} {x : q → ℝ}
    (hk : IsJacobian k A x) (hh : IsJacobian h H x) (h0 : ∀ j, k x j ≠ 0)
    (h1 : ∀ i, (o.AV *ᵥ fun j => (k x j)⁻¹) i ≠ 0) :
    let D := diagonal (fun i => ((o.AV *ᵥ fun j => (k x j)⁻¹) i ^ 2)⁻¹) * o.AV *
        diagonal (fun j => (k x j ^ 2)⁻¹)
    IsJacobian (fun y => rhs o (k y) (h y))
      (o.DIV * diagonal (aveK o (k x)) * o.GRAD * H +
        o.DIV * diagonal (o.GRAD *ᵥ h x + o.bc) * D * A + o.Dz * D * A) x := by
  intro D
  have a1 := aveK_jacobian o hk h0 h1
  have a2 : IsJacobian (fun y => o.GRAD *ᵥ h y + o.bc) (o.GRAD * H + 0) x :=
    (IsJacobian.mulVec o.GRAD hh).add (isJacobian_const _ _)
  have a3 := a1.mul a2
  have a4 := (IsJacobian.mulVec o.DIV a3).add (IsJacobian.mulVec o.Dz a1)
  have e : (fun y => rhs o (k y) (h y)) = fun y =>
      o.DIV *ᵥ (aveK o (k y) * (o.GRAD *ᵥ h y + o.bc)) + o.Dz *ᵥ aveK o (k y) := by
    funext y
    unfold rhs
    congr 2
    funext i
    rw [mulVec_diagonal]
    rfl
  rw [e]
  convert a4 using 1
  simp only [D, add_zero, Matrix.mul_add, Matrix.mul_assoc]

/-- The derivative of the mixed residual along any differentiable change of model and heads. -/
theorem residual_total (o : Ops c f) (C : Curves p c) (dt : ℝ) {mm : (q → ℝ) → (p → ℝ)}
    {hn h : (q → ℝ) → (c → ℝ)} {M : Matrix p q ℝ} {Hn H : Matrix c q ℝ} {x : q → ℝ}
    (hm : IsJacobian mm M x) (hhn : IsJacobian hn Hn x) (hh : IsJacobian h H x)
    (en : IsJacobian₂ C.T (C.Tm (mm x) (hn x)) (C.Tu (mm x) (hn x)) (mm x) (hn x))
    (e1 : Curves.Exact C (mm x) (h x)) (hr : Regular o C (mm x) (h x)) :
    let b := diagsJacobian o C dt (mm x) (hn x) (h x)
    IsJacobian (fun y => residual o C .mixed dt (mm y) (hn y) (h y))
      (b.sub * Hn + b.diag * H - b.rhs * M) x := by
  intro b
  have t1 := e1.1.comp hm hh
  have tn := en.comp hm hhn
  have k1 := e1.2.comp hm hh
  have r := rhs_jacobian o k1 hh hr.1 hr.2
  have tot := ((t1.sub tn).smul dt⁻¹).sub r
  have e : (fun y => residual o C .mixed dt (mm y) (hn y) (h y)) = fun y =>
      dt⁻¹ • (C.T (mm y) (h y) - C.T (mm y) (hn y)) - rhs o (C.K (mm y) (h y)) (h y) := rfl
  rw [e]
  convert tot using 1
  simp only [b, diagsJacobian]
  have av : diagonal (aveK o (C.K (mm x) (h x))) =
      diagonal (fun i => ((o.AV *ᵥ fun j => (C.K (mm x) (h x) j)⁻¹) i)⁻¹) := rfl
  rw [av]
  set A1 := diagonal (fun i => ((o.AV *ᵥ fun j => (C.K (mm x) (h x) j)⁻¹) i)⁻¹)
  set D := diagonal (fun i => ((o.AV *ᵥ fun j => (C.K (mm x) (h x) j)⁻¹) i ^ 2)⁻¹) * o.AV *
        diagonal (fun j => (C.K (mm x) (h x) j ^ 2)⁻¹)
  set G := diagonal (o.GRAD *ᵥ h x + o.bc)
  simp only [Matrix.add_mul, Matrix.sub_mul, Matrix.mul_add, Matrix.smul_mul, smul_sub, smul_add,
    neg_smul, Matrix.neg_mul, Matrix.mul_assoc]
  abel

/-- C60. For the mixed form, the three blocks are the derivatives of the residual of a time step
with respect to the head before, the head after, and (with the opposite sign) the model. -/
theorem C60_blocks (o : Ops c f) (C : Curves p c) (dt : ℝ) (m : p → ℝ) (hn h : c → ℝ)
    (en : IsJacobian₂ C.T (C.Tm m hn) (C.Tu m hn) m hn) (e1 : Curves.Exact C m h)
    (hr : Regular o C m h) :
    let b := diagsJacobian o C dt m hn h
    IsJacobian (fun y => residual o C .mixed dt m y h) b.sub hn ∧
    IsJacobian (fun y => residual o C .mixed dt m hn y) b.diag h ∧
    IsJacobian (fun y => residual o C .mixed dt y hn h) (-b.rhs) m := by
  intro b
  refine ⟨?_, ?_, ?_⟩
  · have := residual_total (x := hn) o C dt (isJacobian_const m hn) (isJacobian_id hn)
      (isJacobian_const h hn) en e1 hr
    simpa using this
  · have := residual_total (x := h) o C dt (isJacobian_const m h) (isJacobian_const hn h)
      (isJacobian_id h) en e1 hr
    simpa using this
  · have := residual_total (x := m) o C dt (isJacobian_id m) (isJacobian_const hn m)
      (isJacobian_const h m) en e1 hr
    simpa using this

/-- C60. With `do_newton`, the matrix `getResidual` returns is the derivative of the mixed residual,
and it is the diagonal block of the sensitivities. -/
theorem C60_newton (o : Ops c f) (C : Curves p c) (dt : ℝ) (m : p → ℝ) (hn h : c → ℝ)
    (en : IsJacobian₂ C.T (C.Tm m hn) (C.Tu m hn) m hn) (e1 : Curves.Exact C m h)
    (hr : Regular o C m h) :
    IsJacobian (fun y => residual o C .mixed dt m hn y) (residualJ o C true dt m h) h := by
  have hb := (C60_blocks o C dt m hn h en e1 hr).2.1
  have e : residualJ o C true dt m h = (diagsJacobian o C dt m hn h).diag := by
    unfold residualJ diagsJacobian
    simp only [if_true]
    have a2 : (fun i => aveK o (C.K m h) i ^ 2) =
        fun i => ((o.AV *ᵥ fun j => (C.K m h j)⁻¹) i ^ 2)⁻¹ := by
      funext i; simp [aveK]
    have a1 : aveK o (C.K m h) = fun i => ((o.AV *ᵥ fun j => (C.K m h j)⁻¹) i)⁻¹ := rfl
    rw [a2, a1]
    simp only [Matrix.mul_assoc]
    abel
  rw [e]
  exact hb

/-- C60. If the heads depend differentiably on the model and satisfy the mixed equations for all
models nearby, the substitution in `Jvec` computes their derivatives at every time step, however
many there are. -/
theorem C60_heads (s : Sim p c f) (m : p → ℝ) (U : Nat → (p → ℝ) → (c → ℝ)) (h0 : c → ℝ)
    (DU : Nat → Matrix c p ℝ) (hU0 : ∀ y, U 0 y = h0)
    (hD : ∀ k, k ≤ s.dts.length → IsJacobian (U k) (DU k) m)
    (hres : ∀ k, k < s.dts.length → ∀ᶠ y in nhds m,
      residual s.o s.C .mixed (s.dts.getD k 0) y (U k y) (U (k + 1) y) = 0)
    (hex : ∀ k, k ≤ s.dts.length → Curves.Exact s.C m (U k m))
    (hreg : ∀ k, k ≤ s.dts.length → Regular s.o s.C m (U k m))
    (hinv : ∀ k, k < s.dts.length → IsUnit (s.blocks m (fun j => U j m) k).diag.det) :
    (∀ v, DU 0 *ᵥ v = 0) ∧
    ∀ k, k < s.dts.length → ∀ v,
      DU (k + 1) *ᵥ v = forward (s.blocks m fun j => U j m) v k := by
  have hz : DU 0 = 0 := by
    have h1 := hD 0 (Nat.zero_le _)
    have h2 : IsJacobian (U 0) (0 : Matrix c p ℝ) m :=
      (isJacobian_const h0 m).congr (Filter.Eventually.of_forall hU0)
    exact h1.unique h2
  set b := s.blocks m fun j => U j m with hb
  have key : ∀ k, k < s.dts.length →
      (b k).diag * DU (k + 1) = (b k).rhs - (b k).sub * DU k := by
    intro k hk
    have t := residual_total (x := m) s.o s.C (s.dts.getD k 0) (isJacobian_id m)
      (hD k (by omega)) (hD (k + 1) (by omega)) (hex k (by omega)).1 (hex (k + 1) (by omega))
      (hreg (k + 1) (by omega))
    have z : IsJacobian (fun y => residual s.o s.C .mixed (s.dts.getD k 0) y (U k y) (U (k + 1) y))
        (0 : Matrix c p ℝ) m := (isJacobian_const (0 : c → ℝ) m).congr (hres k hk)
    have e := t.unique z
    simp only [Matrix.mul_one] at e
    have e' : (b k).sub * DU k + (b k).diag * DU (k + 1) - (b k).rhs = 0 := e
    rw [eq_sub_iff_add_eq, add_comm]
    exact sub_eq_zero.mp e'
  have step : ∀ k, k < s.dts.length → ∀ v,
      DU (k + 1) *ᵥ v = (b k).diag⁻¹ *ᵥ ((b k).rhs *ᵥ v - (b k).sub *ᵥ (DU k *ᵥ v)) := by
    intro k hk v
    have e := congrArg (· *ᵥ v) (key k hk)
    simp only [sub_mulVec, ← mulVec_mulVec] at e
    rw [← e, mulVec_mulVec, Matrix.nonsing_inv_mul _ (hinv k hk), one_mulVec]
  refine ⟨fun v => by rw [hz]; simp, fun k => ?_⟩
  induction k with
  | zero =>
    intro hk v
    rw [step 0 hk v, hz, forward]
    simp
  | succ k ih =>
    intro hk v
    rw [step (k + 1) hk v, ih (by omega) v, forward]

/-- C60. Under the same conditions `Jvec` is the derivative of the predicted data: for every
receiver, the derivative of its data applied to `v` is the part of `Jvec` of this receiver. -/
theorem C60_data (s : Sim p c f) (m : p → ℝ) (U : Nat → (p → ℝ) → (c → ℝ)) (h0 : c → ℝ)
    (DU : Nat → Matrix c p ℝ) (hU0 : ∀ y, U 0 y = h0)
    (hD : ∀ k, k ≤ s.dts.length → IsJacobian (U k) (DU k) m)
    (hres : ∀ k, k < s.dts.length → ∀ᶠ y in nhds m,
      residual s.o s.C .mixed (s.dts.getD k 0) y (U k y) (U (k + 1) y) = 0)
    (hex : ∀ k, k ≤ s.dts.length → Curves.Exact s.C m (U k m))
    (hreg : ∀ k, k ≤ s.dts.length → Regular s.o s.C m (U k m))
    (hinv : ∀ k, k < s.dts.length → IsUnit (s.blocks m (fun j => U j m) k).diag.det) :
    ∃ J : (r : Rx c) → Matrix (Fin r.nD) p ℝ,
      (∀ r ∈ s.rs, IsJacobian (fun y => r.eval s.C s.dts.length y fun k => U k y) (J r) m) ∧
      ∀ v, s.Jvec m v (fun k => U k m) = s.rs.flatMap fun r => List.ofFn (J r *ᵥ v) := by
  obtain ⟨hz, hk⟩ := C60_heads s m U h0 DU hU0 hD hres hex hreg hinv
  set N := s.dts.length with hN
  refine ⟨fun r => ∑ k ∈ Finset.range (N + 1), r.P k * (if r.sat then
    s.C.Tm m (U k m) + s.C.Tu m (U k m) * DU k else DU k), fun r _ => ?_, fun v => ?_⟩
  · have hterm : ∀ k ∈ Finset.range (N + 1), IsJacobian
        (fun y => r.P k *ᵥ (if r.sat then s.C.T y (U k y) else U k y))
        (r.P k * (if r.sat then s.C.Tm m (U k m) + s.C.Tu m (U k m) * DU k else DU k)) m := by
      intro k hkr
      have hkN : k ≤ N := by have := Finset.mem_range.mp hkr; omega
      apply IsJacobian.mulVec
      cases r.sat with
      | false => simpa using hD k hkN
      | true =>
        have := (hex k hkN).1.comp (isJacobian_id m) (hD k hkN)
        simpa using this
    have hsum : ∀ S : Finset ℕ, (∀ k ∈ S, IsJacobian
        (fun y => r.P k *ᵥ (if r.sat then s.C.T y (U k y) else U k y))
        (r.P k * (if r.sat then s.C.Tm m (U k m) + s.C.Tu m (U k m) * DU k else DU k)) m) →
        IsJacobian (fun y => ∑ k ∈ S, r.P k *ᵥ (if r.sat then s.C.T y (U k y) else U k y))
        (∑ k ∈ S, r.P k * (if r.sat then s.C.Tm m (U k m) + s.C.Tu m (U k m) * DU k
          else DU k)) m := by
      intro S
      induction S using Finset.induction_on with
      | empty => intro _; simpa using isJacobian_const (0 : Fin r.nD → ℝ) m
      | insert a S ha ih =>
        intro hS
        have h1 := hS a (Finset.mem_insert_self a S)
        have h2 := ih fun k hk => hS k (Finset.mem_insert_of_mem hk)
        have h3 := h1.add h2
        simp only [Finset.sum_insert ha]
        exact h3
    exact hsum _ hterm
  · unfold Sim.Jvec surveyDeriv
    congr 1
    funext r
    congr 1
    have hdu : ∀ k, k ∈ Finset.range (N + 1) →
        withZero (forward (s.blocks m fun j => U j m) v) k = DU k *ᵥ v := by
      intro k hkr
      cases k with
      | zero => exact (hz v).symm
      | succ k =>
        have := Finset.mem_range.mp hkr
        exact (hk k (by omega) v).symm
    unfold Rx.deriv
    rw [← hN]
    have hmv : ∀ (S : Finset ℕ) (F : ℕ → Matrix (Fin r.nD) p ℝ),
        (∑ k ∈ S, F k) *ᵥ v = ∑ k ∈ S, F k *ᵥ v := by
      intro S F
      exact Matrix.sum_mulVec S F v
    rw [hmv]
    cases r.sat with
    | false =>
      simp only [Bool.false_eq_true, if_false]
      exact Finset.sum_congr rfl fun k hkr => by rw [hdu k hkr, mulVec_mulVec]
    | true =>
      simp only [if_true]
      rw [← Finset.sum_add_distrib]
      refine Finset.sum_congr rfl fun k hkr => ?_
      rw [hdu k hkr, ← mulVec_mulVec, add_mulVec, ← mulVec_mulVec, mulVec_add, add_comm]

/-! A case meeting the hypotheses: one cell, `T(h) = h`, `K = m`, one step of length one from `1`;
the head after the step is `1 / (1 - m)`. -/

theorem isJacobian₂_fst (m h : Fin 1 → ℝ) :
    IsJacobian₂ (fun (a _ : Fin 1 → ℝ) => a) (1 : Matrix (Fin 1) (Fin 1) ℝ) 0 m h := by
  refine HasFDerivAt.congr_fderiv (f' := ContinuousLinearMap.fst ℝ _ _) hasFDerivAt_fst ?_
  ext v i
  · simp [mulVecL]
  · simp [mulVecL]

theorem isJacobian₂_snd (m h : Fin 1 → ℝ) :
    IsJacobian₂ (fun (_ b : Fin 1 → ℝ) => b) (0 : Matrix (Fin 1) (Fin 1) ℝ) 1 m h := by
  refine HasFDerivAt.congr_fderiv (f' := ContinuousLinearMap.snd ℝ _ _) hasFDerivAt_snd ?_
  ext v i
  · simp [mulVecL]
  · simp [mulVecL]

/-- The example. -/
def exSim : Sim (Fin 1) (Fin 1) (Fin 1) :=
  { o := ⟨1, 1, 0, 1, 0⟩
    C := ⟨fun _ h => h, fun m _ => m, fun _ _ => 1, fun _ _ => 0, fun _ _ => 0, fun _ _ => 1⟩
    dts := [1]
    rs := [⟨1, fun k => if k = 1 then 1 else 0, true⟩] }

/-- Its heads. -/
def exU (k : Nat) (m : Fin 1 → ℝ) : Fin 1 → ℝ :=
  if k = 0 then 1 else fun i => ((1 - m) i)⁻¹

example : ∃ DU : Nat → Matrix (Fin 1) (Fin 1) ℝ,
    (∀ y, exU 0 y = 1) ∧
    (∀ k, k ≤ exSim.dts.length → IsJacobian (exU k) (DU k) (-1)) ∧
    (∀ k, k < exSim.dts.length → ∀ᶠ y in nhds (-1 : Fin 1 → ℝ),
      residual exSim.o exSim.C .mixed (exSim.dts.getD k 0) y (exU k y) (exU (k + 1) y) = 0) ∧
    (∀ k, k ≤ exSim.dts.length → Curves.Exact exSim.C (-1) (exU k (-1))) ∧
    (∀ k, k ≤ exSim.dts.length → Regular exSim.o exSim.C (-1) (exU k (-1))) ∧
    (∀ k, k < exSim.dts.length → IsUnit (exSim.blocks (-1) (fun j => exU j (-1)) k).diag.det) := by
  have hlen : exSim.dts.length = 1 := rfl
  have hinv := IsJacobian.inv (f := fun y : Fin 1 → ℝ => 1 - y) (m := -1)
    (by intro i; simp)
    ((isJacobian_const (1 : Fin 1 → ℝ) (-1 : Fin 1 → ℝ)).sub (isJacobian_id _))
  refine ⟨fun k => if k = 0 then 0 else
    diagonal (fun i => -((1 - -1 : Fin 1 → ℝ) i ^ 2)⁻¹) * (0 - 1), fun y => rfl, ?_, ?_, ?_, ?_, ?_⟩
  rotate_left
  · intro k hk
    obtain rfl : k = 0 := by omega
    have hne : ∀ᶠ y : Fin 1 → ℝ in nhds (-1), y 0 ≠ 1 := by
      have hc : ContinuousAt (fun y : Fin 1 → ℝ => y 0) (-1) := (continuous_apply 0).continuousAt
      exact hc.eventually_ne (by simp; norm_num)
    have hne0 : ∀ᶠ y : Fin 1 → ℝ in nhds (-1), y 0 ≠ 0 := by
      have hc : ContinuousAt (fun y : Fin 1 → ℝ => y 0) (-1) := (continuous_apply 0).continuousAt
      exact hc.eventually_ne (by simp)
    filter_upwards [hne, hne0] with y hy hy0
    funext i
    obtain rfl : i = 0 := Subsingleton.elim _ _
    have h1 : (1 - y 0) ≠ 0 := sub_ne_zero.mpr (Ne.symm hy)
    simp [residual, rhs, aveK, exSim, exU, mulVec_diagonal]
    field_simp
    ring
  · intro k _
    exact ⟨isJacobian₂_snd _ _, isJacobian₂_fst _ _⟩
  · intro k _
    exact ⟨fun j => by simp [exSim], fun i => by simp [exSim]⟩
  · intro k hk
    obtain rfl : k = 0 := by omega
    simp [Sim.blocks, diagsJacobian, exSim]
  · intro k hk
    have hk' : k = 0 ∨ k = 1 := by omega
    rcases hk' with rfl | rfl
    · exact isJacobian_const (1 : Fin 1 → ℝ) _
    · exact hinv

/-- C60 (violation). With `method="head"` the blocks are still those of the mixed form: already
for one cell with `T(h) = h²` the block for the head before is not the derivative of the
residual. -/
theorem C60_head_method_wrong :
    ∃ (o : Ops (Fin 1) (Fin 1)) (C : Curves (Fin 1) (Fin 1)) (dt : ℝ) (m : Fin 1 → ℝ)
      (hn h : Fin 1 → ℝ), 0 < dt ∧ (∀ m h, Curves.Exact C m h) ∧ (∀ m h, Regular o C m h) ∧
      ¬ IsJacobian (fun y => residual o C .head dt m y h) (diagsJacobian o C dt m hn h).sub hn := by
  let o : Ops (Fin 1) (Fin 1) := ⟨0, 0, 0, 1, 0⟩
  let C : Curves (Fin 1) (Fin 1) :=
    ⟨fun _ h => h * h, fun _ _ => 1, fun _ h => diagonal (h + h), fun _ _ => 0, fun _ _ => 0,
      fun _ _ => 0⟩
  refine ⟨o, C, 1, 0, 1, 2, one_pos, ?_, ?_, ?_⟩
  · intro m h
    constructor
    · have hid : IsJacobian (fun x : Fin 1 → ℝ => x * x) (diagonal (h + h)) h := by
        have := (isJacobian_id h).mul (isJacobian_id h)
        rw [Matrix.mul_one, Matrix.diagonal_add] at this
        exact this
      have h2 : HasFDerivAt (fun x : (Fin 1 → ℝ) × (Fin 1 → ℝ) => x.2)
          (ContinuousLinearMap.snd ℝ _ _) (m, h) := hasFDerivAt_snd
      have h3 := HasFDerivAt.comp (f := fun x : (Fin 1 → ℝ) × (Fin 1 → ℝ) => x.2)
        (g := fun x : Fin 1 → ℝ => x * x) (m, h) hid h2
      unfold IsJacobian₂
      refine h3.congr_fderiv ?_
      ext v i
      · simp [C, mulVecL]
      · simp [C, mulVecL]
    · unfold IsJacobian₂
      have h4 := hasFDerivAt_const (𝕜 := ℝ) (1 : Fin 1 → ℝ) ((m, h) : (Fin 1 → ℝ) × (Fin 1 → ℝ))
      refine h4.congr_fderiv ?_
      ext v i
      · simp [C, mulVecL]
      · simp [C, mulVecL]
  · intro m h
    refine ⟨fun j => by simp [C], fun i => by simp [C, o]⟩
  · intro hj
    have hz : ∀ k h : Fin 1 → ℝ, rhs o k h = 0 := by
      intro k h; simp [rhs, o]
    have hs : (fun y : Fin 1 → ℝ => residual o C .head 1 0 y 2) =
        fun y => diagonal (4 : Fin 1 → ℝ) *ᵥ (2 - y) := by
      funext y
      have e : (2 + 2 : Fin 1 → ℝ) = 4 := by norm_num
      simp only [residual, hz, sub_zero, inv_one, one_smul, C, e]
    rw [hs] at hj
    have ht := IsJacobian.mulVec (diagonal (4 : Fin 1 → ℝ))
      ((isJacobian_const (2 : Fin 1 → ℝ) (1 : Fin 1 → ℝ)).sub (isJacobian_id (1 : Fin 1 → ℝ)))
    have e := hj.unique ht
    have e00 := congrFun (congrFun e 0) 0
    simp [diagsJacobian, C] at e00
    norm_num at e00

end Props
end Verif.Flow.Richards
