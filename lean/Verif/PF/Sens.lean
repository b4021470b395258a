import Verif.Basic
import Verif.Analysis
import Verif.Jacobian
import Mathlib.Analysis.SpecialFunctions.Sqrt
import Mathlib.Algebra.BigOperators.Fin
import Mathlib.Logic.Equiv.Fin.Basic
import Mathlib.Algebra.BigOperators.Group.Finset.Sigma
import Mathlib.Tactic.Linarith
import Mathlib.Tactic.Ring
import Mathlib.Tactic.NormNum
import Mathlib.Tactic.FieldSimp
import Mathlib.Tactic.FinCases

/-!
C89: sensitivities of integral potential field simulations
(`simpeg/potential_fields/gravity/simulation.py` 218-420,
`simpeg/potential_fields/magnetics/simulation.py` 240-565). `G` is the matrix of the linear operator,
`P` the derivative of the mapping at the model. Numbers are real: the conversions to
`sensitivity_dtype` are not modelled.
-/

noncomputable section
namespace Verif.PF.Sens
open Verif Matrix

variable {ι κ δ : Type} [Fintype ι] [Fintype κ] [Fintype δ]

/-! ### Linear data -/

/-- `fields` (`simpeg/potential_fields/gravity/simulation.py` 205-219,
`simpeg/potential_fields/magnetics/simulation.py` 243-254). -/
def fields (G : Matrix δ κ ℝ) (prop : (ι → ℝ) → κ → ℝ) (m : ι → ℝ) : δ → ℝ := G *ᵥ prop m

/-- `getJ` (`simpeg/potential_fields/gravity/simulation.py` 345-353). -/
def getJ (G : Matrix δ κ ℝ) (P : Matrix κ ι ℝ) : Matrix δ ι ℝ := G * P

/-- `Jvec` (`simpeg/potential_fields/gravity/simulation.py` 383-385). -/
def jvec (G : Matrix δ κ ℝ) (P : Matrix κ ι ℝ) (v : ι → ℝ) : δ → ℝ := G *ᵥ (P *ᵥ v)

/-- `Jtvec` (`simpeg/potential_fields/gravity/simulation.py` 417-419). -/
def jtvec (G : Matrix δ κ ℝ) (P : Matrix κ ι ℝ) (v : δ → ℝ) : ι → ℝ := Pᵀ *ᵥ (Gᵀ *ᵥ v)

/-- The diagonal from the stored matrix: `np.einsum("i,ij,ij->j", weights, G, G)`
(`simpeg/potential_fields/gravity/simulation.py` 310-315). -/
def gtg (G : Matrix δ κ ℝ) (w : δ → ℝ) : κ → ℝ := fun j => ∑ i, w i * G i j * G i j

/-- The last step of `getJtJdiag`: `(sdiag(np.sqrt(gtg)) @ P).power(2).sum(axis=0)`
(`simpeg/potential_fields/gravity/simulation.py` 279-283). -/
def project (d : κ → ℝ) (P : Matrix κ ι ℝ) : ι → ℝ := fun k => ∑ j, (Real.sqrt (d j) * P j k) ^ 2

/-- `getJtJdiag` (`simpeg/potential_fields/gravity/simulation.py` 221-283), with `w` the squares of
the diagonal of `W` or ones. The memory of the diagonal is modelled in `Verif/PF/Cache.lean`. -/
def getJtJdiag (G : Matrix δ κ ℝ) (P : Matrix κ ι ℝ) (w : δ → ℝ) : ι → ℝ := project (gtg G w) P

/-! ### Amplitudes of the three components -/

variable {n : ℕ}

/-- `fields.reshape((3, -1), order="F")`: entry `(c, i)` is the value at `3 * i + c`. -/
def reshape (b : Fin (n * 3) → ℝ) : Matrix (Fin 3) (Fin n) ℝ :=
  Matrix.of fun c i => b (finProdFinEquiv (i, c))

/-- `v.T.reshape(-1)`. -/
def flatten (A : Matrix (Fin 3) (Fin n) ℝ) : Fin (n * 3) → ℝ :=
  fun q => A (finProdFinEquiv.symm q).2 (finProdFinEquiv.symm q).1

/-- `compute_amplitude` (`simpeg/potential_fields/magnetics/simulation.py` 557-565). -/
def amplitude (b : Fin (n * 3) → ℝ) : Fin n → ℝ :=
  fun i => Real.sqrt (∑ c, reshape b c i ^ 2)

/-- `normalized_fields`, `ampDeriv` (`simpeg/potential_fields/magnetics/simulation.py` 533-555). A
zero amplitude gives NaN in the code, zero here. -/
def ampDeriv (b : Fin (n * 3) → ℝ) : Matrix (Fin 3) (Fin n) ℝ :=
  Matrix.of fun c i => reshape b c i / amplitude b i

/-- `fields` with `is_amplitude_data` (`simpeg/potential_fields/magnetics/simulation.py` 256-257). -/
def ampFields (G : Matrix (Fin (n * 3)) κ ℝ) (prop : (ι → ℝ) → κ → ℝ) (m : ι → ℝ) : Fin n → ℝ :=
  amplitude (fields G prop m)

/-- `Jvec` with `is_amplitude_data` (`simpeg/potential_fields/magnetics/simulation.py` 485-495), with
`b` the data of the three components at the model. -/
def ampJvec (G : Matrix (Fin (n * 3)) κ ℝ) (P : Matrix κ ι ℝ) (b : Fin (n * 3) → ℝ) (v : ι → ℝ) :
    Fin n → ℝ := fun i =>
  ampDeriv b 0 i * reshape (jvec G P v) 0 i + ampDeriv b 1 i * reshape (jvec G P v) 1 i +
    ampDeriv b 2 i * reshape (jvec G P v) 2 i

/-- `Jtvec` with `is_amplitude_data` (`simpeg/potential_fields/magnetics/simulation.py` 525-531). -/
def ampJtvec (G : Matrix (Fin (n * 3)) κ ℝ) (P : Matrix κ ι ℝ) (b : Fin (n * 3) → ℝ)
    (v : Fin n → ℝ) : ι → ℝ :=
  jtvec G P (flatten (Matrix.of fun c i => ampDeriv b c i * v i))

/-- Row `i` of the sensitivities of the amplitudes: `Gx`, `Gy`, `Gz` are every third row of `G`
(`simpeg/potential_fields/magnetics/simulation.py` 445-453). -/
def ampRow (G : Matrix (Fin (n * 3)) κ ℝ) (b : Fin (n * 3) → ℝ) (i : Fin n) (j : κ) : ℝ :=
  ampDeriv b 0 i * G ⟨3 * i.val, by omega⟩ j + ampDeriv b 1 i * G ⟨1 + 3 * i.val, by omega⟩ j +
    ampDeriv b 2 i * G ⟨2 + 3 * i.val, by omega⟩ j

/-- The loop `for i in range(weights.size)`: an index outside the data raises. -/
def ampGtgLoop (G : Matrix (Fin (n * 3)) κ ℝ) (b : Fin (n * 3) → ℝ) :
    List ℝ → ℕ → (κ → ℝ) → Except Err (κ → ℝ)
  | [], _, d => .ok d
  | w :: ws, i, d =>
    if h : i < n then
      ampGtgLoop G b ws (i + 1) fun j => d j + w * (ampRow G b ⟨i, h⟩ j * ampRow G b ⟨i, h⟩ j)
    else .error .indexError

/-- `_get_gtg_diagonal` with `is_amplitude_data`
(`simpeg/potential_fields/magnetics/simulation.py` 443-454). -/
def ampGtg (G : Matrix (Fin (n * 3)) κ ℝ) (b : Fin (n * 3) → ℝ) (ws : List ℝ) :
    Except Err (κ → ℝ) := ampGtgLoop G b ws 0 fun _ => 0

/-- `getJtJdiag` with `is_amplitude_data`: the weights are the squares of the diagonal of `W`, or
`np.ones(self.survey.nD)` (`simpeg/potential_fields/magnetics/simulation.py` 382-407). -/
def ampJtJdiag (G : Matrix (Fin (n * 3)) κ ℝ) (P : Matrix κ ι ℝ) (b : Fin (n * 3) → ℝ)
    (W : Option (List ℝ)) : Except Err (ι → ℝ) :=
  (ampGtg G b (match W with
    | some w => w.map (· ^ 2)
    | none => List.replicate (n * 3) 1)).map fun d => project d P

/-- `getJ` with `is_amplitude_data` raises `NotImplementedError`
(`simpeg/potential_fields/magnetics/simulation.py` 333-338). -/
def ampGetJ : Except Err (Matrix (Fin n) ι ℝ) := .error .exception

/-! ### Specification -/

/-- The diagonal of `Jᵀ W² J` for weights `w = W²`. -/
def jtjDiag (J : Matrix δ ι ℝ) (w : δ → ℝ) : ι → ℝ := fun k => ∑ i, w i * J i k ^ 2

/-- No parameter is used by two cells. -/
def OneCell (P : Matrix κ ι ℝ) : Prop := ∀ k j j', P j k ≠ 0 → P j' k ≠ 0 → j = j'

namespace Props

/-- `getJ` is the derivative of the data; `Jvec` and `Jtvec` are the products with it and its
transpose. -/
theorem C89_jacobian [DecidableEq ι] (G : Matrix δ κ ℝ) {prop : (ι → ℝ) → κ → ℝ}
    {P : Matrix κ ι ℝ} {m : ι → ℝ} (hP : IsJacobian prop P m) :
    IsJacobian (fields G prop) (getJ G P) m ∧ (∀ v, jvec G P v = getJ G P *ᵥ v) ∧
    ∀ v, jtvec G P v = (getJ G P)ᵀ *ᵥ v := by
  refine ⟨IsJacobian.mulVec G hP, fun v => ?_, fun v => ?_⟩
  · simp [jvec, getJ, mulVec_mulVec]
  · simp [jtvec, getJ, mulVec_mulVec, transpose_mul]

theorem C89_adjoint (G : Matrix δ κ ℝ) (P : Matrix κ ι ℝ) (v : ι → ℝ) (u : δ → ℝ) :
    jvec G P v ⬝ᵥ u = v ⬝ᵥ jtvec G P u := by
  unfold jvec jtvec
  rw [mulVec_mulVec, mulVec_mulVec, ← transpose_mul, dotProduct_comm, dotProduct_mulVec,
    ← mulVec_transpose, dotProduct_comm]

theorem gtg_nonneg (G : Matrix δ κ ℝ) {w : δ → ℝ} (hw : ∀ i, 0 ≤ w i) (j : κ) : 0 ≤ gtg G w j :=
  Finset.sum_nonneg fun i _ => by
    have := mul_self_nonneg (G i j)
    have h := hw i
    nlinarith [mul_nonneg h this]

theorem project_eq {d : κ → ℝ} (hd : ∀ j, 0 ≤ d j) (P : Matrix κ ι ℝ) (k : ι) :
    project d P k = ∑ j, d j * P j k ^ 2 := by
  unfold project
  exact Finset.sum_congr rfl fun j _ => by rw [mul_pow, Real.sq_sqrt (hd j)]

/-- The sum of a column with at most one entry, squared. -/
theorem sum_sq_oneCell {P : Matrix κ ι ℝ} (hP : OneCell P) (g : κ → ℝ) (k : ι) :
    (∑ j, g j * P j k) ^ 2 = ∑ j, g j ^ 2 * P j k ^ 2 := by
  classical
  by_cases h : ∃ j, P j k ≠ 0
  · obtain ⟨j0, h0⟩ := h
    have hz : ∀ j, j ≠ j0 → P j k = 0 := fun j hj => by
      by_contra hn
      exact hj (hP k j j0 hn h0)
    rw [Finset.sum_eq_single j0 (fun j _ hj => by rw [hz j hj]; ring) (by simp),
      Finset.sum_eq_single j0 (fun j _ hj => by rw [hz j hj]; ring) (by simp)]
    ring
  · push Not at h
    simp [h]

/-- The diagonal is that of `Jᵀ W² J` when no parameter is used by two cells. Full claim: for every
mapping. -/
theorem C89_diagonal_partial (G : Matrix δ κ ℝ) {P : Matrix κ ι ℝ} (hP : OneCell P) {w : δ → ℝ}
    (hw : ∀ i, 0 ≤ w i) : getJtJdiag G P w = jtjDiag (getJ G P) w := by
  funext k
  unfold getJtJdiag jtjDiag getJ
  rw [project_eq (gtg_nonneg G hw)]
  simp only [gtg, Finset.sum_mul]
  rw [Finset.sum_comm]
  refine Finset.sum_congr rfl fun i _ => ?_
  rw [Matrix.mul_apply, sum_sq_oneCell hP, Finset.mul_sum]
  exact Finset.sum_congr rfl fun j _ => by ring

example : OneCell (!![2, 0; 0, 0; 0, 3] : Matrix (Fin 3) (Fin 2) ℝ) := by
  intro k j j'
  fin_cases k <;> fin_cases j <;> fin_cases j' <;> simp

/-- Two cells which share a parameter: the products of different cells are lost. -/
theorem C89_violated_diagonal : ∃ (G : Matrix (Fin 1) (Fin 2) ℝ) (P : Matrix (Fin 2) (Fin 1) ℝ),
    getJtJdiag G P (fun _ => 1) 0 = 2 ∧ jtjDiag (getJ G P) (fun _ => 1) 0 = 4 := by
  refine ⟨!![1, 1], !![1; 1], ?_, ?_⟩
  · simp [getJtJdiag, project, gtg]
    norm_num
  · simp [jtjDiag, getJ, Matrix.mul_apply, Fin.sum_univ_two]
    norm_num

/-! ### Amplitudes -/

/-- The Jacobian of the amplitudes. -/
def ampJ (G : Matrix (Fin (n * 3)) κ ℝ) (P : Matrix κ ι ℝ) (b : Fin (n * 3) → ℝ) :
    Matrix (Fin n) ι ℝ :=
  Matrix.of fun i k => ∑ c, ampDeriv b c i * getJ G P (finProdFinEquiv (i, c)) k

theorem reshape_jvec (G : Matrix (Fin (n * 3)) κ ℝ) (P : Matrix κ ι ℝ) (v : ι → ℝ) (c : Fin 3)
    (i : Fin n) : reshape (jvec G P v) c i = ∑ k, getJ G P (finProdFinEquiv (i, c)) k * v k := by
  simp only [reshape, Matrix.of_apply]
  have : jvec G P v = getJ G P *ᵥ v := by simp [jvec, getJ, mulVec_mulVec]
  rw [this]
  rfl

theorem ampJvec_eq (G : Matrix (Fin (n * 3)) κ ℝ) (P : Matrix κ ι ℝ) (b : Fin (n * 3) → ℝ)
    (v : ι → ℝ) : ampJvec G P b v = ampJ G P b *ᵥ v := by
  funext i
  simp only [ampJvec, ampJ, mulVec, dotProduct, Matrix.of_apply, reshape_jvec, Fin.sum_univ_three,
    Finset.mul_sum, ← Finset.sum_add_distrib]
  exact Finset.sum_congr rfl fun k _ => by ring

theorem flatten_apply (A : Matrix (Fin 3) (Fin n) ℝ) (c : Fin 3) (i : Fin n) :
    flatten A (finProdFinEquiv (i, c)) = A c i := by
  simp [flatten]

theorem ampJtvec_eq (G : Matrix (Fin (n * 3)) κ ℝ) (P : Matrix κ ι ℝ) (b : Fin (n * 3) → ℝ)
    (u : Fin n → ℝ) : ampJtvec G P b u = (ampJ G P b)ᵀ *ᵥ u := by
  have e : ∀ q, jtvec G P q = (getJ G P)ᵀ *ᵥ q := fun q => by
    simp [jtvec, getJ, mulVec_mulVec, transpose_mul]
  funext k
  unfold ampJtvec
  rw [e]
  simp only [mulVec, dotProduct, transpose_apply, ampJ, Matrix.of_apply, Finset.sum_mul]
  rw [← finProdFinEquiv.sum_comp, Fintype.sum_prod_type]
  refine Finset.sum_congr rfl fun i _ => Finset.sum_congr rfl fun c _ => ?_
  rw [flatten_apply]
  simp only [Matrix.of_apply]
  ring

/-- The products with the sensitivities of the amplitudes are those with their derivative, where no
amplitude is zero. -/
theorem C89_amplitude [DecidableEq ι] (G : Matrix (Fin (n * 3)) κ ℝ) {prop : (ι → ℝ) → κ → ℝ}
    {P : Matrix κ ι ℝ} {m : ι → ℝ} (hP : IsJacobian prop P m)
    (h0 : ∀ i, ampFields G prop m i ≠ 0) :
    ∃ J : Matrix (Fin n) ι ℝ, IsJacobian (ampFields G prop) J m ∧
      (∀ v, ampJvec G P (fields G prop m) v = J *ᵥ v) ∧
      ∀ u, ampJtvec G P (fields G prop m) u = Jᵀ *ᵥ u := by
  refine ⟨ampJ G P (fields G prop m), ?_, ampJvec_eq G P _, ampJtvec_eq G P _⟩
  have hJ : IsJacobian (fields G prop) (getJ G P) m := (C89_jacobian G hP).1
  rw [isJacobian_iff] at hJ ⊢
  intro i
  have hc : ∀ c : Fin 3, HasFDerivAt (fun x => reshape (fields G prop x) c i)
      (dotL (getJ G P (finProdFinEquiv (i, c)))) m := fun c => hJ (finProdFinEquiv (i, c))
  have hs : HasFDerivAt (fun x => ∑ c, reshape (fields G prop x) c i ^ 2)
      (∑ c : Fin 3, (2 * reshape (fields G prop m) c i) • dotL (getJ G P (finProdFinEquiv (i, c)))) m := by
    apply HasFDerivAt.fun_sum
    intro c _
    have := (hc c).pow 2
    simpa using this
  have hne : ∑ c, reshape (fields G prop m) c i ^ 2 ≠ 0 := by
    intro h
    apply h0 i
    simp [ampFields, amplitude, h]
  have hq := (Real.hasDerivAt_sqrt hne).comp_hasFDerivAt m hs
  refine HasFDerivAt.congr_fderiv hq ?_
  ext v
  have ha : amplitude (fields G prop m) i = Real.sqrt (∑ c, reshape (fields G prop m) c i ^ 2) := rfl
  have hr : Real.sqrt (∑ c, reshape (fields G prop m) c i ^ 2) ≠ 0 := h0 i
  simp only [ContinuousLinearMap.smul_apply, smul_eq_mul, dotL_apply, dotProduct, ampJ,
    Matrix.of_apply, ampDeriv, ha, Fin.sum_univ_three, ContinuousLinearMap.add_apply] at hr ⊢
  simp only [Finset.mul_sum, ← Finset.sum_add_distrib]
  refine Finset.sum_congr rfl fun k _ => ?_
  field_simp

theorem C89_amplitude_adjoint (G : Matrix (Fin (n * 3)) κ ℝ) (P : Matrix κ ι ℝ)
    (b : Fin (n * 3) → ℝ) (v : ι → ℝ) (u : Fin n → ℝ) :
    ampJvec G P b v ⬝ᵥ u = v ⬝ᵥ ampJtvec G P b u := by
  rw [ampJvec_eq, ampJtvec_eq, dotProduct_comm, dotProduct_mulVec, ← mulVec_transpose,
    dotProduct_comm]

theorem ampRow_eq (G : Matrix (Fin (n * 3)) κ ℝ) (b : Fin (n * 3) → ℝ) (i : Fin n) (j : κ) :
    ampRow G b i j = ∑ c, ampDeriv b c i * G (finProdFinEquiv (i, c)) j := by
  simp only [ampRow, Fin.sum_univ_three]
  have e0 : (⟨3 * i.val, by omega⟩ : Fin (n * 3)) = finProdFinEquiv (i, (0 : Fin 3)) := by
    apply Fin.ext; simp [finProdFinEquiv]
  have e1 : (⟨1 + 3 * i.val, by omega⟩ : Fin (n * 3)) = finProdFinEquiv (i, (1 : Fin 3)) := by
    apply Fin.ext; simp [finProdFinEquiv]
  have e2 : (⟨2 + 3 * i.val, by omega⟩ : Fin (n * 3)) = finProdFinEquiv (i, (2 : Fin 3)) := by
    apply Fin.ext; simp [finProdFinEquiv]
  rw [e0, e1, e2]

theorem ampGtgLoop_ok (G : Matrix (Fin (n * 3)) κ ℝ) (b : Fin (n * 3) → ℝ) (ws : List ℝ) :
    ∀ (i : ℕ) (d : κ → ℝ), i + ws.length ≤ n →
      ampGtgLoop G b ws i d = .ok fun j => d j + ∑ q : Fin ws.length,
        if h : i + q.val < n then ws[q] * (ampRow G b ⟨i + q.val, h⟩ j) ^ 2 else 0 := by
  induction ws with
  | nil => intro i d _; simp [ampGtgLoop]
  | cons w ws ih =>
    intro i d hi
    simp only [List.length_cons] at hi
    have h : i < n := by omega
    rw [ampGtgLoop, dif_pos h, ih (i + 1) _ (by omega)]
    congr 1
    funext j
    simp only [List.length_cons]
    rw [Fin.sum_univ_succ]
    simp only [Fin.val_zero, Nat.add_zero, h, dif_pos]
    rw [← add_assoc]
    congr 1
    · simp [sq, h]
    · refine Finset.sum_congr rfl fun q _ => ?_
      have : i + 1 + q.val = i + (q.succ).val := by simp; omega
      simp only [this]
      rfl

theorem ampGtgLoop_error (G : Matrix (Fin (n * 3)) κ ℝ) (b : Fin (n * 3) → ℝ) (ws : List ℝ) :
    ∀ (i : ℕ) (d : κ → ℝ), n < i + ws.length → i ≤ n →
      ampGtgLoop G b ws i d = .error .indexError := by
  induction ws with
  | nil => intro i d h h'; simp at h; omega
  | cons w ws ih =>
    intro i d h h'
    simp only [List.length_cons] at h
    rw [ampGtgLoop]
    split_ifs with hi
    · exact ih _ _ (by omega) hi
    · rfl

/-- With one weight per amplitude the diagonal is that of `Jᵀ W² J` when no parameter is used by two
cells. -/
theorem C89_amplitude_diagonal_partial (G : Matrix (Fin (n * 3)) κ ℝ) {P : Matrix κ ι ℝ}
    (hP : OneCell P) (b : Fin (n * 3) → ℝ) (W : Fin n → ℝ) :
    ∃ J : Matrix (Fin n) ι ℝ, (∀ v, ampJvec G P b v = J *ᵥ v) ∧
      ampJtJdiag G P b (some (List.ofFn W)) = .ok (jtjDiag J fun i => W i ^ 2) := by
  refine ⟨ampJ G P b, ampJvec_eq G P b, ?_⟩
  have hlen : ((List.ofFn W).map (· ^ 2)).length = n := by simp
  unfold ampJtJdiag ampGtg
  simp only
  rw [ampGtgLoop_ok G b _ 0 _ (by omega)]
  simp only [Except.map]
  congr 1
  have hd : (fun j : κ => (0 : ℝ) + ∑ q : Fin ((List.ofFn W).map (· ^ 2)).length,
      if h : 0 + q.val < n then ((List.ofFn W).map (· ^ 2))[q] * (ampRow G b ⟨0 + q.val, h⟩ j) ^ 2 else 0) =
      fun j => ∑ i : Fin n, W i ^ 2 * ampRow G b i j ^ 2 := by
    funext j
    rw [zero_add, ← (finCongr hlen).sum_comp]
    refine Finset.sum_congr rfl fun q _ => ?_
    have hq : q.val < n := by have := q.isLt; omega
    simp only [Nat.zero_add, hq, dif_pos]
    simp [finCongr]
    rfl
  rw [hd]
  funext k
  rw [project_eq fun j => Finset.sum_nonneg fun i _ => by positivity]
  unfold jtjDiag
  simp only [Finset.sum_mul]
  rw [Finset.sum_comm]
  refine Finset.sum_congr rfl fun i _ => ?_
  have : ampJ G P b i k = ∑ j, ampRow G b i j * P j k := by
    simp only [ampJ, Matrix.of_apply, getJ, Matrix.mul_apply, ampRow_eq, Finset.sum_mul,
      Finset.mul_sum]
    rw [Finset.sum_comm]
    exact Finset.sum_congr rfl fun j _ => Finset.sum_congr rfl fun c _ => by ring
  rw [this, sum_sq_oneCell hP, Finset.mul_sum]
  exact Finset.sum_congr rfl fun j _ => by ring

/-- Without weights the diagonal of amplitude data cannot be computed: the default has one weight for
each of the three components. -/
theorem C89_violated_amplitude_default (hn : 0 < n) (G : Matrix (Fin (n * 3)) κ ℝ)
    (P : Matrix κ ι ℝ) (b : Fin (n * 3) → ℝ) : ampJtJdiag G P b none = .error .indexError := by
  unfold ampJtJdiag ampGtg
  rw [ampGtgLoop_error G b _ 0 _ (by simp; omega) (by omega)]
  rfl

example : ∀ i, ampFields (n := 1) (1 : Matrix (Fin 3) (Fin 3) ℝ) (fun m => m) ![3, 0, 4] i ≠ 0 := by
  intro i
  fin_cases i
  have h : (finProdFinEquiv ((0 : Fin 1), (0 : Fin 3))) = (0 : Fin 3) := rfl
  have : (0 : ℝ) < ∑ c, reshape (n := 1) ![3, 0, 4] c 0 ^ 2 := by
    refine Finset.sum_pos' (fun c _ => sq_nonneg _) ⟨0, by simp, ?_⟩
    simp [reshape, h]
  simp only [ampFields, amplitude, fields, one_mulVec]
  exact (Real.sqrt_pos.2 this).ne'

end Props
end Verif.PF.Sens
