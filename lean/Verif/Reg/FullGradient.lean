import Verif.Basic
import Verif.Reg.Calculus
import Mathlib.Analysis.SpecialFunctions.Sqrt
import Mathlib.LinearAlgebra.Matrix.Symmetric
import Mathlib.Tactic.FinCases

/-!
C83: `SmoothnessFullGradient` (`simpeg/regularization/_gradient.py`). The mesh has the cells `Fin n`
and `d` dimensions; `φ` are its faces, `q` the corners of a cell.
-/

noncomputable section
namespace Verif.Reg.Full
open Matrix

set_option linter.unusedSectionVars false

/-! ### The constructor -/

/-- The argument `alphas`: not given, one row, or one row for each cell. -/
inductive Alphas (d : ℕ) where
  | none
  | one (a : Fin d → ℝ)
  | rows (l : List (Fin d → ℝ))

/-- The argument `reg_dirs` when given: one matrix or one for each cell. -/
inductive Dirs (d : ℕ) where
  | one (a : Matrix (Fin d) (Fin d) ℝ)
  | rows (l : List (Matrix (Fin d) (Fin d) ℝ))

/-- The position of a cell among the active cells. -/
def rank {n : ℕ} (act : Fin n → Bool) (c : Fin n) : ℕ := ((List.finRange n).filter act).idxOf c

/-- The number of active cells. -/
def count {n : ℕ} (act : Fin n → Bool) : ℕ := ((List.finRange n).filter act).length

/-- Rows for all cells from rows for all cells or for the active cells, with zeros in the others
(`simpeg/regularization/_gradient.py` 107-118, 134-147). -/
def expand {n : ℕ} {R : Type} [Zero R] (act : Option (Fin n → Bool)) (l : List R) :
    Except Err (Fin n → R) :=
  if l.length = n then .ok fun c => l.getD c 0
  else match act with
    | some a => if l.length = count a then .ok fun c => if a c then l.getD (rank a c) 0 else 0
        else .error .indexError
    | none => .error .indexError

/-- `np.allclose(eye, M @ M.T)` (`simpeg/regularization/_gradient.py` 151) with the default
tolerances of `numpy`. -/
def Ortho {d : ℕ} (M : Matrix (Fin d) (Fin d) ℝ) : Prop :=
  ∀ i j, |(1 : Matrix (Fin d) (Fin d) ℝ) i j - (M * Mᵀ) i j| ≤
    1 / 10 ^ 8 + 1 / 10 ^ 5 * |(M * Mᵀ) i j|

/-- The components which are handed to `discretize`
(`simpeg/regularization/_gradient.py` 155-176). -/
def pack : (d : ℕ) → Matrix (Fin d) (Fin d) ℝ → List ℝ
  | 2, A => [A 0 0, A 1 1, A 0 1]
  | 3, A => [A 0 0, A 1 1, A 2 2, A 0 1, A 0 2, A 1 2]
  | _, _ => []

/-- The tensor which `discretize` makes of the components of a cell (`discretize` is not part of
the repository; this is its documented order). -/
def unpack : (d : ℕ) → List ℝ → Matrix (Fin d) (Fin d) ℝ
  | 2, [xx, yy, xy] => !![xx, xy; xy, yy]
  | 3, [xx, yy, zz, xy, xz, yz] => !![xx, xy, xz; xy, yy, yz; xz, yz, zz]
  | _, _ => 0

/-- The weights of all cells (`simpeg/regularization/_gradient.py` 97-118); `edge` is the smallest
edge length. -/
def alphasOf {n d : ℕ} (edge : ℝ) (act : Option (Fin n → Bool)) :
    Alphas d → Except Err (Fin n → Fin d → ℝ)
  | .none => .ok fun _ _ => edge ^ 2
  | .one a => .ok fun _ => a
  | .rows l => expand act l

/-- The directions of all cells (`simpeg/regularization/_gradient.py` 124-147). -/
def dirsOf {n d : ℕ} (act : Option (Fin n → Bool)) :
    Dirs d → Except Err (Fin n → Matrix (Fin d) (Fin d) ℝ)
  | .one M => .ok fun _ => M
  | .rows l => expand act l

/-- `np.einsum("ink,ik,imk->inm", ...)` for a cell (`simpeg/regularization/_gradient.py` 154). -/
def einsum {d : ℕ} (Q : Matrix (Fin d) (Fin d) ℝ) (α : Fin d → ℝ) : Matrix (Fin d) (Fin d) ℝ :=
  fun i j => ∑ k, Q i k * α k * Q j k

open Classical in
/-- `SmoothnessFullGradient.__init__` (`simpeg/regularization/_gradient.py` 92-177): the tensors of
the cells as `discretize` understands `_anis_alpha`. Simplified: `validate_ndarray_with_shape` is
the type of the arguments. -/
def init {n d : ℕ} (edge : ℝ) (act : Option (Fin n → Bool)) (alphas : Alphas d)
    (dirs : Option (Dirs d)) (check : Bool) : Except Err (Fin n → Matrix (Fin d) (Fin d) ℝ) :=
  if d < 2 then .error .typeError
  else match alphasOf edge act alphas with
    | .error e => .error e
    | .ok α =>
      if ∃ c k, α c k < 0 then .error .valueError
      else match dirs with
        | none => .ok fun c => diagonal (α c)
        | some ds => match dirsOf act ds with
          | .error e => .error e
          | .ok D =>
            if check = true ∧ ∃ c, ¬ Ortho (D c) then .error .valueError
            else .ok fun c => unpack d (pack d (einsum (D c) (α c)))

/-! ### The object -/

variable {n d : ℕ} {φ q ι : Type} [Fintype φ] [DecidableEq φ] [Fintype q] [Fintype ι]

/-- A constructed object. `P` are the corner projections of `discretize`, `G` the gradient of the
whole mesh, `map` and `mapJ` the mapping with its derivative, `cellW` and `faceW` the products of
the weights, `ref` the mapped reference model (zero if there is none). -/
structure Obj (n d : ℕ) (φ q ι : Type) where
  G : Matrix φ (Fin n) ℝ
  P : q → Fin n → Matrix (Fin d) φ ℝ
  vol : Fin n → ℝ
  act : Fin n → Bool
  T : Fin n → Matrix (Fin d) (Fin d) ℝ
  cellW : Fin n → ℝ
  faceW : φ → ℝ
  map : (ι → ℝ) → {c // act c = true} → ℝ
  mapJ : (ι → ℝ) → Matrix {c // act c = true} ι ℝ
  ref : {c // act c = true} → ℝ

open Classical in
/-- `SmoothnessFullGradient.cell_gradient` (`simpeg/regularization/_gradient.py` 212-240). -/
def Obj.grad (o : Obj n d φ q ι) : Matrix φ {c // o.act c = true} ℝ :=
  fun f c => if |∑ k, o.G f k * (if o.act k then 1 else 0)| ≤ 1 / 10 ^ 16 then o.G f c else 0

/-- `mesh.get_face_inner_product` (of `discretize`): the corners of a cell share its volume. -/
def inner (P : q → Fin n → Matrix (Fin d) φ ℝ) (vol : Fin n → ℝ)
    (T : Fin n → Matrix (Fin d) (Fin d) ℝ) : Matrix φ φ ℝ :=
  ∑ i, ∑ c, (vol c / 2 ^ d) • ((P i c)ᵀ * T c * P i c)

/-- `SmoothnessFullGradient.W` (`simpeg/regularization/_gradient.py` 248-291). -/
def Obj.W (o : Obj n d φ q ι) : Matrix φ φ ℝ :=
  let Wf := diagonal fun f => Real.sqrt (o.faceW f)
  Wf * (inner o.P o.vol (fun c => if o.act c then o.cellW c • o.T c else 0) * Wf)

/-- `r` (`simpeg/regularization/_gradient.py` 183-188). -/
def Obj.r (o : Obj n d φ q ι) (m : ι → ℝ) : φ → ℝ := o.grad *ᵥ (o.map m - o.ref)

/-- `SmoothnessFullGradient.__call__` (`simpeg/regularization/_gradient.py` 180-189). -/
def Obj.value (o : Obj n d φ q ι) (m : ι → ℝ) : ℝ := o.r m ⬝ᵥ (o.W *ᵥ o.r m)

/-- `SmoothnessFullGradient.deriv` (`simpeg/regularization/_gradient.py` 191-201). -/
def Obj.deriv (o : Obj n d φ q ι) (m : ι → ℝ) : ι → ℝ :=
  (2 : ℝ) • ((o.mapJ m)ᵀ *ᵥ (o.gradᵀ *ᵥ (o.W *ᵥ o.r m)))

/-- `SmoothnessFullGradient.deriv2(m)` (`simpeg/regularization/_gradient.py` 203-208). -/
def Obj.deriv2 (o : Obj n d φ q ι) (m : ι → ℝ) : Matrix ι ι ℝ :=
  (2 : ℝ) • ((o.mapJ m)ᵀ * (o.gradᵀ * o.W * o.grad) * o.mapJ m)

/-- `SmoothnessFullGradient.deriv2(m, v)` (`simpeg/regularization/_gradient.py` 210). -/
def Obj.deriv2v (o : Obj n d φ q ι) (m v : ι → ℝ) : ι → ℝ :=
  (2 : ℝ) • ((o.mapJ m)ᵀ *ᵥ (o.gradᵀ *ᵥ (o.W *ᵥ (o.grad *ᵥ (o.mapJ m *ᵥ v)))))

end Verif.Reg.Full

namespace Verif.Reg.Full.Spec
open Matrix

/-- The tensor of a cell from its weights and the directions in the columns of a matrix:
`Q L Qᵀ` (`simpeg/regularization/_gradient.py` 80-89). -/
def tensor {d : ℕ} (α : Fin d → ℝ) (Q : Matrix (Fin d) (Fin d) ℝ) : Matrix (Fin d) (Fin d) ℝ :=
  Q * diagonal α * Qᵀ

/-- `A` gives every cell its row of the list: the list has a row for each cell, or else a row for
each active cell, in the order of the cells, and the others have zero. -/
def Rows {n : ℕ} {R : Type} [Zero R] (act : Option (Fin n → Bool)) (l : List R) (A : Fin n → R) :
    Prop :=
  l = (List.finRange n).map A ∨
    ∃ a, act = some a ∧ l = ((List.finRange n).filter a).map A ∧ ∀ c, a c = false → A c = 0

/-- The weights of the cells which the argument `alphas` stands for. -/
def IsAlphas {n d : ℕ} (edge : ℝ) (act : Option (Fin n → Bool)) :
    Alphas d → (Fin n → Fin d → ℝ) → Prop
  | .none, α => ∀ c k, α c k = edge ^ 2
  | .one a, α => ∀ c, α c = a
  | .rows l, α => Rows act l α

/-- The directions of the cells which the argument `reg_dirs` stands for. -/
def IsDirs {n d : ℕ} (act : Option (Fin n → Bool)) :
    Option (Dirs d) → (Fin n → Matrix (Fin d) (Fin d) ℝ) → Prop
  | none, Q => ∀ c, Q c = 1
  | some (.one M), Q => ∀ c, Q c = M
  | some (.rows l), Q => Rows act l Q

end Verif.Reg.Full.Spec

namespace Verif.Reg.Full.Props
open Matrix Verif.Reg.Full

set_option linter.unusedSectionVars false
variable {n d : ℕ} {φ q ι : Type} [Fintype φ] [DecidableEq φ] [Fintype q] [Fintype ι]

theorem unpack_pack (hd : d = 2 ∨ d = 3) (A : Matrix (Fin d) (Fin d) ℝ) (hA : Aᵀ = A) :
    unpack d (pack d A) = A := by
  have h : ∀ i j, A i j = A j i := fun i j => congrFun (congrFun hA j) i
  rcases hd with rfl | rfl
  · ext i j
    fin_cases i <;> fin_cases j <;> simp [unpack, pack, h 1 0]
  · ext i j
    fin_cases i <;> fin_cases j <;> simp [unpack, pack, h 1 0, h 2 0, h 2 1]

theorem einsum_eq (α : Fin d → ℝ) (Q : Matrix (Fin d) (Fin d) ℝ) :
    einsum Q α = Spec.tensor α Q := by
  ext i j
  unfold Spec.tensor einsum
  rw [Matrix.mul_apply]
  simp only [Matrix.mul_diagonal, Matrix.transpose_apply]

theorem tensor_symm (α : Fin d → ℝ) (Q : Matrix (Fin d) (Fin d) ℝ) :
    (Spec.tensor α Q)ᵀ = Spec.tensor α Q := by
  simp [Spec.tensor, Matrix.transpose_mul, Matrix.mul_assoc]

theorem expand_rows {R : Type} [Zero R] {act : Option (Fin n → Bool)} {l : List R} {A : Fin n → R}
    (h : expand act l = .ok A) : Spec.Rows act l A := by
  unfold expand at h
  split at h
  · rename_i hl
    simp only [Except.ok.injEq] at h
    subst h
    left
    refine List.ext_getElem (by simp [hl]) fun i h1 h2 => ?_
    simp [List.getD, h1]
  · split at h
    · rename_i a
      split at h
      · rename_i hl
        simp only [Except.ok.injEq] at h
        subst h
        refine .inr ⟨a, rfl, ?_, fun c hc => by simp [hc]⟩
        refine List.ext_getElem (by simp [hl, count]) fun i h1 h2 => ?_
        have hlen : i < ((List.finRange n).filter a).length := by simpa using h2
        have hnd : ((List.finRange n).filter a).Nodup := (List.nodup_finRange n).filter _
        have hr : rank a (((List.finRange n).filter a)[i]) = i := hnd.idxOf_getElem i hlen
        have ha : a (((List.finRange n).filter a)[i]) = true :=
          (List.mem_filter.1 (List.getElem_mem hlen)).2
        rw [List.getElem_map]
        simp only [ha, if_true, hr]
        simp [List.getD, h1]
      · cases h
    · cases h

/-- C83: the tensors of a constructed object are those of the documentation, with the weights and
directions of each cell as given; the weights are not negative and, if checked, the directions are
orthonormal within the tolerance. -/
theorem C83_tensor (hd : d = 2 ∨ d = 3) (edge : ℝ) (act : Option (Fin n → Bool)) (alphas : Alphas d)
    (dirs : Option (Dirs d)) (check : Bool) (T : Fin n → Matrix (Fin d) (Fin d) ℝ)
    (h : init edge act alphas dirs check = .ok T) :
    ∃ α : Fin n → Fin d → ℝ, ∃ Q : Fin n → Matrix (Fin d) (Fin d) ℝ,
      (∀ c, T c = Spec.tensor (α c) (Q c)) ∧ (∀ c k, 0 ≤ α c k) ∧
      Spec.IsAlphas edge act alphas α ∧ Spec.IsDirs act dirs Q ∧
      (check = true → dirs ≠ none → ∀ c, Ortho (Q c)) := by
  have h2 : ¬ d < 2 := by omega
  unfold init at h
  rw [if_neg h2] at h
  split at h
  · cases h
  · rename_i α hα
    split at h
    · cases h
    · rename_i hneg
      push Not at hneg
      have hmatch : Spec.IsAlphas edge act alphas α := by
        clear h
        cases alphas with
        | none => cases hα; intro c k; rfl
        | one a => cases hα; intro c; rfl
        | rows l => exact expand_rows hα
      split at h
      · simp only [Except.ok.injEq] at h
        subst h
        exact ⟨α, fun _ => 1, fun c => by simp [Spec.tensor], hneg, hmatch, fun _ => rfl,
          fun _ hh => absurd rfl hh⟩
      · rename_i _ ds
        split at h
        · cases h
        · rename_i D hD
          split at h
          · cases h
          · rename_i hort
            simp only [Except.ok.injEq] at h
            subst h
            refine ⟨α, D, fun c => ?_, hneg, hmatch, ?_, fun hc _ c => ?_⟩
            · simp only
              rw [einsum_eq, unpack_pack hd _ (tensor_symm _ _)]
            · cases ds with
              | one M => cases hD; intro c; rfl
              | rows l => exact expand_rows hD
            · by_contra hn
              exact hort ⟨hc, c, hn⟩

/-- C83: rows are accepted exactly if there is one for each cell, or one for each active cell. -/
theorem C83_rows {R : Type} [Zero R] (act : Option (Fin n → Bool)) (l : List R) :
    (∃ A, expand act l = .ok A ∧ Spec.Rows act l A) ∧
        (l.length = n ∨ ∃ a, act = some a ∧ l.length = count a) ∨
      expand act l = .error .indexError ∧
        l.length ≠ n ∧ ∀ a, act = some a → l.length ≠ count a := by
  by_cases h : l.length = n ∨ ∃ a, act = some a ∧ l.length = count a
  · refine .inl ⟨?_, h⟩
    obtain ⟨A, hA⟩ : ∃ A, expand act l = .ok A := by
      unfold expand
      by_cases h0 : l.length = n
      · rw [if_pos h0]; exact ⟨_, rfl⟩
      · obtain ⟨a, rfl, ha⟩ := h.resolve_left h0
        rw [if_neg h0]
        simp only [ha, if_true]
        exact ⟨_, rfl⟩
    exact ⟨A, hA, expand_rows hA⟩
  · refine .inr ⟨?_, ?_⟩
    · push Not at h
      unfold expand
      rw [if_neg h.1]
      cases act with
      | none => rfl
      | some a => simp [h.2 a rfl]
    · push Not at h
      exact h

/-! ### Value and derivatives -/

theorem inner_mulVec (P : q → Fin n → Matrix (Fin d) φ ℝ) (vol : Fin n → ℝ)
    (T : Fin n → Matrix (Fin d) (Fin d) ℝ) (x y : φ → ℝ) :
    x ⬝ᵥ (inner P vol T *ᵥ y) =
      ∑ i, ∑ c, vol c / 2 ^ d * ((P i c *ᵥ x) ⬝ᵥ (T c *ᵥ (P i c *ᵥ y))) := by
  unfold inner
  simp only [Matrix.sum_mulVec, dotProduct_sum, Matrix.smul_mulVec, dotProduct_smul, smul_eq_mul,
    ← Matrix.mulVec_mulVec]
  refine Finset.sum_congr rfl fun i _ => Finset.sum_congr rfl fun c _ => ?_
  congr 1
  rw [Matrix.dotProduct_mulVec, Matrix.vecMul_transpose]

theorem W_dot (o : Obj n d φ q ι) (x y : φ → ℝ) :
    x ⬝ᵥ (o.W *ᵥ y) = ∑ i, ∑ c, if o.act c then o.vol c / 2 ^ d * o.cellW c *
      ((o.P i c *ᵥ fun f => Real.sqrt (o.faceW f) * x f) ⬝ᵥ
        (o.T c *ᵥ (o.P i c *ᵥ fun f => Real.sqrt (o.faceW f) * y f))) else 0 := by
  have h : x ⬝ᵥ (o.W *ᵥ y) = (fun f => Real.sqrt (o.faceW f) * x f) ⬝ᵥ
      (inner o.P o.vol (fun c => if o.act c then o.cellW c • o.T c else 0) *ᵥ
        fun f => Real.sqrt (o.faceW f) * y f) := by
    unfold Obj.W
    simp only [← Matrix.mulVec_mulVec, diag_mulVec]
    simp only [dotProduct, Pi.mul_apply]
    refine Finset.sum_congr rfl fun f _ => ?_
    have : (fun f => Real.sqrt (o.faceW f)) * y = fun f => Real.sqrt (o.faceW f) * y f := rfl
    rw [this]
    ring
  rw [h, inner_mulVec]
  refine Finset.sum_congr rfl fun i _ => Finset.sum_congr rfl fun c _ => ?_
  split
  · rw [Matrix.smul_mulVec, dotProduct_smul, smul_eq_mul]; ring
  · simp

theorem tensor_dot (α : Fin d → ℝ) (Q : Matrix (Fin d) (Fin d) ℝ) (x : Fin d → ℝ) :
    x ⬝ᵥ (Spec.tensor α Q *ᵥ x) = ∑ k, α k * (∑ j, Q j k * x j) ^ 2 := by
  unfold Spec.tensor
  rw [← Matrix.mulVec_mulVec, ← Matrix.mulVec_mulVec, Matrix.dotProduct_mulVec, diag_mulVec,
    ← Matrix.mulVec_transpose]
  have : ∀ k, (Qᵀ *ᵥ x) k = ∑ j, Q j k * x j := fun k => rfl
  simp only [dotProduct, Pi.mul_apply, this]
  exact Finset.sum_congr rfl fun k _ => by ring

/-- C83: the value is the sum over the active cells and their corners of the squares of the
components of the gradient along the directions of the cell, each with its weight; the
directions are the columns of the matrix. -/
theorem C83_value (o : Obj n d φ q ι) (α : Fin n → Fin d → ℝ)
    (Q : Fin n → Matrix (Fin d) (Fin d) ℝ) (hT : ∀ c, o.T c = Spec.tensor (α c) (Q c)) (m : ι → ℝ) :
    o.value m = ∑ i, ∑ c, if o.act c then o.vol c / 2 ^ d * o.cellW c *
      ∑ k, α c k * (∑ j, Q c j k *
        (o.P i c *ᵥ fun f => Real.sqrt (o.faceW f) * o.r m f) j) ^ 2 else 0 := by
  unfold Obj.value
  rw [W_dot]
  simp only [hT, tensor_dot]

/-- C83: the value is not negative. -/
theorem C83_nonneg (o : Obj n d φ q ι) (α : Fin n → Fin d → ℝ)
    (Q : Fin n → Matrix (Fin d) (Fin d) ℝ) (hT : ∀ c, o.T c = Spec.tensor (α c) (Q c))
    (hα : ∀ c k, 0 ≤ α c k) (hv : ∀ c, 0 ≤ o.vol c) (hw : ∀ c, 0 ≤ o.cellW c) (m : ι → ℝ) :
    0 ≤ o.value m := by
  rw [C83_value o α Q hT]
  refine Finset.sum_nonneg fun i _ => Finset.sum_nonneg fun c _ => ?_
  split
  · refine mul_nonneg (mul_nonneg (div_nonneg (hv c) (by positivity)) (hw c)) ?_
    exact Finset.sum_nonneg fun k _ => mul_nonneg (hα c k) (sq_nonneg _)
  · exact le_rfl

/-- C83: a model which differs from the reference by a constant costs nothing, whatever the active
cells are. The hypothesis says that the gradients of the indicator of the active cells which are
counted as zero are zero. -/
theorem C83_constant (o : Obj n d φ q ι)
    (hG : ∀ f, |∑ k, o.G f k * (if o.act k then 1 else 0)| ≤ 1 / 10 ^ 16 →
      ∑ k, o.G f k * (if o.act k then 1 else 0) = 0) (m : ι → ℝ) (x : ℝ)
    (hm : ∀ c, o.map m c - o.ref c = x) : o.value m = 0 ∧ o.deriv m = 0 := by
  have hr : o.r m = 0 := by
    funext f
    have e : o.r m f = ∑ c, o.grad f c * (o.map m c - o.ref c) := rfl
    rw [e]
    simp only [hm, ← Finset.sum_mul]
    by_cases h : |∑ k, o.G f k * (if o.act k then 1 else 0)| ≤ 1 / 10 ^ 16
    · have h0 := hG f h
      have : ∑ c, o.grad f c = 0 := by
        simp only [Obj.grad, if_pos h]
        rw [← h0]
        simp only [mul_ite, mul_one, mul_zero]
        rw [← Finset.sum_filter]
        exact (Finset.sum_subtype _ (by simp) fun c => o.G f c).symm
      rw [this]; simp
    · have : ∑ c, o.grad f c = 0 := by
        simp only [Obj.grad, if_neg h, Finset.sum_const_zero]
      rw [this]; simp
  unfold Obj.value Obj.deriv
  rw [hr]
  simp

/-- C83: faces between active and inactive cells are not measured: where the gradient of the
indicator of the active cells does not vanish, changing the model changes nothing. -/
theorem C83_boundary (o : Obj n d φ q ι) (m : ι → ℝ) (f : φ)
    (h : 1 / 10 ^ 16 < |∑ k, o.G f k * (if o.act k then 1 else 0)|) : o.r m f = 0 := by
  have e : o.r m f = ∑ c, o.grad f c * (o.map m c - o.ref c) := rfl
  rw [e]
  exact Finset.sum_eq_zero fun c _ => by rw [Obj.grad, if_neg (not_le.2 h), zero_mul]

theorem W_symm (o : Obj n d φ q ι) (hT : ∀ c, (o.T c)ᵀ = o.T c) : o.Wᵀ = o.W := by
  have hi : ∀ T : Fin n → Matrix (Fin d) (Fin d) ℝ, (∀ c, (T c)ᵀ = T c) →
      (inner o.P o.vol T)ᵀ = inner o.P o.vol T := by
    intro T hT
    unfold inner
    simp only [Matrix.transpose_sum, Matrix.transpose_smul, Matrix.transpose_mul, hT,
      Matrix.transpose_transpose, Matrix.mul_assoc]
  unfold Obj.W
  simp only [Matrix.transpose_mul, Matrix.diagonal_transpose]
  rw [hi, Matrix.mul_assoc]
  intro c
  split
  · rw [Matrix.transpose_smul, hT]
  · simp

theorem r_jac (o : Obj n d φ q ι) (m : ι → ℝ) (hmap : IsJacobian o.map (o.mapJ m) m) :
    IsJacobian o.r (o.grad * o.mapJ m) m := by
  have h := (hmap.sub (isJacobian_const o.ref m)).mulVec o.grad
  rw [sub_zero] at h
  exact h

/-- C83: `deriv` is the gradient of the value, for any mapping with a derivative. -/
theorem C83_gradient (o : Obj n d φ q ι) (hT : ∀ c, (o.T c)ᵀ = o.T c) (m : ι → ℝ)
    (hmap : IsJacobian o.map (o.mapJ m) m) : IsGradient o.value (o.deriv m) m := by
  have hr := r_jac o m hmap
  have h := isGradient_sum (g := o.deriv m) (hr.mul (hr.mulVec o.W)) fun v => by
    simp only [Matrix.add_mulVec, ← Matrix.mulVec_mulVec, diag_mulVec, Pi.add_apply,
      Finset.sum_add_distrib]
    have e1 : ∑ c, (o.r m * o.W *ᵥ (o.grad *ᵥ (o.mapJ m *ᵥ v))) c =
        (o.W *ᵥ o.r m) ⬝ᵥ (o.grad *ᵥ (o.mapJ m *ᵥ v)) := by
      have : ∑ c, (o.r m * o.W *ᵥ (o.grad *ᵥ (o.mapJ m *ᵥ v))) c =
        o.r m ⬝ᵥ (o.W *ᵥ (o.grad *ᵥ (o.mapJ m *ᵥ v))) := rfl
      rw [this, Matrix.dotProduct_mulVec, ← Matrix.mulVec_transpose, W_symm o hT]
    have e2 : ∑ c, (o.W *ᵥ o.r m * o.grad *ᵥ (o.mapJ m *ᵥ v)) c =
        (o.W *ᵥ o.r m) ⬝ᵥ (o.grad *ᵥ (o.mapJ m *ᵥ v)) := rfl
    rw [e1, e2]
    unfold Obj.deriv
    rw [smul_dotProduct, Matrix.mulVec_transpose, ← Matrix.dotProduct_mulVec,
      Matrix.mulVec_transpose, ← Matrix.dotProduct_mulVec, smul_eq_mul]
    ring
  exact h

/-- C83: the product with a vector is the product with the matrix. -/
theorem C83_hessian_product (o : Obj n d φ q ι) (m v : ι → ℝ) :
    o.deriv2 m *ᵥ v = o.deriv2v m v := by
  unfold Obj.deriv2 Obj.deriv2v
  rw [Matrix.smul_mulVec]
  simp only [← Matrix.mulVec_mulVec]

/-- C83: `deriv2` is the Hessian of the value for linear mappings. Missing: the second derivative
of the mapping is left out, so for others it is an approximation. -/
theorem C83_hessian_partial (o : Obj n d φ q ι) (m : ι → ℝ) (B : Matrix {c // o.act c = true} ι ℝ)
    (b : {c // o.act c = true} → ℝ) (hmap : ∀ x, o.map x = B *ᵥ x + b) (hJ : ∀ x, o.mapJ x = B) :
    IsJacobian o.deriv (o.deriv2 m) m := by
  have hm : IsJacobian o.map (o.mapJ m) m := by
    have := (isJacobian_mulVec B m).add (isJacobian_const b m)
    rw [add_zero] at this
    rw [hJ, show o.map = _ from funext hmap]
    exact this
  have h := IsJacobian.mulVec ((2 : ℝ) • (Bᵀ * (o.gradᵀ * o.W))) (r_jac o m hm)
  have e : o.deriv = fun x => ((2 : ℝ) • (Bᵀ * (o.gradᵀ * o.W))) *ᵥ o.r x := by
    funext x
    unfold Obj.deriv
    rw [hJ, Matrix.smul_mulVec]
    simp only [← Matrix.mulVec_mulVec]
  rw [e]
  refine h.of_mulVec fun v => ?_
  rw [C83_hessian_product, hJ]
  unfold Obj.deriv2v
  rw [← Matrix.mulVec_mulVec, Matrix.smul_mulVec, hJ]
  simp only [← Matrix.mulVec_mulVec]

/-- C83: the Hessian is symmetric and positive semidefinite, for all mappings. -/
theorem C83_hessian_psd (o : Obj n d φ q ι) (α : Fin n → Fin d → ℝ)
    (Q : Fin n → Matrix (Fin d) (Fin d) ℝ) (hT : ∀ c, o.T c = Spec.tensor (α c) (Q c))
    (hα : ∀ c k, 0 ≤ α c k) (hv : ∀ c, 0 ≤ o.vol c) (hw : ∀ c, 0 ≤ o.cellW c) (m v : ι → ℝ) :
    (o.deriv2 m)ᵀ = o.deriv2 m ∧ 0 ≤ v ⬝ᵥ (o.deriv2 m *ᵥ v) := by
  have hs : ∀ c, (o.T c)ᵀ = o.T c := fun c => by rw [hT, tensor_symm]
  constructor
  · unfold Obj.deriv2
    simp only [Matrix.transpose_smul, Matrix.transpose_mul, Matrix.transpose_transpose, W_symm o hs,
      Matrix.mul_assoc]
  · rw [C83_hessian_product]
    unfold Obj.deriv2v
    rw [dotProduct_smul, Matrix.dotProduct_mulVec v, Matrix.vecMul_transpose,
      Matrix.dotProduct_mulVec (o.mapJ m *ᵥ v), Matrix.vecMul_transpose, W_dot]
    refine smul_nonneg (by norm_num) ?_
    simp only [hT, tensor_dot]
    refine Finset.sum_nonneg fun i _ => Finset.sum_nonneg fun c _ => ?_
    split
    · refine mul_nonneg (mul_nonneg (div_nonneg (hv c) (by positivity)) (hw c)) ?_
      exact Finset.sum_nonneg fun k _ => mul_nonneg (hα c k) (sq_nonneg _)
    · exact le_rfl

/-! ### Violations -/

theorem not_ortho_zero (hd : 2 ≤ d) : ¬ Ortho (0 : Matrix (Fin d) (Fin d) ℝ) := by
  intro h
  have := h ⟨0, by omega⟩ ⟨0, by omega⟩
  simp at this
  norm_num at this

/-- C83 is violated: directions for the active cells, which the documentation and the error message
allow, are refused as not orthonormal as soon as a cell is not active: the check is done on the
zeros of the other cells. -/
theorem C83_violated_active_dirs (hd : d = 2 ∨ d = 3) (edge : ℝ) (a : Fin n → Bool) (c : Fin n)
    (hc : a c = false) (alphas : Fin d → ℝ) (hα : ∀ k, 0 ≤ alphas k)
    (l : List (Matrix (Fin d) (Fin d) ℝ)) (hl : l.length = count a) :
    init edge (some a) (.one alphas) (some (.rows l)) true = .error .valueError := by
  have hlt : count a < n := by
    have : ((List.finRange n).filter a).length < (List.finRange n).length := by
      rw [List.length_filter_lt_length_iff_exists]
      exact ⟨c, List.mem_finRange c, by simp [hc]⟩
    simpa [count] using this
  have hn : ¬ count a = n := by omega
  have h2 : ¬ d < 2 := by omega
  have hneg : ¬ ∃ (c : Fin n) (k : Fin d), alphas k < 0 := by
    rintro ⟨-, k, hk⟩
    exact absurd (hα k) (not_le.2 hk)
  unfold init
  rw [if_neg h2]
  simp only [alphasOf, dirsOf, expand, hn, if_false, hl, if_true, hneg]
  rw [if_pos]
  refine ⟨rfl, c, ?_⟩
  simp only [hc, Bool.false_eq_true, if_false]
  exact not_ortho_zero (by omega)

/-- Without the check they are accepted. -/
theorem C83_active_dirs_unchecked (hd : d = 2 ∨ d = 3) (edge : ℝ) (a : Fin n → Bool)
    (alphas : Fin d → ℝ) (hα : ∀ k, 0 ≤ alphas k)
    (l : List (Matrix (Fin d) (Fin d) ℝ)) (hl : l.length = count a) :
    ∃ T, init edge (some a) (.one alphas) (some (.rows l)) false = .ok T := by
  have h2 : ¬ d < 2 := by omega
  have hneg : ¬ ∃ (c : Fin n) (k : Fin d), alphas k < 0 := by
    rintro ⟨-, k, hk⟩
    exact absurd (hα k) (not_le.2 hk)
  unfold init
  rw [if_neg h2]
  obtain ⟨A, hA⟩ : ∃ A, expand (some a) l = .ok A := by
    rcases C83_rows (some a) l with ⟨⟨A, hA, -⟩, -⟩ | ⟨-, -, h⟩
    · exact ⟨A, hA⟩
    · exact absurd hl (h a rfl)
  simp [alphasOf, dirsOf, hA, hneg]

/-- C83 is violated: the directions of the example in the documentation
(`simpeg/regularization/_gradient.py` 62-67) are refused. -/
theorem C83_violated_documented_example (hn : 0 < n) (edge : ℝ) (act : Option (Fin n → Bool))
    (alphas : Fin 2 → ℝ) (hα : ∀ k, 0 ≤ alphas k) :
    init edge act (.one alphas)
      (some (.one !![Real.sqrt 2, -Real.sqrt 2; Real.sqrt 2, Real.sqrt 2])) true =
        .error .valueError := by
  have hneg : ¬ ∃ (c : Fin n) (k : Fin 2), alphas k < 0 := by
    rintro ⟨-, k, hk⟩
    exact absurd (hα k) (not_le.2 hk)
  unfold init
  simp only [alphasOf, dirsOf, hneg, if_false, lt_irrefl]
  rw [if_pos]
  refine ⟨rfl, ⟨0, hn⟩, fun h => ?_⟩
  have := h 0 0
  have h2 : Real.sqrt 2 * Real.sqrt 2 = 2 := Real.mul_self_sqrt (by norm_num)
  simp [Matrix.mul_apply, Fin.sum_univ_two, h2] at this
  norm_num [abs_of_pos, abs_of_neg] at this

/-! ### Concrete cases -/

/-- Directions at 45 degrees, with the right factor, are accepted. -/
example : ∃ T, init (n := 3) 1 none (.one ![2, 1])
    (some (.one !![1 / Real.sqrt 2, -(1 / Real.sqrt 2); 1 / Real.sqrt 2, 1 / Real.sqrt 2])) true =
      .ok T := by
  have h2 : (Real.sqrt 2)⁻¹ * (Real.sqrt 2)⁻¹ = 1 / 2 := by
    rw [← mul_inv, Real.mul_self_sqrt (by norm_num)]; norm_num
  have ho : Ortho (!![1 / Real.sqrt 2, -(1 / Real.sqrt 2); 1 / Real.sqrt 2, 1 / Real.sqrt 2]) := by
    intro i j
    fin_cases i <;> fin_cases j <;> simp [Matrix.mul_apply, Fin.sum_univ_two, h2] <;> norm_num
  have hneg : ¬ ∃ (c : Fin 3) (k : Fin 2), ![2, 1] k < (0 : ℝ) := by
    rintro ⟨-, k, hk⟩
    fin_cases k <;> norm_num at hk
  unfold init
  simp only [alphasOf, dirsOf]
  rw [if_neg (by norm_num), if_neg hneg, if_neg (by rintro ⟨-, c, hc⟩; exact hc ho)]
  exact ⟨_, rfl⟩

/-- Two active cells and an inactive one in a row, with the faces between them, in two dimensions:
twice as smooth along the row. -/
def toy : Obj 3 2 (Fin 2) (Fin 4) (Fin 2) where
  G := !![-1, 1, 0; 0, -1, 1]
  P _ c := if c = 0 then !![1, 0; 0, 0] else if c = 1 then !![1, 0; 0, 0] else !![0, 1; 0, 0]
  vol _ := 1
  act c := decide (c ≠ 2)
  T _ := Spec.tensor ![2, 1] 1
  cellW _ := 1
  faceW _ := 1
  map m c := if c.1 = 0 then m 0 else m 1
  mapJ _ := fun c j => if c.1 = 0 then (if j = 0 then 1 else 0) else if j = 1 then 1 else 0
  ref _ := 0

theorem toy_r (m : Fin 2 → ℝ) : toy.r m = ![m 1 - m 0, 0] := by
  have hb : toy.r m 1 = 0 := C83_boundary toy m 1 (by
    simp [toy, Fin.sum_univ_three]; norm_num)
  have ha : toy.r m 0 = m 1 - m 0 := by
    have e : toy.r m 0 = ∑ c, toy.grad 0 c * (toy.map m c - toy.ref c) := rfl
    have hk : |∑ k, toy.G 0 k * (if toy.act k then 1 else 0)| ≤ 1 / 10 ^ 16 := by
      simp [toy, Fin.sum_univ_three]
    have hs : ∀ g : Fin 3 → ℝ, ∑ c : {c // toy.act c = true}, g c.1 = g 0 + g 1 := by
      intro g
      rw [← Finset.sum_subtype (Finset.univ.filter fun c => toy.act c = true) (by simp) g,
        Finset.sum_filter, Fin.sum_univ_three]
      simp [toy]
    rw [e]
    simp only [Obj.grad, if_pos hk]
    refine (hs fun c => toy.G 0 c * ((if c = 0 then m 0 else m 1) - 0)).trans ?_
    simp [toy]
    ring
  funext f
  fin_cases f
  · exact ha
  · exact hb

example (m : Fin 2 → ℝ) : toy.value m = 4 * (m 1 - m 0) ^ 2 := by
  rw [C83_value toy (fun _ => ![2, 1]) (fun _ => 1) fun _ => rfl, toy_r]
  simp [toy, Fin.sum_univ_succ, Matrix.one_apply, Matrix.mulVec, dotProduct]
  ring

example (m : Fin 2 → ℝ) (h : m 0 = m 1) : toy.value m = 0 :=
  (C83_constant toy (by
    intro f h
    fin_cases f
    · simp [toy, Fin.sum_univ_three]
    · exfalso
      simp [toy, Fin.sum_univ_three] at h
      norm_num at h) m (m 1) fun c => by simp [toy, h]).1

end Verif.Reg.Full.Props
