import Verif.Basic
import Mathlib.Algebra.BigOperators.Fin
import Mathlib.Data.Matrix.Mul
import Mathlib.Data.Int.ModEq
import Mathlib.LinearAlgebra.Matrix.Notation
import Mathlib.Tactic.FieldSimp
import Mathlib.Tactic.NormNum

/-! Model of `estimate_diagonal` (`simpeg/utils/mat_utils.py` 27-103). -/

namespace Verif.Utils.Probing
open Verif Matrix

variable {K : Type} [Field K] {n : Nat}

/-- The probing vector (88-91): `v[i:n:k] = 1`. -/
def probe (k i : Nat) (j : Fin n) : K := if i ≤ j.val ∧ (j.val - i) % k = 0 then 1 else 0

/-- The loop and the division (93-103) for given vectors. -/
def estimateWith (A : (Fin n → K) → Fin n → K) (vs : List (Fin n → K)) (j : Fin n) : K :=
  (vs.foldl (fun acc v => acc + A v j * v j) 0) / (vs.foldl (fun acc v => acc + v j * v j) 0)

/-- `estimate_diagonal(A, n, k, approach="Probing")`.  With the default `k = None` the number of
vectors is `np.floor(n / 10.0)` (70-71), a float, which `range` (96) refuses. -/
def estimateDiagonal (A : (Fin n → K) → Fin n → K) : Option Nat → Except Err (Fin n → K)
  | none => .error .typeError
  | some k => .ok (estimateWith A ((List.range k).map (probe k)))

namespace Props

theorem probe_iff (k i : Nat) (hi : i < k) (j : Fin n) :
    (probe k i j : K) = if j.val % k = i then 1 else 0 := by
  unfold probe
  congr 1
  apply propext
  constructor
  · rintro ⟨h1, h2⟩
    obtain ⟨q, hq⟩ := Nat.dvd_of_mod_eq_zero h2
    have : j.val = i + k * q := by omega
    rw [this, Nat.add_mul_mod_self_left, Nat.mod_eq_of_lt hi]
  · intro h
    have hd := Nat.div_add_mod j.val k
    constructor
    · omega
    · have : j.val - i = k * (j.val / k) := by omega
      rw [this, Nat.mul_mod_right]

theorem foldl_sum {α : Type} (l : List α) (f : α → K) (a : K) :
    l.foldl (fun acc v => acc + f v) a = a + (l.map f).sum := by
  induction l generalizing a with
  | nil => simp
  | cons x xs ih => simp [ih, add_assoc]

theorem sum_range_ite (k r : Nat) (hr : r < k) (f : Nat → K) :
    ((List.range k).map fun i => if r = i then f i else 0).sum = f r := by
  induction k with
  | zero => omega
  | succ k ih =>
    rw [List.range_succ, List.map_append, List.sum_append]
    by_cases h : r = k
    · subst h
      have : ((List.range r).map fun i => if r = i then f i else 0).sum = 0 := by
        apply List.sum_eq_zero
        intro x hx
        simp only [List.mem_map, List.mem_range] at hx
        obtain ⟨i, hi, rfl⟩ := hx
        rw [if_neg (by omega)]
      simp [this]
    · rw [ih (by omega)]
      simp [h]

/-! ### C45 -/

/-- C45. Entry `j` of the estimate is the sum of the entries of row `j` whose column is congruent
to `j` modulo `k`. -/
theorem C45_row_sums (A : Matrix (Fin n) (Fin n) K) (k : Nat) (hk : 0 < k) :
    ∃ d, estimateDiagonal (fun v => A *ᵥ v) (some k) = .ok d ∧
      ∀ j, d j = ∑ l, if l.val % k = j.val % k then A j l else 0 := by
  refine ⟨_, rfl, fun j => ?_⟩
  have hr : j.val % k < k := Nat.mod_lt _ hk
  unfold estimateWith
  rw [foldl_sum, foldl_sum, zero_add, zero_add, List.map_map, List.map_map]
  have hden : ((List.range k).map ((fun v : Fin n → K => v j * v j) ∘ probe k)).sum = 1 := by
    rw [← sum_range_ite k (j.val % k) hr (fun _ => (1 : K))]
    congr 1
    apply List.map_congr_left
    intro i hi
    simp only [Function.comp, probe_iff k i (List.mem_range.mp hi)]
    split <;> simp
  rw [hden, div_one, ← sum_range_ite k (j.val % k) hr
    (fun i => ∑ l, if l.val % k = i then A j l else 0)]
  congr 1
  apply List.map_congr_left
  intro i hi
  simp only [Function.comp]
  rw [probe_iff k i (List.mem_range.mp hi) j]
  by_cases h : j.val % k = i
  · simp only [h, if_true, mul_one, mulVec, dotProduct]
    apply Finset.sum_congr rfl
    intro l _
    rw [probe_iff k i (List.mem_range.mp hi) l]
    split <;> simp
  · simp [h]

/-- C45. The estimate is the exact diagonal when off-diagonal entries whose row and column are
congruent modulo `k` are zero; so it is always exact for `k ≥ n`, and for a matrix of bandwidth
less than `k`. -/
theorem C45_exact (A : Matrix (Fin n) (Fin n) K) (k : Nat) (hk : 0 < k) :
    ((∀ j l : Fin n, l ≠ j → l.val % k = j.val % k → A j l = 0) →
      estimateDiagonal (fun v => A *ᵥ v) (some k) = .ok fun j => A j j) ∧
    (n ≤ k → estimateDiagonal (fun v => A *ᵥ v) (some k) = .ok fun j => A j j) ∧
    ((∀ j l : Fin n, j.val + k ≤ l.val ∨ l.val + k ≤ j.val → A j l = 0) →
      estimateDiagonal (fun v => A *ᵥ v) (some k) = .ok fun j => A j j) := by
  have main : (∀ j l : Fin n, l ≠ j → l.val % k = j.val % k → A j l = 0) →
      estimateDiagonal (fun v => A *ᵥ v) (some k) = .ok fun j => A j j := by
    intro h
    obtain ⟨d, hd, hs⟩ := C45_row_sums A k hk
    rw [hd]
    congr 1
    funext j
    rw [hs j, Finset.sum_eq_single j]
    · simp
    · intro l _ hl
      split
      · next he => exact h j l hl he
      · rfl
    · simp
  refine ⟨main, fun hn => main fun j l hl he => ?_, fun hb => main fun j l hl he => hb j l ?_⟩
  · have hj : j.val < k := lt_of_lt_of_le j.isLt hn
    have hl' : l.val < k := lt_of_lt_of_le l.isLt hn
    rw [Nat.mod_eq_of_lt hj, Nat.mod_eq_of_lt hl'] at he
    exact absurd (Fin.ext he) hl
  · have hne : l.val ≠ j.val := fun h => hl (Fin.ext h)
    rcases Nat.lt_or_gt_of_ne hne with hlt | hgt
    · right
      have hd := (Nat.modEq_iff_dvd' hlt.le).mp he
      have := Nat.le_of_dvd (by omega) hd
      omega
    · left
      have hd := (Nat.modEq_iff_dvd' hgt.le).mp he.symm
      have := Nat.le_of_dvd (by omega) hd
      omega

/-- C45. The condition is needed: with `k` vectors two congruent columns cannot be told apart. -/
theorem C45_not_exact (k : Nat) (hk : 0 < k) (j l : Fin n) (hl : l ≠ j)
    (he : l.val % k = j.val % k) :
    ∃ A : Matrix (Fin n) (Fin n) K, ∀ d, estimateDiagonal (fun v => A *ᵥ v) (some k) = .ok d →
      d j ≠ A j j := by
  refine ⟨fun a b => if a = j ∧ b = l then 1 else 0, fun d hd => ?_⟩
  obtain ⟨d', hd', hs⟩ := C45_row_sums (fun a b => if a = j ∧ b = l then (1 : K) else 0) k hk
  rw [hd] at hd'
  cases hd'
  rw [hs j, Finset.sum_eq_single l]
  · simp [he, hl.symm]
  · intro b _ hb
    simp [hb]
  · simp

/-- C45. Whatever the vectors (probing, ±1 or random), the diagonal of a diagonal matrix is exact
wherever some vector is non-zero. -/
theorem C45_diagonal_matrix (a : Fin n → K) (vs : List (Fin n → K)) (j : Fin n)
    (h : (vs.map fun v => v j * v j).sum ≠ 0) :
    estimateWith (fun v => diagonal a *ᵥ v) vs j = a j := by
  unfold estimateWith
  rw [foldl_sum, foldl_sum, zero_add, zero_add]
  have : (vs.map fun v => (diagonal a *ᵥ v) j * v j).sum =
      a j * (vs.map fun v => v j * v j).sum := by
    simp only [mulVec_diagonal]
    rw [← List.sum_map_mul_left]
    congr 1
    apply List.map_congr_left
    intro v _
    ring
  rw [this, mul_div_assoc, div_self h, mul_one]

/-- C45 (violation). Without `k` the function raises for every matrix. -/
theorem C45_default_raises (A : (Fin n → K) → Fin n → K) :
    estimateDiagonal A none = .error .typeError := rfl

/-- A tridiagonal matrix and `k = 2`: the hypothesis of the last part of `C45_exact` holds. -/
example : ∀ j l : Fin 3, j.val + 2 ≤ l.val ∨ l.val + 2 ≤ j.val →
    (!![1, 2, 0; 3, 4, 5; 0, 6, 7] : Matrix (Fin 3) (Fin 3) ℚ) j l = 0 := by
  intro j l h
  fin_cases j <;> fin_cases l <;> simp at h ⊢

end Props
end Verif.Utils.Probing
