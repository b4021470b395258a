import Verif.Basic
import Mathlib.LinearAlgebra.Matrix.Block
import Mathlib.LinearAlgebra.Matrix.NonsingularInverse
import Mathlib.Analysis.SpecialFunctions.Log.Basic
import Mathlib.Analysis.SpecialFunctions.Sqrt
import Mathlib.Analysis.SpecialFunctions.Trigonometric.Basic
import Mathlib.Tactic.LinearCombination
import Mathlib.Tactic.Positivity

/-! Model of the starting values of the Gaussian mixtures of `simpeg/utils/pgi_utils.py`: checks of
the proportions (214-262), starts of the mixtures with relationships (1354-1393 and 1689-1728), their
log-probabilities (1396-1449 and 1730-1784), and the precisions and covariances of the units
(135-177), for C196. -/

noncomputable section
namespace Verif.Utils.GMMStart
open Verif Matrix

/-! ### Checks of proportions -/

/-- Proportions given by a user: for all cells, or for each cell. The numbers of units and cells are
those of the array. -/
inductive Weights
  | shared (w : List ℝ)
  | cells (w : List (List ℝ))

open Classical in
/-- `_check_weights` (214-262) for `K` units and `n` cells. `check_array` (numbers are finite) holds
for real numbers; `np.allclose(x, 0)` is `|x| ≤ 1e-8`. The rows of a two-dimensional array have the
same length, which is that of the first; without rows numpy has no two-dimensional list. -/
def checkWeights (K n : Nat) : Weights → Except Err Weights
  | .shared w =>
    if w.length ≠ K then .error .valueError
    else if (∃ x ∈ w, x < 0) ∨ (∃ x ∈ w, 1 < x) then .error .valueError
    else if ¬ |(|1 - w.sum|)| ≤ 1 / 10 ^ 8 then .error .valueError
    else .ok (.shared w)
  | .cells w =>
    if w.length ≠ n ∨ ∃ r ∈ w, r.length ≠ K then .error .valueError
    else if (∃ r ∈ w, ∃ x ∈ r, x < 0) ∨ (∃ r ∈ w, ∃ x ∈ r, 1 < x) then .error .valueError
    else if ¬ ∀ r ∈ w, |(|1 - r.sum|)| ≤ 1 / 10 ^ 8 then .error .valueError
    else .ok (.cells w)

/-! ### Starts -/

variable {K p : Nat}

abbrev Mat (p : Nat) := Matrix (Fin p) (Fin p) ℝ

/-- Precisions, covariances or their factors, by the type of covariance. -/
inductive Cov (K p : Nat)
  | full (c : Fin K → Mat p)
  | tied (c : Mat p)
  | diag (c : Fin K → Fin p → ℝ)
  | spherical (c : Fin K → ℝ)

/-- What a user gives: each may be missing. -/
structure Given (K p : Nat) (W : Type) where
  weights : Option W
  means : Option (Fin K → Fin p → ℝ)
  precisions : Option (Cov K p)

/-- The parameters after the start; `covariances_` is not set when precisions are given. -/
structure Params (K p : Nat) (W : Type) where
  weights : W
  means : Fin K → Fin p → ℝ
  chol : Cov K p
  covariances : Option (Cov K p)

/-- `_compute_precision_cholesky` of scikit-learn: `solve_triangular(cholesky(c), I).T`, or
`1 / sqrt(c)`. `chol` is `linalg.cholesky(·, lower=True)`. -/
def precisionChol (chol : Mat p → Mat p) : Cov K p → Cov K p
  | .full c => .full fun k => ((chol (c k))⁻¹)ᵀ
  | .tied c => .tied ((chol c)⁻¹)ᵀ
  | .diag c => .diag fun k i => 1 / Real.sqrt (c k i)
  | .spherical c => .spherical fun k => 1 / Real.sqrt (c k)

/-- `_initialize` with relationships (1354-1393, 1689-1728). `est` are the proportions (divided by
the number of cells), means and covariances of `_estimate_gaussian_parameters`. -/
def initStart {W : Type} (chol : Mat p → Mat p) (est : W × (Fin K → Fin p → ℝ) × Cov K p)
    (g : Given K p W) : Params K p W :=
  let weights := g.weights.getD est.1
  let means := g.means.getD est.2.1
  match g.precisions with
  | none => ⟨weights, means, precisionChol chol est.2.2, some est.2.2⟩
  | some (.full c) => ⟨weights, means, .full fun k => chol (c k), none⟩
  | some (.tied c) => ⟨weights, means, .tied (chol c), none⟩
  | some (.diag c) => ⟨weights, means, .diag c, none⟩
  | some (.spherical c) => ⟨weights, means, .spherical c, none⟩

/-- `_compute_log_det_cholesky` of scikit-learn. -/
def logDet (C : Cov K p) (k : Fin K) : ℝ :=
  match C with
  | .full C => ∑ i, Real.log (C k i i)
  | .tied C => ∑ i, Real.log (C i i)
  | .diag c => ∑ i, Real.log (c k i)
  | .spherical c => (p : ℝ) * Real.log (c k)

/-- The matrix that multiplies the samples (1427-1447); `prec_chol * np.eye(n_features)`. -/
def cholMat (C : Cov K p) (k : Fin K) : Mat p :=
  match C with
  | .full C => C k
  | .tied C => C
  | .diag c => Matrix.of fun i j => c k j * (1 : Mat p) i j
  | .spherical c => Matrix.of fun i j => c k * (1 : Mat p) i j

/-- `_estimate_log_gaussian_prob` (1396-1449, 1730-1784) for one sample and unit `k`, with the
mapping `f` of the unit. -/
def logProb (C : Cov K p) (means : Fin K → Fin p → ℝ) (f : (Fin p → ℝ) → Fin p → ℝ) (k : Fin K)
    (x : Fin p → ℝ) : ℝ :=
  let y := f x ᵥ* cholMat C k - means k ᵥ* cholMat C k;
  -0.5 * ((p : ℝ) * Real.log (2 * Real.pi) + ∑ j, y j ^ 2) + logDet C k

/-- The product of a factor with its transpose, or its square (142-153 and 163-173). -/
def squareOf : Cov K p → Cov K p
  | .full c => .full fun k => c k * (c k)ᵀ
  | .tied c => .tied (c * cᵀ)
  | .diag c => .diag fun k i => c k i ^ 2
  | .spherical c => .spherical fun k => c k ^ 2

/-- The parameters of a fitted mixture that concern covariances. -/
structure Fitted (K p : Nat) where
  covariances : Cov K p
  precisions : Cov K p
  precisionsChol : Cov K p

/-- `compute_clusters_precisions` (135-153). -/
def Fitted.computePrecisions (chol : Mat p → Mat p) (f : Fitted K p) : Fitted K p :=
  let c := precisionChol chol f.covariances
  { f with precisionsChol := c, precisions := squareOf c }

/-- `compute_clusters_covariances` (155-177). -/
def Fitted.computeCovariances (chol : Mat p → Mat p) (f : Fitted K p) : Fitted K p :=
  let v := squareOf (precisionChol chol f.precisions)
  { f with covariances := v, precisionsChol := precisionChol chol v }

namespace Props

/-! ### Specification -/

/-- Proportions of `K` units: between 0 and 1, with sum 1 up to `1e-8`. -/
def Proportions (K : Nat) (w : List ℝ) : Prop :=
  w.length = K ∧ (∀ x ∈ w, 0 ≤ x ∧ x ≤ 1) ∧ |w.sum - 1| ≤ 1 / 10 ^ 8

/-- The logarithm of the normal density with mean `μ` and precision matrix `P`. -/
def logDensity (P : Mat p) (μ x : Fin p → ℝ) : ℝ :=
  -(1 / 2) * ((p : ℝ) * Real.log (2 * Real.pi) + (x - μ) ⬝ᵥ (P *ᵥ (x - μ))) +
    1 / 2 * Real.log P.det

/-- What `linalg.cholesky(·, lower=True)` returns for the matrices it accepts. -/
structure IsChol (P L : Mat p) : Prop where
  lower : ∀ i j, i < j → L i j = 0
  pos : ∀ i, 0 < L i i
  prod : L * Lᵀ = P

/-- The matrix of a unit. -/
def matOf (C : Cov K p) (k : Fin K) : Mat p :=
  match C with
  | .full c => c k
  | .tied c => c
  | .diag c => diagonal (c k)
  | .spherical c => diagonal fun _ => c k

/-- Matrices that have a factor, or positive numbers. -/
def Positive (chol : Mat p → Mat p) : Cov K p → Prop
  | .full c => ∀ k, IsChol (c k) (chol (c k))
  | .tied c => IsChol c (chol c)
  | .diag c => ∀ k i, 0 < c k i
  | .spherical c => ∀ k, 0 < c k

/-! ### C196 -/

/-- C196. Proportions are accepted, unchanged, exactly when there is one for every unit (and every
cell), all between 0 and 1 and with sum 1 up to `1e-8`; otherwise ValueError. -/
theorem C196_weights (K n : Nat) (w : List ℝ) (c : List (List ℝ)) :
    (Proportions K w → checkWeights K n (.shared w) = .ok (.shared w)) ∧
    (¬ Proportions K w → checkWeights K n (.shared w) = .error .valueError) ∧
    ((c.length = n ∧ ∀ r ∈ c, Proportions K r) → checkWeights K n (.cells c) = .ok (.cells c)) ∧
    (¬ (c.length = n ∧ ∀ r ∈ c, Proportions K r) →
      checkWeights K n (.cells c) = .error .valueError) := by
  refine ⟨?_, ?_, ?_, ?_⟩
  · rintro ⟨h1, h2, h3⟩
    simp only [checkWeights]
    rw [if_neg (by simpa using h1), if_neg, if_neg]
    · rw [abs_abs, abs_sub_comm]; simpa using h3
    · rintro (⟨x, hx, h⟩ | ⟨x, hx, h⟩)
      · linarith [(h2 x hx).1]
      · linarith [(h2 x hx).2]
  · intro hn
    simp only [checkWeights]
    split
    · rfl
    · rename_i h1
      split
      · rfl
      · rename_i h2
        split
        · rfl
        · rename_i h3
          refine absurd ⟨by simpa using h1, ?_, ?_⟩ hn
          · intro x hx
            push Not at h2
            exact ⟨h2.1 x hx, h2.2 x hx⟩
          · rw [abs_abs, abs_sub_comm] at h3
            exact not_not.mp h3
  · rintro ⟨h1, h2⟩
    simp only [checkWeights]
    rw [if_neg, if_neg, if_neg]
    · rw [not_not]
      intro r hr
      rw [abs_abs, abs_sub_comm]
      exact (h2 r hr).2.2
    · rintro (⟨r, hr, x, hx, h⟩ | ⟨r, hr, x, hx, h⟩)
      · linarith [((h2 r hr).2.1 x hx).1]
      · linarith [((h2 r hr).2.1 x hx).2]
    · rintro (h | ⟨r, hr, h⟩)
      · exact h h1
      · exact h (h2 r hr).1
  · intro hn
    simp only [checkWeights]
    split
    · rfl
    · rename_i h1
      split
      · rfl
      · rename_i h2
        split
        · rfl
        · rename_i h3
          push Not at h1 h2
          refine absurd ⟨h1.1, fun r hr => ⟨h1.2 r hr, ?_, ?_⟩⟩ hn
          · intro x hx
            exact ⟨h2.1 r hr x hx, h2.2 r hr x hx⟩
          · have := not_not.mp h3 r hr
            rwa [abs_abs, abs_sub_comm] at this

theorem det_lower {L : Mat p} (h : ∀ i j, i < j → L i j = 0) : L.det = ∏ i, L i i :=
  det_of_isLowerTriangular L fun i j hij => h i j (by simpa using hij)

theorem quad_eq (C P : Mat p) (h : C * Cᵀ = P) (d : Fin p → ℝ) :
    ∑ j, (d ᵥ* C) j ^ 2 = d ⬝ᵥ (P *ᵥ d) := by
  rw [← h, ← Matrix.mulVec_mulVec, Matrix.dotProduct_mulVec, Matrix.mulVec_transpose]
  simp [dotProduct, sq]

/-- The log-probability is the normal density for the precision the factor stands for. -/
theorem logProb_density (C : Cov K p) (means : Fin K → Fin p → ℝ)
    (f : (Fin p → ℝ) → Fin p → ℝ) (k : Fin K) (x : Fin p → ℝ) (P : Mat p)
    (h : cholMat C k * (cholMat C k)ᵀ = P) (hd : logDet C k = 1 / 2 * Real.log P.det) :
    logProb C means f k x = logDensity P (means k) (f x) := by
  unfold logProb logDensity
  simp only
  rw [← sub_vecMul, quad_eq _ P h, hd]
  norm_num

theorem logDet_chol {P L : Mat p} (h : IsChol P L) : ∑ i, Real.log (L i i) = 1 / 2 * Real.log P.det := by
  have hdet : P.det = (∏ i, L i i) * (∏ i, L i i) := by
    rw [← h.prod, det_mul, det_transpose, det_lower h.lower]
  have hpos : 0 < ∏ i, L i i := Finset.prod_pos fun i _ => h.pos i
  rw [hdet, Real.log_mul hpos.ne' hpos.ne', Real.log_prod fun i _ => (h.pos i).ne']
  ring

/-- C196. What the user gives is used as it is given: proportions, means, and full or tied
precisions, for which the first log-probabilities are the normal densities with these precisions. -/
theorem C196_given {W : Type} (chol : Mat p → Mat p) (est : W × (Fin K → Fin p → ℝ) × Cov K p)
    (w : Option W) (m : Option (Fin K → Fin p → ℝ)) (P : Cov K p)
    (hP : match P with | .full _ => Positive chol P | .tied _ => Positive chol P | _ => False)
    (f : Fin K → (Fin p → ℝ) → Fin p → ℝ) (k : Fin K) (x : Fin p → ℝ) :
    let r := initStart chol est ⟨w, m, some P⟩
    r.weights = w.getD est.1 ∧ r.means = m.getD est.2.1 ∧
    logProb r.chol r.means (f k) k x = logDensity (matOf P k) (m.getD est.2.1 k) (f k x) := by
  cases P with
  | full c =>
    refine ⟨rfl, rfl, ?_⟩
    exact logProb_density _ _ _ _ _ (c k) (hP k).prod (logDet_chol (hP k))
  | tied c =>
    refine ⟨rfl, rfl, ?_⟩
    exact logProb_density _ _ _ _ _ c hP.prod (logDet_chol hP)
  | diag c => exact hP.elim
  | spherical c => exact hP.elim

theorem cholMat_diag (c : Fin K → Fin p → ℝ) (k : Fin K) :
    cholMat (.diag c) k = diagonal (c k) := by
  ext i j
  by_cases h : i = j
  · subst h; simp [cholMat]
  · simp [cholMat, h]

theorem cholMat_spherical (c : Fin K → ℝ) (k : Fin K) :
    (cholMat (.spherical c) k : Mat p) = diagonal fun _ => c k := by
  ext i j
  by_cases h : i = j
  · subst h; simp [cholMat]
  · simp [cholMat, h]

theorem logDet_diagonal (d : Fin p → ℝ) (hd : ∀ i, 0 < d i) :
    ∑ i, Real.log (d i) = 1 / 2 * Real.log (diagonal fun i => d i * d i : Mat p).det := by
  rw [det_diagonal, Real.log_prod fun i _ => (mul_pos (hd i) (hd i)).ne', Finset.mul_sum]
  refine Finset.sum_congr rfl fun i _ => ?_
  rw [Real.log_mul (hd i).ne' (hd i).ne']
  ring

/-- C196 (violation). Diagonal precisions given by the user are used as factors: the first
log-probabilities are the densities for the squares of the precisions, and at the mean they differ
from the right ones whenever the product of the precisions is not one. -/
theorem C196_violated_diag {W : Type} (chol : Mat p → Mat p)
    (est : W × (Fin K → Fin p → ℝ) × Cov K p) (w : Option W) (m : Fin K → Fin p → ℝ)
    (c : Fin K → Fin p → ℝ) (hc : ∀ k i, 0 < c k i) (k : Fin K) :
    let r := initStart chol est ⟨w, some m, some (.diag c)⟩
    (∀ x, logProb r.chol r.means id k x =
      logDensity (diagonal fun i => c k i * c k i) (m k) x) ∧
    (∏ i, c k i ≠ 1 → logProb r.chol r.means id k (m k) ≠ logDensity (diagonal (c k)) (m k) (m k)) := by
  intro r
  have key : ∀ x, logProb r.chol r.means id k x =
      logDensity (diagonal fun i => c k i * c k i) (m k) x := by
    intro x
    refine logProb_density _ _ _ _ _ _ ?_ (logDet_diagonal (c k) (hc k))
    change cholMat (.diag c) k * (cholMat (.diag c) k)ᵀ = _
    rw [cholMat_diag, diagonal_transpose, diagonal_mul_diagonal]
  refine ⟨key, fun hne heq => hne ?_⟩
  rw [key] at heq
  have hpos : 0 < ∏ i, c k i := Finset.prod_pos fun i _ => hc k i
  simp only [logDensity, det_diagonal, Finset.prod_mul_distrib] at heq
  rw [Real.log_mul hpos.ne' hpos.ne'] at heq
  have h0 : Real.log (∏ i, c k i) = 0 := by
    simp only [sub_self, zero_dotProduct] at heq
    linarith
  rcases Real.log_eq_zero.mp h0 with h | h | h
  · exact absurd h hpos.ne'
  · exact h
  · linarith

/-- C196 (violation). The same with one precision for each unit. -/
theorem C196_violated_spherical {W : Type} (chol : Mat p → Mat p)
    (est : W × (Fin K → Fin p → ℝ) × Cov K p) (w : Option W) (m : Fin K → Fin p → ℝ)
    (c : Fin K → ℝ) (hc : ∀ k, 0 < c k) (k : Fin K) (x : Fin p → ℝ) :
    let r := initStart chol est ⟨w, some m, some (.spherical c)⟩
    logProb r.chol r.means id k x = logDensity (diagonal fun _ => c k * c k) (m k) x := by
  intro r
  refine logProb_density _ _ _ _ _ _ ?_ ?_
  · change cholMat (.spherical c) k * (cholMat (.spherical c) k)ᵀ = _
    rw [cholMat_spherical, diagonal_transpose, diagonal_mul_diagonal]
  · have := logDet_diagonal (p := p) (fun _ => c k) fun _ => hc k
    rw [← this]
    change (p : ℝ) * Real.log (c k) = _
    simp

theorem chol_unit {P L : Mat p} (h : IsChol P L) : IsUnit L.det := by
  rw [det_lower h.lower]
  exact (Finset.prod_pos fun i _ => h.pos i).ne'.isUnit

theorem inv_chol_sq {P L : Mat p} (h : IsChol P L) : (L⁻¹)ᵀ * ((L⁻¹)ᵀ)ᵀ = P⁻¹ := by
  rw [transpose_transpose, ← h.prod, Matrix.mul_inv_rev, transpose_nonsing_inv]

theorem inv_chol_diag {P L : Mat p} (h : IsChol P L) (i : Fin p) : L⁻¹ i i = 1 / L i i := by
  have hu := chol_unit h
  let _ := L.invertibleOfIsUnitDet hu
  have hb : BlockTriangular L OrderDual.toDual := fun i j hij => h.lower i j (by simpa using hij)
  have hi : BlockTriangular L⁻¹ OrderDual.toDual := blockTriangular_inv_of_blockTriangular hb
  have h1 : (L * L⁻¹) i i = 1 := by rw [Matrix.mul_nonsing_inv _ hu]; simp
  rw [Matrix.mul_apply, Finset.sum_eq_single i] at h1
  · have := (h.pos i).ne'
    field_simp
    linarith
  · intro j _ hj
    rcases lt_or_gt_of_ne hj with hlt | hlt
    · rw [hi (show OrderDual.toDual i < OrderDual.toDual j from hlt), mul_zero]
    · rw [h.lower i j hlt, zero_mul]
  · simp

theorem logDet_inv {P L : Mat p} (h : IsChol P L) :
    ∑ i, Real.log ((L⁻¹)ᵀ i i) = 1 / 2 * Real.log (P⁻¹).det := by
  have h2 : Real.log (P⁻¹).det = -Real.log P.det := by
    rw [Matrix.det_nonsing_inv, Ring.inverse_eq_inv', Real.log_inv]
  rw [h2, mul_neg, ← logDet_chol h, ← Finset.sum_neg_distrib]
  refine Finset.sum_congr rfl fun i _ => ?_
  rw [transpose_apply, inv_chol_diag h, one_div, Real.log_inv]

theorem diagonal_inv_pos (d : Fin p → ℝ) (hd : ∀ i, 0 < d i) :
    (diagonal fun i => 1 / Real.sqrt (d i) * (1 / Real.sqrt (d i)) : Mat p) = (diagonal d)⁻¹ := by
  symm
  apply Matrix.inv_eq_right_inv
  rw [diagonal_mul_diagonal, ← diagonal_one]
  congr 1
  funext i
  have h := Real.mul_self_sqrt (hd i).le
  have h0 := (Real.sqrt_pos.mpr (hd i)).ne'
  field_simp
  rw [sq, h]

/-- The factor of the precisions is one of the inverses, for every type of covariance. -/
theorem precisionChol_density (chol : Mat p → Mat p) (C : Cov K p) (hC : Positive chol C)
    (means : Fin K → Fin p → ℝ) (f : (Fin p → ℝ) → Fin p → ℝ) (k : Fin K) (x : Fin p → ℝ) :
    logProb (precisionChol chol C) means f k x = logDensity (matOf C k)⁻¹ (means k) (f x) := by
  cases C with
  | full c => exact logProb_density _ _ _ _ _ _ (inv_chol_sq (hC k)) (logDet_inv (hC k))
  | tied c => exact logProb_density _ _ _ _ _ _ (inv_chol_sq hC) (logDet_inv hC)
  | diag c =>
    have hC : ∀ k i, 0 < c k i := hC
    have hs : ∀ i, 0 < 1 / Real.sqrt (c k i) := fun i => one_div_pos.mpr (Real.sqrt_pos.mpr (hC k i))
    refine logProb_density _ _ _ _ _ _ ?_ ?_
    · change cholMat (.diag fun k i => 1 / Real.sqrt (c k i)) k *
        (cholMat (.diag fun k i => 1 / Real.sqrt (c k i)) k)ᵀ = (diagonal (c k))⁻¹
      rw [cholMat_diag, diagonal_transpose, diagonal_mul_diagonal, diagonal_inv_pos _ (hC k)]
    · change _ = 1 / 2 * Real.log ((diagonal (c k))⁻¹).det
      rw [← diagonal_inv_pos _ (hC k), ← logDet_diagonal _ hs]
      rfl
  | spherical c =>
    have hC : ∀ k, 0 < c k := hC
    have hs : ∀ _ : Fin p, 0 < 1 / Real.sqrt (c k) := fun _ => one_div_pos.mpr (Real.sqrt_pos.mpr (hC k))
    have hi := diagonal_inv_pos (p := p) (fun _ => c k) fun _ => hC k
    refine logProb_density _ _ _ _ _ _ ?_ ?_
    · change cholMat (.spherical fun k => 1 / Real.sqrt (c k)) k *
        (cholMat (.spherical fun k => 1 / Real.sqrt (c k)) k)ᵀ = (diagonal fun _ => c k)⁻¹
      rw [cholMat_spherical, diagonal_transpose, diagonal_mul_diagonal, hi]
    · change _ = 1 / 2 * Real.log ((diagonal fun _ => c k : Mat p)⁻¹).det
      rw [← hi, ← logDet_diagonal _ hs]
      change (p : ℝ) * Real.log (1 / Real.sqrt (c k)) = _
      simp

/-- C196. Without precisions of the user the first log-probabilities are the normal densities whose
covariances are the estimated ones, for every type of covariance. -/
theorem C196_estimated {W : Type} (chol : Mat p → Mat p)
    (est : W × (Fin K → Fin p → ℝ) × Cov K p) (hC : Positive chol est.2.2)
    (w : Option W) (m : Option (Fin K → Fin p → ℝ))
    (f : Fin K → (Fin p → ℝ) → Fin p → ℝ) (k : Fin K) (x : Fin p → ℝ) :
    let r := initStart chol est ⟨w, m, none⟩
    r.weights = w.getD est.1 ∧ r.means = m.getD est.2.1 ∧ r.covariances = some est.2.2 ∧
    logProb r.chol r.means (f k) k x =
      logDensity (matOf est.2.2 k)⁻¹ (m.getD est.2.1 k) (f k x) :=
  ⟨rfl, rfl, rfl, precisionChol_density _ _ hC _ _ _ _⟩

/-- C196 (violation). With precisions of the user no covariances are set. -/
theorem C196_violated_covariances {W : Type} (chol : Mat p → Mat p)
    (est : W × (Fin K → Fin p → ℝ) × Cov K p) (w : Option W) (m : Option (Fin K → Fin p → ℝ))
    (P : Cov K p) : (initStart chol est ⟨w, m, some P⟩).covariances = none := by
  cases P <;> rfl

theorem matOf_square (chol : Mat p → Mat p) (C : Cov K p) (hC : Positive chol C) (k : Fin K) :
    matOf (squareOf (precisionChol chol C)) k = (matOf C k)⁻¹ := by
  cases C with
  | full c => exact inv_chol_sq (hC k)
  | tied c => exact inv_chol_sq hC
  | diag c =>
    have hC : ∀ k i, 0 < c k i := hC
    change diagonal (fun i => (1 / Real.sqrt (c k i)) ^ 2) = (diagonal (c k))⁻¹
    rw [← diagonal_inv_pos _ (hC k)]
    simp only [sq]
  | spherical c =>
    have hC : ∀ k, 0 < c k := hC
    change diagonal (fun _ => (1 / Real.sqrt (c k)) ^ 2) = (diagonal fun _ => c k)⁻¹
    rw [← diagonal_inv_pos _ fun _ => hC k]
    simp only [sq]

/-- C196. After covariances are set by hand, computing the precisions makes them the inverses, keeps
the covariances, and the log-probabilities are those of the covariances. -/
theorem C196_precisions (chol : Mat p → Mat p) (F : Fitted K p) (hC : Positive chol F.covariances)
    (means : Fin K → Fin p → ℝ) (f : (Fin p → ℝ) → Fin p → ℝ) (k : Fin K) (x : Fin p → ℝ) :
    let r := F.computePrecisions chol
    r.covariances = F.covariances ∧ matOf r.precisions k = (matOf F.covariances k)⁻¹ ∧
    logProb r.precisionsChol means f k x =
      logDensity (matOf F.covariances k)⁻¹ (means k) (f x) :=
  ⟨rfl, matOf_square _ _ hC k, precisionChol_density _ _ hC _ _ _ _⟩

theorem matOf_unit (chol : Mat p → Mat p) (C : Cov K p) (hC : Positive chol C) (k : Fin K) :
    IsUnit (matOf C k).det := by
  have aux : ∀ P L : Mat p, IsChol P L → IsUnit P.det := fun P L h => by
    rw [← h.prod, det_mul, det_transpose]
    exact (chol_unit h).mul (chol_unit h)
  cases C with
  | full c => exact aux _ _ (hC k)
  | tied c => exact aux _ _ hC
  | diag c =>
    have hC : ∀ k i, 0 < c k i := hC
    rw [matOf, det_diagonal]
    exact (Finset.prod_pos fun i _ => hC k i).ne'.isUnit
  | spherical c =>
    have hC : ∀ k, 0 < c k := hC
    rw [matOf, det_diagonal]
    exact (Finset.prod_pos fun _ _ => hC k).ne'.isUnit

/-- C196. After precisions are set by hand, computing the covariances makes them the inverses, keeps
the precisions, and the log-probabilities are those of the precisions. -/
theorem C196_covariances (chol : Mat p → Mat p) (F : Fitted K p) (hP : Positive chol F.precisions)
    (hV : Positive chol (squareOf (precisionChol chol F.precisions)))
    (means : Fin K → Fin p → ℝ) (f : (Fin p → ℝ) → Fin p → ℝ) (k : Fin K) (x : Fin p → ℝ) :
    let r := F.computeCovariances chol
    r.precisions = F.precisions ∧ matOf r.covariances k = (matOf F.precisions k)⁻¹ ∧
    logProb r.precisionsChol means f k x =
      logDensity (matOf F.precisions k) (means k) (f x) := by
  refine ⟨rfl, matOf_square _ _ hP k, ?_⟩
  have h := precisionChol_density chol _ hV means f k x
  rw [matOf_square _ _ hP, Matrix.nonsing_inv_nonsing_inv _ (matOf_unit _ _ hP k)] at h
  exact h

/-- C196. The two computations undo each other: precisions, covariances, and precisions again. -/
theorem C196_roundtrip (chol : Mat p → Mat p) (F : Fitted K p) (hP : Positive chol F.precisions)
    (hV : Positive chol (squareOf (precisionChol chol F.precisions))) (k : Fin K) :
    matOf ((F.computeCovariances chol).computePrecisions chol).precisions k =
      matOf F.precisions k := by
  change matOf (squareOf (precisionChol chol (squareOf (precisionChol chol F.precisions)))) k = _
  rw [matOf_square _ _ hV, matOf_square _ _ hP,
    Matrix.nonsing_inv_nonsing_inv _ (matOf_unit _ _ hP k)]

/-! ### Cases that meet the hypotheses -/

/-- Two proportions. -/
example : checkWeights 2 7 (.shared [1 / 4, 3 / 4]) = .ok (.shared [1 / 4, 3 / 4]) :=
  (C196_weights 2 7 [1 / 4, 3 / 4] []).1 ⟨rfl, by norm_num, by norm_num⟩

/-- Proportions that do not sum to one. -/
example : checkWeights 2 7 (.shared [1 / 4, 1 / 4]) = .error .valueError :=
  (C196_weights 2 7 [1 / 4, 1 / 4] []).2.1 (by
    rintro ⟨-, -, h⟩
    norm_num [abs_le] at h)

/-- A matrix that is not diagonal, with its factor. -/
theorem chol_example : IsChol (!![4, 2; 2, 10] : Mat 2) !![2, 0; 1, 3] where
  lower := by intro i j h; fin_cases i <;> fin_cases j <;> simp_all
  pos := by intro i; fin_cases i <;> simp
  prod := by ext i j; fin_cases i <;> fin_cases j <;> simp [Matrix.mul_apply, Fin.sum_univ_two] <;> norm_num

example : Positive (K := 3) (fun _ => !![2, 0; 1, 3]) (.tied (!![4, 2; 2, 10] : Mat 2)) := chol_example

/-- Both conditions of the covariances hold for numbers for each unit, whatever the factorization. -/
example (chol : Mat 2 → Mat 2) :
    Positive (K := 3) chol (.diag fun k i => (k : ℝ) + i + 1) ∧
    Positive (K := 3) chol (squareOf (precisionChol chol (.diag fun k i => (k : ℝ) + i + 1))) := by
  have h : ∀ (k : Fin 3) (i : Fin 2), (0 : ℝ) < (k : ℝ) + i + 1 := fun k i => by positivity
  refine ⟨h, fun k i => ?_⟩
  have := Real.sqrt_pos.mpr (h k i)
  positivity

/-- Precisions 2 and 3 do not multiply to one. -/
example : ∏ i : Fin 2, (![2, 3] : Fin 2 → ℝ) i ≠ 1 := by
  simp [Fin.prod_univ_two]; norm_num

end Props
end Verif.Utils.GMMStart
