import Mathlib.Algebra.BigOperators.Fin
import Mathlib.Algebra.BigOperators.Field
import Mathlib.Algebra.Order.BigOperators.Ring.Finset
import Mathlib.Algebra.Order.BigOperators.Group.Finset
import Mathlib.Data.Matrix.Mul
import Mathlib.Data.Real.Basic
import Mathlib.Tactic.FieldSimp
import Mathlib.Tactic.FinCases
import Mathlib.Tactic.Linarith
import Mathlib.Tactic.NormNum
import Mathlib.Tactic.Positivity
import Mathlib.Tactic.Ring
import Verif.Basic

/-! Model of the M steps of the mixtures of `simpeg/utils/pgi_utils.py` (352-439 without, 1466-1500 and
1572-1596 with nonlinear relationships), for C192: means, covariances and proportions of the units from
samples, cell volumes and responsibilities. Real arithmetic; `K` units, `p` physical properties. -/

noncomputable section
namespace Verif
namespace GMMEstimate
open Matrix

variable {n K p : ℕ}

/-- The samples of the M step: cell volumes (`cell_volumes`), the physical properties of the cells, and
their responsibilities `np.exp(log_resp)`. -/
structure Samples (n K p : ℕ) where
  vol : Fin n → ℝ
  X : Fin n → Fin p → ℝ
  resp : Fin n → Fin K → ℝ

/-- The numbers of the estimator: `eps` is `10 * np.finfo(resp.dtype).eps`, `reg` is `reg_covar`. -/
structure Consts where
  eps : ℝ
  reg : ℝ

/-- `respVol[c, k]` (`simpeg/utils/pgi_utils.py` 430 and 1474). -/
def respVol (s : Samples n K p) (k : Fin K) (c : Fin n) : ℝ := s.vol c * s.resp c k

/-- `nk[k]` (431 and 1475). -/
def nk (q : Consts) (s : Samples n K p) (k : Fin K) : ℝ := ∑ c, respVol s k c + q.eps

/-- Row `k` of `np.dot(respVol.T, Y) / nk[:, np.newaxis]` (432; 1477 and 1486-1488). -/
def meanOf (q : Consts) (s : Samples n K p) (Y : Fin n → Fin p → ℝ) (k : Fin K) : Fin p → ℝ :=
  fun i => (∑ c, respVol s k c * Y c i) / nk q s k

/-- Entry `k` of `_estimate_gaussian_covariances_full(respVol, Y, nk, means, reg_covar)` of
scikit-learn (called at 434 and 1492). -/
def covFull (q : Consts) (s : Samples n K p) (Y : Fin n → Fin p → ℝ) (mean : Fin K → Fin p → ℝ)
    (k : Fin K) : Matrix (Fin p) (Fin p) ℝ := fun i j =>
  (∑ c, respVol s k c * (Y c i - mean k i) * (Y c j - mean k j)) / nk q s k + if i = j then q.reg else 0

/-- Entry `k` of `_estimate_gaussian_covariances_diag` of scikit-learn (called at 436 and 1494). -/
def covDiag (q : Consts) (s : Samples n K p) (Y : Fin n → Fin p → ℝ) (mean : Fin K → Fin p → ℝ)
    (k : Fin K) : Fin p → ℝ := fun i =>
  (∑ c, respVol s k c * (Y c i * Y c i)) / nk q s k - mean k i ^ 2 + q.reg

/-- Entry `k` of `_estimate_gaussian_covariances_spherical` of scikit-learn (called at 437 and 1495): the
mean of the diagonal ones. -/
def covSpherical (q : Consts) (s : Samples n K p) (Y : Fin n → Fin p → ℝ) (mean : Fin K → Fin p → ℝ)
    (k : Fin K) : ℝ := (∑ i, covDiag q s Y mean k i) / p

/-- `_estimate_gaussian_covariances_tied(respVol, Y, nk, means, reg_covar)`
(`simpeg/utils/pgi_utils.py` 379-402). -/
def covTied (q : Consts) (s : Samples n K p) (Y : Fin n → Fin p → ℝ) (mean : Fin K → Fin p → ℝ) :
    Matrix (Fin p) (Fin p) ℝ := fun i j =>
  (∑ c, s.vol c * Y c i * Y c j - ∑ k, nk q s k * mean k i * mean k j) / ∑ k, nk q s k
    + if i = j then q.reg else 0

/-- `covariance_type`. -/
inductive CovType where
  | full | tied | diag | spherical
  deriving DecidableEq

/-- `covariances_`, whose shape depends on the type. -/
inductive Cov (K p : ℕ) where
  | full (C : Fin K → Matrix (Fin p) (Fin p) ℝ)
  | tied (C : Matrix (Fin p) (Fin p) ℝ)
  | diag (C : Fin K → Fin p → ℝ)
  | spherical (C : Fin K → ℝ)

/-- `means_` and `covariances_`. -/
structure Params (K p : ℕ) where
  means : Fin K → Fin p → ℝ
  cov : Cov K p

/-- `WeightedGaussianMixture._estimate_gaussian_parameters` (`simpeg/utils/pgi_utils.py` 404-439),
without `nk`. -/
def estimate (q : Consts) (ct : CovType) (s : Samples n K p) : Params K p :=
  let means := meanOf q s s.X
  { means := means
    cov := match ct with
      | .full => .full (covFull q s s.X means)
      | .tied => .tied (covTied q s s.X means)
      | .diag => .diag (covDiag q s s.X means)
      | .spherical => .spherical (covSpherical q s s.X means) }

/-- `self.cluster_mapping[k] * X`, cell by cell. -/
def mapped (f : Fin K → (Fin p → ℝ) → Fin p → ℝ) (s : Samples n K p) (k : Fin K) :
    Fin n → Fin p → ℝ := fun c => f k (s.X c)

/-- The means with relationships (`simpeg/utils/pgi_utils.py` 1485-1488 and 1810-1813). -/
def meansNl (q : Consts) (f : Fin K → (Fin p → ℝ) → Fin p → ℝ) (s : Samples n K p) :
    Fin K → Fin p → ℝ := fun k => meanOf q s (mapped f s k) k

/-- `_estimate_gaussian_parameters` of the classes with nonlinear relationships
(`simpeg/utils/pgi_utils.py` 1466-1500 and 1795-1825), without `nk`. The estimate is made first without
the mappings, then its entries `k` are replaced: for a tied covariance the entry `k` is the *row* `k` of
the matrix, and an index past the last row raises IndexError. -/
def estimateNl (q : Consts) (ct : CovType) (f : Fin K → (Fin p → ℝ) → Fin p → ℝ)
    (s : Samples n K p) : Except Err (Params K p) :=
  let means := meansNl q f s
  match ct with
  | .full => .ok ⟨means, .full fun k => covFull q s (mapped f s k) means k⟩
  | .diag => .ok ⟨means, .diag fun k => covDiag q s (mapped f s k) means k⟩
  | .spherical => .ok ⟨means, .spherical fun k => covSpherical q s (mapped f s k) means k⟩
  | .tied =>
    if p < K then .error .indexError
    else .ok ⟨means, .tied fun i =>
      if h : (i : ℕ) < K then covTied q s (mapped f s ⟨i, h⟩) means i
      else covTied q s s.X (meanOf q s s.X) i⟩

/-- `weights_`: one proportion per unit, or a row for each cell. -/
inductive Weights (n K : ℕ) where
  | shared (w : Fin K → ℝ)
  | perCell (w : Fin n → Fin K → ℝ)

/-- The proportions after `WeightedGaussianMixture._m_step` (`simpeg/utils/pgi_utils.py` 366-377). -/
def stepWeights (q : Consts) (s : Samples n K p) : Weights n K → Weights n K
  | .shared _ => .shared fun k => nk q s k / (n * ((∑ c, s.vol c) / n))
  | .perCell w => .perCell w

/-- The proportions after `_m_step` with nonlinear relationships (`simpeg/utils/pgi_utils.py` 1585-1593
and 1840-1848). -/
def stepWeightsNl (q : Consts) (s : Samples n K p) (_ : Weights n K) : Weights n K :=
  .shared fun k => nk q s k / n

/-- The bound of `_e_step` (`simpeg/utils/pgi_utils.py` 459-460) and `score` (481): the average of the
logarithms of the densities `l` of the samples. -/
def bound (s : Samples n K p) (l : (Fin p → ℝ) → ℝ) : ℝ :=
  (∑ c, l (s.X c) * s.vol c) / ∑ c, s.vol c

/-! ### Specification -/

/-- The same ground on two meshes: each cell of the second lies in the cell `φ` of the first, with the
same physical properties and responsibilities, and the pieces of a cell fill it. -/
structure Refines {m : ℕ} (t : Samples m K p) (s : Samples n K p) (φ : Fin m → Fin n) : Prop where
  vol : ∀ c, ∑ d with φ d = c, t.vol d = s.vol c
  X : ∀ d, t.X d = s.X (φ d)
  resp : ∀ d, t.resp d = s.resp (φ d)

/-- Volumes and responsibilities of an estimate: not negative, responsibilities of a cell with sum one. -/
structure Valid (q : Consts) (s : Samples n K p) : Prop where
  eps : 0 < q.eps
  vol : ∀ c, 0 ≤ s.vol c
  resp : ∀ c k, 0 ≤ s.resp c k
  one : ∀ c, ∑ k, s.resp c k = 1

/-- A covariance matrix at least the regularization: symmetric, with `vᵀ C v ≥ reg ‖v‖²`. -/
def AtLeast (reg : ℝ) (C : Matrix (Fin p) (Fin p) ℝ) : Prop :=
  (∀ i j, C i j = C j i) ∧ ∀ v : Fin p → ℝ, reg * ∑ i, v i ^ 2 ≤ v ⬝ᵥ C *ᵥ v

/-! ### Auxiliary facts -/

theorem nk_pos {q : Consts} {s : Samples n K p} (h : Valid q s) (k : Fin K) : 0 < nk q s k := by
  have : 0 ≤ ∑ c, respVol s k c :=
    Finset.sum_nonneg fun c _ => mul_nonneg (h.vol c) (h.resp c k)
  have := h.eps
  unfold nk
  linarith

theorem sum_le_nk {q : Consts} {s : Samples n K p} (h : Valid q s) (k : Fin K) :
    ∑ c, respVol s k c ≤ nk q s k := by
  have := h.eps
  unfold nk
  linarith

/-- `nk` times the square of a mean is at most the mean square (Cauchy and Schwarz). -/
theorem cauchy {q : Consts} {s : Samples n K p} (h : Valid q s) (k : Fin K) (y : Fin n → ℝ) :
    nk q s k * ((∑ c, respVol s k c * y c) / nk q s k) ^ 2 ≤ ∑ c, respVol s k c * y c ^ 2 := by
  have hr : ∀ c, 0 ≤ respVol s k c := fun c => mul_nonneg (h.vol c) (h.resp c k)
  have hp := nk_pos h k
  have h1 : (∑ c, respVol s k c * y c) ^ 2 ≤
      (∑ c, respVol s k c) * ∑ c, respVol s k c * y c ^ 2 := by
    apply Finset.sum_sq_le_sum_mul_sum_of_sq_eq_mul
    · exact fun c _ => hr c
    · exact fun c _ => mul_nonneg (hr c) (sq_nonneg _)
    · intro c _; ring
  have h2 : 0 ≤ ∑ c, respVol s k c * y c ^ 2 :=
    Finset.sum_nonneg fun c _ => mul_nonneg (hr c) (sq_nonneg _)
  have h3 := mul_le_mul_of_nonneg_right (sum_le_nk h k) h2
  have h4 : nk q s k * ((∑ c, respVol s k c * y c) / nk q s k) ^ 2 =
      (∑ c, respVol s k c * y c) ^ 2 / nk q s k := by
    field_simp
  rw [h4, div_le_iff₀ hp]
  linarith

theorem refine_sum {m : ℕ} {t : Samples m K p} {s : Samples n K p} {φ : Fin m → Fin n}
    (h : Refines t s φ) (g : Fin n → ℝ) : ∑ d, t.vol d * g (φ d) = ∑ c, s.vol c * g c := by
  rw [← Finset.sum_fiberwise (s := Finset.univ) (g := φ)]
  refine Finset.sum_congr rfl fun c _ => ?_
  rw [← h.vol c, Finset.sum_mul]
  refine Finset.sum_congr rfl fun d hd => ?_
  rw [(Finset.mem_filter.1 hd).2]

theorem refine_resp {m : ℕ} {t : Samples m K p} {s : Samples n K p} {φ : Fin m → Fin n}
    (h : Refines t s φ) (k : Fin K) (g : Fin n → ℝ) :
    ∑ d, respVol t k d * g (φ d) = ∑ c, respVol s k c * g c := by
  have := refine_sum h fun c => s.resp c k * g c
  simp only [respVol, h.resp]
  calc _ = ∑ d, t.vol d * (s.resp (φ d) k * g (φ d)) :=
        Finset.sum_congr rfl fun d _ => by ring
    _ = _ := this
    _ = _ := Finset.sum_congr rfl fun d _ => by ring

theorem refine_nk {m : ℕ} {t : Samples m K p} {s : Samples n K p} {φ : Fin m → Fin n}
    (h : Refines t s φ) (q : Consts) : nk q t = nk q s := by
  funext k
  have := refine_resp h k fun _ => 1
  simp only [mul_one] at this
  simp [nk, this]

theorem refine_mean {m : ℕ} {t : Samples m K p} {s : Samples n K p} {φ : Fin m → Fin n}
    (h : Refines t s φ) (q : Consts) (Y : Fin n → Fin p → ℝ) :
    meanOf q t (fun d => Y (φ d)) = meanOf q s Y := by
  funext k i
  simp only [meanOf, refine_nk h q]
  rw [refine_resp h k fun c => Y c i]

theorem refine_full {m : ℕ} {t : Samples m K p} {s : Samples n K p} {φ : Fin m → Fin n}
    (h : Refines t s φ) (q : Consts) (Y : Fin n → Fin p → ℝ) (mean : Fin K → Fin p → ℝ) :
    covFull q t (fun d => Y (φ d)) mean = covFull q s Y mean := by
  funext k i j
  have := refine_resp h k fun c => (Y c i - mean k i) * (Y c j - mean k j)
  simp only [← mul_assoc] at this
  simp only [covFull, refine_nk h q, this]

theorem refine_diag {m : ℕ} {t : Samples m K p} {s : Samples n K p} {φ : Fin m → Fin n}
    (h : Refines t s φ) (q : Consts) (Y : Fin n → Fin p → ℝ) (mean : Fin K → Fin p → ℝ) :
    covDiag q t (fun d => Y (φ d)) mean = covDiag q s Y mean := by
  funext k i
  simp only [covDiag, refine_nk h q, refine_resp h k fun c => Y c i * Y c i]

theorem refine_tied {m : ℕ} {t : Samples m K p} {s : Samples n K p} {φ : Fin m → Fin n}
    (h : Refines t s φ) (q : Consts) (Y : Fin n → Fin p → ℝ) (mean : Fin K → Fin p → ℝ) :
    covTied q t (fun d => Y (φ d)) mean = covTied q s Y mean := by
  funext i j
  have := refine_sum h fun c => Y c i * Y c j
  simp only [← mul_assoc] at this
  simp only [covTied, refine_nk h q, this]

theorem reg_quad (r : ℝ) (v : Fin p → ℝ) :
    ∑ i, v i * ∑ j, (if i = j then r else 0) * v j = r * ∑ i, v i ^ 2 := by
  rw [Finset.mul_sum]
  refine Finset.sum_congr rfl fun i _ => ?_
  simp only [ite_mul, zero_mul, Finset.sum_ite_eq, Finset.mem_univ, if_true]
  ring

/-- `Σ_ij v_i (Σ_c w_c a_ci a_cj) v_j = Σ_c w_c (a_c · v)²`. -/
theorem quad_sum {ι : Type} [Fintype ι] (w : ι → ℝ) (a : ι → Fin p → ℝ) (v : Fin p → ℝ) :
    ∑ i, v i * ∑ j, (∑ c, w c * a c i * a c j) * v j = ∑ c, w c * (∑ i, a c i * v i) ^ 2 := by
  have h : ∀ c, w c * (∑ i, a c i * v i) ^ 2 = ∑ i, ∑ j, v i * (w c * a c i * a c j * v j) := by
    intro c
    rw [sq, Finset.sum_mul_sum, Finset.mul_sum]
    refine Finset.sum_congr rfl fun i _ => ?_
    rw [Finset.mul_sum]
    exact Finset.sum_congr rfl fun j _ => by ring
  simp only [h]
  rw [Finset.sum_comm]
  refine Finset.sum_congr rfl fun i _ => ?_
  rw [Finset.sum_comm, Finset.mul_sum]
  refine Finset.sum_congr rfl fun j _ => ?_
  rw [Finset.sum_mul, Finset.mul_sum]

theorem full_atLeast {q : Consts} {s : Samples n K p} (h : Valid q s) (Y : Fin n → Fin p → ℝ)
    (mean : Fin K → Fin p → ℝ) (k : Fin K) : AtLeast q.reg (covFull q s Y mean k) := by
  constructor
  · intro i j
    simp only [covFull, eq_comm (a := i) (b := j)]
    congr 2
    exact Finset.sum_congr rfl fun c _ => by ring
  · intro v
    have e : v ⬝ᵥ covFull q s Y mean k *ᵥ v =
        (∑ c, respVol s k c * (∑ i, (Y c i - mean k i) * v i) ^ 2) / nk q s k
          + q.reg * ∑ i, v i ^ 2 := by
      rw [← quad_sum, ← reg_quad]
      simp only [dotProduct, mulVec, covFull, add_mul, Finset.sum_add_distrib, mul_add,
        Finset.sum_div, Finset.mul_sum]
      congr 1
      refine Finset.sum_congr rfl fun i _ => Finset.sum_congr rfl fun j _ => ?_
      rw [Finset.sum_mul, Finset.sum_mul, Finset.mul_sum, Finset.mul_sum, Finset.sum_div]
      exact Finset.sum_congr rfl fun c _ => by ring
    rw [e]
    have : 0 ≤ (∑ c, respVol s k c * (∑ i, (Y c i - mean k i) * v i) ^ 2) / nk q s k :=
      div_nonneg (Finset.sum_nonneg fun c _ =>
        mul_nonneg (mul_nonneg (h.vol c) (h.resp c k)) (sq_nonneg _)) (nk_pos h k).le
    linarith

theorem diag_ge {q : Consts} {s : Samples n K p} (h : Valid q s) (Y : Fin n → Fin p → ℝ)
    (mean : Fin K → Fin p → ℝ) (k : Fin K) (hm : mean k = meanOf q s Y k) (i : Fin p) :
    q.reg ≤ covDiag q s Y mean k i := by
  have hp := nk_pos h k
  have := cauchy h k fun c => Y c i
  have h2 : mean k i ^ 2 ≤ (∑ c, respVol s k c * (Y c i * Y c i)) / nk q s k := by
    rw [le_div_iff₀ hp, hm]
    simp only [meanOf]
    simp only [← sq]
    linarith
  unfold covDiag
  linarith

theorem sph_ge {q : Consts} {s : Samples n K p} (h : Valid q s) (Y : Fin n → Fin p → ℝ)
    (mean : Fin K → Fin p → ℝ) (k : Fin K) (hm : mean k = meanOf q s Y k) (hp : 0 < p) :
    q.reg ≤ covSpherical q s Y mean k := by
  have hp' : (0 : ℝ) < p := by exact_mod_cast hp
  unfold covSpherical
  rw [le_div_iff₀ hp']
  calc q.reg * p = ∑ _i : Fin p, q.reg := by simp [mul_comm]
    _ ≤ _ := Finset.sum_le_sum fun i _ => diag_ge h Y mean k hm i

theorem tied_atLeast {q : Consts} {s : Samples n K p} (h : Valid q s) :
    AtLeast q.reg (covTied q s s.X (meanOf q s s.X)) := by
  constructor
  · intro i j
    simp only [covTied, eq_comm (a := i) (b := j)]
    congr 3
    · exact Finset.sum_congr rfl fun c _ => by ring
    · exact Finset.sum_congr rfl fun c _ => by ring
  · intro v
    have e : v ⬝ᵥ covTied q s s.X (meanOf q s s.X) *ᵥ v =
        (∑ c, s.vol c * (∑ i, s.X c i * v i) ^ 2
          - ∑ k, nk q s k * (∑ i, meanOf q s s.X k i * v i) ^ 2) / ∑ k, nk q s k
          + q.reg * ∑ i, v i ^ 2 := by
      rw [← quad_sum, ← quad_sum, ← reg_quad]
      simp only [dotProduct, mulVec, covTied, add_mul, Finset.sum_add_distrib, mul_add]
      congr 1
      rw [← Finset.sum_sub_distrib, Finset.sum_div]
      refine Finset.sum_congr rfl fun i _ => ?_
      rw [← mul_sub, ← Finset.sum_sub_distrib, mul_div_assoc, Finset.sum_div]
      congr 1
      exact Finset.sum_congr rfl fun j _ => by ring
    rw [e]
    have key : ∑ k, nk q s k * (∑ i, meanOf q s s.X k i * v i) ^ 2 ≤
        ∑ c, s.vol c * (∑ i, s.X c i * v i) ^ 2 := by
      calc _ ≤ ∑ k, ∑ c, respVol s k c * (∑ i, s.X c i * v i) ^ 2 := by
            refine Finset.sum_le_sum fun k _ => ?_
            have e2 : ∑ i, meanOf q s s.X k i * v i =
                (∑ c, respVol s k c * ∑ i, s.X c i * v i) / nk q s k := by
              simp only [meanOf, Finset.mul_sum, Finset.sum_div, Finset.sum_mul]
              rw [Finset.sum_comm]
              exact Finset.sum_congr rfl fun c _ => Finset.sum_congr rfl fun i _ => by ring
            rw [e2]
            exact cauchy h k fun c => ∑ i, s.X c i * v i
        _ = ∑ c, (∑ k, s.resp c k) * (s.vol c * (∑ i, s.X c i * v i) ^ 2) := by
            rw [Finset.sum_comm]
            refine Finset.sum_congr rfl fun c _ => ?_
            rw [Finset.sum_mul]
            exact Finset.sum_congr rfl fun k _ => by unfold respVol; ring
        _ = _ := Finset.sum_congr rfl fun c _ => by rw [h.one c, one_mul]
    have hn : 0 ≤ ∑ k, nk q s k := Finset.sum_nonneg fun k _ => (nk_pos h k).le
    have := div_nonneg (sub_nonneg.2 key) hn
    linarith

/-! ### Theorems -/

/-- The mean of a unit, times the volume it is responsible for (plus the small number that avoids a
division by zero), is the sum of the samples weighted by volume and responsibility; with relationships,
of the samples under the mapping of that unit. A bound of the samples around zero bounds the mean. -/
theorem C192_means (q : Consts) (f : Fin K → (Fin p → ℝ) → Fin p → ℝ) (s : Samples n K p)
    (h : Valid q s) (ct : CovType) (r : Params K p) (hr : estimateNl q ct f s = .ok r) :
    (∀ k i, r.means k i * (∑ c, s.vol c * s.resp c k + q.eps) =
      ∑ c, s.vol c * s.resp c k * f k (s.X c) i) ∧
    (∀ k i a b, a ≤ 0 → 0 ≤ b → (∀ c, a ≤ f k (s.X c) i ∧ f k (s.X c) i ≤ b) →
      a ≤ r.means k i ∧ r.means k i ≤ b) := by
  have hm : r.means = meansNl q f s := by
    cases ct <;> simp only [estimateNl] at hr
    · injection hr with hr; rw [← hr]
    · split at hr
      · cases hr
      · injection hr with hr; rw [← hr]
    · injection hr with hr; rw [← hr]
    · injection hr with hr; rw [← hr]
  have hw : ∀ k c, 0 ≤ respVol s k c := fun k c => mul_nonneg (h.vol c) (h.resp c k)
  refine ⟨fun k i => ?_, fun k i a b ha hb hx => ?_⟩
  · rw [hm]
    exact div_mul_cancel₀ _ (nk_pos h k).ne'
  · rw [hm]
    have hp := nk_pos h k
    have hs := sum_le_nk h k
    simp only [meansNl, meanOf, mapped]
    rw [le_div_iff₀ hp, div_le_iff₀ hp]
    have h1 : (∑ c, respVol s k c) * a ≤ ∑ c, respVol s k c * f k (s.X c) i := by
      rw [Finset.sum_mul]
      exact Finset.sum_le_sum fun c _ => mul_le_mul_of_nonneg_left (hx c).1 (hw k c)
    have h2 : ∑ c, respVol s k c * f k (s.X c) i ≤ (∑ c, respVol s k c) * b := by
      rw [Finset.sum_mul]
      exact Finset.sum_le_sum fun c _ => mul_le_mul_of_nonneg_left (hx c).2 (hw k c)
    constructor <;> nlinarith

/-- Without relationships, every estimated covariance is symmetric and at least the regularization,
whatever the samples; also the one shared by all units. -/
theorem C192_covariances (q : Consts) (s : Samples n K p) (h : Valid q s) (hp : 0 < p) :
    ∀ ct, match (estimate q ct s).cov with
      | .full C => ∀ k, AtLeast q.reg (C k)
      | .tied C => AtLeast q.reg C
      | .diag C => ∀ k i, q.reg ≤ C k i
      | .spherical C => ∀ k, q.reg ≤ C k
  | .full => fun k => full_atLeast h _ _ k
  | .tied => tied_atLeast h
  | .diag => fun k i => diag_ge h _ _ k rfl i
  | .spherical => fun k => sph_ge h _ _ k rfl hp

/-- With relationships the same, for the covariances of the units: the matrix, and for the full one the
scatter of the samples under the mapping of the unit around the mean of the unit. -/
theorem C192_relationships (q : Consts) (f : Fin K → (Fin p → ℝ) → Fin p → ℝ) (s : Samples n K p)
    (h : Valid q s) (hp : 0 < p) :
    (∃ m C, estimateNl q .full f s = .ok ⟨m, .full C⟩ ∧ (∀ k, AtLeast q.reg (C k)) ∧
      ∀ k i j, (C k i j - if i = j then q.reg else 0) * (∑ c, s.vol c * s.resp c k + q.eps) =
        ∑ c, s.vol c * s.resp c k * (f k (s.X c) i - m k i) * (f k (s.X c) j - m k j)) ∧
    (∃ m C, estimateNl q .diag f s = .ok ⟨m, .diag C⟩ ∧ (∀ k i, q.reg ≤ C k i) ∧
      ∀ k i, (C k i - q.reg + m k i ^ 2) * (∑ c, s.vol c * s.resp c k + q.eps) =
        ∑ c, s.vol c * s.resp c k * (f k (s.X c) i * f k (s.X c) i)) ∧
    (∃ m C D, estimateNl q .spherical f s = .ok ⟨m, .spherical C⟩ ∧
      estimateNl q .diag f s = .ok ⟨m, .diag D⟩ ∧
      ∀ k, q.reg ≤ C k ∧ C k * p = ∑ i, D k i) := by
  refine ⟨⟨_, _, rfl, fun k => full_atLeast h _ _ k, fun k i j => ?_⟩,
    ⟨_, _, rfl, fun k i => diag_ge h _ _ k rfl i, fun k i => ?_⟩,
    ⟨_, _, _, rfl, rfl, fun k => ⟨sph_ge h _ _ k rfl hp, ?_⟩⟩⟩
  · simp only [covFull, add_sub_cancel_right]
    exact div_mul_cancel₀ _ (nk_pos h k).ne'
  · have e : ∀ a b r : ℝ, a - b + r - r + b = a := fun a b r => by ring
    simp only [covDiag, e]
    exact div_mul_cancel₀ _ (nk_pos h k).ne'
  · exact div_mul_cancel₀ _ (by exact_mod_cast hp.ne')

/-- With identities for the relationships the estimate is the one without, when there are not more
units than properties or the covariance is not tied. -/
theorem C192_identity (q : Consts) (s : Samples n K p) (ct : CovType) (h : ct ≠ .tied ∨ K ≤ p) :
    estimateNl q ct (fun _ x => x) s = .ok (estimate q ct s) := by
  cases ct
  · rfl
  · have hk : ¬ p < K := by
      rcases h with h | h
      · exact absurd rfl h
      · omega
    simp only [estimateNl, if_neg hk, estimate]
    congr 3
    funext i
    split
    · rfl
    · rfl
  · rfl
  · rfl

/-- Splitting cells changes nothing: on a refined mesh with the same ground, means, covariances and the
likelihood are the same, with and without relationships. -/
theorem C192_refine {m : ℕ} (q : Consts) (t : Samples m K p) (s : Samples n K p) (φ : Fin m → Fin n)
    (h : Refines t s φ) (ct : CovType) :
    estimate q ct t = estimate q ct s ∧
    (∀ f, estimateNl q ct f t = estimateNl q ct f s) ∧ ∀ l, bound t l = bound s l := by
  have hX : t.X = fun d => s.X (φ d) := funext h.X
  have hM : meanOf q t t.X = meanOf q s s.X := by rw [hX]; exact refine_mean h q s.X
  refine ⟨?_, fun f => ?_, fun l => ?_⟩
  · cases ct
    · simp only [estimate, hM]; rw [hX, refine_full h]
    · simp only [estimate, hM]; rw [hX, refine_tied h]
    · simp only [estimate, hM]; rw [hX, refine_diag h]
    · have hS : covSpherical q t t.X (meanOf q s s.X) = covSpherical q s s.X (meanOf q s s.X) := by
        funext k
        rw [hX]
        simp only [covSpherical, refine_diag h q s.X]
      simp only [estimate, hM, hS]
  · have hY : ∀ k, mapped f t k = fun d => mapped f s k (φ d) := by
      intro k; funext d; simp only [mapped, h.X]
    have hN : meansNl q f t = meansNl q f s := by
      funext k
      simp only [meansNl, hY]
      rw [refine_mean h q (mapped f s k)]
    cases ct
    · simp only [estimateNl, hN, hY, refine_full h q (mapped f s _)]
    · simp only [estimateNl, hN, hM, hY, refine_tied h q (mapped f s _)]
      rw [hX, refine_tied h]
    · simp only [estimateNl, hN, hY, refine_diag h q (mapped f s _)]
    · simp only [estimateNl, hN, hY, covSpherical, refine_diag h q (mapped f s _)]
  · have h1 := refine_sum h fun c => l (s.X c)
    have h2 := refine_sum h fun _ => 1
    simp only [mul_one] at h2
    simp only [bound, h.X, h2]
    congr 1
    calc _ = ∑ d, t.vol d * l (s.X (φ d)) := Finset.sum_congr rfl fun d _ => mul_comm _ _
      _ = _ := h1
      _ = _ := Finset.sum_congr rfl fun d _ => mul_comm _ _

/-- Without relationships the proportions also stay, whatever they were; they are fractions of the volume
with sum one (up to the small number), and proportions of the cells are kept. -/
theorem C192_weights (q : Consts) (s : Samples n K p) (h : Valid q s) (hv : 0 < ∑ c, s.vol c)
    (w0 : Fin K → ℝ) :
    (∃ w, stepWeights q s (.shared w0) = .shared w ∧ (∀ k, 0 < w k) ∧
      (∀ k, w k * ∑ c, s.vol c = ∑ c, s.vol c * s.resp c k + q.eps) ∧
      ∑ k, w k = 1 + K * q.eps / ∑ c, s.vol c) ∧
    (∀ w, stepWeights q s (.perCell w) = .perCell w) ∧
    ∀ (m : ℕ) (t : Samples m K p) (φ : Fin m → Fin n) (u0 : Fin K → ℝ), Refines t s φ →
      ∀ w, stepWeights q t (.shared u0) = .shared w → stepWeights q s (.shared w0) = .shared w := by
  have hn : (n : ℝ) ≠ 0 := by
    rintro h0
    have : n = 0 := by exact_mod_cast h0
    subst this
    simp at hv
  have hd : (n : ℝ) * ((∑ c, s.vol c) / n) = ∑ c, s.vol c := by field_simp
  refine ⟨⟨_, rfl, fun k => ?_, fun k => ?_, ?_⟩, fun w => rfl, ?_⟩
  · rw [hd]; exact div_pos (nk_pos h k) hv
  · rw [hd]; exact div_mul_cancel₀ _ hv.ne'
  · simp only [hd]
    rw [← Finset.sum_div]
    have : ∑ k, nk q s k = ∑ c, s.vol c + K * q.eps := by
      simp only [nk, Finset.sum_add_distrib, respVol]
      rw [Finset.sum_comm]
      simp only [← Finset.mul_sum, h.one, mul_one, Finset.sum_const, Finset.card_univ,
        Fintype.card_fin, nsmul_eq_mul]
    rw [this, add_div, div_self hv.ne']
  · intro m t φ u0 hr w hw
    have hv' : ∑ d, t.vol d = ∑ c, s.vol c := by
      have := refine_sum hr fun _ => 1
      simpa using this
    have hm : (m : ℝ) ≠ 0 := by
      rintro h0
      have : m = 0 := by exact_mod_cast h0
      subst this
      rw [← hv'] at hv
      simp at hv
    have hd' : (m : ℝ) * ((∑ c, s.vol c) / m) = ∑ c, s.vol c := by field_simp
    simp only [stepWeights, refine_nk hr q, hv', hd', Weights.shared.injEq] at hw
    simp only [stepWeights, hd, Weights.shared.injEq]
    exact hw

/-- With relationships the proportions depend on the mesh: splitting cells into more cells divides them,
their sum is the mean volume of the cells, and proportions given for each cell are overwritten. -/
theorem C192_violated_weights (q : Consts) (s : Samples n K p) (h : Valid q s) (hn : 0 < n)
    (w0 : Weights n K) :
    (∃ w, stepWeightsNl q s w0 = .shared w ∧ ∑ k, w k = (∑ c, s.vol c + K * q.eps) / n) ∧
    (∀ w, stepWeightsNl q s w0 ≠ .perCell w) ∧
    ∀ (m : ℕ) (t : Samples m K p) (φ : Fin m → Fin n) (u0 : Weights m K), Refines t s φ → 0 < m →
      ∀ w u, stepWeightsNl q s w0 = .shared w → stepWeightsNl q t u0 = .shared u →
        ∀ k, u k = w k * (n / m) := by
  refine ⟨⟨_, rfl, ?_⟩, fun w => by simp [stepWeightsNl], ?_⟩
  · rw [← Finset.sum_div]
    congr 1
    simp only [nk, Finset.sum_add_distrib, respVol]
    rw [Finset.sum_comm]
    simp only [← Finset.mul_sum, h.one, mul_one, Finset.sum_const, Finset.card_univ,
      Fintype.card_fin, nsmul_eq_mul]
  · intro m t φ u0 hr hm w u hw hu k
    have hn' : (n : ℝ) ≠ 0 := by exact_mod_cast hn.ne'
    have hm' : (m : ℝ) ≠ 0 := by exact_mod_cast hm.ne'
    simp only [stepWeightsNl, Weights.shared.injEq] at hw hu
    rw [← hw, ← hu, refine_nk hr q]
    field_simp

/-- With relationships and a tied covariance, more units than properties raise IndexError, whatever the
samples and the relationships, also with identities, where the class without relationships gives an
estimate. -/
theorem C192_violated_units (q : Consts) (f : Fin K → (Fin p → ℝ) → Fin p → ℝ) (s : Samples n K p)
    (h : p < K) : estimateNl q .tied f s = .error .indexError := by
  simp [estimateNl, h]

/-- With relationships the rows of the tied covariance come from different mappings. -/
theorem C192_tied_rows (q : Consts) (f : Fin K → (Fin p → ℝ) → Fin p → ℝ) (s : Samples n K p)
    (h : K ≤ p) : ∃ m C, estimateNl q .tied f s = .ok ⟨m, .tied C⟩ ∧
      ∀ k : Fin K, ∀ j, (C (Fin.castLE h k) j - if Fin.castLE h k = j then q.reg else 0) =
        (∑ c, s.vol c * f k (s.X c) (Fin.castLE h k) * f k (s.X c) j
          - ∑ l, (∑ c, s.vol c * s.resp c l + q.eps) * m l (Fin.castLE h k) * m l j)
          / ∑ l, (∑ c, s.vol c * s.resp c l + q.eps) := by
  have hk : ¬ p < K := by omega
  refine ⟨_, _, by simp only [estimateNl, if_neg hk]; rfl, fun k j => ?_⟩
  have hlt : ((Fin.castLE h k : Fin p) : ℕ) < K := k.2
  have e : (⟨((Fin.castLE h k : Fin p) : ℕ), hlt⟩ : Fin K) = k := rfl
  simp only [dif_pos hlt, e, covTied, add_sub_cancel_right]
  rfl

/-- Two cells of volume one, the first of the first unit and the second of the second, with relationships
`x ↦ 0` and `x ↦ x`: the samples of the counterexample. -/
def twoCells (a : ℝ) : Samples 2 2 2 :=
  ⟨fun _ => 1, fun c _ => if c = 0 then 0 else a, fun c k => if c = k then 1 else 0⟩

theorem twoCells_valid (q : Consts) (h : 0 < q.eps) (a : ℝ) : Valid q (twoCells a) := by
  refine ⟨h, fun _ => zero_le_one, fun c k => ?_, fun c => ?_⟩
  · simp only [twoCells]; split <;> norm_num
  · fin_cases c <;> simp [twoCells]

theorem twoCells_nk (q : Consts) (a : ℝ) (k : Fin 2) : nk q (twoCells a) k = 1 + q.eps := by
  fin_cases k <;> simp [nk, respVol, twoCells]

/-- The tied covariance with relationships is not a covariance: for any regularization there are samples
for which its first diagonal entry is negative, and it is not symmetric. -/
theorem C192_violated_tied (q : Consts) (h : 0 < q.eps) (h1 : q.eps ≤ 1) (hr : 0 ≤ q.reg) :
    ∃ (s : Samples 2 2 2) (f : Fin 2 → (Fin 2 → ℝ) → Fin 2 → ℝ) (m : Fin 2 → Fin 2 → ℝ)
      (C : Matrix (Fin 2) (Fin 2) ℝ), Valid q s ∧
      estimateNl q .tied f s = .ok ⟨m, .tied C⟩ ∧ C 0 0 < 0 ∧ C 0 1 ≠ C 1 0 := by
  have he : 0 < 1 + q.eps := by linarith
  let a : ℝ := 4 * (q.reg + 1)
  have ha : a = 4 * (q.reg + 1) := rfl
  let f : Fin 2 → (Fin 2 → ℝ) → Fin 2 → ℝ := fun k x => if k = 0 then 0 else x
  have hm : ∀ k i, meansNl q f (twoCells a) k i = if k = 0 then 0 else a / (1 + q.eps) := by
    intro k i
    simp only [meansNl, meanOf, twoCells_nk]
    fin_cases k <;> simp [mapped, f, respVol, twoCells]
  have hC : ∀ k i j, covTied q (twoCells a) (mapped f (twoCells a) k) (meansNl q f (twoCells a)) i j =
      ((if k = 0 then 0 else a * a) - a * a / (1 + q.eps)) / (2 * (1 + q.eps))
        + if i = j then q.reg else 0 := by
    intro k i j
    simp only [covTied, hm, twoCells_nk, Fin.sum_univ_two]
    congr 1
    have e2 : (1 + q.eps) + (1 + q.eps) = 2 * (1 + q.eps) := by ring
    rw [e2]
    congr 1
    fin_cases k
    · simp [mapped, f, twoCells]
      field_simp
    · simp [mapped, f, twoCells]
      field_simp
  refine ⟨twoCells a, f, _, _, twoCells_valid q h _, by
    simp only [estimateNl, lt_irrefl, if_false]; rfl, ?_, ?_⟩
  · have : (0 : Fin 2).1 < 2 := by norm_num
    simp only [dif_pos this]
    rw [hC]
    simp only [Fin.mk_zero, Fin.val_zero, Fin.zero_eta, if_true, zero_sub]
    have : q.reg < a * a / (1 + q.eps) / (2 * (1 + q.eps)) := by
      rw [div_div, lt_div_iff₀ (by positivity), ha]
      have : (1 + q.eps) * (2 * (1 + q.eps)) ≤ 8 := by nlinarith
      nlinarith [mul_le_mul_of_nonneg_left this hr]
    rw [neg_div]
    linarith
  · have h0 : (0 : Fin 2).1 < 2 := by norm_num
    have h2 : (1 : Fin 2).1 < 2 := by norm_num
    simp only [dif_pos h0, dif_pos h2]
    rw [hC, hC]
    have h3 : (⟨((0 : Fin 2) : ℕ), h0⟩ : Fin 2) = 0 := rfl
    have h4 : (⟨((1 : Fin 2) : ℕ), h2⟩ 
        : Fin 2) ≠ 0 := fun e => by simp [Fin.ext_iff] at e
    rw [if_pos h3, if_neg h4, if_neg (by decide), if_neg (by decide), add_zero, add_zero]
    have hpos : 0 < a * a := by
      have : 0 < a := by rw [ha]; linarith
      positivity
    intro heq
    rw [div_left_inj' (by positivity)] at heq
    linarith

/-- A mesh of one cell of volume two and one of two cells of volume one in it. -/
example : Refines (⟨fun _ => 1, fun _ _ => 3, fun _ _ => 1⟩ : Samples 2 1 1)
    (⟨fun _ => 2, fun _ _ => 3, fun _ _ => 1⟩ : Samples 1 1 1) (fun _ => 0) :=
  ⟨fun c => by fin_cases c; norm_num, fun _ => rfl, fun _ => rfl⟩

/-- Two cells of two units, with positive total volume. -/
example : Valid ⟨1 / 1000, 0⟩ (twoCells 5) ∧ 0 < ∑ c, (twoCells 5).vol c :=
  ⟨twoCells_valid _ (by norm_num) 5, by simp [twoCells]⟩

/-- The mean of the second unit of these cells, nearly `5`. -/
example : (estimate ⟨1 / 4, 0⟩ .full (twoCells 5)).means 1 0 = 4 := by
  norm_num [estimate, meanOf, nk, respVol, twoCells, Fin.sum_univ_two]

end GMMEstimate
end Verif
