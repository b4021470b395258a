import Verif.Basic
import Verif.Reg.PGIFull
import Mathlib.LinearAlgebra.Matrix.PosDef
import Mathlib.Data.Real.StarOrdered
import Mathlib.Order.Filter.AtTopBot.Basic
import Mathlib.Topology.Algebra.Order.Field
import Mathlib.Topology.MetricSpace.Basic
import Mathlib.Topology.Order.Basic
import Mathlib.Data.Fin.Rev

/-!
C133: the parameters of the Gaussian mixtures of `simpeg/utils/pgi_utils.py`: sorting the units by
proportion, matching the units with those of the reference mixture, and the update with priors.
`K` units, `π` physical properties. The square roots of the covariances come from scikit-learn and
are not modelled here (see C131 for what is used of them).
-/

noncomputable section
namespace Verif.Utils.GMM
open Matrix Filter Topology

variable {K : ℕ} {π : Type} [Fintype π] [DecidableEq π]

set_option linter.unusedSectionVars false

/-- A mixture with a covariance matrix for each unit (`weights_`, `means_`, `precisions_`), and the
list `cluster_mapping` of `GaussianMixtureWithNonlinearRelationships` (identities otherwise). -/
structure Mix (K : ℕ) (π : Type) where
  weights : Fin K → ℝ
  means : Fin K → π → ℝ
  precisions : Fin K → Matrix π π ℝ
  mapping : Fin K → (π → ℝ) → π → ℝ

/-- The mixture density at a sample: the sum of the exponentials of `_estimate_weighted_log_prob`
(`simpeg/utils/pgi_utils.py` 1394-1447; scikit-learn for the class without mappings). -/
def Mix.density (g : Mix K π) (x : π → ℝ) : ℝ :=
  ∑ k, g.weights k * Verif.Reg.PGI.gauss (g.precisions k) (g.means k) (g.mapping k x)

/-- What `np.argsort` returns: a permutation that sorts, any of them when there are ties. -/
def IsArgsort (w : Fin K → ℝ) (σ : Equiv.Perm (Fin K)) : Prop := Monotone (w ∘ σ)

/-- `order_clusters_GM_weight` with one proportion per unit; `σ` is the result of `np.argsort`, which
is reversed (`simpeg/utils/pgi_utils.py` 179-212). `cluster_mapping` is left alone. -/
def Mix.order (g : Mix K π) (σ : Equiv.Perm (Fin K)) : Mix K π where
  weights := fun k => g.weights (σ k.rev)
  means := fun k => g.means (σ k.rev)
  precisions := fun k => g.precisions (σ k.rev)
  mapping := g.mapping

/-- `order_clusters_GM_weight` with a row of proportions for each cell: the columns are sorted by
their sums (`simpeg/utils/pgi_utils.py` 195-197). -/
def orderLocal {n : ℕ} (w : Fin n → Fin K → ℝ) (σ : Equiv.Perm (Fin K)) : Fin n → Fin K → ℝ :=
  fun c k => w c (σ k.rev)

/-! ### Matching with the reference mixture -/

/-- One pass of the loop of `order_cluster`: the reference unit, among those left, whose mean is most
probable for the unit `i` (`simpeg/utils/pgi_utils.py` 984-999). `L i j` is the log-probability of the
reference mean `j` for the unit `i`; the reference means are distinct. -/
def pick (L : Fin K → Fin K → ℝ) (left : List (Fin K)) (i : Fin K) : Option (Fin K) :=
  left.argmax (L i)

/-- `indx` of `order_cluster` (`simpeg/utils/pgi_utils.py` 980-999). -/
def indexLoop (L : Fin K → Fin K → ℝ) : List (Fin K) → List (Fin K) → List (Fin K)
  | [], _ => []
  | i :: rest, left =>
    match pick L left i with
    | none => []
    | some j => j :: indexLoop L rest (left.erase j)

/-- `indx` for all the units. -/
def index (L : Fin K → Fin K → ℝ) : List (Fin K) := indexLoop L (List.finRange K) (List.finRange K)

/-- `order_cluster` applied to a list of parameters: `self.means_[indx]`, and the same for proportions
and covariances (`simpeg/utils/pgi_utils.py` 1001-1013). -/
def takeIndex {α : Type} (l : List (Fin K)) (a : Fin K → α) : List α := l.map a

/-! ### Update with priors -/

/-- The confidences and reference parameters of one unit in `update_gmm_with_priors`. -/
structure Prior (π : Type) where
  kappa : π → ℝ
  nu : ℝ
  refWeight : ℝ
  refMean : π → ℝ
  refCov : Matrix π π ℝ

/-- `self.means_[k]` after the update (`simpeg/utils/pgi_utils.py` 1061-1064). -/
def newMean (p : Prior π) (w : ℝ) (mean : π → ℝ) : π → ℝ :=
  fun i => (1 / (w + p.refWeight * p.kappa i)) * (w * mean i + p.refWeight * p.kappa i * p.refMean i)

/-- `self.covariances_[k]` after the update, `prior_type="semi"`
(`simpeg/utils/pgi_utils.py` 1068-1074); the same formula with `update_covariances=False` for the
precisions (1079-1085). -/
def newCov (p : Prior π) (w : ℝ) (cov : Matrix π π ℝ) : Matrix π π ℝ :=
  (1 / (w + p.refWeight * p.nu)) • (w • cov + (p.refWeight * p.nu) • p.refCov)

/-- `smu` (`simpeg/utils/pgi_utils.py` 1055-1059). -/
def smu (p : Prior π) (w : ℝ) (mean : π → ℝ) : π → ℝ :=
  fun i => p.kappa i * w * (p.refMean i - mean i) ^ 2 / (p.kappa i + w) *
    (1 / (w + p.refWeight * p.nu))

/-- `self.covariances_[k] += smu` for a covariance matrix: NumPy adds the vector to every row
(`simpeg/utils/pgi_utils.py` 1076-1077). -/
def newCovFull (p : Prior π) (w : ℝ) (mean : π → ℝ) (cov : Matrix π π ℝ) : Matrix π π ℝ :=
  fun i j => newCov p w cov i j + smu p w mean j

/-- `self.weights_` after the update, one proportion per unit
(`simpeg/utils/pgi_utils.py` 1087-1090). -/
def newWeights (zeta ref w : Fin K → ℝ) : Fin K → ℝ :=
  fun k => (w k + zeta k * ref k) * (1 / (1 + ∑ j, zeta j * ref j))

/-- `weights` after the M step: volumes times responsibilities, over the number of samples times the
mean volume (`simpeg/utils/pgi_utils.py` 343-371 and 397-435). Simplified: without the `10 * eps` that
avoids a division by zero. -/
def mWeights {n : ℕ} (vol : Fin n → ℝ) (resp : Fin n → Fin K → ℝ) : Fin K → ℝ :=
  fun k => (∑ c, vol c * resp c k) / (n * ((∑ c, vol c) / n))

/-- The same with non-linear relationships: over the number of samples only
(`simpeg/utils/pgi_utils.py` 1572-1594). -/
def mWeightsNonlinear {n : ℕ} (vol : Fin n → ℝ) (resp : Fin n → Fin K → ℝ) : Fin K → ℝ :=
  fun k => (∑ c, vol c * resp c k) / n

/-! ### C133: sorting -/

/-- Sorting puts the proportions in decreasing order and does not change the mixture (linear
relationships, or the same mapping for all units). -/
theorem C133_order (g : Mix K π) (σ : Equiv.Perm (Fin K)) (h : IsArgsort g.weights σ)
    (hm : ∀ k l, g.mapping k = g.mapping l) :
    Antitone (g.order σ).weights ∧ ∀ x, (g.order σ).density x = g.density x := by
  constructor
  · intro a b hab
    exact h (Fin.rev_le_rev.2 hab)
  · intro x
    unfold Mix.density
    have := Equiv.sum_comp (Fin.revPerm.trans σ) (fun k => g.weights k *
      Verif.Reg.PGI.gauss (g.precisions k) (g.means k) (g.mapping k x))
    rw [← this]
    refine Finset.sum_congr rfl fun k _ => ?_
    simp only [Mix.order, Equiv.trans_apply, Fin.revPerm_apply]
    rw [hm k (σ k.rev)]

/-- Proportions by cell: the sums of the columns decrease, and every cell keeps its mixture. -/
theorem C133_order_local {n : ℕ} (w : Fin n → Fin K → ℝ) (σ : Equiv.Perm (Fin K))
    (h : IsArgsort (fun k => ∑ c, w c k) σ) (f : Fin K → ℝ) :
    (Antitone fun k => ∑ c, orderLocal w σ c k) ∧
    ∀ c, ∑ k, orderLocal w σ c k * f (σ k.rev) = ∑ k, w c k * f k := by
  constructor
  · intro a b hab
    exact h (Fin.rev_le_rev.2 hab)
  · intro c
    exact Equiv.sum_comp (Fin.revPerm.trans σ) (fun k => w c k * f k)

/-- With non-linear relationships the mappings are not sorted with the units: two units with the same
Gaussian, proportions 1/4 and 3/4, the second with the mapping `x + 1`. After sorting the mixture is
another one. -/
theorem C133_violated_mapping :
    ∃ (g : Mix 2 (Fin 1)) (σ : Equiv.Perm (Fin 2)) (x : Fin 1 → ℝ), IsArgsort g.weights σ ∧
      (∑ k, g.weights k) = 1 ∧ (g.order σ).density x ≠ g.density x := by
  refine ⟨⟨![1 / 4, 3 / 4], fun _ _ => 0, fun _ => 1, ![id, fun x i => x i + 1]⟩, 1, fun _ => 0,
    ?_, ?_, ?_⟩
  · intro a b hab
    fin_cases a <;> fin_cases b <;> simp_all <;> norm_num
  · norm_num [Fin.sum_univ_two]
  · have hg0 : Verif.Reg.PGI.gauss (1 : Matrix (Fin 1) (Fin 1) ℝ) (fun _ => 0) (fun _ => 0) =
        1 / Real.sqrt (2 * Real.pi) := by
      simp [Verif.Reg.PGI.gauss, Verif.Reg.PGI.quad]
    have hg1 : Verif.Reg.PGI.gauss (1 : Matrix (Fin 1) (Fin 1) ℝ) (fun _ => 0) (fun _ => 1) =
        1 / Real.sqrt (2 * Real.pi) * Real.exp (-1 / 2) := by
      simp [Verif.Reg.PGI.gauss, Verif.Reg.PGI.quad]
    have hpos : 0 < 1 / Real.sqrt (2 * Real.pi) := by positivity
    have he : Real.exp (-1 / 2) < 1 := by rw [Real.exp_lt_one_iff]; norm_num
    simp only [Mix.density, Mix.order, Fin.sum_univ_two, Equiv.Perm.coe_one, id]
    simp
    rw [hg0, hg1]
    intro h
    nlinarith [mul_pos hpos (sub_pos.2 he)]

/-! ### C133: matching with the reference -/

/-- `σ i` is the reference unit that fits the unit `i` best. -/
def Best (L : Fin K → Fin K → ℝ) (σ : Equiv.Perm (Fin K)) : Prop := ∀ i j, j ≠ σ i → L i j < L i (σ i)

theorem pick_best {L : Fin K → Fin K → ℝ} {σ : Equiv.Perm (Fin K)} (h : Best L σ) (left : List (Fin K))
    (i : Fin K) (hi : σ i ∈ left) : pick L left i = some (σ i) := by
  unfold pick
  rcases hx : left.argmax (L i) with _ | x
  · rw [List.argmax_eq_none] at hx
    rw [hx] at hi
    exact absurd hi (List.not_mem_nil)
  · by_cases hj : x = σ i
    · rw [hj]
    · have := List.le_of_mem_argmax hi hx
      exact absurd (h i x hj) (not_lt.2 this)

theorem indexLoop_best {L : Fin K → Fin K → ℝ} {σ : Equiv.Perm (Fin K)} (h : Best L σ) :
    ∀ (rest left : List (Fin K)), rest.Nodup → (∀ i ∈ rest, σ i ∈ left) →
      indexLoop L rest left = rest.map σ
  | [], _, _, _ => rfl
  | i :: rest, left, hn, hm => by
    have hi := hm i List.mem_cons_self
    rw [List.nodup_cons] at hn
    unfold indexLoop
    rw [pick_best h left i hi]
    simp only [List.map_cons]
    rw [indexLoop_best h rest (left.erase (σ i)) hn.2]
    intro j hj
    have hne : σ j ≠ σ i := fun e => hn.1 (σ.injective e ▸ hj)
    exact (List.mem_erase_of_ne hne).2 (hm j (List.mem_cons_of_mem _ hj))

theorem index_best {L : Fin K → Fin K → ℝ} {σ : Equiv.Perm (Fin K)} (h : Best L σ) :
    index L = (List.finRange K).map σ :=
  indexLoop_best h _ _ (List.nodup_finRange K) fun _ _ => List.mem_finRange _

/-- When the matching only swaps units in pairs, the parameters of the unit `i` end up at the position
of the reference unit it fits best. What is missing: all other matchings, see
`C133_violated_match`. -/
theorem C133_match_partial {α : Type} {L : Fin K → Fin K → ℝ} {σ : Equiv.Perm (Fin K)} (h : Best L σ)
    (hσ : ∀ i, σ (σ i) = i) (a : Fin K → α) (i : Fin K) :
    (takeIndex (index L) a)[(σ i).1]? = some (a i) := by
  rw [takeIndex, index_best h, List.map_map, List.getElem?_map]
  simp [hσ]

/-- Otherwise (a cycle of three units, say) the parameters of the unit `i` are put at the position of
another reference unit. -/
theorem C133_violated_match {α : Type} {L : Fin K → Fin K → ℝ} {σ : Equiv.Perm (Fin K)} (h : Best L σ)
    (i : Fin K) (hσ : σ (σ i) ≠ i) (a : Fin K → α) (ha : Function.Injective a) :
    (takeIndex (index L) a)[(σ i).1]? ≠ some (a i) := by
  rw [takeIndex, index_best h, List.map_map, List.getElem?_map]
  simp
  exact fun e => hσ (ha e)

/-- Units 0, 1, 2 with means near the reference means 1, 2, 0: unit 2 fits the reference unit 0 but unit
1 is put there. -/
example : (takeIndex (index fun i j : Fin 3 => if j = i + 1 then 0 else -5) ![10, 20, 30])[0]? ≠
    some (30 : ℕ) := by
  refine C133_violated_match (σ := Equiv.addRight (1 : Fin 3)) ?_ 2 (by decide) _ (by decide)
  intro i j hj
  have hj' : j ≠ i + 1 := hj
  simp [hj']

/-- Two units in the wrong order are swapped. -/
example : (takeIndex (index fun i j : Fin 2 => if j = i + 1 then 0 else -5) ![10, 20])[0]? =
    some (20 : ℕ) := by
  refine C133_match_partial (σ := Equiv.addRight (1 : Fin 2)) ?_ (by decide) _ 1
  intro i j hj
  have hj' : j ≠ i + 1 := hj
  simp [hj']

/-! ### C133: update with priors -/

/-- The updated mean is between the fitted mean and the reference mean. -/
theorem C133_mean_between (p : Prior π) (w : ℝ) (mean : π → ℝ) (i : π) (hw : 0 < w)
    (hr : 0 ≤ p.refWeight) (hk : 0 ≤ p.kappa i) :
    min (mean i) (p.refMean i) ≤ newMean p w mean i ∧
      newMean p w mean i ≤ max (mean i) (p.refMean i) := by
  have hrk : 0 ≤ p.refWeight * p.kappa i := mul_nonneg hr hk
  have hd : 0 < w + p.refWeight * p.kappa i := by positivity
  unfold newMean
  rw [one_div, inv_mul_eq_div]
  constructor
  · rw [le_div_iff₀ hd]
    nlinarith [min_le_left (mean i) (p.refMean i), min_le_right (mean i) (p.refMean i)]
  · rw [div_le_iff₀ hd]
    nlinarith [le_max_left (mean i) (p.refMean i), le_max_right (mean i) (p.refMean i)]

/-- No confidence in the prior leaves mean and covariance as fitted. -/
theorem C133_no_confidence (p : Prior π) (w : ℝ) (mean : π → ℝ) (cov : Matrix π π ℝ) (hw : w ≠ 0)
    (hk : ∀ i, p.kappa i = 0) (hn : p.nu = 0) : newMean p w mean = mean ∧ newCov p w cov = cov := by
  constructor
  · funext i
    simp only [newMean, hk, mul_zero, add_zero, zero_mul]
    field_simp
  · unfold newCov
    rw [hn, mul_zero, add_zero, zero_smul, add_zero, smul_smul, one_div, inv_mul_cancel₀ hw, one_smul]

/-- Unlimited confidence gives the reference mean. -/
theorem C133_full_confidence_mean (p : Prior π) (w : ℝ) (mean : π → ℝ) (i : π) (hr : 0 < p.refWeight) :
    Tendsto (fun t => newMean { p with kappa := fun _ => t } w mean i) atTop (𝓝 (p.refMean i)) := by
  have h1 : Tendsto (fun t : ℝ => w + p.refWeight * t) atTop atTop :=
    tendsto_atTop_add_const_left _ _ (tendsto_id.const_mul_atTop hr)
  have h2 : Tendsto (fun t : ℝ => p.refMean i + w * (mean i - p.refMean i) / (w + p.refWeight * t))
      atTop (𝓝 (p.refMean i + 0)) :=
    tendsto_const_nhds.add (h1.const_div_atTop _)
  rw [add_zero] at h2
  refine h2.congr' ?_
  filter_upwards [h1.eventually_gt_atTop 0] with t ht
  simp only [newMean]
  field_simp
  ring

/-- Unlimited confidence gives the reference covariance. -/
theorem C133_full_confidence_cov (p : Prior π) (w : ℝ) (cov : Matrix π π ℝ) (i j : π)
    (hr : 0 < p.refWeight) :
    Tendsto (fun t => newCov { p with nu := t } w cov i j) atTop (𝓝 (p.refCov i j)) := by
  have h1 : Tendsto (fun t : ℝ => w + p.refWeight * t) atTop atTop :=
    tendsto_atTop_add_const_left _ _ (tendsto_id.const_mul_atTop hr)
  have h2 : Tendsto (fun t : ℝ => p.refCov i j + w * (cov i j - p.refCov i j) / (w + p.refWeight * t))
      atTop (𝓝 (p.refCov i j + 0)) :=
    tendsto_const_nhds.add (h1.const_div_atTop _)
  rw [add_zero] at h2
  refine h2.congr' ?_
  filter_upwards [h1.eventually_gt_atTop 0] with t ht
  simp only [newCov, Matrix.smul_apply, Matrix.add_apply, smul_eq_mul]
  field_simp
  ring

/-- The updated covariance (or precision) is positive definite when the fitted and the reference ones
are. -/
theorem C133_cov_posDef (p : Prior π) (w : ℝ) (cov : Matrix π π ℝ) (hw : 0 < w) (hr : 0 ≤ p.refWeight)
    (hn : 0 ≤ p.nu) (h1 : cov.PosDef) (h2 : p.refCov.PosDef) : (newCov p w cov).PosDef := by
  have hrn : 0 ≤ p.refWeight * p.nu := mul_nonneg hr hn
  have hd : 0 < 1 / (w + p.refWeight * p.nu) := by positivity
  refine Matrix.PosDef.smul ?_ hd
  exact (h1.smul hw).add_posSemidef (h2.posSemidef.smul hrn)

/-- Proportions stay proportions, and the update changes nothing without confidence. -/
theorem C133_weights (zeta ref w : Fin K → ℝ) (hz : ∀ k, 0 ≤ zeta k) (hr : ∀ k, 0 ≤ ref k)
    (hw : ∀ k, 0 ≤ w k) (h1 : ∑ k, w k = 1) :
    (∀ k, 0 ≤ newWeights zeta ref w k) ∧ ∑ k, newWeights zeta ref w k = 1 ∧
      ((∀ k, zeta k = 0) → newWeights zeta ref w = w) := by
  have hs : 0 ≤ ∑ j, zeta j * ref j := Finset.sum_nonneg fun j _ => mul_nonneg (hz j) (hr j)
  have hd : 0 < 1 + ∑ j, zeta j * ref j := by positivity
  refine ⟨fun k => mul_nonneg (add_nonneg (hw k) (mul_nonneg (hz k) (hr k))) (by positivity), ?_, ?_⟩
  · unfold newWeights
    rw [← Finset.sum_mul, Finset.sum_add_distrib, h1, mul_one_div_cancel hd.ne']
  · intro h
    funext k
    simp [newWeights, h]

/-- The same confidence for all proportions, without limit, gives the reference proportions. -/
theorem C133_full_confidence_weights (ref w : Fin K → ℝ) (h1 : ∑ k, ref k = 1) (k : Fin K) :
    Tendsto (fun t => newWeights (fun _ => t) ref w k) atTop (𝓝 (ref k)) := by
  have ha : Tendsto (fun t : ℝ => 1 + t) atTop atTop := tendsto_atTop_add_const_left _ _ tendsto_id
  have h2 : Tendsto (fun t : ℝ => ref k + (w k - ref k) / (1 + t)) atTop (𝓝 (ref k + 0)) :=
    tendsto_const_nhds.add (ha.const_div_atTop _)
  rw [add_zero] at h2
  refine h2.congr' ?_
  filter_upwards [ha.eventually_gt_atTop 0] with t ht
  simp only [newWeights, ← Finset.mul_sum, h1, mul_one]
  field_simp
  ring

/-- The M step of the class with linear relationships gives proportions that sum to one, for any cell
volumes. -/
theorem C133_m_step {n : ℕ} (vol : Fin n → ℝ) (resp : Fin n → Fin K → ℝ) (hv : 0 < ∑ c, vol c)
    (hr : ∀ c, ∑ k, resp c k = 1) : ∑ k, mWeights vol resp k = 1 := by
  have hn : (n : ℝ) ≠ 0 := by
    intro h
    have : n = 0 := by exact_mod_cast h
    subst this
    simp at hv
  unfold mWeights
  rw [← Finset.sum_div, Finset.sum_comm]
  simp only [← Finset.mul_sum, hr, mul_one]
  rw [mul_div_cancel₀ _ hn, div_self hv.ne']

/-- With non-linear relationships they sum to the mean cell volume. -/
theorem C133_violated_m_step {n : ℕ} (vol : Fin n → ℝ) (resp : Fin n → Fin K → ℝ)
    (hr : ∀ c, ∑ k, resp c k = 1) (hv : (∑ c, vol c) / n ≠ 1) :
    ∑ k, mWeightsNonlinear vol resp k = (∑ c, vol c) / n ∧ ∑ k, mWeightsNonlinear vol resp k ≠ 1 := by
  have h : ∑ k, mWeightsNonlinear vol resp k = (∑ c, vol c) / n := by
    unfold mWeightsNonlinear
    rw [← Finset.sum_div, Finset.sum_comm]
    simp only [← Finset.mul_sum, hr, mul_one]
  exact ⟨h, h ▸ hv⟩

/-- `prior_type="full"` with covariance matrices: the covariance is not symmetric any more (the vector
is added to every row instead of the diagonal), whenever the means differ unequally from the
reference. -/
theorem C133_violated_full (p : Prior π) (w : ℝ) (mean : π → ℝ) (cov : Matrix π π ℝ)
    (h1 : cov.IsSymm) (h2 : p.refCov.IsSymm) (i j : π) (h : smu p w mean i ≠ smu p w mean j) :
    ¬ (newCovFull p w mean cov).IsSymm := by
  intro hs
  have e := hs.apply i j
  have e2 : newCov p w cov j i = newCov p w cov i j := by
    simp only [newCov, Matrix.smul_apply, Matrix.add_apply, h1.apply, h2.apply]
  have : newCov p w cov j i + smu p w mean i = newCov p w cov i j + smu p w mean j := e
  rw [e2] at this
  exact h (by linarith)

/-- Two properties, the fitted mean off by one in the first only. -/
example : ¬ (newCovFull (π := Fin 2) ⟨fun _ => 1, 1, 1, ![1, 0], 1⟩ 1 ![0, 0] 1).IsSymm := by
  refine C133_violated_full _ _ _ _ Matrix.isSymm_one Matrix.isSymm_one 0 1 ?_
  simp [smu]

example : newMean (π := Fin 1) ⟨fun _ => 3, 1, 0.5, fun _ => 10, 1⟩ 0.5 (fun _ => 2) 0 = 8 := by
  norm_num [newMean]

example : ∑ k, mWeights (n := 2) (K := 2) ![1, 3] ![![1, 0], ![0.5, 0.5]] k = 1 :=
  C133_m_step _ _ (by norm_num [Fin.sum_univ_two])
    (by intro c; fin_cases c <;> norm_num [Fin.sum_univ_two])

end Verif.Utils.GMM
