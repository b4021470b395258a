import Mathlib.Analysis.Convex.SpecificFunctions.Basic
import Mathlib.Analysis.SpecialFunctions.Pow.Deriv

/-! Model of the iteratively re-weighted least-squares weights
(`simpeg/regularization/sparse.py` 135-207). -/

noncomputable section
namespace Verif.Reg.Lp

variable {ι : Type} [Fintype ι] [Nonempty ι]

/-- `np.abs(f_m).max()` (195, 203). -/
def maxAbs (f : ι → ℝ) : ℝ := Finset.univ.sup' Finset.univ_nonempty fun i => |f i|

/-- `l2_max` at one entry (194-199). -/
def l2max (M e p : ℝ) : ℝ := if p < 1 then e / Real.sqrt (1 - p) else M

/-- `lp_values` at one entry (200-202). -/
def lpValue (M e p : ℝ) : ℝ := l2max M e p / (l2max M e p ^ 2 + e ^ 2) ^ (1 - p / 2)

/-- `lp_scale` at one entry (192-203). -/
def lpScale (scaled : Bool) (M e p : ℝ) : ℝ :=
  if scaled then (if lpValue M e p ≠ 0 then M / lpValue M e p else 1) else 1

/-- `get_lp_weights(f_m)` (135-207): `e` is `irls_threshold`, `p` is `norm`. -/
def lpWeights (scaled : Bool) (e : ℝ) (p f : ι → ℝ) (i : ι) : ℝ :=
  lpScale scaled (maxAbs f) e (p i) / (f i ^ 2 + e ^ 2) ^ (1 - p i / 2)

namespace Props

theorem le_maxAbs (f : ι → ℝ) (i : ι) : |f i| ≤ maxAbs f :=
  Finset.le_sup' (fun i => |f i|) (Finset.mem_univ i)

theorem maxAbs_nonneg (f : ι → ℝ) : 0 ≤ maxAbs f :=
  le_trans (abs_nonneg _) (le_maxAbs f (Classical.arbitrary ι))

theorem maxAbs_pos (f : ι → ℝ) (i : ι) (h : f i ≠ 0) : 0 < maxAbs f :=
  lt_of_lt_of_le (abs_pos.mpr h) (le_maxAbs f i)

theorem denom_pos {e : ℝ} (he : 0 < e) (x a : ℝ) : 0 < (x ^ 2 + e ^ 2) ^ a :=
  Real.rpow_pos_of_pos (by positivity) a

theorem l2max_pos {M e p : ℝ} (he : 0 < e) (hM : 0 < M) : 0 < l2max M e p := by
  unfold l2max
  split
  · exact div_pos he (Real.sqrt_pos.mpr (by linarith))
  · exact hM

theorem lpValue_pos {M e p : ℝ} (he : 0 < e) (hM : 0 < M) : 0 < lpValue M e p :=
  div_pos (l2max_pos he hM) (denom_pos he _ _)

theorem lpScale_pos {scaled : Bool} {M e p : ℝ} (he : 0 < e) (hM : 0 < M) :
    0 < lpScale scaled M e p := by
  unfold lpScale
  split
  · rw [if_pos (lpValue_pos he hM).ne']
    exact div_pos hM (lpValue_pos he hM)
  · exact one_pos

/-! ### C41 -/

/-- C41 (partial). The weights are strictly positive for every threshold `> 0` and every norm,
unless scaling is on, the whole residual is zero and the norm is below 1. Missing: that case, in
which the weights are zero (`C41_zero_weights`). -/
theorem C41_positive_partial (scaled : Bool) (e : ℝ) (he : 0 < e) (p f : ι → ℝ) (i : ι)
    (h : scaled = true → f ≠ 0 ∨ 1 ≤ p i) : 0 < lpWeights scaled e p f i := by
  refine div_pos ?_ (denom_pos he _ _)
  cases scaled with
  | false => simp [lpScale]
  | true =>
    by_cases h0 : f = 0
    · have hp : ¬ p i < 1 := by
        rcases h rfl with h1 | h1
        · exact absurd h0 h1
        · linarith
      have hM : maxAbs f = 0 := by
        subst h0
        refine le_antisymm (Finset.sup'_le _ _ fun j _ => by simp) (maxAbs_nonneg _)
      have : lpValue (maxAbs f) e (p i) = 0 := by simp [lpValue, l2max, hp, hM]
      simp [lpScale, this]
    · obtain ⟨j, hj⟩ := Function.ne_iff.mp h0
      exact lpScale_pos he (maxAbs_pos f j hj)

/-- C41. For a zero residual with scaling and a norm below 1 every weight is zero, whatever the
threshold: positivity fails. -/
theorem C41_zero_weights (e : ℝ) (he : 0 < e) (p : ι → ℝ) (i : ι) (hp : p i < 1) :
    lpWeights true e p (0 : ι → ℝ) i = 0 := by
  have hM : maxAbs (0 : ι → ℝ) = 0 :=
    le_antisymm (Finset.sup'_le _ _ fun j _ => by simp) (maxAbs_nonneg _)
  have hv : lpValue 0 e (p i) ≠ 0 := by
    have : l2max 0 e (p i) = e / Real.sqrt (1 - p i) := by simp [l2max, hp]
    refine (div_pos ?_ (denom_pos he _ _)).ne'
    rw [this]
    exact div_pos he (Real.sqrt_pos.mpr (by linarith))
  simp [lpWeights, lpScale, hM, hv]

/-- C41. With norm 2 the weights are 1, scaled or not: the L2 measure is recovered. -/
theorem C41_norm_two (scaled : Bool) (e : ℝ) (p f : ι → ℝ) (i : ι)
    (hp : p i = 2) : lpWeights scaled e p f i = 1 := by
  have h1 : (1 : ℝ) - p i / 2 = 0 := by rw [hp]; norm_num
  have h2 : ¬ p i < 1 := by rw [hp]; norm_num
  have h3 : lpValue (maxAbs f) e (p i) = maxAbs f := by
    simp only [lpValue, h1, Real.rpow_zero, div_one, l2max, if_neg h2]
  unfold lpWeights
  rw [h1, Real.rpow_zero, div_one]
  cases scaled with
  | false => simp [lpScale]
  | true =>
    simp only [lpScale, h3]
    by_cases h : maxAbs f = 0
    · simp [h]
    · simp [h]

/-- C41. Among entries with equal norm (at most 2) the weight does not increase with `|f|`. -/
theorem C41_antitone (scaled : Bool) (e : ℝ) (he : 0 < e) (p f : ι → ℝ) (i j : ι)
    (hp : p i = p j) (h2 : p i ≤ 2) (h : |f i| ≤ |f j|) :
    lpWeights scaled e p f j ≤ lpWeights scaled e p f i := by
  have hs : 0 ≤ lpScale scaled (maxAbs f) e (p i) := by
    by_cases h0 : f = 0
    · unfold lpScale
      split
      · split
        · refine div_nonneg (maxAbs_nonneg f) ?_
          refine div_nonneg ?_ (denom_pos he _ _).le
          unfold l2max
          split
          · exact div_nonneg he.le (Real.sqrt_nonneg _)
          · exact maxAbs_nonneg f
        · exact zero_le_one
      · exact zero_le_one
    · obtain ⟨k, hk⟩ := Function.ne_iff.mp h0
      exact (lpScale_pos he (maxAbs_pos f k hk)).le
  unfold lpWeights
  rw [← hp]
  refine div_le_div_of_nonneg_left hs (denom_pos he _ _) ?_
  refine Real.rpow_le_rpow (by positivity) ?_ (by linarith)
  have := sq_le_sq.mpr h
  linarith

/-- From the squared inequality to the gradient inequality. -/
theorem grad_le {t T e a : ℝ} (ht : 0 ≤ t) (hT : 0 < T) (he : 0 < e)
    (h : t ^ 2 / T ^ 2 ≤ ((t ^ 2 + e ^ 2) / (T ^ 2 + e ^ 2)) ^ (2 * a)) :
    t / (t ^ 2 + e ^ 2) ^ a ≤ T / (T ^ 2 + e ^ 2) ^ a := by
  have hx : 0 < (t ^ 2 + e ^ 2) := by positivity
  have hy : 0 < (T ^ 2 + e ^ 2) := by positivity
  have h1 : (t / T) ^ 2 ≤ (((t ^ 2 + e ^ 2) / (T ^ 2 + e ^ 2)) ^ a) ^ 2 := by
    have e2 : (((t ^ 2 + e ^ 2) / (T ^ 2 + e ^ 2)) ^ a) ^ 2 =
        ((t ^ 2 + e ^ 2) / (T ^ 2 + e ^ 2)) ^ (2 * a) := by
      rw [mul_comm, Real.rpow_mul (by positivity), ← Real.rpow_natCast]
      norm_num
    rw [div_pow, e2]
    exact h
  have h2 : t / T ≤ ((t ^ 2 + e ^ 2) / (T ^ 2 + e ^ 2)) ^ a :=
    (pow_le_pow_iff_left₀ (by positivity) (by positivity) (by norm_num)).mp h1
  rw [Real.div_rpow hx.le hy.le] at h2
  rw [div_le_div_iff₀ hT (denom_pos he _ _)] at h2
  rw [div_le_div_iff₀ (denom_pos he _ _) (denom_pos he _ _)]
  linarith

/-- The Lp gradient never exceeds its value at `l2_max`. -/
theorem grad_le_lpValue {t M e p : ℝ} (ht : 0 ≤ t) (hM : 0 < M) (htM : t ≤ M) (he : 0 < e) :
    t / (t ^ 2 + e ^ 2) ^ (1 - p / 2) ≤ lpValue M e p := by
  unfold lpValue
  refine grad_le ht (l2max_pos he hM) he ?_
  by_cases hp : p < 1
  · have hq : (0 : ℝ) < 1 - p := by linarith
    have hT : l2max M e p ^ 2 = e ^ 2 / (1 - p) := by
      simp only [l2max, if_pos hp, div_pow, Real.sq_sqrt hq.le]
    rw [hT]
    have hs : (t ^ 2 + e ^ 2) / (e ^ 2 / (1 - p) + e ^ 2) =
        1 + ((t ^ 2 + e ^ 2) / (e ^ 2 / (1 - p) + e ^ 2) - 1) := by ring
    rw [hs]
    refine le_trans ?_ (one_add_mul_self_le_rpow_one_add ?_ (by linarith))
    · have h2 : (2 : ℝ) - p ≠ 0 := by linarith
      apply le_of_eq
      have he2 : e ≠ 0 := he.ne'
      have hq' : (1 : ℝ) - p ≠ 0 := hq.ne'
      have h3 : (1 : ℝ) + (1 - p) ≠ 0 := by linarith
      field_simp
      ring
    · have : 0 ≤ (t ^ 2 + e ^ 2) / (e ^ 2 / (1 - p) + e ^ 2) := by positivity
      linarith
  · have hl : l2max M e p = M := by simp [l2max, hp]
    rw [hl]
    have hx : 0 < (t ^ 2 + e ^ 2) / (M ^ 2 + e ^ 2) := by positivity
    have htm : t ^ 2 ≤ M ^ 2 := pow_le_pow_left₀ ht htM 2
    have hx1 : (t ^ 2 + e ^ 2) / (M ^ 2 + e ^ 2) ≤ 1 := by
      rw [div_le_one (by positivity)]
      linarith
    have h1 : t ^ 2 / M ^ 2 ≤ (t ^ 2 + e ^ 2) / (M ^ 2 + e ^ 2) := by
      rw [div_le_div_iff₀ (by positivity) (by positivity)]
      nlinarith [sq_nonneg e]
    refine h1.trans ?_
    have := Real.rpow_le_rpow_of_exponent_ge hx hx1 (show 2 * (1 - p / 2) ≤ 1 by linarith)
    rwa [Real.rpow_one] at this

/-- C41. With scaling, `|w f|` never exceeds the largest `|f|`. -/
theorem C41_scaled_bound (e : ℝ) (he : 0 < e) (p f : ι → ℝ) (i : ι) :
    |lpWeights true e p f i * f i| ≤ maxAbs f := by
  by_cases h0 : f i = 0
  · simp [h0, maxAbs_nonneg]
  · have hM := maxAbs_pos f i h0
    have hw : 0 < lpWeights true e p f i :=
      C41_positive_partial true e he p f i fun _ => Or.inl fun h => h0 (by rw [h]; rfl)
    rw [abs_mul, abs_of_pos hw]
    have hv := lpValue_pos (p := p i) he hM
    have hg := grad_le_lpValue (p := p i) (abs_nonneg (f i)) hM (le_maxAbs f i) he
    rw [sq_abs] at hg
    simp only [lpWeights, lpScale, if_true]
    rw [if_pos hv.ne', div_mul_eq_mul_div, div_mul_eq_mul_div, div_div, mul_comm (lpValue _ _ _),
      ← div_div, div_le_iff₀ hv, mul_div_assoc]
    exact mul_le_mul_of_nonneg_left hg hM.le

/-- C41. For norms of at least 1 the bound is attained at every entry of largest magnitude; so the
scaling keeps the largest gradient of the L2 measure. -/
theorem C41_scaled_attained (e : ℝ) (he : 0 < e) (p f : ι → ℝ) (i : ι) (hp : 1 ≤ p i)
    (hi : |f i| = maxAbs f) (h0 : f i ≠ 0) : |lpWeights true e p f i * f i| = maxAbs f := by
  have hM := maxAbs_pos f i h0
  have hl : l2max (maxAbs f) e (p i) = maxAbs f := by simp [l2max, not_lt.mpr hp]
  have hv := lpValue_pos (p := p i) he hM
  have hd := denom_pos he (maxAbs f) (1 - p i / 2)
  have hw : lpWeights true e p f i = 1 := by
    simp only [lpWeights, lpScale, if_true]
    rw [if_pos hv.ne', ← sq_abs (f i), hi]
    simp only [lpValue, hl]
    field_simp
  rw [hw, one_mul, hi]

/-- C41. Without scaling `p w f` is the derivative of the Ekblom measure `(f² + e²)^(p/2)`, which
the re-weighted least squares minimises at its fixed points. -/
theorem C41_ekblom (e : ℝ) (he : 0 < e) (p f : ι → ℝ) (i : ι) :
    HasDerivAt (fun x : ℝ => (x ^ 2 + e ^ 2) ^ (p i / 2))
      (p i * (lpWeights false e p f i * f i)) (f i) := by
  have h1 : HasDerivAt (fun x : ℝ => x ^ 2 + e ^ 2) (2 * f i) (f i) := by
    simpa using (hasDerivAt_pow 2 (f i)).add_const (e ^ 2)
  have hx : 0 < f i ^ 2 + e ^ 2 := by positivity
  have h2 := h1.rpow_const (p := p i / 2) (Or.inl hx.ne')
  convert h2 using 1
  simp only [lpWeights, lpScale, Bool.false_eq_true, if_false]
  rw [show p i / 2 - 1 = -(1 - p i / 2) by ring, Real.rpow_neg hx.le]
  field_simp

/-- The theorems on a residual with two different entries and norms 0 and 1. -/
example : 0 < lpWeights true 1 ![0, 1] ![3, 4] 0 ∧
    |lpWeights true 1 ![0, 1] ![3, 4] 0 * 3| ≤ maxAbs ![(3 : ℝ), 4] ∧
    lpWeights true 1 ![0, 1] ![(0 : ℝ), 0] 0 = 0 := by
  refine ⟨C41_positive_partial _ _ one_pos _ _ _ fun _ => Or.inl fun h => ?_, ?_, ?_⟩
  · have := congrFun h 0
    simp at this
  · exact C41_scaled_bound 1 one_pos ![0, 1] ![3, 4] 0
  · have := C41_zero_weights 1 one_pos ![0, 1] (0 : Fin 2) (by simp)
    convert this using 2
    ext j; fin_cases j <;> rfl

end Props
end Verif.Reg.Lp
