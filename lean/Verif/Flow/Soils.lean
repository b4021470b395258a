import Mathlib.Algebra.Order.Floor.Ring
import Mathlib.Data.List.Basic
import Mathlib.Tactic.FinCases
import Mathlib.Tactic.NormNum
import Mathlib.Tactic.Positivity
import Verif.Flow.Empirical

/-! Model of the construction of soil curves in `simpeg/flow/richards/empirical.py`, for C193:
`_partition_args` (21-33), `haverkamp` (307-315), `van_genuchten` (812-820), the table of soils
`VanGenuchtenParams` (823-935), and the curves for arrays of heads (127-136, 253-258, 371-381, 531-538). -/

noncomputable section
namespace Verif.Flow.Soils
open Verif Verif.Flow.Empirical Verif.Flow.Empirical.Props Real

/-! ### Factories -/

/-- Keyword arguments, names distinct. -/
abbrev Kwargs := List (String × ℝ)

/-- `_partition_args` (21-33): the arguments of the two constructors, or the exception for the unknown
ones. -/
def partition (hcond theta : List String) (kw : Kwargs) : Except Err (Kwargs × Kwargs) :=
  let other := kw.filter fun q => !(hcond ++ theta).contains q.1
  if 0 < other.length then .error .exception
  else .ok (kw.filter fun q => hcond.contains q.1, kw.filter fun q => theta.contains q.1)

/-- An argument of a constructor: the one given, or the default. -/
def arg (kw : Kwargs) (name : String) (default : ℝ) : ℝ := (dictGet kw name).getD default

/-- The parameters of `Vangenuchten_k` (500-521). -/
structure VanK where
  Ks : ℝ
  alpha : ℝ
  I : ℝ
  n : ℝ

/-- The parameters of `Vangenuchten_theta` (346-366). -/
structure VanTheta where
  theta_r : ℝ
  theta_s : ℝ
  alpha : ℝ
  n : ℝ

/-- `Vangenuchten_k(mesh, **kwargs)`, defaults of 503-509. -/
def mkVanK (kw : Kwargs) : VanK :=
  ⟨arg kw "Ks" 24.96, arg kw "alpha" 0.036, arg kw "I" 0.5, arg kw "n" 1.56⟩

/-- `Vangenuchten_theta(mesh, **kwargs)`, defaults of 349-355. -/
def mkVanTheta (kw : Kwargs) : VanTheta :=
  ⟨arg kw "theta_r" 0.078, arg kw "theta_s" 0.430, arg kw "alpha" 0.036, arg kw "n" 1.56⟩

/-- `van_genuchten` (812-820). -/
def vanGenuchten (kw : Kwargs) : Except Err (VanK × VanTheta) :=
  (partition ["alpha", "n", "Ks", "I"] ["alpha", "n", "theta_r", "theta_s"] kw).map
    fun q => (mkVanK q.1, mkVanTheta q.2)

/-- The parameters of `Haverkamp_k` (229-245). -/
structure HavK where
  Ks : ℝ
  A : ℝ
  gamma : ℝ

/-- The parameters of `Haverkamp_theta` (99-121). -/
structure HavTheta where
  theta_r : ℝ
  theta_s : ℝ
  alpha : ℝ
  beta : ℝ

/-- `Haverkamp_k(mesh, **kwargs)`, defaults of 232-236. -/
def mkHavK (kw : Kwargs) : HavK :=
  ⟨arg kw "Ks" 9.44e-3, arg kw "A" 1.175e6, arg kw "gamma" 4.74⟩

/-- `Haverkamp_theta(mesh, **kwargs)`, defaults of 102-108. -/
def mkHavTheta (kw : Kwargs) : HavTheta :=
  ⟨arg kw "theta_r" 0.075, arg kw "theta_s" 0.287, arg kw "alpha" 1.611e6, arg kw "beta" 3.96⟩

/-- `haverkamp` (307-315). -/
def haverkamp (kw : Kwargs) : Except Err (HavK × HavTheta) :=
  (partition ["Ks", "A", "gamma"] ["alpha", "beta", "theta_r", "theta_s"] kw).map
    fun q => (mkHavK q.1, mkHavTheta q.2)

/-! ### The table of soils -/

/-- The entries of a soil: `0.138 * 100.0` per metre and `504.0 * centi / day` metres per second. -/
def soil (theta_r theta_s a n k : ℝ) : Kwargs :=
  [("theta_r", theta_r), ("theta_s", theta_s), ("alpha", a * 100), ("n", n), ("Ks", k * (1 / 100) / 86400)]

/-- `VanGenuchtenParams` (832-935), in the order of the file. -/
def soils : List Kwargs :=
  [soil 0.020 0.417 0.138 1.592 504, soil 0.035 0.401 0.115 1.474 146.6,
   soil 0.041 0.412 0.068 1.322 62.16, soil 0.027 0.434 0.090 1.220 16.32,
   soil 0.015 0.486 0.048 1.211 31.68, soil 0.068 0.330 0.036 1.250 10.32,
   soil 0.075 0.390 0.039 1.194 5.52, soil 0.040 0.432 0.031 1.151 3.60,
   soil 0.109 0.321 0.034 1.168 2.88, soil 0.056 0.423 0.029 1.127 2.16,
   soil 0.090 0.385 0.027 1.131 1.44]

/-- `HaverkampParams.celia1990` (321-337). -/
def celia1990 : Kwargs :=
  [("alpha", 1.611e6), ("beta", 3.96), ("theta_r", 0.075), ("theta_s", 0.287), ("Ks", 9.44e-3),
   ("A", 1.175e6), ("gamma", 4.74)]

/-! ### Arrays of heads -/

/-- The type of the numbers of an array. -/
inductive DType where
  | float | int
  deriving DecidableEq

/-- A number stored in an array: integers are truncated towards zero. -/
def store : DType → ℝ → ℝ
  | .float, x => x
  | .int, x => if 0 ≤ x then (⌊x⌋ : ℝ) else (⌈x⌉ : ℝ)

/-- `Vangenuchten_k.__call__` (531-538) at an entry `u` of an array of the given type: saturated entries are
taken from `np.full_like(u, fill_value=Ks)`, an array of the type of the heads. -/
def callVanK (t : DType) (c : VanK) (u : ℝ) : ℝ :=
  atSat u (store t c.Ks) (vK c.Ks c.alpha c.I c.n u)

/-- `Haverkamp_k.__call__` (253-258), the same. -/
def callHavK (t : DType) (c : HavK) (u : ℝ) : ℝ :=
  atSat u (store t c.Ks) (hK c.Ks c.A c.gamma u)

/-- `Vangenuchten_theta.__call__` (371-381): the array of the results is made by a division and its numbers
are floats. -/
def callVanTheta (_ : DType) (c : VanTheta) (u : ℝ) : ℝ := vTheta c.theta_r c.theta_s c.alpha c.n u

/-- `Haverkamp_theta.__call__` (127-136), the same. -/
def callHavTheta (_ : DType) (c : HavTheta) (u : ℝ) : ℝ := hTheta c.theta_r c.theta_s c.alpha c.beta u

/-! ### Facts -/

theorem dictGet_filter (p : String → Bool) (kw : Kwargs) (name : String) (h : p name = true) :
    dictGet (kw.filter fun q => p q.1) name = dictGet kw name := by
  induction kw with
  | nil => rfl
  | cons q kw ih =>
    obtain ⟨k, v⟩ := q
    by_cases hk : k = name
    · subst hk
      simp [List.filter, h, dictGet]
    · by_cases hp : p k = true
      · simp [List.filter, hp, dictGet, hk, ih]
      · simp only [Bool.not_eq_true] at hp
        simp [List.filter, hp, dictGet, hk, ih]

theorem arg_filter (names : List String) (kw : Kwargs) (name : String) (d : ℝ)
    (h : names.contains name = true) :
    arg (kw.filter fun q => names.contains q.1) name d = arg kw name d := by
  unfold arg
  rw [dictGet_filter (fun k => names.contains k) kw name h]

theorem partition_ok {hcond theta : List String} {kw : Kwargs}
    (h : ∀ q ∈ kw, q.1 ∈ hcond ∨ q.1 ∈ theta) :
    partition hcond theta kw =
      .ok (kw.filter fun q => hcond.contains q.1, kw.filter fun q => theta.contains q.1) := by
  unfold partition
  rw [if_neg]
  have : (kw.filter fun q => !(hcond ++ theta).contains q.1) = [] := by
    rw [List.filter_eq_nil_iff]
    intro q hq
    rcases h q hq with h | h <;> simp [h]
  rw [this]
  simp

theorem partition_error {hcond theta : List String} {kw : Kwargs} {q : String × ℝ} (hq : q ∈ kw)
    (h1 : q.1 ∉ hcond) (h2 : q.1 ∉ theta) : partition hcond theta kw = .error .exception := by
  unfold partition
  rw [if_pos]
  apply List.length_pos_of_mem (a := q)
  rw [List.mem_filter]
  exact ⟨hq, by simp [h1, h2]⟩

/-! ### Theorems -/

/-- The names `van_genuchten` takes. -/
def vanNames : List String := ["alpha", "n", "Ks", "I", "theta_r", "theta_s"]

/-- The names `haverkamp` takes. -/
def havNames : List String := ["Ks", "A", "gamma", "alpha", "beta", "theta_r", "theta_s"]

/-- `van_genuchten` gives each curve the values of the arguments it has, and the defaults for the others;
the two curves always have the same `alpha` and `n`. Any other name raises. -/
theorem C193_van_genuchten (kw : Kwargs) :
    ((∀ q ∈ kw, q.1 ∈ vanNames) → ∃ k t, vanGenuchten kw = .ok (k, t) ∧
      (∀ v, dictGet kw "alpha" = some v → k.alpha = v) ∧ (∀ v, dictGet kw "n" = some v → k.n = v) ∧
      (∀ v, dictGet kw "Ks" = some v → k.Ks = v) ∧ (∀ v, dictGet kw "I" = some v → k.I = v) ∧
      (∀ v, dictGet kw "theta_r" = some v → t.theta_r = v) ∧
      (∀ v, dictGet kw "theta_s" = some v → t.theta_s = v) ∧
      (dictGet kw "Ks" = none → k.Ks = 24.96) ∧ (dictGet kw "I" = none → k.I = 0.5) ∧
      (dictGet kw "alpha" = none → k.alpha = 0.036) ∧ (dictGet kw "n" = none → k.n = 1.56) ∧
      (dictGet kw "theta_r" = none → t.theta_r = 0.078) ∧
      (dictGet kw "theta_s" = none → t.theta_s = 0.43) ∧
      k.alpha = t.alpha ∧ k.n = t.n) ∧
    ∀ q ∈ kw, q.1 ∉ vanNames → vanGenuchten kw = .error .exception := by
  constructor
  · intro h
    have hp := partition_ok (hcond := ["alpha", "n", "Ks", "I"])
      (theta := ["alpha", "n", "theta_r", "theta_s"]) (kw := kw) (fun q hq => by
        have := h q hq
        simp only [vanNames, List.mem_cons, List.not_mem_nil, or_false] at this ⊢
        tauto)
    refine ⟨_, _, by rw [vanGenuchten, hp]; rfl, ?_⟩
    simp only [mkVanK, mkVanTheta]
    rw [arg_filter _ _ _ _ (by decide), arg_filter _ _ _ _ (by decide), arg_filter _ _ _ _ (by decide),
      arg_filter _ _ _ _ (by decide), arg_filter _ _ _ _ (by decide), arg_filter _ _ _ _ (by decide),
      arg_filter _ _ _ _ (by decide), arg_filter _ _ _ _ (by decide)]
    unfold arg
    refine ⟨?_, ?_, ?_, ?_, ?_, ?_, ?_, ?_, ?_, ?_, ?_, ?_, rfl, rfl⟩
    all_goals first
      | (intro v hv; rw [hv]; rfl)
      | (intro hv; rw [hv]; norm_num)
  · intro q hq h
    rw [vanGenuchten, partition_error hq]
    · rfl
    · intro hm; apply h
      simp only [vanNames, List.mem_cons, List.not_mem_nil, or_false] at hm ⊢; tauto
    · intro hm; apply h
      simp only [vanNames, List.mem_cons, List.not_mem_nil, or_false] at hm ⊢; tauto

/-- The same for `haverkamp`, whose curves share no parameter. -/
theorem C193_haverkamp (kw : Kwargs) :
    ((∀ q ∈ kw, q.1 ∈ havNames) → ∃ k t, haverkamp kw = .ok (k, t) ∧
      (∀ v, dictGet kw "Ks" = some v → k.Ks = v) ∧ (∀ v, dictGet kw "A" = some v → k.A = v) ∧
      (∀ v, dictGet kw "gamma" = some v → k.gamma = v) ∧
      (∀ v, dictGet kw "alpha" = some v → t.alpha = v) ∧
      (∀ v, dictGet kw "beta" = some v → t.beta = v) ∧
      (∀ v, dictGet kw "theta_r" = some v → t.theta_r = v) ∧
      (∀ v, dictGet kw "theta_s" = some v → t.theta_s = v) ∧
      (kw = [] → haverkamp celia1990 = .ok (k, t))) ∧
    ∀ q ∈ kw, q.1 ∉ havNames → haverkamp kw = .error .exception := by
  constructor
  · intro h
    have hp := partition_ok (hcond := ["Ks", "A", "gamma"])
      (theta := ["alpha", "beta", "theta_r", "theta_s"]) (kw := kw) (fun q hq => by
        have := h q hq
        simp only [havNames, List.mem_cons, List.not_mem_nil, or_false] at this ⊢
        tauto)
    refine ⟨_, _, by rw [haverkamp, hp]; rfl, ?_⟩
    simp only [mkHavK, mkHavTheta]
    rw [arg_filter _ _ _ _ (by decide), arg_filter _ _ _ _ (by decide), arg_filter _ _ _ _ (by decide),
      arg_filter _ _ _ _ (by decide), arg_filter _ _ _ _ (by decide), arg_filter _ _ _ _ (by decide),
      arg_filter _ _ _ _ (by decide)]
    unfold arg
    refine ⟨?_, ?_, ?_, ?_, ?_, ?_, ?_, ?_⟩
    case refine_8 =>
      rintro rfl
      have hc := partition_ok (hcond := ["Ks", "A", "gamma"])
        (theta := ["alpha", "beta", "theta_r", "theta_s"]) (kw := celia1990) (fun q hq => by
          simp only [celia1990, List.mem_cons, List.not_mem_nil, or_false] at hq
          rcases hq with rfl | rfl | rfl | rfl | rfl | rfl | rfl <;> simp)
      rw [haverkamp, hc]
      simp only [Except.map, mkHavK, mkHavTheta]
      rw [arg_filter _ _ _ _ (by decide), arg_filter _ _ _ _ (by decide),
        arg_filter _ _ _ _ (by decide), arg_filter _ _ _ _ (by decide), arg_filter _ _ _ _ (by decide),
        arg_filter _ _ _ _ (by decide), arg_filter _ _ _ _ (by decide)]
      simp [arg, celia1990, dictGet]
    all_goals (intro v hv; rw [hv]; rfl)
  · intro q hq h
    rw [haverkamp, partition_error hq]
    · rfl
    · intro hm; apply h
      simp only [havNames, List.mem_cons, List.not_mem_nil, or_false] at hm ⊢; tauto
    · intro hm; apply h
      simp only [havNames, List.mem_cons, List.not_mem_nil, or_false] at hm ⊢; tauto

/-- The effective saturation of Van Genuchten grows with the head. -/
theorem te_mono {al n u w : ℝ} (hn : 1 < n) (huw : u ≤ w) (hw : w < 0) :
    1 / ((1 + |al * u| ^ n) ^ (1 - 1 / n)) ≤ 1 / ((1 + |al * w| ^ n) ^ (1 - 1 / n)) := by
  have hm : 0 ≤ 1 - 1 / n := by
    rw [sub_nonneg, div_le_one (by linarith)]; exact hn.le
  have habs : |al * w| ≤ |al * u| := by
    rw [abs_mul, abs_mul, abs_of_neg hw, abs_of_neg (lt_of_le_of_lt huw hw)]
    exact mul_le_mul_of_nonneg_left (by linarith) (abs_nonneg _)
  have h1 : |al * w| ^ n ≤ |al * u| ^ n := rpow_le_rpow (abs_nonneg _) habs (by linarith)
  have h0 : 0 ≤ |al * w| ^ n := rpow_nonneg (abs_nonneg _) _
  exact one_div_le_one_div_of_le (rpow_pos_of_pos (by linarith) _)
    (rpow_le_rpow (by linarith) (by linarith) hm)

theorem te_range (al n u : ℝ) (hn : 1 < n) :
    0 < 1 / ((1 + |al * u| ^ n) ^ (1 - 1 / n)) ∧ 1 / ((1 + |al * u| ^ n) ^ (1 - 1 / n)) ≤ 1 := by
  have hm : 0 ≤ 1 - 1 / n := by
    rw [sub_nonneg, div_le_one (by linarith)]; exact hn.le
  have h0 : 0 ≤ |al * u| ^ n := rpow_nonneg (abs_nonneg _) _
  have h1 : 1 ≤ (1 + |al * u| ^ n) ^ (1 - 1 / n) := one_le_rpow (by linarith) hm
  exact ⟨by positivity, by rw [div_le_one (by linarith)]; exact h1⟩

/-- Drier is drier: the Van Genuchten curves do not decrease with the head. -/
theorem C193_monotone (thr ths Ks al I n : ℝ) (h : thr ≤ ths) (hK0 : 0 < Ks) (hal : al ≠ 0)
    (hn : 1 < n) (hI : 0 ≤ I) : Monotone (vTheta thr ths al n) ∧ Monotone (vK Ks al I n) := by
  have hm : 0 < 1 - 1 / n := by
    rw [sub_pos, div_lt_one (by linarith)]; exact hn
  constructor
  · intro u w huw
    by_cases hw : 0 ≤ w
    · rw [(C62_saturated thr ths al 0 n 0 0 0 0 w hw).2.1]
      exact (C62_vangenuchten_theta thr ths al n u hn h).2
    · have hu : ¬ 0 ≤ u := by linarith
      have ht := te_mono (al := al) hn huw (by linarith)
      simp only [vTheta, atSat, hu, hw, if_false]
      have h0 : 0 ≤ ths - thr := sub_nonneg.2 h
      rw [div_eq_mul_one_div (ths - thr), div_eq_mul_one_div (ths - thr)]
      have := mul_le_mul_of_nonneg_left ht h0
      linarith
  · intro u w huw
    by_cases hw : 0 ≤ w
    · rw [(C62_saturated 0 0 al 0 n Ks 0 0 I w hw).2.2.2]
      exact (C62_vangenuchten_k Ks al I n u hK0 hn hI hal).2
    · have hu : ¬ 0 ≤ u := by linarith
      have ht := te_mono (al := al) hn huw (by linarith)
      obtain ⟨a0, a1⟩ := te_range al n u hn
      obtain ⟨b0, b1⟩ := te_range al n w hn
      simp only [vK, atSat, hu, hw, if_false]
      set a := 1 / ((1 + |al * u| ^ n) ^ (1 - 1 / n))
      set b := 1 / ((1 + |al * w| ^ n) ^ (1 - 1 / n))
      have hs : 0 ≤ 1 / (1 - 1 / n) := by positivity
      have e1 : a ^ I ≤ b ^ I := rpow_le_rpow a0.le ht hI
      have e2 : a ^ (1 / (1 - 1 / n)) ≤ b ^ (1 / (1 - 1 / n)) := rpow_le_rpow a0.le ht hs
      have e3 : b ^ (1 / (1 - 1 / n)) ≤ 1 := rpow_le_one b0.le b1 hs
      have e4 : 0 ≤ a ^ (1 / (1 - 1 / n)) := rpow_nonneg a0.le _
      have e5 : (1 - b ^ (1 / (1 - 1 / n))) ^ (1 - 1 / n) ≤ (1 - a ^ (1 / (1 - 1 / n))) ^ (1 - 1 / n) :=
        rpow_le_rpow (by linarith) (by linarith) hm.le
      have e6 : (1 - a ^ (1 / (1 - 1 / n))) ^ (1 - 1 / n) ≤ 1 :=
        rpow_le_one (by linarith) (by linarith) hm.le
      have e7 : (1 - (1 - a ^ (1 / (1 - 1 / n))) ^ (1 - 1 / n)) ^ 2 ≤
          (1 - (1 - b ^ (1 / (1 - 1 / n))) ^ (1 - 1 / n)) ^ 2 :=
        pow_le_pow_left₀ (by linarith) (by linarith) 2
      exact mul_le_mul (mul_le_mul_of_nonneg_left e1 hK0.le) e7 (sq_nonneg _)
        (mul_nonneg hK0.le (rpow_nonneg b0.le _))

/-- Every soil of the table gives two curves with the same `alpha` and `n`; for all heads given as floats
the water content lies between residual and saturated content, the conductivity is positive and at most
the saturated one (up to seven centimetres a minute), and neither decreases with the head. -/
theorem C193_soils (kw : Kwargs) (h : kw ∈ soils) :
    ∃ k t, vanGenuchten kw = .ok (k, t) ∧ k.alpha = t.alpha ∧ k.n = t.n ∧ k.I = 0.5 ∧
      0 < t.theta_r ∧ t.theta_r < t.theta_s ∧ t.theta_s < 0.5 ∧ 0 < k.Ks ∧ k.Ks < 1e-4 ∧
      (∀ u, t.theta_r ≤ callVanTheta .float t u ∧ callVanTheta .float t u ≤ t.theta_s) ∧
      (∀ u, 0 < callVanK .float k u ∧ callVanK .float k u ≤ k.Ks) ∧
      (∀ u, 0 ≤ u → callVanTheta .float t u = t.theta_s ∧ callVanK .float k u = k.Ks) ∧
      Monotone (callVanTheta .float t) ∧ Monotone (callVanK .float k) := by
  have hform : ∃ r s a n K : ℝ, kw = soil r s a n K ∧ 0 < r ∧ r < s ∧ s < 0.5 ∧ 0 < a ∧ 1 < n ∧
      0 < K ∧ K * (1 / 100) / 86400 < 1e-4 := by
    simp only [soils, List.mem_cons, List.not_mem_nil, or_false] at h
    rcases h with h | h | h | h | h | h | h | h | h | h | h <;>
      exact ⟨_, _, _, _, _, h, by norm_num, by norm_num, by norm_num, by norm_num, by norm_num,
        by norm_num, by norm_num⟩
  obtain ⟨r, s, a, n, K, rfl, hr, hrs, hs, ha, hn, hK, hK1⟩ := hform
  have hp := partition_ok (hcond := ["alpha", "n", "Ks", "I"])
    (theta := ["alpha", "n", "theta_r", "theta_s"]) (kw := soil r s a n K) (fun q hq => by
      simp only [soil, List.mem_cons, List.not_mem_nil, or_false] at hq
      rcases hq with rfl | rfl | rfl | rfl | rfl <;> simp)
  have hK' : 0 < K * (1 / 100) / 86400 := by positivity
  refine ⟨⟨K * (1 / 100) / 86400, a * 100, 0.5, n⟩, ⟨r, s, a * 100, n⟩, ?_, rfl, rfl, rfl, hr, hrs, hs,
    hK', hK1, ?_, ?_, ?_, ?_, ?_⟩
  · rw [vanGenuchten, hp]
    simp [Except.map, mkVanK, mkVanTheta, arg, soil, List.filter, dictGet]
  · exact fun u => C62_vangenuchten_theta r s (a * 100) n u hn hrs.le
  · intro u
    simp only [callVanK, store, atSat]
    split
    · exact ⟨hK', le_rfl⟩
    · exact C62_vangenuchten_k _ (a * 100) 0.5 n u hK' hn (by norm_num) (by positivity)
  · intro u hu
    exact ⟨(C62_saturated r s (a * 100) 0 n 0 0 0 0 u hu).2.1, by simp [callVanK, store, atSat, hu]⟩
  · exact (C193_monotone r s 1 (a * 100) 0 n hrs.le one_pos (by positivity) hn le_rfl).1
  · have e : callVanK .float ⟨K * (1 / 100) / 86400, a * 100, 0.5, n⟩ =
        vK (K * (1 / 100) / 86400) (a * 100) 0.5 n := by
      funext u
      simp only [callVanK, store, atSat, vK]
      split <;> rfl
    rw [e]
    exact (C193_monotone 0 1 _ (a * 100) 0.5 n zero_le_one hK' (by positivity) hn (by norm_num)).2

/-- For heads given as floats the conductivities are those of the curves; for heads given as integers too
where the soil is not saturated, and the water contents always. -/
theorem C193_floats (k : VanK) (t : VanTheta) (k' : HavK) (t' : HavTheta) (d : DType) (u : ℝ) :
    callVanK .float k u = vK k.Ks k.alpha k.I k.n u ∧
    callHavK .float k' u = hK k'.Ks k'.A k'.gamma u ∧
    (u < 0 → callVanK d k u = vK k.Ks k.alpha k.I k.n u) ∧
    (u < 0 → callHavK d k' u = hK k'.Ks k'.A k'.gamma u) ∧
    callVanTheta d t u = vTheta t.theta_r t.theta_s t.alpha t.n u ∧
    callHavTheta d t' u = hTheta t'.theta_r t'.theta_s t'.alpha t'.beta u := by
  refine ⟨?_, ?_, ?_, ?_, rfl, rfl⟩
  · simp only [callVanK, store, atSat, vK]; split <;> rfl
  · simp only [callHavK, store, atSat, hK]; split <;> rfl
  · intro h; simp [callVanK, atSat, not_le.2 h]
  · intro h; simp [callHavK, atSat, not_le.2 h]

/-- An array of integers for the heads makes a saturated soil impermeable: below one metre a second the
conductivity of saturated entries is zero, for every soil, while below saturation it is positive: it
falls when the soil becomes wet. -/
theorem C193_violated_integers :
    (∀ (k : VanK) (u : ℝ), 0 ≤ u → 0 < k.Ks → k.Ks < 1 → callVanK .int k u = 0) ∧
    (∀ (k : HavK) (u : ℝ), 0 ≤ u → 0 < k.Ks → k.Ks < 1 → callHavK .int k u = 0) ∧
    ∀ kw ∈ soils, ∀ k t, vanGenuchten kw = .ok (k, t) →
      callVanK .int k 0 = 0 ∧ 0 < callVanK .int k (-1) := by
  have hz : ∀ x : ℝ, 0 < x → x < 1 → store .int x = 0 := by
    intro x h0 h1
    simp only [store, h0.le, if_true]
    rw [Int.floor_eq_zero_iff.2 ⟨h0.le, h1⟩]
    simp
  refine ⟨?_, ?_, ?_⟩
  · intro k u hu h0 h1
    simp [callVanK, atSat, hu, hz _ h0 h1]
  · intro k u hu h0 h1
    simp [callHavK, atSat, hu, hz _ h0 h1]
  · intro kw hkw k t hk
    obtain ⟨k', t', e, -, -, -, -, -, -, h0, h1, -, hpos, -⟩ := C193_soils kw hkw
    rw [e] at hk
    injection hk with hk
    injection hk with hk1 hk2
    subst hk1
    refine ⟨by simp [callVanK, atSat, hz _ h0 (by linarith [h1])], ?_⟩
    have h2 := (C193_floats k' t ⟨0, 0, 0⟩ ⟨0, 0, 0, 0⟩ .int (-1)).2.2.1 (by norm_num)
    have h3 := (C193_floats k' t ⟨0, 0, 0⟩ ⟨0, 0, 0, 0⟩ .int (-1)).1
    rw [h2, ← h3]
    exact (hpos (-1)).1

/-- Sand, the first of the table. -/
example : soil 0.020 0.417 0.138 1.592 504 ∈ soils := by simp [soils]

/-- A mapping cannot be given to the factories. -/
example : vanGenuchten [("Ks", 1), ("KsMap", 0)] = .error .exception :=
  (C193_van_genuchten _).2 ("KsMap", 0) (by simp) (by decide)

/-- One argument, the others default. -/
example : ∀ q ∈ ([("n", 2)] : Kwargs), q.1 ∈ vanNames := by
  intro q hq
  simp only [List.mem_cons, List.not_mem_nil, or_false] at hq
  subst hq; decide

end Verif.Flow.Soils
