import Verif.Optim.Stoppers
import Mathlib.Data.Real.Basic
import Mathlib.Data.Real.Sqrt
import Mathlib.LinearAlgebra.Matrix.DotProduct
import Mathlib.Data.Fintype.BigOperators
import Mathlib.Tactic.Linarith
import Mathlib.Tactic.NormNum
import Mathlib.Tactic.FieldSimp
import Mathlib.Tactic.Positivity
import Mathlib.Tactic.FinCases
import Mathlib.Order.ConditionallyCompleteLattice.Finset
import Mathlib.Data.Fin.VecNotation

/-! Model of the projected Armijo line search and of the scaling of the search direction
(`simpeg/optimization.py` 122-190, 700-782), with C24 and C28. -/

noncomputable section
namespace Verif.Optim
open Verif Matrix Classical

variable {n : Nat}

abbrev V (n : Nat) := Fin n → ℝ

/-- The attributes the line search reads. `binding` is the predicate of `bindingSet_LS`
(183-188): all components of the trial are in the binding set; it is only among the stoppers
of `ProjectedGradient` (1145), elsewhere it is `none`. -/
structure LS (n : Nat) where
  proj : V n → V n
  maxIterLS : Nat
  reduction : ℝ
  curvature : ℝ
  shorten : ℝ
  wolfe : Bool
  binding : Option (V n → Prop)

/-- The quantities of the current iteration: objective, its gradient (used by Wolfe), the
current point, value and gradient there, and the step. -/
structure LSIn (n : Nat) where
  phi : V n → ℝ
  grad : V n → V n
  xc : V n
  f : ℝ
  g : V n
  p : V n

/-- The trial point for step length `t` (755). -/
def trial (L : LS n) (I : LSIn n) (t : ℝ) : V n := L.proj (I.xc + t • I.p)

/-- `armijoGoldstein` (139-144) at a trial point: `ft <= f + LSreduction * descent`. -/
def armijo (L : LS n) (I : LSIn n) (xt : V n) : Prop :=
  I.phi xt ≤ I.f + L.reduction * (I.g ⬝ᵥ (xt - I.xc))

/-- `WolfeCurvature` (146-151). -/
def wolfeCond (L : LS n) (I : LSIn n) (xt : V n) : Prop :=
  -(I.grad xt ⬝ᵥ (xt - I.xc)) ≤ -L.curvature * (I.g ⬝ᵥ (xt - I.xc))

/-- The evaluated `stoppersLS` (401-407, 1145). -/
def stoppersLS (L : LS n) (I : LSIn n) (xt : V n) (iterLS : Nat) : List Stopper :=
  [(.optimal, decide (armijo L I xt)), (.critical, decide (L.maxIterLS ≤ iterLS))] ++
  (if L.wolfe then [(.optimal, decide (wolfeCond L I xt))] else []) ++
  (match L.binding with
   | none => []
   | some b => [(.critical, decide (b xt))])

/-- The loop 754-773. `left` is `maxIterLS - iterLS`; `xt` is `_LS_xt`. Returns the last trial,
`iterLS`, and the trial points evaluated, in order. -/
def lsLoop (L : LS n) (I : LSIn n) : Nat → Nat → ℝ → V n → V n × Nat × List (V n)
  | 0, it, _, xt => (xt, it, [])
  | left + 1, it, t, _ =>
    let xt := trial L I t
    if checkStoppers (stoppersLS L I xt it) then (xt, it, [xt])
    else
      let r := lsLoop L I left (it + 1) (L.shorten * t) xt
      (r.1, r.2.1, xt :: r.2.2)

/-- `modifySearchDirection` (724-782). With `maxIterLS = 0` the attribute `_LS_xt` read at the
end does not exist (on the first call) and AttributeError is raised. -/
def modifySearchDirection (L : LS n) (I : LSIn n) : Except Err (V n × Bool × List (V n)) :=
  if L.maxIterLS = 0 then .error .attributeError
  else
    let r := lsLoop L I L.maxIterLS 0 1 I.xc
    .ok (r.1, decide (r.2.1 < L.maxIterLS), r.2.2)

/-- `p.max()`. -/
def pmax [NeZero n] (p : V n) : ℝ := Finset.univ.sup' ⟨0, Finset.mem_univ _⟩ p

/-- `scaleSearchDirection` (700-719), `maxStep = none` is `inf`. -/
def scaleSearchDirection [NeZero n] (maxStep : Option ℝ) (p : V n) : V n :=
  match maxStep with
  | none => p
  | some s => if s < |pmax p| then (s / |pmax p|) • p else p

namespace Props

/-- The decision the line search takes at a trial point within its loop. -/
def Accepted (L : LS n) (I : LSIn n) (xt : V n) : Prop :=
  (armijo L I xt ∧ (L.wolfe = true → wolfeCond L I xt)) ∨ ∃ b, L.binding = some b ∧ b xt

theorem check_iff (L : LS n) (I : LSIn n) (xt : V n) (it : Nat) (h : it < L.maxIterLS) :
    checkStoppers (stoppersLS L I xt it) = true ↔ Accepted L I xt := by
  have hd : decide (L.maxIterLS ≤ it) = false := by simp; omega
  rw [C23_decision]
  unfold stoppersLS Accepted
  rw [hd]
  cases hw : L.wolfe <;> cases hb : L.binding <;> simp <;>
    by_cases ha : armijo L I xt <;> by_cases hw' : wolfeCond L I xt <;> simp [ha, hw']

/-- What the loop does, from any of its states. -/
theorem lsLoop_spec (L : LS n) (I : LSIn n) : ∀ (left it : Nat) (t : ℝ) (x : V n),
    left + it = L.maxIterLS →
    let r := lsLoop L I left it t x
    (r.2.1 < L.maxIterLS → ∃ k, k < left ∧ r.2.1 = it + k ∧ r.1 = trial L I (L.shorten ^ k * t) ∧
      Accepted L I r.1 ∧ (∀ j < k, ¬ Accepted L I (trial L I (L.shorten ^ j * t))) ∧
      r.2.2 = (List.range (k + 1)).map fun j => trial L I (L.shorten ^ j * t)) ∧
    (¬ r.2.1 < L.maxIterLS → r.2.1 = L.maxIterLS ∧
      (∀ j < left, ¬ Accepted L I (trial L I (L.shorten ^ j * t))) ∧
      r.1 = (if left = 0 then x else trial L I (L.shorten ^ (left - 1) * t)) ∧
      r.2.2 = (List.range left).map fun j => trial L I (L.shorten ^ j * t))
  | 0, it, t, x, h => by
    have : it = L.maxIterLS := by omega
    subst this
    simp [lsLoop]
  | left + 1, it, t, x, h => by
    have hlt : it < L.maxIterLS := by omega
    simp only [lsLoop]
    by_cases hc : Accepted L I (trial L I t)
    · rw [if_pos ((check_iff L I _ it hlt).mpr hc)]
      refine ⟨fun _ => ⟨0, by omega, by simp, by simp, hc, by simp, by simp⟩, fun hn => absurd hlt hn⟩
    · rw [if_neg (fun e => hc ((check_iff L I _ it hlt).mp e))]
      have ih := lsLoop_spec L I left (it + 1) (L.shorten * t) (trial L I t) (by omega)
      simp only at ih ⊢
      generalize lsLoop L I left (it + 1) (L.shorten * t) (trial L I t) = r at ih ⊢
      have hpow : ∀ j, L.shorten ^ j * (L.shorten * t) = L.shorten ^ (j + 1) * t := by
        intro j; ring
      simp only [hpow] at ih
      have hrange : ∀ m, trial L I t :: (List.range m).map (fun j => trial L I (L.shorten ^ (j + 1) * t))
          = (List.range (m + 1)).map fun j => trial L I (L.shorten ^ j * t) := by
        intro m
        rw [List.range_succ_eq_map, List.map_cons, List.map_map]
        simp [Function.comp_def]
      constructor
      · intro hr
        obtain ⟨k, h1, h2, h3, h4, h5, h6⟩ := ih.1 hr
        refine ⟨k + 1, by omega, by omega, h3, h4, ?_, by rw [h6, hrange]⟩
        intro j hj
        cases j with
        | zero => simpa using hc
        | succ j => exact h5 j (by omega)
      · intro hr
        obtain ⟨h1, h2, h3, h4⟩ := ih.2 hr
        refine ⟨h1, ?_, ?_, by rw [h4, hrange]⟩
        · intro j hj
          cases j with
          | zero => simpa using hc
          | succ j => exact h2 j (by omega)
        · rw [h3]
          cases left with
          | zero => simp
          | succ m => simp

/-- C24. When the line search reports success (no binding-set stopper), the returned point is
`projection(xc + LSshorten^k p)` for some `k < maxIterLS`, it satisfies the sufficient
decrease inequality (and the curvature condition, if enabled), and it is the first of the
backtracking points that does. -/
theorem C24_success (L : LS n) (hb : L.binding = none) (I : LSIn n) (xt : V n) (ev : List (V n))
    (h : modifySearchDirection L I = .ok (xt, true, ev)) :
    ∃ k, k < L.maxIterLS ∧ xt = L.proj (I.xc + L.shorten ^ k • I.p) ∧
      I.phi xt ≤ I.f + L.reduction * (I.g ⬝ᵥ (xt - I.xc)) ∧
      (L.wolfe = true → wolfeCond L I xt) ∧
      ∀ j < k, ¬ (armijo L I (trial L I (L.shorten ^ j)) ∧
        (L.wolfe = true → wolfeCond L I (trial L I (L.shorten ^ j)))) := by
  unfold modifySearchDirection at h
  split at h
  · cases h
  · simp only [Except.ok.injEq, Prod.mk.injEq, decide_eq_true_eq] at h
    obtain ⟨h1, h2, -⟩ := h
    obtain ⟨k, a, -, c, d, e, -⟩ := (lsLoop_spec L I L.maxIterLS 0 1 I.xc (by omega)).1 h2
    rw [h1] at c d
    have hacc : ∀ x, Accepted L I x ↔ (armijo L I x ∧ (L.wolfe = true → wolfeCond L I x)) := by
      intro x; simp [Accepted, hb]
    rw [hacc] at d
    refine ⟨k, a, by simpa [trial] using c, d.1, d.2, fun j hj => ?_⟩
    have := e j hj
    rw [hacc, mul_one] at this
    exact this

/-- C24. Failure is reported exactly when no backtracking point up to the limit is accepted;
and in every case at most `maxIterLS` points are evaluated, all of them backtracking points. -/
theorem C24_bounded (L : LS n) (I : LSIn n) (hm : L.maxIterLS ≠ 0) :
    ∃ xt pass ev, modifySearchDirection L I = .ok (xt, pass, ev) ∧
      (pass = false ↔ ∀ j < L.maxIterLS, ¬ Accepted L I (trial L I (L.shorten ^ j))) ∧
      ev.length ≤ L.maxIterLS ∧ xt ∈ ev ∧
      ∀ y ∈ ev, ∃ j < L.maxIterLS, y = L.proj (I.xc + L.shorten ^ j • I.p) := by
  have hs := lsLoop_spec L I L.maxIterLS 0 1 I.xc (by omega)
  simp only [mul_one, hm, if_false] at hs
  refine ⟨_, _, _, by unfold modifySearchDirection; rw [if_neg hm], ?_, ?_⟩
  · by_cases hlt : (lsLoop L I L.maxIterLS 0 1 I.xc).2.1 < L.maxIterLS
    · obtain ⟨k, a, -, c, d, e, f⟩ := hs.1 hlt
      simp only [hlt, decide_true, Bool.true_eq_false, false_iff, not_forall]
      exact ⟨k, a, by rw [← c]; simpa using d⟩
    · obtain ⟨-, b, -⟩ := hs.2 hlt
      simp only [hlt, decide_false, true_iff]
      exact b
  · by_cases hlt : (lsLoop L I L.maxIterLS 0 1 I.xc).2.1 < L.maxIterLS
    · obtain ⟨k, a, -, c, d, e, f⟩ := hs.1 hlt
      rw [f, c]
      refine ⟨by simp; omega, by
        simp only [List.mem_map, List.mem_range]; exact ⟨k, by omega, rfl⟩, ?_⟩
      intro y hy
      simp only [List.mem_map, List.mem_range] at hy
      obtain ⟨j, hj, rfl⟩ := hy
      exact ⟨j, by omega, rfl⟩
    · obtain ⟨-, b, c, d⟩ := hs.2 hlt
      rw [d, c]
      refine ⟨by simp, by
        simp only [List.mem_map, List.mem_range]; exact ⟨L.maxIterLS - 1, by omega, rfl⟩, ?_⟩
      intro y hy
      simp only [List.mem_map, List.mem_range] at hy
      obtain ⟨j, hj, rfl⟩ := hy
      exact ⟨j, hj, rfl⟩

/-- C24 fails for `ProjectedGradient`: its extra line-search stopper accepts a trial with all
components in the binding set whatever the objective does there. -/
theorem C24_binding_accepts_increase : ∃ (L : LS 1) (I : LSIn 1) (xt : V 1) (ev : List (V 1)),
    L.binding.isSome ∧ modifySearchDirection L I = .ok (xt, true, ev) ∧
    ¬ I.phi xt ≤ I.f + L.reduction * (I.g ⬝ᵥ (xt - I.xc)) := by
  let L : LS 1 := ⟨fun x => fun i => max (x i) 0, 10, 0, 0, 1 / 2, false,
    some fun x => ∀ i, x i ≤ 0 ∧ (0 : ℝ) ≤ 1⟩
  let I : LSIn 1 := ⟨fun x => if x 0 = 0 then 5 else x 0, fun _ _ => 1, fun _ => 1, 1, fun _ => 1,
    fun _ => -1⟩
  have hx : trial L I 1 = fun _ => 0 := by
    funext i; simp [trial, L, I]
  have hacc : Accepted L I (trial L I 1) := by
    right
    refine ⟨_, rfl, ?_⟩
    rw [hx]
    intro i
    simp
  have hck := (check_iff L I (trial L I 1) 0 (by simp [L])).mpr hacc
  refine ⟨L, I, trial L I 1, [trial L I 1], by simp [L], ?_, ?_⟩
  · unfold modifySearchDirection
    have hl : L.maxIterLS = 9 + 1 := rfl
    rw [if_neg (by omega), hl, lsLoop]
    simp [hck]
  · rw [hx]
    simp [I, L]

/-- A non-trivial successful search: `phi = x²` from `x = 1` with an overshooting step; the
first trial `x = -2` is rejected, the second `x = -1/2` is accepted. -/
example : let L : LS 1 := ⟨id, 10, 1 / 10000, 9 / 10, 1 / 2, false, none⟩
    let I : LSIn 1 := ⟨fun x => x 0 ^ 2, fun x i => 2 * x i, fun _ => 1, 1, fun _ => 2, fun _ => -3⟩
    ¬ armijo L I (trial L I ((1 / 2) ^ 0)) ∧ armijo L I (trial L I ((1 / 2) ^ 1)) := by
  simp [armijo, trial, dotProduct]
  norm_num

/-! ### C28 -/

theorem le_pmax [NeZero n] (p : V n) (i : Fin n) : p i ≤ pmax p :=
  Finset.le_sup' p (Finset.mem_univ i)

theorem exists_pmax [NeZero n] (p : V n) : ∃ i, pmax p = p i := by
  obtain ⟨i, -, h⟩ := Finset.exists_mem_eq_sup' (s := (Finset.univ : Finset (Fin n)))
    ⟨0, Finset.mem_univ _⟩ p
  exact ⟨i, h⟩

/-- C28, the part that holds: the result is a non-negative multiple of the direction, equal to
it when `maxStep` is infinite; its largest signed component is at most `maxStep` in absolute
value. Hence when a component of largest magnitude is non-negative, no component exceeds
`maxStep` in magnitude. -/
theorem C28_scaling_partial [NeZero n] (s : ℝ) (hs : 0 ≤ s) (p : V n) :
    (∃ c : ℝ, 0 ≤ c ∧ scaleSearchDirection (some s) p = c • p) ∧
    scaleSearchDirection none p = p ∧
    |pmax (scaleSearchDirection (some s) p)| ≤ s ∧
    ((∃ i, 0 ≤ p i ∧ ∀ j, |p j| ≤ p i) → ∀ j, |scaleSearchDirection (some s) p j| ≤ s) := by
  have hscale : ∀ c : ℝ, 0 ≤ c → pmax (c • p) = c * pmax p := by
    intro c hc
    obtain ⟨i, hi⟩ := exists_pmax p
    apply le_antisymm
    · obtain ⟨j, hj⟩ := exists_pmax (c • p)
      rw [hj, Pi.smul_apply, smul_eq_mul]
      exact mul_le_mul_of_nonneg_left (le_pmax p j) hc
    · rw [hi]
      have := le_pmax (c • p) i
      simpa using this
  refine ⟨?_, rfl, ?_, ?_⟩
  · unfold scaleSearchDirection
    simp only
    split
    · exact ⟨s / |pmax p|, by positivity, rfl⟩
    · exact ⟨1, by norm_num, by simp⟩
  · unfold scaleSearchDirection
    simp only
    split
    · next h =>
      rw [hscale _ (by positivity), abs_mul, abs_of_nonneg (by positivity : 0 ≤ s / |pmax p|)]
      have : |pmax p| ≠ 0 := by linarith [hs] |> fun h0 : 0 < |pmax p| => h0.ne'
      rw [div_mul_cancel₀ _ this]
    · next h => exact not_lt.mp h
  · rintro ⟨i, hi, hmax⟩ j
    have hpm : pmax p = p i := le_antisymm (by
      obtain ⟨k, hk⟩ := exists_pmax p
      rw [hk]; exact le_trans (le_abs_self _) (hmax k)) (le_pmax p i)
    have habs : |pmax p| = p i := by rw [hpm, abs_of_nonneg hi]
    unfold scaleSearchDirection
    simp only
    rw [habs]
    split
    · next h =>
      have h0 : 0 < p i := by linarith
      rw [Pi.smul_apply, smul_eq_mul, abs_mul, abs_of_nonneg (by positivity : 0 ≤ s / p i)]
      calc s / p i * |p j| ≤ s / p i * p i := by
            apply mul_le_mul_of_nonneg_left (hmax j); positivity
        _ = s := div_mul_cancel₀ _ h0.ne'
    · next h => exact le_trans (hmax j) (not_lt.mp h)

/-- C28 fails: `np.abs(p.max())` ignores large negative components, so the step is not
limited at all. -/
theorem C28_negative_component_unlimited (s B : ℝ) (hs : 0 < s) :
    ∃ p : V 2, B < |scaleSearchDirection (some s) p 0| := by
  refine ⟨![-(|B| + 1), 0], ?_⟩
  have hm : pmax ![-(|B| + 1), 0] = 0 := by
    obtain ⟨i, hi⟩ := exists_pmax ![-(|B| + 1), 0]
    have h1 := le_pmax ![-(|B| + 1), (0 : ℝ)] 1
    have := abs_nonneg B
    fin_cases i
    · simp at hi h1; linarith
    · simpa using hi
  unfold scaleSearchDirection
  simp only [hm, abs_zero]
  rw [if_neg (by linarith)]
  have h0 := abs_nonneg B
  simp only [cons_val_zero, abs_neg]
  rw [abs_of_nonneg (by linarith)]
  linarith [le_abs_self B]

/-- C28. Exactly when the step is limited: for a positive `maxStep`, no component of the result
exceeds it if and only if no component of the direction exceeds both `maxStep` and the absolute
value of the largest signed component. -/
theorem C28_limited_iff [NeZero n] (s : ℝ) (hs : 0 < s) (p : V n) :
    (∀ j, |scaleSearchDirection (some s) p j| ≤ s) ↔ ∀ j, |p j| ≤ max s |pmax p| := by
  unfold scaleSearchDirection
  simp only
  split
  · next h =>
    have h0 : 0 < |pmax p| := hs.trans h
    refine forall_congr' fun j => ?_
    rw [max_eq_right h.le, Pi.smul_apply, smul_eq_mul, abs_mul, abs_of_pos (div_pos hs h0),
      div_mul_eq_mul_div, div_le_iff₀ h0, mul_le_mul_iff_right₀ hs]
  · next h =>
    rw [max_eq_left (not_lt.mp h)]

/-- Both sides occur: the direction `(4, -2)` is limited, the direction `(0, -2)` is not. -/
example : (∀ j, |(![4, -2] : V 2) j| ≤ max 1 |pmax (![4, -2] : V 2)|) ∧
    ¬ ∀ j, |(![0, -2] : V 2) j| ≤ max 1 |pmax (![0, -2] : V 2)| := by
  constructor
  · intro j
    have h := le_pmax (![4, -2] : V 2) 0
    have h4 : (4 : ℝ) ≤ |pmax (![4, -2] : V 2)| := le_trans (by simpa using h) (le_abs_self _)
    refine le_trans ?_ (le_max_of_le_right h4)
    fin_cases j <;> norm_num
  · intro h
    have hm : pmax (![0, -2] : V 2) = 0 := by
      apply le_antisymm
      · obtain ⟨i, hi⟩ := exists_pmax (![0, -2] : V 2)
        rw [hi]; fin_cases i <;> norm_num
      · exact le_pmax (![0, -2] : V 2) 0
    have := h 1
    rw [hm] at this
    norm_num at this

example : scaleSearchDirection (some 1) ![4, -2] = ![1, -1 / 2] := by
  have hm : pmax ![(4 : ℝ), -2] = 4 := by
    apply le_antisymm
    · obtain ⟨i, hi⟩ := exists_pmax ![(4 : ℝ), -2]
      rw [hi]; fin_cases i <;> norm_num
    · exact le_pmax ![(4 : ℝ), -2] 0
  unfold scaleSearchDirection
  simp only [hm]
  rw [if_pos (by norm_num)]
  ext i; fin_cases i <;> norm_num

end Props
end Verif.Optim
