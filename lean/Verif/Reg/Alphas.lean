import Verif.Basic
import Mathlib.Analysis.SpecialFunctions.Pow.Real

/-! Model of the alphas, length scales and multipliers of `WeightedLeastSquares`
(`simpeg/regularization/base.py` 1721-1837, 1901-2144, 2210-2228) and of the evaluation of the
weighted sum (`simpeg/objective_function.py` 421-425, 455-470).  Numbers are real; NaN is not
modelled. -/

noncomputable section
namespace Verif.Reg.Alphas
open Verif

inductive Axis where
  | x | y | z
  deriving DecidableEq

/-- The attributes `alpha_s`, `alpha_x`.. and `alpha_xx`.., which are also the values of
`_multiplier_pair` (613, 1013-1015, 1528-1530). -/
inductive Key where
  | s
  | first (d : Axis)
  | second (d : Axis)
  deriving DecidableEq

/-- What can be assigned: `None`, a number, or something `float` does not convert. -/
inductive Arg where
  | none
  | num (v : ℝ)
  | bad

/-- The stored alphas; `base` is `regularization_mesh.base_length`. -/
structure St where
  base : ℝ
  alpha : Key → ℝ

/-- `float(value)`, the sign check and the assignment (1916-1922, 1937-1943, 2002-2008). -/
def store (s : St) (k : Key) : Arg → Except Err St
  | .none => .error .typeError
  | .bad => .error .typeError
  | .num v => if v < 0 then .error .valueError
              else .ok { s with alpha := fun k' => if k' = k then v else s.alpha k' }

/-- `length_scale_x`.. getter (2056-2072, 2086-2102, 2116-2132). -/
def lengthScale (s : St) (d : Axis) : ℝ := Real.sqrt (s.alpha (.first d)) / s.base

/-- The setters of the alphas (1912-1922, 1935-1943, 1998-2008). -/
def setAlpha (s : St) (k : Key) (a : Arg) : Except Err St :=
  match k, a with
  | .s, .none => store s .s (.num 1)
  | .second d, .none => store s (.second d) (.num ((lengthScale s d * s.base) ^ 4))
  | k, a => store s k a

/-- The setters of the length scales (2074-2084, 2104-2114, 2134-2144). -/
def setLength (s : St) (d : Axis) : Arg → Except Err St
  | .none => setAlpha s (.first d) (.num ((1 * s.base) ^ 2))
  | .bad => .error .typeError
  | .num v => setAlpha s (.first d) (.num ((v * s.base) ^ 2))

/-- An assignment. -/
inductive Op where
  | alpha (k : Key) (a : Arg)
  | length (d : Axis) (a : Arg)

/-- What an assignment does, or raises. -/
def apply (s : St) : Op → Except Err St
  | .alpha k a => setAlpha s k a
  | .length d a => setLength s d a

/-- The state after an assignment, caught if it raises. -/
def step (s : St) (o : Op) : St :=
  match apply s o with
  | .ok s' => s'
  | .error _ => s

def run (s : St) (h : List Op) : St := h.foldl step s

/-- `multipliers` (2210-2228) for components with the given `_multiplier_pair`. -/
def multipliers (s : St) (pairs : List Key) : List ℝ := pairs.map s.alpha

open Classical in
/-- `__call__` of the weighted sum (objective_function.py 455-470): members with multiplier 0 are
not evaluated. -/
def value {V : Type} (s : St) (fs : List (Key × (V → ℝ))) (m : V) : ℝ :=
  ((multipliers s (fs.map (·.1))).zip (fs.map (·.2))).foldl
    (fun acc p => if p.1 = 0 then acc else acc + p.1 * p.2 m) 0

/-- The alpha and length scale parts of the constructor for one axis (1752-1760, 1762-1770,
1772-1780). -/
def initAxis (s : St) (d : Axis) (alpha length : Arg) : Except Err St :=
  match alpha with
  | .none => setLength s d length
  | a => match length with
    | .none => setAlpha s (.first d) a
    | _ => .error .valueError

/-! ### Specification -/

/-- The attribute that an assignment concerns. -/
def Op.target : Op → Key
  | .alpha k _ => k
  | .length d _ => .first d

namespace Props

/-- What a successful assignment stores. -/
theorem apply_ok {s s' : St} {o : Op} (h : apply s o = .ok s') :
    ∃ v, 0 ≤ v ∧ s' = { s with alpha := fun k => if k = o.target then v else s.alpha k } := by
  have key : ∀ k a, store s k a = .ok s' →
      ∃ v, 0 ≤ v ∧ s' = { s with alpha := fun k' => if k' = k then v else s.alpha k' } := by
    intro k a h
    cases a with
    | none => cases h
    | bad => cases h
    | num v =>
      simp only [store] at h
      split at h
      · cases h
      · cases h
        exact ⟨v, by linarith, rfl⟩
  have keyA : ∀ k a, setAlpha s k a = .ok s' →
      ∃ v, 0 ≤ v ∧ s' = { s with alpha := fun k' => if k' = k then v else s.alpha k' } := by
    intro k a h
    unfold setAlpha at h
    split at h <;> exact key _ _ h
  cases o with
  | alpha k a => exact keyA k a h
  | length d a =>
    cases a with
    | none => exact keyA (.first d) (.num ((1 * s.base) ^ 2)) h
    | bad => cases h
    | num v => exact keyA (.first d) (.num ((v * s.base) ^ 2)) h

theorem step_frame (s : St) (o : Op) (k : Key) (h : k ≠ o.target) :
    (step s o).alpha k = s.alpha k ∧ (step s o).base = s.base := by
  unfold step
  split
  · rename_i s' h'
    obtain ⟨v, -, rfl⟩ := apply_ok h'
    simp [h]
  · exact ⟨rfl, rfl⟩

theorem step_base (s : St) (o : Op) : (step s o).base = s.base := by
  unfold step
  split
  · rename_i s' h'
    obtain ⟨v, -, rfl⟩ := apply_ok h'
    rfl
  · rfl

theorem run_base (s : St) (h : List Op) : (run s h).base = s.base := by
  induction h generalizing s with
  | nil => rfl
  | cons o os ih => rw [show run s (o :: os) = run (step s o) os from rfl, ih, step_base]

theorem run_frame (s : St) (h : List Op) (k : Key) (hk : ∀ o ∈ h, o.target ≠ k) :
    (run s h).alpha k = s.alpha k := by
  induction h generalizing s with
  | nil => rfl
  | cons o os ih =>
    rw [show run s (o :: os) = run (step s o) os from rfl,
      ih _ fun o' h' => hk o' (by simp [h'])]
    exact (step_frame s o k (fun e => hk o (by simp) e.symm)).1

/-! ### C43 -/

/-- C43. Assigning a length scale `v ≥ 0` makes the alpha `(v·base)²` and the length scale `v`,
and both stay so whatever is assigned to other attributes; `None` means 1. -/
theorem C43_length_scale (s : St) (hb : 0 < s.base) (before after : List Op) (d : Axis) (v : ℝ)
    (hv : 0 ≤ v) (ha : ∀ o ∈ after, o.target ≠ .first d) :
    let s' := run s (before ++ .length d (.num v) :: after)
    s'.alpha (.first d) = (v * s.base) ^ 2 ∧ lengthScale s' d = v ∧
    ∀ s0, step s0 (.length d .none) = step s0 (.length d (.num 1)) := by
  have hbase : (run s before).base = s.base := run_base s before
  have e : run s (before ++ .length d (.num v) :: after) =
      run (step (run s before) (.length d (.num v))) after := by
    simp [run, List.foldl_append]
  have h1 : (step (run s before) (.length d (.num v))).alpha (.first d) = (v * s.base) ^ 2 := by
    have hn : ¬ (v * (run s before).base) ^ 2 < 0 := not_lt.mpr (sq_nonneg _)
    simp only [step, apply, setLength, setAlpha, store, if_neg hn]
    simp [hbase]
  have h2 : (run s (before ++ .length d (.num v) :: after)).alpha (.first d) =
      (v * s.base) ^ 2 := by
    rw [e, run_frame _ _ _ ha, h1]
  refine ⟨h2, ?_, fun s0 => rfl⟩
  unfold lengthScale
  rw [h2, run_base, Real.sqrt_sq (by positivity)]
  field_simp

/-- C43. A negative length scale is accepted, and is read back as its absolute value. -/
theorem C43_negative_length_scale (s : St) (hb : 0 < s.base) (d : Axis) (v : ℝ) (hv : v < 0) :
    ∃ s', apply s (.length d (.num v)) = .ok s' ∧ lengthScale s' d = -v := by
  have hn : ¬ (v * s.base) ^ 2 < 0 := not_lt.mpr (sq_nonneg _)
  refine ⟨{ s with alpha := fun k => if k = .first d then (v * s.base) ^ 2 else s.alpha k },
    by simp only [apply, setLength, setAlpha, store, if_neg hn], ?_⟩
  have e : (v * s.base) ^ 2 = (-v * s.base) ^ 2 := by ring
  have hp : 0 ≤ -v * s.base := mul_nonneg (by linarith) hb.le
  simp only [lengthScale, if_true]
  rw [e, Real.sqrt_sq hp]
  field_simp

/-- C43. An assignment of an alpha raises exactly when the value is negative (`ValueError`) or
not a number (`TypeError`; `None` only for the first order alphas), and then nothing changes; else
exactly that alpha gets the value. `None` is 1 for `alpha_s` and `(length_scale·base)⁴`, the
square of the first order alpha, for the second order ones. -/
theorem C43_alpha (s : St) (hs : ∀ k, 0 ≤ s.alpha k) (hb : 0 < s.base) (k : Key) :
    (∀ v, v < 0 → apply s (.alpha k (.num v)) = .error .valueError ∧
      step s (.alpha k (.num v)) = s) ∧
    (∀ v, 0 ≤ v → apply s (.alpha k (.num v)) =
      .ok { s with alpha := fun k' => if k' = k then v else s.alpha k' }) ∧
    (apply s (.alpha k .bad) = .error .typeError ∧ step s (.alpha k .bad) = s) ∧
    (apply s (.alpha k .none) = match k with
      | .s => .ok { s with alpha := fun k' => if k' = Key.s then 1 else s.alpha k' }
      | .first _ => .error .typeError
      | .second d => .ok { s with alpha :=
          fun k' => if k' = Key.second d then s.alpha (.first d) ^ 2 else s.alpha k' }) := by
  have h1 : ∀ a, a ≠ Arg.none → setAlpha s k a = store s k a := by
    intro a ha
    cases a with
    | none => exact absurd rfl ha
    | num v => cases k <;> rfl
    | bad => cases k <;> rfl
  refine ⟨fun v hv => ?_, fun v hv => ?_, ?_, ?_⟩
  · have : apply s (.alpha k (.num v)) = .error .valueError := by
      simp only [apply]
      rw [h1 _ (by simp)]
      simp [store, hv]
    exact ⟨this, by simp [step, this]⟩
  · simp only [apply]
    rw [h1 _ (by simp)]
    simp [store, not_lt.mpr hv]
  · have : apply s (.alpha k .bad) = .error .typeError := by
      simp only [apply]
      rw [h1 _ (by simp)]
      rfl
    exact ⟨this, by simp [step, this]⟩
  · cases k with
    | s => simp [apply, setAlpha, store]
    | first d => rfl
    | second d =>
      have e : (lengthScale s d * s.base) ^ 4 = s.alpha (.first d) ^ 2 := by
        unfold lengthScale
        rw [div_mul_cancel₀ _ hb.ne', show (4 : ℕ) = 2 * 2 from rfl, pow_mul,
          Real.sq_sqrt (hs _)]
      simp only [apply, setAlpha, store, e]
      rw [if_neg (not_lt.mpr (sq_nonneg _))]

/-- C43. Alphas never become negative, in any history. -/
theorem C43_nonneg (s : St) (hs : ∀ k, 0 ≤ s.alpha k) (h : List Op) (k : Key) :
    0 ≤ (run s h).alpha k := by
  induction h generalizing s with
  | nil => exact hs k
  | cons o os ih =>
    rw [show run s (o :: os) = run (step s o) os from rfl]
    refine ih _ fun k' => ?_
    unfold step
    split
    · rename_i s' h'
      obtain ⟨v, hv, rfl⟩ := apply_ok h'
      simp only
      split
      · exact hv
      · exact hs k'
    · exact hs k'

/-- C43. The value of the regularisation is the sum of its members weighted with the alphas as
they are at the time of the evaluation. -/
theorem C43_objective {V : Type} (s : St) (fs : List (Key × (V → ℝ))) (m : V) :
    value s fs m = (fs.map fun p => s.alpha p.1 * p.2 m).sum := by
  have key : ∀ (fs : List (Key × (V → ℝ))) (acc : ℝ),
      ((multipliers s (fs.map (·.1))).zip (fs.map (·.2))).foldl
        (fun acc p => if p.1 = 0 then acc else acc + p.1 * p.2 m) acc =
      acc + (fs.map fun p => s.alpha p.1 * p.2 m).sum := by
    intro fs
    induction fs with
    | nil => intro acc; simp [multipliers]
    | cons p ps ih =>
      intro acc
      simp only [multipliers, List.map_cons, List.zip_cons_cons, List.foldl_cons, List.sum_cons]
      have := ih (if s.alpha p.1 = 0 then acc else acc + s.alpha p.1 * p.2 m)
      simp only [multipliers] at this
      rw [this]
      split
      · rename_i h; rw [h]; ring
      · ring
  have := key fs 0
  rw [zero_add] at this
  exact this

/-- C43. The constructor takes the alpha or the length scale of an axis, not both: giving both
raises `ValueError`; an alpha is stored, a length scale `v` gives `(v·base)²`, and giving neither
is length scale 1. -/
theorem C43_constructor (s : St) (d : Axis) (u v : ℝ) (hu : 0 ≤ u) :
    initAxis s d (.num u) (.num v) = .error .valueError ∧
    (∃ s', initAxis s d (.num u) .none = .ok s' ∧ s'.alpha (.first d) = u) ∧
    (∃ s', initAxis s d .none (.num v) = .ok s' ∧ s'.alpha (.first d) = (v * s.base) ^ 2) ∧
    (∃ s', initAxis s d .none .none = .ok s' ∧ s'.alpha (.first d) = s.base ^ 2) := by
  have key : ∀ w : ℝ, 0 ≤ w → ∃ s', setAlpha s (.first d) (.num w) = .ok s' ∧
      s'.alpha (.first d) = w := by
    intro w hw
    refine ⟨{ s with alpha := fun k' => if k' = Key.first d then w else s.alpha k' }, ?_, ?_⟩
    · simp [setAlpha, store, not_lt.mpr hw]
    · simp
  refine ⟨rfl, key u hu, key _ (sq_nonneg _), ?_⟩
  obtain ⟨s', h1, h2⟩ := key ((1 * s.base) ^ 2) (sq_nonneg _)
  exact ⟨s', h1, by rw [h2, one_mul]⟩

/-- A history to which the theorems apply. -/
example : ∃ s : St, 0 < s.base ∧ (∀ k, 0 ≤ s.alpha k) ∧
    lengthScale (run s [.alpha (.first .x) (.num 7), .length .x (.num 5), .alpha .s (.num (-1)),
      .length .y (.num 2)]) .x = 5 := by
  refine ⟨⟨3, fun _ => 1⟩, by norm_num, fun _ => zero_le_one, ?_⟩
  have := (C43_length_scale ⟨3, fun _ => 1⟩ (by norm_num) [.alpha (.first .x) (.num 7)]
    [.alpha .s (.num (-1)), .length .y (.num 2)] .x 5 (by norm_num) (by
      intro o ho
      simp only [List.mem_cons, List.not_mem_nil, or_false] at ho
      rcases ho with rfl | rfl <;> simp [Op.target])).2.1
  exact this

end Props
end Verif.Reg.Alphas
