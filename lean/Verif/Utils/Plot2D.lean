import Verif.Basic
import Mathlib.Analysis.SpecialFunctions.Trigonometric.Basic
import Mathlib.Analysis.SpecialFunctions.Trigonometric.Arctan
import Mathlib.Analysis.SpecialFunctions.Log.Base
import Mathlib.Analysis.SpecialFunctions.Pow.Real
import Mathlib.Tactic.Linarith
import Mathlib.Tactic.FieldSimp
import Mathlib.Tactic.Ring
import Mathlib.Tactic.Positivity

/-! Model of the limits, levels, options and shades of `plot2Ddata`
(`simpeg/utils/plot_utils.py` 8-270), for C200. -/

noncomputable section
namespace Verif.Utils.Plot2D
open Verif

/-- A dictionary of options with numbers. Keys come once. -/
abbrev Opts := List (String × ℝ)

/-- `np.isclose(a, b)`. -/
def isclose (a b : ℝ) : Prop := |a - b| ≤ 1 / 10 ^ 8 + 1 / 10 ^ 5 * |b|

/-- `opts.pop(key)` for a key of the dictionary: what is left. -/
def pop (k : String) (o : Opts) : Opts := o.filter fun kv => kv.1 != k

open Classical in
/-- One pass of the loop over `vmin` and `vmax` (113-127): the dictionary after it, and the limit or
the exception. The dictionary is the one of the caller (104-105 make one only when none is given). -/
def limitPass (k : String) (lim : Option ℝ) (o : Opts) : Opts × Except Err (Option ℝ) :=
  match o.lookup k with
  | none => (o, .ok lim)
  | some v =>
    match lim with
    | none => (pop k o, .ok (some v))
    | some l => if isclose v l then (pop k o, .ok (some l)) else (o, .error .exception)

/-- Lines 99-128: limits from `clim` (its least and largest number, which are `min lo hi` and
`max lo hi` for the two numbers `lo`, `hi`) and from the options. -/
def limits (clim : Option (ℝ × ℝ)) (o : Opts) : Opts × Except Err (Option ℝ × Option ℝ) :=
  let v0 := clim.map fun c => min c.1 c.2
  let v1 := clim.map fun c => max c.1 c.2
  match limitPass "vmin" v0 o with
  | (o, .error e) => (o, .error e)
  | (o, .ok a) =>
    match limitPass "vmax" v1 o with
    | (o, .error e) => (o, .error e)
    | (o, .ok b) => (o, .ok (a, b))

/-- `np.linspace(a, b, n + 1)`. -/
def linspace (a b : ℝ) (n : Nat) (i : Nat) : ℝ := a + i * ((b - a) / n)

/-- The levels of the contours (160-165, 205-210): entry `i` of `ncontour + 1`. -/
def level (log : Bool) (vmin vmax : ℝ) (ncontour : Nat) (i : Nat) : ℝ :=
  if log then (10 : ℝ) ^ linspace (Real.logb 10 vmin) (Real.logb 10 vmax) ncontour i
  else linspace vmin vmax ncontour i

/-- The limits from the data (152-158, 199-203): the least and largest of the finite values
(`none` is NaN or infinite), of their absolute values when the scale is logarithmic; `none`: no
finite value, ValueError of numpy. -/
def dataLimits (log : Bool) (data : List (Option ℝ)) : Except Err (ℝ × ℝ) :=
  let d := data.filterMap fun x => if log then x.map (|·|) else x
  match d with
  | [] => .error .valueError
  | x :: xs => .ok (xs.foldl min x, xs.foldl max x)

/-- `hillshade` (230-243) of one point, with the two derivatives of the data. `arctan2 x y` is any
number: only its cosine's bounds matter. -/
def hillshade (arctan2 : ℝ → ℝ → ℝ) (x y azimuth altitude : ℝ) : ℝ :=
  let azimuth := 360 - azimuth;
  let slope := Real.pi / 2 - Real.arctan (Real.sqrt (x * x + y * y));
  let aspect := arctan2 (-x) y;
  let az := azimuth * Real.pi / 180;
  let al := altitude * Real.pi / 180;
  let shaded := Real.sin al * Real.sin slope +
    Real.cos al * Real.cos slope * Real.cos ((az - Real.pi / 2) - aspect);
  255 * (shaded + 1) / 2

/-- Keyword arguments of a call: Python raises TypeError when a name comes twice. -/
def callKw (explicit : List String) (kw : List String) : Except Err Unit :=
  if explicit.any fun k => kw.contains k then .error .typeError else .ok ()

/-- The keys of `{"levels": levels, "zorder": 3, **levelOpts}` (177, 225). -/
def levelKeys (levelOpts : List String) : List String :=
  "levels" :: "zorder" :: levelOpts.filter fun k => k != "levels" && k != "zorder"

/-- What happens after the limits (175-178, 224-226, 264-266), as far as errors go: `vec`, `level`, an axes object
given, and a name of a figure. UnboundLocalError is `exception`. -/
def finish (vec level ax figname : Bool) (levelOpts : List String) : Except Err Unit := do
  if level then
    if vec then callKw ["levels", "zorder"] (levelKeys levelOpts)
    else callKw [] (levelKeys levelOpts)
  if figname && ax then .error .exception
  return ()

namespace Props

/-! ### C200 -/

theorem lookup_pop_self (k : String) (o : Opts) : (pop k o).lookup k = none := by
  rw [List.lookup_eq_none_iff]
  intro p hp
  simp only [pop, List.mem_filter] at hp
  have := hp.2
  rw [bne_iff_ne] at this
  rw [bne_iff_ne]
  exact fun h => this h.symm

theorem lookup_pop_ne (k k' : String) (h : k' ≠ k) (o : Opts) : (pop k o).lookup k' = o.lookup k' := by
  induction o with
  | nil => rfl
  | cons kv o ih =>
    unfold pop at ih ⊢
    rw [List.filter_cons]
    by_cases hk : kv.1 = k
    · have h2 : (k' == kv.1) = false := by simpa [hk] using h
      simp only [hk, bne_self_eq_false, Bool.false_eq_true, if_false]
      rw [ih, List.lookup_cons, h2]
    · have h3 : (kv.1 != k) = true := by simpa using hk
      rw [if_pos h3, List.lookup_cons, List.lookup_cons, ih]

/-- The limit that was meant: the one of `clim`, else that of the options. -/
def wanted (c : Option ℝ) (o : Option ℝ) : Option ℝ := c.orElse fun _ => o

/-- The two do not contradict each other: they differ by no more than rounding, one in a hundred
thousand and 0.00000001. -/
def Agree (c : Option ℝ) (o : Option ℝ) : Prop :=
  ∀ l v, c = some l → o = some v → |v - l| ≤ 1 / 10 ^ 8 + 1 / 10 ^ 5 * |l|

theorem limitPass_ok (k : String) (lim : Option ℝ) (o : Opts) (h : Agree lim (o.lookup k)) :
    (limitPass k lim o).2 = .ok (wanted lim (o.lookup k)) ∧
    (limitPass k lim o).1.lookup k = none ∧
    ∀ k', k' ≠ k → (limitPass k lim o).1.lookup k' = o.lookup k' := by
  unfold limitPass
  cases ho : o.lookup k with
  | none => cases lim <;> simp [wanted, ho]
  | some v =>
    cases lim with
    | none => exact ⟨rfl, lookup_pop_self k o, fun k' hk => lookup_pop_ne k k' hk o⟩
    | some l =>
      simp only
      rw [if_pos (show isclose v l from h l v rfl ho)]
      exact ⟨rfl, lookup_pop_self k o, fun k' hk => lookup_pop_ne k k' hk o⟩

theorem limitPass_error (k : String) (lim : Option ℝ) (o : Opts) (h : ¬ Agree lim (o.lookup k)) :
    (limitPass k lim o).2 = .error .exception := by
  unfold limitPass
  cases ho : o.lookup k with
  | none => exact absurd (fun l v _ h2 => by rw [ho] at h2; simp at h2) h
  | some v =>
    cases lim with
    | none => exact absurd (fun l v h1 _ => by simp at h1) h
    | some l =>
      simp only
      rw [if_neg]
      intro hc
      apply h
      intro l' v' h1 h2
      rw [ho] at h2
      simp only [Option.some.injEq] at h1 h2
      subst h1 h2
      exact hc

/-- C200. The colour limits are the least and the largest number of `clim`, or those of the options
where `clim` is missing; an exception is raised exactly when both are given and differ. -/
theorem C200_limits (clim : Option (ℝ × ℝ)) (o : Opts) :
    let c0 := clim.map fun c => min c.1 c.2
    let c1 := clim.map fun c => max c.1 c.2
    (Agree c0 (o.lookup "vmin") ∧ Agree c1 (o.lookup "vmax") →
      (limits clim o).2 = .ok (wanted c0 (o.lookup "vmin"), wanted c1 (o.lookup "vmax"))) ∧
    (¬ (Agree c0 (o.lookup "vmin") ∧ Agree c1 (o.lookup "vmax")) →
      (limits clim o).2 = .error .exception) := by
  intro c0 c1
  have hne : "vmax" ≠ "vmin" := by decide
  constructor
  · rintro ⟨h0, h1⟩
    obtain ⟨a1, -, a3⟩ := limitPass_ok "vmin" c0 o h0
    unfold limits
    change (match limitPass "vmin" c0 o with
      | (o, .error e) => (o, .error e)
      | (o, .ok a) => match limitPass "vmax" c1 o with
        | (o, .error e) => (o, .error e)
        | (o, .ok b) => (o, .ok (a, b)) : Opts × Except Err (Option ℝ × Option ℝ)).2 = _
    rcases hp : limitPass "vmin" c0 o with ⟨o', r⟩
    rw [hp] at a1 a3
    simp only at a1 a3
    subst a1
    have e := a3 "vmax" hne
    rw [← e] at h1
    obtain ⟨b1, -, -⟩ := limitPass_ok "vmax" c1 o' h1
    rcases hq : limitPass "vmax" c1 o' with ⟨o'', r'⟩
    rw [hq] at b1
    simp only at b1
    subst b1
    simp only [hq, e]
  · intro hn
    unfold limits
    change (match limitPass "vmin" c0 o with
      | (o, .error e) => (o, .error e)
      | (o, .ok a) => match limitPass "vmax" c1 o with
        | (o, .error e) => (o, .error e)
        | (o, .ok b) => (o, .ok (a, b)) : Opts × Except Err (Option ℝ × Option ℝ)).2 = _
    by_cases h0 : Agree c0 (o.lookup "vmin")
    · obtain ⟨a1, -, a3⟩ := limitPass_ok "vmin" c0 o h0
      rcases hp : limitPass "vmin" c0 o with ⟨o', r⟩
      rw [hp] at a1 a3
      simp only at a1 a3
      subst a1
      have h1 : ¬ Agree c1 (o'.lookup "vmax") := by
        rw [a3 "vmax" hne]
        exact fun h1 => hn ⟨h0, h1⟩
      have b1 := limitPass_error "vmax" c1 o' h1
      rcases hq : limitPass "vmax" c1 o' with ⟨o'', r'⟩
      rw [hq] at b1
      simp only at b1
      subst b1
      simp only [hq]
    · have a1 := limitPass_error "vmin" c0 o h0
      rcases hp : limitPass "vmin" c0 o with ⟨o', r⟩
      rw [hp] at a1
      simp only at a1
      subst a1
      rfl

/-- C200 (violation). The limits are taken out of the dictionary of the caller: a second call with
the same dictionary has no limits of its own, and takes those of the data. -/
theorem C200_violated_options (o : Opts) (a b : ℝ) (ha : o.lookup "vmin" = some a)
    (hb : o.lookup "vmax" = some b) :
    (limits none o).2 = .ok (some a, some b) ∧
    (limits none (limits none o).1).2 = .ok (none, none) := by
  have h := (C200_limits none o).1 ⟨fun l v h => by simp at h, fun l v h => by simp at h⟩
  refine ⟨by rw [h, ha, hb]; rfl, ?_⟩
  have hp : (limits none o).1 = pop "vmax" (pop "vmin" o) := by
    have e : (pop "vmin" o).lookup "vmax" = some b := by
      rw [lookup_pop_ne _ _ (by decide), hb]
    simp [limits, limitPass, ha, e]
  have h2 := (C200_limits none (limits none o).1).1
    ⟨fun l v h => by simp at h, fun l v h => by simp at h⟩
  rw [h2, hp]
  have e1 : (pop "vmax" (pop "vmin" o)).lookup "vmin" = none := by
    rw [lookup_pop_ne _ _ (by decide), lookup_pop_self]
  rw [e1, lookup_pop_self]
  rfl

/-- C200. Levels on a linear scale go from the lower to the upper limit in equal steps. -/
theorem C200_linear (vmin vmax : ℝ) (n : Nat) (hn : 0 < n) :
    level false vmin vmax n 0 = vmin ∧ level false vmin vmax n n = vmax ∧
    (∀ i, level false vmin vmax n (i + 1) - level false vmin vmax n i = (vmax - vmin) / n) := by
  have h : (n : ℝ) ≠ 0 := by exact_mod_cast hn.ne'
  refine ⟨by simp [level, linspace], ?_, fun i => ?_⟩
  · simp only [level, linspace, Bool.false_eq_true, if_false]
    field_simp
    ring
  · simp only [level, linspace, Bool.false_eq_true, if_false]
    push_cast
    ring

/-- C200. Levels on a logarithmic scale go from the lower to the upper limit with equal ratios, for
positive limits. -/
theorem C200_log (vmin vmax : ℝ) (h0 : 0 < vmin) (h1 : 0 < vmax) (n : Nat) (hn : 0 < n) :
    level true vmin vmax n 0 = vmin ∧ level true vmin vmax n n = vmax ∧
    (∀ i, level true vmin vmax n (i + 1) / level true vmin vmax n i = (vmax / vmin) ^ (1 / (n : ℝ))) := by
  have h : (n : ℝ) ≠ 0 := by exact_mod_cast hn.ne'
  refine ⟨?_, ?_, fun i => ?_⟩
  · simp only [level, linspace, if_true]
    simp only [Nat.cast_zero, zero_mul, add_zero]
    exact Real.rpow_logb (by norm_num) (by norm_num) h0
  · have : linspace (Real.logb 10 vmin) (Real.logb 10 vmax) n n = Real.logb 10 vmax := by
      simp only [linspace]; field_simp; ring
    simp only [level, if_true, this]
    exact Real.rpow_logb (by norm_num) (by norm_num) h1
  · simp only [level, if_true]
    rw [← Real.rpow_sub (by norm_num)]
    have : linspace (Real.logb 10 vmin) (Real.logb 10 vmax) n (i + 1) -
        linspace (Real.logb 10 vmin) (Real.logb 10 vmax) n i =
        Real.logb 10 (vmax / vmin) * (1 / (n : ℝ)) := by
      rw [Real.logb_div h1.ne' h0.ne']
      simp only [linspace]
      push_cast
      ring
    rw [this, Real.rpow_mul (by norm_num), Real.rpow_logb (by norm_num) (by norm_num) (div_pos h1 h0)]

theorem foldl_min_le (xs : List ℝ) (x : ℝ) :
    xs.foldl min x ≤ x ∧ (∀ y ∈ xs, xs.foldl min x ≤ y) ∧ (xs.foldl min x = x ∨ xs.foldl min x ∈ xs) := by
  induction xs generalizing x with
  | nil => simp
  | cons z xs ih =>
    rw [List.foldl_cons]
    obtain ⟨h1, h2, h3⟩ := ih (min x z)
    refine ⟨h1.trans (min_le_left _ _), ?_, ?_⟩
    · intro y hy
      rcases List.mem_cons.mp hy with rfl | hy
      · exact h1.trans (min_le_right _ _)
      · exact h2 y hy
    · rcases h3 with h3 | h3
      · rcases min_choice x z with e | e
        · left; rw [h3, e]
        · right; rw [h3, e]; exact List.mem_cons_self
      · right; exact List.mem_cons_of_mem _ h3

theorem le_foldl_max (xs : List ℝ) (x : ℝ) :
    x ≤ xs.foldl max x ∧ (∀ y ∈ xs, y ≤ xs.foldl max x) ∧ (xs.foldl max x = x ∨ xs.foldl max x ∈ xs) := by
  induction xs generalizing x with
  | nil => simp
  | cons z xs ih =>
    rw [List.foldl_cons]
    obtain ⟨h1, h2, h3⟩ := ih (max x z)
    refine ⟨(le_max_left _ _).trans h1, ?_, ?_⟩
    · intro y hy
      rcases List.mem_cons.mp hy with rfl | hy
      · exact (le_max_right _ _).trans h1
      · exact h2 y hy
    · rcases h3 with h3 | h3
      · rcases max_choice x z with e | e
        · left; rw [h3, e]
        · right; rw [h3, e]; exact List.mem_cons_self
      · right; exact List.mem_cons_of_mem _ h3

/-- C200. Limits from the data are attained and bound all finite values (absolute values on a
logarithmic scale); without finite values ValueError. -/
theorem C200_data (log : Bool) (data : List (Option ℝ)) :
    let shown : ℝ → Prop := fun y => ∃ x, some x ∈ data ∧ y = if log then |x| else x
    ((∃ y, shown y) → ∃ a b, dataLimits log data = .ok (a, b) ∧ shown a ∧ shown b ∧
      ∀ y, shown y → a ≤ y ∧ y ≤ b) ∧
    ((¬ ∃ y, shown y) → dataLimits log data = .error .valueError) := by
  intro shown
  have hm : ∀ y, y ∈ (data.filterMap fun x : Option ℝ => if log then x.map (|·|) else x) ↔ shown y := by
    intro y
    simp only [List.mem_filterMap, shown]
    cases log
    · simp only [Bool.false_eq_true, if_false]
      constructor
      · rintro ⟨x, h1, rfl⟩; exact ⟨y, h1, rfl⟩
      · rintro ⟨x, h1, rfl⟩; exact ⟨some y, h1, rfl⟩
    · simp only [if_true]
      constructor
      · rintro ⟨x, h1, h2⟩
        cases x with
        | none => simp at h2
        | some x => simp only [Option.map_some, Option.some.injEq] at h2; exact ⟨x, h1, h2.symm⟩
      · rintro ⟨x, h1, rfl⟩; exact ⟨some x, h1, rfl⟩
  unfold dataLimits
  simp only
  rcases hd : (data.filterMap fun x : Option ℝ => if log then x.map (|·|) else x) with _ | ⟨x, xs⟩
  · rw [hd] at hm
    refine ⟨fun ⟨y, hy⟩ => ?_, fun _ => rfl⟩
    simpa using (hm y).mpr hy
  · rw [hd] at hm
    obtain ⟨m1, m2, m3⟩ := foldl_min_le xs x
    obtain ⟨n1, n2, n3⟩ := le_foldl_max xs x
    refine ⟨fun _ => ⟨_, _, rfl, (hm _).mp ?_, (hm _).mp ?_, fun y hy => ?_⟩, fun hn => ?_⟩
    · rcases m3 with e | e
      · rw [e]; exact List.mem_cons_self
      · exact List.mem_cons_of_mem _ e
    · rcases n3 with e | e
      · rw [e]; exact List.mem_cons_self
      · exact List.mem_cons_of_mem _ e
    · rcases List.mem_cons.mp ((hm y).mpr hy) with rfl | h
      · exact ⟨m1, n1⟩
      · exact ⟨m2 y h, n2 y h⟩
    · exact absurd ⟨x, (hm x).mp List.mem_cons_self⟩ hn

/-- C200. Shades lie between 0 and 255 for all data and all directions of the light. -/
theorem C200_shade (arctan2 : ℝ → ℝ → ℝ) (x y azimuth altitude : ℝ) :
    0 ≤ hillshade arctan2 x y azimuth altitude ∧ hillshade arctan2 x y azimuth altitude ≤ 255 := by
  have key : ∀ a s g : ℝ, |Real.sin a * Real.sin s + Real.cos a * Real.cos s * Real.cos g| ≤ 1 := by
    intro a s g
    have h1 := Real.sin_sq_add_cos_sq a
    have h2 := Real.sin_sq_add_cos_sq s
    have hg := Real.abs_cos_le_one g
    have t1 : |Real.sin a * Real.sin s| ≤ (Real.sin a ^ 2 + Real.sin s ^ 2) / 2 := by
      rw [abs_le]; constructor <;> nlinarith [sq_nonneg (Real.sin a - Real.sin s), sq_nonneg (Real.sin a + Real.sin s)]
    have t2 : |Real.cos a * Real.cos s| ≤ (Real.cos a ^ 2 + Real.cos s ^ 2) / 2 := by
      rw [abs_le]; constructor <;> nlinarith [sq_nonneg (Real.cos a - Real.cos s), sq_nonneg (Real.cos a + Real.cos s)]
    have t3 : |Real.cos a * Real.cos s * Real.cos g| ≤ |Real.cos a * Real.cos s| := by
      rw [abs_mul]
      exact mul_le_of_le_one_right (abs_nonneg _) hg
    have := abs_add_le (Real.sin a * Real.sin s) (Real.cos a * Real.cos s * Real.cos g)
    linarith
  have h := abs_le.mp (key (altitude * Real.pi / 180)
    (Real.pi / 2 - Real.arctan (Real.sqrt (x * x + y * y)))
    (((360 - azimuth) * Real.pi / 180 - Real.pi / 2) - arctan2 (-x) y))
  unfold hillshade
  simp only
  constructor <;> linarith [h.1, h.2]

/-- C200. Flat data are shaded by the altitude of the light alone. -/
theorem C200_flat (arctan2 : ℝ → ℝ → ℝ) (azimuth altitude : ℝ) :
    hillshade arctan2 0 0 azimuth altitude = 255 * (Real.sin (altitude * Real.pi / 180) + 1) / 2 := by
  simp [hillshade]

/-- C200. Scalar data can be drawn with levels, and with a name of the figure on a new figure. -/
theorem C200_scalar (level figname : Bool) (levelOpts : List String) :
    finish false level false figname levelOpts = .ok () := by
  cases level <;> cases figname <;> simp [finish, callKw, bind, Except.bind, pure, Except.pure]

/-- C200 (violation). Vectors with levels always raise TypeError: the names of two options are given
twice. -/
theorem C200_violated_vector (ax figname : Bool) (levelOpts : List String) :
    finish true true ax figname levelOpts = .error .typeError := by
  simp [finish, callKw, levelKeys, bind, Except.bind]

/-- C200 (violation). With an axes object a name of the figure raises an exception, after drawing:
the figure is not known. -/
theorem C200_violated_figname (vec : Bool) (levelOpts : List String) :
    finish vec false true true levelOpts = .error .exception := by
  simp [finish, bind, Except.bind, pure, Except.pure]

/-- Limits in the options. -/
example : (limits none [("vmin", 1), ("alpha", 0), ("vmax", 2)]).2 = .ok (some 1, some 2) :=
  (C200_violated_options _ 1 2 (by simp [List.lookup]) (by simp [List.lookup])).1

end Props
end Verif.Utils.Plot2D
