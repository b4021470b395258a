import Verif.Basic
import Mathlib.Data.Real.Basic
import Mathlib.Algebra.BigOperators.Group.List.Basic
import Mathlib.Tactic.Linarith
import Mathlib.Tactic.Ring
import Mathlib.Tactic.NormNum

/-! Model of `plot_1d_layer_model` and `plotLayer` (`simpeg/utils/plot_utils.py` 273-386), for
C201: which curve is drawn for a layered model. -/

noncomputable section
namespace Verif.Utils.LayerPlot
open Verif

/-- Lines 313-314: a layer as thick as the last one is added for the halfspace. `thicknesses[-1]` of
no thicknesses raises IndexError. -/
def extend (t v : List ℝ) : Except Err (List ℝ) :=
  if t.length < v.length then
    match t.getLast? with
    | none => .error .indexError
    | some l => .ok (t ++ [l])
  else .ok t

/-- `z_grid[i]` (315). -/
def zGrid (t : List ℝ) (i : Nat) : ℝ := (t.take i).sum

/-- Lines 323-327: the depths of the vertices, two for each layer, the last a large number. -/
def depths (t : List ℝ) : List ℝ :=
  (((List.range t.length).flatMap fun i => [zGrid t i, zGrid t (i + 1)]).dropLast) ++ [10 ^ 200]

/-- The vertices drawn (313-333, 352): pairs of a value and a depth or elevation. `np.hstack` of
nothing and values that do not fit the depths raise ValueError. -/
def curve (t v : List ℝ) (z0 : ℝ) (elevation : Bool) : Except Err (List (ℝ × ℝ)) :=
  match extend t v with
  | .error e => .error e
  | .ok t =>
    if t = [] then .error .valueError
    else
      let z := (depths t).map fun z => if elevation then z0 - z else z
      let r := v.flatMap fun x => [x, x]
      if r.length ≠ z.length then .error .valueError else .ok (r.zip z)

/-- The limits of the axis of values without `vlim` (317-319). -/
def valueLimits (v0 : ℝ) (v : List ℝ) : ℝ × ℝ :=
  (9 / 10 * v.foldl min v0, 11 / 10 * v.foldl max v0)

/-- `np.diff`. -/
def diff : List ℝ → List ℝ
  | a :: b :: l => (b - a) :: diff (b :: l)
  | _ => []

/-- `plotLayer` (364-386): the curve of the differences of the depths, always over depth. `ax.xlim`
is no method of axes: AttributeError when `xlim` is given. -/
def plotLayer (sig loc : List ℝ) (xlim : Bool) : Except Err (List (ℝ × ℝ)) :=
  match loc with
  | [] => .error .indexError
  | z0 :: _ =>
    match curve (diff loc) sig z0 false with
    | .error e => .error e
    | .ok c => if xlim then .error .attributeError else .ok c

namespace Props

/-! ### C201 -/

theorem length_pairs {α : Type} (l : List α) (f g : α → ℝ) :
    (l.flatMap fun x => [f x, g x]).length = 2 * l.length := by
  induction l with
  | nil => rfl
  | cons a l ih => rw [List.flatMap_cons, List.length_append, ih]; simp; omega

theorem get_pairs {α : Type} (l : List α) (f g : α → ℝ) (i : Nat) (h : i < l.length) :
    (l.flatMap fun x => [f x, g x])[2 * i]? = some (f l[i]) ∧
    (l.flatMap fun x => [f x, g x])[2 * i + 1]? = some (g l[i]) := by
  induction l generalizing i with
  | nil => simp at h
  | cons a l ih =>
    rw [List.flatMap_cons]
    cases i with
    | zero => simp
    | succ i =>
      have := ih i (by simpa using h)
      have e : 2 * (i + 1) = 2 * i + 1 + 1 := by ring
      simpa [e] using this

theorem length_depths (t : List ℝ) (h : t ≠ []) : (depths t).length = 2 * t.length := by
  have : 0 < t.length := List.length_pos_iff.mpr h
  unfold depths
  rw [List.length_append, List.length_dropLast, length_pairs]
  simp
  omega

theorem get_depths (t : List ℝ) (i : Nat) (h : i < t.length) :
    (depths t)[2 * i]? = some (zGrid t i) ∧
    (depths t)[2 * i + 1]? = some (if i + 1 < t.length then zGrid t (i + 1) else 10 ^ 200) := by
  have hl := length_pairs (List.range t.length) (fun i => zGrid t i) (fun i => zGrid t (i + 1))
  rw [List.length_range] at hl
  obtain ⟨g1, g2⟩ := get_pairs (List.range t.length) (fun i => zGrid t i) (fun i => zGrid t (i + 1)) i
    (by simpa using h)
  rw [List.getElem_range] at g1 g2
  unfold depths
  constructor
  · rw [List.getElem?_append_left (by rw [List.length_dropLast, hl]; omega), List.getElem?_dropLast,
      hl, if_pos (by omega)]
    exact g1
  · by_cases hi : i + 1 < t.length
    · rw [List.getElem?_append_left (by rw [List.length_dropLast, hl]; omega), List.getElem?_dropLast,
        hl, if_pos (by omega), if_pos hi]
      exact g2
    · rw [List.getElem?_append_right (by rw [List.length_dropLast, hl]; omega), if_neg hi,
        List.length_dropLast, hl]
      have : 2 * i + 1 - (2 * t.length - 1) = 0 := by omega
      rw [this]
      rfl

/-- The depth of the top of layer `i`: the sum of the thicknesses above. -/
def top (t : List ℝ) (i : Nat) : ℝ := (t.take i).sum

/-- C201. For a layered model with one value more than thicknesses, the curve has two vertices for
each layer, both at its value: one at the top of the layer, and one at the top of the next, or, for
the halfspace, at a very large depth; with elevations, these depths below the surface. -/
theorem C201_curve (t v : List ℝ) (z0 : ℝ) (el : Bool) (ht : t ≠ []) (hv : v.length = t.length + 1) :
    ∃ c, curve t v z0 el = .ok c ∧ c.length = 2 * v.length ∧ ∀ i (h : i < v.length),
      let at_ : ℝ → ℝ := fun d => if el then z0 - d else d
      c[2 * i]? = some (v[i], at_ (top t i)) ∧
      c[2 * i + 1]? = some (v[i], at_ (if i < t.length then top t (i + 1) else 10 ^ 200)) := by
  obtain ⟨l, hl⟩ : ∃ l, t.getLast? = some l := by
    cases h : t.getLast? with
    | none => exact absurd (List.getLast?_eq_none_iff.mp h) ht
    | some l => exact ⟨l, rfl⟩
  have hx : extend t v = .ok (t ++ [l]) := by
    unfold extend
    rw [if_pos (by omega), hl]
  have hne : t ++ [l] ≠ [] := by simp
  have hlen := length_depths (t ++ [l]) hne
  rw [List.length_append, List.length_singleton] at hlen
  have hr := length_pairs v (fun x => x) (fun x => x)
  refine ⟨(v.flatMap fun x => [x, x]).zip
    ((depths (t ++ [l])).map fun z => if el then z0 - z else z), ?_, ?_, ?_⟩
  · unfold curve
    rw [hx]
    simp only
    rw [if_neg hne, if_neg]
    rw [List.length_map, hlen, hr, hv]
    simp
  · rw [List.length_zip, List.length_map, hlen, hr, hv, min_self]
  · intro i h
    obtain ⟨a1, a2⟩ := get_pairs v (fun x => x) (fun x => x) i h
    obtain ⟨b1, b2⟩ := get_depths (t ++ [l]) i (by simp; omega)
    have htop : ∀ j, j ≤ t.length → zGrid (t ++ [l]) j = top t j := by
      intro j hj
      unfold zGrid top
      rw [List.take_append_of_le_length hj]
    constructor
    · rw [List.getElem?_zip_eq_some]
      refine ⟨a1, ?_⟩
      rw [List.getElem?_map, b1, htop i (by omega)]
      rfl
    · rw [List.getElem?_zip_eq_some]
      refine ⟨a2, ?_⟩
      rw [List.getElem?_map, b2, List.length_append, List.length_singleton]
      by_cases hi : i < t.length
      · rw [if_pos (by omega), if_pos hi, htop (i + 1) (by omega)]
        rfl
      · rw [if_neg (by omega), if_neg hi]
        rfl

/-- C201. With as many thicknesses as values the last layer is drawn as a halfspace, too; any other
number raises ValueError, or IndexError without thicknesses. -/
theorem C201_lengths (t v : List ℝ) (z0 : ℝ) (el : Bool) :
    (∃ c, curve t v z0 el = .ok c) ↔ t ≠ [] ∧ (v.length = t.length + 1 ∨ v.length = t.length) := by
  have hr := length_pairs v (fun x => x) (fun x => x)
  constructor
  · rintro ⟨c, hc⟩
    unfold curve extend at hc
    by_cases hlt : t.length < v.length
    · rw [if_pos hlt] at hc
      cases hg : t.getLast? with
      | none => rw [hg] at hc; simp at hc
      | some l =>
        rw [hg] at hc
        simp only at hc
        have hne : t ++ [l] ≠ [] := by simp
        rw [if_neg hne] at hc
        by_cases he : (v.flatMap fun x => [x, x]).length ≠
            ((depths (t ++ [l])).map fun z => if el then z0 - z else z).length
        · rw [if_pos he] at hc; simp at hc
        · have he := not_not.mp he
          rw [hr, List.length_map, length_depths _ hne, List.length_append, List.length_singleton] at he
          refine ⟨fun h => ?_, Or.inl (by omega)⟩
          subst h
          simp at hg
    · rw [if_neg hlt] at hc
      simp only at hc
      by_cases hne : t = []
      · rw [if_pos hne] at hc; simp at hc
      · rw [if_neg hne] at hc
        by_cases he : (v.flatMap fun x => [x, x]).length ≠
            ((depths t).map fun z => if el then z0 - z else z).length
        · rw [if_pos he] at hc; simp at hc
        · have he := not_not.mp he
          rw [hr, List.length_map, length_depths _ hne] at he
          exact ⟨hne, Or.inr (by omega)⟩
  · rintro ⟨ht, hv | hv⟩
    · obtain ⟨c, hc, -⟩ := C201_curve t v z0 el ht hv
      exact ⟨c, hc⟩
    · refine ⟨(v.flatMap fun x => [x, x]).zip
        ((depths t).map fun z => if el then z0 - z else z), ?_⟩
      · unfold curve extend
        rw [if_neg (by omega)]
        simp only
        rw [if_neg ht, if_neg]
        rw [List.length_map, length_depths t ht, hr, hv]
        simp

/-- C201 (violation). A homogeneous halfspace, which has no thicknesses, cannot be drawn. -/
theorem C201_violated_halfspace (x z0 : ℝ) (el : Bool) :
    curve [] [x] z0 el = .error .indexError := by
  simp [curve, extend]

theorem foldl_min_le (xs : List ℝ) (x : ℝ) :
    xs.foldl min x ≤ x ∧ (∀ y ∈ xs, xs.foldl min x ≤ y) ∧ (xs.foldl min x = x ∨ xs.foldl min x ∈ xs) := by
  induction xs generalizing x with
  | nil => simp
  | cons z xs ih =>
    rw [List.foldl_cons]
    obtain ⟨h1, h2, h3⟩ := ih (min x z)
    refine ⟨h1.trans (min_le_left _ _), ?_, ?_⟩
    · intro y hy
      rcases List.mem_cons.mp hy with rfl | hy
      · exact h1.trans (min_le_right _ _)
      · exact h2 y hy
    · rcases h3 with h3 | h3
      · rcases min_choice x z with e | e
        · left; rw [h3, e]
        · right; rw [h3, e]; exact List.mem_cons_self
      · right; exact List.mem_cons_of_mem _ h3

theorem le_foldl_max (xs : List ℝ) (x : ℝ) :
    x ≤ xs.foldl max x ∧ (∀ y ∈ xs, y ≤ xs.foldl max x) := by
  induction xs generalizing x with
  | nil => simp
  | cons z xs ih =>
    rw [List.foldl_cons]
    obtain ⟨h1, h2⟩ := ih (max x z)
    refine ⟨(le_max_left _ _).trans h1, ?_⟩
    intro y hy
    rcases List.mem_cons.mp hy with rfl | hy
    · exact (le_max_right _ _).trans h1
    · exact h2 y hy

/-- C201. The axis shows all values when they are not negative. -/
theorem C201_shown (v0 : ℝ) (v : List ℝ) (h : ∀ x ∈ v0 :: v, 0 ≤ x) :
    ∀ x ∈ v0 :: v, (valueLimits v0 v).1 ≤ x ∧ x ≤ (valueLimits v0 v).2 := by
  obtain ⟨m1, m2, m3⟩ := foldl_min_le v v0
  obtain ⟨n1, n2⟩ := le_foldl_max v v0
  have hm : 0 ≤ v.foldl min v0 := by
    rcases m3 with e | e
    · rw [e]; exact h _ List.mem_cons_self
    · exact h _ (List.mem_cons_of_mem _ e)
  intro x hx
  have hx0 := h x hx
  have : v.foldl min v0 ≤ x ∧ x ≤ v.foldl max v0 := by
    rcases List.mem_cons.mp hx with rfl | hx
    · exact ⟨m1, n1⟩
    · exact ⟨m2 x hx, n2 x hx⟩
  simp only [valueLimits]
  constructor <;> linarith [this.1, this.2]

/-- C201 (violation). The least value lies outside the axis whenever it is negative. -/
theorem C201_violated_negative (v0 : ℝ) (v : List ℝ) (h : ∃ x ∈ v0 :: v, x < 0) :
    ∃ x ∈ v0 :: v, x < (valueLimits v0 v).1 := by
  obtain ⟨m1, m2, m3⟩ := foldl_min_le v v0
  obtain ⟨x, hx, h0⟩ := h
  have hm : v.foldl min v0 ≤ x := by
    rcases List.mem_cons.mp hx with rfl | hx
    · exact m1
    · exact m2 x hx
  refine ⟨v.foldl min v0, ?_, ?_⟩
  · rcases m3 with e | e
    · rw [e]; exact List.mem_cons_self
    · exact List.mem_cons_of_mem _ e
  · simp only [valueLimits]
    linarith

theorem length_diff (l : List ℝ) : (diff l).length = l.length - 1 := by
  induction l with
  | nil => rfl
  | cons a l ih =>
    cases l with
    | nil => rfl
    | cons b l => simp [diff, ih]

theorem top_diff (a : ℝ) (l : List ℝ) (i : Nat) (h : i < (a :: l).length) :
    top (diff (a :: l)) i = (a :: l)[i] - a := by
  induction l generalizing a i with
  | nil =>
    have : i = 0 := by simpa using h
    subst this
    simp [top]
  | cons b l ih =>
    cases i with
    | zero => simp [top]
    | succ i =>
      have := ih b i (by simpa using h)
      unfold top at this ⊢
      simp only [diff, List.take_succ_cons, List.sum_cons, List.getElem_cons_succ]
      rw [this]
      ring

/-- C201. The older function draws the top of each layer at its depth below the first depth, not at
the depth given. -/
theorem C201_older (sig : List ℝ) (a b : ℝ) (l : List ℝ) (hs : sig.length = (a :: b :: l).length) :
    ∃ c, plotLayer sig (a :: b :: l) false = .ok c ∧ ∀ i (h : i < sig.length),
      c[2 * i]? = some (sig[i], (a :: b :: l)[i]'(hs ▸ h) - a) := by
  have hd : diff (a :: b :: l) ≠ [] := by simp [diff]
  have hl := length_diff (a :: b :: l)
  obtain ⟨c, hc, -, hg⟩ := C201_curve (diff (a :: b :: l)) sig a false hd (by
    rw [hl, hs]; simp)
  refine ⟨c, ?_, fun i h => ?_⟩
  · simp only [plotLayer, hc, Bool.false_eq_true, if_false]
  · have := (hg i h).1
    simp only [Bool.false_eq_true, if_false] at this
    rw [this, top_diff a (b :: l) i (hs ▸ h)]

/-- C201 (violation). The older function never succeeds with limits. -/
theorem C201_violated_xlim (sig loc : List ℝ) (c : List (ℝ × ℝ)) : plotLayer sig loc true ≠ .ok c := by
  unfold plotLayer
  cases loc with
  | nil => simp
  | cons z0 l =>
    simp only
    cases curve (diff (z0 :: l)) sig z0 false <;> simp

/-- Three layers. -/
example : ∃ c, curve [10, 20] [1, 2, 3] 100 true = .ok c ∧ c[2 * 1]? = some (2, 90) := by
  obtain ⟨c, h1, -, h2⟩ := C201_curve [10, 20] [1, 2, 3] 100 true (by simp) rfl
  refine ⟨c, h1, ?_⟩
  rw [(h2 1 (by simp)).1]
  simp [top]
  norm_num

end Props
end Verif.Utils.LayerPlot
