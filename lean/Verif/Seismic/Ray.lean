import Verif.Basic
import Mathlib.Analysis.SpecialFunctions.Integrals.Basic
import Mathlib.MeasureTheory.Integral.Bochner.Set
import Mathlib.MeasureTheory.Measure.Lebesgue.Basic
import Mathlib.Data.EReal.Basic
import Mathlib.Data.List.Sort
import Mathlib.Data.Multiset.Sort

/-!
Straight ray tomography (`simpeg/seismic/straight_ray_tomography/simulation.py`): the length of a ray in
a cell, the rows of the matrix of lengths and the predicted travel times.

Simplified: numbers are reals, so divisions and square roots are exact; sorting is a merge sort of the
four values (Python's `sorted` is a stable sort, and equal numbers cannot be told apart).
-/

namespace Verif.Seismic
open MeasureTheory

noncomputable section

/-- `dist(a)` (`simulation.py` 15-16): the point at distance `a` from `O` in direction `D`. -/
def dist (O D : ℝ × ℝ) (a : ℝ) : ℝ × ℝ := (O.1 + a * D.1, O.2 + a * D.2)

/-- `midAlp[midAlp < 0] = 0; midAlp[midAlp > maxD] = maxD` (44-45). -/
def clamp (maxD : ℝ) (e : EReal) : ℝ :=
  let e := if e < 0 then 0 else e
  if (maxD : EReal) < e then maxD else e.toReal

/-- The distances at which the ray crosses two lines (25-42): infinite for a ray parallel to them. -/
def cross (O D : ℝ) (x : ℝ × ℝ) : EReal × EReal :=
  if 0 < |D| then (((x.1 - O) / D : ℝ), ((x.2 - O) / D : ℝ)) else (⊥, ⊤)

/-- `_lengthInCell(O, D, x, y)` (11-64).  A ray of length zero makes all numbers NaN, and comparisons with
NaN are false. -/
def lengthInCell (O D x y : ℝ × ℝ) : Option ℝ :=
  let maxD := Real.sqrt (D.1 ^ 2 + D.2 ^ 2)
  if maxD = 0 then none
  else
    let d : ℝ × ℝ := (D.1 / maxD, D.2 / maxD)
    let cx := cross O.1 d.1 x
    let cy := cross O.2 d.2 y
    let alp := [cx.1, cx.2, cy.1, cy.2].mergeSort fun a b => decide (a ≤ b)
    let a := clamp maxD (alp.getD 1 0)
    let b := clamp maxD (alp.getD 2 0)
    let mid := dist O d ((a + b) / 2)
    if x.1 ≤ mid.1 ∧ mid.1 ≤ x.2 ∧ y.1 ≤ mid.2 ∧ mid.2 ≤ y.2 then
      some (Real.sqrt (((dist O d a).1 - (dist O d b).1) ^ 2 + ((dist O d a).2 - (dist O d b).2) ^ 2))
    else none

/-- A two-dimensional tensor mesh: numbers of cells and nodes in both directions. -/
structure Mesh2 where
  nx : Nat
  ny : Nat
  x : Nat → ℝ
  y : Nat → ℝ

/-- `_lineintegral(M, Tx, Rx)` (67-80): indices `sub2ind` (first axis fastest) and lengths of the cells
met by the ray. -/
def lineIntegral (M : Mesh2) (tx rx : ℝ × ℝ) : List (Nat × ℝ) :=
  (List.range M.nx).flatMap fun i => (List.range M.ny).filterMap fun j =>
    (lengthInCell tx (rx.1 - tx.1, rx.2 - tx.2) (M.x i, M.x (i + 1)) (M.y j, M.y (j + 1))).map
      fun v => (i + M.nx * j, v)

/-- One row of `A` (105-113): `self._A[inds * 0 + row, inds] = V` on a matrix of zeros. -/
def row (M : Mesh2) (tx rx : ℝ × ℝ) : Nat → ℝ :=
  (lineIntegral M tx rx).foldl (fun a kv => Function.update a kv.1 kv.2) 0

/-- A source: location and the locations of its receivers. -/
structure RaySrc where
  loc : ℝ × ℝ
  rx : List (List (ℝ × ℝ))

/-- `A` (99-115): rows in the order of sources, receivers and locations. -/
def rows (M : Mesh2) (ss : List RaySrc) : List (Nat → ℝ) :=
  ss.flatMap fun s => s.rx.flatMap fun r => r.map fun l => row M s.loc l

/-- `fields` (117-119): `A * slowness`. -/
def times (M : Mesh2) (ss : List RaySrc) (s : Nat → ℝ) : List ℝ :=
  (rows M ss).map fun r => ∑ k ∈ Finset.range (M.nx * M.ny), r k * s k

/-! ### Specification -/

/-- The part of the segment from `O` to `O + D` in the closed cell. -/
def inCell (O D x y : ℝ × ℝ) : Set ℝ :=
  {t | 0 ≤ t ∧ t ≤ 1 ∧ (x.1 ≤ O.1 + t * D.1 ∧ O.1 + t * D.1 ≤ x.2) ∧
    y.1 ≤ O.2 + t * D.2 ∧ O.2 + t * D.2 ≤ y.2}

/-- The length of the segment. -/
def segLen (D : ℝ × ℝ) : ℝ := Real.sqrt (D.1 ^ 2 + D.2 ^ 2)

/-! ### Lemmas -/

theorem pair_perm (a b : EReal) : [a, b].Perm [min a b, max a b] := by
  rcases le_total a b with h | h
  · simp [min_eq_left h, max_eq_right h]
  · rw [min_eq_right h, max_eq_left h]; exact List.Perm.swap _ _ _

/-- The two middle values of two intervals. -/
theorem middle (a b c d : EReal) :
    let l := [a, b, c, d].mergeSort fun a b => decide (a ≤ b)
    let lo := max (min a b) (min c d)
    let hi := min (max a b) (max c d)
    l.getD 1 0 = min lo hi ∧ l.getD 2 0 = max lo hi := by
  intro l lo hi
  have hp : l.Perm [min (min a b) (min c d), min lo hi, max lo hi, max (max a b) (max c d)] := by
    refine (List.mergeSort_perm _ _).trans ?_
    have h1 : [a, b, c, d].Perm [min a b, max a b, min c d, max c d] :=
      (pair_perm a b).append (pair_perm c d)
    refine h1.trans ?_
    have h2 : [min a b, max a b, min c d, max c d].Perm [min a b, min c d, max a b, max c d] :=
      (List.Perm.swap _ _ _).cons _
    refine h2.trans ?_
    have h3 := (pair_perm (min a b) (min c d)).append (pair_perm (max a b) (max c d))
    refine h3.trans ?_
    have h4 := (pair_perm lo hi).append_right [max (max a b) (max c d)]
    exact h4.cons _
  have hs : l.Pairwise (· ≤ ·) := by
    have := List.pairwise_mergeSort (le := fun a b : EReal => decide (a ≤ b))
      (fun a b c h1 h2 => by
        simp only [decide_eq_true_eq] at *; exact h1.trans h2)
      (fun a b => by simpa using le_total a b) [a, b, c, d]
    exact this.imp (fun h => by simpa using h)
  have hs' : [min (min a b) (min c d), min lo hi, max lo hi, max (max a b) (max c d)].Pairwise
      (· ≤ ·) := by
    have e1 : min (min a b) (min c d) ≤ min lo hi := by
      refine le_min (min_le_left _ _ |>.trans (le_max_left _ _)) (le_min ?_ ?_)
      · exact (min_le_left _ _).trans (min_le_max)
      · exact (min_le_right _ _).trans (min_le_max)
    have e2 : min lo hi ≤ max lo hi := min_le_max
    have e3 : max lo hi ≤ max (max a b) (max c d) := by
      refine max_le (max_le ?_ ?_) ((min_le_left _ _).trans (le_max_left _ _))
      · exact min_le_max.trans (le_max_left _ _)
      · exact min_le_max.trans (le_max_right _ _)
    simp only [List.pairwise_cons, List.mem_cons, List.not_mem_nil, or_false, forall_eq_or_imp,
      forall_eq, List.Pairwise.nil, and_true, IsEmpty.forall_iff, implies_true]
    exact ⟨⟨e1, e1.trans e2, (e1.trans e2).trans e3⟩, ⟨e2, e2.trans e3⟩, e3⟩
  have := hp.eq_of_pairwise (fun _ _ _ _ h1 h2 => le_antisymm h1 h2) hs hs'
  rw [this]
  exact ⟨rfl, rfl⟩

theorem clamp_mem {L : ℝ} (hL : 0 ≤ L) (e : EReal) : 0 ≤ clamp L e ∧ clamp L e ≤ L := by
  unfold clamp
  by_cases h : e < 0
  · simp only [h, if_true]
    rw [if_neg (by simpa using hL)]
    simpa using hL
  · simp only [h, if_false]
    push Not at h
    by_cases h2 : (L : EReal) < e
    · simp [h2, hL]
    · simp only [h2, if_false]
      push Not at h2
      constructor
      · exact EReal.toReal_nonneg h
      · have := EReal.toReal_le_toReal h2 (ne_bot_of_le_ne_bot (by simp) h) (by simp)
        simpa using this

theorem clamp_le {L : ℝ} (e : EReal) (a : ℝ) (ha : 0 ≤ a) (h : e ≤ (a : EReal)) : clamp L e ≤ a := by
  unfold clamp
  by_cases h0 : e < 0
  · simp only [h0, if_true]
    split_ifs with h1
    · have : L < 0 := by exact_mod_cast h1
      linarith
    · simpa using ha
  · simp only [h0, if_false]
    push Not at h0
    split_ifs with h1
    · have : (L : EReal) < a := lt_of_lt_of_le h1 h
      exact le_of_lt (by exact_mod_cast this)
    · have := EReal.toReal_le_toReal h (ne_bot_of_le_ne_bot (by simp) h0) (by simp)
      simpa using this

theorem le_clamp {L : ℝ} (e : EReal) (a : ℝ) (ha : a ≤ L) (h : (a : EReal) ≤ e) : a ≤ clamp L e := by
  unfold clamp
  by_cases h0 : e < 0
  · simp only [h0, if_true]
    have : a < 0 := by exact_mod_cast lt_of_le_of_lt h h0
    split_ifs with h1
    · exact ha
    · simpa using this.le
  · simp only [h0, if_false]
    split_ifs with h1
    · exact ha
    · push Not at h1
      have := EReal.toReal_le_toReal h (by simp) (ne_top_of_le_ne_top (by simp) h1)
      simpa using this

/-- Clamping a bound below some point of the segment keeps it a bound from above. -/
theorem clamp_ge_of {L : ℝ} (e : EReal) (h : e ≤ L) : e ≤ clamp L e := by
  unfold clamp
  by_cases h0 : e < 0
  · simp only [h0, if_true]
    split_ifs with h1
    · exact h
    · simpa using h0.le
  · simp only [h0, if_false]
    rw [if_neg (not_lt.2 h)]
    exact EReal.le_coe_toReal (ne_top_of_le_ne_top (by simp) h)

theorem clamp_le_of {L : ℝ} (e : EReal) (h : 0 ≤ e) : (clamp L e : EReal) ≤ e := by
  unfold clamp
  simp only [not_lt.2 h, if_false]
  split_ifs with h1
  · exact h1.le
  · exact EReal.coe_toReal_le (ne_bot_of_le_ne_bot (by simp) h)

/-- The crossing distances bound the part of the ray between the lines. -/
theorem cross_iff (O D : ℝ) (x : ℝ × ℝ) (hx : x.1 ≤ x.2) (a : ℝ) :
    (x.1 ≤ O + a * D ∧ O + a * D ≤ x.2) ↔
      ((min (cross O D x).1 (cross O D x).2 ≤ (a : EReal) ∧
        (a : EReal) ≤ max (cross O D x).1 (cross O D x).2) ∧ (D = 0 → x.1 ≤ O ∧ O ≤ x.2)) := by
  unfold cross
  by_cases hD : D = 0
  · subst hD; simp
  · rw [if_pos (abs_pos.2 hD)]
    simp only [hD, false_imp_iff, and_true]
    rw [min_le_iff, le_max_iff]
    simp only [EReal.coe_le_coe_iff]
    rcases lt_or_gt_of_ne hD with h | h
    · have h1 : ∀ z, (z - O) / D ≤ a ↔ O + a * D ≤ z := by
        intro z; rw [div_le_iff_of_neg h]; constructor <;> intro <;> linarith
      have h2 : ∀ z, a ≤ (z - O) / D ↔ z ≤ O + a * D := by
        intro z; rw [le_div_iff_of_neg h]; constructor <;> intro <;> linarith
      rw [h1, h1, h2, h2]
      constructor
      · rintro ⟨u, v⟩; exact ⟨Or.inr v, Or.inl u⟩
      · rintro ⟨u, v⟩; rcases u with u | u <;> rcases v with v | v <;> constructor <;> linarith
    · have h1 : ∀ z, (z - O) / D ≤ a ↔ z ≤ O + a * D := by
        intro z; rw [div_le_iff₀ h]; constructor <;> intro <;> linarith
      have h2 : ∀ z, a ≤ (z - O) / D ↔ O + a * D ≤ z := by
        intro z; rw [le_div_iff₀ h]; constructor <;> intro <;> linarith
      rw [h1, h1, h2, h2]
      constructor
      · rintro ⟨u, v⟩; exact ⟨Or.inl u, Or.inr v⟩
      · rintro ⟨u, v⟩; rcases u with u | u <;> rcases v with v | v <;> constructor <;> linarith

/-- The part of the ray in the cell, by distance. -/
def inCellA (L : ℝ) (O d x y : ℝ × ℝ) : Set ℝ :=
  {a | 0 ≤ a ∧ a ≤ L ∧ (x.1 ≤ O.1 + a * d.1 ∧ O.1 + a * d.1 ≤ x.2) ∧
    y.1 ≤ O.2 + a * d.2 ∧ O.2 + a * d.2 ≤ y.2}

open Classical in
theorem length_spec (O D x y : ℝ × ℝ) (hD : segLen D ≠ 0) (hx : x.1 ≤ x.2) (hy : y.1 ≤ y.2) :
    (lengthInCell O D x y = none ∧
      inCellA (segLen D) O (D.1 / segLen D, D.2 / segLen D) x y = ∅) ∨
    ∃ a b, a ≤ b ∧ lengthInCell O D x y = some (b - a) ∧
      inCellA (segLen D) O (D.1 / segLen D, D.2 / segLen D) x y = Set.Icc a b := by
  have hL0 : 0 ≤ segLen D := Real.sqrt_nonneg _
  have hL : 0 < segLen D := lt_of_le_of_ne hL0 (Ne.symm hD)
  have hunit : (D.1 / segLen D) ^ 2 + (D.2 / segLen D) ^ 2 = 1 := by
    have : segLen D ^ 2 = D.1 ^ 2 + D.2 ^ 2 := Real.sq_sqrt (by positivity)
    field_simp
    rw [this]
  unfold lengthInCell
  simp only
  rw [show Real.sqrt (D.1 ^ 2 + D.2 ^ 2) = segLen D from rfl, if_neg hD]
  generalize hd : ((D.1 / segLen D, D.2 / segLen D) : ℝ × ℝ) = d
  have hd1 : D.1 / segLen D = d.1 := by rw [← hd]
  have hd2 : D.2 / segLen D = d.2 := by rw [← hd]
  rw [hd1, hd2] at hunit
  rw [hd1, hd2]
  obtain ⟨m1, m2⟩ := middle (cross O.1 d.1 x).1 (cross O.1 d.1 x).2 (cross O.2 d.2 y).1
    (cross O.2 d.2 y).2
  rw [m1, m2]
  set lo := max (min (cross O.1 d.1 x).1 (cross O.1 d.1 x).2)
    (min (cross O.2 d.2 y).1 (cross O.2 d.2 y).2) with hlo
  set hi := min (max (cross O.1 d.1 x).1 (cross O.1 d.1 x).2)
    (max (cross O.2 d.2 y).1 (cross O.2 d.2 y).2) with hhi
  set L := segLen D with hLdef
  have hcell : ∀ a : ℝ, ((x.1 ≤ O.1 + a * d.1 ∧ O.1 + a * d.1 ≤ x.2) ∧
      y.1 ≤ O.2 + a * d.2 ∧ O.2 + a * d.2 ≤ y.2) ↔
      ((lo ≤ (a : EReal) ∧ (a : EReal) ≤ hi) ∧ ((d.1 = 0 → x.1 ≤ O.1 ∧ O.1 ≤ x.2) ∧
        (d.2 = 0 → y.1 ≤ O.2 ∧ O.2 ≤ y.2))) := by
    intro a
    rw [cross_iff O.1 d.1 x hx a, cross_iff O.2 d.2 y hy a, hlo, hhi, max_le_iff, le_min_iff]
    tauto
  set par := ((d.1 = 0 → x.1 ≤ O.1 ∧ O.1 ≤ x.2) ∧ (d.2 = 0 → y.1 ≤ O.2 ∧ O.2 ≤ y.2)) with hpar
  have hS : ∀ a, a ∈ inCellA L O d x y ↔ 0 ≤ a ∧ a ≤ L ∧ (lo ≤ (a : EReal) ∧ (a : EReal) ≤ hi) ∧ par := by
    intro a
    show (0 ≤ a ∧ a ≤ L ∧ _ ∧ _) ↔ _
    rw [hcell a]
  have hmid : ∀ c : ℝ, (x.1 ≤ (dist O d c).1 ∧ (dist O d c).1 ≤ x.2 ∧ y.1 ≤ (dist O d c).2 ∧
      (dist O d c).2 ≤ y.2) ↔ ((lo ≤ (c : EReal) ∧ (c : EReal) ≤ hi) ∧ par) := by
    intro c
    rw [← hcell c]
    unfold dist
    tauto
  have hlen : ∀ a b : ℝ, a ≤ b → Real.sqrt (((dist O d a).1 - (dist O d b).1) ^ 2 +
      ((dist O d a).2 - (dist O d b).2) ^ 2) = b - a := by
    intro a b hab
    unfold dist
    have : (O.1 + a * d.1 - (O.1 + b * d.1)) ^ 2 + (O.2 + a * d.2 - (O.2 + b * d.2)) ^ 2 =
        (b - a) ^ 2 := by
      have : (O.1 + a * d.1 - (O.1 + b * d.1)) ^ 2 + (O.2 + a * d.2 - (O.2 + b * d.2)) ^ 2 =
        (b - a) ^ 2 * (d.1 ^ 2 + d.2 ^ 2) := by ring
      rw [this, hunit, mul_one]
    simp only [this]
    exact Real.sqrt_sq (by linarith)
  by_cases hle : lo ≤ hi
  · rw [min_eq_left hle, max_eq_right hle]
    set A := clamp L lo with hA
    set B := clamp L hi with hB
    -- any point of the cell
    have key : ∀ a, a ∈ inCellA L O d x y → inCellA L O d x y = Set.Icc A B ∧ A ≤ B := by
      intro a ha
      obtain ⟨h0, h1, ⟨h2, h3⟩, h4⟩ := (hS a).1 ha
      have hloL : lo ≤ (L : EReal) := h2.trans (by exact_mod_cast h1)
      have hhi0 : (0 : EReal) ≤ hi := le_trans (by exact_mod_cast h0) h3
      have hAlo := clamp_ge_of lo hloL
      have hBhi := clamp_le_of (L := L) hi hhi0
      refine ⟨?_, (clamp_le lo a h0 h2).trans (le_clamp hi a h1 h3)⟩
      ext b
      rw [hS b, Set.mem_Icc]
      constructor
      · rintro ⟨b0, b1, ⟨b2, b3⟩, -⟩
        exact ⟨clamp_le lo b b0 b2, le_clamp hi b b1 b3⟩
      · rintro ⟨b0, b1⟩
        refine ⟨(clamp_mem hL0 lo).1.trans b0, b1.trans (clamp_mem hL0 hi).2, ⟨?_, ?_⟩, h4⟩
        · exact hAlo.trans (by exact_mod_cast b0)
        · exact le_trans (by exact_mod_cast b1) hBhi
    by_cases hc : x.1 ≤ (dist O d ((A + B) / 2)).1 ∧ (dist O d ((A + B) / 2)).1 ≤ x.2 ∧
        y.1 ≤ (dist O d ((A + B) / 2)).2 ∧ (dist O d ((A + B) / 2)).2 ≤ y.2
    · right
      have hAm := clamp_mem hL0 lo
      have hBm := clamp_mem hL0 hi
      have hmem : (A + B) / 2 ∈ inCellA L O d x y :=
        (hS _).2 ⟨by linarith, by linarith, ((hmid _).1 hc)⟩
      obtain ⟨k1, k2⟩ := key _ hmem
      refine ⟨A, B, k2, ?_, k1⟩
      rw [if_pos hc, hlen A B k2]
    · left
      refine ⟨if_neg hc, ?_⟩
      by_contra hne
      obtain ⟨a, ha⟩ := Set.nonempty_iff_ne_empty.2 hne
      obtain ⟨k1, k2⟩ := key a ha
      apply hc
      rw [hmid]
      have : (A + B) / 2 ∈ inCellA L O d x y := by
        rw [k1]; constructor <;> linarith
      exact ((hS _).1 this).2.2
  · left
    constructor
    · rw [if_neg]
      rw [hmid]
      rintro ⟨⟨h1, h2⟩, -⟩
      exact hle (h1.trans h2)
    · ext a
      rw [hS]
      simp only [Set.mem_empty_iff_false, iff_false]
      rintro ⟨-, -, ⟨h1, h2⟩, -⟩
      exact hle (h1.trans h2)

theorem segLen_ne {D : ℝ × ℝ} (h : D ≠ 0) : segLen D ≠ 0 := by
  intro h0
  have h1 : D.1 ^ 2 + D.2 ^ 2 = 0 := by
    have := Real.sqrt_eq_zero (x := D.1 ^ 2 + D.2 ^ 2) (by positivity)
    exact this.1 h0
  have a : D.1 = 0 := by nlinarith [sq_nonneg D.1, sq_nonneg D.2]
  have b : D.2 = 0 := by nlinarith [sq_nonneg D.1, sq_nonneg D.2]
  exact h (Prod.ext a b)

theorem inCell_iff (O D x y : ℝ × ℝ) (hD : segLen D ≠ 0) (t : ℝ) :
    t ∈ inCell O D x y ↔
      t * segLen D ∈ inCellA (segLen D) O (D.1 / segLen D, D.2 / segLen D) x y := by
  have hL : 0 < segLen D := lt_of_le_of_ne (Real.sqrt_nonneg _) (Ne.symm hD)
  have h1 : t * segLen D * (D.1 / segLen D) = t * D.1 := by field_simp
  have h2 : t * segLen D * (D.2 / segLen D) = t * D.2 := by field_simp
  show (0 ≤ t ∧ t ≤ 1 ∧ _ ∧ _) ↔ (0 ≤ t * segLen D ∧ t * segLen D ≤ segLen D ∧ _ ∧ _)
  simp only [h1, h2]
  rw [mul_nonneg_iff_of_pos_right hL, mul_le_iff_le_one_left hL]

/-- Outcome of the computation of the length, as an interval of the segment. -/
theorem length_cases (O D x y : ℝ × ℝ) (hD : D ≠ 0) (hx : x.1 ≤ x.2) (hy : y.1 ≤ y.2) :
    (lengthInCell O D x y = none ∧ inCell O D x y = ∅) ∨
    ∃ a b, a ≤ b ∧ lengthInCell O D x y = some (segLen D * (b - a)) ∧
      inCell O D x y = Set.Icc a b := by
  have hD' := segLen_ne hD
  have hL : 0 < segLen D := lt_of_le_of_ne (Real.sqrt_nonneg _) (Ne.symm hD')
  rcases length_spec O D x y hD' hx hy with ⟨h1, h2⟩ | ⟨a, b, hab, h1, h2⟩
  · left
    refine ⟨h1, ?_⟩
    ext t
    rw [inCell_iff O D x y hD', h2]
    simp
  · right
    refine ⟨a / segLen D, b / segLen D, by gcongr, ?_, ?_⟩
    · rw [h1]; congr 1; field_simp
    · ext t
      rw [inCell_iff O D x y hD', h2, Set.mem_Icc, Set.mem_Icc, div_le_iff₀ hL, le_div_iff₀ hL]

theorem foldl_update_none (l : List (Nat × ℝ)) (a : Nat → ℝ) (k : Nat) (h : ∀ q ∈ l, q.1 ≠ k) :
    l.foldl (fun a kv => Function.update a kv.1 kv.2) a k = a k := by
  induction l generalizing a with
  | nil => rfl
  | cons q l ih =>
    rw [List.foldl_cons, ih _ fun r hr => h r (List.mem_cons_of_mem _ hr),
      Function.update_of_ne (h q List.mem_cons_self).symm]

theorem foldl_update_some (l : List (Nat × ℝ)) (a : Nat → ℝ) (k : Nat) (v : ℝ)
    (h : ∀ q ∈ l, q.1 = k → q.2 = v) (he : ∃ q ∈ l, q.1 = k) :
    l.foldl (fun a kv => Function.update a kv.1 kv.2) a k = v := by
  induction l generalizing a with
  | nil => simp at he
  | cons q l ih =>
    rw [List.foldl_cons]
    by_cases hl : ∃ r ∈ l, r.1 = k
    · exact ih _ (fun r hr => h r (List.mem_cons_of_mem _ hr)) hl
    · push Not at hl
      rw [foldl_update_none l _ k hl]
      obtain ⟨r, hr, hk⟩ := he
      rcases List.mem_cons.1 hr with rfl | hr
      · rw [← hk, Function.update_self]; exact h r List.mem_cons_self hk
      · exact absurd hk (hl r hr)

theorem mem_lineIntegral (M : Mesh2) (tx rx : ℝ × ℝ) (q : Nat × ℝ) :
    q ∈ lineIntegral M tx rx ↔ ∃ i < M.nx, ∃ j < M.ny, q.1 = i + M.nx * j ∧
      lengthInCell tx (rx.1 - tx.1, rx.2 - tx.2) (M.x i, M.x (i + 1)) (M.y j, M.y (j + 1)) =
        some q.2 := by
  unfold lineIntegral
  simp only [List.mem_flatMap, List.mem_range, List.mem_filterMap, Option.map_eq_some_iff]
  constructor
  · rintro ⟨i, hi, j, hj, v, hv, rfl⟩
    exact ⟨i, hi, j, hj, rfl, hv⟩
  · rintro ⟨i, hi, j, hj, h1, h2⟩
    exact ⟨i, hi, j, hj, q.2, h2, Prod.ext h1.symm rfl⟩

theorem flat_inj {n i j i' j' : Nat} (hi : i < n) (hi' : i' < n) (h : i + n * j = i' + n * j') :
    i = i' ∧ j = j' := by
  have h1 : i = i' := by
    have := congrArg (· % n) h
    simpa [Nat.add_mul_mod_self_left, Nat.mod_eq_of_lt hi, Nat.mod_eq_of_lt hi'] using this
  subst h1
  have hn : 0 < n := by omega
  exact ⟨rfl, Nat.eq_of_mul_eq_mul_left hn (by omega)⟩

/-- The entry of a row. -/
theorem row_entry (M : Mesh2) (tx rx : ℝ × ℝ) {i j : Nat} (hi : i < M.nx) (hj : j < M.ny) :
    row M tx rx (i + M.nx * j) = (lengthInCell tx (rx.1 - tx.1, rx.2 - tx.2) (M.x i, M.x (i + 1))
      (M.y j, M.y (j + 1))).getD 0 := by
  unfold row
  cases hv : lengthInCell tx (rx.1 - tx.1, rx.2 - tx.2) (M.x i, M.x (i + 1)) (M.y j, M.y (j + 1)) with
  | none =>
    rw [foldl_update_none]
    · rfl
    · rintro q hq hk
      obtain ⟨i', hi', j', -, h1, h2⟩ := (mem_lineIntegral M tx rx q).1 hq
      obtain ⟨rfl, rfl⟩ := flat_inj hi' hi (h1.symm.trans hk)
      rw [hv] at h2
      simp at h2
  | some v =>
    refine foldl_update_some _ _ _ v ?_ ⟨(i + M.nx * j, v), ?_, rfl⟩
    · rintro q hq hk
      obtain ⟨i', hi', j', -, h1, h2⟩ := (mem_lineIntegral M tx rx q).1 hq
      obtain ⟨rfl, rfl⟩ := flat_inj hi' hi (h1.symm.trans hk)
      rw [hv] at h2
      exact (Option.some.inj h2).symm
    · exact (mem_lineIntegral M tx rx _).2 ⟨i, hi, j, hj, rfl, hv⟩

theorem sum_flat (F : Nat → ℝ) (nx ny : Nat) :
    ∑ k ∈ Finset.range (nx * ny), F k =
      ∑ j ∈ Finset.range ny, ∑ i ∈ Finset.range nx, F (i + nx * j) := by
  induction ny with
  | zero => simp
  | succ n ih =>
    rw [Nat.mul_succ, Finset.sum_range_add, ih, Finset.sum_range_succ]
    congr 1
    exact Finset.sum_congr rfl fun i _ => by rw [add_comm]

/-- A number which is no node lies outside or in exactly one cell. -/
theorem locate (x : Nat → ℝ) (n : Nat) (hx : ∀ i < n, x i < x (i + 1)) (z : ℝ)
    (hz : ∀ i ≤ n, x i ≠ z) :
    ((z < x 0 ∨ x n < z) ∧ ∀ i < n, ¬ (x i ≤ z ∧ z ≤ x (i + 1))) ∨
    ∃ i < n, (x i < z ∧ z < x (i + 1)) ∧ ∀ k < n, (x k ≤ z ∧ z ≤ x (k + 1)) → k = i := by
  have mono : ∀ a b, a ≤ b → b ≤ n → x a ≤ x b := by
    intro a b hab hb
    induction b with
    | zero => simp_all
    | succ b ih =>
      rcases Nat.lt_or_ge a (b + 1) with h | h
      · exact (ih (by omega) (by omega)).trans (hx b (by omega)).le
      · have : a = b + 1 := by omega
        rw [this]
  by_cases h0 : z < x 0
  · left
    refine ⟨Or.inl h0, fun i hi h => ?_⟩
    have := mono 0 i (by omega) (by omega)
    linarith [h.1]
  by_cases h1 : x n < z
  · left
    refine ⟨Or.inr h1, fun i hi h => ?_⟩
    have := mono (i + 1) n (by omega) le_rfl
    linarith [h.2]
  · right
    push Not at h0 h1
    have hex : ∃ i < n, x i < z ∧ z < x (i + 1) := by
      by_contra hno
      push Not at hno
      have : ∀ i ≤ n, x i < z := by
        intro i
        induction i with
        | zero => intro _; exact lt_of_le_of_ne h0 (hz 0 (by omega))
        | succ i ih =>
          intro hi
          exact lt_of_le_of_ne (hno i (by omega) (ih (by omega))) (hz _ hi)
      linarith [this n le_rfl]
    obtain ⟨i, hi, h2, h3⟩ := hex
    refine ⟨i, hi, ⟨h2, h3⟩, fun k hk h => ?_⟩
    by_contra hne
    rcases Nat.lt_or_gt_of_ne hne with hlt | hgt
    · have := mono (k + 1) i (by omega) (by omega)
      linarith [h.2]
    · have := mono (i + 1) k (by omega) (by omega)
      linarith [h.1]

/-! ### Property theorems -/

/-- **C107 (length in a cell).** For a ray of positive length, no length is returned exactly if no point of
the segment lies in the closed cell; otherwise the returned value is the length of the part of the segment
in the cell. -/
theorem C107_cell (O D x y : ℝ × ℝ) (hD : D ≠ 0) (hx : x.1 ≤ x.2) (hy : y.1 ≤ y.2) :
    (lengthInCell O D x y = none ↔ inCell O D x y = ∅) ∧
    ∀ v, lengthInCell O D x y = some v → v = segLen D * (volume (inCell O D x y)).toReal := by
  rcases length_cases O D x y hD hx hy with ⟨h1, h2⟩ | ⟨a, b, hab, h1, h2⟩
  · simp [h1, h2]
  · refine ⟨?_, ?_⟩
    · rw [h1, h2, Set.Icc_eq_empty_iff]
      simp [hab]
    · intro v hv
      rw [h1] at hv
      rw [← Option.some.inj hv, h2, Real.volume_Icc, ENNReal.toReal_ofReal (by linarith)]

/-- The ray does not run along a line of the grid. -/
def OffGrid (M : Mesh2) (tx rx : ℝ × ℝ) : Prop :=
  (rx.1 = tx.1 → ∀ i ≤ M.nx, M.x i ≠ tx.1) ∧ (rx.2 = tx.2 → ∀ j ≤ M.ny, M.y j ≠ tx.2)

/-- A function of position with the values of the cells inside the cells and zero outside the mesh. -/
structure Piecewise (M : Mesh2) (s : Nat → ℝ) (f : ℝ × ℝ → ℝ) : Prop where
  inside : ∀ i < M.nx, ∀ j < M.ny, ∀ z : ℝ × ℝ, M.x i < z.1 → z.1 < M.x (i + 1) → M.y j < z.2 →
    z.2 < M.y (j + 1) → f z = s (i + M.nx * j)
  outside : ∀ z : ℝ × ℝ, z.1 < M.x 0 ∨ M.x M.nx < z.1 ∨ z.2 < M.y 0 ∨ M.y M.ny < z.2 → f z = 0

/-- The integral of a function along the segment from `tx` to `rx`. -/
def along (f : ℝ × ℝ → ℝ) (tx rx : ℝ × ℝ) : ℝ :=
  segLen (rx.1 - tx.1, rx.2 - tx.2) *
    ∫ t in (0:ℝ)..1, f (tx.1 + t * (rx.1 - tx.1), tx.2 + t * (rx.2 - tx.2))

/-- `Tensor` meshes have increasing nodes. -/
structure Mesh2.Good (M : Mesh2) : Prop where
  x : ∀ i < M.nx, M.x i < M.x (i + 1)
  y : ∀ j < M.ny, M.y j < M.y (j + 1)

theorem finite_hits (x : Nat → ℝ) (n : Nat) (O D : ℝ) (h : D = 0 → ∀ i ≤ n, x i ≠ O) :
    {t : ℝ | ∃ i ≤ n, x i = O + t * D}.Finite := by
  by_cases hD : D = 0
  · convert Set.finite_empty
    ext t
    simp only [Set.mem_setOf_eq, Set.mem_empty_iff_false, iff_false]
    rintro ⟨i, hi, e⟩
    exact h hD i hi (by rw [e, hD]; ring)
  · refine ((Set.finite_le_nat n).image fun i => (x i - O) / D).subset ?_
    rintro t ⟨i, hi, e⟩
    refine ⟨i, hi, ?_⟩
    simp only [e]
    field_simp
    ring

theorem measurable_inCell (O D x y : ℝ × ℝ) : MeasurableSet (inCell O D x y) := by
  have : IsClosed (inCell O D x y) := by
    unfold inCell
    refine IsClosed.and (isClosed_le continuous_const continuous_id) ?_
    refine IsClosed.and (isClosed_le continuous_id continuous_const) ?_
    refine IsClosed.and (IsClosed.and ?_ ?_) (IsClosed.and ?_ ?_)
    all_goals first
      | exact isClosed_le continuous_const (by fun_prop)
      | exact isClosed_le (by fun_prop) continuous_const
  exact this.measurableSet

theorem entry_integral (O D x y : ℝ × ℝ) (hD : D ≠ 0) (hx : x.1 ≤ x.2) (hy : y.1 ≤ y.2) :
    (lengthInCell O D x y).getD 0 =
      segLen D * ∫ t in Set.Icc (0:ℝ) 1, (inCell O D x y).indicator (fun _ => (1:ℝ)) t := by
  have hsub : inCell O D x y ⊆ Set.Icc 0 1 := fun t ht => ⟨ht.1, ht.2.1⟩
  rw [setIntegral_indicator (measurable_inCell O D x y), Set.inter_eq_self_of_subset_right hsub]
  rcases length_cases O D x y hD hx hy with ⟨h1, h2⟩ | ⟨a, b, hab, h1, h2⟩
  · simp [h1, h2]
  · rw [h1, h2]
    simp [hab]

/-- **C107 (travel time).** For a ray of positive length which does not run along a line of the grid the
datum is the integral of the slowness along the ray. -/
theorem C107_ray (M : Mesh2) (hM : M.Good) (tx rx : ℝ × ℝ) (hne : rx ≠ tx) (hg : OffGrid M tx rx)
    (s : Nat → ℝ) (f : ℝ × ℝ → ℝ) (hf : Piecewise M s f) :
    ∑ k ∈ Finset.range (M.nx * M.ny), row M tx rx k * s k = along f tx rx := by
  set D : ℝ × ℝ := (rx.1 - tx.1, rx.2 - tx.2) with hDdef
  have hD : D ≠ 0 := by
    intro h
    apply hne
    have h1 : rx.1 - tx.1 = 0 := congrArg Prod.fst h
    have h2 : rx.2 - tx.2 = 0 := congrArg Prod.snd h
    exact Prod.ext (by linarith) (by linarith)
  set C : Nat → Nat → Set ℝ := fun i j =>
    inCell tx D (M.x i, M.x (i + 1)) (M.y j, M.y (j + 1)) with hC
  have e1 : ∑ k ∈ Finset.range (M.nx * M.ny), row M tx rx k * s k =
      segLen D * ∑ j ∈ Finset.range M.ny, ∑ i ∈ Finset.range M.nx,
        ∫ t in Set.Icc (0:ℝ) 1, s (i + M.nx * j) * (C i j).indicator (fun _ => (1:ℝ)) t := by
    rw [sum_flat, Finset.mul_sum]
    refine Finset.sum_congr rfl fun j hj => ?_
    rw [Finset.mul_sum]
    refine Finset.sum_congr rfl fun i hi => ?_
    rw [row_entry M tx rx (Finset.mem_range.1 hi) (Finset.mem_range.1 hj),
      entry_integral tx D _ _ hD (hM.x i (Finset.mem_range.1 hi)).le (hM.y j (Finset.mem_range.1 hj)).le,
      integral_const_mul]
    ring
  have hint : ∀ i j, IntegrableOn (fun t => s (i + M.nx * j) * (C i j).indicator (fun _ => (1:ℝ)) t)
      (Set.Icc (0:ℝ) 1) volume := by
    intro i j
    refine Integrable.const_mul ?_ _
    refine Integrable.indicator ?_ (measurable_inCell _ _ _ _)
    exact integrable_const _
  have e2 : ∑ j ∈ Finset.range M.ny, ∑ i ∈ Finset.range M.nx,
        ∫ t in Set.Icc (0:ℝ) 1, s (i + M.nx * j) * (C i j).indicator (fun _ => (1:ℝ)) t =
      ∫ t in Set.Icc (0:ℝ) 1, ∑ j ∈ Finset.range M.ny, ∑ i ∈ Finset.range M.nx,
        s (i + M.nx * j) * (C i j).indicator (fun _ => (1:ℝ)) t := by
    rw [integral_finset_sum _ fun j _ => integrable_finset_sum _ fun i _ => hint i j]
    refine Finset.sum_congr rfl fun j _ => ?_
    rw [integral_finset_sum _ fun i _ => hint i j]
  rw [e1, e2]
  unfold along
  rw [intervalIntegral.integral_of_le zero_le_one, ← integral_Icc_eq_integral_Ioc]
  congr 1
  have hN1 := finite_hits M.x M.nx tx.1 (rx.1 - tx.1) fun h => hg.1 (by linarith)
  have hN2 := finite_hits M.y M.ny tx.2 (rx.2 - tx.2) fun h => hg.2 (by linarith)
  have hae : ∀ᵐ t ∂(volume : Measure ℝ), t ∉ {t : ℝ | ∃ i ≤ M.nx, M.x i = tx.1 + t * (rx.1 - tx.1)} ∪
      {t : ℝ | ∃ i ≤ M.ny, M.y i = tx.2 + t * (rx.2 - tx.2)} := by
    rw [ae_iff]
    simp only [not_not, Set.setOf_mem_eq]
    exact (hN1.union hN2).measure_zero _
  refine setIntegral_congr_ae measurableSet_Icc ?_
  filter_upwards [hae] with t ht htI
  rw [Set.mem_union, not_or] at ht
  have hX : ∀ i ≤ M.nx, M.x i ≠ tx.1 + t * (rx.1 - tx.1) := fun i hi e => ht.1 ⟨i, hi, e⟩
  have hY : ∀ i ≤ M.ny, M.y i ≠ tx.2 + t * (rx.2 - tx.2) := fun i hi e => ht.2 ⟨i, hi, e⟩
  have hmem : ∀ i j, t ∈ C i j ↔ (M.x i ≤ tx.1 + t * (rx.1 - tx.1) ∧
      tx.1 + t * (rx.1 - tx.1) ≤ M.x (i + 1)) ∧ (M.y j ≤ tx.2 + t * (rx.2 - tx.2) ∧
      tx.2 + t * (rx.2 - tx.2) ≤ M.y (j + 1)) := by
    intro i j
    show (0 ≤ t ∧ t ≤ 1 ∧ _ ∧ _) ↔ _
    simp only [htI.1, htI.2, true_and, hDdef]
  rcases locate M.x M.nx hM.x _ hX with ⟨h1, h2⟩ | ⟨i, hi, h1, h2⟩
  · rw [hf.outside _ (by rcases h1 with h | h; exacts [Or.inl h, Or.inr (Or.inl h)])]
    refine Finset.sum_eq_zero fun j _ => Finset.sum_eq_zero fun i hi => ?_
    rw [Set.indicator_of_notMem, mul_zero]
    rw [hmem]
    exact fun h => h2 i (Finset.mem_range.1 hi) h.1
  · rcases locate M.y M.ny hM.y _ hY with ⟨h3, h4⟩ | ⟨j, hj, h3, h4⟩
    · rw [hf.outside _ (by
        rcases h3 with h | h
        exacts [Or.inr (Or.inr (Or.inl h)), Or.inr (Or.inr (Or.inr h))])]
      refine Finset.sum_eq_zero fun j hj => Finset.sum_eq_zero fun i _ => ?_
      rw [Set.indicator_of_notMem, mul_zero]
      rw [hmem]
      exact fun h => h4 j (Finset.mem_range.1 hj) h.2
    · rw [Finset.sum_eq_single j, Finset.sum_eq_single i]
      · rw [Set.indicator_of_mem, mul_one]
        · exact (hf.inside i hi j hj _ h1.1 h1.2 h3.1 h3.2).symm
        · rw [hmem]; exact ⟨⟨h1.1.le, h1.2.le⟩, h3.1.le, h3.2.le⟩
      · intro k hk hne
        rw [Set.indicator_of_notMem, mul_zero]
        rw [hmem]
        exact fun h => hne (h2 k (Finset.mem_range.1 hk) h.1)
      · intro h; exact absurd (Finset.mem_range.2 hi) h
      · intro k hk hne
        refine Finset.sum_eq_zero fun i _ => ?_
        rw [Set.indicator_of_notMem, mul_zero]
        rw [hmem]
        exact fun h => hne (h4 k (Finset.mem_range.1 hk) h.2)
      · intro h; exact absurd (Finset.mem_range.2 hj) h

/-- The rays of a survey, in the order of the data. -/
def rays (ss : List RaySrc) : List ((ℝ × ℝ) × (ℝ × ℝ)) :=
  ss.flatMap fun s => s.rx.flatten.map fun l => (s.loc, l)

/-- **C107 (survey).** The data of a survey are the integrals of the slowness along its rays, in the order
of sources, receivers and locations. -/
theorem C107_travel_times_partial (M : Mesh2) (hM : M.Good) (ss : List RaySrc)
    (hss : ∀ q ∈ rays ss, q.2 ≠ q.1 ∧ OffGrid M q.1 q.2) (s : Nat → ℝ) (f : ℝ × ℝ → ℝ)
    (hf : Piecewise M s f) :
    times M ss s = (rays ss).map fun q => along f q.1 q.2 := by
  have h : times M ss s = (rays ss).map fun q =>
      ∑ k ∈ Finset.range (M.nx * M.ny), row M q.1 q.2 k * s k := by
    unfold times rows rays
    simp only [List.map_flatMap, List.map_map, List.map_flatten, List.flatMap_def, List.flatten_flatten,
      Function.comp_def]
  rw [h]
  exact List.map_congr_left fun q hq => C107_ray M hM q.1 q.2 (hss q hq).1 (hss q hq).2 s f hf

/-- **C107 (total length).** The lengths of a ray in the cells of the mesh add up to its length, if its ends
lie inside the mesh. -/
theorem C107_total_partial (M : Mesh2) (hM : M.Good) (tx rx : ℝ × ℝ) (hne : rx ≠ tx)
    (hg : OffGrid M tx rx)
    (ht : (M.x 0 ≤ tx.1 ∧ tx.1 ≤ M.x M.nx) ∧ M.y 0 ≤ tx.2 ∧ tx.2 ≤ M.y M.ny)
    (hr : (M.x 0 ≤ rx.1 ∧ rx.1 ≤ M.x M.nx) ∧ M.y 0 ≤ rx.2 ∧ rx.2 ≤ M.y M.ny) :
    ∑ k ∈ Finset.range (M.nx * M.ny), row M tx rx k = segLen (rx.1 - tx.1, rx.2 - tx.2) := by
  classical
  let f : ℝ × ℝ → ℝ := fun z =>
    if z.1 < M.x 0 ∨ M.x M.nx < z.1 ∨ z.2 < M.y 0 ∨ M.y M.ny < z.2 then 0 else 1
  have mono : ∀ (x : Nat → ℝ) (n : Nat), (∀ i < n, x i < x (i + 1)) → ∀ a b, a ≤ b → b ≤ n →
      x a ≤ x b := by
    intro x n hx a b hab hb
    induction b with
    | zero => simp_all
    | succ b ih =>
      rcases Nat.lt_or_ge a (b + 1) with h | h
      · exact (ih (by omega) (by omega)).trans (hx b (by omega)).le
      · have : a = b + 1 := by omega
        rw [this]
  have hf : Piecewise M (fun _ => 1) f := by
    refine ⟨fun i hi j hj z h1 h2 h3 h4 => ?_, fun z hz => if_pos hz⟩
    refine if_neg ?_
    have a1 := mono M.x M.nx hM.x 0 i (by omega) (by omega)
    have a2 := mono M.x M.nx hM.x (i + 1) M.nx (by omega) le_rfl
    have a3 := mono M.y M.ny hM.y 0 j (by omega) (by omega)
    have a4 := mono M.y M.ny hM.y (j + 1) M.ny (by omega) le_rfl
    rintro (h | h | h | h) <;> linarith
  have key := C107_ray M hM tx rx hne hg (fun _ => 1) f hf
  simp only [mul_one] at key
  rw [key]
  unfold along
  have : ∫ t in (0:ℝ)..1, f (tx.1 + t * (rx.1 - tx.1), tx.2 + t * (rx.2 - tx.2)) =
      ∫ _ in (0:ℝ)..1, (1:ℝ) := by
    refine intervalIntegral.integral_congr fun t ht' => ?_
    rw [Set.uIcc_of_le zero_le_one] at ht'
    refine if_neg ?_
    obtain ⟨t0, t1⟩ := ht'
    rintro (h | h | h | h) <;> simp only at h <;> nlinarith
  rw [this]
  simp

/-- Two cells side by side. -/
def twoCells : Mesh2 := ⟨2, 1, fun i => i, fun j => j⟩

theorem twoCells_good : twoCells.Good :=
  ⟨fun i _ => by simp [twoCells], fun j _ => by simp [twoCells]⟩

/-- **C107, violated.** The travel time of a ray along a line between two cells is counted in both cells: a
ray of length one in a medium of slowness one takes the time two. -/
theorem C107_violated_grid_line :
    times twoCells [⟨(1, 0), [[(1, 1)]]⟩] (fun _ => 1) = [2] ∧ segLen (1 - 1, 1 - 0) = 1 := by
  have hD : ((1:ℝ) - 1, (1:ℝ) - 0) ≠ (0 : ℝ × ℝ) := by
    intro h
    have : (1:ℝ) - 0 = 0 := congrArg Prod.snd h
    norm_num at this
  have hseg : segLen ((1:ℝ) - 1, (1:ℝ) - 0) = 1 := by simp [segLen]
  have hcell : ∀ a b : ℝ, a ≤ 1 → 1 ≤ b →
      lengthInCell ((1:ℝ), (0:ℝ)) ((1:ℝ) - 1, (1:ℝ) - 0) (a, b) ((0:ℝ), (1:ℝ)) = some 1 := by
    intro a b ha hb
    have hI : inCell ((1:ℝ), (0:ℝ)) ((1:ℝ) - 1, (1:ℝ) - 0) (a, b) ((0:ℝ), (1:ℝ)) = Set.Icc 0 1 := by
      ext t
      simp only [inCell, Set.mem_setOf_eq, Set.mem_Icc, sub_self, mul_zero, add_zero, sub_zero,
        mul_one, zero_add, ha, hb, and_self, true_and]
      tauto
    have h := C107_cell ((1:ℝ), (0:ℝ)) ((1:ℝ) - 1, (1:ℝ) - 0) (a, b) ((0:ℝ), (1:ℝ)) hD
      (ha.trans hb) zero_le_one
    cases hv : lengthInCell ((1:ℝ), (0:ℝ)) ((1:ℝ) - 1, (1:ℝ) - 0) (a, b) ((0:ℝ), (1:ℝ)) with
    | none =>
      have := h.1.1 hv
      rw [hI] at this
      exact absurd this (by rw [Set.Icc_eq_empty_iff]; norm_num)
    | some v => rw [h.2 v hv, hI, hseg]; simp
  refine ⟨?_, hseg⟩
  have h0 := row_entry twoCells (1, 0) (1, 1) (i := 0) (j := 0) (by simp [twoCells]) (by simp [twoCells])
  have h1 := row_entry twoCells (1, 0) (1, 1) (i := 1) (j := 0) (by simp [twoCells]) (by simp [twoCells])
  have e0 := hcell 0 1 (by norm_num) le_rfl
  have e1 := hcell 1 2 le_rfl (by norm_num)
  have g0 : row twoCells (1, 0) (1, 1) 0 = 1 := by
    have : (0 : Nat) + twoCells.nx * 0 = 0 := by simp
    rw [this] at h0
    rw [h0]
    simp only [twoCells, Nat.cast_zero, Nat.cast_one, zero_add]
    rw [e0]; rfl
  have g1 : row twoCells (1, 0) (1, 1) 1 = 1 := by
    have : (1 : Nat) + twoCells.nx * 0 = 1 := by simp
    rw [this] at h1
    rw [h1]
    simp only [twoCells, Nat.cast_zero, Nat.cast_one, zero_add]
    rw [show (((1 + 1 : Nat) : ℝ)) = 2 by norm_num, e1]; rfl
  simp only [times, rows, List.flatMap_cons, List.flatMap_nil, List.append_nil, List.map_cons,
    List.map_nil, mul_one]
  have : Finset.range (twoCells.nx * twoCells.ny) = {0, 1} := rfl
  rw [this, Finset.sum_pair (by norm_num), g0, g1]
  norm_num

/-- Non-vacuity of `C107_cell`, `C107_ray`, `C107_travel_times_partial` and `C107_total_partial`: a
diagonal ray through both cells. -/
example : ((2:ℝ), (1:ℝ)) ≠ (0, 0) ∧ OffGrid twoCells (0, 0) (2, 1) ∧
    Piecewise twoCells (fun k => k + 1) (fun z =>
      if z.1 < 0 ∨ 2 < z.1 ∨ z.2 < 0 ∨ 1 < z.2 then 0 else if z.1 < 1 then 1 else 2) ∧
    ∑ k ∈ Finset.range (twoCells.nx * twoCells.ny), row twoCells (0, 0) (2, 1) k = Real.sqrt 5 := by
  have hg : OffGrid twoCells (0, 0) (2, 1) := ⟨fun h => by norm_num at h, fun h => by norm_num at h⟩
  have hne : ((2:ℝ), (1:ℝ)) ≠ (0, 0) := fun h => by
    have : (2:ℝ) = 0 := congrArg Prod.fst h
    norm_num at this
  refine ⟨hne, hg, ⟨?_, ?_⟩, ?_⟩
  · intro i hi j hj z h1 h2 h3 h4
    have hj0 : j = 0 := by simp only [twoCells] at hj; omega
    subst hj0
    have hi' : i = 0 ∨ i = 1 := by simp only [twoCells] at hi; omega
    simp only [twoCells] at h1 h2 h3 h4 ⊢
    rcases hi' with rfl | rfl <;> norm_num at h1 h2 h3 h4 ⊢
    · rw [if_neg (by push Not; refine ⟨?_, ?_, ?_, ?_⟩ <;> linarith), if_pos h2]
    · rw [if_neg (by push Not; refine ⟨?_, ?_, ?_, ?_⟩ <;> linarith), if_neg (by linarith)]
  · intro z hz
    refine if_pos ?_
    simpa [twoCells] using hz
  · rw [C107_total_partial twoCells twoCells_good (0, 0) (2, 1) hne hg]
    · unfold segLen; norm_num
    · simp [twoCells]
    · simp [twoCells]

end

end Verif.Seismic
