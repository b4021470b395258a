import Verif.Basic
import Mathlib.Data.Real.Basic
import Mathlib.Data.Fintype.Pi
import Mathlib.Data.Fintype.BigOperators
import Mathlib.Algebra.BigOperators.Fin
import Mathlib.Data.Sign.Defs
import Mathlib.Algebra.Order.BigOperators.Ring.Finset
import Mathlib.Tactic.Ring
import Mathlib.Tactic.FieldSimp
import Mathlib.Tactic.Linarith
import Mathlib.Tactic.NormNum
import Mathlib.Tactic.FinCases

/-!
Line currents through the faces of a tensor mesh: `line_through_faces`
(`simpeg/electromagnetics/utils/current_utils.py` 368-513).

The three branches for the three axes are written once, with the axis as a variable.  The vertices are given by
the cells whose centres are nearest to them (`discretize.utils.closest_points_index`, a library function; the code
replaces the vertices by these centres, lines 408-410).  The nearest face of an axis to a cell centre is one of
the two faces of the cell, so that its other coordinates are those of the centre.
-/

namespace Verif.EM.Faces

/-- One axis: `n` cells, nodes `0, ..., n`. -/
structure Grid where
  n : ℕ
  node : ℕ → ℝ

/-- `h` -/
def Grid.h (g : Grid) (i : ℕ) : ℝ := g.node (i + 1) - g.node i

/-- Cell centres. -/
noncomputable def Grid.centre (g : Grid) (i : ℕ) : ℝ := (g.node i + g.node (i + 1)) / 2

/-- `mesh.h[e].min()` -/
noncomputable def Grid.hmin (g : Grid) : ℝ := (List.range g.n).foldr (fun i m => min (g.h i) m) (g.h 0)

/-- A tensor mesh. -/
abbrev Mesh := Fin 3 → Grid

/-- The numbers of a cell along the axes. -/
abbrev Cell := Fin 3 → ℕ

/-- Values on faces: the axis, the number of the node along that axis and of the cells along the others. -/
abbrev Faces := Fin 3 → Cell → ℝ

/-- The centre of a face. -/
noncomputable def facePos (M : Mesh) (d : Fin 3) (idx : Cell) (e : Fin 3) : ℝ :=
  if e = d then (M e).node (idx e) else (M e).centre (idx e)

/-- The area of a face. -/
noncomputable def area (M : Mesh) (d : Fin 3) (idx : Cell) : ℝ :=
  ∏ e, if e = d then 1 else (M e).h (idx e)

/-- The centre of a cell. -/
noncomputable def pos (M : Mesh) (c : Cell) (e : Fin 3) : ℝ := (M e).centre (c e)

/-- `np.nonzero(np.abs(locations[i, :] - locations[i + 1, :]))[0]`.  current_utils.py:414 -/
noncomputable def dims (M : Mesh) (c c' : Cell) : List (Fin 3) :=
  (List.finRange 3).filter fun e => decide (|pos M c e - pos M c' e| ≠ 0)

/-- `src_inds`.  current_utils.py:450-485 -/
def srcInds (M : Mesh) (d : Fin 3) (c c' : Cell) (idx : Cell) : Prop :=
  ∀ e, if e = d then min (pos M c e) (pos M c' e) ≤ facePos M d idx e ∧ facePos M d idx e ≤ max (pos M c e) (pos M c' e)
    else pos M c e - (M e).hmin / 4 ≤ facePos M d idx e ∧ facePos M d idx e ≤ pos M c e + (M e).hmin / 4

/-- `np.sign` -/
noncomputable def sgn (x : ℝ) : ℝ := if x < 0 then -1 else if 0 < x then 1 else 0

/-- One segment: the entries of the faces between the two centres are set.  current_utils.py:413-487 -/
noncomputable def segment (M : Mesh) (c c' : Cell) (cur : Faces) : Except Err Faces := by
  classical
  exact match dims M c c' with
    | [] => .error .indexError
    | [d] =>
      let direction := sgn (pos M c d - pos M c' d)
      .ok fun e idx => if e = d ∧ srcInds M d c c' idx then direction else cur e idx
    | _ => .error .exception

/-- All segments.  current_utils.py:413-487 -/
noncomputable def path (M : Mesh) : List Cell → Faces → Except Err Faces
  | c :: c' :: cs, cur => do
    let cur' ← segment M c c' cur
    path M (c' :: cs) cur'
  | _, cur => .ok cur

/-- `mesh.cell_volumes * mesh.face_divergence * current`: the flux out of a cell.  current_utils.py:494 -/
noncomputable def flux (M : Mesh) (cur : Faces) (c : Cell) : ℝ :=
  ∑ d, (area M d (Function.update c d (c d + 1)) * cur d (Function.update c d (c d + 1)) - area M d c * cur d c)

/-- All cells. -/
def cells (M : Mesh) : Finset Cell := Fintype.piFinset fun e => Finset.range (M e).n

/-- The tolerances of the check and of `np.allclose`. -/
structure Tol where
  div : ℝ
  rtol : ℝ
  atol : ℝ

/-- `np.allclose(locations[0, :], locations[-1, :])` -/
def allclose (M : Mesh) (t : Tol) (c c' : Cell) : Prop :=
  ∀ e, |pos M c e - pos M c' e| ≤ t.atol + t.rtol * |pos M c' e|

/-- The check of the divergence.  current_utils.py:492-511 -/
noncomputable def check (M : Mesh) (t : Tol) (first last : Cell) (cur : Faces) : Except Err Faces := by
  classical
  exact
    let nonzero := ((cells M).filter fun c => t.div < |flux M cur c|).card
    if ¬ allclose M t first last then
      if nonzero > 2 then .error .exception
      else if |∑ c ∈ cells M, flux M cur c| > t.div then .error .exception
      else .ok cur
    else if nonzero > 0 then .error .exception
    else .ok cur

/-- `line_through_faces`.  current_utils.py:368-513 -/
noncomputable def line (M : Mesh) (t : Tol) (normalize checkDiv : Bool) (cs : List Cell) : Except Err Faces := do
  let cur ← path M cs fun _ _ => 0
  let cur' : Faces := if normalize then fun d idx => cur d idx / area M d idx else cur
  match checkDiv, cs.head?, cs.getLast? with
  | true, some a, some b => check M t a b cur'
  | true, _, _ => .error .indexError
  | false, _, _ => .ok cur'

end Verif.EM.Faces

namespace Verif.EM.Faces.Props
open Verif Verif.EM.Faces

/-! ### Specification -/

/-- The nodes of every axis increase and there are cells. -/
def Ok (M : Mesh) : Prop := ∀ e, 0 < (M e).n ∧ ∀ i < (M e).n, (M e).node i < (M e).node (i + 1)

/-- A cell of the mesh. -/
def InMesh (M : Mesh) (c : Cell) : Prop := ∀ e, c e < (M e).n

/-- A face of the mesh. -/
def FaceOf (M : Mesh) (d : Fin 3) (idx : Cell) : Prop := ∀ e, if e = d then idx e ≤ (M e).n else idx e < (M e).n

/-- Two cells in one row along the axis `d`. -/
def Row (d : Fin 3) (c c' : Cell) : Prop := c d ≠ c' d ∧ ∀ e, e ≠ d → c e = c' e

/-- The faces crossed by the straight line between two cells in one row. -/
def Crossed (d : Fin 3) (c c' : Cell) (e : Fin 3) (idx : Cell) : Prop :=
  e = d ∧ (∀ a, a ≠ d → idx a = c a) ∧ min (c d) (c' d) < idx d ∧ idx d ≤ max (c d) (c' d)

/-- A wire all of whose segments are along an axis. -/
def Aligned : List Cell → Prop
  | c :: c' :: cs => (∃ d, Row d c c') ∧ Aligned (c' :: cs)
  | _ => True

/-- The faces crossed by a segment of a wire. -/
def OnWire : List Cell → Fin 3 → Cell → Prop
  | c :: c' :: cs, e, idx => (∃ d, Row d c c' ∧ Crossed d c c' e idx) ∨ OnWire (c' :: cs) e idx
  | _, _, _ => False

/-- No face is crossed twice. -/
def Simple : List Cell → Prop
  | c :: c' :: cs => (∀ d e idx, Row d c c' → Crossed d c c' e idx → ¬ OnWire (c' :: cs) e idx) ∧ Simple (c' :: cs)
  | _ => True

/-- Net number of times the wire ends minus begins in a cell. -/
def endsIn (cs : List Cell) (c : Cell) : ℝ :=
  (if cs.getLast? = some c then 1 else 0) - (if cs.head? = some c then 1 else 0)

/-! ### Geometry -/

theorem mono {M : Mesh} (hM : Ok M) (e : Fin 3) {i j : ℕ} (hij : i ≤ j) (hj : j ≤ (M e).n) :
    (M e).node i ≤ (M e).node j := by
  induction j, hij using Nat.le_induction with
  | base => exact le_rfl
  | succ j hij ih => exact (ih (by omega)).trans ((hM e).2 j (by omega)).le

theorem centre_lt {M : Mesh} (hM : Ok M) (e : Fin 3) {i j : ℕ} (hij : i < j) (hj : j < (M e).n) :
    (M e).centre i < (M e).centre j := by
  have h1 := (hM e).2 i (by omega)
  have h2 := (hM e).2 j hj
  have h3 := mono hM e (show i + 1 ≤ j by omega) (by omega)
  unfold Grid.centre; linarith

theorem centre_le_node {M : Mesh} (hM : Ok M) (e : Fin 3) {i j : ℕ} (hi : i < (M e).n) (hj : j ≤ (M e).n) :
    (M e).centre i ≤ (M e).node j ↔ i < j := by
  have h1 := (hM e).2 i hi
  constructor
  · intro h
    by_contra hc
    have := mono hM e (show j ≤ i by omega) (by omega)
    unfold Grid.centre at h; linarith
  · intro h
    have := mono hM e (show i + 1 ≤ j by omega) hj
    unfold Grid.centre; linarith

theorem node_le_centre {M : Mesh} (hM : Ok M) (e : Fin 3) {i j : ℕ} (hi : i < (M e).n) (hj : j ≤ (M e).n) :
    (M e).node j ≤ (M e).centre i ↔ j ≤ i := by
  have h1 := (hM e).2 i hi
  constructor
  · intro h
    by_contra hc
    have := mono hM e (show i + 1 ≤ j by omega) hj
    unfold Grid.centre at h; linarith
  · intro h
    have := mono hM e h (by omega)
    unfold Grid.centre; linarith

theorem hmin_le {g : Grid} {i : ℕ} (hi : i < g.n) : g.hmin ≤ g.h i := by
  unfold Grid.hmin
  have : ∀ l : List ℕ, i ∈ l → l.foldr (fun i m => min (g.h i) m) (g.h 0) ≤ g.h i := by
    intro l
    induction l with
    | nil => simp
    | cons a l ih =>
      intro h
      simp only [List.foldr_cons]
      rcases List.mem_cons.1 h with h | h
      · subst h; exact min_le_left _ _
      · exact (min_le_right _ _).trans (ih h)
  exact this _ (List.mem_range.2 hi)

theorem hmin_pos {M : Mesh} (hM : Ok M) (e : Fin 3) : 0 < (M e).hmin := by
  unfold Grid.hmin
  have : ∀ l : List ℕ, (∀ i ∈ l, i < (M e).n) → 0 < l.foldr (fun i m => min ((M e).h i) m) ((M e).h 0) := by
    intro l
    induction l with
    | nil => intro _; exact sub_pos.2 ((hM e).2 0 (hM e).1)
    | cons a l ih =>
      intro h
      simp only [List.foldr_cons]
      exact lt_min (sub_pos.2 ((hM e).2 a (h a (by simp)))) (ih fun i hi => h i (by simp [hi]))
  exact this _ fun i hi => List.mem_range.1 hi

/-- Only the cell itself is within a quarter of the smallest width. -/
theorem centre_close {M : Mesh} (hM : Ok M) (e : Fin 3) {i j : ℕ} (hi : i < (M e).n) (hj : j < (M e).n) :
    ((M e).centre i - (M e).hmin / 4 ≤ (M e).centre j ∧ (M e).centre j ≤ (M e).centre i + (M e).hmin / 4) ↔ j = i := by
  have hp := hmin_pos hM e
  constructor
  · rintro ⟨h1, h2⟩
    have wi := hmin_le hi
    have wj := hmin_le hj
    unfold Grid.h at wi wj
    unfold Grid.centre at h1 h2
    rcases lt_trichotomy j i with h | h | h
    · have h3 := mono hM e (show j + 1 ≤ i by omega) (by omega)
      linarith
    · exact h
    · have h3 := mono hM e (show i + 1 ≤ j by omega) (by omega)
      linarith
  · rintro rfl; constructor <;> linarith

theorem srcInds_iff {M : Mesh} (hM : Ok M) {d : Fin 3} {c c' : Cell} (hc : InMesh M c) (hc' : InMesh M c')
    {idx : Cell} (hi : FaceOf M d idx) : srcInds M d c c' idx ↔ Crossed d c c' d idx := by
  unfold srcInds Crossed
  have key : ∀ e, (if e = d then min (pos M c e) (pos M c' e) ≤ facePos M d idx e ∧
        facePos M d idx e ≤ max (pos M c e) (pos M c' e)
      else pos M c e - (M e).hmin / 4 ≤ facePos M d idx e ∧ facePos M d idx e ≤ pos M c e + (M e).hmin / 4) ↔
      (if e = d then min (c d) (c' d) < idx d ∧ idx d ≤ max (c d) (c' d) else idx e = c e) := by
    intro e
    have hie := hi e
    by_cases h : e = d
    · subst h
      simp only [if_true] at hie
      simp only [if_true, facePos, pos, min_le_iff, le_max_iff, centre_le_node hM e (hc e) hie,
        centre_le_node hM e (hc' e) hie, node_le_centre hM e (hc e) hie, node_le_centre hM e (hc' e) hie]
      omega
    · simp only [if_neg h] at hie
      simp only [if_neg h, facePos, pos]
      exact centre_close hM e (hc e) hie
  rw [forall_congr' key]
  constructor
  · intro h
    have h1 := h d
    simp only [if_true] at h1
    exact ⟨rfl, fun a ha => by have := h a; rwa [if_neg ha] at this, h1⟩
  · rintro ⟨-, h1, h2⟩ e
    by_cases he : e = d
    · rw [if_pos he]; exact h2
    · rw [if_neg he]; exact h1 e he

theorem pos_ne {M : Mesh} (hM : Ok M) {c c' : Cell} (hc : InMesh M c) (hc' : InMesh M c') (e : Fin 3) :
    |pos M c e - pos M c' e| ≠ 0 ↔ c e ≠ c' e := by
  unfold pos
  rw [Ne, abs_eq_zero, sub_eq_zero]
  constructor
  · intro h h1; exact h (by rw [h1])
  · intro h h1
    rcases lt_or_gt_of_ne h with h2 | h2
    · exact absurd h1 (centre_lt hM e h2 (hc' e)).ne
    · exact absurd h1 (centre_lt hM e h2 (hc e)).ne'

theorem dims_row {M : Mesh} (hM : Ok M) {d : Fin 3} {c c' : Cell} (hc : InMesh M c) (hc' : InMesh M c')
    (h : Row d c c') : dims M c c' = [d] := by
  unfold dims
  have : ∀ e : Fin 3, decide (|pos M c e - pos M c' e| ≠ 0) = decide (e = d) := by
    intro e
    rw [decide_eq_decide, pos_ne hM hc hc']
    constructor
    · intro h1; by_contra h2; exact h1 (h.2 e h2)
    · rintro rfl; exact h.1
  simp only [this]
  fin_cases d <;> decide

/-! ### One segment -/

open Classical in
/-- The value of a segment. -/
noncomputable def val (d : Fin 3) (c c' : Cell) : ℝ := if c d < c' d then -1 else 1

theorem sgn_pos {M : Mesh} (hM : Ok M) {d : Fin 3} {c c' : Cell} (hc : InMesh M c) (hc' : InMesh M c')
    (h : c d ≠ c' d) : sgn (pos M c d - pos M c' d) = val d c c' := by
  unfold sgn val pos
  rcases lt_or_gt_of_ne h with h1 | h1
  · have := centre_lt hM d h1 (hc' d)
    rw [if_pos (by linarith), if_pos h1]
  · have := centre_lt hM d h1 (hc d)
    rw [if_neg (by linarith), if_pos (by linarith), if_neg (by omega)]

open Classical in
theorem segment_row {M : Mesh} (hM : Ok M) {d : Fin 3} {c c' : Cell} (hc : InMesh M c) (hc' : InMesh M c')
    (h : Row d c c') (cur : Faces) : ∃ cur', segment M c c' cur = .ok cur' ∧
      ∀ e idx, FaceOf M e idx → cur' e idx = if Crossed d c c' e idx then val d c c' else cur e idx := by
  unfold segment
  rw [dims_row hM hc hc' h]
  refine ⟨_, rfl, fun e idx hf => ?_⟩
  rw [sgn_pos hM hc hc' h.1]
  by_cases he : e = d
  · subst he
    simp only [true_and]
    simp only [srcInds_iff hM hc hc' hf]
  · have h1 : ¬ (e = d ∧ srcInds M d c c' idx) := fun h => he h.1
    have h2 : ¬ Crossed d c c' e idx := fun h => he h.1
    rw [if_neg h1, if_neg h2]

/-! ### The wire -/

open Classical in
/-- The sum of the values of the segments that cross a face. -/
noncomputable def total : List Cell → Faces
  | c :: c' :: cs, e, idx => (∑ d, if Row d c c' ∧ Crossed d c c' e idx then val d c c' else 0) + total (c' :: cs) e idx
  | _, _, _ => 0

theorem row_unique {d d' : Fin 3} {c c' : Cell} (h : Row d c c') (h' : Row d' c c') : d = d' := by
  by_contra hn
  exact h.1 (h'.2 d hn)

open Classical in
theorem row_sum {d : Fin 3} {c c' : Cell} (h : Row d c c') (e : Fin 3) (idx : Cell) :
    (∑ a, if Row a c c' ∧ Crossed a c c' e idx then val a c c' else 0) =
      if Crossed d c c' e idx then val d c c' else 0 := by
  rw [Finset.sum_eq_single d]
  · simp [h]
  · intro b _ hb
    rw [if_neg]; rintro ⟨h1, -⟩; exact hb (row_unique h1 h)
  · simp

theorem total_notOn : ∀ (cs : List Cell) (e idx), ¬ OnWire cs e idx → total cs e idx = 0 := by
  intro cs
  induction cs with
  | nil => intro e idx _; rfl
  | cons c cs ih =>
    match cs, ih with
    | [], _ => intro e idx _; rfl
    | c' :: cs, ih =>
      intro e idx h
      simp only [total]
      rw [ih e idx (fun h1 => h (Or.inr h1)), add_zero]
      apply Finset.sum_eq_zero
      intro a _
      rw [if_neg]; rintro ⟨h1, h2⟩; exact h (Or.inl ⟨a, h1, h2⟩)

theorem path_total {M : Mesh} (hM : Ok M) : ∀ (cs : List Cell) (cur : Faces), (∀ c ∈ cs, InMesh M c) →
    Aligned cs → Simple cs → (∀ e idx, FaceOf M e idx → OnWire cs e idx → cur e idx = 0) →
    ∃ cur', path M cs cur = .ok cur' ∧ ∀ e idx, FaceOf M e idx → cur' e idx = cur e idx + total cs e idx := by
  classical
  intro cs
  induction cs with
  | nil => intro cur _ _ _ _; exact ⟨cur, rfl, fun e idx _ => by simp [total]⟩
  | cons c cs ih =>
    match cs, ih with
    | [], _ => intro cur _ _ _ _; exact ⟨cur, rfl, fun e idx _ => by simp [total]⟩
    | c' :: cs, ih =>
      intro cur hin hal hs h0
      obtain ⟨d, hd⟩ := hal.1
      have hc := hin c (by simp)
      have hc' := hin c' (by simp)
      obtain ⟨c1, e1, f1⟩ := segment_row hM hc hc' hd cur
      obtain ⟨c2, e2, f2⟩ := ih c1 (fun x hx => hin x (by simp only [List.mem_cons] at hx ⊢; tauto)) hal.2 hs.2
        (by
          intro e idx hf ho
          rw [f1 e idx hf, if_neg (fun hx => hs.1 d e idx hd hx ho), h0 e idx hf (Or.inr ho)])
      refine ⟨c2, by simp only [path, e1]; exact e2, fun e idx hf => ?_⟩
      rw [f2 e idx hf, f1 e idx hf]
      simp only [total]
      rw [row_sum hd]
      by_cases hx : Crossed d c c' e idx
      · rw [if_pos hx, if_pos hx, total_notOn _ _ _ (hs.1 d e idx hd hx), h0 e idx hf (Or.inl ⟨d, hd, hx⟩)]; ring
      · rw [if_neg hx, if_neg hx]; ring

/-! ### Fluxes -/

/-- Sums over the faces of a cell of values that are already multiplied by the area. -/
noncomputable def net (v : Faces) (c : Cell) : ℝ := ∑ d, (v d (Function.update c d (c d + 1)) - v d c)

open Classical in
theorem net_segment {d : Fin 3} {c c' : Cell} (h : Row d c c') (a : Cell) :
    net (fun e idx => if Crossed d c c' e idx then val d c c' else 0) a =
      (if c' = a then 1 else 0) - (if c = a then 1 else 0) := by
  unfold net
  rw [Finset.sum_eq_single d]
  · have hx : ∀ idx, Crossed d c c' d idx ↔ (∀ e, e ≠ d → idx e = c e) ∧ min (c d) (c' d) < idx d ∧
        idx d ≤ max (c d) (c' d) := fun idx => by simp [Crossed]
    have hup : Crossed d c c' d (Function.update a d (a d + 1)) ↔ (∀ e, e ≠ d → a e = c e) ∧
        min (c d) (c' d) ≤ a d ∧ a d < max (c d) (c' d) := by
      rw [hx]
      simp only [Function.update_self]
      constructor
      · rintro ⟨h1, h2⟩
        refine ⟨fun e he => ?_, by omega⟩
        have := h1 e he
        rwa [Function.update_of_ne he] at this
      · rintro ⟨h1, h2⟩
        refine ⟨fun e he => ?_, by omega⟩
        rw [Function.update_of_ne he]; exact h1 e he
    have e1 : c = a ↔ (∀ e, e ≠ d → a e = c e) ∧ a d = c d := by
      constructor
      · rintro rfl; exact ⟨fun _ _ => rfl, rfl⟩
      · rintro ⟨h1, h2⟩
        funext e
        by_cases he : e = d
        · subst he; exact h2.symm
        · exact (h1 e he).symm
    have e2 : c' = a ↔ (∀ e, e ≠ d → a e = c e) ∧ a d = c' d := by
      constructor
      · rintro rfl; exact ⟨fun e he => (h.2 e he).symm, rfl⟩
      · rintro ⟨h1, h2⟩
        funext e
        by_cases he : e = d
        · subst he; exact h2.symm
        · rw [h1 e he]; exact (h.2 e he).symm
    simp only [hup, hx a, e1, e2]
    by_cases hr : ∀ e, e ≠ d → a e = c e
    · have h1 := h.1
      simp only [and_iff_right hr, val]
      rcases lt_or_gt_of_ne h1 with h2 | h2
      · rw [min_eq_left h2.le, max_eq_right h2.le, if_pos h2]
        split_ifs <;> first | omega | norm_num
      · rw [min_eq_right h2.le, max_eq_left h2.le, if_neg (by omega : ¬ c d < c' d)]
        split_ifs <;> first | omega | norm_num
    · simp [hr]
  · intro b _ hb
    have : ∀ idx, ¬ Crossed d c c' b idx := fun idx h => hb h.1
    simp [this]
  · simp

theorem net_add (u v : Faces) (c : Cell) : net (fun e i => u e i + v e i) c = net u c + net v c := by
  unfold net; rw [← Finset.sum_add_distrib]; exact Finset.sum_congr rfl fun _ _ => by ring

theorem endsIn_cons (c c' : Cell) (cs : List Cell) (a : Cell) :
    endsIn (c :: c' :: cs) a = ((if c' = a then 1 else 0) - (if c = a then 1 else 0)) + endsIn (c' :: cs) a := by
  unfold endsIn
  simp

theorem net_total : ∀ (cs : List Cell) (a : Cell), Aligned cs → net (total cs) a = endsIn cs a := by
  classical
  intro cs
  induction cs with
  | nil => intro a _; simp [net, total, endsIn]
  | cons c cs ih =>
    match cs, ih with
    | [], _ => intro a _; simp [net, total, endsIn]
    | c' :: cs, ih =>
      intro a hal
      obtain ⟨d, hd⟩ := hal.1
      have e : total (c :: c' :: cs) = fun e idx => (if Crossed d c c' e idx then val d c c' else 0) +
          total (c' :: cs) e idx := by
        funext e idx
        simp only [total]
        rw [row_sum hd]
      rw [e, net_add, net_segment hd, ih a hal.2, endsIn_cons]

theorem area_pos {M : Mesh} (hM : Ok M) {d : Fin 3} {idx : Cell} (hf : FaceOf M d idx) : 0 < area M d idx := by
  unfold area
  apply Finset.prod_pos
  intro e _
  have := hf e
  by_cases he : e = d
  · simp [he]
  · rw [if_neg he] at this ⊢
    exact sub_pos.2 ((hM e).2 _ this)

theorem faceOf_cell {M : Mesh} {c : Cell} (hc : InMesh M c) (d : Fin 3) :
    FaceOf M d c ∧ FaceOf M d (Function.update c d (c d + 1)) := by
  constructor
  · intro e
    have := hc e
    split_ifs <;> omega
  · intro e
    have := hc e
    by_cases he : e = d
    · subst he; simp; omega
    · rw [if_neg he, Function.update_of_ne he]; exact this

/-- What a normalized wire gives. -/
theorem flux_normalized {M : Mesh} (hM : Ok M) {cs : List Cell} (hal : Aligned cs) {cur : Faces}
    (hcur : ∀ e idx, FaceOf M e idx → cur e idx = total cs e idx) {a : Cell} (ha : InMesh M a) :
    flux M (fun d idx => cur d idx / area M d idx) a = endsIn cs a := by
  rw [← net_total cs a hal]
  unfold flux net
  refine Finset.sum_congr rfl fun d _ => ?_
  obtain ⟨f1, f2⟩ := faceOf_cell ha d
  rw [mul_div_cancel₀ _ (area_pos hM f1).ne', mul_div_cancel₀ _ (area_pos hM f2).ne', hcur d a f1, hcur d _ f2]

theorem mem_cells {M : Mesh} {c : Cell} : c ∈ cells M ↔ InMesh M c := by
  simp [cells, Fintype.mem_piFinset, InMesh]

/-- **C129.** A wire along the axes which crosses no face twice is accepted, and the flux out of every cell is one
where it ends, minus one where it begins and zero elsewhere. -/
theorem C129_flux (M : Mesh) (hM : Ok M) (t : Tol) (ht : 0 ≤ t.div) (a : Cell) (cs : List Cell)
    (hin : ∀ c ∈ a :: cs, InMesh M c) (hal : Aligned (a :: cs)) (hs : Simple (a :: cs))
    (hcl : (a :: cs).getLast (by simp) = a ∧ 0 ≤ t.atol ∧ 0 ≤ t.rtol ∨
      ∃ e, t.atol + t.rtol * |pos M ((a :: cs).getLast (by simp)) e| <
        |pos M a e - pos M ((a :: cs).getLast (by simp)) e|) :
    ∃ cur, line M t true true (a :: cs) = .ok cur ∧ ∀ c, InMesh M c → flux M cur c = endsIn (a :: cs) c := by
  classical
  obtain ⟨cur, e, f⟩ := path_total hM (a :: cs) (fun _ _ => 0) hin hal hs (fun _ _ _ _ => rfl)
  have hfl : ∀ c, InMesh M c → flux M (fun d idx => cur d idx / area M d idx) c = endsIn (a :: cs) c :=
    fun c hc => flux_normalized hM hal (fun e idx h => by rw [f e idx h, zero_add]) hc
  refine ⟨fun d idx => cur d idx / area M d idx, ?_, hfl⟩
  have hlast : (a :: cs).getLast? = some ((a :: cs).getLast (by simp)) := List.getLast?_eq_some_getLast _
  have hb := hin _ (List.getLast_mem (show a :: cs ≠ [] by simp))
  set b := (a :: cs).getLast (by simp) with hbdef
  have hends : ∀ c, endsIn (a :: cs) c = (if b = c then 1 else 0) - (if a = c then 1 else 0) := by
    intro c; unfold endsIn; rw [hlast]; simp
  unfold line
  rw [e]
  have : check M t a b (fun d idx => cur d idx / area M d idx) = .ok fun d idx => cur d idx / area M d idx := by
    unfold check
    rcases hcl with ⟨hab, h1, h2⟩ | hcl'
    · have hc : allclose M t a b := by
        rw [hab]; intro e; rw [sub_self, abs_zero]; positivity
      rw [if_neg (not_not.2 hc), if_neg]
      rw [Finset.card_eq_zero.2]
      · simp
      · rw [Finset.filter_eq_empty_iff]
        intro c hc
        rw [hfl c (mem_cells.1 hc), hends, hab]
        simp [ht]
    · have hcl : ¬ allclose M t a b := fun h => by
        obtain ⟨e, he⟩ := hcl'
        exact absurd (h e) (not_le.2 he)
      rw [if_pos hcl, if_neg, if_neg]
      · have : ∑ c ∈ cells M, flux M (fun d idx => cur d idx / area M d idx) c = 0 := by
          rw [Finset.sum_congr rfl fun c hc => (hfl c (mem_cells.1 hc)).trans (hends c), Finset.sum_sub_distrib,
            Finset.sum_ite_eq, Finset.sum_ite_eq, if_pos (mem_cells.2 hb), if_pos (mem_cells.2 (hin a (by simp))),
            sub_self]
        rw [this, abs_zero]
        exact not_lt.2 ht
      · have : ((cells M).filter fun c => t.div < |flux M (fun d idx => cur d idx / area M d idx) c|) ⊆ {a, b} := by
          intro c hc
          rw [Finset.mem_filter] at hc
          rw [hfl c (mem_cells.1 hc.1), hends] at hc
          by_contra hn
          simp only [Finset.mem_insert, Finset.mem_singleton, not_or] at hn
          rw [if_neg (fun h => hn.2 h.symm), if_neg (fun h => hn.1 h.symm)] at hc
          simp at hc
          linarith
        exact not_lt.2 ((Finset.card_le_card this).trans Finset.card_le_two)
  simp only [List.head?_cons, hlast]
  exact this

/-- **C129.** On the faces a wire crosses the current is one, against the direction of the wire; elsewhere zero. -/
theorem C129_faces (M : Mesh) (hM : Ok M) (t : Tol) (d : Fin 3) (c c' : Cell) (hc : InMesh M c) (hc' : InMesh M c')
    (h : Row d c c') : ∃ cur, line M t true false [c, c'] = .ok cur ∧ ∀ e idx, FaceOf M e idx →
      (Crossed d c c' e idx → cur e idx * area M e idx = if c d < c' d then -1 else 1) ∧
      (¬ Crossed d c c' e idx → cur e idx = 0) := by
  classical
  obtain ⟨cur, e1, f1⟩ := segment_row hM hc hc' h fun _ _ => 0
  refine ⟨fun d idx => cur d idx / area M d idx, ?_, ?_⟩
  · unfold line
    simp only [path, e1]
    rfl
  · intro e idx hf
    have hp := (area_pos hM hf).ne'
    constructor
    · intro hx
      rw [div_mul_cancel₀ _ hp, f1 e idx hf, if_pos hx]; rfl
    · intro hx
      simp only
      rw [f1 e idx hf, if_neg hx, zero_div]

/-- **C129 is violated, direction.** Between two cells along an increasing axis the current through every face the
wire crosses is negative: it flows from the last vertex to the first, whereas the source term on edges
(`C128_integral_x`) flows from the first to the last. -/
theorem C129_violated_direction (M : Mesh) (hM : Ok M) (t : Tol) (d : Fin 3) (c c' : Cell) (hc : InMesh M c)
    (hc' : InMesh M c') (h : Row d c c') (hlt : c d < c' d) : ∃ cur, line M t true false [c, c'] = .ok cur ∧
      ∀ idx, FaceOf M d idx → Crossed d c c' d idx → cur d idx < 0 := by
  obtain ⟨cur, e, f⟩ := C129_faces M hM t d c c' hc hc' h
  refine ⟨cur, e, fun idx hf hx => ?_⟩
  have h1 := (f d idx hf).1 hx
  rw [if_pos hlt] at h1
  have := area_pos hM hf
  by_contra hn
  have := mul_nonneg (not_lt.1 hn) this.le
  linarith

/-- **C129 is violated, points in one cell.** Two consecutive points nearest to the same cell raise. -/
theorem C129_violated_same_cell (M : Mesh) (t : Tol) (n k : Bool) (c : Cell) (cs : List Cell) :
    line M t n k (c :: c :: cs) = .error .indexError := by
  have h : dims M c c = [] := by simp [dims]
  have : segment M c c (fun _ _ => 0) = .error .indexError := by
    unfold segment; rw [h]
  unfold line
  simp only [path, this]
  rfl

/-- **C129 is violated, turns.** A second turn of a loop is lost: the wire walked twice gives the current of the
wire walked once. -/
theorem C129_violated_turns (M : Mesh) (hM : Ok M) (a : Cell) (cs : List Cell) (hin : ∀ c ∈ a :: cs, InMesh M c)
    (hal : Aligned (a :: cs)) (hloop : (a :: cs).getLast (by simp) = a) :
    ∃ once twice, path M (a :: cs) (fun _ _ => 0) = .ok once ∧ path M (a :: (cs ++ cs)) (fun _ _ => 0) = .ok twice ∧
      ∀ e idx, FaceOf M e idx → twice e idx = once e idx := by
  classical
  -- what a wire does to a face: the last segment that crosses it counts
  have run : ∀ cs : List Cell, (∀ c ∈ cs, InMesh M c) → Aligned cs → ∃ g : Fin 3 → Cell → Option ℝ,
      ∀ cur : Faces, ∃ cur', path M cs cur = .ok cur' ∧ ∀ e idx, FaceOf M e idx →
        cur' e idx = (g e idx).getD (cur e idx) := by
    intro cs
    induction cs with
    | nil => intro _ _; exact ⟨fun _ _ => none, fun cur => ⟨cur, rfl, fun _ _ _ => rfl⟩⟩
    | cons c cs ih =>
      match cs, ih with
      | [], _ => intro _ _; exact ⟨fun _ _ => none, fun cur => ⟨cur, rfl, fun _ _ _ => rfl⟩⟩
      | c' :: cs, ih =>
        intro hin hal
        obtain ⟨d, hd⟩ := hal.1
        obtain ⟨g, hg⟩ := ih (fun x hx => hin x (by simp only [List.mem_cons] at hx ⊢; tauto)) hal.2
        refine ⟨fun e idx => (g e idx).or (if Crossed d c c' e idx then some (val d c c') else none), fun cur => ?_⟩
        obtain ⟨c1, e1, f1⟩ := segment_row hM (hin c (by simp)) (hin c' (by simp)) hd cur
        obtain ⟨c2, e2, f2⟩ := hg c1
        refine ⟨c2, by simp only [path, e1]; exact e2, fun e idx hf => ?_⟩
        rw [f2 e idx hf, f1 e idx hf]
        beta_reduce
        rcases g e idx with _ | v
        · split_ifs <;> rfl
        · rfl
  -- walking on after a wire
  have app : ∀ (l : List Cell) (c : Cell) (l' : List Cell) (cur cur1 : Faces), path M (c :: l) cur = .ok cur1 →
      path M (c :: (l ++ l')) cur = path M ((c :: l).getLast (by simp) :: l') cur1 := by
    intro l
    induction l with
    | nil => intro c l' cur cur1 h; simp only [path] at h; cases h; rfl
    | cons c' l ih =>
      intro c l' cur cur1 h
      simp only [path, List.cons_append] at h ⊢
      cases hs : segment M c c' cur with
      | error x => rw [hs] at h; cases h
      | ok c1 =>
        rw [hs] at h
        have h2 : path M (c' :: l) c1 = .ok cur1 := h
        have := ih c' l' c1 cur1 h2
        rw [List.getLast_cons (List.cons_ne_nil c' l)]
        exact this
  obtain ⟨g, hg⟩ := run (a :: cs) hin hal
  obtain ⟨once, e1, f1⟩ := hg fun _ _ => 0
  obtain ⟨twice, e2, f2⟩ := hg once
  refine ⟨once, twice, e1, ?_, fun e idx hf => ?_⟩
  · rw [app cs a cs _ once e1, hloop, e2]
  · rw [f2 e idx hf, f1 e idx hf]
    cases g e idx <;> rfl

/-- **C129 is violated, origin.** A straight wire between two cells is rejected when their centres agree within the
relative tolerance of `np.allclose`: it is taken for a loop. -/
theorem C129_violated_origin (M : Mesh) (hM : Ok M) (t : Tol) (ht : t.div < 1) (d : Fin 3) (c c' : Cell)
    (hc : InMesh M c) (hc' : InMesh M c') (h : Row d c c')
    (hcl : ∀ e, |pos M c e - pos M c' e| ≤ t.atol + t.rtol * |pos M c' e|) :
    line M t true true [c, c'] = .error .exception := by
  classical
  have hal : Aligned [c, c'] := ⟨⟨d, h⟩, trivial⟩
  have hs : Simple [c, c'] := ⟨fun _ _ _ _ _ h => h, trivial⟩
  have hin : ∀ x ∈ [c, c'], InMesh M x := by
    intro x hx
    simp only [List.mem_cons, List.not_mem_nil, or_false] at hx
    rcases hx with rfl | rfl
    · exact hc
    · exact hc'
  obtain ⟨cur, e, f⟩ := path_total hM [c, c'] (fun _ _ => 0) hin hal hs (fun _ _ _ _ => rfl)
  have hfl : flux M (fun d idx => cur d idx / area M d idx) c = -1 := by
    rw [flux_normalized hM hal (fun e idx h => by rw [f e idx h, zero_add]) hc]
    have hne : ¬ c' = c := fun h1 => h.1 (by rw [h1])
    simp [endsIn, hne]
  unfold line
  rw [e]
  have : check M t c c' (fun d idx => cur d idx / area M d idx) = .error .exception := by
    have hcl' : allclose M t c c' := hcl
    unfold check
    rw [if_neg (not_not.2 hcl'), if_pos]
    apply Finset.card_pos.2
    exact ⟨c, Finset.mem_filter.2 ⟨mem_cells.2 hc, by rw [hfl]; simpa using ht⟩⟩
  exact this

/-! ### Cases -/

/-- Four unit cells from `o`. -/
def exG (o : ℝ) : Grid := ⟨4, fun i => o + i⟩

/-- Four by four by four unit cells; the first axis begins at `o`. -/
def exM (o : ℝ) : Mesh := ![exG o, exG 0, exG 0]

theorem exM_ok (o : ℝ) : Ok (exM o) := by
  intro e
  fin_cases e <;> simp [exM, exG]

/-- A wire with one corner. -/
def exW : List Cell := [![0, 1, 1], ![3, 1, 1], ![3, 2, 1]]

/-- The default tolerances. -/
noncomputable def exT : Tol := ⟨1e-9, 1e-5, 1e-8⟩

theorem exW_in (o : ℝ) : ∀ c ∈ exW, InMesh (exM o) c := by
  intro c hc
  simp only [exW, List.mem_cons, List.not_mem_nil, or_false] at hc
  rcases hc with rfl | rfl | rfl <;> intro e <;> fin_cases e <;> simp [exM, exG]

theorem exW_aligned : Aligned exW := by
  refine ⟨⟨0, by simp, ?_⟩, ⟨⟨1, by simp, ?_⟩, trivial⟩⟩
  · intro e he; fin_cases e <;> simp_all
  · intro e he; fin_cases e <;> simp_all

theorem exW_simple : Simple exW := by
  refine ⟨?_, ⟨?_, trivial⟩⟩
  · rintro d e idx hr hx (⟨d', hr', hx'⟩ | h)
    · have h1 : d = 0 := by
        by_contra h
        exact hr.1 (by fin_cases d <;> simp_all)
      have h2 : d' = 1 := by
        by_contra h
        exact hr'.1 (by fin_cases d' <;> simp_all)
      subst h1; subst h2
      have := hx.1.symm.trans hx'.1
      simp at this
    · exact h
  · intro d e idx _ _ h; exact h

example : ∃ cur, line (exM 0) exT true true exW = .ok cur ∧
    ∀ c, InMesh (exM 0) c → flux (exM 0) cur c = endsIn exW c := by
  refine C129_flux (exM 0) (exM_ok 0) exT (by norm_num [exT]) _ _ (exW_in 0) exW_aligned exW_simple (Or.inr ?_)
  refine ⟨0, lt_of_not_ge fun h => ?_⟩
  norm_num [pos, exM, exG, exW, Grid.centre, exT, abs_le] at h

example : line (exM 500000) exT true true [![0, 1, 1], ![3, 1, 1]] = .error .exception := by
  refine C129_violated_origin (exM 500000) (exM_ok _) exT (by norm_num [exT]) 0 _ _ ?_ ?_ ?_ ?_
  · exact exW_in _ _ (by simp [exW])
  · exact exW_in _ _ (by simp [exW])
  · refine ⟨by simp, ?_⟩
    intro e he; fin_cases e <;> simp_all
  · intro e
    fin_cases e <;> norm_num [pos, exM, exG, Grid.centre, exT, abs_le]

end Verif.EM.Faces.Props
