import Verif.Basic
import Mathlib.Data.Real.Sqrt
import Mathlib.Data.List.Sort
import Mathlib.Data.List.Dedup
import Mathlib.Data.List.Range
import Mathlib.Data.List.Perm.Basic
import Mathlib.Data.List.Flatten
import Mathlib.Tactic.Linarith
import Mathlib.Tactic.Ring
import Mathlib.Tactic.NormNum
import Mathlib.Tactic.FieldSimp
import Mathlib.Tactic.Positivity

/-!
`convert_survey_3d_to_2d_lines` (`simpeg/electromagnetics/static/utils/static_utils.py` 342-495): surveys
in three dimensions cut into lines, with positions along the line.
-/

noncomputable section

namespace Verif.DC.Lines

open Classical

/-- A location in three dimensions (376-377). -/
structure P3 where
  x : ℝ
  y : ℝ
  z : ℝ

/-- One datum of the survey: rows of `survey.locations_a` and so on (400-401; poles repeat their
electrode, C114), and the current of its source. -/
structure Row where
  a : P3
  b : P3
  m : P3
  n : P3
  cur : ℝ

/-- A row of `ab_locs_all` (400). -/
def Row.key (r : Row) : List ℝ := [r.a.x, r.a.y, r.a.z, r.b.x, r.b.y, r.b.z]

/-- Order of the rows of `np.unique(..., axis=0)` (410-412). -/
def lexLe : List ℝ → List ℝ → Prop
  | [], _ => True
  | _ :: _, [] => False
  | x :: l, y :: k => x < y ∨ (x = y ∧ lexLe l k)

/-- `lineID_index` (409). -/
def lineIdx (n : Nat) (lineID : Nat → ℤ) (ID : ℤ) : List Nat :=
  (List.range n).filter fun i => lineID i = ID

/-- `lineID_index[ab_index]` (410-415): the first datum of each different pair of current electrodes,
sorted by their coordinates. -/
def starts (row : Nat → Row) (idx : List Nat) : List Nat :=
  (idx.filter fun i => ∀ j ∈ idx, j < i → (row j).key ≠ (row i).key).insertionSort
    fun i j => lexLe (row i).key (row j).key

/-- `r0` and `rN` (418-419): the A electrodes of the first and last of them. -/
def r0 (row : Nat → Row) (idx : List Nat) : P3 := (row ((starts row idx).headD 0)).a
/-- `rN` (419). -/
def rN (row : Nat → Row) (idx : List Nat) : P3 := (row ((starts row idx).getLastD 0)).a

/-- Horizontal distance (420-422). -/
def hdist (p q : P3) : ℝ := Real.sqrt ((p.x - q.x) ^ 2 + (p.y - q.y) ^ 2)

/-- `uvec` (420-422); not a number if the two locations agree. -/
def heading (row : Nat → Row) (idx : List Nat) : Option (ℝ × ℝ) :=
  let p := rN row idx
  let q := r0 row idx
  if hdist p q = 0 then none else some ((p.x - q.x) / hdist p q, (p.y - q.y) / hdist p q)

/-- A location along the line: position, `none` if it is not a number, and elevation (426-441). -/
abbrev P2 := Option ℝ × ℝ

/-- Positions along the line (426-441). -/
def coord (h : Option (ℝ × ℝ)) (q p : P3) : P2 :=
  (h.map fun u => (p.x - q.x) * u.1 + (p.y - q.y) * u.2, p.z)

/-- `np.isclose(a, b, atol=1e-3)`, with the default relative tolerance (451-452). -/
def close (a b : ℝ) : Prop := |a - b| ≤ 1 / 1000 + 1 / 100000 * |b|

/-- The same for positions which may be not a number (451-452). -/
def closeO : Option ℝ → Option ℝ → Prop
  | some a, some b => close a b
  | _, _ => False

/-- `np.all(np.isclose(p, q, atol=1e-3))` of two locations (459, 479). -/
def closeP (p q : P2) : Prop := closeO p.1 q.1 ∧ close p.2 q.2

/-- Receivers (462-476). -/
inductive Rx2
  | pole (m : List P2)
  | dipole (mn : List (P2 × P2))

/-- Sources of the lines (479-482); `out` are the entries of `out_indices`.  The sources are created
without a current, so it is one. -/
structure Src2 where
  a : P2
  b : Option P2
  cur : ℝ
  rx : List Rx2
  out : List Nat

/-- `rx_index` (450-453): data whose electrodes have the same positions along the line. -/
def rxIndex (row : Nat → Row) (idx : List Nat) (h : Option (ℝ × ℝ)) (q : P3) (i : Nat) : List Nat :=
  idx.filter fun j => closeO (coord h q (row j).a).1 (coord h q (row i).a).1 ∧
    closeO (coord h q (row j).b).1 (coord h q (row i).b).1

/-- `is_pole_rx` (459). -/
def isPoleRx (row : Nat → Row) (h : Option (ℝ × ℝ)) (q : P3) (j : Nat) : Prop :=
  closeP (coord h q (row j).m) (coord h q (row j).n)

/-- The body of the loop over sources (444-482). -/
def source (row : Nat → Row) (idx : List Nat) (h : Option (ℝ × ℝ)) (q : P3) (i : Nat) : Src2 :=
  let rx := rxIndex row idx h q i
  let ps := rx.filter fun j => isPoleRx row h q j
  let ds := rx.filter fun j => ¬ isPoleRx row h q j
  { a := coord h q (row i).a
    b := if closeP (coord h q (row i).a) (coord h q (row i).b) then none
      else some (coord h q (row i).b)
    cur := 1
    rx := (if ps = [] then [] else [.pole (ps.map fun j => coord h q (row j).m)]) ++
      (if ds = [] then [] else
        [.dipole (ds.map fun j => (coord h q (row j).m, coord h q (row j).n))])
    out := ps ++ ds }

/-- One line (405-487). -/
def convertLine (row : Nat → Row) (idx : List Nat) : List Src2 :=
  (starts row idx).map (source row idx (heading row idx) (r0 row idx))

/-- `np.unique(lineID)` (394). -/
def uniqueIDs (n : Nat) (lineID : Nat → ℤ) : List ℤ :=
  (((List.range n).map lineID).dedup).insertionSort (· ≤ ·)

/-- `convert_survey_3d_to_2d_lines(..., output_indexing=True)` (342-495).  The checks of dimensions and
sizes (376-391) are left out; a line without indices raises in `np.hstack`, which is not modelled. -/
def convert (n : Nat) (row : Nat → Row) (lineID : Nat → ℤ) : List (List Src2) :=
  (uniqueIDs n lineID).map fun ID => convertLine row (lineIdx n lineID ID)

end Verif.DC.Lines

namespace Verif.DC.Lines.Props
open Verif.DC.Lines
open Classical

/-! ### Specification -/

/-- The electrodes of one datum of a survey along a line. -/
structure Datum2 where
  a : P2
  b : Option P2
  m : P2
  n : Option P2

/-- Data of receivers, in their order. -/
def rxData (a : P2) (b : Option P2) : Rx2 → List Datum2
  | .pole ms => ms.map fun m => ⟨a, b, m, none⟩
  | .dipole l => l.map fun p => ⟨a, b, p.1, some p.2⟩

/-- Data of a survey: sources, their receivers, their locations (C01). -/
def surveyData (l : List Src2) : List Datum2 := l.flatMap fun s => s.rx.flatMap (rxData s.a s.b)

/-- The indices returned for a line. -/
def outIdx (l : List Src2) : List Nat := l.flatMap Src2.out

/-- What datum `k` looks like along the line: a second electrode at the same place as the first means a
pole. -/
def expected (row : Nat → Row) (c : P3 → P2) (k : Nat) : Datum2 where
  a := c (row k).a
  b := if (row k).a = (row k).b then none else some (c (row k).b)
  m := c (row k).m
  n := if (row k).m = (row k).n then none else some (c (row k).n)

/-- Different pairs of current electrodes are further apart along the line than the tolerance, and so are
the two electrodes of dipoles. -/
def Separated (row : Nat → Row) (idx : List Nat) (c : P3 → P2) : Prop :=
  (∀ i ∈ idx, ∀ j ∈ idx, closeO (c (row j).a).1 (c (row i).a).1 → closeO (c (row j).b).1 (c (row i).b).1 →
    (row j).a = (row i).a ∧ (row j).b = (row i).b) ∧
  (∀ i ∈ idx, closeP (c (row i).a) (c (row i).b) → (row i).a = (row i).b) ∧
  ∀ i ∈ idx, closeP (c (row i).m) (c (row i).n) → (row i).m = (row i).n

theorem close_refl (a : ℝ) : close a a := by
  unfold close; simp; positivity

theorem closeP_coord (u : ℝ × ℝ) (q p : P3) : closeP (coord (some u) q p) (coord (some u) q p) :=
  ⟨close_refl _, close_refl _⟩

theorem key_inj (r s : Row) (h : r.key = s.key) : r.a = s.a ∧ r.b = s.b := by
  obtain ⟨⟨_, _, _⟩, ⟨_, _, _⟩, _, _, _⟩ := r
  obtain ⟨⟨_, _, _⟩, ⟨_, _, _⟩, _, _, _⟩ := s
  simp only [Row.key, List.cons.injEq, and_true] at h
  obtain ⟨rfl, rfl, rfl, rfl, rfl, rfl⟩ := h
  exact ⟨rfl, rfl⟩

theorem key_of (r s : Row) (h : r.a = s.a ∧ r.b = s.b) : r.key = s.key := by
  simp only [Row.key, h.1, h.2]

theorem mem_starts (row : Nat → Row) (idx : List Nat) (i : Nat) :
    i ∈ starts row idx ↔ i ∈ idx ∧ ∀ j ∈ idx, j < i → (row j).key ≠ (row i).key := by
  simp [starts, List.mem_insertionSort]

theorem nodup_starts (row : Nat → Row) (idx : List Nat) (h : idx.Nodup) : (starts row idx).Nodup := by
  unfold starts
  exact (List.perm_insertionSort _ _).nodup_iff.2 (h.filter _)

/-- Every datum has exactly one start with its electrodes. -/
theorem exists_start (row : Nat → Row) (idx : List Nat) (k : Nat) (hk : k ∈ idx) :
    ∃ i ∈ starts row idx, (row i).key = (row k).key := by
  induction k using Nat.strong_induction_on with
  | _ k ih =>
    by_cases h : ∀ j ∈ idx, j < k → (row j).key ≠ (row k).key
    · exact ⟨k, (mem_starts _ _ _).2 ⟨hk, h⟩, rfl⟩
    · push Not at h
      obtain ⟨j, hj, hlt, he⟩ := h
      obtain ⟨i, hi, hi'⟩ := ih j hlt hj
      exact ⟨i, hi, hi'.trans he⟩

theorem start_unique (row : Nat → Row) (idx : List Nat) (i j : Nat) (hi : i ∈ starts row idx)
    (hj : j ∈ starts row idx) (h : (row i).key = (row j).key) : i = j := by
  obtain ⟨hi1, hi2⟩ := (mem_starts _ _ _).1 hi
  obtain ⟨hj1, hj2⟩ := (mem_starts _ _ _).1 hj
  rcases Nat.lt_trichotomy i j with h1 | h1 | h1
  · exact absurd h (hj2 i hi1 h1)
  · exact h1
  · exact absurd h.symm (hi2 j hj1 h1)

theorem mem_source_out (row : Nat → Row) (idx : List Nat) (h : Option (ℝ × ℝ)) (q : P3) (i k : Nat) :
    k ∈ (source row idx h q i).out ↔ k ∈ rxIndex row idx h q i := by
  simp only [source, List.mem_append, List.mem_filter]
  by_cases hp : isPoleRx row h q k <;> simp [hp]

theorem nodup_source_out (row : Nat → Row) (idx : List Nat) (hn : idx.Nodup) (h : Option (ℝ × ℝ)) (q : P3)
    (i : Nat) : (source row idx h q i).out.Nodup := by
  simp only [source]
  refine List.Nodup.append ((hn.filter _).filter _) ((hn.filter _).filter _) ?_
  intro a ha hb
  simp only [List.mem_filter, decide_eq_true_eq] at ha hb
  exact hb.2 ha.2

theorem source_data (row : Nat → Row) (idx : List Nat) (h : Option (ℝ × ℝ)) (q : P3) (i : Nat) :
    (source row idx h q i).rx.flatMap (rxData (source row idx h q i).a (source row idx h q i).b) =
      (source row idx h q i).out.map fun k => ⟨(source row idx h q i).a, (source row idx h q i).b,
        coord h q (row k).m, if isPoleRx row h q k then none else some (coord h q (row k).n)⟩ := by
  have h1 : ∀ (l : List Nat), (∀ k ∈ l, isPoleRx row h q k) → ∀ a b,
      (if l = [] then [] else [Rx2.pole (l.map fun j => coord h q (row j).m)]).flatMap (rxData a b) =
        l.map fun k => ⟨a, b, coord h q (row k).m,
          if isPoleRx row h q k then none else some (coord h q (row k).n)⟩ := by
    intro l hl a b
    by_cases he : l = []
    · simp [he]
    · rw [if_neg he]
      simp only [List.flatMap_cons, List.flatMap_nil, List.append_nil, rxData, List.map_map]
      exact List.map_congr_left fun k hk => by simp [hl k hk]
  have h2 : ∀ (l : List Nat), (∀ k ∈ l, ¬ isPoleRx row h q k) → ∀ a b,
      (if l = [] then [] else [Rx2.dipole (l.map fun j => (coord h q (row j).m, coord h q (row j).n))]).flatMap
        (rxData a b) = l.map fun k => ⟨a, b, coord h q (row k).m,
          if isPoleRx row h q k then none else some (coord h q (row k).n)⟩ := by
    intro l hl a b
    by_cases he : l = []
    · simp [he]
    · rw [if_neg he]
      simp only [List.flatMap_cons, List.flatMap_nil, List.append_nil, rxData, List.map_map]
      exact List.map_congr_left fun k hk => by simp [hl k hk]
  simp only [source, List.flatMap_append, List.map_append]
  congr 1
  · exact h1 _ (fun k hk => by simpa using (List.mem_filter.1 hk).2) _ _
  · exact h2 _ (fun k hk => by simpa using (List.mem_filter.1 hk).2) _ _

/-- **C117, part (data).** If positions along the line tell sources and dipoles apart, every datum of the
line occurs exactly once in the survey of the line, and the datum there has the electrodes of the datum the
returned index names.  Missing: sources which differ only across the line or in elevation, see
`C117_violated_elevation`. -/
theorem C117_data_partial (row : Nat → Row) (idx : List Nat) (hn : idx.Nodup) (u : ℝ × ℝ)
    (hu : heading row idx = some u) (hs : Separated row idx (coord (some u) (r0 row idx))) :
    (outIdx (convertLine row idx)).Perm idx ∧
    surveyData (convertLine row idx) =
      (outIdx (convertLine row idx)).map (expected row (coord (some u) (r0 row idx))) := by
  set q := r0 row idx with hq
  have hmem : ∀ i ∈ starts row idx, ∀ k, k ∈ rxIndex row idx (some u) q i ↔
      k ∈ idx ∧ (row k).key = (row i).key := by
    intro i hi k
    have hi' := ((mem_starts _ _ _).1 hi).1
    simp only [rxIndex, List.mem_filter, decide_eq_true_eq]
    constructor
    · rintro ⟨h1, h2, h3⟩
      exact ⟨h1, key_of _ _ (hs.1 i hi' k h1 h2 h3)⟩
    · rintro ⟨h1, h2⟩
      obtain ⟨e1, e2⟩ := key_inj _ _ h2
      refine ⟨h1, ?_, ?_⟩
      · rw [e1]; exact close_refl _
      · rw [e2]; exact close_refl _
  constructor
  · have hout : outIdx (convertLine row idx) =
        (starts row idx).flatMap fun i => (source row idx (some u) q i).out := by
      simp only [outIdx, convertLine, List.flatMap_map, hu, hq]
    rw [hout, List.perm_ext_iff_of_nodup _ hn]
    · intro k
      rw [List.mem_flatMap]
      constructor
      · rintro ⟨i, hi, hk⟩
        exact ((hmem i hi k).1 ((mem_source_out _ _ _ _ _ _).1 hk)).1
      · intro hk
        obtain ⟨i, hi, he⟩ := exists_start row idx k hk
        exact ⟨i, hi, (mem_source_out _ _ _ _ _ _).2 ((hmem i hi k).2 ⟨hk, he.symm⟩)⟩
    · rw [List.nodup_flatMap]
      refine ⟨fun i _ => nodup_source_out row idx hn _ q i, ?_⟩
      have := nodup_starts row idx hn
      refine List.Pairwise.imp_of_mem ?_ this
      intro i j hi hj hij k hki hkj
      have a1 := ((hmem i hi k).1 ((mem_source_out _ _ _ _ _ _).1 hki)).2
      have a2 := ((hmem j hj k).1 ((mem_source_out _ _ _ _ _ _).1 hkj)).2
      exact hij (start_unique row idx i j hi hj (a1.symm.trans a2))
  · simp only [surveyData, outIdx, convertLine, List.flatMap_map, hu, List.map_flatMap]
    refine List.flatMap_congr fun i hi => ?_
    rw [source_data]
    refine List.map_congr_left fun k hk => ?_
    obtain ⟨hk1, hk2⟩ := (hmem i hi k).1 ((mem_source_out _ _ _ _ _ _).1 hk)
    obtain ⟨e1, e2⟩ := key_inj _ _ hk2
    have hi' := ((mem_starts _ _ _).1 hi).1
    simp only [source, expected, ← hq, ← e1, ← e2]
    congr 1
    · by_cases h : (row k).a = (row k).b
      · rw [if_pos h, if_pos (by rw [h]; exact closeP_coord u q _)]
      · rw [if_neg h, if_neg (fun hc => h (hs.2.1 k hk1 hc))]
    · by_cases h : (row k).m = (row k).n
      · have : isPoleRx row (some u) q k := by
          unfold isPoleRx; rw [h]; exact closeP_coord u q _
        rw [if_pos h, if_pos this]
      · have : ¬ isPoleRx row (some u) q k := fun hc => h (hs.2.2 k hk1 hc)
        rw [if_neg h, if_neg this]

/-- **C117 (lines).** The lines are one for every identifier, and the data of all of them together are the
data of the survey, under the condition of the previous theorem for each line. -/
theorem C117_lines_partial (n : Nat) (row : Nat → Row) (lineID : Nat → ℤ)
    (hs : ∀ ID, ∃ u, lineIdx n lineID ID ≠ [] → heading row (lineIdx n lineID ID) = some u ∧
      Separated row (lineIdx n lineID ID) (coord (some u) (r0 row (lineIdx n lineID ID)))) :
    (uniqueIDs n lineID).Nodup ∧ (∀ ID, ID ∈ uniqueIDs n lineID ↔ ∃ i < n, lineID i = ID) ∧
    ((convert n row lineID).flatMap outIdx).Perm (List.range n) := by
  have hnd : (uniqueIDs n lineID).Nodup :=
    (List.perm_insertionSort _ _).nodup_iff.2 (List.nodup_dedup _)
  have hmem : ∀ ID, ID ∈ uniqueIDs n lineID ↔ ∃ i < n, lineID i = ID := by
    intro ID
    simp [uniqueIDs, List.mem_insertionSort]
  have hln : ∀ ID, (lineIdx n lineID ID).Nodup := fun ID => List.nodup_range.filter _
  have hmi : ∀ ID k, k ∈ lineIdx n lineID ID ↔ k < n ∧ lineID k = ID := by
    intro ID k; simp [lineIdx]
  refine ⟨hnd, hmem, ?_⟩
  have hp : ∀ ID ∈ uniqueIDs n lineID,
      (outIdx (convertLine row (lineIdx n lineID ID))).Perm (lineIdx n lineID ID) := by
    intro ID hID
    obtain ⟨i, hi, he⟩ := (hmem ID).1 hID
    obtain ⟨u, h⟩ := hs ID
    obtain ⟨h1, h2⟩ := h (List.ne_nil_of_mem ((hmi ID i).2 ⟨hi, he⟩))
    exact (C117_data_partial row _ (hln ID) u h1 h2).1
  have e : (convert n row lineID).flatMap outIdx =
      (uniqueIDs n lineID).flatMap fun ID => outIdx (convertLine row (lineIdx n lineID ID)) := by
    simp only [convert, List.flatMap_map]
  rw [e, List.perm_ext_iff_of_nodup _ List.nodup_range]
  · intro k
    rw [List.mem_flatMap, List.mem_range]
    constructor
    · rintro ⟨ID, hID, hk⟩
      exact ((hmi ID k).1 ((hp ID hID).mem_iff.1 hk)).1
    · intro hk
      have hID := (hmem (lineID k)).2 ⟨k, hk, rfl⟩
      exact ⟨lineID k, hID, (hp _ hID).mem_iff.2 ((hmi _ k).2 ⟨hk, rfl⟩)⟩
  · rw [List.nodup_flatMap]
    refine ⟨fun ID hID => (hp ID hID).nodup_iff.2 (hln ID), ?_⟩
    refine List.Pairwise.imp_of_mem ?_ hnd
    intro I J hI hJ hIJ k hkI hkJ
    exact hIJ (((hmi I k).1 ((hp I hI).mem_iff.1 hkI)).2.symm.trans ((hmi J k).1 ((hp J hJ).mem_iff.1 hkJ)).2)

/-- Distances in space and along a line with elevation. -/
def dist3 (p q : P3) : ℝ := Real.sqrt ((p.x - q.x) ^ 2 + (p.y - q.y) ^ 2 + (p.z - q.z) ^ 2)
def dist2 (p q : P2) : Option ℝ :=
  p.1.bind fun s => q.1.map fun t => Real.sqrt ((s - t) ^ 2 + (p.2 - q.2) ^ 2)

/-- The electrodes of a datum. -/
def Row.electrodes (r : Row) : List P3 := [r.a, r.b, r.m, r.n]

/-- All electrodes of the line stand over one straight line of the map. -/
def Straight (row : Nat → Row) (idx : List Nat) : Prop :=
  ∃ ox oy vx vy : ℝ, ∀ k ∈ idx, ∀ p ∈ Row.electrodes (row k), ∃ t : ℝ, p.x = ox + t * vx ∧ p.y = oy + t * vy

theorem starts_ne_nil (row : Nat → Row) (idx : List Nat) (h : idx ≠ []) : starts row idx ≠ [] := by
  obtain ⟨k, hk⟩ := List.exists_mem_of_ne_nil idx h
  obtain ⟨i, hi, -⟩ := exists_start row idx k hk
  exact List.ne_nil_of_mem hi

theorem getLastD_getLast (l : List Nat) (h : l ≠ []) : l.getLastD 0 = l.getLast h := by
  simp [List.getLastD_eq_getLast?, List.getLast?_eq_some_getLast h]

theorem r0_mem (row : Nat → Row) (idx : List Nat) (h : idx ≠ []) :
    ∃ i ∈ idx, r0 row idx = (row i).a := by
  unfold r0
  cases hl : starts row idx with
  | nil => exact absurd hl (starts_ne_nil row idx h)
  | cons i l =>
    have : i ∈ starts row idx := by rw [hl]; exact List.mem_cons_self
    exact ⟨i, ((mem_starts _ _ _).1 this).1, rfl⟩

theorem rN_mem (row : Nat → Row) (idx : List Nat) (h : idx ≠ []) :
    ∃ i ∈ idx, rN row idx = (row i).a := by
  unfold rN
  have hne := starts_ne_nil row idx h
  have : (starts row idx).getLastD 0 ∈ starts row idx := by
    rw [getLastD_getLast _ hne]
    exact List.getLast_mem hne
  exact ⟨_, ((mem_starts _ _ _).1 this).1, rfl⟩

/-- **C117 (distances).** On a straight line all distances between electrodes, hence geometric factors, are
those in three dimensions, whatever the direction of the line. -/
theorem C117_distances (row : Nat → Row) (idx : List Nat) (u : ℝ × ℝ) (hu : heading row idx = some u)
    (hne : idx ≠ []) (hst : Straight row idx) :
    ∀ i ∈ idx, ∀ j ∈ idx, ∀ p ∈ Row.electrodes (row i), ∀ q ∈ Row.electrodes (row j),
      dist2 (coord (heading row idx) (r0 row idx) p) (coord (heading row idx) (r0 row idx) q) =
        some (dist3 p q) := by
  obtain ⟨ox, oy, vx, vy, hv⟩ := hst
  obtain ⟨i0, hi0, h0⟩ := r0_mem row idx hne
  obtain ⟨iN, hiN, hN⟩ := rN_mem row idx hne
  obtain ⟨t0, h0x, h0y⟩ := hv i0 hi0 (row i0).a (by simp [Row.electrodes])
  obtain ⟨tN, hNx, hNy⟩ := hv iN hiN (row iN).a (by simp [Row.electrodes])
  rw [← h0] at h0x h0y
  rw [← hN] at hNx hNy
  intro i hi j hj p hp q hq
  obtain ⟨t, hpx, hpy⟩ := hv i hi p hp
  obtain ⟨s, hqx, hqy⟩ := hv j hj q hq
  rw [hu]
  simp only [coord, dist2, dist3, Option.map_some, Option.bind_some, Option.some.injEq]
  congr 1
  unfold heading at hu
  simp only at hu
  split_ifs at hu with hD
  simp only [Option.some.injEq] at hu
  set D := hdist (rN row idx) (r0 row idx) with hDdef
  have hD2 : D ^ 2 = ((tN - t0) ^ 2) * (vx ^ 2 + vy ^ 2) := by
    rw [hDdef, hdist, Real.sq_sqrt (by positivity), h0x, h0y, hNx, hNy]; ring
  have hu1 : u.1 = (tN - t0) * vx / D := by rw [← hu, h0x, hNx]; simp only; ring
  have hu2 : u.2 = (tN - t0) * vy / D := by rw [← hu, h0y, hNy]; simp only; ring
  rw [hpx, hpy, hqx, hqy, hu1, hu2]
  have e : ((ox + t * vx - (r0 row idx).x) * ((tN - t0) * vx / D) +
      (oy + t * vy - (r0 row idx).y) * ((tN - t0) * vy / D) -
      ((ox + s * vx - (r0 row idx).x) * ((tN - t0) * vx / D) +
      (oy + s * vy - (r0 row idx).y) * ((tN - t0) * vy / D))) ^ 2 =
      ((t - s) ^ 2 * (vx ^ 2 + vy ^ 2)) * (((tN - t0) ^ 2 * (vx ^ 2 + vy ^ 2)) / D ^ 2) := by
    field_simp
    ring
  rw [e, ← hD2, div_self (by positivity)]
  ring

/-- **C117.** Position zero is the A electrode of the first source of the line, and positions are signed
distances along the heading: the last A electrode is at its distance from the first. -/
theorem C117_origin (row : Nat → Row) (idx : List Nat) (u : ℝ × ℝ) (hu : heading row idx = some u) :
    (convertLine row idx).head?.map Src2.a =
      (if idx = [] then none else some (some 0, (r0 row idx).z)) ∧
    (convertLine row idx).getLast?.map Src2.a =
      (if idx = [] then none else some (some (hdist (rN row idx) (r0 row idx)), (rN row idx).z)) := by
  have hns : idx = [] → starts row idx = [] := by
    intro h; simp [starts, h]
  constructor
  · simp only [convertLine, hu, List.head?_map, Option.map_map]
    by_cases h : idx = []
    · simp [h, hns h]
      simp [starts]
    · rw [if_neg h]
      cases hl : starts row idx with
      | nil => exact absurd hl (starts_ne_nil row idx h)
      | cons i l =>
        have e : r0 row idx = (row i).a := by simp [r0, hl]
        simp only [List.head?_cons, Option.map_some, Function.comp, source, coord, e]
        simp
  · simp only [convertLine, List.getLast?_map, Option.map_map]
    by_cases h : idx = []
    · simp [h, starts]
    · rw [if_neg h]
      have hne := starts_ne_nil row idx h
      have e : rN row idx = (row ((starts row idx).getLast hne)).a := by
        rw [rN, getLastD_getLast _ hne]
      rw [List.getLast?_eq_some_getLast hne]
      simp only [Option.map_some, Function.comp, source, coord, ← e]
      unfold heading
      simp only
      unfold heading at hu
      simp only at hu
      split_ifs at hu with hD
      rw [if_neg hD]
      simp only [Option.map_some, Option.some.injEq, Prod.mk.injEq, and_true]
      set D := hdist (rN row idx) (r0 row idx) with hDdef
      have hD2 : D ^ 2 = ((rN row idx).x - (r0 row idx).x) ^ 2 + ((rN row idx).y - (r0 row idx).y) ^ 2 := by
        rw [hDdef, hdist, Real.sq_sqrt (by positivity)]
      field_simp
      linarith

/-- **C117, violated: sources at one position.** If two different sources have the same positions along
the line, for instance electrodes at two depths of a borehole, data occur several times. -/
theorem C117_violated_elevation (row : Nat → Row) (idx : List Nat) (u : ℝ × ℝ)
    (hu : heading row idx = some u) (i j : Nat) (hi : i ∈ starts row idx) (hj : j ∈ starts row idx)
    (hij : i ≠ j) (ha : (row i).a.x = (row j).a.x ∧ (row i).a.y = (row j).a.y)
    (hb : (row i).b.x = (row j).b.x ∧ (row i).b.y = (row j).b.y) :
    ¬ (outIdx (convertLine row idx)).Nodup ∧
    ∃ s ∈ convertLine row idx, i ∈ s.out ∧ s.a = coord (some u) (r0 row idx) (row j).a := by
  have hi' := ((mem_starts _ _ _).1 hi).1
  have hmi : i ∈ (source row idx (some u) (r0 row idx) i).out := by
    rw [mem_source_out]
    simp only [rxIndex, List.mem_filter, decide_eq_true_eq]
    exact ⟨hi', close_refl _, close_refl _⟩
  have hmj : i ∈ (source row idx (some u) (r0 row idx) j).out := by
    rw [mem_source_out]
    simp only [rxIndex, List.mem_filter, decide_eq_true_eq]
    refine ⟨hi', ?_, ?_⟩
    · simp only [coord, Option.map_some, closeO, ha.1, ha.2]; exact close_refl _
    · simp only [coord, Option.map_some, closeO, hb.1, hb.2]; exact close_refl _
  constructor
  · intro hnd
    simp only [outIdx, convertLine, hu, List.flatMap_map] at hnd
    rw [List.nodup_flatMap] at hnd
    have hp := hnd.2
    have : ∀ l : List Nat, i ∈ l → j ∈ l →
        ¬ l.Pairwise (fun a b => List.Disjoint (source row idx (some u) (r0 row idx) a).out
          (source row idx (some u) (r0 row idx) b).out) := by
      intro l
      induction l with
      | nil => intro h; cases h
      | cons k l ih =>
        intro h1 h2 hpw
        rw [List.pairwise_cons] at hpw
        rcases List.mem_cons.1 h1 with e1 | h3
        · subst e1
          rcases List.mem_cons.1 h2 with h4 | h4
          · exact hij h4.symm
          · exact hpw.1 j h4 hmi hmj
        · rcases List.mem_cons.1 h2 with e2 | h4
          · subst e2
            exact hpw.1 i h3 hmj hmi
          · exact ih h3 h4 hpw.2
    exact this _ hi hj hp
  · refine ⟨source row idx (some u) (r0 row idx) j, ?_, hmj, rfl⟩
    simp only [convertLine, hu, List.mem_map]
    exact ⟨j, hj, rfl⟩

/-- **C117, violated: one source position.** If the A electrodes of a line have one horizontal position,
the direction is not a number and the line has no data. -/
theorem C117_violated_single (row : Nat → Row) (idx : List Nat) (p : P3)
    (h : ∀ k ∈ idx, (row k).a.x = p.x ∧ (row k).a.y = p.y) :
    outIdx (convertLine row idx) = [] ∧ surveyData (convertLine row idx) = [] := by
  have hh : idx = [] ∨ heading row idx = none := by
    by_cases he : idx = []
    · exact Or.inl he
    · right
      obtain ⟨i, hi, e0⟩ := r0_mem row idx he
      obtain ⟨j, hj, eN⟩ := rN_mem row idx he
      unfold heading
      simp only
      rw [if_pos]
      rw [hdist, e0, eN, (h i hi).1, (h i hi).2, (h j hj).1, (h j hj).2]
      simp
  rcases hh with rfl | hh
  · simp [convertLine, starts, outIdx, surveyData]
  · have hr : ∀ i, rxIndex row idx none (r0 row idx) i = [] := by
      intro i
      simp [rxIndex, coord, closeO]
    constructor
    · simp only [outIdx, convertLine, hh, List.flatMap_map, List.flatMap_eq_nil_iff]
      intro i _
      simp [source, hr]
    · simp only [surveyData, convertLine, hh, List.flatMap_map, List.flatMap_eq_nil_iff]
      intro i _
      simp [source, hr]

/-- **C117, violated: currents.** The sources of the lines have current one, whatever it was. -/
theorem C117_violated_current (row : Nat → Row) (idx : List Nat) :
    ∀ s ∈ convertLine row idx, s.cur = 1 := by
  intro s hs
  simp only [convertLine, List.mem_map] at hs
  obtain ⟨i, -, rfl⟩ := hs
  rfl

/-- **C117, violated: dipoles across the line.** A dipole source perpendicular to the line becomes a
pole. -/
theorem C117_violated_across (row : Nat → Row) (idx : List Nat) (u : ℝ × ℝ)
    (hu : heading row idx = some u) (i : Nat) (hi : i ∈ starts row idx)
    (hperp : ((row i).b.x - (row i).a.x) * u.1 + ((row i).b.y - (row i).a.y) * u.2 = 0)
    (hz : (row i).a.z = (row i).b.z) :
    ∃ s ∈ convertLine row idx, s.a = coord (some u) (r0 row idx) (row i).a ∧ s.b = none := by
  refine ⟨source row idx (some u) (r0 row idx) i, ?_, rfl, ?_⟩
  · simp only [convertLine, hu, List.mem_map]
    exact ⟨i, hi, rfl⟩
  · simp only [source]
    rw [if_pos]
    have e : coord (some u) (r0 row idx) (row i).b = coord (some u) (r0 row idx) (row i).a := by
      simp only [coord, Option.map_some, hz, Prod.mk.injEq, Option.some.injEq, and_true]
      linarith
    rw [e]
    exact closeP_coord _ _ _

/-- Three sources: two in a borehole, and a dipole across the line, with a receiver each. -/
def exRow : Nat → Row
  | 0 => ⟨⟨0, 0, 0⟩, ⟨0, 0, 0⟩, ⟨5, 0, 0⟩, ⟨6, 0, 0⟩, 2⟩
  | 1 => ⟨⟨0, 0, -10⟩, ⟨0, 0, -10⟩, ⟨5, 0, 0⟩, ⟨6, 0, 0⟩, 2⟩
  | _ => ⟨⟨10, 0, 0⟩, ⟨10, 3, 0⟩, ⟨5, 0, 0⟩, ⟨5, 0, 0⟩, 2⟩

theorem exStarts : starts exRow [0, 1, 2] = [1, 0, 2] := by
  unfold starts
  rw [List.filter_eq_self.2]
  · simp [List.insertionSort, List.orderedInsert, exRow, Row.key, lexLe]
  · intro a ha
    simp only [List.mem_cons, List.not_mem_nil, or_false] at ha
    rcases ha with rfl | rfl | rfl <;> simp [exRow, Row.key]

theorem exHeading : heading exRow [0, 1, 2] = some (1, 0) := by
  have hd : hdist (rN exRow [0, 1, 2]) (r0 exRow [0, 1, 2]) = 10 := by
    simp only [rN, r0, exStarts, hdist]
    simp [exRow]
  unfold heading
  simp only [hd]
  rw [if_neg (by norm_num)]
  simp only [rN, r0, exStarts]
  simp [exRow]

/-- The violations in one survey of three data. -/
theorem C117_violated_example :
    ¬ (outIdx (convertLine exRow [0, 1, 2])).Nodup ∧
    (∃ s ∈ convertLine exRow [0, 1, 2], s.b = none ∧ s.a = (some 10, 0) ∧ (exRow 2).a ≠ (exRow 2).b) ∧
    ∀ k, (exRow k).cur = 2 := by
  refine ⟨?_, ?_, ?_⟩
  · exact (C117_violated_elevation exRow [0, 1, 2] (1, 0) exHeading 0 1 (by rw [exStarts]; simp)
      (by rw [exStarts]; simp) (by simp) (by simp [exRow]) (by simp [exRow])).1
  · obtain ⟨s, hs, ha, hb⟩ := C117_violated_across exRow [0, 1, 2] (1, 0) exHeading 2
      (by rw [exStarts]; simp) (by simp [exRow]) (by simp [exRow])
    refine ⟨s, hs, hb, ?_, by simp [exRow]⟩
    rw [ha]
    simp [coord, r0, exStarts, exRow]
  · intro k
    match k with
    | 0 => rfl
    | 1 => rfl
    | _ + 2 => rfl

/-- Two dipole sources along a line of direction (3, 4), for the parts. -/
def okRow : Nat → Row
  | 0 => ⟨⟨0, 0, 0⟩, ⟨3, 4, 1⟩, ⟨6, 8, 0⟩, ⟨9, 12, 0⟩, 1⟩
  | _ => ⟨⟨3, 4, 1⟩, ⟨6, 8, 0⟩, ⟨9, 12, 0⟩, ⟨9, 12, 0⟩, 1⟩

theorem okStarts : starts okRow [0, 1] = [0, 1] := by
  unfold starts
  rw [List.filter_eq_self.2]
  · simp [List.insertionSort, List.orderedInsert, okRow, Row.key, lexLe]
  · intro a ha
    simp only [List.mem_cons, List.not_mem_nil, or_false] at ha
    rcases ha with rfl | rfl <;> simp [okRow, Row.key]

theorem okHeading : heading okRow [0, 1] = some (3 / 5, 4 / 5) := by
  have hd : hdist (rN okRow [0, 1]) (r0 okRow [0, 1]) = 5 := by
    simp only [rN, r0, okStarts, hdist]
    have h1 : [0, 1].getLastD 0 = 1 := rfl
    rw [h1]
    simp only [List.headD_cons, okRow]
    rw [show ((3 : ℝ) - 0) ^ 2 + (4 - 0) ^ 2 = 5 ^ 2 by norm_num, Real.sqrt_sq (by norm_num)]
  unfold heading
  simp only [hd]
  rw [if_neg (by norm_num)]
  simp only [rN, r0, okStarts]
  simp [okRow]

example : Straight okRow [0, 1] := by
  refine ⟨0, 0, 3, 4, ?_⟩
  intro k hk p hp
  simp only [List.mem_cons, List.not_mem_nil, or_false] at hk
  rcases hk with rfl | rfl <;>
    (simp only [Row.electrodes, okRow, List.mem_cons, List.not_mem_nil, or_false] at hp
     rcases hp with rfl | rfl | rfl | rfl)
  · exact ⟨0, by norm_num, by norm_num⟩
  · exact ⟨1, by norm_num, by norm_num⟩
  · exact ⟨2, by norm_num, by norm_num⟩
  · exact ⟨3, by norm_num, by norm_num⟩
  · exact ⟨1, by norm_num, by norm_num⟩
  · exact ⟨2, by norm_num, by norm_num⟩
  · exact ⟨3, by norm_num, by norm_num⟩
  · exact ⟨3, by norm_num, by norm_num⟩

example : Separated okRow [0, 1] (coord (some (3 / 5, 4 / 5)) (r0 okRow [0, 1])) := by
  have h0 : r0 okRow [0, 1] = ⟨0, 0, 0⟩ := by simp [r0, okStarts, okRow]
  rw [h0]
  refine ⟨?_, ?_, ?_⟩
  · intro i hi j hj h1 h2
    simp only [List.mem_cons, List.not_mem_nil, or_false] at hi hj
    rcases hi with rfl | rfl <;> rcases hj with rfl | rfl <;>
      revert h1 h2 <;> norm_num [okRow, coord, closeO, close, abs_le]
  · intro i hi h
    simp only [List.mem_cons, List.not_mem_nil, or_false] at hi
    rcases hi with rfl | rfl <;> revert h <;> norm_num [okRow, coord, closeP, closeO, close, abs_le]
  · intro i hi h
    simp only [List.mem_cons, List.not_mem_nil, or_false] at hi
    rcases hi with rfl | rfl <;> revert h <;> norm_num [okRow, coord, closeP, closeO, close, abs_le]

end Verif.DC.Lines.Props
