import Verif.Basic
import Mathlib.Data.Real.Basic
import Mathlib.Data.List.Dedup
import Mathlib.Data.List.Perm.Basic
import Mathlib.Tactic.Linarith
import Mathlib.Tactic.NormNum
import Mathlib.Tactic.Ring
import Mathlib.Tactic.IntervalCases

/-!
# The layer of cells below the topography

Models `surface_layer_index` of `simpeg/utils/model_utils.py` on tensor meshes of three
dimensions.  The nearest-point searches of `griddata(method="nearest")` and of `cKDTree`
(libraries) are parameters: any function that returns a nearest point is admitted.
-/

namespace Verif.Utils.SurfaceLayer

open Verif

/-- What the function reads of a tensor mesh: numbers of cells and cell centres by axis. -/
structure TMesh where
  nx : ℕ
  ny : ℕ
  nz : ℕ
  x : ℕ → ℝ
  y : ℕ → ℝ
  z : ℕ → ℝ

/-- `mesh.nC`. -/
def TMesh.nC (m : TMesh) : ℕ := m.nx * m.ny * m.nz

/-- `mesh.gridCC`: the first axis runs fastest, the third slowest (discretize). -/
def TMesh.gridCC (m : TMesh) : List (ℝ × ℝ × ℝ) :=
  (List.range m.nC).map fun c =>
    (m.x (c % m.nx), m.y (c / m.nx % m.ny), m.z (c / (m.nx * m.ny)))

/-- Rows of `np.c_[mkvc(grid_x), mkvc(grid_y)]` after `np.meshgrid`: `model_utils.py` 57, 63.
The second axis runs fastest. -/
def TMesh.columns (m : TMesh) : List (ℝ × ℝ) :=
  (List.range m.nx).flatMap fun i => (List.range m.ny).map fun j => (m.x i, m.y j)

/-- Rows of `jz`: `model_utils.py` 67-69.  The stencil of the vertical cell gradient
(discretize) couples every cell with the one above it; each row is sorted. -/
def TMesh.jz (m : TMesh) : List (ℕ × ℕ) :=
  (List.range (m.nx * m.ny * (m.nz - 1))).map fun c => (c, c + m.nx * m.ny)

/-- The topography: number of columns and rows; of a row the first three entries. -/
structure Topo where
  columns : ℕ
  rows : List (ℝ × ℝ × ℝ)

/-- The two searches: a nearest point of a list, in the plane and in space. -/
structure Search where
  plane : List (ℝ × ℝ) → ℝ × ℝ → ℕ
  space : List (ℝ × ℝ × ℝ) → ℝ × ℝ × ℝ → ℕ

/-- Cells nearest to the topography, without repetition: `model_utils.py` 57-64.
Topography without rows is not modelled (`griddata` fails on it). -/
noncomputable def top (s : Search) (m : TMesh) (t : Topo) : Except Err (List ℕ) :=
  if t.columns < 3 then .error .indexError
  else .ok ((m.columns.map fun p =>
    s.space m.gridCC (p.1, p.2,
      (t.rows.getD (s.plane (t.rows.map fun r => (r.1, r.2.1)) p) (0, 0, 0)).2.2)).dedup.mergeSort)

/-- An index array: `np.squeeze` turns an array with one element into a zero-dimensional one. -/
inductive Inds where
  | arr (l : List ℕ)
  | zeroD (c : ℕ)

/-- One round of the loop: `model_utils.py` 50-55, 71-72.  A cell that is above no other has
no row: `None` makes the index array one of objects, which is an `IndexError`; a
zero-dimensional array cannot be iterated over (`TypeError`). -/
def step (jz : List (ℕ × ℕ)) : Inds → Except Err Inds
  | .zeroD _ => .error .typeError
  | .arr [] => .error .valueError
  | .arr l =>
    match l.mapM fun a => match (jz.map fun p => p.2).idxOf? a with
      | some i => (.ok (jz.getD i (0, 0)).1 : Except Err ℕ)
      | none => .error .indexError with
    | .error e => .error e
    | .ok [c] => .ok (.zeroD c)
    | .ok l' => .ok (.arr l')

/-- `for _ in range(index)`: `model_utils.py` 70-72. -/
def rounds (jz : List (ℕ × ℕ)) : ℕ → Inds → Except Err Inds
  | 0, a => .ok a
  | n + 1, a =>
    match step jz a with
    | .error e => .error e
    | .ok a' => rounds jz n a'

/-- The cells of an index array. -/
def Inds.cells : Inds → List ℕ
  | .arr l => l
  | .zeroD c => [c]

/-- `surface_layer_index`: `model_utils.py` 27-76. -/
noncomputable def surfaceLayerIndex (s : Search) (m : TMesh) (t : Topo) (index : ℕ) :
    Except Err (List Bool) :=
  match top s m t with
  | .error e => .error e
  | .ok inds =>
    match rounds m.jz index (.arr inds) with
    | .error e => .error e
    | .ok a => .ok ((List.range m.nC).map fun c => decide (c ∈ a.cells))

/-! ## Specification -/

namespace Spec

/-- Squared distance in the plane. -/
def d2 (p q : ℝ × ℝ) : ℝ := (p.1 - q.1) ^ 2 + (p.2 - q.2) ^ 2

/-- Squared distance in space. -/
def d3 (p q : ℝ × ℝ × ℝ) : ℝ :=
  (p.1 - q.1) ^ 2 + (p.2.1 - q.2.1) ^ 2 + (p.2.2 - q.2.2) ^ 2

/-- The searches return nearest points. -/
structure Nearest (s : Search) : Prop where
  plane : ∀ pts p, pts ≠ [] → ∃ q, pts[s.plane pts p]? = some q ∧ ∀ q' ∈ pts, d2 p q ≤ d2 p q'
  space : ∀ pts p, pts ≠ [] → ∃ q, pts[s.space pts p]? = some q ∧ ∀ q' ∈ pts, d3 p q ≤ d3 p q'

/-- A mesh: no axis is empty and no two columns of cells share their position. -/
structure Mesh (m : TMesh) : Prop where
  nx : 0 < m.nx
  ny : 0 < m.ny
  nz : 0 < m.nz
  x : ∀ i < m.nx, ∀ i' < m.nx, m.x i = m.x i' → i = i'
  y : ∀ j < m.ny, ∀ j' < m.ny, m.y j = m.y j' → j = j'

/-- `h` is the height of the topography above column `(i, j)`: that of a point which no
other point beats in horizontal distance. -/
def Height (m : TMesh) (t : Topo) (i j : ℕ) (h : ℝ) : Prop :=
  ∃ r ∈ t.rows, r.2.2 = h ∧
    ∀ r' ∈ t.rows, d2 (m.x i, m.y j) (r.1, r.2.1) ≤ d2 (m.x i, m.y j) (r'.1, r'.2.1)

/-- Layer `k` is one whose centres are closest to the height `h`. -/
def Closest (m : TMesh) (h : ℝ) (k : ℕ) : Prop :=
  k < m.nz ∧ ∀ k' < m.nz, (h - m.z k) ^ 2 ≤ (h - m.z k') ^ 2

/-- Number of cell `(i, j, k)`. -/
def cell (m : TMesh) (i j k : ℕ) : ℕ := i + m.nx * (j + m.ny * k)

end Spec

open Spec

/-! ## Lemmas -/

theorem cell_lt {m : TMesh} {i j k : ℕ} (hi : i < m.nx) (hj : j < m.ny) (hk : k < m.nz) :
    cell m i j k < m.nC := by
  simp only [cell, TMesh.nC]
  have h1 : j + m.ny * k + 1 ≤ m.ny * m.nz := by
    have : m.ny * (k + 1) ≤ m.ny * m.nz := Nat.mul_le_mul_left _ hk
    have e : m.ny * (k + 1) = m.ny * k + m.ny := by ring
    omega
  have h2 : m.nx * (j + m.ny * k + 1) ≤ m.nx * (m.ny * m.nz) := Nat.mul_le_mul_left _ h1
  have e : m.nx * (j + m.ny * k + 1) = m.nx * (j + m.ny * k) + m.nx := by ring
  have e2 : m.nx * m.ny * m.nz = m.nx * (m.ny * m.nz) := by ring
  omega

theorem cell_coords {m : TMesh} {i j : ℕ} (k : ℕ) (hi : i < m.nx) (hj : j < m.ny) :
    cell m i j k % m.nx = i ∧ cell m i j k / m.nx % m.ny = j ∧
      cell m i j k / (m.nx * m.ny) = k := by
  have e1 : cell m i j k / m.nx = j + m.ny * k := by
    rw [cell, Nat.add_mul_div_left _ _ (by omega), Nat.div_eq_of_lt hi, zero_add]
  refine ⟨?_, ?_, ?_⟩
  · rw [cell, Nat.add_mul_mod_self_left, Nat.mod_eq_of_lt hi]
  · rw [e1, Nat.add_mul_mod_self_left, Nat.mod_eq_of_lt hj]
  · rw [← Nat.div_div_eq_div_mul, e1, Nat.add_mul_div_left _ _ (by omega),
      Nat.div_eq_of_lt hj, zero_add]

theorem cell_of {m : TMesh} (c : ℕ) :
    cell m (c % m.nx) (c / m.nx % m.ny) (c / (m.nx * m.ny)) = c := by
  rw [cell, ← Nat.div_div_eq_div_mul, Nat.mod_add_div, Nat.mod_add_div]

theorem coords_lt {m : TMesh} (hm : Mesh m) {c : ℕ} (hc : c < m.nC) :
    c % m.nx < m.nx ∧ c / m.nx % m.ny < m.ny ∧ c / (m.nx * m.ny) < m.nz :=
  ⟨Nat.mod_lt _ hm.nx, Nat.mod_lt _ hm.ny, Nat.div_lt_of_lt_mul hc⟩

theorem grid_get {m : TMesh} {c : ℕ} (hc : c < m.nC) :
    m.gridCC[c]? = some (m.x (c % m.nx), m.y (c / m.nx % m.ny), m.z (c / (m.nx * m.ny))) := by
  simp [TMesh.gridCC, hc]

/-- The cell nearest to a point above or below column `(i, j)` lies in that column. -/
theorem nearest_cell {s : Search} (hs : Nearest s) {m : TMesh} (hm : Mesh m) {i j : ℕ}
    (hi : i < m.nx) (hj : j < m.ny) (h : ℝ) :
    ∃ k, Closest m h k ∧ s.space m.gridCC (m.x i, m.y j, h) = cell m i j k := by
  have hpos : 0 < m.nC := Nat.mul_pos (Nat.mul_pos hm.nx hm.ny) hm.nz
  have hne : m.gridCC ≠ [] := by
    intro e
    have := congrArg List.length e
    simp [TMesh.gridCC] at this
    omega
  obtain ⟨q, h1, h2⟩ := hs.space m.gridCC (m.x i, m.y j, h) hne
  generalize hc : s.space m.gridCC (m.x i, m.y j, h) = c at h1
  have hlt : c < m.nC := by
    have := (List.getElem?_eq_some_iff.1 h1).1
    simpa [TMesh.gridCC] using this
  rw [grid_get hlt] at h1
  cases h1
  obtain ⟨ci, cj, ck⟩ := coords_lt hm hlt
  have hmem : ∀ {i' j' k'}, i' < m.nx → j' < m.ny → k' < m.nz →
      (m.x i', m.y j', m.z k') ∈ m.gridCC := by
    intro i' j' k' a b c'
    have := List.mem_of_getElem? (grid_get (cell_lt a b c'))
    obtain ⟨e1, e2, e3⟩ := cell_coords k' a b
    rwa [e1, e2, e3] at this
  have hc1 := h2 _ (hmem hi hj ck)
  simp only [d3, sub_self] at hc1
  have hx : m.x i = m.x (c % m.nx) := by
    have := sq_nonneg (m.x i - m.x (c % m.nx))
    have := sq_nonneg (m.y j - m.y (c / m.nx % m.ny))
    have h0 : (m.x i - m.x (c % m.nx)) ^ 2 = 0 := by linarith
    linarith [pow_eq_zero_iff (two_ne_zero) |>.1 h0]
  have hy : m.y j = m.y (c / m.nx % m.ny) := by
    have := sq_nonneg (m.x i - m.x (c % m.nx))
    have := sq_nonneg (m.y j - m.y (c / m.nx % m.ny))
    have h0 : (m.y j - m.y (c / m.nx % m.ny)) ^ 2 = 0 := by linarith
    linarith [pow_eq_zero_iff (two_ne_zero) |>.1 h0]
  have ei := hm.x _ hi _ ci hx
  have ej := hm.y _ hj _ cj hy
  refine ⟨c / (m.nx * m.ny), ⟨ck, ?_⟩, ?_⟩
  · intro k' hk'
    have := h2 _ (hmem hi hj hk')
    simp only [d3, sub_self, ← hx, ← hy] at this
    linarith
  · conv_lhs => rw [← cell_of (m := m) c]
    rw [← ei, ← ej]

theorem columns_map {m : TMesh} {β : Type} (f : ℝ × ℝ → β) :
    m.columns.map f
      = (List.range m.nx).flatMap fun i => (List.range m.ny).map fun j => f (m.x i, m.y j) := by
  simp [TMesh.columns, List.map_flatMap, Function.comp_def]

/-- The list of the surface cells. -/
def surface (m : TMesh) (k : ℕ → ℕ → ℕ) : List ℕ :=
  (List.range m.nx).flatMap fun i => (List.range m.ny).map fun j => cell m i j (k i j)

theorem surface_mem {m : TMesh} {k : ℕ → ℕ → ℕ} {c : ℕ} :
    c ∈ surface m k ↔ ∃ i < m.nx, ∃ j < m.ny, c = cell m i j (k i j) := by
  simp only [surface, List.mem_flatMap, List.mem_range, List.mem_map]
  constructor
  · rintro ⟨i, hi, j, hj, e⟩; exact ⟨i, hi, j, hj, e.symm⟩
  · rintro ⟨i, hi, j, hj, e⟩; exact ⟨i, hi, j, hj, e.symm⟩

theorem surface_nodup {m : TMesh} (k : ℕ → ℕ → ℕ) : (surface m k).Nodup := by
  rw [surface, List.nodup_flatMap]
  refine ⟨fun i hi => ?_, ?_⟩
  · refine List.Nodup.map_on ?_ List.nodup_range
    intro j hj j' hj' e
    have h1 := cell_coords (k i j) (List.mem_range.1 hi) (List.mem_range.1 hj)
    have h2 := cell_coords (k i j') (List.mem_range.1 hi) (List.mem_range.1 hj')
    rw [← h1.2.1, ← h2.2.1, e]
  · refine List.Pairwise.imp_of_mem ?_ (List.nodup_range (n := m.nx))
    intro i i' hi hi' hne
    simp only [Function.onFun, List.disjoint_left, List.mem_map, List.mem_range]
    rintro c ⟨j, hj, rfl⟩ ⟨j', hj', e⟩
    have h1 := cell_coords (k i j) (List.mem_range.1 hi) hj
    have h2 := cell_coords (k i' j') (List.mem_range.1 hi') hj'
    exact hne (by rw [← h1.1, ← h2.1, e])

theorem surface_length {m : TMesh} (k : ℕ → ℕ → ℕ) : (surface m k).length = m.nx * m.ny := by
  simp [surface, List.length_flatMap]

/-- Where the first part ends. -/
theorem top_eq {s : Search} (hs : Nearest s) {m : TMesh} (hm : Mesh m) {t : Topo}
    (hcol : 3 ≤ t.columns) (hrows : t.rows ≠ []) :
    ∃ (h : ℕ → ℕ → ℝ) (k : ℕ → ℕ → ℕ),
      (∀ i < m.nx, ∀ j < m.ny, Height m t i j (h i j) ∧ Closest m (h i j) (k i j)) ∧
      ∃ inds, top s m t = .ok inds ∧ inds.Perm (surface m k) := by
  have hh : ∀ i j : ℕ, Height m t i j
      ((t.rows.getD (s.plane (t.rows.map fun r => (r.1, r.2.1)) (m.x i, m.y j)) (0, 0, 0)).2.2) := by
    intro i j
    obtain ⟨q, h1, h2⟩ := hs.plane (t.rows.map fun r => (r.1, r.2.1)) (m.x i, m.y j)
      (by simpa using hrows)
    rw [List.getElem?_map] at h1
    obtain ⟨r, h3, rfl⟩ := Option.map_eq_some_iff.1 h1
    refine ⟨r, List.mem_of_getElem? h3, ?_, fun r' hr' => h2 _ (List.mem_map.2 ⟨r', hr', rfl⟩)⟩
    rw [List.getD_eq_getElem?_getD, h3]; rfl
  set h : ℕ → ℕ → ℝ := fun i j =>
    (t.rows.getD (s.plane (t.rows.map fun r => (r.1, r.2.1)) (m.x i, m.y j)) (0, 0, 0)).2.2 with hdef
  have hk : ∀ i j : ℕ, ∃ k, i < m.nx → j < m.ny → Closest m (h i j) k ∧
      s.space m.gridCC (m.x i, m.y j, h i j) = cell m i j k := by
    intro i j
    by_cases hij : i < m.nx ∧ j < m.ny
    · obtain ⟨k, a, b⟩ := nearest_cell hs hm hij.1 hij.2 (h i j)
      exact ⟨k, fun _ _ => ⟨a, b⟩⟩
    · exact ⟨0, fun a b => absurd ⟨a, b⟩ hij⟩
  choose k hk using hk
  refine ⟨h, k, fun i hi j hj => ⟨hh i j, (hk i j hi hj).1⟩, _,
    by rw [top, if_neg (by omega)], ?_⟩
  have e : (m.columns.map fun p => s.space m.gridCC (p.1, p.2,
      (t.rows.getD (s.plane (t.rows.map fun r => (r.1, r.2.1)) p) (0, 0, 0)).2.2)) = surface m k := by
    rw [columns_map, surface]
    refine List.flatMap_congr fun i hi => List.map_congr_left fun j hj => ?_
    exact (hk i j (List.mem_range.1 hi) (List.mem_range.1 hj)).2
  rw [e, List.dedup_eq_self.2 (surface_nodup k)]
  exact List.mergeSort_perm _ _

theorem idxOf_shift (N n a : ℕ) :
    ((List.range n).map fun c => c + N).idxOf? a
      = if N ≤ a ∧ a < n + N then some (a - N) else none := by
  by_cases h : N ≤ a ∧ a < n + N
  · rw [if_pos h]
    have hinj : Function.Injective fun c : ℕ => c + N := fun a b h => by simpa using h
    have hm : a ∈ (List.range n).map fun c => c + N :=
      List.mem_map.2 ⟨a - N, List.mem_range.2 (by omega), by omega⟩
    rw [List.idxOf?_eq_some_iff]
    refine ⟨by simp; omega, by simp; omega, ?_⟩
    intro j hj
    simp
    omega
  · rw [if_neg h, List.idxOf?_eq_none_iff]
    intro hm
    obtain ⟨c, hc, e⟩ := List.mem_map.1 hm
    have := List.mem_range.1 hc
    omega

/-- One entry of the loop: the cell below. -/
theorem below (m : TMesh) (hm : Mesh m) {a : ℕ} (ha : a < m.nC) :
    (match (m.jz.map fun p => p.2).idxOf? a with
      | some i => (.ok (m.jz.getD i (0, 0)).1 : Except Err ℕ)
      | none => .error .indexError)
      = if m.nx * m.ny ≤ a then .ok (a - m.nx * m.ny) else .error .indexError := by
  have e : (m.jz.map fun p => p.2)
      = (List.range (m.nx * m.ny * (m.nz - 1))).map fun c => c + m.nx * m.ny := by
    simp [TMesh.jz]
  have hn : m.nx * m.ny * (m.nz - 1) + m.nx * m.ny = m.nC := by
    have h1 : m.nz = m.nz - 1 + 1 := by have := hm.nz; omega
    rw [TMesh.nC]
    conv_rhs => rw [h1]
    ring
  rw [e, idxOf_shift, hn]
  by_cases h : m.nx * m.ny ≤ a
  · rw [if_pos ⟨h, ha⟩, if_pos h]
    have : a - m.nx * m.ny < m.nx * m.ny * (m.nz - 1) := by omega
    simp only [TMesh.jz, List.getD_eq_getElem?_getD, List.getElem?_map,
      List.getElem?_range this, Option.map_some, Option.getD_some]
  · rw [if_neg (fun hc => h hc.1), if_neg h]

theorem mapM_below {N : ℕ} {f : ℕ → Except Err ℕ} {l : List ℕ}
    (hf : ∀ a ∈ l, f a = if N ≤ a then .ok (a - N) else .error .indexError) :
    l.mapM f = if ∀ a ∈ l, N ≤ a then .ok (l.map (· - N)) else .error .indexError := by
  induction l with
  | nil => rw [if_pos (by simp)]; rfl
  | cons a l ih =>
    rw [List.mapM_cons, ih fun b hb => hf b (by simp [hb]), hf a (by simp)]
    by_cases ha : N ≤ a
    · by_cases hl : ∀ b ∈ l, N ≤ b
      · rw [if_pos ha, if_pos hl, if_pos (by simpa using ⟨ha, hl⟩)]; rfl
      · rw [if_pos ha, if_neg hl, if_neg (fun hc => hl fun b hb => hc b (by simp [hb]))]; rfl
    · have hn : ¬ ∀ b ∈ a :: l, N ≤ b := fun hc => ha (hc a (by simp))
      simp only [if_neg ha, if_neg hn]
      rfl

theorem step_many {m : TMesh} (hm : Mesh m) {l : List ℕ} (h2 : 2 ≤ l.length)
    (hl : ∀ a ∈ l, a < m.nC) :
    step m.jz (.arr l) = if ∀ a ∈ l, m.nx * m.ny ≤ a then .ok (.arr (l.map (· - m.nx * m.ny)))
      else .error .indexError := by
  obtain ⟨a, b, l, rfl⟩ : ∃ a b l', l = a :: b :: l' := by
    rcases l with _ | ⟨a, _ | ⟨b, l⟩⟩
    · simp at h2
    · simp at h2
    · exact ⟨_, _, _, rfl⟩
  simp only [step]
  rw [mapM_below (N := m.nx * m.ny) (fun c hc => below m hm (hl c hc))]
  split_ifs <;> rfl

theorem step_one {m : TMesh} (hm : Mesh m) {a : ℕ} (ha : a < m.nC) :
    step m.jz (.arr [a]) = if m.nx * m.ny ≤ a then .ok (.zeroD (a - m.nx * m.ny))
      else .error .indexError := by
  simp only [step]
  rw [mapM_below (N := m.nx * m.ny) (l := [a])
    (fun c hc => below m hm (by rw [List.mem_singleton.1 hc]; exact ha))]
  by_cases h : m.nx * m.ny ≤ a <;> simp [h]

theorem rounds_many {m : TMesh} (hm : Mesh m) (n : ℕ) {l : List ℕ} (h2 : 2 ≤ l.length)
    (hl : ∀ a ∈ l, a < m.nC) :
    rounds m.jz n (.arr l)
      = if ∀ a ∈ l, n * (m.nx * m.ny) ≤ a then .ok (.arr (l.map (· - n * (m.nx * m.ny))))
        else .error .indexError := by
  induction n generalizing l with
  | zero => simp [rounds]
  | succ n ih =>
    rw [rounds, step_many hm h2 hl]
    by_cases h : ∀ a ∈ l, m.nx * m.ny ≤ a
    · rw [if_pos h]
      simp only
      rw [ih (by simpa using h2) (by
        intro a ha
        obtain ⟨b, hb, rfl⟩ := List.mem_map.1 ha
        have := hl b hb
        omega)]
      have hiff : (∀ a ∈ l.map (· - m.nx * m.ny), n * (m.nx * m.ny) ≤ a)
          ↔ ∀ a ∈ l, (n + 1) * (m.nx * m.ny) ≤ a := by
        have e : (n + 1) * (m.nx * m.ny) = n * (m.nx * m.ny) + m.nx * m.ny := by ring
        constructor
        · intro hc a ha
          have := hc _ (List.mem_map.2 ⟨a, ha, rfl⟩)
          have := h a ha
          omega
        · intro hc a ha
          obtain ⟨b, hb, rfl⟩ := List.mem_map.1 ha
          have := hc b hb
          omega
      by_cases hq : ∀ a ∈ l, (n + 1) * (m.nx * m.ny) ≤ a
      · rw [if_pos (hiff.2 hq), if_pos hq, List.map_map]
        refine congrArg _ (congrArg _ (List.map_congr_left fun a _ => ?_))
        simp only [Function.comp]
        have e : (n + 1) * (m.nx * m.ny) = n * (m.nx * m.ny) + m.nx * m.ny := by ring
        omega
      · rw [if_neg fun hc => hq (hiff.1 hc), if_neg hq]
    · rw [if_neg h, if_neg fun hc => h fun a ha => ?_]
      have := hc a ha
      have e : (n + 1) * (m.nx * m.ny) = n * (m.nx * m.ny) + m.nx * m.ny := by ring
      omega

theorem cell_shift {m : TMesh} {i j k n : ℕ} (h : n ≤ k) :
    cell m i j k - n * (m.nx * m.ny) = cell m i j (k - n) := by
  obtain ⟨d, rfl⟩ := Nat.exists_eq_add_of_le h
  simp only [cell, Nat.add_sub_cancel_left]
  have : i + m.nx * (j + m.ny * (n + d)) = i + m.nx * (j + m.ny * d) + n * (m.nx * m.ny) := by ring
  omega

theorem shift_le {m : TMesh} (hm : Mesh m) {i j k n : ℕ} (hi : i < m.nx) (hj : j < m.ny) :
    n * (m.nx * m.ny) ≤ cell m i j k ↔ n ≤ k := by
  have h := (cell_coords (m := m) k hi hj).2.2
  have hN : 0 < m.nx * m.ny := Nat.mul_pos hm.nx hm.ny
  rw [← Nat.le_div_iff_mul_le hN, h]

theorem shift_le_one {m : TMesh} (hm : Mesh m) {i j k : ℕ} (hi : i < m.nx) (hj : j < m.ny) :
    m.nx * m.ny ≤ cell m i j k ↔ 1 ≤ k := by
  have := shift_le (n := 1) (k := k) hm hi hj
  simpa using this

theorem cell_eq {m : TMesh} {i j k i' j' k' : ℕ} (hi : i < m.nx) (hj : j < m.ny)
    (hi' : i' < m.nx) (hj' : j' < m.ny) (e : cell m i j k = cell m i' j' k') :
    i = i' ∧ j = j' ∧ k = k' := by
  have h1 := cell_coords k hi hj
  have h2 := cell_coords k' hi' hj'
  rw [e] at h1
  exact ⟨h1.1.symm.trans h2.1, h1.2.1.symm.trans h2.2.1, h1.2.2.symm.trans h2.2.2⟩

/-! ## Theorems -/

/-- `mask` marks in every column the one cell which lies `index` layers under layer `k`. -/
def Marks (m : TMesh) (k : ℕ → ℕ → ℕ) (index : ℕ) (mask : List Bool) : Prop :=
  mask.length = m.nC ∧ ∀ i < m.nx, ∀ j < m.ny, ∀ l < m.nz,
    mask[cell m i j l]? = some (decide (l + index = k i j))

/-- **The layer found.**  For a mesh with more than one column there are, for each column, the
height of the topography at a nearest point and a layer whose centres are closest to it, and
the result marks the cell `index` layers under it; if in some column the mesh does not reach
that far down, the call is an `IndexError`. -/
theorem C151_layer (s : Search) (hs : Nearest s) (m : TMesh) (hm : Mesh m) (t : Topo)
    (hcol : 3 ≤ t.columns) (hrows : t.rows ≠ []) (hmany : 2 ≤ m.nx * m.ny) :
    ∃ (h : ℕ → ℕ → ℝ) (k : ℕ → ℕ → ℕ),
      (∀ i < m.nx, ∀ j < m.ny, Height m t i j (h i j) ∧ Closest m (h i j) (k i j)) ∧
      ∀ index,
        ((∀ i < m.nx, ∀ j < m.ny, index ≤ k i j) →
          ∃ mask, surfaceLayerIndex s m t index = .ok mask ∧ Marks m k index mask) ∧
        ((∃ i < m.nx, ∃ j < m.ny, k i j < index) →
          surfaceLayerIndex s m t index = .error .indexError) := by
  obtain ⟨h, k, hk, inds, e, hp⟩ := top_eq hs hm hcol hrows
  refine ⟨h, k, hk, fun index => ?_⟩
  have hlt : ∀ a ∈ inds, a < m.nC := by
    intro a ha
    obtain ⟨i, hi, j, hj, rfl⟩ := surface_mem.1 (hp.mem_iff.1 ha)
    exact cell_lt hi hj (hk i hi j hj).2.1
  have hlen : 2 ≤ inds.length := by rw [hp.length_eq, surface_length]; exact hmany
  have hr := rounds_many hm index hlen hlt
  have hiff : (∀ a ∈ inds, index * (m.nx * m.ny) ≤ a) ↔ ∀ i < m.nx, ∀ j < m.ny, index ≤ k i j := by
    constructor
    · intro hc i hi j hj
      exact (shift_le hm hi hj).1 (hc _ (hp.mem_iff.2 (surface_mem.2 ⟨i, hi, j, hj, rfl⟩)))
    · intro hc a ha
      obtain ⟨i, hi, j, hj, rfl⟩ := surface_mem.1 (hp.mem_iff.1 ha)
      exact (shift_le hm hi hj).2 (hc i hi j hj)
  constructor
  · intro hle
    rw [if_pos (hiff.2 hle)] at hr
    refine ⟨_, by simp only [surfaceLayerIndex, e, hr]; rfl, by simp, ?_⟩
    intro i hi j hj l hl
    rw [List.getElem?_map, List.getElem?_range (cell_lt hi hj hl), Option.map_some]
    refine congrArg some (decide_eq_decide.2 ?_)
    simp only [Inds.cells]
    constructor
    · intro hmem
      obtain ⟨a, ha, ea⟩ := List.mem_map.1 hmem
      obtain ⟨i', hi', j', hj', rfl⟩ := surface_mem.1 (hp.mem_iff.1 ha)
      simp only [cell_shift (hle i' hi' j' hj')] at ea
      obtain ⟨rfl, rfl, e3⟩ := cell_eq hi' hj' hi hj ea
      have := hle i' hi j' hj
      omega
    · intro el
      refine List.mem_map.2 ⟨cell m i j (k i j),
        hp.mem_iff.2 (surface_mem.2 ⟨i, hi, j, hj, rfl⟩), ?_⟩
      simp only [cell_shift (hle i hi j hj)]
      congr 1
      omega
  · rintro ⟨i, hi, j, hj, hlt'⟩
    rw [if_neg fun hc => absurd (hiff.1 hc i hi j hj) (by omega)] at hr
    simp only [surfaceLayerIndex, e, hr]

/-- **A mesh with one column.**  The surface cell and the one below it are found; asking for
the second or a deeper layer is a `TypeError`, however deep the mesh is, because the index
array has lost its axis. -/
theorem C151_violated_one_column (s : Search) (hs : Nearest s) (m : TMesh) (hm : Mesh m) (t : Topo)
    (hcol : 3 ≤ t.columns) (hrows : t.rows ≠ []) (hx : m.nx = 1) (hy : m.ny = 1) :
    ∃ (h : ℝ) (k : ℕ), Height m t 0 0 h ∧ Closest m h k ∧
      (∃ mask, surfaceLayerIndex s m t 0 = .ok mask ∧ Marks m (fun _ _ => k) 0 mask) ∧
      (1 ≤ k → ∃ mask, surfaceLayerIndex s m t 1 = .ok mask ∧ Marks m (fun _ _ => k) 1 mask) ∧
      (1 ≤ k → ∀ index, 2 ≤ index → surfaceLayerIndex s m t index = .error .typeError) ∧
      (k = 0 → ∀ index, 1 ≤ index → surfaceLayerIndex s m t index = .error .indexError) := by
  obtain ⟨h, k, hk, inds, e, hp⟩ := top_eq hs hm hcol hrows
  have h0 := hk 0 (by omega) 0 (by omega)
  have hsurf : surface m k = [cell m 0 0 (k 0 0)] := by simp [surface, hx, hy]
  rw [hsurf] at hp
  obtain rfl := List.perm_singleton.1 hp
  have hlt : cell m 0 0 (k 0 0) < m.nC := cell_lt (by omega) (by omega) h0.2.1
  have hst := step_one hm hlt
  have hsl : m.nx * m.ny ≤ cell m 0 0 (k 0 0) ↔ 1 ≤ k 0 0 :=
    shift_le_one hm (by omega) (by omega)
  refine ⟨h 0 0, k 0 0, h0.1, h0.2, ?_, ?_, ?_, ?_⟩
  · refine ⟨_, by simp only [surfaceLayerIndex, e, rounds]; rfl, by simp, ?_⟩
    intro i hi j hj l hl
    rw [List.getElem?_map, List.getElem?_range (cell_lt hi hj hl), Option.map_some]
    refine congrArg some (decide_eq_decide.2 ?_)
    have hi0 : i = 0 := by omega
    have hj0 : j = 0 := by omega
    subst hi0 hj0
    simp only [Inds.cells, List.mem_singleton]
    constructor
    · intro ea
      have := (cell_eq hi hj hi hj ea).2.2
      omega
    · intro el
      have : l = k 0 0 := by omega
      rw [this]
  · intro hk1
    rw [if_pos (hsl.2 hk1)] at hst
    refine ⟨_, by simp only [surfaceLayerIndex, e, rounds, hst]; rfl, by simp, ?_⟩
    intro i hi j hj l hl
    rw [List.getElem?_map, List.getElem?_range (cell_lt hi hj hl), Option.map_some]
    refine congrArg some (decide_eq_decide.2 ?_)
    have hi0 : i = 0 := by omega
    have hj0 : j = 0 := by omega
    subst hi0 hj0
    have ecell : cell m 0 0 (k 0 0) - m.nx * m.ny = cell m 0 0 (k 0 0 - 1) := by
      have := cell_shift (m := m) (i := 0) (j := 0) (n := 1) hk1
      simpa using this
    simp only [Inds.cells, List.mem_singleton, ecell]
    constructor
    · intro ea
      have := (cell_eq hi hj hi hj ea).2.2
      omega
    · intro el
      have : l = k 0 0 - 1 := by omega
      rw [this]
  · intro hk1 index hi
    obtain ⟨n, rfl⟩ := Nat.exists_eq_add_of_le hi
    rw [if_pos (hsl.2 hk1)] at hst
    rw [show 2 + n = n + 1 + 1 by omega]
    have hz : ∀ c, step m.jz (.zeroD c) = .error .typeError := fun _ => rfl
    simp only [surfaceLayerIndex, e, rounds, hst, hz]
  · intro hk0 index hi
    obtain ⟨n, rfl⟩ := Nat.exists_eq_add_of_le hi
    rw [if_neg (fun hc => by have := hsl.1 hc; omega)] at hst
    rw [show 1 + n = n + 1 by omega]
    simp only [surfaceLayerIndex, e, rounds, hst]

/-- **Topography with two columns**, documented for meshes of two dimensions, is refused. -/
theorem C151_violated_two_columns (s : Search) (m : TMesh) (t : Topo) (h : t.columns = 2)
    (index : ℕ) : surfaceLayerIndex s m t index = .error .indexError := by
  simp [surfaceLayerIndex, top, h]

/-- Two thick layers under a thin one, two columns: faces at -20, -10, 0, 1. -/
noncomputable def thin : TMesh where
  nx := 2
  ny := 1
  nz := 3
  x := fun i => i
  y := fun j => j
  z := fun k => if k = 0 then -15 else if k = 1 then -5 else 1 / 2

theorem thin_mesh : Mesh thin where
  nx := by decide
  ny := by decide
  nz := by decide
  x := by
    intro i _ i' _ e
    simp only [thin] at e
    exact_mod_cast e
  y := by
    intro i _ i' _ e
    simp only [thin] at e
    exact_mod_cast e

/-- **The layer is not always below the topography.**  With the ground at height -1 the cell
found in every column is the one between 0 and 1, wholly above the ground. -/
theorem C151_violated_above (s : Search) (hs : Nearest s) :
    surfaceLayerIndex s thin ⟨3, [(0, 0, -1)]⟩ 0 = .ok [false, false, false, false, true, true] := by
  obtain ⟨h, k, hk, hall⟩ := C151_layer s hs thin thin_mesh ⟨3, [(0, 0, -1)]⟩ (by simp) (by simp)
    (by decide)
  have hk2 : ∀ i < 2, k i 0 = 2 := by
    intro i hi
    obtain ⟨⟨r, hr, e, _⟩, h1, h2⟩ := hk i hi 0 (by decide)
    simp only [List.mem_singleton] at hr
    subst hr
    have hb := h2 2 (by decide)
    rw [← e] at hb
    have h3 : k i 0 < 3 := h1
    interval_cases hc : k i 0
    · exfalso
      norm_num [thin] at hb
    · exfalso
      norm_num [thin] at hb
    · rfl
  obtain ⟨mask, hm, hlen, hmark⟩ := (hall 0).1 (fun i _ j _ => Nat.zero_le _)
  rw [hm]
  have hlen' : mask.length = 6 := hlen
  refine congrArg _ (List.ext_getElem? fun c => ?_)
  by_cases hc : c < 6
  · have g : ∀ i < 2, ∀ l < 3, mask[cell thin i 0 l]? = some (decide (l = 2)) := by
      intro i hi l hl
      have := hmark i hi 0 (by decide) l hl
      rw [hk2 i hi] at this
      simpa using this
    interval_cases c
    · simpa [cell, thin] using g 0 (by decide) 0 (by decide)
    · simpa [cell, thin] using g 1 (by decide) 0 (by decide)
    · simpa [cell, thin] using g 0 (by decide) 1 (by decide)
    · simpa [cell, thin] using g 1 (by decide) 1 (by decide)
    · simpa [cell, thin] using g 0 (by decide) 2 (by decide)
    · simpa [cell, thin] using g 1 (by decide) 2 (by decide)
  · rw [List.getElem?_eq_none (by omega), List.getElem?_eq_none (by simpa using hc)]

/-- Searches that return nearest points exist. -/
theorem nearest_exists : ∃ s, Nearest s := by
  have key : ∀ {α : Type} (d : α → α → ℝ) (pts : List α) (p : α), ∃ i : ℕ, pts ≠ [] →
      ∃ q, pts[i]? = some q ∧ ∀ q' ∈ pts, d p q ≤ d p q' := by
    intro α d pts p
    induction pts with
    | nil => exact ⟨0, fun h => absurd rfl h⟩
    | cons a l ih =>
      obtain ⟨i, hi⟩ := ih
      by_cases hl : l = []
      · subst hl
        exact ⟨0, fun _ => ⟨a, rfl, by simp⟩⟩
      · obtain ⟨q, h1, h2⟩ := hi hl
        by_cases hc : d p a ≤ d p q
        · refine ⟨0, fun _ => ⟨a, rfl, ?_⟩⟩
          intro q' hq'
          rcases List.mem_cons.1 hq' with rfl | h
          · exact le_refl _
          · exact le_trans hc (h2 _ h)
        · refine ⟨i + 1, fun _ => ⟨q, by simpa using h1, ?_⟩⟩
          intro q' hq'
          rcases List.mem_cons.1 hq' with rfl | h
          · exact (not_le.1 hc).le
          · exact h2 _ h
  choose f hf using key d2
  choose g hg using key d3
  exact ⟨⟨f, g⟩, hf, hg⟩

/-- The hypotheses of the theorems can be met together. -/
example : ∃ s, Nearest s ∧ Mesh thin ∧ 2 ≤ thin.nx * thin.ny :=
  let ⟨s, hs⟩ := nearest_exists
  ⟨s, hs, thin_mesh, by decide⟩

end Verif.Utils.SurfaceLayer
