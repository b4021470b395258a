import Verif.Basic
import Mathlib.Data.Real.Basic
import Mathlib.Data.List.Basic
import Mathlib.Algebra.Order.Field.Basic
import Mathlib.Tactic.Linarith
import Mathlib.Tactic.Ring
import Mathlib.Tactic.NormNum
import Mathlib.Tactic.Positivity
import Mathlib.Tactic.FieldSimp
import Mathlib.Tactic.IntervalCases

/-!
Discrete topography and draping of points on it (`simpeg/utils/mesh_utils.py` 103-290), for tensor
meshes.  Tree meshes are not modelled.
-/

noncomputable section

namespace Verif.Utils.Topo

/-- A tensor mesh (152-154, 173-174): `n` columns of `nz` cells; `z` are the vertical nodes, `c` the horizontal centres of
columns.  Columns are numbered as by `mesh2D.cell_centers`. -/
structure Mesh (H : Type) where
  n : Nat
  c : Nat → H
  nz : Nat
  z : Nat → ℝ

variable {H : Type}

/-- `cell_centers[:, 2]` of the vertical cell `j` (155, 175). -/
def Mesh.zc (M : Mesh H) (j : Nat) : ℝ := (M.z j + M.z (j + 1)) / 2

/-- `mesh.h[2]` (165, 182). -/
def Mesh.h (M : Mesh H) (j : Nat) : ℝ := M.z (j + 1) - M.z j

/-- `topo_cell_cutoff` (163-169, 181-186); other strings raise. -/
inductive Cutoff
  | top
  | center

/-- Centres and thicknesses of the active cells of a column, from the bottom (156-159, 176-178). -/
def activeCells (M : Mesh H) (act : Nat → Bool) : List (ℝ × ℝ) :=
  ((List.range M.nz).filter act).map fun j => (M.zc j, M.h j)

/-- `np.argmax` (164, 180): the first of the highest cells. -/
def highest : ℝ × ℝ → List (ℝ × ℝ) → ℝ × ℝ
  | b, [] => b
  | b, x :: l => highest (if b.1 < x.1 then x else b) l

/-- The elevation of one column (162-170, 179-187); `max` of an empty array raises ValueError. -/
def topoCol (M : Mesh H) (cut : Cutoff) (act : Nat → Bool) : Except Err ℝ :=
  match activeCells M act with
  | [] => .error .valueError
  | x :: l =>
    let b := highest x l
    .ok (b.1 + match cut with
      | .top => b.2 * (1 / 2)
      | .center => 0)

/-- `get_discrete_topography` (129-203): one elevation per column. -/
def topography (M : Mesh H) (cut : Cutoff) (act : Nat → Nat → Bool) : Except Err (List ℝ) :=
  (List.range M.n).mapM fun i => topoCol M cut (act i)

/-- `shift_to_discrete_topography` for one point (264-290): `near` is the column found by
`_closest_grid_indices`, `col` that of `mesh.point2index`. -/
def shift (M : Mesh H) (topo : List ℝ) (near col : H → Nat) (hasElevation horizontal : Bool)
    (height : ℝ) (p : H) : H × ℝ :=
  let t := topo.getD (near p) 0
  let h := if horizontal then (if hasElevation then M.c (col p) else M.c (near p)) else p
  (h, t + height)

/-- `_closest_grid_indices` (103-123): some column with the smallest distance.  Ties are left open; `d`
is the squared horizontal distance. -/
def Nearest (M : Mesh H) (d : H → H → ℝ) (near : H → Nat) : Prop :=
  ∀ p, near p < M.n ∧ ∀ i < M.n, d p (M.c (near p)) ≤ d p (M.c i)

/-- Squared distances along a line and in the plane (117-121). -/
def d1 (p q : ℝ) : ℝ := (p - q) ^ 2
/-- The distance of the tree query (121-122), squared. -/
def d2 (p q : ℝ × ℝ) : ℝ := (p.1 - q.1) ^ 2 + (p.2 - q.2) ^ 2

/-- Centres of a two-dimensional mesh with nodes `x`, and of a three-dimensional one (154, 174). -/
def mesh2 (n : Nat) (x : Nat → ℝ) (nz : Nat) (z : Nat → ℝ) : Mesh ℝ :=
  ⟨n, fun i => (x i + x (i + 1)) / 2, nz, z⟩

/-- Three dimensions: columns in Fortran order (154, 170). -/
def mesh3 (nx ny : Nat) (x y : Nat → ℝ) (nz : Nat) (z : Nat → ℝ) : Mesh (ℝ × ℝ) :=
  ⟨nx * ny, fun k => ((x (k % nx) + x (k % nx + 1)) / 2, (y (k / nx) + y (k / nx + 1)) / 2), nz, z⟩

end Verif.Utils.Topo

namespace Verif.Utils.Topo.Props
open Verif.Utils.Topo

variable {H : Type}

/-! ### Specification -/

/-- `s` is the elevation of the surface of a column: the top of an active cell, above all others. -/
def Surface (M : Mesh H) (act : Nat → Bool) (s : ℝ) : Prop :=
  (∃ j < M.nz, act j = true ∧ M.z (j + 1) = s) ∧ ∀ j < M.nz, act j = true → M.z (j + 1) ≤ s

/-- Vertical nodes increase. -/
def Increasing (M : Mesh H) : Prop := ∀ j < M.nz, M.z j < M.z (j + 1)

theorem inc_le (M : Mesh H) (h : Increasing M) : ∀ i j, i ≤ j → j ≤ M.nz → M.z i ≤ M.z j := by
  intro i j hij
  induction j with
  | zero => intro _; have : i = 0 := by omega
            rw [this]
  | succ j ih =>
    intro hj
    rcases Nat.lt_or_ge i (j + 1) with h1 | h1
    · have := ih (by omega) (by omega)
      have := h j (by omega)
      linarith
    · have : i = j + 1 := by omega
      rw [this]

theorem highest_spec (b : ℝ × ℝ) (l : List (ℝ × ℝ)) :
    (highest b l = b ∨ highest b l ∈ l) ∧ b.1 ≤ (highest b l).1 ∧
      ∀ x ∈ l, x.1 ≤ (highest b l).1 := by
  induction l generalizing b with
  | nil => simp [highest]
  | cons y l ih =>
    obtain ⟨h1, h2, h3⟩ := ih (if b.1 < y.1 then y else b)
    simp only [highest]
    by_cases hb : b.1 < y.1
    · rw [if_pos hb] at h1 h2 h3 ⊢
      refine ⟨?_, by linarith, ?_⟩
      · rcases h1 with h | h
        · right; rw [h]; exact List.mem_cons_self
        · right; exact List.mem_cons_of_mem _ h
      · intro x hx
        rcases List.mem_cons.1 hx with rfl | hx
        · exact h2
        · exact h3 x hx
    · rw [if_neg hb] at h1 h2 h3 ⊢
      refine ⟨?_, h2, ?_⟩
      · rcases h1 with h | h
        · left; exact h
        · right; exact List.mem_cons_of_mem _ h
      · intro x hx
        rcases List.mem_cons.1 hx with rfl | hx
        · push Not at hb; linarith
        · exact h3 x hx

/-- The highest active cell of a column. -/
theorem topoCol_spec (M : Mesh H) (hM : Increasing M) (cut : Cutoff) (act : Nat → Bool)
    (ha : ∃ j < M.nz, act j = true) :
    ∃ j < M.nz, act j = true ∧ (∀ k < M.nz, act k = true → k ≤ j) ∧
      topoCol M cut act = .ok (match cut with | .top => M.z (j + 1) | .center => M.zc j) := by
  have hmem : ∀ y, y ∈ activeCells M act ↔ ∃ j < M.nz, act j = true ∧ (M.zc j, M.h j) = y := by
    intro y
    simp only [activeCells, List.mem_map, List.mem_filter, List.mem_range]
    constructor
    · rintro ⟨j, ⟨h1, h2⟩, h3⟩; exact ⟨j, h1, h2, h3⟩
    · rintro ⟨j, h1, h2, h3⟩; exact ⟨j, ⟨h1, h2⟩, h3⟩
  unfold topoCol
  cases hl : activeCells M act with
  | nil =>
    obtain ⟨j, hj, hj'⟩ := ha
    have := (hmem (M.zc j, M.h j)).2 ⟨j, hj, hj', rfl⟩
    rw [hl] at this
    cases this
  | cons x l =>
    obtain ⟨h1, h2, h3⟩ := highest_spec x l
    have hin : highest x l ∈ activeCells M act := by
      rw [hl]
      rcases h1 with h | h
      · rw [h]; exact List.mem_cons_self
      · exact List.mem_cons_of_mem _ h
    obtain ⟨j, hj, hja, hje⟩ := (hmem _).1 hin
    refine ⟨j, hj, hja, ?_, ?_⟩
    · intro k hk hka
      have hk' := (hmem (M.zc k, M.h k)).2 ⟨k, hk, hka, rfl⟩
      rw [hl] at hk'
      have hle : M.zc k ≤ M.zc j := by
        have e : M.zc j = (highest x l).1 := by rw [← hje]
        rw [e]
        rcases List.mem_cons.1 hk' with h | h
        · have e2 : M.zc k = x.1 := by rw [← h]
          rw [e2]; exact h2
        · exact h3 _ h
      by_contra hc
      push Not at hc
      have a1 := inc_le M hM (j + 1) k (by omega) (by omega)
      have a2 := hM j hj
      have a3 := hM k hk
      unfold Mesh.zc at hle
      linarith
    · simp only [← hje]
      cases cut with
      | top => simp only [Mesh.zc, Mesh.h]; congr 1; ring
      | center => simp

/-- **C116 (topography).** The discrete topography of a column with active cells is its surface, the top
of the highest active cell, or with `center` the centre of that cell. -/
theorem C116_topography (M : Mesh H) (hM : Increasing M) (act : Nat → Bool)
    (ha : ∃ j < M.nz, act j = true) :
    (∃ s, topoCol M .top act = .ok s ∧ Surface M act s) ∧
    ∃ j < M.nz, act j = true ∧ Surface M act (M.z (j + 1)) ∧
      topoCol M .center act = .ok ((M.z j + M.z (j + 1)) / 2) := by
  have hsurf : ∀ j < M.nz, act j = true → (∀ k < M.nz, act k = true → k ≤ j) →
      Surface M act (M.z (j + 1)) := fun j h1 h2 h3 =>
    ⟨⟨j, h1, h2, rfl⟩, fun k hk hka => inc_le M hM _ _ (by have := h3 k hk hka; omega) (by omega)⟩
  constructor
  · obtain ⟨j, h1, h2, h3, h4⟩ := topoCol_spec M hM .top act ha
    exact ⟨_, h4, hsurf j h1 h2 h3⟩
  · obtain ⟨j, h1, h2, h3, h4⟩ := topoCol_spec M hM .center act ha
    exact ⟨j, h1, h2, hsurf j h1 h2 h3, h4⟩

/-- **C116 (topography).** One elevation for every column, if every column has active cells; a column
without active cells raises. -/
theorem C116_columns (M : Mesh H) (hM : Increasing M) (act : Nat → Nat → Bool) :
    ((∀ i < M.n, ∃ j < M.nz, act i j = true) → ∃ t, topography M .top act = .ok t ∧ t.length = M.n ∧
      ∀ i < M.n, Surface M (act i) (t.getD i 0)) ∧
    ∀ i < M.n, (∀ j < M.nz, act i j = false) → ∀ cut, ∃ e, topography M cut act = .error e := by
  constructor
  · intro ha
    have key : ∀ n ≤ M.n, ∃ t, (List.range n).mapM (fun i => topoCol M .top (act i)) = .ok t ∧
        t.length = n ∧ ∀ i < n, Surface M (act i) (t.getD i 0) := by
      intro n
      induction n with
      | zero => intro _; exact ⟨[], rfl, rfl, by simp⟩
      | succ n ih =>
        intro hn
        obtain ⟨t, h1, h2, h3⟩ := ih (by omega)
        obtain ⟨⟨s, hs, hS⟩, -⟩ := C116_topography M hM (act n) (ha n (by omega))
        refine ⟨t ++ [s], ?_, by simp [h2], ?_⟩
        · rw [List.range_succ, List.mapM_append, h1]
          simp only [List.mapM_cons, List.mapM_nil, hs]
          rfl
        · intro i hi
          rcases Nat.lt_succ_iff_lt_or_eq.1 hi with h | rfl
          · have := h3 i h
            rw [List.getD_eq_getElem?_getD, List.getElem?_append_left (by omega),
              ← List.getD_eq_getElem?_getD]
            exact this
          · rw [List.getD_eq_getElem?_getD, List.getElem?_append_right (by omega), h2]
            simpa using hS
    exact key M.n (le_refl _)
  · intro i hi ha cut
    have hcol : topoCol M cut (act i) = .error .valueError := by
      unfold topoCol
      have : activeCells M (act i) = [] := by
        simp only [activeCells, List.map_eq_nil_iff, List.filter_eq_nil_iff, List.mem_range]
        intro j hj
        simp [ha j hj]
      rw [this]
    have : ∀ l : List Nat, i ∈ l → ∃ e, l.mapM (fun i => topoCol M cut (act i)) = .error e := by
      intro l
      induction l with
      | nil => intro h; cases h
      | cons k l ih =>
        intro h
        rw [List.mapM_cons]
        cases hk : topoCol M cut (act k) with
        | error e => exact ⟨e, rfl⟩
        | ok v =>
          rcases List.mem_cons.1 h with rfl | h
          · rw [hcol] at hk; cases hk
          · obtain ⟨e, he⟩ := ih h
            exact ⟨e, by rw [he]; rfl⟩
    exact this _ (List.mem_range.2 hi)

/-- Equal spacing along one axis: the nearest centre is that of the cell around the point. -/
theorem axis_near (n : Nat) (x0 h : ℝ) (hh : 0 < h) (p : ℝ) (i k : Nat) (hk : k < n)
    (hp : x0 + k * h < p ∧ p < x0 + (k + 1) * h)
    (hi : (p - (x0 + (i + 1 / 2) * h)) ^ 2 ≤ (p - (x0 + (k + 1 / 2) * h)) ^ 2) : i = k := by
  have h1 : |p - (x0 + (i + 1 / 2) * h)| ≤ |p - (x0 + (k + 1 / 2) * h)| := sq_le_sq.1 hi
  have h2 : |p - (x0 + (k + 1 / 2) * h)| < h / 2 := by
    rw [abs_lt]; constructor <;> nlinarith [hp.1, hp.2]
  have h3 := abs_lt.1 (lt_of_le_of_lt h1 h2)
  by_contra hne
  rcases Nat.lt_or_gt_of_ne hne with hlt | hlt
  · have : (i : ℝ) + 1 ≤ k := by exact_mod_cast hlt
    nlinarith [h3.1, h3.2, hp.1, hp.2]
  · have : (k : ℝ) + 1 ≤ i := by exact_mod_cast hlt
    nlinarith [h3.1, h3.2, hp.1, hp.2]

/-- **C116, part (two-dimensional meshes).** On meshes with equal horizontal widths, a point inside a
column of cells is put on the surface of that column, at the given height; its horizontal position is kept
or becomes that of the column.  Missing: other widths, see `C116_violated_widths`. -/
theorem C116_shift2_partial (n nz : Nat) (z : Nat → ℝ) (x0 h : ℝ) (hh : 0 < h)
    (act : Nat → Nat → Bool) (near col : ℝ → Nat) (topo : List ℝ) (elev hor : Bool) (height p : ℝ)
    (hM : Increasing (mesh2 n (fun i => x0 + i * h) nz z))
    (hact : ∀ i < n, ∃ j < nz, act i j = true)
    (ht : topography (mesh2 n (fun i => x0 + i * h) nz z) .top act = .ok topo)
    (hnear : Nearest (mesh2 n (fun i => x0 + i * h) nz z) d1 near) (k : Nat) (hk : k < n)
    (hp : x0 + k * h < p ∧ p < x0 + (k + 1) * h) (hcol : col p = k) :
    ∃ s, Surface (mesh2 n (fun i => x0 + i * h) nz z) (act k) s ∧
      shift (mesh2 n (fun i => x0 + i * h) nz z) topo near col elev hor height p =
        (if hor then x0 + (k + 1 / 2) * h else p, s + height) := by
  have hc : ∀ i : Nat, (mesh2 n (fun i => x0 + i * h) nz z).c i = x0 + (i + 1 / 2) * h := by
    intro i; simp only [mesh2]; push_cast; ring
  have hn : near p = k := by
    obtain ⟨_, h2⟩ := hnear p
    have := h2 k hk
    rw [hc, hc] at this
    exact axis_near n x0 h hh p _ k hk hp this
  obtain ⟨t, h1, h2, h3⟩ := (C116_columns _ hM act).1 hact
  rw [ht] at h1
  cases h1
  refine ⟨_, h3 k hk, ?_⟩
  simp only [shift, hn, hcol, hc, ite_self]

/-- **C116, part (three-dimensional meshes).** The same with equal widths along each of the horizontal
axes. -/
theorem C116_shift3_partial (nx ny nz : Nat) (z : Nat → ℝ) (x0 hx y0 hy : ℝ) (hhx : 0 < hx) (hhy : 0 < hy)
    (act : Nat → Nat → Bool) (near col : ℝ × ℝ → Nat) (topo : List ℝ) (elev hor : Bool) (height : ℝ)
    (p : ℝ × ℝ)
    (hM : Increasing (mesh3 nx ny (fun i => x0 + i * hx) (fun i => y0 + i * hy) nz z))
    (hact : ∀ i < nx * ny, ∃ j < nz, act i j = true)
    (ht : topography (mesh3 nx ny (fun i => x0 + i * hx) (fun i => y0 + i * hy) nz z) .top act = .ok topo)
    (hnear : Nearest (mesh3 nx ny (fun i => x0 + i * hx) (fun i => y0 + i * hy) nz z) d2 near)
    (i j : Nat) (hi : i < nx) (hj : j < ny)
    (hpx : x0 + i * hx < p.1 ∧ p.1 < x0 + (i + 1) * hx)
    (hpy : y0 + j * hy < p.2 ∧ p.2 < y0 + (j + 1) * hy) (hcol : col p = i + nx * j) :
    ∃ s, Surface (mesh3 nx ny (fun i => x0 + i * hx) (fun i => y0 + i * hy) nz z) (act (i + nx * j)) s ∧
      shift (mesh3 nx ny (fun i => x0 + i * hx) (fun i => y0 + i * hy) nz z) topo near col elev hor height
        p = (if hor then (x0 + (i + 1 / 2) * hx, y0 + (j + 1 / 2) * hy) else p, s + height) := by
  have hc : ∀ k : Nat, (mesh3 nx ny (fun i => x0 + i * hx) (fun i => y0 + i * hy) nz z).c k =
      (x0 + ((k % nx : Nat) + 1 / 2) * hx, y0 + ((k / nx : Nat) + 1 / 2) * hy) := by
    intro k; simp only [mesh3]; push_cast; ext <;> simp <;> ring
  have hidx : ∀ a b, a < nx → (a + nx * b) % nx = a ∧ (a + nx * b) / nx = b := by
    intro a b ha
    constructor
    · rw [Nat.add_mul_mod_self_left, Nat.mod_eq_of_lt ha]
    · rw [Nat.add_mul_div_left _ _ (by omega), Nat.div_eq_of_lt ha, Nat.zero_add]
  have hlt : ∀ a b, a < nx → b < ny → a + nx * b < nx * ny := by
    intro a b ha hb
    calc a + nx * b < nx + nx * b := by omega
      _ = nx * (b + 1) := by ring
      _ ≤ nx * ny := Nat.mul_le_mul_left _ hb
  have hn : near p = i + nx * j := by
    obtain ⟨h1, h2⟩ := hnear p
    have hnx : 0 < nx := by omega
    set q := near p with hq
    have hq1 : q % nx < nx := Nat.mod_lt _ hnx
    have hq2 : q / nx < ny := Nat.div_lt_of_lt_mul h1
    have e1 := h2 (i + nx * (q / nx)) (hlt _ _ hi hq2)
    have e2 := h2 (q % nx + nx * j) (hlt _ _ hq1 hj)
    simp only [hc, d2, (hidx _ _ hi).1, (hidx _ _ hi).2, (hidx _ _ hq1).1, (hidx _ _ hq1).2] at e1 e2
    have a1 := axis_near nx x0 hx hhx p.1 (q % nx) i hi hpx (by linarith)
    have a2 := axis_near ny y0 hy hhy p.2 (q / nx) j hj hpy (by linarith)
    rw [← a1, ← a2]
    exact (Nat.mod_add_div q nx).symm
  obtain ⟨t, h1, h2, h3⟩ := (C116_columns _ hM act).1 hact
  rw [ht] at h1
  cases h1
  refine ⟨_, h3 _ (hlt _ _ hi hj), ?_⟩
  simp only [shift, hn, hcol, hc, ite_self, (hidx _ _ hi).1, (hidx _ _ hi).2]

/-- **C116.** Draping again changes nothing, if points are moved to the centres of columns and the
columns have different centres, on any mesh. -/
theorem C116_again (M : Mesh H) (d : H → H → ℝ) (h0 : ∀ p q, d p q ≤ 0 ↔ p = q) (near col : H → Nat)
    (hnear : Nearest M d near) (hinj : ∀ i < M.n, ∀ j < M.n, M.c i = M.c j → i = j) (topo : List ℝ)
    (p : H) :
    shift M topo near col false true 0 (shift M topo near col false true 0 p).1 =
      shift M topo near col false true 0 p := by
  have h1 : near (M.c (near p)) = near p := by
    obtain ⟨ha, hb⟩ := hnear (M.c (near p))
    have hc := hb (near p) (hnear p).1
    have h00 : d (M.c (near p)) (M.c (near p)) ≤ 0 := (h0 _ _).2 rfl
    have := (h0 _ _).1 (le_trans hc h00)
    exact (hinj _ ha _ (hnear p).1 this.symm)
  simp [shift, h1]

/-- A mesh of two columns of width one and nine; cells between 0, 1 and 2; the second column has both
cells. -/
def exMesh : Mesh ℝ := mesh2 2 (fun i => if i = 0 then 0 else if i = 1 then 1 else 10) 2 (fun j => j)

def exAct (i j : Nat) : Bool := decide (j = 0 ∨ i = 1)

theorem exTopo : topography exMesh .top exAct = .ok [1, 2] := by
  have h0 : topoCol exMesh .top (exAct 0) = .ok 1 := by
    simp [topoCol, activeCells, exMesh, mesh2, exAct, List.range_succ, highest, Mesh.zc, Mesh.h]
    norm_num
  have h1 : topoCol exMesh .top (exAct 1) = .ok 2 := by
    simp [topoCol, activeCells, exMesh, mesh2, exAct, List.range_succ, highest, Mesh.zc, Mesh.h]
    norm_num
  have hn : exMesh.n = 2 := rfl
  unfold topography
  rw [hn, List.range_succ, List.range_succ, List.range_zero]
  simp only [List.nil_append, List.cons_append, List.mapM_cons, List.mapM_nil, h0, h1]
  rfl

/-- **C116, violated for other widths.** A point inside the wide column is nearer to the centre of the
narrow one: it is put below the surface of its column, and with elevations and horizontal shifts it gets
the position of one column with the elevation of the other. -/
theorem C116_violated_widths : ∃ (M : Mesh ℝ) (act : Nat → Nat → Bool) (topo : List ℝ) (p : ℝ),
    Increasing M ∧ (∀ i < M.n, ∃ j < M.nz, act i j = true) ∧ topography M .top act = .ok topo ∧
    (1 < p ∧ p < 10) ∧ Surface M (act 1) 2 ∧ Surface M (act 0) 1 ∧
    ∀ near col, Nearest M d1 near → col p = 1 →
      shift M topo near col true false 0 p = (p, 1) ∧
      shift M topo near col true true 0 p = (M.c 1, 1) ∧ M.c 1 = 11 / 2 := by
  refine ⟨exMesh, exAct, [1, 2], 2, ?_, ?_, exTopo, by norm_num, ?_, ?_, ?_⟩
  · intro j hj
    simp [exMesh, mesh2]
  · intro i _
    exact ⟨0, by simp [exMesh, mesh2], by simp [exAct]⟩
  · refine ⟨⟨1, by simp [exMesh, mesh2], by simp [exAct], by simp [exMesh, mesh2]⟩, ?_⟩
    intro j hj _
    have : j < 2 := hj
    interval_cases j <;> simp [exMesh, mesh2]
  · refine ⟨⟨0, by simp [exMesh, mesh2], by simp [exAct], by simp [exMesh, mesh2]⟩, ?_⟩
    intro j hj h
    have : j < 2 := hj
    interval_cases j <;> simp_all [exMesh, mesh2, exAct]
  · intro near col hnear hcol
    have hn : near 2 = 0 := by
      obtain ⟨h1, h2⟩ := hnear 2
      have h3 : near 2 < 2 := h1
      have h4 := h2 0 (by simp [exMesh, mesh2])
      by_contra hne
      have h5 : near 2 = 1 := by omega
      rw [h5] at h4
      simp only [d1, exMesh, mesh2] at h4
      norm_num at h4
    simp only [shift, hn, hcol]
    refine ⟨by simp, by simp, ?_⟩
    simp [exMesh, mesh2]
    norm_num

/-- Non-vacuity of the parts: two equal columns, the point at 1/2 in the first. -/
example : Increasing (mesh2 2 (fun i => 0 + i * 1) 2 (fun j => j)) ∧ ((0:ℝ) + (0:ℕ) * 1 < 1 / 2 ∧
    (1 / 2 : ℝ) < 0 + ((0:ℕ) + 1) * 1) ∧
    Nearest (mesh2 2 (fun i => 0 + (i : ℝ) * 1) 2 (fun j => j)) d1 (fun p => if p < 1 then 0 else 1) := by
  refine ⟨fun j _ => by simp [mesh2], by norm_num, ?_⟩
  intro p
  by_cases hp : p < 1
  · simp only [hp, if_true]
    refine ⟨by simp [mesh2], fun i hi => ?_⟩
    have : i < 2 := hi
    interval_cases i <;> simp [d1, mesh2]
    nlinarith
  · simp only [hp, if_false]
    refine ⟨by simp [mesh2], fun i hi => ?_⟩
    have : i < 2 := hi
    push Not at hp
    interval_cases i <;> simp [d1, mesh2]
    nlinarith

end Verif.Utils.Topo.Props
