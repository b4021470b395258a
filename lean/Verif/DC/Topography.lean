import Verif.Basic
import Verif.DC.Locations
import Mathlib.Algebra.BigOperators.Fin
import Mathlib.Algebra.Order.BigOperators.Group.Finset
import Mathlib.Data.Real.Basic
import Mathlib.Tactic.Linarith
import Mathlib.Tactic.NormNum
import Mathlib.Tactic.Ring

/-!
C187: the surface of the active cells, locations draped on it, and surveys of parallel lines
(`simpeg/electromagnetics/static/utils/static_utils.py` 1526-1904: `gettopoCC`, `drapeTopotoLoc`, `closestPointsGrid`,
`gen_3d_survey_from_2d_lines`).

A tensor mesh has `ncol` columns and `nz` layers; the widths of the layers are given from below. The faces of the
active cells of a tree mesh without an active cell above them (`get_boundary_cells`) and the nearest columns are
parameters.
-/

noncomputable section
namespace Verif.DC.Topography
open Verif

/-! ### The surface -/

/-- A tensor mesh by its columns: the elevation of the bottom and the widths of the layers. -/
structure Mesh where
  ncol : ℕ
  nz : ℕ
  z0 : ℝ
  h : Fin nz → ℝ

/-- Elevation of the lower face of layer `k` (of the upper face of the last one for `k = nz`). -/
def Mesh.node (M : Mesh) (k : ℕ) : ℝ := M.z0 + ∑ j : Fin M.nz, if (j : ℕ) < k then M.h j else 0

/-- Elevation of the cell centres of layer `k`. -/
def Mesh.zc (M : Mesh) (k : Fin M.nz) : ℝ := (M.node k + M.node (k + 1)) / 2

/-- `ind_active.reshape((ncol, nz), order="F")[i, k]` (1563-1565, 1583): the columns run fastest. -/
def Mesh.act (M : Mesh) (active : ℕ → Bool) (i k : ℕ) : Bool := active (i + M.ncol * k)

/-- The layers selected by `ACTIND[i, :]`, in order. -/
def Mesh.layers (M : Mesh) (active : ℕ → Bool) (i : ℕ) : List (Fin M.nz) :=
  (List.finRange M.nz).filter fun k => M.act active i k

/-- `np.argmax` of a list of values: the place of the first largest one, an error if there is none. -/
def argmax : List ℝ → Except Err ℕ
  | [] => .error .valueError
  | x :: l => .ok (l.foldl (fun (s : (ℕ × ℝ) × ℕ) y => if s.1.2 < y then ((s.2, y), s.2 + 1) else (s.1, s.2 + 1))
      ((0, x), 1)).1.1

/-- The option. -/
inductive Opt
  | top | center | other
  deriving DecidableEq

/-- The body of the loop over the columns (1569-1577, 1586-1594). -/
def Mesh.column (M : Mesh) (active : ℕ → Bool) (opt : Opt) (i : ℕ) : Except Err ℝ :=
  let ks := M.layers active i
  match argmax (ks.map M.zc) with
  | .error e => .error e
  | .ok ind =>
    match ks[ind]? with
    | none => .error .indexError
    | some k => match opt with
      | .top => .ok (M.zc k + M.h k * 0.5)
      | .center => .ok (M.zc k + 0)
      | .other => .error .exception

/-- `gettopoCC` of a tensor mesh (1559-1596): an error in any column is an error. -/
def gettopo (M : Mesh) (active : ℕ → Bool) (opt : Opt) : Except Err (List ℝ) :=
  (List.range M.ncol).mapM (M.column active opt)

/-- A cell of a tree mesh: horizontal location of its centre, elevation of its centre and height. -/
structure Leaf (P : Type) where
  xy : P
  zc : ℝ
  h : ℝ

/-- `gettopoCC` of a tree mesh (1598-1605): `surface` are the active cells found by
`get_boundary_cells(ind_active, direction="zu")[0]`. Without a known option `dz` is not defined. -/
def gettopoTree {P : Type} (surface : List (Leaf P)) (opt : Opt) : Except Err (List (P × ℝ)) :=
  match opt with
  | .top => .ok (surface.map fun c => (c.xy, c.zc + c.h * 0.5))
  | .center => .ok (surface.map fun c => (c.xy, c.zc + 0))
  | .other => .error .exception

/-! ### Draping -/

/-- `np.abs(pt - grid).argmin()` (1786-1789): the place of the first smallest value. -/
def argmin (f : ℕ → ℝ) : ℕ → ℕ
  | 0 => 0
  | n + 1 => if f n < f (argmin f n) ∧ n ≠ 0 then n else argmin f n

/-- `closestPointsGrid(grid, [pt], dim=1)`. -/
def closest1 (grid : List ℝ) (pt : ℝ) : ℕ := argmin (fun i => |pt - grid.getD i 0|) grid.length

/-- `drapeTopotoLoc` for a tensor mesh (1678-1690): the points with the elevation of the column that
`closest_points_index` gives. -/
def drapeTensor {P : Type} (near : P → ℕ) (topo : List ℝ) (pts : List P) : List (P × Option ℝ) :=
  pts.map fun x => (x, topo[near x]?)

/-- `drapeTopotoLoc` for a tree mesh (1692-1716): location and elevation of the nearest cell of the surface. -/
def drapeTree {P : Type} (near : P → ℕ) (surface : List (P × ℝ)) (pts : List P) : List (Option (P × ℝ)) :=
  pts.map fun x => surface[near x]?

/-- The checks of the points (1654-1671), by the dimension of the mesh and the shape of the points; the number of
coordinates that are kept. A list of points in three dimensions without columns has no `pts.shape[1]`. -/
def checkPts (meshDim : ℕ) (shape : List ℕ) : Except Err ℕ :=
  if meshDim = 2 then
    match shape with
    | [_, c] => if c = 1 ∨ c = 2 then .ok 1 else .error .valueError
    | [_] => .ok 1
    | [] => .ok 1
    | _ => .error .valueError
  else if meshDim = 3 then
    match shape with
    | _ :: c :: _ => if c = 2 ∨ c = 3 then .ok 2 else .error .valueError
    | _ => .error .indexError
  else .error .valueError

/-! ### Parallel lines -/

/-- A location. -/
structure Pt where
  x : ℝ
  y : ℝ
  z : ℝ

/-- A reading: electrodes A, B, M and N. -/
structure Reading where
  a : Pt
  b : Pt
  m : Pt
  n : Pt

/-- `survey_3d.locations_a[:, 1] += src_offset_y` and the same for B (1891-1892): the arrays are those that the survey
keeps (`simpeg/electromagnetics/static/resistivity/survey.py` 77-104). -/
def shifted (off : ℝ) (r : Reading) : Reading :=
  { r with a := { r.a with y := r.a.y + off }, b := { r.b with y := r.b.y + off } }

/-- The end points of a line (1863-1868): its elevations are zero, `z0` is not used. -/
def endl (x0 len y : ℝ) (_z0 : ℝ) : Pt × Pt := (⟨x0, y, 0⟩, ⟨x0 + len, y, 0⟩)

/-- The readings of all lines before they are sorted by source, with the numbers of their lines (1855-1894); `line` are
the readings of `generate_dcip_survey` between two end points. -/
def lines (line : Pt × Pt → List Reading) (nLines : ℕ) (len spacing x0 y0 z0 off : ℝ) : List (Reading × ℕ) :=
  (List.range nLines).flatMap fun i : ℕ =>
    (line (endl x0 len ((i : ℝ) * spacing + y0) z0)).map fun r => (shifted off r, i)

/-- What `from_abmn_locations_to_survey` keeps, by the places `inds` of the readings sorted by source: the readings and
`line_inds[self.sort_inds]` (1895-1903; `resistivity/IODC.py` 810-830). -/
def sorted (inds : List ℕ) (l : List (Reading × ℕ)) : List Reading × List ℕ :=
  (Locations.take (l.map Prod.fst) inds, Locations.take (l.map Prod.snd) inds)

/-- The survey types that `from_abmn_locations_to_survey` knows (`resistivity/IODC.py` 789-794). -/
def knownType (t : String) : Except Err Unit :=
  if t = "dipole-dipole" ∨ t = "pole-dipole" ∨ t = "dipole-pole" ∨ t = "pole-pole" then .ok ()
  else .error .exception

namespace Props

theorem node_succ (M : Mesh) (k : Fin M.nz) : M.node (k + 1) = M.node k + M.h k := by
  unfold Mesh.node
  rw [add_assoc]
  congr 1
  have : ∀ j : Fin M.nz, (if (j : ℕ) < (k : ℕ) + 1 then M.h j else 0) =
      (if (j : ℕ) < k then M.h j else 0) + if j = k then M.h j else 0 := by
    intro j
    by_cases h1 : j = k
    · subst h1; simp
    · have h2 : (j : ℕ) ≠ k := fun h => h1 (Fin.ext h)
      by_cases h3 : (j : ℕ) < k
      · rw [if_pos (by omega), if_pos h3, if_neg h1, add_zero]
      · rw [if_neg (by omega), if_neg h3, if_neg h1, add_zero]
  rw [Finset.sum_congr rfl fun j _ => this j, Finset.sum_add_distrib]
  simp

theorem node_mono (M : Mesh) (hh : ∀ k, 0 < M.h k) {a b : ℕ} (h : a ≤ b) : M.node a ≤ M.node b := by
  unfold Mesh.node
  have := Finset.sum_le_sum (s := (Finset.univ : Finset (Fin M.nz)))
    (f := fun j : Fin M.nz => if (j : ℕ) < a then M.h j else 0)
    (g := fun j : Fin M.nz => if (j : ℕ) < b then M.h j else 0) fun j _ => by
      split_ifs with h1 h2 h2
      · exact le_rfl
      · omega
      · exact (hh j).le
      · exact le_rfl
  linarith

theorem zc_lt (M : Mesh) (hh : ∀ k, 0 < M.h k) {a b : Fin M.nz} (h : (a : ℕ) < b) : M.zc a < M.zc b := by
  unfold Mesh.zc
  have h1 := node_succ M a
  have h2 := node_succ M b
  have h3 := node_mono M hh (show (a : ℕ) + 1 ≤ b by omega)
  have h4 := hh a
  have h5 := hh b
  linarith

theorem argmax_spec (l : List ℝ) : ∀ (x : ℝ) (p : ℕ), argmax (x :: l) = .ok p →
    ∃ y, (x :: l)[p]? = some y ∧ ∀ z ∈ x :: l, z ≤ y := by
  have key : ∀ (l pre : List ℝ) (b : ℕ) (v : ℝ), pre[b]? = some v → (∀ z ∈ pre, z ≤ v) →
      ∃ y, (pre ++ l)[(l.foldl (fun (s : (ℕ × ℝ) × ℕ) y =>
        if s.1.2 < y then ((s.2, y), s.2 + 1) else (s.1, s.2 + 1)) ((b, v), pre.length)).1.1]? = some y ∧
        ∀ z ∈ pre ++ l, z ≤ y := by
    intro l
    induction l with
    | nil => intro pre b v h1 h2; exact ⟨v, by simpa using h1, by simpa using h2⟩
    | cons y l ih =>
      intro pre b v h1 h2
      simp only [List.foldl_cons]
      have e : pre ++ y :: l = (pre ++ [y]) ++ l := by simp
      rw [e]
      have hl : (pre ++ [y]).length = pre.length + 1 := by simp
      split_ifs with hlt
      · have := ih (pre ++ [y]) pre.length y (by simp) (by
          intro z hz
          rcases List.mem_append.mp hz with h | h
          · exact (h2 z h).trans hlt.le
          · simp at h; exact h.le)
        rw [hl] at this
        exact this
      · have hb : b < pre.length := by
          by_contra hc
          rw [List.getElem?_eq_none (by omega)] at h1
          cases h1
        have := ih (pre ++ [y]) b v (by rw [List.getElem?_append_left hb]; exact h1) (by
          intro z hz
          rcases List.mem_append.mp hz with h | h
          · exact h2 z h
          · simp at h; rw [h]; exact not_lt.mp hlt)
        rw [hl] at this
        exact this
  intro x p hp
  have := key l [x] 0 x rfl (by simp)
  simp only [argmax, Except.ok.injEq] at hp
  rw [← hp]
  exact this

/-- **C187, surface**: in a column with an active cell the surface is the upper face, or the centre, of the highest
active cell, whatever the other cells are. -/
theorem C187_surface (M : Mesh) (hh : ∀ k, 0 < M.h k) (active : ℕ → Bool) (i : ℕ) (K : Fin M.nz)
    (hK : active (i + M.ncol * K) = true) (hmax : ∀ k : Fin M.nz, active (i + M.ncol * k) = true → k ≤ K) :
    M.column active .top i = .ok (M.node (K + 1)) ∧
      M.column active .center i = .ok ((M.node K + M.node (K + 1)) / 2) ∧
      M.column active .other i = .error .exception := by
  have hmem : ∀ k, k ∈ M.layers active i ↔ active (i + M.ncol * k) = true := by
    intro k; simp [Mesh.layers, Mesh.act]
  have hne : (M.layers active i).map M.zc ≠ [] := by
    intro h
    have := (hmem K).mpr hK
    rw [List.map_eq_nil_iff] at h
    rw [h] at this
    exact absurd this (by simp)
  obtain ⟨x, l, hxl⟩ := List.exists_cons_of_ne_nil hne
  obtain ⟨p, hp⟩ : ∃ p, argmax ((M.layers active i).map M.zc) = .ok p := by rw [hxl]; simp [argmax]
  obtain ⟨y, hy, hle⟩ := argmax_spec l x p (by rw [← hxl]; exact hp)
  rw [← hxl] at hy hle
  rw [List.getElem?_map] at hy
  obtain ⟨k, hk, rfl⟩ := Option.map_eq_some_iff.mp hy
  have hkm : k ∈ M.layers active i := List.mem_of_getElem? hk
  have hkK : k = K := by
    have h1 := hmax k ((hmem k).mp hkm)
    rcases lt_or_eq_of_le h1 with h2 | h2
    · have h3 := zc_lt M hh h2
      have h4 := hle (M.zc K) (List.mem_map.mpr ⟨K, (hmem K).mpr hK, rfl⟩)
      linarith
    · exact h2
  subst hkK
  have hz : M.zc k + M.h k * 0.5 = M.node (k + 1) := by
    unfold Mesh.zc
    rw [node_succ]
    ring
  unfold Mesh.column
  simp only [hp, hk]
  exact ⟨by rw [hz], by rw [add_zero]; rfl, trivial⟩

/-- Non-vacuity: two layers, the lower one active. -/
example : (⟨1, 2, 0, ![1, 2]⟩ : Mesh).column (fun i => i == 0) .top 0 = .ok 1 := by
  have := (C187_surface ⟨1, 2, 0, ![1, 2]⟩ (by intro k; fin_cases k <;> simp) (fun i => i == 0) 0 0 (by simp)
    (by intro k hk; simpa using hk)).1
  rw [this]
  simp [Mesh.node, Fin.sum_univ_two]

/-- **C187, violated (columns without active cells)**: one column without an active cell is a ValueError for the whole
mesh, unless an earlier column failed. -/
theorem C187_violated_empty (M : Mesh) (active : ℕ → Bool) (opt : Opt) (i : ℕ) (hi : i < M.ncol)
    (h : ∀ k < M.nz, active (i + M.ncol * k) = false) : ∃ e, gettopo M active opt = .error e ∧
      M.column active opt i = .error .valueError := by
  have hl : M.layers active i = [] := by
    unfold Mesh.layers Mesh.act
    rw [List.filter_eq_nil_iff]
    intro k _
    rw [h k k.2]
    simp
  have hc : M.column active opt i = .error .valueError := by
    unfold Mesh.column
    simp only [hl]
    rfl
  have key : ∀ l : List ℕ, i ∈ l → ∃ e, l.mapM (M.column active opt) = .error e := by
    intro l
    induction l with
    | nil => intro h; cases h
    | cons j l ih =>
      intro hm
      rw [List.mapM_cons]
      rcases hj : M.column active opt j with e | v
      · exact ⟨e, rfl⟩
      · rcases List.mem_cons.mp hm with rfl | hm
        · rw [hc] at hj; cases hj
        · obtain ⟨e, he⟩ := ih hm
          exact ⟨e, by rw [he]; rfl⟩
  obtain ⟨e, he⟩ := key (List.range M.ncol) (List.mem_range.mpr hi)
  exact ⟨e, he, hc⟩

/-- **C187, all columns**: if every column has an active cell, the surface has one value per column, in the order of the
columns. -/
theorem C187_columns (M : Mesh) (active : ℕ → Bool) (opt : Opt) (v : ℕ → ℝ)
    (h : ∀ i < M.ncol, M.column active opt i = .ok (v i)) :
    gettopo M active opt = .ok ((List.range M.ncol).map v) := by
  have key : ∀ l : List ℕ, (∀ i ∈ l, i < M.ncol) → l.mapM (M.column active opt) = .ok (l.map v) := by
    intro l
    induction l with
    | nil => intro _; rfl
    | cons j l ih =>
      intro hm
      rw [List.mapM_cons, h j (hm j (by simp)), ih fun i hi => hm i (by simp [hi])]
      rfl
  exact key _ fun i hi => List.mem_range.mp hi

/-- **C187, tree meshes**: the upper faces, or the centres, of the cells at the surface; another option is an error. -/
theorem C187_tree {P : Type} (surface : List (Leaf P)) :
    gettopoTree surface .top = .ok (surface.map fun c => (c.xy, c.zc + c.h / 2)) ∧
      gettopoTree surface .center = .ok (surface.map fun c => (c.xy, c.zc)) ∧
      gettopoTree surface .other = .error .exception := by
  refine ⟨?_, ?_, rfl⟩
  · have : (fun c : Leaf P => (c.xy, c.zc + c.h * 0.5)) = fun c => (c.xy, c.zc + c.h / 2) := by
      funext c
      congr 1
      ring
    simp only [gettopoTree, this]
  · simp [gettopoTree]

/-! ### Draping -/

theorem argmin_spec (f : ℕ → ℝ) (n : ℕ) (hn : 0 < n) :
    argmin f n < n ∧ (∀ i < n, f (argmin f n) ≤ f i) ∧ ∀ i < argmin f n, f (argmin f n) < f i := by
  induction n with
  | zero => omega
  | succ n ih =>
    unfold argmin
    rcases Nat.eq_zero_or_pos n with rfl | hp
    · rw [if_neg (by simp)]
      refine ⟨by simp [argmin], ?_, ?_⟩
      · intro i hi
        have : i = 0 := by omega
        subst this
        exact le_rfl
      · intro i hi; simp [argmin] at hi
    · obtain ⟨h1, h2, h3⟩ := ih hp
      split_ifs with h
      · refine ⟨by omega, ?_, ?_⟩
        · intro i hi
          rcases Nat.lt_or_ge i n with h4 | h4
          · exact h.1.le.trans (h2 i h4)
          · have : i = n := by omega
            rw [this]
        · intro i hi
          exact h.1.trans_le (h2 i hi)
      · refine ⟨by omega, ?_, h3⟩
        intro i hi
        rcases Nat.lt_or_ge i n with h4 | h4
        · exact h2 i h4
        · have : i = n := by omega
          subst this
          by_contra hc
          exact h ⟨not_le.mp hc, by omega⟩

/-- **C187, nearest place of a line**: the place is in the grid, no other place is nearer, and among equally near ones it
is the first. -/
theorem C187_closest (grid : List ℝ) (hg : grid ≠ []) (pt : ℝ) :
    ∃ g, grid[closest1 grid pt]? = some g ∧ (∀ x ∈ grid, |pt - g| ≤ |pt - x|) ∧
      ∀ i < closest1 grid pt, ∀ x, grid[i]? = some x → |pt - g| < |pt - x| := by
  obtain ⟨h1, h2, h3⟩ := argmin_spec (fun i => |pt - grid.getD i 0|) grid.length (List.length_pos_of_ne_nil hg)
  change closest1 grid pt < _ at h1
  have hget : ∀ i, ∀ x, grid[i]? = some x → grid.getD i 0 = x := by
    intro i x h; rw [List.getD_eq_getElem?_getD, h]; rfl
  refine ⟨grid[closest1 grid pt], List.getElem?_eq_getElem h1, ?_, ?_⟩
  · intro x hx
    obtain ⟨i, hi, rfl⟩ := List.getElem_of_mem hx
    have := h2 i hi
    change |pt - grid.getD (closest1 grid pt) 0| ≤ |pt - grid.getD i 0| at this
    rw [hget _ _ (List.getElem?_eq_getElem h1), hget _ _ (List.getElem?_eq_getElem hi)] at this
    exact this
  · intro i hi x hx
    have := h3 i hi
    change |pt - grid.getD (closest1 grid pt) 0| < |pt - grid.getD i 0| at this
    rw [hget _ _ (List.getElem?_eq_getElem h1), hget _ _ hx] at this
    exact this

/-- Non-vacuity: a grid with points. -/
example : ([0, 1, 2] : List ℝ) ≠ [] := by simp

/-- **C187, draping on a tensor mesh**: every point keeps its place in the list and its horizontal location, and gets the
elevation of the column given by the nearest cell. -/
theorem C187_drape {P : Type} (near : P → ℕ) (topo : List ℝ) (pts : List P) (hn : ∀ x ∈ pts, near x < topo.length) :
    (drapeTensor near topo pts).map Prod.fst = pts ∧
      ∀ (i : ℕ) (x : P), pts[i]? = some x → ∃ z, topo[near x]? = some z ∧ (drapeTensor near topo pts)[i]? = some (x, some z) := by
  refine ⟨by simp [drapeTensor, Function.comp_def], fun i x hx => ?_⟩
  have h := hn x (List.mem_of_getElem? hx)
  refine ⟨topo[near x], List.getElem?_eq_getElem h, ?_⟩
  unfold drapeTensor
  rw [List.getElem?_map, hx]
  simp [List.getElem?_eq_getElem h]

/-- **C187, violated (draping on a tree mesh)**: a point which is not the centre of the nearest cell at the surface is
moved to this centre. -/
theorem C187_violated_tree {P : Type} (near : P → ℕ) (surface : List (P × ℝ)) (x c : P) (z : ℝ)
    (h : surface[near x]? = some (c, z)) (hne : x ≠ c) :
    ∃ q, drapeTree near surface [x] = [some q] ∧ q.1 ≠ x := by
  refine ⟨(c, z), by simp [drapeTree, h], fun h => hne h.symm⟩

/-- Non-vacuity: a point beside the only cell. -/
example : ∃ q, drapeTree (fun _ : ℝ => 0) [(0.5, 3)] [0.2] = [some q] ∧ q.1 ≠ (0.2 : ℝ) :=
  C187_violated_tree _ _ _ 0.5 3 rfl (by norm_num)

/-- **C187, shapes of points**: exactly these are accepted: in two dimensions numbers, lists of numbers, and tables of one
or two columns; in three dimensions tables whose second extent is two or three; and the horizontal coordinates are kept. -/
theorem C187_points (dim : ℕ) (shape : List ℕ) (k : ℕ) : checkPts dim shape = .ok k ↔
    (dim = 2 ∧ k = 1 ∧ (shape = [] ∨ (∃ n, shape = [n]) ∨ ∃ n c, shape = [n, c] ∧ (c = 1 ∨ c = 2))) ∨
      (dim = 3 ∧ k = 2 ∧ ∃ n c t, shape = n :: c :: t ∧ (c = 2 ∨ c = 3)) := by
  unfold checkPts
  by_cases h2 : dim = 2
  · subst h2
    rw [if_pos rfl]
    rcases shape with _ | ⟨n, _ | ⟨c, _ | ⟨e, t⟩⟩⟩
    · simp [eq_comm (a := 1)]
    · simp [eq_comm (a := 1)]
    · simp only
      split_ifs with h
      · simp [h, eq_comm (a := 1)]
      · simp [h]
    · simp
  · rw [if_neg h2]
    by_cases h3 : dim = 3
    · subst h3
      rw [if_pos rfl]
      rcases shape with _ | ⟨n, _ | ⟨c, t⟩⟩
      · simp
      · simp
      · simp only
        split_ifs with h
        · simp [h, eq_comm (a := 2)]
        · simp [h]
    · rw [if_neg h3]
      simp [h2, h3]

/-! ### Parallel lines -/

/-- **C187, lines**: if the readings of a line lie on it, then each reading of the survey, however the readings are sorted,
has its line number `i` at the same place, its potential electrodes at `y0 + i * spacing` and its current electrodes
`src_offset_y` from there. -/
theorem C187_lines (line : Pt × Pt → List Reading) (nLines : ℕ) (len spacing x0 y0 z0 off : ℝ)
    (hline : ∀ (p : Pt × Pt) r, r ∈ line p → p.1.y = p.2.y → r.a.y = p.1.y ∧ r.b.y = p.1.y ∧ r.m.y = p.1.y ∧ r.n.y = p.1.y)
    (inds : List ℕ)
    (hinds : ∀ j ∈ inds, j < (lines line nLines len spacing x0 y0 z0 off).length) (j : ℕ) (hj : j < inds.length) :
    ∃ r i, (sorted inds (lines line nLines len spacing x0 y0 z0 off)).1[j]? = some r ∧
      (sorted inds (lines line nLines len spacing x0 y0 z0 off)).2[j]? = some i ∧ i < nLines ∧
      r.m.y = y0 + i * spacing ∧ r.n.y = y0 + i * spacing ∧
      r.a.y = y0 + i * spacing + off ∧ r.b.y = y0 + i * spacing + off := by
  generalize hL : lines line nLines len spacing x0 y0 z0 off = L at hinds ⊢
  have htake : ∀ {α : Type} (l : List α) (inds : List ℕ), (∀ j ∈ inds, j < l.length) → ∀ j, ∀ hj : j < inds.length,
      (Locations.take l inds)[j]? = l[inds[j]]? := by
    intro α l inds
    induction inds with
    | nil => intro _ j hj; simp at hj
    | cons q inds ih =>
      intro h j hj
      have hq := h q (by simp)
      have e : Locations.take l (q :: inds) = l[q] :: Locations.take l inds := by
        unfold Locations.take
        rw [List.filterMap_cons, List.getElem?_eq_getElem hq]
      rw [e]
      rcases j with _ | j
      · simp [List.getElem?_eq_getElem hq]
      · simp only [List.getElem?_cons_succ, List.getElem_cons_succ]
        exact ih (fun j hj => h j (by simp [hj])) j (by simpa using hj)
  have hq : inds[j] < L.length := hinds _ (List.getElem_mem hj)
  have hmem : L[inds[j]] ∈ L := List.getElem_mem hq
  refine ⟨L[inds[j]].1, L[inds[j]].2, ?_, ?_, ?_⟩
  · show (Locations.take (L.map Prod.fst) inds)[j]? = _
    rw [htake _ _ (by simpa using hinds) j hj, List.getElem?_map, List.getElem?_eq_getElem hq]
    rfl
  · show (Locations.take (L.map Prod.snd) inds)[j]? = _
    rw [htake _ _ (by simpa using hinds) j hj, List.getElem?_map, List.getElem?_eq_getElem hq]
    rfl
  · generalize L[inds[j]] = q at hmem
    rw [← hL] at hmem
    unfold lines at hmem
    rw [List.mem_flatMap] at hmem
    obtain ⟨i, hi, hm⟩ := hmem
    obtain ⟨r, hr, rfl⟩ := List.mem_map.mp hm
    obtain ⟨h1, h2, h3, h4⟩ := hline _ r hr rfl
    simp only [endl] at h1 h2 h3 h4
    refine ⟨List.mem_range.mp hi, ?_, ?_, ?_, ?_⟩
    · show r.m.y = _; rw [h3]; ring
    · show r.n.y = _; rw [h4]; ring
    · show r.a.y + off = _; rw [h1]; ring
    · show r.b.y + off = _; rw [h2]; ring

/-- Non-vacuity: one reading per line at its first end point. -/
example : ∀ (p : Pt × Pt) (r : Reading), r ∈ [(⟨p.1, p.2, p.1, p.2⟩ : Reading)] → p.1.y = p.2.y →
    r.a.y = p.1.y ∧ r.b.y = p.1.y ∧ r.m.y = p.1.y ∧ r.n.y = p.1.y := by
  intro p r hr h
  simp only [List.mem_singleton] at hr
  subst hr
  exact ⟨rfl, h.symm, rfl, h.symm⟩

theorem filterMap_range {α : Type} (l : List α) : (List.range l.length).filterMap (fun i => l[i]?) = l := by
  induction l using List.reverseRecOn with
  | nil => rfl
  | append_singleton l x ih =>
    rw [List.length_append, List.length_singleton, List.range_succ, List.filterMap_append]
    have : (List.range l.length).filterMap (fun i => (l ++ [x])[i]?) = l := by
      rw [List.filterMap_congr (g := fun i => l[i]?) (fun i hi => by
        rw [List.getElem?_append_left (List.mem_range.mp hi)])]
      exact ih
    rw [this]
    simp

/-- **C187, number of readings**: sorting by a permutation neither loses nor repeats a reading. -/
theorem C187_lines_all (l : List (Reading × ℕ)) (inds : List ℕ) (h : inds.Perm (List.range l.length)) :
    ((sorted inds l).1.zip (sorted inds l).2).Perm l := by
  have e : ∀ inds : List ℕ, (sorted inds l).1.zip (sorted inds l).2 = inds.filterMap fun i => l[i]? := by
    intro inds
    unfold sorted Locations.take
    simp only [List.getElem?_map]
    induction inds with
    | nil => rfl
    | cons q inds ih =>
      rcases hq : l[q]? with _ | x
      · simp only [List.filterMap_cons, hq, Option.map_none]
        exact ih
      · simp only [List.filterMap_cons, hq, Option.map_some, List.zip_cons_cons]
        rw [ih]
  rw [e]
  refine (h.filterMap _).trans ?_
  rw [filterMap_range]

/-- **C187, extent**: each line starts at the origin and has the length asked for. If a survey along a line has a
reading at its first and one at its last place, so has each of the lines. -/
theorem C187_extent (line : Pt × Pt → List Reading) (nLines : ℕ) (len spacing x0 y0 z0 off : ℝ)
    (hline : ∀ p : Pt × Pt, (∃ r ∈ line p, r.a.x = p.1.x) ∧ ∃ r ∈ line p, r.n.x = p.2.x) (i : ℕ) (hi : i < nLines) :
    (∃ r, (r, i) ∈ lines line nLines len spacing x0 y0 z0 off ∧ r.a.x = x0) ∧
    ∃ r, (r, i) ∈ lines line nLines len spacing x0 y0 z0 off ∧ r.n.x = x0 + len := by
  obtain ⟨⟨r, hr, h1⟩, s, hs, h2⟩ := hline (endl x0 len ((i : ℝ) * spacing + y0) z0)
  exact ⟨⟨shifted off r, List.mem_flatMap.mpr ⟨i, List.mem_range.mpr hi, List.mem_map.mpr ⟨r, hr, rfl⟩⟩, h1⟩,
    ⟨shifted off s, List.mem_flatMap.mpr ⟨i, List.mem_range.mpr hi, List.mem_map.mpr ⟨s, hs, rfl⟩⟩, h2⟩⟩

example (i : ℕ) (hi : i < 3) : ∃ r, (r, i) ∈ lines (fun p => [⟨p.1, p.1, p.2, p.2⟩]) 3 100 20 5 0 0 1 ∧
    r.n.x = 5 + 100 :=
  (C187_extent _ 3 100 20 5 0 0 1 (fun p => ⟨⟨_, List.mem_singleton.mpr rfl, rfl⟩, _, List.mem_singleton.mpr rfl, rfl⟩)
    i hi).2

/-- **C187, violated (elevation)**: the elevation asked for has no effect. -/
theorem C187_violated_z0 (line : Pt × Pt → List Reading) (nLines : ℕ) (len spacing x0 y0 off z z' : ℝ) :
    lines line nLines len spacing x0 y0 z off = lines line nLines len spacing x0 y0 z' off := rfl

/-- **C187, violated (gradient)**: of the five survey types in the documentation, "gradient" is an error. -/
theorem C187_violated_gradient : knownType "gradient" = .error .exception ∧
    ∀ t ∈ ["dipole-dipole", "pole-dipole", "dipole-pole", "pole-pole"], knownType t = .ok () := by
  refine ⟨by decide, ?_⟩
  intro t ht
  simp only [List.mem_cons, List.not_mem_nil, or_false] at ht
  unfold knownType
  rw [if_pos]
  tauto

end Props
end Verif.DC.Topography
