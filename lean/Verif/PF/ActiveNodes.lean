import Verif.Basic
import Mathlib.Data.Finset.Sort
import Mathlib.Data.Finset.Union
import Mathlib.Data.Fin.VecNotation
import Mathlib.Data.Fintype.Basic
import Mathlib.Data.List.Range
import Mathlib.Tactic.FinCases

/-!
C181: the nodes of active cells of simulations of potential fields,
`BasePFSimulation._get_active_nodes` (`simpeg/potential_fields/base.py`, 371-399).

Simplified: positions are of any type; `cell_nodes` has `k` nodes for every cell, all of them nodes of the mesh.
-/

namespace Verif.PF.ActiveNodes

/-- Kinds of meshes of `discretize`. -/
inductive MeshKind | tree | tensor | other
  deriving DecidableEq

/-- A mesh: the nodes that `total_nodes` or `nodes` give, and the indices of the nodes of each cell. A tree mesh has
nodes that hang besides those of `nodes`. -/
structure Mesh (P : Type) (k : ℕ) where
  kind : MeshKind
  nodes : List P
  totalNodes : List P
  cellNodes : List (Fin k → ℕ)

/-- `np.unique(cell_nodes, return_inverse=True)`: the sorted values without repetition. -/
def unique {k : ℕ} (cells : List (Fin k → ℕ)) : List ℕ :=
  (cells.toFinset.biUnion fun c => Finset.univ.image c).sort (· ≤ ·)

/-- The inverse of `np.unique`, of the shape of the argument (394, 398). -/
def inverse {k : ℕ} (cells : List (Fin k → ℕ)) : List (Fin k → ℕ) :=
  cells.map fun c j => (unique cells).idxOf (c j)

/-- `cell_nodes[self.active_cells]` with a mask (391). -/
def masked {α : Type} (xs : List α) (active : List Bool) : List α :=
  ((xs.zip active).filter fun p => p.2).map Prod.fst

/-- `nodes[unique_nodes]` (396). -/
def take {P : Type} (nodes : List P) (idx : List ℕ) : List (Option P) := idx.map fun i => nodes[i]?

/-- The nodes of the mesh (379-384). -/
def meshNodes {P : Type} {k : ℕ} (mesh : Mesh P k) : Except Err (List P) :=
  match mesh.kind with
  | .tree => .ok mesh.totalNodes
  | .tensor => .ok mesh.nodes
  | .other => .error .typeError

/-- `_get_active_nodes` (371-399); `nC` is the number of active cells. -/
def getActiveNodes {P : Type} {k : ℕ} (mesh : Mesh P k) (active : List Bool) :
    Except Err (List (Option P) × List (Fin k → ℕ)) :=
  match meshNodes mesh with
  | .error e => .error e
  | .ok nodes =>
    if active.count true = mesh.cellNodes.length then .ok (nodes.map some, mesh.cellNodes)
    else
      let cells := masked mesh.cellNodes active;
      .ok (take nodes (unique cells), inverse cells)

/-! ### Lemmas -/

theorem mem_unique {k : ℕ} (cells : List (Fin k → ℕ)) (v : ℕ) : v ∈ unique cells ↔ ∃ c ∈ cells, ∃ j, c j = v := by
  simp [unique]

theorem unique_nodup {k : ℕ} (cells : List (Fin k → ℕ)) : (unique cells).Nodup := Finset.sort_nodup _ _

theorem masked_all {α : Type} (xs : List α) (active : List Bool) (hl : active.length = xs.length)
    (hc : active.count true = xs.length) : masked xs active = xs := by
  have hall : ∀ b ∈ active, b = true := by
    have := List.count_eq_length.mp (hc.trans hl.symm)
    exact fun b hb => (this b hb).symm
  unfold masked
  rw [List.filter_eq_self.mpr]
  · exact List.map_fst_zip (by omega)
  · intro p hp
    exact hall p.2 (List.of_mem_zip hp).2

/-! ### C181 -/

/-- The nodes which `k` indices of a cell give. -/
def corners {P : Type} {k : ℕ} (nodes : List (Option P)) (c : Fin k → ℕ) : Fin k → Option P := fun j =>
  (nodes[c j]?).join

theorem join_take {P : Type} (nodes : List P) (us : List ℕ) (v : ℕ) (h : v ∈ us) :
    ((take nodes us)[us.idxOf v]?).join = nodes[v]? := by
  unfold take
  rw [List.getElem?_map, List.getElem?_idxOf h]
  rfl

theorem nodes_of_kind {P : Type} {k : ℕ} {mesh : Mesh P k} {active : List Bool} {nodes : List P}
    (htree : mesh.kind = .tree → nodes = mesh.totalNodes) (htensor : mesh.kind = .tensor → nodes = mesh.nodes)
    {r : List (Option P) × List (Fin k → ℕ)} (hr : getActiveNodes mesh active = .ok r) :
    meshNodes mesh = .ok nodes := by
  unfold meshNodes
  unfold getActiveNodes meshNodes at hr
  rcases hk : mesh.kind with _ | _ | _
  all_goals simp_all

/-- **C181, corners**: the active cells, in the order of the mesh, have the corners that they have in the mesh,
whatever the active cells are. -/
theorem C181_corners {P : Type} {k : ℕ} (mesh : Mesh P k) (active : List Bool)
    (hl : active.length = mesh.cellNodes.length) (nodes : List P)
    (htree : mesh.kind = .tree → nodes = mesh.totalNodes) (htensor : mesh.kind = .tensor → nodes = mesh.nodes)
    (an : List (Option P)) (ac : List (Fin k → ℕ)) (hr : getActiveNodes mesh active = .ok (an, ac)) :
    ac.map (corners an)
      = (((mesh.cellNodes.zip active).filter fun p => p.2).map fun p => corners (nodes.map some) p.1) := by
  have hn := nodes_of_kind htree htensor hr
  unfold getActiveNodes at hr
  rw [hn] at hr
  simp only at hr
  split_ifs at hr with hc
  · simp only [Except.ok.injEq, Prod.mk.injEq] at hr
    obtain ⟨rfl, rfl⟩ := hr
    have := masked_all mesh.cellNodes active hl hc
    unfold masked at this
    conv_lhs => rw [← this]
    rw [List.map_map]
    rfl
  · simp only [Except.ok.injEq, Prod.mk.injEq] at hr
    obtain ⟨rfl, rfl⟩ := hr
    have e : (((mesh.cellNodes.zip active).filter fun p => p.2).map fun p => corners (nodes.map some) p.1)
        = (masked mesh.cellNodes active).map (corners (nodes.map some)) := by
      unfold masked; rw [List.map_map]; rfl
    rw [e]
    unfold inverse
    rw [List.map_map]
    refine List.map_congr_left fun c hcm => ?_
    funext j
    simp only [Function.comp, corners]
    rw [join_take nodes _ _ ((mem_unique _ _).mpr ⟨c, hcm, j, rfl⟩), List.getElem?_map]
    cases nodes[c j]? <;> rfl

/-- **C181, nodes**: each node that is returned is a corner of an active cell, and no index of the mesh is there
twice; they are in the order of the mesh. The nodes of a tree mesh include those that hang. -/
theorem C181_nodes {P : Type} {k : ℕ} (mesh : Mesh P k) (active : List Bool) (nodes : List P)
    (htree : mesh.kind = .tree → nodes = mesh.totalNodes) (htensor : mesh.kind = .tensor → nodes = mesh.nodes)
    (hna : active.count true ≠ mesh.cellNodes.length)
    (an : List (Option P)) (ac : List (Fin k → ℕ)) (hr : getActiveNodes mesh active = .ok (an, ac)) :
    ∃ us : List ℕ, an = us.map (fun i => nodes[i]?) ∧ us.Pairwise (· < ·) ∧
      ∀ v, v ∈ us ↔ ∃ c, (c, true) ∈ mesh.cellNodes.zip active ∧ ∃ j, c j = v := by
  have hn := nodes_of_kind htree htensor hr
  unfold getActiveNodes at hr
  rw [hn] at hr
  simp only [if_neg hna, Except.ok.injEq, Prod.mk.injEq] at hr
  obtain ⟨rfl, rfl⟩ := hr
  refine ⟨_, rfl, Finset.sortedLT_sort _ |>.pairwise, fun v => ?_⟩
  rw [mem_unique]
  simp [masked]

/-- **C181, all cells**: the shortcut with all cells active gives what the general way gives, if every node of the
mesh is a corner of a cell. -/
theorem C181_all {P : Type} {k : ℕ} (cells : List (Fin k → ℕ)) (nodes : List P)
    (hin : ∀ c ∈ cells, ∀ j, c j < nodes.length) (hall : ∀ v < nodes.length, ∃ c ∈ cells, ∃ j, c j = v) :
    take nodes (unique cells) = nodes.map some ∧ inverse cells = cells := by
  have hu : unique cells = List.range nodes.length := by
    refine List.Perm.eq_of_pairwise (le := (· < ·)) (fun a b _ _ h1 h2 => absurd h1 (by omega))
      (Finset.sortedLT_sort _).pairwise List.pairwise_lt_range ?_
    refine (List.perm_ext_iff_of_nodup (unique_nodup _) List.nodup_range).mpr fun v => ?_
    rw [mem_unique, List.mem_range]
    exact ⟨fun ⟨c, hc, j, hj⟩ => hj ▸ hin c hc j, hall v⟩
  constructor
  · rw [hu]
    unfold take
    apply List.ext_getElem?
    intro i
    rw [List.getElem?_map, List.getElem?_map]
    by_cases hi : i < nodes.length
    · simp [hi]
    · simp [hi]
  · unfold inverse
    rw [hu]
    conv_rhs => rw [← List.map_id cells]
    refine List.map_congr_left fun c hc => ?_
    funext j
    have hj := hin c hc j
    show (List.range nodes.length).idxOf (c j) = c j
    have h1 : (List.range nodes.length).idxOf (c j) < (List.range nodes.length).length :=
      List.idxOf_lt_length_of_mem (List.mem_range.mpr hj)
    have h2 := List.getElem_idxOf h1
    rw [List.getElem_range] at h2
    exact h2

/-- **C181, meshes**: only tensor and tree meshes are accepted, whatever the active cells are. -/
theorem C181_meshes {P : Type} {k : ℕ} (mesh : Mesh P k) (active : List Bool) :
    (mesh.kind = .other ↔ getActiveNodes mesh active = .error .typeError) ∧
    (mesh.kind ≠ .other → ∃ r, getActiveNodes mesh active = .ok r) := by
  unfold getActiveNodes meshNodes
  cases mesh.kind <;> simp <;> split_ifs <;> simp

/-! ### Example -/

/-- A line of three cells with the first one inactive: the node at 0 is dropped, the cells keep their ends. -/
example : getActiveNodes (P := ℕ) (k := 2)
    ⟨.tensor, [0, 10, 20, 30], [], [![0, 1], ![1, 2], ![2, 3]]⟩ [false, true, true]
    = .ok ([some 10, some 20, some 30], [![0, 1], ![1, 2]]) := by
  have hm : masked [![0, 1], ![1, 2], ![2, 3]] [false, true, true] = [![1, 2], (![2, 3] : Fin 2 → ℕ)] := by
    simp [masked]
  have hu : unique [![1, 2], (![2, 3] : Fin 2 → ℕ)] = [1, 2, 3] := by
    refine List.Perm.eq_of_pairwise (le := (· < ·)) (fun a b _ _ h1 h2 => absurd h1 (by omega))
      (Finset.sortedLT_sort _).pairwise (by decide) ?_
    refine (List.perm_ext_iff_of_nodup (unique_nodup _) (by decide)).mpr fun v => ?_
    rw [mem_unique]
    simp [Fin.exists_fin_two]
    omega
  simp only [getActiveNodes, meshNodes]
  rw [if_neg (by decide), hm]
  simp only [inverse, hu, take]
  congr 2
  simp only [List.map_cons, List.map_nil]
  congr 1
  · funext j; fin_cases j <;> rfl
  · congr 1
    funext j; fin_cases j <;> rfl

end Verif.PF.ActiveNodes
