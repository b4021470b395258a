import Verif.Basic
import Mathlib.Data.Real.Sqrt
import Mathlib.Order.Lattice
import Mathlib.Data.List.Sort
import Mathlib.Tactic.Linarith
import Mathlib.Tactic.NormNum

/-! Model of the block, sphere and layer functions of `simpeg/utils/model_builder.py`
(13-200, 257-376, 416-467). -/

namespace Verif.Utils.Blocks
open Verif

variable {α β : Type}

/-- An array of cell centres: `d` entries per row; `flat` means it is the one-dimensional array
of the first entries rather than an array of shape `(n, d)`. -/
structure Centers (α : Type) where
  flat : Bool
  d : Nat
  rows : List (List α)

/-- The arrays that occur: rows of the same length, and one-dimensional only for `d = 1`. -/
def Centers.WF (C : Centers α) : Prop :=
  (∀ r ∈ C.rows, r.length = C.d) ∧ (C.flat = true → C.d = 1)

/-- `(x1 <= x_centers) & (x_centers <= x2) & ...` for one row (100, 110-113, 123-127); columns
beyond the dimension of the corners are not looked at. -/
def inside [LinearOrder α] : List α → List α → List α → Bool
  | l :: lo, h :: hi, x :: row => decide (l ≤ x) && decide (x ≤ h) && inside lo hi row
  | _, _, _ => true

/-- `np.where(mask)` for a one-dimensional mask. -/
def whereTrue (mask : List Bool) : List Nat :=
  (List.range mask.length).filter fun i => mask.getD i false

/-- `get_indices_block(p0, p1, cell_centers)` (47-155).  With one-dimensional corners the whole
array is compared, and the result of `np.where` has two elements unless it is one-dimensional
(99-101); with two or three, columns are taken, which needs that many of them (108-109,
120-122). -/
def getIndicesBlock [LinearOrder α] (p0 p1 : List α) (C : Centers α) : Except Err (List Nat) :=
  if p0.length ≠ p1.length then .error .valueError
  else if p0.length = 0 then .error .zeroDivision
  else if (C.rows.length * C.d) % p0.length ≠ 0 then .error .valueError
  else
    let lo := List.zipWith min p0 p1
    let hi := List.zipWith max p0 p1
    let ind := whereTrue (C.rows.map (inside lo hi))
    if p0.length = 1 then (if C.flat then .ok ind else .error .valueError)
    else if p0.length ≤ 3 then
      (if C.flat ∨ C.d < p0.length then .error .indexError else .ok ind)
    else .error .exception

/-- `a[ind] = value` for an array of indices. -/
def setAll (a : List β) (ind : List Nat) (v : β) : Except Err (List β) :=
  if ind.any fun i => decide (a.length ≤ i) then .error .indexError
  else .ok (ind.foldl (fun a i => a.set i v) a)

/-- `add_block` (13-44); the copy (42) is returned. -/
def addBlock [LinearOrder α] (C : Centers α) (model : List β) (p0 p1 : List α) (v : β) :
    Except Err (List β) :=
  match getIndicesBlock p0 p1 C with
  | .error e => .error e
  | .ok ind => setAll model ind v

/-- `create_block_in_wholespace` (158-200) with separate values. -/
def createBlock [LinearOrder α] (C : Centers α) (p0 p1 : List α) (bg v : β) :
    Except Err (List β) :=
  match getIndicesBlock p0 p1 C with
  | .error e => .error e
  | .ok ind => setAll (List.replicate C.rows.length bg) ind v

/-- Subtract from the last entry (367). -/
def lowerLast [Sub α] (depth : α) : List α → List α
  | [] => []
  | [z] => [z - depth]
  | x :: xs => x :: lowerLast depth xs

/-- `create_2_layer_model` (314-376) with separate values: a block from the first cell centre to
the last lowered by `depth`. -/
def createTwoLayer [LinearOrder α] [Sub α] (C : Centers α) (depth : α) (top bottom : β) :
    Except Err (List β) :=
  if C.flat then .error .indexError
  else match C.rows.head?, C.rows.getLast? with
    | some p0, some p1 => createBlock C p0 (lowerLast depth p1) bottom top
    | _, _ => .error .indexError

/-- The loop of `create_layers_model` (461-465) for one cell. -/
def layerOf (z : Rat) (layers : List (Rat × Rat)) : Rat :=
  layers.foldl (fun m l => if z ≤ l.1 then l.2 else m) 0

/-- `create_layers_model` (416-467) on the vertical coordinates of the cells.  `descending` (438)
is taken to be exact.  Otherwise both columns are sorted, independently (445-447). -/
def createLayers (zs tops values : List Rat) : Except Err (List Rat) :=
  if tops.insertionSort (· ≥ ·) = tops then
    if values.length < tops.length then .error .indexError
    else .ok (zs.map fun z => layerOf z (tops.zip values))
  else if tops.length ≠ values.length then .error .valueError
  else .ok (zs.map fun z =>
    layerOf z ((tops.insertionSort (· ≥ ·)).zip (values.insertionSort (· ≥ ·))))

/-- `get_indices_sphere` (257-311): the mask. In one dimension the code takes the absolute value
(286), which is the same number. The centre must have as many entries as the
rows. -/
noncomputable def getIndicesSphere (center : List ℝ) (radius : ℝ) (rows : List (List ℝ)) :
    List Prop :=
  rows.map fun r => Real.sqrt ((List.zipWith (fun c x => (c - x) ^ 2) center r).sum) < radius

/-! ### Specification -/

/-- `x` is between `a` and `b`, in whatever order these are. -/
def Between [LinearOrder α] (a b x : α) : Prop := (a ≤ x ∧ x ≤ b) ∨ (b ≤ x ∧ x ≤ a)

/-- The row is in the closed box spanned by the corners. -/
def InBox [LinearOrder α] : List α → List α → List α → Prop
  | a :: p0, b :: p1, x :: row => Between a b x ∧ InBox p0 p1 row
  | [], [], [] => True
  | _, _, _ => False

namespace Props

theorem mem_whereTrue (mask : List Bool) (i : Nat) : i ∈ whereTrue mask ↔ mask[i]? = some true := by
  unfold whereTrue
  simp only [List.mem_filter, List.mem_range, List.getD_eq_getElem?_getD]
  constructor
  · rintro ⟨h1, h2⟩
    rw [List.getElem?_eq_getElem h1] at h2 ⊢
    simpa using h2
  · intro h
    obtain ⟨h1, h2⟩ := List.getElem?_eq_some_iff.mp h
    exact ⟨h1, by simp [h]⟩

theorem sorted_whereTrue (mask : List Bool) : (whereTrue mask).Pairwise (· < ·) :=
  List.Pairwise.filter _ List.pairwise_lt_range

theorem inside_iff [LinearOrder α] (p0 p1 row : List α) (h1 : p0.length = p1.length)
    (h2 : row.length = p0.length) :
    inside (List.zipWith min p0 p1) (List.zipWith max p0 p1) row = true ↔ InBox p0 p1 row := by
  induction p0 generalizing p1 row with
  | nil =>
    cases p1 with
    | nil => cases row with
      | nil => simp [inside, InBox]
      | cons _ _ => simp at h2
    | cons _ _ => simp at h1
  | cons a p0 ih =>
    cases p1 with
    | nil => simp at h1
    | cons b p1 =>
      cases row with
      | nil => simp at h2
      | cons x row =>
        simp only [List.length_cons, Nat.add_right_cancel_iff] at h1 h2
        simp only [List.zipWith_cons_cons, inside, InBox, Bool.and_eq_true, decide_eq_true_eq,
          ih p1 row h1 h2, Between]
        apply and_congr_left
        intro _
        rcases le_total a b with h | h
        · rw [min_eq_left h, max_eq_right h]
          constructor
          · exact Or.inl
          · rintro (h' | h')
            · exact h'
            · exact ⟨le_trans h h'.1, le_trans h'.2 h⟩
        · rw [min_eq_right h, max_eq_left h]
          constructor
          · exact Or.inr
          · rintro (h' | h')
            · exact ⟨le_trans h h'.1, le_trans h'.2 h⟩
            · exact h'

/-! ### C48 -/

/-- C48. For corners of the dimension of the mesh (1 to 3, one-dimensional centres as a
one-dimensional array) the function returns, in increasing order, exactly the indices of the cell
centres in the closed box spanned by the corners. -/
theorem C48_indices [LinearOrder α] (p0 p1 : List α) (C : Centers α) (hC : C.WF)
    (h0 : p0.length = C.d) (h1 : p1.length = C.d) (hd : 1 ≤ C.d) (hd' : C.d ≤ 3)
    (hf : C.flat = true ↔ C.d = 1) :
    ∃ ind, getIndicesBlock p0 p1 C = .ok ind ∧ ind.Pairwise (· < ·) ∧
      ∀ i, i ∈ ind ↔ ∃ row, C.rows[i]? = some row ∧ InBox p0 p1 row := by
  refine ⟨whereTrue (C.rows.map (inside (List.zipWith min p0 p1) (List.zipWith max p0 p1))),
    ?_, sorted_whereTrue _, fun i => ?_⟩
  · unfold getIndicesBlock
    rw [if_neg (by omega), if_neg (by omega), if_neg (by rw [h0, Nat.mul_mod_left]; omega)]
    by_cases h : C.d = 1
    · simp only
      rw [if_pos (by omega), if_pos (hf.mpr h)]
    · simp only
      have hfl : ¬ (C.flat = true ∨ C.d < p0.length) := by
        rw [hf]; omega
      rw [if_neg (by omega), if_pos (by omega), if_neg hfl]
  · rw [mem_whereTrue, List.getElem?_map]
    constructor
    · intro h
      obtain ⟨row, hr, hi⟩ := Option.map_eq_some_iff.mp h
      have hl := hC.1 row (List.mem_of_getElem? hr)
      exact ⟨row, hr, (inside_iff p0 p1 row (by omega) (by omega)).mp hi⟩
    · rintro ⟨row, hr, hi⟩
      have hl := hC.1 row (List.mem_of_getElem? hr)
      rw [hr, Option.map_some, (inside_iff p0 p1 row (by omega) (by omega)).mpr hi]

/-- C48. The order of the corners does not matter, whatever the arguments. -/
theorem C48_corners_commute [LinearOrder α] (p0 p1 : List α) (C : Centers α) :
    getIndicesBlock p0 p1 C = getIndicesBlock p1 p0 C := by
  have e1 : List.zipWith min p0 p1 = List.zipWith min p1 p0 := by
    rw [List.zipWith_comm]; congr 1; funext a b; exact min_comm b a
  have e2 : List.zipWith max p0 p1 = List.zipWith max p1 p0 := by
    rw [List.zipWith_comm]; congr 1; funext a b; exact max_comm b a
  unfold getIndicesBlock
  by_cases h : p0.length = p1.length
  · simp only [e1, e2, h]
  · rw [if_pos h, if_pos (Ne.symm h)]

/-- C48. Corners of different dimensions are rejected, and so is a number of entries that is not a
multiple of the dimension. -/
theorem C48_rejects [LinearOrder α] (p0 p1 : List α) (C : Centers α) :
    (p0.length ≠ p1.length → getIndicesBlock p0 p1 C = .error .valueError) ∧
    (p0.length = p1.length → 0 < p0.length → (C.rows.length * C.d) % p0.length ≠ 0 →
      getIndicesBlock p0 p1 C = .error .valueError) := by
  unfold getIndicesBlock
  refine ⟨fun h => if_pos h, fun h h0 h1 => ?_⟩
  rw [if_neg (by omega), if_neg (by omega), if_pos h1]

/-- C48 (limit of the check). Two-dimensional corners are accepted for an even number of
three-dimensional cell centres: the third coordinate is not looked at. -/
theorem C48_dimension_not_checked [LinearOrder α] (a b a' b' : α) (rows : List (List α))
    (hr : ∀ r ∈ rows, r.length = 3) (he : rows.length % 2 = 0) :
    ∃ ind, getIndicesBlock [a, b] [a', b'] ⟨false, 3, rows⟩ = .ok ind ∧
      ∀ i, i ∈ ind ↔ ∃ x y z, rows[i]? = some [x, y, z] ∧ Between a a' x ∧ Between b b' y := by
  refine ⟨whereTrue (rows.map (inside (List.zipWith min [a, b] [a', b'])
    (List.zipWith max [a, b] [a', b']))), ?_, fun i => ?_⟩
  · unfold getIndicesBlock
    simp only [List.length_cons, List.length_nil, ne_eq, not_true, if_false]
    rw [if_neg (by omega), if_neg (by omega)]
    simp
  · rw [mem_whereTrue, List.getElem?_map]
    have key : ∀ x y z : α, inside (List.zipWith min [a, b] [a', b'])
        (List.zipWith max [a, b] [a', b']) [x, y, z] = true ↔ Between a a' x ∧ Between b b' y := by
      intro x y z
      have := inside_iff [a, b] [a', b'] [x, y] rfl rfl
      simp only [InBox, and_true] at this
      rw [← this]
      simp [inside]
    constructor
    · intro h
      obtain ⟨row, hrow, hi⟩ := Option.map_eq_some_iff.mp h
      have hl := hr row (List.mem_of_getElem? hrow)
      obtain ⟨x, y, z, rfl⟩ := List.length_eq_three.mp hl
      exact ⟨x, y, z, hrow, (key x y z).mp hi⟩
    · rintro ⟨x, y, z, hrow, hi⟩
      rw [hrow, Option.map_some, (key x y z).mpr hi]

theorem foldl_set (a : List β) (ind : List Nat) (v : β) :
    (ind.foldl (fun a i => a.set i v) a).length = a.length ∧
    ∀ i, (ind.foldl (fun a i => a.set i v) a)[i]? =
      if i ∈ ind ∧ i < a.length then some v else a[i]? := by
  induction ind generalizing a with
  | nil => simp
  | cons k ks ih =>
    obtain ⟨h1, h2⟩ := ih (a.set k v)
    refine ⟨by simpa using h1, fun i => ?_⟩
    rw [List.foldl_cons, h2 i, List.length_set, List.getElem?_set]
    by_cases hi : i < a.length
    · by_cases hk : k = i
      · subst hk; simp [hi]
      · have : i ≠ k := fun e => hk e.symm
        simp [hi, hk, this]
    · have : a[i]? = none := List.getElem?_eq_none (by omega)
      by_cases hk : k = i
      · subst hk; simp [hi]
      · simp [hi, hk]

theorem setAll_spec (a : List β) (ind : List Nat) (v : β) (h : ∀ i ∈ ind, i < a.length) :
    ∃ a', setAll a ind v = .ok a' ∧ a'.length = a.length ∧
      (∀ i ∈ ind, a'[i]? = some v) ∧ ∀ i, i ∉ ind → a'[i]? = a[i]? := by
  obtain ⟨h1, h2⟩ := foldl_set a ind v
  refine ⟨_, ?_, h1, fun i hi => ?_, fun i hi => ?_⟩
  · unfold setAll
    rw [if_neg]
    simp only [List.any_eq_true, decide_eq_true_eq, not_exists, not_and, not_le]
    exact h
  · rw [h2 i, if_pos ⟨hi, h i hi⟩]
  · rw [h2 i, if_neg fun h => hi h.1]

/-- C48. `add_block` gives the value to exactly the cells in the box, and leaves the others as in
the given model (one value per cell). -/
theorem C48_add_block [LinearOrder α] (C : Centers α) (model : List β) (p0 p1 : List α) (v : β)
    (hC : C.WF) (h0 : p0.length = C.d) (h1 : p1.length = C.d) (hd : 1 ≤ C.d) (hd' : C.d ≤ 3)
    (hf : C.flat = true ↔ C.d = 1) (hm : model.length = C.rows.length) :
    ∃ model', addBlock C model p0 p1 v = .ok model' ∧ model'.length = model.length ∧
      ∀ (i : Nat) row, C.rows[i]? = some row →
        (InBox p0 p1 row → model'[i]? = some v) ∧ (¬ InBox p0 p1 row → model'[i]? = model[i]?) := by
  obtain ⟨ind, hi, -, hmem⟩ := C48_indices p0 p1 C hC h0 h1 hd hd' hf
  obtain ⟨m', hm', hl, ha, hb⟩ := setAll_spec model ind v (by
    intro i h
    obtain ⟨row, hr, -⟩ := (hmem i).mp h
    have := (List.getElem?_eq_some_iff.mp hr).1
    omega)
  refine ⟨m', by simp only [addBlock, hi, hm'], hl, fun i row hr => ⟨fun h => ?_, fun h => ?_⟩⟩
  · exact ha i ((hmem i).mpr ⟨row, hr, h⟩)
  · refine hb i fun h' => h ?_
    obtain ⟨row', hr', h''⟩ := (hmem i).mp h'
    rw [hr] at hr'
    cases hr'
    exact h''

/-- C48. `create_block_in_wholespace`: the block value in the box, the background elsewhere. -/
theorem C48_create_block [LinearOrder α] (C : Centers α) (p0 p1 : List α) (bg v : β)
    (hC : C.WF) (h0 : p0.length = C.d) (h1 : p1.length = C.d) (hd : 1 ≤ C.d) (hd' : C.d ≤ 3)
    (hf : C.flat = true ↔ C.d = 1) :
    ∃ model, createBlock C p0 p1 bg v = .ok model ∧ model.length = C.rows.length ∧
      ∀ (i : Nat) row, C.rows[i]? = some row →
        (InBox p0 p1 row → model[i]? = some v) ∧ (¬ InBox p0 p1 row → model[i]? = some bg) := by
  obtain ⟨m', h, hl, hs⟩ := C48_add_block C (List.replicate C.rows.length bg) p0 p1 v hC h0 h1 hd
    hd' hf (by simp)
  refine ⟨m', h, by simpa using hl, fun i row hr => ⟨(hs i row hr).1, fun hn => ?_⟩⟩
  rw [(hs i row hr).2 hn, List.getElem?_replicate, if_pos (List.getElem?_eq_some_iff.mp hr).1]

/-- C48. A cell centre is in the sphere when its distance is strictly less than the radius. -/
theorem C48_sphere (center : List ℝ) (radius : ℝ) (rows : List (List ℝ)) (i : Nat) (r : List ℝ)
    (hr : rows[i]? = some r) :
    ∃ b : Prop, (getIndicesSphere center radius rows)[i]? = some b ∧
      (b ↔ 0 < radius ∧ (List.zipWith (fun c x => (c - x) ^ 2) center r).sum < radius ^ 2) := by
  refine ⟨_, by rw [getIndicesSphere, List.getElem?_map, hr]; rfl, ?_⟩
  have hs : 0 ≤ (List.zipWith (fun c x => (c - x) ^ 2) center r).sum := by
    apply List.sum_nonneg
    intro x hx
    obtain ⟨j, hj, rfl⟩ := List.getElem_of_mem hx
    rw [List.getElem_zipWith]
    exact sq_nonneg _
  constructor
  · intro h
    have hp : 0 < radius := lt_of_le_of_lt (Real.sqrt_nonneg _) h
    exact ⟨hp, (Real.sqrt_lt' hp).mp h⟩
  · rintro ⟨hp, h⟩
    exact (Real.sqrt_lt' hp).mpr h

/-- Corners in mixed order on three two-dimensional cells: only the first cell is inside. -/
example : getIndicesBlock [2, 0] [0, 1] ⟨false, 2, [[1, 1], [1, 3], [5, 0]]⟩ =
    (.ok [0] : Except Err (List Nat)) := by decide

/-! ### C57 -/

theorem layerOf_append (z : Rat) (l : List (Rat × Rat)) (p : Rat × Rat) :
    layerOf z (l ++ [p]) = if z ≤ p.1 then p.2 else layerOf z l := by
  simp [layerOf, List.foldl_append]

theorem layerOf_above (z : Rat) (l : List (Rat × Rat)) (h : ∀ p ∈ l, p.1 < z) :
    layerOf z l = 0 := by
  induction l using List.reverseRecOn with
  | nil => rfl
  | append_singleton l p ih =>
    rw [layerOf_append, if_neg (not_le.mpr (h p (by simp)))]
    exact ih fun q hq => h q (by simp [hq])

theorem layerOf_last (z : Rat) (pre post : List (Rat × Rat)) (p : Rat × Rat) (hp : z ≤ p.1)
    (h : ∀ q ∈ post, q.1 < z) : layerOf z (pre ++ p :: post) = p.2 := by
  induction post using List.reverseRecOn with
  | nil => rw [layerOf_append, if_pos hp]
  | append_singleton post q ih =>
    rw [show pre ++ p :: (post ++ [q]) = (pre ++ p :: post) ++ [q] by simp, layerOf_append,
      if_neg (not_le.mpr (h q (by simp)))]
    exact ih fun q' hq' => h q' (by simp [hq'])

/-- C57. With layer tops given from top to bottom, a cell has the value of the layer in which it
lies: its centre is not above the top of that layer, and is above the top of the next, if there is
one; above the top of the first layer it is 0. -/
theorem C57_layers (zs tops values : List Rat) (hl : values.length = tops.length)
    (hs : tops.Pairwise (· ≥ ·)) :
    ∃ model, createLayers zs tops values = .ok model ∧ model.length = zs.length ∧
      ∀ (j : Nat) (z : Rat), zs[j]? = some z →
        (∀ (i : Nat) (t v : Rat), tops[i]? = some t → values[i]? = some v → z ≤ t →
          (∀ t', tops[i + 1]? = some t' → t' < z) → model[j]? = some v) ∧
        ((∀ t, tops[0]? = some t → t < z) → model[j]? = some 0) := by
  have hsort : tops.insertionSort (· ≥ ·) = tops := hs.insertionSort_eq
  refine ⟨zs.map fun z => layerOf z (tops.zip values), ?_, by simp, fun j z hz => ⟨?_, ?_⟩⟩
  · unfold createLayers
    rw [if_pos hsort, if_neg (by omega)]
  · intro i t v ht hv hzt hnext
    rw [List.getElem?_map, hz]
    simp only [Option.map_some, Option.some.injEq]
    have hti := (List.getElem?_eq_some_iff.mp ht)
    have hvi := (List.getElem?_eq_some_iff.mp hv)
    obtain ⟨hti1, hti2⟩ := hti
    obtain ⟨hvi1, hvi2⟩ := hvi
    have hzl : i < (tops.zip values).length := by rw [List.length_zip]; omega
    have hzi : (tops.zip values)[i] = (t, v) := by rw [List.getElem_zip, hti2, hvi2]
    have hsplit : tops.zip values =
        (tops.zip values).take i ++ (t, v) :: (tops.zip values).drop (i + 1) := by
      rw [← hzi, ← List.drop_eq_getElem_cons hzl, List.take_append_drop]
    rw [hsplit]
    refine layerOf_last z _ _ (t, v) hzt ?_
    intro q hq
    obtain ⟨k, hk, rfl⟩ := List.getElem_of_mem hq
    rw [List.getElem_drop, List.getElem_zip]
    simp only [List.length_drop, List.length_zip] at hk
    have hlt : i + 1 + k < tops.length := by omega
    have h1 : i + 1 < tops.length := by omega
    have hn := hnext tops[i + 1] (List.getElem?_eq_getElem h1)
    rcases Nat.eq_zero_or_pos k with h0 | h0
    · subst h0
      simpa using hn
    · have := List.pairwise_iff_getElem.mp hs (i + 1) (i + 1 + k) h1 hlt (by omega)
      exact lt_of_le_of_lt this hn
  · intro h0
    rw [List.getElem?_map, hz]
    simp only [Option.map_some, Option.some.injEq]
    refine layerOf_above z _ fun p hp => ?_
    obtain ⟨k, hk, rfl⟩ := List.getElem_of_mem hp
    rw [List.getElem_zip]
    simp only [List.length_zip] at hk
    have hk' : k < tops.length := by omega
    have h00 : 0 < tops.length := by omega
    have hn := h0 tops[0] (List.getElem?_eq_getElem h00)
    rcases Nat.eq_zero_or_pos k with h1 | h1
    · subst h1; exact hn
    · exact lt_of_le_of_lt (List.pairwise_iff_getElem.mp hs 0 k h00 hk' h1) hn

/-- C57 (violation). Layers listed from bottom to top, which the function sorts itself, are not
kept together with their values: the layer with top 0 has value 7, yet a cell in it gets 3. -/
theorem C57_ascending_values_swapped : createLayers [-1] [0, 10] [7, 3] = .ok [3] := by
  decide +kernel

theorem inBox_append [LinearOrder α] (a b r : List α) (x y z : α) (h1 : a.length = b.length)
    (h2 : r.length = a.length) :
    InBox (a ++ [x]) (b ++ [y]) (r ++ [z]) ↔ InBox a b r ∧ Between x y z := by
  induction a generalizing b r with
  | nil =>
    cases b with
    | nil => cases r with
      | nil => simp [InBox]
      | cons _ _ => simp at h2
    | cons _ _ => simp at h1
  | cons c a ih =>
    cases b with
    | nil => simp at h1
    | cons d b =>
      cases r with
      | nil => simp at h2
      | cons w r =>
        simp only [List.length_cons, Nat.add_right_cancel_iff] at h1 h2
        simp only [List.cons_append, InBox, ih b r h1 h2, and_assoc]

theorem lowerLast_append [Sub α] (depth z : α) (h : List α) :
    lowerLast depth (h ++ [z]) = h ++ [z - depth] := by
  induction h with
  | nil => rfl
  | cons x xs ih =>
    cases xs with
    | nil => rfl
    | cons y ys =>
      have : lowerLast depth ((x :: y :: ys) ++ [z]) = x :: lowerLast depth ((y :: ys) ++ [z]) := rfl
      rw [this, ih]
      rfl

/-- C57 (violation). On a mesh whose first cell is lowest and last highest, both at the horizontal
extremes (the numbering of tensor meshes), the top value is given to the cells *below* the
interface at `depth` under the last cell centre, and the bottom value to those above. -/
theorem C57_two_layer_upside_down (flatd : Nat) (rows : List (List Rat)) (h0 h1 : List Rat)
    (z0 z1 depth : Rat) (top bottom : β) (hd : 2 ≤ flatd) (hd' : flatd ≤ 3)
    (hrows : ∀ r ∈ rows, r.length = flatd)
    (hfirst : rows.head? = some (h0 ++ [z0])) (hlast : rows.getLast? = some (h1 ++ [z1]))
    (hdepth : z0 ≤ z1 - depth)
    (hext : ∀ r ∈ rows, ∃ h z, r = h ++ [z] ∧ InBox h0 h1 h ∧ z0 ≤ z) :
    ∃ model, createTwoLayer ⟨false, flatd, rows⟩ depth top bottom = .ok model ∧
      ∀ (i : Nat) h z, rows[i]? = some (h ++ [z]) →
        (z ≤ z1 - depth → model[i]? = some top) ∧ (z1 - depth < z → model[i]? = some bottom) := by
  have hf0 := hrows _ (List.mem_of_mem_head? (by rw [hfirst]; rfl))
  have hl0 := hrows _ (List.mem_of_getLast? hlast)
  simp only [List.length_append, List.length_cons, List.length_nil] at hf0 hl0
  obtain ⟨model, hm, -, hs⟩ := C48_create_block ⟨false, flatd, rows⟩ (h0 ++ [z0])
    (h1 ++ [z1 - depth]) bottom top ⟨hrows, by simp⟩ (by simpa using hf0) (by simpa using hl0)
    (by simp only; omega) hd' (by simp only [Bool.false_eq_true, false_iff]; omega)
  refine ⟨model, ?_, fun i h z hr => ?_⟩
  · unfold createTwoLayer
    simp only [Bool.false_eq_true, if_false, hfirst, hlast, lowerLast_append]
    exact hm
  · have hmem := List.mem_of_getElem? hr
    obtain ⟨h', z', he, hbox, hz⟩ := hext _ hmem
    have hlen := hrows _ hmem
    simp only [List.length_append, List.length_cons, List.length_nil] at hlen
    obtain ⟨rfl, hzz⟩ := List.append_inj' he rfl
    cases hzz
    have hib : InBox (h0 ++ [z0]) (h1 ++ [z1 - depth]) (h ++ [z]) ↔ Between z0 (z1 - depth) z := by
      rw [inBox_append _ _ _ _ _ _ (by omega) (by omega)]
      exact ⟨fun h => h.2, fun h => ⟨hbox, h⟩⟩
    constructor
    · intro hz1
      exact (hs i _ hr).1 (hib.mpr (Or.inl ⟨hz, hz1⟩))
    · intro hz1
      refine (hs i _ hr).2 fun hb => ?_
      rcases hib.mp hb with hb | hb
      · exact absurd hb.2 (not_le.mpr hz1)
      · exact absurd (le_trans hb.2 hdepth) (not_le.mpr hz1)

/-- The hypotheses hold for a column of three cells with centres 0, 1, 2: with an interface at
depth 1 the lower two cells get the top value. -/
example : createTwoLayer (⟨false, 2, [[0, 0], [0, 1], [0, 2]]⟩ : Centers Rat) 1 'T' 'B' =
    .ok ['T', 'T', 'B'] := by decide +kernel

end Props
end Verif.Utils.Blocks
