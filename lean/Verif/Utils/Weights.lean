import Verif.Basic
import Mathlib.Analysis.SpecialFunctions.Pow.Real
import Mathlib.Tactic.Linarith
import Mathlib.Tactic.Positivity
import Mathlib.Tactic.FieldSimp
import Mathlib.Tactic.NormNum

/-!
# Depth weights and distance weights

Models `depth_weighting`, `_distance_weighting_numba` and `distance_weighting` of
`simpeg/utils/model_utils.py`.

Floating point numbers are replaced by real numbers together with the two infinities and
the not-a-number value, because powers of zero and divisions of zero by zero are reachable
through the arguments of these functions.  Rounding is not modelled.
The nearest-neighbour query of `cKDTree` (a library) is a parameter of the model: any
function that returns a nearest point is admitted, so ties may be broken in any way.
-/

namespace Verif.Utils.Weights

open Verif

/-! ## Numbers -/

/-- A float: a real number, an infinity or not-a-number. -/
inductive Num where
  | fin (x : ℝ)
  | inf
  | ninf
  | nan

namespace Num

/-- numpy `b ** e` on floats: `0 ** e` is infinite for negative `e`; a negative base with a
power that is not an integer is not-a-number (used in `model_utils.py` 166, 219, 332). -/
noncomputable def pow (b e : ℝ) : Num :=
  if 0 < b then fin (b ^ e)
  else if b = 0 then (if e < 0 then inf else if e = 0 then fin 1 else fin 0)
  else if e = (⌊e⌋ : ℝ) then fin (b ^ ⌊e⌋) else nan

/-- numpy `x ** -2` (used in `model_utils.py` 332). -/
noncomputable def powNegTwo : Num → Num
  | fin y => if y = 0 then inf else fin (1 / y ^ 2)
  | inf => fin 0
  | ninf => fin 0
  | nan => nan

/-- Float addition. -/
noncomputable def add : Num → Num → Num
  | nan, _ => nan
  | _, nan => nan
  | inf, ninf => nan
  | ninf, inf => nan
  | inf, _ => inf
  | _, inf => inf
  | ninf, _ => ninf
  | _, ninf => ninf
  | fin x, fin y => fin (x + y)

/-- `np.sqrt` and `** 0.5` on what the sums can hold. -/
noncomputable def sqrt : Num → Num
  | fin x => if 0 ≤ x then fin (Real.sqrt x) else nan
  | inf => inf
  | ninf => nan
  | nan => nan

/-- The larger of two floats, where not-a-number loses (`np.fmax`, what `np.nanmax` folds). -/
noncomputable def fmax : Num → Num → Num
  | nan, b => b
  | a, nan => a
  | inf, _ => inf
  | _, inf => inf
  | ninf, b => b
  | a, ninf => a
  | fin x, fin y => fin (max x y)

/-- Float division. -/
noncomputable def div : Num → Num → Num
  | nan, _ => nan
  | _, nan => nan
  | fin x, fin y =>
    if y = 0 then (if 0 < x then inf else if x < 0 then ninf else nan) else fin (x / y)
  | fin _, inf => fin 0
  | fin _, ninf => fin 0
  | inf, fin y => if y < 0 then ninf else inf
  | ninf, fin y => if y < 0 then inf else ninf
  | inf, inf => nan
  | inf, ninf => nan
  | ninf, inf => nan
  | ninf, ninf => nan

end Num

open Num

/-- `np.nanmax`: an empty array has no maximum (`ValueError`); an array of not-a-numbers
gives not-a-number.  Used in `model_utils.py` 171, 222, 335. -/
noncomputable def nanmax (l : List Num) : Except Err Num :=
  if l.isEmpty then .error .valueError else .ok (l.foldl fmax nan)

/-- `w / np.nanmax(w)`: `model_utils.py` 171, 222, 335. -/
noncomputable def normalise (l : List Num) : Except Err (List Num) :=
  match nanmax l with
  | .error e => .error e
  | .ok M => .ok (l.map fun x => div x M)

/-! ## The arguments -/

/-- What the functions read of a mesh: `mesh.dim`, the rows of `mesh.cell_centers` and the
entries of `mesh.h_gridded`. -/
structure Mesh where
  dim : ℕ
  centers : List (List ℝ)
  widths : List ℝ

/-- `reference_locs` by number of axes; a table carries its number of columns, because it
may have no rows. -/
inductive Ref where
  | scalar (z : ℝ)
  | vector (v : List ℝ)
  | table (columns : ℕ) (rows : List (List ℝ))
  | higher

/-- Last column of a row: `[:, -1]`. -/
def vert (p : List ℝ) : ℝ := p.getLastD 0

/-- All but the last column of a row: `[:, :-1]`. -/
def hor (p : List ℝ) : List ℝ := p.dropLast

/-- Smallest entry of an array (`.min()`). -/
noncomputable def least : List ℝ → ℝ
  | [] => 0
  | a :: l => l.foldl min a

/-- The threshold in force: `model_utils.py` 147-148 and 285-286. -/
noncomputable def threshold (m : Mesh) : Option ℝ → ℝ
  | some t => t
  | none => (1 / 2) * least m.widths

/-- Index an array with a boolean mask; a mask of another length is an `IndexError`
(`model_utils.py` 168-169 and 280-282, 289).  Integer index arrays are not modelled. -/
def select {α : Type} (active : Option (List Bool)) (l : List α) : Except Err (List α) :=
  match active with
  | none => .ok l
  | some a =>
    if a.length = l.length then .ok (((l.zip a).filter fun p => p.2).map fun p => p.1)
    else .error .indexError

/-! ## Depth weighting -/

/-- Vertical distances to the reference, one per cell: `model_utils.py` 150-164.
`query pts p` is the index found by `cKDTree(pts).query(p)`.
Meshes of one dimension are not modelled. -/
noncomputable def deltaZ (query : List (List ℝ) → List ℝ → ℕ) (m : Mesh) :
    Ref → Except Err (List ℝ)
  | .scalar r => .ok (m.centers.map fun c => |vert c - r|)
  | .vector v =>
    if v.length = m.centers.length then
      .ok (List.zipWith (fun c r => |vert c - r|) m.centers v)
    else match v, m.centers with
      | [r], cs => .ok (cs.map fun c => |vert c - r|)
      | rs, [c] => .ok (rs.map fun r => |vert c - r|)
      | _, _ => .error .valueError
  | .table columns rows =>
    if columns ≠ m.dim then .error .valueError
    else m.centers.mapM fun c =>
      match rows[query (rows.map hor) (hor c)]? with
      | some r => .ok |vert c - vert r|
      | none => .error .indexError
  | .higher => .error .valueError

/-- `depth_weighting`: `model_utils.py` 79-171.  `keywords` are the names of the further
keyword arguments. -/
noncomputable def depthWeighting (query : List (List ℝ) → List ℝ → ℕ) (m : Mesh) (ref : Ref)
    (active : Option (List Bool)) (exponent : ℝ) (thr : Option ℝ) (keywords : List String) :
    Except Err (List Num) :=
  if "indActive" ∈ keywords then .error .typeError
  else
    match deltaZ query m ref with
    | .error e => .error e
    | .ok dz =>
      match select active (dz.map fun d => Num.pow (d + threshold m thr) (-(1 / 2) * exponent)) with
      | .error e => .error e
      | .ok wz => normalise wz

/-! ## Distance weighting -/

/-- Distance of two points: `np.sqrt(((a - b) ** 2).sum())`, `model_utils.py` 218, and the
default metric of `cdist`. -/
noncomputable def euclid (a b : List ℝ) : ℝ :=
  Real.sqrt ((List.zipWith (fun x y => (x - y) ^ 2) a b).sum)

/-- Inner loop of the numba kernel: `model_utils.py` 216-219, starting from the zero of
line 213. -/
noncomputable def kernelSum (c : List ℝ) (refs : List (List ℝ)) (thr exponent : ℝ) : Num :=
  refs.foldl (fun s r => Num.add s (Num.pow (euclid c r + thr) (-2 * exponent))) (fin 0)

/-- Outer loop of the numba kernel: `model_utils.py` 213-219.  `order` is the order in which
the iterations of `prange` are carried out. -/
noncomputable def kernelLoop (order : List ℕ) (cells refs : List (List ℝ)) (thr exponent : ℝ) :
    List Num :=
  order.foldl (fun out j => out.set j (kernelSum (cells.getD j []) refs thr exponent))
    (List.replicate cells.length (fin 0))

/-- `_distance_weighting_numba`: `model_utils.py` 175-223. -/
noncomputable def kernel (order : List ℕ) (cells refs : List (List ℝ)) (thr exponent : ℝ) :
    Except Err (List Num) :=
  normalise ((kernelLoop order cells refs thr exponent).map Num.sqrt)

/-- The scipy engine: `model_utils.py` 329-335; `metric` is the metric of `cdist`. -/
noncomputable def scipyEngine (metric : List ℝ → List ℝ → ℝ) (cells refs : List (List ℝ))
    (thr exponent : ℝ) : Except Err (List Num) :=
  normalise (cells.map fun c =>
    Num.sqrt ((refs.map fun r => Num.powNegTwo (Num.pow (metric c r + thr) exponent)).foldl
      Num.add (fin 0)))

/-- Reference locations as a table, with its number of columns: `np.atleast_2d` and the
reshape of the one-dimensional case, `model_utils.py` 288-294.  Arrays with more than two
axes are rejected here; the code looks at their second axis only. -/
def refTable (m : Mesh) : Ref → Except Err (ℕ × List (List ℝ))
  | .scalar z => .ok (1, [[z]])
  | .vector v => if m.dim = 1 then .ok (1, v.map fun z => [z]) else .ok (v.length, [v])
  | .table columns rows =>
    if m.dim = 1 then .ok (1, rows.flatten.map fun z => [z]) else .ok (columns, rows)
  | .higher => .error .valueError

/-- `distance_weighting`: `model_utils.py` 226-342.  `opts` is `cdist_opts`, given by the
metric it selects. -/
noncomputable def distanceWeighting (order : List ℕ) (m : Mesh) (ref : Ref)
    (active : Option (List Bool)) (exponent : ℝ) (thr : Option ℝ) (engine : String)
    (opts : Option (List ℝ → List ℝ → ℝ)) : Except Err (List Num) :=
  match refTable m ref with
  | .error e => .error e
  | .ok (columns, refs) =>
    match select active m.centers with
    | .error e => .error e
    | .ok cells =>
      if columns ≠ m.dim then .error .valueError
      else if engine = "numba" ∧ opts.isSome then .error .typeError
      else if engine = "numba" then kernel order cells refs (threshold m thr) exponent
      else if engine = "scipy" then
        scipyEngine (opts.getD euclid) cells refs (threshold m thr) exponent
      else .error .valueError

/-! ## Specification -/

namespace Spec

/-- Documented depth weight `1 / (|z - z₀| + ε) ^ (ν / 2)` (`model_utils.py` 130). -/
noncomputable def depth (z z₀ ε ν : ℝ) : ℝ := 1 / (|z - z₀| + ε) ^ (ν / 2)

/-- Distance weight: root of the sum over the locations of `1 / (d + ε) ^ (2 ν)`. -/
noncomputable def distance (c : List ℝ) (refs : List (List ℝ)) (ε ν : ℝ) : ℝ :=
  Real.sqrt ((refs.map fun r => 1 / (euclid c r + ε) ^ (2 * ν)).sum)

/-- `out` holds the numbers of `w` divided by the largest of them. -/
def Normalised (w : List ℝ) (out : List Num) : Prop :=
  ∃ M ∈ w, (∀ x ∈ w, x ≤ M) ∧ out = w.map fun x => fin (x / M)

/-- The entries of `l` that a mask keeps. -/
def keptBy {α : Type} : List Bool → List α → List α
  | true :: a, x :: l => x :: keptBy a l
  | false :: a, _ :: l => keptBy a l
  | _, _ => []

/-- The entries of `l` that are active; without a mask all of them are. -/
def kept {α : Type} : Option (List Bool) → List α → List α
  | none, l => l
  | some a, l => keptBy a l

/-- The mask is as long as the array. -/
def Fits (active : Option (List Bool)) (n : ℕ) : Prop := ∀ a, active = some a → a.length = n

/-- A query finds a nearest point. -/
def Nearest (query : List (List ℝ) → List ℝ → ℕ) : Prop :=
  ∀ (pts : List (List ℝ)) (p : List ℝ), pts ≠ [] →
    ∃ q, pts[query pts p]? = some q ∧ ∀ q' ∈ pts, euclid p q ≤ euclid p q'

end Spec

open Spec

/-! ## Lemmas -/

theorem select_eq {α : Type} (active : Option (List Bool)) (l : List α)
    (h : Fits active l.length) : select active l = .ok (kept active l) := by
  cases active with
  | none => rfl
  | some a =>
    have h' := h a rfl
    simp only [select, h', if_true]
    congr 1
    clear h
    induction a generalizing l with
    | nil =>
      cases l with
      | nil => rfl
      | cons x l => simp at h'
    | cons b a ih =>
      cases l with
      | nil => simp at h'
      | cons x l =>
        have ih' := ih l (by simpa using h')
        simp only [kept] at ih' ⊢
        cases b <;> simp [keptBy, ih']

theorem kept_map {α β : Type} (f : α → β) (active : Option (List Bool)) (l : List α) :
    kept active (l.map f) = (kept active l).map f := by
  cases active with
  | none => rfl
  | some a =>
    simp only [kept]
    induction a generalizing l with
    | nil => cases l <;> simp [keptBy]
    | cons b a ih =>
      cases l with
      | nil => cases b <;> simp [keptBy]
      | cons x l => cases b <;> simp [keptBy, ih]

theorem fold_fin (a : ℝ) (l : List ℝ) :
    (l.map fin).foldl fmax (fin a) = fin (l.foldl max a) := by
  induction l generalizing a with
  | nil => rfl
  | cons b l ih => simpa [fmax] using ih (max a b)

theorem fold_max (a : ℝ) (l : List ℝ) :
    l.foldl max a ∈ a :: l ∧ ∀ x ∈ a :: l, x ≤ l.foldl max a := by
  induction l generalizing a with
  | nil => simp
  | cons b l ih =>
    obtain ⟨h1, h2⟩ := ih (max a b)
    simp only [List.foldl_cons]
    refine ⟨?_, ?_⟩
    · rcases List.mem_cons.1 h1 with h | h
      · rw [h]
        rcases max_choice a b with e | e <;> rw [e] <;> simp
      · simp [h]
    · intro x hx
      have hm := h2 (max a b) (by simp)
      rcases List.mem_cons.1 hx with rfl | hx
      · exact le_trans (le_max_left _ _) hm
      · rcases List.mem_cons.1 hx with rfl | hx
        · exact le_trans (le_max_right _ _) hm
        · exact h2 x (by simp [hx])

theorem normalise_fin (w : List ℝ) (hw : w ≠ []) (hp : ∀ x ∈ w, 0 < x) :
    ∃ out, normalise (w.map fin) = .ok out ∧ Normalised w out := by
  cases w with
  | nil => exact absurd rfl hw
  | cons a l =>
    obtain ⟨h1, h2⟩ := fold_max a l
    have hM : 0 < l.foldl max a := hp _ h1
    have e : nanmax ((a :: l).map fin) = .ok (fin (l.foldl max a)) := by
      simp only [nanmax, List.map_cons, List.isEmpty_cons, Bool.false_eq_true, if_false,
        List.foldl_cons, fmax, fold_fin]
    refine ⟨_, by rw [normalise, e], l.foldl max a, h1, h2, ?_⟩
    rw [List.map_map]
    refine List.map_congr_left fun x _ => ?_
    simp [div, hM.ne']

/-- What normalising positive numbers gives is determined by the numbers. -/
theorem normalised_unique {w : List ℝ} {o1 o2 : List Num} (h1 : Normalised w o1)
    (h2 : Normalised w o2) : o1 = o2 := by
  obtain ⟨M1, m1, u1, rfl⟩ := h1
  obtain ⟨M2, m2, u2, rfl⟩ := h2
  rw [le_antisymm (u2 _ m1) (u1 _ m2)]

theorem depth_pow (d t ν : ℝ) (hd : 0 ≤ d) (ht : 0 < t) :
    Num.pow (d + t) (-(1 / 2) * ν) = fin (1 / (d + t) ^ (ν / 2)) := by
  have h : 0 < d + t := by linarith
  simp only [Num.pow, h, if_true]
  rw [show -(1 / 2) * ν = -(ν / 2) by ring, Real.rpow_neg h.le, one_div]

theorem least_le (a : ℝ) (l : List ℝ) : l.foldl min a ∈ a :: l := by
  induction l generalizing a with
  | nil => simp
  | cons b l ih =>
    simp only [List.foldl_cons]
    rcases List.mem_cons.1 (ih (min a b)) with h | h
    · rw [h]; rcases min_choice a b with e | e <;> rw [e] <;> simp
    · simp [h]

theorem least_mem (l : List ℝ) (h : l ≠ []) : least l ∈ l := by
  cases l with
  | nil => exact absurd rfl h
  | cons a l => exact least_le a l

theorem least_lower (a : ℝ) (l : List ℝ) : ∀ x ∈ a :: l, l.foldl min a ≤ x := by
  induction l generalizing a with
  | nil => simp
  | cons b l ih =>
    intro x hx
    simp only [List.foldl_cons]
    have hm := ih (min a b) (min a b) (by simp)
    rcases List.mem_cons.1 hx with rfl | hx
    · exact le_trans hm (min_le_left _ _)
    · rcases List.mem_cons.1 hx with rfl | hx
      · exact le_trans hm (min_le_right _ _)
      · exact ih (min a b) x (by simp [hx])

/-! ## Theorems: depth weighting -/

/-- The default threshold is half of the smallest cell width, and is positive. -/
theorem C150_threshold (m : Mesh) (hne : m.widths ≠ []) (hw : ∀ h ∈ m.widths, 0 < h) :
    (∃ h ∈ m.widths, (∀ h' ∈ m.widths, h ≤ h') ∧ threshold m none = h / 2)
      ∧ 0 < threshold m none := by
  have h1 := least_mem m.widths hne
  have h2 : ∀ h' ∈ m.widths, least m.widths ≤ h' := by
    cases e : m.widths with
    | nil => simp
    | cons a l => exact least_lower a l
  have h3 := hw _ h1
  refine ⟨⟨_, h1, h2, ?_⟩, ?_⟩
  · simp only [threshold]; ring
  · simp only [threshold]; linarith

example : threshold ⟨2, [[0, 0], [0, -3]], [4, 2, 4, 4]⟩ none = 1 := by
  norm_num [threshold, least]

/-- Core of the depth theorems: whatever the reference heights are. -/
theorem depth_core (query : List (List ℝ) → List ℝ → ℕ) (m : Mesh) (ref : Ref)
    (active : Option (List Bool)) (ν : ℝ) (thr : Option ℝ) (kw : List String)
    (hkw : "indActive" ∉ kw) (ht : 0 < threshold m thr) (zs : List (ℝ × ℝ))
    (hd : deltaZ query m ref = .ok (zs.map fun p => |p.1 - p.2|))
    (hfit : Fits active zs.length) (hne : kept active zs ≠ []) :
    ∃ out, depthWeighting query m ref active ν thr kw = .ok out ∧
      Normalised ((kept active zs).map fun p => depth p.1 p.2 (threshold m thr) ν) out := by
  have e1 : (zs.map fun p => |p.1 - p.2|).map
        (fun d => Num.pow (d + threshold m thr) (-(1 / 2) * ν))
      = (zs.map fun p => depth p.1 p.2 (threshold m thr) ν).map fin := by
    rw [List.map_map, List.map_map]
    refine List.map_congr_left fun p _ => ?_
    exact depth_pow _ _ _ (abs_nonneg _) ht
  simp only [depthWeighting, hkw, if_false, hd, e1]
  rw [select_eq _ _ (by simpa using hfit)]
  simp only [kept_map]
  refine normalise_fin _ (by simpa using hne) ?_
  intro x hx
  obtain ⟨p, _, rfl⟩ := List.mem_map.1 hx
  have : 0 < |p.1 - p.2| + threshold m thr := by
    have := abs_nonneg (p.1 - p.2); linarith
  exact one_div_pos.2 (Real.rpow_pos_of_pos this _)

/-- **Depth weights below one reference height.**  With a positive threshold the result
holds, for the active cells in order, the documented weight divided by the largest one. -/
theorem C150_depth_scalar (query : List (List ℝ) → List ℝ → ℕ) (m : Mesh) (r : ℝ)
    (active : Option (List Bool)) (ν : ℝ) (thr : Option ℝ) (kw : List String)
    (hkw : "indActive" ∉ kw) (ht : 0 < threshold m thr)
    (hfit : Fits active m.centers.length) (hne : kept active m.centers ≠ []) :
    ∃ out, depthWeighting query m (.scalar r) active ν thr kw = .ok out ∧
      Normalised ((kept active m.centers).map fun c => depth (vert c) r (threshold m thr) ν)
        out := by
  have h := depth_core query m (.scalar r) active ν thr kw hkw ht
    (m.centers.map fun c => (vert c, r)) (by simp [deltaZ]) (by simpa using hfit)
    (by rw [kept_map]; simpa using hne)
  rw [kept_map, List.map_map] at h
  exact h

/-- **Depth weights below reference locations.**  The height used for a cell is that of a
location which no other location beats in horizontal distance. -/
theorem C150_depth_table (query : List (List ℝ) → List ℝ → ℕ) (hq : Nearest query) (m : Mesh)
    (rows : List (List ℝ)) (hrows : rows ≠ [])
    (active : Option (List Bool)) (ν : ℝ) (thr : Option ℝ) (kw : List String)
    (hkw : "indActive" ∉ kw) (ht : 0 < threshold m thr)
    (hfit : Fits active m.centers.length) (hne : kept active m.centers ≠ []) :
    ∃ near : List ℝ → List ℝ,
      (∀ c, near c ∈ rows ∧ ∀ r ∈ rows, euclid (hor c) (hor (near c)) ≤ euclid (hor c) (hor r)) ∧
      ∃ out, depthWeighting query m (.table m.dim rows) active ν thr kw = .ok out ∧
        Normalised ((kept active m.centers).map fun c =>
          depth (vert c) (vert (near c)) (threshold m thr) ν) out := by
  have hrow : ∀ c : List ℝ, ∃ r, rows[query (rows.map hor) (hor c)]? = some r ∧ r ∈ rows ∧
      ∀ r' ∈ rows, euclid (hor c) (hor r) ≤ euclid (hor c) (hor r') := by
    intro c
    obtain ⟨q, h1, h2⟩ := hq (rows.map hor) (hor c) (by simpa using hrows)
    rw [List.getElem?_map] at h1
    obtain ⟨r, h3, rfl⟩ := Option.map_eq_some_iff.1 h1
    exact ⟨r, h3, List.mem_of_getElem? h3,
      fun r' hr' => h2 _ (List.mem_map.2 ⟨r', hr', rfl⟩)⟩
  choose near hnear using hrow
  refine ⟨near, fun c => ⟨(hnear c).2.1, (hnear c).2.2⟩, ?_⟩
  have hd : deltaZ query m (.table m.dim rows)
      = .ok ((m.centers.map fun c => (vert c, vert (near c))).map fun p => |p.1 - p.2|) := by
    simp only [deltaZ, ne_eq, not_true_eq_false, if_false, (hnear _).1]
    generalize m.centers = cs
    induction cs with
    | nil => rfl
    | cons c cs ih =>
      rw [List.mapM_cons, ih]; rfl
  have h := depth_core query m (.table m.dim rows) active ν thr kw hkw ht
    (m.centers.map fun c => (vert c, vert (near c))) hd (by simpa using hfit)
    (by rw [kept_map]; simpa using hne)
  rw [kept_map, List.map_map] at h
  exact h

/-- Two cells, two locations, one of them inactive: the hypotheses are met. -/
example : Fits (some [true, false]) 2 ∧ kept (some [true, false]) [[0, -1], [(0 : ℝ), -3]] ≠ [] := by
  constructor
  · intro a h; cases h; rfl
  · simp [kept, keptBy]

/-- A query that takes a least element exists, so `Nearest` is not empty. -/
theorem nearest_exists : ∃ query, Nearest query := by
  have : ∀ (pts : List (List ℝ)) (p : List ℝ), ∃ i : ℕ, pts ≠ [] →
      ∃ q, pts[i]? = some q ∧ ∀ q' ∈ pts, euclid p q ≤ euclid p q' := by
    intro pts p
    induction pts with
    | nil => exact ⟨0, fun h => absurd rfl h⟩
    | cons a l ih =>
      obtain ⟨i, hi⟩ := ih
      by_cases hl : l = []
      · subst hl
        exact ⟨0, fun _ => ⟨a, rfl, by simp⟩⟩
      · obtain ⟨q, h1, h2⟩ := hi hl
        by_cases hc : euclid p a ≤ euclid p q
        · refine ⟨0, fun _ => ⟨a, rfl, ?_⟩⟩
          intro q' hq'
          rcases List.mem_cons.1 hq' with rfl | h
          · exact le_refl _
          · exact le_trans hc (h2 _ h)
        · refine ⟨i + 1, fun _ => ⟨q, by simpa using h1, ?_⟩⟩
          intro q' hq'
          rcases List.mem_cons.1 hq' with rfl | h
          · exact (not_le.1 hc).le
          · exact h2 _ h
  choose f hf using this
  exact ⟨f, hf⟩

/-- **Normalised weights lie in `(0, 1]` and one of them is one.** -/
theorem C150_range (w : List ℝ) (hp : ∀ x ∈ w, 0 < x) (out : List Num) (h : Normalised w out) :
    out.length = w.length ∧ (∀ o ∈ out, ∃ y, o = fin y ∧ 0 < y ∧ y ≤ 1) ∧ fin 1 ∈ out := by
  obtain ⟨M, hM, hu, rfl⟩ := h
  have h0 := hp M hM
  refine ⟨by simp, ?_, ?_⟩
  · intro o ho
    obtain ⟨x, hx, rfl⟩ := List.mem_map.1 ho
    exact ⟨_, rfl, div_pos (hp x hx) h0, (div_le_one h0).2 (hu x hx)⟩
  · exact List.mem_map.2 ⟨M, hM, by rw [div_self h0.ne']⟩

example : Normalised [1, 2] [fin (1 / 2), fin (2 / 2)] :=
  ⟨2, by simp, by simp, by simp⟩

theorem depth_pos (z z₀ ε ν : ℝ) (hε : 0 < ε) : 0 < depth z z₀ ε ν := by
  have : 0 < |z - z₀| + ε := by have := abs_nonneg (z - z₀); linarith
  exact one_div_pos.2 (Real.rpow_pos_of_pos this _)

/-- **Weights decrease with depth.**  Of two active cells the one farther from the
reference height does not weigh more; strictly less when the exponent is positive. -/
theorem C150_depth_decreases (query : List (List ℝ) → List ℝ → ℕ) (m : Mesh) (r : ℝ)
    (active : Option (List Bool)) (ν : ℝ) (hν : 0 < ν) (thr : Option ℝ)
    (ht : 0 < threshold m thr) (out : List Num)
    (hfit : Fits active m.centers.length) (hne : kept active m.centers ≠ [])
    (hout : depthWeighting query m (.scalar r) active ν thr [] = .ok out)
    (i j : ℕ) (a b : List ℝ) (ha : (kept active m.centers)[i]? = some a)
    (hb : (kept active m.centers)[j]? = some b) (h : |vert a - r| < |vert b - r|) :
    ∃ x y, out[i]? = some (fin x) ∧ out[j]? = some (fin y) ∧ y < x := by
  obtain ⟨out', e, hn⟩ := C150_depth_scalar query m r active ν thr [] (by simp) ht hfit hne
  rw [hout] at e
  cases e
  obtain ⟨M, hM, _, rfl⟩ := hn
  obtain ⟨c, _, hc⟩ := List.mem_map.1 hM
  have hMp : 0 < M := hc ▸ depth_pos _ _ _ _ ht
  refine ⟨depth (vert a) r (threshold m thr) ν / M, depth (vert b) r (threshold m thr) ν / M,
    by simp [ha], by simp [hb], ?_⟩
  refine div_lt_div_of_pos_right ?_ hMp
  have h1 : 0 < |vert a - r| + threshold m thr := by
    have := abs_nonneg (vert a - r); linarith
  exact one_div_lt_one_div_of_lt (Real.rpow_pos_of_pos h1 _)
    (Real.rpow_lt_rpow h1.le (by linarith) (by linarith))

/-- Cells at depth 1 and 3 under a reference at 0 meet the hypotheses. -/
example : (0 : ℝ) < threshold ⟨2, [[0, -1], [0, -3]], [2]⟩ none
    ∧ |vert [0, -1] - 0| < |vert [0, -3] - 0| := by
  norm_num [threshold, least, vert]

/-- **A cell at the reference height with threshold zero.**  Its weight is infinite before
the division; the result is not-a-number there and zero for every cell elsewhere. -/
theorem C150_violated_zero_threshold (query : List (List ℝ) → List ℝ → ℕ) (m : Mesh) (r ν : ℝ)
    (hν : 0 < ν) (hat : ∃ c ∈ m.centers, vert c = r) :
    ∃ out, depthWeighting query m (.scalar r) none ν (some 0) [] = .ok out ∧
      out = m.centers.map fun c => if vert c = r then nan else fin 0 := by
  have hpow : ∀ c : List ℝ, Num.pow (|vert c - r| + 0) (-(1 / 2) * ν)
      = if vert c = r then inf else fin (|vert c - r| ^ (-(1 / 2) * ν)) := by
    intro c
    have hneg : -(1 / 2) * ν < 0 := by linarith
    by_cases hc : vert c = r
    · simp [Num.pow, hc, hν]
    · have : 0 < |vert c - r| := abs_pos.2 (sub_ne_zero.2 hc)
      simp [Num.pow, hc, this]
  have habs : ∀ l : List (List ℝ), (l.map fun c => Num.pow (|vert c - r| + 0) (-(1 / 2) * ν)).foldl
      fmax inf = inf := by
    intro l
    induction l with
    | nil => rfl
    | cons c l ih =>
      rw [List.map_cons, List.foldl_cons, hpow]
      split_ifs <;> simpa [fmax] using ih
  have hmax : ∀ (l : List (List ℝ)) (s : Num), (s = nan ∨ s = inf ∨ ∃ x, s = fin x) →
      (∃ c ∈ l, vert c = r) →
      (l.map fun c => Num.pow (|vert c - r| + 0) (-(1 / 2) * ν)).foldl fmax s = inf := by
    intro l
    induction l with
    | nil => simp
    | cons c l ih =>
      intro s hs hex
      rw [List.map_cons, List.foldl_cons]
      by_cases hc : vert c = r
      · rw [hpow, if_pos hc]
        have : fmax s inf = inf := by
          rcases hs with rfl | rfl | ⟨x, rfl⟩ <;> rfl
        rw [this]; exact habs l
      · obtain ⟨c', hc', e⟩ := hex
        rcases List.mem_cons.1 hc' with rfl | hc'
        · exact absurd e hc
        · refine ih _ ?_ ⟨c', hc', e⟩
          rw [hpow, if_neg hc]
          rcases hs with rfl | rfl | ⟨x, rfl⟩
          · exact Or.inr (Or.inr ⟨_, rfl⟩)
          · exact Or.inr (Or.inl rfl)
          · exact Or.inr (Or.inr ⟨_, rfl⟩)
  have hne : m.centers ≠ [] := by
    rintro h; rw [h] at hat; simp at hat
  refine ⟨_, ?_, rfl⟩
  have e1 : nanmax ((m.centers.map fun c => |vert c - r|).map
      fun d => Num.pow (d + 0) (-(1 / 2) * ν)) = .ok inf := by
    rw [List.map_map]
    have h1 : ((m.centers.map ((fun d => Num.pow (d + 0) (-(1 / 2) * ν)) ∘
        fun c => |vert c - r|)).isEmpty) = false := by
      cases h : m.centers with
      | nil => exact absurd h hne
      | cons => rfl
    rw [nanmax, h1]
    simp only [Bool.false_eq_true, if_false]
    exact congrArg _ (hmax m.centers nan (Or.inl rfl) hat)
  simp only [depthWeighting, List.not_mem_nil, if_false, deltaZ, threshold, select, normalise, e1]
  rw [List.map_map, List.map_map]
  refine congrArg _ (List.map_congr_left fun c _ => ?_)
  simp only [Function.comp]
  rw [hpow]
  split_ifs <;> rfl

example : ∃ c ∈ (⟨2, [[0, 0], [0, -3]], [2]⟩ : Mesh).centers, vert c = 0 := ⟨[0, 0], by simp, by norm_num [vert]⟩

/-- **The removed keyword is refused; every other keyword is ignored.** -/
theorem C150_keywords (query : List (List ℝ) → List ℝ → ℕ) (m : Mesh) (ref : Ref)
    (active : Option (List Bool)) (ν : ℝ) (thr : Option ℝ) (kw : List String) :
    depthWeighting query m ref active ν thr kw
      = if "indActive" ∈ kw then .error .typeError
        else depthWeighting query m ref active ν thr [] := by
  by_cases h : "indActive" ∈ kw <;> simp [depthWeighting, h]

/-- **Reference arrays of one axis are accepted**, although the message says scalar or
table: with as many numbers as cells each cell gets its own reference height; with another
number of them (neither one, nor one cell) numpy refuses the subtraction. -/
theorem C150_violated_vector (query : List (List ℝ) → List ℝ → ℕ) (m : Mesh) (v : List ℝ)
    (active : Option (List Bool)) (ν : ℝ) (thr : Option ℝ) (ht : 0 < threshold m thr)
    (hlen : v.length = m.centers.length)
    (hfit : Fits active m.centers.length) (hne : kept active (m.centers.zip v) ≠ []) :
    ∃ out, depthWeighting query m (.vector v) active ν thr [] = .ok out ∧
      Normalised ((kept active (m.centers.zip v)).map fun p =>
        depth (vert p.1) p.2 (threshold m thr) ν) out := by
  have h := depth_core query m (.vector v) active ν thr [] (by simp) ht
    ((m.centers.zip v).map fun p => (vert p.1, p.2))
    (by
      simp only [deltaZ, hlen, if_true]
      rw [List.map_map, List.zip, List.map_zipWith]; rfl)
    (by simpa [hlen] using hfit) (by rw [kept_map]; simpa using hne)
  rw [kept_map, List.map_map] at h
  exact h

theorem C150_vector_refused (query : List (List ℝ) → List ℝ → ℕ) (m : Mesh) (v : List ℝ)
    (active : Option (List Bool)) (ν : ℝ) (thr : Option ℝ)
    (h1 : v.length ≠ m.centers.length) (h2 : v.length ≠ 1) (h3 : m.centers.length ≠ 1) :
    depthWeighting query m (.vector v) active ν thr [] = .error .valueError := by
  have : deltaZ query m (.vector v) = .error .valueError := by
    simp only [deltaZ, h1, if_false]
    rcases v with _ | ⟨a, _ | ⟨b, v⟩⟩
    · rcases h : m.centers with _ | ⟨c, _ | ⟨d, cs⟩⟩
      · simp [h] at h1
      · simp [h] at h3
      · rfl
    · simp at h2
    · rcases h : m.centers with _ | ⟨c, _ | ⟨d, cs⟩⟩
      · rfl
      · simp [h] at h3
      · rfl
  simp [depthWeighting, this]

/-- C150: reference locations with another number of columns than the mesh has dimensions are refused, as
are arrays of more than two axes. -/
theorem C150_depth_refused (query : List (List ℝ) → List ℝ → ℕ) (m : Mesh) (columns : ℕ)
    (rows : List (List ℝ)) (active : Option (List Bool)) (ν : ℝ) (thr : Option ℝ)
    (h : columns ≠ m.dim) :
    depthWeighting query m (.table columns rows) active ν thr [] = .error .valueError ∧
    depthWeighting query m .higher active ν thr [] = .error .valueError := by
  simp [depthWeighting, deltaZ, h]

/-! ## Theorems: distance weighting -/

theorem euclid_nonneg (a b : List ℝ) : 0 ≤ euclid a b := Real.sqrt_nonneg _

theorem kernelSum_eq (c : List ℝ) (refs : List (List ℝ)) (t ν : ℝ) (ht : 0 < t) :
    kernelSum c refs t ν = fin ((refs.map fun r => 1 / (euclid c r + t) ^ (2 * ν)).sum) := by
  have : ∀ s : ℝ, refs.foldl (fun s r => Num.add s (Num.pow (euclid c r + t) (-2 * ν))) (fin s)
      = fin (s + (refs.map fun r => 1 / (euclid c r + t) ^ (2 * ν)).sum) := by
    induction refs with
    | nil => simp
    | cons r refs ih =>
      intro s
      have h : 0 < euclid c r + t := by have := euclid_nonneg c r; linarith
      have e : Num.pow (euclid c r + t) (-2 * ν) = fin (1 / (euclid c r + t) ^ (2 * ν)) := by
        simp only [Num.pow, h, if_true]
        rw [show -2 * ν = -(2 * ν) by ring, Real.rpow_neg h.le, one_div]
      rw [List.foldl_cons, e]
      rw [show Num.add (fin s) (fin (1 / (euclid c r + t) ^ (2 * ν)))
        = fin (s + 1 / (euclid c r + t) ^ (2 * ν)) from rfl]
      rw [ih, List.map_cons, List.sum_cons, add_assoc]
  have h0 := this 0
  rwa [zero_add] at h0

/-- **The parallel loop.**  In whatever order the iterations are carried out, every cell
gets its own sum. -/
theorem C150_schedule (order : List ℕ) (cells refs : List (List ℝ)) (t ν : ℝ)
    (h : order.Perm (List.range cells.length)) :
    kernelLoop order cells refs t ν = cells.map fun c => kernelSum c refs t ν := by
  have key : ∀ (order : List ℕ) (out : List Num),
      (order.foldl (fun out j => out.set j (kernelSum (cells.getD j []) refs t ν)) out).length
        = out.length ∧
      ∀ k, k < out.length →
        (order.foldl (fun out j => out.set j (kernelSum (cells.getD j []) refs t ν)) out)[k]?
          = if k ∈ order then some (kernelSum (cells.getD k []) refs t ν) else out[k]? := by
    intro order
    induction order with
    | nil => intro out; simp
    | cons j order ih =>
      intro out
      obtain ⟨h1, h2⟩ := ih (out.set j (kernelSum (cells.getD j []) refs t ν))
      refine ⟨by simpa using h1, fun k hk => ?_⟩
      rw [List.foldl_cons, h2 k (by simpa using hk)]
      by_cases hm : k ∈ order
      · simp [hm]
      · by_cases hj : k = j
        · subst hj; simp [hm, hk]
        · simp [hm, hj, List.getElem?_set_ne (Ne.symm hj)]
  obtain ⟨h1, h2⟩ := key order (List.replicate cells.length (fin 0))
  refine List.ext_getElem? fun k => ?_
  by_cases hk : k < cells.length
  · have hm : k ∈ order := h.mem_iff.2 (List.mem_range.2 hk)
    rw [kernelLoop, h2 k (by simpa using hk), if_pos hm]
    simp [hk]
  · have e1 : (kernelLoop order cells refs t ν).length ≤ k := by
      rw [kernelLoop, h1]; simpa using hk
    rw [List.getElem?_eq_none e1, List.getElem?_eq_none (by simpa using hk)]

example : [1, 0].Perm (List.range [[(0 : ℝ), 0], [0, -1]].length) := by decide

theorem distance_pos (c : List ℝ) (refs : List (List ℝ)) (t ν : ℝ) (ht : 0 < t)
    (hr : refs ≠ []) : 0 < distance c refs t ν := by
  refine Real.sqrt_pos.2 ?_
  refine List.sum_pos _ ?_ (by simpa using hr)
  intro x hx
  obtain ⟨r, _, rfl⟩ := List.mem_map.1 hx
  have h : 0 < euclid c r + t := by have := euclid_nonneg c r; linarith
  exact one_div_pos.2 (Real.rpow_pos_of_pos h _)

theorem sum_nonneg_refs (c : List ℝ) (refs : List (List ℝ)) (t ν : ℝ) (ht : 0 < t) :
    0 ≤ (refs.map fun r => 1 / (euclid c r + t) ^ (2 * ν)).sum := by
  refine List.sum_nonneg fun x hx => ?_
  obtain ⟨r, _, rfl⟩ := List.mem_map.1 hx
  have h : 0 < euclid c r + t := by have := euclid_nonneg c r; linarith
  exact (one_div_pos.2 (Real.rpow_pos_of_pos h _)).le

theorem kernel_eq (order : List ℕ) (cells refs : List (List ℝ)) (t ν : ℝ) (ht : 0 < t)
    (ho : order.Perm (List.range cells.length)) :
    kernel order cells refs t ν = normalise ((cells.map fun c => distance c refs t ν).map fin) := by
  rw [kernel, C150_schedule order cells refs t ν ho, List.map_map, List.map_map]
  refine congrArg _ (List.map_congr_left fun c _ => ?_)
  simp only [Function.comp]
  rw [kernelSum_eq c refs t ν ht]
  simp only [Num.sqrt, sum_nonneg_refs c refs t ν ht, if_true]
  rfl

theorem scipy_eq (cells refs : List (List ℝ)) (t ν : ℝ) (ht : 0 < t) :
    scipyEngine euclid cells refs t ν
      = normalise ((cells.map fun c => distance c refs t ν).map fin) := by
  rw [scipyEngine, List.map_map]
  refine congrArg _ (List.map_congr_left fun c _ => ?_)
  have : ∀ s : ℝ, (refs.map fun r => Num.powNegTwo (Num.pow (euclid c r + t) ν)).foldl Num.add (fin s)
      = fin (s + (refs.map fun r => 1 / (euclid c r + t) ^ (2 * ν)).sum) := by
    induction refs with
    | nil => simp
    | cons r refs ih =>
      intro s
      have h : 0 < euclid c r + t := by have := euclid_nonneg c r; linarith
      have hp := Real.rpow_pos_of_pos h ν
      have e : Num.powNegTwo (Num.pow (euclid c r + t) ν)
          = fin (1 / (euclid c r + t) ^ (2 * ν)) := by
        simp only [Num.pow, h, if_true, Num.powNegTwo, hp.ne', if_false]
        rw [show 2 * ν = ν + ν by ring, Real.rpow_add h, sq]
      rw [List.map_cons, List.foldl_cons, e]
      rw [show Num.add (fin s) (fin (1 / (euclid c r + t) ^ (2 * ν)))
        = fin (s + 1 / (euclid c r + t) ^ (2 * ν)) from rfl]
      rw [ih, List.map_cons, List.sum_cons, add_assoc]
  have h0 := this 0
  rw [zero_add] at h0
  simp only [Function.comp, h0, Num.sqrt, sum_nonneg_refs c refs t ν ht, if_true]
  rfl

/-- The names of the two engines. -/
def engines : List String := ["numba", "scipy"]

/-- **Distance weights.**  For both engines and any execution order: the result holds, for
the active cells in order, the root of the summed inverse powers of the distances, divided
by the largest one. -/
theorem C150_distance (order : List ℕ) (m : Mesh) (hdim : m.dim ≠ 1) (rows : List (List ℝ))
    (hrows : rows ≠ []) (active : Option (List Bool)) (ν : ℝ) (thr : Option ℝ)
    (ht : 0 < threshold m thr) (hfit : Fits active m.centers.length)
    (hne : kept active m.centers ≠ [])
    (ho : order.Perm (List.range (kept active m.centers).length))
    (engine : String) (he : engine ∈ engines) :
    ∃ out, distanceWeighting order m (.table m.dim rows) active ν thr engine none = .ok out ∧
      Normalised ((kept active m.centers).map fun c => distance c rows (threshold m thr) ν) out := by
  have hN := normalise_fin ((kept active m.centers).map fun c => distance c rows (threshold m thr) ν)
    (by simpa using hne) (by
      intro x hx
      obtain ⟨c, _, rfl⟩ := List.mem_map.1 hx
      exact distance_pos c rows _ ν ht hrows)
  simp only [distanceWeighting, refTable, hdim, if_false, select_eq _ _ hfit, ne_eq,
    not_true_eq_false]
  simp only [engines, List.mem_cons, List.not_mem_nil, or_false] at he
  rcases he with rfl | rfl
  · simpa [kernel_eq order _ rows _ ν ht ho] using hN
  · simpa [scipy_eq _ rows _ ν ht] using hN

/-- One location given as a flat array, and several heights on a mesh of one dimension. -/
theorem C150_distance_shapes (order : List ℕ) (m : Mesh) (active : Option (List Bool)) (ν : ℝ)
    (thr : Option ℝ) (engine : String) (opts : Option (List ℝ → List ℝ → ℝ)) (v : List ℝ) :
    (m.dim ≠ 1 → distanceWeighting order m (.vector v) active ν thr engine opts
      = distanceWeighting order m (.table v.length [v]) active ν thr engine opts) ∧
    (m.dim = 1 → distanceWeighting order m (.vector v) active ν thr engine opts
      = distanceWeighting order m (.table 1 (v.map fun z => [z])) active ν thr engine opts) := by
  refine ⟨fun h => ?_, fun h => ?_⟩
  · simp [distanceWeighting, refTable, h]
  · have : (v.map fun z => [z]).flatten = v := by
      induction v with
      | nil => rfl
      | cons a v ih => simpa using ih
    simp only [distanceWeighting, refTable, h, if_true, this]

/-- **Refusals**, in the order in which they are checked. -/
theorem C150_distance_refused (order : List ℕ) (m : Mesh) (hdim : m.dim ≠ 1)
    (columns : ℕ) (rows : List (List ℝ)) (active : Option (List Bool)) (ν : ℝ) (thr : Option ℝ)
    (engine : String) (opts : Option (List ℝ → List ℝ → ℝ)) :
    (¬ Fits active m.centers.length →
      distanceWeighting order m (.table columns rows) active ν thr engine opts
        = .error .indexError) ∧
    (Fits active m.centers.length → columns ≠ m.dim →
      distanceWeighting order m (.table columns rows) active ν thr engine opts
        = .error .valueError) ∧
    (Fits active m.centers.length → columns = m.dim → engine = "numba" → opts.isSome →
      distanceWeighting order m (.table columns rows) active ν thr engine opts
        = .error .typeError) ∧
    (Fits active m.centers.length → engine ∉ engines →
      distanceWeighting order m (.table columns rows) active ν thr engine opts
        = .error .valueError) := by
  refine ⟨fun h => ?_, fun h hc => ?_, fun h hc he ho => ?_, fun h he => ?_⟩
  · have : ∃ a, active = some a ∧ a.length ≠ m.centers.length := by
      simpa [Fits] using h
    obtain ⟨a, rfl, ha⟩ := this
    simp [distanceWeighting, refTable, hdim, select, ha]
  · simp [distanceWeighting, refTable, hdim, select_eq _ _ h, hc]
  · simp [distanceWeighting, refTable, hdim, select_eq _ _ h, hc, he, ho]
  · simp only [engines, List.mem_cons, List.not_mem_nil, or_false, not_or] at he
    simp [distanceWeighting, refTable, hdim, select_eq _ _ h, he.1, he.2]

example : "fortran" ∉ engines := by decide

/-- **The order of the reference locations does not matter.** -/
theorem C150_references_permuted (order : List ℕ) (m : Mesh) (hdim : m.dim ≠ 1)
    (rows rows' : List (List ℝ)) (hp : rows.Perm rows') (hrows : rows ≠ [])
    (active : Option (List Bool)) (ν : ℝ)
    (thr : Option ℝ) (ht : 0 < threshold m thr) (hfit : Fits active m.centers.length)
    (hne : kept active m.centers ≠ [])
    (ho : order.Perm (List.range (kept active m.centers).length))
    (engine : String) (he : engine ∈ engines) :
    distanceWeighting order m (.table m.dim rows) active ν thr engine none
      = distanceWeighting order m (.table m.dim rows') active ν thr engine none := by
  have hrows' : rows' ≠ [] := fun h => hrows (by subst h; exact hp.eq_nil)
  obtain ⟨o1, e1, n1⟩ := C150_distance order m hdim rows hrows active ν thr ht hfit hne ho engine he
  obtain ⟨o2, e2, n2⟩ := C150_distance order m hdim rows' hrows' active ν thr ht hfit hne ho engine he
  have : (fun c => distance c rows (threshold m thr) ν)
      = fun c => distance c rows' (threshold m thr) ν := by
    funext c
    exact congrArg Real.sqrt (List.Perm.sum_eq (hp.map _))
  rw [e1, e2]
  rw [this] at n1
  rw [normalised_unique n1 n2]

example : [[(0 : ℝ), 0], [1, 0]].Perm [[1, 0], [0, 0]] := List.Perm.swap _ _ _

/-- **Closer cells weigh more.**  If cell `a` is no farther from every location than `b`, its
weight is at least that of `b`. -/
theorem C150_distance_decreases (order : List ℕ) (m : Mesh) (hdim : m.dim ≠ 1)
    (rows : List (List ℝ))
    (hrows : rows ≠ []) (active : Option (List Bool)) (ν : ℝ) (hν : 0 ≤ ν) (thr : Option ℝ)
    (ht : 0 < threshold m thr) (hfit : Fits active m.centers.length)
    (hne : kept active m.centers ≠ [])
    (ho : order.Perm (List.range (kept active m.centers).length))
    (engine : String) (he : engine ∈ engines) (out : List Num)
    (hout : distanceWeighting order m (.table m.dim rows) active ν thr engine none = .ok out)
    (i j : ℕ) (a b : List ℝ) (ha : (kept active m.centers)[i]? = some a)
    (hb : (kept active m.centers)[j]? = some b)
    (h : ∀ r ∈ rows, euclid a r ≤ euclid b r) :
    ∃ x y, out[i]? = some (fin x) ∧ out[j]? = some (fin y) ∧ y ≤ x := by
  obtain ⟨out', e, hn⟩ := C150_distance order m hdim rows hrows active ν thr ht hfit hne ho engine he
  rw [hout] at e
  cases e
  obtain ⟨M, hM, _, rfl⟩ := hn
  obtain ⟨c, _, hc⟩ := List.mem_map.1 hM
  have hMp : 0 < M := hc ▸ distance_pos _ _ _ _ ht hrows
  refine ⟨distance a rows (threshold m thr) ν / M, distance b rows (threshold m thr) ν / M,
    by simp [ha], by simp [hb], ?_⟩
  refine div_le_div_of_nonneg_right ?_ hMp.le
  refine Real.sqrt_le_sqrt ?_
  refine List.sum_le_sum fun r hr => ?_
  have h1 : 0 < euclid a r + threshold m thr := by have := euclid_nonneg a r; linarith
  exact one_div_le_one_div_of_le (Real.rpow_pos_of_pos h1 _)
    (Real.rpow_le_rpow h1.le (by linarith [h r hr]) (by linarith))

/-- **The two exponents differ by a factor two.**  For one location and cells straight above
or below it, distance weights with exponent `ν` are depth weights with exponent `2 ν`,
although both are documented as the decay power of the field. -/
theorem C150_violated_exponents (query : List (List ℝ) → List ℝ → ℕ) (order : List ℕ) (m : Mesh)
    (hdim : m.dim = 2) (x r : ℝ) (zs : List ℝ) (hz : zs ≠ [])
    (hc : m.centers = zs.map fun z => [x, z]) (ν : ℝ) (thr : Option ℝ)
    (ht : 0 < threshold m thr) (ho : order.Perm (List.range zs.length))
    (engine : String) (he : engine ∈ engines) :
    distanceWeighting order m (.table 2 [[x, r]]) none ν thr engine none
      = depthWeighting query m (.scalar r) none (2 * ν) thr [] := by
  have hne : kept none m.centers ≠ [] := by rw [hc]; simpa [kept] using hz
  have hlen : (kept none m.centers).length = zs.length := by simp [kept, hc]
  obtain ⟨o1, e1, n1⟩ := C150_distance order m (by omega) [[x, r]] (by simp) none ν thr ht
    (by intro a h; cases h) hne (by rw [hlen]; exact ho) engine he
  obtain ⟨o2, e2, n2⟩ := C150_depth_scalar query m r none (2 * ν) thr [] (by simp) ht
    (by intro a h; cases h) hne
  rw [hdim] at e1
  rw [e1, e2]
  have hw : ((kept none m.centers).map fun c => distance c [[x, r]] (threshold m thr) ν)
      = (kept none m.centers).map fun c => depth (vert c) r (threshold m thr) (2 * ν) := by
    refine List.map_congr_left fun c hcm => ?_
    simp only [kept, hc] at hcm
    obtain ⟨z, _, rfl⟩ := List.mem_map.1 hcm
    have e : euclid [x, z] [x, r] = |z - r| := by
      simp [euclid, Real.sqrt_sq_eq_abs]
    have hp : 0 < |z - r| + threshold m thr := by have := abs_nonneg (z - r); linarith
    simp only [distance, depth, List.map_cons, List.map_nil, List.sum_cons, List.sum_nil,
      add_zero, e, vert, List.getLastD]
    rw [show 2 * ν / 2 = ν by ring, show 2 * ν = ν + ν by ring, Real.rpow_add hp,
      Real.sqrt_div zero_le_one, Real.sqrt_one, Real.sqrt_mul_self (Real.rpow_pos_of_pos hp _).le]
    simp
  rw [hw] at n1
  rw [normalised_unique n1 n2]

/-- **No reference locations.**  Every weight is not-a-number. -/
theorem C150_violated_no_references (order : List ℕ) (m : Mesh) (hdim : m.dim ≠ 1)
    (hne : m.centers ≠ []) (ν : ℝ) (thr : Option ℝ)
    (ho : order.Perm (List.range m.centers.length)) (engine : String) (he : engine ∈ engines) :
    distanceWeighting order m (.table m.dim []) none ν thr engine none
      = .ok (m.centers.map fun _ => nan) := by
  have key : normalise (m.centers.map fun _ => fin 0) = .ok (m.centers.map fun _ => nan) := by
    have hf : ∀ l : List (List ℝ), (l.map fun _ => fin 0).foldl fmax (fin 0) = fin 0 := by
      intro l
      induction l with
      | nil => rfl
      | cons c l ih => simpa [fmax] using ih
    have : nanmax (m.centers.map fun _ => fin 0) = .ok (fin 0) := by
      cases h : m.centers with
      | nil => exact absurd h hne
      | cons c l =>
        simp only [nanmax, List.map_cons, List.isEmpty_cons, Bool.false_eq_true, if_false,
          List.foldl_cons, fmax, hf]
    rw [normalise, this]
    simp [div]
  simp only [distanceWeighting, refTable, hdim, if_false, select, ne_eq, not_true_eq_false]
  simp only [engines, List.mem_cons, List.not_mem_nil, or_false] at he
  rcases he with rfl | rfl
  · simp only [true_and, Option.isSome_none, Bool.false_eq_true, if_false, if_true]
    rw [kernel, C150_schedule order _ _ _ _ ho, ← key, List.map_map]
    refine congrArg _ (List.map_congr_left fun c _ => ?_)
    simp [kernelSum, Num.sqrt]
  · simp only [Option.isSome_none, Bool.false_eq_true, and_false, if_false,
      Option.getD_none, if_true]
    rw [if_neg (by decide), scipyEngine, ← key]
    refine congrArg _ (List.map_congr_left fun c _ => ?_)
    simp [Num.sqrt]

end Verif.Utils.Weights
