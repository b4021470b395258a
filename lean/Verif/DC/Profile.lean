import Verif.Basic
import Mathlib.Data.Real.Sqrt
import Mathlib.Data.List.ReduceOption
import Mathlib.Algebra.Order.Floor.Ring
import Mathlib.Algebra.Order.Archimedean.Real.Basic
import Mathlib.Algebra.BigOperators.Intervals
import Mathlib.Tactic.Linarith
import Mathlib.Tactic.NormNum
import Mathlib.Tactic.FieldSimp
import Mathlib.Tactic.Ring

/-!
# Surveys generated along a line

Model of `generate_dcip_sources_line` and `generate_dcip_survey` of
`/repo/simpeg/electromagnetics/static/utils/static_utils.py` (1088-1262 and 1265-1413). Distances are real
numbers. Simplified: the interpolated topography is a function given for all points, so that stations off the
given topography (NaN or ValueError) are not modelled, and neither are lines of length zero.
-/

noncomputable section
namespace Verif.DC.Profile

abbrev Text := List Char

/-- `str.lower`, for the letters of the names. -/
def low (t : Text) : Text := t.map Char.toLower
/-- `str.upper`, for the letters of the names. -/
def up (t : Text) : Text := t.map Char.toUpper

/-- Kinds of surveys. -/
inductive Kind
  | polePole | poleDipole | dipolePole | dipoleDipole
  deriving DecidableEq

/-- The names of surveys, in any case, `static_utils.py` 1308-1313. -/
def kindOf (t : Text) : Option Kind :=
  if low t = "pole-pole".toList then some .polePole
  else if low t = "pole-dipole".toList then some .poleDipole
  else if low t = "dipole-pole".toList then some .dipolePole
  else if low t = "dipole-dipole".toList then some .dipoleDipole
  else none

/-- `survey_type.lower() in ["dipole-dipole", "dipole-pole"]`, `static_utils.py` 1407-1410. -/
def Kind.srcDipole : Kind → Bool
  | .dipolePole | .dipoleDipole => true
  | _ => false

/-- `survey_type.lower() in ["dipole-dipole", "pole-dipole"]`, `static_utils.py` 1394-1404. -/
def Kind.rxDipole : Kind → Bool
  | .poleDipole | .dipoleDipole => true
  | _ => false

/-- `rx_shift`, `static_utils.py` 1371-1376. -/
def Kind.shift : Kind → ℕ
  | .polePole => 0
  | .poleDipole => 1
  | .dipolePole => 1
  | .dipoleDipole => 2

/-- A source with one receiver object; second electrodes of poles are not kept. -/
structure Src (α : Type) where
  a : α
  b : Option α
  rx : List (α × Option α)

/-- `P[i:j, :]` for `i, j` not negative. -/
def slice {α : Type} (P : List α) (i j : ℕ) : List α := (P.take j).drop i

/-- `P[i, :]`. -/
def row {α : Type} (P : List α) (i : ℕ) : Except Err α :=
  match P[i]? with
  | some x => .ok x
  | none => .error .indexError

/-- The constructors of receivers, `resistivity/receivers.py`: `data_type` is one of voltages, apparent
resistivities and apparent chargeabilities (83-109), and both arrays of a dipole have the same shape
(295-320). The further spellings of data types are refused by the caller. -/
def receiver {α : Type} (dipole : Bool) (dt : Text) (M N : List α) : Except Err (List (α × Option α)) :=
  if low dt = "apparent_conductivity".toList then .error .valueError
  else if dipole then
    if M.length ≠ N.length then .error .valueError
    else .ok ((M.zip N).map fun p => (p.1, some p.2))
  else .ok (N.map fun p => (p, none))

/-- One pass of the loop, `static_utils.py` 1378-1411. `D j` is the distance from station `j` to the second end
point; `none` is `continue`. -/
def step {α : Type} (P : List α) (k : Kind) (dt : Text) (D : ℕ → ℝ) (h : ℝ) (num : ℤ) (ii : ℕ) :
    Except Err (Option (Src α)) :=
  let nrec := min ⌊D (ii + k.shift) / h⌋ num
  if nrec ≤ 0 then .ok none
  else do
    let rx ← receiver k.rxDipole dt (slice P (ii + k.shift) (ii + k.shift + nrec.toNat))
      (slice P (ii + k.shift + 1) (ii + k.shift + nrec.toNat + 1))
    let a ← row P ii
    let b ← if k.srcDipole then (row P (ii + 1)).map some else .ok none
    .ok (some ⟨a, b, rx⟩)

/-- The loop, `static_utils.py` 1369-1413. -/
def sources {α : Type} (P : List α) (k : Kind) (dt : Text) (D : ℕ → ℝ) (h : ℝ) (num : ℤ) :
    Except Err (List (Src α)) := do
  let l ← (List.range (P.length - k.shift)).mapM (step P k dt D h num)
  .ok l.reduceOption

/-- `xy_2_r`, `static_utils.py` 1330-1332. -/
def dist (x1 x2 y1 y2 : ℝ) : ℝ := √((x2 - x1) ^ 2 + (y2 - y1) ^ 2)

/-- `nstn`, `static_utils.py` 1343 and 1360; `range` of a negative number is empty. -/
def nstn (L h : ℝ) : ℕ := (⌊L / h⌋ + 1).toNat

/-- Stations of a line in three dimensions, `static_utils.py` 1338-1354. -/
def stations3 (x1 x2 y1 y2 h : ℝ) (topo : ℝ → ℝ → ℝ) : List (List ℝ) :=
  let L := dist x1 x2 y1 y2
  (List.range (nstn L h)).map fun k : ℕ =>
    [x1 + k * ((x2 - x1) / L) * h, y1 + k * ((y2 - y1) / L) * h,
      topo (x1 + k * ((x2 - x1) / L) * h) (y1 + k * ((y2 - y1) / L) * h)]

/-- Stations of a line in two dimensions, `static_utils.py` 1356-1367; `topo` is read at zero. -/
def stations2 (x1 x2 h : ℝ) (topo : ℝ → ℝ → ℝ) : List (List ℝ) :=
  (List.range (nstn (dist x1 x2 0 0) h)).map fun k : ℕ => [x1 + k * h, topo (x1 + k * h) 0]

/-- `generate_dcip_sources_line`, `static_utils.py` 1265-1413. -/
def sourcesLine (survey dt dim : Text) (x1 x2 y1 y2 : ℝ) (topo : ℝ → ℝ → ℝ) (num : ℤ) (h : ℝ) :
    Except Err (List (Src (List ℝ))) :=
  match kindOf survey with
  | none => .error .assertionError
  | some k =>
    if low dt ∉ ["volt".toList, "apparent_conductivity".toList, "apparent_resistivity".toList,
        "apparent_chargeability".toList] then .error .assertionError
    else if up dim ∉ ["2D".toList, "2.5D".toList, "3D".toList] then .error .assertionError
    else if dim = "3D".toList then
      let L := dist x1 x2 y1 y2
      sources (stations3 x1 x2 y1 y2 h topo) k dt
        (fun j => dist (x1 + j * ((x2 - x1) / L) * h) x2 (y1 + j * ((y2 - y1) / L) * h) y2) h num
    else
      sources (stations2 x1 x2 h topo) k dt (fun j => dist (x1 + j * h) x2 0 0) h num

/-! ## Lemmas -/

theorem slice_map {α : Type} (n i j : ℕ) (f : ℕ → α) (hj : j ≤ n) :
    slice ((List.range n).map f) i j = (List.range (j - i)).map fun t => f (i + t) := by
  apply List.ext_getElem
  · simp [slice]; omega
  · intro t h1 h2
    simp [slice]

theorem mapM_ok {α β : Type} (l : List α) (f : α → Except Err β) (g : α → β) (hf : ∀ x ∈ l, f x = .ok (g x)) :
    l.mapM f = .ok (l.map g) := by
  induction l with
  | nil => rfl
  | cons x l ih =>
    rw [List.mapM_cons, hf x (by simp), ih fun y hy => hf y (by simp [hy])]
    rfl

theorem mapM_error {α β : Type} (l : List α) (f : α → Except Err β) (e : Err) (x : α) (hx : x ∈ l)
    (h1 : ∀ y ∈ l, f y = .error e ∨ ∃ z, f y = .ok z) (h2 : f x = .error e) : l.mapM f = .error e := by
  induction l with
  | nil => cases hx
  | cons y l ih =>
    rw [List.mapM_cons]
    rcases h1 y (by simp) with h | ⟨z, h⟩
    · rw [h]; rfl
    · rw [h]
      rcases List.mem_cons.1 hx with rfl | hx
      · rw [h2] at h; cases h
      · rw [ih hx fun y hy => h1 y (by simp [hy])]
        rfl

/-- What a loop over stations `0, …, K` gives when the distance from station `j` to the end allows
`K - j` spacings. -/
theorem sources_eq {α : Type} (st : ℕ → α) (K : ℕ) (k : Kind) (dt : Text) (D : ℕ → ℝ) (h : ℝ) (num : ℤ)
    (hdt : low dt ≠ "apparent_conductivity".toList) (hD : ∀ j ≤ K, ⌊D j / h⌋ = (K : ℤ) - j) (hn : 0 < num) :
    sources ((List.range (K + 1)).map st) k dt D h num = .ok ((List.range (K - k.shift)).map fun i =>
      ⟨st i, if k.srcDipole then some (st (i + 1)) else none,
        (List.range (min num.toNat (K - k.shift - i))).map fun j =>
          if k.rxDipole then (st (i + k.shift + j), some (st (i + k.shift + j + 1)))
          else (st (i + k.shift + j + 1), none)⟩) := by
  have hs : ∀ i ∈ List.range (K + 1 - k.shift), step ((List.range (K + 1)).map st) k dt D h num i = .ok
      (if i < K - k.shift then some (⟨st i, if k.srcDipole then some (st (i + 1)) else none,
        (List.range (min num.toNat (K - k.shift - i))).map fun j =>
          if k.rxDipole then (st (i + k.shift + j), some (st (i + k.shift + j + 1)))
          else (st (i + k.shift + j + 1), none)⟩ : Src α) else none) := by
    intro i hi
    have hi' : i + k.shift ≤ K := by have := List.mem_range.1 hi; omega
    unfold step
    rw [hD _ hi']
    by_cases hlt : i < K - k.shift
    · have hpos : ¬ min ((K : ℤ) - ((i + k.shift : ℕ) : ℤ)) num ≤ 0 := by
        push_cast
        rw [not_le, lt_min_iff]
        constructor <;> omega
      have htn : (min ((K : ℤ) - ((i + k.shift : ℕ) : ℤ)) num).toNat = min num.toNat (K - k.shift - i) := by
        push_cast
        omega
      have hle : i + k.shift + min num.toNat (K - k.shift - i) ≤ K := by omega
      simp only [if_neg hpos, htn, if_pos hlt]
      rw [slice_map _ _ _ _ (by omega), slice_map _ _ _ _ (by omega)]
      have e1 : i + k.shift + min num.toNat (K - k.shift - i) - (i + k.shift) =
          min num.toNat (K - k.shift - i) := by omega
      have e2 : i + k.shift + min num.toNat (K - k.shift - i) + 1 - (i + k.shift + 1) =
          min num.toNat (K - k.shift - i) := by omega
      rw [e1, e2]
      have hrow : ∀ j ≤ K, row ((List.range (K + 1)).map st) j = .ok (st j) := by
        intro j hj
        simp [row, List.getElem?_map, List.getElem?_range (show j < K + 1 by omega)]
      have hrx : receiver k.rxDipole dt
          ((List.range (min num.toNat (K - k.shift - i))).map fun t => st (i + k.shift + t))
          ((List.range (min num.toNat (K - k.shift - i))).map fun t => st (i + k.shift + 1 + t)) = .ok
          ((List.range (min num.toNat (K - k.shift - i))).map fun j =>
            if k.rxDipole then (st (i + k.shift + j), some (st (i + k.shift + j + 1)))
            else (st (i + k.shift + j + 1), none)) := by
        unfold receiver
        rw [if_neg hdt]
        cases hk : k.rxDipole
        · simp only [Bool.false_eq_true, if_false, List.map_map]
          congr 1
          apply List.map_congr_left
          intro j _
          simp only [Function.comp]
          congr 2; omega
        · rw [if_pos rfl, if_neg (by simp)]
          congr 1
          apply List.ext_getElem
          · simp
          · intro t h1 h2
            simp
            congr 1; omega
      rw [hrx, hrow i (by omega)]
      cases hk : k.srcDipole
      · rfl
      · have : 1 ≤ k.shift := by cases k <;> simp_all [Kind.shift, Kind.srcDipole]
        simp only [if_true]
        rw [hrow (i + 1) (by omega)]
        rfl
    · rw [if_pos (show min ((K : ℤ) - ((i + k.shift : ℕ) : ℤ)) num ≤ 0 by
        apply min_le_of_left_le; push_cast; omega), if_neg hlt]
  unfold sources
  rw [show ((List.range (K + 1)).map st).length = K + 1 by simp, mapM_ok _ _ _ hs]
  show Except.ok _ = Except.ok _
  congr 1
  by_cases hK : k.shift ≤ K
  · rw [show K + 1 - k.shift = (K - k.shift) + 1 by omega, List.range_succ, List.map_append]
    rw [List.reduceOption_append]
    simp only [List.map_cons, List.map_nil, lt_irrefl, if_false]
    have : (List.range (K - k.shift)).map (fun i => if i < K - k.shift then some (⟨st i,
          if k.srcDipole then some (st (i + 1)) else none,
        (List.range (min num.toNat (K - k.shift - i))).map fun j =>
          if k.rxDipole then (st (i + k.shift + j), some (st (i + k.shift + j + 1)))
          else (st (i + k.shift + j + 1), none)⟩ : Src α) else none) =
        (List.range (K - k.shift)).map (some ∘ fun i => (⟨st i,
          if k.srcDipole then some (st (i + 1)) else none,
        (List.range (min num.toNat (K - k.shift - i))).map fun j =>
          if k.rxDipole then (st (i + k.shift + j), some (st (i + k.shift + j + 1)))
          else (st (i + k.shift + j + 1), none)⟩ : Src α)) := by
      apply List.map_congr_left
      intro i hi
      rw [if_pos (List.mem_range.1 hi)]
      rfl
    rw [this]
    simp [List.reduceOption]
  · rw [show K + 1 - k.shift = 0 by omega, show K - k.shift = 0 by omega]
    rfl

theorem floor_sub (L h : ℝ) (hh : 0 < h) (j : ℕ) : ⌊(L - j * h) / h⌋ = ⌊L / h⌋ - (j : ℤ) := by
  rw [sub_div, mul_div_assoc, div_self hh.ne', mul_one]
  exact Int.floor_sub_natCast _ _

theorem dist_nonneg (x1 x2 y1 y2 : ℝ) : 0 ≤ dist x1 x2 y1 y2 := Real.sqrt_nonneg _

theorem dist_sq (x1 x2 y1 y2 : ℝ) : dist x1 x2 y1 y2 ^ 2 = (x2 - x1) ^ 2 + (y2 - y1) ^ 2 :=
  Real.sq_sqrt (by positivity)

/-- Distance from the point at distance `t` along a line to its end. -/
theorem dist_along (x1 x2 y1 y2 t : ℝ) (hL : 0 < dist x1 x2 y1 y2) (ht : t ≤ dist x1 x2 y1 y2) :
    dist (x1 + t * ((x2 - x1) / dist x1 x2 y1 y2)) x2 (y1 + t * ((y2 - y1) / dist x1 x2 y1 y2)) y2 =
      dist x1 x2 y1 y2 - t := by
  have h2 := dist_sq x1 x2 y1 y2
  set L := dist x1 x2 y1 y2 with hLdef
  have : (x2 - (x1 + t * ((x2 - x1) / L))) ^ 2 + (y2 - (y1 + t * ((y2 - y1) / L))) ^ 2 = (L - t) ^ 2 := by
    have e : (x2 - (x1 + t * ((x2 - x1) / L))) ^ 2 + (y2 - (y1 + t * ((y2 - y1) / L))) ^ 2 =
        ((x2 - x1) ^ 2 + (y2 - y1) ^ 2) * (1 - t / L) ^ 2 := by
      field_simp
      ring
    rw [e, ← h2]
    field_simp
  unfold dist
  rw [this, Real.sqrt_sq (by linarith)]

/-! ## Specification -/

/-- The point at distance `t` from the first end point, draped on the topography. In two dimensions the
line goes along x. -/
def along (threeD : Bool) (x1 x2 y1 y2 : ℝ) (topo : ℝ → ℝ → ℝ) (t : ℝ) : List ℝ :=
  let L := √((x2 - x1) ^ 2 + (y2 - y1) ^ 2)
  if threeD then [x1 + t * ((x2 - x1) / L), y1 + t * ((y2 - y1) / L),
    topo (x1 + t * ((x2 - x1) / L)) (y1 + t * ((y2 - y1) / L))]
  else [x1 + t, topo (x1 + t) 0]

/-- Length of the line. -/
def len (threeD : Bool) (x1 x2 y1 y2 : ℝ) : ℝ := if threeD then √((x2 - x1) ^ 2 + (y2 - y1) ^ 2) else x2 - x1

/-- C174. For every line of positive length (in two dimensions: every line given from left to right), spacing,
topography and limit on the receivers: the stations are `0, h, 2h, …` along the line, `K` of them after the
first. Source `i` is at station `i`, dipoles reach to the next one. Its receivers go on from the last electrode of
the source, one spacing after another, to the end of the line or the limit; the first receiver electrode is one
spacing from the source. -/
theorem C174_line (survey dt dim : Text) (x1 x2 y1 y2 : ℝ) (topo : ℝ → ℝ → ℝ) (num : ℤ) (h : ℝ) (k : Kind)
    (threeD : Bool) (hk : kindOf survey = some k)
    (hdt : low dt ∈ ["volt".toList, "apparent_resistivity".toList, "apparent_chargeability".toList])
    (hdim : if threeD then dim = "3D".toList else up dim = "2D".toList ∨ up dim = "2.5D".toList)
    (hL : 0 < len threeD x1 x2 y1 y2) (hh : 0 < h) (hn : 0 < num) :
    sourcesLine survey dt dim x1 x2 y1 y2 topo num h = .ok (
      (List.range (⌊len threeD x1 x2 y1 y2 / h⌋.toNat - k.shift)).map fun i : ℕ =>
        ⟨along threeD x1 x2 y1 y2 topo (i * h),
          if k.srcDipole then some (along threeD x1 x2 y1 y2 topo ((i + 1) * h)) else none,
          (List.range (min num.toNat (⌊len threeD x1 x2 y1 y2 / h⌋.toNat - k.shift - i))).map fun j : ℕ =>
            if k.rxDipole then (along threeD x1 x2 y1 y2 topo ((i + k.shift + j) * h),
              some (along threeD x1 x2 y1 y2 topo ((i + k.shift + j + 1) * h)))
            else (along threeD x1 x2 y1 y2 topo ((i + k.shift + j + 1) * h), none)⟩) := by
  have hdt1 : low dt ≠ "apparent_conductivity".toList := by
    intro e; rw [e] at hdt; revert hdt; decide
  have hdt2 : ¬ low dt ∉ ["volt".toList, "apparent_conductivity".toList, "apparent_resistivity".toList,
      "apparent_chargeability".toList] := by
    rw [not_not]
    exact (show ∀ t ∈ ["volt".toList, "apparent_resistivity".toList, "apparent_chargeability".toList],
      t ∈ ["volt".toList, "apparent_conductivity".toList, "apparent_resistivity".toList,
        "apparent_chargeability".toList] by decide) _ hdt
  have hK : ∀ L : ℝ, 0 < L → ((⌊L / h⌋.toNat : ℕ) : ℤ) = ⌊L / h⌋ := fun L hL =>
    Int.toNat_of_nonneg (Int.floor_nonneg.2 (by positivity))
  have hst : ∀ L : ℝ, 0 < L → nstn L h = ⌊L / h⌋.toNat + 1 := by
    intro L hL; have := hK L hL; unfold nstn; omega
  have hjh : ∀ L : ℝ, 0 < L → ∀ j : ℕ, j ≤ ⌊L / h⌋.toNat → (j : ℝ) * h ≤ L := by
    intro L hL j hj
    have h1 : (j : ℤ) ≤ ⌊L / h⌋ := by have := hK L hL; omega
    have h2 := Int.le_floor.1 h1
    push_cast at h2
    rwa [le_div_iff₀ hh] at h2
  unfold sourcesLine
  rw [hk]
  simp only
  rw [if_neg hdt2]
  cases threeD
  · simp only [Bool.false_eq_true, if_false] at hdim
    have hd3 : dim ≠ "3D".toList := by
      rintro rfl
      exact absurd hdim (by decide)
    have hd2 : ¬ up dim ∉ ["2D".toList, "2.5D".toList, "3D".toList] := by
      rw [not_not]
      rcases hdim with e | e <;> rw [e] <;> decide
    rw [if_neg hd2, if_neg hd3]
    have hL' : 0 < x2 - x1 := by simpa [len] using hL
    have hlen : len false x1 x2 y1 y2 = x2 - x1 := by simp [len]
    have hdist : dist x1 x2 0 0 = x2 - x1 := by
      unfold dist
      rw [show (x2 - x1) ^ 2 + (0 - 0 : ℝ) ^ 2 = (x2 - x1) ^ 2 by ring, Real.sqrt_sq hL'.le]
    have hD : ∀ j ≤ ⌊(x2 - x1) / h⌋.toNat, ⌊dist (x1 + (j : ℝ) * h) x2 0 0 / h⌋ =
        ((⌊(x2 - x1) / h⌋.toNat : ℕ) : ℤ) - j := by
      intro j hj
      have := hjh _ hL' j hj
      have e : dist (x1 + (j : ℝ) * h) x2 0 0 = (x2 - x1) - j * h := by
        unfold dist
        rw [show (x2 - (x1 + (j : ℝ) * h)) ^ 2 + (0 - 0 : ℝ) ^ 2 = ((x2 - x1) - j * h) ^ 2 by ring,
          Real.sqrt_sq (by linarith)]
      rw [e, floor_sub _ _ hh, hK _ hL']
    unfold stations2
    rw [hdist, hst _ hL', hlen]
    rw [sources_eq (fun n : ℕ => [x1 + (n : ℝ) * h, topo (x1 + n * h) 0]) _ k dt
      (fun j => dist (x1 + (j : ℝ) * h) x2 0 0) h num hdt1 hD hn]
    simp only [along, Bool.false_eq_true, if_false]
    push_cast
    rfl
  · simp only [if_true] at hdim
    subst hdim
    rw [if_neg (by decide), if_pos rfl]
    have hlen : len true x1 x2 y1 y2 = dist x1 x2 y1 y2 := by simp [len, dist]
    have hL' : 0 < dist x1 x2 y1 y2 := by rwa [hlen] at hL
    have hD : ∀ j ≤ ⌊dist x1 x2 y1 y2 / h⌋.toNat,
        ⌊dist (x1 + (j : ℝ) * ((x2 - x1) / dist x1 x2 y1 y2) * h) x2
          (y1 + (j : ℝ) * ((y2 - y1) / dist x1 x2 y1 y2) * h) y2 / h⌋ =
        ((⌊dist x1 x2 y1 y2 / h⌋.toNat : ℕ) : ℤ) - j := by
      intro j hj
      have := dist_along x1 x2 y1 y2 (j * h) hL' (hjh _ hL' j hj)
      rw [show (j : ℝ) * ((x2 - x1) / dist x1 x2 y1 y2) * h = j * h * ((x2 - x1) / dist x1 x2 y1 y2) by ring,
        show (j : ℝ) * ((y2 - y1) / dist x1 x2 y1 y2) * h = j * h * ((y2 - y1) / dist x1 x2 y1 y2) by ring,
        this, floor_sub _ _ hh, hK _ hL']
    unfold stations3
    rw [hlen]
    simp only
    rw [hst _ hL']
    rw [sources_eq (fun n : ℕ => [x1 + (n : ℝ) * ((x2 - x1) / dist x1 x2 y1 y2) * h,
      y1 + n * ((y2 - y1) / dist x1 x2 y1 y2) * h,
      topo (x1 + n * ((x2 - x1) / dist x1 x2 y1 y2) * h) (y1 + n * ((y2 - y1) / dist x1 x2 y1 y2) * h)]) _ k dt
      (fun j : ℕ => dist (x1 + (j : ℝ) * ((x2 - x1) / dist x1 x2 y1 y2) * h) x2
        (y1 + (j : ℝ) * ((y2 - y1) / dist x1 x2 y1 y2) * h) y2) h num hdt1 hD hn]
    have hal : ∀ t : ℝ, along true x1 x2 y1 y2 topo (t * h) = [x1 + t * ((x2 - x1) / dist x1 x2 y1 y2) * h,
        y1 + t * ((y2 - y1) / dist x1 x2 y1 y2) * h,
        topo (x1 + t * ((x2 - x1) / dist x1 x2 y1 y2) * h) (y1 + t * ((y2 - y1) / dist x1 x2 y1 y2) * h)] := by
      intro t
      have e1 : t * h * ((x2 - x1) / dist x1 x2 y1 y2) = t * ((x2 - x1) / dist x1 x2 y1 y2) * h := by ring
      have e2 : t * h * ((y2 - y1) / dist x1 x2 y1 y2) = t * ((y2 - y1) / dist x1 x2 y1 y2) * h := by ring
      unfold along
      rw [if_pos rfl]
      rw [show √((x2 - x1) ^ 2 + (y2 - y1) ^ 2) = dist x1 x2 y1 y2 from rfl, e1, e2]
    simp only [hal]
    push_cast
    rfl

/-- A line of 100 m to the north-east, spacing 10 m, dipoles. -/
example : kindOf "Dipole-Dipole".toList = some .dipoleDipole ∧ low "Volt".toList ∈ ["volt".toList] ∧
    0 < len true 0 60 0 80 ∧ ⌊len true 0 60 0 80 / 10⌋.toNat - Kind.dipoleDipole.shift = 8 := by
  have hl : len true 0 60 0 80 = 100 := by
    unfold len
    rw [if_pos rfl, show ((60 : ℝ) - 0) ^ 2 + (80 - 0) ^ 2 = 100 ^ 2 by norm_num, Real.sqrt_sq (by norm_num)]
  refine ⟨by decide, by decide, by rw [hl]; norm_num, ?_⟩
  rw [hl, show (100 : ℝ) / 10 = ((10 : ℤ) : ℝ) by norm_num, Int.floor_intCast]
  rfl

/-- C174. The first electrode of receiver `j` of source `i` is `j + 1` spacings behind the last electrode of the source:
one spacing further for every dipole source. Second electrodes are one spacing behind the first. -/
theorem C174_receivers (survey dt dim : Text) (x1 x2 y1 y2 : ℝ) (topo : ℝ → ℝ → ℝ) (num : ℤ) (h : ℝ) (k : Kind)
    (threeD : Bool) (hk : kindOf survey = some k)
    (hdt : low dt ∈ ["volt".toList, "apparent_resistivity".toList, "apparent_chargeability".toList])
    (hdim : if threeD then dim = "3D".toList else up dim = "2D".toList ∨ up dim = "2.5D".toList)
    (hL : 0 < len threeD x1 x2 y1 y2) (hh : 0 < h) (hn : 0 < num) :
    ∃ l, sourcesLine survey dt dim x1 x2 y1 y2 topo num h = .ok l ∧
      ∀ i s, l[i]? = some s → ∀ j r, s.rx[j]? = some r →
        r.1 = along threeD x1 x2 y1 y2 topo (((i + (if k.srcDipole then 1 else 0) + 1 + j : ℕ) : ℝ) * h) ∧
        r.2 = (if k.rxDipole then
          some (along threeD x1 x2 y1 y2 topo (((i + (if k.srcDipole then 1 else 0) + 2 + j : ℕ) : ℝ) * h)) else none) := by
  refine ⟨_, C174_line survey dt dim x1 x2 y1 y2 topo num h k threeD hk hdt hdim hL hh hn, ?_⟩
  intro i s hs j r hr
  rw [List.getElem?_map, Option.map_eq_some_iff] at hs
  obtain ⟨i', hi', rfl⟩ := hs
  have hii : i' = i := by
    by_cases hlt : i < ⌊len threeD x1 x2 y1 y2 / h⌋.toNat - k.shift
    · rw [List.getElem?_range hlt] at hi'; exact (Option.some.inj hi').symm
    · rw [List.getElem?_eq_none (by simp; omega)] at hi'; cases hi'
  subst hii
  simp only at hr
  rw [List.getElem?_map, Option.map_eq_some_iff] at hr
  obtain ⟨j', hj', rfl⟩ := hr
  have hjj : j' = j := by
    by_cases hlt : j < min num.toNat (⌊len threeD x1 x2 y1 y2 / h⌋.toNat - k.shift - i')
    · rw [List.getElem?_range hlt] at hj'; exact (Option.some.inj hj').symm
    · rw [List.getElem?_eq_none (by simp; omega)] at hj'; cases hj'
  subst hjj
  cases k <;> simp only [Kind.shift, Kind.srcDipole, Kind.rxDipole, Bool.false_eq_true, if_false, if_true]
  all_goals refine ⟨?_, ?_⟩
  all_goals first
    | rfl
    | (congr 2; push_cast; ring)
    | (congr 2; push_cast)
    | (congr 3; push_cast; ring)
    | (congr 3; push_cast)

/-- C174. Points along the line: the first end point at distance zero, the second at the length of the line, and
horizontal distances of points are differences along the line. All stations lie between the end points. -/
theorem C174_points (threeD : Bool) (x1 x2 y1 y2 h : ℝ) (topo : ℝ → ℝ → ℝ)
    (hL : 0 < len threeD x1 x2 y1 y2) (hh : 0 < h) :
    along threeD x1 x2 y1 y2 topo 0 = (if threeD then [x1, y1, topo x1 y1] else [x1, topo x1 0]) ∧
      along threeD x1 x2 y1 y2 topo (len threeD x1 x2 y1 y2) =
        (if threeD then [x2, y2, topo x2 y2] else [x2, topo x2 0]) ∧
      (∀ s t : ℝ, ((along threeD x1 x2 y1 y2 topo s).getD 0 0 - (along threeD x1 x2 y1 y2 topo t).getD 0 0) ^ 2 +
        (if threeD then ((along threeD x1 x2 y1 y2 topo s).getD 1 0 -
          (along threeD x1 x2 y1 y2 topo t).getD 1 0) ^ 2 else 0) = (s - t) ^ 2) ∧
      ∀ j : ℕ, j ≤ ⌊len threeD x1 x2 y1 y2 / h⌋.toNat → 0 ≤ (j : ℝ) * h ∧ (j : ℝ) * h ≤ len threeD x1 x2 y1 y2 := by
  refine ⟨?_, ?_, ?_, ?_⟩
  · cases threeD <;> simp [along]
  · cases threeD
    · simp [along, len]
    · simp only [len, if_true] at hL
      have e : ∀ a b : ℝ, a + √((x2 - x1) ^ 2 + (y2 - y1) ^ 2) * ((b - a) / √((x2 - x1) ^ 2 + (y2 - y1) ^ 2)) = b := by
        intro a b; field_simp; ring
      simp only [along, len, if_true, e]
  · intro s t
    cases threeD
    · simp [along]
    · have h2 : √((x2 - x1) ^ 2 + (y2 - y1) ^ 2) ^ 2 = (x2 - x1) ^ 2 + (y2 - y1) ^ 2 := Real.sq_sqrt (by positivity)
      simp only [len, if_true] at hL
      simp only [along, if_true, List.getD_cons_zero, List.getD_cons_succ]
      set L := √((x2 - x1) ^ 2 + (y2 - y1) ^ 2)
      have : (x1 + s * ((x2 - x1) / L) - (x1 + t * ((x2 - x1) / L))) ^ 2 +
          (y1 + s * ((y2 - y1) / L) - (y1 + t * ((y2 - y1) / L))) ^ 2 =
          (s - t) ^ 2 * (((x2 - x1) ^ 2 + (y2 - y1) ^ 2) / L ^ 2) := by
        field_simp
        ring
      rw [this, ← h2, div_self (by positivity), mul_one]
  · intro j hj
    refine ⟨by positivity, ?_⟩
    have h1 : (j : ℤ) ≤ ⌊len threeD x1 x2 y1 y2 / h⌋ := by
      have := Int.toNat_of_nonneg (Int.floor_nonneg.2 (show 0 ≤ len threeD x1 x2 y1 y2 / h by positivity))
      omega
    have h2 := Int.le_floor.1 h1
    push_cast at h2
    rwa [le_div_iff₀ hh] at h2

theorem sum_sub (n : ℕ) : ((List.range n).map fun i => n - i).sum = n * (n + 1) / 2 := by
  induction n with
  | zero => rfl
  | succ n ih =>
    rw [List.range_succ_eq_map, List.map_cons, List.map_map, List.sum_cons]
    have : ((List.range n).map ((fun i => n + 1 - i) ∘ Nat.succ)) = (List.range n).map fun i => n - i := by
      apply List.map_congr_left
      intro i _
      simp only [Function.comp]
      omega
    rw [this, ih, Nat.sub_zero]
    have : (n + 1) * (n + 1 + 1) = 2 * (n + 1) + n * (n + 1) := by ring
    rw [this]
    omega

/-- C174. Number of readings of a line: without limit on the receivers every possible pair of source and receiver
is measured once, and a limit of `num` receivers keeps `min num …` of them for each source. -/
theorem C174_count (survey dt dim : Text) (x1 x2 y1 y2 : ℝ) (topo : ℝ → ℝ → ℝ) (num : ℤ) (h : ℝ) (k : Kind)
    (threeD : Bool) (hk : kindOf survey = some k)
    (hdt : low dt ∈ ["volt".toList, "apparent_resistivity".toList, "apparent_chargeability".toList])
    (hdim : if threeD then dim = "3D".toList else up dim = "2D".toList ∨ up dim = "2.5D".toList)
    (hL : 0 < len threeD x1 x2 y1 y2) (hh : 0 < h) (hn : 0 < num) :
    ∃ l, sourcesLine survey dt dim x1 x2 y1 y2 topo num h = .ok l ∧
      (∀ s ∈ l, s.rx.length ≠ 0 ∧ (s.rx.length : ℤ) ≤ num) ∧
      (⌊len threeD x1 x2 y1 y2 / h⌋ ≤ num → (l.map fun s => s.rx.length).sum =
        (⌊len threeD x1 x2 y1 y2 / h⌋.toNat - k.shift) *
          (⌊len threeD x1 x2 y1 y2 / h⌋.toNat - k.shift + 1) / 2) := by
  refine ⟨_, C174_line survey dt dim x1 x2 y1 y2 topo num h k threeD hk hdt hdim hL hh hn, ?_, ?_⟩
  · intro s hs
    obtain ⟨i, hi, rfl⟩ := List.mem_map.1 hs
    have := List.mem_range.1 hi
    simp only [List.length_map, List.length_range]
    omega
  · intro hle
    rw [List.map_map]
    rw [← sum_sub]
    congr 1
    apply List.map_congr_left
    intro i _
    simp only [Function.comp, List.length_map, List.length_range]
    omega

/-- C174 violated. `"3d"` passes the check of the dimension, but is taken as two dimensions: the y coordinates
of the end points do not matter, and locations have two coordinates. -/
theorem C174_violated_case (survey dt : Text) (x1 x2 y1 y2 y1' y2' : ℝ) (topo : ℝ → ℝ → ℝ) (num : ℤ) (h : ℝ) :
    sourcesLine survey dt "3d".toList x1 x2 y1 y2 topo num h =
        sourcesLine survey dt "3d".toList x1 x2 y1' y2' topo num h ∧
      sourcesLine survey dt "3d".toList x1 x2 y1 y2 topo num h =
        sourcesLine survey dt "2D".toList x1 x2 y1 y2 topo num h := by
  have e1 : up "3d".toList = "3D".toList := by decide
  have e2 : up "2D".toList = "2D".toList := by decide
  have e3 : ("3d".toList : Text) ≠ "3D".toList := by decide
  have e4 : ("2D".toList : Text) ≠ "3D".toList := by decide
  have e5 : ¬ ("3D".toList : Text) ∉ ["2D".toList, "2.5D".toList, "3D".toList] := by decide
  have e6 : ¬ ("2D".toList : Text) ∉ ["2D".toList, "2.5D".toList, "3D".toList] := by decide
  unfold sourcesLine
  cases kindOf survey with
  | none => exact ⟨rfl, rfl⟩
  | some k => simp only [e1, e2, if_neg e3, if_neg e4, if_neg e5, if_neg e6, and_self]

/-- C174 violated. `data_type="apparent_conductivity"` is among the accepted data types, but receivers refuse it:
ValueError for every line with at least one source. -/
theorem C174_violated_conductivity (survey dim : Text) (x1 x2 y1 y2 : ℝ) (topo : ℝ → ℝ → ℝ) (num : ℤ) (h : ℝ)
    (k : Kind) (hk : kindOf survey = some k) (hdim : dim = "3D".toList)
    (hL : 0 < len true x1 x2 y1 y2) (hh : 0 < h) (hn : 0 < num)
    (hK : (k.shift : ℤ) < ⌊len true x1 x2 y1 y2 / h⌋) :
    sourcesLine survey "apparent_conductivity".toList dim x1 x2 y1 y2 topo num h = .error .valueError := by
  subst hdim
  have hlen : len true x1 x2 y1 y2 = dist x1 x2 y1 y2 := by simp [len, dist]
  rw [hlen] at hL hK
  unfold sourcesLine
  rw [hk]
  simp only
  rw [if_neg (by decide), if_neg (by decide), if_pos trivial]
  unfold sources
  have herr : ∀ j, (step (stations3 x1 x2 y1 y2 h topo) k "apparent_conductivity".toList
      (fun j => dist (x1 + j * ((x2 - x1) / dist x1 x2 y1 y2) * h) x2
        (y1 + j * ((y2 - y1) / dist x1 x2 y1 y2) * h) y2) h num j = .error .valueError) ∨
      ∃ z, step (stations3 x1 x2 y1 y2 h topo) k "apparent_conductivity".toList
      (fun j => dist (x1 + j * ((x2 - x1) / dist x1 x2 y1 y2) * h) x2
        (y1 + j * ((y2 - y1) / dist x1 x2 y1 y2) * h) y2) h num j = .ok z := by
    intro j
    unfold step
    simp only
    split
    · exact Or.inr ⟨_, rfl⟩
    · left
      rw [receiver, if_pos (by decide)]
      rfl
  rw [mapM_error _ _ .valueError 0 _ (fun y _ => herr y)]
  · rfl
  · unfold step
    simp only
    have hj : (k.shift : ℝ) * h ≤ dist x1 x2 y1 y2 := by
      have h2 := Int.le_floor.1 hK.le
      push_cast at h2
      rwa [le_div_iff₀ hh] at h2
    have e := dist_along x1 x2 y1 y2 (k.shift * h) hL hj
    rw [show ((0 + k.shift : ℕ) : ℝ) * ((x2 - x1) / dist x1 x2 y1 y2) * h =
        k.shift * h * ((x2 - x1) / dist x1 x2 y1 y2) by push_cast; ring,
      show ((0 + k.shift : ℕ) : ℝ) * ((y2 - y1) / dist x1 x2 y1 y2) * h =
        k.shift * h * ((y2 - y1) / dist x1 x2 y1 y2) by push_cast; ring, e, floor_sub _ _ hh]
    rw [if_neg (by rw [not_le, lt_min_iff]; constructor <;> omega)]
    rw [receiver, if_pos (by decide)]
    rfl
  · rw [List.mem_range]
    simp only [stations3, List.length_map, List.length_range, nstn]
    omega

example : 0 < len true 0 60 0 80 ∧ ((Kind.poleDipole.shift : ℕ) : ℤ) < ⌊len true 0 60 0 80 / 10⌋ := by
  have hl : len true 0 60 0 80 = 100 := by
    unfold len
    rw [if_pos rfl, show ((60 : ℝ) - 0) ^ 2 + (80 - 0) ^ 2 = 100 ^ 2 by norm_num, Real.sqrt_sq (by norm_num)]
  rw [hl, show (100 : ℝ) / 10 = ((10 : ℤ) : ℝ) by norm_num, Int.floor_intCast]
  exact ⟨by norm_num, by decide⟩

/-- C174 violated. In two dimensions a line given from right to left is laid out to the right of its first end
point, away from the second one: every station after the first is outside the line. -/
theorem C174_violated_reversed (x1 x2 h : ℝ) (topo : ℝ → ℝ → ℝ) (hx : x2 < x1) (hh : 0 < h) :
    ∀ (j : ℕ) (p : List ℝ), (stations2 x1 x2 h topo)[j + 1]? = some p → ∀ x z, p = [x, z] → x1 < x := by
  intro j p hp x z e
  unfold stations2 at hp
  rw [List.getElem?_map] at hp
  by_cases hj : j + 1 < nstn (dist x1 x2 0 0) h
  · rw [List.getElem?_range hj] at hp
    simp only [Option.map_some, Option.some.injEq] at hp
    rw [e] at hp
    have := (List.cons.inj hp).1
    rw [← this]
    push_cast
    have : (0 : ℝ) < (j + 1) * h := by positivity
    linarith
  · rw [List.getElem?_eq_none (by simp; omega)] at hp
    cases hp

/-- C174 violated. With dipole receivers such a line of at least one spacing raises ValueError, unless it is too
short for any source. -/
theorem C174_violated_reversed_dipole (survey dt dim : Text) (x1 x2 y1 y2 : ℝ) (topo : ℝ → ℝ → ℝ) (num : ℤ) (h : ℝ)
    (k : Kind) (hk : kindOf survey = some k) (hr : k.rxDipole = true)
    (hdt : low dt ∈ ["volt".toList, "apparent_resistivity".toList, "apparent_chargeability".toList])
    (hdim : up dim = "2D".toList ∨ up dim = "2.5D".toList) (hx : x2 < x1) (hh : 0 < h) (hn : 0 < num)
    (hK : (k.shift : ℤ) ≤ ⌊(x1 - x2) / h⌋) :
    sourcesLine survey dt dim x1 x2 y1 y2 topo num h = .error .valueError := by
  have hdt1 : low dt ≠ "apparent_conductivity".toList := by
    intro e; rw [e] at hdt; revert hdt; decide
  have hdt2 : ¬ low dt ∉ ["volt".toList, "apparent_conductivity".toList, "apparent_resistivity".toList,
      "apparent_chargeability".toList] := by
    rw [not_not]
    exact (show ∀ t ∈ ["volt".toList, "apparent_resistivity".toList, "apparent_chargeability".toList],
      t ∈ ["volt".toList, "apparent_conductivity".toList, "apparent_resistivity".toList,
        "apparent_chargeability".toList] by decide) _ hdt
  have hd3 : dim ≠ "3D".toList := by
    rintro rfl
    exact absurd hdim (by decide)
  have hd2 : ¬ up dim ∉ ["2D".toList, "2.5D".toList, "3D".toList] := by
    rw [not_not]
    rcases hdim with e | e <;> rw [e] <;> decide
  unfold sourcesLine
  rw [hk]
  simp only
  rw [if_neg hdt2, if_neg hd2, if_neg hd3]
  have hs1 : 1 ≤ k.shift := by cases k <;> simp_all [Kind.shift, Kind.rxDipole]
  have hdist : dist x1 x2 0 0 = x1 - x2 := by
    unfold dist
    rw [show (x2 - x1) ^ 2 + (0 - 0 : ℝ) ^ 2 = (x1 - x2) ^ 2 by ring, Real.sqrt_sq (by linarith)]
  have hlenP : (stations2 x1 x2 h topo).length = ⌊(x1 - x2) / h⌋.toNat + 1 := by
    simp only [stations2, List.length_map, List.length_range, nstn, hdist]
    omega
  have hD : ∀ j : ℕ, ⌊dist (x1 + (j : ℝ) * h) x2 0 0 / h⌋ = ⌊(x1 - x2) / h⌋ + j := by
    intro j
    have : (0 : ℝ) ≤ j * h := by positivity
    unfold dist
    rw [show (x2 - (x1 + (j : ℝ) * h)) ^ 2 + (0 - 0 : ℝ) ^ 2 = ((x1 - x2) + j * h) ^ 2 by ring,
      Real.sqrt_sq (by linarith), add_div, mul_div_assoc, div_self hh.ne', mul_one, Int.floor_add_natCast]
  generalize hP : stations2 x1 x2 h topo = P at hlenP
  have hstep : ∀ i, i + k.shift < P.length → (step P k dt (fun j => dist (x1 + (j : ℝ) * h) x2 0 0) h num i =
      .error .valueError ∨ ∃ z, step P k dt (fun j => dist (x1 + (j : ℝ) * h) x2 0 0) h num i = .ok z) := by
    intro i hi
    unfold step
    simp only
    split
    · exact Or.inr ⟨_, rfl⟩
    · rw [receiver, if_neg hdt1, hr, if_pos rfl]
      split
      · left; rfl
      · right
        have h1 : row P i = .ok P[i] := by simp [row, List.getElem?_eq_getElem (show i < P.length by omega)]
        have h2 : row P (i + 1) = .ok P[i + 1] := by
          simp [row, List.getElem?_eq_getElem (show i + 1 < P.length by omega)]
        rw [h1]
        cases k.srcDipole
        · exact ⟨_, rfl⟩
        · simp only [if_true, h2]
          exact ⟨_, rfl⟩
  unfold sources
  rw [mapM_error _ _ .valueError (P.length - k.shift - 1)]
  · rfl
  · rw [List.mem_range]; omega
  · intro y hy
    exact hstep y (by have := List.mem_range.1 hy; omega)
  · unfold step
    simp only
    rw [hD]
    have hi : P.length - k.shift - 1 + k.shift = P.length - 1 := by omega
    rw [hi]
    rw [if_neg (by rw [not_le, lt_min_iff]; constructor <;> omega)]
    have hpos : 1 ≤ (min (⌊(x1 - x2) / h⌋ + ((P.length - 1 : ℕ) : ℤ)) num).toNat := by omega
    generalize (min (⌊(x1 - x2) / h⌋ + ((P.length - 1 : ℕ) : ℤ)) num).toNat = n at hpos
    rw [receiver, if_neg hdt1, hr, if_pos rfl, if_pos (by simp [slice]; omega)]
    rfl

example : (1 : ℝ) < 100 ∧ kindOf "pole-dipole".toList = some .poleDipole ∧ Kind.poleDipole.rxDipole = true ∧
    ((Kind.poleDipole.shift : ℕ) : ℤ) ≤ ⌊((100 : ℝ) - 0) / 10⌋ := by
  refine ⟨by norm_num, by decide, rfl, ?_⟩
  rw [show ((100 : ℝ) - 0) / 10 = ((10 : ℤ) : ℝ) by norm_num, Int.floor_intCast]
  decide

/-! ## `generate_dcip_survey` -/

/-- What the function reads: the first two columns of the end points, the third one of the first end point,
spacing `a`, separation `b` and number of receivers. `d3` is `dim == 3`, else `dim == 2`. The spacing is
positive. -/
structure Conf where
  d3 : Bool
  e0 : ℝ × ℝ
  e1 : ℝ × ℝ
  z0 : ℝ
  a : ℝ
  b : ℝ
  n : ℤ

/-- `dl_len`, `static_utils.py` 1123. -/
def Conf.L (c : Conf) : ℝ := dist c.e0.1 c.e1.1 c.e0.2 c.e1.2
/-- `dl_x`, `static_utils.py` 1125. -/
def Conf.dx (c : Conf) : ℝ := (c.e1.1 - c.e0.1) / c.L
/-- `dl_y`, `static_utils.py` 1126. -/
def Conf.dy (c : Conf) : ℝ := (c.e1.2 - c.e0.2) / c.L

/-- A row of `M`, `static_utils.py` 1131-1149. -/
def Conf.M (c : Conf) (k : ℕ) : List ℝ :=
  if c.d3 then [c.e0.1 + k * c.dx * c.a, c.e0.2 + k * c.dy * c.a, c.z0] else [c.e0.1 + k * c.dx * c.a, c.e0.2]

/-- A row of `N`, `static_utils.py` 1131-1149. -/
def Conf.N (c : Conf) (k : ℕ) : List ℝ :=
  if c.d3 then [c.e0.1 + k * c.dx * c.a + c.a * c.dx, c.e0.2 + k * c.dy * c.a + c.a * c.dy, c.z0]
  else [c.e0.1 + k * c.dx * c.a + c.a * c.dx, c.e0.2]

/-- `AB`, `static_utils.py` 1158-1165: from the last electrode of the source to the second end point. -/
def Conf.AB (c : Conf) (k : Kind) (ii : ℕ) : ℝ :=
  if k.srcDipole then dist ((c.N ii).getD 0 0) c.e1.1 ((c.N ii).getD 1 0) c.e1.2
  else dist ((c.M ii).getD 0 0) c.e1.1 ((c.M ii).getD 1 0) c.e1.2

/-- Rows `j` of `P1` and `P2`, `static_utils.py` 1181-1208; both start from `N`. -/
def Conf.rx (c : Conf) (ii j : ℕ) : List ℝ × List ℝ :=
  let x := (c.N ii).getD 0 0 + c.dx * c.b + j * c.dx * c.a
  let y := (c.N ii).getD 1 0 + c.dy * c.b + j * c.dy * c.a
  if c.d3 then ([x, y, c.z0], [x + c.a * c.dx, y + c.a * c.dy, c.z0])
  else ([x, c.e0.2], [x + c.a * c.dx, c.e0.2])

/-- One pass of the loop, `static_utils.py` 1157-1214. -/
def Conf.pass (c : Conf) (k : Kind) (ii : ℕ) : Option (Src (List ℝ)) :=
  let nstn := min ⌊(c.AB k ii - c.b) / c.a⌋ c.n
  if nstn ≤ 0 then none
  else some ⟨c.M ii, if k.srcDipole then some (c.N ii) else none,
    (List.range nstn.toNat).map fun j => ((c.rx ii j).1, if k.rxDipole then some (c.rx ii j).2 else none)⟩

/-- The gradient survey, `static_utils.py` 1216-1259. `ztop` is defined in two dimensions only (UnboundLocalError),
and has as many values as the first line has poles. -/
def Conf.gradient (c : Conf) : Except Err (List (Src (List ℝ))) :=
  let xmin := c.e0.1 + c.dx * c.b
  let ymin := c.e0.2 + c.dy * c.b
  let xmax := c.e1.1 - c.dx * c.b
  let ymax := c.e1.2 - c.dy * c.b
  let boxl := √((xmin - xmax) ^ 2 + (ymin - ymax) ^ 2)
  let n0 := ⌊c.L / c.a⌋.toNat
  let n1 := ⌊boxl / c.a⌋.toNat
  let nlin := ⌊boxl / 2 / c.a⌋.toNat
  if c.d3 then .error .exception
  else if n0 = n1 ∨ n0 = 1 then
    .ok [⟨[c.e0.1, c.e0.2], some [c.e1.1, c.e1.2], (List.range (2 * nlin + 1)).flatMap fun ii : ℕ =>
      (List.range n1).map fun k : ℕ =>
        let x := xmin + k * c.dx * c.a - ((ii : ℝ) - nlin) * c.a * c.dy;
        ([x, c.e0.2], some [x + c.a * c.dx, c.e0.2])⟩]
  else .error .valueError

/-- `generate_dcip_survey`, `static_utils.py` 1088-1262. -/
def Conf.survey (c : Conf) (type : Text) : Except Err (List (Src (List ℝ))) :=
  if type ≠ "gradient".toList then do
    let l ← (List.range (⌊c.L / c.a⌋.toNat - 1)).mapM fun ii =>
      match kindOf type with
      | none => Except.error Err.typeError
      | some k => Except.ok (c.pass k ii)
    .ok l.reduceOption
  else c.gradient

/-- The point at distance `t` from the first end point towards the second. -/
def Conf.point (c : Conf) (t : ℝ) : List ℝ :=
  if c.d3 then [c.e0.1 + t * c.dx, c.e0.2 + t * c.dy, c.z0] else [c.e0.1 + t * c.dx, c.e0.2]

theorem Conf.M_eq (c : Conf) (k : ℕ) : c.M k = c.point (k * c.a) := by
  unfold Conf.M Conf.point
  rw [show (k : ℝ) * c.dx * c.a = k * c.a * c.dx by ring, show (k : ℝ) * c.dy * c.a = k * c.a * c.dy by ring]

theorem Conf.N_eq (c : Conf) (k : ℕ) : c.N k = c.point ((k + 1) * c.a) := by
  unfold Conf.N Conf.point
  rw [show c.e0.1 + (k : ℝ) * c.dx * c.a + c.a * c.dx = c.e0.1 + (k + 1) * c.a * c.dx by ring,
    show c.e0.2 + (k : ℝ) * c.dy * c.a + c.a * c.dy = c.e0.2 + (k + 1) * c.a * c.dy by ring]

theorem Conf.point_dist (c : Conf) (t : ℝ) (hL : 0 < c.L) (ht : t ≤ c.L) (hf : c.d3 = false → c.e0.2 = c.e1.2) :
    dist ((c.point t).getD 0 0) c.e1.1 ((c.point t).getD 1 0) c.e1.2 = c.L - t := by
  have := dist_along c.e0.1 c.e1.1 c.e0.2 c.e1.2 t hL ht
  unfold Conf.point
  cases hd : c.d3
  · have hy := hf hd
    simp only [Bool.false_eq_true, if_false, List.getD_cons_zero, List.getD_cons_succ]
    rw [hy, sub_self, zero_div, mul_zero, add_zero] at this
    unfold Conf.dx Conf.L
    rw [hy]
    exact this
  · simp only [if_true, List.getD_cons_zero, List.getD_cons_succ]
    exact this

theorem Conf.rx_eq (c : Conf) (ii j : ℕ) : c.rx ii j =
    (c.point ((ii + 1) * c.a + c.b + j * c.a), c.point ((ii + 1) * c.a + c.b + j * c.a + c.a)) := by
  unfold Conf.rx
  rw [c.N_eq]
  unfold Conf.point
  cases c.d3
  · simp only [Bool.false_eq_true, if_false, List.getD_cons_zero, List.getD_cons_succ]
    simp only [Prod.mk.injEq, List.cons.injEq, and_true]
    exact ⟨by ring, by ring⟩
  · simp only [if_true, List.getD_cons_zero, List.getD_cons_succ]
    simp only [Prod.mk.injEq, List.cons.injEq, and_true]
    exact ⟨⟨by ring, by ring⟩, by ring, by ring⟩

/-- C174. For every line (flat, in two dimensions), kind of survey, spacing and separation: source `i` is at
distance `i a`, dipoles have length `a`, and the receivers of all kinds of sources are at `(i + 1) a + b`, one
spacing after another. Their number is what fits between the last electrode of the source, plus `b`, and the end of
the line, or the limit. Sources without receivers are left out. -/
theorem C174_survey (c : Conf) (type : Text) (k : Kind) (hk : kindOf type = some k) (hL : 0 < c.L) (ha : 0 < c.a)
    (hf : c.d3 = false → c.e0.2 = c.e1.2) :
    c.survey type = .ok ((List.range (⌊c.L / c.a⌋.toNat - 1)).filterMap fun i : ℕ =>
      let count := min ⌊(c.L - (if k.srcDipole then (i : ℝ) + 1 else i) * c.a - c.b) / c.a⌋ c.n
      if count ≤ 0 then none
      else some ⟨c.point (i * c.a), if k.srcDipole then some (c.point ((i + 1) * c.a)) else none,
        (List.range count.toNat).map fun j : ℕ => (c.point ((i + 1) * c.a + c.b + j * c.a),
          if k.rxDipole then some (c.point ((i + 1) * c.a + c.b + j * c.a + c.a)) else none)⟩) := by
  unfold Conf.survey
  have hg : type ≠ "gradient".toList := by
    rintro rfl
    exact absurd hk (by cases k <;> decide)
  rw [if_pos hg, hk]
  simp only
  rw [mapM_ok _ _ (fun ii => c.pass k ii) fun x _ => rfl]
  show Except.ok _ = _
  congr 1
  rw [List.reduceOption, List.filterMap_map]
  apply List.filterMap_congr
  intro i hi
  have hi' := List.mem_range.1 hi
  have hfl : ((i + 1 : ℕ) : ℤ) ≤ ⌊c.L / c.a⌋ := by omega
  have h2 := Int.le_floor.1 hfl
  push_cast at h2
  rw [le_div_iff₀ ha] at h2
  have h1 : (i : ℝ) * c.a ≤ c.L := by nlinarith
  have hAB : c.AB k i = c.L - (if k.srcDipole then (i : ℝ) + 1 else i) * c.a := by
    unfold Conf.AB
    cases k.srcDipole
    · simp only [Bool.false_eq_true, if_false]
      rw [c.M_eq, c.point_dist _ hL h1 hf]
    · simp only [if_true]
      rw [c.N_eq, c.point_dist _ hL h2 hf]
  simp only [Function.comp, id_eq, Conf.pass, hAB, c.M_eq, c.N_eq, c.rx_eq]

/-- A line of 200 m along x. -/
def exampleLine : Conf := ⟨true, (0, 0), (200, 0), 0, 20, 20, 8⟩

theorem exampleLine_L : exampleLine.L = 200 := by
  unfold Conf.L dist exampleLine
  rw [show ((200 : ℝ) - 0) ^ 2 + ((0 : ℝ) - 0) ^ 2 = 200 ^ 2 by norm_num, Real.sqrt_sq (by norm_num)]

example : kindOf "pole-dipole".toList = some .poleDipole ∧ 0 < exampleLine.L ∧ 0 < exampleLine.a ∧
    ⌊exampleLine.L / exampleLine.a⌋.toNat - 1 = 9 := by
  rw [exampleLine_L]
  refine ⟨by decide, by norm_num, by norm_num [exampleLine], ?_⟩
  rw [show (200 : ℝ) / exampleLine.a = ((10 : ℤ) : ℝ) by norm_num [exampleLine], Int.floor_intCast]
  rfl

/-- C174, partial. All electrodes lie on the line between the end points, for separations that are not negative and
all surveys except pole-dipole. -/
theorem C174_inside_partial (c : Conf) (type : Text) (k : Kind) (hk : kindOf type = some k)
    (hkd : k ≠ .poleDipole) (hL : 0 < c.L) (ha : 0 < c.a) (hb : 0 ≤ c.b)
    (hf : c.d3 = false → c.e0.2 = c.e1.2) (l : List (Src (List ℝ))) (hl : c.survey type = .ok l) :
    ∀ s ∈ l, ∀ p ∈ s.a :: s.b.toList ++ s.rx.flatMap (fun r => r.1 :: r.2.toList),
      ∃ t, 0 ≤ t ∧ t ≤ c.L ∧ p = c.point t := by
  rw [C174_survey c type k hk hL ha hf] at hl
  cases hl
  intro s hs p hp
  obtain ⟨i, hi, h⟩ := List.mem_filterMap.1 hs
  simp only at h
  by_cases hc : min ⌊(c.L - (if k.srcDipole then (i : ℝ) + 1 else i) * c.a - c.b) / c.a⌋ c.n ≤ 0
  · rw [if_pos hc] at h; cases h
  rw [if_neg hc, Option.some.injEq] at h
  subst h
  have hi' := List.mem_range.1 hi
  have hfl : ((i + 1 : ℕ) : ℤ) ≤ ⌊c.L / c.a⌋ := by omega
  have h2 := Int.le_floor.1 hfl
  push_cast at h2
  rw [le_div_iff₀ ha] at h2
  simp only [List.cons_append, List.mem_cons, List.mem_append, List.mem_flatMap] at hp
  rcases hp with rfl | hp | ⟨r, hr, hp⟩
  · exact ⟨_, by positivity, by nlinarith, rfl⟩
  · cases hsd : k.srcDipole <;> simp [hsd] at hp
    subst hp
    exact ⟨_, by positivity, h2, rfl⟩
  · obtain ⟨j, hj, rfl⟩ := List.mem_map.1 hr
    have hj' := List.mem_range.1 hj
    set m := ⌊(c.L - (if k.srcDipole then (i : ℝ) + 1 else i) * c.a - c.b) / c.a⌋
    have hjm : ((j + 1 : ℕ) : ℤ) ≤ m := by omega
    have h3 := Int.le_floor.1 hjm
    push_cast at h3
    rw [le_div_iff₀ ha] at h3
    have hja : 0 ≤ (j : ℝ) * c.a := by positivity
    have hia : 0 ≤ ((i : ℝ) + 1) * c.a := by positivity
    rcases hp with rfl | hp
    · refine ⟨_, by positivity, ?_, rfl⟩
      cases hsd : k.srcDipole <;> simp only [hsd, if_true, if_false, Bool.false_eq_true] at h3 <;> nlinarith
    · cases hrd : k.rxDipole
      · simp [hrd] at hp
      · have hsd : k.srcDipole = true := by cases k <;> simp_all [Kind.rxDipole, Kind.srcDipole]
        simp only [hrd, if_true, Option.toList_some, List.mem_singleton] at hp
        simp only [hsd, if_true] at h3
        exact ⟨_, by positivity, by nlinarith, hp⟩

/-- C174 violated. Pole-dipole surveys: the first electrode of the receivers is at `a + b` from the pole, instead
of `b`, and, unless the limit is reached before, the last electrode of every source lies beyond the end of the
line. -/
theorem C174_violated_end (c : Conf) (type : Text) (hk : kindOf type = some .poleDipole) (hL : 0 < c.L)
    (ha : 0 < c.a) (hf : c.d3 = false → c.e0.2 = c.e1.2) (i : ℕ) (hi : i + 1 < ⌊c.L / c.a⌋.toNat)
    (hc : 0 < ⌊(c.L - i * c.a - c.b) / c.a⌋) (hn : ⌊(c.L - i * c.a - c.b) / c.a⌋ ≤ c.n) :
    ∃ l, c.survey type = .ok l ∧ ∃ s ∈ l, s.a = c.point (i * c.a) ∧
      (∃ q, s.rx.head? = some (c.point (i * c.a + (c.a + c.b)), q)) ∧
      ∃ p t, s.rx.getLast? = some (p, some (c.point t)) ∧ c.L < t := by
  refine ⟨_, C174_survey c type .poleDipole hk hL ha hf, ⟨c.point (i * c.a), none,
    (List.range (min ⌊(c.L - i * c.a - c.b) / c.a⌋ c.n).toNat).map fun j : ℕ =>
      (c.point ((i + 1) * c.a + c.b + j * c.a), some (c.point ((i + 1) * c.a + c.b + j * c.a + c.a)))⟩,
    List.mem_filterMap.2 ⟨i, ?_, ?_⟩, rfl, ?_, ?_⟩
  · rw [List.mem_range]; omega
  · simp only [Kind.srcDipole, Bool.false_eq_true, if_false]
    rw [if_neg (by rw [min_eq_left hn]; omega)]
    rfl
  · rw [min_eq_left hn]
    obtain ⟨m, hm⟩ : ∃ m : ℕ, ⌊(c.L - i * c.a - c.b) / c.a⌋.toNat = m + 1 := ⟨_, (Nat.succ_pred_eq_of_pos (by omega)).symm⟩
    rw [hm, List.range_succ_eq_map]
    simp only [List.map_cons, List.head?_cons]
    refine ⟨some (c.point ((i + 1) * c.a + c.b + (0 : ℕ) * c.a + c.a)), ?_⟩
    rw [show ((i : ℝ) + 1) * c.a + c.b + ((0 : ℕ) : ℝ) * c.a = i * c.a + (c.a + c.b) by push_cast; ring]
  · rw [min_eq_left hn]
    obtain ⟨m, hm⟩ : ∃ m : ℕ, ⌊(c.L - i * c.a - c.b) / c.a⌋.toNat = m + 1 := ⟨_, (Nat.succ_pred_eq_of_pos (by omega)).symm⟩
    rw [hm, List.range_succ, List.map_append, List.map_cons, List.map_nil, List.getLast?_append]
    refine ⟨_, _, rfl, ?_⟩
    have h3 := Int.lt_floor_add_one ((c.L - i * c.a - c.b) / c.a)
    have h4 : (⌊(c.L - i * c.a - c.b) / c.a⌋ : ℝ) = m + 1 := by
      have : ⌊(c.L - i * c.a - c.b) / c.a⌋ = ((m + 1 : ℕ) : ℤ) := by omega
      rw [this]; push_cast; rfl
    rw [h4, div_lt_iff₀ ha] at h3
    linarith

example : (0 : ℕ) + 1 < ⌊exampleLine.L / exampleLine.a⌋.toNat ∧
    ⌊(exampleLine.L - ((3 : ℕ) : ℝ) * exampleLine.a - exampleLine.b) / exampleLine.a⌋ = 6 ∧
    (6 : ℤ) ≤ exampleLine.n := by
  rw [exampleLine_L]
  refine ⟨?_, ?_, by decide⟩
  · rw [show (200 : ℝ) / exampleLine.a = ((10 : ℤ) : ℝ) by norm_num [exampleLine], Int.floor_intCast]
    decide
  · rw [show ((200 : ℝ) - ((3 : ℕ) : ℝ) * exampleLine.a - exampleLine.b) / exampleLine.a = ((6 : ℤ) : ℝ) by
      norm_num [exampleLine], Int.floor_intCast]

/-- C174 violated. Gradient surveys cannot be made in three dimensions, the default; in two dimensions a survey
shortened by `b` raises ValueError unless the number of stations stays the same or was one. -/
theorem C174_violated_gradient (c : Conf) :
    (c.d3 = true → c.survey "gradient".toList = .error .exception) ∧
      (c.d3 = false → 0 < c.L → c.e0.2 = c.e1.2 → ⌊c.L / c.a⌋.toNat ≠ 1 →
        ⌊c.L / c.a⌋.toNat ≠ ⌊|c.L - 2 * c.b| / c.a⌋.toNat → c.survey "gradient".toList = .error .valueError) := by
  constructor
  · intro h
    unfold Conf.survey Conf.gradient
    rw [if_neg (by simp)]
    simp [h]
  · intro h hL hy h1 h2
    unfold Conf.survey Conf.gradient
    rw [if_neg (by simp)]
    have hsq : c.L ^ 2 = (c.e1.1 - c.e0.1) ^ 2 := by
      unfold Conf.L; rw [dist_sq, hy]; ring
    have hbox : √((c.e0.1 + c.dx * c.b - (c.e1.1 - c.dx * c.b)) ^ 2 +
        (c.e0.2 + c.dy * c.b - (c.e1.2 - c.dy * c.b)) ^ 2) = |c.L - 2 * c.b| := by
      rw [← Real.sqrt_sq_eq_abs]
      congr 1
      unfold Conf.dx Conf.dy
      rw [hy, sub_self, zero_div]
      have : (c.e0.1 + (c.e1.1 - c.e0.1) / c.L * c.b - (c.e1.1 - (c.e1.1 - c.e0.1) / c.L * c.b)) ^ 2 =
          (c.e1.1 - c.e0.1) ^ 2 * (1 - 2 * c.b / c.L) ^ 2 := by
        field_simp; ring
      rw [this, ← hsq]
      field_simp
      ring
    simp only [h, hbox, Bool.false_eq_true, if_false]
    rw [if_neg (by tauto)]

example : exampleLine.d3 = true ∧ ⌊exampleLine.L / exampleLine.a⌋.toNat = 10 ∧
    ⌊|exampleLine.L - 2 * exampleLine.b| / exampleLine.a⌋.toNat = 8 := by
  rw [exampleLine_L]
  refine ⟨rfl, ?_, ?_⟩
  · rw [show (200 : ℝ) / exampleLine.a = ((10 : ℤ) : ℝ) by norm_num [exampleLine], Int.floor_intCast]
    rfl
  · rw [show |(200 : ℝ) - 2 * exampleLine.b| / exampleLine.a = ((8 : ℤ) : ℝ) by
      rw [abs_of_nonneg (by norm_num [exampleLine])]; norm_num [exampleLine], Int.floor_intCast]
    rfl

/-- C174 violated. Where a gradient survey succeeds in two dimensions, the lines next to the survey line fall onto
it: every reading is repeated as often as there are lines. -/
theorem C174_violated_repeated (c : Conf) (hd : c.d3 = false) (hy : c.e0.2 = c.e1.2) (l : List (Src (List ℝ)))
    (hl : c.survey "gradient".toList = .ok l) :
    ∃ (m : ℕ) (line : List (List ℝ × Option (List ℝ))), m % 2 = 1 ∧
      l.map Src.rx = [(List.replicate m line).flatten] := by
  unfold Conf.survey Conf.gradient at hl
  rw [if_neg (by simp)] at hl
  simp only [hd, Bool.false_eq_true, if_false] at hl
  split at hl
  · cases hl
    have hdy : c.dy = 0 := by unfold Conf.dy; rw [hy]; simp
    simp only [hdy, mul_zero, sub_zero]
    have key : ∀ (n : ℕ) (line : List (List ℝ × Option (List ℝ))) (p : List ℝ) (q : Option (List ℝ)),
        ∃ (m : ℕ) (line' : List (List ℝ × Option (List ℝ))), m % 2 = 1 ∧
          [(⟨p, q, (List.range (2 * n + 1)).flatMap fun _ => line⟩ : Src (List ℝ))].map Src.rx =
            [(List.replicate m line').flatten] := by
      intro n line p q
      refine ⟨2 * n + 1, line, by omega, ?_⟩
      rw [List.map_cons, List.map_nil, List.flatMap_def, List.map_const', List.length_range]
    exact key _ _ _ _
  · cases hl

/-- C174 violated. `"Gradient"` and any other unknown name is refused with TypeError, but only if the line has room
for two stations: for shorter lines the survey is empty. -/
theorem C174_violated_unknown (c : Conf) (type : Text) (hk : kindOf type = none) (hg : type ≠ "gradient".toList) :
    c.survey type = if 1 < ⌊c.L / c.a⌋.toNat then .error .typeError else .ok [] := by
  unfold Conf.survey
  rw [if_pos hg, hk]
  simp only
  split
  · rename_i h
    rw [mapM_error _ _ .typeError 0 (by rw [List.mem_range]; omega) (fun y _ => Or.inl rfl) rfl]
    rfl
  · rename_i h
    rw [show ⌊c.L / c.a⌋.toNat - 1 = 0 by omega]
    rfl

example : kindOf "Gradient".toList = none ∧ "Gradient".toList ≠ "gradient".toList := by decide

end Verif.DC.Profile
