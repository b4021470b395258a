import Verif.Basic
import Mathlib.Analysis.SpecialFunctions.Sqrt
import Mathlib.Data.Fintype.BigOperators
import Mathlib.Algebra.BigOperators.Fin
import Mathlib.Tactic.Linarith
import Mathlib.Tactic.FieldSimp
import Mathlib.Tactic.Ring
import Mathlib.Tactic.FinCases

/-!
C179: `pseudo_locations` (`simpeg/electromagnetics/static/utils/static_utils.py` 182-257) with the
separations "AB" of `electrode_separations` (81-179).

Simplified: the numbers are real; `none` stands for a result which is not a finite number.  A location has
`n` horizontal coordinates (one for 2D, two for 3D surveys) and an elevation.
-/

namespace Verif.DC.Pseudo

noncomputable section
open Classical

variable {n : ℕ}

/-! ### Model -/

/-- A location: horizontal coordinates and elevation (the last column). -/
@[ext] structure Pt (n : ℕ) where
  h : Fin n → ℝ
  z : ℝ

/-- `a + b`, row by row. -/
def Pt.add (a b : Pt n) : Pt n := ⟨fun k => a.h k + b.h k, a.z + b.z⟩

/-- `a - b`. -/
def Pt.sub (a b : Pt n) : Pt n := ⟨fun k => a.h k - b.h k, a.z - b.z⟩

/-- `a / 2`. -/
def Pt.half (a : Pt n) : Pt n := ⟨fun k => a.h k / 2, a.z / 2⟩

/-- `np.sqrt(np.sum(ds[:, :-1] ** 2, axis=1))` (237, 252). -/
def Pt.horizontal (a : Pt n) : ℝ := Real.sqrt (∑ k, a.h k ^ 2)

/-- `np.sqrt(np.sum(ds ** 2, axis=1))` (246), `np.linalg.norm` (146). -/
def Pt.norm (a : Pt n) : ℝ := Real.sqrt ((∑ k, a.h k ^ 2) + a.z ^ 2)

/-- The sources of a DC survey. -/
inductive Src (n : ℕ) where
  | pole (a : Pt n)
  | dipole (a b : Pt n)
  | multipole (l : List (Pt n))

/-- The receivers: `locations` is an array or a list of two arrays. -/
inductive Rx (n : ℕ) where
  | pole (m : List (Pt n))
  | dipole (mn : List (Pt n × Pt n))

/-- `np.mean(src_loc, axis=0)` (219-220). -/
def Src.midpoint : Src n → Pt n
  | .pole a => a
  | .dipole a b => (a.add b).half
  | .multipole l => ⟨fun k => (l.map fun p => p.h k).sum / l.length, (l.map Pt.z).sum / l.length⟩

/-- `rx_midpoints` (223-227). -/
def Rx.midpoints : Rx n → List (Pt n)
  | .pole m => m
  | .dipole mn => mn.map fun p => (p.1.add p.2).half

/-- The separation "AB" of one source in `electrode_separations` (118-146): infinite for a pole; a
multipole is not implemented. -/
def Src.ab : Src n → Except Err (Option ℝ)
  | .pole _ => .ok none
  | .dipole a b => .ok (some (a.sub b).norm)
  | .multipole _ => .error .exception

/-- A survey: the sources with their receivers. -/
abbrev Survey (n : ℕ) := List (Src n × List (Rx n))

/-- One row for each datum: midpoint of the source and of the receiver, with the source (218-232). -/
def rows (s : Survey n) : List (Src n × Pt n) :=
  s.flatMap fun p => p.2.flatMap fun rx => rx.midpoints.map fun m => (p.1, m)

/-- `midpoints` (230). -/
def middle (q : Src n × Pt n) : Pt n := (q.1.midpoint.add q.2).half

/-- `ds` (233). -/
def offset (q : Src n × Pt n) : Pt n := q.2.sub q.1.midpoint

/-- `is_wenner` (240). -/
def isWenner (tol : ℝ) (q : Src n × Pt n) : Bool := decide ((offset q).horizontal < tol)

/-- A row of the result. -/
@[ext] structure Loc (n : ℕ) where
  h : Fin n → Option ℝ
  z : Option ℝ

/-- `mid - (dz / 2) * (dh / L)` (247-250, 257), not a number if `L` is zero. -/
def shifted (mid dz dh L : ℝ) : Option ℝ := if L = 0 then none else some (mid - dz / 2 * (dh / L))

/-- The row `midpoints - pseudo_depth` (242-257), from the separation AB. -/
def row (tol : ℝ) (ab : Option ℝ) (q : Src n × Pt n) : Loc n :=
  if isWenner tol q then
    ⟨fun k => some ((middle q).h k), ab.map fun x => (middle q).z - |x| / 2⟩
  else
    ⟨fun k => shifted ((middle q).h k) (offset q).z ((offset q).h k) ((offset q).norm / 2),
      some ((middle q).z - (offset q).horizontal / 2)⟩

/-- `temp` (242): the separations of all data, computed only if a row is Wenner-like. -/
def separations (tol : ℝ) (s : Survey n) : Except Err (List (Option ℝ)) :=
  if (rows s).any (isWenner tol) then
    (s.mapM fun p : Src n × List (Rx n) => p.1.ab.map fun x =>
      (p.2.flatMap Rx.midpoints).map fun _ => x).map List.flatten
  else .ok ((rows s).map fun _ => none)

/-- `pseudo_locations` (182-257). `np.vstack` of nothing fails. -/
def pseudoLocations (tol : ℝ) (s : Survey n) : Except Err (List (Loc n)) :=
  if s.flatMap Prod.snd = [] then .error .valueError
  else (separations tol s).map fun ab => List.zipWith (row tol) ab (rows s)

/-! ### Specification -/

/-- The reading of a source and a receiver midpoint. -/
abbrev Reading (n : ℕ) := Src n × Pt n

/-- All sources are poles or dipoles. -/
def Simple (s : Survey n) : Prop := ∀ p ∈ s, ∀ l, p.1 ≠ .multipole l

/-- The location of a single reading, from a survey with only this reading. -/
def single (tol : ℝ) (q : Reading n) : Except Err (List (Loc n)) :=
  pseudoLocations tol [(q.1, [.pole [q.2]])]

/-- A map of the horizontal coordinates together with a shift of elevation. -/
structure Motion (n : ℕ) where
  f : (Fin n → ℝ) → Fin n → ℝ
  c : ℝ

/-- The motion of a location. -/
def Motion.pt (m : Motion n) (a : Pt n) : Pt n := ⟨m.f a.h, a.z + m.c⟩

/-- The motion of a source. -/
def Motion.src (m : Motion n) : Src n → Src n
  | .pole a => .pole (m.pt a)
  | .dipole a b => .dipole (m.pt a) (m.pt b)
  | .multipole l => .multipole (l.map m.pt)

namespace Props

/-! ### Tools -/

theorem sq_sum_nonneg (f : Fin n → ℝ) : 0 ≤ ∑ k, f k ^ 2 := Finset.sum_nonneg fun _ _ => sq_nonneg _

theorem horizontal_nonneg (a : Pt n) : 0 ≤ a.horizontal := Real.sqrt_nonneg _

theorem norm_nonneg (a : Pt n) : 0 ≤ a.norm := Real.sqrt_nonneg _

theorem norm_sq (a : Pt n) : a.norm ^ 2 = a.horizontal ^ 2 + a.z ^ 2 := by
  rw [Pt.norm, Pt.horizontal, Real.sq_sqrt (add_nonneg (sq_sum_nonneg _) (sq_nonneg _)),
    Real.sq_sqrt (sq_sum_nonneg _)]

theorem horizontal_sq (a : Pt n) : a.horizontal ^ 2 = ∑ k, a.h k ^ 2 := Real.sq_sqrt (sq_sum_nonneg _)

theorem norm_pos {a : Pt n} (h : 0 < a.horizontal) : 0 < a.norm := by
  have := norm_sq a
  by_contra hn
  have h0 : a.norm = 0 := le_antisymm (not_lt.1 hn) (norm_nonneg a)
  rw [h0] at this
  nlinarith [sq_nonneg a.z]

theorem wenner_true {tol : ℝ} {q : Reading n} (h : (q.2.sub q.1.midpoint).horizontal < tol) :
    isWenner tol q = true := decide_eq_true h

theorem wenner_false {tol : ℝ} {q : Reading n} (h : tol ≤ (q.2.sub q.1.midpoint).horizontal) :
    ¬ isWenner tol q = true := fun c => absurd (of_decide_eq_true c) (not_lt.2 h)

/-- The separation of a source which is not a multipole. -/
def sep : Src n → Option ℝ
  | .pole _ => none
  | .dipole a b => some (a.sub b).norm
  | .multipole _ => none

theorem ab_simple {s : Src n} (h : ∀ l, s ≠ .multipole l) : s.ab = .ok (sep s) := by
  cases s with
  | pole a => rfl
  | dipole a b => rfl
  | multipole l => exact absurd rfl (h l)

theorem row_any {tol : ℝ} {q : Reading n} (h : isWenner tol q = false) (x y : Option ℝ) :
    row tol x q = row tol y q := by
  simp [row, h]

theorem mapM_ab {s : Survey n} (h : Simple s) :
    (s.mapM fun p : Src n × List (Rx n) => p.1.ab.map fun x => (p.2.flatMap Rx.midpoints).map fun _ => x)
      = .ok (s.map fun p => (p.2.flatMap Rx.midpoints).map fun _ => sep p.1) := by
  induction s with
  | nil => rfl
  | cons p s ih =>
    rw [List.mapM_cons, ab_simple (h p (by simp)), ih fun q hq => h q (by simp [hq])]
    rfl

theorem flatten_sep (s : Survey n) :
    (s.map fun p => (p.2.flatMap Rx.midpoints).map fun _ => sep p.1).flatten
      = (rows s).map fun q => sep q.1 := by
  induction s with
  | nil => rfl
  | cons p s ih =>
    rw [List.map_cons, List.flatten_cons, ih]
    simp only [rows, List.flatMap_cons, List.map_append, List.map_flatMap, List.map_map]
    rfl

theorem zipWith_map_self {α β γ : Type} (f : β → α → γ) (g : α → β) (l : List α) :
    List.zipWith f (l.map g) l = l.map fun a => f (g a) a := by
  induction l with
  | nil => rfl
  | cons a l ih => simp [ih]

/-- The result of a survey of poles and dipoles. -/
theorem result (tol : ℝ) {s : Survey n} (h : Simple s) (hr : s.flatMap Prod.snd ≠ []) :
    pseudoLocations tol s = .ok ((rows s).map fun q => row tol (sep q.1) q) := by
  rw [pseudoLocations, if_neg hr]
  by_cases hw : (rows s).any (isWenner tol)
  · rw [separations, if_pos hw, mapM_ab h]
    simp only [Except.map]
    rw [flatten_sep, zipWith_map_self]
  · rw [separations, if_neg hw]
    simp only [Except.map]
    rw [zipWith_map_self]
    congr 1
    refine List.map_congr_left fun q hq => row_any ?_ _ _
    by_contra hc
    exact hw (List.any_eq_true.2 ⟨q, hq, by simpa using hc⟩)

theorem single_eq (tol : ℝ) {q : Reading n} (h : ∀ l, q.1 ≠ .multipole l) :
    single tol q = .ok [row tol (sep q.1) q] := by
  rw [single, result tol (fun p hp l => by simp at hp; subst hp; exact h l) (by simp)]
  simp [rows, Rx.midpoints]

/-! ### C179 -/

/-- **C179, readings**: there is one location per reading, in the order of the survey, and it is that of a
survey with only this reading. -/
theorem C179_readings (tol : ℝ) {s : Survey n} (h : Simple s) (hr : s.flatMap Prod.snd ≠ []) :
    ∃ l, pseudoLocations tol s = .ok l ∧
      List.Forall₂ (fun q x => single tol q = .ok [x]) (rows s) l := by
  refine ⟨_, result tol h hr, ?_⟩
  rw [List.forall₂_map_right_iff, List.forall₂_same]
  intro q hq
  refine single_eq tol ?_
  simp only [rows, List.mem_flatMap, List.mem_map] at hq
  obtain ⟨p, hp, rx, -, m, -, rfl⟩ := hq
  exact h p hp

/-- **C179, midpoints**: the data are in the order of sources, receivers and electrodes, each with the mean of the
locations of the source and that of the receiver. -/
theorem C179_midpoints (s : Survey n) :
    rows s = (s.flatMap fun p => p.2.flatMap fun rx => match rx with
      | .pole m => m.map fun q => (p.1, q)
      | .dipole mn => mn.map fun q => (p.1, (⟨fun k => (q.1.h k + q.2.h k) / 2, (q.1.z + q.2.z) / 2⟩ : Pt n))) ∧
    (∀ a b : Pt n, (Src.dipole a b).midpoint = ⟨fun k => (a.h k + b.h k) / 2, (a.z + b.z) / 2⟩) ∧
    ∀ (l : List (Pt n)) (k : Fin n), l ≠ [] →
      (l.map fun p => p.h k - (Src.multipole l).midpoint.h k).sum = 0 ∧
      (l.map fun p => p.z - (Src.multipole l).midpoint.z).sum = 0 := by
  refine ⟨?_, fun _ _ => rfl, ?_⟩
  · unfold rows
    congr 1
    funext p
    congr 1
    funext rx
    cases rx with
    | pole m => rfl
    | dipole mn => simp only [Rx.midpoints, List.map_map]; rfl
  · intro l k hl
    have hlen : (l.length : ℝ) ≠ 0 := by exact_mod_cast (List.length_pos_iff.mpr hl).ne'
    have key : ∀ (f : Pt n → ℝ) (c : ℝ), (l.map fun p => f p - c).sum = (l.map f).sum - l.length * c := by
      intro f c
      clear hl hlen
      induction l with
      | nil => simp
      | cons p l ih => simp only [List.map_cons, List.sum_cons, List.length_cons, ih]; push_cast; ring
    constructor
    · rw [key]; simp only [Src.midpoint]; field_simp; simp
    · rw [key (fun p => p.z)]; simp only [Src.midpoint]; field_simp; simp

/-- **C179, flat ground**: with all midpoints at one elevation, the location is midway between source and
receiver, at a depth of half of their distance. -/
theorem C179_flat {tol : ℝ} (ht : 0 < tol) {q : Reading n} (hs : ∀ l, q.1 ≠ .multipole l)
    (hz : q.2.z = q.1.midpoint.z) (hw : tol ≤ (q.2.sub q.1.midpoint).horizontal) :
    single tol q = .ok [⟨fun k => some ((q.1.midpoint.h k + q.2.h k) / 2),
      some (q.2.z - (q.2.sub q.1.midpoint).horizontal / 2)⟩] := by
  rw [single_eq tol hs, row, if_neg (wenner_false hw)]
  have hp : 0 < (offset q).norm := norm_pos (lt_of_lt_of_le ht hw)
  have h0 : (offset q).z = 0 := by simp [offset, Pt.sub, hz]
  simp only [shifted, if_neg (show ¬ (offset q).norm / 2 = 0 by positivity), h0]
  congr 2
  ext k x
  · simp [middle, Pt.half, Pt.add]
  · simp [middle, Pt.half, Pt.add, offset, ← hz]

/-- **C179, Wenner**: if the midpoints of a dipole source and of the receiver are within the tolerance, the
location is below the midpoint at a depth of half the separation of the current electrodes. -/
theorem C179_wenner {tol : ℝ} (a b m : Pt n)
    (hw : (m.sub (a.add b).half).horizontal < tol) :
    single tol (.dipole a b, m)
      = .ok [⟨fun k => some (((a.h k + b.h k) / 2 + m.h k) / 2),
        some (((a.z + b.z) / 2 + m.z) / 2 - (a.sub b).norm / 2)⟩] := by
  rw [single_eq tol (by simp), row, if_pos (wenner_true (q := (Src.dipole a b, m)) hw)]
  simp only [sep, Option.map_some, abs_of_nonneg (norm_nonneg (a.sub b))]
  rfl

/-- **C179, depth**: every location of a reading with separated midpoints is finite, and below the mean
elevation by half of the horizontal distance. -/
theorem C179_depth {tol : ℝ} (ht : 0 < tol) {q : Reading n} (hs : ∀ l, q.1 ≠ .multipole l)
    (hw : tol ≤ (q.2.sub q.1.midpoint).horizontal) :
    ∃ x, single tol q = .ok [x] ∧
      x.z = some ((q.1.midpoint.z + q.2.z) / 2 - (q.2.sub q.1.midpoint).horizontal / 2) ∧
      ∀ k, x.h k = some ((q.1.midpoint.h k + q.2.h k) / 2
        - (q.2.z - q.1.midpoint.z) * (q.2.h k - q.1.midpoint.h k) / (q.2.sub q.1.midpoint).norm) := by
  refine ⟨_, single_eq tol hs, ?_⟩
  have hp : 0 < (offset q).norm := norm_pos (lt_of_lt_of_le ht hw)
  rw [row, if_neg (wenner_false hw)]
  refine ⟨rfl, fun k => ?_⟩
  simp only [shifted, if_neg (show ¬ (offset q).norm / 2 = 0 by positivity)]
  congr 1
  show ((q.1.midpoint.h k + q.2.h k) / 2) - (offset q).z / 2 * ((offset q).h k / ((offset q).norm / 2)) = _
  have : offset q = q.2.sub q.1.midpoint := rfl
  rw [this] at *
  simp only [Pt.sub] at *
  field_simp

/-- **C179, reciprocity**: exchanging source and receiver dipole gives the same location, unless the array is
Wenner-like. -/
theorem C179_reciprocity_partial {tol : ℝ} (a b m k : Pt n)
    (hw : tol ≤ ((m.add k).half.sub (a.add b).half).horizontal) :
    single tol (.dipole a b, (m.add k).half) = single tol (.dipole m k, (a.add b).half) := by
  rw [single_eq tol (by simp), single_eq tol (by simp)]
  have e : ∀ p r : Pt n, (p.sub r).horizontal = (r.sub p).horizontal := by
    intro p r
    simp only [Pt.horizontal, Pt.sub]
    congr 1
    exact Finset.sum_congr rfl fun k _ => by ring
  have en : ∀ p r : Pt n, (p.sub r).norm = (r.sub p).norm := by
    intro p r
    simp only [Pt.norm, Pt.sub]
    congr 1
    rw [Finset.sum_congr rfl fun k _ => (by ring : (p.h k - r.h k) ^ 2 = (r.h k - p.h k) ^ 2)]
    ring
  have hw' : tol ≤ ((a.add b).half.sub (m.add k).half).horizontal := by rw [e]; exact hw
  rw [row, if_neg (wenner_false (q := (Src.dipole a b, (m.add k).half)) hw), row,
    if_neg (wenner_false (q := (Src.dipole m k, (a.add b).half)) hw')]
  simp only [offset, Src.midpoint, middle]
  have h1 := en (m.add k).half (a.add b).half
  have h2 := e (m.add k).half (a.add b).half
  congr 2
  congr 1
  · funext j
    rw [h1]
    generalize ((a.add b).half.sub (m.add k).half).norm = N
    unfold shifted
    by_cases hN : N / 2 = 0
    · rw [if_pos hN, if_pos hN]
    · rw [if_neg hN, if_neg hN]
      simp only [Pt.add, Pt.half, Pt.sub, Option.some.injEq]
      ring
  · rw [h2]
    generalize ((a.add b).half.sub (m.add k).half).horizontal = N
    simp only [Pt.add, Pt.half, Option.some.injEq]
    ring

/-- **C179, shift**: moving all electrodes by the same vector moves the location by this vector. -/
theorem C179_translation {tol : ℝ} {q : Reading n} (hs : ∀ l, q.1 ≠ .multipole l) (v : Fin n → ℝ) (c : ℝ) :
    ∃ x, single tol q = .ok [x] ∧
      single tol ((⟨fun p k => p k + v k, c⟩ : Motion n).src q.1, (⟨fun p k => p k + v k, c⟩ : Motion n).pt q.2)
        = .ok [⟨fun k => (x.h k).map (· + v k), x.z.map (· + c)⟩] := by
  obtain ⟨s, p⟩ := q
  refine ⟨_, single_eq tol hs, ?_⟩
  have hs' : ∀ l, (⟨fun p k => p k + v k, c⟩ : Motion n).src s ≠ .multipole l := by
    cases s with
    | pole a => simp [Motion.src]
    | dipole a b => simp [Motion.src]
    | multipole l => exact absurd rfl (hs l)
  rw [single_eq tol hs']
  have hm : ((⟨fun p k => p k + v k, c⟩ : Motion n).src s).midpoint
      = (⟨fun p k => p k + v k, c⟩ : Motion n).pt s.midpoint := by
    cases s with
    | pole a => rfl
    | dipole a b =>
      ext k
      · simp only [Motion.src, Src.midpoint, Motion.pt, Pt.half, Pt.add]; ring
      · simp only [Motion.src, Src.midpoint, Motion.pt, Pt.half, Pt.add]; ring
    | multipole l => exact absurd rfl (hs l)
  have ho : offset ((⟨fun p k => p k + v k, c⟩ : Motion n).src s, (⟨fun p k => p k + v k, c⟩ : Motion n).pt p)
      = offset (s, p) := by
    simp only [offset]
    rw [hm]
    ext k
    · simp only [Motion.pt, Pt.sub]; ring
    · simp only [Motion.pt, Pt.sub]; ring
  have hi : middle ((⟨fun p k => p k + v k, c⟩ : Motion n).src s, (⟨fun p k => p k + v k, c⟩ : Motion n).pt p)
      = (⟨fun p k => p k + v k, c⟩ : Motion n).pt (middle (s, p)) := by
    simp only [middle]
    rw [hm]
    ext k
    · simp only [Motion.pt, Pt.half, Pt.add]; ring
    · simp only [Motion.pt, Pt.half, Pt.add]; ring
  have hsep : sep ((⟨fun p k => p k + v k, c⟩ : Motion n).src s) = sep s := by
    cases s with
    | pole a => rfl
    | dipole a b =>
      simp only [Motion.src, sep, Option.some.injEq]
      congr 1
      ext k
      · simp only [Motion.pt, Pt.sub]; ring
      · simp only [Motion.pt, Pt.sub]; ring
    | multipole l => rfl
  by_cases hw : isWenner tol (s, p) = true
  · have hw' : isWenner tol ((⟨fun p k => p k + v k, c⟩ : Motion n).src s,
        (⟨fun p k => p k + v k, c⟩ : Motion n).pt p) = true := by
      unfold isWenner; rw [ho]; exact hw
    rw [row, if_pos hw', row, if_pos hw, hsep, hi]
    congr 2
    congr 1
    cases sep s with
    | none => rfl
    | some y =>
      simp only [Motion.pt, Option.map_some, Option.some.injEq]
      ring
  · have hw' : ¬ isWenner tol ((⟨fun p k => p k + v k, c⟩ : Motion n).src s,
        (⟨fun p k => p k + v k, c⟩ : Motion n).pt p) = true := by
      unfold isWenner; rw [ho]; exact hw
    rw [row, if_neg hw', row, if_neg hw, hi, ho]
    simp only [Motion.pt]
    congr 2
    congr 1
    · funext k
      unfold shifted
      split_ifs
      · rfl
      · simp only [Option.map_some, Option.some.injEq]; ring
    · simp only [Option.map_some, Option.some.injEq]; ring

/-- **C179, errors**: a survey without receivers is refused; a survey with a multipole source is refused
exactly if a reading is Wenner-like. -/
theorem C179_refused (tol : ℝ) (s : Survey n) :
    (s.flatMap Prod.snd = [] → pseudoLocations tol s = .error .valueError) ∧
    (s.flatMap Prod.snd ≠ [] → ¬ Simple s →
      (pseudoLocations tol s = .error .exception ↔ ∃ q ∈ rows s, (q.2.sub q.1.midpoint).horizontal < tol)) := by
  refine ⟨fun h => if_pos h, fun h hs => ?_⟩
  rw [pseudoLocations, if_neg h]
  have hany : (∃ q ∈ rows s, (q.2.sub q.1.midpoint).horizontal < tol) ↔ (rows s).any (isWenner tol) = true := by
    rw [List.any_eq_true]
    exact exists_congr fun q => and_congr_right fun _ => ⟨wenner_true, fun c => of_decide_eq_true c⟩
  rw [hany]
  have herr : (s.mapM fun p : Src n × List (Rx n) => p.1.ab.map fun x => (p.2.flatMap Rx.midpoints).map fun _ => x)
      = .error .exception := by
    clear h hany
    induction s with
    | nil => exact absurd (fun p hp => by simp at hp) hs
    | cons p s ih =>
      rw [List.mapM_cons]
      by_cases hp : ∃ l, p.1 = .multipole l
      · obtain ⟨l, hl⟩ := hp
        rw [hl]; rfl
      · push Not at hp
        rw [ab_simple hp, ih]
        · rfl
        · intro hc
          apply hs
          intro q hq
          rcases List.mem_cons.1 hq with rfl | hq
          · exact hp
          · exact hc q hq
  by_cases hw : (rows s).any (isWenner tol)
  · rw [separations, if_pos hw, herr]; simp [Except.map, hw]
  · rw [separations, if_neg hw]; simp [Except.map, hw]

/-- **C179, violated**: for a pole source with the receivers centred on it the depth is infinite. -/
theorem C179_violated_pole {tol : ℝ} (a m : Pt n) (hw : (m.sub a).horizontal < tol) :
    ∃ x, single tol (.pole a, m) = .ok [x] ∧ x.z = none := by
  refine ⟨_, single_eq tol (by simp), ?_⟩
  rw [row, if_pos (wenner_true (q := (Src.pole a, m)) hw)]
  rfl

/-- **C179, violated**: with the tolerance zero, a reading with the two midpoints at the same place has no
location. -/
theorem C179_violated_zero {q : Reading n} (hs : ∀ l, q.1 ≠ .multipole l) (he : q.2 = q.1.midpoint) (k : Fin n) :
    ∃ x, single 0 q = .ok [x] ∧ x.h k = none := by
  refine ⟨_, single_eq 0 hs, ?_⟩
  have h0 : (offset q).norm = 0 := by
    rw [offset, he]; simp [Pt.norm, Pt.sub]
  rw [row, if_neg (wenner_false (horizontal_nonneg _))]
  simp [h0, shifted]

/-- **C179, violated**: for Wenner-like arrays the location of the exchanged dipoles is another one, if the two
dipoles differ in length. -/
theorem C179_violated_reciprocity {tol : ℝ} (a b m k : Pt n) (hl : (a.sub b).norm ≠ (m.sub k).norm)
    (hw : ((m.add k).half.sub (a.add b).half).horizontal < tol) :
    single tol (.dipole a b, (m.add k).half) ≠ single tol (.dipole m k, (a.add b).half) := by
  have e : ((a.add b).half.sub (m.add k).half).horizontal < tol := by
    refine lt_of_eq_of_lt ?_ hw
    simp only [Pt.horizontal, Pt.sub]
    congr 1
    exact Finset.sum_congr rfl fun k _ => by ring
  rw [C179_wenner a b _ hw, C179_wenner m k _ e]
  intro hc
  simp only [Except.ok.injEq, List.cons.injEq, Loc.mk.injEq, Option.some.injEq, Pt.half, Pt.add] at hc
  exact hl (by linarith [hc.1.2])

/-- **C179, violated**: on a slope the location is moved downhill along the line of the array, instead of
uphill (below the slope the normal through the middle goes uphill). -/
theorem C179_violated_slope {tol : ℝ} (ht : 0 < tol) {q : Reading n} (hs : ∀ l, q.1 ≠ .multipole l)
    (hw : tol ≤ (q.2.sub q.1.midpoint).horizontal) (hz : q.1.midpoint.z ≠ q.2.z) :
    ∃ p : Pt n, single tol q = .ok [⟨fun k => some (p.h k), some p.z⟩] ∧
      (∑ k, (p.h k - (q.1.midpoint.h k + q.2.h k) / 2) * (q.2.h k - q.1.midpoint.h k))
        * (q.2.z - q.1.midpoint.z) < 0 := by
  obtain ⟨x, hx, hxz, hxh⟩ := C179_depth ht hs hw
  have hr : 0 < (q.2.sub q.1.midpoint).horizontal := lt_of_lt_of_le ht hw
  have hp := norm_pos hr
  refine ⟨⟨fun k => (q.1.midpoint.h k + q.2.h k) / 2
        - (q.2.z - q.1.midpoint.z) * (q.2.h k - q.1.midpoint.h k) / (q.2.sub q.1.midpoint).norm,
      (q.1.midpoint.z + q.2.z) / 2 - (q.2.sub q.1.midpoint).horizontal / 2⟩, ?_, ?_⟩
  · rw [hx]
    congr 2
    ext k y
    · rw [hxh k]
    · rw [hxz]
  · have hsum : ∑ k, (((q.1.midpoint.h k + q.2.h k) / 2
        - (q.2.z - q.1.midpoint.z) * (q.2.h k - q.1.midpoint.h k) / (q.2.sub q.1.midpoint).norm
        - (q.1.midpoint.h k + q.2.h k) / 2) * (q.2.h k - q.1.midpoint.h k))
        = -(q.2.z - q.1.midpoint.z) / (q.2.sub q.1.midpoint).norm * (q.2.sub q.1.midpoint).horizontal ^ 2 := by
      rw [horizontal_sq, Finset.mul_sum]
      refine Finset.sum_congr rfl fun k _ => ?_
      simp only [Pt.sub]
      ring
    rw [hsum]
    have hd : 0 < (q.2.z - q.1.midpoint.z) ^ 2 := by
      have : q.2.z - q.1.midpoint.z ≠ 0 := sub_ne_zero.2 (Ne.symm hz)
      positivity
    have : -(q.2.z - q.1.midpoint.z) / (q.2.sub q.1.midpoint).norm * (q.2.sub q.1.midpoint).horizontal ^ 2
        * (q.2.z - q.1.midpoint.z) = -((q.2.z - q.1.midpoint.z) ^ 2
          * (q.2.sub q.1.midpoint).horizontal ^ 2 / (q.2.sub q.1.midpoint).norm) := by ring
    rw [this, neg_lt_zero]
    positivity

/-- The elevation, above the horizontal position `p`, of the straight line between source and receiver
midpoint. -/
def lineElevation (a b : Pt n) (p : Fin n → ℝ) : ℝ :=
  (a.z + b.z) / 2 + (b.z - a.z)
    * (∑ k, (p k - (a.h k + b.h k) / 2) * (b.h k - a.h k)) / (∑ k, (b.h k - a.h k) ^ 2)

/-- **C179, slopes**: the location is below the line from source to receiver midpoint exactly if twice the
square of the difference in elevation is less than the horizontal times the full distance; on steeper slopes
(more than 38 degrees) it is above the ground. -/
theorem C179_violated_above {tol : ℝ} (ht : 0 < tol) {q : Reading n} (hs : ∀ l, q.1 ≠ .multipole l)
    (hw : tol ≤ (q.2.sub q.1.midpoint).horizontal) :
    ∃ p : Pt n, single tol q = .ok [⟨fun k => some (p.h k), some p.z⟩] ∧
      (lineElevation q.1.midpoint q.2 p.h < p.z ↔
        (q.2.sub q.1.midpoint).horizontal * (q.2.sub q.1.midpoint).norm
          < 2 * (q.2.z - q.1.midpoint.z) ^ 2) := by
  obtain ⟨x, hx, hxz, hxh⟩ := C179_depth ht hs hw
  have hr : 0 < (q.2.sub q.1.midpoint).horizontal := lt_of_lt_of_le ht hw
  have hp := norm_pos hr
  refine ⟨⟨fun k => (q.1.midpoint.h k + q.2.h k) / 2
        - (q.2.z - q.1.midpoint.z) * (q.2.h k - q.1.midpoint.h k) / (q.2.sub q.1.midpoint).norm,
      (q.1.midpoint.z + q.2.z) / 2 - (q.2.sub q.1.midpoint).horizontal / 2⟩, ?_, ?_⟩
  · rw [hx]
    congr 2
    ext k y
    · rw [hxh k]
    · rw [hxz]
  · have hsq : ∑ k, (q.2.h k - q.1.midpoint.h k) ^ 2 = (q.2.sub q.1.midpoint).horizontal ^ 2 := by
      rw [horizontal_sq]; rfl
    have hsum : ∑ k, (((q.1.midpoint.h k + q.2.h k) / 2
        - (q.2.z - q.1.midpoint.z) * (q.2.h k - q.1.midpoint.h k) / (q.2.sub q.1.midpoint).norm
        - (q.1.midpoint.h k + q.2.h k) / 2) * (q.2.h k - q.1.midpoint.h k))
        = -(q.2.z - q.1.midpoint.z) / (q.2.sub q.1.midpoint).norm * (q.2.sub q.1.midpoint).horizontal ^ 2 := by
      rw [horizontal_sq, Finset.mul_sum]
      refine Finset.sum_congr rfl fun k _ => ?_
      simp only [Pt.sub]
      ring
    rw [lineElevation]
    simp only
    rw [hsum, hsq]
    set r := (q.2.sub q.1.midpoint).horizontal
    set N := (q.2.sub q.1.midpoint).norm
    set d := q.2.z - q.1.midpoint.z
    have e : d * (-d / N * r ^ 2) / r ^ 2 = -(d ^ 2 / N) := by field_simp
    rw [e]
    constructor
    · intro h
      have h1 : r / 2 < d ^ 2 / N := by linarith
      rw [lt_div_iff₀ hp] at h1
      linarith
    · intro h
      have h1 : r / 2 < d ^ 2 / N := by rw [lt_div_iff₀ hp]; linarith
      linarith

/-- A dipole-dipole reading in two dimensions on flat ground. -/
example : single (n := 1) 0.1 (.dipole ⟨fun _ => 0, 0⟩ ⟨fun _ => 2, 0⟩, ⟨fun _ => 9, 0⟩)
    = .ok [⟨fun _ => some 5, some (-4)⟩] := by
  have hh : ((⟨fun _ => 9, 0⟩ : Pt 1).sub (Src.dipole (n := 1) ⟨fun _ => 0, 0⟩ ⟨fun _ => 2, 0⟩).midpoint).horizontal
      = 8 := by
    simp only [Pt.horizontal, Pt.sub, Src.midpoint, Pt.half, Pt.add, Finset.univ_unique, Finset.sum_const,
      Finset.card_singleton, one_smul]
    rw [Real.sqrt_eq_iff_mul_self_eq (by norm_num) (by norm_num)]; norm_num
  rw [C179_flat (by norm_num) (by simp) (by simp [Src.midpoint, Pt.half, Pt.add]) (by rw [hh]; norm_num), hh]
  simp only [Src.midpoint, Pt.half, Pt.add]
  norm_num

/-- A slope of 45 degrees satisfies the condition of `C179_violated_above`. -/
example : (⟨fun _ => 1, 1⟩ : Pt 1).horizontal * (⟨fun _ => 1, 1⟩ : Pt 1).norm < 2 * (1 : ℝ) ^ 2 := by
  have h1 : (⟨fun _ => 1, 1⟩ : Pt 1).horizontal = 1 := by simp [Pt.horizontal]
  rw [h1, Pt.norm, one_mul, Real.sqrt_lt' (by norm_num)]
  norm_num

end Props
end
end Verif.DC.Pseudo
