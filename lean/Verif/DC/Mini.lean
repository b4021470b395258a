import Verif.Basic
import Mathlib.Data.List.Sort
import Mathlib.Data.List.Dedup
import Mathlib.Data.Real.Basic
import Mathlib.Algebra.BigOperators.Group.List.Basic
import Mathlib.Tactic.Linarith
import Mathlib.Tactic.Ring
import Mathlib.Tactic.NormNum

/-!
The miniaturised survey of the static resistivity simulations
(`simpeg/electromagnetics/static/resistivity/utils.py` 75-128 and `simulation.py` 296-318): the data
of a survey are computed from the smallest set of pole-pole potentials.

`E` is the type of electrode locations (rows of coordinates), with any decidable order on them.  The
potential of the mesh solution enters as an arbitrary function `resp a m`: the potential measured at
`m` for a unit current injected at `a`.
-/

namespace Verif.DC.Mini

variable {E : Type} [DecidableEq E]

/-! ### `numpy` helpers -/

/-- Position of the first occurrence of `x` in `u`. -/
def posIn {α : Type} [DecidableEq α] (u : List α) (x : α) : Nat := u.idxOf x

/-- `np.unique(x, axis=0, return_inverse=True)`: the distinct rows in order, and for every row its
position among them. -/
def unique {α : Type} [DecidableEq α] (le : α → α → Bool) (l : List α) : List α × List Nat :=
  let u := l.dedup.insertionSort fun a b => le a b = true
  (u, l.map fun x => posIn u x)

/-- `x[mask]`. -/
def compress {α : Type} : List Bool → List α → List α
  | true :: ms, x :: xs => x :: compress ms xs
  | false :: ms, _ :: xs => compress ms xs
  | _, _ => []

/-- `out[mask] += f * vals` (`f` is `1` or `-1`): the values are consumed in order. -/
def maskedAdd (f : ℝ) : List Bool → List ℝ → List ℝ → List ℝ
  | true :: ms, x :: xs, v :: vs => (x + f * v) :: maskedAdd f ms xs vs
  | false :: ms, x :: xs, vs => x :: maskedAdd f ms xs vs
  | _, xs, _ => xs

/-- `np.add.at(out, inds, f * vals)` (`f = -1` for `np.subtract.at`). -/
def addAt (f : ℝ) : List ℝ → List Nat → List ℝ → List ℝ
  | out, i :: is, v :: vs => addAt f (out.modify i (· + f * v)) is vs
  | out, _, _ => out

/-! ### `_mini_pole_pole` -/

/-- One row of `np.sort(np.c_[x, y])` (96-99): the smaller electrode index first (reciprocity). -/
def sortPair (x y : Nat) : Nat × Nat := if x ≤ y then (x, y) else (y, x)

/-- Order of the pairs in `np.unique` (100-102). -/
def lePair (x y : Nat × Nat) : Bool := x.1 < y.1 || (x.1 == y.1 && x.2 ≤ y.2)

/-- The inner loop (116-120): take the pairs with source `a`, return their receivers and the rest. -/
def takeRun (a : Nat) : List (Nat × Nat) → List Nat × List (Nat × Nat)
  | [] => ([], [])
  | (x, y) :: rest =>
    if a = x then
      let r := takeRun a rest
      (y :: r.1, r.2)
    else ([], (x, y) :: rest)

theorem takeRun_length (a : Nat) (l : List (Nat × Nat)) : (takeRun a l).2.length ≤ l.length := by
  induction l with
  | nil => simp [takeRun]
  | cons p rest ih =>
    obtain ⟨x, y⟩ := p
    by_cases h : a = x
    · simp only [takeRun, h, if_true, List.length_cons]
      subst h; omega
    · simp [takeRun, h]

/-- The outer loop (110-123): pole sources with their pole receivers. -/
def groups : List (Nat × Nat) → List (Nat × List Nat)
  | [] => []
  | (x, y) :: rest =>
    let r := takeRun x rest
    (x, y :: r.1) :: groups r.2
termination_by l => l.length
decreasing_by
  have := takeRun_length x rest
  simp only [List.length_cons]
  omega

/-- What `_mini_pole_pole` returns: masks of the data with a dipole receiver and a dipole source,
positions of the AM, AN, BM and BN pairs, and the pole-pole survey. -/
structure MiniSurvey (E : Type) where
  dipoleRx : List Bool
  dipoleTx : List Bool
  invAM : List Nat
  invAN : List Nat
  invBM : List Nat
  invBN : List Nat
  sources : List (E × List E)

/-- Per datum electrode locations `survey.locations_a`, …, `locations_n` (`survey.py` 196-237). -/
structure Abmn (E : Type) where
  A : List E
  B : List E
  M : List E
  N : List E

/-- `_mini_pole_pole` (75-128); `dflt` is never used (indices are in range). -/
def miniPolePole (le : E → E → Bool) (dflt : E) (s : Abmn E) : MiniSurvey E :=
  let n := s.A.length
  let (elecs, inverse) := unique le (s.A ++ s.B ++ s.M ++ s.N)
  let invA := inverse.take n
  let invB := (inverse.drop n).take n
  let invM := (inverse.drop (2 * n)).take n
  let invN := (inverse.drop (3 * n)).take n
  let tx := List.zipWith (fun a b => decide (a ≠ b)) invA invB
  let rx := List.zipWith (fun a b => decide (a ≠ b)) invM invN
  let both := List.zipWith (fun a b => a && b) tx rx
  let AM := List.zipWith sortPair invA invM
  let AN := List.zipWith sortPair (compress rx invA) (compress rx invN)
  let BM := List.zipWith sortPair (compress tx invB) (compress tx invM)
  let BN := List.zipWith sortPair (compress both invB) (compress both invN)
  let (pairs, inv) := unique lePair (AM ++ AN ++ BM ++ BN)
  let invAM := inv.take AM.length
  let inv := inv.drop AM.length
  let invAN := inv.take AN.length
  let inv := inv.drop AN.length
  { dipoleRx := rx, dipoleTx := tx, invAM := invAM, invAN := invAN,
    invBM := inv.take BM.length, invBN := inv.drop BM.length,
    sources := (groups pairs).map fun g => (elecs.getD g.1 dflt, g.2.map fun i => elecs.getD i dflt) }

/-- Data of the pole-pole survey: pole sources have unit current, receivers measure the potential. -/
def MiniSurvey.data (ms : MiniSurvey E) (resp : E → E → ℝ) : List ℝ :=
  ms.sources.flatMap fun s => s.2.map fun m => resp s.1 m

/-- `_mini_survey_data` (296-304). -/
def MiniSurvey.expand (ms : MiniSurvey E) (d : List ℝ) : List ℝ :=
  let at' := fun (inv : List Nat) => inv.map fun i => d.getD i 0
  let out := at' ms.invAM
  let out := maskedAdd (-1) ms.dipoleRx out (at' ms.invAN)
  let out := maskedAdd (-1) ms.dipoleTx out (at' ms.invBM)
  maskedAdd 1 (List.zipWith (fun a b => a && b) ms.dipoleRx ms.dipoleTx) out (at' ms.invBN)

/-- `_mini_survey_dataT` (306-318); `nD` is `_mini_survey.nD`. -/
def MiniSurvey.expandT (ms : MiniSurvey E) (nD : Nat) (v : List ℝ) : List ℝ :=
  let out := List.replicate nD 0
  let out := addAt 1 out ms.invAM v
  let out := addAt (-1) out ms.invAN (compress ms.dipoleRx v)
  let out := addAt (-1) out ms.invBM (compress ms.dipoleTx v)
  addAt 1 out ms.invBN (compress (List.zipWith (fun a b => a && b) ms.dipoleRx ms.dipoleTx) v)

/-! ### The survey itself -/

/-- One datum of a survey: source electrodes with current, receiver electrodes, and the geometric
factor when the data type is apparent resistivity. -/
structure Datum (E : Type) where
  a : E
  b : Option E
  current : ℝ
  m : E
  n : Option E
  geom : Option ℝ

/-- `_set_abmn_locations` (`survey.py` 196-237) for pole and dipole sources and receivers: missing
electrodes repeat the other one. -/
def abmn (l : List (Datum E)) : Abmn E :=
  { A := l.map (·.a), B := l.map fun d => d.b.getD d.a, M := l.map (·.m),
    N := l.map fun d => d.n.getD d.m }

end Verif.DC.Mini

namespace Verif.DC.Mini.Props
open Verif.DC.Mini

variable {E : Type} [DecidableEq E]

/-! ### Specification -/

/-- The value of a datum by superposition: the potential difference between the receiver electrodes,
for the current going in at `a` and out at `b`, divided by the geometric factor if there is one. -/
noncomputable def Datum.value (resp : E → E → ℝ) (d : Datum E) : ℝ :=
  let pot := fun e => d.current * (resp d.a e - (match d.b with | none => 0 | some b => resp b e))
  let volt := pot d.m - (match d.n with | none => 0 | some n => pot n)
  match d.geom with
  | none => volt
  | some g => volt / g

def dotList (a b : List ℝ) : ℝ := (List.zipWith (· * ·) a b).sum

/-! ### Auxiliary facts -/

theorem posIn_lt {α : Type} [DecidableEq α] {u : List α} {x : α} (h : x ∈ u) :
    posIn u x < u.length := List.idxOf_lt_length_of_mem h

theorem posIn_get {α : Type} [DecidableEq α] {u : List α} {x : α} (h : posIn u x < u.length) :
    u[posIn u x] = x := List.getElem_idxOf h

theorem unique_get {α : Type} [DecidableEq α] (le : α → α → Bool) (l : List α) (x : α) (hx : x ∈ l)
    (dflt : α) : (unique le l).1.getD (posIn (unique le l).1 x) dflt = x := by
  have hmem : x ∈ (unique le l).1 := by
    simp only [unique]
    rw [List.mem_insertionSort]
    exact List.mem_dedup.2 hx
  have hlt := List.idxOf_lt_length_of_mem hmem
  unfold posIn
  rw [List.getD_eq_getElem?_getD, List.getElem?_eq_getElem hlt]
  simp

theorem unique_inj {α : Type} [DecidableEq α] (le : α → α → Bool) (l : List α) (x y : α)
    (hx : x ∈ l) (hy : y ∈ l) (h : posIn (unique le l).1 x = posIn (unique le l).1 y) : x = y := by
  have := unique_get le l x hx x
  rw [h, unique_get le l y hy x] at this
  exact this.symm

theorem takeRun_flat (a : Nat) (l : List (Nat × Nat)) :
    (takeRun a l).1.map (fun y => (a, y)) ++ (takeRun a l).2 = l := by
  induction l with
  | nil => simp [takeRun]
  | cons p rest ih =>
    obtain ⟨x, y⟩ := p
    by_cases h : a = x
    · subst h; simp [takeRun, ih]
    · simp [takeRun, h]

/-- The pole-pole survey holds the pairs, in their order. -/
theorem groups_flat (l : List (Nat × Nat)) :
    (groups l).flatMap (fun g => g.2.map fun y => (g.1, y)) = l := by
  induction l using groups.induct with
  | case1 => simp [groups]
  | case2 x y rest r ih =>
    rw [groups]
    simp only [List.flatMap_cons, List.map_cons]
    rw [ih]
    simp [r, takeRun_flat]

theorem compress_map {α γ : Type} (g : γ → Bool) (f : γ → α) (l : List γ) :
    compress (l.map g) (l.map f) = (l.filter g).map f := by
  induction l with
  | nil => rfl
  | cons x xs ih =>
    cases h : g x <;> simp [compress, h, ih]

theorem zipWith_map_same {α β γ δ : Type} (g : β → γ → δ) (f : α → β) (h : α → γ) (l : List α) :
    List.zipWith g (l.map f) (l.map h) = l.map fun x => g (f x) (h x) := by
  induction l with
  | nil => rfl
  | cons x xs ih => simp [ih]

theorem maskedAdd_map {γ : Type} (f : ℝ) (g : γ → Bool) (x v : γ → ℝ) (l : List γ) :
    maskedAdd f (l.map g) (l.map x) ((l.filter g).map v) =
      l.map fun a => x a + (if g a then f * v a else 0) := by
  induction l with
  | nil => rfl
  | cons a as ih =>
    cases h : g a <;> simp [maskedAdd, h, ih]

/-- Position of a location among the distinct electrodes. -/
def pos (le : E → E → Bool) (l : List (Datum E)) (x : E) : Nat :=
  posIn (unique le ((abmn l).A ++ (abmn l).B ++ (abmn l).M ++ (abmn l).N)).1 x

/-- All electrodes of the survey. -/
def locs (l : List (Datum E)) : List E := (abmn l).A ++ (abmn l).B ++ (abmn l).M ++ (abmn l).N

def B (d : Datum E) : E := d.b.getD d.a
def N (d : Datum E) : E := d.n.getD d.m

omit [DecidableEq E] in
theorem mem_locs {l : List (Datum E)} {d : Datum E} (hd : d ∈ l) :
    d.a ∈ locs l ∧ B d ∈ locs l ∧ d.m ∈ locs l ∧ N d ∈ locs l := by
  refine ⟨?_, ?_, ?_, ?_⟩ <;> simp only [locs, abmn, List.mem_append, List.mem_map]
  · exact Or.inl (Or.inl (Or.inl ⟨d, hd, rfl⟩))
  · exact Or.inl (Or.inl (Or.inr ⟨d, hd, rfl⟩))
  · exact Or.inl (Or.inr ⟨d, hd, rfl⟩)
  · exact Or.inr ⟨d, hd, rfl⟩

def tx (le : E → E → Bool) (l : List (Datum E)) (d : Datum E) : Bool :=
  decide (pos le l d.a ≠ pos le l (B d))
def rx (le : E → E → Bool) (l : List (Datum E)) (d : Datum E) : Bool :=
  decide (pos le l d.m ≠ pos le l (N d))

/-- The list of pairs handed to `np.unique`. -/
def pairList (le : E → E → Bool) (l : List (Datum E)) : List (Nat × Nat) :=
  l.map (fun d => sortPair (pos le l d.a) (pos le l d.m)) ++
  (l.filter (rx le l)).map (fun d => sortPair (pos le l d.a) (pos le l (N d))) ++
  (l.filter (tx le l)).map (fun d => sortPair (pos le l (B d)) (pos le l d.m)) ++
  (l.filter (fun d => tx le l d && rx le l d)).map
    (fun d => sortPair (pos le l (B d)) (pos le l (N d)))

/-- Position of a pair in the pole-pole survey. -/
def pairPos (le : E → E → Bool) (l : List (Datum E)) (q : Nat × Nat) : Nat :=
  posIn (unique lePair (pairList le l)).1 q

theorem mini_eq (le : E → E → Bool) (dflt : E) (l : List (Datum E)) :
    miniPolePole le dflt (abmn l) =
      { dipoleRx := l.map (rx le l), dipoleTx := l.map (tx le l),
        invAM := l.map fun d => pairPos le l (sortPair (pos le l d.a) (pos le l d.m)),
        invAN := (l.filter (rx le l)).map fun d =>
          pairPos le l (sortPair (pos le l d.a) (pos le l (N d))),
        invBM := (l.filter (tx le l)).map fun d =>
          pairPos le l (sortPair (pos le l (B d)) (pos le l d.m)),
        invBN := (l.filter (fun d => tx le l d && rx le l d)).map fun d =>
          pairPos le l (sortPair (pos le l (B d)) (pos le l (N d))),
        sources := (groups (unique lePair (pairList le l)).1).map fun g =>
          ((unique le (locs l)).1.getD g.1 dflt,
            g.2.map fun i => (unique le (locs l)).1.getD i dflt) } := by
  have hinv : (unique le (locs l)).2 = (l.map fun d => pos le l d.a) ++
      ((l.map fun d => pos le l (B d)) ++ ((l.map fun d => pos le l d.m) ++
        (l.map fun d => pos le l (N d)))) := by
    have h : (unique le (locs l)).2 = (locs l).map (pos le l) := rfl
    rw [h]
    simp only [locs, abmn, List.map_append, List.map_map, List.append_assoc]
    rfl
  have hn : (abmn l).A.length = l.length := by simp [abmn]
  have hA : (unique le (locs l)).2.take l.length = l.map fun d => pos le l d.a := by
    rw [hinv]; exact List.take_left' (by simp)
  have hB : ((unique le (locs l)).2.drop l.length).take l.length =
      l.map fun d => pos le l (B d) := by
    rw [hinv, List.drop_left' (by simp)]; exact List.take_left' (by simp)
  have hM : ((unique le (locs l)).2.drop (2 * l.length)).take l.length =
      l.map fun d => pos le l d.m := by
    rw [hinv, two_mul, ← List.drop_drop, List.drop_left' (by simp), List.drop_left' (by simp)]
    exact List.take_left' (by simp)
  have hN : ((unique le (locs l)).2.drop (3 * l.length)).take l.length =
      l.map fun d => pos le l (N d) := by
    have h3 : 3 * l.length = l.length + (l.length + l.length) := by ring
    rw [hinv, h3, ← List.drop_drop, List.drop_left' (by simp), ← List.drop_drop,
      List.drop_left' (by simp), List.drop_left' (by simp)]
    exact List.take_of_length_le (by simp)
  unfold miniPolePole
  simp only [hn]
  change (let inverse := (unique le (locs l)).2; _) = _
  simp only [show (unique le ((abmn l).A ++ (abmn l).B ++ (abmn l).M ++ (abmn l).N)) =
    unique le (locs l) from rfl, hA, hB, hM, hN]
  simp only [zipWith_map_same]
  have ctx : ∀ f : Datum E → Nat, compress (l.map fun d => decide (pos le l d.a ≠ pos le l (B d)))
      (l.map f) = (l.filter (tx le l)).map f := fun f =>
    compress_map (tx le l) f l
  have crx : ∀ f : Datum E → Nat, compress (l.map fun d => decide (pos le l d.m ≠ pos le l (N d)))
      (l.map f) = (l.filter (rx le l)).map f := fun f =>
    compress_map (rx le l) f l
  have cboth : ∀ f : Datum E → Nat, compress (l.map fun d =>
      (decide (pos le l d.a ≠ pos le l (B d)) && decide (pos le l d.m ≠ pos le l (N d))))
      (l.map f) = (l.filter (fun d => tx le l d && rx le l d)).map f := fun f =>
    compress_map (fun d => tx le l d && rx le l d) f l
  simp only [ctx, crx, cboth, zipWith_map_same]
  change (let inv := (unique lePair (pairList le l)).2; _) = _
  have hp : (unique lePair (pairList le l)).2 = (pairList le l).map (pairPos le l) := rfl
  have hlist : (List.map (fun x => sortPair (pos le l x.a) (pos le l x.m)) l ++
      List.map (fun x => sortPair (pos le l x.a) (pos le l (N x))) (List.filter (rx le l) l) ++
      List.map (fun x => sortPair (pos le l (B x)) (pos le l x.m)) (List.filter (tx le l) l) ++
      List.map (fun x => sortPair (pos le l (B x)) (pos le l (N x)))
        (List.filter (fun d => tx le l d && rx le l d) l)) = pairList le l := rfl
  simp only [hlist, hp]
  have hsplit : (pairList le l).map (pairPos le l) =
      (l.map fun d => pairPos le l (sortPair (pos le l d.a) (pos le l d.m))) ++
      (((l.filter (rx le l)).map fun d =>
          pairPos le l (sortPair (pos le l d.a) (pos le l (N d)))) ++
      (((l.filter (tx le l)).map fun d =>
          pairPos le l (sortPair (pos le l (B d)) (pos le l d.m))) ++
       ((l.filter (fun d => tx le l d && rx le l d)).map fun d =>
          pairPos le l (sortPair (pos le l (B d)) (pos le l (N d)))))) := by
    simp only [pairList, List.map_append, List.map_map, List.append_assoc, Function.comp_def]
  rw [hsplit]
  rw [List.take_left' (by simp), List.drop_left' (by simp), List.take_left' (by simp),
    List.drop_left' (by simp), List.take_left' (by simp), List.drop_left' (by simp)]
  rfl

/-- The data of the pole-pole survey. -/
theorem mini_data (le : E → E → Bool) (dflt : E) (l : List (Datum E)) (resp : E → E → ℝ) :
    (miniPolePole le dflt (abmn l)).data resp =
      (unique lePair (pairList le l)).1.map fun q =>
        resp ((unique le (locs l)).1.getD q.1 dflt) ((unique le (locs l)).1.getD q.2 dflt) := by
  rw [mini_eq]
  simp only [MiniSurvey.data, List.flatMap_map, List.map_map]
  conv_rhs => rw [← groups_flat (unique lePair (pairList le l)).1]
  rw [List.map_flatMap]
  refine List.flatMap_congr fun g _ => ?_
  simp [List.map_map, Function.comp]

/-- Reading the potential of one pair of electrodes. -/
theorem mini_read (le : E → E → Bool) (dflt : E) (l : List (Datum E)) (resp : E → E → ℝ)
    (hsym : ∀ a ∈ locs l, ∀ m ∈ locs l, resp a m = resp m a) (x y : E) (hx : x ∈ locs l)
    (hy : y ∈ locs l) (hq : sortPair (pos le l x) (pos le l y) ∈ pairList le l) :
    ((miniPolePole le dflt (abmn l)).data resp).getD
      (pairPos le l (sortPair (pos le l x) (pos le l y))) 0 = resp x y := by
  rw [mini_data]
  set q := sortPair (pos le l x) (pos le l y) with hqd
  have hmem : q ∈ (unique lePair (pairList le l)).1 := by
    simp only [unique]
    rw [List.mem_insertionSort]
    exact List.mem_dedup.2 hq
  have hlt : pairPos le l q < (unique lePair (pairList le l)).1.length :=
    posIn_lt hmem
  rw [List.getD_eq_getElem?_getD, List.getElem?_eq_getElem (by simpa using hlt)]
  simp only [List.getElem_map, Option.getD_some]
  have hget : (unique lePair (pairList le l)).1[pairPos le l q] = q := posIn_get hlt
  rw [hget]
  have gx : (unique le (locs l)).1.getD (pos le l x) dflt = x := unique_get le (locs l) x hx dflt
  have gy : (unique le (locs l)).1.getD (pos le l y) dflt = y := unique_get le (locs l) y hy dflt
  by_cases h : pos le l x ≤ pos le l y
  · have : q = (pos le l x, pos le l y) := by simp [hqd, sortPair, h]
    rw [this]; simp only; rw [gx, gy]
  · have : q = (pos le l y, pos le l x) := by simp [hqd, sortPair, h]
    rw [this]; simp only; rw [gx, gy, hsym y hy x hx]

/-! ### Property theorems -/

/-- **C65.** With reciprocity of the pole-pole potentials, unit currents, voltages as data and dipoles
with two distinct electrodes, the miniaturised survey gives exactly the data of the survey, in
order. -/
theorem C65_data (le : E → E → Bool) (dflt : E) (l : List (Datum E)) (resp : E → E → ℝ)
    (hsym : ∀ a ∈ locs l, ∀ m ∈ locs l, resp a m = resp m a)
    (hI : ∀ d ∈ l, d.current = 1) (hg : ∀ d ∈ l, d.geom = none)
    (hb : ∀ d ∈ l, d.b ≠ some d.a) (hn : ∀ d ∈ l, d.n ≠ some d.m) :
    (miniPolePole le dflt (abmn l)).expand ((miniPolePole le dflt (abmn l)).data resp) =
      l.map (Datum.value resp) := by
  set D := (miniPolePole le dflt (abmn l)).data resp with hD
  have hread := mini_read le dflt l resp hsym
  rw [← hD] at hread
  have e : (miniPolePole le dflt (abmn l)).expand D =
      l.map fun d =>
        D.getD (pairPos le l (sortPair (pos le l d.a) (pos le l d.m))) 0 +
        (if rx le l d then
          -1 * D.getD (pairPos le l (sortPair (pos le l d.a) (pos le l (N d)))) 0 else 0) +
        (if tx le l d then
          -1 * D.getD (pairPos le l (sortPair (pos le l (B d)) (pos le l d.m))) 0 else 0) +
        (if tx le l d && rx le l d then
          1 * D.getD (pairPos le l (sortPair (pos le l (B d)) (pos le l (N d)))) 0 else 0) := by
    rw [mini_eq]
    simp only [MiniSurvey.expand, List.map_map]
    have h1 := maskedAdd_map (-1) (rx le l)
      (fun d => D.getD (pairPos le l (sortPair (pos le l d.a) (pos le l d.m))) 0)
      (fun d => D.getD (pairPos le l (sortPair (pos le l d.a) (pos le l (N d)))) 0) l
    simp only [Function.comp_def]
    rw [h1, maskedAdd_map (-1) (tx le l), zipWith_map_same]
    have hc : (l.map fun d => rx le l d && tx le l d) = l.map fun d => tx le l d && rx le l d := by
      refine List.map_congr_left fun d _ => Bool.and_comm _ _
    rw [hc]
    exact maskedAdd_map 1 (fun d => tx le l d && rx le l d) _ _ l
  rw [e]
  refine List.map_congr_left fun d hd => ?_
  obtain ⟨ma, mb, mm, mn⟩ := mem_locs hd
  have htx : tx le l d = true ↔ d.b.isSome = true := by
    constructor
    · intro h
      by_contra hnone
      have : d.b = none := by simpa using hnone
      simp [tx, B, this] at h
    · intro h
      obtain ⟨b, hbb⟩ := Option.isSome_iff_exists.1 h
      simp only [tx, decide_eq_true_eq]
      intro heq
      have := unique_inj le (locs l) _ _ ma mb heq
      simp only [B, hbb, Option.getD_some] at this
      exact hb d hd (by rw [hbb, this])
  have hrx : rx le l d = true ↔ d.n.isSome = true := by
    constructor
    · intro h
      by_contra hnone
      have : d.n = none := by simpa using hnone
      simp [rx, N, this] at h
    · intro h
      obtain ⟨b, hbb⟩ := Option.isSome_iff_exists.1 h
      simp only [rx, decide_eq_true_eq]
      intro heq
      have := unique_inj le (locs l) _ _ mm mn heq
      simp only [N, hbb, Option.getD_some] at this
      exact hn d hd (by rw [hbb, this])
  have r1 := hread d.a d.m ma mm (by
    simp only [pairList, List.mem_append, List.mem_map]
    exact Or.inl (Or.inl (Or.inl ⟨d, hd, rfl⟩)))
  have r2 : rx le l d = true → D.getD (pairPos le l (sortPair (pos le l d.a) (pos le l (N d)))) 0 =
      resp d.a (N d) := fun h => hread d.a (N d) ma mn (by
    simp only [pairList, List.mem_append, List.mem_map]
    exact Or.inl (Or.inl (Or.inr ⟨d, List.mem_filter.2 ⟨hd, h⟩, rfl⟩)))
  have r3 : tx le l d = true → D.getD (pairPos le l (sortPair (pos le l (B d)) (pos le l d.m))) 0 =
      resp (B d) d.m := fun h => hread (B d) d.m mb mm (by
    simp only [pairList, List.mem_append, List.mem_map]
    exact Or.inl (Or.inr ⟨d, List.mem_filter.2 ⟨hd, h⟩, rfl⟩))
  have r4 : (tx le l d && rx le l d) = true →
      D.getD (pairPos le l (sortPair (pos le l (B d)) (pos le l (N d)))) 0 =
      resp (B d) (N d) := fun h => hread (B d) (N d) mb mn (by
    simp only [pairList, List.mem_append, List.mem_map]
    exact Or.inr ⟨d, List.mem_filter.2 ⟨hd, h⟩, rfl⟩)
  rw [r1]
  have hI' := hI d hd
  have hg' := hg d hd
  cases hbd : d.b with
  | none =>
    have ht : tx le l d = false := by
      rw [← Bool.not_eq_true]; intro h; rw [htx] at h; simp [hbd] at h
    cases hnd : d.n with
    | none =>
      have hr : rx le l d = false := by
        rw [← Bool.not_eq_true]; intro h; rw [hrx] at h; simp [hnd] at h
      simp [ht, hr, Datum.value, hg', hI', hbd, hnd]
    | some n =>
      have hr : rx le l d = true := hrx.2 (by simp [hnd])
      rw [r2 hr]
      simp [ht, hr, Datum.value, hg', hI', hbd, hnd, N]
      ring
  | some b =>
    have ht : tx le l d = true := htx.2 (by simp [hbd])
    rw [r3 ht]
    cases hnd : d.n with
    | none =>
      have hr : rx le l d = false := by
        rw [← Bool.not_eq_true]; intro h; rw [hrx] at h; simp [hnd] at h
      simp [ht, hr, Datum.value, hg', hI', hbd, hnd, B]
      ring
    | some n =>
      have hr : rx le l d = true := hrx.2 (by simp [hnd])
      rw [r2 hr, r4 (by simp [ht, hr])]
      simp [ht, hr, Datum.value, hg', hI', hbd, hnd, B, N]
      ring

theorem addAt_length (f : ℝ) (out : List ℝ) (is : List Nat) (vs : List ℝ) :
    (addAt f out is vs).length = out.length := by
  induction is generalizing out vs with
  | nil => cases vs <;> simp [addAt]
  | cons i is ih =>
    cases vs with
    | nil => simp [addAt]
    | cons v vs => simp [addAt, ih]

theorem dot_modify (d out : List ℝ) (i : Nat) (c : ℝ) (hl : d.length = out.length)
    (hi : i < out.length) : dotList d (out.modify i (· + c)) = dotList d out + d.getD i 0 * c := by
  induction out generalizing d i with
  | nil => simp at hi
  | cons x xs ih =>
    cases d with
    | nil => simp at hl
    | cons y ys =>
      cases i with
      | zero => simp [dotList]; ring
      | succ i =>
        have := ih ys i (by simpa using hl) (by simpa using hi)
        simp only [dotList, List.modify_succ_cons, List.zipWith_cons_cons, List.sum_cons,
          List.getD_cons_succ] at this ⊢
        rw [this]; ring

theorem dot_addAt (f : ℝ) (d out : List ℝ) (is : List Nat) (vs : List ℝ)
    (hl : d.length = out.length) (hi : ∀ i ∈ is, i < out.length) :
    dotList d (addAt f out is vs) =
      dotList d out + f * dotList (is.map fun i => d.getD i 0) vs := by
  induction is generalizing out vs with
  | nil => cases vs <;> simp [addAt, dotList]
  | cons i is ih =>
    cases vs with
    | nil => simp [addAt, dotList]
    | cons v vs =>
      simp only [addAt]
      rw [ih (out.modify i (· + f * v)) vs (by simpa using hl)
        (fun j hj => by simpa using hi j (by simp [hj])), dot_modify d out i _ hl (hi i (by simp))]
      simp only [dotList, List.map_cons, List.zipWith_cons_cons, List.sum_cons]
      ring

theorem dot_replicate (d : List ℝ) (n : Nat) : dotList d (List.replicate n 0) = 0 := by
  induction n generalizing d with
  | zero => cases d <;> simp [dotList]
  | succ n ih =>
    cases d with
    | nil => simp [dotList]
    | cons x xs =>
      have := ih xs
      simp only [dotList] at this
      simp [dotList, List.replicate_succ, this]

theorem dot_maskedAdd {γ : Type} (f : ℝ) (g : γ → Bool) (l : List γ) (out : List ℝ) (x : γ → ℝ)
    (w : List ℝ) (ho : out.length = l.length) :
    dotList (maskedAdd f (l.map g) out ((l.filter g).map x)) w =
      dotList out w + f * dotList ((l.filter g).map x) (compress (l.map g) w) ∧
    (maskedAdd f (l.map g) out ((l.filter g).map x)).length = l.length := by
  induction l generalizing out w with
  | nil => cases out <;> cases w <;> simp [maskedAdd, compress, dotList] at *
  | cons a as ih =>
    cases out with
    | nil => simp at ho
    | cons o os =>
      have ho' : os.length = as.length := by simpa using ho
      cases w with
      | nil =>
        have := (ih os [] ho').2
        cases h : g a <;> simp [maskedAdd, compress, dotList, h, this]
      | cons y ys =>
        have := ih os ys ho'
        cases h : g a with
        | true =>
          simp only [List.map_cons, List.filter_cons, h, if_true, maskedAdd, compress,
            List.length_cons, this.2, and_true]
          have h1 := this.1
          simp only [dotList] at h1 ⊢
          simp only [List.zipWith_cons_cons, List.sum_cons, h1]
          ring
        | false =>
          simp only [List.map_cons, List.filter_cons, h, Bool.false_eq_true, if_false, maskedAdd,
            compress, List.length_cons, this.2, and_true]
          have h1 := this.1
          simp only [dotList] at h1 ⊢
          simp only [List.zipWith_cons_cons, List.sum_cons, h1]
          ring

/-- **C65.** `_mini_survey_dataT` is the adjoint of `_mini_survey_data`, also when electrode pairs are
shared by many data, so that `Jtvec` of the miniaturised simulation is the adjoint of its `Jvec`. -/
theorem C65_adjoint (le : E → E → Bool) (dflt : E) (l : List (Datum E)) (resp : E → E → ℝ)
    (d w : List ℝ) (hd : d.length = ((miniPolePole le dflt (abmn l)).data resp).length) :
    dotList ((miniPolePole le dflt (abmn l)).expand d) w =
      dotList d ((miniPolePole le dflt (abmn l)).expandT d.length w) := by
  have hlen : d.length = (unique lePair (pairList le l)).1.length := by
    rw [hd, mini_data]; simp
  have hpos : ∀ q ∈ pairList le l, pairPos le l q < d.length := by
    intro q hq
    rw [hlen]
    refine posIn_lt ?_
    simp only [unique]
    rw [List.mem_insertionSort]
    exact List.mem_dedup.2 hq
  rw [mini_eq]
  simp only [MiniSurvey.expand, MiniSurvey.expandT, List.map_map]
  have hz : List.zipWith (fun a b => a && b) (l.map (rx le l)) (l.map (tx le l)) =
      l.map fun x => tx le l x && rx le l x := by
    rw [zipWith_map_same]
    exact List.map_congr_left fun x _ => Bool.and_comm _ _
  rw [hz]
  have m1 := dot_maskedAdd (-1) (rx le l) l
    (l.map ((fun i => d.getD i 0) ∘ fun x => pairPos le l (sortPair (pos le l x.a) (pos le l x.m))))
    ((fun i => d.getD i 0) ∘ fun x => pairPos le l (sortPair (pos le l x.a) (pos le l (N x)))) w
    (by simp)
  have m2 := dot_maskedAdd (-1) (tx le l) l _
    ((fun i => d.getD i 0) ∘ fun x => pairPos le l (sortPair (pos le l (B x)) (pos le l x.m))) w m1.2
  have m3 := dot_maskedAdd 1 (fun x => tx le l x && rx le l x) l _
    ((fun i => d.getD i 0) ∘ fun x => pairPos le l (sortPair (pos le l (B x)) (pos le l (N x)))) w
    m2.2
  rw [m3.1, m2.1, m1.1]
  rw [dot_addAt, dot_addAt, dot_addAt, dot_addAt, dot_replicate]
  · simp only [List.map_map, Function.comp_def]
    ring
  · simp
  · intro i hi
    obtain ⟨x, hx, rfl⟩ := List.mem_map.1 hi
    simp only [List.length_replicate]
    exact hpos _ (by
      simp only [pairList, List.mem_append, List.mem_map]
      exact Or.inl (Or.inl (Or.inl ⟨x, hx, rfl⟩)))
  · simp [addAt_length]
  · intro i hi
    obtain ⟨x, hx, rfl⟩ := List.mem_map.1 hi
    simp only [addAt_length, List.length_replicate]
    exact hpos _ (by
      simp only [pairList, List.mem_append, List.mem_map]
      exact Or.inl (Or.inl (Or.inr ⟨x, hx, rfl⟩)))
  · simp [addAt_length]
  · intro i hi
    obtain ⟨x, hx, rfl⟩ := List.mem_map.1 hi
    simp only [addAt_length, List.length_replicate]
    exact hpos _ (by
      simp only [pairList, List.mem_append, List.mem_map]
      exact Or.inl (Or.inr ⟨x, hx, rfl⟩))
  · simp [addAt_length]
  · intro i hi
    obtain ⟨x, hx, rfl⟩ := List.mem_map.1 hi
    simp only [addAt_length, List.length_replicate]
    exact hpos _ (by
      simp only [pairList, List.mem_append, List.mem_map]
      exact Or.inr ⟨x, hx, rfl⟩)

/-- **C65.** The miniaturised survey is minimal in the sense that no unordered electrode pair occurs
twice in it. -/
theorem C65_no_duplicates (le : E → E → Bool) (dflt : E) (l : List (Datum E)) :
    ∃ ps : List (Nat × Nat), ps.Nodup ∧ (∀ q ∈ ps, q.1 ≤ q.2) ∧
      ∀ resp : E → E → ℝ, ((miniPolePole le dflt (abmn l)).data resp).length = ps.length := by
  refine ⟨(unique lePair (pairList le l)).1, ?_, ?_, fun resp => by rw [mini_data]; simp⟩
  · simp only [unique]
    exact ((List.perm_insertionSort _ _).nodup_iff).2 (List.nodup_dedup _)
  · intro q hq
    simp only [unique] at hq
    rw [List.mem_insertionSort] at hq
    have hq := List.mem_dedup.1 hq
    have hs : ∀ x y : Nat, (sortPair x y).1 ≤ (sortPair x y).2 := by
      intro x y; unfold sortPair; split <;> simp <;> omega
    simp only [pairList, List.mem_append, List.mem_map] at hq
    rcases hq with ((⟨d, -, rfl⟩ | ⟨d, -, rfl⟩) | ⟨d, -, rfl⟩) | ⟨d, -, rfl⟩ <;> exact hs _ _

/-! ### Where the miniaturised survey is wrong -/

/-- **C65 (violation).** The current of a source is ignored: with twice the current the data of the
survey double, the miniaturised data do not. -/
theorem C65_current_ignored : ∃ (l : List (Datum Nat)) (resp : Nat → Nat → ℝ),
    (∀ a m, resp a m = resp m a) ∧ (∀ d ∈ l, d.geom = none) ∧
    (∀ d ∈ l, d.b ≠ some d.a) ∧ (∀ d ∈ l, d.n ≠ some d.m) ∧
    (miniPolePole (fun a b => decide (a ≤ b)) 0 (abmn l)).expand
      ((miniPolePole (fun a b => decide (a ≤ b)) 0 (abmn l)).data resp) ≠
      l.map (Datum.value resp) := by
  refine ⟨[⟨0, none, 2, 1, none, none⟩], fun _ _ => 1, fun _ _ => rfl, by simp, by simp, by simp, ?_⟩
  have h := C65_data (fun a b => decide (a ≤ b)) 0 [⟨0, none, 1, 1, none, none⟩]
    (fun _ _ : Nat => (1 : ℝ)) (fun _ _ _ _ => rfl) (by simp) (by simp) (by simp) (by simp)
  have e : abmn [(⟨0, none, 2, 1, none, none⟩ : Datum Nat)] =
      abmn [(⟨0, none, 1, 1, none, none⟩ : Datum Nat)] := rfl
  rw [e, h]
  simp [Datum.value]

/-- **C65 (violation).** The geometric factor of apparent resistivity data is ignored. -/
theorem C65_apparent_resistivity_ignored : ∃ (l : List (Datum Nat)) (resp : Nat → Nat → ℝ),
    (∀ a m, resp a m = resp m a) ∧ (∀ d ∈ l, d.current = 1) ∧
    (∀ d ∈ l, d.b ≠ some d.a) ∧ (∀ d ∈ l, d.n ≠ some d.m) ∧
    (miniPolePole (fun a b => decide (a ≤ b)) 0 (abmn l)).expand
      ((miniPolePole (fun a b => decide (a ≤ b)) 0 (abmn l)).data resp) ≠
      l.map (Datum.value resp) := by
  refine ⟨[⟨0, none, 1, 1, none, some 2⟩], fun _ _ => 1, fun _ _ => rfl, by simp, by simp, by simp,
    ?_⟩
  have h := C65_data (fun a b => decide (a ≤ b)) 0 [⟨0, none, 1, 1, none, none⟩]
    (fun _ _ : Nat => (1 : ℝ)) (fun _ _ _ _ => rfl) (by simp) (by simp) (by simp) (by simp)
  have e : abmn [(⟨0, none, 1, 1, none, some 2⟩ : Datum Nat)] =
      abmn [(⟨0, none, 1, 1, none, none⟩ : Datum Nat)] := rfl
  rw [e, h]
  simp [Datum.value]

/-- **C65 (violation).** A dipole source whose electrodes coincide injects nothing, so its data are
zero; the miniaturised survey treats it as a pole. -/
theorem C65_degenerate_dipole : ∃ (l : List (Datum Nat)) (resp : Nat → Nat → ℝ),
    (∀ a m, resp a m = resp m a) ∧ (∀ d ∈ l, d.current = 1) ∧ (∀ d ∈ l, d.geom = none) ∧
    (∀ d ∈ l, d.n ≠ some d.m) ∧
    (miniPolePole (fun a b => decide (a ≤ b)) 0 (abmn l)).expand
      ((miniPolePole (fun a b => decide (a ≤ b)) 0 (abmn l)).data resp) ≠
      l.map (Datum.value resp) := by
  refine ⟨[⟨0, some 0, 1, 1, none, none⟩], fun _ _ => 1, fun _ _ => rfl, by simp, by simp, by simp,
    ?_⟩
  have h := C65_data (fun a b => decide (a ≤ b)) 0 [⟨0, none, 1, 1, none, none⟩]
    (fun _ _ : Nat => (1 : ℝ)) (fun _ _ _ _ => rfl) (by simp) (by simp) (by simp) (by simp)
  have e : abmn [(⟨0, some 0, 1, 1, none, none⟩ : Datum Nat)] =
      abmn [(⟨0, none, 1, 1, none, none⟩ : Datum Nat)] := rfl
  rw [e, h]
  simp [Datum.value]

/-- **C65 (violation).** Without reciprocity (for instance when sources are put in the nearest cell
but receivers interpolate, as in the cell centred discretization) the data are wrong: a pole at the
larger electrode is replaced by its reciprocal. -/
theorem C65_needs_reciprocity : ∃ (l : List (Datum Nat)) (resp : Nat → Nat → ℝ),
    (∀ d ∈ l, d.current = 1) ∧ (∀ d ∈ l, d.geom = none) ∧
    (∀ d ∈ l, d.b ≠ some d.a) ∧ (∀ d ∈ l, d.n ≠ some d.m) ∧
    (miniPolePole (fun a b => decide (a ≤ b)) 0 (abmn l)).expand
      ((miniPolePole (fun a b => decide (a ≤ b)) 0 (abmn l)).data resp) ≠
      l.map (Datum.value resp) := by
  refine ⟨[⟨1, none, 1, 0, none, none⟩], fun a _ => a, by simp, by simp, by simp, by simp, ?_⟩
  have e : miniPolePole (fun a b => decide (a ≤ b)) 0
      (abmn [(⟨1, none, 1, 0, none, none⟩ : Datum Nat)]) =
      { dipoleRx := [false], dipoleTx := [false], invAM := [0], invAN := [], invBM := [],
        invBN := [], sources := [(0, [1])] } := by
    have u1 : unique (fun a b : Nat => decide (a ≤ b)) [1, 1, 0, 0] = ([0, 1], [1, 1, 0, 0]) := by
      decide
    have u2 : unique lePair [(0, 1)] = ([(0, 1)], [0]) := by decide
    simp [miniPolePole, abmn, u1, u2, sortPair, compress, groups, takeRun]
  rw [e]
  simp [MiniSurvey.expand, MiniSurvey.data, maskedAdd, Datum.value]

/-- A survey with shared electrodes: dipole-dipole, pole-dipole, dipole-pole and pole-pole data. -/
def exSurvey : List (Datum Nat) :=
  [⟨0, some 1, 1, 2, some 3, none⟩, ⟨0, none, 1, 2, some 3, none⟩, ⟨3, some 2, 1, 1, none, none⟩,
   ⟨1, none, 1, 0, none, none⟩]

example (resp : Nat → Nat → ℝ) (h : ∀ a m, resp a m = resp m a) :
    (miniPolePole (fun a b => decide (a ≤ b)) 0 (abmn exSurvey)).expand
      ((miniPolePole (fun a b => decide (a ≤ b)) 0 (abmn exSurvey)).data resp) =
    [1 * (resp 0 2 - resp 1 2) - 1 * (resp 0 3 - resp 1 3),
     1 * (resp 0 2 - 0) - 1 * (resp 0 3 - 0), 1 * (resp 3 1 - resp 2 1) - 0,
     1 * (resp 1 0 - 0) - 0] := by
  have hm : ∀ (P : Datum Nat → Prop), (∀ d ∈ exSurvey, P d) ↔
      P ⟨0, some 1, 1, 2, some 3, none⟩ ∧ P ⟨0, none, 1, 2, some 3, none⟩ ∧
      P ⟨3, some 2, 1, 1, none, none⟩ ∧ P ⟨1, none, 1, 0, none, none⟩ := by
    intro P; simp [exSurvey]
  exact C65_data (fun a b => decide (a ≤ b)) 0 exSurvey resp (fun a _ m _ => h a m)
    ((hm _).2 (by simp)) ((hm _).2 (by simp)) ((hm _).2 (by simp)) ((hm _).2 (by simp))

end Verif.DC.Mini.Props
