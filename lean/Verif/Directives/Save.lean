import Verif.Basic
import Mathlib.Data.Rat.Defs
import Mathlib.Algebra.Order.Field.Rat
import Mathlib.Algebra.BigOperators.Ring.List
import Mathlib.Data.List.Lex
import Mathlib.Data.Char
import Mathlib.Tactic.Ring
import Mathlib.Tactic.IntervalCases
import Mathlib.Tactic.Linarith
import Mathlib.Tactic.NormNum

/-! Model of the directives that save the progress of an inversion
(`simpeg/directives/_directives.py` 1648-2178). -/

namespace Verif.Directives
open Verif

/-! ### File names -/

/-- `f"{itr:0{w}d}"` for a natural number. -/
def zfill (w n : Nat) : List Char :=
  List.replicate (w - (Nat.toDigits 10 n).length) '0' ++ Nat.toDigits 10 n

/-- The width set by `initialize` (1681-1683): `len(str(opt.maxIter))`. -/
def iterWidth (maxIter : Nat) : Nat := (Nat.toDigits 10 maxIter).length

/-- `_time_iter_file_name` (1730-1739), while an inversion runs. -/
def timeIterName (name time : List Char) (maxIter iter : Nat) : List Char :=
  name ++ '_' :: (time ++ '_' :: zfill (iterWidth maxIter) iter)

/-- `_time_file_name` (1741-1743). -/
def timeName (name time : List Char) : List Char := name ++ '_' :: time

/-- The position of the last dot. -/
def rfindDot : List Char → Option Nat
  | [] => none
  | c :: cs => match rfindDot cs with
    | some i => some (i + 1)
    | none => if c = '.' then some 0 else none

/-- `pathlib.Path(s).with_suffix(suf)` for a name without a slash: what follows the last dot is
replaced, unless that dot is the first or the last character. -/
def withSuffix (s suf : List Char) : List Char :=
  match rfindDot s with
  | none => s ++ suf
  | some i => if 0 < i ∧ i + 1 < s.length then s.take i ++ suf else s ++ suf

/-- The name of the file in `directory` that `SaveModelEveryIteration` (1841-1843, suffix `.npy`)
and `SaveOutputDictEveryIteration` (2126-2128, suffix `.npz`) write at an iteration. -/
def modelFile (name time suf : List Char) (maxIter iter : Nat) : List Char :=
  withSuffix (timeIterName name time maxIter iter) suf

/-- The files in a directory: name and content. -/
abbrev Dir (α : Type) := List (List Char × α)

/-- `np.save(name, content)`: an existing file is replaced. -/
def Dir.save {α : Type} (d : Dir α) (f : List Char) (x : α) : Dir α :=
  (f, x) :: d.filter fun e => e.1 ≠ f

/-- `endIter` of `SaveModelEveryIteration` (1845-1847) for the iterations `1, 2, ...` with the
models given. -/
def saveAll {α : Type} (name time suf : List Char) (maxIter : Nat) : Nat → List α → Dir α → Dir α
  | _, [], d => d
  | k, m :: ms, d =>
    saveAll name time suf maxIter (k + 1) ms (d.save (modelFile name time suf maxIter k) m)

/-! ### The table -/

/-- A regularisation in the combination: its multiplier there; whether it is a `Sparse`; the
dimension of its mesh; its multipliers `alpha_s, alpha_x, alpha_xx, ...` and the values of its
terms at the model, by name. -/
structure TabReg where
  mult : ℚ
  sparse : Bool
  dim : Nat
  aS : ℚ
  a1 : Fin 3 → ℚ
  a2 : Fin 3 → ℚ
  vS : ℚ
  v1 : Fin 3 → ℚ
  v2 : Fin 3 → ℚ

/-- The list of terms (`reg.objfcts`): a `Sparse` has smallness and first order smoothness, a
`WeightedLeastSquares` first and second order alternating, in each direction of the mesh. -/
def TabReg.objfcts (r : TabReg) : List ℚ :=
  r.vS :: ([0, 1, 2].filter fun k : Fin 3 => k.1 < r.dim).flatMap fun k =>
    if r.sparse then [r.v1 k] else [r.v1 k, r.v2 k]

/-- `reg(m)` with its own multipliers. -/
def TabReg.value (r : TabReg) : ℚ :=
  r.aS * r.vS + (([0, 1, 2].filter fun k : Fin 3 => k.1 < r.dim).map fun k =>
    if r.sparse then r.a1 k * r.v1 k else r.a1 k * r.v1 k + r.a2 k * r.v2 k).sum

/-- `invProb.phi_m`: the combination. -/
def phiM (rs : List TabReg) : ℚ := (rs.map fun r => r.mult * r.value).sum

/-- The four parts of `endIter` (1911-1929): `k = 0` smallness, `k = 1, 2, 3` smoothness in the
directions. Index into the terms by 1915-1918; a term that is not there would raise, `none`. -/
def part (r : TabReg) (k : Nat) : Option ℚ :=
  let i := if r.sparse then k else [0, 1, 3, 5].getD k 0
  let a := if k = 0 then r.aS else r.a1 ⟨(k - 1) % 3, Nat.mod_lt _ (by decide)⟩
  if a = 0 then some 0
  else if k ≤ 1 ∨ k ≤ r.dim then (r.objfcts[i]?).map (· * a)
  else some 0

/-- The column of a part: the sum over the regularisations. -/
def column (rs : List TabReg) (k : Nat) : Option ℚ :=
  (rs.mapM fun r => part r k).map List.sum

/-! ### Loading -/

/-- The nine columns of a row of the file (1942-1957), as rounded by the format. -/
abbrev Row := Fin 9 → ℚ

/-- `load_results` (1959-1993) on a file with the given rows: the columns assigned, and the
exception. `np.loadtxt` returns an array with one dimension for no rows and for one row, which
has no second length. `invProb.dmisfit` is always a combination (`inverse_problem.py` 114-119),
which has no attribute `simulation`. -/
def loadResults (rows : List Row) : Option (Fin 9 → List ℚ) × Err :=
  match rows with
  | [] => (none, .indexError)
  | [_] => (none, .indexError)
  | _ => (some fun c => rows.map (· c), .attributeError)

/-! ### The dictionary -/

/-- A `Sparse` regularisation in `SaveOutputDictEveryIteration.endIter` (2163-2170): the names of
its terms with their thresholds and norms. -/
abbrev SparseParts := List (String × ℚ × ℚ)

/-- The entries for the sparse regularisations: later ones replace earlier ones of the same
name. -/
def dictParts (rs : List SparseParts) : List (String × ℚ) :=
  rs.foldl (fun d r => r.foldl (fun d t =>
    let d := (t.1 ++ ".irls_threshold", t.2.1) :: d.filter (·.1 ≠ t.1 ++ ".irls_threshold")
    (t.1 ++ ".norm", t.2.2) :: d.filter (·.1 ≠ t.1 ++ ".norm")) d) []

namespace Props

/-! ### C99 -/

theorem zfill_length (w n : Nat) (hw : 0 < w) (h : n < 10 ^ w) : (zfill w n).length = w := by
  have := (Nat.length_toDigits_le_iff (b := 10) (by omega) hw).mpr h
  simp only [zfill, List.length_append, List.length_replicate]
  omega

theorem zfill_succ (w n : Nat) (hw : 0 < w) (h : n < 10 ^ (w + 1)) :
    zfill (w + 1) n = zfill w (n / 10) ++ [(n % 10).digitChar] := by
  unfold zfill
  by_cases hn : n < 10
  · rw [Nat.toDigits_of_lt_base hn, Nat.div_eq_of_lt hn, Nat.toDigits_zero, Nat.mod_eq_of_lt hn]
    simp only [List.length_singleton]
    rw [show w + 1 - 1 = (w - 1) + 1 by omega, List.replicate_succ']
  · rw [Nat.toDigits_of_base_le (by omega) (by omega)]
    simp only [List.length_append, List.length_singleton]
    rw [← List.append_assoc]
    congr 3
    omega

theorem digitChar_lt {a b : Nat} (hb : b < 10) (h : a < b) : a.digitChar < b.digitChar := by
  interval_cases b <;> interval_cases a <;> decide

theorem lex_append {α : Type} [LT α] {a b c d : List α} (hl : a.length = b.length) (h : a < b) :
    a ++ c < b ++ d := by
  induction a generalizing b with
  | nil => cases b with
    | nil => exact absurd h (by simp [List.lt_irrefl])
    | cons y b => simp at hl
  | cons x a ih => cases b with
    | nil => simp at hl
    | cons y b =>
      rcases List.cons_lt_cons_iff.mp h with h1 | ⟨rfl, h1⟩
      · exact List.cons_lt_cons_iff.mpr (Or.inl h1)
      · exact List.cons_lt_cons_iff.mpr (Or.inr ⟨rfl, ih (by simpa using hl) h1⟩)

theorem lex_prefix {a b : List Char} (c : List Char) (h : a < b) : c ++ a < c ++ b := by
  induction c with
  | nil => exact h
  | cons x c ih => exact List.cons_lt_cons_iff.mpr (Or.inr ⟨rfl, ih⟩)

theorem zfill_lt : ∀ (w i j : Nat), 0 < w → j < 10 ^ w → i < j → zfill w i < zfill w j
  | 0, _, _, h, _, _ => absurd h (by omega)
  | 1, i, j, _, hj, hij => by
    have hj' : j < 10 := by simpa using hj
    have hi' : i < 10 := by omega
    simp only [zfill, Nat.toDigits_of_lt_base hj', Nat.toDigits_of_lt_base hi',
      List.length_singleton, Nat.sub_self, List.replicate_zero, List.nil_append]
    exact List.cons_lt_cons_iff.mpr (Or.inl (digitChar_lt hj' hij))
  | w + 2, i, j, _, hj, hij => by
    rw [zfill_succ (w + 1) i (by omega) (lt_trans hij hj), zfill_succ (w + 1) j (by omega) hj]
    have hj10 : j / 10 < 10 ^ (w + 1) := by
      rw [Nat.div_lt_iff_lt_mul (by omega)]
      calc j < 10 ^ (w + 2) := hj
        _ = 10 ^ (w + 1) * 10 := by ring
    rcases Nat.lt_or_ge (i / 10) (j / 10) with h | h
    · refine lex_append ?_ (zfill_lt (w + 1) _ _ (by omega) hj10 h)
      rw [zfill_length _ _ (by omega) (by omega), zfill_length _ _ (by omega) hj10]
    · have h1 : i / 10 = j / 10 := le_antisymm (Nat.div_le_div_right hij.le) h
      rw [h1]
      exact lex_prefix _ (List.cons_lt_cons_iff.mpr (Or.inl
        (digitChar_lt (Nat.mod_lt _ (by omega)) (by omega))))

theorem rfindDot_none {s : List Char} (h : '.' ∉ s) : rfindDot s = none := by
  induction s with
  | nil => rfl
  | cons c s ih =>
    simp only [List.mem_cons, not_or] at h
    rw [rfindDot, ih h.2]
    simp [Ne.symm h.1]

theorem rfindDot_append {a s : List Char} (h : '.' ∉ s) : rfindDot (a ++ s) = rfindDot a := by
  induction a with
  | nil => simp [rfindDot_none h, rfindDot]
  | cons c a ih => rw [List.cons_append, rfindDot, rfindDot, ih]

theorem no_dot_zfill (w n : Nat) : '.' ∉ zfill w n := by
  intro h
  rcases List.mem_append.mp h with h | h
  · have := List.eq_of_mem_replicate h
    exact absurd this (by decide)
  · have := Nat.isDigit_of_mem_toDigits (by omega) (by omega) h
    exact absurd this (by decide)

theorem le_width (maxIter iter : Nat) (h : iter ≤ maxIter) : iter < 10 ^ iterWidth maxIter :=
  lt_of_le_of_lt h
    ((Nat.length_toDigits_le_iff (b := 10) (by omega) Nat.length_toDigits_pos).mp le_rfl)

/-- C99 (partial). If neither the name nor the time contains a dot, the files of the iterations of
one run, sorted by name, are in the order of the iterations; in particular no two of them are the
same file. Missing: with a dot in the name all iterations write one file, see below. -/
theorem C99_files_in_order_partial (name time suf : List Char) (hn : '.' ∉ name) (ht : '.' ∉ time)
    (maxIter i j : Nat) (hij : i < j) (hj : j ≤ maxIter) :
    modelFile name time suf maxIter i < modelFile name time suf maxIter j := by
  have hd : ∀ k, '.' ∉ timeIterName name time maxIter k := by
    intro k hk
    simp only [timeIterName, List.mem_append, List.mem_cons] at hk
    have := no_dot_zfill (iterWidth maxIter) k
    rcases hk with h | h | h | h | h
    · exact hn h
    · exact absurd h (by decide)
    · exact ht h
    · exact absurd h (by decide)
    · exact this h
  have hw : 0 < iterWidth maxIter := Nat.length_toDigits_pos
  have hjw := le_width maxIter j hj
  simp only [modelFile, withSuffix, rfindDot_none (hd i), rfindDot_none (hd j)]
  have hz := zfill_lt _ i j hw hjw hij
  have hl : (timeIterName name time maxIter i).length = (timeIterName name time maxIter j).length := by
    simp [timeIterName, zfill_length _ _ hw hjw, zfill_length _ _ hw (lt_trans hij hjw)]
  refine lex_append hl ?_
  unfold timeIterName
  exact lex_prefix _ (List.cons_lt_cons_iff.mpr (Or.inr ⟨rfl,
    lex_prefix _ (List.cons_lt_cons_iff.mpr (Or.inr ⟨rfl, hz⟩))⟩))

theorem save_lookup {α : Type} (d : Dir α) (f g : List Char) (x : α) :
    (d.save f x).lookup g = if g = f then some x else d.lookup g := by
  unfold Dir.save
  rw [List.lookup_cons]
  by_cases h : g = f
  · simp [h]
  · rw [if_neg h]
    have : (g == f) = false := by simpa using h
    rw [this]
    simp only [cond_false]
    induction d with
    | nil => rfl
    | cons e d ih =>
      by_cases he : e.1 = f
      · rw [List.filter_cons_of_neg (by simp [he]), List.lookup_cons, ih]
        have : (g == e.1) = false := by simp [he, h]
        rw [this]
      · rw [List.filter_cons_of_pos (by simp [he]), List.lookup_cons, List.lookup_cons, ih]

theorem saveAll_kept {α : Type} (name time suf : List Char) (maxIter : Nat) (g : List Char) :
    ∀ (ms : List α) (k : Nat) (d : Dir α),
    (∀ j, j < ms.length → modelFile name time suf maxIter (k + j) ≠ g) →
    (saveAll name time suf maxIter k ms d).lookup g = d.lookup g
  | [], _, _, _ => rfl
  | m :: ms, k, d, h => by
    rw [saveAll, saveAll_kept name time suf maxIter g ms (k + 1) _ (fun j hj => by
      have := h (j + 1) (by simpa using hj)
      rwa [show k + (j + 1) = k + 1 + j by omega] at this), save_lookup, if_neg]
    have := h 0 (by simp)
    exact fun hh => this (by rw [hh]; rfl)

/-- C99 (partial). After a run the file of every iteration holds the model of that iteration. -/
theorem C99_models_partial {α : Type} (name time suf : List Char) (hn : '.' ∉ name)
    (ht : '.' ∉ time) (maxIter : Nat) (ms : List α) (d : Dir α) (hl : ms.length ≤ maxIter)
    (i : Nat) (hi : i < ms.length) :
    (saveAll name time suf maxIter 1 ms d).lookup (modelFile name time suf maxIter (i + 1)) =
      some ms[i] := by
  suffices H : ∀ (ms : List α) (k : Nat) (d : Dir α) (i : Nat) (hi : i < ms.length),
      k + ms.length ≤ maxIter + 1 →
      (saveAll name time suf maxIter k ms d).lookup (modelFile name time suf maxIter (k + i)) =
        some ms[i] by
    have := H ms 1 d i hi (by omega)
    rwa [Nat.add_comm 1 i] at this
  intro ms
  induction ms with
  | nil => intro k d i hi; simp at hi
  | cons m ms ih =>
    intro k d i hi hk
    rw [saveAll]
    cases i with
    | zero =>
      rw [Nat.add_zero, saveAll_kept name time suf maxIter _ ms (k + 1), save_lookup, if_pos rfl]
      · rfl
      · intro j hj h
        have h1 := C99_files_in_order_partial name time suf hn ht maxIter k (k + 1 + j) (by omega)
          (by simp only [List.length_cons] at hk; omega)
        rw [h] at h1
        exact absurd h1 (List.lt_irrefl _)
    | succ i =>
      have := ih (k + 1) (d.save (modelFile name time suf maxIter k) m) i (by simpa using hi)
        (by simp only [List.length_cons] at hk; omega)
      rw [show k + (i + 1) = k + 1 + i by omega, this]
      rfl

theorem rfindDot_take {a : List Char} {i : Nat} (h : rfindDot a = some i) : i < a.length := by
  induction a generalizing i with
  | nil => simp [rfindDot] at h
  | cons c a ih =>
    rw [rfindDot] at h
    cases hr : rfindDot a with
    | some k =>
      rw [hr] at h
      simp only [Option.some.injEq] at h
      have := ih hr
      simp only [List.length_cons]
      omega
    | none =>
      rw [hr] at h
      simp only at h
      split at h
      · simp only [Option.some.injEq] at h; simp [← h]
      · cases h

/-- C99, violated. If the name contains a dot after its first character (`model.v2`), everything
after the last dot is cut off: all iterations, and all runs, write the same file. -/
theorem C99_violated_dot (name time time' suf : List Char) (i : Nat) (h : rfindDot name = some i)
    (hi : 0 < i) (ht : '.' ∉ time) (ht' : '.' ∉ time') (maxIter maxIter' a b : Nat) :
    modelFile name time suf maxIter a = modelFile name time' suf maxIter' b := by
  have key : ∀ (time : List Char) (maxIter a : Nat), '.' ∉ time →
      modelFile name time suf maxIter a = name.take i ++ suf := by
    intro time maxIter a ht
    have hn := rfindDot_take h
    have hd : '.' ∉ '_' :: (time ++ '_' :: zfill (iterWidth maxIter) a) := by
      simp [no_dot_zfill, ht]
    have e : rfindDot (timeIterName name time maxIter a) = some i := by
      unfold timeIterName
      rw [rfindDot_append hd, h]
    have l : i + 1 < (timeIterName name time maxIter a).length := by
      simp [timeIterName]; omega
    unfold modelFile withSuffix
    rw [e]
    dsimp only
    rw [if_pos ⟨hi, l⟩]
    unfold timeIterName
    rw [List.take_append_of_le_length hn.le]
  rw [key time maxIter a ht, key time' maxIter' b ht']

example : modelFile "model.v2".toList "2026-11-16-07-13".toList ".npy".toList 20 3 =
    "model.npy".toList ∧ modelFile "model".toList "2026-11-16-07-13".toList ".npy".toList 20 3 =
    "model_2026-11-16-07-13_03.npy".toList := by
  decide +kernel

theorem mapM_some {α β : Type} (f : α → Option β) (g : α → β) : ∀ (l : List α),
    (∀ x ∈ l, f x = some (g x)) → l.mapM f = some (l.map g)
  | [], _ => rfl
  | a :: l, h => by
    rw [List.mapM_cons, h a (by simp), mapM_some f g l (fun x hx => h x (by simp [hx]))]
    rfl

/-- What each part of the table is for one regularisation: multiplier times value of the term of
that name, nothing for directions the mesh does not have. -/
theorem part_eq (r : TabReg) (hd : 1 ≤ r.dim ∧ r.dim ≤ 3) :
    part r 0 = some (r.vS * r.aS) ∧ part r 1 = some (r.v1 0 * r.a1 0) ∧
    part r 2 = some (if 2 ≤ r.dim then r.v1 1 * r.a1 1 else 0) ∧
    part r 3 = some (if 3 ≤ r.dim then r.v1 2 * r.a1 2 else 0) := by
  obtain ⟨mult, sparse, dim, aS, a1, a2, vS, v1, v2⟩ := r
  obtain ⟨h1, h3⟩ := hd
  simp only at h1 h3
  have f1 : (⟨(1 - 1) % 3, Nat.mod_lt _ (by decide)⟩ : Fin 3) = 0 := rfl
  have f2 : (⟨(2 - 1) % 3, Nat.mod_lt _ (by decide)⟩ : Fin 3) = 1 := rfl
  have f3 : (⟨(3 - 1) % 3, Nat.mod_lt _ (by decide)⟩ : Fin 3) = 2 := rfl
  refine ⟨?_, ?_, ?_, ?_⟩
  · by_cases ha : aS = 0
    · simp [part, ha]
    · cases sparse <;> simp [part, ha, TabReg.objfcts]
  · by_cases ha : a1 0 = 0
    · simp [part, f1, ha]
    · interval_cases dim <;> cases sparse <;> simp [part, f1, ha, TabReg.objfcts]
  · by_cases ha : a1 1 = 0
    · simp [part, f2, ha]
    · interval_cases dim <;> cases sparse <;> simp [part, f2, ha, TabReg.objfcts]
  · by_cases ha : a1 2 = 0
    · simp [part, f3, ha]
    · interval_cases dim <;> cases sparse <;> simp [part, f3, ha, TabReg.objfcts]

/-- C99 (partial). The columns of the table are the sums over the regularisations of multiplier
times value of the terms of their names. If all regularisations stand in the combination with the
multiplier one and without second order smoothness, they add up to the column `phi_m`. Missing:
other multipliers, see below. -/
theorem C99_columns_partial (rs : List TabReg) (hd : ∀ r ∈ rs, 1 ≤ r.dim ∧ r.dim ≤ 3) :
    (column rs 0 = some (rs.map fun r => r.vS * r.aS).sum ∧
      column rs 1 = some (rs.map fun r => r.v1 0 * r.a1 0).sum ∧
      column rs 2 = some (rs.map fun r => if 2 ≤ r.dim then r.v1 1 * r.a1 1 else 0).sum ∧
      column rs 3 = some (rs.map fun r => if 3 ≤ r.dim then r.v1 2 * r.a1 2 else 0).sum) ∧
    ((∀ r ∈ rs, r.mult = 1 ∧ (r.sparse = true ∨ ∀ k, r.a2 k = 0)) →
      ∃ c0 c1 c2 c3, column rs 0 = some c0 ∧ column rs 1 = some c1 ∧ column rs 2 = some c2 ∧
        column rs 3 = some c3 ∧ phiM rs = c0 + c1 + c2 + c3) := by
  have h0 : column rs 0 = some (rs.map fun r => r.vS * r.aS).sum := by
    rw [column, mapM_some _ _ rs (fun r hr => (part_eq r (hd r hr)).1)]; rfl
  have h1 : column rs 1 = some (rs.map fun r => r.v1 0 * r.a1 0).sum := by
    rw [column, mapM_some _ _ rs (fun r hr => (part_eq r (hd r hr)).2.1)]; rfl
  have h2 : column rs 2 = some (rs.map fun r => if 2 ≤ r.dim then r.v1 1 * r.a1 1 else 0).sum := by
    rw [column, mapM_some _ _ rs (fun r hr => (part_eq r (hd r hr)).2.2.1)]; rfl
  have h3 : column rs 3 = some (rs.map fun r => if 3 ≤ r.dim then r.v1 2 * r.a1 2 else 0).sum := by
    rw [column, mapM_some _ _ rs (fun r hr => (part_eq r (hd r hr)).2.2.2)]; rfl
  refine ⟨⟨h0, h1, h2, h3⟩, fun hm => ⟨_, _, _, _, h0, h1, h2, h3, ?_⟩⟩
  rw [← List.sum_map_add, ← List.sum_map_add, ← List.sum_map_add, phiM]
  congr 1
  apply List.map_congr_left
  intro r hr
  obtain ⟨hmr, ha⟩ := hm r hr
  obtain ⟨g1, g3⟩ := hd r hr
  rw [hmr, one_mul]
  obtain ⟨mult, sparse, dim, aS, a1, a2, vS, v1, v2⟩ := r
  simp only at g1 g3 ha ⊢
  rcases ha with rfl | ha
  · interval_cases dim <;> simp [TabReg.value] <;> ring
  · interval_cases dim <;> cases sparse <;> simp [TabReg.value, ha] <;> ring

/-- C99, violated. The multiplier of a regularisation in the combination is not in the columns of
its parts: with the multiplier two, `phi_m` is 4 and its only part 2. -/
theorem C99_violated_multiplier :
    let rs : List TabReg := [⟨2, true, 1, 1, 0, 0, 2, 0, 0⟩]
    phiM rs = 4 ∧ column rs 0 = some 2 ∧ column rs 1 = some 0 ∧ column rs 2 = some 0 ∧
      column rs 3 = some 0 := by
  norm_num [phiM, TabReg.value, column, part, TabReg.objfcts]

/-- C99, violated. Loading the results of a run never succeeds: without two rows nothing is
loaded, and with two or more the columns are assigned but the method raises. -/
theorem C99_violated_load (rows : List Row) :
    (rows.length < 2 → loadResults rows = (none, .indexError)) ∧
    (2 ≤ rows.length → (loadResults rows).2 = .attributeError ∧
      ∃ cols, (loadResults rows).1 = some cols ∧
        ∀ (c : Fin 9) (i : Nat) (hi : i < rows.length), (cols c)[i]? = some (rows[i] c)) := by
  constructor
  · intro h
    match rows, h with
    | [], _ => rfl
    | [_], _ => rfl
    | _ :: _ :: _, h => simp only [List.length_cons] at h; omega
  · intro h
    match rows, h with
    | [], h => simp at h
    | [_], h => simp at h
    | a :: b :: rs, _ =>
      refine ⟨rfl, _, rfl, fun c i hi => ?_⟩
      rw [List.getElem?_map, List.getElem?_eq_getElem hi]
      rfl

/-- C99, violated. With two sparse regularisations the dictionary holds the thresholds and norms
of the last one only. -/
theorem C99_violated_dict :
    dictParts [[("SparseSmallness", 1, 0)], [("SparseSmallness", 5, 2)]] =
      [("SparseSmallness.norm", 2), ("SparseSmallness.irls_threshold", 5)] := by
  decide +kernel

end Props
end Verif.Directives
