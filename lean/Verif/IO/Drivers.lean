import Verif.Basic
import Mathlib.Data.List.SplitOn
import Mathlib.Data.Real.Basic
import Mathlib.Tactic.Linarith
import Mathlib.Tactic.NormNum

/-!
# Input files of inversions of gravity and magnetic data

Model of `GravityDriver_Inv` and `MagneticsDriver_Inv`,
`/repo/simpeg/utils/drivers/gravity_driver.py` and `magnetics_driver.py`. The first part is
`readDriverFile`, the second one the properties that are computed when first asked for. Not modelled:
contents of the files (parameters), `magnetizationModel`, paths, and the number of a cell in a file.
-/

noncomputable section
namespace Verif.IO.Drivers

abbrev Text := List Char

/-- `re.split(r"[!\s]", line)`: split at every exclamation mark and blank. -/
def isSep (c : Char) : Bool := c = '!' || c.isWhitespace

/-- The same, as a list of words. -/
def parts (l : Text) : List Text := l.splitOnP isSep

/-- `l_input[i]`. -/
def item (l : Text) (i : ℕ) : Except Err Text :=
  match (parts l)[i]? with
  | some w => .ok w
  | none => .error .indexError

/-- `float(l_input[1])`; `num` parses a number. -/
def value (num : Text → Option ℝ) (l : Text) : Except Err ℝ := do
  let w ← item l 1
  match num w with
  | some x => .ok x
  | none => .error .valueError

/-- `np.array(l_input[1:k]).astype(float)`. -/
def values (num : Text → Option ℝ) (l : Text) (k : ℕ) : Except Err (List ℝ) :=
  (((parts l).take k).drop 1).mapM fun w => match num w with
    | some x => .ok x
    | none => .error .valueError

/-- A number or the name of a file. -/
inductive Model
  | value (x : ℝ)
  | file (f : Text)

/-- Third line: topography, value of inactive cells, file of active cells, or nothing. -/
inductive Cells
  | topo (f : Text)
  | value (x : ℝ)
  | file (f : Text)
  | none

/-- Numbers, or the name of a file, or the default. -/
inductive Param
  | values (x : List ℝ)
  | file (f : Text)
  | default

/-- What is read. The magnetization model is read by the driver for magnetics only. -/
structure Input where
  mesh : Text
  obs : Text
  cells : Cells
  start : Model
  ref : Model
  mag : Option Text
  weights : Option Text
  chi : ℝ
  alphas : List ℝ
  bounds : Param
  norms : Param
  eps : Param

/-- Lines 3, `gravity_driver.py` 56-69. -/
def readCells (num : Text → Option ℝ) (l : Text) : Except Err Cells := do
  let key ← item l 0
  if key = "TOPO".toList then return .topo (← item l 1)
  else if key = "VALUE".toList then return .value (← value num l)
  else if key = "FILE".toList then return .file (← item l 1)
  else return .none

/-- Lines 4 and 5, `gravity_driver.py` 71-87. With another keyword the variable is not set, and using
it is an exception. -/
def readModel (num : Text → Option ℝ) (l : Text) : Except Err Model := do
  let key ← item l 0
  if key = "VALUE".toList then return .value (← value num l)
  else if key = "FILE".toList then return .file (← item l 1)
  else .error .exception

/-- Line 6, `gravity_driver.py` 89-96, and line 7 of `magnetics_driver.py`. -/
def readFile (l : Text) : Except Err (Option Text) := do
  let key ← item l 0
  if key = "DEFAULT".toList then return none
  else if key = "FILE".toList then return some (← item l 1)
  else .error .exception

/-- Line 7, `gravity_driver.py` 98-105. -/
def readChi (num : Text → Option ℝ) (l : Text) : Except Err ℝ := do
  let key ← item l 0
  if key = "DEFAULT".toList then return 1
  else if key = "VALUE".toList then value num l
  else .error .exception

/-- Line 8, `gravity_driver.py` 107-115. -/
def readAlphas (num : Text → Option ℝ) (l : Text) : Except Err (List ℝ) := do
  let key ← item l 0
  if key = "VALUE".toList then values num l 5
  else if key = "DEFAULT".toList then return [1, 1, 1, 1]
  else .error .exception

/-- Line 9, `gravity_driver.py` 117-128; the default is no bounds. -/
def readBounds (num : Text → Option ℝ) (l : Text) : Except Err Param := do
  let key ← item l 0
  if key = "VALUE".toList then return .values (← values num l 3)
  else if key = "FILE".toList then return .file (← item l 1)
  else return .default

/-- Line 10, `gravity_driver.py` 130-138. -/
def readNorms (num : Text → Option ℝ) (l : Text) : Except Err Param := do
  let key ← item l 0
  if key = "VALUE".toList then return .values (← values num l 6)
  else if key = "FILE".toList then return .file (← item l 1)
  else .error .exception

/-- Line 11, `gravity_driver.py` 140-148. -/
def readEps (num : Text → Option ℝ) (l : Text) : Except Err Param := do
  let key ← item l 0
  if key = "VALUE".toList then return .values (← values num l 3)
  else if key = "DEFAULT".toList then return .default
  else .error .exception

/-- `readDriverFile`, `gravity_driver.py` 21-162 (`isMag = false`), `magnetics_driver.py` 21-172.
Lines beyond the end are empty. -/
def read (num : Text → Option ℝ) (isMag : Bool) (file : List Text) : Except Err Input := do
  let at' := fun i => file.getD i [];
  let k := if isMag then 1 else 0;
  let mesh ← item (at' 0) 1
  let obs ← item (at' 1) 1
  let cells ← readCells num (at' 2)
  let start ← readModel num (at' 3)
  let ref ← readModel num (at' 4)
  let mag ← if isMag then readFile (at' 5) else .ok none
  let weights ← readFile (at' (5 + k))
  let chi ← readChi num (at' (6 + k))
  let alphas ← readAlphas num (at' (7 + k))
  let bounds ← readBounds num (at' (8 + k))
  let norms ← readNorms num (at' (9 + k))
  let eps ← readEps num (at' (10 + k))
  return ⟨mesh, obs, cells, start, ref, mag, weights, chi, alphas, bounds, norms, eps⟩

/-! ## Specification of the format -/

/-- A line: words with one blank between them, then a blank or an exclamation mark and any comment. -/
def line : List Text → Text → Text
  | [], c => c
  | [w], c => w ++ c
  | w :: ws, c => w ++ ' ' :: line ws c

/-- A word has no blank and no exclamation mark. -/
def Word (w : Text) : Prop := ∀ c ∈ w, c ≠ '!' ∧ c.isWhitespace = false

/-- A comment starts with a blank (for instance the end of the line) or an exclamation mark. -/
def Comment (c : Text) : Prop := ∃ x r, c = x :: r ∧ (x = '!' ∨ x.isWhitespace = true)

/-- What a line of the file says: a keyword and words. -/
def Model.words (wr : ℝ → Text) : Model → List Text
  | .value x => ["VALUE".toList, wr x]
  | .file f => ["FILE".toList, f]

def Cells.words (wr : ℝ → Text) : Cells → List Text
  | .topo f => ["TOPO".toList, f]
  | .value x => ["VALUE".toList, wr x]
  | .file f => ["FILE".toList, f]
  | .none => ["NONE".toList]

def Param.words (wr : ℝ → Text) : Param → List Text
  | .values x => "VALUE".toList :: x.map wr
  | .file f => ["FILE".toList, f]
  | .default => ["DEFAULT".toList]

def fileWords : Option Text → List Text
  | some f => ["FILE".toList, f]
  | none => ["DEFAULT".toList]

/-- The lines of an input file. -/
def Input.lines (wr : ℝ → Text) (isMag : Bool) (i : Input) : List (List Text) :=
  [["MESH".toList, i.mesh], ["OBS".toList, i.obs], i.cells.words wr, i.start.words wr, i.ref.words wr] ++
  (if isMag then [fileWords i.mag] else []) ++
  [fileWords i.weights, ["VALUE".toList, wr i.chi], "VALUE".toList :: i.alphas.map wr, i.bounds.words wr,
    i.norms.words wr, i.eps.words wr]

/-- Names of files are words. -/
def Model.Ok : Model → Prop
  | .value _ => True
  | .file f => Word f

def Cells.Ok : Cells → Prop
  | .topo f => Word f
  | .value _ => True
  | .file f => Word f
  | .none => True

/-- Numbers of a parameter, and whether it may be a file or the default. -/
def Param.Ok (k : ℕ) (file dflt : Bool) : Param → Prop
  | .values x => x.length = k
  | .file f => file = true ∧ Word f
  | .default => dflt = true

def Input.Ok (isMag : Bool) (i : Input) : Prop :=
  Word i.mesh ∧ Word i.obs ∧ i.cells.Ok ∧ i.start.Ok ∧ i.ref.Ok ∧
  (∀ f ∈ i.mag, Word f) ∧ (isMag = false → i.mag = none) ∧ (∀ f ∈ i.weights, Word f) ∧
  i.alphas.length = 4 ∧ i.bounds.Ok 2 true true ∧ i.norms.Ok 5 true false ∧ i.eps.Ok 2 false true

/-! ## Reading what was written -/

theorem word_iff (w : Text) : Word w ↔ ∀ c ∈ w, isSep c = false := by
  unfold Word isSep
  simp only [Bool.or_eq_false_iff, decide_eq_false_iff_not, ne_eq]

theorem parts_word (w r : Text) (c : Char) (hw : Word w) (hc : isSep c = true) :
    parts (w ++ c :: r) = w :: parts r :=
  List.splitOnP_append_cons_of_forall_mem ((word_iff w).1 hw) c hc r

theorem parts_line (ws : List Text) (c : Text) (hw : ∀ w ∈ ws, Word w) (h0 : ws ≠ []) (hc : Comment c) :
    ∃ rest, parts (line ws c) = ws ++ rest := by
  induction ws with
  | nil => exact absurd rfl h0
  | cons w ws ih =>
    cases ws with
    | nil =>
      obtain ⟨x, r, rfl, hx⟩ := hc
      exact ⟨parts r, by rw [line, parts_word w r x (hw w (by simp)) (by simpa [isSep] using hx)]; rfl⟩
    | cons x xs =>
      obtain ⟨rest, e⟩ := ih (fun y hy => hw y (List.mem_cons_of_mem _ hy)) (by simp)
      refine ⟨rest, ?_⟩
      rw [line, parts_word w _ ' ' (hw w (by simp)) (by decide), e]
      · rfl
      · simp

section
variable {num : Text → Option ℝ} {wr : ℝ → Text} (hn : ∀ x, Word (wr x) ∧ num (wr x) = some x)
include hn

theorem item_line (ws : List Text) (c : Text) (hw : ∀ w ∈ ws, Word w) (h0 : ws ≠ []) (hc : Comment c)
    (i : ℕ) (w : Text) (hi : ws[i]? = some w) : item (line ws c) i = .ok w := by
  obtain ⟨rest, e⟩ := parts_line ws c hw h0 hc
  have : (ws ++ rest)[i]? = some w := by
    rw [List.getElem?_append_left (by
      by_contra h
      rw [List.getElem?_eq_none (by omega)] at hi
      cases hi)]
    exact hi
  simp [item, e, this]

theorem value_line (k : Text) (x : ℝ) (c : Text) (hk : Word k) (hc : Comment c) :
    value num (line [k, wr x] c) = .ok x := by
  have : item (line [k, wr x] c) 1 = .ok (wr x) :=
    item_line hn [k, wr x] c (by simpa using ⟨hk, (hn x).1⟩) (by simp) hc 1 _ rfl
  simp [value, this, bind, Except.bind, (hn x).2]

theorem values_line (k : Text) (xs : List ℝ) (c : Text) (hk : Word k) (hc : Comment c) :
    values num (line (k :: xs.map wr) c) (xs.length + 1) = .ok xs := by
  obtain ⟨rest, e⟩ := parts_line (k :: xs.map wr) c (by
    intro w hw
    rcases List.mem_cons.1 hw with rfl | hw
    · exact hk
    · obtain ⟨x, -, rfl⟩ := List.mem_map.1 hw
      exact (hn x).1) (by simp) hc
  have h1 : (((k :: xs.map wr) ++ rest).take (xs.length + 1)).drop 1 = xs.map wr := by
    simp [List.take_append_of_le_length]
  rw [values, e, h1]
  clear e h1
  induction xs with
  | nil => rfl
  | cons x xs ih =>
    rw [List.map_cons, List.mapM_cons, (hn x).2, ih]
    rfl

theorem kw (s : String) (h : ∀ c ∈ s.toList, isSep c = false) : Word s.toList := (word_iff _).2 h

theorem model_line (m : Model) (hm : m.Ok) (c : Text) (hc : Comment c) :
    readModel num (line (m.words wr) c) = .ok m := by
  cases m with
  | value x =>
    have hk : Word "VALUE".toList := kw hn "VALUE" (by decide)
    have h0 := item_line hn ["VALUE".toList, wr x] c (by simpa using ⟨hk, (hn x).1⟩) (by simp) hc 0 _ rfl
    have h1 := value_line hn _ x c hk hc
    simp only [Model.words, readModel, h0, bind, Except.bind, h1, if_true, pure, Except.pure]
  | file f =>
    have hk : Word "FILE".toList := kw hn "FILE" (by decide)
    have hw : ∀ w ∈ ["FILE".toList, f], Word w := by simpa using ⟨hk, hm⟩
    have h0 := item_line hn ["FILE".toList, f] c hw (by simp) hc 0 _ rfl
    have h1 := item_line hn ["FILE".toList, f] c hw (by simp) hc 1 _ rfl
    have ne : "FILE".toList ≠ "VALUE".toList := by decide
    simp only [Model.words, readModel, h0, bind, Except.bind, h1, if_true, pure, Except.pure, ne, if_false]

theorem cells_line (m : Cells) (hm : m.Ok) (c : Text) (hc : Comment c) :
    readCells num (line (m.words wr) c) = .ok m := by
  have n1 : "VALUE".toList ≠ "TOPO".toList := by decide
  have n2 : "FILE".toList ≠ "TOPO".toList := by decide
  have n3 : "FILE".toList ≠ "VALUE".toList := by decide
  have n4 : "NONE".toList ≠ "TOPO".toList ∧ "NONE".toList ≠ "VALUE".toList ∧
    "NONE".toList ≠ "FILE".toList := by decide
  cases m with
  | topo f =>
    have hw : ∀ w ∈ ["TOPO".toList, f], Word w := by simpa using ⟨kw hn "TOPO" (by decide), hm⟩
    have h0 := item_line hn ["TOPO".toList, f] c hw (by simp) hc 0 _ rfl
    have h1 := item_line hn ["TOPO".toList, f] c hw (by simp) hc 1 _ rfl
    simp only [Cells.words, readCells, h0, bind, Except.bind, h1, if_true, pure, Except.pure]
  | value x =>
    have hk : Word "VALUE".toList := kw hn "VALUE" (by decide)
    have h0 := item_line hn ["VALUE".toList, wr x] c (by simpa using ⟨hk, (hn x).1⟩) (by simp) hc 0 _ rfl
    have h1 := value_line hn _ x c hk hc
    simp only [Cells.words, readCells, h0, bind, Except.bind, h1, if_true, pure, Except.pure, n1, if_false]
  | file f =>
    have hw : ∀ w ∈ ["FILE".toList, f], Word w := by simpa using ⟨kw hn "FILE" (by decide), hm⟩
    have h0 := item_line hn ["FILE".toList, f] c hw (by simp) hc 0 _ rfl
    have h1 := item_line hn ["FILE".toList, f] c hw (by simp) hc 1 _ rfl
    simp only [Cells.words, readCells, h0, bind, Except.bind, h1, if_true, pure, Except.pure, n2, n3,
      if_false]
  | none =>
    have h0 := item_line hn ["NONE".toList] c (by simpa using kw hn "NONE" (by decide)) (by simp) hc 0 _ rfl
    simp only [Cells.words, readCells, h0, bind, Except.bind, pure, Except.pure, n4, if_false]

theorem file_line (m : Option Text) (hm : ∀ f ∈ m, Word f) (c : Text) (hc : Comment c) :
    readFile (line (fileWords m) c) = .ok m := by
  have n1 : "FILE".toList ≠ "DEFAULT".toList := by decide
  cases m with
  | none =>
    have h0 := item_line hn ["DEFAULT".toList] c (by simpa using kw hn "DEFAULT" (by decide)) (by simp) hc 0
      _ rfl
    simp only [fileWords, readFile, h0, bind, Except.bind, if_true, pure, Except.pure]
  | some f =>
    have hw : ∀ w ∈ ["FILE".toList, f], Word w := by
      simpa using ⟨kw hn "FILE" (by decide), hm f rfl⟩
    have h0 := item_line hn ["FILE".toList, f] c hw (by simp) hc 0 _ rfl
    have h1 := item_line hn ["FILE".toList, f] c hw (by simp) hc 1 _ rfl
    simp only [fileWords, readFile, h0, bind, Except.bind, h1, if_true, pure, Except.pure, n1, if_false]

theorem param_first (m : Param) (k : ℕ) (a b : Bool) (hm : m.Ok k a b) (c : Text) (hc : Comment c) :
    item (line (m.words wr) c) 0 = .ok (match m with
      | .values _ => "VALUE".toList
      | .file _ => "FILE".toList
      | .default => "DEFAULT".toList) := by
  cases m with
  | values x =>
    refine item_line hn _ c ?_ (by simp [Param.words]) hc 0 _ rfl
    intro w hw
    rcases List.mem_cons.1 hw with rfl | hw
    · exact kw hn "VALUE" (by decide)
    · obtain ⟨x, -, rfl⟩ := List.mem_map.1 hw
      exact (hn x).1
  | file f =>
    exact item_line hn _ c (by simpa [Param.words] using ⟨kw hn "FILE" (by decide), hm.2⟩)
      (by simp [Param.words]) hc 0 _ rfl
  | default =>
    exact item_line hn _ c (by simpa [Param.words] using kw hn "DEFAULT" (by decide))
      (by simp [Param.words]) hc 0 _ rfl

theorem bounds_line (m : Param) (hm : m.Ok 2 true true) (c : Text) (hc : Comment c) :
    readBounds num (line (m.words wr) c) = .ok m := by
  have h0 := param_first hn m 2 true true hm c hc
  have n1 : "FILE".toList ≠ "VALUE".toList := by decide
  have n2 : "DEFAULT".toList ≠ "VALUE".toList ∧ "DEFAULT".toList ≠ "FILE".toList := by decide
  cases m with
  | values x =>
    have := values_line hn "VALUE".toList x c (kw hn "VALUE" (by decide)) hc
    rw [show x.length = 2 from hm] at this
    simp only [readBounds, h0, bind, Except.bind, if_true, pure, Except.pure]
    simp only [Param.words, this]
  | file f =>
    have h1 := item_line hn ["FILE".toList, f] c (by simpa using ⟨kw hn "FILE" (by decide), hm.2⟩)
      (by simp) hc 1 _ rfl
    simp only [readBounds, h0, bind, Except.bind, if_true, pure, Except.pure, n1, if_false]
    simp only [Param.words, h1]
  | default =>
    simp only [readBounds, h0, bind, Except.bind, pure, Except.pure, n2, if_false]

theorem norms_line (m : Param) (hm : m.Ok 5 true false) (c : Text) (hc : Comment c) :
    readNorms num (line (m.words wr) c) = .ok m := by
  have h0 := param_first hn m 5 true false hm c hc
  have n1 : "FILE".toList ≠ "VALUE".toList := by decide
  cases m with
  | values x =>
    have := values_line hn "VALUE".toList x c (kw hn "VALUE" (by decide)) hc
    rw [show x.length = 5 from hm] at this
    simp only [readNorms, h0, bind, Except.bind, if_true, pure, Except.pure]
    simp only [Param.words, this]
  | file f =>
    have h1 := item_line hn ["FILE".toList, f] c (by simpa using ⟨kw hn "FILE" (by decide), hm.2⟩)
      (by simp) hc 1 _ rfl
    simp only [readNorms, h0, bind, Except.bind, if_true, pure, Except.pure, n1, if_false]
    simp only [Param.words, h1]
  | default => cases hm

theorem eps_line (m : Param) (hm : m.Ok 2 false true) (c : Text) (hc : Comment c) :
    readEps num (line (m.words wr) c) = .ok m := by
  have h0 := param_first hn m 2 false true hm c hc
  have n2 : "DEFAULT".toList ≠ "VALUE".toList := by decide
  cases m with
  | values x =>
    have := values_line hn "VALUE".toList x c (kw hn "VALUE" (by decide)) hc
    rw [show x.length = 2 from hm] at this
    simp only [readEps, h0, bind, Except.bind, if_true, pure, Except.pure]
    simp only [Param.words, this]
  | file f => cases hm.1
  | default =>
    simp only [readEps, h0, bind, Except.bind, pure, Except.pure, n2, if_false, if_true]

/-- **C172**, input files. A file in the documented format, words being separated by one blank, with
any comments after them, is read as it was written: every file name, number and default goes to its
parameter, for gravity and for magnetics. (Partial: see `C172_violated_blanks`.) -/
theorem C172_read_partial (isMag : Bool) (i : Input) (hi : i.Ok isMag) (cs : List Text)
    (hc : ∀ c ∈ cs, Comment c) (hl : cs.length = (i.lines wr isMag).length) :
    read num isMag (List.zipWith line (i.lines wr isMag) cs) = .ok i := by
  obtain ⟨h1, h2, h3, h4, h5, h6, h6', h7, h8, h9, h10, h11⟩ := hi
  have name : ∀ (k : String) (f c : Text), (∀ x ∈ k.toList, isSep x = false) → Word f → Comment c →
      item (line [k.toList, f] c) 1 = .ok f := by
    intro k f c hk hf hc
    exact item_line hn [k.toList, f] c (by simpa using ⟨kw hn _ hk, hf⟩) (by simp) hc 1 _ rfl
  have chi : ∀ c, Comment c → readChi num (line ["VALUE".toList, wr i.chi] c) = .ok i.chi := by
    intro c hc
    have hk : Word "VALUE".toList := kw hn "VALUE" (by decide)
    have h0 := item_line hn ["VALUE".toList, wr i.chi] c (by simpa using ⟨hk, (hn i.chi).1⟩) (by simp) hc
      0 _ rfl
    have n1 : "VALUE".toList ≠ "DEFAULT".toList := by decide
    simp only [readChi, h0, bind, Except.bind, n1, if_false, if_true, value_line hn _ i.chi c hk hc]
  have alphas : ∀ c, Comment c → readAlphas num (line ("VALUE".toList :: i.alphas.map wr) c) =
      .ok i.alphas := by
    intro c hc
    have h0 := param_first hn (.values i.alphas) 4 false false h8 c hc
    have := values_line hn "VALUE".toList i.alphas c (kw hn "VALUE" (by decide)) hc
    rw [h8] at this
    simp only [Param.words] at h0
    simp only [readAlphas, h0, bind, Except.bind, if_true, this]
  cases isMag with
  | false =>
    simp only [Input.lines, Bool.false_eq_true, if_false, List.append_nil, List.cons_append,
      List.nil_append, List.length_cons, List.length_nil] at hl
    match cs, hl, hc with
    | [c0, c1, c2, c3, c4, c5, c6, c7, c8, c9, c10], _, hc =>
      simp only [List.mem_cons, List.not_mem_nil, or_false, forall_eq_or_imp, forall_eq] at hc
      obtain ⟨k0, k1, k2, k3, k4, k5, k6, k7, k8, k9, k10⟩ := hc
      have hm : i.mag = none := h6' rfl
      simp only [read, Input.lines, Bool.false_eq_true, if_false, List.append_nil, List.cons_append,
        List.nil_append, List.zipWith_cons_cons, List.getD_cons_zero, List.getD_cons_succ,
        Nat.add_zero]
      rw [name "MESH" _ _ (by decide) h1 k0, name "OBS" _ _ (by decide) h2 k1, cells_line hn _ h3 _ k2,
        model_line hn _ h4 _ k3, model_line hn _ h5 _ k4, file_line hn _ h7 _ k5, chi _ k6, alphas _ k7,
        bounds_line hn _ h9 _ k8, norms_line hn _ h10 _ k9, eps_line hn _ h11 _ k10]
      simp only [bind, Except.bind, pure, Except.pure]
      rw [← hm]
  | true =>
    simp only [Input.lines, if_true, List.cons_append,
      List.nil_append, List.length_cons, List.length_nil] at hl
    match cs, hl, hc with
    | [c0, c1, c2, c3, c4, cm, c5, c6, c7, c8, c9, c10], _, hc =>
      simp only [List.mem_cons, List.not_mem_nil, or_false, forall_eq_or_imp, forall_eq] at hc
      obtain ⟨k0, k1, k2, k3, k4, km, k5, k6, k7, k8, k9, k10⟩ := hc
      simp only [read, Input.lines, if_true, List.cons_append,
        List.nil_append, List.zipWith_cons_cons, List.getD_cons_zero, List.getD_cons_succ,
        Nat.reduceAdd]
      rw [name "MESH" _ _ (by decide) h1 k0, name "OBS" _ _ (by decide) h2 k1, cells_line hn _ h3 _ k2,
        model_line hn _ h4 _ k3, model_line hn _ h5 _ k4, file_line hn _ h6 _ km, file_line hn _ h7 _ k5,
        chi _ k6, alphas _ k7,
        bounds_line hn _ h9 _ k8, norms_line hn _ h10 _ k9, eps_line hn _ h11 _ k10]
      simp only [bind, Except.bind, pure, Except.pure]

end

/-- **C172**, defaults. `DEFAULT` gives a factor of one, four ones as weights, no file of weights and no
thresholds; bounds are unlimited with every keyword but `VALUE` and `FILE`, and cells are not
restricted with every keyword but `TOPO`, `VALUE` and `FILE`. -/
theorem C172_defaults (num : Text → Option ℝ) (c w : Text) (hc : Comment c) (hw : Word w) :
    readChi num ("DEFAULT".toList ++ c) = .ok 1 ∧
    readAlphas num ("DEFAULT".toList ++ c) = .ok [1, 1, 1, 1] ∧
    readFile ("DEFAULT".toList ++ c) = .ok none ∧
    readEps num ("DEFAULT".toList ++ c) = .ok .default ∧
    (w ∉ ["VALUE".toList, "FILE".toList] → readBounds num (w ++ c) = .ok .default) ∧
    (w ∉ ["TOPO".toList, "VALUE".toList, "FILE".toList] → readCells num (w ++ c) = .ok .none) := by
  obtain ⟨x, r, rfl, hx⟩ := hc
  have p : ∀ w : Text, Word w → item (w ++ x :: r) 0 = .ok w := by
    intro w hw
    simp [item, parts_word w r x hw (by simpa [isSep] using hx)]
  have d : Word "DEFAULT".toList := by unfold Word; decide
  have n : "DEFAULT".toList ≠ "VALUE".toList := by decide
  refine ⟨?_, ?_, ?_, ?_, ?_, ?_⟩
  · simp only [readChi, p _ d, bind, Except.bind, if_true, pure, Except.pure]
  · simp only [readAlphas, p _ d, bind, Except.bind, if_true, if_neg n, pure, Except.pure]
  · simp only [readFile, p _ d, bind, Except.bind, if_true, pure, Except.pure]
  · simp only [readEps, p _ d, bind, Except.bind, if_true, if_neg n, pure, Except.pure]
  · intro h
    simp only [List.mem_cons, List.not_mem_nil, or_false, not_or] at h
    simp only [readBounds, p _ hw, bind, Except.bind, if_neg h.1, if_neg h.2, pure, Except.pure]
  · intro h
    simp only [List.mem_cons, List.not_mem_nil, or_false, not_or] at h
    simp only [readCells, p _ hw, bind, Except.bind, if_neg h.1, if_neg h.2.1, if_neg h.2.2, pure,
      Except.pure]

/-- **C172** fails for other keywords: on the lines of models, weights, factor, weights of terms, norms
and thresholds a keyword that is not listed is an exception of the interpreter, `DEFAULT` for the
norms included. -/
theorem C172_violated_keyword (num : Text → Option ℝ) (c w : Text) (hc : Comment c) (hw : Word w)
    (h1 : w ≠ "VALUE".toList) (h2 : w ≠ "FILE".toList) :
    readModel num (w ++ c) = .error .exception ∧ readNorms num (w ++ c) = .error .exception ∧
    (w ≠ "DEFAULT".toList → readFile (w ++ c) = .error .exception ∧
      readChi num (w ++ c) = .error .exception ∧ readAlphas num (w ++ c) = .error .exception ∧
      readEps num (w ++ c) = .error .exception) := by
  obtain ⟨x, r, rfl, hx⟩ := hc
  have p : item (w ++ x :: r) 0 = .ok w := by simp [item, parts_word w r x hw (by simpa [isSep] using hx)]
  refine ⟨?_, ?_, fun h3 => ⟨?_, ?_, ?_, ?_⟩⟩
  · simp only [readModel, p, bind, Except.bind, if_neg h1, if_neg h2]
  · simp only [readNorms, p, bind, Except.bind, if_neg h1, if_neg h2]
  · simp only [readFile, p, bind, Except.bind, if_neg h2, if_neg h3]
  · simp only [readChi, p, bind, Except.bind, if_neg h1, if_neg h3]
  · simp only [readAlphas, p, bind, Except.bind, if_neg h1, if_neg h3]
  · simp only [readEps, p, bind, Except.bind, if_neg h1, if_neg h3]

/-- **C172** fails with two blanks after a keyword: the name of a file is read as empty, a number is
refused. -/
theorem C172_violated_blanks (num : Text → Option ℝ) (hnum : num [] = none) (w c : Text) (hw : Word w)
    (hc : Comment c) :
    readModel num ("FILE  ".toList ++ (w ++ c)) = .ok (.file []) ∧
    readModel num ("VALUE  ".toList ++ (w ++ c)) = .error .valueError := by
  have p : ∀ k : String, (∀ x ∈ k.toList, isSep x = false) →
      parts (k.toList ++ ' ' :: (' ' :: (w ++ c))) = k.toList :: [] :: parts (w ++ c) := by
    intro k hk
    rw [parts_word _ _ ' ' ((word_iff _).2 hk) (by decide)]
    have := parts_word [] (w ++ c) ' ' (by simp [Word]) (by decide)
    rw [List.nil_append] at this
    rw [this]
  have p1 : parts ("FILE  ".toList ++ (w ++ c)) = "FILE".toList :: [] :: parts (w ++ c) :=
    p "FILE" (by decide)
  have p2 : parts ("VALUE  ".toList ++ (w ++ c)) = "VALUE".toList :: [] :: parts (w ++ c) :=
    p "VALUE" (by decide)
  have ne : "FILE".toList ≠ "VALUE".toList := by decide
  constructor
  · simp only [readModel, item, p1, List.getElem?_cons_zero, List.getElem?_cons_succ, bind, Except.bind,
      if_neg ne, if_true, pure, Except.pure]
  · simp only [readModel, item, value, p2, List.getElem?_cons_zero, List.getElem?_cons_succ, bind,
      Except.bind, if_true, hnum]

/-! ## Properties computed when first asked for -/

inductive Fail
  | recursion
  | attribute
  deriving DecidableEq

/-- The settings: driver for magnetics or gravity, number of cells of the mesh, active cells found from
the topography, the third line otherwise, starting and reference model, contents of model files. -/
structure Cfg where
  mag : Bool
  n : ℕ
  topo : Option (List Bool)
  static : Option Model
  start : Model
  ref : Model
  file : Text → List ℝ

/-- What is stored: `_mesh`, `_activeCells`, `_nC`, `_m0`, `_mref`, `_activeModel`. (Lists of static and
dynamic cells are not stored here; they depend on stored values only.) -/
structure St where
  mesh : Bool
  active : Option (List Bool)
  nC : Option ℕ
  m0 : Option (List ℝ)
  mref : Option (List ℝ)
  model : Option (List ℝ)

def init : St := ⟨false, none, none, none, none, none⟩

/-- Entries at the active cells. -/
def pick {α : Type} (l : List α) (a : List Bool) : List α :=
  (l.zip a).filterMap fun p => if p.2 then some p.1 else none

/-- Whether the file of active cells is read: `gravity_driver.py` 259 asks whether its name is a
string, `magnetics_driver.py` 274 whether the name is `FILE`. -/
def reads (c : Cfg) : Option Text :=
  match c.static with
  | some (.file f) => if c.mag then (if f = "FILE".toList then some f else none) else some f
  | _ => none

/-- `activeModel`, `gravity_driver.py` 256-268, `magnetics_driver.py` 271-283; without a file it needs
the stored mesh. -/
def activeModel (c : Cfg) (s : St) : Except Fail (List ℝ × St) :=
  match s.model with
  | some m => .ok (m, s)
  | none =>
    match reads c with
    | some f => .ok (c.file f, { s with mesh := true, model := some (c.file f) })
    | none =>
      if s.mesh then .ok (List.replicate c.n 1, { s with model := some (List.replicate c.n 1) })
      else .error .attribute

mutual
/-- `m0`, `gravity_driver.py` 232-242. The first argument is the depth of calls that is left. -/
def m0 (c : Cfg) : ℕ → St → Except Fail (List ℝ × St)
  | 0, _ => .error .recursion
  | k + 1, s =>
    match s.m0 with
    | some m => .ok (m, s)
    | none =>
      match c.start with
      | .value x => match nC c k s with
        | .ok (n, s') => .ok (List.replicate n x, { s' with m0 := some (List.replicate n x) })
        | .error e => .error e
      | .file f => .ok (c.file f, { s with mesh := true, m0 := some (c.file f) })

/-- `nC`, `gravity_driver.py` 226-230. -/
def nC (c : Cfg) : ℕ → St → Except Fail (ℕ × St)
  | 0, _ => .error .recursion
  | k + 1, s =>
    match s.nC with
    | some n => .ok (n, s)
    | none => match activeCells c k s with
      | .ok (a, s') => .ok (a.length, { s' with nC := some a.length })
      | .error e => .error e

/-- `activeCells`, `gravity_driver.py` 180-201. -/
def activeCells (c : Cfg) : ℕ → St → Except Fail (List Bool × St)
  | 0, _ => .error .recursion
  | k + 1, s =>
    match s.active with
    | some a => .ok (a, s)
    | none =>
      let r : Except Fail (List Bool × St) :=
        match c.topo with
        | some a => .ok (a, { s with mesh := true })
        | none => match c.static with
          | some (.value v) => match m0 c k s with
            | .ok (m, s') => .ok (m.map fun x => decide (x ≠ v), s')
            | .error e => .error e
          | _ => match activeModel c s with
            | .ok (m, s') => .ok (m.map fun x => decide (x ≠ 0), s')
            | .error e => .error e;
      match r with
      | .error e => .error e
      | .ok (a, s1) =>
        match m0 c k { s1 with active := some a } with
        | .error e => .error e
        | .ok (m, s2) => .ok (a, if a.length < m.length then { s2 with m0 := some (pick m a) } else s2)
end

/-- `mref`, `gravity_driver.py` 244-254. -/
def mref (c : Cfg) (k : ℕ) (s : St) : Except Fail (List ℝ × St) :=
  match s.mref with
  | some m => .ok (m, s)
  | none =>
    match c.ref with
    | .value x => match nC c k s with
      | .ok (n, s') => .ok (List.replicate n x, { s' with mref := some (List.replicate n x) })
      | .error e => .error e
    | .file f => match activeCells c k { s with mesh := true } with
      | .ok (a, s') => .ok (pick (c.file f) a, { s' with mref := some (pick (c.file f) a) })
      | .error e => .error e

/-- Numbers of the entries with a value. -/
def indices (l : List ℝ) (v : ℝ) : List ℕ := (List.range l.length).filter fun i => decide (l.getD i 0 = v)

/-- `staticCells` (value -1) and `dynamicCells` (value 1), `gravity_driver.py` 203-224, which uses the
stored active cells, `magnetics_driver.py` 214-236, which asks for them. -/
def cellsOf (c : Cfg) (v : ℝ) (k : ℕ) (s : St) : Except Fail (List ℕ × St) :=
  match activeModel c s with
  | .error e => .error e
  | .ok (m, s1) =>
    if c.mag then
      match activeCells c k s1 with
      | .ok (a, s2) => .ok (indices (pick m a) v, s2)
      | .error e => .error e
    else match s1.active with
      | some a => .ok (indices (pick m a) v, s1)
      | none => .error .attribute

/-! ## Specification of the properties -/

/-- The starting model on all cells of the mesh. -/
def start' (c : Cfg) : List ℝ :=
  match c.start with
  | .value x => List.replicate c.n x
  | .file f => c.file f

/-- Markers of cells: those of the file the driver reads, or one everywhere. -/
def marks (c : Cfg) : List ℝ :=
  match reads c with
  | some f => c.file f
  | none => List.replicate c.n 1

/-- The active cells: below the topography; where the starting model has not the given value; or where
the marker is not zero. -/
def active' (c : Cfg) : List Bool :=
  match c.topo with
  | some a => a
  | none => match c.static with
    | some (.value v) => (start' c).map fun x => decide (x ≠ v)
    | _ => (marks c).map fun x => decide (x ≠ 0)

/-- The reference model. -/
def ref' (c : Cfg) : List ℝ :=
  match c.ref with
  | .value x => List.replicate c.n x
  | .file f => pick (c.file f) (active' c)

/-- Models of files and cells of the topography fit the mesh. -/
def Fits (c : Cfg) : Prop := (∀ f, (c.file f).length = c.n) ∧ ∀ a ∈ c.topo, a.length = c.n

/-- Active cells and starting model are not both given by values. -/
def NoLoop (c : Cfg) : Prop := ¬ (c.topo = none ∧ (∃ v, c.static = some (.value v)) ∧ ∃ x, c.start = .value x)

/-- What is stored is right. -/
structure Inv (c : Cfg) (s : St) : Prop where
  mesh : s.mesh = true
  active : ∀ a ∈ s.active, a = active' c
  nC : ∀ n ∈ s.nC, n = c.n
  m0 : ∀ m ∈ s.m0, m = start' c
  mref : ∀ m ∈ s.mref, m = ref' c
  model : ∀ m ∈ s.model, m = marks c

theorem start_length {c : Cfg} (h : Fits c) : (start' c).length = c.n := by
  unfold start'
  cases c.start with
  | value x => simp
  | file f => exact h.1 f

theorem marks_length {c : Cfg} (h : Fits c) : (marks c).length = c.n := by
  unfold marks
  cases reads c with
  | none => simp
  | some f => exact h.1 f

theorem active_length {c : Cfg} (h : Fits c) : (active' c).length = c.n := by
  unfold active'
  cases hT : c.topo with
  | some a => exact h.2 a hT
  | none =>
    cases c.static with
    | none => simp [marks_length h]
    | some m => cases m <;> simp [marks_length h, start_length h]

theorem model_ok {c : Cfg} {s : St} (i : Inv c s) :
    ∃ s', activeModel c s = .ok (marks c, s') ∧ Inv c s' ∧ s'.active = s.active := by
  unfold activeModel
  cases hm : s.model with
  | some m => exact ⟨s, by rw [i.model m hm], i, rfl⟩
  | none =>
    cases hr : reads c with
    | some f =>
      have e : marks c = c.file f := by simp [marks, hr]
      refine ⟨{ s with mesh := true, model := some (marks c) }, by simp only [e],
        ⟨rfl, i.active, i.nC, i.m0, i.mref, ?_⟩, rfl⟩
      intro m hm
      cases hm
      rfl
    | none =>
      have e : marks c = List.replicate c.n 1 := by simp [marks, hr]
      refine ⟨{ s with model := some (marks c) }, by simp only [i.mesh, if_true, e],
        ⟨i.mesh, i.active, i.nC, i.m0, i.mref, ?_⟩, rfl⟩
      intro m hm
      cases hm
      rfl

/-- With known active cells. -/
theorem nC_known {c : Cfg} (h : Fits c) {s : St} (i : Inv c s) {a : List Bool} (ha : s.active = some a)
    (k : ℕ) : ∃ s', nC c (k + 2) s = .ok (c.n, s') ∧ Inv c s' ∧ s'.active = some a := by
  rw [nC]
  cases hn : s.nC with
  | some n => exact ⟨s, by rw [i.nC n hn], i, ha⟩
  | none =>
    have hl : a.length = c.n := by rw [i.active a ha, active_length h]
    refine ⟨{ s with nC := some c.n }, ?_, ⟨i.mesh, i.active, ?_, i.m0, i.mref, i.model⟩, ha⟩
    · rw [activeCells]
      simp only [ha, hl]
    · intro n hn
      cases hn
      rfl

theorem m0_known {c : Cfg} (h : Fits c) {s : St} (i : Inv c s) {a : List Bool} (ha : s.active = some a)
    (k : ℕ) : ∃ s', m0 c (k + 3) s = .ok (start' c, s') ∧ Inv c s' ∧ s'.active = some a := by
  rw [m0]
  cases hm : s.m0 with
  | some m => exact ⟨s, by rw [i.m0 m hm], i, ha⟩
  | none =>
    cases hs : c.start with
    | value x =>
      obtain ⟨s', e, i', ha'⟩ := nC_known h i ha k
      have e' : start' c = List.replicate c.n x := by simp [start', hs]
      refine ⟨{ s' with m0 := some (start' c) }, ?_, ⟨i'.mesh, i'.active, i'.nC, ?_, i'.mref, i'.model⟩, ha'⟩
      · rw [e]
        simp only [← e']
      · intro m hm
        cases hm
        rfl
    | file f =>
      have e' : start' c = c.file f := by simp [start', hs]
      refine ⟨{ s with mesh := true, m0 := some (start' c) }, by simp only [← e'],
        ⟨rfl, i.active, i.nC, ?_, i.mref, i.model⟩, ha⟩
      intro m hm
      cases hm
      rfl

theorem active_ok {c : Cfg} (h : Fits c) (hl : NoLoop c) {s : St} (i : Inv c s) (k : ℕ) :
    ∃ s', activeCells c (k + 4) s = .ok (active' c, s') ∧ Inv c s' ∧ s'.active = some (active' c) := by
  rw [activeCells]
  cases ha : s.active with
  | some a =>
    have := i.active a ha
    subst this
    exact ⟨s, rfl, i, ha⟩
  | none =>
    have first : ∃ s1, (match c.topo with
        | some a => (.ok (a, { s with mesh := true }) : Except Fail (List Bool × St))
        | none => match c.static with
          | some (.value v) => match m0 c (k + 3) s with
            | .ok (m, s') => .ok (m.map fun x => decide (x ≠ v), s')
            | .error e => .error e
          | _ => match activeModel c s with
            | .ok (m, s') => .ok (m.map fun x => decide (x ≠ 0), s')
            | .error e => .error e) = .ok (active' c, s1) ∧ Inv c s1 := by
      cases hT : c.topo with
      | some a =>
        exact ⟨{ s with mesh := true }, by simp only [active', hT],
          ⟨rfl, i.active, i.nC, i.m0, i.mref, i.model⟩⟩
      | none =>
        have other : (∀ v, c.static ≠ some (.value v)) → ∃ s1,
            (match activeModel c s with
              | .ok (m, s') => (.ok (m.map fun x => decide (x ≠ 0), s') : Except Fail (List Bool × St))
              | .error e => .error e) = .ok (active' c, s1) ∧ Inv c s1 := by
          intro hv
          obtain ⟨s1, e, i1, -⟩ := model_ok i
          refine ⟨s1, ?_, i1⟩
          rw [e]
          have : active' c = (marks c).map fun x => decide (x ≠ 0) := by
            unfold active'
            rw [hT]
            cases hs : c.static with
            | none => rfl
            | some m =>
              cases m with
              | value v => exact absurd hs (hv v)
              | file f => rfl
          rw [this]
        cases hs : c.static with
        | none => exact other (by simp [hs])
        | some m =>
          cases m with
          | file f => exact other (by simp [hs])
          | value v =>
            cases hst : c.start with
            | value x => exact absurd ⟨hT, ⟨v, hs⟩, x, hst⟩ hl
            | file f =>
              have e' : start' c = c.file f := by simp [start', hst]
              have ea : active' c = (start' c).map fun x => decide (x ≠ v) := by simp [active', hT, hs]
              cases hm : s.m0 with
              | some m =>
                refine ⟨s, ?_, i⟩
                simp only [m0, hm, i.m0 m hm, ea]
              | none =>
                refine ⟨{ s with mesh := true, m0 := some (start' c) }, ?_,
                  ⟨rfl, i.active, i.nC, ?_, i.mref, i.model⟩⟩
                · simp only [m0, hm, hst, ea, e']
                · intro m hm
                  cases hm
                  rfl
    obtain ⟨s1, e1, i1⟩ := first
    have i2 : Inv c { s1 with active := some (active' c) } :=
      ⟨i1.mesh, by intro a ha; cases ha; rfl, i1.nC, i1.m0, i1.mref, i1.model⟩
    obtain ⟨s3, e3, i3, a3⟩ := m0_known h i2 rfl k
    refine ⟨s3, ?_, i3, a3⟩
    rw [ha] at e1
    dsimp only
    rw [e1]
    simp only [e3]
    rw [if_neg (by rw [active_length h, start_length h]; omega)]

theorem nC_ok {c : Cfg} (h : Fits c) (hl : NoLoop c) {s : St} (i : Inv c s) (k : ℕ) :
    ∃ s', nC c (k + 5) s = .ok (c.n, s') ∧ Inv c s' ∧ (∀ a, s.active = some a → s'.active = some a) := by
  rw [nC]
  cases hn : s.nC with
  | some n => exact ⟨s, by rw [i.nC n hn], i, fun _ h => h⟩
  | none =>
    obtain ⟨s', e, i', a'⟩ := active_ok h hl i k
    refine ⟨{ s' with nC := some c.n }, by rw [e]; simp only [active_length h],
      ⟨i'.mesh, i'.active, ?_, i'.m0, i'.mref, i'.model⟩, ?_⟩
    · intro n hn
      cases hn
      rfl
    · intro a ha
      rw [show a = active' c from i.active a ha]
      exact a'

theorem m0_ok {c : Cfg} (h : Fits c) (hl : NoLoop c) {s : St} (i : Inv c s) (k : ℕ) :
    ∃ s', m0 c (k + 6) s = .ok (start' c, s') ∧ Inv c s' ∧ (∀ a, s.active = some a → s'.active = some a) := by
  rw [m0]
  cases hm : s.m0 with
  | some m => exact ⟨s, by rw [i.m0 m hm], i, fun _ h => h⟩
  | none =>
    cases hs : c.start with
    | value x =>
      obtain ⟨s', e, i', ha'⟩ := nC_ok h hl i k
      have e' : start' c = List.replicate c.n x := by simp [start', hs]
      refine ⟨{ s' with m0 := some (start' c) }, ?_, ⟨i'.mesh, i'.active, i'.nC, ?_, i'.mref, i'.model⟩, ha'⟩
      · rw [e]
        simp only [← e']
      · intro m hm
        cases hm
        rfl
    | file f =>
      have e' : start' c = c.file f := by simp [start', hs]
      refine ⟨{ s with mesh := true, m0 := some (start' c) }, by simp only [← e'],
        ⟨rfl, i.active, i.nC, ?_, i.mref, i.model⟩, fun _ h => h⟩
      intro m hm
      cases hm
      rfl

theorem mref_ok {c : Cfg} (h : Fits c) (hl : NoLoop c) {s : St} (i : Inv c s) (k : ℕ) :
    ∃ s', mref c (k + 5) s = .ok (ref' c, s') ∧ Inv c s' ∧ (∀ a, s.active = some a → s'.active = some a) := by
  unfold mref
  cases hm : s.mref with
  | some m => exact ⟨s, by rw [i.mref m hm], i, fun _ h => h⟩
  | none =>
    cases hs : c.ref with
    | value x =>
      obtain ⟨s', e, i', ha'⟩ := nC_ok h hl i k
      have e' : ref' c = List.replicate c.n x := by simp [ref', hs]
      refine ⟨{ s' with mref := some (ref' c) }, ?_, ⟨i'.mesh, i'.active, i'.nC, i'.m0, ?_, i'.model⟩, ha'⟩
      · rw [e]
        simp only [← e']
      · intro m hm
        cases hm
        rfl
    | file f =>
      have i0 : Inv c { s with mesh := true } := ⟨rfl, i.active, i.nC, i.m0, i.mref, i.model⟩
      obtain ⟨s', e, i', a'⟩ := active_ok h hl i0 (k + 1)
      have e' : ref' c = pick (c.file f) (active' c) := by simp [ref', hs]
      refine ⟨{ s' with mref := some (ref' c) }, ?_, ⟨i'.mesh, i'.active, i'.nC, i'.m0, ?_, i'.model⟩, ?_⟩
      · simp only [show k + 5 = k + 1 + 4 from rfl]
        have e2 : activeCells c (k + 1 + 4) ⟨true, s.active, s.nC, s.m0, none, s.model⟩ =
            .ok (active' c, s') := by
          rw [← hm]
          exact e
        rw [e2]
        simp only [e']
      · intro m hm
        cases hm
        rfl
      · intro a ha
        rw [show a = active' c from i.active a ha]
        exact a'

/-- The cells with a marker. -/
def marked (l : List ℝ) (v : ℝ) : List ℕ := (List.range l.length).filter fun i => decide (l[i]? = some v)

theorem indices_eq (l : List ℝ) (v : ℝ) : indices l v = marked l v := by
  unfold indices marked
  refine List.filter_congr fun i hi => ?_
  have hi := List.mem_range.1 hi
  rw [List.getD_eq_getElem?_getD, List.getElem?_eq_getElem hi]
  simp

theorem cells_ok {c : Cfg} (h : Fits c) (hl : NoLoop c) {s : St} (i : Inv c s) (v : ℝ) (k : ℕ)
    (ha : c.mag = false → s.active ≠ none) :
    ∃ s', cellsOf c v (k + 4) s = .ok (marked (pick (marks c) (active' c)) v, s') ∧ Inv c s' ∧
      (∀ a, s.active = some a → s'.active = some a) := by
  obtain ⟨s1, e1, i1, a1⟩ := model_ok i
  unfold cellsOf
  rw [e1]
  cases hm : c.mag with
  | true =>
    obtain ⟨s2, e2, i2, a2⟩ := active_ok h hl i1 k
    refine ⟨s2, by simp only [if_true, e2, indices_eq], i2, fun a ha => ?_⟩
    rw [show a = active' c from i.active a ha]
    exact a2
  | false =>
    obtain ⟨a, ha'⟩ := Option.ne_none_iff_exists'.1 (ha hm)
    refine ⟨s1, ?_, i1, fun b hb => by rw [a1, hb]⟩
    simp only [Bool.false_eq_true, if_false]
    rw [a1, ha']
    simp only [i.active a ha', indices_eq]

/-- Properties a user asks for. -/
inductive Ask
  | active | nC | m0 | mref | static | dynamic

inductive Val
  | cells (a : List Bool)
  | num (n : ℕ)
  | model (m : List ℝ)
  | inds (l : List ℕ)
  deriving DecidableEq

/-- The answer, with a depth of calls of `k`. -/
def answer (c : Cfg) (k : ℕ) : Ask → St → Except Fail (Val × St)
  | .active, s => (activeCells c k s).map fun r => (.cells r.1, r.2)
  | .nC, s => (nC c k s).map fun r => (.num r.1, r.2)
  | .m0, s => (m0 c k s).map fun r => (.model r.1, r.2)
  | .mref, s => (mref c k s).map fun r => (.model r.1, r.2)
  | .static, s => (cellsOf c (-1) k s).map fun r => (.inds r.1, r.2)
  | .dynamic, s => (cellsOf c 1 k s).map fun r => (.inds r.1, r.2)

/-- The answer wanted. -/
def wanted (c : Cfg) : Ask → Val
  | .active => .cells (active' c)
  | .nC => .num c.n
  | .m0 => .model (start' c)
  | .mref => .model (ref' c)
  | .static => .inds (marked (pick (marks c) (active' c)) (-1))
  | .dynamic => .inds (marked (pick (marks c) (active' c)) 1)

def answers (c : Cfg) (k : ℕ) : List Ask → St → Except Fail (List Val)
  | [], _ => .ok []
  | q :: qs, s => match answer c k q s with
    | .error e => .error e
    | .ok (v, s') => (answers c k qs s').map fun vs => v :: vs

/-- **C172**, properties. Once the mesh and then the active cells have been asked for, all properties
have the values they should have, in any order and however often they are asked for. (Partial: see
`C172_violated_loop`, `C172_violated_order`, `C172_violated_reduced`, `C172_violated_marks`.) -/
theorem C172_history_partial {c : Cfg} (h : Fits c) (hl : NoLoop c) (k : ℕ) (hk : 6 ≤ k) (qs : List Ask) :
    answers c k (.active :: qs) { init with mesh := true } = .ok (wanted c .active :: qs.map (wanted c)) := by
  obtain ⟨k, rfl⟩ : ∃ j, k = j + 6 := ⟨k - 6, by omega⟩
  have i0 : Inv c { init with mesh := true } := by
    refine ⟨rfl, ?_, ?_, ?_, ?_, ?_⟩ <;> simp [init]
  have go : ∀ qs s, Inv c s → s.active ≠ none →
      answers c (k + 6) qs s = .ok (qs.map (wanted c)) := by
    intro qs
    induction qs with
    | nil => exact fun _ _ _ => rfl
    | cons q qs ih =>
      intro s i ha
      obtain ⟨a, ha'⟩ := Option.ne_none_iff_exists'.1 ha
      have one : ∃ s', answer c (k + 6) q s = .ok (wanted c q, s') ∧ Inv c s' ∧ s'.active ≠ none := by
        cases q with
        | active =>
          obtain ⟨s', e, i', a'⟩ := active_ok h hl i (k + 2)
          exact ⟨s', by simp [answer, e, Except.map, wanted], i', by simp [a']⟩
        | nC =>
          obtain ⟨s', e, i', a'⟩ := nC_ok h hl i (k + 1)
          exact ⟨s', by simp [answer, e, Except.map, wanted], i', by simp [a' a ha']⟩
        | m0 =>
          obtain ⟨s', e, i', a'⟩ := m0_ok h hl i k
          exact ⟨s', by simp [answer, e, Except.map, wanted], i', by simp [a' a ha']⟩
        | mref =>
          obtain ⟨s', e, i', a'⟩ := mref_ok h hl i (k + 1)
          exact ⟨s', by simp [answer, e, Except.map, wanted], i', by simp [a' a ha']⟩
        | static =>
          obtain ⟨s', e, i', a'⟩ := cells_ok h hl i (-1) (k + 2) fun _ => ha
          exact ⟨s', by simp [answer, e, Except.map, wanted], i', by simp [a' a ha']⟩
        | dynamic =>
          obtain ⟨s', e, i', a'⟩ := cells_ok h hl i 1 (k + 2) fun _ => ha
          exact ⟨s', by simp [answer, e, Except.map, wanted], i', by simp [a' a ha']⟩
      obtain ⟨s', e, i', ha2⟩ := one
      simp only [answers, e, ih s' i' ha2, Except.map, List.map_cons]
  obtain ⟨s', e, i', a'⟩ := active_ok h hl i0 (k + 2)
  simp only [answers, answer, e, Except.map]
  rw [go qs s' i' (by simp [a'])]
  rfl

/-- **C172** fails if active cells and starting model are given by values: whatever is asked first, and
however deep calls may go, there is a `RecursionError`. -/
theorem C172_violated_loop {c : Cfg} (hT : c.topo = none) {v x : ℝ} (hs : c.static = some (.value v))
    (hm : c.start = .value x) (k : ℕ) (mesh : Bool) :
    activeCells c k { init with mesh := mesh } = .error .recursion ∧
    m0 c k { init with mesh := mesh } = .error .recursion ∧
    nC c k { init with mesh := mesh } = .error .recursion := by
  induction k with
  | zero => exact ⟨rfl, rfl, rfl⟩
  | succ k ih =>
    obtain ⟨h1, h2, h3⟩ := ih
    refine ⟨?_, ?_, ?_⟩
    · rw [activeCells]
      simp only [init, hT, hs]
      rw [show (⟨mesh, none, none, none, none, none⟩ : St) = { init with mesh := mesh } from rfl, h2]
    · rw [m0]
      simp only [init, hm]
      rw [show (⟨mesh, none, none, none, none, none⟩ : St) = { init with mesh := mesh } from rfl, h3]
    · rw [nC]
      simp only [init]
      rw [show (⟨mesh, none, none, none, none, none⟩ : St) = { init with mesh := mesh } from rfl, h1]

/-- **C172** fails for the order of questions: without topography and file of active cells, active
cells cannot be asked for before the mesh; with the driver for gravity, static and dynamic cells
cannot be asked for before the active cells. -/
theorem C172_violated_order {c : Cfg} (hr : reads c = none) (hT : c.topo = none)
    (hs : ∀ v, c.static ≠ some (.value v)) (k : ℕ) (d : Cfg) (hd : d.mag = false) (v : ℝ) (mesh : Bool) :
    activeCells c (k + 1) init = .error .attribute ∧
    cellsOf d v k { init with mesh := mesh } = .error .attribute := by
  constructor
  · have hm : activeModel c init = .error .attribute := by simp [activeModel, init, hr]
    rw [activeCells]
    rw [show init.active = none from rfl]
    cases h : c.static with
    | none => simp only [hT, hm]
    | some m =>
      cases m with
      | value v => exact absurd h (hs v)
      | file f => simp only [hT, hm]
  · unfold cellsOf activeModel
    cases hr : reads d with
    | some f => simp [init, hd]
    | none => cases mesh <;> simp [init, hd]

/-- **C172** fails for the size of models: the starting model is never reduced to the active cells, but
a reference model of a file is, so that their sizes differ as soon as a cell is not active. -/
theorem C172_violated_reduced {c : Cfg} (h : Fits c) (hl : NoLoop c) (f : Text) (hf : c.ref = .file f)
    (hi : false ∈ active' c) :
    ∃ m r, answers c 6 [.active, .m0, .mref] { init with mesh := true } =
      .ok [.cells (active' c), .model m, .model r] ∧ m.length = c.n ∧ r.length < c.n := by
  refine ⟨start' c, ref' c, C172_history_partial h hl 6 (le_refl _) [.m0, .mref], start_length h, ?_⟩
  have e : ref' c = pick (c.file f) (active' c) := by simp [ref', hf]
  rw [e]
  have key : ∀ (l : List ℝ) (a : List Bool), l.length = a.length → false ∈ a →
      (pick l a).length < a.length := by
    intro l
    induction l with
    | nil =>
      intro a ha hm
      cases a with
      | nil => simp at hm
      | cons b a => simp at ha
    | cons x l ih =>
      intro a ha hm
      cases a with
      | nil => simp at ha
      | cons b a =>
        simp only [List.length_cons, add_left_inj] at ha
        cases b with
        | false =>
          have : (pick l a).length ≤ a.length := by
            unfold pick
            refine (List.length_filterMap_le _ _).trans ?_
            simp
          simp only [pick, List.zip_cons_cons, List.length_cons]
          rw [List.filterMap_cons_none (by simp)]
          exact Nat.lt_succ_of_le this
        | true =>
          have hm' : false ∈ a := by simpa using hm
          have := ih a ha hm'
          simp only [pick, List.zip_cons_cons, List.length_cons]
          rw [List.filterMap_cons_some (b := x) (by simp), List.length_cons]
          exact Nat.succ_lt_succ this
  have := key (c.file f) (active' c) (by rw [h.1, active_length h]) hi
  rwa [active_length h] at this

/-- **C172** fails for magnetics: the file of active cells is never read unless its name is `FILE`; all
cells are active. -/
theorem C172_violated_marks {c : Cfg} (hm : c.mag = true) (h : Fits c) (hT : c.topo = none) (f : Text)
    (hf : c.static = some (.file f)) (hn : f ≠ "FILE".toList) (k : ℕ) :
    ∃ s', activeCells c (k + 4) { init with mesh := true } = .ok (List.replicate c.n true, s') := by
  have hl : NoLoop c := by
    rintro ⟨-, ⟨v, hv⟩, -⟩
    rw [hf] at hv
    cases hv
  have i0 : Inv c { init with mesh := true } := by
    refine ⟨rfl, ?_, ?_, ?_, ?_, ?_⟩ <;> simp [init]
  obtain ⟨s', e, -⟩ := active_ok h hl i0 k
  refine ⟨s', ?_⟩
  rw [e]
  have hr : reads c = none := by simp only [reads, hf, hm, if_true, if_neg hn]
  have : active' c = List.replicate c.n true := by
    simp [active', hT, hf, marks, hr]
  rw [this]

/-- **C172**, file of active cells. With the driver for gravity, without topography, the active cells
are those whose entry in the file of active cells is not zero; with neither file nor value every cell
is active. -/
theorem C172_active_file {c : Cfg} (h : Fits c) (hT : c.topo = none) (k : ℕ) :
    (∀ f, c.mag = false → c.static = some (.file f) → ∃ s', activeCells c (k + 4) { init with mesh := true } =
      .ok ((c.file f).map fun x => decide (x ≠ 0), s')) ∧
    (c.static = none → ∃ s', activeCells c (k + 4) { init with mesh := true } =
      .ok (List.replicate c.n true, s')) := by
  have i0 : Inv c { init with mesh := true } := by
    refine ⟨rfl, ?_, ?_, ?_, ?_, ?_⟩ <;> simp [init]
  constructor
  · intro f hm hf
    have hl : NoLoop c := by
      rintro ⟨-, ⟨v, hv⟩, -⟩
      rw [hf] at hv
      cases hv
    obtain ⟨s', e, -⟩ := active_ok h hl i0 k
    refine ⟨s', ?_⟩
    rw [e]
    have hr : reads c = some f := by simp [reads, hf, hm]
    have : active' c = (c.file f).map fun x => decide (x ≠ 0) := by
      simp only [active', hT, hf, marks, hr]
    rw [this]
  · intro hf
    have hl : NoLoop c := by
      rintro ⟨-, ⟨v, hv⟩, -⟩
      rw [hf] at hv
      cases hv
    obtain ⟨s', e, -⟩ := active_ok h hl i0 k
    refine ⟨s', ?_⟩
    rw [e]
    have hr : reads c = none := by simp [reads, hf]
    have : active' c = List.replicate c.n true := by
      simp [active', hT, hf, marks, hr]
    rw [this]

/-- **C172**, static and dynamic cells. With a file of markers 0, 1 and -1 and the driver for gravity,
every active cell is either static or dynamic, and no cell is both. -/
theorem C172_static_dynamic {c : Cfg} (i : ℕ) (hi : i < (pick (marks c) (active' c)).length)
    (hv : ∀ x ∈ marks c, x = 0 ∨ x = 1 ∨ x = -1)
    (ha : active' c = (marks c).map fun x => decide (x ≠ 0)) :
    (i ∈ marked (pick (marks c) (active' c)) (-1)) ↔ i ∉ marked (pick (marks c) (active' c)) 1 := by
  have hx : ∀ x ∈ pick (marks c) (active' c), x = 1 ∨ x = -1 := by
    intro x hx
    unfold pick at hx
    rw [ha] at hx
    obtain ⟨p, hp, h⟩ := List.mem_filterMap.1 hx
    have hz : (marks c).zip ((marks c).map fun x => decide (x ≠ 0)) =
        (marks c).map fun x => (x, decide (x ≠ 0)) := by
      generalize marks c = l
      induction l with
      | nil => rfl
      | cons a l ih => simp only [List.map_cons, List.zip_cons_cons, ih]
    rw [hz] at hp
    obtain ⟨y, hy, rfl⟩ := List.mem_map.1 hp
    by_cases h0 : y = 0
    · simp [h0] at h
    · simp [h0] at h
      subst h
      rcases hv y hy with h | h | h
      · exact absurd h h0
      · exact Or.inl h
      · exact Or.inr h
  have hg : (pick (marks c) (active' c)).getD i 0 = (pick (marks c) (active' c))[i] := by simp [hi]
  have := hx _ (List.getElem_mem hi)
  simp only [← indices_eq, indices, List.mem_filter, List.mem_range, hi, true_and, hg, decide_eq_true_eq]
  rcases this with h | h <;> rw [h] <;> norm_num

/-! ## Cases that meet the hypotheses -/

/-- A mesh of two cells with a file of active cells. -/
def sample : Cfg := ⟨false, 2, none, some (.file "act".toList), .value 0.1, .file "ref".toList,
  fun f => if f = "act".toList then [0, -1] else [3, 4]⟩

example : Fits sample ∧ NoLoop sample ∧ false ∈ active' sample ∧
    (∀ x ∈ marks sample, x = 0 ∨ x = 1 ∨ x = -1) := by
  refine ⟨⟨fun f => ?_, by simp [sample]⟩, ?_, ?_, ?_⟩
  · show (if f = "act".toList then ([0, -1] : List ℝ) else [3, 4]).length = 2
    split <;> rfl
  · rintro ⟨-, ⟨v, hv⟩, -⟩
    simp [sample] at hv
  · simp [active', sample, marks, reads]
  · simp [sample, marks, reads]

/-- A comment, and an input with all kinds of entries. -/
example : Comment " ! mesh\n".toList ∧ (⟨"m.msh".toList, "d.obs".toList, .topo "t.xyz".toList, .value 0,
    .file "r.den".toList, none, none, 1, [1, 1, 1, 1], .default, .values [2, 2, 2, 2, 2], .default⟩ :
      Input).Ok false := by
  refine ⟨⟨' ', _, rfl, Or.inr rfl⟩, ?_⟩
  have w : ∀ s ∈ ["m.msh", "d.obs", "t.xyz", "r.den"], ∀ c ∈ s.toList, c ≠ '!' ∧ c.isWhitespace = false := by
    decide
  refine ⟨w "m.msh" (by simp), w "d.obs" (by simp), w "t.xyz" (by simp), trivial, w "r.den" (by simp),
    by simp, by simp, by simp, rfl, rfl, rfl, rfl⟩

end Verif.IO.Drivers
