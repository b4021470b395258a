import Verif.Basic
import Mathlib.Data.List.SplitOn
import Mathlib.Data.Real.Basic
import Mathlib.Data.Sign.Basic
import Mathlib.Analysis.Real.Pi.Bounds
import Mathlib.LinearAlgebra.Matrix.Notation
import Mathlib.Tactic.FieldSimp
import Mathlib.Tactic.LinearCombination
import Mathlib.Tactic.Linarith
import Mathlib.Tactic.FinCases
import Mathlib.Tactic.NormNum

/-!
# Import of EDI files

Model of `EDIimporter` and its functions,
`/repo/simpeg/electromagnetics/natural_source/utils/edi_files_utils.py`. Lines and names are lists of
characters. Not modelled: reading of the files, `utm.from_latlon`, the list of stations, the masks.
-/

noncomputable section
namespace Verif.NSEM.Edi

/-- A line of a file, or a name. -/
abbrev Text := List Char

/-! ## Locations -/

/-- `_findLine`, `edi_files_utils.py` 155-170: numbers of the lines that contain the text. -/
def findLine (comp : Text) (lines : List Text) : List ℕ :=
  (List.range lines.length).filter fun i => decide (comp <:+: lines.getD i [])

/-- The degrees of a latitude or longitude from the numbers of `deg:min:sec`,
`edi_files_utils.py` 146-151. Fewer than three numbers are an `IndexError`. -/
def degrees : List ℝ → Except Err ℝ
  | d :: m :: s :: _ =>
    let sg := (SignType.sign d : ℝ);
    .ok (d + sg * m / 60 + sg * s / 3600)
  | _ => .error .indexError

/-! ## Blocks of numbers -/

/-- `str.split()`: the words of a line. -/
def words (l : Text) : List Text := (l.splitOnP Char.isWhitespace).filter fun w => !w.isEmpty

/-- Whether a text starts with something a pattern describes; in the pattern a dot stands for any
character but the end of a line. -/
def starts : Text → Text → Bool
  | [], _ => true
  | _ :: _, [] => false
  | p :: ps, c :: cs => (if p = '.' then c ≠ '\n' else p = c) && starts ps cs

/-- `re.search(comp, st)` for the names used here, whose only special character is the dot. -/
def search (comp : Text) : Text → Bool
  | [] => starts comp []
  | c :: cs => starts comp (c :: cs) || search comp cs

/-- The last part of a line after `//`, `headLine.split("//")[-1]`. -/
def afterSlashes : Text → Text
  | [] => []
  | '/' :: '/' :: r => if ['/', '/'] <:+: r then afterSlashes r else r
  | c :: r => if ['/', '/'] <:+: (c :: r) then afterSlashes r else c :: r

/-- The number of values a header announces, `edi_files_utils.py` 185-191. `int` parses a number. -/
def count (int : Text → Option ℕ) (head : Text) : Except Err ℕ :=
  if "NFREQ".toList <:+: head then
    match (head.splitOnP (· = '=')).tail.head? with
    | none => .error .indexError
    | some r =>
      match (words r).head? with
      | none => .error .indexError
      | some w => match int w with
        | some n => .ok n
        | none => .error .valueError
  else match int (afterSlashes head) with
    | some n => .ok n
    | none => .error .valueError

/-- The loop that collects words of the lines after the header, `edi_files_utils.py` 192-197; `got`
are those found so far. Beyond the last line there is an `IndexError`. -/
def collect (n : ℕ) : List Text → List Text → Except Err (List Text)
  | [], got => if got.length < n then .error .indexError else .ok got
  | l :: ls, got => if got.length < n then collect n ls (got ++ words l) else .ok got

/-- `_findEDIcomp`, `edi_files_utils.py` 173-198: the values after the first line that matches. `num`
parses a number. -/
def findComp (int : Text → Option ℕ) (num : Text → Option ℝ) (comp : Text) (lines : List Text) :
    Except Err (List ℝ) :=
  match lines.dropWhile fun l => !search comp l with
  | [] => .error .indexError
  | head :: rest => do
    let n ← count int head
    let ws ← collect n rest []
    ws.mapM fun w => match num w with
      | some x => .ok x
      | none => .error .valueError

/-! ## Components -/

/-- `comp.lower().replace(".", "")`. -/
def norm (c : Text) : Text := (c.map Char.toLower).filter fun x => x ≠ '.'

/-- `str.replace` of the two characters `a b` by `c d`. -/
def replace2 (a b c d : Char) : Text → Text
  | x :: y :: r => if x = a ∧ y = b then c :: d :: replace2 a b c d r else x :: replace2 a b c d (y :: r)
  | l => l

/-- `shift_list`, `edi_files_utils.py` 85. -/
def shifts : List ((Char × Char) × (Char × Char)) :=
  [(('x', 'x'), ('y', 'y')), (('x', 'y'), ('y', 'x')), (('y', 'x'), ('x', 'y')), (('y', 'y'), ('x', 'x'))]

/-- The field of a component, `edi_files_utils.py` 122-126; without one of the four pairs in its name
there is an `IndexError`. -/
def fieldOf (c : Text) : Except Err Text :=
  match (shifts.filter fun s => decide ([s.1.1, s.1.2] <:+: c.map Char.toLower)).head? with
  | some s => .ok (replace2 s.1.1 s.1.2 s.2.1 s.2.2 (norm c))
  | none => .error .indexError

/-- `_impUnitEDI2SI`, `edi_files_utils.py` 28. -/
def unit : ℝ := 4 * Real.pi * 1e-4

/-- `unitConvert`, `edi_files_utils.py` 116-119. -/
def convert (c : Text) : ℝ := if 'Z' ∈ c then unit else 1

/-- The components of `EDIimporter` by default, `edi_files_utils.py` 47-60. -/
def defaults : List Text := ["ZXXR", "ZXYR", "ZYXR", "ZYYR", "ZXXI", "ZXYI", "ZYXI", "ZYYI", "ZXX.VAR",
  "ZXY.VAR", "ZYX.VAR", "ZYY.VAR"].map String.toList

/-- Names of the fields of the record array, `edi_files_utils.py` 82-83, 87. -/
def fields (comps : List Text) : List Text :=
  ["freq".toList, ['x'], ['y'], ['z']] ++ comps.map norm

/-- One component of one file, `edi_files_utils.py` 115-127: the field has to exist and the values
have to be as many as the frequencies (or one). `none` is NaN. -/
def put (n : ℕ) (fs : List Text) (tab : Text → List (Option ℝ)) (k : Text) (vals : List ℝ) :
    Except Err (Text → List (Option ℝ)) :=
  if k ∈ fs then
    if vals.length = n then .ok (Function.update tab k (vals.map some))
    else match vals with
      | [v] => .ok (Function.update tab k (List.replicate n (some v)))
      | _ => .error .valueError
  else .error .valueError

/-- The records of one file, `edi_files_utils.py` 105-127, without the coordinates: the frequencies
and the fields. -/
def importFile (int : Text → Option ℕ) (num : Text → Option ℝ) (comps : List Text)
    (lines : List Text) : Except Err (List ℝ × (Text → List (Option ℝ))) := do
  let freq ← findComp int num ">FREQ".toList lines
  let tab ← comps.foldlM (fun tab c => do
    let k ← fieldOf c
    let vals ← findComp int num ('>' :: c) lines
    put freq.length (fields comps) tab k (vals.map fun v => convert c * v))
    (fun _ => List.replicate freq.length none)
  .ok (freq, tab)

/-! ## C169: locations -/

/-- The numbers of a latitude or longitude written as sign, degrees, minutes, seconds. `float("-0")`
compares equal to zero, its sign is zero. -/
def dms (south : Bool) (d m : ℕ) (s : ℝ) : List ℝ := [if south then -(d : ℝ) else d, m, s]

/-- **C169**, locations. At least one degree from the equator or the meridian of Greenwich the
location is the one that is written. (Partial: see `C169_violated_degrees`.) -/
theorem C169_degrees_partial (south : Bool) (d m : ℕ) (s : ℝ) (hd : d ≠ 0) :
    degrees (dms south d m s) = .ok ((if south then -1 else 1) * (d + m / 60 + s / 3600)) := by
  have hd' : (0 : ℝ) < d := by exact_mod_cast Nat.pos_of_ne_zero hd
  cases south
  · simp only [dms, degrees, Bool.false_eq_true, if_false, sign_pos hd', SignType.coe_one]
    congr 1; ring
  · have : SignType.sign (-(d : ℝ)) = -1 := sign_neg (by linarith)
    simp only [dms, degrees, if_true, this, SignType.coe_neg_one]
    congr 1; ring

/-- **C169** fails within a degree of the equator or the meridian of Greenwich: minutes and seconds
are dropped. -/
theorem C169_violated_degrees (south : Bool) (m : ℕ) (s : ℝ) : degrees (dms south 0 m s) = .ok 0 := by
  cases south <;> simp [dms, degrees]

/-- 12 degrees, 30 minutes. -/
example : degrees (dms true 12 30 0) = .ok (-12.5) := by
  rw [C169_degrees_partial _ _ _ _ (by norm_num)]
  norm_num

/-! ## C169: blocks of numbers -/

theorem collect_ok (n : ℕ) (body post : List Text) (got : List Text)
    (hlen : (got ++ body.flatMap words).length = n)
    (hlast : ∀ pre l suf, body = pre ++ l :: suf → (got ++ pre.flatMap words).length < n) :
    collect n (body ++ post) got = .ok (got ++ body.flatMap words) := by
  induction body generalizing got with
  | nil =>
    simp only [List.flatMap_nil, List.append_nil] at hlen
    rw [List.nil_append, List.flatMap_nil, List.append_nil]
    cases post with
    | nil => rw [collect, if_neg (by omega)]
    | cons l ls => rw [collect, if_neg (by omega)]
  | cons b body ih =>
    have h0 := hlast [] b body rfl
    simp only [List.flatMap_nil, List.append_nil] at h0
    rw [List.cons_append, collect, if_pos h0, ih]
    · simp
    · rw [← hlen]; simp
    · intro pre l suf e
      have := hlast (b :: pre) l suf (by rw [e]; rfl)
      simpa using this

theorem mapM_ok {α β : Type} (f : α → Except Err β) (g : α → β) (l : List α)
    (h : ∀ a ∈ l, f a = .ok (g a)) : l.mapM f = .ok (l.map g) := by
  induction l with
  | nil => rfl
  | cons a l ih =>
    rw [List.mapM_cons, h a (by simp), ih fun a ha => h a (List.mem_cons_of_mem _ ha)]
    rfl

/-- **C169**, blocks of numbers. If the first line that matches a name announces `n` values, and they
are the words of the lines `body` after it (the last of them ending with the last value), then these
values are found, in their order, whatever comes before and after. -/
theorem C169_block (int : Text → Option ℕ) (num : Text → Option ℝ) (comp : Text)
    (pre : List Text) (head : Text) (body post : List Text) (n : ℕ) (val : Text → ℝ)
    (hpre : ∀ l ∈ pre, search comp l = false) (hhead : search comp head = true)
    (hn : count int head = .ok n) (hlen : (body.flatMap words).length = n)
    (hlast : ∀ p l s, body = p ++ l :: s → (p.flatMap words).length < n)
    (hnum : ∀ w ∈ body.flatMap words, num w = some (val w)) :
    findComp int num comp (pre ++ head :: body ++ post) = .ok ((body.flatMap words).map val) := by
  have hd : (pre ++ head :: body ++ post).dropWhile (fun l => !search comp l) = head :: (body ++ post) := by
    rw [List.append_assoc, List.dropWhile_append_of_pos (by simpa using hpre), List.cons_append,
      List.dropWhile_cons_of_neg (by simp [hhead])]
  unfold findComp
  rw [hd]
  simp only [bind, Except.bind, hn]
  rw [collect_ok n body post [] (by simpa using hlen) (by simpa using hlast)]
  simp only [List.nil_append]
  apply mapM_ok
  intro w hw
  rw [hnum w hw]

/-- **C169**, missing blocks. Without a line that matches, or with fewer values than announced before
the end of the file, there is an `IndexError`; the search always ends. -/
theorem C169_missing (int : Text → Option ℕ) (num : Text → Option ℝ) (comp : Text)
    (pre : List Text) (head : Text) (body : List Text) (n : ℕ)
    (hpre : ∀ l ∈ pre, search comp l = false) :
    findComp int num comp pre = .error .indexError ∧
    (search comp head = true → count int head = .ok n → (body.flatMap words).length < n →
      findComp int num comp (pre ++ head :: body) = .error .indexError) := by
  constructor
  · unfold findComp
    have : pre.dropWhile (fun l => !search comp l) = [] := by
      have := List.dropWhile_append_of_pos (p := fun l => !search comp l) (l₂ := ([] : List Text))
        (l₁ := pre) (by simpa using hpre)
      simpa using this
    rw [this]
  · intro hh hn hl
    have hd : (pre ++ head :: body).dropWhile (fun l => !search comp l) = head :: body := by
      rw [List.dropWhile_append_of_pos (by simpa using hpre),
        List.dropWhile_cons_of_neg (by simp [hh])]
    unfold findComp
    rw [hd]
    simp only [bind, Except.bind, hn]
    have : ∀ got, (got ++ body.flatMap words).length < n → collect n body got = .error .indexError := by
      clear hd hl
      induction body with
      | nil =>
        intro got h
        rw [collect, if_pos (by simpa using h)]
      | cons b body ih =>
        intro got h
        rw [collect, if_pos (by simp at h; omega)]
        exact ih _ (by simpa using h)
    rw [this [] (by simpa using hl)]

/-- **C169**, lines. The lines found are those that contain the text, in their order. -/
theorem C169_lines (comp : Text) (lines : List Text) :
    (findLine comp lines).Pairwise (· < ·) ∧
    ∀ i, i ∈ findLine comp lines ↔ ∃ a b, lines[i]? = some (a ++ comp ++ b) := by
  refine ⟨List.Pairwise.filter _ List.pairwise_lt_range, fun i => ?_⟩
  unfold findLine
  rw [List.mem_filter, List.mem_range, decide_eq_true_eq, List.getD_eq_getElem?_getD]
  constructor
  · rintro ⟨hi, a, b, h⟩
    refine ⟨a, b, ?_⟩
    rw [h, List.getElem?_eq_getElem hi]
    rfl
  · rintro ⟨a, b, h⟩
    obtain ⟨hi, h'⟩ := List.getElem?_eq_some_iff.1 h
    exact ⟨hi, a, b, by rw [h]; rfl⟩

/-- **C169**, words. Words separated by any blanks are found again. -/
theorem C169_words (b : Text) (hb : ∀ c ∈ b, c.isWhitespace = true) (ws : List (Text × Text))
    (hw : ∀ q ∈ ws, q.1 ≠ [] ∧ (∀ c ∈ q.1, c.isWhitespace = false) ∧ q.2 ≠ [] ∧ ∀ c ∈ q.2, c.isWhitespace = true) :
    words (b ++ ws.flatMap fun q => q.1 ++ q.2) = ws.map Prod.fst := by
  have blank : ∀ (b r : Text), (∀ c ∈ b, c.isWhitespace = true) → words (b ++ r) = words r := by
    intro b r hb
    induction b with
    | nil => rfl
    | cons c b ih =>
      have h1 : List.splitOnP Char.isWhitespace ([] ++ c :: (b ++ r)) =
          [] :: List.splitOnP Char.isWhitespace (b ++ r) :=
        List.splitOnP_append_cons_of_forall_mem (by simp) c (hb c (by simp)) _
      rw [← ih fun c hc => hb c (List.mem_cons_of_mem _ hc)]
      unfold words
      rw [List.cons_append, ← List.nil_append (c :: (b ++ r)), h1]
      rfl
  rw [blank b _ hb]
  induction ws with
  | nil => decide
  | cons q ws ih =>
    obtain ⟨h1, h2, h3, h4⟩ := hw q (by simp)
    obtain ⟨c, t, hq⟩ := List.exists_cons_of_ne_nil h3
    rw [hq] at h4
    have h5 := ih fun q hq => hw q (List.mem_cons_of_mem _ hq)
    rw [List.flatMap_cons, hq, List.append_assoc, List.map_cons, ← h5,
      ← blank t (ws.flatMap fun q => q.1 ++ q.2) fun c hc => h4 c (List.mem_cons_of_mem _ hc)]
    have h6 : List.splitOnP Char.isWhitespace (q.1 ++ c :: (t ++ ws.flatMap fun q => q.1 ++ q.2)) =
        q.1 :: List.splitOnP Char.isWhitespace (t ++ ws.flatMap fun q => q.1 ++ q.2) :=
      List.splitOnP_append_cons_of_forall_mem h2 c (h4 c (by simp)) _
    unfold words
    rw [List.cons_append, h6, List.filter_cons_of_pos (by simpa using h1)]

theorem afterSlashes_last (a r : Text) (ha : '/' ∉ a) (hr : ¬['/', '/'] <:+: r) :
    afterSlashes (a ++ '/' :: '/' :: r) = r := by
  induction a with
  | nil => rw [List.nil_append, afterSlashes, if_neg hr]
  | cons c a ih =>
    rw [List.mem_cons, not_or] at ha
    have hin : ['/', '/'] <:+: (c :: (a ++ '/' :: '/' :: r)) := ⟨c :: a, r, by simp⟩
    rw [List.cons_append, afterSlashes, if_pos hin, ih ha.2]
    intro r' h _
    exact ha.1 h.symm

/-- **C169**, headers. The number of values is what follows the sign of equality in the header of frequencies, and
what follows the slashes in the header of a component. -/
theorem C169_count (int : Text → Option ℕ) (n : ℕ) (a b r w : Text) (ws : List Text) :
    ('=' ∉ a → '=' ∉ b → '=' ∉ r → words r = w :: ws → int w = some n →
      count int (a ++ "NFREQ".toList ++ b ++ '=' :: r) = .ok n) ∧
    ('/' ∉ a → ¬['/', '/'] <:+: r → ¬"NFREQ".toList <:+: (a ++ '/' :: '/' :: r) → int r = some n →
      count int (a ++ '/' :: '/' :: r) = .ok n) := by
  constructor
  · intro ha hb hr hw hn
    unfold count
    rw [if_pos ⟨a, b ++ '=' :: r, by simp⟩]
    have h1 : List.splitOnP (fun c => decide (c = '=')) (a ++ "NFREQ".toList ++ b ++ '=' :: r) =
        (a ++ "NFREQ".toList ++ b) :: List.splitOnP (fun c => decide (c = '=')) r := by
      refine List.splitOnP_append_cons_of_forall_mem (fun c hc => ?_) '=' (by simp) r
      rw [List.mem_append, List.mem_append] at hc
      rw [decide_eq_false_iff_not]
      rintro rfl
      rcases hc with (hc | hc) | hc
      · exact ha hc
      · revert hc
        decide
      · exact hb hc
    have h2 : List.splitOnP (fun c => decide (c = '=')) r = [r] := by
      apply List.splitOnP_eq_singleton
      intro c hc
      rw [decide_eq_false_iff_not]
      rintro rfl
      exact hr hc
    rw [h1, h2]
    simp only [List.tail_cons, List.head?_cons, hw, hn]
  · intro ha hr hN hn
    unfold count
    rw [if_neg hN, afterSlashes_last a r ha hr, hn]

/-- Headers of both kinds. -/
example : ">FREQ NFREQ=2 ORDER".toList = ">FREQ ".toList ++ "NFREQ".toList ++ [] ++ '=' :: "2 ORDER".toList ∧
    words "2 ORDER".toList = ["2".toList, "ORDER".toList] ∧
    ">ZXXR ROT=ZROT // 3".toList = ">ZXXR ROT=ZROT ".toList ++ '/' :: '/' :: " 3".toList ∧
    ¬['/', '/'] <:+: " 3".toList ∧ ¬"NFREQ".toList <:+: ">ZXXR ROT=ZROT // 3".toList := by decide

/-- A block of three values on two lines. -/
example : words "1.0  2.0\n".toList = ["1.0".toList, "2.0".toList] ∧
    search ">ZXX.VAR".toList ">ZXX.VAR ROT=ZROT // 3\n".toList = true ∧
    search ">ZXXR".toList ">ZXX.VAR ROT=ZROT // 3\n".toList = false ∧
    afterSlashes ">ZXX.VAR ROT=ZROT // 3\n".toList = " 3\n".toList := by decide

/-! ## C169: components -/

/-- The field each component goes to. -/
theorem default_fields : ∀ c ∈ defaults, ∃ k ∈ defaults, fieldOf c = .ok (norm k) ∧
    norm k ∈ fields defaults := by decide

theorem default_norm : (defaults.map fun c => fieldOf c) =
    (["zyyr", "zyxr", "zxyr", "zxxr", "zyyi", "zyxi", "zxyi", "zxxi", "zyyvar", "zyxvar", "zxyvar",
      "zxxvar"].map fun s => .ok s.toList) := by decide

/-- Filling the table with components that go to different fields. -/
theorem fill (int : Text → Option ℕ) (num : Text → Option ℝ) (fs : List Text) (lines : List Text)
    (n : ℕ) (v : Text → List ℝ) (g : Text → Text) (l : List Text)
    (hg : ∀ c ∈ l, fieldOf c = .ok (g c) ∧ g c ∈ fs) (hn : (l.map g).Nodup)
    (hv : ∀ c ∈ l, findComp int num ('>' :: c) lines = .ok (v c) ∧ (v c).length = n)
    (tab : Text → List (Option ℝ)) :
    ∃ tab', l.foldlM (fun tab c => do
        let k ← fieldOf c
        let vals ← findComp int num ('>' :: c) lines
        put n fs tab k (vals.map fun v => convert c * v)) tab = .ok tab' ∧
      (∀ c ∈ l, tab' (g c) = (v c).map fun x => some (convert c * x)) ∧
      ∀ k, k ∉ l.map g → tab' k = tab k := by
  induction l generalizing tab with
  | nil => exact ⟨tab, rfl, by simp, fun _ _ => rfl⟩
  | cons a l ih =>
    rw [List.map_cons, List.nodup_cons] at hn
    obtain ⟨tab', e1, e2, e3⟩ := ih (fun c h => hg c (List.mem_cons_of_mem _ h)) hn.2
      (fun c h => hv c (List.mem_cons_of_mem _ h))
      (Function.update tab (g a) ((v a).map fun x => some (convert a * x)))
    refine ⟨tab', ?_, ?_, ?_⟩
    · rw [List.foldlM_cons]
      have hp : put n fs tab (g a) ((v a).map fun x => convert a * x) =
          .ok (Function.update tab (g a) ((v a).map fun x => some (convert a * x))) := by
        unfold put
        rw [if_pos (hg a (by simp)).2, if_pos (by simp [(hv a (by simp)).2]), List.map_map]
        rfl
      simp only [bind, Except.bind, (hg a (by simp)).1, (hv a (by simp)).1, hp]
      simp only [bind, Except.bind] at e1
      exact e1
    · intro c hc
      rcases List.mem_cons.1 hc with rfl | hc
      · rw [e3 _ hn.1, Function.update_self]
      · exact e2 c hc
    · intro k hk
      rw [List.map_cons, List.mem_cons, not_or] at hk
      rw [e3 k hk.2, Function.update_of_ne hk.1]

/-- The name of a part of an entry of the impedance tensor in the file, with 0 for north and 1 for
east. -/
def fileName (i j : Fin 2) (part : String) : Text :=
  'Z' :: (if i = 0 then 'X' else 'Y') :: (if j = 0 then 'X' else 'Y') :: part.toList

/-- The name of the field of a part of an entry, with 0 for `x` (east) and 1 for `y` (north). -/
def fieldName (i j : Fin 2) (part : String) : Text :=
  'z' :: (if i = 0 then 'x' else 'y') :: (if j = 0 then 'x' else 'y') :: part.toList

/-- The other horizontal direction. -/
def other (i : Fin 2) : Fin 2 := 1 - i

theorem default_table (int : Text → Option ℕ) (num : Text → Option ℝ) (lines : List Text)
    (freq : List ℝ) (v : Text → List ℝ) (hf : findComp int num ">FREQ".toList lines = .ok freq)
    (hv : ∀ c ∈ defaults, findComp int num ('>' :: c) lines = .ok (v c) ∧ (v c).length = freq.length) :
    ∃ tab, importFile int num defaults lines = .ok (freq, tab) ∧ ∀ i j,
      (tab (fieldName (other i) (other j) "r") = (v (fileName i j "R")).map fun x => some (unit * x)) ∧
      (tab (fieldName (other i) (other j) "i") = (v (fileName i j "I")).map fun x => some (unit * x)) ∧
      (tab (fieldName (other i) (other j) "var") =
        (v (fileName i j ".VAR")).map fun x => some (unit * x)) := by
  let g : Text → Text := fun c => match fieldOf c with
    | .ok k => k
    | .error _ => []
  have hg : ∀ c ∈ defaults, fieldOf c = .ok (g c) ∧ g c ∈ fields defaults := by decide
  have hn : (defaults.map g).Nodup := by decide
  obtain ⟨tab, e1, e2, -⟩ := fill int num (fields defaults) lines freq.length v g defaults hg hn hv
    (fun _ => List.replicate freq.length none)
  refine ⟨tab, ?_, ?_⟩
  · unfold importFile
    simp only [bind, Except.bind, hf]
    simp only [bind, Except.bind] at e1
    rw [e1]
  · have key : ∀ i j, (fileName i j "R" ∈ defaults ∧ g (fileName i j "R") = fieldName (other i) (other j) "r")
        ∧ (fileName i j "I" ∈ defaults ∧ g (fileName i j "I") = fieldName (other i) (other j) "i") ∧
        (fileName i j ".VAR" ∈ defaults ∧
          g (fileName i j ".VAR") = fieldName (other i) (other j) "var") := by decide
    have hz : ∀ i j part, convert (fileName i j part) = unit := by
      intro i j part
      simp [convert, fileName]
    intro i j
    obtain ⟨⟨a1, a2⟩, ⟨b1, b2⟩, ⟨c1, c2⟩⟩ := key i j
    refine ⟨?_, ?_, ?_⟩
    · rw [← a2, e2 _ a1]; simp only [hz]
    · rw [← b2, e2 _ b1]; simp only [hz]
    · rw [← c2, e2 _ c1]; simp only [hz]

/-- **C169**, impedances. With the components the importer takes by default, a file with all blocks as
long as the list of frequencies is imported, and every record holds the impedance in SI units in
coordinates with `x` to the east and `y` to the north: at the frequency number `q`, whenever the
impedance of the file (in mV/km per nT, first coordinate to the north) relates fields `e` and `b`, the
imported one relates the electric field in V/m and the magnetic field in A/m (`μ₀ = 4e-7 π`). -/
theorem C169_impedance (int : Text → Option ℕ) (num : Text → Option ℝ) (lines : List Text)
    (freq : List ℝ) (v : Text → List ℝ) (hf : findComp int num ">FREQ".toList lines = .ok freq)
    (hv : ∀ c ∈ defaults, findComp int num ('>' :: c) lines = .ok (v c) ∧ (v c).length = freq.length)
    (q : ℕ) (hq : q < freq.length) :
    ∃ tab, importFile int num defaults lines = .ok (freq, tab) ∧
      ∃ Z : Fin 2 → Fin 2 → ℂ,
        (∀ i j, (tab (fieldName i j "r"))[q]? = some (some (Z i j).re) ∧
          (tab (fieldName i j "i"))[q]? = some (some (Z i j).im)) ∧
        ∀ e b : Fin 2 → ℂ,
          (∀ i, e i = ∑ j, (⟨(v (fileName i j "R")).getD q 0, (v (fileName i j "I")).getD q 0⟩ : ℂ) * b j) →
          ∀ i, e (other i) * 1e-6 = ∑ j, Z i j * (b (other j) * 1e-9 / (4e-7 * Real.pi)) := by
  obtain ⟨tab, e1, e2⟩ := default_table int num lines freq v hf hv
  have hmem : ∀ i j, fileName i j "R" ∈ defaults ∧ fileName i j "I" ∈ defaults := by decide
  have hoo : ∀ i, other (other i) = i := by decide
  refine ⟨tab, e1, fun i j => unit * ⟨(v (fileName (other i) (other j) "R")).getD q 0,
    (v (fileName (other i) (other j) "I")).getD q 0⟩, fun i j => ?_, fun e b h i => ?_⟩
  · obtain ⟨a, b, -⟩ := e2 (other i) (other j)
    rw [hoo, hoo] at a b
    have h1 := (hv _ (hmem (other i) (other j)).1).2
    have h2 := (hv _ (hmem (other i) (other j)).2).2
    rw [a, b]
    simp [List.getElem?_map, h1, h2, hq, List.getD_eq_getElem?_getD]
  · have hpi : (Real.pi : ℂ) ≠ 0 := by exact_mod_cast Real.pi_ne_zero
    rw [h (other i)]
    have swap : ∀ F : Fin 2 → ℂ, ∑ j, F j = ∑ j, F (other j) := by
      intro F
      rw [Fin.sum_univ_two, Fin.sum_univ_two]
      simp [other, add_comm]
    rw [swap, Finset.sum_mul]
    apply Finset.sum_congr rfl
    intro j _
    simp only [unit]
    push_cast
    field_simp
    norm_num
    ring

/-- **C169** fails for variances: they are multiplied by the factor of the impedances instead of its
square, so that the imported variance of an entry is not that of the imported entry unless it is
zero. -/
theorem C169_violated_variance (int : Text → Option ℕ) (num : Text → Option ℝ) (lines : List Text)
    (freq : List ℝ) (v : Text → List ℝ) (hf : findComp int num ">FREQ".toList lines = .ok freq)
    (hv : ∀ c ∈ defaults, findComp int num ('>' :: c) lines = .ok (v c) ∧ (v c).length = freq.length)
    (q : ℕ) (hq : q < freq.length) (i j : Fin 2) (h0 : (v (fileName i j ".VAR")).getD q 0 ≠ 0) :
    ∃ tab x, importFile int num defaults lines = .ok (freq, tab) ∧
      (tab (fieldName (other i) (other j) "var"))[q]? = some (some x) ∧
      x = unit * (v (fileName i j ".VAR")).getD q 0 ∧
      x ≠ unit ^ 2 * (v (fileName i j ".VAR")).getD q 0 := by
  obtain ⟨tab, e1, e2⟩ := default_table int num lines freq v hf hv
  have hmem : ∀ i j, fileName i j ".VAR" ∈ defaults := by decide
  have h1 := (hv _ (hmem i j)).2
  refine ⟨tab, _, e1, ?_, rfl, ?_⟩
  · rw [(e2 i j).2.2]
    simp [List.getElem?_map, h1, hq, List.getD_eq_getElem?_getD]
  · intro h
    have hpi := Real.pi_pos
    have h4 := Real.pi_lt_four
    have hu : 0 < unit := by unfold unit; positivity
    have hu1 : unit < 1 := by unfold unit; nlinarith
    have := mul_right_cancel₀ h0 h
    nlinarith

/-- **C169** fails for other lists of components: the list has to contain the components with the
directions exchanged, and each name has to contain two directions; tippers cannot be imported. For
any file with the block in question. -/
theorem C169_violated_components (int : Text → Option ℕ) (num : Text → Option ℝ) (lines : List Text)
    (freq vals : List ℝ) (hf : findComp int num ">FREQ".toList lines = .ok freq)
    (hv : findComp int num ">ZXYR".toList lines = .ok vals) :
    importFile int num ["ZXYR".toList] lines = .error .valueError ∧
    importFile int num ["TXR.EXP".toList] lines = .error .indexError := by
  have hk : fieldOf "ZXYR".toList = .ok "zyxr".toList := by decide
  have hk' : fieldOf "TXR.EXP".toList = .error .indexError := by decide
  have hm : "zyxr".toList ∉ fields ["ZXYR".toList] := by decide
  constructor
  · unfold importFile
    simp only [bind, Except.bind, hf, List.foldlM_cons, hk]
    rw [show findComp int num ('>' :: "ZXYR".toList) lines = .ok vals from hv]
    simp only [put, if_neg hm]
  · unfold importFile
    simp only [bind, Except.bind, hf, List.foldlM_cons, hk']

/-- A file with one frequency and all blocks. -/
def sample : List Text := ([">HEAD", ">FREQ // 1", "1.0"].map String.toList) ++
  defaults.flatMap fun c => ['>' :: (c ++ " ROT=ZROT // 1".toList), " 2.5 ".toList, []]

/-- The hypotheses of `C169_impedance`, `C169_violated_variance` and `C169_violated_components` hold
for it, with all numbers read as one. -/
example : findComp (fun _ => some 1) (fun _ => some 1) ">FREQ".toList sample = .ok [1] ∧
    findComp (fun _ => some 1) (fun _ => some 1) ">ZXYR".toList sample = .ok [1] ∧
    ∀ c ∈ defaults, findComp (fun _ => some 1) (fun _ => some 1) ('>' :: c) sample = .ok [1] := by
  refine ⟨rfl, rfl, ?_⟩
  have : defaults.map (fun c => findComp (fun _ => some 1) (fun _ => some 1) ('>' :: c) sample) =
      defaults.map fun _ => .ok [1] := rfl
  exact List.map_inj_left.1 this

end Verif.NSEM.Edi
