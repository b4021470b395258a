import Verif.Basic
import Mathlib.Data.Real.Basic
import Mathlib.Data.List.Basic
import Mathlib.Data.List.Nodup

/-!
C156: files of resistivity data with a line of headers (`read_dcip_xyz`, `write_dcip_xyz`,
`simpeg/utils/io_utils/io_utils_electromagnetics.py` 12-189, 981-1054). A file is its list of headers and its
rows of numbers, as many in each row as headers; the splitting of lines into words and comments are not
modelled. `gen` is `generate_survey_from_abmn_locations` (C155), given the four arrays of electrodes.
-/

noncomputable section
namespace Verif.IO.Xyz
open Verif

structure File where
  headers : List String
  rows : List (List ℝ)

/-- The arguments of the reader. -/
structure Request where
  a : List String
  b : List String
  m : List String
  n : List String
  data : Option String
  unc : Option String
  dict : Option (List String)
  surface : Bool

/-- What is returned: the survey, data, uncertainties, dictionary. -/
structure Result (S : Type) where
  survey : S
  dobs : Option (List ℝ)
  std : Option (List ℝ)
  dict : Option (List (String × List ℝ))

variable {S : Type}

/-- `list.index` of a header. -/
def index (l : List String) (h : String) : Except Err ℕ :=
  if l.idxOf h < l.length then .ok (l.idxOf h) else .error .valueError

/-- `out_headers` (`io_utils_electromagnetics.py` 94-111). -/
def Request.out (q : Request) : List String :=
  q.a ++ q.b ++ q.m ++ q.n ++ q.data.toList ++ q.unc.toList ++ q.dict.getD []

/-- `non_location_columns` (99-111). -/
def Request.others (q : Request) : ℕ := q.data.toList.length + q.unc.toList.length + (q.dict.getD []).length

/-- `np.loadtxt(..., usecols=col_indices)` (118) for rows that have all the columns. -/
def load (cols : List ℕ) (rows : List (List ℝ)) : List (List ℝ) :=
  rows.map fun r => cols.map fun c => r.getD c 0

/-- The columns of the electrodes (123-139). -/
def electrodeCols (n : ℕ) : List ℕ × List ℕ × List ℕ × List ℕ :=
  if n = 12 then ([0, 1, 2], [3, 4, 5], [6, 7, 8], [9, 10, 11])
  else if n = 8 then ([0, 1], [2, 3], [4, 5], [6, 7])
  else ([1], [2], [3], [4])

/-- `data_array[:, cols]` (144-158). -/
def pick (width : ℕ) (arr : List (List ℝ)) (cols : List ℕ) : Except Err (List (List ℝ)) :=
  if cols.all (fun c => decide (c < width)) then .ok (arr.map fun r => cols.map fun c => r.getD c 0)
  else .error .indexError

/-- Electrode locations (142-158). -/
def electrodes (surface : Bool) (width : ℕ) (arr : List (List ℝ)) (cols : List ℕ) :
    Except Err (List (List ℝ)) :=
  match pick width arr cols with
  | .error e => .error e
  | .ok l => .ok (if surface then l.map fun r => r ++ [9999] else l)

/-- `data_array[out_indices, file_headers.index(h)]` (173, 177-179, 185). -/
def column (file : File) (width : ℕ) (arr : List (List ℝ)) (out : List ℕ) (h : String) :
    Except Err (List ℝ) :=
  match index file.headers h with
  | .error e => .error e
  | .ok k => if k < width then .ok (out.map fun i => (arr.getD i []).getD k 0) else .error .indexError

def optColumn (file : File) (width : ℕ) (arr : List (List ℝ)) (out : List ℕ) :
    Option String → Except Err (Option (List ℝ))
  | none => .ok none
  | some h =>
    match column file width arr out h with
    | .error e => .error e
    | .ok l => .ok (some l)

/-- The columns of the dictionary (182-186). -/
def dictColumns (file : File) (width : ℕ) (arr : List (List ℝ)) (out : List ℕ) :
    List String → Except Err (List (String × List ℝ))
  | [] => .ok []
  | h :: r =>
    match column file width arr out h with
    | .error e => .error e
    | .ok l =>
      match dictColumns file width arr out r with
      | .error e => .error e
      | .ok ls => .ok ((h, l) :: ls)

/-- `read_dcip_xyz` (`io_utils_electromagnetics.py` 87-189). `loadtxt` returns an array of one axis for one
row. Keys of the dictionary that are given twice are kept twice. -/
def read (gen : List (List ℝ) → List (List ℝ) → List (List ℝ) → List (List ℝ) → Except Err (S × List ℕ))
    (q : Request) (file : File) : Except Err (Result S) :=
  match q.out.mapM (index file.headers) with
  | .error e => .error e
  | .ok cols =>
    let arr := load cols file.rows;
    let width := cols.length;
    if file.rows.length = 1 then .error .indexError
    else
      let c := electrodeCols (width - q.others);
      match electrodes q.surface width arr c.1, electrodes q.surface width arr c.2.1,
        electrodes q.surface width arr c.2.2.1, electrodes q.surface width arr c.2.2.2 with
      | .ok a, .ok b, .ok m, .ok n =>
        match gen a b m n with
        | .error e => .error e
        | .ok (survey, out) =>
          match optColumn file width arr out q.data with
          | .error e => .error e
          | .ok dobs =>
            match optColumn file width arr out q.unc with
            | .error e => .error e
            | .ok std =>
              match q.dict with
              | none => .ok ⟨survey, dobs, std, none⟩
              | some hs =>
                match dictColumns file width arr out hs with
                | .error e => .error e
                | .ok l => .ok ⟨survey, dobs, std, some l⟩
      | .error e, _, _, _ => .error e
      | _, .error e, _, _ => .error e
      | _, _, .error e, _ => .error e
      | _, _, _, .error e => .error e

/-- What is written: electrodes of the data, data, uncertainties, dictionary. -/
structure Content where
  a : List (List ℝ)
  b : List (List ℝ)
  m : List (List ℝ)
  n : List (List ℝ)
  dobs : List ℝ
  std : List ℝ
  dict : List (String × List ℝ)

def headers3 : List String := ["XA", "YA", "ZA", "XB", "YB", "ZB", "XM", "YM", "ZM", "XN", "YN", "ZN"]
def headers2 : List String := ["XA", "ZA", "XB", "ZB", "XM", "ZM", "XN", "ZN"]

/-- One row (`io_utils_electromagnetics.py` 1011-1041), printed with `%.8e`. -/
def writeRow (e : ℝ → ℝ) (c : Content) (data unc : Option String) (i : ℕ) : List ℝ :=
  (c.a.getD i [] ++ c.b.getD i [] ++ c.m.getD i [] ++ c.n.getD i [] ++
    (if data.isSome then [c.dobs.getD i 0] else []) ++ (if unc.isSome then [c.std.getD i 0] else []) ++
    c.dict.map fun q => q.2.getD i 0).map e

/-- `write_dcip_xyz` (`io_utils_electromagnetics.py` 1011-1052); `dim` is the number of columns of the
electrodes. -/
def write (e : ℝ → ℝ) (dim : ℕ) (c : Content) (data unc : Option String) : File where
  headers := (if 4 * dim = 8 then headers2 else headers3) ++ data.toList ++ unc.toList ++ c.dict.map Prod.fst
  rows := (List.range c.a.length).map (writeRow e c data unc)

/-! ### Specification -/

/-- The values of the column with a header in the given rows. -/
def File.values (file : File) (h : String) (out : List ℕ) : List ℝ :=
  out.map fun i => (file.rows.getD i []).getD (file.headers.idxOf h) 0

/-- Content of `n` data with electrodes of dimension `dim`. -/
structure Content.Fits (c : Content) (k dim : ℕ) : Prop where
  aFits : c.a.length = k ∧ ∀ r ∈ c.a, r.length = dim
  bFits : c.b.length = k ∧ ∀ r ∈ c.b, r.length = dim
  mFits : c.m.length = k ∧ ∀ r ∈ c.m, r.length = dim
  nFits : c.n.length = k ∧ ∀ r ∈ c.n, r.length = dim

/-- Headers of the electrodes. -/
def request2 (data unc : Option String) (keys : List String) : Request :=
  ⟨["XA", "ZA"], ["XB", "ZB"], ["XM", "ZM"], ["XN", "ZN"], data, unc, some keys, false⟩

def request3 (data unc : Option String) (keys : List String) : Request :=
  ⟨["XA", "YA", "ZA"], ["XB", "YB", "ZB"], ["XM", "YM", "ZM"], ["XN", "YN", "ZN"], data, unc, some keys, false⟩

namespace Props

theorem index_ok (l : List String) (h : String) (hm : h ∈ l) : index l h = .ok (l.idxOf h) := by
  simp [index, List.idxOf_lt_length_iff, hm]

theorem mapM_index (l hs : List String) (h : ∀ x ∈ hs, x ∈ l) :
    hs.mapM (index l) = .ok (hs.map fun x => l.idxOf x) := by
  induction hs with
  | nil => rfl
  | cons x r ih =>
    rw [List.mapM_cons, index_ok l x (h x (by simp)), ih fun y hy => h y (by simp [hy])]
    rfl

/-- The columns of the first headers of a file are `0, 1, ...`. -/
theorem idx_prefix (l r : List String) (hn : (l ++ r).Nodup) :
    l.map (fun x => (l ++ r).idxOf x) = List.range l.length := by
  refine List.ext_getElem (by simp) fun i h1 h2 => ?_
  simp only [List.length_map] at h1
  simp only [List.getElem_map, List.getElem_range]
  have : l[i] = (l ++ r)[i]'(by simp; omega) := by rw [List.getElem_append_left h1]
  rw [this]
  exact hn.idxOf_getElem i _

theorem load_prefix (k : ℕ) (rows : List (List ℝ)) (h : ∀ r ∈ rows, k ≤ r.length) :
    load (List.range k) rows = rows.map fun r => r.take k := by
  unfold load
  refine List.map_congr_left fun r hr => ?_
  have hk := h r hr
  refine List.ext_getElem (by simp; omega) fun i h1 h2 => ?_
  simp at h1
  have : i < r.length := by omega
  simp [this]

/-- The value found in the loaded array. -/
theorem column_eq (file : File) (cols : List ℕ) (out : List ℕ) (h : String) (hm : h ∈ file.headers)
    (hk : file.headers.idxOf h < cols.length) (ho : ∀ i ∈ out, i < file.rows.length) :
    column file cols.length (load cols file.rows) out h =
      .ok (out.map fun i => (file.rows.getD i []).getD (cols.getD (file.headers.idxOf h) 0) 0) := by
  unfold column
  rw [index_ok _ _ hm]
  simp only [hk, if_true]
  congr 1
  refine List.map_congr_left fun i hi => ?_
  have hi' := ho i hi
  have e1 : (load cols file.rows).getD i [] = cols.map fun c => (file.rows.getD i []).getD c 0 := by
    unfold load
    simp [hi']
  rw [e1]
  simp [hk]

/-- C156: partial: if the requested columns are the first of the file, in its order, the data are those of
the column with their header, sorted as the survey. -/
theorem C156_column_partial (file : File) (hs rest : List String) (hh : file.headers = hs ++ rest)
    (hn : file.headers.Nodup) (out : List ℕ) (ho : ∀ i ∈ out, i < file.rows.length) (h : String)
    (hm : h ∈ hs) :
    column file hs.length (load (hs.map fun x => file.headers.idxOf x) file.rows) out h =
      .ok (file.values h out) := by
  have hcols : (hs.map fun x => file.headers.idxOf x) = List.range hs.length := by
    rw [hh] at hn ⊢; exact idx_prefix hs rest hn
  have hk : file.headers.idxOf h < hs.length := by
    rw [hh, List.idxOf_append_of_mem hm]; exact List.idxOf_lt_length_iff.mpr hm
  have := column_eq file (List.range hs.length) out h (by rw [hh]; simp [hm]) (by simpa using hk) ho
  rw [List.length_range] at this
  rw [hcols, this]
  congr 1
  refine List.map_congr_left fun i _ => ?_
  simp [hk]

/-- C156: violated: the position of the header in the file is used as the position in the loaded columns: with
one column in the file before the requested ones, the data are taken from the requested column after the
data column, and the call fails if there is none. -/
theorem C156_violated_column (file : File) (x : String) (hs : List String) (hh : file.headers = x :: hs)
    (hn : file.headers.Nodup) (out : List ℕ) (ho : ∀ i ∈ out, i < file.rows.length) (k : ℕ)
    (hk : k < hs.length) :
    (∀ hk1 : k + 1 < hs.length,
      column file hs.length (load (hs.map fun y => file.headers.idxOf y) file.rows) out hs[k] =
        .ok (file.values hs[k + 1] out)) ∧
    (k + 1 = hs.length →
      column file hs.length (load (hs.map fun y => file.headers.idxOf y) file.rows) out hs[k] =
        .error .indexError) := by
  have hidx : ∀ j (hj : j < hs.length), file.headers.idxOf hs[j] = j + 1 := by
    intro j hj
    have : hs[j] = file.headers[j + 1]'(by rw [hh]; simp; omega) := by simp [hh]
    rw [this]
    exact hn.idxOf_getElem _ _
  have hm : hs[k] ∈ file.headers := by rw [hh]; simp
  constructor
  · intro hk1
    have := column_eq file (hs.map fun y => file.headers.idxOf y) out hs[k] hm
      (by simpa [hidx k hk] using hk1) ho
    rw [List.length_map] at this
    rw [this]
    congr 1
    unfold File.values
    refine List.map_congr_left fun i _ => ?_
    rw [hidx k hk, hidx (k + 1) hk1]
    congr 1
    simp [hk1, hidx (k + 1) hk1]
  · intro hk1
    unfold column
    rw [index_ok _ _ hm, hidx k hk]
    simp [hk1]

/-- C156: violated: a file with one row cannot be read. -/
theorem C156_violated_one_row (gen : List (List ℝ) → List (List ℝ) → List (List ℝ) → List (List ℝ) →
      Except Err (S × List ℕ)) (q : Request) (file : File) (h1 : file.rows.length = 1)
    (hs : ∀ x ∈ q.out, x ∈ file.headers) : read gen q file = .error .indexError := by
  unfold read
  rw [mapM_index _ _ hs]
  simp [h1]

/-- C156: missing headers are refused. -/
theorem C156_missing (gen : List (List ℝ) → List (List ℝ) → List (List ℝ) → List (List ℝ) →
      Except Err (S × List ℕ)) (q : Request) (file : File) (x : String) (hx : x ∈ q.out)
    (hm : x ∉ file.headers) : read gen q file = .error .valueError := by
  have : ∀ hs : List String, x ∈ hs → hs.mapM (index file.headers) = .error .valueError := by
    intro hs
    induction hs with
    | nil => intro h; simp at h
    | cons y r ih =>
      intro h
      rw [List.mapM_cons]
      by_cases hy : y ∈ file.headers
      · rw [index_ok _ _ hy]
        have : x ∈ r := by
          rcases List.mem_cons.mp h with rfl | h
          · exact absurd hy hm
          · exact h
        simp only [bind, Except.bind, ih this]
      · have : index file.headers y = .error .valueError := by
          simp [index, hy]
        rw [this]
        rfl
  unfold read
  rw [this q.out hx]

/-- C156: violated: surface data of a line, one column per electrode: A gets the locations of B, B those of M,
M those of N, and N the data; without further columns the call fails. -/
theorem C156_violated_surface_line (xa xb xm xn : String) (file : File) (rest : List String)
    (hh : file.headers = [xa, xb, xm, xn] ++ rest) (hn : file.headers.Nodup)
    (hl : file.rows.length ≠ 1) :
    (∀ gen : List (List ℝ) → List (List ℝ) → List (List ℝ) → List (List ℝ) → Except Err (S × List ℕ),
      read gen ⟨[xa], [xb], [xm], [xn], none, none, none, true⟩ file = .error .indexError) ∧
    ∀ x, rest = [x] → ∀ (gen : List (List ℝ) → List (List ℝ) → List (List ℝ) → List (List ℝ) →
        Except Err (S × List ℕ)) (r : Result S),
      read gen ⟨[xa], [xb], [xm], [xn], some x, none, none, true⟩ file = .ok r →
      ∃ out, gen (file.rows.map fun q => [q.getD 1 0, 9999]) (file.rows.map fun q => [q.getD 2 0, 9999])
        (file.rows.map fun q => [q.getD 3 0, 9999]) (file.rows.map fun q => [q.getD 4 0, 9999]) =
        .ok (r.survey, out) := by
  have hi : ∀ k (hk : k < file.headers.length), file.headers.idxOf file.headers[k] = k :=
    fun k hk => hn.idxOf_getElem k hk
  constructor
  · intro gen
    unfold read
    have hcols : (Request.out ⟨[xa], [xb], [xm], [xn], none, none, none, true⟩).mapM
        (index file.headers) = .ok [0, 1, 2, 3] := by
      have e : Request.out ⟨[xa], [xb], [xm], [xn], none, none, none, true⟩ = [xa, xb, xm, xn] := by
        simp [Request.out]
      rw [e, mapM_index _ _ (by rw [hh]; intro y hy; simp at hy ⊢; tauto)]
      have := idx_prefix [xa, xb, xm, xn] rest (by rw [← hh]; exact hn)
      rw [← hh] at this
      rw [this]
      rfl
    rw [hcols]
    simp only [List.length_cons, List.length_nil, hl, if_false]
    simp [Request.others, electrodeCols, electrodes, pick]
  · rintro x rfl gen r h
    unfold read at h
    have hcols : (Request.out ⟨[xa], [xb], [xm], [xn], some x, none, none, true⟩).mapM
        (index file.headers) = .ok [0, 1, 2, 3, 4] := by
      have e : Request.out ⟨[xa], [xb], [xm], [xn], some x, none, none, true⟩ = [xa, xb, xm, xn, x] := by
        simp [Request.out]
      rw [e, mapM_index _ _ (by rw [hh]; intro y hy; simp at hy ⊢; tauto)]
      have := idx_prefix [xa, xb, xm, xn, x] [] (by
        rw [hh] at hn
        simpa only [List.append_nil, List.cons_append, List.nil_append] using hn)
      rw [List.append_nil] at this
      rw [hh]
      simp only [List.cons_append, List.nil_append]
      rw [this]
      rfl
    rw [hcols] at h
    simp only [List.length_cons, List.length_nil, hl, if_false] at h
    simp [Request.others, electrodeCols, electrodes, pick, load] at h
    split at h
    · cases h
    · rename_i s out hg
      refine ⟨out, ?_⟩
      have : r.survey = s := by
        split at h
        · cases h
        · simp only [optColumn] at h
          cases h
          rfl
      rw [this, ← hg]
      rfl

/-- A cell below its header. -/
theorem cell (P Q : List String) (P' Q' : List ℝ) (h : String) (v : ℝ) (hl : P.length = P'.length)
    (hn : h ∉ P) : (P' ++ v :: Q').getD ((P ++ h :: Q).idxOf h) 0 = v := by
  rw [List.idxOf_append_of_notMem hn, List.idxOf_cons_self, hl]
  simp

theorem headers_length (dim : ℕ) (hd : dim = 2 ∨ dim = 3) :
    (if 4 * dim = 8 then headers2 else headers3).length = 4 * dim := by
  rcases hd with rfl | rfl <;> simp [headers2, headers3]

theorem electrode_length (c : Content) (k dim : ℕ) (hf : c.Fits k dim) (i : ℕ) (hi : i < k) :
    (c.a.getD i []).length = dim ∧ (c.b.getD i []).length = dim ∧ (c.m.getD i []).length = dim ∧
      (c.n.getD i []).length = dim := by
  obtain ⟨⟨a1, a2⟩, ⟨b1, b2⟩, ⟨m1, m2⟩, ⟨n1, n2⟩⟩ := hf
  have key : ∀ l : List (List ℝ), l.length = k → (∀ r ∈ l, r.length = dim) →
      (l.getD i []).length = dim := by
    intro l h1 h2
    have : i < l.length := by omega
    simp only [List.getD_eq_getElem?_getD, List.getElem?_eq_getElem this, Option.getD_some]
    exact h2 _ (List.getElem_mem this)
  exact ⟨key _ a1 a2, key _ b1 b2, key _ m1 m2, key _ n1 n2⟩

theorem write_getD (e : ℝ → ℝ) (dim : ℕ) (c : Content) (data unc : Option String) (i : ℕ)
    (hi : i < c.a.length) : (write e dim c data unc).rows.getD i [] = writeRow e c data unc i := by
  simp [write, hi]

theorem writeRow_length (e : ℝ → ℝ) (k dim : ℕ) (c : Content) (hf : c.Fits k dim) (hd : dim = 2 ∨ dim = 3)
    (data unc : Option String) (i : ℕ) (hi : i < k) :
    (writeRow e c data unc i).length = (write e dim c data unc).headers.length := by
  obtain ⟨h1, h2, h3, h4⟩ := electrode_length c k dim hf i hi
  have := headers_length dim hd
  simp only [writeRow, write, List.length_map, List.length_append, h1, h2, h3, h4, this]
  cases data <;> cases unc <;> simp <;> omega

/-- The data found below their header. -/
theorem values_data (e : ℝ → ℝ) (k dim : ℕ) (c : Content) (hf : c.Fits k dim) (hd : dim = 2 ∨ dim = 3)
    (h : String) (unc : Option String) (hn : (write e dim c (some h) unc).headers.Nodup) (out : List ℕ)
    (ho : ∀ i ∈ out, i < k) :
    (write e dim c (some h) unc).values h out = out.map fun i => e (c.dobs.getD i 0) := by
  refine List.map_congr_left fun i hi => ?_
  have hk := ho i hi
  obtain ⟨h1, h2, h3, h4⟩ := electrode_length c k dim hf i hk
  rw [write_getD _ _ _ _ _ _ (by rw [hf.aFits.1]; exact hk)]
  have e1 : (write e dim c (some h) unc).headers =
      (if 4 * dim = 8 then headers2 else headers3) ++ h :: (unc.toList ++ c.dict.map Prod.fst) := by
    simp [write]
  have e2 : writeRow e c (some h) unc i =
      (c.a.getD i [] ++ c.b.getD i [] ++ c.m.getD i [] ++ c.n.getD i []).map e ++ e (c.dobs.getD i 0) ::
        ((if unc.isSome then [c.std.getD i 0] else []) ++ c.dict.map fun q => q.2.getD i 0).map e := by
    simp [writeRow]
  rw [e1] at hn ⊢
  rw [e2]
  refine cell _ _ _ _ _ _ ?_ ?_
  · rw [headers_length dim hd]; simp only [List.length_map, List.length_append, h1, h2, h3, h4]; omega
  · intro hm
    exact (List.nodup_append.mp hn).2.2 _ hm h (by simp) rfl

theorem values_unc (e : ℝ → ℝ) (k dim : ℕ) (c : Content) (hf : c.Fits k dim) (hd : dim = 2 ∨ dim = 3)
    (h : String) (data : Option String) (hn : (write e dim c data (some h)).headers.Nodup) (out : List ℕ)
    (ho : ∀ i ∈ out, i < k) :
    (write e dim c data (some h)).values h out = out.map fun i => e (c.std.getD i 0) := by
  refine List.map_congr_left fun i hi => ?_
  have hk := ho i hi
  obtain ⟨h1, h2, h3, h4⟩ := electrode_length c k dim hf i hk
  rw [write_getD _ _ _ _ _ _ (by rw [hf.aFits.1]; exact hk)]
  have e1 : (write e dim c data (some h)).headers =
      ((if 4 * dim = 8 then headers2 else headers3) ++ data.toList) ++ h :: c.dict.map Prod.fst := by
    simp [write]
  have e2 : writeRow e c data (some h) i =
      (c.a.getD i [] ++ c.b.getD i [] ++ c.m.getD i [] ++ c.n.getD i [] ++
        (if data.isSome then [c.dobs.getD i 0] else [])).map e ++ e (c.std.getD i 0) ::
        (c.dict.map fun q => q.2.getD i 0).map e := by
    simp [writeRow]
  rw [e1] at hn ⊢
  rw [e2]
  refine cell _ _ _ _ _ _ ?_ ?_
  · rw [List.length_append, headers_length dim hd]
    simp only [List.length_map, List.length_append, h1, h2, h3, h4]
    cases data <;> simp <;> omega
  · intro hm
    exact (List.nodup_append.mp hn).2.2 _ hm h (by simp) rfl

theorem values_dict (e : ℝ → ℝ) (k dim : ℕ) (c : Content) (hf : c.Fits k dim) (hd : dim = 2 ∨ dim = 3)
    (data unc : Option String) (hn : (write e dim c data unc).headers.Nodup) (out : List ℕ)
    (ho : ∀ i ∈ out, i < k) (q : String × List ℝ) (hq : q ∈ c.dict) :
    (write e dim c data unc).values q.1 out = out.map fun i => e (q.2.getD i 0) := by
  refine List.map_congr_left fun i hi => ?_
  have hk := ho i hi
  obtain ⟨h1, h2, h3, h4⟩ := electrode_length c k dim hf i hk
  rw [write_getD _ _ _ _ _ _ (by rw [hf.aFits.1]; exact hk)]
  obtain ⟨l1, l2, hl⟩ := List.append_of_mem hq
  have e1 : (write e dim c data unc).headers =
      ((if 4 * dim = 8 then headers2 else headers3) ++ data.toList ++ unc.toList ++ l1.map Prod.fst) ++
        q.1 :: l2.map Prod.fst := by
    simp [write, hl]
  have e2 : writeRow e c data unc i =
      (c.a.getD i [] ++ c.b.getD i [] ++ c.m.getD i [] ++ c.n.getD i [] ++
        (if data.isSome then [c.dobs.getD i 0] else []) ++ (if unc.isSome then [c.std.getD i 0] else []) ++
        l1.map fun q => q.2.getD i 0).map e ++ e (q.2.getD i 0) ::
        (l2.map fun q => q.2.getD i 0).map e := by
    simp [writeRow, hl]
  rw [e1] at hn ⊢
  rw [e2]
  refine cell _ _ _ _ _ _ ?_ ?_
  · rw [List.length_append, List.length_append, List.length_append, headers_length dim hd]
    simp only [List.length_map, List.length_append, h1, h2, h3, h4]
    cases data <;> cases unc <;> simp <;> omega
  · intro hm
    exact (List.nodup_append.mp hn).2.2 _ hm q.1 (by simp) rfl

theorem load_all (file : File) (hr : ∀ r ∈ file.rows, r.length = file.headers.length) :
    load (List.range file.headers.length) file.rows = file.rows := by
  rw [load_prefix _ _ fun r h => (hr r h).ge]
  conv_rhs => rw [← List.map_id file.rows]
  refine List.map_congr_left fun r h => ?_
  rw [← hr r h]
  simp

theorem dictColumns_eq (file : File) (width : ℕ) (arr : List (List ℝ)) (out : List ℕ)
    (e : ℝ → ℝ) (l : List (String × List ℝ))
    (h : ∀ q ∈ l, column file width arr out q.1 = .ok (out.map fun i => e (q.2.getD i 0))) :
    dictColumns file width arr out (l.map Prod.fst) =
      .ok (l.map fun q => (q.1, out.map fun i => e (q.2.getD i 0))) := by
  induction l with
  | nil => rfl
  | cons q r ih =>
    simp only [List.map_cons, dictColumns, h q (by simp), ih fun x hx => h x (by simp [hx])]

/-- The electrodes in the rows of a written file. -/
theorem write_pick (e : ℝ → ℝ) (k dim : ℕ) (c : Content) (hf : c.Fits k dim) (data unc : Option String)
    (off : ℕ) (l : List (List ℝ)) (cols : List ℕ) (hc : cols = (List.range dim).map (off + ·)) (w : ℕ)
    (hl : l.length = k ∧ ∀ r ∈ l, r.length = dim) (hw : off + dim ≤ w)
    (h : ∀ i < k, ∀ j < dim, (writeRow e c data unc i).getD (off + j) 0 = e ((l.getD i []).getD j 0)) :
    pick w (write e dim c data unc).rows cols = .ok (l.map fun r => r.map e) := by
  subst hc
  unfold pick
  rw [if_pos (by simp; intro x hx; omega)]
  congr 1
  refine List.ext_getElem (by simp [write, hf.aFits.1, hl.1]) fun i h1 h2 => ?_
  have hi : i < k := by simpa [hl.1] using h2
  have hi' : i < l.length := by omega
  have hlen := hl.2 l[i] (List.getElem_mem hi')
  simp only [List.getElem_map, write, List.getElem_range, List.map_map]
  refine List.ext_getElem (by simp [hlen]) fun j h3 h4 => ?_
  have hj : j < dim := by simpa using h3
  have hj' : j < l[i].length := by omega
  simp only [List.getElem_map, List.getElem_range, Function.comp]
  rw [h i hi j hj]
  simp [hi', hj']

theorem row_getD (e : ℝ → ℝ) (A B : List ℝ) (R : List ℝ) (off j : ℕ) (hA : A.length = off)
    (hj : j < B.length) : ((A ++ B ++ R).map e).getD (off + j) 0 = e (B.getD j 0) := by
  subst hA
  have h1 : A.length + j < ((A ++ B ++ R).map e).length := by simp; omega
  simp only [List.getD_eq_getElem?_getD, List.getElem?_eq_getElem h1, Option.getD_some, List.getElem_map]
  congr 1
  have h2 : A.length + j < (A ++ B).length := by simp; omega
  rw [List.getElem_append_left h2, List.getElem_append_right (by omega)]
  simp [hj]

/-- C156: partial: reading back all the columns of a file that was written, in the order of the file, calls
`generate_survey_from_abmn_locations` with the electrodes as printed and gives data, uncertainties and further
columns as printed, in the order of the survey. -/
theorem C156_round_trip_partial (e : ℝ → ℝ) (k dim : ℕ) (c : Content) (hf : c.Fits k dim)
    (hd : dim = 2 ∨ dim = 3) (hk : k ≠ 1) (data unc : Option String)
    (hn : (write e dim c data unc).headers.Nodup)
    (gen : List (List ℝ) → List (List ℝ) → List (List ℝ) → List (List ℝ) → Except Err (S × List ℕ))
    (survey : S) (out : List ℕ) (ho : ∀ i ∈ out, i < k)
    (hg : gen (c.a.map fun r => r.map e) (c.b.map fun r => r.map e) (c.m.map fun r => r.map e)
      (c.n.map fun r => r.map e) = .ok (survey, out)) :
    read gen ((if dim = 2 then request2 else request3) data unc (c.dict.map Prod.fst))
        (write e dim c data unc) =
      .ok ⟨survey, data.map fun _ => out.map fun i => e (c.dobs.getD i 0),
        unc.map fun _ => out.map fun i => e (c.std.getD i 0),
        some (c.dict.map fun q => (q.1, out.map fun i => e (q.2.getD i 0)))⟩ := by
  set f := write e dim c data unc with hfile
  set q := (if dim = 2 then request2 else request3) data unc (c.dict.map Prod.fst) with hq
  have hrows : f.rows.length = k := by simp [hfile, write, hf.aFits.1]
  have hout : q.out = f.headers := by
    rcases hd with rfl | rfl <;>
      simp [hq, hfile, request2, request3, Request.out, write, headers2, headers3]
  have hcols : f.headers.map (fun x => f.headers.idxOf x) = List.range f.headers.length := by
    have := idx_prefix f.headers [] (by simpa using hn)
    simpa using this
  have hlen : ∀ r ∈ f.rows, r.length = f.headers.length := by
    intro r hr
    simp only [hfile, write, List.mem_map, List.mem_range] at hr
    obtain ⟨i, hi, rfl⟩ := hr
    rw [hf.aFits.1] at hi
    exact writeRow_length e k dim c hf hd data unc i hi
  have hload := load_all f hlen
  have hwid : f.headers.length - q.others = 4 * dim := by
    rcases hd with rfl | rfl <;> cases data <;> cases unc <;>
      simp [hq, hfile, request2, request3, Request.others, write, headers2, headers3] <;> omega
  have hge : 4 * dim ≤ f.headers.length := by
    simp only [hfile, write, List.length_append, headers_length dim hd]; omega
  have hsur : q.surface = false := by
    rcases hd with rfl | rfl <;> simp [hq, request2, request3]
  have hdat : q.data = data ∧ q.unc = unc ∧ q.dict = some (c.dict.map Prod.fst) := by
    rcases hd with rfl | rfl <;> simp [hq, request2, request3]
  have hcol : ∀ h ∈ f.headers, column f f.headers.length f.rows out h = .ok (f.values h out) := by
    intro h hm
    have := C156_column_partial f f.headers [] (by simp) hn out (by rw [hrows]; exact ho) h hm
    rwa [hcols, hload] at this
  have hA : electrodeCols (4 * dim) = ((List.range dim).map (0 + ·), (List.range dim).map (dim + ·),
      (List.range dim).map (2 * dim + ·), (List.range dim).map (3 * dim + ·)) := by
    rcases hd with rfl | rfl <;> rfl
  have el := electrode_length c k dim hf
  have pa : pick f.headers.length f.rows ((List.range dim).map (0 + ·)) =
      .ok (c.a.map fun r => r.map e) := by
    refine write_pick e k dim c hf data unc 0 c.a _ rfl _ hf.aFits (by omega) fun i hi j hj => ?_
    obtain ⟨h1, h2, h3, h4⟩ := el i hi
    have := row_getD e [] (c.a.getD i []) (c.b.getD i [] ++ c.m.getD i [] ++ c.n.getD i [] ++
      (if data.isSome then [c.dobs.getD i 0] else []) ++ (if unc.isSome then [c.std.getD i 0] else []) ++
      c.dict.map fun q => q.2.getD i 0) 0 j (by simp) (by omega)
    rw [← this]
    simp only [writeRow, List.append_assoc, List.nil_append]
  have pb : pick f.headers.length f.rows ((List.range dim).map (dim + ·)) =
      .ok (c.b.map fun r => r.map e) := by
    refine write_pick e k dim c hf data unc dim c.b _ rfl _ hf.bFits (by omega) fun i hi j hj => ?_
    obtain ⟨h1, h2, h3, h4⟩ := el i hi
    have := row_getD e (c.a.getD i []) (c.b.getD i []) (c.m.getD i [] ++ c.n.getD i [] ++
      (if data.isSome then [c.dobs.getD i 0] else []) ++ (if unc.isSome then [c.std.getD i 0] else []) ++
      c.dict.map fun q => q.2.getD i 0) dim j h1 (by omega)
    rw [← this]
    simp only [writeRow, List.append_assoc]
  have pm : pick f.headers.length f.rows ((List.range dim).map (2 * dim + ·)) =
      .ok (c.m.map fun r => r.map e) := by
    refine write_pick e k dim c hf data unc (2 * dim) c.m _ rfl _ hf.mFits (by omega) fun i hi j hj => ?_
    obtain ⟨h1, h2, h3, h4⟩ := el i hi
    have := row_getD e (c.a.getD i [] ++ c.b.getD i []) (c.m.getD i []) (c.n.getD i [] ++
      (if data.isSome then [c.dobs.getD i 0] else []) ++ (if unc.isSome then [c.std.getD i 0] else []) ++
      c.dict.map fun q => q.2.getD i 0) (2 * dim) j (by rw [List.length_append]; omega) (by omega)
    rw [← this]
    simp only [writeRow, List.append_assoc]
  have pn : pick f.headers.length f.rows ((List.range dim).map (3 * dim + ·)) =
      .ok (c.n.map fun r => r.map e) := by
    refine write_pick e k dim c hf data unc (3 * dim) c.n _ rfl _ hf.nFits (by omega) fun i hi j hj => ?_
    obtain ⟨h1, h2, h3, h4⟩ := el i hi
    have := row_getD e (c.a.getD i [] ++ c.b.getD i [] ++ c.m.getD i []) (c.n.getD i [])
      ((if data.isSome then [c.dobs.getD i 0] else []) ++ (if unc.isSome then [c.std.getD i 0] else []) ++
      c.dict.map fun q => q.2.getD i 0) (3 * dim) j (by rw [List.length_append, List.length_append]; omega)
      (by omega)
    rw [← this]
    simp only [writeRow, List.append_assoc]
  have hdd : optColumn f f.headers.length f.rows out data =
      .ok (data.map fun _ => out.map fun i => e (c.dobs.getD i 0)) := by
    cases data with
    | none => rfl
    | some h =>
      simp only [optColumn, hcol h (by simp [hfile, write]), Option.map_some]
      rw [hfile, values_data e k dim c hf hd h unc hn out ho]
  have huu : optColumn f f.headers.length f.rows out unc =
      .ok (unc.map fun _ => out.map fun i => e (c.std.getD i 0)) := by
    cases unc with
    | none => rfl
    | some h =>
      simp only [optColumn, hcol h (by simp [hfile, write]), Option.map_some]
      rw [hfile, values_unc e k dim c hf hd h data hn out ho]
  have hdi : dictColumns f f.headers.length f.rows out (c.dict.map Prod.fst) =
      .ok (c.dict.map fun q => (q.1, out.map fun i => e (q.2.getD i 0))) := by
    refine dictColumns_eq f _ _ out e c.dict fun x hx => ?_
    rw [hcol x.1 (by simp only [hfile, write, List.mem_append, List.mem_map]; exact .inr ⟨x, hx, rfl⟩), hfile,
      values_dict e k dim c hf hd data unc hn out ho x hx]
  unfold read
  rw [mapM_index f.headers q.out (by rw [hout]; exact fun _ h => h), hout, hcols]
  simp only [List.length_range, hload, hrows, hk, if_false, hwid, hA, electrodes, hsur, pa, pb, pm, pn, hg,
    hdat.1, hdat.2.1, hdat.2.2, hdd, huu, hdi, Bool.false_eq_true]

/-- Two data of a line with a column of numbers. -/
example : (write id 2 ⟨[[0, 0], [1, 0]], [[2, 0], [3, 0]], [[4, 0], [5, 0]], [[6, 0], [7, 0]], [10, 20],
    [1, 2], [("Line", [100, 101])]⟩ (some "V") (some "U")).headers.Nodup ∧
    Content.Fits ⟨[[0, 0], [1, 0]], [[2, 0], [3, 0]], [[4, 0], [5, 0]], [[6, 0], [7, 0]], [10, 20],
      [1, 2], [("Line", [100, 101])]⟩ 2 2 := by
  refine ⟨?_, ?_⟩
  · simp only [write, headers2]
    decide
  · constructor <;> simp

end Props
end Verif.IO.Xyz
