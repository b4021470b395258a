import Verif.Basic
import Mathlib.Data.List.SplitOn
import Mathlib.Data.List.TakeDrop
import Mathlib.Data.List.Nodup
import Mathlib.Data.Real.Basic
import Mathlib.Tactic.Linarith
import Mathlib.Tactic.NormNum

/-!
# Triangulated surfaces and downloads

Model of `read_GOCAD_ts` and `download`, `/repo/simpeg/utils/io_utils/io_utils_general.py`. A file is
the list of its lines; reading beyond the end gives empty lines for ever, as `readline` does. Not
modelled: the network (what a URL delivers is a parameter), making of directories, messages.
-/

noncomputable section
namespace Verif.IO.General

abbrev Text := List Char

/-! ## Surfaces -/

/-- `fid.readline()` number `i`: a line, or the empty text at the end. -/
def lineAt (file : List Text) (i : ℕ) : Text := file.getD i []

/-- `re.match(key, line)`. -/
def isKey (key : String) (l : Text) : Bool := decide (key.toList <+: l)

/-- `re.split(r"[\s*]", line)`: split at each single blank or star. -/
def parts (l : Text) : List Text := l.splitOnP fun c => c.isWhitespace || c = '*'

/-- Where the reader is. -/
inductive Phase
  | face | vertices | middle | triangles
  deriving DecidableEq

structure State where
  pos : ℕ
  phase : Phase
  vrtx : List (List ℝ)
  trgl : List (List ℤ)

/-- Result of an iteration: go on, return, or an exception. -/
inductive Res
  | go (s : State)
  | done (vrtx : List (List ℝ)) (trgl : List (List ℤ))
  | fail

/-- `np.array(words).astype(..)`. -/
def parse {α : Type} (num : Text → Option α) (ws : List Text) : Option (List α) := ws.mapM num

/-- One iteration of the loops of `read_GOCAD_ts`, `io_utils_general.py` 24-61. `real` and `int` parse
numbers. Arrays with rows of different lengths (short lines) are not told apart from others. -/
def step (real : Text → Option ℝ) (int : Text → Option ℤ) (file : List Text) (s : State) : Res :=
  let line := lineAt file s.pos
  match s.phase with
  | .face => .go { s with pos := s.pos + 1, phase := if isKey "TFACE" line then .vertices else .face }
  | .vertices =>
    if isKey "VRTX" line then
      match parse real (((parts line).take 5).drop 2) with
      | some v => .go { s with pos := s.pos + 1, vrtx := s.vrtx ++ [v] }
      | none => .fail
    else .go { s with phase := .middle }
  | .middle =>
    if isKey "TRGL" line then .go { s with phase := .triangles }
    else .go { s with pos := s.pos + 1 }
  | .triangles =>
    if isKey "TRGL" line then
      match parse int (((parts line).take 4).drop 1) with
      | some v => .go { s with pos := s.pos + 1, trgl := s.trgl ++ [v] }
      | none => .fail
    else .done s.vrtx s.trgl

/-- At most `n` iterations. -/
def iterate (real : Text → Option ℝ) (int : Text → Option ℤ) (file : List Text) : ℕ → State → Res
  | 0, s => .go s
  | n + 1, s => match step real int file s with
    | .go s' => iterate real int file n s'
    | r => r

def start : State := ⟨0, .face, [], []⟩

/-- The function ends with a result. -/
def Returns (real : Text → Option ℝ) (int : Text → Option ℤ) (file : List Text)
    (v : List (List ℝ)) (t : List (List ℤ)) : Prop := ∃ n, iterate real int file n start = .done v t

/-- The function never ends. -/
def Hangs (real : Text → Option ℝ) (int : Text → Option ℤ) (file : List Text) : Prop :=
  ∀ n, ∃ s, iterate real int file n start = .go s

/-- Words with one blank between them, and the end of the line. -/
def joined : List Text → Text
  | [] => ['\n']
  | [w] => w ++ ['\n']
  | w :: ws => w ++ ' ' :: joined ws

/-- A word has no blank and no star. -/
def Word (w : Text) : Prop := ∀ c ∈ w, (c.isWhitespace || c = '*') = false

theorem split_word (w r : Text) (c : Char) (hw : Word w) (hc : (c.isWhitespace || c = '*') = true) :
    parts (w ++ c :: r) = w :: parts r := by
  unfold parts
  exact List.splitOnP_append_cons_of_forall_mem hw c hc r

theorem parts_joined (ws : List Text) (h : ∀ w ∈ ws, Word w) (h0 : ws ≠ []) :
    parts (joined ws) = ws ++ [[]] := by
  have hend : parts [] = [[]] := by simp [parts]
  induction ws with
  | nil => exact absurd rfl h0
  | cons w ws ih =>
    cases ws with
    | nil =>
      rw [joined, split_word w [] '\n' (h w (by simp)) (by decide), hend]
      rfl
    | cons x xs =>
      rw [joined, split_word w _ ' ' (h w (by simp)) (by decide),
        ih (fun y hy => h y (List.mem_cons_of_mem _ hy)) (by simp)]
      · rfl
      · simp

theorem key_joined (key : String) (a : Text) (ws : List Text) (h : key.toList <+: a) :
    isKey key (joined (a :: ws)) = true := by
  have : a <+: joined (a :: ws) := by
    cases ws with
    | nil => exact ⟨['\n'], rfl⟩
    | cons x xs => exact ⟨' ' :: joined (x :: xs), rfl⟩
  simp [isKey, h.trans this]

/-! ## Specification -/

/-- A vertex: number, coordinates, and further words of the line. -/
structure Vertex where
  id : Text
  x : Text
  y : Text
  z : Text
  more : List Text

/-- Its line, one blank between words. -/
def Vertex.line (v : Vertex) : Text := joined ("VRTX".toList :: v.id :: v.x :: v.y :: v.z :: v.more)

/-- A triangle: the numbers of its corners, and further words of the line. -/
structure Triangle where
  a : Text
  b : Text
  c : Text
  more : List Text

def Triangle.line (t : Triangle) : Text := joined ("TRGL".toList :: t.a :: t.b :: t.c :: t.more)

def Vertex.Ok (v : Vertex) : Prop := Word v.id ∧ Word v.x ∧ Word v.y ∧ Word v.z ∧ ∀ w ∈ v.more, Word w
def Triangle.Ok (t : Triangle) : Prop := Word t.a ∧ Word t.b ∧ Word t.c ∧ ∀ w ∈ t.more, Word w

section
variable (real : Text → Option ℝ) (int : Text → Option ℤ) (file : List Text)

/-- Some iterations lead from one state to another. -/
def Reach (s s' : State) : Prop := ∃ n, iterate real int file n s = .go s'

variable {real int file}

theorem iterate_add (m n : ℕ) (s s' : State) (h : iterate real int file m s = .go s') :
    iterate real int file (m + n) s = iterate real int file n s' := by
  induction m generalizing s with
  | zero => cases h; rw [Nat.zero_add]
  | succ m ih =>
    rw [Nat.succ_add, iterate]
    rw [iterate] at h
    cases hs : step real int file s with
    | go s1 => rw [hs] at h; exact ih s1 h
    | done v t => rw [hs] at h; cases h
    | fail => rw [hs] at h; cases h

theorem Reach.trans {s s' s'' : State} (h : Reach real int file s s') (h' : Reach real int file s' s'') :
    Reach real int file s s'' := by
  obtain ⟨m, h⟩ := h
  obtain ⟨n, h'⟩ := h'
  exact ⟨m + n, by rw [iterate_add m n s s' h, h']⟩

theorem Reach.one {s s' : State} (h : step real int file s = .go s') : Reach real int file s s' :=
  ⟨1, by rw [iterate, h]; rfl⟩

theorem Reach.refl (s : State) : Reach real int file s s := ⟨0, rfl⟩
end

theorem lineAt_mid (a b : List Text) (l : Text) : lineAt (a ++ l :: b) a.length = l := by
  simp [lineAt]

theorem skip_face (real int) (a l b : List Text) (v t) (h : ∀ x ∈ l, isKey "TFACE" x = false) :
    Reach real int (a ++ l ++ b) ⟨a.length, .face, v, t⟩ ⟨(a ++ l).length, .face, v, t⟩ := by
  induction l generalizing a with
  | nil => simpa using Reach.refl _
  | cons x l ih =>
    have := ih (a ++ [x]) fun y hy => h y (List.mem_cons_of_mem _ hy)
    refine Reach.trans (Reach.one (s' := ⟨(a ++ [x]).length, .face, v, t⟩) ?_) (by simpa using this)
    simp [step, lineAt, h x (by simp)]

theorem skip_middle (real int) (a l b : List Text) (v t) (h : ∀ x ∈ l, isKey "TRGL" x = false) :
    Reach real int (a ++ l ++ b) ⟨a.length, .middle, v, t⟩ ⟨(a ++ l).length, .middle, v, t⟩ := by
  induction l generalizing a with
  | nil => simpa using Reach.refl _
  | cons x l ih =>
    have := ih (a ++ [x]) fun y hy => h y (List.mem_cons_of_mem _ hy)
    refine Reach.trans (Reach.one (s' := ⟨(a ++ [x]).length, .middle, v, t⟩) ?_) (by simpa using this)
    simp [step, lineAt, h x (by simp)]

theorem word_key (k : String) (h : ∀ c ∈ k.toList, (c.isWhitespace || c = '*') = false) :
    Word k.toList := h

theorem read_vertices (real : Text → Option ℝ) (int) (val : Text → ℝ) (vs : List Vertex)
    (hv : ∀ v ∈ vs, v.Ok ∧ ∀ w ∈ [v.x, v.y, v.z], real w = some (val w)) (a b : List Text) (u t) :
    Reach real int (a ++ vs.map Vertex.line ++ b) ⟨a.length, .vertices, u, t⟩
      ⟨(a ++ vs.map Vertex.line).length, .vertices, u ++ vs.map (fun v => [val v.x, val v.y, val v.z]),
        t⟩ := by
  induction vs generalizing a u with
  | nil => simpa using Reach.refl _
  | cons v vs ih =>
    have := ih (fun y hy => hv y (List.mem_cons_of_mem _ hy)) (a ++ [v.line])
      (u ++ [[val v.x, val v.y, val v.z]])
    refine Reach.trans (Reach.one (s' := ⟨(a ++ [v.line]).length, .vertices,
      u ++ [[val v.x, val v.y, val v.z]], t⟩) ?_) (by simpa using this)
    obtain ⟨⟨o1, o2, o3, o4, o5⟩, hw⟩ := hv v (by simp)
    have hp : parts v.line = "VRTX".toList :: v.id :: v.x :: v.y :: v.z :: (v.more ++ [[]]) := by
      rw [Vertex.line, parts_joined _ _ (by simp)]
      · rfl
      · intro w hw
        simp only [List.mem_cons] at hw
        rcases hw with rfl | rfl | rfl | rfl | rfl | hw
        · exact word_key "VRTX" (by decide)
        all_goals first | assumption | exact o5 w hw
    have hk : isKey "VRTX" v.line = true := key_joined _ _ _ (by decide)
    have hl : lineAt (a ++ (v :: vs).map Vertex.line ++ b) a.length = v.line := by
      simp [lineAt]
    simp only [step, hl, hk, if_true, hp]
    have : parse real [v.x, v.y, v.z] = some [val v.x, val v.y, val v.z] := by
      simp [parse, hw v.x (by simp), hw v.y (by simp), hw v.z (by simp)]
    simp [this]

theorem read_triangles (real) (int : Text → Option ℤ) (val : Text → ℤ) (ts : List Triangle)
    (hv : ∀ v ∈ ts, v.Ok ∧ ∀ w ∈ [v.a, v.b, v.c], int w = some (val w)) (a b : List Text) (u t) :
    Reach real int (a ++ ts.map Triangle.line ++ b) ⟨a.length, .triangles, u, t⟩
      ⟨(a ++ ts.map Triangle.line).length, .triangles, u,
        t ++ ts.map (fun v => [val v.a, val v.b, val v.c])⟩ := by
  induction ts generalizing a t with
  | nil => simpa using Reach.refl _
  | cons v ts ih =>
    have := ih (fun y hy => hv y (List.mem_cons_of_mem _ hy)) (a ++ [v.line])
      (t ++ [[val v.a, val v.b, val v.c]])
    refine Reach.trans (Reach.one (s' := ⟨(a ++ [v.line]).length, .triangles, u,
      t ++ [[val v.a, val v.b, val v.c]]⟩) ?_) (by simpa using this)
    obtain ⟨⟨o1, o2, o3, o5⟩, hw⟩ := hv v (by simp)
    have hp : parts v.line = "TRGL".toList :: v.a :: v.b :: v.c :: (v.more ++ [[]]) := by
      rw [Triangle.line, parts_joined _ _ (by simp)]
      · rfl
      · intro w hw
        simp only [List.mem_cons] at hw
        rcases hw with rfl | rfl | rfl | rfl | hw
        · exact word_key "TRGL" (by decide)
        all_goals first | assumption | exact o5 w hw
    have hk : isKey "TRGL" v.line = true := key_joined _ _ _ (by decide)
    have hl : lineAt (a ++ (v :: ts).map Triangle.line ++ b) a.length = v.line := by
      simp [lineAt]
    simp only [step, hl, hk, if_true, hp]
    have : parse int [v.a, v.b, v.c] = some [val v.a, val v.b, val v.c] := by
      simp [parse, hw v.a (by simp), hw v.b (by simp), hw v.c (by simp)]
    simp [this]

/-- **C171**, surfaces. A file with a line `TFACE`, lines of vertices after it, other lines, lines of
triangles, and anything after them, words being separated by one blank: the coordinates of all
vertices and the corners of all triangles are returned, in their order. (Partial: see the violations
below; `mid` starts with no vertex and has no triangle.) -/
theorem C171_surface_partial (real : Text → Option ℝ) (int : Text → Option ℤ) (rv : Text → ℝ)
    (iv : Text → ℤ) (pre : List Text) (face : Text) (vs : List Vertex) (mid : List Text)
    (ts : List Triangle) (post : List Text)
    (hpre : ∀ l ∈ pre, isKey "TFACE" l = false) (hface : isKey "TFACE" face = true)
    (hv : ∀ v ∈ vs, v.Ok ∧ ∀ w ∈ [v.x, v.y, v.z], real w = some (rv w))
    (hmid : ∀ l ∈ mid, isKey "TRGL" l = false) (hm0 : ∀ l ∈ mid.head?, isKey "VRTX" l = false)
    (ht : ∀ t ∈ ts, t.Ok ∧ ∀ w ∈ [t.a, t.b, t.c], int w = some (iv w)) (hts : ts ≠ [])
    (hpost : ∀ l ∈ post.head?, isKey "TRGL" l = false) :
    Returns real int (pre ++ face :: (vs.map Vertex.line ++ mid ++ ts.map Triangle.line ++ post))
      (vs.map fun v => [rv v.x, rv v.y, rv v.z]) (ts.map fun t => [iv t.a, iv t.b, iv t.c]) := by
  set file := pre ++ face :: (vs.map Vertex.line ++ mid ++ ts.map Triangle.line ++ post) with hfile
  let p1 := pre ++ [face]
  let p2 := p1 ++ vs.map Vertex.line
  let p3 := p2 ++ mid
  let p4 := p3 ++ ts.map Triangle.line
  let V := vs.map fun v => [rv v.x, rv v.y, rv v.z]
  let T := ts.map fun t => [iv t.a, iv t.b, iv t.c]
  obtain ⟨t0, ts', rfl⟩ : ∃ t0 ts', ts = t0 :: ts' := by
    cases ts with
    | nil => exact absurd rfl hts
    | cons a b => exact ⟨a, b, rfl⟩
  have s1 : Reach real int file start ⟨pre.length, .face, [], []⟩ := by
    have := skip_face real int [] pre (face :: (vs.map Vertex.line ++ mid ++
      (t0 :: ts').map Triangle.line ++ post)) [] [] hpre
    simpa [hfile, start] using this
  have s2 : Reach real int file ⟨pre.length, .face, [], []⟩ ⟨p1.length, .vertices, [], []⟩ := by
    apply Reach.one
    simp only [step, hfile, lineAt_mid, hface]
    simp [p1]
  have s3 : Reach real int file ⟨p1.length, .vertices, [], []⟩ ⟨p2.length, .vertices, V, []⟩ := by
    have := read_vertices real int rv vs hv p1 (mid ++ (t0 :: ts').map Triangle.line ++ post) [] []
    simpa [hfile, p1, p2, V] using this
  have s4 : Reach real int file ⟨p2.length, .vertices, V, []⟩ ⟨p2.length, .middle, V, []⟩ := by
    apply Reach.one
    have hl : isKey "VRTX" (lineAt file p2.length) = false := by
      have : file = p2 ++ (mid ++ (t0 :: ts').map Triangle.line ++ post) := by
        simp [hfile, p1, p2]
      rw [this]
      cases mid with
      | nil =>
        rw [List.nil_append, List.map_cons, List.cons_append, lineAt_mid, Triangle.line]
        cases t0.more <;> rfl
      | cons m mid =>
        rw [List.cons_append, List.cons_append, lineAt_mid]
        exact hm0 m (by simp)
    simp [step, hl]
  have s5 : Reach real int file ⟨p2.length, .middle, V, []⟩ ⟨p3.length, .middle, V, []⟩ := by
    have := skip_middle real int p2 mid ((t0 :: ts').map Triangle.line ++ post) V [] hmid
    simpa [hfile, p1, p2, p3] using this
  have s6 : Reach real int file ⟨p3.length, .middle, V, []⟩ ⟨p3.length, .triangles, V, []⟩ := by
    apply Reach.one
    have : file = p3 ++ t0.line :: (ts'.map Triangle.line ++ post) := by
      simp [hfile, p1, p2, p3]
    have hk : isKey "TRGL" t0.line = true := key_joined _ _ _ (by decide)
    simp only [step, this, lineAt_mid, hk, if_true]
  have s7 : Reach real int file ⟨p3.length, .triangles, V, []⟩ ⟨p4.length, .triangles, V, T⟩ := by
    have := read_triangles real int iv (t0 :: ts') ht p3 post V []
    simpa [hfile, p1, p2, p3, p4, T] using this
  obtain ⟨n, hn⟩ := s1.trans (s2.trans (s3.trans (s4.trans (s5.trans (s6.trans s7)))))
  refine ⟨n + 1, ?_⟩
  rw [iterate_add n 1 _ _ hn, iterate]
  have hl : isKey "TRGL" (lineAt file p4.length) = false := by
    have : file = p4 ++ post := by simp [hfile, p1, p2, p3, p4]
    rw [this]
    cases post with
    | nil => simp [lineAt]; rfl
    | cons x post => rw [lineAt_mid]; exact hpost x (by simp)
  simp [step, hl, V, T]

/-- The result is unique. -/
theorem C171_unique (real int) (file : List Text) (v v' t t') (h : Returns real int file v t)
    (h' : Returns real int file v' t') : v = v' ∧ t = t' := by
  have stable : ∀ n m s, iterate real int file n s = .done v t → n ≤ m →
      iterate real int file m s = .done v t := by
    intro n
    induction n with
    | zero => intro m s h; cases h
    | succ n ih =>
      intro m s h hm
      obtain ⟨m, rfl⟩ : ∃ k, m = k + 1 := ⟨m - 1, by omega⟩
      rw [iterate] at h ⊢
      cases hs : step real int file s with
      | go s1 => rw [hs] at h; exact ih m s1 h (by omega)
      | done a b => rw [hs] at h; exact h
      | fail => rw [hs] at h; cases h
  have stable' : ∀ n m s, iterate real int file n s = .done v' t' → n ≤ m →
      iterate real int file m s = .done v' t' := by
    intro n
    induction n with
    | zero => intro m s h; cases h
    | succ n ih =>
      intro m s h hm
      obtain ⟨m, rfl⟩ : ∃ k, m = k + 1 := ⟨m - 1, by omega⟩
      rw [iterate] at h ⊢
      cases hs : step real int file s with
      | go s1 => rw [hs] at h; exact ih m s1 h (by omega)
      | done a b => rw [hs] at h; exact h
      | fail => rw [hs] at h; cases h
  obtain ⟨n, hn⟩ := h
  obtain ⟨m, hm⟩ := h'
  have a := stable n (n + m) start hn (by omega)
  have b := stable' m (n + m) start hm (by omega)
  rw [a] at b
  cases b
  exact ⟨rfl, rfl⟩

/-- **C171** fails for files without the expected lines: without a line `TFACE` the function never
ends, and without a line `TRGL` it never returns. -/
theorem C171_violated_hang (real int) (file : List Text) :
    ((∀ l ∈ file, isKey "TFACE" l = false) → Hangs real int file) ∧
    ((∀ l ∈ file, isKey "TRGL" l = false) → ∀ v t, ¬ Returns real int file v t) := by
  have at_end : ∀ (k : String) (i : ℕ), isKey k [] = false → (∀ l ∈ file, isKey k l = false) →
      isKey k (lineAt file i) = false := by
    intro k i h0 h
    rcases lt_or_ge i file.length with hi | hi
    · have : lineAt file i = file[i] := by simp [lineAt, hi]
      rw [this]
      exact h _ (List.getElem_mem hi)
    · have : lineAt file i = [] := by simp [lineAt, List.getElem?_eq_none hi]
      rw [this]
      exact h0
  constructor
  · intro h n
    suffices H : ∀ n s, s.phase = .face → ∃ s', iterate real int file n s = .go s' from
      H n start rfl
    intro n
    induction n with
    | zero => exact fun s _ => ⟨s, rfl⟩
    | succ n ih =>
      intro s hs
      have : step real int file s = .go { s with pos := s.pos + 1, phase := .face } := by
        simp [step, hs, at_end "TFACE" s.pos rfl h]
      rw [iterate, this]
      exact ih _ rfl
  · rintro h v t ⟨n, hn⟩
    suffices H : ∀ n s, s.phase ≠ .triangles → iterate real int file n s ≠ .done v t from
      H n start (by simp [start]) hn
    intro n
    induction n with
    | zero => intro s _ h; cases h
    | succ n ih =>
      intro s hs
      rw [iterate]
      cases hst : step real int file s with
      | fail => simp
      | done a b =>
        exfalso
        unfold step at hst
        cases hp : s.phase with
        | face => simp [hp] at hst
        | vertices => simp only [hp] at hst; split at hst <;> try split at hst
                      all_goals cases hst
        | middle => simp [hp, at_end "TRGL" s.pos rfl h] at hst
        | triangles => exact hs hp
      | go s1 =>
        refine ih s1 ?_
        unfold step at hst
        cases hp : s.phase with
        | face =>
          simp only [hp] at hst
          cases hst
          dsimp only
          split <;> simp
        | vertices =>
          simp only [hp] at hst
          split at hst
          · split at hst
            · cases hst; simp [hp]
            · cases hst
          · cases hst; simp
        | middle =>
          simp only [hp, at_end "TRGL" s.pos rfl h, Bool.false_eq_true, if_false] at hst
          cases hst
          simp [hp]
        | triangles => exact absurd hp hs

/-- **C171** fails for lines with two blanks after `VRTX`: the number of the vertex is returned as its
first coordinate and the third one is lost. -/
theorem C171_violated_blanks (real : Text → Option ℝ) (int : Text → Option ℤ) (rv : Text → ℝ)
    (iv : Text → ℤ) (i x y z : Text) (t : Triangle) (hw : ∀ w ∈ [i, x, y, z], Word w)
    (hr : ∀ w ∈ [i, x, y, z], real w = some (rv w)) (ht : t.Ok)
    (hi : ∀ w ∈ [t.a, t.b, t.c], int w = some (iv w)) :
    Returns real int ["TFACE\n".toList, "VRTX  ".toList ++ joined [i, x, y, z], t.line]
      [[rv i, rv x, rv y]] [[iv t.a, iv t.b, iv t.c]] := by
  have := C171_surface_partial real int rv iv [] "TFACE\n".toList [⟨[], i, x, y, [z]⟩] [] [t] []
    (by simp) (by decide) (by
      simp only [List.mem_singleton, forall_eq]
      refine ⟨⟨by simp [Word], hw i (by simp), hw x (by simp), hw y (by simp), ?_⟩, ?_⟩
      · intro w h
        exact hw w (by simp at h; simp [h])
      · intro w h
        exact hr w (by simp at h ⊢; tauto)) (by simp) (by simp) (by simpa using ⟨ht, by simpa using hi⟩)
    (by simp) (by simp)
  exact this

/-- **C171** fails for surfaces of several parts, or with vertices that carry properties: only the
first list of triangles, and only the vertices up to the first line of another kind, are returned. -/
theorem C171_violated_parts (real : Text → Option ℝ) (int : Text → Option ℤ) (rv : Text → ℝ)
    (iv : Text → ℤ) (vs us : List Vertex) (ts rs : List Triangle) (w : Text)
    (hv : ∀ v ∈ vs, v.Ok ∧ ∀ w ∈ [v.x, v.y, v.z], real w = some (rv w))
    (ht : ∀ t ∈ ts, t.Ok ∧ ∀ w ∈ [t.a, t.b, t.c], int w = some (iv w)) (hts : ts ≠ []) :
    Returns real int ("TFACE\n".toList :: (vs.map Vertex.line ++ [] ++ ts.map Triangle.line ++
        ("TFACE\n".toList :: (us.map Vertex.line ++ rs.map Triangle.line))))
      (vs.map fun v => [rv v.x, rv v.y, rv v.z]) (ts.map fun t => [iv t.a, iv t.b, iv t.c]) ∧
    Returns real int ("TFACE\n".toList :: (vs.map Vertex.line ++
        (("PVRTX ".toList ++ w) :: us.map Vertex.line) ++ ts.map Triangle.line ++ []))
      (vs.map fun v => [rv v.x, rv v.y, rv v.z]) (ts.map fun t => [iv t.a, iv t.b, iv t.c]) := by
  have hu : ∀ u : Vertex, isKey "TRGL" u.line = false := fun u => rfl
  constructor
  · exact C171_surface_partial real int rv iv [] _ vs [] ts _ (by simp) (by decide) hv (by simp)
      (by simp) ht hts (by simp; rfl)
  · refine C171_surface_partial real int rv iv [] _ vs _ ts [] (by simp) (by decide) hv ?_
      (by simp; rfl) ht hts (by simp)
    intro l hl
    rcases List.mem_cons.1 hl with rfl | hl
    · rfl
    · obtain ⟨u, -, rfl⟩ := List.mem_map.1 hl
      exact hu u

/-- A vertex and a triangle. -/
example : (⟨"1".toList, "0.5".toList, "2".toList, "-3".toList, []⟩ : Vertex).Ok ∧
    (⟨"1".toList, "2".toList, "3".toList, []⟩ : Triangle).Ok ∧
    isKey "TFACE" "GOCAD TSurf 1\n".toList = false ∧
    (⟨"1".toList, "0.5".toList, "2".toList, "-3".toList, []⟩ : Vertex).line = "VRTX 1 0.5 2 -3\n".toList := by
  refine ⟨⟨?_, ?_, ?_, ?_, ?_⟩, ⟨?_, ?_, ?_, ?_⟩, by decide, rfl⟩ <;> first | decide | simp [Word]

/-! ## Downloads -/

/-- `u.split("/")[-1]`, `io_utils_general.py` 125-128. -/
def nameOf (u : Text) : Text := ((u.splitOnP (· = '/')).getLast?).getD []

/-- `os.path.sep.join([folder, f])`, `io_utils_general.py` 130. -/
def pathOf (folder f : Text) : Text := folder ++ '/' :: f

/-- The path a file is stored at, `io_utils_general.py` 133-145. The loop that finds a new name runs
while `os.path.exists is True`; this compares the function, not its value, so it never runs. -/
def target (_overwrite : Bool) {C : Type} (_fs : Text → Option C) (path : Text) : Text := path

/-- `download` of a list of URLs, `io_utils_general.py` 121-156: the new files and the paths. `fs` are
the files before, `get` is what a URL delivers. -/
def download {C : Type} (fs : Text → Option C) (get : Text → C) (folder : Text) (urls : List Text)
    (overwrite : Bool) : (Text → Option C) × List Text :=
  let paths := urls.map fun u => target overwrite fs (pathOf folder (nameOf u))
  ((urls.zip paths).foldl (fun fs up => Function.update fs up.2 (some (get up.1))) fs, paths)

theorem download_fold {C : Type} (get : Text → C) (g : Text → Text) (urls : List Text)
    (hn : (urls.map g).Nodup) (fs : Text → Option C) :
    let r := (urls.zip (urls.map g)).foldl
      (fun (fs : Text → Option C) up => Function.update fs up.2 (some (get up.1))) fs
    (∀ u ∈ urls, r (g u) = some (get u)) ∧ ∀ p, p ∉ urls.map g → r p = fs p := by
  induction urls generalizing fs with
  | nil => simp
  | cons a urls ih =>
    rw [List.map_cons, List.nodup_cons] at hn
    obtain ⟨h1, h2⟩ := ih hn.2 (Function.update fs (g a) (some (get a)))
    simp only [List.map_cons, List.zip_cons_cons, List.foldl_cons]
    refine ⟨fun u hu => ?_, fun p hp => ?_⟩
    · rcases List.mem_cons.1 hu with rfl | hu
      · rw [h2 _ hn.1, Function.update_self]
      · exact h1 u hu
    · rw [List.mem_cons, not_or] at hp
      rw [h2 p hp.2, Function.update_of_ne hp.1]

theorem pathOf_inj (folder a b : Text) (h : pathOf folder a = pathOf folder b) : a = b := by
  simpa [pathOf] using h

/-- **C171**, downloads. If the URLs end with different names, all files are in the folder afterwards,
under the returned paths, in the order of the URLs, and no other file is changed. (Partial: see
`C171_violated_overwrite` and `C171_violated_same`.) -/
theorem C171_download_partial {C : Type} (fs : Text → Option C) (get : Text → C) (folder : Text)
    (urls : List Text) (ow : Bool) (hn : (urls.map nameOf).Nodup) :
    (download fs get folder urls ow).2 = urls.map (fun u => folder ++ '/' :: nameOf u) ∧
    (∀ u ∈ urls, (download fs get folder urls ow).1 (folder ++ '/' :: nameOf u) = some (get u)) ∧
    ∀ p, p ∉ (download fs get folder urls ow).2 → (download fs get folder urls ow).1 p = fs p := by
  have hg : (urls.map fun u => pathOf folder (nameOf u)).Nodup := by
    have := List.Nodup.map (f := pathOf folder) (fun a b h => pathOf_inj folder a b h) hn
    rwa [List.map_map] at this
  obtain ⟨a, b⟩ := download_fold get (fun u => pathOf folder (nameOf u)) urls hg fs
  exact ⟨rfl, a, b⟩

/-- **C171** fails for `overwrite=False`: an existing file is replaced. -/
theorem C171_violated_overwrite {C : Type} (fs : Text → Option C) (get : Text → C) (folder u : Text)
    (old : C) (_hold : fs (folder ++ '/' :: nameOf u) = some old) :
    (download fs get folder [u] false).1 (folder ++ '/' :: nameOf u) = some (get u) ∧
    (download fs get folder [u] false).2 = [folder ++ '/' :: nameOf u] :=
  ⟨(C171_download_partial fs get folder [u] false (by simp)).2.1 u (by simp), rfl⟩

/-- **C171** fails for two URLs that end with the same name: both get the same path, and the first
file is lost. -/
theorem C171_violated_same {C : Type} (fs : Text → Option C) (get : Text → C) (folder a b f : Text)
    (ow : Bool) (hf : '/' ∉ f) :
    (download fs get folder [a ++ '/' :: f, b ++ '/' :: f] ow).2 =
      [folder ++ '/' :: f, folder ++ '/' :: f] ∧
    (download fs get folder [a ++ '/' :: f, b ++ '/' :: f] ow).1 (folder ++ '/' :: f) =
      some (get (b ++ '/' :: f)) := by
  have hn : ∀ a : Text, nameOf (a ++ '/' :: f) = f := by
    intro a
    have h1 : List.splitOnP (fun c => decide (c = '/')) (a ++ '/' :: f) =
        List.splitOnP (fun c => decide (c = '/')) a ++ List.splitOnP (fun c => decide (c = '/')) f :=
      List.splitOnP_append_cons a f (by simp)
    have h2 : List.splitOnP (fun c => decide (c = '/')) f = [f] := by
      apply List.splitOnP_eq_singleton
      intro x hx
      have : x ≠ '/' := fun h => hf (h ▸ hx)
      simp [this]
    rw [nameOf, h1, h2]
    simp
  constructor
  · simp [download, target, pathOf, hn]
  · simp [download, target, pathOf, hn]

/-- Two URLs with different names. -/
example : ((["https://a.org/x/one.obs", "https://a.org/x/two.obs"].map String.toList).map nameOf).Nodup ∧
    nameOf "https://a.org/x/one.obs".toList = "one.obs".toList := by decide

end Verif.IO.General
