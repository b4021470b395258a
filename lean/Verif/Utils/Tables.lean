import Verif.Basic
import Mathlib.Algebra.BigOperators.Group.List.Basic
import Mathlib.Tactic.Linarith

/-! Model of the tables printed during an inversion: `print_titles`, `print_line`, `print_done` and
`print_stoppers` (`simpeg/utils/code_utils.py` 192-328), for C202. Text is a list of characters. -/

namespace Verif.Utils.Tables
open Verif

/-- Text. -/
abbrev Text := List Char

/-- `"{:^w}".format(s)`: centred in `w` characters, the odd blank on the right; text that is too long
stays as it is. -/
def center (w : Nat) (s : Text) : Text :=
  List.replicate ((w - s.length) / 2) ' ' ++ s ++ List.replicate (w - s.length - (w - s.length) / 2) ' '

/-- One printer: its title, its width, and the formatted value of an object, or `none` where the value
is None (259-265). -/
structure Printer (O : Type) where
  title : Text
  width : Nat
  value : O → Option Text

variable {O : Type}

/-- The sum of the widths, by the loop of 235-239. -/
def widths (ps : List (Printer O)) : Nat := ps.foldl (fun w p => w + p.width) 0

/-- The titles (235-238). -/
def titles (ps : List (Printer O)) : Text := ps.foldl (fun t p => t ++ center p.width p.title) []

/-- `n` characters of a line, none for a negative number. -/
def rule (c : Char) (n : Int) : Text := List.replicate n.toNat c

/-- `"{0} {1} {0}".format("=" * ((widths - 1 - len(name)) // 2), name)` (213, 239); `//` rounds down. -/
def header (ps : List (Printer O)) (name : Text) : Text :=
  let eq := rule '=' (((widths ps : Int) - 1 - name.length) / 2)
  eq ++ [' '] ++ name ++ [' '] ++ eq

/-- `print_titles` (218-241): three lines. `"%s" % "-" * widths` is the sign repeated. -/
def printTitles (ps : List (Printer O)) (name pad : Text) : List Text :=
  [pad ++ header ps name, pad ++ titles ps, pad ++ List.replicate (widths ps) '-']

/-- `print_line` (244-267). -/
def printLine (obj : O) (ps : List (Printer O)) (pad : Text) : Text :=
  pad ++ ps.foldl (fun t p => t ++ center p.width ((p.value obj).getD [])) []

/-- A rule for stopping: the two sides, and the text for a truth value and two numbers. -/
structure Stopper (O : Type) where
  left : O → Int
  right : O → Int
  str : Bool → Int → Int → Text

/-- `print_stoppers` (305-328). -/
def printStoppers (obj : O) (ss : List (Stopper O)) (pad stop done : Text) : List Text :=
  [pad ++ List.replicate 25 '-' ++ stop ++ List.replicate 25 '-'] ++
  ss.map (fun s => pad ++ s.str (s.left obj ≤ s.right obj) (s.left obj) (s.right obj)) ++
  [pad ++ List.replicate 25 '-' ++ done ++ List.replicate 25 '-']

namespace Props

/-! ### C202 -/

theorem length_center (w : Nat) (s : Text) (h : s.length ≤ w) : (center w s).length = w := by
  simp only [center, List.length_append, List.length_replicate]
  omega

theorem foldl_append {α : Type} (f : α → Text) (ps : List α) (t : Text) :
    ps.foldl (fun t p => t ++ f p) t = t ++ ps.flatMap f := by
  induction ps generalizing t with
  | nil => simp
  | cons p ps ih => rw [List.foldl_cons, ih, List.flatMap_cons, List.append_assoc]

theorem foldl_add (ps : List (Printer O)) (n : Nat) :
    ps.foldl (fun w p => w + p.width) n = n + (ps.map (·.width)).sum := by
  induction ps generalizing n with
  | nil => simp
  | cons p ps ih => rw [List.foldl_cons, ih, List.map_cons, List.sum_cons, Nat.add_assoc]

theorem widths_eq (ps : List (Printer O)) : widths ps = (ps.map (·.width)).sum := by
  rw [widths, foldl_add, Nat.zero_add]

/-- The first character of column `i`: the widths of the columns before. -/
def start (ps : List (Printer O)) (i : Nat) : Nat := ((ps.take i).map (·.width)).sum

/-- The text of the line between two places. -/
def cut (t : Text) (a n : Nat) : Text := (t.drop a).take n

/-- `t` is `s` with blanks on both sides, at most one more on the right. -/
def Centred (s t : Text) : Prop :=
  ∃ a b, t = List.replicate a ' ' ++ s ++ List.replicate b ' ' ∧ a ≤ b ∧ b ≤ a + 1

theorem centred_center (w : Nat) (s : Text) : Centred s (center w s) :=
  ⟨_, _, rfl, by omega, by omega⟩

theorem columns (f : Printer O → Text) (ps : List (Printer O)) (h : ∀ p ∈ ps, (f p).length = p.width)
    (i : Nat) (hi : i < ps.length) :
    (ps.flatMap f).length = (ps.map (·.width)).sum ∧ cut (ps.flatMap f) (start ps i) ps[i].width = f ps[i] := by
  induction ps generalizing i with
  | nil => simp at hi
  | cons p ps ih =>
    have hp := h p List.mem_cons_self
    have hl : (ps.flatMap f).length = (ps.map (·.width)).sum := by
      cases ps with
      | nil => rfl
      | cons q qs => exact (ih (fun q hq => h q (List.mem_cons_of_mem _ hq)) 0 (by simp)).1
    refine ⟨by rw [List.flatMap_cons, List.length_append, hl, hp, List.map_cons, List.sum_cons], ?_⟩
    rw [List.flatMap_cons]
    cases i with
    | zero =>
      simp only [start, cut, List.take_zero, List.map_nil, List.sum_nil, List.drop_zero,
        List.getElem_cons_zero]
      rw [← hp, List.take_left']
      rfl
    | succ i =>
      have := (ih (fun q hq => h q (List.mem_cons_of_mem _ hq)) i (by simpa using hi)).2
      unfold cut at this ⊢
      simp only [start, List.take_succ_cons, List.map_cons, List.sum_cons, List.getElem_cons_succ] at this ⊢
      rw [← hp, List.drop_append, List.drop_eq_nil_of_le (by omega), List.nil_append,
        Nat.add_sub_cancel_left]
      exact this

/-- C202. Where titles fit their columns, each title stands centred in its column, and the line below
is as long as the titles. -/
theorem C202_titles (ps : List (Printer O)) (name pad : Text) (h : ∀ p ∈ ps, p.title.length ≤ p.width) :
    ∃ l1 l2 l3, printTitles ps name pad = [pad ++ l1, pad ++ l2, pad ++ l3] ∧
      l2.length = (ps.map (·.width)).sum ∧ l3 = List.replicate l2.length '-' ∧
      ∀ i (hi : i < ps.length), Centred ps[i].title (cut l2 (start ps i) ps[i].width) ∧
        (cut l2 (start ps i) ps[i].width).length = ps[i].width := by
  have ht : titles ps = ps.flatMap fun p => center p.width p.title := by
    rw [titles, foldl_append, List.nil_append]
  have hc : ∀ p ∈ ps, (center p.width p.title).length = p.width := fun p hp => length_center _ _ (h p hp)
  have hlen : (titles ps).length = (ps.map (·.width)).sum := by
    rw [ht]
    cases ps with
    | nil => rfl
    | cons p ps => exact (columns (fun p => center p.width p.title) (p :: ps) hc 0 (by simp)).1
  refine ⟨header ps name, titles ps, List.replicate (widths ps) '-', rfl, hlen, ?_, fun i hi => ?_⟩
  · rw [hlen, widths_eq]
  · rw [ht, (columns (fun p => center p.width p.title) ps hc i hi).2]
    exact ⟨centred_center _ _, hc _ (List.getElem_mem hi)⟩

/-- C202. Where values fit their columns, each value stands centred in its column, below its title, and
a missing value leaves it blank. -/
theorem C202_line (obj : O) (ps : List (Printer O)) (pad : Text)
    (h : ∀ p ∈ ps, ∀ s, p.value obj = some s → s.length ≤ p.width) :
    ∃ l, printLine obj ps pad = pad ++ l ∧ l.length = (ps.map (·.width)).sum ∧
      ∀ i (hi : i < ps.length),
        (∀ s, ps[i].value obj = some s → Centred s (cut l (start ps i) ps[i].width)) ∧
        (ps[i].value obj = none → cut l (start ps i) ps[i].width = List.replicate ps[i].width ' ') := by
  have ht : printLine obj ps pad = pad ++ ps.flatMap fun p => center p.width ((p.value obj).getD []) := by
    rw [printLine, foldl_append, List.nil_append]
  have hc : ∀ p ∈ ps, (center p.width ((p.value obj).getD [])).length = p.width := by
    intro p hp
    apply length_center
    cases hv : p.value obj with
    | none => simp
    | some s => exact h p hp s hv
  refine ⟨_, ht, ?_, fun i hi => ?_⟩
  · cases ps with
    | nil => rfl
    | cons p ps =>
      exact (columns (fun p => center p.width ((p.value obj).getD [])) (p :: ps) hc 0 (by simp)).1
  · rw [(columns (fun p => center p.width ((p.value obj).getD [])) ps hc i hi).2]
    constructor
    · intro s hs
      rw [hs]
      exact centred_center _ _
    · intro hn
      rw [hn]
      simp only [Option.getD_none, center, List.length_nil, List.append_nil, Nat.sub_zero,
        List.replicate_append_replicate]
      congr 1
      omega

/-- C202. The line with the name is as long as the table, or one longer, when the name fits. -/
theorem C202_header (ps : List (Printer O)) (name : Text) (h : name.length + 1 ≤ (ps.map (·.width)).sum) :
    (header ps name).length = (ps.map (·.width)).sum ∨
    (header ps name).length = (ps.map (·.width)).sum + 1 := by
  have hw := widths_eq ps
  simp only [header, rule, List.length_append, List.length_replicate, List.length_singleton, hw]
  omega

/-- C202 (violation). A value longer than its column moves all columns to its right: the next begins
later than its title. -/
theorem C202_violated_long (obj : O) (p q : Printer O) (s t : Text) (hp : p.value obj = some s)
    (hq : q.value obj = some t) (hs : p.width < s.length) :
    printLine obj [p, q] [] = s ++ center q.width t ∧ start [p, q] 1 < s.length := by
  constructor
  · have : p.width - s.length = 0 := by omega
    simp [printLine, hp, hq, center, this]
  · simpa [start] using hs

/-- C202. The final report has one line for each rule, in their order, which says whether the left side
is at most the right one. -/
theorem C202_stoppers (obj : O) (ss : List (Stopper O)) (pad stop done : Text) :
    (printStoppers obj ss pad stop done).length = ss.length + 2 ∧
    ∀ i (hi : i < ss.length), ∃ b, (b = true ↔ ss[i].left obj ≤ ss[i].right obj) ∧
      (printStoppers obj ss pad stop done)[i + 1]? =
        some (pad ++ ss[i].str b (ss[i].left obj) (ss[i].right obj)) := by
  refine ⟨by simp [printStoppers], fun i hi => ⟨decide (ss[i].left obj ≤ ss[i].right obj), by simp, ?_⟩⟩
  rw [printStoppers, List.append_assoc, List.singleton_append, List.getElem?_cons_succ,
    List.getElem?_append_left (by simpa using hi), List.getElem?_map, List.getElem?_eq_getElem hi]
  rfl

/-- A table of two columns. -/
example : printLine (3 : Nat) [⟨"#".toList, 5, fun n => some (toString n).toList⟩, ⟨"f".toList, 4, fun _ => none⟩] []
    = "  3      ".toList := by decide

end Props
end Verif.Utils.Tables
