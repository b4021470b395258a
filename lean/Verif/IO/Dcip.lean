import Verif.Basic
import Mathlib.Algebra.Order.Archimedean.Real.Basic
import Mathlib.Algebra.Order.Floor.Ring
import Mathlib.Data.List.Basic
import Mathlib.Tactic.Linarith
import Mathlib.Tactic.NormNum

/-!
C157: files of the DCIP2D and DCIP3D programs in their formats of blocks, one per source (`read_dcip2d_ubc`,
`read_dcip3d_ubc`, `write_dcip2d_ubc`, `write_dcip3d_ubc`,
`simpeg/utils/io_utils/io_utils_electromagnetics.py` 192-419, 422-579, 611-784, 787-939). A file is its list of
lines of numbers: comments, the lines in front of the first block (number of sources, type of data) and blank
lines, which are skipped, are not modelled, nor is the splitting of lines into words. The two dimensions differ
in the number of coordinates `k` and in one branch (`pad`).
-/

noncomputable section
namespace Verif.IO.Dcip
open Verif

/-- A receiver: M electrodes, and N electrodes for dipoles. -/
structure Rx where
  m : List (List ℝ)
  n : Option (List (List ℝ))

/-- A source: A electrode, B electrode for dipoles, current, receivers. -/
structure Src where
  a : List ℝ
  b : Option (List ℝ)
  current : ℝ
  rx : List Rx

def Rx.nD (r : Rx) : ℕ := r.m.length

def Src.nD (s : Src) : ℕ := (s.rx.map Rx.nD).sum

/-- A data object. -/
structure Obj where
  sources : List Src
  dobs : List ℝ
  std : List ℝ

/-- What is read: data and uncertainties are set if the file has them. -/
structure Loaded where
  sources : List Src
  dobs : Option (List ℝ)
  std : Option (List ℝ)

inductive FileType
  | survey
  | dpred
  | dobs
  deriving DecidableEq

/-! ### Writing -/

/-- Pairs of electrodes as written: the M electrode twice for poles
(`io_utils_electromagnetics.py` 748-753, 903-908). -/
def Rx.pairs (r : Rx) : List (List ℝ × List ℝ) := r.m.zip (r.n.getD r.m)

/-- Columns behind the electrodes (755-761, 910-914). -/
def dataColumns (o : Obj) (t : FileType) (i : ℕ) : List ℝ :=
  match t with
  | .survey => []
  | .dpred => [o.dobs.getD i 0]
  | .dobs => [o.dobs.getD i 0, o.std.getD i 0]

/-- One row of `np.savetxt(fid, np.c_[M, N], fmt="%e")` with `c` coordinates (764-769, 917-922). -/
def rxLine (e : ℝ → ℝ) (c : ℕ) (o : Obj) (t : FileType) (p : (List ℝ × List ℝ) × ℕ) : List ℝ :=
  (p.1.1.take c ++ p.1.2.take c ++ dataColumns o t p.2).map e

/-- The receivers of a source, with the running `count` (747-783, 902-938). -/
def rxLines (e : ℝ → ℝ) (c : ℕ) (o : Obj) (t : FileType) : ℕ → List Rx → List (List ℝ)
  | _, [] => []
  | count, r :: rest =>
    (r.pairs.zipIdx count).map (rxLine e c o t) ++ rxLines e c o t (count + r.nD) rest

/-- The line of a source: A electrode, B electrode (A again for poles), number of data
(735-744, 890-899). -/
def txLine (e : ℝ → ℝ) (c : ℕ) (s : Src) : List ℝ :=
  (s.a.take c ++ (s.b.getD s.a).take c).map e ++ [(s.nD : ℝ)]

/-- The loop over sources (730-783, 885-938). -/
def blocks (e : ℝ → ℝ) (c : ℕ) (o : Obj) (t : FileType) : ℕ → List Src → List (List ℝ)
  | _, [] => []
  | count, s :: rest =>
    txLine e c s :: rxLines e c o t count s.rx ++ blocks e c o t (count + s.nD) rest

/-- `write_dcip2d_ubc` with `k = 2` (formats general and surface); `c` is `end_index`. Returns the lines. -/
def write2 (e : ℝ → ℝ) (surface : Bool) (o : Obj) (t : FileType) : List (List ℝ) :=
  blocks e (if surface then 1 else 2) o t 0 o.sources

/-- `Data.standard_deviation` is set (`simpeg/data.py` 259-262, 207-220). -/
def Obj.setStd (o : Obj) (v : List ℝ) : Except Err Obj :=
  if v.all (fun x => decide (0 ≤ x)) then .ok { o with std := v } else .error .valueError

/-- `write_dcip3d_ubc`: predicted voltages get a column of apparent resistivities, which are set as the
uncertainties of the object (`io_utils_electromagnetics.py` 855-861). Returns the object and the lines. -/
def write3 (e : ℝ → ℝ) (appRes : List Src → List ℝ → List ℝ) (surface volt : Bool) (o : Obj) (t : FileType) :
    Except Err (Obj × List (List ℝ)) :=
  let c := if surface then 2 else 3;
  if t = .dpred ∧ volt = true then
    match o.setStd (appRes o.sources o.dobs) with
    | .error x => .error x
    | .ok o' => .ok (o', blocks e c o' .dobs 0 o'.sources)
  else .ok (o, blocks e c o t 0 o.sources)

/-! ### Reading -/

/-- `np.allclose` of two arrays of the same length. -/
def close (x y : List ℝ) : Prop := ∀ p ∈ x.zip y, |p.1 - p.2| ≤ 1 / 100000000 + 1 / 100000 * |p.2|

open Classical in
/-- `np.allclose`; arrays of different lengths are refused (one of length one, which is broadcast, too:
simplified). -/
def allclose (x y : List ℝ) : Except Err Bool :=
  if x.length = y.length then .ok (decide (close x y)) else .error .valueError

/-- Variables of the loop (`io_utils_electromagnetics.py` 249-257, 323-335; 466-477). -/
structure St where
  count : ℤ
  rx : List (List ℝ)
  tx : List ℝ
  surface : Bool
  poleTx : Bool
  poleRx : Bool
  sources : List Src
  d : List ℝ
  wd : List ℝ

def init : St := ⟨0, [], [], false, false, false, [], [], []⟩

/-- `int(x)`. -/
def trunc (x : ℝ) : ℤ := if 0 ≤ x then ⌊x⌋ else ⌈x⌉

/-- The line of a source (331-354, 495-521). -/
def txStep (k : ℕ) (st : St) (temp : List ℝ) : Except Err St :=
  match temp.getLast? with
  | none => .error .indexError
  | some last =>
    let st1 : St := { st with rx := [], count := trunc last }
    if temp.length = 2 * (k - 1) + 1 then
      let a := temp.take (k - 1);
      let b := (temp.drop (k - 1)).take (k - 1);
      match allclose a b with
      | .error x => .error x
      | .ok true => .ok { st1 with tx := a ++ [9999], poleTx := true, surface := true }
      | .ok false => .ok { st1 with tx := a ++ [9999] ++ b ++ [9999], surface := true }
    else
      let a := temp.take k;
      let b := (temp.drop k).take k;
      match allclose a b with
      | .error x => .error x
      | .ok true => .ok { st1 with tx := a, poleTx := true }
      | .ok false => .ok { st1 with tx := temp.dropLast }

/-- The end of a block (392-401, 556-565). `np.asarray` refuses rows of different lengths. -/
def finish (k : ℕ) (st : St) : Except Err St :=
  if st.rx.all (fun r => decide (r.length = (st.rx.headD []).length)) then
    let r : Rx := if st.poleRx then ⟨st.rx.map fun x => x.take k, none⟩
      else ⟨st.rx.map fun x => x.take k, some (st.rx.map fun x => x.drop k)⟩
    if st.poleTx then .ok { st with sources := st.sources ++ [⟨st.tx.take k, none, 1, [r]⟩] }
    else if (st.tx.drop k).length = (st.tx.take k).length then
      .ok { st with sources := st.sources ++ [⟨st.tx.take k, some (st.tx.drop k), 1, [r]⟩] }
    else .error .valueError
  else .error .valueError

/-- The line of a receiver (357-401, 524-565); `pad` is true in two dimensions: in three, pole receivers of
surface files keep two coordinates (531). -/
def rxStep (k : ℕ) (pad : Bool) (st : St) (temp : List ℝ) : Except Err St :=
  let c := if st.surface then k - 1 else k;
  let m := temp.take c;
  let n := (temp.drop c).take c;
  match allclose m n with
  | .error x => .error x
  | .ok pole =>
    let row := if pole then (if st.surface ∧ pad then m ++ [9999] else m)
      else (if st.surface then m ++ [9999] ++ n ++ [9999] else temp.take (2 * k));
    let st1 : St := { st with
      rx := st.rx ++ [row]
      poleRx := st.poleRx || pole
      d := if temp.length = 2 * c + 1 ∨ temp.length = 2 * c + 2 then st.d ++ [temp.getD (2 * c) 0] else st.d
      wd := if temp.length = 2 * c + 2 then st.wd ++ [temp.getD (2 * c + 1) 0] else st.wd
      count := st.count - 1 };
    if st1.count = 0 then finish k st1 else .ok st1

def step (k : ℕ) (pad : Bool) (st : St) (temp : List ℝ) : Except Err St :=
  if st.count = 0 then txStep k st temp else rxStep k pad st temp

def run (k : ℕ) (pad : Bool) : St → List (List ℝ) → Except Err St
  | st, [] => .ok st
  | st, l :: r =>
    match step k pad st l with
    | .error x => .error x
    | .ok st1 => run k pad st1 r

/-- `read_dcip2d_ubc` (`k = 2`, `pad`) and `read_dcip3d_ubc` (`k = 3`): data and uncertainties must be as many
as the survey has, uncertainties not negative (403-411, 567-575; `simpeg/data.py` 120-135, 207-220). -/
def read (k : ℕ) (pad : Bool) (lines : List (List ℝ)) : Except Err Loaded :=
  match run k pad init lines with
  | .error x => .error x
  | .ok st =>
    let nD := (st.sources.map Src.nD).sum;
    if (st.d ≠ [] ∧ st.d.length ≠ nD) ∨ (st.wd ≠ [] ∧ (st.wd.length ≠ nD ∨ ∃ x ∈ st.wd, x < 0)) then
      .error .valueError
    else .ok ⟨st.sources, if st.d = [] then none else some st.d, if st.wd = [] then none else some st.wd⟩

/-! ### Specification -/

/-- Electrodes of `k` coordinates, every source has data, as many N as M electrodes. -/
structure Src.Valid (k : ℕ) (s : Src) : Prop where
  a : s.a.length = k
  b : ∀ b ∈ s.b, b.length = k
  data : 0 < s.nD
  m : ∀ r ∈ s.rx, ∀ x ∈ r.m, x.length = k
  n : ∀ r ∈ s.rx, ∀ l ∈ r.n, l.length = r.m.length ∧ ∀ x ∈ l, x.length = k

/-- An electrode as read back: printed coordinates, elevation 9999 in surface files. -/
def place (e : ℝ → ℝ) (k : ℕ) (surface : Bool) (x : List ℝ) : List ℝ :=
  if surface then (x.take (k - 1)).map e ++ [9999] else x.map e

/-- Electrodes that are still apart after printing. -/
def Apart (e : ℝ → ℝ) (c : ℕ) (x y : List ℝ) : Prop := ¬ close ((x.take c).map e) ((y.take c).map e)

/-- All sources are poles, or all are dipoles. -/
def UniformTx (e : ℝ → ℝ) (c : ℕ) (l : List Src) (pole : Bool) : Prop :=
  ∀ s ∈ l, if pole then s.b = none else ∃ b, s.b = some b ∧ Apart e c s.a b

/-- All receivers are poles, or all are dipoles. -/
def UniformRx (e : ℝ → ℝ) (c : ℕ) (l : List Src) (pole : Bool) : Prop :=
  ∀ s ∈ l, ∀ r ∈ s.rx, if pole then r.n = none else ∃ n, r.n = some n ∧ ∀ p ∈ r.m.zip n, Apart e c p.1 p.2

/-- The source as read back: all its receivers in one, a current of one. -/
def Src.back (e : ℝ → ℝ) (k : ℕ) (surface pole : Bool) (s : Src) : Src :=
  ⟨place e k surface s.a, s.b.map (place e k surface), 1,
    [⟨(s.rx.flatMap Rx.m).map (place e k surface),
      if pole then none else some ((s.rx.flatMap fun r => r.n.getD []).map (place e k surface))⟩]⟩

namespace Props

/-! ### Lines of a source -/

theorem rxLines_eq (e : ℝ → ℝ) (c : ℕ) (o : Obj) (t : FileType) (l : List Rx)
    (hl : ∀ r ∈ l, ∀ n ∈ r.n, n.length = r.m.length) (count : ℕ) :
    rxLines e c o t count l = ((l.flatMap Rx.pairs).zipIdx count).map (rxLine e c o t) ∧
      (l.flatMap Rx.pairs).length = (l.map Rx.nD).sum := by
  induction l generalizing count with
  | nil => simp [rxLines]
  | cons r rest ih =>
    have hr : r.pairs.length = r.nD := by
      unfold Rx.pairs Rx.nD
      cases h : r.n with
      | none => simp
      | some n => simp [hl r (by simp) n (by simp [h])]
    have := ih (fun x hx => hl x (by simp [hx])) (count + r.nD)
    constructor
    · rw [rxLines, this.1, List.flatMap_cons, List.zipIdx_append, List.map_append, hr]
    · rw [List.flatMap_cons, List.length_append, this.2, hr, List.map_cons, List.sum_cons]

theorem close_self (x : List ℝ) : close x x := by
  intro p hp
  have : p.1 = p.2 := by
    have hz : ∀ l : List ℝ, l.zip l = l.map fun a => (a, a) := by
      intro l
      induction l with
      | nil => rfl
      | cons a r ih => simp [ih]
    rw [hz] at hp
    obtain ⟨a, _, rfl⟩ := List.mem_map.mp hp
    rfl
  rw [this, sub_self, abs_zero]
  have := abs_nonneg p.2
  linarith

/-- Coordinates in a file. -/
def coords (k : ℕ) (surface : Bool) : ℕ := if surface then k - 1 else k

/-- An electrode of a receiver as read back. -/
def placeRx (e : ℝ → ℝ) (k : ℕ) (surface pad pole : Bool) (x : List ℝ) : List ℝ :=
  if pole && surface && !pad then (x.take (k - 1)).map e else place e k surface x

/-- The row kept for a pair of electrodes. -/
def rxRow (e : ℝ → ℝ) (k : ℕ) (surface pad pole : Bool) (p : List ℝ × List ℝ) : List ℝ :=
  if pole then placeRx e k surface pad true p.1 else place e k surface p.1 ++ place e k surface p.2

def dCol (e : ℝ → ℝ) (o : Obj) (t : FileType) (i : ℕ) : List ℝ :=
  if t = .survey then [] else [e (o.dobs.getD i 0)]

def wCol (e : ℝ → ℝ) (o : Obj) (t : FileType) (i : ℕ) : List ℝ :=
  if t = .dobs then [e (o.std.getD i 0)] else []

theorem place_length (e : ℝ → ℝ) (k : ℕ) (hk : 0 < k) (surface : Bool) (x : List ℝ) (hx : x.length = k) :
    (place e k surface x).length = k := by
  unfold place
  cases surface <;> simp [hx] <;> omega

theorem coords_le (k : ℕ) (surface : Bool) : coords k surface ≤ k := by
  unfold coords; cases surface <;> simp

/-- After a row of a receiver. -/
def afterRow (e : ℝ → ℝ) (k : ℕ) (pad : Bool) (o : Obj) (t : FileType) (surface pole : Bool) (st : St)
    (p : (List ℝ × List ℝ) × ℕ) : St :=
  { st with
    rx := st.rx ++ [rxRow e k surface pad pole p.1]
    poleRx := st.poleRx || pole
    d := st.d ++ dCol e o t p.2
    wd := st.wd ++ wCol e o t p.2
    count := st.count - 1 }

theorem rxStep_written (e : ℝ → ℝ) (k : ℕ) (pad : Bool) (o : Obj) (t : FileType)
    (surface pole : Bool) (st : St) (hs : st.surface = surface) (p : (List ℝ × List ℝ) × ℕ)
    (h1 : p.1.1.length = k) (h2 : p.1.2.length = k)
    (hp : (if pole then close else fun a b => ¬ close a b)
      ((p.1.1.take (coords k surface)).map e) ((p.1.2.take (coords k surface)).map e)) :
    rxStep k pad st (rxLine e (coords k surface) o t p) =
      if st.count - 1 = 0 then finish k (afterRow e k pad o t surface pole st p)
      else .ok (afterRow e k pad o t surface pole st p) := by
  have hc : (if st.surface then k - 1 else k) = coords k surface := by rw [hs]; rfl
  set c := coords k surface with hcdef
  have hck : c ≤ k := coords_le k surface
  set m := (p.1.1.take c).map e with hm
  set n := (p.1.2.take c).map e with hn
  have lm : m.length = c := by simp [hm, h1, hck]
  have ln : n.length = c := by simp [hn, h2, hck]
  have hline : rxLine e c o t p = m ++ n ++ (dataColumns o t p.2).map e := by
    simp [rxLine, hm, hn]
  have t1 : (m ++ n ++ (dataColumns o t p.2).map e).take c = m := by
    rw [List.append_assoc, List.take_append_of_le_length lm.ge, List.take_of_length_le lm.le]
  have t2 : ((m ++ n ++ (dataColumns o t p.2).map e).drop c).take c = n := by
    rw [List.append_assoc, List.drop_left' lm, List.take_append_of_le_length ln.ge,
      List.take_of_length_le ln.le]
  have t3 : (m ++ n ++ (dataColumns o t p.2).map e).take (2 * c) = m ++ n := by
    rw [List.take_left' (by rw [List.length_append]; omega)]
  have hlen : (m ++ n ++ (dataColumns o t p.2).map e).length = 2 * c + (dataColumns o t p.2).length := by
    have : ((dataColumns o t p.2).map e).length = (dataColumns o t p.2).length := List.length_map ..
    rw [List.length_append, List.length_append]; omega
  have hcl : allclose m n = .ok pole := by
    unfold allclose
    rw [if_pos (by omega)]
    congr 1
    cases pole
    · simpa using hp
    · simpa using hp
  have g1 : t ≠ .survey → (m ++ n ++ (dataColumns o t p.2).map e).getD (2 * c) 0 = e (o.dobs.getD p.2 0) := by
    intro ht
    have : (m ++ n).length = 2 * c := by rw [List.length_append]; omega
    rw [← this]
    cases t
    · exact absurd rfl ht
    · simp only [dataColumns, List.map_cons, List.map_nil, List.getD_eq_getElem?_getD]
      rw [List.getElem?_append_right (by omega)]
      simp
    · simp only [dataColumns, List.map_cons, List.map_nil, List.getD_eq_getElem?_getD]
      rw [List.getElem?_append_right (by omega)]
      simp
  have g2 : t = .dobs → (m ++ n ++ (dataColumns o t p.2).map e).getD (2 * c + 1) 0 = e (o.std.getD p.2 0) := by
    intro ht
    have : (m ++ n).length = 2 * c := by rw [List.length_append]; omega
    rw [← this]
    subst ht
    simp only [dataColumns, List.map_cons, List.map_nil, List.getD_eq_getElem?_getD]
    rw [List.getElem?_append_right (by omega)]
    simp
  have hrow : (if pole = true then (if st.surface = true ∧ pad = true then m ++ [9999] else m)
      else (if st.surface = true then m ++ [9999] ++ n ++ [9999]
        else (m ++ n ++ (dataColumns o t p.2).map e).take (2 * k))) = rxRow e k surface pad pole p.1 := by
    rw [hs]
    cases surface
    · have hck : c = k := by simp [hcdef, coords]
      rw [← hck, t3]
      cases pole <;> simp [rxRow, placeRx, place, hm, hn, hck, ← h1] <;> simp [h1, ← h2]
    · cases pole <;> cases pad <;> simp [rxRow, placeRx, place, hm, hn, hcdef, coords]
  have hd : (if 2 * c + (dataColumns o t p.2).length = 2 * c + 1 ∨
      2 * c + (dataColumns o t p.2).length = 2 * c + 2 then
      st.d ++ [(m ++ n ++ (dataColumns o t p.2).map e).getD (2 * c) 0] else st.d) = st.d ++ dCol e o t p.2 := by
    cases t
    · simp [dataColumns, dCol]
    · rw [g1 (by simp)]; simp [dataColumns, dCol]
    · rw [g1 (by simp)]; simp [dataColumns, dCol]
  have hw : (if 2 * c + (dataColumns o t p.2).length = 2 * c + 2 then
      st.wd ++ [(m ++ n ++ (dataColumns o t p.2).map e).getD (2 * c + 1) 0] else st.wd) =
      st.wd ++ wCol e o t p.2 := by
    cases t
    · simp [dataColumns, wCol]
    · simp [dataColumns, wCol]
    · rw [g2 rfl]; simp [dataColumns, wCol]
  unfold rxStep
  simp only [hc, hline, t1, t2, hcl, hrow, hlen, hd, hw]
  rfl

theorem run_append (k : ℕ) (pad : Bool) (st : St) (l r : List (List ℝ)) :
    run k pad st (l ++ r) = match run k pad st l with
      | .error x => .error x
      | .ok st1 => run k pad st1 r := by
  induction l generalizing st with
  | nil => rfl
  | cons a l ih =>
    simp only [List.cons_append, run]
    cases step k pad st a with
    | error x => rfl
    | ok st1 => exact ih st1

/-- The rows of a block. -/
theorem run_rows (e : ℝ → ℝ) (k : ℕ) (pad : Bool) (o : Obj) (t : FileType) (surface pole : Bool)
    (ps : List ((List ℝ × List ℝ) × ℕ)) (hne : ps ≠ [])
    (h : ∀ p ∈ ps, p.1.1.length = k ∧ p.1.2.length = k ∧
      (if pole then close else fun a b => ¬ close a b)
        ((p.1.1.take (coords k surface)).map e) ((p.1.2.take (coords k surface)).map e))
    (st : St) (hs : st.surface = surface) (hc : st.count = ps.length)
    (hq : (st.poleRx || pole) = pole) :
    run k pad st (ps.map (rxLine e (coords k surface) o t)) =
      finish k { st with
        rx := st.rx ++ ps.map fun p => rxRow e k surface pad pole p.1
        poleRx := pole
        d := st.d ++ ps.flatMap fun p => dCol e o t p.2
        wd := st.wd ++ ps.flatMap fun p => wCol e o t p.2
        count := 0 } := by
  induction ps generalizing st with
  | nil => exact absurd rfl hne
  | cons p r ih =>
    obtain ⟨h1, h2, h3⟩ := h p (by simp)
    have hc0 : st.count ≠ 0 := by rw [hc]; simp; omega
    rw [List.map_cons, run]
    simp only [step, hc0, if_false]
    rw [rxStep_written e k pad o t surface pole st hs p h1 h2 h3]
    by_cases hr : r = []
    · subst hr
      have : st.count - 1 = 0 := by rw [hc]; simp
      rw [if_pos this]
      have e1 : afterRow e k pad o t surface pole st p = { st with
          rx := st.rx ++ [p].map fun p => rxRow e k surface pad pole p.1
          poleRx := pole
          d := st.d ++ [p].flatMap fun p => dCol e o t p.2
          wd := st.wd ++ [p].flatMap fun p => wCol e o t p.2
          count := 0 } := by
        simp [afterRow, hq, this]
      rw [e1]
      cases finish k _ with
      | error x => rfl
      | ok st1 => rfl
    · have hcr : st.count - 1 = r.length := by rw [hc]; simp
      have hr0 : r.length ≠ 0 := by simpa using hr
      rw [if_neg (by rw [hcr]; exact_mod_cast hr0)]
      simp only
      rw [ih hr (fun q hq => h q (by simp [hq])) (afterRow e k pad o t surface pole st p) hs hcr
        (by simpa [afterRow] using hq)]
      simp [afterRow]

/-- The line of a source. -/
theorem txStep_written (e : ℝ → ℝ) (k : ℕ) (hk : 0 < k) (surface pole : Bool) (st : St)
    (hs : st.surface = true → surface = true) (s : Src) (ha : s.a.length = k)
    (hb : ∀ b ∈ s.b, b.length = k)
    (hp : if pole then s.b = none else ∃ b, s.b = some b ∧ Apart e (coords k surface) s.a b)
    (hq : (st.poleTx || pole) = pole) :
    txStep k st (txLine e (coords k surface) s) = .ok { st with
      rx := []
      count := s.nD
      tx := if pole then place e k surface s.a
        else place e k surface s.a ++ place e k surface (s.b.getD s.a)
      poleTx := pole
      surface := surface } := by
  have hlb : (s.b.getD s.a).length = k := by
    cases hb' : s.b with
    | none => simpa using ha
    | some b => exact hb b (by simp [hb'])
  set c := coords k surface with hcdef
  have hck : c ≤ k := coords_le k surface
  set m := (s.a.take c).map e with hm
  set n := ((s.b.getD s.a).take c).map e with hn
  have lm : m.length = c := by simp [hm, ha, hck]
  have ln : n.length = c := by simp [hn, hlb, hck]
  have hline : txLine e c s = m ++ n ++ [(s.nD : ℝ)] := by simp [txLine, hm, hn]
  have hcl : allclose m n = .ok pole := by
    unfold allclose
    rw [if_pos (by omega)]
    congr 1
    cases pole
    · simp only [Bool.false_eq_true, if_false] at hp
      obtain ⟨b, hb1, hb2⟩ := hp
      have : n = (b.take c).map e := by rw [hn, hb1]; rfl
      rw [this]
      simp only [decide_eq_false_iff_not]
      exact hb2
    · simp only [if_true] at hp
      have : n = m := by rw [hn, hp]; rfl
      rw [this]
      simpa using close_self m
  have hlast : (m ++ n ++ [(s.nD : ℝ)]).getLast? = some (s.nD : ℝ) := by simp
  have htr : trunc (s.nD : ℝ) = s.nD := by simp [trunc]
  have hlen : (m ++ n ++ [(s.nD : ℝ)]).length = 2 * c + 1 := by
    rw [List.length_append, List.length_append]; simp; omega
  have t1 : (m ++ n ++ [(s.nD : ℝ)]).take c = m := by
    rw [List.append_assoc, List.take_append_of_le_length lm.ge, List.take_of_length_le lm.le]
  have t2 : ((m ++ n ++ [(s.nD : ℝ)]).drop c).take c = n := by
    rw [List.append_assoc, List.drop_left' lm, List.take_append_of_le_length ln.ge,
      List.take_of_length_le ln.le]
  have t3 : (m ++ n ++ [(s.nD : ℝ)]).dropLast = m ++ n := by simp
  rw [hline]
  unfold txStep
  simp only [hlast, htr, hlen]
  cases surface
  · have hsf : st.surface = false := by
      cases h : st.surface
      · rfl
      · exact absurd (hs h) (by simp)
    have hc : c = k := by simp [hcdef, coords]
    have pa : place e k false s.a = m := by simp [place, hm, hc, ← ha]
    have pb : place e k false (s.b.getD s.a) = n := by
      have : (s.b.getD s.a).take c = s.b.getD s.a := List.take_of_length_le (by omega)
      simp [place, hn, this]
    rw [if_neg (by omega)]
    rw [hc] at t1 t2
    simp only [t1, t2, t3, hcl, pa, pb]
    cases pole
    · have : st.poleTx = false := by simpa using hq
      simp [hsf, this]
    · simp [hsf]
  · have hc : c = k - 1 := by simp [hcdef, coords]
    have pa : place e k true s.a = m ++ [9999] := by simp [place, hm, hc]
    have pb : place e k true (s.b.getD s.a) = n ++ [9999] := by simp [place, hn, hc]
    rw [if_pos (by omega)]
    rw [hc] at t1 t2
    simp only [t1, t2, hcl, pa, pb]
    cases pole
    · have : st.poleTx = false := by simpa using hq
      simp [this]
    · simp

/-- The source made at the end of a block. -/
def made (e : ℝ → ℝ) (k : ℕ) (surface pad ptx prx : Bool) (s : Src) : Src :=
  ⟨place e k surface s.a, if ptx then none else some (place e k surface (s.b.getD s.a)), 1,
    [⟨(s.rx.flatMap Rx.pairs).map fun p => placeRx e k surface pad prx p.1,
      if prx then none else some ((s.rx.flatMap Rx.pairs).map fun p => place e k surface p.2)⟩]⟩

theorem finish_written (e : ℝ → ℝ) (k : ℕ) (hk : 0 < k) (surface pad ptx prx : Bool) (s : Src)
    (ha : s.a.length = k) (hb : ∀ b ∈ s.b, b.length = k)
    (hp : ∀ p ∈ s.rx.flatMap Rx.pairs, p.1.length = k ∧ p.2.length = k) (st : St)
    (h1 : st.rx = (s.rx.flatMap Rx.pairs).map fun p => rxRow e k surface pad prx p)
    (h2 : st.tx = if ptx then place e k surface s.a
        else place e k surface s.a ++ place e k surface (s.b.getD s.a))
    (h3 : st.poleRx = prx) (h4 : st.poleTx = ptx) :
    finish k st = .ok { st with sources := st.sources ++ [made e k surface pad ptx prx s] } := by
  have hlb : (s.b.getD s.a).length = k := by
    cases hb' : s.b with
    | none => simpa using ha
    | some b => exact hb b (by simp [hb'])
  have la := place_length e k hk surface s.a ha
  have lb := place_length e k hk surface (s.b.getD s.a) hlb
  have hrow : ∀ p ∈ s.rx.flatMap Rx.pairs, (rxRow e k surface pad prx p).length =
      if prx then (if surface && !pad then k - 1 else k) else 2 * k := by
    intro p hp'
    obtain ⟨l1, l2⟩ := hp p hp'
    have q1 := place_length e k hk surface p.1 l1
    have q2 := place_length e k hk surface p.2 l2
    cases prx
    · simp only [rxRow, Bool.false_eq_true, if_false, List.length_append, q1, q2]; omega
    · simp only [rxRow, if_true, placeRx, Bool.true_and]
      split
      · simp [l1]
      · exact q1
  have hall : st.rx.all (fun r => decide (r.length = (st.rx.headD []).length)) = true := by
    rw [List.all_eq_true]
    intro r hr
    rw [decide_eq_true_eq, h1]
    rw [h1] at hr
    obtain ⟨p, hp1, rfl⟩ := List.mem_map.mp hr
    rw [hrow p hp1]
    cases hl : s.rx.flatMap Rx.pairs with
    | nil => rw [hl] at hp1; simp at hp1
    | cons q l => simp only [List.map_cons, List.headD_cons]; rw [hrow q (by rw [hl]; simp)]
  have hm : (st.rx.map fun x => x.take k) =
      (s.rx.flatMap Rx.pairs).map fun p => placeRx e k surface pad prx p.1 := by
    rw [h1, List.map_map]
    refine List.map_congr_left fun p hp' => ?_
    obtain ⟨l1, l2⟩ := hp p hp'
    have q1 := place_length e k hk surface p.1 l1
    cases prx
    · simp only [Function.comp, rxRow, placeRx, Bool.false_eq_true, if_false, Bool.false_and]
      rw [List.take_left' q1]
    · simp only [Function.comp, rxRow, if_true]
      refine List.take_of_length_le ?_
      have := hrow p hp'
      simp only [rxRow, if_true] at this
      rw [this]
      split <;> omega
  have hn : prx = false → (st.rx.map fun x => x.drop k) =
      (s.rx.flatMap Rx.pairs).map fun p => place e k surface p.2 := by
    intro hprx
    rw [h1, List.map_map]
    refine List.map_congr_left fun p hp' => ?_
    obtain ⟨l1, l2⟩ := hp p hp'
    have q1 := place_length e k hk surface p.1 l1
    simp only [Function.comp, rxRow, hprx, Bool.false_eq_true, if_false]
    rw [List.drop_left' q1]
  unfold finish
  rw [if_pos hall, h3, h4, h2, hm]
  cases ptx
  · rw [if_neg (by simp)]
    simp only [Bool.false_eq_true, if_false]
    rw [List.take_left' la, List.drop_left' la, if_pos (by omega)]
    cases prx
    · rw [hn rfl]; simp [made]
    · simp [made]
  · simp only [if_true]
    rw [List.take_of_length_le la.le]
    cases prx
    · rw [hn rfl]; simp [made]
    · simp [made]

/-- A block. -/
theorem run_block (e : ℝ → ℝ) (k : ℕ) (hk : 0 < k) (pad : Bool) (o : Obj) (t : FileType)
    (surface ptx prx : Bool) (s : Src) (hv : s.Valid k) (htx : UniformTx e (coords k surface) [s] ptx)
    (hrx : UniformRx e (coords k surface) [s] prx) (count : ℕ) (st : St) (hc : st.count = 0)
    (hs : st.surface = true → surface = true) (hq1 : (st.poleTx || ptx) = ptx)
    (hq2 : (st.poleRx || prx) = prx) :
    ∃ st1, run k pad st (txLine e (coords k surface) s :: rxLines e (coords k surface) o t count s.rx) =
        .ok st1 ∧ st1.count = 0 ∧ st1.surface = surface ∧ st1.poleTx = ptx ∧ st1.poleRx = prx ∧
      st1.sources = st.sources ++ [made e k surface pad ptx prx s] ∧
      st1.d = st.d ++ (List.range' count s.nD).flatMap (dCol e o t) ∧
      st1.wd = st.wd ++ (List.range' count s.nD).flatMap (wCol e o t) := by
  have hpairs : ∀ p ∈ s.rx.flatMap Rx.pairs, p.1.length = k ∧ p.2.length = k ∧
      (if prx then close else fun a b => ¬ close a b)
        ((p.1.take (coords k surface)).map e) ((p.2.take (coords k surface)).map e) := by
    intro p hp
    obtain ⟨r, hr, hpr⟩ := List.mem_flatMap.mp hp
    have hu := hrx s (by simp) r hr
    unfold Rx.pairs at hpr
    cases prx
    · simp only [Bool.false_eq_true, if_false] at hu ⊢
      obtain ⟨n, hn, hap⟩ := hu
      rw [hn] at hpr
      simp only [Option.getD_some] at hpr
      exact ⟨hv.m r hr _ (List.of_mem_zip hpr).1, (hv.n r hr n (by simp [hn])).2 _ (List.of_mem_zip hpr).2,
        hap p hpr⟩
    · simp only [if_true] at hu ⊢
      rw [hu] at hpr
      simp only [Option.getD_none] at hpr
      have he : p.1 = p.2 := by
        have hz : ∀ l : List (List ℝ), l.zip l = l.map fun a => (a, a) := by
          intro l
          induction l with
          | nil => rfl
          | cons a r ih => simp [ih]
        rw [hz] at hpr
        obtain ⟨a, _, rfl⟩ := List.mem_map.mp hpr
        rfl
      refine ⟨hv.m r hr _ (List.of_mem_zip hpr).1, hv.m r hr _ (List.of_mem_zip hpr).2, ?_⟩
      rw [he]
      exact close_self _
  have hl := rxLines_eq e (coords k surface) o t s.rx (fun r hr n hn => (hv.n r hr n hn).1) count
  have hlen : (s.rx.flatMap Rx.pairs).length = s.nD := hl.2
  set ps := (s.rx.flatMap Rx.pairs).zipIdx count with hps
  have hpne : ps ≠ [] := by
    intro h
    have : ps.length = 0 := by rw [h]; rfl
    rw [hps, List.length_zipIdx, hlen] at this
    have := hv.data
    omega
  have hmem : ∀ p ∈ ps, p.1 ∈ s.rx.flatMap Rx.pairs := by
    intro p hp
    have : p.1 ∈ ps.map Prod.fst := List.mem_map_of_mem hp
    rwa [hps, List.zipIdx_map_fst] at this
  rw [run]
  simp only [step, hc, if_true]
  rw [txStep_written e k hk surface ptx st hs s hv.a hv.b (htx s (by simp)) hq1]
  simp only
  have hrun := run_rows e k pad o t surface prx ps hpne (fun p hp => hpairs p.1 (hmem p hp)) { st with
      rx := []
      count := s.nD
      tx := if ptx then place e k surface s.a
        else place e k surface s.a ++ place e k surface (s.b.getD s.a)
      poleTx := ptx
      surface := surface } rfl (by simp [hps, hlen]) hq2
  rw [hl.1, hrun]
  have hrows : (ps.map fun p => rxRow e k surface pad prx p.1) =
      (s.rx.flatMap Rx.pairs).map fun p => rxRow e k surface pad prx p := by
    conv_rhs => rw [← List.zipIdx_map_fst count (s.rx.flatMap Rx.pairs)]
    rw [List.map_map]
    rfl
  have hsnd : ∀ g : ℕ → List ℝ, (ps.flatMap fun p => g p.2) = (List.range' count s.nD).flatMap g := by
    intro g
    rw [← hlen, ← List.zipIdx_map_snd count (s.rx.flatMap Rx.pairs), List.flatMap_map]
  rw [finish_written e k hk surface pad ptx prx s hv.a hv.b
    (fun p hp => ⟨(hpairs p hp).1, (hpairs p hp).2.1⟩) _ (by simpa using hrows) rfl rfl rfl]
  refine ⟨_, rfl, rfl, rfl, rfl, rfl, rfl, ?_, ?_⟩
  · simp only [hsnd (dCol e o t)]
  · simp only [hsnd (wCol e o t)]

/-- All blocks. -/
theorem run_blocks (e : ℝ → ℝ) (k : ℕ) (hk : 0 < k) (pad : Bool) (o : Obj) (t : FileType)
    (surface ptx prx : Bool) (l : List Src) (hv : ∀ s ∈ l, s.Valid k)
    (htx : UniformTx e (coords k surface) l ptx) (hrx : UniformRx e (coords k surface) l prx) (count : ℕ)
    (st : St) (hc : st.count = 0) (hs : st.surface = true → surface = true)
    (hq1 : (st.poleTx || ptx) = ptx) (hq2 : (st.poleRx || prx) = prx) :
    ∃ st1, run k pad st (blocks e (coords k surface) o t count l) = .ok st1 ∧
      st1.sources = st.sources ++ l.map (made e k surface pad ptx prx) ∧
      st1.d = st.d ++ (List.range' count (l.map Src.nD).sum).flatMap (dCol e o t) ∧
      st1.wd = st.wd ++ (List.range' count (l.map Src.nD).sum).flatMap (wCol e o t) := by
  induction l generalizing count st with
  | nil => exact ⟨st, rfl, by simp, by simp, by simp⟩
  | cons s r ih =>
    obtain ⟨st1, h1, h2, h3, h4, h5, h6, h7, h8⟩ := run_block e k hk pad o t surface ptx prx s
      (hv s (by simp)) (fun x hx => htx x (by simp at hx; simp [hx]))
      (fun x hx => hrx x (by simp at hx; simp [hx])) count st hc hs hq1 hq2
    obtain ⟨st2, g1, g2, g3, g4⟩ := ih (fun x hx => hv x (by simp [hx])) (fun x hx => htx x (by simp [hx]))
      (fun x hx => hrx x (by simp [hx])) (count + s.nD) st1 h2 (by rw [h3]; exact fun h => h)
      (by rw [h4]; simp) (by rw [h5]; simp)
    refine ⟨st2, ?_, ?_, ?_, ?_⟩
    · rw [blocks, run_append, h1]
      exact g1
    · rw [g2, h6]; simp
    · rw [g3, h7, List.map_cons, List.sum_cons, List.append_assoc, ← List.flatMap_append, List.range'_append_1]
    · rw [g4, h8, List.map_cons, List.sum_cons, List.append_assoc, ← List.flatMap_append, List.range'_append_1]

theorem made_back (e : ℝ → ℝ) (k : ℕ) (surface pad ptx prx : Bool) (c : ℕ) (s : Src) (hv : s.Valid k)
    (htx : UniformTx e c [s] ptx) (hrx : UniformRx e c [s] prx)
    (hpad : (prx && surface && !pad) = false) :
    made e k surface pad ptx prx s = s.back e k surface prx := by
  have hb : (if ptx then none else some (place e k surface (s.b.getD s.a))) =
      s.b.map (place e k surface) := by
    have := htx s (by simp)
    cases ptx
    · simp only [Bool.false_eq_true, if_false] at this
      obtain ⟨b, hb, _⟩ := this
      simp [hb]
    · simp only [if_true] at this
      simp [this]
  have hm : ∀ l : List Rx, (∀ r ∈ l, r ∈ s.rx) → (l.flatMap Rx.pairs).map Prod.fst = l.flatMap Rx.m ∧
      (prx = false → (l.flatMap Rx.pairs).map Prod.snd = l.flatMap fun r => r.n.getD []) := by
    intro l
    induction l with
    | nil => simp
    | cons r rest ih =>
      intro hl
      have h := ih fun x hx => hl x (by simp [hx])
      have hr := hl r (by simp)
      have hu := hrx s (by simp) r hr
      constructor
      · rw [List.flatMap_cons, List.map_append, h.1, List.flatMap_cons]
        congr 1
        unfold Rx.pairs
        cases hn : r.n with
        | none => simp [List.map_fst_zip]
        | some n => exact List.map_fst_zip (by simp [(hv.n r hr n (by simp [hn])).1])
      · intro hprx
        rw [List.flatMap_cons, List.map_append, h.2 hprx, List.flatMap_cons]
        congr 1
        simp only [hprx, Bool.false_eq_true, if_false] at hu
        obtain ⟨n, hn, _⟩ := hu
        unfold Rx.pairs
        rw [hn]
        exact List.map_snd_zip (by simp [(hv.n r hr n (by simp [hn])).1])
  obtain ⟨hm1, hm2⟩ := hm s.rx fun _ h => h
  unfold made Src.back
  rw [hb, ← hm1, List.map_map]
  have e1 : ∀ x, placeRx e k surface pad prx x = place e k surface x := by
    intro x; simp [placeRx, hpad]
  simp only [e1]
  cases prx
  · rw [← hm2 rfl, List.map_map]
    rfl
  · rfl

theorem made_nD (e : ℝ → ℝ) (k : ℕ) (surface pad ptx prx : Bool) (s : Src) (hv : s.Valid k) :
    (made e k surface pad ptx prx s).nD = s.nD := by
  have := (rxLines_eq e k ⟨[], [], []⟩ .survey s.rx (fun r hr n hn => (hv.n r hr n hn).1) 0).2
  simp [made, Src.nD, Rx.nD] at this ⊢
  exact this

theorem flat_single (n : ℕ) (l : List ℝ) (hl : l.length = n) (e : ℝ → ℝ) :
    ((List.range' 0 n).flatMap fun i => [e (l.getD i 0)]) = l.map e := by
  rw [← List.map_eq_flatMap]
  refine List.ext_getElem (by simp [hl]) fun i h1 h2 => ?_
  simp only [List.length_map] at h2
  simp [h2]

/-- The result of reading a written file. -/
theorem read_blocks (e : ℝ → ℝ) (he : ∀ x, 0 ≤ x → 0 ≤ e x) (k : ℕ) (hk : 0 < k) (pad : Bool) (o : Obj)
    (t : FileType) (surface ptx prx : Bool) (hne : o.sources ≠ []) (hv : ∀ s ∈ o.sources, s.Valid k)
    (htx : UniformTx e (coords k surface) o.sources ptx) (hrx : UniformRx e (coords k surface) o.sources prx)
    (hd : o.dobs.length = (o.sources.map Src.nD).sum) (hw : o.std.length = (o.sources.map Src.nD).sum)
    (hw0 : ∀ x ∈ o.std, 0 ≤ x) :
    read k pad (blocks e (coords k surface) o t 0 o.sources) =
      .ok ⟨o.sources.map (made e k surface pad ptx prx), if t = .survey then none else some (o.dobs.map e),
        if t = .dobs then some (o.std.map e) else none⟩ := by
  obtain ⟨st, h1, h2, h3, h4⟩ := run_blocks e k hk pad o t surface ptx prx o.sources hv htx hrx 0 init rfl
    (by simp [init]) (by simp [init]) (by simp [init])
  have hnD : (st.sources.map Src.nD).sum = (o.sources.map Src.nD).sum := by
    rw [h2]
    simp only [init, List.nil_append, List.map_map]
    congr 1
    exact List.map_congr_left fun s hs => made_nD e k surface pad ptx prx s (hv s hs)
  have hpos : 0 < (o.sources.map Src.nD).sum := by
    cases hl : o.sources with
    | nil => exact absurd hl hne
    | cons s r =>
      have := (hv s (by rw [hl]; simp)).data
      simp only [List.map_cons, List.sum_cons]
      omega
  have hD : st.d = if t = .survey then [] else o.dobs.map e := by
    rw [h3]
    simp only [init, List.nil_append]
    split
    · rename_i ht
      simp [dCol, ht]
    · rename_i ht
      rw [← flat_single _ _ hd e]
      congr 1
      funext i
      simp [dCol, ht]
  have hW : st.wd = if t = .dobs then o.std.map e else [] := by
    rw [h4]
    simp only [init, List.nil_append]
    split
    · rename_i ht
      rw [← flat_single _ _ hw e]
      congr 1
      funext i
      simp [wCol, ht]
    · rename_i ht
      simp [wCol, ht]
  have hd0 : o.dobs.map e ≠ [] := by
    intro h; rw [List.map_eq_nil_iff] at h; rw [h] at hd; simp at hd; omega
  have hwne : o.std.map e ≠ [] := by
    intro h; rw [List.map_eq_nil_iff] at h; rw [h] at hw; simp at hw; omega
  unfold read
  rw [h1]
  simp only [hnD, hD, hW]
  rw [if_neg]
  · rw [h2]
    cases t <;> simp [init, hd0, hwne]
  · rintro (⟨_, h⟩ | ⟨_, h | ⟨x, hx, hx0⟩⟩)
    · cases t <;> simp [hd] at *
    · cases t <;> simp [hw] at *
    · split at hx
      · obtain ⟨y, hy, rfl⟩ := List.mem_map.mp hx
        exact absurd (he y (hw0 y hy)) (by linarith)
      · simp at hx

/-- C157: partial: a survey whose sources are all poles or all dipoles, and whose receivers are all poles or all
dipoles, is read back with the electrodes and numbers as printed; the receivers of a source come back as one,
and elevations as 9999 in surface files. Of dipoles, electrodes must be apart after printing. -/
theorem C157_round_trip_partial (e : ℝ → ℝ) (he : ∀ x, 0 ≤ x → 0 ≤ e x) (k : ℕ) (hk : 0 < k) (pad : Bool)
    (o : Obj) (t : FileType) (surface ptx prx : Bool) (hne : o.sources ≠ [])
    (hv : ∀ s ∈ o.sources, s.Valid k)
    (htx : UniformTx e (if surface then k - 1 else k) o.sources ptx)
    (hrx : UniformRx e (if surface then k - 1 else k) o.sources prx)
    (hpad : prx = true → surface = true → pad = true)
    (hd : o.dobs.length = (o.sources.map Src.nD).sum) (hw : o.std.length = (o.sources.map Src.nD).sum)
    (hw0 : ∀ x ∈ o.std, 0 ≤ x) :
    read k pad (blocks e (if surface then k - 1 else k) o t 0 o.sources) =
      .ok ⟨o.sources.map (Src.back e k surface prx), if t = .survey then none else some (o.dobs.map e),
        if t = .dobs then some (o.std.map e) else none⟩ := by
  have := read_blocks e he k hk pad o t surface ptx prx hne hv htx hrx hd hw hw0
  unfold coords at this
  rw [this]
  congr 2
  refine List.map_congr_left fun s hs => ?_
  refine made_back e k surface pad ptx prx _ s (hv s hs)
    (fun x hx => htx x (by simp at hx; rw [hx]; exact hs)) (fun x hx => hrx x (by simp at hx; rw [hx]; exact hs)) ?_
  cases prx <;> cases surface <;> cases pad <;> simp_all

/-- C157: the two dimensions. -/
theorem C157_two_partial (e : ℝ → ℝ) (he : ∀ x, 0 ≤ x → 0 ≤ e x) (o : Obj) (t : FileType)
    (surface ptx prx : Bool) (hne : o.sources ≠ []) (hv : ∀ s ∈ o.sources, s.Valid 2)
    (htx : UniformTx e (if surface then 1 else 2) o.sources ptx)
    (hrx : UniformRx e (if surface then 1 else 2) o.sources prx)
    (hd : o.dobs.length = (o.sources.map Src.nD).sum) (hw : o.std.length = (o.sources.map Src.nD).sum)
    (hw0 : ∀ x ∈ o.std, 0 ≤ x) :
    read 2 true (write2 e surface o t) =
      .ok ⟨o.sources.map (Src.back e 2 surface prx), if t = .survey then none else some (o.dobs.map e),
        if t = .dobs then some (o.std.map e) else none⟩ :=
  C157_round_trip_partial e he 2 (by norm_num) true o t surface ptx prx hne hv htx hrx (fun _ _ => rfl) hd hw hw0

theorem C157_three_partial (e : ℝ → ℝ) (he : ∀ x, 0 ≤ x → 0 ≤ e x) (appRes : List Src → List ℝ → List ℝ)
    (volt : Bool) (o : Obj) (t : FileType) (ht : ¬ (t = .dpred ∧ volt = true))
    (surface ptx prx : Bool) (hne : o.sources ≠ []) (hv : ∀ s ∈ o.sources, s.Valid 3)
    (htx : UniformTx e (if surface then 2 else 3) o.sources ptx)
    (hrx : UniformRx e (if surface then 2 else 3) o.sources prx) (hs : prx = true → surface = false)
    (hd : o.dobs.length = (o.sources.map Src.nD).sum) (hw : o.std.length = (o.sources.map Src.nD).sum)
    (hw0 : ∀ x ∈ o.std, 0 ≤ x) :
    ∃ lines, write3 e appRes surface volt o t = .ok (o, lines) ∧ read 3 false lines =
      .ok ⟨o.sources.map (Src.back e 3 surface prx), if t = .survey then none else some (o.dobs.map e),
        if t = .dobs then some (o.std.map e) else none⟩ := by
  refine ⟨blocks e (if surface then 2 else 3) o t 0 o.sources, ?_, ?_⟩
  · unfold write3
    rw [if_neg ht]
  · exact C157_round_trip_partial e he 3 (by norm_num) false o t surface ptx prx hne hv htx hrx
      (fun h1 h2 => absurd h2 (by simp [hs h1])) hd hw hw0

/-- C157: violated: pole receivers of three-dimensional surface files come back with two coordinates. -/
theorem C157_violated_surface_pole (e : ℝ → ℝ) (he : ∀ x, 0 ≤ x → 0 ≤ e x) (o : Obj) (t : FileType) (ptx : Bool)
    (hne : o.sources ≠ []) (hv : ∀ s ∈ o.sources, s.Valid 3) (htx : UniformTx e 2 o.sources ptx)
    (hrx : UniformRx e 2 o.sources true) (hd : o.dobs.length = (o.sources.map Src.nD).sum)
    (hw : o.std.length = (o.sources.map Src.nD).sum) (hw0 : ∀ x ∈ o.std, 0 ≤ x) :
    ∃ l, read 3 false (blocks e 2 o t 0 o.sources) = .ok l ∧ l.sources.length = o.sources.length ∧
      ∀ s ∈ l.sources, s.a.length = 3 ∧ ∀ r ∈ s.rx, ∀ x ∈ r.m, x.length = 2 := by
  have h := read_blocks e he 3 (by norm_num) false o t true ptx true hne hv htx hrx hd hw hw0
  refine ⟨_, h, by simp, ?_⟩
  intro s hs
  obtain ⟨s0, hs0, rfl⟩ := List.mem_map.mp hs
  refine ⟨place_length e 3 (by norm_num) true s0.a (hv s0 hs0).a, ?_⟩
  intro r hr x hx
  simp only [made, List.mem_singleton] at hr
  subst hr
  simp only [List.mem_map] at hx
  obtain ⟨p, hp, rfl⟩ := hx
  obtain ⟨r, hr, hpr⟩ := List.mem_flatMap.mp hp
  have hl : p.1.length = 3 := by
    unfold Rx.pairs at hpr
    exact (hv s0 hs0).m r hr _ (List.of_mem_zip hpr).1
  simp [placeRx, hl]

/-! ### Flags that are never reset -/

theorem finish_poleTx (k : ℕ) (st st2 : St) (hp : st.poleTx = true) (h : finish k st = .ok st2) :
    st2.poleTx = true ∧ ∃ s : Src, s.b = none ∧ st2.sources = st.sources ++ [s] := by
  unfold finish at h
  by_cases hall : st.rx.all (fun r => decide (r.length = (st.rx.headD []).length)) = true
  · rw [if_pos hall] at h
    simp only [hp, if_true] at h
    cases h
    exact ⟨rfl, _, rfl, rfl⟩
  · rw [if_neg hall] at h
    cases h

theorem finish_poleRx (k : ℕ) (st st2 : St) (hp : st.poleRx = true) (h : finish k st = .ok st2) :
    st2.poleRx = true ∧ ∃ s : Src, (∀ r ∈ s.rx, r.n = none) ∧ st2.sources = st.sources ++ [s] := by
  unfold finish at h
  by_cases hall : st.rx.all (fun r => decide (r.length = (st.rx.headD []).length)) = true
  · rw [if_pos hall] at h
    simp only [hp, if_true] at h
    by_cases hx : st.poleTx = true
    · rw [if_pos hx] at h
      cases h
      exact ⟨rfl, _, by simp, rfl⟩
    · rw [if_neg hx] at h
      split at h
      · cases h
        exact ⟨rfl, _, by simp, rfl⟩
      · cases h
  · rw [if_neg hall] at h
    cases h

/-- After a pole source. -/
theorem run_poleTx (k : ℕ) (pad : Bool) (lines : List (List ℝ)) (st st1 : St) (hp : st.poleTx = true)
    (hs : ∀ s ∈ st.sources, s.b = none) (h : run k pad st lines = .ok st1) :
    ∀ s ∈ st1.sources, s.b = none := by
  induction lines generalizing st with
  | nil => cases h; exact hs
  | cons l r ih =>
    rw [run] at h
    split at h
    · cases h
    · rename_i st2 hst
      have key : st2.poleTx = true ∧ ∀ s ∈ st2.sources, s.b = none := by
        unfold step at hst
        split at hst
        · unfold txStep at hst
          split at hst
          · cases hst
          · dsimp only at hst
            split at hst <;> split at hst <;> cases hst <;> first | exact ⟨rfl, hs⟩ | exact ⟨hp, hs⟩
        · unfold rxStep at hst
          dsimp only at hst
          split at hst
          · cases hst
          · split at hst
            · obtain ⟨q1, s, q2, q3⟩ := finish_poleTx k _ st2 (by exact hp) hst
              refine ⟨q1, ?_⟩
              rw [q3]
              intro s' hs'
              rcases List.mem_append.mp hs' with h' | h'
              · exact hs s' h'
              · simp only [List.mem_singleton] at h'; rw [h']; exact q2
            · cases hst
              exact ⟨hp, hs⟩
      exact ih st2 key.1 key.2 h

theorem read_sources (k : ℕ) (pad : Bool) (lines : List (List ℝ)) (l : Loaded)
    (h : read k pad lines = .ok l) : ∃ st, run k pad init lines = .ok st ∧ l.sources = st.sources := by
  unfold read at h
  cases hr : run k pad init lines with
  | error x => rw [hr] at h; cases h
  | ok st =>
    rw [hr] at h
    simp only at h
    by_cases hc : (st.d ≠ [] ∧ st.d.length ≠ (st.sources.map Src.nD).sum) ∨
        (st.wd ≠ [] ∧ (st.wd.length ≠ (st.sources.map Src.nD).sum ∨ ∃ x ∈ st.wd, x < 0))
    · rw [if_pos hc] at h; cases h
    · rw [if_neg hc] at h; cases h; exact ⟨st, rfl, rfl⟩

/-- C157: violated: if the first source is a pole, every source comes back as a pole, also the dipoles, which
lose their B electrodes. -/
theorem C157_violated_pole_first (e : ℝ → ℝ) (k : ℕ) (hk : 0 < k) (pad surface : Bool) (o : Obj) (t : FileType)
    (s : Src) (rest : List Src) (ho : o.sources = s :: rest) (ha : s.a.length = k) (hb : s.b = none)
    (l : Loaded) (h : read k pad (blocks e (if surface then k - 1 else k) o t 0 o.sources) = .ok l) :
    ∀ s' ∈ l.sources, s'.b = none := by
  obtain ⟨st, hst, hl⟩ := read_sources k pad _ l h
  rw [hl]
  rw [ho, blocks] at hst
  rw [List.cons_append, run] at hst
  have hx := txStep_written e k hk surface true init (by simp [init]) s ha (by simp [hb]) (by simp [hb])
    (by simp)
  unfold coords at hx
  simp only [step, init, if_true] at hst hx
  rw [hx] at hst
  exact run_poleTx k pad _ _ st rfl (by simp) hst

/-- C157: violated: electrodes of a dipole source are compared with a tolerance that grows with the
coordinates: if their printed coordinates differ by less than `1e-5` of those of B, the source comes back as a
pole. -/
theorem C157_violated_tolerance (e : ℝ → ℝ) (k : ℕ) (pad : Bool) (o : Obj) (t : FileType)
    (s : Src) (b : List ℝ) (ho : o.sources = [s]) (ha : s.a.length = k) (hb : s.b = some b)
    (hbl : b.length = k) (hcl : ∀ p ∈ (s.a.map e).zip (b.map e), |p.1 - p.2| ≤ 1 / 100000 * |p.2|)
    (hk : 0 < k) (l : Loaded) (h : read k pad (blocks e k o t 0 o.sources) = .ok l) :
    ∀ s' ∈ l.sources, s'.b = none := by
  obtain ⟨st, hst, hl⟩ := read_sources k pad _ l h
  rw [hl]
  rw [ho, blocks] at hst
  rw [List.cons_append, run] at hst
  have hline : txLine e k s = s.a.map e ++ b.map e ++ [(s.nD : ℝ)] := by
    simp [txLine, hb, ← ha]
    simp [ha, ← hbl]
  have t1 : (s.a.map e ++ b.map e ++ [(s.nD : ℝ)]).take k = s.a.map e := by
    rw [List.append_assoc, List.take_left' (by simp [ha])]
  have t2 : ((s.a.map e ++ b.map e ++ [(s.nD : ℝ)]).drop k).take k = b.map e := by
    rw [List.append_assoc, List.drop_left' (by simp [ha]), List.take_left' (by simp [hbl])]
  have hac : allclose (s.a.map e) (b.map e) = .ok true := by
    unfold allclose
    rw [if_pos (by simp [ha, hbl])]
    congr 1
    simp only [decide_eq_true_eq]
    intro p hp
    have := hcl p hp
    linarith
  have hne : (s.a.map e ++ b.map e ++ [(s.nD : ℝ)]).length ≠ 2 * (k - 1) + 1 := by
    simp [ha, hbl]; omega
  simp only [step, init, if_true] at hst
  rw [hline] at hst
  unfold txStep at hst
  rw [show (s.a.map e ++ b.map e ++ [(s.nD : ℝ)]).getLast? = some (s.nD : ℝ) by simp] at hst
  simp only [hne, if_false, t1, t2, hac] at hst
  exact run_poleTx k pad _ _ st rfl (by simp) hst

theorem run_poleRx (k : ℕ) (pad : Bool) (lines : List (List ℝ)) (st st1 : St) (hp : st.poleRx = true)
    (hs : ∀ s ∈ st.sources, ∀ r ∈ s.rx, r.n = none) (h : run k pad st lines = .ok st1) :
    ∀ s ∈ st1.sources, ∀ r ∈ s.rx, r.n = none := by
  induction lines generalizing st with
  | nil => cases h; exact hs
  | cons l r ih =>
    rw [run] at h
    split at h
    · cases h
    · rename_i st2 hst
      have key : st2.poleRx = true ∧ ∀ s ∈ st2.sources, ∀ r ∈ s.rx, r.n = none := by
        unfold step at hst
        split at hst
        · unfold txStep at hst
          split at hst
          · cases hst
          · dsimp only at hst
            split at hst <;> split at hst <;> cases hst <;> exact ⟨hp, hs⟩
        · unfold rxStep at hst
          dsimp only at hst
          split at hst
          · cases hst
          · split at hst
            · obtain ⟨q1, s, q2, q3⟩ := finish_poleRx k _ st2 (by simp [hp]) hst
              refine ⟨q1, ?_⟩
              rw [q3]
              intro s' hs'
              rcases List.mem_append.mp hs' with h' | h'
              · exact hs s' h'
              · simp only [List.mem_singleton] at h'; rw [h']; exact q2
            · cases hst
              exact ⟨by simp [hp], hs⟩
      exact ih st2 key.1 key.2 h

/-- C157: violated: once a block of pole receivers was read, the dipole receivers of all later sources lose
their N electrodes. -/
theorem C157_violated_pole_receiver_first (e : ℝ → ℝ) (k : ℕ) (hk : 0 < k) (pad surface ptx : Bool) (o : Obj)
    (t : FileType) (s : Src) (rest : List Src) (ho : o.sources = s :: rest) (hv : s.Valid k)
    (htx : UniformTx e (if surface then k - 1 else k) [s] ptx) (hrx : ∀ r ∈ s.rx, r.n = none) (l : Loaded)
    (h : read k pad (blocks e (if surface then k - 1 else k) o t 0 o.sources) = .ok l) :
    ∀ s' ∈ l.sources, ∀ r ∈ s'.rx, r.n = none := by
  obtain ⟨st, hst, hl⟩ := read_sources k pad _ l h
  rw [hl]
  rw [ho, blocks] at hst
  obtain ⟨st1, h1, _, _, _, h5, h6, _, _⟩ := run_block e k hk pad o t surface ptx true s hv htx
    (fun x hx r hr => by simp at hx; subst hx; simpa using hrx r hr) 0 init rfl (by simp [init])
    (by simp [init]) (by simp [init])
  unfold coords at h1
  rw [run_append, h1] at hst
  refine run_poleRx k pad _ st1 st h5 ?_ hst
  rw [h6]
  simp [init, made]

/-- C157: violated: a source with a pole and a dipole receiver cannot be read back. -/
theorem C157_violated_mixed (e : ℝ → ℝ) (k : ℕ) (hk : 0 < k) (pad : Bool) (o : Obj) (t : FileType)
    (s : Src) (rest : List Src) (ho : o.sources = s :: rest) (ha : s.a.length = k)
    (hb : ∀ b ∈ s.b, b.length = k) (ptx : Bool) (htx : UniformTx e k [s] ptx) (m1 m2 n2 : List ℝ)
    (hr : s.rx = [⟨[m1], none⟩, ⟨[m2], some [n2]⟩]) (h1 : m1.length = k) (h2 : m2.length = k)
    (h3 : n2.length = k) (hap : Apart e k m2 n2) :
    read k pad (blocks e k o t 0 o.sources) = .error .valueError := by
  have hnD : s.nD = 2 := by simp [Src.nD, hr, Rx.nD]
  have hx := txStep_written e k hk false ptx init (by simp [init]) s ha hb (htx s (by simp)) (by simp [init])
  have hrun : run k pad init (blocks e k o t 0 o.sources) = .error .valueError := by
    rw [ho, blocks, hr]
    simp only [rxLines, Rx.pairs, Option.getD_none, Option.getD_some, List.zip_cons_cons, List.zip_nil_right,
      List.zipIdx_cons, List.zipIdx_nil, List.map_cons, List.map_nil, List.append_nil, List.cons_append,
      List.nil_append, Rx.nD, List.length_cons, List.length_nil]
    rw [run]
    simp only [coords, Bool.false_eq_true, if_false] at hx
    rw [show step k pad init (txLine e k s) = txStep k init (txLine e k s) from rfl, hx]
    simp only
    rw [run]
    rw [step, if_neg (by simp [hnD])]
    have g1 := rxStep_written e k pad o t false true { init with
      rx := []
      count := s.nD
      tx := if ptx then place e k false s.a else place e k false s.a ++ place e k false (s.b.getD s.a)
      poleTx := ptx
      surface := false } rfl ((m1, m1), 0) h1 h1 (by simpa using close_self _)
    simp only [coords, Bool.false_eq_true, if_false] at g1
    rw [g1, if_neg (by simp [hnD])]
    simp only
    rw [run, step, if_neg (by simp [afterRow, hnD])]
    have g2 := rxStep_written e k pad o t false false (afterRow e k pad o t false true { init with
      rx := []
      count := s.nD
      tx := if ptx then place e k false s.a else place e k false s.a ++ place e k false (s.b.getD s.a)
      poleTx := ptx
      surface := false } ((m1, m1), 0)) rfl ((m2, n2), 0 + (0 + 1)) h2 h3 (by simpa [Apart, coords] using hap)
    simp only [coords, Bool.false_eq_true, if_false] at g2
    rw [g2, if_pos (by simp [afterRow, hnD])]
    have : finish k (afterRow e k pad o t false false (afterRow e k pad o t false true { init with
        rx := []
        count := s.nD
        tx := if ptx then place e k false s.a else place e k false s.a ++ place e k false (s.b.getD s.a)
        poleTx := ptx
        surface := false } ((m1, m1), 0)) ((m2, n2), 0 + (0 + 1))) = .error .valueError := by
      unfold finish
      rw [if_neg]
      simp [afterRow, rxRow, placeRx, place, h1, h2, h3]
      omega
    rw [this]
  unfold read
  rw [hrun]

/-- C157: violated: currents are not written (sources come back with a current of one, see `Src.back`). -/
theorem C157_violated_current (e : ℝ → ℝ) (c : ℕ) (o : Obj) (t : FileType) (l : List Src) (count : ℕ)
    (cur : Src → ℝ) :
    blocks e c o t count (l.map fun s => { s with current := cur s }) = blocks e c o t count l := by
  induction l generalizing count with
  | nil => rfl
  | cons s r ih =>
    simp only [List.map_cons, blocks]
    rw [show Src.nD { s with current := cur s } = s.nD from rfl, ih]
    rfl

/-- C157: writing predicted voltages of three dimensions replaces the uncertainties of the object by apparent
resistivities, and fails if one of these is negative; everything else leaves the object as it is. -/
theorem C157_object (e : ℝ → ℝ) (appRes : List Src → List ℝ → List ℝ) (surface volt : Bool) (o : Obj)
    (t : FileType) :
    (¬ (t = .dpred ∧ volt = true) → ∃ lines, write3 e appRes surface volt o t = .ok (o, lines)) ∧
    ((t = .dpred ∧ volt = true) → (∀ x ∈ appRes o.sources o.dobs, 0 ≤ x) →
      ∃ lines, write3 e appRes surface volt o t = .ok ({ o with std := appRes o.sources o.dobs }, lines)) ∧
    ((t = .dpred ∧ volt = true) → (∃ x ∈ appRes o.sources o.dobs, x < 0) →
      write3 e appRes surface volt o t = .error .valueError) := by
  refine ⟨fun h => ⟨_, by unfold write3; rw [if_neg h]⟩, fun h hx => ?_, fun h hx => ?_⟩
  · refine ⟨blocks e (if surface then 2 else 3) { o with std := appRes o.sources o.dobs } .dobs 0 o.sources, ?_⟩
    unfold write3
    rw [if_pos h]
    have : o.setStd (appRes o.sources o.dobs) = .ok { o with std := appRes o.sources o.dobs } := by
      unfold Obj.setStd
      rw [if_pos]
      simpa using hx
    rw [this]
  · unfold write3
    rw [if_pos h]
    have : o.setStd (appRes o.sources o.dobs) = .error .valueError := by
      unfold Obj.setStd
      rw [if_neg]
      obtain ⟨x, h1, h2⟩ := hx
      simp only [List.all_eq_true, decide_eq_true_eq, not_forall]
      exact ⟨x, h1, not_le.mpr h2⟩
    rw [this]

/-- A pole source and a dipole source, each with one dipole receiver. -/
example : Src.Valid 2 ⟨[0, 0], none, 1, [⟨[[10, 0]], some [[20, 0]]⟩]⟩ ∧
    Src.Valid 2 ⟨[0, 0], some [5, 0], 1, [⟨[[10, 0]], some [[20, 0]]⟩]⟩ ∧
    Apart id 2 [0, 0] [5, 0] ∧ Apart id 2 [10, 0] [20, 0] := by
  refine ⟨⟨rfl, by simp, by simp [Src.nD, Rx.nD], by simp, by simp⟩,
    ⟨rfl, by simp, by simp [Src.nD, Rx.nD], by simp, by simp⟩, ?_, ?_⟩
  · intro h
    have := h (0, 5) (by simp)
    norm_num [abs_of_pos] at this
  · intro h
    have := h (10, 20) (by simp)
    norm_num [abs_of_pos] at this

end Props
end Verif.IO.Dcip
