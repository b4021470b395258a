import Mathlib.Data.Multiset.Bind
import Mathlib.Data.Finset.Sort
import Mathlib.Tactic.Ring
import Verif.Basic

/-!
# Natural source data as record arrays

Model of `Data.toRecArray` and `Data.fromRecArray`,
`/repo/simpeg/electromagnetics/natural_source/survey.py`.
-/

namespace Verif.NSEM.Records

/-- The classes of natural source receivers, `/repo/simpeg/electromagnetics/natural_source/
receivers.py` 157 (`Impedance`), 562 (`Tipper`), 866 (`Admittance`), 1135
(`ApparentConductivity`). -/
inductive Kind
  | impedance
  | tipper
  | admittance
  | conductivity
  deriving DecidableEq, Repr

/-- A receiver: its class, `orientation` and `component` after validation, the number of columns of
its locations and the two arrays of locations, `/repo/simpeg/electromagnetics/natural_source/
receivers.py` 31-67 (`locations`, rows of one array are lists), 216-233, 615-631. -/
structure Rx (ν : Type) where
  kind : Kind
  orient : String
  comp : String
  dim : Nat
  first : List (List ν)
  second : List (List ν)
  deriving DecidableEq

/-- A source with its frequency and its receivers, and with every receiver its block
`dobs[survey_slices[src, rx]]` of the data (that the blocks partition the data vector is C01); a
datum that is NaN is `none`. -/
structure Src (ν : Type) where
  freq : ν
  rxs : List (Rx ν × List (Option ν))
  deriving DecidableEq

/-- A record: its frequency, its `x, y, z` and its other fields by name. -/
structure Row (ν β : Type) where
  freq : ν
  loc : List ν
  val : String → Option β

/-- `c in s` for a one-letter string. -/
def has (s : String) (c : Char) : Bool := s.toList.contains c

/-- `t in s` for strings. -/
def isIn (t s : String) : Bool := decide (t.toList <:+: s.toList)

/-- Names of the fields of `dtRI` after `freq, x, y, z`, `survey.py` 51-68. -/
def dtRI : List String :=
  ["zxxr", "zxxi", "zxyr", "zxyi", "zyxr", "zyxi", "zyyr", "zyyi", "tzxr", "tzxi", "tzyr", "tzyi"]

/-- Names of the fields of `dtCP` after `freq, x, y, z`, `survey.py` 69-80 (also the list of
lines 129-132). -/
def dtCP : List String := ["zxx", "zxy", "zyx", "zyy", "tzx", "tzy"]

/-- The name of the field of a receiver, `survey.py` 110-111. -/
def key (o c : String) : String :=
  String.ofList ((if has o 'z' then 't' else 'z') :: o.toList ++ c.toList.take 1)

variable {ν : Type} [LinearOrder ν] [Zero ν]

/-- The locations of the records of a source, `survey.py` 88-92: those of its first receiver, which
must have `locations_e`, with zeros for missing coordinates. `np.hstack` of one row of zeros with
the locations needs a single location. Locations with more than three columns make the view of
line 100 fail (taken to hold for every number of columns, numpy would accept 19). -/
def locsOf (s : Src ν) : Except Err (List (List ν)) :=
  match s.rxs with
  | [] => .error .indexError
  | (rx, _) :: _ =>
    if rx.kind = .tipper then .error .attributeError
    else if rx.dim = 1 then
      if rx.first.length = 1 then .ok (rx.first.map fun l => [0, 0] ++ l) else .error .valueError
    else if rx.dim = 2 then
      if rx.first.length = 1 then .ok (rx.first.map fun l => [0] ++ l) else .error .valueError
    else if rx.dim = 3 then .ok rx.first
    else .error .valueError

/-- The assignment `tArrRec[key] = mkvc(val, 2)`, `survey.py` 112: the field has to exist, and the
column of values has to have one entry per record, or one entry for all of them. -/
def put (n : Nat) (tab : String → List (Option ν)) (k : String) (vals : List (Option ν)) :
    Except Err (String → List (Option ν)) :=
  if k ∈ dtRI then
    if vals.length = n then .ok (Function.update tab k vals)
    else match vals with
      | [v] => .ok (Function.update tab k (List.replicate n v))
      | _ => .error .valueError
  else .error .valueError

/-- The records of one source, `survey.py` 84-112. -/
def srcRows (s : Src ν) : Except Err (List (Row ν ν)) := do
  let locs ← locsOf s
  if s.rxs.any fun rv => rv.1.kind = .conductivity then .error .attributeError
  else do
    let tab ← s.rxs.foldlM (fun tab rv => put locs.length tab (key rv.1.orient rv.1.comp) rv.2)
      (fun _ => List.replicate locs.length none)
    .ok ((List.range locs.length).map fun i =>
      ⟨s.freq, locs.getD i [], fun k => ((tab k)[i]?).join⟩)

/-- The complex record of a real one, `survey.py` 124-134: with NaN in either part the sum is NaN in
the sense of `np.isnan`, see `fromRecArray`. -/
def toComplex (r : Row ν ν) : Row ν (ν × ν) :=
  ⟨r.freq, r.loc, fun k =>
    match r.val (k ++ "r"), r.val (k ++ "i") with
    | some a, some b => some (a, b)
    | _, _ => none⟩

/-- A record array with real or with complex fields. The flag tells whether it has one axis: the
records of a single source stay a column, those of several are stacked to one axis by
`recFunc.stack_arrays`, `survey.py` 115-118. -/
inductive Table (ν : Type)
  | real (flat : Bool) (names : List String) (rows : List (Row ν ν))
  | cplx (flat : Bool) (names : List String) (rows : List (Row ν (ν × ν)))

/-- `Data.toRecArray`, `survey.py` 36-141. `NotImplementedError` and the `UnboundLocalError` for
data without a source are `Err.exception`. -/
def toRec (ret : String) (d : List (Src ν)) : Except Err (Table ν) :=
  match d with
  | [] => .error .exception
  | s :: rest => do
    let r0 ← srcRows s
    if isIn "RealImag" ret then do
      let rs ← rest.mapM srcRows
      .ok (.real (!rest.isEmpty) dtRI (r0 ++ rs.flatten))
    else if isIn "Complex" ret then do
      let rs ← rest.mapM srcRows
      .ok (.cplx (!rest.isEmpty) dtCP ((r0 ++ rs.flatten).map toComplex))
    else .error .exception

/-- `str.casefold` of the ASCII names used here. -/
def fold (s : String) : String := String.ofList (s.toList.map Char.toLower)

/-- The constructors `Impedance(locs, orientation=o, component=c)` and `Tipper(...)` called with one
of the two names of components, `receivers.py` 216-233, 293-297, 615-631, 696-700: orientations are
validated without regard to case; both locations are the given ones. -/
def mk (kind : Kind) (o c : String) (locs : List (List ν)) : Except Err (Rx ν) :=
  match (match kind with
    | .impedance => ["xx", "xy", "yx", "yy"]
    | _ => ["zx", "zy", "xx", "xy", "yx", "yy"]).find? fun t => t = fold o with
  | some t => .ok ⟨kind, t, c, 3, locs, locs⟩
  | none => .error .valueError

/-- `rxType[1:3]`. -/
def mid (s : String) : String := String.ofList ((s.toList.drop 1).take 2)

/-- The names taken for transfer functions, `survey.py` 184-188. -/
def wanted (s : String) : Bool :=
  (decide (s.toList.length = 4) || decide (s.toList.length = 3)) && has s 'z'

/-- Receivers and data of one real field at one frequency, `survey.py` 191-193 and 222-239: an
impedance if there is a `z` in the name, and a tipper if there is a `t`. -/
def recvReal (name : String) (rows : List (Row ν ν)) :
    Except Err (List (Rx ν × List (Option ν))) :=
  let got := rows.filter fun r => (r.val name).isSome
  if got.isEmpty then .ok []
  else do
    let locs := got.map Row.loc
    let vals := got.map fun r => r.val name
    let c := if has name 'r' then "real" else "imag"
    let a ← if has name 'z' then (mk .impedance (mid name) c locs).map fun rx => [(rx, vals)]
      else .ok []
    let b ← if has name 't' then (mk .tipper (mid name) c locs).map fun rx => [(rx, vals)]
      else .ok []
    .ok (a ++ b)

/-- Receivers and data of one complex field at one frequency, `survey.py` 191-221. -/
def recvCplx (name : String) (rows : List (Row ν (ν × ν))) :
    Except Err (List (Rx ν × List (Option ν))) :=
  let got := rows.filter fun r => (r.val name).isSome
  if got.isEmpty then .ok []
  else do
    let locs := got.map Row.loc
    let re := got.map fun r => (r.val name).map Prod.fst
    let im := got.map fun r => (r.val name).map Prod.snd
    let kind := if has name 't' then Kind.tipper else Kind.impedance
    let a ← mk kind (mid name) "real" locs
    let b ← mk kind (mid name) "imag" locs
    .ok [(a, re), (b, im)]

/-- `np.unique(recArray["freq"])`, `survey.py` 174. -/
def freqs {β : Type} (rows : List (Row ν β)) : List ν :=
  ((rows.map Row.freq).toFinset).sort (· ≤ ·)

/-- The loops over frequencies and fields and the final `np.hstack`, `survey.py` 174-246, which
refuses an empty list of data. -/
def build {β : Type}
    (recv : String → List (Row ν β) → Except Err (List (Rx ν × List (Option ν))))
    (names : List String) (rows : List (Row ν β)) : Except Err (List (Src ν)) := do
  let srcs ← (freqs rows).mapM fun f => do
    let rxs ← (names.filter wanted).mapM fun name =>
      recv name (rows.filter fun r => r.freq = f)
    .ok (⟨f, rxs.flatten⟩ : Src ν)
  if (srcs.flatMap Src.rxs).isEmpty then .error .valueError else .ok srcs

/-- `Data.fromRecArray`, `survey.py` 143-246. -/
def fromRec (srcType : String) (t : Table ν) : Except Err (List (Src ν)) :=
  if srcType = "primary" then
    match t with
    | .real _ names rows => build recvReal names rows
    | .cplx _ names rows => build recvCplx names rows
  else .error .exception

/-! ## Specification -/

/-- One measured number: what was measured, at which frequency and where. -/
structure Reading (ν : Type) where
  freq : ν
  kind : Kind
  orient : String
  comp : String
  first : List ν
  second : List ν
  value : ν
  deriving DecidableEq

/-- The numbers of a receiver that are not NaN. -/
def rxReadings (f : ν) (rv : Rx ν × List (Option ν)) : Multiset (Reading ν) :=
  (((rv.1.first.zip rv.1.second).zip rv.2).filterMap fun p =>
    p.2.map fun v => ⟨f, rv.1.kind, rv.1.orient, rv.1.comp, p.1.1, p.1.2, v⟩ : List (Reading ν))

/-- All numbers of a data set that are not NaN, with repetitions and without order. -/
def readings (d : List (Src ν)) : Multiset (Reading ν) :=
  (d : Multiset (Src ν)).bind fun s =>
    (s.rxs : Multiset (Rx ν × List (Option ν))).bind fun rv => rxReadings s.freq rv

/-- A source whose receivers are real and imaginary parts of impedances and tippers, all of them at
the same locations (three coordinates) with both fields measured there, none of them twice. The
first receiver is an impedance. -/
structure Regular (s : Src ν) : Prop where
  nonempty : s.rxs ≠ []
  head : ∀ rv, s.rxs.head? = some rv → rv.1.kind = .impedance
  kinds : ∀ rv ∈ s.rxs, (rv.1.kind = .impedance ∧ rv.1.orient ∈ ["xx", "xy", "yx", "yy"]) ∨
    (rv.1.kind = .tipper ∧ rv.1.orient ∈ ["zx", "zy"])
  comps : ∀ rv ∈ s.rxs, rv.1.comp ∈ ["real", "imag"]
  dim : ∀ rv ∈ s.rxs, rv.1.dim = 3
  same : ∀ rv ∈ s.rxs, ∀ rv' ∈ s.rxs, rv.1.first = rv'.1.first
  both : ∀ rv ∈ s.rxs, rv.1.second = rv.1.first
  size : ∀ rv ∈ s.rxs, rv.2.length = rv.1.first.length
  once : (s.rxs.map fun rv => (rv.1.orient, rv.1.comp)).Nodup

/-- With every part of a transfer function the other part was measured at the same locations. -/
def Paired (s : Src ν) : Prop :=
  ∀ rv ∈ s.rxs, ∃ rv' ∈ s.rxs, rv'.1.orient = rv.1.orient ∧ rv'.1.comp ≠ rv.1.comp ∧
    rv'.2.map Option.isSome = rv.2.map Option.isSome

/-! ## Sums over lists -/

/-- The elements of an optional value. -/
def ofOpt {α : Type} (o : Option α) : Multiset α := o.elim 0 fun a => {a}

omit [LinearOrder ν] [Zero ν] in
theorem filterMap_bind {α β : Type} (f : α → Option β) (l : List α) :
    ((l.filterMap f : List β) : Multiset β) = (l : Multiset α).bind fun a => ofOpt (f a) := by
  induction l with
  | nil => simp
  | cons a l ih =>
    rw [← Multiset.cons_coe, Multiset.cons_bind, ← ih, List.filterMap_cons]
    cases h : f a with
    | none => simp [ofOpt]
    | some b => simp [ofOpt]

theorem indicator_none {κ α : Type} [DecidableEq κ] (U : List κ) (k : κ) (h : k ∉ U)
    (X : Multiset α) : ((U : Multiset κ).bind fun u => if u = k then X else 0) = 0 := by
  induction U with
  | nil => simp
  | cons a U ih =>
    rw [List.mem_cons, not_or] at h
    rw [← Multiset.cons_coe, Multiset.cons_bind, ih h.2, if_neg fun e => h.1 e.symm, zero_add]

theorem indicator {κ α : Type} [DecidableEq κ] (U : List κ) (hU : U.Nodup) (k : κ) (h : k ∈ U)
    (X : Multiset α) : ((U : Multiset κ).bind fun u => if u = k then X else 0) = X := by
  induction U with
  | nil => simp at h
  | cons a U ih =>
    rw [List.nodup_cons] at hU
    rw [← Multiset.cons_coe, Multiset.cons_bind]
    by_cases e : a = k
    · subst e
      rw [if_pos rfl, indicator_none U a hU.1, add_zero]
    · rw [if_neg e, zero_add]
      exact ih hU.2 ((List.mem_cons.1 h).resolve_left fun h => e h.symm)

theorem grouped {κ α β : Type} [DecidableEq κ] (U : List κ) (hU : U.Nodup) (l : List α) (k : α → κ)
    (h : ∀ a ∈ l, k a ∈ U) (F : α → Multiset β) :
    ((U : Multiset κ).bind fun u => ((l.filter fun a => k a = u : List α) : Multiset α).bind F) =
      (l : Multiset α).bind F := by
  induction l with
  | nil => simp
  | cons a l ih =>
    have e : ∀ u, (((a :: l).filter fun a => k a = u : List α) : Multiset α).bind F =
        (if u = k a then F a else 0) +
          ((l.filter fun a => k a = u : List α) : Multiset α).bind F := by
      intro u
      by_cases hu : k a = u
      · rw [List.filter_cons_of_pos (by simpa using hu), ← Multiset.cons_coe, Multiset.cons_bind,
          if_pos hu.symm]
      · rw [List.filter_cons_of_neg (by simpa using hu), if_neg fun e => hu e.symm, zero_add]
    simp only [e]
    rw [Multiset.bind_add, indicator U hU _ (h a (by simp)),
      ih fun a ha => h a (List.mem_cons_of_mem _ ha), ← Multiset.cons_coe, Multiset.cons_bind]

theorem mapM_ok {α β : Type} (f : α → Except Err β) (g : α → β) (l : List α)
    (h : ∀ a ∈ l, f a = .ok (g a)) : l.mapM f = .ok (l.map g) := by
  induction l with
  | nil => rfl
  | cons a l ih =>
    rw [List.mapM_cons, h a (by simp), ih fun a ha => h a (List.mem_cons_of_mem _ ha)]
    rfl

/-! ## Readings of record arrays -/

/-- The class of receiver a field stands for. -/
def kindOf (name : String) : Kind := if has name 't' then .tipper else .impedance

/-- The part a real field stands for. -/
def partOf (name : String) : String := if has name 'r' then "real" else "imag"

/-- The reading in a field of a real record. -/
def rd (name : String) (r : Row ν ν) : Multiset (Reading ν) :=
  ofOpt ((r.val name).map fun v => ⟨r.freq, kindOf name, mid name, partOf name, r.loc, r.loc, v⟩)

/-- The readings in a field of a complex record. -/
def rdC (name : String) (r : Row ν (ν × ν)) : Multiset (Reading ν) :=
  ofOpt ((r.val name).map fun v => ⟨r.freq, kindOf name, mid name, "real", r.loc, r.loc, v.1⟩) +
  ofOpt ((r.val name).map fun v => ⟨r.freq, kindOf name, mid name, "imag", r.loc, r.loc, v.2⟩)

omit [LinearOrder ν] [Zero ν] in
theorem rxReadings_eq (f : ν) (rv : Rx ν × List (Option ν)) (h2 : rv.1.second = rv.1.first)
    (h : rv.2.length = rv.1.first.length) :
    rxReadings f rv = ((List.range rv.1.first.length : List ℕ) : Multiset ℕ).bind fun i =>
      ofOpt (((rv.2[i]?).join).map fun v =>
        ⟨f, rv.1.kind, rv.1.orient, rv.1.comp, rv.1.first.getD i [], rv.1.first.getD i [], v⟩) := by
  have e : (rv.1.first.zip rv.1.second).zip rv.2 = (List.range rv.1.first.length).map fun i =>
      ((rv.1.first.getD i [], rv.1.first.getD i []), (rv.2[i]?).join) := by
    rw [h2]
    apply List.ext_getElem
    · simp [h]
    · intro i h1 h3
      simp only [List.length_zip, h, min_self] at h1
      simp [List.getD_eq_getElem?_getD, h1, h]
  rw [rxReadings, e, List.filterMap_map, filterMap_bind]
  rfl

/-- The sum over all fields of a table of columns. -/
def tabReadings (f : ν) (L : List (List ν)) (tab : String → List (Option ν)) :
    Multiset (Reading ν) :=
  (dtRI : Multiset String).bind fun name =>
    ((List.range L.length : List ℕ) : Multiset ℕ).bind fun i =>
      ofOpt ((((tab name)[i]?).join).map fun v =>
        ⟨f, kindOf name, mid name, partOf name, L.getD i [], L.getD i [], v⟩)

theorem dtRI_nodup : dtRI.Nodup := by decide

omit [LinearOrder ν] [Zero ν] in
theorem tab_update (f : ν) (L : List (List ν)) (tab : String → List (Option ν)) (k : String)
    (hk : k ∈ dtRI) (ht : tab k = List.replicate L.length none) (vals : List (Option ν)) :
    tabReadings f L (Function.update tab k vals) = tabReadings f L tab +
      ((List.range L.length : List ℕ) : Multiset ℕ).bind fun i =>
        ofOpt (((vals[i]?).join).map fun v =>
          ⟨f, kindOf k, mid k, partOf k, L.getD i [], L.getD i [], v⟩) := by
  have z : ((List.range L.length : List ℕ) : Multiset ℕ).bind (fun i =>
      ofOpt ((((tab k)[i]?).join).map fun v =>
        (⟨f, kindOf k, mid k, partOf k, L.getD i [], L.getD i [], v⟩ : Reading ν))) = 0 := by
    have : ∀ i : ℕ, (((tab k)[i]?).join : Option ν) = none := by
      intro i
      rw [ht, List.getElem?_replicate]
      split <;> rfl
    simp only [this]
    simp [ofOpt]
  conv_rhs => rw [← indicator dtRI dtRI_nodup k hk (((List.range L.length : List ℕ) :
    Multiset ℕ).bind fun i => ofOpt (((vals[i]?).join).map fun v =>
          (⟨f, kindOf k, mid k, partOf k, L.getD i [], L.getD i [], v⟩ : Reading ν)))]
  rw [tabReadings, tabReadings, ← Multiset.bind_add]
  apply Multiset.bind_congr
  intro name _
  by_cases e : name = k
  · subst e
    rw [if_pos rfl, z, zero_add, Function.update_self]
  · rw [if_neg e, add_zero, Function.update_of_ne e]

theorem key_mem {o c : String} (ho : o ∈ ["xx", "xy", "yx", "yy", "zx", "zy"])
    (hc : c ∈ ["real", "imag"]) : key o c ∈ dtRI ∧ mid (key o c) = o ∧ partOf (key o c) = c ∧
      kindOf (key o c) = (if o ∈ ["zx", "zy"] then .tipper else .impedance) := by
  have h : ∀ o ∈ ["xx", "xy", "yx", "yy", "zx", "zy"], ∀ c ∈ ["real", "imag"],
      key o c ∈ dtRI ∧ mid (key o c) = o ∧ partOf (key o c) = c ∧
        kindOf (key o c) = (if o ∈ ["zx", "zy"] then .tipper else .impedance) := by decide
  exact h o ho c hc

theorem Regular.orient {s : Src ν} (h : Regular s) (rv) (hrv : rv ∈ s.rxs) :
    rv.1.orient ∈ ["xx", "xy", "yx", "yy", "zx", "zy"] ∧
      rv.1.kind = (if rv.1.orient ∈ ["zx", "zy"] then .tipper else .impedance) := by
  have aux : ∀ o ∈ ["xx", "xy", "yx", "yy"], o ∉ ["zx", "zy"] := by decide
  rcases h.kinds rv hrv with ⟨a, b⟩ | ⟨a, b⟩
  · refine ⟨?_, by rw [a, if_neg (aux _ b)]⟩
    simp only [List.mem_cons, List.not_mem_nil, or_false] at b ⊢
    tauto
  · refine ⟨?_, by rw [a, if_pos b]⟩
    simp only [List.mem_cons, List.not_mem_nil, or_false] at b ⊢
    tauto

omit [Zero ν] in
/-- What the loop over the receivers puts into the table. -/
theorem fill (f : ν) (L : List (List ν)) (l : List (Rx ν × List (Option ν)))
    (ho : ∀ rv ∈ l, rv.1.orient ∈ ["xx", "xy", "yx", "yy", "zx", "zy"] ∧
      rv.1.kind = (if rv.1.orient ∈ ["zx", "zy"] then .tipper else .impedance))
    (hc : ∀ rv ∈ l, rv.1.comp ∈ ["real", "imag"])
    (h1 : ∀ rv ∈ l, rv.1.first = L) (h2 : ∀ rv ∈ l, rv.1.second = rv.1.first)
    (hs : ∀ rv ∈ l, rv.2.length = rv.1.first.length)
    (hn : (l.map fun rv => (rv.1.orient, rv.1.comp)).Nodup)
    (tab : String → List (Option ν))
    (ht : ∀ rv ∈ l, tab (key rv.1.orient rv.1.comp) = List.replicate L.length none) :
    ∃ tab', l.foldlM (fun tab rv => put L.length tab (key rv.1.orient rv.1.comp) rv.2) tab =
        .ok tab' ∧
      (tabReadings f L tab' = tabReadings f L tab +
        (l : Multiset (Rx ν × List (Option ν))).bind fun rv => rxReadings f rv) ∧
      (∀ rv ∈ l, tab' (key rv.1.orient rv.1.comp) = rv.2) ∧
      ∀ k, (∀ rv ∈ l, key rv.1.orient rv.1.comp ≠ k) → tab' k = tab k := by
  induction l generalizing tab with
  | nil => exact ⟨tab, rfl, by simp, by simp, fun _ _ => rfl⟩
  | cons a l ih =>
    have hk := key_mem (ho a (by simp)).1 (hc a (by simp))
    have hlen : a.2.length = L.length := by
      rw [hs a (by simp), h1 a (by simp)]
    rw [List.map_cons, List.nodup_cons] at hn
    have hne : ∀ rv ∈ l, key rv.1.orient rv.1.comp ≠ key a.1.orient a.1.comp := by
      intro rv hrv e
      apply hn.1
      have hk' := key_mem (ho rv (List.mem_cons_of_mem _ hrv)).1 (hc rv (List.mem_cons_of_mem _ hrv))
      rw [List.mem_map]
      refine ⟨rv, hrv, ?_⟩
      rw [Prod.mk.injEq]
      exact ⟨by rw [← hk.2.1, ← hk'.2.1, e], by rw [← hk.2.2.1, ← hk'.2.2.1, e]⟩
    have hput : put L.length tab (key a.1.orient a.1.comp) a.2 =
        .ok (Function.update tab (key a.1.orient a.1.comp) a.2) := by
      unfold put
      rw [if_pos hk.1, if_pos hlen]
    obtain ⟨tab', e1, e2, e3, e4⟩ := ih (fun rv h => ho rv (List.mem_cons_of_mem _ h))
      (fun rv h => hc rv (List.mem_cons_of_mem _ h)) (fun rv h => h1 rv (List.mem_cons_of_mem _ h))
      (fun rv h => h2 rv (List.mem_cons_of_mem _ h)) (fun rv h => hs rv (List.mem_cons_of_mem _ h))
      hn.2 (Function.update tab (key a.1.orient a.1.comp) a.2) (by
        intro rv hrv
        rw [Function.update_of_ne (hne rv hrv)]
        exact ht rv (List.mem_cons_of_mem _ hrv))
    refine ⟨tab', ?_, ?_, ?_, ?_⟩
    · rw [List.foldlM_cons, hput]
      exact e1
    · rw [e2, tab_update f L tab _ hk.1 (ht a (by simp)), ← Multiset.cons_coe, Multiset.cons_bind,
        rxReadings_eq f a (h2 a (by simp)) (hs a (by simp)), h1 a (by simp), hk.2.1, hk.2.2.1,
        hk.2.2.2, ← (ho a (by simp)).2, add_assoc]
    · intro rv hrv
      rcases List.mem_cons.1 hrv with rfl | hrv
      · rw [e4 _ hne, Function.update_self]
      · exact e3 rv hrv
    · intro k hk'
      rw [e4 k fun rv hrv => hk' rv (List.mem_cons_of_mem _ hrv),
        Function.update_of_ne fun e => hk' a (by simp) e.symm]

/-- The records of a regular source hold its readings. -/
theorem srcRows_ok {s : Src ν} (h : Regular s) : ∃ rows, srcRows s = .ok rows ∧
    ((rows : Multiset (Row ν ν)).bind fun r => (dtRI : Multiset String).bind fun name => rd name r) =
      (s.rxs : Multiset (Rx ν × List (Option ν))).bind (fun rv => rxReadings s.freq rv) ∧
    (Paired s → ∀ r ∈ rows, ∀ o ∈ ["xx", "xy", "yx", "yy", "zx", "zy"],
      (r.val (key o "real")).isSome = (r.val (key o "imag")).isSome) := by
  obtain ⟨rv0, l, hl⟩ := List.exists_cons_of_ne_nil h.nonempty
  have hm0 : rv0 ∈ s.rxs := by rw [hl]; simp
  set L := rv0.1.first with hL
  have hlocs : locsOf s = .ok L := by
    unfold locsOf
    rw [hl]
    have h0 := h.head rv0 (by rw [hl]; rfl)
    have h3 := h.dim rv0 hm0
    simp [h0, h3]
    rfl
  have hany : (s.rxs.any fun rv => rv.1.kind = .conductivity) = false := by
    rw [List.any_eq_false]
    intro rv hrv
    have := (h.orient rv hrv).2
    split at this <;> simp [this]
  have hfirst : ∀ rv ∈ s.rxs, rv.1.first = L := fun rv hrv => h.same rv hrv rv0 hm0
  obtain ⟨tab, e1, e2, e3, e4⟩ := fill s.freq L s.rxs h.orient h.comps hfirst h.both h.size h.once
    (fun _ => List.replicate L.length none) (fun _ _ => rfl)
  refine ⟨_, by rw [srcRows, hlocs]; simp only [bind, Except.bind, hany, e1]; rfl, ?_, ?_⟩
  · have z : tabReadings s.freq L (fun _ => List.replicate L.length none) = 0 := by
      have : ∀ i : ℕ, (((List.replicate L.length (none : Option ν))[i]?).join) = none := by
        intro i
        rw [List.getElem?_replicate]
        split <;> rfl
      simp only [tabReadings, this]
      simp [ofOpt]
    rw [z, zero_add] at e2
    rw [← e2, tabReadings, Multiset.bind_bind, ← Multiset.map_coe]
    apply Multiset.bind_congr
    intro name _
    rw [Multiset.bind_map]
    rfl
  · intro hp r hr o ho
    obtain ⟨i, -, rfl⟩ := List.mem_map.1 hr
    have hcomp : ∀ c ∈ ["real", "imag"], ∀ c' ∈ ["real", "imag"], c ≠ c' →
        (c = "real" ∧ c' = "imag") ∨ (c = "imag" ∧ c' = "real") := by decide
    have main : ∀ rv ∈ s.rxs, ∀ rv' ∈ s.rxs, rv'.1.orient = rv.1.orient →
        rv'.2.map Option.isSome = rv.2.map Option.isSome →
        (((tab (key rv.1.orient rv.1.comp))[i]?).join).isSome =
          (((tab (key rv.1.orient rv'.1.comp))[i]?).join).isSome := by
      intro rv hrv rv' hrv' ho hv
      have a := e3 rv' hrv'
      rw [ho] at a
      rw [a, e3 rv hrv]
      have := congrArg (fun l => l[i]?) hv
      simp only [List.getElem?_map] at this
      cases ha : rv.2[i]? <;> cases hb : rv'.2[i]? <;> rw [ha, hb] at this <;> simp_all
    have none_of : ∀ c ∈ ["real", "imag"], (∀ rv ∈ s.rxs, rv.1.orient ≠ o) →
        (((tab (key o c))[i]?).join).isSome = false := by
      intro c hc hno
      rw [e4 (key o c) ?_, List.getElem?_replicate]
      · split <;> rfl
      · intro rv hrv e
        apply hno rv hrv
        rw [← (key_mem (h.orient rv hrv).1 (h.comps rv hrv)).2.1, e, (key_mem ho hc).2.1]
    show (((tab (key o "real"))[i]?).join).isSome = (((tab (key o "imag"))[i]?).join).isSome
    by_cases hno : ∀ rv ∈ s.rxs, rv.1.orient ≠ o
    · rw [none_of "real" (by simp) hno, none_of "imag" (by simp) hno]
    · push Not at hno
      obtain ⟨rv, hrv, rfl⟩ := hno
      obtain ⟨rv', hrv', ho', hc', hv'⟩ := hp rv hrv
      have := main rv hrv rv' hrv' ho' hv'
      rcases hcomp _ (h.comps rv hrv) _ (h.comps rv' hrv') (Ne.symm hc') with ⟨a, b⟩ | ⟨a, b⟩
      · rw [a, b] at this; exact this
      · rw [a, b] at this; exact this.symm

/-- The records of regular sources hold their readings. -/
theorem rows_ok {d : List (Src ν)} (h : ∀ s ∈ d, Regular s) : ∃ rs : Src ν → List (Row ν ν),
    (∀ s ∈ d, srcRows s = .ok (rs s)) ∧
    (((d.flatMap rs : List (Row ν ν)) : Multiset (Row ν ν)).bind fun r =>
      (dtRI : Multiset String).bind fun name => rd name r) = readings d ∧
    ((∀ s ∈ d, Paired s) → ∀ r ∈ d.flatMap rs, ∀ o ∈ ["xx", "xy", "yx", "yy", "zx", "zy"],
      (r.val (key o "real")).isSome = (r.val (key o "imag")).isSome) := by
  classical
  let rs : Src ν → List (Row ν ν) := fun s => if hs : s ∈ d then (srcRows_ok (h s hs)).choose else []
  have hrs : ∀ s (hs : s ∈ d), rs s = (srcRows_ok (h s hs)).choose := fun s hs => by
    simp only [rs, dif_pos hs]
  refine ⟨rs, ?_, ?_, ?_⟩
  · intro s hs
    rw [hrs s hs]
    exact (srcRows_ok (h s hs)).choose_spec.1
  · rw [← Multiset.coe_bind, Multiset.bind_assoc, readings]
    apply Multiset.bind_congr
    intro s hs
    rw [hrs s (by simpa using hs)]
    exact (srcRows_ok (h s (by simpa using hs))).choose_spec.2.1
  · intro hp r hr o ho
    obtain ⟨s, hs, hr⟩ := List.mem_flatMap.1 hr
    rw [hrs s hs] at hr
    exact (srcRows_ok (h s hs)).choose_spec.2.2 (hp s hs) r hr o ho

/-! ## From records to readings -/

omit [LinearOrder ν] [Zero ν] in
/-- Readings of a receiver made of the records with a value. -/
theorem made_readings {β : Type} (f : ν) (kind : Kind) (o c : String) (rows : List (Row ν β))
    (hf : ∀ r ∈ rows, r.freq = f) (name : String) (g : β → ν) :
    rxReadings f (⟨kind, o, c, 3,
        (rows.filter fun r => (r.val name).isSome).map Row.loc,
        (rows.filter fun r => (r.val name).isSome).map Row.loc⟩,
        (rows.filter fun r => (r.val name).isSome).map fun r => (r.val name).map g) =
      (rows : Multiset (Row ν β)).bind fun r =>
        ofOpt ((r.val name).map fun v => ⟨r.freq, kind, o, c, r.loc, r.loc, g v⟩) := by
  rw [rxReadings]
  dsimp only
  rw [List.zip_map', List.zip_map', List.filterMap_map, List.filterMap_filter, filterMap_bind]
  apply Multiset.bind_congr
  intro r hr
  rw [hf r (by simpa using hr)]
  cases h : r.val name <;> simp [h, Function.comp]

/-- The receivers `recvReal` makes of an impedance field. -/
def madeReal (name : String) (rows : List (Row ν ν)) : List (Rx ν × List (Option ν)) :=
  if (rows.filter fun r => (r.val name).isSome).isEmpty then []
  else [(⟨.impedance, mid name, partOf name, 3,
    (rows.filter fun r => (r.val name).isSome).map Row.loc,
    (rows.filter fun r => (r.val name).isSome).map Row.loc⟩,
    (rows.filter fun r => (r.val name).isSome).map fun r => r.val name)]

/-- The receivers `recvCplx` makes of a field. -/
def madeCplx (name : String) (rows : List (Row ν (ν × ν))) : List (Rx ν × List (Option ν)) :=
  if (rows.filter fun r => (r.val name).isSome).isEmpty then []
  else [(⟨kindOf name, mid name, "real", 3,
    (rows.filter fun r => (r.val name).isSome).map Row.loc,
    (rows.filter fun r => (r.val name).isSome).map Row.loc⟩,
    (rows.filter fun r => (r.val name).isSome).map fun r => (r.val name).map Prod.fst),
    (⟨kindOf name, mid name, "imag", 3,
    (rows.filter fun r => (r.val name).isSome).map Row.loc,
    (rows.filter fun r => (r.val name).isSome).map Row.loc⟩,
    (rows.filter fun r => (r.val name).isSome).map fun r => (r.val name).map Prod.snd)]

/-- The fields of impedances. -/
theorem imp_name {name : String} (h : name ∈ dtRI) (ht : has name 't' = false) :
    has name 'z' = true ∧ kindOf name = .impedance ∧ wanted name = true ∧
      (["xx", "xy", "yx", "yy"].find? fun t => t = fold (mid name)) = some (mid name) := by
  have : ∀ name ∈ dtRI, has name 't' = false → has name 'z' = true ∧ kindOf name = .impedance ∧
      wanted name = true ∧
      (["xx", "xy", "yx", "yy"].find? fun t => t = fold (mid name)) = some (mid name) := by decide
  exact this name h ht

/-- The fields of tippers. -/
theorem tip_name {name : String} (h : name ∈ dtRI) (ht : has name 't' = true) :
    has name 'z' = true ∧ kindOf name = .tipper ∧ wanted name = true ∧
      (["xx", "xy", "yx", "yy"].find? fun t => t = fold (mid name)) = none := by
  have : ∀ name ∈ dtRI, has name 't' = true → has name 'z' = true ∧ kindOf name = .tipper ∧
      wanted name = true ∧
      (["xx", "xy", "yx", "yy"].find? fun t => t = fold (mid name)) = none := by decide
  exact this name h ht

/-- The fields of complex records. -/
theorem cp_name {name : String} (h : name ∈ dtCP) :
    wanted name = true ∧
      (match kindOf name with
        | .impedance => ["xx", "xy", "yx", "yy"]
        | _ => ["zx", "zy", "xx", "xy", "yx", "yy"]).find? (fun t => t = fold (mid name)) =
          some (mid name) := by
  have : ∀ name ∈ dtCP, wanted name = true ∧
      (match kindOf name with
        | .impedance => ["xx", "xy", "yx", "yy"]
        | _ => ["zx", "zy", "xx", "xy", "yx", "yy"]).find? (fun t => t = fold (mid name)) =
          some (mid name) := by decide
  exact this name h

omit [LinearOrder ν] [Zero ν] in
theorem recvReal_ok {name : String} (h : name ∈ dtRI) (rows : List (Row ν ν))
    (ht : has name 't' = true → ∀ r ∈ rows, r.val name = none) :
    recvReal name rows = .ok (madeReal name rows) := by
  unfold recvReal madeReal
  dsimp only
  by_cases he : (rows.filter fun r => (r.val name).isSome).isEmpty = true
  · rw [if_pos he, if_pos he]
  · rw [if_neg he, if_neg he]
    cases hb : has name 't' with
    | true =>
      exact absurd (by
        rw [List.isEmpty_iff, List.filter_eq_nil_iff]
        intro r hr
        simp [ht hb r hr]) he
    | false =>
      obtain ⟨a, b, c, e⟩ := imp_name h hb
      simp only [a, if_true, mk, e, Except.map, bind, Except.bind, partOf, List.append_nil]
      rfl

omit [LinearOrder ν] [Zero ν] in
theorem recvCplx_ok {name : String} (h : name ∈ dtCP) (rows : List (Row ν (ν × ν))) :
    recvCplx name rows = .ok (madeCplx name rows) := by
  unfold recvCplx madeCplx
  dsimp only
  by_cases he : (rows.filter fun r => (r.val name).isSome).isEmpty = true
  · rw [if_pos he, if_pos he]
  · rw [if_neg he, if_neg he]
    have e := (cp_name h).2
    have hk : (if has name 't' = true then Kind.tipper else Kind.impedance) = kindOf name := rfl
    simp only [hk, mk, e, bind, Except.bind]

omit [LinearOrder ν] [Zero ν] in
theorem madeReal_readings {name : String} (h : name ∈ dtRI) (f : ν) (rows : List (Row ν ν))
    (hf : ∀ r ∈ rows, r.freq = f) (ht : has name 't' = true → ∀ r ∈ rows, r.val name = none) :
    ((madeReal name rows : List _) : Multiset (Rx ν × List (Option ν))).bind
      (fun rv => rxReadings f rv) = (rows : Multiset (Row ν ν)).bind fun r => rd name r := by
  unfold madeReal
  by_cases he : (rows.filter fun r => (r.val name).isSome).isEmpty = true
  · rw [if_pos he]
    rw [List.isEmpty_iff, List.filter_eq_nil_iff] at he
    rw [Multiset.coe_nil, Multiset.zero_bind]
    symm
    have : ∀ r ∈ (rows : Multiset (Row ν ν)), rd name r = 0 := by
      intro r hr
      have := he r (by simpa using hr)
      simp only [Bool.not_eq_true, Option.isSome_eq_false_iff, Option.isNone_iff_eq_none] at this
      simp [rd, this, ofOpt]
    rw [Multiset.bind_congr this, Multiset.bind_zero]
  · rw [if_neg he]
    have hb : has name 't' = false := by
      cases hb : has name 't' with
      | false => rfl
      | true =>
        exact absurd (by
          rw [List.isEmpty_iff, List.filter_eq_nil_iff]
          intro r hr
          simp [ht hb r hr]) he
    rw [Multiset.coe_singleton, Multiset.singleton_bind]
    have := made_readings f Kind.impedance (mid name) (partOf name) rows hf name (fun v => v)
    simp only [Option.map_id'] at this
    rw [this]
    apply Multiset.bind_congr
    intro r _
    rw [rd, (imp_name h hb).2.1]

omit [LinearOrder ν] [Zero ν] in
theorem madeCplx_readings {name : String} (f : ν) (rows : List (Row ν (ν × ν)))
    (hf : ∀ r ∈ rows, r.freq = f) :
    ((madeCplx name rows : List _) : Multiset (Rx ν × List (Option ν))).bind
      (fun rv => rxReadings f rv) = (rows : Multiset (Row ν (ν × ν))).bind fun r => rdC name r := by
  unfold madeCplx
  by_cases he : (rows.filter fun r => (r.val name).isSome).isEmpty = true
  · rw [if_pos he]
    rw [List.isEmpty_iff, List.filter_eq_nil_iff] at he
    rw [Multiset.coe_nil, Multiset.zero_bind]
    symm
    have : ∀ r ∈ (rows : Multiset (Row ν (ν × ν))), rdC name r = 0 := by
      intro r hr
      have := he r (by simpa using hr)
      simp only [Bool.not_eq_true, Option.isSome_eq_false_iff, Option.isNone_iff_eq_none] at this
      simp [rdC, this, ofOpt]
    rw [Multiset.bind_congr this, Multiset.bind_zero]
  · rw [if_neg he, ← Multiset.cons_coe, Multiset.cons_bind, Multiset.coe_singleton,
      Multiset.singleton_bind, made_readings f _ _ _ rows hf name Prod.fst,
      made_readings f _ _ _ rows hf name Prod.snd, ← Multiset.bind_add]
    rfl

omit [Zero ν] in
theorem freqs_nodup {β : Type} (rows : List (Row ν β)) : (freqs rows).Nodup :=
  Finset.sort_nodup _ _

omit [Zero ν] in
theorem mem_freqs {β : Type} (rows : List (Row ν β)) (r) (h : r ∈ rows) : r.freq ∈ freqs rows := by
  rw [freqs, Finset.mem_sort, List.mem_toFinset]
  exact List.mem_map_of_mem h

omit [Zero ν] in
/-- The loops of `fromRecArray` visit every field of every record once. -/
theorem build_ok {β : Type}
    (recv : String → List (Row ν β) → Except Err (List (Rx ν × List (Option ν))))
    (names : List String) (rows : List (Row ν β))
    (made : String → List (Row ν β) → List (Rx ν × List (Option ν)))
    (F : String → Row ν β → Multiset (Reading ν)) (hw : ∀ name ∈ names, wanted name = true)
    (h1 : ∀ name ∈ names, ∀ f, recv name (rows.filter fun r => r.freq = f) =
      .ok (made name (rows.filter fun r => r.freq = f)))
    (h2 : ∀ name ∈ names, ∀ f,
      ((made name (rows.filter fun r => r.freq = f) : List _) :
        Multiset (Rx ν × List (Option ν))).bind (fun rv => rxReadings f rv) =
      ((rows.filter fun r => r.freq = f : List (Row ν β)) : Multiset (Row ν β)).bind fun r =>
        F name r)
    (hne : ((rows : Multiset (Row ν β)).bind fun r => (names : Multiset String).bind fun name =>
      F name r) ≠ 0) :
    ∃ d, build recv names rows = .ok d ∧ d.map Src.freq = freqs rows ∧
      readings d = (rows : Multiset (Row ν β)).bind fun r =>
        (names : Multiset String).bind fun name => F name r := by
  have hfil : names.filter wanted = names := List.filter_eq_self.2 hw
  let src : ν → Src ν := fun f => ⟨f, (names.map fun name =>
    made name (rows.filter fun r => r.freq = f)).flatten⟩
  have hs : (freqs rows).mapM (fun f => do
      let rxs ← (names.filter wanted).mapM fun name => recv name (rows.filter fun r => r.freq = f)
      .ok (⟨f, rxs.flatten⟩ : Src ν)) = .ok ((freqs rows).map src) := by
    apply mapM_ok
    intro f _
    rw [hfil, mapM_ok _ (fun name => made name (rows.filter fun r => r.freq = f)) names
      fun name hn => h1 name hn f]
    rfl
  have hread : readings ((freqs rows).map src) = (rows : Multiset (Row ν β)).bind fun r =>
        (names : Multiset String).bind fun name => F name r := by
    rw [← grouped (freqs rows) (freqs_nodup rows) rows Row.freq (mem_freqs rows), readings,
      ← Multiset.map_coe, Multiset.bind_map]
    apply Multiset.bind_congr
    intro f _
    rw [Multiset.bind_bind]
    simp only [src]
    rw [← List.flatMap_def, ← Multiset.coe_bind, Multiset.bind_assoc]
    apply Multiset.bind_congr
    intro name hn
    exact h2 name (by simpa using hn) f
  refine ⟨(freqs rows).map src, ?_, ?_, hread⟩
  · unfold build
    rw [hs]
    simp only [bind, Except.bind]
    rw [if_neg]
    rw [List.isEmpty_iff]
    intro he
    apply hne
    rw [← hread, readings,
      ← Multiset.bind_zero (((freqs rows).map src : List (Src ν)) : Multiset (Src ν))]
    apply Multiset.bind_congr
    intro s hs'
    rw [List.flatMap_eq_nil_iff] at he
    rw [he s (by simpa using hs')]
    simp
  · rw [List.map_map]
    exact List.map_id _

omit [LinearOrder ν] [Zero ν] in
/-- The readings of a complex record are those of the real one if no part is missing. -/
theorem rdC_toComplex (r : Row ν ν)
    (h : ∀ o ∈ ["xx", "xy", "yx", "yy", "zx", "zy"],
      (r.val (key o "real")).isSome = (r.val (key o "imag")).isSome) :
    ((dtCP : Multiset String).bind fun name => rdC name (toComplex r)) =
      (dtRI : Multiset String).bind fun name => rd name r := by
  have one : ∀ name re im : String, name ++ "r" = re → name ++ "i" = im →
      (r.val re).isSome = (r.val im).isSome →
      kindOf re = kindOf name → kindOf im = kindOf name → mid re = mid name → mid im = mid name →
      partOf re = "real" → partOf im = "imag" →
      rdC name (toComplex r) = rd re r + rd im r := by
    intro name re im e1 e2 h a b c d e g
    simp only [rdC, rd, toComplex, e1, e2, a, b, c, d, e, g]
    cases h1 : r.val re <;> cases h2 : r.val im <;> simp_all
  have h6 : ∀ o ∈ ["xx", "xy", "yx", "yy"], rdC ("z" ++ o) (toComplex r) =
      rd ("z" ++ o ++ "r") r + rd ("z" ++ o ++ "i") r := by
    intro o ho
    have hall : ∀ o ∈ ["xx", "xy", "yx", "yy"], key o "real" = "z" ++ o ++ "r" ∧
        key o "imag" = "z" ++ o ++ "i" ∧ kindOf ("z" ++ o ++ "r") = kindOf ("z" ++ o) ∧
        kindOf ("z" ++ o ++ "i") = kindOf ("z" ++ o) ∧ mid ("z" ++ o ++ "r") = mid ("z" ++ o) ∧
        mid ("z" ++ o ++ "i") = mid ("z" ++ o) ∧ partOf ("z" ++ o ++ "r") = "real" ∧
        partOf ("z" ++ o ++ "i") = "imag" ∧ o ∈ ["xx", "xy", "yx", "yy", "zx", "zy"] := by decide
    obtain ⟨a, b, c, d, e, f, g, i, j⟩ := hall o ho
    exact one _ _ _ rfl rfl (by rw [← a, ← b]; exact h o j) c d e f g i
  have h6' : ∀ o ∈ ["zx", "zy"], rdC ("t" ++ o) (toComplex r) =
      rd ("t" ++ o ++ "r") r + rd ("t" ++ o ++ "i") r := by
    intro o ho
    have hall : ∀ o ∈ ["zx", "zy"], key o "real" = "t" ++ o ++ "r" ∧
        key o "imag" = "t" ++ o ++ "i" ∧ kindOf ("t" ++ o ++ "r") = kindOf ("t" ++ o) ∧
        kindOf ("t" ++ o ++ "i") = kindOf ("t" ++ o) ∧ mid ("t" ++ o ++ "r") = mid ("t" ++ o) ∧
        mid ("t" ++ o ++ "i") = mid ("t" ++ o) ∧ partOf ("t" ++ o ++ "r") = "real" ∧
        partOf ("t" ++ o ++ "i") = "imag" ∧ o ∈ ["xx", "xy", "yx", "yy", "zx", "zy"] := by decide
    obtain ⟨a, b, c, d, e, f, g, i, j⟩ := hall o ho
    exact one _ _ _ rfl rfl (by rw [← a, ← b]; exact h o j) c d e f g i
  have a1 := h6 "xx" (by simp)
  have a2 := h6 "xy" (by simp)
  have a3 := h6 "yx" (by simp)
  have a4 := h6 "yy" (by simp)
  have a5 := h6' "zx" (by simp)
  have a6 := h6' "zy" (by simp)
  have hri : dtRI = ["z" ++ "xx" ++ "r", "z" ++ "xx" ++ "i", "z" ++ "xy" ++ "r", "z" ++ "xy" ++ "i",
    "z" ++ "yx" ++ "r", "z" ++ "yx" ++ "i", "z" ++ "yy" ++ "r", "z" ++ "yy" ++ "i",
    "t" ++ "zx" ++ "r", "t" ++ "zx" ++ "i", "t" ++ "zy" ++ "r", "t" ++ "zy" ++ "i"] := by decide
  have hcp : dtCP = ["z" ++ "xx", "z" ++ "xy", "z" ++ "yx", "z" ++ "yy", "t" ++ "zx", "t" ++ "zy"] := by
    decide
  rw [hri, hcp]
  simp only [← Multiset.cons_coe, Multiset.cons_bind, Multiset.coe_nil, Multiset.zero_bind, a1, a2,
    a3, a4, a5, a6, add_assoc]

theorem toRec_ok {d : List (Src ν)} (hd : d ≠ []) (rs : Src ν → List (Row ν ν))
    (h : ∀ s ∈ d, srcRows s = .ok (rs s)) (b : Bool) (hb : b = !d.tail.isEmpty) :
    toRec "RealImag" d = .ok (.real b dtRI (d.flatMap rs)) ∧
      toRec "Complex" d = .ok (.cplx b dtCP ((d.flatMap rs).map toComplex)) := by
  obtain ⟨s, l, rfl⟩ := List.exists_cons_of_ne_nil hd
  have hl := mapM_ok srcRows rs l fun a ha => h a (List.mem_cons_of_mem _ ha)
  have i1 : isIn "RealImag" "RealImag" = true := by decide
  have i2 : isIn "RealImag" "Complex" = false := by decide
  have i3 : isIn "Complex" "Complex" = true := by decide
  subst hb
  constructor
  · simp only [toRec, h s (by simp), hl, bind, Except.bind, i1, if_true, List.flatMap_cons,
      List.flatMap_def, List.tail_cons]
    simp
  · simp only [toRec, h s (by simp), hl, bind, Except.bind, i2, i3, if_true, List.flatMap_cons,
      List.flatMap_def, List.tail_cons, Bool.false_eq_true, if_false]
    simp

omit [Zero ν] in
/-- A field that holds a number belongs to a reading. -/
theorem reading_of_row {rows : List (Row ν ν)} {R : Multiset (Reading ν)}
    (h : ((rows : Multiset (Row ν ν)).bind fun r => (dtRI : Multiset String).bind fun name =>
      rd name r) = R) {r : Row ν ν} (hr : r ∈ rows) {name : String} (hn : name ∈ dtRI) {v : ν}
    (hv : r.val name = some v) :
    (⟨r.freq, kindOf name, mid name, partOf name, r.loc, r.loc, v⟩ : Reading ν) ∈ R := by
  rw [← h, Multiset.mem_bind]
  refine ⟨r, by simpa using hr, ?_⟩
  rw [Multiset.mem_bind]
  refine ⟨name, by simpa using hn, ?_⟩
  simp [rd, hv, ofOpt]

omit [LinearOrder ν] [Zero ν] in
/-- A reading belongs to a receiver. -/
theorem rx_of_reading {d : List (Src ν)} {q : Reading ν} (h : q ∈ readings d) :
    ∃ s ∈ d, ∃ rv ∈ s.rxs, rv.1.kind = q.kind ∧ rv.1.comp = q.comp ∧ rv.1.orient = q.orient := by
  rw [readings, Multiset.mem_bind] at h
  obtain ⟨s, hs, h⟩ := h
  rw [Multiset.mem_bind] at h
  obtain ⟨rv, hrv, h⟩ := h
  rw [rxReadings, Multiset.mem_coe, List.mem_filterMap] at h
  obtain ⟨p, -, h⟩ := h
  rw [Option.map_eq_some_iff] at h
  obtain ⟨v, -, rfl⟩ := h
  exact ⟨s, by simpa using hs, rv, by simpa using hrv, rfl, rfl, rfl⟩

theorem mapM_err {α β : Type} (f : α → Except Err β) (e : Err) (l : List α)
    (h : ∀ a ∈ l, f a = .error e ∨ ∃ b, f a = .ok b) (hx : ∃ a ∈ l, f a = .error e) :
    l.mapM f = .error e := by
  induction l with
  | nil => simp at hx
  | cons a l ih =>
    rw [List.mapM_cons]
    rcases h a (by simp) with ha | ⟨b, hb⟩
    · rw [ha]; rfl
    · rw [hb]
      have : ∃ a ∈ l, f a = .error e := by
        obtain ⟨c, hc, hce⟩ := hx
        rcases List.mem_cons.1 hc with rfl | hc
        · rw [hb] at hce; cases hce
        · exact ⟨c, hc, hce⟩
      simp only [bind, Except.bind]
      rw [ih (fun a ha => h a (List.mem_cons_of_mem _ ha)) this]

theorem mapM_inv {α β : Type} (f : α → Except Err β) (l : List α) (bs : List β)
    (h : l.mapM f = .ok bs) : List.Forall₂ (fun a b => f a = .ok b) l bs := by
  induction l generalizing bs with
  | nil => cases h; exact .nil
  | cons a l ih =>
    rw [List.mapM_cons] at h
    cases ha : f a with
    | error e => rw [ha] at h; cases h
    | ok b =>
      rw [ha] at h
      cases hl : l.mapM f with
      | error e => rw [hl] at h; cases h
      | ok bs' =>
        rw [hl] at h
        cases h
        exact .cons ha (ih bs' hl)

/-! ## C167 -/

/-- **C167**, real and imaginary parts in columns. Impedance data written to a record array and read
back hold the same readings: every number with its frequency, orientation, part and location, and
nothing else. (Partial: not for tippers, see `C167_violated_tipper`, nor for receivers with different
locations, see `C167_violated_locations`.) -/
theorem C167_real_round_trip_partial (d : List (Src ν)) (hd : readings d ≠ 0)
    (h : ∀ s ∈ d, Regular s) (hi : ∀ s ∈ d, ∀ rv ∈ s.rxs, rv.1.kind = .impedance) :
    ∃ t d', toRec "RealImag" d = .ok t ∧ fromRec "primary" t = .ok d' ∧ readings d' = readings d := by
  obtain ⟨rs, h1, h2, -⟩ := rows_ok h
  have hne : d ≠ [] := by
    rintro rfl
    exact hd (by simp [readings])
  have ht : ∀ name ∈ dtRI, has name 't' = true → ∀ r ∈ d.flatMap rs, r.val name = none := by
    intro name hn ht r hr
    cases hv : r.val name with
    | none => rfl
    | some v =>
      obtain ⟨s, hs, rv, hrv, e, -⟩ := rx_of_reading (reading_of_row h2 hr hn hv)
      rw [hi s hs rv hrv] at e
      rw [show kindOf name = Kind.tipper from (tip_name hn ht).2.1] at e
      cases e
  have ht' : ∀ name ∈ dtRI, ∀ f, has name 't' = true →
      ∀ r ∈ (d.flatMap rs).filter (fun r => r.freq = f), r.val name = none :=
    fun name hn f ht' r hr => ht name hn ht' r (List.mem_filter.1 hr).1
  obtain ⟨d', e1, -, e2⟩ := build_ok recvReal dtRI (d.flatMap rs) madeReal rd (by decide)
    (fun name hn f => recvReal_ok hn _ (ht' name hn f))
    (fun name hn f => madeReal_readings hn f _
      (fun r hr => by simpa using (List.mem_filter.1 hr).2) (ht' name hn f))
    (by rw [h2]; exact hd)
  exact ⟨_, d', (toRec_ok hne rs h1 _ rfl).1, by simpa [fromRec] using e1, by rw [e2, h2]⟩

/-- **C167**, complex columns. If with every part of an impedance or tipper the other part was
measured at the same locations, data written to a complex record array and read back hold the same
readings. (Partial: see `C167_violated_parts`, `C167_violated_locations`.) -/
theorem C167_complex_round_trip_partial (d : List (Src ν)) (hd : readings d ≠ 0)
    (h : ∀ s ∈ d, Regular s) (hp : ∀ s ∈ d, Paired s) :
    ∃ t d', toRec "Complex" d = .ok t ∧ fromRec "primary" t = .ok d' ∧ readings d' = readings d := by
  obtain ⟨rs, h1, h2, h3⟩ := rows_ok h
  have hne : d ≠ [] := by
    rintro rfl
    exact hd (by simp [readings])
  have hsum : ((((d.flatMap rs).map toComplex : List (Row ν (ν × ν))) :
      Multiset (Row ν (ν × ν))).bind fun r => (dtCP : Multiset String).bind fun name => rdC name r) =
        readings d := by
    rw [← h2, ← Multiset.map_coe, Multiset.bind_map]
    apply Multiset.bind_congr
    intro r hr
    exact rdC_toComplex r (h3 hp r (by simpa using hr))
  obtain ⟨d', e1, -, e2⟩ := build_ok recvCplx dtCP ((d.flatMap rs).map toComplex) madeCplx rdC
    (by decide) (fun name hn f => recvCplx_ok hn _)
    (fun name hn f => madeCplx_readings f _
      (fun r hr => by simpa using (List.mem_filter.1 hr).2))
    (by rw [hsum]; exact hd)
  exact ⟨_, d', (toRec_ok hne rs h1 _ rfl).2, by simpa [fromRec] using e1, by rw [e2, hsum]⟩

/-- **C167** fails for tippers: a record array with real and imaginary parts in columns cannot be
read back if it holds a tipper, although it was written by the program. -/
theorem C167_violated_tipper (d : List (Src ν)) (h : ∀ s ∈ d, Regular s)
    (hq : ∃ q ∈ readings d, q.kind = .tipper) :
    ∃ t, toRec "RealImag" d = .ok t ∧ fromRec "primary" t = .error .valueError := by
  obtain ⟨rs, h1, h2, -⟩ := rows_ok h
  obtain ⟨q, hq, hk⟩ := hq
  have hne : d ≠ [] := by
    rintro rfl
    simp [readings] at hq
  refine ⟨_, (toRec_ok hne rs h1 _ rfl).1, ?_⟩
  have hw : dtRI.filter wanted = dtRI := by decide
  have hfail : ∀ name ∈ dtRI, ∀ rows : List (Row ν ν), has name 't' = true →
      (∃ r ∈ rows, (r.val name).isSome) → recvReal name rows = .error .valueError := by
    intro name hn rows ht hr
    unfold recvReal
    dsimp only
    rw [if_neg]
    · obtain ⟨a, b, c, e⟩ := tip_name hn ht
      simp only [a, if_true, mk, e, Except.map, bind, Except.bind]
    · rw [List.isEmpty_iff, List.filter_eq_nil_iff]
      obtain ⟨r, hr, hs⟩ := hr
      exact fun hall => hall r hr hs
  have hrecv : ∀ name ∈ dtRI, ∀ rows : List (Row ν ν), recvReal name rows = .error .valueError ∨
      ∃ b, recvReal name rows = .ok b := by
    intro name hn rows
    by_cases ht : has name 't' = true ∧ ∃ r ∈ rows, (r.val name).isSome
    · exact .inl (hfail name hn rows ht.1 ht.2)
    · refine .inr ⟨_, recvReal_ok hn rows fun ht' r hr => ?_⟩
      by_contra hc
      exact ht ⟨ht', r, hr, Option.isSome_iff_ne_none.2 hc⟩
  rw [← h2, Multiset.mem_bind] at hq
  obtain ⟨r, hr, hq⟩ := hq
  rw [Multiset.mem_bind] at hq
  obtain ⟨name, hn, hq⟩ := hq
  have hn' : name ∈ dtRI := by simpa using hn
  have hr' : r ∈ d.flatMap rs := by simpa using hr
  have hv : ∃ v, r.val name = some v ∧ kindOf name = .tipper := by
    cases hv : r.val name with
    | none => simp [rd, hv, ofOpt] at hq
    | some v =>
      simp only [rd, hv, ofOpt, Option.map_some, Option.elim, Multiset.mem_singleton] at hq
      subst hq
      exact ⟨v, rfl, hk⟩
  obtain ⟨v, hv, hkn⟩ := hv
  have htn : has name 't' = true := by
    by_contra hc
    rw [kindOf, if_neg hc] at hkn
    cases hkn
  simp only [fromRec, if_true, build, hw]
  rw [mapM_err _ .valueError]
  · rfl
  · intro f _
    by_cases hex : ∃ name ∈ dtRI,
        recvReal name ((d.flatMap rs).filter fun r => r.freq = f) = .error .valueError
    · left
      rw [mapM_err _ .valueError _ (fun name hn => hrecv name hn _) hex]
      rfl
    · right
      push Not at hex
      have : ∀ name ∈ dtRI, ∃ b, recvReal name ((d.flatMap rs).filter fun r => r.freq = f) = .ok b :=
        fun name hn => (hrecv name hn _).resolve_left (hex name hn)
      choose! g hg using this
      rw [mapM_ok _ g _ hg]
      exact ⟨_, rfl⟩
  · refine ⟨r.freq, mem_freqs _ r hr', ?_⟩
    rw [mapM_err _ .valueError _ (fun name hn => hrecv name hn _)]
    · rfl
    · refine ⟨name, hn', hfail name hn' _ htn ⟨r, ?_, by simp [hv]⟩⟩
      exact List.mem_filter.2 ⟨hr', by simp⟩

/-- A complex record array without any number cannot be read. -/
theorem none_fails (b : Bool) (rows : List (Row ν (ν × ν)))
    (hnone : ∀ r ∈ rows, ∀ name ∈ dtCP, r.val name = none) :
    fromRec "primary" (.cplx b dtCP rows) = .error .valueError := by
  have hw : dtCP.filter wanted = dtCP := by decide
  simp only [fromRec, if_true, build, hw]
  have hin : ∀ f, dtCP.mapM (fun name => recvCplx name (rows.filter fun r => r.freq = f)) =
        .ok (dtCP.map fun _ => ([] : List (Rx ν × List (Option ν)))) := by
    intro f
    apply mapM_ok
    intro name hn
    unfold recvCplx
    dsimp only
    rw [if_pos]
    rw [List.isEmpty_iff, List.filter_eq_nil_iff]
    intro r hr'
    simp [hnone r (List.mem_filter.1 hr').1 name hn]
  rw [mapM_ok _ (fun f => (⟨f, []⟩ : Src ν))]
  · simp only [bind, Except.bind]
    rw [if_pos]
    simp [List.flatMap_map]
  · intro f _
    rw [hin f]
    simp [bind, Except.bind]

/-- **C167** fails for data of one part only: if no imaginary part was measured, the complex record
array holds no number, and cannot be read back. -/
theorem C167_violated_parts (d : List (Src ν)) (hd : d ≠ []) (h : ∀ s ∈ d, Regular s)
    (hr : ∀ s ∈ d, ∀ rv ∈ s.rxs, rv.1.comp = "real") :
    ∃ b rows, toRec "Complex" d = .ok (.cplx b dtCP rows) ∧
      (∀ r ∈ rows, ∀ name ∈ dtCP, r.val name = none) ∧
      fromRec "primary" (.cplx b dtCP rows) = .error .valueError := by
  obtain ⟨rs, h1, h2, -⟩ := rows_ok h
  have hnone : ∀ r ∈ (d.flatMap rs).map toComplex, ∀ name ∈ dtCP, r.val name = none := by
    intro r hr' name hn
    obtain ⟨r, hm, rfl⟩ := List.mem_map.1 hr'
    have hi : ∀ name ∈ dtCP, name ++ "i" ∈ dtRI ∧ partOf (name ++ "i") = "imag" := by decide
    have : r.val (name ++ "i") = none := by
      cases hv : r.val (name ++ "i") with
      | none => rfl
      | some v =>
        obtain ⟨s, hs, rv, hrv, -, e, -⟩ := rx_of_reading (reading_of_row h2 hm (hi name hn).1 hv)
        rw [hr s hs rv hrv] at e
        rw [show partOf (name ++ "i") = "imag" from (hi name hn).2] at e
        exact absurd (show "real" = "imag" from e) (by decide)
    simp only [toComplex, this]
    cases r.val (name ++ "r") <;> rfl
  refine ⟨_, _, (toRec_ok hd rs h1 _ rfl).2, hnone, ?_⟩
  exact none_fails _ _ hnone

/-- **C167** fails for receivers at other locations than the first one: the record array does not
depend on the locations of any other receiver, nor on those of the second field of any receiver.
`g` and `g'` move the receivers in any way. -/
theorem C167_violated_locations (ret : String) (f : ν) (rx : Rx ν) (v : List (Option ν))
    (l : List (Rx ν × List (Option ν))) (rest : List (Src ν)) (L' : List (List ν))
    (g g' : Rx ν → List (List ν)) :
    toRec ret (⟨f, ({ rx with second := L' }, v) ::
        l.map fun rv => ({ rv.1 with first := g rv.1, second := g' rv.1 }, rv.2)⟩ :: rest) =
      toRec ret (⟨f, (rx, v) :: l⟩ :: rest) := by
  have : srcRows (⟨f, ({ rx with second := L' }, v) ::
        l.map fun rv => ({ rv.1 with first := g rv.1, second := g' rv.1 }, rv.2)⟩ : Src ν) =
      srcRows ⟨f, (rx, v) :: l⟩ := by
    simp only [srcRows, locsOf, List.any_cons, List.any_map, List.foldlM_cons, List.foldlM_map]
    rfl
  simp only [toRec, this]

/-- **C167** fails for admittances: they get the fields of impedances. `g` turns any receivers after
the first into impedances. -/
theorem C167_violated_admittance (ret : String) (f : ν) (rx : Rx ν) (v : List (Option ν))
    (l : List (Rx ν × List (Option ν))) (rest : List (Src ν))
    (hl : ∀ rv ∈ l, rv.1.kind ≠ .conductivity) :
    toRec ret (⟨f, (rx, v) :: l.map fun rv => ({ rv.1 with kind := .impedance }, rv.2)⟩ :: rest) =
      toRec ret (⟨f, (rx, v) :: l⟩ :: rest) := by
  have : srcRows (⟨f, (rx, v) :: l.map fun rv => ({ rv.1 with kind := .impedance }, rv.2)⟩ : Src ν) =
      srcRows ⟨f, (rx, v) :: l⟩ := by
    have h1 : (l.any fun rv => rv.1.kind = .conductivity) = false := by
      rw [List.any_eq_false]
      intro rv hrv
      simpa using hl rv hrv
    simp only [srcRows, locsOf, List.any_cons, List.any_map, List.foldlM_cons, List.foldlM_map, h1]
    simp [Function.comp_def]
  simp only [toRec, this]

/-- **C167** fails for data whose first receiver is a tipper, and for several locations with one or
two coordinates: there is no record array. -/
theorem C167_violated_refused (ret : String) (f : ν) (rx : Rx ν) (v : List (Option ν))
    (l : List (Rx ν × List (Option ν))) (rest : List (Src ν)) :
    (rx.kind = .tipper → toRec ret (⟨f, (rx, v) :: l⟩ :: rest) = .error .attributeError) ∧
    (rx.kind ≠ .tipper → (rx.dim = 1 ∨ rx.dim = 2) → rx.first.length ≠ 1 →
      toRec ret (⟨f, (rx, v) :: l⟩ :: rest) = .error .valueError) := by
  constructor
  · intro h
    simp only [toRec, srcRows, locsOf, h, if_true]
    rfl
  · intro h hd hl
    rcases hd with hd | hd
    · simp only [toRec, srcRows, locsOf, if_neg h, hd, if_true, if_neg hl]
      rfl
    · have : ¬ (2 = 1) := by decide
      simp only [toRec, srcRows, locsOf, if_neg h, hd, if_true, if_neg hl, if_neg this]
      rfl

/-- **C167**, sources. Whatever record array is read, there is one source for each of its
frequencies, in increasing order. -/
theorem C167_frequencies (t : Table ν) (d : List (Src ν)) (h : fromRec "primary" t = .ok d) :
    (d.map Src.freq).Pairwise (· < ·) ∧
    ∀ f, f ∈ d.map Src.freq ↔ match t with
      | .real _ _ rows => ∃ r ∈ rows, r.freq = f
      | .cplx _ _ rows => ∃ r ∈ rows, r.freq = f := by
  have main : ∀ {β : Type}
      (recv : String → List (Row ν β) → Except Err (List (Rx ν × List (Option ν))))
      (names : List String) (rows : List (Row ν β)), build recv names rows = .ok d →
      (d.map Src.freq).Pairwise (· < ·) ∧ ∀ f, f ∈ d.map Src.freq ↔ ∃ r ∈ rows, r.freq = f := by
    clear h
    intro β recv names rows h
    unfold build at h
    cases hs : (freqs rows).mapM (fun f => do
      let rxs ← (names.filter wanted).mapM fun name => recv name (rows.filter fun r => r.freq = f)
      .ok (⟨f, rxs.flatten⟩ : Src ν)) with
    | error e => rw [hs] at h; cases h
    | ok srcs =>
      rw [hs] at h
      simp only [bind, Except.bind] at h
      split at h
      · cases h
      · rename_i hx
        cases h
        clear hx
        have h2 := mapM_inv _ _ _ hs
        have e : d.map Src.freq = freqs rows := by
          clear hs
          generalize freqs rows = F at h2
          induction h2 with
          | nil => rfl
          | @cons a b l bs hab _ ih =>
            rw [List.map_cons, ih]
            congr 1
            cases hm : (names.filter wanted).mapM
                (fun name => recv name (rows.filter fun r => r.freq = a)) with
            | error e => rw [hm] at hab; cases hab
            | ok x => rw [hm] at hab; cases hab; rfl
        rw [e]
        refine ⟨Finset.sortedLT_sort _ |>.pairwise, fun f => ?_⟩
        rw [freqs, Finset.mem_sort, List.mem_toFinset, List.mem_map]
  simp only [fromRec, if_true] at h
  cases t with
  | real b names rows => exact main recvReal names rows h
  | cplx b names rows => exact main recvCplx names rows h

/-! ### A case -/

/-- A survey of two frequencies, given in decreasing order, with impedances and tippers at two
locations. -/
def sample (k : Kind) (o : String) : List (Src ℤ) :=
  [⟨10, [(⟨.impedance, "xy", "real", 3, [[0, 0, 0], [1, 0, 0]], [[0, 0, 0], [1, 0, 0]]⟩,
      [some 3, some 4]),
    (⟨.impedance, "xy", "imag", 3, [[0, 0, 0], [1, 0, 0]], [[0, 0, 0], [1, 0, 0]]⟩,
      [some 5, some 6])]⟩,
   ⟨1, [(⟨.impedance, "yx", "imag", 3, [[0, 0, 0], [1, 0, 0]], [[0, 0, 0], [1, 0, 0]]⟩,
      [none, some 7]),
    (⟨.impedance, "yx", "real", 3, [[0, 0, 0], [1, 0, 0]], [[0, 0, 0], [1, 0, 0]]⟩,
      [none, some 8]),
    (⟨k, o, "real", 3, [[0, 0, 0], [1, 0, 0]], [[0, 0, 0], [1, 0, 0]]⟩, [some 9, none]),
    (⟨k, o, "imag", 3, [[0, 0, 0], [1, 0, 0]], [[0, 0, 0], [1, 0, 0]]⟩, [some 2, none])]⟩]

theorem sample_regular (k : Kind) (o : String)
    (hk : (k = .impedance ∧ o = "xx") ∨ (k = .tipper ∧ o = "zy")) :
    ∀ s ∈ sample k o, Regular s ∧ Paired s := by
  intro s hs
  simp only [sample, List.mem_cons, List.not_mem_nil, or_false] at hs
  rcases hs with rfl | rfl
  · refine ⟨⟨by simp, by simp, by simp, by simp, by simp, by simp, by simp, by simp, by simp⟩, ?_⟩
    intro rv hrv
    simp at hrv
    rcases hrv with rfl | rfl <;> simp
  · rcases hk with ⟨rfl, rfl⟩ | ⟨rfl, rfl⟩
    · refine ⟨⟨by simp, by simp, by simp, by simp, by simp, by simp, by simp, by simp, by simp⟩, ?_⟩
      intro rv hrv
      simp at hrv
      rcases hrv with rfl | rfl | rfl | rfl <;> simp
    · refine ⟨⟨by simp, by simp, by simp, by simp, by simp, by simp, by simp, by simp, by simp⟩, ?_⟩
      intro rv hrv
      simp at hrv
      rcases hrv with rfl | rfl | rfl | rfl <;> simp

/-- The hypotheses of `C167_real_round_trip_partial` hold for impedances of two frequencies. -/
example : readings (sample .impedance "xx") ≠ 0 ∧ (∀ s ∈ sample .impedance "xx", Regular s) ∧
    ∀ s ∈ sample .impedance "xx", ∀ rv ∈ s.rxs, rv.1.kind = .impedance :=
  ⟨by decide, fun s hs => (sample_regular _ _ (by simp) s hs).1, by decide⟩

/-- Those of `C167_complex_round_trip_partial` and `C167_violated_tipper` hold with tippers. -/
example : readings (sample .tipper "zy") ≠ 0 ∧ (∀ s ∈ sample .tipper "zy", Regular s) ∧
    (∀ s ∈ sample .tipper "zy", Paired s) ∧ ∃ q ∈ readings (sample .tipper "zy"), q.kind = .tipper :=
  ⟨by decide, fun s hs => (sample_regular _ _ (by simp) s hs).1,
    fun s hs => (sample_regular _ _ (by simp) s hs).2,
    ⟨1, .tipper, "zy", "real", [0, 0, 0], [0, 0, 0], 9⟩, by decide, rfl⟩

/-- A survey of real parts only meets the hypotheses of `C167_violated_parts`. -/
example : Regular (⟨1, [(⟨.impedance, "xy", "real", 3, [[0, 0, 0]], [[0, 0, 0]]⟩, [some 3])]⟩ :
    Src ℤ) :=
  ⟨by simp, by simp, by simp, by simp, by simp, by simp, by simp, by simp, by simp⟩

end Verif.NSEM.Records
