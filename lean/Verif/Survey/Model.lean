import Verif.Basic

/-!
Model of `simpeg/survey.py` (source / receiver bookkeeping) and of the assembly of
predicted data in `simpeg/simulation.py`.

Python object identity (`is`, and the default `__hash__`/`__eq__` of receivers and
sources) is modelled by a natural number `id`.  Only the attributes which the modelled
methods use are kept: the number of data of a receiver and the list of receivers and
number of field columns of a source.
-/

namespace Verif.Survey

/-- A receiver: identity and `nD` (survey.py 119-128, `BaseRx.nD`; for time receivers
212-221).  Locations are abstracted to their number. -/
structure Rx where
  id : Nat
  nD : Nat
  deriving DecidableEq, Repr

/-- A source: identity, `receiver_list` (survey.py 324-339) and `_fields_per_source`
(survey.py 362). -/
structure Src where
  id : Nat
  rxs : List Rx
  nFields : Nat := 1
  deriving DecidableEq, Repr

/-- `len(set(value)) == len(value)`, the uniqueness test of
`validate_list_of_types` (code_utils.py 983); `set` identifies objects by identity. -/
def uniqueIds : List Nat → Bool
  | [] => true
  | a :: l => !l.contains a && uniqueIds l

/-- `BaseSrc.receiver_list` setter (survey.py 335-339). Type checks are not modelled. -/
def setReceiverList (s : Src) (l : List Rx) : Except Err Src :=
  if uniqueIds (l.map Rx.id) then .ok { s with rxs := l } else .error .valueError

/-- `BaseSrc.nD` (survey.py 391-411): the sum over `vnD`. -/
def Src.nD (s : Src) : Nat := (s.rxs.map Rx.nD).sum

/-- The mutable part of a `BaseSurvey`: the source list and the cached `_vnD`
(survey.py 439-460, 513-524). -/
structure Survey where
  sources : List Src
  vnDCache : Option (List Nat) := none
  deriving DecidableEq, Repr

/-- `BaseSurvey.source_list` setter (survey.py 456-460).  The cached `_vnD` is left as
it is, exactly as in the code: `__setattr__` (451-454) only resets `__sourceOrder`. -/
def setSourceList (s : Survey) (l : List Src) : Except Err Survey :=
  if uniqueIds (l.map Src.id) then .ok { s with sources := l } else .error .valueError

/-- `BaseSurvey.__init__` (survey.py 427-437). -/
def mkSurvey (l : List Src) : Except Err Survey :=
  setSourceList { sources := [] } l

/-- `BaseSurvey.vnD` (survey.py 513-524): computed once, then served from the cache. -/
def readVnD (s : Survey) : List Nat × Survey :=
  match s.vnDCache with
  | some v => (v, s)
  | none =>
    let v := s.sources.map Src.nD
    (v, { s with vnDCache := some v })

/-- `BaseSurvey.nD` (survey.py 502-511). -/
def readND (s : Survey) : Nat × Survey :=
  let (v, s') := readVnD s
  (v.sum, s')

/-- The generator `(src, rx) for src in source_list for rx in src.receiver_list`
(survey.py 570-572 and 615-617). -/
def pairs (l : List Src) : List (Src × Rx) :=
  l.flatMap fun s => s.rxs.map fun r => (s, r)

/-- The loop of `get_slice` (survey.py 575-582), `off` is `end_offset`. -/
def getSliceLoop (srcId rxId : Nat) : List (Src × Rx) → Nat → Option (Nat × Nat)
  | [], _ => none
  | (s, r) :: l, off =>
    if s.id = srcId ∧ r.id = rxId then some (off, off + r.nD)
    else getSliceLoop srcId rxId l (off + r.nD)

/-- `BaseSurvey.get_slice` (survey.py 542-590). -/
def getSlice (l : List Src) (srcId rxId : Nat) : Except Err (Nat × Nat) :=
  match getSliceLoop srcId rxId (pairs l) 0 with
  | some sl => .ok sl
  | none => .error .keyError

/-- The loop of `get_all_slices` (survey.py 620-625). -/
def allSlicesLoop : List (Src × Rx) → Nat → List ((Nat × Nat) × (Nat × Nat)) →
    List ((Nat × Nat) × (Nat × Nat))
  | [], _, d => d
  | (s, r) :: l, off, d =>
    allSlicesLoop l (off + r.nD) (dictSet d (s.id, r.id) (off, off + r.nD))

/-- `BaseSurvey.get_all_slices` (survey.py 592-626). -/
def getAllSlices (l : List Src) : List ((Nat × Nat) × (Nat × Nat)) :=
  allSlicesLoop (pairs l) 0 []

/-- The double loop of `BaseSimulation.dpred` (simulation.py 190-194) and
`BaseTimeSimulation.dpred` (602-606).  `none` is the `np.nan` placeholder; `eval` is
`mkvc(rx.eval(src, mesh, f))` for the fixed fields `f`. -/
def dpredLoop {α : Type} (slices : List ((Nat × Nat) × (Nat × Nat)))
    (eval : Src → Rx → List α) : List (Src × Rx) → List (Option α) →
    Except Err (List (Option α))
  | [], d => .ok d
  | (s, r) :: l, d =>
    match dictGet slices (s.id, r.id) with
    | none => .error .keyError
    | some (a, b) =>
      match writeSlice d a b ((eval s r).map some) with
      | .error e => .error e
      | .ok d' => dpredLoop slices eval l d'

/-- `BaseSimulation.dpred` for given fields (simulation.py 188-195), including the read
of the (cached) `survey.nD` that sizes the placeholder array. -/
def dpred {α : Type} (sv : Survey) (eval : Src → Rx → List α) :
    Except Err (List (Option α)) :=
  let slices := getAllSlices sv.sources
  let n := (readND sv).1
  dpredLoop slices eval (pairs sv.sources) (List.replicate n none)

/-- `BaseSurvey._sourceOrder` (survey.py 462-471).  The cache is never hit
(`getattr(self, "__sourceOrder", None)` looks up the unmangled name) so it is recomputed
at every access. -/
def sourceOrderLoop : List Src → Nat → List (Nat × List Nat) → List (Nat × List Nat)
  | [], _, d => d
  | s :: l, i, d =>
    sourceOrderLoop l (i + s.nFields)
      (dictSet d s.id ((List.range s.nFields).map (i + ·)))

/-- `BaseSurvey._sourceOrder` (survey.py 462-471). -/
def sourceOrder (l : List Src) : List (Nat × List Nat) := sourceOrderLoop l 0 []

/-- `BaseSurvey.get_source_indices` (survey.py 485-500) on a list of sources, given by
identity. -/
def getSourceIndices (l : List Src) : List Nat → Except Err (List Nat)
  | [] => .ok []
  | q :: qs =>
    match dictGet (sourceOrder l) q with
    | none => .error .keyError
    | some ind =>
      match getSourceIndices l qs with
      | .error e => .error e
      | .ok rest => .ok (ind ++ rest)

/-- `BaseSurvey._n_fields` (survey.py 537-540). -/
def nFieldsTotal (l : List Src) : Nat := (l.map Src.nFields).sum

end Verif.Survey
