import Verif.Basic
import Verif.TDEM.Piecewise

/-!
C205, C206: attributes that are checked against each other, under any history of assignments.

* `ArbitraryDiscrete.t_wave` and `I_wave`
  (`simpeg/electromagnetics/viscous_remanent_magnetization/waveforms.py` 363-405);
* `PiecewiseLinearWaveform.times` and `currents`
  (`simpeg/electromagnetics/time_domain/sources.py` 829-874);
* `engine`, `store_sensitivities` and `sensitivity_path` of potential-field simulations
  (`simpeg/potential_fields/base.py` 81-108, 190-194, 241-256, 355-369, and
  `simpeg/simulation.py` 126-128).
-/

namespace Verif.VRM.Assignments
open Verif

variable {α : Type}

/-- A value given to a setter: a one-dimensional array, or something
`validate_ndarray_with_shape` refuses with the given exception. -/
inductive Val (α : Type) where
  | arr (l : List α)
  | bad (e : Err)

/-- The attributes `_t_wave` and `_I_wave`; `none` before the first assignment. -/
structure Wave (α : Type) where
  t : Option (List α)
  I : Option (List α)

/-- `ArbitraryDiscrete.t_wave` setter (waveforms.py 378-385): the object afterwards and the
exception, if any. -/
def setT (s : Wave α) : Val α → Wave α × Option Err
  | .bad e => (s, some e)
  | .arr l => match s.I with
    | some i => if l.length ≠ i.length then (s, some .valueError) else ({ s with t := some l }, none)
    | none => ({ s with t := some l }, none)

/-- `ArbitraryDiscrete.I_wave` setter (waveforms.py 398-405). -/
def setI (s : Wave α) : Val α → Wave α × Option Err
  | .bad e => (s, some e)
  | .arr l => match s.t with
    | some i => if l.length ≠ i.length then (s, some .valueError) else ({ s with I := some l }, none)
    | none => ({ s with I := some l }, none)

/-- `ArbitraryDiscrete.__init__` (waveforms.py 363-365). -/
def mkWave (t I : Val α) : Except Err (Wave α) :=
  match setT ⟨none, none⟩ t with
  | (_, some e) => .error e
  | (s, none) => match setI s I with
    | (_, some e) => .error e
    | (s, none) => .ok s

/-- An assignment to one of the two attributes. -/
inductive Op (α : Type) where
  | t (v : Val α)
  | I (v : Val α)

/-- A history of assignments, each accepted or refused. -/
def run : Wave α → List (Op α) → Wave α
  | s, [] => s
  | s, .t v :: l => run (setT s v).1 l
  | s, .I v :: l => run (setI s v).1 l

/-- A `PiecewiseLinearWaveform` with its attributes as separate arrays and the flag
`has_initial_fields` (sources.py 838-842). -/
structure PL where
  times : List ℝ
  currents : List ℝ
  initial : Bool

open TDEM.Waveforms in
/-- `PiecewiseLinearWaveform.__init__` (829-842), from the model of C77. -/
noncomputable def mkPL (times currents : List ℝ) : Except Err PL :=
  match Piecewise.build times currents with
  | .error e => .error e
  | .ok w => .ok ⟨w.nodes.map Prod.fst, w.nodes.map Prod.snd, w.hasInitial⟩

/-- The setters (856-860, 870-874): the shape is validated, nothing is compared, nothing is
sorted. -/
inductive PLOp where
  | times (l : List ℝ)
  | currents (l : List ℝ)

/-- One assignment. -/
def plStep (w : PL) : PLOp → PL
  | .times l => { w with times := l }
  | .currents l => { w with currents := l }

/-- A history. -/
def plRun (w : PL) (ops : List PLOp) : PL := ops.foldl plStep w

/-- Engines (base.py 243-245). -/
inductive Engine | geoana | choclo
  deriving DecidableEq

/-- Where sensitivities are kept (base.py 192-194). -/
inductive Store | disk | ram | forwardOnly
  deriving DecidableEq

/-- The attributes of a potential-field simulation the check reads. -/
structure PF (P : Type) where
  engine : Engine
  store : Store
  path : P

variable {P : Type}

/-- `engine` setter (base.py 241-256); `installed`: choclo can be imported. The exception is
ImportError. -/
def setEngine (installed : Bool) (s : PF P) (e : Engine) : PF P × Option Err :=
  if e = .choclo ∧ installed = false then (s, some .exception) else ({ s with engine := e }, none)

/-- `_check_engine_and_sensitivity_path` (base.py 355-369); `isdir` is `os.path.isdir`. -/
def check (isdir : P → Bool) (s : PF P) : Option Err :=
  if s.engine = .choclo ∧ s.store = .disk ∧ isdir s.path = true then some .valueError else none

/-- `BasePFSimulation.__init__` (base.py 97-107), for values of the listed kinds. -/
def mkPF (installed : Bool) (isdir : P → Bool) (e : Engine) (st : Store) (p : P) :
    Except Err (PF P) :=
  if e = .choclo ∧ installed = false then .error .exception
  else match check isdir ⟨e, st, p⟩ with
    | some err => .error err
    | none => .ok ⟨e, st, p⟩

/-- An assignment after construction. -/
inductive PFOp (P : Type) where
  | engine (e : Engine)
  | store (st : Store)
  | path (p : P)

/-- One assignment: object and exception; none of the setters calls the check
(base.py 190-194, 241-256; simulation.py 126-128). -/
def pfStep (installed : Bool) (s : PF P) : PFOp P → PF P × Option Err
  | .engine e => setEngine installed s e
  | .store st => ({ s with store := st }, none)
  | .path p => ({ s with path := p }, none)

/-- A history with the exceptions raised. -/
def pfRun (installed : Bool) : PF P → List (PFOp P) → PF P × List (Option Err)
  | s, [] => (s, [])
  | s, o :: l =>
    let (s1, e) := pfStep installed s o
    let (s2, es) := pfRun installed s1 l
    (s2, e :: es)

namespace Props

/-! ### C205 -/

/-- C205. Two arrays are accepted exactly if they have the same length, and are then the
attributes. -/
theorem C205_accepted_iff (a b : List α) :
    mkWave (.arr a) (.arr b) =
      if a.length = b.length then .ok ⟨some a, some b⟩ else .error .valueError := by
  by_cases h : a.length = b.length
  · simp [mkWave, setT, setI, h]
  · have h' : ¬ b.length = a.length := fun e => h e.symm
    simp [mkWave, setT, setI, h, h']

/-- C205. A refused assignment leaves both arrays as they are. -/
theorem C205_refused_unchanged (s : Wave α) (v : Val α) :
    ((setT s v).2 ≠ none → (setT s v).1 = s) ∧ ((setI s v).2 ≠ none → (setI s v).1 = s) := by
  cases v with
  | bad e => simp [setT, setI]
  | arr l =>
    constructor
    · cases hi : s.I with
      | none => simp [setT, hi]
      | some i => by_cases h : l.length = i.length <;> simp [setT, hi, h]
    · cases hi : s.t with
      | none => simp [setI, hi]
      | some i => by_cases h : l.length = i.length <;> simp [setI, hi, h]

/-- C205. On a waveform of `n` points an array is accepted exactly if it has `n` entries; it
replaces the attribute assigned, and only that. -/
theorem C205_assignment (a b l : List α) (hab : a.length = b.length) :
    setT ⟨some a, some b⟩ (.arr l) =
      (if l.length = a.length then (⟨some l, some b⟩, none) else (⟨some a, some b⟩, some .valueError)) ∧
    setI ⟨some a, some b⟩ (.arr l) =
      (if l.length = a.length then (⟨some a, some l⟩, none)
        else (⟨some a, some b⟩, some .valueError)) := by
  by_cases h : l.length = a.length
  · simp [setT, setI, h, hab]
  · have h' : ¬ l.length = b.length := fun e => h (e.trans hab.symm)
    simp [setT, setI, h, h']

/-- C205. After every history of assignments, accepted or refused, the two arrays of a waveform
have the same length: that of its construction. -/
theorem C205_same_length (t I : Val α) (s : Wave α) (h : mkWave t I = .ok s) (ops : List (Op α)) :
    ∃ a b a0, run s ops = ⟨some a, some b⟩ ∧ t = .arr a0 ∧
      a.length = a0.length ∧ b.length = a0.length := by
  cases t with
  | bad e => simp [mkWave, setT] at h
  | arr a0 =>
    cases I with
    | bad e => simp [mkWave, setT, setI] at h
    | arr b0 =>
      rw [C205_accepted_iff] at h
      split at h
      · next hl =>
        injection h with h
        subst h
        have key : ∀ (ops : List (Op α)) (a b : List α), a.length = a0.length →
            b.length = a0.length → ∃ a' b', run ⟨some a, some b⟩ ops = ⟨some a', some b'⟩ ∧
              a'.length = a0.length ∧ b'.length = a0.length := by
          intro ops
          induction ops with
          | nil => intro a b ha hb; exact ⟨a, b, rfl, ha, hb⟩
          | cons o ops ih =>
            intro a b ha hb
            cases o with
            | t v =>
              cases v with
              | bad e => exact ih a b ha hb
              | arr l =>
                simp only [run]
                rw [(C205_assignment a b l (ha.trans hb.symm)).1]
                split
                · next hl => exact ih l b (hl.trans ha) hb
                · exact ih a b ha hb
            | I v =>
              cases v with
              | bad e => exact ih a b ha hb
              | arr l =>
                simp only [run]
                rw [(C205_assignment a b l (ha.trans hb.symm)).2]
                split
                · next hl => exact ih a l ha (hl.trans ha)
                · exact ih a b ha hb
        obtain ⟨a', b', h1, h2, h3⟩ := key ops a0 b0 rfl hl.symm
        exact ⟨a', b', a0, h1, rfl, h2, h3⟩
      · simp at h

/-- C205 fails where a waveform is to be replaced by one of another number of points: no history
of assignments gets there, in whichever order the arrays are assigned. -/
theorem C205_violated_resize (a b : List α) (hab : a.length = b.length) (a' b' : List α)
    (hn : a'.length ≠ a.length) (ops : List (Op α)) :
    run ⟨some a, some b⟩ ops ≠ ⟨some a', some b'⟩ := by
  intro h
  have hm : mkWave (.arr a) (.arr b) = .ok ⟨some a, some b⟩ := by
    rw [C205_accepted_iff, if_pos hab]
  obtain ⟨x, y, a0, h1, h2, h3, -⟩ := C205_same_length _ _ _ hm ops
  injection h2 with h2
  subst h2
  rw [h1] at h
  injection h with h4 h5
  injection h4 with h4
  subst h4
  exact hn h3

/-- Assignments of both kinds, one of them refused. -/
example : run (⟨some [0, 1, 2], some [0, 1, 0]⟩ : Wave Nat)
    [.t (.arr [0, 2, 4]), .I (.arr [1]), .I (.arr [0, 3, 0])] =
      ⟨some [0, 2, 4], some [0, 3, 0]⟩ := by
  simp [run, setT, setI]

/-- C205 for piecewise linear waveforms, at construction: arrays of the same length, times in
order, and the flag of initial fields that of the first current. -/
theorem C205_piecewise_built (times currents : List ℝ) (w : PL)
    (h : mkPL times currents = .ok w) :
    w.times.length = times.length ∧ w.currents.length = currents.length ∧
    w.times.length = w.currents.length ∧ w.times.Pairwise (· ≤ ·) ∧
    (w.initial = true ↔ w.currents.headD 0 ≠ 0) := by
  unfold mkPL TDEM.Waveforms.Piecewise.build at h
  by_cases h1 : times.length = currents.length
  · by_cases h2 : times.length = 0
    · rw [if_neg (by simpa using h1), if_pos h2] at h
      simp at h
    · rw [if_neg (by simpa using h1), if_neg h2] at h
      simp only at h
      injection h with h
      subst h
      have hs : ((times.zip currents).insertionSort (fun a b => a.1 ≤ b.1)).Pairwise
          (fun a b => a.1 ≤ b.1) :=
        @List.pairwise_insertionSort _ _ _ ⟨fun (a b : ℝ × ℝ) => le_total a.1 b.1⟩
          ⟨fun (a b c : ℝ × ℝ) (h1 : a.1 ≤ b.1) (h2 : b.1 ≤ c.1) => le_trans h1 h2⟩ _
      refine ⟨by simp [h1], by simp [h1], by simp, ?_, ?_⟩
      · exact List.pairwise_map.2 hs
      · simp only [TDEM.Waveforms.Piecewise.hasInitial, TDEM.Waveforms.Piecewise.I,
          decide_eq_true_eq]
        cases (times.zip currents).insertionSort (fun a b => a.1 ≤ b.1) <;> simp
  · simp [h1] at h

/-- C205 fails for piecewise linear waveforms: every array is accepted later on. The times need
not be as many as the currents, nor in order, and the flag of initial fields stays as it was. -/
theorem C205_violated_piecewise (w : PL) (t c : List ℝ) :
    plRun w [.times t, .currents c] = ⟨t, c, w.initial⟩ := rfl

/-- The flag never follows the currents. -/
theorem C205_violated_initial (w : PL) (ops : List PLOp) : (plRun w ops).initial = w.initial := by
  unfold plRun
  induction ops generalizing w with
  | nil => rfl
  | cons o ops ih =>
    rw [List.foldl_cons, ih]
    cases o <;> rfl

/-! ### C206 -/

/-- C206. A simulation is built exactly if choclo can be imported where it is asked for, and
choclo is not to write its sensitivities to a directory. -/
theorem C206_built_iff (installed : Bool) (isdir : P → Bool) (e : Engine) (st : Store) (p : P) :
    mkPF installed isdir e st p = .ok ⟨e, st, p⟩ ↔
      (e = .choclo → installed = true) ∧ ¬ (e = .choclo ∧ st = .disk ∧ isdir p = true) := by
  unfold mkPF check
  cases e <;> cases installed <;> by_cases h : st = .disk ∧ isdir p = true <;> simp [h]

/-- C206. What is built is what was asked for. -/
theorem C206_built (installed : Bool) (isdir : P → Bool) (e : Engine) (st : Store) (p : P)
    (s : PF P) (h : mkPF installed isdir e st p = .ok s) : s = ⟨e, st, p⟩ := by
  unfold mkPF at h
  split at h
  · simp at h
  · split at h
    · simp at h
    · injection h with h; exact h.symm

/-- C206 (partial: simulations whose engine, or whose store, is not assigned after construction
to a value the check concerns; missing: other histories, refuted below). If the engine was
built as geoana and is never assigned choclo, or sensitivities are neither built nor assigned to
be on disk, choclo never has a directory to write to. -/
theorem C206_histories_partial (installed : Bool) (isdir : P → Bool) (s : PF P)
    (ops : List (PFOp P))
    (h : (s.engine = .geoana ∧ PFOp.engine .choclo ∉ ops) ∨
      (s.store ≠ .disk ∧ PFOp.store .disk ∉ ops)) :
    check isdir (pfRun installed s ops).1 = none := by
  induction ops generalizing s with
  | nil =>
    unfold pfRun check
    rcases h with ⟨h, -⟩ | ⟨h, -⟩ <;> simp [h]
  | cons o ops ih =>
    simp only [pfRun]
    apply ih
    rcases h with ⟨h1, h2⟩ | ⟨h1, h2⟩
    · left
      simp only [List.mem_cons, not_or] at h2
      refine ⟨?_, h2.2⟩
      cases o with
      | engine e => cases e <;> simp_all [pfStep, setEngine]
      | store st => exact h1
      | path p => exact h1
    · right
      simp only [List.mem_cons, not_or] at h2
      refine ⟨?_, h2.2⟩
      cases o with
      | engine e => unfold pfStep setEngine; simp only; split <;> exact h1
      | store st =>
        intro e
        exact h2.1 (by rw [show st = .disk from e])
      | path p => exact h1

/-- C206 fails: from every simulation, assignments of the three attributes in whatever order and
however often lead choclo to a directory, without any exception. -/
theorem C206_violated_assignments (isdir : P → Bool) (s : PF P) (d : P) (hd : isdir d = true)
    (ops : List (PFOp P))
    (hsub : ∀ o ∈ ops, o = .engine .choclo ∨ o = .store .disk ∨ o = .path d)
    (h1 : .engine .choclo ∈ ops) (h2 : .store .disk ∈ ops) (h3 : .path d ∈ ops) :
    (pfRun true s ops).1 = ⟨.choclo, .disk, d⟩ ∧ (∀ e ∈ (pfRun true s ops).2, e = none) ∧
    check isdir (pfRun true s ops).1 = some .valueError := by
  have key : ∀ (ops : List (PFOp P)) (s : PF P),
      (∀ o ∈ ops, o = .engine .choclo ∨ o = .store .disk ∨ o = .path d) →
      (s.engine = .choclo ∨ .engine .choclo ∈ ops → (pfRun true s ops).1.engine = .choclo) ∧
      (s.store = .disk ∨ .store .disk ∈ ops → (pfRun true s ops).1.store = .disk) ∧
      (s.path = d ∨ .path d ∈ ops → (pfRun true s ops).1.path = d) ∧
      ∀ e ∈ (pfRun true s ops).2, e = none := by
    intro ops
    induction ops with
    | nil => intro s _; simp [pfRun]
    | cons o ops ih =>
      intro s hs
      have ho := hs o (by simp)
      obtain ⟨i1, i2, i3, i4⟩ := ih (pfStep true s o).1 fun o' ho' => hs o' (by simp [ho'])
      simp only [pfRun]
      rcases ho with rfl | rfl | rfl
      · refine ⟨fun _ => i1 (.inl (by simp [pfStep, setEngine])), fun h => i2 ?_, fun h => i3 ?_, ?_⟩
        · simpa [pfStep, setEngine] using h
        · simpa [pfStep, setEngine] using h
        · intro e he
          rcases List.mem_cons.1 he with rfl | he
          · simp [pfStep, setEngine]
          · exact i4 e he
      · refine ⟨fun h => i1 ?_, fun _ => i2 (.inl (by simp [pfStep])), fun h => i3 ?_, ?_⟩
        · simpa [pfStep] using h
        · simpa [pfStep] using h
        · intro e he
          rcases List.mem_cons.1 he with rfl | he
          · simp [pfStep]
          · exact i4 e he
      · refine ⟨fun h => i1 ?_, fun h => i2 ?_, fun _ => i3 (.inl (by simp [pfStep])), ?_⟩
        · simpa [pfStep] using h
        · simpa [pfStep] using h
        · intro e he
          rcases List.mem_cons.1 he with rfl | he
          · simp [pfStep]
          · exact i4 e he
  obtain ⟨k1, k2, k3, k4⟩ := key ops s hsub
  have e : (pfRun true s ops).1 = ⟨.choclo, .disk, d⟩ := by
    cases hr : (pfRun true s ops).1
    rw [hr] at k1 k2 k3
    simp only [PF.mk.injEq]
    exact ⟨k1 (.inr h1), k2 (.inr h2), k3 (.inr h3)⟩
  refine ⟨e, k4, ?_⟩
  rw [e]
  simp [check, hd]

/-- Such assignments, to a simulation built with the default engine. -/
example : mkPF true (fun p : String => p == "sensitivity") .geoana .disk "sensitivity" =
      .ok ⟨.geoana, .disk, "sensitivity"⟩ ∧
    (pfRun true (⟨.geoana, .disk, "sensitivity"⟩ : PF String) [.engine .choclo]) =
      (⟨.choclo, .disk, "sensitivity"⟩, [none]) := by
  simp [mkPF, check, pfRun, pfStep, setEngine]

end Props
end Verif.VRM.Assignments
