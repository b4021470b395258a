import Verif.Basic
import Mathlib.Data.List.Basic

/-! Model of the choice of solvers: `simpeg/utils/solver_utils.py` 40-92,
`simpeg/base/pde_simulation.py` 431-532, the places where simulations factor a matrix, and the
initial Hessian of `simpeg/inverse_problem.py` 222-250. -/

namespace Verif.PDE.Solvers
open Verif

/-- Options of a solver: names and values. -/
abbrev Opts := List (String × Nat)

/-- What can be assigned as a solver: `None`, a subclass of `pymatsolver.solvers.Base` (numbered),
another class, or something that is no class. -/
inductive Val
  | none
  | cls (k : Nat)
  | foreign
  | object

/-- What can be assigned as options: a `dict` or something else. -/
inductive OptsVal
  | dict (o : Opts)
  | other

/-- `set_default_solver` (`solver_utils.py` 74-88): the default afterwards, or `TypeError`.
`issubclass` raises `TypeError` itself for `None` and for objects. -/
def setDefault (_d : Nat) : Val → Except Err Nat
  | .cls k => .ok k
  | .none => .error .typeError
  | .foreign => .error .typeError
  | .object => .error .typeError

/-- The setter of `solver` (`pde_simulation.py` 493-511); the warning is `warns`. -/
def setSolver : Val → Except Err (Option Nat)
  | .none => .ok none
  | .cls k => .ok (some k)
  | .foreign => .error .typeError
  | .object => .error .typeError

/-- Whether the setter warns (502-510); `SolverLU` and `Solver` are classes 0 and 1. -/
def warns : Option Nat → Bool
  | some 0 => true
  | some 1 => true
  | _ => false

/-- The setter of `solver_opts` (530-532). -/
def setOpts : OptsVal → Except Err Opts
  | .dict o => .ok o
  | .other => .error .typeError

/-- The kinds of simulations which treat solvers differently: differential magnetics, flow, natural
source in two dimensions, differential gravity, and all others. -/
inductive Kind
  | magnetics
  | richards
  | nsem2d
  | gravity
  | regular
deriving DecidableEq

/-- A simulation, as far as solvers matter. -/
structure Sim where
  kind : Kind
  /-- `_solver` -/
  solver : Option Nat
  /-- `_solver_opts` -/
  opts : Opts
  /-- the solver of the one dimensional simulations at the boundary
  (`natural_source/simulation.py` 360-370, 590-600), made when the simulation is made -/
  boundary : Nat
  /-- the class held by `_root_finder` (`flow/richards/simulation.py` 173-183) -/
  newton : Option (Option Nat) := none

/-- The options a magnetic simulation sets itself (`magnetics/simulation.py` 1740). -/
def magneticsOpts : Opts := [("is_symmetric", 1), ("is_positive_definite", 1)]

/-- `BasePDESimulation.__init__` (431-450) with the default `d`, and what the constructors of the
kinds do afterwards. -/
def construct (d : Nat) (kind : Kind) (v : Val) (o : Option OptsVal) : Except Err Sim := do
  let v := match v with
    | .none => Val.cls d
    | v => v
  let s ← setSolver v
  let opts ← setOpts (o.getD (.dict []))
  let opts := if kind = .magnetics then magneticsOpts else opts
  pure { kind := kind, solver := s, opts := opts, boundary := s.getD d }

/-- Calling the solver (`self.solver(A, **opts)`); `None` cannot be called. -/
def call (s : Option Nat) (o : Opts) : Except Err (Nat × Opts) :=
  match s with
  | some k => .ok (k, o)
  | none => .error .typeError

/-- The uses of the solver by a simulation. -/
inductive Use
  /-- the system of the simulation: DC, IP, FDEM, TDEM, NSEM, VRM and magnetics
  (`resistivity/simulation.py` 108, `frequency_domain/simulation.py` 197,
  `time_domain/simulation.py` 141, `magnetics/simulation.py` 1878, `flow/richards/simulation.py`
  375, 399, 407, 431, `gravity/simulation.py` 1014) -/
  | system
  /-- initial fields of sources in the time domain (`time_domain/simulation.py` 613,
  `time_domain/sources.py` 1410, 2043, 2055) -/
  | initial
  /-- the one dimensional simulations at the boundary -/
  | boundary
  /-- the steps of Newton's method for flow (`optimization.py` 1480) -/
  | newton

/-- A factorisation: the simulation afterwards, the class and the options it is called with. -/
def factor (s : Sim) : Use → Sim × Except Err (Nat × Opts)
  | .system => (s, if s.kind = .gravity then call s.solver [] else call s.solver s.opts)
  | .initial => (s, call s.solver [])
  | .boundary => (s, .ok (s.boundary, []))
  | .newton =>
    let r := s.newton.getD s.solver
    ({ s with newton := some r }, call r [])

/-- What a user does. -/
inductive Op
  | setDefault (v : Val)
  | new (kind : Kind) (v : Val) (o : Option OptsVal)
  | setSolver (i : Nat) (v : Val)
  | setOpts (i : Nat) (o : OptsVal)
  | use (i : Nat) (u : Use)

/-- The default solver and the simulations made so far. -/
structure World where
  default : Nat
  sims : List Sim := []

/-- One operation; one that raises leaves the world as it is. -/
def World.step (w : World) : Op → World
  | .setDefault v =>
    match Solvers.setDefault w.default v with
    | .ok d => { w with default := d }
    | .error _ => w
  | .new kind v o =>
    match construct w.default kind v o with
    | .ok s => { w with sims := w.sims ++ [s] }
    | .error _ => w
  | .setSolver i v =>
    match Solvers.setSolver v with
    | .ok s => { w with sims := w.sims.modify i fun x => { x with solver := s } }
    | .error _ => w
  | .setOpts i o =>
    match Solvers.setOpts o with
    | .ok o => { w with sims := w.sims.modify i fun x => { x with opts := o } }
    | .error _ => w
  | .use i u => { w with sims := w.sims.modify i fun x => (factor x u).1 }

def World.run (w : World) (ops : List Op) : World := ops.foldl World.step w

/-- A term of the misfits given to an inverse problem. -/
inductive Item
  /-- a data misfit with its simulation; simulations without a solver have none -/
  | misfit (s : Option Nat) (o : Opts)
  /-- a combination, with the misfits in it -/
  | combo (l : List Item)
  /-- another objective function -/
  | other

/-- The loop over the misfits (`inverse_problem.py` 224-231). -/
def firstSolver : List Item → Option (Nat × Opts)
  | [] => none
  | .misfit (some k) o :: _ => some (k, o)
  | .misfit none _ :: l => firstSolver l
  | .combo _ :: l => firstSolver l
  | .other :: l => firstSolver l

/-- The solver of the initial Hessian (222-250): nothing unless asked for and the minimizer is a
`BFGS`. -/
def initialHessian (w : World) (init bfgs : Bool) (l : List Item) : Option (Nat × Opts) :=
  if init && bfgs then
    match firstSolver l with
    | some r => some r
    | none => some (w.default, [("is_symmetric", 1)])
  else none

namespace Props

/-! ### Specification -/

/-- The classes a history makes the default. -/
def defaults : List Op → List Nat
  | [] => []
  | .setDefault (.cls k) :: l => k :: defaults l
  | _ :: l => defaults l

/-- The solvers a history assigns to simulation `i` with success. -/
def assigned (i : Nat) : List Op → List (Option Nat)
  | [] => []
  | .setSolver j .none :: l => if j = i then none :: assigned i l else assigned i l
  | .setSolver j (.cls k) :: l => if j = i then some k :: assigned i l else assigned i l
  | _ :: l => assigned i l

/-- The options a history assigns to simulation `i` with success. -/
def assignedOpts (i : Nat) : List Op → List Opts
  | [] => []
  | .setOpts j (.dict o) :: l => if j = i then o :: assignedOpts i l else assignedOpts i l
  | _ :: l => assignedOpts i l

/-- The last element of a list, or what was before. -/
def lastOr {α : Type} (a : α) (l : List α) : α := l.getLast?.getD a

theorem lastOr_cons {α : Type} (a b : α) (l : List α) : lastOr a (b :: l) = lastOr b l := by
  unfold lastOr
  rw [List.getLast?_cons]
  simp

/-- C195. The default solver is the last class accepted as default; anything but a solver class is
refused and changes nothing, and making or using simulations does not change it. -/
theorem C195_default (w : World) (ops : List Op) :
    (w.run ops).default = lastOr w.default (defaults ops) := by
  induction ops generalizing w with
  | nil => rfl
  | cons op ops ih =>
    have : w.run (op :: ops) = (w.step op).run ops := rfl
    rw [this, ih]
    cases op with
    | setDefault v => cases v <;> simp [World.step, Solvers.setDefault, defaults, lastOr_cons]
    | new kind v o =>
      simp only [World.step, defaults]
      split <;> rfl
    | setSolver i v => cases v <;> simp [World.step, Solvers.setSolver, defaults]
    | setOpts i o => cases o <;> simp [World.step, Solvers.setOpts, defaults]
    | use i u => simp [World.step, defaults]

/-- What one operation does to a simulation that exists. -/
theorem step_get (w : World) (op : Op) (i : Nat) (s : Sim) (h : w.sims[i]? = some s) :
    ∃ s', (w.step op).sims[i]? = some s' ∧ s'.kind = s.kind ∧ s'.boundary = s.boundary ∧
      s'.solver = lastOr s.solver (assigned i [op]) ∧
      s'.opts = lastOr s.opts (assignedOpts i [op]) := by
  have same : ∃ s', w.sims[i]? = some s' ∧ s'.kind = s.kind ∧ s'.boundary = s.boundary ∧
      s'.solver = lastOr s.solver [] ∧ s'.opts = lastOr s.opts [] := ⟨s, h, rfl, rfl, rfl, rfl⟩
  cases op with
  | setDefault v => cases v <;> simpa [World.step, Solvers.setDefault, assigned, assignedOpts] using same
  | new kind v o =>
    simp only [World.step, assigned, assignedOpts]
    split
    · refine ⟨s, ?_, rfl, rfl, rfl, rfl⟩
      have hi : i < w.sims.length := (List.getElem?_eq_some_iff.mp h).1
      rw [List.getElem?_append_left hi, h]
    · exact same
  | setSolver j v =>
    cases v with
    | none =>
      refine ⟨if j = i then { s with solver := none } else s, ?_, ?_⟩
      · simp only [World.step, Solvers.setSolver, List.getElem?_modify, h]; rfl
      · by_cases e : j = i <;> simp [assigned, assignedOpts, e, lastOr]
    | cls k =>
      refine ⟨if j = i then { s with solver := some k } else s, ?_, ?_⟩
      · simp only [World.step, Solvers.setSolver, List.getElem?_modify, h]; rfl
      · by_cases e : j = i <;> simp [assigned, assignedOpts, e, lastOr]
    | foreign => simpa [World.step, Solvers.setSolver, assigned, assignedOpts] using same
    | object => simpa [World.step, Solvers.setSolver, assigned, assignedOpts] using same
  | setOpts j o =>
    cases o with
    | dict o =>
      refine ⟨if j = i then { s with opts := o } else s, ?_, ?_⟩
      · simp only [World.step, Solvers.setOpts, List.getElem?_modify, h]; rfl
      · by_cases e : j = i <;> simp [assigned, assignedOpts, e, lastOr]
    | other => simpa [World.step, Solvers.setOpts, assigned, assignedOpts] using same
  | use j u =>
    refine ⟨if j = i then (factor s u).1 else s, ?_, ?_⟩
    · simp only [World.step, List.getElem?_modify, h]; rfl
    · by_cases e : j = i
      · cases u <;> simp [e, factor, assigned, assignedOpts, lastOr]
      · simp [e, assigned, assignedOpts, lastOr]

theorem assigned_cons (i : Nat) (op : Op) (ops : List Op) :
    assigned i (op :: ops) = assigned i [op] ++ assigned i ops := by
  cases op with
  | setSolver j v => cases v <;> simp only [assigned] <;> (try split) <;> simp
  | _ => rfl

theorem assignedOpts_cons (i : Nat) (op : Op) (ops : List Op) :
    assignedOpts i (op :: ops) = assignedOpts i [op] ++ assignedOpts i ops := by
  cases op with
  | setOpts j v => cases v <;> simp only [assignedOpts] <;> (try split) <;> simp
  | _ => rfl

theorem lastOr_append {α : Type} (a : α) (l m : List α) :
    lastOr a (l ++ m) = lastOr (lastOr a l) m := by
  unfold lastOr
  rw [List.getLast?_append]
  cases m.getLast? <;> simp

/-- C195. A simulation keeps the solver it was made with until one is assigned to it: later changes
of the default, assignments to other simulations, refused assignments and any use leave it. The
same holds for the options. -/
theorem C195_last (w : World) (ops : List Op) (i : Nat) (s : Sim) (h : w.sims[i]? = some s) :
    ∃ s', (w.run ops).sims[i]? = some s' ∧ s'.kind = s.kind ∧ s'.boundary = s.boundary ∧
      s'.solver = lastOr s.solver (assigned i ops) ∧
      s'.opts = lastOr s.opts (assignedOpts i ops) := by
  induction ops generalizing w s with
  | nil => exact ⟨s, h, rfl, rfl, rfl, rfl⟩
  | cons op ops ih =>
    obtain ⟨s1, h1, k1, b1, v1, o1⟩ := step_get w op i s h
    obtain ⟨s2, h2, k2, b2, v2, o2⟩ := ih (w.step op) s1 h1
    refine ⟨s2, h2, k2.trans k1, b2.trans b1, ?_, ?_⟩
    · rw [v2, v1, assigned_cons i op ops, lastOr_append]
    · rw [o2, o1, assignedOpts_cons i op ops, lastOr_append]

/-- C195. Making a simulation: without a solver it gets the default of that moment, without options
none; a solver that is not a solver class, or options that are not a dictionary, are refused. -/
theorem C195_construct (d k : Nat) (kind : Kind) (o : Opts) (hk : kind ≠ .magnetics) :
    (∃ s, construct d kind .none none = .ok s ∧ s.kind = kind ∧ s.solver = some d ∧ s.opts = []) ∧
    (∃ s, construct d kind .none (some (.dict o)) = .ok s ∧ s.kind = kind ∧ s.solver = some d ∧
      s.opts = o) ∧
    (∃ s, construct d kind (.cls k) (some (.dict o)) = .ok s ∧ s.kind = kind ∧
      s.solver = some k ∧ s.opts = o) ∧
    (∀ oo, construct d kind .foreign oo = .error .typeError ∧
      construct d kind .object oo = .error .typeError) ∧
    (∀ v, construct d kind v (some .other) = .error .typeError) := by
  refine ⟨⟨_, rfl, rfl, rfl, ?_⟩, ⟨_, rfl, rfl, rfl, ?_⟩, ⟨_, rfl, rfl, rfl, ?_⟩, ?_, ?_⟩
  · simp [hk]
  · simp [hk]
  · simp [hk]
  · intro oo
    constructor <;> rfl
  · intro v
    cases v <;> rfl

/-- C195. The system of a simulation is solved with the solver and the options assigned last, after
any history, unless it is that of differential gravity. -/
theorem C195_system (w : World) (ops : List Op) (i : Nat) (s : Sim) (h : w.sims[i]? = some s)
    (hk : s.kind ≠ .gravity) (k : Nat) (hs : lastOr s.solver (assigned i ops) = some k) :
    ∃ s', (w.run ops).sims[i]? = some s' ∧
      (factor s' .system).2 = .ok (k, lastOr s.opts (assignedOpts i ops)) := by
  obtain ⟨s', h', hkind, -, hv, ho⟩ := C195_last w ops i s h
  refine ⟨s', h', ?_⟩
  have : s'.kind ≠ .gravity := by rw [hkind]; exact hk
  simp only [factor, if_neg this, hv, hs, ho, call]

/-- C195. The setter warns exactly about the two slow solvers. -/
theorem C195_warns (v : Option Nat) : warns v = true ↔ v = some 0 ∨ v = some 1 := by
  rcases v with _ | _ | _ | n <;> simp [warns]

/-- C195 (violation). The options given to a magnetic simulation when it is made are dropped; those
assigned later count. -/
theorem C195_violated_magnetics (d : Nat) (v : Val) (o : Opts) (s : Sim)
    (h : construct d .magnetics v (some (.dict o)) = .ok s) :
    s.opts = magneticsOpts ∧ (o ≠ magneticsOpts → s.opts ≠ o) := by
  have : s.opts = magneticsOpts := by
    unfold construct at h
    revert h
    cases v <;> simp only [setSolver, setOpts, Option.getD_some, bind, Except.bind, pure,
      Except.pure, Except.ok.injEq, reduceCtorEq, IsEmpty.forall_iff] <;> (intro h; subst h; rfl)
  exact ⟨this, fun hne e => hne (e.symm.trans this)⟩

/-- C195 (violation). The initial fields in the time domain, the boundary simulations of natural
source problems, Newton's method for flow and differential gravity never pass the options, whatever
they are. -/
theorem C195_violated_options (s : Sim) (r : Nat × Opts) :
    ((factor s .initial).2 = .ok r → r.2 = []) ∧
    ((factor s .boundary).2 = .ok r → r.2 = []) ∧
    ((factor s .newton).2 = .ok r → r.2 = []) ∧
    (s.kind = .gravity → (factor s .system).2 = .ok r → r.2 = []) := by
  have key : ∀ v, call v [] = .ok r → r.2 = [] := by
    intro v h
    cases v with
    | none => cases h
    | some k => simp only [call, Except.ok.injEq] at h; rw [← h]
  refine ⟨key _, ?_, key _, ?_⟩
  · intro h
    simp only [factor, Except.ok.injEq] at h
    rw [← h]
  · intro hk h
    simp only [factor, if_pos hk] at h
    exact key _ h

/-- The class held by the root finder stays. -/
theorem newton_keeps (w : World) (ops : List Op) (i : Nat) (s : Sim) (r : Option Nat)
    (h : w.sims[i]? = some s) (hn : s.newton = some r) :
    ∃ s', (w.run ops).sims[i]? = some s' ∧ s'.newton = some r := by
  induction ops generalizing w s with
  | nil => exact ⟨s, h, hn⟩
  | cons op ops ih =>
    have key : ∀ (f : Sim → Sim) (j : Nat), (∀ x, x.newton = some r → (f x).newton = some r) →
        ∃ s', (w.sims.modify j f)[i]? = some s' ∧ s'.newton = some r := by
      intro f j hf
      refine ⟨if j = i then f s else s, ?_, ?_⟩
      · rw [List.getElem?_modify, h]; rfl
      · split
        · exact hf s hn
        · exact hn
    have : ∃ s', (w.step op).sims[i]? = some s' ∧ s'.newton = some r := by
      cases op with
      | setDefault v => cases v <;> exact ⟨s, h, hn⟩
      | new kind v o =>
        simp only [World.step]
        split
        · have hi : i < w.sims.length := (List.getElem?_eq_some_iff.mp h).1
          exact ⟨s, by rw [List.getElem?_append_left hi, h], hn⟩
        · exact ⟨s, h, hn⟩
      | setSolver j v =>
        cases v with
        | none => exact key _ j fun x hx => hx
        | cls k => exact key _ j fun x hx => hx
        | foreign => exact ⟨s, h, hn⟩
        | object => exact ⟨s, h, hn⟩
      | setOpts j o =>
        cases o with
        | dict o => exact key _ j fun x hx => hx
        | other => exact ⟨s, h, hn⟩
      | use j u =>
        refine key _ j fun x hx => ?_
        cases u <;> simp [factor, hx]
    obtain ⟨s', h', hn'⟩ := this
    exact ih (w.step op) s' h' hn'

/-- C195 (violation). Once Newton's method has run, it keeps the solver of its first use: whatever
is assigned afterwards, the steps use the first and the sensitivities the last. -/
theorem C195_violated_newton (w : World) (ops : List Op) (i : Nat) (s : Sim) (k k' : Nat)
    (h : w.sims[i]? = some s) (hn : s.newton = none) (hs : s.solver = some k)
    (hk : s.kind = .richards) (hl : lastOr s.solver (assigned i ops) = some k') :
    ∃ s', (w.run (.use i .newton :: ops)).sims[i]? = some s' ∧
      (factor s' .newton).2 = .ok (k, []) ∧
      (factor s' .system).2 = .ok (k', lastOr s.opts (assignedOpts i ops)) := by
  have h1 : (w.step (.use i .newton)).sims[i]? = some { s with newton := some (some k) } := by
    simp only [World.step, List.getElem?_modify, h]
    simp [factor, hn, hs]
  obtain ⟨s', h', hn'⟩ := newton_keeps (w.step (.use i .newton)) ops i _ (some k) h1 rfl
  have hrun : w.run (.use i .newton :: ops) = (w.step (.use i .newton)).run ops := rfl
  refine ⟨s', by rw [hrun]; exact h', by simp [factor, hn', call], ?_⟩
  obtain ⟨s'', h'', hf⟩ := C195_system (w.step (.use i .newton)) ops i _ h1
    (by simp [hk]) k' hl
  rw [h'] at h''
  cases h''
  exact hf

/-- C195 (violation). The boundary simulations keep the solver of the moment the simulation was
made; a solver assigned later solves the system but not the boundary. -/
theorem C195_violated_boundary (d : Nat) (v : Val) (o : Option OptsVal) (s : Sim) (w : World)
    (hs : construct d .nsem2d v o = .ok s) (i : Nat) (h : w.sims[i]? = some s) (ops : List Op) :
    ∃ k s', s.solver = some k ∧ (w.run ops).sims[i]? = some s' ∧
      (factor s' .boundary).2 = .ok (k, []) := by
  obtain ⟨s', h', -, hb, -, -⟩ := C195_last w ops i s h
  have : ∃ k, s.solver = some k ∧ s.boundary = k := by
    unfold construct at hs
    revert hs
    cases v <;> rcases o with _ | _ | _ <;>
      simp only [setSolver, setOpts, Option.getD_some, Option.getD_none, bind, Except.bind, pure,
      Except.pure, Except.ok.injEq, reduceCtorEq, IsEmpty.forall_iff] <;>
      (intro h; subst h; exact ⟨_, rfl, rfl⟩)
  obtain ⟨k, hk, hb'⟩ := this
  exact ⟨k, s', hk, h', by simp [factor, hb, hb']⟩

/-- C195 (violation). `None` is accepted as a solver after the simulation is made, and every
solution then fails. -/
theorem C195_violated_none (w : World) (i : Nat) (s : Sim) (h : w.sims[i]? = some s) :
    ∃ s', (w.step (.setSolver i .none)).sims[i]? = some s' ∧
      (factor s' .system).2 = .error .typeError := by
  refine ⟨{ s with solver := none }, ?_, ?_⟩
  · simp [World.step, Solvers.setSolver, List.getElem?_modify, h]
  · simp only [factor, call]
    split <;> rfl

/-- `FirstTop l r`: the first term of `l` itself that is a data misfit with a solver has solver and
options `r`. -/
inductive FirstTop : List Item → Nat × Opts → Prop
  | here (k : Nat) (o : Opts) (l : List Item) : FirstTop (.misfit (some k) o :: l) (k, o)
  | there (x : Item) (l : List Item) (r : Nat × Opts) :
      (∀ k o, x ≠ .misfit (some k) o) → FirstTop l r → FirstTop (x :: l) r

theorem firstSolver_iff (l : List Item) (r : Nat × Opts) : firstSolver l = some r ↔ FirstTop l r := by
  induction l with
  | nil =>
    simp only [firstSolver, reduceCtorEq, false_iff]
    intro h
    cases h
  | cons x l ih =>
    match x with
    | .misfit (some k) o =>
      simp only [firstSolver, Option.some.injEq]
      constructor
      · rintro rfl; exact .here k o l
      · intro h
        cases h with
        | here => rfl
        | there _ _ _ hne _ => exact absurd rfl (hne k o)
    | .misfit none o =>
      simp only [firstSolver, ih]
      exact ⟨.there _ l r (by simp), fun h => by cases h; assumption⟩
    | .combo c =>
      simp only [firstSolver, ih]
      exact ⟨.there _ l r (by simp), fun h => by cases h; assumption⟩
    | .other =>
      simp only [firstSolver, ih]
      exact ⟨.there _ l r (by simp), fun h => by cases h; assumption⟩

/-- C195. The initial Hessian of BFGS: nothing when it is not asked for or the minimizer is another
one; otherwise the solver and options of the first misfit that has a solver, or the default with the
option for symmetric matrices when none has. -/
theorem C195_hessian (w : World) (init bfgs : Bool) (l : List Item) :
    (initialHessian w init bfgs l = none ↔ ¬ (init = true ∧ bfgs = true)) ∧
    (init = true → bfgs = true → ∀ r, FirstTop l r → initialHessian w init bfgs l = some r) ∧
    (init = true → bfgs = true → (∀ r, ¬ FirstTop l r) →
      initialHessian w init bfgs l = some (w.default, [("is_symmetric", 1)])) := by
  refine ⟨?_, ?_, ?_⟩
  · cases init <;> cases bfgs <;> simp [initialHessian]
    cases firstSolver l <;> simp
  · intro h1 h2 r hr
    simp [initialHessian, h1, h2, (firstSolver_iff l r).mpr hr]
  · intro h1 h2 hr
    have : firstSolver l = none := by
      cases hf : firstSolver l with
      | none => rfl
      | some r => exact absurd ((firstSolver_iff l r).mp hf) (hr r)
    simp [initialHessian, h1, h2, this]

/-- C195 (violation). The log says that the option for symmetric matrices is set; with the solver of
a simulation the options are those of the simulation, for any options. -/
theorem C195_violated_symmetric (w : World) (k : Nat) (o : Opts) (l : List Item)
    (ho : ("is_symmetric", 1) ∉ o) :
    ∃ r, initialHessian w true true (.misfit (some k) o :: l) = some r ∧
      ("is_symmetric", 1) ∉ r.2 :=
  ⟨(k, o), rfl, ho⟩

/-- C195 (violation). Misfits inside combinations are not looked at: the default solver is used
although all simulations have another. -/
theorem C195_violated_nested (w : World) (c : List (List Item)) :
    initialHessian w true true (c.map Item.combo) = some (w.default, [("is_symmetric", 1)]) := by
  have : firstSolver (c.map Item.combo) = none := by
    induction c with
    | nil => rfl
    | cons x c ih => simpa [firstSolver] using ih
  simp [initialHessian, this]

/-- The default changes between two simulations: the first keeps the old one. -/
example : (World.run { default := 2 } [.new .regular .none none, .setDefault (.cls 3),
      .setDefault .object, .new .regular .none (some (.dict [("a", 1)])),
      .setOpts 0 (.dict [("b", 2)])]).sims.map (fun s => (factor s .system).2.toOption) =
    [some (2, [("b", 2)]), some (3, [("a", 1)])] := rfl

/-- Flow: Newton's method with solver 2, sensitivities with solver 3. -/
example : (World.run { default := 2 } [.new .richards .none none, .use 0 .newton,
      .setSolver 0 (.cls 3)]).sims.map (fun s => ((factor s .newton).2.toOption,
        (factor s .system).2.toOption)) =
    [(some (2, []), some (3, []))] := rfl

example : FirstTop [.other, .combo [.misfit (some 4) []], .misfit none [], .misfit (some 5) []]
    (5, []) := (firstSolver_iff _ _).mp rfl

end Props
end Verif.PDE.Solvers
