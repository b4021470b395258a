import Verif.HasModel.Setter

/-! Which models the members of a `MetaSimulation` and of a `RepeatedSimulation` hold during a
history of calls (`simpeg/meta/simulation.py` 183-255, 426-478). -/

namespace Verif.Meta.State
open Verif

/-- The parts of the simulations that matter here. `X` is the type of full models, `M` of the
members' models, `F` of their fields, `R` of their results. `close` is the test `np.allclose`
by which `HasModel.model` decides that a model has not changed; `map i` is `mappings[i] * m`,
`fields` is `sim.fields(sim.model)`. The members are copies of one simulation whose results
depend on its current model only (its own caches are the subject of C22). -/
structure Cfg (X M F : Type) where
  nsim : Nat
  close : X → X → Bool
  map : Nat → X → M
  fields : M → F

/-- A call: `sim.model = m`; `sim.fields(m)`; `Jvec`/`Jtvec(m, v, f)` with `q i` the evaluation
of member `i` with its part of `v`; `dpred(m, f)`. -/
inductive Op (X M F R : Type)
  | setModel (m : X)
  | fields (m : X)
  | query (m : X) (f : Option (List F)) (q : Nat → M → F → R)
  | dpred (m : Option X) (f : Option (List F)) (q : Nat → M → F → R)

/-- What a call returns. `none` for `dpred` without any model (not modelled further). -/
inductive Out (F R : Type)
  | unit
  | flds (l : List F)
  | res (l : List R)
  | nomodel

variable {X M F R : Type}

/-! #### MetaSimulation -/

/-- The model of the meta simulation and those of its members. -/
structure MState (X M : Type) where
  model : Option X
  sims : Nat → M

/-- The `model` setter (183-192). -/
def MState.assign (c : Cfg X M F) (s : MState X M) (m : X) : MState X M :=
  match s.model with
  | none => ⟨some m, fun i => c.map i m⟩
  | some p => if c.close p m then ⟨some m, s.sims⟩ else ⟨some m, fun i => c.map i m⟩

/-- The list of fields at the current models of the members (212-217). -/
def MState.flds (c : Cfg X M F) (s : MState X M) : List F :=
  (List.range c.nsim).map fun i => c.fields (s.sims i)

/-- Evaluate all members with the given fields, by `zip` (225-228, 236-240, 248-254). -/
def MState.eval (c : Cfg X M F) (s : MState X M) (f : List F) (q : Nat → M → F → R) : List R :=
  ((List.range c.nsim).zip f).map fun p => q p.1 (s.sims p.1) p.2

def MState.step (c : Cfg X M F) (s : MState X M) : Op X M F R → MState X M × Out F R
  | .setModel m => (s.assign c m, .unit)
  | .fields m => let s := s.assign c m; (s, .flds (s.flds c))
  | .query m f q =>
    let s := s.assign c m
    match f with
    | some f => (s, .res (s.eval c f q))
    | none => let s := s.assign c m; (s, .res (s.eval c (s.flds c) q))
  | .dpred m f q => match f with
    | some f => (s, match s.model with
        | none => .nomodel
        | some _ => .res (s.eval c f q))
    | none => match m, s.model with
      | some m, _ => let s := s.assign c m; (s, .res (s.eval c (s.flds c) q))
      | none, some m => let s := s.assign c m; (s, .res (s.eval c (s.flds c) q))
      | none, none => (s, .nomodel)

/-! #### RepeatedSimulation: one simulation for all mappings -/

/-- The model and the model of the single simulation. -/
structure RState (X M : Type) where
  model : Option X
  sim : Option M

/-- The `model` setter with `_repeat_sim`: nothing is sent (183-192). -/
def RState.assign (s : RState X M) (m : X) : RState X M := ⟨some m, s.sim⟩

/-- The loop of `fields` from mapping `i` on: set the model, compute the fields (213-216). -/
def RState.fldsLoop (c : Cfg X M F) (x : X) : List Nat → Option M → List F × Option M
  | [], s => ([], s)
  | i :: is, _ =>
    let s := c.map i x
    let r := RState.fldsLoop c x is (some s)
    (c.fields s :: r.1, r.2)

/-- The evaluation loop: set the model of mapping `i`, evaluate (225-228, 236-240, 248-254). -/
def RState.evalLoop (c : Cfg X M F) (x : X) (q : Nat → M → F → R) :
    List (Nat × F) → Option M → List R × Option M
  | [], s => ([], s)
  | p :: ps, _ =>
    let s := c.map p.1 x
    let r := RState.evalLoop c x q ps (some s)
    (q p.1 s p.2 :: r.1, r.2)

def RState.doFields (c : Cfg X M F) (s : RState X M) (m : X) : RState X M × List F :=
  let s := s.assign m
  let r := RState.fldsLoop c m (List.range c.nsim) s.sim
  (⟨s.model, r.2⟩, r.1)

def RState.doEval (c : Cfg X M F) (s : RState X M) (x : X) (f : List F) (q : Nat → M → F → R) :
    RState X M × List R :=
  let r := RState.evalLoop c x q ((List.range c.nsim).zip f) s.sim
  (⟨s.model, r.2⟩, r.1)

def RState.step (c : Cfg X M F) (s : RState X M) : Op X M F R → RState X M × Out F R
  | .setModel m => (s.assign m, .unit)
  | .fields m => let r := s.doFields c m; (r.1, .flds r.2)
  | .query m f q =>
    let s := s.assign m
    match f with
    | some f => let r := s.doEval c m f q; (r.1, .res r.2)
    | none => let a := s.doFields c m; let r := a.1.doEval c m a.2 q; (r.1, .res r.2)
  | .dpred m f q => match f with
    | some f => match s.model with
      | none => (s, .nomodel)
      | some x => let r := s.doEval c x f q; (r.1, .res r.2)
    | none => match m, s.model with
      | some m, _ => let a := s.doFields c m; let r := a.1.doEval c m a.2 q; (r.1, .res r.2)
      | none, some m => let a := s.doFields c m; let r := a.1.doEval c m a.2 q; (r.1, .res r.2)
      | none, none => (s, .nomodel)

/-- The results of a history of calls. -/
def runM (c : Cfg X M F) : MState X M → List (Op X M F R) → List (Out F R)
  | _, [] => []
  | s, o :: os => let r := s.step c o; r.2 :: runM c r.1 os

def runR (c : Cfg X M F) : RState X M → List (Op X M F R) → List (Out F R)
  | _, [] => []
  | s, o :: os => let r := s.step c o; r.2 :: runR c r.1 os

namespace Props

/-! ### Specification: what a call should return, from the last model set -/

/-- The fields of all members at their mapped models. -/
def specFlds (c : Cfg X M F) (x : X) : List F :=
  (List.range c.nsim).map fun i => c.fields (c.map i x)

/-- All members evaluated at their mapped models. -/
def specEval (c : Cfg X M F) (x : X) (f : List F) (q : Nat → M → F → R) : List R :=
  ((List.range c.nsim).zip f).map fun p => q p.1 (c.map p.1 x) p.2

/-- The calls as functions of the last model set. -/
def specStep (c : Cfg X M F) (x : Option X) : Op X M F R → Option X × Out F R
  | .setModel m => (some m, .unit)
  | .fields m => (some m, .flds (specFlds c m))
  | .query m f q => (some m, .res (specEval c m (f.getD (specFlds c m)) q))
  | .dpred m f q => match f with
    | some f => (x, match x with
        | none => .nomodel
        | some x => .res (specEval c x f q))
    | none => match m, x with
      | some m, _ => (some m, .res (specEval c m (specFlds c m) q))
      | none, some m => (some m, .res (specEval c m (specFlds c m) q))
      | none, none => (none, .nomodel)

def runSpec (c : Cfg X M F) : Option X → List (Op X M F R) → List (Out F R)
  | _, [] => []
  | x, o :: os => let r := specStep c x o; r.2 :: runSpec c r.1 os

theorem fldsLoop_eq (c : Cfg X M F) (x : X) : ∀ (is : List Nat) (s : Option M),
    (RState.fldsLoop c x is s).1 = is.map fun i => c.fields (c.map i x)
  | [], _ => rfl
  | i :: is, s => by
    simp only [RState.fldsLoop, List.map_cons]
    rw [fldsLoop_eq c x is]

theorem evalLoop_eq (c : Cfg X M F) (x : X) (q : Nat → M → F → R) :
    ∀ (ps : List (Nat × F)) (s : Option M),
    (RState.evalLoop c x q ps s).1 = ps.map fun p => q p.1 (c.map p.1 x) p.2
  | [], _ => rfl
  | p :: ps, s => by
    simp only [RState.evalLoop, List.map_cons]
    rw [evalLoop_eq c x q ps]

/-- C30. In every history of calls, a `RepeatedSimulation` evaluates mapping `i` at its own
mapped model, although all of them share one simulation: whatever model an earlier mapping or
call has left in it does not matter. -/
theorem C30_repeated_history (c : Cfg X M F) (ops : List (Op X M F R)) (sim : Option M) :
    runR c ⟨none, sim⟩ ops = runSpec c none ops := by
  have key : ∀ (ops : List (Op X M F R)) (s : RState X M), runR c s ops = runSpec c s.model ops := by
    intro ops
    induction ops with
    | nil => intro s; rfl
    | cons o os ih =>
      intro s
      simp only [runR, runSpec, ih]
      have hstep : ((s.step c o).1.model, (s.step c o).2) = specStep c s.model o := by
        cases o with
        | setModel m => rfl
        | fields m =>
          simp only [RState.step, RState.doFields, specStep, specFlds, fldsLoop_eq, RState.assign]
        | query m f q =>
          cases f with
          | none =>
            simp only [RState.step, RState.doFields, RState.doEval, specStep, specFlds, specEval,
              fldsLoop_eq, evalLoop_eq, RState.assign, Option.getD_none]
          | some f =>
            simp only [RState.step, RState.doEval, specStep, specEval,
              evalLoop_eq, RState.assign, Option.getD_some]
        | dpred m f q =>
          cases f with
          | none =>
            cases m with
            | none =>
              cases hm : s.model with
              | none => simp only [RState.step, hm, specStep]
              | some x =>
                simp only [RState.step, hm, RState.doFields, RState.doEval, specStep, specFlds,
                  specEval, fldsLoop_eq, evalLoop_eq, RState.assign]
            | some m =>
              simp only [RState.step, RState.doFields, RState.doEval, specStep, specFlds,
                specEval, fldsLoop_eq, evalLoop_eq, RState.assign]
          | some f =>
            cases hm : s.model with
            | none => simp only [RState.step, hm, specStep]
            | some x => simp only [RState.step, hm, RState.doEval, specStep, specEval, evalLoop_eq]
      rw [← hstep]
  exact key ops ⟨none, sim⟩

theorem assign_inv (c : Cfg X M F) (hc : ∀ a b, c.close a b = true → a = b) (s : MState X M)
    (hs : ∀ x, s.model = some x → s.sims = fun i => c.map i x) (m : X) :
    s.assign c m = ⟨some m, fun i => c.map i m⟩ := by
  unfold MState.assign
  cases hm : s.model with
  | none => rfl
  | some p =>
    simp only
    split
    · next h => rw [hs p hm, hc p m h]
    · rfl

/-- C29, C30. If the closeness test only identifies equal models, then in every history of
calls a `MetaSimulation` evaluates all members at their mapped models; so it gives the same
results as a `RepeatedSimulation` of the same simulation. What is missing: the test is
`np.allclose`, see `C29_small_change_not_seen`. -/
theorem C29_history_partial (c : Cfg X M F) (hc : ∀ a b, c.close a b = true → a = b)
    (ops : List (Op X M F R)) (sims : Nat → M) :
    runM c ⟨none, sims⟩ ops = runSpec c none ops := by
  have key : ∀ (ops : List (Op X M F R)) (s : MState X M),
      (∀ x, s.model = some x → s.sims = fun i => c.map i x) →
      runM c s ops = runSpec c s.model ops := by
    intro ops
    induction ops with
    | nil => intro s _; rfl
    | cons o os ih =>
      intro s hs
      have hstep : ((s.step c o).1.model, (s.step c o).2) = specStep c s.model o ∧
          ∀ x, (s.step c o).1.model = some x → (s.step c o).1.sims = fun i => c.map i x := by
        have ha := assign_inv c hc s hs
        have ha2 : ∀ m, MState.assign c ⟨some m, fun i => c.map i m⟩ m =
            (⟨some m, fun i => c.map i m⟩ : MState X M) := fun m =>
          assign_inv c hc _ (by rintro x ⟨⟩; rfl) m
        cases o with
        | setModel m => simp only [MState.step, ha, specStep]; exact ⟨trivial, by rintro x ⟨⟩; rfl⟩
        | fields m => simp only [MState.step, ha, specStep]; exact ⟨rfl, by rintro x ⟨⟩; rfl⟩
        | query m f q =>
          cases f with
          | none => simp only [MState.step, ha, ha2, specStep]; exact ⟨rfl, by rintro x ⟨⟩; rfl⟩
          | some f => simp only [MState.step, ha, specStep]; exact ⟨rfl, by rintro x ⟨⟩; rfl⟩
        | dpred m f q =>
          cases f with
          | none =>
            cases m with
            | none =>
              cases hm : s.model with
              | none => simp only [MState.step, hm, specStep]; exact ⟨trivial, by simp⟩
              | some x =>
                simp only [MState.step, hm, ha, specStep]
                exact ⟨rfl, by rintro x ⟨⟩; rfl⟩
            | some m => simp only [MState.step, ha, specStep]; exact ⟨rfl, by rintro x ⟨⟩; rfl⟩
          | some f =>
            cases hm : s.model with
            | none => simp only [MState.step, hm, specStep]; exact ⟨trivial, by simp⟩
            | some x =>
              simp only [MState.step, hm, specStep, MState.eval, specEval, hs x hm]
              exact ⟨trivial, by rintro y ⟨⟩; rfl⟩
      simp only [runM, runSpec]
      rw [ih _ hstep.2, ← hstep.1]
  exact key ops ⟨none, sims⟩ (by simp)

theorem C30_repeated_eq_meta_partial (c : Cfg X M F) (hc : ∀ a b, c.close a b = true → a = b)
    (ops : List (Op X M F R)) (sims : Nat → M) (sim : Option M) :
    runM c ⟨none, sims⟩ ops = runR c ⟨none, sim⟩ ops := by
  rw [C30_repeated_history, C29_history_partial c hc]

/-- The closeness test of the code on one-entry models. -/
def closeQ (a b : ℚ) : Bool := decide (|a - b| ≤ 1 / 100000000 + 1 / 100000 * |b|)

/-- The simulation that returns its model. -/
def idCfg : Cfg ℚ ℚ ℚ := ⟨1, closeQ, fun _ x => x, id⟩

/-- C29 fails for a small change of the model: the fields of the second model are computed at
the first one. A `RepeatedSimulation` returns those of the second. -/
theorem C29_small_change_not_seen :
    runM idCfg ⟨none, fun _ => 0⟩ [.fields 1, .fields (1000001 / 1000000)] ≠
      (runSpec idCfg none [.fields 1, .fields (1000001 / 1000000)] : List (Out ℚ ℚ)) ∧
    runM idCfg ⟨none, fun _ => 0⟩ [.fields 1, .fields (1000001 / 1000000)] ≠
      (runR idCfg ⟨none, none⟩ [.fields 1, .fields (1000001 / 1000000)] : List (Out ℚ ℚ)) := by
  have h : runM idCfg ⟨none, fun _ => 0⟩ [.fields 1, .fields (1000001 / 1000000)] ≠
      (runSpec idCfg none [.fields 1, .fields (1000001 / 1000000)] : List (Out ℚ ℚ)) := by
    have hcl : closeQ 1 (1000001 / 1000000) = true := by
      unfold closeQ
      rw [decide_eq_true_iff, abs_of_nonpos (by norm_num), abs_of_nonneg (by norm_num)]
      norm_num
    simp [runM, runSpec, MState.step, MState.assign, MState.flds, specStep, specFlds, idCfg, hcl]
    norm_num
  exact ⟨h, by rw [C30_repeated_history]; exact h⟩

/-- Non-trivial instance: two mappings, and the equality as closeness. -/
example : ∀ a b, (⟨2, fun a b => decide (a = b), fun i x => x + i, fun m => 2 * m⟩ :
    Cfg Nat Nat Nat).close a b = true → a = b := by simp

end Props
end Verif.Meta.State
