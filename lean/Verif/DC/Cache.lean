import Verif.Basic

/-!
What a static resistivity simulation remembers between calls
(`simpeg/electromagnetics/static/resistivity/simulation.py` 100-203 and 265-294,
`simpeg/base/pde_simulation.py` 627-643, `simpeg/props.py` 408-472): the mass matrices, the factors
`Ainv`, the source terms `_q`, the stored sensitivities `_Jmatrix` and the diagonal `_gtgdiag`.

The mathematics is left open (`World`): only which quantity is computed from which other ones, and
what is kept, is modelled.  The simulation is not miniaturised.
-/

namespace Verif.DC.Cache

/-- The computations of a simulation, uninterpreted.  `factor` is the solver object for the system
matrix of a mass matrix, `sens` the matrix that `Jvec`, `Jtvec` and `getJ` apply or return, computed
from the map, the model, the mass matrix (`getADeriv`), the survey, the solver object and the
fields. -/
structure World where
  Model : Type
  Map : Type
  Survey : Type
  Mass : Type
  Rhs : Type
  Factor : Type
  Fields : Type
  Data : Type
  Sens : Type
  Wt : Type
  Diag : Type
  Vec : Type
  /-- `previous is value or np.allclose(previous, value)` -/
  close : Model → Model → Bool
  mass : Map → Model → Mass
  rhs : Survey → Rhs
  factor : Mass → Factor
  solve : Factor → Rhs → Fields
  project : Survey → Fields → Data
  sens : Map → Model → Mass → Survey → Factor → Fields → Sens
  mul : Sens → Vec → Vec
  mulT : Sens → Vec → Vec
  diag : Sens → Option Wt → Diag

variable {W : World}

/-- The attributes of the simulation object. -/
structure St (W : World) where
  map : W.Map
  survey : W.Survey
  storeJ : Bool
  model : Option W.Model := none
  massC : Option W.Mass := none
  ainv : Option W.Factor := none
  q : Option W.Rhs := none
  jC : Option W.Sens := none
  gtg : Option W.Diag := none

/-- `self.model = m` (`props.py` 456-472 with `_delete_on_model_update`: `pde_simulation.py` 627-636
and `simulation.py` 291-294). -/
def St.setModel (s : St W) (m : W.Model) : St W :=
  match s.model with
  | some p => if W.close p m then { s with model := some m }
      else { s with model := some m, massC := none, jC := none, gtg := none }
  | none => { s with model := some m, massC := none, jC := none, gtg := none }

/-- The mass matrix property (`pde_simulation.py`): computed from the current model when missing;
without a model the physical property raises AttributeError. -/
def St.mass (s : St W) : Except Err (St W × W.Mass) :=
  match s.massC with
  | some k => .ok (s, k)
  | none => match s.model with
    | none => .error .attributeError
    | some m => .ok ({ s with massC := some (W.mass s.map m) }, W.mass s.map m)

/-- `getSourceTerm` (265-289). -/
def St.rhs (s : St W) : St W × W.Rhs :=
  match s.q with
  | some q => (s, q)
  | none => ({ s with q := some (W.rhs s.survey) }, W.rhs s.survey)

/-- `fields(m)` (100-113). -/
def St.fields (s : St W) (m : Option W.Model) : Except Err (St W × W.Fields) :=
  let s := match m with
    | some m => s.setModel m
    | none => s
  match s.mass with
  | .error e => .error e
  | .ok (s, k) =>
    let s := { s with ainv := some (W.factor k) }
    let (s, q) := s.rhs
    .ok (s, W.solve (W.factor k) q)

/-- `dpred(m, f)` (123-135 and `simulation.py` of the base class). -/
def St.dpred (s : St W) (m : Option W.Model) (f : Option W.Fields) : Except Err (St W × W.Data) :=
  match f with
  | some f => .ok (s, W.project s.survey f)
  | none =>
    -- `m = self.model` when `m` is None
    match s.fields (match m with | some m => some m | none => s.model) with
    | .error e => .error e
    | .ok (s, f) => .ok (s, W.project s.survey f)

/-- The matrix assembled by `_Jtvec` and applied by `Jvec` (171-187, 205-263): `getADeriv` reads the
mass matrix derivatives of the current model, `self.Ainv` is the last one computed (TypeError when
there is none). -/
def St.sens (s : St W) (f : W.Fields) : Except Err (St W × W.Sens) :=
  match s.mass with
  | .error e => .error e
  | .ok (s, k) => match s.ainv, s.model with
    | some a, some m => .ok (s, W.sens s.map m k s.survey a f)
    | _, _ => .error .typeError

/-- `getJ(m, f)` (115-121). -/
def St.getJ (s : St W) (m : W.Model) (f : Option W.Fields) : Except Err (St W × W.Sens) :=
  let s := s.setModel m
  match s.jC with
  | some J => .ok (s, J)
  | none =>
    let r := match f with
      | some f => Except.ok (s, f)
      | none => s.fields (some m)
    match r with
    | .error e => .error e
    | .ok (s, f) => match s.sens f with
      | .error e => .error e
      | .ok (s, J) => .ok ({ s with jC := some J }, J)

/-- The matrix used by `Jvec(m, v, f)` (156-187) and `Jtvec(m, v, f)` (189-203). -/
def St.useJ (s : St W) (m : W.Model) (f : Option W.Fields) : Except Err (St W × W.Sens) :=
  let r := match f with
    | some f => Except.ok (s, f)
    | none => s.fields (some m)
  match r with
  | .error e => .error e
  | .ok (s, f) =>
    let s := s.setModel m
    if s.storeJ then s.getJ m (some f) else s.sens f

/-- `getJtJdiag(m, W, f)` (137-154). -/
def St.jtjdiag (s : St W) (m : W.Model) (w : Option W.Wt) (f : Option W.Fields) :
    Except Err (St W × W.Diag) :=
  match s.gtg with
  | some d => .ok (s, d)
  | none => match s.getJ m f with
    | .error e => .error e
    | .ok (s, J) => .ok ({ s with gtg := some (W.diag J w) }, W.diag J w)

/-- Calls on the simulation object. -/
inductive Op (W : World) where
  | setModel (m : W.Model)
  | fields (m : W.Model)
  | dpred (m : W.Model) (f : Option W.Fields)
  | getJ (m : W.Model) (f : Option W.Fields)
  | Jvec (m : W.Model) (v : W.Vec) (f : Option W.Fields)
  | Jtvec (m : W.Model) (v : W.Vec) (f : Option W.Fields)
  | jtjdiag (m : W.Model) (w : Option W.Wt) (f : Option W.Fields)
  | setStoreJ (b : Bool)
  | setSurvey (y : W.Survey)
  /-- `sim.sigmaMap = map`: only `sigma` and `rho` clear mass matrices (`__setattr__` 638-643). -/
  | setMap (u : W.Map)

inductive Out (W : World) where
  | none
  | fields (f : W.Fields)
  | data (d : W.Data)
  | sens (J : W.Sens)
  | vec (v : W.Vec)
  | diag (d : W.Diag)
  | error (e : Err)

/-- One call; an exception leaves the state as it was (the partial updates before an exception are not
modelled). -/
def step (s : St W) : Op W → St W × Out W
  | .setModel m => (s.setModel m, .none)
  | .fields m => match s.fields (some m) with
    | .ok (s, f) => (s, .fields f)
    | .error e => (s, .error e)
  | .dpred m f => match s.dpred (some m) f with
    | .ok (s, d) => (s, .data d)
    | .error e => (s, .error e)
  | .getJ m f => match s.getJ m f with
    | .ok (s, J) => (s, .sens J)
    | .error e => (s, .error e)
  | .Jvec m v f => match s.useJ m f with
    | .ok (s, J) => (s, .vec (W.mul J v))
    | .error e => (s, .error e)
  | .Jtvec m v f => match s.useJ m f with
    | .ok (s, J) => (s, .vec (W.mulT J v))
    | .error e => (s, .error e)
  | .jtjdiag m w f => match s.jtjdiag m w f with
    | .ok (s, d) => (s, .diag d)
    | .error e => (s, .error e)
  | .setStoreJ b => ({ s with storeJ := b }, .none)
  | .setSurvey y => ({ s with survey := y }, .none)
  | .setMap u => ({ s with map := u }, .none)

end Verif.DC.Cache

namespace Verif.DC.Cache.Props
open Verif.DC.Cache

variable {W : World}

/-! ### Specification: the same quantities without any memory -/

def trueFields (u : W.Map) (y : W.Survey) (m : W.Model) : W.Fields :=
  W.solve (W.factor (W.mass u m)) (W.rhs y)

def trueSens (u : W.Map) (y : W.Survey) (m : W.Model) : W.Sens :=
  W.sens u m (W.mass u m) y (W.factor (W.mass u m)) (trueFields u y m)

/-- What a call returns when everything is computed from the arguments. -/
def spec (u : W.Map) (y : W.Survey) : Op W → Out W
  | .fields m => .fields (trueFields u y m)
  | .dpred m f => .data (W.project y (f.getD (trueFields u y m)))
  | .getJ m _ => .sens (trueSens u y m)
  | .Jvec m v _ => .vec (W.mul (trueSens u y m) v)
  | .Jtvec m v _ => .vec (W.mulT (trueSens u y m) v)
  | .jtjdiag m w _ => .diag (W.diag (trueSens u y m) w)
  | _ => .none

/-- The model of the last call that computed fields, and whether it is still the one factored. -/
def factored (s : St W) (m : W.Model) : Prop := s.ainv = some (W.factor (W.mass s.map m))

/-- Fields passed to a sensitivity call are those of the model passed, and the last fields the
simulation computed. -/
def goodF (s : St W) (m : W.Model) : Option W.Fields → Prop
  | none => True
  | some f => f = trueFields s.map s.survey m ∧ factored s m

/-- The calls covered: survey and map stay, supplied fields are current, and the diagonal is asked for
the current model with always the same weights `w0`. -/
def ok (w0 : Option W.Wt) (s : St W) : Op W → Prop
  | .setSurvey _ => False
  | .setMap _ => False
  | .getJ m f => goodF s m f
  | .Jvec m _ f => goodF s m f
  | .Jtvec m _ f => goodF s m f
  | .jtjdiag m w f => goodF s m f ∧ w = w0 ∧ (s.model = some m ∨ s.gtg = none)
  | _ => True

/-- Every call of a history is covered. -/
def okAll (w0 : Option W.Wt) : St W → List (Op W) → Prop
  | _, [] => True
  | s, o :: os => ok w0 s o ∧ okAll w0 (step s o).1 os

/-- The outputs of a history. -/
def outs : St W → List (Op W) → List (Out W)
  | _, [] => []
  | s, o :: os => (step s o).2 :: outs (step s o).1 os

/-! ### The invariant -/

/-- Whatever is remembered belongs to the current model, map and survey. -/
structure Inv (w0 : Option W.Wt) (u : W.Map) (y : W.Survey) (s : St W) : Prop where
  map : s.map = u
  survey : s.survey = y
  mass : ∀ k, s.massC = some k → ∃ m, s.model = some m ∧ k = W.mass u m
  q : ∀ q, s.q = some q → q = W.rhs y
  jC : ∀ J, s.jC = some J → ∃ m, s.model = some m ∧ J = trueSens u y m
  gtg : ∀ d, s.gtg = some d → ∃ m, s.model = some m ∧ d = W.diag (trueSens u y m) w0

variable {w0 : Option W.Wt} {u : W.Map} {y : W.Survey}

theorem inv_setModel (hc : ∀ a b, W.close a b = true → a = b) {s : St W} (h : Inv w0 u y s)
    (m : W.Model) : Inv w0 u y (s.setModel m) ∧ (s.setModel m).model = some m ∧
      (s.setModel m).ainv = s.ainv ∧ (s.setModel m).storeJ = s.storeJ := by
  unfold St.setModel
  cases hm : s.model with
  | none =>
    refine ⟨⟨h.map, h.survey, ?_, h.q, ?_, ?_⟩, rfl, rfl, rfl⟩ <;> simp
  | some p =>
    by_cases hcl : W.close p m = true
    · have := hc p m hcl
      subst this
      simp only [hcl, if_true]
      have e : ({ s with model := some p } : St W) = s := by rw [← hm]
      rw [e]
      refine ⟨h, ?_⟩
      simp
    · simp only [hcl]
      refine ⟨⟨h.map, h.survey, ?_, h.q, ?_, ?_⟩, rfl, rfl, rfl⟩ <;> simp

theorem inv_mass {s : St W} (h : Inv w0 u y s) {m : W.Model} (hm : s.model = some m) :
    ∃ s', s.mass = .ok (s', W.mass u m) ∧ Inv w0 u y s' ∧ s'.model = some m ∧ s'.ainv = s.ainv ∧
      s'.storeJ = s.storeJ ∧ s'.jC = s.jC := by
  unfold St.mass
  cases hk : s.massC with
  | some k =>
    obtain ⟨m', hm', hk'⟩ := h.mass k hk
    rw [hm] at hm'
    cases hm'
    exact ⟨s, by rw [hk'], h, hm, rfl, rfl, rfl⟩
  | none =>
    refine ⟨{ s with massC := some (W.mass s.map m) }, by simp only [hm, h.map],
      ⟨h.map, h.survey, ?_, h.q, h.jC, h.gtg⟩, hm, rfl, rfl, rfl⟩
    intro k hk
    simp only [Option.some.injEq] at hk
    exact ⟨m, hm, by rw [← hk, h.map]⟩

theorem inv_rhs {s : St W} (h : Inv w0 u y s) : ∃ s', s.rhs = (s', W.rhs y) ∧ Inv w0 u y s' ∧
    s'.model = s.model ∧ s'.ainv = s.ainv ∧ s'.storeJ = s.storeJ := by
  unfold St.rhs
  cases hq : s.q with
  | some q =>
    have := h.q q hq
    subst this
    exact ⟨s, rfl, h, rfl, rfl, rfl⟩
  | none =>
    refine ⟨{ s with q := some (W.rhs s.survey) }, by simp only [h.survey],
      ⟨h.map, h.survey, h.mass, ?_, h.jC, h.gtg⟩, rfl, rfl, rfl⟩
    intro q hq
    simp only [Option.some.injEq] at hq
    rw [← hq, h.survey]

theorem inv_fields (hc : ∀ a b, W.close a b = true → a = b) {s : St W} (h : Inv w0 u y s)
    (m : W.Model) : ∃ s', s.fields (some m) = .ok (s', trueFields u y m) ∧ Inv w0 u y s' ∧
      s'.model = some m ∧ factored s' m ∧ s'.storeJ = s.storeJ := by
  obtain ⟨h1, hm1, -, hs1⟩ := inv_setModel hc h m
  obtain ⟨s2, e2, h2, hm2, -, hs2, -⟩ := inv_mass h1 hm1
  unfold St.fields
  simp only [e2]
  have h2' : Inv w0 u y ({ s2 with ainv := some (W.factor (W.mass u m)) } : St W) :=
    ⟨h2.map, h2.survey, h2.mass, h2.q, h2.jC, h2.gtg⟩
  obtain ⟨s3, e3, h3, hm3, ha3, hs3⟩ := inv_rhs h2'
  simp only [e3]
  refine ⟨s3, rfl, h3, by rw [hm3]; exact hm2, ?_, by rw [hs3, ← hs1, ← hs2]⟩
  unfold factored
  rw [ha3, h3.map]

theorem inv_sens {s : St W} (h : Inv w0 u y s) {m : W.Model} (hm : s.model = some m)
    (hf : factored s m) : ∃ s', s.sens (trueFields u y m) = .ok (s', trueSens u y m) ∧
      Inv w0 u y s' ∧ s'.model = some m := by
  obtain ⟨s2, e2, h2, hm2, ha2, -, -⟩ := inv_mass h hm
  unfold St.sens
  simp only [e2]
  rw [ha2, hf, hm2]
  exact ⟨s2, by simp only [h2.map, h2.survey, h.map]; rfl, h2, hm2⟩

theorem inv_getJ (hc : ∀ a b, W.close a b = true → a = b) {s : St W} (h : Inv w0 u y s)
    (m : W.Model) (f : Option W.Fields) (hf : goodF s m f) :
    ∃ s', s.getJ m f = .ok (s', trueSens u y m) ∧ Inv w0 u y s' ∧ s'.model = some m := by
  obtain ⟨h1, hm1, ha1, -⟩ := inv_setModel hc h m
  unfold St.getJ
  cases hj : (s.setModel m).jC with
  | some J =>
    obtain ⟨m', hm', hJ⟩ := h1.jC J hj
    rw [hm1] at hm'
    cases hm'
    exact ⟨_, by simp only [hj, hJ], h1, hm1⟩
  | none =>
    simp only [hj]
    have key : ∀ s2 : St W, Inv w0 u y s2 → s2.model = some m → factored s2 m →
        ∃ s', (match s2.sens (trueFields u y m) with
          | .error e => Except.error e
          | .ok (s, J) => .ok ({ s with jC := some J }, J)) = .ok (s', trueSens u y m) ∧
          Inv w0 u y s' ∧ s'.model = some m := by
      intro s2 h2 hm2 hf2
      obtain ⟨s3, e3, h3, hm3⟩ := inv_sens h2 hm2 hf2
      rw [e3]
      refine ⟨_, rfl, ⟨h3.map, h3.survey, h3.mass, h3.q, ?_, h3.gtg⟩, hm3⟩
      intro J hJ
      simp only [Option.some.injEq] at hJ
      exact ⟨m, hm3, hJ.symm⟩
    cases f with
    | some f =>
      obtain ⟨rfl, hfac⟩ := hf
      rw [h.map, h.survey]
      exact key _ h1 hm1 (by unfold factored; rw [ha1, h1.map, ← h.map]; exact hfac)
    | none =>
      obtain ⟨s2, e2, h2, hm2, hf2, -⟩ := inv_fields hc h1 m
      simp only [e2]
      exact key _ h2 hm2 hf2

theorem inv_useJ (hc : ∀ a b, W.close a b = true → a = b) {s : St W} (h : Inv w0 u y s)
    (m : W.Model) (f : Option W.Fields) (hf : goodF s m f) :
    ∃ s', s.useJ m f = .ok (s', trueSens u y m) ∧ Inv w0 u y s' ∧ s'.model = some m := by
  have key : ∀ s2 : St W, Inv w0 u y s2 → factored s2 m →
      ∃ s', (let s := s2.setModel m
        if s.storeJ then s.getJ m (some (trueFields u y m)) else s.sens (trueFields u y m)) =
          .ok (s', trueSens u y m) ∧ Inv w0 u y s' ∧ s'.model = some m := by
    intro s2 h2 hf2
    obtain ⟨h3, hm3, ha3, -⟩ := inv_setModel hc h2 m
    have hf3 : factored (s2.setModel m) m := by
      unfold factored; rw [ha3, h3.map, ← h2.map]; exact hf2
    simp only
    split
    · exact inv_getJ hc h3 m _ ⟨by rw [h3.map, h3.survey], hf3⟩
    · exact inv_sens h3 hm3 hf3
  unfold St.useJ
  cases f with
  | some f =>
    obtain ⟨rfl, hfac⟩ := hf
    rw [h.map, h.survey]
    exact key s h hfac
  | none =>
    obtain ⟨s2, e2, h2, -, hf2, -⟩ := inv_fields hc h m
    simp only [e2]
    exact key s2 h2 hf2

theorem inv_jtj (hc : ∀ a b, W.close a b = true → a = b) {s : St W} (h : Inv w0 u y s)
    (m : W.Model) (f : Option W.Fields) (hf : goodF s m f)
    (hg : s.model = some m ∨ s.gtg = none) :
    ∃ s', s.jtjdiag m w0 f = .ok (s', W.diag (trueSens u y m) w0) ∧ Inv w0 u y s' := by
  unfold St.jtjdiag
  cases hd : s.gtg with
  | some d =>
    obtain ⟨m', hm', hd'⟩ := h.gtg d hd
    rcases hg with hg | hg
    · rw [hg] at hm'
      cases hm'
      exact ⟨s, by rw [hd'], h⟩
    · rw [hd] at hg; simp at hg
  | none =>
    obtain ⟨s2, e2, h2, hm2⟩ := inv_getJ hc h m f hf
    simp only [e2]
    refine ⟨_, rfl, ⟨h2.map, h2.survey, h2.mass, h2.q, h2.jC, ?_⟩⟩
    intro d hd
    simp only [Option.some.injEq] at hd
    exact ⟨m, hm2, hd.symm⟩

theorem inv_step (hc : ∀ a b, W.close a b = true → a = b) {s : St W} (h : Inv w0 u y s)
    (o : Op W) (ho : ok w0 s o) : Inv w0 u y (step s o).1 ∧ (step s o).2 = spec u y o := by
  cases o with
  | setModel m => exact ⟨(inv_setModel hc h m).1, rfl⟩
  | fields m =>
    obtain ⟨s2, e2, h2, -⟩ := inv_fields hc h m
    simp only [step, e2]
    exact ⟨h2, rfl⟩
  | dpred m f =>
    cases f with
    | some f =>
      simp only [step, St.dpred]
      exact ⟨h, by simp [spec, h.survey]⟩
    | none =>
      obtain ⟨s2, e2, h2, -⟩ := inv_fields hc h m
      simp only [step, St.dpred, e2]
      exact ⟨h2, by simp [spec, h2.survey]⟩
  | getJ m f =>
    obtain ⟨s2, e2, h2, -⟩ := inv_getJ hc h m f ho
    simp only [step, e2]
    exact ⟨h2, rfl⟩
  | Jvec m v f =>
    obtain ⟨s2, e2, h2, -⟩ := inv_useJ hc h m f ho
    simp only [step, e2]
    exact ⟨h2, rfl⟩
  | Jtvec m v f =>
    obtain ⟨s2, e2, h2, -⟩ := inv_useJ hc h m f ho
    simp only [step, e2]
    exact ⟨h2, rfl⟩
  | jtjdiag m w f =>
    obtain ⟨hf, rfl, hg⟩ := ho
    obtain ⟨s2, e2, h2⟩ := inv_jtj hc h m f hf hg
    simp only [step, e2]
    exact ⟨h2, rfl⟩
  | setStoreJ b => exact ⟨⟨h.map, h.survey, h.mass, h.q, h.jC, h.gtg⟩, rfl⟩
  | setSurvey y => exact absurd ho id
  | setMap u => exact absurd ho id

/-! ### Property theorems -/

/-- **C66 (partial).** Every call of every history returns what it would return on a fresh simulation,
as long as the survey and the map are not replaced, supplied fields are the current ones, the diagonal
of `JᵀWJ` is asked for the current model with one choice of weights, and different models are not
`allclose`.  Missing: each of these conditions is needed, see the theorems below. -/
theorem C66_history_partial (hc : ∀ a b, W.close a b = true → a = b) (w0 : Option W.Wt) (u : W.Map)
    (y : W.Survey) (b : Bool) (os : List (Op W))
    (h : okAll w0 { map := u, survey := y, storeJ := b } os) :
    outs { map := u, survey := y, storeJ := b } os = os.map (spec u y) := by
  have h0 : Inv w0 u y ({ map := u, survey := y, storeJ := b } : St W) := by
    refine ⟨rfl, rfl, ?_, ?_, ?_, ?_⟩ <;> simp
  generalize ({ map := u, survey := y, storeJ := b } : St W) = s at h h0
  induction os generalizing s with
  | nil => rfl
  | cons o os ih =>
    obtain ⟨h1, h2⟩ := h
    obtain ⟨i1, i2⟩ := inv_step hc h0 o h1
    simp only [outs, List.map_cons, i2]
    rw [ih _ h2 i1]

/-- A world where everything is a number, in which nothing is lost: `solve` keeps mass and sources,
the sensitivities add up what they are computed from. -/
def exW : World :=
  { Model := Nat, Map := Nat, Survey := Nat, Mass := Nat, Rhs := Nat, Factor := Nat, Fields := Nat,
    Data := Nat, Sens := Nat, Wt := Nat, Diag := Nat, Vec := Nat, close := fun a b => decide (a = b),
    mass := fun u m => 10 * u + m, rhs := fun y => y, factor := fun k => k,
    solve := fun a q => 100 * q + a, project := fun y f => 1000 * y + f,
    sens := fun _ _ k y a f => k + 7 * y + 50 * a + f, mul := fun J v => J * v,
    mulT := fun J v => J * v, diag := fun J w => J * w.getD 1 }

def ex0 (b : Bool) : St exW := { map := (1 : Nat), survey := (3 : Nat), storeJ := b }

/-- An inversion like history: fields, data, products with the fields, another model, the diagonal. -/
example : okAll (W := exW) none (ex0 true)
    [.fields (2 : Nat), .Jvec (2 : Nat) (5 : Nat) (some (312 : Nat)), .dpred (4 : Nat) none,
     .Jtvec (4 : Nat) (5 : Nat) none, .jtjdiag (4 : Nat) none none, .fields (2 : Nat)] := by
  refine ⟨trivial, ⟨rfl, ?_⟩, trivial, trivial, ⟨trivial, rfl, Or.inl rfl⟩, trivial, trivial⟩
  rfl

/-- **C66 (violation).** Replacing the survey keeps the source terms of the old one: the data returned
are those of neither survey. -/
theorem C66_survey_stale :
    (outs (ex0 false) [.dpred (2 : Nat) none, .setSurvey (5 : Nat), .dpred (2 : Nat) none]).getLast? ≠
      some (spec (W := exW) (1 : Nat) (5 : Nat) (.dpred (2 : Nat) none)) := by
  have e : (outs (ex0 false) [.dpred (2 : Nat) none, .setSurvey (5 : Nat),
      .dpred (2 : Nat) none]).getLast? = some (.data ((5312 : Nat) : exW.Data)) := rfl
  have e2 : spec (W := exW) (1 : Nat) (5 : Nat) (.dpred (2 : Nat) none) =
      .data ((5512 : Nat) : exW.Data) := rfl
  rw [e, e2]
  intro h
  injection h with h
  injection h with h
  exact absurd h (by decide)

/-- **C66 (violation).** Replacing the map keeps the mass matrix of the old one while the model does
not change. -/
theorem C66_map_stale :
    (outs (ex0 false) [.dpred (2 : Nat) none, .setMap (4 : Nat), .dpred (2 : Nat) none]).getLast? ≠
      some (spec (W := exW) (4 : Nat) (3 : Nat) (.dpred (2 : Nat) none)) := by
  have e : (outs (ex0 false) [.dpred (2 : Nat) none, .setMap (4 : Nat),
      .dpred (2 : Nat) none]).getLast? = some (.data ((3312 : Nat) : exW.Data)) := rfl
  have e2 : spec (W := exW) (4 : Nat) (3 : Nat) (.dpred (2 : Nat) none) =
      .data ((3342 : Nat) : exW.Data) := rfl
  rw [e, e2]
  intro h
  injection h with h
  injection h with h
  exact absurd h (by decide)

/-- **C66 (violation).** Fields of one model are not enough for its sensitivities once fields of
another model have been computed: the solver object is that of the other model. -/
theorem C66_fields_not_enough : trueFields (W := exW) (1 : Nat) (3 : Nat) (2 : Nat) = (312 : Nat) ∧
    (outs (ex0 false) [.fields (2 : Nat), .fields (6 : Nat),
      .Jvec (2 : Nat) (1 : Nat) (some (312 : Nat))]).getLast? ≠
      some (spec (W := exW) (1 : Nat) (3 : Nat) (.Jvec (2 : Nat) (1 : Nat) none)) := by
  refine ⟨rfl, ?_⟩
  have e : (outs (ex0 false) [.fields (2 : Nat), .fields (6 : Nat),
      .Jvec (2 : Nat) (1 : Nat) (some (312 : Nat))]).getLast? =
      some (.vec ((1145 : Nat) : exW.Vec)) := rfl
  have e2 : spec (W := exW) (1 : Nat) (3 : Nat) (.Jvec (2 : Nat) (1 : Nat) none) =
      .vec ((945 : Nat) : exW.Vec) := rfl
  rw [e, e2]
  intro h
  injection h with h
  injection h with h
  exact absurd h (by decide)

/-- **C66 (violation).** `getJtJdiag` returns the remembered diagonal whatever model and weights it is
called with. -/
theorem C66_diagonal_stale (s : St W) (d : W.Diag) (hd : s.gtg = some d) (m : W.Model)
    (w : Option W.Wt) (f : Option W.Fields) : step s (.jtjdiag m w f) = (s, .diag d) := by
  simp [step, St.jtjdiag, hd]

/-- The witness: the diagonal of model 2, then of model 6. -/
theorem C66_diagonal_wrong :
    (outs (ex0 false) [.jtjdiag (2 : Nat) none none, .jtjdiag (6 : Nat) none none]).getLast? ≠
      some (spec (W := exW) (1 : Nat) (3 : Nat) (.jtjdiag (6 : Nat) none none)) := by
  have e : (outs (ex0 false) [.jtjdiag (2 : Nat) none none,
      .jtjdiag (6 : Nat) none none]).getLast? = some (.diag ((945 : Nat) : exW.Diag)) := rfl
  have e2 : spec (W := exW) (1 : Nat) (3 : Nat) (.jtjdiag (6 : Nat) none none) =
      .diag ((1153 : Nat) : exW.Diag) := rfl
  rw [e, e2]
  intro h
  injection h with h
  injection h with h
  exact absurd h (by decide)

/-! ### The survey of a miniaturised simulation -/

/-- `dpred` of a miniaturised simulation (123-135): the survey is replaced during the call.  `run` is
the call of the base class, given the survey it sees; the result is the survey afterwards and the
outcome. -/
def dpredMini {Y D : Type} (survey mini : Y) (run : Y → Except Err D) : Y × Except Err D :=
  match run mini with
  | .ok d => (survey, .ok d)
  | .error e => (mini, .error e)

/-- **C66.** After a successful call the survey is the user's. -/
theorem C66_mini_restores {Y D : Type} (y mini : Y) (run : Y → Except Err D) (d : D)
    (h : run mini = .ok d) : dpredMini y mini run = (y, .ok d) := by
  simp [dpredMini, h]

/-- **C66 (violation).** When the forward problem raises, the simulation is left with the pole-pole
survey instead of the user's. -/
theorem C66_mini_not_restored {Y D : Type} (y mini : Y) (run : Y → Except Err D) (e : Err)
    (h : run mini = .error e) (hne : mini ≠ y) : (dpredMini y mini run).1 ≠ y := by
  simp [dpredMini, h, hne]

example : ∃ run : Nat → Except Err Nat, run 1 = .error .attributeError := ⟨fun _ => .error .attributeError, rfl⟩

end Verif.DC.Cache.Props
