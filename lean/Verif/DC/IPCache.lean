import Verif.Basic

/-!
What an induced polarization simulation remembers between calls
(`simpeg/electromagnetics/static/induced_polarization/simulation.py`,
`simpeg/electromagnetics/static/resistivity/simulation.py` 100-263 and 557-571,
`simpeg/base/pde_simulation.py` 243-390 and 638-643): primary fields and factors, the scale, the
derivatives of mass matrices and boundary terms, the stored sensitivities, the diagonal and the last
prediction.  `_delete_on_model_update` (136-139) is empty.

The mathematics is left open (`World`); the 3D simulations with the full survey are modelled.  The
attribute `model` is not part of the state: every function below assigns it before it is read.
-/

namespace Verif.DC.IPCache

/-- The computations, uninterpreted.  `deriv` and `bnd` are the derivatives of the mass matrix and of
the boundary term with respect to the model (`-diag(sigma) etaDeriv` for the current conductivity and
model); `sens` is the matrix applied by the products, before scaling, which also reads the mass matrix
of the current conductivity; models double as vectors. -/
structure World where
  Sig : Type
  Model : Type
  Factor : Type
  Fields : Type
  Scale : Type
  Deriv : Type
  Sens : Type
  Data : Type
  Wt : Type
  Diag : Type
  factor : Sig → Factor
  solve : Sig → Fields
  scale : Fields → Scale
  deriv : Sig → Model → Deriv
  bnd : Sig → Model → Deriv
  sens : Sig → Factor → Fields → Deriv → Deriv → Sens
  mul : Scale → Sens → Model → Data
  mulT : Scale → Sens → Data → Model
  diag : Scale → Sens → Option Wt → Diag

variable {W : World}

/-- The attributes of the simulation object. -/
structure St (W : World) where
  sigma : W.Sig
  storeJ : Bool
  f : Option W.Fields := none
  ainv : Option W.Factor := none
  scaleC : Option W.Scale := none
  derivC : Option W.Deriv := none
  bndC : Option W.Deriv := none
  jC : Option W.Sens := none
  gtg : Option W.Diag := none
  pred : Option W.Data := none

/-- `if self._f is None: self._f = super().fields(None)` (46-48, 94-96): factors and fields of the
current conductivity. -/
def St.primary (s : St W) : St W × W.Fields :=
  match s.f with
  | some f => (s, f)
  | none => ({ s with f := some (W.solve s.sigma), ainv := some (W.factor s.sigma) },
      W.solve s.sigma)

/-- `_scale`, a cached property (43-61). -/
def St.scale (s : St W) : St W × W.Scale :=
  match s.scaleC with
  | some c => (s, c)
  | none =>
    let (s, f) := s.primary
    ({ s with scaleC := some (W.scale f) }, W.scale f)

/-- The matrix of `getADeriv` and the solves (`resistivity/simulation.py` 176-187, 229-251), with the
derivatives kept from the first time they are needed (`pde_simulation.py` 243-390, `_MBC_sigma`
566-569).  Without factors `self.Ainv * ...` raises TypeError. -/
def St.sens (s : St W) (m : W.Model) (f : W.Fields) : Except Err (St W × W.Sens) :=
  let d := s.derivC.getD (W.deriv s.sigma m)
  let b := s.bndC.getD (W.bnd s.sigma m)
  match s.ainv with
  | none => .error .typeError
  | some a => .ok ({ s with derivC := some d, bndC := some b }, W.sens s.sigma a f d b)

/-- The matrix used by the inherited `Jvec(m, v, f)` and `Jtvec(m, v, f)` when fields are given
(156-203). -/
def St.useJ (s : St W) (m : W.Model) (f : W.Fields) : Except Err (St W × W.Sens) :=
  if s.storeJ then
    match s.jC with
    | some J => .ok (s, J)
    | none => match s.sens m f with
      | .error e => .error e
      | .ok (s, J) => .ok ({ s with jC := some J }, J)
  else s.sens m f

/-- `Jvec(m, v, f)` with given fields (127-128). -/
def St.JvecF (s : St W) (m v : W.Model) (f : W.Fields) : Except Err (St W × W.Data) :=
  let (s, c) := s.scale
  match s.useJ m f with
  | .error e => .error e
  | .ok (s, J) => .ok (s, W.mul c J v)

/-- `fields(m)` (91-100). -/
def St.fields (s : St W) (m : W.Model) : Except Err (St W × W.Fields) :=
  let (s, f) := s.primary
  match s.JvecF m m f with
  | .error e => .error e
  | .ok (s, d) => .ok ({ s with pred := some d }, f)

/-- Given fields, or `fields(m)`. -/
def St.given (s : St W) (m : W.Model) : Option W.Fields → Except Err (St W × W.Fields)
  | some f => .ok (s, f)
  | none => s.fields m

/-- `dpred(m, f)` (102-113): the last prediction, `None` when there is none. -/
def St.dpred (s : St W) (m : W.Model) (f : Option W.Fields) : Except Err (St W × Option W.Data) :=
  match s.given m f with
  | .error e => .error e
  | .ok (s, _) => .ok (s, s.pred)

/-- `Jvec(m, v, f)` (127-128). -/
def St.Jvec (s : St W) (m v : W.Model) (f : Option W.Fields) : Except Err (St W × W.Data) :=
  let (s, c) := s.scale
  match s.given m f with
  | .error e => .error e
  | .ok (s, f) => match s.useJ m f with
    | .error e => .error e
    | .ok (s, J) => .ok (s, W.mul c J v)

/-- `Jtvec(m, v, f)` (133-134). -/
def St.Jtvec (s : St W) (m : W.Model) (w : W.Data) (f : Option W.Fields) :
    Except Err (St W × W.Model) :=
  let (s, c) := s.scale
  match s.given m f with
  | .error e => .error e
  | .ok (s, f) => match s.useJ m f with
    | .error e => .error e
    | .ok (s, J) => .ok (s, W.mulT c J w)

/-- `getJ(m, f)` (`resistivity/simulation.py` 115-121). -/
def St.getJ (s : St W) (m : W.Model) (f : Option W.Fields) : Except Err (St W × W.Sens) :=
  match s.jC with
  | some J => .ok (s, J)
  | none => match s.given m f with
    | .error e => .error e
    | .ok (s, f) => match s.sens m f with
      | .error e => .error e
      | .ok (s, J) => .ok ({ s with jC := some J }, J)

/-- `getJtJdiag(m, W, f)` (115-125). -/
def St.jtjdiag (s : St W) (m : W.Model) (w : Option W.Wt) (f : Option W.Fields) :
    Except Err (St W × W.Diag) :=
  match s.gtg with
  | some d => .ok (s, d)
  | none => match s.getJ m f with
    | .error e => .error e
    | .ok (s, J) =>
      let (s, c) := s.scale
      .ok ({ s with gtg := some (W.diag c J w) }, W.diag c J w)

/-- Calls on the simulation object. -/
inductive Op (W : World) where
  | fields (m : W.Model)
  | dpred (m : W.Model) (f : Option W.Fields)
  | getJ (m : W.Model) (f : Option W.Fields)
  | Jvec (m v : W.Model) (f : Option W.Fields)
  | Jtvec (m : W.Model) (w : W.Data) (f : Option W.Fields)
  | jtjdiag (m : W.Model) (w : Option W.Wt) (f : Option W.Fields)
  | setStoreJ (b : Bool)
  /-- `sim.sigma = ...`: clears mass matrices, their derivatives and the boundary term
  (`pde_simulation.py` 638-643, `resistivity/simulation.py` 664-670). -/
  | setSigma (σ : W.Sig)

inductive Out (W : World) where
  | none
  | fields (f : W.Fields)
  | data (d : Option W.Data)
  | sens (J : W.Sens)
  | model (v : W.Model)
  | diag (d : W.Diag)
  | error (e : Err)

/-- One call; an exception leaves the state as it was (simplified). -/
def step (s : St W) : Op W → St W × Out W
  | .fields m => match s.fields m with
    | .ok (s, f) => (s, .fields f)
    | .error e => (s, .error e)
  | .dpred m f => match s.dpred m f with
    | .ok (s, d) => (s, .data d)
    | .error e => (s, .error e)
  | .getJ m f => match s.getJ m f with
    | .ok (s, J) => (s, .sens J)
    | .error e => (s, .error e)
  | .Jvec m v f => match s.Jvec m v f with
    | .ok (s, d) => (s, .data (some d))
    | .error e => (s, .error e)
  | .Jtvec m w f => match s.Jtvec m w f with
    | .ok (s, v) => (s, .model v)
    | .error e => (s, .error e)
  | .jtjdiag m w f => match s.jtjdiag m w f with
    | .ok (s, d) => (s, .diag d)
    | .error e => (s, .error e)
  | .setStoreJ b => ({ s with storeJ := b }, .none)
  | .setSigma σ => ({ s with sigma := σ, derivC := none, bndC := none }, .none)

/-- The outputs of a history. -/
def outs : St W → List (Op W) → List (Out W)
  | _, [] => []
  | s, o :: os => (step s o).2 :: outs (step s o).1 os

end Verif.DC.IPCache

namespace Verif.DC.IPCache.Props
open Verif.DC.IPCache

variable {W : World}

/-! ### Specification: the same quantities without any memory -/

/-- The sensitivities for a conductivity, at a chargeability model. -/
def trueSens (σ : W.Sig) (m : W.Model) : W.Sens :=
  W.sens σ (W.factor σ) (W.solve σ) (W.deriv σ m) (W.bnd σ m)

def trueScale (σ : W.Sig) : W.Scale := W.scale (W.solve σ)

/-- What a call returns when everything is computed from the conductivity and the arguments. -/
def spec (σ : W.Sig) : Op W → Out W
  | .fields _ => .fields (W.solve σ)
  | .dpred m _ => .data (some (W.mul (trueScale σ) (trueSens σ m) m))
  | .getJ m _ => .sens (trueSens σ m)
  | .Jvec m v _ => .data (some (W.mul (trueScale σ) (trueSens σ m) v))
  | .Jtvec m w _ => .model (W.mulT (trueScale σ) (trueSens σ m) w)
  | .jtjdiag m w _ => .diag (W.diag (trueScale σ) (trueSens σ m) w)
  | _ => .none

/-- The chargeability map is linear: its derivative does not depend on the model. -/
def Linear (σ : W.Sig) : Prop := ∀ m m' : W.Model, W.deriv σ m = W.deriv σ m' ∧ W.bnd σ m = W.bnd σ m'

/-- Fields which are handed over are those of the simulation; `seen` tells that `fields` has been
called before. -/
def goodF (σ : W.Sig) (seen : Bool) : Option W.Fields → Prop
  | none => True
  | some f => f = W.solve σ ∧ seen = true

/-- The calls covered, after the call `prev`: the conductivity stays, `dpred` with given fields
follows `fields` for the same model, diagonals are always asked with the weights `w0`. -/
def ok (σ : W.Sig) (w0 : Option W.Wt) (seen : Bool) (prev : Option (Op W)) : Op W → Prop
  | .fields _ => True
  | .dpred m f => f = none ∨ prev = some (.fields m)
  | .getJ _ f => goodF σ seen f
  | .Jvec _ _ f => goodF σ seen f
  | .Jtvec _ _ f => goodF σ seen f
  | .jtjdiag _ w f => goodF σ seen f ∧ w = w0
  | .setStoreJ _ => True
  | .setSigma _ => False

/-- Whether the call leaves the simulation with primary fields. -/
def seenAfter (seen : Bool) : Op W → Bool
  | .fields _ => true
  | .dpred _ none => true
  | _ => seen

/-- Every call of a history is covered. -/
def okAll (σ : W.Sig) (w0 : Option W.Wt) : Bool → Option (Op W) → List (Op W) → Prop
  | _, _, [] => True
  | seen, prev, o :: os => ok σ w0 seen prev o ∧ okAll σ w0 (seenAfter seen o) (some o) os

/-! ### The invariant -/

/-- Whatever is remembered belongs to the conductivity. -/
structure Inv (σ : W.Sig) (w0 : Option W.Wt) (s : St W) : Prop where
  sigma : s.sigma = σ
  f : s.f = none ∨ s.f = some (W.solve σ) ∧ s.ainv = some (W.factor σ)
  scaleC : s.scaleC = none ∨ s.scaleC = some (trueScale σ) ∧ s.f = some (W.solve σ)
  derivC : ∀ d, s.derivC = some d → ∀ m, d = W.deriv σ m
  bndC : ∀ d, s.bndC = some d → ∀ m, d = W.bnd σ m
  jC : ∀ J, s.jC = some J → ∀ m, J = trueSens σ m
  gtg : ∀ d, s.gtg = some d → ∀ m, d = W.diag (trueScale σ) (trueSens σ m) w0

variable {σ : W.Sig} {w0 : Option W.Wt}

/-- Primary fields are there. -/
def has (σ : W.Sig) (s : St W) : Prop := s.f = some (W.solve σ) ∧ s.ainv = some (W.factor σ)

theorem inv_primary {s : St W} (h : Inv σ w0 s) :
    ∃ s', s.primary = (s', W.solve σ) ∧ Inv σ w0 s' ∧ has σ s' := by
  unfold St.primary
  rcases h.f with hf | ⟨hf, ha⟩
  · refine ⟨{ s with f := some (W.solve s.sigma), ainv := some (W.factor s.sigma) },
      by simp only [hf, h.sigma], ⟨h.sigma, ?_, ?_, h.derivC, h.bndC, h.jC, h.gtg⟩, ?_⟩
    · right; simp [h.sigma]
    · rcases h.scaleC with hc | ⟨hc, hf'⟩
      · left; exact hc
      · rw [hf] at hf'; cases hf'
    · simp [has, h.sigma]
  · exact ⟨s, by simp only [hf], h, hf, ha⟩

theorem inv_scale {s : St W} (h : Inv σ w0 s) :
    ∃ s', s.scale = (s', trueScale σ) ∧ Inv σ w0 s' ∧ has σ s' := by
  unfold St.scale
  rcases h.scaleC with hc | ⟨hc, hf⟩
  · obtain ⟨s1, e1, h1, hs1⟩ := inv_primary h
    simp only [hc, e1]
    refine ⟨_, rfl, ⟨h1.sigma, h1.f, ?_, h1.derivC, h1.bndC, h1.jC, h1.gtg⟩, hs1⟩
    exact Or.inr ⟨rfl, hs1.1⟩
  · refine ⟨s, by simp only [hc], h, hf, ?_⟩
    rcases h.f with hf' | ⟨_, ha⟩
    · rw [hf] at hf'; cases hf'
    · exact ha

theorem inv_sens (hl : Linear (W := W) σ) {s : St W} (h : Inv σ w0 s) (hs : has σ s) (m : W.Model) :
    ∃ s', s.sens m (W.solve σ) = .ok (s', trueSens σ m) ∧ Inv σ w0 s' ∧ has σ s' ∧ s'.jC = s.jC := by
  have hd : s.derivC.getD (W.deriv s.sigma m) = W.deriv σ m := by
    cases hk : s.derivC with
    | none => simp [h.sigma]
    | some d => simpa using h.derivC d hk m
  have hb : s.bndC.getD (W.bnd s.sigma m) = W.bnd σ m := by
    cases hk : s.bndC with
    | none => simp [h.sigma]
    | some d => simpa using h.bndC d hk m
  unfold St.sens
  rw [hd, hb]
  refine ⟨{ s with derivC := some (W.deriv σ m), bndC := some (W.bnd σ m) },
    by simp only [hs.2, h.sigma]; rfl, ⟨h.sigma, h.f, h.scaleC, ?_, ?_, h.jC, h.gtg⟩, hs, rfl⟩
  · intro d hd' m'
    simp only [Option.some.injEq] at hd'
    rw [← hd']; exact (hl m m').1
  · intro d hd' m'
    simp only [Option.some.injEq] at hd'
    rw [← hd']; exact (hl m m').2

theorem inv_useJ (hl : Linear (W := W) σ) {s : St W} (h : Inv σ w0 s) (hs : has σ s) (m : W.Model) :
    ∃ s', s.useJ m (W.solve σ) = .ok (s', trueSens σ m) ∧ Inv σ w0 s' ∧ has σ s' := by
  unfold St.useJ
  obtain ⟨s1, e1, h1, hs1, -⟩ := inv_sens hl h hs m
  by_cases hb : s.storeJ = true
  · simp only [hb, if_true]
    cases hj : s.jC with
    | some J => exact ⟨s, by rw [h.jC J hj m], h, hs⟩
    | none =>
      simp only [e1]
      refine ⟨_, rfl, ⟨h1.sigma, h1.f, h1.scaleC, h1.derivC, h1.bndC, ?_, h1.gtg⟩, hs1⟩
      intro J hJ m'
      simp only [Option.some.injEq] at hJ
      rw [← hJ]
      unfold trueSens
      rw [(hl m m').1, (hl m m').2]
  · simp only [hb]
    exact ⟨s1, e1, h1, hs1⟩

theorem inv_JvecF (hl : Linear (W := W) σ) {s : St W} (h : Inv σ w0 s) (m v : W.Model) :
    ∃ s', s.JvecF m v (W.solve σ) = .ok (s', W.mul (trueScale σ) (trueSens σ m) v) ∧ Inv σ w0 s' ∧
      has σ s' := by
  obtain ⟨s1, e1, h1, hs1⟩ := inv_scale h
  obtain ⟨s2, e2, h2, hs2⟩ := inv_useJ hl h1 hs1 m
  exact ⟨s2, by simp only [St.JvecF, e1, e2], h2, hs2⟩

theorem inv_fields (hl : Linear (W := W) σ) {s : St W} (h : Inv σ w0 s) (m : W.Model) :
    ∃ s', s.fields m = .ok (s', W.solve σ) ∧ Inv σ w0 s' ∧ has σ s' ∧
      s'.pred = some (W.mul (trueScale σ) (trueSens σ m) m) := by
  obtain ⟨s1, e1, h1, -⟩ := inv_primary h
  obtain ⟨s2, e2, h2, hs2⟩ := inv_JvecF hl h1 m m
  exact ⟨{ s2 with pred := some (W.mul (trueScale σ) (trueSens σ m) m) },
    by simp only [St.fields, e1, e2], ⟨h2.sigma, h2.f, h2.scaleC, h2.derivC, h2.bndC, h2.jC,
    h2.gtg⟩, hs2, rfl⟩

theorem inv_given (hl : Linear (W := W) σ) {s : St W} (h : Inv σ w0 s) (m : W.Model)
    (f : Option W.Fields) {seen : Bool} (hg : goodF σ seen f) (hseen : seen = true → has σ s) :
    ∃ s', s.given m f = .ok (s', W.solve σ) ∧ Inv σ w0 s' ∧ has σ s' := by
  cases f with
  | none =>
    obtain ⟨s1, e1, h1, hs1, -⟩ := inv_fields hl h m
    exact ⟨s1, e1, h1, hs1⟩
  | some f =>
    obtain ⟨hf, hs⟩ := hg
    subst hf
    exact ⟨s, rfl, h, hseen hs⟩

theorem inv_getJ (hl : Linear (W := W) σ) {s : St W} (h : Inv σ w0 s) (m : W.Model)
    (f : Option W.Fields) {seen : Bool} (hg : goodF σ seen f) (hseen : seen = true → has σ s) :
    ∃ s', s.getJ m f = .ok (s', trueSens σ m) ∧ Inv σ w0 s' ∧ (has σ s → has σ s') := by
  unfold St.getJ
  cases hj : s.jC with
  | some J => exact ⟨s, by rw [h.jC J hj m], h, id⟩
  | none =>
    obtain ⟨s1, e1, h1, hs1⟩ := inv_given hl h m f hg hseen
    obtain ⟨s2, e2, h2, hs2, -⟩ := inv_sens hl h1 hs1 m
    simp only [e1, e2]
    refine ⟨_, rfl, ⟨h2.sigma, h2.f, h2.scaleC, h2.derivC, h2.bndC, ?_, h2.gtg⟩, fun _ => hs2⟩
    intro J hJ m'
    simp only [Option.some.injEq] at hJ
    rw [← hJ]
    unfold trueSens
    rw [(hl m m').1, (hl m m').2]

/-- One covered call: the output is the true one, and the invariant is kept. -/
theorem step_ok (hl : Linear (W := W) σ) {s : St W} (h : Inv σ w0 s) {seen : Bool}
    {prev : Option (Op W)} (hseen : seen = true → has σ s)
    (hprev : ∀ m, prev = some (.fields m) → s.pred = some (W.mul (trueScale σ) (trueSens σ m) m))
    (o : Op W) (ho : ok σ w0 seen prev o) :
    (step s o).2 = spec σ o ∧ Inv σ w0 (step s o).1 ∧
      (seenAfter seen o = true → has σ (step s o).1) ∧
      ∀ m, o = .fields m → (step s o).1.pred = some (W.mul (trueScale σ) (trueSens σ m) m) := by
  cases o with
  | fields m =>
    obtain ⟨s1, e1, h1, hs1, hp⟩ := inv_fields hl h m
    simp only [step, e1]
    refine ⟨rfl, h1, fun _ => hs1, fun m' hm => ?_⟩
    cases hm; exact hp
  | dpred m f =>
    cases f with
    | none =>
      obtain ⟨s1, e1, h1, hs1, hp⟩ := inv_fields hl h m
      have e : s.dpred m none = .ok (s1, s1.pred) := by simp only [St.dpred, St.given, e1]
      simp only [step, e]
      exact ⟨by simp only [hp, spec], h1, fun _ => hs1, fun m' hm => nomatch hm⟩
    | some f =>
      have hp := hprev m (by rcases ho with h0 | h0; · cases h0
                             · exact h0)
      have e : s.dpred m (some f) = .ok (s, s.pred) := rfl
      simp only [step, e]
      exact ⟨by simp only [hp, spec], h, fun hs => hseen hs, fun m' hm => nomatch hm⟩
  | getJ m f =>
    obtain ⟨s1, e1, h1, hs1⟩ := inv_getJ hl h m f ho hseen
    simp only [step, e1]
    exact ⟨rfl, h1, fun hs => hs1 (hseen hs), fun m' hm => nomatch hm⟩
  | Jvec m v f =>
    obtain ⟨s1, e1, h1, hs1⟩ := inv_scale h
    obtain ⟨s2, e2, h2, hs2⟩ := inv_given hl h1 m f ho fun _ => hs1
    obtain ⟨s3, e3, h3, hs3⟩ := inv_useJ hl h2 hs2 m
    have e : s.Jvec m v f = .ok (s3, W.mul (trueScale σ) (trueSens σ m) v) := by
      simp only [St.Jvec, e1, e2, e3]
    simp only [step, e]
    exact ⟨rfl, h3, fun _ => hs3, fun m' hm => nomatch hm⟩
  | Jtvec m w f =>
    obtain ⟨s1, e1, h1, hs1⟩ := inv_scale h
    obtain ⟨s2, e2, h2, hs2⟩ := inv_given hl h1 m f ho fun _ => hs1
    obtain ⟨s3, e3, h3, hs3⟩ := inv_useJ hl h2 hs2 m
    have e : s.Jtvec m w f = .ok (s3, W.mulT (trueScale σ) (trueSens σ m) w) := by
      simp only [St.Jtvec, e1, e2, e3]
    simp only [step, e]
    exact ⟨rfl, h3, fun _ => hs3, fun m' hm => nomatch hm⟩
  | jtjdiag m w f =>
    obtain ⟨hg, hw⟩ := ho
    subst hw
    cases hd : s.gtg with
    | some d =>
      have e : s.jtjdiag m w f = .ok (s, d) := by simp only [St.jtjdiag, hd]
      simp only [step, e]
      exact ⟨by rw [h.gtg d hd m]; rfl, h, fun hs => hseen hs, fun m' hm => nomatch hm⟩
    | none =>
      obtain ⟨s1, e1, h1, hs1⟩ := inv_getJ hl h m f hg hseen
      obtain ⟨s2, e2, h2, hs2⟩ := inv_scale h1
      have e : s.jtjdiag m w f = .ok ({ s2 with gtg := some (W.diag (trueScale σ) (trueSens σ m) w) },
          W.diag (trueScale σ) (trueSens σ m) w) := by
        simp only [St.jtjdiag, hd, e1, e2]
      simp only [step, e]
      refine ⟨rfl, ⟨h2.sigma, h2.f, h2.scaleC, h2.derivC, h2.bndC, h2.jC, ?_⟩, fun _ => hs2,
        fun m' hm => nomatch hm⟩
      intro d hd' m'
      simp only [Option.some.injEq] at hd'
      rw [← hd']
      unfold trueSens
      rw [(hl m m').1, (hl m m').2]
  | setStoreJ b =>
    exact ⟨rfl, ⟨h.sigma, h.f, h.scaleC, h.derivC, h.bndC, h.jC, h.gtg⟩, fun hs => hseen hs,
      fun m' hm => nomatch hm⟩
  | setSigma σ' => exact absurd ho (fun h => h)

/-- **C112.** With a linear chargeability map and a conductivity which is not changed, every call of
every history returns what a new simulation would return, for histories in which `dpred` is handed
fields only right after `fields` for the same model and diagonals are always asked for with the same
weights.  The other cases fail: see below. -/
theorem C112_history_partial (σ : W.Sig) (b : Bool) (w0 : Option W.Wt) (hl : Linear (W := W) σ)
    (os : List (Op W)) (hos : okAll σ w0 false none os) :
    outs { sigma := σ, storeJ := b } os = os.map (spec σ) := by
  have key : ∀ (os : List (Op W)) (s : St W) (seen : Bool) (prev : Option (Op W)), Inv σ w0 s →
      (seen = true → has σ s) →
      (∀ m, prev = some (.fields m) → s.pred = some (W.mul (trueScale σ) (trueSens σ m) m)) →
      okAll σ w0 seen prev os → outs s os = os.map (spec σ) := by
    intro os
    induction os with
    | nil => intros; rfl
    | cons o os ih =>
      intro s seen prev h hseen hprev hok
      obtain ⟨h1, h2, h3, h4⟩ := step_ok hl h hseen hprev o hok.1
      rw [outs, List.map_cons, h1]
      refine congrArg _ (ih _ _ _ h2 h3 ?_ hok.2)
      intro m hm
      exact h4 m (by simpa using hm)
  refine key os _ false none ⟨rfl, Or.inl rfl, Or.inl rfl, ?_, ?_, ?_, ?_⟩ (by simp) (by simp) hos <;>
    simp

/-! ### What fails -/

/-- Numbers for everything: data are the product of the conductivity of the mass matrix, of the
factors, of the fields, of the derivatives and of the model; `η` is the derivative of the
chargeability map. -/
def exW (η : Int → Int) : World :=
  { Sig := Int, Model := Int, Factor := Int, Fields := Int, Scale := Int, Deriv := Int, Sens := Int,
    Data := Int, Wt := Int, Diag := Int
    factor := id, solve := id, scale := id
    deriv := fun σ m => σ * η m, bnd := fun _ m => η m
    sens := fun σ a f d _ => σ * a * f * d
    mul := fun c J v => c * J * v, mulT := fun c J w => c * J * w
    diag := fun c J w => (c * J * w.getD 1) ^ 2 }

/-- Non-vacuity of `C112_history_partial`: a history of all calls with a linear map. -/
example : okAll (W := exW fun _ => 1) (2 : Int) (some (3 : Int)) false none
    [.dpred (1 : Int) none, .fields (2 : Int), .dpred (2 : Int) (some (2 : Int)),
      .Jvec (1 : Int) (5 : Int) (some (2 : Int)), .setStoreJ true, .getJ (4 : Int) none,
      .Jtvec (1 : Int) (7 : Int) none, .jtjdiag (1 : Int) (some (3 : Int)) none] ∧
    Linear (W := exW fun _ => 1) (2 : Int) := by
  refine ⟨?_, fun _ _ => ⟨rfl, rfl⟩⟩
  simp [okAll, ok, goodF, seenAfter, exW]

/-- **C112, violated for given fields.** After `fields` for two models, `dpred` for the first model and
its fields returns the data of the second. -/
theorem C112_violated_prediction : ∃ (W : World) (σ : W.Sig) (m₁ m₂ : W.Model), Linear (W := W) σ ∧
    (∃ d, (outs { sigma := σ, storeJ := false } [.fields m₁, .fields m₂, .dpred m₁ (some (W.solve σ))])[2]?
      = some (.data (some d)) ∧ spec σ (.dpred m₂ none) = .data (some d) ∧
      spec σ (.dpred m₁ none) ≠ .data (some d)) := by
  refine ⟨exW fun _ => 1, (1 : Int), (1 : Int), (2 : Int), fun _ _ => ⟨rfl, rfl⟩, (2 : Int), rfl, rfl, ?_⟩
  intro h
  injection h with h
  injection h with h
  have h' : (1 : Int) = 2 := h
  exact absurd h' (by decide)

/-- **C112, violated when the conductivity is replaced.** The next data mix fields of the old
conductivity with derivatives of the new one. -/
theorem C112_violated_sigma : ∃ (W : World) (σ σ' : W.Sig) (m : W.Model), (∀ σ, Linear (W := W) σ) ∧
    (∃ d d', (outs { sigma := σ, storeJ := false } [.dpred m none, .setSigma σ', .dpred m none])[2]?
      = some (.data (some d)) ∧ spec σ' (.dpred m none) = .data (some d') ∧
      spec σ (.dpred m none) ≠ .data (some d) ∧ d ≠ d') := by
  refine ⟨exW fun _ => 1, (1 : Int), (2 : Int), (1 : Int), fun _ _ _ => ⟨rfl, rfl⟩, (4 : Int), (32 : Int),
    rfl, rfl, ?_, (by decide : (4 : Int) ≠ 32)⟩
  intro h
  injection h with h
  injection h with h
  have h' : (1 : Int) = 4 := h
  exact absurd h' (by decide)

/-- **C112, violated for maps which are not linear.** The derivative of the map at the first model is
used for all later models, with and without stored sensitivities. -/
theorem C112_violated_map (b : Bool) : ∃ (W : World) (σ : W.Sig) (m₁ m₂ : W.Model),
    ∃ d d', (outs { sigma := σ, storeJ := b } [.dpred m₁ none, .dpred m₂ none])[1]?
      = some (.data (some d)) ∧ spec σ (.dpred m₂ none) = .data (some d') ∧ d ≠ d' := by
  refine ⟨exW fun m => 2 * m, (1 : Int), (1 : Int), (3 : Int), (6 : Int), (18 : Int), ?_, rfl,
    (by decide : (6 : Int) ≠ 18)⟩
  cases b <;> rfl

/-- **C112, violated for the diagonal.** The weights of the first call are used for all later
calls. -/
theorem C112_violated_diagonal : ∃ (W : World) (σ : W.Sig) (m : W.Model) (w w' : Option W.Wt),
    Linear (W := W) σ ∧ ∃ d d',
    (outs { sigma := σ, storeJ := false } [.jtjdiag m w none, .jtjdiag m w' none])[1]? = some (.diag d) ∧
    spec σ (.jtjdiag m w' none) = .diag d' ∧ d ≠ d' := by
  refine ⟨exW fun _ => 1, (1 : Int), (1 : Int), none, some (2 : Int), fun _ _ => ⟨rfl, rfl⟩, (1 : Int),
    (4 : Int), rfl, rfl, (by decide : (1 : Int) ≠ 4)⟩

end Verif.DC.IPCache.Props
