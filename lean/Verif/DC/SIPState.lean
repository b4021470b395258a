import Verif.Basic
import Mathlib.Data.List.Nodup
import Mathlib.Data.List.Basic
import Mathlib.Logic.Function.Basic
import Mathlib.Logic.Function.Iterate
import Mathlib.Data.Real.Basic
import Mathlib.Tactic.NormNum
import Mathlib.Tactic.FieldSimp

/-!
What a spectral induced polarization simulation remembers
(`simpeg/electromagnetics/static/spectral_induced_polarization/simulation.py`): properties, derivatives,
predictions and sensitivities kept between calls (C120), and the voltages by which apparent chargeability
is normalised, kept by receivers (C121).
-/

namespace Verif.DC.SIPState

/-! ### C120: stores -/

/-- What calls return: predicted data as a function of the properties of a model, and products of both
kinds as functions of the properties of one model and the derivatives of maps at another.  The
conductivity does not depend on the model, so fields and sensitivities to chargeability are fixed. -/
structure World where
  M : Type
  D : Type
  A : Type
  predict : M → D
  prod : M → M → A → D
  [dec : DecidableEq M]

attribute [instance] World.dec

variable {W : World}

/-- Attributes of the simulation: the model, the model whose properties are in `_eta_store`,
`_taui_store`, `_c_store`, the model at which derivatives are stored, `_pred`, and whether `_Jmatrix` is
computed. -/
structure St (W : World) where
  model : Option W.M := none
  store : Option W.M := none
  derivs : Option W.M := none
  pred : Option W.D := none
  jmat : Bool := false

/-- Assignment of the model (`simpeg/props.py` 456-472 with `_delete_on_model_update`, 606-614): only the
stored derivatives are deleted. -/
def St.setModel (s : St W) (m : W.M) : St W :=
  if s.model = some m then s else { s with model := some m, derivs := none }

/-- `forward` with fields given (428-477): properties of the model are stored and used. -/
def St.forward (storeJ : Bool) (s : St W) (m : W.M) : St W × W.D :=
  let s1 := s.setModel m
  ({ s1 with store := some m, jmat := s1.jmat || storeJ }, W.predict m)

/-- `fields` (329-355). -/
def St.fields (storeJ : Bool) (s : St W) (m : W.M) : St W :=
  let r := s.forward storeJ m
  { r.1 with pred := some r.2 }

/-- `dpred` (479-491). -/
def St.dpred (storeJ : Bool) (s : St W) (m : W.M) (given : Bool) : St W × Option W.D :=
  let s1 := if given then s else s.fields storeJ m
  (s1, s1.pred)

/-- Sensitivities or fields needed by a product (`getJ`, 358-372; 514-515, 561-562). -/
def St.prepare (storeJ : Bool) (s : St W) (m : W.M) (given : Bool) : St W :=
  let s1 := s.setModel m
  if storeJ then
    if s1.jmat then s1 else if given then { s1 with jmat := true } else s1.fields storeJ m
  else if given then s1 else s1.fields storeJ m

/-- `Jvec` and `Jtvec` (493-604): products use stored properties and stored derivatives; without stored
properties TypeError. -/
def St.product (storeJ : Bool) (s : St W) (m : W.M) (a : W.A) (given : Bool) : St W × Except Err W.D :=
  let s1 := s.prepare storeJ m given
  match s1.store with
  | none => (s1, .error .typeError)
  | some ms =>
    let md := s1.derivs.getD m
    ({ s1 with derivs := some md }, .ok (W.prod ms md a))

/-- Calls; `given` tells whether fields are handed over. -/
inductive Op (W : World)
  | assign (m : W.M)
  | fields (m : W.M)
  | dpred (m : W.M) (given : Bool)
  | product (m : W.M) (a : W.A) (given : Bool)

/-- What a call returns. -/
inductive Out (W : World)
  | unit
  | data (d : Option W.D)
  | prod (r : Except Err W.D)

def step (storeJ : Bool) (s : St W) : Op W → St W × Out W
  | .assign m => (s.setModel m, .unit)
  | .fields m => (s.fields storeJ m, .unit)
  | .dpred m g => ((s.dpred storeJ m g).1, .data (s.dpred storeJ m g).2)
  | .product m a g => ((s.product storeJ m a g).1, .prod (s.product storeJ m a g).2)

def run (storeJ : Bool) (s : St W) (ops : List (Op W)) : St W :=
  ops.foldl (fun s o => (step storeJ s o).1) s

/-! ### C121: voltages of receivers -/

/-- What receivers keep: the voltage of the resistivity problem and, with `storeProjections`, the factor of
the stored projection. -/
structure Volt (ρ : Type) where
  volt : ρ → Option ℝ := fun _ => none
  cache : ρ → Option ℝ := fun _ => none

variable {σ ρ : Type} [DecidableEq ρ]

/-- One receiver of `fields` (341-351) for data of type apparent chargeability; `raw s r` is the voltage of
source `s` at receiver `r`, one location each; the projection in use is stored once it is built
(`receivers.py` 359-372). -/
noncomputable def visit (storeP : Bool) (raw : σ → ρ → ℝ) (v : Volt ρ) (p : σ × ρ) : Volt ρ :=
  let k := (v.cache p.2).getD 1
  let d := k * raw p.1 p.2
  { volt := Function.update v.volt p.2 (some d)
    cache := if storeP then Function.update v.cache p.2 (some (1 / d * k)) else v.cache }

/-- All receivers of all sources: `_dc_voltage_set` is never set, every call of `fields` does this again. -/
noncomputable def voltages (storeP : Bool) (raw : σ → ρ → ℝ) (pairs : List (σ × ρ)) (v : Volt ρ) : Volt ρ :=
  pairs.foldl (visit storeP raw) v

/-- Factor of the projection used for data and products (`receivers.py` 359-372, 431-442). -/
noncomputable def factor (v : Volt ρ) (r : ρ) : Option ℝ :=
  match v.cache r with
  | some k => some k
  | none => (v.volt r).map (1 / ·)

end Verif.DC.SIPState

namespace Verif.DC.SIPState.Props
open Verif.DC.SIPState

variable {W : World}

/-- Fresh results: those of a simulation which never saw another model. -/
def fresh : Op W → Out W
  | .assign _ => .unit
  | .fields _ => .unit
  | .dpred m _ => .data (some (W.predict m))
  | .product m a _ => .prod (.ok (W.prod m m a))

/-- Model of the last evaluation of data, and whether sensitivities are stored, after a history. -/
structure Last (W : World) where
  m : Option W.M := none
  j : Bool := false

/-- A call evaluates the data of its model if no fields are handed over, unless sensitivities are stored
already. -/
def evaluates (storeJ : Bool) (l : Last W) : Op W → Option W.M
  | .assign _ => none
  | .fields m => some m
  | .dpred m g => if g then none else some m
  | .product m _ g => if g || (storeJ && l.j) then none else some m

def after (storeJ : Bool) (l : Last W) (o : Op W) : Last W :=
  match evaluates storeJ l o with
  | some m => { m := some m, j := l.j || storeJ }
  | none => match o with
    | .product _ _ _ => { l with j := l.j || storeJ }
    | _ => l

/-- A call is safe if it evaluates the data of its model, or the last evaluation was of the same model. -/
def safe (storeJ : Bool) (l : Last W) : Op W → Prop
  | .assign _ => True
  | .fields _ => True
  | .dpred m g => evaluates storeJ l (.dpred m g) = some m ∨ l.m = some m
  | .product m a g => evaluates storeJ l (.product m a g) = some m ∨ l.m = some m

/-- Invariant: stores belong to the last evaluation, derivatives to the current model. -/
structure Inv (l : Last W) (s : St W) : Prop where
  store : s.store = l.m
  jmat : s.jmat = l.j
  pred : s.pred = l.m.map W.predict
  derivs : ∀ m, s.derivs = some m → s.model = some m

theorem inv_setModel {l : Last W} {s : St W} (h : Inv l s) (m : W.M) :
    Inv l (s.setModel m) ∧ (s.setModel m).model = some m := by
  unfold St.setModel
  split
  · exact ⟨h, by assumption⟩
  · exact ⟨⟨h.store, h.jmat, h.pred, by simp⟩, rfl⟩

theorem inv_fields {l : Last W} {s : St W} (h : Inv l s) (b : Bool) (m : W.M) :
    Inv ⟨some m, l.j || b⟩ (s.fields b m) ∧ (s.fields b m).model = some m := by
  obtain ⟨h1, h2⟩ := inv_setModel h m
  refine ⟨⟨rfl, ?_, rfl, h1.derivs⟩, h2⟩
  simp only [St.fields, St.forward]
  rw [h1.jmat]

theorem setModel_fields (s : St W) (b : Bool) (m : W.M) :
    (s.setModel m).fields b m = s.fields b m := by
  have : (s.setModel m).setModel m = s.setModel m := by
    unfold St.setModel
    split <;> simp_all
  simp only [St.fields, St.forward, this]

theorem inv_prepare {l : Last W} {s : St W} (h : Inv l s) (b : Bool) (m : W.M) (a : W.A) (g : Bool) :
    Inv (after b l (.product m a g)) (s.prepare b m g) ∧ (s.prepare b m g).model = some m := by
  obtain ⟨h1, h2⟩ := inv_setModel h m
  obtain ⟨f1, f2⟩ := inv_fields h b m
  have hj := h1.jmat
  unfold St.prepare after evaluates
  simp only [setModel_fields]
  cases b <;> cases g <;> simp only [Bool.false_and, Bool.true_and, Bool.or_false, Bool.or_true,
    Bool.false_or, Bool.true_or, if_true, if_false, Bool.false_eq_true]
  · exact ⟨by simpa using f1, f2⟩
  · exact ⟨h1, h2⟩
  · cases hl : l.j <;> rw [hl] at hj <;> simp only [hj, if_true, if_false, Bool.false_eq_true]
    · exact ⟨by simpa using f1, f2⟩
    · refine ⟨⟨h1.store, by rw [hj], h1.pred, h1.derivs⟩, h2⟩
  · cases hl : l.j <;> rw [hl] at hj <;> simp only [hj, if_true, if_false, Bool.false_eq_true]
    · exact ⟨⟨h1.store, rfl, h1.pred, h1.derivs⟩, h2⟩
    · exact ⟨⟨h1.store, by rw [hj], h1.pred, h1.derivs⟩, h2⟩

theorem inv_step {l : Last W} {s : St W} (h : Inv l s) (b : Bool) (o : Op W) :
    Inv (after b l o) (step b s o).1 ∧ (safe b l o → (step b s o).2 = fresh o) := by
  cases o with
  | assign m => exact ⟨(inv_setModel h m).1, fun _ => rfl⟩
  | fields m => exact ⟨(inv_fields h b m).1, fun _ => rfl⟩
  | dpred m g =>
    cases g
    · refine ⟨(inv_fields h b m).1, fun _ => ?_⟩
      simp only [step, St.dpred, fresh, Bool.false_eq_true, if_false]
      rw [(inv_fields h b m).1.pred]; rfl
    · refine ⟨h, fun hs => ?_⟩
      simp only [safe, evaluates, if_true, reduceCtorEq, false_or] at hs
      simp only [step, St.dpred, fresh, if_true]
      rw [h.pred, hs]; rfl
  | product m a g =>
    obtain ⟨h1, h2⟩ := inv_prepare h b m a g
    have hd : (s.prepare b m g).derivs.getD m = m := by
      cases hx : (s.prepare b m g).derivs with
      | none => rfl
      | some x =>
        have := h1.derivs x hx
        rw [h2] at this
        simpa using this.symm
    constructor
    · simp only [step, St.product]
      cases hst : (s.prepare b m g).store with
      | none => exact h1
      | some ms =>
        simp only [hd]
        exact ⟨hst.symm.trans h1.store, h1.jmat, h1.pred, fun x hx => by simp at hx; rw [← hx]; exact h2⟩
    · intro hs
      have hst : (s.prepare b m g).store = some m := by
        rw [h1.store]
        simp only [safe] at hs
        unfold after
        rcases hs with hs | hs
        · rw [hs]
        · cases he : evaluates b l (.product m a g) with
          | none => exact hs
          | some m' =>
            simp only [evaluates] at he
            split at he
            · simp at he
            · simp only [Option.some.injEq] at he
              simp [he]
      simp only [step, St.product, hst, hd, fresh]

/-- All calls of a history are safe. -/
def allSafe (storeJ : Bool) : Last W → List (Op W) → Prop
  | _, [] => True
  | l, o :: os => safe storeJ l o ∧ allSafe storeJ (after storeJ l o) os

/-- Outputs of a history. -/
def outs (storeJ : Bool) : St W → List (Op W) → List (Out W)
  | _, [] => []
  | s, o :: os => (step storeJ s o).2 :: outs storeJ (step storeJ s o).1 os

theorem outs_inv (b : Bool) (ops : List (Op W)) (l : Last W) (s : St W) (h : Inv l s) (hs : allSafe b l ops) :
    outs b s ops = ops.map fresh := by
  induction ops generalizing l s with
  | nil => rfl
  | cons o os ih =>
    simp only [outs, List.map_cons]
    rw [(inv_step h b o).2 hs.1, ih _ _ (inv_step h b o).1 hs.2]

theorem inv_init : Inv (W := W) {} {} := ⟨rfl, rfl, rfl, by simp⟩

/-- **C120, part.** In a history in which every call either evaluates the data of its model or follows an
evaluation of the same model, everything returned is what a new simulation would return.
Missing: calls with another model than that of the last evaluation, with fields handed over or with
stored sensitivities. -/
theorem C120_history_partial (storeJ : Bool) (ops : List (Op W)) (hs : allSafe storeJ {} ops) :
    outs storeJ ({} : St W) ops = ops.map fresh := outs_inv storeJ ops {} {} inv_init hs

/-- Fields are handed over in no call. -/
def noFields : Op W → Prop
  | .dpred _ g => g = false
  | .product _ _ g => g = false
  | _ => True

/-- **C120 (no fields handed over).** Without stored sensitivities, and if fields are handed over in no
call, nothing depends on the history. -/
theorem C120_without_fields (ops : List (Op W)) (hn : ∀ o ∈ ops, noFields o) :
    outs false ({} : St W) ops = ops.map fresh := by
  refine C120_history_partial false ops ?_
  generalize ({} : Last W) = l
  induction ops generalizing l with
  | nil => trivial
  | cons o os ih =>
    refine ⟨?_, ih (fun x hx => hn x (List.mem_cons_of_mem _ hx)) _⟩
    have := hn o List.mem_cons_self
    cases o <;> simp_all [safe, evaluates, noFields]

/-- **C120 (after evaluation).** After the fields of a model were computed, products at this model are
fresh, whatever products and assignments with other models came between, with fields handed over. -/
theorem C120_after_fields (storeJ : Bool) (s : St W) (l : Last W) (h : Inv l s) (m : W.M)
    (between : List (Op W)) (hb : ∀ o ∈ between, (∃ x, o = .assign x) ∨ ∃ x a, o = .product x a true)
    (a : W.A) :
    ((run storeJ (s.fields storeJ m) between).product storeJ m a true).2 = .ok (W.prod m m a) ∧
    ((run storeJ (s.fields storeJ m) between).dpred storeJ m true).2 = some (W.predict m) := by
  have key : ∀ (between : List (Op W)), (∀ o ∈ between, (∃ x, o = .assign x) ∨ ∃ x a, o = .product x a true) →
      ∀ (s : St W) (l : Last W), Inv l s → l.m = some m →
        ∃ l' : Last W, Inv l' (run storeJ s between) ∧ l'.m = some m := by
    intro bs
    induction bs with
    | nil => exact fun _ s l h hm => ⟨l, h, hm⟩
    | cons o os ih =>
      intro hb s l h hm
      refine ih (fun x hx => hb x (List.mem_cons_of_mem _ hx)) _ _ (inv_step h storeJ o).1 ?_
      rcases hb o List.mem_cons_self with ⟨x, rfl⟩ | ⟨x, a, rfl⟩
      · exact hm
      · simp only [after, evaluates, Bool.true_or, if_true]
        exact hm
  obtain ⟨l', h', hm'⟩ := key between hb _ _ (inv_fields h storeJ m).1 rfl
  constructor
  · have := (inv_step h' storeJ (.product m a true)).2 (Or.inr hm')
    simpa [step, fresh] using this
  · have := (inv_step h' storeJ (.dpred m true)).2 (Or.inr hm')
    simpa [step, fresh] using this

/-- Properties and derivatives of models shown as numbers. -/
def exW : World where
  M := Nat
  D := Nat × Nat
  A := Unit
  predict := fun m => (m, m)
  prod := fun a b _ => (a, b)

/-- **C120, violated: stored sensitivities.** In 2.5 dimensions, where sensitivities are always stored,
products at another model mix the properties of the last evaluation with the derivatives of the model. -/
theorem C120_violated_stored (s : St exW) (m₁ m₂ : Nat) (h : m₁ ≠ m₂) :
    (((s.fields true m₁).product true m₂ () false).2 ≠ .ok (exW.prod m₂ m₂ ())) := by
  have e : (((s.fields true m₁).product true m₂ () false).2) =
      .ok (m₁, (((s.fields true m₁).setModel m₂).derivs.getD m₂)) := by
    have hj : ((s.fields true m₁).setModel m₂).jmat = true := by
      unfold St.setModel
      split <;> simp [St.fields, St.forward]
    have hst : ((s.fields true m₁).setModel m₂).store = some m₁ := by
      unfold St.setModel
      split <;> rfl
    simp only [St.product, St.prepare, hj, if_true, hst]
    rfl
  rw [e]
  intro he
  have := Except.ok.inj he
  exact h (Prod.mk.inj this).1

/-- **C120, violated: fields handed over.** Fields do not depend on the model, yet handing them over
returns the prediction of another model. -/
theorem C120_violated_given (s : St exW) (b : Bool) (m₁ m₂ : Nat) (h : m₁ ≠ m₂) :
    ((s.fields b m₁).dpred b m₂ true).2 ≠ some (exW.predict m₂) ∧
    ∀ a, (({} : St exW).product false m₂ a true).2 = .error .typeError := by
  constructor
  · simp only [St.dpred, if_true, St.fields, St.forward]
    intro he
    exact h (Prod.mk.inj (Option.some.inj he)).1
  · intro a; rfl

/-- The history of a Gauss-Newton step: fields, data, gradient and Hessian products with fields handed
over, fields of a trial model, and so on, is safe. -/
example (storeJ : Bool) (m₁ m₂ : W.M) (a : W.A) : allSafe storeJ {}
    [.fields m₁, .dpred m₁ true, .product m₁ a true, .product m₁ a true, .product m₁ a true, .fields m₂,
     .dpred m₂ true, .product m₂ a true] := by
  simp [allSafe, safe, after, evaluates]

/-! ### C121 -/

variable {σ ρ : Type} [DecidableEq ρ]

theorem voltages_other (b : Bool) (raw : σ → ρ → ℝ) (pairs : List (σ × ρ)) (v : Volt ρ) (r : ρ)
    (h : ∀ p ∈ pairs, p.2 ≠ r) :
    (voltages b raw pairs v).volt r = v.volt r ∧ (voltages b raw pairs v).cache r = v.cache r := by
  induction pairs generalizing v with
  | nil => exact ⟨rfl, rfl⟩
  | cons p ps ih =>
    have hp := (h p List.mem_cons_self).symm
    obtain ⟨h1, h2⟩ := ih (visit b raw v p) fun q hq => h q (List.mem_cons_of_mem _ hq)
    simp only [voltages, List.foldl_cons] at h1 h2 ⊢
    rw [h1, h2]
    constructor
    · simp [visit, Function.update_of_ne hp]
    · simp only [visit]
      split
      · rw [Function.update_of_ne hp]
      · rfl

/-- What a receiver keeps is consistent with the voltage of its source: nothing yet, or the right factor. -/
def Good (b : Bool) (raw : σ → ρ → ℝ) (v : Volt ρ) (p : σ × ρ) : Prop :=
  v.cache p.2 = none ∨ (b = true ∧ v.cache p.2 = some (1 / raw p.1 p.2))

theorem visit_good (b : Bool) (raw : σ → ρ → ℝ) (v : Volt ρ) (p : σ × ρ) (h0 : raw p.1 p.2 ≠ 0)
    (h : Good b raw v p) :
    Good b raw (visit b raw v p) p ∧ factor (visit b raw v p) p.2 = some (1 / raw p.1 p.2) := by
  rcases h with h | ⟨rfl, h⟩
  · cases b
    · refine ⟨Or.inl (by simpa [visit] using h), ?_⟩
      simp [factor, visit, h]
    · have e : (visit true raw v p).cache p.2 = some (1 / raw p.1 p.2) := by
        simp [visit, h]
      exact ⟨Or.inr ⟨rfl, e⟩, by simp only [factor, e]⟩
  · have e : (visit true raw v p).cache p.2 = some (1 / raw p.1 p.2) := by
      simp only [visit, h, if_true, Function.update_self, Option.getD_some, Option.some.injEq]
      field_simp
    exact ⟨Or.inr ⟨rfl, e⟩, by simp only [factor, e]⟩

theorem voltages_good (b : Bool) (raw : σ → ρ → ℝ) (pairs : List (σ × ρ)) (v : Volt ρ)
    (hn : (pairs.map Prod.snd).Nodup) (h0 : ∀ p ∈ pairs, raw p.1 p.2 ≠ 0)
    (h : ∀ p ∈ pairs, Good b raw v p) :
    ∀ p ∈ pairs, Good b raw (voltages b raw pairs v) p ∧
      factor (voltages b raw pairs v) p.2 = some (1 / raw p.1 p.2) := by
  induction pairs generalizing v with
  | nil => simp
  | cons q qs ih =>
    simp only [List.map_cons, List.nodup_cons] at hn
    intro p hp
    rcases List.mem_cons.1 hp with rfl | hp'
    · obtain ⟨g1, g2⟩ := visit_good b raw v p (h0 p List.mem_cons_self) (h p List.mem_cons_self)
      have hne : ∀ x ∈ qs, x.2 ≠ p.2 := fun x hx e => hn.1 (e ▸ List.mem_map_of_mem hx)
      obtain ⟨o1, o2⟩ := voltages_other b raw qs (visit b raw v p) p.2 hne
      simp only [voltages, List.foldl_cons] at o1 o2 ⊢
      constructor
      · rcases g1 with g1 | ⟨g0, g1⟩
        · exact Or.inl (by rw [o2]; exact g1)
        · exact Or.inr ⟨g0, by rw [o2]; exact g1⟩
      · rw [← g2]
        simp only [factor, o1, o2]
    · refine ih (visit b raw v q) hn.2 (fun x hx => h0 x (List.mem_cons_of_mem _ hx)) ?_ p hp'
      intro x hx
      have hne : x.2 ≠ q.2 := fun e => hn.1 (e ▸ List.mem_map_of_mem hx)
      have := h x (List.mem_cons_of_mem _ hx)
      have e : (visit b raw v q).cache x.2 = v.cache x.2 := by
        simp only [visit]
        split
        · rw [Function.update_of_ne hne]
        · rfl
      unfold Good at this ⊢
      rw [e]; exact this

/-- **C121, part.** If no receiver belongs to several sources, data and products of apparent chargeability
are divided by the voltage the receiver records for its source, however often fields are computed, with
and without stored projections.
Missing: receivers shared by sources, see `C121_violated_shared`. -/
theorem C121_voltages_partial (storeP : Bool) (raw : σ → ρ → ℝ) (pairs : List (σ × ρ))
    (hn : (pairs.map Prod.snd).Nodup) (h0 : ∀ p ∈ pairs, raw p.1 p.2 ≠ 0) (n : Nat) :
    ∀ p ∈ pairs, factor ((voltages storeP raw pairs)^[n + 1] {}) p.2 = some (1 / raw p.1 p.2) := by
  have key : ∀ n, ∀ p ∈ pairs, Good storeP raw ((voltages storeP raw pairs)^[n] {}) p := by
    intro n
    induction n with
    | zero => exact fun p _ => Or.inl rfl
    | succ n ih =>
      intro p hp
      rw [Function.iterate_succ_apply']
      exact (voltages_good storeP raw pairs _ hn h0 ih p hp).1
  intro p hp
  rw [Function.iterate_succ_apply']
  exact (voltages_good storeP raw pairs _ hn h0 (key n) p hp).2

/-- **C121, violated: shared receivers.** A receiver listed for two sources divides the data of both by
the voltage of the last one. -/
theorem C121_violated_shared (storeP : Bool) : ∃ raw : Fin 2 → Unit → ℝ, (∀ s r, raw s r ≠ 0) ∧
    factor (voltages storeP raw [(0, ()), (1, ())] {}) () = some (1 / raw 1 ()) ∧
    factor (voltages storeP raw [(0, ()), (1, ())] {}) () ≠ some (1 / raw 0 ()) := by
  refine ⟨fun s _ => if s = 0 then 1 else 2, ?_, ?_, ?_⟩
  · intro s r
    show (if s = 0 then (1 : ℝ) else 2) ≠ 0
    split <;> norm_num
  · cases storeP <;> simp [factor, voltages, visit]
  · cases storeP <;> simp [factor, voltages, visit]

/-- Two sources with a receiver each. -/
example : (([(0, 0), (1, 1)] : List (Nat × Nat)).map Prod.snd).Nodup ∧
    ∀ p ∈ ([(0, 0), (1, 1)] : List (Nat × Nat)), (fun s r : Nat => ((s + r + 1 : Nat) : ℝ)) p.1 p.2 ≠ 0 := by
  refine ⟨by decide, ?_⟩
  intro p _
  positivity

end Verif.DC.SIPState.Props
