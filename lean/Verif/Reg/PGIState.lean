import Verif.Reg.PGI

/-!
C132: the state of `PGIsmallness` (`simpeg/regularization/pgi.py`) over a history of calls: the
reference model that the first evaluation sets, the block `_r_second_deriv` kept for the Hessian, and
the update made by `PGI_UpdateParameters` (`simpeg/directives/_pgi_directives.py`). Least-squares form,
conventions of `Verif.Reg.PGI`.
-/

noncomputable section
namespace Verif.Reg.PGI
open Matrix

variable {n : ℕ} {π κ : Type} [Fintype π] [Fintype κ] [DecidableEq π] [DecidableEq κ]

set_option linter.unusedSectionVars false

/-- The object: `base` has the mixture, maps and weights (its reference model is not used), `ref` is
`_reference_model`, `cache` is `_r_second_deriv`. `predict` is `gmm.predict` for the means and
precisions of a mixture and the properties of a cell. -/
structure St (n : ℕ) (π κ : Type) where
  base : Small n π κ
  predict : (Fin (n + 1) → π → ℝ) → Prec n π → (π → ℝ) → Fin (n + 1)
  ref : Option (π × κ → ℝ)
  cache : Option (κ → Matrix π π ℝ)

/-- `membership(m)` (`simpeg/regularization/pgi.py` 290-311). -/
def St.membership (s : St n π κ) (m : π × κ → ℝ) : κ → Fin (n + 1) :=
  fun c => s.predict s.base.means s.base.prec fun i => s.base.mapped m (i, c)

/-- `mkvc(gmm.means_[membership])`. -/
def meansOf (means : Fin (n + 1) → π → ℝ) (z : κ → Fin (n + 1)) : π × κ → ℝ := fun p => means (z p.2) p.1

/-- Every evaluation begins so: a missing reference model is made from the model
(`simpeg/regularization/pgi.py` 450-451, 533-534, 738-739). -/
def St.setRef (s : St n π κ) (m : π × κ → ℝ) : St n π κ :=
  match s.ref with
  | some _ => s
  | none => { s with ref := some (meansOf s.base.means (s.membership m)) }

/-- The object as the formulas see it. -/
def St.obj (s : St n π κ) : Small n π κ := { s.base with mref := s.ref.getD 0 }

/-- `__call__(m)` (`simpeg/regularization/pgi.py` 431-492). -/
def St.value (s : St n π κ) (m : π × κ → ℝ) : ℝ × St n π κ :=
  let s := s.setRef m
  (s.obj.value m, s)

/-- `deriv(m)` (`simpeg/regularization/pgi.py` 514-598). -/
def St.deriv (s : St n π κ) (m : π × κ → ℝ) : (π × κ → ℝ) × St n π κ :=
  let s := s.setRef m
  (s.obj.deriv m, s)

/-- `deriv2(m, v)`: the block is computed only if there is none
(`simpeg/regularization/pgi.py` 738-825). -/
def St.deriv2v (s : St n π κ) (m v : π × κ → ℝ) : (π × κ → ℝ) × St n π κ :=
  let s := s.setRef m
  let r := s.cache.getD (s.obj.prec.second s.obj.geology)
  let r0 := s.obj.W *ᵥ (s.obj.mD m *ᵥ v)
  ((2 : ℝ) • ((s.obj.mD m)ᵀ *ᵥ (s.obj.W *ᵥ fun p => ∑ k, r p.2 p.1 k * r0 (k, p.2))),
    { s with cache := some r })

/-- Setting `gmm` (`simpeg/regularization/pgi.py` 274-277). -/
def St.setGmm (s : St n π κ) (means : Fin (n + 1) → π → ℝ) (prec : Prec n π) : St n π κ :=
  { s with base := { s.base with means := means, prec := prec } }

/-- Setting `reference_model` (`simpeg/regularization/base.py` 330-352). -/
def St.setReference (s : St n π κ) (r : π × κ → ℝ) : St n π κ := { s with ref := some r }

/-- `membership[fixed[:, 0]] = fixed[:, 1]`: later rows overwrite earlier ones. -/
def override (z : κ → Fin (n + 1)) : List (κ × Fin (n + 1)) → κ → Fin (n + 1)
  | [] => z
  | (c, k) :: rest => override (Function.update z c k) rest

/-- `PGI_UpdateParameters.endIter` in an iteration where it acts: the new mixture (fitted, or a copy of
the reference mixture) is stored, the reference model is made from the predicted and the fixed
memberships, and the block of the Hessian is dropped unless there are at least as many fixed rows as
cells (`simpeg/directives/_pgi_directives.py` 64-139). -/
def St.update (s : St n π κ) (means : Fin (n + 1) → π → ℝ) (prec : Prec n π)
    (fixed : List (κ × Fin (n + 1))) (m : π × κ → ℝ) : St n π κ :=
  let s := s.setGmm means prec
  let z := override (s.membership m) fixed
  let s := s.setReference (meansOf means z)
  if fixed.length < Fintype.card κ then { s with cache := none } else s

/-- What a user or an inversion does with the object. -/
inductive Op (n : ℕ) (π κ : Type) where
  | value (m : π × κ → ℝ)
  | deriv (m : π × κ → ℝ)
  | hess (m v : π × κ → ℝ)
  | update (means : Fin (n + 1) → π → ℝ) (prec : Prec n π) (fixed : List (κ × Fin (n + 1)))
      (m : π × κ → ℝ)

/-- One operation. -/
def step (s : St n π κ) : Op n π κ → St n π κ
  | .value m => (s.value m).2
  | .deriv m => (s.deriv m).2
  | .hess m v => (s.deriv2v m v).2
  | .update means prec fixed m => s.update means prec fixed m

/-- A history of operations. -/
def run (s : St n π κ) (ops : List (Op n π κ)) : St n π κ := ops.foldl step s

/-- The updates of a history leave at least one cell free. -/
def Op.Free : Op n π κ → Prop
  | .update _ _ fixed _ => fixed.length < Fintype.card κ
  | _ => True

/-! ### C132 -/

/-- The block that is kept is the one of the current object. -/
def St.Fresh (s : St n π κ) : Prop :=
  ∀ r, s.cache = some r → s.ref.isSome ∧ r = s.obj.prec.second s.obj.geology

theorem setRef_isSome (s : St n π κ) (m : π × κ → ℝ) : (s.setRef m).ref.isSome := by
  unfold St.setRef
  cases h : s.ref <;> simp [h]

theorem setRef_fresh (s : St n π κ) (m : π × κ → ℝ) (h : s.Fresh) : (s.setRef m).Fresh := by
  unfold St.setRef
  cases hr : s.ref with
  | some r => exact h
  | none =>
    intro r hc
    have := (h r hc).1
    rw [hr] at this
    simp at this

theorem step_fresh (s : St n π κ) (op : Op n π κ) (hf : op.Free) (h : s.Fresh) : (step s op).Fresh := by
  cases op with
  | value m => exact setRef_fresh s m h
  | deriv m => exact setRef_fresh s m h
  | hess m v =>
    intro r hr
    refine ⟨setRef_isSome s m, ?_⟩
    have h1 := setRef_fresh s m h
    simp only [step, St.deriv2v, Option.some.injEq] at hr
    rw [← hr]
    cases hc : (s.setRef m).cache with
    | none => rfl
    | some r' => exact (h1 r' hc).2
  | update means prec fixed m =>
    intro r hr
    simp only [step, St.update] at hr
    have hf' : fixed.length < Fintype.card κ := hf
    rw [if_pos hf'] at hr
    simp at hr

theorem run_fresh (s : St n π κ) (ops : List (Op n π κ)) (hf : ∀ op ∈ ops, op.Free) (h : s.Fresh) :
    (run s ops).Fresh := by
  induction ops generalizing s with
  | nil => exact h
  | cons op ops ih =>
    exact ih (step s op) (fun o ho => hf o (List.mem_cons_of_mem _ ho))
      (step_fresh s op (hf op List.mem_cons_self) h)

/-- Over any history of evaluations and updates by the directive that leave a cell free, the product
with the Hessian is the one of the current mixture, reference model and model. What is missing: mixture
or reference model set by the user, see `C132_violated_gmm`; updates with all cells fixed, see
`C132_violated_fixed`; the reference model itself, see `C132_violated_first_model`. -/
theorem C132_hessian_partial (s : St n π κ) (hc : s.cache = none) (ops : List (Op n π κ))
    (hf : ∀ op ∈ ops, op.Free) (m v : π × κ → ℝ) :
    ((run s ops).deriv2v m v).1 = ((run s ops).setRef m).obj.deriv2v m v := by
  have h0 : s.Fresh := by intro r hr; rw [hc] at hr; exact absurd hr (by simp)
  have h1 := setRef_fresh _ m (run_fresh s ops hf h0)
  unfold St.deriv2v Small.deriv2v
  dsimp only
  cases hcache : ((run s ops).setRef m).cache with
  | none => rfl
  | some r => simp only [Option.getD_some, (h1 r hcache).2]

/-- With a reference model, evaluations do not change the object: value and gradient are those of the
mixture, the reference model and the model. -/
theorem C132_value (s : St n π κ) (r : π × κ → ℝ) (hr : s.ref = some r) (m : π × κ → ℝ) :
    (s.value m).1 = ({ s.base with mref := r } : Small n π κ).value m ∧
    (s.deriv m).1 = ({ s.base with mref := r } : Small n π κ).deriv m ∧
    (s.value m).2 = s ∧ (s.deriv m).2 = s := by
  have h : s.setRef m = s := by simp [St.setRef, hr]
  simp [St.value, St.deriv, h, St.obj, hr]

theorem override_of_not_mem (z : κ → Fin (n + 1)) (fixed : List (κ × Fin (n + 1))) (c : κ)
    (h : c ∉ fixed.map Prod.fst) : override z fixed c = z c := by
  induction fixed generalizing z with
  | nil => rfl
  | cons a rest ih =>
    rcases a with ⟨d, k⟩
    simp only [List.map_cons, List.mem_cons, not_or] at h
    rw [override, ih _ h.2, Function.update_of_ne h.1]

theorem override_of_mem (z : κ → Fin (n + 1)) (fixed : List (κ × Fin (n + 1))) (c : κ) (k : Fin (n + 1))
    (hn : (fixed.map Prod.fst).Nodup) (h : (c, k) ∈ fixed) : override z fixed c = k := by
  induction fixed generalizing z with
  | nil => exact absurd h (List.not_mem_nil)
  | cons a rest ih =>
    rcases a with ⟨d, l⟩
    rw [List.map_cons, List.nodup_cons] at hn
    rcases List.mem_cons.1 h with h | h
    · obtain ⟨rfl, rfl⟩ := Prod.mk.inj h
      rw [override, override_of_not_mem _ _ _ hn.1, Function.update_self]
    · rw [override]
      exact ih _ hn.2 h

/-- After an update the reference model of a cell with a fixed membership is the mean of that unit, and
that of any other cell the mean of the unit predicted with the new mixture; the mixture is the new
one. -/
theorem C132_update (s : St n π κ) (means : Fin (n + 1) → π → ℝ) (prec : Prec n π)
    (fixed : List (κ × Fin (n + 1))) (m : π × κ → ℝ) (hn : (fixed.map Prod.fst).Nodup) :
    (s.update means prec fixed m).base.means = means ∧ (s.update means prec fixed m).base.prec = prec ∧
    ∃ r, (s.update means prec fixed m).ref = some r ∧
      (∀ c k i, (c, k) ∈ fixed → r (i, c) = means k i) ∧
      (∀ c i, c ∉ fixed.map Prod.fst →
        r (i, c) = means (s.predict means prec fun j => s.base.map j (fun d => m (j, d)) c) i) := by
  have e : ∀ t : St n π κ, (if fixed.length < Fintype.card κ then { t with cache := none } else t).base = t.base ∧
      (if fixed.length < Fintype.card κ then { t with cache := none } else t).ref = t.ref := by
    intro t; split_ifs <;> exact ⟨rfl, rfl⟩
  refine ⟨?_, ?_, meansOf means (override ((s.setGmm means prec).membership m) fixed), ?_, ?_, ?_⟩
  · unfold St.update; dsimp only; rw [(e _).1]; rfl
  · unfold St.update; dsimp only; rw [(e _).1]; rfl
  · unfold St.update; dsimp only; rw [(e _).2]; rfl
  · intro c k i h
    simp only [meansOf, override_of_mem _ _ _ _ hn h]
  · intro c i h
    simp only [meansOf, override_of_not_mem _ _ _ h]
    rfl

/-- The units used by the smallness after an update are the fixed and predicted ones, if no two units
have the same mean. -/
theorem C132_update_geology (s : St n π κ) (means : Fin (n + 1) → π → ℝ) (prec : Prec n π)
    (fixed : List (κ × Fin (n + 1))) (m : π × κ → ℝ) (hinj : Function.Injective means) :
    (s.update means prec fixed m).obj.geology = override (fun c =>
      s.predict means prec fun j => s.base.map j (fun d => m (j, d)) c) fixed := by
  apply C130_membership
  · unfold St.update; dsimp only; split_ifs <;> exact hinj
  · intro i c
    unfold St.update
    dsimp only
    split_ifs <;> rfl

/-! ### Reference model and block that depend on the history -/

/-- An evaluation at `m` (not an update). -/
def Op.IsEval : Op n π κ → Prop
  | .update .. => False
  | _ => True

theorem step_ref (s : St n π κ) (op : Op n π κ) (h : op.IsEval) (r : π × κ → ℝ) (hr : s.ref = some r) :
    (step s op).ref = some r ∧ (step s op).base = s.base := by
  have e : ∀ m, s.setRef m = s := fun m => by simp [St.setRef, hr]
  cases op with
  | value m => simp [step, St.value, e, hr]
  | deriv m => simp [step, St.deriv, e, hr]
  | hess m v => simp [step, St.deriv2v, e, hr]
  | update => exact h.elim

theorem run_ref (s : St n π κ) (ops : List (Op n π κ)) (h : ∀ op ∈ ops, op.IsEval) (r : π × κ → ℝ)
    (hr : s.ref = some r) : (run s ops).ref = some r ∧ (run s ops).base = s.base := by
  induction ops generalizing s with
  | nil => exact ⟨hr, rfl⟩
  | cons op ops ih =>
    obtain ⟨h1, h2⟩ := step_ref s op (h op List.mem_cons_self) r hr
    obtain ⟨h3, h4⟩ := ih (step s op) (fun o ho => h o (List.mem_cons_of_mem _ ho)) h1
    exact ⟨h3, h4.trans h2⟩

/-- Without a reference model given by the user, the first model ever evaluated decides it for all later
evaluations: the value at `m` compares `m` with the units of that first model, whatever the history
in between. -/
theorem C132_first_model (s : St n π κ) (hr : s.ref = none) (m₀ m : π × κ → ℝ) (ops : List (Op n π κ))
    (h : ∀ op ∈ ops, op.IsEval) (r : π × κ → ℝ) (hm : ∀ i c, r (i, c) = s.base.means
      (s.predict s.base.means s.base.prec fun j => s.base.map j (fun d => m₀ (j, d)) c) i) :
    ((run s (.value m₀ :: ops)).value m).1 = ({ s.base with mref := r } : Small n π κ).value m := by
  have hm' : r = meansOf s.base.means (s.membership m₀) := by funext p; exact hm p.1 p.2
  have h0 : (s.value m₀).2.ref = some (meansOf s.base.means (s.membership m₀)) ∧
      (s.value m₀).2.base = s.base := by
    simp [St.value, St.setRef, hr]
  obtain ⟨h1, h2⟩ := run_ref (s.value m₀).2 ops h _ h0.1
  have e : run s (.value m₀ :: ops) = run (s.value m₀).2 ops := rfl
  rw [e, (C132_value _ _ h1 m).1, h2, h0.2, hm']

/-- One property, one cell, two units with means 0 and 2. -/
def demoSt : St 1 (Fin 1) (Fin 1) where
  base := { means := ![fun _ => 0, fun _ => 2], prec := .spherical ![1, 3], map := fun _ x => x,
            mapD := fun _ _ => 1, weights := 1, mref := 0 }
  predict := fun _ _ x => if x 0 ≤ 1 then 0 else 1
  ref := none
  cache := none

theorem demoSt_value (r : ℝ) (m : Fin 1 × Fin 1 → ℝ) (h : r = 0 ∨ r = 2) :
    ({ demoSt.base with mref := fun _ => r } : Small 1 (Fin 1) (Fin 1)).value m =
      if r = 0 then (m (0, 0)) ^ 2 else 3 * (m (0, 0) - 2) ^ 2 := by
  rcases h with rfl | rfl <;>
    simp [demoSt, Small.value, Small.r0, Small.W, Small.mapped, wire, Prec.apply, Small.geology, argmin,
      dotProduct, Fintype.sum_prod_type, Matrix.mulVec, diagonal_apply] <;> ring

/-- The value at a model is not a function of the object's parameters and the model: it changes when
another model is evaluated first. -/
theorem C132_violated_first_model : ∃ m m' : Fin 1 × Fin 1 → ℝ,
    ((run demoSt [.value m]).value m).1 ≠ ((run demoSt [.value m']).value m).1 := by
  refine ⟨0, fun _ => 2, ?_⟩
  rw [C132_first_model demoSt rfl 0 0 [] (by simp) (fun _ => 0) (by intro i c; simp [demoSt]),
    C132_first_model demoSt rfl (fun _ => 2) 0 [] (by simp) (fun _ => 2) (by intro i c; simp [demoSt]),
    demoSt_value 0 0 (Or.inl rfl), demoSt_value 2 0 (Or.inr rfl)]
  simp

/-- Once a product with the Hessian was computed, a new mixture or reference model set by the user does
not reach the block: the product is the same for every mixture and every reference model. -/
theorem C132_violated_gmm (s : St n π κ) (m v m' v' : π × κ → ℝ) (means means' : Fin (n + 1) → π → ℝ)
    (prec prec' : Prec n π) (r r' : π × κ → ℝ) :
    ((((s.deriv2v m v).2.setGmm means prec).setReference r).deriv2v m' v').1 =
      ((((s.deriv2v m v).2.setGmm means' prec').setReference r').deriv2v m' v').1 := rfl

/-- The same for an update by the directive in which every cell has a fixed membership: neither the new
precisions nor the new memberships reach the block. -/
theorem C132_violated_fixed (s : St n π κ) (m v m' v' m₁ : π × κ → ℝ) (means means' : Fin (n + 1) → π → ℝ)
    (prec prec' : Prec n π) (fixed fixed' : List (κ × Fin (n + 1)))
    (hf : ¬ fixed.length < Fintype.card κ) (hf' : ¬ fixed'.length < Fintype.card κ) :
    (((s.deriv2v m v).2.update means prec fixed m₁).deriv2v m' v').1 =
      (((s.deriv2v m v).2.update means' prec' fixed' m₁).deriv2v m' v').1 := by
  unfold St.update
  dsimp only
  rw [if_neg hf, if_neg hf']
  rfl

/-- The products of the current objects are different, as the two units have different precisions. -/
theorem demo_differs :
    ((demoSt.setReference fun _ => 0).obj.deriv2v 0 1 (0, 0) = 2) ∧
    ((demoSt.setReference fun _ => 2).obj.deriv2v 0 1 (0, 0) = 6) := by
  constructor <;>
    simp [demoSt, St.setReference, St.obj, Small.deriv2v, Small.W, Small.mD, Prec.second, Small.geology, argmin,
      Fintype.sum_prod_type, Matrix.mulVec, dotProduct, diagonal_apply, Matrix.one_apply] <;> norm_num

/-- So the product after setting another reference model is not the one of the current object. -/
theorem C132_violated_reference :
    (((demoSt.setReference fun _ => 0).deriv2v 0 1).2.setReference fun _ => 2).obj =
      (demoSt.setReference fun _ => 2).obj ∧
    ((((demoSt.setReference fun _ => 0).deriv2v 0 1).2.setReference fun _ => 2).deriv2v 0 1).1 ≠
      (demoSt.setReference fun _ => 2).obj.deriv2v 0 1 := by
  refine ⟨rfl, fun h => ?_⟩
  have e : ((((demoSt.setReference fun _ => 0).deriv2v 0 1).2.setReference fun _ => 2).deriv2v 0 1).1 =
      (demoSt.setReference fun _ => 0).obj.deriv2v 0 1 := rfl
  have := congrFun (e.symm.trans h) (0, 0)
  rw [demo_differs.1, demo_differs.2] at this
  norm_num at this

example : [((0 : Fin 1), (1 : Fin 2))].length = Fintype.card (Fin 1) := rfl

example : ((run demoSt [.value 0, .hess 0 1, .update ![fun _ => 0, fun _ => 2] (.spherical ![1, 3]) [] fun _ => 2]).deriv2v 0 1).1 =
    ((run demoSt [.value 0, .hess 0 1, .update ![fun _ => 0, fun _ => 2] (.spherical ![1, 3]) [] fun _ => 2]).setRef 0).obj.deriv2v 0 1 := by
  apply C132_hessian_partial _ rfl
  intro op hop
  simp only [List.mem_cons, List.not_mem_nil, or_false] at hop
  rcases hop with rfl | rfl | rfl <;> simp [Op.Free]

end Verif.Reg.PGI
