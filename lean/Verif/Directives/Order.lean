import Verif.Directives.Beta
import Mathlib.Data.List.GetD
import Mathlib.Tactic.Tauto

/-! Model of the validation of directive lists: `DirectiveList.validate`
(`simpeg/directives/_directives.py` 336-338), the `validate` methods of the directives, and the
setter of `BaseInversion.directiveList` (`simpeg/inversion.py` 92-99). -/

namespace Verif.Directives
open Verif

/-- The directives the validation distinguishes, and some it does not:
`betaEst`: subclasses of `BaseBetaEstimator`; `pairedBeta`: `PairedBetaEstimate_ByEig`, which is
not one; `weights`: `UpdateSensitivityWeights`; `precond`: `UpdatePreconditioner`; `irls`:
`UpdateIRLS`; `schedule`: `BetaSchedule`; `spherical`: `SphericalUnitsWeights`; `alphas`:
`AlphasSmoothEstimate_ByEig`; `similarity`: `SimilarityMeasureInversionDirective`. -/
inductive DKind
  | betaEst | pairedBeta | weights | precond | irls | schedule | spherical | alphas | similarity
  | other
  deriving DecidableEq, Repr

/-- `directive.validate(self)` for the directive at position `i` of the list `ds`. The objects of
a list are taken to be distinct, so that `dList.index(self)` is its position. Warnings are not
modelled. -/
def validateAt (ds : List DKind) (i : Nat) : DKind → Except Err Unit
  -- `BaseBetaEstimator.validate` (416-423)
  | .betaEst => if ds.count .betaEst = 1 then .ok () else .error .assertionError
  -- `UpdateSensitivityWeights.validate` (2620-2639)
  | .weights =>
    if .betaEst ∈ ds ∧ ¬ i < ds.idxOf .betaEst then .error .assertionError
    else if .precond ∈ ds ∧ ¬ i < ds.idxOf .precond then .error .assertionError
    else .ok ()
  -- `UpdateIRLS.validate` (`_regularization.py` 350-386)
  | .irls =>
    if .precond ∈ ds ∧ ds.idxOf .precond < i then .error .assertionError
    else if .schedule ∈ ds then .error .assertionError
    else if .spherical ∈ ds ∧ ¬ ds.idxOf .spherical < i then .error .assertionError
    else .ok ()
  -- `SimilarityMeasureInversionDirective.validate` (`_sim_directives.py` 97-105)
  | .similarity => if i ≠ 0 then .error .indexError else .ok ()
  -- `InversionDirective.validate` (232-249)
  | _ => .ok ()

/-- The loop of `DirectiveList.validate` from position `i` on. -/
def validateFrom (ds : List DKind) : Nat → List DKind → Except Err Unit
  | _, [] => .ok ()
  | i, k :: ks => match validateAt ds i k with
    | .error e => .error e
    | .ok () => validateFrom ds (i + 1) ks

/-- `DirectiveList.validate` (336-338). -/
def validate (ds : List DKind) : Except Err Unit := validateFrom ds 0 ds

/-- `inversion.directiveList = ds` (`inversion.py` 92-99): the list held afterwards, and the
exception if one was raised. -/
def setDirectives (held ds : List DKind) : List DKind × Option Err :=
  match validate ds with
  | .error e => (held, some e)
  | .ok () => (ds, none)

/-- Whether a rule of a directive changes the weights or multipliers of the regularisation:
sensitivity weights (2528-2543), angle scales (`_regularization.py` 473-495), the multipliers of
the smoothness terms (770-824, `initialize` only), the IRLS weights (299-303, `endIter` only). -/
def DKind.writesReg : Rule → DKind → Bool
  | .initialize, .weights | .initialize, .spherical | .initialize, .alphas => true
  | .endIter, .weights | .endIter, .spherical | .endIter, .irls => true
  | _, _ => false

/-- Whether a rule of a directive changes the trade-off parameter: the estimators in `initialize`
(481-501, 573-602, `_sim_directives.py` 236-277), the schedule (664-671) and `UpdateIRLS` (307-309)
in `endIter`. -/
def DKind.writesBeta : Rule → DKind → Bool
  | .initialize, .betaEst | .initialize, .pairedBeta => true
  | .endIter, .schedule | .endIter, .irls => true
  | _, _ => false

namespace Props

/-! ### C97 -/

/-- What an accepted list looks like. -/
structure Accepted (ds : List DKind) : Prop where
  one : ∀ i j : Nat, ds[i]? = some .betaEst → ds[j]? = some .betaEst → i = j
  weights_beta : ∀ i j : Nat, ds[i]? = some .weights → ds[j]? = some .betaEst → i < j
  weights_precond : ∀ i j : Nat, ds[i]? = some .weights → ds[j]? = some .precond → i < j
  irls_precond : ∀ i j : Nat, ds[i]? = some .irls → ds[j]? = some .precond → i < j
  irls_schedule : DKind.irls ∈ ds → DKind.schedule ∉ ds
  irls_spherical : DKind.spherical ∈ ds → ∀ i : Nat, ds[i]? = some .irls →
    ∃ j : Nat, j < i ∧ ds[j]? = some .spherical
  similarity : ∀ i : Nat, ds[i]? = some .similarity → i = 0

theorem validateFrom_iff (ds : List DKind) : ∀ (ks : List DKind) (i : Nat),
    validateFrom ds i ks = .ok () ↔ ∀ j k, ks[j]? = some k → validateAt ds (i + j) k = .ok ()
  | [], i => by simp [validateFrom]
  | k :: ks, i => by
    rw [validateFrom]
    cases h : validateAt ds i k with
    | error e =>
      simp only [reduceCtorEq, false_iff]
      intro hh
      have := hh 0 k (by simp)
      rw [Nat.add_zero, h] at this
      cases this
    | ok u =>
      rw [validateFrom_iff ds ks (i + 1)]
      constructor
      · intro hh j k' hj
        cases j with
        | zero =>
          simp only [List.getElem?_cons_zero, Option.some.injEq] at hj
          subst hj
          exact h
        | succ j =>
          have := hh j k' (by simpa using hj)
          rwa [show i + 1 + j = i + (j + 1) by omega] at this
      · intro hh j k' hj
        have := hh (j + 1) k' (by simpa using hj)
        rwa [show i + (j + 1) = i + 1 + j by omega] at this

theorem idxOf_le {ds : List DKind} {k : DKind} {j : Nat} (h : ds[j]? = some k) : ds.idxOf k ≤ j := by
  induction ds generalizing j with
  | nil => simp at h
  | cons a ds ih =>
    cases j with
    | zero =>
      simp only [List.getElem?_cons_zero, Option.some.injEq] at h
      simp [h]
    | succ j =>
      simp only [List.getElem?_cons_succ] at h
      by_cases ha : a = k
      · simp [ha]
      · rw [List.idxOf_cons_ne _ ha]
        have := ih h
        omega

theorem getElem?_idxOf_mem {ds : List DKind} {k : DKind} (h : k ∈ ds) :
    ds[ds.idxOf k]? = some k := by
  have := List.idxOf_lt_length_of_mem h
  rw [List.getElem?_eq_getElem this, List.getElem_idxOf this]

theorem count_one_iff (ds : List DKind) (k : DKind) (h : k ∈ ds) :
    ds.count k = 1 ↔ ∀ i j : Nat, ds[i]? = some k → ds[j]? = some k → i = j := by
  induction ds with
  | nil => simp at h
  | cons a ds ih =>
    by_cases ha : a = k
    · subst ha
      rw [List.count_cons_self]
      constructor
      · intro hc
        have hn : a ∉ ds := by
          rw [← List.count_eq_zero]; omega
        have key : ∀ i, (a :: ds)[i]? = some a → i = 0 := by
          intro i hi
          cases i with
          | zero => rfl
          | succ i =>
            exact absurd (List.mem_of_getElem? (by simpa using hi)) hn
        intro i j hi hj
        rw [key i hi, key j hj]
      · intro hh
        have hn : a ∉ ds := by
          intro hm
          obtain ⟨i, hi⟩ := List.mem_iff_getElem?.mp hm
          have := hh 0 (i + 1) (by simp) (by simpa using hi)
          omega
        rw [List.count_eq_zero_of_not_mem hn]
    · have hm : k ∈ ds := by
        rcases List.mem_cons.mp h with h | h
        · exact absurd h.symm ha
        · exact h
      rw [List.count_cons_of_ne ha, ih hm]
      constructor
      · intro hh i j hi hj
        cases i with
        | zero => simp [ha] at hi
        | succ i => cases j with
          | zero => simp [ha] at hj
          | succ j => rw [hh i j (by simpa using hi) (by simpa using hj)]
      · intro hh i j hi hj
        have := hh (i + 1) (j + 1) (by simpa using hi) (by simpa using hj)
        omega

theorem before_first {ds : List DKind} {i : Nat} {k : DKind} :
    ¬ (k ∈ ds ∧ ¬ i < ds.idxOf k) ↔ ∀ j : Nat, ds[j]? = some k → i < j := by
  constructor
  · intro h j hj
    have hm := List.mem_of_getElem? hj
    have h1 : i < ds.idxOf k := by tauto
    exact lt_of_lt_of_le h1 (idxOf_le hj)
  · rintro h ⟨hm, hn⟩
    exact hn (h _ (getElem?_idxOf_mem hm))

/-- C97. A list of directives is accepted exactly if: it has at most one estimator of the
trade-off parameter; the sensitivity weights come before it and before every preconditioner;
`UpdateIRLS` comes before every preconditioner, is not combined with a cooling schedule, and if
there are spherical weights some of them come before it; a similarity directive comes first. -/
theorem C97_accepted_iff (ds : List DKind) : validate ds = .ok () ↔ Accepted ds := by
  unfold validate
  rw [validateFrom_iff]
  simp only [Nat.zero_add]
  constructor
  · intro h
    refine ⟨?_, ?_, ?_, ?_, ?_, ?_, ?_⟩
    · intro i j hi hj
      have h1 := h i _ hi
      simp only [validateAt] at h1
      split at h1
      · next hc => exact (count_one_iff ds .betaEst (List.mem_of_getElem? hi)).mp hc i j hi hj
      · cases h1
    · intro i j hi hj
      have h1 := h i _ hi
      simp only [validateAt] at h1
      split at h1
      · cases h1
      · next hc => exact before_first.mp hc j hj
    · intro i j hi hj
      have h1 := h i _ hi
      simp only [validateAt] at h1
      split at h1
      · cases h1
      · split at h1
        · cases h1
        · next hc => exact before_first.mp hc j hj
    · intro i j hi hj
      have h1 := h i _ hi
      simp only [validateAt] at h1
      split at h1
      · cases h1
      · next hc =>
        have hm := List.mem_of_getElem? hj
        have h2 : ¬ ds.idxOf .precond < i := fun hh => hc ⟨hm, hh⟩
        have h3 := idxOf_le hj
        rcases Nat.lt_or_ge i j with h4 | h4
        · exact h4
        · have h5 : i = ds.idxOf .precond := by omega
          have h6 := getElem?_idxOf_mem hm
          rw [← h5, hi] at h6
          cases h6
    · intro hm hs
      obtain ⟨i, hi⟩ := List.mem_iff_getElem?.mp hm
      have h1 := h i _ hi
      simp only [validateAt] at h1
      split at h1
      · cases h1
      · cases h1
    · intro hm i hi
      have h1 := h i _ hi
      simp only [validateAt] at h1
      split at h1
      · cases h1
      · split at h1
        · cases h1
        · split at h1
          · cases h1
          · next hc =>
            exact ⟨ds.idxOf .spherical, by tauto, getElem?_idxOf_mem hm⟩
    · intro i hi
      have h1 := h i _ hi
      simp only [validateAt] at h1
      split at h1
      · cases h1
      · next hc => simpa using hc
  · intro a i k hi
    cases k with
    | betaEst =>
      simp only [validateAt]
      rw [if_pos ((count_one_iff ds .betaEst (List.mem_of_getElem? hi)).mpr a.one)]
    | weights =>
      simp only [validateAt]
      rw [if_neg (before_first.mpr (fun j hj => a.weights_beta i j hi hj)),
        if_neg (before_first.mpr (fun j hj => a.weights_precond i j hi hj))]
    | irls =>
      simp only [validateAt]
      rw [if_neg, if_neg (a.irls_schedule (List.mem_of_getElem? hi)), if_neg]
      · rintro ⟨hm, hn⟩
        obtain ⟨j, hj, hj'⟩ := a.irls_spherical hm i hi
        exact hn (lt_of_le_of_lt (idxOf_le hj') hj)
      · rintro ⟨hm, hn⟩
        have := a.irls_precond i _ hi (getElem?_idxOf_mem hm)
        omega
    | similarity =>
      simp only [validateAt]
      rw [if_neg (by simp [a.similarity i hi])]
    | _ => rfl

/-- C97. A refused list leaves the inversion with the directives it had. -/
theorem C97_refused_unchanged (held ds : List DKind) :
    (setDirectives held ds).2 = none ∧ (setDirectives held ds).1 = ds ∧ Accepted ds ∨
    (setDirectives held ds).2.isSome ∧ (setDirectives held ds).1 = held ∧ ¬ Accepted ds := by
  unfold setDirectives
  rw [← C97_accepted_iff]
  cases validate ds with
  | error e => simp
  | ok u => simp

variable {σ R B P : Type}

/-- Behaviours of the directives that respect the table of what they write: `reg` is the part of
the state that the regularisation depends on, `beta` the trade-off parameter, `prec` the
preconditioner. `F`: the preconditioner for given weights and trade-off parameter; `G`: the
estimate of the trade-off parameter. -/
structure Respects (reg : σ → R) (beta : σ → B) (prec : σ → P) (F : R → B → P) (G : R → B)
    (beh : DKind → Directive σ) : Prop where
  reg_kept : ∀ r k i w w', k.writesReg r = false → (beh k).run r i w = .ok w' →
    reg w'.st = reg w.st
  beta_kept : ∀ r k i w w', k.writesBeta r = false → (beh k).run r i w = .ok w' →
    beta w'.st = beta w.st
  prec_kept : ∀ r k i w w', k ≠ .precond → (beh k).run r i w = .ok w' → prec w'.st = prec w.st
  precond_sets : ∀ r i w w', r ≠ .finish → (beh .precond).run r i w = .ok w' →
    prec w'.st = F (reg w.st) (beta w.st)
  beta_sets : ∀ i w w', (beh .betaEst).run .initialize i w = .ok w' →
    beta w'.st = G (reg w.st)

theorem call_tail {X : Type} (f : σ → X) (r : Rule) (i : Nat) (beh : DKind → Directive σ)
    (pre post : List DKind) (k : DKind) (w : World σ)
    (hok : (call r i 0 ((pre ++ k :: post).map beh) w).2.2 = none)
    (hpost : ∀ k' ∈ post, ∀ w w', (beh k').run r i w = .ok w' → f w'.st = f w.st) :
    ∃ w1 w2, (beh k).run r i w1 = .ok w2 ∧
      f (call r i 0 ((pre ++ k :: post).map beh) w).2.1.st = f w2.st := by
  have hpre : (call r i 0 (pre.map beh) w).2.2 = none := by
    by_contra hne
    obtain ⟨e, he⟩ := Option.ne_none_iff_exists'.mp hne
    rw [List.map_append, call_append_err r i e _ _ 0 w he] at hok
    cases hok
  rw [List.map_append] at hok ⊢
  rw [call_append r i _ _ 0 w hpre] at hok ⊢
  rw [List.map_cons] at hok ⊢
  generalize (call r i 0 (pre.map beh) w).2.1 = w1 at *
  rw [call] at hok ⊢
  cases h : (beh k).run r i w1 with
  | error e => rw [h] at hok; cases hok
  | ok w2 =>
    refine ⟨w1, w2, h, ?_⟩
    dsimp only
    refine call_invariant (P := fun s => f s = f w2.st) r i (post.map beh) _ w2 ?_ rfl
    intro d hd w w' hw hr
    obtain ⟨k', hk', rfl⟩ := List.mem_map.mp hd
    rw [hpost k' hk' w w' hr, hw]

theorem last_split {k : DKind} : ∀ {ds : List DKind}, k ∈ ds →
    ∃ pre post, ds = pre ++ k :: post ∧ k ∉ post
  | [], h => by simp at h
  | a :: ds, h => by
    by_cases hm : k ∈ ds
    · obtain ⟨pre, post, h1, h2⟩ := last_split hm
      exact ⟨a :: pre, post, by rw [h1]; rfl, h2⟩
    · have : k = a := by
        rcases List.mem_cons.mp h with h | h
        · exact h
        · exact absurd h hm
      exact ⟨[], ds, by rw [this]; rfl, hm⟩

theorem post_index {pre post : List DKind} {k k' : DKind} (h : k' ∈ post) :
    ∃ j : Nat, (pre ++ k :: post)[pre.length]? = some k ∧ pre.length < j ∧
      (pre ++ k :: post)[j]? = some k' := by
  obtain ⟨j, hj⟩ := List.mem_iff_getElem?.mp h
  refine ⟨pre.length + (j + 1), by simp, by omega, ?_⟩
  rw [List.getElem?_append_right (by omega)]
  simpa using hj

/-- C97 (partial). In an accepted list the preconditioner is that of the weights and the
trade-off parameter the iteration is made with, after `initialize` as after every `endIter`,
whatever the directives compute. Missing: this needs in addition that no estimator or schedule of
the trade-off parameter, no spherical weights and no estimate of the smoothness multipliers come
after a preconditioner, which the validation does not check. -/
theorem C97_precond_current_partial (reg : σ → R) (beta : σ → B) (prec : σ → P) (F : R → B → P)
    (G : R → B) (beh : DKind → Directive σ) (hb : Respects reg beta prec F G beh)
    (ds : List DKind) (hv : validate ds = .ok ()) (hm : DKind.precond ∈ ds)
    (hlate : ∀ i j : Nat, ds[i]? = some .precond → i < j → ∀ k, ds[j]? = some k →
      k ≠ .betaEst ∧ k ≠ .pairedBeta ∧ k ≠ .schedule ∧ k ≠ .spherical ∧ k ≠ .alphas)
    (r : Rule) (hr : r ≠ .finish) (i : Nat) (w : World σ)
    (hok : (call r i 0 (ds.map beh) w).2.2 = none) :
    let s := (call r i 0 (ds.map beh) w).2.1.st
    prec s = F (reg s) (beta s) := by
  rw [C97_accepted_iff] at hv
  obtain ⟨pre, post, rfl, hn⟩ := last_split hm
  obtain ⟨w1, w2, h1, h2⟩ := call_tail (fun s => (reg s, beta s, prec s)) r i beh pre post .precond
    w hok (by
      intro k' hk' w w' hrun
      obtain ⟨j, hp, hj, hj'⟩ := post_index (pre := pre) (k := .precond) hk'
      have hl := hlate _ _ hp hj k' hj'
      have hk1 : k' ≠ .precond := fun h => hn (h ▸ hk')
      have hk2 : k' ≠ .weights := by
        rintro rfl
        have := hv.weights_precond _ _ hj' hp
        omega
      have hk3 : k' ≠ .irls := by
        rintro rfl
        have := hv.irls_precond _ _ hj' hp
        omega
      rw [hb.reg_kept r k' i w w' _ hrun, hb.beta_kept r k' i w w' _ hrun,
        hb.prec_kept r k' i w w' hk1 hrun]
      · cases r <;> cases k' <;> simp_all [DKind.writesBeta]
      · cases r <;> cases k' <;> simp_all [DKind.writesReg])
  simp only [Prod.mk.injEq] at h2
  intro s
  rw [show prec s = prec w2.st from h2.2.2, show reg s = reg w2.st from h2.1,
    show beta s = beta w2.st from h2.2.1, hb.precond_sets r i w1 w2 hr h1,
    hb.reg_kept r .precond i w1 w2 (by cases r <;> rfl) h1,
    hb.beta_kept r .precond i w1 w2 (by cases r <;> rfl) h1]

/-- C97 (partial). In an accepted list with an estimator, the trade-off parameter after
`initialize` is the estimate for the weights the inversion starts with. Missing: this needs in
addition that no spherical weights, no estimate of the smoothness multipliers and no paired
estimator come after the estimator, which the validation does not check. -/
theorem C97_beta_current_partial (reg : σ → R) (beta : σ → B) (prec : σ → P) (F : R → B → P)
    (G : R → B) (beh : DKind → Directive σ) (hb : Respects reg beta prec F G beh)
    (ds : List DKind) (hv : validate ds = .ok ()) (hm : DKind.betaEst ∈ ds)
    (hlate : ∀ i j : Nat, ds[i]? = some .betaEst → i < j → ∀ k, ds[j]? = some k →
      k ≠ .pairedBeta ∧ k ≠ .spherical ∧ k ≠ .alphas)
    (i : Nat) (w : World σ) (hok : (call .initialize i 0 (ds.map beh) w).2.2 = none) :
    let s := (call .initialize i 0 (ds.map beh) w).2.1.st
    beta s = G (reg s) := by
  rw [C97_accepted_iff] at hv
  obtain ⟨pre, post, rfl, hn⟩ := last_split hm
  obtain ⟨w1, w2, h1, h2⟩ := call_tail (fun s => (reg s, beta s)) .initialize i beh pre post
    .betaEst w hok (by
      intro k' hk' w w' hrun
      obtain ⟨j, hp, hj, hj'⟩ := post_index (pre := pre) (k := .betaEst) hk'
      have hl := hlate _ _ hp hj k' hj'
      have hk1 : k' ≠ .betaEst := fun h => hn (h ▸ hk')
      have hk2 : k' ≠ .weights := by
        rintro rfl
        have := hv.weights_beta _ _ hj' hp
        omega
      rw [hb.reg_kept .initialize k' i w w' _ hrun, hb.beta_kept .initialize k' i w w' _ hrun]
      · cases k' <;> simp_all [DKind.writesBeta]
      · cases k' <;> simp_all [DKind.writesReg])
  simp only [Prod.mk.injEq] at h2
  intro s
  rw [show beta s = beta w2.st from h2.2, show reg s = reg w2.st from h2.1,
    hb.beta_sets i w1 w2 h1, hb.reg_kept .initialize .betaEst i w1 w2 rfl h1]

/-- A state for the counterexamples: the weights, the trade-off parameter, and the preconditioner
as the pair it was computed from. -/
structure Toy where
  reg : Nat
  beta : Nat
  prec : Nat × Nat

/-- Every change of the weights adds one to them; the estimate is ten times the weights; the
schedule adds one hundred. -/
def toy (k : DKind) : Directive Toy where
  run r _ w :=
    let s := w.st
    let reg := if k.writesReg r then s.reg + 1 else s.reg
    let beta := if k.writesBeta r then (if r = .initialize then 10 * s.reg else s.beta + 100)
      else s.beta
    .ok { w with st := ⟨reg, beta,
      if k = .precond ∧ r ≠ .finish then (s.reg, s.beta) else s.prec⟩ }

theorem toy_respects : Respects Toy.reg Toy.beta Toy.prec (fun a b => (a, b)) (10 * ·) toy := by
  refine ⟨?_, ?_, ?_, ?_, ?_⟩
  · intro r k i w w' hk h
    cases h
    simp [hk]
  · intro r k i w w' hk h
    cases h
    simp [hk]
  · intro r k i w w' hk h
    cases h
    simp [hk]
  · intro r i w w' hr h
    cases h
    simp [hr]
  · intro i w w' h
    cases h
    simp [DKind.writesBeta]

/-- The hypotheses of both theorems are met by the usual list. -/
example :
    let ds : List DKind := [.spherical, .weights, .irls, .betaEst, .precond, .other]
    validate ds = .ok () ∧ (call .initialize 0 0 (ds.map toy) ⟨false, ⟨0, 0, (0, 0)⟩⟩).2.2 = none ∧
      (call .initialize 0 0 (ds.map toy) ⟨false, ⟨0, 0, (0, 0)⟩⟩).2.1.st.prec = (2, 20) := by
  decide +kernel

/-- C97, violated. The list weights, preconditioner, estimator is accepted; the preconditioner is
computed with the trade-off parameter from before the estimate. -/
theorem C97_violated_precond_before_beta :
    let ds : List DKind := [.weights, .precond, .betaEst]
    let s := (call .initialize 0 0 (ds.map toy) ⟨false, ⟨0, 1, (0, 0)⟩⟩).2.1.st
    validate ds = .ok () ∧ s.reg = 1 ∧ s.beta = 10 ∧ s.prec = (1, 1) := by
  decide +kernel

/-- C97, violated. A paired estimator before the sensitivity weights, or an estimator before
spherical weights or before the estimate of the smoothness multipliers, is accepted; the trade-off
parameter is that of other weights than the inversion starts with. -/
theorem C97_violated_beta_before_weights :
    ∀ ds ∈ [[DKind.pairedBeta, .weights], [.betaEst, .spherical], [.betaEst, .alphas]],
      let s := (call .initialize 0 0 (ds.map toy) ⟨false, ⟨1, 1, (0, 0)⟩⟩).2.1.st
      validate ds = .ok () ∧ s.reg = 2 ∧ s.beta = 10 := by
  decide +kernel

/-- C97. What the validation refuses has to be refused: with the preconditioner before the sensitivity
weights, or before `UpdateIRLS`, the preconditioner would be that of other weights, in every iteration,
and with the estimator before the weights so would be the trade-off parameter. -/
theorem C97_refusal_needed :
    (let x := (call .endIter 0 0 ([DKind.precond, .weights].map toy) ⟨false, ⟨1, 1, (0, 0)⟩⟩).2.1.st
     validate [.precond, .weights] = .error .assertionError ∧ x.prec ≠ (x.reg, x.beta)) ∧
    (let x := (call .endIter 0 0 ([DKind.precond, .irls].map toy) ⟨false, ⟨1, 1, (0, 0)⟩⟩).2.1.st
     validate [.precond, .irls] = .error .assertionError ∧ x.prec ≠ (x.reg, x.beta)) ∧
    (let x := (call .initialize 0 0 ([DKind.betaEst, .weights].map toy)
       ⟨false, ⟨1, 1, (0, 0)⟩⟩).2.1.st
     validate [.betaEst, .weights] = .error .assertionError ∧ x.beta ≠ 10 * x.reg) := by
  decide +kernel

/-- C97, violated. Of several spherical weights only the first has to come before `UpdateIRLS`. -/
theorem C97_violated_spherical :
    validate [.spherical, .irls, .spherical] = .ok () ∧
      validate [.irls, .spherical] = .error .assertionError := by
  decide +kernel

end Props
end Verif.Directives
