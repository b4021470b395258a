import Verif.Directives.Beta
import Mathlib.Algebra.Order.BigOperators.Group.List
import Mathlib.Algebra.BigOperators.Group.List.Lemmas
import Mathlib.Algebra.BigOperators.Ring.List
import Mathlib.Data.List.GetD
import Mathlib.Tactic.Positivity

/-! Model of the directives for joint inversion: `MultiTargetMisfits`
(`simpeg/directives/_directives.py` 1188-1646) and `JointScalingSchedule` (950-1090). -/

namespace Verif.Directives
open Verif

variable {K : Type} [Field K] [LinearOrder K] [IsStrictOrderedRing K]

/-! ### The target of `MultiTargetMisfits` -/

/-- `a * b` of one-dimensional arrays, with numpy's broadcasting of arrays of length one. -/
def bmul (a b : List K) : Except Err (List K) :=
  if a.length = b.length then .ok (List.zipWith (· * ·) a b)
  else match a, b with
    | [x], _ => .ok (b.map (x * ·))
    | _, [y] => .ok (a.map (· * y))
    | _, _ => .error .valueError

/-- The attributes `_chifact`, `_phi_d_star` and `_DMtarget` of the directive. -/
structure MT (K : Type) where
  chifact : List K
  phiDStar : Option (List K)
  target : Option (List K)

/-- The setter of `chifact` (1241-1244). -/
def MT.setChifact (v : List K) (s : MT K) : MT K := { s with chifact := v, target := none }

/-- The setter of `phi_d_star` (1268-1274). -/
def MT.setPhiDStar (v : Option (List K)) (s : MT K) : MT K :=
  { s with phiDStar := v, target := none }

/-- The getter of `phi_d_star` (1246-1266): the first reading stores the numbers of data `nD`. -/
def MT.getPhiDStar (nD : List Nat) (s : MT K) : List K × MT K :=
  match s.phiDStar with
  | some v => (v, s)
  | none => let v := nD.map (Nat.cast : Nat → K)
    (v, { s with phiDStar := some v, target := none })

/-- The getter of `DMtarget` (1490-1494). -/
def MT.getTarget (nD : List Nat) (s : MT K) : Except Err (List K × MT K) :=
  match s.target with
  | some t => .ok (t, s)
  | none =>
    let r := s.getPhiDStar nD
    match bmul r.2.chifact r.1 with
    | .error e => .error e
    | .ok t => .ok (t, { r.2 with target := some t })

/-- What a user does with the directive, and what the runs it takes part in do; the surveys of
the data misfits have `nD` data when the target is read. -/
inductive MTOp (K : Type)
  | setChifact (v : List K)
  | setPhiDStar (v : Option (List K))
  | read (nD : List Nat)

/-- One operation; an exception leaves the object as the code leaves it. -/
def MT.step (s : MT K) : MTOp K → MT K
  | .setChifact v => s.setChifact v
  | .setPhiDStar v => s.setPhiDStar v
  | .read nD => match s.getTarget nD with
    | .ok r => r.2
    | .error _ => (s.getPhiDStar nD).2

/-- A new directive (1189-1223) after a history of operations. -/
def MT.after (chifact : List K) (phiDStar : Option (List K)) (ops : List (MTOp K)) : MT K :=
  ops.foldl MT.step ⟨chifact, phiDStar, none⟩

/-! ### The stopping rule -/

/-- What `endIter` looks at, as functions of the state of the inversion. `dm`: the misfits of
the current model, one for each data misfit (1596). `pgi`: there is a petrophysical smallness
term (`smallness != -1`); `phims`, `clTarget`: its value and its target; `theta`: the distance of
the mixture parameters from their references (`ThetaTarget`, 1544-1590). -/
structure MTView (σ K : Type) where
  dm : σ → List K
  pgi : σ → Bool
  phims : σ → K
  clTarget : σ → K
  theta : σ → K

/-- The settings of `MultiTargetMisfits` that `endIter` reads. -/
structure MTSet (K : Type) where
  target : List K
  triggerSmall : Bool
  triggerTheta : Bool
  tolTheta : K

variable {σ : Type}

/-- The flags `DM`, `CL`, `DP` that `endIter` computes (1593-1610). The comparison of misfits
and targets is over `zip`. -/
def multiFlags (V : MTView σ K) (S : MTSet K) (s : σ) : Bool × Bool × Bool :=
  ((List.zipWith (fun d t => decide (d < t)) (V.dm s) S.target).all id,
   !(S.triggerSmall && V.pgi s && decide (V.clTarget s < V.phims s)),
   !(S.triggerTheta && decide (S.tolTheta < V.theta s)))

/-- `MultiTargetMisfits.endIter` (1592-1646) without the messages and without the list of misfits
it keeps for `JointScalingSchedule`. -/
def multiTarget (V : MTView σ K) (S : MTSet K) : Directive σ where
  run r _ w := match r with
    | .endIter =>
      let f := multiFlags V S w.st
      .ok (if f.1 && f.2.1 && f.2.2 then { w with stop := true } else w)
    | _ => .ok w

/-- The operator `~` applied to a Python boolean, which is an integer. -/
def pyInvert (b : Bool) : Int := if b then -2 else -1

/-- `CLnormalizedConstant` (1521-1532) with a petrophysical smallness whose weights have the
diagonal `W`, for a model of `n` parameters: the first branch is taken if `~WeightsInTarget` is
true in the sense of Python. -/
def clNormalized (weightsInTarget : Bool) (W : List K) (n : Nat) : K :=
  if pyInvert weightsInTarget ≠ 0 then 1
  else (W.map (· ^ 2)).sum / n

/-! ### `JointScalingSchedule` -/

/-- `np.median`. -/
def median (l : List K) : K :=
  let s := l.mergeSort (fun a b => decide (a ≤ b))
  if l.length % 2 = 1 then s.getD (l.length / 2) 0
  else (s.getD (l.length / 2 - 1) 0 + s.getD (l.length / 2) 0) / 2

/-- `ComboObjectiveFunction.multipliers`: the list it is created with, or the array somebody
assigned (`objective_function.py` 447-453 keeps what it is given). -/
inductive Mults (K : Type)
  | list (l : List K)
  | array (l : List K)
  deriving DecidableEq

/-- The numbers, whatever the container. -/
def Mults.vals : Mults K → List K
  | .list l => l
  | .array l => l

/-- The settings of `JointScalingSchedule` (958-966). -/
structure Joint (K : Type) where
  warming : K
  chimax : K
  chimin : K
  rate : Nat

/-- The datasets that are not fit: `dmlist > DMtarget` (1073). -/
def unfit (dm tg : List K) : List Bool := List.zipWith (fun d t => decide (t < d)) dm tg

/-- The ratios target over misfit of the other datasets (1076). -/
def fitRatios (dm tg : List K) : List K :=
  ((dm.zip tg).filter fun p => !decide (p.2 < p.1)).map fun p => p.2 / p.1

/-- `JointScalingSchedule.endIter` (1058-1090). `found`: the position of a `MultiTargetMisfits`
was stored by `initialize` (1045-1052), with its misfits `dm` and targets `tg`. A boolean mask is
not an index of a list, an integer is. `dm` and `tg` have the same length; with a target array of
length one the masks would raise instead. Misfits are not zero. -/
def jointEnd (C : Joint K) (iter : Nat) (found : Bool) (dm tg : List K) (M : Mults K) :
    Except Err (Mults K) :=
  if !found then .error .attributeError
  else if 0 < iter ∧ iter % C.rate = 0 ∧
      (List.zipWith (fun d t => decide (d < t)) dm tg).any id ∧
      (M.vals.all fun x => decide (C.chimin < x)) ∧ (M.vals.all fun x => decide (x < C.chimax)) then
    if (unfit dm tg).any id then
      let c := C.warming * median (fitRatios dm tg)
      let new := List.zipWith (fun b x => if b then x * c else x) (unfit dm tg) M.vals
      match M with
      | .list _ =>
        if (unfit dm tg).count true = 1 then .ok (.array (new.map (· / new.sum)))
        else .error .typeError
      | .array _ => .ok (.array (new.map (· / new.sum)))
    else .ok M
  else .ok M

/-- The part of the inversion these two directives share: the list of misfits
`MultiTargetMisfits` keeps, the multipliers of the data misfits, and the rest. -/
structure JS (K ρ : Type) where
  dm : List K
  mults : Mults K
  rest : ρ

variable {ρ : Type}

/-- `MultiTargetMisfits` as far as `JointScalingSchedule` sees it: `initialize` (1368) and
`endIter` (1596) store the misfits of the current model. -/
def keepMisfits (phi : ρ → List K) : Directive (JS K ρ) where
  run r _ w := match r with
    | .finish => .ok w
    | _ => .ok { w with st := { w.st with dm := phi w.st.rest } }

/-- `JointScalingSchedule` in a list that contains a `MultiTargetMisfits` with targets `tg`, or
none. -/
def jointScaling (C : Joint K) (tg : Option (List K)) : Directive (JS K ρ) where
  run r iter w := match r with
    | .endIter => match jointEnd C iter tg.isSome w.st.dm (tg.getD []) w.st.mults with
      | .error e => .error e
      | .ok m => .ok { w with st := { w.st with mults := m } }
    | _ => .ok w

namespace Props

/-! ### C91 -/

/-- The value last given to `phi_d_star`. -/
def lastPhi (start : Option (List K)) (ops : List (MTOp K)) : Option (List K) :=
  ops.foldl (fun a o => match o with | .setPhiDStar v => v | _ => a) start

/-- The value last given to `chifact`. -/
def lastChi (start : List K) (ops : List (MTOp K)) : List K :=
  ops.foldl (fun a o => match o with | .setChifact v => v | _ => a) start

/-- The surveys do not change in a history. -/
def SameData (nD : List Nat) (ops : List (MTOp K)) : Prop :=
  ∀ n, MTOp.read n ∈ ops → n = nD

theorem read_inv (n : List Nat) (s : MT K) (chi : List K) (phi : Option (List K))
    (h1 : s.chifact = chi) (h2 : s.phiDStar.getD (n.map Nat.cast) = phi.getD (n.map Nat.cast))
    (h3 : ∀ t, s.target = some t → bmul chi (phi.getD (n.map Nat.cast)) = .ok t) :
    (s.step (.read n)).chifact = chi ∧
    (s.step (.read n)).phiDStar.getD (n.map Nat.cast) = phi.getD (n.map Nat.cast) ∧
    (∀ t, (s.step (.read n)).target = some t →
      bmul chi (phi.getD (n.map Nat.cast)) = .ok t) := by
  obtain ⟨c, p, t⟩ := s
  simp only at h1 h2 h3
  subst h1
  rw [← h2] at h3 ⊢
  cases t with
  | some t => exact ⟨rfl, rfl, h3⟩
  | none =>
    cases p with
    | none =>
      cases hb : bmul c (n.map Nat.cast) with
      | error e => simp [MT.step, MT.getTarget, MT.getPhiDStar, hb]
      | ok u => simp [MT.step, MT.getTarget, MT.getPhiDStar, hb]
    | some v =>
      cases hb : bmul c v with
      | error e => simp [MT.step, MT.getTarget, MT.getPhiDStar, hb]
      | ok u => simp [MT.step, MT.getTarget, MT.getPhiDStar, hb]

theorem mt_inv (nD : List Nat) (ops : List (MTOp K)) (hs : SameData nD ops) :
    ∀ (s : MT K) (chi : List K) (phi : Option (List K)), s.chifact = chi →
      s.phiDStar.getD (nD.map Nat.cast) = phi.getD (nD.map Nat.cast) →
      (∀ t, s.target = some t → bmul chi (phi.getD (nD.map Nat.cast)) = .ok t) →
      let e := ops.foldl MT.step s
      e.chifact = lastChi chi ops ∧
      e.phiDStar.getD (nD.map Nat.cast) = (lastPhi phi ops).getD (nD.map Nat.cast) ∧
      (∀ t, e.target = some t →
        bmul (lastChi chi ops) ((lastPhi phi ops).getD (nD.map Nat.cast)) = .ok t) := by
  induction ops with
  | nil => intro s chi phi h1 h2 h3; exact ⟨h1, h2, h3⟩
  | cons o ops ih =>
    intro s chi phi h1 h2 h3
    have hs' : SameData nD ops := fun n hn => hs n (List.mem_cons_of_mem _ hn)
    simp only [List.foldl_cons, lastPhi, lastChi]
    cases o with
    | setChifact v =>
      exact ih hs' _ v phi rfl (by simpa [MT.step, MT.setChifact] using h2)
        (by simp [MT.step, MT.setChifact])
    | setPhiDStar v =>
      exact ih hs' _ chi v (by simpa [MT.step, MT.setPhiDStar] using h1)
        (by simp [MT.step, MT.setPhiDStar]) (by simp [MT.step, MT.setPhiDStar])
    | read n =>
      obtain rfl := hs n (by simp)
      obtain ⟨r1, r2, r3⟩ := read_inv n s chi phi h1 h2 h3
      exact ih hs' _ chi phi r1 r2 r3

/-- C91. As long as the surveys keep their numbers of data, the target read after any history of
assignments and readings is the product of the last `chifact` and the last `phi_d_star`, the
latter being the numbers of data if it was not given or reset to `None`. -/
theorem C91_target_current_partial (nD : List Nat) (chi : List K) (phi : Option (List K))
    (ops : List (MTOp K)) (hs : SameData nD ops) :
    ((MT.after chi phi ops).getTarget nD).map Prod.fst =
      bmul (lastChi chi ops) ((lastPhi phi ops).getD (nD.map Nat.cast)) := by
  obtain ⟨h1, h2, h3⟩ := mt_inv nD ops hs ⟨chi, phi, none⟩ chi phi rfl rfl (by simp)
  change (MT.after chi phi ops).chifact = _ at h1
  change (MT.after chi phi ops).phiDStar.getD _ = _ at h2
  change ∀ t, (MT.after chi phi ops).target = _ → _ at h3
  unfold MT.getTarget
  rcases ht : (MT.after chi phi ops).target with _ | t
  · rcases hp : (MT.after chi phi ops).phiDStar with _ | v <;>
      simp only [MT.getPhiDStar, hp, h1] <;>
      simp only [hp, Option.getD_none, Option.getD_some] at h2 <;> rw [← h2] <;>
      split <;> rename_i h <;> rw [h] <;> rfl
  · simp only
    rw [h3 t ht]; rfl

example : ((MT.after [1] none [.read [3, 5], .setChifact [2], .read [3, 5]] : MT ℚ).getTarget
    [3, 5]).map Prod.fst = .ok [6, 10] := by
  rw [C91_target_current_partial [3, 5] [1] none _ (by intro n hn; simpa using hn)]
  norm_num [lastChi, lastPhi, bmul]

/-- C91, violated. A directive that served in one inversion keeps the numbers of data of that
inversion as targets in the next. -/
theorem C91_violated_reuse :
    ((MT.after [1] none [.read [3, 5]] : MT ℚ).getTarget [30, 50]).map Prod.fst = .ok [3, 5] ∧
    ((MT.after [1] none [] : MT ℚ).getTarget [30, 50]).map Prod.fst = .ok [30, 50] := by
  constructor <;> norm_num [MT.after, MT.step, MT.getTarget, MT.getPhiDStar, bmul, Except.map]

/-- C91. With one target for each data misfit, the run is asked to stop after an iteration
exactly if every misfit is below its own target, and the smallness and the mixture parameters
meet theirs where these tests are switched on. Otherwise the request of other directives is left
as it was. -/
theorem C91_stop_iff_partial (V : MTView σ K) (S : MTSet K) (i : Nat) (w : World σ)
    (hl : S.target.length = (V.dm w.st).length) :
    ∃ w', (multiTarget V S).run .endIter i w = .ok w' ∧ w'.st = w.st ∧
      (w'.stop = true ↔ w.stop = true ∨
        ((∀ j (h : j < (V.dm w.st).length), (V.dm w.st)[j] < S.target[j]) ∧
         (S.triggerSmall = true → V.pgi w.st = true → V.phims w.st ≤ V.clTarget w.st) ∧
         (S.triggerTheta = true → V.theta w.st ≤ S.tolTheta))) := by
  refine ⟨_, rfl, by split <;> rfl, ?_⟩
  have hA : (multiFlags V S w.st).1 = true ↔
      ∀ j (h : j < (V.dm w.st).length), (V.dm w.st)[j] < S.target[j] := by
    simp only [multiFlags, List.all_eq_true, id, List.mem_iff_getElem]
    constructor
    · intro h j hj
      have := h _ ⟨j, by simp [hl, hj], rfl⟩
      simpa using this
    · rintro h b ⟨j, hj, rfl⟩
      simp only [List.length_zipWith, hl, min_self] at hj
      simpa using h j hj
  have hB : (multiFlags V S w.st).2.1 = true ↔
      (S.triggerSmall = true → V.pgi w.st = true → V.phims w.st ≤ V.clTarget w.st) := by
    simp only [multiFlags]
    cases S.triggerSmall <;> cases V.pgi w.st <;> simp
  have hC : (multiFlags V S w.st).2.2 = true ↔
      (S.triggerTheta = true → V.theta w.st ≤ S.tolTheta) := by
    simp only [multiFlags]
    cases S.triggerTheta <;> simp
  rw [← hA, ← hB, ← hC]
  split <;> rename_i h <;> simp only [Bool.and_eq_true] at h <;> tauto

/-- C91. It ends a run at the first iteration after which all targets are met, if the directives
before it leave what it looks at alone and those after it do not withdraw the request. -/
theorem C91_ends_run_partial (O : Optimiser σ) (pre post : List (Directive σ)) (V : MTView σ K)
    (S : MTSet K) (fuel iter : Nat) (w : World σ) (s2 : σ) (hc : Completes O iter w s2)
    (hpre : (call .endIter (iter + 1) 0 pre ⟨w.stop, s2⟩).2.2 = none)
    (hk : ∀ d ∈ pre, Keeps (fun s => (V.dm s, V.pgi s, V.phims s, V.clTarget s, V.theta s)) d)
    (hpost : ∀ d ∈ post, KeepsStop d) (hl : S.target.length = (V.dm s2).length)
    (hm : ∀ j (h : j < (V.dm s2).length), (V.dm s2)[j] < S.target[j])
    (hs : S.triggerSmall = true → V.pgi s2 = true → V.phims s2 ≤ V.clTarget s2)
    (ht : S.triggerTheta = true → V.theta s2 ≤ S.tolTheta) :
    ∃ r, loop O (pre ++ multiTarget V S :: post) (fuel + 1) iter w = some r ∧
      r.iter = iter + 1 := by
  have hv := call_keeps_st _ .endIter (iter + 1) pre 0 ⟨w.stop, s2⟩ hk
  simp only [Prod.mk.injEq] at hv
  obtain ⟨v1, v2, v3, v4, v5⟩ := hv
  obtain ⟨w', h1, h2, h3⟩ := C91_stop_iff_partial V S (iter + 1)
    (call .endIter (iter + 1) 0 pre ⟨w.stop, s2⟩).2.1 (by rw [v1]; exact hl)
  refine C37_stop_honoured_partial O pre post _ fuel iter w s2 w' hc hpre h1 ?_ hpost
  refine h3.2 (Or.inr ⟨?_, by rwa [v2, v3, v4], by rwa [v5]⟩)
  intro j hj
  have := hm j (by rw [← v1]; exact hj)
  simpa only [v1] using this

/-- C91, violated. A single number given as `phi_d_star` makes a target array of length one, and
then only the first data misfit is looked at: two misfits of 1 and 1000 with the target 10 end
the run. A single `chifact` is no problem, it is spread over the data misfits. -/
theorem C91_violated_short_target :
    let V : MTView (List ℚ) ℚ := ⟨id, fun _ => false, fun _ => 0, fun _ => 0, fun _ => 0⟩
    ((MT.after [1] (some [10]) [] : MT ℚ).getTarget [10, 10]).map Prod.fst = .ok [10] ∧
    (multiTarget V ⟨[10], true, false, 1⟩).run .endIter 1 ⟨false, [1, 1000]⟩ =
      .ok ⟨true, [1, 1000]⟩ ∧
    ((MT.after [1] none [] : MT ℚ).getTarget [10, 10]).map Prod.fst = .ok [10, 10] := by
  refine ⟨?_, ?_, ?_⟩
  · norm_num [MT.after, MT.getTarget, MT.getPhiDStar, bmul, Except.map]
  · norm_num [multiTarget, multiFlags]
  · norm_num [MT.after, MT.getTarget, MT.getPhiDStar, bmul, Except.map]

/-- C91, violated. The misfit of the petrophysical smallness is never divided by the mean square
of its weights: with weights of square 4 and 16, the constant is 1 whether or not the weights are
in the target, where it should be 10. -/
theorem C91_violated_weights :
    (∀ b (W : List K) n, clNormalized b W n = 1) ∧ (([2, 4] : List ℚ).map (· ^ 2)).sum / 2 = 10 := by
  refine ⟨?_, by norm_num⟩
  intro b W n
  cases b <;> simp [clNormalized, pyInvert]

/-- Two misfits, both below their targets; the smallness is not tested without a petrophysical
term. -/
example :
    let V : MTView (List ℚ) ℚ := ⟨id, fun _ => false, fun _ => 5, fun _ => 0, fun _ => 0⟩
    (multiTarget V ⟨[10, 20], true, false, 1⟩).run .endIter 1 ⟨false, [9, 19]⟩ =
      .ok ⟨true, [9, 19]⟩ ∧
    (multiTarget V ⟨[10, 20], true, false, 1⟩).run .endIter 1 ⟨false, [9, 20]⟩ =
      .ok ⟨false, [9, 20]⟩ := by
  constructor <;> norm_num [multiTarget, multiFlags]

/-! ### C92 -/

theorem median_ge (l : List K) (hl : l ≠ []) (c : K) (h : ∀ x ∈ l, c ≤ x) : c ≤ median l := by
  have hpos : 0 < l.length := List.length_pos_of_ne_nil hl
  have hm : ∀ k, k < l.length → c ≤ (l.mergeSort (fun a b => decide (a ≤ b))).getD k 0 := by
    intro k hk
    have hk' : k < (l.mergeSort (fun a b => decide (a ≤ b))).length := by
      rw [List.length_mergeSort]; exact hk
    rw [List.getD_eq_getElem _ _ hk']
    exact h _ (List.mem_mergeSort.mp (List.getElem_mem hk'))
  unfold median
  dsimp only
  split
  · exact hm _ (by omega)
  · have h1 := hm (l.length / 2 - 1) (by omega)
    have h2 := hm (l.length / 2) (by omega)
    linarith

/-- The multipliers are rebalanced at the end of an iteration: it is one of those the schedule
looks at, some dataset is fit and some is not, and no multiplier has left its range. -/
def Due (C : Joint K) (iter : Nat) (dm tg : List K) (M : Mults K) : Prop :=
  0 < iter ∧ iter % C.rate = 0 ∧ (∃ p ∈ dm.zip tg, p.1 < p.2) ∧ (∃ p ∈ dm.zip tg, p.2 < p.1) ∧
    ∀ x ∈ M.vals, C.chimin < x ∧ x < C.chimax

theorem any_lt (dm tg : List K) :
    (List.zipWith (fun d t => decide (d < t)) dm tg).any id = true ↔
      ∃ p ∈ dm.zip tg, p.1 < p.2 := by
  rw [← List.map_uncurry_zip_eq_zipWith]
  simp [List.any_eq_true, Function.uncurry]

theorem any_unfit (dm tg : List K) :
    (unfit dm tg).any id = true ↔ ∃ p ∈ dm.zip tg, p.2 < p.1 := by
  unfold unfit
  rw [← List.map_uncurry_zip_eq_zipWith]
  simp [List.any_eq_true, Function.uncurry]

/-- The factor applied to the datasets that are not fit is at least the warming factor. -/
theorem factor_ge (C : Joint K) (dm tg : List K) (hw : 0 < C.warming) (hd : ∀ d ∈ dm, 0 < d)
    (hf : ∃ p ∈ dm.zip tg, p.1 < p.2) :
    C.warming ≤ C.warming * median (fitRatios dm tg) := by
  have h1 : (1 : K) ≤ median (fitRatios dm tg) := by
    apply median_ge
    · obtain ⟨p, hp, hlt⟩ := hf
      intro h
      have : p.2 / p.1 ∈ fitRatios dm tg := by
        unfold fitRatios
        exact List.mem_map.mpr ⟨p, List.mem_filter.mpr ⟨hp, by simp [hlt.le]⟩, rfl⟩
      rw [h] at this
      simp at this
    · intro x hx
      unfold fitRatios at hx
      obtain ⟨p, hp, rfl⟩ := List.mem_map.mp hx
      obtain ⟨hp, hle⟩ := List.mem_filter.mp hp
      have h0 : 0 < p.1 := hd _ (List.of_mem_zip hp).1
      rw [one_le_div h0]
      simpa using hle
  nlinarith

/-- The list of new values before they are divided by their sum, and the result. -/
theorem scaled (dm tg vals : List K) (c : K) (hc : 0 < c) (hl : dm.length = tg.length)
    (hv : vals.length = dm.length) (hp : ∀ x ∈ vals, 0 < x) (hne : vals ≠ []) :
    let new := List.zipWith (fun b x => if b then x * c else x) (unfit dm tg) vals
    0 < new.sum ∧ (new.map (· / new.sum)).sum = 1 ∧ (∀ x ∈ new.map (· / new.sum), 0 < x) ∧
    (new.map (· / new.sum)).length = vals.length ∧
    ∀ j (h : j < vals.length) (h' : j < (new.map (· / new.sum)).length),
      (new.map (· / new.sum))[j] =
        (if tg[j] < dm[j] then c else 1) * vals[j] / new.sum := by
  intro new
  have hlen : new.length = vals.length := by simp [new, unfit, hl, hv]
  have hget : ∀ j (h : j < vals.length) (h' : j < new.length),
      new[j] = (if tg[j] < dm[j] then c else 1) * vals[j] := by
    intro j h h'
    simp only [new, unfit, List.getElem_zipWith, decide_eq_true_eq]
    split <;> ring
  have hnew : ∀ x ∈ new, 0 < x := by
    intro x hx
    obtain ⟨j, hj, rfl⟩ := List.mem_iff_getElem.mp hx
    rw [hget j (hlen ▸ hj)]
    have := hp vals[j] (List.getElem_mem _)
    split <;> positivity
  have hne' : new ≠ [] := by
    intro h
    exact hne (List.length_eq_zero_iff.mp (by rw [← hlen, h]; rfl))
  have hsum : 0 < new.sum := List.sum_pos new hnew hne'
  refine ⟨hsum, ?_, ?_, by simp [hlen], ?_⟩
  · simp only [div_eq_mul_inv]
    rw [List.sum_map_mul_right, List.map_id', mul_inv_cancel₀ hsum.ne']
  · intro x hx
    obtain ⟨y, hy, rfl⟩ := List.mem_map.mp hx
    exact div_pos (hnew y hy) hsum
  · intro j h h'
    rw [List.getElem_map, hget j h]

/-- C92. If rebalancing is due and the multipliers are positive, the new multipliers are
positive and add up to one. Those of the datasets that are not fit are multiplied by one common
factor, at least the warming factor, before all are divided by the sum: their weights relative to
the fit datasets grow, the proportions within either group stay. This holds if the multipliers
are an array, or exactly one dataset is not fit. -/
theorem C92_rebalance_partial (C : Joint K) (iter : Nat) (dm tg : List K) (M : Mults K)
    (hw : 0 < C.warming) (hl : dm.length = tg.length) (hv : M.vals.length = dm.length)
    (hd : ∀ d ∈ dm, 0 < d) (hp : ∀ x ∈ M.vals, 0 < x) (hdue : Due C iter dm tg M)
    (hM : (∃ l, M = .array l) ∨ (unfit dm tg).count true = 1) :
    ∃ l, jointEnd C iter true dm tg M = .ok (.array l) ∧ l.length = dm.length ∧ l.sum = 1 ∧
      (∀ x ∈ l, 0 < x) ∧
      ∃ c s : K, C.warming ≤ c ∧ 0 < s ∧ ∀ j (h : j < dm.length) (h' : j < l.length),
        l[j] = (if tg[j] < dm[j] then c else 1) * M.vals[j] / s := by
  obtain ⟨h1, h2, h3, h4, h5⟩ := hdue
  have hcond : 0 < iter ∧ iter % C.rate = 0 ∧
      (List.zipWith (fun d t => decide (d < t)) dm tg).any id ∧
      (M.vals.all fun x => decide (C.chimin < x)) ∧
      (M.vals.all fun x => decide (x < C.chimax)) := by
    refine ⟨h1, h2, (any_lt dm tg).2 h3, ?_, ?_⟩ <;>
      simp only [List.all_eq_true, decide_eq_true_eq] <;> intro x hx
    · exact (h5 x hx).1
    · exact (h5 x hx).2
  have hc := factor_ge C dm tg hw hd h3
  have hne : M.vals ≠ [] := by
    obtain ⟨p, hp, _⟩ := h3
    have := List.length_pos_of_mem (List.of_mem_zip hp).1
    intro h
    rw [h] at hv
    simp at hv
    omega
  obtain ⟨g1, g2, g3, g4, g5⟩ := scaled dm tg M.vals
    (C.warming * median (fitRatios dm tg)) (lt_of_lt_of_le hw hc) hl hv hp hne
  refine ⟨_, ?_, by rw [← hv]; exact g4, g2, g3, _, _, hc, g1,
    fun j h h' => g5 j (by rw [hv]; exact h) h'⟩
  unfold jointEnd
  rw [if_neg (by simp), if_pos hcond, if_pos ((any_unfit dm tg).2 h4)]
  rcases M with l | l
  · have : (unfit dm tg).count true = 1 := by
      rcases hM with ⟨l', h⟩ | h
      · cases h
      · exact h
    simp only [this, if_true]
  · rfl

/-- C92. At all other times the multipliers stay as they are. In particular, once a multiplier
has left its range, or all datasets or none are fit, nothing changes. -/
theorem C92_unchanged (C : Joint K) (iter : Nat) (dm tg : List K) (M : Mults K)
    (h : ¬ Due C iter dm tg M) : jointEnd C iter true dm tg M = .ok M := by
  unfold jointEnd
  rw [if_neg (by simp)]
  split
  · rename_i hc
    rw [if_neg]
    intro hu
    obtain ⟨h1, h2, h3, h4, h5⟩ := hc
    simp only [List.all_eq_true, decide_eq_true_eq] at h4 h5
    exact h ⟨h1, h2, (any_lt dm tg).1 h3, (any_unfit dm tg).1 hu, fun x hx => ⟨h4 x hx, h5 x hx⟩⟩
  · rfl

/-- What holds of the multipliers throughout a run: there are `n`, all positive, and they are
either those of the beginning or add up to one. -/
def Sound (n : Nat) (start : List K) (M : Mults K) : Prop :=
  M.vals.length = n ∧ (∀ x ∈ M.vals, 0 < x) ∧ (M.vals = start ∨ M.vals.sum = 1)

theorem sound_step (C : Joint K) (iter : Nat) (dm tg : List K) (M M' : Mults K) (start : List K)
    (hw : 0 < C.warming) (hl : dm.length = tg.length) (hd : ∀ d ∈ dm, 0 < d)
    (hs : Sound dm.length start M) (h : jointEnd C iter true dm tg M = .ok M') :
    Sound dm.length start M' := by
  by_cases hdue : Due C iter dm tg M
  · by_cases hM : (∃ l, M = .array l) ∨ (unfit dm tg).count true = 1
    · obtain ⟨l, e1, e2, e3, e4, _⟩ :=
        C92_rebalance_partial C iter dm tg M hw hl hs.1 hd hs.2.1 hdue hM
      rw [e1] at h
      cases h
      exact ⟨e2, e4, Or.inr e3⟩
    · exfalso
      push Not at hM
      rcases M with l | l
      · obtain ⟨h1, h2, h3, h4, h5⟩ := hdue
        unfold jointEnd at h
        rw [if_neg (by simp), if_pos ⟨h1, h2, (any_lt dm tg).2 h3, by
          simpa using fun x hx => (h5 x hx).1, by simpa using fun x hx => (h5 x hx).2⟩,
          if_pos ((any_unfit dm tg).2 h4)] at h
        simp only [if_neg hM.2] at h
        cases h
      · exact hM.1 l rfl
  · rw [C92_unchanged C iter dm tg M hdue] at h
    cases h
    exact hs

/-- C92. Throughout a run, whatever the other directives do as long as they leave the multipliers
and the list of misfits alone, and whatever the models are as long as their misfits are positive:
the multipliers stay positive and, once changed, add up to one. -/
theorem C92_run (O : Optimiser (JS K ρ)) (ds : List (Directive (JS K ρ))) (C : Joint K)
    (phi : ρ → List K) (tg start : List K) (hw : 0 < C.warming)
    (hphi : ∀ r, (phi r).length = tg.length ∧ ∀ d ∈ phi r, 0 < d)
    (he : ∀ i s, (O.eval i s).dm = s.dm ∧ (O.eval i s).mults = s.mults)
    (ho : ∀ i s s', O.step i s = some s' → s'.dm = s.dm ∧ s'.mults = s.mults)
    (hds : ∀ d ∈ ds, d = keepMisfits phi ∨ d = jointScaling C (some tg) ∨
      Keeps (fun s => (s.dm, s.mults)) d)
    (fuel a : Nat) (w : World (JS K ρ)) (r : Result (JS K ρ))
    (hdm : w.st.dm.length = tg.length ∧ ∀ d ∈ w.st.dm, 0 < d)
    (hM : Sound tg.length start w.st.mults) (hr : loop O ds fuel a w = some r) :
    Sound tg.length start r.world.st.mults := by
  refine (loop_invariant (P := fun s => (s.dm.length = tg.length ∧ ∀ d ∈ s.dm, 0 < d) ∧
    Sound tg.length start s.mults) O ds ?_ ?_ ?_ fuel a w r ⟨hdm, hM⟩ hr).2
  · intro i s hs
    rw [(he i s).1, (he i s).2]; exact hs
  · intro i s s' hs h
    rw [(ho i s s' h).1, (ho i s s' h).2]; exact hs
  · intro d hd i w w' hs h
    rcases hds d hd with rfl | rfl | hk
    · simp only [keepMisfits] at h
      cases h
      exact ⟨hphi _, hs.2⟩
    · simp only [jointScaling, Option.isSome_some, Option.getD_some] at h
      split at h
      · cases h
      · rename_i m hm
        cases h
        refine ⟨hs.1, ?_⟩
        have := sound_step C i w.st.dm tg w.st.mults m start hw hs.1.1 hs.1.2
          (by rw [hs.1.1]; exact hs.2) hm
        rwa [hs.1.1] at this
    · have := hk _ _ _ _ h
      simp only [Prod.mk.injEq] at this
      rw [this.1, this.2]; exact hs

/-- C92. If `MultiTargetMisfits` comes before it in the list, `JointScalingSchedule` uses the
misfits of the current model. -/
theorem C92_order_partial (C : Joint K) (phi : ρ → List K) (tg : List K) (iter p : Nat)
    (w : World (JS K ρ)) :
    (call .endIter iter p [keepMisfits phi, jointScaling C (some tg)] w).2.1.st.mults =
      match jointEnd C iter true (phi w.st.rest) tg w.st.mults with
      | .ok m => m
      | .error _ => w.st.mults := by
  simp only [call, keepMisfits, jointScaling, Option.isSome_some, Option.getD_some]
  cases h : jointEnd C iter true (phi w.st.rest) tg w.st.mults <;> rfl

/-- C92, violated. In the other order it uses the misfits of the model before: here the second
dataset is fit now and the first is not, but the multiplier of the second is raised. -/
theorem C92_violated_order :
    let C : Joint ℚ := ⟨1, 10, 1 / 10, 1⟩
    let w : World (JS ℚ (List ℚ)) := ⟨false, ⟨[1, 20], .array [1, 1], [20, 1]⟩⟩
    (call .endIter 1 0 [jointScaling C (some [2, 2]), keepMisfits id] w).2.1.st.mults =
      .array [1 / 3, 2 / 3] ∧
    (call .endIter 1 0 [keepMisfits id, jointScaling C (some [2, 2])] w).2.1.st.mults =
      .array [2 / 3, 1 / 3] := by
  constructor <;> norm_num [call, keepMisfits, jointScaling, jointEnd, unfit, fitRatios, median,
    Mults.vals]

/-- C92, violated. With the multipliers a combination of misfits is created with, a list, the
first rebalancing in which two datasets are not fit raises. -/
theorem C92_violated_list :
    jointEnd (⟨1, 10, 1 / 10, 1⟩ : Joint ℚ) 1 true [1, 20, 30] [2, 2, 2] (.list [1, 1, 1]) =
      .error .typeError ∧
    jointEnd (⟨1, 10, 1 / 10, 1⟩ : Joint ℚ) 1 true [1, 20, 30] [2, 2, 2] (.array [1, 1, 1]) =
      .ok (.array [1 / 5, 2 / 5, 2 / 5]) := by
  constructor <;> norm_num [jointEnd, unfit, fitRatios, median, Mults.vals]

/-- C92, violated. Without a `MultiTargetMisfits` in the list the directive passes `initialize`
and raises at the end of the first iteration. -/
theorem C92_violated_no_target (C : Joint K) (iter : Nat) (w : World (JS K ρ)) :
    (jointScaling C none).run .initialize 0 w = .ok w ∧
    (jointScaling C none).run .endIter iter w = .error .attributeError := by
  simp [jointScaling, jointEnd]

/-- Two fit datasets, one that is not; its multiplier is raised by the median of 2 and 4. -/
example : Due (⟨1, 10, 1 / 10, 2⟩ : Joint ℚ) 4 [1, 20, 1] [2, 2, 4] (.list [1, 1, 1]) ∧
    jointEnd (⟨1, 10, 1 / 10, 2⟩ : Joint ℚ) 4 true [1, 20, 1] [2, 2, 4] (.list [1, 1, 1]) =
      .ok (.array [1 / 5, 3 / 5, 1 / 5]) := by
  constructor
  · norm_num [Due, Mults.vals]
  · norm_num [jointEnd, unfit, fitRatios, median, Mults.vals, List.mergeSort, List.merge,
      List.MergeSort.Internal.splitInTwo]

end Props

end Verif.Directives
