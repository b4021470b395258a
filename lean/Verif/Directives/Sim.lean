import Verif.Basic
import Mathlib.Algebra.Order.Field.Basic
import Mathlib.Algebra.Order.Field.Rat
import Mathlib.Data.List.GetD
import Mathlib.Tactic.Ring
import Mathlib.Tactic.Linarith
import Mathlib.Tactic.Positivity
import Mathlib.Tactic.FieldSimp
import Mathlib.Tactic.NormNum

/-! Model of the directives of joint inversions with a similarity measure
(`simpeg/directives/_sim_directives.py`), except `PairedBetaEstimate_ByEig`, which is in
`Estimate.lean`. -/

namespace Verif.Directives
open Verif

variable {K : Type} [Field K] [LinearOrder K] [IsStrictOrderedRing K]

/-! ### Reading the values -/

/-- `_last_obj_vals` after a call of a combination (`objective_function.py` 453-470): the values
of the functions whose multiplier is not zero. -/
def lastVals (mult vals : List K) : List K :=
  ((mult.zip vals).filter fun p => p.1 ≠ 0).map Prod.snd

/-- What `SimilarityMeasureInversionDirective.endIter` (107-119) stores in the inverse problem. -/
structure Shown (K : Type) where
  phiD : List K
  phiM : List K
  phiSim : K
  betas : List K
  lambd : K

/-- `SimilarityMeasureInversionDirective.endIter` (107-119) for misfits with multipliers `dm` and
values `dv`, and regularisations with multipliers `rm` and values `rv`. -/
def simEnd (dm dv rm rv : List K) : Except Err (Shown K) :=
  match (lastVals rm rv).getLast?, rm.getLast? with
  | some s, some l => .ok ⟨lastVals dm dv, (lastVals rm rv).dropLast, s, rm.dropLast, l⟩
  | _, _ => .error .indexError

/-! ### The schedule -/

/-- The settings of `PairedBetaSchedule` (286-291). -/
structure Paired (K : Type) where
  tol : K
  update : Bool
  rate : Nat
  factor : K

/-- The new trade-off parameter of one pair (319-328). -/
def Paired.step (C : Paired K) (phi target beta : K) : K :=
  let ratio := phi / target
  if C.update ∧ ratio ≤ 1 + C.tol then
    beta / (if ratio ≤ 1 then max (3 / 4) ratio else min (3 / 2) ratio)
  else if 1 < ratio then beta / C.factor
  else beta

/-- The loop over the misfits (311-328): by index, so a shorter list of targets or of trade-off
parameters raises; trade-off parameters without a misfit stay. -/
def Paired.loop (C : Paired K) (iter : Nat) : List K → List K → List K → Except Err (List K)
  | [], _, betas => .ok betas
  | _ :: _, [], _ => .error .indexError
  | _ :: _, _ :: _, [] => .error .indexError
  | phi :: phis, t :: ts, b :: bs =>
    match C.loop iter phis ts bs with
    | .error e => .error e
    | .ok r => .ok ((if 0 < iter ∧ iter % C.rate = 0 then C.step phi t b else b) :: r)

/-- `SimilarityMeasureInversionDirective` and `PairedBetaSchedule` at the end of an iteration: the
multipliers of the regularisations after `reg.multipliers[:-1] = betas` (330). `target` (293-304)
is the one computed when it was first read. -/
def jointIter (C : Paired K) (target : List K) (iter : Nat) (dm dv rm rv : List K) :
    Except Err (List K) :=
  match simEnd dm dv rm rv with
  | .error e => .error e
  | .ok s => match C.loop iter s.phiD target s.betas with
    | .error e => .error e
    | .ok b => .ok (b ++ [s.lambd])

/-- `target` (293-304) of `PairedBetaSchedule` and `MovingAndMultiTargetStopping` (347-361) through
a history: the numbers of data and the chi factor at each reading. -/
def targetAfter : Option (List K) → List (List Nat × K) → Option (List K)
  | t, [] => t
  | none, (nD, chi) :: h => targetAfter (some (nD.map fun n => (n : K) * chi)) h
  | some t, _ :: h => targetAfter (some t) h

/-! ### Stopping -/

/-- `MovingAndMultiTargetStopping.endIter` (363-379): whether a stop is asked for. `change` and
`size` are the norms of the last step and of the last model; the quotient is infinite or `nan`
for a model of norm zero. -/
def movingStop (tol betaTol : K) (phiD target : List K) (change size : K) : Bool :=
  if (phiD.zip target).any fun p => decide (betaTol ≤ |1 - p.1 / p.2|) then false
  else if (if size = 0 then decide (change ≠ 0) else decide (tol < change / size)) then false
  else true

/-! ### The saved trade-off parameters -/

/-- The object `invProb.betas` refers to: a list of its own (`reg.multipliers[:-1]` of a Python
list; number `i` of those created), or a view of the array of multipliers. -/
inductive BRef
  | own (i : Nat)
  | view
  deriving DecidableEq

/-- The storage: whether the multipliers are an array, their values without the last, the lists
created so far, the objects appended by the saving directive, and the rows of its file. -/
structure BMem (β : Type) where
  array : Bool
  mult : β
  lists : List β
  saved : List BRef
  file : List β

/-- The value of an object. -/
def BMem.read {β : Type} (s : BMem β) (d : β) : BRef → β
  | .own i => s.lists.getD i d
  | .view => s.mult

/-- One end of iteration with the directives `SimilarityMeasureInversionDirective` (117),
`PairedBetaSchedule` (311-330; `f` is what it does to the trade-off parameters, in place) and
`SimilarityMeasureSaveOutputEveryIteration` (142-165), the last two in either order. -/
def BMem.iter {β : Type} (s : BMem β) (saveLast : Bool) (f : β → β) : BMem β :=
  let ref := if s.array then .view else .own s.lists.length
  let new := f s.mult
  { s with
    mult := new
    lists := if s.array then s.lists else s.lists ++ [new]
    saved := s.saved ++ [ref]
    file := s.file ++ [if saveLast then new else s.mult] }

/-- Several iterations. -/
def BMem.iters {β : Type} (s : BMem β) (saveLast : Bool) : List (β → β) → BMem β
  | [] => s
  | f :: fs => (s.iter saveLast f).iters saveLast fs

/-! ### Loading -/

/-- A word of a line of the file: a number, or something else. -/
inductive Word (K : Type)
  | num (x : K)
  | text (s : String)

/-- A row as written (150-165): the three lists are printed as Python lists of strings, every word
of which contains a quote or a bracket. -/
def simRow (quote : K → String) (iter lambd phiSim cg phi : K) (betas phiD phiM : List K) :
    List (Word K) :=
  let lst (l : List K) : List (Word K) :=
    if l = [] then [.text "[]"] else l.map fun x => .text (quote x)
  [.num iter] ++ lst betas ++ [.num lambd] ++ lst phiD ++ lst phiM ++
    [.num phiSim, .num cg, .num phi]

/-- `np.loadtxt(file_name, comments="#")` (173): every word has to be a number. -/
def loadtxt (rows : List (List (Word K))) : Except Err (List (List K)) :=
  rows.mapM fun r => r.mapM fun w => match w with
    | .num x => .ok x
    | .text _ => .error .valueError

namespace Props

/-! ### C98 -/

theorem lastVals_eq (mult vals : List K) (h : mult.length = vals.length)
    (hm : ∀ x ∈ mult, x ≠ 0) : lastVals mult vals = vals := by
  unfold lastVals
  rw [List.filter_eq_self.mpr]
  · exact List.map_snd_zip (by omega)
  · intro p hp
    simpa using hm p.1 (List.of_mem_zip hp).1

/-- C98 (partial). If no multiplier is zero, the inverse problem shows, after every iteration, the
values of the misfits in their order, those of the regularisations, and that of the coupling.
Missing: functions with multiplier zero, see below. -/
theorem C98_values_partial (dm dv rm rv : List K) (l c : K)
    (hd : dm.length = dv.length) (hr : rm.length = rv.length)
    (hdm : ∀ x ∈ dm, x ≠ 0) (hrm : ∀ x ∈ rm, x ≠ 0) (hl : l ≠ 0) :
    simEnd dm dv (rm ++ [l]) (rv ++ [c]) = .ok ⟨dv, rv, c, rm, l⟩ := by
  have h1 : lastVals (rm ++ [l]) (rv ++ [c]) = rv ++ [c] := by
    apply lastVals_eq
    · simp [hr]
    · intro x hx
      rcases List.mem_append.mp hx with h | h
      · exact hrm x h
      · rw [List.mem_singleton.mp h]; exact hl
  simp [simEnd, h1, lastVals_eq dm dv hd hdm]

/-- C98, violated. With the coupling switched off (multiplier zero), the value of the second
regularisation is shown as that of the coupling; with the first misfit switched off, the value of
the second misfit is shown as that of the first. -/
theorem C98_violated_zero :
    simEnd ([1, 1] : List ℚ) [10, 20] [1, 1, 0] [3, 4, 5] = .ok ⟨[10, 20], [3], 4, [1, 1], 0⟩ ∧
    simEnd ([0, 1] : List ℚ) [10, 20] [1, 1, 1] [3, 4, 5] =
      .ok ⟨[20], [3, 4], 5, [1, 1], 1⟩ := by
  constructor <;> norm_num [simEnd, lastVals]

/-- C98. The schedule for one pair: the trade-off parameter stays positive. If the misfit is above
its target it is lowered, at most by the cooling factor or 3/2, whichever is larger; if the misfit
is at the target it stays; below the target it is raised by at most 4/3 if `update_beta` is set,
and stays if not. -/
theorem C98_schedule (C : Paired K) (htol : 0 ≤ C.tol) (hf : 1 < C.factor) (phi target beta : K)
    (ht : 0 < target) (hphi : 0 ≤ phi) (hb : 0 < beta) :
    0 < C.step phi target beta ∧
    (target < phi → C.step phi target beta < beta ∧
      beta / max C.factor (3 / 2) ≤ C.step phi target beta) ∧
    (phi = target → C.step phi target beta = beta) ∧
    (phi < target → C.update = true →
      beta < C.step phi target beta ∧ C.step phi target beta ≤ 4 / 3 * beta) ∧
    (phi < target → C.update = false → C.step phi target beta = beta) := by
  have hr0 : 0 ≤ phi / target := div_nonneg hphi ht.le
  have r1 : target < phi ↔ 1 < phi / target := by rw [lt_div_iff₀ ht, one_mul]
  have r2 : phi = target ↔ phi / target = 1 := by rw [div_eq_iff ht.ne', one_mul]
  have r3 : phi < target ↔ phi / target < 1 := by rw [div_lt_one ht]
  rw [r1, r2, r3]
  simp only [Paired.step]
  generalize phi / target = r at *
  have hfp : 0 < C.factor := by linarith
  have key : ∀ d : K, 0 < d → (1 < d → beta / d < beta) ∧ (d < 1 → beta < beta / d) ∧
      (∀ e, d ≤ e → beta / e ≤ beta / d) ∧ 0 < beta / d := by
    intro d hd
    refine ⟨fun h => ?_, fun h => ?_, fun e h => ?_, div_pos hb hd⟩
    · rw [div_lt_iff₀ hd]; nlinarith
    · rw [lt_div_iff₀ hd]; nlinarith
    · exact div_le_div_of_nonneg_left hb.le hd h
  have h34 : (0 : K) < max (3 / 4) r := lt_of_lt_of_le (by norm_num) (le_max_left _ _)
  refine ⟨?_, ?_, ?_, ?_, ?_⟩
  · split_ifs with h1 h2 h3
    · exact (key _ h34).2.2.2
    · exact (key _ (lt_min (by norm_num) (by push Not at h2; linarith))).2.2.2
    · exact (key _ hfp).2.2.2
    · exact hb
  · intro hr
    split_ifs with h1 h2
    · exact absurd h2 (not_le.mpr hr)
    · have hm : (1 : K) < min (3 / 2) r := lt_min (by norm_num) hr
      have hm0 : (0 : K) < min (3 / 2) r := by linarith
      exact ⟨(key _ hm0).1 hm,
        (key _ hm0).2.2.1 _ (le_trans (min_le_left _ _) (le_max_right _ _))⟩
    · exact ⟨(key _ hfp).1 hf, (key _ hfp).2.2.1 _ (le_max_left _ _)⟩
  · intro hr
    subst hr
    have h1 : max (3 / 4 : K) 1 = 1 := max_eq_right (by norm_num)
    split_ifs with h2 h3 h4
    · rw [h1, div_one]
    · exact absurd le_rfl h3
    · exact absurd h4 (lt_irrefl _)
    · rfl
  · intro hr hu
    rw [if_pos ⟨hu, by linarith⟩, if_pos hr.le]
    have hm : max (3 / 4) r < (1 : K) := max_lt (by norm_num) hr
    refine ⟨(key _ h34).2.1 hm, ?_⟩
    have := (key (3 / 4) (by norm_num)).2.2.1 (max (3 / 4) r) (le_max_left _ _)
    calc beta / max (3 / 4) r ≤ beta / (3 / 4) := this
      _ = 4 / 3 * beta := by ring
  · intro hr hu
    rw [if_neg (by simp [hu]), if_neg (not_lt.mpr hr.le)]

theorem loop_eq (C : Paired K) (iter : Nat) : ∀ (phis ts bs : List K),
    phis.length = ts.length → phis.length = bs.length →
    C.loop iter phis ts bs = .ok ((phis.zip (ts.zip bs)).map fun p =>
      if 0 < iter ∧ iter % C.rate = 0 then C.step p.1 p.2.1 p.2.2 else p.2.2)
  | [], [], [], _, _ => rfl
  | [], [], _ :: _, _, h => by simp at h
  | [], _ :: _, _, h, _ => by simp at h
  | _ :: _, [], _, h, _ => by simp at h
  | _ :: _, _ :: _, [], _, h => by simp at h
  | phi :: phis, t :: ts, b :: bs, h1, h2 => by
    rw [Paired.loop, loop_eq C iter phis ts bs (by simpa using h1) (by simpa using h2)]
    rfl

/-- C98 (partial). At the end of an iteration each trade-off parameter moves according to its own
misfit and target, and the multiplier of the coupling stays, if there is one regularisation and
one target for each misfit and no multiplier is zero. -/
theorem C98_pairs_partial (C : Paired K) (target dm dv rm rv : List K) (l c : K) (iter : Nat)
    (hd : dm.length = dv.length) (hr : rm.length = rv.length) (hp : dv.length = rm.length)
    (ht : dv.length = target.length)
    (hdm : ∀ x ∈ dm, x ≠ 0) (hrm : ∀ x ∈ rm, x ≠ 0) (hl : l ≠ 0) :
    jointIter C target iter dm dv (rm ++ [l]) (rv ++ [c]) =
      .ok (((dv.zip (target.zip rm)).map fun p =>
        if 0 < iter ∧ iter % C.rate = 0 then C.step p.1 p.2.1 p.2.2 else p.2.2) ++ [l]) := by
  unfold jointIter
  rw [C98_values_partial dm dv rm rv l c hd hr hdm hrm hl]
  simp only [loop_eq C iter dv target rm ht hp]

/-- The multipliers after several iterations; `dv` and `rv` are the values at each of them. -/
def jointRun (C : Paired K) (target dm : List K) : Nat → List (List K × List K) → List K →
    Except Err (List K)
  | _, [], rm => .ok rm
  | iter, (dv, rv) :: h, rm => match jointIter C target iter dm dv rm rv with
    | .error e => .error e
    | .ok rm' => jointRun C target dm (iter + 1) h rm'

/-- C98 (partial). Throughout a run with positive multipliers and targets the trade-off parameters
stay positive and no exception is raised, whatever the misfits are; the multiplier of the coupling
stays as it was. -/
theorem C98_run_partial (C : Paired K) (htol : 0 ≤ C.tol) (hf : 1 < C.factor)
    (target dm : List K) (l : K) (hl : l ≠ 0) (hdm : ∀ x ∈ dm, x ≠ 0)
    (htg : ∀ x ∈ target, 0 < x) (ht : dm.length = target.length) :
    ∀ (h : List (List K × List K)) (iter : Nat) (rm : List K), rm.length = dm.length →
    (∀ x ∈ rm, 0 < x) →
    (∀ p ∈ h, p.1.length = dm.length ∧ (∀ x ∈ p.1, 0 ≤ x) ∧ p.2.length = dm.length + 1) →
    ∃ rm', jointRun C target dm iter h (rm ++ [l]) = .ok (rm' ++ [l]) ∧
      rm'.length = dm.length ∧ ∀ x ∈ rm', 0 < x
  | [], _, rm, hrl, hrm, _ => ⟨rm, rfl, hrl, hrm⟩
  | (dv, rv) :: h, iter, rm, hrl, hrm, hh => by
    obtain ⟨h1, h2, h3⟩ := hh (dv, rv) (by simp)
    simp only at h1 h2 h3
    obtain ⟨rv', c, rfl⟩ : ∃ rv' c, rv = rv' ++ [c] := by
      have hne : rv ≠ [] := by
        rintro rfl; simp at h3
      exact ⟨rv.dropLast, rv.getLast hne, (List.dropLast_append_getLast hne).symm⟩
    have h3' : rv'.length = dm.length := by simpa using h3
    rw [jointRun, C98_pairs_partial C target dm dv rm rv' l c iter (by omega) (by omega) (by omega)
      (by omega) hdm (fun x hx => (hrm x hx).ne') hl]
    simp only
    apply C98_run_partial C htol hf target dm l hl hdm htg ht h (iter + 1)
    · simp; omega
    · intro x hx
      obtain ⟨p, hp, rfl⟩ := List.mem_map.mp hx
      obtain ⟨a, b, d⟩ := p
      have ha := (List.of_mem_zip hp).1
      have hbd := List.of_mem_zip (List.of_mem_zip hp).2
      simp only
      split
      · exact (C98_schedule C htol hf a b d (htg b hbd.1) (h2 a ha) (hrm d hbd.2)).1
      · exact hrm d hbd.2
    · exact fun p hp => hh p (by simp [hp])

example : jointIter (⟨1 / 10, true, 1, 2⟩ : Paired ℚ) [10, 10] 1 [1, 1] [30, 5] [4, 3, 7]
    [1, 1, 1] = .ok [2, 4, 7] := by
  norm_num [jointIter, simEnd, lastVals, Paired.loop, Paired.step]

/-- C98, violated. With the first misfit switched off the trade-off parameter of the first pair is
lowered because of the second misfit, and that of the second pair stays. -/
theorem C98_violated_pairs :
    jointIter (⟨1 / 10, true, 1, 2⟩ : Paired ℚ) [10, 10] 1 [0, 1] [5, 30] [4, 4, 7] [1, 1, 1] =
      .ok [2, 4, 7] := by
  norm_num [jointIter, simEnd, lastVals, Paired.loop, Paired.step]

/-- C98, violated. The targets are those of the first time they were read: chi factors changed
later and the data of later inversions do not count. -/
theorem C98_violated_target (nD : List Nat) (chi : K) (h : List (List Nat × K)) :
    targetAfter none ((nD, chi) :: h) = some (nD.map fun n => (n : K) * chi) := by
  have : ∀ (t : List K) (h : List (List Nat × K)), targetAfter (some t) h = some t := by
    intro t h
    induction h with
    | nil => rfl
    | cons a h ih => exact ih
  exact this _ h

/-- C98 (partial). For positive targets and a last model that is not zero, a stop is asked for
exactly if every misfit is within the tolerance of its target and the relative change of the model
is at most `tol`. Missing: misfits below their targets, see below. -/
theorem C98_stop_iff_partial (tol betaTol : K) (phiD target : List K) (change size : K)
    (hs : 0 < size) :
    movingStop tol betaTol phiD target change size = true ↔
      (∀ p ∈ phiD.zip target, |1 - p.1 / p.2| < betaTol) ∧ change ≤ tol * size := by
  unfold movingStop
  by_cases h : ((phiD.zip target).any fun p => decide (betaTol ≤ |1 - p.1 / p.2|)) = true
  · rw [if_pos h]
    simp only [List.any_eq_true, decide_eq_true_eq] at h
    obtain ⟨p, hp, hle⟩ := h
    simp only [Bool.false_eq_true, false_iff, not_and]
    intro h1
    exact absurd (h1 p hp) (not_lt.mpr hle)
  · rw [if_neg h, if_neg hs.ne']
    have h1 : ∀ p ∈ phiD.zip target, |1 - p.1 / p.2| < betaTol := by
      intro p hp
      by_contra hn
      exact h (List.any_eq_true.mpr ⟨p, hp, by simpa using hn⟩)
    simp only [decide_eq_true_eq]
    rw [← div_le_iff₀ hs]
    split
    · next h2 => simp [not_le.mpr h2]
    · next h2 => simp only [true_iff]; exact ⟨h1, not_lt.mp h2⟩

/-- C98, violated. A misfit below its target by more than the tolerance keeps the inversion from
stopping, although all targets are met and the model does not change. -/
theorem C98_violated_overfit :
    movingStop (1 / 100000 : ℚ) (1 / 10) [50, 95] [100, 100] 0 1 = false ∧
      ∀ p ∈ ([50, 95] : List ℚ).zip [100, 100], p.1 ≤ p.2 := by
  constructor
  · have h : (1 / 10 : ℚ) ≤ |1 - 50 / 100| := by rw [abs_of_nonneg] <;> norm_num
    have : (decide ((1 / 10 : ℚ) ≤ |1 - 50 / 100|)) = true := decide_eq_true h
    simp only [movingStop, List.zip_cons_cons, List.any_cons, this, Bool.true_or, if_true]
  · norm_num

theorem iters_file {β : Type} (d : β) : ∀ (fs : List (β → β)) (s : BMem β), s.array = false →
    s.saved.length = s.file.length → s.lists.length = s.file.length →
    (∀ i, i < s.file.length → s.saved[i]? = some (.own i) ∧ s.lists[i]? = s.file[i]?) →
    let t := s.iters true fs
    t.saved.length = t.file.length ∧
      ∀ i, i < t.file.length → (t.saved[i]?).map (t.read d) = t.file[i]?
  | [], s, _, h1, _, h3 => by
    refine ⟨h1, fun i hi => ?_⟩
    obtain ⟨a, b⟩ := h3 i hi
    simp only [BMem.iters] at hi ⊢
    rw [a]
    simp only [Option.map_some, BMem.read, List.getD_eq_getElem?_getD, b,
      List.getElem?_eq_getElem hi, Option.getD_some]
  | f :: fs, s, ha, h1, h2, h3 => by
    refine iters_file d fs (s.iter true f) (by simp [BMem.iter, ha]) (by simp [BMem.iter, h1])
      (by simp [BMem.iter, ha, h2]) ?_
    intro i hi
    simp only [BMem.iter, ha, Bool.false_eq_true, if_false, if_true, List.length_append,
      List.length_singleton] at hi ⊢
    rcases Nat.lt_or_ge i s.file.length with h | h
    · rw [List.getElem?_append_left (by omega), List.getElem?_append_left (by omega),
        List.getElem?_append_left h]
      exact h3 i h
    · have : i = s.file.length := by omega
      subst this
      constructor
      · rw [← h1, List.getElem?_append_right le_rfl, h1, h2]
        simp
      · rw [List.getElem?_append_right h2.le, List.getElem?_append_right le_rfl, h2]

/-- C98 (partial). If the multipliers are a list and the saving directive comes after the
schedule, the trade-off parameters in memory after a run are those written to the file at each
iteration. -/
theorem C98_saved_partial {β : Type} (d m : β) (fs : List (β → β)) :
    let t := (BMem.mk false m [] [] []).iters true fs
    t.saved.length = t.file.length ∧
      ∀ i, i < t.file.length → (t.saved[i]?).map (t.read d) = t.file[i]? :=
  iters_file d fs _ rfl rfl rfl (by simp)

/-- C98, violated. With multipliers in an array all saved trade-off parameters are those of the
last iteration; with a list and the saving directive before the schedule each one is that of the
next iteration. The file has 8, 4, 2 in both cases. -/
theorem C98_violated_saved :
    (let t := (BMem.mk true 8 [] [] []).iters false [(· / 2), (· / 2), (· / 2)]
     t.saved.map (t.read 0) = [1, 1, 1] ∧ t.file = [8, 4, 2]) ∧
    (let t := (BMem.mk false 8 [] [] []).iters false [(· / 2), (· / 2), (· / 2)]
     t.saved.map (t.read 0) = [4, 2, 1] ∧ t.file = [8, 4, 2]) := by
  decide

theorem mapM_error {α β : Type} (f : α → Except Err β) : ∀ (l : List α) (x : α), x ∈ l →
    (∀ y ∈ l, ∀ e, f y = .error e → e = .valueError) → f x = .error .valueError →
    l.mapM f = .error .valueError
  | a :: l, x, hx, hall, hf => by
    rw [List.mapM_cons]
    cases ha : f a with
    | error e => rw [hall a (by simp) e ha]; rfl
    | ok b =>
      rcases List.mem_cons.mp hx with rfl | hx
      · rw [ha] at hf; cases hf
      · rw [mapM_error f l x hx (fun y hy => hall y (by simp [hy])) hf]
        rfl
  | [], x, hx, _, _ => by simp at hx

/-- C98, violated. A file written during a run cannot be loaded: every row has words that are not
numbers. -/
theorem C98_violated_load (quote : K → String) (rows : List (List (Word K))) (hne : rows ≠ [])
    (hrows : ∀ r ∈ rows, ∃ iter lambd phiSim cg phi betas phiD phiM,
      r = simRow quote iter lambd phiSim cg phi betas phiD phiM) :
    loadtxt rows = .error .valueError := by
  obtain ⟨r, hr⟩ := List.exists_mem_of_ne_nil rows hne
  have hrow : ∀ r ∈ rows, (r.mapM fun w : Word K => match w with
      | .num x => (.ok x : Except Err K)
      | .text _ => .error .valueError) = .error .valueError := by
    intro r hr
    obtain ⟨iter, lambd, phiSim, cg, phi, betas, phiD, phiM, rfl⟩ := hrows r hr
    obtain ⟨s, hs⟩ : ∃ s, Word.text s ∈
        simRow quote iter lambd phiSim cg phi betas phiD phiM := by
      cases betas with
      | nil => exact ⟨"[]", by simp [simRow]⟩
      | cons b bs => exact ⟨quote b, by simp [simRow]⟩
    refine mapM_error _ _ _ hs ?_ rfl
    intro y _ e he
    cases y with
    | num x => cases he
    | text t => cases he; rfl
  unfold loadtxt
  refine mapM_error _ _ r hr ?_ (hrow r hr)
  intro y hy e he
  rw [hrow y hy] at he
  cases he
  rfl

end Props
end Verif.Directives
