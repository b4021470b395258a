import Verif.Basic
import Verif.Maps.Inject
import Verif.Maps.Wires
import Mathlib.Analysis.SpecialFunctions.Log.Basic
import Mathlib.Tactic.Linarith
import Mathlib.Tactic.NormNum

/-!
C188: the maps of spectral induced polarization
(`simpeg/electromagnetics/static/spectral_induced_polarization/run.py`: `spectral_ip_mappings` 13-90 and the beginning of
`run_inversion` 93-126), made of the models of `InjectActiveCells` (C20) and `Wires` (C19).
-/

noncomputable section
namespace Verif.DC.SipMappings
open Verif Verif.Maps

/-- The argument `active_cells`: none, a mask, or indices of cells. -/
inductive Active
  | absent
  | mask (l : List Bool)
  | indices (l : List ℕ)

/-- `active_cells.sum()` (63-65): the number of active cells of a mask, the sum of the indices otherwise. -/
def Active.sum (nC : ℕ) : Active → ℕ
  | .absent => nC
  | .mask l => l.count true
  | .indices l => l.sum

/-- The mask that `InjectActiveCells` keeps (`validate_active_indices`): one entry per cell. -/
def Active.toMask (nC : ℕ) : Active → Except Err (List Bool)
  | .absent => .ok (List.replicate nC true)
  | .mask l => if l.length = nC then .ok l else .error .valueError
  | .indices l => if l.all (· < nC) then .ok ((List.range nC).map fun i => l.contains i) else .error .indexError

/-- One of the maps: the injection, the places in the model, whether the values are logarithms. -/
structure SipMap where
  inject : Inject.InjectObj ℝ
  index : List ℕ
  nP : ℕ
  isLog : Bool

/-- `actmap * ExpMap(nP=actmap.nP) * wires.eta`, or `actmap * wires.eta` (68-88), with the check of the dimensions
(`simpeg/maps/_base.py` 228-237). -/
def compose (o : Inject.InjectObj ℝ) (index : List ℕ) (nP : ℕ) (isLog : Bool) : Except Err SipMap :=
  if o.active.count true = index.length then .ok ⟨o, index, nP, isLog⟩ else .error .valueError

/-- A map applied to a model (`simpeg/maps/_base.py` 239-246, `ExpMap`). -/
def SipMap.apply (s : SipMap) (m : List ℝ) : Except Err (List ℝ) :=
  if m.length = s.nP then
    match Wires.project s.index m with
    | .error e => .error e
    | .ok v => Inject.transform s.inject (if s.isLog then v.map Real.exp else v)
  else .error .valueError

/-- Values for the three parameters chargeability, time constant and frequency dependency. -/
structure Three (α : Type) where
  eta : α
  tau : α
  c : α

/-- The names of the wires are valid names of fields. -/
def validName (s : String) : Bool := s = "eta" ∨ s = "tau" ∨ s = "c"

/-- `spectral_ip_mappings(mesh, active_cells, inactive_*, is_log_*)` (13-90). -/
def mappings (nC : ℕ) (active : Active) (inactive : Three ℝ) (isLog : Three Bool) : Except Err (Three SipMap) := do
  let mask ← active.toMask nC
  let oe ← Inject.mkInject mask (.scalar inactive.eta)
  let ot ← Inject.mkInject mask (.scalar inactive.tau)
  let oc ← Inject.mkInject mask (.scalar inactive.c)
  let s := active.sum nC
  let w ← Wires.mkWires validName [("eta", s), ("tau", s), ("c", s)]
  match w.maps with
  | [(_, ie), (_, it), (_, ic)] => do
    let eta ← compose oe ie w.nP isLog.eta
    let tau ← compose ot it w.nP isLog.tau
    let c ← compose oc ic w.nP isLog.c
    return ⟨eta, tau, c⟩
  | _ => .error .exception

/-- `data_misfit.L2DataMisfit(survey)` (122): the data and the simulation have to be given
(`simpeg/data_misfit.py`, `BaseDataMisfit.__init__`). -/
def misfit (positional : ℕ) : Except Err Unit := if positional < 2 then .error .typeError else .ok ()

/-- `run_inversion` (93-): the first statement, with one argument; `rest` is everything that follows. -/
def runInversion {α : Type} (rest : Unit → Except Err α) : Except Err α :=
  match misfit 1 with
  | .error e => .error e
  | .ok u => rest u

/-! ### Specification -/

/-- The model of a parameter: the values of the active cells, or their logarithms. -/
def coded (isLog : Bool) (v : List ℝ) : List ℝ := if isLog then v.map Real.log else v

namespace Props

theorem coded_length (b : Bool) (v : List ℝ) : (coded b v).length = v.length := by
  unfold coded; cases b <;> simp

theorem coded_exp {b : Bool} {v : List ℝ} (h : b = true → ∀ x ∈ v, 0 < x) :
    (if b then (coded b v).map Real.exp else coded b v) = v := by
  cases b
  · simp [coded]
  · simp only [coded, if_true, List.map_map]
    conv_rhs => rw [← List.map_id v]
    exact List.map_congr_left fun x hx => by simp [Real.exp_log (h rfl x hx)]

/-- Projection on a slice. -/
theorem project_slice {α : Type} (pre mid post : List α) :
    Wires.project (List.range' pre.length mid.length) (pre ++ mid ++ post) = .ok mid := by
  induction mid generalizing pre with
  | nil => rfl
  | cons x mid ih =>
    have h := ih (pre ++ [x])
    simp only [List.length_append, List.length_singleton, List.append_assoc, List.cons_append, List.nil_append] at h
    have e : (pre ++ x :: mid ++ post)[pre.length]? = some x := by simp
    simp only [List.length_cons, List.range'_succ, Wires.project]
    rw [e]
    have e2 : pre ++ x :: mid ++ post = pre ++ (x :: (mid ++ post)) := by simp
    rw [e2, h]

theorem wires_ok (s : ℕ) (hs : 0 < s) :
    Wires.mkWires validName [("eta", (s : Int)), ("tau", s), ("c", s)] =
      .ok ⟨3 * s, [("eta", List.range' 0 s), ("tau", List.range' s s), ("c", List.range' (s + s) s)]⟩ := by
  have key : ∀ start : ℕ, start + s ≤ 3 * s →
      Wires.mkProjection (3 * s) (start : Int) ((start : Int) + s) = .ok (List.range' start s) := by
    intro start h
    rw [Wires.Props.mkProjection_ok_iff]
    have n1 : Wires.norm (start : Int) (3 * s) = start := by rw [Wires.norm, if_neg (by omega)]; omega
    have n2 : Wires.norm ((start : Int) + (s : Int)) (3 * s) = start + s := by
      rw [Wires.norm, if_neg (by omega)]; omega
    exact ⟨by omega, by rw [n1, n2]; congr 1; omega⟩
  have k0 := key 0 (by omega)
  have k1 := key s (by omega)
  have k2 := key (s + s) (by omega)
  push_cast at k0 k2
  unfold Wires.mkWires
  have hn : ([("eta", (s : Int)), ("tau", (s : Int)), ("c", (s : Int))].map Prod.snd).sum = ((3 * s : ℕ) : Int) := by
    simp; omega
  simp only [hn, Int.toNat_natCast]
  rw [if_neg (by omega)]
  simp only [Wires.buildMaps]
  rw [k0]
  simp only [zero_add]
  rw [k1]
  simp only
  rw [k2]
  simp only
  rw [if_pos ⟨by simp [validName], by simp⟩]

theorem inject_ok (mask : List Bool) (x : ℝ) : ∃ o, Inject.mkInject mask (.scalar x) = .ok o ∧ o.active = mask ∧
    ∀ m : List ℝ, m.length = mask.count true →
      Inject.transform o m = .ok (Inject.weave mask m (List.replicate (mask.count false) x)) := by
  obtain ⟨o, ho, hm⟩ := (Inject.Props.C20_value mask (.scalar x)).1 (by simp [Inject.Props.inactiveValues])
  refine ⟨o, ho, ?_, fun m h => (hm m).1 h⟩
  unfold Inject.mkInject at ho
  split at ho
  · cases ho
  · simp only [Except.ok.injEq] at ho; rw [← ho]

/-- **C188, maps**: for a mask with at least one active cell there are three maps. Given the values of chargeability, time
constant and frequency dependency of the active cells, one after the other, each as logarithms if so asked, the maps give
the three properties of all cells: these values at the active cells, in order, and the inactive value elsewhere. Models of
any other length are a ValueError. -/
theorem C188_maps (nC : ℕ) (mask : List Bool) (hl : mask.length = nC) (ha : 0 < mask.count true) (inactive : Three ℝ)
    (isLog : Three Bool) : ∃ maps, mappings nC (.mask mask) inactive isLog = .ok maps ∧
      (∀ eta tau c : List ℝ, eta.length = mask.count true → tau.length = mask.count true → c.length = mask.count true →
        (isLog.eta = true → ∀ x ∈ eta, 0 < x) → (isLog.tau = true → ∀ x ∈ tau, 0 < x) →
        (isLog.c = true → ∀ x ∈ c, 0 < x) →
        let m := coded isLog.eta eta ++ coded isLog.tau tau ++ coded isLog.c c
        maps.eta.apply m = .ok (Inject.weave mask eta (List.replicate (mask.count false) inactive.eta)) ∧
        maps.tau.apply m = .ok (Inject.weave mask tau (List.replicate (mask.count false) inactive.tau)) ∧
        maps.c.apply m = .ok (Inject.weave mask c (List.replicate (mask.count false) inactive.c))) ∧
      ∀ m : List ℝ, m.length ≠ 3 * mask.count true → maps.eta.apply m = .error .valueError ∧
        maps.tau.apply m = .error .valueError ∧ maps.c.apply m = .error .valueError := by
  obtain ⟨oe, he, ae, te⟩ := inject_ok mask inactive.eta
  obtain ⟨ot, ht, at', tt⟩ := inject_ok mask inactive.tau
  obtain ⟨oc, hc, ac, tc⟩ := inject_ok mask inactive.c
  generalize hs : mask.count true = s at *
  refine ⟨⟨⟨oe, List.range' 0 s, 3 * s, isLog.eta⟩, ⟨ot, List.range' s s, 3 * s, isLog.tau⟩,
    ⟨oc, List.range' (s + s) s, 3 * s, isLog.c⟩⟩, ?_, ?_, ?_⟩
  · unfold mappings
    simp only [Active.toMask, if_pos hl, Active.sum, hs]
    have hw := wires_ok s ha
    simp only [bind, Except.bind, he, ht, hc, hw]
    simp only [compose, ae, at', ac, hs, List.length_range', if_true]
    rfl
  · intro eta tau c e1 e2 e3 p1 p2 p3
    simp only
    have l1 : (coded isLog.eta eta).length = s := by rw [coded_length, e1]
    have l2 : (coded isLog.tau tau).length = s := by rw [coded_length, e2]
    have l3 : (coded isLog.c c).length = s := by rw [coded_length, e3]
    have hm : (coded isLog.eta eta ++ coded isLog.tau tau ++ coded isLog.c c).length = 3 * s := by
      simp only [List.length_append, l1, l2, l3]; omega
    refine ⟨?_, ?_, ?_⟩
    · unfold SipMap.apply
      simp only [if_pos hm]
      have := project_slice [] (coded isLog.eta eta) (coded isLog.tau tau ++ coded isLog.c c)
      rw [l1] at this
      simp only [List.length_nil, List.nil_append, ← List.append_assoc] at this
      simp only [this]
      rw [coded_exp p1]
      exact te eta e1
    · unfold SipMap.apply
      simp only [if_pos hm]
      have := project_slice (coded isLog.eta eta) (coded isLog.tau tau) (coded isLog.c c)
      rw [l1, l2] at this
      simp only [this]
      rw [coded_exp p2]
      exact tt tau e2
    · unfold SipMap.apply
      simp only [if_pos hm]
      have := project_slice (coded isLog.eta eta ++ coded isLog.tau tau) (coded isLog.c c) []
      rw [List.length_append, l1, l2, l3, List.append_nil] at this
      simp only [this]
      rw [coded_exp p3]
      exact tc c e3
  · intro m hm
    unfold SipMap.apply
    simp only [if_neg hm]
    exact ⟨trivial, trivial, trivial⟩

/-- Non-vacuity: three cells, the second one inactive. -/
example : 0 < [true, false, true].count true ∧
    Inject.weave [true, false, true] [(1 : ℝ), 2] (List.replicate ([true, false, true].count false) 9) = [1, 9, 2] := by
  constructor
  · decide
  · rfl

/-- **C188, all cells**: without active cells given, the maps are those of a mask with all cells. -/
theorem C188_all (nC : ℕ) (inactive : Three ℝ) (isLog : Three Bool) :
    mappings nC .absent inactive isLog = mappings nC (.mask (List.replicate nC true)) inactive isLog := by
  unfold mappings
  simp [Active.toMask, Active.sum]

/-- **C188, no active cell**: a mask without active cells is a ValueError. -/
theorem C188_none (nC : ℕ) (mask : List Bool) (hl : mask.length = nC) (ha : mask.count true = 0) (inactive : Three ℝ)
    (isLog : Three Bool) : mappings nC (.mask mask) inactive isLog = .error .valueError := by
  obtain ⟨oe, he, -, -⟩ := inject_ok mask inactive.eta
  obtain ⟨ot, ht, -, -⟩ := inject_ok mask inactive.tau
  obtain ⟨oc, hc, -, -⟩ := inject_ok mask inactive.c
  unfold mappings
  simp only [Active.toMask, if_pos hl, Active.sum, ha]
  have hw : Wires.mkWires validName [("eta", ((0 : ℕ) : Int)), ("tau", ((0 : ℕ) : Int)), ("c", ((0 : ℕ) : Int))]
      = .error .valueError := by rfl
  simp only [bind, Except.bind, he, ht, hc, hw]

/-- **C188, violated (indices)**: active cells given by their indices are a ValueError whenever the sum of the indices,
if positive, is not the number of cells. -/
theorem C188_violated_indices (nC : ℕ) (l : List ℕ) (hl : ∀ i ∈ l, i < nC) (h0 : 0 < l.sum)
    (hne : ((List.range nC).map fun i => l.contains i).count true ≠ l.sum) (inactive : Three ℝ) (isLog : Three Bool) :
    mappings nC (.indices l) inactive isLog = .error .valueError := by
  generalize hmask : ((List.range nC).map fun i => l.contains i) = mask at hne
  obtain ⟨oe, he, ae, -⟩ := inject_ok mask inactive.eta
  obtain ⟨ot, ht, -, -⟩ := inject_ok mask inactive.tau
  obtain ⟨oc, hc, -, -⟩ := inject_ok mask inactive.c
  unfold mappings
  have hall : (l.all (· < nC)) = true := by simpa using hl
  simp only [Active.toMask, if_pos hall, Active.sum, hmask]
  have hw := wires_ok l.sum h0
  simp only [bind, Except.bind, he, ht, hc, hw]
  simp only [compose, ae, List.length_range', if_neg hne]

/-- Non-vacuity: the cells one and three of five. -/
example : mappings 5 (.indices [1, 3]) ⟨0, 0, 0⟩ ⟨true, true, true⟩ = .error .valueError :=
  C188_violated_indices 5 [1, 3] (by simp) (by simp) (by decide) _ _

/-- **C188, violated (inversion)**: `run_inversion` fails with a TypeError whatever its arguments are. -/
theorem C188_violated_run {α : Type} (rest : Unit → Except Err α) : runInversion rest = .error .typeError := rfl

end Props
end Verif.DC.SipMappings
