import Verif.Objective.Spec
import Mathlib.Tactic.Ring
import Mathlib.Tactic.Module
import Mathlib.Algebra.Module.LinearMap.Defs

set_option linter.unusedSectionVars false

namespace Verif.Objective
open Verif Spec

variable {K V X : Type}

section
variable [Field K] [DecidableEq K]

mutual
theorem value_eq_total : ∀ (o : Obj K V) (m : V),
    o.value m = total (fun b => b.value m) o
  | .base b, m => by simp [Obj.value, total]
  | .combo u fs ms, m => by simp [Obj.value, total, valueLoop_eq fs ms m 0]
theorem valueLoop_eq : ∀ (fs : List (Obj K V)) (ms : List K) (m : V) (acc : K),
    valueLoop fs ms m acc = acc + totalList (fun b => b.value m) fs ms
  | [], ms, m, acc => by simp [valueLoop, totalList]
  | f :: fs, [], m, acc => by simp [valueLoop, totalList]
  | f :: fs, c :: cs, m, acc => by
    simp only [valueLoop, totalList]
    split
    · next h => rw [valueLoop_eq fs cs, h]; simp
    · rw [valueLoop_eq fs cs, value_eq_total f m]; simp [add_assoc]
end

variable [AddCommGroup V] [Module K V]

theorem accum_getD (g : Option V) (c : K) (x : V) :
    (accum g c x).getD 0 = g.getD 0 + c • x := by
  cases g <;> simp [accum]

mutual
theorem deriv_eq_total : ∀ (o : Obj K V) (m : V),
    (o.deriv m).getD 0 = total (K := K) (fun b => (b.deriv m).getD 0) o
  | .base b, m => by simp [Obj.deriv, total]
  | .combo u fs ms, m => by simp [Obj.deriv, total, derivLoop_eq fs ms m none]
theorem derivLoop_eq : ∀ (fs : List (Obj K V)) (ms : List K) (m : V) (g : Option V),
    (derivLoop fs ms m g).getD 0 =
      g.getD 0 + totalList (fun b => (b.deriv m).getD 0) fs ms
  | [], ms, m, g => by simp [derivLoop, totalList]
  | f :: fs, [], m, g => by simp [derivLoop, totalList]
  | f :: fs, c :: cs, m, g => by
    have hf := deriv_eq_total f m
    simp only [derivLoop, totalList]
    split
    · next h => rw [derivLoop_eq fs cs, h]; simp
    · split
      · next h => rw [derivLoop_eq fs cs, ← hf, h]; simp
      · next h => rw [derivLoop_eq fs cs, ← hf, h, accum_getD]; simp [add_assoc]
end

mutual
theorem deriv2_eq_total : ∀ (o : Obj K V) (m v : V),
    (o.deriv2 m v).getD 0 = total (K := K) (fun b => (b.deriv2 m v).getD 0) o
  | .base b, m, v => by simp [Obj.deriv2, total]
  | .combo u fs ms, m, v => by simp [Obj.deriv2, total, deriv2Loop_eq fs ms m v none]
theorem deriv2Loop_eq : ∀ (fs : List (Obj K V)) (ms : List K) (m v : V) (g : Option V),
    (deriv2Loop fs ms m v g).getD 0 =
      g.getD 0 + totalList (fun b => (b.deriv2 m v).getD 0) fs ms
  | [], ms, m, v, g => by simp [deriv2Loop, totalList]
  | f :: fs, [], m, v, g => by simp [deriv2Loop, totalList]
  | f :: fs, c :: cs, m, v, g => by
    have hf := deriv2_eq_total f m v
    simp only [deriv2Loop, totalList]
    split
    · next h => rw [deriv2Loop_eq fs cs, h]; simp
    · split
      · next h => rw [deriv2Loop_eq fs cs, ← hf, h]; simp
      · next h => rw [deriv2Loop_eq fs cs, ← hf, h, accum_getD]; simp [add_assoc]
end
end

section
variable [Field K] [DecidableEq K] [AddCommGroup X] [Module K X]

theorem totalList_append (base : Base K V → X) :
    ∀ (fa : List (Obj K V)) (ma : List K) (fb : List (Obj K V)) (mb : List K),
    fa.length = ma.length →
    totalList base (fa ++ fb) (ma ++ mb) = totalList base fa ma + totalList base fb mb
  | [], [], fb, mb, _ => by simp [totalList]
  | [], _ :: _, _, _, h => by simp at h
  | _ :: _, [], _, _, h => by simp at h
  | f :: fa, c :: ma, fb, mb, h => by
    simp only [List.length_cons, Nat.add_right_cancel_iff] at h
    simp only [List.cons_append, totalList, totalList_append base fa ma fb mb h, add_assoc]

end

theorem validateMultipliers_num : ∀ (l : List K),
    validateMultipliers (l.map Mult.num) = .ok l
  | [] => rfl
  | c :: l => by simp [validateMultipliers, validateMultipliers_num l]

theorem validateMultipliers_length : ∀ (l : List (Mult K)) (cs : List K),
    validateMultipliers l = .ok cs → cs.length = l.length
  | [], cs, h => by simp [validateMultipliers] at h; simp [← h]
  | .bad :: l, cs, h => by simp [validateMultipliers] at h
  | .num c :: l, cs, h => by
    simp only [validateMultipliers] at h
    split at h
    · cases h
    · next cs' h' =>
      cases h
      simp [validateMultipliers_length l cs' h']

theorem validateMultipliers_ok_iff : ∀ (l : List (Mult K)),
    (∃ cs, validateMultipliers l = .ok cs) ↔ Mult.bad ∉ l
  | [] => by simp [validateMultipliers]
  | .bad :: l => by simp [validateMultipliers]
  | .num c :: l => by
    have ih := validateMultipliers_ok_iff l
    simp only [validateMultipliers, List.mem_cons, reduceCtorEq, false_or]
    rw [← ih]
    constructor
    · rintro ⟨cs, h⟩
      split at h
      · cases h
      · next cs' h' => exact ⟨cs', h'⟩
    · rintro ⟨cs, h⟩
      exact ⟨c :: cs, by rw [h]⟩

theorem sameNP_iff (fs : List (Obj K V)) :
    sameNP fs = true ↔ ∃ n, ∀ f ∈ fs, f.nP = none ∨ f.nP = some n := by
  unfold sameNP
  split
  · next h =>
    simp only [true_iff]
    refine ⟨0, fun f hf => Or.inl ?_⟩
    rw [List.filterMap_eq_nil_iff] at h
    exact h f hf
  · next n ns h =>
    rw [← h]
    simp only [List.all_eq_true, List.mem_filterMap, beq_iff_eq, forall_exists_index, and_imp]
    constructor
    · intro hall
      refine ⟨n, fun f hf => ?_⟩
      cases hn : f.nP with
      | none => exact Or.inl rfl
      | some k => exact Or.inr (by rw [hall k f hf hn])
    · rintro ⟨k, hk⟩ a f hf ha
      have hn : n ∈ fs.filterMap Obj.nP := by rw [h]; simp
      obtain ⟨g, hg, hgn⟩ := List.mem_filterMap.mp hn
      have h1 := hk f hf
      have h2 := hk g hg
      rw [ha] at h1; rw [hgn] at h2
      simp at h1 h2
      omega

theorem nPList_none : ∀ (fs : List (Obj K V)), nPList fs = none → ∀ f ∈ fs, f.nP = none
  | [], _, f, hf => by simp at hf
  | g :: fs, h, f, hf => by
    simp only [nPList] at h
    split at h
    · cases h
    · next hg =>
      rcases List.mem_cons.mp hf with rfl | hf
      · exact hg
      · exact nPList_none fs h f hf

theorem nPList_some : ∀ (fs : List (Obj K V)) (n : Nat), nPList fs = some n →
    ∃ f ∈ fs, f.nP = some n
  | [], n, h => by simp [nPList] at h
  | g :: fs, n, h => by
    simp only [nPList] at h
    split at h
    · next hg => cases h; exact ⟨g, by simp, hg⟩
    · obtain ⟨f, hf, hn⟩ := nPList_some fs n h
      exact ⟨f, by simp [hf], hn⟩

/-- All `nP` of a list compatible with `n`. -/
theorem nPList_compat {fs : List (Obj K V)} {n : Nat}
    (h : ∀ f ∈ fs, f.nP = none ∨ f.nP = some n) :
    nPList fs = none ∨ nPList fs = some n := by
  cases hn : nPList fs with
  | none => exact Or.inl rfl
  | some k =>
    obtain ⟨f, hf, hk⟩ := nPList_some fs k hn
    have := h f hf
    rw [hk] at this
    simpa using this

theorem WFList_iff : ∀ (fs : List (Obj K V)), WFList fs ↔ ∀ f ∈ fs, WF f
  | [] => by simp [WFList]
  | f :: fs => by simp [WFList, WFList_iff fs]

/-- The members of an operand of `+`. -/
theorem unpackOperand_spec [One K] (o : Obj K V) (h : WF o) :
    (unpackOperand o).1.length = (unpackOperand o).2.length ∧
    (∀ f ∈ (unpackOperand o).1, WF f) ∧
    ∀ n, ((o.nP = none ∨ o.nP = some n) ↔
      ∀ f ∈ (unpackOperand o).1, f.nP = none ∨ f.nP = some n) := by
  match o, h with
  | .base b, h => simp [unpackOperand, WF]
  | .combo false fs ms, h => simp [unpackOperand, h]
  | .combo true fs ms, h =>
    simp only [WF] at h
    obtain ⟨h1, ⟨k, hk⟩, h3⟩ := h
    refine ⟨h1, (WFList_iff fs).mp h3, fun n => ⟨fun hn => ?_, fun hn => ?_⟩⟩
    · simp only [unpackOperand]
      simp only [Obj.nP] at hn
      rcases hn with hn | hn
      · intro f hf
        exact Or.inl (nPList_none fs hn f hf)
      · obtain ⟨g, hg, hgn⟩ := nPList_some fs n hn
        have := hk g hg
        rw [hgn] at this
        simp at this
        subst this
        exact hk
    · simp only [Obj.nP]
      exact nPList_compat hn

theorem total_unpack [Field K] [AddCommGroup X] [Module K X] (base : Base K V → X)
    (o : Obj K V) :
    totalList base (unpackOperand o).1 (unpackOperand o).2 = total base o := by
  match o with
  | .base b => simp [unpackOperand, totalList, total]
  | .combo false fs ms => simp [unpackOperand, totalList, total]
  | .combo true fs ms => simp [unpackOperand, total]

theorem mkCombo_ok_iff (u : Bool) (fs : List (Obj K V)) (ms : List (Mult K)) (o : Obj K V) :
    mkCombo u fs ms = .ok o ↔ fs.length = ms.length ∧
      (∃ n, ∀ f ∈ fs, f.nP = none ∨ f.nP = some n) ∧
      ∃ cs, validateMultipliers ms = .ok cs ∧ o = .combo u fs cs := by
  unfold mkCombo
  rw [← sameNP_iff]
  split
  · next h => simp [h]
  · next h =>
    split
    · next h' => simp at h'; simp [h']
    · next h' =>
      simp only [Bool.not_eq_true, Bool.not_eq_false'] at h'
      simp only [ne_eq, not_not] at h
      split
      · next e he => simp [he]
      · next cs hc =>
        simp only [Except.ok.injEq, h, h', hc, true_and]
        constructor
        · intro e; exact ⟨cs, rfl, e.symm⟩
        · rintro ⟨cs', e1, e2⟩; rw [e2, e1]

theorem add_ok_iff [One K] (a b o : Obj K V) (ha : WF a) (hb : WF b) :
    add a b = .ok o ↔
      (∃ n, (a.nP = none ∨ a.nP = some n) ∧ (b.nP = none ∨ b.nP = some n)) ∧
      o = .combo true ((unpackOperand a).1 ++ (unpackOperand b).1)
        ((unpackOperand a).2 ++ (unpackOperand b).2) := by
  obtain ⟨la, _, na⟩ := unpackOperand_spec a ha
  obtain ⟨lb, _, nb⟩ := unpackOperand_spec b hb
  unfold add
  simp only [mkCombo_ok_iff, validateMultipliers_num, List.length_append, List.length_map, la, lb,
    true_and, Except.ok.injEq]
  constructor
  · rintro ⟨⟨n, h⟩, cs, rfl, rfl⟩
    refine ⟨⟨n, ?_, ?_⟩, rfl⟩
    · exact (na n).mpr fun f hf => h f (by simp [hf])
    · exact (nb n).mpr fun f hf => h f (by simp [hf])
  · rintro ⟨⟨n, h1, h2⟩, rfl⟩
    refine ⟨⟨n, fun f hf => ?_⟩, _, rfl, rfl⟩
    rcases List.mem_append.mp hf with hf | hf
    · exact (na n).mp h1 f hf
    · exact (nb n).mp h2 f hf

theorem add_wf [One K] (a b o : Obj K V) (ha : WF a) (hb : WF b) (h : add a b = .ok o) :
    WF o ∧ ∀ n, ((o.nP = none ∨ o.nP = some n) ↔
      (a.nP = none ∨ a.nP = some n) ∧ (b.nP = none ∨ b.nP = some n)) := by
  obtain ⟨la, wa, na⟩ := unpackOperand_spec a ha
  obtain ⟨lb, wb, nb⟩ := unpackOperand_spec b hb
  obtain ⟨⟨n, h1, h2⟩, rfl⟩ := (add_ok_iff a b o ha hb).mp h
  have hn : ∀ f ∈ (unpackOperand a).1 ++ (unpackOperand b).1, f.nP = none ∨ f.nP = some n := by
    intro f hf
    rcases List.mem_append.mp hf with hf | hf
    · exact (na n).mp h1 f hf
    · exact (nb n).mp h2 f hf
  have hw : WF (.combo true ((unpackOperand a).1 ++ (unpackOperand b).1)
        ((unpackOperand a).2 ++ (unpackOperand b).2)) := by
    refine ⟨by simp [la, lb], ⟨n, hn⟩, ?_⟩
    rw [WFList_iff]
    intro f hf
    rcases List.mem_append.mp hf with hf | hf
    · exact wa f hf
    · exact wb f hf
  refine ⟨hw, fun k => ?_⟩
  have hu := (unpackOperand_spec _ hw).2.2 k
  rw [hu]
  rw [na k, nb k]
  simp only [unpackOperand, List.mem_append]
  constructor
  · intro hh
    exact ⟨fun f hf => hh f (Or.inl hf), fun f hf => hh f (Or.inr hf)⟩
  · rintro ⟨h1, h2⟩ f (hf | hf)
    · exact h1 f hf
    · exact h2 f hf

theorem mul_ok_iff (a o : Obj K V) (c : Mult K) :
    mul a c = .ok o ↔ ∃ k, c = .num k ∧ o = .combo true [a] [k] := by
  unfold mul
  rw [mkCombo_ok_iff]
  cases c with
  | bad => simp [validateMultipliers]
  | num k =>
    simp only [List.length_cons, List.length_nil, true_and, validateMultipliers,
      List.mem_singleton, forall_eq, Except.ok.injEq, Mult.num.injEq]
    constructor
    · rintro ⟨_, cs, rfl, rfl⟩; exact ⟨k, rfl, rfl⟩
    · rintro ⟨k', rfl, rfl⟩
      refine ⟨?_, [k], rfl, rfl⟩
      cases h : a.nP with
      | none => exact ⟨0, Or.inl rfl⟩
      | some n => exact ⟨n, Or.inr rfl⟩

theorem mul_wf (a : Obj K V) (k : K) (ha : WF a) :
    WF (.combo true [a] [k]) ∧ (Obj.combo true [a] [k]).nP = a.nP := by
  constructor
  · simp only [WF, List.length_cons, List.length_nil, List.mem_singleton, forall_eq, WFList,
      true_and, and_true, ha]
    cases h : a.nP with
    | none => exact ⟨0, Or.inl rfl⟩
    | some n => exact ⟨n, Or.inr rfl⟩
  · simp only [Obj.nP, nPList]
    cases a.nP <;> rfl

end Verif.Objective
