import Verif.Basic
import Mathlib.Data.List.Forall2

/-! Model of `check_stoppers` (`simpeg/utils/code_utils.py` 270-302), with C23. -/

namespace Verif.Optim

/-- The `stopType` of a stopper; any other string is ignored by `check_stoppers`. -/
inductive StopType | optimal | critical | other
  deriving DecidableEq, Repr

/-- A stopper after evaluation: its type, and whether `left <= right`. -/
abbrev Stopper := StopType × Bool

/-- Lines 286-294: the loop that fills the lists `optimal` and `critical`. -/
def collect : List Stopper → List Bool → List Bool → List Bool × List Bool
  | [], o, c => (o, c)
  | (t, b) :: l, o, c =>
    let o' := if t = .optimal then o ++ [b] else o
    let c' := if t = .critical then c ++ [b] else c
    collect l o' c'

/-- `check_stoppers` (286-302). -/
def checkStoppers (l : List Stopper) : Bool :=
  let (o, c) := collect l [] []
  (decide (o.length > 0) && o.all id) || (decide (c.length > 0) && c.any id)

namespace Props

theorem collect_eq (l : List Stopper) : ∀ o c, collect l o c
    = (o ++ (l.filter (fun s => s.1 = .optimal)).map Prod.snd,
       c ++ (l.filter (fun s => s.1 = .critical)).map Prod.snd) := by
  induction l with
  | nil => intro o c; simp [collect]
  | cons s l ih =>
    intro o c
    obtain ⟨t, b⟩ := s
    cases t <;> simp [collect, ih]

/-- C23. The decision: stop exactly when there is an 'optimal' condition and all of them
hold, or some 'critical' condition holds. -/
theorem C23_decision (l : List Stopper) :
    checkStoppers l = true ↔
      ((∃ b, (StopType.optimal, b) ∈ l) ∧ ∀ b, (StopType.optimal, b) ∈ l → b = true) ∨
      (StopType.critical, true) ∈ l := by
  simp only [checkStoppers, collect_eq, List.nil_append, Bool.or_eq_true, Bool.and_eq_true,
    decide_eq_true_eq, List.all_eq_true, List.any_eq_true, id]
  constructor
  · rintro (⟨h1, h2⟩ | ⟨-, b, hb, rfl⟩)
    · left
      constructor
      · obtain ⟨b, hb⟩ := List.exists_mem_of_length_pos h1
        simp only [List.mem_map, List.mem_filter, decide_eq_true_eq] at hb
        obtain ⟨⟨t, c⟩, ⟨hm, ht⟩, rfl⟩ := hb
        simp only at ht; subst ht
        exact ⟨c, hm⟩
      · intro b hb
        exact h2 b (by
          simp only [List.mem_map, List.mem_filter, decide_eq_true_eq]
          exact ⟨_, ⟨hb, rfl⟩, rfl⟩)
    · right
      simp only [List.mem_map, List.mem_filter, decide_eq_true_eq] at hb
      obtain ⟨⟨t, c⟩, ⟨hm, ht⟩, hc⟩ := hb
      simp only at ht hc; subst ht; subst hc
      exact hm
  · rintro (⟨⟨b, hb⟩, h⟩ | h)
    · left
      have hmem : b ∈ (l.filter (fun s => s.1 = .optimal)).map Prod.snd := by
        simp only [List.mem_map, List.mem_filter, decide_eq_true_eq]
        exact ⟨_, ⟨hb, rfl⟩, rfl⟩
      refine ⟨List.length_pos_of_mem hmem, ?_⟩
      intro c hc
      simp only [List.mem_map, List.mem_filter, decide_eq_true_eq] at hc
      obtain ⟨⟨t, d⟩, ⟨hm, ht⟩, rfl⟩ := hc
      simp only at ht; subst ht
      exact h d hm
    · right
      have hmem : true ∈ (l.filter (fun s => s.1 = .critical)).map Prod.snd := by
        simp only [List.mem_map, List.mem_filter, decide_eq_true_eq]
        exact ⟨_, ⟨h, rfl⟩, rfl⟩
      exact ⟨List.length_pos_of_mem hmem, true, hmem, rfl⟩

/-- C23. With no optimal and no critical stoppers it never stops. -/
theorem C23_no_stoppers (l : List Stopper) (h : ∀ s ∈ l, s.1 = .other) :
    checkStoppers l = false := by
  rw [Bool.eq_false_iff, ne_eq, C23_decision]
  rintro (⟨⟨b, hb⟩, -⟩ | hb)
  · exact StopType.noConfusion (h _ hb)
  · exact StopType.noConfusion (h _ hb)

/-- C23. Monotone: if some conditions become true and none becomes false (types unchanged), a
stop remains a stop. -/
theorem C23_monotone (l l' : List Stopper)
    (h : List.Forall₂ (fun s s' => s'.1 = s.1 ∧ (s.2 = true → s'.2 = true)) l l')
    (hs : checkStoppers l = true) : checkStoppers l' = true := by
  rw [C23_decision] at hs ⊢
  have fwd : ∀ s ∈ l, ∃ s' ∈ l', s'.1 = s.1 ∧ (s.2 = true → s'.2 = true) := by
    clear hs
    induction h with
    | nil => intro s hs; simp at hs
    | cons hab _ ih =>
      intro s hs
      simp only [List.mem_cons] at hs
      rcases hs with rfl | hs
      · exact ⟨_, by simp, hab⟩
      · obtain ⟨s', h1, h2⟩ := ih s hs; exact ⟨s', by simp [h1], h2⟩
  have bwd : ∀ s' ∈ l', ∃ s ∈ l, s'.1 = s.1 ∧ (s.2 = true → s'.2 = true) := by
    clear hs fwd
    induction h with
    | nil => intro s hs; simp at hs
    | cons hab _ ih =>
      intro s hs
      simp only [List.mem_cons] at hs
      rcases hs with rfl | hs
      · exact ⟨_, by simp, hab⟩
      · obtain ⟨s', h1, h2⟩ := ih s hs; exact ⟨s', by simp [h1], h2⟩
  rcases hs with ⟨⟨b, hb⟩, hall⟩ | hc
  · left
    obtain ⟨⟨t, c⟩, hm, ht, -⟩ := fwd _ hb
    simp only at ht; subst ht
    refine ⟨⟨c, hm⟩, fun d hd => ?_⟩
    obtain ⟨⟨t, e⟩, hm', ht', hi⟩ := bwd _ hd
    simp only at ht' hi; subst ht'
    exact hi (hall e hm')
  · right
    obtain ⟨⟨t, c⟩, hm, ht, hi⟩ := fwd _ hc
    simp only at ht hi; subst ht
    have := hi trivial
    subst this
    exact hm

example : checkStoppers [(.optimal, true), (.optimal, false), (.critical, false)] = false := rfl
example : checkStoppers [(.optimal, true), (.optimal, false), (.critical, true)] = true := rfl
example : checkStoppers [(.optimal, true), (.critical, false)] = true := rfl

end Props
end Verif.Optim
