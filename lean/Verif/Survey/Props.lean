import Verif.Survey.Spec
import Verif.Survey.Lemmas

/-! Property theorems C01, C03, C04 and the source index part of C05. -/

namespace Verif.Survey.Props
open Verif Verif.Survey Verif.Survey.Spec

/-- the survey used in the examples: two sources sharing receiver 7, one empty receiver -/
def exSources : List Src :=
  [⟨1, [⟨7, 2⟩, ⟨8, 0⟩], 1⟩, ⟨2, [⟨7, 2⟩, ⟨9, 3⟩], 2⟩]

theorem exSources_wf : WellFormed exSources := by
  constructor
  · decide
  · intro s hs; simp [exSources] at hs; rcases hs with rfl | rfl <;> decide

theorem getAllSlices_eq_offs (l : List Src) (h : WellFormed l) :
    getAllSlices l = offs (pairs l) 0 := by
  have := allSlicesLoop_eq (pairs l) 0 [] (by simpa using keys_nodup l h.1 h.2)
  simpa [getAllSlices] using this

/-- The setters accept exactly the well-formed source lists: the survey constructor
rejects (ValueError) precisely repeated sources, and a source rejects precisely repeated
receivers. -/
theorem C01_constructors_enforce_uniqueness (l : List Src) (s : Src) (rl : List Rx) :
    ((∃ sv, mkSurvey l = .ok sv) ↔ (l.map Src.id).Nodup) ∧
    (mkSurvey l = .error .valueError ↔ ¬ (l.map Src.id).Nodup) ∧
    ((∃ s', setReceiverList s rl = .ok s') ↔ (rl.map Rx.id).Nodup) ∧
    (∀ s', setReceiverList s rl = .ok s' → s'.rxs = rl ∧ s'.id = s.id) := by
  simp only [mkSurvey, setSourceList, setReceiverList]
  rw [← uniqueIds_iff, ← uniqueIds_iff]
  refine ⟨?_, ?_, ?_, ?_⟩ <;> split <;> simp_all

/-- C01: the slices are listed in source-major order, the slice of the `i`-th pair starts
at the number of data before it and has length `rx.nD`. -/
theorem C01_slices_are_consecutive (l : List Src) (h : WellFormed l) :
    (getAllSlices l).length = (order l).length ∧
    ∀ i s r, (order l)[i]? = some (s, r) →
      (getAllSlices l)[i]? = some ((s.id, r.id), (before l i, before l i + r.nD)) := by
  rw [getAllSlices_eq_offs l h]
  refine ⟨offs_length _ _, ?_⟩
  intro i s r hi
  have := offs_getElem? (pairs l) 0 i (s, r) hi
  simpa [key, tot, before, order, pairs] using this

example : (getAllSlices exSources)[3]? = some ((2, 9), (4, 7)) :=
  (C01_slices_are_consecutive exSources exSources_wf).2 3 ⟨2, [⟨7, 2⟩, ⟨9, 3⟩], 2⟩ ⟨9, 3⟩ rfl

/-- C01: every datum index below `nD` lies in the slice of exactly one pair, and no slice
reaches beyond `nD`: the slices partition `[0, nD)`. -/
theorem C01_slices_partition (l : List Src) (h : WellFormed l) :
    (∀ k, k < total l →
      ∃ i : Nat, (∃ e : (Nat × Nat) × (Nat × Nat), (getAllSlices l)[i]? = some e ∧ e.2.1 ≤ k ∧ k < e.2.2) ∧
        ∀ j, (∃ e : (Nat × Nat) × (Nat × Nat), (getAllSlices l)[j]? = some e ∧ e.2.1 ≤ k ∧ k < e.2.2) → j = i) ∧
    (∀ e ∈ getAllSlices l, e.2.1 ≤ e.2.2 ∧ e.2.2 ≤ total l) := by
  rw [getAllSlices_eq_offs l h]
  constructor
  · intro k hk
    exact offs_cover (pairs l) 0 k (Nat.zero_le _) (by simpa [tot, total, order, pairs] using hk)
  · intro e he
    obtain ⟨i, hi, rfl⟩ := List.mem_iff_getElem.1 he
    rw [offs_length] at hi
    have hp : (pairs l)[i]? = some (pairs l)[i] := List.getElem?_eq_getElem hi
    have h2 := offs_getElem? (pairs l) 0 i _ hp
    rw [List.getElem?_eq_getElem (by rw [offs_length]; exact hi)] at h2
    rw [Option.some.inj h2]
    refine ⟨Nat.le_add_right _ _, ?_⟩
    have e1 : pairs l = (pairs l).take i ++ (pairs l)[i] :: (pairs l).drop (i + 1) := by
      rw [List.getElem_cons_drop, List.take_append_drop]
    have e2 : total l = tot ((pairs l).take i) + ((pairs l)[i].2.nD + tot ((pairs l).drop (i + 1))) := by
      have : total l = tot (pairs l) := rfl
      rw [this]
      conv => lhs; rw [e1]
      simp only [tot, List.map_append, List.map_cons, List.sum_append, List.sum_cons]
    simp only; omega

example : ∃ i : Nat, (∃ e : (Nat × Nat) × (Nat × Nat), (getAllSlices exSources)[i]? = some e ∧ e.2.1 ≤ 3 ∧ 3 < e.2.2) :=
  let ⟨i, hi, _⟩ := (C01_slices_partition exSources exSources_wf).1 3 (by decide)
  ⟨i, hi⟩

/-- C01: `get_slice` agrees with `get_all_slices` on every query, raises exactly when the
pair is not in the survey, and then raises `KeyError`. -/
theorem C01_get_slice (l : List Src) (h : WellFormed l) (a b : Nat) :
    (∀ sl, getSlice l a b = .ok sl ↔ dictGet (getAllSlices l) (a, b) = some sl) ∧
    (∀ e, getSlice l a b = .error e → e = .keyError) ∧
    ((∃ sl, getSlice l a b = .ok sl) ↔ Contains l a b) := by
  have hk : dictGet (getAllSlices l) (a, b) = getSliceLoop a b (pairs l) 0 := by
    rw [getAllSlices_eq_offs l h, getSliceLoop_eq]
  have hc : getSliceLoop a b (pairs l) 0 = none ↔ ¬ Contains l a b := by
    rw [getSliceLoop_eq, dictGet_none_iff, offs_keys]
    refine not_congr ?_
    simp only [List.mem_map, key, Prod.mk.injEq, Contains]
    constructor
    · rintro ⟨⟨s, r⟩, hm, h1, h2⟩
      have := (mem_pairs l s r).1 hm
      exact ⟨s, this.1, h1, r, this.2, h2⟩
    · rintro ⟨s, hs, h1, r, hr, h2⟩
      exact ⟨(s, r), (mem_pairs l s r).2 ⟨hs, hr⟩, h1, h2⟩
  rw [hk]
  unfold getSlice
  cases hg : getSliceLoop a b (pairs l) 0 with
  | none => simp [hc.1 hg]
  | some sl =>
    have : Contains l a b := Classical.byContradiction fun hn => by
      rw [hc.2 hn] at hg; cases hg
    simp [this]

example : getSlice exSources 2 7 = .ok (2, 4) ∧ getSlice exSources 1 9 = .error .keyError := by
  decide

/-- `survey.nD` of a freshly constructed survey is the number of data of its sources. -/
theorem C01_fresh_nD (l : List Src) (sv : Survey) (h : mkSurvey l = .ok sv) :
    (readND sv).1 = total l := by
  simp only [mkSurvey, setSourceList] at h
  split at h
  · cases h
    have : total l = tot (pairs l) := rfl
    simp [readND, readVnD, this, tot_pairs]
  · cases h

/-- C03: with receivers returning `nD` values each, the predicted data vector is exactly
the source-major concatenation of the receiver evaluations: it has length `nD`, no NaN
placeholder is left, nothing is overwritten. -/
theorem C03_dpred_is_concatenation {α : Type} (l : List Src) (h : WellFormed l)
    (sv : Survey) (hsv : mkSurvey l = .ok sv)
    (eval : Src → Rx → List α) (hlen : ∀ s ∈ l, ∀ r ∈ s.rxs, (eval s r).length = r.nD) :
    dpred sv eval = .ok (((order l).flatMap fun p => eval p.1 p.2).map some) := by
  have hsrc : sv.sources = l := by
    simp only [mkSurvey, setSourceList] at hsv
    split at hsv <;> cases hsv; rfl
  have hn : (readND sv).1 = tot (pairs l) := C01_fresh_nD l sv hsv
  unfold dpred
  simp only [hn, hsrc, getAllSlices_eq_offs l h]
  have := dpredLoop_eq (offs (pairs l) 0) eval (pairs l) [] (by
    intro i p hp
    have h2 := offs_getElem? (pairs l) 0 i p hp
    have hnd : ((offs (pairs l) 0).map Prod.fst).Nodup := by
      rw [offs_keys]; exact keys_nodup l h.1 h.2
    simpa using dictGet_of_getElem _ hnd i _ _ h2)
    (by
      intro p hp
      have := (mem_pairs l p.1 p.2).1 hp
      exact hlen _ this.1 _ this.2)
  simp only [List.nil_append] at this
  rw [this]
  simp [order, pairs, List.map_flatMap]

/-- C03: pointwise form: the entry at `offset(src, rx) + j` is entry `j` of the receiver's
evaluation, and the vector has length `nD`. -/
theorem C03_dpred_entries {α : Type} (l : List Src) (h : WellFormed l)
    (sv : Survey) (hsv : mkSurvey l = .ok sv)
    (eval : Src → Rx → List α) (hlen : ∀ s ∈ l, ∀ r ∈ s.rxs, (eval s r).length = r.nD) :
    ∃ d, dpred sv eval = .ok d ∧ d.length = total l ∧
      ∀ s r a b, (s, r) ∈ order l → getSlice l s.id r.id = .ok (a, b) →
        readSlice d a b = (eval s r).map some := by
  refine ⟨_, C03_dpred_is_concatenation l h sv hsv eval hlen, ?_, ?_⟩
  · have : ∀ q : List (Src × Rx), (∀ p ∈ q, (eval p.1 p.2).length = p.2.nD) →
        ((q.flatMap fun p => eval p.1 p.2)).length = (q.map fun p => p.2.nD).sum := by
      intro q
      induction q with
      | nil => simp
      | cons p q ih =>
        intro hq
        simp [hq p (by simp), ih (fun p hp => hq p (by simp [hp]))]
    rw [List.length_map, this, total]
    intro p hp
    have := (mem_pairs l p.1 p.2).1 hp
    exact hlen _ this.1 _ this.2
  · intro s r a b hm hs
    obtain ⟨i, hi⟩ := List.mem_iff_getElem?.1 hm
    have h1 := (C01_slices_are_consecutive l h).2 i s r hi
    have hnd : ((getAllSlices l).map Prod.fst).Nodup := by
      rw [getAllSlices_eq_offs l h, offs_keys]; exact keys_nodup l h.1 h.2
    have h2 := dictGet_of_getElem _ hnd i _ _ h1
    have h3 := ((C01_get_slice l h s.id r.id).1 (a, b)).1 hs
    rw [h2] at h3
    have ha : before l i = a := by injection h3 with h3; injection h3
    have hb : a + r.nD = b := by injection h3 with h3; injection h3 with h3 h4; omega
    have hlt : i < (order l).length := by
      rcases Nat.lt_or_ge i (order l).length with hh | hh
      · exact hh
      · rw [List.getElem?_eq_none hh] at hi; cases hi
    have hei : (order l)[i] = (s, r) := by
      rw [List.getElem?_eq_getElem hlt] at hi; exact Option.some.inj hi
    have hsplit : order l = (order l).take i ++ (s, r) :: (order l).drop (i + 1) := by
      rw [← hei, List.getElem_cons_drop, List.take_append_drop]
    have hmem := (mem_pairs l s r).1 hm
    have hl := hlen s hmem.1 r hmem.2
    have hpre : (((order l).take i).flatMap fun p => eval p.1 p.2).length = a := by
      rw [← ha, before]
      have : ∀ q : List (Src × Rx), (∀ p ∈ q, (eval p.1 p.2).length = p.2.nD) →
          ((q.flatMap fun p => eval p.1 p.2)).length = (q.map fun p => p.2.nD).sum := by
        intro q
        induction q with
        | nil => simp
        | cons p q ih =>
          intro hq
          simp [hq p (by simp), ih (fun p hp => hq p (by simp [hp]))]
      apply this
      intro p hp
      have := (mem_pairs l p.1 p.2).1 (List.mem_of_mem_take hp)
      exact hlen _ this.1 _ this.2
    unfold readSlice
    rw [hsplit, List.flatMap_append, List.map_append]
    rw [List.drop_append_of_le_length (by rw [List.length_map]; omega)]
    rw [List.drop_eq_nil_of_le (by rw [List.length_map]; omega), List.nil_append]
    rw [List.flatMap_cons, List.map_append]
    have hl' : (eval (s, r).1 (s, r).2).length = r.nD := hl
    rw [List.take_append_of_le_length (by rw [List.length_map]; omega)]
    exact List.take_of_length_le (by rw [List.length_map]; omega)

example : ∃ sv, mkSurvey exSources = .ok sv ∧
    dpred sv (fun s r => List.replicate r.nD (10 * s.id + r.id))
      = .ok [some 17, some 17, some 27, some 27, some 29, some 29, some 29] := by
  refine ⟨_, rfl, ?_⟩; decide

/-! ### C04: number of data and the source list -/

/-- Operations on a survey relevant for `nD`. -/
inductive Op where
  | setSources (l : List Src)
  | readND
  deriving Repr

/-- One operation; a rejected assignment leaves the survey unchanged, a read returns a
value. -/
def step (s : Survey) : Op → Survey × Option Nat
  | .setSources l =>
    match setSourceList s l with
    | .ok s' => (s', none)
    | .error _ => (s, none)
  | .readND => ((readND s).2, some (readND s).1)

/-- Run a history. -/
def run (s : Survey) : List Op → Survey
  | [] => s
  | o :: os => run (step s o).1 os

/-- C04 fails in the code as written: after reading `nD` once, replacing the sources
leaves `nD` at the old value. -/
theorem C04_nD_is_stale :
    ∃ (sv : Survey) (h : List Op),
      mkSurvey [⟨1, [⟨1, 3⟩], 1⟩] = .ok sv ∧
      (step (run sv h) .readND).2 ≠ some (total (run sv h).sources) := by
  refine ⟨_, [.readND, .setSources [⟨2, [⟨2, 5⟩], 1⟩]], rfl, ?_⟩
  decide

/-- State reached by assignments only (no read). -/
theorem run_no_read (s : Survey) (hs : s.vnDCache = none) (h : List Op)
    (hn : ∀ o ∈ h, ∃ l, o = .setSources l) : (run s h).vnDCache = none := by
  induction h generalizing s with
  | nil => exact hs
  | cons o os ih =>
    obtain ⟨l, rfl⟩ := hn o (by simp)
    simp only [run]
    refine ih _ ?_ (fun o ho => hn o (by simp [ho]))
    simp only [step, setSourceList]
    split <;> first | exact hs | (rename_i hh; split at hh <;> cases hh <;> exact hs)

/-- C04, exact behaviour of the code: in every history, each read of `nD` returns the
number of data of the source list that was in place at the *first* read.  The full
statement (`nD` always equals the number of data of the current source list) therefore
holds precisely as long as the total does not change after the first read; that part is
`C04_nD_matches_partial`. -/
theorem C04_nD_frozen_at_first_read (l : List Src) (sv : Survey) (hsv : mkSurvey l = .ok sv)
    (h1 h2 : List Op) (hno : ∀ o ∈ h1, ∃ l, o = Op.setSources l) :
    (step (run (run sv h1) (.readND :: h2)) .readND).2 = some (total (run sv h1).sources) := by
  have hc : sv.vnDCache = none := by
    simp only [mkSurvey, setSourceList] at hsv
    split at hsv <;> cases hsv; rfl
  have h0 := run_no_read sv hc h1 hno
  generalize run sv h1 = s at h0
  have htot : total s.sources = (s.sources.map Src.nD).sum := by
    rw [← tot_pairs]; rfl
  have key : ∀ (h : List Op) (s' : Survey), s'.vnDCache = some (s.sources.map Src.nD) →
      (run s' h).vnDCache = some (s.sources.map Src.nD) := by
    intro h
    induction h with
    | nil => intro s' h; exact h
    | cons o os ih =>
      intro s' hs'
      refine ih _ ?_
      cases o with
      | setSources l =>
        simp only [step, setSourceList]
        split <;> first | exact hs' | (rename_i hh; split at hh <;> cases hh <;> exact hs')
      | readND => simp [step, readND, readVnD, hs']
  have hk := key h2 (step s .readND).1 (by simp [step, readND, readVnD, h0])
  simp only [run, step, readND, readVnD, hk] at *
  simp [htot]

/-- C04 (partial: the sources are not reassigned after the first read of `nD`; missing:
reassignment after a read, refuted by `C04_nD_is_stale`). -/
theorem C04_nD_matches_partial (l : List Src) (sv : Survey) (hsv : mkSurvey l = .ok sv)
    (h1 h2 : List Op) (hno : ∀ o ∈ h1, ∃ l, o = Op.setSources l)
    (hrd : ∀ o ∈ h2, o = Op.readND) :
    (step (run sv (h1 ++ h2)) .readND).2 = some (total (run sv (h1 ++ h2)).sources) := by
  have hrun : ∀ (a b : List Op) (s : Survey), run s (a ++ b) = run (run s a) b := by
    intro a; induction a with
    | nil => intros; rfl
    | cons o a ih => intros; simp [run, ih]
  have hsame : ∀ (b : List Op) (s : Survey), (∀ o ∈ b, o = Op.readND) →
      (run s b).sources = s.sources := by
    intro b; induction b with
    | nil => intros; rfl
    | cons o a ih =>
      intro s hb
      have := hb o (by simp); subst this
      simp only [run]
      rw [ih _ (fun o ho => hb o (by simp [ho]))]
      simp only [step, readND, readVnD]
      split <;> rfl
  rw [hrun, hsame h2 _ hrd]
  cases h2 with
  | nil =>
    have := C04_nD_frozen_at_first_read l sv hsv h1 [] hno
    simp only [run] at this ⊢
    have h0 := run_no_read sv (by
      simp only [mkSurvey, setSourceList] at hsv
      split at hsv <;> cases hsv; rfl) h1 hno
    simp only [step, readND, readVnD, h0] at this ⊢
    exact this
  | cons o os =>
    have := hrd o (by simp); subst this
    exact C04_nD_frozen_at_first_read l sv hsv h1 os hno

example : ∃ sv, mkSurvey exSources = .ok sv ∧
    (step (run sv ([.setSources [⟨3, [⟨1, 4⟩], 1⟩]] ++ [.readND])) .readND).2 = some 4 := by
  exact ⟨_, rfl, by decide⟩

end Verif.Survey.Props
