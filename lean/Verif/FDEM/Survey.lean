import Verif.Basic
import Mathlib.Data.List.Sort
import Mathlib.Data.List.Induction
import Mathlib.Data.List.Nodup
import Mathlib.Data.List.Perm.Basic
import Mathlib.Algebra.BigOperators.Group.List.Basic
import Mathlib.Algebra.Order.Field.Rat

/-!
The frequency domain survey (`simpeg/electromagnetics/frequency_domain/survey.py`): grouping of the
sources by frequency, and the loops over frequencies and the sources of a frequency with which the
simulation fills the data vector (`simulation.py` 246-256) and accumulates the adjoint product
(`simulation.py` 301-323).

Simplified: sources are identifiers, their frequencies are rational numbers given by a function; the
data of one source form one block (the slices inside a source are in `Verif/Survey`).
-/

namespace Verif.FDEM

variable {σ α β : Type}

/-- One round of the loop in `Survey.__init__` (`survey.py` 19-22). -/
def addSource (freq : σ → ℚ) (d : List (ℚ × List σ)) (s : σ) : List (ℚ × List σ) :=
  let d := if (dictGet d (freq s)).isNone then dictSet d (freq s) [] else d
  dictSet d (freq s) ((dictGet d (freq s)).getD [] ++ [s])

/-- What a survey holds: `source_list`, `_frequency_dict`, `_frequencies`. -/
structure Survey (σ : Type) where
  sources : List σ
  dict : List (ℚ × List σ)
  freqs : List ℚ

/-- `Survey.__init__` (`survey.py` 15-25). -/
def Survey.build (freq : σ → ℚ) (sources : List σ) : Survey σ :=
  let d := sources.foldl (addSource freq) []
  { sources := sources, dict := d, freqs := (d.map Prod.fst).insertionSort (· ≤ ·) }

/-- The setter of `source_list` (`survey.py` 38-42): nothing else is touched. -/
def Survey.setSources (S : Survey σ) (new : List σ) : Survey σ := { S with sources := new }

/-- `get_sources_by_frequency` (`survey.py` 83-99). -/
def Survey.byFreq (S : Survey σ) (f : ℚ) : Except Err (List σ) :=
  match dictGet S.dict f with
  | none => .error .assertionError
  | some l => .ok l

/-- The sources in the order in which the loops of the simulation meet them:
`for freq in survey.frequencies: for src in survey.get_sources_by_frequency(freq)`
(`simulation.py` 246-247). -/
def Survey.visit (S : Survey σ) : Except Err (List σ) :=
  S.freqs.foldlM (fun acc f => (S.byFreq f).map (acc ++ ·)) []

/-- The assignments `Jv[slice] = …` (`simulation.py` 244-256): the data vector starts as `nan`
(`none`), and every visited source writes its block. -/
def fill (n : Nat) (g : Nat → α) (visited : List Nat) : List (Option α) :=
  visited.foldl (fun acc i => acc.set i (some (g i))) (List.replicate n none)

end Verif.FDEM

namespace Verif.FDEM.Props
open Verif.FDEM

variable {σ α β : Type}

/-! ### Auxiliary facts -/

theorem dictGet_dictSet (d : List (ℚ × α)) (k k' : ℚ) (v : α) :
    dictGet (dictSet d k v) k' = if k = k' then some v else dictGet d k' := by
  induction d with
  | nil => simp [dictSet, dictGet]
  | cons x d ih =>
    obtain ⟨a, b⟩ := x
    by_cases h : a = k
    · subst h
      by_cases h' : a = k' <;> simp [dictSet, dictGet, h']
    · simp only [dictSet, h, if_false, dictGet, ih]
      by_cases h' : a = k'
      · subst h'
        simp [Ne.symm h]
      · simp [h']

theorem keys_dictSet (d : List (ℚ × α)) (k : ℚ) (v : α) :
    (dictSet d k v).map Prod.fst = if k ∈ d.map Prod.fst then d.map Prod.fst
      else d.map Prod.fst ++ [k] := by
  induction d with
  | nil => simp [dictSet]
  | cons x d ih =>
    obtain ⟨a, b⟩ := x
    by_cases h : a = k
    · subst h; simp [dictSet]
    · simp only [dictSet, h, if_false, List.map_cons, ih, List.mem_cons]
      by_cases h2 : k ∈ d.map Prod.fst
      · simp [h2]
      · simp [h2, Ne.symm h]

theorem mem_keys (d : List (ℚ × α)) (k : ℚ) : k ∈ d.map Prod.fst ↔ (dictGet d k).isSome := by
  induction d with
  | nil => simp [dictGet]
  | cons x d ih =>
    obtain ⟨a, b⟩ := x
    by_cases h : a = k
    · subst h; simp [dictGet]
    · simp only [List.map_cons, List.mem_cons, dictGet, h, if_false, ← ih]
      simp [Ne.symm h]

theorem dictGet_addSource (freq : σ → ℚ) (d : List (ℚ × List σ)) (s : σ) (f : ℚ) :
    dictGet (addSource freq d s) f =
      if freq s = f then some ((dictGet d f).getD [] ++ [s]) else dictGet d f := by
  unfold addSource
  by_cases hs : (dictGet d (freq s)).isNone
  · simp only [hs, if_true, dictGet_dictSet]
    by_cases h : freq s = f
    · subst h
      simp [Option.isNone_iff_eq_none.1 hs]
    · simp [h]
  · simp only [hs, dictGet_dictSet]
    by_cases h : freq s = f
    · subst h; simp
    · simp [h]

theorem nodup_addSource (freq : σ → ℚ) (d : List (ℚ × List σ)) (s : σ)
    (h : (d.map Prod.fst).Nodup) : ((addSource freq d s).map Prod.fst).Nodup := by
  have step : ∀ (d : List (ℚ × List σ)) (k : ℚ) (v : List σ), (d.map Prod.fst).Nodup →
      ((dictSet d k v).map Prod.fst).Nodup := by
    intro d k v h
    rw [keys_dictSet]
    by_cases hk : k ∈ d.map Prod.fst
    · simpa [hk] using h
    · simp only [hk, if_false]
      exact List.nodup_append.2 ⟨h, by simp, by
        intro a ha b hb
        have : b = k := by simpa using hb
        subst this
        intro hab; subst hab; exact hk ha⟩
  unfold addSource
  by_cases hs : (dictGet d (freq s)).isNone
  · simp only [hs, if_true]; exact step _ _ _ (step _ _ _ h)
  · simp only [hs]; exact step _ _ _ h

theorem dict_build (freq : σ → ℚ) (sources : List σ) (f : ℚ) :
    dictGet (sources.foldl (addSource freq) []) f =
      if f ∈ sources.map freq then some (sources.filter fun s => freq s = f) else none := by
  induction sources using List.reverseRecOn with
  | nil => simp [dictGet]
  | append_singleton l s ih =>
    rw [List.foldl_append, List.foldl_cons, List.foldl_nil, dictGet_addSource, ih]
    by_cases h : freq s = f
    · subst h
      by_cases h2 : freq s ∈ l.map freq
      · simp only [if_true, if_pos h2, Option.getD_some]
        rw [if_pos (by simp)]
        simp
      · simp only [if_true, if_neg h2, Option.getD_none, List.nil_append]
        rw [if_pos (by simp)]
        have : l.filter (fun t => decide (freq t = freq s)) = [] := by
          rw [List.filter_eq_nil_iff]
          intro t ht hd
          exact h2 (List.mem_map.2 ⟨t, ht, by simpa using hd⟩)
        simp [this]
    · have hm : (f ∈ (l ++ [s]).map freq) ↔ f ∈ l.map freq := by
        simp [Ne.symm h]
      simp only [h, if_false, hm]
      by_cases h2 : f ∈ l.map freq
      · simp [h2, h]
      · simp [h2]

theorem nodup_build (freq : σ → ℚ) (sources : List σ) :
    ((sources.foldl (addSource freq) []).map Prod.fst).Nodup := by
  induction sources using List.reverseRecOn with
  | nil => simp
  | append_singleton l s ih =>
    rw [List.foldl_append, List.foldl_cons, List.foldl_nil]
    exact nodup_addSource freq _ s ih

theorem mem_freqs (freq : σ → ℚ) (sources : List σ) (f : ℚ) :
    f ∈ (Survey.build freq sources).freqs ↔ f ∈ sources.map freq := by
  unfold Survey.build
  simp only [List.mem_insertionSort, mem_keys, dict_build]
  by_cases h : f ∈ sources.map freq <;> simp [h]

theorem nodup_freqs (freq : σ → ℚ) (sources : List σ) : (Survey.build freq sources).freqs.Nodup := by
  unfold Survey.build
  exact ((List.perm_insertionSort _ _).nodup_iff).2 (nodup_build freq sources)

theorem visit_build (freq : σ → ℚ) (sources : List σ) :
    (Survey.build freq sources).visit = .ok ((Survey.build freq sources).freqs.flatMap fun f =>
      sources.filter fun s => freq s = f) := by
  unfold Survey.visit
  have key : ∀ (l : List ℚ) (acc : List σ), (∀ f ∈ l, f ∈ sources.map freq) →
      l.foldlM (fun acc f => ((Survey.build freq sources).byFreq f).map (acc ++ ·)) acc =
        Except.ok (ε := Err) (acc ++ l.flatMap fun f => sources.filter fun s => freq s = f) := by
    intro l
    induction l with
    | nil => intro acc _; simp [pure, Except.pure]
    | cons f l ih =>
      intro acc h
      have hf : (Survey.build freq sources).byFreq f = .ok (sources.filter fun s => freq s = f) := by
        unfold Survey.byFreq Survey.build
        simp only [dict_build, if_pos (h f List.mem_cons_self)]
      rw [List.foldlM_cons, hf]
      change List.foldlM _ (acc ++ _) l = _
      rw [ih _ fun g hg => h g (List.mem_cons_of_mem _ hg)]
      simp
  rw [key _ [] fun f hf => (mem_freqs freq sources f).1 hf]
  simp

theorem perm_groups (freq : σ → ℚ) (sources : List σ) (hn : sources.Nodup) (fs : List ℚ)
    (hf : fs.Nodup) (hm : ∀ s ∈ sources, freq s ∈ fs) :
    (fs.flatMap fun f => sources.filter fun s => freq s = f).Perm sources := by
  refine (List.perm_ext_iff_of_nodup ?_ hn).2 ?_
  · rw [List.nodup_flatMap]
    refine ⟨fun f _ => hn.filter _, ?_⟩
    refine hf.imp ?_
    intro a b hab s hs hs'
    simp only [List.mem_filter, decide_eq_true_eq] at hs hs'
    exact hab (hs.2.symm.trans hs'.2)
  · intro s
    simp only [List.mem_flatMap, List.mem_filter, decide_eq_true_eq]
    constructor
    · rintro ⟨f, _, hs, _⟩; exact hs
    · intro hs; exact ⟨freq s, hm s hs, hs, rfl⟩

theorem fill_get (n : Nat) (g : Nat → α) (visited : List Nat) (i : Nat) (hi : i < n) :
    (fill n g visited)[i]? = some (if i ∈ visited then some (g i) else none) := by
  unfold fill
  induction visited using List.reverseRecOn with
  | nil => simp [hi]
  | append_singleton l j ih =>
    rw [List.foldl_append, List.foldl_cons, List.foldl_nil, List.getElem?_set]
    have hlen : (l.foldl (fun acc i => acc.set i (some (g i))) (List.replicate n none)).length = n := by
      clear ih
      induction l using List.reverseRecOn with
      | nil => simp
      | append_singleton l k ih2 => rw [List.foldl_append]; simp [ih2]
    by_cases h : j = i
    · subst h; simp [hlen, hi]
    · simp [h, ih, Ne.symm h]

theorem fill_length (n : Nat) (g : Nat → α) (visited : List Nat) : (fill n g visited).length = n := by
  unfold fill
  induction visited using List.reverseRecOn with
  | nil => simp
  | append_singleton l k ih2 => rw [List.foldl_append]; simp [ih2]

/-! ### C70 -/

/-- **C70.** A survey as built: the frequencies are those of the sources, strictly increasing, and the
sources of a frequency are exactly those with that frequency, in survey order; any other frequency is
refused. -/
theorem C70_groups (freq : σ → ℚ) (sources : List σ) :
    (Survey.build freq sources).freqs.Pairwise (· < ·) ∧
    (∀ f, f ∈ (Survey.build freq sources).freqs ↔ ∃ s ∈ sources, freq s = f) ∧
    (∀ f ∈ (Survey.build freq sources).freqs,
      (Survey.build freq sources).byFreq f = .ok (sources.filter fun s => freq s = f)) ∧
    ∀ f ∉ (Survey.build freq sources).freqs,
      (Survey.build freq sources).byFreq f = .error .assertionError := by
  refine ⟨?_, ?_, ?_, ?_⟩
  · have h1 : (Survey.build freq sources).freqs.Pairwise (· ≤ ·) := by
      unfold Survey.build
      exact List.pairwise_insertionSort _ _
    have h2 := nodup_freqs freq sources
    exact (h1.and h2).imp fun ⟨a, b⟩ => lt_of_le_of_ne a b
  · intro f; rw [mem_freqs]; simp
  · intro f hf
    unfold Survey.byFreq Survey.build
    simp only [dict_build, if_pos ((mem_freqs freq sources f).1 hf)]
  · intro f hf
    have : f ∉ sources.map freq := fun h => hf ((mem_freqs freq sources f).2 h)
    unfold Survey.byFreq Survey.build
    simp only [dict_build, if_neg this]

/-- **C70.** The loops of the simulation over frequencies and the sources of a frequency meet every
source exactly once. -/
theorem C70_visits (freq : σ → ℚ) (sources : List σ) (hn : sources.Nodup) :
    ∃ l, (Survey.build freq sources).visit = .ok l ∧ l.Perm sources := by
  refine ⟨_, visit_build freq sources, perm_groups freq sources hn _ (nodup_freqs freq sources) ?_⟩
  intro s hs
  exact (mem_freqs freq sources _).2 (List.mem_map.2 ⟨s, hs, rfl⟩)

/-- **C70.** Whatever the frequencies, the data vector is completely filled and in the order of the
source list. -/
theorem C70_data_order (freq : Nat → ℚ) (n : Nat) (g : Nat → α) :
    ∃ l, (Survey.build freq (List.range n)).visit = .ok l ∧
      fill n g l = (List.range n).map fun i => some (g i) := by
  obtain ⟨l, hl, hp⟩ := C70_visits freq (List.range n) List.nodup_range
  refine ⟨l, hl, ?_⟩
  refine List.ext_getElem? fun i => ?_
  by_cases hi : i < n
  · rw [fill_get n g l i hi, if_pos (hp.mem_iff.2 (List.mem_range.2 hi))]
    simp [hi]
  · rw [List.getElem?_eq_none (by rw [fill_length]; omega),
      List.getElem?_eq_none (by simp; omega)]

/-- **C70.** Accumulating one contribution per source in the order of the loops gives the sum over the
source list. -/
theorem C70_sum [AddCommMonoid β] (freq : σ → ℚ) (sources : List σ) (hn : sources.Nodup)
    (c : σ → β) : ∃ l, (Survey.build freq sources).visit = .ok l ∧
      l.foldl (fun acc s => acc + c s) 0 = (sources.map c).sum := by
  obtain ⟨l, hl, hp⟩ := C70_visits freq sources hn
  refine ⟨l, hl, ?_⟩
  rw [← (hp.map c).sum_eq]
  clear hl hp
  induction l using List.reverseRecOn with
  | nil => simp
  | append_singleton l s ih => simp [List.foldl_append, ih]

/-- Non-vacuity: four sources with two frequencies, met as 1, 3, 0, 2. -/
example : (Survey.build (fun i : Nat => if i % 2 = 0 then 10 else 1) [0, 1, 2, 3]).visit =
    .ok [1, 3, 0, 2] ∧ [0, 1, 2, 3].Nodup := by
  decide +kernel

/-- **C70, violated after an assignment to `source_list`.** The groups stay those of the old source
list: the new source is never met, its data stay `nan`, and a source which has been removed is met. -/
theorem C70_source_list_stale :
    ∃ (freq : Nat → ℚ) (S : Survey Nat), S = (Survey.build freq [0]).setSources [1] ∧
      S.sources = [1] ∧ S.visit = .ok [0] := by
  refine ⟨fun _ => 1, _, rfl, rfl, by decide +kernel⟩

/-- **C70, violated after a change of `src.frequency`.** The groups stay those of the old frequency. -/
theorem C70_frequency_stale :
    ∃ (freq new : Nat → ℚ) (sources : List Nat), sources.Nodup ∧
      (Survey.build freq sources).byFreq 1 = .ok [0, 1] ∧
      ¬ (Survey.build freq sources).byFreq 1 = .ok (sources.filter fun s => new s = 1) := by
  refine ⟨fun _ => 1, fun i => if i = 0 then 1 else 2, [0, 1], by decide, by decide +kernel, ?_⟩
  decide +kernel

end Verif.FDEM.Props
