import Verif.Fields.Lemmas

/-! Property theorems for C05 (field storage and source indices). -/

namespace Verif.Fields.Props
open Verif Verif.Survey Verif.Fields

variable {α : Type}

/-- Number of field columns in front of the `i`-th source. -/
def columnsBefore (l : List Src) (i : Nat) : Nat := ((l.take i).map Src.nFields).sum

/-- C05: the column indices of a source are the consecutive block after the columns of the
preceding sources; an unknown source raises KeyError. -/
theorem C05_source_indices (l : List Src) (hn : (l.map Src.id).Nodup) :
    (∀ i s, l[i]? = some s →
      getSourceIndices l [s.id] =
        .ok ((List.range s.nFields).map (columnsBefore l i + ·))) ∧
    (∀ q, q ∉ l.map Src.id → getSourceIndices l [q] = .error .keyError) := by
  constructor
  · intro i s hi
    have h1 := blocks_getElem? l 0 i s hi
    have hk : ((blocks l 0).map Prod.fst).Nodup := by rw [blocks_keys]; exact hn
    have h2 := dictGet_of_getElem _ hk i _ _ h1
    simp only [getSourceIndices, sourceOrder_eq l hn, h2]
    simp [columnsBefore, nFieldsTotal]
  · intro q hq
    have : dictGet (sourceOrder l) q = none := by
      rw [sourceOrder_eq l hn, dictGet_none_iff, blocks_keys]; exact hq
    simp [getSourceIndices, this]

/-- C05: different sources never share a column, and the columns of all sources are exactly
`[0, number of field columns)`. -/
theorem C05_source_columns_partition (l : List Src) (hn : (l.map Src.id).Nodup) :
    (∀ s1 ∈ l, ∀ s2 ∈ l, s1.id ≠ s2.id → ∀ i1 i2,
      getSourceIndices l [s1.id] = .ok i1 → getSourceIndices l [s2.id] = .ok i2 →
      ∀ c ∈ i1, c ∉ i2) ∧
    (∀ c, c < (l.map Src.nFields).sum ↔
      ∃ s ∈ l, ∃ ind, getSourceIndices l [s.id] = .ok ind ∧ c ∈ ind) := by
  constructor
  · intro s1 h1 s2 h2 hne i1 i2 hi1 hi2 c hc
    simp only [getSourceIndices] at hi1 hi2
    cases hg1 : dictGet (sourceOrder l) s1.id with
    | none => simp [hg1] at hi1
    | some v1 =>
      cases hg2 : dictGet (sourceOrder l) s2.id with
      | none => simp [hg2] at hi2
      | some v2 =>
        simp [hg1] at hi1; simp [hg2] at hi2
        subst hi1 hi2
        have m1 := dictGet_mem _ _ _ hg1
        have m2 := dictGet_mem _ _ _ hg2
        rw [sourceOrder_eq l hn] at m1 m2
        exact blocks_disjoint l 0 hn _ _ _ _ m1 m2 hne c hc
  · intro c
    constructor
    · intro hc
      have key : ∀ (l : List Src) (c : Nat), c < (l.map Src.nFields).sum →
          ∃ (i : Nat) (s : Src), l[i]? = some s ∧ ((l.take i).map Src.nFields).sum ≤ c ∧
            c < ((l.take i).map Src.nFields).sum + s.nFields := by
        intro l
        induction l with
        | nil => intro c hc; simp at hc
        | cons s l ih =>
          intro c hc
          by_cases h : c < s.nFields
          · exact ⟨0, s, by simp, by simp, by simpa using h⟩
          · obtain ⟨i, s', h1, h2, h3⟩ := ih (c - s.nFields) (by
              simp only [List.map_cons, List.sum_cons] at hc; omega)
            refine ⟨i + 1, s', by simpa using h1, ?_, ?_⟩ <;>
              simp only [List.take_succ_cons, List.map_cons, List.sum_cons] <;> omega
      obtain ⟨i, s, hi, h1, h2⟩ := key l c hc
      refine ⟨s, List.mem_of_getElem? hi, _, (C05_source_indices l hn).1 i s hi, ?_⟩
      simp only [List.mem_map, List.mem_range, columnsBefore]
      exact ⟨c - ((l.take i).map Src.nFields).sum, by omega, by omega⟩
    · rintro ⟨s, _, ind, hi, hc⟩
      exact (getSourceIndices_bound l hn _ _ hi).1 c hc

/-- One assignment statement `f[srcs, name] = val` (with its effect, raised or not). -/
structure Assign (α : Type) where
  srcs : SrcKey
  name : Nat
  val : List (List α)

/-- Run a history of assignment statements. -/
def runAssigns [Zero α] (e : Env α) : Store α → List (Assign α) → Store α
  | st, [] => st
  | st, a :: as => runAssigns e (setEffect e st a.srcs a.name a.val) as

theorem Inv_run [Zero α] (e : Env α) (st : Store α) (h : Inv e st) (as : List (Assign α)) :
    Inv e (runAssigns e st as) := by
  induction as generalizing st with
  | nil => exact h
  | cons a as ih => exact ih _ (Inv_setEffect e st h _ _ _)

/-- C05: last write wins.  Start from an empty container, run any history (valid and
invalid assignments), assign a correctly shaped value to distinct sources, then run any
further history that does not touch the columns of these sources in this field: reading
returns exactly the assigned columns. -/
theorem C05_last_write_wins [Zero α] (e : Env α) (hn : (e.sources.map Src.id).Nodup)
    (st0 : Store α) (h0 : init e = .ok st0)
    (before after : List (Assign α)) (k : SrcKey) (name nP : Nat) (ind : List Nat)
    (val : List (List α))
    (hknown : dictGet e.known name = some nP)
    (hind : srcIndex e k = .ok ind)
    (hdistinct : ∀ ids, k = .list ids → ids.Nodup)
    (hrows : ∀ c ∈ val, c.length = nP) (hcols : val.length = ind.length)
    (hone : (e.sources.map Src.nFields).sum = 1 → val.length = 1)
    (hafter : ∀ a ∈ after, a.name ≠ name ∨
      ∀ ind', srcIndex e a.srcs = .ok ind' → ∀ c ∈ ind, c ∉ ind') :
    getItem e (runAssigns e (setEffect e (runAssigns e st0 before) k name val) after) k name
      = .ok val := by
  have hst0 : Inv e st0 := by
    simp only [init] at h0
    split at h0 <;> cases h0
    intro n m h; simp [dictGet] at h
  have hi := Inv_run e st0 hst0 before
  generalize runAssigns e st0 before = st at hi
  have hlen := initStore_length e st name nP hi
  have hnd : ind.Nodup := by
    cases k with
    | all => simp [srcIndex] at hind; subst hind; exact List.nodup_range
    | list ids => exact getSourceIndices_nodup _ hn ids ind (hdistinct ids rfl) hind
  have hb := srcIndex_bound e hn k ind hind
  have hset : setEffect e st k name val =
      dictSet st name (writeCols (initStore e st name nP) ind val) := by
    have hc : setCols nP (initStore e st name nP) ind val
        = .ok (writeCols (initStore e st name nP) ind val) := by
      unfold setCols
      rw [if_neg (by simpa using hrows), if_neg, if_pos hcols]
      rintro ⟨h1, h2⟩
      rw [hlen] at h1
      exact h2 (hone h1)
    simp [setEffect, setItem, hknown, hind, hc]
  have hread : ∀ (as : List (Assign α)) (st' : Store α),
      (∀ a ∈ as, a.name ≠ name ∨ ∀ ind', srcIndex e a.srcs = .ok ind' → ∀ c ∈ ind, c ∉ ind') →
      (∃ m, dictGet st' name = some m ∧ readCols m ind = val) →
      ∃ m, dictGet (runAssigns e st' as) name = some m ∧ readCols m ind = val := by
    intro as
    induction as with
    | nil => intro st' _ h; exact h
    | cons a as ih =>
      rintro st' ha ⟨m, hm, hr⟩
      simp only [runAssigns]
      refine ih _ (fun a' ha' => ha a' (by simp [ha'])) ?_
      have hcell := fun c (hc : c ∈ ind) =>
        setEffect_cell e st' a.srcs a.name a.val name m hm c (by
          rcases ha a (by simp) with h | h
          · exact Or.inl (Ne.symm h)
          · exact Or.inr (fun ind' hi' => h ind' hi' c hc))
      rcases setEffect_cases e st' a.srcs a.name a.val with h | ⟨_, _, _, _, _⟩
      · rw [h]; exact ⟨m, hm, hr⟩
      · by_cases hne : ind = []
        · subst hne
          obtain ⟨m', hm', _⟩ : ∃ m', dictGet (setEffect e st' a.srcs a.name a.val) name = some m' ∧ True := by
            by_cases hnn : name = a.name
            · rename_i h
              rcases h with ⟨w, _, h⟩ | h <;> rw [h, ← hnn, dictGet_dictSet_self] <;> exact ⟨_, rfl, trivial⟩
            · rename_i h
              rcases h with ⟨w, _, h⟩ | h <;> rw [h, dictGet_dictSet_ne _ _ _ _ hnn] <;> exact ⟨m, hm, trivial⟩
          exact ⟨m', hm', by rw [← hr]; rfl⟩
        · obtain ⟨c0, hc0⟩ := List.exists_mem_of_ne_nil ind hne
          obtain ⟨m', hm', _⟩ := hcell c0 hc0
          refine ⟨m', hm', ?_⟩
          rw [← hr]
          apply readCols_congr
          intro c hc
          obtain ⟨m'', hm'', he⟩ := hcell c hc
          rw [hm'] at hm''; cases hm''; exact he
  obtain ⟨m, hm, hr⟩ := hread after (setEffect e st k name val) hafter
    ⟨_, by rw [hset, dictGet_dictSet_self], readCols_writeCols _ _ _ hnd
      (by rw [hlen]; exact hb) hcols⟩
  simp [getItem, hknown, hind, hm, hr]

/-- C05: once a field has been stored for some source, columns never written read as zero
columns; a known field that was never stored for any source raises KeyError when read. -/
theorem C05_unwritten_columns [Zero α] (e : Env α) (hn : (e.sources.map Src.id).Nodup)
    (st0 : Store α) (h0 : init e = .ok st0) (k k2 : SrcKey) (name nP : Nat)
    (ind ind2 : List Nat) (val : List (List α))
    (hknown : dictGet e.known name = some nP)
    (hind : srcIndex e k = .ok ind) (hind2 : srcIndex e k2 = .ok ind2)
    (hdisj : ∀ c ∈ ind2, c ∉ ind) :
    getItem e st0 k2 name = .error .keyError ∧
    getItem e (setEffect e st0 k name val) k2 name
      = .ok (List.replicate ind2.length (List.replicate nP 0)) := by
  have hover : dictGet e.alias name = none := by
    simp only [init] at h0
    split at h0
    · cases h0
    · rename_i h
      have hm := dictGet_mem _ _ _ hknown
      simp only [List.any_eq_true, not_exists, not_and] at h
      have := h _ hm
      simpa using this
  have hst0 : st0 = [] := by
    simp only [init] at h0
    split at h0 <;> cases h0; rfl
  subst hst0
  refine ⟨by simp [getItem, hknown, hind2, dictGet, hover], ?_⟩
  have hb2 := srcIndex_bound e hn k2 ind2 hind2
  have hz : ∀ m : List (List α),
      (∀ c ∈ ind2, m[c]? = (List.replicate (nFieldsTotal e.sources) (List.replicate nP (0 : α)))[c]?) →
      readCols m ind2 = List.replicate ind2.length (List.replicate nP 0) := by
    intro m hm
    rw [readCols_congr m _ ind2 hm]
    clear hm hind2 hdisj
    induction ind2 with
    | nil => rfl
    | cons c cs ih =>
      have hc := hb2 c (by simp)
      have ih' := ih (fun c hc => hb2 c (by simp [hc]))
      simp only [readCols] at ih' ⊢
      rw [List.filterMap_cons, List.getElem?_replicate, if_pos hc]
      simp only [ih', List.length_cons, List.replicate_succ]
  rcases setEffect_cases e [] k name val with h | ⟨nP', ind', hk', hs', h⟩
  · exfalso
    unfold setEffect setItem at h
    simp only [hknown, hind] at h
    split at h
    · rename_i hh
      split at hh
      · cases hh
      · cases hh
        simp [dictSet] at h
    · simp [dictSet] at h
  · rw [hknown] at hk'; cases hk'
    rw [hind] at hs'; cases hs'
    have hi0 : initStore e ([] : Store α) name nP =
        List.replicate (nFieldsTotal e.sources) (List.replicate nP 0) := by
      simp [initStore, dictGet]
    rcases h with ⟨w, hw, h⟩ | h
    · rw [h]
      simp only [getItem, hknown, hind2, dictGet_dictSet_self]
      simp only [Option.isNone_some, Bool.false_and, Bool.false_eq_true, if_false]
      rw [hz]
      intro c hc
      rw [writeCols_not_mem _ _ _ _ (hdisj c hc), hi0]
    · rw [h]
      simp only [getItem, hknown, hind2, dictGet_dictSet_self]
      simp only [Option.isNone_some, Bool.false_and, Bool.false_eq_true, if_false]
      rw [hz]
      intro c hc
      rw [hi0]

/-- C05: aliased fields cannot be assigned and unknown names can be neither read nor
assigned: KeyError, container unchanged. -/
theorem C05_unknown_names [Zero α] (e : Env α) (st : Store α) (k : SrcKey) (name : Nat)
    (val : List (List α)) (hk : dictGet e.known name = none) :
    setItem e st k name val = .error .keyError ∧ setEffect e st k name val = st ∧
    (dictGet e.alias name = none → getItem e st k name = .error .keyError) := by
  refine ⟨by simp [setItem, hk], by simp [setEffect, setItem, hk], ?_⟩
  intro ha; simp [getItem, hk, ha]

/-- C05: reading an alias after any history gives its function applied to the selected columns
of its stored field and the selected sources, and raises whatever reading that field raises. -/
theorem C05_alias [Zero α] (e : Env α) (st0 : Store α) (h0 : init e = .ok st0)
    (history : List (Assign α)) (k : SrcKey) (name base nP : Nat)
    (f : List (List α) → List Nat → List (List α))
    (ha : dictGet e.alias name = some (base, f)) (hk : dictGet e.known name = none)
    (hb : dictGet e.known base = some nP) :
    getItem e (runAssigns e st0 history) k name =
      match getItem e (runAssigns e st0 history) k base with
      | .error er => .error er
      | .ok cols => .ok (f cols (match k with
          | .all => e.sources.map Src.id
          | .list ids => ids)) := by
  have hst : ∀ (as : List (Assign α)) (st : Store α), dictGet st name = none →
      dictGet (runAssigns e st as) name = none := by
    intro as
    induction as with
    | nil => intro st h; exact h
    | cons a as ih =>
      intro st h
      refine ih _ ?_
      rcases setEffect_cases e st a.srcs a.name a.val with h' | ⟨nP, ind, hkn, _, ⟨w, _, h'⟩ | h'⟩
      · rw [h']; exact h
      all_goals
        rw [h', dictGet_dictSet_ne]
        · exact h
        · rintro rfl; rw [hk] at hkn; cases hkn
  have hno : dictGet (runAssigns e st0 history) name = none := by
    apply hst
    simp only [init] at h0
    split at h0 <;> cases h0
    rfl
  have hbase : dictGet e.alias base = none := by
    simp only [init] at h0
    split at h0
    · cases h0
    · next h =>
      cases hal : dictGet e.alias base with
      | none => rfl
      | some v =>
      exfalso
      apply h
      rw [List.any_eq_true]
      have hm : ∀ (l : List (Nat × Nat)), dictGet l base = some nP → ∃ p ∈ l, p.1 = base := by
        intro l
        induction l with
        | nil => intro h; cases h
        | cons p l ih =>
          intro h
          by_cases hp : p.1 = base
          · exact ⟨p, by simp, hp⟩
          · obtain ⟨x, y⟩ := p
            simp only at hp
            simp only [dictGet, hp, if_false] at h
            obtain ⟨q, hq, e⟩ := ih h
            exact ⟨q, by simp [hq], e⟩
      obtain ⟨p, hp, rfl⟩ := hm _ hb
      exact ⟨p, hp, by simp [hal]⟩
  simp only [getItem, hk, ha, hb, hno, hbase]
  cases srcIndex e k with
  | error er => simp
  | ok ind =>
    cases hst : dictGet (runAssigns e st0 history) base with
    | none => simp
    | some m => cases k <;> simp [srcList]

/-! Non-vacuity: two sources with one and two columns, two known fields, one alias. -/

def exEnv : Env Int :=
  { sources := [⟨5, [], 1⟩, ⟨6, [], 2⟩]
    known := [(0, 2), (1, 3)]
    alias := [(2, (0, fun cols _ => cols.map (·.map (2 * ·))))] }

example :
    getItem exEnv (runAssigns exEnv (setEffect exEnv (runAssigns exEnv [] [⟨.all, 1, [[1, 1, 1]]⟩])
      (.list [6]) 0 [[1, 2], [3, 4]]) [⟨.list [5], 0, [[9, 9]]⟩, ⟨.all, 1, [[0, 0, 0]]⟩, ⟨.list [8], 0, [[0, 0]]⟩])
      (.list [6]) 0 = .ok [[1, 2], [3, 4]] := by decide

example : init exEnv = .ok [] ∧ (exEnv.sources.map Src.id).Nodup ∧
    srcIndex exEnv (.list [6]) = .ok [1, 2] ∧
    getItem exEnv (setEffect exEnv [] (.list [6]) 0 [[1, 2], [3, 4]]) (.list [5]) 0
      = .ok [[0, 0]] ∧
    getItem exEnv (setEffect exEnv [] (.list [6]) 0 [[1, 2], [3, 4]]) (.list [6]) 2
      = .ok [[2, 4], [6, 8]] := by decide

end Verif.Fields.Props
