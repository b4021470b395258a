import Verif.Fields.Model
import Verif.Survey.Lemmas

/-! Helper lemmas for source indices and field storage. -/

namespace Verif.Survey

/-- column blocks as a plain list -/
def blocks : List Src → Nat → List (Nat × List Nat)
  | [], _ => []
  | s :: l, i => (s.id, (List.range s.nFields).map (i + ·)) :: blocks l (i + s.nFields)

theorem blocks_keys (l : List Src) (i : Nat) : (blocks l i).map Prod.fst = l.map Src.id := by
  induction l generalizing i with
  | nil => rfl
  | cons s l ih => simp [blocks, ih]

theorem sourceOrderLoop_eq (l : List Src) (i : Nat) (d : List (Nat × List Nat))
    (h : (d.map Prod.fst ++ l.map Src.id).Nodup) :
    sourceOrderLoop l i d = d ++ blocks l i := by
  induction l generalizing i d with
  | nil => simp [sourceOrderLoop, blocks]
  | cons s l ih =>
    have hf : s.id ∉ d.map Prod.fst := by
      intro hm
      rw [List.nodup_append] at h
      exact h.2.2 _ hm _ (by simp) rfl
    simp only [sourceOrderLoop]
    rw [dictSet_fresh _ _ _ hf, ih]
    · simp [blocks]
    · simpa [List.append_assoc] using h

theorem sourceOrder_eq (l : List Src) (h : (l.map Src.id).Nodup) :
    sourceOrder l = blocks l 0 := by
  simpa [sourceOrder] using sourceOrderLoop_eq l 0 [] (by simpa using h)

theorem blocks_getElem? (l : List Src) (off i : Nat) (s : Src) (h : l[i]? = some s) :
    (blocks l off)[i]? = some (s.id,
      (List.range s.nFields).map (off + nFieldsTotal (l.take i) + ·)) := by
  induction l generalizing off i with
  | nil => simp at h
  | cons q l ih =>
    cases i with
    | zero => simp at h; subst h; simp [blocks, nFieldsTotal]
    | succ i =>
      simp only [List.getElem?_cons_succ] at h
      simp only [blocks, List.getElem?_cons_succ, ih _ i h, List.take_succ_cons]
      simp [nFieldsTotal, Nat.add_assoc]

theorem blocks_mem (l : List Src) (off : Nat) (k : Nat) (v : List Nat)
    (h : (k, v) ∈ blocks l off) :
    v.Nodup ∧ ∀ c ∈ v, off ≤ c ∧ c < off + nFieldsTotal l := by
  induction l generalizing off with
  | nil => simp [blocks] at h
  | cons s l ih =>
    simp only [blocks, List.mem_cons, Prod.mk.injEq] at h
    have ht : nFieldsTotal (s :: l) = s.nFields + nFieldsTotal l := by simp [nFieldsTotal]
    rcases h with ⟨rfl, rfl⟩ | h
    · constructor
      · exact List.Pairwise.map _ (fun a b hab he => hab (Nat.add_left_cancel he)) List.nodup_range
      · intro c hc
        simp only [List.mem_map, List.mem_range] at hc
        obtain ⟨a, ha, rfl⟩ := hc
        omega
    · obtain ⟨h1, h2⟩ := ih _ h
      refine ⟨h1, fun c hc => ?_⟩
      have := h2 c hc
      omega

theorem blocks_disjoint (l : List Src) (off : Nat) (hn : (l.map Src.id).Nodup)
    (k1 k2 : Nat) (v1 v2 : List Nat) (h1 : (k1, v1) ∈ blocks l off)
    (h2 : (k2, v2) ∈ blocks l off) (hk : k1 ≠ k2) (c : Nat) (hc : c ∈ v1) : c ∉ v2 := by
  induction l generalizing off with
  | nil => simp [blocks] at h1
  | cons s l ih =>
    simp only [List.map_cons, List.nodup_cons] at hn
    simp only [blocks, List.mem_cons, Prod.mk.injEq] at h1 h2
    have hlt : ∀ c, c ∈ (List.range s.nFields).map (off + ·) → c < off + s.nFields := by
      intro c hc; simp only [List.mem_map, List.mem_range] at hc
      obtain ⟨a, ha, rfl⟩ := hc; omega
    rcases h1 with ⟨rfl, rfl⟩ | h1 <;> rcases h2 with ⟨rfl, rfl⟩ | h2
    · exact absurd rfl hk
    · intro hc2
      have := (blocks_mem _ _ _ _ h2).2 c hc2
      have := hlt c hc
      omega
    · intro hc2
      have := (blocks_mem _ _ _ _ h1).2 c hc
      have := hlt c hc2
      omega
    · exact ih _ hn.2 h1 h2

theorem getSourceIndices_bound (l : List Src) (hn : (l.map Src.id).Nodup) (ids ind : List Nat)
    (h : getSourceIndices l ids = .ok ind) :
    (∀ c ∈ ind, c < nFieldsTotal l) ∧
    (∀ c ∈ ind, ∃ q ∈ ids, ∃ v, dictGet (sourceOrder l) q = some v ∧ c ∈ v) := by
  induction ids generalizing ind with
  | nil => simp [getSourceIndices] at h; subst h; simp
  | cons q qs ih =>
    simp only [getSourceIndices] at h
    cases hg : dictGet (sourceOrder l) q with
    | none => simp [hg] at h
    | some v =>
      simp only [hg] at h
      cases hr : getSourceIndices l qs with
      | error e => simp [hr] at h
      | ok rest =>
        simp only [hr] at h
        cases h
        obtain ⟨b1, b2⟩ := ih rest hr
        have hm := dictGet_mem _ _ _ hg
        rw [sourceOrder_eq l hn] at hm
        have hb := (blocks_mem _ _ _ _ hm).2
        constructor
        · intro c hc
          rcases List.mem_append.1 hc with hc | hc
          · have := hb c hc; omega
          · exact b1 c hc
        · intro c hc
          rcases List.mem_append.1 hc with hc | hc
          · exact ⟨q, by simp, v, hg, hc⟩
          · obtain ⟨q', hq', v', h1, h2⟩ := b2 c hc
            exact ⟨q', by simp [hq'], v', h1, h2⟩

theorem getSourceIndices_nodup (l : List Src) (hn : (l.map Src.id).Nodup) (ids ind : List Nat)
    (hids : ids.Nodup) (h : getSourceIndices l ids = .ok ind) : ind.Nodup := by
  induction ids generalizing ind with
  | nil => simp [getSourceIndices] at h; subst h; simp
  | cons q qs ih =>
    simp only [List.nodup_cons] at hids
    simp only [getSourceIndices] at h
    cases hg : dictGet (sourceOrder l) q with
    | none => simp [hg] at h
    | some v =>
      simp only [hg] at h
      cases hr : getSourceIndices l qs with
      | error e => simp [hr] at h
      | ok rest =>
        simp only [hr] at h
        cases h
        have hm := dictGet_mem _ _ _ hg
        rw [sourceOrder_eq l hn] at hm
        rw [List.nodup_append]
        refine ⟨(blocks_mem _ _ _ _ hm).1, ih rest hids.2 hr, ?_⟩
        intro a ha b hb hab
        subst hab
        obtain ⟨q', hq', v', h1, h2⟩ := (getSourceIndices_bound l hn qs rest hr).2 a hb
        have hm' := dictGet_mem _ _ _ h1
        rw [sourceOrder_eq l hn] at hm'
        have hne : q ≠ q' := fun e => hids.1 (e ▸ hq')
        exact blocks_disjoint l 0 hn _ _ _ _ hm hm' hne a ha h2

theorem getSourceIndices_error (l : List Src) (ids : List Nat) (e : Err)
    (h : getSourceIndices l ids = .error e) : e = .keyError := by
  induction ids with
  | nil => simp [getSourceIndices] at h
  | cons q qs ih =>
    simp only [getSourceIndices] at h
    split at h
    · cases h; rfl
    · split at h
      · cases h; exact ih (by assumption)
      · cases h

end Verif.Survey

namespace Verif.Fields
open Verif Verif.Survey

variable {α : Type}

theorem writeCols_length (m : List (List α)) (ind : List Nat) (val : List (List α)) :
    (writeCols m ind val).length = m.length := by
  induction ind generalizing m val with
  | nil => cases val <;> simp [writeCols]
  | cons i ind ih => cases val <;> simp [writeCols, ih]

theorem writeCols_not_mem (m : List (List α)) (ind : List Nat) (val : List (List α)) (c : Nat)
    (h : c ∉ ind) : (writeCols m ind val)[c]? = m[c]? := by
  induction ind generalizing m val with
  | nil => cases val <;> simp [writeCols]
  | cons i ind ih =>
    simp only [List.mem_cons, not_or] at h
    cases val with
    | nil => simp [writeCols]
    | cons v val =>
      simp only [writeCols]
      rw [ih _ _ h.2, List.getElem?_set_ne (Ne.symm h.1)]

theorem writeCols_mem (m : List (List α)) (ind : List Nat) (val : List (List α))
    (hn : ind.Nodup) (hb : ∀ c ∈ ind, c < m.length) (hl : val.length = ind.length)
    (j c : Nat) (hj : ind[j]? = some c) : (writeCols m ind val)[c]? = val[j]? := by
  induction ind generalizing m val j with
  | nil => simp at hj
  | cons i ind ih =>
    simp only [List.nodup_cons] at hn
    cases val with
    | nil => simp at hl
    | cons v val =>
      simp only [writeCols]
      cases j with
      | zero =>
        simp at hj; subst hj
        rw [writeCols_not_mem _ _ _ _ hn.1]
        simp [List.getElem?_set_self (hb i (by simp))]
      | succ j =>
        simp only [List.getElem?_cons_succ] at hj ⊢
        exact ih _ _ hn.2 (fun c hc => by simpa using hb c (by simp [hc])) (by simpa using hl) j hj

theorem readCols_writeCols (m : List (List α)) (ind : List Nat) (val : List (List α))
    (hn : ind.Nodup) (hb : ∀ c ∈ ind, c < m.length) (hl : val.length = ind.length) :
    readCols (writeCols m ind val) ind = val := by
  have key : ∀ (q : List Nat) (w : List (List α)) (m' : List (List α)),
      q.length = w.length → (∀ j c : Nat, q[j]? = some c → m'[c]? = w[j]?) → readCols m' q = w := by
    intro q
    induction q with
    | nil => intro w m' h _; cases w with
      | nil => rfl
      | cons => simp at h
    | cons i q ih =>
      intro w m' h hq
      cases w with
      | nil => simp at h
      | cons v w =>
        have h0 := hq 0 i (by simp)
        simp only [List.getElem?_cons_zero] at h0
        simp only [readCols, List.filterMap_cons, h0]
        congr 1
        exact ih w m' (by simpa using h) (fun j c hj => by simpa using hq (j + 1) c (by simpa using hj))
  exact key ind val _ hl.symm (fun j c hj => writeCols_mem m ind val hn hb hl j c hj)

theorem readCols_congr (m m' : List (List α)) (ind : List Nat)
    (h : ∀ c ∈ ind, m[c]? = m'[c]?) : readCols m ind = readCols m' ind := by
  unfold readCols
  induction ind with
  | nil => rfl
  | cons i ind ih =>
    simp only [List.filterMap_cons, h i (by simp)]
    rw [ih (fun c hc => h c (by simp [hc]))]

/-- all stored matrices have one column per field column of the survey -/
def Inv (e : Env α) (st : Store α) : Prop :=
  ∀ name m, dictGet st name = some m → m.length = nFieldsTotal e.sources

theorem srcIndex_bound (e : Env α) (hn : (e.sources.map Src.id).Nodup) (k : SrcKey)
    (ind : List Nat) (h : srcIndex e k = .ok ind) : ∀ c ∈ ind, c < nFieldsTotal e.sources := by
  cases k with
  | all => simp [srcIndex] at h; subst h; intro c hc; exact List.mem_range.1 hc
  | list ids => exact (getSourceIndices_bound _ hn ids ind h).1

theorem initStore_length [Zero α] (e : Env α) (st : Store α) (name nP : Nat) (hi : Inv e st) :
    (initStore e st name nP).length = nFieldsTotal e.sources := by
  unfold initStore
  split
  · exact hi _ _ (by assumption)
  · simp

theorem setCols_spec (nP : Nat) (m : List (List α)) (ind : List Nat) (val m' : List (List α))
    (h : setCols nP m ind val = .ok m') :
    ∃ w, w.length = ind.length ∧ m' = writeCols m ind w := by
  unfold setCols at h
  split at h
  · cases h
  · split at h
    · cases h
    · split at h
      · cases h; exact ⟨val, by assumption, rfl⟩
      · split at h
        · cases h; exact ⟨_, by simp, rfl⟩
        · cases h

theorem Inv_dictSet (e : Env α) (st : Store α) (hi : Inv e st) (name : Nat) (m : List (List α))
    (hm : m.length = nFieldsTotal e.sources) : Inv e (dictSet st name m) := by
  intro n' m' h
  by_cases hn : n' = name
  · subst hn; rw [dictGet_dictSet_self] at h; cases h; exact hm
  · rw [dictGet_dictSet_ne _ _ _ _ hn] at h; exact hi _ _ h

theorem setEffect_cases [Zero α] (e : Env α) (st : Store α) (k : SrcKey) (name : Nat)
    (val : List (List α)) :
    setEffect e st k name val = st ∨
    ∃ nP ind, dictGet e.known name = some nP ∧ srcIndex e k = .ok ind ∧
      ((∃ w, w.length = ind.length ∧ setEffect e st k name val =
          dictSet st name (writeCols (initStore e st name nP) ind w)) ∨
        setEffect e st k name val = dictSet st name (initStore e st name nP)) := by
  unfold setEffect setItem
  cases hk : dictGet e.known name with
  | none => simp
  | some nP =>
    cases hs : srcIndex e k with
    | error er => simp
    | ok ind =>
      right
      refine ⟨nP, ind, rfl, rfl, ?_⟩
      simp only
      cases hc : setCols nP (initStore e st name nP) ind val with
      | error er => right; simp
      | ok m =>
        obtain ⟨w, hw, rfl⟩ := setCols_spec _ _ _ _ _ hc
        left; exact ⟨w, hw, by simp⟩

theorem Inv_setEffect [Zero α] (e : Env α) (st : Store α) (hi : Inv e st) (k : SrcKey)
    (name : Nat) (val : List (List α)) : Inv e (setEffect e st k name val) := by
  rcases setEffect_cases e st k name val with h | ⟨nP, ind, _, _, ⟨w, _, h⟩ | h⟩
  · rw [h]; exact hi
  · rw [h]; exact Inv_dictSet e st hi _ _ (by rw [writeCols_length]; exact initStore_length e st name nP hi)
  · rw [h]; exact Inv_dictSet e st hi _ _ (initStore_length e st name nP hi)

/-- cells outside the written block keep their value once the field is stored -/
theorem setEffect_cell [Zero α] (e : Env α) (st : Store α) (k : SrcKey) (name : Nat)
    (val : List (List α)) (n2 : Nat) (m : List (List α)) (hm : dictGet st n2 = some m)
    (c : Nat) (hc : n2 ≠ name ∨ ∀ ind, srcIndex e k = .ok ind → c ∉ ind) :
    ∃ m', dictGet (setEffect e st k name val) n2 = some m' ∧ m'[c]? = m[c]? := by
  rcases setEffect_cases e st k name val with h | ⟨nP, ind, _, hs, h⟩
  · rw [h]; exact ⟨m, hm, rfl⟩
  · by_cases hne : n2 = name
    · subst hne
      have hin : initStore e st n2 nP = m := by simp [initStore, hm]
      rcases h with ⟨w, _, h⟩ | h
      · rw [h, dictGet_dictSet_self, hin]
        refine ⟨_, rfl, writeCols_not_mem _ _ _ _ ?_⟩
        rcases hc with hc | hc
        · exact absurd rfl hc
        · exact hc ind hs
      · rw [h, dictGet_dictSet_self, hin]; exact ⟨m, rfl, rfl⟩
    · refine ⟨m, ?_, rfl⟩
      rcases h with ⟨w, _, h⟩ | h <;> rw [h, dictGet_dictSet_ne _ _ _ _ hne] <;> exact hm

end Verif.Fields
