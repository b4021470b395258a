import Verif.Survey.Model

/-! Helper lemmas for the survey model. -/

namespace Verif

section dict
variable {κ α : Type} [DecidableEq κ]

theorem dictGet_none_iff (d : List (κ × α)) (k : κ) :
    dictGet d k = none ↔ k ∉ d.map Prod.fst := by
  induction d with
  | nil => simp [dictGet]
  | cons a d ih =>
    obtain ⟨k', v'⟩ := a
    simp only [dictGet, List.map_cons, List.mem_cons, not_or]
    split <;> grind

theorem dictSet_fresh (d : List (κ × α)) (k : κ) (v : α) (h : k ∉ d.map Prod.fst) :
    dictSet d k v = d ++ [(k, v)] := by
  induction d with
  | nil => simp [dictSet]
  | cons a d ih =>
    obtain ⟨k', v'⟩ := a
    simp only [List.map_cons, List.mem_cons, not_or] at h
    simp only [dictSet]
    rw [if_neg (fun e => h.1 e.symm), ih h.2]
    rfl

theorem dictGet_dictSet_self (d : List (κ × α)) (k : κ) (v : α) :
    dictGet (dictSet d k v) k = some v := by
  induction d with
  | nil => simp [dictSet, dictGet]
  | cons a d ih => grind [dictSet, dictGet]

theorem dictGet_dictSet_ne (d : List (κ × α)) (k k2 : κ) (v : α) (h : k2 ≠ k) :
    dictGet (dictSet d k v) k2 = dictGet d k2 := by
  induction d with
  | nil => simp [dictSet, dictGet]; exact fun e => absurd e.symm h
  | cons a d ih => grind [dictSet, dictGet]

theorem dictGet_mem (d : List (κ × α)) (k : κ) (v : α) (h : dictGet d k = some v) :
    (k, v) ∈ d := by
  induction d with
  | nil => simp [dictGet] at h
  | cons a d ih => grind [dictGet]

theorem dictGet_of_getElem (d : List (κ × α)) (hd : (d.map Prod.fst).Nodup) (i : Nat)
    (k : κ) (v : α) (h : d[i]? = some (k, v)) : dictGet d k = some v := by
  induction d generalizing i with
  | nil => simp at h
  | cons a d ih =>
    obtain ⟨k', v'⟩ := a
    cases i with
    | zero => simp at h; simp [dictGet, h]
    | succ i =>
      simp only [List.getElem?_cons_succ] at h
      simp only [List.map_cons, List.nodup_cons] at hd
      have hk : k ∈ d.map Prod.fst := List.mem_map.2 ⟨(k, v), List.mem_of_getElem? h, rfl⟩
      have : k' ≠ k := fun e => hd.1 (e ▸ hk)
      simp only [dictGet, if_neg this]
      exact ih hd.2 i h

end dict

section slice
variable {α : Type}

theorem writeSlice_exact (a v b : List α) (x : List α) (hv : v.length = b.length) :
    writeSlice (a ++ b ++ x) a.length (a.length + b.length) v = .ok (a ++ v ++ x) := by
  have h1 : min a.length (a ++ b ++ x).length = a.length := by simp
  have h2 : max a.length (min (a.length + b.length) (a ++ b ++ x).length)
      = a.length + b.length := by simp
  simp only [writeSlice, h1, h2]
  rw [if_pos (by omega)]
  congr 1
  have e2 : (a ++ b ++ x).drop (a.length + b.length) = x := by
    rw [← List.length_append]; exact List.drop_left
  rw [e2, List.append_assoc a b x, List.take_left]

end slice

end Verif

namespace Verif.Survey

theorem uniqueIds_iff (l : List Nat) : uniqueIds l = true ↔ l.Nodup := by
  induction l with
  | nil => simp [uniqueIds]
  | cons a l ih => simp [uniqueIds, ih, List.nodup_cons]

/-- key of a pair -/
def key (p : Src × Rx) : Nat × Nat := (p.1.id, p.2.id)

theorem mem_pairs (l : List Src) (s : Src) (r : Rx) :
    (s, r) ∈ pairs l ↔ s ∈ l ∧ r ∈ s.rxs := by
  simp only [pairs, List.mem_flatMap, List.mem_map, Prod.mk.injEq]
  constructor
  · rintro ⟨s', hs', r', hr', rfl, rfl⟩; exact ⟨hs', hr'⟩
  · rintro ⟨hs, hr⟩; exact ⟨s, hs, r, hr, rfl, rfl⟩

theorem keys_nodup (l : List Src) (h1 : (l.map Src.id).Nodup)
    (h2 : ∀ s ∈ l, (s.rxs.map Rx.id).Nodup) : ((pairs l).map key).Nodup := by
  induction l with
  | nil => simp [pairs]
  | cons s l ih =>
    simp only [List.map_cons, List.nodup_cons] at h1
    have e : pairs (s :: l) = s.rxs.map (fun r => (s, r)) ++ pairs l := by simp [pairs]
    rw [e, List.map_append, List.nodup_append]
    refine ⟨?_, ih h1.2 (fun s' hs' => h2 s' (List.mem_cons_of_mem _ hs')), ?_⟩
    · have := h2 s List.mem_cons_self
      rw [List.map_map]
      have e2 : (key ∘ fun r => (s, r)) = (fun i => (s.id, i)) ∘ Rx.id := by
        funext r; rfl
      rw [e2, ← List.map_map]
      exact List.Pairwise.map _ (fun a b hab he => hab (by simpa using he)) this
    · intro a ha b hb hab
      subst hab
      simp only [List.map_map, List.mem_map] at ha hb
      obtain ⟨r, _, rfl⟩ := ha
      obtain ⟨⟨s', r'⟩, hm, he⟩ := hb
      have hs' := ((mem_pairs l s' r').1 hm).1
      simp only [key, Function.comp, Prod.mk.injEq] at he
      exact h1.1 (he.1 ▸ List.mem_map_of_mem hs')

/-- slices written as a plain list -/
def offs : List (Src × Rx) → Nat → List ((Nat × Nat) × (Nat × Nat))
  | [], _ => []
  | p :: l, off => (key p, (off, off + p.2.nD)) :: offs l (off + p.2.nD)

theorem offs_keys (l : List (Src × Rx)) (off : Nat) :
    (offs l off).map Prod.fst = l.map key := by
  induction l generalizing off with
  | nil => rfl
  | cons p l ih => simp [offs, ih]

theorem offs_length (l : List (Src × Rx)) (off : Nat) : (offs l off).length = l.length := by
  induction l generalizing off with
  | nil => rfl
  | cons p l ih => simp [offs, ih]

/-- total number of data of a pair list -/
def tot (l : List (Src × Rx)) : Nat := (l.map fun p => p.2.nD).sum

theorem offs_getElem? (l : List (Src × Rx)) (off i : Nat) (p : Src × Rx)
    (h : l[i]? = some p) :
    (offs l off)[i]? = some (key p, (off + tot (l.take i), off + tot (l.take i) + p.2.nD)) := by
  induction l generalizing off i with
  | nil => simp at h
  | cons q l ih =>
    cases i with
    | zero => simp at h; subst h; simp [offs, tot]
    | succ i =>
      simp only [List.getElem?_cons_succ] at h
      simp only [offs, List.getElem?_cons_succ, ih _ i h, List.take_succ_cons]
      simp [tot, Nat.add_assoc]

theorem allSlicesLoop_eq (l : List (Src × Rx)) (off : Nat)
    (d : List ((Nat × Nat) × (Nat × Nat)))
    (h : (d.map Prod.fst ++ l.map key).Nodup) :
    allSlicesLoop l off d = d ++ offs l off := by
  induction l generalizing off d with
  | nil => simp [allSlicesLoop, offs]
  | cons p l ih =>
    obtain ⟨s, r⟩ := p
    have hf : (s.id, r.id) ∉ d.map Prod.fst := by
      intro hm
      rw [List.nodup_append] at h
      exact h.2.2 _ hm _ (by simp [key]) rfl
    simp only [allSlicesLoop]
    rw [dictSet_fresh _ _ _ hf, ih]
    · simp [offs, key]
    · simpa [key, List.append_assoc] using h

theorem getSliceLoop_eq (l : List (Src × Rx)) (off a b : Nat) :
    getSliceLoop a b l off = dictGet (offs l off) (a, b) := by
  induction l generalizing off with
  | nil => rfl
  | cons p l ih =>
    obtain ⟨s, r⟩ := p
    simp only [getSliceLoop, offs, dictGet, key, Prod.mk.injEq, ih]

theorem tot_pairs (l : List Src) : tot (pairs l) = (l.map Src.nD).sum := by
  induction l with
  | nil => rfl
  | cons s l ih =>
    have e : pairs (s :: l) = s.rxs.map (fun r => (s, r)) ++ pairs l := by simp [pairs]
    have : tot (pairs (s :: l)) = tot (s.rxs.map (fun r => (s, r))) + tot (pairs l) := by
      rw [e]; simp [tot]
    rw [this, ih]
    simp [tot, Src.nD, List.map_map, Function.comp_def]

theorem offs_cover (l : List (Src × Rx)) (off k : Nat) (h1 : off ≤ k) (h2 : k < off + tot l) :
    ∃ i : Nat, (∃ e, (offs l off)[i]? = some e ∧ e.2.1 ≤ k ∧ k < e.2.2) ∧
      ∀ j, (∃ e, (offs l off)[j]? = some e ∧ e.2.1 ≤ k ∧ k < e.2.2) → j = i := by
  induction l generalizing off with
  | nil => simp [tot] at h2; omega
  | cons p l ih =>
    have ht : tot (p :: l) = p.2.nD + tot l := by simp [tot]
    have hge : ∀ (l : List (Src × Rx)) (off j : Nat) e, (offs l off)[j]? = some e → off ≤ e.2.1 := by
      intro l
      induction l with
      | nil => intro off j e h; simp [offs] at h
      | cons p l ih =>
        intro off j e h
        cases j with
        | zero => simp [offs] at h; simp [← h]
        | succ j =>
          simp only [offs, List.getElem?_cons_succ] at h
          have := ih _ _ _ h
          omega
    by_cases hk : k < off + p.2.nD
    · refine ⟨0, ⟨_, by simp [offs]; rfl, h1, hk⟩, ?_⟩
      rintro j ⟨e, he, hl, hr⟩
      cases j with
      | zero => rfl
      | succ j =>
        simp only [offs, List.getElem?_cons_succ] at he
        have := hge _ _ _ _ he
        omega
    · obtain ⟨i, ⟨e, he, hl, hr⟩, hu⟩ := ih (off + p.2.nD) (by omega) (by omega)
      refine ⟨i + 1, ⟨e, by simpa [offs] using he, hl, hr⟩, ?_⟩
      rintro j ⟨e', he', hl', hr'⟩
      cases j with
      | zero => simp [offs] at he'; subst he'; simp at hl' hr'; omega
      | succ j =>
        simp only [offs, List.getElem?_cons_succ] at he'
        rw [hu j ⟨e', he', hl', hr'⟩]

/-- The assembly loop, started with `pre` filled and the rest NaN. -/
theorem dpredLoop_eq {α : Type} (slices : List ((Nat × Nat) × (Nat × Nat)))
    (eval : Src → Rx → List α) (l : List (Src × Rx))
    (pre : List (Option α))
    (hget : ∀ i p, l[i]? = some p →
      dictGet slices (key p) = some (pre.length + tot (l.take i), pre.length + tot (l.take i) + p.2.nD))
    (hlen : ∀ p ∈ l, (eval p.1 p.2).length = p.2.nD) :
    dpredLoop slices eval l (pre ++ List.replicate (tot l) none)
      = .ok (pre ++ (l.flatMap fun p => (eval p.1 p.2).map some)) := by
  induction l generalizing pre with
  | nil => simp [dpredLoop, tot]
  | cons p l ih =>
    obtain ⟨s, r⟩ := p
    have h0 := hget 0 (s, r) (by simp)
    have ht : tot ((s, r) :: l) = r.nD + tot l := by simp [tot]
    have hl : (eval s r).length = r.nD := hlen (s, r) (by simp)
    simp only [key, List.take_zero] at h0
    have h0' : dictGet slices (s.id, r.id) = some (pre.length, pre.length + r.nD) := by
      simpa [tot] using h0
    simp only [dpredLoop, h0']
    have hw := writeSlice_exact pre ((eval s r).map some) (List.replicate r.nD none)
      (List.replicate (tot l) none) (by simp [hl])
    simp only [List.length_replicate] at hw
    have e : pre ++ List.replicate (tot ((s, r) :: l)) (none : Option α)
        = pre ++ List.replicate r.nD none ++ List.replicate (tot l) none := by
      rw [ht, List.append_assoc, List.replicate_append_replicate]
    rw [e, hw]
    simp only
    rw [ih (pre ++ (eval s r).map some)]
    · simp
    · intro i p hp
      have := hget (i + 1) p (by simpa using hp)
      rw [this]
      simp [tot, hl, Nat.add_assoc]
    · intro p hp; exact hlen p (List.mem_cons_of_mem _ hp)

end Verif.Survey
