import Verif.Data.Model
import Verif.Survey.Props

/-! Helper lemmas for slices and uncertainties. -/

namespace Verif

theorem readSlice_getElem? {α : Type} (d : List α) (a b i : Nat) :
    (readSlice d a b)[i]? = if i < b - a then d[a + i]? else none := by
  unfold readSlice
  rw [List.getElem?_take]
  split
  · rw [List.getElem?_drop]
  · rfl

theorem writeSlice_ok {α : Type} (d v : List α) (a b : Nat) (hab : a ≤ b) (hb : b ≤ d.length)
    (hv : v.length = b - a) : writeSlice d a b v = .ok (d.take a ++ v ++ d.drop b) := by
  have h1 : min a d.length = a := by omega
  have h2 : max a (min b d.length) = b := by omega
  simp only [writeSlice, h1, h2, hv, if_true]

theorem writeSlice_one {α : Type} (d : List α) (x : α) (a b : Nat) (hab : a ≤ b)
    (hb : b ≤ d.length) :
    writeSlice d a b [x] = .ok (d.take a ++ List.replicate (b - a) x ++ d.drop b) := by
  have h1 : min a d.length = a := by omega
  have h2 : max a (min b d.length) = b := by omega
  simp only [writeSlice, h1, h2]
  split
  · rename_i h
    rw [← h]; rfl
  · rfl

theorem writeSlice_bad {α : Type} (d v : List α) (a b : Nat) (hab : a ≤ b) (hb : b ≤ d.length)
    (hv : v.length ≠ b - a) (h1 : v.length ≠ 1) : writeSlice d a b v = .error .valueError := by
  have e1 : min a d.length = a := by omega
  have e2 : max a (min b d.length) = b := by omega
  simp only [writeSlice, e1, e2, if_neg hv]
  split
  · simp at h1
  · rfl

theorem splice_getElem? {α : Type} (d v : List α) (a b : Nat) (hab : a ≤ b) (hb : b ≤ d.length)
    (hv : v.length = b - a) (k : Nat) :
    (d.take a ++ v ++ d.drop b)[k]? = if a ≤ k ∧ k < b then v[k - a]? else d[k]? := by
  have ht : (d.take a).length = a := by simp; omega
  by_cases h1 : k < a
  · rw [List.append_assoc, List.getElem?_append_left (by omega), List.getElem?_take, if_pos h1,
      if_neg (by omega)]
  · by_cases h2 : k < b
    · rw [List.append_assoc, List.getElem?_append_right (by omega), ht,
        List.getElem?_append_left (by omega), if_pos (by omega)]
    · rw [List.getElem?_append_right (by rw [List.length_append]; omega), List.length_append, ht,
        List.getElem?_drop, if_neg (by omega)]
      congr 1
      omega

theorem splice_length {α : Type} (d v : List α) (a b : Nat) (hab : a ≤ b) (hb : b ≤ d.length)
    (hv : v.length = b - a) : (d.take a ++ v ++ d.drop b).length = d.length := by
  simp; omega

end Verif

namespace Verif.Data
open Verif Verif.Survey Verif.Survey.Spec Verif.Survey.Props

/-- slices of the survey are within the data vector -/
theorem getSlice_bounds (l : List Src) (h : WellFormed l) (x y a b : Nat)
    (hs : getSlice l x y = .ok (a, b)) : a ≤ b ∧ b ≤ total l := by
  have h1 := ((C01_get_slice l h x y).1 (a, b)).1 hs
  have := (C01_slices_partition l h).2 _ (dictGet_mem _ _ _ h1)
  exact this

/-- different pairs have disjoint slices -/
theorem getSlice_disjoint (l : List Src) (h : WellFormed l) (k1 k2 : Nat × Nat)
    (a1 b1 a2 b2 : Nat) (h1 : getSlice l k1.1 k1.2 = .ok (a1, b1))
    (h2 : getSlice l k2.1 k2.2 = .ok (a2, b2)) (hne : k1 ≠ k2) (k : Nat)
    (hk : a1 ≤ k ∧ k < b1) : ¬ (a2 ≤ k ∧ k < b2) := by
  intro hk2
  have g1 := dictGet_mem _ _ _ (((C01_get_slice l h _ _).1 _).1 h1)
  have g2 := dictGet_mem _ _ _ (((C01_get_slice l h _ _).1 _).1 h2)
  obtain ⟨i1, e1⟩ := List.mem_iff_getElem?.1 g1
  obtain ⟨i2, e2⟩ := List.mem_iff_getElem?.1 g2
  have hb := getSlice_bounds l h _ _ _ _ h1
  obtain ⟨i, _, hu⟩ := (C01_slices_partition l h).1 k (by omega)
  have u1 := hu i1 ⟨_, e1, hk⟩
  have u2 := hu i2 ⟨_, e2, hk2⟩
  rw [u1] at e1; rw [u2] at e2
  rw [e1] at e2
  injection e2 with e2
  injection e2 with e2 e3
  exact hne e2

theorem setEffect_length {α : Type} (l : List Src) (h : WellFormed l) (d : List α)
    (hd : d.length = total l) (k : Nat × Nat) (v : List α) :
    (setEffect l d k v).length = total l := by
  unfold setEffect setItem
  cases hs : getSlice l k.1 k.2 with
  | error e => exact hd
  | ok sl =>
    obtain ⟨a, b⟩ := sl
    have hb := getSlice_bounds l h _ _ _ _ hs
    simp only
    by_cases hv : v.length = b - a
    · rw [writeSlice_ok d v a b hb.1 (by omega) hv]
      simp only
      rw [splice_length d v a b hb.1 (by omega) hv, hd]
    · by_cases h1 : v.length = 1
      · obtain ⟨x, rfl⟩ := List.length_eq_one_iff.1 h1
        rw [writeSlice_one d x a b hb.1 (by omega)]
        simp only
        rw [splice_length d _ a b hb.1 (by omega) (by simp), hd]
      · rw [writeSlice_bad d v a b hb.1 (by omega) hv h1]
        exact hd

theorem setEffect_other {α : Type} (l : List Src) (h : WellFormed l) (d : List α)
    (hd : d.length = total l) (k k2 : Nat × Nat) (v : List α) (hne : k2 ≠ k) :
    getItem l (setEffect l d k v) k2 = getItem l d k2 := by
  unfold setEffect setItem
  cases hs : getSlice l k.1 k.2 with
  | error e => rfl
  | ok sl =>
    obtain ⟨a, b⟩ := sl
    have hb := getSlice_bounds l h _ _ _ _ hs
    simp only
    have key : ∀ w : List α, w.length = b - a →
        getItem l (d.take a ++ w ++ d.drop b) k2 = getItem l d k2 := by
      intro w hw
      unfold getItem
      cases hs2 : getSlice l k2.1 k2.2 with
      | error e => rfl
      | ok sl2 =>
        obtain ⟨a2, b2⟩ := sl2
        simp only
        congr 1
        apply List.ext_getElem?
        intro i
        rw [readSlice_getElem?, readSlice_getElem?]
        split
        · rw [splice_getElem? d w a b hb.1 (by omega) hw, if_neg]
          exact getSlice_disjoint l h k2 k a2 b2 a b hs2 hs hne _ (by omega)
        · rfl
    by_cases hv : v.length = b - a
    · rw [writeSlice_ok d v a b hb.1 (by omega) hv]; exact key v hv
    · by_cases h1 : v.length = 1
      · obtain ⟨x, rfl⟩ := List.length_eq_one_iff.1 h1
        rw [writeSlice_one d x a b hb.1 (by omega)]; exact key _ (by simp)
      · rw [writeSlice_bad d v a b hb.1 (by omega) hv h1]

theorem setEffect_same {α : Type} (l : List Src) (h : WellFormed l) (d : List α)
    (hd : d.length = total l) (k : Nat × Nat) (v : List α) (a b : Nat)
    (hs : getSlice l k.1 k.2 = .ok (a, b)) (hv : v.length = b - a) :
    getItem l (setEffect l d k v) k = .ok v := by
  have hb := getSlice_bounds l h _ _ _ _ hs
  unfold setEffect setItem getItem
  simp only [hs]
  rw [writeSlice_ok d v a b hb.1 (by omega) hv]
  simp only
  congr 1
  apply List.ext_getElem?
  intro i
  rw [readSlice_getElem?]
  split
  · rw [splice_getElem? d v a b hb.1 (by omega) hv, if_pos (by omega)]
    congr 1; omega
  · rw [List.getElem?_eq_none]; omega

end Verif.Data
