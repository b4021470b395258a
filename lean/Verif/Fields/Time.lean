import Verif.Basic
import Mathlib.Data.List.GetD
import Mathlib.Data.List.Nodup
import Mathlib.Tactic.Ring
import Mathlib.Tactic.Linarith
import Mathlib.Algebra.BigOperators.Group.List.Basic

/-!
Model of `simpeg/fields.py`, class `TimeFields` (354-534): fields by position, source and time.

An array is its shape and its values in Fortran order (first axis fastest), so that
`reshape(order="F")` keeps the values.  Simplified: the number of sources and times is fixed, indices are
valid and not negative; data types are not modelled; sources are given by their indices (every source has
one field); the location enters through the number of rows.
-/

namespace Verif.Fields

/-- An array in Fortran order. -/
structure Arr (α : Type) where
  shape : List Nat
  data : Nat → α

/-- Selection of sources: the slice `:` or a list of sources (`_srcIndex`, 244-249). -/
inductive SSel
  | all
  | list (l : List Nat)

/-- Selection of times: the slice `:`, another slice (as the indices it stands for), an integer, a list or
an array of integers. -/
inductive TSel
  | all
  | slice (l : List Nat)
  | int (t : Nat)
  | list (l : List Nat)
  | array (l : List Nat)

/-- Selected sources. -/
def SSel.inds (nS : Nat) : SSel → List Nat
  | .all => List.range nS
  | .list l => l

/-- Selected times: `np.arange(nT + 1)[timeInd]` (511). -/
def TSel.inds (nT1 : Nat) : TSel → List Nat
  | .all => List.range nT1
  | .slice l => l
  | .int t => [t]
  | .list l => l
  | .array l => l

/-- numpy: two index arrays are broadcast against each other. -/
def TSel.fancy : TSel → Option (List Nat)
  | .list l => some l
  | .array l => some l
  | _ => none

/-- The positions of an array of shape `(nP, |S|, |T|)` selected by all combinations. -/
def rect (nP : Nat) (S T : List Nat) (k : Nat) : Nat × Nat × Nat :=
  (k % nP, S.getD (k / nP % S.length) 0, T.getD (k / (nP * S.length)) 0)

/-- `field[:, srcInd, timeInd]` (478, 486, 497): shape and selected positions.  Two index arrays are
broadcast against each other; an integer removes its axis. -/
def select (nP nS nT1 : Nat) (s : SSel) (t : TSel) :
    Except Err (List Nat × (Nat → Nat × Nat × Nat)) :=
  let S := s.inds nS
  let T := t.inds nT1
  match s, t.fancy with
  | .list _, some _ =>
    if S.length = T.length then
      .ok ([nP, S.length], fun k => (k % nP, S.getD (k / nP) 0, T.getD (k / nP) 0))
    else if T.length = 1 then
      .ok ([nP, S.length], fun k => (k % nP, S.getD (k / nP) 0, T.getD 0 0))
    else if S.length = 1 then
      .ok ([nP, T.length], fun k => (k % nP, S.getD 0 0, T.getD (k / nP) 0))
    else .error .indexError
  | _, _ => match t with
    | .int _ => .ok ([nP, S.length], rect nP S T)
    | _ => .ok ([nP, S.length, T.length], rect nP S T)

/-- `_correctShape` (453-468) without `deflate`. -/
def correctShape (nP nS nT1 : Nat) (s : SSel) (t : TSel) : List Nat :=
  [nP, (s.inds nS).length, (t.inds nT1).length]

/-- `_correctShape(…, deflate=True)` (464-468). -/
def deflate (shape : List Nat) : List Nat :=
  let l := shape.filter (1 < ·)
  if l.length = 1 then l ++ [1] else l

/-- `reshape(shape, order="F")`. -/
def reshape {α : Type} (a : Arr α) (shape : List Nat) : Except Err (Arr α) :=
  if a.shape.prod = shape.prod then .ok ⟨shape, a.data⟩ else .error .valueError

/-- One stored field. -/
abbrev TStore (α : Type) := Nat × Nat × Nat → α

/-- `field[:, srcInd, timeInd] = val` for an array of the selected shape. -/
def assign {α : Type} (st : TStore α) (pos : Nat → Nat × Nat × Nat) (n : Nat) (v : Nat → α) :
    TStore α :=
  (List.range n).foldl (fun st k => Function.update st (pos k) (v k)) st

/-- A value to be stored. -/
inductive TVal (α : Type)
  | scalar (c : α)
  | arr (a : Arr α)

/-- `val = val[0]` for arrays of one element (473-474): a number if the array has one axis. -/
def squeeze {α : Type} : TVal α → TVal α
  | .arr a => if a.shape.prod = 1 then
      (match a.shape with
        | [_] => .scalar (a.data 0)
        | _ :: l => .arr ⟨l, a.data⟩
        | [] => .arr a)
    else .arr a
  | v => v

/-- `_setField` (470-484). -/
def tSet {α : Type} (nP nS nT1 : Nat) (st : TStore α) (s : SSel) (t : TSel) (v : TVal α) :
    Except Err (TStore α) :=
  match squeeze v with
  | .scalar c => match select nP nS nT1 s t with
    | .error e => .error e
    | .ok (shape, pos) => .ok (assign st pos shape.prod fun _ => c)
  | .arr a =>
    if a.shape.prod ≠ (correctShape nP nS nT1 s t).prod then .error .valueError
    else match select nP nS nT1 s t with
      | .error e => .error e
      | .ok (shape, pos) => match reshape a shape with
        | .error e => .error e
        | .ok b => .ok (assign st pos shape.prod b.data)

/-- `_getField` for a stored field (486-490, 533-534). -/
def tGet {α : Type} (nP nS nT1 : Nat) (st : TStore α) (s : SSel) (t : TSel) : Except Err (Arr α) :=
  match select nP nS nT1 s t with
  | .error e => .error e
  | .ok (shape, pos) =>
    reshape ⟨shape, fun k => st (pos k)⟩ (deflate (correctShape nP nS nT1 s t))

/-- An alias function: it takes the fields (rows and columns of sources), the sources and the time, and
returns rows and columns. -/
abbrev AliasFn (α : Type) := (Nat → Nat → α) → List Nat → Nat → Nat → Nat → α

/-- The truth value of `timeInd == slice(None, None, None)` (502) raises for an array unless it has one
element. -/
def TSel.ambiguous : TSel → Bool
  | .array l => decide (l.length ≠ 1)
  | _ => false

/-- `_getField` for an alias of a stored field (491-534), with a function of fields, sources and time with
`nQ` rows (the call with two arguments raises `TypeError`, which is caught). -/
def tGetAlias {α : Type} (nP nQ nS nT1 : Nat) (f : AliasFn α) (st : TStore α) (s : SSel) (t : TSel) :
    Except Err (Arr α) :=
  match select nP nS nT1 s t with
  | .error e => .error e
  | .ok (shape, pos) => match reshape ⟨shape, fun k => st (pos k)⟩ (correctShape nP nS nT1 s t) with
    | .error e => .error e
    | .ok ptr =>
      let S := s.inds nS
      let T := t.inds nT1
      if t.ambiguous then .error .valueError
      else
        if T.length = 1 then
          let rows := (deflate (correctShape nP nS nT1 s t)).headD 1
          let out := f (fun i a => ptr.data (i + rows * a)) S (T.getD 0 0)
          reshape ⟨[nQ, S.length], fun k => out (k % nQ) (k / nQ)⟩
            (deflate (correctShape nQ nS nT1 s t))
        else if T.length = 0 then .error .valueError
        else
          let out := fun b => f (fun i a => ptr.data (i + nP * a + nP * S.length * b)) S (T.getD b 0)
          reshape ⟨[nQ, S.length, T.length],
            fun k => out (k / (nQ * S.length)) (k % nQ) (k / nQ % S.length)⟩
            (deflate (correctShape nQ nS nT1 s t))

/-! ### Specification -/

/-- Selections with one value for every combination of source and time. -/
def Grid (s : SSel) (t : TSel) : Prop :=
  ∀ S T, s = .list S → t.fancy = some T → S.length = 1 ∨ T.length = 1

/-- The array has the value `g i a b` for row `i`, the `a`-th source and the `b`-th time. -/
def Holds {α : Type} (x : Arr α) (nP nA nB : Nat) (g : Nat → Nat → Nat → α) : Prop :=
  ∀ i < nP, ∀ a < nA, ∀ b < nB, x.data (i + nP * (a + nA * b)) = g i a b

/-- The function treats sources separately: a column depends on the fields of its source, the source and
the time. -/
def Columnwise {α : Type} (f : AliasFn α) (g : (Nat → α) → Nat → Nat → Nat → α) (nP : Nat) : Prop :=
  ∀ u S t q a, a < S.length → ∀ w : Nat → α, (∀ i < nP, u i a = w i) →
    f u S t q a = g w (S.getD a 0) t q

/-! ### Lemmas -/

theorem flat_lt {nP nA nB i a b : Nat} (hi : i < nP) (ha : a < nA) (hb : b < nB) :
    i + nP * (a + nA * b) < nP * nA * nB := by
  have h1 : a + nA * b < nA * nB := by
    calc a + nA * b < nA + nA * b := by omega
      _ = nA * (b + 1) := by ring
      _ ≤ nA * nB := Nat.mul_le_mul_left _ hb
  calc i + nP * (a + nA * b) < nP + nP * (a + nA * b) := by omega
    _ = nP * ((a + nA * b) + 1) := by ring
    _ ≤ nP * (nA * nB) := Nat.mul_le_mul_left _ h1
    _ = nP * nA * nB := by ring

theorem flat_mod {nP nA i a b : Nat} (hi : i < nP) : (i + nP * (a + nA * b)) % nP = i := by
  rw [Nat.add_mul_mod_self_left, Nat.mod_eq_of_lt hi]

theorem flat_div {nP nA i a b : Nat} (hi : i < nP) : (i + nP * (a + nA * b)) / nP = a + nA * b := by
  rw [Nat.add_mul_div_left _ _ (by omega), Nat.div_eq_of_lt hi, zero_add]

theorem flat_div_mod {nP nA i a b : Nat} (hi : i < nP) (ha : a < nA) :
    (i + nP * (a + nA * b)) / nP % nA = a := by
  rw [flat_div hi, Nat.add_mul_mod_self_left, Nat.mod_eq_of_lt ha]

theorem flat_div_div {nP nA i a b : Nat} (hi : i < nP) (ha : a < nA) :
    (i + nP * (a + nA * b)) / (nP * nA) = b := by
  rw [← Nat.div_div_eq_div_mul, flat_div hi, Nat.add_mul_div_left _ _ (by omega), Nat.div_eq_of_lt ha,
    zero_add]

theorem flat_surj {nP nA nB k : Nat} (hk : k < nP * nA * nB) :
    ∃ i a b, i < nP ∧ a < nA ∧ b < nB ∧ k = i + nP * (a + nA * b) := by
  have hP : 0 < nP := by
    rcases Nat.eq_zero_or_pos nP with h | h
    · subst h; simp at hk
    · exact h
  have hA : 0 < nA := by
    rcases Nat.eq_zero_or_pos nA with h | h
    · subst h; simp at hk
    · exact h
  refine ⟨k % nP, k / nP % nA, k / nP / nA, Nat.mod_lt _ hP, Nat.mod_lt _ hA, ?_, ?_⟩
  · rw [Nat.div_div_eq_div_mul]
    exact Nat.div_lt_of_lt_mul (by simpa [mul_comm, mul_left_comm, mul_assoc] using hk)
  · rw [Nat.mod_add_div, Nat.mod_add_div]

theorem deflate_prod (l : List Nat) (h : ∀ x ∈ l, x ≠ 0) : (deflate l).prod = l.prod := by
  have key : ∀ l : List Nat, (∀ x ∈ l, x ≠ 0) → (l.filter (1 < ·)).prod = l.prod := by
    intro l
    induction l with
    | nil => intro _; rfl
    | cons a l ih =>
      intro h
      have ha := h a List.mem_cons_self
      have := ih fun x hx => h x (List.mem_cons_of_mem _ hx)
      by_cases h1 : 1 < a
      · rw [List.filter_cons_of_pos (by simpa using h1), List.prod_cons, List.prod_cons, this]
      · rw [List.filter_cons_of_neg (by simpa using h1), List.prod_cons, this]
        have : a = 1 := by omega
        rw [this, one_mul]
  unfold deflate
  simp only
  split_ifs
  · rw [List.prod_append, key l h]; simp
  · exact key l h

/-- All supported selections address all combinations. -/
theorem select_grid (nP nS nT1 : Nat) (s : SSel) (t : TSel) (hg : Grid s t) :
    ∃ shape pos, select nP nS nT1 s t = .ok (shape, pos) ∧
      shape.prod = (correctShape nP nS nT1 s t).prod ∧
      ∀ i < nP, ∀ a < (s.inds nS).length, ∀ b < (t.inds nT1).length,
        pos (i + nP * (a + (s.inds nS).length * b)) =
          (i, (s.inds nS).getD a 0, (t.inds nT1).getD b 0) := by
  have hr : ∀ S T : List Nat, ∀ i < nP, ∀ a < S.length, ∀ b < T.length,
      rect nP S T (i + nP * (a + S.length * b)) = (i, S.getD a 0, T.getD b 0) := by
    intro S T i hi a ha b _
    rw [rect, flat_mod hi, flat_div_mod hi ha, flat_div_div hi ha]
  have hother : ∀ (h : ∀ S, s = .list S → t.fancy = none),
      ∃ shape, select nP nS nT1 s t = .ok (shape, rect nP (s.inds nS) (t.inds nT1)) ∧
        shape.prod = (correctShape nP nS nT1 s t).prod := by
    intro h
    cases s with
    | all =>
      cases t <;> refine ⟨_, rfl, ?_⟩ <;> simp [correctShape, TSel.inds]
    | list S =>
      have := h S rfl
      cases t with
      | list l => simp [TSel.fancy] at this
      | array l => simp [TSel.fancy] at this
      | all => exact ⟨_, rfl, by simp [correctShape]⟩
      | slice l => exact ⟨_, rfl, by simp [correctShape]⟩
      | int k => exact ⟨_, rfl, by simp [correctShape, TSel.inds]⟩
  by_cases hno : ∀ S, s = .list S → t.fancy = none
  · obtain ⟨shape, h1, h2⟩ := hother hno
    exact ⟨shape, _, h1, h2, hr _ _⟩
  · push Not at hno
    obtain ⟨S, rfl, hT⟩ := hno
    obtain ⟨T, hT⟩ := Option.ne_none_iff_exists'.1 hT
    have hTi : t.inds nT1 = T := by
      cases t <;> simp [TSel.fancy] at hT <;> exact hT
    have h1 := hg S T rfl hT
    unfold select correctShape
    simp only [hT, hTi, SSel.inds]
    by_cases hST : S.length = T.length
    · have hT1 : T.length = 1 := by omega
      have hS1 : S.length = 1 := by omega
      refine ⟨_, _, if_pos hST, by simp [hT1], fun i hi a ha b hb => ?_⟩
      have ha0 : a = 0 := by omega
      have hb0 : b = 0 := by omega
      subst ha0 hb0
      simp [Nat.mod_eq_of_lt hi, Nat.div_eq_of_lt hi]
    · rw [if_neg hST]
      by_cases hT1 : T.length = 1
      · refine ⟨_, _, if_pos hT1, by simp [hT1], fun i hi a ha b hb => ?_⟩
        have hb0 : b = 0 := by omega
        subst hb0
        rw [flat_mod hi, flat_div hi]; simp
      · rw [if_neg hT1]
        have hS1 : S.length = 1 := by omega
        refine ⟨_, _, if_pos hS1, by simp [hS1], fun i hi a ha b hb => ?_⟩
        have ha0 : a = 0 := by omega
        subst ha0
        rw [flat_mod hi, flat_div hi]; simp [hS1]

theorem assign_get {α : Type} (st : TStore α) (pos : Nat → Nat × Nat × Nat) (n : Nat) (v : Nat → α)
    (z : Nat × Nat × Nat) :
    ((∀ k < n, pos k ≠ z) → assign st pos n v z = st z) ∧
    ∀ k < n, pos k = z → (∀ j < n, pos j = z → j = k) → assign st pos n v z = v k := by
  induction n with
  | zero => exact ⟨fun _ => rfl, fun k hk => absurd hk (by omega)⟩
  | succ n ih =>
    have hstep : assign st pos (n + 1) v = Function.update (assign st pos n v) (pos n) (v n) := by
      unfold assign; rw [List.range_succ, List.foldl_append]; rfl
    refine ⟨fun h => ?_, fun k hk hz hu => ?_⟩
    · rw [hstep, Function.update_of_ne (h n (by omega)).symm]
      exact ih.1 fun k hk => h k (by omega)
    · rw [hstep]
      by_cases hkn : k = n
      · subst hkn; rw [← hz, Function.update_self]
      · have hne : pos n ≠ z := fun h => hkn (hu n (by omega) h).symm
        rw [Function.update_of_ne hne.symm]
        exact ih.2 k (by omega) hz fun j hj h => hu j (by omega) h

/-! ### Property theorems -/

/-- **C110 (reading).** For every supported selection the returned array has, for every row, source and
time, the stored value; its shape is that of rows, sources and times without the axes of length one. -/
theorem C110_read {α : Type} (nP nS nT1 : Nat) (st : TStore α) (s : SSel) (t : TSel) (hg : Grid s t)
    (hP : nP ≠ 0) (hS : s.inds nS ≠ []) (hT : t.inds nT1 ≠ []) :
    ∃ x, tGet nP nS nT1 st s t = .ok x ∧
      x.shape = deflate [nP, (s.inds nS).length, (t.inds nT1).length] ∧
      Holds x nP (s.inds nS).length (t.inds nT1).length fun i a b =>
        st (i, (s.inds nS).getD a 0, (t.inds nT1).getD b 0) := by
  obtain ⟨shape, pos, h1, h2, h3⟩ := select_grid nP nS nT1 s t hg
  unfold tGet
  rw [h1]
  simp only [reshape]
  rw [deflate_prod _ (by
    intro x hx
    simp only [correctShape, List.mem_cons, List.not_mem_nil, or_false] at hx
    have a1 := List.length_pos_iff.2 hS
    have a2 := List.length_pos_iff.2 hT
    rcases hx with rfl | rfl | rfl <;> omega), if_pos h2]
  refine ⟨_, rfl, rfl, fun i hi a ha b hb => ?_⟩
  simp only
  rw [h3 i hi a ha b hb]

/-- **C110 (reading, selections).** Reading one source at one time given as a number, all sources at all
times, and lists. -/
theorem C110_read_selections {α : Type} (nP nS nT1 : Nat) (st : TStore α) (hP : nP ≠ 0) (hS : nS ≠ 0)
    (hT : nT1 ≠ 0) :
    (∀ j t, ∃ x, tGet nP nS nT1 st (.list [j]) (.int t) = .ok x ∧ Holds x nP 1 1 fun i _ _ => st (i, j, t)) ∧
    (∃ x, tGet nP nS nT1 st .all .all = .ok x ∧ Holds x nP nS nT1 fun i j t => st (i, j, t)) ∧
    (∀ S, S ≠ [] → ∃ x, tGet nP nS nT1 st (.list S) .all = .ok x ∧
      Holds x nP S.length nT1 fun i a t => st (i, S.getD a 0, t)) ∧
    (∀ T, T ≠ [] → ∃ x, tGet nP nS nT1 st .all (.list T) = .ok x ∧
      Holds x nP nS T.length fun i j b => st (i, j, T.getD b 0)) := by
  have hr : ∀ n, n ≠ 0 → List.range n ≠ [] := fun n hn => by simpa using hn
  have hg : ∀ n a, a < n → (List.range n).getD a 0 = a := by
    intro n a h; simp [List.getD_eq_getElem?_getD, h]
  refine ⟨fun j t => ?_, ?_, fun S hS' => ?_, fun T hT' => ?_⟩
  · obtain ⟨x, h1, _, h3⟩ := C110_read nP nS nT1 st (.list [j]) (.int t)
      (by intro S T h _; cases h; exact Or.inl rfl) hP (by simp [SSel.inds]) (by simp [TSel.inds])
    refine ⟨x, h1, fun i hi a ha b hb => ?_⟩
    have := h3 i hi a ha b hb
    obtain rfl : a = 0 := by omega
    obtain rfl : b = 0 := by omega
    exact this
  · obtain ⟨x, h1, _, h3⟩ := C110_read nP nS nT1 st .all .all (by intro S T h; cases h) hP (hr _ hS) (hr _ hT)
    refine ⟨x, h1, ?_⟩
    simp only [SSel.inds, TSel.inds, List.length_range] at h3
    intro i hi a ha b hb
    have := h3 i hi a ha b hb
    simp only at this
    rwa [hg _ _ ha, hg _ _ hb] at this
  · obtain ⟨x, h1, _, h3⟩ := C110_read nP nS nT1 st (.list S) .all
      (by intro S T _ h; simp [TSel.fancy] at h) hP (by simpa [SSel.inds] using hS') (hr _ hT)
    refine ⟨x, h1, ?_⟩
    simp only [SSel.inds, TSel.inds, List.length_range] at h3
    intro i hi a ha b hb
    have := h3 i hi a ha b hb
    simp only at this
    rwa [hg _ _ hb] at this
  · obtain ⟨x, h1, _, h3⟩ := C110_read nP nS nT1 st .all (.list T) (by intro S T h; cases h) hP (hr _ hS)
      (by simpa [TSel.inds] using hT')
    refine ⟨x, h1, ?_⟩
    simp only [SSel.inds, TSel.inds, List.length_range] at h3
    intro i hi a ha b hb
    have := h3 i hi a ha b hb
    simp only at this
    rwa [hg _ _ ha] at this

/-- **C110 (writing).** Storing an array of the right size for distinct sources and times stores its values
for every row, source and time selected and leaves everything else unchanged. -/
theorem C110_write {α : Type} (nP nS nT1 : Nat) (st : TStore α) (s : SSel) (t : TSel) (hg : Grid s t)
    (hSn : (s.inds nS).Nodup) (hTn : (t.inds nT1).Nodup) (v : Arr α)
    (hv : v.shape.prod = nP * (s.inds nS).length * (t.inds nT1).length) :
    ∃ st', tSet nP nS nT1 st s t (.arr v) = .ok st' ∧
      (∀ i < nP, ∀ a < (s.inds nS).length, ∀ b < (t.inds nT1).length,
        st' (i, (s.inds nS).getD a 0, (t.inds nT1).getD b 0) =
          v.data (i + nP * (a + (s.inds nS).length * b))) ∧
      ∀ i j k, (¬ i < nP ∨ j ∉ s.inds nS ∨ k ∉ t.inds nT1) → st' (i, j, k) = st (i, j, k) := by
  obtain ⟨shape, pos, h1, h2, h3⟩ := select_grid nP nS nT1 s t hg
  set S := s.inds nS with hSd
  set T := t.inds nT1 with hTd
  have hprod : (correctShape nP nS nT1 s t).prod = nP * S.length * T.length := by
    simp [correctShape, ← hSd, ← hTd, mul_assoc]
  have hshape : shape.prod = nP * S.length * T.length := h2.trans hprod
  -- the value is assigned entry by entry, whether or not it was a single number
  have hset : ∃ w : Nat → α, (∀ k < nP * S.length * T.length, w k = v.data k) ∧
      tSet nP nS nT1 st s t (.arr v) = .ok (assign st pos shape.prod w) := by
    have harr : ∀ a : Arr α, a.shape.prod = nP * S.length * T.length →
        (match (TVal.arr a : TVal α) with
          | .scalar c => match select nP nS nT1 s t with
            | .error e => .error e
            | .ok (shape, pos) => .ok (assign st pos shape.prod fun _ => c)
          | .arr a =>
            if a.shape.prod ≠ (correctShape nP nS nT1 s t).prod then .error Err.valueError
            else match select nP nS nT1 s t with
              | .error e => .error e
              | .ok (shape, pos) => match reshape a shape with
                | .error e => .error e
                | .ok b => .ok (assign st pos shape.prod b.data)) =
        (.ok (assign st pos shape.prod a.data) : Except Err (TStore α)) := by
      intro a ha
      simp only
      rw [if_neg (by rw [ha, hprod]; simp), h1]
      simp only [reshape]
      rw [if_pos (ha.trans hshape.symm)]
    unfold tSet squeeze
    by_cases hv1 : v.shape.prod = 1
    · simp only [hv1, if_true]
      match hsh : v.shape with
      | [] =>
        exact ⟨v.data, fun _ _ => rfl, harr v (by rw [← hv])⟩
      | [_] =>
        refine ⟨fun _ => v.data 0, fun k hk => ?_, ?_⟩
        · rw [← hv, hv1] at hk
          have : k = 0 := by omega
          rw [this]
        · simp only [h1]
      | c :: c2 :: l =>
        refine ⟨v.data, fun _ _ => rfl, harr ⟨c2 :: l, v.data⟩ ?_⟩
        rw [hsh, List.prod_cons] at hv1
        have := Nat.eq_one_of_mul_eq_one_left hv1
        rw [← hv, hsh, List.prod_cons (a := c), hv1]
        exact this
    · simp only [hv1, if_false]
      exact ⟨v.data, fun _ _ => rfl, harr v hv⟩
  obtain ⟨w, hw, hset⟩ := hset
  refine ⟨_, hset, fun i hi a ha b hb => ?_, fun i j k hout => ?_⟩
  · have hk := flat_lt hi ha hb
    rw [← hw _ hk]
    refine (assign_get st pos shape.prod w _).2 _ (by rw [hshape]; exact hk) (h3 i hi a ha b hb) ?_
    intro j hj hjz
    rw [hshape] at hj
    obtain ⟨i', a', b', hi', ha', hb', rfl⟩ := flat_surj hj
    rw [h3 i' hi' a' ha' b' hb', Prod.mk.injEq, Prod.mk.injEq] at hjz
    obtain ⟨rfl, e1, e2⟩ := hjz
    rw [List.getD_eq_getElem _ _ ha', List.getD_eq_getElem _ _ ha] at e1
    rw [List.getD_eq_getElem _ _ hb', List.getD_eq_getElem _ _ hb] at e2
    have := (List.Nodup.getElem_inj_iff hSn).1 e1
    have := (List.Nodup.getElem_inj_iff hTn).1 e2
    subst_vars
    rfl
  · refine (assign_get st pos shape.prod w _).1 fun q hq e => ?_
    rw [hshape] at hq
    obtain ⟨i', a', b', hi', ha', hb', rfl⟩ := flat_surj hq
    rw [h3 i' hi' a' ha' b' hb', Prod.mk.injEq, Prod.mk.injEq] at e
    obtain ⟨rfl, e1, e2⟩ := e
    rcases hout with h | h | h
    · exact h hi'
    · apply h; rw [← e1, List.getD_eq_getElem _ _ ha']; exact List.getElem_mem _
    · apply h; rw [← e2, List.getD_eq_getElem _ _ hb']; exact List.getElem_mem _

/-- **C110 (aliases).** A field computed from the stored one has for every row, source and time the value
of the function at the stored field of that source and time, for every supported selection which is not an
array of several times. -/
theorem C110_alias_partial {α : Type} (nP nQ nS nT1 : Nat) (f : AliasFn α)
    (g : (Nat → α) → Nat → Nat → Nat → α) (hf : Columnwise f g nP) (st : TStore α) (s : SSel) (t : TSel)
    (hg : Grid s t) (harr : ∀ l, t = .array l → l.length = 1)
    (hP : 2 ≤ nP) (hQ : nQ ≠ 0) (hS : s.inds nS ≠ []) (hT : t.inds nT1 ≠ []) :
    ∃ x, tGetAlias nP nQ nS nT1 f st s t = .ok x ∧
      x.shape = deflate [nQ, (s.inds nS).length, (t.inds nT1).length] ∧
      Holds x nQ (s.inds nS).length (t.inds nT1).length fun q a b =>
        g (fun i => st (i, (s.inds nS).getD a 0, (t.inds nT1).getD b 0)) ((s.inds nS).getD a 0)
          ((t.inds nT1).getD b 0) q := by
  obtain ⟨shape, pos, h1, h2, h3⟩ := select_grid nP nS nT1 s t hg
  have hS0 := List.length_pos_iff.2 hS
  have hT0 := List.length_pos_iff.2 hT
  have hdq : (deflate (correctShape nQ nS nT1 s t)).prod =
      (correctShape nQ nS nT1 s t).prod := deflate_prod _ (by
    intro x hx
    simp only [correctShape, List.mem_cons, List.not_mem_nil, or_false] at hx
    rcases hx with rfl | rfl | rfl <;> omega)
  have harr' : t.ambiguous = false := by
    cases t with
    | array l => simpa [TSel.ambiguous] using harr l rfl
    | _ => rfl
  unfold tGetAlias
  rw [h1]
  simp only [reshape]
  rw [if_pos h2]
  simp only [harr', Bool.false_eq_true, if_false]
  set S := s.inds nS with hSd
  set T := t.inds nT1 with hTd
  by_cases hT1 : T.length = 1
  · rw [if_pos hT1, hdq, if_pos (by simp [correctShape, ← hSd, ← hTd, hT1])]
    refine ⟨_, rfl, rfl, fun q hq a ha b hb => ?_⟩
    have hb0 : b = 0 := by omega
    subst hb0
    have hrows : (deflate (correctShape nP nS nT1 s t)).headD 1 = nP := by
      unfold deflate correctShape
      rw [← hSd, ← hTd, hT1]
      have : 1 < nP := by omega
      simp only [List.filter_cons, decide_eq_true_eq, this, if_true]
      split_ifs <;> simp_all
    simp only [hrows]
    rw [flat_mod hq, flat_div hq]
    simp only [mul_zero, add_zero]
    refine hf _ S _ q a ha _ fun i hi => ?_
    have := h3 i hi a ha 0 hb
    rw [mul_zero, add_zero] at this
    rw [this]
  · rw [if_neg hT1, if_neg (by omega), hdq, if_pos (by simp [correctShape, ← hSd, ← hTd])]
    refine ⟨_, rfl, rfl, fun q hq a ha b hb => ?_⟩
    simp only
    rw [flat_mod hq, flat_div_mod hq ha, flat_div_div hq ha]
    refine hf _ S _ q a ha _ fun i hi => ?_
    rw [← h3 i hi a ha b hb]
    congr 2
    ring

/-- **C110, violated (lists of sources and times).** The documented `f[source_list, 'e', t_inds]` with
lists: two lists of the same length, at least two, raise `ValueError`, lists of different lengths, both at
least two, raise `IndexError`. -/
theorem C110_violated_lists {α : Type} (nP nS nT1 : Nat) (st : TStore α) (S T : List Nat)
    (hP : nP ≠ 0) (hS : 2 ≤ S.length) (hT : 2 ≤ T.length) :
    tGet nP nS nT1 st (.list S) (.list T) =
      .error (if S.length = T.length then .valueError else .indexError) := by
  have hsel : select nP nS nT1 (.list S) (.list T) =
      if S.length = T.length then
        .ok ([nP, S.length], fun k => (k % nP, S.getD (k / nP) 0, T.getD (k / nP) 0))
      else if T.length = 1 then
        .ok ([nP, S.length], fun k => (k % nP, S.getD (k / nP) 0, T.getD 0 0))
      else if S.length = 1 then
        .ok ([nP, T.length], fun k => (k % nP, S.getD 0 0, T.getD (k / nP) 0))
      else .error .indexError := rfl
  unfold tGet
  rw [hsel]
  by_cases h : S.length = T.length
  · simp only [if_pos h, reshape]
    rw [if_neg]
    rw [deflate_prod _ (by
      intro x hx
      simp only [correctShape, SSel.inds, TSel.inds, List.mem_cons, List.not_mem_nil, or_false] at hx
      rcases hx with rfl | rfl | rfl <;> omega)]
    simp only [correctShape, SSel.inds, TSel.inds, List.prod_cons, List.prod_nil, mul_one, h]
    intro e
    have h1 : nP * T.length * 1 = nP * T.length * T.length := by rw [mul_one, mul_assoc]; exact e
    have := Nat.eq_of_mul_eq_mul_left (Nat.mul_pos (by omega) (by omega)) h1
    omega
  · have h1 : ¬ T.length = 1 := by omega
    have h2 : ¬ S.length = 1 := by omega
    simp only [if_neg h, if_neg h1, if_neg h2]

/-- **C110, violated (single numbers).** Storing a number for two sources and two times given as lists
changes two of the four entries. -/
theorem C110_violated_scalar :
    ∃ st', tSet 1 2 2 (fun _ => (0 : Int)) (.list [0, 1]) (.list [0, 1]) (.scalar 5) = .ok st' ∧
      st' (0, 0, 0) = 5 ∧ st' (0, 1, 1) = 5 ∧ st' (0, 0, 1) = 0 ∧ st' (0, 1, 0) = 0 := by
  refine ⟨_, rfl, ?_⟩
  decide

/-- **C110, violated (arrays of times).** Computed fields at several times given as an array raise
`ValueError`. -/
theorem C110_violated_array {α : Type} (nP nQ nS nT1 : Nat) (f : AliasFn α) (st : TStore α) (l : List Nat)
    (hl : 2 ≤ l.length) : tGetAlias nP nQ nS nT1 f st .all (.array l) = .error .valueError := by
  unfold tGetAlias select
  simp only [TSel.fancy, SSel.inds, TSel.inds, reshape, correctShape, if_true]
  have : (TSel.array l).ambiguous = true := by simp [TSel.ambiguous]; omega
  rw [this]; rfl

/-- Non-vacuity of `C110_read`, `C110_write` and `C110_alias_partial`: two sources, a slice of times. -/
example : Grid (.list [1, 0]) (.slice [2, 3]) := by
  intro S T _ h; simp [TSel.fancy] at h

example : ∃ x, tGet 2 2 4 (fun z => (z.1 : Int) + 10 * z.2.1 + 100 * z.2.2) (.list [1, 0])
    (.slice [2, 3]) = .ok x ∧ x.shape = [2, 2, 2] ∧
    (List.range 8).map x.data = [210, 211, 200, 201, 310, 311, 300, 301] :=
  ⟨_, rfl, rfl, by decide⟩

example : ∃ x, tGetAlias (α := Int) 2 2 2 4 (fun u _ t q a => u (1 - q) a + t)
    (fun z => (z.1 : Int) + 10 * z.2.1 + 100 * z.2.2) (.list [1, 0]) (.slice [2, 3]) = .ok x ∧
    (List.range 8).map x.data = [213, 212, 203, 202, 314, 313, 304, 303] :=
  ⟨_, rfl, by decide⟩

end Verif.Fields
