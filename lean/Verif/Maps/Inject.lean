import Verif.Basic
import Mathlib.Algebra.Ring.Basic
import Mathlib.Algebra.BigOperators.Group.List.Basic
import Mathlib.Tactic.Ring
import Mathlib.Tactic.NormNum

/-! Model of `InjectActiveCells` (`simpeg/maps/_injection.py` 130-342), with C20. -/

namespace Verif.Maps.Inject
open Verif

variable {R : Type} [CommRing R]

/-- `np.where(mask)[0]`, counted from `s`. -/
def whereFrom : Nat → List Bool → List Nat
  | _, [] => []
  | s, true :: l => s :: whereFrom (s + 1) l
  | s, false :: l => whereFrom (s + 1) l

/-- numpy `a[mask] = v` for one value per selected entry. -/
def maskAssign {α : Type} : List α → List Bool → List α → List α
  | _ :: as, true :: ms, v :: vs => v :: maskAssign as ms vs
  | a :: as, false :: ms, vs => a :: maskAssign as ms vs
  | as, _, _ => as

/-- A constructed map: mask, `P` (kept as the row index of the single one in each column),
and the stored full-length inactive values (180-186, 199-210). -/
structure InjectObj (R : Type) where
  active : List Bool
  cols : List Nat
  valueInactive : List R

/-- The two accepted kinds of `value_inactive` (201-203): a number, or an array. -/
inductive Inactive (R : Type) where
  | scalar (x : R)
  | array (l : List R)

/-- The `value_inactive` setter (199-210). -/
def setValueInactive (active : List Bool) (v : Inactive R) : Except Err (List R) :=
  let nInactive := active.length - active.count true
  let value := match v with
    | .scalar x => List.replicate nInactive x
    | .array l => l
  if value.length = nInactive then
    .ok (maskAssign (List.replicate active.length 0) (active.map not) value)
  else .error .valueError

/-- `InjectActiveCells(mesh, active_cells, value_inactive)` (157-188), for a mask already
validated to have one entry per mesh cell. -/
def mkInject (active : List Bool) (v : Inactive R) : Except Err (InjectObj R) :=
  match setValueInactive active v with
  | .error e => .error e
  | .ok vi => .ok ⟨active, whereFrom 0 active, vi⟩

/-- Entry `i` of the product of `P` with a vector: `Σ_k [cols_k = i] m_k`. -/
def pEntry (cols : List Nat) (m : List R) (i : Nat) : R :=
  ((cols.zip m).map fun p => if p.1 = i then p.2 else 0).sum

/-- `P * v`. -/
def mulP (o : InjectObj R) (m : List R) : List R :=
  (List.range' 0 o.active.length).map (pEntry o.cols m)

/-- `P.T * u` (302): row `k` of `P.T` selects entry `cols_k`. -/
def mulPT (o : InjectObj R) (u : List R) : List R := o.cols.map fun c => u.getD c 0

/-- `map * m` (265-268) with the length check of `IdentityMap.__mul__` (`_base.py` 239-246). -/
def transform (o : InjectObj R) (m : List R) : Except Err (List R) :=
  if m.length = o.active.count true then
    .ok (List.zipWith (· + ·) (mulP o m) o.valueInactive)
  else .error .valueError

/-! Specification -/

/-- Merge two lists as the mask tells: the active values at true entries, the inactive ones
at false entries. -/
def weave {α : Type} : List Bool → List α → List α → List α
  | true :: ms, x :: xs, ys => x :: weave ms xs ys
  | false :: ms, xs, y :: ys => y :: weave ms xs ys
  | _, _, _ => []

def dot (a b : List R) : R := (List.zipWith (· * ·) a b).sum

namespace Props

omit [CommRing R] in
theorem whereFrom_ge : ∀ (mask : List Bool) (s i : Nat), i ∈ whereFrom s mask → s ≤ i
  | [], _, _, h => by simp [whereFrom] at h
  | true :: l, s, i, h => by
    simp only [whereFrom, List.mem_cons] at h
    rcases h with rfl | h
    · exact le_rfl
    · have := whereFrom_ge l (s + 1) i h; omega
  | false :: l, s, i, h => by
    simp only [whereFrom] at h
    have := whereFrom_ge l (s + 1) i h; omega

theorem pEntry_lt (cols : List Nat) (m : List R) (i : Nat) (h : ∀ c ∈ cols, i < c) :
    pEntry cols m i = 0 := by
  induction cols generalizing m with
  | nil => simp [pEntry]
  | cons c cols ih =>
    cases m with
    | nil => simp [pEntry]
    | cons x m =>
      have hc := h c (by simp)
      have := ih m (fun d hd => h d (by simp [hd]))
      simp only [pEntry] at this
      simp only [pEntry, List.zip_cons_cons, List.map_cons, List.sum_cons, this, add_zero]
      rw [if_neg (by omega)]

theorem pEntry_cons_ne (c : Nat) (cols : List Nat) (x : R) (m : List R) (i : Nat) (h : c ≠ i) :
    pEntry (c :: cols) (x :: m) i = pEntry cols m i := by
  simp [pEntry, h]

theorem mulP_weave : ∀ (mask : List Bool) (s : Nat) (m : List R), m.length = mask.count true →
    (List.range' s mask.length).map (pEntry (whereFrom s mask) m)
      = weave mask m (List.replicate (mask.count false) 0)
  | [], _, m, h => by simp [weave]
  | true :: l, s, [], h => by simp at h
  | true :: l, s, x :: m, h => by
    simp only [List.length_cons, List.count_cons_self, Nat.add_right_cancel_iff] at h
    have hz : pEntry (s :: whereFrom (s + 1) l) (x :: m) s = x := by
      have := pEntry_lt (whereFrom (s + 1) l) m s (fun c hc => by
        have := whereFrom_ge l (s + 1) c hc; omega)
      simp only [pEntry] at this
      simp [pEntry, this]
    have e : (List.range' (s + 1) l.length).map (pEntry (s :: whereFrom (s + 1) l) (x :: m))
        = (List.range' (s + 1) l.length).map (pEntry (whereFrom (s + 1) l) m) := by
      apply List.map_congr_left
      intro i hi
      rw [List.mem_range'_1] at hi
      exact pEntry_cons_ne _ _ _ _ _ (by omega)
    have hc : List.count false (true :: l) = List.count false l := by simp
    rw [List.length_cons, List.range'_succ, List.map_cons, whereFrom, hz, e,
      mulP_weave l (s + 1) m h, hc]
    simp only [weave]
  | false :: l, s, m, h => by
    have h' : m.length = l.count true := by simpa using h
    have hz : pEntry (whereFrom (s + 1) l) m s = 0 := pEntry_lt _ _ _ (fun c hc => by
        have := whereFrom_ge l (s + 1) c hc; omega)
    rw [List.length_cons, List.range'_succ, List.map_cons, whereFrom, hz,
      mulP_weave l (s + 1) m h']
    simp only [List.count_cons_self, List.replicate_succ, weave]

theorem maskAssign_weave : ∀ (mask : List Bool) (v : List R), v.length = mask.count false →
    maskAssign (List.replicate mask.length 0) (mask.map not) v
      = weave mask (List.replicate (mask.count true) 0) v
  | [], v, h => by simp [maskAssign, weave]
  | true :: l, v, h => by
    have h' : v.length = l.count false := by simpa using h
    simp [maskAssign, weave, List.replicate_succ, maskAssign_weave l v h']
  | false :: l, [], h => by simp at h
  | false :: l, y :: v, h => by
    have h' : v.length = l.count false := by simpa using h
    simp [maskAssign, weave, List.replicate_succ, maskAssign_weave l v h']

theorem weave_add : ∀ (mask : List Bool) (m v : List R), m.length = mask.count true →
    v.length = mask.count false →
    List.zipWith (· + ·) (weave mask m (List.replicate (mask.count false) 0))
      (weave mask (List.replicate (mask.count true) 0) v) = weave mask m v
  | [], m, v, _, _ => by simp [weave]
  | true :: l, [], v, h, _ => by simp at h
  | true :: l, x :: m, v, h, hv => by
    have h' : m.length = l.count true := by simpa using h
    have hv' : v.length = l.count false := by simpa using hv
    have := weave_add l m v h' hv'
    simpa [weave, List.replicate_succ] using this
  | false :: l, m, [], h, hv => by simp at hv
  | false :: l, m, y :: v, h, hv => by
    have h' : m.length = l.count true := by simpa using h
    have hv' : v.length = l.count false := by simpa using hv
    have := weave_add l m v h' hv'
    simpa [weave, List.replicate_succ] using this

omit [CommRing R] in
theorem count_false (mask : List Bool) : mask.length - mask.count true = mask.count false := by
  induction mask with
  | nil => rfl
  | cons b l ih =>
    have := List.count_le_length (a := true) (l := l)
    cases b <;> simp <;> omega

/-- The values an `Inactive` argument stands for when `n` cells are inactive. -/
def inactiveValues (n : Nat) : Inactive R → List R
  | .scalar x => List.replicate n x
  | .array l => l

/-- C20. The constructor accepts a number, or an array with one value per inactive cell, and
nothing else; the accepted map carries a model with one value per active cell to the vector
with the model at active cells, in order, and the inactive value(s) at inactive cells, in
order. Any other model length is rejected. -/
theorem C20_value (active : List Bool) (v : Inactive R) :
    ((inactiveValues (active.count false) v).length = active.count false →
      ∃ o, mkInject active v = .ok o ∧ ∀ m : List R,
        (m.length = active.count true →
          transform o m = .ok (weave active m (inactiveValues (active.count false) v))) ∧
        (m.length ≠ active.count true → transform o m = .error .valueError)) ∧
    ((inactiveValues (active.count false) v).length ≠ active.count false →
      mkInject active v = .error .valueError) := by
  have hval : (match v with
      | .scalar x => List.replicate (active.count false) x
      | .array l => l) = inactiveValues (active.count false) v := by cases v <;> rfl
  constructor
  · intro hv
    refine ⟨⟨active, whereFrom 0 active,
      weave active (List.replicate (active.count true) 0) (inactiveValues (active.count false) v)⟩,
      ?_, ?_⟩
    · unfold mkInject setValueInactive
      simp only [count_false, hval]
      rw [if_pos hv, maskAssign_weave _ _ hv]
    · intro m
      constructor
      · intro hm
        unfold transform mulP
        simp only
        rw [if_pos hm, mulP_weave active 0 m hm, weave_add active m _ hm hv]
      · intro hm
        unfold transform
        simp only
        rw [if_neg hm]
  · intro hv
    unfold mkInject setValueInactive
    simp only [count_false, hval]
    rw [if_neg hv]

/-- The reading of `weave`: active entries are consecutive model values, inactive ones are
consecutive inactive values, and nothing is lost. -/
theorem weave_select (mask : List Bool) {α : Type} : ∀ (xs ys : List α),
    xs.length = mask.count true → ys.length = mask.count false →
    (weave mask xs ys).length = mask.length ∧
    ((mask.zip (weave mask xs ys)).filter (fun p => p.1)).map Prod.snd = xs ∧
    ((mask.zip (weave mask xs ys)).filter (fun p => !p.1)).map Prod.snd = ys := by
  induction mask with
  | nil => intro xs ys h1 h2; simp at h1 h2; subst h1; subst h2; simp [weave]
  | cons b mask ih =>
    intro xs ys h1 h2
    cases b with
    | true =>
      cases xs with
      | nil => simp at h1
      | cons x xs =>
        obtain ⟨a, b, c⟩ := ih xs ys (by simpa using h1) (by simpa using h2)
        simp [weave, a, b, c]
    | false =>
      cases ys with
      | nil => simp at h2
      | cons y ys =>
        obtain ⟨a, b, c⟩ := ih xs ys (by simpa using h1) (by simpa using h2)
        simp [weave, a, b, c]

theorem mulPT_weave : ∀ (mask : List Bool) (s : Nat) (u : List R), u.length = s + mask.length →
    (whereFrom s mask).map (fun c => u.getD c 0)
      = ((mask.zip (u.drop s)).filter (fun p => p.1)).map Prod.snd
  | [], _, _, _ => by simp [whereFrom]
  | b :: l, s, u, h => by
    have hs : s < u.length := by simp at h; omega
    have hd : u.drop s = u[s] :: u.drop (s + 1) := List.drop_eq_getElem_cons hs
    have ih := mulPT_weave l (s + 1) u (by simp at h; omega)
    cases b with
    | true =>
      rw [whereFrom, List.map_cons, ih, hd, List.zip_cons_cons, List.filter_cons]
      simp [List.getElem?_eq_getElem hs]
    | false =>
      rw [whereFrom, ih, hd, List.zip_cons_cons, List.filter_cons]
      simp

/-- C20. `P.T * u` restricts a cell vector to its active entries; hence
`inverse (map * m) = m`. -/
theorem C20_inverse (active : List Bool) (v : Inactive R) (o : InjectObj R)
    (h : mkInject active v = .ok o) :
    (∀ u : List R, u.length = active.length →
      mulPT o u = ((active.zip u).filter (fun p => p.1)).map Prod.snd) ∧
    (∀ m u : List R, transform o m = .ok u → mulPT o u = m) := by
  have hv : (inactiveValues (active.count false) v).length = active.count false := by
    by_contra hne
    rw [(C20_value active v).2 hne] at h
    cases h
  obtain ⟨o', ho, ht⟩ := (C20_value active v).1 hv
  rw [h] at ho
  cases ho
  have hcols : o.cols = whereFrom 0 active ∧ o.active = active := by
    unfold mkInject at h
    split at h
    · cases h
    · cases h; exact ⟨rfl, rfl⟩
  have hr : ∀ u : List R, u.length = active.length →
      mulPT o u = ((active.zip u).filter (fun p => p.1)).map Prod.snd := by
    intro u hu
    rw [mulPT, hcols.1, mulPT_weave active 0 u (by simpa using hu), List.drop_zero]
  refine ⟨hr, ?_⟩
  intro m u hu
  by_cases hm : m.length = active.count true
  · rw [(ht m).1 hm] at hu
    cases hu
    have := weave_select active m _ hm hv
    rw [hr _ this.1, this.2.1]
  · rw [(ht m).2 hm] at hu
    cases hu

theorem dot_pEntry : ∀ (mask : List Bool) (s : Nat) (m w : List R), m.length = mask.count true →
    w.length = mask.length →
    dot (weave mask m (List.replicate (mask.count false) 0)) w
      = dot m (((mask.zip w).filter (fun p => p.1)).map Prod.snd)
  | [], _, m, w, h, _ => by simp at h; subst h; simp [weave, dot]
  | b :: l, _, m, [], _, hw => by simp at hw
  | true :: l, _, [], _ :: _, h, _ => by simp at h
  | true :: l, s, x :: m, y :: w, h, hw => by
    have := dot_pEntry l s m w (by simpa using h) (by simpa using hw)
    simp only [dot] at this
    simp [weave, dot, this]
  | false :: l, s, m, y :: w, h, hw => by
    have := dot_pEntry l s m w (by simpa using h) (by simpa using hw)
    simp only [dot] at this
    simp [weave, dot, this, List.replicate_succ]

omit [CommRing R] in
theorem zipWith_weave {α : Type} (f : α → α → α) : ∀ (mask : List Bool) (a b c d : List α),
    a.length = mask.count true → b.length = mask.count true → c.length = mask.count false →
    d.length = mask.count false →
    List.zipWith f (weave mask a c) (weave mask b d)
      = weave mask (List.zipWith f a b) (List.zipWith f c d)
  | [], _, _, _, _, _, _, _, _ => by simp [weave]
  | true :: l, [], _, _, _, h, _, _, _ => by simp at h
  | true :: l, _ :: _, [], _, _, _, h, _, _ => by simp at h
  | true :: l, x :: a, y :: b, c, d, h1, h2, h3, h4 => by
    simp [weave, zipWith_weave f l a b c d (by simpa using h1) (by simpa using h2)
      (by simpa using h3) (by simpa using h4)]
  | false :: l, _, _, [], _, _, _, h, _ => by simp at h
  | false :: l, _, _, _ :: _, [], _, _, _, h => by simp at h
  | false :: l, a, b, x :: c, y :: d, h1, h2, h3, h4 => by
    simp [weave, zipWith_weave f l a b c d (by simpa using h1) (by simpa using h2)
      (by simpa using h3) (by simpa using h4)]

/-- C20. `deriv` is exact: stepping the model by `h` changes the output by exactly `P h`;
and `P`, `P.T` are adjoint. -/
theorem C20_deriv (active : List Bool) (v : Inactive R) (o : InjectObj R)
    (h : mkInject active v = .ok o) (m d : List R)
    (hm : m.length = active.count true) (hd : d.length = active.count true) :
    (∃ u, transform o m = .ok u ∧
      transform o (List.zipWith (· + ·) m d) = .ok (List.zipWith (· + ·) u (mulP o d))) ∧
    (∀ w : List R, w.length = active.length → dot (mulP o d) w = dot d (mulPT o w)) := by
  have hv : (inactiveValues (active.count false) v).length = active.count false := by
    by_contra hne
    rw [(C20_value active v).2 hne] at h
    cases h
  obtain ⟨o', ho, ht⟩ := (C20_value active v).1 hv
  rw [h] at ho
  cases ho
  have hcols : o.cols = whereFrom 0 active ∧ o.active = active := by
    unfold mkInject at h
    split at h
    · cases h
    · cases h; exact ⟨rfl, rfl⟩
  have hP : mulP o d = weave active d (List.replicate (active.count false) 0) := by
    rw [mulP, hcols.1, hcols.2, mulP_weave active 0 d hd]
  refine ⟨⟨_, (ht m).1 hm, ?_⟩, ?_⟩
  · rw [(ht _).1 (by simp [hm, hd]), hP, zipWith_weave _ active _ _ _ _ hm hd hv (by simp)]
    congr 2
    have : ∀ l : List R, ∀ n, l.length = n → List.zipWith (· + ·) l (List.replicate n 0) = l := by
      intro l
      induction l with
      | nil => intro n h; simp
      | cons a l ih =>
        intro n h
        cases n with
        | zero => simp at h
        | succ n => simp [List.replicate_succ, ih n (by simpa using h)]
    rw [this _ _ hv]
  · intro w hw
    rw [hP, (C20_inverse active v o h).1 w hw]
    exact dot_pEntry active 0 d w hd hw

example : ∃ o, mkInject (R := ℤ) [true, false, true, false] (.array [8, 9]) = .ok o ∧
    transform o [1, 2] = .ok [1, 8, 2, 9] ∧ mulPT o [1, 8, 2, 9] = [1, 2] :=
  ⟨⟨[true, false, true, false], [0, 2], [0, 8, 0, 9]⟩, rfl, rfl, rfl⟩

example : mkInject (R := ℤ) [true, false, true, false] (.array [8]) = .error .valueError := rfl

end Props
end Verif.Maps.Inject
