import Verif.Maps.Compose
import Mathlib.Tactic.NormNum
import Mathlib.Tactic.Linarith
import Mathlib.Tactic.Abel

/-! C15 (chain rule), C17 (`is_linear`, structural part), C18 (shapes), C51 (sums). -/

namespace Verif.Maps.Props
open Verif Maps Matrix

/-! ### C15 -/

/- `Diff t x`: every leaf of `t` returns, at the point where it is evaluated when `t` is applied
to `x`, its true Jacobian. -/
mutual
def Diff : {n m : Nat} → MapT n m → (Fin n → ℝ) → Prop
  | _, _, .leaf f, x => IsJacobian f.transform (f.deriv x) x
  | _, _, .combo c, x => DiffChain c x
def DiffChain : {n m : Nat} → Chain n m → (Fin n → ℝ) → Prop
  | _, _, .nil, _ => True
  | _, _, .cons f rest, x => Diff f (rest.apply x) ∧ DiffChain rest x
end

theorem derivLoop_snd : ∀ {n m : Nat} (c : Chain n m) {q : Type} (x : Fin n → ℝ)
    (d : Matrix (Fin n) q ℝ), (c.derivLoop x d).2 = c.apply x
  | _, _, .nil, _, x, d => by simp [Chain.derivLoop, Chain.apply]
  | _, _, .cons f rest, _, x, d => by
    simp [Chain.derivLoop, Chain.apply, derivLoop_snd rest x d]

theorem derivLoop_mul : ∀ {n m : Nat} (c : Chain n m) {q : Type} (x : Fin n → ℝ)
    (d : Matrix (Fin n) q ℝ),
    (c.derivLoop x d).1 = (c.derivLoop x (1 : Matrix (Fin n) (Fin n) ℝ)).1 * d
  | _, _, .nil, _, x, d => by simp [Chain.derivLoop]
  | _, _, .cons f rest, _, x, d => by
    simp only [Chain.derivLoop, derivLoop_snd]
    rw [derivLoop_mul rest x d, Matrix.mul_assoc]

mutual
theorem deriv_correct : ∀ {n m : Nat} (t : MapT n m) (x : Fin n → ℝ), Diff t x →
    IsJacobian t.apply (t.deriv x) x
  | _, _, .leaf f, x, h => by
    simp only [Diff] at h
    unfold MapT.deriv
    have e : (MapT.leaf f).apply = f.transform := by funext y; simp [MapT.apply]
    rw [e]; exact h
  | _, _, .combo c, x, h => by
    simp only [Diff] at h
    unfold MapT.deriv
    have e : (MapT.combo c).apply = c.apply := by funext y; simp [MapT.apply]
    rw [e]; exact derivChain_correct c x h
theorem derivChain_correct : ∀ {n m : Nat} (c : Chain n m) (x : Fin n → ℝ), DiffChain c x →
    IsJacobian c.apply (c.derivLoop x (1 : Matrix (Fin n) (Fin n) ℝ)).1 x
  | n, _, .nil, x, _ => by
    have e : Chain.apply (.nil : Chain n n) = id := by funext y; simp [Chain.apply]
    have e2 : ∀ n, mulVecL (1 : Matrix (Fin n) (Fin n) ℝ) = ContinuousLinearMap.id ℝ _ := by
      intro n; ext1 v; simp
    unfold IsJacobian
    rw [e]
    simp only [Chain.derivLoop, e2]
    exact hasFDerivAt_id x
  | _, _, .cons f rest, x, h => by
    simp only [DiffChain] at h
    have h1 := derivChain_correct rest x h.2
    have h2 := deriv_correct f (rest.apply x) h.1
    have e : Chain.apply (.cons f rest) = f.apply ∘ rest.apply := by
      funext y; simp [Chain.apply]
    unfold IsJacobian at h1 h2 ⊢
    rw [e]
    refine (h2.comp x h1).congr_fderiv ?_
    ext1 v
    simp [Chain.derivLoop, derivLoop_snd, Matrix.mulVec_mulVec]
end

/-- C15. Applying a composed map is applying its members right to left. -/
theorem C15_apply {n k m : Nat} (f : MapT k m) (rest : Chain n k) (x : Fin n → ℝ) :
    (MapT.combo (.cons f rest)).apply x = f.apply ((MapT.combo rest).apply x) := by
  simp [MapT.apply, Chain.apply]

/-- C15. `deriv(m)` of any nesting of compositions is the Jacobian of the composed map at
`m`, whenever each single map returns its own Jacobian at the point it is evaluated at. -/
theorem C15_chain_rule {n m : Nat} (t : MapT n m) (x : Fin n → ℝ) (h : Diff t x) :
    IsJacobian t.apply (t.deriv x) x :=
  deriv_correct t x h

/-- C15. `deriv(m, v)` is `deriv(m) @ v`. -/
theorem C15_deriv_vector {n m : Nat} (c : Chain n m) (x v : Fin n → ℝ) :
    c.derivVec x v = (MapT.combo c).deriv x *ᵥ v := by
  funext i
  unfold Chain.derivVec MapT.deriv
  rw [derivLoop_mul]
  simp [Matrix.mul_apply, mulVec, dotProduct]

/-- The square map on one parameter, with its Jacobian. -/
private def squareM : Map 1 1 := ⟨fun x _ => x 0 * x 0, fun x _ _ => 2 * x 0, false⟩

private theorem squareM_diff (x : Fin 1 → ℝ) : Diff (.leaf squareM) x := by
  simp only [Diff]
  unfold IsJacobian
  rw [hasFDerivAt_pi']
  intro i
  have := (hasFDerivAt_apply (𝕜 := ℝ) (0 : Fin 1) x).mul (hasFDerivAt_apply (𝕜 := ℝ) (0 : Fin 1) x)
  refine this.congr_fderiv ?_
  ext v
  change _ = ((fun _ _ => 2 * x 0 : Matrix (Fin 1) (Fin 1) ℝ) *ᵥ v) i
  simp [mulVec, dotProduct]; ring

/-- A nested composition meeting the hypothesis, `x ↦ x⁸`, non-linear. -/
example (x : Fin 1 → ℝ) : Diff (.combo (.cons (.combo (.cons (.leaf squareM)
    (.cons (.leaf squareM) .nil))) (.cons (.leaf squareM) .nil))) x := by
  simp only [Diff, DiffChain]
  have := squareM_diff
  simp only [Diff] at this
  exact ⟨⟨this _, this _, trivial⟩, this _, trivial⟩

/-! ### C17, structural part -/

/-- A function between vectors is linear. -/
def LinearFn {n m : Nat} (f : (Fin n → ℝ) → (Fin m → ℝ)) : Prop :=
  ∀ (a b : ℝ) (x y : Fin n → ℝ), f (a • x + b • y) = a • f x + b • f y

mutual
/-- Every leaf's `is_linear` is honest. -/
def Honest : {n m : Nat} → MapT n m → Prop
  | _, _, .leaf f => f.isLinear = true → LinearFn f.transform
  | _, _, .combo c => HonestChain c
/-- Every member is honest. -/
def HonestChain : {n m : Nat} → Chain n m → Prop
  | _, _, .nil => True
  | _, _, .cons f rest => Honest f ∧ HonestChain rest
end

mutual
theorem isLinear_sound : ∀ {n m : Nat} (t : MapT n m), Honest t → t.isLinear = true →
    LinearFn t.apply
  | _, _, .leaf f, h, hl => by
    have e : (MapT.leaf f).apply = f.transform := by funext y; simp [MapT.apply]
    rw [e]; exact h hl
  | _, _, .combo c, h, hl => by
    have e : (MapT.combo c).apply = c.apply := by funext y; simp [MapT.apply]
    rw [e]; exact isLinearChain_sound c h hl
theorem isLinearChain_sound : ∀ {n m : Nat} (c : Chain n m), HonestChain c →
    c.isLinear = true → LinearFn c.apply
  | _, _, .nil, _, _ => by intro a b x y; simp [Chain.apply]
  | _, _, .cons f rest, h, hl => by
    simp only [Chain.isLinear, Bool.and_eq_true] at hl
    intro a b x y
    simp only [Chain.apply]
    rw [isLinearChain_sound rest h.2 hl.2, isLinear_sound f h.1 hl.1]
end

/-- C17. `is_linear` of compositions is sound as far as it is for the single maps: a composed
map reporting `True` is linear.  Missing from the full claim: single maps which report
`True` although they are affine, see `C17_affine_maps_report_linear`. -/
theorem C17_composition_partial {n m : Nat} (t : MapT n m) (h : Honest t)
    (hl : t.isLinear = true) : LinearFn t.apply :=
  isLinear_sound t h hl

/-- `LinearMap(A, b)` (549-623) as a map; `is_linear` is inherited, `True`. -/
noncomputable def linearMap {n m : Nat} (A : Matrix (Fin m) (Fin n) ℝ) (b : Option (Fin m → ℝ)) :
    Map n m where
  transform := fun x => match b with
    | none => A *ᵥ x
    | some b => A *ᵥ x + b
  deriv := fun _ => A
  isLinear := true

/-- `ChiMap` (_property_maps.py 462-552) with vacuum permeability `mu0`; `is_linear` is
inherited, `True`. -/
noncomputable def chiMap (n : Nat) (mu0 : ℝ) : Map n n where
  transform := fun x i => mu0 * (1 + x i)
  deriv := fun _ => mu0 • (1 : Matrix (Fin n) (Fin n) ℝ)
  isLinear := true

/-- C17. `LinearMap` without offset, and the identity, are linear. -/
theorem C17_linear_map_without_offset {n m : Nat} (A : Matrix (Fin m) (Fin n) ℝ) :
    LinearFn (linearMap A none).transform := by
  intro a b x y
  simp [linearMap, Matrix.mulVec_add, Matrix.mulVec_smul]

/-- C17 is violated: `LinearMap` with a nonzero offset and `ChiMap` (for any nonempty model
and any nonzero vacuum permeability) report `is_linear = True` but are not linear. -/
theorem C17_affine_maps_report_linear :
    (∀ {n m : Nat} (A : Matrix (Fin m) (Fin n) ℝ) (b : Fin m → ℝ), b ≠ 0 →
      (linearMap A (some b)).isLinear = true ∧ ¬ LinearFn (linearMap A (some b)).transform) ∧
    (∀ (n : Nat) (mu0 : ℝ), 0 < n → mu0 ≠ 0 →
      (chiMap n mu0).isLinear = true ∧ ¬ LinearFn (chiMap n mu0).transform) := by
  constructor
  · intro n m A b hb
    refine ⟨rfl, fun h => hb ?_⟩
    have := h 0 0 0 0
    simpa [linearMap] using this
  · intro n mu0 hn hmu
    refine ⟨rfl, fun h => hmu ?_⟩
    have := congrFun (h 0 0 0 0) ⟨0, hn⟩
    simpa [chiMap] using this

example : Honest (.combo (.cons (.leaf (linearMap (1 : Matrix (Fin 2) (Fin 2) ℝ) none))
    (.cons (.leaf ⟨fun x => x, fun _ => 1, true⟩) .nil))) := by
  refine ⟨fun _ => C17_linear_map_without_offset _, fun _ => ?_, trivial⟩
  intro a b x y; rfl

/-! ### C18 -/

/- The leaves of a map, left to right. -/
mutual
def leaves : ShapeT → List ShapeT
  | .free => [.free]
  | .fixed r c => [.fixed r c]
  | .combo l => leavesList l
def leavesList : List ShapeT → List ShapeT
  | [] => []
  | s :: l => leaves s ++ leavesList l
end

mutual
/-- No leaf of free shape inside. -/
def AllFixed : ShapeT → Prop
  | .free => False
  | .fixed _ _ => True
  | .combo l => AllFixedList l
/-- No leaf of free shape inside. -/
def AllFixedList : List ShapeT → Prop
  | [] => True
  | s :: l => AllFixed s ∧ AllFixedList l
end

mutual
theorem fixed_apply : ∀ (s : ShapeT), s.Accepted → AllFixed s →
    ∃ r c, s.rows = some r ∧ s.cols = some c ∧ s.applyLen c = .ok r
  | .free, _, h => absurd h (by simp [AllFixed])
  | .fixed r c, _, _ => ⟨r, c, rfl, rfl, by simp [ShapeT.applyLen]⟩
  | .combo l, ha, hf => by
    obtain ⟨h1, h2, h3⟩ := ha
    obtain ⟨r, c, hr, hc, he⟩ := fixedList_apply l h1 h2 h3 hf
    exact ⟨r, c, by simp [ShapeT.rows, hr], by simp [ShapeT.cols, hc],
      by simp [ShapeT.applyLen, hc, compatible, he]⟩
theorem fixedList_apply : ∀ (l : List ShapeT), l ≠ [] → chainOk l = true → AcceptedList l →
    AllFixedList l →
    ∃ r c, rowsHead l = some r ∧ colsLast l = some c ∧ applyLens l c = .ok r
  | [], h, _, _, _ => absurd rfl h
  | [s], _, _, ha, hf => by
    obtain ⟨r, c, hr, hc, he⟩ := fixed_apply s ha.1 hf.1
    exact ⟨r, c, by simp [rowsHead, hr], by simp [colsLast, hc], by simp [applyLens, he]⟩
  | s :: t :: l, _, hc, ha, hf => by
    simp only [chainOk, Bool.and_eq_true] at hc
    obtain ⟨r, c, hr, hcs, he⟩ := fixed_apply s ha.1 hf.1
    obtain ⟨r', c', hr', hc', he'⟩ := fixedList_apply (t :: l) (by simp) hc.2 ha.2 hf.2
    simp only [rowsHead] at hr'
    have : c = r' := by
      have h := hc.1
      rw [hcs, hr'] at h
      simpa [compatible] using h
    subst this
    refine ⟨r, c', by simp [rowsHead, hr], by simpa [colsLast] using hc', ?_⟩
    rw [applyLens, he']
    exact he
end

/-- C18 (part that holds). A composition (any nesting) of maps of fixed shape that was
accepted at construction can be applied to every array of length `shape[1]` and returns
`shape[0]` values.  Missing: maps of free shape `"*"` between maps of fixed shape, see
`C18_free_map_hides_mismatch`. -/
theorem C18_accepted_is_applicable_partial (s : ShapeT) (ha : s.Accepted) (hf : AllFixed s) :
    ∃ r c, s.rows = some r ∧ s.cols = some c ∧ s.applyLen c = .ok r :=
  fixed_apply s ha hf

/-- C18. The constructor accepts a list of built maps exactly when every two neighbours of
known inner dimension agree. -/
theorem C18_constructor (l : List ShapeT) :
    (∃ s, mkCombo l = .ok s) ↔
    ∀ (i : Nat) (a b : ShapeT) (p q : Nat), l[i]? = some a → l[i + 1]? = some b →
      a.cols = some p → b.rows = some q → p = q := by
  have key : ∀ l : List ShapeT, chainOk l = true ↔
    ∀ (i : Nat) (a b : ShapeT) (p q : Nat), l[i]? = some a → l[i + 1]? = some b →
      a.cols = some p → b.rows = some q → p = q := by
    intro l
    induction l with
    | nil => simp [chainOk]
    | cons s l ih =>
      cases l with
      | nil => simp [chainOk]
      | cons t l =>
        simp only [chainOk, Bool.and_eq_true, ih]
        constructor
        · rintro ⟨h1, h2⟩ i a b p q ha hb hp hq
          cases i with
          | zero =>
            simp at ha hb; subst ha hb
            rw [hp, hq] at h1
            simpa [compatible] using h1
          | succ i => exact h2 i a b p q (by simpa using ha) (by simpa using hb) hp hq
        · intro h
          refine ⟨?_, fun i a b p q ha hb hp hq =>
            h (i + 1) a b p q (by simpa using ha) (by simpa using hb) hp hq⟩
          unfold compatible
          split
          · next p q hp hq => simpa using h 0 s t p q (by simp) (by simp) hp hq
          · rfl
  rw [← key]
  unfold mkCombo
  split
  · next h => simp [h]
  · next h => simp [h]

/-- C18 is violated: a map of free shape hides a dimension mismatch from the constructor; the
accepted composition fails for every input length. -/
theorem C18_free_map_hides_mismatch : ∃ l : List ShapeT, ∃ s, mkCombo l = .ok s ∧ s.Accepted ∧
    s.rows = some 3 ∧ s.cols = some 5 ∧ ∀ n, s.applyLen n = .error .valueError := by
  refine ⟨[.fixed 3 2, .free, .fixed 4 5], .combo [.fixed 3 2, .free, .fixed 4 5], rfl,
    ⟨by simp, by decide, trivial, trivial, trivial, trivial⟩, rfl, rfl, ?_⟩
  intro n
  by_cases h : 5 = n
  · subst h; rfl
  · simp [ShapeT.applyLen, colsLast, ShapeT.cols, compatible, h]

/-- Shapes of the leaves of fixed shape, left to right. -/
def fixedLeaves (s : ShapeT) : List (Nat × Nat) :=
  (leaves s).filterMap fun t => match t with
    | .fixed r c => some (r, c)
    | _ => none

/-- Applying single maps one after the other, right to left. -/
def runLeaves : List ShapeT → Nat → Except Err Nat
  | [], n => .ok n
  | s :: l, n => match runLeaves l n with
    | .error e => .error e
    | .ok k => s.applyLen k

theorem runLeaves_append : ∀ (a b : List ShapeT) (n : Nat),
    runLeaves (a ++ b) n = match runLeaves b n with
      | .error e => .error e
      | .ok k => runLeaves a k
  | [], b, n => by simp only [List.nil_append]; cases runLeaves b n <;> simp [runLeaves]
  | s :: a, b, n => by
    simp only [List.cons_append, runLeaves, runLeaves_append a b n]
    cases runLeaves b n <;> simp

mutual
theorem applyLen_leaves : ∀ (s : ShapeT),
    (∀ n, s.applyLen n = runLeaves (leaves s) n) ∧
    (∀ n c, s.cols = some c → n ≠ c → runLeaves (leaves s) n = .error .valueError)
  | .free => by simp [leaves, runLeaves, ShapeT.applyLen, ShapeT.cols]
  | .fixed r c => by
    simp only [leaves, runLeaves, ShapeT.applyLen, ShapeT.cols, Option.some.injEq, implies_true,
      true_and]
    rintro n _ rfl h
    simp [h]
  | .combo l => by
    obtain ⟨h1, h2⟩ := applyLens_leaves l
    simp only [leaves, ShapeT.applyLen, ShapeT.cols]
    refine ⟨fun n => ?_, h2⟩
    split
    · exact h1 n
    · next h =>
      cases hc : colsLast l with
      | none => simp [hc, compatible] at h
      | some c =>
        simp [hc, compatible] at h
        exact (h2 n c hc (fun e => h e.symm)).symm
theorem applyLens_leaves : ∀ (l : List ShapeT),
    (∀ n, applyLens l n = runLeaves (leavesList l) n) ∧
    (∀ n c, colsLast l = some c → n ≠ c → runLeaves (leavesList l) n = .error .valueError)
  | [] => by simp [applyLens, leavesList, runLeaves, colsLast]
  | s :: l => by
    obtain ⟨h1, h2⟩ := applyLens_leaves l
    obtain ⟨h3, h4⟩ := applyLen_leaves s
    refine ⟨fun n => ?_, fun n c hc hn => ?_⟩
    · simp only [applyLens, leavesList, runLeaves_append, h1]
      split <;> simp_all
    · simp only [leavesList, runLeaves_append]
      cases l with
      | nil =>
        simp only [colsLast] at hc
        simp only [leavesList, runLeaves]
        exact h4 n c hc hn
      | cons t l =>
        simp only [colsLast] at hc
        rw [h2 n c hc hn]
end

mutual
theorem leaves_atomic : ∀ (s t : ShapeT), t ∈ leaves s → t = .free ∨ ∃ r c, t = .fixed r c
  | .free, t, h => by simp [leaves] at h; exact Or.inl h
  | .fixed r c, t, h => by simp [leaves] at h; exact Or.inr ⟨r, c, h⟩
  | .combo l, t, h => leavesList_atomic l t (by simpa [leaves] using h)
theorem leavesList_atomic : ∀ (l : List ShapeT) (t : ShapeT), t ∈ leavesList l →
    t = .free ∨ ∃ r c, t = .fixed r c
  | [], t, h => by simp [leavesList] at h
  | s :: l, t, h => by
    simp only [leavesList, List.mem_append] at h
    rcases h with h | h
    · exact leaves_atomic s t h
    · exact leavesList_atomic l t h
end

/-- Lengths that a row of maps of fixed shape accepts and produces. -/
def chainLen : List (Nat × Nat) → Nat → Option Nat
  | [], n => some n
  | (r, c) :: l, n => if chainLen l n = some c then some r else none

theorem runLeaves_chainLen : ∀ (l : List ShapeT), (∀ t ∈ l, t = .free ∨ ∃ r c, t = .fixed r c) →
    ∀ n, (runLeaves l n).toOption = chainLen (l.filterMap fun t => match t with
      | .fixed r c => some (r, c)
      | _ => none) n
  | [], _, n => by simp [runLeaves, chainLen, Except.toOption]
  | s :: l, h, n => by
    have ih := runLeaves_chainLen l (fun t ht => h t (by simp [ht])) n
    rcases h s (by simp) with rfl | ⟨r, c, rfl⟩
    · simp only [runLeaves, List.filterMap_cons, ← ih]
      cases runLeaves l n <;> simp [Except.toOption, ShapeT.applyLen]
    · simp only [runLeaves, List.filterMap_cons, chainLen, ← ih]
      cases runLeaves l n with
      | error e => simp [Except.toOption]
      | ok k =>
        by_cases hk : k = c <;> simp [ShapeT.applyLen, Except.toOption, hk]

/-- Consecutive shapes of a list fit. -/
def Fits : List (Nat × Nat) → Prop
  | [] => True
  | [_] => True
  | a :: b :: l => a.2 = b.1 ∧ Fits (b :: l)

theorem chainLen_iff : ∀ (l : List (Nat × Nat)), (∃ n k, chainLen l n = some k) ↔ Fits l
  | [] => by simp [chainLen, Fits]
  | [(r, c)] => by
    simp only [chainLen, Fits, iff_true]
    exact ⟨c, r, by simp⟩
  | (r, c) :: (r', c') :: l => by
    rw [Fits, ← chainLen_iff ((r', c') :: l)]
    constructor
    · rintro ⟨n, k, h⟩
      rw [chainLen] at h
      split at h
      · next h' =>
        refine ⟨?_, n, c, h'⟩
        rw [chainLen] at h'
        split at h'
        · simp at h'; exact h'.symm
        · cases h'
      · cases h
    · rintro ⟨e, n, k, h⟩
      simp only at e
      refine ⟨n, r, ?_⟩
      have : k = r' := by
        rw [chainLen] at h
        split at h
        · simp at h; exact h.symm
        · cases h
      rw [chainLen, if_pos (by rw [h, this, e])]

/-- C18. Exactly which compositions can be applied to some array at all: those whose maps of
fixed shape, taken in order and ignoring the free ones, fit together. (The constructor only
compares direct neighbours, `C18_constructor`.) -/
theorem C18_applicable_iff (s : ShapeT) :
    (∃ n k, s.applyLen n = .ok k) ↔ Fits (fixedLeaves s) := by
  rw [← chainLen_iff]
  unfold fixedLeaves
  have h := runLeaves_chainLen (leaves s) (leaves_atomic s)
  simp only [(applyLen_leaves s).1]
  constructor
  · rintro ⟨n, k, e⟩
    refine ⟨n, k, ?_⟩
    rw [← h n, e]; rfl
  · rintro ⟨n, k, e⟩
    rw [← h n] at e
    refine ⟨n, k, ?_⟩
    cases hr : runLeaves (leaves s) n with
    | error x => rw [hr] at e; simp [Except.toOption] at e
    | ok x => rw [hr] at e; simp [Except.toOption] at e; rw [e]

example : (ShapeT.combo [.fixed 3 2, .combo [.fixed 2 4, .fixed 4 7]]).Accepted ∧
    AllFixed (.combo [.fixed 3 2, .combo [.fixed 2 4, .fixed 4 7]]) := by
  refine ⟨⟨by simp, by decide, trivial, ⟨by simp, by decide, trivial, trivial, trivial⟩, trivial⟩,
    trivial, ⟨trivial, trivial, trivial⟩, trivial⟩

/-! ### C51 -/

/-- C51. `SumMap * m` is the sum of the members applied to `m`. -/
theorem C51_sum_value {V : Type} [AddCommGroup V] (fs : List (V → V)) (m : V) (hne : fs ≠ []) :
    sumTransform fs m = .ok ((fs.map fun f => f m).sum) := by
  cases fs with
  | nil => exact absurd rfl hne
  | cons f fs =>
    simp only [sumTransform, List.map_cons, List.sum_cons, Except.ok.injEq]
    have : ∀ (fs : List (V → V)) (a : V),
        fs.foldl (fun acc g => acc + g m) a = a + (fs.map fun f => f m).sum := by
      intro fs
      induction fs with
      | nil => simp
      | cons g fs ih => intro a; simp only [List.foldl_cons, List.map_cons, List.sum_cons, ih]; abel
    exact this fs (f m)

/-- C51 (part that holds). If the first member is not an identity map, `SumMap.deriv(m, v)`
is the sum of the members' Jacobian products and leaves the caller's `v` untouched.
Missing: an identity map first, see `C51_identity_first_corrupts`. -/
theorem C51_sum_deriv_partial {V : Type} [AddCommGroup V] (J : V → V) (fs : List (SumMember V))
    (v : V) :
    ∃ s, sumDerivVec (.fresh J :: fs) v = .ok s ∧ s.v = v ∧
      s.sum = ((SumMember.fresh J :: fs).map fun f => f.jac v).sum := by
  refine ⟨_, rfl, ?_⟩
  have : ∀ (fs : List (SumMember V)) (s : SumState V), s.aliased = false →
      (fs.foldl SumState.step s).v = s.v ∧
      (fs.foldl SumState.step s).sum = s.sum + (fs.map fun f => f.jac s.v).sum := by
    intro fs
    induction fs with
    | nil => intro s _; simp
    | cons f fs ih =>
      intro s hs
      have := ih (s.step f) (by simp [SumState.step, hs])
      simp only [List.foldl_cons, List.map_cons, List.sum_cons]
      rw [this.1, this.2]
      simp [SumState.step, hs, add_assoc]
  have h := this fs ⟨v, SumMember.jac (.fresh J) v, false⟩ rfl
  simpa using h

/-- C51. With exactly two members the returned product is right even if the first is an
identity map, but then the caller's array has been overwritten with the result. -/
theorem C51_two_members {V : Type} [AddCommGroup V] (f : SumMember V) (v : V) :
    ∃ s, sumDerivVec [.identity, f] v = .ok s ∧ s.sum = v + f.jac v ∧ s.v = v + f.jac v :=
  ⟨_, rfl, rfl, rfl⟩

/-- C51 is violated: three members, an identity map first: the product is wrong, and the
caller's direction `v` is changed. -/
theorem C51_identity_first_corrupts :
    ∃ (fs : List (SumMember ℤ)) (v : ℤ) (s : SumState ℤ), sumDerivVec fs v = .ok s ∧
      s.sum ≠ (fs.map fun f => f.jac v).sum ∧ s.v ≠ v :=
  ⟨[.identity, .fresh (fun x => 2 * x), .fresh (fun x => 3 * x)], 1, ⟨12, 12, true⟩, by
    refine ⟨rfl, ?_, ?_⟩ <;> decide⟩

end Verif.Maps.Props
