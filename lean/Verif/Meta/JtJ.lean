import Verif.Meta.Layout
import Mathlib.Analysis.Real.Sqrt
import Mathlib.Algebra.BigOperators.Fin

/-! Model of `MetaSimulation.getJtJdiag` (`simpeg/meta/simulation.py` 257-329) and
`SumMetaSimulation.getJtJdiag` (409-423). -/

noncomputable section
namespace Verif.Meta.JtJ
open Verif Matrix Verif.Meta

/-- A member at a fixed model: the derivative of its mapping, its Jacobian `J` and its
`getJtJdiag(m, W)` as a function of the diagonal of `W`. -/
structure Mem (n : Nat) where
  k : Nat
  nd : Nat
  D : Matrix (Fin k) (Fin n) ℝ
  J : Matrix (Fin nd) (Fin k) ℝ
  jtj : (Fin nd → ℝ) → (Fin k → ℝ)

variable {n : Nat}

/-- The contribution of a member (318-322): column sums of squares of
`diag(sqrt(jtj)) @ m_deriv`. -/
def contribution (s : Mem n) (w : Fin s.nd → ℝ) : Fin n → ℝ :=
  fun j => ∑ i, (Real.sqrt (s.jtj w i) * s.D i j) ^ 2

/-- The loop (312-322), `W` the diagonal of the weights. -/
def jtjLoop (offs : List Nat) (W : List ℝ) : Nat → List (Mem n) → (Fin n → ℝ) →
    Except Err (Fin n → ℝ)
  | _, [], acc => .ok acc
  | i, s :: ss, acc =>
    match asVec s.nd ((W.drop (offs.getD i 0)).take (offs.getD (i + 1) 0 - offs.getD i 0)) with
    | .error e => .error e
    | .ok w => jtjLoop offs W (i + 1) ss (acc + contribution s w)

/-- The computation (294-323) when nothing is cached. -/
def compute (ms : List (Mem n)) (W : List ℝ) : Except Err (Fin n → ℝ) :=
  jtjLoop (offsets 0 (ms.map (·.nd))) W 0 ms 0

/-- The object: members at each model, current model and cached diagonal (`_jtjdiag`). -/
structure St (X : Type) (n : Nat) where
  model : Option X
  cache : Option (Fin n → ℝ)

/-- `getJtJdiag(m, W)` (294-325); the cache is deleted when the model changes (327-329),
`close` being the comparison of models. -/
def get {X : Type} (ms : X → List (Mem n)) (close : X → X → Bool) (s : St X n) (m : X)
    (W : List ℝ) : Except Err (Fin n → ℝ) × St X n :=
  let cache := match s.model with
    | none => none
    | some p => if close p m then s.cache else none
  match cache with
  | some d => (.ok d, ⟨some m, some d⟩)
  | none => match compute (ms m) W with
    | .error e => (.error e, ⟨some m, none⟩)
    | .ok d => (.ok d, ⟨some m, some d⟩)

namespace Props

/-- Specification: entry `j` of the diagonal of `Jᵀ Wᵀ W J`, for `J` the stacked Jacobians
`J_s D_s` and `W` the diagonal matrix with the given weights, in the order of the members. -/
def Diag (j : Fin n) : List (Mem n) → List ℝ → ℝ
  | [], _ => 0
  | s :: ss, W => (∑ d : Fin s.nd, (W.getD d.1 0 * (s.J * s.D) d j) ^ 2) + Diag j ss (W.drop s.nd)

/-- The member's own `getJtJdiag` is right. -/
def MemberRight (s : Mem n) : Prop := ∀ w i, s.jtj w i = ∑ d, (w d * s.J d i) ^ 2

/-- Every model parameter enters at most one output of the mapping. -/
def OneOutput (s : Mem n) : Prop := ∀ j i i', s.D i j ≠ 0 → s.D i' j ≠ 0 → i = i'

theorem contribution_eq (s : Mem n) (hr : MemberRight s) (h1 : OneOutput s) (w : Fin s.nd → ℝ)
    (j : Fin n) : contribution s w j = ∑ d, (w d * (s.J * s.D) d j) ^ 2 := by
  unfold contribution
  have hsq : ∀ i, (Real.sqrt (s.jtj w i) * s.D i j) ^ 2 = s.jtj w i * s.D i j ^ 2 := by
    intro i
    rw [mul_pow, Real.sq_sqrt]
    rw [hr]; positivity
  simp only [hsq]
  by_cases hz : ∀ i, s.D i j = 0
  · have : ∀ d, (s.J * s.D) d j = 0 := by
      intro d; simp [Matrix.mul_apply, hz]
    simp [hz, this]
  · push Not at hz
    obtain ⟨i0, hi0⟩ := hz
    have hne : ∀ i, i ≠ i0 → s.D i j = 0 := by
      intro i hi
      by_contra hc
      exact hi (h1 j i i0 hc hi0)
    have hJ : ∀ d, (s.J * s.D) d j = s.J d i0 * s.D i0 j := by
      intro d
      rw [Matrix.mul_apply, Finset.sum_eq_single i0]
      · intro i _ hi; rw [hne i hi, mul_zero]
      · simp
    rw [Finset.sum_eq_single i0]
    · rw [hr, Finset.sum_mul]
      apply Finset.sum_congr rfl
      intro d _
      rw [hJ]; ring
    · intro i _ hi; rw [hne i hi]; ring
    · simp

theorem loop_spec (W : List ℝ) : ∀ (pre ss : List (Mem n)) (acc : Fin n → ℝ),
    (∀ s ∈ ss, MemberRight s ∧ OneOutput s) → W.length = ((pre ++ ss).map (·.nd)).sum →
    ∃ r, jtjLoop (offsets 0 ((pre ++ ss).map (·.nd))) W pre.length ss acc = .ok r ∧
      ∀ j, r j = acc j + Diag j ss (W.drop (pre.map (·.nd)).sum)
  | pre, [], acc, _, _ => ⟨acc, rfl, by simp [Diag]⟩
  | pre, s :: ss, acc, hs, hlen => by
    simp only [jtjLoop]
    have o1 : (offsets 0 ((pre ++ s :: ss).map (·.nd))).getD pre.length 0 =
        (pre.map (·.nd)).sum := by
      rw [Meta.Props.offsets_getD _ _ _ (by simp)]
      simp [List.take_append]
    have o2 : (offsets 0 ((pre ++ s :: ss).map (·.nd))).getD (pre.length + 1) 0 =
        (pre.map (·.nd)).sum + s.nd := by
      rw [Meta.Props.offsets_getD _ _ _ (by simp)]
      simp [List.take_append, List.take_of_length_le]
    rw [o1, o2, Nat.add_sub_cancel_left]
    have hl : ((W.drop (pre.map (·.nd)).sum).take s.nd).length = s.nd := by
      simp only [List.length_take, List.length_drop, hlen, List.map_append, List.map_cons,
        List.sum_append, List.sum_cons]
      omega
    simp only [asVec, hl, dif_pos]
    obtain ⟨r, h1, h2⟩ := loop_spec W (pre ++ [s]) ss
      (acc + contribution s fun i =>
        ((W.drop (pre.map (·.nd)).sum).take s.nd)[i.1]'(hl.symm ▸ i.2))
      (fun t ht => hs t (by simp [ht])) (by rw [hlen]; simp)
    refine ⟨r, ?_, ?_⟩
    · rw [← h1]; simp
    · intro j
      rw [h2, Pi.add_apply, contribution_eq s (hs s (by simp)).1 (hs s (by simp)).2, Diag,
        List.drop_drop, add_assoc]
      congr 2
      · apply Finset.sum_congr rfl
        intro d _
        congr 2
        rw [List.getElem_take, List.getD_eq_getElem?_getD, List.getElem?_eq_getElem]
        · rfl
      · simp

/-- C31. With nothing cached, `getJtJdiag` is the diagonal of `Jᵀ Wᵀ W J`, for diagonal `W`,
members that compute theirs right, and mappings in which every parameter enters at most one
output (projections, injections, scalings). What is missing: other mappings
(`C31_wrong_for_mixing_map`) and repeated calls (`C31_weights_are_stale`). -/
theorem C31_diagonal_partial (ms : List (Mem n)) (W : List ℝ)
    (hs : ∀ s ∈ ms, MemberRight s ∧ OneOutput s) (hW : W.length = (ms.map (·.nd)).sum) :
    ∃ r, compute ms W = .ok r ∧ ∀ j, r j = Diag j ms W := by
  obtain ⟨r, h1, h2⟩ := loop_spec W [] ms 0 hs (by simpa using hW)
  exact ⟨r, h1, by intro j; rw [h2]; simp⟩

/-- C31. Repeated calls with one `W` are right in every history of models, provided that
`close` only identifies equal models. -/
theorem C31_history_partial {X : Type} (ms : X → List (Mem n)) (close : X → X → Bool)
    (hc : ∀ a b, close a b = true → a = b) (W : List ℝ)
    (hs : ∀ m, ∀ s ∈ ms m, MemberRight s ∧ OneOutput s)
    (hW : ∀ m, W.length = ((ms m).map (·.nd)).sum) (calls : List X) (m : X) :
    ∃ r, (get ms close (calls.foldl (fun s x => (get ms close s x W).2) ⟨none, none⟩) m W).1 = .ok r ∧
      ∀ j, r j = Diag j (ms m) W := by
  have inv : ∀ (calls : List X) (s : St X n),
      (∀ d, s.cache = some d → ∃ p, s.model = some p ∧ ∀ j, d j = Diag j (ms p) W) →
      ∀ d, (calls.foldl (fun s x => (get ms close s x W).2) s).cache = some d →
        ∃ p, (calls.foldl (fun s x => (get ms close s x W).2) s).model = some p ∧
          ∀ j, d j = Diag j (ms p) W := by
    intro calls
    induction calls with
    | nil => intro s h; exact h
    | cons x xs ih =>
      intro s h
      apply ih
      intro d hd
      unfold get at hd ⊢
      simp only at hd ⊢
      split at hd
      · next d' hcache =>
        cases hd
        split at hcache
        · cases hcache
        · next p hp =>
          split at hcache
          · next hcl =>
            obtain ⟨p', h1, h2⟩ := h d hcache
            rw [hp] at h1; cases h1
            rw [hc _ _ hcl] at h2
            exact ⟨x, rfl, h2⟩
          · cases hcache
      · next hcache =>
        obtain ⟨r, h1, h2⟩ := C31_diagonal_partial (ms x) W (hs x) (hW x)
        simp only [h1] at hd ⊢
        cases hd
        exact ⟨x, rfl, h2⟩
  have hI := inv calls ⟨none, none⟩ (by simp)
  generalize calls.foldl (fun s x => (get ms close s x W).2) (⟨none, none⟩ : St X n) = s at hI
  obtain ⟨r, h1, h2⟩ := C31_diagonal_partial (ms m) W (hs m) (hW m)
  unfold get
  simp only
  split
  · next d hcache =>
    refine ⟨d, rfl, ?_⟩
    split at hcache
    · cases hcache
    · next p hp =>
      split at hcache
      · next hcl =>
        obtain ⟨p', h3, h4⟩ := hI d hcache
        rw [hp] at h3; cases h3
        rw [hc _ _ hcl] at h4
        exact h4
      · cases hcache
  · rw [h1]; exact ⟨r, rfl, h2⟩

/-- One datum, and one parameter sent to `k` outputs; the datum is the sum of the outputs. -/
abbrev fan (k : Nat) : Mem 1 :=
  ⟨k, 1, Matrix.of fun _ _ => 1, Matrix.of fun _ _ => 1, fun w _ => (w 0) ^ 2⟩

theorem fan_right (k : Nat) : MemberRight (fan k) := by
  intro w i
  change (w 0) ^ 2 = ∑ d : Fin 1, (w d * 1) ^ 2
  rw [Finset.univ_unique, Finset.sum_singleton]; simp

theorem fan_one : OneOutput (fan 1) := fun _ i i' _ _ => Subsingleton.elim (α := Fin 1) i i'

theorem fan_diag (k : Nat) (x : ℝ) : Diag 0 [fan k] [x] = (x * k) ^ 2 := by
  have h : ∀ d : Fin 1, ((fan k).J * (fan k).D) d 0 = k := by
    intro d
    rw [Matrix.mul_apply]
    simp
  simp only [Diag, h]
  rw [Finset.univ_unique, Finset.sum_singleton]
  simp

theorem fan_compute (k : Nat) (x : ℝ) : ∃ r, compute [fan k] [x] = .ok r ∧ r 0 = k * x ^ 2 := by
  refine ⟨0 + contribution (fan k) (fun _ => x), ?_, ?_⟩
  · have h : asVec 1 [x] = .ok fun _ => x := by
      unfold asVec
      rw [dif_pos (by simp)]
      congr 1
      funext i
      have hi : i.1 = 0 := Nat.lt_one_iff.mp i.2
      simp
    change (match asVec 1 [x] with
      | Except.error e => Except.error e
      | Except.ok w => Except.ok (0 + contribution (fan k) w)) = _
    rw [h]
  · rw [zero_add]
    unfold contribution
    change ∑ i : Fin k, (Real.sqrt (x ^ 2) * 1) ^ 2 = _
    simp only [mul_one, Real.sq_sqrt (sq_nonneg x)]
    simp

/-- Non-trivial instance of the hypotheses of `C31_diagonal_partial`. -/
example : ∀ s ∈ [fan 1, fan 1], MemberRight s ∧ OneOutput s := by
  simpa using ⟨fan_right 1, fan_one⟩

/-- C31 fails for a second call with other weights: the first result is returned. -/
theorem C31_weights_are_stale : ∃ (W W' : List ℝ) (r : Fin 1 → ℝ),
    let s := (get (fun _ : Unit => [fan 1]) (fun _ _ => true) ⟨none, none⟩ () W).2
    (get (fun _ : Unit => [fan 1]) (fun _ _ => true) s () W').1 = .ok r ∧
      r 0 ≠ Diag 0 [fan 1] W' := by
  obtain ⟨r, h1, h2⟩ := fan_compute 1 1
  refine ⟨[1], [2], r, ?_⟩
  simp only [get, h1, if_true]
  refine ⟨trivial, ?_⟩
  rw [h2, fan_diag]
  norm_num

/-- C31 fails for mappings in which a parameter enters two outputs. -/
theorem C31_wrong_for_mixing_map : MemberRight (fan 2) ∧
    ∃ r, compute [fan 2] [1] = .ok r ∧ r 0 ≠ Diag 0 [fan 2] [1] := by
  obtain ⟨r, h1, h2⟩ := fan_compute 2 1
  refine ⟨fan_right 2, r, h1, ?_⟩
  rw [h2, fan_diag]
  norm_num

end Props
end Verif.Meta.JtJ
