import Verif.Optim.Minimize
import Mathlib.Data.Matrix.Mul
import Mathlib.Algebra.BigOperators.Intervals
import Mathlib.Algebra.Order.Archimedean.Basic

/-! Model of the search directions and phases of `ProjectedGradient` (`simpeg/optimization.py` 1133-1264),
for C190: steepest descent and conjugate gradients on the free components. -/

noncomputable section
namespace Verif.Optim.Phases
open Verif Matrix Classical

variable {n : Nat}

/-- The two kinds of iterations, `"SD"` and `".CG."`. -/
inductive Kind where
  | sd
  | cg
deriving DecidableEq

/-- The attributes of the phases. `fLast` is `none` for `np.nan`; `fmax` is `f_decrease_max`: `none` if not
yet set, `some none` for `-np.inf`. -/
structure St (n : Nat) where
  fLast : Option ℝ
  fmax : Option (Option ℝ)
  explorePG : Prop
  exploreCG : Prop
  stopPG : Prop
  prev : Fin n → Prop

/-- `startup` (`simpeg/optimization.py` 1155-1166, 555). -/
def start (b : Bounds n) (x0 : V n) : St n := ⟨none, none, True, False, False, b.active x0⟩

/-- The choice of `findSearchDirection` (`simpeg/optimization.py` 1174-1192). -/
def kind (b : Bounds n) (s : St n) (x : V n) : Kind :=
  if s.explorePG ∨ ¬ s.exploreCG ∨ ∀ i, b.active x i then .sd else .cg

/-- What `findSearchDirection` writes (1174, 1200): the active set, and for conjugate gradients the
largest decrease. -/
def found (b : Bounds n) (s : St n) (x : V n) : St n :=
  match kind b s x with
  | .sd => { s with prev := b.active x }
  | .cg => { s with prev := b.active x, fmax := some none }

/-- `max(self.f_decrease_max, f_current_decrease)` (`simpeg/optimization.py` 1245). -/
def joined (m : Option ℝ) (d : ℝ) : ℝ := match m with
  | none => d
  | some a => max a d

/-- `_doEndIteration_ProjectedGradient` (`simpeg/optimization.py` 1231-1250) before `doEndIteration` (831),
in iteration `iter`: `f`, `g` are value and gradient at the present point, `xt` is the next one. Comparisons
with NaN are false. -/
def ended (b : Bounds n) (iter : ℕ) (s : St n) (f : ℝ) (g xt : V n) : Except Err (St n) :=
  let explorePG := ¬ ∀ i, (b.active xt i ↔ s.prev i)
  let exploreCG := ∀ i, (b.active xt i ↔ b.binding g xt i)
  if iter < 1 then .ok ⟨some f, some none, explorePG, exploreCG, s.stopPG, s.prev⟩ else
    match s.fmax, s.fLast with
    | none, _ => .error .attributeError
    | some m, none => .ok ⟨some f, some m, explorePG, exploreCG, False, s.prev⟩
    | some m, some fl =>
        let d := fl - f
        let m' := joined m d
        if d < 0.25 * m' then .ok ⟨some f, some (some m'), False, True, True, s.prev⟩
        else .ok ⟨some f, some (some m'), explorePG, exploreCG, False, s.prev⟩

/-- The direction (`simpeg/optimization.py` 1189-1229). `Z` picks the free components; `solver` is
`sp.linalg.cg`, any function of the reduced matrix and right-hand side. -/
def direction (b : Bounds n) (s : St n) (x g : V n) (H : Matrix (Fin n) (Fin n) ℝ)
    (solver : Matrix {i // ¬ b.active x i} {i // ¬ b.active x i} ℝ → ({i // ¬ b.active x i} → ℝ) →
      {i // ¬ b.active x i} → ℝ) : V n :=
  match kind b s x with
  | .sd => -g
  | .cg => fun i =>
      if h : b.active x i then 0
      else solver (H.submatrix Subtype.val Subtype.val) (fun j => -g j.1) ⟨i, h⟩

/-- The states at the start of the iterations along points `x`, values `f` and gradients `g`. The points are
any: they depend on line searches (C24). -/
def stateAt (b : Bounds n) (x : ℕ → V n) (f : ℕ → ℝ) (g : ℕ → V n) : ℕ → Except Err (St n)
  | 0 => .ok (start b (x 0))
  | k + 1 => match stateAt b x f g k with
    | .error e => .error e
    | .ok s => ended b k (found b s (x k)) (f k) (g k) (x (k + 1))

/-! ### Lemmas -/

theorem found_fLast (b : Bounds n) (s : St n) (x : V n) : (found b s x).fLast = s.fLast := by
  unfold found; cases kind b s x <;> rfl

theorem found_prev (b : Bounds n) (s : St n) (x : V n) : (found b s x).prev = b.active x := by
  unfold found; cases kind b s x <;> rfl

theorem found_fmax (b : Bounds n) (s : St n) (x : V n) :
    (found b s x).fmax = if kind b s x = .cg then some none else s.fmax := by
  unfold found; cases h : kind b s x <;> simp

theorem found_stop (b : Bounds n) (s : St n) (x : V n) : (found b s x).stopPG = s.stopPG := by
  unfold found; cases kind b s x <;> rfl

theorem le_joined (m : Option ℝ) (d : ℝ) : d ≤ joined m d := by
  cases m with
  | none => exact le_rfl
  | some a => exact le_max_right a d

theorem run_exists (b : Bounds n) (x : ℕ → V n) (f : ℕ → ℝ) (g : ℕ → V n) (k : ℕ) :
    ∃ s, stateAt b x f g k = .ok s ∧
      (0 < k → (∃ m, s.fmax = some m) ∧ s.fLast = some (f (k - 1))) := by
  induction k with
  | zero => exact ⟨_, rfl, fun h => absurd h (by omega)⟩
  | succ k ih =>
    obtain ⟨s, hs, hk⟩ := ih
    unfold stateAt
    rw [hs]
    change ∃ s', ended b k (found b s (x k)) (f k) (g k) (x (k + 1)) = .ok s' ∧ _
    unfold ended
    by_cases h0 : k < 1
    · simp only [h0, if_true]
      exact ⟨_, rfl, fun _ => ⟨⟨_, rfl⟩, rfl⟩⟩
    · simp only [h0, if_false]
      obtain ⟨⟨m, hm⟩, hl⟩ := hk (by omega)
      rw [found_fLast, hl]
      obtain ⟨m', hm'⟩ : ∃ m', (found b s (x k)).fmax = some m' := by
        rw [found_fmax]; split_ifs
        · exact ⟨_, rfl⟩
        · exact ⟨m, hm⟩
      rw [hm']
      simp only
      split_ifs
      · exact ⟨_, rfl, fun _ => ⟨⟨_, rfl⟩, rfl⟩⟩
      · exact ⟨_, rfl, fun _ => ⟨⟨_, rfl⟩, rfl⟩⟩

section steps
variable {b : Bounds n} {x : ℕ → V n} {f : ℕ → ℝ} {g : ℕ → V n} {st : ℕ → St n}

theorem step_zero (hst : ∀ k, stateAt b x f g k = .ok (st k)) :
    (st 1).fmax = some none ∧ ¬ (st 1).stopPG ∧
      ((st 1).explorePG ↔ ¬ ∀ i, (b.active (x 1) i ↔ b.active (x 0) i)) ∧
      ((st 1).exploreCG ↔ ∀ i, (b.active (x 1) i ↔ b.binding (g 0) (x 1) i)) := by
  have h0 := hst 0
  have h1 := hst 1
  rw [stateAt] at h0
  injection h0 with h0
  rw [stateAt, hst 0] at h1
  unfold ended at h1
  simp only [Nat.lt_one_iff, if_true] at h1
  injection h1 with h1
  rw [← h1, found_prev, found_stop, ← h0]
  exact ⟨rfl, id, Iff.rfl, Iff.rfl⟩

theorem step_succ (hst : ∀ k, stateAt b x f g k = .ok (st k)) (k : ℕ) (hk : 0 < k) :
    ∃ m, (if kind b (st k) (x k) = .cg then some none else (st k).fmax) = some m ∧
      (st (k + 1)).fmax = some (some (joined m (f (k - 1) - f k))) ∧
      ((st (k + 1)).stopPG ↔ f (k - 1) - f k < 0.25 * joined m (f (k - 1) - f k)) ∧
      ((st (k + 1)).explorePG ↔ ¬ (st (k + 1)).stopPG ∧
        ¬ ∀ i, (b.active (x (k + 1)) i ↔ b.active (x k) i)) ∧
      ((st (k + 1)).exploreCG ↔ (st (k + 1)).stopPG ∨
        ∀ i, (b.active (x (k + 1)) i ↔ b.binding (g k) (x (k + 1)) i)) := by
  obtain ⟨s, hs, hinv⟩ := run_exists b x f g k
  rw [hst k] at hs
  injection hs with hs
  subst hs
  obtain ⟨⟨m0, hm0⟩, hl⟩ := hinv hk
  have h1 := hst (k + 1)
  rw [stateAt, hst k] at h1
  unfold ended at h1
  simp only [show ¬ k < 1 by omega, if_false] at h1
  rw [found_fLast, hl, found_prev] at h1
  obtain ⟨m, hm⟩ : ∃ m, (if kind b (st k) (x k) = .cg then some none else (st k).fmax) = some m := by
    split_ifs
    · exact ⟨_, rfl⟩
    · exact ⟨m0, hm0⟩
  have hf : (found b (st k) (x k)).fmax = some m := by rw [found_fmax]; exact hm
  rw [hf] at h1
  simp only at h1
  refine ⟨m, hm, ?_⟩
  by_cases hd : f (k - 1) - f k < 0.25 * joined m (f (k - 1) - f k)
  · rw [if_pos hd] at h1
    injection h1 with h1
    rw [← h1]
    exact ⟨rfl, ⟨fun _ => hd, fun _ => trivial⟩, by simp, by simp⟩
  · rw [if_neg hd] at h1
    injection h1 with h1
    rw [← h1]
    exact ⟨rfl, ⟨fun h => absurd h id, fun h => absurd h hd⟩, by simp, by simp⟩

end steps

/-! ### C190 -/

/-- **C190.** No iteration reads an attribute that is not set: every run has a state at each iteration. -/
theorem C190_runs (b : Bounds n) (x : ℕ → V n) (f : ℕ → ℝ) (g : ℕ → V n) :
    ∃ st : ℕ → St n, ∀ k, stateAt b x f g k = .ok (st k) := by
  choose st hst _ using run_exists b x f g
  exact ⟨st, hst⟩

/-- **C190.** The direction of an iteration is the negative gradient, or it does not move the components
at their bounds. -/
theorem C190_direction (b : Bounds n) (s : St n) (x g : V n) (H : Matrix (Fin n) (Fin n) ℝ) (solver) :
    (kind b s x = .sd → direction b s x g H solver = -g) ∧
    (kind b s x = .cg → (∀ i, b.active x i → direction b s x g H solver i = 0) ∧
      ∃ i, ¬ b.active x i) := by
  refine ⟨fun h => by unfold direction; rw [h], fun h => ⟨fun i hi => ?_, ?_⟩⟩
  · unfold direction; rw [h]; simp only; rw [dif_pos hi]
  · unfold kind at h
    split_ifs at h with hc
    push Not at hc
    exact hc.2.2

theorem sum_free (b : Bounds n) (x : V n) (u v : V n) (hv : ∀ i, b.active x i → v i = 0) :
    u ⬝ᵥ v = ∑ j : {i // ¬ b.active x i}, u j.1 * v j.1 := by
  unfold dotProduct
  rw [← Finset.sum_subtype (Finset.univ.filter fun i => ¬ b.active x i) (by simp) (fun i => u i * v i),
    Finset.sum_filter]
  refine Finset.sum_congr rfl fun i _ => ?_
  by_cases hi : b.active x i
  · simp [hi, hv i hi]
  · simp [hi]

theorem cg_iff (P A B E : Prop) : (¬ (¬ P ∧ ¬ A) ∧ (P ∨ B) ∧ E) ↔ E ∧ (P ∨ A ∧ B) := by tauto

/-- **C190.** The conjugate gradient direction goes downhill for a positive definite Hessian, also if the
solver stops early: it is enough that the solution found, `p`, has `p·(A p) = p·r`, as every iterate of
conjugate gradients from zero has. -/
theorem C190_descent (b : Bounds n) (s : St n) (x g : V n) (H : Matrix (Fin n) (Fin n) ℝ) (solver)
    (hH : ∀ v : V n, v ≠ 0 → 0 < v ⬝ᵥ (H *ᵥ v)) (hk : kind b s x = .cg)
    (hgal : ∀ A r, solver A r ⬝ᵥ (A *ᵥ solver A r) = solver A r ⬝ᵥ r)
    (hne : direction b s x g H solver ≠ 0) :
    g ⬝ᵥ direction b s x g H solver < 0 := by
  set p := direction b s x g H solver with hp
  set A := H.submatrix (Subtype.val : {i // ¬ b.active x i} → Fin n) Subtype.val with hA
  set r : {i // ¬ b.active x i} → ℝ := fun j => -g j.1 with hr
  have hz : ∀ i, b.active x i → p i = 0 := fun i hi => ((C190_direction b s x g H solver).2 hk).1 i hi
  have hpj : ∀ j : {i // ¬ b.active x i}, p j.1 = solver A r j := by
    intro j
    rw [hp]; unfold direction; rw [hk]; simp only; rw [dif_neg j.2]
  have h1 : g ⬝ᵥ p = -(solver A r ⬝ᵥ r) := by
    rw [sum_free b x g p hz]
    unfold dotProduct
    rw [← Finset.sum_neg_distrib]
    refine Finset.sum_congr rfl fun j _ => ?_
    rw [hpj j, hr]; ring
  have h2 : p ⬝ᵥ (H *ᵥ p) = solver A r ⬝ᵥ (A *ᵥ solver A r) := by
    rw [dotProduct_comm, sum_free b x _ p hz]
    unfold dotProduct
    refine Finset.sum_congr rfl fun j _ => ?_
    rw [hpj j, mul_comm]
    congr 1
    change (fun k => H j.1 k) ⬝ᵥ p = _
    rw [sum_free b x _ p hz]
    unfold mulVec dotProduct
    refine Finset.sum_congr rfl fun k _ => ?_
    rw [hpj k, hA]; rfl
  have h3 := hH p hne
  rw [h2, hgal] at h3
  rw [h1]; linarith

/-- **C190.** The first iteration is of steepest descent. A later one is of conjugate gradients exactly if
some component is free, and either the step before did not change the components at bounds and, with the
gradient at its start, all of these are held there, or the decrease before it was less than a quarter of the
largest one since the last conjugate gradients. -/
theorem C190_kinds (b : Bounds n) (x : ℕ → V n) (f : ℕ → ℝ) (g : ℕ → V n) (st : ℕ → St n)
    (hst : ∀ k, stateAt b x f g k = .ok (st k)) :
    kind b (st 0) (x 0) = .sd ∧
    (kind b (st 1) (x 1) = .cg ↔ (∃ i, ¬ b.active (x 1) i) ∧
      (∀ i, (b.active (x 1) i ↔ b.active (x 0) i)) ∧
      ∀ i, (b.active (x 1) i ↔ b.binding (g 0) (x 1) i)) ∧
    ∀ k, 0 < k → ∃ c D, 1 ≤ c ∧ c ≤ k ∧ (c = 1 ∨ kind b (st c) (x c) = .cg) ∧
      (∀ j, c < j → j ≤ k → kind b (st j) (x j) = .sd) ∧
      (∃ j, c ≤ j ∧ j ≤ k ∧ D = f (j - 1) - f j) ∧
      (∀ j, c ≤ j → j ≤ k → f (j - 1) - f j ≤ D) ∧
      (kind b (st (k + 1)) (x (k + 1)) = .cg ↔ (∃ i, ¬ b.active (x (k + 1)) i) ∧
        (f (k - 1) - f k < D / 4 ∨
          (∀ i, (b.active (x (k + 1)) i ↔ b.active (x k) i)) ∧
          ∀ i, (b.active (x (k + 1)) i ↔ b.binding (g k) (x (k + 1)) i))) := by
  have kcg : ∀ s y, kind b s y = .cg ↔ ¬ s.explorePG ∧ s.exploreCG ∧ ∃ i, ¬ b.active y i := by
    intro s y
    unfold kind
    split_ifs with h
    · refine ⟨fun e => (by cases e), ?_⟩
      rintro ⟨h1, h2, i, h3⟩
      rcases h with h | h | h
      · exact absurd h h1
      · exact absurd h2 h
      · exact absurd (h i) h3
    · push Not at h
      exact ⟨fun _ => h, fun _ => rfl⟩
  have knot : ∀ s y, kind b s y ≠ .cg → kind b s y = .sd := by
    intro s y h
    cases hk : kind b s y
    · rfl
    · exact absurd hk h
  refine ⟨?_, ?_, ?_⟩
  · have h0 := hst 0
    rw [stateAt] at h0
    injection h0 with h0
    rw [← h0]
    unfold kind start
    rw [if_pos (Or.inl trivial)]
  · obtain ⟨_, _, h3, h4⟩ := step_zero hst
    rw [kcg, h3, h4, not_not]
    tauto
  · have main : ∀ k, 0 < k → ∃ c D, 1 ≤ c ∧ c ≤ k ∧ (c = 1 ∨ kind b (st c) (x c) = .cg) ∧
        (∀ j, c < j → j ≤ k → kind b (st j) (x j) = .sd) ∧
        (∃ j, c ≤ j ∧ j ≤ k ∧ D = f (j - 1) - f j) ∧
        (∀ j, c ≤ j → j ≤ k → f (j - 1) - f j ≤ D) ∧ (st (k + 1)).fmax = some (some D) := by
      intro k hk
      induction k, hk using Nat.le_induction with
      | base =>
        obtain ⟨m, hm, hf, _⟩ := step_succ hst 1 (by omega)
        have hmn : m = none := by
          rw [(step_zero hst).1, ite_self] at hm
          exact (Option.some.inj hm).symm
        subst hmn
        refine ⟨1, f (1 - 1) - f 1, le_rfl, le_rfl, Or.inl rfl, fun j h1 h2 => by omega,
          ⟨1, le_rfl, le_rfl, rfl⟩, ?_, hf⟩
        intro j h1 h2
        have : j = 1 := by omega
        subst this
        exact le_rfl
      | succ k hk ih =>
        obtain ⟨c, D, h1, h2, h3, h4, h5, h6, h7⟩ := ih
        obtain ⟨m, hm, hf, _⟩ := step_succ hst (k + 1) (by omega)
        by_cases hc : kind b (st (k + 1)) (x (k + 1)) = .cg
        · rw [if_pos hc] at hm
          have hmn : m = none := (Option.some.inj hm).symm
          subst hmn
          refine ⟨k + 1, f (k + 1 - 1) - f (k + 1), by omega, le_rfl, Or.inr hc,
            fun j h1 h2 => by omega, ⟨k + 1, le_rfl, le_rfl, rfl⟩, ?_, hf⟩
          intro j h1 h2
          have : j = k + 1 := by omega
          subst this
          exact le_rfl
        · rw [if_neg hc, h7] at hm
          have hmn : m = some D := (Option.some.inj hm).symm
          subst hmn
          refine ⟨c, max D (f (k + 1 - 1) - f (k + 1)), h1, by omega, h3, ?_, ?_, ?_, hf⟩
          · intro j hj1 hj2
            by_cases hjk : j ≤ k
            · exact h4 j hj1 hjk
            · have : j = k + 1 := by omega
              subst this
              exact knot _ _ hc
          · obtain ⟨j, hj1, hj2, hj3⟩ := h5
            rcases max_choice D (f (k + 1 - 1) - f (k + 1)) with h | h
            · exact ⟨j, hj1, by omega, by rw [h, hj3]⟩
            · exact ⟨k + 1, by omega, le_rfl, by rw [h]⟩
          · intro j hj1 hj2
            by_cases hjk : j ≤ k
            · exact le_trans (h6 j hj1 hjk) (le_max_left _ _)
            · have : j = k + 1 := by omega
              subst this
              exact le_max_right _ _
    intro k hk
    obtain ⟨c, D, h1, h2, h3, h4, h5, h6, h7⟩ := main k hk
    refine ⟨c, D, h1, h2, h3, h4, h5, h6, ?_⟩
    obtain ⟨m, hm, hf, hs, hp, hg⟩ := step_succ hst k hk
    rw [h7] at hf
    have hD : joined m (f (k - 1) - f k) = D := by
      have := Option.some.inj (Option.some.inj hf)
      exact this.symm
    rw [hD] at hs
    have hq : (0.25 : ℝ) * D = D / 4 := by ring
    rw [hq] at hs
    rw [kcg, hp, hg, hs]
    exact cg_iff _ _ _ _

/-- **C190.** Phases of steepest descent are short: if the iterations `a, …, a + m` are all of steepest
descent with some component free, and the objective has a lower bound `L`, then `m` is at most four times
the possible decrease over the one before the phase. -/
theorem C190_phase (b : Bounds n) (x : ℕ → V n) (f : ℕ → ℝ) (g : ℕ → V n) (st : ℕ → St n)
    (hst : ∀ k, stateAt b x f g k = .ok (st k)) (a m : ℕ) (ha : 0 < a) (L : ℝ) (hL : ∀ k, L ≤ f k)
    (hsd : ∀ j, a < j → j ≤ a + m → kind b (st j) (x j) = .sd ∧ ∃ i, ¬ b.active (x j) i) :
    m * (f (a - 1) - f a) ≤ 4 * (f (a - 1) - L) := by
  have nstop : ∀ j, a ≤ j → j < a + m → ¬ (st (j + 1)).stopPG := by
    intro j h1 h2 hs
    obtain ⟨hk, i, hi⟩ := hsd (j + 1) (by omega) (by omega)
    obtain ⟨_, _, _, _, hp, hg⟩ := step_succ hst j (by omega)
    unfold kind at hk
    split_ifs at hk with hc
    rcases hc with hc | hc | hc
    · exact (hp.mp hc).1 hs
    · exact hc (hg.mpr (Or.inl hs))
    · exact hi (hc i)
  have big : ∀ j, a ≤ j → j ≤ a + m → ∃ D, (st (j + 1)).fmax = some (some D) ∧ f (a - 1) - f a ≤ D := by
    intro j hj
    induction j, hj using Nat.le_induction with
    | base =>
      intro _
      obtain ⟨m', _, hf, _⟩ := step_succ hst a ha
      exact ⟨_, hf, le_joined _ _⟩
    | succ j hj ih =>
      intro h2
      obtain ⟨D, hD, hle⟩ := ih (by omega)
      obtain ⟨m', hm, hf, _⟩ := step_succ hst (j + 1) (by omega)
      have hk := (hsd (j + 1) (by omega) h2).1
      rw [hk, if_neg (by decide), hD] at hm
      have : m' = some D := (Option.some.inj hm).symm
      subst this
      exact ⟨_, hf, le_trans hle (le_max_left _ _)⟩
  have dec : ∀ j, a ≤ j → j < a + m → (f (a - 1) - f a) / 4 ≤ f (j - 1) - f j := by
    intro j h1 h2
    obtain ⟨D, hD, hle⟩ := big j h1 (by omega)
    obtain ⟨m', _, hf, hs, _⟩ := step_succ hst j (by omega)
    rw [hD] at hf
    have e : joined m' (f (j - 1) - f j) = D := (Option.some.inj (Option.some.inj hf)).symm
    rw [e] at hs
    have hns := nstop j h1 h2
    rw [hs] at hns
    push Not at hns
    linarith
  have tot : ∀ k ≤ m, k * ((f (a - 1) - f a) / 4) ≤ f (a - 1) - f (a + k - 1) := by
    intro k
    induction k with
    | zero => intro _; simp
    | succ k ih =>
      intro hk
      have h1 := ih (by omega)
      have h2 := dec (a + k) (by omega) (by omega)
      have e : a + (k + 1) - 1 = a + k := by omega
      rw [e]
      push_cast
      linarith
  have h := tot m le_rfl
  have := hL (a + m - 1)
  linarith

/-- **C190.** Steepest descent does not go on for ever: after every iteration that has decreased an
objective that is bounded below, there is one of conjugate gradients, or one with all components at bounds. -/
theorem C190_turn (b : Bounds n) (x : ℕ → V n) (f : ℕ → ℝ) (g : ℕ → V n) (st : ℕ → St n)
    (hst : ∀ k, stateAt b x f g k = .ok (st k)) (a : ℕ) (ha : 0 < a) (L : ℝ) (hL : ∀ k, L ≤ f k)
    (hd : f a < f (a - 1)) :
    ∃ j > a, kind b (st j) (x j) = .cg ∨ ∀ i, b.active (x j) i := by
  by_contra h
  push Not at h
  obtain ⟨m, hm⟩ := exists_nat_gt (4 * (f (a - 1) - L) / (f (a - 1) - f a))
  have hp : 0 < f (a - 1) - f a := by linarith
  have h1 := C190_phase b x f g st hst a m ha L hL (fun j hj _ => by
    obtain ⟨h2, h3⟩ := h j hj
    refine ⟨?_, h3⟩
    cases hk : kind b (st j) (x j)
    · rfl
    · exact absurd hk h2)
  rw [div_lt_iff₀ hp] at hm
  linarith

/-- The bound of the first of two components. -/
def demoBounds : Bounds 2 := ⟨![some 0, none], fun _ => none⟩

/-- The gradient of `x₀ (1 + 2 x₁) + x₁`. -/
def demoGrad (x : V 2) : V 2 := ![1 + 2 * x 1, 2 * x 0 + 1]

/-- The step from the origin along the negative gradient, projected. -/
def demoPoints (k : ℕ) : V 2 := if k = 0 then ![0, 0] else ![0, -1]

/-- **C190, violated.** Whether all components at bounds are held there is decided with the gradient of the
point before: after one step of steepest descent from the origin for `x₀ (1 + 2 x₁) + x₁` with `0 ≤ x₀`, the
negative gradient at the new point leads away from the bound, yet conjugate gradients keep `x₀` there. -/
theorem C190_violated_binding (f : ℕ → ℝ) (st : ℕ → St 2)
    (hst : ∀ k, stateAt demoBounds demoPoints f (fun k => demoGrad (demoPoints k)) k = .ok (st k)) :
    demoPoints 1 = demoBounds.projection (demoPoints 0 - demoGrad (demoPoints 0)) ∧
    demoBounds.active (demoPoints 1) 0 ∧ demoGrad (demoPoints 1) 0 < 0 ∧
    ¬ demoBounds.binding (demoGrad (demoPoints 1)) (demoPoints 1) 0 ∧
    kind demoBounds (st 1) (demoPoints 1) = .cg := by
  have a0 : ∀ k, demoBounds.active (demoPoints k) 0 := by
    intro k
    left
    exact ⟨0, rfl, by unfold demoPoints; split_ifs <;> simp⟩
  have a1 : ∀ k, ¬ demoBounds.active (demoPoints k) 1 := by
    rintro k (⟨l, hl, _⟩ | ⟨u, hu, _⟩)
    · simp [demoBounds] at hl
    · simp [demoBounds] at hu
  refine ⟨?_, a0 1, by norm_num [demoGrad, demoPoints], ?_, ?_⟩
  · funext i
    fin_cases i
    · norm_num [demoPoints, demoBounds, Bounds.projection, demoGrad]
    · norm_num [demoPoints, demoBounds, Bounds.projection, demoGrad]
  · rintro (⟨l, hl, _, hg⟩ | ⟨u, hu, _⟩)
    · norm_num [demoGrad, demoPoints] at hg
    · simp [demoBounds] at hu
  · rw [(C190_kinds _ _ _ _ st hst).2.1]
    refine ⟨⟨1, a1 1⟩, ?_, ?_⟩
    · intro i
      fin_cases i
      · exact ⟨fun _ => a0 0, fun _ => a0 1⟩
      · exact ⟨fun h => absurd h (a1 1), fun h => absurd h (a1 0)⟩
    · intro i
      fin_cases i
      · exact ⟨fun _ => Or.inl ⟨0, rfl, by simp [demoPoints], by norm_num [demoGrad, demoPoints]⟩,
          fun _ => a0 1⟩
      · refine ⟨fun h => absurd h (a1 1), ?_⟩
        rintro (⟨l, hl, _⟩ | ⟨u, hu, _⟩)
        · simp [demoBounds] at hl
        · simp [demoBounds] at hu

/-! ### Cases -/

/-- Without bounds, along values that halve, the fourth iteration after the start is the last one of
steepest descent at the latest. -/
example : ∃ st : ℕ → St 1, (∀ k, stateAt ⟨fun _ => none, fun _ => none⟩ (fun _ => 0)
      (fun k => (1 / 2 : ℝ) ^ k) (fun _ => 1) k = .ok (st k)) ∧
    ∃ j > 1, kind ⟨fun _ => none, fun _ => none⟩ (st j) (0 : V 1) = .cg ∨
      ∀ i, Bounds.active (n := 1) ⟨fun _ => none, fun _ => none⟩ (0 : V 1) i := by
  obtain ⟨st, hst⟩ := C190_runs (n := 1) ⟨fun _ => none, fun _ => none⟩ (fun _ => 0)
    (fun k => (1 / 2 : ℝ) ^ k) (fun _ => 1)
  exact ⟨st, hst, C190_turn _ _ _ _ st hst 1 one_pos 0 (fun k => by positivity) (by norm_num)⟩

/-- A solver that satisfies the condition of `C190_descent`: for one free component it divides. -/
example : ∀ (A : Matrix (Fin 1) (Fin 1) ℝ) (r : Fin 1 → ℝ), A 0 0 ≠ 0 →
    (fun _ => r 0 / A 0 0 : Fin 1 → ℝ) ⬝ᵥ (A *ᵥ fun _ => r 0 / A 0 0) = (fun _ => r 0 / A 0 0) ⬝ᵥ r := by
  intro A r h
  simp only [dotProduct, mulVec, Finset.univ_unique, Fin.default_eq_zero, Finset.sum_singleton]
  field_simp

end Verif.Optim.Phases
