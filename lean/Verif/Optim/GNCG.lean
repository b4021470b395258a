import Verif.Optim.Minimize
import Mathlib.Algebra.BigOperators.Fin

/-! Model of `ProjectedGNCG.findSearchDirection` (`simpeg/optimization.py` 1624-1711). -/

noncomputable section
namespace Verif.Optim.GNCG
open Verif Matrix Classical

variable {n : Nat}

/-- What a search direction depends on: the gradient, the Hessian, the preconditioner
`approxHinv` and the masks `active`, `bound` (as predicates), the tolerances. The division
`x / 0 = 0` of the model differs from numpy's `nan`/`inf` only when `p·Hp = 0` or `sold = 0`,
which `C54_denominators_positive` excludes on reachable states. -/
structure Problem (n : Nat) where
  g : V n
  H : Matrix (Fin n) (Fin n) ℝ
  M : V n → V n
  active : Fin n → Prop
  bound : Fin n → Prop
  rtol : ℝ
  atol : ℝ
  maxiter : Nat
  stepActive : Bool
  scale : ℝ

/-- `mask * v` for a boolean mask. -/
def mask (s : Fin n → Prop) (v : V n) : V n := fun i => if s i then v i else 0

/-- State of the CG loop (1644-1672). -/
structure CG (n : Nat) where
  step : V n
  r : V n
  p : V n
  sold : ℝ
  count : Nat

def cgInit (P : Problem n) : CG n :=
  let r := mask (fun i => ¬ P.active i) (-P.g)
  ⟨0, r, P.M r, r ⬝ᵥ P.M r, 0⟩

/-- One CG iteration (1654-1672). -/
def cgStep (P : Problem n) (c : CG n) : CG n :=
  let q := mask (fun i => ¬ P.active i) (P.H *ᵥ c.p)
  let alpha := c.sold / (c.p ⬝ᵥ q)
  let r := c.r - alpha • q
  let h := P.M r
  let snew := r ⬝ᵥ h
  ⟨c.step + alpha • c.p, r, h + (snew / c.sold) • c.p, snew, c.count + 1⟩

/-- `atol = max(cg_rtol * norm(r_norm0), cg_atol)` (1648). -/
def target (P : Problem n) : ℝ := max (P.rtol * |norm2 (cgInit P).r|) P.atol

/-- The loop (1652-1672); `fuel` is `cg_maxiter - count`. -/
def cgLoop (P : Problem n) : Nat → CG n → CG n
  | 0, c => c
  | fuel + 1, c => if norm2 c.r > target P then cgLoop P fuel (cgStep P c) else c

def cgRun (P : Problem n) : CG n := cgLoop P P.maxiter (cgInit P)

/-- `max(abs(v))`. -/
def amax [NeZero n] (v : V n) : ℝ := pmax fun i => |v i|

/-- `findSearchDirection` (1624-1711). -/
def direction [NeZero n] (P : Problem n) : V n :=
  let step := (cgRun P).step
  let anb : Fin n → Prop := fun i => P.active i ∧ ¬ P.bound i
  let step := if P.stepActive = true ∧ ∃ i, anb i then
      let rhs := mask anb (-P.g)
      step + P.scale • (amax step / amax rhs) • rhs
    else step
  fun i => if P.bound i then 0 else step i

namespace Props

/-- The preconditioner is linear, symmetric, positive definite and does not mix active with
inactive cells (every diagonal one, such as that of `UpdatePreconditioner`, is of this kind). -/
structure GoodM (P : Problem n) : Prop where
  add : ∀ u v, P.M (u + v) = P.M u + P.M v
  smul : ∀ (c : ℝ) u, P.M (c • u) = c • P.M u
  symm : ∀ u v, u ⬝ᵥ P.M v = v ⬝ᵥ P.M u
  pos : ∀ u, u ≠ 0 → 0 < u ⬝ᵥ P.M u
  inactive : ∀ u, (∀ i, P.active i → u i = 0) → ∀ i, P.active i → P.M u i = 0

/-- The Hessian is symmetric positive definite. -/
structure GoodH (P : Problem n) : Prop where
  symm : ∀ u v, u ⬝ᵥ (P.H *ᵥ v) = v ⬝ᵥ (P.H *ᵥ u)
  pos : ∀ u, u ≠ 0 → 0 < u ⬝ᵥ (P.H *ᵥ u)

theorem dot_mask (P : Problem n) (u v : V n) (hu : ∀ i, P.active i → u i = 0) :
    u ⬝ᵥ mask (fun i => ¬ P.active i) v = u ⬝ᵥ v := by
  apply Finset.sum_congr rfl
  intro i _
  unfold mask
  by_cases h : P.active i
  · rw [hu i h]; simp
  · simp [h]

/-- The state after `k` iterations. -/
def cgIter (P : Problem n) : Nat → CG n
  | 0 => cgInit P
  | k + 1 => cgStep P (cgIter P k)

theorem iter_inactive (P : Problem n) (hM : GoodM P) : ∀ k,
    (∀ i, P.active i → (cgIter P k).r i = 0) ∧ (∀ i, P.active i → (cgIter P k).p i = 0) ∧
    (∀ i, P.active i → (cgIter P k).step i = 0)
  | 0 => by
    have h : ∀ i, P.active i → (cgInit P).r i = 0 := by
      intro i hi; simp [cgInit, mask, hi]
    exact ⟨h, hM.inactive _ h, fun i _ => rfl⟩
  | k + 1 => by
    obtain ⟨h1, h2, h3⟩ := iter_inactive P hM k
    have hr : ∀ i, P.active i → (cgIter P (k + 1)).r i = 0 := by
      intro i hi
      simp [cgIter, cgStep, mask, hi, h1 i hi]
    refine ⟨hr, ?_, ?_⟩
    · intro i hi
      have := hM.inactive _ hr i hi
      simp only [cgIter, cgStep, Pi.add_apply, Pi.smul_apply, h2 i hi, smul_zero, add_zero] at this ⊢
      exact this
    · intro i hi
      simp [cgIter, cgStep, h2 i hi, h3 i hi]

theorem iter_sold (P : Problem n) : ∀ k, (cgIter P k).sold = (cgIter P k).r ⬝ᵥ P.M (cgIter P k).r
  | 0 => rfl
  | k + 1 => rfl

/-- The step length of iteration `k`. -/
def alpha (P : Problem n) (k : Nat) : ℝ :=
  (cgIter P k).sold / ((cgIter P k).p ⬝ᵥ mask (fun i => ¬ P.active i) (P.H *ᵥ (cgIter P k).p))

theorem r_succ (P : Problem n) (k : Nat) : (cgIter P (k + 1)).r =
    (cgIter P k).r - alpha P k • mask (fun i => ¬ P.active i) (P.H *ᵥ (cgIter P k).p) := rfl

theorem p_succ (P : Problem n) (k : Nat) : (cgIter P (k + 1)).p = P.M (cgIter P (k + 1)).r +
    ((cgIter P (k + 1)).sold / (cgIter P k).sold) • (cgIter P k).p := rfl

/-- The orthogonality relations of conjugate gradients at iteration `k`. -/
structure Ortho (P : Problem n) (k : Nat) : Prop where
  rp : ∀ j < k, (cgIter P k).r ⬝ᵥ (cgIter P j).p = 0
  rMr : ∀ j < k, (cgIter P k).r ⬝ᵥ P.M (cgIter P j).r = 0
  pHp : ∀ j < k, (cgIter P k).p ⬝ᵥ (P.H *ᵥ (cgIter P j).p) = 0
  rpk : (cgIter P k).r ⬝ᵥ (cgIter P k).p = (cgIter P k).sold

theorem ortho (P : Problem n) (hM : GoodM P) (hH : GoodH P) : ∀ k,
    (∀ j < k, (cgIter P j).r ≠ 0) → ∀ i ≤ k, Ortho P i
  | 0, _, i, hi => by
    obtain rfl : i = 0 := by omega
    exact ⟨by simp, by simp, by simp, rfl⟩
  | k + 1, hne, i, hi => by
    have ih := ortho P hM hH k (fun j hj => hne j (by omega))
    rcases Nat.lt_or_eq_of_le hi with hlt | rfl
    · exact ih i (by omega)
    -- abbreviations
    have hk := ih k le_rfl
    have ina := iter_inactive P hM
    have hsold : 0 < (cgIter P k).sold := by
      rw [iter_sold]; exact hM.pos _ (hne k (by omega))
    have hpk : (cgIter P k).p ≠ 0 := by
      intro e
      have := hk.rpk
      rw [e, dotProduct_zero] at this
      linarith
    have hpHp : 0 < (cgIter P k).p ⬝ᵥ (P.H *ᵥ (cgIter P k).p) := hH.pos _ hpk
    have hal : alpha P k = (cgIter P k).sold / ((cgIter P k).p ⬝ᵥ (P.H *ᵥ (cgIter P k).p)) := by
      rw [alpha, dot_mask P _ _ (ina k).2.1]
    have hal0 : alpha P k ≠ 0 := by rw [hal]; positivity
    -- dot of the new residual with any inactive vector
    have rdot : ∀ u : V n, (∀ i, P.active i → u i = 0) → (cgIter P (k + 1)).r ⬝ᵥ u =
        (cgIter P k).r ⬝ᵥ u - alpha P k * (u ⬝ᵥ (P.H *ᵥ (cgIter P k).p)) := by
      intro u hu
      rw [r_succ, sub_dotProduct, smul_dotProduct, smul_eq_mul, dotProduct_comm (mask _ _) u,
        dot_mask P _ _ hu]
    have rp : ∀ j < k + 1, (cgIter P (k + 1)).r ⬝ᵥ (cgIter P j).p = 0 := by
      intro j hj
      rw [rdot _ (ina j).2.1]
      rcases Nat.lt_or_eq_of_le (Nat.le_of_lt_succ hj) with hj' | rfl
      · rw [hk.rp j hj', hH.symm, hk.pHp j hj']; simp
      · rw [hk.rpk, hal]; field_simp; simp
    have rMr : ∀ j < k + 1, (cgIter P (k + 1)).r ⬝ᵥ P.M (cgIter P j).r = 0 := by
      intro j hj
      cases j with
      | zero => exact rp 0 hj
      | succ j =>
        have hpj : P.M (cgIter P (j + 1)).r = (cgIter P (j + 1)).p -
            ((cgIter P (j + 1)).sold / (cgIter P j).sold) • (cgIter P j).p := by
          rw [p_succ]; simp
        rw [hpj, dotProduct_sub, dotProduct_smul, rp (j + 1) hj, rp j (by omega)]
        simp
    refine ⟨rp, rMr, ?_, ?_⟩
    · intro j hj
      have hMina : ∀ i, P.active i → P.M (cgIter P (k + 1)).r i = 0 :=
        hM.inactive _ (ina (k + 1)).1
      -- the new residual differences give `H p_j`
      have hdiff : ∀ j, (cgIter P (k + 1)).r ⬝ᵥ P.M (cgIter P (j + 1)).r =
          (cgIter P (k + 1)).r ⬝ᵥ P.M (cgIter P j).r -
          alpha P j * (P.M (cgIter P (k + 1)).r ⬝ᵥ (P.H *ᵥ (cgIter P j).p)) := by
        intro j
        have e : P.M (cgIter P (j + 1)).r = P.M (cgIter P j).r + (-alpha P j) •
            P.M (mask (fun i => ¬ P.active i) (P.H *ᵥ (cgIter P j).p)) := by
          rw [← hM.smul, ← hM.add, r_succ]
          congr 1
          rw [neg_smul, sub_eq_add_neg]
        rw [e, dotProduct_add, dotProduct_smul, smul_eq_mul, hM.symm _ (mask _ _),
          dotProduct_comm (mask _ _), dot_mask P _ _ hMina]
        ring
      rw [p_succ, add_dotProduct, smul_dotProduct, smul_eq_mul]
      rcases Nat.lt_or_eq_of_le (Nat.le_of_lt_succ hj) with hj' | rfl
      · rw [hk.pHp j hj', mul_zero, add_zero]
        have h1 := hdiff j
        rw [rMr (j + 1) (by omega), rMr j (by omega)] at h1
        have hsj : 0 < (cgIter P j).sold := by
          rw [iter_sold]; exact hM.pos _ (hne j (by omega))
        have hpj : (cgIter P j).p ≠ 0 := by
          intro e
          have := (ih j (by omega)).rpk
          rw [e, dotProduct_zero] at this
          linarith
        have halj : alpha P j ≠ 0 := by
          rw [alpha, dot_mask P _ _ (ina j).2.1]
          have := hH.pos _ hpj
          positivity
        have : alpha P j * (P.M (cgIter P (k + 1)).r ⬝ᵥ (P.H *ᵥ (cgIter P j).p)) = 0 := by linarith
        exact (mul_eq_zero.mp this).resolve_left halj
      · have h1 := hdiff j
        rw [← iter_sold, rMr j (by omega)] at h1
        have h2 : P.M (cgIter P (j + 1)).r ⬝ᵥ (P.H *ᵥ (cgIter P j).p) =
            -(cgIter P (j + 1)).sold / alpha P j := by
          field_simp; linarith
        rw [h2, hal]
        field_simp
        simp
    · rw [p_succ, dotProduct_add, dotProduct_smul, rp k (by omega), smul_zero, add_zero,
        ← iter_sold]

/-- The part of the step along `-g` grows with every iteration. -/
theorem step_dot (P : Problem n) (hM : GoodM P) (hH : GoodH P) : ∀ k,
    (∀ j < k, (cgIter P j).r ≠ 0) →
    (k = 0 ∨ P.g ⬝ᵥ (cgIter P k).step < 0)
  | 0, _ => Or.inl rfl
  | k + 1, hne => by
    right
    have ih := step_dot P hM hH k (fun j hj => hne j (by omega))
    have ho := ortho P hM hH k (fun j hj => hne j (by omega))
    have ina := iter_inactive P hM
    have hsold : 0 < (cgIter P k).sold := by
      rw [iter_sold]; exact hM.pos _ (hne k (by omega))
    have hpk : (cgIter P k).p ≠ 0 := by
      intro e
      have := (ho k le_rfl).rpk
      rw [e, dotProduct_zero] at this
      linarith
    have hal : 0 < alpha P k := by
      rw [alpha, dot_mask P _ _ (ina k).2.1]
      have := hH.pos _ hpk
      positivity
    -- `r_0 · p_k = r_k · p_k`
    have hr : ∀ j ≤ k, (cgIter P j).r ⬝ᵥ (cgIter P k).p = (cgIter P k).sold := by
      intro j hj
      induction hd : k - j generalizing j with
      | zero => obtain rfl : j = k := by omega
                exact (ho j le_rfl).rpk
      | succ d ihd =>
        have h1 := ihd (j + 1) (by omega) (by omega)
        rw [r_succ, sub_dotProduct, smul_dotProduct, smul_eq_mul, dotProduct_comm (mask _ _),
          dot_mask P _ _ (ina k).2.1, (ho k le_rfl).pHp j (by omega)] at h1
        linarith
    have h0 : P.g ⬝ᵥ (cgIter P k).p = -(cgIter P k).sold := by
      have := hr 0 (by omega)
      rw [show (cgIter P 0).r = mask (fun i => ¬ P.active i) (-P.g) from rfl, dotProduct_comm,
        dot_mask P _ _ (ina k).2.1, dotProduct_neg, dotProduct_comm] at this
      linarith
    have hs : (cgIter P (k + 1)).step = (cgIter P k).step + alpha P k • (cgIter P k).p := rfl
    rw [hs, dotProduct_add, dotProduct_smul, smul_eq_mul, h0]
    have : 0 < alpha P k * (cgIter P k).sold := by positivity
    rcases ih with rfl | ih
    · have : P.g ⬝ᵥ (cgIter P 0).step = 0 := by simp [cgIter, cgInit]
      linarith
    · linarith

theorem norm2_pos {v : V n} : 0 < norm2 v → v ≠ 0 := by
  rintro h rfl
  simp [norm2] at h

theorem cgLoop_iter (P : Problem n) (ht : 0 ≤ P.atol) : ∀ (fuel k : Nat),
    ∃ m, k ≤ m ∧ m ≤ k + fuel ∧ cgLoop P fuel (cgIter P k) = cgIter P m ∧
      (∀ j, k ≤ j → j < m → target P < norm2 (cgIter P j).r) ∧
      (m < k + fuel → norm2 (cgIter P m).r ≤ target P)
  | 0, k => ⟨k, by omega, by omega, rfl, by omega, by omega⟩
  | fuel + 1, k => by
    simp only [cgLoop]
    split
    · next h =>
      obtain ⟨m, h1, h2, h3, h4, h5⟩ := cgLoop_iter P ht fuel (k + 1)
      refine ⟨m, by omega, by omega, h3, fun j hj hjm => ?_, fun hm => h5 (by omega)⟩
      rcases Nat.lt_or_eq_of_le hj with hj' | rfl
      · exact h4 j (by omega) hjm
      · exact h
    · next h => exact ⟨k, le_rfl, by omega, rfl, by omega, fun _ => not_lt.mp h⟩

theorem target_nonneg (P : Problem n) (ht : 0 ≤ P.atol) : 0 ≤ target P :=
  le_trans ht (le_max_right _ _)

theorem count_iter (P : Problem n) : ∀ k, (cgIter P k).count = k
  | 0 => rfl
  | k + 1 => by change (cgIter P k).count + 1 = _; rw [count_iter P k]

/-- C54. The CG loop makes at most `cg_maxiter` iterations; if it makes fewer, the residual on
the free cells meets the tolerance. -/
theorem C54_cg_bounded (P : Problem n) (ht : 0 ≤ P.atol) :
    (cgRun P).count ≤ P.maxiter ∧
    ((cgRun P).count < P.maxiter → norm2 (cgRun P).r ≤ target P) := by
  obtain ⟨m, -, h2, h3, -, h5⟩ := cgLoop_iter P ht P.maxiter 0
  rw [cgRun, show cgInit P = cgIter P 0 from rfl, h3, count_iter]
  exact ⟨by omega, fun h => h5 (by omega)⟩

/-- C54. With a Hessian and a preconditioner as above, no division by zero happens in the
loop: `p·Hp` and `r·Mr` are positive at every iteration that is made. -/
theorem C54_denominators_positive (P : Problem n) (hM : GoodM P) (hH : GoodH P) (k : Nat)
    (hne : ∀ j ≤ k, 0 < norm2 (cgIter P j).r) :
    0 < (cgIter P k).p ⬝ᵥ mask (fun i => ¬ P.active i) (P.H *ᵥ (cgIter P k).p) ∧
    0 < (cgIter P k).sold := by
  have ho := ortho P hM hH k (fun j hj => norm2_pos (hne j (by omega))) k le_rfl
  have hsold : 0 < (cgIter P k).sold := by
    rw [iter_sold]; exact hM.pos _ (norm2_pos (hne k le_rfl))
  refine ⟨?_, hsold⟩
  rw [dot_mask P _ _ (iter_inactive P hM k).2.1]
  apply hH.pos
  intro e
  have := ho.rpk
  rw [e, dotProduct_zero] at this
  linarith

variable [NeZero n]

theorem amax_nonneg (v : V n) : 0 ≤ amax v := by
  obtain ⟨i, hi⟩ := Optim.Props.exists_pmax (fun i => |v i|)
  rw [amax, hi]; positivity

theorem le_amax (v : V n) (i : Fin n) : |v i| ≤ amax v := Optim.Props.le_pmax (fun i => |v i|) i

/-- C54. The search direction of the projected Gauss-Newton CG: it does not move the cells
held at a bound; on the other active cells it is a non-negative multiple of `-g`, so moves
into the bounds; and it is a descent direction unless the free part of the gradient is within
the tolerance already. -/
theorem C54_direction (P : Problem n) (hM : GoodM P) (hH : GoodH P) (ht : 0 ≤ P.atol)
    (hs : 0 ≤ P.scale) (hb : ∀ i, P.bound i → P.active i) :
    (∀ i, P.bound i → direction P i = 0) ∧
    (∃ c : ℝ, 0 ≤ c ∧ ∀ i, P.active i → ¬ P.bound i → direction P i = c * (-P.g i)) ∧
    P.g ⬝ᵥ direction P ≤ 0 ∧
    (0 < P.maxiter → target P < norm2 (mask (fun i => ¬ P.active i) (-P.g)) →
      P.g ⬝ᵥ direction P < 0) := by
  obtain ⟨m, -, h2, h3, h4, h5⟩ := cgLoop_iter P ht P.maxiter 0
  have hrun : cgRun P = cgIter P m := h3
  have htn := target_nonneg P ht
  have hstep := step_dot P hM hH m (fun j hj => norm2_pos (lt_of_le_of_lt htn (h4 j (by omega) hj)))
  have hina := (iter_inactive P hM m).2.2
  have hle : P.g ⬝ᵥ (cgRun P).step ≤ 0 := by
    rw [hrun]
    rcases hstep with rfl | h
    · simp [cgIter, cgInit]
    · exact h.le
  have hlt : 0 < P.maxiter → target P < norm2 (mask (fun i => ¬ P.active i) (-P.g)) →
      P.g ⬝ᵥ (cgRun P).step < 0 := by
    intro hm hr
    rw [hrun]
    rcases hstep with rfl | h
    · have := h5 (by omega)
      exact absurd hr (not_lt.mpr this)
    · exact h
  -- the direction is the CG step plus a multiple of `-g` on the active, unbound cells
  obtain ⟨c, hc, hd⟩ : ∃ c : ℝ, 0 ≤ c ∧ direction P = (cgRun P).step +
      c • mask (fun i => P.active i ∧ ¬ P.bound i) (-P.g) := by
    unfold direction
    simp only
    split
    · refine ⟨P.scale * (amax (cgRun P).step / amax (mask (fun i => P.active i ∧ ¬ P.bound i)
        (-P.g))), mul_nonneg hs (div_nonneg (amax_nonneg _) (amax_nonneg _)), ?_⟩
      funext i
      by_cases hi : P.bound i
      · rw [if_pos hi, hrun]
        simp [hina i (hb i hi), mask, hi]
      · rw [if_neg hi, mul_smul]
    · refine ⟨0, le_rfl, ?_⟩
      funext i
      by_cases hi : P.bound i
      · rw [if_pos hi, hrun]
        simp [hina i (hb i hi)]
      · rw [if_neg hi]; simp
  have hg : P.g ⬝ᵥ mask (fun i => P.active i ∧ ¬ P.bound i) (-P.g) ≤ 0 := by
    apply Finset.sum_nonpos
    intro i _
    unfold mask
    split
    · simp only [Pi.neg_apply]; nlinarith [mul_self_nonneg (P.g i)]
    · simp
  have hdot : P.g ⬝ᵥ direction P = P.g ⬝ᵥ (cgRun P).step +
      c * (P.g ⬝ᵥ mask (fun i => P.active i ∧ ¬ P.bound i) (-P.g)) := by
    rw [hd, dotProduct_add, dotProduct_smul, smul_eq_mul]
  refine ⟨fun i hi => by simp [direction, hi], ⟨c, hc, fun i ha hbn => ?_⟩, ?_, fun hm hr => ?_⟩
  · rw [hd, hrun]
    simp [hina i ha, mask, ha, hbn]
  · rw [hdot]; nlinarith
  · have := hlt hm hr
    rw [hdot]; nlinarith

omit [NeZero n] in
/-- Diagonal preconditioners with positive entries are admissible. -/
theorem goodM_diagonal (P : Problem n) (d : V n) (hd : ∀ i, 0 < d i)
    (h : ∀ u, P.M u = fun i => d i * u i) : GoodM P where
  add u v := by rw [h, h, h]; funext i; simp [mul_add]
  smul c u := by rw [h, h]; funext i; simp; ring
  symm u v := by
    rw [h, h]; apply Finset.sum_congr rfl; intro i _; ring
  pos u hu := by
    rw [h]
    obtain ⟨i, hi⟩ : ∃ i, u i ≠ 0 := by
      by_contra hc; push Not at hc; exact hu (funext hc)
    apply Finset.sum_pos'
    · intro j _
      have := mul_self_nonneg (u j)
      have := hd j
      simp only; nlinarith
    · refine ⟨i, Finset.mem_univ _, ?_⟩
      have := mul_self_pos.mpr hi
      have := hd i
      simp only; nlinarith
  inactive u hu i hi := by rw [h]; simp [hu i hi]

/-- A problem meeting the hypotheses. -/
example : ∃ P : Problem 2, GoodM P ∧ GoodH P ∧ 0 < P.maxiter ∧ (∀ i, P.bound i → P.active i) ∧
    P.active 0 := by
  refine ⟨⟨![1, 2], 1, id, fun i => i = 0, fun i => i = 0, 0, 0, 5, true, 1⟩,
    goodM_diagonal _ (fun _ => 1) (by simp) (by intro u; simp), ⟨?_, ?_⟩, by simp, by simp, rfl⟩
  · intro u v; simp [dotProduct_comm]
  · intro u hu
    have h : 0 ≤ u ⬝ᵥ u := Finset.sum_nonneg fun i _ => mul_self_nonneg _
    simp only [one_mulVec]
    rcases h.lt_or_eq with h | h
    · exact h
    · exact absurd (dotProduct_self_eq_zero.mp h.symm) hu

/-- The restriction on the preconditioner is needed. The default one (BFGS) couples cells, and
the CG loop masks the residual but not the preconditioned direction: an active cell whose
gradient points into the bounds can then be pushed outwards, along an ascent direction. -/
theorem C54_coupled_preconditioner_ascends : ∃ P : Problem 2,
    (∀ u v, u ⬝ᵥ P.M v = v ⬝ᵥ P.M u) ∧ (∀ u, u ≠ 0 → 0 < u ⬝ᵥ P.M u) ∧ GoodH P ∧
    P.active 0 ∧ ¬ P.bound 0 ∧ 0 < -P.g 0 ∧ direction P 0 < 0 ∧ 0 < P.g ⬝ᵥ direction P := by
  let P : Problem 2 := ⟨![-10, 1], 1, fun u => ![u 0 + u 1 / 2, u 0 / 2 + u 1], fun i => i = 0,
    fun _ => False, 0, 0, 1, false, 1⟩
  have hinit : (cgInit P) = ⟨0, ![0, -1], ![-1/2, -1], 1, 0⟩ := by
    have hr : mask (fun i => ¬ P.active i) (-P.g) = ![0, -1] := by
      funext i; fin_cases i <;> simp [mask, P]
    have hM : P.M ![0, -1] = ![-1/2, -1] := by
      funext i; fin_cases i <;> simp [P] <;> norm_num
    simp only [cgInit, hr, hM]
    congr 1
    simp [dotProduct, Fin.sum_univ_two]
  have hn : norm2 (![0, -1] : V 2) = 1 := by simp [norm2, dotProduct, Fin.sum_univ_two]
  have htar : target P = 0 := by simp [target, P]
  have hq : mask (fun i => ¬ P.active i) (P.H *ᵥ ![-1/2, -1]) = ![0, -1] := by
    funext i; fin_cases i <;> simp [mask, P]
  have hrun : (cgRun P).step = ![-1/2, -1] := by
    have : cgRun P = cgStep P (cgInit P) := by
      change cgLoop P (0 + 1) (cgInit P) = _
      simp only [cgLoop]
      rw [if_pos]
      rw [hinit, htar]
      simp only [hn]
      norm_num
    rw [this, hinit]
    simp only [cgStep, hq]
    funext i
    fin_cases i <;> simp [dotProduct, Fin.sum_univ_two]
  have hdir : direction P = ![-1/2, -1] := by
    funext i
    simp only [direction]
    rw [if_neg (by simp [P]), if_neg (by simp [P]), hrun]
  refine ⟨P, ?_, ?_, ⟨?_, ?_⟩, rfl, by simp [P], by simp [P], ?_, ?_⟩
  · intro u v; simp [P, dotProduct, Fin.sum_univ_two]; ring
  · intro u hu
    have h : u 0 ≠ 0 ∨ u 1 ≠ 0 := by
      by_contra hc
      push Not at hc
      apply hu; funext i; fin_cases i
      · exact hc.1
      · exact hc.2
    simp only [P, dotProduct, Fin.sum_univ_two]
    simp
    rcases h with h | h
    · have := mul_self_pos.mpr h
      nlinarith [mul_self_nonneg (u 0 + 2 * u 1), mul_self_nonneg (u 0 + u 1), mul_self_nonneg (u 1)]
    · have := mul_self_pos.mpr h
      nlinarith [mul_self_nonneg (2 * u 0 + u 1), mul_self_nonneg (u 0 + u 1), mul_self_nonneg (u 0)]
  · intro u v; simp [P, dotProduct_comm]
  · intro u hu
    have h : 0 ≤ u ⬝ᵥ u := Finset.sum_nonneg fun i _ => mul_self_nonneg _
    simp only [P, one_mulVec]
    rcases h.lt_or_eq with h | h
    · exact h
    · exact absurd (dotProduct_self_eq_zero.mp h.symm) hu
  · rw [hdir]; norm_num
  · rw [hdir]; simp [P, dotProduct, Fin.sum_univ_two]; norm_num

end Props
end Verif.Optim.GNCG
