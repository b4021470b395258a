import Mathlib.Data.Real.Basic
import Mathlib.Logic.Function.Basic
import Mathlib.Tactic.Linarith
import Mathlib.Tactic.NormNum
import Mathlib.Tactic.Ring
import Verif.Basic

/-! Model of `GaussianMixtureWithPrior.fit` and `fit_predict` (`simpeg/utils/pgi_utils.py` 1116-1264):
the repeated expectation-maximization with forced memberships, for C189. The steps themselves are
modelled in C133 (`Verif/Utils/GMM.lean`); here they are any functions. -/

namespace Verif
namespace GMMFit

/-- A lower bound of the likelihood; `none` is `-np.inf`. NaN is not modelled. -/
abbrev Bound := Option ℝ

/-- `abs(lower_bound - prev_lower_bound) < self.tol` (`simpeg/utils/pgi_utils.py` 1228-1231): differences
with `-np.inf` are infinite or NaN and never below the tolerance. -/
def Close (tol : ℝ) : Bound → Bound → Prop
  | some a, some b => |a - b| < tol
  | _, _ => False

/-- `a > b` (1237). -/
def Greater : Bound → Bound → Prop
  | some a, some b => b < a
  | some _, none => True
  | none, _ => False

/-- Logarithms of the responsibilities, a row for each cell; `none` is `-np.inf`. -/
abbrev LogResp (n K : ℕ) := Fin n → Fin K → Bound

/-- `weights_`: one proportion per unit (`ndim == 1`), or a row for each cell. -/
inductive Weights (n K : ℕ) where
  | shared (w : Fin K → ℝ)
  | perCell (w : Fin n → Fin K → ℝ)

/-- The parameters of the mixture: proportions, and all others. -/
abbrev Params (n K : ℕ) (Q : Type) := Weights n K × Q

/-- The steps for given samples: `_e_step` gives the bound (`_compute_lower_bound` returns
`log_prob_norm`) and the responsibilities of the present parameters; `mstep` is `_m_step` with
`update_gmm_with_priors` (1218-1219). -/
structure Steps (n K : ℕ) (Q : Type) where
  estep : Params n K Q → Bound × LogResp n K
  mstep : LogResp n K → Params n K Q → Params n K Q

variable {n K : ℕ} {Q : Type}

/-- The forced responsibilities (`simpeg/utils/pgi_utils.py` 1210-1216): rows of the cells of
`fixed_membership` are replaced, later rows last. `None` is the empty list. -/
def forceResp (fixed : List (Fin n × Fin K)) (lr : LogResp n K) : LogResp n K :=
  fixed.foldl (fun a q => Function.update a q.1 fun k => if k = q.2 then some 0 else none) lr

/-- The forced proportions (1221-1225), for proportions per cell only. -/
def forceWeights (fixed : List (Fin n × Fin K)) : Weights n K → Weights n K
  | .shared w => .shared w
  | .perCell w => .perCell
      (fixed.foldl (fun a q => Function.update a q.1 fun k => if k = q.2 then 1 else 0) w)

/-- One iteration (`simpeg/utils/pgi_utils.py` 1205-1227). -/
def step (s : Steps n K Q) (fixed : List (Fin n × Fin K)) (p : Params n K Q) :
    Bound × Params n K Q :=
  let q := s.mstep (forceResp fixed (s.estep p).2) p
  ((s.estep p).1, (forceWeights fixed q.1, q.2))

/-- The end of one initialization. -/
structure Run (n K : ℕ) (Q : Type) where
  bound : Bound
  params : Params n K Q
  nIter : ℕ
  converged : Prop

open Classical in
/-- The inner loop (`simpeg/utils/pgi_utils.py` 1204-1233) with `k` iterations left after `i`. -/
noncomputable def emLoop (s : Steps n K Q) (fixed : List (Fin n × Fin K)) (tol : ℝ) :
    ℕ → ℕ → Bound → Params n K Q → Run n K Q
  | 0, i, lb, p => ⟨lb, p, i, False⟩
  | k + 1, i, lb, p =>
      let r := step s fixed p
      if Close tol r.1 lb then ⟨r.1, r.2, i + 1, True⟩ else emLoop s fixed tol k (i + 1) r.1 r.2

/-- The settings of the mixture that the loops use. -/
structure Settings where
  nInit : ℕ
  maxIter : ℕ
  tol : ℝ
  warmStart : Bool

/-- What a fit leaves: parameters, `lower_bound_`, `n_iter_`, `converged_`. -/
structure Fitted (n K : ℕ) (Q : Type) where
  params : Params n K Q
  bound : Bound
  nIter : ℕ
  converged : Prop

open Classical in
/-- The choice of the best initialization so far (`simpeg/utils/pgi_utils.py` 1237-1240). -/
noncomputable def keep (b : Run n K Q) (r : Run n K Q) : Run n K Q :=
  if Greater r.bound b.bound ∨ b.bound = none then r else b

/-- The best of the runs. The first is always taken, since `max_lower_bound` is `-np.inf` then. -/
noncomputable def best (r : Run n K Q) (rs : List (Run n K Q)) : Run n K Q := rs.foldl keep r

/-- The starts of the initializations (`simpeg/utils/pgi_utils.py` 1185-1202): with `warm_start` and an
earlier fit there is one, with its parameters and bound, else one for each of `n_init`, given by the
random state. -/
def starts (c : Settings) (inits : ℕ → Params n K Q) (old : Option (Fitted n K Q)) :
    List (Bound × Params n K Q) :=
  match c.warmStart, old with
  | true, some f => [(f.bound, f.params)]
  | _, _ => (List.range c.nInit).map fun i => (none, inits i)

/-- The loops of `fit_predict` (`simpeg/utils/pgi_utils.py` 1185-1254), with whether the warning is
raised. Without initializations or iterations a name is not bound, here `.exception`. -/
noncomputable def fit (s : Steps n K Q) (fixed : List (Fin n × Fin K)) (c : Settings)
    (inits : ℕ → Params n K Q) (old : Option (Fitted n K Q)) :
    Except Err (Fitted n K Q × Prop) :=
  match (starts c inits old).map fun st => emLoop s fixed c.tol c.maxIter 0 st.1 st.2 with
  | [] => .error .exception
  | r :: rs =>
      if c.maxIter = 0 then .error .exception else
        let b := best r rs
        let conv := ∃ q ∈ r :: rs, q.converged
        .ok (⟨b.params, b.bound, b.nIter, conv⟩, ¬ conv)

/-- What `fit_predict` returns: the documented labels, or the mixture. -/
inductive Returned (n K : ℕ) (Q : Type) where
  | labels (l : Fin n → Fin K)
  | mixture (f : Fitted n K Q)

/-- The array that is validated: the samples, or the estimator taken for them. -/
inductive Validated where
  | samples
  | estimator

/-- `simpeg/utils/pgi_utils.py` 1170-1176: with scikit-learn 1.6 and later `validate_data(self, X, …)`,
else the bound method `self._validate_data(self, X, …)`, whose first argument is the estimator. -/
def validated (atLeast16 : Bool) : Validated := if atLeast16 then .samples else .estimator

/-- `fit_predict` (`simpeg/utils/pgi_utils.py` 1147-1264) for `n` samples and `K` units. An estimator is
not an array of numbers and is refused by scikit-learn with a `TypeError`. -/
noncomputable def fitPredict (atLeast16 : Bool) (s : Steps n K Q) (fixed : List (Fin n × Fin K))
    (c : Settings) (inits : ℕ → Params n K Q) (old : Option (Fitted n K Q)) :
    Except Err (Returned n K Q × Prop) :=
  match validated atLeast16 with
  | .estimator => .error .typeError
  | .samples =>
      if n < K then .error .valueError else
        match fit s fixed c inits old with
        | .error e => .error e
        | .ok (f, w) => .ok (.mixture f, w)

/-! ### Specification -/

/-- The parameters after `k` iterations from `p`. -/
def iterate (s : Steps n K Q) (fixed : List (Fin n × Fin K)) (p : Params n K Q) : ℕ → Params n K Q
  | 0 => p
  | k + 1 => (step s fixed (iterate s fixed p k)).2

/-- The bounds seen by the test of iteration `k`: that of the start before the first, then that of the
parameters before each iteration. -/
def boundAt (s : Steps n K Q) (fixed : List (Fin n × Fin K)) (lb : Bound) (p : Params n K Q) :
    ℕ → Bound
  | 0 => lb
  | k + 1 => (s.estep (iterate s fixed p k)).1

/-! ### Lemmas -/

theorem iterate_shift (s : Steps n K Q) (fixed : List (Fin n × Fin K)) (p : Params n K Q) (k : ℕ) :
    iterate s fixed (step s fixed p).2 k = iterate s fixed p (k + 1) := by
  induction k with
  | zero => rfl
  | succ k ih => rw [iterate, ih]; rfl

theorem boundAt_shift (s : Steps n K Q) (fixed : List (Fin n × Fin K)) (lb : Bound)
    (p : Params n K Q) (k : ℕ) :
    boundAt s fixed (step s fixed p).1 (step s fixed p).2 k = boundAt s fixed lb p (k + 1) := by
  cases k with
  | zero => rfl
  | succ k => rw [boundAt, boundAt, iterate_shift]

theorem emLoop_spec (s : Steps n K Q) (fixed : List (Fin n × Fin K)) (tol : ℝ) (k i : ℕ) (lb : Bound)
    (p : Params n K Q) :
    ∃ N ≤ k, (emLoop s fixed tol k i lb p).nIter = i + N ∧
      (emLoop s fixed tol k i lb p).params = iterate s fixed p N ∧
      (emLoop s fixed tol k i lb p).bound = boundAt s fixed lb p N ∧
      (∀ M < N, M + 1 < N → ¬ Close tol (boundAt s fixed lb p (M + 1)) (boundAt s fixed lb p M)) ∧
      ((emLoop s fixed tol k i lb p).converged →
        ∃ M, N = M + 1 ∧ Close tol (boundAt s fixed lb p (M + 1)) (boundAt s fixed lb p M)) ∧
      (¬ (emLoop s fixed tol k i lb p).converged → N = k ∧
        ∀ M < N, ¬ Close tol (boundAt s fixed lb p (M + 1)) (boundAt s fixed lb p M)) := by
  induction k generalizing i lb p with
  | zero =>
    refine ⟨0, le_rfl, rfl, rfl, rfl, ?_, ?_, ?_⟩
    · intro M hM; omega
    · intro h; exact absurd h (by simp [emLoop])
    · intro _; exact ⟨rfl, fun M hM => by omega⟩
  | succ k ih =>
    by_cases hc : Close tol (step s fixed p).1 lb
    · have e : emLoop s fixed tol (k + 1) i lb p = ⟨(step s fixed p).1, (step s fixed p).2, i + 1, True⟩ := by
        rw [emLoop]; simp only [hc, if_true]
      rw [e]
      refine ⟨1, by omega, rfl, rfl, rfl, ?_, ?_, ?_⟩
      · intro M _ h2; omega
      · intro _; exact ⟨0, rfl, hc⟩
      · intro h; exact absurd trivial h
    · have e : emLoop s fixed tol (k + 1) i lb p =
          emLoop s fixed tol k (i + 1) (step s fixed p).1 (step s fixed p).2 := by
        rw [emLoop]; simp only [hc, if_false]
      rw [e]
      obtain ⟨N, hN, h1, h2, h3, h4, h5, h6⟩ := ih (i + 1) (step s fixed p).1 (step s fixed p).2
      simp only [boundAt_shift (lb := lb), iterate_shift] at h2 h3 h4 h5 h6
      refine ⟨N + 1, by omega, by rw [h1]; omega, h2, h3, ?_, ?_, ?_⟩
      · intro M _ hM2
        cases M with
        | zero => exact hc
        | succ M => exact h4 M (by omega) (by omega)
      · intro h
        obtain ⟨M, hM, hcl⟩ := h5 h
        exact ⟨M + 1, by omega, hcl⟩
      · intro h
        obtain ⟨hk, hall⟩ := h6 h
        refine ⟨by omega, ?_⟩
        intro M hM
        cases M with
        | zero => exact hc
        | succ M => exact hall M (by omega)

theorem not_greater_refl (a : Bound) : ¬ Greater a a := by
  cases a with
  | none => exact id
  | some a => exact lt_irrefl a

theorem best_spec (r : Run n K Q) (rs : List (Run n K Q)) :
    best r rs ∈ r :: rs ∧ (∀ q ∈ r :: rs, ¬ Greater q.bound (best r rs).bound) := by
  induction rs generalizing r with
  | nil =>
    refine ⟨List.mem_singleton.mpr rfl, ?_⟩
    intro q hq
    rw [List.mem_singleton.mp hq]
    exact not_greater_refl _
  | cons q qs ih =>
    have e : best r (q :: qs) = best (keep r q) qs := rfl
    rw [e]
    obtain ⟨h1, h2⟩ := ih (keep r q)
    by_cases hk : Greater q.bound r.bound ∨ r.bound = none
    · have ek : keep r q = q := by unfold keep; rw [if_pos hk]
      rw [ek] at h1 h2 ⊢
      refine ⟨List.mem_cons_of_mem _ h1, ?_⟩
      intro x hx
      rcases List.mem_cons.mp hx with rfl | hx
      · rcases hk with hk | hk
        · have := h2 q (List.mem_cons_self ..)
          intro hg
          refine this ?_
          revert hk hg
          generalize x.bound = a
          generalize q.bound = b
          generalize (best q qs).bound = d
          cases a <;> cases b <;> cases d <;> simp_all [Greater]
          intro u v; linarith
        · rw [hk]; exact id
      · exact h2 x hx
    · have ek : keep r q = r := by unfold keep; rw [if_neg hk]
      rw [ek] at h1 h2 ⊢
      refine ⟨?_, ?_⟩
      · rcases List.mem_cons.mp h1 with h | h
        · rw [h]; exact List.mem_cons_self ..
        · exact List.mem_cons_of_mem _ (List.mem_cons_of_mem _ h)
      · intro x hx
        rcases List.mem_cons.mp hx with rfl | hx
        · exact h2 x (List.mem_cons_self ..)
        · rcases List.mem_cons.mp hx with rfl | hx
          · have hr := h2 r (List.mem_cons_self ..)
            rw [not_or] at hk
            intro hg
            obtain ⟨ha, hb⟩ := hk
            revert ha hb hg hr
            generalize x.bound = a
            generalize r.bound = b
            generalize (best r qs).bound = d
            cases a <;> cases b <;> cases d <;> simp_all [Greater]
            intro u v; linarith
          · exact h2 x (List.mem_cons_of_mem _ hx)

theorem starts_cold (c : Settings) (inits : ℕ → Params n K Q) (old : Option (Fitted n K Q))
    (h : c.warmStart = false ∨ old = none) :
    starts c inits old = (List.range c.nInit).map fun i => (none, inits i) := by
  unfold starts
  rcases h with h | h
  · rw [h]
  · rw [h]; cases c.warmStart <;> rfl

theorem forced_of_mem {α : Type} (fixed : List (Fin n × Fin K))
    (f : Fin K → Fin K → α) (hnd : (fixed.map Prod.fst).Nodup) (a : Fin n → Fin K → α) (q : Fin n × Fin K)
    (hq : q ∈ fixed) :
    (fixed.foldl (fun a q => Function.update a q.1 (f q.2)) a) q.1 = f q.2 := by
  have keepOut : ∀ (l : List (Fin n × Fin K)) (a : Fin n → Fin K → α) (c : Fin n),
      c ∉ l.map Prod.fst → (l.foldl (fun a q => Function.update a q.1 (f q.2)) a) c = a c := by
    intro l
    induction l with
    | nil => intro a c _; rfl
    | cons x xs ih =>
      intro a c hc
      rw [List.map_cons, List.mem_cons, not_or] at hc
      rw [List.foldl_cons, ih _ c hc.2, Function.update_of_ne hc.1]
  induction fixed generalizing a with
  | nil => exact absurd hq (List.not_mem_nil)
  | cons x xs ih =>
    rw [List.map_cons, List.nodup_cons] at hnd
    rcases List.mem_cons.mp hq with rfl | h
    · rw [List.foldl_cons, keepOut xs _ _ hnd.1, Function.update_self]
    · rw [List.foldl_cons]; exact ih hnd.2 _ h

theorem forced_of_not_mem {α : Type} (f : Fin K → Fin K → α) :
    ∀ (l : List (Fin n × Fin K)) (a : Fin n → Fin K → α) (c : Fin n),
      c ∉ l.map Prod.fst → (l.foldl (fun a q => Function.update a q.1 (f q.2)) a) c = a c := by
  intro l
  induction l with
  | nil => intro a c _; rfl
  | cons x xs ih =>
    intro a c hc
    rw [List.map_cons, List.mem_cons, not_or] at hc
    rw [List.foldl_cons, ih _ c hc.2, Function.update_of_ne hc.1]

/-! ### C189 -/

/-- **C189.** A fit without an earlier one gives the parameters, the bound and the number of iterations
of one of the initializations, and none of them ends with a larger bound. It warns exactly if no
initialization has converged. -/
theorem C189_best (s : Steps n K Q) (fixed : List (Fin n × Fin K)) (c : Settings)
    (inits : ℕ → Params n K Q) (old : Option (Fitted n K Q)) (hcold : c.warmStart = false ∨ old = none)
    (hi : 0 < c.nInit) (hm : 0 < c.maxIter) :
    ∃ f w, fit s fixed c inits old = .ok (f, w) ∧
      (∃ i < c.nInit,
        f.params = (emLoop s fixed c.tol c.maxIter 0 none (inits i)).params ∧
        f.bound = (emLoop s fixed c.tol c.maxIter 0 none (inits i)).bound ∧
        f.nIter = (emLoop s fixed c.tol c.maxIter 0 none (inits i)).nIter ∧
        ∀ j < c.nInit, ¬ Greater (emLoop s fixed c.tol c.maxIter 0 none (inits j)).bound f.bound) ∧
      (w ↔ ∀ j < c.nInit, ¬ (emLoop s fixed c.tol c.maxIter 0 none (inits j)).converged) ∧
      (f.converged ↔ ∃ j < c.nInit, (emLoop s fixed c.tol c.maxIter 0 none (inits j)).converged) := by
  unfold fit
  rw [starts_cold c inits old hcold, List.map_map]
  obtain ⟨m, hmm⟩ : ∃ m, c.nInit = m + 1 := ⟨c.nInit - 1, by omega⟩
  set g : ℕ → Run n K Q := fun i => emLoop s fixed c.tol c.maxIter 0 none (inits i) with hg
  have hmap : (List.range c.nInit).map ((fun st : Bound × Params n K Q =>
      emLoop s fixed c.tol c.maxIter 0 st.1 st.2) ∘ fun i => (none, inits i)) =
      (List.range c.nInit).map g := rfl
  rw [hmap]
  have hcons : (List.range c.nInit).map g = g 0 :: (List.range m).map (fun i => g (i + 1)) := by
    rw [hmm, List.range_succ_eq_map, List.map_cons, List.map_map]; rfl
  rw [hcons]
  simp only [if_neg (Nat.pos_iff_ne_zero.mp hm)]
  obtain ⟨h1, h2⟩ := best_spec (g 0) ((List.range m).map fun i => g (i + 1))
  rw [← hcons] at h1 h2
  refine ⟨_, _, rfl, ?_, ?_, ?_⟩
  · obtain ⟨i, hi', e⟩ := List.mem_map.mp h1
    refine ⟨i, List.mem_range.mp hi', ?_, ?_, ?_, ?_⟩
    · rw [← e]
    · rw [← e]
    · rw [← e]
    · intro j hj
      exact h2 (g j) (List.mem_map.mpr ⟨j, List.mem_range.mpr hj, rfl⟩)
  · rw [← hcons]
    constructor
    · intro h j hj hc
      exact h ⟨g j, List.mem_map.mpr ⟨j, List.mem_range.mpr hj, rfl⟩, hc⟩
    · rintro h ⟨q, hq, hc⟩
      obtain ⟨j, hj, rfl⟩ := List.mem_map.mp hq
      exact h j (List.mem_range.mp hj) hc
  · rw [← hcons]
    constructor
    · rintro ⟨q, hq, hc⟩
      obtain ⟨j, hj, rfl⟩ := List.mem_map.mp hq
      exact ⟨j, List.mem_range.mp hj, hc⟩
    · rintro ⟨j, hj, hc⟩
      exact ⟨g j, List.mem_map.mpr ⟨j, List.mem_range.mpr hj, rfl⟩, hc⟩

/-- Two bounds are finite and differ by less than the tolerance, either way. -/
def Near (tol : ℝ) (x y : Bound) : Prop := ∃ a b, x = some a ∧ y = some b ∧ a - b < tol ∧ b - a < tol

theorem close_iff (tol : ℝ) (x y : Bound) : Near tol x y ↔ Close tol x y := by
  cases x <;> cases y <;> simp [Near, Close, abs_lt]
  constructor <;> rintro ⟨h1, h2⟩ <;> constructor <;> linarith

/-- **C189.** An initialization ends with the first iteration whose change of the bound is below the
tolerance, or after `max_iter` of them; its parameters are those after that many iterations, and its
bound is that of the parameters before the last one. -/
theorem C189_iterations (s : Steps n K Q) (fixed : List (Fin n × Fin K)) (tol : ℝ) (maxIter : ℕ)
    (lb : Bound) (p : Params n K Q) :
    ∃ N ≤ maxIter, (emLoop s fixed tol maxIter 0 lb p).nIter = N ∧
      (emLoop s fixed tol maxIter 0 lb p).params = iterate s fixed p N ∧
      (emLoop s fixed tol maxIter 0 lb p).bound = boundAt s fixed lb p N ∧
      (∀ M, M + 1 < N → ¬ Near tol (boundAt s fixed lb p (M + 1)) (boundAt s fixed lb p M)) ∧
      ((emLoop s fixed tol maxIter 0 lb p).converged ↔
        ∃ M, N = M + 1 ∧ Near tol (boundAt s fixed lb p (M + 1)) (boundAt s fixed lb p M)) ∧
      (¬ (emLoop s fixed tol maxIter 0 lb p).converged → N = maxIter) := by
  simp only [close_iff]
  obtain ⟨N, h0, h1, h2, h3, h4, h5, h6⟩ := emLoop_spec s fixed tol maxIter 0 lb p
  refine ⟨N, h0, by rw [h1]; omega, h2, h3, fun M hM => h4 M (by omega) hM, ⟨h5, ?_⟩,
    fun h => (h6 h).1⟩
  rintro ⟨M, hM, hc⟩
  by_contra hn
  exact (h6 hn).2 M (by omega) hc

/-- **C189.** With `warm_start`, a fit continues an earlier one: its parameters after that many further
iterations, compared with its bound, whatever `n_init` and the random state. -/
theorem C189_warm (s : Steps n K Q) (fixed : List (Fin n × Fin K)) (c : Settings)
    (inits : ℕ → Params n K Q) (f : Fitted n K Q) (hw : c.warmStart = true) (hm : 0 < c.maxIter) :
    ∃ g w, fit s fixed c inits (some f) = .ok (g, w) ∧
      g.params = (emLoop s fixed c.tol c.maxIter 0 f.bound f.params).params ∧
      g.bound = (emLoop s fixed c.tol c.maxIter 0 f.bound f.params).bound ∧
      g.nIter = (emLoop s fixed c.tol c.maxIter 0 f.bound f.params).nIter ∧
      (g.converged ↔ (emLoop s fixed c.tol c.maxIter 0 f.bound f.params).converged) ∧
      (w ↔ ¬ g.converged) := by
  unfold fit starts
  rw [hw]
  simp only [List.map_cons, List.map_nil, if_neg (Nat.pos_iff_ne_zero.mp hm)]
  exact ⟨_, _, rfl, rfl, rfl, rfl, by simp, Iff.rfl⟩

theorem emLoop_split (s : Steps n K Q) (fixed : List (Fin n × Fin K)) (tol : ℝ) (a b i : ℕ)
    (lb : Bound) (p : Params n K Q) (h : ¬ (emLoop s fixed tol a i lb p).converged) :
    emLoop s fixed tol (a + b) i lb p =
      emLoop s fixed tol b (i + a) (emLoop s fixed tol a i lb p).bound
        (emLoop s fixed tol a i lb p).params := by
  induction a generalizing i lb p with
  | zero => rw [Nat.zero_add, Nat.add_zero, emLoop]
  | succ a ih =>
    by_cases hc : Close tol (step s fixed p).1 lb
    · refine absurd ?_ h
      rw [emLoop]; simp only [hc, if_true]
    · have e : ∀ k, emLoop s fixed tol (k + 1) i lb p =
          emLoop s fixed tol k (i + 1) (step s fixed p).1 (step s fixed p).2 := by
        intro k; rw [emLoop]; simp only [hc, if_false]
      rw [e a] at h
      rw [show a + 1 + b = (a + b) + 1 by omega, e, e a, ih _ _ _ h,
        show i + 1 + a = i + (a + 1) by omega]

theorem emLoop_count (s : Steps n K Q) (fixed : List (Fin n × Fin K)) (tol : ℝ) (k i j : ℕ)
    (lb : Bound) (p : Params n K Q) :
    (emLoop s fixed tol k i lb p).params = (emLoop s fixed tol k j lb p).params ∧
    (emLoop s fixed tol k i lb p).bound = (emLoop s fixed tol k j lb p).bound := by
  induction k generalizing i j lb p with
  | zero => exact ⟨rfl, rfl⟩
  | succ k ih =>
    by_cases hc : Close tol (step s fixed p).1 lb
    · rw [emLoop, emLoop]; simp only [hc, if_true, and_self]
    · rw [emLoop, emLoop]; simp only [hc, if_false]; exact ih _ _ _ _

/-- **C189.** Training starts where it left off: with `warm_start`, `a` iterations without convergence
and then at most `b` more in a second call give the parameters and the bound of one call with `a + b`. -/
theorem C189_continued (s : Steps n K Q) (fixed : List (Fin n × Fin K)) (tol : ℝ) (a b : ℕ)
    (inits inits' : ℕ → Params n K Q) (ha : 0 < a) (hb : 0 < b) (f : Fitted n K Q) (w : Prop)
    (h1 : fit s fixed ⟨1, a, tol, true⟩ inits none = .ok (f, w)) (hw : w) :
    ∃ g w' g' w'', fit s fixed ⟨1, b, tol, true⟩ inits' (some f) = .ok (g, w') ∧
      fit s fixed ⟨1, a + b, tol, true⟩ inits none = .ok (g', w'') ∧
      g.params = g'.params ∧ g.bound = g'.bound := by
  obtain ⟨f', w0, e1, ⟨i, hi, p1, b1, _, _⟩, hw1, _⟩ :=
    C189_best s fixed ⟨1, a, tol, true⟩ inits none (Or.inr rfl) Nat.one_pos ha
  rw [h1] at e1
  injection e1 with e1
  obtain ⟨rfl, rfl⟩ := Prod.mk.inj e1
  have hnc := (hw1.mp hw) 0 (by exact Nat.one_pos)
  have hi0 : i = 0 := by have : i < 1 := hi; omega
  subst hi0
  obtain ⟨g, w', e2, gp, gb, _, _, _⟩ :=
    C189_warm s fixed ⟨1, b, tol, true⟩ inits' f rfl hb
  obtain ⟨g', w'', e3, ⟨j, hj, p3, b3, _, _⟩, _, _⟩ :=
    C189_best s fixed ⟨1, a + b, tol, true⟩ inits none (Or.inr rfl) Nat.one_pos (by change 0 < a + b; omega)
  have hj0 : j = 0 := by have : j < 1 := hj; omega
  subst hj0
  refine ⟨g, w', g', w'', e2, e3, ?_, ?_⟩
  · rw [gp, p3, p1, b1]
    have := emLoop_split s fixed tol a b 0 none (inits 0) hnc
    change _ = (emLoop s fixed tol (a + b) 0 none (inits 0)).params
    rw [this]
    exact (emLoop_count ..).1
  · rw [gb, b3, p1, b1]
    have := emLoop_split s fixed tol a b 0 none (inits 0) hnc
    change _ = (emLoop s fixed tol (a + b) 0 none (inits 0)).bound
    rw [this]
    exact (emLoop_count ..).2

/-- **C189.** The means, covariances and proportions are estimated with the forced memberships: a cell
of `fixed_membership` belongs to its unit only, and the other cells are as estimated. -/
theorem C189_responsibilities (s : Steps n K Q) (fixed : List (Fin n × Fin K)) (p : Params n K Q)
    (hnd : (fixed.map Prod.fst).Nodup) :
    ∃ lr : LogResp n K, (step s fixed p).2.2 = (s.mstep lr p).2 ∧
      (∀ q ∈ fixed, lr q.1 q.2 = some 0 ∧ ∀ k, k ≠ q.2 → lr q.1 k = none) ∧
      ∀ c, c ∉ fixed.map Prod.fst → lr c = (s.estep p).2 c := by
  refine ⟨forceResp fixed (s.estep p).2, rfl, ?_, ?_⟩
  · intro q hq
    have h := forced_of_mem (α := Bound) fixed
      (fun u k => if k = u then some 0 else none) hnd (s.estep p).2 q hq
    refine ⟨?_, ?_⟩
    · unfold forceResp; rw [h]; exact if_pos rfl
    · intro k hk; unfold forceResp; rw [h]; exact if_neg hk
  · intro c hc
    exact forced_of_not_mem (α := Bound) (fun u k => if k = u then some 0 else none) fixed _ c hc

/-- **C189.** Whenever a fit ends with proportions per cell, those of each cell of `fixed_membership`
are one for its unit and zero for the others. -/
theorem C189_fixed (s : Steps n K Q) (fixed : List (Fin n × Fin K)) (c : Settings)
    (inits : ℕ → Params n K Q) (old : Option (Fitted n K Q)) (hnd : (fixed.map Prod.fst).Nodup)
    (hi : 0 < c.nInit) (hm : 0 < c.maxIter) :
    ∃ f w, fit s fixed c inits old = .ok (f, w) ∧
      ∀ W, f.params.1 = .perCell W → ∀ q ∈ fixed, W q.1 q.2 = 1 ∧ ∀ k, k ≠ q.2 → W q.1 k = 0 := by
  have key : ∀ (lb : Bound) (p : Params n K Q) (W : Fin n → Fin K → ℝ),
      (emLoop s fixed c.tol c.maxIter 0 lb p).params.1 = .perCell W →
      ∀ q ∈ fixed, W q.1 q.2 = 1 ∧ ∀ k, k ≠ q.2 → W q.1 k = 0 := by
    intro lb p W hW q hq
    obtain ⟨N, hN, h1, h2, _, _, h5, h6⟩ := C189_iterations s fixed c.tol c.maxIter lb p
    have hpos : 0 < N := by
      by_cases hcv : (emLoop s fixed c.tol c.maxIter 0 lb p).converged
      · obtain ⟨M, hM, _⟩ := h5.mp hcv; omega
      · rw [h6 hcv]; exact hm
    obtain ⟨M, rfl⟩ : ∃ M, N = M + 1 := ⟨N - 1, by omega⟩
    rw [h2] at hW
    change forceWeights fixed (s.mstep (forceResp fixed (s.estep (iterate s fixed p M)).2)
      (iterate s fixed p M)).1 = .perCell W at hW
    cases hv : (s.mstep (forceResp fixed (s.estep (iterate s fixed p M)).2) (iterate s fixed p M)).1 with
    | shared v => rw [hv] at hW; cases hW
    | perCell v =>
      rw [hv] at hW
      injection hW with hW
      have h := forced_of_mem (α := ℝ) fixed
        (fun u k => if k = u then 1 else 0) hnd v q hq
      rw [← hW]
      refine ⟨?_, ?_⟩
      · rw [h]; exact if_pos rfl
      · intro k hk; rw [h]; exact if_neg hk
  by_cases hcold : c.warmStart = false ∨ old = none
  · obtain ⟨f, w, e, ⟨i, _, hp, _⟩, _⟩ := C189_best s fixed c inits old hcold hi hm
    exact ⟨f, w, e, fun W hW => key none (inits i) W (by rw [← hp]; exact hW)⟩
  · rw [not_or] at hcold
    obtain ⟨hw, ho⟩ := hcold
    cases old with
    | none => exact absurd rfl ho
    | some f0 =>
      obtain ⟨f, w, e, hp, _⟩ := C189_warm s fixed c inits f0 (by simpa using hw) hm
      exact ⟨f, w, e, fun W hW => key f0.bound f0.params W (by rw [← hp]; exact hW)⟩

/-- **C189.** Fewer samples than units are refused. -/
theorem C189_few (s : Steps n K Q) (fixed : List (Fin n × Fin K)) (c : Settings)
    (inits : ℕ → Params n K Q) (old : Option (Fitted n K Q)) (h : n < K) :
    fitPredict true s fixed c inits old = .error .valueError := by
  unfold fitPredict validated
  simp [h]

/-- **C189, violated.** The parameters returned may be of an initialization that has not converged,
while the fit says it has and does not warn: this happens whenever the largest bound is of such an
initialization and another one has converged. -/
theorem C189_violated_converged (s : Steps n K Q) (fixed : List (Fin n × Fin K)) (tol : ℝ) (maxIter : ℕ)
    (inits : ℕ → Params n K Q) (hm : 0 < maxIter) (a b : ℝ)
    (h0 : (emLoop s fixed tol maxIter 0 none (inits 0)).converged)
    (h0b : (emLoop s fixed tol maxIter 0 none (inits 0)).bound = some a)
    (h1 : ¬ (emLoop s fixed tol maxIter 0 none (inits 1)).converged)
    (h1b : (emLoop s fixed tol maxIter 0 none (inits 1)).bound = some b) (hab : a < b) :
    ∃ f w, fit s fixed ⟨2, maxIter, tol, false⟩ inits none = .ok (f, w) ∧ f.converged ∧ ¬ w ∧
      f.params = iterate s fixed (inits 1) maxIter ∧ f.nIter = maxIter := by
  obtain ⟨f, w, e, ⟨i, hi, hp, hb, hn, hmax⟩, hw, hc⟩ :=
    C189_best s fixed ⟨2, maxIter, tol, false⟩ inits none (Or.inr rfl) (by norm_num) hm
  have hconv : f.converged := hc.mpr ⟨0, by norm_num, h0⟩
  have hi1 : i = 1 := by
    have h2 : i < 2 := hi
    by_contra hne
    have : i = 0 := by omega
    subst this
    refine hmax 1 (by norm_num) ?_
    rw [hb]
    change Greater (emLoop s fixed tol maxIter 0 none (inits 1)).bound
      (emLoop s fixed tol maxIter 0 none (inits 0)).bound
    rw [h0b, h1b]
    exact hab
  subst hi1
  obtain ⟨N, _, k1, k2, _, _, _, k6⟩ := C189_iterations s fixed tol maxIter none (inits 1)
  have hN := k6 h1
  subst hN
  refine ⟨f, w, e, hconv, fun hw' => (hw.mp hw') 0 (by norm_num) h0, ?_, ?_⟩
  · rw [hp]; exact k2
  · rw [hn]; exact k1

/-- **C189, violated.** `fit_predict` returns the mixture whenever it returns, never the labels. -/
theorem C189_violated_predict (new : Bool) (s : Steps n K Q) (fixed : List (Fin n × Fin K)) (c : Settings)
    (inits : ℕ → Params n K Q) (old : Option (Fitted n K Q)) (r : Returned n K Q) (w : Prop)
    (h : fitPredict new s fixed c inits old = .ok (r, w)) :
    (∃ f, r = .mixture f ∧ fit s fixed c inits old = .ok (f, w)) ∧ ¬ ∃ l, r = .labels l := by
  unfold fitPredict at h
  split at h
  · cases h
  · split at h
    · cases h
    · split at h
      · cases h
      · rename_i f w' hf
        injection h with h
        obtain ⟨rfl, rfl⟩ := Prod.mk.inj h
        refine ⟨⟨f, rfl, hf⟩, ?_⟩
        rintro ⟨l, hl⟩
        cases hl

/-- **C189, violated.** With scikit-learn before 1.6, which the package accepts, the estimator is
validated in place of the samples, and no fit ever succeeds. -/
theorem C189_violated_version (s : Steps n K Q) (fixed : List (Fin n × Fin K)) (c : Settings)
    (inits : ℕ → Params n K Q) (old : Option (Fitted n K Q)) :
    fitPredict false s fixed c inits old = .error .typeError := rfl

/-! ### Cases -/

/-- A mixture whose bound counts the iterations: it grows by one each time from `3` on and is constant
below `0`. -/
noncomputable def demo : Steps 2 2 ℝ where
  estep p := (some p.2, fun _ _ => some (-1))
  mstep _ p := (.perCell (fun _ _ => 1 / 2), if p.2 < 0 then p.2 else p.2 + 1)

noncomputable def demoInit (i : ℕ) : Params 2 2 ℝ := (.shared fun _ => 1 / 2, if i = 0 then -5 else 3)

theorem demo_first : (emLoop demo [(0, 1)] (1 / 2) 3 0 none (demoInit 0)).converged ∧
    (emLoop demo [(0, 1)] (1 / 2) 3 0 none (demoInit 0)).bound = some (-5) := by
  simp [emLoop, step, demo, demoInit, Close]

theorem demo_second : ¬ (emLoop demo [(0, 1)] (1 / 2) 3 0 none (demoInit 1)).converged ∧
    (emLoop demo [(0, 1)] (1 / 2) 3 0 none (demoInit 1)).bound = some 5 := by
  norm_num [emLoop, step, demo, demoInit, Close]

example : ∃ f w, fit demo [(0, 1)] ⟨2, 3, 1 / 2, false⟩ demoInit none = .ok (f, w) ∧ f.converged ∧ ¬ w ∧
    f.params = iterate demo [(0, 1)] (demoInit 1) 3 ∧ f.nIter = 3 :=
  C189_violated_converged demo [(0, 1)] (1 / 2) 3 demoInit (by norm_num) (-5) 5 demo_first.1
    demo_first.2 demo_second.1 demo_second.2 (by norm_num)

example : ∃ f w, fit demo [(0, 1)] ⟨2, 3, 1 / 2, false⟩ demoInit none = .ok (f, w) ∧
    ∀ W, f.params.1 = .perCell W →
      ∀ q ∈ [((0 : Fin 2), (1 : Fin 2))], W q.1 q.2 = 1 ∧ ∀ k, k ≠ q.2 → W q.1 k = 0 :=
  C189_fixed demo [(0, 1)] _ demoInit none (by simp) (by norm_num) (by norm_num)

end GMMFit
end Verif
