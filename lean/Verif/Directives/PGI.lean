import Verif.Directives.Joint

/-!
C134: the directives for petrophysically guided inversion
(`simpeg/directives/_pgi_directives.py`): `PGI_BetaAlphaSchedule` and `PGI_AddMrefInSmooth`.
`PGI_UpdateParameters` is in `Verif.Reg.PGIState` and `Verif.Utils.GMM`.
-/

namespace Verif.Directives.PGI
open Verif Verif.Directives

variable {K : Type} [Field K] [LinearOrder K] [IsStrictOrderedRing K]

/-! ### `PGI_BetaAlphaSchedule` -/

/-- The settings of `PGI_BetaAlphaSchedule`
(`simpeg/directives/_pgi_directives.py` 150-164). `rate` is a positive integer. -/
structure Sched (K : Type) where
  tolerance : K
  progress : K
  cooling : K
  warming : K
  alphasmax : K
  betamin : K
  rate : Nat
  ratio : Bool

/-- What it changes, or keeps between iterations: `invProb.beta`, `alpha_pgi`, `mode` and
`previous_dmlist`. -/
structure SSt (K : Type) where
  beta : K
  alpha : K
  mode : Nat
  prev : List K

/-- `DM` of `MultiTargetMisfits` (`simpeg/directives/_directives.py` 1593-1603). -/
def reached (dm tg : List K) : Bool := (List.zipWith (fun d t => decide (d < t)) dm tg).all id

/-- `(dmlist[~targetlist] > threshold).all()`: every misfit that is not below its target is above the
larger of the target and the previous value reduced by `progress`
(`simpeg/directives/_pgi_directives.py` 202-208). -/
def plateau (C : Sched K) (prev dm tg : List K) : Bool :=
  (prev.zip (dm.zip tg)).all fun x =>
    decide (x.2.1 < x.2.2) || decide (max ((1 - C.progress) * x.1) x.2.2 < x.2.1)

/-- `dmlist > (1.0 + tolerance) * DMtarget` (`simpeg/directives/_pgi_directives.py` 231, 250), the pairs
of misfit and target for which it holds. -/
def above (C : Sched K) (dm tg : List K) : List (K × K) :=
  (dm.zip tg).filter fun x => decide ((1 + C.tolerance) * x.2 < x.1)

/-- `ratio` in `cool_beta` (`simpeg/directives/_pgi_directives.py` 249-252). -/
def coolRatio (C : Sched K) (dm tg : List K) : K :=
  if !(above C dm tg).isEmpty && C.ratio then median ((above C dm tg).map fun x => x.1 / x.2) else 1

/-- `cool_beta` (`simpeg/directives/_pgi_directives.py` 245-253). -/
def coolBeta (C : Sched K) (dm tg : List K) (s : SSt K) : SSt K :=
  { s with beta := s.beta / (C.cooling * coolRatio C dm tg) }

/-- `warm_alpha` (`simpeg/directives/_pgi_directives.py` 255-260). -/
def warmAlpha (C : Sched K) (dm tg : List K) (s : SSt K) : SSt K :=
  { s with alpha := s.alpha * (C.warming * median (List.zipWith (fun d t => t / d) dm tg)) }

/-- The branches of `endIter` that change something
(`simpeg/directives/_pgi_directives.py` 202-239). -/
def decide3 (C : Sched K) (dm tg : List K) (s : SSt K) : SSt K :=
  if plateau C s.prev dm tg && !reached dm tg && s.mode == 1 && decide (C.betamin < s.beta) then
    coolBeta C dm tg s
  else if reached dm tg && s.mode == 2 && decide (s.alpha < C.alphasmax) then warmAlpha C dm tg s
  else if !(above C dm tg).isEmpty && s.mode == 2 && decide (C.betamin < s.beta) then coolBeta C dm tg s
  else s

/-- `endIter` (`simpeg/directives/_pgi_directives.py` 171-243), without messages and without
`previous_score`, which nothing reads. -/
def endIter (C : Sched K) (tg : List K) (iter : Nat) (dm : List K) (s : SSt K) : SSt K :=
  let s := if reached dm tg then { s with mode := 2 } else s
  let s := if iter = 0 ∨ iter % C.rate ≠ 0 then s else decide3 C dm tg s
  { s with prev := dm }

/-- The iterations of an inversion, each with its number and the data misfits at its end. -/
def run (C : Sched K) (tg : List K) (s : SSt K) (its : List (Nat × List K)) : SSt K :=
  its.foldl (fun s x => endIter C tg x.1 x.2 s) s

/-! ### Specification and lemmas -/

/-- Every misfit is below its target. -/
def Met (dm tg : List K) : Prop := ∀ x ∈ dm.zip tg, x.1 < x.2

/-- Sensible settings and targets. -/
structure Sched.OK (C : Sched K) (tg : List K) : Prop where
  tol : 0 ≤ C.tolerance
  cool : 1 ≤ C.cooling
  target : ∀ t ∈ tg, 0 < t

theorem reached_iff (dm tg : List K) : reached dm tg = true ↔ Met dm tg := by
  unfold reached Met
  induction dm generalizing tg with
  | nil => simp
  | cons d dm ih =>
    cases tg with
    | nil => simp
    | cons t tg => simp [ih]

theorem coolRatio_ge (C : Sched K) (dm tg : List K) (hC : C.OK tg) : 1 ≤ coolRatio C dm tg := by
  unfold coolRatio
  split_ifs with h
  · simp only [Bool.and_eq_true, Bool.not_eq_true'] at h
    apply Props.median_ge
    · intro h0
      rw [List.map_eq_nil_iff] at h0
      rw [h0] at h
      simp at h
    · intro x hx
      obtain ⟨y, hy, rfl⟩ := List.mem_map.1 hx
      obtain ⟨h1, h2⟩ := List.mem_filter.1 hy
      have ht : 0 < y.2 := hC.target _ (List.of_mem_zip h1).2
      rw [le_div_iff₀ ht, one_mul]
      have := of_decide_eq_true h2
      nlinarith [mul_nonneg hC.tol ht.le]
  · exact le_rfl

theorem factor_ge (C : Sched K) (dm tg : List K) (hC : C.OK tg) : 1 ≤ C.cooling * coolRatio C dm tg :=
  one_le_mul_of_one_le_of_one_le hC.cool (coolRatio_ge C dm tg hC)

/-- What a single iteration can do. -/
inductive Change (C : Sched K) (tg : List K) (iter : Nat) (dm : List K) (s s' : SSt K) : Prop
  | none (hb : s'.beta = s.beta) (ha : s'.alpha = s.alpha)
  | cool (ha : s'.alpha = s.alpha) (hb : s'.beta = s.beta / (C.cooling * coolRatio C dm tg))
      (hmin : C.betamin < s.beta) (hi : 0 < iter) (hr : iter % C.rate = 0)
      (why : (s.mode = 1 ∧ ¬ Met dm tg ∧ ∀ x ∈ s.prev.zip (dm.zip tg), ¬ x.2.1 < x.2.2 →
          (1 - C.progress) * x.1 < x.2.1 ∧ x.2.2 < x.2.1) ∨
        (s'.mode = 2 ∧ ∃ x ∈ dm.zip tg, (1 + C.tolerance) * x.2 < x.1))
  | warm (hb : s'.beta = s.beta)
      (ha : s'.alpha = s.alpha * (C.warming * median (List.zipWith (fun d t => t / d) dm tg)))
      (hmax : s.alpha < C.alphasmax) (hi : 0 < iter) (hr : iter % C.rate = 0) (why : Met dm tg)

theorem endIter_mode (C : Sched K) (tg : List K) (iter : Nat) (dm : List K) (s : SSt K) :
    (endIter C tg iter dm s).mode = if reached dm tg then 2 else s.mode := by
  unfold endIter decide3 coolBeta warmAlpha
  dsimp only
  split_ifs <;> rfl

/-! ### C134 -/

/-- In an iteration either nothing changes, or the trade-off parameter is reduced (in the first phase
because no unmet misfit made the asked progress, in the second because a misfit has risen above its
target), or the weight of the smallness is scaled because all misfits are below their targets; only in
iterations that the update rate selects, and only while the parameter is inside its limit. -/
theorem C134_step (C : Sched K) (tg : List K) (iter : Nat) (dm : List K) (s : SSt K) :
    Change C tg iter dm s (endIter C tg iter dm s) := by
  have hmode := endIter_mode C tg iter dm s
  unfold endIter at hmode ⊢
  dsimp only at hmode ⊢
  by_cases hi : iter = 0 ∨ iter % C.rate ≠ 0
  · rw [if_pos hi]
    refine .none ?_ ?_ <;> (dsimp only; split_ifs <;> rfl)
  · rw [if_neg hi] at hmode ⊢
    push Not at hi
    by_cases hD : reached dm tg = true
    · have hm := (reached_iff dm tg).1 hD
      rw [if_pos hD] at hmode ⊢
      unfold decide3 at hmode ⊢
      dsimp only at hmode ⊢
      simp only [hD, Bool.not_true, Bool.and_false, Bool.false_and, Bool.false_eq_true, if_false, beq_self_eq_true,
        Bool.true_and, Bool.and_true, decide_eq_true_eq, Bool.and_eq_true] at hmode ⊢
      split_ifs at hmode ⊢ with h2 h3
      · exact .warm rfl rfl h2 (Nat.pos_of_ne_zero hi.1) hi.2 hm
      · refine .cool rfl rfl h3.2 (Nat.pos_of_ne_zero hi.1) hi.2 (Or.inr ⟨hmode, ?_⟩)
        have h4 := h3.1
        rw [Bool.not_eq_true', List.isEmpty_eq_false_iff_exists_mem] at h4
        obtain ⟨x, hx⟩ := h4
        exact ⟨x, (List.mem_filter.1 hx).1, of_decide_eq_true (List.mem_filter.1 hx).2⟩
      · exact .none rfl rfl
    · have hm := fun h => hD ((reached_iff dm tg).2 h)
      rw [if_neg hD] at hmode ⊢
      unfold decide3 at hmode ⊢
      rw [Bool.not_eq_true] at hD
      simp only [hD, Bool.not_false, Bool.and_true, Bool.false_and, Bool.false_eq_true, if_false,
        decide_eq_true_eq, Bool.and_eq_true, beq_iff_eq] at hmode ⊢
      split_ifs at hmode ⊢ with h1 h3
      · refine .cool rfl rfl h1.2 (Nat.pos_of_ne_zero hi.1) hi.2 (Or.inl ⟨h1.1.2, hm, ?_⟩)
        intro x hx hn
        have h4 := List.all_eq_true.1 h1.1.1 x hx
        simp only [Bool.or_eq_true, decide_eq_true_eq, hn, false_or, max_lt_iff] at h4
        exact h4
      · refine .cool rfl rfl h3.2 (Nat.pos_of_ne_zero hi.1) hi.2 (Or.inr ⟨h3.1.2, ?_⟩)
        have h4 := h3.1.1
        rw [Bool.not_eq_true', List.isEmpty_eq_false_iff_exists_mem] at h4
        obtain ⟨x, hx⟩ := h4
        exact ⟨x, (List.mem_filter.1 hx).1, of_decide_eq_true (List.mem_filter.1 hx).2⟩
      · exact .none rfl rfl

theorem run_snoc (C : Sched K) (tg : List K) (s : SSt K) (its : List (Nat × List K)) (x : Nat × List K) :
    run C tg s (its ++ [x]) = endIter C tg x.1 x.2 (run C tg s its) := by simp [run]

/-- Conversely, in selected iterations: in the first phase the trade-off parameter is reduced when every
misfit that is not below its target (the others do not count) has missed the asked progress; in the
second phase the weight is scaled when all are below their targets, and the trade-off parameter reduced
when one has risen above its target by more than the tolerance. -/
theorem C134_step_complete (C : Sched K) (tg : List K) (iter : Nat) (dm : List K) (s : SSt K) (hi : 0 < iter)
    (hr : iter % C.rate = 0) :
    (s.mode = 1 → C.betamin < s.beta → ¬ Met dm tg → (∀ x ∈ s.prev.zip (dm.zip tg), ¬ x.2.1 < x.2.2 →
        (1 - C.progress) * x.1 < x.2.1 ∧ x.2.2 < x.2.1) →
      (endIter C tg iter dm s).beta = s.beta / (C.cooling * coolRatio C dm tg)) ∧
    (Met dm tg → s.alpha < C.alphasmax →
      (endIter C tg iter dm s).alpha = s.alpha * (C.warming * median (List.zipWith (fun d t => t / d) dm tg))) ∧
    (s.mode = 2 → C.betamin < s.beta → ¬ Met dm tg → (∃ x ∈ dm.zip tg, (1 + C.tolerance) * x.2 < x.1) →
      (endIter C tg iter dm s).beta = s.beta / (C.cooling * coolRatio C dm tg)) := by
  have hsel : ¬ (iter = 0 ∨ iter % C.rate ≠ 0) := by omega
  refine ⟨fun hm hb hn hp => ?_, fun hm ha => ?_, fun hm hb hn hp => ?_⟩
  · have h1 : reached dm tg = false := by rw [Bool.eq_false_iff, ne_eq, reached_iff]; exact hn
    have h2 : plateau C s.prev dm tg = true := by
      rw [plateau, List.all_eq_true]
      intro x hx
      by_cases h : x.2.1 < x.2.2
      · simp [h]
      · have := hp x hx h
        simp [this.1, this.2]
    simp [endIter, hsel, decide3, h1, h2, hm, hb, coolBeta]
  · have h1 := (reached_iff dm tg).2 hm
    simp [endIter, hsel, decide3, h1, ha, warmAlpha]
  · have h1 : reached dm tg = false := by rw [Bool.eq_false_iff, ne_eq, reached_iff]; exact hn
    have h2 : (above C dm tg).isEmpty = false := by
      obtain ⟨x, hx, h⟩ := hp
      have : x ∈ above C dm tg := List.mem_filter.2 ⟨hx, by simpa using h⟩
      cases hh : above C dm tg with
      | nil => rw [hh] at this; simp at this
      | cons a l => rfl
    simp [endIter, hsel, decide3, h1, h2, hm, hb, coolBeta]

/-- Over any inversion the trade-off parameter stays positive and never rises. -/
theorem C134_beta (C : Sched K) (tg : List K) (hC : C.OK tg) (s : SSt K) (hb : 0 < s.beta)
    (its more : List (Nat × List K)) :
    0 < (run C tg s (its ++ more)).beta ∧ (run C tg s (its ++ more)).beta ≤ (run C tg s its).beta := by
  have one : ∀ (s : SSt K) (x : Nat × List K), 0 < s.beta →
      0 < (endIter C tg x.1 x.2 s).beta ∧ (endIter C tg x.1 x.2 s).beta ≤ s.beta := by
    intro s x hb
    have hf := factor_ge C x.2 tg hC
    rcases C134_step C tg x.1 x.2 s with ⟨h, _⟩ | ⟨_, h, _, _, _, _⟩ | ⟨h, _, _, _, _, _⟩ <;> rw [h]
    · exact ⟨hb, le_rfl⟩
    · exact ⟨div_pos hb (lt_of_lt_of_le one_pos hf), div_le_self hb.le hf⟩
    · exact ⟨hb, le_rfl⟩
  have pos : ∀ its : List (Nat × List K), 0 < (run C tg s its).beta := by
    intro its
    induction its using List.reverseRecOn with
    | nil => exact hb
    | append_singleton its x ih => rw [run_snoc]; exact (one _ x ih).1
  refine ⟨pos _, ?_⟩
  induction more using List.reverseRecOn with
  | nil => simp
  | append_singleton more x ih =>
    rw [← List.append_assoc, run_snoc]
    exact (one _ x (pos _)).2.trans ih

/-- Without the ratio in the cooling, a positive minimum is undershot at most by one cooling step: the
trade-off parameter stays above `betamin / coolingFactor`. What is missing: the minimum itself and the
ratio, see `C134_violated_limits`. -/
theorem C134_betamin_partial (C : Sched K) (tg : List K) (hC : C.OK tg) (hr : C.ratio = false)
    (hmin : 0 ≤ C.betamin) (s : SSt K) (hb : C.betamin < s.beta) (its : List (Nat × List K)) :
    C.betamin / C.cooling ≤ (run C tg s its).beta := by
  have hc : 0 < C.cooling := lt_of_lt_of_le one_pos hC.cool
  induction its using List.reverseRecOn with
  | nil => exact (div_le_self hmin hC.cool).trans hb.le
  | append_singleton its x ih =>
    rw [run_snoc]
    rcases C134_step C tg x.1 x.2 (run C tg s its) with ⟨h, _⟩ | ⟨_, h, hm, _, _, _⟩ | ⟨h, _, _, _, _, _⟩ <;> rw [h]
    · exact ih
    · have e : coolRatio C x.2 tg = 1 := by simp [coolRatio, hr]
      rw [e, mul_one]
      exact div_le_div_of_nonneg_right hm.le hc.le
    · exact ih

/-- The weight of the smallness changes only at the end of an iteration in which all misfits are below
their targets, and then, with a warming factor of at least one and positive misfits, it grows. -/
theorem C134_alpha (C : Sched K) (tg : List K) (iter : Nat) (dm : List K) (s : SSt K) (hw : 1 ≤ C.warming)
    (ha : 0 < s.alpha) (hd : ∀ d ∈ dm, 0 < d) (hl : dm.length = tg.length) (hn : dm ≠ []) :
    s.alpha ≤ (endIter C tg iter dm s).alpha ∧
    ((endIter C tg iter dm s).alpha ≠ s.alpha → Met dm tg ∧ 0 < iter ∧ iter % C.rate = 0 ∧
      (endIter C tg iter dm s).beta = s.beta) := by
  rcases C134_step C tg iter dm s with ⟨_, h⟩ | ⟨h, _, _, _, _, _⟩ | ⟨hb, h, _, hi, hr, hm⟩
  · exact ⟨h.ge, fun h' => absurd h h'⟩
  · exact ⟨h.ge, fun h' => absurd h h'⟩
  · refine ⟨?_, fun _ => ⟨hm, hi, hr, hb⟩⟩
    rw [h]
    refine le_mul_of_one_le_right ha.le (one_le_mul_of_one_le_of_one_le hw (Props.median_ge _ ?_ _ ?_))
    · cases dm with
      | nil => exact absurd rfl hn
      | cons d dm =>
        cases tg with
        | nil => simp at hl
        | cons t tg => simp
    · intro x hx
      rw [← List.map_uncurry_zip_eq_zipWith] at hx
      obtain ⟨y, hy, rfl⟩ := List.mem_map.1 hx
      have h1 := hm y hy
      have h2 := hd _ (List.of_mem_zip hy).1
      show 1 ≤ y.2 / y.1
      rw [le_div_iff₀ h2, one_mul]
      exact h1.le

/-- Once all misfits have been below their targets, the schedule is in its second phase for good. -/
theorem C134_second_phase (C : Sched K) (tg : List K) (s : SSt K) (its more : List (Nat × List K))
    (iter : Nat) (dm : List K) (h : Met dm tg) : (run C tg s (its ++ (iter, dm) :: more)).mode = 2 := by
  induction more using List.reverseRecOn with
  | nil => rw [run_snoc, endIter_mode, if_pos ((reached_iff dm tg).2 h)]
  | append_singleton more x ih =>
    rw [← List.cons_append, ← List.append_assoc, run_snoc, endIter_mode, ih]
    simp

/-- So from then on the trade-off parameter is reduced only when a misfit has risen above its target by
more than the tolerance, never for lack of progress. -/
theorem C134_no_plateau (C : Sched K) (tg : List K) (s : SSt K) (its more : List (Nat × List K))
    (iter : Nat) (dm : List K) (h : Met dm tg) (iter' : Nat) (dm' : List K)
    (hne : (run C tg s (its ++ (iter, dm) :: more ++ [(iter', dm')])).beta ≠
      (run C tg s (its ++ (iter, dm) :: more)).beta) :
    ∃ x ∈ dm'.zip tg, (1 + C.tolerance) * x.2 < x.1 := by
  rw [run_snoc] at hne
  have hm := C134_second_phase C tg s its more iter dm h
  rcases C134_step C tg iter' dm' (run C tg s (its ++ (iter, dm) :: more)) with
    ⟨hb, _⟩ | ⟨_, _, _, _, _, hw⟩ | ⟨hb, _, _, _, _, _⟩
  · exact absurd hb hne
  · rcases hw with hw | hw
    · rw [hm] at hw; exact absurd hw.1 (by norm_num)
    · exact hw.2
  · exact absurd hb hne

/-- While the targets have never been reached together, and the inversion began in the first phase, the
weight of the smallness is the initial one. -/
theorem C134_first_phase (C : Sched K) (tg : List K) (s : SSt K) (its : List (Nat × List K))
    (h : ∀ x ∈ its, ¬ Met x.2 tg) :
    (run C tg s its).alpha = s.alpha ∧ (run C tg s its).mode = s.mode := by
  induction its using List.reverseRecOn with
  | nil => exact ⟨rfl, rfl⟩
  | append_singleton its x ih =>
    obtain ⟨h1, h2⟩ := ih fun y hy => h y (List.mem_append_left _ hy)
    have hx := h x (List.mem_append_right _ (List.mem_singleton.2 rfl))
    rw [run_snoc]
    constructor
    · rcases C134_step C tg x.1 x.2 (run C tg s its) with ⟨_, h⟩ | ⟨h, _, _, _, _, _⟩ | ⟨_, _, _, _, _, hm⟩
      · rw [h, h1]
      · rw [h, h1]
      · exact absurd hm hx
    · rw [endIter_mode, if_neg (fun h => hx ((reached_iff _ _).1 h)), h2]

/-- The settings of the class, with a tolerance of one half. -/
def C0 : Sched ℚ where
  tolerance := 1 / 2
  progress := 1 / 10
  cooling := 2
  warming := 1
  alphasmax := 100
  betamin := 1
  rate := 1
  ratio := false

/-- `tolerance` is described as the tolerance on the target misfit for cooling. In the first phase the
decision does not use it: the trade-off parameter is reduced although every misfit is within the
tolerance of its target. -/
theorem C134_violated_tolerance :
    (∀ x ∈ [(11 : ℚ)].zip [10], x.1 ≤ (1 + C0.tolerance) * x.2) ∧
    (endIter C0 [10] 1 [11] ⟨8, 1, 1, [11]⟩).beta = 4 := by
  constructor
  · intro x hx
    simp only [List.zip_cons_cons, List.zip_nil_right, List.mem_singleton] at hx
    subst hx
    norm_num [C0]
  · norm_num [endIter, decide3, plateau, reached, above, coolBeta, coolRatio, C0]

/-- `betamin` and `alphasmax` are described as minimum and maximum. Both are passed by the last
change. -/
theorem C134_violated_limits :
    (endIter C0 [10] 1 [20] ⟨3 / 2, 1, 1, [20]⟩).beta < C0.betamin ∧
    C0.alphasmax < (endIter C0 [10] 1 [5] ⟨1, 99, 2, [20]⟩).alpha := by
  constructor
  · norm_num [endIter, decide3, plateau, reached, above, coolBeta, coolRatio, C0]
  · norm_num [endIter, decide3, plateau, reached, above, warmAlpha, C0, median, List.mergeSort]

example : C0.OK [10, 20] := ⟨by norm_num [C0], by norm_num [C0], by simp⟩

example : Met [(9 : ℚ), 5] [10, 20] := by intro x hx; simp at hx; rcases hx with rfl | rfl <;> norm_num

/-- Cooling for lack of progress, then warming when both targets are met. -/
example : (run C0 [10, 20] ⟨8, 1, 1, [40, 50]⟩ [(1, [39, 49]), (2, [5, 10])]).beta = 4 ∧
    (run C0 [10, 20] ⟨8, 1, 1, [40, 50]⟩ [(1, [39, 49]), (2, [5, 10])]).alpha = 2 := by
  constructor <;>
    norm_num [run, endIter, decide3, plateau, reached, above, coolBeta, coolRatio, warmAlpha, C0, median,
      List.mergeSort, List.MergeSort.Internal.splitInTwo, List.merge]

/-! ### The order of the directives -/

/-- A directive of the list. -/
inductive Kind
  | targets
  | schedule
  | other
  deriving DecidableEq

/-- `multi_target_misfits_directive`: none is a warning that is raised, two cannot be unpacked
(`simpeg/directives/_pgi_directives.py` 284-300). -/
def findTargets (all : List Kind) : Except Err Unit :=
  match all.count .targets with
  | 0 => .error .exception
  | 1 => .ok ()
  | _ => .error .valueError

/-- `DirectiveList.call("initialize")` in the order of the list: `MultiTargetMisfits.initialize` finds
the smallness term, `PGI_BetaAlphaSchedule.initialize` evaluates it
(`simpeg/directives/_pgi_directives.py` 166-169, `simpeg/directives/_directives.py` 1354-1421 and
1536-1546). `ready`: `smallness` exists. -/
def initAll (all : List Kind) : Bool → List Kind → Except Err Unit
  | _, [] => .ok ()
  | _, .targets :: rest => initAll all true rest
  | ready, .other :: rest => initAll all ready rest
  | ready, .schedule :: rest =>
    match findTargets all with
    | .error e => .error e
    | .ok _ => if ready then initAll all ready rest else .error .attributeError

theorem initAll_ready (all : List Kind) (h : all.count .targets = 1) (rest : List Kind) :
    initAll all true rest = .ok () := by
  induction rest with
  | nil => rfl
  | cons k rest ih => cases k <;> simp [initAll, ih, findTargets, h]

/-- A schedule in the list: the inversion starts if and only if there is exactly one
`MultiTargetMisfits` and it comes before every schedule. -/
theorem C134_order (ds : List Kind) (hs : Kind.schedule ∈ ds) :
    initAll ds false ds = .ok () ↔
      ∃ pre post, ds = pre ++ .targets :: post ∧ .schedule ∉ pre ∧ Kind.targets ∉ pre ∧ Kind.targets ∉ post := by
  have key : ∀ (all rest : List Kind), Kind.schedule ∈ rest →
      (initAll all false rest = .ok () ↔ all.count .targets = 1 ∧
        ∃ pre post, rest = pre ++ .targets :: post ∧ Kind.schedule ∉ pre ∧ Kind.targets ∉ pre ∧
          (Kind.schedule ∈ post)) := by
    intro all rest
    induction rest with
    | nil => intro h; simp at h
    | cons k rest ih =>
      intro h
      cases k with
      | other =>
        have h' : Kind.schedule ∈ rest := by simpa using h
        rw [show initAll all false (.other :: rest) = initAll all false rest from rfl, ih h']
        refine and_congr_right fun _ => ⟨?_, ?_⟩
        · rintro ⟨pre, post, rfl, h1, h2, h3⟩
          exact ⟨.other :: pre, post, rfl, by simp [h1], by simp [h2], h3⟩
        · rintro ⟨pre, post, he, h1, h2, h3⟩
          cases pre with
          | nil => simp at he
          | cons a pre =>
            simp only [List.cons_append, List.cons.injEq] at he
            simp only [List.mem_cons, not_or] at h1 h2
            exact ⟨pre, post, he.2, h1.2, h2.2, h3⟩
      | schedule =>
        constructor
        · intro h0
          unfold initAll at h0
          cases hf : findTargets all <;> simp [hf] at h0
        · rintro ⟨_, pre, post, he, h1, h2, h3⟩
          cases pre with
          | nil => simp at he
          | cons a pre =>
            simp only [List.cons_append, List.cons.injEq] at he
            simp only [List.mem_cons, not_or] at h1
            exact absurd he.1 h1.1
      | targets =>
        have h' : Kind.schedule ∈ rest := by simpa using h
        rw [show initAll all false (.targets :: rest) = initAll all true rest from rfl]
        constructor
        · intro h0
          refine ⟨?_, [], rest, rfl, by simp, by simp, h'⟩
          clear ih h
          induction rest with
          | nil => simp at h'
          | cons k rest ih =>
            cases k with
            | targets => exact ih (by simpa using h') (by simpa [initAll] using h0)
            | other => exact ih (by simpa using h') (by simpa [initAll] using h0)
            | schedule =>
              unfold initAll at h0
              unfold findTargets at h0
              split at h0
              · simp at h0
              · rename_i u hu
                split at hu
                · simp at hu
                · assumption
                · simp at hu
        · rintro ⟨h1, _⟩
          exact initAll_ready all h1 rest
  rw [key ds ds hs]
  constructor
  · rintro ⟨hc, pre, post, he, h1, h2, _⟩
    refine ⟨pre, post, he, h1, h2, ?_⟩
    rw [he, List.count_append, List.count_cons_self, List.count_eq_zero.2 h2] at hc
    exact List.count_eq_zero.1 (by omega)
  · rintro ⟨pre, post, he, h1, h2, h3⟩
    refine ⟨?_, pre, post, he, h1, h2, ?_⟩
    · rw [he, List.count_append, List.count_cons_self, List.count_eq_zero.2 h2, List.count_eq_zero.2 h3]
    · rw [he] at hs
      simp only [List.mem_append, List.mem_cons] at hs
      rcases hs with hs | hs | hs
      · exact absurd hs h1
      · simp at hs
      · exact hs

example : initAll [.schedule, .targets] false [.schedule, .targets] = .error .attributeError ∧
    initAll [.targets, .other, .schedule] false [.targets, .other, .schedule] = .ok () := by decide

/-! ### `PGI_AddMrefInSmooth` -/

/-- A term of a regularization: its reference model and `reference_model_in_smooth`. -/
structure Term (ρ : Type) where
  ref : Option ρ
  inSmooth : Bool

/-- The objective functions inside a regularization. -/
inductive Fct (ρ : Type)
  | smallness (t : Option ρ)
  | smoothness (t : Term ρ)
  | leastSquares (smooth : List (Term ρ))

variable {ρ : Type}

/-- `reference_model_in_smooth = True` on a term and, through
`WeightedLeastSquares`, on the terms inside (`simpeg/regularization/pgi.py` 1337-1346,
`simpeg/regularization/base.py` 999-1006 and 2140-2150). -/
def Fct.turnOn : Fct ρ → Fct ρ
  | .smallness t => .smallness t
  | .smoothness t => .smoothness { t with inSmooth := true }
  | .leastSquares l => .leastSquares (l.map fun t => { t with inSmooth := true })

/-- `isinstance(regpart, (SmoothnessFirstOrder, SparseSmoothness))`
(`simpeg/directives/_pgi_directives.py` 386-391). -/
def Fct.isSmoothness : Fct ρ → Bool
  | .smoothness _ => true
  | _ => false

/-- `objfcts[i].reference_model = mref` on a term that the test selected. -/
def Fct.setRef (mref : ρ) : Fct ρ → Fct ρ
  | .smoothness t => .smoothness { t with ref := some mref }
  | f => f

/-- `PGI_AddMrefInSmooth.endIter` when its conditions hold, for a regularization that is a `PGI` object
(`_regmode` 2, `simpeg/directives/_pgi_directives.py` 439-462): the terms after the first are turned on,
the terms the test selects get the reference model of the memberships. -/
def addMref (mref : ρ) (objfcts : List (Fct ρ)) : List (Fct ρ) :=
  match objfcts with
  | [] => []
  | f :: rest => (f :: rest.map Fct.turnOn).map fun g => if g.isSmoothness then g.setRef mref else g

/-- The terms of a `PGI` object: the petrophysical smallness and a `WeightedLeastSquares` for each
property (`simpeg/regularization/pgi.py` 1141-1180). -/
def pgi (small : Option ρ) (smooth : List (List (Term ρ))) : List (Fct ρ) :=
  .smallness small :: smooth.map .leastSquares

/-- The directive is to include the learned reference model in the smoothness terms. It turns the
reference model of these terms on but leaves there whatever it was: none of them ever has the learned
one. -/
theorem C134_violated_add_mref (mref : ρ) (small : Option ρ) (smooth : List (List (Term ρ))) :
    addMref mref (pgi small smooth) =
      pgi small (smooth.map fun l => l.map fun t => { t with inSmooth := true }) := by
  simp [addMref, pgi, Fct.turnOn, Fct.isSmoothness]

/-- An inversion sets the reference model of every term without one to the starting model; it is the
starting model that the smoothness terms then use. -/
example : addMref 7 (pgi none [[⟨some 0, false⟩], [⟨some 1, false⟩]]) =
    [.smallness none, .leastSquares [⟨some 0, true⟩], .leastSquares [⟨some 1, true⟩]] := by
  rw [C134_violated_add_mref]; rfl

end Verif.Directives.PGI
