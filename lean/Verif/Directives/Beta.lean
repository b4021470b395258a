import Verif.Directives.Run
import Mathlib.Algebra.Order.Field.Basic
import Mathlib.Algebra.Order.Ring.Abs
import Mathlib.Tactic.Ring
import Mathlib.Tactic.Linarith
import Mathlib.Tactic.FieldSimp
import Mathlib.Tactic.NormNum

/-! Model of `BetaSchedule`, `TargetMisfit` (`simpeg/directives/_directives.py` 605-671,
1092-1185) and of the part of the inversion they act on. -/

namespace Verif.Directives
open Verif

variable {K : Type} [Field K] [LinearOrder K] [IsStrictOrderedRing K] {ρ : Type}

/-- The attributes of the inverse problem and of `UpdateIRLS` that the modelled directives use.
`beta`, `phi_d` of the inverse problem; of `UpdateIRLS` its `cooling_factor` and its
`IRLSMetrics` (`_regularization.py` 19-39); of a sparse regularisation its `norms` (one
regularisation) and `irls_threshold` (one of its members). `rest` is everything else: model,
weights, fields. Numbers are elements of an ordered field instead of floats. -/
structure Inv (K ρ : Type) where
  beta : K
  phiD : K
  coolF : K
  start : Option Nat
  count : Nat
  fOld : K
  norms : List K
  inputNorms : List K
  threshold : K
  rest : ρ

/-- `self.invProb.beta /= c`; the setter (`inverse_problem.py` 71-72) refuses negative values. -/
def divBeta (c : K) (w : World (Inv K ρ)) : Except Err (World (Inv K ρ)) :=
  if w.st.beta / c < 0 then .error .valueError
  else .ok { w with st := { w.st with beta := w.st.beta / c } }

/-- `BetaSchedule` (605-671): only `endIter` does something. -/
def betaSchedule (maxIter : Nat) (factor : K) (rate : Nat) : Directive (Inv K ρ) where
  run r iter w := match r with
    | .endIter => if 0 < iter ∧ iter < maxIter ∧ iter % rate = 0 then divBeta factor w else .ok w
    | _ => .ok w

/-- `TargetMisfit` (1092-1185): `endIter` (1176-1179), the target being fixed. -/
def targetMisfit (target : K) : Directive (Inv K ρ) where
  run r _ w := match r with
    | .endIter => if w.st.phiD < target then .ok { w with stop := true } else .ok w
    | _ => .ok w

namespace Props

/-! ### C34 -/

/-- A property of the rest of the state that the directive does not change. -/
def Keeps {σ α : Type} (f : σ → α) (d : Directive σ) : Prop :=
  ∀ r i w w', d.run r i w = .ok w' → f w'.st = f w.st

/-- The optimiser does not change it either. -/
def OptKeeps {σ α : Type} (f : σ → α) (O : Optimiser σ) : Prop :=
  (∀ i s, f (O.eval i s) = f s) ∧ ∀ i s s', O.step i s = some s' → f s' = f s

theorem call_keeps_st {σ α : Type} (f : σ → α) (r : Rule) (i : Nat) :
    ∀ (ds : List (Directive σ)) (p : Nat) (w : World σ), (∀ d ∈ ds, Keeps f d) →
    f (call r i p ds w).2.1.st = f w.st
  | [], p, w, _ => rfl
  | d :: ds, p, w, hd => by
    simp only [call]
    cases h : d.run r i w with
    | error e => rfl
    | ok w' =>
      simp only
      rw [call_keeps_st f r i ds (p + 1) w' (fun d' hd' => hd d' (by simp [hd'])),
        hd d (by simp) r i w w' h]

/-- The call of a list around one directive `d`: if nothing raises, the state is that of the
three parts one after the other. -/
theorem call_mid {σ : Type} (r : Rule) (i : Nat) (pre post : List (Directive σ)) (d : Directive σ)
    (w : World σ) (hn : (call r i 0 (pre ++ d :: post) w).2.2 = none) :
    (call r i 0 pre w).2.2 = none ∧ ∃ w1, d.run r i (call r i 0 pre w).2.1 = .ok w1 ∧
      (call r i 0 (pre ++ d :: post) w).2 = (call r i (pre.length + 1) post w1).2 ∧
      (call r i (pre.length + 1) post w1).2.2 = none := by
  cases hp : (call r i 0 pre w).2.2 with
  | some e => rw [call_append_err r i e pre (d :: post) 0 w hp] at hn; cases hn
  | none =>
    have h1 := call_append r i pre (d :: post) 0 w hp
    rw [h1] at hn ⊢
    cases hd : d.run r i (call r i 0 pre w).2.1 with
    | error e => simp [call, hd] at hn
    | ok w1 =>
      simp only [call, hd, Nat.zero_add] at hn ⊢
      exact ⟨trivial, w1, rfl, rfl, hn⟩

/-- Number of times beta has been divided after `k` iterations. -/
def coolings (maxIter rate k : Nat) : Nat := min k (maxIter - 1) / rate

theorem coolings_succ (maxIter rate k : Nat) : coolings maxIter rate (k + 1) =
    coolings maxIter rate k + if k + 1 < maxIter ∧ (k + 1) % rate = 0 then 1 else 0 := by
  unfold coolings
  by_cases h : k + 1 < maxIter
  · rw [Nat.min_eq_left (by omega), Nat.min_eq_left (by omega), Nat.succ_div]
    simp only [h, true_and, Nat.dvd_iff_mod_eq_zero]
  · rw [Nat.min_eq_right (by omega), Nat.min_eq_right (by omega)]
    simp [h]

theorem loop_beta (O : Optimiser (Inv K ρ)) (pre post : List (Directive (Inv K ρ)))
    (maxIter rate : Nat) (c β₀ : K)
    (hO : OptKeeps Inv.beta O) (hpre : ∀ d ∈ pre, Keeps Inv.beta d)
    (hpost : ∀ d ∈ post, Keeps Inv.beta d) :
    ∀ (fuel a : Nat) (w : World (Inv K ρ)) (r : Result (Inv K ρ)),
    w.st.beta = β₀ / c ^ coolings maxIter rate a →
    loop O (pre ++ betaSchedule maxIter c rate :: post) fuel a w = some r → r.err = none →
    r.world.st.beta = β₀ / c ^ coolings maxIter rate r.iter
  | 0, a, w, r, _, h, _ => by simp [loop] at h
  | fuel + 1, a, w, r, hb, h, he => by
    simp only [loop] at h
    split at h
    · cases h
      simp only [hO.1]
      exact hb
    · split at h
      · cases h
        simp only [hO.1]
        exact hb
      · next s2 hs2 =>
        have hs2b : s2.beta = β₀ / c ^ coolings maxIter rate a := by
          rw [hO.2 _ _ _ hs2, hO.1, hb]
        split at h
        · next e hce => cases h; cases he
        · next hce =>
          obtain ⟨-, w1, hw1, hq, -⟩ := call_mid _ _ _ _ _ _ hce
          have hp := call_keeps_st Inv.beta .endIter (a + 1) pre 0 ⟨w.stop, s2⟩ hpre
          have hend : (call .endIter (a + 1) 0
              (pre ++ betaSchedule maxIter c rate :: post) ⟨w.stop, s2⟩).2.1.st.beta =
              β₀ / c ^ coolings maxIter rate (a + 1) := by
            rw [hq, call_keeps_st Inv.beta .endIter (a + 1) post _ w1 hpost, coolings_succ]
            simp only [betaSchedule] at hw1
            split at hw1
            · next hcond =>
              unfold divBeta at hw1
              split at hw1
              · cases hw1
              · cases hw1
                simp only
                rw [hp]
                simp only [hcond.2.1, hcond.2.2, and_self, if_true, hs2b, pow_succ,
                  div_div]
            · next hcond =>
              cases hw1
              have : ¬ (a + 1 < maxIter ∧ (a + 1) % rate = 0) := fun h => hcond ⟨by omega, h⟩
              rw [hp, if_neg this]
              simpa using hs2b
          split at h
          · cases h; exact hend
          · cases hl : loop O (pre ++ betaSchedule maxIter c rate :: post) fuel (a + 1)
                (call .endIter (a + 1) 0 (pre ++ betaSchedule maxIter c rate :: post)
                  ⟨w.stop, s2⟩).2.1 with
            | none => rw [hl] at h; simp at h
            | some r' =>
              rw [hl] at h
              cases h
              exact loop_beta O pre post maxIter rate c β₀ hO hpre hpost fuel (a + 1) _ r' hend hl he

/-- C34. In any run that ends without exception, with one `BetaSchedule` anywhere in the list
and otherwise only directives that leave beta alone, after `k` iterations
`beta = beta0 / c ^ ⌊min(k, maxIter - 1) / r⌋`, where `beta0` is beta at the start. -/
theorem C34_closed_form (O : Optimiser (Inv K ρ)) (pre post : List (Directive (Inv K ρ)))
    (maxIter rate fuel iter0 : Nat) (c : K) (w : World (Inv K ρ)) (r : Result (Inv K ρ))
    (hO : OptKeeps Inv.beta O) (hpre : ∀ d ∈ pre, Keeps Inv.beta d)
    (hpost : ∀ d ∈ post, Keeps Inv.beta d)
    (h : run O (pre ++ betaSchedule maxIter c rate :: post) fuel iter0 w = some r)
    (he : r.err = none) :
    r.world.st.beta = w.st.beta / c ^ (min r.iter (maxIter - 1) / rate) := by
  have hbs : ∀ rl i (w w' : World (Inv K ρ)), rl ≠ .endIter →
      (betaSchedule maxIter c rate).run rl i w = .ok w' → w' = w := by
    intro rl i w w' hne h
    cases rl <;> simp_all [betaSchedule]
  have around : ∀ rl i (w : World (Inv K ρ)), rl ≠ .endIter →
      (call rl i 0 (pre ++ betaSchedule maxIter c rate :: post) w).2.2 = none →
      (call rl i 0 (pre ++ betaSchedule maxIter c rate :: post) w).2.1.st.beta = w.st.beta := by
    intro rl i w hne hn
    obtain ⟨-, w1, hw1, hq, -⟩ := call_mid _ _ _ _ _ _ hn
    rw [hq, call_keeps_st Inv.beta rl i post _ w1 hpost, hbs _ _ _ _ hne hw1,
      call_keeps_st Inv.beta rl i pre 0 w hpre]
  simp only [run] at h
  split at h
  · cases h; cases he
  · next hie =>
    split at h
    · cases h
    · next r' hl =>
      split at h
      · next e hre => cases h; rw [hre] at he; cases he
      · next hre =>
        cases h
        simp only at he ⊢
        rw [around _ _ _ (by decide) he]
        refine loop_beta O pre post maxIter rate c _ hO hpre hpost fuel 0 _ r' ?_ hl hre
        simp [coolings, around _ _ _ (by decide) hie]

/-- C34. So beta stays positive, and with a factor of at least 1 more iterations never give a
larger beta. -/
theorem C34_positive_monotone (maxIter rate : Nat) (c β₀ : K) (hc : 1 ≤ c) (hβ : 0 < β₀)
    (k k' : Nat) (hk : k ≤ k') :
    0 < β₀ / c ^ (min k' (maxIter - 1) / rate) ∧
    β₀ / c ^ (min k' (maxIter - 1) / rate) ≤ β₀ / c ^ (min k (maxIter - 1) / rate) := by
  have hc0 : 0 < c := lt_of_lt_of_le one_pos hc
  refine ⟨div_pos hβ (pow_pos hc0 _), ?_⟩
  apply div_le_div_of_nonneg_left hβ.le (pow_pos hc0 _)
  exact pow_le_pow_right₀ hc (Nat.div_le_div_right (by omega))

theorem targetMisfit_keeps {α : Type} (f : Inv K ρ → α) (t : K) : Keeps f (targetMisfit t) := by
  intro r i w w' h
  cases r <;> simp only [targetMisfit] at h
  · cases h; rfl
  · split at h <;> cases h <;> rfl
  · cases h; rfl

theorem targetMisfit_keepsStop (t : K) : KeepsStop (targetMisfit t : Directive (Inv K ρ)) := by
  intro i w w' h hw
  simp only [targetMisfit] at h
  split at h
  · cases h; rfl
  · cases h; exact hw

theorem betaSchedule_keepsStop (maxIter rate : Nat) (c : K) :
    KeepsStop (betaSchedule maxIter c rate : Directive (Inv K ρ)) := by
  intro i w w' h hw
  simp only [betaSchedule, divBeta] at h
  split at h
  · split at h
    · cases h
    · cases h; exact hw
  · cases h; exact hw

/-- The last iteration does not cool beta: with rate 1 and `maxIter = 2`, after both iterations
beta has been divided once. -/
example :
    let O : Optimiser (Inv ℚ Unit) := ⟨fun _ s => s, fun i _ => decide (2 ≤ i), fun _ s => some s⟩
    let s : Inv ℚ Unit := ⟨8, 1, 1, none, 0, 0, [], [], 0, ()⟩
    ∃ r, run O [betaSchedule 2 4 1, targetMisfit 0] 10 0 ⟨false, s⟩ = some r ∧ r.iter = 2 ∧
      r.err = none ∧ r.world.st.beta = 2 := by
  norm_num [run, loop, call, betaSchedule, targetMisfit, divBeta]

/-! ### C37 for the target misfit -/

/-- C37. `TargetMisfit` ends the run at the first iteration after which the misfit is below the
target, wherever it stands in the list, if the directives before it leave the misfit alone and
those after it do not withdraw its request; it does not clear a request made by others, and nor
does `BetaSchedule`. -/
theorem C37_target_misfit_ends_run_partial (O : Optimiser (Inv K ρ))
    (pre post : List (Directive (Inv K ρ))) (target : K) (fuel iter : Nat)
    (w : World (Inv K ρ)) (s2 : Inv K ρ) (hc : Completes O iter w s2)
    (hpre : (call .endIter (iter + 1) 0 pre ⟨w.stop, s2⟩).2.2 = none)
    (hphi : ∀ d ∈ pre, Keeps Inv.phiD d) (hpost : ∀ d ∈ post, KeepsStop d)
    (hlt : s2.phiD < target) :
    ∃ r, loop O (pre ++ targetMisfit target :: post) (fuel + 1) iter w = some r ∧
      r.iter = iter + 1 := by
  refine C37_stop_honoured_partial O pre post _ fuel iter w s2
    { (call .endIter (iter + 1) 0 pre ⟨w.stop, s2⟩).2.1 with stop := true } hc hpre ?_ rfl hpost
  have := call_keeps_st Inv.phiD .endIter (iter + 1) pre 0 ⟨w.stop, s2⟩ hphi
  simp only [targetMisfit]
  rw [if_pos (by rw [this]; exact hlt)]

/-- C37. `TargetMisfit` and `BetaSchedule` never withdraw a request, and `TargetMisfit` makes
one only below its target. -/
theorem C37_standard_directives (target c : K) (maxIter rate : Nat) :
    KeepsStop (targetMisfit target : Directive (Inv K ρ)) ∧
    KeepsStop (betaSchedule maxIter c rate : Directive (Inv K ρ)) ∧
    ∀ i (w w' : World (Inv K ρ)), target ≤ w.st.phiD →
      (targetMisfit target).run .endIter i w = .ok w' → w' = w :=
  ⟨targetMisfit_keepsStop target, betaSchedule_keepsStop maxIter rate c, by
    intro i w w' hle h
    simp only [targetMisfit, if_neg (not_lt.mpr hle)] at h
    cases h; rfl⟩

/-- The second iteration brings the misfit below 1; `maxIter` would allow ten. -/
example :
    let O : Optimiser (Inv ℚ Unit) := ⟨fun _ s => s, fun i _ => decide (10 ≤ i),
      fun _ s => some { s with phiD := s.phiD - 2 }⟩
    let s : Inv ℚ Unit := ⟨8, 4, 1, none, 0, 0, [], [], 0, ()⟩
    ∃ r, run O [targetMisfit 1, betaSchedule 10 4 1] 6 0 ⟨false, s⟩ = some r ∧ r.iter = 2 := by
  norm_num [run, loop, call, betaSchedule, targetMisfit, divBeta]

end Props
end Verif.Directives
