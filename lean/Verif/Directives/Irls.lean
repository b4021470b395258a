import Verif.Directives.Beta

/-! Model of `UpdateIRLS` (`simpeg/directives/_regularization.py` 42-425). -/

namespace Verif.Directives
open Verif

variable {K : Type} [Field K] [LinearOrder K] [IsStrictOrderedRing K] {ρ : Type}

/-- The settings of `UpdateIRLS` (70-98, setters 112-210) and what it uses of the problem: the
number of data (212-226), the value of the sparse regularisations at the current model
(392-396), the threshold computed from the current model (331-336) and the recomputation of the
weights (299-303). -/
structure Irls (K ρ : Type) where
  rate : Nat
  chiStart : K
  chiTarget : K
  irlsFactor : K
  fMin : K
  maxIrls : Nat
  tol : K
  nD : Nat
  phim : ρ → K
  threshold : ρ → K
  update : ρ → ρ

/-- `misfit_from_chi_factor` (212-226). -/
def Irls.misfit (C : Irls K ρ) (chi : K) : K := (C.nD : K) * chi

/-- The setter of `cooling_factor` (170-174). -/
def setCoolF (c : K) (s : Inv K ρ) : Except Err (Inv K ρ) :=
  if 0 < c then .ok { s with coolF := c } else .error .valueError

/-- The new cooling factor (238-241) for a non-zero ratio. -/
def newFactor (ratio : K) : K :=
  if 1 < ratio then 1 / ((3 / 4 + 1 / ratio) / 2) else 1 / ((2 + 1 / ratio) / 2)

/-- `adjust_cooling_schedule` (228-245). For `phi_d = 0` the numpy value `1 / ratio` is infinite,
the new factor is 0, and the setter raises. The target misfit is taken to be positive. -/
def Irls.adjust (C : Irls K ρ) (s : Inv K ρ) : Except Err (Inv K ρ) :=
  match s.start with
  | none => .ok s
  | some _ =>
    let ratio := s.phiD / C.misfit C.chiTarget
    if C.tol < |1 - ratio| then
      if ratio = 0 then setCoolF 0 s else setCoolF (newFactor ratio) s
    else setCoolF 1 s

/-- `start_irls` (311-348). -/
def Irls.startIrls (C : Irls K ρ) (iter : Nat) (s : Inv K ρ) : Inv K ρ :=
  { s with start := some iter, threshold := C.threshold s.rest, norms := s.inputNorms, coolF := 1 }

/-- Lines 270-274. -/
def Irls.maybeStart (C : Irls K ρ) (iter : Nat) (s : Inv K ρ) : Inv K ρ :=
  match s.start with
  | none => if s.phiD < C.misfit C.chiStart then C.startIrls iter s else s
  | some _ => s

/-- `stopping_criteria` (388-425): the answer; when it is `False` the old value is stored. -/
def Irls.stopping (C : Irls K ρ) (s : Inv K ρ) : Bool :=
  if s.count = C.maxIrls then true
  else decide (|s.fOld - C.phim s.rest| / (s.fOld + 1 / 1000000000000) < C.fMin) &&
    (decide (1 < s.count) &&
      decide (|1 - s.phiD / C.misfit C.chiTarget| < C.tol))

/-- Lines 284-305: one IRLS update. -/
def Irls.irlsStep (C : Irls K ρ) (s : Inv K ρ) : Inv K ρ :=
  { s with fOld := C.phim s.rest, threshold := s.threshold / C.irlsFactor, count := s.count + 1,
           rest := C.update s.rest }

/-- Lines 307-309. -/
def Irls.cool (C : Irls K ρ) (iter : Nat) (w : World (Inv K ρ)) : Except Err (World (Inv K ρ)) :=
  if 0 < iter ∧ iter % C.rate = 0 then divBeta w.st.coolF w else .ok w

/-- Lines 276-309, after the cooling factor was adjusted and IRLS started if it is time. -/
def Irls.update2 (C : Irls K ρ) (iter : Nat) (b : Bool) (s : Inv K ρ) :
    Except Err (World (Inv K ρ)) :=
  match s.start with
  | none => C.cool iter ⟨b, s⟩
  | some k =>
    if (iter - k) % C.rate = 0 then
      if C.stopping s then .ok ⟨true, s⟩ else C.cool iter ⟨false, C.irlsStep s⟩
    else C.cool iter ⟨b, s⟩

/-- `endIter` (262-309). -/
def Irls.endIter (C : Irls K ρ) (iter : Nat) (w : World (Inv K ρ)) :
    Except Err (World (Inv K ρ)) :=
  match C.adjust w.st with
  | .error e => .error e
  | .ok s => C.update2 iter w.stop (C.maybeStart iter s)

/-- `initialize` (247-260). -/
def Irls.initialize (s : Inv K ρ) : Inv K ρ :=
  { s with inputNorms := s.norms, norms := s.norms.map fun _ => 2, start := none, count := 0,
           fOld := 0 }

/-- The directive. -/
def updateIRLS (C : Irls K ρ) : Directive (Inv K ρ) where
  run r iter w := match r with
    | .initialize => .ok { w with st := Irls.initialize w.st }
    | .endIter => C.endIter iter w
    | .finish => .ok w

namespace Props

/-! ### C35 -/

theorem newFactor_above (ratio : K) (h : 1 < ratio) :
    8 / 7 < newFactor ratio ∧ newFactor ratio < 8 / 3 := by
  have h0 : 0 < ratio := lt_trans one_pos h
  have h1 : 0 < 1 / ratio := by positivity
  have h2 : 1 / ratio < 1 := by rw [div_lt_one h0]; exact h
  rw [newFactor, if_pos h]
  constructor
  · rw [div_lt_div_iff₀ (by norm_num) (by linarith)]; linarith
  · rw [div_lt_div_iff₀ (by linarith) (by norm_num)]; linarith

theorem newFactor_below (ratio : K) (h0 : 0 < ratio) (h : ratio ≤ 1) :
    0 < newFactor ratio ∧ newFactor ratio ≤ 2 / 3 := by
  have h1 : 1 ≤ 1 / ratio := by rw [le_div_iff₀ h0]; linarith
  rw [newFactor, if_neg (not_lt.mpr h)]
  refine ⟨by positivity, ?_⟩
  rw [div_le_div_iff₀ (by linarith) (by norm_num)]; linarith

/-- C35 (partial). What `UpdateIRLS` does to beta once IRLS has started, at an iteration at which it
cools, if it does not end the run: beta stays when the misfit is within the tolerance of the
target, is divided by something between 8/7 and 8/3 when the misfit is too large, and is
multiplied by at least 3/2 when the misfit is too small. It never raises. Missing: a misfit of zero, see below. -/
theorem C35_beta_follows_misfit_partial (C : Irls K ρ) (iter k : Nat) (w : World (Inv K ρ))
    (hs : w.st.start = some k) (hi : 0 < iter) (hr : iter % C.rate = 0)
    (hβ : 0 < w.st.beta) (hT : 0 < C.misfit C.chiTarget) (hφ : 0 < w.st.phiD) :
    ∃ w', (updateIRLS C).run .endIter iter w = .ok w' ∧
      ((w'.stop = true ∧ (iter - k) % C.rate = 0 ∧ w'.st.beta = w.st.beta) ∨
        ((|1 - w.st.phiD / C.misfit C.chiTarget| ≤ C.tol → w'.st.beta = w.st.beta) ∧
         (C.tol < |1 - w.st.phiD / C.misfit C.chiTarget| → C.misfit C.chiTarget < w.st.phiD →
            3 / 8 * w.st.beta < w'.st.beta ∧ w'.st.beta < 7 / 8 * w.st.beta) ∧
         (C.tol < |1 - w.st.phiD / C.misfit C.chiTarget| → w.st.phiD ≤ C.misfit C.chiTarget →
            3 / 2 * w.st.beta ≤ w'.st.beta))) := by
  set ratio := w.st.phiD / C.misfit C.chiTarget with hratio
  have hr0 : 0 < ratio := div_pos hφ hT
  obtain ⟨c, hc, hadj, h1, h2, h3⟩ : ∃ c, 0 < c ∧ C.adjust w.st = .ok { w.st with coolF := c } ∧
      (|1 - ratio| ≤ C.tol → c = 1) ∧
      (C.tol < |1 - ratio| → 1 < ratio → 8 / 7 < c ∧ c < 8 / 3) ∧
      (C.tol < |1 - ratio| → ratio ≤ 1 → c ≤ 2 / 3) := by
    by_cases ht : C.tol < |1 - ratio|
    · have hc : 0 < newFactor ratio := by
        by_cases h : 1 < ratio
        · exact lt_trans (by norm_num) (newFactor_above ratio h).1
        · exact (newFactor_below ratio hr0 (not_lt.mp h)).1
      refine ⟨newFactor ratio, hc, ?_, fun h => absurd ht (not_lt.mpr h),
        fun _ h => newFactor_above ratio h, fun _ h => (newFactor_below ratio hr0 h).2⟩
      simp only [Irls.adjust, hs, ← hratio, if_pos ht, if_neg hr0.ne', setCoolF, if_pos hc]
    · refine ⟨1, one_pos, ?_, fun _ => rfl, fun h => absurd h ht, fun h => absurd h ht⟩
      simp only [Irls.adjust, hs, ← hratio, if_neg ht, setCoolF, one_pos, if_true]
  have hcool : ∀ (b : Bool) (s : Inv K ρ), s.beta = w.st.beta → s.coolF = c →
      C.cool iter ⟨b, s⟩ = .ok ⟨b, { s with beta := w.st.beta / c }⟩ := by
    intro b s hb hcf
    have : ¬ (w.st.beta / c < 0) := not_lt.mpr (div_pos hβ hc).le
    simp only [Irls.cool, hi, hr, and_self, if_true, divBeta, hb, hcf, this, if_false]
  have hfin : (|1 - ratio| ≤ C.tol → w.st.beta / c = w.st.beta) ∧
      (C.tol < |1 - ratio| → C.misfit C.chiTarget < w.st.phiD →
        3 / 8 * w.st.beta < w.st.beta / c ∧ w.st.beta / c < 7 / 8 * w.st.beta) ∧
      (C.tol < |1 - ratio| → w.st.phiD ≤ C.misfit C.chiTarget →
        3 / 2 * w.st.beta ≤ w.st.beta / c) := by
    refine ⟨fun h => by rw [h1 h, div_one], fun h hlt => ?_, fun h hle => ?_⟩
    · have hlt' : 1 < ratio := by rw [hratio, lt_div_iff₀ hT, one_mul]; exact hlt
      obtain ⟨a, b⟩ := h2 h hlt'
      constructor
      · rw [lt_div_iff₀ hc]
        have : 3 / 8 * c < 1 := by linarith
        nlinarith
      · rw [div_lt_iff₀ hc]
        have : 1 < 7 / 8 * c := by linarith
        nlinarith
    · have hle' : ratio ≤ 1 := by rw [hratio, div_le_one hT]; exact hle
      have a := h3 h hle'
      rw [le_div_iff₀ hc]
      have : 3 / 2 * c ≤ 1 := by linarith
      nlinarith
  obtain ⟨s1, hs1, e1, e2, e3⟩ : ∃ s1, C.adjust w.st = .ok s1 ∧ s1.beta = w.st.beta ∧
      s1.coolF = c ∧ s1.start = some k := ⟨_, hadj, rfl, rfl, hs⟩
  have hms : C.maybeStart iter s1 = s1 := by simp only [Irls.maybeStart, e3]
  simp only [updateIRLS, Irls.endIter, hs1, hms, Irls.update2, e3]
  by_cases hm : (iter - k) % C.rate = 0
  · rw [if_pos hm]
    by_cases hst : C.stopping s1 = true
    · rw [if_pos hst]
      exact ⟨_, rfl, Or.inl ⟨rfl, hm, e1⟩⟩
    · rw [if_neg hst]
      exact ⟨_, hcool false _ e1 e2, Or.inr hfin⟩
  · rw [if_neg hm]
    exact ⟨_, hcool w.stop _ e1 e2, Or.inr hfin⟩

/-- C35. A perfect fit after IRLS has started makes the directive raise. -/
theorem C35_perfect_fit_raises (C : Irls K ρ) (iter k : Nat) (w : World (Inv K ρ))
    (hs : w.st.start = some k) (hφ : w.st.phiD = 0) (htol : C.tol < 1) :
    (updateIRLS C).run .endIter iter w = .error .valueError := by
  simp [updateIRLS, Irls.endIter, Irls.adjust, hs, hφ, htol, setCoolF]

/-- The hypotheses of `C35_beta_follows_misfit_partial` can be met: misfit 20 for a target of 10. -/
example : let C : Irls ℚ Unit := ⟨1, 1, 1, 1, 1, 20, 1 / 10, 10, fun _ => 0, fun _ => 0, id⟩
    ∃ w', (updateIRLS C).run .endIter 3 ⟨false, ⟨5, 20, 1, some 2, 1, 0, [], [], 0, ()⟩⟩ = .ok w' ∧
      w'.st.beta = 25 / 8 := by
  simp only [updateIRLS, Irls.endIter, Irls.adjust, Irls.misfit, setCoolF, newFactor,
    Irls.maybeStart, Irls.update2, Irls.stopping, Irls.cool, divBeta, Irls.irlsStep]
  norm_num

/-! ### C36 -/

/-- Directives that leave the IRLS counters alone. -/
def metrics (s : Inv K ρ) : Option Nat × Nat := (s.start, s.count)

/-- The counters while the run goes on, after `a` iterations: not started, or started at
iteration `s` with one update then and one every `rate` iterations since. -/
def Going (C : Irls K ρ) (a : Nat) (s : Inv K ρ) : Prop :=
  (s.start = none ∧ s.count = 0) ∨
    ∃ k, s.start = some k ∧ k ≤ a ∧ s.count = (a - k) / C.rate + 1 ∧ s.count ≤ C.maxIrls

/-- The counters at any time, `a` being the number of iterations. -/
def Within (C : Irls K ρ) (a : Nat) (s : Inv K ρ) : Prop :=
  (s.start = none ∧ s.count = 0) ∨
    ∃ k, s.start = some k ∧ k ≤ a ∧ s.count ≤ C.maxIrls ∧ a ≤ k + C.maxIrls * C.rate

theorem Going.lt {C : Irls K ρ} {a k : Nat} {s : Inv K ρ} (hr : 0 < C.rate)
    (hc : s.count = (a - k) / C.rate + 1) (hm : s.count ≤ C.maxIrls) :
    a - k < C.maxIrls * C.rate := by
  have h : (a - k) / C.rate < C.maxIrls := by omega
  exact (Nat.div_lt_iff_lt_mul hr).mp h

theorem Going.within {C : Irls K ρ} {a : Nat} {s : Inv K ρ} (hr : 0 < C.rate)
    (h : Going C a s) : Within C a s ∧ Within C (a + 1) s := by
  rcases h with h | ⟨k, h1, h2, h3, h4⟩
  · exact ⟨Or.inl h, Or.inl h⟩
  · have := Going.lt (k := k) hr h3 h4
    exact ⟨Or.inr ⟨k, h1, h2, h4, by omega⟩, Or.inr ⟨k, h1, by omega, h4, by omega⟩⟩

theorem going_congr {C : Irls K ρ} {a : Nat} {s s' : Inv K ρ} (h : metrics s' = metrics s) :
    (Going C a s' ↔ Going C a s) ∧ (Within C a s' ↔ Within C a s) := by
  simp only [metrics, Prod.mk.injEq] at h
  simp only [Going, Within, h.1, h.2, and_self]

theorem cool_ok {C : Irls K ρ} {iter : Nat} {w w' : World (Inv K ρ)}
    (h : C.cool iter w = .ok w') : metrics w'.st = metrics w.st ∧ w'.stop = w.stop := by
  unfold Irls.cool divBeta at h
  split at h
  · split at h
    · cases h
    · cases h; exact ⟨rfl, rfl⟩
  · cases h; exact ⟨rfl, rfl⟩

theorem adjust_ok {C : Irls K ρ} {s s' : Inv K ρ} (h : C.adjust s = .ok s') :
    metrics s' = metrics s := by
  unfold Irls.adjust at h
  split at h
  · cases h; rfl
  · simp only [setCoolF] at h
    split at h
    · split at h
      · split at h <;> cases h; rfl
      · split at h <;> cases h; rfl
    · split at h <;> cases h; rfl

theorem mod_succ_div {a k r : Nat} (hr : 0 < r) (hk : k ≤ a) :
    (a + 1 - k) / r = (a - k) / r + if (a + 1 - k) % r = 0 then 1 else 0 := by
  rw [show a + 1 - k = (a - k) + 1 by omega, Nat.succ_div]
  simp only [Nat.dvd_iff_mod_eq_zero]

/-- One end-of-iteration call of `UpdateIRLS`. -/
theorem irls_step (C : Irls K ρ) (hr : 0 < C.rate) (a : Nat) (w w' : World (Inv K ρ))
    (hg : Going C a w.st) (h : C.endIter (a + 1) w = .ok w') :
    Within C (a + 1) w'.st ∧ (w'.stop = false → Going C (a + 1) w'.st) := by
  unfold Irls.endIter at h
  cases had : C.adjust w.st with
  | error e => rw [had] at h; cases h
  | ok s =>
    rw [had] at h
    have hgs : Going C a s := (going_congr (adjust_ok had)).1.mpr hg
    -- after the possible start
    have hst : (∃ s', C.maybeStart (a + 1) s = s' ∧
        ((s'.start = none ∧ s'.count = 0) ∨
         (s'.start = some (a + 1) ∧ s'.count = 0) ∨
         (∃ k, s'.start = some k ∧ k ≤ a ∧ s'.count = (a - k) / C.rate + 1 ∧
            s'.count ≤ C.maxIrls))) := by
      refine ⟨_, rfl, ?_⟩
      rcases hgs with ⟨h1, h2⟩ | ⟨k, h1, h2, h3, h4⟩
      · simp only [Irls.maybeStart, h1]
        split
        · exact Or.inr (Or.inl ⟨rfl, h2⟩)
        · exact Or.inl ⟨h1, h2⟩
      · simp only [Irls.maybeStart, h1]
        exact Or.inr (Or.inr ⟨k, rfl, h2, h3, h4⟩)
    obtain ⟨s', hs', hcase⟩ := hst
    simp only [hs'] at h
    unfold Irls.update2 at h
    rcases hcase with ⟨h1, h2⟩ | ⟨h1, h2⟩ | ⟨k, h1, h2, h3, h4⟩
    · rw [h1] at h
      obtain ⟨hm, -⟩ := cool_ok h
      have hG : Going C (a + 1) w'.st := (going_congr hm).1.mpr (Or.inl ⟨h1, h2⟩)
      exact ⟨(hG.within hr).1, fun _ => hG⟩
    · rw [h1] at h
      simp only [Nat.sub_self, Nat.zero_mod, if_true] at h
      split at h
      · cases h
        exact ⟨Or.inr ⟨a + 1, h1, le_rfl, by rw [h2]; exact Nat.zero_le _, Nat.le_add_right _ _⟩,
          by simp⟩
      · next hns =>
        obtain ⟨hm, -⟩ := cool_ok h
        have hne : s'.count ≠ C.maxIrls := fun he => hns (by simp [Irls.stopping, he])
        have hG : Going C (a + 1) w'.st := (going_congr hm).1.mpr
          (Or.inr ⟨a + 1, h1, le_rfl, by simp [Irls.irlsStep, h2], by
            simp only [Irls.irlsStep, h2]; omega⟩)
        exact ⟨(hG.within hr).1, fun _ => hG⟩
    · rw [h1] at h
      have hlt := Going.lt (k := k) hr h3 h4
      have hdiv := mod_succ_div hr h2
      simp only at h
      split at h
      · next hmod =>
        rw [if_pos hmod] at hdiv
        split at h
        · cases h
          exact ⟨Or.inr ⟨k, h1, by omega, h4, by omega⟩, by simp⟩
        · next hns =>
          obtain ⟨hm, -⟩ := cool_ok h
          have hne : s'.count ≠ C.maxIrls := fun he => hns (by simp [Irls.stopping, he])
          have hG : Going C (a + 1) w'.st := (going_congr hm).1.mpr
            (Or.inr ⟨k, h1, by omega, by simp only [Irls.irlsStep]; omega, by
              simp only [Irls.irlsStep]; omega⟩)
          exact ⟨(hG.within hr).1, fun _ => hG⟩
      · next hmod =>
        rw [if_neg hmod] at hdiv
        obtain ⟨hm, -⟩ := cool_ok h
        have hG : Going C (a + 1) w'.st := (going_congr hm).1.mpr
          (Or.inr ⟨k, h1, by omega, by simp only; omega, h4⟩)
        exact ⟨(hG.within hr).1, fun _ => hG⟩

theorem call_irls (C : Irls K ρ) (hr : 0 < C.rate) (pre post : List (Directive (Inv K ρ)))
    (hpre : ∀ d ∈ pre, Keeps metrics d) (hpost : ∀ d ∈ post, Keeps metrics d)
    (hstop : ∀ d ∈ post, KeepsStop d) (a : Nat) (w : World (Inv K ρ)) (hg : Going C a w.st) :
    let q := call .endIter (a + 1) 0 (pre ++ updateIRLS C :: post) w
    Within C (a + 1) q.2.1.st ∧
      (q.2.2 = none → q.2.1.stop = false → Going C (a + 1) q.2.1.st) := by
  intro q
  have hp := call_keeps_st metrics .endIter (a + 1) pre 0 w hpre
  cases hpe : (call .endIter (a + 1) 0 pre w).2.2 with
  | some e =>
    -- an earlier directive raised: the state is that of the earlier directives
    have hq : q.2.1 = (call .endIter (a + 1) 0 pre w).2.1 ∧ q.2.2 = some e := by
      have key : ∀ (ds es : List (Directive (Inv K ρ))) (p : Nat) (w : World (Inv K ρ)),
          (call .endIter (a + 1) p ds w).2.2 = some e →
          (call .endIter (a + 1) p (ds ++ es) w).2 = (call .endIter (a + 1) p ds w).2 := by
        intro ds
        induction ds with
        | nil => intro es p w h; simp [call] at h
        | cons d ds ih =>
          intro es p w h
          simp only [call, List.cons_append] at h ⊢
          cases hd : d.run .endIter (a + 1) w with
          | error e' => rfl
          | ok w' => rw [hd] at h; exact ih es (p + 1) w' h
      have := key pre (updateIRLS C :: post) 0 w hpe
      exact ⟨congrArg Prod.fst this, (congrArg Prod.snd this).trans hpe⟩
    rw [hq.1, hq.2]
    exact ⟨(going_congr hp).2.mpr (hg.within hr).2, by simp⟩
  | none =>
    have h1 := call_append .endIter (a + 1) pre (updateIRLS C :: post) 0 w hpe
    have hg' : Going C a (call .endIter (a + 1) 0 pre w).2.1.st := (going_congr hp).1.mpr hg
    cases hd : (updateIRLS C).run .endIter (a + 1) (call .endIter (a + 1) 0 pre w).2.1 with
    | error e =>
      have hq : q.2 = ((call .endIter (a + 1) 0 pre w).2.1, some e) := by
        change (call .endIter (a + 1) 0 (pre ++ updateIRLS C :: post) w).2 = _
        rw [h1]; simp only [call, hd]
      rw [hq]
      exact ⟨(going_congr hp).2.mpr (hg.within hr).2, by simp⟩
    | ok w1 =>
      have hq : q.2 = (call .endIter (a + 1) (pre.length + 1) post w1).2 := by
        change (call .endIter (a + 1) 0 (pre ++ updateIRLS C :: post) w).2 = _
        rw [h1]; simp only [call, hd, Nat.zero_add]
      have hi := irls_step C hr a _ w1 hg' hd
      have hk := call_keeps_st metrics .endIter (a + 1) post (pre.length + 1) w1 hpost
      rw [hq]
      refine ⟨(going_congr hk).2.mpr hi.1, fun hn hs => ?_⟩
      have : w1.stop = false := by
        cases hw : w1.stop
        · rfl
        · rw [call_keeps (a + 1) post _ w1 hstop hn hw] at hs; cases hs
      exact (going_congr hk).1.mpr (hi.2 this)

theorem loop_irls (O : Optimiser (Inv K ρ)) (C : Irls K ρ) (hr : 0 < C.rate)
    (pre post : List (Directive (Inv K ρ))) (hO : OptKeeps metrics O)
    (hpre : ∀ d ∈ pre, Keeps metrics d) (hpost : ∀ d ∈ post, Keeps metrics d)
    (hstop : ∀ d ∈ post, KeepsStop d) : ∀ (fuel a : Nat) (w : World (Inv K ρ))
    (r : Result (Inv K ρ)), Going C a w.st →
    loop O (pre ++ updateIRLS C :: post) fuel a w = some r → Within C r.iter r.world.st
  | 0, a, w, r, _, h => by simp [loop] at h
  | fuel + 1, a, w, r, hg, h => by
    simp only [loop] at h
    split at h
    · cases h
      exact (going_congr (hO.1 _ _)).2.mpr (hg.within hr).1
    · split at h
      · cases h
        exact (going_congr (hO.1 _ _)).2.mpr (hg.within hr).1
      · next s2 hs2 =>
        have hg2 : Going C a s2 :=
          (going_congr ((hO.2 _ _ _ hs2).trans (hO.1 _ _))).1.mpr hg
        have hc := call_irls C hr pre post hpre hpost hstop a ⟨w.stop, s2⟩ hg2
        split at h
        · cases h; exact hc.1
        · next hce =>
          split at h
          · cases h; exact hc.1
          · next hns =>
            cases hl : loop O (pre ++ updateIRLS C :: post) fuel (a + 1)
                (call .endIter (a + 1) 0 (pre ++ updateIRLS C :: post) ⟨w.stop, s2⟩).2.1 with
            | none => rw [hl] at h; simp at h
            | some r' =>
              rw [hl] at h
              cases h
              exact loop_irls O C hr pre post hO hpre hpost hstop fuel (a + 1) _ r'
                (hc.2 hce (by simpa using hns)) hl

/-- C36. In a run with one `UpdateIRLS` (and other directives that leave its counters alone,
those after it not withdrawing its request to stop), for any trajectory of misfits and norms:
IRLS is updated at most `max_irls_iterations` times, and if it started at iteration `k` the run
has at most `k + max_irls_iterations * cooling_rate` iterations. Holds also when the run is
ended by an exception. -/
theorem C36_irls_budget (O : Optimiser (Inv K ρ)) (C : Irls K ρ) (hr : 0 < C.rate)
    (pre post : List (Directive (Inv K ρ))) (hO : OptKeeps metrics O)
    (hpre : ∀ d ∈ pre, Keeps metrics d) (hpost : ∀ d ∈ post, Keeps metrics d)
    (hstop : ∀ d ∈ post, KeepsStop d) (fuel iter0 : Nat) (w : World (Inv K ρ))
    (r : Result (Inv K ρ)) (h : run O (pre ++ updateIRLS C :: post) fuel iter0 w = some r)
    (hinit : (call .initialize iter0 0 (pre ++ updateIRLS C :: post) w).2.2 = none) :
    r.world.st.count ≤ C.maxIrls ∧
      ∀ k, r.world.st.start = some k → r.iter ≤ k + C.maxIrls * C.rate := by
  have hW : ∀ {a : Nat} {s : Inv K ρ}, Within C a s →
      s.count ≤ C.maxIrls ∧ ∀ k, s.start = some k → a ≤ k + C.maxIrls * C.rate := by
    intro a s h
    rcases h with ⟨h1, h2⟩ | ⟨k, h1, h2, h3, h4⟩
    · exact ⟨by omega, fun k hk => by rw [h1] at hk; cases hk⟩
    · exact ⟨h3, fun k' hk' => by rw [h1] at hk'; cases hk'; exact h4⟩
  obtain ⟨-, w1, hw1, hq, -⟩ := call_mid _ _ _ _ _ _ hinit
  have hg : Going C 0
      (call .initialize iter0 0 (pre ++ updateIRLS C :: post) w).2.1.st := by
    have hk := call_keeps_st metrics .initialize iter0 post (pre.length + 1) w1 hpost
    rw [hq]
    refine (going_congr hk).1.mpr (Or.inl ?_)
    simp only [updateIRLS] at hw1
    cases hw1
    exact ⟨rfl, rfl⟩
  simp only [run, hinit] at h
  split at h
  · cases h
  · next r' hl =>
    have hw' := loop_irls O C hr pre post hO hpre hpost hstop fuel 0 ⟨false, _⟩ r' hg hl
    split at h
    · cases h; exact hW hw'
    · cases h
      have hall : ∀ (ds : List (Directive (Inv K ρ))), (∀ d ∈ ds, ∀ i w w',
          d.run .finish i w = .ok w' → metrics w'.st = metrics w.st) → ∀ p i w,
          metrics (call .finish i p ds w).2.1.st = metrics w.st := by
        intro ds
        induction ds with
        | nil => intro _ p i w; rfl
        | cons d ds ih =>
          intro hd p i w
          simp only [call]
          cases hh : d.run .finish i w with
          | error e => rfl
          | ok w' =>
            simp only
            rw [ih (fun d' hd' => hd d' (by simp [hd'])), hd d (by simp) i w w' hh]
      have := hall (pre ++ updateIRLS C :: post) (by
        intro d hd i w w' hh
        simp only [List.mem_append, List.mem_cons] at hd
        rcases hd with hd | rfl | hd
        · exact hpre d hd _ i w w' hh
        · simp only [updateIRLS] at hh; cases hh; rfl
        · exact hpost d hd _ i w w' hh) 0 r'.iter r'.world
      exact hW ((going_congr this).2.mpr hw')

/-- The bound is attained: IRLS from iteration 1, at most 2 updates, rate 1, ends after 3. -/
example :
    let O : Optimiser (Inv ℚ Nat) := ⟨fun _ s => s, fun i _ => decide (4 ≤ i),
      fun _ s => some { s with rest := s.rest + 1 }⟩
    let C : Irls ℚ Nat := ⟨1, 1, 1, 1, 1 / 100, 2, 100, 10, fun _ => 1, fun _ => 1, id⟩
    ∃ r, run O [updateIRLS C] 5 0 ⟨false, ⟨1, 5, 2, none, 0, 0, [0], [], 0, 0⟩⟩ = some r ∧
      r.err = none ∧ r.iter = 3 ∧ r.world.st.count = 2 ∧ r.world.st.start = some 1 := by
  norm_num [run, loop, call, updateIRLS, Irls.endIter, Irls.adjust, Irls.misfit, setCoolF,
    Irls.maybeStart, Irls.update2, Irls.stopping, Irls.cool, divBeta, Irls.irlsStep,
    Irls.startIrls, Irls.initialize]

/-! ### C37, the negative part -/

/-- `UpdateIRLS` withdraws a stop requested by a directive listed before it: with
`[TargetMisfit, UpdateIRLS]` the target is reached in the first iteration and the run goes on
to its third; with the order reversed it ends after the first. So the full C37 is false. -/
theorem C37_request_withdrawn_by_irls :
    let O : Optimiser (Inv ℚ Nat) := ⟨fun _ s => s, fun i _ => decide (4 ≤ i),
      fun _ s => some { s with rest := s.rest + 1 }⟩
    let C : Irls ℚ Nat := ⟨1, 1, 1, 1, 1 / 100, 2, 100, 10, fun _ => 1, fun _ => 1, id⟩
    let w : World (Inv ℚ Nat) := ⟨false, ⟨1, 5, 2, none, 0, 0, [0], [], 0, 0⟩⟩
    (∃ r, run O [targetMisfit 10, updateIRLS C] 5 0 w = some r ∧ r.err = none ∧ r.iter = 3) ∧
    (∃ r, run O [updateIRLS C, targetMisfit 10] 5 0 w = some r ∧ r.err = none ∧ r.iter = 1) := by
  constructor <;>
  norm_num [run, loop, call, updateIRLS, Irls.endIter, Irls.adjust, Irls.misfit, setCoolF,
    Irls.maybeStart, Irls.update2, Irls.stopping, Irls.cool, divBeta, Irls.irlsStep,
    Irls.startIrls, Irls.initialize, targetMisfit]

/-! ### C56: running again -/

/-- What `UpdateIRLS` knows of the configured norms `N` during a run. -/
def NormsKnown (N : List K) (s : Inv K ρ) : Prop :=
  s.inputNorms = N ∧ (s.start.isSome = true → s.norms = N)

theorem normsKnown_endIter (C : Irls K ρ) (N : List K) (i : Nat) (w w' : World (Inv K ρ))
    (h : NormsKnown N w.st) (he : C.endIter i w = .ok w') : NormsKnown N w'.st := by
  have hcool : ∀ (w w' : World (Inv K ρ)), C.cool i w = .ok w' → NormsKnown N w.st →
      NormsKnown N w'.st := by
    intro w w' h hk
    unfold Irls.cool divBeta at h
    split at h
    · split at h
      · cases h
      · cases h; exact hk
    · cases h; exact hk
  unfold Irls.endIter at he
  cases had : C.adjust w.st with
  | error e => rw [had] at he; cases he
  | ok s =>
    rw [had] at he
    have hs : NormsKnown N s := by
      unfold Irls.adjust at had
      split at had
      · cases had; exact h
      · simp only [setCoolF] at had
        split at had
        · split at had
          · split at had <;> cases had; exact h
          · split at had <;> cases had; exact h
        · split at had <;> cases had; exact h
    have hm : NormsKnown N (C.maybeStart i s) := by
      unfold Irls.maybeStart
      split
      · split
        · exact ⟨hs.1, fun _ => hs.1⟩
        · exact hs
      · exact hs
    simp only at he
    unfold Irls.update2 at he
    split at he
    · exact hcool _ _ he hm
    · split at he
      · split at he
        · cases he; exact hm
        · exact hcool _ _ he hm
      · exact hcool _ _ he hm

/-- C56 (partial). After a run that started IRLS, another `initialize` records the norms that
were configured before the first run, so the second run uses the same ones. The optimiser
leaves norms and IRLS state alone. Missing: the case in which IRLS was not started (below),
and the cooling factor (below). -/
theorem C56_norms_survive_partial (O : Optimiser (Inv K ρ)) (C : Irls K ρ) (fuel iter0 : Nat)
    (w : World (Inv K ρ)) (r : Result (Inv K ρ))
    (hO : OptKeeps (fun s => (s.inputNorms, s.norms, s.start)) O)
    (h : run O [updateIRLS C] fuel iter0 w = some r) (hs : r.world.st.start.isSome = true) :
    (Irls.initialize r.world.st).inputNorms = w.st.norms := by
  have hcongr : ∀ s s' : Inv K ρ, (s'.inputNorms, s'.norms, s'.start) =
      (s.inputNorms, s.norms, s.start) → NormsKnown w.st.norms s → NormsKnown w.st.norms s' := by
    intro s s' he hk
    simp only [Prod.mk.injEq] at he
    simp only [NormsKnown, he.1, he.2.1, he.2.2]
    exact hk
  have hP : NormsKnown w.st.norms (Irls.initialize w.st) := ⟨rfl, by simp [Irls.initialize]⟩
  simp only [run, call, updateIRLS] at h
  split at h
  · cases h
  · next r' hl =>
    have hr' : NormsKnown w.st.norms r'.world.st := by
      refine loop_invariant (P := NormsKnown w.st.norms) O [updateIRLS C]
        (fun i s hs => hcongr _ _ (hO.1 i s) hs)
        (fun i s s' hs hst => hcongr _ _ (hO.2 i s s' hst) hs) ?_ fuel 0
        ⟨false, Irls.initialize w.st⟩ r' hP hl
      intro d hd i w0 w1 hw0 hr
      simp only [List.mem_singleton] at hd
      subst hd
      exact normsKnown_endIter C _ i w0 w1 hw0 hr
    have : r.world.st = r'.world.st := by
      split at h <;> cases h <;> rfl
    rw [this] at hs ⊢
    exact hr'.2 hs

/-- C56. If the previous run ended before IRLS started, the configured norms are lost: the next
run uses 2 for all of them. Here a configured norm 0 is forgotten. -/
theorem C56_norms_lost :
    let O : Optimiser (Inv ℚ Nat) := ⟨fun _ s => s, fun i _ => decide (1 ≤ i),
      fun _ s => some { s with rest := s.rest + 1 }⟩
    let C : Irls ℚ Nat := ⟨1, 1, 1, 1, 1 / 100, 2, 100, 10, fun _ => 1, fun _ => 1, id⟩
    let w : World (Inv ℚ Nat) := ⟨false, ⟨1, 50, 2, none, 0, 0, [0], [], 0, 0⟩⟩
    ∃ r, run O [updateIRLS C] 5 0 w = some r ∧ r.err = none ∧
      (Irls.initialize r.world.st).inputNorms = [2] := by
  norm_num [run, loop, call, updateIRLS, Irls.endIter, Irls.adjust, Irls.misfit, setCoolF,
    Irls.maybeStart, Irls.update2, Irls.stopping, Irls.cool, divBeta, Irls.irlsStep,
    Irls.startIrls, Irls.initialize]

/-- C56. After a run in which IRLS started, the configured cooling factor (2) is lost: the next
run does not cool beta. -/
theorem C56_cooling_lost :
    let O : Optimiser (Inv ℚ Nat) := ⟨fun _ s => s, fun i _ => decide (4 ≤ i),
      fun _ s => some { s with rest := s.rest + 1 }⟩
    let C : Irls ℚ Nat := ⟨1, 1, 1, 1, 1 / 100, 2, 100, 10, fun _ => 1, fun _ => 1, id⟩
    let w : World (Inv ℚ Nat) := ⟨false, ⟨1, 5, 2, none, 0, 0, [0], [], 0, 0⟩⟩
    ∃ r, run O [updateIRLS C] 5 0 w = some r ∧ r.err = none ∧
      (Irls.initialize r.world.st).coolF = 1 := by
  norm_num [run, loop, call, updateIRLS, Irls.endIter, Irls.adjust, Irls.misfit, setCoolF,
    Irls.maybeStart, Irls.update2, Irls.stopping, Irls.cool, divBeta, Irls.irlsStep,
    Irls.startIrls, Irls.initialize]

/-- C56. After a run in which IRLS started, the weights it computed stay in the regularisation:
the next run begins with all norms equal to 2, but with the weights of the end of the first run
(here 7; `rest` is the model and the weight) in the place of those the first run began with (1). -/
theorem C56_weights_kept :
    let O : Optimiser (Inv ℚ (Nat × Nat)) := ⟨fun _ s => s, fun i _ => decide (4 ≤ i),
      fun _ s => some { s with rest := (s.rest.1 + 1, s.rest.2) }⟩
    let C : Irls ℚ (Nat × Nat) := ⟨1, 1, 1, 1, 1 / 100, 2, 100, 10, fun _ => 1, fun _ => 1,
      fun r => (r.1, 7)⟩
    let w : World (Inv ℚ (Nat × Nat)) := ⟨false, ⟨1, 5, 2, none, 0, 0, [0], [], 0, (0, 1)⟩⟩
    ∃ r, run O [updateIRLS C] 5 0 w = some r ∧ r.err = none ∧
      (Irls.initialize r.world.st).norms = [2] ∧ (Irls.initialize r.world.st).rest.2 = 7 ∧
      (Irls.initialize w.st).rest.2 = 1 := by
  norm_num [run, loop, call, updateIRLS, Irls.endIter, Irls.adjust, Irls.misfit, setCoolF,
    Irls.maybeStart, Irls.update2, Irls.stopping, Irls.cool, divBeta, Irls.irlsStep,
    Irls.startIrls, Irls.initialize]

end Props
end Verif.Directives
