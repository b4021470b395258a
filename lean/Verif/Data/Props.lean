import Verif.Data.Lemmas

/-! Property theorems C02 (access by source and receiver) and C07 (uncertainties). -/

namespace Verif.Data.Props
open Verif Verif.Survey Verif.Survey.Spec Verif.Survey.Props Verif.Data

/-- One assignment statement `data[src, rx] = v`. -/
structure Assign (α : Type) where
  key : Nat × Nat
  val : List α

/-- Run assignment statements (each raised or not). -/
def runAssigns {α : Type} (l : List Src) : List α → List (Assign α) → List α
  | d, [] => d
  | d, a :: as => runAssigns l (setEffect l d a.key a.val) as

theorem runAssigns_length {α : Type} (l : List Src) (h : WellFormed l) (d : List α)
    (hd : d.length = total l) (as : List (Assign α)) :
    (runAssigns l d as).length = total l := by
  induction as generalizing d with
  | nil => exact hd
  | cons a as ih => exact ih _ (setEffect_length l h d hd _ _)

theorem runAssigns_other {α : Type} (l : List Src) (h : WellFormed l) (d : List α)
    (hd : d.length = total l) (as : List (Assign α)) (k : Nat × Nat)
    (hk : ∀ a ∈ as, a.key ≠ k) : getItem l (runAssigns l d as) k = getItem l d k := by
  induction as generalizing d with
  | nil => rfl
  | cons a as ih =>
    simp only [runAssigns]
    rw [ih _ (setEffect_length l h d hd _ _) (fun a ha => hk a (by simp [ha]))]
    exact setEffect_other l h d hd a.key k a.val (Ne.symm (hk a (by simp)))

/-- C02: reading a pair returns the most recently assigned values, for every history: any
statements before, a correctly sized assignment to the pair (`s`, `r`), any statements to
other pairs after it. -/
theorem C02_last_write_wins {α : Type} (l : List Src) (h : WellFormed l) (d0 : List α)
    (hd : d0.length = total l) (before after : List (Assign α)) (s : Src) (r : Rx)
    (hsr : s ∈ l ∧ r ∈ s.rxs) (v : List α) (hv : v.length = r.nD)
    (hafter : ∀ a ∈ after, a.key ≠ (s.id, r.id)) :
    getItem l (runAssigns l (setEffect l (runAssigns l d0 before) (s.id, r.id) v) after)
      (s.id, r.id) = .ok v := by
  have hb := runAssigns_length l h d0 hd before
  rw [runAssigns_other l h _ (setEffect_length l h _ hb _ _) after _ hafter]
  obtain ⟨i, hi⟩ := List.mem_iff_getElem?.1 ((mem_pairs l s r).2 hsr)
  have h1 := (C01_slices_are_consecutive l h).2 i s r hi
  have hnd : ((getAllSlices l).map Prod.fst).Nodup := by
    rw [getAllSlices_eq_offs l h, offs_keys]; exact keys_nodup l h.1 h.2
  have h2 := dictGet_of_getElem _ hnd i _ _ h1
  have h3 := ((C01_get_slice l h s.id r.id).1 _).2 h2
  exact setEffect_same l h _ hb (s.id, r.id) v _ _ h3 (by omega)

/-- C02: assignments to other pairs never change what is read at a pair (whether they
succeed or raise); in particular a pair that is never assigned reads its initial block. -/
theorem C02_isolation {α : Type} (l : List Src) (h : WellFormed l) (d0 : List α)
    (hd : d0.length = total l) (as : List (Assign α)) (k : Nat × Nat)
    (hk : ∀ a ∈ as, a.key ≠ k) : getItem l (runAssigns l d0 as) k = getItem l d0 k :=
  runAssigns_other l h d0 hd as k hk

/-- C02: an assignment raises (and changes nothing) exactly when the pair is not in the
survey (KeyError) or the length is neither `nD` nor 1 (ValueError); a single value is
broadcast to the whole pair. -/
theorem C02_assignment_errors {α : Type} (l : List Src) (h : WellFormed l) (d : List α)
    (hd : d.length = total l) (k : Nat × Nat) (v : List α) :
    (¬ Contains l k.1 k.2 → setItem l d k v = .error .keyError ∧ setEffect l d k v = d) ∧
    (∀ s ∈ l, ∀ r ∈ s.rxs, (s.id, r.id) = k →
      (v.length ≠ r.nD → v.length ≠ 1 →
        setItem l d k v = .error .valueError ∧ setEffect l d k v = d) ∧
      (v.length = r.nD → ∃ d', setItem l d k v = .ok d' ∧ d'.length = d.length) ∧
      (∀ x, v = [x] → getItem l (setEffect l d k v) k = .ok (List.replicate r.nD x))) := by
  refine ⟨?_, ?_⟩
  · intro hc
    cases hs : getSlice l k.1 k.2 with
    | ok sl => exact absurd ((C01_get_slice l h k.1 k.2).2.2.1 ⟨sl, hs⟩) hc
    | error e =>
      have := (C01_get_slice l h k.1 k.2).2.1 e hs
      subst this
      simp [setItem, setEffect, hs]
  · rintro s hs r hr rfl
    obtain ⟨i, hi⟩ := List.mem_iff_getElem?.1 ((mem_pairs l s r).2 ⟨hs, hr⟩)
    have h1 := (C01_slices_are_consecutive l h).2 i s r hi
    have hnd : ((getAllSlices l).map Prod.fst).Nodup := by
      rw [getAllSlices_eq_offs l h, offs_keys]; exact keys_nodup l h.1 h.2
    have h2 := dictGet_of_getElem _ hnd i _ _ h1
    have h3 := ((C01_get_slice l h s.id r.id).1 _).2 h2
    have hb := getSlice_bounds l h _ _ _ _ h3
    generalize ha : before l i = a at *
    have hsub : a + r.nD - a = r.nD := by omega
    refine ⟨?_, ?_, ?_⟩
    · intro hv h1v
      have := writeSlice_bad d v a (a + r.nD) hb.1 (by omega) (by omega) h1v
      simp [setItem, setEffect, h3, this]
    · intro hv
      have := writeSlice_ok d v a (a + r.nD) hb.1 (by omega) (by omega)
      exact ⟨_, by simp only [setItem, h3]; exact this, splice_length d v a _ hb.1 (by omega) (by omega)⟩
    · rintro x rfl
      have hw := writeSlice_one d x a (a + r.nD) hb.1 (by omega)
      have hw2 := writeSlice_ok d (List.replicate r.nD x) a (a + r.nD) hb.1 (by omega) (by simp)
      have hse : setEffect l d (s.id, r.id) [x] = setEffect l d (s.id, r.id) (List.replicate r.nD x) := by
        simp only [setEffect, setItem, h3, hw, hw2, hsub]
      rw [hse]
      exact setEffect_same l h d hd _ _ a (a + r.nD) h3 (by simp)

example : getItem exSources (runAssigns exSources (setEffect exSources
    (runAssigns exSources [1, 2, 3, 4, 5, 6, 7] [⟨(2, 9), [0, 0, 0]⟩]) (2, 7) [8, 9])
    [⟨(1, 7), [5]⟩, ⟨(3, 3), [1]⟩, ⟨(2, 9), [1, 1]⟩]) (2, 7) = .ok [8, 9] := by decide

/-! ### C07 -/

/-- Operations on the uncertainty attributes. -/
inductive UOp where
  | setRel (v : Val ℝ)
  | setNoise (v : Val ℝ)
  | setStd (v : Val ℝ)
  | setDobs (d : List ℝ)

/-- One statement (state after it, raised or not). -/
noncomputable def ustep (u : Unc ℝ) : UOp → Unc ℝ
  | .setRel v => (setRel u v).1
  | .setNoise v => (setNoise u v).1
  | .setStd v => (setStd u v).1
  | .setDobs d => (setDobs u d).1

/-- Run a history. -/
noncomputable def urun (u : Unc ℝ) : List UOp → Unc ℝ
  | [] => u
  | o :: os => urun (ustep u o) os

/-- Relative errors and noise floors are vectors of `nD` non-negative numbers. -/
def Valid (u : Unc ℝ) : Prop :=
  (∀ r, u.rel = some r → r.length = u.dobs.length ∧ ∀ x ∈ r, 0 ≤ x) ∧
  (∀ n, u.noise = some n → n.length = u.dobs.length ∧ ∀ x ∈ n, 0 ≤ x)

theorem checkUnc_ok (n : Nat) (v : Val ℝ) (r : List ℝ) (h : checkUnc n v = .ok (some r)) :
    r.length = n ∧ ∀ x ∈ r, 0 ≤ x := by
  unfold checkUnc at h
  split at h
  · cases h
  · split at h
    · cases h
    · rename_i hh
      cases h
      refine ⟨by simp, fun x hx => ?_⟩
      simp only [List.any_eq_true, not_exists, not_and, decide_eq_true_eq, not_lt] at hh
      exact hh x hx
  · split at h
    · cases h
    · rename_i hh
      cases h
      refine ⟨by simp, fun x hx => ?_⟩
      simp only [List.any_eq_true, not_exists, not_and, decide_eq_true_eq, not_lt] at hh
      exact hh x hx
  · split at h
    · cases h
    · split at h
      · cases h
      · rename_i h1 hh
        cases h
        refine ⟨by simpa using h1, fun x hx => ?_⟩
        simp only [List.any_eq_true, not_exists, not_and, decide_eq_true_eq, not_lt] at hh
        exact hh x hx

theorem setRel_facts (u : Unc ℝ) (v : Val ℝ) :
    (setRel u v).1.dobs = u.dobs ∧ (setRel u v).1.noise = u.noise ∧
    (∀ e, (setRel u v).2 = some e → (setRel u v).1 = u) ∧
    ((setRel u v).1.rel = u.rel ∨ checkUnc u.dobs.length v = .ok (setRel u v).1.rel) := by
  unfold setRel
  cases h : checkUnc u.dobs.length v <;> simp

theorem setNoise_facts (u : Unc ℝ) (v : Val ℝ) :
    (setNoise u v).1.dobs = u.dobs ∧ (setNoise u v).1.rel = u.rel ∧
    (∀ e, (setNoise u v).2 = some e → (setNoise u v).1 = u) ∧
    ((setNoise u v).1.noise = u.noise ∨ checkUnc u.dobs.length v = .ok (setNoise u v).1.noise) := by
  unfold setNoise
  cases h : checkUnc u.dobs.length v <;> simp

theorem valid_setRel (u : Unc ℝ) (h : Valid u) (v : Val ℝ) : Valid (setRel u v).1 := by
  obtain ⟨h1, h2, _, h4⟩ := setRel_facts u v
  constructor
  · intro r hr
    rw [h1]
    rcases h4 with h4 | h4
    · exact h.1 r (h4 ▸ hr)
    · exact checkUnc_ok _ v r (by rw [h4, hr])
  · intro n hn
    rw [h1]; exact h.2 n (h2 ▸ hn)

theorem valid_setNoise (u : Unc ℝ) (h : Valid u) (v : Val ℝ) : Valid (setNoise u v).1 := by
  obtain ⟨h1, h2, _, h4⟩ := setNoise_facts u v
  constructor
  · intro n hn
    rw [h1]; exact h.1 n (h2 ▸ hn)
  · intro r hr
    rw [h1]
    rcases h4 with h4 | h4
    · exact h.2 r (h4 ▸ hr)
    · exact checkUnc_ok _ v r (by rw [h4, hr])

/-- C07: whatever is assigned in whatever order, `relative_error` and `noise_floor` stay
vectors of `nD` non-negative numbers (or unset), and the number of data never changes. -/
theorem C07_uncertainties_always_valid (u : Unc ℝ) (h : Valid u) (os : List UOp) :
    Valid (urun u os) ∧ (urun u os).dobs.length = u.dobs.length := by
  induction os generalizing u with
  | nil => exact ⟨h, rfl⟩
  | cons o os ih =>
    have hs : Valid (ustep u o) ∧ (ustep u o).dobs.length = u.dobs.length := by
      cases o with
      | setRel v => exact ⟨valid_setRel u h v, by simp [ustep, (setRel_facts u v).1]⟩
      | setNoise v => exact ⟨valid_setNoise u h v, by simp [ustep, (setNoise_facts u v).1]⟩
      | setStd v =>
        refine ⟨valid_setNoise _ (valid_setRel u h _) v, ?_⟩
        simp [ustep, setStd, (setNoise_facts _ v).1, (setRel_facts u _).1]
      | setDobs d =>
        simp only [ustep, setDobs]
        split
        · rename_i hd
          exact ⟨⟨fun r hr => ⟨by rw [(h.1 r hr).1, hd], (h.1 r hr).2⟩,
            fun r hr => ⟨by rw [(h.2 r hr).1, hd], (h.2 r hr).2⟩⟩, hd⟩
        · exact ⟨h, rfl⟩
    have := ih (ustep u o) hs.1
    exact ⟨this.1, this.2.trans hs.2⟩

/-- Entry `i` of an optional vector, zero when unset. -/
def entry (v : Option (List ℝ)) (i : Nat) : ℝ := (v.getD []).getD i 0

/-- C07: for every reachable state the standard deviation is defined unless both
uncertainties are unset (then TypeError); its entries satisfy
`std² = (rel·|dobs|)² + floor²`, are non-negative, and are bounded below by the noise floor
and by the relative part. -/
theorem C07_standard_deviation (u0 : Unc ℝ) (h0 : Valid u0) (os : List UOp) :
    let u := urun u0 os
    (readStd u = .error .typeError ↔ u.rel = none ∧ u.noise = none) ∧
    (∀ e, readStd u = .error e → e = .typeError) ∧
    (∀ s, readStd u = .ok s → s.length = u.dobs.length ∧
      ∀ i (hi : i < s.length) (hd : i < u.dobs.length),
        0 ≤ s[i] ∧ s[i] ^ 2 = (entry u.rel i * |u.dobs[i]|) ^ 2 + (entry u.noise i) ^ 2 ∧
        entry u.noise i ≤ s[i] ∧ entry u.rel i * |u.dobs[i]| ≤ s[i]) := by
  intro u
  have hu : Valid u := (C07_uncertainties_always_valid u0 h0 os).1
  have main : ∀ x y z : ℝ, z = Real.sqrt (x ^ 2 + y ^ 2) →
      0 ≤ z ∧ z ^ 2 = x ^ 2 + y ^ 2 ∧ y ≤ z ∧ x ≤ z := by
    rintro x y z rfl
    have hnn : 0 ≤ x ^ 2 + y ^ 2 := by positivity
    refine ⟨Real.sqrt_nonneg _, Real.sq_sqrt hnn, ?_, ?_⟩
    · exact Real.le_sqrt_of_sq_le (by nlinarith [sq_nonneg x])
    · exact Real.le_sqrt_of_sq_le (by nlinarith [sq_nonneg y])
  unfold readStd
  cases hr : u.rel with
  | none =>
    cases hn : u.noise with
    | none => simp
    | some n =>
      have hv := hu.2 n hn
      refine ⟨by simp, by simp, ?_⟩
      intro s hs
      simp only [Except.ok.injEq] at hs
      subst hs
      refine ⟨by simp [hv.1], ?_⟩
      intro i hi hd
      have hi' : i < n.length := by simpa using hi
      simp only [List.getElem_map, entry, Option.getD_none, Option.getD_some]
      have e1 : ([] : List ℝ).getD i 0 = 0 := by simp
      have e2 : n.getD i 0 = n[i] := by simp [hi']
      rw [e1, e2]
      apply main
      congr 1; ring
  | some r =>
    have hvr := hu.1 r hr
    cases hn : u.noise with
    | none =>
      refine ⟨by simp, by simp, ?_⟩
      intro s hs
      simp only [Except.ok.injEq] at hs
      subst hs
      refine ⟨by simp [hvr.1], ?_⟩
      intro i hi hd
      have hi' : i < r.length := by rw [hvr.1]; exact hd
      simp only [List.getElem_map, List.getElem_zipWith, entry, Option.getD_none, Option.getD_some]
      have e1 : ([] : List ℝ).getD i 0 = 0 := by simp
      have e2 : r.getD i 0 = r[i] := by simp [hi']
      rw [e1, e2]
      apply main
      congr 1; ring
    | some n =>
      have hv := hu.2 n hn
      refine ⟨by simp, by simp, ?_⟩
      intro s hs
      simp only [Except.ok.injEq] at hs
      subst hs
      refine ⟨by simp [hv.1, hvr.1], ?_⟩
      intro i hi hd
      have hi' : i < r.length := by rw [hvr.1]; exact hd
      have hi2 : i < n.length := by rw [hv.1]; exact hd
      simp only [List.getElem_map, List.getElem_zipWith, entry, Option.getD_some]
      have e1 : n.getD i 0 = n[i] := by simp [hi2]
      have e2 : r.getD i 0 = r[i] := by simp [hi']
      rw [e1, e2]
      apply main
      rfl

/-- C07: an assigned standard deviation (scalar or vector) is read back exactly, and stays
so under any later changes of the observed data. -/
theorem C07_standard_deviation_round_trip (u : Unc ℝ) (v : Val ℝ) (s : List ℝ)
    (hv : checkUnc u.dobs.length v = .ok (some s)) (ds : List (List ℝ)) :
    (setStd u v).2 = none ∧ readStd (urun (setStd u v).1 (ds.map UOp.setDobs)) = .ok s := by
  have hz : checkUnc u.dobs.length (.array (List.replicate u.dobs.length (0 : ℝ)))
      = .ok (some (List.replicate u.dobs.length 0)) := by
    generalize u.dobs.length = n
    match n with
    | 0 => simp [checkUnc]
    | 1 => simp [checkUnc]
    | n + 2 => simp [checkUnc, List.replicate_succ]
  have hs : setStd u v =
      (⟨u.dobs, some (List.replicate u.dobs.length 0), some s⟩, none) := by
    simp [setStd, setRel, hz, setNoise, hv]
  have hsl := checkUnc_ok _ _ _ hv
  rw [hs]
  refine ⟨rfl, ?_⟩
  have key : ∀ (ds : List (List ℝ)) (u' : Unc ℝ), u'.dobs.length = u.dobs.length →
      u'.rel = some (List.replicate u.dobs.length 0) → u'.noise = some s →
      readStd (urun u' (ds.map UOp.setDobs)) = .ok s := by
    intro ds
    induction ds with
    | nil =>
      intro u' h1 h2 h3
      simp only [List.map_nil, urun, readStd, h2, h3]
      congr 1
      apply List.ext_getElem
      · simp [h1, hsl.1]
      · intro i hi1 hi2
        simp only [List.getElem_map, List.getElem_zipWith, List.getElem_replicate]
        rw [show ((0 : ℝ) * |u'.dobs[i]'(by simp at hi1; omega)|) ^ 2 + s[i] ^ 2 = s[i] ^ 2 by ring]
        exact Real.sqrt_sq (hsl.2 _ (List.getElem_mem _))
    | cons d ds ih =>
      intro u' h1 h2 h3
      simp only [List.map_cons, urun, ustep, setDobs]
      split
      · exact ih _ (by simp_all) h2 h3
      · exact ih _ h1 h2 h3
  exact key ds _ rfl rfl rfl

/-- C07: a rejected `relative_error` or `noise_floor` leaves everything unchanged, and
assigning one never changes the other. -/
theorem C07_rejected_assignment_is_atomic (u : Unc ℝ) (v : Val ℝ) :
    (∀ e, (setRel u v).2 = some e → (setRel u v).1 = u) ∧
    (∀ e, (setNoise u v).2 = some e → (setNoise u v).1 = u) ∧
    (setRel u v).1.noise = u.noise ∧ (setNoise u v).1.rel = u.rel :=
  ⟨(setRel_facts u v).2.2.1, (setNoise_facts u v).2.2.1, (setRel_facts u v).2.1,
    (setNoise_facts u v).2.1⟩

/-- C07 fails in the code for `standard_deviation`: a rejected assignment raises but has
already erased the relative error. -/
theorem C07_rejected_std_erases_relative_error :
    ∃ (u : Unc ℚ) (v : Val ℚ), (setStd u v).2 = some .valueError ∧
      u.rel = some [1, 1] ∧ (setStd u v).1.rel = some [0, 0] :=
  ⟨⟨[3, 4], some [1, 1], none⟩, .scalar (-1), by decide, rfl, by decide⟩

/-- C07 (what does hold when `standard_deviation` is rejected; partial: the relative error
is lost): the noise floor and the data are unchanged and the relative error becomes zero. -/
theorem C07_rejected_std_partial (u : Unc ℝ) (v : Val ℝ) (e : Err)
    (h : (setStd u v).2 = some e) :
    (setStd u v).1.noise = u.noise ∧ (setStd u v).1.dobs = u.dobs ∧
    (setStd u v).1 = (setRel u (.array (List.replicate u.dobs.length 0))).1 := by
  unfold setStd at *
  have h1 := (setNoise_facts (setRel u (.array (List.replicate u.dobs.length 0))).1 v).2.2.1 e h
  rw [h1]
  exact ⟨(setRel_facts u _).2.1, (setRel_facts u _).1, rfl⟩

example : Valid ⟨[1, -2], some [1, 1], none⟩ := by
  constructor
  · intro r hr; cases hr; simp
  · intro r hr; cases hr

example : checkUnc (K := ℚ) 3 (.scalar 2) = .ok (some [2, 2, 2]) ∧
    checkUnc (K := ℚ) 2 (.array [2, 3]) = .ok (some [2, 3]) ∧
    checkUnc (K := ℚ) 2 (.array [2, -3]) = .error .valueError := by decide

theorem checkUnc_zeros (n : Nat) : checkUnc n (.array (List.replicate n (0 : ℝ)))
    = .ok (some (List.replicate n 0)) := by
  match n with
  | 0 => simp [checkUnc]
  | 1 => simp [checkUnc]
  | n + 2 => simp [checkUnc, List.replicate_succ]

theorem setStd_eq (u : Unc ℝ) (v : Val ℝ) :
    setStd u v = setNoise ⟨u.dobs, some (List.replicate u.dobs.length 0), u.noise⟩ v := by
  simp [setStd, setRel, checkUnc_zeros]

theorem checkUnc_none (n : Nat) (v : Val ℝ) (h : checkUnc n v = .ok none) : v = .none := by
  unfold checkUnc at h
  split at h
  · rfl
  · split at h <;> cases h
  · split at h <;> cases h
  · split at h
    · cases h
    · split at h <;> cases h

/-- C07: a successfully constructed `Data` has valid uncertainties and a defined standard
deviation; if nothing is given it is zero, and if `standard_deviation` is given it is that
value. -/
theorem C07_constructor (d : List ℝ) (rel noise std : Val ℝ) (u : Unc ℝ)
    (h : mk d rel noise std = .ok u) :
    Valid u ∧ u.dobs = d ∧ (∃ s, readStd u = .ok s) ∧
    (∀ s, checkUnc d.length std = .ok (some s) → readStd u = .ok s) ∧
    (rel = .none → noise = .none → std = .none →
      readStd u = .ok (List.replicate d.length 0)) := by
  have hv0 : Valid (⟨d, none, none⟩ : Unc ℝ) := ⟨by simp, by simp⟩
  have hrd : ∀ u : Unc ℝ, (u.rel ≠ none ∨ u.noise ≠ none) → ∃ s, readStd u = .ok s := by
    intro u hu
    unfold readStd
    split
    · simp_all
    all_goals exact ⟨_, rfl⟩
  have hstd : ∀ (u' : Unc ℝ) (v : Val ℝ), Valid u' → (setStd u' v).2 = none →
      Valid (setStd u' v).1 ∧ (setStd u' v).1.dobs = u'.dobs ∧ (∃ s, readStd (setStd u' v).1 = .ok s) ∧
      (∀ s, checkUnc u'.dobs.length v = .ok (some s) → readStd (setStd u' v).1 = .ok s) := by
    intro u' v hu' _
    refine ⟨valid_setNoise _ (valid_setRel u' hu' _) v, ?_, ?_, ?_⟩
    · rw [setStd_eq, (setNoise_facts _ v).1]
    · apply hrd; left; rw [setStd_eq, (setNoise_facts _ v).2.1]; simp
    · intro s hs
      exact (C07_standard_deviation_round_trip u' v s hs []).2
  unfold mk at h
  simp only at h
  split at h
  · cases h
  · rename_i u1 h1
    have hu1 : u1 = (setRel ⟨d, none, none⟩ rel).1 := by rw [h1]
    have hv1 : Valid u1 := hu1 ▸ valid_setRel _ hv0 rel
    have hd1 : u1.dobs = d := by rw [hu1]; exact (setRel_facts _ rel).1
    split at h
    · cases h
    · rename_i u2 h2
      have hu2 : u2 = (setNoise u1 noise).1 := by rw [h2]
      have hv2 : Valid u2 := hu2 ▸ valid_setNoise _ hv1 noise
      have hd2 : u2.dobs = d := by rw [hu2, (setNoise_facts _ noise).1, hd1]
      split at h
      · split at h
        · cases h
        · rename_i u3 h3
          cases h
          have := hstd u2 (.scalar 0) hv2 (by rw [h3])
          rw [h3, hd2] at this
          refine ⟨this.1, this.2.1, this.2.2.1, ?_, ?_⟩
          · intro s hs; simp [checkUnc] at hs
          · intro _ _ _
            apply this.2.2.2
            simp [checkUnc]
      · rename_i hne
        cases h
        refine ⟨hv2, hd2, ?_, ?_, ?_⟩
        · apply hrd
          by_contra hcon
          push Not at hcon
          have hn : noise = .none := by
            have h4 := h2
            unfold setNoise at h4
            split at h4
            · rename_i r hr
              have : u = { u1 with noise := r } := by injection h4 with h4 _; exact h4.symm
              have : r = none := by rw [← hcon.2, this]
              exact checkUnc_none _ _ (this ▸ hr)
            · simp at h4
          have hr : rel = .none := by
            have h4 := h1
            unfold setRel at h4
            split at h4
            · rename_i r hr
              have e1 : u1 = { (⟨d, none, none⟩ : Unc ℝ) with rel := r } := by injection h4 with h4 _; exact h4.symm
              have : r = none := by
                rw [← hcon.1, hu2, (setNoise_facts _ noise).2.1, e1]
              exact checkUnc_none _ _ (this ▸ hr)
            · simp at h4
          exact hne hr hn
        · intro s hs; simp [checkUnc] at hs
        · intro h1 h2 _; exact absurd h2 (fun h2 => hne h1 h2)
      · rename_i hne1 hne2
        split at h
        · cases h
        · rename_i u3 h3
          cases h
          have := hstd u2 std hv2 (by rw [h3])
          rw [h3, hd2] at this
          exact ⟨this.1, this.2.1, this.2.2.1, this.2.2.2, fun h1 h2 hs => (hne2 hs h1 h2).elim⟩

end Verif.Data.Props
