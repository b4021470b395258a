import Verif.EM.Wave

/-!
C166: apparent resistivities, phases and impedances of a layered Earth (`MT_LayeredEarth` of
`simpeg/electromagnetics/analytics/NSEM.py`).
-/

noncomputable section
namespace Verif.NSEM.Earth
open Verif Complex Verif.EM.Wave

/-! ### The code -/

/-- An argument: a `float`, or something else, as an array (an `int` is an array of one entry for `np.append`). -/
inductive Arg
  | flt (x : ℝ)
  | arr (l : List ℝ)

/-- `_P`, `_Pinv` and `_Tinv` applied to a column (20-34). -/
def P (z : ℂ) (u : ℂ × ℂ) : ℂ × ℂ := (1 * u.1 + 1 * u.2, -1 / z * u.1 + 1 / z * u.2)
def Pinv (z : ℂ) (u : ℂ × ℂ) : ℂ × ℂ := ((1 * u.1 + -z * u.2) / 2, (1 * u.1 + z * u.2) / 2)
def Tinv (h : ℝ) (k : ℂ) (u : ℂ × ℂ) : ℂ × ℂ :=
  (exp (-1 * I * k * h) * u.1 + 0 * u.2, 0 * u.1 + exp (1 * I * k * h) * u.2)

/-- `(np.abs(UD[0, :] + UD[1, :])).max()`; the columns not yet computed are zero (71). -/
def top (cols : List (ℂ × ℂ)) : ℝ := (cols.map fun u => ‖u.1 + u.2‖).foldr max 0

/-- One pass: a new first column, then all are divided (70-71). -/
def step (h : ℝ) (k z z' : ℂ) (cols : List (ℂ × ℂ)) : List (ℂ × ℂ) :=
  let new := Tinv h k (Pinv z (P z' (cols.headD (0, 0))));
  let cols := new :: cols;
  cols.map fun u => (u.1 / top cols, u.2 / top cols)

/-- The columns computed after `t` of the `n` passes, `i = -2, -3, ...`, from the first one on; `H` is indexed
from its end (67-71). -/
def passes (n : ℕ) (H : List ℝ) (K Z : ℕ → ℂ) : ℕ → Except Err (List (ℂ × ℂ))
  | 0 => .ok [(0, 1)]
  | t + 1 => do
    let cols ← passes n H K Z t
    match H.reverse[t]? with
    | none => .error .indexError
    | some h => .ok (step h (K (n - 1 - t)) (Z (n - 1 - t)) (Z (n - t)) cols)

/-- `chg == 0.0` as a condition: an array of several entries has no truth value (50). -/
def isZero : Arg → Except Err Bool
  | .flt x => .ok (decide (x = 0))
  | .arr [x] => .ok (decide (x = 0))
  | .arr _ => .error .valueError

/-- `sigcm` (49-54). Where the parameters are given, the loop starts with the second layer. It fails there: numbers
have no entries, and arrays that passed the conditions have one only. Nothing else is stored. -/
def colecole (sig : List ℝ) (chg taux c : Arg) : Except Err (List ℝ) := do
  let b ← isZero chg
  let b ← if b then .ok true else isZero taux
  let b ← if b then .ok true else isZero c
  if b then .ok sig
  else if sig.length ≤ 1 then .ok (sig.map fun _ => 0)
  else match chg with
    | .flt _ => .error .typeError
    | .arr _ => .error .indexError

/-- The permittivities and permeabilities: whatever is not a `float` for `mu_r` leaves `mumodel` unbound; arrays of
other lengths do not broadcast (39-47, 57-61). -/
def models (sig : List ℝ) (mu_r eps_r : Arg) : Except Err (List ℝ × List ℝ) := do
  let eps : List ℝ := match eps_r with
    | .flt x => sig.map fun _ => 1 * x
    | .arr l => l
  match mu_r with
  | .arr _ => .error .exception
  | .flt m => if eps.length = sig.length then .ok (sig.map fun _ => 1 * m, eps) else .error .valueError

/-- `_Propagate`: the columns of `UD` and the impedances of the layers, the air first (38-87). -/
def propagate (mu0 eps0 f : ℝ) (thickness sig : List ℝ) (chg taux c mu_r eps_r : Arg) :
    Except Err (List (ℂ × ℂ) × (ℕ → ℂ)) := do
  let n := sig.length
  let sigcm ← colecole sig chg taux c
  let (mumodel, epsmodel) ← models sig mu_r eps_r
  let sigcm := 0 :: sigcm
  let mu := (1 :: mumodel).map (· * mu0)
  let eps := (1 :: epsmodel).map (· * eps0)
  let H := 120000 :: thickness
  let K := fun j => k f (sigcm.getD j 0) (mu.getD j 0) (eps.getD j 0)
  let Z := fun j => (2 * Real.pi * f : ℂ) * mu.getD j 0 / K j
  let cols ← passes n H K Z n
  .ok (cols, Z)

/-- `App_ImpZ[i] = EH[0, 1] / EH[1, 1]`; without layers there is no such column (73-87, 152-156). -/
def impedance (mu0 eps0 f : ℝ) (thickness sig : List ℝ) (chg taux c mu_r eps_r : Arg) : Except Err ℂ := do
  let (cols, Z) ← propagate mu0 eps0 f thickness sig chg taux c mu_r eps_r
  match cols[1]? with
  | none => .error .indexError
  | some u =>
    let EH := P (Z 1) u
    .ok (EH.1 / EH.2)

/-- `thickness` (134-142). -/
inductive Thick
  | none
  | flt (x : ℝ)
  | arr (l : List ℝ)

/-- `thickmodel` (134-142). -/
def Thick.model : Thick → List ℝ
  | .none => []
  | .flt x => if x = 0 then [] else [x]
  | .arr l => l

/-- `Res` and `Phase` of an impedance (158-159). -/
def res (mu0 f : ℝ) (z : ℂ) : ℝ := ‖z‖ ^ 2 / (mu0 * (2 * Real.pi * f))
def phase (z : ℂ) : ℝ := z.arg * 180 / Real.pi

/-- `freq`: a `float`, an array of them or an array of integers. Other numbers have no length. -/
inductive Freq
  | flt (f : ℝ)
  | arr (f : List ℝ)
  | ints (f : List ℤ)
  | int (f : ℤ)

/-- What is returned. -/
inductive Out
  | resPhase (r p : List ℝ)
  | imp (z : List ℂ)
  | none

/-- Truncation of a number stored in an array of integers. -/
def trunc (x : ℝ) : ℝ := if 0 ≤ x then ⌊x⌋ else ⌈x⌉

/-- `MT_LayeredEarth` (91-165), for conductivities in an array or a `float`, which is an array of one entry. The
arrays of results have the type of the array of frequencies (147-148). -/
def mt (mu0 eps0 : ℝ) (freq : Freq) (thickness : Thick) (sig : List ℝ) (returnType : String)
    (chg tau c mu_r eps_r : Arg) : Except Err Out := do
  let (F, isInt) ← (match freq with
    | .flt f => .ok ([f], false)
    | .arr f => .ok (f, false)
    | .ints f => .ok (f.map fun i => (i : ℝ), true)
    | .int _ => .error .typeError : Except Err (List ℝ × Bool))
  let Zs ← F.mapM fun f => impedance mu0 eps0 f thickness.model sig chg tau c mu_r eps_r
  let store := fun x : ℝ => if isInt then trunc x else x
  if returnType = "Res-Phase" then
    .ok (.resPhase (List.zipWith (fun f z => store (res mu0 f z)) F Zs) (Zs.map fun z => store (phase z)))
  else if returnType = "Impedance" then .ok (.imp Zs)
  else .ok .none

/-! ### Specification -/

/-- Height of the top of layer `j` (0 is the first one) over that of the first. -/
def height (thickness : List ℝ) (j : ℕ) : ℝ := -(thickness.take j).sum

/-- Fields of a source above the Earth: Maxwell's equations of plane waves in all layers, the last of which has no
bottom; continuous, bounded below and not zero. -/
structure IsField (ω μ : ℝ) (ε σ thickness : List ℝ) (E H : ℝ → ℂ) : Prop where
  layer : ∀ j e s h, ε[j]? = some e → σ[j]? = some s → thickness[j]? = some h →
    Analytic.Maxwell e μ ω s E H (Set.Icc (height thickness (j + 1)) (height thickness j))
  halfspace : ∀ e s, ε[thickness.length]? = some e → σ[thickness.length]? = some s →
    Analytic.Maxwell e μ ω s E H (Set.Iic (height thickness thickness.length))
  bounded : ∃ C, ∀ z ≤ height thickness thickness.length, ‖E z‖ ≤ C
  nonzero : ¬ (E (height thickness thickness.length) = 0 ∧ H (height thickness thickness.length) = 0)

end Verif.NSEM.Earth

namespace Verif.NSEM.Earth.Props
open Verif Complex Verif.EM.Wave Verif.NSEM.Earth Verif.NSEM.Analytic
open Verif.NSEM.Analytic.Props (LE LH LE_top LH_top layer_maxwell)

theorem top_pos {cols : List (ℂ × ℂ)} (h : ∃ u ∈ cols, u.1 + u.2 ≠ 0) : 0 < top cols := by
  induction cols with
  | nil => simp at h
  | cons v t ih =>
    obtain ⟨u, hu, hne⟩ := h
    have hd : top (v :: t) = max ‖v.1 + v.2‖ (top t) := rfl
    rw [hd]
    rcases List.mem_cons.1 hu with rfl | hu
    · exact lt_max_of_lt_left (norm_pos_iff.2 hne)
    · exact lt_max_of_lt_right (ih ⟨u, hu, hne⟩)

theorem step_ne {h : ℝ} {k z z' : ℂ} {cols : List (ℂ × ℂ)} (hc : ∃ u ∈ cols, u.1 + u.2 ≠ 0) :
    ∃ u ∈ step h k z z' cols, u.1 + u.2 ≠ 0 := by
  obtain ⟨u, hu, hne⟩ := hc
  unfold step
  set new := Tinv h k (Pinv z (P z' (cols.headD (0, 0))))
  have hp : 0 < top (new :: cols) := top_pos ⟨u, List.mem_cons_of_mem _ hu, hne⟩
  refine ⟨_, List.mem_map_of_mem (List.mem_cons_of_mem _ hu), ?_⟩
  have : (top (new :: cols) : ℂ) ≠ 0 := by exact_mod_cast hp.ne'
  rw [← add_div]
  exact div_ne_zero hne this

/-- The column fits the fields at the top of its layer. -/
def Fits (E H : ℝ → ℂ) (z : ℝ) (Z : ℂ) (u : ℂ × ℂ) : Prop :=
  ∃ c : ℂ, c ≠ 0 ∧ E z = c * (u.1 + u.2) ∧ H z = c * ((u.2 - u.1) / Z)

theorem Fits.scale {E H : ℝ → ℂ} {z : ℝ} {Z : ℂ} {u : ℂ × ℂ} (h : Fits E H z Z u) {s : ℝ} (hs : 0 < s) :
    Fits E H z Z (u.1 / s, u.2 / s) := by
  obtain ⟨c, hc, h1, h2⟩ := h
  have hs' : (s : ℂ) ≠ 0 := by exact_mod_cast hs.ne'
  refine ⟨c * s, mul_ne_zero hc hs', ?_, ?_⟩
  · rw [h1]; field_simp
  · rw [h2]; field_simp

theorem Fits.layer {E H : ℝ → ℂ} {ε μ ω σ a h : ℝ} (hω : 0 < ω) (hμ : 0 < μ) (hσ : 0 < σ) (hh : 0 ≤ h) {Z' : ℂ}
    {u : ℂ × ℂ} (hf : Fits E H a Z' u) (hm : Maxwell ε μ ω σ E H (Set.Icc a (a + h))) :
    Fits E H (a + h) (imp ε μ ω σ) (Tinv h (wave ε μ ω σ) (Pinv (imp ε μ ω σ) (P Z' u))) := by
  obtain ⟨c, hc, h1, h2⟩ := hf
  obtain ⟨h3, h4⟩ := parts hω hμ hσ hm (a + h) ⟨by linarith, le_rfl⟩
  have hZ := imp_ne (ε := ε) hω hμ hσ
  have e : ((a + h : ℝ) : ℂ) - a = h := by push_cast; ring
  rw [e] at h3 h4
  have e1 : exp (-1 * I * wave ε μ ω σ * h) = exp (-(I * wave ε μ ω σ * h)) := by congr 1; ring
  have e2 : exp (1 * I * wave ε μ ω σ * h) = exp (I * wave ε μ ω σ * h) := by congr 1; ring
  rw [h1, h2] at h3 h4
  refine ⟨c, hc, ?_, ?_⟩
  · simp only [Tinv, Pinv, P, e1, e2]
    linear_combination (h3 + h4) / 2
  · simp only [Tinv, Pinv, P, e1, e2]
    rw [mul_div_assoc', eq_div_iff hZ]
    linear_combination (h4 - h3) / 2

theorem height_succ {th : List ℝ} {j : ℕ} {h : ℝ} (hj : th[j]? = some h) : height th (j + 1) + h = height th j := by
  obtain ⟨hl, rfl⟩ := List.getElem?_eq_some_iff.1 hj
  unfold height
  rw [List.take_succ_eq_append_getElem hl, List.sum_append]
  simp

/-- Energy goes down everywhere. -/
theorem power_pos {ω μ : ℝ} {ε σ th : List ℝ} (hω : 0 < ω) (hμ : 0 < μ) (hε : ε.length = th.length + 1)
    (hl : σ.length = th.length + 1) (hσ : ∀ s ∈ σ, 0 < s) (hh : ∀ h ∈ th, 0 ≤ h) {E H : ℝ → ℂ}
    (hf : IsField ω μ ε σ th E H) (t : ℕ) (ht : t ≤ th.length) :
    0 < (E (height th (th.length - t)) * (starRingEnd ℂ) (H (height th (th.length - t)))).re := by
  induction t with
  | zero =>
    rw [Nat.sub_zero]
    have l1 : th.length < ε.length := by omega
    have l2 : th.length < σ.length := by omega
    have hs := hσ _ (List.getElem_mem l2)
    have hm := hf.halfspace _ _ (List.getElem?_eq_getElem l1) (List.getElem?_eq_getElem l2)
    have e := halfspace hω hμ hs hm hf.bounded
    set z := height th th.length
    have hH : H z ≠ 0 := fun h0 => hf.nonzero ⟨by rw [e, h0, mul_zero], h0⟩
    have hn' : 0 < normSq (H z) := normSq_pos.mpr hH
    rw [e, mul_assoc, Complex.mul_conj, Complex.re_mul_ofReal]
    refine mul_pos ?_ hn'
    unfold imp
    have hre := wave_re (ε := ε[th.length]) hω hμ hs
    rw [← Complex.ofReal_mul, Complex.div_re]
    simp only [Complex.ofReal_re, Complex.ofReal_im, zero_mul, zero_div, add_zero]
    have : 0 < normSq (wave ε[th.length] μ ω σ[th.length]) := normSq_pos.mpr (wave_ne hω hμ hs)
    positivity
  | succ t ih =>
    have l0 : th.length - (t + 1) < th.length := by omega
    have l1 : th.length - (t + 1) < ε.length := by omega
    have l2 : th.length - (t + 1) < σ.length := by omega
    have hm := hf.layer _ _ _ _ (List.getElem?_eq_getElem l1) (List.getElem?_eq_getElem l2)
      (List.getElem?_eq_getElem l0)
    have e := height_succ (List.getElem?_eq_getElem l0)
    rw [show th.length - (t + 1) + 1 = th.length - t by omega] at hm e
    have := power (hσ _ (List.getElem_mem l2)) (by rw [← e]; linarith [hh _ (List.getElem_mem l0)]) hm
    exact lt_of_lt_of_le (ih (by omega)) this

/-- The columns after the passes through the layers. -/
theorem passes_fit {ω μ : ℝ} (pre : List ℝ) {ε σ th : List ℝ} {K Z : ℕ → ℂ} (hω : 0 < ω) (hμ : 0 < μ)
    (hε : ε.length = th.length + 1) (hl : σ.length = th.length + 1) (hσ : ∀ s ∈ σ, 0 < s) (hh : ∀ h ∈ th, 0 ≤ h)
    (hK : ∀ j e s, ε[j]? = some e → σ[j]? = some s → K (j + 1) = wave e μ ω s ∧ Z (j + 1) = imp e μ ω s)
    {E H : ℝ → ℂ} (hf : IsField ω μ ε σ th E H) (t : ℕ) (ht : t ≤ th.length) :
    ∃ u cols, passes (th.length + 1) (120000 :: (pre ++ th)) K Z t = .ok (u :: cols) ∧ (∃ v ∈ u :: cols, v.1 + v.2 ≠ 0) ∧
      Fits E H (height th (th.length - t)) (Z (th.length + 1 - t)) u := by
  induction t with
  | zero =>
    refine ⟨_, _, rfl, ⟨_, List.mem_cons_self, by norm_num⟩, ?_⟩
    rw [Nat.sub_zero, Nat.sub_zero]
    have l1 : th.length < ε.length := by omega
    have l2 : th.length < σ.length := by omega
    have hs := hσ _ (List.getElem_mem l2)
    have hm := hf.halfspace _ _ (List.getElem?_eq_getElem l1) (List.getElem?_eq_getElem l2)
    have e := halfspace hω hμ hs hm hf.bounded
    have hz := (hK _ _ _ (List.getElem?_eq_getElem l1) (List.getElem?_eq_getElem l2)).2
    have hne := imp_ne (ε := ε[th.length]) hω hμ hs
    refine ⟨E (height th th.length), fun h0 => hf.nonzero ⟨h0, ?_⟩, by ring, ?_⟩
    · rw [e] at h0
      exact (mul_eq_zero.1 h0).resolve_left hne
    · rw [hz, sub_zero, mul_one_div, e]
      field_simp
  | succ t ih =>
    obtain ⟨u, cols, h1, h2, h3⟩ := ih (by omega)
    have l0 : th.length - (t + 1) < th.length := by omega
    have l1 : th.length - (t + 1) < ε.length := by omega
    have l2 : th.length - (t + 1) < σ.length := by omega
    have hm := hf.layer _ _ _ _ (List.getElem?_eq_getElem l1) (List.getElem?_eq_getElem l2)
      (List.getElem?_eq_getElem l0)
    obtain ⟨hk, hz⟩ := hK _ _ _ (List.getElem?_eq_getElem l1) (List.getElem?_eq_getElem l2)
    have e := height_succ (List.getElem?_eq_getElem l0)
    have hr : (120000 :: (pre ++ th)).reverse[t]? = some th[th.length - (t + 1)] := by
      rw [← List.cons_append, List.reverse_append, List.getElem?_append_left (by simp; omega),
        List.getElem?_reverse (by omega), show th.length - 1 - t = th.length - (t + 1) by omega,
        List.getElem?_eq_getElem l0]
    rw [show th.length - (t + 1) + 1 = th.length - t by omega] at hm e hk hz
    have hstep : passes (th.length + 1) (120000 :: (pre ++ th)) K Z (t + 1) =
        .ok (step th[th.length - (t + 1)] (K (th.length - t)) (Z (th.length - t)) (Z (th.length + 1 - t))
          (u :: cols)) := by
      rw [passes, h1]
      simp only [bind, Except.bind, hr]
      rw [show th.length + 1 - 1 - t = th.length - t by omega]
    have hne := step_ne (h := th[th.length - (t + 1)]) (k := K (th.length - t)) (z := Z (th.length - t))
      (z' := Z (th.length + 1 - t)) h2
    rw [hstep]
    rw [← e] at hm
    have hfit := Fits.layer hω hμ (hσ _ (List.getElem_mem l2)) (hh _ (List.getElem_mem l0)) h3 hm
    rw [← hk, ← hz, e] at hfit
    refine ⟨_, _, rfl, hne, ?_⟩
    rw [show th.length + 1 - (t + 1) = th.length - t by omega]
    refine hfit.scale (top_pos ?_)
    obtain ⟨v, hv, hv'⟩ := h2
    exact ⟨v, List.mem_cons_of_mem _ hv, hv'⟩

/-- The impedance where thicknesses in excess come first. -/
theorem impedance_pre (pre : List ℝ) {mu0 eps0 f m : ℝ} {ε σ th : List ℝ} (hm0 : 0 < mu0) (he0 : 0 < eps0) (hf : 0 < f) (hm : 0 < m)
    (hε : ε.length = th.length + 1) (hl : σ.length = th.length + 1) (hσ : ∀ s ∈ σ, 0 < s) (he : ∀ e ∈ ε, 0 < e)
    (hh : ∀ h ∈ th, 0 ≤ h) (chg taux c : Arg) (hc : chg = .flt 0) {E H : ℝ → ℂ}
    (hF : IsField (2 * Real.pi * f) (m * mu0) (ε.map (· * eps0)) σ th E H) :
    H 0 ≠ 0 ∧ impedance mu0 eps0 f (pre ++ th) σ chg taux c (.flt m) (.arr ε) = .ok (E 0 / H 0) := by
  subst hc
  have hω : 0 < 2 * Real.pi * f := by have := Real.pi_pos; positivity
  have hμ : 0 < m * mu0 := by positivity
  have hε' : (ε.map (· * eps0)).length = th.length + 1 := by simpa using hε
  have h0 : height th 0 = 0 := by simp [height]
  have hH : H 0 ≠ 0 := fun h => by
    have := power_pos hω hμ hε' hl hσ hh hF th.length le_rfl
    rw [Nat.sub_self, h0, h] at this
    simp at this
  refine ⟨hH, ?_⟩
  have hprop : propagate mu0 eps0 f (pre ++ th) σ (.flt 0) taux c (.flt m) (.arr ε) = (do
      let n := σ.length
      let mu := (1 :: σ.map fun _ => 1 * m).map (· * mu0)
      let eps := (1 :: ε).map (· * eps0)
      let K := fun j => k f ((0 :: σ).getD j 0) (mu.getD j 0) (eps.getD j 0)
      let Z := fun j => (2 * Real.pi * f : ℂ) * mu.getD j 0 / K j
      let cols ← passes n (120000 :: (pre ++ th)) K Z n
      .ok (cols, Z)) := by
    simp [propagate, colecole, isZero, models, bind, Except.bind, hε, hl]
  set K := fun j => k f ((0 :: σ).getD j 0) (((1 :: σ.map fun _ => 1 * m).map (· * mu0)).getD j 0)
    (((1 :: ε).map (· * eps0)).getD j 0) with hKd
  set Z := fun j => (2 * Real.pi * f : ℂ) * (((1 :: σ.map fun _ => 1 * m).map (· * mu0)).getD j 0 : ℝ) / K j with hZd
  have hK : ∀ j e s, (ε.map (· * eps0))[j]? = some e → σ[j]? = some s →
      K (j + 1) = wave e (m * mu0) (2 * Real.pi * f) s ∧ Z (j + 1) = imp e (m * mu0) (2 * Real.pi * f) s := by
    intro j e s h1 h2
    rw [List.getElem?_map, Option.map_eq_some_iff] at h1
    obtain ⟨e', h1, rfl⟩ := h1
    have hs := hσ _ (List.mem_of_getElem? h2)
    have hee := he _ (List.mem_of_getElem? h1)
    have hk : K (j + 1) = wave (e' * eps0) (m * mu0) (2 * Real.pi * f) s := by
      rw [← k_wave hf hμ (by positivity) hs.le]
      have hr : (List.replicate σ.length (m * mu0))[j]? = some (m * mu0) := by
        rw [List.getElem?_replicate, if_pos (List.getElem?_eq_some_iff.1 h2).1]
      simp [hKd, List.getD, h1, h2, hr]
    refine ⟨hk, ?_⟩
    rw [hZd]
    simp only [hk, imp]
    have hj := (List.getElem?_eq_some_iff.1 h2).1
    simp [List.getD, List.getElem?_replicate, hj]
  obtain ⟨u, cols, h1, h2, h3⟩ := passes_fit pre hω hμ hε' hl hσ hh hK hF th.length le_rfl
  rw [Nat.sub_self, h0, show th.length + 1 - th.length = 1 by omega] at h3
  obtain ⟨h', hr⟩ : ∃ h', (120000 :: (pre ++ th)).reverse[th.length]? = some h' := by
    rw [← Option.isSome_iff_exists, isSome_getElem?]
    simp
  have hlast : passes (th.length + 1) (120000 :: (pre ++ th)) K Z (th.length + 1) =
      .ok (step h' (K 0) (Z 0) (Z 1) (u :: cols)) := by
    rw [passes, h1]
    simp only [bind, Except.bind, hr]
    rw [show th.length + 1 - 1 - th.length = 0 by omega, show th.length + 1 - th.length = 1 by omega]
  have hpr : propagate mu0 eps0 f (pre ++ th) σ (.flt 0) taux c (.flt m) (.arr ε) =
      .ok (step h' (K 0) (Z 0) (Z 1) (u :: cols), Z) := by
    rw [hprop]
    simp only [bind, Except.bind]
    rw [hl, hlast]
  set s := top (Tinv h' (K 0) (Pinv (Z 0) (P (Z 1) u)) :: u :: cols) with hs
  have hsp : 0 < s := by
    obtain ⟨v, hv, hv'⟩ := h2
    exact top_pos ⟨v, List.mem_cons_of_mem _ hv, hv'⟩
  obtain ⟨q, hq, hE, hH'⟩ := h3.scale hsp
  have himp : impedance mu0 eps0 f (pre ++ th) σ (.flt 0) taux c (.flt m) (.arr ε) =
      .ok ((P (Z 1) (u.1 / s, u.2 / s)).1 / (P (Z 1) (u.1 / s, u.2 / s)).2) := by
    rw [impedance, hpr]
    rfl
  rw [himp, hE, hH', mul_div_mul_left _ _ hq]
  simp only [P]
  congr 2
  · ring
  · ring

theorem shift_maxwell {ε μ ω σ h : ℝ} {E H : ℝ → ℂ} {S T : Set ℝ} (hm : Maxwell ε μ ω σ E H S)
    (hT : ∀ z ∈ T, z + h ∈ S) : Maxwell ε μ ω σ (fun z => E (z + h)) (fun z => H (z + h)) T := by
  intro z hz
  obtain ⟨h1, h2⟩ := hm (z + h) (hT z hz)
  have hd : HasDerivWithinAt (fun z : ℝ => z + h) 1 T z := (hasDerivWithinAt_id z T).add_const h
  constructor
  · have h := h1.scomp z hd hT; rw [one_smul] at h; exact h
  · have h := h2.scomp z hd hT; rw [one_smul] at h; exact h

theorem congr_maxwell {ε μ ω σ : ℝ} {E H E' H' : ℝ → ℂ} {S : Set ℝ} (hm : Maxwell ε μ ω σ E H S)
    (h : ∀ z ∈ S, E' z = E z ∧ H' z = H z) : Maxwell ε μ ω σ E' H' S := by
  intro z hz
  obtain ⟨h1, h2⟩ := hm z hz
  rw [(h z hz).1, (h z hz).2]
  exact ⟨h1.congr (fun y hy => (h y hy).1) (h z hz).1, h2.congr (fun y hy => (h y hy).2) (h z hz).2⟩

theorem height_le {th : List ℝ} (hh : ∀ h ∈ th, 0 ≤ h) (j : ℕ) : height th j ≤ 0 := by
  unfold height
  have : 0 ≤ (th.take j).sum := List.sum_nonneg fun x hx => hh x (List.mem_of_mem_take hx)
  linarith

theorem height_cons (h : ℝ) (th : List ℝ) (j : ℕ) : height (h :: th) (j + 1) = height th j - h := by
  simp [height]; ring

/-- There is a field for every layered Earth. -/
theorem field_exists {ω μ : ℝ} (hω : 0 < ω) (hμ : 0 < μ) (th : List ℝ) (hh : ∀ h ∈ th, 0 ≤ h) :
    ∀ ε σ : List ℝ, ε.length = th.length + 1 → σ.length = th.length + 1 → (∀ s ∈ σ, 0 < s) →
      ∃ E H, IsField ω μ ε σ th E H := by
  induction th with
  | nil =>
    intro ε σ hε hl hσ
    obtain ⟨e, rfl⟩ := List.length_eq_one_iff.1 hε
    obtain ⟨s, rfl⟩ := List.length_eq_one_iff.1 hl
    have hs : 0 < s := hσ s (by simp)
    refine ⟨LE (wave e μ ω s) 0 (0, 1), LH ω μ (wave e μ ω s) 0 (0, 1), ?_, ?_, ?_, ?_⟩
    · intro j e' s' h _ _ h3; simp at h3
    · intro e' s' h1 h2
      simp at h1 h2
      subst h1 h2
      exact layer_maxwell hω hμ 0 _ _
    · refine ⟨1, fun z hz => ?_⟩
      have hz' : z ≤ 0 := by simpa [height] using hz
      simp only [Analytic.Props.LE, zero_mul, add_zero, one_mul, Complex.norm_exp]
      refine Real.exp_le_one_iff.2 ?_
      have e1 : (-1 * I * wave e μ ω s * (((0 : ℝ) : ℂ) - z)).re = -((wave e μ ω s).im * z) := by
        rw [← Complex.ofReal_sub, Complex.re_mul_ofReal]; simp
      rw [e1]
      have := wave_im (ε := e) hω hμ hs
      nlinarith
    · simp [height, Analytic.Props.LE]
  | cons h th ih =>
    intro ε σ hε hl hσ
    obtain ⟨e, ε, rfl⟩ : ∃ e t, ε = e :: t := by
      cases ε with
      | nil => simp at hε
      | cons a t => exact ⟨a, t, rfl⟩
    obtain ⟨s, σ, rfl⟩ : ∃ e t, σ = e :: t := by
      cases σ with
      | nil => simp at hl
      | cons a t => exact ⟨a, t, rfl⟩
    have hs : 0 < s := hσ s (by simp)
    have hh0 : 0 ≤ h := hh h (by simp)
    have hhs : ∀ h ∈ th, 0 ≤ h := fun x hx => hh x (by simp [hx])
    obtain ⟨E, H, hF⟩ := ih hhs ε σ (by simpa using hε) (by simpa using hl) fun x hx => hσ x (by simp [hx])
    set Z := imp e μ ω s with hZ
    have hZ0 := imp_ne (ε := e) hω hμ hs
    set p : ℂ × ℂ := ((E 0 - Z * H 0) / 2, (E 0 + Z * H 0) / 2) with hp
    have hk := wave_ne (ε := e) hω hμ hs
    have tE : LE (wave e μ ω s) (-h) p (-h) = E 0 := by rw [LE_top, hp]; ring
    have tH : LH ω μ (wave e μ ω s) (-h) p (-h) = H 0 := by
      have hw : (ω : ℂ) ≠ 0 := by exact_mod_cast hω.ne'
      have hm : (μ : ℂ) ≠ 0 := by exact_mod_cast hμ.ne'
      rw [LH_top, hp, hZ, imp]
      field_simp
      ring
    let E' := fun z : ℝ => if z ≤ -h then E (z + h) else LE (wave e μ ω s) (-h) p z
    let H' := fun z : ℝ => if z ≤ -h then H (z + h) else LH ω μ (wave e μ ω s) (-h) p z
    have below : ∀ z ≤ -h, E' z = E (z + h) ∧ H' z = H (z + h) := fun z hz => ⟨if_pos hz, if_pos hz⟩
    have above : ∀ z, -h ≤ z → E' z = LE (wave e μ ω s) (-h) p z ∧ H' z = LH ω μ (wave e μ ω s) (-h) p z := by
      intro z hz
      rcases hz.eq_or_lt with rfl | hz
      · rw [tE, tH, (below (-h) le_rfl).1, (below (-h) le_rfl).2]; simp
      · exact ⟨if_neg (by linarith), if_neg (by linarith)⟩
    have hbot : height (h :: th) (h :: th).length = height th th.length - h := height_cons h th _
    have hle : ∀ j, height th j - h ≤ -h := fun j => by linarith [height_le hhs j]
    refine ⟨E', H', ?_, ?_, ?_, ?_⟩
    · intro j e' s' h' h1 h2 h3
      cases j with
      | zero =>
        simp at h1 h2 h3
        subst h1 h2 h3
        rw [height_cons]
        have z0 : height th 0 = 0 := by simp [height]
        have z1 : height (h :: th) 0 = 0 := by simp [height]
        rw [z0, z1, zero_sub]
        exact congr_maxwell (layer_maxwell hω hμ (-h) p _) fun z hz => above z hz.1
      | succ j =>
        rw [List.getElem?_cons_succ] at h1 h2 h3
        rw [height_cons, height_cons]
        refine congr_maxwell (shift_maxwell (h := h) (hF.layer j e' s' h' h1 h2 h3) (T := Set.Icc _ _) ?_)
          fun z hz => below z (hz.2.trans (hle j))
        rintro z ⟨hz1, hz2⟩
        exact ⟨by linarith, by linarith⟩
    · intro e' s' h1 h2
      rw [List.length_cons, List.getElem?_cons_succ] at h1 h2
      rw [hbot]
      refine congr_maxwell (shift_maxwell (h := h) (hF.halfspace e' s' h1 h2) (T := Set.Iic _) ?_)
        fun z hz => below z (le_trans hz (hle _))
      intro z hz
      simp only [Set.mem_Iic] at hz ⊢
      linarith
    · obtain ⟨C, hC⟩ := hF.bounded
      refine ⟨C, fun z hz => ?_⟩
      rw [hbot] at hz
      rw [(below z (hz.trans (hle _))).1]
      exact hC _ (by linarith)
    · rw [hbot, (below _ (hle _)).1, (below _ (hle _)).2, sub_add_cancel]
      exact hF.nonzero

/-- C166. **The impedance is the ratio of the electric and magnetic fields at the surface**, for every layered
Earth with positive conductivities, any permittivities of the layers and a permeability: there is such a field, and
for every field of a source above the magnetic field at the surface is not zero and the ratio is the number
returned. The resistive part of the impedance is positive, so that the phase is between -90 and 90 degrees. -/
theorem C166_impedance {mu0 eps0 f m : ℝ} {ε σ th : List ℝ} (hm0 : 0 < mu0) (he0 : 0 < eps0) (hf : 0 < f) (hm : 0 < m)
    (hε : ε.length = th.length + 1) (hl : σ.length = th.length + 1) (hσ : ∀ s ∈ σ, 0 < s) (he : ∀ e ∈ ε, 0 < e)
    (hh : ∀ h ∈ th, 0 ≤ h) (taux c : Arg) :
    ∃ z, impedance mu0 eps0 f th σ (.flt 0) taux c (.flt m) (.arr ε) = .ok z ∧ 0 < z.re ∧ |phase z| < 90 ∧
      (∃ E H, IsField (2 * Real.pi * f) (m * mu0) (ε.map (· * eps0)) σ th E H) ∧
      ∀ E H, IsField (2 * Real.pi * f) (m * mu0) (ε.map (· * eps0)) σ th E H → H 0 ≠ 0 ∧ E 0 / H 0 = z := by
  have hω : 0 < 2 * Real.pi * f := by have := Real.pi_pos; positivity
  have hμ : 0 < m * mu0 := by positivity
  have hε' : (ε.map (· * eps0)).length = th.length + 1 := by simpa using hε
  obtain ⟨E, H, hF⟩ := field_exists hω hμ th hh _ σ hε' hl hσ
  obtain ⟨hH, hz⟩ := impedance_pre [] hm0 he0 hf hm hε hl hσ he hh (.flt 0) taux c rfl hF
  have hre : 0 < (E 0 / H 0).re := by
    have h1 := power_pos hω hμ hε' hl hσ hh hF th.length le_rfl
    rw [Nat.sub_self, show height th 0 = 0 by simp [height]] at h1
    have h2 : E 0 / H 0 = E 0 * (starRingEnd ℂ) (H 0) * (((normSq (H 0))⁻¹ : ℝ) : ℂ) := by
      rw [div_eq_mul_inv, Complex.inv_def, mul_assoc]
    rw [h2, Complex.re_mul_ofReal]
    have := normSq_pos.2 hH
    positivity
  refine ⟨E 0 / H 0, hz, hre, ?_, ⟨E, H, hF⟩, fun E' H' hF' => ?_⟩
  · have h1 := Complex.abs_arg_lt_pi_div_two_iff.2 (Or.inl hre)
    have hpi := Real.pi_pos
    rw [phase, abs_div, abs_mul, abs_of_pos hpi, div_lt_iff₀ hpi]
    norm_num
    linarith
  · obtain ⟨hH', hz'⟩ := impedance_pre [] hm0 he0 hf hm hε hl hσ he hh (.flt 0) taux c rfl hF'
    refine ⟨hH', ?_⟩
    have := hz'.symm.trans hz
    simpa using this

/-- Three layers. -/
example : ∃ z, impedance (4 * Real.pi / 10 ^ 7) (9 / 10 ^ 12) 10 [200, 50] [1 / 100, 1, 1 / 10] (.flt 0) (.flt 0) (.flt 0)
    (.flt 1) (.arr [1, 80, 5]) = .ok z ∧ 0 < z.re := by
  obtain ⟨z, h1, h2, -⟩ := C166_impedance (mu0 := 4 * Real.pi / 10 ^ 7) (eps0 := 9 / 10 ^ 12) (f := 10) (m := 1)
    (ε := [1, 80, 5]) (σ := [1 / 100, 1, 1 / 10]) (th := [200, 50]) (by have := Real.pi_pos; positivity) (by norm_num)
    (by norm_num) one_pos rfl rfl (by simp) (by simp) (by simp) (.flt 0) (.flt 0)
  exact ⟨z, h1, h2⟩

/-- C166. **The half-space**: the apparent resistivity is the inverse of the absolute value of the admittivity,
times the relative permeability; without displacement current the resistivity. -/
theorem C166_half_space {mu0 eps0 f m e s : ℝ} (hm0 : 0 < mu0) (he0 : 0 < eps0) (hf : 0 < f) (hm : 0 < m) (he : 0 < e)
    (hs : 0 < s) (taux c : Arg) :
    ∃ z, impedance mu0 eps0 f [] [s] (.flt 0) taux c (.flt m) (.arr [e]) = .ok z ∧
      res mu0 f z = m / √(s ^ 2 + (2 * Real.pi * f * (e * eps0)) ^ 2) := by
  have hω : 0 < 2 * Real.pi * f := by have := Real.pi_pos; positivity
  have hμ : 0 < m * mu0 := by positivity
  obtain ⟨z, h1, -, -, ⟨E, H, hF⟩, h2⟩ := C166_impedance hm0 he0 hf hm (ε := [e]) (σ := [s]) (th := []) rfl rfl
    (by simpa using hs) (by simpa using he) (by simp) taux c
  obtain ⟨hH, hz⟩ := h2 E H hF
  refine ⟨z, h1, ?_⟩
  have h3 := halfspace hω hμ hs (hF.halfspace (e * eps0) s (by simp) (by simp)) hF.bounded
  have h0 : height [] ([] : List ℝ).length = 0 := by simp [height]
  rw [h0] at h3
  rw [h3, mul_div_cancel_right₀ _ hH] at hz
  set ω := 2 * Real.pi * f
  have hk := wave_sq (e * eps0) (m * mu0) ω s
  have hn : ‖wave (e * eps0) (m * mu0) ω s‖ ^ 2 = ω * (m * mu0) * √(s ^ 2 + (ω * (e * eps0)) ^ 2) := by
    rw [← norm_pow, hk]
    have e1 : ((e * eps0 * (m * mu0) * ω ^ 2 : ℝ) : ℂ) - I * (m * mu0 : ℝ) * s * ω =
        ((ω * (m * mu0) : ℝ) : ℂ) * (((ω * (e * eps0) : ℝ) : ℂ) + ((-s : ℝ) : ℂ) * I) := by push_cast; ring
    rw [e1, norm_mul, Complex.norm_real, Real.norm_of_nonneg (by positivity), Complex.norm_add_mul_I]
    congr 2; ring
  rw [← hz, res, imp, norm_div, div_pow, hn, ← Complex.ofReal_mul, Complex.norm_real,
    Real.norm_of_nonneg (by positivity)]
  have hq : 0 < √(s ^ 2 + (ω * (e * eps0)) ^ 2) := Real.sqrt_pos.2 (by positivity)
  field_simp
  rfl

/-- C166. Violated: thicknesses in excess are accepted, and the first ones are dropped, so that with one thickness
for each layer, the half-space included, each layer has the thickness of the next one. -/
theorem C166_violated_excess {mu0 eps0 f m : ℝ} {ε σ th : List ℝ} (pre : List ℝ) (hm0 : 0 < mu0) (he0 : 0 < eps0)
    (hf : 0 < f) (hm : 0 < m) (hε : ε.length = th.length + 1) (hl : σ.length = th.length + 1) (hσ : ∀ s ∈ σ, 0 < s)
    (he : ∀ e ∈ ε, 0 < e) (hh : ∀ h ∈ th, 0 ≤ h) (taux c : Arg) :
    impedance mu0 eps0 f (pre ++ th) σ (.flt 0) taux c (.flt m) (.arr ε) =
      impedance mu0 eps0 f th σ (.flt 0) taux c (.flt m) (.arr ε) := by
  have hω : 0 < 2 * Real.pi * f := by have := Real.pi_pos; positivity
  have hμ : 0 < m * mu0 := by positivity
  have hε' : (ε.map (· * eps0)).length = th.length + 1 := by simpa using hε
  obtain ⟨E, H, hF⟩ := field_exists hω hμ th hh _ σ hε' hl hσ
  have h1 := (impedance_pre pre hm0 he0 hf hm hε hl hσ he hh (.flt 0) taux c rfl hF).2
  have h2 := (impedance_pre [] hm0 he0 hf hm hε hl hσ he hh (.flt 0) taux c rfl hF).2
  rw [h1]; exact h2.symm

/-- C166. Too few thicknesses are refused. -/
theorem C166_few (mu0 eps0 f m : ℝ) (ε σ th : List ℝ) (hε : ε.length = σ.length) (hl : th.length + 1 < σ.length)
    (taux c : Arg) :
    impedance mu0 eps0 f th σ (.flt 0) taux c (.flt m) (.arr ε) = .error .indexError := by
  have key : ∀ K Z, ∀ t, th.length + 1 < t → passes σ.length (120000 :: th) K Z t = .error .indexError := by
    intro K Z t
    induction t with
    | zero => omega
    | succ t ih =>
      intro ht
      rw [passes]
      by_cases h : th.length + 1 < t
      · rw [ih h]; rfl
      · have hr : (120000 :: th).reverse[t]? = none := by
          rw [List.getElem?_eq_none_iff]; simp; omega
        cases hp : passes σ.length (120000 :: th) K Z t with
        | ok v => simp only [bind, Except.bind, hr]
        | error e =>
          exfalso
          have : ∀ t ≤ th.length + 1, ∃ v, passes σ.length (120000 :: th) K Z t = .ok v := by
            intro t
            induction t with
            | zero => exact fun _ => ⟨_, rfl⟩
            | succ t ih2 =>
              intro ht
              obtain ⟨v, hv⟩ := ih2 (by omega)
              obtain ⟨h', hr'⟩ : ∃ h', (120000 :: th).reverse[t]? = some h' := by
                rw [← Option.isSome_iff_exists, isSome_getElem?]
                simp; omega
              rw [passes, hv]
              simp only [bind, Except.bind, hr']
              exact ⟨_, rfl⟩
          obtain ⟨v, hv⟩ := this t (by omega)
          rw [hv] at hp
          cases hp
  simp only [impedance, propagate, colecole, isZero, models, bind, Except.bind, hε, decide_true, if_true]
  rw [key _ _ _ hl]

/-- C166. Violated by the permeability: whatever is not a `float`, arrays as documented included, is refused. -/
theorem C166_violated_permeability (mu0 eps0 f : ℝ) (ε σ th mu : List ℝ) (taux c : Arg) :
    impedance mu0 eps0 f th σ (.flt 0) taux c (.arr mu) (.arr ε) = .error .exception := by
  simp [impedance, propagate, colecole, isZero, models, bind, Except.bind]

/-- C166. Violated by the parameters of chargeable layers: arrays for several layers are refused, and so is anything
not zero for several layers; a single layer loses its conductivity. -/
theorem C166_violated_colecole (sig : List ℝ) :
    (∀ chg taux c, chg.length ≠ 1 → colecole sig (.arr chg) taux c = .error .valueError) ∧
    (∀ chg taux c s, colecole sig chg taux c = .ok s → s = sig ∨ (sig.length ≤ 1 ∧ s = sig.map fun _ => 0)) ∧
    (∀ x y z : ℝ, x ≠ 0 → y ≠ 0 → z ≠ 0 → colecole [1] (.flt x) (.flt y) (.flt z) = .ok [0] ∧
      ∀ s t : ℝ, colecole [s, t] (.flt x) (.flt y) (.flt z) = .error .typeError) := by
  refine ⟨fun chg taux c h => ?_, fun chg taux c s h => ?_, fun x y z hx hy hz => ⟨?_, fun s t => ?_⟩⟩
  · rcases chg with _ | ⟨a, _ | ⟨b, t⟩⟩
    · rfl
    · exact absurd rfl h
    · rfl
  · revert h
    unfold colecole
    generalize isZero chg = q1
    generalize isZero taux = q2
    generalize isZero c = q3
    by_cases hl : sig.length ≤ 1 <;> rcases q1 with _ | (_ | _) <;> rcases q2 with _ | (_ | _) <;>
      rcases q3 with _ | (_ | _) <;> cases chg <;> simp [bind, Except.bind, hl] <;> intro h <;> subst h <;> simp
  · simp [colecole, isZero, bind, Except.bind, hx, hy, hz]
  · simp [colecole, isZero, bind, Except.bind, hx, hy, hz]

/-- C166. One value per frequency, in order; apparent resistivity and phase of the impedance, for frequencies that
are not integers. -/
theorem C166_results {mu0 eps0 : ℝ} {F : List ℝ} {th : Thick} {sig : List ℝ} {chg tau c mu_r eps_r : Arg} {Zs : List ℂ}
    (h : List.Forall₂ (fun f z => impedance mu0 eps0 f th.model sig chg tau c mu_r eps_r = .ok z) F Zs) :
    mt mu0 eps0 (.arr F) th sig "Impedance" chg tau c mu_r eps_r = .ok (.imp Zs) ∧
    mt mu0 eps0 (.arr F) th sig "Res-Phase" chg tau c mu_r eps_r =
      .ok (.resPhase (List.zipWith (res mu0) F Zs) (Zs.map phase)) ∧
    ∀ f, mt mu0 eps0 (.flt f) th sig "Impedance" chg tau c mu_r eps_r =
      mt mu0 eps0 (.arr [f]) th sig "Impedance" chg tau c mu_r eps_r := by
  have hm : F.mapM (fun f => impedance mu0 eps0 f th.model sig chg tau c mu_r eps_r) = .ok Zs := by
    induction h with
    | nil => rfl
    | cons h1 _ ih =>
      rw [List.mapM_cons, h1, ih]; rfl
  refine ⟨?_, ?_, fun f => rfl⟩
  · simp [mt, bind, Except.bind, hm]
  · simp [mt, bind, Except.bind, hm]

/-- C166. Violated by integers: a number that is an integer is refused, the results at an array of integers are
cut to integers, and other names of results give `None`. -/
theorem C166_violated_integers (mu0 eps0 : ℝ) (i : ℤ) (th : Thick) (sig : List ℝ) (chg tau c mu_r eps_r : Arg)
    (rt : String) :
    mt mu0 eps0 (.int i) th sig rt chg tau c mu_r eps_r = .error .typeError ∧
    ∀ z, impedance mu0 eps0 i th.model sig chg tau c mu_r eps_r = .ok z →
      mt mu0 eps0 (.ints [i]) th sig "Res-Phase" chg tau c mu_r eps_r =
        .ok (.resPhase [trunc (res mu0 i z)] [trunc (phase z)]) ∧
      (rt ≠ "Res-Phase" → rt ≠ "Impedance" → mt mu0 eps0 (.ints [i]) th sig rt chg tau c mu_r eps_r = .ok .none) := by
  refine ⟨rfl, fun z hz => ⟨?_, fun h1 h2 => ?_⟩⟩
  · simp [mt, bind, Except.bind, hz, pure, Except.pure]
  · simp [mt, bind, Except.bind, hz, pure, Except.pure, h1, h2]

/-- A resistivity of less than one. -/
example : trunc (1 / 2) = 0 := by norm_num [trunc]

/-- C166. A permittivity given as a number is that of all layers. -/
theorem C166_permittivity (mu0 eps0 f : ℝ) (th σ : List ℝ) (chg taux c mu_r : Arg) (x : ℝ) :
    impedance mu0 eps0 f th σ chg taux c mu_r (.flt x) =
      impedance mu0 eps0 f th σ chg taux c mu_r (.arr (σ.map fun _ => x)) := by
  simp [impedance, propagate, models]

/-- C166. A thickness of zero, no thickness and an empty array all mean a half-space; another number means one layer
of that thickness. -/
theorem C166_thickness (mu0 eps0 x : ℝ) (F : Freq) (sig : List ℝ) (rt : String) (chg tau c mu_r eps_r : Arg) :
    mt mu0 eps0 F (.flt 0) sig rt chg tau c mu_r eps_r = mt mu0 eps0 F (.arr []) sig rt chg tau c mu_r eps_r ∧
    mt mu0 eps0 F .none sig rt chg tau c mu_r eps_r = mt mu0 eps0 F (.arr []) sig rt chg tau c mu_r eps_r ∧
    (x ≠ 0 → mt mu0 eps0 F (.flt x) sig rt chg tau c mu_r eps_r =
      mt mu0 eps0 F (.arr [x]) sig rt chg tau c mu_r eps_r) := by
  have e : Thick.model (.flt 0) = Thick.model (.arr []) := by simp [Thick.model]
  refine ⟨by simp only [mt, e], rfl, fun h => ?_⟩
  have e' : Thick.model (.flt x) = Thick.model (.arr [x]) := by simp [Thick.model, h]
  simp only [mt, e']

end Verif.NSEM.Earth.Props
