import Verif.DC.Sim2D
import Mathlib.Data.List.Sort
import Mathlib.Data.List.Dedup
import Mathlib.Analysis.SpecialFunctions.Pow.Deriv
import Mathlib.Analysis.Calculus.Deriv.Pow
import Mathlib.Tactic.NormNum.Pow
import Mathlib.Tactic.FieldSimp
import Mathlib.Algebra.BigOperators.Intervals
import Mathlib.Algebra.BigOperators.Field

/-!
Spectral induced polarization (`simpeg/electromagnetics/static/spectral_induced_polarization/`):
pseudo-chargeability of the stretched exponential decay after pulses, predictions and products for every
time, the order of data, and what the simulation keeps.  The sensitivity of resistivity data to the
chargeability of the cells (C111) is a given matrix, one row for every location of a receiver.
-/

noncomputable section

namespace Verif.DC.SIP
open Matrix

/-! ### Pseudo-chargeability of one cell (`simulation.py` 170-327) -/

/-- `get_exponent` (170-177). -/
def expo (taui c t : ℝ) : ℝ := (t * taui) ^ c

/-- `get_peta_step_off` (179-182). -/
def stepOff (eta taui c t : ℝ) : ℝ := eta * Real.exp (-expo taui c t)

/-- A pulse of a quarter period (184-192): step responses at `t` and `t + T/4`. -/
def pulseOff (T : ℝ) (step : ℝ → ℝ) (t : ℝ) : ℝ := step t - step (t + T / 4)

/-- `get_multi_pulse_response` (194-201). -/
def multiPulse (n : Nat) (T : ℝ) (pulse : ℝ → ℝ) (t : ℝ) : ℝ :=
  (∑ i ∈ Finset.range n, pulse (t + T / 2 * i) * ((-1) ^ i * ((n : ℝ) - i))) / n

/-- The choice of `get_peta` and of its three derivatives (203-209, 226-232, 267-273, 308-315). -/
def respond (n : Nat) (T : ℝ) (step : ℝ → ℝ) (t : ℝ) : ℝ :=
  if n = 0 then step t else multiPulse n T (pulseOff T step) t

/-- `get_peta` (203-209). -/
def peta (n : Nat) (T eta taui c t : ℝ) : ℝ := respond n T (stepOff eta taui c) t

/-- `get_peta_eta_deriv` (211-232). -/
def dEta (n : Nat) (T taui c t : ℝ) : ℝ := respond n T (fun t => Real.exp (-expo taui c t)) t

/-- `get_peta_taui_deriv` (248-273). -/
def dTaui (n : Nat) (T eta taui c t : ℝ) : ℝ :=
  respond n T (fun t => -c * eta / taui * expo taui c t * Real.exp (-expo taui c t)) t

/-- `get_peta_c_deriv` (288-315). -/
def dC (n : Nat) (T eta taui c t : ℝ) : ℝ :=
  respond n T (fun t => -eta * expo taui c t * Real.exp (-expo taui c t) * Real.log (t * taui)) t

/-! ### The simulation -/

/-- A receiver of a source: the rows of the sensitivity of its locations to the chargeability of cells,
and its times. -/
structure Rx (κ : Type) where
  rows : List (κ → ℝ)
  times : List ℝ

/-- Properties as functions of the model, with the derivatives of their maps (zero without a map); all
receivers of all sources in order; pulses and period of the survey (`survey.py`, class attributes). -/
structure Sim (ι κ : Type) where
  rxs : List (Rx κ)
  n : Nat
  T : ℝ
  eta : (ι → ℝ) → κ → ℝ
  taui : (ι → ℝ) → κ → ℝ
  c : (ι → ℝ) → κ → ℝ
  etaD : (ι → ℝ) → Matrix κ ι ℝ
  tauiD : (ι → ℝ) → Matrix κ ι ℝ
  cD : (ι → ℝ) → Matrix κ ι ℝ

variable {ι κ : Type} [Fintype ι] [Fintype κ]

/-- `survey.unique_times` (`simpeg/survey.py` 633-647). -/
def Sim.times (s : Sim ι κ) : List ℝ :=
  ((s.rxs.flatMap Rx.times).dedup).insertionSort (· ≤ ·)

/-- Pseudo-chargeability of all cells (461-462). -/
def Sim.petaAt (s : Sim ι κ) (m : ι → ℝ) (t : ℝ) : κ → ℝ :=
  fun k => peta s.n s.T (s.eta m k) (s.taui m k) (s.c m k) t

/-- `PetaEtaDeriv + PetaTauiDeriv + PetaCDeriv` as one matrix (234-246, 275-286, 317-327). -/
def Sim.petaD (s : Sim ι κ) (m : ι → ℝ) (t : ℝ) : Matrix κ ι ℝ :=
  fun k i => dEta s.n s.T (s.taui m k) (s.c m k) t * s.etaD m k i +
    dTaui s.n s.T (s.eta m k) (s.taui m k) (s.c m k) t * s.tauiD m k i +
    dC s.n s.T (s.eta m k) (s.taui m k) (s.c m k) t * s.cD m k i

/-- `forward` without stored sensitivities (453-477). -/
def Sim.forward (s : Sim ι κ) (m : ι → ℝ) : List ℝ :=
  s.times.flatMap fun t => s.rxs.flatMap fun r =>
    if t ∈ r.times then r.rows.map (· ⬝ᵥ s.petaAt m t) else []

/-- `Jvec` without stored sensitivities (513-537). -/
def Sim.jvec (s : Sim ι κ) (m v : ι → ℝ) : List ℝ :=
  s.times.flatMap fun t => s.rxs.flatMap fun r => r.rows.map (· ⬝ᵥ (s.petaD m t *ᵥ v))

/-- Number of data of a receiver and all its times (`sources.py`, `vnD`). -/
def Rx.size (r : Rx κ) : Nat := r.rows.length * r.times.length

/-- `Data.index_dictionary` (`data.py` 11-51): the part of the data vector of each receiver. -/
def chunks : List (Rx κ) → List ℝ → List (Rx κ × List ℝ)
  | [], _ => []
  | r :: rs, w => (r, w.take r.size) :: chunks rs (w.drop r.size)

/-- `v[src, rx, t]`: the times of a receiver follow each other (`data.py` 44-47, 60-62). -/
def block (r : Rx κ) (w : List ℝ) (t : ℝ) : List ℝ :=
  (w.drop (r.times.idxOf t * r.rows.length)).take r.rows.length

/-- Transpose of the rows times data. -/
def rowsT (rows : List (κ → ℝ)) (x : List ℝ) : κ → ℝ :=
  fun k => (List.zipWith (fun r y => r k * y) rows x).sum

/-- `Jtvec` without stored sensitivities (560-604): a wrong number of data raises ValueError, a time a
receiver does not have KeyError. -/
def Sim.jtvec (s : Sim ι κ) (m : ι → ℝ) (w : List ℝ) : Except Err (ι → ℝ) :=
  if w.length ≠ (s.rxs.map Rx.size).sum then .error .valueError
  else if ∀ t ∈ s.times, ∀ r ∈ s.rxs, t ∈ r.times then
    .ok ((s.times.map fun t => (s.petaD m t)ᵀ *ᵥ
      ((chunks s.rxs w).map fun p => rowsT p.1.rows (block p.1 p.2 t)).sum).sum)
  else .error .keyError

/-- All rows of the stored matrix, of the active cells (`simulation_2d.py` 35-71). -/
def Sim.rows (s : Sim ι κ) (act : κ → Bool) : List (κ → ℝ) :=
  (s.rxs.flatMap Rx.rows).map fun r k => if act k then r k else 0

/-- `forward` with stored sensitivities (443-451). -/
def Sim.forwardJ (s : Sim ι κ) (act : κ → Bool) (m : ι → ℝ) : List ℝ :=
  s.times.flatMap fun t => (s.rows act).map (· ⬝ᵥ s.petaAt m t)

/-- `Jvec` with stored sensitivities (499-511). -/
def Sim.jvecJ (s : Sim ι κ) (act : κ → Bool) (m v : ι → ℝ) : List ℝ :=
  s.times.flatMap fun t => (s.rows act).map (· ⬝ᵥ (s.petaD m t *ᵥ v))

/-- Columns of `v.reshape((n, ntime), order="F")` (547-550). -/
def columns (k : Nat) : List ℝ → List ℝ → List (ℝ × List ℝ)
  | [], _ => []
  | t :: ts, w => (t, w.take k) :: columns k ts (w.drop k)

/-- `Jtvec` with stored sensitivities (543-558). -/
def Sim.jtvecJ (s : Sim ι κ) (act : κ → Bool) (m : ι → ℝ) (w : List ℝ) : ι → ℝ :=
  ((columns (s.rows act).length s.times w).map fun p =>
    (s.petaD m p.1)ᵀ *ᵥ rowsT (s.rows act) p.2).sum

end Verif.DC.SIP

namespace Verif.DC.SIP.Props
open Matrix Verif.DC.SIP Verif.DC.Props

/-! ### C118: pseudo-chargeability -/

theorem deriv_eta (eta taui c t : ℝ) :
    HasDerivAt (fun x => stepOff x taui c t) (Real.exp (-expo taui c t)) eta := by
  unfold stepOff
  simpa using (hasDerivAt_id eta).mul_const (Real.exp (-expo taui c t))

theorem deriv_taui (eta taui c t : ℝ) (ht : 0 < t) (hta : 0 < taui) :
    HasDerivAt (fun x => stepOff eta x c t)
      (-c * eta / taui * expo taui c t * Real.exp (-expo taui c t)) taui := by
  have h0 : t * taui ≠ 0 := by positivity
  have h1 : HasDerivAt (fun x : ℝ => t * x) t taui := by simpa using (hasDerivAt_id taui).const_mul t
  have h2 : HasDerivAt (fun x => expo x c t) (t * c * (t * taui) ^ (c - 1)) taui := by
    unfold expo
    exact h1.rpow_const (Or.inl h0)
  have h3 := (h2.neg.exp).const_mul eta
  unfold stepOff
  refine h3.congr_deriv ?_
  rw [Real.rpow_sub (by positivity), Real.rpow_one]
  simp only [expo, Pi.neg_apply]
  field_simp

theorem deriv_c (eta taui c t : ℝ) (ht : 0 < t) (hta : 0 < taui) :
    HasDerivAt (fun x => stepOff eta taui x t)
      (-eta * expo taui c t * Real.exp (-expo taui c t) * Real.log (t * taui)) c := by
  have hp : 0 < t * taui := by positivity
  have h2 : HasDerivAt (fun x => expo taui x t) ((t * taui) ^ c * Real.log (t * taui)) c := by
    unfold expo
    have := (hasDerivAt_id c).const_rpow (a := t * taui) hp
    simp only [id, mul_one] at this
    refine this.congr_deriv ?_
    ring
  have h3 := (h2.neg.exp).const_mul eta
  unfold stepOff
  refine h3.congr_deriv ?_
  simp only [expo, Pi.neg_apply]
  ring

/-- The responses of any pulses are differentiated term by term. -/
theorem deriv_respond (n : Nat) (T t : ℝ) (hT : 0 ≤ T) (ht : 0 < t) (f : ℝ → ℝ → ℝ) (f' : ℝ → ℝ) (x : ℝ)
    (h : ∀ t, 0 < t → HasDerivAt (fun y => f y t) (f' t) x) :
    HasDerivAt (fun y => respond n T (f y) t) (respond n T f' t) x := by
  unfold respond
  by_cases hn : n = 0
  · simp only [hn, if_true]; exact h t ht
  · simp only [hn, if_false]
    unfold multiPulse pulseOff
    refine HasDerivAt.div_const ?_ _
    refine HasDerivAt.fun_sum fun i _ => ?_
    refine HasDerivAt.mul_const ?_ _
    have h1 : 0 < t + T / 2 * (i : ℝ) := by positivity
    exact (h _ h1).sub (h _ (by positivity))

/-- **C118 (derivatives).** The three derivatives of the pseudo-chargeability are exact for any number of
pulses, at positive times and time constants. -/
theorem C118_derivatives (n : Nat) (T eta taui c t : ℝ) (hT : 0 ≤ T) (ht : 0 < t) (hta : 0 < taui) :
    HasDerivAt (fun x => peta n T x taui c t) (dEta n T taui c t) eta ∧
    HasDerivAt (fun x => peta n T eta x c t) (dTaui n T eta taui c t) taui ∧
    HasDerivAt (fun x => peta n T eta taui x t) (dC n T eta taui c t) c :=
  ⟨deriv_respond n T t hT ht (fun x => stepOff x taui c) _ eta fun t _ => deriv_eta eta taui c t,
   deriv_respond n T t hT ht (fun x => stepOff eta x c) _ taui fun t ht => deriv_taui eta taui c t ht hta,
   deriv_respond n T t hT ht (fun x => stepOff eta taui x) _ c fun t ht => deriv_c eta taui c t ht hta⟩

/-- **C118 (pulses).** The response to `n` pulses of alternating sign, half a period apart, is the average
over the pulses of the response in the off time after each of them: after the `k`-th pulse all earlier
pulses still decay, with alternating signs. -/
theorem C118_pulses (n : Nat) (hn : 0 < n) (T eta taui c t : ℝ) :
    peta n T eta taui c t = (∑ k ∈ Finset.range n, ∑ i ∈ Finset.range (k + 1), (-1) ^ i *
      (eta * Real.exp (-((t + T / 2 * i) * taui) ^ c) -
        eta * Real.exp (-((t + T / 2 * i + T / 4) * taui) ^ c))) / n := by
  have key : ∀ (g : Nat → ℝ) (n : Nat), ∑ k ∈ Finset.range n, ∑ i ∈ Finset.range (k + 1), g i =
      ∑ i ∈ Finset.range n, g i * ((n : ℝ) - i) := by
    intro g n
    induction n with
    | zero => simp
    | succ n ih =>
      rw [Finset.sum_range_succ, ih, Finset.sum_range_succ (n := n), Finset.sum_range_succ (n := n),
        ← add_assoc, ← Finset.sum_add_distrib]
      congr 1
      · refine Finset.sum_congr rfl fun i _ => ?_
        push_cast; ring
      · push_cast; ring
  unfold peta respond multiPulse pulseOff stepOff expo
  rw [if_neg (by omega), key]
  congr 1
  refine Finset.sum_congr rfl fun i _ => ?_
  ring

/-- **C118 (decay).** Without pulses the pseudo-chargeability is `eta exp(-(t/tau)^c)`: it never exceeds
the chargeability and does not increase with time. -/
theorem C118_decay (T eta taui c t u : ℝ) (he : 0 ≤ eta) (hta : 0 < taui) (hc : 0 ≤ c) (ht : 0 ≤ t)
    (htu : t ≤ u) :
    0 ≤ peta 0 T eta taui c t ∧ peta 0 T eta taui c t ≤ eta ∧
      peta 0 T eta taui c u ≤ peta 0 T eta taui c t := by
  simp only [peta, respond, if_true, stepOff, expo]
  refine ⟨by positivity, ?_, ?_⟩
  · have : Real.exp (-(t * taui) ^ c) ≤ 1 := Real.exp_le_one_iff.2 (by
      have : 0 ≤ (t * taui) ^ c := by positivity
      linarith)
    nlinarith
  · refine mul_le_mul_of_nonneg_left ?_ he
    refine Real.exp_le_exp.2 ?_
    have : (t * taui) ^ c ≤ (u * taui) ^ c :=
      Real.rpow_le_rpow (by positivity) (mul_le_mul_of_nonneg_right htu hta.le) hc
    linarith

/-! ### C119: data and products -/

variable {ι κ : Type} [Fintype ι] [Fintype κ]

/-- Everything the simulation needs: exact derivatives of the maps, positive times and time constants. -/
structure Regular (s : Sim ι κ) (m : ι → ℝ) : Prop where
  eta : ∀ k, HasFDerivAt (fun x => s.eta x k) (dotL (s.etaD m k)) m
  taui : ∀ k, HasFDerivAt (fun x => s.taui x k) (dotL (s.tauiD m k)) m
  c : ∀ k, HasFDerivAt (fun x => s.c x k) (dotL (s.cD m k)) m
  pos : ∀ k, 0 < s.taui m k
  T : 0 ≤ s.T
  t : ∀ r ∈ s.rxs, ∀ t ∈ r.times, 0 < t

/-- Every receiver has the same times. -/
def Common (s : Sim ι κ) : Prop := ∀ t ∈ s.times, ∀ r ∈ s.rxs, t ∈ r.times

theorem mem_times (s : Sim ι κ) (t : ℝ) : t ∈ s.times ↔ ∃ r ∈ s.rxs, t ∈ r.times := by
  simp [Sim.times, List.mem_insertionSort]

/-- The properties of a cell vary together: chain rule for a function of three variables which is a sum of
responses. -/
theorem peta_fderiv (s : Sim ι κ) (m : ι → ℝ) (h : Regular s m) (t : ℝ) (ht : 0 < t) (k : κ) :
    HasFDerivAt (fun x => s.petaAt x t k) (dotL (s.petaD m t k)) m := by
  have hstep : ∀ t, 0 < t → HasFDerivAt (fun x => stepOff (s.eta x k) (s.taui x k) (s.c x k) t)
      (dotL (fun i => Real.exp (-expo (s.taui m k) (s.c m k) t) * s.etaD m k i +
        (-s.c m k * s.eta m k / s.taui m k * expo (s.taui m k) (s.c m k) t *
          Real.exp (-expo (s.taui m k) (s.c m k) t)) * s.tauiD m k i +
        (-s.eta m k * expo (s.taui m k) (s.c m k) t * Real.exp (-expo (s.taui m k) (s.c m k) t) *
          Real.log (t * s.taui m k)) * s.cD m k i)) m := by
    intro t ht
    have hp : 0 < t * s.taui m k := mul_pos ht (h.pos k)
    have hb : HasFDerivAt (fun x => t * s.taui x k) (t • dotL (s.tauiD m k)) m := (h.taui k).const_mul t
    have he : HasFDerivAt (fun x => expo (s.taui x k) (s.c x k) t)
        ((s.c m k * (t * s.taui m k) ^ (s.c m k - 1)) • (t • dotL (s.tauiD m k)) +
          ((t * s.taui m k) ^ s.c m k * Real.log (t * s.taui m k)) • dotL (s.cD m k)) m := by
      unfold expo
      exact hb.rpow (h.c k) hp
    have h3 := (h.eta k).mul (he.neg.exp)
    unfold stepOff
    refine h3.congr_fderiv ?_
    ext v
    have e : ∀ a b d : ℝ, dotL (fun i => a * s.etaD m k i + b * s.tauiD m k i + d * s.cD m k i) v =
        a * dotL (s.etaD m k) v + b * dotL (s.tauiD m k) v + d * dotL (s.cD m k) v := by
      intro a b d
      simp only [dotL_apply, dotProduct, Finset.mul_sum, ← Finset.sum_add_distrib]
      exact Finset.sum_congr rfl fun i _ => by ring
    rw [e]
    simp only [_root_.add_apply, _root_.smul_apply, _root_.neg_apply, smul_eq_mul, Pi.neg_apply]
    rw [Real.rpow_sub hp, Real.rpow_one]
    have hne : s.taui m k ≠ 0 := (h.pos k).ne'
    have htne : t ≠ 0 := ht.ne'
    simp only [expo]
    field_simp
    ring
  unfold Sim.petaAt peta respond
  by_cases hn : s.n = 0
  · simp only [hn, if_true]
    refine (hstep t ht).congr_fderiv ?_
    congr 1
    ext i
    simp [Sim.petaD, dEta, dTaui, dC, respond, hn]
  · simp only [hn, if_false]
    have hT := h.T
    have hterm : ∀ i ∈ Finset.range s.n, HasFDerivAt
        (fun x => pulseOff s.T (stepOff (s.eta x k) (s.taui x k) (s.c x k)) (t + s.T / 2 * (i : ℝ)) *
          ((-1) ^ i * ((s.n : ℝ) - i))) _ m := fun i _ =>
      ((hstep (t + s.T / 2 * (i : ℝ)) (by positivity)).sub
        (hstep (t + s.T / 2 * (i : ℝ) + s.T / 4) (by positivity))).mul_const ((-1) ^ i * ((s.n : ℝ) - i))
    have hsum := (HasFDerivAt.fun_sum hterm).mul_const ((s.n : ℝ)⁻¹)
    unfold multiPulse
    simp only [div_eq_mul_inv (b := (s.n : ℝ))]
    refine hsum.congr_fderiv ?_
    ext v
    simp only [dotL_apply, ContinuousLinearMap.sub_apply, ContinuousLinearMap.smul_apply,
      ContinuousLinearMap.sum_apply, smul_eq_mul, dotProduct, Sim.petaD, dEta, dTaui, dC, respond, hn,
      if_false, multiPulse, pulseOff]
    simp only [Finset.mul_sum, ← Finset.sum_sub_distrib]
    rw [Finset.sum_comm]
    refine Finset.sum_congr rfl fun j _ => ?_
    rw [div_mul_eq_mul_div, div_mul_eq_mul_div, div_mul_eq_mul_div, ← add_div, ← add_div,
      Finset.sum_mul, Finset.sum_mul, Finset.sum_mul, ← Finset.sum_add_distrib, ← Finset.sum_add_distrib,
      div_mul_eq_mul_div, Finset.sum_mul, Finset.sum_div]
    refine Finset.sum_congr rfl fun i _ => ?_
    ring

theorem listDeriv_rows (s : Sim ι κ) (m : ι → ℝ) (h : Regular s m) (t : ℝ) (ht : 0 < t)
    (rows : List (κ → ℝ)) :
    ListDeriv (fun y => rows.map (· ⬝ᵥ s.petaAt y t)) (fun v => rows.map (· ⬝ᵥ (s.petaD m t *ᵥ v))) m := by
  have h1 : ∀ r : κ → ℝ, HasFDerivAt (fun y => r ⬝ᵥ s.petaAt y t)
      (∑ k, r k • dotL (s.petaD m t k)) m := by
    intro r
    unfold dotProduct
    exact HasFDerivAt.fun_sum fun k _ => (peta_fderiv s m h t ht k).const_mul (r k)
  refine ⟨fun _ _ => by simp, fun i => ?_⟩
  by_cases hi : i < rows.length
  · refine ⟨∑ k, rows[i] k • dotL (s.petaD m t k), ?_, fun v => ?_⟩
    · simpa [List.getD_eq_getElem?_getD, hi] using h1 rows[i]
    · simp [List.getD_eq_getElem?_getD, hi, dotProduct, Matrix.mulVec]
  · refine ⟨0, ?_, fun v => ?_⟩
    · have e : (fun y => (rows.map (· ⬝ᵥ s.petaAt y t)).getD i 0) = fun _ => 0 := by
        funext y
        simp [List.getD_eq_getElem?_getD, List.getElem?_eq_none (Nat.not_lt.1 hi)]
      rw [e]
      exact hasFDerivAt_const _ _
    · simp [List.getD_eq_getElem?_getD, List.getElem?_eq_none (Nat.not_lt.1 hi)]

/-- **C119, part (Jvec).** If all receivers have the same times, `Jvec` is the derivative of the
prediction, which is, at every time, the sensitivity times the pseudo-chargeability of that time.
Missing: receivers with different times, see `C119_violated_times`. -/
theorem C119_jvec_partial (s : Sim ι κ) (m : ι → ℝ) (h : Regular s m) (hc : Common s) :
    ListDeriv s.forward (s.jvec m) m := by
  unfold Sim.forward Sim.jvec
  refine ListDeriv.flatMap _ fun t ht => ListDeriv.flatMap _ fun r hr => ?_
  have htr := hc t ht r hr
  simp only [htr, if_true]
  exact listDeriv_rows s m h t (h.t r hr t htr) r.rows

/-- **C119 (stored sensitivities).** With stored sensitivities `Jvec` is the derivative of the prediction
for any survey and active cells; with all cells active and common times both agree with those without
stored sensitivities. -/
theorem C119_stored (s : Sim ι κ) (act : κ → Bool) (m : ι → ℝ) (h : Regular s m) :
    ListDeriv (s.forwardJ act) (s.jvecJ act m) m ∧
    (Common s → (∀ k, act k = true) → s.forwardJ act = s.forward ∧ s.jvecJ act = s.jvec) := by
  constructor
  · unfold Sim.forwardJ Sim.jvecJ
    refine ListDeriv.flatMap _ fun t ht => ?_
    obtain ⟨r, hr, htr⟩ := (mem_times s t).1 ht
    exact listDeriv_rows s m h t (h.t r hr t htr) _
  · intro hc ha
    have hrows : s.rows act = s.rxs.flatMap Rx.rows := by
      unfold Sim.rows
      simp [ha]
    constructor
    · funext x
      unfold Sim.forwardJ Sim.forward
      refine List.flatMap_congr fun t ht => ?_
      rw [hrows, List.map_flatMap]
      refine List.flatMap_congr fun r hr => ?_
      rw [if_pos (hc t ht r hr)]
    · funext x v
      unfold Sim.jvecJ Sim.jvec
      refine List.flatMap_congr fun t ht => ?_
      rw [hrows, List.map_flatMap]

/-- Inner product of data. -/
def dotList (a b : List ℝ) : ℝ := (List.zipWith (· * ·) a b).sum

theorem dotList_append (a b c d : List ℝ) (h : a.length = c.length) :
    dotList (a ++ b) (c ++ d) = dotList a c + dotList b d := by
  simp only [dotList, List.zipWith_append h, List.sum_append]

theorem dotList_flatMap {α : Type} (l : List α) (f g : α → List ℝ)
    (h : ∀ a ∈ l, (f a).length = (g a).length) :
    dotList (l.flatMap f) (l.flatMap g) = (l.map fun a => dotList (f a) (g a)).sum := by
  induction l with
  | nil => simp [dotList]
  | cons a l ih =>
    simp only [List.flatMap_cons, List.map_cons, List.sum_cons]
    rw [dotList_append _ _ _ _ (h a List.mem_cons_self), ih fun b hb => h b (List.mem_cons_of_mem _ hb)]

theorem dot_rows (rows : List (κ → ℝ)) (x : List ℝ) (p : κ → ℝ) :
    dotList (rows.map (· ⬝ᵥ p)) x = p ⬝ᵥ rowsT rows x := by
  induction rows generalizing x with
  | nil => simp [dotList, rowsT, dotProduct]
  | cons r rows ih =>
    cases x with
    | nil => simp [dotList, rowsT, dotProduct]
    | cons y x =>
      have e : rowsT (r :: rows) (y :: x) = (fun k => r k * y) + rowsT rows x := by
        funext k; simp [rowsT]
      have e2 : dotList ((r :: rows).map (· ⬝ᵥ p)) (y :: x) =
          (r ⬝ᵥ p) * y + dotList (rows.map (· ⬝ᵥ p)) x := by
        simp [dotList]
      rw [e, dotProduct_add, ← ih, e2]
      congr 1
      simp only [dotProduct, Finset.sum_mul]
      exact Finset.sum_congr rfl fun k _ => by ring

theorem dot_petaD (s : Sim ι κ) (m v : ι → ℝ) (t : ℝ) (y : κ → ℝ) :
    (s.petaD m t *ᵥ v) ⬝ᵥ y = v ⬝ᵥ ((s.petaD m t)ᵀ *ᵥ y) := by
  rw [dotProduct_comm, dotProduct_mulVec, ← mulVec_transpose, dotProduct_comm]

theorem dotProduct_listsum {α : Type} (v : ι → ℝ) (l : List α) (f : α → ι → ℝ) :
    v ⬝ᵥ (l.map f).sum = (l.map fun a => v ⬝ᵥ f a).sum := by
  induction l with
  | nil => simp
  | cons a l ih => simp only [List.map_cons, List.sum_cons, dotProduct_add, ih]

/-- **C119 (stored sensitivities, adjoint).** `Jtvec` with stored sensitivities is the adjoint of `Jvec`,
for any survey. -/
theorem C119_stored_adjoint (s : Sim ι κ) (act : κ → Bool) (m v : ι → ℝ) (w : List ℝ)
    (hw : w.length = (s.jvecJ act m v).length) :
    dotList (s.jvecJ act m v) w = v ⬝ᵥ s.jtvecJ act m w := by
  unfold Sim.jvecJ Sim.jtvecJ
  unfold Sim.jvecJ at hw
  generalize s.times = ts at hw ⊢
  generalize s.rows act = rows at hw ⊢
  induction ts generalizing w with
  | nil => simp [columns, dotList]
  | cons t ts ih =>
    simp only [List.flatMap_cons, List.length_append, List.length_map] at hw
    have hsplit : w = w.take rows.length ++ w.drop rows.length := (List.take_append_drop _ _).symm
    have hlen : (w.take rows.length).length = rows.length := by simp; omega
    simp only [List.flatMap_cons, columns, List.map_cons, List.sum_cons, dotProduct_add]
    conv_lhs => rw [hsplit]
    rw [dotList_append _ _ _ _ (by simp [hlen]), ih _ (by rw [List.length_drop, hw]; omega), dot_rows,
      dot_petaD]

/-- Data sorted by time, then receiver, the order of predictions, from data sorted by receiver, then
time, the order of `Data`. -/
def byTime (s : Sim ι κ) (w : List ℝ) : List ℝ :=
  s.times.flatMap fun t => (chunks s.rxs w).flatMap fun p => block p.1 p.2 t

theorem chunks_spec (rxs : List (Rx κ)) (w : List ℝ) (hw : w.length = (rxs.map Rx.size).sum) :
    (chunks rxs w).map Prod.fst = rxs ∧ ∀ p ∈ chunks rxs w, p.2.length = p.1.size := by
  induction rxs generalizing w with
  | nil => simp [chunks]
  | cons r rs ih =>
    simp only [List.map_cons, List.sum_cons] at hw
    obtain ⟨h1, h2⟩ := ih (w.drop r.size) (by rw [List.length_drop]; omega)
    refine ⟨by simp [chunks, h1], ?_⟩
    intro p hp
    simp only [chunks, List.mem_cons] at hp
    rcases hp with rfl | hp
    · simp; omega
    · exact h2 p hp

theorem block_length (r : Rx κ) (w : List ℝ) (hw : w.length = r.size) (t : ℝ) (ht : t ∈ r.times) :
    (block r w t).length = r.rows.length := by
  have h1 : r.times.idxOf t < r.times.length := List.idxOf_lt_length_iff.2 ht
  unfold block
  rw [List.length_take, List.length_drop, hw, Rx.size]
  have : (r.times.idxOf t + 1) * r.rows.length ≤ r.times.length * r.rows.length :=
    Nat.mul_le_mul_right _ h1
  rw [Nat.min_eq_left]
  rw [Nat.mul_comm r.rows.length]
  have e : (r.times.idxOf t + 1) * r.rows.length = r.times.idxOf t * r.rows.length + r.rows.length := by
    ring
  omega

/-- **C119 (adjoint up to order).** Without stored sensitivities `Jtvec` is the adjoint of `Jvec` for data
given receiver by receiver, while `Jvec` returns them time by time. -/
theorem C119_adjoint_reordered (s : Sim ι κ) (m v : ι → ℝ) (w : List ℝ) (hc : Common s)
    (hw : w.length = (s.rxs.map Rx.size).sum) :
    ∃ g, s.jtvec m w = .ok g ∧ dotList (s.jvec m v) (byTime s w) = v ⬝ᵥ g := by
  obtain ⟨h1, h2⟩ := chunks_spec s.rxs w hw
  have hmem : ∀ p ∈ chunks s.rxs w, p.1 ∈ s.rxs := by
    intro p hp
    rw [← h1]
    exact List.mem_map_of_mem hp
  have hcond : ∀ t ∈ s.times, ∀ r ∈ s.rxs, t ∈ r.times := hc
  refine ⟨_, by rw [Sim.jtvec, if_neg (by simpa using hw), if_pos hcond], ?_⟩
  unfold Sim.jvec byTime
  have e : ∀ t, (s.rxs.flatMap fun r => r.rows.map (· ⬝ᵥ (s.petaD m t *ᵥ v))) =
      (chunks s.rxs w).flatMap fun p => p.1.rows.map (· ⬝ᵥ (s.petaD m t *ᵥ v)) := by
    intro t
    conv_lhs => rw [← h1]
    rw [List.flatMap_map]
  simp only [e]
  have hlen : ∀ t ∈ s.times, ∀ p ∈ chunks s.rxs w,
      (p.1.rows.map (· ⬝ᵥ (s.petaD m t *ᵥ v))).length = (block p.1 p.2 t).length := by
    intro t ht p hp
    rw [block_length p.1 p.2 (h2 p hp) t (hc t ht p.1 (hmem p hp)), List.length_map]
  rw [dotList_flatMap]
  · rw [dotProduct_listsum]
    congr 1
    refine List.map_congr_left fun t ht => ?_
    rw [dotList_flatMap _ _ _ (hlen t ht), ← dot_petaD, dotProduct_listsum]
    congr 1
    exact List.map_congr_left fun p _ => dot_rows _ _ _
  · intro t ht
    rw [List.length_flatMap, List.length_flatMap]
    congr 1
    exact List.map_congr_left fun p hp => hlen t ht p hp

theorem blocks_flatMap (r : Rx κ) (w : List ℝ) (hn : r.times.Nodup) (hw : w.length = r.size) :
    (r.times.flatMap fun t => block r w t) = w := by
  have key : ∀ (pre ts : List ℝ), r.times = pre ++ ts →
      (ts.flatMap fun t => block r w t) = w.drop (pre.length * r.rows.length) := by
    intro pre ts
    induction ts generalizing pre with
    | nil =>
      intro h
      have : w.length ≤ pre.length * r.rows.length := by
        rw [hw, Rx.size, h]; simp [Nat.mul_comm]
      simp [List.drop_eq_nil_of_le this]
    | cons t ts ih =>
      intro h
      have hidx : r.times.idxOf t = pre.length := by
        rw [h]
        have hnd := hn
        rw [h] at hnd
        have hnot : t ∉ pre := by
          intro hm
          exact (List.nodup_append.1 hnd).2.2 t hm t List.mem_cons_self rfl
        rw [List.idxOf_append_of_notMem hnot]
        simp
      rw [List.flatMap_cons, ih (pre ++ [t]) (by simp [h])]
      unfold block
      rw [hidx]
      have : (pre ++ [t]).length * r.rows.length = pre.length * r.rows.length + r.rows.length := by
        simp; ring
      rw [this, ← List.drop_drop, List.take_append_drop]
  simpa using key [] r.times rfl

/-- **C119, part (adjoint).** With a single receiver, whose times increase, `Jtvec` is the adjoint of
`Jvec`.  Missing: several receivers or sources, see `C119_violated_adjoint`. -/
theorem C119_adjoint_partial (s : Sim ι κ) (r : Rx κ) (hr : s.rxs = [r]) (ht : r.times.Pairwise (· < ·))
    (m v : ι → ℝ) (w : List ℝ) (hw : w.length = r.size) :
    ∃ g, s.jtvec m w = .ok g ∧ dotList (s.jvec m v) w = v ⬝ᵥ g := by
  have hnd : r.times.Nodup := ht.imp (fun h => ne_of_lt h)
  have htimes : s.times = r.times := by
    unfold Sim.times
    rw [hr]
    simp only [List.flatMap_cons, List.flatMap_nil, List.append_nil]
    rw [List.dedup_eq_self.2 hnd]
    exact List.Pairwise.insertionSort_eq (ht.imp fun h => le_of_lt h)
  have hc : Common s := by
    intro t h r' hr'
    rw [htimes] at h
    rw [hr] at hr'
    simp only [List.mem_singleton] at hr'
    rw [hr']; exact h
  obtain ⟨g, h1, h2⟩ := C119_adjoint_reordered s m v w hc (by rw [hr]; simpa using hw)
  refine ⟨g, h1, ?_⟩
  rw [← h2]
  congr 1
  unfold byTime
  rw [htimes, hr]
  simp only [chunks, List.flatMap_cons, List.flatMap_nil, List.append_nil]
  rw [List.take_of_length_le (by omega)]
  exact (blocks_flatMap r w hnd hw).symm

/-- A cell with chargeability as the model, two receivers with sensitivities one and two, no pulses. -/
def exSim (ta tb : List ℝ) : Sim (Fin 1) (Fin 1) where
  rxs := [⟨[fun _ => 1], ta⟩, ⟨[fun _ => 2], tb⟩]
  n := 0
  T := 8
  eta := fun m => m
  taui := fun _ _ => 1
  c := fun _ _ => 1
  etaD := fun _ => 1
  tauiD := fun _ => 0
  cD := fun _ => 0

theorem ex_times : (exSim [1, 2] [1, 2]).times = [1, 2] := by
  have h : ([1, 2, 1, 2] : List ℝ).dedup = [1, 2] := by
    rw [List.dedup_cons_of_mem (by simp), List.dedup_cons_of_mem (by simp),
      List.dedup_cons_of_notMem (by norm_num), List.dedup_cons_of_notMem (by simp), List.dedup_nil]
  unfold Sim.times
  simp only [exSim, List.flatMap_cons, List.flatMap_nil, List.append_nil, List.cons_append, List.nil_append]
  rw [h]
  simp [List.insertionSort, List.orderedInsert]

theorem ex_petaD (ta tb : List ℝ) (m v : Fin 1 → ℝ) (t : ℝ) :
    (exSim ta tb).petaD m t *ᵥ v = fun _ => Real.exp (-t) * v 0 := by
  funext k
  simp [exSim, Sim.petaD, dEta, dTaui, dC, respond, expo, Matrix.mulVec, dotProduct, Fin.fin_one_eq_zero]

theorem ex_petaDT (ta tb : List ℝ) (m : Fin 1 → ℝ) (t : ℝ) (y : Fin 1 → ℝ) :
    ((exSim ta tb).petaD m t)ᵀ *ᵥ y = fun _ => Real.exp (-t) * y 0 := by
  funext k
  simp [exSim, Sim.petaD, dEta, dTaui, dC, respond, expo, Matrix.mulVec, dotProduct, Fin.fin_one_eq_zero]

/-- **C119, violated: order of data.** With two receivers and two times `Jtvec` without stored
sensitivities is not the adjoint of `Jvec`: predictions go time by time, data are read receiver by
receiver. -/
theorem C119_violated_adjoint (m : Fin 1 → ℝ) : ∃ (v : Fin 1 → ℝ) (w : List ℝ) (g : Fin 1 → ℝ),
    Common (exSim [1, 2] [1, 2]) ∧ w.length = ((exSim [1, 2] [1, 2]).jvec m v).length ∧
    (exSim [1, 2] [1, 2]).jtvec m w = .ok g ∧
    dotList ((exSim [1, 2] [1, 2]).jvec m v) w ≠ v ⬝ᵥ g := by
  have hc : Common (exSim [1, 2] [1, 2]) := by
    intro t ht r hr
    rw [ex_times] at ht
    simp only [exSim, List.mem_cons, List.not_mem_nil, or_false] at hr
    rcases hr with rfl | rfl <;> exact ht
  have hj : (exSim [1, 2] [1, 2]).jvec m (fun _ => 1) =
      [Real.exp (-1), 2 * Real.exp (-1), Real.exp (-2), 2 * Real.exp (-2)] := by
    unfold Sim.jvec
    rw [ex_times]
    simp only [ex_petaD, List.flatMap_cons, List.flatMap_nil]
    simp [exSim, dotProduct]
  refine ⟨fun _ => 1, [0, 1, 0, 0], fun _ => Real.exp (-2), hc, ?_, ?_, ?_⟩
  · rw [hj]; rfl
  · unfold Sim.jtvec
    have hc' : ∀ t ∈ (exSim [1, 2] [1, 2]).times, ∀ r ∈ (exSim [1, 2] [1, 2]).rxs, t ∈ r.times := hc
    rw [if_neg, if_pos hc']
    · congr 1
      rw [ex_times]
      simp only [List.map_cons, List.map_nil, ex_petaDT, List.sum_cons, List.sum_nil, add_zero]
      funext i
      simp [exSim, chunks, Rx.size, block, rowsT]
    · simp [exSim, Rx.size]
  · rw [hj]
    simp only [dotList, List.zipWith_cons_cons, List.zipWith_nil_left, List.sum_cons, List.sum_nil,
      dotProduct, Finset.univ_unique, Finset.sum_singleton]
    have h1 : Real.exp (-2) < Real.exp (-1) := Real.exp_lt_exp.2 (by norm_num)
    have h2 := Real.exp_pos (-1)
    intro h
    nlinarith

/-- **C119, violated: indexing.** Predictions put into `Data` are read back for the wrong receiver and
time: what is stored for the first receiver at the second time is the prediction of the second receiver at
the first time. -/
theorem C119_violated_index : ∃ m : Fin 1 → ℝ,
    (chunks (exSim [1, 2] [1, 2]).rxs ((exSim [1, 2] [1, 2]).forward m)).map
      (fun p => block p.1 p.2 2) = [[2 * Real.exp (-1)], [2 * Real.exp (-2)]] ∧
    (exSim [1, 2] [1, 2]).rxs.map (fun r => r.rows.map (· ⬝ᵥ (exSim [1, 2] [1, 2]).petaAt m 2)) =
      [[Real.exp (-2)], [2 * Real.exp (-2)]] := by
  refine ⟨fun _ => 1, ?_, ?_⟩
  · have hf : (exSim [1, 2] [1, 2]).forward (fun _ => 1) =
        [Real.exp (-1), 2 * Real.exp (-1), Real.exp (-2), 2 * Real.exp (-2)] := by
      unfold Sim.forward
      rw [ex_times]
      simp [exSim, Sim.petaAt, peta, respond, stepOff, expo, dotProduct]
    rw [hf]
    have hi : ([1, 2] : List ℝ).idxOf 2 = 1 := by
      rw [List.idxOf_cons_ne _ (by norm_num)]; simp
    simp [exSim, chunks, Rx.size, block, hi]
  · simp [exSim, Sim.petaAt, peta, respond, stepOff, expo, dotProduct]

theorem ex_times2 : (exSim [1] [1, 2]).times = [1, 2] := by
  have h : ([1, 1, 2] : List ℝ).dedup = [1, 2] := by
    rw [List.dedup_cons_of_mem (by simp), List.dedup_cons_of_notMem (by norm_num),
      List.dedup_cons_of_notMem (by simp), List.dedup_nil]
  unfold Sim.times
  simp only [exSim, List.flatMap_cons, List.flatMap_nil, List.append_nil, List.cons_append, List.nil_append]
  rw [h]
  simp [List.insertionSort, List.orderedInsert]

/-- **C119, violated: different times.** With different times of receivers `Jvec` returns another number
of data than the prediction, and `Jtvec` raises. -/
theorem C119_violated_times (m v : Fin 1 → ℝ) :
    ((exSim [1] [1, 2]).forward m).length = 3 ∧ ((exSim [1] [1, 2]).jvec m v).length = 4 ∧
    ∀ w, w.length = 3 → (exSim [1] [1, 2]).jtvec m w = .error .keyError := by
  refine ⟨?_, ?_, ?_⟩
  · unfold Sim.forward
    rw [ex_times2]
    simp [exSim]
  · unfold Sim.jvec
    rw [ex_times2]
    simp [exSim]
  · intro w hw
    unfold Sim.jtvec
    rw [if_neg, if_neg]
    · rw [ex_times2]
      simp [exSim]
    · rw [hw]; simp [exSim, Rx.size]

/-- The hypotheses of the parts can be met. -/
example (m : Fin 1 → ℝ) : Regular (exSim [1, 2] [1, 2]) m ∧ Common (exSim [1, 2] [1, 2]) := by
  refine ⟨⟨?_, ?_, ?_, ?_, ?_, ?_⟩, ?_⟩
  · intro k
    have : dotL ((exSim [1, 2] [1, 2]).etaD m k) = ContinuousLinearMap.proj (R := ℝ) (φ := fun _ : Fin 1 => ℝ) k := by
      ext v
      simp [exSim, dotProduct, Matrix.one_apply, Fin.fin_one_eq_zero]
    rw [this]
    exact hasFDerivAt_apply k m
  · intro k
    have : dotL ((exSim [1, 2] [1, 2]).tauiD m k) = 0 := by ext v; simp [exSim, dotProduct]
    rw [this]
    exact hasFDerivAt_const _ _
  · intro k
    have : dotL ((exSim [1, 2] [1, 2]).cD m k) = 0 := by ext v; simp [exSim, dotProduct]
    rw [this]
    exact hasFDerivAt_const _ _
  · intro k; simp [exSim]
  · simp [exSim]
  · intro r hr t ht
    simp only [exSim, List.mem_cons, List.not_mem_nil, or_false] at hr
    rcases hr with rfl | rfl <;>
      (simp only [List.mem_cons, List.not_mem_nil, or_false] at ht
       rcases ht with rfl | rfl <;> norm_num)
  · intro t ht r hr
    rw [ex_times] at ht
    simp only [exSim, List.mem_cons, List.not_mem_nil, or_false] at hr
    rcases hr with rfl | rfl <;> exact ht

end Verif.DC.SIP.Props
