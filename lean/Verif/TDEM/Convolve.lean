import Verif.TDEM.Piecewise
import Mathlib.MeasureTheory.Integral.IntervalIntegral.FundThmCalculus
import Mathlib.MeasureTheory.Integral.IntervalIntegral.IntegrationByParts
import Mathlib.Data.Finset.Sort

/-!
C178: the convolution of a step-off response with a waveform, `convolve_with_waveform`
(`simpeg/electromagnetics/utils/waveform_utils.py` 75-126), and the waveform function `VTEMFun` (51-72).

Simplified: `integrate.quad` is the exact integral; the numbers are real; `fargs` and `fkwargs` are part of
the function.  The waveforms are those of C77.
-/

namespace Verif.TDEM.Convolve
open Verif.TDEM.Waveforms

noncomputable section
open Classical

/-! ### Model -/

/-- The waveform classes of `time_domain/sources.py` (34-1041). -/
inductive Wave where
  | step (w : StepOff)
  | raw (f : ℝ → ℝ)
  | ramp (w : RampOff)
  | vtem (w : VTEM)
  | trapezoid (w : Trapezoid)
  | quarter (w : Trapezoid)
  | half (w : Trapezoid)
  | exponential (w : Exponential)
  | piecewise (w : Piecewise)

/-- `waveform.time_nodes` (`sources.py` 334, 503, 611, 906, 1039); `StepOffWaveform` and `RawWaveform` have
none.  The nodes of a trapezoid are passed through `np.unique`. -/
def Wave.nodes : Wave → Option (List ℝ)
  | .step _ => none
  | .raw _ => none
  | .ramp w => some w.nodes
  | .vtem w => some w.nodes
  | .trapezoid w | .quarter w | .half w => some (w.nodes.toFinset.sort (· ≤ ·))
  | .exponential w => some w.nodes
  | .piecewise w => some w.timeNodes

/-- `waveform.eval`. -/
def Wave.current : Wave → ℝ → ℝ
  | .step w => w.eval
  | .raw f => f
  | .ramp w => w.eval
  | .vtem w => w.eval
  | .trapezoid w => w.eval
  | .quarter w => w.quarterEval
  | .half w => w.halfEval
  | .exponential w => w.eval
  | .piecewise w => w.eval

/-- `waveform.eval_deriv`; not used for a step and a raw waveform. -/
def Wave.rate : Wave → ℝ → ℝ
  | .step _ => fun _ => 0
  | .raw _ => fun _ => 0
  | .ramp w => w.evalDeriv
  | .vtem w => w.evalDeriv
  | .trapezoid w => w.evalDeriv
  | .quarter w => w.quarterDeriv
  | .half w => w.halfDeriv
  | .exponential w => w.evalDeriv
  | .piecewise w => w.evalDeriv

/-- The integral over one interval between nodes (117-124). -/
def piece (d f : ℝ → ℝ) (ns : List ℝ) (t : ℝ) (i : ℕ) : ℝ :=
  ∫ s in (max (t - ns.getD (i + 1) 0) 0)..(max (t - ns.getD i 0) 0), d (t - s) * f s

/-- The loop over the intervals for one time (108-125): `out[it] -= val`. -/
def convolveAt (d f : ℝ → ℝ) (ns : List ℝ) (t : ℝ) : ℝ :=
  (List.range (ns.length - 1)).foldl (fun out i => out - piece d f ns t i) 0

/-- `convolve_with_waveform` (75-126). -/
def convolve (f : ℝ → ℝ) (w : Wave) (times : List ℝ) : Except Err (List ℝ) :=
  match w.nodes with
  | none => .error .typeError
  | some ns => .ok (times.map (convolveAt w.rate f ns))

/-- `VTEMFun` (51-72) of one time. -/
def vtemFun (t ta tb a : ℝ) : ℝ :=
  if ta < t ∧ t < tb then -1 / (tb - ta) * (t - tb)
  else if t ≤ ta then (1 - Real.exp (-a * t / ta)) / (1 - Real.exp (-a))
  else 0

/-! ### Specification -/

/-- The response at time `t` to a current with rate of change `d`, if `f` is the response to a step off:
superposition of all steps `-d(t - s) ds` that happened the time `s` before. -/
def superposed (d f : ℝ → ℝ) (t : ℝ) : ℝ := -∫ s in Set.Ioi (0 : ℝ), d (t - s) * f s

/-- `F` is the integral of `f` over positive times. -/
structure Integral (f F : ℝ → ℝ) : Prop where
  cont : ContinuousOn F (Set.Ici 0)
  deriv : ∀ s, 0 < s → HasDerivAt F (f s) s
  int : ∀ a b, 0 ≤ a → 0 ≤ b → IntervalIntegrable f MeasureTheory.volume a b

namespace Props
open MeasureTheory Verif.TDEM.Waveforms.Props

/-! ### Tools -/

theorem foldl_sub (g : ℕ → ℝ) (n : ℕ) (c : ℝ) :
    (List.range n).foldl (fun out i => out - g i) c = c - ∑ i ∈ Finset.range n, g i := by
  induction n with
  | zero => simp
  | succ n ih => rw [List.range_succ, List.foldl_append, ih, Finset.sum_range_succ]; simp; ring

theorem convolveAt_eq (d f : ℝ → ℝ) (ns : List ℝ) (t : ℝ) :
    convolveAt d f ns t = -∑ i ∈ Finset.range (ns.length - 1), piece d f ns t i := by
  rw [convolveAt, foldl_sub, zero_sub]

/-- The intervals are joined, whatever the order of the nodes. -/
theorem joined (d f : ℝ → ℝ) (ns : List ℝ) (t : ℝ)
    (hi : ∀ a b, 0 ≤ a → 0 ≤ b → IntervalIntegrable (fun s => d (t - s) * f s) volume a b) :
    convolveAt d f ns t
      = -∫ s in (max (t - ns.getD (ns.length - 1) 0) 0)..(max (t - ns.getD 0 0) 0), d (t - s) * f s := by
  rw [convolveAt_eq, neg_inj]
  have h := intervalIntegral.sum_integral_adjacent_intervals
    (a := fun i : ℕ => max (t - ns.getD i 0) 0) (f := fun s => d (t - s) * f s) (μ := volume)
    (n := ns.length - 1) (fun k _ => hi _ _ (le_max_right _ _) (le_max_right _ _))
  rw [intervalIntegral.integral_symm, ← h, ← Finset.sum_neg_distrib]
  refine Finset.sum_congr rfl fun i _ => ?_
  rw [piece, intervalIntegral.integral_symm]

/-- The rate of change vanishes before the first and after the last node. -/
def Within (d : ℝ → ℝ) (ns : List ℝ) : Prop :=
  ns.getD 0 0 ≤ ns.getD (ns.length - 1) 0 ∧
    ∀ t, d t ≠ 0 → ns.getD 0 0 ≤ t ∧ t ≤ ns.getD (ns.length - 1) 0

theorem superposed_eq {d f : ℝ → ℝ} {ns : List ℝ} (hw : Within d ns) (t : ℝ) :
    superposed d f t
      = -∫ s in (max (t - ns.getD (ns.length - 1) 0) 0)..(max (t - ns.getD 0 0) 0), d (t - s) * f s := by
  rw [superposed, neg_inj, ← integral_Ici_eq_integral_Ioi,
    intervalIntegral.integral_of_le (max_le_max (by linarith [hw.1]) le_rfl),
    ← integral_Icc_eq_integral_Ioc]
  refine setIntegral_eq_of_subset_of_forall_sdiff_eq_zero measurableSet_Ici ?_ ?_
  · intro s hs
    exact le_trans (le_max_right _ _) hs.1
  · rintro s ⟨h0, hs⟩
    by_contra hne
    have hd : d (t - s) ≠ 0 := left_ne_zero_of_mul hne
    obtain ⟨h1, h2⟩ := hw.2 _ hd
    exact hs ⟨max_le (by linarith) h0, le_trans (by linarith) (le_max_left _ _)⟩

theorem within_sort {d : ℝ → ℝ} {l : List ℝ} (hl : l ≠ [])
    (h : ∀ t, d t ≠ 0 → (∃ a ∈ l, a ≤ t) ∧ ∃ b ∈ l, t ≤ b) :
    Within d (l.toFinset.sort (· ≤ ·)) := by
  set ns := l.toFinset.sort (· ≤ ·) with hns
  have hs : ns.Pairwise (· ≤ ·) := Finset.pairwise_sort _ _
  have hmem : ∀ a, a ∈ ns ↔ a ∈ l := fun a => by rw [hns, Finset.mem_sort, List.mem_toFinset]
  have hpos : 0 < ns.length := by
    obtain ⟨a, ha⟩ := List.exists_mem_of_ne_nil l hl
    exact List.length_pos_of_mem ((hmem a).2 ha)
  have hb : ∀ a ∈ ns, ns.getD 0 0 ≤ a ∧ a ≤ ns.getD (ns.length - 1) 0 := by
    intro a ha
    obtain ⟨i, hi, rfl⟩ := List.getElem_of_mem ha
    rw [List.getD_eq_getElem _ _ hpos, List.getD_eq_getElem _ _ (by omega : ns.length - 1 < ns.length)]
    rw [List.pairwise_iff_getElem] at hs
    constructor
    · rcases Nat.eq_zero_or_pos i with rfl | h0
      · exact le_rfl
      · exact hs 0 i hpos hi h0
    · rcases Nat.lt_or_ge i (ns.length - 1) with h0 | h0
      · exact hs i (ns.length - 1) hi (by omega) h0
      · have : i = ns.length - 1 := by omega
        subst this; exact le_rfl
  refine ⟨?_, fun t ht => ?_⟩
  · exact (hb _ (List.getElem_mem hpos)).1.trans (hb _ (List.getElem_mem hpos)).2
  · obtain ⟨⟨a, ha, h1⟩, b, hb', h2⟩ := h t ht
    exact ⟨(hb a ((hmem a).2 ha)).1.trans h1, h2.trans (hb b ((hmem b).2 hb')).2⟩

/-! ### C178 -/

/-- The waveforms for which the nodes contain all changes of the current. -/
inductive Covered : Wave → Prop
  | ramp {a b e : ℝ} {w : RampOff} (h : RampOff.build a b e = .ok w) : Covered (.ramp w)
  | vtem (w : VTEM) (h0 : 0 ≤ w.peak) (h : w.peak ≤ w.off) : Covered (.vtem w)
  | trapezoid (w : Trapezoid) : Covered (.trapezoid w)
  | quarter (w : Trapezoid) : Covered (.quarter w)
  | half (w : Trapezoid) : Covered (.half w)
  | exponential {a b c e : ℝ} {w : Exponential} (h : Exponential.build a b c e = .ok w) :
      Covered (.exponential w)
  | piecewise {ts cs : List ℝ} {w : Piecewise} (h : Piecewise.build ts cs = .ok w) (hd : ts.Nodup) :
      Covered (.piecewise w)

theorem timeNodes_getD {w : Piecewise} {i : ℕ} (hi : i < w.nodes.length) :
    w.timeNodes.getD i 0 = w.T i := by
  have h' : i < w.timeNodes.length := by rw [Piecewise.timeNodes, List.length_map]; exact hi
  rw [List.getD_eq_getElem _ _ h', T_eq w hi]; simp [Piecewise.timeNodes]

theorem timeNodes_length (w : Piecewise) : w.timeNodes.length = w.nodes.length := by
  rw [Piecewise.timeNodes, List.length_map]

theorem covered_within {w : Wave} (h : Covered w) : ∃ ns, w.nodes = some ns ∧ Within w.rate ns := by
  cases h with
  | @ramp a b e w h =>
    obtain ⟨rfl, hab, he⟩ := RampOff.build_ok h
    refine ⟨_, rfl, ?_, fun t ht => ?_⟩
    · simpa [RampOff.nodes] using hab.le
    · simp only [Wave.rate, RampOff.evalDeriv] at ht
      split_ifs at ht with c
      · simp only [RampOff.nodes, List.getD_cons_zero, List.length_cons, List.length_nil,
          Nat.zero_add, Nat.add_one_sub_one, List.getD_cons_succ]
        exact ⟨by linarith [c.2], c.1.le⟩
      · exact absurd rfl ht
  | vtem w h0 h =>
    refine ⟨_, rfl, ?_, fun t ht => ?_⟩
    · simpa [VTEM.nodes] using h0.trans h
    · simp only [Wave.rate, VTEM.evalDeriv] at ht
      simp only [VTEM.nodes, List.getD_cons_zero, List.length_cons, List.length_nil,
          Nat.zero_add, Nat.reduceAdd, Nat.add_one_sub_one, List.getD_cons_succ]
      split_ifs at ht with c c'
      · exact ⟨by linarith [c.1], c.2.le⟩
      · exact ⟨c'.2, by linarith [c'.1]⟩
      · exact absurd rfl ht
  | trapezoid w =>
    refine ⟨_, rfl, within_sort (by simp [Trapezoid.nodes]) fun t ht => ?_⟩
    simp only [Wave.rate, Trapezoid.evalDeriv] at ht
    split_ifs at ht with c c'
    · exact ⟨⟨w.off0, by simp [Trapezoid.nodes], c.1⟩, w.off1, by simp [Trapezoid.nodes], c.2⟩
    · exact ⟨⟨w.on0, by simp [Trapezoid.nodes], c'.1⟩, w.on1, by simp [Trapezoid.nodes], c'.2⟩
    · exact absurd rfl ht
  | quarter w =>
    refine ⟨_, rfl, within_sort (by simp [Trapezoid.nodes]) fun t ht => ?_⟩
    simp only [Wave.rate, Trapezoid.quarterDeriv] at ht
    split_ifs at ht with c c'
    · exact ⟨⟨w.on0, by simp [Trapezoid.nodes], c.1⟩, w.on1, by simp [Trapezoid.nodes], c.2.le⟩
    · exact ⟨⟨w.off0, by simp [Trapezoid.nodes], c'.1⟩, w.off1, by simp [Trapezoid.nodes], c'.2.le⟩
    · exact absurd rfl ht
  | half w =>
    refine ⟨_, rfl, within_sort (by simp [Trapezoid.nodes]) fun t ht => ?_⟩
    simp only [Wave.rate, Trapezoid.halfDeriv] at ht
    split_ifs at ht with c c'
    · exact ⟨⟨w.on0, by simp [Trapezoid.nodes], c.1⟩, w.on1, by simp [Trapezoid.nodes], c.2.le⟩
    · exact ⟨⟨w.off0, by simp [Trapezoid.nodes], c'.1⟩, w.off1, by simp [Trapezoid.nodes], c'.2.le⟩
    · exact absurd rfl ht
  | @exponential a b c e w h =>
    obtain ⟨rfl, hs, hp, ht⟩ := Exponential.build_ok h
    refine ⟨_, rfl, ?_, fun t ht => ?_⟩
    · simpa [Exponential.nodes] using hs.le.trans hp
    · simp only [Wave.rate, Exponential.evalDeriv] at ht
      simp only [Exponential.nodes, List.getD_cons_zero, List.length_cons, List.length_nil,
          Nat.zero_add, Nat.reduceAdd, Nat.add_one_sub_one, List.getD_cons_succ]
      split_ifs at ht with c c'
      · exact ⟨by linarith [c.1], c.2.le⟩
      · exact ⟨c'.2, by linarith [c'.1]⟩
      · exact absurd rfl ht
  | @piecewise ts cs w h hd =>
    have hi := incr_of_build h hd
    have hne : 0 < w.nodes.length := by
      rw [nodes_length h]; exact Nat.pos_of_ne_zero (Waveforms.Props.build_ok h).2.1
    refine ⟨_, rfl, ?_, fun t ht => ?_⟩
    · rw [timeNodes_length, timeNodes_getD hne, timeNodes_getD (by omega)]
      exact incr_le hi (Nat.zero_le _) (by omega)
    · rw [timeNodes_length, timeNodes_getD hne, timeNodes_getD (by omega)]
      simp only [Wave.rate, Piecewise.evalDeriv] at ht
      split_ifs at ht with c
      · exact ⟨c.1.le, c.2.le⟩
      · exact absurd rfl ht

/-- **C178, superposition**: for every waveform whose nodes contain its changes, the result at every time is
the response of the superposed steps over all past times. -/
theorem C178_superposition {w : Wave} (hw : Covered w) (f : ℝ → ℝ) (times : List ℝ)
    (hi : ∀ t ∈ times, ∀ a b, 0 ≤ a → 0 ≤ b →
      IntervalIntegrable (fun s => w.rate (t - s) * f s) volume a b) :
    convolve f w times = .ok (times.map (superposed w.rate f)) := by
  obtain ⟨ns, hn, hwi⟩ := covered_within hw
  rw [convolve, hn]
  simp only
  congr 1
  refine List.map_congr_left fun t ht => ?_
  rw [joined _ _ _ _ (hi t ht), superposed_eq hwi]

/-- **C178, errors**: a step and a raw waveform are refused, all others accepted. -/
theorem C178_accepted (f : ℝ → ℝ) (w : Wave) (times : List ℝ) :
    (convolve f w times = .error .typeError ↔ (∃ s, w = .step s) ∨ ∃ g, w = .raw g) ∧
      (∀ r, convolve f w times = .ok r → r.length = times.length) := by
  refine ⟨?_, fun r hr => ?_⟩
  · cases w <;> simp [convolve, Wave.nodes]
  · unfold convolve at hr
    split at hr
    · cases hr
    · cases hr; simp

/-- **C178, causality**: the result is zero until the first change of the current, and depends only on the
step response at positive times. -/
theorem C178_causal (w : Wave) (f g : ℝ → ℝ) (times : List ℝ)
    (hfg : ∀ s, 0 < s → f s = g s) :
    convolve f w times = convolve g w times ∧
      ∀ r, convolve f w times = .ok r → ∀ i, (h : i < times.length) →
        (∀ u ≤ times[i], w.rate u = 0) → r[i]? = some 0 := by
  constructor
  · unfold convolve
    split
    · rfl
    · rename_i ns _
      congr 1
      refine List.map_congr_left fun t _ => ?_
      rw [convolveAt_eq, convolveAt_eq]
      congr 1
      refine Finset.sum_congr rfl fun i _ => ?_
      rw [piece, piece]
      refine intervalIntegral.integral_congr_ae (Filter.Eventually.of_forall fun s hs => ?_)
      have : 0 < s := lt_of_le_of_lt (le_min (le_max_right _ _) (le_max_right _ _)) hs.1
      rw [hfg s this]
  · intro r hr i hi hu
    unfold convolve at hr
    split at hr
    · cases hr
    · rename_i ns _
      cases hr
      rw [List.getElem?_map, List.getElem?_eq_getElem hi]
      simp only [Option.map_some, Option.some.injEq]
      rw [convolveAt_eq, neg_eq_zero]
      refine Finset.sum_eq_zero fun k _ => ?_
      rw [piece]
      refine intervalIntegral.integral_zero_ae (Filter.Eventually.of_forall fun s hs => ?_)
      have : 0 < s := lt_of_le_of_lt (le_min (le_max_right _ _) (le_max_right _ _)) hs.1
      rw [hu _ (by linarith), zero_mul]

/-- **C178, linearity** in the step response. -/
theorem C178_linear {w : Wave} (hw : Covered w) (f g : ℝ → ℝ) (c e : ℝ) (t : ℝ)
    (hf : ∀ a b, 0 ≤ a → 0 ≤ b → IntervalIntegrable (fun s => w.rate (t - s) * f s) volume a b)
    (hg : ∀ a b, 0 ≤ a → 0 ≤ b → IntervalIntegrable (fun s => w.rate (t - s) * g s) volume a b) :
    ∃ x y, convolve f w [t] = .ok [x] ∧ convolve g w [t] = .ok [y] ∧
      convolve (fun s => c * f s + e * g s) w [t] = .ok [c * x + e * y] := by
  obtain ⟨ns, hn, -⟩ := covered_within hw
  refine ⟨_, _, by rw [convolve, hn]; rfl, by rw [convolve, hn]; rfl, ?_⟩
  rw [convolve, hn]
  simp only [List.map_cons, List.map_nil]
  congr 2
  rw [convolveAt_eq, convolveAt_eq, convolveAt_eq, mul_neg, mul_neg, ← neg_add, neg_inj, Finset.mul_sum,
    Finset.mul_sum, ← Finset.sum_add_distrib]
  refine Finset.sum_congr rfl fun i _ => ?_
  rw [piece, piece, piece, ← intervalIntegral.integral_const_mul, ← intervalIntegral.integral_const_mul,
    ← intervalIntegral.integral_add
      ((hf _ _ (le_max_right _ _) (le_max_right _ _)).const_mul c)
      ((hg _ _ (le_max_right _ _) (le_max_right _ _)).const_mul e)]
  refine intervalIntegral.integral_congr fun s _ => ?_
  ring

/-- One interval of a constant response. -/
theorem piece_const {w d : ℝ → ℝ} (hc : Charge w d) (c : ℝ) (ns : List ℝ) (t : ℝ) (i : ℕ) :
    piece d (fun _ => c) ns t i = c * (w (min (ns.getD (i + 1) 0) t) - w (min (ns.getD i 0) t)) := by
  rw [piece, intervalIntegral.integral_mul_const, intervalIntegral.integral_comp_sub_left (fun x => d x) t,
    hc, mul_comm]
  have e : ∀ x : ℝ, t - max (t - x) 0 = min x t := by
    intro x
    rcases le_total x t with h | h
    · rw [min_eq_left h, max_eq_left (by linarith)]; ring
    · rw [min_eq_right h, max_eq_right (by linarith)]; ring
  rw [e, e]

/-- **C178, static response**: a step response which stays at `c` gives `c` times the loss of current since
the first node, if `eval_deriv` is the rate of the current. -/
theorem C178_static {w : Wave} (hw : Covered w) (hc : Charge w.current w.rate) (c : ℝ) (t : ℝ) :
    ∃ ns, w.nodes = some ns ∧
      (ns.getD 0 0 ≤ t → convolve (fun _ => c) w [t] = .ok [c * (w.current (ns.getD 0 0) - w.current t)]) := by
  obtain ⟨ns, hn, hwi⟩ := covered_within hw
  refine ⟨ns, hn, fun ht => ?_⟩
  rw [convolve, hn]
  simp only [List.map_cons, List.map_nil]
  congr 2
  rw [convolveAt_eq, Finset.sum_congr rfl (fun i _ => piece_const hc c ns t i), ← Finset.mul_sum,
    Finset.sum_range_sub (fun i => w.current (min (ns.getD i 0) t)), min_eq_left ht]
  -- nothing changes after the last node
  have hl : w.current (min (ns.getD (ns.length - 1) 0) t) = w.current t := by
    rcases le_total t (ns.getD (ns.length - 1) 0) with h | h
    · rw [min_eq_right h]
    · rw [min_eq_left h]
      have h0 : ∫ s in (ns.getD (ns.length - 1) 0)..t, w.rate s = 0 := by
        refine intervalIntegral.integral_zero_ae (Filter.Eventually.of_forall fun s hs => ?_)
        rw [Set.uIoc_of_le h] at hs
        by_contra hne
        exact absurd (hwi.2 s hne).2 (not_le.2 hs.1)
      rw [hc] at h0; linarith
  rw [hl]; ring

/-- The integral of `d(t - s) f(s)` over an interval in which the rate is `r`. -/
theorem piece_slope {d f F : ℝ → ℝ} (hF : Integral f F) {ns : List ℝ} {t : ℝ} {i : ℕ} {r : ℝ}
    (hle : ns.getD i 0 ≤ ns.getD (i + 1) 0)
    (hr : ∀ u, ns.getD i 0 < u → u < ns.getD (i + 1) 0 → d u = r) :
    piece d f ns t i = r * (F (max (t - ns.getD i 0) 0) - F (max (t - ns.getD (i + 1) 0) 0)) := by
  have hab : max (t - ns.getD (i + 1) 0) 0 ≤ max (t - ns.getD i 0) 0 := max_le_max (by linarith) le_rfl
  have e : ∫ s in (max (t - ns.getD (i + 1) 0) 0)..(max (t - ns.getD i 0) 0), f s
      = F (max (t - ns.getD i 0) 0) - F (max (t - ns.getD (i + 1) 0) 0) := by
    refine intervalIntegral.integral_eq_sub_of_hasDerivAt_of_le hab
      (hF.cont.mono fun s hs => le_trans (le_max_right _ _) hs.1)
      (fun s hs => hF.deriv s (lt_of_le_of_lt (le_max_right _ _) hs.1))
      (hF.int _ _ (le_max_right _ _) (le_max_right _ _))
  rw [← e, piece, ← intervalIntegral.integral_const_mul, intervalIntegral.integral_of_le hab,
    intervalIntegral.integral_of_le hab, integral_Ioc_eq_integral_Ioo, integral_Ioc_eq_integral_Ioo]
  refine setIntegral_congr_fun measurableSet_Ioo fun s hs => ?_
  have h1 : t - ns.getD (i + 1) 0 < s := lt_of_le_of_lt (le_max_left _ _) hs.1
  have h0 : 0 < s := lt_of_le_of_lt (le_max_right _ _) hs.1
  have h2 : s < t - ns.getD i 0 := by
    rcases lt_max_iff.1 hs.2 with h | h
    · exact h
    · linarith
  simp only [hr (t - s) (by linarith) (by linarith)]

/-- **C178, ramp**: after a linear ramp the result is the mean of the step responses from the end to the
start of the ramp (for `epsilon = 0`). -/
theorem C178_ramp_partial {a b : ℝ} {w : RampOff} (h : RampOff.build a b 0 = .ok w) {f F : ℝ → ℝ}
    (hF : Integral f F) (t : ℝ) :
    convolve f (.ramp w) [t] = .ok [(F (max (t - a) 0) - F (max (t - b) 0)) / (b - a)] := by
  obtain ⟨rfl, hab, -⟩ := RampOff.build_ok h
  simp only [convolve, Wave.nodes, List.map_cons, List.map_nil]
  congr 2
  rw [convolveAt_eq]
  simp only [RampOff.nodes, List.length_cons, List.length_nil, Nat.zero_add, Nat.reduceAdd,
    Nat.add_one_sub_one, Finset.sum_range_one]
  rw [piece_slope (r := -1 / (b - a)) hF (by simpa using hab.le)]
  · simp only [List.getD_cons_zero, List.getD_cons_succ, Nat.zero_add]
    ring
  · intro u h1 h2
    simp only [List.getD_cons_zero, List.getD_cons_succ, Nat.zero_add] at h1 h2
    simp only [Wave.rate, RampOff.evalDeriv]
    rw [if_pos ⟨h2, by linarith⟩]

/-- **C178, ramp**: after the ramp the result is between the bounds of the step response. -/
theorem C178_ramp_bounds_partial {a b : ℝ} {w : RampOff} (h : RampOff.build a b 0 = .ok w) {f F : ℝ → ℝ}
    (hF : Integral f F) {t : ℝ} (ht : b ≤ t) {m M : ℝ}
    (hm : ∀ s, t - b ≤ s → s ≤ t - a → m ≤ f s ∧ f s ≤ M) :
    ∃ x, convolve f (.ramp w) [t] = .ok [x] ∧ m ≤ x ∧ x ≤ M := by
  have hab : a < b := (RampOff.build_ok h).2.1
  refine ⟨_, C178_ramp_partial h hF t, ?_⟩
  rw [max_eq_left (by linarith), max_eq_left (by linarith)]
  have hle : t - b ≤ t - a := by linarith
  have e : ∫ s in (t - b)..(t - a), f s = F (t - a) - F (t - b) :=
    intervalIntegral.integral_eq_sub_of_hasDerivAt_of_le hle
      (hF.cont.mono fun s hs => le_trans (by linarith) hs.1)
      (fun s hs => hF.deriv s (lt_of_le_of_lt (by linarith) hs.1))
      (hF.int _ _ (by linarith) (by linarith))
  rw [← e]
  have i := hF.int (t - b) (t - a) (by linarith) (by linarith)
  have h1 := intervalIntegral.integral_mono_on hle (intervalIntegrable_const (c := m)) i
    (fun s hs => (hm s hs.1 hs.2).1)
  have h2 := intervalIntegral.integral_mono_on hle i (intervalIntegrable_const (c := M))
    (fun s hs => (hm s hs.1 hs.2).2)
  rw [intervalIntegral.integral_const, smul_eq_mul] at h1 h2
  have hpos : 0 < b - a := by linarith
  constructor
  · rw [le_div_iff₀ hpos]; linarith
  · rw [div_le_iff₀ hpos]; linarith

/-- **C178, piecewise linear**: the result is the sum over the segments of minus the slope times the change of
the integral of the step response. -/
theorem C178_piecewise {ts cs : List ℝ} {w : Piecewise} (h : Piecewise.build ts cs = .ok w)
    (hd : ts.Nodup) {f F : ℝ → ℝ} (hF : Integral f F) (t : ℝ) :
    convolve f (.piecewise w) [t] = .ok [∑ i ∈ Finset.range (ts.length - 1),
      -((w.I (i + 1) - w.I i) / (w.T (i + 1) - w.T i))
        * (F (max (t - w.T i) 0) - F (max (t - w.T (i + 1)) 0))] := by
  have hi := incr_of_build h hd
  have hlen := nodes_length h
  simp only [convolve, Wave.nodes, List.map_cons, List.map_nil]
  congr 2
  rw [convolveAt_eq, timeNodes_length, hlen, ← Finset.sum_neg_distrib]
  refine Finset.sum_congr rfl fun i hir => ?_
  rw [Finset.mem_range] at hir
  have h1 : i + 1 < w.nodes.length := by omega
  rw [piece_slope (r := (w.I (i + 1) - w.I i) / (w.T (i + 1) - w.T i)) hF]
  · rw [timeNodes_getD (by omega), timeNodes_getD h1]; ring
  · rw [timeNodes_getD (by omega), timeNodes_getD h1]
    exact (hi i (i + 1) (by omega) h1).le
  · rw [timeNodes_getD (by omega), timeNodes_getD h1]
    intro u hu1 hu2
    simp only [Wave.rate, Piecewise.evalDeriv]
    rw [if_pos ⟨lt_of_le_of_lt (incr_le hi (Nat.zero_le _) (by omega)) hu1,
      lt_of_lt_of_le hu2 (incr_le hi (by omega) (by omega))⟩, search_eq hi h1 hu1 hu2.le]
    simp only [Nat.add_sub_cancel]

/-- **C178, violated**: with a positive `epsilon` the ramp loses the start of the ramp: a response which stays
at one is reduced by `epsilon` over the width, and lost entirely if `epsilon` is the width or more. -/
theorem C178_violated_ramp {a b e : ℝ} {w : RampOff} (h : RampOff.build a b e = .ok w) (t : ℝ) (ht : b ≤ t) :
    convolve (fun _ => 1) (.ramp w) [t] = .ok [1 - min e (b - a) / (b - a)] := by
  obtain ⟨rfl, hab, he⟩ := RampOff.build_ok h
  have hpos : 0 < b - a := by linarith
  simp only [convolve, Wave.nodes, List.map_cons, List.map_nil]
  congr 2
  rw [convolveAt_eq]
  simp only [RampOff.nodes, List.length_cons, List.length_nil, Nat.zero_add, Nat.reduceAdd,
    Nat.add_one_sub_one, Finset.sum_range_one]
  rw [piece]
  simp only [List.getD_cons_zero, List.getD_cons_succ, Nat.zero_add, mul_one]
  rw [max_eq_left (by linarith), max_eq_left (by linarith),
    intervalIntegral.integral_comp_sub_left (fun x => Wave.rate (.ramp ⟨a, b, e⟩) x) t,
    show t - (t - a) = a by ring, show t - (t - b) = b by ring]
  have hab' : a ≤ b := hab.le
  have e1 : ∫ x in a..b, Wave.rate (.ramp ⟨a, b, e⟩) x
      = ∫ x in (min (a + e) b)..b, (-1 / (b - a) : ℝ) := by
    rw [intervalIntegral.integral_of_le hab', intervalIntegral.integral_of_le (min_le_right _ _),
      integral_Ioc_eq_integral_Ioo, integral_Ioc_eq_integral_Ioo]
    have e2 : ∫ x in Set.Ioo (min (a + e) b) b, (-1 / (b - a) : ℝ)
        = ∫ x in Set.Ioo (min (a + e) b) b, Wave.rate (.ramp ⟨a, b, e⟩) x := by
      refine setIntegral_congr_fun measurableSet_Ioo fun x hx => ?_
      simp only [Wave.rate, RampOff.evalDeriv]
      have : a + e < x := by
        rcases min_lt_iff.1 hx.1 with h | h
        · exact h
        · exact absurd h (not_lt.2 hx.2.le)
      rw [if_pos ⟨hx.2, by linarith⟩]
    rw [e2]
    refine setIntegral_eq_of_subset_of_ae_sdiff_eq_zero measurableSet_Ioo.nullMeasurableSet
      (Set.Ioo_subset_Ioo_left (le_min (by linarith) hab')) ?_
    have hz : ∀ᵐ x : ℝ, x ≠ a + e := by simp [ae_iff]
    filter_upwards [hz] with x hx hx'
    simp only [Wave.rate, RampOff.evalDeriv]
    rw [if_neg]
    rintro ⟨h1, h2⟩
    exact hx'.2 ⟨min_lt_of_left_lt (lt_of_le_of_ne (by linarith) hx.symm), h1⟩
  rw [e1, intervalIntegral.integral_const, smul_eq_mul]
  rcases le_total (a + e) b with hc | hc
  · rw [min_eq_left hc, min_eq_left (by linarith)]; field_simp; ring
  · rw [min_eq_right hc, min_eq_right (by linarith)]; field_simp; ring

/-- **C178**: `VTEMFun` is the VTEM waveform. -/
theorem C178_vtem_function (w : VTEM) (t : ℝ) : vtemFun t w.peak w.off w.rate = w.eval t := by
  unfold vtemFun VTEM.eval
  by_cases h : t ≤ w.peak
  · rw [if_neg (fun c => absurd c.1 (not_lt.2 h)), if_pos h, if_pos h]
  · rw [if_neg h, if_neg h]
    by_cases h2 : t < w.off
    · rw [if_pos ⟨not_le.1 h, h2⟩, if_pos ⟨h2, not_le.1 h⟩]
    · rw [if_neg (fun c => h2 c.2), if_neg (fun c => h2 c.1)]

/-- A ramp from -1 to 0 of the response `2 s`: at time 1 the mean of `2 s` from 1 to 2 is 3. -/
example : convolve (fun s => 2 * s) (.ramp ⟨-1, 0, 0⟩) [1] = .ok [3] := by
  have h : RampOff.build (-1) 0 0 = .ok ⟨-1, 0, 0⟩ := by unfold RampOff.build; norm_num
  have hF : Integral (fun s => 2 * s) (fun s => s ^ 2) :=
    ⟨(by fun_prop), fun s _ => by simpa using hasDerivAt_pow 2 s,
      fun a b _ _ => (by fun_prop : Continuous fun s : ℝ => 2 * s).intervalIntegrable a b⟩
  rw [C178_ramp_partial h hF]
  norm_num

/-- The hypotheses of `C178_superposition` for this ramp and response. -/
example (t a b : ℝ) : IntervalIntegrable
    (fun s => Wave.rate (.ramp ⟨-1, 0, 0⟩) (t - s) * (2 * s)) volume a b := by
  have hd : Measurable (fun s => Wave.rate (.ramp ⟨-1, 0, 0⟩) (t - s)) := by
    unfold Wave.rate RampOff.evalDeriv
    refine Measurable.ite ?_ measurable_const measurable_const
    exact MeasurableSet.inter
      (measurableSet_lt (f := fun s : ℝ => t - s) (g := fun _ => (0 : ℝ)) (by fun_prop) (by fun_prop))
      (measurableSet_le (f := fun _ => (0 : ℝ)) (g := fun s : ℝ => t - s - (-1)) (by fun_prop) (by fun_prop))
  have hc : IntervalIntegrable (fun s : ℝ => 2 * s) volume a b :=
    (by fun_prop : Continuous fun s : ℝ => 2 * s).intervalIntegrable a b
  rw [intervalIntegrable_iff] at hc ⊢
  refine hc.bdd_mul (c := 1) hd.aestronglyMeasurable (Filter.Eventually.of_forall fun s => ?_)
  unfold Wave.rate RampOff.evalDeriv
  simp only
  split_ifs <;> norm_num

/-- With the default settings a static response loses nothing; with `epsilon` half the ramp it loses half. -/
example : convolve (fun _ => 1) (.ramp ⟨-2, 0, 1⟩) [1] = .ok [1 / 2] := by
  have h : RampOff.build (-2) 0 1 = .ok ⟨-2, 0, 1⟩ := by unfold RampOff.build; norm_num
  rw [C178_violated_ramp h 1 (by norm_num)]
  norm_num

example : Covered (.trapezoid ⟨0, 1, 2, 3, 3⟩) ∧
    Charge (Wave.trapezoid ⟨0, 1, 2, 3, 3⟩).current (Wave.trapezoid ⟨0, 1, 2, 3, 3⟩).rate :=
  ⟨.trapezoid _, C77_charge_trapezoid _ ⟨by norm_num, by norm_num, by norm_num⟩⟩

end Props
end
end Verif.TDEM.Convolve
