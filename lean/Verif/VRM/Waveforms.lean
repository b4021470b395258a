import Verif.Basic
import Mathlib.Analysis.SpecialFunctions.Log.Deriv
import Mathlib.Analysis.SpecialFunctions.Trigonometric.Basic
import Mathlib.MeasureTheory.Integral.IntervalIntegral.FundThmCalculus
import Mathlib.MeasureTheory.Integral.IntervalIntegral.Basic
import Mathlib.Topology.Algebra.Order.Field
import Mathlib.Algebra.Order.Floor.Ring
import Mathlib.Tactic.Linarith
import Mathlib.Tactic.Ring
import Mathlib.Tactic.NormNum
import Mathlib.Tactic.FieldSimp
import Mathlib.Tactic.Positivity

/-!
C138: the characteristic decay of the waveforms of viscous remanent magnetization
(`simpeg/electromagnetics/viscous_remanent_magnetization/waveforms.py`). Arrays are lists of
reals; rounding is not modelled.
-/

noncomputable section
namespace Verif.VRM
open Verif

/-- The field types a VRM receiver may have
(`simpeg/electromagnetics/viscous_remanent_magnetization/receivers.py` 95-100). -/
inductive FT
  | h
  | b
  | dhdt
  | dbdt
  deriving DecidableEq

/-- `mu0 = 4 * np.pi * 1e-7` (`waveforms.py` 81, 224, 454). -/
def mu0 : ℝ := 4 * Real.pi * 1e-7

/-- `np.min` of a vector: the minimum of an empty vector raises `ValueError`. -/
def npMin : List ℝ → Except Err ℝ
  | [] => .error .valueError
  | x :: l => .ok (l.foldr min x)

/-- `np.max` of a vector. -/
def npMax : List ℝ → Except Err ℝ
  | [] => .error .valueError
  | x :: l => .ok (l.foldr max x)

/-! ### Step-off and square pulse -/

/-- The value of `StepOff.getCharDecay` at one time (`waveforms.py` 80-84). -/
def stepEta (t0 : ℝ) (ft : FT) (t : ℝ) : ℝ :=
  match ft with
  | .dbdt => -mu0 / (t - t0)
  | _ => -1 / (t - t0)

/-- `StepOff.getCharDecay` (`waveforms.py` 70-86): the field types are validated against
`["dhdt", "dbdt"]` and the times against the beginning of the off-time. -/
def stepChar (t0 : ℝ) (ft : FT) (times : List ℝ) : Except Err (List ℝ) :=
  if ft = .h ∨ ft = .b then .error .valueError
  else
    match npMin times with
    | .error e => .error e
    | .ok m => if t0 ≥ m then .error .valueError else .ok (times.map (stepEta t0 ft))

/-- The value of `SquarePulse.getCharDecay` at one time (`waveforms.py` 226-233). -/
def pulseEta (delt t0 : ℝ) (ft : FT) (t : ℝ) : ℝ :=
  match ft with
  | .h => Real.log (1 + delt / (t - t0))
  | .b => mu0 * Real.log (1 + delt / (t - t0))
  | .dhdt => -(1 / (t - t0) - 1 / (t - t0 + delt))
  | .dbdt => -mu0 * (1 / (t - t0) - 1 / (t - t0 + delt))

/-- `SquarePulse.getCharDecay` (`waveforms.py` 214-235). -/
def pulseChar (delt t0 : ℝ) (ft : FT) (times : List ℝ) : Except Err (List ℝ) :=
  match npMin times with
  | .error e => .error e
  | .ok m => if t0 ≥ m then .error .valueError else .ok (times.map (pulseEta delt t0 ft))

/-! ### Waveforms given by samples -/

/-- One entry of the vectors `dt`, `tvec`, `g[0:-1]`, `g[1:]` (`waveforms.py` 432-452). -/
structure Seg where
  dt : ℝ
  tk : ℝ
  g0 : ℝ
  g1 : ℝ

/-- The term summed for the field types `h` and `b` (`waveforms.py` 440-443, 523-526). -/
def termH (t : ℝ) (s : Seg) : ℝ :=
  (s.g1 + (s.g1 - s.g0) * (t - s.tk) / s.dt) * Real.log (1 + s.dt / (t - s.tk)) - s.g1 + s.g0

/-- The term summed for the field types `dhdt` and `dbdt` (`waveforms.py` 447-449, 530-532). -/
def termD (t : ℝ) (s : Seg) : ℝ :=
  (s.g1 - s.g0) / s.dt * Real.log (1 + s.dt / (t - s.tk))
    - (s.g1 + (s.g1 - s.g0) * (t - s.tk) / s.dt) * (1 / (t - s.tk + s.dt) - 1 / (t - s.tk))

/-- The vectors of the sum, entry by entry. Vectors of other lengths than those arising are not
modelled: an empty `tvec` meets a `g` of at most two entries and broadcasts to an empty vector. -/
def segs : List ℝ → List ℝ → List ℝ → List Seg
  | dt :: ds, tk :: ts, g0 :: g1 :: gs => ⟨dt, tk, g0, g1⟩ :: segs ds ts (g1 :: gs)
  | _, _, _ => []

/-- `eta[tt]` (`waveforms.py` 436-455, 519-538). -/
def etaSum (ft : FT) (ss : List Seg) (t : ℝ) : ℝ :=
  match ft with
  | .h => (ss.map (termH t)).sum
  | .b => mu0 * (ss.map (termH t)).sum
  | .dhdt => (ss.map (termD t)).sum
  | .dbdt => mu0 * (ss.map (termD t)).sum

/-- `np.where(self.I_wave > 1e-10)[0]`, counted from `i` (`waveforms.py` 415, 509). -/
def onIdx : ℕ → List ℝ → List ℕ
  | _, [] => []
  | i, x :: xs => if x > 1e-10 then i :: onIdx (i + 1) xs else onIdx (i + 1) xs

/-- The slice `l[j:e]` of Python: a negative `j` counts from the end. -/
def pySlice {α : Type} (l : List α) (j : ℤ) (e : ℕ) : List α :=
  (l.take e).drop (if j < 0 then (l.length + j).toNat else j.toNat)

/-- The window of the samples in use (`waveforms.py` 415-420, 509-513), with
`j = k[0][0] - 1`, `k = k[0][-1] + 1` and the slice `j : k + 1`. -/
def window (tw I : List ℝ) : Except Err (List ℝ × List ℝ) :=
  match (onIdx 0 I).head?, (onIdx 0 I).getLast? with
  | some a, some b => .ok (pySlice tw ((a : ℤ) - 1) (b + 1 + 1), pySlice I ((a : ℤ) - 1) (b + 1 + 1))
  | _, _ => .error .indexError

/-- `I / np.max(np.abs(I))` (`waveforms.py` 420, 515). -/
def normalise (I : List ℝ) : Except Err (List ℝ) :=
  match npMax (I.map fun x => |x|) with
  | .error e => .error e
  | .ok m => .ok (I.map fun x => x / m)

/-- `tvec[1:] - tvec[0:-1]` (`waveforms.py` 514). -/
def diffs : List ℝ → List ℝ
  | a :: b :: l => (b - a) :: diffs (b :: l)
  | _ => []

/-- `ArbitraryPiecewise.getCharDecay` (`waveforms.py` 499-540). -/
def piecewiseChar (tw I : List ℝ) (ft : FT) (times : List ℝ) : Except Err (List ℝ) :=
  match npMax tw, npMin times with
  | .ok tm, .ok m =>
    if tm ≥ m then .error .valueError
    else
      match window tw I with
      | .error e => .error e
      | .ok (tv, Iw) =>
        match normalise Iw with
        | .error e => .error e
        | .ok g => .ok (times.map (etaSum ft (segs (diffs tv) tv.tail g)))
  | .error e, _ => .error e
  | _, .error e => .error e

/-- `np.interp(x, xp, fp)` for increasing `xp`. -/
def interp : List ℝ → List ℝ → ℝ → ℝ
  | a :: b :: ts, ga :: gb :: gs, x =>
    if x ≤ a then ga
    else if x ≤ b then ga + (gb - ga) / (b - a) * (x - a)
    else interp (b :: ts) (gb :: gs) x
  | _, ga :: _, _ => ga
  | _, [], _ => 0

/-- `np.linspace(lo, hi, n + 1)` for `n ≥ 1`; `[lo]` for `n = 0`. -/
def linspace (lo hi : ℝ) (n : ℕ) : List ℝ :=
  (List.range (n + 1)).map fun i : ℕ => lo + (hi - lo) / n * i

/-- `n_pts` (`waveforms.py` 422-425). -/
def nPts (lo hi m : ℝ) : ℤ :=
  let n := ⌈25 * (hi - lo) / m⌉
  if n > 25000 then 25000 else n

/-- `g` of `ArbitraryDiscrete` (`waveforms.py` 430): the ends are the ends of the window, the
interior is interpolated. -/
def gSamples (tv Iw tvec : List ℝ) : List ℝ :=
  Iw.head?.toList ++ (tvec.tail.dropLast.map (interp tv Iw)) ++ Iw.getLast?.toList

/-- `ArbitraryDiscrete.getCharDecay` (`waveforms.py` 412-457). A least time of zero makes
`int(np.ceil(inf))` raise; a negative number of points makes `np.linspace` raise; no or one point
leave empty vectors, whose sum is zero. -/
def discreteChar (tw I : List ℝ) (ft : FT) (times : List ℝ) : Except Err (List ℝ) :=
  match window tw I with
  | .error e => .error e
  | .ok (tv, Iw) =>
    match normalise Iw, npMin tv, npMax tv, npMin times with
    | .ok g, .ok lo, .ok hi, .ok m =>
      if m = 0 then .error .exception
      else if nPts lo hi m + 1 < 0 then .error .valueError
      else
        let n := (nPts lo hi m).toNat
        let tvec := linspace lo hi n
        .ok (times.map (etaSum ft
          (segs (List.replicate n ((hi - lo) / n)) tvec.tail (gSamples tv g tvec))))
    | _, _, _, _ => .error .valueError

namespace Props

/-! ### Tools -/

theorem npMin_le {l : List ℝ} {m : ℝ} (h : npMin l = .ok m) : ∀ t ∈ l, m ≤ t := by
  cases l with
  | nil => simp [npMin] at h
  | cons x l =>
    simp only [npMin, Except.ok.injEq] at h
    subst h
    have hx : ∀ l : List ℝ, l.foldr min x ≤ x := by
      intro l
      induction l with
      | nil => simp
      | cons y l ih => simp [ih]
    have hl : ∀ l : List ℝ, ∀ t ∈ l, l.foldr min x ≤ t := by
      intro l
      induction l with
      | nil => simp
      | cons y l ih =>
        intro t ht
        rcases List.mem_cons.1 ht with rfl | ht
        · simp
        · simp [ih t ht]
    intro t ht
    rcases List.mem_cons.1 ht with rfl | ht
    · exact hx l
    · exact hl l t ht

theorem npMin_mem {l : List ℝ} {m : ℝ} (h : npMin l = .ok m) : m ∈ l := by
  cases l with
  | nil => simp [npMin] at h
  | cons x l =>
    simp only [npMin, Except.ok.injEq] at h
    subst h
    have : ∀ l : List ℝ, l.foldr min x = x ∨ l.foldr min x ∈ l := by
      intro l
      induction l with
      | nil => simp
      | cons y l ih =>
        rcases min_choice y (l.foldr min x) with h | h
        · right; simp [h]
        · simp only [List.foldr_cons, h]
          rcases ih with h | h
          · exact .inl h
          · exact .inr (List.mem_cons_of_mem _ h)
    rcases this l with h | h
    · simp [h]
    · exact List.mem_cons_of_mem _ h

theorem npMin_nonempty {l : List ℝ} (h : l ≠ []) : ∃ m, npMin l = .ok m := by
  cases l with
  | nil => simp at h
  | cons x l => exact ⟨_, rfl⟩

theorem npMax_ge {l : List ℝ} {m : ℝ} (h : npMax l = .ok m) : ∀ t ∈ l, t ≤ m := by
  cases l with
  | nil => simp [npMax] at h
  | cons x l =>
    simp only [npMax, Except.ok.injEq] at h
    subst h
    have hx : ∀ l : List ℝ, x ≤ l.foldr max x := by
      intro l
      induction l with
      | nil => simp
      | cons y l ih => simp [ih]
    have hl : ∀ l : List ℝ, ∀ t ∈ l, t ≤ l.foldr max x := by
      intro l
      induction l with
      | nil => simp
      | cons y l ih =>
        intro t ht
        rcases List.mem_cons.1 ht with rfl | ht
        · simp
        · simp [ih t ht]
    intro t ht
    rcases List.mem_cons.1 ht with rfl | ht
    · exact hx l
    · exact hl l t ht

theorem npMax_mem {l : List ℝ} {m : ℝ} (h : npMax l = .ok m) : m ∈ l := by
  cases l with
  | nil => simp [npMax] at h
  | cons x l =>
    simp only [npMax, Except.ok.injEq] at h
    subst h
    have : ∀ l : List ℝ, l.foldr max x = x ∨ l.foldr max x ∈ l := by
      intro l
      induction l with
      | nil => simp
      | cons y l ih =>
        rcases max_choice y (l.foldr max x) with h | h
        · right; simp [h]
        · simp only [List.foldr_cons, h]
          rcases ih with h | h
          · exact .inl h
          · exact .inr (List.mem_cons_of_mem _ h)
    rcases this l with h | h
    · simp [h]
    · exact List.mem_cons_of_mem _ h

/-- The integral of a linear waveform over one segment. -/
theorem seg_integral {a b t ga gb : ℝ} (hab : a < b) (hbt : b < t) :
    ∫ x in a..b, (ga + (gb - ga) / (b - a) * (x - a)) / (t - x) = termH t ⟨b - a, b, ga, gb⟩ := by
  set s := (gb - ga) / (b - a) with hs
  have hba : b - a ≠ 0 := by linarith
  have hd : ∀ x ∈ Set.uIcc a b, HasDerivAt
      (fun x => -(ga + s * (t - a)) * Real.log (t - x) - s * x)
      ((ga + s * (x - a)) / (t - x)) x := by
    intro x hx
    rw [Set.uIcc_of_le hab.le] at hx
    have htx : t - x ≠ 0 := by linarith [hx.2]
    have h1 : HasDerivAt (fun x => t - x) (-1) x := by simpa using (hasDerivAt_id x).const_sub t
    have h2 := (h1.log htx).const_mul (-(ga + s * (t - a)))
    have h3 := h2.sub ((hasDerivAt_id x).const_mul s)
    refine h3.congr_deriv ?_
    field_simp
    ring
  rw [intervalIntegral.integral_eq_sub_of_hasDerivAt hd]
  · have h1 : t - b ≠ 0 := by linarith
    have h2 : 1 + (b - a) / (t - b) = (t - a) / (t - b) := by field_simp; ring
    have h3 : Real.log (1 + (b - a) / (t - b)) = Real.log (t - a) - Real.log (t - b) := by
      rw [h2, Real.log_div (by linarith) h1]
    have hsb : s * (b - a) = gb - ga := by rw [hs]; field_simp
    have h4 : (gb - ga) * (t - b) / (b - a) = s * (t - b) := by rw [hs]; ring
    simp only [termH]
    rw [h3, h4]
    have : gb = ga + s * (b - a) := by linarith
    rw [this]
    ring
  · apply ContinuousOn.intervalIntegrable
    intro x hx
    rw [Set.uIcc_of_le hab.le] at hx
    have htx : t - x ≠ 0 := by linarith [hx.2]
    apply ContinuousAt.continuousWithinAt
    fun_prop (disch := assumption)

/-- The times after `a` increase and end before `t`. -/
def Chain : ℝ → List ℝ → ℝ → Prop
  | a, [], t => a < t
  | a, b :: ts, t => a < b ∧ Chain b ts t

theorem Chain.lt {a t : ℝ} {ts : List ℝ} (h : Chain a ts t) : a < t := by
  induction ts generalizing a with
  | nil => exact h
  | cons b ts ih => exact h.1.trans (ih h.2)

theorem Chain.getLast_lt {a t : ℝ} {ts : List ℝ} (h : Chain a ts t) :
    (a :: ts).getLast (by simp) < t ∧ a ≤ (a :: ts).getLast (by simp) := by
  induction ts generalizing a with
  | nil => exact ⟨h, le_refl _⟩
  | cons b ts ih =>
    have := ih h.2
    rw [List.getLast_cons (by simp)]
    exact ⟨this.1, h.1.le.trans this.2⟩

theorem Chain.mono {a t t' : ℝ} {ts : List ℝ} (h : Chain a ts t) (htt : t ≤ t') :
    Chain a ts t' := by
  induction ts generalizing a with
  | nil => exact lt_of_lt_of_le h htt
  | cons b ts ih => exact ⟨h.1, ih h.2⟩

theorem interp_integrable {a t ga : ℝ} (ts gs : List ℝ) (hc : Chain a ts t)
    (hl : ts.length = gs.length) :
    IntervalIntegrable (fun x => interp (a :: ts) (ga :: gs) x / (t - x)) MeasureTheory.volume a
      ((a :: ts).getLast (by simp)) ∧
    ∫ x in a..(a :: ts).getLast (by simp), interp (a :: ts) (ga :: gs) x / (t - x) =
      ((segs (diffs (a :: ts)) ts (ga :: gs)).map (termH t)).sum := by
  induction ts generalizing a ga gs with
  | nil => simp [segs, diffs]
  | cons b ts ih =>
    cases gs with
    | nil => simp at hl
    | cons gb gs =>
      have ih' := ih (a := b) (ga := gb) gs hc.2 (by simpa using hl)
      have hbt := hc.2.lt
      have hab := hc.1
      have hle := hc.2.getLast_lt.2
      have hlast : (a :: b :: ts).getLast (by simp) = (b :: ts).getLast (by simp) :=
        List.getLast_cons (by simp)
      rw [hlast]
      set e := (b :: ts).getLast (by simp) with he
      have hint : IntervalIntegrable (fun x => (ga + (gb - ga) / (b - a) * (x - a)) / (t - x))
          MeasureTheory.volume a b := by
        apply ContinuousOn.intervalIntegrable
        intro x hx
        rw [Set.uIcc_of_le hab.le] at hx
        have htx : t - x ≠ 0 := by linarith [hx.2]
        apply ContinuousAt.continuousWithinAt
        fun_prop (disch := assumption)
      have e1 : Set.EqOn (fun x => (ga + (gb - ga) / (b - a) * (x - a)) / (t - x))
          (fun x => interp (a :: b :: ts) (ga :: gb :: gs) x / (t - x)) (Set.uIoc a b) := by
        intro x hx
        rw [Set.uIoc_of_le hab.le] at hx
        simp only [interp]
        rw [if_neg (not_le.2 hx.1), if_pos hx.2]
      have e2 : Set.EqOn (fun x => interp (b :: ts) (gb :: gs) x / (t - x))
          (fun x => interp (a :: b :: ts) (ga :: gb :: gs) x / (t - x)) (Set.uIoc b e) := by
        intro x hx
        rw [Set.uIoc_of_le hle] at hx
        simp only [interp]
        rw [if_neg (not_le.2 (hab.trans hx.1)), if_neg (not_le.2 hx.1)]
      have i1 := hint.congr e1
      have i2 := ih'.1.congr e2
      refine ⟨i1.trans i2, ?_⟩
      rw [← intervalIntegral.integral_add_adjacent_intervals i1 i2]
      have j1 := intervalIntegral.integral_congr_ae (μ := MeasureTheory.volume) (a := a) (b := b)
        (Filter.Eventually.of_forall fun x hx => (e1 hx).symm)
      have j2 := intervalIntegral.integral_congr_ae (μ := MeasureTheory.volume) (a := b) (b := e)
        (Filter.Eventually.of_forall fun x hx => (e2 hx).symm)
      rw [j1, j2, ih'.2, seg_integral hab hbt]
      simp [segs, diffs]

/-- The rate of change of the term of one segment: the code has the sign of its second part
reversed, which changes it by twice the difference of the ends. -/
theorem seg_rate {a b t ga gb : ℝ} (hab : a < b) (hbt : b < t) :
    HasDerivAt (fun t => termH t ⟨b - a, b, ga, gb⟩)
      (termD t ⟨b - a, b, ga, gb⟩ + 2 * (ga / (t - a) - gb / (t - b))) t := by
  have h1 : t - b ≠ 0 := by linarith
  have h2 : t - a ≠ 0 := by linarith
  have h3 : b - a ≠ 0 := by linarith
  have h4 : 1 + (b - a) / (t - b) ≠ 0 := by
    have : 1 + (b - a) / (t - b) = (t - a) / (t - b) := by field_simp; ring
    rw [this]
    exact div_ne_zero h2 h1
  have d1 : HasDerivAt (fun t => t - b) 1 t := by simpa using (hasDerivAt_id t).sub_const b
  have d2 : HasDerivAt (fun t => 1 + (b - a) / (t - b)) (-(b - a) / (t - b) ^ 2) t := by
    have := ((hasDerivAt_const t (b - a)).div d1 h1).const_add 1
    exact this.congr_deriv (by simp)
  have d3 := d2.log h4
  have d4 : HasDerivAt (fun t => gb + (gb - ga) * (t - b) / (b - a)) ((gb - ga) / (b - a)) t := by
    have := ((d1.const_mul (gb - ga)).div_const (b - a)).const_add gb
    exact this.congr_deriv (by simp)
  have d5 := ((d4.mul d3).sub_const gb).add_const ga
  refine d5.congr_deriv ?_
  simp only [termD]
  have h5 : t - b + (b - a) = t - a := by ring
  have h6 : 1 + (b - a) / (t - b) = (t - a) / (t - b) := by field_simp; ring
  rw [h5, h6]
  generalize Real.log ((t - a) / (t - b)) = L
  field_simp
  ring

theorem rate_sum {a t ga : ℝ} (ts gs : List ℝ) (hc : Chain a ts t) (hl : ts.length = gs.length) :
    HasDerivAt (fun t => ((segs (diffs (a :: ts)) ts (ga :: gs)).map (termH t)).sum)
      (((segs (diffs (a :: ts)) ts (ga :: gs)).map (termD t)).sum
        + 2 * (ga / (t - a) - (ga :: gs).getLast (by simp) / (t - (a :: ts).getLast (by simp)))) t := by
  induction ts generalizing a ga gs with
  | nil =>
    cases gs with
    | nil => simpa [segs, diffs] using hasDerivAt_const t (0 : ℝ)
    | cons _ _ => simp at hl
  | cons b ts ih =>
    cases gs with
    | nil => simp at hl
    | cons gb gs =>
      have ih' := ih (a := b) (ga := gb) gs hc.2 (by simpa using hl)
      have h1 := seg_rate (ga := ga) (gb := gb) hc.1 hc.2.lt
      simp only [segs, diffs, List.map_cons, List.sum_cons]
      refine (h1.add ih').congr_deriv ?_
      rw [List.getLast_cons (a := ga) (by simp), List.getLast_cons (a := a) (by simp)]
      ring

/-! #### The window -/

theorem onIdx_append (i : ℕ) (l l' : List ℝ) :
    onIdx i (l ++ l') = onIdx i l ++ onIdx (i + l.length) l' := by
  induction l generalizing i with
  | nil => simp [onIdx]
  | cons x l ih =>
    simp only [List.cons_append, onIdx, ih, List.length_cons]
    have : i + 1 + l.length = i + (l.length + 1) := by omega
    rw [this]
    split <;> simp

theorem onIdx_off (i : ℕ) (l : List ℝ) (h : ∀ x ∈ l, x ≤ 1e-10) : onIdx i l = [] := by
  induction l generalizing i with
  | nil => rfl
  | cons x l ih =>
    rw [onIdx, if_neg (not_lt.2 (h x (by simp))), ih _ fun y hy => h y (List.mem_cons_of_mem _ hy)]

theorem onIdx_head (i : ℕ) (l : List ℝ) {x : ℝ} (hx : l.head? = some x) (h : x > 1e-10) :
    (onIdx i l).head? = some i := by
  cases l with
  | nil => simp at hx
  | cons y l =>
    simp only [List.head?_cons, Option.some.injEq] at hx
    subst hx
    simp [onIdx, h]

theorem onIdx_last (i : ℕ) (l : List ℝ) {x : ℝ} (hx : l.getLast? = some x) (h : x > 1e-10) :
    (onIdx i l).getLast? = some (i + (l.length - 1)) := by
  obtain ⟨l', rfl⟩ : ∃ l', l = l' ++ [x] := by
    have := List.getLast?_eq_some_iff.1 hx
    exact this
  rw [onIdx_append]
  simp [onIdx, h]

/-- Samples with a part in use: before it and after it there is at least one sample, and no sample
exceeds `1e-10`; its first and last samples do. -/
structure Split (I pre on post : List ℝ) (z z' : ℝ) : Prop where
  eq : I = pre ++ (z :: on ++ [z']) ++ post
  pre_off : ∀ x ∈ pre, x ≤ 1e-10
  post_off : ∀ x ∈ post, x ≤ 1e-10
  z_off : z ≤ 1e-10
  z'_off : z' ≤ 1e-10
  first : ∃ x, on.head? = some x ∧ x > 1e-10
  last : ∃ x, on.getLast? = some x ∧ x > 1e-10

theorem window_split {tw I pre on post : List ℝ} {z z' : ℝ} (h : Split I pre on post z z') :
    window tw I = .ok ((tw.drop pre.length).take (on.length + 2), z :: on ++ [z']) := by
  obtain ⟨x, hx, hxp⟩ := h.first
  obtain ⟨y, hy, hyp⟩ := h.last
  have hne : on ≠ [] := by rintro rfl; simp at hx
  have hlen : 0 < on.length := List.length_pos_iff.2 hne
  have e : onIdx 0 I = onIdx (pre.length + 1) on := by
    rw [h.eq, show pre ++ (z :: on ++ [z']) ++ post = (pre ++ [z]) ++ on ++ (z' :: post) by simp,
      onIdx_append, onIdx_append, onIdx_off 0 (pre ++ [z]), onIdx_off _ (z' :: post)]
    · simp
    · intro x hx
      rcases List.mem_cons.1 hx with rfl | hx
      · exact h.z'_off
      · exact h.post_off x hx
    · intro x hx
      rcases List.mem_append.1 hx with hx | hx
      · exact h.pre_off x hx
      · rw [List.mem_singleton.1 hx]; exact h.z_off
  have e1 := onIdx_head (pre.length + 1) on hx hxp
  have e2 := onIdx_last (pre.length + 1) on hy hyp
  unfold window
  rw [e, e1, e2]
  simp only [pySlice]
  have c1 : ¬ (((pre.length + 1 : ℕ) : ℤ) - 1 < 0) := by push_cast; omega
  have c2 : (((pre.length + 1 : ℕ) : ℤ) - 1).toNat = pre.length := by push_cast; omega
  rw [if_neg c1, if_neg c1, c2]
  have c3 : pre.length + 1 + (on.length - 1) + 1 + 1 = pre.length + (on.length + 2) := by omega
  rw [c3, List.drop_take, List.drop_take, Nat.add_sub_cancel_left, h.eq]
  congr 2
  rw [List.append_assoc, List.drop_left, List.take_left']
  simp

/-! #### Leading and trailing zeros, and scaling -/

def total (f : Seg → ℝ) (ts gs : List ℝ) : ℝ := ((segs (diffs ts) ts.tail gs).map f).sum

theorem total_short (f : Seg → ℝ) (ts : List ℝ) (x : ℝ) : total f ts [x] = 0 := by
  rcases ts with - | ⟨a, - | ⟨b, ts⟩⟩ <;> simp [total, segs, diffs]

theorem total_zeros (f : Seg → ℝ) (hf : ∀ dt tk, f ⟨dt, tk, 0, 0⟩ = 0) (ts : List ℝ) (k : ℕ) :
    total f ts (List.replicate k 0) = 0 := by
  induction k generalizing ts with
  | zero => rcases ts with - | ⟨a, - | ⟨b, ts⟩⟩ <;> simp [total, segs, diffs]
  | succ k ih =>
    cases k with
    | zero => exact total_short f ts 0
    | succ k =>
      rcases ts with - | ⟨a, - | ⟨b, ts⟩⟩
      · simp [total, segs, diffs]
      · simp [total, segs, diffs]
      · have := ih (b :: ts)
        simp only [total, List.tail_cons, diffs, List.replicate_succ, segs, List.map_cons,
          List.sum_cons, hf] at this ⊢
        rw [this, zero_add]

theorem total_lead (f : Seg → ℝ) (hf : ∀ dt tk, f ⟨dt, tk, 0, 0⟩ = 0) (ts gs : List ℝ) (k : ℕ) :
    total f ts (List.replicate k 0 ++ 0 :: gs) = total f (ts.drop k) (0 :: gs) := by
  induction k generalizing ts with
  | zero => simp
  | succ k ih =>
    rcases ts with - | ⟨a, - | ⟨b, ts⟩⟩
    · simp [total, segs, diffs]
    · cases k <;> simp [total, segs, diffs]
    · rw [List.drop_succ_cons, ← ih (b :: ts)]
      cases k with
      | zero => simp [total, segs, diffs, hf]
      | succ k => simp [total, segs, diffs, hf, List.replicate_succ]

theorem total_trail (f : Seg → ℝ) (hf : ∀ dt tk, f ⟨dt, tk, 0, 0⟩ = 0) (ts gs : List ℝ) (k : ℕ) :
    total f ts (gs ++ 0 :: List.replicate k 0) = total f (ts.take (gs.length + 1)) (gs ++ [0]) := by
  induction gs generalizing ts with
  | nil =>
    have := total_zeros f hf ts (k + 1)
    rw [List.replicate_succ] at this
    simp [this, total_short]
  | cons g gs ih =>
    rcases ts with - | ⟨a, - | ⟨b, ts⟩⟩
    · simp [total, segs, diffs]
    · simp [total, segs, diffs]
    · have := ih (b :: ts)
      cases gs with
      | nil => simp [total, segs, diffs] at this ⊢; exact this
      | cons g' gs => simp [total, segs, diffs] at this ⊢; exact this

theorem total_div (f : Seg → ℝ) (m : ℝ) (hf : ∀ dt tk g0 g1,
    f ⟨dt, tk, g0 / m, g1 / m⟩ = f ⟨dt, tk, g0, g1⟩ / m) (ts gs : List ℝ) :
    total f ts (gs.map fun x => x / m) = total f ts gs / m := by
  induction gs generalizing ts with
  | nil => rcases ts with - | ⟨a, - | ⟨b, ts⟩⟩ <;> simp [total, segs, diffs]
  | cons g gs ih =>
    rcases ts with - | ⟨a, - | ⟨b, ts⟩⟩
    · simp [total, segs, diffs]
    · simp [total, segs, diffs]
    · have := ih (b :: ts)
      cases gs with
      | nil => simp [total, segs, diffs]
      | cons g' gs =>
        simp only [total, segs, diffs, List.map_cons, List.sum_cons, List.tail_cons, hf] at this ⊢
        rw [this]
        ring

theorem termH_zero (t dt tk : ℝ) : termH t ⟨dt, tk, 0, 0⟩ = 0 := by simp [termH]

theorem termD_zero (t dt tk : ℝ) : termD t ⟨dt, tk, 0, 0⟩ = 0 := by simp [termD]

theorem termH_div (t m dt tk g0 g1 : ℝ) :
    termH t ⟨dt, tk, g0 / m, g1 / m⟩ = termH t ⟨dt, tk, g0, g1⟩ / m := by
  simp only [termH]; ring

theorem termD_div (t m dt tk g0 g1 : ℝ) :
    termD t ⟨dt, tk, g0 / m, g1 / m⟩ = termD t ⟨dt, tk, g0, g1⟩ / m := by
  simp only [termD]; ring

theorem chain_of {a t : ℝ} {ts : List ℝ} (hs : (a :: ts).Pairwise (· < ·))
    (ht : ∀ s ∈ a :: ts, s < t) : Chain a ts t := by
  induction ts generalizing a with
  | nil => exact ht a (by simp)
  | cons b ts ih =>
    rw [List.pairwise_cons] at hs
    exact ⟨hs.1 b (by simp), ih hs.2 fun s h => ht s (List.mem_cons_of_mem _ h)⟩

/-- The decay after the waveform which is `I` at the times `a :: ts`, linear between them, and
whose largest magnitude is `M`: the convolution with `1 / t`. -/
def decay (a : ℝ) (ts I : List ℝ) (M t : ℝ) : ℝ :=
  (∫ x in a..(a :: ts).getLast (by simp), interp (a :: ts) I x / (t - x)) / M

theorem decay_eq {a t M ga : ℝ} {ts gs : List ℝ} (hc : Chain a ts t) (hl : ts.length = gs.length) :
    decay a ts (ga :: gs) M t = total (termH t) (a :: ts) (ga :: gs) / M := by
  rw [decay, (interp_integrable ts gs hc hl).2]
  rfl

theorem decay_rate {a t M ga : ℝ} {ts gs : List ℝ} (hc : Chain a ts t)
    (hl : ts.length = gs.length) :
    HasDerivAt (decay a ts (ga :: gs) M)
      ((total (termD t) (a :: ts) (ga :: gs)
        + 2 * (ga / (t - a) - (ga :: gs).getLast (by simp) / (t - (a :: ts).getLast (by simp)))) / M) t := by
  have h := (rate_sum (ga := ga) ts gs hc hl).div_const M
  refine h.congr_of_eventuallyEq ?_
  have hlast := hc.getLast_lt.1
  have : ∀ᶠ t' in nhds t, (a :: ts).getLast (by simp) < t' := lt_mem_nhds hlast
  have hc' : ∀ t', (a :: ts).getLast (by simp) < t' → Chain a ts t' := by
    clear * - hc
    intro t' ht'
    induction ts generalizing a with
    | nil => exact ht'
    | cons b ts ih =>
      refine ⟨hc.1, ih hc.2 ?_⟩
      rwa [List.getLast_cons (by simp)] at ht'
  filter_upwards [this] with t' ht'
  exact decay_eq (hc' t' ht') hl

theorem off_time {tm m : ℝ} {tw times : List ℝ} (h1 : npMax tw = .ok tm) (h2 : npMin times = .ok m)
    (h : ∀ t ∈ times, ∀ s ∈ tw, s < t) : ¬ tm ≥ m :=
  not_le.2 (h m (npMin_mem h2) tm (npMax_mem h1))

theorem npMax_unique {l' : List ℝ} {m : ℝ} (hne : l' ≠ [])
    (h1 : m ∈ l') (h2 : ∀ x ∈ l', x ≤ m) : npMax l' = .ok m := by
  cases l' with
  | nil => simp at hne
  | cons x l' =>
    have e : npMax (x :: l') = .ok (l'.foldr max x) := rfl
    rw [e]
    congr 1
    exact le_antisymm (h2 _ (npMax_mem e)) (npMax_ge e m h1)

/-- C138. **A waveform that is zero before and after its pulses**, through at least one sample on
each side, with increasing times before all channels: `ArbitraryPiecewise` returns for `h` the
convolution of the whole normalised waveform, linear between its samples, with `1 / t`; for `dhdt`
its rate of change; for `b` and `dbdt` these multiplied by `mu0`. -/
theorem C138_arbitrary {a : ℝ} {ts I on times : List ℝ} {p q : ℕ}
    (hI : I = List.replicate p 0 ++ 0 :: on ++ 0 :: List.replicate q 0)
    (first : ∃ x, on.head? = some x ∧ x > 1e-10) (last : ∃ x, on.getLast? = some x ∧ x > 1e-10)
    (hlen : (a :: ts).length = I.length) (hs : (a :: ts).Pairwise (· < ·)) (hne : times ≠ [])
    (ht : ∀ t ∈ times, ∀ s ∈ a :: ts, s < t) :
    ∃ M > 0, (∃ c ∈ I, |c| = M) ∧ (∀ c ∈ I, |c| ≤ M) ∧
      piecewiseChar (a :: ts) I .h times = .ok (times.map (decay a ts I M)) ∧
      piecewiseChar (a :: ts) I .b times = .ok (times.map fun t => mu0 * decay a ts I M t) ∧
      piecewiseChar (a :: ts) I .dhdt times = .ok (times.map (deriv (decay a ts I M))) ∧
      piecewiseChar (a :: ts) I .dbdt times =
        .ok (times.map fun t => mu0 * deriv (decay a ts I M) t) ∧
      ∀ t ∈ times, DifferentiableAt ℝ (decay a ts I M) t := by
  have hsp : Split I (List.replicate p 0) on (List.replicate q 0) 0 0 := by
    refine ⟨by rw [hI]; simp, ?_, ?_, by norm_num, by norm_num, first, last⟩ <;>
    · intro x hx
      rw [List.eq_of_mem_replicate hx]
      norm_num
  obtain ⟨m, hm⟩ := npMin_nonempty hne
  obtain ⟨tm, htm⟩ : ∃ tm, npMax (a :: ts) = .ok tm := ⟨_, rfl⟩
  obtain ⟨M, hM⟩ : ∃ M, npMax ((0 :: on ++ [0]).map fun x => |x|) = .ok M := ⟨_, rfl⟩
  have hMmem := npMax_mem hM
  have hMge := npMax_ge hM
  rw [List.mem_map] at hMmem
  obtain ⟨c, hc, hcM⟩ := hMmem
  have hsub : ∀ x, x ∈ (0 :: on ++ [0] : List ℝ) → x ∈ I := by
    intro x hx
    rw [hI]
    simp only [List.cons_append, List.mem_cons, List.mem_append, List.not_mem_nil, or_false] at hx ⊢
    rcases hx with rfl | hx | rfl <;> simp [*]
  have hsup : ∀ x ∈ I, x ∈ (0 :: on ++ [0] : List ℝ) := by
    intro x hx
    rw [hI] at hx
    simp only [List.cons_append, List.append_assoc, List.mem_cons, List.mem_append,
      List.mem_replicate, List.not_mem_nil, or_false] at hx ⊢
    rcases hx with hx | hx | hx | hx | hx
    · exact .inl hx.2
    · exact .inl hx
    · exact .inr (.inl hx)
    · exact .inl hx
    · exact .inl hx.2
  have hMpos : 0 < M := by
    obtain ⟨x, hx, hxp⟩ := first
    have hxm : x ∈ on := List.mem_of_head? hx
    have := hMge |x| (List.mem_map_of_mem (by simp [hxm]))
    have : x ≤ |x| := le_abs_self x
    have : (0 : ℝ) < 1e-10 := by norm_num
    linarith
  obtain ⟨gs, hgs⟩ : ∃ gs, I = 0 :: gs := by
    rw [hI]
    cases p with
    | zero => exact ⟨_, rfl⟩
    | succ p => exact ⟨_, rfl⟩
  have hglast : ∀ h, I.getLast h = 0 := by
    intro h
    have e : I = (List.replicate p 0 ++ 0 :: on ++ List.replicate q 0) ++ [0] := by
      rw [hI, show (0 : ℝ) :: List.replicate q 0 = List.replicate (q + 1) 0 from rfl,
        List.replicate_succ', ← List.append_assoc]
    have : I.getLast? = some 0 := by
      rw [e]
      exact List.getLast?_concat
    rw [List.getLast?_eq_some_getLast h] at this
    exact Option.some.inj this
  have hl : ts.length = gs.length := by rw [hgs] at hlen; simpa using hlen
  have hch : ∀ t ∈ times, Chain a ts t := fun t h => chain_of hs (ht t h)
  have key : ∀ f : Seg → ℝ, (∀ dt tk, f ⟨dt, tk, 0, 0⟩ = 0) →
      (∀ dt tk g0 g1, f ⟨dt, tk, g0 / M, g1 / M⟩ = f ⟨dt, tk, g0, g1⟩ / M) →
      total f (((a :: ts).drop p).take (on.length + 2)) ((0 :: on ++ [0]).map fun x => x / M) =
        total f (a :: ts) I / M := by
    intro f hf hd
    rw [total_div f M hd, hI]
    have e := total_lead f hf (a :: ts) (on ++ 0 :: List.replicate q 0) p
    rw [List.append_assoc]
    change _ = total f (a :: ts) (List.replicate p 0 ++ 0 :: (on ++ 0 :: List.replicate q 0)) / M
    rw [e]
    have e' := total_trail f hf ((a :: ts).drop p) (0 :: on) q
    rw [List.cons_append] at e'
    rw [e']
    rfl
  have run : ∀ ft, piecewiseChar (a :: ts) I ft times = .ok (times.map (etaSum ft
      (segs (diffs (((a :: ts).drop p).take (on.length + 2)))
        (((a :: ts).drop p).take (on.length + 2)).tail ((0 :: on ++ [0]).map fun x => x / M)))) := by
    intro ft
    unfold piecewiseChar
    rw [htm, hm]
    simp only
    rw [if_neg (off_time htm hm ht), window_split hsp]
    simp only [normalise, hM, List.length_replicate]
  have hrate : ∀ t ∈ times, HasDerivAt (decay a ts I M) (total (termD t) (a :: ts) I / M) t := by
    intro t h
    have := decay_rate (M := M) (ga := 0) (hch t h) hl
    have hg := hglast (by simp [hgs])
    subst hgs
    rw [hg] at this
    simpa using this
  refine ⟨M, hMpos, ⟨c, hsub c hc, hcM⟩, fun x hx => hMge _ (List.mem_map_of_mem (hsup x hx)),
    ?_, ?_, ?_, ?_, fun t h => (hrate t h).differentiableAt⟩
  · rw [run]
    congr 1
    refine List.map_congr_left fun t h => ?_
    have e := key (termH t) (termH_zero t) (termH_div t M)
    subst hgs
    rw [decay_eq (hch t h) hl, ← e]
    rfl
  · rw [run]
    congr 1
    refine List.map_congr_left fun t h => ?_
    have e := key (termH t) (termH_zero t) (termH_div t M)
    subst hgs
    rw [decay_eq (hch t h) hl, ← e]
    rfl
  · rw [run]
    congr 1
    refine List.map_congr_left fun t h => ?_
    rw [(hrate t h).deriv, ← key (termD t) (termD_zero t) (termD_div t M)]
    rfl
  · rw [run]
    congr 1
    refine List.map_congr_left fun t h => ?_
    rw [(hrate t h).deriv, ← key (termD t) (termD_zero t) (termD_div t M)]
    rfl

/-- A run on samples with a part in use. -/
theorem run_split {tw I pre on post times : List ℝ} {z z' M : ℝ} (h : Split I pre on post z z')
    (hw : tw ≠ []) (hne : times ≠ []) (ht : ∀ t ∈ times, ∀ s ∈ tw, s < t)
    (hM : npMax ((z :: on ++ [z']).map fun x => |x|) = .ok M) (ft : FT) :
    piecewiseChar tw I ft times = .ok (times.map (etaSum ft
      (segs (diffs ((tw.drop pre.length).take (on.length + 2)))
        ((tw.drop pre.length).take (on.length + 2)).tail ((z :: on ++ [z']).map fun x => x / M)))) := by
  obtain ⟨m, hm⟩ := npMin_nonempty hne
  obtain ⟨tm, htm⟩ : ∃ tm, npMax tw = .ok tm := by
    cases tw with
    | nil => simp at hw
    | cons a l => exact ⟨_, rfl⟩
  unfold piecewiseChar
  rw [htm, hm]
  simp only
  rw [if_neg (off_time htm hm ht), window_split h]
  simp only [normalise, hM]

/-- C138. **What `ArbitraryPiecewise` computes in general**: the times `a :: ts` and the currents
`z :: on ++ [z']` of the window count, and nothing else. The answer for `h` is their decay; the
answer for `dhdt` is its rate of change, less twice the weighted difference of the currents at the
two ends of the window. -/
theorem C138_window {tw I pre on post times ts : List ℝ} {a z z' : ℝ}
    (h : Split I pre on post z z') (hw : (tw.drop pre.length).take (on.length + 2) = a :: ts)
    (hlen : ts.length = on.length + 1) (hs : (a :: ts).Pairwise (· < ·)) (hne : times ≠ [])
    (ht : ∀ t ∈ times, ∀ s ∈ tw, s < t) :
    ∃ M, (∃ c ∈ z :: on ++ [z'], |c| = M) ∧ (∀ c ∈ z :: on ++ [z'], |c| ≤ M) ∧
      piecewiseChar tw I .h times = .ok (times.map (decay a ts (z :: on ++ [z']) M)) ∧
      piecewiseChar tw I .b times = .ok (times.map fun t => mu0 * decay a ts (z :: on ++ [z']) M t) ∧
      piecewiseChar tw I .dhdt times = .ok (times.map fun t =>
        deriv (decay a ts (z :: on ++ [z']) M) t
          - 2 * (z / (t - a) - z' / (t - (a :: ts).getLast (by simp))) / M) ∧
      piecewiseChar tw I .dbdt times = .ok (times.map fun t =>
        mu0 * (deriv (decay a ts (z :: on ++ [z']) M) t
          - 2 * (z / (t - a) - z' / (t - (a :: ts).getLast (by simp))) / M)) := by
  obtain ⟨M, hM⟩ : ∃ M, npMax ((z :: on ++ [z']).map fun x => |x|) = .ok M := ⟨_, rfl⟩
  have hMmem := npMax_mem hM
  rw [List.mem_map] at hMmem
  have htw : tw ≠ [] := by rintro rfl; simp at hw
  have run := run_split h htw hne ht hM
  rw [hw] at run
  have hsub : ∀ s ∈ a :: ts, s ∈ tw := by
    intro s hs'
    rw [← hw] at hs'
    exact List.mem_of_mem_drop (List.mem_of_mem_take hs')
  have hch : ∀ t ∈ times, Chain a ts t := fun t h' => chain_of hs fun s hs' => ht t h' s (hsub s hs')
  have hl : ts.length = (on ++ [z']).length := by simp [hlen]
  have hlast : (z :: (on ++ [z'])).getLast (by simp) = z' := by
    rw [List.getLast_cons (by simp)]; simp
  have H : ∀ t ∈ times, total (termH t) (a :: ts) ((z :: on ++ [z']).map fun x => x / M) =
      decay a ts (z :: on ++ [z']) M t := by
    intro t h'
    rw [total_div _ M (termH_div t M), List.cons_append, decay_eq (hch t h') hl]
  have D : ∀ t ∈ times, total (termD t) (a :: ts) ((z :: on ++ [z']).map fun x => x / M) =
      deriv (decay a ts (z :: on ++ [z']) M) t
        - 2 * (z / (t - a) - z' / (t - (a :: ts).getLast (by simp))) / M := by
    intro t h'
    rw [total_div _ M (termD_div t M), List.cons_append, (decay_rate (hch t h') hl).deriv, hlast]
    ring
  refine ⟨M, hMmem, fun x hx => npMax_ge hM _ (List.mem_map_of_mem hx), ?_, ?_, ?_, ?_⟩
  · rw [run]
    exact congrArg _ (List.map_congr_left fun t h' => H t h')
  · rw [run]
    refine congrArg _ (List.map_congr_left fun t h' => ?_)
    simp only [← H t h']
    rfl
  · rw [run]
    exact congrArg _ (List.map_congr_left fun t h' => D t h')
  · rw [run]
    refine congrArg _ (List.map_congr_left fun t h' => ?_)
    simp only [← D t h']
    rfl

/-- C138, as the code has it: currents after the last sample above `1e-10` do not count, whatever
they are: a second pulse of the other sign is dropped. -/
theorem C138_violated_bipolar {tw I I' pre on post post' times : List ℝ} {z z' : ℝ}
    (h : Split I pre on post z z') (h' : Split I' pre on post' z z') (ft : FT) :
    piecewiseChar tw I ft times = piecewiseChar tw I' ft times := by
  unfold piecewiseChar
  rw [window_split h, window_split h']

/-- C138: these two waveforms have the same answer, though their decays differ. -/
theorem C138_violated_bipolar_case : ∃ (a : ℝ) (ts I I' : List ℝ) (t : ℝ),
    (∀ ft, piecewiseChar (a :: ts) I ft [t] = piecewiseChar (a :: ts) I' ft [t]) ∧
    decay a ts I 1 t ≠ decay a ts I' 1 t := by
  refine ⟨0, [1, 2, 3, 4], [0, 1, 0, 0, 0], [0, 1, 0, -1, 0], 5, fun ft => ?_, ?_⟩
  · refine C138_violated_bipolar (pre := []) (on := [1]) (z := 0) (z' := 0) (post := [0, 0])
      (post' := [-1, 0]) ⟨rfl, ?_, ?_, ?_, ?_, ⟨1, rfl, ?_⟩, ⟨1, rfl, ?_⟩⟩
      ⟨rfl, ?_, ?_, ?_, ?_, ⟨1, rfl, ?_⟩, ⟨1, rfl, ?_⟩⟩ ft
    all_goals norm_num
  · have hc : Chain 0 [1, 2, 3, 4] 5 := by simp only [Chain]; norm_num
    rw [decay_eq (gs := [1, 0, 0, 0]) hc rfl, decay_eq (gs := [1, 0, -1, 0]) hc rfl]
    simp only [total, segs, diffs, List.tail_cons, List.map_cons, List.map_nil, List.sum_cons,
      List.sum_nil, termH]
    intro h
    have h1 : Real.log (1 + (4 - 3) / (5 - 4)) = Real.log 2 := by norm_num
    have h2 : Real.log (1 + (3 - 2) / (5 - 3)) = Real.log (3 / 2) := by norm_num
    rw [h1, h2] at h
    have h3 : Real.log 2 = 3 * Real.log (3 / 2) := by nlinarith
    have h4 : Real.log 2 = Real.log ((3 / 2) ^ 3) := by rw [Real.log_pow]; push_cast; exact h3
    have h5 := Real.log_injOn_pos (by norm_num : (2 : ℝ) ∈ Set.Ioi 0)
      (by norm_num : ((3 / 2) ^ 3 : ℝ) ∈ Set.Ioi 0) h4
    norm_num at h5

/-- C138, as the code has it: a waveform without a current above `1e-10`, such as a negative pulse,
is refused with `IndexError`. -/
theorem C138_violated_negative {tw I times : List ℝ} (hw : tw ≠ []) (hne : times ≠ [])
    (ht : ∀ t ∈ times, ∀ s ∈ tw, s < t) (hI : ∀ x ∈ I, x ≤ 1e-10) (ft : FT) :
    piecewiseChar tw I ft times = .error .indexError ∧
    discreteChar tw I ft times = .error .indexError := by
  obtain ⟨m, hm⟩ := npMin_nonempty hne
  obtain ⟨tm, htm⟩ : ∃ tm, npMax tw = .ok tm := by
    cases tw with
    | nil => simp at hw
    | cons a l => exact ⟨_, rfl⟩
  have e : window tw I = .error .indexError := by
    unfold window
    rw [onIdx_off 0 I hI]
    rfl
  refine ⟨?_, ?_⟩
  · unfold piecewiseChar
    rw [htm, hm]
    simp only
    rw [if_neg (off_time htm hm ht), e]
  · unfold discreteChar
    rw [e]

/-- C138, as the code has it: if the current is on at the first sample, the index `-1` selects the
last sample, and the answer is zero at all times. -/
theorem C138_violated_first {tw on times : List ℝ} {z : ℝ} (hlen : tw.length = on.length + 1)
    (first : ∃ x, on.head? = some x ∧ x > 1e-10) (last : ∃ x, on.getLast? = some x ∧ x > 1e-10)
    (hz : z ≤ 1e-10) (hne : times ≠ []) (ht : ∀ t ∈ times, ∀ s ∈ tw, s < t) (ft : FT) :
    piecewiseChar tw (on ++ [z]) ft times = .ok (times.map fun _ => 0) := by
  obtain ⟨m, hm⟩ := npMin_nonempty hne
  have hw : tw ≠ [] := by rintro rfl; simp at hlen
  obtain ⟨tm, htm⟩ : ∃ tm, npMax tw = .ok tm := by
    cases tw with
    | nil => simp at hw
    | cons a l => exact ⟨_, rfl⟩
  obtain ⟨x, hx, hxp⟩ := first
  obtain ⟨y, hy, hyp⟩ := last
  have hpos : 0 < on.length := by
    apply List.length_pos_iff.2
    rintro rfl
    simp at hx
  have e : onIdx 0 (on ++ [z]) = onIdx 0 on := by
    rw [onIdx_append, onIdx_off _ [z]]
    · simp
    · simpa using hz
  have ew : window tw (on ++ [z]) = .ok (tw.drop on.length, [z]) := by
    unfold window
    rw [e, onIdx_head 0 on hx hxp, onIdx_last 0 on hy hyp]
    simp only [pySlice]
    have c1 : (((0 : ℕ) : ℤ) - 1 < 0) := by norm_num
    have c2 : 0 + (on.length - 1) + 1 + 1 = on.length + 1 := by omega
    have c3 : (((tw.length : ℕ) : ℤ) + (((0 : ℕ) : ℤ) - 1)).toNat = on.length := by
      rw [hlen]; push_cast; omega
    have c4 : ((((on ++ [z]).length : ℕ) : ℤ) + (((0 : ℕ) : ℤ) - 1)).toNat = on.length := by
      rw [List.length_append]; push_cast; simp
    rw [if_pos c1, if_pos c1, c2, c3, c4, ← hlen, List.take_length,
      show tw.length = (on ++ [z]).length by simp [hlen], List.take_length, List.drop_left]
  unfold piecewiseChar
  rw [htm, hm]
  simp only
  rw [if_neg (off_time htm hm ht), ew]
  simp only [normalise, npMax, List.map_cons, List.map_nil]
  congr 1
  refine List.map_congr_left fun t _ => ?_
  have es : ∀ l l' : List ℝ, ∀ g : ℝ, segs l l' [g] = [] := by
    intro l l' g
    rcases l with - | ⟨a, l⟩ <;> rcases l' with - | ⟨b, l'⟩ <;> rfl
  rw [es]
  cases ft <;> simp [etaSum]

/-! #### Uniform sampling -/

def grid (lo d : ℝ) : ℕ → List ℝ
  | 0 => [lo]
  | n + 1 => lo :: grid (lo + d) d n

theorem grid_eq (lo d : ℝ) (n : ℕ) :
    (List.range (n + 1)).map (fun i : ℕ => lo + d * i) = grid lo d n := by
  induction n generalizing lo with
  | zero => simp [grid]
  | succ n ih =>
    rw [List.range_succ_eq_map, grid, ← ih, List.map_cons, List.map_map]
    simp only [Nat.cast_zero, mul_zero, add_zero, List.cons.injEq, true_and]
    refine List.map_congr_left fun i _ => ?_
    simp only [Function.comp_apply, Nat.succ_eq_add_one, Nat.cast_add, Nat.cast_one]
    ring

theorem grid_cons (lo d : ℝ) (n : ℕ) : grid lo d n = lo :: (grid lo d n).tail := by
  cases n <;> rfl

theorem grid_length (lo d : ℝ) (n : ℕ) : (grid lo d n).length = n + 1 := by
  induction n generalizing lo with
  | zero => rfl
  | succ n ih => simp [grid, ih]

theorem grid_diffs (lo d : ℝ) (n : ℕ) : diffs (grid lo d n) = List.replicate n d := by
  induction n generalizing lo with
  | zero => rfl
  | succ n ih =>
    rw [grid, grid_cons, diffs, ← grid_cons, ih, List.replicate_succ]
    simp

theorem grid_last (lo d : ℝ) (n : ℕ) (h : grid lo d n ≠ []) :
    (grid lo d n).getLast h = lo + d * n := by
  induction n generalizing lo with
  | zero => simp [grid]
  | succ n ih =>
    have e : (grid lo d (n + 1)).getLast h = (grid (lo + d) d n).getLast (by rw [grid_cons]; simp) :=
      List.getLast_cons (by rw [grid_cons]; simp)
    rw [e, ih]
    push_cast
    ring

theorem grid_chain {lo d t : ℝ} (hd : 0 < d) (n : ℕ) (h : lo + d * n < t) :
    Chain lo (grid lo d n).tail t := by
  induction n generalizing lo with
  | zero => simpa [grid, Chain] using h
  | succ n ih =>
    change Chain lo (grid (lo + d) d n) t
    rw [grid_cons]
    refine ⟨by linarith, ih ?_⟩
    push_cast at h
    linarith

theorem interp_first (a ga : ℝ) (ts gs : List ℝ) : interp (a :: ts) (ga :: gs) a = ga := by
  rcases ts with - | ⟨b, ts⟩ <;> rcases gs with - | ⟨gb, gs⟩ <;> simp [interp]

theorem interp_last {a t ga : ℝ} (ts gs : List ℝ) (hc : Chain a ts t)
    (hl : ts.length = gs.length) :
    interp (a :: ts) (ga :: gs) ((a :: ts).getLast (by simp)) = (ga :: gs).getLast (by simp) := by
  induction ts generalizing a ga gs with
  | nil =>
    cases gs with
    | nil => simp [interp]
    | cons _ _ => simp at hl
  | cons b ts ih =>
    cases gs with
    | nil => simp at hl
    | cons gb gs =>
      have ih' := ih (ga := gb) gs hc.2 (by simpa using hl)
      have hle := hc.2.getLast_lt.2
      have hab := hc.1
      rw [List.getLast_cons (a := a) (by simp), List.getLast_cons (a := ga) (by simp)]
      rw [interp, if_neg (not_le.2 (lt_of_lt_of_le hab hle))]
      split
      · rename_i h
        have he : (b :: ts).getLast (by simp) = b := le_antisymm h hle
        rw [he, interp_first] at ih'
        rw [he, ← ih']
        have : b - a ≠ 0 := by linarith
        field_simp
        ring
      · exact ih'

theorem interp_div (ts gs : List ℝ) (m x : ℝ) :
    interp ts (gs.map fun y => y / m) x = interp ts gs x / m := by
  induction ts generalizing gs with
  | nil => cases gs <;> simp [interp]
  | cons a ts ih =>
    rcases ts with - | ⟨b, ts⟩
    · cases gs <;> simp [interp]
    · rcases gs with - | ⟨ga, - | ⟨gb, gs⟩⟩
      · simp [interp]
      · simp [interp]
      · have := ih (gb :: gs)
        simp only [List.map_cons] at this
        simp only [interp, List.map_cons, this]
        split
        · rfl
        · split
          · ring
          · rfl

theorem samples_eq {a t ga : ℝ} (ts gs : List ℝ) (hc : Chain a ts t) (hl : ts.length = gs.length)
    {d : ℝ} {n : ℕ} (hn : 1 ≤ n) (hd : a + d * n = (a :: ts).getLast (by simp)) :
    gSamples (a :: ts) (ga :: gs) (grid a d n) = (grid a d n).map (interp (a :: ts) (ga :: gs)) := by
  obtain ⟨k, rfl⟩ : ∃ k, n = k + 1 := ⟨n - 1, by omega⟩
  have hne : grid (a + d) d k ≠ [] := by rw [grid_cons]; simp
  have e1 : (grid (a + d) d k).dropLast ++ [(a :: ts).getLast (by simp)] = grid (a + d) d k := by
    rw [← hd]
    have := List.dropLast_append_getLast hne
    rw [grid_last] at this
    rw [show a + d * ((k + 1 : ℕ) : ℝ) = a + d + d * k by push_cast; ring]
    exact this
  have e2 : grid a d (k + 1) = a :: grid (a + d) d k := rfl
  rw [e2]
  conv_rhs => rw [← e1]
  simp only [gSamples, List.head?_cons, Option.toList_some, List.tail_cons, List.map_cons,
    List.map_append, List.map_nil, interp_first, interp_last ts gs hc hl,
    List.getLast?_eq_some_getLast (List.cons_ne_nil ga gs), List.cons_append, List.nil_append]

theorem npMin_sorted {a : ℝ} {ts : List ℝ} (hs : (a :: ts).Pairwise (· < ·)) :
    npMin (a :: ts) = .ok a := by
  have e : npMin (a :: ts) = .ok (ts.foldr min a) := rfl
  rw [e]
  congr 1
  refine le_antisymm (npMin_le e a (by simp)) ?_
  rcases List.mem_cons.1 (npMin_mem e) with h | h
  · exact h.ge
  · exact ((List.pairwise_cons.1 hs).1 _ h).le

theorem npMax_sorted {a : ℝ} {ts : List ℝ} (hs : (a :: ts).Pairwise (· < ·)) :
    npMax (a :: ts) = .ok ((a :: ts).getLast (by simp)) := by
  have : ∀ l : List ℝ, l.Pairwise (· < ·) → ∀ h : l ≠ [], ∀ x ∈ l, x ≤ l.getLast h := by
    intro l
    induction l with
    | nil => simp
    | cons y l ih =>
      intro hp h x hx
      rw [List.pairwise_cons] at hp
      cases l with
      | nil => exact (List.mem_singleton.1 hx).le
      | cons w l =>
        rw [List.getLast_cons (by simp)]
        rcases List.mem_cons.1 hx with rfl | hx
        · exact (hp.1 _ (List.getLast_mem (by simp))).le
        · exact ih hp.2 (by simp) x hx
  exact npMax_unique (by simp) (List.getLast_mem _) (this _ hs _)

/-- C138. **`ArbitraryDiscrete`** samples the window of the waveform at `n + 1` equally spaced times,
`n` the smaller of 25000 and the least whole number of spacings of a twenty-fifth of the first
channel, and returns the decay of the waveform linear between the samples; for `dhdt` its rate of
change, less the same term in the two ends, which vanishes if the window begins and ends with zero
current. -/
theorem C138_discrete {tw I pre on post times ts : List ℝ} {a z z' m : ℝ}
    (h : Split I pre on post z z') (hw : (tw.drop pre.length).take (on.length + 2) = a :: ts)
    (hlen : ts.length = on.length + 1) (hs : (a :: ts).Pairwise (· < ·))
    (hm : npMin times = .ok m) (hm0 : 0 < m) (ht : ∀ t ∈ times, ∀ s ∈ a :: ts, s < t) :
    let hi := (a :: ts).getLast (by simp)
    ∃ (M : ℝ) (n : ℕ) (gr sm : List ℝ), (∃ c ∈ z :: on ++ [z'], |c| = M) ∧
      (∀ c ∈ z :: on ++ [z'], |c| ≤ M) ∧ 1 ≤ n ∧
      (n : ℤ) = min 25000 ⌈25 * (hi - a) / m⌉ ∧
      a :: gr = (List.range (n + 1)).map (fun i : ℕ => a + (hi - a) / n * i) ∧
      sm = (a :: gr).map (interp (a :: ts) (z :: on ++ [z'])) ∧
      discreteChar tw I .h times = .ok (times.map (decay a gr sm M)) ∧
      discreteChar tw I .b times = .ok (times.map fun t => mu0 * decay a gr sm M t) ∧
      discreteChar tw I .dhdt times = .ok (times.map fun t =>
        deriv (decay a gr sm M) t - 2 * (z / (t - a) - z' / (t - hi)) / M) ∧
      discreteChar tw I .dbdt times = .ok (times.map fun t =>
        mu0 * (deriv (decay a gr sm M) t - 2 * (z / (t - a) - z' / (t - hi)) / M)) := by
  intro hi
  obtain ⟨M, hM⟩ : ∃ M, npMax ((z :: on ++ [z']).map fun x => |x|) = .ok M := ⟨_, rfl⟩
  have hMmem := npMax_mem hM
  rw [List.mem_map] at hMmem
  have hlo := npMin_sorted hs
  have hhi := npMax_sorted hs
  have hmt := npMin_mem hm
  have hc := chain_of hs (ht m hmt)
  have hahi : a < hi := by
    cases ts with
    | nil => simp at hlen
    | cons b ts =>
      have := hc.2.getLast_lt.2
      have e : hi = (b :: ts).getLast (by simp) := List.getLast_cons (by simp)
      rw [e]
      exact lt_of_lt_of_le hc.1 this
  have hpos : 0 < 25 * (hi - a) / m := by
    apply div_pos _ hm0
    linarith
  have hceil : 1 ≤ ⌈25 * (hi - a) / m⌉ := by
    have := Int.ceil_pos.2 hpos
    omega
  have hN : nPts a hi m = min 25000 ⌈25 * (hi - a) / m⌉ := by
    simp only [nPts]
    split <;> omega
  have hN1 : 1 ≤ nPts a hi m := by rw [hN]; omega
  obtain ⟨n, hn⟩ : ∃ n : ℕ, nPts a hi m = n := ⟨(nPts a hi m).toNat, by omega⟩
  have hn1 : 1 ≤ n := by omega
  have hn0 : (n : ℝ) ≠ 0 := by
    have : n ≠ 0 := by omega
    exact_mod_cast this
  set d := (hi - a) / n with hd
  have hd0 : 0 < d := by
    apply div_pos (by linarith)
    have : 0 < n := by omega
    exact_mod_cast this
  have hend : a + d * n = hi := by rw [hd]; field_simp; ring
  have hgrid : linspace a hi n = grid a d n := by rw [← grid_eq]; rfl
  have hcg : ∀ t ∈ times, Chain a (grid a d n).tail t := fun t h' => by
    refine grid_chain hd0 n ?_
    rw [hend]
    exact ht t h' _ (List.getLast_mem _)
  have hl : ts.length = (on ++ [z']).length := by simp [hlen]
  have run : ∀ ft, discreteChar tw I ft times = .ok (times.map (etaSum ft
      (segs (diffs (grid a d n)) (grid a d n).tail
        (((grid a d n).map (interp (a :: ts) (z :: on ++ [z']))).map fun x => x / M)))) := by
    intro ft
    unfold discreteChar
    rw [window_split h, hw]
    simp only [normalise, hM, hlo, hhi, hm]
    rw [if_neg hm0.ne', if_neg (by
      change ¬ nPts a hi m + 1 < 0
      omega)]
    have e : (nPts a ((a :: ts).getLast (by simp)) m).toNat = n := by
      change (nPts a hi m).toNat = n
      omega
    rw [e]
    change Except.ok (times.map (etaSum ft (segs (List.replicate n d) (linspace a hi n).tail
      (gSamples (a :: ts) ((z :: on ++ [z']).map fun x => x / M) (linspace a hi n))))) = _
    rw [hgrid, ← grid_diffs a d n]
    have es := samples_eq (ga := z / M) ts ((on ++ [z']).map fun x => x / M) hc
      (by simp [hlen]) hn1 hend
    have em : (z :: on ++ [z']).map (fun x => x / M) = (z / M) :: (on ++ [z']).map fun x => x / M := rfl
    rw [em, es, List.map_map]
    congr 4
    refine List.map_congr_left fun x _ => ?_
    rw [← em, interp_div]
    rfl
  have hfirst : (grid a d n).map (interp (a :: ts) (z :: on ++ [z'])) =
      z :: (grid a d n).tail.map (interp (a :: ts) (z :: on ++ [z'])) := by
    conv_lhs => rw [grid_cons]
    rw [List.map_cons, List.cons_append, interp_first]
  have hlast : ((grid a d n).map (interp (a :: ts) (z :: on ++ [z']))).getLast
      (by rw [grid_cons]; simp) = z' := by
    have e := interp_last (ga := z) ts (on ++ [z']) hc hl
    rw [List.getLast_map, grid_last, hend, List.cons_append]
    rw [e, List.getLast_cons (by simp)]
    simp
  have hlg : (a :: (grid a d n).tail).getLast (by simp) = hi := by
    rw [← hend, ← grid_last a d n (by rw [grid_cons]; simp)]
    congr 1
    exact (grid_cons a d n).symm
  have H : ∀ t ∈ times, total (termH t) (grid a d n)
      (((grid a d n).map (interp (a :: ts) (z :: on ++ [z']))).map fun x => x / M) =
      decay a (grid a d n).tail ((grid a d n).map (interp (a :: ts) (z :: on ++ [z']))) M t := by
    intro t h'
    rw [total_div _ M (termH_div t M), hfirst, decay_eq (hcg t h') (by simp), ← grid_cons]
  have D : ∀ t ∈ times, total (termD t) (grid a d n)
      (((grid a d n).map (interp (a :: ts) (z :: on ++ [z']))).map fun x => x / M) =
      deriv (decay a (grid a d n).tail ((grid a d n).map (interp (a :: ts) (z :: on ++ [z']))) M) t
        - 2 * (z / (t - a) - z' / (t - hi)) / M := by
    intro t h'
    have hl' : ∀ h, (z :: (grid a d n).tail.map (interp (a :: ts) (z :: on ++ [z']))).getLast h = z' := by
      intro h
      refine Eq.trans ?_ hlast
      congr 1
      exact hfirst.symm
    rw [total_div _ M (termD_div t M), hfirst, (decay_rate (hcg t h') (by simp)).deriv, hl', hlg,
      ← grid_cons]
    ring
  refine ⟨M, n, (grid a d n).tail, (grid a d n).map (interp (a :: ts) (z :: on ++ [z'])), hMmem,
    fun x hx => npMax_ge hM _ (List.mem_map_of_mem hx), hn1, by rw [← hN, hn], ?_, ?_, ?_, ?_, ?_, ?_⟩
  · rw [grid_eq, ← grid_cons]
  · rw [← grid_cons]
  · rw [run]
    exact congrArg _ (List.map_congr_left fun t h' => H t h')
  · rw [run]
    refine congrArg _ (List.map_congr_left fun t h' => ?_)
    simp only [← H t h']
    rfl
  · rw [run]
    exact congrArg _ (List.map_congr_left fun t h' => D t h')
  · rw [run]
    refine congrArg _ (List.map_congr_left fun t h' => ?_)
    simp only [← D t h']
    rfl

/-- C138, as the code has it: `ArbitraryDiscrete` does not compare the channels with the waveform: any
positive channels are answered, also those before its end. -/
theorem C138_violated_unchecked {tw I pre on post times ts : List ℝ} {a z z' m : ℝ}
    (h : Split I pre on post z z') (hw : (tw.drop pre.length).take (on.length + 2) = a :: ts)
    (hs : (a :: ts).Pairwise (· < ·)) (hm : npMin times = .ok m) (hm0 : 0 < m) (ft : FT) :
    ∃ r, discreteChar tw I ft times = .ok r := by
  obtain ⟨M, hM⟩ : ∃ M, npMax ((z :: on ++ [z']).map fun x => |x|) = .ok M := ⟨_, rfl⟩
  have hlo := npMin_sorted hs
  have hhi := npMax_sorted hs
  have hle : a ≤ (a :: ts).getLast (by simp) := npMax_ge hhi a (by simp)
  have hN : 0 ≤ nPts a ((a :: ts).getLast (by simp)) m := by
    have h0 : 0 ≤ 25 * ((a :: ts).getLast (by simp) - a) / m :=
      div_nonneg (by linarith) hm0.le
    have := Int.ceil_nonneg h0
    simp only [nPts]
    split <;> omega
  unfold discreteChar
  rw [window_split h, hw]
  simp only [normalise, hM, hlo, hhi, hm]
  rw [if_neg hm0.ne', if_neg (by omega)]
  exact ⟨_, rfl⟩

/-- Such a channel: in the middle of the pulse. -/
example : ∃ r, discreteChar [0, 1, 2] [0, 1, 0] .h [1] = .ok r := by
  have hs : Split [0, 1, 0] [] [1] [] 0 0 := by
    refine ⟨rfl, ?_, ?_, ?_, ?_, ⟨1, rfl, ?_⟩, ⟨1, rfl, ?_⟩⟩ <;> norm_num
  exact C138_violated_unchecked (tw := [0, 1, 2]) (a := 0) (ts := [1, 2]) (m := 1) hs rfl
    (by norm_num) rfl (by norm_num) .h

/-! ### Step-off and square pulse -/

/-- C138. **The off-time is enforced**: `SquarePulse` answers exactly when there is a time and all
times are after the beginning of the off-time; `StepOff` also refuses `h` and `b`. -/
theorem C138_off_time (delt t0 : ℝ) (ft : FT) (times : List ℝ) :
    ((∃ r, pulseChar delt t0 ft times = .ok r) ↔ times ≠ [] ∧ ∀ t ∈ times, t0 < t) ∧
    ((∃ r, stepChar t0 ft times = .ok r) ↔
      (ft = .dhdt ∨ ft = .dbdt) ∧ times ≠ [] ∧ ∀ t ∈ times, t0 < t) ∧
    (∀ r, pulseChar delt t0 ft times = .ok r → r = times.map (pulseEta delt t0 ft)) ∧
    (∀ r, stepChar t0 ft times = .ok r → r = times.map (stepEta t0 ft)) := by
  have key : times = [] ∨ ∃ m, npMin times = .ok m ∧ (¬ t0 ≥ m ↔ ∀ t ∈ times, t0 < t) := by
    by_cases hne : times = []
    · exact .inl hne
    · obtain ⟨m, hm⟩ := npMin_nonempty hne
      refine .inr ⟨m, hm, fun h t ht => lt_of_lt_of_le (not_le.1 h) (npMin_le hm t ht),
        fun h => not_le.2 (h m (npMin_mem hm))⟩
  rcases key with rfl | ⟨m, hm, hk⟩
  · refine ⟨by simp [pulseChar, npMin], ?_, by simp [pulseChar, npMin], ?_⟩
    · cases ft <;> simp [stepChar, npMin]
    · cases ft <;> simp [stepChar, npMin]
  · have hne : times ≠ [] := by rintro rfl; simp [npMin] at hm
    by_cases hc : t0 ≥ m
    · have hk' : ¬ ∀ t ∈ times, t0 < t := fun h => hk.2 h hc
      refine ⟨?_, ?_, ?_, ?_⟩
      · simp only [pulseChar, hm, if_pos hc]
        simp only [reduceCtorEq, exists_false, false_iff, not_and]
        exact fun _ => hk'
      · cases ft <;> simp only [stepChar, hm, if_pos hc] <;> simp <;> exact fun _ => by
          simpa using hk'
      · simp [pulseChar, hm, hc]
      · cases ft <;> simp [stepChar, hm, hc]
    · have hk' := hk.1 hc
      refine ⟨?_, ?_, ?_, ?_⟩
      · simp only [pulseChar, hm, if_neg hc]
        exact ⟨fun _ => ⟨hne, hk'⟩, fun _ => ⟨_, rfl⟩⟩
      · cases ft <;> simp only [stepChar, hm, if_neg hc] <;> simp [hne] <;> exact fun t h => hk' t h
      · intro r hr
        simp only [pulseChar, hm, if_neg hc, Except.ok.injEq] at hr
        exact hr.symm
      · intro r hr
        cases ft <;> simp [stepChar, hm, hc] at hr <;> exact hr.symm

/-- C138. **The square pulse**: in the off-time, `h` is the convolution of a unit current from
`t0 - delt` to `t0` with `1 / t`, `dhdt` its rate of change, and `b`, `dbdt` these times `mu0`. -/
theorem C138_pulse {delt t0 t : ℝ} (hd : 0 < delt) (ht : t0 < t) :
    pulseEta delt t0 .h t = ∫ x in (t0 - delt)..t0, 1 / (t - x) ∧
    HasDerivAt (pulseEta delt t0 .h) (pulseEta delt t0 .dhdt t) t ∧
    pulseEta delt t0 .b t = mu0 * pulseEta delt t0 .h t ∧
    pulseEta delt t0 .dbdt t = mu0 * pulseEta delt t0 .dhdt t := by
  have h1 := seg_integral (a := t0 - delt) (b := t0) (t := t) (ga := 1) (gb := 1) (by linarith) ht
  have h2 := seg_rate (a := t0 - delt) (b := t0) (t := t) (ga := 1) (gb := 1) (by linarith) ht
  have e : ∀ t, termH t ⟨t0 - (t0 - delt), t0, 1, 1⟩ = pulseEta delt t0 .h t := by
    intro t
    simp [termH, pulseEta]
  refine ⟨?_, ?_, rfl, by simp only [pulseEta]; ring⟩
  · rw [← e, ← h1]
    simp
  · have : (fun t => termH t ⟨t0 - (t0 - delt), t0, 1, 1⟩) = pulseEta delt t0 .h := funext e
    rw [this] at h2
    refine h2.congr_deriv ?_
    simp only [termD, pulseEta]
    rw [show t - (t0 - delt) = t - t0 + delt by ring,
      show t - t0 + (t0 - (t0 - delt)) = t - t0 + delt by ring]
    generalize 1 / (t - t0) = u
    generalize 1 / (t - t0 + delt) = w
    ring

/-- C138. **The step-off** is the limit of ever longer pulses. -/
theorem C138_step (t0 t : ℝ) :
    Filter.Tendsto (fun delt => pulseEta delt t0 .dhdt t) Filter.atTop (nhds (stepEta t0 .dhdt t)) ∧
    stepEta t0 .dbdt t = mu0 * stepEta t0 .dhdt t := by
  constructor
  · simp only [pulseEta, stepEta]
    have h1 : Filter.Tendsto (fun delt : ℝ => 1 / (t - t0 + delt)) Filter.atTop (nhds 0) := by
      simp only [one_div]
      exact tendsto_inv_atTop_zero.comp (Filter.tendsto_atTop_add_const_left _ _ Filter.tendsto_id)
    have h2 := ((tendsto_const_nhds (x := 1 / (t - t0))).sub h1).neg
    simpa [neg_div] using h2
  · simp only [stepEta]
    ring

/-- C138. **The decay**: the response of a pulse is positive and decreases, its rate is between that
of the step-off and zero. -/
theorem C138_decrease {delt t0 t t' : ℝ} (hd : 0 < delt) (ht : t0 < t) (htt : t < t') :
    0 < pulseEta delt t0 .h t' ∧ pulseEta delt t0 .h t' < pulseEta delt t0 .h t ∧
    stepEta t0 .dhdt t < pulseEta delt t0 .dhdt t ∧ pulseEta delt t0 .dhdt t < 0 := by
  have h1 : 0 < t - t0 := by linarith
  have h2 : 0 < t' - t0 := by linarith
  have h3 : 0 < delt / (t' - t0) := by positivity
  have h4 : delt / (t' - t0) < delt / (t - t0) := div_lt_div_of_pos_left hd h1 (by linarith)
  have h5 : 0 < 1 / (t - t0 + delt) := by positivity
  have h6 : 1 / (t - t0 + delt) < 1 / (t - t0) := div_lt_div_of_pos_left one_pos h1 (by linarith)
  refine ⟨?_, ?_, ?_, ?_⟩
  · exact Real.log_pos (by linarith)
  · exact Real.log_lt_log (by linarith) (by linarith)
  · simp only [stepEta, pulseEta, neg_div]
    linarith
  · simp only [pulseEta]
    linarith

/-- The hypotheses of `C138_arbitrary` are met: two triangles. -/
example : ∃ M > 0, (∃ c ∈ [0, 0, 2, 0, 1, (0 : ℝ)], |c| = M) ∧
    piecewiseChar [0, 1, 2, 3, 4, 5] [0, 0, 2, 0, 1, 0] .dhdt [6, 9] =
      .ok ([6, 9].map (deriv (decay 0 [1, 2, 3, 4, 5] [0, 0, 2, 0, 1, 0] M))) := by
  obtain ⟨M, h0, h1, -, -, -, h2, -⟩ := C138_arbitrary (a := 0) (ts := [1, 2, 3, 4, 5])
    (I := [0, 0, 2, 0, 1, 0]) (on := [2, 0, 1]) (times := [6, 9]) (p := 1) (q := 0) rfl
    ⟨2, rfl, by norm_num⟩ ⟨1, rfl, by norm_num⟩ rfl (by norm_num) (by simp) (by
      intro t ht s hs
      simp only [List.mem_cons, List.not_mem_nil, or_false] at ht hs
      rcases ht with rfl | rfl <;> rcases hs with rfl | rfl | rfl | rfl | rfl | rfl <;> norm_num)
  exact ⟨M, h0, h1, h2⟩

/-- C138, as the code has it: `dhdt` of a window that does not end with zero is not the rate of
change of `h`: a ramp up that ends below zero. -/
theorem C138_violated_rate : ∃ (I : List ℝ) (M : ℝ),
    piecewiseChar [0, 1, 2] I .h [3] = .ok [decay 0 [1, 2] I M 3] ∧
    piecewiseChar [0, 1, 2] I .dhdt [3] ≠ .ok [deriv (decay 0 [1, 2] I M) 3] := by
  have hs : Split [0, 1, -1] [] [1] [] 0 (-1) := by
    refine ⟨rfl, ?_, ?_, ?_, ?_, ⟨1, rfl, ?_⟩, ⟨1, rfl, ?_⟩⟩ <;> norm_num
  obtain ⟨M, ⟨c, hc, hcM⟩, hge, h1, -, h2, -⟩ := C138_window (tw := [0, 1, 2]) (a := 0) (ts := [1, 2])
    (times := [3]) hs rfl rfl (by norm_num) (by simp) (by
      intro t ht s hs
      simp only [List.mem_cons, List.not_mem_nil, or_false] at ht hs
      subst ht
      rcases hs with rfl | rfl | rfl <;> norm_num)
  refine ⟨[0, 1, -1], M, h1, ?_⟩
  rw [h2]
  simp only [List.map_cons, List.map_nil, ne_eq, Except.ok.injEq, List.cons.injEq, and_true]
  have hM1 : 1 ≤ M := by simpa using hge 1 (by simp)
  intro h
  have h3 : (2 * ((0 : ℝ) / (3 - 0) - -1 / (3 - [0, 1, 2].getLast (by simp))) / M) = 0 := by
    have e : (0 :: [1] ++ [-1] : List ℝ) = [0, 1, -1] := rfl
    rw [e] at h
    linarith
  norm_num at h3
  linarith

/-- The hypotheses of `C138_discrete` are met. -/
example : ∃ r, discreteChar [0, 1, 2] [0, 1, 0] .dhdt [3] = .ok r := by
  have hs : Split [0, 1, 0] [] [1] [] 0 0 := by
    refine ⟨rfl, ?_, ?_, ?_, ?_, ⟨1, rfl, ?_⟩, ⟨1, rfl, ?_⟩⟩ <;> norm_num
  obtain ⟨M, n, gr, sm, -, -, -, -, -, -, -, -, h, -⟩ := C138_discrete (tw := [0, 1, 2]) (a := 0)
    (ts := [1, 2]) (times := [3]) (m := 3) hs rfl rfl (by norm_num) rfl (by norm_num) (by
      intro t ht s hs
      simp only [List.mem_cons, List.not_mem_nil, or_false] at ht hs
      subst ht
      rcases hs with rfl | rfl | rfl <;> norm_num)
  exact ⟨_, h⟩

/-- The hypotheses of `C138_violated_first` are met: a pulse that is on from its first sample. -/
example : piecewiseChar [0, 1, 2] [1, 1, 0] .h [3] = .ok [0] := by
  have := C138_violated_first (tw := [0, 1, 2]) (on := [1, 1]) (z := 0) (times := [3]) rfl
    ⟨1, rfl, by norm_num⟩ ⟨1, rfl, by norm_num⟩ (by norm_num) (by simp) (by
      intro t ht s hs
      simp only [List.mem_cons, List.not_mem_nil, or_false] at ht hs
      subst ht
      rcases hs with rfl | rfl | rfl <;> norm_num) .h
  simpa using this

example : piecewiseChar [0, 1] [0, -1] .h [2] = .error .indexError :=
  (C138_violated_negative (by simp) (by simp) (by
    intro t ht s hs
    simp only [List.mem_cons, List.not_mem_nil, or_false] at ht hs
    subst ht
    rcases hs with rfl | rfl <;> norm_num) (by
    intro x hx
    simp only [List.mem_cons, List.not_mem_nil, or_false] at hx
    rcases hx with rfl | rfl <;> norm_num) .h).1

example : HasDerivAt (pulseEta 2 0 .h) (pulseEta 2 0 .dhdt 1) 1 :=
  (C138_pulse (by norm_num) (by norm_num)).2.1

end Props

end Verif.VRM
