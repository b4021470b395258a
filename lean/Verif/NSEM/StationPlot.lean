import Verif.Basic
import Mathlib.Analysis.SpecialFunctions.Sqrt
import Mathlib.Analysis.SpecialFunctions.Complex.Arg
import Mathlib.Analysis.Calculus.Deriv.Add
import Mathlib.Analysis.Calculus.Deriv.Mul
import Mathlib.Analysis.Calculus.Deriv.Pow
import Mathlib.Tactic.Linarith
import Mathlib.Tactic.FieldSimp
import Mathlib.Tactic.Ring
import Mathlib.Tactic.Positivity

/-! Model of the curves of stations with error bars, and of maps of a frequency, for natural source data
(`simpeg/electromagnetics/natural_source/utils/plot_utils.py` 563-869), for C204. -/

noncomputable section
namespace Verif.NSEM.StationPlot
open Verif

/-- One location of a receiver with its datum, relative error and noise floor. -/
structure Row where
  x : ℝ
  y : ℝ
  d : ℝ
  std : ℝ
  floor : ℝ

/-- A receiver: orientation, component (real or imaginary part) and its locations. -/
structure Rx where
  orient : String
  comp : String
  rows : List Row

/-- A source: frequency and receivers. -/
structure Src where
  freq : ℝ
  rxs : List Rx

/-- `ind_loc` (851). -/
def near (lx ly : ℝ) (r : Row) : Prop := Real.sqrt ((r.x - lx) ^ 2 + (r.y - ly) ^ 2) < 1 / 10

/-- Receivers of an orientation and component (839-843). -/
def kind (o c : String) (r : Rx) : Bool := r.orient == o && r.comp == c

open Classical in
/-- The loop over sources (838-859): `none` is the early return of empty arrays (844-847); else the
frequencies with the rows near the location. Only the first receiver of the kind is read (849). -/
def loop (o c : String) (lx ly : ℝ) : List Src → Option (List (ℝ × List Row))
  | [] => some []
  | s :: ss =>
    match s.rxs.filter (kind o c) with
    | [] => none
    | r :: _ =>
      let rows := r.rows.filter fun r => near lx ly r;
      match loop o c lx ly ss with
      | none => none
      | some l => some (if rows = [] then l else (s.freq, rows) :: l)

/-- `_extract_location_data` (826-867), with uncertainties: frequencies and rows. `np.concatenate` of
nothing raises ValueError. -/
def extract (o c : String) (lx ly : ℝ) (srcs : List Src) : Except Err (List ℝ × List Row) :=
  match loop o c lx ly srcs with
  | none => .ok ([], [])
  | some [] => .error .valueError
  | some l => .ok (l.map (·.1), l.flatMap (·.2))

/-- `std * np.abs(data) + floor` (719-720, 756). -/
def uncert (r : Row) : ℝ := r.std * |r.d| + r.floor

/-- The three components made of both parts. -/
inductive Comp where
  | appRes
  | phase
  | amplitude
  deriving DecidableEq

/-- The value drawn (725-727, 734, 743-744), for `mu_0`, a frequency, and real and imaginary parts. `np.arctan2` is the
argument of the complex number. -/
def value (mu0 : ℝ) (c : Comp) (f re im : ℝ) : ℝ :=
  match c with
  | .appRes => 1 / (mu0 * (2 * Real.pi * f)) * ‖(⟨re, im⟩ : ℂ)‖ ^ 2
  | .phase => Complex.arg ⟨re, im⟩ * (180 / Real.pi)
  | .amplitude => ‖(⟨re, im⟩ : ℂ)‖

/-- The error bar (728-732, 735-741, 745-750), for uncertainties `u` and `v` of the two parts. -/
def bar (mu0 : ℝ) (c : Comp) (f re im u v : ℝ) : ℝ :=
  match c with
  | .appRes => 2 / (mu0 * (2 * Real.pi * f)) * Real.sqrt ((re * u) ^ 2 + (im * v) ^ 2)
  | .phase => |1 / (re ^ 2 + im ^ 2) * (re * u - im * v)| * (180 / Real.pi)
  | .amplitude => 1 / ‖(⟨re, im⟩ : ℂ)‖ * (|re| * u + |im| * v)

/-- `_get_station_data` (705-765) with error bars, for components made of both parts: frequencies, values,
bars. Arrays that do not fit raise ValueError (broadcasting of arrays with one entry is not modelled). -/
def station (mu0 : ℝ) (c : Comp) (o : String) (lx ly : ℝ) (srcs : List Src) :
    Except Err (List ℝ × List (ℝ × ℝ)) :=
  match extract o "real" lx ly srcs with
  | .error e => .error e
  | .ok (_, re) =>
    match extract o "imag" lx ly srcs with
    | .error e => .error e
    | .ok (f, im) =>
      if re.length ≠ im.length ∨ f.length ≠ im.length then .error .valueError
      else .ok (f, (f.zip (re.zip im)).map fun p =>
        (value mu0 c p.1 p.2.1.d p.2.2.d, bar mu0 c p.1 p.2.1.d p.2.2.d (uncert p.2.1) (uncert p.2.2)))

open Classical in
/-- `frequency_map` (613-639) through `_extract_frequency_data` (790-823): `get_sources_by_frequency` asserts
that there is the frequency and returns the list of sources, and a list has no `receiver_list`. -/
def frequencyMap (frequency : ℝ) (srcs : List Src) : Except Err Unit :=
  if ∃ s ∈ srcs, s.freq = frequency then .error .attributeError else .error .assertionError

/-- The same components by `plotIsoStaImpedance` for arrays of records
(`simpeg/electromagnetics/natural_source/utils/plot_data_types.py` 256, 264-276), without `mu_0`. -/
def isoValue (c : Comp) (f re im : ℝ) : ℝ :=
  match c with
  | .appRes => 1 / (8 * Real.pi ^ 2 * (1 / 10 ^ 7)) / f * ‖(⟨re, im⟩ : ℂ)‖ ^ 2
  | .phase => Complex.arg ⟨re, im⟩ * (180 / Real.pi)
  | .amplitude => ‖(⟨re, im⟩ : ℂ)‖

/-- `_validate_kwargs` (`simpeg/electromagnetics/natural_source/utils/plot_utils.py` 23-41): options with
defaults for those missing; `none` is None, which is returned as it is when there are no defaults. -/
def fillDefaults {V : Type} (input : Option (List (String × V))) (defaults : List (String × V)) :
    Option (List (String × V)) :=
  defaults.foldl (fun inp kv =>
    match inp with
    | none => some defaults
    | some o => some (if (o.lookup kv.1).isSome then o else o ++ [kv])) input

namespace Props

/-! ### C204 -/

open Classical in
/-- The readings at a station: frequency and row of every location closer than 0.1 of every receiver of the
kind. -/
def readings (o c : String) (lx ly : ℝ) (srcs : List Src) : List (ℝ × Row) :=
  srcs.flatMap fun s => s.rxs.flatMap fun r =>
    if r.orient = o ∧ r.comp = c then
      (r.rows.filter fun w => (w.x - lx) ^ 2 + (w.y - ly) ^ 2 < 1 / 100).map fun w => (s.freq, w)
    else []

theorem near_iff (lx ly : ℝ) (r : Row) : near lx ly r ↔ (r.x - lx) ^ 2 + (r.y - ly) ^ 2 < 1 / 100 := by
  unfold near
  rw [Real.sqrt_lt' (by norm_num)]
  norm_num

theorem kind_iff (o c : String) (r : Rx) : kind o c r = true ↔ r.orient = o ∧ r.comp = c := by
  simp [kind]

open Classical in
theorem flatMap_kind (o c : String) (lx ly f : ℝ) (rxs : List Rx) :
    (rxs.flatMap fun r => if r.orient = o ∧ r.comp = c then
      (r.rows.filter fun w => (w.x - lx) ^ 2 + (w.y - ly) ^ 2 < 1 / 100).map fun w => (f, w) else []) =
    (rxs.filter (kind o c)).flatMap fun r => (r.rows.filter fun w => near lx ly w).map fun w => (f, w) := by
  induction rxs with
  | nil => rfl
  | cons r rs ih =>
    rw [List.flatMap_cons, ih, List.filter_cons]
    by_cases h : r.orient = o ∧ r.comp = c
    · rw [if_pos h, if_pos ((kind_iff o c r).mpr h), List.flatMap_cons]
      simp only [near_iff]
    · rw [if_neg h, if_neg (fun h' => h ((kind_iff o c r).mp h')), List.nil_append]

open Classical in
theorem loop_regular (o c : String) (lx ly : ℝ) (srcs : List Src)
    (h1 : ∀ s ∈ srcs, ∃ r, s.rxs.filter (kind o c) = [r] ∧ (r.rows.filter fun w => near lx ly w).length ≤ 1) :
    ∃ l, loop o c lx ly srcs = some l ∧ l.map (·.1) = (readings o c lx ly srcs).map (·.1) ∧
      l.flatMap (·.2) = (readings o c lx ly srcs).map (·.2) := by
  induction srcs with
  | nil => exact ⟨[], rfl, rfl, rfl⟩
  | cons s ss ih =>
    obtain ⟨l, e1, e2, e3⟩ := ih fun s hs => h1 s (List.mem_cons_of_mem _ hs)
    obtain ⟨r, hr, hl⟩ := h1 s List.mem_cons_self
    have hread : readings o c lx ly (s :: ss) =
        (r.rows.filter fun w => near lx ly w).map (fun w => (s.freq, w)) ++ readings o c lx ly ss := by
      unfold readings
      rw [List.flatMap_cons, flatMap_kind, hr]
      simp
    rw [hread]
    simp only [loop, hr, e1]
    rcases hw : (r.rows.filter fun w => near lx ly w) with _ | ⟨w, _ | ⟨w', ws⟩⟩
    · exact ⟨l, by simp, by simpa using e2, by simpa using e3⟩
    · exact ⟨(s.freq, [w]) :: l, by simp, by simpa using e2, by simpa using e3⟩
    · rw [hw] at hl
      simp at hl

open Classical in
/-- C204. With one receiver of the kind for each source and stations apart, the curve of a station has all
its readings, with their frequencies; ValueError when there are none. -/
theorem C204_station (o c : String) (lx ly : ℝ) (srcs : List Src)
    (h : ∀ s ∈ srcs, ∃ r, s.rxs.filter (fun r => r.orient = o ∧ r.comp = c) = [r] ∧
      (r.rows.filter fun w => (w.x - lx) ^ 2 + (w.y - ly) ^ 2 < 1 / 100).length ≤ 1) :
    (readings o c lx ly srcs ≠ [] → extract o c lx ly srcs =
      .ok ((readings o c lx ly srcs).map (·.1), (readings o c lx ly srcs).map (·.2))) ∧
    (readings o c lx ly srcs = [] → extract o c lx ly srcs = .error .valueError) := by
  obtain ⟨l, e1, e2, e3⟩ := loop_regular o c lx ly srcs (by
    intro s hs
    obtain ⟨r, h1, h2⟩ := h s hs
    refine ⟨r, ?_, ?_⟩
    · rw [← h1]
      apply List.filter_congr
      intro r _
      rw [Bool.eq_iff_iff, kind_iff, decide_eq_true_iff]
    · simpa only [near_iff] using h2)
  unfold extract
  rw [e1]
  constructor
  · intro hne
    cases l with
    | nil => exact absurd (List.map_eq_nil_iff.mp e2.symm) hne
    | cons a l => simp only [e2, e3]
  · intro he
    rw [he] at e2
    rw [List.map_eq_nil_iff.mp e2]

/-- C204 (violation). A single frequency without a receiver of the kind removes the whole curve. -/
theorem C204_violated_missing (o c : String) (lx ly : ℝ) (srcs : List Src)
    (h : ∃ s ∈ srcs, ∀ r ∈ s.rxs, ¬ (r.orient = o ∧ r.comp = c)) :
    extract o c lx ly srcs = .ok ([], []) := by
  have hl : loop o c lx ly srcs = none := by
    induction srcs with
    | nil => obtain ⟨s, hs, -⟩ := h; simp at hs
    | cons s ss ih =>
      obtain ⟨t, ht, hk⟩ := h
      rcases List.mem_cons.mp ht with rfl | ht
      · have : t.rxs.filter (kind o c) = [] := by
          rw [List.filter_eq_nil_iff]
          intro r hr h'
          exact hk r hr ((kind_iff o c r).mp h')
        simp only [loop, this]
      · have := ih ⟨t, ht, hk⟩
        simp only [loop, this]
        cases s.rxs.filter (kind o c) <;> rfl
  unfold extract
  rw [hl]

/-- C204 (violation). Only the first receiver of the kind is read: with one receiver for each station, a
station other than the first has no curve, and ValueError is raised. -/
theorem C204_violated_second (o c : String) (lx ly f : ℝ) (a b : Row) (ha : 1 / 100 ≤ (a.x - lx) ^ 2 + (a.y - ly) ^ 2)
    (hb : (b.x - lx) ^ 2 + (b.y - ly) ^ 2 < 1 / 100) :
    let srcs : List Src := [⟨f, [⟨o, c, [a]⟩, ⟨o, c, [b]⟩]⟩]
    readings o c lx ly srcs = [(f, b)] ∧ extract o c lx ly srcs = .error .valueError := by
  have h1 : ¬ near lx ly a := fun h => absurd ((near_iff lx ly a).mp h) (not_lt.mpr ha)
  constructor
  · simp only [readings, List.flatMap_cons, List.flatMap_nil, List.append_nil, and_self, if_true]
    rw [List.filter_cons_of_neg (by simpa using ha), List.filter_cons_of_pos (by simpa using hb)]
    simp
  · simp [extract, loop, kind, h1]

/-- C204. The values drawn are the apparent resistivity, the phase in degrees and the amplitude of the
readings, one for each frequency, with error bars for uncertainties of relative error and noise floor. -/
theorem C204_values (mu0 : ℝ) (c : Comp) (o : String) (lx ly : ℝ) (srcs : List Src) (f g : List ℝ)
    (re im : List Row) (h1 : extract o "real" lx ly srcs = .ok (g, re))
    (h2 : extract o "imag" lx ly srcs = .ok (f, im)) (hr : re.length = f.length) (hi : im.length = f.length) :
    ∃ l, station mu0 c o lx ly srcs = .ok (f, l) ∧ l.length = f.length ∧
      ∀ i (hf : i < f.length),
        let x := re[i]'(hr ▸ hf)
        let y := im[i]'(hi ▸ hf)
        l[i]? = some
        (let z : ℂ := ⟨x.d, y.d⟩
         match c with
         | .appRes => ‖z‖ ^ 2 / (mu0 * (2 * Real.pi * f[i]))
         | .phase => z.arg * 180 / Real.pi
         | .amplitude => ‖z‖,
         bar mu0 c f[i] x.d y.d (x.std * |x.d| + x.floor) (y.std * |y.d| + y.floor)) := by
  refine ⟨(f.zip (re.zip im)).map fun p =>
        (value mu0 c p.1 p.2.1.d p.2.2.d, bar mu0 c p.1 p.2.1.d p.2.2.d (uncert p.2.1) (uncert p.2.2)), ?_, ?_, ?_⟩
  · simp only [station, h1, h2]
    rw [if_neg]
    omega
  · simp [hr, hi]
  · intro i hf x y
    · rw [List.getElem?_map, List.getElem?_eq_getElem (by simp [hr, hi]; exact hf), List.getElem_zip,
        List.getElem_zip]
      cases c <;> simp only [value, uncert, x, y, Option.map_some, Option.some.injEq, Prod.mk.injEq, and_true] <;> ring

theorem norm_mk (a b : ℝ) : ‖(⟨a, b⟩ : ℂ)‖ = Real.sqrt (a ^ 2 + b ^ 2) := by
  rw [Complex.norm_def, Complex.normSq_mk]
  congr 1
  ring

/-- C204. The error bar of an apparent resistivity is that of independent errors: its square is the sum of
the squares of the uncertainties times the partial derivatives. -/
theorem C204_resistivity_bar (mu0 f re im u v : ℝ) (hm : 0 < mu0) (hf : 0 < f) :
    ∃ a b, HasDerivAt (fun t => value mu0 .appRes f t im) a re ∧
      HasDerivAt (fun t => value mu0 .appRes f re t) b im ∧
      0 ≤ bar mu0 .appRes f re im u v ∧ bar mu0 .appRes f re im u v ^ 2 = (a * u) ^ 2 + (b * v) ^ 2 := by
  have hp := Real.pi_pos
  have hk : 0 < mu0 * (2 * Real.pi * f) := by positivity
  have hs : ∀ a b : ℝ, ‖(⟨a, b⟩ : ℂ)‖ ^ 2 = a ^ 2 + b ^ 2 := fun a b => by
    rw [norm_mk, Real.sq_sqrt (by positivity)]
  refine ⟨1 / (mu0 * (2 * Real.pi * f)) * (2 * re), 1 / (mu0 * (2 * Real.pi * f)) * (2 * im), ?_, ?_, ?_, ?_⟩
  · simp only [value, hs]
    exact ((((hasDerivAt_id re).pow 2).add_const _).const_mul _).congr_deriv (by simp)
  · simp only [value, hs]
    exact ((((hasDerivAt_id im).pow 2).const_add _).const_mul _).congr_deriv (by simp)
  · simp only [bar]
    positivity
  · simp only [bar]
    rw [mul_pow, Real.sq_sqrt (by positivity)]
    field_simp

/-- C204. The error bar of an amplitude is the largest change, to first order, for changes of the parts by
no more than their uncertainties. -/
theorem C204_amplitude_bar (mu0 f re im u v : ℝ) (hz : re ≠ 0 ∨ im ≠ 0) (hu : 0 ≤ u) (hv : 0 ≤ v) :
    (∀ p q, |p| ≤ u → |q| ≤ v → ∃ a, HasDerivAt (fun t => value mu0 .amplitude f (re + t * p) (im + t * q)) a 0 ∧
      |a| ≤ bar mu0 .amplitude f re im u v) ∧
    (∃ p q, |p| ≤ u ∧ |q| ≤ v ∧ HasDerivAt (fun t => value mu0 .amplitude f (re + t * p) (im + t * q))
      (bar mu0 .amplitude f re im u v) 0) := by
  have hpos : 0 < re ^ 2 + im ^ 2 := by
    rcases hz with h | h
    · have := sq_pos_of_ne_zero h; positivity
    · have := sq_pos_of_ne_zero h; positivity
  have hr : 0 < Real.sqrt (re ^ 2 + im ^ 2) := Real.sqrt_pos.mpr hpos
  have key : ∀ p q, HasDerivAt (fun t => value mu0 .amplitude f (re + t * p) (im + t * q))
      (1 / Real.sqrt (re ^ 2 + im ^ 2) * (re * p + im * q)) 0 := by
    intro p q
    simp only [value, norm_mk]
    have hg : ∀ a b : ℝ, HasDerivAt (fun t : ℝ => (a + t * b) ^ 2) (2 * a * b) 0 := by
      intro a b
      have h0 : HasDerivAt (fun t : ℝ => a + t * b) b 0 :=
        (((hasDerivAt_id (0 : ℝ)).mul_const b).const_add a).congr_deriv (by simp)
      exact (h0.pow 2).congr_deriv (by simp)
    have h1 := (hg re p).add (hg im q)
    have h2 := h1.sqrt (by simpa using hpos.ne')
    refine h2.congr_deriv ?_
    simp only [Pi.add_apply, zero_mul, add_zero]
    field_simp
  have hb : bar mu0 .amplitude f re im u v = 1 / Real.sqrt (re ^ 2 + im ^ 2) * (|re| * u + |im| * v) := by
    simp only [bar, norm_mk]
  constructor
  · intro p q hp hq
    refine ⟨_, key p q, ?_⟩
    rw [hb, abs_mul, abs_of_pos (by positivity : 0 < 1 / Real.sqrt (re ^ 2 + im ^ 2))]
    apply mul_le_mul_of_nonneg_left _ (by positivity)
    calc |re * p + im * q| ≤ |re * p| + |im * q| := abs_add_le _ _
      _ = |re| * |p| + |im| * |q| := by rw [abs_mul, abs_mul]
      _ ≤ _ := add_le_add (mul_le_mul_of_nonneg_left hp (abs_nonneg _))
          (mul_le_mul_of_nonneg_left hq (abs_nonneg _))
  · have hsign : ∀ a w : ℝ, 0 ≤ w → ∃ p, |p| ≤ w ∧ a * p = |a| * w := by
      intro a w hw
      rcases le_total 0 a with h | h
      · exact ⟨w, by rw [abs_of_nonneg hw], by rw [abs_of_nonneg h]⟩
      · exact ⟨-w, by rw [abs_neg, abs_of_nonneg hw], by rw [abs_of_nonpos h]; ring⟩
    obtain ⟨p, hp, ep⟩ := hsign re u hu
    obtain ⟨q, hq, eq⟩ := hsign im v hv
    refine ⟨p, q, hp, hq, ?_⟩
    rw [hb, ← ep, ← eq]
    exact key p q

/-- C204 (violation). The error bar of the phase takes each part with its own uncertainty, and their
difference: it is zero for equal products, as for a half space, where both parts and both uncertainties
agree, although every change of the imaginary part changes the phase. -/
theorem C204_violated_phase (mu0 f re im u v : ℝ) (hr : 0 < re) (h : re * u = im * v) :
    bar mu0 .phase f re im u v = 0 ∧ ∀ q, q ≠ 0 → value mu0 .phase f re (im + q) ≠ value mu0 .phase f re im := by
  constructor
  · simp [bar, h]
  · intro q hq he
    simp only [value] at he
    have hp := Real.pi_pos
    have h1 : Complex.arg ⟨re, im + q⟩ = Complex.arg ⟨re, im⟩ :=
      mul_right_cancel₀ (by positivity : (180 / Real.pi : ℝ) ≠ 0) he
    have h2 := congrArg Real.tan h1
    rw [Complex.tan_arg, Complex.tan_arg] at h2
    simp only at h2
    rw [div_left_inj' hr.ne'] at h2
    exact hq (by linarith)

/-- C204 (violation). Maps of a frequency always raise. -/
theorem C204_violated_map (frequency : ℝ) (srcs : List Src) :
    ((∃ s ∈ srcs, s.freq = frequency) → frequencyMap frequency srcs = .error .attributeError) ∧
    ¬ ∃ r, frequencyMap frequency srcs = .ok r := by
  unfold frequencyMap
  refine ⟨fun h => if_pos h, ?_⟩
  rintro ⟨r, h⟩
  split at h <;> simp at h

/-- C204. Both functions draw the same values, for the magnetic constant 4π·10⁻⁷. -/
theorem C204_iso (c : Comp) (f re im : ℝ) (hf : f ≠ 0) :
    isoValue c f re im = value (4 * Real.pi / 10 ^ 7) c f re im := by
  have hp := Real.pi_ne_zero
  cases c with
  | appRes =>
    simp only [isoValue, value]
    field_simp
    ring
  | phase => rfl
  | amplitude => rfl

theorem lookup_append {V : Type} (o d : List (String × V)) (k : String) :
    (o ++ d).lookup k = (o.lookup k).or (d.lookup k) := by
  induction o with
  | nil => rfl
  | cons kv o ih =>
    rw [List.cons_append, List.lookup_cons, List.lookup_cons, ih]
    cases k == kv.1 <;> rfl

theorem fill_some {V : Type} (e ds : List (String × V)) (o : List (String × V)) :
    ∃ r, ds.foldl (fun inp kv =>
      match inp with
      | none => some e
      | some o => some (if (o.lookup kv.1).isSome then o else o ++ [kv])) (some o) = some r ∧
      ∀ k, r.lookup k = (o.lookup k).or (ds.lookup k) := by
  induction ds generalizing o with
  | nil => exact ⟨o, rfl, fun k => by simp⟩
  | cons kv ds ih =>
    rw [List.foldl_cons]
    obtain ⟨r, h1, h2⟩ := ih (if (o.lookup kv.1).isSome then o else o ++ [kv])
    refine ⟨r, h1, fun k => ?_⟩
    rw [h2 k]
    by_cases hk : (o.lookup kv.1).isSome
    · rw [if_pos hk, List.lookup_cons]
      by_cases he : k = kv.1
      · subst he
        obtain ⟨v, hv⟩ := Option.isSome_iff_exists.mp hk
        rw [hv]
        rfl
      · have : (k == kv.1) = false := by simpa using he
        rw [this]
    · rw [if_neg hk, lookup_append, List.lookup_cons, List.lookup_cons, Option.or_assoc]
      cases hb : (k == kv.1) <;> simp

/-- C204. Options given by the user are kept, and missing ones have their defaults. -/
theorem C204_defaults {V : Type} (o ds : List (String × V)) :
    ∃ r, fillDefaults (some o) ds = some r ∧
      ∀ k, r.lookup k = match o.lookup k with
        | some v => some v
        | none => ds.lookup k := by
  obtain ⟨r, h1, h2⟩ := fill_some ds ds o
  refine ⟨r, h1, fun k => ?_⟩
  rw [h2 k]
  cases o.lookup k <;> rfl

/-- C204. Without options all are defaults. -/
theorem C204_no_options {V : Type} (d : String × V) (ds : List (String × V)) :
    ∃ r, fillDefaults none (d :: ds) = some r ∧ ∀ k, r.lookup k = (d :: ds).lookup k := by
  obtain ⟨r, h1, h2⟩ := fill_some (d :: ds) ds (d :: ds)
  refine ⟨r, h1, fun k => ?_⟩
  rw [h2 k, List.lookup_cons]
  cases (k == d.1) with
  | true => rfl
  | false => cases ds.lookup k <;> rfl

/-- Two frequencies and one station. -/
example : extract "xy" "real" 0 0 [⟨10, [⟨"xy", "real", [⟨0, 0, 3, 0, 0⟩]⟩]⟩, ⟨20, [⟨"xy", "real", [⟨0, 0, 4, 0, 0⟩]⟩]⟩]
    = .ok ([10, 20], [⟨0, 0, 3, 0, 0⟩, ⟨0, 0, 4, 0, 0⟩]) := by
  simp [extract, loop, kind, near]

/-- Equal parts and uncertainties. -/
example : bar 1 .phase 1 2 2 1 1 = 0 := (C204_violated_phase 1 1 2 2 1 1 (by norm_num) rfl).1

end Props
end Verif.NSEM.StationPlot
