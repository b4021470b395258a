import Verif.NSEM.Layered
import Mathlib.Data.Finset.Sort
import Mathlib.Analysis.SpecialFunctions.Complex.LogDeriv

/-!
C137: data, sensitivities and stored results of the layered magnetotelluric simulation
(`simpeg/electromagnetics/natural_source/simulation_1d.py`).
-/

noncomputable section
namespace Verif.NSEM.Layered
open Complex Matrix

/-! ### The code -/

/-- `Impedance.component`, as validated
(`simpeg/electromagnetics/natural_source/receivers.py` 253-276). -/
inductive Comp | real | imag | rhoa | phase | complex
  deriving DecidableEq

/-- An impedance receiver: its component and its number of locations, `nD`
(`simpeg/electromagnetics/natural_source/receivers.py` 69-79). Its orientation and locations are not
read by the simulation. -/
structure Rx where
  comp : Comp
  nD : ℕ

/-- A source. -/
structure Src where
  freq : ℝ
  rxs : List Rx

/-- `survey.frequencies`, sorted without repetitions
(`simpeg/electromagnetics/frequency_domain/survey.py` 18-25). The keys of a dictionary are written as
a finite set. -/
def frequencies (srcs : List Src) : List ℝ := (srcs.map Src.freq).toFinset.sort (· ≤ ·)

/-- `np.searchsorted` of a sorted array, side left: how many entries are smaller
(`simpeg/electromagnetics/natural_source/simulation_1d.py` 242, 289). -/
def searchsorted (fs : List ℝ) (f : ℝ) : ℕ := fs.countP (fun g => decide (g < f))

/-- The datum of a component (`simpeg/electromagnetics/natural_source/simulation_1d.py` 244-256). A
component not in the list adds no datum. -/
def datum (μ : ℝ) (f : ℝ) (Z : ℂ) : Comp → Option ℝ
  | .real => some Z.re
  | .imag => some Z.im
  | .rhoa => some (‖Z‖ ^ 2 / (2 * Real.pi * f * μ))
  | .phase => some (180.0 / Real.pi * arg Z)
  | .complex => none

/-- The loop of `dpred` over the sources (`simpeg/electromagnetics/natural_source/simulation_1d.py`
241-256): `Z` is an array over `survey.frequencies`, indexed by `i_freq` for every receiver. -/
def dataLoop (μ : ℝ) (fs : List ℝ) (Z : List ℂ) : List Src → List ℝ → Except Err (List ℝ)
  | [], d => .ok d
  | src :: rest, d =>
    match Z[searchsorted fs src.freq]? with
    | none => if src.rxs.isEmpty then dataLoop μ fs Z rest d else .error .indexError
    | some z => dataLoop μ fs Z rest (d ++ src.rxs.filterMap (fun rx => datum μ src.freq z rx.comp))

/-- `dpred`, from the impedance as a function of frequency
(`simpeg/electromagnetics/natural_source/simulation_1d.py` 225-258). -/
def dpred (μ : ℝ) (srcs : List Src) (Zf : ℝ → ℂ) : Except Err (List ℝ) :=
  dataLoop μ (frequencies srcs) ((frequencies srcs).map Zf) srcs []

/-- An entry of `Jrows` from an entry of `Js_row`
(`simpeg/electromagnetics/natural_source/simulation_1d.py` 292-307); `none` if no branch applies. -/
def rowEntry (μ : ℝ) (f : ℝ) (Z dz : ℂ) : Comp → Option ℝ
  | .real => some dz.re
  | .imag => some dz.im
  | .rhoa => some ((Real.pi * f * μ)⁻¹ * (Z.re * dz.re + Z.im * dz.im))
  | .phase =>
    let bot := Z.re ^ 2 + Z.im ^ 2
    some (180 / Real.pi * (-Z.im / bot * dz.re + Z.re / bot * dz.im))
  | .complex => none

/-- A row of the stored matrices: derivatives with respect to conductivities and thicknesses. -/
abbrev Row (n : ℕ) := (Fin (n + 1) → ℝ) × (Fin n → ℝ)

/-- `Jrows` of a receiver (`simpeg/electromagnetics/natural_source/simulation_1d.py` 292-307). -/
def mkRow {n : ℕ} (μ f : ℝ) (Z : ℂ) (ds : Fin (n + 1) → ℂ) (dt : Fin n → ℂ) (c : Comp) : Option (Row n) :=
  if c = .complex then none
  else some (fun k => (rowEntry μ f Z (ds k) c).getD 0, fun k => (rowEntry μ f Z (dt k) c).getD 0)

/-- The loop over the receivers of a source: `Jrows` keeps its value from before when no branch applies,
and does not exist before the first branch was taken; `J[start:end] = Jrows` repeats the row `nD` times
(`simpeg/electromagnetics/natural_source/simulation_1d.py` 291-310). -/
def rxLoop {n : ℕ} (row : Comp → Option (Row n)) : List Rx → Option (Row n) × List (Row n) →
    Except Err (Option (Row n) × List (Row n))
  | [], s => .ok s
  | rx :: rest, (last, J) =>
    match (row rx.comp).orElse (fun _ => last) with
    | none => .error .exception
    | some r => rxLoop row rest (some r, J ++ List.replicate rx.nD r)

/-- The loop of `getJ` over the sources (`simpeg/electromagnetics/natural_source/simulation_1d.py`
288-310). -/
def srcLoop {n : ℕ} (μ : ℝ) (fs : List ℝ) (Zf : ℝ → ℂ) (dsf : ℝ → Fin (n + 1) → ℂ) (dtf : ℝ → Fin n → ℂ) :
    List Src → Option (Row n) × List (Row n) → Except Err (Option (Row n) × List (Row n))
  | [], s => .ok s
  | src :: rest, s =>
    match fs[searchsorted fs src.freq]? with
    | none => .error .indexError
    | some g =>
      match rxLoop (mkRow μ src.freq (Zf g) (dsf g) (dtf g)) src.rxs s with
      | .error e => .error e
      | .ok s' => srcLoop μ fs Zf dsf dtf rest s'

/-- `getJ` without its cache: the rows of the stored matrices
(`simpeg/electromagnetics/natural_source/simulation_1d.py` 272-310). -/
def getJ {n : ℕ} (μ : ℝ) (srcs : List Src) (Zf : ℝ → ℂ) (dsf : ℝ → Fin (n + 1) → ℂ) (dtf : ℝ → Fin n → ℂ) :
    Except Err (List (Row n)) :=
  (srcLoop μ (frequencies srcs) Zf dsf dtf srcs (none, [])).map Prod.snd

/-- A product with an optional derivative: a property without a map is skipped
(`simpeg/electromagnetics/natural_source/simulation_1d.py` 343-359). -/
def optVec {k p : ℕ} (D : Option (Matrix (Fin k) (Fin p) ℝ)) (row : Fin k → ℝ) (v : Fin p → ℝ) : ℝ :=
  match D with
  | none => 0
  | some A => row ⬝ᵥ (A *ᵥ v)
def optTvec {k p d : ℕ} (D : Option (Matrix (Fin k) (Fin p) ℝ)) (rows : Fin d → Fin k → ℝ) (v : Fin d → ℝ) :
    Fin p → ℝ :=
  match D with
  | none => 0
  | some A => Aᵀ *ᵥ ((Matrix.of rows)ᵀ *ᵥ v)

/-- `Jvec` (`simpeg/electromagnetics/natural_source/simulation_1d.py` 342-349). -/
def Jvec {n p d : ℕ} (S' : Option (Matrix (Fin (n + 1)) (Fin p) ℝ)) (T' : Option (Matrix (Fin n) (Fin p) ℝ))
    (J : Fin d → Row n) (v : Fin p → ℝ) (i : Fin d) : ℝ :=
  optVec S' (J i).1 v + optVec T' (J i).2 v

/-- `Jtvec` (`simpeg/electromagnetics/natural_source/simulation_1d.py` 351-358). -/
def Jtvec {n p d : ℕ} (S' : Option (Matrix (Fin (n + 1)) (Fin p) ℝ)) (T' : Option (Matrix (Fin n) (Fin p) ℝ))
    (J : Fin d → Row n) (v : Fin d → ℝ) : Fin p → ℝ :=
  optTvec S' (fun i => (J i).1) v + optTvec T' (fun i => (J i).2) v

/-- The contribution of one property to `gtgdiag`. -/
def optDiag {k p d : ℕ} (D : Option (Matrix (Fin k) (Fin p) ℝ)) (rows : Fin d → Fin k → ℝ) (w : Fin d → ℝ)
    (j : Fin p) : ℝ :=
  match D with
  | none => 0
  | some A => ∑ i, w i * (rows i ᵥ* A) j * (rows i ᵥ* A) j

/-- `getJtJdiag` without its cache (`simpeg/electromagnetics/natural_source/simulation_1d.py` 325-340);
`w` is the diagonal of `W` squared, or ones. -/
def JtJdiag {n p d : ℕ} (S' : Option (Matrix (Fin (n + 1)) (Fin p) ℝ)) (T' : Option (Matrix (Fin n) (Fin p) ℝ))
    (J : Fin d → Row n) (W : Option (Fin d → ℝ)) (j : Fin p) : ℝ :=
  let w := match W with
    | none => fun _ => 1
    | some W => fun i => W i ^ 2
  optDiag S' (fun i => (J i).1) w j + optDiag T' (fun i => (J i).2) w j

/-- The stored results. `M` are models, `A` matrices, `V` diagonals. -/
structure Sim (M A V : Type) where
  fixJ : Bool
  model : Option M := none
  jmat : Option A := none
  gtg : Option V := none

section cache
variable {M A V Ws : Type} [DecidableEq M]

/-- `self.model = m`: a new value deletes what is listed in `_delete_on_model_update`
(`simpeg/electromagnetics/natural_source/simulation_1d.py` 360-367, `simpeg/props.py` 442-476). -/
def Sim.setModel (s : Sim M A V) (m : M) : Sim M A V :=
  if s.model = some m then s
  else if s.fixJ then { s with model := some m }
  else { s with model := some m, jmat := none, gtg := none }

/-- `getJ` (`simpeg/electromagnetics/natural_source/simulation_1d.py` 268-271, 311-323). -/
def Sim.getJ (J : M → A) (s : Sim M A V) (m : M) : A × Sim M A V :=
  let s := s.setModel m
  match s.jmat with
  | some a => (a, s)
  | none => (J m, { s with jmat := some (J m) })

/-- `getJtJdiag`; the derivatives of the maps are those of `self.model`, which `getJ` has set to `m`
(`simpeg/electromagnetics/natural_source/simulation_1d.py` 325-340). -/
def Sim.getJtJdiag (J : M → A) (diag : M → A → Ws → V) (s : Sim M A V) (m : M) (W : Ws) : V × Sim M A V :=
  match s.gtg with
  | some g => (g, s)
  | none =>
    let (a, s) := s.getJ J m
    (diag m a W, { s with gtg := some (diag m a W) })

/-- What a user can call. `dpred` sets the model and stores nothing; `Jvec` and `Jtvec` call `getJ`. -/
inductive Call (M Ws : Type)
  | setModel (m : M) | dpred (m : M) | getJ (m : M) | diag (m : M) (W : Ws)

def Sim.call (J : M → A) (diag : M → A → Ws → V) (s : Sim M A V) : Call M Ws → Sim M A V
  | .setModel m => s.setModel m
  | .dpred m => s.setModel m
  | .getJ m => (s.getJ J m).2
  | .diag m W => (s.getJtJdiag J diag m W).2

end cache

/-! ### Lemmas -/

theorem freq_mem {srcs : List Src} {src : Src} (h : src ∈ srcs) : src.freq ∈ frequencies srcs := by
  simp only [frequencies, Finset.mem_sort, List.mem_toFinset, List.mem_map]
  exact ⟨src, h, rfl⟩

theorem searchsorted_get : ∀ {fs : List ℝ} (_ : fs.Pairwise (· < ·)) {f : ℝ} (_ : f ∈ fs),
    fs[searchsorted fs f]? = some f
  | g :: fs, hs, f, hf => by
    rw [List.pairwise_cons] at hs
    rcases List.mem_cons.1 hf with rfl | h
    · have : (f :: fs).countP (fun g => decide (g < f)) = 0 := by
        rw [List.countP_eq_zero]
        intro x hx
        rcases List.mem_cons.1 hx with rfl | h
        · simp
        · simpa using (hs.1 x h).le
      rw [searchsorted, this]; rfl
    · have hlt := hs.1 f h
      have := searchsorted_get hs.2 h
      rw [searchsorted, List.countP_cons, if_pos (by simpa using hlt)]
      simpa [searchsorted] using this

theorem frequencies_get {srcs : List Src} {src : Src} (h : src ∈ srcs) :
    (frequencies srcs)[searchsorted (frequencies srcs) src.freq]? = some src.freq :=
  searchsorted_get (Finset.sortedLT_sort _).pairwise (freq_mem h)

/-- What a user expects: the data of all receivers of all sources, in order. -/
def dataSpec (μ : ℝ) (srcs : List Src) (Zf : ℝ → ℂ) : List ℝ :=
  srcs.flatMap fun src => src.rxs.filterMap fun rx => datum μ src.freq (Zf src.freq) rx.comp

def rowsSpec {n : ℕ} (μ : ℝ) (srcs : List Src) (Zf : ℝ → ℂ) (dsf : ℝ → Fin (n + 1) → ℂ) (dtf : ℝ → Fin n → ℂ) :
    List (Row n) :=
  srcs.flatMap fun src => src.rxs.filterMap fun rx => mkRow μ src.freq (Zf src.freq) (dsf src.freq) (dtf src.freq) rx.comp

/-- The derivative of a datum. -/
theorem datum_deriv {V : Type*} [NormedAddCommGroup V] [NormedSpace ℝ V] {x : V} {Z : V → ℂ} {D : V →L[ℝ] ℂ}
    (hZ : HasFDerivAt Z D x) (him : (Z x).im ≠ 0) {μ f : ℝ} {c : Comp} (hc : c ≠ .complex) :
    ∃ D' : V →L[ℝ] ℝ, HasFDerivAt (fun y => (datum μ f (Z y) c).getD 0) D' x ∧
      ∀ v, D' v = (rowEntry μ f (Z x) (D v) c).getD 0 := by
  have hre := reCLM.hasFDerivAt.comp x hZ
  have hii := imCLM.hasFDerivAt.comp x hZ
  cases c with
  | real => exact ⟨_, hre, fun v => rfl⟩
  | imag => exact ⟨_, hii, fun v => rfl⟩
  | complex => exact absurd rfl hc
  | rhoa =>
    have h := ((hre.mul hre).add (hii.mul hii)).mul_const (2 * Real.pi * f * μ)⁻¹
    refine ⟨_, h.congr_of_eventuallyEq (Filter.Eventually.of_forall fun y => ?_), fun v => ?_⟩
    · simp [datum, ← Complex.normSq_eq_norm_sq, normSq_apply, div_eq_mul_inv]
    · simp [rowEntry]
      ring
  | phase =>
    have hsl : Z x ∈ slitPlane := Or.inr him
    have hlog := (Complex.hasDerivAt_log hsl).comp_hasFDerivAt x hZ
    have h := (imCLM.hasFDerivAt.comp x hlog).const_mul (180.0 / Real.pi)
    refine ⟨_, h.congr_of_eventuallyEq (Filter.Eventually.of_forall fun y => ?_), fun v => ?_⟩
    · simp [datum, Complex.log_im]
    · simp [rowEntry, Complex.inv_re, Complex.inv_im, normSq_apply]
      norm_num
      ring

theorem dataLoop_eq {μ : ℝ} {all : List Src} {Zf : ℝ → ℂ} : ∀ (srcs : List Src), (∀ x ∈ srcs, x ∈ all) → ∀ d,
    dataLoop μ (frequencies all) ((frequencies all).map Zf) srcs d = .ok (d ++ dataSpec μ srcs Zf)
  | [], _, d => by simp [dataLoop, dataSpec]
  | src :: rest, h, d => by
    have hg : ((frequencies all).map Zf)[searchsorted (frequencies all) src.freq]? = some (Zf src.freq) := by
      rw [List.getElem?_map, frequencies_get (h src (by simp))]; rfl
    rw [dataLoop, hg]
    simp only
    rw [dataLoop_eq rest (fun x hx => h x (by simp [hx]))]
    simp [dataSpec]

theorem rxLoop_eq {n : ℕ} {row : Comp → Option (Row n)} : ∀ (rxs : List Rx),
    (∀ rx ∈ rxs, rx.nD = 1 ∧ (row rx.comp).isSome) → ∀ s, ∃ last,
    rxLoop row rxs s = .ok (last, s.2 ++ rxs.filterMap fun rx => row rx.comp)
  | [], _, s => ⟨s.1, by simp [rxLoop]⟩
  | rx :: rest, h, (l, J) => by
    obtain ⟨h1, h2⟩ := h rx (by simp)
    obtain ⟨r, hr⟩ := Option.isSome_iff_exists.1 h2
    obtain ⟨last, hl⟩ := rxLoop_eq rest (fun x hx => h x (by simp [hx])) (some r, J ++ List.replicate rx.nD r)
    refine ⟨last, ?_⟩
    rw [rxLoop, hr]
    simp only [Option.orElse_some]
    rw [hl, h1]
    simp [hr]

theorem srcLoop_eq {n : ℕ} {μ : ℝ} {all : List Src} {Zf : ℝ → ℂ} {dsf : ℝ → Fin (n + 1) → ℂ} {dtf : ℝ → Fin n → ℂ} :
    ∀ (srcs : List Src), (∀ x ∈ srcs, x ∈ all) → (∀ x ∈ srcs, ∀ rx ∈ x.rxs, rx.nD = 1 ∧ rx.comp ≠ .complex) → ∀ s,
    ∃ last, srcLoop μ (frequencies all) Zf dsf dtf srcs s = .ok (last, s.2 ++ rowsSpec μ srcs Zf dsf dtf)
  | [], _, _, s => ⟨s.1, by simp [srcLoop, rowsSpec]⟩
  | src :: rest, h, hr, s => by
    obtain ⟨l1, h1⟩ := rxLoop_eq (row := mkRow μ src.freq (Zf src.freq) (dsf src.freq) (dtf src.freq)) src.rxs
      (fun rx hrx => ⟨(hr src (by simp) rx hrx).1, by simp [mkRow, (hr src (by simp) rx hrx).2]⟩) s
    obtain ⟨l2, h2⟩ := srcLoop_eq rest (fun x hx => h x (by simp [hx])) (fun x hx => hr x (by simp [hx]))
      (l1, s.2 ++ src.rxs.filterMap fun rx => mkRow μ src.freq (Zf src.freq) (dsf src.freq) (dtf src.freq) rx.comp)
    refine ⟨l2, ?_⟩
    rw [srcLoop, frequencies_get (h src (by simp))]
    simp only
    rw [h1]
    simp only
    rw [h2]
    simp [rowsSpec]

/-- Frequency and component of every receiver of the survey, in order. -/
def specs (srcs : List Src) : List (ℝ × Comp) := srcs.flatMap fun src => src.rxs.map fun rx => (src.freq, rx.comp)

theorem dataSpec_eq {μ : ℝ} {Zf : ℝ → ℂ} : ∀ {srcs : List Src}, (∀ x ∈ srcs, ∀ rx ∈ x.rxs, rx.comp ≠ .complex) →
    dataSpec μ srcs Zf = (specs srcs).map fun q => (datum μ q.1 (Zf q.1) q.2).getD 0
  | [], _ => rfl
  | src :: rest, h => by
    have ih := dataSpec_eq (μ := μ) (Zf := Zf) (fun x hx => h x (by simp [hx]) : ∀ x ∈ rest, _)
    have e : ∀ rxs : List Rx, (∀ rx ∈ rxs, rx.comp ≠ .complex) →
        rxs.filterMap (fun rx => datum μ src.freq (Zf src.freq) rx.comp) =
        (rxs.map fun rx => (src.freq, rx.comp)).map fun q => (datum μ q.1 (Zf q.1) q.2).getD 0 := by
      intro rxs
      induction rxs with
      | nil => intro _; rfl
      | cons rx rxs ih =>
        intro h
        have : ∃ d, datum μ src.freq (Zf src.freq) rx.comp = some d := by
          have := h rx (by simp)
          cases hc : rx.comp <;> simp_all [datum]
        obtain ⟨d, hd⟩ := this
        rw [List.filterMap_cons, hd]
        simp only
        rw [ih (fun x hx => h x (by simp [hx]))]
        simp [hd]
    simp only [dataSpec, specs, List.flatMap_cons, List.map_append] at ih ⊢
    rw [ih, e src.rxs (h src (by simp))]

theorem rowsSpec_eq {n : ℕ} {μ : ℝ} {Zf : ℝ → ℂ} {dsf : ℝ → Fin (n + 1) → ℂ} {dtf : ℝ → Fin n → ℂ} :
    ∀ {srcs : List Src}, (∀ x ∈ srcs, ∀ rx ∈ x.rxs, rx.comp ≠ .complex) →
    rowsSpec μ srcs Zf dsf dtf = (specs srcs).map fun q =>
      (fun k => (rowEntry μ q.1 (Zf q.1) (dsf q.1 k) q.2).getD 0, fun k => (rowEntry μ q.1 (Zf q.1) (dtf q.1 k) q.2).getD 0)
  | [], _ => rfl
  | src :: rest, h => by
    have ih := rowsSpec_eq (μ := μ) (Zf := Zf) (dsf := dsf) (dtf := dtf) (fun x hx => h x (by simp [hx]) : ∀ x ∈ rest, _)
    have e : ∀ rxs : List Rx, (∀ rx ∈ rxs, rx.comp ≠ .complex) →
        rxs.filterMap (fun rx => mkRow μ src.freq (Zf src.freq) (dsf src.freq) (dtf src.freq) rx.comp) =
        (rxs.map fun rx => (src.freq, rx.comp)).map fun q =>
          ((fun k => (rowEntry μ q.1 (Zf q.1) (dsf q.1 k) q.2).getD 0,
            fun k => (rowEntry μ q.1 (Zf q.1) (dtf q.1 k) q.2).getD 0) : Row n) := by
      intro rxs
      induction rxs with
      | nil => intro _; rfl
      | cons rx rxs ih =>
        intro h
        rw [List.filterMap_cons, mkRow, if_neg (h rx (by simp))]
        simp only
        rw [ih (fun x hx => h x (by simp [hx]))]
        rfl
    simp only [rowsSpec, specs, List.flatMap_cons, List.map_append] at ih ⊢
    rw [ih, e src.rxs (h src (by simp))]

theorem rowEntry_add (μ f : ℝ) (Z u v : ℂ) (c : Comp) : (rowEntry μ f Z (u + v) c).getD 0 =
    (rowEntry μ f Z u c).getD 0 + (rowEntry μ f Z v c).getD 0 := by
  cases c <;> simp [rowEntry] <;> ring

theorem rowEntry_zero (μ f : ℝ) (Z : ℂ) (c : Comp) : (rowEntry μ f Z 0 c).getD 0 = 0 := by
  cases c <;> simp [rowEntry]

theorem rowEntry_mul (μ f : ℝ) (Z u : ℂ) (a : ℝ) (c : Comp) : (rowEntry μ f Z (u * a) c).getD 0 =
    (rowEntry μ f Z u c).getD 0 * a := by
  cases c <;> simp [rowEntry] <;> ring

theorem rowEntry_sum {ι : Type*} (s : Finset ι) (μ f : ℝ) (Z : ℂ) (u : ι → ℂ) (a : ι → ℝ) (c : Comp) :
    (rowEntry μ f Z (∑ k ∈ s, u k * (a k : ℝ)) c).getD 0 = ∑ k ∈ s, (rowEntry μ f Z (u k) c).getD 0 * a k := by
  classical
  induction s using Finset.induction_on with
  | empty => simpa using rowEntry_zero μ f Z c
  | insert k s hk ih => rw [Finset.sum_insert hk, Finset.sum_insert hk, rowEntry_add, ih, rowEntry_mul]

/-- The derivative of a property: none if it has no map, when it does not depend on the model. -/
def OptJac {k p : ℕ} (F : (Fin p → ℝ) → Fin k → ℝ) (D : Option (Matrix (Fin k) (Fin p) ℝ)) (m : Fin p → ℝ) : Prop :=
  match D with
  | none => ∀ m', F m' = F m
  | some A => IsJacobian F A m

theorem OptJac.deriv {k p : ℕ} {F : (Fin p → ℝ) → Fin k → ℝ} {D : Option (Matrix (Fin k) (Fin p) ℝ)} {m : Fin p → ℝ}
    (h : OptJac F D m) : IsJacobian F (D.getD 0) m := by
  cases D with
  | none =>
    have : F = fun _ => F m := funext h
    rw [this]
    exact isJacobian_const _ _
  | some A => exact h

theorem optVec_eq {k p : ℕ} (D : Option (Matrix (Fin k) (Fin p) ℝ)) (row : Fin k → ℝ) (v : Fin p → ℝ) :
    optVec D row v = row ⬝ᵥ (D.getD 0 *ᵥ v) := by
  cases D <;> simp [optVec]

theorem optTvec_eq {k p d : ℕ} (D : Option (Matrix (Fin k) (Fin p) ℝ)) (rows : Fin d → Fin k → ℝ) (v : Fin d → ℝ) :
    optTvec D rows v = (D.getD 0)ᵀ *ᵥ ((Matrix.of rows)ᵀ *ᵥ v) := by
  cases D <;> simp [optTvec]

theorem optDiag_eq {k p d : ℕ} (D : Option (Matrix (Fin k) (Fin p) ℝ)) (rows : Fin d → Fin k → ℝ) (w : Fin d → ℝ)
    (j : Fin p) : optDiag D rows w j = ∑ i, w i * (rows i ᵥ* D.getD 0) j ^ 2 := by
  cases D
  · simp [optDiag]
  · simp only [optDiag, Option.getD_some]
    exact Finset.sum_congr rfl fun i _ => by ring

/-! ### C137 -/

namespace Props

/-- A survey for which data and sensitivities have the same length. -/
def Plain (srcs : List Src) : Prop := ∀ x ∈ srcs, ∀ rx ∈ x.rxs, rx.nD = 1 ∧ rx.comp ≠ .complex

/-- The matrix of `Jvec`: its column `j` is the product with the unit vector `j`. -/
def Jfull {n p d : ℕ} (S' : Option (Matrix (Fin (n + 1)) (Fin p) ℝ)) (T' : Option (Matrix (Fin n) (Fin p) ℝ))
    (J : Fin d → Row n) : Matrix (Fin d) (Fin p) ℝ := Matrix.of fun i j => Jvec S' T' J (Pi.single j 1) i

theorem Jfull_eq {n p d : ℕ} (S' : Option (Matrix (Fin (n + 1)) (Fin p) ℝ)) (T' : Option (Matrix (Fin n) (Fin p) ℝ))
    (J : Fin d → Row n) (i : Fin d) (j : Fin p) :
    Jfull S' T' J i j = ((J i).1 ᵥ* S'.getD 0) j + ((J i).2 ᵥ* T'.getD 0) j := by
  simp [Jfull, Jvec, optVec_eq]
  rfl

theorem Jfull_mulVec {n p d : ℕ} (S' : Option (Matrix (Fin (n + 1)) (Fin p) ℝ)) (T' : Option (Matrix (Fin n) (Fin p) ℝ))
    (J : Fin d → Row n) (i : Fin d) (v : Fin p → ℝ) :
    Jfull S' T' J i ⬝ᵥ v = (J i).1 ⬝ᵥ (S'.getD 0 *ᵥ v) + (J i).2 ⬝ᵥ (T'.getD 0 *ᵥ v) := by
  rw [dotProduct_mulVec, dotProduct_mulVec, ← add_dotProduct]
  congr 1
  funext j
  exact Jfull_eq S' T' J i j

/-- **C137.** Predicted data are those of all receivers of all sources in their order, each from the
impedance at the frequency of its source, whatever the order and repetitions of the frequencies. -/
theorem C137_data (μ : ℝ) (srcs : List Src) (Zf : ℝ → ℂ) : dpred μ srcs Zf =
    .ok (srcs.flatMap fun src => src.rxs.filterMap fun rx => datum μ src.freq (Zf src.freq) rx.comp) := by
  rw [dpred, dataLoop_eq srcs (fun _ h => h)]
  simp [dataSpec]

/-- **C137.** The apparent resistivity of a uniform Earth is its resistivity, and its phase -135
degrees, at every frequency and for any layers. -/
theorem C137_uniform {n : ℕ} {μ f c : ℝ} (hμ : 0 < μ) (hf : 0 < f) (hc : 0 < c) {s : Fin (n + 1) → ℝ}
    {h : Fin n → ℝ} (hs : ∀ k, s k = c) (hh : ∀ k, 0 ≤ h k) :
    dpred μ [⟨f, [⟨.rhoa, 1⟩, ⟨.phase, 1⟩]⟩] (fun f => impedance (2 * Real.pi * f) μ s h) =
      .ok [1 / c, -135] := by
  have hω : 0 < 2 * Real.pi * f := by positivity
  obtain ⟨h1, h2⟩ := C136_uniform hω hμ hc hs hh
  rw [C137_data]
  simp only [List.flatMap_cons, List.flatMap_nil, List.filterMap_cons, List.filterMap_nil, datum, h1, h2]
  have : 180.0 / Real.pi * -(3 * Real.pi / 4) = -135 := by
    have := Real.pi_ne_zero
    field_simp
    norm_num
  simp [this]

/-- **C137.** Phases are between -180 and -90 degrees and apparent resistivities positive, so that no
branch cut of the phase is crossed. -/
theorem C137_range {n : ℕ} {μ f : ℝ} (hμ : 0 < μ) (hf : 0 < f) {s : Fin (n + 1) → ℝ}
    {h : Fin n → ℝ} (hs : ∀ k, 0 < s k) (hh : ∀ k, 0 ≤ h k) :
    ∃ r φ, dpred μ [⟨f, [⟨.rhoa, 1⟩, ⟨.phase, 1⟩]⟩] (fun f => impedance (2 * Real.pi * f) μ s h) = .ok [r, φ] ∧
      0 < r ∧ -180 < φ ∧ φ < -90 := by
  have hω : 0 < 2 * Real.pi * f := by positivity
  obtain ⟨h1, h2⟩ := C136_quadrant hω hμ hs hh
  have hπ := Real.pi_pos
  set Z := impedance (2 * Real.pi * f) μ s h with hZ
  refine ⟨_, _, C137_data μ _ _, ?_, ?_, ?_⟩
  · have : Z ≠ 0 := by intro h0; rw [h0] at h1; simp at h1
    positivity
  · have h3 := neg_pi_lt_arg Z
    rw [div_mul_eq_mul_div, lt_div_iff₀ hπ]
    norm_num
    nlinarith
  · have h3 : arg Z < -(Real.pi / 2) := by
      by_contra hge
      push Not at hge
      rw [Complex.neg_pi_div_two_le_arg_iff] at hge
      rcases hge with hge | hge <;> linarith
    rw [div_mul_eq_mul_div, div_lt_iff₀ hπ]
    norm_num
    nlinarith

/-- **C137** (main result). For every survey whose receivers have one location and are real, imaginary,
apparent resistivity or phase, every pair of maps of conductivities and thicknesses and every model with
positive conductivities: the matrix of `Jvec` is the Jacobian of the predicted data. -/
theorem C137_sensitivity_partial {n p : ℕ} {μ : ℝ} (hμ : 0 < μ) {srcs : List Src} (hp : Plain srcs)
    (hf : ∀ x ∈ srcs, 0 < x.freq) {S : (Fin p → ℝ) → Fin (n + 1) → ℝ} {T : (Fin p → ℝ) → Fin n → ℝ}
    {S' : Option (Matrix (Fin (n + 1)) (Fin p) ℝ)} {T' : Option (Matrix (Fin n) (Fin p) ℝ)} {m : Fin p → ℝ}
    (hS : OptJac S S' m) (hT : OptJac T T' m) (hs : ∀ k, 0 < S m k) (hh : ∀ k, 0 ≤ T m k) :
    ∃ (d : ℕ) (F : (Fin p → ℝ) → Fin d → ℝ) (J : Fin d → Row n),
      (∀ m', dpred μ srcs (fun f => impedance (2 * Real.pi * f) μ (S m') (T m')) = .ok (List.ofFn (F m'))) ∧
      getJ μ srcs (fun f => impedance (2 * Real.pi * f) μ (S m) (T m))
        (fun f => impedanceDsigma (2 * Real.pi * f) μ (S m) (T m))
        (fun f => impedanceDthick (2 * Real.pi * f) μ (S m) (T m)) = .ok (List.ofFn J) ∧
      IsJacobian F (Jfull S' T' J) m := by
  have hnc : ∀ x ∈ srcs, ∀ rx ∈ x.rxs, rx.comp ≠ .complex := fun x hx rx hrx => (hp x hx rx hrx).2
  let q : Fin (specs srcs).length → ℝ × Comp := fun i => (specs srcs)[i]
  have hq : ∀ i, 0 < (q i).1 ∧ (q i).2 ≠ .complex := by
    intro i
    have hm : q i ∈ specs srcs := List.getElem_mem _
    simp only [specs, List.mem_flatMap, List.mem_map] at hm
    obtain ⟨x, hx, rx, hrx, e⟩ := hm
    rw [← e]
    exact ⟨hf x hx, hnc x hx rx hrx⟩
  have hofn : ∀ {α : Type} (g : ℝ × Comp → α), (specs srcs).map g = List.ofFn fun i => g (q i) := by
    intro α g
    conv_lhs => rw [← List.ofFn_getElem (xs := specs srcs)]
    rw [List.map_ofFn]
    rfl
  refine ⟨_, fun m' i => (datum μ (q i).1 (impedance (2 * Real.pi * (q i).1) μ (S m') (T m')) (q i).2).getD 0,
    fun i => (fun k => (rowEntry μ (q i).1 (impedance (2 * Real.pi * (q i).1) μ (S m) (T m))
        (impedanceDsigma (2 * Real.pi * (q i).1) μ (S m) (T m) k) (q i).2).getD 0,
      fun k => (rowEntry μ (q i).1 (impedance (2 * Real.pi * (q i).1) μ (S m) (T m))
        (impedanceDthick (2 * Real.pi * (q i).1) μ (S m) (T m) k) (q i).2).getD 0), ?_, ?_, ?_⟩
  · intro m'
    rw [dpred, dataLoop_eq srcs (fun _ h => h), dataSpec_eq hnc, hofn]
    rfl
  · obtain ⟨l, hl⟩ := srcLoop_eq (n := n) (μ := μ) (all := srcs)
      (Zf := fun f => impedance (2 * Real.pi * f) μ (S m) (T m))
      (dsf := fun f => impedanceDsigma (2 * Real.pi * f) μ (S m) (T m))
      (dtf := fun f => impedanceDthick (2 * Real.pi * f) μ (S m) (T m)) srcs (fun _ h => h) hp (none, [])
    rw [getJ, hl, rowsSpec_eq hnc, hofn]
    rfl
  · rw [isJacobian_iff]
    intro i
    have hω : 0 < 2 * Real.pi * (q i).1 := by have := (hq i).1; positivity
    have hS1 := isJacobian_iff.1 hS.deriv
    have hT1 := isJacobian_iff.1 hT.deriv
    obtain ⟨D, hD, hv⟩ := C136_sensitivity hω hμ hs hh hS1 hT1
    obtain ⟨D', hD', hv'⟩ := datum_deriv hD (C136_quadrant hω hμ hs hh).2.ne (μ := μ) (f := (q i).1) (hq i).2
    refine hD'.congr_fderiv ?_
    ext1 v
    rw [hv', hv, rowEntry_add, rowEntry_sum, rowEntry_sum, dotL_apply, Jfull_mulVec]
    rfl

/-- A survey with repeated frequencies that are not in order; conductivities are parameters,
thicknesses are fixed. -/
example : ∃ (d : ℕ) (F : (Fin 2 → ℝ) → Fin d → ℝ) (J : Fin d → Row 1),
    (∀ m', dpred 1 [⟨100, [⟨.rhoa, 1⟩, ⟨.phase, 1⟩]⟩, ⟨1, [⟨.real, 1⟩]⟩, ⟨100, [⟨.imag, 1⟩]⟩]
      (fun f => impedance (2 * Real.pi * f) 1 m' (fun _ => 50)) = .ok (List.ofFn (F m'))) ∧
    IsJacobian F (Jfull (some 1) none J) ![1 / 100, 1 / 10] := by
  obtain ⟨d, F, J, h1, _, h3⟩ := C137_sensitivity_partial (n := 1) (p := 2) (μ := 1) one_pos
    (srcs := [⟨100, [⟨.rhoa, 1⟩, ⟨.phase, 1⟩]⟩, ⟨1, [⟨.real, 1⟩]⟩, ⟨100, [⟨.imag, 1⟩]⟩])
    (by intro x hx rx hrx; simp at hx; rcases hx with rfl | rfl | rfl <;> simp at hrx <;> rcases hrx with rfl | rfl <;> simp)
    (by intro x hx; simp at hx; rcases hx with rfl | rfl | rfl <;> simp)
    (S := fun m => m) (T := fun _ _ => 50) (S' := some 1) (T' := none) (m := ![1 / 100, 1 / 10])
    (isJacobian_id _) (fun _ => rfl) (by intro k; fin_cases k <;> norm_num) (by intro k; norm_num)
  exact ⟨d, F, J, h1, h3⟩

/-- **C137.** `Jvec` is the product with this matrix and `Jtvec` the product with its transpose. -/
theorem C137_adjoint {n p d : ℕ} (S' : Option (Matrix (Fin (n + 1)) (Fin p) ℝ))
    (T' : Option (Matrix (Fin n) (Fin p) ℝ)) (J : Fin d → Row n) :
    (∀ v, Jvec S' T' J v = Jfull S' T' J *ᵥ v) ∧ (∀ w, Jtvec S' T' J w = (Jfull S' T' J)ᵀ *ᵥ w) := by
  constructor
  · intro v
    funext i
    show _ = Jfull S' T' J i ⬝ᵥ v
    rw [Jfull_mulVec, Jvec, optVec_eq, optVec_eq]
  · intro w
    have e : Jfull S' T' J = Matrix.of (fun i => (J i).1) * S'.getD 0 + Matrix.of (fun i => (J i).2) * T'.getD 0 := by
      ext i j
      rw [Jfull_eq]
      rfl
    rw [Jtvec, optTvec_eq, optTvec_eq, e, transpose_add, transpose_mul, transpose_mul, add_mulVec, mulVec_mulVec,
      mulVec_mulVec]

/-- **C137.** If no parameter enters both the conductivities and the thicknesses, `getJtJdiag` is the
diagonal of `Jᵀ W² J`. -/
theorem C137_diag_partial {n p d : ℕ} {S' : Option (Matrix (Fin (n + 1)) (Fin p) ℝ)}
    {T' : Option (Matrix (Fin n) (Fin p) ℝ)} (J : Fin d → Row n) (W : Option (Fin d → ℝ)) (j : Fin p)
    (h : (∀ k, S'.getD 0 k j = 0) ∨ ∀ k, T'.getD 0 k j = 0) :
    JtJdiag S' T' J W j = ∑ i, (W.getD (fun _ => 1) i * Jfull S' T' J i j) ^ 2 := by
  have z1 : (∀ k, S'.getD 0 k j = 0) → ∀ i, ((J i).1 ᵥ* S'.getD 0) j = 0 := by
    intro h i; simp [vecMul, dotProduct, h]
  have z2 : (∀ k, T'.getD 0 k j = 0) → ∀ i, ((J i).2 ᵥ* T'.getD 0) j = 0 := by
    intro h i; simp [vecMul, dotProduct, h]
  simp only [JtJdiag, optDiag_eq, Jfull_eq]
  rw [← Finset.sum_add_distrib]
  refine Finset.sum_congr rfl fun i _ => ?_
  rcases h with h | h
  · rw [z1 h]; cases W <;> simp <;> ring
  · rw [z2 h]; cases W <;> simp <;> ring

/-- Conductivity and thickness of a layer as the two parameters. -/
example (J : Fin 3 → Row 1) : JtJdiag (some !![0, 0; 1, 0]) (some !![(0 : ℝ), 1]) J none 1 =
    ∑ i, (1 * Jfull (some !![0, 0; 1, 0]) (some !![(0 : ℝ), 1]) J i 1) ^ 2 :=
  C137_diag_partial J none 1 (Or.inl (by intro k; fin_cases k <;> rfl))

/-- **C137 is false for parameters that enter both.** The products between the two are missing. -/
theorem C137_violated_diag {n p d : ℕ} {S' : Option (Matrix (Fin (n + 1)) (Fin p) ℝ)}
    {T' : Option (Matrix (Fin n) (Fin p) ℝ)} (J : Fin d → Row n) (W : Option (Fin d → ℝ)) (j : Fin p) :
    ∑ i, (W.getD (fun _ => 1) i * Jfull S' T' J i j) ^ 2 - JtJdiag S' T' J W j =
      2 * ∑ i, W.getD (fun _ => 1) i ^ 2 * (((J i).1 ᵥ* S'.getD 0) j * ((J i).2 ᵥ* T'.getD 0) j) := by
  simp only [JtJdiag, optDiag_eq, Jfull_eq]
  rw [← Finset.sum_add_distrib, ← Finset.sum_sub_distrib, Finset.mul_sum]
  refine Finset.sum_congr rfl fun i _ => ?_
  cases W <;> simp <;> ring

/-- One parameter that is both the conductivity and the thickness of the layer: half of the true value. -/
example : JtJdiag (some !![0; (1 : ℝ)]) (some !![(1 : ℝ)]) (fun _ : Fin 1 => (![0, 1], ![1])) none 0 = 2 ∧
    ∑ i, (Jfull (some !![0; (1 : ℝ)]) (some !![(1 : ℝ)]) (fun _ : Fin 1 => (![0, 1], ![1])) i 0) ^ 2 = 4 := by
  constructor
  · simp [JtJdiag, optDiag, vecMul, dotProduct]; norm_num
  · simp [Jfull_eq, vecMul, dotProduct]; norm_num

/-- **C137 is false for receivers with several locations**: the survey counts `nD` data, one is
predicted, and the sensitivity has `nD` rows. -/
theorem C137_violated_locations {n : ℕ} (μ f : ℝ) (k : ℕ) (Zf : ℝ → ℂ) (dsf : ℝ → Fin (n + 1) → ℂ)
    (dtf : ℝ → Fin n → ℂ) : ∃ d J, dpred μ [⟨f, [⟨.real, k⟩]⟩] Zf = .ok d ∧ d.length = 1 ∧
      getJ μ [⟨f, [⟨.real, k⟩]⟩] Zf dsf dtf = .ok J ∧ J.length = k := by
  refine ⟨_, List.replicate k ((fun j => (dsf f j).re, fun j => (dtf f j).re) : Row n), C137_data μ _ Zf,
    by simp [datum], ?_, ?_⟩
  · have := frequencies_get (srcs := [⟨f, [⟨.real, k⟩]⟩]) (src := ⟨f, [⟨.real, k⟩]⟩) (by simp)
    rw [getJ, srcLoop, this]
    simp [rxLoop, mkRow, rowEntry, srcLoop, Except.map]
  · simp

/-- **C137 is false for complex receivers**, which are accepted: nothing is predicted, and the
sensitivity fails, or takes the row of the receiver before. -/
theorem C137_violated_complex {n : ℕ} (μ f : ℝ) (Zf : ℝ → ℂ) (dsf : ℝ → Fin (n + 1) → ℂ) (dtf : ℝ → Fin n → ℂ) :
    dpred μ [⟨f, [⟨.complex, 1⟩]⟩] Zf = .ok [] ∧
    getJ μ [⟨f, [⟨.complex, 1⟩]⟩] Zf dsf dtf = .error .exception ∧
    dpred μ [⟨f, [⟨.real, 1⟩, ⟨.complex, 1⟩]⟩] Zf = .ok [(Zf f).re] ∧
    ∃ r, getJ μ [⟨f, [⟨.real, 1⟩, ⟨.complex, 1⟩]⟩] Zf dsf dtf = .ok [r, r] := by
  refine ⟨by rw [C137_data]; simp [datum], ?_, by rw [C137_data]; simp [datum], ?_⟩
  · have := frequencies_get (srcs := [⟨f, [⟨.complex, 1⟩]⟩]) (src := ⟨f, [⟨.complex, 1⟩]⟩) (by simp)
    rw [getJ, srcLoop, this]
    simp [rxLoop, mkRow, Except.map]
  · have := frequencies_get (srcs := [⟨f, [⟨.real, 1⟩, ⟨.complex, 1⟩]⟩]) (src := ⟨f, [⟨.real, 1⟩, ⟨.complex, 1⟩]⟩) (by simp)
    refine ⟨((fun j => (dsf f j).re, fun j => (dtf f j).re) : Row n), ?_⟩
    rw [getJ, srcLoop, this]
    simp [rxLoop, mkRow, rowEntry, srcLoop, Except.map]

section history
variable {M A V Ws : Type} [DecidableEq M] {J : M → A} {diag : M → A → Ws → V}

/-- Stored results are those of the stored model, for weights among `ws`. -/
def Inv (J : M → A) (diag : M → A → Ws → V) (ws : Ws → Prop) (s : Sim M A V) : Prop :=
  s.fixJ = false ∧ (∀ a, s.jmat = some a → ∃ m, s.model = some m ∧ a = J m) ∧
  ∀ g, s.gtg = some g → ∃ m W, s.model = some m ∧ ws W ∧ g = diag m (J m) W

theorem inv_setModel {ws : Ws → Prop} {s : Sim M A V} (h : Inv J diag ws s) (m : M) :
    Inv J diag ws (s.setModel m) ∧ (s.setModel m).model = some m := by
  unfold Sim.setModel
  split
  · rename_i e; exact ⟨h, e⟩
  · rw [if_neg (by rw [h.1]; simp)]
    exact ⟨⟨h.1, by simp, by simp⟩, rfl⟩

theorem inv_getJ {ws : Ws → Prop} {s : Sim M A V} (h : Inv J diag ws s) (m : M) :
    Inv J diag ws (s.getJ J m).2 ∧ (s.getJ J m).2.model = some m ∧ (s.getJ J m).1 = J m := by
  obtain ⟨h1, h2⟩ := inv_setModel h m
  unfold Sim.getJ
  simp only
  split
  · rename_i a e
    obtain ⟨m', e1, e2⟩ := h1.2.1 a e
    rw [h2] at e1
    obtain rfl := Option.some.inj e1
    exact ⟨h1, h2, e2⟩
  · refine ⟨⟨h1.1, ?_, h1.2.2⟩, h2, rfl⟩
    intro a ha
    exact ⟨m, h2, (Option.some.inj ha).symm⟩

theorem inv_call {ws : Ws → Prop} {s : Sim M A V} (h : Inv J diag ws s) (c : Call M Ws)
    (hc : ∀ m W, c = .diag m W → ws W) : Inv J diag ws (s.call J diag c) := by
  cases c with
  | setModel m => exact (inv_setModel h m).1
  | dpred m => exact (inv_setModel h m).1
  | getJ m => exact (inv_getJ h m).1
  | diag m W =>
    simp only [Sim.call, Sim.getJtJdiag]
    split
    · exact h
    · obtain ⟨h1, h2, h3⟩ := inv_getJ h m
      refine ⟨h1.1, h1.2.1, ?_⟩
      intro g hg
      exact ⟨m, W, h2, hc m W rfl, by rw [← h3]; exact (Option.some.inj hg).symm⟩

theorem inv_calls {ws : Ws → Prop} : ∀ (cs : List (Call M Ws)) (s : Sim M A V), Inv J diag ws s →
    (∀ m W, Call.diag m W ∈ cs → ws W) → Inv J diag ws (cs.foldl (Sim.call J diag) s)
  | [], _, h, _ => h
  | c :: cs, s, h, hw => inv_calls cs _ (inv_call h c fun m W e => hw m W (by simp [e])) fun m W e => hw m W (by simp [e])

/-- **C137.** After any calls the stored sensitivities are those of the requested model, unless the user
asked to keep them. -/
theorem C137_fresh (cs : List (Call M Ws)) (m : M) :
    ((cs.foldl (Sim.call J diag) ({ fixJ := false } : Sim M A V)).getJ J m).1 = J m :=
  (inv_getJ (inv_calls (ws := fun _ => True) cs _ ⟨rfl, by simp, by simp⟩ fun _ _ _ => trivial) m).2.2

/-- **C137.** `getJtJdiag` is that of the model and weights if all calls before used these weights and
the model has been assigned. -/
theorem C137_diag_fresh_partial (cs : List (Call M Ws)) (m : M) (W : Ws)
    (hW : ∀ m' W', Call.diag m' W' ∈ cs → W' = W) :
    (((cs.foldl (Sim.call J diag) ({ fixJ := false } : Sim M A V)).setModel m).getJtJdiag J diag m W).1 =
      diag m (J m) W := by
  have h := inv_calls (J := J) (diag := diag) (ws := fun W' => W' = W) cs ({ fixJ := false } : Sim M A V)
    ⟨rfl, by simp, by simp⟩ hW
  obtain ⟨h1, h2⟩ := inv_setModel h m
  unfold Sim.getJtJdiag
  split
  · rename_i g e
    obtain ⟨m', W', e1, e2, e3⟩ := h1.2.2 g e
    rw [h2] at e1
    obtain rfl := Option.some.inj e1
    rw [e3, e2]
  · obtain ⟨_, _, h3⟩ := inv_getJ h1 m
    simp only
    rw [h3]

/-- **C137 is false for `getJtJdiag`**: the model and the weights of a second call are ignored. -/
theorem C137_violated_stale (m₁ m₂ : M) (W₁ W₂ : Ws) :
    ((({ fixJ := false } : Sim M A V).call J diag (.diag m₁ W₁)).getJtJdiag J diag m₂ W₂).1 = diag m₁ (J m₁) W₁ := by
  simp [Sim.call, Sim.getJtJdiag, Sim.getJ, Sim.setModel]

/-- **C137.** With `fix_Jmatrix` all results are those of the first model. -/
theorem C137_fixed (m₀ : M) (cs : List (Call M Ws)) (m : M) :
    ((cs.foldl (Sim.call J diag) ((({ fixJ := true } : Sim M A V).getJ J m₀).2)).getJ J m).1 = J m₀ := by
  have st : ∀ s : Sim M A V, s.fixJ = true → s.jmat = some (J m₀) → ∀ m,
      (s.setModel m).fixJ = true ∧ (s.setModel m).jmat = some (J m₀) := by
    intro s h1 h2 m
    unfold Sim.setModel
    split
    · exact ⟨h1, h2⟩
    · exact ⟨h1, h2⟩
  have sj : ∀ s : Sim M A V, s.fixJ = true → s.jmat = some (J m₀) → ∀ m,
      (s.getJ J m).2.fixJ = true ∧ (s.getJ J m).2.jmat = some (J m₀) ∧ (s.getJ J m).1 = J m₀ := by
    intro s h1 h2 m
    obtain ⟨h3, h4⟩ := st s h1 h2 m
    unfold Sim.getJ
    simp only [h4]
    exact ⟨h3, by simp⟩
  have sc : ∀ (cs : List (Call M Ws)) (s : Sim M A V), s.fixJ = true → s.jmat = some (J m₀) →
      (cs.foldl (Sim.call J diag) s).fixJ = true ∧ (cs.foldl (Sim.call J diag) s).jmat = some (J m₀) := by
    intro cs
    induction cs with
    | nil => intro s h1 h2; exact ⟨h1, h2⟩
    | cons c cs ih =>
      intro s h1 h2
      refine ih _ ?_ ?_ <;> cases c <;> simp only [Sim.call]
      · exact (st s h1 h2 _).1
      · exact (st s h1 h2 _).1
      · exact (sj s h1 h2 _).1
      · unfold Sim.getJtJdiag; split
        · exact h1
        · exact (sj s h1 h2 _).1
      · exact (st s h1 h2 _).2
      · exact (st s h1 h2 _).2
      · exact (sj s h1 h2 _).2.1
      · unfold Sim.getJtJdiag; split
        · exact h2
        · exact (sj s h1 h2 _).2.1
  obtain ⟨h1, h2⟩ := sc cs (({ fixJ := true } : Sim M A V).getJ J m₀).2 (by simp [Sim.getJ, Sim.setModel])
    (by simp [Sim.getJ, Sim.setModel])
  exact (sj _ h1 h2 m).2.2

end history

/-- Weights 1 and 2, model 5 and then 7. -/
example : ((({ fixJ := false } : Sim ℕ ℕ ℕ).call (fun m => m) (fun _ a w => w * a ^ 2) (.diag 5 1)).getJtJdiag
    (fun m => m) (fun _ a w => w * a ^ 2) 7 2).1 = 25 := C137_violated_stale 5 7 1 2

end Props

end Verif.NSEM.Layered
