import Verif.TDEM.Cases
import Verif.TDEM.Piecewise

/-!
C78: the sources of the time domain simulations and their waveforms
(`simpeg/electromagnetics/time_domain/sources.py` 1186-2207): `MagDipole`, `CircularLoop` and `LineCurrent`.

Simplified: the geometry of the sources (vector potentials, line integrals) is given as vectors for a unit
current; the sources are those of one mesh.
-/

namespace Verif.TDEM
open Matrix Verif.EM

noncomputable section
open Classical

variable {p s ν c ε φ : Type} [Fintype p] [Fintype s] [Fintype ν] [Fintype c] [Fintype ε] [Fintype φ]
  [DecidableEq ν] [DecidableEq c] [DecidableEq ε] [DecidableEq φ]

/-- A waveform as the sources see it: `eval` and `has_initial_fields`. -/
structure Wave where
  eval : ℝ → ℝ
  initial : Bool

/-- `simulation.times[k]` (`simpeg/simulation.py` 535-557, 574-587): the nodes of the mesh in time. -/
def times (t0 : ℝ) (dts : List ℝ) (k : ℕ) : ℝ := t0 + (dts.take k).sum

/-- `LineCurrent` (1701-2207): the current, whether `srcType` is `"galvanic"`, the waveform, and the
integrated source term of a unit current, `_Mejs` or `_Mfjs` (1796-1832). -/
structure Line (e : Type) where
  current : ℝ
  galvanic : Bool
  wave : Wave
  term : e → ℝ

/-- `Mejs` and `Mfjs` (1796-1832). -/
def Line.m {e : Type} (l : Line e) : e → ℝ := l.current • l.term

/-- `LineCurrent` in the EB formulations: `s_m`, `s_e` (2187-2207), `getRHSdc` (1834-1853), `bInitial`
(2132-2157, 2027-2046), with `a` the vector potential of a unit current.  Simplified: for a galvanic source
`bInitial` raises `NotImplementedError` in the EB formulations; `b0` has no meaning then. -/
def Line.eb (l : Line ε) (o : EB p s ν ε φ) (t0 : ℝ) (a : ε → ℝ) : SrcEB ν ε φ where
  sm := 0
  se k := l.wave.eval (times t0 o.dts k) • l.m
  dc := l.wave.initial
  galvanic := l.galvanic
  rhsdc := o.Gᵀ *ᵥ l.m
  b0 := if l.wave.initial then o.C *ᵥ (l.current • a) else 0

/-- `LineCurrent` in the HJ formulations.  `ha` is `MeI Cᵀ Mf a / mu` for the vector potential `a` of a unit
current, `hb` is `MeI a_bc / mu` for its values at the boundary (2083-2101). -/
def Line.hj (l : Line φ) (o : HJ p s c ε φ) (t0 : ℝ) (ha hb : ε → ℝ) : SrcHJ c ε φ where
  sm := 0
  se k := l.wave.eval (times t0 o.dts k) • l.m
  dc := l.wave.initial
  galvanic := l.galvanic
  rhsdc := o.D *ᵥ l.m
  se0 := l.wave.eval 0 • l.m
  h0 := if l.wave.initial then l.current • ha - hb else 0

/-- The setter `current` (1771-1776). -/
def Line.setCurrent {e : Type} (l : Line e) (x : ℝ) : Except Err (Line e) :=
  if x = 0 then .error .valueError else .ok { l with current := x }

/-- `MagDipole` and `CircularLoop` (1225-1698) in the EB formulations: the waveform, `_aSrc` (1341-1360), the
inner product matrix for `1 / self.mu` and its inverse, and whether `simulation.mu` is `self.mu`
everywhere. -/
structure Mag (ε φ : Type) where
  wave : Wave
  a : ε → ℝ
  muip : Matrix φ φ ℝ
  muipI : Matrix φ φ ℝ
  uniform : Bool

/-- `C.T * (MfMui * b)` in `s_e` (1530-1534): the source term of the full current. -/
def Mag.full (d : Mag ε φ) (o : EB p s ν ε φ) : ε → ℝ := o.Cᵀ *ᵥ (d.muip *ᵥ (o.C *ᵥ d.a))

/-- `bInitial` (1445-1474), `_phiSrc` (1406-1412), `_rhs_magnetostatic` (1378-1404) and
`_getAmagnetostatic` (1362-1376).  `D` is the face divergence, `muiI` is `MfMuiI` of the simulation. -/
def Mag.b0 (d : Mag ε φ) (o : EB p s ν ε φ) (D : Matrix c φ ℝ) (muiI : Matrix φ φ ℝ) : φ → ℝ :=
  if d.wave.initial = false then 0
  else if d.uniform then o.C *ᵥ d.a
  else
    let hp := d.muip *ᵥ (o.C *ᵥ d.a)
    let rhs := -(D *ᵥ ((muiI - d.muipI) *ᵥ hp))
    let phi := (D * muiI * Dᵀ)⁻¹ *ᵥ rhs
    muiI *ᵥ (hp + Dᵀ *ᵥ phi)

/-- `s_e` (1516-1542) at a time, in units of the full source: one for waveforms with initial fields before
the time `simulation.time_steps[1]`, which is a length of a step and not a time.  With one step there is no
such entry. -/
def magFactor (w : Wave) (dts : List ℝ) (t : ℝ) : Except Err ℝ :=
  if w.initial then
    match dts[1]? with
    | none => .error .indexError
    | some x => if t < x then .ok 1 else .ok (w.eval t)
  else .ok (w.eval t)

/-- `MagDipole` in the EB formulations; the simulation evaluates the source at all its times. -/
def Mag.eb (d : Mag ε φ) (o : EB p s ν ε φ) (t0 : ℝ) (D : Matrix c φ ℝ) (muiI : Matrix φ φ ℝ) :
    Except Err (SrcEB ν ε φ) :=
  match magFactor d.wave o.dts (times t0 o.dts 0) with
  | .error e => .error e
  | .ok _ => .ok {
      sm := 0
      se := fun k => match magFactor d.wave o.dts (times t0 o.dts k) with
        | .error _ => 0
        | .ok x => x • d.full o
      dc := false
      galvanic := false
      rhsdc := 0
      b0 := d.b0 o D muiI }

/-- `MagDipole` in the HJ formulations: `hInitial` (1476-1495) and `s_e` (1544-1554); `h` is `_hSrc`
(1422-1443). -/
def magHJ (w : Wave) (o : HJ p s c ε φ) (t0 : ℝ) (h : ε → ℝ) : Except Err (SrcHJ c ε φ) :=
  match magFactor w o.dts (times t0 o.dts 0) with
  | .error e => .error e
  | .ok _ => .ok {
      sm := 0
      se := fun k => match magFactor w o.dts (times t0 o.dts k) with
        | .error _ => 0
        | .ok x => x • (o.C *ᵥ h)
      dc := false
      galvanic := false
      rhsdc := 0
      se0 := 0
      h0 := if w.initial then h else 0 }

end

namespace Props
open Verif.EM.Props Verif.Flow.Richards.Props Verif.FDEM.Props

noncomputable section

variable {p s ν c ε φ : Type} [Fintype p] [Fintype s] [Fintype ν] [Fintype c] [Fintype ε] [Fintype φ]
  [DecidableEq ν] [DecidableEq c] [DecidableEq ε] [DecidableEq φ]

set_option linter.unusedSectionVars false

/-! ### Proportionality -/

section scale
variable {n K : Type} [Fintype n] [DecidableEq n] {L : K → Type} [∀ k, Fintype (L k)]

theorem sol_smul {S : Sim p n K L} {m : p → ℝ} {t t' : Src p n K L} {x : ℝ}
    (hr : ∀ k, t'.rhs k m = x • t.rhs k m) (hi : t'.init m = x • t.init m) (k : ℕ) :
    S.sol m t' k = x • S.sol m t k := by
  induction k with
  | zero => exact hi
  | succ k ih =>
    rw [Sim.sol, Sim.sol, hr, ih, Matrix.mulVec_smul, ← smul_sub, Matrix.mulVec_smul]

theorem data_smul {S : Sim p n K L} {m : p → ℝ} {t t' : Src p n K L} {x : ℝ}
    (hr : ∀ k, t'.rhs k m = x • t.rhs k m) (hi : t'.init m = x • t.init m) (hx : t'.rx = t.rx)
    (hf : ∀ f k u, (t'.fld f).val k m (x • u) = x • (t.fld f).val k m u) :
    S.srcData m t' = (S.srcData m t).map (x * ·) := by
  rw [Sim.srcData, Sim.srcData, hx, List.map_flatMap]
  congr 1
  funext r
  rw [List.map_ofFn]
  congr 1
  funext i
  simp only [Function.comp_apply, Rx.apply, sol_smul hr hi, hf, Matrix.mulVec_smul, Finset.sum_apply,
    Pi.smul_apply, smul_eq_mul, Finset.mul_sum]

end scale

theorem setCurrent_ok {e : Type} {l l' : Line e} {x : ℝ} (h : l.setCurrent x = .ok l') :
    l' = { l with current := x } := by
  unfold Line.setCurrent at h
  split at h
  · cases h
  · exact (Except.ok.inj h).symm

/-- **C78, the current.** Assigning a current changes the current alone, to the value given; only zero is
refused. -/
theorem C78_set_current {e : Type} (l l' : Line e) (x : ℝ) :
    l.setCurrent x = .ok l' ↔ x ≠ 0 ∧ l'.current = x ∧ l'.wave = l.wave ∧ l'.term = l.term ∧
      l'.galvanic = l.galvanic := by
  obtain ⟨w, t, c, g⟩ := l'
  by_cases h : x = 0
  · simp [Line.setCurrent, h]
  · simp only [Line.setCurrent, h, if_false, Except.ok.injEq, ne_eq, not_false_eq_true, true_and,
      Line.mk.injEq]
    constructor
    · rintro ⟨rfl, rfl, rfl, rfl⟩; exact ⟨rfl, rfl, rfl, rfl⟩
    · rintro ⟨rfl, rfl, rfl, rfl⟩; exact ⟨rfl, rfl, rfl, rfl⟩

/-- The data which a simulation computes for a source are multiplied by `x` when its current is. -/
def Proportional (data data' : List ℝ) (x : ℝ) : Prop := data' = data.map (x * ·)

/-- **C78, electric field.** The data of a line current are proportional to its current, whatever the
waveform and the time steps. -/
theorem C78_proportional_electric_field (o : EB p s ν ε φ) (t0 : ℝ) (a : ε → ℝ) (l l' : Line ε) (x : ℝ)
    (h : l.setCurrent (x * l.current) = .ok l') (rxs : List (Rx FldE (LocE ε φ)))
    (srcs : List (SrcEB ν ε φ × List (Rx FldE (LocE ε φ)))) (m : p → ℝ) :
    Proportional ((o.simE srcs).srcData m (o.srcE (l.eb o t0 a, rxs)))
      ((o.simE srcs).srcData m (o.srcE (l'.eb o t0 a, rxs))) x := by
  obtain rfl := setCurrent_ok h
  refine data_smul (fun k => ?_) ?_ rfl fun f k u => ?_
  · simp only [EB.srcE, EB.eRhs, Line.eb, Line.m, Pi.zero_apply, Matrix.mulVec_zero, add_zero]
    module
  · simp only [EB.srcE, EB.eInit, Line.eb, Line.m, mul_smul, Matrix.mulVec_smul]
    split <;> simp
  · cases f <;> simp only [EB.srcE, EB.eFld, EB.eE, EB.eJ, EB.eDbdt, EB.eDhdt, Line.eb, Pi.zero_apply,
      Matrix.mulVec_smul, Matrix.mulVec_zero, zero_sub, smul_neg, Matrix.mulVec_neg]

/-- **C78, magnetic flux density.** -/
theorem C78_proportional_magnetic_flux_density (o : EB p s ν ε φ) (t0 : ℝ) (a : ε → ℝ) (l l' : Line ε)
    (x : ℝ) (h : l.setCurrent (x * l.current) = .ok l') (rxs : List (Rx FldB (LocB ε φ)))
    (srcs : List (SrcEB ν ε φ × List (Rx FldB (LocB ε φ)))) (m : p → ℝ) :
    Proportional ((o.simB srcs).srcData m (o.srcB (l.eb o t0 a, rxs)))
      ((o.simB srcs).srcData m (o.srcB (l'.eb o t0 a, rxs))) x := by
  obtain rfl := setCurrent_ok h
  have hse : ∀ k, ({ l with current := x * l.current } : Line ε).wave.eval (times t0 o.dts k) •
      ({ l with current := x * l.current } : Line ε).m = x • (l.wave.eval (times t0 o.dts k) • l.m) := by
    intro k
    simp only [Line.m]
    module
  refine data_smul (fun k => ?_) ?_ rfl fun f k u => ?_
  · simp only [EB.srcB, EB.bRhs, Line.eb, Pi.zero_apply, add_zero]
    rw [hse, Matrix.mulVec_smul, Matrix.mulVec_smul, Matrix.mulVec_smul]
  · simp only [EB.srcB, Line.eb, mul_smul, Matrix.mulVec_smul]
    split <;> simp
  · cases f <;> simp only [EB.srcB, EB.bFld, EB.bB', EB.bH, EB.bE, EB.bJ, EB.bDbdt, EB.bDhdt, Line.eb,
      Pi.zero_apply, hse, Matrix.mulVec_smul, Matrix.mulVec_sub, smul_sub,
      Matrix.mulVec_neg, smul_neg, add_zero, Matrix.mulVec_zero]

theorem line_se {e : Type} (l : Line e) (x y : ℝ) :
    y • ({ l with current := x * l.current } : Line e).m = x • (y • l.m) := by
  simp only [Line.m]
  module

theorem phi0_smul (o : HJ p s c ε φ) (t0 : ℝ) (ha hb : ε → ℝ) (l : Line φ) (x : ℝ) (m : p → ℝ) :
    o.jInit (({ l with current := x * l.current } : Line φ).hj o t0 ha hb) m =
      x • o.jInit (l.hj o t0 ha hb) m := by
  simp only [HJ.jInit, HJ.phi0, Line.hj, Line.m, mul_smul, Matrix.mulVec_smul]
  split <;> simp

/-- **C78, magnetic field.** The same for grounded sources and for waveforms without initial fields. -/
theorem C78_proportional_magnetic_field_partial (o : HJ p s c ε φ) (t0 : ℝ) (ha hb : ε → ℝ)
    (l l' : Line φ) (x : ℝ) (h : l.setCurrent (x * l.current) = .ok l')
    (hl : l.galvanic = true ∨ l.wave.initial = false ∨ hb = 0) (rxs : List (Rx FldH (LocH ε φ)))
    (srcs : List (SrcHJ c ε φ × List (Rx FldH (LocH ε φ)))) (m : p → ℝ) :
    Proportional ((o.simH srcs).srcData m (o.srcH (l.hj o t0 ha hb, rxs)))
      ((o.simH srcs).srcData m (o.srcH (l'.hj o t0 ha hb, rxs))) x := by
  obtain rfl := setCurrent_ok h
  have hj := phi0_smul o t0 ha hb l x m
  refine data_smul (fun k => ?_) ?_ rfl fun f k u => ?_
  · simp only [HJ.srcH, HJ.hRhs, Line.hj, Pi.zero_apply, add_zero, line_se, Matrix.mulVec_smul]
  · simp only [HJ.srcH, HJ.hInit, hj]
    simp only [Line.hj, line_se]
    by_cases h1 : l.wave.initial = true
    · by_cases h2 : l.galvanic = true
      · simp only [h1, h2, and_self, if_true]
        rw [← smul_add, Matrix.mulVec_smul, Matrix.mulVec_smul, Matrix.mulVec_smul]
      · have h3 : hb = 0 := by
          rcases hl with h3 | h3 | h3
          · exact absurd h3 h2
          · rw [h3] at h1; cases h1
          · exact h3
        simp only [h1, h2, h3, and_false, if_true, sub_zero, mul_smul, Bool.false_eq_true, if_false]
    · simp [h1]
  · cases f <;> simp only [HJ.srcH, HJ.hFld, HJ.hH, HJ.hBf, HJ.hDhdt, HJ.hDbdt, HJ.hJ, HJ.hE, Line.hj,
      Pi.zero_apply, line_se, Matrix.mulVec_smul, Matrix.mulVec_sub, smul_sub, smul_add, add_zero,
      Matrix.mulVec_add, Matrix.mulVec_neg, smul_neg]

/-- **C78 is violated, magnetic field.** The initial field of a closed loop is not proportional to its
current: the part from the boundary is that of a unit current. -/
theorem C78_violated_proportional (o : HJ p s c ε φ) (t0 : ℝ) (ha hb : ε → ℝ) (l l' : Line φ) (x : ℝ)
    (h : l.setCurrent (x * l.current) = .ok l') (hg : l.galvanic = false) (hi : l.wave.initial = true)
    (hb0 : hb ≠ 0) (hx : x ≠ 1) (m : p → ℝ) :
    o.hInit (l'.hj o t0 ha hb) m ≠ x • o.hInit (l.hj o t0 ha hb) m := by
  obtain rfl := setCurrent_ok h
  simp only [HJ.hInit, Line.hj, hg, hi, and_false, if_true, Bool.false_eq_true, if_false]
  intro h1
  apply hb0
  have h2 : (x - 1) • hb = 0 := by
    rw [mul_smul, smul_sub] at h1
    rw [sub_smul, one_smul]
    exact sub_eq_zero.2 (sub_right_injective h1).symm
  exact (smul_eq_zero.1 h2).resolve_left (sub_ne_zero.2 hx)

/-- **C78, current density.** -/
theorem C78_proportional_current_density (o : HJ p s c ε φ) (t0 : ℝ) (ha hb : ε → ℝ)
    (l l' : Line φ) (x : ℝ) (h : l.setCurrent (x * l.current) = .ok l') (rxs : List (Rx FldJ (LocJ ε φ)))
    (srcs : List (SrcHJ c ε φ × List (Rx FldJ (LocJ ε φ)))) (m : p → ℝ) :
    Proportional ((o.simJ srcs).srcData m (o.srcJ (l.hj o t0 ha hb, rxs)))
      ((o.simJ srcs).srcData m (o.srcJ (l'.hj o t0 ha hb, rxs))) x := by
  obtain rfl := setCurrent_ok h
  refine data_smul (fun k => ?_) (phi0_smul o t0 ha hb l x m) rfl fun f k u => ?_
  · simp only [HJ.srcJ, HJ.jRhs, Line.hj, Pi.zero_apply, Matrix.mulVec_zero, add_zero, line_se, ← smul_sub,
      smul_comm _ x, Matrix.mulVec_smul]
  · cases f <;> simp only [HJ.srcJ, HJ.jFld, HJ.jJ, HJ.jE, HJ.jDhdt, HJ.jDbdt, Line.hj, Pi.zero_apply,
      Matrix.mulVec_zero, zero_add, Matrix.mulVec_smul, Matrix.mulVec_neg, smul_neg]

/-! ### Static fields -/

theorem sol_static {n K : Type} [Fintype n] [DecidableEq n] {L : K → Type} [∀ k, Fintype (L k)]
    {S : Sim p n K L} {m : p → ℝ} {t : Src p n K L} {x : n → ℝ} (h0 : t.init m = x) {k : ℕ}
    (hf : ∀ i < k, S.fac i = S.dt i) (hdet : ∀ i < k, (S.Adiag (S.dt i) m).det ≠ 0)
    (h : ∀ i < k, S.Adiag (S.dt i) m *ᵥ x + S.Asub (S.dt i) m *ᵥ x = t.rhs (i + 1) m) :
    S.sol m t k = x := by
  induction k with
  | zero => exact h0
  | succ k ih =>
    have h1 := ih (fun i hi => hf i (by omega)) (fun i hi => hdet i (by omega))
      fun i hi => h i (by omega)
    refine (sol_step_unique (hf k (by omega)) (hdet k (by omega)) ?_).symm
    rw [h1]
    exact h k (by omega)

/-- The current does not change from the beginning until the time with index `k`. -/
def SteadyUntil (w : Wave) (t0 : ℝ) (dts : List ℝ) (k : ℕ) : Prop :=
  ∀ i ≤ k, w.eval (times t0 dts i) = w.eval t0

/-- **C78, electric field.** While the current of a line current does not change, the electric field
keeps its initial, static, value. -/
theorem C78_static_electric_field_partial (o : EB p s ν ε φ) (t0 : ℝ) (a : ε → ℝ) (l : Line ε)
    (rxs : List (Rx FldE (LocE ε φ))) (srcs : List (SrcEB ν ε φ × List (Rx FldE (LocE ε φ)))) (m : p → ℝ)
    (hf : Fresh (o.simE srcs)) (hdt : ∀ d ∈ o.dts, d ≠ 0) (hdet : ∀ d ∈ o.dts, (o.eA d m).det ≠ 0)
    (hCG : o.C * o.G = 0) {k : ℕ} (hk : k ≤ o.dts.length) (hw : SteadyUntil l.wave t0 o.dts k) :
    (o.simE srcs).sol m (o.srcE (l.eb o t0 a, rxs)) k =
      if l.wave.initial then -(o.G *ᵥ ((o.adc m)⁻¹ *ᵥ (o.Gᵀ *ᵥ l.m))) else 0 := by
  have hz : o.C *ᵥ o.eInit (l.eb o t0 a) m = 0 := by
    rw [EB.eInit]
    split
    · rw [Matrix.mulVec_neg, Matrix.mulVec_mulVec, hCG, Matrix.zero_mulVec, neg_zero]
    · exact Matrix.mulVec_zero _
  refine sol_static (x := o.eInit (l.eb o t0 a) m) rfl
    (fun i hi => fac_eq hf i (lt_of_lt_of_le hi hk)) (fun i hi => ?_) fun i hi => ?_
  · change (o.eA (o.dt i) m).det ≠ 0
    rw [show o.dt i = o.dts[i] from getD_eq (lt_of_lt_of_le hi hk)]
    exact hdet _ (List.getElem_mem _)
  · refine (e_step (o := o) (l.eb o t0 a) (k := i) ?_).2 ?_
    · rw [show o.dt i = o.dts[i] from getD_eq (lt_of_lt_of_le hi hk)]
      exact hdt _ (List.getElem_mem _)
    · rw [hz]
      simp only [Line.eb, Pi.zero_apply, sub_zero, Matrix.mulVec_zero, smul_zero, hw (i + 1) (by omega),
        hw i (by omega), sub_self]

/-- **C78, electric field.** The divergence of the total current of a line current is at all times that of
the part of its first current which the static field does not balance: none, if the waveform begins with
the current one and has initial fields, or with the current zero and has none. -/
theorem C78_charge_electric_field_partial (o : EB p s ν ε φ) (t0 : ℝ) (a : ε → ℝ) (l : Line ε)
    (rxs : List (Rx FldE (LocE ε φ))) (srcs : List (SrcEB ν ε φ × List (Rx FldE (LocE ε φ)))) (m : p → ℝ)
    (hf : Fresh (o.simE srcs)) (hdt : ∀ d ∈ o.dts, d ≠ 0) (hdet : ∀ d ∈ o.dts, (o.eA d m).det ≠ 0)
    (hdc : (o.adc m).det ≠ 0) (hCG : o.C * o.G = 0) (hG : o.G *ᵥ (fun _ => 1) = 0) (k : ℕ)
    (hk : k ≤ o.dts.length) :
    o.Gᵀ *ᵥ (o.sigma.mat ℝ m *ᵥ (o.simE srcs).sol m (o.srcE (l.eb o t0 a, rxs)) k +
        l.wave.eval (times t0 o.dts k) • l.m) =
      (l.wave.eval t0 - if l.wave.initial then 1 else 0) • (o.Gᵀ *ᵥ l.m) := by
  refine (C75_charge_electric_field_partial o srcs (l.eb o t0 a, rxs) m hf hdt hdet hCG k hk).trans ?_
  have ht : (l.eb o t0 a).se 0 = l.wave.eval t0 • l.m := by simp [Line.eb, times]
  change o.Gᵀ *ᵥ (o.sigma.mat ℝ m *ᵥ o.eInit (l.eb o t0 a) m + (l.eb o t0 a).se 0) = _
  rw [ht]
  by_cases hi : l.wave.initial = true
  · have h1 := C75_start_electric_field o { l.eb o t0 a with se := fun _ => l.m } m hi hdc hG rfl
    change o.Gᵀ *ᵥ (o.sigma.mat ℝ m *ᵥ o.eInit (l.eb o t0 a) m + l.m) = 0 at h1
    rw [Matrix.mulVec_add] at h1 ⊢
    rw [eq_neg_of_add_eq_zero_left h1, if_pos hi, Matrix.mulVec_smul]
    module
  · have h1 : o.eInit (l.eb o t0 a) m = 0 := if_neg hi
    rw [h1, Matrix.mulVec_zero, zero_add, if_neg hi, sub_zero, Matrix.mulVec_smul]

/-- The waveform begins with the static current the initial fields belong to. -/
def Consistent (w : Wave) (t0 : ℝ) : Prop := w.eval t0 = if w.initial then 1 else 0

/-- **C78, electric field.** The total current of a line current has no divergence at any time. -/
theorem C78_equilibrium_electric_field_partial (o : EB p s ν ε φ) (t0 : ℝ) (a : ε → ℝ) (l : Line ε)
    (hw : Consistent l.wave t0)
    (rxs : List (Rx FldE (LocE ε φ))) (srcs : List (SrcEB ν ε φ × List (Rx FldE (LocE ε φ)))) (m : p → ℝ)
    (hf : Fresh (o.simE srcs)) (hdt : ∀ d ∈ o.dts, d ≠ 0) (hdet : ∀ d ∈ o.dts, (o.eA d m).det ≠ 0)
    (hdc : (o.adc m).det ≠ 0) (hCG : o.C * o.G = 0) (hG : o.G *ᵥ (fun _ => 1) = 0) (k : ℕ)
    (hk : k ≤ o.dts.length) :
    o.Gᵀ *ᵥ (o.sigma.mat ℝ m *ᵥ (o.simE srcs).sol m (o.srcE (l.eb o t0 a, rxs)) k +
      l.wave.eval (times t0 o.dts k) • l.m) = 0 := by
  rw [C78_charge_electric_field_partial o t0 a l rxs srcs m hf hdt hdet hdc hCG hG k hk, hw, sub_self,
    zero_smul]

theorem jInit_curl {o : HJ p s c ε φ} {src : SrcHJ c ε φ} {m : p → ℝ}
    (hr : o.rho.mat ℝ m * o.rho.inv ℝ m = 1) (hDC : o.D * o.C = 0) :
    o.Cᵀ *ᵥ (o.rho.mat ℝ m *ᵥ o.jInit src m) = 0 := by
  have hz : o.Cᵀ * o.Dᵀ = 0 := by rw [← Matrix.transpose_mul, hDC, Matrix.transpose_zero]
  rw [HJ.jInit]
  split
  · rw [Matrix.mulVec_neg, Matrix.mulVec_mulVec, hr, Matrix.one_mulVec, Matrix.mulVec_neg,
      Matrix.mulVec_mulVec, hz, Matrix.zero_mulVec, neg_zero]
  · rw [Matrix.mulVec_zero, Matrix.mulVec_zero]

/-- **C78, current density.** -/
theorem C78_static_current_density_partial (o : HJ p s c ε φ) (t0 : ℝ) (ha hb : ε → ℝ) (l : Line φ)
    (rxs : List (Rx FldJ (LocJ ε φ))) (srcs : List (SrcHJ c ε φ × List (Rx FldJ (LocJ ε φ)))) (m : p → ℝ)
    (hf : Fresh (o.simJ srcs)) (hdet : ∀ d ∈ o.dts, (o.jA d m).det ≠ 0)
    (hr : o.rho.mat ℝ m * o.rho.inv ℝ m = 1) (hDC : o.D * o.C = 0)
    (hw : SteadyUntil l.wave t0 o.dts o.dts.length) (k : ℕ) (hk : k ≤ o.dts.length) :
    (o.simJ srcs).sol m (o.srcJ (l.hj o t0 ha hb, rxs)) k =
      if l.wave.initial then -(o.rho.inv ℝ m *ᵥ (o.Dᵀ *ᵥ ((o.adc m)⁻¹ *ᵥ (o.D *ᵥ l.m)))) else 0 := by
  have hz := jInit_curl (src := l.hj o t0 ha hb) hr hDC
  refine sol_static (x := o.jInit (l.hj o t0 ha hb) m) rfl
    (fun i hi => fac_eq hf i (lt_of_lt_of_le hi hk)) (fun i hi => ?_) fun i hi => ?_
  · change (o.jA (o.dt i) m).det ≠ 0
    rw [show o.dt i = o.dts[i] from getD_eq (lt_of_lt_of_le hi hk)]
    exact hdet _ (List.getElem_mem _)
  · have hse : ∀ i j, i ≤ o.dts.length → j ≤ o.dts.length →
        (l.hj o t0 ha hb).se i - (l.hj o t0 ha hb).se j = 0 := fun i j hi hj => by
      simp only [Line.hj, hw i hi, hw j hj, sub_self]
    have h1 : o.jInd (i + 1) ≤ o.dts.length := by unfold HJ.jInd; split <;> omega
    have h2 : o.jPrev (o.jInd (i + 1)) ≤ o.dts.length := by unfold HJ.jPrev; split <;> omega
    change o.jA (o.dt i) m *ᵥ _ + o.jB (o.dt i) m *ᵥ _ = o.jRhs (l.hj o t0 ha hb) (i + 1) m
    rw [HJ.jRhs, hse _ _ h1 h2]
    simp only [HJ.jA, HJ.jB, Line.hj, Pi.zero_apply, Matrix.mulVec_zero, smul_zero, add_zero,
      ← Matrix.mulVec_mulVec, Matrix.add_mulVec, Matrix.smul_mulVec, Matrix.one_mulVec] at hz ⊢
    rw [hz]
    simp only [Matrix.mulVec_zero, zero_add, Matrix.mulVec_smul, neg_div, neg_smul, add_neg_cancel]

/-- **C78, magnetic field.** The same for grounded sources, if the current is one and has been one at time
zero. -/
theorem C78_static_magnetic_field_partial (o : HJ p s c ε φ) (t0 : ℝ) (ha hb : ε → ℝ) (l : Line φ)
    (rxs : List (Rx FldH (LocH ε φ))) (srcs : List (SrcHJ c ε φ × List (Rx FldH (LocH ε φ)))) (m : p → ℝ)
    (hf : Fresh (o.simH srcs)) (hdet : ∀ d ∈ o.dts, (o.hA d m).det ≠ 0)
    (hr : o.rho.mat ℝ m * o.rho.inv ℝ m = 1) (hdc : (o.adc m).det ≠ 0) (hmmr : o.ammr.det ≠ 0)
    (hDC : o.D * o.C = 0) (hg : l.galvanic = true) (hi : l.wave.initial = true)
    (h0 : l.wave.eval 0 = 1) {k : ℕ} (hk : k ≤ o.dts.length)
    (hw : ∀ i ≤ k, l.wave.eval (times t0 o.dts i) = 1) :
    let h := (o.simH srcs).sol m (o.srcH (l.hj o t0 ha hb, rxs))
    h k = h 0 ∧ o.C *ᵥ h k = o.jInit (l.hj o t0 ha hb) m + l.m := by
  intro h
  have hz := jInit_curl (src := l.hj o t0 ha hb) hr hDC
  have h1 := C75_start_magnetic_field o (l.hj o t0 ha hb) m hi hg hdc hmmr hDC
    (by simp [Line.hj, h0])
  have h2 : (l.hj o t0 ha hb).se0 = l.m := by simp [Line.hj, h0]
  rw [h2] at h1
  have h3 : h k = o.hInit (l.hj o t0 ha hb) m := by
    refine sol_static (x := o.hInit (l.hj o t0 ha hb) m) rfl
      (fun i hi => fac_eq hf i (lt_of_lt_of_le hi hk)) (fun i hi => ?_) fun i hi => ?_
    · change (o.hA (o.dt i) m).det ≠ 0
      rw [show o.dt i = o.dts[i] from getD_eq (lt_of_lt_of_le hi hk)]
      exact hdet _ (List.getElem_mem _)
    · refine (h_step (o := o) (l.hj o t0 ha hb) (k := i)).2 ?_
      have h4 : (l.hj o t0 ha hb).se (i + 1) = l.m := by simp [Line.hj, hw (i + 1) (by omega)]
      simp only [HJ.hJ, h4]
      rw [show o.C *ᵥ o.hInit (l.hj o t0 ha hb) m - l.m = o.jInit (l.hj o t0 ha hb) m by
        rw [← h1]; abel, hz, sub_self, smul_zero, Matrix.mulVec_zero, add_zero]
      rfl
  refine ⟨h3, ?_⟩
  rw [h3, ← h1]
  abel

/-! ### Dipoles and loops -/

theorem magFactor_zero {w : Wave} {dts : List ℝ} {t t' x : ℝ} (h : magFactor w dts t = .ok x) :
    ∃ y, magFactor w dts t' = .ok y := by
  unfold magFactor at h ⊢
  split
  · rename_i hi
    rw [if_pos hi] at h
    split at h
    · cases h
    · split <;> exact ⟨_, rfl⟩
  · exact ⟨_, rfl⟩

/-- What `Mag.eb` returns. -/
theorem mag_ok {d : Mag ε φ} {o : EB p s ν ε φ} {t0 : ℝ} {D : Matrix c φ ℝ} {muiI : Matrix φ φ ℝ}
    {src : SrcEB ν ε φ} (h : d.eb o t0 D muiI = .ok src) :
    src.sm = 0 ∧ src.b0 = d.b0 o D muiI ∧ src.dc = false ∧
      ∀ k, ∃ x, magFactor d.wave o.dts (times t0 o.dts k) = .ok x ∧ src.se k = x • d.full o := by
  unfold Mag.eb at h
  split at h
  · cases h
  · rename_i x hx
    obtain rfl := Except.ok.inj h
    refine ⟨rfl, rfl, rfl, fun k => ?_⟩
    obtain ⟨y, hy⟩ := magFactor_zero (t' := times t0 o.dts k) hx
    exact ⟨y, hy, by simp only [hy]⟩

/-- **C78, dipoles and loops.** The source term follows the waveform for waveforms without initial fields,
from the time `time_steps[1]` on, and while the current is one. -/
theorem C78_follows_dipole_partial (d : Mag ε φ) (o : EB p s ν ε φ) (t0 : ℝ) (D : Matrix c φ ℝ)
    (muiI : Matrix φ φ ℝ) (src : SrcEB ν ε φ) (h : d.eb o t0 D muiI = .ok src) (k : ℕ)
    (hw : d.wave.initial = false ∨ (∀ x ∈ o.dts[1]?, x ≤ times t0 o.dts k) ∨
      d.wave.eval (times t0 o.dts k) = 1) :
    src.se k = d.wave.eval (times t0 o.dts k) • (o.Cᵀ *ᵥ (d.muip *ᵥ (o.C *ᵥ d.a))) := by
  obtain ⟨-, -, -, hs⟩ := mag_ok h
  obtain ⟨x, hx, hk⟩ := hs k
  rw [hk, Mag.full]
  congr 1
  unfold magFactor at hx
  split at hx
  · rename_i hi
    split at hx
    · cases hx
    · rename_i y hy
      split at hx
      · rename_i hlt
        rcases hw with h1 | h1 | h1
        · rw [h1] at hi; cases hi
        · exact absurd (h1 y (by simp [hy])) (not_le.2 hlt)
        · rw [h1]; exact (Except.ok.inj hx).symm
      · exact (Except.ok.inj hx).symm
  · exact (Except.ok.inj hx).symm

/-- **C78 is violated, dipoles and loops.** With a waveform with initial fields, as the default waveform, a
simulation of one time step fails. -/
theorem C78_violated_dipole_single (d : Mag ε φ) (o : EB p s ν ε φ) (t0 : ℝ) (D : Matrix c φ ℝ)
    (muiI : Matrix φ φ ℝ) (hi : d.wave.initial = true) (h : o.dts.length ≤ 1) :
    d.eb o t0 D muiI = .error .indexError := by
  have h1 : o.dts[1]? = none := List.getElem?_eq_none (by omega)
  simp [Mag.eb, magFactor, hi, h1]

/-- The static field of a dipole or loop with initial fields: it has no divergence, and its curl is the
source term of the full current, so that there is no electric field. -/
theorem C78_start_dipole (d : Mag ε φ) (o : EB p s ν ε φ) (D : Matrix c φ ℝ) (muiI : Matrix φ φ ℝ)
    (hi : d.wave.initial = true) (hu : d.uniform = true → d.muip = o.mui)
    (hI : o.mui * muiI = 1) (hIp : d.muipI * d.muip = 1) (hdet : (D * muiI * Dᵀ).det ≠ 0)
    (hDC : D * o.C = 0) :
    D *ᵥ d.b0 o D muiI = 0 ∧ o.Cᵀ *ᵥ (o.mui *ᵥ d.b0 o D muiI) = d.full o := by
  by_cases h1 : d.uniform = true
  · have h2 : d.b0 o D muiI = o.C *ᵥ d.a := by simp [Mag.b0, hi, h1]
    rw [h2, Matrix.mulVec_mulVec, hDC, Matrix.zero_mulVec, Mag.full, hu h1]
    exact ⟨rfl, rfl⟩
  · set hp := d.muip *ᵥ (o.C *ᵥ d.a) with hhp
    set phi := (D * muiI * Dᵀ)⁻¹ *ᵥ -(D *ᵥ ((muiI - d.muipI) *ᵥ hp)) with hphi
    have h2 : d.b0 o D muiI = muiI *ᵥ (hp + Dᵀ *ᵥ phi) := by simp [Mag.b0, hi, h1, hphi, hhp]
    have h3 : (D * muiI * Dᵀ) *ᵥ phi = -(D *ᵥ ((muiI - d.muipI) *ᵥ hp)) := mulVec_solve hdet _
    have h4 : d.muipI *ᵥ hp = o.C *ᵥ d.a := by
      rw [hhp, Matrix.mulVec_mulVec, hIp, Matrix.one_mulVec]
    rw [h2]
    constructor
    · rw [Matrix.mulVec_add, Matrix.mulVec_add, Matrix.mulVec_mulVec _ muiI Dᵀ,
        Matrix.mulVec_mulVec _ D (muiI * Dᵀ), ← Matrix.mul_assoc, h3, Matrix.sub_mulVec, Matrix.mulVec_sub,
        h4, Matrix.mulVec_mulVec _ D o.C, hDC, Matrix.zero_mulVec, sub_zero, add_neg_cancel]
    · have hz : o.Cᵀ * Dᵀ = 0 := by rw [← Matrix.transpose_mul, hDC, Matrix.transpose_zero]
      rw [Matrix.mulVec_mulVec _ o.mui muiI, hI, Matrix.one_mulVec, Matrix.mulVec_add,
        Matrix.mulVec_mulVec _ o.Cᵀ Dᵀ, hz, Matrix.zero_mulVec, add_zero, Mag.full]

/-- While the source term is that of the full current, the magnetic flux density keeps its initial value
and there is no electric field. -/
theorem mag_static (d : Mag ε φ) (o : EB p s ν ε φ) (t0 : ℝ) (D : Matrix c φ ℝ)
    (muiI : Matrix φ φ ℝ) (src : SrcEB ν ε φ) (h : d.eb o t0 D muiI = .ok src)
    (hi : d.wave.initial = true) (hu : d.uniform = true → d.muip = o.mui)
    (hI : o.mui * muiI = 1) (hIp : d.muipI * d.muip = 1) (hdet : (D * muiI * Dᵀ).det ≠ 0)
    (hDC : D * o.C = 0) (rxs : List (Rx FldB (LocB ε φ)))
    (srcs : List (SrcEB ν ε φ × List (Rx FldB (LocB ε φ)))) (m : p → ℝ) (hf : Fresh (o.simB srcs))
    (hA : ∀ d ∈ o.dts, (o.bA d m).det ≠ 0) {k : ℕ} (hk : k ≤ o.dts.length)
    (hs : ∀ i ≤ k, src.se i = d.full o) :
    (o.simB srcs).sol m (o.srcB (src, rxs)) k = d.b0 o D muiI ∧
      (o.bE src).val k m (d.b0 o D muiI) = 0 := by
  obtain ⟨hsm, hb0, -, -⟩ := mag_ok h
  obtain ⟨-, h1⟩ := C78_start_dipole d o D muiI hi hu hI hIp hdet hDC
  have h2 : ∀ i ≤ k, (o.bE src).val i m (d.b0 o D muiI) = 0 := fun i hi => by
    simp only [EB.bE, h1, hs i hi, sub_self]
  refine ⟨sol_static hb0 (fun i hi => fac_eq hf i (lt_of_lt_of_le hi hk)) (fun i hi => ?_)
    fun i hi => ?_, h2 k le_rfl⟩
  · change (o.bA (o.dt i) m).det ≠ 0
    rw [show o.dt i = o.dts[i] from getD_eq (lt_of_lt_of_le hi hk)]
    exact hA _ (List.getElem_mem _)
  · refine (b_step (o := o) src ?_ (k := i)).2 ?_
    · change (o.bA (o.dt i) m).det ≠ 0
      rw [show o.dt i = o.dts[i] from getD_eq (lt_of_lt_of_le hi hk)]
      exact hA _ (List.getElem_mem _)
    · rw [h2 (i + 1) (by omega), sub_self, smul_zero, Matrix.mulVec_zero, add_zero, hsm]
      rfl

/-- **C78, dipoles and loops.** While the current is one, the magnetic flux density keeps its static value
and there is no electric field. -/
theorem C78_static_dipole_partial (d : Mag ε φ) (o : EB p s ν ε φ) (t0 : ℝ) (D : Matrix c φ ℝ)
    (muiI : Matrix φ φ ℝ) (src : SrcEB ν ε φ) (h : d.eb o t0 D muiI = .ok src)
    (hi : d.wave.initial = true) (hu : d.uniform = true → d.muip = o.mui)
    (hI : o.mui * muiI = 1) (hIp : d.muipI * d.muip = 1) (hdet : (D * muiI * Dᵀ).det ≠ 0)
    (hDC : D * o.C = 0) (rxs : List (Rx FldB (LocB ε φ)))
    (srcs : List (SrcEB ν ε φ × List (Rx FldB (LocB ε φ)))) (m : p → ℝ) (hf : Fresh (o.simB srcs))
    (hA : ∀ d ∈ o.dts, (o.bA d m).det ≠ 0) {k : ℕ} (hk : k ≤ o.dts.length)
    (hw : ∀ i ≤ k, d.wave.eval (times t0 o.dts i) = 1) :
    (o.simB srcs).sol m (o.srcB (src, rxs)) k = d.b0 o D muiI ∧
      (o.bE src).val k m ((o.simB srcs).sol m (o.srcB (src, rxs)) k) = 0 := by
  have h1 := mag_static d o t0 D muiI src h hi hu hI hIp hdet hDC rxs srcs m hf hA hk fun i hi => by
    rw [C78_follows_dipole_partial d o t0 D muiI src h i (Or.inr (Or.inr (hw i hi))), hw i hi, one_smul]
    rfl
  rw [h1.1]
  exact ⟨rfl, h1.2⟩

/-- **C78 is violated, dipoles and loops.** With the step off waveform and a second time step longer than
the first, the source is still on at the end of the first step, though its current is zero: the static
field persists and there is no electric field. -/
theorem C78_violated_dipole_late (d : Mag ε φ) (o : EB p s ν ε φ) (D : Matrix c φ ℝ)
    (muiI : Matrix φ φ ℝ) (w : Waveforms.StepOff) (hd : d.wave = ⟨w.eval, true⟩) (hw : w.off = 0)
    (h2 : 2 ≤ o.dts.length) (h0 : w.eps ≤ o.dts[0]) (hp : (0 : ℝ) < o.dts[0]) (h01 : o.dts[0] < o.dts[1])
    (hu : d.uniform = true → d.muip = o.mui)
    (hI : o.mui * muiI = 1) (hIp : d.muipI * d.muip = 1) (hdet : (D * muiI * Dᵀ).det ≠ 0)
    (hDC : D * o.C = 0) (rxs : List (Rx FldB (LocB ε φ)))
    (srcs : List (SrcEB ν ε φ × List (Rx FldB (LocB ε φ)))) (m : p → ℝ) (hf : Fresh (o.simB srcs))
    (hA : ∀ d ∈ o.dts, (o.bA d m).det ≠ 0) :
    ∃ src, d.eb o 0 D muiI = .ok src ∧ d.wave.eval (times 0 o.dts 1) = 0 ∧ src.se 1 = d.full o ∧
      (o.simB srcs).sol m (o.srcB (src, rxs)) 1 = d.b0 o D muiI ∧
      (o.bE src).val 1 m (d.b0 o D muiI) = 0 := by
  have hi : d.wave.initial = true := by rw [hd]
  have hg : o.dts[1]? = some o.dts[1] := List.getElem?_eq_getElem (by omega)
  have ht : times 0 o.dts 1 = o.dts[0] := by
    obtain ⟨a, r, hr⟩ : ∃ a r, o.dts = a :: r := by
      cases h : o.dts with
      | nil => rw [h] at h2; simp at h2
      | cons a r => exact ⟨a, r, rfl⟩
    simp [times, hr]
  have hm : ∀ t, t < o.dts[1] → magFactor d.wave o.dts t = .ok 1 := fun t h => by
    simp [magFactor, hi, hg, h]
  have h0' : times 0 o.dts 0 = 0 := by simp [times]
  have hsrc : ∃ src, d.eb o 0 D muiI = .ok src := by
    unfold Mag.eb
    rw [hm _ (by rw [h0']; linarith)]
    exact ⟨_, rfl⟩
  obtain ⟨src, hs⟩ := hsrc
  obtain ⟨-, -, -, hk⟩ := mag_ok hs
  have hse : ∀ i ≤ 1, src.se i = d.full o := by
    intro i hi'
    obtain ⟨x, hx, hx'⟩ := hk i
    have : times 0 o.dts i < o.dts[1] := by
      rcases Nat.le_one_iff_eq_zero_or_eq_one.1 hi' with rfl | rfl
      · rw [h0']; linarith
      · rw [ht]; exact h01
    rw [hm _ this] at hx
    rw [hx', ← Except.ok.inj hx, one_smul]
  refine ⟨src, hs, ?_, hse 1 le_rfl, mag_static d o 0 D muiI src hs hi hu hI hIp hdet hDC rxs srcs m hf hA
    (by omega) hse⟩
  rw [hd, ht]
  refine if_neg ?_
  rw [sub_zero, hw, sub_zero, abs_of_pos hp]
  rintro (h | h) <;> linarith

/-- **C78, dipoles and loops in the magnetic field formulation.** The source begins without electric
currents. -/
theorem C78_start_dipole_HJ (w : Wave) (o : HJ p s c ε φ) (t0 : ℝ) (h : ε → ℝ) (src : SrcHJ c ε φ)
    (hs : magHJ w o t0 h = .ok src) (hw : Consistent w t0) (m : p → ℝ) :
    (o.hJ src).val 0 m (o.hInit src m) = 0 := by
  unfold magHJ at hs
  have ht : times t0 o.dts 0 = t0 := by simp [times]
  split at hs
  · cases hs
  · rename_i x hx
    obtain rfl := Except.ok.inj hs
    simp only [HJ.hJ, HJ.hInit, Bool.false_eq_true, false_and, if_false, hx]
    by_cases hi : w.initial = true
    · have h1 : x = 1 := by
        rw [ht] at hx
        unfold magFactor at hx
        rw [if_pos hi] at hx
        rw [Consistent, if_pos hi] at hw
        split at hx
        · cases hx
        · split at hx
          · exact (Except.ok.inj hx).symm
          · rw [← Except.ok.inj hx, hw]
      rw [if_pos hi, h1, one_smul, sub_self]
    · have h1 : x = 0 := by
        rw [ht] at hx
        unfold magFactor at hx
        rw [if_neg hi] at hx
        rw [Consistent, if_neg hi] at hw
        rw [← Except.ok.inj hx, hw]
      rw [if_neg hi, h1, Matrix.mulVec_zero, zero_smul, sub_zero]

/-! ### Cases -/

/-- Two nodes and the edge between them; the conductivity is the model. -/
def toy2 (dts : List ℝ) : EB Unit Unit (Fin 2) Unit Unit where
  dts := dts
  thr := 1 / 10 ^ 8
  C := 0
  G := Matrix.of fun _ j => if j = 0 then -1 else 1
  node0 := 0
  sigma := toyId
  mui := 1
  meI := 1
  mfI := 1

/-- What the theorems about line currents ask for. -/
theorem toy2_ok (srcs : List (SrcEB (Fin 2) Unit Unit × List (Rx FldE (LocE Unit Unit)))) :
    let o := toy2 [1, 1, 2]
    let m : Unit → ℝ := fun _ => 3
    Fresh (o.simE srcs) ∧ (∀ d ∈ o.dts, d ≠ 0) ∧ (∀ d ∈ o.dts, (o.eA d m).det ≠ 0) ∧
      (o.adc m).det ≠ 0 ∧ o.C * o.G = 0 ∧ o.G *ᵥ (fun _ => 1) = 0 := by
  intro o m
  have hpos := toy_pos (y := m) (by norm_num [m])
  refine ⟨fun k hk => ?_, by simp [o, toy2], fun d hd => ?_, ?_, by simp [o, toy2], ?_⟩
  · have hk' : k + 1 < 3 := hk
    obtain rfl | rfl : k = 0 ∨ k = 1 := by omega
    · left; simp [EB.simE, o, toy2]
    · right; simp [EB.simE, o, toy2]; norm_num
  · refine C72_solvable_electric_field o m hpos.1 one_pos'.nonNeg ?_
    simp only [o, toy2, List.mem_cons, List.not_mem_nil, or_false] at hd
    rcases hd with rfl | rfl | rfl <;> norm_num
  · refine C72_solvable_dc_electric_field o m hpos.1 fun u hu h0 => ?_
    have h1 := congrFun hu ()
    simp only [o, toy2] at h0
    simp [o, toy2, Matrix.mulVec, dotProduct, Fin.sum_univ_two, h0] at h1
    funext i
    fin_cases i
    · exact h0
    · exact h1
  · funext i
    simp [o, toy2, Matrix.mulVec, dotProduct, Fin.sum_univ_two]

/-- A grounded wire with the current 5 which is switched off after the time 1: the hypotheses of the
theorems about the electric field are met; the field is static until then, the charge is balanced at all
times. -/
example :
    let o := toy2 [1, 1, 2]
    let l : Line Unit := ⟨5, true, ⟨Waveforms.StepOff.eval ⟨3 / 2, 1 / 10 ^ 9⟩, true⟩, 1⟩
    let e := (o.simE []).sol (fun _ => 3) (o.srcE (l.eb o 0 0, []))
    e 1 = e 0 ∧ o.Gᵀ *ᵥ (o.sigma.mat ℝ (fun _ => 3) *ᵥ e 3 +
      l.wave.eval (times 0 o.dts 3) • l.m) = 0 := by
  intro o l e
  obtain ⟨h1, h2, h3, h4, h5, h6⟩ := toy2_ok []
  constructor
  · refine (C78_static_electric_field_partial o 0 0 l [] [] _ h1 h2 h3 h5 (by simp [o, toy2]) ?_).trans
      (C78_static_electric_field_partial o 0 0 l [] [] _ h1 h2 h3 h5 (Nat.zero_le _) ?_).symm
    · intro i hi
      rcases Nat.le_one_iff_eq_zero_or_eq_one.1 hi with rfl | rfl
      · simp [times]
      · norm_num [times, o, toy2, l, Waveforms.StepOff.eval]
    · intro i hi
      obtain rfl : i = 0 := by omega
      simp [times]
  · exact C78_equilibrium_electric_field_partial o 0 0 l
      (by norm_num [Consistent, l, Waveforms.StepOff.eval]) [] [] _ h1 h2 h3 h4 h5 h6 3 (by simp [o, toy2])

/-- **C78 is violated, line currents.** A piecewise linear waveform which begins with the current 2 has
initial fields, but those of the current 1: charge accumulates at the electrodes at all times. -/
theorem C78_violated_initial_current :
    ∃ w : Waveforms.Piecewise, Waveforms.Piecewise.build [0, 4] [2, 0] = .ok w ∧ w.hasInitial = true ∧
      ∀ k ≤ 3, ((toy2 [1, 1, 2]).Gᵀ *ᵥ ((toy2 [1, 1, 2]).sigma.mat ℝ (fun _ => 3) *ᵥ
        ((toy2 [1, 1, 2]).simE []).sol (fun _ => 3) ((toy2 [1, 1, 2]).srcE
          (Line.eb ⟨1, true, ⟨w.eval, w.hasInitial⟩, 1⟩ (toy2 [1, 1, 2]) 0 0, [])) k +
        w.eval (times 0 [1, 1, 2] k) • 1)) 1 = 1 := by
  have hn : ([(0, 2), (4, 0)] : List (ℝ × ℝ)).insertionSort (fun a b => a.1 ≤ b.1) = [(0, 2), (4, 0)] := by
    simp [List.insertionSort]
  refine ⟨⟨[(0, 2), (4, 0)]⟩, ?_, ?_, fun k hk => ?_⟩
  · simp [Waveforms.Piecewise.build]
  · simp [Waveforms.Piecewise.hasInitial, Waveforms.Piecewise.I]
  · obtain ⟨h1, h2, h3, h4, h5, h6⟩ := toy2_ok []
    have h7 := C78_charge_electric_field_partial (toy2 [1, 1, 2]) 0 0
      ⟨1, true, ⟨Waveforms.Piecewise.eval ⟨[(0, 2), (4, 0)]⟩,
        Waveforms.Piecewise.hasInitial ⟨[(0, 2), (4, 0)]⟩⟩, 1⟩ [] [] (fun _ => 3) h1 h2 h3 h4 h5 h6 k
      (by simpa [toy2] using hk)
    simp only [Line.m, one_smul] at h7
    refine (congrFun h7 1).trans ?_
    simp [Waveforms.Piecewise.hasInitial, Waveforms.Piecewise.I, Waveforms.Piecewise.eval,
      Waveforms.Piecewise.T, toy2, Matrix.mulVec, dotProduct]
    norm_num

/-- An edge whose curl passes two faces of one cell; the conductivity is the model. -/
def toy3 (dts : List ℝ) : EB Unit Unit Unit Unit (Fin 2) where
  dts := dts
  thr := 1 / 10 ^ 8
  C := Matrix.of fun _ _ => 1
  G := 0
  node0 := ()
  sigma := toyId
  mui := 1
  meI := 1
  mfI := 1

/-- A loop in a permeable cell with the default waveform: the source is switched off one step late. -/
example :
    let o := toy3 [1, 2]
    let d : Mag Unit (Fin 2) := ⟨⟨Waveforms.StepOff.eval ⟨0, 1 / 10 ^ 9⟩, true⟩, 1, (1 / 2 : ℝ) • 1,
      (2 : ℝ) • 1, false⟩
    let D : Matrix Unit (Fin 2) ℝ := Matrix.of fun _ j => if j = 0 then 1 else -1
    ∃ src, d.eb o 0 D 1 = .ok src ∧ d.wave.eval (times 0 o.dts 1) = 0 ∧ src.se 1 = d.full o ∧
      (o.simB []).sol (fun _ => 3) (o.srcB (src, [])) 1 = d.b0 o D 1 ∧
      (o.bE src).val 1 (fun _ => 3) (d.b0 o D 1) = 0 := by
  intro o d D
  have hpos := toy_pos (y := fun _ => 3) (by norm_num)
  have h1 : Pos (1 : Matrix (Fin 2) (Fin 2) ℝ) := by
    intro v hv
    rw [Matrix.one_mulVec, dotProduct, Fin.sum_univ_two]
    by_contra h
    apply hv
    have h0 := mul_self_nonneg (v 0)
    have h1 := mul_self_nonneg (v 1)
    have h2 : v 0 = 0 := mul_self_eq_zero.1 (by linarith)
    have h3 : v 1 = 0 := mul_self_eq_zero.1 (by linarith)
    funext i
    fin_cases i
    · exact h2
    · exact h3
  refine C78_violated_dipole_late d o D 1 ⟨0, 1 / 10 ^ 9⟩ rfl rfl (by simp [o, toy3])
    (by norm_num [o, toy3]) (by norm_num [o, toy3]) (by norm_num [o, toy3]) (by simp [d]) (by simp [o, toy3])
    (by simp [d]) ?_ ?_ [] [] _ ?_ ?_
  · simp [D, Matrix.det_unique, Matrix.mul_apply, Fin.sum_univ_two]
  · ext i j
    simp [D, o, toy3, Matrix.mul_apply, Fin.sum_univ_two]
  · intro k hk
    have hk' : k + 1 < 2 := hk
    obtain rfl : k = 0 := by omega
    right; simp [EB.simB, o, toy3]; norm_num
  · intro x hx
    refine C72_solvable_magnetic_flux_density o _ hpos.2.nonNeg (by simp [o, toy3]) h1 ?_
    simp only [o, toy3, List.mem_cons, List.not_mem_nil, or_false] at hx
    rcases hx with rfl | rfl <;> norm_num

/-- Two faces of a cell and the edge around which the current through them flows. -/
def toyJ2 : HJ Unit (Fin 2) Unit Unit (Fin 2) :=
  { toyJ with C := Matrix.of fun _ _ => 1, D := Matrix.of fun _ => ![1, -1] }

/-- **C78 is violated, grounded sources in the magnetic field formulation.** The initial field is computed
with the current at time zero and not at the first time of the simulation: a waveform which is one at the
first time `-1` and zero at time zero begins without magnetic field, though the curl of `1 / 2` is the total
current. -/
theorem C78_violated_time_zero (w : Wave) (h0 : w.eval 0 = 0) (h1 : w.eval (-1) = 1)
    (hi : w.initial = true) :
    let l : Line (Fin 2) := ⟨1, true, w, ![1, 0]⟩
    let src := l.hj toyJ2 (-1) 0 0
    toyJ2.hInit src (fun _ => 1) = 0 ∧ src.se 0 = ![1, 0] ∧
      toyJ2.C *ᵥ (fun _ => 1 / 2) - toyJ2.jInit src (fun _ => 1) = src.se 0 := by
  intro l src
  have hj : toyJ2.jInit src (fun _ => 1) = ![-1 / 2, 1 / 2] := by
    have hr : toyJ2.rho = toyRho := rfl
    simp only [HJ.jInit, HJ.phi0, HJ.adc, hr, toyRho_inv 1 one_ne_zero]
    funext i
    fin_cases i <;>
      simp [src, l, Line.hj, Line.m, hi, toyJ2, inv_unit, Matrix.mulVec, dotProduct, Matrix.mul_apply,
        Fin.sum_univ_two, Matrix.diagonal_apply] <;> norm_num
  have hm : toyJ2.ammr⁻¹ = !![0, 1 / 2; 1 / 2, 0] := by
    apply Matrix.inv_eq_right_inv
    ext i j
    fin_cases i <;> fin_cases j <;>
      simp [HJ.ammr, toyJ2, toyJ, Matrix.mul_apply, Fin.sum_univ_two, Matrix.diagonal_apply] <;> norm_num
  refine ⟨?_, ?_, ?_⟩
  · have : src.se0 = 0 := by simp [src, Line.hj, l, h0]
    have hd : src.dc = true ∧ src.galvanic = true := ⟨hi, rfl⟩
    rw [HJ.hInit, if_pos hd, this, hj, hm]
    funext i
    simp [toyJ2, toyJ, Matrix.mulVec, dotProduct, Fin.sum_univ_two]
    norm_num
  · simp [src, Line.hj, l, times, h1, Line.m]
  · rw [hj]
    funext i
    fin_cases i <;> simp [src, Line.hj, l, times, h1, Line.m, toyJ2, Matrix.mulVec, dotProduct] <;> norm_num

/-- Such a waveform. -/
example : ∃ w : Waveforms.Piecewise, Waveforms.Piecewise.build [-1, 0] [1, 0] = .ok w ∧
    w.hasInitial = true ∧ w.eval 0 = 0 ∧ w.eval (-1) = 1 := by
  refine ⟨⟨[(-1, 1), (0, 0)]⟩, ?_, ?_, ?_, ?_⟩
  · simp [Waveforms.Piecewise.build]
  · simp [Waveforms.Piecewise.hasInitial, Waveforms.Piecewise.I]
  · simp [Waveforms.Piecewise.eval, Waveforms.Piecewise.T, Waveforms.Piecewise.I]
  · simp [Waveforms.Piecewise.eval, Waveforms.Piecewise.T, Waveforms.Piecewise.I]

/-- A closed loop whose current is doubled: the data of the current density are, the initial magnetic field
is not. -/
example :
    let o := toyH [1, 1] 0 1
    let l : Line Unit := ⟨1, false, ⟨Waveforms.StepOff.eval ⟨0, 1 / 10 ^ 9⟩, true⟩, 1⟩
    ∃ l', l.setCurrent (2 * l.current) = .ok l' ∧
      Proportional ((o.simJ []).srcData (fun _ => 3) (o.srcJ (l.hj o 0 1 1, [pick .j (fun _ => 1) 1])))
        ((o.simJ []).srcData (fun _ => 3) (o.srcJ (l'.hj o 0 1 1, [pick .j (fun _ => 1) 1]))) 2 ∧
      o.hInit (l'.hj o 0 1 1) (fun _ => 3) ≠ (2 : ℝ) • o.hInit (l.hj o 0 1 1) (fun _ => 3) := by
  intro o l
  have h : l.setCurrent (2 * l.current) = .ok { l with current := 2 * l.current } := by
    simp [Line.setCurrent, l]
  exact ⟨_, h, C78_proportional_current_density o 0 1 1 l _ 2 h _ _ _,
    C78_violated_proportional o 0 1 1 l _ 2 h rfl rfl one_ne_zero (by norm_num) _⟩

end

end Props
end Verif.TDEM
