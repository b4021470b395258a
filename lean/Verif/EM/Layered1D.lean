import Verif.Basic
import Verif.Analysis
import Verif.Maps.Parametric
import Mathlib.Analysis.Complex.Basic
import Mathlib.LinearAlgebra.Matrix.Notation
import Mathlib.Tactic.FieldSimp
import Mathlib.Tactic.Ring
import Mathlib.Tactic.Linarith

/-!
C144: data and sensitivities of the layered electromagnetic simulations
(`simpeg/electromagnetics/base_1d.py`, `frequency_domain/simulation_1d.py`,
`time_domain/simulation_1d.py`). The reflection coefficients and their derivatives come from another
package (`geoana`); they are parameters here.
-/

noncomputable section
namespace Verif.EM.Layered1D
open Verif Matrix

/-! ### The code: Hankel transforms -/

/-- A row of the stacked coefficients: one quadrature point of one location. `out` is the entry of `Is`,
`freq` that of `i_freq`, `inv` the row of `_inv_lambs`, `c0` and `c1` the rows of `_C0s` and `_C1s`
(`simpeg/electromagnetics/base_1d.py` 594-614, `frequency_domain/simulation_1d.py` 76-87). -/
structure Row (K : ℕ) where
  out : ℕ
  freq : ℕ
  inv : Fin K → ℕ
  c0 : Fin K → ℝ
  c1 : Fin K → ℝ

/-- `(C0s * rTE) @ j0 + (C1s * rTE) @ j1` for one row, with `rTE[i_freq]` and `take_along_axis`
(`frequency_domain/simulation_1d.py` 123-126); `g` is the table of `rTE`, by frequency and by position
in the unique wave numbers. -/
def rowSum {K : ℕ} (j0 j1 : Fin K → ℝ) (g : ℕ → ℕ → ℂ) (r : Row K) : ℂ :=
  (∑ k, (r.c0 k : ℂ) * g r.freq (r.inv k) * (j0 k : ℂ)) + ∑ k, (r.c1 k : ℂ) * g r.freq (r.inv k) * (j1 k : ℂ)

/-- `W @ (...)` (`frequency_domain/simulation_1d.py` 126): entry `n` sums the rows with `Is == n`. -/
def hankel {K : ℕ} (j0 j1 : Fin K → ℝ) (rows : List (Row K)) (g : ℕ → ℕ → ℂ) (n : ℕ) : ℂ :=
  ((rows.filter fun r => r.out = n).map (rowSum j0 j1 g)).sum

/-! ### The code: data in the frequency domain -/

/-- `rx.component`. -/
inductive Comp | real | imag | both | complex
deriving DecidableEq

/-- The class of a receiver. -/
inductive Kind | secondary | total | other
deriving DecidableEq

/-- What `_project_to_data` uses of a receiver: `prim` is `src.hPrimary(self)[i_rx]`. -/
structure Rx where
  kind : Kind
  ppm : Bool
  comp : Comp
  nLoc : ℕ
  prim : ℕ → ℂ

/-- A source: whether it is a `LineCurrent`, and its receivers. -/
structure Src where
  wire : Bool
  rxs : List Rx

/-- `rx.nD` (`frequency_domain/receivers.py` 253-258). -/
def Rx.nD (r : Rx) : ℕ := if r.comp = .both then r.nLoc * 2 else r.nLoc

/-- `v_slice` after its primary field (`frequency_domain/simulation_1d.py` 320-341). `add` says that
`v.ndim == 1`; the columns of a matrix are treated alike, this is one of them. -/
def sliceVal (add wire : Bool) (r : Rx) (v : ℕ → ℂ) : Except Err (ℕ → ℂ) :=
  match r.kind with
  | .secondary =>
    if r.ppm then
      if wire then .error .exception else .ok fun k => v k / r.prim k * 1000000
    else .ok v
  | .total =>
    if wire then .error .exception
    else if add then .ok fun k => v k + r.prim k else .ok v
  | .other => .ok v

/-- `out[start : start + step * n : step] = f`. -/
def put (out : ℕ → ℝ) (start step n : ℕ) (f : ℕ → ℝ) (k : ℕ) : ℝ :=
  if start ≤ k ∧ k < start + step * n ∧ (k - start) % step = 0 then f ((k - start) / step) else out k

/-- `out`, `i_dat`, `i_v`. -/
structure St where
  out : ℕ → ℝ
  dat : ℕ
  v : ℕ

/-- One receiver of `_project_to_data` (`frequency_domain/simulation_1d.py` 315-356). The slice
`i_dat + 1 : i_dat_p1 : 2` has as many entries as locations. -/
def stepRx (add : Bool) (v : ℕ → ℂ) (s : St) (wr : Bool × Rx) : Except Err St :=
  match sliceVal add wr.1 wr.2 (fun k => v (s.v + k)) with
  | .error e => .error e
  | .ok w =>
    match wr.2.comp with
    | .both => .ok ⟨put (put s.out s.dat 2 wr.2.nLoc fun k => (w k).re) (s.dat + 1) 2 wr.2.nLoc
        fun k => (w k).im, s.dat + wr.2.nD, s.v + wr.2.nLoc⟩
    | .real => .ok ⟨put s.out s.dat 1 wr.2.nLoc fun k => (w k).re, s.dat + wr.2.nD, s.v + wr.2.nLoc⟩
    | .imag => .ok ⟨put s.out s.dat 1 wr.2.nLoc fun k => (w k).im, s.dat + wr.2.nD, s.v + wr.2.nLoc⟩
    | .complex => .error .exception

/-- The pairs of the two loops. -/
def pairs (srcs : List Src) : List (Bool × Rx) := srcs.flatMap fun s => s.rxs.map fun r => (s.wire, r)

/-- `_project_to_data` (`frequency_domain/simulation_1d.py` 305-357): `out[:nD]`. -/
def project (add : Bool) (srcs : List Src) (v : ℕ → ℂ) : Except Err (List ℝ) :=
  match (pairs srcs).foldlM (stepRx add v) ⟨fun _ => 0, 0, 0⟩ with
  | .error e => .error e
  | .ok s => .ok ((List.range ((pairs srcs).map fun p => p.2.nD).sum).map s.out)

/-! ### The code: data in the time domain -/

/-- What `_project_to_data` of the time domain uses of a receiver: `flux` says that it is a
`PointMagneticFluxDensity` or a `PointMagneticField`, `A` is its entry of `_As`. -/
structure RxT where
  flux : Bool
  nLoc : ℕ
  nTime : ℕ
  A : ℕ → ℕ → ℝ

/-- One receiver of `_project_to_data` (`time_domain/simulation_1d.py` 417-439): `v` by location and
frequency, `F` frequencies. The reshape with `order="F"` runs through locations first. -/
def stepT (F : ℕ) (v : ℕ → ℕ → ℂ) (s : St) (r : RxT) : St :=
  let d := fun loc t => ∑ j ∈ Finset.range F, r.A t j *
    (if r.flux then (v (s.v + loc) j).im else (v (s.v + loc) j).re)
  ⟨put s.out s.dat 1 (r.nLoc * r.nTime) fun q => d (q % r.nLoc) (q / r.nLoc),
    s.dat + r.nLoc * r.nTime, s.v + r.nLoc⟩

/-- `_project_to_data` (`time_domain/simulation_1d.py` 408-440), of one column. -/
def projectT (F : ℕ) (rxs : List RxT) (v : ℕ → ℕ → ℂ) : List ℝ :=
  (List.range (rxs.map fun r => r.nLoc * r.nTime).sum).map
    (rxs.foldl (stepT F v) ⟨fun _ => 0, 0, 0⟩).out

/-! ### The code: heights -/

/-- `fields` as function of the heights `h` of the sources: they are not used
(`frequency_domain/simulation_1d.py` 101-128). -/
def fieldsH {K : ℕ} (j0 j1 : Fin K → ℝ) (rows : List (Row K)) (g : ℕ → ℕ → ℂ) (_h : ℕ → ℝ) (n : ℕ) : ℂ :=
  hankel j0 j1 rows g n

/-- `v_dh_temp` before `+=` (`frequency_domain/simulation_1d.py` 167-199), for one row of a source with
height `h`; `lam` are its wave numbers. -/
def dhRow {K : ℕ} (j0 j1 : Fin K → ℝ) (g : ℕ → ℕ → ℂ) (lam : Fin K → ℝ) (h : ℝ) (r : Row K) : ℝ :=
  (∑ k, ((r.c0 k * (Real.exp (-lam k * h) * -lam k) : ℝ) : ℂ) * g r.freq (r.inv k) * (j0 k : ℂ)).re
  + (∑ k, ((r.c1 k * (Real.exp (-lam k * h) * -lam k) : ℝ) : ℂ) * g r.freq (r.inv k) * (j1 k : ℂ)).re

/-- `v_dh_temp += W @ v_dh_temp` (`frequency_domain/simulation_1d.py` 200) if each location has one row:
`W` is then the identity. -/
def dhEntry {K : ℕ} (j0 j1 : Fin K → ℝ) (g : ℕ → ℕ → ℂ) (lam : Fin K → ℝ) (h : ℝ) (r : Row K) : ℝ :=
  dhRow j0 j1 g lam h r + dhRow j0 j1 g lam h r

/-! ### The code: blocks -/

/-- A property with a map: its block of `_getJ` and the derivative of its map. -/
structure Block (d p : ℕ) where
  k : ℕ
  J : Matrix (Fin d) (Fin k) ℝ
  D : Matrix (Fin k) (Fin p) ℝ

/-- `Jvec` (`base_1d.py` 373-384). -/
def Jvec {d p : ℕ} (bs : List (Block d p)) (v : Fin p → ℝ) : Fin d → ℝ :=
  bs.foldl (fun out b => out + b.J *ᵥ (b.D *ᵥ v)) 0

/-- `Jtvec` (`base_1d.py` 386-397). -/
def Jtvec {d p : ℕ} (bs : List (Block d p)) (v : Fin d → ℝ) : Fin p → ℝ :=
  bs.foldl (fun out b => out + b.Dᵀ *ᵥ (b.Jᵀ *ᵥ v)) 0

/-- `getJ` (`frequency_domain/simulation_1d.py` 291-303). -/
def getJ {d p : ℕ} (bs : List (Block d p)) : Matrix (Fin d) (Fin p) ℝ :=
  (bs.map fun b => b.J * b.D).sum

/-- `getJtJdiag` without its cache (`base_1d.py` 639-660); `w` is the diagonal of `W`. -/
def JtJdiag {d p : ℕ} (bs : List (Block d p)) (w : Fin d → ℝ) (j : Fin p) : ℝ :=
  bs.foldl (fun out b => out + ∑ i, w i ^ 2 * (b.J * b.D) i j * (b.J * b.D) i j) 0

/-! ### The code: coefficients kept -/

/-- What is kept between calls: the survey, the filter, whether `_coefficients_set`, the coefficients
and `_W`. -/
structure Sim (S Fl C Wt : Type) where
  survey : S
  filter : Fl
  isSet : Bool
  coef : Option C
  W : Option Wt

variable {S Fl C Wt : Type}

/-- The setter of `survey` (`frequency_domain/simulation_1d.py` 37-41, also that of the time domain). -/
def Sim.setSurvey (x : Sim S Fl C Wt) (s : S) : Sim S Fl C Wt := { x with survey := s }

/-- The setters of the filters (`base_1d.py` 165-173, `time_domain/simulation_1d.py` 63-78). -/
def Sim.setFilter (x : Sim S Fl C Wt) (f : Fl) : Sim S Fl C Wt := { x with filter := f, isSet := false }

/-- `_compute_coefficients` (`frequency_domain/simulation_1d.py` 66-88). -/
def Sim.compute (mk : S → Fl → C × Wt) (x : Sim S Fl C Wt) : Sim S Fl C Wt :=
  if x.isSet then x
  else { x with isSet := true, coef := some (mk x.survey x.filter).1, W := some (mk x.survey x.filter).2 }

/-- What `fields` uses (`frequency_domain/simulation_1d.py` 107-115): missing attributes raise. -/
def Sim.used (mk : S → Fl → C × Wt) (x : Sim S Fl C Wt) : Except Err (C × Wt) :=
  match (x.compute mk).coef, (x.compute mk).W with
  | some c, some w => .ok (c, w)
  | _, _ => .error .attributeError

/-- `_set_coefficients(other.get_coefficients())` of the frequency domain
(`frequency_domain/simulation_1d.py` 43-64). -/
def Sim.transfer (mk : S → Fl → C × Wt) (a b : Sim S Fl C Wt) : Sim S Fl C Wt :=
  { b with isSet := true, coef := (a.compute mk).coef, W := (a.compute mk).W }

/-- `_set_coefficients(other.get_coefficients())` of the time domain
(`time_domain/simulation_1d.py` 80-102): `_W` is not among the coefficients. -/
def Sim.transferT (mk : S → Fl → C × Wt) (a b : Sim S Fl C Wt) : Sim S Fl C Wt :=
  { b with isSet := true, coef := (a.compute mk).coef }

/-! ### Specification -/

/-- A datum: a part of `scale * H + shift` at a location, `H` the secondary field. -/
structure Datum where
  loc : ℕ
  scale : ℂ
  shift : ℂ
  im : Bool

/-- Its value; derivatives are without the shift. -/
def Datum.eval (add : Bool) (v : ℕ → ℂ) (d : Datum) : ℝ :=
  let z := d.scale * v d.loc + if add then d.shift else 0
  if d.im then z.im else z.re

/-- Secondary fields are as they are, or parts per million of the primary field; total fields have the
primary field added. -/
def units (r : Rx) (k : ℕ) : ℂ × ℂ :=
  match r.kind with
  | .secondary => if r.ppm then (1000000 / r.prim k, 0) else (1, 0)
  | .total => (1, r.prim k)
  | .other => (1, 0)

/-- The parts that are data. -/
def parts : Comp → List Bool
  | .real => [false]
  | .imag => [true]
  | .both => [false, true]
  | .complex => []

/-- The data of a receiver whose first location is number `i`: location by location. -/
def layoutRx (i : ℕ) (r : Rx) : List Datum :=
  (List.range r.nLoc).flatMap fun k => (parts r.comp).map fun b => ⟨i + k, (units r k).1, (units r k).2, b⟩

/-- The data of all receivers. -/
def layout (i : ℕ) : List (Bool × Rx) → List Datum
  | [] => []
  | p :: ps => layoutRx i p.2 ++ layout (i + p.2.nLoc) ps

/-- What can be simulated: the primary field of wires cannot. -/
def supported (p : Bool × Rx) : Prop :=
  p.2.comp ≠ .complex ∧ ¬(p.1 = true ∧ (p.2.kind = .total ∨ (p.2.kind = .secondary ∧ p.2.ppm = true)))

/-- The data in the time domain of a receiver whose first location is number `i`: time by time. -/
def layoutT (F : ℕ) (v : ℕ → ℕ → ℂ) (i : ℕ) (r : RxT) : List ℝ :=
  (List.range r.nTime).flatMap fun t => (List.range r.nLoc).map fun loc =>
    ∑ j ∈ Finset.range F, r.A t j * (if r.flux then (v (i + loc) j).im else (v (i + loc) j).re)

/-- The data in the time domain of all receivers. -/
def layoutTs (F : ℕ) (v : ℕ → ℕ → ℂ) (i : ℕ) : List RxT → List ℝ
  | [] => []
  | r :: rs => layoutT F v i r ++ layoutTs F v (i + r.nLoc) rs

/-- `g` is the gradient of the complex function `f` of real parameters. -/
def CGrad {L : ℕ} (f : (Fin L → ℝ) → ℂ) (g : Fin L → ℂ) (m : Fin L → ℝ) : Prop :=
  IsGradient (fun x => (f x).re) (fun l => (g l).re) m ∧
  IsGradient (fun x => (f x).im) (fun l => (g l).im) m

namespace Props
open Verif.Maps.Parametric.Props

/-! ### Data -/

theorem put_range (out : ℕ → ℝ) (a n : ℕ) (f : ℕ → ℝ) :
    (List.range (a + n)).map (put out a 1 n f) = (List.range a).map out ++ (List.range n).map f := by
  rw [List.range_add, List.map_append]
  congr 1
  · apply List.map_congr_left
    intro k hk
    have := List.mem_range.1 hk
    simp [put, Nat.not_le.2 this]
  · rw [List.map_map]
    apply List.map_congr_left
    intro k hk
    have := List.mem_range.1 hk
    simp [put, this, Nat.mod_one]

theorem range_pairs {α : Type} (f g : ℕ → α) (n : ℕ) :
    (List.range (n * 2)).map (fun j => if j % 2 = 0 then f (j / 2) else g (j / 2)) =
      (List.range n).flatMap fun k => [f k, g k] := by
  induction n with
  | zero => rfl
  | succ n ih =>
    rw [Nat.succ_mul, List.range_add, List.map_append, ih, List.range_succ (n := n), List.flatMap_append]
    have h1 : (n * 2 + 1) % 2 = 1 := by omega
    have h2 : (n * 2 + 1) / 2 = n := by omega
    simp [List.range_succ, h1, h2]

theorem put_pairs (out : ℕ → ℝ) (a n : ℕ) (f g : ℕ → ℝ) :
    (List.range (a + n * 2)).map (put (put out a 2 n f) (a + 1) 2 n g) =
      (List.range a).map out ++ (List.range n).flatMap fun k => [f k, g k] := by
  rw [List.range_add, List.map_append]
  congr 1
  · apply List.map_congr_left
    intro k hk
    have := List.mem_range.1 hk
    have h1 : ¬ a + 1 ≤ k := by omega
    have h2 : ¬ a ≤ k := by omega
    simp [put, h1, h2]
  · rw [List.map_map, ← range_pairs]
    apply List.map_congr_left
    intro j hj
    have hj := List.mem_range.1 hj
    simp only [Function.comp, put]
    rcases Nat.even_or_odd' j with ⟨c, rfl | rfl⟩
    · have h1 : ¬ (a + 1 ≤ a + 2 * c ∧ a + 2 * c < a + 1 + 2 * n ∧ (a + 2 * c - (a + 1)) % 2 = 0) := by omega
      have h2 : a ≤ a + 2 * c ∧ a + 2 * c < a + 2 * n ∧ (a + 2 * c - a) % 2 = 0 := by omega
      rw [if_neg h1, if_pos h2, if_pos (by omega)]
      congr 1
      omega
    · have h1 : a + 1 ≤ a + (2 * c + 1) ∧ a + (2 * c + 1) < a + 1 + 2 * n ∧
          (a + (2 * c + 1) - (a + 1)) % 2 = 0 := by omega
      rw [if_pos h1, if_neg (by omega)]
      congr 1
      omega

theorem slice_ok (add : Bool) {p : Bool × Rx} (h : supported p) (v : ℕ → ℂ) :
    ∃ w, sliceVal add p.1 p.2 v = .ok w ∧
      ∀ k, w k = (units p.2 k).1 * v k + if add then (units p.2 k).2 else 0 := by
  obtain ⟨wire, r⟩ := p
  obtain ⟨-, h⟩ := h
  simp only at h
  unfold sliceVal units
  cases hk : r.kind with
  | secondary =>
    by_cases hp : r.ppm = true
    · have hw : wire = false := by
        by_contra hw
        exact h ⟨by simpa using hw, Or.inr ⟨hk, hp⟩⟩
      refine ⟨_, by simp [hp, hw]; rfl, fun k => ?_⟩
      simp only [hp, if_true, ite_self, add_zero]
      ring
    · refine ⟨v, by simp [hp], fun k => ?_⟩
      simp [hp]
  | total =>
    have hw : wire = false := by
      by_contra hw
      exact h ⟨by simpa using hw, Or.inl hk⟩
    cases add
    · exact ⟨v, by simp [hw], fun k => by simp⟩
    · exact ⟨fun k => v k + r.prim k, by simp [hw], fun k => by simp⟩
  | other => exact ⟨v, rfl, fun k => by simp⟩

theorem layoutRx_eval (add : Bool) (v : ℕ → ℂ) (i : ℕ) (r : Rx) (w : ℕ → ℂ)
    (hw : ∀ k, w k = (units r k).1 * v (i + k) + if add then (units r k).2 else 0) :
    (layoutRx i r).map (Datum.eval add v) =
      (List.range r.nLoc).flatMap fun k => (parts r.comp).map fun b => if b then (w k).im else (w k).re := by
  unfold layoutRx
  rw [List.map_flatMap]
  congr 1
  funext k
  rw [List.map_map]
  congr 1
  funext b
  simp [Datum.eval, hw]

theorem flatMap_one {α : Type} (f : ℕ → α) (l : List ℕ) : (l.flatMap fun k => [f k]) = l.map f := by
  induction l with
  | nil => rfl
  | cons a l ih => simp [ih]

theorem step_ok (add : Bool) (v : ℕ → ℂ) (s : St) {p : Bool × Rx} (h : supported p) :
    ∃ s', stepRx add v s p = .ok s' ∧ s'.dat = s.dat + p.2.nD ∧ s'.v = s.v + p.2.nLoc ∧
      (List.range s'.dat).map s'.out =
        (List.range s.dat).map s.out ++ (layoutRx s.v p.2).map (Datum.eval add v) := by
  obtain ⟨w, hw, he⟩ := slice_ok add h (fun k => v (s.v + k))
  unfold stepRx
  rw [hw, layoutRx_eval add v s.v p.2 w he]
  cases hc : p.2.comp with
  | complex => exact absurd hc h.1
  | both =>
    refine ⟨_, rfl, rfl, rfl, ?_⟩
    simp only [Rx.nD, hc, if_true]
    rw [put_pairs]
    rfl
  | real =>
    refine ⟨_, rfl, rfl, rfl, ?_⟩
    simp only [Rx.nD, hc, reduceCtorEq, if_false]
    rw [put_range]
    simp [parts, flatMap_one]
  | imag =>
    refine ⟨_, rfl, rfl, rfl, ?_⟩
    simp only [Rx.nD, hc, reduceCtorEq, if_false]
    rw [put_range]
    simp [parts, flatMap_one]

theorem fold_ok (add : Bool) (v : ℕ → ℂ) (ps : List (Bool × Rx)) (s : St) (h : ∀ p ∈ ps, supported p) :
    ∃ s', ps.foldlM (stepRx add v) s = .ok s' ∧ s'.dat = s.dat + (ps.map fun p => p.2.nD).sum ∧
      (List.range s'.dat).map s'.out =
        (List.range s.dat).map s.out ++ (layout s.v ps).map (Datum.eval add v) := by
  induction ps generalizing s with
  | nil => exact ⟨s, rfl, by simp, by simp [layout]⟩
  | cons p ps ih =>
    obtain ⟨s1, e1, d1, v1, o1⟩ := step_ok add v s (h p (by simp))
    obtain ⟨s2, e2, d2, o2⟩ := ih s1 (fun q hq => h q (by simp [hq]))
    refine ⟨s2, ?_, ?_, ?_⟩
    · rw [List.foldlM_cons, e1]
      exact e2
    · rw [d2, d1, List.map_cons, List.sum_cons, Nat.add_assoc]
    · rw [o2, o1, v1, layout, List.map_append, List.append_assoc]

theorem step_err (add : Bool) (v : ℕ → ℂ) (s : St) {p : Bool × Rx} (h : ¬supported p) :
    stepRx add v s p = .error .exception := by
  obtain ⟨wire, r⟩ := p
  unfold supported at h
  simp only [not_and_or, not_not] at h
  unfold stepRx
  by_cases hb : wire = true ∧ (r.kind = .total ∨ (r.kind = .secondary ∧ r.ppm = true))
  · have : sliceVal add wire r (fun k => v (s.v + k)) = .error .exception := by
      obtain ⟨hw, hk | ⟨hk, hp⟩⟩ := hb <;> simp [sliceVal, *]
    simp only [this]
  · rcases h with h | h
    · have hs : sliceVal add wire r (fun k => v (s.v + k)) = .error .exception ∨
          ∃ w, sliceVal add wire r (fun k => v (s.v + k)) = .ok w := by
        unfold sliceVal
        split <;> (try split) <;> (try split) <;> simp
      rcases hs with hs | ⟨w, hs⟩
      · simp only [hs]
      · simp only [hs, h]
    · exact absurd (by tauto) hb

theorem fold_err (add : Bool) (v : ℕ → ℂ) (ps : List (Bool × Rx)) (s : St) (h : ∃ p ∈ ps, ¬supported p) :
    ps.foldlM (stepRx add v) s = .error .exception := by
  induction ps generalizing s with
  | nil => simp at h
  | cons p ps ih =>
    rw [List.foldlM_cons]
    by_cases hp : supported p
    · obtain ⟨s1, e1, -⟩ := step_ok add v s hp
      rw [e1]
      obtain ⟨q, hq, hn⟩ := h
      rcases List.mem_cons.1 hq with rfl | hq
      · exact absurd hp hn
      · exact ih s1 ⟨q, hq, hn⟩
    · rw [step_err add v s hp]
      rfl

/-- C144. **Data in the frequency domain**: source by source, receiver by receiver, location by location,
the real part before the imaginary part, in the units of the receiver; for sensitivities without the
primary field. Unsupported receivers raise. -/
theorem C144_data (add : Bool) (srcs : List Src) (v : ℕ → ℂ) :
    ((∀ s ∈ srcs, ∀ r ∈ s.rxs, supported (s.wire, r)) →
      project add srcs v = .ok ((layout 0 (pairs srcs)).map (Datum.eval add v))) ∧
    ((∃ s ∈ srcs, ∃ r ∈ s.rxs, ¬supported (s.wire, r)) → project add srcs v = .error .exception) := by
  constructor
  · intro h
    have h' : ∀ p ∈ pairs srcs, supported p := by
      intro p hp
      obtain ⟨s, hs, hp⟩ := List.mem_flatMap.1 hp
      obtain ⟨r, hr, rfl⟩ := List.mem_map.1 hp
      exact h s hs r hr
    obtain ⟨s, e, d, o⟩ := fold_ok add v (pairs srcs) ⟨fun _ => 0, 0, 0⟩ h'
    unfold project
    simp only [e]
    simp only [Nat.zero_add] at d
    rw [← d, o]
    simp
  · rintro ⟨s, hs, r, hr, hn⟩
    unfold project
    have hm : (s.wire, r) ∈ pairs srcs :=
      List.mem_flatMap.2 ⟨s, hs, List.mem_map.2 ⟨r, hr, rfl⟩⟩
    rw [fold_err add v (pairs srcs) _ ⟨(s.wire, r), hm, hn⟩]

/-- C144. **Parts per million of total fields**: `data_type` of receivers of total fields is ignored. -/
theorem C144_violated_ppm (add : Bool) (wire : Bool) (r : Rx) (hr : r.kind = .total) (v : ℕ → ℂ) :
    project add [⟨wire, [{ r with ppm := true }]⟩] v = project add [⟨wire, [{ r with ppm := false }]⟩] v := by
  simp only [project, pairs, List.flatMap_cons, List.flatMap_nil, List.map_cons, List.map_nil,
    List.append_nil, List.foldlM_cons, List.foldlM_nil, stepRx, sliceVal, hr, Rx.nD]

/-! ### Data in the time domain -/

theorem range_times {α : Type} (d : ℕ → ℕ → α) (n m : ℕ) :
    (List.range (n * m)).map (fun q => d (q % n) (q / n)) =
      (List.range m).flatMap fun t => (List.range n).map fun l => d l t := by
  induction m with
  | zero => simp
  | succ m ih =>
    rw [Nat.mul_succ, List.range_add, List.map_append, ih, List.range_succ, List.flatMap_append]
    congr 1
    rw [List.map_map]
    simp only [List.flatMap_cons, List.flatMap_nil, List.append_nil]
    apply List.map_congr_left
    intro k hk
    have hk := List.mem_range.1 hk
    have hn : 0 < n := by omega
    simp only [Function.comp]
    rw [Nat.mul_add_mod, Nat.mod_eq_of_lt hk, Nat.mul_add_div hn, Nat.div_eq_of_lt hk, Nat.add_zero]

theorem foldT (F : ℕ) (v : ℕ → ℕ → ℂ) (rs : List RxT) (s : St) :
    let s' := rs.foldl (stepT F v) s
    s'.dat = s.dat + (rs.map fun r => r.nLoc * r.nTime).sum ∧
      (List.range s'.dat).map s'.out = (List.range s.dat).map s.out ++ layoutTs F v s.v rs := by
  induction rs generalizing s with
  | nil => simp [layoutTs]
  | cons r rs ih =>
    obtain ⟨d, o⟩ := ih (stepT F v s r)
    simp only [List.foldl_cons]
    refine ⟨?_, ?_⟩
    · rw [d, List.map_cons, List.sum_cons, ← Nat.add_assoc]
      rfl
    · rw [o]
      have : (List.range (stepT F v s r).dat).map (stepT F v s r).out =
          (List.range s.dat).map s.out ++ layoutT F v s.v r := by
        simp only [stepT]
        rw [put_range, layoutT, ← range_times]
      rw [this, List.append_assoc]
      rfl

/-- C144. **Data in the time domain**: receiver by receiver, time by time, location by location, each
the transform of the imaginary part of the spectrum for fields and of the real part for their rates. -/
theorem C144_data_time (F : ℕ) (rxs : List RxT) (v : ℕ → ℕ → ℂ) :
    projectT F rxs v = layoutTs F v 0 rxs := by
  obtain ⟨d, o⟩ := foldT F v rxs ⟨fun _ => 0, 0, 0⟩
  simp only [Nat.zero_add] at d
  unfold projectT
  rw [← d, o]
  simp

/-- C144. **Quadrature**: every quadrature point adds its two transforms to the datum it was made for and to
no other. -/
theorem C144_quadrature {K : ℕ} (j0 j1 : Fin K → ℝ) (rows : List (Row K)) (g : ℕ → ℕ → ℂ) (r : Row K) (n : ℕ) :
    hankel j0 j1 [] g n = 0 ∧
    hankel j0 j1 (r :: rows) g n = (if n = r.out then
      ∑ k, g r.freq (r.inv k) * ((r.c0 k * j0 k + r.c1 k * j1 k : ℝ) : ℂ) else 0) + hankel j0 j1 rows g n := by
  refine ⟨by simp [hankel], ?_⟩
  have e : rowSum j0 j1 g r = ∑ k, g r.freq (r.inv k) * ((r.c0 k * j0 k + r.c1 k * j1 k : ℝ) : ℂ) := by
    rw [rowSum, ← Finset.sum_add_distrib]
    refine Finset.sum_congr rfl fun k _ => ?_
    push_cast
    ring
  by_cases h : n = r.out
  · subst h
    rw [if_pos rfl, ← e]
    simp [hankel]
  · rw [if_neg h]
    simp [hankel, Ne.symm h]

/-! ### Sensitivities -/

variable {L : ℕ} {m : Fin L → ℝ}

theorem cg_const (c : ℂ) : CGrad (fun _ : Fin L → ℝ => c) (fun _ => 0) m := ⟨gConst _, gConst _⟩

theorem cg_add {f g : (Fin L → ℝ) → ℂ} {u v : Fin L → ℂ} (hf : CGrad f u m) (hg : CGrad g v m) :
    CGrad (fun x => f x + g x) (fun l => u l + v l) m := by
  refine ⟨?_, ?_⟩
  · simpa only [Complex.add_re] using gAdd hf.1 hg.1
  · simpa only [Complex.add_im] using gAdd hf.2 hg.2

theorem cg_mul {f : (Fin L → ℝ) → ℂ} {u : Fin L → ℂ} (c : ℂ) (hf : CGrad f u m) :
    CGrad (fun x => c * f x) (fun l => c * u l) m := by
  refine ⟨?_, ?_⟩
  · simpa only [Complex.mul_re] using gSub (gSmul c.re hf.1) (gSmul c.im hf.2)
  · simpa only [Complex.mul_im] using gAdd (gSmul c.re hf.2) (gSmul c.im hf.1)

theorem cg_congr {f g : (Fin L → ℝ) → ℂ} {u v : Fin L → ℂ} (hf : CGrad f u m) (h1 : ∀ x, f x = g x)
    (h2 : ∀ l, u l = v l) : CGrad g v m := by
  have e1 : f = g := funext h1
  have e2 : u = v := funext h2
  rw [← e1, ← e2]
  exact hf

theorem cg_fsum {α : Type} (s : Finset α) {f : α → (Fin L → ℝ) → ℂ} {u : α → Fin L → ℂ}
    (h : ∀ a ∈ s, CGrad (f a) (u a) m) : CGrad (fun x => ∑ a ∈ s, f a x) (fun l => ∑ a ∈ s, u a l) m := by
  classical
  induction s using Finset.induction_on with
  | empty => simpa using cg_const (m := m) 0
  | insert a s ha ih =>
    have := cg_add (h a (by simp)) (ih fun b hb => h b (by simp [hb]))
    exact cg_congr this (fun x => by rw [Finset.sum_insert ha]) (fun l => by rw [Finset.sum_insert ha])

theorem cg_lsum {α : Type} (s : List α) {f : α → (Fin L → ℝ) → ℂ} {u : α → Fin L → ℂ}
    (h : ∀ a ∈ s, CGrad (f a) (u a) m) :
    CGrad (fun x => (s.map fun a => f a x).sum) (fun l => (s.map fun a => u a l).sum) m := by
  induction s with
  | nil => simpa using cg_const (m := m) 0
  | cons a s ih =>
    have := cg_add (h a (by simp)) (ih fun b hb => h b (by simp [hb]))
    exact cg_congr this (fun x => by simp) (fun l => by simp)

theorem cg_hankel {K : ℕ} (j0 j1 : Fin K → ℝ) (rows : List (Row K)) {R : ℕ → ℕ → (Fin L → ℝ) → ℂ}
    {D : ℕ → ℕ → Fin L → ℂ} (h : ∀ f u, CGrad (R f u) (D f u) m) (n : ℕ) :
    CGrad (fun x => hankel j0 j1 rows (fun f u => R f u x) n)
      (fun l => hankel j0 j1 rows (fun f u => D f u l) n) m := by
  unfold hankel
  refine cg_lsum _ (fun r _ => ?_)
  unfold rowSum
  refine cg_add (cg_fsum _ fun k _ => ?_) (cg_fsum _ fun k _ => ?_)
  · exact cg_congr (cg_mul ((r.c0 k : ℂ) * (j0 k : ℂ)) (h r.freq (r.inv k))) (fun x => by ring)
      (fun l => by ring)
  · exact cg_congr (cg_mul ((r.c1 k : ℂ) * (j1 k : ℂ)) (h r.freq (r.inv k))) (fun x => by ring)
      (fun l => by ring)

theorem g_eval (d : Datum) {v : (Fin L → ℝ) → ℕ → ℂ} {dv : Fin L → ℕ → ℂ}
    (h : ∀ n, CGrad (fun x => v x n) (fun l => dv l n) m) :
    IsGradient (fun x => d.eval true (v x)) (fun l => d.eval false (dv l)) m := by
  have := cg_add (cg_mul d.scale (h d.loc)) (cg_const (m := m) d.shift)
  unfold Datum.eval
  cases hd : d.im
  · exact this.1
  · exact this.2

/-- The data, empty after exceptions. -/
def dataOf (r : Except Err (List ℝ)) : List ℝ :=
  match r with
  | .ok l => l
  | .error _ => []

/-- C144. **Sensitivities in the frequency domain**: if the reflection coefficients have the derivatives
that `rTE_gradient` returns for a real property of the layers (conductivity, permeability,
thicknesses), the block of the Jacobian has the derivatives of the data.
Missing: chargeable layers (`C144_violated_chargeable`) and heights (`C144_violated_height`). -/
theorem C144_sensitivity_partial {K : ℕ} (j0 j1 : Fin K → ℝ) (rows : List (Row K)) (srcs : List Src)
    (hs : ∀ s ∈ srcs, ∀ r ∈ s.rxs, supported (s.wire, r))
    {R : ℕ → ℕ → (Fin L → ℝ) → ℂ} {D : ℕ → ℕ → Fin L → ℂ} (h : ∀ f u, CGrad (R f u) (D f u) m) (k : ℕ) :
    IsGradient
      (fun x => (dataOf (project true srcs (hankel j0 j1 rows fun f u => R f u x))).getD k 0)
      (fun l => (dataOf (project false srcs (hankel j0 j1 rows fun f u => D f u l))).getD k 0) m := by
  simp only [(C144_data true srcs _).1 hs, (C144_data false srcs _).1 hs, dataOf, List.getD_eq_getElem?_getD,
    List.getElem?_map]
  cases hd : (layout 0 (pairs srcs))[k]? with
  | none => exact gConst 0
  | some d =>
    simp only [Option.map_some, Option.getD_some]
    exact g_eval d (fun n => cg_hankel j0 j1 rows h n)

theorem layoutTs_grad (F : ℕ) {v : (Fin L → ℝ) → ℕ → ℕ → ℂ} {dv : Fin L → ℕ → ℕ → ℂ}
    (h : ∀ n j, CGrad (fun x => v x n j) (fun l => dv l n j) m) (rxs : List RxT) (i k : ℕ) :
    IsGradient (fun x => (layoutTs F (v x) i rxs).getD k 0) (fun l => (layoutTs F (dv l) i rxs).getD k 0) m := by
  induction rxs generalizing i k with
  | nil => exact gConst 0
  | cons r rs ih =>
    have hlen : ∀ w, (layoutT F w i r).length = r.nLoc * r.nTime := by
      intro w
      rw [layoutT, ← range_times (fun loc t => ∑ j ∈ Finset.range F, r.A t j *
        (if r.flux then (w (i + loc) j).im else (w (i + loc) j).re))]
      simp
    simp only [layoutTs]
    by_cases hk : k < r.nLoc * r.nTime
    · have e : ∀ w, (layoutT F w i r ++ layoutTs F w (i + r.nLoc) rs).getD k 0 =
          ∑ j ∈ Finset.range F, r.A (k / r.nLoc) j *
            (if r.flux then (w (i + k % r.nLoc) j).im else (w (i + k % r.nLoc) j).re) := by
        intro w
        rw [List.getD_eq_getElem?_getD, List.getElem?_append_left (by rw [hlen]; exact hk)]
        rw [layoutT, ← range_times (fun loc t => ∑ j ∈ Finset.range F, r.A t j *
          (if r.flux then (w (i + loc) j).im else (w (i + loc) j).re))]
        rw [List.getElem?_map, List.getElem?_range hk]
        rfl
      simp only [e]
      generalize i + k % r.nLoc = n
      generalize k / r.nLoc = t
      have : CGrad (fun x => ∑ j ∈ Finset.range F, (r.A t j : ℂ) * v x n j)
          (fun l => ∑ j ∈ Finset.range F, (r.A t j : ℂ) * dv l n j) m :=
        cg_fsum _ fun j _ => cg_mul _ (h n j)
      cases hf : r.flux
      · simpa [Complex.re_sum] using this.1
      · simpa [Complex.im_sum] using this.2
    · have e : ∀ w, (layoutT F w i r ++ layoutTs F w (i + r.nLoc) rs).getD k 0 =
          (layoutTs F w (i + r.nLoc) rs).getD (k - r.nLoc * r.nTime) 0 := by
        intro w
        rw [List.getD_eq_getElem?_getD, List.getElem?_append_right (by rw [hlen]; omega), hlen,
          List.getD_eq_getElem?_getD]
      simp only [e]
      exact ih _ _

/-- C144. **Sensitivities in the time domain**: as in the frequency domain; here each location has all
frequencies. -/
theorem C144_sensitivity_time {K : ℕ} (j0 j1 : Fin K → ℝ) (rows : ℕ → List (Row K)) (F : ℕ) (rxs : List RxT)
    {R : ℕ → ℕ → (Fin L → ℝ) → ℂ} {D : ℕ → ℕ → Fin L → ℂ} (h : ∀ f u, CGrad (R f u) (D f u) m) (k : ℕ) :
    IsGradient
      (fun x => (projectT F rxs fun n j => hankel j0 j1 (rows j) (fun f u => R f u x) n).getD k 0)
      (fun l => (projectT F rxs fun n j => hankel j0 j1 (rows j) (fun f u => D f u l) n).getD k 0) m := by
  simp only [C144_data_time]
  exact layoutTs_grad F (fun n j => cg_hankel j0 j1 (rows j) h n) rxs 0 k

/-! ### Chargeable layers -/

theorem hankel_smul {K : ℕ} (j0 j1 : Fin K → ℝ) (rows : List (Row K)) (c : ℂ) (g : ℕ → ℕ → ℂ) (n : ℕ) :
    hankel j0 j1 rows (fun f u => c * g f u) n = c * hankel j0 j1 rows g n := by
  unfold hankel
  rw [← List.sum_map_mul_left]
  congr 2
  funext r
  unfold rowSum
  rw [mul_add, Finset.mul_sum, Finset.mul_sum]
  congr 1 <;> exact Finset.sum_congr rfl fun k _ => by ring

theorem cg_scaled {R : (Fin L → ℂ) → ℂ} {D : Fin L → ℂ} (q : Fin L → ℂ)
    (h : HasFDerivAt R (∑ l, D l • ContinuousLinearMap.proj (R := ℂ) (φ := fun _ : Fin L => ℂ) l)
      (fun l => q l * (m l : ℂ))) :
    CGrad (fun x => R fun l => q l * (x l : ℂ)) (fun l => q l * D l) m := by
  have h1 : HasFDerivAt (fun x : Fin L → ℝ => fun l => q l * (x l : ℂ))
      (ContinuousLinearMap.pi fun l => (q l) • (Complex.ofRealCLM.comp
        (ContinuousLinearMap.proj (R := ℝ) (φ := fun _ : Fin L => ℝ) l))) m := by
    rw [hasFDerivAt_pi]
    intro l
    exact ((Complex.ofRealCLM.comp (ContinuousLinearMap.proj (R := ℝ) (φ := fun _ : Fin L => ℝ) l)).hasFDerivAt).const_mul (q l)
  have h2 := (h.restrictScalars ℝ).comp m h1
  have e1 := Complex.reCLM.hasFDerivAt.comp m h2
  have e2 := Complex.imCLM.hasFDerivAt.comp m h2
  constructor
  · unfold IsGradient
    refine e1.congr_fderiv ?_
    ext v
    simp only [dotL_apply, dotProduct, ContinuousLinearMap.comp_apply, ContinuousLinearMap.coe_restrictScalars',
      _root_.sum_apply, _root_.smul_apply, ContinuousLinearMap.proj_apply, ContinuousLinearMap.pi_apply, smul_eq_mul,
      Complex.reCLM_apply, Complex.ofRealCLM_apply, Complex.re_sum]
    refine Finset.sum_congr rfl fun l _ => ?_
    simp
    ring
  · unfold IsGradient
    refine e2.congr_fderiv ?_
    ext v
    simp only [dotL_apply, dotProduct, ContinuousLinearMap.comp_apply, ContinuousLinearMap.coe_restrictScalars',
      _root_.sum_apply, _root_.smul_apply, ContinuousLinearMap.proj_apply, ContinuousLinearMap.pi_apply, smul_eq_mul,
      Complex.imCLM_apply, Complex.ofRealCLM_apply, Complex.im_sum]
    refine Finset.sum_congr rfl fun l _ => ?_
    simp
    ring

/-- C144. **Chargeable layers**: the complex conductivity is a complex factor `q` times the conductivity
(C145). The block of the conductivity is the derivative for the complex conductivity; the field changes
`q` times as much, here for one frequency. -/
theorem C144_violated_chargeable {K : ℕ} (j0 j1 : Fin K → ℝ) (rows : List (Row K)) (q : Fin L → ℂ)
    {R : ℕ → ℕ → (Fin L → ℂ) → ℂ} {D : ℕ → ℕ → Fin L → ℂ}
    (h : ∀ f u, HasFDerivAt (R f u)
      (∑ l, D f u l • ContinuousLinearMap.proj (R := ℂ) (φ := fun _ : Fin L => ℂ) l) (fun l => q l * (m l : ℂ)))
    (n : ℕ) :
    CGrad (fun x => hankel j0 j1 rows (fun f u => R f u fun l => q l * (x l : ℂ)) n)
      (fun l => q l * hankel j0 j1 rows (fun f u => D f u l) n) m ∧
    (∀ l, hankel j0 j1 rows (fun f u => D f u l) n ≠ 0 → q l ≠ 1 →
      q l * hankel j0 j1 rows (fun f u => D f u l) n ≠ hankel j0 j1 rows (fun f u => D f u l) n) := by
  refine ⟨?_, fun l h0 h1 => ?_⟩
  · have := cg_hankel j0 j1 rows (R := fun f u x => R f u fun l => q l * (x l : ℂ))
      (D := fun f u l => q l * D f u l) (fun f u => cg_scaled q (h f u)) n
    exact cg_congr this (fun x => rfl) (fun l => hankel_smul j0 j1 rows (q l) (fun f u => D f u l) n)
  · intro e
    exact h1 (mul_right_cancel₀ h0 (e.trans (one_mul _).symm))

/-! ### Heights -/

/-- C144. **Heights**: with heights in the model the fields do not depend on them, so that the
derivatives are 0; the block of the heights is not, for instance for one wave number. -/
theorem C144_violated_height {K : ℕ} (j0 j1 : Fin K → ℝ) (rows : List (Row K)) (g : ℕ → ℕ → ℂ)
    (h h' : ℕ → ℝ) (n : ℕ) (lam height : ℝ) (hl : lam ≠ 0) :
    fieldsH j0 j1 rows g h n = fieldsH j0 j1 rows g h' n ∧
    dhEntry (fun _ : Fin 1 => 1) (fun _ => 0) (fun _ _ => 1) (fun _ => lam) height
      ⟨0, 0, fun _ => 0, fun _ => 1, fun _ => 0⟩ = -2 * lam * Real.exp (-lam * height) ∧
    dhEntry (fun _ : Fin 1 => 1) (fun _ => 0) (fun _ _ => 1) (fun _ => lam) height
      ⟨0, 0, fun _ => 0, fun _ => 1, fun _ => 0⟩ ≠ 0 := by
  have e : dhEntry (fun _ : Fin 1 => 1) (fun _ => 0) (fun _ _ => 1) (fun _ => lam) height
      ⟨0, 0, fun _ => 0, fun _ => 1, fun _ => 0⟩ = -2 * lam * Real.exp (-lam * height) := by
    simp only [dhEntry, dhRow, Finset.univ_unique, Fin.default_eq_zero, Finset.sum_singleton, one_mul,
      mul_one, Complex.ofReal_one, Complex.ofReal_re, Complex.ofReal_zero, zero_mul, mul_zero,
      Complex.zero_re, add_zero]
    ring
  refine ⟨rfl, e, ?_⟩
  rw [e]
  have := (Real.exp_pos (-lam * height)).ne'
  exact mul_ne_zero (mul_ne_zero (by norm_num) hl) this

/-- C144. **Heights and imaginary parts**: the block of the heights is real, so that its rows for
imaginary parts are 0 unless the primary field is complex. -/
theorem C144_violated_height_imag (r : Rx) (hc : r.comp = .imag) (hs : r.ppm = false) (v : ℕ → ℂ)
    (hv : ∀ k, (v k).im = 0) :
    project false [⟨false, [r]⟩] v = .ok (List.replicate r.nLoc 0) := by
  have h : supported (false, r) := by simp [supported, hc]
  rw [(C144_data false _ v).1 (by simpa using h)]
  congr 1
  simp only [pairs, List.flatMap_cons, List.flatMap_nil, List.map_cons, List.map_nil, List.append_nil, layout]
  rw [layoutRx_eval false v 0 r v (fun k => by cases hk : r.kind <;> simp [units, hk, hs])]
  simp only [parts, hc, List.map_cons, List.map_nil, if_true]
  rw [flatMap_one, List.map_congr_left (fun k _ => hv k), List.map_const', List.length_range]

/-! ### Products -/

theorem Jvec_acc {d p : ℕ} (bs : List (Block d p)) (v : Fin p → ℝ) (a : Fin d → ℝ) :
    bs.foldl (fun out b => out + b.J *ᵥ (b.D *ᵥ v)) a = a + getJ bs *ᵥ v := by
  induction bs generalizing a with
  | nil => simp [getJ]
  | cons b bs ih =>
    rw [List.foldl_cons, ih]
    simp [getJ, Matrix.add_mulVec, add_assoc]

theorem Jtvec_acc {d p : ℕ} (bs : List (Block d p)) (v : Fin d → ℝ) (a : Fin p → ℝ) :
    bs.foldl (fun out b => out + b.Dᵀ *ᵥ (b.Jᵀ *ᵥ v)) a = a + (getJ bs)ᵀ *ᵥ v := by
  induction bs generalizing a with
  | nil => simp [getJ]
  | cons b bs ih =>
    rw [List.foldl_cons, ih]
    simp [getJ, Matrix.add_mulVec, add_assoc, Matrix.transpose_add, Matrix.transpose_mul]

/-- C144. **Products**: `Jvec` and `Jtvec` are the products with the matrix of `getJ` and its transpose,
hence adjoint to each other, for any set of mapped properties. -/
theorem C144_products {d p : ℕ} (bs : List (Block d p)) (v : Fin p → ℝ) (w : Fin d → ℝ) :
    Jvec bs v = getJ bs *ᵥ v ∧ Jtvec bs w = (getJ bs)ᵀ *ᵥ w ∧ w ⬝ᵥ Jvec bs v = Jtvec bs w ⬝ᵥ v := by
  have h1 : Jvec bs v = getJ bs *ᵥ v := by rw [Jvec, Jvec_acc, zero_add]
  have h2 : Jtvec bs w = (getJ bs)ᵀ *ᵥ w := by rw [Jtvec, Jtvec_acc, zero_add]
  refine ⟨h1, h2, ?_⟩
  rw [h1, h2, Matrix.dotProduct_mulVec, Matrix.mulVec_transpose]

/-- C144. **Diagonal**: with one mapped property the diagonal is that of `Jᵀ W² J`.
Missing: several properties that share parameters, see `C144_violated_diag`. -/
theorem C144_diag_partial {d p : ℕ} (b : Block d p) (w : Fin d → ℝ) (j : Fin p) :
    JtJdiag [b] w j = ((getJ [b])ᵀ * Matrix.diagonal (fun i => w i ^ 2) * getJ [b]) j j := by
  simp only [JtJdiag, List.foldl_cons, List.foldl_nil, zero_add, getJ, List.map_cons, List.map_nil,
    List.sum_cons, List.sum_nil, add_zero, Matrix.mul_apply (M := _ * Matrix.diagonal _),
    Matrix.mul_diagonal, Matrix.transpose_apply]
  exact Finset.sum_congr rfl fun i _ => by ring

/-- C144. Two properties with the same parameter: 2 instead of 4. -/
theorem C144_violated_diag :
    let b : Block 1 1 := ⟨1, !![1], !![1]⟩
    JtJdiag [b, b] (fun _ => 1) 0 = 2 ∧
    ((getJ [b, b])ᵀ * Matrix.diagonal (fun _ : Fin 1 => (1 : ℝ) ^ 2) * getJ [b, b]) 0 0 = 4 := by
  intro b
  constructor
  · simp [JtJdiag, b]
    norm_num
  · simp [getJ, b, Matrix.mul_apply, Matrix.diagonal]
    norm_num

/-! ### Coefficients kept -/

/-- C144. **Coefficients**: after a change of the filter they are those of the survey and the filter;
coefficients of another simulation of the frequency domain are used as they are.
Missing: a change of the survey, see `C144_violated_survey`. -/
theorem C144_coefficients_partial (mk : S → Fl → C × Wt) (x y : Sim S Fl C Wt) (f : Fl) :
    (x.setFilter f).used mk = .ok (mk x.survey f) ∧
    (Sim.transfer mk (x.setFilter f) y).used mk = .ok (mk x.survey f) := by
  constructor
  · simp [Sim.used, Sim.compute, Sim.setFilter]
  · simp [Sim.used, Sim.compute, Sim.setFilter, Sim.transfer]

/-- C144. **Survey**: after a change of the survey the coefficients of the old survey are used. -/
theorem C144_violated_survey (mk : S → Fl → C × Wt) (x : Sim S Fl C Wt) (f : Fl) (s : S) :
    (((x.setFilter f).compute mk).setSurvey s).used mk = .ok (mk x.survey f) := by
  simp [Sim.used, Sim.compute, Sim.setFilter, Sim.setSurvey]

/-- C144. **Coefficients of another simulation in the time domain** lack what sums the rows: a new
simulation raises AttributeError. -/
theorem C144_violated_transfer (mk : S → Fl → C × Wt) (x y : Sim S Fl C Wt) (hy : y.W = none) :
    (Sim.transferT mk x y).used mk = .error .attributeError := by
  simp only [Sim.used, Sim.compute, Sim.transferT, if_true, hy]
  split <;> simp_all

/-! ### Cases -/

/-- A receiver of both parts and one of parts per million, two locations and one. -/
def rx1 : Rx := ⟨.total, false, .both, 2, fun _ => 5⟩
def rx2 : Rx := ⟨.secondary, true, .imag, 1, fun _ => 2⟩

example : (project true [⟨false, [rx1, rx2]⟩] fun n => ⟨n, 10 * n⟩) = .ok [5, 0, 6, 10, 10000000] := by
  rw [(C144_data true _ _).1 (by simp [supported, rx1, rx2])]
  simp [pairs, layout, layoutRx, rx1, rx2, parts, units, Datum.eval, List.range_succ]
  norm_num

example (r : Rx) (hr : r.kind = .total) (v : ℕ → ℂ) : project true [⟨true, [r]⟩] v = .error .exception :=
  (C144_data true _ v).2 ⟨_, List.mem_singleton.2 rfl, r, by simp, by simp [supported, hr]⟩

/-- Two locations, two times. -/
example (A : ℕ → ℕ → ℝ) (v : ℕ → ℕ → ℂ) :
    projectT 1 [⟨true, 2, 2, A⟩] v =
      [A 0 0 * (v 0 0).im, A 0 0 * (v 1 0).im, A 1 0 * (v 0 0).im, A 1 0 * (v 1 0).im] := by
  rw [C144_data_time]
  simp [layoutTs, layoutT, List.range_succ]

/-- A reflection coefficient that is linear in the conductivity. -/
example (m : Fin 2 → ℝ) (c : ℂ) : CGrad (fun x : Fin 2 → ℝ => c * (x 1 : ℂ)) ![c * 0, c * 1] m := by
  have h : CGrad (fun x : Fin 2 → ℝ => (x 1 : ℂ)) ![0, 1] m := by
    refine ⟨gCongr (gCoord 1) (fun j => by fin_cases j <;> simp), ?_⟩
    exact gCongr (gConst 0) (fun j => by fin_cases j <;> simp)
  exact cg_congr (cg_mul c h) (fun _ => rfl) (fun l => by fin_cases l <;> simp)

end Props
end Verif.EM.Layered1D
