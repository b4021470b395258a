import Verif.Basic
import Verif.Maps.Parametric
import Mathlib.Analysis.SpecialFunctions.Sqrt
import Mathlib.Analysis.SpecialFunctions.Trigonometric.Basic
import Mathlib.Analysis.SpecialFunctions.Complex.Arg
import Mathlib.MeasureTheory.Integral.IntervalIntegral.FundThmCalculus
import Mathlib.Algebra.BigOperators.Fin
import Mathlib.Algebra.QuadraticDiscriminant
import Mathlib.Tactic.Linarith
import Mathlib.Tactic.Ring
import Mathlib.Tactic.NormNum
import Mathlib.Tactic.FieldSimp
import Mathlib.Tactic.Positivity
import Mathlib.Tactic.LinearCombination

/-!
C140: the inducing fields of the sources of viscous remanent magnetization and the choice of the
cells to refine (`simpeg/electromagnetics/viscous_remanent_magnetization/sources.py`). The field of
the circular loop, in elliptic integrals, is not modelled; its rotation and refinement are.
-/

noncomputable section
namespace Verif.VRM
open Verif

/-- A point. -/
abbrev Pt := Fin 3 → ℝ

/-! ### Fields -/

/-- `r` of `MagDipole.getH0` (`sources.py` 129-133). -/
def dist3 (x r0 : Pt) : ℝ :=
  Real.sqrt ((x 0 - r0 0) ^ 2 + (x 1 - r0 1) ^ 2 + (x 2 - r0 2) ^ 2)

/-- `mdotr` (`sources.py` 134-138). -/
def mdotr (m x r0 : Pt) : ℝ := m 0 * (x 0 - r0 0) + m 1 * (x 1 - r0 1) + m 2 * (x 2 - r0 2)

/-- `MagDipole.getH0`, one location (`sources.py` 110-144). -/
def dipoleH0 (m r0 x : Pt) (k : Fin 3) : ℝ :=
  1 / (4 * Real.pi) * (3 * (x k - r0 k) * mdotr m x r0 / dist3 x r0 ^ 5 - m k / dist3 x r0 ^ 3)

/-- `rx1`, `rx2`, `rx3`: the vector from the location to the wire (`sources.py` 488-498). -/
def radial (a b p : Pt) (k : Fin 3) : ℝ :=
  (a k - p k) - ((a 0 - p 0) * (b 0 - a 0) + (a 1 - p 1) * (b 1 - a 1) + (a 2 - p 2) * (b 2 - a 2))
    * (b k - a k) / dist3 b a ^ 2

/-- The contribution of one straight wire to `LineCurrent.getH0` (`sources.py` 456-512). `none`
stands for not-a-number, the outcome of the divisions by zero of a wire without length and of a
location in line with the wire. -/
def wireH0 (I : ℝ) (a b p : Pt) : Option Pt :=
  let vab := dist3 b a
  let vap := dist3 p a
  let vbp := dist3 p b
  let cosAlpha := ((p 0 - a 0) * (b 0 - a 0) + (p 1 - a 1) * (b 1 - a 1) + (p 2 - a 2) * (b 2 - a 2))
    / (vap * vab)
  let cosBeta := ((p 0 - b 0) * (a 0 - b 0) + (p 1 - b 1) * (a 1 - b 1) + (p 2 - b 2) * (a 2 - b 2))
    / (vbp * vab)
  let rx := radial a b p
  let r := Real.sqrt (rx 0 ^ 2 + rx 1 ^ 2 + rx 2 ^ 2)
  let phi := (cosAlpha + cosBeta) / r
  let ix := fun k => I * (b k - a k) / (4 * Real.pi * vab)
  if vab = 0 ∨ r = 0 then none
  else some ![phi * (-ix 1 * rx 2 + ix 2 * rx 1) / r,
    phi * (ix 0 * rx 2 - ix 2 * rx 0) / r,
    phi * (-ix 0 * rx 1 + ix 1 * rx 0) / r]

/-- The loop over the wires (`sources.py` 448-512): consecutive nodes. -/
def lineLoop (I : ℝ) (p : Pt) : List Pt → Pt → Option Pt
  | a :: b :: l, acc =>
    match wireH0 I a b p with
    | none => none
    | some w => lineLoop I p (b :: l) (fun k => acc k + w k)
  | _, acc => some acc

/-- `LineCurrent.getH0`, one location (`sources.py` 423-514). -/
def lineH0 (I : ℝ) (nodes : List Pt) (p : Pt) : Option Pt := lineLoop I p nodes fun _ => 0

/-! ### Refinement -/

/-- The loop over the refinement distances for one cell (`sources.py` 169-173, 366-370, 548-555):
`near d` is the condition on the cell, and `rf` the number of distances. -/
def flagLoop (near : ℝ → Prop) [DecidablePred near] (rf : ℕ) : ℕ → List ℝ → ℕ → ℕ
  | _, [], f => f
  | nn, d :: ds, f =>
    flagLoop near rf (nn + 1) ds (if near d ∧ f < rf - nn + 1 then rf - nn else f)

open Classical in
/-- `_getRefineFlags` of a source, one cell, given its condition. -/
def refineFlag (near : ℝ → Prop) (dists : List ℝ) : ℕ := flagLoop near dists.length 0 dists 0

/-- The condition of `MagDipole` (`sources.py` 163-171). -/
def dipoleNear (r0 x : Pt) (d : ℝ) : Prop := dist3 x r0 < d + 1e-5

/-- `rot_mat = np.dot(rot_x, rot_z)` of `CircLoop` (`sources.py` 245-259, 325-341). -/
def rotMat (theta alpha : ℝ) : Matrix (Fin 3) (Fin 3) ℝ :=
  !![1, 0, 0;
     0, Real.cos (Real.pi * theta / 180), -Real.sin (Real.pi * theta / 180);
     0, Real.sin (Real.pi * theta / 180), Real.cos (Real.pi * theta / 180)] *
  !![Real.cos (Real.pi * alpha / 180), -Real.sin (Real.pi * alpha / 180), 0;
     Real.sin (Real.pi * alpha / 180), Real.cos (Real.pi * alpha / 180), 0;
     0, 0, 1]

/-- `x1p`, `x2p`, `x3p` (`sources.py` 261-274, 343-356). -/
def rotated (theta alpha : ℝ) (r0 x : Pt) : Pt := (rotMat theta alpha).mulVec fun k => x k - r0 k

/-- The condition of `CircLoop` (`sources.py` 357-369). At the centre of the loop `cosA` is
not-a-number, and the comparison is false. -/
def circNear (theta alpha a : ℝ) (r0 x : Pt) (d : ℝ) : Prop :=
  let y := rotated theta alpha r0 x
  let r := Real.sqrt (y 0 ^ 2 + y 1 ^ 2 + y 2 ^ 2)
  let cosA := Real.sqrt (y 0 ^ 2 + y 1 ^ 2) / r
  r ≠ 0 ∧ Real.sqrt (a ^ 2 + r ^ 2 - 2 * a * r * cosA) < d + 1e-3

/-- `~k_pos & ~k_neg` of `LineCurrent` for one wire (`sources.py` 532-553); `k_pos` implies `k_neg`
and they are otherwise the same. `e < 0` makes the roots complex, with equal real parts and
opposite imaginary parts. A wire without length makes them not-a-number, and all comparisons
false. -/
def wireNear (t0 t1 x : Pt) (dist : ℝ) : Prop :=
  let a := (t1 0 - t0 0) ^ 2 + (t1 1 - t0 1) ^ 2 + (t1 2 - t0 2) ^ 2
  let b := 2 * (t1 0 - t0 0) * (t0 0 - x 0) + 2 * (t1 1 - t0 1) * (t0 1 - x 1)
    + 2 * (t1 2 - t0 2) * (t0 2 - x 2)
  let d := dist + 1e-3
  let c := (t0 0 - x 0) ^ 2 + (t0 1 - x 1) ^ 2 + (t0 2 - x 2) ^ 2 - d ^ 2
  let e := b ^ 2 - 4 * a * c
  let re := Real.sqrt e
  let im := Real.sqrt (-e)
  let qp := (-b + re) / (2 * a)
  let qn := (-b - re) / (2 * a)
  let kpos := |im / (2 * a)| > 1e-12 ∨ (qp < 0 ∧ qn < 0) ∨ (qp > 1 ∧ qn > 1)
  a = 0 ∨ ¬ kpos

/-- `LineCurrent._getRefineFlags`, one cell (`sources.py` 520-559): the largest flag of the wires. -/
def lineFlag (x : Pt) (dists : List ℝ) : List Pt → ℕ
  | a :: b :: l => max (refineFlag (wireNear a b x) dists) (lineFlag x dists (b :: l))
  | _ => 0

namespace Props

/-! ### Specification -/

/-- The cross product. -/
def crossP (u v : Pt) : Pt :=
  ![u 1 * v 2 - u 2 * v 1, u 2 * v 0 - u 0 * v 2, u 0 * v 1 - u 1 * v 0]

/-- The law of Biot and Savart for a straight wire from `a` to `b` with current `I`: the integral
along the wire of `I dl × (p - x) / (4 π |p - x|³)`. -/
def biotSavart (I : ℝ) (a b p : Pt) (k : Fin 3) : ℝ :=
  ∫ s in (0 : ℝ)..1, I / (4 * Real.pi) *
    crossP (fun i => b i - a i) (fun i => p i - (a i + s * (b i - a i))) k
      / dist3 p (fun i => a i + s * (b i - a i)) ^ 3

/-! ### The dipole -/

open Verif.Maps.Parametric.Props

theorem inv_pow3 {q : ℝ} (hq : 0 < q) :
    HasDerivAt (fun q => 1 / Real.sqrt q ^ 3) (-(3 / 2) / Real.sqrt q ^ 5) q := by
  have hs : Real.sqrt q ≠ 0 := (Real.sqrt_pos.2 hq).ne'
  have h := (hasDerivAt_const q (1 : ℝ)).div ((Real.hasDerivAt_sqrt hq.ne').pow 3) (pow_ne_zero 3 hs)
  refine h.congr_deriv ?_
  simp only [Pi.pow_apply]
  field_simp
  ring

theorem inv_pow5 {q : ℝ} (hq : 0 < q) :
    HasDerivAt (fun q => 1 / Real.sqrt q ^ 5) (-(5 / 2) / Real.sqrt q ^ 7) q := by
  have hs : Real.sqrt q ≠ 0 := (Real.sqrt_pos.2 hq).ne'
  have h := (hasDerivAt_const q (1 : ℝ)).div ((Real.hasDerivAt_sqrt hq.ne').pow 5) (pow_ne_zero 5 hs)
  refine h.congr_deriv ?_
  simp only [Pi.pow_apply]
  field_simp
  ring

/-- `|x - r0|²`. -/
def quad (r0 x : Pt) : ℝ := (x 0 - r0 0) ^ 2 + (x 1 - r0 1) ^ 2 + (x 2 - r0 2) ^ 2

theorem quad_pos {r0 x : Pt} (h : x ≠ r0) : 0 < quad r0 x := by
  have hn : 0 ≤ quad r0 x := by unfold quad; positivity
  refine lt_of_le_of_ne hn fun h0 => h ?_
  have h0' := h0.symm
  unfold quad at h0'
  have e0 : (x 0 - r0 0) ^ 2 = 0 := by nlinarith [sq_nonneg (x 0 - r0 0), sq_nonneg (x 1 - r0 1), sq_nonneg (x 2 - r0 2)]
  have e1 : (x 1 - r0 1) ^ 2 = 0 := by nlinarith [sq_nonneg (x 0 - r0 0), sq_nonneg (x 1 - r0 1), sq_nonneg (x 2 - r0 2)]
  have e2 : (x 2 - r0 2) ^ 2 = 0 := by nlinarith [sq_nonneg (x 0 - r0 0), sq_nonneg (x 1 - r0 1), sq_nonneg (x 2 - r0 2)]
  have f0 := pow_eq_zero_iff (two_ne_zero) |>.1 e0
  have f1 := pow_eq_zero_iff (two_ne_zero) |>.1 e1
  have f2 := pow_eq_zero_iff (two_ne_zero) |>.1 e2
  funext k
  fin_cases k <;> simp <;> linarith

theorem g_coord (r0 x : Pt) (k : Fin 3) :
    IsGradient (fun x : Pt => x k - r0 k) (fun j => if j = k then 1 else 0) x :=
  gCongr (gSub (gCoord k) (gConst (r0 k))) fun j => by simp

theorem g_quad (r0 x : Pt) : IsGradient (quad r0) (fun j => 2 * (x j - r0 j)) x := by
  have h : ∀ k, IsGradient (fun x : Pt => (x k - r0 k) ^ 2)
      (fun j => 2 * (x k - r0 k) * (if j = k then 1 else 0)) x := by
    intro k
    have := gMul (g_coord r0 x k) (g_coord r0 x k)
    have e : (fun x : Pt => (x k - r0 k) * (x k - r0 k)) = fun x : Pt => (x k - r0 k) ^ 2 := by
      funext x; ring
    rw [e] at this
    exact gCongr this fun j => by ring
  refine gCongr (gAdd (gAdd (h 0) (h 1)) (h 2)) fun j => ?_
  fin_cases j <;> simp

theorem g_mdotr (m r0 x : Pt) : IsGradient (fun x => mdotr m x r0) m x := by
  refine gCongr (gAdd (gAdd (gSmul (m 0) (g_coord r0 x 0)) (gSmul (m 1) (g_coord r0 x 1)))
    (gSmul (m 2) (g_coord r0 x 2))) fun j => ?_
  fin_cases j <;> simp

/-- C140. **The field of the dipole** is minus the gradient of the potential
`m · (x - r0) / (4 π |x - r0|³)`. -/
theorem C140_dipole_potential (m : Pt) {r0 x : Pt} (hx : x ≠ r0) :
    IsGradient (fun x => -(mdotr m x r0 / (4 * Real.pi * dist3 x r0 ^ 3))) (dipoleH0 m r0 x) x := by
  have hq := quad_pos hx
  have h3 := gComp (inv_pow3 hq) (g_quad r0 x)
  have hg := gSmul (-(1 / (4 * Real.pi))) (gMul (g_mdotr m r0 x) h3)
  have e : (fun x => -(1 / (4 * Real.pi)) * (mdotr m x r0 * (1 / Real.sqrt (quad r0 x) ^ 3))) =
      fun x => -(mdotr m x r0 / (4 * Real.pi * dist3 x r0 ^ 3)) := by
    funext y
    change _ = -(mdotr m y r0 / (4 * Real.pi * Real.sqrt (quad r0 y) ^ 3))
    generalize Real.sqrt (quad r0 y) ^ 3 = R
    rw [div_mul_eq_div_div]
    ring
  rw [e] at hg
  refine gCongr hg fun j => ?_
  change _ = 1 / (4 * Real.pi) * (3 * (x j - r0 j) * mdotr m x r0 / Real.sqrt (quad r0 x) ^ 5
    - m j / Real.sqrt (quad r0 x) ^ 3)
  ring

/-- C140. **The field of the dipole has no sources**: the partial derivatives of its components along
their own directions sum to zero away from the dipole. -/
theorem C140_dipole_divergence (m : Pt) {r0 x : Pt} (hx : x ≠ r0) :
    ∃ g : Fin 3 → Pt, (∀ k, IsGradient (fun x => dipoleH0 m r0 x k) (g k) x) ∧
      g 0 0 + g 1 1 + g 2 2 = 0 := by
  have hq := quad_pos hx
  have h3 := gComp (inv_pow3 hq) (g_quad r0 x)
  have h5 := gComp (inv_pow5 hq) (g_quad r0 x)
  have hg : ∀ k, IsGradient (fun x => dipoleH0 m r0 x k) _ x := fun k =>
    by
      have h := gSmul (1 / (4 * Real.pi)) (gSub
        (gSmul 3 (gMul (gMul (g_coord r0 x k) (g_mdotr m r0 x)) h5)) (gSmul (m k) h3))
      have e : (fun x => 1 / (4 * Real.pi) * (3 * ((x k - r0 k) * mdotr m x r0
          * (1 / Real.sqrt (quad r0 x) ^ 5)) - m k * (1 / Real.sqrt (quad r0 x) ^ 3))) =
          fun x => dipoleH0 m r0 x k := by
        funext y
        change _ = 1 / (4 * Real.pi) * (3 * (y k - r0 k) * mdotr m y r0 / Real.sqrt (quad r0 y) ^ 5
          - m k / Real.sqrt (quad r0 y) ^ 3)
        ring
      rw [e] at h
      exact h
  refine ⟨_, hg, ?_⟩
  have hs : Real.sqrt (quad r0 x) ≠ 0 := (Real.sqrt_pos.2 hq).ne'
  have hsq : Real.sqrt (quad r0 x) ^ 2 =
      (x 0 - r0 0) ^ 2 + (x 1 - r0 1) ^ 2 + (x 2 - r0 2) ^ 2 := Real.sq_sqrt hq.le
  simp only [if_true, mdotr]
  generalize Real.sqrt (quad r0 x) = R at hs hsq ⊢
  generalize 1 / (4 * Real.pi) = C
  generalize x 0 - r0 0 = u at hsq ⊢
  generalize x 1 - r0 1 = v at hsq ⊢
  generalize x 2 - r0 2 = w at hsq ⊢
  field_simp
  linear_combination 15 * C * (m 0 * u + m 1 * v + m 2 * w) * hsq

/-- The dipole at the origin, seen from a point. -/
example : ∃ g : Fin 3 → Pt, (∀ k, IsGradient (fun x => dipoleH0 ![1, 2, 3] ![0, 0, 0] x k) (g k) ![1, 0, 0]) ∧
    g 0 0 + g 1 1 + g 2 2 = 0 :=
  C140_dipole_divergence _ fun h => by simpa using congrFun h 0

/-! ### The wire -/

theorem radial_zero {a b p : Pt} (hab : a ≠ b) :
    dist3 b a ^ 2 * (radial a b p 0 ^ 2 + radial a b p 1 ^ 2 + radial a b p 2 ^ 2) =
      crossP (fun i => b i - a i) (fun i => p i - a i) 0 ^ 2
      + crossP (fun i => b i - a i) (fun i => p i - a i) 1 ^ 2
      + crossP (fun i => b i - a i) (fun i => p i - a i) 2 ^ 2 := by
  have hq := quad_pos hab.symm
  have hsq : dist3 b a ^ 2 = quad a b := Real.sq_sqrt hq.le
  have hne : dist3 b a ^ 2 ≠ 0 := by rw [hsq]; exact hq.ne'
  simp only [radial, crossP, Matrix.cons_val_zero, Matrix.cons_val_one, Matrix.cons_val]
  have hs' := hsq
  unfold quad at hs'
  generalize dist3 b a ^ 2 = Q at hne hs' ⊢
  field_simp
  rw [hs']
  ring

/-- The primitive along the wire. -/
theorem wire_primitive {A c W : ℝ} (s : ℝ) (hQ : 0 < A * s ^ 2 - 2 * c * s + W)
    (hD : A * W - c ^ 2 ≠ 0) :
    HasDerivAt (fun s => (A * s - c) / (Real.sqrt (A * s ^ 2 - 2 * c * s + W) * (A * W - c ^ 2)))
      (1 / Real.sqrt (A * s ^ 2 - 2 * c * s + W) ^ 3) s := by
  have hq : HasDerivAt (fun s => A * s ^ 2 - 2 * c * s + W) (A * (2 * s) - 2 * c) s := by
    have h1 := ((hasDerivAt_id s).pow 2).const_mul A
    have h2 := (hasDerivAt_id s).const_mul (2 * c)
    have := (h1.sub h2).add_const W
    exact this.congr_deriv (by simp)
  have hs : Real.sqrt (A * s ^ 2 - 2 * c * s + W) ≠ 0 := (Real.sqrt_pos.2 hQ).ne'
  have hsq : Real.sqrt (A * s ^ 2 - 2 * c * s + W) ^ 2 = A * s ^ 2 - 2 * c * s + W :=
    Real.sq_sqrt hQ.le
  have hn : HasDerivAt (fun s => A * s - c) A s := by
    have := ((hasDerivAt_id s).const_mul A).sub_const c
    exact this.congr_deriv (by simp)
  have h := hn.div ((hq.sqrt hQ.ne').mul_const (A * W - c ^ 2)) (mul_ne_zero hs hD)
  refine h.congr_deriv ?_
  generalize Real.sqrt (A * s ^ 2 - 2 * c * s + W) = R at hs hsq ⊢
  field_simp
  linear_combination A * hsq

/-- C140. **One wire**: wherever the code answers, it answers the law of Biot and Savart. -/
theorem C140_wire (I : ℝ) {a b p : Pt} {h : Pt} (hw : wireH0 I a b p = some h) (k : Fin 3) :
    h k = biotSavart I a b p k := by
  simp only [wireH0] at hw
  split at hw
  · simp at hw
  rename_i hcond
  push Not at hcond
  obtain ⟨hL, hr⟩ := hcond
  have hab : a ≠ b := by
    rintro rfl
    exact hL (by simp [dist3])
  have hsq : dist3 b a ^ 2 = quad a b := Real.sq_sqrt (quad_pos hab.symm).le
  have hA := quad_pos hab.symm
  set v : Pt := fun i => b i - a i with hv
  set w : Pt := fun i => p i - a i with hwd
  set A := quad a b with hAd
  set c := w 0 * v 0 + w 1 * v 1 + w 2 * v 2 with hc
  set W := quad a p with hW
  have hrsq := Real.sq_sqrt (show 0 ≤ radial a b p 0 ^ 2 + radial a b p 1 ^ 2 + radial a b p 2 ^ 2
    by positivity)
  have hrad := radial_zero (p := p) hab
  have hlag : A * W - c ^ 2 = crossP v w 0 ^ 2 + crossP v w 1 ^ 2 + crossP v w 2 ^ 2 := by
    simp only [hAd, hW, hc, crossP, quad, hv, hwd, Matrix.cons_val_zero, Matrix.cons_val_one,
      Matrix.cons_val]
    ring
  set r := Real.sqrt (radial a b p 0 ^ 2 + radial a b p 1 ^ 2 + radial a b p 2 ^ 2) with hrd
  have hDr : A * W - c ^ 2 = A * r ^ 2 := by
    rw [hlag, ← hrad, hsq, hrsq]
  have hDne : A * W - c ^ 2 ≠ 0 := by
    rw [hDr]
    exact mul_ne_zero hA.ne' (pow_ne_zero 2 hr)
  have hDpos : 0 < A * W - c ^ 2 := by
    rw [hDr]
    positivity
  have hQ : ∀ s : ℝ, 0 < A * s ^ 2 - 2 * c * s + W := by
    intro s
    have h1 : 0 < A * (A * s ^ 2 - 2 * c * s + W) := by
      have : A * (A * s ^ 2 - 2 * c * s + W) = (A * s - c) ^ 2 + (A * W - c ^ 2) := by ring
      rw [this]
      positivity
    exact (mul_pos_iff_of_pos_left hA).1 h1
  have hdist : ∀ s : ℝ, dist3 p (fun i => a i + s * (b i - a i)) =
      Real.sqrt (A * s ^ 2 - 2 * c * s + W) := by
    intro s
    unfold dist3
    congr 1
    simp only [hAd, hW, hc, quad, hv, hwd]
    ring
  have hcross : ∀ s : ℝ, ∀ k, crossP v (fun i => p i - (a i + s * (b i - a i))) k = crossP v w k := by
    intro s k
    fin_cases k <;> simp [crossP, hv, hwd] <;> ring
  have hint : ∫ s in (0 : ℝ)..1, 1 / Real.sqrt (A * s ^ 2 - 2 * c * s + W) ^ 3 =
      ((A - c) / dist3 p b + c / dist3 p a) / (A * r ^ 2) := by
    rw [intervalIntegral.integral_eq_sub_of_hasDerivAt
      (fun s _ => wire_primitive (A := A) (c := c) (W := W) s (hQ s) hDne)]
    · have e1 := hdist 1
      have e0 := hdist 0
      have f1 : (fun i => a i + 1 * (b i - a i)) = b := by funext i; ring
      have f0 : (fun i => a i + 0 * (b i - a i)) = a := by funext i; ring
      rw [f1] at e1
      rw [f0] at e0
      rw [← e1, ← e0, hDr]
      generalize dist3 p b = X
      generalize dist3 p a = Y
      ring
    · apply Continuous.intervalIntegrable
      have : ∀ s : ℝ, Real.sqrt (A * s ^ 2 - 2 * c * s + W) ^ 3 ≠ 0 := fun s =>
        pow_ne_zero 3 (Real.sqrt_pos.2 (hQ s)).ne'
      fun_prop (disch := assumption)
  have hbs : biotSavart I a b p k =
      I / (4 * Real.pi) * crossP v w k * (((A - c) / dist3 p b + c / dist3 p a) / (A * r ^ 2)) := by
    rw [← hint, ← intervalIntegral.integral_const_mul]
    unfold biotSavart
    refine intervalIntegral.integral_congr fun s _ => ?_
    change I / (4 * Real.pi) * crossP v (fun i => p i - (a i + s * (b i - a i))) k
      / dist3 p (fun i => a i + s * (b i - a i)) ^ 3 = _
    rw [hcross s k, hdist s]
    ring
  rw [hbs]
  have hh := Option.some.inj hw
  have hcb : (p 0 - b 0) * (a 0 - b 0) + (p 1 - b 1) * (a 1 - b 1) + (p 2 - b 2) * (a 2 - b 2)
      = A - c := by
    simp only [hAd, hc, quad, hv, hwd]
    ring
  rw [hcb] at hh
  have hx : ∀ i j : Fin 3, (b i - a i) * radial a b p j - (b j - a j) * radial a b p i =
      -(v i * w j - v j * w i) := by
    intro i j
    simp only [radial, hv, hwd]
    ring
  have hx01 := hx 0 1
  have hx02 := hx 0 2
  have hx12 := hx 1 2
  have hAL : A = dist3 b a ^ 2 := hsq.symm
  have hpi := Real.pi_ne_zero
  rw [← hh]
  clear hh hw hint hbs hdist hQ hrad hlag hDr hrsq
  rw [hAL]
  generalize dist3 p b = X
  generalize dist3 p a = Y
  generalize dist3 b a = L at hL
  generalize (L ^ 2 - c) = Z
  have key : ∀ T U : ℝ, T = -U → (c / (Y * L) + Z / (X * L)) / r * (I / (4 * Real.pi * L) * T) / r =
      I / (4 * Real.pi) * (-U) * ((Z / X + c / Y) / (L ^ 2 * r ^ 2)) := by
    intro T U hTU
    rw [hTU]
    simp only [div_eq_mul_inv, mul_inv]
    ring
  fin_cases k
  · simp only [crossP, Fin.zero_eta, Matrix.cons_val_zero]
    have := key (-(b 1 - a 1) * radial a b p 2 + (b 2 - a 2) * radial a b p 1)
      (-(v 1 * w 2 - v 2 * w 1)) (by linarith)
    rw [neg_neg] at this
    rw [← this]
    ring
  · simp only [crossP, Fin.mk_one, Matrix.cons_val_one, Matrix.cons_val_zero]
    have := key ((b 0 - a 0) * radial a b p 2 - (b 2 - a 2) * radial a b p 0)
      ((v 0 * w 2 - v 2 * w 0)) (by linarith)
    rw [show v 2 * w 0 - v 0 * w 2 = -(v 0 * w 2 - v 2 * w 0) by ring, ← this]
    ring
  · simp only [crossP, Fin.reduceFinMk, Matrix.cons_val]
    have := key (-(b 0 - a 0) * radial a b p 1 + (b 1 - a 1) * radial a b p 0)
      (-(v 0 * w 1 - v 1 * w 0)) (by linarith)
    rw [neg_neg] at this
    rw [← this]
    ring

/-- The sum of a quantity over the wires between consecutive nodes. -/
def wires (f : Pt → Pt → ℝ) : List Pt → ℝ
  | a :: b :: l => f a b + wires f (b :: l)
  | _ => 0

/-- C140. **The line current**: wherever the code answers, it answers the sum of the law of Biot and
Savart over the wires. -/
theorem C140_line (I : ℝ) {nodes : List Pt} {p h : Pt} (hl : lineH0 I nodes p = some h) (k : Fin 3) :
    h k = wires (fun a b => biotSavart I a b p k) nodes := by
  have key : ∀ (nodes : List Pt) (acc : Pt), lineLoop I p nodes acc = some h →
      h k = acc k + wires (fun a b => biotSavart I a b p k) nodes := by
    intro nodes
    induction nodes with
    | nil => intro acc hl; simp [lineLoop] at hl; simp [wires, hl]
    | cons a l ih =>
      intro acc hl
      cases l with
      | nil => simp [lineLoop] at hl; simp [wires, hl]
      | cons b l =>
        rw [lineLoop] at hl
        cases hw : wireH0 I a b p with
        | none => rw [hw] at hl; simp at hl
        | some w =>
          rw [hw] at hl
          rw [ih _ hl, wires, C140_wire I hw k]
          ring
  rw [key nodes _ hl]
  simp

/-- C140. **When the code answers**: exactly for a wire with length and a location not in line with
it. -/
theorem C140_wire_answers (I : ℝ) (a b p : Pt) :
    (∃ h, wireH0 I a b p = some h) ↔
      ∃ k, crossP (fun i => b i - a i) (fun i => p i - a i) k ≠ 0 := by
  by_cases hab : a = b
  · subst hab
    constructor
    · rintro ⟨h, hh⟩
      simp [wireH0, dist3] at hh
    · rintro ⟨k, hk⟩
      exact absurd (by fin_cases k <;> simp [crossP]) hk
  · have hL : dist3 b a ≠ 0 := (Real.sqrt_pos.2 (quad_pos (Ne.symm hab))).ne'
    have hrad := radial_zero (p := p) hab
    have hnn : 0 ≤ radial a b p 0 ^ 2 + radial a b p 1 ^ 2 + radial a b p 2 ^ 2 := by positivity
    constructor
    · rintro ⟨h, hh⟩
      by_contra hc
      push Not at hc
      rw [hc 0, hc 1, hc 2] at hrad
      have h0 : radial a b p 0 ^ 2 + radial a b p 1 ^ 2 + radial a b p 2 ^ 2 = 0 := by
        have := pow_ne_zero 2 hL
        rcases mul_eq_zero.1 (hrad.trans (by norm_num)) with h | h
        · exact absurd h this
        · exact h
      simp [wireH0, h0] at hh
    · rintro ⟨k, hk⟩
      have hpos : 0 < crossP (fun i => b i - a i) (fun i => p i - a i) 0 ^ 2
          + crossP (fun i => b i - a i) (fun i => p i - a i) 1 ^ 2
          + crossP (fun i => b i - a i) (fun i => p i - a i) 2 ^ 2 := by
        fin_cases k
        · have := pow_pos (abs_pos.2 hk) 2
          rw [sq_abs] at this
          simp only [Fin.zero_eta] at this
          positivity
        · have := pow_pos (abs_pos.2 hk) 2
          rw [sq_abs] at this
          simp only [Fin.mk_one] at this
          positivity
        · have := pow_pos (abs_pos.2 hk) 2
          rw [sq_abs] at this
          simp only [Fin.reduceFinMk] at this
          positivity
      have hr : Real.sqrt (radial a b p 0 ^ 2 + radial a b p 1 ^ 2 + radial a b p 2 ^ 2) ≠ 0 := by
        rw [Ne, Real.sqrt_eq_zero hnn]
        intro h0
        rw [h0, mul_zero] at hrad
        linarith
      have : ¬ (dist3 b a = 0 ∨
          Real.sqrt (radial a b p 0 ^ 2 + radial a b p 1 ^ 2 + radial a b p 2 ^ 2) = 0) := by
        push Not
        exact ⟨hL, hr⟩
      simp only [wireH0]
      rw [if_neg this]
      exact ⟨_, rfl⟩

/-- C140, as the code has it: a location on the line through a wire has no answer, though the law
gives no field there. -/
theorem C140_violated_inline (I : ℝ) (a b : Pt) (lam : ℝ) :
    let p : Pt := fun i => a i + lam * (b i - a i)
    wireH0 I a b p = none ∧ ∀ k, biotSavart I a b p k = 0 := by
  intro p
  constructor
  · cases h : wireH0 I a b p with
    | none => rfl
    | some w =>
      obtain ⟨k, hk⟩ := (C140_wire_answers I a b p).1 ⟨w, h⟩
      refine absurd ?_ hk
      fin_cases k <;> simp [crossP, p] <;> ring
  · intro k
    unfold biotSavart
    have : ∀ s : ℝ, crossP (fun i => b i - a i) (fun i => p i - (a i + s * (b i - a i))) k = 0 := by
      intro s
      fin_cases k <;> simp [crossP, p] <;> ring
    simp [this]

/-- A location beyond the end of a wire. -/
example : wireH0 1 ![0, 0, 0] ![1, 0, 0] ![3, 0, 0] = none := by
  have := (C140_violated_inline 1 ![0, 0, 0] ![1, 0, 0] 3).1
  convert this using 2
  funext i
  fin_cases i <;> norm_num [Matrix.cons_val_zero]

/-- A location beside a wire. -/
example : ∃ h, wireH0 1 ![0, 0, 0] ![1, 0, 0] ![0, 1, 0] = some h :=
  (C140_wire_answers _ _ _ _).2 ⟨2, by simp [crossP]⟩

/-! ### Refinement -/

theorem flag_stay (near : ℝ → Prop) [DecidablePred near] (rf nn : ℕ) (ds : List ℝ) (f : ℕ)
    (hf : rf - nn + 1 ≤ f) : flagLoop near rf nn ds f = f := by
  induction ds generalizing nn with
  | nil => rfl
  | cons d ds ih =>
    rw [flagLoop, if_neg (fun h => by omega)]
    exact ih _ (by omega)

open Classical in
/-- C140. **The refinement level of a cell** counts the distances from the first one that contains
it to the last one: the level is the number of distances if the first contains the cell, and zero if
none does. The order of the distances is the order of preference. -/
theorem C140_flag (near : ℝ → Prop) (dists : List ℝ) :
    refineFlag near dists = dists.length - dists.findIdx fun d => decide (near d) := by
  have key : ∀ (ds : List ℝ) (rf nn : ℕ), rf = nn + ds.length →
      flagLoop near rf nn ds 0 = ds.length - ds.findIdx fun d => decide (near d) := by
    intro ds
    induction ds with
    | nil => intro rf nn _; simp [flagLoop]
    | cons d ds ih =>
      intro rf nn h
      rw [List.length_cons] at h
      by_cases hd : near d
      · rw [flagLoop, if_pos ⟨hd, by omega⟩, flag_stay _ _ _ _ _ (by omega)]
        simp [List.findIdx_cons, hd]
        omega
      · rw [flagLoop, if_neg (fun h => hd h.1), ih rf (nn + 1) (by omega)]
        simp [List.findIdx_cons, hd]
  exact key dists _ 0 (by simp)

/-- C140. **Nearer cells are refined as much**: a cell meeting the condition at every distance where
another one does has at least its level. -/
theorem C140_flag_mono (near near' : ℝ → Prop) (dists : List ℝ)
    (h : ∀ d ∈ dists, near d → near' d) : refineFlag near dists ≤ refineFlag near' dists := by
  classical
  rw [C140_flag, C140_flag]
  have : (dists.findIdx fun d => decide (near' d)) ≤ dists.findIdx fun d => decide (near d) := by
    induction dists with
    | nil => simp
    | cons d ds ih =>
      have ih' := ih fun d hd => h d (List.mem_cons_of_mem _ hd)
      by_cases h1 : near' d
      · simp [List.findIdx_cons, h1]
      · have h2 : ¬ near d := fun hn => h1 (h d (by simp) hn)
        simpa [List.findIdx_cons, h1, h2] using ih'
  omega

/-- C140. **Dipoles**: a cell counts as near if its centre is within the distance and `1e-5`, in every
direction. -/
theorem C140_dipole_near (r0 u : Pt) (hu : u 0 ^ 2 + u 1 ^ 2 + u 2 ^ 2 = 1) {a : ℝ} (ha : 0 ≤ a) (d : ℝ) :
    dipoleNear r0 (fun i => r0 i + a * u i) d ↔ a < d + 1e-5 := by
  have : dist3 (fun i => r0 i + a * u i) r0 = a := by
    unfold dist3
    rw [show (r0 0 + a * u 0 - r0 0) ^ 2 + (r0 1 + a * u 1 - r0 1) ^ 2 + (r0 2 + a * u 2 - r0 2) ^ 2 =
      a ^ 2 * (u 0 ^ 2 + u 1 ^ 2 + u 2 ^ 2) by ring, hu, mul_one, Real.sqrt_sq ha]
  rw [dipoleNear, this]

example : dipoleNear ![1, 2, 3] (fun i => ![1, 2, 3] i + 5 * (![0.6, 0, 0.8] : Pt) i) 5 :=
  (C140_dipole_near ![1, 2, 3] ![0.6, 0, 0.8] (by show (0.6:ℝ) ^ 2 + (0:ℝ) ^ 2 + (0.8:ℝ) ^ 2 = 1; norm_num) (by norm_num) 5).2 (by norm_num)

/-- Levels two, one and none. -/
example : refineFlag (dipoleNear ![0, 0, 0] ![1, 0, 0]) [2, 4] = 2 := by
  rw [C140_flag]
  have : dipoleNear ![0, 0, 0] ![1, 0, 0] 2 := by
    simp [dipoleNear, dist3]
    norm_num
  simp [List.findIdx_cons, this]

theorem root_in {A b c s : ℝ} (hA : 0 < A) (hs0 : 0 ≤ s) (hs1 : s ≤ 1)
    (hle : A * s ^ 2 + b * s + c ≤ 0) {e : ℝ} (he : e = b ^ 2 - 4 * A * c) :
    ¬ (|Real.sqrt (-e) / (2 * A)| > 1e-12 ∨
      ((-b + Real.sqrt e) / (2 * A) < 0 ∧ (-b - Real.sqrt e) / (2 * A) < 0) ∨
      ((-b + Real.sqrt e) / (2 * A) > 1 ∧ (-b - Real.sqrt e) / (2 * A) > 1)) := by
  have h2A : 0 < 2 * A := by linarith
  have hdisc : (2 * A * s + b) ^ 2 ≤ e := by
    have h1 : (2 * A * s + b) ^ 2 = 4 * A * (A * s ^ 2 + b * s + c) + e := by rw [he]; ring
    have h2 : 4 * A * (A * s ^ 2 + b * s + c) ≤ 0 :=
      mul_nonpos_of_nonneg_of_nonpos (by linarith) hle
    linarith
  clear he
  have he0 : 0 ≤ e := le_trans (sq_nonneg _) hdisc
  have habs : |2 * A * s + b| ≤ Real.sqrt e := Real.abs_le_sqrt hdisc
  have hAs : 0 ≤ A * s := mul_nonneg hA.le hs0
  have hAs1 : A * s ≤ A := by simpa using mul_le_mul_of_nonneg_left hs1 hA.le
  rw [abs_le] at habs
  rintro (h | h | h)
  · rw [Real.sqrt_eq_zero'.2 (by linarith : -e ≤ 0)] at h
    norm_num at h
  · have h1 := h.1
    have h2 := (div_lt_iff₀ h2A).1 h1
    have h3 := habs.2
    clear h h1 hdisc hle
    linarith
  · have h1 := (lt_div_iff₀ h2A).1 h.2
    have h3 := habs.1
    clear h hdisc hle
    linarith

theorem root_out {A b c : ℝ} (hA : 0 < A) {e : ℝ} (he : e = b ^ 2 - 4 * A * c)
    (h : ¬ (|Real.sqrt (-e) / (2 * A)| > 1e-12 ∨
      ((-b + Real.sqrt e) / (2 * A) < 0 ∧ (-b - Real.sqrt e) / (2 * A) < 0) ∨
      ((-b + Real.sqrt e) / (2 * A) > 1 ∧ (-b - Real.sqrt e) / (2 * A) > 1))) :
    ∃ s : ℝ, 0 ≤ s ∧ s ≤ 1 ∧ A * s ^ 2 + b * s + c ≤ (1e-12) ^ 2 * A := by
  have h2A : 0 < 2 * A := by linarith
  have hsq0 : 0 ≤ Real.sqrt e := Real.sqrt_nonneg e
  have hpos : 0 ≤ (1e-12 : ℝ) ^ 2 * A := by positivity
  push Not at h
  obtain ⟨him, h0, h1⟩ := h
  rcases le_or_gt 0 e with he0 | he0
  · have hsq : Real.sqrt e ^ 2 = e := Real.sq_sqrt he0
    have hle : (-b - Real.sqrt e) / (2 * A) ≤ (-b + Real.sqrt e) / (2 * A) :=
      div_le_div_of_nonneg_right (by linarith) h2A.le
    have hroot : A * ((-b - Real.sqrt e) / (2 * A)) ^ 2
        + b * ((-b - Real.sqrt e) / (2 * A)) + c = 0 := by
      generalize Real.sqrt e = r at hsq
      rw [he] at hsq
      field_simp
      linear_combination hsq
    have hprod : A * ((-b - Real.sqrt e) / (2 * A) * ((-b + Real.sqrt e) / (2 * A))) = c := by
      generalize Real.sqrt e = r at hsq
      rw [he] at hsq
      field_simp
      linear_combination -hsq
    generalize (-b - Real.sqrt e) / (2 * A) = qn at *
    generalize (-b + Real.sqrt e) / (2 * A) = qp at *
    rcases le_or_gt 0 qn with hn | hn
    · have hn1 : qn ≤ 1 := by
        by_contra hgt
        push Not at hgt
        exact absurd (h1 (lt_of_lt_of_le hgt hle)) (not_le.2 hgt)
      exact ⟨qn, hn, hn1, by rw [hroot]; exact hpos⟩
    · have hp : 0 ≤ qp := by
        by_contra hlt
        push Not at hlt
        exact absurd (h0 hlt) (not_le.2 hn)
      refine ⟨0, le_refl _, zero_le_one, ?_⟩
      have h3 : qn * qp ≤ 0 := mul_nonpos_of_nonpos_of_nonneg hn.le hp
      have h4 : A * (qn * qp) ≤ 0 := mul_nonpos_of_nonneg_of_nonpos hA.le h3
      rw [hprod] at h4
      have : A * 0 ^ 2 + b * 0 + c = c := by ring
      rw [this]
      exact h4.trans hpos
  · have hs0 : Real.sqrt e = 0 := Real.sqrt_eq_zero'.2 he0.le
    rw [hs0] at h0 h1
    simp only [add_zero, sub_zero] at h0 h1
    have hs := Real.sq_sqrt (show 0 ≤ -e by linarith)
    have hs' := Real.sqrt_nonneg (-e)
    rw [abs_of_nonneg (div_nonneg hs' h2A.le), div_le_iff₀ h2A] at him
    refine ⟨-b / (2 * A), ?_, ?_, ?_⟩
    · by_contra hlt
      push Not at hlt
      exact absurd (h0 hlt) (not_le.2 hlt)
    · by_contra hlt
      push Not at hlt
      exact absurd (h1 hlt) (not_le.2 hlt)
    · have hv : A * (-b / (2 * A)) ^ 2 + b * (-b / (2 * A)) + c = -e / (4 * A) := by
        rw [he]
        field_simp
        ring
      have hb' : -e ≤ (1e-12 * (2 * A)) ^ 2 := by
        rw [← hs]
        exact pow_le_pow_left₀ hs' him 2
      rw [hv, div_le_iff₀ (by linarith)]
      refine hb'.trans (le_of_eq ?_)
      ring

/-- C140. **The condition of a wire**: a cell within the distance of some point of the wire meets it;
and a cell meeting it is within that distance of some point, up to `1e-12` of the length. -/
theorem C140_wire_near {t0 t1 x : Pt} (ht : t0 ≠ t1) (dist : ℝ) :
    ((∃ s : ℝ, 0 ≤ s ∧ s ≤ 1 ∧ quad x (fun i => t0 i + s * (t1 i - t0 i)) ≤ (dist + 1e-3) ^ 2) →
      wireNear t0 t1 x dist) ∧
    (wireNear t0 t1 x dist →
      ∃ s : ℝ, 0 ≤ s ∧ s ≤ 1 ∧ quad x (fun i => t0 i + s * (t1 i - t0 i)) ≤
        (dist + 1e-3) ^ 2 + (1e-12) ^ 2 * quad t0 t1) := by
  have hA : 0 < (t1 0 - t0 0) ^ 2 + (t1 1 - t0 1) ^ 2 + (t1 2 - t0 2) ^ 2 :=
    quad_pos (r0 := t0) (x := t1) ht.symm
  have hval : ∀ s : ℝ, quad x (fun i => t0 i + s * (t1 i - t0 i)) =
      ((t1 0 - t0 0) ^ 2 + (t1 1 - t0 1) ^ 2 + (t1 2 - t0 2) ^ 2) * s ^ 2
        + (2 * (t1 0 - t0 0) * (t0 0 - x 0) + 2 * (t1 1 - t0 1) * (t0 1 - x 1)
          + 2 * (t1 2 - t0 2) * (t0 2 - x 2)) * s
        + ((t0 0 - x 0) ^ 2 + (t0 1 - x 1) ^ 2 + (t0 2 - x 2) ^ 2 - (dist + 1e-3) ^ 2)
        + (dist + 1e-3) ^ 2 := by
    intro s
    simp only [quad]
    ring
  constructor
  · rintro ⟨s, hs0, hs1, hs⟩
    rw [hval] at hs
    exact Or.inr (root_in hA hs0 hs1 (by linarith) rfl)
  · rintro (h | h)
    · exact absurd h hA.ne'
    · obtain ⟨s, hs0, hs1, hs⟩ := root_out hA rfl h
      refine ⟨s, hs0, hs1, ?_⟩
      rw [hval]
      have : quad t0 t1 = (t1 0 - t0 0) ^ 2 + (t1 1 - t0 1) ^ 2 + (t1 2 - t0 2) ^ 2 := rfl
      rw [this]
      linarith

/-- A cell beside the middle of a wire. -/
example : wireNear ![0, 0, 0] ![2, 0, 0] ![1, 3, 0] 3 :=
  (C140_wire_near (fun h => by simpa using congrFun h 0) 3).1
    ⟨1 / 2, by norm_num, by norm_num, by simp [quad]; norm_num⟩

/-- C140. **The level of a cell of a line current** is the largest of its wires. -/
theorem C140_line_flag (x : Pt) (dists : List ℝ) (nodes : List Pt) :
    (∀ i (h : i + 1 < nodes.length),
      refineFlag (wireNear nodes[i] nodes[i + 1] x) dists ≤ lineFlag x dists nodes) ∧
    (lineFlag x dists nodes = 0 ∨ ∃ i, ∃ h : i + 1 < nodes.length,
      lineFlag x dists nodes = refineFlag (wireNear nodes[i] nodes[i + 1] x) dists) := by
  induction nodes with
  | nil => simp [lineFlag]
  | cons a l ih =>
    cases l with
    | nil => simp [lineFlag]
    | cons b l =>
      rw [lineFlag]
      constructor
      · intro i h
        cases i with
        | zero => exact le_max_left _ _
        | succ i => exact (ih.1 i (by simpa using h)).trans (le_max_right _ _)
      · rcases le_total (lineFlag x dists (b :: l)) (refineFlag (wireNear a b x) dists) with hm | hm
        · exact Or.inr ⟨0, by simp, max_eq_left hm⟩
        · rw [max_eq_right hm]
          rcases ih.2 with h | ⟨i, hi, h⟩
          · exact Or.inl h
          · exact Or.inr ⟨i + 1, by simpa using hi, h⟩

/-- C140, as the code has it: a wire without length, from a repeated node, refines every cell to the
highest level. -/
theorem C140_violated_repeated (t x : Pt) (dists : List ℝ) :
    refineFlag (wireNear t t x) dists = dists.length := by
  classical
  rw [C140_flag]
  cases dists with
  | nil => simp
  | cons d ds =>
    have : wireNear t t x d := by simp [wireNear]
    simp [List.findIdx_cons, this]

/-- C140. **The rotation** of the loop is orthogonal: it keeps lengths and turns back with its
transpose. -/
theorem C140_rotation (theta alpha : ℝ) :
    (rotMat theta alpha).transpose * rotMat theta alpha = 1 ∧
    rotMat theta alpha * (rotMat theta alpha).transpose = 1 := by
  have h1 := Real.sin_sq_add_cos_sq (Real.pi * theta / 180)
  have h2 := Real.sin_sq_add_cos_sq (Real.pi * alpha / 180)
  have key : (rotMat theta alpha).transpose * rotMat theta alpha = 1 := by
    unfold rotMat
    generalize Real.sin (Real.pi * theta / 180) = st at h1
    generalize Real.cos (Real.pi * theta / 180) = ct at h1
    generalize Real.sin (Real.pi * alpha / 180) = sa at h2
    generalize Real.cos (Real.pi * alpha / 180) = ca at h2
    ext i j
    fin_cases i <;> fin_cases j <;>
      simp [Matrix.mul_apply, Fin.sum_univ_three, Matrix.transpose_apply]
    · linear_combination sa ^ 2 * h1 + h2
    · linear_combination sa * ca * h1
    · ring
    · linear_combination sa * ca * h1
    · linear_combination ca ^ 2 * h1 + h2
    · ring
    · ring
    · ring
    · linear_combination h1
  exact ⟨key, mul_eq_one_comm.1 key⟩

/-- A point of the loop: the circle of radius `a` in the plane of the transmitter, turned back. -/
def loopPt (theta alpha a : ℝ) (r0 : Pt) (phi : ℝ) : Pt := fun k =>
  r0 k + (rotMat theta alpha).transpose.mulVec ![a * Real.cos phi, a * Real.sin phi, 0] k

theorem orth_sq {R : Matrix (Fin 3) (Fin 3) ℝ} (h : R.transpose * R = 1) (v : Pt) :
    (R.mulVec v) 0 ^ 2 + (R.mulVec v) 1 ^ 2 + (R.mulVec v) 2 ^ 2 = v 0 ^ 2 + v 1 ^ 2 + v 2 ^ 2 := by
  have e : dotProduct (R.mulVec v) (R.mulVec v) = dotProduct v v := by
    rw [Matrix.dotProduct_mulVec, Matrix.vecMul_mulVec, h, Matrix.vecMul_one]
  simp only [dotProduct, Fin.sum_univ_three] at e
  linarith

/-- C140. **The condition of the loop**: a cell other than the centre meets it exactly if it is within
the distance of some point of the wire. -/
theorem C140_loop_near {theta alpha a : ℝ} (ha : 0 < a) {r0 x : Pt} (hx : x ≠ r0) (d : ℝ) :
    circNear theta alpha a r0 x d ↔
      ∃ phi, dist3 x (loopPt theta alpha a r0 phi) < d + 1e-3 := by
  obtain ⟨h1, h2⟩ := C140_rotation theta alpha
  set y := rotated theta alpha r0 x with hy
  have hyq : y 0 ^ 2 + y 1 ^ 2 + y 2 ^ 2 = quad r0 x := orth_sq h1 _
  have hdist : ∀ phi, dist3 x (loopPt theta alpha a r0 phi) =
      Real.sqrt ((y 0 - a * Real.cos phi) ^ 2 + (y 1 - a * Real.sin phi) ^ 2 + y 2 ^ 2) := by
    intro phi
    unfold dist3
    congr 1
    have e := orth_sq h1 (fun k => x k - loopPt theta alpha a r0 phi k)
    have e' : (rotMat theta alpha).mulVec (fun k => x k - loopPt theta alpha a r0 phi k) =
        fun k => y k - (![a * Real.cos phi, a * Real.sin phi, 0] : Pt) k := by
      have : (fun k => x k - loopPt theta alpha a r0 phi k) = (fun k => x k - r0 k) -
          (rotMat theta alpha).transpose.mulVec ![a * Real.cos phi, a * Real.sin phi, 0] := by
        funext k
        simp only [loopPt, Pi.sub_apply]
        ring
      rw [this, Matrix.mulVec_sub, Matrix.mulVec_mulVec, h2, Matrix.one_mulVec]
      rfl
    rw [← e, e']
    simp
  have hr : Real.sqrt (y 0 ^ 2 + y 1 ^ 2 + y 2 ^ 2) ≠ 0 := by
    rw [hyq]
    exact (Real.sqrt_pos.2 (quad_pos hx)).ne'
  have hrsq := Real.sq_sqrt (show 0 ≤ y 0 ^ 2 + y 1 ^ 2 + y 2 ^ 2 by positivity)
  set s := Real.sqrt (y 0 ^ 2 + y 1 ^ 2) with hs
  have hssq : s ^ 2 = y 0 ^ 2 + y 1 ^ 2 := Real.sq_sqrt (by positivity)
  have hs0 : 0 ≤ s := Real.sqrt_nonneg _
  have hcode : circNear theta alpha a r0 x d ↔
      Real.sqrt (a ^ 2 + (s ^ 2 + y 2 ^ 2) - 2 * a * s) < d + 1e-3 := by
    simp only [circNear, ← hy, ← hs]
    rw [and_iff_right hr]
    have : a ^ 2 + Real.sqrt (y 0 ^ 2 + y 1 ^ 2 + y 2 ^ 2) ^ 2
        - 2 * a * Real.sqrt (y 0 ^ 2 + y 1 ^ 2 + y 2 ^ 2)
          * (s / Real.sqrt (y 0 ^ 2 + y 1 ^ 2 + y 2 ^ 2)) =
        a ^ 2 + (s ^ 2 + y 2 ^ 2) - 2 * a * s := by
      rw [hrsq, hssq]
      field_simp
    rw [this]
  rw [hcode]
  constructor
  · intro h
    refine ⟨Complex.arg ⟨y 0, y 1⟩, ?_⟩
    rw [hdist]
    refine lt_of_le_of_lt (Real.sqrt_le_sqrt (le_of_eq ?_)) h
    have c1 := Complex.norm_mul_cos_arg ⟨y 0, y 1⟩
    have c2 := Complex.norm_mul_sin_arg ⟨y 0, y 1⟩
    have cn : ‖(⟨y 0, y 1⟩ : ℂ)‖ = s := by
      rw [Complex.norm_eq_sqrt_sq_add_sq]
    rw [cn] at c1 c2
    have c3 := Real.sin_sq_add_cos_sq (Complex.arg ⟨y 0, y 1⟩)
    simp only at c1 c2
    generalize Real.cos (Complex.arg ⟨y 0, y 1⟩) = C at c1 c3
    generalize Real.sin (Complex.arg ⟨y 0, y 1⟩) = S at c2 c3
    rw [← c1, ← c2]
    linear_combination (s - a) ^ 2 * c3
  · rintro ⟨phi, h⟩
    rw [hdist] at h
    refine lt_of_le_of_lt (Real.sqrt_le_sqrt ?_) h
    have c3 := Real.sin_sq_add_cos_sq phi
    have hcs : y 0 * Real.cos phi + y 1 * Real.sin phi ≤ s := by
      apply Real.le_sqrt_of_sq_le
      nlinarith [sq_nonneg (y 0 * Real.sin phi - y 1 * Real.cos phi)]
    have e : (y 0 - a * Real.cos phi) ^ 2 + (y 1 - a * Real.sin phi) ^ 2 + y 2 ^ 2 =
        a ^ 2 + (s ^ 2 + y 2 ^ 2) - 2 * a * (y 0 * Real.cos phi + y 1 * Real.sin phi) := by
      rw [hssq]
      linear_combination a ^ 2 * c3
    rw [e]
    nlinarith

/-- C140, as the code has it: the cell at the centre of the loop is never refined, however large the
distances. -/
theorem C140_violated_centre (theta alpha a : ℝ) (r0 : Pt) (dists : List ℝ) :
    refineFlag (circNear theta alpha a r0 r0) dists = 0 := by
  classical
  have h : ∀ d, ¬ circNear theta alpha a r0 r0 d := by
    intro d
    have : rotated theta alpha r0 r0 = 0 := by
      unfold rotated
      have : (fun k => r0 k - r0 k) = (0 : Pt) := by funext k; simp
      rw [this, Matrix.mulVec_zero]
    simp [circNear, this]
  rw [C140_flag, List.findIdx_eq_length_of_false fun d _ => by simp [h d], Nat.sub_self]

example : circNear 0 0 1 ![0, 0, 0] ![0, 1, 0] 2 ↔
    ∃ phi, dist3 ![0, 1, 0] (loopPt 0 0 1 ![0, 0, 0] phi) < 2 + 1e-3 :=
  C140_loop_near one_pos (fun h => by simpa using congrFun h 1) 2

end Props
end Verif.VRM
