import Verif.VRM.Sources
import Mathlib.Analysis.SpecialFunctions.Trigonometric.ArctanDeriv
import Mathlib.Analysis.Calculus.MeanValue
import Mathlib.MeasureTheory.Integral.Prod
import Mathlib.Analysis.SpecialFunctions.Integrals.Basic
import Mathlib.Algebra.Polynomial.Eval.Degree
import Mathlib.Analysis.Polynomial.Basic

/-!
C141: the geometry matrix of viscous remanent magnetization
(`simpeg/electromagnetics/viscous_remanent_magnetization/simulation.py` 153-811): the field of a
magnetized cell at a receiver, square loops by Gauss quadrature, refinement of cells.
-/

noncomputable section
namespace Verif.VRM
open Verif

/-! ### Model -/

/-- `tol` (`simulation.py` 215). -/
def tol : ℝ := 1e-10

/-- `u1[np.abs(u1) < tol] = ...` (`simulation.py` 229-240 and the same in the other branches). -/
def adj (u r : ℝ) : ℝ := if |u| < tol then r else u

/-- `d111`, ... (`simulation.py` 242-249). -/
def dd (u v w : ℝ) : ℝ := Real.sqrt (u ^ 2 + v ^ 2 + w ^ 2)

/-- `Gxx` (`simulation.py` 251-260; also 518-527). -/
def Gxx (u1 u2 v1 v2 w1 w2 : ℝ) : ℝ :=
  Real.arctan (v1 * w1 / (u1 * dd u1 v1 w1 + tol)) - Real.arctan (v1 * w1 / (u2 * dd u2 v1 w1 + tol))
  + Real.arctan (v2 * w1 / (u2 * dd u2 v2 w1 + tol)) - Real.arctan (v2 * w1 / (u1 * dd u1 v2 w1 + tol))
  + Real.arctan (v2 * w2 / (u1 * dd u1 v2 w2 + tol)) - Real.arctan (v1 * w2 / (u1 * dd u1 v1 w2 + tol))
  + Real.arctan (v1 * w2 / (u2 * dd u2 v1 w2 + tol)) - Real.arctan (v2 * w2 / (u2 * dd u2 v2 w2 + tol))

/-- `Gyx` and `Gxy` (`simulation.py` 262-271, 311-320; also 531-540, 594-603). -/
def Gxy (u1 u2 v1 v2 w1 w2 : ℝ) : ℝ :=
  Real.log (dd u1 v1 w1 - w1) - Real.log (dd u2 v1 w1 - w1) + Real.log (dd u2 v2 w1 - w1)
  - Real.log (dd u1 v2 w1 - w1) + Real.log (dd u1 v2 w2 - w2) - Real.log (dd u1 v1 w2 - w2)
  + Real.log (dd u2 v1 w2 - w2) - Real.log (dd u2 v2 w2 - w2)

/-- `Gzx` and `Gxz` (`simulation.py` 273-282, 371-380; also 544-553, 670-679). -/
def Gxz (u1 u2 v1 v2 w1 w2 : ℝ) : ℝ :=
  Real.log (dd u1 v1 w1 - v1) - Real.log (dd u2 v1 w1 - v1) + Real.log (dd u2 v2 w1 - v2)
  - Real.log (dd u1 v2 w1 - v2) + Real.log (dd u1 v2 w2 - v2) - Real.log (dd u1 v1 w2 - v1)
  + Real.log (dd u2 v1 w2 - v1) - Real.log (dd u2 v2 w2 - v2)

/-- `Gyy` (`simulation.py` 322-331; also 607-616). -/
def Gyy (u1 u2 v1 v2 w1 w2 : ℝ) : ℝ :=
  Real.arctan (u1 * w1 / (v1 * dd u1 v1 w1 + tol)) - Real.arctan (u2 * w1 / (v1 * dd u2 v1 w1 + tol))
  + Real.arctan (u2 * w1 / (v2 * dd u2 v2 w1 + tol)) - Real.arctan (u1 * w1 / (v2 * dd u1 v2 w1 + tol))
  + Real.arctan (u1 * w2 / (v2 * dd u1 v2 w2 + tol)) - Real.arctan (u1 * w2 / (v1 * dd u1 v1 w2 + tol))
  + Real.arctan (u2 * w2 / (v1 * dd u2 v1 w2 + tol)) - Real.arctan (u2 * w2 / (v2 * dd u2 v2 w2 + tol))

/-- `Gzy` and `Gyz` (`simulation.py` 333-342, 382-391; also 620-629, 683-692). -/
def Gyz (u1 u2 v1 v2 w1 w2 : ℝ) : ℝ :=
  Real.log (dd u1 v1 w1 - u1) - Real.log (dd u2 v1 w1 - u2) + Real.log (dd u2 v2 w1 - u2)
  - Real.log (dd u1 v2 w1 - u1) + Real.log (dd u1 v2 w2 - u1) - Real.log (dd u1 v1 w2 - u1)
  + Real.log (dd u2 v1 w2 - u2) - Real.log (dd u2 v2 w2 - u2)

/-- `Gzz` (`simulation.py` 393-414; also 696-717). -/
def Gzz (u1 u2 v1 v2 w1 w2 : ℝ) : ℝ :=
  let g := -Real.arctan (v1 * w1 / (u1 * dd u1 v1 w1 + tol))
    + Real.arctan (v1 * w1 / (u2 * dd u2 v1 w1 + tol))
    - Real.arctan (v2 * w1 / (u2 * dd u2 v2 w1 + tol))
    + Real.arctan (v2 * w1 / (u1 * dd u1 v2 w1 + tol))
    - Real.arctan (v2 * w2 / (u1 * dd u1 v2 w2 + tol))
    + Real.arctan (v1 * w2 / (u1 * dd u1 v1 w2 + tol))
    - Real.arctan (v1 * w2 / (u2 * dd u2 v1 w2 + tol))
    + Real.arctan (v2 * w2 / (u2 * dd u2 v2 w2 + tol));
  g - Real.arctan (u1 * w1 / (v1 * dd u1 v1 w1 + tol))
    + Real.arctan (u2 * w1 / (v1 * dd u2 v1 w1 + tol))
    - Real.arctan (u2 * w1 / (v2 * dd u2 v2 w1 + tol))
    + Real.arctan (u1 * w1 / (v2 * dd u1 v2 w1 + tol))
    - Real.arctan (u1 * w2 / (v2 * dd u1 v2 w2 + tol))
    + Real.arctan (u1 * w2 / (v1 * dd u1 v1 w2 + tol))
    - Real.arctan (u2 * w2 / (v1 * dd u2 v1 w2 + tol))
    + Real.arctan (u2 * w2 / (v2 * dd u2 v2 w2 + tol))

/-- The three entries of a row for one cell by orientation of the receiver: `np.c_[Gxx, Gyx, Gzx]`,
`np.c_[Gxy, Gyy, Gzy]`, `np.c_[Gxz, Gyz, Gzz]` (`simulation.py` 284, 344, 416). -/
def kernel : Fin 3 → Fin 3 → ℝ → ℝ → ℝ → ℝ → ℝ → ℝ → ℝ :=
  ![![Gxx, Gxy, Gxz], ![Gxy, Gyy, Gyz], ![Gxz, Gyz, Gzz]]

/-- `G[COUNT, :]` of a point receiver at `x`, for the cell with centre `c` and widths `h`
(`simulation.py` 205-214, 226-417). `hmin` are the smallest widths of the cells handed over. -/
def geom (hmin x c h : Pt) (o j : Fin 3) : ℝ :=
  let lo (k : Fin 3) := adj (x k - (c k - h k / 2)) (hmin k / 1000)
  let hi (k : Fin 3) := adj (x k - (c k + h k / 2)) (-hmin k / 1000);
  -(1 / (4 * Real.pi)) * kernel o j (lo 0) (hi 0) (lo 1) (hi 1) (lo 2) (hi 2)

/-- An entry of `G * H0` (`simulation.py` 153-180, 740-742): the inducing field at the centre. -/
def entry (hmin x c h : Pt) (o : Fin 3) (H0 : Pt → Pt) : ℝ :=
  geom hmin x c h o 0 * H0 c 0 + geom hmin x c h o 1 * H0 c 1 + geom hmin x c h o 2 * H0 c 2

/-- The centre of a small cell (`simulation.py` 785-804). -/
def subCentre (n : ℕ) (c h : Pt) (i : Fin 3 → ℕ) : Pt := fun k =>
  (c k - h k / 2) + h k / n * ((i k : ℝ) + 1 - 0.5)

/-- A column of `_getSubsetAcolumns` (`simulation.py` 762-811), with `n = 2**qq`: the columns of the
small cells are added. The order of `np.meshgrid` is left to the sum. -/
def refined (n : ℕ) (hmin x c h : Pt) (o : Fin 3) (H0 : Pt → Pt) : ℝ :=
  ∑ i ∈ Finset.range n, ∑ j ∈ Finset.range n, ∑ k ∈ Finset.range n,
    entry hmin x (subCentre n c h ![i, j, k]) (fun k => h k / n) o H0

/-- Gauss weights by `quadrature_order - 1` (`simulation.py` 421-438). -/
def wtTab : List (List ℚ) :=
  [[2.0], [1.0, 1.0], [0.555556, 0.888889, 0.555556], [0.347855, 0.652145, 0.652145, 0.347855],
   [0.236927, 0.478629, 0.568889, 0.478629, 0.236927],
   [0.171324, 0.467914, 0.360762, 0.360762, 0.467914, 0.171324],
   [0.129485, 0.279705, 0.381830, 0.417959, 0.381830, 0.279705, 0.129485]]

/-- Gauss nodes by `quadrature_order - 1` (`simulation.py` 447-464). -/
def dsTab : List (List ℚ) :=
  [[0.0], [-0.57735, 0.57735], [-0.774597, 0.0, 0.774597],
   [-0.861136, -0.339981, 0.339981, 0.861136], [-0.906180, -0.538469, 0, 0.538469, 0.906180],
   [-0.932470, -0.238619, -0.661209, 0.661209, 0.238619, 0.932470],
   [-0.949108, -0.741531, -0.405845, 0.0, 0.405845, 0.741531, 0.949108]]

/-- Weights and nodes of one order, in pairs. -/
def rule (order : ℕ) : List (ℚ × ℚ) :=
  (wtTab.getD (order - 1) []).zip (dsTab.getD (order - 1) [])

/-- The displacements `s1`, `s2` in the plane of the loop (`simulation.py` 486-507, 562-583,
638-659). -/
def shift (o : Fin 3) (x : Pt) (s1 s2 : ℝ) : Pt :=
  match o with
  | 0 => ![x 0, x 1 + s1, x 2 + s2]
  | 1 => ![x 0 + s1, x 1, x 2 + s2]
  | 2 => ![x 0 + s1, x 1 + s2, x 2]

/-- The quadrature of a field `F` over a square loop (`simulation.py` 439-482, 529, 542, 555): the
weights `wt` by `np.outer` and the places by `np.kron` have the same order. -/
def overLoop (order : ℕ) (width turns : ℝ) (o : Fin 3) (x : Pt) (F : Pt → ℝ) : ℝ :=
  ((rule order).map fun a => ((rule order).map fun b =>
    turns * (width / 2) ^ 2 * ((a.1 : ℝ) * (b.1 : ℝ))
      * F (shift o x (0.5 * width * (a.2 : ℝ)) (0.5 * width * (b.2 : ℝ)))).sum).sum

/-- `G[COUNT, :]` of a `SquareLoop` (`simulation.py` 419-722): the entries of points in the loop. -/
def loopGeom (order : ℕ) (width turns : ℝ) (hmin x c h : Pt) (o j : Fin 3) : ℝ :=
  overLoop order width turns o x fun y => geom hmin y c h o j

/-! ### Specification -/

/-- The field of a dipole at the origin: component `o` for a unit moment in direction `j`. -/
def dipoleK (o j : Fin 3) (r : Pt) : ℝ :=
  1 / (4 * Real.pi) * (3 * r o * r j / Real.sqrt (r 0 ^ 2 + r 1 ^ 2 + r 2 ^ 2) ^ 5
    - (if o = j then 1 else 0) / Real.sqrt (r 0 ^ 2 + r 1 ^ 2 + r 2 ^ 2) ^ 3)

/-- The field at `x` of the cell magnetized in direction `j`. -/
def cellField (o j : Fin 3) (x c h : Pt) : ℝ :=
  ∫ z in (c 2 - h 2 / 2)..(c 2 + h 2 / 2), ∫ y in (c 1 - h 1 / 2)..(c 1 + h 1 / 2),
    ∫ t in (c 0 - h 0 / 2)..(c 0 + h 0 / 2), dipoleK o j ![x 0 - t, x 1 - y, x 2 - z]

namespace Props

/-! ### Differences over the corners -/

/-- The alternating sum over the corners. -/
def box8 (g : ℝ → ℝ → ℝ → ℝ) (u1 u2 v1 v2 w1 w2 : ℝ) : ℝ :=
  g u1 v1 w1 - g u2 v1 w1 + g u2 v2 w1 - g u1 v2 w1 + g u1 v2 w2 - g u1 v1 w2 + g u2 v1 w2
    - g u2 v2 w2

def atanU (t u v w : ℝ) : ℝ := Real.arctan (v * w / (u * dd u v w + t))
def atanV (t u v w : ℝ) : ℝ := Real.arctan (u * w / (v * dd u v w + t))
def logW (u v w : ℝ) : ℝ := Real.log (dd u v w - w)
def logV (u v w : ℝ) : ℝ := Real.log (dd u v w - v)
def logU (u v w : ℝ) : ℝ := Real.log (dd u v w - u)

/-- C141. **Symmetric and free of trace**: the response of component `o` to magnetization in
direction `j` is that of `j` to `o`, and the diagonal sums to zero. -/
theorem C141_symmetric (hmin x c h : Pt) (o j : Fin 3) :
    geom hmin x c h o j = geom hmin x c h j o := by
  fin_cases o <;> fin_cases j <;> rfl

theorem Gzz_eq (u1 u2 v1 v2 w1 w2 : ℝ) :
    Gzz u1 u2 v1 v2 w1 w2 = -Gxx u1 u2 v1 v2 w1 w2 - Gyy u1 u2 v1 v2 w1 w2 := by
  simp only [Gzz, Gxx, Gyy]
  ring

theorem C141_trace (hmin x c h : Pt) :
    geom hmin x c h 0 0 + geom hmin x c h 1 1 + geom hmin x c h 2 2 = 0 := by
  simp only [geom, kernel, Matrix.cons_val_zero, Matrix.cons_val_one, Matrix.cons_val]
  rw [Gzz_eq]
  ring

/-! ### Derivatives -/

theorem dd_u (u v w : ℝ) : dd u v w = Real.sqrt (u ^ 2 + (v ^ 2 + w ^ 2)) := by
  unfold dd; congr 1; ring
theorem dd_v (u v w : ℝ) : dd u v w = Real.sqrt (v ^ 2 + (u ^ 2 + w ^ 2)) := by
  unfold dd; congr 1; ring
theorem dd_w (u v w : ℝ) : dd u v w = Real.sqrt (w ^ 2 + (u ^ 2 + v ^ 2)) := by
  unfold dd; congr 1; ring

theorem der_s {u k : ℝ} (h : 0 < u ^ 2 + k) :
    HasDerivAt (fun u => Real.sqrt (u ^ 2 + k)) (u / Real.sqrt (u ^ 2 + k)) u := by
  have h1 : HasDerivAt (fun u : ℝ => u ^ 2 + k) (2 * u) u := by
    simpa using (hasDerivAt_pow 2 u).add_const k
  have := h1.sqrt h.ne'
  refine this.congr_deriv ?_
  field_simp

theorem der_pow {u k : ℝ} (h : 0 < u ^ 2 + k) (v : ℝ) :
    HasDerivAt (fun u => -(v / Real.sqrt (u ^ 2 + k) ^ 3)) (3 * u * v / Real.sqrt (u ^ 2 + k) ^ 5)
      u := by
  have hs := Real.sqrt_pos.2 h
  have := ((hasDerivAt_const u v).div ((der_s h).pow 3) (pow_ne_zero 3 hs.ne')).neg
  refine this.congr_deriv ?_
  simp only [Pi.pow_apply]
  generalize Real.sqrt (u ^ 2 + k) = s at hs
  field_simp
  norm_num
  ring

theorem der_inv {v k : ℝ} (h : 0 < v ^ 2 + k) :
    HasDerivAt (fun v => 1 / Real.sqrt (v ^ 2 + k)) (-(v / Real.sqrt (v ^ 2 + k) ^ 3)) v := by
  have hs := Real.sqrt_pos.2 h
  have := (hasDerivAt_const v (1 : ℝ)).div (der_s h) hs.ne'
  refine this.congr_deriv ?_
  generalize Real.sqrt (v ^ 2 + k) = s at hs
  field_simp
  ring

theorem der_log {w k : ℝ} (h : 0 < k) :
    HasDerivAt (fun w => -Real.log (Real.sqrt (w ^ 2 + k) - w)) (1 / Real.sqrt (w ^ 2 + k)) w := by
  have hq : 0 < w ^ 2 + k := by positivity
  have hs := Real.sqrt_pos.2 hq
  have hlt : 0 < Real.sqrt (w ^ 2 + k) - w := by
    have : w < Real.sqrt (w ^ 2 + k) := by
      apply Real.lt_sqrt_of_sq_lt
      linarith
    linarith
  have := (((der_s hq).sub (hasDerivAt_id w)).log hlt.ne').neg
  refine this.congr_deriv ?_
  simp only [Pi.sub_apply, id]
  generalize Real.sqrt (w ^ 2 + k) = s at hs hlt
  field_simp
  ring

theorem der_diag {u k : ℝ} (h : 0 < u ^ 2 + k) :
    HasDerivAt (fun u => -(u / Real.sqrt (u ^ 2 + k) ^ 3))
      (3 * u * u / Real.sqrt (u ^ 2 + k) ^ 5 - 1 / Real.sqrt (u ^ 2 + k) ^ 3) u := by
  have hs := Real.sqrt_pos.2 h
  have := ((hasDerivAt_id u).div ((der_s h).pow 3) (pow_ne_zero 3 hs.ne')).neg
  refine this.congr_deriv ?_
  simp only [Pi.pow_apply, id]
  generalize Real.sqrt (u ^ 2 + k) = s at hs
  field_simp
  norm_num
  ring

theorem der_frac {u v k : ℝ} (h : 0 < k) :
    HasDerivAt (fun v => -(u * v / (k * Real.sqrt (v ^ 2 + k)))) (-(u / Real.sqrt (v ^ 2 + k) ^ 3))
      v := by
  have hq : 0 < v ^ 2 + k := by positivity
  have hs := Real.sqrt_pos.2 hq
  have hsq := Real.sq_sqrt hq.le
  have := (((hasDerivAt_id v).const_mul u).div ((der_s hq).const_mul k) (by positivity)).neg
  refine this.congr_deriv ?_
  simp only [id]
  generalize Real.sqrt (v ^ 2 + k) = s at hs hsq
  field_simp
  linear_combination -u * hsq

theorem der_atan {u v w : ℝ} (hu : u ≠ 0) :
    HasDerivAt (fun w => -Real.arctan (v * w / (u * Real.sqrt (w ^ 2 + (u ^ 2 + v ^ 2)))))
      (-(u * v / ((u ^ 2 + w ^ 2) * Real.sqrt (w ^ 2 + (u ^ 2 + v ^ 2))))) w := by
  have hu2 : 0 < u ^ 2 := by positivity
  have hq : 0 < w ^ 2 + (u ^ 2 + v ^ 2) := by positivity
  have hs := Real.sqrt_pos.2 hq
  have hsq := Real.sq_sqrt hq.le
  have := ((((hasDerivAt_id w).const_mul v).div ((der_s hq).const_mul u)
    (mul_ne_zero hu hs.ne')).arctan).neg
  refine this.congr_deriv ?_
  simp only [Pi.div_apply, id]
  generalize Real.sqrt (w ^ 2 + (u ^ 2 + v ^ 2)) = s at hs hsq
  have h1 : 0 < u ^ 2 + w ^ 2 := by positivity
  have h2 : 1 + (v * w / (u * s)) ^ 2 = (u ^ 2 + w ^ 2) * (u ^ 2 + v ^ 2) / (u * s) ^ 2 := by
    field_simp
    rw [hsq]
    ring
  have h3 : 0 < u ^ 2 + v ^ 2 := by positivity
  rw [h2]
  field_simp
  linear_combination -v * hsq

/-! ### Three integrations -/

section Ftc
variable {f F1 F2 F3 : ℝ → ℝ → ℝ → ℝ} {a1 a2 b1 b2 c1 c2 : ℝ}

/-- Integrating in the order of the arguments. -/
theorem ftc3
    (h1 : ∀ a ∈ Set.uIcc a2 a1, ∀ b ∈ Set.uIcc b2 b1, ∀ c ∈ Set.uIcc c2 c1,
      HasDerivAt (fun a => F1 a b c) (f a b c) a)
    (h2 : ∀ a, a = a1 ∨ a = a2 → ∀ b ∈ Set.uIcc b2 b1, ∀ c ∈ Set.uIcc c2 c1,
      HasDerivAt (fun b => F2 a b c) (F1 a b c) b)
    (h3 : ∀ a, a = a1 ∨ a = a2 → ∀ b, b = b1 ∨ b = b2 → ∀ c ∈ Set.uIcc c2 c1,
      HasDerivAt (fun c => F3 a b c) (F2 a b c) c)
    (k1 : ∀ b ∈ Set.uIcc b2 b1, ∀ c ∈ Set.uIcc c2 c1,
      ContinuousOn (fun a => f a b c) (Set.uIcc a2 a1))
    (k2 : ∀ a, a = a1 ∨ a = a2 → ∀ c ∈ Set.uIcc c2 c1,
      ContinuousOn (fun b => F1 a b c) (Set.uIcc b2 b1))
    (k3 : ∀ a, a = a1 ∨ a = a2 → ∀ b, b = b1 ∨ b = b2 →
      ContinuousOn (fun c => F2 a b c) (Set.uIcc c2 c1)) :
    ∫ c in c2..c1, ∫ b in b2..b1, ∫ a in a2..a1, f a b c = box8 F3 a1 a2 b1 b2 c1 c2 := by
  have e1 : ∀ c ∈ Set.uIcc c2 c1, ∫ b in b2..b1, ∫ a in a2..a1, f a b c =
      (F2 a1 b1 c - F2 a2 b1 c) - (F2 a1 b2 c - F2 a2 b2 c) := by
    intro c hc
    have e : ∀ b ∈ Set.uIcc b2 b1, ∫ a in a2..a1, f a b c = F1 a1 b c - F1 a2 b c := fun b hb =>
      intervalIntegral.integral_eq_sub_of_hasDerivAt (fun a ha => h1 a ha b hb c hc)
        (k1 b hb c hc).intervalIntegrable
    rw [intervalIntegral.integral_congr e]
    exact intervalIntegral.integral_eq_sub_of_hasDerivAt
      (fun b hb => (h2 a1 (.inl rfl) b hb c hc).sub (h2 a2 (.inr rfl) b hb c hc))
      ((k2 a1 (.inl rfl) c hc).sub (k2 a2 (.inr rfl) c hc)).intervalIntegrable
  rw [intervalIntegral.integral_congr e1]
  have := intervalIntegral.integral_eq_sub_of_hasDerivAt
    (f := fun c => (F3 a1 b1 c - F3 a2 b1 c) - (F3 a1 b2 c - F3 a2 b2 c)) (a := c2) (b := c1)
    (fun c hc => ((h3 a1 (.inl rfl) b1 (.inl rfl) c hc).sub (h3 a2 (.inr rfl) b1 (.inl rfl) c hc)).sub
      ((h3 a1 (.inl rfl) b2 (.inr rfl) c hc).sub (h3 a2 (.inr rfl) b2 (.inr rfl) c hc)))
    (((k3 a1 (.inl rfl) b1 (.inl rfl)).sub (k3 a2 (.inr rfl) b1 (.inl rfl))).sub
      ((k3 a1 (.inl rfl) b2 (.inr rfl)).sub (k3 a2 (.inr rfl) b2 (.inr rfl)))).intervalIntegrable
  refine Eq.trans this ?_
  simp only [box8]
  ring

theorem swap_cont {g : ℝ → ℝ → ℝ}
    (hg : ContinuousOn (Function.uncurry g) (Set.uIcc a2 a1 ×ˢ Set.uIcc b2 b1)) :
    ∫ a in a2..a1, ∫ b in b2..b1, g a b = ∫ b in b2..b1, ∫ a in a2..a1, g a b := by
  apply MeasureTheory.intervalIntegral_intervalIntegral_swap
  have := hg.integrableOn_compact (μ := MeasureTheory.volume)
    (isCompact_uIcc.prod isCompact_uIcc)
  exact this.mono_set (Set.prod_mono Set.uIoc_subset_uIcc Set.uIoc_subset_uIcc)

/-- Integrating first in the first argument, then in the third, then in the second. -/
theorem ftc3'
    (h1 : ∀ a ∈ Set.uIcc a2 a1, ∀ b ∈ Set.uIcc b2 b1, ∀ c ∈ Set.uIcc c2 c1,
      HasDerivAt (fun a => F1 a b c) (f a b c) a)
    (h2 : ∀ a, a = a1 ∨ a = a2 → ∀ b ∈ Set.uIcc b2 b1, ∀ c ∈ Set.uIcc c2 c1,
      HasDerivAt (fun c => F2 a b c) (F1 a b c) c)
    (h3 : ∀ a, a = a1 ∨ a = a2 → ∀ c, c = c1 ∨ c = c2 → ∀ b ∈ Set.uIcc b2 b1,
      HasDerivAt (fun b => F3 a b c) (F2 a b c) b)
    (k1 : ∀ b ∈ Set.uIcc b2 b1, ∀ c ∈ Set.uIcc c2 c1,
      ContinuousOn (fun a => f a b c) (Set.uIcc a2 a1))
    (k2 : ∀ a, a = a1 ∨ a = a2 →
      ContinuousOn (fun p : ℝ × ℝ => F1 a p.2 p.1) (Set.uIcc c2 c1 ×ˢ Set.uIcc b2 b1))
    (k3 : ∀ a, a = a1 ∨ a = a2 → ∀ c, c = c1 ∨ c = c2 →
      ContinuousOn (fun b => F2 a b c) (Set.uIcc b2 b1)) :
    ∫ c in c2..c1, ∫ b in b2..b1, ∫ a in a2..a1, f a b c = box8 F3 a1 a2 b1 b2 c1 c2 := by
  have e1 : ∀ b ∈ Set.uIcc b2 b1, ∀ c ∈ Set.uIcc c2 c1,
      ∫ a in a2..a1, f a b c = F1 a1 b c - F1 a2 b c := fun b hb c hc =>
    intervalIntegral.integral_eq_sub_of_hasDerivAt (fun a ha => h1 a ha b hb c hc)
      (k1 b hb c hc).intervalIntegrable
  rw [intervalIntegral.integral_congr fun c hc => intervalIntegral.integral_congr fun b hb =>
    e1 b hb c hc]
  have hk : ∀ a, a = a1 ∨ a = a2 → ∀ b ∈ Set.uIcc b2 b1,
      ContinuousOn (fun c => F1 a b c) (Set.uIcc c2 c1) := by
    intro a ha b hb
    exact (k2 a ha).comp (f := fun c => (c, b)) (by fun_prop) (fun c hc => ⟨hc, hb⟩)
  rw [swap_cont (g := fun c b => F1 a1 b c - F1 a2 b c)
    ((k2 a1 (.inl rfl)).sub (k2 a2 (.inr rfl)))]
  have e2 : ∀ b ∈ Set.uIcc b2 b1, ∫ c in c2..c1, (F1 a1 b c - F1 a2 b c) =
      (F2 a1 b c1 - F2 a2 b c1) - (F2 a1 b c2 - F2 a2 b c2) := fun b hb =>
    intervalIntegral.integral_eq_sub_of_hasDerivAt
      (fun c hc => (h2 a1 (.inl rfl) b hb c hc).sub (h2 a2 (.inr rfl) b hb c hc))
      ((hk a1 (.inl rfl) b hb).sub (hk a2 (.inr rfl) b hb)).intervalIntegrable
  rw [intervalIntegral.integral_congr e2]
  have := intervalIntegral.integral_eq_sub_of_hasDerivAt
    (f := fun b => (F3 a1 b c1 - F3 a2 b c1) - (F3 a1 b c2 - F3 a2 b c2)) (a := b2) (b := b1)
    (fun b hb => ((h3 a1 (.inl rfl) c1 (.inl rfl) b hb).sub (h3 a2 (.inr rfl) c1 (.inl rfl) b hb)).sub
      ((h3 a1 (.inl rfl) c2 (.inr rfl) b hb).sub (h3 a2 (.inr rfl) c2 (.inr rfl) b hb)))
    (((k3 a1 (.inl rfl) c1 (.inl rfl)).sub (k3 a2 (.inr rfl) c1 (.inl rfl))).sub
      ((k3 a1 (.inl rfl) c2 (.inr rfl)).sub (k3 a2 (.inr rfl) c2 (.inr rfl)))).intervalIntegrable
  refine Eq.trans this ?_
  simp only [box8]
  ring

/-- Exchanging the first two directions. -/
theorem swap_inner
    (hf : ∀ c ∈ Set.uIcc c2 c1,
      ContinuousOn (fun p : ℝ × ℝ => f p.2 p.1 c) (Set.uIcc b2 b1 ×ˢ Set.uIcc a2 a1)) :
    ∫ c in c2..c1, ∫ b in b2..b1, ∫ a in a2..a1, f a b c =
      ∫ c in c2..c1, ∫ a in a2..a1, ∫ b in b2..b1, f a b c :=
  intervalIntegral.integral_congr fun c hc => swap_cont (g := fun b a => f a b c) (hf c hc)

end Ftc

/-! ### The kernels -/

/-- The box of differences does not contain the origin. -/
def Off (u1 u2 v1 v2 w1 w2 : ℝ) : Prop :=
  (0 ∉ Set.uIcc u2 u1) ∨ (0 ∉ Set.uIcc v2 v1) ∨ (0 ∉ Set.uIcc w2 w1)

theorem off_pos {u1 u2 v1 v2 w1 w2 : ℝ} (ho : Off u1 u2 v1 v2 w1 w2) {u v w : ℝ}
    (hu : u ∈ Set.uIcc u2 u1) (hv : v ∈ Set.uIcc v2 v1) (hw : w ∈ Set.uIcc w2 w1) :
    0 < u ^ 2 + v ^ 2 + w ^ 2 := by
  rcases ho with h | h | h
  · have : u ≠ 0 := fun e => h (e ▸ hu)
    positivity
  · have : v ≠ 0 := fun e => h (e ▸ hv)
    positivity
  · have : w ≠ 0 := fun e => h (e ▸ hw)
    positivity

theorem dd_pos {u v w : ℝ} (h : 0 < u ^ 2 + v ^ 2 + w ^ 2) : dd u v w ≠ 0 :=
  (Real.sqrt_pos.2 h).ne'

theorem dd_cont : Continuous fun p : ℝ × ℝ × ℝ => dd p.1 p.2.1 p.2.2 := by
  unfold dd
  fun_prop

/-- A quotient by a power of the distance is continuous away from the origin. -/
theorem quot_cont {α : Type} [TopologicalSpace α] {s : Set α} {g u v w : α → ℝ} (hg : Continuous g)
    (hu : Continuous u) (hv : Continuous v) (hw : Continuous w) (n : ℕ)
    (h : ∀ p ∈ s, 0 < u p ^ 2 + v p ^ 2 + w p ^ 2) :
    ContinuousOn (fun p => g p / dd (u p) (v p) (w p) ^ n) s := by
  apply ContinuousOn.div hg.continuousOn
  · apply Continuous.continuousOn
    unfold dd
    fun_prop
  · exact fun p hp => pow_ne_zero n (dd_pos (h p hp))

variable {u1 u2 v1 v2 w1 w2 : ℝ}

theorem int_xy (ho : Off u1 u2 v1 v2 w1 w2) (hu1 : u1 ≠ 0) (hu2 : u2 ≠ 0) :
    ∫ w in w2..w1, ∫ v in v2..v1, ∫ u in u2..u1, 3 * u * v / dd u v w ^ 5 =
      -box8 logW u1 u2 v1 v2 w1 w2 := by
  have hu : ∀ u, u = u1 ∨ u = u2 → u ≠ 0 := by rintro u (rfl | rfl) <;> assumption
  have := ftc3 (f := fun u v w => 3 * u * v / dd u v w ^ 5) (F1 := fun u v w => -(v / dd u v w ^ 3))
    (F2 := fun u v w => 1 / dd u v w) (F3 := fun u v w => -logW u v w)
    (a1 := u1) (a2 := u2) (b1 := v1) (b2 := v2) (c1 := w1) (c2 := w2)
    (fun u hu v hv w hw => by
      have hp := off_pos ho hu hv hw
      simp only [dd_u]
      exact der_pow (by linarith) v)
    (fun u hu' v _ w _ => by
      have := hu u hu'
      simp only [dd_v]
      exact der_inv (by positivity))
    (fun u hu' v _ w _ => by
      have := hu u hu'
      simp only [logW, dd_w]
      exact der_log (by positivity))
    (fun v hv w hw => quot_cont (by fun_prop) (by fun_prop) (by fun_prop) (by fun_prop) 5
      fun u hu => off_pos ho hu hv hw)
    (fun u hu' w _ => (quot_cont (by fun_prop) (by fun_prop) (by fun_prop) (by fun_prop) 3
      fun v _ => by have := hu u hu'; positivity).neg)
    (fun u hu' v _ => by
      have := quot_cont (s := Set.uIcc w2 w1) (g := fun _ : ℝ => 1) (u := fun _ => u)
        (v := fun _ => v) (w := fun w => w)
        (by fun_prop) (by fun_prop) (by fun_prop) (by fun_prop) 1
        fun w _ => by have := hu u hu'; positivity
      simpa using this)
  rw [this]
  simp only [box8]
  ring

theorem int_xz (ho : Off u1 u2 v1 v2 w1 w2) (hu1 : u1 ≠ 0) (hu2 : u2 ≠ 0) :
    ∫ w in w2..w1, ∫ v in v2..v1, ∫ u in u2..u1, 3 * u * w / dd u v w ^ 5 =
      -box8 logV u1 u2 v1 v2 w1 w2 := by
  have hu : ∀ u, u = u1 ∨ u = u2 → u ≠ 0 := by rintro u (rfl | rfl) <;> assumption
  have := ftc3' (f := fun u v w => 3 * u * w / dd u v w ^ 5)
    (F1 := fun u v w => -(w / dd u v w ^ 3))
    (F2 := fun u v w => 1 / dd u v w) (F3 := fun u v w => -logV u v w)
    (a1 := u1) (a2 := u2) (b1 := v1) (b2 := v2) (c1 := w1) (c2 := w2)
    (fun u hu v hv w hw => by
      have hp := off_pos ho hu hv hw
      simp only [dd_u]
      exact der_pow (by linarith) w)
    (fun u hu' v _ w _ => by
      have := hu u hu'
      simp only [dd_w]
      exact der_inv (by positivity))
    (fun u hu' w _ v _ => by
      have := hu u hu'
      simp only [logV, dd_v]
      exact der_log (by positivity))
    (fun v hv w hw => quot_cont (by fun_prop) (by fun_prop) (by fun_prop) (by fun_prop) 5
      fun u hu => off_pos ho hu hv hw)
    (fun u hu' => (quot_cont (by fun_prop) (by fun_prop) (by fun_prop) (by fun_prop) 3
      fun v _ => by have := hu u hu'; positivity).neg)
    (fun u hu' w _ => by
      have := quot_cont (s := Set.uIcc v2 v1) (g := fun _ : ℝ => 1) (u := fun _ => u)
        (v := fun v => v) (w := fun _ => w)
        (by fun_prop) (by fun_prop) (by fun_prop) (by fun_prop) 1
        fun w _ => by have := hu u hu'; positivity
      simpa using this)
  rw [this]
  simp only [box8]
  ring

theorem int_xx (ho : Off u1 u2 v1 v2 w1 w2) (hu1 : u1 ≠ 0) (hu2 : u2 ≠ 0) :
    ∫ w in w2..w1, ∫ v in v2..v1, ∫ u in u2..u1, (3 * u * u / dd u v w ^ 5 - 1 / dd u v w ^ 3) =
      -box8 (atanU 0) u1 u2 v1 v2 w1 w2 := by
  have hu : ∀ u, u = u1 ∨ u = u2 → u ≠ 0 := by rintro u (rfl | rfl) <;> assumption
  have := ftc3 (f := fun u v w => 3 * u * u / dd u v w ^ 5 - 1 / dd u v w ^ 3)
    (F1 := fun u v w => -(u / dd u v w ^ 3))
    (F2 := fun u v w => -(u * v / ((u ^ 2 + w ^ 2) * dd u v w))) (F3 := fun u v w => -atanU 0 u v w)
    (a1 := u1) (a2 := u2) (b1 := v1) (b2 := v2) (c1 := w1) (c2 := w2)
    (fun u hu v hv w hw => by
      have hp := off_pos ho hu hv hw
      simp only [dd_u]
      exact der_diag (by linarith))
    (fun u hu' v _ w _ => by
      have := hu u hu'
      simp only [dd_v]
      exact der_frac (by positivity))
    (fun u hu' v _ w _ => by
      have := hu u hu'
      simp only [atanU, dd_w, add_zero]
      exact der_atan this)
    (fun v hv w hw => (quot_cont (by fun_prop) (by fun_prop) (by fun_prop) (by fun_prop) 5
      fun u hu => off_pos ho hu hv hw).sub (quot_cont (by fun_prop) (by fun_prop) (by fun_prop)
      (by fun_prop) 3 fun u hu => off_pos ho hu hv hw))
    (fun u hu' w _ => (quot_cont (by fun_prop) (by fun_prop) (by fun_prop) (by fun_prop) 3
      fun v _ => by have := hu u hu'; positivity).neg)
    (fun u hu' v _ => by
      have hu0 := hu u hu'
      apply ContinuousOn.neg
      apply ContinuousOn.div (by fun_prop)
      · apply Continuous.continuousOn
        unfold dd
        fun_prop
      · intro w _
        exact mul_ne_zero (by positivity) (dd_pos (by positivity)))
  rw [this]
  simp only [box8]
  ring

theorem dd_comm (u v w : ℝ) : dd u v w = dd v u w := by
  unfold dd; congr 1; ring

theorem off_comm (ho : Off u1 u2 v1 v2 w1 w2) : Off v1 v2 u1 u2 w1 w2 := by
  rcases ho with h | h | h
  · exact .inr (.inl h)
  · exact .inl h
  · exact .inr (.inr h)

theorem int_yz (ho : Off u1 u2 v1 v2 w1 w2) (hv1 : v1 ≠ 0) (hv2 : v2 ≠ 0) :
    ∫ w in w2..w1, ∫ v in v2..v1, ∫ u in u2..u1, 3 * v * w / dd u v w ^ 5 =
      -box8 logU u1 u2 v1 v2 w1 w2 := by
  rw [swap_inner (f := fun u v w => 3 * v * w / dd u v w ^ 5)]
  · have := int_xz (off_comm ho) hv1 hv2
    simp only [dd_comm] at this ⊢
    rw [this]
    simp only [box8, logV, logU, dd_comm]
    ring
  · intro w hw
    exact quot_cont (by fun_prop) (by fun_prop) (by fun_prop) (by fun_prop) 5
      fun p hp => off_pos ho hp.2 hp.1 hw

theorem int_yy (ho : Off u1 u2 v1 v2 w1 w2) (hv1 : v1 ≠ 0) (hv2 : v2 ≠ 0) :
    ∫ w in w2..w1, ∫ v in v2..v1, ∫ u in u2..u1, (3 * v * v / dd u v w ^ 5 - 1 / dd u v w ^ 3) =
      -box8 (atanV 0) u1 u2 v1 v2 w1 w2 := by
  rw [swap_inner (f := fun u v w => 3 * v * v / dd u v w ^ 5 - 1 / dd u v w ^ 3)]
  · have := int_xx (off_comm ho) hv1 hv2
    simp only [dd_comm] at this ⊢
    rw [this]
    simp only [box8, atanU, atanV, dd_comm]
    ring
  · intro w hw
    exact (quot_cont (by fun_prop) (by fun_prop) (by fun_prop) (by fun_prop) 5
      fun p hp => off_pos ho hp.2 hp.1 hw).sub (quot_cont (by fun_prop) (by fun_prop) (by fun_prop)
      (by fun_prop) 3 fun p hp => off_pos ho hp.2 hp.1 hw)

/-- The iterated integral as an integral over the box. -/
theorem triple_eq {f : ℝ → ℝ → ℝ → ℝ} (hu : u2 ≤ u1) (hv : v2 ≤ v1) (hw : w2 ≤ w1)
    (hf : ContinuousOn (fun p : ℝ × ℝ × ℝ => f p.2.2 p.2.1 p.1)
      (Set.Icc w2 w1 ×ˢ (Set.Icc v2 v1 ×ˢ Set.Icc u2 u1))) :
    MeasureTheory.IntegrableOn (fun p : ℝ × ℝ × ℝ => f p.2.2 p.2.1 p.1)
      (Set.Ioc w2 w1 ×ˢ (Set.Ioc v2 v1 ×ˢ Set.Ioc u2 u1)) ∧
    ∫ w in w2..w1, ∫ v in v2..v1, ∫ u in u2..u1, f u v w =
      ∫ p in Set.Ioc w2 w1 ×ˢ (Set.Ioc v2 v1 ×ˢ Set.Ioc u2 u1), f p.2.2 p.2.1 p.1 := by
  have hi : MeasureTheory.IntegrableOn (fun p : ℝ × ℝ × ℝ => f p.2.2 p.2.1 p.1)
      (Set.Ioc w2 w1 ×ˢ (Set.Ioc v2 v1 ×ˢ Set.Ioc u2 u1)) :=
    (hf.integrableOn_compact (isCompact_Icc.prod (isCompact_Icc.prod isCompact_Icc))).mono_set
      (Set.prod_mono Set.Ioc_subset_Icc_self
        (Set.prod_mono Set.Ioc_subset_Icc_self Set.Ioc_subset_Icc_self))
  refine ⟨hi, ?_⟩
  rw [MeasureTheory.Measure.volume_eq_prod, MeasureTheory.setIntegral_prod _ hi,
    intervalIntegral.integral_of_le hw]
  refine MeasureTheory.setIntegral_congr_fun measurableSet_Ioc fun w hw' => ?_
  have hs : ContinuousOn (fun p : ℝ × ℝ => f p.2 p.1 w) (Set.Icc v2 v1 ×ˢ Set.Icc u2 u1) :=
    hf.comp (f := fun p : ℝ × ℝ => (w, p)) (by fun_prop)
      (fun p hp => ⟨Set.Ioc_subset_Icc_self hw', hp⟩)
  have hi2 : MeasureTheory.IntegrableOn (fun p : ℝ × ℝ => f p.2 p.1 w)
      (Set.Ioc v2 v1 ×ˢ Set.Ioc u2 u1) :=
    (hs.integrableOn_compact (isCompact_Icc.prod isCompact_Icc)).mono_set
      (Set.prod_mono Set.Ioc_subset_Icc_self Set.Ioc_subset_Icc_self)
  simp only
  rw [MeasureTheory.Measure.volume_eq_prod, MeasureTheory.setIntegral_prod _ hi2,
    intervalIntegral.integral_of_le hv]
  refine MeasureTheory.setIntegral_congr_fun measurableSet_Ioc fun v _ => ?_
  simp only
  rw [intervalIntegral.integral_of_le hu]

theorem int_zz (hu : u2 ≤ u1) (hv : v2 ≤ v1) (hw : w2 ≤ w1) (ho : Off u1 u2 v1 v2 w1 w2)
    (hu1 : u1 ≠ 0) (hu2 : u2 ≠ 0) (hv1 : v1 ≠ 0) (hv2 : v2 ≠ 0) :
    ∫ w in w2..w1, ∫ v in v2..v1, ∫ u in u2..u1, (3 * w * w / dd u v w ^ 5 - 1 / dd u v w ^ 3) =
      box8 (atanU 0) u1 u2 v1 v2 w1 w2 + box8 (atanV 0) u1 u2 v1 v2 w1 w2 := by
  have hp : ∀ p ∈ Set.Icc w2 w1 ×ˢ (Set.Icc v2 v1 ×ˢ Set.Icc u2 u1),
      0 < p.2.2 ^ 2 + p.2.1 ^ 2 + p.1 ^ 2 := by
    rintro ⟨w, v, u⟩ ⟨h1, h2, h3⟩
    refine off_pos ho ?_ ?_ ?_
    · rw [Set.uIcc_of_le hu]; exact h3
    · rw [Set.uIcc_of_le hv]; exact h2
    · rw [Set.uIcc_of_le hw]; exact h1
  have hx := triple_eq (f := fun u v w => 3 * u * u / dd u v w ^ 5 - 1 / dd u v w ^ 3) hu hv hw
    ((quot_cont (by fun_prop) (by fun_prop) (by fun_prop) (by fun_prop) 5 hp).sub
      (quot_cont (by fun_prop) (by fun_prop) (by fun_prop) (by fun_prop) 3 hp))
  have hy := triple_eq (f := fun u v w => 3 * v * v / dd u v w ^ 5 - 1 / dd u v w ^ 3) hu hv hw
    ((quot_cont (by fun_prop) (by fun_prop) (by fun_prop) (by fun_prop) 5 hp).sub
      (quot_cont (by fun_prop) (by fun_prop) (by fun_prop) (by fun_prop) 3 hp))
  have hz := triple_eq (f := fun u v w => 3 * w * w / dd u v w ^ 5 - 1 / dd u v w ^ 3) hu hv hw
    ((quot_cont (by fun_prop) (by fun_prop) (by fun_prop) (by fun_prop) 5 hp).sub
      (quot_cont (by fun_prop) (by fun_prop) (by fun_prop) (by fun_prop) 3 hp))
  have ex := int_xx ho hu1 hu2
  have ey := int_yy ho hv1 hv2
  rw [hx.2] at ex
  rw [hy.2] at ey
  rw [hz.2]
  have hsum := MeasureTheory.integral_add hx.1 hy.1
  have hc : ∫ p in Set.Ioc w2 w1 ×ˢ (Set.Ioc v2 v1 ×ˢ Set.Ioc u2 u1),
      (3 * p.1 * p.1 / dd p.2.2 p.2.1 p.1 ^ 5 - 1 / dd p.2.2 p.2.1 p.1 ^ 3) =
      ∫ p in Set.Ioc w2 w1 ×ˢ (Set.Ioc v2 v1 ×ˢ Set.Ioc u2 u1),
      -((3 * p.2.2 * p.2.2 / dd p.2.2 p.2.1 p.1 ^ 5 - 1 / dd p.2.2 p.2.1 p.1 ^ 3)
        + (3 * p.2.1 * p.2.1 / dd p.2.2 p.2.1 p.1 ^ 5 - 1 / dd p.2.2 p.2.1 p.1 ^ 3)) := by
    refine MeasureTheory.setIntegral_congr_fun
      (measurableSet_Ioc.prod (measurableSet_Ioc.prod measurableSet_Ioc)) fun p hp' => ?_
    have h := hp p (Set.prod_mono Set.Ioc_subset_Icc_self
        (Set.prod_mono Set.Ioc_subset_Icc_self Set.Ioc_subset_Icc_self) hp')
    have hd := dd_pos h
    have hsq : dd p.2.2 p.2.1 p.1 ^ 2 = p.2.2 ^ 2 + p.2.1 ^ 2 + p.1 ^ 2 := Real.sq_sqrt h.le
    generalize dd p.2.2 p.2.1 p.1 = d at hd hsq
    field_simp
    linear_combination -3 * hsq
  rw [hc, MeasureTheory.integral_neg, hsum, ex, ey]
  ring

/-! ### The field of a cell -/

theorem adj_eq {u r : ℝ} (h : tol ≤ |u|) : adj u r = u := if_neg (not_lt.2 h)

/-- The receiver keeps a distance `tol` from the planes of the faces of the cell. -/
def Clear (x c h : Pt) : Prop :=
  ∀ k, tol ≤ |x k - (c k - h k / 2)| ∧ tol ≤ |x k - (c k + h k / 2)|

/-- The receiver is outside the cell. -/
def Outside (x c h : Pt) : Prop := ∃ k, x k < c k - h k / 2 ∨ c k + h k / 2 < x k

theorem tol_pos : 0 < tol := by unfold tol; norm_num

theorem ne_of_tol {u : ℝ} (h : tol ≤ |u|) : u ≠ 0 := by
  rintro rfl
  rw [abs_zero] at h
  exact absurd h (not_le.2 tol_pos)

theorem off_of_outside {x c h : Pt} (ho : Outside x c h) (hh : ∀ k, 0 ≤ h k) :
    Off (x 0 - (c 0 - h 0 / 2)) (x 0 - (c 0 + h 0 / 2)) (x 1 - (c 1 - h 1 / 2))
      (x 1 - (c 1 + h 1 / 2)) (x 2 - (c 2 - h 2 / 2)) (x 2 - (c 2 + h 2 / 2)) := by
  obtain ⟨k, hk⟩ := ho
  have key : 0 ∉ Set.uIcc (x k - (c k + h k / 2)) (x k - (c k - h k / 2)) := by
    have := hh k
    rw [Set.uIcc_of_le (by linarith), Set.mem_Icc]
    rintro ⟨a, b⟩
    rcases hk with hk | hk <;> linarith
  fin_cases k
  · exact .inl key
  · exact .inr (.inl key)
  · exact .inr (.inr key)

/-- The specification in differences. -/
theorem cellField_eq (o j : Fin 3) (x c h : Pt) :
    cellField o j x c h = 1 / (4 * Real.pi) *
      ∫ w in (x 2 - (c 2 + h 2 / 2))..(x 2 - (c 2 - h 2 / 2)),
        ∫ v in (x 1 - (c 1 + h 1 / 2))..(x 1 - (c 1 - h 1 / 2)),
          ∫ u in (x 0 - (c 0 + h 0 / 2))..(x 0 - (c 0 - h 0 / 2)),
            (3 * (![u, v, w] : Pt) o * (![u, v, w] : Pt) j / dd u v w ^ 5
              - (if o = j then 1 else 0) / dd u v w ^ 3) := by
  unfold cellField
  rw [intervalIntegral.integral_comp_sub_left fun w =>
    ∫ y in (c 1 - h 1 / 2)..(c 1 + h 1 / 2), ∫ t in (c 0 - h 0 / 2)..(c 0 + h 0 / 2),
      dipoleK o j ![x 0 - t, x 1 - y, w]]
  have e1 : ∀ w, ∫ y in (c 1 - h 1 / 2)..(c 1 + h 1 / 2),
      ∫ t in (c 0 - h 0 / 2)..(c 0 + h 0 / 2), dipoleK o j ![x 0 - t, x 1 - y, w] =
      ∫ v in (x 1 - (c 1 + h 1 / 2))..(x 1 - (c 1 - h 1 / 2)),
        ∫ u in (x 0 - (c 0 + h 0 / 2))..(x 0 - (c 0 - h 0 / 2)), dipoleK o j ![u, v, w] := by
    intro w
    rw [intervalIntegral.integral_comp_sub_left fun v =>
      ∫ t in (c 0 - h 0 / 2)..(c 0 + h 0 / 2), dipoleK o j ![x 0 - t, v, w]]
    refine intervalIntegral.integral_congr fun v _ => ?_
    exact intervalIntegral.integral_comp_sub_left (fun u => dipoleK o j ![u, v, w]) _
  simp only [e1]
  have e2 : ∀ u v w, dipoleK o j ![u, v, w] = 1 / (4 * Real.pi) *
      (3 * (![u, v, w] : Pt) o * (![u, v, w] : Pt) j / dd u v w ^ 5
              - (if o = j then 1 else 0) / dd u v w ^ 3) := by
    intro u v w
    simp [dipoleK, dd]
  simp only [e2, intervalIntegral.integral_const_mul]

/-- C141. **Transverse responses** are the field of the magnetized cell: a receiver outside the cell
and at least `tol` away from the planes of its faces sees in component `o` the integral over the cell
of the field of dipoles in direction `j`. -/
theorem C141_transverse (hmin : Pt) {x c h : Pt} (hc : Clear x c h) (ho : Outside x c h)
    (hh : ∀ k, 0 ≤ h k) {o j : Fin 3} (hoj : o ≠ j) :
    geom hmin x c h o j = cellField o j x c h := by
  have hoff := off_of_outside ho hh
  have n1 := fun k => ne_of_tol (hc k).1
  have n2 := fun k => ne_of_tol (hc k).2
  have exy := int_xy hoff (n1 0) (n2 0)
  have exz := int_xz hoff (n1 0) (n2 0)
  have eyz := int_yz hoff (n1 1) (n2 1)
  rw [cellField_eq]
  simp only [geom]
  have a1 := fun k r => adj_eq (r := r) (hc k).1
  have a2 := fun k r => adj_eq (r := r) (hc k).2
  simp only [a1, a2]
  fin_cases o <;> fin_cases j <;> first
    | exact absurd rfl hoj
    | (simp [kernel] at exy exz eyz ⊢
       first
       | (rw [exy]; simp only [box8, logW, Gxy]; ring)
       | (rw [exz]; simp only [box8, logV, Gxz]; ring)
       | (rw [eyz]; simp only [box8, logU, Gyz]; ring)
       | (simp only [mul_right_comm (3 : ℝ)] at exy ⊢
          rw [exy]; simp only [box8, logW, Gxy]; ring)
       | (simp only [mul_right_comm (3 : ℝ)] at exz ⊢
          rw [exz]; simp only [box8, logV, Gxz]; ring)
       | (simp only [mul_right_comm (3 : ℝ)] at eyz ⊢
          rw [eyz]; simp only [box8, logU, Gyz]; ring))

/-- The change of an angle by `tol`. -/
theorem atan_tol {a b : ℝ} (hb : tol < |b|) :
    |Real.arctan (a / (b + tol)) - Real.arctan (a / (b + 0))| ≤ tol / (2 * (|b| - tol)) := by
  have ht := tol_pos
  have hpos : 0 < |b| - tol := by linarith
  set s : Set ℝ := Set.Icc b (b + tol)
  have hs : ∀ t ∈ s, |b| - tol ≤ |t| := by
    intro t ht'
    have : |t - b| ≤ tol := by
      rw [abs_le]
      exact ⟨by linarith [ht'.1], by linarith [ht'.2]⟩
    have h2 := abs_sub_abs_le_abs_sub b t
    rw [abs_sub_comm] at h2
    linarith
  have hder : ∀ t ∈ s, HasDerivWithinAt (fun t => Real.arctan (a / t)) (-(a / (t ^ 2 + a ^ 2))) s t := by
    intro t ht'
    have h0 : t ≠ 0 := by
      rintro rfl
      have := hs 0 ht'
      rw [abs_zero] at this
      linarith
    have hd := ((hasDerivAt_const t a).div (hasDerivAt_id t) h0).arctan
    have ht2 : 0 < t ^ 2 := by positivity
    refine (hd.congr_deriv ?_).hasDerivWithinAt
    simp only [Pi.div_apply, id]
    have : 0 < t ^ 2 + a ^ 2 := by positivity
    field_simp
    ring
  have hbound : ∀ t ∈ s, ‖-(a / (t ^ 2 + a ^ 2))‖ ≤ 1 / (2 * (|b| - tol)) := by
    intro t ht'
    have h1 := hs t ht'
    have h2 : 0 < |t| := by linarith
    have h3 : 0 < t ^ 2 + a ^ 2 := by
      have : 0 < t ^ 2 := by rw [← sq_abs]; positivity
      positivity
    rw [norm_neg, Real.norm_eq_abs, abs_div, abs_of_pos h3, div_le_div_iff₀ h3 (by linarith)]
    have h4 : |a| * (2 * (|b| - tol)) ≤ |a| * (2 * |t|) :=
      mul_le_mul_of_nonneg_left (by linarith) (abs_nonneg _)
    have h5 := sq_nonneg (|a| - |t|)
    have h6 := sq_abs a
    have h7 := sq_abs t
    nlinarith
  have := (convex_Icc b (b + tol)).norm_image_sub_le_of_norm_hasDerivWithin_le hder hbound
    (Set.left_mem_Icc.2 (by linarith)) (Set.right_mem_Icc.2 (by linarith))
  rw [add_zero]
  refine le_trans this (le_of_eq ?_)
  rw [Real.norm_eq_abs, add_sub_cancel_left, abs_of_pos ht]
  field_simp

theorem box8_close {g g' : ℝ → ℝ → ℝ → ℝ} {e : ℝ}
    (h : ∀ u v w, (u = u1 ∨ u = u2) → (v = v1 ∨ v = v2) → (w = w1 ∨ w = w2) →
      |g u v w - g' u v w| ≤ e) :
    |box8 g u1 u2 v1 v2 w1 w2 - box8 g' u1 u2 v1 v2 w1 w2| ≤ 8 * e := by
  have h111 := abs_le.1 (h u1 v1 w1 (.inl rfl) (.inl rfl) (.inl rfl))
  have h211 := abs_le.1 (h u2 v1 w1 (.inr rfl) (.inl rfl) (.inl rfl))
  have h221 := abs_le.1 (h u2 v2 w1 (.inr rfl) (.inr rfl) (.inl rfl))
  have h121 := abs_le.1 (h u1 v2 w1 (.inl rfl) (.inr rfl) (.inl rfl))
  have h112 := abs_le.1 (h u1 v1 w2 (.inl rfl) (.inl rfl) (.inr rfl))
  have h212 := abs_le.1 (h u2 v1 w2 (.inr rfl) (.inl rfl) (.inr rfl))
  have h222 := abs_le.1 (h u2 v2 w2 (.inr rfl) (.inr rfl) (.inr rfl))
  have h122 := abs_le.1 (h u1 v2 w2 (.inl rfl) (.inr rfl) (.inr rfl))
  rw [abs_le]
  simp only [box8]
  constructor <;> linarith [h111.1, h111.2, h211.1, h211.2, h221.1, h221.2, h121.1, h121.2, h112.1,
    h112.2, h212.1, h212.2, h222.1, h222.2, h122.1, h122.2]

theorem sq_le_mul_dd (u v w : ℝ) : u ^ 2 ≤ |u| * dd u v w ∧ v ^ 2 ≤ |v| * dd u v w := by
  constructor
  · have : |u| ≤ dd u v w := Real.abs_le_sqrt (by nlinarith [sq_nonneg v, sq_nonneg w])
    rw [← sq_abs, sq]
    exact mul_le_mul_of_nonneg_left this (abs_nonneg _)
  · have : |v| ≤ dd u v w := Real.abs_le_sqrt (by nlinarith [sq_nonneg u, sq_nonneg w])
    rw [← sq_abs, sq]
    exact mul_le_mul_of_nonneg_left this (abs_nonneg _)

theorem atanU_tol {s u v w : ℝ} (hs : tol < s) (hu : s ≤ u ^ 2) :
    |atanU tol u v w - atanU 0 u v w| ≤ tol / (2 * (s - tol)) := by
  have h1 : s ≤ |u * dd u v w| := by
    rw [abs_mul, abs_of_nonneg (show 0 ≤ dd u v w from Real.sqrt_nonneg _)]
    exact hu.trans (sq_le_mul_dd u v w).1
  refine (atan_tol (a := v * w) (lt_of_lt_of_le hs h1)).trans ?_
  apply div_le_div_of_nonneg_left tol_pos.le (by linarith) (by linarith)

theorem atanV_tol {s u v w : ℝ} (hs : tol < s) (hv : s ≤ v ^ 2) :
    |atanV tol u v w - atanV 0 u v w| ≤ tol / (2 * (s - tol)) := by
  have h1 : s ≤ |v * dd u v w| := by
    rw [abs_mul, abs_of_nonneg (show 0 ≤ dd u v w from Real.sqrt_nonneg _)]
    exact hv.trans (sq_le_mul_dd u v w).2
  refine (atan_tol (a := u * w) (lt_of_lt_of_le hs h1)).trans ?_
  apply div_le_div_of_nonneg_left tol_pos.le (by linarith) (by linarith)

/-- C141. **Axial responses** are the field of the magnetized cell up to the tolerance in the
denominators: a receiver outside the cell and at least `delta` away from the planes of its faces sees
the integral up to `2 tol / (pi (delta ^ 2 - tol))`. -/
theorem C141_axial (hmin : Pt) {x c h : Pt} {delta : ℝ} (hd : tol ≤ delta) (hd2 : tol < delta ^ 2)
    (hc : ∀ k, delta ≤ |x k - (c k - h k / 2)| ∧ delta ≤ |x k - (c k + h k / 2)|)
    (ho : Outside x c h) (hh : ∀ k, 0 ≤ h k) (o : Fin 3) :
    |geom hmin x c h o o - cellField o o x c h| ≤ 2 * tol / (Real.pi * (delta ^ 2 - tol)) := by
  have hoff := off_of_outside ho hh
  have hc' : Clear x c h := fun k => ⟨hd.trans (hc k).1, hd.trans (hc k).2⟩
  have n1 := fun k => ne_of_tol (hc' k).1
  have n2 := fun k => ne_of_tol (hc' k).2
  have hd0 : 0 ≤ delta := tol_pos.le.trans hd
  have q1 : ∀ k, delta ^ 2 ≤ (x k - (c k - h k / 2)) ^ 2 := fun k => by
    rw [← sq_abs (x k - _)]; exact pow_le_pow_left₀ hd0 (hc k).1 2
  have q2 : ∀ k, delta ^ 2 ≤ (x k - (c k + h k / 2)) ^ 2 := fun k => by
    rw [← sq_abs (x k - _)]; exact pow_le_pow_left₀ hd0 (hc k).2 2
  have exx := int_xx hoff (n1 0) (n2 0)
  have eyy := int_yy hoff (n1 1) (n2 1)
  have ezz := int_zz (by linarith [hh 0]) (by linarith [hh 1]) (by linarith [hh 2]) hoff
    (n1 0) (n2 0) (n1 1) (n2 1)
  have cu := box8_close (u1 := x 0 - (c 0 - h 0 / 2)) (u2 := x 0 - (c 0 + h 0 / 2))
    (v1 := x 1 - (c 1 - h 1 / 2)) (v2 := x 1 - (c 1 + h 1 / 2))
    (w1 := x 2 - (c 2 - h 2 / 2)) (w2 := x 2 - (c 2 + h 2 / 2))
    (g := atanU tol) (g' := atanU 0) (e := tol / (2 * (delta ^ 2 - tol)))
    (by
      rintro u v w (rfl | rfl) _ _
      · exact atanU_tol hd2 (q1 0)
      · exact atanU_tol hd2 (q2 0))
  have cv := box8_close (u1 := x 0 - (c 0 - h 0 / 2)) (u2 := x 0 - (c 0 + h 0 / 2))
    (v1 := x 1 - (c 1 - h 1 / 2)) (v2 := x 1 - (c 1 + h 1 / 2))
    (w1 := x 2 - (c 2 - h 2 / 2)) (w2 := x 2 - (c 2 + h 2 / 2))
    (g := atanV tol) (g' := atanV 0) (e := tol / (2 * (delta ^ 2 - tol)))
    (by
      rintro u v w _ (rfl | rfl) _
      · exact atanV_tol hd2 (q1 1)
      · exact atanV_tol hd2 (q2 1))
  have hpi := Real.pi_pos
  have hgap : 0 < delta ^ 2 - tol := by linarith
  have ht := tol_pos
  have hE : 0 ≤ tol / (2 * (delta ^ 2 - tol)) := by positivity
  have bound : ∀ y : ℝ, |y| ≤ 16 * (tol / (2 * (delta ^ 2 - tol))) →
      |1 / (4 * Real.pi) * y| ≤ 2 * tol / (Real.pi * (delta ^ 2 - tol)) := by
    intro y hy
    rw [abs_mul, abs_of_pos (by positivity)]
    refine (mul_le_mul_of_nonneg_left hy (by positivity)).trans (le_of_eq ?_)
    field_simp
    ring
  rw [cellField_eq]
  simp only [geom]
  have a1 := fun k r => adj_eq (r := r) (hc' k).1
  have a2 := fun k r => adj_eq (r := r) (hc' k).2
  simp only [a1, a2]
  have gx : Gxx (x 0 - (c 0 - h 0 / 2)) (x 0 - (c 0 + h 0 / 2)) (x 1 - (c 1 - h 1 / 2))
      (x 1 - (c 1 + h 1 / 2)) (x 2 - (c 2 - h 2 / 2)) (x 2 - (c 2 + h 2 / 2)) =
      box8 (atanU tol) (x 0 - (c 0 - h 0 / 2)) (x 0 - (c 0 + h 0 / 2)) (x 1 - (c 1 - h 1 / 2))
      (x 1 - (c 1 + h 1 / 2)) (x 2 - (c 2 - h 2 / 2)) (x 2 - (c 2 + h 2 / 2)) := rfl
  have gy : Gyy (x 0 - (c 0 - h 0 / 2)) (x 0 - (c 0 + h 0 / 2)) (x 1 - (c 1 - h 1 / 2))
      (x 1 - (c 1 + h 1 / 2)) (x 2 - (c 2 - h 2 / 2)) (x 2 - (c 2 + h 2 / 2)) =
      box8 (atanV tol) (x 0 - (c 0 - h 0 / 2)) (x 0 - (c 0 + h 0 / 2)) (x 1 - (c 1 - h 1 / 2))
      (x 1 - (c 1 + h 1 / 2)) (x 2 - (c 2 - h 2 / 2)) (x 2 - (c 2 + h 2 / 2)) := rfl
  rw [abs_le] at cu cv
  have key : ∀ A B : ℝ, -(1 / (4 * Real.pi)) * A - 1 / (4 * Real.pi) * B =
      1 / (4 * Real.pi) * (-A - B) := fun A B => by ring
  fin_cases o
  · simp only [kernel, Fin.zero_eta, Matrix.cons_val_zero, if_true]
    rw [exx, gx, key]
    apply bound
    rw [abs_le]
    constructor <;> linarith [cu.1, cu.2]
  · simp only [kernel, Fin.mk_one, Matrix.cons_val_one, Matrix.cons_val_zero, if_true]
    rw [eyy, gy, key]
    apply bound
    rw [abs_le]
    constructor <;> linarith [cv.1, cv.2]
  · simp only [kernel, Fin.reduceFinMk, Matrix.cons_val, if_true]
    rw [ezz, Gzz_eq, gx, gy, key]
    apply bound
    rw [abs_le]
    constructor <;> linarith [cu.1, cu.2, cv.1, cv.2]

/-- A receiver one metre above a cell of one metre. -/
example (hmin : Pt) : geom hmin ![0.1, 0.2, 2] ![0, 0, 0] ![1, 1, 1] 0 2 =
    cellField 0 2 ![0.1, 0.2, 2] ![0, 0, 0] ![1, 1, 1] := by
  apply C141_transverse
  · intro k
    fin_cases k <;> norm_num [tol, abs_of_pos, abs_of_neg]
  · exact ⟨2, .inr (by simp; norm_num)⟩
  · intro k
    fin_cases k <;> simp
  · decide

example (hmin : Pt) (o : Fin 3) : |geom hmin ![0.1, 0.2, 2] ![0, 0, 0] ![1, 1, 1] o o -
    cellField o o ![0.1, 0.2, 2] ![0, 0, 0] ![1, 1, 1]| ≤
      2 * tol / (Real.pi * ((0.3 : ℝ) ^ 2 - tol)) := by
  apply C141_axial
  · norm_num [tol]
  · norm_num [tol]
  · intro k
    fin_cases k <;> norm_num [abs_of_pos, abs_of_neg]
  · exact ⟨2, .inr (by simp; norm_num)⟩
  · intro k
    fin_cases k <;> simp

/-- C141, as the code has it: **inside a cell** the axes are not treated alike. At the centre of a
cube the response in `x` and `y` is negative, as for the field H, and in `z` positive, as for B. -/
theorem C141_violated_inside (hmin x : Pt) {a : ℝ} (ha : 1 ≤ a) :
    geom hmin x x (fun _ => 2 * a) 0 0 < 0 ∧ geom hmin x x (fun _ => 2 * a) 1 1 < 0 ∧
    0 < geom hmin x x (fun _ => 2 * a) 2 2 := by
  have hl : ∀ k r, adj (x k - (x k - 2 * a / 2)) r = a := by
    intro k r
    have : x k - (x k - 2 * a / 2) = a := by ring
    rw [this, adj_eq]
    rw [abs_of_pos (by linarith)]
    unfold tol
    linarith
  have hr : ∀ k r, adj (x k - (x k + 2 * a / 2)) r = -a := by
    intro k r
    have : x k - (x k + 2 * a / 2) = -a := by ring
    rw [this, adj_eq]
    rw [abs_neg, abs_of_pos (by linarith)]
    unfold tol
    linarith
  have hdd : ∀ s t r : ℝ, s ^ 2 = a ^ 2 → t ^ 2 = a ^ 2 → r ^ 2 = a ^ 2 →
      dd s t r = Real.sqrt (3 * a ^ 2) := by
    intro s t r h1 h2 h3
    unfold dd
    rw [h1, h2, h3]
    congr 1
    ring
  have hn : (-a) ^ 2 = a ^ 2 := by ring
  have hd : a ≤ Real.sqrt (3 * a ^ 2) := Real.le_sqrt_of_sq_le (by nlinarith)
  have hp : 0 < a * Real.sqrt (3 * a ^ 2) + tol := by
    have := tol_pos
    have : 0 < a * Real.sqrt (3 * a ^ 2) := by
      apply mul_pos <;> linarith
    linarith
  have hm : -a * Real.sqrt (3 * a ^ 2) + tol < 0 := by
    have h1 : 1 ≤ a * Real.sqrt (3 * a ^ 2) := by nlinarith
    unfold tol
    linarith
  have haa : 0 < a * a := by nlinarith
  have p1 : 0 < Real.arctan (a * a / (a * Real.sqrt (3 * a ^ 2) + tol)) :=
    Real.arctan_pos.2 (div_pos haa hp)
  have p2 : Real.arctan (-(a * a) / (a * Real.sqrt (3 * a ^ 2) + tol)) < 0 :=
    Real.arctan_lt_zero.2 (div_neg_of_neg_of_pos (by linarith) hp)
  have p3 : Real.arctan (a * a / (-a * Real.sqrt (3 * a ^ 2) + tol)) < 0 :=
    Real.arctan_lt_zero.2 (div_neg_of_pos_of_neg haa hm)
  have p4 : 0 < Real.arctan (-(a * a) / (-a * Real.sqrt (3 * a ^ 2) + tol)) :=
    Real.arctan_pos.2 (div_pos_of_neg_of_neg (by linarith) hm)
  have hpi : 0 < 1 / (4 * Real.pi) := by positivity
  have g0 : 0 < Gxx a (-a) a (-a) a (-a) := by
    simp only [Gxx, hdd a a a rfl rfl rfl, hdd (-a) a a hn rfl rfl, hdd (-a) (-a) a hn hn rfl,
      hdd a (-a) a rfl hn rfl, hdd a (-a) (-a) rfl hn hn, hdd a a (-a) rfl rfl hn,
      hdd (-a) a (-a) hn rfl hn, hdd (-a) (-a) (-a) hn hn hn, neg_mul_neg]
    have e1 : -a * a = -(a * a) := by ring
    have e2 : a * -a = -(a * a) := by ring
    rw [e1, e2]
    linarith
  have g1 : 0 < Gyy a (-a) a (-a) a (-a) := by
    simp only [Gyy, hdd a a a rfl rfl rfl, hdd (-a) a a hn rfl rfl, hdd (-a) (-a) a hn hn rfl,
      hdd a (-a) a rfl hn rfl, hdd a (-a) (-a) rfl hn hn, hdd a a (-a) rfl rfl hn,
      hdd (-a) a (-a) hn rfl hn, hdd (-a) (-a) (-a) hn hn hn, neg_mul_neg]
    have e1 : -a * a = -(a * a) := by ring
    have e2 : a * -a = -(a * a) := by ring
    rw [e1, e2]
    linarith
  simp only [geom, hl, hr, kernel, Matrix.cons_val_zero, Matrix.cons_val_one, Matrix.cons_val]
  rw [Gzz_eq]
  refine ⟨?_, ?_, ?_⟩
  · nlinarith
  · nlinarith
  · nlinarith

/-! ### Refinement -/

theorem box8_w (g : ℝ → ℝ → ℝ → ℝ) (W : ℕ → ℝ) (n : ℕ) :
    ∑ k ∈ Finset.range n, box8 g u1 u2 v1 v2 (W k) (W (k + 1)) = box8 g u1 u2 v1 v2 (W 0) (W n) := by
  induction n with
  | zero => simp only [box8, Finset.range_zero, Finset.sum_empty]; ring
  | succ n ih => rw [Finset.sum_range_succ, ih]; simp only [box8]; ring

theorem box8_v (g : ℝ → ℝ → ℝ → ℝ) (V : ℕ → ℝ) (n : ℕ) :
    ∑ k ∈ Finset.range n, box8 g u1 u2 (V k) (V (k + 1)) w1 w2 = box8 g u1 u2 (V 0) (V n) w1 w2 := by
  induction n with
  | zero => simp only [box8, Finset.range_zero, Finset.sum_empty]; ring
  | succ n ih => rw [Finset.sum_range_succ, ih]; simp only [box8]; ring

theorem box8_u (g : ℝ → ℝ → ℝ → ℝ) (U : ℕ → ℝ) (n : ℕ) :
    ∑ k ∈ Finset.range n, box8 g (U k) (U (k + 1)) v1 v2 w1 w2 = box8 g (U 0) (U n) v1 v2 w1 w2 := by
  induction n with
  | zero => simp only [box8, Finset.range_zero, Finset.sum_empty]; ring
  | succ n ih => rw [Finset.sum_range_succ, ih]; simp only [box8]; ring

theorem kernel_box (o j : Fin 3) : ∃ g : ℝ → ℝ → ℝ → ℝ, ∀ u1 u2 v1 v2 w1 w2,
    kernel o j u1 u2 v1 v2 w1 w2 = box8 g u1 u2 v1 v2 w1 w2 := by
  fin_cases o <;> fin_cases j
  · exact ⟨atanU tol, fun _ _ _ _ _ _ => rfl⟩
  · exact ⟨logW, fun _ _ _ _ _ _ => rfl⟩
  · exact ⟨logV, fun _ _ _ _ _ _ => rfl⟩
  · exact ⟨logW, fun _ _ _ _ _ _ => rfl⟩
  · exact ⟨atanV tol, fun _ _ _ _ _ _ => rfl⟩
  · exact ⟨logU, fun _ _ _ _ _ _ => rfl⟩
  · exact ⟨logV, fun _ _ _ _ _ _ => rfl⟩
  · exact ⟨logU, fun _ _ _ _ _ _ => rfl⟩
  · refine ⟨fun u v w => -atanU tol u v w - atanV tol u v w, fun _ _ _ _ _ _ => ?_⟩
    change Gzz _ _ _ _ _ _ = _
    simp only [Gzz, box8, atanU, atanV]
    ring

/-- C141. **Refinement does not change what the inducing field does not**: dividing a cell into `n`
parts in each direction leaves its column, for a uniform inducing field, if the receiver is not
within `tol` of the planes between the parts. -/
theorem C141_refine {n : ℕ} (hn : 0 < n) (hmin hmin' : Pt) {x c h : Pt} (o : Fin 3) {H0 : Pt → Pt}
    {H : Pt} (hH : ∀ y, H0 y = H)
    (hc : ∀ k, ∀ i : ℕ, i ≤ n → tol ≤ |x k - (c k - h k / 2 + i * (h k / n))|) :
    refined n hmin' x c h o H0 = entry hmin x c h o H0 := by
  have hn' : (n : ℝ) ≠ 0 := by positivity
  have key : ∀ j, ∑ i1 ∈ Finset.range n, ∑ i2 ∈ Finset.range n, ∑ i3 ∈ Finset.range n,
      geom hmin' x (subCentre n c h ![i1, i2, i3]) (fun k => h k / n) o j = geom hmin x c h o j := by
    intro j
    obtain ⟨g, hg⟩ := kernel_box o j
    let P : Fin 3 → ℕ → ℝ := fun k i => x k - (c k - h k / 2 + i * (h k / n))
    have lo : ∀ k (i : ℕ) r, i < n →
        adj (x k - ((c k - h k / 2) + h k / n * ((i : ℝ) + 1 - 0.5) - h k / n / 2)) r = P k i := by
      intro k i r hi
      have e : x k - ((c k - h k / 2) + h k / n * ((i : ℝ) + 1 - 0.5) - h k / n / 2) = P k i := by
        simp only [P]; ring
      rw [e]
      exact adj_eq (hc k i hi.le)
    have hi' : ∀ k (i : ℕ) r, i < n →
        adj (x k - ((c k - h k / 2) + h k / n * ((i : ℝ) + 1 - 0.5) + h k / n / 2)) r =
          P k (i + 1) := by
      intro k i r hi
      have e : x k - ((c k - h k / 2) + h k / n * ((i : ℝ) + 1 - 0.5) + h k / n / 2) =
          P k (i + 1) := by
        simp only [P]; push_cast; ring
      rw [e]
      exact adj_eq (hc k (i + 1) hi)
    have L : ∀ k r, adj (x k - (c k - h k / 2)) r = P k 0 := by
      intro k r
      have e : x k - (c k - h k / 2) = P k 0 := by simp [P]
      rw [e]
      exact adj_eq (hc k 0 (Nat.zero_le _))
    have R : ∀ k r, adj (x k - (c k + h k / 2)) r = P k n := by
      intro k r
      have e : x k - (c k + h k / 2) = P k n := by
        simp only [P]
        field_simp
        ring
      rw [e]
      exact adj_eq (hc k n le_rfl)
    have step : ∀ i1 ∈ Finset.range n, ∀ i2 ∈ Finset.range n, ∀ i3 ∈ Finset.range n,
        geom hmin' x (subCentre n c h ![i1, i2, i3]) (fun k => h k / n) o j =
        -(1 / (4 * Real.pi)) * box8 g (P 0 i1) (P 0 (i1 + 1)) (P 1 i2) (P 1 (i2 + 1)) (P 2 i3)
          (P 2 (i3 + 1)) := by
      intro i1 h1 i2 h2 i3 h3
      rw [Finset.mem_range] at h1 h2 h3
      simp only [geom, subCentre, Matrix.cons_val_zero, Matrix.cons_val_one, Matrix.cons_val]
      rw [hg, lo 0 i1 _ h1, lo 1 i2 _ h2, lo 2 i3 _ h3, hi' 0 i1 _ h1, hi' 1 i2 _ h2, hi' 2 i3 _ h3]
    rw [Finset.sum_congr rfl fun i1 h1 => Finset.sum_congr rfl fun i2 h2 =>
      Finset.sum_congr rfl fun i3 h3 => step i1 h1 i2 h2 i3 h3]
    simp only [← Finset.mul_sum, box8_w, box8_v, box8_u, geom, hg, L, R]
  simp only [refined, entry, hH, Finset.sum_add_distrib, ← Finset.sum_mul, key]

/-- Two parts in each direction. -/
example (hmin hmin' H : Pt) : refined 2 hmin' ![0.1, 0.2, 2] ![0, 0, 0] ![1, 1, 1] 2 (fun _ => H) =
    entry hmin ![0.1, 0.2, 2] ![0, 0, 0] ![1, 1, 1] 2 (fun _ => H) := by
  apply C141_refine (by norm_num) _ _ _ (H := H) (fun _ => rfl)
  intro k i hi
  interval_cases i <;> fin_cases k <;> norm_num [tol, abs_of_pos, abs_of_neg]

/-! ### Loops -/

/-- The moments of the rules. -/
theorem moments : ∀ order ∈ Finset.Icc 1 7, ∀ k ∈ Finset.range (2 * order),
    |((rule order).map fun a => a.1 * a.2 ^ k).sum - (1 - (-1) ^ (k + 1)) / ((k : ℚ) + 1)| ≤
      1.2e-6 := by
  decide +kernel

/-- C141. **Quadrature**: a rule of order `n` integrates every polynomial of degree less than `2 n`
over `[-1, 1]`, up to the rounding of the tables. -/
theorem C141_quadrature {order : ℕ} (h : order ∈ Finset.Icc 1 7) (p : Polynomial ℝ)
    (hp : p.natDegree < 2 * order) :
    |((rule order).map fun a => (a.1 : ℝ) * p.eval (a.2 : ℝ)).sum - ∫ t in (-1 : ℝ)..1, p.eval t| ≤
      1.2e-6 * ∑ k ∈ Finset.range (2 * order), |p.coeff k| := by
  have hev : ∀ t, p.eval t = ∑ k ∈ Finset.range (2 * order), p.coeff k * t ^ k := fun t =>
    Polynomial.eval_eq_sum_range' hp t
  have hint : ∫ t in (-1 : ℝ)..1, p.eval t =
      ∑ k ∈ Finset.range (2 * order), p.coeff k * ((1 - (-1) ^ (k + 1)) / ((k : ℝ) + 1)) := by
    simp only [hev]
    rw [intervalIntegral.integral_finsetSum fun k _ => by
      apply Continuous.intervalIntegrable; fun_prop]
    refine Finset.sum_congr rfl fun k _ => ?_
    rw [intervalIntegral.integral_const_mul, integral_pow, one_pow]
  have hsum : ((rule order).map fun a => (a.1 : ℝ) * p.eval (a.2 : ℝ)).sum =
      ∑ k ∈ Finset.range (2 * order),
        p.coeff k * (((rule order).map fun a => a.1 * a.2 ^ k).sum : ℚ) := by
    simp only [hev]
    generalize rule order = l
    induction l with
    | nil => simp
    | cons a l ih =>
      rw [List.map_cons, List.sum_cons, ih, Finset.mul_sum, ← Finset.sum_add_distrib]
      refine Finset.sum_congr rfl fun k _ => ?_
      rw [List.map_cons, List.sum_cons]
      push_cast
      ring
  rw [hsum, hint, ← Finset.sum_sub_distrib, Finset.mul_sum]
  refine (Finset.abs_sum_le_sum_abs _ _).trans (Finset.sum_le_sum fun k hk => ?_)
  rw [← mul_sub, abs_mul, mul_comm]
  apply mul_le_mul_of_nonneg_right _ (abs_nonneg _)
  have := moments order h k hk
  generalize ((rule order).map fun a => a.1 * a.2 ^ k).sum = M at this ⊢
  have h2 := (Rat.cast_le (K := ℝ)).2 this
  push_cast at h2
  exact h2

/-- C141. **Loops** sum what points in the plane of the loop see; a uniform field counts with the
area and the turns, up to the rounding of the tables. -/
theorem C141_loop_area {order : ℕ} (h : order ∈ Finset.Icc 1 7) (width turns : ℝ) (o : Fin 3) (x : Pt)
    (F : Pt → ℝ) (hF : ∀ s1 s2, F (shift o x s1 s2) = F x) :
    |overLoop order width turns o x F - turns * width ^ 2 * F x| ≤
      1.3e-6 * |turns * width ^ 2 * F x| := by
  have e : overLoop order width turns o x F =
      turns * (width / 2) ^ 2 * F x * (((rule order).map fun a => a.1).sum : ℚ) ^ 2 := by
    simp only [overLoop, hF]
    generalize rule order = l
    have inner : ∀ (w : ℚ) (l : List (ℚ × ℚ)), (l.map fun b : ℚ × ℚ =>
        turns * (width / 2) ^ 2 * ((w : ℝ) * (b.1 : ℝ)) * F x).sum =
        turns * (width / 2) ^ 2 * F x * w * ((l.map fun a => a.1).sum : ℚ) := by
      intro w l
      induction l with
      | nil => simp
      | cons b l ih => rw [List.map_cons, List.sum_cons, ih, List.map_cons, List.sum_cons]; push_cast; ring
    simp only [inner]
    have outer : ∀ (S : ℝ) (l : List (ℚ × ℚ)), (l.map fun a : ℚ × ℚ =>
        turns * (width / 2) ^ 2 * F x * (a.1 : ℝ) * S).sum =
        turns * (width / 2) ^ 2 * F x * ((l.map fun a => a.1).sum : ℚ) * S := by
      intro S l
      induction l with
      | nil => simp
      | cons b l ih => rw [List.map_cons, List.sum_cons, ih, List.map_cons, List.sum_cons]; push_cast; ring
    rw [outer]
    ring
  have hm : ∀ order ∈ Finset.Icc 1 7, |((rule order).map fun a => a.1).sum ^ 2 / 4 - 1| ≤ 1.3e-6 := by
    decide +kernel
  have hm' := hm order h
  rw [e]
  have : turns * (width / 2) ^ 2 * F x * (((rule order).map fun a => a.1).sum : ℚ) ^ 2
      - turns * width ^ 2 * F x = (((((rule order).map fun a => a.1).sum : ℚ) : ℝ) ^ 2 / 4 - 1)
        * (turns * width ^ 2 * F x) := by ring
  rw [this, abs_mul]
  generalize ((rule order).map fun a => a.1).sum = M at hm' ⊢
  have h2 := (Rat.cast_le (K := ℝ)).2 hm'
  push_cast at h2
  exact mul_le_mul_of_nonneg_right h2 (abs_nonneg _)

/-- C141. **Loops**: an entry of a loop is the weighted sum of the entries of points that keep the
coordinate along the axis of the loop and move along the two other axes. -/
theorem C141_loop_points (order : ℕ) (width turns : ℝ) (hmin x c h : Pt) (o j : Fin 3) :
    loopGeom order width turns hmin x c h o j =
      ((rule order).map fun a => ((rule order).map fun b =>
        turns * (width * width / 4) * ((a.1 : ℝ) * (b.1 : ℝ)) *
          geom hmin (Fin.insertNth (α := fun _ => ℝ) o (x o) fun k : Fin 2 => x (o.succAbove k) +
            width / 2 * ![(a.2 : ℝ), (b.2 : ℝ)] k) c h o j).sum).sum := by
  have e : ∀ s1 s2 : ℝ, shift o x (0.5 * width * s1) (0.5 * width * s2) =
      Fin.insertNth (α := fun _ => ℝ) o (x o) fun k : Fin 2 => x (o.succAbove k) + width / 2 * ![s1, s2] k := by
    intro s1 s2
    funext i
    fin_cases o <;> fin_cases i <;>
      simp [shift, Fin.insertNth, Fin.succAboveCases, Fin.succAbove] <;> norm_num <;> ring_nf <;> simp
  simp only [loopGeom, overLoop, e]
  congr 2
  funext a
  congr 2
  funext b
  ring

/-- A vertical loop in a field that varies along its axis only. -/
example : |overLoop 3 2 5 0 ![4, 0, 0] (fun y => y 0) - 80| ≤ 1.04e-4 := by
  have := C141_loop_area (order := 3) (by decide) 2 5 0 ![4, 0, 0] (fun y => y 0)
    (fun s1 s2 => by simp [shift])
  simp only [Matrix.cons_val_zero] at this
  norm_num at this ⊢
  exact this

example : |((rule 4).map fun a => (a.1 : ℝ) * (Polynomial.X ^ 6 : Polynomial ℝ).eval (a.2 : ℝ)).sum
    - ∫ t in (-1 : ℝ)..1, (Polynomial.X ^ 6 : Polynomial ℝ).eval t| ≤
      1.2e-6 * ∑ k ∈ Finset.range (2 * 4), |(Polynomial.X ^ 6 : Polynomial ℝ).coeff k| :=
  C141_quadrature (by decide) _ (by rw [Polynomial.natDegree_X_pow]; norm_num)

end Props
end Verif.VRM
