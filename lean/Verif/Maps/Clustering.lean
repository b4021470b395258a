import Verif.Basic
import Verif.Jacobian
import Verif.Reg.Calculus
import Mathlib.Analysis.Calculus.Deriv.Mul
import Mathlib.Analysis.Calculus.Deriv.Add
import Verif.Maps.Parametric
import Verif.Reg.PGI

/-!
C135: `PolynomialPetroClusterMap` (`simpeg/maps/_clustering.py`), the polynomial relation between two
physical properties of a rock unit. Polynomials are lists of coefficients, lowest degree first.
-/

noncomputable section
namespace Verif.Maps.Clustering
open Matrix

/-- `numpy.polynomial.Polynomial(coef)(x)`. -/
def peval : List ℝ → ℝ → ℝ
  | [], _ => 0
  | a :: cs, x => a + x * peval cs x

/-- Coefficients times their degree, for degrees from `k`. -/
def scaleFrom : ℕ → List ℝ → List ℝ
  | _, [] => []
  | k, a :: cs => (k : ℝ) * a :: scaleFrom (k + 1) cs

/-- `Polynomial.deriv(m=1)`. -/
def pderiv : List ℝ → List ℝ
  | [] => []
  | _ :: cs => scaleFrom 1 cs

/-- A `PolynomialPetroClusterMap` (`simpeg/maps/_clustering.py` 30-64). -/
structure Poly where
  xx : List ℝ := [0, 1]
  xy : List ℝ := [0]
  yx : List ℝ := [0]
  yy : List ℝ := [0, 1]

/-- `_transform`: rows are cells, the two columns the properties
(`simpeg/maps/_clustering.py` 106-110). -/
def Poly.transform {n : ℕ} (p : Poly) (m : Fin n → Fin 2 → ℝ) : Fin n → Fin 2 → ℝ :=
  fun c => ![peval p.xx (m c 0) + peval p.xy (m c 1), peval p.yx (m c 0) + peval p.yy (m c 1)]

/-- `_derivmatrix`: from the first row only (`simpeg/maps/_clustering.py` 127-139). -/
def Poly.derivmatrix {n : ℕ} (p : Poly) (m : Fin (n + 1) → Fin 2 → ℝ) : Matrix (Fin 2) (Fin 2) ℝ :=
  !![peval (pderiv p.xx) (m 0 0), peval (pderiv p.yx) (m 0 0);
     peval (pderiv p.xy) (m 0 1), peval (pderiv p.yy) (m 0 1)]

/-- `deriv(m)` of one cell (`simpeg/maps/_clustering.py` 141-145). -/
def Poly.deriv (p : Poly) (m : Fin 2 → ℝ) : Matrix (Fin 2) (Fin 2) ℝ :=
  p.derivmatrix (n := 0) fun _ => m

/-- `deriv(m, v)` of one cell (`simpeg/maps/_clustering.py` 146-148). -/
def Poly.derivv (p : Poly) (m v : Fin 2 → ℝ) : Fin 2 → ℝ := p.deriv m *ᵥ v

/-- The map of one cell, `cluster_mapping[k] * x.reshape(-1, 2)`. -/
def Poly.cell (p : Poly) (m : Fin 2 → ℝ) : Fin 2 → ℝ := p.transform (n := 1) (fun _ => m) 0

/-! ### Lemmas -/

theorem peval_scale (k : ℕ) (cs : List ℝ) (x : ℝ) :
    peval (scaleFrom (k + 1) cs) x = peval (scaleFrom k cs) x + peval cs x := by
  induction cs generalizing k with
  | nil => simp [scaleFrom, peval]
  | cons a cs ih =>
    simp only [scaleFrom, peval, ih (k + 1)]
    push_cast
    ring

theorem peval_scale_zero (cs : List ℝ) (x : ℝ) : peval (scaleFrom 0 cs) x = x * peval (pderiv cs) x := by
  cases cs <;> simp [scaleFrom, pderiv, peval]

theorem hasDerivAt_peval (cs : List ℝ) (x : ℝ) : HasDerivAt (peval cs) (peval (pderiv cs) x) x := by
  induction cs with
  | nil => exact hasDerivAt_const x 0
  | cons a cs ih =>
    have h := ((hasDerivAt_id x).mul ih).const_add a
    refine h.congr_deriv ?_
    simp only [pderiv, peval_scale 0, peval_scale_zero, id]
    ring

/-! ### C135 -/

/-- The map applies the polynomial relation to every cell on its own. -/
theorem C135_cells {n : ℕ} (p : Poly) (m : Fin n → Fin 2 → ℝ) (c : Fin n) :
    p.transform m c = p.cell (m c) := rfl

/-- By default the properties are not changed. -/
theorem C135_default {n : ℕ} (m : Fin n → Fin 2 → ℝ) : Poly.transform {} m = m := by
  funext c i
  fin_cases i <;> simp [Poly.transform, peval]

/-- The derivative of the map in a cell is the transpose of `deriv(m)`. What is missing: the map
convention asks for the Jacobian itself, see `C135_violated_deriv`. -/
theorem C135_deriv_partial (p : Poly) (m : Fin 2 → ℝ) : IsJacobian p.cell (p.deriv m)ᵀ m := by
  rw [isJacobian_iff]
  have h : ∀ (cs : List ℝ) (i : Fin 2), IsGradient (fun x : Fin 2 → ℝ => peval cs (x i)) _ m :=
    fun cs i => Verif.Maps.Parametric.Props.gComp (hasDerivAt_peval cs (m i))
      (Verif.Maps.Parametric.Props.gCoord i)
  intro i
  fin_cases i
  · refine Verif.Maps.Parametric.Props.gCongr
      (Verif.Maps.Parametric.Props.gAdd (h p.xx 0) (h p.xy 1)) ?_
    intro j
    fin_cases j <;> simp [Poly.deriv, Poly.derivmatrix]
  · refine Verif.Maps.Parametric.Props.gCongr
      (Verif.Maps.Parametric.Props.gAdd (h p.yx 0) (h p.yy 1)) ?_
    intro j
    fin_cases j <;> simp [Poly.deriv, Poly.derivmatrix]

/-- So `deriv(m, v)` is the derivative transposed times `v`, which is what the gradient of the
petrophysical smallness needs. -/
theorem C135_transpose (p : Poly) (m v : Fin 2 → ℝ) (J : Matrix (Fin 2) (Fin 2) ℝ)
    (hJ : IsJacobian p.cell J m) : p.derivv m v = Jᵀ *ᵥ v := by
  rw [IsJacobian.unique hJ (C135_deriv_partial p m), transpose_transpose]
  rfl

/-- Whenever the second property depends on the first and not the other way round with the same slope,
`deriv(m)` is not the Jacobian of the map. -/
theorem C135_violated_deriv (p : Poly) (m : Fin 2 → ℝ)
    (h : peval (pderiv p.yx) (m 0) ≠ peval (pderiv p.xy) (m 1)) : ¬ IsJacobian p.cell (p.deriv m) m := by
  intro hJ
  have e := IsJacobian.unique hJ (C135_deriv_partial p m)
  have e01 := congrFun (congrFun e 0) 1
  simp [Poly.deriv, Poly.derivmatrix] at e01
  exact h e01

/-- The derivative of several cells at once is that of the first cell, so not that of a cell `c` with
another slope. -/
theorem C135_violated_rows {n : ℕ} (p : Poly) (m : Fin (n + 1) → Fin 2 → ℝ) (c : Fin (n + 1))
    (h : peval (pderiv p.yx) (m c 0) ≠ peval (pderiv p.yx) (m 0 0)) :
    p.derivmatrix m = p.deriv (m 0) ∧ p.derivmatrix m ≠ p.deriv (m c) := by
  refine ⟨rfl, fun e => h ?_⟩
  have e01 := congrFun (congrFun e 0) 1
  simp [Poly.deriv, Poly.derivmatrix] at e01
  exact e01.symm

/-! ### Smallness with non-linear relationships -/

/-- `PGIsmallness.__call__` of one cell with a non-linear relationship, full covariances, identity maps
(`simpeg/regularization/pgi.py` 456-470, 484-492). -/
def nlValue (p : Poly) (P : Matrix (Fin 2) (Fin 2) ℝ) (w mref m : Fin 2 → ℝ) : ℝ :=
  let r0 := w * (p.cell m - mref)
  r0 ⬝ᵥ (P *ᵥ r0)

/-- `PGIsmallness.deriv` of the same cell: `dmmodel` is overwritten with the mapped values before the
derivative of the relationship is taken there (`simpeg/regularization/pgi.py` 542-552, 571-588, 598). -/
def nlDeriv (p : Poly) (P : Matrix (Fin 2) (Fin 2) ℝ) (w mref m : Fin 2 → ℝ) : Fin 2 → ℝ :=
  let dmmodel := p.cell m
  let r0 := w * (dmmodel - mref)
  let r := p.derivv dmmodel (P *ᵥ r0)
  (2 : ℝ) • (w * r)

/-- The exact gradient with one weight per cell. -/
theorem nlValue_gradient (p : Poly) (P : Matrix (Fin 2) (Fin 2) ℝ) (hP : Pᵀ = P) (t : ℝ)
    (mref m : Fin 2 → ℝ) :
    IsGradient (nlValue p P (fun _ => t) mref)
      ((2 : ℝ) • (fun i => t * p.derivv m (P *ᵥ ((fun _ => t) * (p.cell m - mref))) i)) m := by
  have h1 : IsJacobian (fun x => (fun _ => t) * (p.cell x - mref)) (t • (p.deriv m)ᵀ) m := by
    have h0 := ((C135_deriv_partial p m).sub (isJacobian_const mref m)).smul t
    rw [sub_zero] at h0
    refine h0.congr (Filter.Eventually.of_forall fun x => ?_)
    funext i
    simp
  have h2 := Verif.Reg.PGI.quad_gradient h1 P hP
  refine Verif.Maps.Parametric.Props.gCongr h2 ?_
  intro j
  rw [transpose_smul, transpose_transpose, Matrix.smul_mulVec]
  rfl

/-- For affine relationships `deriv` is the gradient. What is missing: relationships of higher degree,
see `C135_violated_gradient`. -/
theorem C135_gradient_partial (p : Poly) (P : Matrix (Fin 2) (Fin 2) ℝ) (hP : Pᵀ = P) (t : ℝ)
    (mref m : Fin 2 → ℝ) (haff : ∀ x y, p.deriv x = p.deriv y) :
    IsGradient (nlValue p P (fun _ => t) mref) (nlDeriv p P (fun _ => t) mref m) m := by
  refine Verif.Maps.Parametric.Props.gCongr (nlValue_gradient p P hP t mref m) ?_
  intro j
  simp only [nlDeriv, Poly.derivv]
  rw [haff m (p.cell m)]
  rfl

/-- Otherwise it is not: the relationship `(2 x, y + x ^ 2)` at the model `(1, 0)`, with the reference
`(2, 0)`. The gradient is `(4, 2)`, `deriv` gives `(8, 2)`. -/
theorem C135_violated_gradient :
    ∃ (p : Poly) (m mref : Fin 2 → ℝ), ¬ IsGradient (nlValue p 1 (fun _ => 1) mref)
      (nlDeriv p 1 (fun _ => 1) mref m) m := by
  refine ⟨{ xx := [0, 2], yx := [0, 0, 1] }, ![1, 0], ![2, 0], fun h => ?_⟩
  have e := Verif.Maps.Parametric.Props.gUnique h
    (nlValue_gradient _ 1 transpose_one 1 ![2, 0] ![1, 0])
  have e0 := congrFun e 0
  simp [nlDeriv, Poly.derivv, Poly.deriv, Poly.derivmatrix, Poly.cell, Poly.transform, peval, pderiv,
    scaleFrom, Matrix.mulVec, dotProduct, Fin.sum_univ_two] at e0

/-- Relationship `(x, y + 3 x)`. -/
example (P : Matrix (Fin 2) (Fin 2) ℝ) (hP : Pᵀ = P) (mref m : Fin 2 → ℝ) :
    IsGradient (nlValue { yx := [0, 3] } P (fun _ => 2) mref)
      (nlDeriv { yx := [0, 3] } P (fun _ => 2) mref m) m :=
  C135_gradient_partial _ P hP 2 mref m (fun x y => by
    simp [Poly.deriv, Poly.derivmatrix, pderiv, scaleFrom, peval])

/-- Second property `y + x ^ 2`. -/
example : ¬ IsJacobian (Poly.cell { yx := [0, 0, 1] }) (Poly.deriv { yx := [0, 0, 1] } ![3, 5]) ![3, 5] := by
  apply C135_violated_deriv
  norm_num [pderiv, scaleFrom, peval]

example : Poly.cell { yx := [0, 0, 1] } ![3, 5] = ![3, 14] := by
  funext i
  fin_cases i <;> norm_num [Poly.cell, Poly.transform, peval]

end Verif.Maps.Clustering
