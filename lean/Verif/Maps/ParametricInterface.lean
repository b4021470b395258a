import Verif.Maps.Parametric
import Verif.Basic
import Mathlib.Algebra.BigOperators.Fin
import Mathlib.Logic.Equiv.Fin.Basic
import Mathlib.Data.Fin.Tuple.Basic

/-!
Parametric maps of two units separated by an interface: polynomials (`ParametricPolyMap`) and splines
(`ParametricSplineMap`).  `simpeg/maps/_parametric.py`
-/

namespace Verif.Maps.Parametric

/-- The axis of the interface.  maps/_parametric.py:450-462, 800-812 -/
inductive Normal
  | x | y | z
  deriving DecidableEq

/-- Two units blended by the arctangent of the interface function.  maps/_parametric.py:587, 942 -/
noncomputable def twoUnits (logSigma : Bool) (α m0 m1 f : ℝ) : ℝ :=
  let sig1 := sig logSigma m0
  let sig2 := sig logSigma m1
  sig1 + (sig2 - sig1) * (Real.arctan (α * f) / Real.pi + 0.5)

/-- `g1`.  maps/_parametric.py:673-678, 978-983 -/
noncomputable def g1 (logSigma : Bool) (α m0 f : ℝ) : ℝ :=
  if logSigma then -(Real.arctan (α * f) / Real.pi + 0.5) * sig logSigma m0 + sig logSigma m0
  else -(Real.arctan (α * f) / Real.pi + 0.5) + 1.0

/-- `g2`.  maps/_parametric.py:673-678, 978-983 -/
noncomputable def g2 (logSigma : Bool) (α m1 f : ℝ) : ℝ :=
  if logSigma then (Real.arctan (α * f) / Real.pi + 0.5) * sig logSigma m1
  else Real.arctan (α * f) / Real.pi + 0.5

/-- The factor of the derivative of the interface function.  maps/_parametric.py:680, 1001-1004 -/
noncomputable def g3 (logSigma : Bool) (α m0 m1 f : ℝ) : ℝ :=
  α * (sig logSigma m1 - sig logSigma m0) / (1.0 + (α * f) ^ 2) / Real.pi

/-- `m[2:]` -/
def tail2 {n : ℕ} (m : Fin (n + 2) → ℝ) : Fin n → ℝ := fun i => m i.succ.succ

/-- `np.c_[g1, g2, g3]`, a row -/
def row2 {n : ℕ} (a b : ℝ) (v : Fin n → ℝ) : Fin (n + 2) → ℝ :=
  Fin.cons a (Fin.cons b v : Fin (n + 1) → ℝ)

/-! ### Polynomials -/

/-- `numpy.polynomial.polynomial.polyval`, a library function -/
noncomputable def polyval {n : ℕ} (x : ℝ) (c : Fin n → ℝ) : ℝ := ∑ i, c i * x ^ (i : ℕ)

/-- `numpy.polynomial.polynomial.polyvander`, the row of `x` -/
noncomputable def polyvander {n : ℕ} (x : ℝ) : Fin n → ℝ := fun i => x ^ (i : ℕ)

/-- `numpy.polynomial.polynomial.polyval2d` -/
noncomputable def polyval2d {a b : ℕ} (x y : ℝ) (c : Fin a → Fin b → ℝ) : ℝ :=
  ∑ i, ∑ j, c i j * (x ^ (i : ℕ) * y ^ (j : ℕ))

/-- `numpy.polynomial.polynomial.polyvander2d`: the column of `x^i y^j` is `b i + j` -/
noncomputable def polyvander2d {a b : ℕ} (x y : ℝ) : Fin (a * b) → ℝ := fun k =>
  x ^ ((finProdFinEquiv.symm k).1 : ℕ) * y ^ ((finProdFinEquiv.symm k).2 : ℕ)

/-- `c.reshape((a, b))`: entry `(i, j)` is number `b i + j` -/
def reshapeC {a b : ℕ} (c : Fin (a * b) → ℝ) : Fin a → Fin b → ℝ := fun i j => c (finProdFinEquiv (i, j))

/-- `c.reshape((a, b), order="F")`: entry `(i, j)` is number `i + a j` -/
def reshapeF {a b : ℕ} (c : Fin (a * b) → ℝ) : Fin a → Fin b → ℝ := fun i j =>
  c (Fin.cast (Nat.mul_comm b a) (finProdFinEquiv (j, i)))

/-- The argument of the polynomial and the offset in two dimensions; `z` raises.
maps/_parametric.py:538-546, 627-638 -/
def axes2 : Normal → Cell → Except Err (ℝ × ℝ)
  | .x, c => .ok (c.y, c.x)
  | .y, c => .ok (c.x, c.y)
  | .z, _ => .error .exception

/-- The arguments of the polynomial and the offset in three dimensions.  maps/_parametric.py:549-582, 641-671 -/
def axes3 : Normal → Cell → ℝ × ℝ × ℝ
  | .x, c => (c.y, c.z, c.x)
  | .y, c => (c.x, c.z, c.y)
  | .z, c => (c.x, c.y, c.z)

/-- `ParametricPolyMap._transform` in two dimensions; `n = order + 1`.  maps/_parametric.py:529-546, 587 -/
noncomputable def poly2 {n : ℕ} (b : Bool) (α : ℝ) (nrm : Normal) (c : Cell) (m : Fin (n + 2) → ℝ) :
    Except Err ℝ := do
  let (u, w) ← axes2 nrm c
  let f := polyval u (tail2 m) - w
  return twoUnits b α (m 0) (m 1) f

/-- `ParametricPolyMap.deriv` in two dimensions, the row of a cell.  maps/_parametric.py:621-638, 673-684 -/
noncomputable def poly2Deriv {n : ℕ} (b : Bool) (α : ℝ) (nrm : Normal) (c : Cell) (m : Fin (n + 2) → ℝ) :
    Except Err (Fin (n + 2) → ℝ) := do
  let (u, w) ← axes2 nrm c
  let f := polyval u (tail2 m) - w
  let V := polyvander u
  return row2 (g1 b α (m 0) f) (g2 b α (m 1) f) (fun i => g3 b α (m 0) (m 1) f * V i)

/-- `ParametricPolyMap._transform` in three dimensions; `a = order[0] + 1`, `e = order[1] + 1`.
maps/_parametric.py:549-587 -/
noncomputable def poly3 {a e : ℕ} (b : Bool) (α : ℝ) (nrm : Normal) (c : Cell) (m : Fin (a * e + 2) → ℝ) : ℝ :=
  let p := axes3 nrm c
  let f := polyval2d p.1 p.2.1 (reshapeF (a := a) (b := e) (tail2 m)) - p.2.2
  twoUnits b α (m 0) (m 1) f

/-- `ParametricPolyMap.deriv` in three dimensions, the row of a cell.  maps/_parametric.py:641-684 -/
noncomputable def poly3Deriv {a e : ℕ} (b : Bool) (α : ℝ) (nrm : Normal) (c : Cell)
    (m : Fin (a * e + 2) → ℝ) : Fin (a * e + 2) → ℝ :=
  let p := axes3 nrm c
  let f := polyval2d p.1 p.2.1 (reshapeC (a := a) (b := e) (tail2 m)) - p.2.2
  let V := polyvander2d (a := a) (b := e) p.1 p.2.1
  row2 (g1 b α (m 0) f) (g2 b α (m 1) f) (fun i => g3 b α (m 0) (m 1) f * V i)

/-! ### Splines -/

/-- What is used of a spline map: the interpolating spline through given nodes (`UnivariateSpline` with
`s = 0`) is linear in the ordinates, with cardinal functions `basis`; `step c` is `1.5` cell heights at the
cell nearest to `c`.  maps/_parametric.py:900, 988-1000 -/
structure SplineW (n : ℕ) where
  basis : ℝ → Fin n → ℝ
  step : ℝ → ℝ
  zb : ℝ
  zt : ℝ

/-- `UnivariateSpline(self.pts, c, k=self.order, s=0)(x)` -/
def SplineW.spl {n : ℕ} (W : SplineW n) (c : Fin n → ℝ) (x : ℝ) : ℝ := ∑ i, c i * W.basis x i

/-- `_transform` in two dimensions; it also keeps the spline of the model.  maps/_parametric.py:889-907, 942 -/
noncomputable def spline2 {n : ℕ} (W : SplineW n) (b : Bool) (α : ℝ) (nrm : Normal) (c : Cell)
    (m : Fin (n + 2) → ℝ) : Except Err ℝ := do
  let (u, w) ← axes2 nrm c
  let f := W.spl (tail2 m) u - w
  return twoUnits b α (m 0) (m 1) f

/-- `deriv` in two dimensions.  `kept` are the ordinates of the spline of the last transform, `None` before
the first.  The derivative with respect to the nodes is by central differences, for `normal = "y"` only.
maps/_parametric.py:944-959, 978-1005 -/
noncomputable def spline2Deriv {n : ℕ} (W : SplineW n) (kept : Option (Fin n → ℝ)) (b : Bool) (α : ℝ)
    (nrm : Normal) (c : Cell) (m : Fin (n + 2) → ℝ) : Except Err (Fin (n + 2) → ℝ) := do
  let (u, w) ← axes2 nrm c
  match kept with
  | none => throw .typeError
  | some k =>
    let f := W.spl k u - w
    let v : Fin n → ℝ := if nrm = .y then fun i =>
      let ctemp := tail2 m i
      let dy := W.step ctemp
      let ca := Function.update (tail2 m) i (ctemp + dy)
      let cb := Function.update (tail2 m) i (ctemp - dy)
      let fderiv := (W.spl ca u - W.spl cb u) / (2 * dy)
      g3 b α (m 0) (m 1) f * fderiv
    else fun _ => 0
    return row2 (g1 b α (m 0) f) (g2 b α (m 1) f) v

/-- `flines`, the surface between the two splines.  maps/_parametric.py:928-934, 966-972 -/
noncomputable def flines {n : ℕ} (W : SplineW n) (cb ct : Fin n → ℝ) (y z : ℝ) : ℝ :=
  (W.spl ct y - W.spl cb y) * (z - W.zb) / (W.zt - W.zb) + W.spl cb y

/-- `_transform` in three dimensions with `normal = "x"` (the others raise): the ordinates of the bottom
spline, then those of the top spline.  maps/_parametric.py:914-942 -/
noncomputable def spline3 {n : ℕ} (W : SplineW n) (b : Bool) (α : ℝ) (c : Cell)
    (m : Fin (n + n + 2) → ℝ) : ℝ :=
  let cb := fun i => tail2 m (Fin.castAdd n i)
  let ct := fun i => tail2 m (Fin.natAdd n i)
  twoUnits b α (m 0) (m 1) (flines W cb ct c.y c.z - c.x)

/-- `deriv` in three dimensions, just after the transform of the same model: the kept splines are those of
`m`.  maps/_parametric.py:961-976, 1007-1066 -/
noncomputable def spline3Deriv {n : ℕ} (W : SplineW n) (b : Bool) (α : ℝ) (c : Cell)
    (m : Fin (n + n + 2) → ℝ) : Fin (n + n + 2) → ℝ :=
  let cb := fun i => tail2 m (Fin.castAdd n i)
  let ct := fun i => tail2 m (Fin.natAdd n i)
  let f := flines W cb ct c.y c.z - c.x
  let t := fun s : ℝ => (W.spl ct c.y - s) * (c.z - W.zb) / (W.zt - W.zb) + s - c.x
  let bottom : Fin n → ℝ := fun i =>
    let dy := W.step (cb i)
    let ca := Function.update cb i (cb i + dy)
    let cb' := Function.update cb i (cb i - dy)
    g3 b α (m 0) (m 1) f * ((t (W.spl ca c.y) - t (W.spl cb' c.y)) / (2 * dy))
  let top : Fin n → ℝ := fun i =>
    let dy := W.step (ct i)
    let ca := Function.update ct i (ct i + dy)
    -- both splines are built from `ca`
    g3 b α (m 0) (m 1) f * ((t (W.spl ca c.y) - t (W.spl ca c.y)) / (2 * dy))
  row2 (g1 b α (m 0) f) (g2 b α (m 1) f) (Fin.append bottom top)

end Verif.Maps.Parametric

namespace Verif.Maps.Parametric.Props
open Verif Verif.Maps.Parametric Matrix Filter Topology

theorem gSum {ι κ : Type} [Fintype ι] [Fintype κ] {f : κ → (ι → ℝ) → ℝ} {u : κ → ι → ℝ} {m : ι → ℝ}
    (h : ∀ k, IsGradient (f k) (u k) m) : IsGradient (fun x => ∑ k, f k x) (fun j => ∑ k, u k j) m := by
  classical
  have : ∀ s : Finset κ, IsGradient (fun x => ∑ k ∈ s, f k x) (fun j => ∑ k ∈ s, u k j) m := by
    intro s
    induction s using Finset.induction_on with
    | empty => simpa using gConst (m := m) 0
    | insert a s ha ih => simpa [Finset.sum_insert ha] using gAdd (h a) ih
  exact this Finset.univ

/-- The gradient of a linear form of the tail of the model. -/
theorem gTail {n : ℕ} {m : Fin (n + 2) → ℝ} (w : Fin n → ℝ) (x : ℝ) :
    IsGradient (fun m : Fin (n + 2) → ℝ => (∑ i, tail2 m i * w i) - x) (row2 0 0 w) m := by
  have h : IsGradient (fun m : Fin (n + 2) → ℝ => (∑ i, tail2 m i * w i) - x)
      (fun j => (∑ i : Fin n, (m i.succ.succ * 0 + w i * (if j = i.succ.succ then 1 else 0))) - 0) m :=
    gSub (gSum (fun i : Fin n => gMul (gCoord i.succ.succ) (gConst (w i)))) (gConst x)
  refine gCongr h (fun j => ?_)
  refine Fin.cases ?_ (fun j => Fin.cases ?_ (fun j => ?_) j) j
  · simp [row2, Fin.ext_iff]
  · simp [row2, Fin.ext_iff]
  · simp [row2]

/-- The gradient of the two units from that of the interface function. -/
theorem gTwoUnits {n : ℕ} {m : Fin (n + 2) → ℝ} (b : Bool) (α : ℝ) {f : (Fin (n + 2) → ℝ) → ℝ}
    {w : Fin n → ℝ} (hf : IsGradient f (row2 0 0 w) m) :
    IsGradient (fun m => twoUnits b α (m 0) (m 1) (f m))
      (row2 (g1 b α (m 0) (f m)) (g2 b α (m 1) (f m)) (fun i => g3 b α (m 0) (m 1) (f m) * w i)) m := by
  have hF := gAdd (gSmul (1 / Real.pi) (gComp (Real.hasDerivAt_arctan _) (gSmul α hf))) (gConst 0.5)
  have hT := gAdd (gSig (m := m) b 0) (gMul (gSub (gSig b 1) (gSig b 0)) hF)
  have hfun : (fun m : Fin (n + 2) → ℝ => twoUnits b α (m 0) (m 1) (f m)) = fun m =>
      sig b (m 0) + (sig b (m 1) - sig b (m 0)) * (1 / Real.pi * Real.arctan (α * f m) + 0.5) := by
    funext m; simp only [twoUnits]; ring
  rw [hfun]
  refine gCongr hT (fun j => ?_)
  refine Fin.cases ?_ (fun j => Fin.cases ?_ (fun j => ?_) j) j
  · cases b <;>
      simp [-mul_eq_mul_left_iff, -mul_eq_mul_right_iff, -add_right_inj, -add_left_inj, row2, g1] <;>
      norm_num [-mul_eq_mul_left_iff, -mul_eq_mul_right_iff, -add_right_inj, -add_left_inj] <;> ring
  · have h1 : (Fin.succ 0 : Fin (n + 2)) = 1 := rfl
    rw [h1]
    cases b <;>
      simp [-mul_eq_mul_left_iff, -mul_eq_mul_right_iff, -add_right_inj, -add_left_inj, row2, g2] <;>
      norm_num [-mul_eq_mul_left_iff, -mul_eq_mul_right_iff, -add_right_inj, -add_left_inj] <;> ring
  · have h0 : (j.succ.succ : Fin (n + 2)) ≠ 0 := Fin.succ_ne_zero _
    have h1 : (j.succ.succ : Fin (n + 2)) ≠ 1 := by
      intro h
      have := congrArg Fin.val h
      simp at this
    simp only [h0, h1, if_false, mul_zero, sub_zero, zero_add, add_zero]
    simp only [row2, Fin.cons_succ, g3]
    have hp := Real.pi_pos
    have h2 : 0 < 1 + (α * f m) ^ 2 := by positivity
    norm_num
    field_simp

theorem polyval_eq {n : ℕ} (x : ℝ) (c : Fin n → ℝ) : polyval x c = ∑ i, c i * polyvander x i := rfl

/-- **C124, polynomials in two dimensions.** The derivative is the Jacobian: every order, slope, model and
cell, both normals. -/
theorem C124_poly2 {n : ℕ} (b : Bool) (α : ℝ) (nrm : Normal) (hn : nrm ≠ .z) (c : Cell)
    (m : Fin (n + 2) → ℝ) :
    ∃ (f : (Fin (n + 2) → ℝ) → ℝ) (g : Fin (n + 2) → ℝ),
      (∀ m, poly2 b α nrm c m = .ok (f m)) ∧ poly2Deriv b α nrm c m = .ok g ∧ IsGradient f g m := by
  cases nrm with
  | x => exact ⟨_, _, fun m => rfl, rfl, gTwoUnits b α (gTail (polyvander c.y) c.x)⟩
  | y => exact ⟨_, _, fun m => rfl, rfl, gTwoUnits b α (gTail (polyvander c.x) c.y)⟩
  | z => exact absurd rfl hn

/-- The exact derivative of the polynomial map in three dimensions: the same with the coefficients in the
order of the transform. -/
noncomputable def poly3Exact {a e : ℕ} (b : Bool) (α : ℝ) (nrm : Normal) (c : Cell)
    (m : Fin (a * e + 2) → ℝ) : Fin (a * e + 2) → ℝ :=
  let p := axes3 nrm c
  let f := polyval2d p.1 p.2.1 (reshapeF (a := a) (b := e) (tail2 m)) - p.2.2
  row2 (g1 b α (m 0) f) (g2 b α (m 1) f) (fun k => g3 b α (m 0) (m 1) f *
    (p.1 ^ ((finProdFinEquiv.symm (Fin.cast (Nat.mul_comm a e) k)).2 : ℕ) *
      p.2.1 ^ ((finProdFinEquiv.symm (Fin.cast (Nat.mul_comm a e) k)).1 : ℕ)))

theorem polyval2d_F {a e : ℕ} (x y : ℝ) (c : Fin (a * e) → ℝ) :
    polyval2d x y (reshapeF (a := a) (b := e) c) = ∑ k, c k *
      (x ^ ((finProdFinEquiv.symm (Fin.cast (Nat.mul_comm a e) k)).2 : ℕ) *
        y ^ ((finProdFinEquiv.symm (Fin.cast (Nat.mul_comm a e) k)).1 : ℕ)) := by
  unfold polyval2d reshapeF
  rw [Finset.sum_comm, ← Finset.sum_product', Finset.univ_product_univ]
  refine Fintype.sum_equiv (finProdFinEquiv.trans (finCongr (Nat.mul_comm e a))) _ _ (fun p => ?_)
  simp

theorem polyval2d_C {a e : ℕ} (x y : ℝ) (c : Fin (a * e) → ℝ) :
    polyval2d x y (reshapeC (a := a) (b := e) c) = ∑ k, c k * polyvander2d (a := a) (b := e) x y k := by
  unfold polyval2d reshapeC polyvander2d
  rw [← Finset.sum_product', Finset.univ_product_univ]
  refine Fintype.sum_equiv finProdFinEquiv _ _ (fun p => ?_)
  simp

/-- What the derivative in three dimensions should be. -/
theorem poly3_exact {a e : ℕ} (b : Bool) (α : ℝ) (nrm : Normal) (c : Cell) (m : Fin (a * e + 2) → ℝ) :
    IsGradient (poly3 (a := a) (e := e) b α nrm c) (poly3Exact b α nrm c m) m := by
  have h := gTwoUnits b α (gTail (m := m) (fun k : Fin (a * e) =>
    ((axes3 nrm c).1 ^ ((finProdFinEquiv.symm (Fin.cast (Nat.mul_comm a e) k)).2 : ℕ) *
      (axes3 nrm c).2.1 ^ ((finProdFinEquiv.symm (Fin.cast (Nat.mul_comm a e) k)).1 : ℕ))) (axes3 nrm c).2.2)
  have e1 : poly3 (a := a) (e := e) b α nrm c = fun m : Fin (a * e + 2) → ℝ =>
      twoUnits b α (m 0) (m 1) ((∑ k, tail2 m k *
        ((axes3 nrm c).1 ^ ((finProdFinEquiv.symm (Fin.cast (Nat.mul_comm a e) k)).2 : ℕ) *
          (axes3 nrm c).2.1 ^ ((finProdFinEquiv.symm (Fin.cast (Nat.mul_comm a e) k)).1 : ℕ))) -
          (axes3 nrm c).2.2) := by
    funext m
    simp only [poly3, polyval2d_F]
  rw [e1]
  refine gCongr h (fun j => ?_)
  simp only [poly3Exact, polyval2d_F]

/-- **C124, polynomials in three dimensions, the part which holds.** When one of the orders is zero the
derivative is the Jacobian.  Missing: both orders positive, where it is not. -/
theorem C124_poly3_partial {a e : ℕ} (h : a = 1 ∨ e = 1) (b : Bool) (α : ℝ) (nrm : Normal) (c : Cell)
    (m : Fin (a * e + 2) → ℝ) :
    IsGradient (poly3 (a := a) (e := e) b α nrm c) (poly3Deriv b α nrm c m) m := by
  have key : ∀ (i : Fin a) (j : Fin e),
      (Fin.cast (Nat.mul_comm e a) (finProdFinEquiv (j, i)) : Fin (a * e)) = finProdFinEquiv (i, j) := by
    intro i j
    apply Fin.ext
    rcases h with h | h
    · subst h
      have : i = 0 := Subsingleton.elim _ _
      subst this
      simp
    · subst h
      have : j = 0 := Subsingleton.elim _ _
      subst this
      simp
  have hre : ∀ c : Fin (a * e) → ℝ, reshapeF (a := a) (b := e) c = reshapeC c := by
    intro c; funext i j; simp only [reshapeF, reshapeC, key]
  have hg : IsGradient (poly3 (a := a) (e := e) b α nrm c) (poly3Deriv b α nrm c m) m := by
    have h := gTwoUnits b α (gTail (m := m)
      (polyvander2d (a := a) (b := e) (axes3 nrm c).1 (axes3 nrm c).2.1) (axes3 nrm c).2.2)
    have e1 : poly3 (a := a) (e := e) b α nrm c = fun m : Fin (a * e + 2) → ℝ =>
        twoUnits b α (m 0) (m 1) ((∑ k, tail2 m k *
          polyvander2d (a := a) (b := e) (axes3 nrm c).1 (axes3 nrm c).2.1 k) - (axes3 nrm c).2.2) := by
      funext m
      simp only [poly3, hre, polyval2d_C]
    rw [e1]
    refine gCongr h (fun j => ?_)
    simp only [poly3Deriv, polyval2d_C]
  exact hg

/-- **C124, violated: polynomials in three dimensions.** The transform reads the coefficients column by column,
the derivative row by row: with orders `[1, 1]` the derivatives with respect to the coefficients of `x` and `y`
are exchanged.  Any slope, any two different values, any cell with `x ≠ y`. -/
theorem C124_violated_poly3 (α s0 s1 k0 k1 k3 : ℝ) (hα : α ≠ 0) (hs : s0 ≠ s1) (c : Cell) (hc : c.x ≠ c.y) :
    let m : Fin (2 * 2 + 2) → ℝ := ![s0, s1, k0, k1, k1, k3]
    ¬ IsGradient (poly3 (a := 2) (e := 2) false α .z c) (poly3Deriv (a := 2) (e := 2) false α .z c m) m := by
  intro m h
  have hu := gUnique h (poly3_exact false α .z c m)
  have h3 := congrFun hu 3
  have sum4 : ∀ F : Fin (2 * 2) → ℝ, ∑ k, F k = F 0 + F 1 + F 2 + F 3 := fun F => Fin.sum_univ_four F
  have e0 : tail2 m 0 = k0 := rfl
  have e1 : tail2 m 1 = k1 := rfl
  have e2 : tail2 m 2 = k1 := rfl
  have e3 : tail2 m 3 = k3 := rfl
  have f1 : polyval2d c.x c.y (reshapeF (a := 2) (b := 2) (tail2 m)) =
      k0 + k1 * c.x + k1 * c.y + k3 * (c.x * c.y) := by
    rw [polyval2d_F]
    have d : ∀ k : Fin (2 * 2), (finProdFinEquiv.symm (Fin.cast (Nat.mul_comm 2 2) k)) =
        (⟨k / 2, by omega⟩, ⟨k % 2, by omega⟩) := by decide
    simp only [d]
    rw [sum4, e0, e1, e2, e3]
    norm_num [Fin.val_ofNat]
  have f2 : polyval2d c.x c.y (reshapeC (a := 2) (b := 2) (tail2 m)) =
      k0 + k1 * c.x + k1 * c.y + k3 * (c.x * c.y) := by
    rw [polyval2d_C]
    have d : ∀ k : Fin (2 * 2), (finProdFinEquiv.symm k : Fin 2 × Fin 2) =
        (⟨k / 2, by omega⟩, ⟨k % 2, by omega⟩) := by decide
    simp only [polyvander2d, d]
    rw [sum4, e0, e1, e2, e3]
    norm_num [Fin.val_ofNat]
    ring
  have l3 : poly3Deriv (a := 2) (e := 2) false α .z c m 3 =
      g3 false α s0 s1 (polyval2d c.x c.y (reshapeC (a := 2) (b := 2) (tail2 m)) - c.z) *
        polyvander2d (a := 2) (b := 2) c.x c.y 1 := rfl
  have r3 : poly3Exact (a := 2) (e := 2) false α .z c m 3 =
      g3 false α s0 s1 (polyval2d c.x c.y (reshapeF (a := 2) (b := 2) (tail2 m)) - c.z) *
        (c.x ^ 1 * c.y ^ 0) := rfl
  have v1 : polyvander2d (a := 2) (b := 2) c.x c.y 1 = c.x ^ 0 * c.y ^ 1 := rfl
  rw [l3, r3, v1, f1, f2] at h3
  have hg : g3 false α s0 s1 (k0 + k1 * c.x + k1 * c.y + k3 * (c.x * c.y) - c.z) ≠ 0 := by
    have hp := Real.pi_pos
    have hd : (1.0 : ℝ) + (α * (k0 + k1 * c.x + k1 * c.y + k3 * (c.x * c.y) - c.z)) ^ 2 ≠ 0 := by
      norm_num; positivity
    have : s1 - s0 ≠ 0 := sub_ne_zero.2 (Ne.symm hs)
    simp only [g3, sig]
    exact div_ne_zero (div_ne_zero (mul_ne_zero hα (by simpa using this)) hd) hp.ne'
  have := mul_left_cancel₀ hg h3
  simp at this
  exact hc this.symm

/-- The two coordinates of a plane: along the interface and across it. -/
def plane : Normal → Cell → ℝ × ℝ
  | .x, c => (c.y, c.x)
  | _, c => (c.x, c.y)

/-- The coordinates of a volume: two along the interface, in order, and the one across it. -/
def volume : Normal → Cell → ℝ × ℝ × ℝ
  | .x, c => (c.y, c.z, c.x)
  | .y, c => (c.x, c.z, c.y)
  | .z, c => (c.x, c.y, c.z)

/-- **C125, polynomials in two dimensions.** In the limit of steep slopes cells on the lower side of the interface
(where the polynomial of the coordinate along it exceeds the coordinate across it) get the second value, cells on the
upper side the first; coefficient `i` belongs to the power `i`. -/
theorem C125_poly2 {n : ℕ} (b : Bool) (nrm : Normal) (hn : nrm ≠ .z) (c : Cell) (m : Fin (n + 2) → ℝ) :
    ((plane nrm c).2 < ∑ i : Fin n, m i.succ.succ * (plane nrm c).1 ^ (i : ℕ) →
      ∃ f : ℝ → ℝ, (∀ α, poly2 b α nrm c m = .ok (f α)) ∧
        Tendsto f atTop (𝓝 (if b then Real.exp (m 1) else m 1))) ∧
    (∑ i : Fin n, m i.succ.succ * (plane nrm c).1 ^ (i : ℕ) < (plane nrm c).2 →
      ∃ f : ℝ → ℝ, (∀ α, poly2 b α nrm c m = .ok (f α)) ∧
        Tendsto f atTop (𝓝 (if b then Real.exp (m 0) else m 0))) := by
  have e : ∀ α, poly2 b α nrm c m = .ok (twoUnits b α (m 0) (m 1)
      (∑ i : Fin n, m i.succ.succ * (plane nrm c).1 ^ (i : ℕ) - (plane nrm c).2)) := by
    intro α
    cases nrm with
    | x => rfl
    | y => rfl
    | z => exact absurd rfl hn
  constructor
  · intro h
    refine ⟨_, e, ?_⟩
    have := ((atanfct_tendsto_one (sub_pos.2 h)).const_mul (sig b (m 1) - sig b (m 0))).const_add (sig b (m 0))
    simpa [twoUnits, sig, atanfct] using this
  · intro h
    refine ⟨_, e, ?_⟩
    have := ((atanfct_tendsto_zero (sub_neg.2 h)).const_mul (sig b (m 1) - sig b (m 0))).const_add (sig b (m 0))
    simpa [twoUnits, sig, atanfct] using this

/-- **C125, polynomials in three dimensions.** Coefficient number `i + a j` belongs to the power `i` of the first
and `j` of the second coordinate along the interface. -/
theorem C125_poly3 {a e : ℕ} (b : Bool) (nrm : Normal) (c : Cell) (m : Fin (a * e + 2) → ℝ) (P : ℝ)
    (hP : P = ∑ i : Fin a, ∑ j : Fin e, m ⟨i.val + a * j.val + 2, by
      have := i.2; have := j.2
      have h1 : a * (j.val + 1) ≤ a * e := Nat.mul_le_mul_left a j.2
      rw [Nat.mul_add] at h1; omega⟩ *
        ((volume nrm c).1 ^ (i : ℕ) * (volume nrm c).2.1 ^ (j : ℕ))) :
    ((volume nrm c).2.2 < P → Tendsto (fun α => poly3 (a := a) (e := e) b α nrm c m) atTop
      (𝓝 (if b then Real.exp (m 1) else m 1))) ∧
    (P < (volume nrm c).2.2 → Tendsto (fun α => poly3 (a := a) (e := e) b α nrm c m) atTop
      (𝓝 (if b then Real.exp (m 0) else m 0))) := by
  have e1 : polyval2d (volume nrm c).1 (volume nrm c).2.1 (reshapeF (a := a) (b := e) (tail2 m)) = P := by
    rw [hP]
    unfold polyval2d
    refine Finset.sum_congr rfl fun i _ => Finset.sum_congr rfl fun j _ => ?_
    congr 1
  have e2 : ∀ α, poly3 (a := a) (e := e) b α nrm c m =
      twoUnits b α (m 0) (m 1) (P - (volume nrm c).2.2) := by
    intro α
    rw [← e1]
    cases nrm <;> rfl
  simp only [e2]
  constructor
  · intro h
    have := ((atanfct_tendsto_one (sub_pos.2 h)).const_mul (sig b (m 1) - sig b (m 0))).const_add (sig b (m 0))
    simpa [twoUnits, sig, atanfct] using this
  · intro h
    have := ((atanfct_tendsto_zero (sub_neg.2 h)).const_mul (sig b (m 1) - sig b (m 0))).const_add (sig b (m 0))
    simpa [twoUnits, sig, atanfct] using this

/-- **C126, interfaces.** Polynomial and spline maps return a value between those of the two units. -/
theorem C126_interface (b : Bool) (α m0 m1 f lo hi : ℝ)
    (h0 : lo ≤ sig b m0 ∧ sig b m0 ≤ hi) (h1 : lo ≤ sig b m1 ∧ sig b m1 ≤ hi) :
    lo ≤ twoUnits b α m0 m1 f ∧ twoUnits b α m0 m1 f ≤ hi :=
  convex2 ⟨atanfct_pos f α, atanfct_lt_one f α⟩ h0 h1

/-- **C126, polynomials and splines.** -/
theorem C126_poly_spline {n a e : ℕ} (b : Bool) (α : ℝ) (nrm : Normal) (c : Cell) (W : SplineW n) (lo hi : ℝ) :
    (∀ (m : Fin (n + 2) → ℝ) v, lo ≤ sig b (m 0) ∧ sig b (m 0) ≤ hi → lo ≤ sig b (m 1) ∧ sig b (m 1) ≤ hi →
      poly2 b α nrm c m = .ok v → lo ≤ v ∧ v ≤ hi) ∧
    (∀ m : Fin (a * e + 2) → ℝ, lo ≤ sig b (m 0) ∧ sig b (m 0) ≤ hi → lo ≤ sig b (m 1) ∧ sig b (m 1) ≤ hi →
      lo ≤ poly3 (a := a) (e := e) b α nrm c m ∧ poly3 (a := a) (e := e) b α nrm c m ≤ hi) ∧
    (∀ (m : Fin (n + 2) → ℝ) v, lo ≤ sig b (m 0) ∧ sig b (m 0) ≤ hi → lo ≤ sig b (m 1) ∧ sig b (m 1) ≤ hi →
      spline2 W b α nrm c m = .ok v → lo ≤ v ∧ v ≤ hi) ∧
    (∀ m : Fin (n + n + 2) → ℝ, lo ≤ sig b (m 0) ∧ sig b (m 0) ≤ hi → lo ≤ sig b (m 1) ∧ sig b (m 1) ≤ hi →
      lo ≤ spline3 W b α c m ∧ spline3 W b α c m ≤ hi) := by
  refine ⟨fun m v h0 h1 h => ?_, fun m h0 h1 => C126_interface b α _ _ _ lo hi h0 h1, fun m v h0 h1 h => ?_,
    fun m h0 h1 => C126_interface b α _ _ _ lo hi h0 h1⟩
  · cases nrm with
    | x => cases h; exact C126_interface b α _ _ _ lo hi h0 h1
    | y => cases h; exact C126_interface b α _ _ _ lo hi h0 h1
    | z => cases h
  · cases nrm with
    | x => cases h; exact C126_interface b α _ _ _ lo hi h0 h1
    | y => cases h; exact C126_interface b α _ _ _ lo hi h0 h1
    | z => cases h

/-! ### Splines -/

theorem spl_update {n : ℕ} (W : SplineW n) (c : Fin n → ℝ) (i : Fin n) (v x : ℝ) :
    W.spl (Function.update c i v) x = W.spl c x + (v - c i) * W.basis x i := by
  classical
  unfold SplineW.spl
  rw [← Finset.add_sum_erase _ _ (Finset.mem_univ i), ← Finset.add_sum_erase _ (fun k => c k * W.basis x k) (Finset.mem_univ i)]
  have : ∑ k ∈ Finset.univ.erase i, Function.update c i v k * W.basis x k =
      ∑ k ∈ Finset.univ.erase i, c k * W.basis x k := by
    refine Finset.sum_congr rfl (fun k hk => ?_)
    rw [Function.update_of_ne (Finset.ne_of_mem_erase hk)]
  rw [this, Function.update_self]
  ring

/-- **C124, splines, the part which holds.** In two dimensions with `normal = "y"`, right after the transform
of the same model, the derivative by differences is the exact Jacobian: splines are linear in their ordinates.
Missing: the other normal, three dimensions and other histories, where it is not. -/
theorem C124_spline2_partial {n : ℕ} (W : SplineW n) (hW : ∀ c, W.step c ≠ 0) (b : Bool) (α : ℝ) (c : Cell)
    (m : Fin (n + 2) → ℝ) :
    ∃ (f : (Fin (n + 2) → ℝ) → ℝ) (g : Fin (n + 2) → ℝ),
      (∀ m, spline2 W b α .y c m = .ok (f m)) ∧
      spline2Deriv W (some (tail2 m)) b α .y c m = .ok g ∧ IsGradient f g m := by
  refine ⟨_, _, fun m => rfl, rfl, ?_⟩
  refine gCongr (gTwoUnits b α (gTail (W.basis c.x) c.y)) (fun j => ?_)
  have : ∀ i, (W.spl (Function.update (tail2 m) i (tail2 m i + W.step (tail2 m i))) c.x -
      W.spl (Function.update (tail2 m) i (tail2 m i - W.step (tail2 m i))) c.x) / (2 * W.step (tail2 m i)) =
      W.basis c.x i := by
    intro i
    rw [spl_update, spl_update]
    have := hW (tail2 m i)
    field_simp
    ring
  simp only [if_true, this]

/-- **C124, violated: splines with the default normal.** With `normal = "x"` the derivative with respect to
every node is zero, although the map depends on them. -/
theorem C124_violated_spline2 {n : ℕ} (W : SplineW n) (α : ℝ) (hα : α ≠ 0) (c : Cell) (m : Fin (n + 2) → ℝ)
    (hs : m 0 ≠ m 1) (i : Fin n) (hi : W.basis c.y i ≠ 0) :
    ∃ (f : (Fin (n + 2) → ℝ) → ℝ) (g : Fin (n + 2) → ℝ),
      (∀ m, spline2 W false α .x c m = .ok (f m)) ∧
      spline2Deriv W (some (tail2 m)) false α .x c m = .ok g ∧
      (∀ i : Fin n, g i.succ.succ = 0) ∧ ¬ IsGradient f g m := by
  refine ⟨_, _, fun m => rfl, rfl, fun i => ?_, fun h => ?_⟩
  · simp [row2]
  · have hu := gUnique h (gTwoUnits false α (gTail (W.basis c.y) c.x))
    have h3 := congrFun hu i.succ.succ
    simp only [row2, Fin.cons_succ] at h3
    have hg : g3 false α (m 0) (m 1) (∑ i, tail2 m i * W.basis c.y i - c.x) ≠ 0 := by
      have hp := Real.pi_pos
      have hd : (1.0 : ℝ) + (α * (∑ i, tail2 m i * W.basis c.y i - c.x)) ^ 2 ≠ 0 := by
        norm_num; positivity
      have : m 1 - m 0 ≠ 0 := sub_ne_zero.2 (Ne.symm hs)
      simp only [g3, sig]
      exact div_ne_zero (div_ne_zero (mul_ne_zero hα (by simpa using this)) hd) hp.ne'
    have h0 : (0 : ℝ) = g3 false α (m 0) (m 1) (∑ i, tail2 m i * W.basis c.y i - c.x) * W.basis c.y i := by
      exact h3
    exact mul_ne_zero hg hi h0.symm

/-- **C124, violated: splines before the first transform.** Without a transform before it the derivative
raises. -/
theorem C124_violated_spline_first {n : ℕ} (W : SplineW n) (b : Bool) (α : ℝ) (nrm : Normal) (hn : nrm ≠ .z)
    (c : Cell) (m : Fin (n + 2) → ℝ) : spline2Deriv W none b α nrm c m = .error .typeError := by
  cases nrm with
  | x => rfl
  | y => rfl
  | z => exact absurd rfl hn

/-- **C124, violated: splines after another transform.** The derivative with respect to the values depends on
the model of the last transform, not of the model given: with the transform of `k` before it, the first entry
is that of the interface of `k`. -/
theorem C124_violated_spline_stale {n : ℕ} (W : SplineW n) (c : Cell) (m : Fin (n + 2) → ℝ) (k : Fin n → ℝ)
    (α : ℝ) (hα : α ≠ 0) (hk : W.spl k c.x ≠ W.spl (tail2 m) c.x) :
    ∃ g : Fin (n + 2) → ℝ, spline2Deriv W (some k) false α .y c m = .ok g ∧
      ∀ f : (Fin (n + 2) → ℝ) → ℝ, (∀ m, spline2 W false α .y c m = .ok (f m)) → ¬ IsGradient f g m := by
  refine ⟨_, rfl, fun f hf h => ?_⟩
  have hfe : f = fun m : Fin (n + 2) → ℝ => twoUnits false α (m 0) (m 1) ((∑ i, tail2 m i * W.basis c.x i) - c.y) := by
    funext m
    have := hf m
    simp only [spline2, axes2] at this
    exact (Except.ok.inj this).symm
  subst hfe
  have hu := gUnique h (gTwoUnits false α (gTail (W.basis c.x) c.y))
  have h0 := congrFun hu 1
  have l0 : Real.arctan (α * (W.spl k c.x - c.y)) / Real.pi + 0.5 =
      Real.arctan (α * (W.spl (tail2 m) c.x - c.y)) / Real.pi + 0.5 := h0
  have hp := Real.pi_ne_zero
  have l1 : Real.arctan (α * (W.spl k c.x - c.y)) = Real.arctan (α * (W.spl (tail2 m) c.x - c.y)) := by
    have := add_right_cancel l0
    field_simp at this
    exact this
  have l2 := Real.arctan_injective l1
  have l3 := mul_left_cancel₀ hα l2
  exact hk (by linarith)

/-- **C124, violated: splines in three dimensions.** The derivative with respect to every node of the top
spline is zero, although the map depends on them away from the bottom. -/
theorem C124_violated_spline3 {n : ℕ} (W : SplineW n) (α : ℝ) (hα : α ≠ 0) (c : Cell)
    (m : Fin (n + n + 2) → ℝ) (hs : m 0 ≠ m 1) (i : Fin n) (hi : W.basis c.y i ≠ 0) (hz : c.z ≠ W.zb)
    (ht : W.zt ≠ W.zb) :
    spline3Deriv W false α c m (Fin.natAdd n i).succ.succ = 0 ∧
    ¬ IsGradient (spline3 W false α c) (spline3Deriv W false α c m) m := by
  have h0 : spline3Deriv W false α c m (Fin.natAdd n i).succ.succ = 0 := by
    simp only [spline3Deriv, row2, Fin.cons_succ, Fin.append_right, sub_self, zero_div, mul_zero]
  refine ⟨h0, fun h => ?_⟩
  -- the surface as a linear form of the nodes
  let w : Fin (n + n) → ℝ := Fin.append
    (fun i => (1 - (c.z - W.zb) / (W.zt - W.zb)) * W.basis c.y i)
    (fun i => (c.z - W.zb) / (W.zt - W.zb) * W.basis c.y i)
  have hw : ∀ m : Fin (n + n + 2) → ℝ, flines W (fun i => tail2 m (Fin.castAdd n i))
      (fun i => tail2 m (Fin.natAdd n i)) c.y c.z = ∑ k, tail2 m k * w k := by
    intro m
    rw [Fin.sum_univ_add]
    simp only [w, Fin.append_left, Fin.append_right, flines, SplineW.spl]
    have e1 : ∑ i, tail2 m (Fin.castAdd n i) * ((1 - (c.z - W.zb) / (W.zt - W.zb)) * W.basis c.y i) =
        (1 - (c.z - W.zb) / (W.zt - W.zb)) * ∑ i, tail2 m (Fin.castAdd n i) * W.basis c.y i := by
      rw [Finset.mul_sum]; exact Finset.sum_congr rfl (fun _ _ => by ring)
    have e2 : ∑ i, tail2 m (Fin.natAdd n i) * ((c.z - W.zb) / (W.zt - W.zb) * W.basis c.y i) =
        (c.z - W.zb) / (W.zt - W.zb) * ∑ i, tail2 m (Fin.natAdd n i) * W.basis c.y i := by
      rw [Finset.mul_sum]; exact Finset.sum_congr rfl (fun _ _ => by ring)
    rw [e1, e2]
    ring
  have hf : spline3 W false α c = fun m : Fin (n + n + 2) → ℝ =>
      twoUnits false α (m 0) (m 1) ((∑ k, tail2 m k * w k) - c.x) := by
    funext m
    simp only [spline3, hw]
  rw [hf] at h
  have hu := gUnique h (gTwoUnits false α (gTail w c.x))
  have h3 := congrFun hu (Fin.natAdd n i).succ.succ
  rw [h0] at h3
  simp only [row2, Fin.cons_succ, w, Fin.append_right] at h3
  have hg : ∀ f, g3 false α (m 0) (m 1) f ≠ 0 := by
    intro f
    have hp := Real.pi_pos
    have hd : (1.0 : ℝ) + (α * f) ^ 2 ≠ 0 := by norm_num; positivity
    have : m 1 - m 0 ≠ 0 := sub_ne_zero.2 (Ne.symm hs)
    simp only [g3, sig]
    exact div_ne_zero (div_ne_zero (mul_ne_zero hα (by simpa using this)) hd) hp.ne'
  exact mul_ne_zero (hg _) (mul_ne_zero (div_ne_zero (sub_ne_zero.2 hz) (sub_ne_zero.2 ht)) hi) h3.symm

/-- Linear interpolation between nodes at 0 and 1. -/
noncomputable def exW : SplineW 2 := ⟨fun x => ![1 - x, x], fun _ => 1, 0, 1⟩

example : (∀ c, exW.step c ≠ 0) ∧ exW.basis 0.5 1 ≠ 0 := by
  constructor
  · intro c; simp [exW]
  · simp [exW]; norm_num

end Verif.Maps.Parametric.Props
