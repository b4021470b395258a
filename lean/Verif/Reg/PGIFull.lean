import Verif.Reg.PGI
import Mathlib.Analysis.SpecialFunctions.Log.Deriv
import Mathlib.Analysis.SpecialFunctions.ExpDeriv
import Mathlib.LinearAlgebra.Matrix.Block
import Mathlib.Analysis.SpecialFunctions.Pow.Real

/-!
C131: the full mixture form of `PGIsmallness` (`approx_eval=False`, `approx_gradient=False`,
`approx_hessian=False`; `simpeg/regularization/pgi.py`), which uses the log-probabilities of
`WeightedGaussianMixture` (`simpeg/utils/pgi_utils.py`). Same conventions as `Verif.Reg.PGI`.
-/

noncomputable section
namespace Verif.Reg.PGI
open Matrix

variable {n : ℕ} {π κ : Type} [Fintype π] [Fintype κ] [DecidableEq π] [DecidableEq κ]

set_option linter.unusedSectionVars false

/-- A `PGIsmallness` object with the parts of the mixture that the full form uses besides those of
`Small`: `weights_` (one number per unit) and `precisions_cholesky_`. -/
structure Full (n : ℕ) (π κ : Type) extends Small n π κ where
  prop : Fin (n + 1) → ℝ
  chol : Prec n π

/-- `_compute_log_det_cholesky` of scikit-learn: logarithms of the diagonal entries
(called in `simpeg/utils/pgi_utils.py` 510-512). -/
def logDet (C : Prec n π) (k : Fin (n + 1)) : ℝ :=
  match C with
  | .full C => ∑ i, Real.log (C k i i)
  | .tied C => ∑ i, Real.log (C i i)
  | .diag c => ∑ i, Real.log (c k i)
  | .spherical c => (Fintype.card π : ℝ) * Real.log (c k)

/-- The matrix that multiplies the samples: the factor itself, or `np.eye(n_features) * prec_chol`
(`simpeg/utils/pgi_utils.py` 514-533). -/
def cholMat (C : Prec n π) (k : Fin (n + 1)) : Matrix π π ℝ :=
  match C with
  | .full C => C k
  | .tied C => C
  | .diag c => fun i j => (1 : Matrix π π ℝ) i j * c k j
  | .spherical c => fun i j => (1 : Matrix π π ℝ) i j * c k

/-- `_estimate_log_gaussian_prob_with_sensW` for one sample `x` with weights `s` and one unit
(`simpeg/utils/pgi_utils.py` 483-535). -/
def logGauss (C : Prec n π) (means : Fin (n + 1) → π → ℝ) (s x : π → ℝ) (k : Fin (n + 1)) : ℝ :=
  let y := (x * s) ᵥ* cholMat C k - (means k * s) ᵥ* cholMat C k;
  -0.5 * ((Fintype.card π : ℝ) * Real.log (2 * Real.pi) + ∑ j, y j ^ 2) + logDet C k

/-- `score_samples_with_sensW` for one sample: `logsumexp` of the weighted log-probabilities
(`simpeg/utils/pgi_utils.py` 545-590). -/
def score (C : Prec n π) (means : Fin (n + 1) → π → ℝ) (prop : Fin (n + 1) → ℝ) (s x : π → ℝ) : ℝ :=
  Real.log (∑ k, Real.exp (logGauss C means s x k + Real.log (prop k)))

/-- `sensW`: the diagonal of `W`, a row for each cell (`simpeg/regularization/pgi.py` 503-508). -/
def Full.sens (o : Full n π κ) (c : κ) : π → ℝ := fun i => Real.sqrt (o.weights (i, c))

/-- `model`: the mapped properties of a cell (`simpeg/regularization/pgi.py` 494-495). -/
def Full.cell (o : Full n π κ) (m : π × κ → ℝ) (c : κ) : π → ℝ := fun i => o.mapped m (i, c)

/-- `PGIsmallness.__call__(m)` with `approx_eval=False` and linear relationships
(`simpeg/regularization/pgi.py` 493-512). -/
def Full.value (o : Full n π κ) (m : π × κ → ℝ) : ℝ :=
  -2 * ∑ c, score o.chol o.means o.prop (o.sens c) (o.cell m c)

/-- `W[k]`: `weights_[k]` times the weighted precision applied to the distance to the mean, at the
cell `p.2` and the property `p.1` (`simpeg/regularization/pgi.py` 626-702). The precisions enter
through `precisions_`, by covariance type. -/
def Full.pull (o : Full n π κ) (m : π × κ → ℝ) (k : Fin (n + 1)) (p : π × κ) : ℝ :=
  let S := diagonal (o.sens p.2)
  let P : Matrix π π ℝ := match o.prec with
    | .full P => P k
    | .tied P => P
    | .diag q => fun i j => q k j * (1 : Matrix π π ℝ) i j
    | .spherical q => fun i j => q k * (1 : Matrix π π ℝ) i j
  o.prop k * ((S * (P * S)) *ᵥ (o.cell m p.2 - o.means k)) p.1

/-- `PGIsmallness.deriv(m)` with `approx_gradient=False`
(`simpeg/regularization/pgi.py` 600-708). -/
def Full.deriv (o : Full n π κ) (m : π × κ → ℝ) : π × κ → ℝ :=
  let numer : π × κ → ℝ := fun p =>
    ∑ k, o.pull m k p * Real.exp (logGauss o.chol o.means (o.sens p.2) (o.cell m p.2) k)
  let r : π × κ → ℝ := fun p =>
    numer p / Real.exp (score o.chol o.means o.prop (o.sens p.2) (o.cell m p.2))
  (2 : ℝ) • ((o.mD m)ᵀ *ᵥ r)

/-- `Hr`: blocks of the precisions averaged with the posterior probabilities
(`simpeg/regularization/pgi.py` 864-920). -/
def Full.blocks (o : Full n π κ) (m : π × κ → ℝ) : Matrix (π × κ) (π × κ) ℝ :=
  Matrix.of fun p q => if p.2 = q.2 then
    (∑ k, (diagonal (o.sens p.2) * (o.prec.matrix k * diagonal (o.sens p.2)) : Matrix π π ℝ) q.1 p.1 *
      Real.exp (logGauss o.chol o.means (o.sens p.2) (o.cell m p.2) k + Real.log (o.prop k))) /
      Real.exp (score o.chol o.means o.prop (o.sens p.2) (o.cell m p.2)) else 0

/-- `PGIsmallness.deriv2(m)` with `approx_hessian=False`, also the matrix of `deriv2(m, v)`
(`simpeg/regularization/pgi.py` 846-925). -/
def Full.deriv2 (o : Full n π κ) (m : π × κ → ℝ) : Matrix (π × κ) (π × κ) ℝ :=
  (2 : ℝ) • ((o.mD m)ᵀ * o.mD m) * o.blocks m

/-! ### Specification -/

/-- The Gaussian density with precision `P` and the given mean. -/
def gauss (P : Matrix π π ℝ) (mean x : π → ℝ) : ℝ :=
  Real.sqrt P.det / Real.sqrt (2 * Real.pi) ^ Fintype.card π * Real.exp (-(quad P (x - mean)) / 2)

/-- What scikit-learn guarantees for `precisions_cholesky_` and `precisions_`: factors with a positive
diagonal, `precision = factor * factorᵀ`; and positive proportions. -/
structure Full.Fitted (o : Full n π κ) : Prop where
  factor : ∀ k, o.prec.matrix k = o.chol.matrix k * (o.chol.matrix k)ᵀ
  pos : ∀ k i, 0 < o.chol.matrix k i i
  prop : ∀ k, 0 < o.prop k

/-! ### Lemmas -/

theorem cholMat_eq (C : Prec n π) (k : Fin (n + 1)) : cholMat C k = C.matrix k := by
  cases C <;> simp only [cholMat, Prec.matrix]
  · ext i j
    by_cases h : i = j <;> simp [h, Matrix.one_apply, diagonal_apply]
  · ext i j
    by_cases h : i = j <;> simp [h, Matrix.one_apply, diagonal_apply]

theorem quad_eq (P : Matrix π π ℝ) (x : π → ℝ) : quad P x = x ⬝ᵥ (P *ᵥ x) := by
  simp [quad, dotProduct, Matrix.mulVec, Finset.mul_sum, mul_assoc]

theorem sum_sq_vecMul (C : Matrix π π ℝ) (x : π → ℝ) : ∑ j, (x ᵥ* C) j ^ 2 = quad (C * Cᵀ) x := by
  rw [quad_eq, ← Matrix.mulVec_mulVec, Matrix.dotProduct_mulVec, Matrix.mulVec_transpose]
  simp [dotProduct, sq]

theorem logGauss_eq (C : Prec n π) (means : Fin (n + 1) → π → ℝ) (s x : π → ℝ) (k : Fin (n + 1)) :
    logGauss C means s x k = -(quad (C.matrix k * (C.matrix k)ᵀ) (s * (x - means k))) / 2 +
      (logDet C k - (Fintype.card π : ℝ) * Real.log (2 * Real.pi) / 2) := by
  unfold logGauss
  dsimp only
  rw [← Matrix.sub_vecMul, cholMat_eq, sum_sq_vecMul]
  rw [show x * s - means k * s = s * (x - means k) by rw [← sub_mul, mul_comm]]
  norm_num
  ring

theorem logDet_eq (C : Prec n π) (k : Fin (n + 1)) : logDet C k = ∑ i, Real.log (C.matrix k i i) := by
  cases C <;> simp [logDet, Prec.matrix]

theorem score_exp (C : Prec n π) (means : Fin (n + 1) → π → ℝ) (prop : Fin (n + 1) → ℝ) (s x : π → ℝ)
    (hp : ∀ k, 0 < prop k) :
    Real.exp (score C means prop s x) = ∑ k, prop k * Real.exp (logGauss C means s x k) := by
  have h : ∀ k, Real.exp (logGauss C means s x k + Real.log (prop k)) =
      prop k * Real.exp (logGauss C means s x k) := by
    intro k
    rw [Real.exp_add, Real.exp_log (hp k), mul_comm]
  unfold score
  rw [Real.exp_log]
  · exact Finset.sum_congr rfl fun k _ => h k
  · exact Finset.sum_pos (fun k _ => Real.exp_pos _) Finset.univ_nonempty

theorem pull_eq (o : Full n π κ) (m : π × κ → ℝ) (k : Fin (n + 1)) (i : π) (c : κ) :
    o.pull m k (i, c) = o.prop k * (o.sens c i * (o.prec.matrix k *ᵥ
      (o.sens c * (o.cell m c - o.means k))) i) := by
  have key : ∀ P : Matrix π π ℝ, ((diagonal (o.sens c) * (P * diagonal (o.sens c))) *ᵥ
      (o.cell m c - o.means k)) i = o.sens c i * (P *ᵥ (o.sens c * (o.cell m c - o.means k))) i := by
    intro P
    rw [← Matrix.mulVec_mulVec, ← Matrix.mulVec_mulVec, diag_mulVec, diag_mulVec]
    rfl
  unfold Full.pull
  dsimp only
  have e1 : ∀ q : π → ℝ, (fun a b => q b * (1 : Matrix π π ℝ) a b : Matrix π π ℝ) = diagonal q := by
    intro q
    ext a b
    by_cases hab : a = b <;> simp [hab, Matrix.one_apply, diagonal_apply]
  cases h : o.prec <;> simp only [key, Prec.matrix, e1]

/-! ### C131 -/

/-- With scalar weights of one the log-probability is the logarithm of the Gaussian density. -/
theorem C131_density {d : ℕ} (C : Prec n (Fin d)) (means : Fin (n + 1) → Fin d → ℝ) (x : Fin d → ℝ)
    (k : Fin (n + 1)) (hu : (C.matrix k).BlockTriangular id) (hp : ∀ i, 0 < C.matrix k i i) :
    Real.exp (logGauss C means 1 x k) = gauss (C.matrix k * (C.matrix k)ᵀ) (means k) x := by
  have hdet : (C.matrix k).det = ∏ i, C.matrix k i i := Matrix.det_of_upperTriangular hu
  have hpos : 0 < ∏ i, C.matrix k i i := Finset.prod_pos fun i _ => hp i
  rw [logGauss_eq, Real.exp_add, Real.exp_sub, logDet_eq, Real.exp_sum, gauss, Matrix.det_mul,
    Matrix.det_transpose, hdet, Real.sqrt_mul_self hpos.le, one_mul, mul_comm]
  congr 2
  · exact Finset.prod_congr rfl fun i _ => Real.exp_log (hp i)
  · have h2 : (0 : ℝ) < 2 * Real.pi := by positivity
    rw [Real.sqrt_eq_rpow, ← Real.rpow_natCast, ← Real.rpow_mul h2.le, Real.rpow_def_of_pos h2]
    congr 1
    ring

/-- The value is `-2 log` of the mixture density, summed over the cells (weights of one). -/
theorem C131_value {d : ℕ} (o : Full n (Fin d) κ) (m : Fin d × κ → ℝ) (ho : o.Fitted)
    (hu : ∀ k, (o.chol.matrix k).BlockTriangular id) (hw : ∀ p, o.weights p = 1) :
    o.value m = ∑ c, -2 * Real.log (∑ k, o.prop k *
      gauss (o.prec.matrix k) (o.means k) fun i => o.map i (fun e => m (i, e)) c) := by
  have hs : ∀ c, o.sens c = 1 := by
    intro c; funext i; simp [Full.sens, hw]
  unfold Full.value
  rw [Finset.mul_sum]
  refine Finset.sum_congr rfl fun c _ => ?_
  rw [← Real.log_exp (score _ _ _ _ _), score_exp _ _ _ _ _ ho.prop, hs]
  congr 2
  refine Finset.sum_congr rfl fun k _ => ?_
  rw [C131_density _ _ _ _ (hu k) (ho.pos k), ho.factor]
  rfl

theorem quad_grad {ι : Type} [Fintype ι] (P : Matrix π π ℝ) (hP : Pᵀ = P) {r : (ι → ℝ) → π → ℝ}
    {J : Matrix π ι ℝ} {m : ι → ℝ} (hr : IsJacobian r J m) :
    IsGradient (fun x => quad P (r x)) ((2 : ℝ) • (Jᵀ *ᵥ (P *ᵥ r m))) m := by
  simp only [quad_eq]
  exact quad_gradient hr P hP

/-- The rows of `mD` of one cell. -/
def Full.cellD (o : Full n π κ) (m : π × κ → ℝ) (c : κ) : Matrix π (π × κ) ℝ :=
  Matrix.of fun i q => o.mD m (i, c) q

theorem cell_jac (o : Full n π κ) (m : π × κ → ℝ) (h : o.MapsOK m) (c : κ) :
    IsJacobian (fun x => o.cell x c) (o.cellD m c) m := by
  rw [isJacobian_iff]
  intro i
  exact isJacobian_iff.1 (mD_jac o.toSmall m h) (i, c)

theorem gEq {ι : Type} [Fintype ι] {f g : (ι → ℝ) → ℝ} {u m : ι → ℝ} (hf : IsGradient f u m)
    (h : ∀ x, g x = f x) : IsGradient g u m := by
  have : g = f := funext h
  rwa [this]

/-- The gradient of one weighted log-probability. -/
theorem logGauss_grad (o : Full n π κ) (m : π × κ → ℝ) (ho : o.Fitted) (h : o.MapsOK m) (c : κ)
    (k : Fin (n + 1)) :
    IsGradient (fun x => logGauss o.chol o.means (o.sens c) (o.cell x c) k)
      (fun q => -∑ i, o.mD m (i, c) q * (o.sens c i * (o.prec.matrix k *ᵥ
        (o.sens c * (o.cell m c - o.means k))) i)) m := by
  have hP : (o.prec.matrix k)ᵀ = o.prec.matrix k := by
    rw [ho.factor, transpose_mul, transpose_transpose]
  have h1 : IsJacobian (fun x => o.sens c * (o.cell x c - o.means k))
      (diagonal (o.sens c) * o.cellD m c) m := by
    have h0 := ((cell_jac o m h c).sub (isJacobian_const (o.means k) m)).mulVec (diagonal (o.sens c))
    rw [sub_zero] at h0
    simpa only [diag_mulVec] using h0
  have h2 := quad_grad _ hP h1
  have h3 := Verif.Maps.Parametric.Props.gAdd (Verif.Maps.Parametric.Props.gSmul (-1 / 2) h2)
    (Verif.Maps.Parametric.Props.gConst
      (logDet o.chol k - (Fintype.card π : ℝ) * Real.log (2 * Real.pi) / 2))
  have h4 := gEq (g := fun x => logGauss o.chol o.means (o.sens c) (o.cell x c) k) h3 (fun x => by
    rw [logGauss_eq, ho.factor]
    ring)
  refine Verif.Maps.Parametric.Props.gCongr h4 ?_
  intro q
  simp only [Pi.smul_apply, smul_eq_mul, add_zero, Matrix.mulVec, dotProduct, transpose_apply,
    Matrix.diagonal_mul, Full.cellD, Matrix.of_apply]
  rw [← Finset.sum_neg_distrib, Finset.mul_sum, Finset.mul_sum]
  refine Finset.sum_congr rfl fun i _ => ?_
  ring

theorem gSum {ι ν : Type} [Fintype ι] [Fintype ν] {f : ν → (ι → ℝ) → ℝ} {u : ν → ι → ℝ} {m : ι → ℝ}
    (h : ∀ k, IsGradient (f k) (u k) m) : IsGradient (fun x => ∑ k, f k x) (fun j => ∑ k, u k j) m := by
  have hs := HasFDerivAt.fun_sum (u := Finset.univ) fun c (_ : c ∈ Finset.univ) => h c
  refine HasFDerivAt.congr_fderiv hs ?_
  ext v
  rw [_root_.sum_apply]
  simp only [dotL_apply, dotProduct, Finset.sum_mul]
  exact Finset.sum_comm

theorem score_grad (o : Full n π κ) (m : π × κ → ℝ) (ho : o.Fitted) (h : o.MapsOK m) (c : κ) :
    IsGradient (fun x => score o.chol o.means o.prop (o.sens c) (o.cell x c))
      (fun q => -∑ i, o.mD m (i, c) q * ((∑ k, o.pull m k (i, c) *
        Real.exp (logGauss o.chol o.means (o.sens c) (o.cell m c) k)) /
        Real.exp (score o.chol o.means o.prop (o.sens c) (o.cell m c)))) m := by
  have h1 : ∀ k, IsGradient (fun x => o.prop k *
      Real.exp (logGauss o.chol o.means (o.sens c) (o.cell x c) k)) _ m := fun k =>
    Verif.Maps.Parametric.Props.gSmul (o.prop k) (Verif.Maps.Parametric.Props.gComp
      (Real.hasDerivAt_exp _) (logGauss_grad o m ho h c k))
  have h2 := gSum h1
  have hpos : 0 < ∑ k, o.prop k * Real.exp (logGauss o.chol o.means (o.sens c) (o.cell m c) k) :=
    Finset.sum_pos (fun k _ => mul_pos (ho.prop k) (Real.exp_pos _)) Finset.univ_nonempty
  have h3 := Verif.Maps.Parametric.Props.gComp (f := fun x => ∑ k, o.prop k *
    Real.exp (logGauss o.chol o.means (o.sens c) (o.cell x c) k)) (Real.hasDerivAt_log hpos.ne') h2
  have h4 := gEq (g := fun x => score o.chol o.means o.prop (o.sens c) (o.cell x c)) h3 (fun x => by
    rw [← score_exp _ _ _ _ _ ho.prop, Real.log_exp])
  refine Verif.Maps.Parametric.Props.gCongr h4 ?_
  intro q
  rw [score_exp _ _ _ _ _ ho.prop, inv_mul_eq_div]
  simp only [pull_eq]
  rw [← Finset.sum_neg_distrib]
  simp only [← mul_div_assoc]
  simp only [← neg_div]
  rw [← Finset.sum_div]
  congr 1
  simp only [mul_neg, Finset.mul_sum, Finset.sum_neg_distrib]
  rw [neg_inj, Finset.sum_comm]
  refine Finset.sum_congr rfl fun i _ => Finset.sum_congr rfl fun k _ => ?_
  ring

/-- `deriv` is the gradient of the full value, for all covariance types, any weights and any maps. -/
theorem C131_gradient (o : Full n π κ) (m : π × κ → ℝ) (ho : o.Fitted) (h : o.MapsOK m) :
    IsGradient o.value (o.deriv m) m := by
  have h1 := Verif.Maps.Parametric.Props.gSmul (-2) (gSum (score_grad o m ho h))
  refine Verif.Maps.Parametric.Props.gCongr h1 ?_
  intro q
  simp only [Full.deriv, Pi.smul_apply, smul_eq_mul, Matrix.mulVec, dotProduct, transpose_apply,
    Fintype.sum_prod_type]
  rw [Finset.sum_comm]
  simp only [Finset.sum_neg_distrib]
  ring

/-- The constant that the least-squares form drops for the unit `k`. -/
def Full.const (o : Full n π κ) (k : Fin (n + 1)) : ℝ :=
  (Fintype.card π : ℝ) * Real.log (2 * Real.pi) - 2 * ∑ i, Real.log (o.chol.matrix k i i) -
    2 * Real.log (o.prop k)

theorem term_eq (o : Full n π κ) (m : π × κ → ℝ) (ho : o.Fitted) (c : κ) (k : Fin (n + 1)) :
    logGauss o.chol o.means (o.sens c) (o.cell m c) k + Real.log (o.prop k) =
      -(quad (o.prec.matrix k) (o.sens c * (o.cell m c - o.means k)) + o.const k) / 2 := by
  rw [logGauss_eq, logDet_eq, ho.factor, Full.const]
  ring

theorem approx_value (o : Full n π κ) (m : π × κ → ℝ) (z : κ → Fin (n + 1))
    (hinj : Function.Injective o.means) (hz : ∀ i c, o.mref (i, c) = o.means (z c) i) :
    o.toSmall.value m = ∑ c, quad (o.prec.matrix (z c)) (o.sens c * (o.cell m c - o.means (z c))) := by
  rw [C130_value, C130_membership o.toSmall z hinj hz]
  refine Finset.sum_congr rfl fun c _ => ?_
  congr 1
  funext i
  simp only [hz]
  rfl

/-- The least-squares form (with the reference model made of the means of any units) is an upper
bound of the full value, up to a constant that does not depend on the model. -/
theorem C131_majorise (o : Full n π κ) (m : π × κ → ℝ) (ho : o.Fitted) (z : κ → Fin (n + 1))
    (hinj : Function.Injective o.means) (hz : ∀ i c, o.mref (i, c) = o.means (z c) i) :
    o.value m ≤ o.toSmall.value m + ∑ c, o.const (z c) := by
  rw [approx_value o m z hinj hz, ← Finset.sum_add_distrib, Full.value, Finset.mul_sum]
  refine Finset.sum_le_sum fun c _ => ?_
  have h1 : Real.log (Real.exp (logGauss o.chol o.means (o.sens c) (o.cell m c) (z c) +
      Real.log (o.prop (z c)))) ≤ score o.chol o.means o.prop (o.sens c) (o.cell m c) := by
    apply Real.log_le_log (Real.exp_pos _)
    exact Finset.single_le_sum (f := fun k => Real.exp (logGauss o.chol o.means (o.sens c)
      (o.cell m c) k + Real.log (o.prop k))) (fun k _ => (Real.exp_pos _).le) (Finset.mem_univ (z c))
  rw [Real.log_exp, term_eq o m ho] at h1
  linarith

/-- With the most probable unit in every cell the two forms differ by at most `2 log K` per cell, `K`
the number of units. -/
theorem C131_minorise (o : Full n π κ) (m : π × κ → ℝ) (ho : o.Fitted) (z : κ → Fin (n + 1))
    (hinj : Function.Injective o.means) (hz : ∀ i c, o.mref (i, c) = o.means (z c) i)
    (hbest : ∀ c k, quad (o.prec.matrix (z c)) (o.sens c * (o.cell m c - o.means (z c))) +
      o.const (z c) ≤ quad (o.prec.matrix k) (o.sens c * (o.cell m c - o.means k)) + o.const k) :
    o.toSmall.value m + ∑ c, o.const (z c) - 2 * (Fintype.card κ : ℝ) * Real.log (n + 1) ≤
      o.value m := by
  rw [approx_value o m z hinj hz, ← Finset.sum_add_distrib, Full.value, Finset.mul_sum]
  have hc : 2 * (Fintype.card κ : ℝ) * Real.log (n + 1) = ∑ _c : κ, 2 * Real.log (n + 1) := by
    simp; ring
  rw [hc, ← Finset.sum_sub_distrib]
  refine Finset.sum_le_sum fun c _ => ?_
  have h1 : score o.chol o.means o.prop (o.sens c) (o.cell m c) ≤ Real.log ((n + 1) *
      Real.exp (-(quad (o.prec.matrix (z c)) (o.sens c * (o.cell m c - o.means (z c))) +
        o.const (z c)) / 2)) := by
    apply Real.log_le_log (Finset.sum_pos (fun k _ => Real.exp_pos _) Finset.univ_nonempty)
    have h2 : ∀ k ∈ (Finset.univ : Finset (Fin (n + 1))), Real.exp (logGauss o.chol o.means (o.sens c)
        (o.cell m c) k + Real.log (o.prop k)) ≤
        Real.exp (-(quad (o.prec.matrix (z c)) (o.sens c * (o.cell m c - o.means (z c))) +
        o.const (z c)) / 2) := by
      intro k _
      rw [term_eq o m ho]
      apply Real.exp_le_exp.2
      linarith [hbest c k]
    have h3 := Finset.sum_le_card_nsmul _ _ _ h2
    simpa using h3
  rw [Real.log_mul (by positivity) (Real.exp_pos _).ne', Real.log_exp] at h1
  linarith

/-- One unit: the two forms have the same value, up to the constant. -/
theorem C131_single (o : Full 0 π κ) (m : π × κ → ℝ) (ho : o.Fitted)
    (hz : ∀ i c, o.mref (i, c) = o.means 0 i) :
    o.value m = o.toSmall.value m + (Fintype.card κ : ℝ) * o.const 0 := by
  have hinj : Function.Injective o.means := fun a b _ => by
    rw [Fin.fin_one_eq_zero a, Fin.fin_one_eq_zero b]
  have h1 := C131_majorise o m ho (fun _ => 0) hinj hz
  have h2 := C131_minorise o m ho (fun _ => 0) hinj hz (fun c k => by
    rw [Fin.fin_one_eq_zero k])
  simp at h1 h2
  linarith

/-- Posterior probability of the unit `k` in a cell. -/
def Full.resp (o : Full n π κ) (m : π × κ → ℝ) (c : κ) (k : Fin (n + 1)) : ℝ :=
  Real.exp (logGauss o.chol o.means (o.sens c) (o.cell m c) k + Real.log (o.prop k)) /
    Real.exp (score o.chol o.means o.prop (o.sens c) (o.cell m c))

theorem resp_sum (o : Full n π κ) (m : π × κ → ℝ) (c : κ) : ∑ k, o.resp m c k = 1 := by
  have hpos : 0 < ∑ k, Real.exp (logGauss o.chol o.means (o.sens c) (o.cell m c) k +
    Real.log (o.prop k)) := Finset.sum_pos (fun k _ => Real.exp_pos _) Finset.univ_nonempty
  simp only [Full.resp]
  rw [← Finset.sum_div, score, Real.exp_log hpos, div_self hpos.ne']

theorem deriv2_apply (o : Full n π κ) (m : π × κ → ℝ) (s : π × κ → ℝ)
    (hD : ∀ i, o.mapD i (wire m i) = diagonal fun c => s (i, c)) (p q : π × κ) :
    o.deriv2 m p q = if p.2 = q.2 then 2 * s p ^ 2 * ∑ k, o.resp m p.2 k *
      (o.sens p.2 q.1 * o.prec.matrix k q.1 p.1 * o.sens p.2 p.1) else 0 := by
  have hd : o.mD m = diagonal s := by
    ext ⟨i, c⟩ ⟨j, d⟩
    simp only [Small.mD, hD, diagonal_apply, Prod.mk.injEq]
    by_cases h1 : i = j <;> by_cases h2 : c = d <;> simp [h1, h2]
  rw [Full.deriv2, hd, diagonal_transpose, diagonal_mul_diagonal, Matrix.smul_mul, Matrix.smul_apply,
    Matrix.diagonal_mul, Full.blocks, Matrix.of_apply]
  split_ifs with h
  · rw [Finset.sum_div, smul_eq_mul, Finset.mul_sum, Finset.mul_sum, Finset.mul_sum]
    refine Finset.sum_congr rfl fun k _ => ?_
    rw [Matrix.diagonal_mul, Matrix.mul_diagonal, Full.resp]
    ring
  · simp

/-- With equal cellwise derivatives in a cell (identity maps, say) the matrix is the average of the
precisions with the posterior probabilities (which sum to one), symmetric and positive semidefinite.
What is missing: other maps, see `C131_violated_hessian`; it is not the exact Hessian of the mixture,
which may be indefinite. -/
theorem C131_hessian_partial (o : Full n π κ) (m v : π × κ → ℝ) (ho : o.Fitted) (s : κ → ℝ)
    (hD : ∀ i, o.mapD i (wire m i) = diagonal s) :
    (o.deriv2 m).IsSymm ∧ v ⬝ᵥ (o.deriv2 m *ᵥ v) = 2 * ∑ c, s c ^ 2 * ∑ k, o.resp m c k *
      quad (o.prec.matrix k) (fun i => o.sens c i * v (i, c)) ∧
    (∀ c, ∑ k, o.resp m c k = 1) ∧ 0 ≤ v ⬝ᵥ (o.deriv2 m *ᵥ v) := by
  have hsym : ∀ k i j, o.prec.matrix k i j = o.prec.matrix k j i := by
    intro k i j
    rw [ho.factor, Matrix.mul_apply, Matrix.mul_apply]
    exact Finset.sum_congr rfl fun a _ => by simp [mul_comm]
  have key := deriv2_apply o m (fun p => s p.2) hD
  have hv : v ⬝ᵥ (o.deriv2 m *ᵥ v) = 2 * ∑ c, s c ^ 2 * ∑ k, o.resp m c k *
      quad (o.prec.matrix k) (fun i => o.sens c i * v (i, c)) := by
    simp only [dotProduct, Matrix.mulVec, key, Fintype.sum_prod_type, ite_mul, zero_mul,
      Finset.sum_ite_eq, Finset.mem_univ, if_true, quad]
    rw [Finset.sum_comm, Finset.mul_sum]
    refine Finset.sum_congr rfl fun c _ => ?_
    simp only [Finset.mul_sum, Finset.sum_mul]
    rw [show (∑ k, ∑ i, ∑ j, 2 * (s c ^ 2 * (o.resp m c k * (o.sens c i * v (i, c) *
      o.prec.matrix k i j * (o.sens c j * v (j, c)))))) = ∑ i, ∑ j, ∑ k, 2 * (s c ^ 2 *
      (o.resp m c k * (o.sens c i * v (i, c) * o.prec.matrix k i j * (o.sens c j * v (j, c))))) by
      rw [Finset.sum_comm]
      exact Finset.sum_congr rfl fun i _ => Finset.sum_comm]
    refine Finset.sum_congr rfl fun i _ => Finset.sum_congr rfl fun j _ =>
      Finset.sum_congr rfl fun k _ => ?_
    rw [hsym k j i]
    ring
  refine ⟨?_, hv, resp_sum o m, ?_⟩
  · apply Matrix.IsSymm.ext
    intro p q
    rw [key, key]
    by_cases h : p.2 = q.2
    · rw [if_pos h, if_pos h.symm, h]
      congr 1
      refine Finset.sum_congr rfl fun k _ => ?_
      rw [hsym k q.1 p.1]
      ring
    · rw [if_neg h, if_neg (Ne.symm h)]
  · rw [hv]
    refine mul_nonneg (by norm_num) (Finset.sum_nonneg fun c _ => mul_nonneg (sq_nonneg _)
      (Finset.sum_nonneg fun k _ => mul_nonneg (by unfold Full.resp; positivity) ?_))
    rw [ho.factor, ← sum_sq_vecMul]
    exact Finset.sum_nonneg fun _ _ => sq_nonneg _

/-- One unit, one cell, two correlated properties whose maps have different derivatives: the matrix
is not symmetric. -/
theorem C131_violated_hessian (o : Full 0 (Fin 2) (Fin 1)) (m s : Fin 2 × Fin 1 → ℝ) (ho : o.Fitted)
    (hD : ∀ i, o.mapD i (wire m i) = diagonal fun c => s (i, c)) (hw : ∀ p, 0 < o.weights p)
    (hd : s (0, 0) ^ 2 ≠ s (1, 0) ^ 2) (hP : o.prec.matrix 0 0 1 ≠ 0) : ¬ (o.deriv2 m).IsSymm := by
  intro h
  have hr : o.resp m 0 0 = 1 := by simpa using resp_sum o m 0
  have hsym : o.prec.matrix 0 1 0 = o.prec.matrix 0 0 1 := by
    rw [ho.factor, Matrix.mul_apply, Matrix.mul_apply]
    exact Finset.sum_congr rfl fun a _ => by simp [mul_comm]
  have h1 := h.apply (0, 0) (1, 0)
  rw [deriv2_apply o m s hD, deriv2_apply o m s hD] at h1
  simp [hr, hsym] at h1
  have hw0 : 0 < o.sens 0 0 := Real.sqrt_pos.2 (hw (0, 0))
  have hw1 : 0 < o.sens 0 1 := Real.sqrt_pos.2 (hw (1, 0))
  apply hd
  have hne : o.prec.matrix 0 0 1 * o.sens 0 0 * o.sens 0 1 ≠ 0 :=
    mul_ne_zero (mul_ne_zero hP hw0.ne') hw1.ne'
  apply mul_right_cancel₀ hne
  linarith

/-! ### Proportions that change from cell to cell -/

/-- Two one-dimensional arrays multiplied by NumPy: equal lengths, or one of them has length one. -/
def broadcast (a b : ℕ) : Except Err ℕ :=
  if a = b then .ok a else if a = 1 then .ok b else if b = 1 then .ok a else .error .valueError

/-- The loop over the units in `deriv` with `approx_gradient=False`, shapes only: `weights_` has `rows`
rows of `units` numbers (local proportions: a row for each cell), `weights_[k]` is multiplied with an
array of `cells * props` numbers (`simpeg/regularization/pgi.py` 626-702). -/
def localLoop (rows units cells props : ℕ) : ℕ → Except Err Unit
  | 0 => .ok ()
  | k + 1 => do
    localLoop rows units cells props k
    if rows ≤ k then throw Err.indexError
    let _ ← broadcast units (cells * props)
    pure ()

/-- Local proportions: the value exists but the gradient raises, unless the number of units happens to
be the number of parameters (or one of the two is one). -/
theorem C131_violated_local (cells units props : ℕ) (hc : 0 < cells) (h1 : units ≠ 1)
    (h2 : cells * props ≠ 1) (h3 : units ≠ cells * props) (h0 : 0 < units) :
    localLoop cells units cells props units = .error .valueError := by
  have hb : broadcast units (cells * props) = .error .valueError := by
    simp [broadcast, h1, h2, h3]
  have : ∀ k, localLoop cells units cells props (k + 1) = .error .valueError := by
    intro k
    induction k with
    | zero =>
      simp only [localLoop, hb]
      rw [if_neg (by omega)]
      rfl
    | succ k ih => rw [localLoop, ih]; rfl
  obtain ⟨k, rfl⟩ : ∃ k, units = k + 1 := ⟨units - 1, by omega⟩
  exact this k

example : localLoop 100 3 100 2 3 = .error .valueError :=
  C131_violated_local 100 3 2 (by decide) (by decide) (by decide) (by decide) (by decide)

/-! ### Concrete case -/

/-- The object of `demo` with proportions and factors of the precisions. -/
def demoFull : Full 1 (Fin 2) (Fin 2) where
  toSmall := { demo with prec := .diag ![![4, 9], ![1, 16]] }
  prop := ![0.25, 0.75]
  chol := .diag ![![2, 3], ![1, 4]]

theorem demoFull_fitted : demoFull.Fitted where
  factor k := by
    fin_cases k <;> ext i j <;> fin_cases i <;> fin_cases j <;>
      norm_num [demoFull, Prec.matrix, Matrix.mul_apply, Fin.sum_univ_two, diagonal_apply]
  pos k i := by
    fin_cases k <;> fin_cases i <;> simp [demoFull, Prec.matrix]
  prop k := by
    fin_cases k <;> simp [demoFull] <;> norm_num

example (m : Fin 2 × Fin 2 → ℝ) : IsGradient demoFull.value (demoFull.deriv m) m :=
  C131_gradient demoFull m demoFull_fitted (demo_maps m)

example (m : Fin 2 × Fin 2 → ℝ) :
    demoFull.value m ≤ demoFull.toSmall.value m + ∑ c, demoFull.const (![1, 0] c) := by
  apply C131_majorise demoFull m demoFull_fitted ![1, 0]
  · intro a b h
    have := congrFun h 0
    fin_cases a <;> fin_cases b <;> simp_all [demoFull, demo]
  · intro i c
    fin_cases i <;> fin_cases c <;> simp [demoFull, demo]

end Verif.Reg.PGI
