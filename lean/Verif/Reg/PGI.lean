import Verif.Basic
import Verif.Jacobian
import Verif.Reg.Calculus
import Verif.Maps.Parametric
import Mathlib.LinearAlgebra.Matrix.PosDef
import Mathlib.Analysis.SpecialFunctions.Sqrt

/-!
C130: the least-squares form of the petrophysical smallness term `PGIsmallness`
(`simpeg/regularization/pgi.py`), the default of `PGI`. `π` are the physical properties, `κ` the
active cells, `Fin (n + 1)` the rock units of the Gaussian mixture. The entries of a model are
`π × κ`, property by property, which is the order `Wires` and `mkvc` use. Simplified: every property
has one parameter per cell (the maps may be non-linear and mix cells), linear relationships only.
-/

noncomputable section
namespace Verif.Reg.PGI
open Matrix

variable {n : ℕ} {π κ : Type} [Fintype π] [Fintype κ] [DecidableEq π] [DecidableEq κ]

set_option linter.unusedSectionVars false

/-- `numpy.argmin` of a non-empty array: the first index of the smallest entry. -/
def argmin : {n : ℕ} → (Fin (n + 1) → ℝ) → Fin (n + 1)
  | 0, _ => 0
  | _ + 1, f =>
    let j := argmin (fun i => f i.succ)
    if f 0 ≤ f j.succ then 0 else j.succ

/-- `precisions_` of a mixture, by covariance type
(`simpeg/utils/pgi_utils.py` 105-120 and 122-165 set them). -/
inductive Prec (n : ℕ) (π : Type) where
  | full (P : Fin (n + 1) → Matrix π π ℝ)
  | tied (P : Matrix π π ℝ)
  | diag (p : Fin (n + 1) → π → ℝ)
  | spherical (p : Fin (n + 1) → ℝ)

/-- A `PGIsmallness` object: means and precisions of `gmm`, the maps of `maplist` with their
derivatives, the product of the registered weights (volume weights among them), and the reference
model (`simpeg/regularization/pgi.py` 188-231). -/
structure Small (n : ℕ) (π κ : Type) where
  means : Fin (n + 1) → π → ℝ
  prec : Prec n π
  map : π → (κ → ℝ) → κ → ℝ
  mapD : π → (κ → ℝ) → Matrix κ κ ℝ
  weights : π × κ → ℝ
  mref : π × κ → ℝ

/-- `wiresmap * m`: the parameters of one property (`simpeg/maps/_base.py` 1100-1118). -/
def wire (m : π × κ → ℝ) (i : π) : κ → ℝ := fun c => m (i, c)

/-- `self.W` (`simpeg/regularization/base.py` 385-420; set by
`simpeg/regularization/pgi.py` 232-253). -/
def Small.W (o : Small n π κ) : Matrix (π × κ) (π × κ) ℝ := diagonal fun p => Real.sqrt (o.weights p)

/-- `compute_quasi_geology_model()`: for every cell the unit with the mean nearest to the reference
model (`simpeg/regularization/pgi.py` 316-350). -/
def Small.geology (o : Small n π κ) : κ → Fin (n + 1) :=
  fun c => argmin fun k => ∑ i, (o.mref (i, c) - o.means k i) ^ 2

/-- `dmm`: the model mapped to physical properties (`simpeg/regularization/pgi.py` 457-459 and
536-537). -/
def Small.mapped (o : Small n π κ) (m : π × κ → ℝ) : π × κ → ℝ :=
  fun p => o.map p.1 (wire m p.1) p.2

/-- `r0` (`simpeg/regularization/pgi.py` 468-470, 550-552). -/
def Small.r0 (o : Small n π κ) (m : π × κ → ℝ) : π × κ → ℝ := o.W *ᵥ (o.mapped m - o.mref)

/-- `r1`: the precision of the unit of each cell applied to a residual, by covariance type
(`simpeg/regularization/pgi.py` 472-490, 554-597). -/
def Prec.apply (P : Prec n π) (z : κ → Fin (n + 1)) (r : π × κ → ℝ) : π × κ → ℝ :=
  match P with
  | .tied P => fun p => (P *ᵥ fun i => r (i, p.2)) p.1
  | .diag q => fun p => r p * q (z p.2) p.1
  | .spherical q => fun p => r p * q (z p.2)
  | .full P => fun p => (P (z p.2) *ᵥ fun i => r (i, p.2)) p.1

/-- `PGIsmallness.__call__(m)` with `approx_eval=True`
(`simpeg/regularization/pgi.py` 431-492). -/
def Small.value (o : Small n π κ) (m : π × κ → ℝ) : ℝ :=
  o.r0 m ⬝ᵥ o.prec.apply o.geology (o.r0 m)

/-- `mD`: the derivatives of the maps, a block for each property
(`simpeg/regularization/pgi.py` 539-540). -/
def Small.mD (o : Small n π κ) (m : π × κ → ℝ) : Matrix (π × κ) (π × κ) ℝ :=
  fun p q => if p.1 = q.1 then o.mapD p.1 (wire m p.1) p.2 q.2 else 0

/-- `PGIsmallness.deriv(m)` with `approx_gradient=True`
(`simpeg/regularization/pgi.py` 514-598). -/
def Small.deriv (o : Small n π κ) (m : π × κ → ℝ) : π × κ → ℝ :=
  (2 : ℝ) • ((o.mD m)ᵀ *ᵥ (o.Wᵀ *ᵥ o.prec.apply o.geology (o.r0 m)))

/-- `_r_second_deriv` when it is computed: the precision of the unit of each cell
(`simpeg/regularization/pgi.py` 751-816). -/
def Prec.second (P : Prec n π) (z : κ → Fin (n + 1)) : κ → Matrix π π ℝ :=
  match P with
  | .tied P => fun _ => P
  | .diag q => fun c => diagonal (q (z c))
  | .spherical q => fun c => q (z c) • (1 : Matrix π π ℝ)
  | .full P => fun c => P (z c)

/-- `PGIsmallness.deriv2(m, v)` with `approx_hessian=True`
(`simpeg/regularization/pgi.py` 741-825). -/
def Small.deriv2v (o : Small n π κ) (m v : π × κ → ℝ) : π × κ → ℝ :=
  let r0 := o.W *ᵥ (o.mD m *ᵥ v)
  (2 : ℝ) • ((o.mD m)ᵀ *ᵥ (o.W *ᵥ fun p =>
    ∑ k, o.prec.second o.geology p.2 p.1 k * r0 (k, p.2)))

/-- `Hr`: diagonal blocks, the block in row `i` and column `j` has the entries `[:, j, i]`
(`simpeg/regularization/pgi.py` 827-840). -/
def Small.blocks (o : Small n π κ) : Matrix (π × κ) (π × κ) ℝ :=
  fun p q => if p.2 = q.2 then o.prec.second o.geology p.2 q.1 p.1 else 0

/-- `PGIsmallness.deriv2(m)` with `approx_hessian=True`
(`simpeg/regularization/pgi.py` 826-844). -/
def Small.deriv2 (o : Small n π κ) (m : π × κ → ℝ) : Matrix (π × κ) (π × κ) ℝ :=
  (2 : ℝ) • (((o.mD m)ᵀ * o.mD m) * (o.W * (o.blocks * o.W)))

/-! ### Specification -/

/-- The precision matrix of the unit `k`. -/
def Prec.matrix (P : Prec n π) (k : Fin (n + 1)) : Matrix π π ℝ :=
  match P with
  | .full P => P k
  | .tied P => P
  | .diag q => diagonal (q k)
  | .spherical q => diagonal fun _ => q k

/-- The Mahalanobis form `xᵀ P x`. -/
def quad (P : Matrix π π ℝ) (x : π → ℝ) : ℝ := ∑ i, ∑ j, x i * P i j * x j

/-- The derivative of every map in `maplist` is its Jacobian at the model `m`. -/
def Small.MapsOK (o : Small n π κ) (m : π × κ → ℝ) : Prop :=
  ∀ i, IsJacobian (o.map i) (o.mapD i (wire m i)) (wire m i)

/-! ### Lemmas -/

theorem argmin_le {n : ℕ} (f : Fin (n + 1) → ℝ) (k : Fin (n + 1)) : f (argmin f) ≤ f k := by
  induction n with
  | zero => rw [show k = 0 from Fin.fin_one_eq_zero k]; exact le_rfl
  | succ n ih =>
    have h := ih (fun i => f i.succ)
    unfold argmin
    dsimp only
    refine Fin.cases ?_ (fun k => ?_) k
    · split_ifs with h0
      · exact le_rfl
      · exact (not_le.1 h0).le
    · split_ifs with h0
      · exact h0.trans (h k)
      · exact h k

theorem argmin_lt {n : ℕ} (f : Fin (n + 1) → ℝ) (k : Fin (n + 1)) (hk : k < argmin f) :
    f (argmin f) < f k := by
  induction n with
  | zero => rw [show k = 0 from Fin.fin_one_eq_zero k] at hk; exact absurd hk (lt_irrefl _)
  | succ n ih =>
    have h := ih (fun i => f i.succ)
    unfold argmin at hk ⊢
    dsimp only at hk ⊢
    split_ifs at hk ⊢ with h0
    · simp at hk
    · revert hk
      refine Fin.cases ?_ (fun k => ?_) k
      · intro _; exact not_le.1 h0
      · intro hk; exact h k (by simpa using hk)

theorem Prec.second_eq (P : Prec n π) (z : κ → Fin (n + 1)) (c : κ) : P.second z c = P.matrix (z c) := by
  cases P <;> simp [Prec.second, Prec.matrix]
  rw [← Matrix.smul_one_eq_diagonal]

theorem Prec.apply_eq (P : Prec n π) (z : κ → Fin (n + 1)) (r : π × κ → ℝ) (p : π × κ) :
    P.apply z r p = ∑ j, P.matrix (z p.2) p.1 j * r (j, p.2) := by
  cases P <;> simp [Prec.apply, Prec.matrix, Matrix.mulVec, dotProduct, diagonal_apply, mul_comm]

/-- The whole precision matrix, cell by cell. -/
def big (P : Prec n π) (z : κ → Fin (n + 1)) : Matrix (π × κ) (π × κ) ℝ :=
  fun p q => if p.2 = q.2 then P.matrix (z p.2) p.1 q.1 else 0

theorem big_mulVec (P : Prec n π) (z : κ → Fin (n + 1)) (r : π × κ → ℝ) : big P z *ᵥ r = P.apply z r := by
  funext p
  rw [Prec.apply_eq]
  simp [big, Matrix.mulVec, dotProduct, Fintype.sum_prod_type]

theorem second_mulVec (P : Prec n π) (z : κ → Fin (n + 1)) (r : π × κ → ℝ) :
    (fun p : π × κ => ∑ k, P.second z p.2 p.1 k * r (k, p.2)) = big P z *ᵥ r := by
  funext p
  rw [big_mulVec, Prec.apply_eq, Prec.second_eq]

theorem big_transpose (P : Prec n π) (z : κ → Fin (n + 1)) (hs : ∀ k, (P.matrix k).IsSymm) :
    (big P z)ᵀ = big P z := by
  ext p q
  simp only [big, transpose_apply]
  by_cases h : p.2 = q.2
  · rw [if_pos h, if_pos h.symm, h]; exact (hs _).apply _ _
  · rw [if_neg h, if_neg (Ne.symm h)]

theorem dot_big (P : Prec n π) (z : κ → Fin (n + 1)) (x y : π × κ → ℝ) :
    x ⬝ᵥ (big P z *ᵥ y) = ∑ c, ∑ i, ∑ j, x (i, c) * P.matrix (z c) i j * y (j, c) := by
  rw [big_mulVec]
  simp only [dotProduct, Prec.apply_eq, Fintype.sum_prod_type]
  rw [Finset.sum_comm]
  simp only [Finset.mul_sum, mul_assoc]

theorem r0_apply (o : Small n π κ) (m : π × κ → ℝ) (i : π) (c : κ) :
    o.r0 m (i, c) = Real.sqrt (o.weights (i, c)) * (o.map i (fun d => m (i, d)) c - o.mref (i, c)) := by
  simp only [Small.r0, Small.W, diag_mulVec, Pi.mul_apply, Pi.sub_apply, Small.mapped, wire]
  rfl

theorem wire_jac (m : π × κ → ℝ) (i : π) :
    IsJacobian (fun x : π × κ → ℝ => wire x i) (fun c q => if (i, c) = q then 1 else 0) m := by
  refine (isJacobian_mulVec (fun c q => if (i, c) = q then (1 : ℝ) else 0) m).congr
    (Filter.Eventually.of_forall fun x => ?_)
  funext c
  simp [Matrix.mulVec, dotProduct, wire]

theorem mD_jac (o : Small n π κ) (m : π × κ → ℝ) (h : o.MapsOK m) : IsJacobian o.mapped (o.mD m) m := by
  rw [isJacobian_iff]
  rintro ⟨i, c⟩
  have h1 := IsJacobian.comp (h i) (wire_jac m i)
  rw [isJacobian_iff] at h1
  refine (h1 c).congr_fderiv ?_
  congr 1
  funext q
  rcases q with ⟨j, d⟩
  show ∑ e, o.mapD i (wire m i) c e * (if (i, e) = (j, d) then 1 else 0) = _
  simp only [Small.mD, Prod.mk.injEq, mul_ite, mul_one, mul_zero]
  by_cases hij : i = j <;> simp [hij]

theorem r0_jac (o : Small n π κ) (m : π × κ → ℝ) (h : o.MapsOK m) :
    IsJacobian o.r0 (o.W * o.mD m) m := by
  have h1 := ((mD_jac o m h).sub (isJacobian_const o.mref m)).mulVec o.W
  rw [sub_zero] at h1
  exact h1

theorem W_transpose (o : Small n π κ) : o.Wᵀ = o.W := by simp [Small.W]

/-- The gradient of `r · Λ r` for a symmetric matrix. -/
theorem quad_gradient {ι ν : Type} [Fintype ι] [Fintype ν] [DecidableEq ν] {r : (ι → ℝ) → ν → ℝ}
    {J : Matrix ν ι ℝ} {m : ι → ℝ} (hr : IsJacobian r J m) (L : Matrix ν ν ℝ) (hL : Lᵀ = L) :
    IsGradient (fun x => r x ⬝ᵥ (L *ᵥ r x)) ((2 : ℝ) • (Jᵀ *ᵥ (L *ᵥ r m))) m := by
  have h1 := hr.mul (hr.mulVec L)
  refine isGradient_sum h1 ?_
  intro v
  have e : ∀ a b : ν → ℝ, a ⬝ᵥ (L *ᵥ b) = (L *ᵥ a) ⬝ᵥ b := by
    intro a b
    rw [Matrix.dotProduct_mulVec, ← Matrix.mulVec_transpose, hL]
  have e2 : ∑ c, ((diagonal (r m) * (L * J) + diagonal (L *ᵥ r m) * J) *ᵥ v) c =
      r m ⬝ᵥ (L *ᵥ (J *ᵥ v)) + (L *ᵥ r m) ⬝ᵥ (J *ᵥ v) := by
    rw [Matrix.add_mulVec, ← Matrix.mulVec_mulVec, ← Matrix.mulVec_mulVec, ← Matrix.mulVec_mulVec,
      diag_mulVec, diag_mulVec]
    simp [dotProduct, Finset.sum_add_distrib]
  rw [e2, e, smul_dotProduct, Matrix.mulVec_transpose, ← Matrix.dotProduct_mulVec]
  simp [two_mul]

/-! ### C130 -/

/-- Membership: the reference model made of the means of units `z` gives back `z`, if no two units
have the same mean. Example below. -/
theorem C130_membership (o : Small n π κ) (z : κ → Fin (n + 1))
    (hinj : Function.Injective o.means) (hz : ∀ i c, o.mref (i, c) = o.means (z c) i) :
    o.geology = z := by
  funext c
  apply hinj
  have h0 := argmin_le (fun k => ∑ i, (o.mref (i, c) - o.means k i) ^ 2) (z c)
  have h1 : ∑ i, (o.mref (i, c) - o.means (z c) i) ^ 2 = 0 := by simp [hz]
  have h2 : ∑ i, (o.mref (i, c) - o.means (o.geology c) i) ^ 2 = 0 := by
    refine le_antisymm ?_ (Finset.sum_nonneg fun _ _ => sq_nonneg _)
    rw [← h1]; exact h0
  funext i
  have h3 := (Finset.sum_eq_zero_iff_of_nonneg (fun _ _ => sq_nonneg _)).1 h2 i (Finset.mem_univ i)
  have h4 : o.mref (i, c) - o.means (o.geology c) i = 0 := by simpa using h3
  rw [hz] at h4
  linarith

/-- Any reference model: the unit of a cell has the nearest mean, the first of several. -/
theorem C130_nearest (o : Small n π κ) (c : κ) (k : Fin (n + 1)) :
    ∑ i, (o.mref (i, c) - o.means (o.geology c) i) ^ 2 ≤ ∑ i, (o.mref (i, c) - o.means k i) ^ 2 ∧
    (k < o.geology c → ∑ i, (o.mref (i, c) - o.means (o.geology c) i) ^ 2 <
      ∑ i, (o.mref (i, c) - o.means k i) ^ 2) :=
  ⟨argmin_le (fun k => ∑ i, (o.mref (i, c) - o.means k i) ^ 2) k,
   argmin_lt (fun k => ∑ i, (o.mref (i, c) - o.means k i) ^ 2) k⟩

/-- Two units with the same mean (and different covariances, say): a cell in the second is
treated as a cell of an earlier unit. -/
theorem C130_violated_same_mean (o : Small n π κ) (z : κ → Fin (n + 1)) (c : κ) (k : Fin (n + 1))
    (hz : ∀ i c, o.mref (i, c) = o.means (z c) i) (hk : k < z c) (hm : o.means k = o.means (z c)) :
    o.geology c ≠ z c := by
  intro h
  have h1 := (C130_nearest o c k).2 (by rw [h]; exact hk)
  rw [h, hm] at h1
  exact lt_irrefl _ h1

/-- The value is the sum over the cells of the Mahalanobis form of the weighted residual. -/
theorem C130_value (o : Small n π κ) (m : π × κ → ℝ) :
    o.value m = ∑ c, quad (o.prec.matrix (o.geology c)) fun i =>
      Real.sqrt (o.weights (i, c)) * (o.map i (fun d => m (i, d)) c - o.mref (i, c)) := by
  rw [Small.value, ← big_mulVec, dot_big]
  simp only [quad, r0_apply]

/-- With one weight per cell the value is `∑ weight * (x - mref)ᵀ P (x - mref)`. -/
theorem C130_value_cell (o : Small n π κ) (m : π × κ → ℝ) (w : κ → ℝ) (hw : ∀ c, 0 ≤ w c)
    (ho : ∀ i c, o.weights (i, c) = w c) :
    o.value m = ∑ c, w c * quad (o.prec.matrix (o.geology c)) fun i =>
      o.map i (fun d => m (i, d)) c - o.mref (i, c) := by
  rw [C130_value]
  refine Finset.sum_congr rfl fun c _ => ?_
  simp only [quad, ho, Finset.mul_sum]
  refine Finset.sum_congr rfl fun i _ => Finset.sum_congr rfl fun j _ => ?_
  have := Real.mul_self_sqrt (hw c)
  linear_combination (o.map i (fun d => m (i, d)) c - o.mref (i, c)) *
    o.prec.matrix (o.geology c) i j * (o.map j (fun d => m (j, d)) c - o.mref (j, c)) * this

/-- `deriv` is the gradient of the value, for all covariance types. -/
theorem C130_gradient (o : Small n π κ) (m : π × κ → ℝ) (hmap : o.MapsOK m)
    (hs : ∀ k, (o.prec.matrix k).IsSymm) : IsGradient o.value (o.deriv m) m := by
  have h := quad_gradient (r0_jac o m hmap) (big o.prec o.geology) (big_transpose _ _ hs)
  have e : o.deriv m = (2 : ℝ) • ((o.W * o.mD m)ᵀ *ᵥ (big o.prec o.geology *ᵥ o.r0 m)) := by
    rw [Small.deriv, big_mulVec, transpose_mul, Matrix.mulVec_mulVec]
  rw [e]
  refine HasFDerivAt.congr_of_eventuallyEq h (Filter.Eventually.of_forall fun x => ?_)
  show o.value x = _
  rw [Small.value, ← big_mulVec]

theorem deriv2v_eq (o : Small n π κ) (m v : π × κ → ℝ) :
    o.deriv2v m v = ((2 : ℝ) • ((o.mD m)ᵀ * (o.W * (big o.prec o.geology * (o.W * o.mD m))))) *ᵥ v := by
  unfold Small.deriv2v
  simp only [second_mulVec]
  rw [Matrix.smul_mulVec, ← Matrix.mulVec_mulVec, ← Matrix.mulVec_mulVec, ← Matrix.mulVec_mulVec,
    ← Matrix.mulVec_mulVec]

/-- For affine maps `deriv2(m, ·)` is the Jacobian of `deriv`. -/
theorem C130_hessian (o : Small n π κ) (m : π × κ → ℝ) (hmap : o.MapsOK m)
    (D : π → Matrix κ κ ℝ) (hD : ∀ i x, o.mapD i x = D i) :
    ∃ H : Matrix (π × κ) (π × κ) ℝ, IsJacobian o.deriv H m ∧ ∀ v, o.deriv2v m v = H *ᵥ v := by
  have hc : ∀ x, o.mD x = o.mD m := by
    intro x; ext p q; simp [Small.mD, hD]
  refine ⟨_, ?_, fun v => deriv2v_eq o m v⟩
  have h := (((r0_jac o m hmap).mulVec (big o.prec o.geology)).mulVec ((o.mD m)ᵀ * o.W)).smul 2
  have e : (2 : ℝ) • ((o.mD m)ᵀ * o.W * (big o.prec o.geology * (o.W * o.mD m))) =
      (2 : ℝ) • ((o.mD m)ᵀ * (o.W * (big o.prec o.geology * (o.W * o.mD m)))) := by
    rw [Matrix.mul_assoc]
  rw [e] at h
  refine h.congr (Filter.Eventually.of_forall fun x => ?_)
  show o.deriv x = _
  rw [Small.deriv, hc x, ← big_mulVec, W_transpose, ← Matrix.mulVec_mulVec]

/-- `deriv2(m, ·)` is symmetric. -/
theorem C130_hessian_symm (o : Small n π κ) (m v u : π × κ → ℝ)
    (hs : ∀ k, (o.prec.matrix k).IsSymm) : u ⬝ᵥ o.deriv2v m v = v ⬝ᵥ o.deriv2v m u := by
  have e : ∀ u v, u ⬝ᵥ o.deriv2v m v = 2 * ((o.W *ᵥ (o.mD m *ᵥ u)) ⬝ᵥ
      (big o.prec o.geology *ᵥ (o.W *ᵥ (o.mD m *ᵥ v)))) := by
    intro u v
    unfold Small.deriv2v
    simp only [second_mulVec, dotProduct_smul, smul_eq_mul]
    rw [Matrix.dotProduct_mulVec, ← Matrix.mulVec_transpose, transpose_transpose,
      Matrix.dotProduct_mulVec, ← Matrix.mulVec_transpose, W_transpose]
  rw [e, e, Matrix.dotProduct_mulVec, ← Matrix.mulVec_transpose, big_transpose _ _ hs,
    dotProduct_comm]

/-- `deriv2(m, ·)` is positive semidefinite when the precisions are, for any maps. -/
theorem C130_hessian_nonneg (o : Small n π κ) (m v : π × κ → ℝ)
    (hp : ∀ k x, 0 ≤ quad (o.prec.matrix k) x) : 0 ≤ v ⬝ᵥ o.deriv2v m v := by
  unfold Small.deriv2v
  simp only [second_mulVec, dotProduct_smul, smul_eq_mul]
  rw [Matrix.dotProduct_mulVec, ← Matrix.mulVec_transpose, transpose_transpose,
    Matrix.dotProduct_mulVec, ← Matrix.mulVec_transpose, W_transpose, dot_big]
  refine mul_nonneg (by norm_num) (Finset.sum_nonneg fun c _ => ?_)
  exact hp (o.geology c) fun i => (o.W *ᵥ (o.mD m *ᵥ v)) (i, c)

theorem blocks_eq (o : Small n π κ) (hs : ∀ k, (o.prec.matrix k).IsSymm) :
    o.blocks = big o.prec o.geology := by
  ext p q
  simp only [Small.blocks, big, Prec.second_eq]
  split_ifs
  · exact (hs _).apply _ _
  · rfl

/-- The matrix `deriv2(m)` and the product `deriv2(m, v)` agree when, in each cell, all the maps have
the same derivative and depend on that cell only (identity maps, or one property with a cellwise map).
What is missing: other maps, see `C130_violated_hessian`. -/
theorem C130_matrix_partial (o : Small n π κ) (m v : π × κ → ℝ) (s : κ → ℝ)
    (hs : ∀ k, (o.prec.matrix k).IsSymm) (hD : ∀ i, o.mapD i (wire m i) = diagonal s) :
    o.deriv2 m *ᵥ v = o.deriv2v m v := by
  have hd : o.mD m = diagonal fun p => s p.2 := by
    ext ⟨i, c⟩ ⟨j, d⟩
    simp only [Small.mD, hD, diagonal_apply, Prod.mk.injEq]
    by_cases h1 : i = j <;> by_cases h2 : c = d <;> simp [h1, h2]
  have hc : big o.prec o.geology * (diagonal fun p : π × κ => s p.2) =
      (diagonal fun p : π × κ => s p.2) * big o.prec o.geology := by
    ext p q
    rw [Matrix.mul_diagonal, Matrix.diagonal_mul]
    simp only [big]
    by_cases h : p.2 = q.2
    · rw [if_pos h, h, mul_comm]
    · rw [if_neg h]; ring
  have hw : o.W * (diagonal fun p : π × κ => s p.2) = (diagonal fun p : π × κ => s p.2) * o.W := by
    rw [Small.W, diagonal_mul_diagonal, diagonal_mul_diagonal]
    congr 1; funext p; ring
  rw [deriv2v_eq, Small.deriv2, blocks_eq o hs, hd, diagonal_transpose]
  congr 2
  rw [hw, ← Matrix.mul_assoc (big o.prec o.geology), hc]
  simp only [Matrix.mul_assoc]
  rw [← Matrix.mul_assoc o.W (diagonal _), hw, Matrix.mul_assoc]

/-- One cell, two properties whose maps have different derivatives, and correlated properties: the
matrix `deriv2(m)` is not symmetric, so it is neither the Hessian nor the matrix of
`deriv2(m, ·)`. -/
theorem C130_violated_hessian (o : Small n (Fin 2) (Fin 1)) (m : Fin 2 × Fin 1 → ℝ)
    (hs : ∀ k, (o.prec.matrix k).IsSymm) (hw : ∀ p, 0 < o.weights p)
    (hd : (o.mapD 0 (wire m 0) 0 0) ^ 2 ≠ (o.mapD 1 (wire m 1) 0 0) ^ 2)
    (hP : o.prec.matrix (o.geology 0) 0 1 ≠ 0) :
    ¬ (o.deriv2 m).IsSymm ∧ ¬ ∀ v, o.deriv2 m *ᵥ v = o.deriv2v m v := by
  have key : ∀ i j : Fin 2, o.deriv2 m (i, 0) (j, 0) = 2 * ((o.mapD i (wire m i) 0 0) ^ 2 *
      (Real.sqrt (o.weights (i, 0)) * (o.prec.matrix (o.geology 0) i j *
        Real.sqrt (o.weights (j, 0))))) := by
    intro i j
    have hm : (o.mD m)ᵀ * o.mD m = diagonal fun p => (o.mapD p.1 (wire m p.1) 0 0) ^ 2 := by
      ext ⟨a, b⟩ ⟨c, d⟩
      fin_cases a <;> fin_cases c <;>
        simp [Matrix.mul_apply, Small.mD, Fintype.sum_prod_type, Subsingleton.elim b 0,
          Subsingleton.elim d 0, sq]
    rw [Small.deriv2, hm, blocks_eq o hs, Matrix.smul_apply, Matrix.diagonal_mul, Small.W,
      Matrix.diagonal_mul, Matrix.mul_diagonal]
    simp [big]
  have hns : ¬ (o.deriv2 m).IsSymm := by
    intro h
    have h1 := h.apply (0, 0) (1, 0)
    rw [key, key, (hs _).apply] at h1
    apply hd
    have hw0 := Real.sqrt_pos.2 (hw (0, 0))
    have hw1 := Real.sqrt_pos.2 (hw (1, 0))
    have hne : o.prec.matrix (o.geology 0) 0 1 * Real.sqrt (o.weights (0, 0)) *
      Real.sqrt (o.weights (1, 0)) ≠ 0 := mul_ne_zero (mul_ne_zero hP hw0.ne') hw1.ne'
    apply mul_right_cancel₀ hne
    linarith
  refine ⟨hns, fun h => hns ?_⟩
  apply Matrix.IsSymm.ext
  intro p q
  have h1 := C130_hessian_symm o m (Pi.single p 1) (Pi.single q 1) hs
  rw [← h, ← h] at h1
  simpa using h1

/-! ### Concrete cases -/

/-- Two cells, two properties (the second through its square), two units with full, correlated
precisions; cell 0 is in unit 1 and cell 1 in unit 0. -/
def demo : Small 1 (Fin 2) (Fin 2) where
  means := ![![0, 1], ![2, 5]]
  prec := .full ![!![2, 1; 1, 3], !![1, 0; 0, 4]]
  map := ![fun x => x, fun x c => x c ^ 2]
  mapD := ![fun _ => 1, fun x => diagonal fun c => 2 * x c]
  weights := fun p => if p.2 = 0 then 4 else 9
  mref := fun p => if p.2 = 0 then ![2, 5] p.1 else ![0, 1] p.1

theorem demo_maps (m : Fin 2 × Fin 2 → ℝ) : demo.MapsOK m := by
  intro i
  fin_cases i
  · exact isJacobian_id _
  · have h := IsJacobian.map (f := fun x : Fin 2 → ℝ => x) (φ := fun _ t => t ^ 2)
      (φ' := fun c => 2 * wire m 1 c) (fun c => by simpa using hasDerivAt_pow 2 (wire m 1 c))
      (isJacobian_id (wire m 1))
    rw [Matrix.mul_one] at h
    exact h

theorem demo_symm (k : Fin 2) : (demo.prec.matrix k).IsSymm := by
  apply Matrix.IsSymm.ext
  intro i j
  fin_cases k <;> fin_cases i <;> fin_cases j <;> simp [demo, Prec.matrix]

theorem demo_geology : demo.geology = ![1, 0] := by
  apply C130_membership
  · intro a b h
    have := congrFun h 0
    fin_cases a <;> fin_cases b <;> simp_all [demo]
  · intro i c
    fin_cases i <;> fin_cases c <;> simp [demo]

example (m : Fin 2 × Fin 2 → ℝ) : IsGradient demo.value (demo.deriv m) m :=
  C130_gradient demo m (demo_maps m) demo_symm

example (m : Fin 2 × Fin 2 → ℝ) : demo.value m =
    4 * ((m (0, 0) - 2) ^ 2 + 4 * (m (1, 0) ^ 2 - 5) ^ 2) +
    9 * (2 * m (0, 1) ^ 2 + 2 * m (0, 1) * (m (1, 1) ^ 2 - 1) + 3 * (m (1, 1) ^ 2 - 1) ^ 2) := by
  rw [C130_value_cell demo m (fun c => if c = 0 then 4 else 9) (by intro c; split_ifs <;> norm_num)
    (fun i c => rfl), demo_geology]
  simp [demo, quad, Prec.matrix, Fin.sum_univ_two]
  ring

/-- Two units with the same mean: the cell of the second is given to the first. -/
example : (Small.geology (n := 1) (π := Fin 1) (κ := Fin 1)
    { means := fun _ _ => 3, prec := .spherical ![1, 10], map := fun _ x => x, mapD := fun _ _ => 1,
      weights := 1, mref := fun _ => 3 }) 0 ≠ 1 :=
  C130_violated_same_mean _ (fun _ => 1) 0 0 (fun _ _ => rfl) (by decide) rfl

/-- A property on a linear scale and another scaled by two, with correlation `1 / 2`. -/
example : ¬ (Small.deriv2 (n := 0) (π := Fin 2) (κ := Fin 1)
    { means := fun _ _ => 0, prec := .tied !![2, 1; 1, 2], map := ![fun x => x, fun x => 2 • x],
      mapD := ![fun _ => 1, fun _ => diagonal fun _ => 2], weights := 1, mref := 0 } 0).IsSymm := by
  refine (C130_violated_hessian _ 0 ?_ ?_ ?_ ?_).1
  · intro k
    apply Matrix.IsSymm.ext
    intro i j
    fin_cases i <;> fin_cases j <;> simp [Prec.matrix]
  · intro p; simp
  · norm_num
  · simp [Prec.matrix]

end Verif.Reg.PGI
