import Verif.Basic
import Verif.Reg.Value
import Verif.Reg.Calculus
import Mathlib.Analysis.SpecialFunctions.Sqrt
import Mathlib.Algebra.Order.BigOperators.Ring.Finset
import Mathlib.Tactic.FinCases
import Mathlib.Tactic.LinearCombination

/-!
C84: regularization of models of vectors (`simpeg/regularization/vector.py`). `κ` are the cells and
`Fin n` the components; a mapped model is indexed by `Fin n × κ`, component by component.
-/

noncomputable section
namespace Verif.Reg.Vector
open Verif Verif.Reg Matrix

set_option linter.unusedSectionVars false

variable {ι κ φ : Type} [Fintype ι] [Fintype κ] [Fintype φ] [DecidableEq κ] [DecidableEq φ]
  [DecidableEq ι] {n : ℕ}

/-! ### Weights -/

/-- A registered array of weights, by its shape: `(nC,)`, `(n * nC,)` or `(nC, n)`
(`simpeg/regularization/vector.py` 25-36). -/
inductive Wts (κ : Type) (n : ℕ) where
  | cell (w : κ → ℝ)
  | flat (w : Fin n × κ → ℝ)
  | mat (w : κ → Fin n → ℝ)

/-- `np.linalg.norm(..., axis=1)` of the components of a cell. -/
def norm (x : Fin n → ℝ) : ℝ := Real.sqrt (∑ k, x k ^ 2)

/-- The loop of `CrossReferenceRegularization.W` (`simpeg/regularization/vector.py` 349-358). -/
def crossWeights (ws : List (Wts κ n)) : κ → ℝ :=
  ws.foldl (fun acc w => match w with
    | .cell x => fun c => acc c * x c
    | .flat x => fun c => acc c * norm fun k => x (k, c)
    | .mat x => fun c => acc c * norm (x c)) fun _ => 1

/-- The loop of `AmplitudeSmallness.W` (`simpeg/regularization/vector.py` 667-676): there is no
branch for the shape `(nC, n)`. -/
def ampWeights (ws : List (Wts κ n)) : κ → ℝ :=
  ws.foldl (fun acc w => match w with
    | .cell x => fun c => acc c * x c
    | .flat x => fun c => acc c * norm fun k => x (k, c)
    | .mat _ => acc) fun _ => 1

/-- The shapes of weights of `AmplitudeSmoothnessFirstOrder`
(`simpeg/regularization/vector.py` 880-887). -/
inductive FWts (κ φ : Type) (n : ℕ) where
  | face (w : φ → ℝ)
  | faceFlat (w : Fin n × φ → ℝ)
  | faceMat (w : φ → Fin n → ℝ)
  | cell (w : κ → ℝ)
  | cellFlat (w : Fin n × κ → ℝ)
  | cellMat (w : κ → Fin n → ℝ)

/-- The loop of `AmplitudeSmoothnessFirstOrder.W` (`simpeg/regularization/vector.py` 964-980), with
the average `av` from cells to faces. Weights of shape `(nC, n)` are averaged to `(nF, n)` and the
product with the other weights, of shape `(nF,)`, raises. Simplified: several components,
`nF` is not `n` and there is another set of weights, as the volumes always are. -/
def smoothWeights (av : Matrix φ κ ℝ) : List (FWts κ φ n) → Except Err (φ → ℝ)
  | [] => .ok fun _ => 1
  | w :: ws => match smoothWeights av ws with
    | .error e => .error e
    | .ok acc => match w with
      | .face x => .ok fun f => x f * acc f
      | .faceFlat x => .ok fun f => norm (fun k => x (k, f)) * acc f
      | .faceMat x => .ok fun f => norm (x f) * acc f
      | .cell x => .ok fun f => (av *ᵥ x) f * acc f
      | .cellFlat x => .ok fun f => (av *ᵥ fun c => norm fun k => x (k, c)) f * acc f
      | .cellMat _ => .error .valueError

/-! ### Cross reference -/

/-- Arrays with one or two axes. -/
inductive Arr where
  | one (a : ℕ) (x : Fin a → ℝ)
  | two (a b : ℕ) (x : Fin a → Fin b → ℝ)

/-- The `ref_dir` setter: one vector is repeated for all cells
(`simpeg/regularization/vector.py` 204-215). -/
def refDir (nC dim : ℕ) : Arr → Except Err (Fin nC → Fin dim → ℝ)
  | .two a b x =>
    if h : a = nC ∧ b = dim then .ok fun c k => x (Fin.cast h.1.symm c) (Fin.cast h.2.symm k)
    else .error .valueError
  | .one a x => if h : a = dim then .ok fun _ k => x (Fin.cast h.symm k) else .error .valueError

/-- `_X` in two dimensions (`simpeg/regularization/vector.py` 217-220). -/
def X2 (r : κ → Fin 2 → ℝ) : Matrix κ (Fin 2 × κ) ℝ :=
  fun c p => if p.2 = c then ![r c 1, -(r c 0)] p.1 else 0

/-- `_X` in three dimensions (`simpeg/regularization/vector.py` 217-230). -/
def X3 (r : κ → Fin 3 → ℝ) : Matrix (Fin 3 × κ) (Fin 3 × κ) ℝ :=
  fun q p => if p.2 = q.2 then
    !![0, r q.2 2, -(r q.2 1); -(r q.2 2), 0, r q.2 0; r q.2 1, -(r q.2 0), 0] q.1 p.1 else 0

/-- `CrossReferenceRegularization` in two dimensions (`simpeg/regularization/vector.py` 233-365). -/
def cross2 (P : Mapping ι (Fin 2 × κ)) (r : κ → Fin 2 → ℝ) (ws : List (Wts κ 2)) : Term ι κ :=
  ⟨crossWeights ws, fun m => X2 r *ᵥ P.apply m, fun m => X2 r * P.deriv m⟩

/-- `CrossReferenceRegularization` in three dimensions (`simpeg/regularization/vector.py`
233-365). -/
def cross3 (P : Mapping ι (Fin 3 × κ)) (r : κ → Fin 3 → ℝ) (ws : List (Wts κ 3)) :
    Term ι (Fin 3 × κ) :=
  ⟨fun p => crossWeights ws p.2, fun m => X3 r *ᵥ P.apply m, fun m => X3 r * P.deriv m⟩

/-! ### Amplitudes -/

/-- The objects of `AmplitudeSmallness` and `AmplitudeSmoothnessFirstOrder`: the mapping, the
reference model if it is used, the product of the weights, and the gradient (the identity for
`AmplitudeSmallness`). `small` tells where the mapping is differentiated. -/
structure Amp (ι κ φ : Type) (n : ℕ) where
  P : Mapping ι (Fin n × κ)
  ref : Option (ι → ℝ)
  w : φ → ℝ
  G : Matrix φ κ ℝ
  small : Bool

/-- `_delta_m` (`simpeg/regularization/base.py` 373-378, 1008-1011). -/
def Amp.delta (o : Amp ι κ φ n) (m : ι → ℝ) : ι → ℝ :=
  match o.ref with
  | none => m
  | some r => m - r

/-- `sp.block_diag([G] * n_comp)` (`simpeg/regularization/vector.py` 956). -/
def blk (n : ℕ) (G : Matrix φ κ ℝ) : Matrix (Fin n × φ) (Fin n × κ) ℝ :=
  fun q p => if q.1 = p.1 then G q.2 p.2 else 0

/-- `f_m` (`simpeg/regularization/vector.py` 392-397, 658, 927-931). -/
def Amp.fm (o : Amp ι κ φ n) (m : ι → ℝ) : φ → ℝ :=
  fun f => norm fun k => (o.G *ᵥ fun c => o.P.apply (o.delta m) (k, c)) f

/-- `f_m_deriv` (`simpeg/regularization/base.py` 732, `simpeg/regularization/vector.py` 956-958). -/
def Amp.J (o : Amp ι κ φ n) (m : ι → ℝ) : Matrix (Fin n × φ) ι ℝ :=
  blk n o.G * o.P.deriv (if o.small then m else o.delta m)

/-- `__call__` (`simpeg/regularization/base.py` 394-395). -/
def Amp.value (o : Amp ι κ φ n) (m : ι → ℝ) : ℝ :=
  let r := diagonal (fun f => Real.sqrt (o.w f)) *ᵥ o.fm m
  r ⬝ᵥ r

/-- The product with the squares of `W` of each component. -/
def Amp.ww (o : Amp ι κ φ n) (x : Fin n × φ → ℝ) : Fin n × φ → ℝ :=
  fun q => Real.sqrt (o.w q.2) * Real.sqrt (o.w q.2) * x q

/-- `BaseAmplitude.deriv` (`simpeg/regularization/vector.py` 419-429). -/
def Amp.deriv (o : Amp ι κ φ n) (m : ι → ℝ) : ι → ℝ :=
  (2 : ℝ) • ((o.J m)ᵀ *ᵥ o.ww (o.J m *ᵥ o.delta m))

/-- `BaseAmplitude.deriv2(m)` (`simpeg/regularization/vector.py` 459-466). -/
def Amp.deriv2 (o : Amp ι κ φ n) (m : ι → ℝ) : Matrix ι ι ℝ :=
  (2 : ℝ) • ((o.J m)ᵀ * (diagonal (fun q : Fin n × φ => Real.sqrt (o.w q.2) * Real.sqrt (o.w q.2)) *
    o.J m))

/-- `BaseAmplitude.deriv2(m, v)` (`simpeg/regularization/vector.py` 468-476). -/
def Amp.deriv2v (o : Amp ι κ φ n) (m v : ι → ℝ) : ι → ℝ :=
  (2 : ℝ) • ((o.J m)ᵀ *ᵥ o.ww (o.J m *ᵥ v))

namespace Props

/-! ### Cross reference -/

theorem X2_mulVec (r : κ → Fin 2 → ℝ) (x : Fin 2 × κ → ℝ) (c : κ) :
    (X2 r *ᵥ x) c = x (0, c) * r c 1 - x (1, c) * r c 0 := by
  simp only [Matrix.mulVec, dotProduct, X2, Fintype.sum_prod_type, Fin.sum_univ_two]
  simp
  ring

theorem X3_mulVec (r : κ → Fin 3 → ℝ) (x : Fin 3 × κ → ℝ) (c : κ) :
    (X3 r *ᵥ x) (0, c) = x (1, c) * r c 2 - x (2, c) * r c 1 ∧
    (X3 r *ᵥ x) (1, c) = x (2, c) * r c 0 - x (0, c) * r c 2 ∧
    (X3 r *ᵥ x) (2, c) = x (0, c) * r c 1 - x (1, c) * r c 0 := by
  refine ⟨?_, ?_, ?_⟩ <;>
  · simp only [Matrix.mulVec, dotProduct, X3, Fintype.sum_prod_type, Fin.sum_univ_three]
    simp
    ring

/-- The product of the weights of a cell as the code understands them: component weights count
with their norm. -/
def factor (c : κ) : Wts κ n → ℝ
  | .cell w => w c
  | .flat w => Real.sqrt (∑ k, w (k, c) ^ 2)
  | .mat w => Real.sqrt (∑ k, w c k ^ 2)

/-- C84: registered weights of all shapes enter as a product; those with components by their
norm. -/
theorem C84_cross_weights (ws : List (Wts κ n)) (c : κ) :
    crossWeights ws c = (ws.map (factor c)).prod := by
  unfold crossWeights
  have : ∀ acc : κ → ℝ, ws.foldl (fun acc w => match w with
      | .cell x => fun c => acc c * x c
      | .flat x => fun c => acc c * norm fun k => x (k, c)
      | .mat x => fun c => acc c * norm (x c)) acc c = acc c * (ws.map (factor c)).prod := by
    induction ws with
    | nil => intro acc; simp
    | cons w ws ih =>
      intro acc
      rw [List.foldl_cons, ih]
      cases w <;> simp [factor, norm, mul_assoc]
  rw [this, one_mul]

theorem crossWeights_nonneg (ws : List (Wts κ n))
    (h : ∀ w ∈ ws, ∀ x, w = .cell x → ∀ c, 0 ≤ x c) (c : κ) : 0 ≤ crossWeights ws c := by
  rw [C84_cross_weights]
  refine List.prod_nonneg fun a ha => ?_
  obtain ⟨w, hw, rfl⟩ := List.mem_map.1 ha
  cases w with
  | cell x => exact h _ hw x rfl c
  | flat x => exact Real.sqrt_nonneg _
  | mat x => exact Real.sqrt_nonneg _

/-- C84: in two dimensions the value is the weighted sum of the squares of the cross products with
the reference directions, that is of `|m|² |r|² - (m · r)²`. -/
theorem C84_cross2_value (P : Mapping ι (Fin 2 × κ)) (r : κ → Fin 2 → ℝ) (ws : List (Wts κ 2))
    (h : ∀ c, 0 ≤ crossWeights ws c) (m : ι → ℝ) :
    (cross2 P r ws).value m = ∑ c, crossWeights ws c *
      ((∑ k, P.apply m (k, c) ^ 2) * (∑ k, r c k ^ 2) - (∑ k, P.apply m (k, c) * r c k) ^ 2) := by
  rw [(Reg.Props.C40_value _ h m).1]
  refine Finset.sum_congr rfl fun c _ => ?_
  simp only [cross2, X2_mulVec, Fin.sum_univ_two]
  ring

/-- C84: in three dimensions the value is the weighted sum of the squares of the cross products with
the reference directions. -/
theorem C84_cross3_value (P : Mapping ι (Fin 3 × κ)) (r : κ → Fin 3 → ℝ) (ws : List (Wts κ 3))
    (h : ∀ c, 0 ≤ crossWeights ws c) (m : ι → ℝ) :
    (cross3 P r ws).value m = ∑ c, crossWeights ws c *
      ((∑ k, P.apply m (k, c) ^ 2) * (∑ k, r c k ^ 2) - (∑ k, P.apply m (k, c) * r c k) ^ 2) := by
  rw [(Reg.Props.C40_value _ (fun p => h p.2) m).1]
  simp only [Fintype.sum_prod_type, Fin.sum_univ_three, cross3]
  rw [← Finset.sum_add_distrib, ← Finset.sum_add_distrib]
  refine Finset.sum_congr rfl fun c _ => ?_
  rw [(X3_mulVec r _ c).1, (X3_mulVec r _ c).2.1, (X3_mulVec r _ c).2.2]
  ring

/-- C84: the value is zero exactly if the vectors are parallel to the reference in all cells with
weight (three dimensions; the reference is not zero). -/
theorem C84_cross3_parallel (P : Mapping ι (Fin 3 × κ)) (r : κ → Fin 3 → ℝ) (ws : List (Wts κ 3))
    (h : ∀ c, 0 < crossWeights ws c) (hr : ∀ c, r c ≠ 0) (m : ι → ℝ) :
    (cross3 P r ws).value m = 0 ↔ ∀ c, ∃ a : ℝ, ∀ k, P.apply m (k, c) = a * r c k := by
  rw [(Reg.Props.C40_value _ (fun p => (h p.2).le) m).2.2]
  constructor
  · intro h0 c
    have e : ∀ k, (X3 r *ᵥ P.apply m) (k, c) = 0 := fun k => h0 (k, c) (h c).ne'
    have e0 := e 0
    have e1 := e 1
    have e2 := e 2
    rw [(X3_mulVec r _ c).1] at e0
    rw [(X3_mulVec r _ c).2.1] at e1
    rw [(X3_mulVec r _ c).2.2] at e2
    have hs : r c 0 ^ 2 + r c 1 ^ 2 + r c 2 ^ 2 ≠ 0 := by
      intro hz
      apply hr c
      have h0 : r c 0 = 0 := by nlinarith [sq_nonneg (r c 0), sq_nonneg (r c 1), sq_nonneg (r c 2)]
      have h1 : r c 1 = 0 := by nlinarith [sq_nonneg (r c 0), sq_nonneg (r c 1), sq_nonneg (r c 2)]
      have h2 : r c 2 = 0 := by nlinarith [sq_nonneg (r c 0), sq_nonneg (r c 1), sq_nonneg (r c 2)]
      funext k
      fin_cases k
      · exact h0
      · exact h1
      · exact h2
    refine ⟨(P.apply m (0, c) * r c 0 + P.apply m (1, c) * r c 1 + P.apply m (2, c) * r c 2) /
      (r c 0 ^ 2 + r c 1 ^ 2 + r c 2 ^ 2), fun k => ?_⟩
    rw [div_mul_eq_mul_div, eq_div_iff hs]
    fin_cases k
    · simp only [Fin.zero_eta]
      linear_combination r c 1 * e2 - r c 2 * e1
    · simp only [Fin.mk_one]
      linear_combination r c 2 * e0 - r c 0 * e2
    · simp only [Fin.reduceFinMk]
      linear_combination r c 0 * e1 - r c 1 * e0
  · intro h0 p _
    obtain ⟨k, c⟩ := p
    obtain ⟨a, ha⟩ := h0 c
    show (X3 r *ᵥ P.apply m) (k, c) = 0
    fin_cases k
    · simp only [Fin.zero_eta]; rw [(X3_mulVec r _ c).1, ha, ha]; ring
    · simp only [Fin.mk_one]; rw [(X3_mulVec r _ c).2.1, ha, ha]; ring
    · simp only [Fin.reduceFinMk]; rw [(X3_mulVec r _ c).2.2, ha, ha]; ring

/-- C84: `deriv` of the cross reference is the gradient of the value for any mapping with a
derivative. -/
theorem C84_cross_gradient (P2 : Mapping ι (Fin 2 × κ)) (P3 : Mapping ι (Fin 3 × κ))
    (r2 : κ → Fin 2 → ℝ) (r3 : κ → Fin 3 → ℝ) (ws2 : List (Wts κ 2)) (ws3 : List (Wts κ 3))
    (m : ι → ℝ) (h2 : IsJacobian P2.apply (P2.deriv m) m) (h3 : IsJacobian P3.apply (P3.deriv m) m) :
    IsGradient (cross2 P2 r2 ws2).value ((cross2 P2 r2 ws2).deriv m) m ∧
      IsGradient (cross3 P3 r3 ws3).value ((cross3 P3 r3 ws3).deriv m) m :=
  ⟨Reg.Props.C40_gradient _ m (h2.mulVec _), Reg.Props.C40_gradient _ m (h3.mulVec _)⟩

/-- C84 is violated: weights for the components, of which the documentation says that their
geometric mean is the weight of the cell, count with their norm; equal weights `x` for all
components are not the weight `x` but `√n x`. -/
theorem C84_violated_geometric_mean (x : ℝ) (hx : 0 ≤ x) (c : κ) :
    crossWeights [(.mat fun _ _ => x : Wts κ n)] c = Real.sqrt n * x ∧
      (2 ≤ n → 0 < x → crossWeights [(.mat fun _ _ => x : Wts κ n)] c ≠ x) := by
  have e : crossWeights [(.mat fun _ _ => x : Wts κ n)] c = Real.sqrt n * x := by
    rw [C84_cross_weights]
    simp [factor, Real.sqrt_sq hx]
  refine ⟨e, fun hn h0 h => ?_⟩
  rw [e] at h
  have h1 : Real.sqrt n = 1 := by
    have := mul_right_cancel₀ h0.ne' (h.trans (one_mul x).symm)
    exact this
  have h2 : (n : ℝ) = 1 := by
    have := congrArg (fun y => y ^ 2) h1
    simpa [Real.sq_sqrt (Nat.cast_nonneg n)] using this
  have : n = 1 := by exact_mod_cast h2
  omega

/-! ### Amplitudes -/

theorem norm_sq (x : Fin n → ℝ) : norm x ^ 2 = ∑ k, x k ^ 2 :=
  Real.sq_sqrt (Finset.sum_nonneg fun k _ => sq_nonneg _)

theorem blk_mulVec (G : Matrix φ κ ℝ) (x : Fin n × κ → ℝ) (k : Fin n) (f : φ) :
    (blk n G *ᵥ x) (k, f) = (G *ᵥ fun c => x (k, c)) f := by
  simp only [Matrix.mulVec, dotProduct, blk, Fintype.sum_prod_type]
  rw [Finset.sum_eq_single k]
  · simp
  · intro j _ hj; simp [Ne.symm hj]
  · intro hh; exact absurd (Finset.mem_univ _) hh

/-- C84: the value is the weighted sum of the squares of all components, of the vectors relative to
the reference model or of their differences. -/
theorem C84_amplitude_value (o : Amp ι κ φ n) (hw : ∀ f, 0 ≤ o.w f) (m : ι → ℝ) :
    o.value m = ∑ f, o.w f * ∑ k, (∑ c, o.G f c * o.P.apply (o.delta m) (k, c)) ^ 2 := by
  unfold Amp.value
  simp only [dotProduct, mulVec_diagonal]
  refine Finset.sum_congr rfl fun f _ => ?_
  have h := norm_sq fun k => (o.G *ᵥ fun c => o.P.apply (o.delta m) (k, c)) f
  have hs := Real.mul_self_sqrt (hw f)
  calc _ = (Real.sqrt (o.w f) * Real.sqrt (o.w f)) * (o.fm m f ^ 2) := by ring
    _ = o.w f * (o.fm m f ^ 2) := by rw [hs]
    _ = _ := by unfold Amp.fm; rw [h]; rfl

/-- C84: with no negative weights the value is not negative, and `AmplitudeSmallness` is zero exactly
if the vectors are those of the reference in all cells with weight. -/
theorem C84_amplitude_nonneg (o : Amp ι κ κ n) (hG : o.G = 1) (hw : ∀ f, 0 ≤ o.w f) (m : ι → ℝ) :
    0 ≤ o.value m ∧
      (o.value m = 0 ↔ ∀ c, o.w c ≠ 0 → ∀ k, o.P.apply (o.delta m) (k, c) = 0) := by
  have e : o.value m = ∑ c, o.w c * ∑ k, o.P.apply (o.delta m) (k, c) ^ 2 := by
    rw [C84_amplitude_value o hw, hG]
    refine Finset.sum_congr rfl fun c _ => ?_
    simp [Matrix.one_apply]
  have hn : ∀ c, 0 ≤ o.w c * ∑ k, o.P.apply (o.delta m) (k, c) ^ 2 := fun c =>
    mul_nonneg (hw c) (Finset.sum_nonneg fun k _ => sq_nonneg _)
  rw [e]
  refine ⟨Finset.sum_nonneg fun c _ => hn c, ?_⟩
  rw [Finset.sum_eq_zero_iff_of_nonneg fun c _ => hn c]
  constructor
  · intro h c hc k
    have := (mul_eq_zero.1 (h c (Finset.mem_univ _))).resolve_left hc
    have := (Finset.sum_eq_zero_iff_of_nonneg fun k _ => sq_nonneg _).1 this k (Finset.mem_univ _)
    exact pow_eq_zero_iff (by norm_num) |>.1 this
  · intro h c _
    by_cases hc : o.w c = 0
    · simp [hc]
    · simp [h c hc]

/-- C84: the amplitude terms do not depend on the axes: if the vectors of all cells are turned by
the same orthogonal matrix, the value is the same. -/
theorem C84_amplitude_rotation (o o' : Amp ι κ φ n) (R : Matrix (Fin n) (Fin n) ℝ) (hR : Rᵀ * R = 1)
    (hw : ∀ f, 0 ≤ o.w f) (h1 : o'.w = o.w) (h2 : o'.G = o.G) (m m' : ι → ℝ)
    (hm : ∀ k c, o'.P.apply (o'.delta m') (k, c) = ∑ j, R k j * o.P.apply (o.delta m) (j, c)) :
    o'.value m' = o.value m := by
  rw [C84_amplitude_value o hw, C84_amplitude_value o' (by rw [h1]; exact hw), h1, h2]
  refine Finset.sum_congr rfl fun f _ => ?_
  congr 1
  set x : Fin n → ℝ := fun j => ∑ c, o.G f c * o.P.apply (o.delta m) (j, c) with hx
  have e : ∀ k, ∑ c, o.G f c * o'.P.apply (o'.delta m') (k, c) = (R *ᵥ x) k := by
    intro k
    simp only [hm, hx, Matrix.mulVec, dotProduct, Finset.mul_sum]
    rw [Finset.sum_comm]
    exact Finset.sum_congr rfl fun j _ => Finset.sum_congr rfl fun c _ => by ring
  simp only [e]
  have : (R *ᵥ x) ⬝ᵥ (R *ᵥ x) = x ⬝ᵥ x := by
    rw [Matrix.dotProduct_mulVec, Matrix.vecMul_mulVec, hR, Matrix.vecMul_one]
  simpa [dotProduct, pow_two] using this

/-- The residuals of the components. -/
def res (o : Amp ι κ φ n) (m : ι → ℝ) : Fin n × φ → ℝ := blk n o.G *ᵥ o.P.apply (o.delta m)

theorem value_res (o : Amp ι κ φ n) (m : ι → ℝ) (hw : ∀ f, 0 ≤ o.w f) :
    o.value m = ∑ q : Fin n × φ, (fun x => o.ww (res o x) * res o x) m q := by
  rw [C84_amplitude_value o hw, Fintype.sum_prod_type, Finset.sum_comm]
  refine Finset.sum_congr rfl fun f _ => ?_
  rw [Finset.mul_sum]
  refine Finset.sum_congr rfl fun k _ => ?_
  simp only [Pi.mul_apply, Amp.ww, res, blk_mulVec, Real.mul_self_sqrt (hw f)]
  simp only [Matrix.mulVec, dotProduct]
  ring

theorem ww_eq (o : Amp ι κ φ n) (x : Fin n × φ → ℝ) :
    o.ww x = diagonal (fun q : Fin n × φ => Real.sqrt (o.w q.2) * Real.sqrt (o.w q.2)) *ᵥ x := by
  funext q
  simp [Amp.ww, mulVec_diagonal]

theorem delta_jac (o : Amp ι κ φ n) (m : ι → ℝ) : IsJacobian o.delta (1 : Matrix ι ι ℝ) m := by
  have h1 := isJacobian_mulVec (1 : Matrix ι ι ℝ) m
  simp only [Matrix.one_mulVec] at h1
  unfold Amp.delta
  cases o.ref with
  | none => exact h1
  | some r =>
    have := h1.sub (isJacobian_const r m)
    rw [sub_zero] at this
    exact this

/-- C84: for linear mappings `deriv` is the gradient of the value. Missing: for other mappings it is
not, see `C84_violated_gradient`. -/
theorem C84_amplitude_gradient_partial (o : Amp ι κ φ n) (hw : ∀ f, 0 ≤ o.w f)
    (B : Matrix (Fin n × κ) ι ℝ) (hP : ∀ x, o.P.apply x = B *ᵥ x) (hB : ∀ x, o.P.deriv x = B)
    (m : ι → ℝ) : IsGradient o.value (o.deriv m) m := by
  have hJ : o.J m = blk n o.G * B := by unfold Amp.J; rw [hB]
  have hr : IsJacobian (res o) (o.J m) m := by
    have h := (delta_jac o m).mulVec (blk n o.G * B)
    rw [Matrix.mul_one, ← hJ] at h
    have e : res o = fun x => o.J m *ᵥ o.delta x := by
      funext x
      unfold res
      rw [hP, hJ, Matrix.mulVec_mulVec]
    rw [e]
    exact h
  have hrm : res o m = o.J m *ᵥ o.delta m := by
    unfold res; rw [hP, hJ, Matrix.mulVec_mulVec]
  have hwj := hr.mulVec (diagonal (fun q : Fin n × φ => Real.sqrt (o.w q.2) * Real.sqrt (o.w q.2)))
  simp only [← ww_eq] at hwj
  have h := isGradient_sum (g := o.deriv m) (hwj.mul hr) fun v => by
    simp only [Matrix.add_mulVec, ← Matrix.mulVec_mulVec v, diag_mulVec, Pi.add_apply,
      Finset.sum_add_distrib]
    unfold Amp.deriv
    rw [smul_dotProduct, Matrix.mulVec_transpose, ← Matrix.dotProduct_mulVec, ← hrm, smul_eq_mul,
      two_mul]
    congr 1
    simp only [dotProduct, Pi.mul_apply, Amp.ww]
    exact Finset.sum_congr rfl fun q _ => by ring
  have e : o.value = fun x => ∑ q : Fin n × φ, (o.ww (res o x) * res o x) q :=
    funext fun x => value_res o x hw
  rw [e]
  exact h

/-- C84: the product with a vector is the product with the matrix, which is symmetric and positive
semidefinite. -/
theorem C84_amplitude_hessian (o : Amp ι κ φ n) (m v : ι → ℝ) :
    o.deriv2 m *ᵥ v = o.deriv2v m v ∧ (o.deriv2 m)ᵀ = o.deriv2 m ∧ 0 ≤ v ⬝ᵥ o.deriv2v m v := by
  refine ⟨?_, ?_, ?_⟩
  · unfold Amp.deriv2 Amp.deriv2v
    rw [ww_eq, Matrix.smul_mulVec, Matrix.mulVec_mulVec, Matrix.mulVec_mulVec, Matrix.mul_assoc]
  · unfold Amp.deriv2
    simp [Matrix.transpose_mul, Matrix.mul_assoc]
  · unfold Amp.deriv2v
    rw [dotProduct_smul, Matrix.dotProduct_mulVec, Matrix.vecMul_transpose]
    refine smul_nonneg (by norm_num) (Finset.sum_nonneg fun q _ => ?_)
    unfold Amp.ww
    nlinarith [mul_self_nonneg (Real.sqrt (o.w q.2) * (o.J m *ᵥ v) q)]

/-- C84: for linear mappings `deriv2` is the Hessian of the value. Missing: other mappings. -/
theorem C84_amplitude_hessian_partial (o : Amp ι κ φ n)
    (B : Matrix (Fin n × κ) ι ℝ) (hB : ∀ x, o.P.deriv x = B)
    (m : ι → ℝ) : IsJacobian o.deriv (o.deriv2 m) m := by
  have hJ : ∀ x, o.J x = blk n o.G * B := fun x => by unfold Amp.J; rw [hB]
  have e : o.deriv = fun x => o.deriv2 m *ᵥ o.delta x := by
    funext x
    rw [(C84_amplitude_hessian o m _).1]
    unfold Amp.deriv Amp.deriv2v
    rw [hJ, hJ]
  rw [e]
  have := (delta_jac o m).mulVec (o.deriv2 m)
  rw [Matrix.mul_one] at this
  exact this

/-- One cell, one component, and the mapping `x²`. -/
def toySq : Amp (Fin 1) (Fin 1) (Fin 1) 1 where
  P := ⟨fun m _ => m 0 ^ 2, fun m => Matrix.of fun _ _ => 2 * m 0⟩
  ref := none
  w _ := 1
  G := 1
  small := true

theorem toySq_value : toySq.value =
    fun m => ∑ c : Fin 1, (fun x => fun _ : Fin 1 => x 0 ^ 2 * x 0 ^ 2) m c := by
  funext m
  rw [C84_amplitude_value toySq (fun _ => by simp [toySq])]
  simp [toySq, Amp.delta]
  ring

theorem sq_jac (m : Fin 1 → ℝ) : IsJacobian (fun x => fun _ : Fin 1 => x 0 ^ 2)
    (Matrix.of fun _ _ => 2 * m 0) m := by
  have h1 := isJacobian_mulVec (1 : Matrix (Fin 1) (Fin 1) ℝ) m
  simp only [Matrix.one_mulVec] at h1
  have h := h1.mul h1
  have e : (fun x : Fin 1 → ℝ => (fun _ : Fin 1 => x 0 ^ 2)) = fun x => x * x := by
    funext x i
    fin_cases i
    simp [pow_two]
  rw [e]
  refine IsJacobian.of_mulVec h fun v => ?_
  funext i
  fin_cases i
  simp [Matrix.mulVec, dotProduct, Matrix.mul_apply, Matrix.add_apply]
  exact Or.inl (by ring)

/-- C84 is violated: for mappings which are not linear `deriv` is not the gradient, although the
derivative of the mapping is right. -/
theorem C84_violated_gradient : ∃ (o : Amp (Fin 1) (Fin 1) (Fin 1) 1) (m : Fin 1 → ℝ),
    (∀ x, IsJacobian o.P.apply (o.P.deriv x) x) ∧ (∀ f, 0 ≤ o.w f) ∧
      ¬ IsGradient o.value (o.deriv m) m := by
  refine ⟨toySq, fun _ => 1, ?_, fun _ => by simp [toySq], ?_⟩
  · intro x
    refine HasFDerivAt.congr_fderiv (f' := mulVecL (Matrix.of fun (_ : Fin 1 × Fin 1) (_ : Fin 1) => 2 * x 0)) ?_
      rfl
    have := (isJacobian_iff.1 (sq_jac x)) 0
    exact isJacobian_iff.2 fun _ => this
  · intro h
    have h2 := isGradient_sum (g := fun _ : Fin 1 => (4 : ℝ)) ((sq_jac fun _ => 1).mul (sq_jac fun _ => 1))
      fun v => by
        simp [Matrix.mulVec, dotProduct, Matrix.mul_apply, Matrix.add_apply]
        exact Or.inl (by norm_num)
    rw [toySq_value] at h
    have e := HasFDerivAt.unique h h2
    have := congrArg (fun L => L fun _ => 1) e
    simp only [dotL_apply] at this
    simp [toySq, Amp.deriv, Amp.J, Amp.ww, Amp.delta, blk, dotProduct, Matrix.mulVec, Matrix.mul_apply,
      Fintype.sum_prod_type] at this
    norm_num at this

/-- The documented value of the smoothness of amplitudes: the differences of the amplitudes. -/
def documented (o : Amp ι κ φ n) (m : ι → ℝ) : ℝ :=
  ∑ f, o.w f * (∑ c, o.G f c * Real.sqrt (∑ k, o.P.apply (o.delta m) (k, c) ^ 2)) ^ 2

/-- Two cells, two components, one face. -/
def toyRot : Amp (Fin 2 × Fin 2) (Fin 2) (Fin 1) 2 where
  P := ⟨id, fun _ => 1⟩
  ref := none
  w _ := 1
  G := !![-1, 1]
  small := false

/-- C84 is violated: the smoothness is documented as that of the amplitudes, but vectors of the same
amplitude in all cells are penalised if their directions are different. -/
theorem C84_violated_amplitude_smoothness : ∃ (o : Amp (Fin 2 × Fin 2) (Fin 2) (Fin 1) 2)
    (m : Fin 2 × Fin 2 → ℝ), (∀ f, 0 ≤ o.w f) ∧
      (∀ c, Real.sqrt (∑ k, o.P.apply (o.delta m) (k, c) ^ 2) = 1) ∧ documented o m = 0 ∧
      o.value m = 2 := by
  have ha : ∀ c : Fin 2, Real.sqrt (∑ k, toyRot.P.apply (toyRot.delta
      fun p => if p.1 = p.2 then 1 else 0) (k, c) ^ 2) = 1 := by
    intro c
    fin_cases c <;> simp [toyRot, Amp.delta]
  refine ⟨toyRot, fun p => if p.1 = p.2 then 1 else 0, fun _ => by simp [toyRot], ha, ?_, ?_⟩
  · simp only [documented, ha]
    simp [toyRot]
  · rw [C84_amplitude_value toyRot (fun _ => by simp [toyRot])]
    simp [toyRot, Amp.delta]
    norm_num

/-- C84: the value is an upper bound of the documented one if every row of the gradient is a
multiple of a difference of two cells. -/
theorem C84_amplitude_smoothness_bound (o : Amp ι κ φ n) (hw : ∀ f, 0 ≤ o.w f)
    (hG : ∀ f, ∃ (i j : κ) (a : ℝ), ∀ x : κ → ℝ, ∑ c, o.G f c * x c = a * (x i - x j)) (m : ι → ℝ) :
    documented o m ≤ o.value m := by
  rw [C84_amplitude_value o hw]
  refine Finset.sum_le_sum fun f _ => mul_le_mul_of_nonneg_left ?_ (hw f)
  obtain ⟨i, j, a, h⟩ := hG f
  simp only [h fun c => Real.sqrt (∑ k, o.P.apply (o.delta m) (k, c) ^ 2),
    fun k => h fun c => o.P.apply (o.delta m) (k, c)]
  set x := fun k => o.P.apply (o.delta m) (k, i)
  set y := fun k => o.P.apply (o.delta m) (k, j)
  have hx := norm_sq x
  have hy := norm_sq y
  have hc := Finset.sum_mul_sq_le_sq_mul_sq Finset.univ x y
  have hxy : ∑ k, x k * y k ≤ norm x * norm y := by
    refine le_of_sq_le_sq ?_ (mul_nonneg (Real.sqrt_nonneg _) (Real.sqrt_nonneg _))
    rw [mul_pow, hx, hy]
    exact hc
  show (a * (norm x - norm y)) ^ 2 ≤ ∑ k, (a * (x k - y k)) ^ 2
  have e : ∑ k, (a * (x k - y k)) ^ 2 =
      a ^ 2 * (∑ k, x k ^ 2 + ∑ k, y k ^ 2 - 2 * ∑ k, x k * y k) := by
    rw [Finset.mul_sum, ← Finset.sum_add_distrib, ← Finset.sum_sub_distrib, Finset.mul_sum]
    exact Finset.sum_congr rfl fun k _ => by ring
  rw [e, mul_pow]
  refine mul_le_mul_of_nonneg_left ?_ (sq_nonneg a)
  nlinarith

/-- C84: vectors which are the same in all cells have no smoothness if the gradient of constants
is zero. -/
theorem C84_amplitude_constant (o : Amp ι κ φ n) (hw : ∀ f, 0 ≤ o.w f) (hG : ∀ f, ∑ c, o.G f c = 0)
    (m : ι → ℝ) (x : Fin n → ℝ) (h : ∀ k c, o.P.apply (o.delta m) (k, c) = x k) :
    o.value m = 0 := by
  rw [C84_amplitude_value o hw]
  refine Finset.sum_eq_zero fun f _ => ?_
  simp only [h, ← Finset.sum_mul, hG]
  simp

/-! ### Weights -/

/-- Whether weights are of shape `(nC, n)`. -/
def isMat : Wts κ n → Bool
  | .mat _ => true
  | _ => false

/-- C84: the weights of `AmplitudeSmallness` are the product of those which are not of shape
`(nC, n)`. -/
theorem C84_amplitude_weights_partial (ws : List (Wts κ n)) (c : κ) :
    ampWeights ws c = ((ws.filter fun w => !isMat w).map (factor c)).prod := by
  unfold ampWeights
  have : ∀ acc : κ → ℝ, ws.foldl (fun acc w => match w with
      | .cell x => fun c => acc c * x c
      | .flat x => fun c => acc c * norm fun k => x (k, c)
      | .mat _ => acc) acc c = acc c * ((ws.filter fun w => !isMat w).map (factor c)).prod := by
    induction ws with
    | nil => intro acc; simp
    | cons w ws ih =>
      intro acc
      rw [List.foldl_cons, ih]
      cases w <;> simp [factor, norm, mul_assoc, isMat]
  rw [this, one_mul]

/-- C84 is violated: weights of shape `(nC, n)`, which are accepted, have no effect on
`AmplitudeSmallness`; the same weights as a flat array have. -/
theorem C84_violated_ignored_weights :
    (∀ (ws : List (Wts κ n)) (x : κ → Fin n → ℝ), ampWeights (.mat x :: ws) = ampWeights ws) ∧
    (∀ c : κ, ampWeights [(.mat fun _ _ => 3 : Wts κ 1)] c = 1 ∧
      ampWeights [(.flat fun _ => 3 : Wts κ 1)] c = 3) := by
  refine ⟨fun ws x => ?_, fun c => ⟨by simp [ampWeights], ?_⟩⟩
  · funext c
    rw [C84_amplitude_weights_partial, C84_amplitude_weights_partial]
    simp [isMat]
  · rw [C84_amplitude_weights_partial]
    simp [isMat, factor]

/-- The factor of a face: weights of cells are averaged, those with components count with their
norm. -/
def faceFactor (av : Matrix φ κ ℝ) (f : φ) : FWts κ φ n → ℝ
  | .face w => w f
  | .faceFlat w => Real.sqrt (∑ k, w (k, f) ^ 2)
  | .faceMat w => Real.sqrt (∑ k, w f k ^ 2)
  | .cell w => ∑ c, av f c * w c
  | .cellFlat w => ∑ c, av f c * Real.sqrt (∑ k, w (k, c) ^ 2)
  | .cellMat w => ∑ c, av f c * Real.sqrt (∑ k, w c k ^ 2)

/-- Whether weights are of shape `(nC, n)`. -/
def isCellMat : FWts κ φ n → Bool
  | .cellMat _ => true
  | _ => false

/-- C84: the weights of the smoothness are the product of those registered. Missing: those of shape
`(nC, n)`. -/
theorem C84_smooth_weights_partial (av : Matrix φ κ ℝ) (ws : List (FWts κ φ n))
    (h : ∀ w ∈ ws, isCellMat w = false) :
    ∃ x, smoothWeights av ws = .ok x ∧ ∀ f, x f = (ws.map (faceFactor av f)).prod := by
  induction ws with
  | nil => exact ⟨_, rfl, fun f => by simp⟩
  | cons w ws ih =>
    obtain ⟨x, hx, hf⟩ := ih fun v hv => h v (List.mem_cons_of_mem _ hv)
    have hw := h w List.mem_cons_self
    simp only [smoothWeights, hx]
    cases w with
    | cellMat y => simp [isCellMat] at hw
    | _ => exact ⟨_, rfl, fun f => by
        simp [hf, faceFactor, norm, Matrix.mulVec, dotProduct]⟩

/-- C84 is violated: weights of shape `(nC, n)`, which are accepted, make the weights of the
smoothness raise. -/
theorem C84_violated_smooth_weights (av : Matrix φ κ ℝ) (ws : List (FWts κ φ n))
    (h : ∃ w ∈ ws, isCellMat w = true) : smoothWeights av ws = .error .valueError := by
  induction ws with
  | nil => simp at h
  | cons w ws ih =>
    by_cases hs : ∃ v ∈ ws, isCellMat v = true
    · simp [smoothWeights, ih hs]
    · have hw : isCellMat w = true := by
        obtain ⟨v, hv, hm⟩ := h
        rcases List.mem_cons.1 hv with rfl | hv
        · exact hm
        · exact absurd ⟨v, hv, hm⟩ hs
      obtain ⟨x, hx, -⟩ := C84_smooth_weights_partial av ws fun v hv => by
        by_contra hc
        exact hs ⟨v, hv, by simpa using hc⟩
      simp only [smoothWeights, hx]
      cases w <;> simp [isCellMat] at hw ⊢

/-! ### The reference directions -/

/-- C84: a single vector is the reference of all cells, an array of shape `(nC, dim)` gives each cell
its own, and every other shape is refused. -/
theorem C84_ref_dir (nC dim : ℕ) :
    (∀ x : Fin dim → ℝ, refDir nC dim (.one dim x) = .ok fun _ => x) ∧
    (∀ x : Fin nC → Fin dim → ℝ, refDir nC dim (.two nC dim x) = .ok x) ∧
    (∀ (a : ℕ) (x : Fin a → ℝ), a ≠ dim → refDir nC dim (.one a x) = .error .valueError) ∧
    (∀ (a b : ℕ) (x : Fin a → Fin b → ℝ), ¬ (a = nC ∧ b = dim) →
      refDir nC dim (.two a b x) = .error .valueError) := by
  refine ⟨fun x => ?_, fun x => ?_, fun a x h => ?_, fun a b x h => ?_⟩
  · simp [refDir]
  · simp [refDir]
  · simp [refDir, h]
  · simp [refDir, h]

/-- C84 is violated: an array of the documented shape `(dim, nC)` is refused, unless there are as many
cells as dimensions. -/
theorem C84_violated_ref_shape (nC dim : ℕ) (h : nC ≠ dim) (x : Fin dim → Fin nC → ℝ) :
    refDir nC dim (.two dim nC x) = .error .valueError :=
  (C84_ref_dir nC dim).2.2.2 dim nC x fun hh => h hh.2

/-! ### Examples -/

/-- Two cells and three components with the identity map and the reference along `z`. -/
example : (∀ c : Fin 2, 0 < crossWeights [.cell fun _ => 2, (.mat fun _ _ => 1 : Wts (Fin 2) 3)] c) ∧
    (∀ _ : Fin 2, (![0, 0, 1] : Fin 3 → ℝ) ≠ 0) := by
  refine ⟨fun c => ?_, fun _ h => ?_⟩
  · rw [C84_cross_weights]
    simp [factor]
  · have := congrFun h 2
    simp at this

/-- The hypotheses on linear mappings, weights and gradients are met. -/
example : (∀ f, 0 ≤ toyRot.w f) ∧ (∀ x, toyRot.P.apply x = (1 : Matrix _ _ ℝ) *ᵥ x) ∧
    (∀ x, toyRot.P.deriv x = 1) ∧ (∀ f, ∑ c, toyRot.G f c = 0) ∧
    (∀ f, ∃ (i j : Fin 2) (a : ℝ), ∀ x : Fin 2 → ℝ, ∑ c, toyRot.G f c * x c = a * (x i - x j)) := by
  refine ⟨fun _ => by simp [toyRot], fun x => by simp [toyRot], fun _ => rfl,
    fun f => by fin_cases f; simp [toyRot], fun f => ⟨1, 0, 1, fun x => ?_⟩⟩
  fin_cases f
  simp [toyRot]
  ring

/-- A rotation by a right angle is orthogonal. -/
example : (!![0, -1; 1, 0] : Matrix (Fin 2) (Fin 2) ℝ)ᵀ * !![0, -1; 1, 0] = 1 := by
  ext i j
  fin_cases i <;> fin_cases j <;> simp [Matrix.mul_apply]

end Props
end Verif.Reg.Vector
