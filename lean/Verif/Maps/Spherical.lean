import Verif.Basic
import Verif.Jacobian
import Verif.Utils.Angles
import Mathlib.Analysis.SpecialFunctions.Trigonometric.Deriv
import Mathlib.Analysis.SpecialFunctions.Trigonometric.DerivHyp

/-!
C152: the map from spherical to Cartesian components, `SphericalSystem`
(`simpeg/maps/_base.py` 864-1065). Numbers are real.
-/

noncomputable section
namespace Verif.Maps.Spherical
open Verif Verif.Utils.Angles Matrix Real

/-! ### The code -/

/-- `__init__` (`_base.py` 919-923) with `IdentityMap.__init__` (62-84): the number of parameters, `none`
is `'*'`. `mesh` is the number of cells of the mesh. -/
def create (mesh nP : Option ℕ) : Except Err (Option ℕ) :=
  match nP with
  | some n => if n % 3 = 0 then .ok (some n) else .error .assertionError
  | none => .ok mesh

/-- `spherical2cartesian(model.reshape((-1, 3), order="F"))` (`_base.py` 977-978): rows of the table have
the entries `c`, `n + c` and `2 n + c`; the three columns of the result are joined. A length which is no
multiple of three cannot be reshaped. -/
def transform (m : List ℝ) : Except Err (List ℝ) :=
  if m.length % 3 ≠ 0 then .error .valueError
  else
    let n := m.length / 3
    let rows := (List.range n).map fun c =>
      spherical2cartesian (m.getD c 0) (m.getD (n + c) 0) (m.getD (2 * n + c) 0);
    .ok ((rows.map fun r => r.1) ++ (rows.map fun r => r.2.1) ++ rows.map fun r => r.2.2)

/-- `map * m` for an array (`_base.py` 232-239); the shape is `(nP, nP)` (1035-1037). -/
def mul (nP : Option ℕ) (m : List ℝ) : Except Err (List ℝ) :=
  match nP with
  | some n => if n = m.length then transform m else .error .valueError
  | none => transform m

/-- The diagonals of `dm_dx`, `dm_dy` and `dm_dz` for one cell (`_base.py` 943-973): row by component,
column by amplitude and angles. -/
def block (a t p : ℝ) : Matrix (Fin 3) (Fin 3) ℝ :=
  !![cos t * cos p, -a * sin t * cos p, -a * cos t * sin p;
     cos t * sin p, -a * sin t * sin p, a * cos t * cos p;
     sin t, a * cos t, 0]

/-- The double projection of one cell (`_base.py` 935-939). -/
def bounded (a t p : ℝ) : ℝ × ℝ × ℝ :=
  let v := spherical2cartesian a t p
  cartesian2spherical v.1 v.2.1 v.2.2

/-- The matrix made by `sphericalDeriv` (`_base.py` 934-975). Entry `(k, c)` of an array is that at
position `k n + c`. -/
def derivMatrix {n : ℕ} (m : Fin 3 × Fin n → ℝ) : Matrix (Fin 3 × Fin n) (Fin 3 × Fin n) ℝ :=
  Matrix.of fun r s =>
    let b := bounded (m (0, r.2)) (m (1, r.2)) (m (2, r.2))
    if r.2 = s.2 then block b.1 b.2.1 b.2.2 r.1 s.1 else 0

/-- What the map keeps: the array of the last derivative (an address, `self.model` is the array itself) and
the derivative. -/
structure Kept (D : Type) where
  model : Option ℕ
  deriv : Option D

/-- `sphericalDeriv` (`_base.py` 925-975) for the array at address `a`; `mem` are the arrays, `make` is the
computation. -/
def sphericalDeriv {V D : Type} [DecidableEq V] (make : V → D) (mem : ℕ → V) (k : Kept D) (a : ℕ) :
    D × Kept D :=
  let model := k.model.getD a
  match k.deriv with
  | some d => if mem model = mem a then (d, ⟨some model, some d⟩)
    else (make (mem a), ⟨some a, some (make (mem a))⟩)
  | none => (make (mem a), ⟨some a, some (make (mem a))⟩)

/-- What a user does: change an array, or ask for the derivative at an array. -/
inductive Op (V : Type)
  | write (a : ℕ) (v : V)
  | deriv (a : ℕ)

/-- The derivatives returned in a history. -/
def run {V D : Type} [DecidableEq V] (make : V → D) : List (Op V) → (ℕ → V) → Kept D → List D
  | [], _, _ => []
  | .write a v :: r, mem, k => run make r (Function.update mem a v) k
  | .deriv a :: r, mem, k =>
    let q := sphericalDeriv make mem k a
    q.1 :: run make r mem q.2

/-! ### Specification -/

/-- Component `k` (east, north, up) of the vector with amplitude `a + 1e-8`, elevation `t` and azimuth `p`. -/
def comp (a t p : ℝ) : Fin 3 → ℝ :=
  ![(a + 1 / 10 ^ 8) * cos t * cos p, (a + 1 / 10 ^ 8) * cos t * sin p, (a + 1 / 10 ^ 8) * sin t]

/-- The map on arrays by block and cell. -/
def vectors {n : ℕ} (m : Fin 3 × Fin n → ℝ) : Fin 3 × Fin n → ℝ := fun r =>
  comp (m (0, r.2)) (m (1, r.2)) (m (2, r.2)) r.1

/-- The derivatives at the arrays as they are when asked for. -/
def fresh {V D : Type} (make : V → D) : List (Op V) → (ℕ → V) → List D
  | [], _ => []
  | .write a v :: r, mem => fresh make r (Function.update mem a v)
  | .deriv a :: r, mem => make (mem a) :: fresh make r mem

/-- No array is changed after a derivative was asked for at it. -/
def Untouched {V : Type} : List (Op V) → List ℕ → Prop
  | [], _ => True
  | .write a _ :: r, seen => a ∉ seen ∧ Untouched r seen
  | .deriv a :: r, seen => Untouched r (a :: seen)

namespace Props

/-! ### Values -/

/-- C152. **Values**: an array of `3 n` numbers, amplitudes, elevations and azimuths, becomes the array of
the three components. -/
theorem C152_transform (n : ℕ) (m : List ℝ) (h : m.length = 3 * n) :
    ∃ u, transform m = .ok u ∧ u.length = 3 * n ∧ ∀ (k : Fin 3) (c : ℕ), c < n →
      u[k * n + c]? = some (comp (m.getD c 0) (m.getD (n + c) 0) (m.getD (2 * n + c) 0) k) := by
  have h3 : m.length / 3 = n := by omega
  refine ⟨_, by rw [transform, if_neg (by omega)], by simp [h3]; omega, ?_⟩
  intro k c hc
  simp only [h3]
  fin_cases k
  · rw [List.append_assoc, List.getElem?_append_left (by simpa using hc)]
    simp [hc, comp, spherical2cartesian]
  · rw [List.append_assoc, List.getElem?_append_right (by simp),
      List.getElem?_append_left (by simpa using hc)]
    simp [hc, comp, spherical2cartesian]
  · rw [List.getElem?_append_right (by simp; omega)]
    have e : 2 * n + c - (n + n) = c := by omega
    simp [hc, comp, spherical2cartesian, e]

example : ([1, 2, 0, 1, 0, 0] : List ℝ).length = 3 * 2 := rfl

/-- C152. **Arguments**: numbers of parameters which are no multiple of three are refused, as are arrays of
another length. -/
theorem C152_refused (mesh : Option ℕ) (n : ℕ) (m : List ℝ) :
    (n % 3 ≠ 0 → create mesh (some n) = .error .assertionError) ∧
    (n % 3 = 0 → create mesh (some n) = .ok (some n)) ∧
    (n ≠ m.length → mul (some n) m = .error .valueError) ∧
    (n = m.length → mul (some n) m = transform m) ∧
    (m.length % 3 ≠ 0 → transform m = .error .valueError) := by
  refine ⟨fun h => by simp [create, h], fun h => by simp [create, h], fun h => by simp [mul, h],
    fun h => by simp [mul, h], fun h => by simp [transform, h]⟩

/-- C152. **With a mesh the number of parameters is that of the cells**, although `3 nC` is documented: the
array of `3 nC` numbers is refused. -/
theorem C152_violated_mesh (nC : ℕ) (hC : 0 < nC) (m : List ℝ) (h : m.length = 3 * nC) :
    ∃ nP, create (some nC) none = .ok nP ∧ mul nP m = .error .valueError := by
  refine ⟨some nC, rfl, ?_⟩
  simp only [mul]
  rw [if_neg (by omega)]

/-! ### Derivative -/

/-- The Jacobian, at every model. -/
theorem vectors_jacobian {n : ℕ} (m : Fin 3 × Fin n → ℝ) :
    IsJacobian vectors (Matrix.of fun r s =>
      if r.2 = s.2 then block (m (0, r.2) + 1 / 10 ^ 8) (m (1, r.2)) (m (2, r.2)) r.1 s.1 else 0) m := by
  rw [isJacobian_iff]
  rintro ⟨k, c⟩
  have hp : ∀ j : Fin 3, HasFDerivAt (fun m : Fin 3 × Fin n → ℝ => m (j, c))
      (ContinuousLinearMap.proj (R := ℝ) (j, c)) m := fun j => hasFDerivAt_apply (j, c) m
  have ha := (hp 0).add_const (1 / 10 ^ 8 : ℝ)
  have hct := (hp 1).cos
  have hst := (hp 1).sin
  have hcp := (hp 2).cos
  have hsp := (hp 2).sin
  have sumE : ∀ (v : Fin 3 × Fin n → ℝ) (g : Fin 3 → ℝ),
      (∑ s : Fin 3 × Fin n, (if c = s.2 then g s.1 else 0) * v s)
        = g 0 * v (0, c) + g 1 * v (1, c) + g 2 * v (2, c) := by
    intro v g
    rw [Fintype.sum_prod_type]
    simp [Fin.sum_univ_three, ite_mul]
  fin_cases k
  · refine ((ha.mul hct).mul hcp).congr_fderiv ?_
    ext v
    simp only [dotL_apply, dotProduct, Matrix.of_apply]
    rw [sumE]
    simp [block]
    ring
  · refine ((ha.mul hct).mul hsp).congr_fderiv ?_
    ext v
    simp only [dotL_apply, dotProduct, Matrix.of_apply]
    rw [sumE]
    simp [block]
    ring
  · refine (ha.mul hst).congr_fderiv ?_
    ext v
    simp only [dotL_apply, dotProduct, Matrix.of_apply]
    rw [sumE]
    simp [block]
    ring

/-- C152. **Derivative**: where the amplitudes are not negative and the angles are in their ranges,
elevations strictly between the poles, the matrix is the Jacobian of the map. -/
theorem C152_derivative_partial {n : ℕ} (m : Fin 3 × Fin n → ℝ) (ha : ∀ c, 0 ≤ m (0, c))
    (ht : ∀ c, -(π / 2) < m (1, c) ∧ m (1, c) < π / 2) (hp : ∀ c, -π < m (2, c) ∧ m (2, c) ≤ π) :
    IsJacobian vectors (derivMatrix m) m := by
  have h := vectors_jacobian m
  have hm : derivMatrix m = Matrix.of fun r s =>
      if r.2 = s.2 then block (m (0, r.2) + 1 / 10 ^ 8) (m (1, r.2)) (m (2, r.2)) r.1 s.1 else 0 := by
    refine Matrix.ext fun r s => ?_
    have e : bounded (m (0, r.2)) (m (1, r.2)) (m (2, r.2))
        = (m (0, r.2) + 1 / 10 ^ 8, m (1, r.2), m (2, r.2)) :=
      Verif.Utils.Angles.Props.C59_back_and_there _ _ _ (ha r.2) (ht r.2).1 (ht r.2).2 (hp r.2).1 (hp r.2).2
    simp only [derivMatrix, Matrix.of_apply, e]
  rw [hm]
  exact h

example : ∃ m : Fin 3 × Fin 2 → ℝ, (∀ c, 0 ≤ m (0, c)) ∧
    (∀ c, -(π / 2) < m (1, c) ∧ m (1, c) < π / 2) ∧ (∀ c, -π < m (2, c) ∧ m (2, c) ≤ π) := by
  refine ⟨fun _ => 1 / 2, fun _ => by norm_num, fun _ => ?_, fun _ => ?_⟩ <;>
    constructor <;> linarith [two_le_pi]

/-- The projection of a cell beyond the pole: the vector has the elevation `π - t` and the azimuth `p + π`. -/
theorem bounded_beyond (a t p : ℝ) (ha : 0 ≤ a) (ht : π / 2 < t) (ht' : t < 3 * π / 2)
    (hp : -(2 * π) < p) (hp' : p ≤ 0) : bounded a t p = (a + 1 / 10 ^ 8, π - t, p + π) := by
  have e : spherical2cartesian a t p = spherical2cartesian a (π - t) (p + π) := by
    simp [spherical2cartesian, cos_add_pi, sin_add_pi, cos_pi_sub, sin_pi_sub]
  rw [bounded, e]
  exact Verif.Utils.Angles.Props.C59_back_and_there a (π - t) (p + π) ha (by linarith) (by linarith) (by linarith)
    (by linarith)

/-- C152. **Elevations beyond the vertical**: the column of the elevation is the negative of the derivative,
for every cell with amplitude not negative, elevation in `(π/2, 3π/2)` and azimuth in `(-2π, 0]`. -/
theorem C152_violated_elevation {n : ℕ} (m : Fin 3 × Fin n → ℝ) (c : Fin n) (ha : 0 ≤ m (0, c))
    (ht : π / 2 < m (1, c)) (ht' : m (1, c) < 3 * π / 2) (hp : -(2 * π) < m (2, c)) (hp' : m (2, c) ≤ 0)
    (J : Matrix (Fin 3 × Fin n) (Fin 3 × Fin n) ℝ) (hJ : IsJacobian vectors J m) :
    (∀ k, derivMatrix m (k, c) (1, c) = -J (k, c) (1, c)) ∧ derivMatrix m ≠ J := by
  have hu := hJ.unique (vectors_jacobian m)
  have e := bounded_beyond _ _ _ ha ht ht' hp hp'
  have hall : ∀ k, derivMatrix m (k, c) (1, c) = -J (k, c) (1, c) := by
    intro k
    rw [hu]
    simp only [derivMatrix, Matrix.of_apply, if_true, e]
    fin_cases k <;> simp [block, cos_add_pi, sin_add_pi, cos_pi_sub, sin_pi_sub]
  refine ⟨hall, fun hc => ?_⟩
  have h2 := hall 2
  rw [hc, hu] at h2
  simp only [Matrix.of_apply, if_true, block] at h2
  have hcos : cos (m (1, c)) < 0 :=
    cos_neg_of_pi_div_two_lt_of_lt ht (by linarith)
  have hpos : 0 < m (0, c) + 1 / 10 ^ 8 := by positivity
  have hn : (m (0, c) + 1 / 10 ^ 8) * cos (m (1, c)) < 0 := mul_neg_of_pos_of_neg hpos hcos
  simp at h2
  norm_num at hn
  linarith

example : π / 2 < π ∧ π < 3 * π / 2 := by constructor <;> linarith [pi_pos]

/-- C152. **Negative amplitudes**: the column of the amplitude is the negative of the derivative. -/
theorem C152_violated_amplitude {n : ℕ} (m : Fin 3 × Fin n → ℝ) (c : Fin n)
    (ha : m (0, c) ≤ -(2 / 10 ^ 8)) (ht : -(π / 2) < m (1, c)) (ht' : m (1, c) < π / 2)
    (hp : 0 < m (2, c)) (hp' : m (2, c) ≤ π)
    (J : Matrix (Fin 3 × Fin n) (Fin 3 × Fin n) ℝ) (hJ : IsJacobian vectors J m) :
    (∀ k, derivMatrix m (k, c) (0, c) = -J (k, c) (0, c)) ∧ derivMatrix m ≠ J := by
  have hu := hJ.unique (vectors_jacobian m)
  have e : bounded (m (0, c)) (m (1, c)) (m (2, c))
      = (-(m (0, c) + 2 / 10 ^ 8) + 1 / 10 ^ 8, -m (1, c), m (2, c) - π) := by
    have e1 : spherical2cartesian (m (0, c)) (m (1, c)) (m (2, c))
        = spherical2cartesian (-(m (0, c) + 2 / 10 ^ 8)) (-m (1, c)) (m (2, c) - π) := by
      simp only [spherical2cartesian, cos_neg, sin_neg, cos_sub_pi, sin_sub_pi, Prod.mk.injEq]
      refine ⟨by ring, by ring, by ring⟩
    rw [bounded, e1]
    exact Verif.Utils.Angles.Props.C59_back_and_there _ _ _ (by linarith) (by linarith) (by linarith) (by linarith)
      (by linarith)
  have hall : ∀ k, derivMatrix m (k, c) (0, c) = -J (k, c) (0, c) := by
    intro k
    rw [hu]
    simp only [derivMatrix, Matrix.of_apply, if_true, e]
    fin_cases k <;> simp [block, cos_sub_pi, sin_sub_pi]
  refine ⟨hall, fun hc => ?_⟩
  have h0 := hall 0
  have h1 := hall 1
  have h2 := hall 2
  rw [hc, hu] at h0 h1 h2
  simp only [Matrix.of_apply, if_true, block] at h0 h1 h2
  simp at h0 h1 h2
  have hcos : 0 < cos (m (1, c)) := cos_pos_of_mem_Ioo ⟨ht, ht'⟩
  have z0 : cos (m (1, c)) * cos (m (2, c)) = 0 := by linarith
  have z1 : cos (m (1, c)) * sin (m (2, c)) = 0 := by linarith
  have q0 := (mul_eq_zero.1 z0).resolve_left hcos.ne'
  have q1 := (mul_eq_zero.1 z1).resolve_left hcos.ne'
  have := cos_sq_add_sin_sq (m (2, c))
  rw [q0, q1] at this
  norm_num at this

/-! ### What is kept -/

/-- C152. **Kept derivatives**: as long as no array is changed after it was used, every derivative is that of
the array. -/
theorem C152_kept_partial {V D : Type} [DecidableEq V] (make : V → D) (ops : List (Op V)) (mem : ℕ → V)
    (h : Untouched ops []) : run make ops mem ⟨none, none⟩ = fresh make ops mem := by
  have key : ∀ (ops : List (Op V)) (mem : ℕ → V) (k : Kept D) (seen : List ℕ), Untouched ops seen →
      (∀ d, k.deriv = some d → ∃ a ∈ seen, k.model = some a ∧ d = make (mem a)) →
      run make ops mem k = fresh make ops mem := by
    intro ops
    induction ops with
    | nil => intros; rfl
    | cons op ops ih =>
      intro mem k seen hu hk
      cases op with
      | write a v =>
        obtain ⟨ha, hu⟩ := hu
        refine ih _ k seen hu fun d hd => ?_
        obtain ⟨b, hb, e1, e2⟩ := hk d hd
        refine ⟨b, hb, e1, ?_⟩
        rw [Function.update_of_ne (by rintro rfl; exact ha hb)]
        exact e2
      | deriv a =>
        have hstep : (sphericalDeriv make mem k a).1 = make (mem a) ∧
            ∃ b ∈ a :: seen, (sphericalDeriv make mem k a).2.model = some b ∧
              (sphericalDeriv make mem k a).2.deriv = some (make (mem b)) := by
          unfold sphericalDeriv
          cases hd : k.deriv with
          | none => exact ⟨rfl, a, by simp, rfl, rfl⟩
          | some d =>
            obtain ⟨b, hb, e1, e2⟩ := hk d hd
            simp only [e1, Option.getD_some]
            by_cases hm : mem b = mem a
            · simp only [hm, if_true]
              exact ⟨by rw [e2, hm], b, by simp [hb], by simp, by simp [e2, hm]⟩
            · simp only [hm, if_false]
              exact ⟨by simp, a, by simp, by simp, by simp⟩
        obtain ⟨h1, b, hb, h2, h3⟩ := hstep
        simp only [run, fresh, h1]
        refine congrArg _ (ih mem _ (a :: seen) hu fun d hd => ⟨b, hb, h2, ?_⟩)
        rw [h3] at hd
        exact (Option.some.inj hd).symm
  exact key ops mem _ [] h (by intro d hd; cases hd)

example : Untouched [Op.write 0 (1 : ℕ), .deriv 0, .write 1 2, .deriv 1, .deriv 0] [] := by
  simp [Untouched]

/-- C152. **Arrays changed in place**: after a change the old derivative is returned, whatever the derivative
at the new values is. -/
theorem C152_violated_in_place {V D : Type} [DecidableEq V] (make : V → D) (mem : ℕ → V) (a : ℕ) (v : V) :
    run make [.deriv a, .write a v, .deriv a] mem ⟨none, none⟩ = [make (mem a), make (mem a)] ∧
    fresh make [.deriv a, .write a v, .deriv a] mem = [make (mem a), make v] := by
  simp [run, fresh, sphericalDeriv]

end Props
end Verif.Maps.Spherical
