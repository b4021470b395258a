import Verif.JacobianM
import Verif.PF.Layout
import Mathlib.LinearAlgebra.Matrix.DotProduct
import Mathlib.Analysis.SpecialFunctions.Sqrt
import Mathlib.Tactic.FieldSimp
import Mathlib.Tactic.Abel

/-!
C177: the finite volume simulation of magnetics (`Simulation3DDifferential`,
`simpeg/potential_fields/magnetics/simulation.py` 1656-2201).

`p` are the parameters of the model, `c` the cells, `e` the faces. Inner products of faces are diagonal, as on the
meshes that the class is made for: that of an isotropic property `a` is `diagonal (W *ᵥ a)`, that of a vector with
three numbers per cell `diagonal (W3 *ᵥ a)`. The solver is exact. Arithmetic is that of ℝ.
-/

noncomputable section
namespace Verif.PF.Differential
open Verif Matrix
open scoped Classical

variable {p c e : Type} [Fintype p] [Fintype c] [Fintype e]

/-- A mapping with its derivative. -/
structure Mapping (p c : Type) where
  f : (p → ℝ) → (c → ℝ)
  D : (p → ℝ) → Matrix c p ℝ

/-- A permeability that was set: a number or one number per cell. -/
inductive Mu (c : Type)
  | number (x : ℝ)
  | array (x : c → ℝ)

/-- The simulation (`simpeg/potential_fields/magnetics/simulation.py` 1703-1743): `V` are the volumes, `face` is
`face_divergence`, `dir` the direction of each face. -/
structure Sim (p c e : Type) where
  V : c → ℝ
  face : Matrix c e ℝ
  W : Matrix e c ℝ
  W3 : Matrix e (Fin 3 × c) ℝ
  dir : e → Fin 3
  B0 : Fin 3 → ℝ
  mu0 : ℝ
  mu : Mu c
  muMap : Option (Mapping p c)
  rem : Option (Fin 3 × c → ℝ)
  remMap : Option (Mapping p (Fin 3 × c))

namespace Sim
variable (S : Sim p c e)

/-- `_Div`. -/
def Div : Matrix c e ℝ := diagonal S.V * S.face

/-- `_b0` (`simpeg/potential_fields/magnetics/simulation.py` 1817-1827). -/
def b0 : e → ℝ := fun i => S.B0 (S.dir i)

/-- The property `mu` for a model. -/
def muOf (m : p → ℝ) : Mu c :=
  match S.muMap with
  | some M => .array (M.f m)
  | none => S.mu

/-- `mu * np.ones(n_cells)`. -/
def muArr (m : p → ℝ) : c → ℝ :=
  match S.muOf m with
  | .number x => fun _ => x
  | .array x => x

/-- The property `rem` for a model. -/
def remOf (m : p → ℝ) : Option (Fin 3 × c → ℝ) :=
  match S.remMap with
  | some M => some (M.f m)
  | none => S.rem

/-- `np.isscalar(self.mu) and np.allclose(self.mu, mu_0)`, with the default tolerances of NumPy. -/
def IsDefault (m : p → ℝ) : Prop :=
  match S.muOf m with
  | .number x => |x - S.mu0| ≤ 1e-8 + 1e-5 * |S.mu0|
  | .array _ => False

/-- `mui`. -/
def mui (m : p → ℝ) : c → ℝ := fun i => (S.muArr m i)⁻¹

/-- The diagonal of `MfMuiI`. -/
def w (m : p → ℝ) : e → ℝ := fun i => ((S.W *ᵥ S.mui m) i)⁻¹

/-- The diagonal of `_MfMu0i`. -/
def w0 : e → ℝ := S.W *ᵥ fun _ => S.mu0⁻¹

/-- The diagonal of `get_face_inner_product(rem / np.tile(mu, dim))`. -/
def remInner (m : p → ℝ) (r : Fin 3 × c → ℝ) : e → ℝ := S.W3 *ᵥ fun t => r t / S.muArr m t.2

/-- `_getRHS` (`simpeg/potential_fields/magnetics/simulation.py` 1841-1863). A right side that is the number `0` is
taken as the vector of zeros. -/
def rhs (m : p → ℝ) : c → ℝ :=
  (if S.IsDefault m then 0 else S.Div *ᵥ (S.w m * (S.w0 * S.b0)) - S.Div *ᵥ S.b0) +
  match S.remOf m with
  | some r => S.Div *ᵥ (S.w m * S.remInner m r)
  | none => 0

/-- `_getA` (`simpeg/potential_fields/magnetics/simulation.py` 1865-1870). -/
def A [DecidableEq e] (m : p → ℝ) : Matrix c c ℝ := S.Div * diagonal (S.w m) * S.Divᵀ

/-- `fields` (`simpeg/potential_fields/magnetics/simulation.py` 1872-1903) with a solver `Ainv`: the potential `u`
and the flux `b`. -/
def fieldsWith (Ainv : Matrix c c ℝ) (m : p → ℝ) : (c → ℝ) × (e → ℝ) :=
  let u := Ainv *ᵥ S.rhs m
  let b := -(S.w m * (S.Divᵀ *ᵥ u)) + (if S.IsDefault m then 0 else S.w0 * (S.w m * S.b0) - S.b0) +
    match S.remOf m with
    | some r => S.w m * S.remInner m r
    | none => 0
  (u, b)

/-- `fields` of a new simulation. -/
def fields [DecidableEq c] [DecidableEq e] (m : p → ℝ) : (c → ℝ) × (e → ℝ) := S.fieldsWith (S.A m)⁻¹ m

/-- `magnetic_polarization` (`simpeg/potential_fields/magnetics/simulation.py` 1917-1943). -/
def polarization [DecidableEq c] [DecidableEq e] (m : p → ℝ) : e → ℝ :=
  let f := S.fields m
  f.2 - -((fun i => (S.w0 i)⁻¹) * (S.Divᵀ *ᵥ f.1))

/-! ### Sensitivities -/

/-- `muiDeriv`: by the reciprocal of `mu`. -/
def muiD [DecidableEq c] (M : Mapping p c) (m : p → ℝ) : Matrix c p ℝ :=
  diagonal (fun i => -((M.f m i) ^ 2)⁻¹) * M.D m

/-- `MfMuiIDeriv(x, v)` (`simpeg/base/pde_simulation.py`, by C67): `u = MfMuiI @ (MfMuiI @ -x)`, then `u * (M * v)`
with the derivative of the inner product. -/
def iDeriv [DecidableEq c] (M : Mapping p c) (m : p → ℝ) (x : e → ℝ) (v : p → ℝ) : e → ℝ :=
  (S.w m * (S.w m * -x)) * (S.W *ᵥ (muiD M m *ᵥ v))

/-- `MfMuiIDeriv(x, v, adjoint=True)`. -/
def iDerivT [DecidableEq c] (M : Mapping p c) (m : p → ℝ) (x : e → ℝ) (v : e → ℝ) : p → ℝ :=
  (S.W * muiD M m)ᵀ *ᵥ ((S.w m * (S.w m * -x)) * v)

/-- `sp.vstack((muiDeriv, muiDeriv, muiDeriv))`. -/
def stack (D : Matrix c p ℝ) : Matrix (Fin 3 × c) p ℝ := fun t j => D t.2 j

/-- `dCmu_dm` and `db_dm` of `_Jvec` (`simpeg/potential_fields/magnetics/simulation.py` 2040-2071), for the potential
`u`. -/
def dC [DecidableEq c] (m : p → ℝ) (u : c → ℝ) (v : p → ℝ) : e → ℝ :=
  match S.muMap with
  | some M => S.iDeriv M m (S.Divᵀ *ᵥ u) v
  | none => 0

/-- The flux of the sources in `_Jvec`, see `dC`. -/
def db [DecidableEq c] (m : p → ℝ) (v : p → ℝ) : e → ℝ :=
  (match S.remMap with
    | some R => S.w m * (S.W3 *ᵥ ((fun t : Fin 3 × c => 1 / S.muArr m t.2) * (R.D m *ᵥ v)))
    | none => 0) +
  match S.muMap with
  | some M => S.w0 * S.iDeriv M m S.b0 v +
    (match S.remOf m with
      | some r => S.iDeriv M m (S.remInner m r) v + S.w m * (S.W3 *ᵥ (r * (stack (muiD M m) *ᵥ v)))
      | none => 0)
  | none => 0

/-- The change of the flux in `_Jvec`, before the receivers
(`simpeg/potential_fields/magnetics/simulation.py` 2073-2075). -/
def jFlux [DecidableEq c] (Ainv : Matrix c c ℝ) (m : p → ℝ) (u : c → ℝ) (v : p → ℝ) : e → ℝ :=
  let x := Ainv *ᵥ (S.Div *ᵥ (-S.dC m u v + S.db m v));
  -(S.w m * (S.Divᵀ *ᵥ x)) + (-S.dC m u v + S.db m v)

/-- `_Jtvec` after the receivers (`simpeg/potential_fields/magnetics/simulation.py` 1995-2033); `q` is `Q.T * v`. -/
def jtFlux [DecidableEq c] (Ainv : Matrix c c ℝ) (m : p → ℝ) (u : c → ℝ) (q : e → ℝ) : p → ℝ :=
  let d := S.Divᵀ *ᵥ (Ainv *ᵥ (-(S.Div *ᵥ (S.w m * q)))) + q
  (match S.remMap with
    | some R => (R.D m)ᵀ *ᵥ ((fun t : Fin 3 × c => 1 / S.muArr m t.2) * (S.W3ᵀ *ᵥ (S.w m * d)))
    | none => 0) +
  match S.muMap with
  | some M => S.iDerivT M m (S.Divᵀ *ᵥ u) (-d) + S.iDerivT M m S.b0 (S.w0 * d) +
    (match S.remOf m with
      | some r => S.iDerivT M m (S.remInner m r) d +
        (stack (muiD M m))ᵀ *ᵥ (r * (S.W3ᵀ *ᵥ (S.w m * d)))
      | none => 0)
  | none => 0

end Sim

/-! ### Receivers -/

/-- The components that are supported. -/
inductive Comp
  | bx | by' | bz | tmi
  deriving DecidableEq

/-- A receiver object: its components and the number of its locations. -/
structure Rx where
  comps : List Comp
  n : ℕ

/-- The loop over the receivers of `_projectFields` and `_projectFieldsDeriv`
(`simpeg/potential_fields/magnetics/simulation.py` 2115-2138, 2168-2189): `val k l` is what component `k` has at
location `l` of all receivers. -/
def project {α : Type} (val : Comp → ℕ → α) : List Rx → ℕ → List α
  | [], _ => []
  | r :: rs, off =>
    r.comps.flatMap (fun k => (List.range r.n).map fun j => val k (off + j)) ++ project val rs (off + r.n)

/-- The values of a component (`simpeg/potential_fields/magnetics/simulation.py` 2095-2113); `Q` are the three
interpolation matrices. -/
def value (Q : Fin 3 → ℕ → e → ℝ) (B0 : Fin 3 → ℝ) (b : e → ℝ) : Comp → ℕ → ℝ
  | .bx, l => Q 0 l ⬝ᵥ b
  | .by', l => Q 1 l ⬝ᵥ b
  | .bz, l => Q 2 l ⬝ᵥ b
  | .tmi, l =>
    Real.sqrt ((Q 0 l ⬝ᵥ b + B0 0) ^ 2 + (Q 1 l ⬝ᵥ b + B0 1) ^ 2 + (Q 2 l ⬝ᵥ b + B0 2) ^ 2) -
      Real.sqrt (B0 0 ^ 2 + B0 1 ^ 2 + B0 2 ^ 2)

/-- The rows of the derivative (`simpeg/potential_fields/magnetics/simulation.py` 2141-2166). -/
def deriv (Q : Fin 3 → ℕ → e → ℝ) (B0 : Fin 3 → ℝ) (b : e → ℝ) : Comp → ℕ → (e → ℝ)
  | .bx, l => Q 0 l
  | .by', l => Q 1 l
  | .bz, l => Q 2 l
  | .tmi, l =>
    let bot := Real.sqrt (B0 0 ^ 2 + B0 1 ^ 2 + B0 2 ^ 2)
    let dpred := Real.sqrt ((Q 0 l ⬝ᵥ b + B0 0) ^ 2 + (Q 1 l ⬝ᵥ b + B0 1) ^ 2 + (Q 2 l ⬝ᵥ b + B0 2) ^ 2) - bot
    (1 / (dpred + bot)) • ((B0 0 + Q 0 l ⬝ᵥ b) • Q 0 l + (B0 1 + Q 1 l ⬝ᵥ b) • Q 1 l + (B0 2 + Q 2 l ⬝ᵥ b) • Q 2 l)

/-- `dpred` of a new simulation. -/
def dpred [DecidableEq c] [DecidableEq e] (S : Sim p c e) (Q : Fin 3 → ℕ → e → ℝ) (rs : List Rx) (m : p → ℝ) :
    List ℝ := project (value Q S.B0 (S.fields m).2) rs 0

/-- `_Jvec`: the rows of the receivers times the change of the flux. -/
def jvec [DecidableEq c] [DecidableEq e] (S : Sim p c e) (Q : Fin 3 → ℕ → e → ℝ) (rs : List Rx) (m v : p → ℝ) :
    List ℝ :=
  let f := S.fields m
  (project (deriv Q S.B0 f.2) rs 0).map fun q => q ⬝ᵥ S.jFlux (S.A m)⁻¹ m f.1 v

/-- `_Jtvec`: `Q.T * v`, then the rest. -/
def jtvec [DecidableEq c] [DecidableEq e] (S : Sim p c e) (Q : Fin 3 → ℕ → e → ℝ) (rs : List Rx) (m : p → ℝ)
    (v : List ℝ) : p → ℝ :=
  let f := S.fields m
  S.jtFlux (S.A m)⁻¹ m f.1 (((project (deriv Q S.B0 f.2) rs 0).zip v).map fun q => q.2 • q.1).sum

/-! ### Fields -/

section fields
variable [DecidableEq c] [DecidableEq e] (S : Sim p c e)

/-- What drives the flux: the induced and the permanent part without potential. -/
def Sim.drive (m : p → ℝ) : e → ℝ :=
  (if S.IsDefault m then 0 else S.w0 * (S.w m * S.b0) - S.b0) +
  match S.remOf m with
  | some r => S.w m * S.remInner m r
  | none => 0

theorem rhs_eq (m : p → ℝ) : S.rhs m = S.Div *ᵥ S.drive m := by
  unfold Sim.rhs Sim.drive
  have e1 : S.w m * (S.w0 * S.b0) = S.w0 * (S.w m * S.b0) := by ring
  rw [e1, Matrix.mulVec_add]
  congr 1
  · by_cases h : S.IsDefault m
    · rw [if_pos h, if_pos h, Matrix.mulVec_zero]
    · rw [if_neg h, if_neg h, Matrix.mulVec_sub]
  · cases S.remOf m with
    | none => simp
    | some r => rfl

theorem flux_eq (Ainv : Matrix c c ℝ) (m : p → ℝ) :
    (S.fieldsWith Ainv m).2 = S.drive m - S.w m * (S.Divᵀ *ᵥ (S.fieldsWith Ainv m).1) := by
  unfold Sim.fieldsWith Sim.drive
  simp only
  cases S.remOf m <;> simp only <;> abel

theorem A_mulVec (m : p → ℝ) (u : c → ℝ) : S.A m *ᵥ u = S.Div *ᵥ (S.w m * (S.Divᵀ *ᵥ u)) := by
  unfold Sim.A
  rw [← Matrix.mulVec_mulVec, ← Matrix.mulVec_mulVec]
  congr 1
  funext i
  rw [Matrix.mulVec_diagonal]
  rfl

/-- The equations of the simulation for a permeability `mu` and a polarization `r`: fluxes out of cells vanish, and
`(B - r) / mu = H` on faces, where `H` is the field of the sources and that of a potential. -/
def Equations (S : Sim p c e) (mu : c → ℝ) (r : Option (Fin 3 × c → ℝ)) (u : c → ℝ) (b : e → ℝ) : Prop :=
  S.Div *ᵥ b = 0 ∧
  (S.W *ᵥ fun i => (mu i)⁻¹) * (b + S.b0) =
    (S.W *ᵥ fun _ => S.mu0⁻¹) * S.b0 - S.Divᵀ *ᵥ u +
      match r with
      | some r => S.W3 *ᵥ fun t => r t / mu t.2
      | none => 0

/-- C177. For every permeability that is not the default number, every polarization and field: the fields solve the
equations, and they are the only solution. -/
theorem C177_fields (m : p → ℝ) (hd : ¬S.IsDefault m) (hA : (S.A m).det ≠ 0)
    (hw : ∀ i, (S.W *ᵥ S.mui m) i ≠ 0) (u : c → ℝ) (b : e → ℝ) :
    Equations S (S.muArr m) (S.remOf m) u b ↔ (u, b) = S.fields m := by
  have hww : ∀ i, S.w m i * (S.W *ᵥ S.mui m) i = 1 := fun i => inv_mul_cancel₀ (hw i)
  have hrel : ∀ (u : c → ℝ) (b : e → ℝ),
      ((S.W *ᵥ fun i => (S.muArr m i)⁻¹) * (b + S.b0) =
        (S.W *ᵥ fun _ => S.mu0⁻¹) * S.b0 - S.Divᵀ *ᵥ u +
          match S.remOf m with
          | some r => S.W3 *ᵥ fun t => r t / S.muArr m t.2
          | none => 0) ↔ b = S.drive m - S.w m * (S.Divᵀ *ᵥ u) := by
    intro u b
    have e1 : (S.W *ᵥ fun i => (S.muArr m i)⁻¹) = S.W *ᵥ S.mui m := rfl
    have e2 : (S.W *ᵥ fun _ => S.mu0⁻¹) = S.w0 := rfl
    rw [e1, e2]
    unfold Sim.drive
    rw [if_neg hd]
    constructor
    · intro h
      funext i
      have hi := congrFun h i
      have h1 := hww i
      cases hr : S.remOf m with
      | none =>
        simp only [hr, Pi.mul_apply, Pi.add_apply, Pi.sub_apply, Pi.zero_apply] at hi ⊢
        linear_combination S.w m i * hi - (b i + S.b0 i) * h1
      | some r =>
        simp only [hr, Pi.mul_apply, Pi.add_apply, Pi.sub_apply, Sim.remInner] at hi ⊢
        linear_combination S.w m i * hi - (b i + S.b0 i) * h1
    · intro h
      subst h
      funext i
      have h1 := hww i
      cases S.remOf m with
      | none =>
        simp only [Pi.mul_apply, Pi.add_apply, Pi.sub_apply, Pi.zero_apply]
        linear_combination (S.w0 i * S.b0 i - (S.Divᵀ *ᵥ u) i) * h1
      | some r =>
        simp only [Pi.mul_apply, Pi.add_apply, Pi.sub_apply, Sim.remInner]
        linear_combination (S.w0 i * S.b0 i - (S.Divᵀ *ᵥ u) i + (S.W3 *ᵥ fun t => r t / S.muArr m t.2) i) * h1
  unfold Equations
  rw [hrel]
  constructor
  · rintro ⟨h1, h2⟩
    have h3 : S.A m *ᵥ u = S.rhs m := by
      rw [A_mulVec, rhs_eq]
      have : S.Div *ᵥ (S.drive m - S.w m * (S.Divᵀ *ᵥ u)) = 0 := by rw [← h2]; exact h1
      rw [Matrix.mulVec_sub] at this
      exact (sub_eq_zero.1 this).symm
    have h4 : (S.fields m).1 = u := solve_unique hA h3
    have h5 := flux_eq S (S.A m)⁻¹ m
    refine Prod.ext h4.symm ?_
    change b = (S.fields m).2
    unfold Sim.fields at h4 ⊢
    rw [h5, h4]
    exact h2
  · intro h
    have hu : u = (S.fields m).1 := congrArg Prod.fst h
    have hb : b = (S.fields m).2 := congrArg Prod.snd h
    have h5 : b = S.drive m - S.w m * (S.Divᵀ *ᵥ u) := by
      rw [hu, hb]
      exact flux_eq S (S.A m)⁻¹ m
    refine ⟨?_, h5⟩
    rw [h5, Matrix.mulVec_sub, ← A_mulVec, ← rhs_eq, hu]
    have : S.A m *ᵥ (S.fields m).1 = S.rhs m := mulVec_solve hA _
    rw [this, sub_self]

/-- C177. The terms of the equations: the divergence is weighted by the volumes of cells, and the inducing field on a
face is its component along the normal of the face. -/
theorem C177_terms (u : e → ℝ) (i : c) (k : e) :
    (S.Div *ᵥ u) i = S.V i * (S.face *ᵥ u) i ∧ S.b0 k = S.B0 (S.dir k) := by
  refine ⟨?_, rfl⟩
  unfold Sim.Div
  simp only [Matrix.mulVec, dotProduct, Matrix.mul_apply, Matrix.diagonal_apply, ite_mul, zero_mul,
    Finset.sum_ite_eq, Finset.mem_univ, if_true, Finset.mul_sum, mul_assoc]

/-- C177. The system can be solved: permeabilities and weights of faces are positive, and no potential other than
zero is without gradient (zero potential outside of the mesh). -/
theorem C177_solvable (m : p → ℝ) (hmu : ∀ i, 0 < S.muArr m i) (hW : ∀ i j, 0 ≤ S.W i j)
    (hW1 : ∀ i, ∃ j, 0 < S.W i j) (hD : ∀ u, S.Divᵀ *ᵥ u = 0 → u = 0) :
    (∀ i, 0 < (S.W *ᵥ S.mui m) i) ∧ (S.A m).det ≠ 0 := by
  have hpos : ∀ i, 0 < (S.W *ᵥ S.mui m) i := by
    intro i
    obtain ⟨j, hj⟩ := hW1 i
    have hm : ∀ j, 0 < S.mui m j := fun j => inv_pos.2 (hmu j)
    exact Finset.sum_pos' (fun k _ => mul_nonneg (hW i k) (hm k).le) ⟨j, Finset.mem_univ _, mul_pos hj (hm j)⟩
  refine ⟨hpos, ?_⟩
  intro h0
  obtain ⟨u, hu, hz⟩ := Matrix.exists_mulVec_eq_zero_iff.2 h0
  apply hu
  apply hD
  have h1 : u ⬝ᵥ (S.A m *ᵥ u) = ∑ i, S.w m i * (S.Divᵀ *ᵥ u) i ^ 2 := by
    rw [A_mulVec, Matrix.dotProduct_mulVec, ← Matrix.mulVec_transpose]
    simp only [dotProduct, Pi.mul_apply]
    exact Finset.sum_congr rfl fun i _ => by ring
  rw [hz, dotProduct_zero] at h1
  have hw : ∀ i, 0 < S.w m i := fun i => inv_pos.2 (hpos i)
  have h2 := (Finset.sum_eq_zero_iff_of_nonneg (s := Finset.univ)
    (f := fun i => S.w m i * (S.Divᵀ *ᵥ u) i ^ 2) fun i _ => mul_nonneg (hw i).le (sq_nonneg _)).1 h1.symm
  funext i
  have := h2 i (Finset.mem_univ _)
  rcases mul_eq_zero.1 this with h | h
  · exact absurd h (hw i).ne'
  · simpa using h

/-- C177. The polarization is what the flux exceeds `mu_0 H` by: with `mu0 H = b0 - (the part of the potential)`,
`b + b0 = mu0 H + polarization` on every face. -/
theorem C177_polarization (m : p → ℝ) (hw0 : ∀ i, S.w0 i ≠ 0) :
    S.w0 * ((S.fields m).2 + S.b0 - S.polarization m) = S.w0 * S.b0 - S.Divᵀ *ᵥ (S.fields m).1 := by
  funext i
  have := hw0 i
  simp only [Sim.polarization, Pi.mul_apply, Pi.add_apply, Pi.sub_apply, Pi.neg_apply]
  field_simp
  ring

/-- C177 violated. A number within `1e-8` of `mu_0` (permeabilities up to 0.8 percent larger) is taken as `mu_0`:
without polarization there is no anomaly at all. The same permeability given by cells has the flux
`(mu / mu_0 - 1) b0` where sources have no flux out of cells. -/
theorem C177_violated_number (x : ℝ) (m : p → ℝ) (hx : x ≠ 0) (hm : S.mu0 ≠ 0) (hW : ∀ i, (S.W *ᵥ fun _ => 1) i ≠ 0)
    (hD : S.Div *ᵥ S.b0 = 0) (hM : S.muMap = none) (hr : S.remOf m = none)
    (hclose : |x - S.mu0| ≤ 1e-8 + 1e-5 * |S.mu0|) :
    (({S with mu := .number x} : Sim p c e).fields m).2 = 0 ∧
    (({S with mu := .array fun _ => x} : Sim p c e).fields m).2 = (x / S.mu0 - 1) • S.b0 := by
  constructor
  · set T : Sim p c e := {S with mu := .number x} with hT
    have h1 : T.IsDefault m := by
      simp only [Sim.IsDefault, Sim.muOf, hT, hM]
      exact hclose
    have h2 : T.drive m = 0 := by
      have h3 : T.remOf m = none := hr
      unfold Sim.drive
      rw [if_pos h1, h3, zero_add]
    have h4 := flux_eq T (T.A m)⁻¹ m
    have h5 : (T.fieldsWith (T.A m)⁻¹ m).1 = 0 := by
      change (T.A m)⁻¹ *ᵥ T.rhs m = 0
      rw [rhs_eq, h2, Matrix.mulVec_zero, Matrix.mulVec_zero]
    change (T.fieldsWith (T.A m)⁻¹ m).2 = 0
    rw [h4, h5, h2, Matrix.mulVec_zero, mul_zero, sub_zero]
  · set T : Sim p c e := {S with mu := .array fun _ => x} with hT
    have h1 : ¬T.IsDefault m := by
      simp only [Sim.IsDefault, Sim.muOf, hT, hM]
      exact not_false
    have hlin : ∀ y : ℝ, (S.W *ᵥ fun _ => y) = fun i => y * (S.W *ᵥ fun _ => 1) i := by
      intro y
      funext i
      simp only [Matrix.mulVec, dotProduct, Finset.mul_sum]
      exact Finset.sum_congr rfl fun j _ => by ring
    have h2 : T.drive m = (x / S.mu0 - 1) • S.b0 := by
      have h3 : T.remOf m = none := hr
      have h4 : T.w m = fun i => x * ((S.W *ᵥ fun _ => 1) i)⁻¹ := by
        have : T.mui m = fun _ => x⁻¹ := by
          funext i
          simp only [Sim.mui, Sim.muArr, Sim.muOf, hT, hM]
        funext i
        unfold Sim.w
        rw [this]
        change ((S.W *ᵥ fun _ => x⁻¹) i)⁻¹ = _
        rw [hlin]
        rw [mul_inv, inv_inv]
      have h5 : T.w0 = fun i => S.mu0⁻¹ * (S.W *ᵥ fun _ => 1) i := hlin S.mu0⁻¹
      have h6 : T.b0 = S.b0 := rfl
      unfold Sim.drive
      rw [if_neg h1, h3, add_zero, h4, h5, h6]
      funext i
      have := hW i
      simp only [Pi.mul_apply, Pi.sub_apply, Pi.smul_apply, smul_eq_mul]
      field_simp
    have h4 := flux_eq T (T.A m)⁻¹ m
    have h5 : (T.fieldsWith (T.A m)⁻¹ m).1 = 0 := by
      change (T.A m)⁻¹ *ᵥ T.rhs m = 0
      have h6 : T.Div *ᵥ S.b0 = 0 := hD
      rw [rhs_eq, h2, Matrix.mulVec_smul, h6, smul_zero, Matrix.mulVec_zero]
    change (T.fieldsWith (T.A m)⁻¹ m).2 = _
    rw [h4, h5, h2, Matrix.mulVec_zero, mul_zero, sub_zero]

end fields

/-- The tolerance in numbers: `1.005 mu_0`. -/
example : |1.005 * (4 * 3.14159265 * 1e-7) - 4 * 3.14159265 * 1e-7| ≤
    (1e-8 : ℝ) + 1e-5 * |4 * 3.14159265 * 1e-7| := by
  rw [abs_of_pos (by norm_num), abs_of_pos (by norm_num)]
  norm_num

/-! ### Sensitivities -/

section jacobian
variable [DecidableEq p] [DecidableEq c] [DecidableEq e] (S : Sim p c e)

/-- The matrix of `iDeriv`. -/
def iMat (M : Mapping p c) (m : p → ℝ) (x : e → ℝ) : Matrix e p ℝ :=
  diagonal (S.w m * (S.w m * -x)) * (S.W * Sim.muiD M m)

theorem iDeriv_eq (M : Mapping p c) (m : p → ℝ) (x : e → ℝ) (v : p → ℝ) : S.iDeriv M m x v = iMat S M m x *ᵥ v := by
  unfold Sim.iDeriv iMat
  rw [← Matrix.mulVec_mulVec, ← Matrix.mulVec_mulVec]
  funext i
  rw [Matrix.mulVec_diagonal]
  rfl

theorem iDerivT_eq (M : Mapping p c) (m : p → ℝ) (x : e → ℝ) (v : e → ℝ) :
    S.iDerivT M m x v = (iMat S M m x)ᵀ *ᵥ v := by
  unfold Sim.iDerivT iMat
  rw [Matrix.transpose_mul (diagonal _), Matrix.diagonal_transpose, ← Matrix.mulVec_mulVec]
  congr 1
  funext i
  rw [Matrix.mulVec_diagonal]
  rfl

theorem diag_mulVec (a b : e → ℝ) : a * b = diagonal a *ᵥ b := by
  funext i
  rw [Matrix.mulVec_diagonal]
  rfl

/-- The matrix of `-dCmu_dm + db_dm`. -/
def gMat (m : p → ℝ) (u : c → ℝ) : Matrix e p ℝ :=
  (match S.remMap with
    | some R => diagonal (S.w m) * (S.W3 * (diagonal (fun t : Fin 3 × c => 1 / S.muArr m t.2) * R.D m))
    | none => 0) +
  match S.muMap with
  | some M => -iMat S M m (S.Divᵀ *ᵥ u) + diagonal S.w0 * iMat S M m S.b0 +
    (match S.remOf m with
      | some r => iMat S M m (S.remInner m r) + diagonal (S.w m) * (S.W3 * (diagonal r * Sim.stack (Sim.muiD M m)))
      | none => 0)
  | none => 0

theorem g_eq (m : p → ℝ) (u : c → ℝ) (v : p → ℝ) : -S.dC m u v + S.db m v = gMat S m u *ᵥ v := by
  have hd : ∀ (a : Fin 3 × c → ℝ) (b : Fin 3 × c → ℝ), a * b = diagonal a *ᵥ b := by
    intro a b
    funext i
    rw [Matrix.mulVec_diagonal]
    rfl
  unfold Sim.dC Sim.db gMat
  cases S.remMap <;> cases S.muMap <;> cases S.remOf m <;>
    simp only [iDeriv_eq, hd, diag_mulVec, Matrix.add_mulVec, Matrix.neg_mulVec, Matrix.zero_mulVec,
      ← Matrix.mulVec_mulVec] <;> abel

/-- The matrix of `jFlux`. -/
def jMat (Ainv : Matrix c c ℝ) (m : p → ℝ) (u : c → ℝ) : Matrix e p ℝ :=
  gMat S m u - diagonal (S.w m) * (S.Divᵀ * (Ainv * (S.Div * gMat S m u)))

theorem jFlux_eq (Ainv : Matrix c c ℝ) (m : p → ℝ) (u : c → ℝ) (v : p → ℝ) :
    S.jFlux Ainv m u v = jMat S Ainv m u *ᵥ v := by
  unfold Sim.jFlux jMat
  simp only [g_eq, diag_mulVec, Matrix.sub_mulVec, ← Matrix.mulVec_mulVec]
  abel

theorem jtFlux_eq (Ainv : Matrix c c ℝ) (hs : Ainvᵀ = Ainv) (m : p → ℝ) (u : c → ℝ) (q : e → ℝ) :
    S.jtFlux Ainv m u q = (jMat S Ainv m u)ᵀ *ᵥ q := by
  set d : e → ℝ := S.Divᵀ *ᵥ (Ainv *ᵥ (-(S.Div *ᵥ (S.w m * q)))) + q with hdd
  have h1 : S.jtFlux Ainv m u q = (gMat S m u)ᵀ *ᵥ d := by
    have hd : ∀ (a : Fin 3 × c → ℝ) (b : Fin 3 × c → ℝ), a * b = diagonal a *ᵥ b := by
      intro a b
      funext i
      rw [Matrix.mulVec_diagonal]
      rfl
    unfold Sim.jtFlux gMat
    rw [← hdd]
    cases S.remMap <;> cases S.muMap <;> cases S.remOf m <;>
      simp only [iDerivT_eq, hd, diag_mulVec, Matrix.transpose_add, Matrix.transpose_neg, Matrix.transpose_mul,
        Matrix.transpose_zero, Matrix.diagonal_transpose, Matrix.add_mulVec, Matrix.neg_mulVec, Matrix.zero_mulVec,
        Matrix.mulVec_neg, ← Matrix.mulVec_mulVec] <;> abel
  rw [h1, hdd]
  unfold jMat
  simp only [Matrix.transpose_sub, Matrix.transpose_mul, Matrix.diagonal_transpose, Matrix.transpose_transpose, hs,
    Matrix.sub_mulVec, Matrix.mulVec_add, Matrix.mulVec_neg, diag_mulVec, ← Matrix.mulVec_mulVec]
  abel

theorem A_symm (m : p → ℝ) : (S.A m)ᵀ = S.A m := by
  unfold Sim.A
  simp [Matrix.transpose_mul, Matrix.mul_assoc]

omit [DecidableEq p] in
/-- Mappings whose derivatives are right at `m`. -/
def Good (S : Sim p c e) (m : p → ℝ) : Prop :=
  (∀ M ∈ S.muMap, IsJacobian M.f (M.D m) m) ∧ ∀ R ∈ S.remMap, IsJacobian R.f (R.D m) m

omit [DecidableEq p] in
/-- The Jacobian of `mui`. -/
def muiJ (S : Sim p c e) (m : p → ℝ) : Matrix c p ℝ :=
  match S.muMap with
  | some M => Sim.muiD M m
  | none => 0

/-- The Jacobian of a mapped polarization. -/
def remJ (S : Sim p c e) (m : p → ℝ) : Matrix (Fin 3 × c) p ℝ :=
  match S.remMap with
  | some R => R.D m
  | none => 0

theorem mui_jac (m : p → ℝ) (hmu : ∀ i, S.muArr m i ≠ 0) (hg : Good S m) :
    IsJacobian S.mui (muiJ S m) m := by
  unfold muiJ
  cases hM : S.muMap with
  | none =>
    have h : S.mui = fun _ : p → ℝ => S.mui m := by
      funext y i
      unfold Sim.mui Sim.muArr Sim.muOf
      rw [hM]
    rw [h]
    exact isJacobian_const _ _
  | some M =>
    have h1 : ∀ y : p → ℝ, S.muArr y = M.f y := by
      intro y
      unfold Sim.muArr Sim.muOf
      rw [hM]
    have := IsJacobian.inv (f := M.f) (A := M.D m) (m := m) (fun i => by rw [← h1]; exact hmu i)
      (hg.1 M (by rw [hM]; exact rfl))
    have h2 : S.mui = fun y i => (M.f y i)⁻¹ := by
      funext y i
      unfold Sim.mui
      rw [h1]
    rw [h2]
    exact this

/-- The Jacobian of `w`. -/
def wMat (m : p → ℝ) : Matrix e p ℝ :=
  diagonal (fun i => -((S.w m i) ^ 2)) * (S.W * muiJ S m)

theorem w_jac (m : p → ℝ) (hmu : ∀ i, S.muArr m i ≠ 0) (hw : ∀ i, (S.W *ᵥ S.mui m) i ≠ 0) (hg : Good S m) :
    IsJacobian S.w (wMat S m) m := by
  have h := IsJacobian.inv (f := fun y => S.W *ᵥ S.mui y) hw (IsJacobian.mulVec S.W (mui_jac S m hmu hg))
  have e1 : wMat S m = diagonal (fun i => -((S.W *ᵥ S.mui m) i ^ 2)⁻¹) * (S.W * muiJ S m) := by
    unfold wMat Sim.w
    simp only [inv_pow]
  rw [e1]
  exact h

/-- The Jacobian of what drives the flux. -/
def driveMat (m : p → ℝ) : Matrix e p ℝ :=
  (if S.IsDefault m then 0 else diagonal S.w0 * (diagonal S.b0 * wMat S m)) +
  match S.remOf m with
  | some r => diagonal (S.w m) * (S.W3 * (diagonal r * Sim.stack (muiJ S m) +
       diagonal (fun t : Fin 3 × c => S.mui m t.2) * remJ S m)) + diagonal (S.remInner m r) * wMat S m
  | none => 0

omit [DecidableEq p] [DecidableEq c] [DecidableEq e] in
theorem default_const (hM : S.muMap = none) (m y : p → ℝ) : S.IsDefault y ↔ S.IsDefault m := by
  simp only [Sim.IsDefault, Sim.muOf, hM]

omit [DecidableEq p] [DecidableEq c] [DecidableEq e] in
theorem default_some {M : Mapping p c} (hM : S.muMap = some M) (m : p → ℝ) : ¬S.IsDefault m := by
  simp only [Sim.IsDefault, Sim.muOf, hM, not_false_eq_true]

omit [DecidableEq p] [DecidableEq c] [DecidableEq e] [Fintype e] in
theorem stack_jac {f : (p → ℝ) → (c → ℝ)} {D : Matrix c p ℝ} {m : p → ℝ} (h : IsJacobian f D m) :
    IsJacobian (fun y (t : Fin 3 × c) => f y t.2) (Sim.stack D) m := by
  rw [isJacobian_iff] at h ⊢
  exact fun t => h t.2

theorem drive_jac (m : p → ℝ) (hmu : ∀ i, S.muArr m i ≠ 0) (hw : ∀ i, (S.W *ᵥ S.mui m) i ≠ 0) (hg : Good S m) :
    IsJacobian S.drive (driveMat S m) m := by
  have hwj := w_jac S m hmu hw hg
  unfold driveMat
  have h1 : IsJacobian (fun y => if S.IsDefault y then (0 : e → ℝ) else S.w0 * (S.w y * S.b0) - S.b0)
      (if S.IsDefault m then 0 else diagonal S.w0 * (diagonal S.b0 * wMat S m)) m := by
    have hind : IsJacobian (fun y => S.w0 * (S.w y * S.b0) - S.b0) (diagonal S.w0 * (diagonal S.b0 * wMat S m)) m := by
      have := (IsJacobian.mulVec (diagonal S.w0) (IsJacobian.mulVec (diagonal S.b0) hwj)).sub
        (isJacobian_const S.b0 m)
      rw [sub_zero] at this
      refine this.congr (Filter.Eventually.of_forall fun y => ?_)
      rw [← diag_mulVec, ← diag_mulVec, mul_comm S.b0]
    cases hM : S.muMap with
    | none =>
      by_cases hdef : S.IsDefault m
      · rw [if_pos hdef]
        refine (isJacobian_const (0 : e → ℝ) m).congr (Filter.Eventually.of_forall fun y => ?_)
        rw [if_pos ((default_const S hM m y).2 hdef)]
      · rw [if_neg hdef]
        refine hind.congr (Filter.Eventually.of_forall fun y => ?_)
        rw [if_neg fun h => hdef ((default_const S hM m y).1 h)]
    | some M =>
      rw [if_neg (default_some S hM m)]
      refine hind.congr (Filter.Eventually.of_forall fun y => ?_)
      rw [if_neg (default_some S hM y)]
  have hmui := mui_jac S m hmu hg
  have h2 : ∀ (rf : (p → ℝ) → (Fin 3 × c → ℝ)) (rD : Matrix (Fin 3 × c) p ℝ), IsJacobian rf rD m →
      IsJacobian (fun y => S.w y * S.remInner y (rf y))
        (diagonal (S.w m) * (S.W3 *
          (diagonal (rf m) * Sim.stack (muiJ S m) + diagonal (fun t : Fin 3 × c => S.mui m t.2) * rD)) + diagonal (S.remInner m (rf m)) * wMat S m) m := by
    intro rf rD hr
    have h3 := IsJacobian.mulVec S.W3 (hr.mul (stack_jac hmui))
    have h4 : ∀ y, (S.W3 *ᵥ (rf y * fun t : Fin 3 × c => S.mui y t.2)) = S.remInner y (rf y) := by
      intro y
      unfold Sim.remInner
      congr 1
    have h5 := hwj.mul h3
    simp only [h4] at h5
    exact h5
  have hsplit : S.drive = fun y =>
      (if S.IsDefault y then (0 : e → ℝ) else S.w0 * (S.w y * S.b0) - S.b0) +
        (match S.remOf y with | some r => S.w y * S.remInner y r | none => 0) := rfl
  rw [hsplit]
  refine h1.add ?_
  cases hR : S.remMap with
  | some R =>
    have h3 : ∀ y, S.remOf y = some (R.f y) := by
      intro y
      simp only [Sim.remOf, hR]
    have h4 : remJ S m = R.D m := by
      unfold remJ
      rw [hR]
    simp only [h3, h4]
    exact h2 R.f (R.D m) (hg.2 R (by rw [hR]; exact rfl))
  | none =>
    cases hr : S.rem with
    | none =>
      have h3 : ∀ y, S.remOf y = none := by
        intro y
        simp only [Sim.remOf, hR, hr]
      simp only [h3]
      exact isJacobian_const _ _
    | some r =>
      have h3 : ∀ y, S.remOf y = some r := by
        intro y
        simp only [Sim.remOf, hR, hr]
      have h4 : remJ S m = 0 := by
        unfold remJ
        rw [hR]
      simp only [h3, h4]
      exact h2 (fun _ => r) 0 (isJacobian_const r m)

/-- The matrix of the code is the Jacobian of the flux with the potential kept. -/
theorem gMat_eq (m : p → ℝ) (u : c → ℝ) :
    gMat S m u = driveMat S m - diagonal (S.Divᵀ *ᵥ u) * wMat S m := by
  have hI : ∀ (M : Mapping p c) (x : e → ℝ), S.muMap = some M →
      iMat S M m x = diagonal x * wMat S m := by
    intro M x hM
    have h1 : muiJ S m = Sim.muiD M m := by
      unfold muiJ
      rw [hM]
    unfold iMat wMat
    rw [h1, ← Matrix.mul_assoc (diagonal x), Matrix.diagonal_mul_diagonal]
    congr 2
    funext i
    simp only [Pi.mul_apply, Pi.neg_apply]
    ring
  have hmui : (fun t : Fin 3 × c => 1 / S.muArr m t.2) = fun t => S.mui m t.2 := by
    funext t
    simp [Sim.mui]
  have hst : Sim.stack (0 : Matrix c p ℝ) = 0 := rfl
  have hR : (match S.remMap with
      | some R => diagonal (S.w m) * (S.W3 * (diagonal (fun t : Fin 3 × c => 1 / S.muArr m t.2) * R.D m))
      | none => 0) = diagonal (S.w m) * (S.W3 * (diagonal (fun t : Fin 3 × c => S.mui m t.2) * remJ S m)) := by
    unfold remJ
    cases S.remMap with
    | none => simp only [Matrix.mul_zero]
    | some R => rw [hmui]
  have hnone : S.remOf m = none → remJ S m = 0 := by
    unfold Sim.remOf remJ
    cases S.remMap <;> simp
  unfold gMat driveMat
  rw [hR]
  cases hM : S.muMap with
  | none =>
    have hj : muiJ S m = 0 := by
      unfold muiJ
      rw [hM]
    have hw : wMat S m = 0 := by
      unfold wMat
      rw [hj, Matrix.mul_zero, Matrix.mul_zero]
    simp only [hw, hj, Matrix.mul_zero, hst, ite_self, sub_zero, add_zero, zero_add]
    cases hr : S.remOf m with
    | none => simp only [hnone hr, Matrix.mul_zero]
    | some r => simp only
  | some M =>
    have hj : muiJ S m = Sim.muiD M m := by
      unfold muiJ
      rw [hM]
    rw [if_neg (default_some S hM m)]
    simp only [hI _ _ hM, hj]
    cases hr : S.remOf m with
    | none => simp only [hnone hr, Matrix.mul_zero, add_zero, zero_add]; abel
    | some r => simp only [Matrix.mul_add]; abel

omit [DecidableEq p] [DecidableEq c] [DecidableEq e] in
theorem project_map {α β : Type} (f : α → β) (val : Comp → ℕ → α) (rs : List Rx) (off : ℕ) :
    (project val rs off).map f = project (fun k l => f (val k l)) rs off := by
  induction rs generalizing off with
  | nil => rfl
  | cons r rs ih =>
    unfold project
    rw [List.map_append, ih, List.map_flatMap]
    congr 1
    refine List.flatMap_congr fun k _ => ?_
    rw [List.map_map]
    rfl

/-- The component and the location of every datum. -/
def labels (rs : List Rx) : List (Comp × ℕ) := project Prod.mk rs 0

omit [DecidableEq p] [DecidableEq c] [DecidableEq e] in
theorem project_labels {α : Type} (val : Comp → ℕ → α) (rs : List Rx) :
    project val rs 0 = (labels rs).map fun q => val q.1 q.2 := by
  unfold labels
  rw [project_map]

/-- C177. The flux: the change of the flux computed by `_Jvec` is the derivative of the flux with respect to the
model, for permeabilities and polarizations that are fixed or mapped, separately or both. -/
theorem C177_flux_derivative (m : p → ℝ) (hmu : ∀ i, S.muArr m i ≠ 0) (hw : ∀ i, (S.W *ᵥ S.mui m) i ≠ 0)
    (hg : Good S m) (hA : (S.A m).det ≠ 0) :
    IsJacobian (fun y => (S.fields y).2) (jMat S (S.A m)⁻¹ m (S.fields m).1) m ∧
    ∀ v, S.jFlux (S.A m)⁻¹ m (S.fields m).1 v = jMat S (S.A m)⁻¹ m (S.fields m).1 *ᵥ v := by
  refine ⟨?_, fun v => jFlux_eq S _ _ _ _⟩
  have hwj := w_jac S m hmu hw hg
  have hdj := drive_jac S m hmu hw hg
  set u := (S.fields m).1 with hu
  have hwd : ∀ i, DifferentiableAt ℝ (fun y => S.w y i) m := fun i => ((isJacobian_iff.1 hwj) i).differentiableAt
  have hAd : ∀ i j, DifferentiableAt ℝ (fun y => S.A y i j) m := by
    intro i j
    have hAe : ∀ y, S.A y i j = ∑ k, S.Div i k * S.w y k * S.Divᵀ k j := by
      intro y
      unfold Sim.A
      rw [Matrix.mul_apply]
      exact Finset.sum_congr rfl fun k _ => by rw [Matrix.mul_diagonal]
    simp only [hAe]
    exact DifferentiableAt.fun_sum fun k _ => ((hwd k).const_mul _).mul_const _
  have hres : IsJacobian (fun y => S.rhs y - S.A y *ᵥ ((S.A m)⁻¹ *ᵥ S.rhs m)) (S.Div * gMat S m u) m := by
    have h1 := hdj.sub (IsJacobian.mulVec (diagonal (S.Divᵀ *ᵥ u)) hwj)
    rw [← gMat_eq] at h1
    refine (IsJacobian.mulVec S.Div h1).congr (Filter.Eventually.of_forall fun y => ?_)
    have h2 : (S.A m)⁻¹ *ᵥ S.rhs m = u := rfl
    rw [h2, rhs_eq, A_mulVec, ← Matrix.mulVec_sub, ← diag_mulVec, mul_comm (S.w y)]
  have hU : IsJacobian (fun y => (S.fields y).1) ((S.A m)⁻¹ * (S.Div * gMat S m u)) m :=
    isJacK_real.1 (isJacK_solve_residual hAd hA (isJacK_real.2 hres))
  have hb : (fun y => (S.fields y).2) = fun y => S.drive y - S.w y * (S.Divᵀ *ᵥ (S.fields y).1) := by
    funext y
    exact flux_eq S _ y
  rw [hb]
  have h3 := hdj.sub (hwj.mul (IsJacobian.mulVec S.Divᵀ hU))
  have h4 : jMat S (S.A m)⁻¹ m u = driveMat S m - (diagonal (S.w m) * (S.Divᵀ * ((S.A m)⁻¹ * (S.Div * gMat S m u))) +
      diagonal (S.Divᵀ *ᵥ u) * wMat S m) := by
    unfold jMat
    conv_lhs => rw [gMat_eq S m u]
    rw [gMat_eq S m u]
    abel
  rw [h4]
  exact h3

/-- The data of a component have the rows of `_projectFieldsDeriv` as gradients, for total fields that do not vanish
at the location. -/
theorem value_gradient (Q : Fin 3 → ℕ → e → ℝ) (B0 : Fin 3 → ℝ) (b : e → ℝ) (k : Comp) (l : ℕ)
    (h : k = .tmi → ∃ d, Q d l ⬝ᵥ b + B0 d ≠ 0) :
    IsGradient (fun b => value Q B0 b k l) (deriv Q B0 b k l) b := by
  have hlin : ∀ d, HasFDerivAt (fun b : e → ℝ => Q d l ⬝ᵥ b) (dotL (Q d l)) b := fun d =>
    (dotL (Q d l)).hasFDerivAt
  cases k with
  | bx => exact hlin 0
  | by' => exact hlin 1
  | bz => exact hlin 2
  | tmi =>
    obtain ⟨d, hd⟩ := h rfl
    set R : (e → ℝ) → ℝ := fun b =>
      (Q 0 l ⬝ᵥ b + B0 0) ^ 2 + (Q 1 l ⬝ᵥ b + B0 1) ^ 2 + (Q 2 l ⬝ᵥ b + B0 2) ^ 2 with hR
    have hpos : 0 < R b := by
      have h0 := sq_nonneg (Q 0 l ⬝ᵥ b + B0 0)
      have h1 := sq_nonneg (Q 1 l ⬝ᵥ b + B0 1)
      have h2 := sq_nonneg (Q 2 l ⬝ᵥ b + B0 2)
      have h3 : 0 < (Q d l ⬝ᵥ b + B0 d) ^ 2 := by positivity
      fin_cases d <;> simp only [hR] <;> simp at h3 <;> nlinarith
    have hsq : ∀ d, HasFDerivAt (fun b : e → ℝ => (Q d l ⬝ᵥ b + B0 d) ^ 2)
        ((2 * (Q d l ⬝ᵥ b + B0 d)) • dotL (Q d l)) b := by
      intro d
      have := ((hlin d).add_const (B0 d)).pow 2
      simpa [mul_add] using this
    have hRd : HasFDerivAt R ((2 * (Q 0 l ⬝ᵥ b + B0 0)) • dotL (Q 0 l) + (2 * (Q 1 l ⬝ᵥ b + B0 1)) • dotL (Q 1 l) +
        (2 * (Q 2 l ⬝ᵥ b + B0 2)) • dotL (Q 2 l)) b := ((hsq 0).add (hsq 1)).add (hsq 2)
    have hs := hRd.sqrt hpos.ne'
    have := hs.sub_const (Real.sqrt (B0 0 ^ 2 + B0 1 ^ 2 + B0 2 ^ 2))
    refine HasFDerivAt.congr_fderiv this ?_
    ext v
    have hs0 : Real.sqrt (R b) ≠ 0 := (Real.sqrt_pos.2 hpos).ne'
    simp only [deriv, dotL_apply, sub_add_cancel]
    have e1 : Real.sqrt ((Q 0 l ⬝ᵥ b + B0 0) ^ 2 + (Q 1 l ⬝ᵥ b + B0 1) ^ 2 + (Q 2 l ⬝ᵥ b + B0 2) ^ 2) =
      Real.sqrt (R b) := rfl
    simp only [e1, smul_dotProduct, add_dotProduct, smul_eq_mul, _root_.smul_apply, _root_.add_apply,
      dotL_apply]
    field_simp
    ring

/-- C177. The data: `Jvec` is the derivative of the data, entry by entry, for every survey, and `Jtvec` is its
adjoint. -/
theorem C177_sensitivity (Q : Fin 3 → ℕ → e → ℝ) (rs : List Rx) (m : p → ℝ) (hmu : ∀ i, S.muArr m i ≠ 0)
    (hw : ∀ i, (S.W *ᵥ S.mui m) i ≠ 0) (hg : Good S m) (hA : (S.A m).det ≠ 0)
    (ht : ∀ l, (Comp.tmi, l) ∈ labels rs → ∃ d, Q d l ⬝ᵥ (S.fields m).2 + S.B0 d ≠ 0) :
    (∀ v, (jvec S Q rs m v).length = (dpred S Q rs m).length) ∧
    (∀ i, ∃ g : p → ℝ, IsGradient (fun y => (dpred S Q rs y).getD i 0) g m ∧
      ∀ v, (jvec S Q rs m v).getD i 0 = g ⬝ᵥ v) ∧
    ∀ (v : p → ℝ) (z : List ℝ), z.length = (dpred S Q rs m).length →
      (((jvec S Q rs m v).zip z).map fun q => q.1 * q.2).sum = v ⬝ᵥ jtvec S Q rs m z := by
  obtain ⟨hJ, hJv⟩ := C177_flux_derivative S m hmu hw hg hA
  set J := jMat S (S.A m)⁻¹ m (S.fields m).1 with hJdef
  have hdp : ∀ y, dpred S Q rs y = (labels rs).map fun q => value Q S.B0 (S.fields y).2 q.1 q.2 :=
    fun y => project_labels _ _
  have hjv : ∀ v, jvec S Q rs m v = (labels rs).map fun q => deriv Q S.B0 (S.fields m).2 q.1 q.2 ⬝ᵥ (J *ᵥ v) := by
    intro v
    unfold jvec
    simp only
    rw [project_labels, List.map_map, hJv]
    rfl
  refine ⟨fun v => by rw [hdp, hjv, List.length_map, List.length_map], fun i => ?_, fun v z hz => ?_⟩
  · rcases hi : (labels rs)[i]? with _ | q
    · refine ⟨0, ?_, fun v => ?_⟩
      · have : (fun y => (dpred S Q rs y).getD i 0) = fun _ => (0 : ℝ) := by
          funext y
          rw [hdp, List.getD_eq_getElem?_getD, List.getElem?_map, hi]
          rfl
        rw [this]
        unfold IsGradient
        rw [dotL_zero]
        exact hasFDerivAt_const _ _
      · rw [hjv, List.getD_eq_getElem?_getD, List.getElem?_map, hi, zero_dotProduct]
        rfl
    · refine ⟨Jᵀ *ᵥ deriv Q S.B0 (S.fields m).2 q.1 q.2, ?_, fun v => ?_⟩
      · have h1 : (fun y => (dpred S Q rs y).getD i 0) = fun y => value Q S.B0 (S.fields y).2 q.1 q.2 := by
          funext y
          rw [hdp, List.getD_eq_getElem?_getD, List.getElem?_map, hi]
          rfl
        rw [h1]
        have h2 := value_gradient Q S.B0 (S.fields m).2 q.1 q.2 fun hk =>
          ht q.2 (by rw [← hk]; exact List.mem_of_getElem? hi)
        have h3 := HasFDerivAt.comp (g := fun b => value Q S.B0 b q.1 q.2) (f := fun y => (S.fields y).2) m h2 hJ
        refine HasFDerivAt.congr_fderiv h3 ?_
        ext v
        simp only [ContinuousLinearMap.comp_apply, dotL_apply, mulVecL_apply]
        rw [Matrix.dotProduct_mulVec, Matrix.mulVec_transpose]
      · rw [hjv, List.getD_eq_getElem?_getD, List.getElem?_map, hi, Matrix.mulVec_transpose,
          ← Matrix.dotProduct_mulVec]
        rfl
  · have hs : ((S.A m)⁻¹)ᵀ = (S.A m)⁻¹ := by rw [Matrix.transpose_nonsing_inv, A_symm]
    unfold jtvec
    simp only
    rw [jtFlux_eq S _ hs, ← hJdef, Matrix.mulVec_transpose, dotProduct_comm, ← Matrix.dotProduct_mulVec, hjv,
      project_labels]
    have key : ∀ (ls : List (Comp × ℕ)) (z : List ℝ) (x : e → ℝ) (D : Comp × ℕ → e → ℝ),
        (((ls.map fun q => D q ⬝ᵥ x).zip z).map fun q => q.1 * q.2).sum =
          (((ls.map D).zip z).map fun q => q.2 • q.1).sum ⬝ᵥ x := by
      intro ls z x D
      induction ls generalizing z with
      | nil => simp
      | cons a ls ih =>
        cases z with
        | nil => simp
        | cons b z =>
          simp only [List.map_cons, List.zip_cons_cons, List.sum_cons, add_dotProduct, smul_dotProduct, ih,
            smul_eq_mul]
          ring
    exact key (labels rs) z (J *ᵥ v) fun q => deriv Q S.B0 (S.fields m).2 q.1 q.2

end jacobian

/-! ### Order of the data -/

/-- The number of data. -/
def nD (rs : List Rx) : ℕ := (rs.map fun r => r.comps.length * r.n).sum

theorem project_length {α : Type} (val : Comp → ℕ → α) (rs : List Rx) (off : ℕ) :
    (project val rs off).length = nD rs := by
  induction rs generalizing off with
  | nil => rfl
  | cons r rs ih =>
    unfold project
    rw [List.length_append, ih]
    simp [nD, List.length_flatMap]

theorem project_append {α : Type} (val : Comp → ℕ → α) (rs ts : List Rx) (off : ℕ) :
    project val (rs ++ ts) off = project val rs off ++ project val ts (off + (rs.map Rx.n).sum) := by
  induction rs generalizing off with
  | nil => simp [project]
  | cons r rs ih =>
    simp only [List.cons_append, project, ih, List.append_assoc, List.map_cons, List.sum_cons, Nat.add_assoc]

theorem flatMap_getElem? {α : Type} (val : Comp → ℕ → α) (n : ℕ) (ks : List Comp) (i j : ℕ) (hj : j < n) :
    (ks.flatMap fun k => (List.range n).map fun j => val k j)[i * n + j]? = ks[i]?.map fun k => val k j := by
  induction ks generalizing i with
  | nil => simp
  | cons k ks ih =>
    rw [List.flatMap_cons]
    cases i with
    | zero =>
      rw [List.getElem?_append_left (by simpa using hj)]
      simp [List.getElem?_range, hj]
    | succ i =>
      have h1 : (i + 1) * n + j = n + (i * n + j) := by ring
      rw [List.getElem?_append_right (by simp [h1]), List.length_map, List.length_range, h1,
        Nat.add_sub_cancel_left, ih]
      simp

/-- C177. The order of the data: after those of earlier receivers, component by component, the values at all
locations of the receiver. -/
theorem C177_order (rs ts : List Rx) (r : Rx) (i j : ℕ) (k : Comp) (hi : r.comps[i]? = some k) (hj : j < r.n) :
    (labels (rs ++ r :: ts)).length = nD (rs ++ r :: ts) ∧
    (labels (rs ++ r :: ts))[nD rs + (i * r.n + j)]? = some (k, (rs.map Rx.n).sum + j) := by
  refine ⟨project_length _ _ _, ?_⟩
  unfold labels
  rw [project_append, List.getElem?_append_right (by rw [project_length]; omega), project_length,
    Nat.add_sub_cancel_left]
  unfold project
  have h1 := flatMap_getElem? (fun k j => (k, (0 + (rs.map Rx.n).sum) + j)) r.n r.comps i j hj
  rw [hi] at h1
  have h2 : (i * r.n + j) < (r.comps.flatMap fun k => (List.range r.n).map fun j =>
      (k, (0 + (rs.map Rx.n).sum) + j)).length := by
    by_contra h
    rw [List.getElem?_eq_none (by omega)] at h1
    simp at h1
  rw [List.getElem?_append_left h2, h1]
  simp

/-- C177 violated. The integral simulation has the data of one receiver location by location. With two different
components and two locations the orders differ, so one set of observed data does not suit both simulations. -/
theorem C177_violated_order (k1 k2 : Comp) (n : ℕ) (hn : 2 ≤ n) :
    (labels [⟨[k1, k2], n⟩])[1]? = some (k1, 1) ∧
    (order [(⟨List.range n, [k1, k2]⟩ : Verif.PF.Rx ℕ Comp)])[1]? = some (0, k2) ∧
    labels [⟨[k1, k2], n⟩] ≠
      (order [(⟨List.range n, [k1, k2]⟩ : Verif.PF.Rx ℕ Comp)]).map fun q => (q.2, q.1) := by
  have h1 : (labels [⟨[k1, k2], n⟩])[1]? = some (k1, 1) := by
    have := (C177_order [] [] ⟨[k1, k2], n⟩ 0 1 k1 rfl (show 1 < n by omega)).2
    simpa [nD] using this
  have h2 : (order [(⟨List.range n, [k1, k2]⟩ : Verif.PF.Rx ℕ Comp)])[1]? = some (0, k2) := by
    obtain ⟨n, rfl⟩ : ∃ a, n = a + 1 := ⟨n - 1, by omega⟩
    simp [order, List.range_succ_eq_map]
  refine ⟨h1, h2, fun h => ?_⟩
  rw [h, List.getElem?_map, h2] at h1
  simp at h1

/-! ### Histories -/

/-- What a simulation keeps between calls. `jm` is the attribute `_Jmatrix`: `none` when it was deleted. -/
structure St (p c e : Type) where
  model : Option (p → ℝ)
  stored : Option ((c → ℝ) × (e → ℝ))
  ainv : Option (Matrix c c ℝ)
  jm : Option (Option (List (p → ℝ)))

/-- A new simulation. -/
def St.new : St p c e := ⟨none, none, none, some none⟩

/-- `np.allclose(previous, value)`. -/
def Close (x y : p → ℝ) : Prop := ∀ i, |x i - y i| ≤ 1e-8 + 1e-5 * |y i|

/-- Setting `model` (`simpeg/props.py` 455-477, `simpeg/potential_fields/magnetics/simulation.py` 2191-2201). The
attribute `_Jmatrix` has no default, deleting it leaves none. -/
def setModel (S : Sim p c e) (st : St p c e) (m : p → ℝ) : Except Err (St p c e) :=
  if (∃ x ∈ st.model, Close x m) then .ok {st with model := some m}
  else
    if S.muMap.isNone then .ok {st with model := some m, stored := none}
    else
      match st.jm with
      | none => .error .attributeError
      | some none => .ok {st with model := some m, stored := none, ainv := none}
      | some (some _) => .ok {model := some m, stored := none, ainv := none, jm := none}

section history
variable [DecidableEq c] [DecidableEq e]

/-- `fields` with what is kept. -/
def fieldsSt (S : Sim p c e) (st : St p c e) (m : p → ℝ) : Except Err (St p c e × ((c → ℝ) × (e → ℝ))) :=
  match setModel S st m with
  | .error err => .error err
  | .ok st =>
    match st.stored with
    | some f => .ok (st, f)
    | none =>
      let ai := st.ainv.getD (S.A m)⁻¹
      let f := S.fieldsWith ai m
      .ok ({st with stored := some f, ainv := some ai}, f)

/-- A product with sensitivities without `storeJ`: it is made from the fields and from the solver that is kept. -/
def prodSt (S : Sim p c e) (st : St p c e) (m : p → ℝ) :
    Except Err (St p c e × (((c → ℝ) × (e → ℝ)) × Option (Matrix c c ℝ))) :=
  match fieldsSt S st m with
  | .error err => .error err
  | .ok (st, f) => .ok (st, f, st.ainv)

/-- Products one after the other. -/
def runSt (S : Sim p c e) : St p c e → List (p → ℝ) → List (Except Err (((c → ℝ) × (e → ℝ)) × Option (Matrix c c ℝ)))
  | _, [] => []
  | st, m :: ms =>
    match prodSt S st m with
    | .error err => .error err :: runSt S st ms
    | .ok (st, r) => .ok r :: runSt S st ms

/-- What is kept belongs to the model. -/
def Inv (S : Sim p c e) (st : St p c e) : Prop :=
  st.jm = some none ∧
  (∀ f ∈ st.stored, ∃ m ∈ st.model, f = S.fields m ∧ st.ainv = some (S.A m)⁻¹) ∧
  ∀ X ∈ st.ainv, ∃ m ∈ st.model, X = (S.A m)⁻¹

theorem A_const (S : Sim p c e) (h : S.muMap = none) (m y : p → ℝ) : S.A m = S.A y := by
  unfold Sim.A Sim.w Sim.mui Sim.muArr Sim.muOf
  rw [h]

theorem prodSt_ok (S : Sim p c e) (st : St p c e) (hI : Inv S st) (m : p → ℝ)
    (hc : ∀ x ∈ st.model, Close x m → x = m) :
    ∃ st', prodSt S st m = .ok (st', S.fields m, some (S.A m)⁻¹) ∧ Inv S st' ∧ st'.model = some m := by
  obtain ⟨hj, hs, ha⟩ := hI
  obtain ⟨mod, stored, ainv, jm⟩ := st
  simp only at hj hs ha hc
  subst hj
  have key : ∀ (stored' : Option ((c → ℝ) × (e → ℝ))) (ainv' : Option (Matrix c c ℝ)),
      setModel S ⟨mod, stored, ainv, some none⟩ m = .ok ⟨some m, stored', ainv', some none⟩ →
      (∀ f ∈ stored', f = S.fields m ∧ ainv' = some (S.A m)⁻¹) → (∀ X ∈ ainv', X = (S.A m)⁻¹) →
      ∃ st', prodSt S ⟨mod, stored, ainv, some none⟩ m = .ok (st', S.fields m, some (S.A m)⁻¹) ∧ Inv S st' ∧
        st'.model = some m := by
    intro stored' ainv' h1 h2 h3
    unfold prodSt fieldsSt
    rw [h1]
    cases stored' with
    | some f =>
      obtain ⟨rfl, rfl⟩ := h2 f rfl
      refine ⟨_, rfl, ⟨rfl, fun f hf => ⟨m, rfl, ?_, rfl⟩, fun X hX => ⟨m, rfl, h3 X hX⟩⟩, rfl⟩
      exact (Option.some.inj hf).symm
    | none =>
      have h4 : ainv'.getD (S.A m)⁻¹ = (S.A m)⁻¹ := by
        cases ainv' with
        | none => rfl
        | some X => exact h3 X rfl
      simp only [h4]
      refine ⟨_, rfl, ⟨rfl, fun f hf => ⟨m, rfl, ?_, rfl⟩, fun X hX => ⟨m, rfl, ?_⟩⟩, rfl⟩
      · exact (Option.some.inj hf).symm
      · exact (Option.some.inj hX).symm
  by_cases hcl : ∃ x ∈ mod, Close x m
  · obtain ⟨x, hx, hxm⟩ := hcl
    obtain rfl := hc x hx hxm
    refine key stored ainv ?_ (fun f hf => ?_) (fun X hX => ?_)
    · unfold setModel
      rw [if_pos ⟨x, hx, hxm⟩]
    · obtain ⟨y, hy, h⟩ := hs f hf
      obtain rfl : x = y := Option.some.inj (hx.symm.trans hy)
      exact h
    · obtain ⟨y, hy, h⟩ := ha X hX
      obtain rfl : x = y := Option.some.inj (hx.symm.trans hy)
      exact h
  · cases hM : S.muMap with
    | none =>
      refine key none ainv ?_ (fun f hf => by simp at hf) (fun X hX => ?_)
      · unfold setModel
        rw [if_neg hcl, if_pos (by rw [hM]; rfl)]
      · obtain ⟨y, _, h⟩ := ha X hX
        rw [h, A_const S hM y m]
    | some M =>
      refine key none none ?_ (fun f hf => by simp at hf) (fun X hX => by simp at hX)
      unfold setModel
      rw [if_neg hcl, if_neg (by rw [hM]; simp)]

/-- C177 (partial: for models one after the other that `np.allclose` does not take as equal unless they are). Every
product of a history without `storeJ` has the fields and the solver of a new simulation. -/
theorem C177_history_partial (S : Sim p c e) (ms : List (p → ℝ))
    (hc : ms.IsChain fun x y => Close x y → x = y) :
    runSt S St.new ms = ms.map fun m => .ok (S.fields m, some (S.A m)⁻¹) := by
  have key : ∀ (ms : List (p → ℝ)) (st : St p c e), Inv S st → (∀ x ∈ st.model, ∀ m ∈ ms.head?, Close x m → x = m) →
      (ms.IsChain fun x y => Close x y → x = y) →
      runSt S st ms = ms.map fun m => .ok (S.fields m, some (S.A m)⁻¹) := by
    intro ms
    induction ms with
    | nil => intros; rfl
    | cons m ms ih =>
      intro st hI hh hch
      obtain ⟨st', h1, h2, h3⟩ := prodSt_ok S st hI m fun x hx => hh x hx m rfl
      unfold runSt
      rw [h1, List.map_cons]
      simp only
      rw [ih st' h2 ?_ hch.tail]
      intro x hx y hy
      rw [h3] at hx
      obtain rfl := Option.some.inj hx
      cases ms with
      | nil => simp at hy
      | cons a as =>
        obtain rfl := Option.some.inj hy
        exact (List.isChain_cons_cons.1 hch).1
  refine key ms St.new ⟨rfl, ?_, ?_⟩ ?_ hc
  · intro f hf; simp [St.new] at hf
  · intro f hf; simp [St.new] at hf
  · intro f hf; simp [St.new] at hf

/-- C177 violated. A model that `np.allclose` takes as equal to the one before gets the fields of the one before.
Models of permeability are near `1e-6`, so these are all models with changes up to `1e-8`, eight percent of the
susceptibility 0.1. -/
theorem C177_violated_close (S : Sim p c e) (m m' : p → ℝ) (hc : Close m m') :
    runSt S St.new [m, m'] = [.ok (S.fields m, some (S.A m)⁻¹), .ok (S.fields m, some (S.A m)⁻¹)] := by
  obtain ⟨st', h1, h2, h3⟩ := prodSt_ok S St.new (⟨rfl, fun f hf => by simp [St.new] at hf,
    fun f hf => by simp [St.new] at hf⟩) m (fun x hx => by simp [St.new] at hx)
  have h4 : st'.stored = some (S.fields m) ∧ st'.ainv = some (S.A m)⁻¹ := by
    unfold prodSt fieldsSt setModel St.new at h1
    rw [if_neg (by simp)] at h1
    cases hM : S.muMap <;> simp [hM] at h1 <;> obtain ⟨rfl, -⟩ := h1 <;> simp [Sim.fields]
  unfold runSt
  rw [h1]
  simp only [runSt]
  unfold prodSt fieldsSt setModel
  rw [if_pos ⟨m, h3, hc⟩]
  simp only [h4.1, h4.2]

/-- C177 violated. A permeability that is set later: the fields of the model are still those of the first
permeability; for another model the solver of the first permeability is used, and the flux has the divergence
`rhs - A' (A⁻¹ rhs)`. -/
theorem C177_violated_mu (S : Sim p c e) (hM : S.muMap = none) (x : Mu c) (m m' : p → ℝ) (hc : ¬Close m m') :
    ∃ st, prodSt S St.new m = .ok (st, S.fields m, some (S.A m)⁻¹) ∧
    (∃ st', prodSt {S with mu := x} st m = .ok (st', S.fields m, some (S.A m)⁻¹)) ∧
    ∃ st' f, prodSt {S with mu := x} st m' = .ok (st', f, some (S.A m)⁻¹) ∧
      ({S with mu := x} : Sim p c e).Div *ᵥ f.2 = ({S with mu := x} : Sim p c e).rhs m' -
        ({S with mu := x} : Sim p c e).A m' *ᵥ ((S.A m)⁻¹ *ᵥ ({S with mu := x} : Sim p c e).rhs m') := by
  refine ⟨⟨some m, some (S.fields m), some (S.A m)⁻¹, some none⟩, ?_, ?_, ?_⟩
  · unfold prodSt fieldsSt setModel St.new
    rw [if_neg (by simp)]
    simp [hM, Sim.fields]
  · have hself : Close m m := fun i => by
      rw [sub_self, abs_zero]
      positivity
    unfold prodSt fieldsSt setModel
    rw [if_pos ⟨m, rfl, hself⟩]
    exact ⟨_, rfl⟩
  · have h1 : setModel {S with mu := x} ⟨some m, some (S.fields m), some (S.A m)⁻¹, some none⟩ m' =
        .ok ⟨some m', none, some (S.A m)⁻¹, some none⟩ := by
      unfold setModel
      rw [if_neg (by rintro ⟨y, hy, h⟩; obtain rfl := Option.some.inj hy; exact hc h), if_pos (by simp [hM])]
    unfold prodSt fieldsSt
    rw [h1]
    refine ⟨_, _, rfl, ?_⟩
    simp only [Option.getD_some]
    rw [flux_eq, Matrix.mulVec_sub, ← rhs_eq, ← A_mulVec]
    rfl

/-- `if J:` for an array. -/
def truth (J : List (p → ℝ)) : Except Err Bool :=
  if 2 ≤ J.length * Fintype.card p then .error .valueError
  else .ok (decide (∃ r ∈ J, ∃ j, r j ≠ 0))

/-- A product with `storeJ=True` (`simpeg/potential_fields/magnetics/simulation.py` 1945-1982): `rows` makes the
matrix from the fields and the solver. The state is kept when the call fails. -/
def prodStored (S : Sim p c e) (rows : (p → ℝ) → ((c → ℝ) × (e → ℝ)) → Option (Matrix c c ℝ) → List (p → ℝ))
    (st : St p c e) (m : p → ℝ) : St p c e × Except Err (List (p → ℝ)) :=
  match prodSt S st m with
  | .error err => (st, .error err)
  | .ok (st, f, ai) =>
    match st.jm with
    | none => (st, .error .attributeError)
    | some none => let J := rows m f ai; ({st with jm := some (some J)}, .ok J)
    | some (some J) =>
      match truth J with
      | .error err => (st, .error err)
      | .ok true => (st, .ok J)
      | .ok false => let J := rows m f ai; ({st with jm := some (some J)}, .ok J)

/-- C177 violated. With `storeJ=True` the first product is right and every second one fails, with the same model and
with any other. With a mapped permeability and another model even `fields` fails from then on, for all models that
are not close to it. -/
theorem C177_violated_store (S : Sim p c e)
    (rows : (p → ℝ) → ((c → ℝ) × (e → ℝ)) → Option (Matrix c c ℝ) → List (p → ℝ)) (m : p → ℝ)
    (hs : 2 ≤ (rows m (S.fields m) (some (S.A m)⁻¹)).length * Fintype.card p) :
    (prodStored S rows St.new m).2 = .ok (rows m (S.fields m) (some (S.A m)⁻¹)) ∧
    (∀ m', Close m m' ∨ S.muMap = none →
      (prodStored S rows (prodStored S rows St.new m).1 m').2 = .error .valueError) ∧
    ∀ m', ¬Close m m' → S.muMap ≠ none →
      (prodStored S rows (prodStored S rows St.new m).1 m').2 = .error .attributeError ∧
      ∀ m'', ¬Close m' m'' →
        fieldsSt S (prodStored S rows (prodStored S rows St.new m).1 m').1 m'' = .error .attributeError := by
  set J := rows m (S.fields m) (some (S.A m)⁻¹) with hJ
  have h1 : prodStored S rows St.new m =
      (⟨some m, some (S.fields m), some (S.A m)⁻¹, some (some J)⟩, .ok J) := by
    unfold prodStored prodSt fieldsSt setModel St.new
    rw [if_neg (by simp)]
    cases hM : S.muMap <;> simp [Sim.fields, hJ]
  have ht : truth J = .error .valueError := by
    unfold truth
    rw [if_pos hs]
  rw [h1]
  refine ⟨rfl, fun m' h => ?_, fun m' hc hM => ?_⟩
  · by_cases hcl : ∃ x ∈ some m, Close x m'
    · unfold prodStored prodSt fieldsSt setModel
      rw [if_pos hcl]
      simp only [ht]
    · have hM : S.muMap = none := h.resolve_left fun h => hcl ⟨m, rfl, h⟩
      unfold prodStored prodSt fieldsSt setModel
      rw [if_neg hcl, if_pos (by rw [hM]; rfl)]
      simp only [ht]
  · have hcl : ¬∃ x ∈ some m, Close x m' := by
      rintro ⟨y, hy, h⟩
      obtain rfl := Option.some.inj hy
      exact hc h
    have hMn : ¬S.muMap.isNone := by
      rw [Option.isNone_iff_eq_none]
      exact hM
    have h2 : prodStored S rows ⟨some m, some (S.fields m), some (S.A m)⁻¹, some (some J)⟩ m' =
        (⟨some m', some (S.fields m'), some (S.A m')⁻¹, none⟩, .error .attributeError) := by
      unfold prodStored prodSt fieldsSt setModel
      rw [if_neg hcl, if_neg hMn]
      simp [Sim.fields]
    rw [h2]
    refine ⟨rfl, fun m'' hc' => ?_⟩
    unfold fieldsSt setModel
    rw [if_neg (by rintro ⟨y, hy, h⟩; obtain rfl := Option.some.inj hy; exact hc' h), if_neg hMn]

end history

/-! ### Gravity -/

/-- A product of an array with `rows` rows and `cols` columns and a vector of length `n`: only the lengths. -/
def mulShape (rows cols n : ℕ) : Except Err ℕ := if cols = n then .ok rows else .error .valueError

/-- `fields` of the finite volume simulation of gravity (`simpeg/potential_fields/gravity/simulation.py` 972-1019) on
a tensor mesh, only the lengths: `getRHS`, the solution, then `_Div * u`. -/
def gravityFields (nx ny nz : ℕ) : Except Err ℕ :=
  let nC := nx * ny * nz
  let nF := (nx + 1) * ny * nz + nx * (ny + 1) * nz + nx * ny * (nz + 1)
  match mulShape nC nC nC with
  | .error err => .error err
  | .ok n => mulShape nC nF n

/-- C177 violated. The finite volume simulation of gravity fails for every mesh: the divergence of faces is applied
to a potential that is given by cells. -/
theorem C177_violated_gravity (nx ny nz : ℕ) (hx : 0 < nx) (hy : 0 < ny) (hz : 0 < nz) :
    gravityFields nx ny nz = .error .valueError := by
  unfold gravityFields mulShape
  simp only [if_true]
  rw [if_neg]
  have h1 : 0 < ny * nz := Nat.mul_pos hy hz
  have : (nx + 1) * ny * nz = nx * ny * nz + ny * nz := by ring
  have : 0 ≤ nx * (ny + 1) * nz := Nat.zero_le _
  omega

/-! ### A case

One cell with two faces; the permeability is that of the model. -/

def ex : Sim (Fin 1) (Fin 1) (Fin 2) where
  V := fun _ => 1
  face := !![-1, 1]
  W := fun _ _ => 1 / 2
  W3 := fun _ t => if t.1 = 0 then 1 / 2 else 0
  dir := fun _ => 0
  B0 := fun _ => 1
  mu0 := 1
  mu := .number 1
  muMap := some ⟨fun m => m, fun _ => 1⟩
  rem := some fun _ => 3
  remMap := none

example : ¬ex.IsDefault (fun _ => 2) ∧ (∀ i, 0 < ex.muArr (fun _ => 2) i) ∧ (∀ i j, 0 ≤ ex.W i j) ∧
    (∀ i, ∃ j, 0 < ex.W i j) ∧ (∀ u, ex.Divᵀ *ᵥ u = 0 → u = 0) ∧ Good ex (fun _ => 2) ∧ ex.Div *ᵥ ex.b0 = 0 := by
  refine ⟨default_some ex rfl _, fun i => ?_, fun i j => ?_, fun i => ⟨0, ?_⟩, fun u h => ?_, ⟨?_, ?_⟩, ?_⟩
  · norm_num [Sim.muArr, Sim.muOf, ex]
  · norm_num [ex]
  · norm_num [ex]
  · have := congrFun h 1
    simp [Sim.Div, ex, Matrix.mulVec, dotProduct, Matrix.mul_apply, Matrix.diagonal] at this
    funext i
    fin_cases i
    simpa using this
  · intro M hM
    obtain rfl := Option.some.inj hM
    exact isJacobian_id _
  · intro R hR
    simp [ex] at hR
  · funext i
    fin_cases i
    simp [Sim.Div, Sim.b0, ex, Matrix.mulVec, dotProduct, Matrix.mul_apply, Matrix.diagonal, Fin.sum_univ_two]

/-- Two models of permeability that are taken as equal. -/
example : Close (fun _ : Fin 1 => (1.26e-6 : ℝ)) (fun _ => 1.269e-6) := by
  intro i
  rw [abs_of_nonpos (by norm_num), abs_of_pos (by norm_num)]
  norm_num

end Verif.PF.Differential
