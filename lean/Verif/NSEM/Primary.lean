import Verif.NSEM.Layered
import Mathlib.LinearAlgebra.Matrix.ToLinearEquiv
import Mathlib.LinearAlgebra.Matrix.NonsingularInverse
import Mathlib.Data.Matrix.Mul

/-!
C158: the primary fields of plane waves, `primary_e_1d_solution` and `primary_h_1d_solution`
(`simpeg/electromagnetics/natural_source/utils/source_utils.py` 14-153, 155-323), and the primary and secondary
fields of `PlanewaveXYPrimary` (`simpeg/electromagnetics/natural_source/sources.py` 38-226). Cells are counted
from the bottom. Arrays are functions of `ℕ`; entries outside of the arrays are never read.
-/

noncomputable section
namespace Verif.NSEM.Primary
open Verif Complex Matrix Finset

/-! ### The system in one dimension -/

/-- `np.pad(x, (n_pad, 0), mode="edge")` (`source_utils.py` 109-111, 267-269). -/
def padEdge (n_pad : ℕ) (x : ℕ → ℝ) (i : ℕ) : ℝ := x (i - n_pad)

/-- `nodal_gradient` of a mesh with `n` cells of widths `h` (discretize). -/
def grad (n : ℕ) (h : ℕ → ℝ) : Matrix (Fin n) (Fin (n + 1)) ℂ :=
  Matrix.of fun i j => if j.1 = i.1 + 1 then ((1 / h i : ℝ) : ℂ) else if j.1 = i.1 then ((-1 / h i : ℝ) : ℂ) else 0

/-- Diagonal of the inner product of faces, that is nodes (discretize). -/
def nodeMass (n : ℕ) (h p : ℕ → ℝ) (j : ℕ) : ℝ :=
  (if 0 < j then p (j - 1) * h (j - 1) / 2 else 0) + (if j < n then p j * h j / 2 else 0)

/-- `A = G.T @ M_e @ G + 1j * w * M_f`, plus `c` in the corner (116-121, 136, 274-279, 291). `s` is the
property of the stiffness (`1 / mu_0` or `1 / sigma`), `p` that of the mass (`sigma` or `mu_0`). -/
def system (n : ℕ) (h s p : ℕ → ℝ) (w : ℝ) (c : ℂ) : Matrix (Fin (n + 1)) (Fin (n + 1)) ℂ :=
  (grad n h)ᵀ * Matrix.diagonal (fun i : Fin n => ((h i * s i : ℝ) : ℂ)) * grad n h +
    Matrix.diagonal (fun j : Fin (n + 1) => I * w * (nodeMass n h p j : ℂ) + if j.1 = 0 then c else 0)

/-- Elimination of the fixed nodes and solution for the free ones (145-149, 300-304); the solver is exact. -/
def solution {n : ℕ} (A : Matrix (Fin (n + 1)) (Fin (n + 1)) ℂ) (fixed : Fin (n + 1) → Option ℂ)
    (q : Fin (n + 1) → ℂ) : Fin (n + 1) → ℂ := fun j =>
  match hj : fixed j with
  | some v => v
  | none =>
    ((A.submatrix (fun i : {i // fixed i = none} => i.1) (fun i : {i // fixed i = none} => i.1))⁻¹ *ᵥ
      (fun i => q i.1 - (A *ᵥ fun l => (fixed l).getD 0) i.1)) ⟨j, hj⟩

/-- What the two functions differ in. -/
inductive Kind
  | e
  | h
  deriving DecidableEq

/-- The property of the stiffness: `mu_0` inverted, or `sigma_1d_ext` inverted (117, 275). -/
def Kind.stiff (k : Kind) (μ : ℝ) (σ : ℕ → ℝ) (i : ℕ) : ℝ := match k with
  | .e => 1 / μ
  | .h => 1 / σ i

/-- The property of the mass (118, 276). -/
def Kind.mass (k : Kind) (μ : ℝ) (σ : ℕ → ℝ) (i : ℕ) : ℝ := match k with
  | .e => σ i
  | .h => μ

/-- The Robin term `1j * k_bot / mu_0`, `1j * k_bot / sigma_1d[0]` with
`k_bot = np.sqrt(-1.0j * w * mu_0 * sigma_1d_ext[0])` (135-136, 290-291). -/
def Kind.robin (k : Kind) (w μ σ0 : ℝ) : ℂ :=
  I * (-I * w * μ * σ0) ^ (1 / 2 : ℂ) / (match k with | .e => (μ : ℂ) | .h => (σ0 : ℂ))

/-- `q[-1]` of the Neumann condition (144, 299). -/
def Kind.neumann (k : Kind) (w : ℝ) : ℂ := match k with
  | .e => -I * w
  | .h => 1

/-- `primary_e_1d_solution` (102-153) and `primary_h_1d_solution` (257-312): `N` cells of the mesh, `M` values
of `sigma_1d`, `bottom` the first entry of the analytic field at `mesh.nodes_x` divided by its last one. -/
def primary (k : Kind) (μ freq : ℝ) (N : ℕ) (h : ℕ → ℝ) (M : ℕ) (σ : ℕ → ℝ) (top_bc bot_bc : String)
    (n_pad : ℕ) (bottom : ℂ) : Except Err (ℕ → ℂ) :=
  if N ≠ M then .error .valueError
  else if bot_bc ≠ "dirichlet" ∧ bot_bc ≠ "robin" then .error .valueError
  else if top_bc ≠ "dirichlet" ∧ top_bc ≠ "neumann" then .error .valueError
  else
    let n := n_pad + N;
    let hx := padEdge n_pad h;
    let σx := padEdge n_pad σ;
    let w := 2 * Real.pi * freq;
    let c := if bot_bc = "robin" then k.robin w μ (σx 0) else 0;
    let A := system n hx (k.stiff μ σx) (k.mass μ σx) w c;
    let fixed : Fin (n + 1) → Option ℂ := fun j =>
      if j.1 = n ∧ top_bc = "dirichlet" then some 1
      else if j.1 = 0 ∧ bot_bc = "dirichlet" then some bottom else none;
    let q : Fin (n + 1) → ℂ := fun j => if j.1 = n ∧ top_bc = "neumann" then k.neumann w else 0;
    let u := solution A fixed q;
    .ok fun j => if hj : n_pad + j < n + 1 then u ⟨n_pad + j, hj⟩ else 0

/-! ### The source -/

/-- Conductivities of the primary model as users give them. -/
inductive Cond
  | missing
  | float (x : ℝ)
  | array (l : List ℝ)

/-- The attributes of `PlanewaveXYPrimary` (`sources.py` 55-59); `cached` is `_sigma1d, _sigma_p`, `field` is
`_ePrimary`. -/
structure Source (F : Type) where
  primary : Cond
  freq : ℝ
  cached : Option (List ℝ × Option (List ℝ)) := none
  field : Option F := none

/-- What the source reads of a simulation. `down` and `up` average logarithms over volumes, from the mesh to its
column and back; `solve` is `primary_e_1d_solution` and `project_1d_fields_to_mesh_edges` on the mesh. -/
structure Sim (F : Type) where
  dim : ℕ
  nC : ℕ
  nz : ℕ
  sigmaPrimary : Cond
  down : List ℝ → List ℝ
  up : List ℝ → List ℝ
  solve : List ℝ → ℝ → F

/-- `_get_sigmas` (`sources.py` 61-97). A number and `None` have no `len`; other lengths than those of the mesh and
of its column are broadcast if they are 1 and refused if not. -/
def getSigmas {F : Type} (sim : Sim F) (src : Source F) :
    Source F × Except Err (List ℝ × Option (List ℝ)) :=
  match src.cached with
  | some c => (src, .ok c)
  | none =>
    let src := match src.primary with
      | .missing => { src with primary := sim.sigmaPrimary }
      | _ => src;
    if sim.dim = 3 then
      match src.primary with
      | .missing => (src, .error .typeError)
      | .float _ => (src, .error .typeError)
      | .array l =>
        if l.length = sim.nC then
          ({ src with cached := some (sim.down l, some (sim.up (sim.down l))) },
            .ok (sim.down l, some (sim.up (sim.down l))))
        else if l.length = sim.nz then
          ({ src with cached := some (l, some (sim.up l)) }, .ok (l, some (sim.up l)))
        else match l with
          | [x] =>
            ({ src with cached := some (List.replicate sim.nz x, some (sim.up (List.replicate sim.nz x))) },
              .ok (List.replicate sim.nz x, some (sim.up (List.replicate sim.nz x))))
          | _ => (src, .error .valueError)
    else
      match sim.sigmaPrimary with
      | .array l =>
        if l.length = sim.nC then ({ src with cached := some (l, none) }, .ok (l, none)) else (src, .error .valueError)
      | _ => (src, .error .exception)

/-- `ePrimary` (`sources.py` 99-122); the second column of one-dimensional meshes is not modelled. -/
def ePrimary {F : Type} (sim : Sim F) (src : Source F) : Source F × Except Err F :=
  match src.field with
  | some f => (src, .ok f)
  | none =>
    match getSigmas sim src with
    | (src, .error e) => (src, .error e)
    | (src, .ok (s, _)) => ({ src with field := some (sim.solve s src.freq) }, .ok (sim.solve s src.freq))

/-- `getA` of the simulation (`frequency_domain/simulation.py`, `Simulation3DElectricField`). -/
def getA {e f : Type} [Fintype f] (C : Matrix f e ℂ) (Mui : Matrix f f ℂ) (Ms : Matrix e e ℂ)
    (w : ℝ) : Matrix e e ℂ := Cᵀ * Mui * C + (I * w : ℂ) • Ms

/-- `s_e` of the source in three dimensions (`sources.py` 147-176), one polarization. -/
def sE {e : Type} [Fintype e] (Ms Mp : Matrix e e ℂ) (ep : e → ℂ) : e → ℂ := Ms *ᵥ ep - Mp *ᵥ ep

/-- The secondary field: the solution of the simulation for the source, whose right hand side is
`-1j * omega * s_e`; the solver is exact. -/
def secondary {e f : Type} [Fintype e] [DecidableEq e] [Fintype f] (C : Matrix f e ℂ)
    (Mui : Matrix f f ℂ) (Ms Mp : Matrix e e ℂ) (w : ℝ) (ep : e → ℂ) : e → ℂ :=
  (getA C Mui Ms w)⁻¹ *ᵥ ((-(I * w) : ℂ) • sE Ms Mp ep)

/-- The total field of `Fields3DPrimarySecondary`, `_e_px` (`natural_source/fields.py` 411-438). -/
def total {e f : Type} [Fintype e] [DecidableEq e] [Fintype f] (C : Matrix f e ℂ)
    (Mui : Matrix f f ℂ) (Ms Mp : Matrix e e ℂ) (w : ℝ) (ep : e → ℂ) : e → ℂ :=
  ep + secondary C Mui Ms Mp w ep

/-- `bPrimary` (`sources.py` 124-145). -/
def bPrimary {e f : Type} [Fintype e] (C : Matrix f e ℂ) (w : ℝ) (ep : e → ℂ) : f → ℂ :=
  (1 / (I * w) : ℂ) • (-(C *ᵥ ep))

/-! ### Specification -/

/-- The flux through the cell `i`: the property of the stiffness times the derivative. -/
def flux (h s : ℕ → ℝ) (u : ℕ → ℂ) (i : ℕ) : ℂ := (s i : ℂ) * ((u (i + 1) - u i) / h i)

/-- The balance at the node `j` between two cells: the fluxes differ by `i ω` times the property of the mass,
integrated over the half cells, times the field. -/
def Balanced (h s p : ℕ → ℝ) (w : ℝ) (u : ℕ → ℂ) (j : ℕ) : Prop :=
  flux h s u j - flux h s u (j - 1) = I * w * ((p (j - 1) * h (j - 1) / 2 + p j * h j / 2 : ℝ) : ℂ) * u j

/-- The discrete field on the nodes `0, …, n` of the extended mesh: the balance inside; at the top the value 1 or
the flux `qt`; at the bottom the value `b` or the flux `c` times the field, that of a field which decays as
`exp ((1 + i) z / δ)` below, `c` being `(1 + i) / δ` times the property of the stiffness. -/
structure IsDiscrete (n : ℕ) (h s p : ℕ → ℝ) (w : ℝ) (top : Option ℂ) (bot : ℂ ⊕ ℂ) (x : ℕ → ℂ) : Prop where
  inner : ∀ j, 0 < j → j < n → Balanced h s p w x j
  atTop : match top with
    | none => x n = 1
    | some qt => flux h s x (n - 1) + I * w * ((p (n - 1) * h (n - 1) / 2 : ℝ) : ℂ) * x n = qt
  atBot : match bot with
    | .inl b => x 0 = b
    | .inr c => flux h s x 0 = I * w * ((p 0 * h 0 / 2 : ℝ) : ℂ) * x 0 + c * x 0

/-- One over the skin depth of a conductivity. -/
def invSkin (w μ σ : ℝ) : ℝ := Real.sqrt (w * μ * σ / 2)

/-- The condition at the top. -/
def topOf (k : Kind) (w : ℝ) (top_bc : String) : Option ℂ :=
  if top_bc = "dirichlet" then none else some (match k with | .e => -I * w | .h => 1)

/-- The condition at the bottom; `b` is the value of the Dirichlet condition. -/
def botOf (k : Kind) (w μ σ0 : ℝ) (bot_bc : String) (b : ℂ) : ℂ ⊕ ℂ :=
  if bot_bc = "dirichlet" then .inl b
  else .inr ((1 + I) * (invSkin w μ σ0 : ℂ) * (match k with | .e => (1 / μ : ℂ) | .h => (1 / σ0 : ℂ)))

namespace Props

/-- Entries of a vector. -/
def ext {n : ℕ} (u : Fin (n + 1) → ℂ) (j : ℕ) : ℂ := if hj : j < n + 1 then u ⟨j, hj⟩ else 0

theorem ext_fin {n : ℕ} (u : Fin (n + 1) → ℂ) (j : Fin (n + 1)) : ext u j = u j := by
  unfold ext
  rw [dif_pos j.2]

theorem grad_mulVec (n : ℕ) (h : ℕ → ℝ) (u : Fin (n + 1) → ℂ) (i : Fin n) :
    (grad n h *ᵥ u) i = (ext u (i + 1) - ext u i) / h i := by
  have h1 : (grad n h *ᵥ u) i = ∑ j : Fin (n + 1), (fun j : ℕ =>
      (if j = i.1 + 1 then ((1 / h i : ℝ) : ℂ) * ext u j else 0) +
      (if j = i.1 then ((-1 / h i : ℝ) : ℂ) * ext u j else 0)) j.1 := by
    simp only [Matrix.mulVec, dotProduct, grad, Matrix.of_apply]
    refine Finset.sum_congr rfl fun j _ => ?_
    rw [ext_fin]
    by_cases a : j.1 = i.1 + 1
    · have : j.1 ≠ i.1 := by omega
      simp [a]
    · by_cases b : j.1 = i.1
      · simp [b]
      · simp [a, b]
  refine h1.trans ((Fin.sum_univ_eq_sum_range (fun j : ℕ =>
      (if j = i.1 + 1 then ((1 / h i : ℝ) : ℂ) * ext u j else 0) +
      (if j = i.1 then ((-1 / h i : ℝ) : ℂ) * ext u j else 0)) (n + 1)).trans ?_)
  rw [Finset.sum_add_distrib, Finset.sum_ite_eq', Finset.sum_ite_eq',
    if_pos (by simp), if_pos (Finset.mem_range.mpr (by omega))]
  push_cast
  ring

theorem gradT_mulVec (n : ℕ) (h : ℕ → ℝ) (y : ℕ → ℂ) (j : Fin (n + 1)) :
    ((grad n h)ᵀ *ᵥ fun i : Fin n => y i) j =
      (if 0 < j.1 then y (j - 1) / h (j - 1) else 0) - (if j.1 < n then y j / h j else 0) := by
  have h1 : ((grad n h)ᵀ *ᵥ fun i : Fin n => y i) j = ∑ i : Fin n, (fun i : ℕ =>
      (if i + 1 = j.1 then y i / h i else 0) - (if i = j.1 then y i / h i else 0)) i.1 := by
    simp only [Matrix.mulVec, dotProduct, grad, Matrix.transpose_apply, Matrix.of_apply]
    refine Finset.sum_congr rfl fun i _ => ?_
    by_cases a : j.1 = i.1 + 1
    · have : i.1 ≠ j.1 := by omega
      have a' : i.1 + 1 = j.1 := a.symm
      simp only [a, if_true, this, if_false]
      push_cast
      simp
      ring
    · by_cases b : j.1 = i.1
      · simp only [b, if_true]
        have : ¬ i.1 + 1 = i.1 := by omega
        have t2 : ¬ i.1 = i.1 + 1 := by omega
        simp only [this, t2, if_false]
        push_cast
        ring
      · have a' : ¬ i.1 + 1 = j.1 := fun hh => a hh.symm
        have b' : ¬ i.1 = j.1 := fun hh => b hh.symm
        simp [a, b, a', b']
  refine h1.trans ((Fin.sum_univ_eq_sum_range (fun i : ℕ =>
      (if i + 1 = j.1 then y i / h i else 0) - (if i = j.1 then y i / h i else 0)) n).trans ?_)
  rw [Finset.sum_sub_distrib]
  congr 1
  · by_cases a : 0 < j.1
    · have : ∀ i, (i + 1 = j.1) = (i = j.1 - 1) := fun i => by rw [eq_iff_iff]; omega
      simp only [this, Finset.sum_ite_eq', a, if_true]
      rw [if_pos (by simp; omega)]
    · have : ∀ i, ¬ (i + 1 = j.1) := fun i => by omega
      simp [this, a]
  · rw [Finset.sum_ite_eq']
    simp

/-- A row of the system. -/
theorem system_row (n : ℕ) (h s p : ℕ → ℝ) (hh : ∀ i < n, h i ≠ 0) (w : ℝ) (c : ℂ) (u : Fin (n + 1) → ℂ)
    (j : Fin (n + 1)) :
    (system n h s p w c *ᵥ u) j =
      (if 0 < j.1 then flux h s (ext u) (j - 1) else 0) - (if j.1 < n then flux h s (ext u) j else 0) +
        (I * w * (nodeMass n h p j : ℂ) + if j.1 = 0 then c else 0) * u j := by
  have h1 : (Matrix.diagonal (fun i : Fin n => ((h i * s i : ℝ) : ℂ)) *ᵥ (grad n h *ᵥ u)) =
      fun i : Fin n => (fun i : ℕ => ((h i * s i : ℝ) : ℂ) * ((ext u (i + 1) - ext u i) / h i)) i.1 := by
    funext i
    rw [Matrix.mulVec_diagonal, grad_mulVec]
  unfold system
  rw [Matrix.add_mulVec, ← Matrix.mulVec_mulVec, ← Matrix.mulVec_mulVec, h1, Pi.add_apply, Matrix.mulVec_diagonal]
  refine (congrArg (· + (I * w * (nodeMass n h p j : ℂ) + if j.1 = 0 then c else 0) * u j)
    (gradT_mulVec n h (fun i : ℕ => ((h i * s i : ℝ) : ℂ) * ((ext u (i + 1) - ext u i) / h i)) j)).trans ?_
  congr 2
  · by_cases a : 0 < j.1
    · rw [if_pos a, if_pos a]
      unfold flux
      have : (h (j - 1) : ℂ) ≠ 0 := by exact_mod_cast hh (j - 1) (by omega)
      push_cast
      field_simp
    · rw [if_neg a, if_neg a]
  · by_cases a : j.1 < n
    · rw [if_pos a, if_pos a]
      unfold flux
      have : (h j : ℂ) ≠ 0 := by exact_mod_cast hh j a
      push_cast
      field_simp
    · rw [if_neg a, if_neg a]

/-- The imaginary part of the energy. -/
theorem energy (n : ℕ) (h s p : ℕ → ℝ) (w : ℝ) (c : ℂ) (u : Fin (n + 1) → ℂ) :
    (star u ⬝ᵥ (system n h s p w c *ᵥ u)).im =
      ∑ j : Fin (n + 1), (w * nodeMass n h p j + if j.1 = 0 then c.im else 0) * normSq (u j) := by
  unfold system
  rw [Matrix.add_mulVec, dotProduct_add, add_im]
  have h1 : (star u ⬝ᵥ (((grad n h)ᵀ * Matrix.diagonal (fun i : Fin n => ((h i * s i : ℝ) : ℂ)) * grad n h) *ᵥ u)).im
      = 0 := by
    rw [← Matrix.mulVec_mulVec, ← Matrix.mulVec_mulVec, Matrix.dotProduct_mulVec, Matrix.vecMul_transpose]
    have h2 : grad n h *ᵥ star u = star (grad n h *ᵥ u) := by
      funext i
      simp only [Matrix.mulVec, dotProduct, Pi.star_apply, star_sum, star_mul']
      refine Finset.sum_congr rfl fun j _ => ?_
      congr 1
      simp only [grad, Matrix.of_apply]
      split
      · exact (Complex.conj_ofReal _).symm
      · split
        · exact (Complex.conj_ofReal _).symm
        · simp
    rw [h2]
    simp only [dotProduct, Matrix.mulVec_diagonal, Pi.star_apply]
    rw [Complex.im_sum]
    refine Finset.sum_eq_zero fun i _ => ?_
    have : star ((grad n h *ᵥ u) i) * (((h i * s i : ℝ) : ℂ) * (grad n h *ᵥ u) i) =
        ((h i * s i * normSq ((grad n h *ᵥ u) i) : ℝ) : ℂ) := by
      rw [Complex.ofReal_mul (h i * s i), Complex.normSq_eq_conj_mul_self]
      simp only [starRingEnd_apply]
      ring
    rw [this, Complex.ofReal_im]
  rw [h1, zero_add]
  simp only [dotProduct, Matrix.mulVec_diagonal, Pi.star_apply]
  rw [Complex.im_sum]
  refine Finset.sum_congr rfl fun j _ => ?_
  have : star (u j) * ((I * w * (nodeMass n h p j : ℂ) + if j.1 = 0 then c else 0) * u j) =
      (I * w * (nodeMass n h p j : ℂ) + if j.1 = 0 then c else 0) * (normSq (u j) : ℂ) := by
    rw [Complex.normSq_eq_conj_mul_self]
    simp only [starRingEnd_apply]
    ring
  rw [this, Complex.im_mul_ofReal]
  congr 1
  rw [Complex.add_im]
  congr 1
  · simp
  · split <;> simp

theorem nodeMass_pos (n : ℕ) (hn : 0 < n) (h p : ℕ → ℝ) (hh : ∀ i < n, 0 < h i) (hp : ∀ i < n, 0 < p i)
    (j : ℕ) (hj : j < n + 1) : 0 < nodeMass n h p j := by
  unfold nodeMass
  by_cases a : 0 < j
  · have h1 := mul_pos (hp (j - 1) (by omega)) (hh (j - 1) (by omega))
    rw [if_pos a]
    by_cases b : j < n
    · have h2 := mul_pos (hp j b) (hh j b)
      rw [if_pos b]; linarith
    · rw [if_neg b]; linarith
  · have b : j < n := by omega
    have h2 := mul_pos (hp j b) (hh j b)
    rw [if_neg a, if_pos b]; linarith

/-- The system of the free nodes is not singular. -/
theorem free_isUnit (n : ℕ) (hn : 0 < n) (h s p : ℕ → ℝ) (hh : ∀ i < n, 0 < h i) (hp : ∀ i < n, 0 < p i)
    (w : ℝ) (hw : 0 < w) (c : ℂ) (hc : 0 ≤ c.im) (fixed : Fin (n + 1) → Option ℂ) :
    IsUnit ((system n h s p w c).submatrix (fun i : {i // fixed i = none} => i.1)
      (fun i : {i // fixed i = none} => i.1)).det := by
  rw [isUnit_iff_ne_zero]
  intro hdet
  obtain ⟨v, hv, hv0⟩ := Matrix.exists_mulVec_eq_zero_iff.mpr hdet
  set u : Fin (n + 1) → ℂ := fun j => if hj : fixed j = none then v ⟨j, hj⟩ else 0 with hu
  have hrow : ∀ j : {i // fixed i = none}, (system n h s p w c *ᵥ u) j.1 = 0 := by
    intro j
    refine Eq.trans ?_ (congrFun hv0 j)
    simp only [Matrix.mulVec, dotProduct, Matrix.submatrix_apply]
    have : ∀ l : Fin (n + 1), system n h s p w c j.1 l * u l =
        if hl : fixed l = none then system n h s p w c j.1 l * v ⟨l, hl⟩ else 0 := by
      intro l
      simp only [hu]
      split <;> simp
    simp only [this]
    rw [Finset.sum_dite]
    simp only [Finset.sum_const_zero, add_zero]
    rw [Finset.univ_eq_attach]
    refine Finset.sum_bij (fun x _ => ⟨x.1, (Finset.mem_filter.mp x.2).2⟩) (by simp) ?_ ?_ ?_
    · intro a _ b _ hab
      simp only [Subtype.mk.injEq] at hab
      exact Subtype.ext hab
    · intro b _
      exact ⟨⟨b.1, by simpa using b.2⟩, by simp, rfl⟩
    · intro a _; rfl
  have hen := energy n h s p w c u
  have h0 : star u ⬝ᵥ (system n h s p w c *ᵥ u) = 0 := by
    simp only [dotProduct, Pi.star_apply]
    refine Finset.sum_eq_zero fun j _ => ?_
    by_cases hj : fixed j = none
    · rw [hrow ⟨j, hj⟩, mul_zero]
    · simp [hu, hj]
  rw [h0] at hen
  simp only [Complex.zero_im] at hen
  have hnn : ∀ j : Fin (n + 1), 0 ≤ (w * nodeMass n h p j + if j.1 = 0 then c.im else 0) * normSq (u j) := by
    intro j
    have h1 := nodeMass_pos n hn h p hh hp j.1 j.2
    refine mul_nonneg ?_ (normSq_nonneg _)
    have h2 := mul_pos hw h1
    split <;> linarith
  have hz := (Finset.sum_eq_zero_iff_of_nonneg fun j _ => hnn j).mp hen.symm
  refine hv (funext fun j => ?_)
  have hj := hz j.1 (by simp)
  have h1 := nodeMass_pos n hn h p hh hp j.1.1 j.1.2
  have h2 := mul_pos hw h1
  have h3 : (w * nodeMass n h p j.1 + if j.1.1 = 0 then c.im else 0) ≠ 0 := by
    split <;> linarith
  have h4 : normSq (u j.1) = 0 := by
    rcases mul_eq_zero.mp hj with h | h
    · exact absurd h h3
    · exact h
  rw [Complex.normSq_eq_zero] at h4
  simpa [hu, j.2] using h4

/-- The result has the fixed values and satisfies the rows of the free nodes. -/
theorem solution_spec {n : ℕ} (A : Matrix (Fin (n + 1)) (Fin (n + 1)) ℂ) (fixed : Fin (n + 1) → Option ℂ)
    (q : Fin (n + 1) → ℂ) (hu : IsUnit (A.submatrix (fun i : {i // fixed i = none} => i.1)
      (fun i : {i // fixed i = none} => i.1)).det) :
    (∀ j v, fixed j = some v → solution A fixed q j = v) ∧
    (∀ j, fixed j = none → (A *ᵥ solution A fixed q) j = q j) := by
  constructor
  · intro j v hj
    unfold solution
    split
    · rename_i v' hv'
      rw [hj] at hv'
      exact (Option.some.inj hv').symm
    · rename_i hn
      rw [hj] at hn
      cases hn
  · intro j hj
    set S := A.submatrix (fun i : {i // fixed i = none} => i.1) (fun i : {i // fixed i = none} => i.1) with hS
    set b : {i // fixed i = none} → ℂ := fun i => q i.1 - (A *ᵥ fun l => (fixed l).getD 0) i.1 with hb
    have hsol : solution A fixed q = (fun l => (fixed l).getD 0) +
        fun l => if hl : fixed l = none then (S⁻¹ *ᵥ b) ⟨l, hl⟩ else 0 := by
      funext l
      simp only [Pi.add_apply]
      unfold solution
      split
      · rename_i v hv
        simp [hv]
      · rename_i hn
        simp only [hn, Option.getD_none, zero_add, dite_true]
        rfl
    have hx : (A *ᵥ fun l => if hl : fixed l = none then (S⁻¹ *ᵥ b) ⟨l, hl⟩ else 0) j =
        (S *ᵥ (S⁻¹ *ᵥ b)) ⟨j, hj⟩ := by
      simp only [Matrix.mulVec, dotProduct, hS, Matrix.submatrix_apply]
      simp only [mul_dite, mul_zero]
      rw [Finset.sum_dite]
      simp only [Finset.sum_const_zero, add_zero]
      rw [Finset.univ_eq_attach]
      refine Finset.sum_bij (fun x _ => ⟨x.1, (Finset.mem_filter.mp x.2).2⟩) (by simp) ?_ ?_ ?_
      · intro a _ b _ hab
        simp only [Subtype.mk.injEq] at hab
        exact Subtype.ext hab
      · intro b _
        exact ⟨⟨b.1, by simpa using b.2⟩, by simp, rfl⟩
      · intro a _; rfl
    rw [hsol, Matrix.mulVec_add, Pi.add_apply, hx, Matrix.mulVec_mulVec, Matrix.mul_nonsing_inv _ hu,
      Matrix.one_mulVec, hb]
    ring

theorem robin_eq (k : Kind) (w μ σ : ℝ) (hw : 0 < w) (hμ : 0 < μ) (hσ : 0 < σ) :
    k.robin w μ σ = (1 + I) * (invSkin w μ σ : ℂ) * (match k with | .e => (1 / μ : ℂ) | .h => (1 / σ : ℂ)) := by
  have h2 : (-I * w * μ * σ : ℂ) ^ (1 / 2 : ℂ) = (1 - I) * (invSkin w μ σ : ℂ) := by
    unfold invSkin
    have hx : 0 < Real.sqrt (w * μ * σ / 2) := Real.sqrt_pos.2 (by positivity)
    set x := Real.sqrt (w * μ * σ / 2) with hxdef
    have hsq : x ^ 2 = w * μ * σ / 2 := Real.sq_sqrt (by positivity)
    have e : (-I * w * μ * σ : ℂ) = ((1 - I) * (x : ℂ)) ^ 2 := by
      have : ((x : ℂ)) ^ 2 = (w * μ * σ / 2 : ℝ) := by rw [← hsq]; push_cast; ring
      rw [mul_pow, this]
      have h2 : (1 - I) ^ 2 = -(2 * I) := by ring_nf; rw [I_sq]; ring
      rw [h2]; push_cast; ring
    have hre : 0 < ((1 - I) * (x : ℂ)).re := by simpa using hx
    have harg := Complex.abs_arg_lt_pi_div_two_iff.2 (Or.inl hre)
    rw [abs_lt] at harg
    rw [e]
    have := Complex.pow_cpow_nat_inv (x := (1 - I) * (x : ℂ)) (n := 2) (by norm_num)
      (by push_cast; linarith [harg.1]) (by push_cast; linarith [harg.2])
    simpa using this
  have h3 : I * ((1 - I) * (invSkin w μ σ : ℂ)) = (1 + I) * (invSkin w μ σ : ℂ) := by
    linear_combination (-(invSkin w μ σ : ℂ)) * I_sq
  unfold Kind.robin
  rw [h2, h3]
  cases k <;> simp only [div_eq_mul_inv, one_mul]

theorem robin_im (k : Kind) (w μ σ : ℝ) (hw : 0 < w) (hμ : 0 < μ) (hσ : 0 < σ) :
    0 < (k.robin w μ σ).im ∧ 0 < (k.robin w μ σ).re := by
  have hx : 0 < invSkin w μ σ := Real.sqrt_pos.2 (by positivity)
  rw [robin_eq k w μ σ hw hμ hσ]
  cases k
  · have : ((1 + I) * (invSkin w μ σ : ℂ) * (1 / μ : ℂ)) = (1 + I) * ((invSkin w μ σ / μ : ℝ) : ℂ) := by
      push_cast; ring
    simp only [this, Complex.im_mul_ofReal, Complex.re_mul_ofReal]
    constructor <;> simp <;> positivity
  · have : ((1 + I) * (invSkin w μ σ : ℂ) * (1 / σ : ℂ)) = (1 + I) * ((invSkin w μ σ / σ : ℝ) : ℂ) := by
      push_cast; ring
    simp only [this, Complex.im_mul_ofReal, Complex.re_mul_ofReal]
    constructor <;> simp <;> positivity

/-- Rows of the free nodes and fixed values are the discrete field. -/
theorem discrete_iff (n : ℕ) (hn : 0 < n) (h s p : ℕ → ℝ) (hh : ∀ i < n, h i ≠ 0) (w : ℝ) (c b qt : ℂ)
    (tD bD : Bool) (u : Fin (n + 1) → ℂ) (fixed : Fin (n + 1) → Option ℂ)
    (q : Fin (n + 1) → ℂ)
    (hf : fixed = fun j => if j.1 = n ∧ tD = true then some 1 else if j.1 = 0 ∧ bD = true then some b else none)
    (hq : q = fun j => if j.1 = n ∧ tD = false then qt else 0) :
    ((∀ j v, fixed j = some v → u j = v) ∧ (∀ j, fixed j = none → (system n h s p w c *ᵥ u) j = q j)) ↔
      IsDiscrete n h s p w (if tD then none else some qt) (if bD then .inl b else .inr c) (ext u) := by
  have e : ∀ j (hj : j < n + 1), ext u j = u ⟨j, hj⟩ := fun j hj => by unfold ext; rw [dif_pos hj]
  have row0 : (system n h s p w c *ᵥ u) ⟨0, by omega⟩ = - flux h s (ext u) 0 +
      (I * w * ((p 0 * h 0 / 2 : ℝ) : ℂ) + c) * ext u 0 := by
    rw [system_row n h s p hh, e 0 (by omega)]
    simp [nodeMass, hn]
  have rown : (system n h s p w c *ᵥ u) ⟨n, by omega⟩ = flux h s (ext u) (n - 1) +
      I * w * ((p (n - 1) * h (n - 1) / 2 : ℝ) : ℂ) * ext u n := by
    rw [system_row n h s p hh, e n (by omega)]
    have : n ≠ 0 := by omega
    simp [nodeMass, hn, this]
  have rowj : ∀ j (_ : 0 < j) (h2 : j < n), (system n h s p w c *ᵥ u) ⟨j, by omega⟩ = flux h s (ext u) (j - 1) -
      flux h s (ext u) j + I * w * ((p (j - 1) * h (j - 1) / 2 + p j * h j / 2 : ℝ) : ℂ) * ext u j := by
    intro j h1 h2
    rw [system_row n h s p hh, e j (by omega)]
    have : j ≠ 0 := by omega
    simp [nodeMass, h1, h2, this]
  have f0 : fixed ⟨0, by omega⟩ = if bD = true then some b else none := by
    rw [hf]
    have : ¬ 0 = n := by omega
    simp [this]
  have fn : fixed ⟨n, by omega⟩ = if tD = true then some 1 else none := by
    rw [hf]
    have : ¬ n = 0 := by omega
    simp [this]
  have fj : ∀ j (_ : 0 < j) (h2 : j < n), fixed ⟨j, by omega⟩ = none := by
    intro j h1 h2
    rw [hf]
    have a : ¬ j = 0 := by omega
    have b : ¬ j = n := by omega
    simp [a, b]
  have q0 : q ⟨0, by omega⟩ = 0 := by
    rw [hq]
    have : ¬ 0 = n := by omega
    simp [this]
  have qn : tD = false → q ⟨n, by omega⟩ = qt := by
    intro ht
    rw [hq]
    simp [ht]
  have qj : ∀ j (_ : 0 < j) (h2 : j < n), q ⟨j, by omega⟩ = 0 := by
    intro j h1 h2
    rw [hq]
    have b : ¬ j = n := by omega
    simp [b]
  constructor
  · rintro ⟨h1, h2⟩
    refine ⟨?_, ?_, ?_⟩
    · intro j a1 a2
      have := h2 ⟨j, by omega⟩ (fj j a1 a2)
      rw [rowj j a1 a2, qj j a1 a2] at this
      unfold Balanced
      linear_combination -this
    · cases ht : tD
      · have := h2 ⟨n, by omega⟩ (by rw [fn, ht]; simp)
        rw [rown, qn ht] at this
        simpa using this
      · have := h1 ⟨n, by omega⟩ 1 (by rw [fn, ht]; simp)
        simp only [if_true]
        rw [e n (by omega)]
        exact this
    · cases hb : bD
      · have := h2 ⟨0, by omega⟩ (by rw [f0, hb]; simp)
        rw [row0, q0] at this
        simp only [Bool.false_eq_true, if_false]
        linear_combination -this
      · have := h1 ⟨0, by omega⟩ b (by rw [f0, hb]; simp)
        simp only [if_true]
        rw [e 0 (by omega)]
        exact this
  · rintro ⟨h1, h2, h3⟩
    constructor
    · intro j v hj
      rcases Nat.eq_zero_or_pos j.1 with a | a
      · have hj0 : j = ⟨0, by omega⟩ := Fin.ext a
        rw [hj0, f0] at hj
        cases hb : bD
        · rw [hb] at hj; simp at hj
        · rw [hb] at hj h3
          simp only [if_true, Option.some.injEq] at hj h3
          rw [hj0, ← e 0 (by omega), h3, hj]
      · rcases Nat.lt_or_ge j.1 n with a2 | a2
        · have := fj j.1 a a2
          rw [show (⟨j.1, by omega⟩ : Fin (n + 1)) = j from rfl, hj] at this
          cases this
        · have hjn : j = ⟨n, by omega⟩ := Fin.ext (by have := j.2; simp only; omega)
          rw [hjn, fn] at hj
          cases ht : tD
          · rw [ht] at hj; simp at hj
          · rw [ht] at hj h2
            simp only [if_true, Option.some.injEq] at hj h2
            rw [hjn, ← e n (by omega), h2, hj]
    · intro j hj
      rcases Nat.eq_zero_or_pos j.1 with a | a
      · have hj0 : j = ⟨0, by omega⟩ := Fin.ext a
        rw [hj0, f0] at hj
        cases hb : bD
        · rw [hb] at h3
          simp only [Bool.false_eq_true, if_false] at h3
          rw [hj0, row0, q0]
          linear_combination -h3
        · rw [hb] at hj; simp at hj
      · rcases Nat.lt_or_ge j.1 n with a2 | a2
        · have := h1 j.1 a a2
          have hr := rowj j.1 a a2
          rw [show (⟨j.1, by omega⟩ : Fin (n + 1)) = j from rfl] at hr
          have hqj := qj j.1 a a2
          rw [show (⟨j.1, by omega⟩ : Fin (n + 1)) = j from rfl] at hqj
          rw [hr, hqj]
          unfold Balanced at this
          linear_combination -this
        · have hjn : j = ⟨n, by omega⟩ := Fin.ext (by have := j.2; simp only; omega)
          rw [hjn, fn] at hj
          cases ht : tD
          · rw [ht] at h2
            simp only [Bool.false_eq_true, if_false] at h2
            rw [hjn, rown, qn ht]
            exact h2
          · rw [ht] at hj; simp at hj

/-- The rows of the free nodes have one solution. -/
theorem solution_unique {n : ℕ} (A : Matrix (Fin (n + 1)) (Fin (n + 1)) ℂ) (fixed : Fin (n + 1) → Option ℂ)
    (q : Fin (n + 1) → ℂ) (hu : IsUnit (A.submatrix (fun i : {i // fixed i = none} => i.1)
      (fun i : {i // fixed i = none} => i.1)).det) (u v : Fin (n + 1) → ℂ)
    (hu1 : ∀ j x, fixed j = some x → u j = x) (hu2 : ∀ j, fixed j = none → (A *ᵥ u) j = q j)
    (hv1 : ∀ j x, fixed j = some x → v j = x) (hv2 : ∀ j, fixed j = none → (A *ᵥ v) j = q j) : u = v := by
  set d : {i // fixed i = none} → ℂ := fun j => u j.1 - v j.1 with hd
  have hS : (A.submatrix (fun i : {i // fixed i = none} => i.1) (fun i : {i // fixed i = none} => i.1)) *ᵥ d = 0 := by
    funext j
    have h1 : (A *ᵥ (u - v)) j.1 = 0 := by
      rw [Matrix.mulVec_sub, Pi.sub_apply, hu2 j.1 j.2, hv2 j.1 j.2, sub_self]
    refine Eq.trans ?_ h1
    simp only [Matrix.mulVec, dotProduct, Matrix.submatrix_apply]
    have : ∀ l : Fin (n + 1), A j.1 l * (u - v) l = if hl : fixed l = none then A j.1 l * d ⟨l, hl⟩ else 0 := by
      intro l
      by_cases hl : fixed l = none
      · rw [dif_pos hl]; rfl
      · rw [dif_neg hl]
        obtain ⟨x, hx⟩ := Option.ne_none_iff_exists'.mp hl
        rw [Pi.sub_apply, hu1 l x hx, hv1 l x hx, sub_self, mul_zero]
    simp only [this]
    rw [Finset.sum_dite]
    simp only [Finset.sum_const_zero, add_zero]
    rw [Finset.univ_eq_attach]
    refine (Finset.sum_bij (fun x _ => ⟨x.1, (Finset.mem_filter.mp x.2).2⟩) (by simp) ?_ ?_ ?_).symm
    · intro a _ b _ hab
      simp only [Subtype.mk.injEq] at hab
      exact Subtype.ext hab
    · intro b _
      exact ⟨⟨b.1, by simpa using b.2⟩, by simp, rfl⟩
    · intro a _; rfl
  have hd0 : d = 0 := by
    by_contra hne
    have := Matrix.exists_mulVec_eq_zero_iff.mp ⟨d, hne, hS⟩
    exact hu.ne_zero this
  funext j
  by_cases hj : fixed j = none
  · have := congrFun hd0 ⟨j, hj⟩
    simp only [hd, Pi.zero_apply] at this
    exact sub_eq_zero.mp this
  · obtain ⟨x, hx⟩ := Option.ne_none_iff_exists'.mp hj
    rw [hu1 j x hx, hv1 j x hx]

theorem discrete_congr {n : ℕ} (hn : 0 < n) {h s p : ℕ → ℝ} {w : ℝ} {top : Option ℂ} {bot : ℂ ⊕ ℂ} {x y : ℕ → ℂ}
    (hxy : ∀ j ≤ n, x j = y j) (hx : IsDiscrete n h s p w top bot x) : IsDiscrete n h s p w top bot y := by
  have hf : ∀ i < n, flux h s y i = flux h s x i := by
    intro i hi
    unfold flux
    rw [hxy i (by omega), hxy (i + 1) (by omega)]
  obtain ⟨h1, h2, h3⟩ := hx
  refine ⟨?_, ?_, ?_⟩
  · intro j a b
    have := h1 j a b
    unfold Balanced at this ⊢
    rw [hf j b, hf (j - 1) (by omega), ← hxy j (by omega)]
    exact this
  · cases top
    · simp only at h2 ⊢
      rw [← hxy n le_rfl]; exact h2
    · simp only at h2 ⊢
      rw [hf (n - 1) (by omega), ← hxy n le_rfl]; exact h2
  · cases bot
    · simp only at h3 ⊢
      rw [← hxy 0 (by omega)]; exact h3
    · simp only at h3 ⊢
      rw [hf 0 hn, ← hxy 0 (by omega)]; exact h3

/-- Valid names of conditions. -/
def ValidTop (s : String) : Prop := s = "dirichlet" ∨ s = "neumann"
def ValidBot (s : String) : Prop := s = "dirichlet" ∨ s = "robin"

theorem padEdge_pos {P N : ℕ} {x : ℕ → ℝ} (hx : ∀ i < N, 0 < x i) (hN : 0 < N) :
    ∀ i < P + N, 0 < padEdge P x i := by
  intro i hi
  exact hx _ (by omega)

/-- **The field of the functions** is, on the mesh extended at the bottom by `n_pad` cells that repeat the last
one, the only one with the balance at all inner nodes and the conditions at the top and the bottom: the system is
never singular, whatever the widths, the conductivities, the frequency and the conditions; the field is returned
on the nodes of the mesh. -/
theorem C158_field (k : Kind) (μ freq : ℝ) (hμ : 0 < μ) (hfr : 0 < freq) (N : ℕ) (hN : 0 < N) (h σ : ℕ → ℝ)
    (hh : ∀ i < N, 0 < h i) (hσ : ∀ i < N, 0 < σ i) (top_bc bot_bc : String) (ht : ValidTop top_bc)
    (hb : ValidBot bot_bc) (P : ℕ) (bottom : ℂ) :
    ∃ u x, primary k μ freq N h N σ top_bc bot_bc P bottom = .ok u ∧ (∀ j ≤ N, u j = x (P + j)) ∧
      IsDiscrete (P + N) (padEdge P h) (k.stiff μ (padEdge P σ)) (k.mass μ (padEdge P σ)) (2 * Real.pi * freq)
        (topOf k (2 * Real.pi * freq) top_bc) (botOf k (2 * Real.pi * freq) μ (σ 0) bot_bc bottom) x ∧
      ∀ y, IsDiscrete (P + N) (padEdge P h) (k.stiff μ (padEdge P σ)) (k.mass μ (padEdge P σ)) (2 * Real.pi * freq)
        (topOf k (2 * Real.pi * freq) top_bc) (botOf k (2 * Real.pi * freq) μ (σ 0) bot_bc bottom) y →
        ∀ j ≤ P + N, y j = x j := by
  set w := 2 * Real.pi * freq with hw
  have hw0 : 0 < w := by have := Real.pi_pos; positivity
  set n := P + N with hn
  have hn0 : 0 < n := by omega
  have hσ0 : padEdge P σ 0 = σ 0 := by simp [padEdge]
  have hhx := padEdge_pos (P := P) hh hN
  have hσx := padEdge_pos (P := P) hσ hN
  have hmass : ∀ i < n, 0 < k.mass μ (padEdge P σ) i := by
    intro i hi
    cases k
    · exact hσx i hi
    · exact hμ
  set c := if bot_bc = "robin" then k.robin w μ (padEdge P σ 0) else 0 with hc
  have hcim : 0 ≤ c.im := by
    rw [hc]
    split
    · rw [hσ0]; exact (robin_im k w μ (σ 0) hw0 hμ (hσ 0 hN)).1.le
    · simp
  set A := system n (padEdge P h) (k.stiff μ (padEdge P σ)) (k.mass μ (padEdge P σ)) w c with hA
  set fixed : Fin (n + 1) → Option ℂ := fun j =>
    if j.1 = n ∧ top_bc = "dirichlet" then some 1
    else if j.1 = 0 ∧ bot_bc = "dirichlet" then some bottom else none with hfixed
  set q : Fin (n + 1) → ℂ := fun j => if j.1 = n ∧ top_bc = "neumann" then k.neumann w else 0 with hq
  have hunit := free_isUnit n hn0 (padEdge P h) (k.stiff μ (padEdge P σ)) (k.mass μ (padEdge P σ)) hhx hmass w hw0 c
    hcim fixed
  have hspec := solution_spec A fixed q hunit
  have hiff := fun v => discrete_iff n hn0 (padEdge P h) (k.stiff μ (padEdge P σ)) (k.mass μ (padEdge P σ))
    (fun i hi => (hhx i hi).ne') w c bottom (k.neumann w) (decide (top_bc = "dirichlet"))
    (decide (bot_bc = "dirichlet")) v fixed q (by rw [hfixed]; funext j; simp)
    (by
      rw [hq]; funext j
      rcases ht with ht | ht <;> simp [ht])
  have htop : (if decide (top_bc = "dirichlet") = true then none else some (k.neumann w)) = topOf k w top_bc := by
    unfold topOf
    rcases ht with ht | ht <;> simp [ht, Kind.neumann]
  have hbot : (if decide (bot_bc = "dirichlet") = true then (Sum.inl bottom : ℂ ⊕ ℂ) else .inr c) =
      botOf k w μ (σ 0) bot_bc bottom := by
    unfold botOf
    rcases hb with hb | hb
    · simp [hb]
    · have : c = k.robin w μ (σ 0) := by rw [hc, hσ0]; simp [hb]
      rw [this, robin_eq k w μ (σ 0) hw0 hμ (hσ 0 hN)]
      simp [hb]
  rw [htop, hbot] at hiff
  refine ⟨fun j => if hj : P + j < n + 1 then solution A fixed q ⟨P + j, hj⟩ else 0, ext (solution A fixed q), ?_, ?_,
    (hiff _).mp hspec, ?_⟩
  · unfold primary
    have a1 : ¬ (bot_bc ≠ "dirichlet" ∧ bot_bc ≠ "robin") := by
      rintro ⟨x, y⟩; rcases hb with hb | hb
      · exact x hb
      · exact y hb
    have a2 : ¬ (top_bc ≠ "dirichlet" ∧ top_bc ≠ "neumann") := by
      rintro ⟨x, y⟩; rcases ht with hb | hb
      · exact x hb
      · exact y hb
    rw [if_neg (by simp), if_neg a1, if_neg a2]
  · intro j hj
    unfold ext
    rfl
  · intro y hy j hj
    have e : ∀ j (hj : j < n + 1), ext (fun i : Fin (n + 1) => y i.1) j = y j := fun j hj => by
      unfold ext; rw [dif_pos hj]
    have hy' := (hiff (fun i => y i.1)).mpr (discrete_congr hn0 (fun j hj => (e j (by omega)).symm) hy)
    have := solution_unique A fixed q hunit _ _ hy'.1 hy'.2 hspec.1 hspec.2
    rw [← this, e j (by omega)]

/-- On the mesh itself: the balance at all of its inner nodes, with its own widths and conductivities, and the
condition at the top. -/
theorem C158_equation (k : Kind) (μ freq : ℝ) (hμ : 0 < μ) (hfr : 0 < freq) (N : ℕ) (hN : 0 < N) (h σ : ℕ → ℝ)
    (hh : ∀ i < N, 0 < h i) (hσ : ∀ i < N, 0 < σ i) (top_bc bot_bc : String) (ht : ValidTop top_bc)
    (hb : ValidBot bot_bc) (P : ℕ) (bottom : ℂ) :
    ∃ u, primary k μ freq N h N σ top_bc bot_bc P bottom = .ok u ∧
      (∀ j, 0 < j → j < N → Balanced h (k.stiff μ σ) (k.mass μ σ) (2 * Real.pi * freq) u j) ∧
      (top_bc = "dirichlet" → u N = 1) ∧
      (top_bc = "neumann" → flux h (k.stiff μ σ) u (N - 1) +
        I * (2 * Real.pi * freq : ℝ) * ((k.mass μ σ (N - 1) * h (N - 1) / 2 : ℝ) : ℂ) * u N =
          match k with | .e => -I * (2 * Real.pi * freq : ℝ) | .h => 1) := by
  obtain ⟨u, x, h1, h2, ⟨h3, h4, h5⟩, -⟩ := C158_field k μ freq hμ hfr N hN h σ hh hσ top_bc bot_bc ht hb P bottom
  have pe : ∀ (z : ℕ → ℝ) j, padEdge P z (P + j) = z j := fun z j => by simp [padEdge]
  have ps : ∀ j, k.stiff μ (padEdge P σ) (P + j) = k.stiff μ σ j := fun j => by
    cases k <;> simp [Kind.stiff, pe]
  have pm : ∀ j, k.mass μ (padEdge P σ) (P + j) = k.mass μ σ j := fun j => by
    cases k <;> simp [Kind.mass, pe]
  have pf : ∀ j < N, flux (padEdge P h) (k.stiff μ (padEdge P σ)) x (P + j) = flux h (k.stiff μ σ) u j := by
    intro j hj
    unfold flux
    rw [ps, pe, h2 j (by omega), h2 (j + 1) (by omega)]
    rfl
  refine ⟨u, h1, ?_, ?_, ?_⟩
  · intro j a b
    have := h3 (P + j) (by omega) (by omega)
    unfold Balanced at this ⊢
    rw [show P + j - 1 = P + (j - 1) by omega, pf j b, pf (j - 1) (by omega), pm, pm, pe, pe, ← h2 j (by omega)] at this
    exact this
  · intro hd
    simp only [topOf, hd, if_true] at h4
    rw [h2 N le_rfl]; exact h4
  · intro hd
    simp only [topOf, hd] at h4
    rw [if_neg (by decide)] at h4
    simp only at h4
    rw [show P + N - 1 = P + (N - 1) by omega, pf (N - 1) (by omega), pm, pe, ← h2 N le_rfl] at h4
    exact h4

/-- The step of the amplitude. -/
theorem step_norm {a b m w : ℝ} (ha : 0 < a) (hb : 0 < b) (x y z : ℂ) (hxy : ‖x‖ < ‖y‖)
    (he : (b : ℂ) * (z - y) - a * (y - x) = I * w * (m : ℂ) * y) : ‖y‖ < ‖z‖ := by
  have h1 : (b : ℂ) * z = ((b + a : ℝ) + I * ((w * m : ℝ) : ℂ)) * y - a * x := by
    push_cast; linear_combination he
  have h2 : (b + a) * ‖y‖ ≤ ‖((b + a : ℝ) + I * ((w * m : ℝ) : ℂ)) * y‖ := by
    rw [norm_mul]
    refine mul_le_mul_of_nonneg_right ?_ (norm_nonneg _)
    refine le_trans ?_ (Complex.re_le_norm _)
    simp
  have h3 : ‖((b + a : ℝ) + I * ((w * m : ℝ) : ℂ)) * y‖ - ‖(a : ℂ) * x‖ ≤ ‖(b : ℂ) * z‖ := by
    rw [h1]; exact norm_sub_norm_le _ _
  rw [norm_mul (b : ℂ), norm_mul (a : ℂ), Complex.norm_real, Complex.norm_real, Real.norm_of_nonneg ha.le,
    Real.norm_of_nonneg hb.le] at h3
  have h4 : a * ‖x‖ < a * ‖y‖ := by gcongr
  have h5 : b * ‖y‖ < b * ‖z‖ := by nlinarith
  exact lt_of_mul_lt_mul_left h5 hb.le

/-- The same for each of the functions: the electric field diffuses with the permeability inverted and the
conductivities, the magnetic field with the resistivities and the permeability. -/
theorem C158_electric (μ freq : ℝ) (hμ : 0 < μ) (hfr : 0 < freq) (N : ℕ) (hN : 0 < N) (h σ : ℕ → ℝ)
    (hh : ∀ i < N, 0 < h i) (hσ : ∀ i < N, 0 < σ i) (top_bc bot_bc : String) (ht : ValidTop top_bc)
    (hb : ValidBot bot_bc) (P : ℕ) (bottom : ℂ) :
    ∃ u, primary .e μ freq N h N σ top_bc bot_bc P bottom = .ok u ∧
      (∀ j, 0 < j → j < N → Balanced h (fun _ => 1 / μ) σ (2 * Real.pi * freq) u j) ∧
      (top_bc = "neumann" → flux h (fun _ => 1 / μ) u (N - 1) +
        I * (2 * Real.pi * freq : ℝ) * ((σ (N - 1) * h (N - 1) / 2 : ℝ) : ℂ) * u N = -I * (2 * Real.pi * freq : ℝ)) := by
  obtain ⟨u, h1, h2, -, h3⟩ := C158_equation .e μ freq hμ hfr N hN h σ hh hσ top_bc bot_bc ht hb P bottom
  exact ⟨u, h1, h2, h3⟩

theorem C158_magnetic (μ freq : ℝ) (hμ : 0 < μ) (hfr : 0 < freq) (N : ℕ) (hN : 0 < N) (h σ : ℕ → ℝ)
    (hh : ∀ i < N, 0 < h i) (hσ : ∀ i < N, 0 < σ i) (top_bc bot_bc : String) (ht : ValidTop top_bc)
    (hb : ValidBot bot_bc) (P : ℕ) (bottom : ℂ) :
    ∃ u, primary .h μ freq N h N σ top_bc bot_bc P bottom = .ok u ∧
      (∀ j, 0 < j → j < N → Balanced h (fun i => 1 / σ i) (fun _ => μ) (2 * Real.pi * freq) u j) ∧
      (top_bc = "neumann" → flux h (fun i => 1 / σ i) u (N - 1) +
        I * (2 * Real.pi * freq : ℝ) * ((μ * h (N - 1) / 2 : ℝ) : ℂ) * u N = 1) := by
  obtain ⟨u, h1, h2, -, h3⟩ := C158_equation .h μ freq hμ hfr N hN h σ hh hσ top_bc bot_bc ht hb P bottom
  exact ⟨u, h1, h2, h3⟩

/-- **The amplitude decreases with depth**, strictly, from the top to the bottom of the mesh, when the condition at
the bottom is the Robin one; so with the value 1 at the top no value exceeds 1 and none is zero. -/
theorem C158_amplitude (k : Kind) (μ freq : ℝ) (hμ : 0 < μ) (hfr : 0 < freq) (N : ℕ) (hN : 0 < N) (h σ : ℕ → ℝ)
    (hh : ∀ i < N, 0 < h i) (hσ : ∀ i < N, 0 < σ i) (top_bc : String) (ht : ValidTop top_bc) (P : ℕ) (bottom : ℂ) :
    ∃ u, primary k μ freq N h N σ top_bc "robin" P bottom = .ok u ∧ 0 < ‖u 0‖ ∧
      (∀ j < N, ‖u j‖ < ‖u (j + 1)‖) ∧ (top_bc = "dirichlet" → ∀ j < N, ‖u j‖ < 1) := by
  obtain ⟨u, x, h1, h2, ⟨h3, h4, h5⟩, -⟩ := C158_field k μ freq hμ hfr N hN h σ hh hσ top_bc "robin" ht (Or.inr rfl) P
    bottom
  set w := 2 * Real.pi * freq with hw
  have hw0 : 0 < w := by have := Real.pi_pos; positivity
  have hhx := padEdge_pos (P := P) hh hN
  have hσx := padEdge_pos (P := P) hσ hN
  set n := P + N with hn
  set hp := padEdge P h
  set s := k.stiff μ (padEdge P σ) with hs
  set p := k.mass μ (padEdge P σ)
  have hs0 : ∀ i < n, 0 < s i := by
    intro i hi
    rw [hs]
    have := hσx i hi
    cases k <;> simp only [Kind.stiff] <;> positivity
  have hflux : ∀ i, flux hp s x i = ((s i / hp i : ℝ) : ℂ) * (x (i + 1) - x i) := by
    intro i; unfold flux; push_cast; ring
  have ha : ∀ i < n, 0 < s i / hp i := fun i hi => div_pos (hs0 i hi) (hhx i hi)
  have hbal : ∀ j, 0 < j → j < n → ((s j / hp j : ℝ) : ℂ) * (x (j + 1) - x j) -
      ((s (j - 1) / hp (j - 1) : ℝ) : ℂ) * (x j - x (j - 1)) =
        I * w * ((p (j - 1) * hp (j - 1) / 2 + p j * hp j / 2 : ℝ) : ℂ) * x j := by
    intro j a b
    have := h3 j a b
    unfold Balanced at this
    rw [hflux, hflux, show j - 1 + 1 = j by omega] at this
    exact this
  have hbot := h5
  simp only [botOf] at hbot
  rw [if_neg (by decide)] at hbot
  simp only at hbot
  rw [← robin_eq k w μ (σ 0) hw0 hμ (hσ 0 hN), hflux] at hbot
  have hc := robin_im k w μ (σ 0) hw0 hμ (hσ 0 hN)
  set c := k.robin w μ (σ 0)
  -- the bottom value is not zero
  have hx0 : x 0 ≠ 0 := by
    intro hz
    have hall : ∀ j, j < n → x j = 0 ∧ x (j + 1) = 0 := by
      intro j
      induction j with
      | zero =>
        intro hj
        refine ⟨hz, ?_⟩
        rw [hz] at hbot
        simp only [zero_add, sub_zero, mul_zero, add_zero] at hbot
        exact (mul_eq_zero.mp hbot).resolve_left (by exact_mod_cast (ha 0 hj).ne')
      | succ j ih =>
        intro hj
        obtain ⟨e1, e2⟩ := ih (by omega)
        refine ⟨e2, ?_⟩
        have := hbal (j + 1) (by omega) hj
        simp only [Nat.add_sub_cancel] at this
        rw [e1, e2] at this
        simp only [sub_zero, mul_zero] at this
        exact (mul_eq_zero.mp this).resolve_left (by exact_mod_cast (ha (j + 1) hj).ne')
    have hlast := hall (n - 1) (by omega)
    rw [show n - 1 + 1 = n by omega] at hlast
    unfold topOf at h4
    by_cases hd : top_bc = "dirichlet"
    · rw [if_pos hd] at h4
      simp only at h4
      rw [hlast.2] at h4
      exact zero_ne_one h4
    · rw [if_neg hd] at h4
      simp only at h4
      rw [hflux, show n - 1 + 1 = n by omega, hlast.1, hlast.2] at h4
      simp only [sub_zero, mul_zero, add_zero] at h4
      cases k
      · simp only at h4
        have : (-I * (w : ℂ)) ≠ 0 := mul_ne_zero (neg_ne_zero.mpr I_ne_zero) (by exact_mod_cast hw0.ne')
        exact this h4.symm
      · exact zero_ne_one h4
  have hmono : ∀ j, j < n → ‖x j‖ < ‖x (j + 1)‖ := by
    intro j
    induction j with
    | zero =>
      intro hj
      have e1 : ((s 0 / hp 0 : ℝ) : ℂ) * x 1 =
          (((s 0 / hp 0 : ℝ) : ℂ) + I * ((w * (p 0 * hp 0 / 2) : ℝ) : ℂ) + c) * x 0 := by
        simp only [zero_add] at hbot
        push_cast at hbot ⊢
        linear_combination hbot
      have e2 : (s 0 / hp 0) * ‖x 1‖ =
          ‖((s 0 / hp 0 : ℝ) : ℂ) + I * ((w * (p 0 * hp 0 / 2) : ℝ) : ℂ) + c‖ * ‖x 0‖ := by
        rw [← norm_mul, ← e1, norm_mul, Complex.norm_real, Real.norm_of_nonneg (ha 0 hj).le]
      have e3 : s 0 / hp 0 < ‖((s 0 / hp 0 : ℝ) : ℂ) + I * ((w * (p 0 * hp 0 / 2) : ℝ) : ℂ) + c‖ := by
        refine lt_of_lt_of_le ?_ (Complex.re_le_norm _)
        simp only [Complex.add_re, Complex.ofReal_re, Complex.mul_re, Complex.I_re, Complex.I_im, Complex.ofReal_im]
        linarith [hc.2]
      have e4 : (s 0 / hp 0) * ‖x 0‖ < (s 0 / hp 0) * ‖x 1‖ := by
        rw [e2]
        exact mul_lt_mul_of_pos_right e3 (norm_pos_iff.mpr hx0)
      exact lt_of_mul_lt_mul_left e4 (ha 0 hj).le
    | succ j ih =>
      intro hj
      have := hbal (j + 1) (by omega) hj
      simp only [Nat.add_sub_cancel] at this
      exact step_norm (ha j (by omega)) (ha (j + 1) hj) (x j) (x (j + 1)) (x (j + 1 + 1)) (ih (by omega)) this
  have hpos : ∀ j, j ≤ n → 0 < ‖x j‖ := by
    intro j
    induction j with
    | zero => intro _; exact norm_pos_iff.mpr hx0
    | succ j ih => intro hj; exact lt_trans (ih (by omega)) (hmono j (by omega))
  have humono : ∀ j < N, ‖u j‖ < ‖u (j + 1)‖ := by
    intro j hj
    rw [h2 j (by omega), h2 (j + 1) (by omega)]
    exact hmono (P + j) (by omega)
  refine ⟨u, h1, ?_, humono, ?_⟩
  · rw [h2 0 (by omega)]; exact hpos _ (by omega)
  · intro hd
    have huN : ‖u N‖ = 1 := by
      simp only [topOf, hd, if_true] at h4
      rw [h2 N le_rfl, h4, norm_one]
    have hle : ∀ d j, j + d + 1 = N → ‖u j‖ < 1 := by
      intro d
      induction d with
      | zero =>
        intro j hj
        have := humono j (by omega)
        rw [show j + 1 = N by omega, huN] at this
        exact this
      | succ d ih =>
        intro j hj
        exact lt_trans (humono j (by omega)) (ih (j + 1) (by omega))
    intro j hj
    exact hle (N - j - 1) j (by omega)

/-- Arguments are checked: lengths, then the bottom, then the top. -/
theorem C158_refused (k : Kind) (μ freq : ℝ) (N M : ℕ) (h σ : ℕ → ℝ) (top_bc bot_bc : String) (P : ℕ) (bottom : ℂ)
    (hbad : N ≠ M ∨ ¬ ValidTop top_bc ∨ ¬ ValidBot bot_bc) :
    primary k μ freq N h M σ top_bc bot_bc P bottom = .error .valueError := by
  unfold primary
  by_cases h1 : N ≠ M
  · rw [if_pos h1]
  · rw [if_neg h1]
    by_cases h2 : bot_bc ≠ "dirichlet" ∧ bot_bc ≠ "robin"
    · rw [if_pos h2]
    · rw [if_neg h2]
      by_cases h3 : top_bc ≠ "dirichlet" ∧ top_bc ≠ "neumann"
      · rw [if_pos h3]
      · exfalso
        rcases hbad with h | h | h
        · exact h1 h
        · exact h3 ⟨fun e => h (Or.inl e), fun e => h (Or.inr e)⟩
        · exact h2 ⟨fun e => h (Or.inl e), fun e => h (Or.inr e)⟩

/-- **A half-space and the Dirichlet condition at the bottom.** On a mesh of one dimension the analytic field is
taken at the bottom of the mesh, `exp (-(1 + i) h / δ)` relative to the top, but is put at the bottom of the
extended mesh: with one cell and one padding cell, `π` skin depths thick, the field at the bottom of the mesh is
not the one that was asked for. -/
theorem C158_violated_dirichlet (μ freq h σ : ℝ) (hμ : 0 < μ) (hfr : 0 < freq) (hh : 0 < h) (hσ : 0 < σ)
    (hskin : invSkin (2 * Real.pi * freq) μ σ * h = Real.pi) :
    ∃ u, primary .e μ freq 1 (fun _ => h) 1 (fun _ => σ) "dirichlet" "dirichlet" 1
        (exp (-((1 + I) * (invSkin (2 * Real.pi * freq) μ σ : ℂ) * h))) = .ok u ∧
      u 0 ≠ exp (-((1 + I) * (invSkin (2 * Real.pi * freq) μ σ : ℂ) * h)) := by
  obtain ⟨u, x, h1, h2, ⟨h3, h4, h5⟩, -⟩ := C158_field .e μ freq hμ hfr 1 one_pos (fun _ => h) (fun _ => σ)
    (fun _ _ => hh) (fun _ _ => hσ) "dirichlet" "dirichlet" (Or.inl rfl) (Or.inl rfl) 1
    (exp (-((1 + I) * (invSkin (2 * Real.pi * freq) μ σ : ℂ) * h)))
  refine ⟨u, h1, ?_⟩
  set w := 2 * Real.pi * freq with hw
  have hw0 : 0 < w := by have := Real.pi_pos; positivity
  have hE : exp (-((1 + I) * (invSkin w μ σ : ℂ) * h)) = -(Real.exp (-Real.pi) : ℂ) := by
    have : -((1 + I) * (invSkin w μ σ : ℂ) * h) = ((-Real.pi : ℝ) : ℂ) - Real.pi * I := by
      rw [mul_assoc, ← Complex.ofReal_mul, hskin]; push_cast; ring
    rw [this, Complex.exp_sub, Complex.exp_pi_mul_I, ← Complex.ofReal_exp]
    ring
  rw [hE] at h5 ⊢
  simp only [topOf, if_true] at h4
  simp only [botOf, if_true] at h5
  have hb := h3 1 one_pos (by norm_num)
  unfold Balanced flux at hb
  simp only [Kind.stiff, Kind.mass, padEdge, Nat.sub_self] at hb
  rw [show (1 + 1 : ℕ) = 1 + 1 from rfl] at h4
  intro hu
  have e0 : x 1 = -(Real.exp (-Real.pi) : ℂ) := by
    have := h2 0 (by omega)
    rw [hu] at this
    simpa using this.symm
  rw [show (0 + 1 : ℕ) = 1 from rfl, h5, e0, h4] at hb
  have hre := congrArg Complex.im hb
  have hre2 := congrArg Complex.re hb
  have hpos := Real.exp_pos (-Real.pi)
  have e1 : (I * (w : ℂ) * ((σ * h / 2 + σ * h / 2 : ℝ) : ℂ) * (-(Real.exp (-Real.pi) : ℂ))) =
      ((-(w * (σ * h / 2 + σ * h / 2) * Real.exp (-Real.pi)) : ℝ) : ℂ) * I := by push_cast; ring
  have e2 : (((1 / μ : ℝ) : ℂ) * ((1 - -(Real.exp (-Real.pi) : ℂ)) / h) -
      ((1 / μ : ℝ) : ℂ) * ((-(Real.exp (-Real.pi) : ℂ) - -(Real.exp (-Real.pi) : ℂ)) / h)) =
      ((1 / μ * ((1 + Real.exp (-Real.pi)) / h) : ℝ) : ℂ) := by push_cast; ring
  rw [e1, e2] at hre
  simp only [Complex.ofReal_im, Complex.mul_im, Complex.ofReal_re, Complex.I_re, Complex.I_im] at hre
  have hne : w * (σ * h / 2 + σ * h / 2) * Real.exp (-Real.pi) > 0 := by positivity
  linarith

/-- A case with that thickness. -/
example : ∃ μ freq h σ : ℝ, 0 < μ ∧ 0 < freq ∧ 0 < h ∧ 0 < σ ∧ invSkin (2 * Real.pi * freq) μ σ * h = Real.pi := by
  have hp := Real.pi_pos
  refine ⟨1, 1 / Real.pi, Real.pi, 1, one_pos, by positivity, hp, one_pos, ?_⟩
  unfold invSkin
  rw [show 2 * Real.pi * (1 / Real.pi) * 1 * 1 / 2 = 1 by field_simp, Real.sqrt_one, one_mul]

/-- Two layers, three cells and two of padding. -/
example : ∃ u, primary .h 1 1 3 (fun i => i + 1) 3 (fun i => if i = 0 then 1 else 2) "neumann" "robin" 2 0 = .ok u ∧
    0 < ‖u 0‖ ∧ ‖u 2‖ < ‖u 3‖ := by
  obtain ⟨u, h1, h2, h3, -⟩ := C158_amplitude .h 1 1 one_pos one_pos 3 (by norm_num) (fun i => i + 1)
    (fun i => if i = 0 then 1 else 2) (fun i _ => by positivity) (fun i _ => by split <;> norm_num) "neumann"
    (Or.inr rfl) 2 0
  exact ⟨u, h1, h2, h3 2 (by norm_num)⟩

section secondary
variable {e f : Type} [Fintype e] [DecidableEq e] [Fintype f]

/-- **The total field satisfies the equations of the conductivity of the model** on every edge on which the primary
field satisfies those of the primary conductivity; what remains on the others (edges of the boundary, where the wave
comes in) is the same for both. -/
theorem C158_total (C : Matrix f e ℂ) (Mui : Matrix f f ℂ) (Ms Mp : Matrix e e ℂ) (w : ℝ) (ep : e → ℂ)
    (hA : IsUnit (Cᵀ * Mui * C + (I * w : ℂ) • Ms).det) :
    (Cᵀ * Mui * C + (I * w : ℂ) • Ms) *ᵥ total C Mui Ms Mp w ep = (Cᵀ * Mui * C + (I * w : ℂ) • Mp) *ᵥ ep := by
  have h1 : (Cᵀ * Mui * C + (I * w : ℂ) • Ms) *ᵥ secondary C Mui Ms Mp w ep =
      (-(I * w) : ℂ) • (Ms *ᵥ ep - Mp *ᵥ ep) := by
    unfold secondary getA sE
    rw [Matrix.mulVec_mulVec, Matrix.mul_nonsing_inv _ hA, Matrix.one_mulVec]
  unfold total
  rw [Matrix.mulVec_add, h1, Matrix.add_mulVec, Matrix.add_mulVec, Matrix.smul_mulVec, Matrix.smul_mulVec]
  funext i
  simp only [Pi.add_apply, Pi.smul_apply, Pi.sub_apply, smul_eq_mul]
  ring

/-- A model with the primary conductivity has no secondary field. -/
theorem C158_no_secondary (C : Matrix f e ℂ) (Mui : Matrix f f ℂ) (Ms : Matrix e e ℂ) (w : ℝ) (ep : e → ℂ) :
    secondary C Mui Ms Ms w ep = 0 ∧ total C Mui Ms Ms w ep = ep := by
  have : secondary C Mui Ms Ms w ep = 0 := by
    unfold secondary sE
    rw [sub_self, smul_zero, Matrix.mulVec_zero]
  exact ⟨this, by unfold total; rw [this, add_zero]⟩

/-- The total field does not depend on the primary conductivity but through the primary field's own equations: two
primary models whose fields leave the same remainder give the same total field. -/
theorem C158_any_primary (C : Matrix f e ℂ) (Mui : Matrix f f ℂ) (Ms Mp Mq : Matrix e e ℂ) (w : ℝ) (ep eq : e → ℂ)
    (hA : IsUnit (Cᵀ * Mui * C + (I * w : ℂ) • Ms).det)
    (hr : (Cᵀ * Mui * C + (I * w : ℂ) • Mp) *ᵥ ep = (Cᵀ * Mui * C + (I * w : ℂ) • Mq) *ᵥ eq) :
    total C Mui Ms Mp w ep = total C Mui Ms Mq w eq := by
  have h1 := C158_total C Mui Ms Mp w ep hA
  have h2 := C158_total C Mui Ms Mq w eq hA
  rw [hr, ← h2] at h1
  have := congrArg (fun v => (Cᵀ * Mui * C + (I * w : ℂ) • Ms)⁻¹ *ᵥ v) h1
  simp only [Matrix.mulVec_mulVec, Matrix.nonsing_inv_mul _ hA, Matrix.one_mulVec] at this
  exact this

/-- The primary magnetic field and the primary electric field satisfy Faraday's law. -/
theorem C158_faraday (C : Matrix f e ℂ) (w : ℝ) (hw : w ≠ 0) (ep : e → ℂ) :
    C *ᵥ ep + (I * w : ℂ) • bPrimary C w ep = 0 := by
  unfold bPrimary
  have : (I * (w : ℂ)) ≠ 0 := mul_ne_zero I_ne_zero (by exact_mod_cast hw)
  rw [smul_smul, mul_one_div_cancel this, one_smul, add_neg_cancel]

end secondary

/-- A single edge: conductivities 2 and 1. -/
example : (1 : Matrix (Fin 1) (Fin 1) ℂ) *ᵥ total (0 : Matrix (Fin 1) (Fin 1) ℂ) 0 ((2 : ℂ) • 1) 1 1 1 =
    (1 / 2 : ℂ) • (1 : Fin 1 → ℂ) := by
  have hA : IsUnit ((0 : Matrix (Fin 1) (Fin 1) ℂ)ᵀ * 0 * 0 + (I * (1 : ℝ) : ℂ) • ((2 : ℂ) • (1 : Matrix (Fin 1) (Fin 1) ℂ))).det := by
    simp [Matrix.det_fin_one]
  have := congrFun (C158_total (0 : Matrix (Fin 1) (Fin 1) ℂ) 0 ((2 : ℂ) • 1) 1 1 1 hA) 0
  funext i
  rw [Subsingleton.elim i 0, Matrix.one_mulVec]
  simp [Matrix.smul_mulVec] at this
  have h2 : (total (0 : Matrix (Fin 1) (Fin 1) ℂ) 0 ((2 : ℂ) • 1) 1 1 1) 0 * 2 = 1 := by
    linear_combination this
  simp
  linear_combination h2 / 2

/-- **Primary conductivities of a new source in three dimensions**: one value per cell is averaged down to the
column, one per cell of the column is kept, one value in a list is repeated; the conductivities of the mesh are
those of the column. Those of the source win over those of the simulation. -/
theorem C158_sigma_partial {F : Type} (sim : Sim F) (freq : ℝ) (l : List ℝ) (hd : sim.dim = 3) (src : Source F)
    (hsrc : src = { primary := .array l, freq := freq } ∨
      src = { primary := .missing, freq := freq } ∧ sim.sigmaPrimary = .array l) :
    (l.length = sim.nC → (getSigmas sim src).2 = .ok (sim.down l, some (sim.up (sim.down l))) ∧
        (ePrimary sim src).2 = .ok (sim.solve (sim.down l) freq)) ∧
    (l.length ≠ sim.nC → l.length = sim.nz → (getSigmas sim src).2 = .ok (l, some (sim.up l)) ∧
        (ePrimary sim src).2 = .ok (sim.solve l freq)) ∧
    (∀ x, l = [x] → 1 ≠ sim.nC → 1 ≠ sim.nz →
        (ePrimary sim src).2 = .ok (sim.solve (List.replicate sim.nz x) freq)) ∧
    (l.length ≠ sim.nC → l.length ≠ sim.nz → l.length ≠ 1 → (ePrimary sim src).2 = .error .valueError) := by
  have key : ∀ p' : Source F, (p'.primary = .array l ∧ p'.freq = freq ∧ p'.cached = none ∧ p'.field = none ∨
      p'.primary = .missing ∧ sim.sigmaPrimary = .array l ∧ p'.freq = freq ∧ p'.cached = none ∧ p'.field = none) →
      (l.length = sim.nC → (getSigmas sim p').2 = .ok (sim.down l, some (sim.up (sim.down l))) ∧
        (ePrimary sim p').2 = .ok (sim.solve (sim.down l) freq)) ∧
      (l.length ≠ sim.nC → l.length = sim.nz → (getSigmas sim p').2 = .ok (l, some (sim.up l)) ∧
        (ePrimary sim p').2 = .ok (sim.solve l freq)) ∧
      (∀ x, l = [x] → 1 ≠ sim.nC → 1 ≠ sim.nz →
        (ePrimary sim p').2 = .ok (sim.solve (List.replicate sim.nz x) freq)) ∧
      (l.length ≠ sim.nC → l.length ≠ sim.nz → l.length ≠ 1 → (ePrimary sim p').2 = .error .valueError) := by
    rintro ⟨a, b, c, d⟩ h
    have hg : ∃ s : Source F, s.freq = freq ∧ getSigmas sim ⟨a, b, c, d⟩ =
        if l.length = sim.nC then
          ({ s with cached := some (sim.down l, some (sim.up (sim.down l))) },
            .ok (sim.down l, some (sim.up (sim.down l))))
        else if l.length = sim.nz then
          ({ s with cached := some (l, some (sim.up l)) }, .ok (l, some (sim.up l)))
        else match l with
          | [x] =>
            ({ s with cached := some (List.replicate sim.nz x, some (sim.up (List.replicate sim.nz x))) },
              .ok (List.replicate sim.nz x, some (sim.up (List.replicate sim.nz x))))
          | _ => (s, .error .valueError) := by
      rcases h with ⟨h1, h2, h3, h4⟩ | ⟨h1, h2, h3, h4, h5⟩
      · simp only at h1 h2 h3 h4
        subst h1 h2 h3 h4
        refine ⟨⟨.array l, b, none, none⟩, rfl, ?_⟩
        simp only [getSigmas, hd, if_true]
      · simp only at h1 h3 h4 h5
        subst h1 h3 h4 h5
        refine ⟨⟨.array l, b, none, none⟩, rfl, ?_⟩
        simp only [getSigmas, hd, if_true, h2]
    have hd0 : d = none := by rcases h with h | h <;> simp_all
    obtain ⟨s, hs, hg⟩ := hg
    unfold ePrimary
    rw [hg, hd0]
    refine ⟨?_, ?_, ?_, ?_⟩
    · intro h1
      simp only [h1, if_true, hs, and_self]
    · intro h1 h2
      simp only [if_neg h1, if_pos h2, hs, and_self]
    · intro x hx h1 h2
      subst hx
      simp only [List.length_singleton, if_neg h1, if_neg h2, hs]
    · intro h1 h2 h3
      rw [if_neg h1, if_neg h2]
      match l, h3 with
      | [], _ => rfl
      | _ :: _ :: _, _ => rfl
  apply key
  rcases hsrc with h | ⟨h, h2⟩
  · left; subst h; exact ⟨rfl, rfl, rfl, rfl⟩
  · right; subst h; exact ⟨rfl, h2, rfl, rfl, rfl⟩

/-- **A number for `sigma_primary` is refused** although it is what the documentation asks for: in three dimensions
every number fails with a type error, as does giving none at all, to the source and to the simulation. -/
theorem C158_violated_float {F : Type} (sim : Sim F) (freq : ℝ) (hd : sim.dim = 3) :
    (∀ x, (ePrimary sim { primary := .float x, freq := freq }).2 = .error .typeError) ∧
    (sim.sigmaPrimary = .missing → (ePrimary sim { primary := .missing, freq := freq }).2 = .error .typeError) := by
  constructor
  · intro x
    simp [ePrimary, getSigmas, hd]
  · intro h
    simp [ePrimary, getSigmas, hd, h]

/-- **In one dimension the conductivity given to the source is ignored**: only that of the simulation is used. -/
theorem C158_violated_ignored {F : Type} (sim : Sim F) (freq : ℝ) (hd : sim.dim = 1) (a b : Cond) :
    (ePrimary sim { primary := a, freq := freq }).2 = (ePrimary sim { primary := b, freq := freq }).2 := by
  have : ∀ a : Cond, (ePrimary sim { primary := a, freq := freq }).2 = match sim.sigmaPrimary with
      | .array l => if l.length = sim.nC then .ok (sim.solve l freq) else .error .valueError
      | _ => .error .exception := by
    intro a
    unfold ePrimary getSigmas
    have h13 : ¬ sim.dim = 3 := by omega
    cases a <;> simp only [h13, if_false]
    all_goals
      cases hs : sim.sigmaPrimary
      · simp
      · simp
      · rename_i l
        by_cases hl : l.length = sim.nC
        · simp [hl]
        · simp [hl]
  rw [this a, this b]

/-- **The primary field is kept**: once computed it is returned for every other simulation, mesh, primary
conductivity and frequency. -/
theorem C158_violated_kept {F : Type} (sim sim' : Sim F) (src : Source F) (f : F) (hf : (ePrimary sim src).2 = .ok f)
    (freq' : ℝ) (c : Cond) :
    (ePrimary sim' { (ePrimary sim src).1 with freq := freq', primary := c }).2 = .ok f := by
  have : (ePrimary sim src).1.field = some f := by
    unfold ePrimary at hf ⊢
    cases h1 : src.field with
    | some g =>
      rw [h1] at hf
      simp only [Except.ok.injEq] at hf
      simp only [h1, hf]
    | none =>
      rw [h1] at hf
      simp only at hf ⊢
      rcases hg : getSigmas sim src with ⟨s, r⟩
      rw [hg] at hf
      cases r with
      | error e => simp at hf
      | ok v =>
        obtain ⟨v1, v2⟩ := v
        simp only [Except.ok.injEq] at hf
        simp only [hf]
  unfold ePrimary
  unfold ePrimary at this
  simp only [this]

/-- The frequency of a source is changed after its fields have been used: the field is that of the old one, and
differs from that of a new source. -/
example : ∃ (sim : Sim ℝ) (src : Source ℝ),
    (ePrimary sim { (ePrimary sim src).1 with freq := 2 }).2 = .ok 1 ∧
    (ePrimary sim { primary := src.primary, freq := 2 }).2 = .ok 2 := by
  refine ⟨{ dim := 3, nC := 8, nz := 2, sigmaPrimary := .missing, down := id, up := id, solve := fun _ f => f },
    { primary := .array [1, 1], freq := 1 }, ?_, ?_⟩
  · simp [ePrimary, getSigmas]
  · simp [ePrimary, getSigmas]

end Props
end Verif.NSEM.Primary
