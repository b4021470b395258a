import Verif.Basic
import Mathlib.LinearAlgebra.Matrix.NonsingularInverse
import Mathlib.Analysis.Calculus.Deriv.Inv
import Mathlib.Analysis.Calculus.Deriv.Prod
import Mathlib.Analysis.Calculus.Deriv.Add
import Mathlib.Analysis.Calculus.Deriv.Mul
import Mathlib.Tactic.FieldSimp
import Mathlib.Tactic.Ring
import Mathlib.Tactic.Linarith

/-! Model of the fields of the static resistivity simulations and of their derivatives:
`simpeg/electromagnetics/static/resistivity/fields.py` 19-72 and 75-262, the derivatives of inner
products they call (`simpeg/base/pde_simulation.py` 15-48 and 357-371), and their use in
`simulation.py` 156-187 and 189-255, for C197. -/

noncomputable section
namespace Verif.DC.Currents
open Verif Matrix

/-! ### Arrays with their shapes -/

/-- What the code adds and multiplies: `Zero()`, a vector, a (sparse) matrix. -/
inductive Val
  | zero
  | vec (n : Nat) (x : Fin n → ℝ)
  | mat (r c : Nat) (M : Matrix (Fin r) (Fin c) ℝ)

/-- `A * x` for a sparse matrix `A`: ValueError when the dimensions do not match. -/
def mulV {r c : Nat} (A : Matrix (Fin r) (Fin c) ℝ) : Val → Except Err Val
  | .zero => .ok .zero
  | .vec n x => if h : n = c then .ok (.vec r (A *ᵥ fun i => x (i.cast h.symm))) else .error .valueError
  | .mat r' c' M =>
    if h : r' = c then .ok (.mat r c' (A * M.submatrix (fun i => i.cast h.symm) id))
    else .error .valueError

/-- `x + y` with the broadcasting of numpy for a vector and a vector, and a vector and a matrix (the
vector becomes a row of every row); matrices of equal shapes are added. -/
def addV : Val → Val → Except Err Val
  | .zero, y => .ok y
  | x, .zero => .ok x
  | .vec n x, .vec n' y =>
    if h : n' = n then .ok (.vec n fun i => x i + y (i.cast h.symm))
    else if h : n' = 1 then .ok (.vec n fun i => x i + y ⟨0, by omega⟩)
    else if h : n = 1 then .ok (.vec n' fun i => x ⟨0, by omega⟩ + y i)
    else .error .valueError
  | .vec n x, .mat r c M =>
    if h : n = c then .ok (.mat r c fun i j => x (j.cast h.symm) + M i j)
    else if h : n = 1 then .ok (.mat r c fun i j => x ⟨0, by omega⟩ + M i j)
    else .error .valueError
  | .mat r c M, .vec n x =>
    if h : n = c then .ok (.mat r c fun i j => M i j + x (j.cast h.symm))
    else if h : n = 1 then .ok (.mat r c fun i j => M i j + x ⟨0, by omega⟩)
    else .error .valueError
  | .mat r c M, .mat r' c' N =>
    if h : r' = r ∧ c' = c then
      .ok (.mat r c fun i j => M i j + N (i.cast h.1.symm) (j.cast h.2.symm))
    else .error .valueError

/-! ### Cell centred fields -/

variable {nC nF nP : Nat}

/-- The operators of `Fields3DCellCentered` (96-113). `rho m` is the diagonal of `MfRho` (isotropic
or diagonal resistivities on tensor, tree and cylindrical meshes), `rhoD m` its derivative (the
sparse matrix kept by `MfRhoDeriv`), `face` the diagonal of the face inner product without
resistivity. `hasMap`: `rhoMap` is not None. -/
structure Cell (nC nF nP : Nat) where
  div : Matrix (Fin nC) (Fin nF) ℝ
  grad : Matrix (Fin nF) (Fin nC) ℝ
  faceDiv : Matrix (Fin nC) (Fin nF) ℝ
  vol : Fin nC → ℝ
  rho : (Fin nP → ℝ) → Fin nF → ℝ
  rhoD : (Fin nP → ℝ) → Matrix (Fin nF) (Fin nP) ℝ
  face : Fin nF → ℝ
  hasMap : Bool

/-- `MfRhoI` for a diagonal inner product. -/
def Cell.rhoI (o : Cell nC nF nP) (m : Fin nP → ℝ) : Matrix (Fin nF) (Fin nF) ℝ :=
  diagonal fun i => 1 / o.rho m i

/-- `MfI`. -/
def Cell.faceI (o : Cell nC nF nP) : Matrix (Fin nF) (Fin nF) ℝ := diagonal fun i => 1 / o.face i

/-- `_j` (128-136). -/
def Cell.j (o : Cell nC nF nP) (m : Fin nP → ℝ) (phi : Fin nC → ℝ) : Fin nF → ℝ :=
  o.rhoI m *ᵥ (o.grad *ᵥ phi)

/-- `_e` (148-156). -/
def Cell.e (o : Cell nC nF nP) (phi : Fin nC → ℝ) : Fin nF → ℝ := o.faceI *ᵥ (o.grad *ᵥ phi)

/-- `_charge` (166-174); `eps` is `epsilon_0`, `Vol` the diagonal matrix of the volumes. -/
def Cell.charge (o : Cell nC nF nP) (eps : ℝ) (phi : Fin nC → ℝ) : Fin nC → ℝ :=
  (eps • diagonal o.vol) *ᵥ (o.faceDiv *ᵥ o.e phi)

/-- `_charge_density` (176-183). -/
def Cell.chargeDensity (o : Cell nC nF nP) (eps : ℝ) (phi : Fin nC → ℝ) : Fin nC → ℝ :=
  eps • (o.faceDiv *ᵥ o.e phi)

/-- `MfRhoIDeriv(u, v, adjoint)` (`pde_simulation.py` 357-371) with `_inner_mat_mul_op` (15-48) for a
sparse matrix and vectors. `v = none`: the argument is left out. -/
def Cell.rhoIDeriv (o : Cell nC nF nP) (m : Fin nP → ℝ) (u : Val) (v : Option Val)
    (adjoint : Bool) : Except Err Val :=
  if !o.hasMap then .ok .zero
  else match u with
  | .zero => .ok .zero
  | .mat _ _ _ => .error .valueError
  | .vec n x =>
    if h : n = nF then
      let w : Fin nF → ℝ := o.rhoI m *ᵥ (o.rhoI m *ᵥ (-fun i => x (i.cast h.symm)))
      match v with
      | none =>
        let UM := diagonal w * o.rhoD m
        if adjoint then .ok (.mat nP nF UMᵀ) else .ok (.mat nF nP UM)
      | some .zero => .ok .zero
      | some (.mat _ _ _) => .error .valueError
      | some (.vec k y) =>
        if adjoint then
          if h : k = nF then .ok (.vec nP ((o.rhoD m)ᵀ *ᵥ fun i => w i * y (i.cast h.symm)))
          else .error .valueError
        else
          if h : k = nP then
            .ok (.vec nF fun i => w i * (o.rhoD m *ᵥ fun l => y (l.cast h.symm)) i)
          else .error .valueError
    else .error .valueError

/-- `_jDeriv_u` (138-141). -/
def Cell.jDerivU (o : Cell nC nF nP) (m : Fin nP → ℝ) (v : Val) (adjoint : Bool) : Except Err Val :=
  if adjoint then do mulV o.gradᵀ (← mulV (o.rhoI m)ᵀ v)
  else do mulV (o.rhoI m) (← mulV o.grad v)

/-- `_jDeriv_m` (143-146). -/
def Cell.jDerivM (o : Cell nC nF nP) (m : Fin nP → ℝ) (v : Val) (adjoint : Bool) : Except Err Val :=
  if adjoint then do mulV o.gradᵀ (← o.rhoIDeriv m v none true)
  else do o.rhoIDeriv m (← mulV o.grad v) none false

/-- `_eDeriv_u` (158-161). -/
def Cell.eDerivU (o : Cell nC nF nP) (v : Val) (adjoint : Bool) : Except Err Val :=
  if adjoint then do mulV o.gradᵀ (← mulV o.faceIᵀ v)
  else do mulV o.faceI (← mulV o.grad v)

/-! ### Derivatives of any field -/

/-- The methods `_xDeriv_u` and `_xDeriv_m` of a class of fields, where they exist. -/
structure Methods where
  u : Option (Val → Bool → Except Err Val)
  m : Option (Val → Bool → Except Err Val)

/-- `_phiDeriv`, `_eDeriv`, `_jDeriv` of `FieldsDC` (19-72) without `adjoint`. The message of the
error is made first: `knownFields.keys()[0]` raises TypeError, dictionaries' keys have no index. The
`dtype=float` conversion does not change real numbers. -/
def forward (M : Methods) (du v : Val) : Except Err Val :=
  match M.u, M.m with
  | some fu, some fm => do addV (← fu du false) (← fm v false)
  | _, _ => .error .typeError

/-- The same with `adjoint=True`: a pair. -/
def backward (M : Methods) (v : Val) : Except Err (Val × Val) :=
  match M.u, M.m with
  | some fu, some fm => do return (← fu v true, ← fm v true)
  | _, _ => .error .typeError

/-- The quantities a receiver may measure (`receivers.py` 73-75). -/
inductive Field
  | phi
  | e
  | j

/-- `Fields3DCellCentered`: all methods exist (122-164). -/
def Cell.methods (o : Cell nC nF nP) (m : Fin nP → ℝ) : Field → Methods
  | .phi => ⟨some fun v _ => .ok v, some fun _ _ => .ok .zero⟩
  | .e => ⟨some fun v a => o.eDerivU v a, some fun _ _ => .ok .zero⟩
  | .j => ⟨some fun v a => o.jDerivU m v a, some fun v a => o.jDerivM m v a⟩

/-- `Fields3DNodal`: only those of the potential exist (212-219); `Identity() * v` is `v`. -/
def nodalMethods : Field → Methods
  | .phi => ⟨some fun v _ => .ok v, some fun _ _ => .ok .zero⟩
  | .e => ⟨none, none⟩
  | .j => ⟨none, none⟩

/-! ### Nodal fields -/

/-- The operators of `Fields3DNodal` (186-262); diagonals of the inner products of edges. -/
structure Nodal (nN nE nC : Nat) where
  grad : Matrix (Fin nE) (Fin nN) ℝ
  sigma : Fin nE → ℝ
  edge : Fin nE → ℝ
  ave : Matrix (Fin nC) (Fin nN) ℝ
  vol : Fin nC → ℝ

variable {nN nE : Nat}

/-- `_e` (236-244). -/
def Nodal.e (o : Nodal nN nE nC) (phi : Fin nN → ℝ) : Fin nE → ℝ := (-o.grad) *ᵥ phi

/-- `_j` (221-234). -/
def Nodal.j (o : Nodal nN nE nC) (phi : Fin nN → ℝ) : Fin nE → ℝ :=
  diagonal (fun i => 1 / o.edge i) *ᵥ (diagonal o.sigma *ᵥ o.e phi)

/-- `_charge` (246-256). -/
def Nodal.charge (o : Nodal nN nE nC) (eps : ℝ) (phi : Fin nN → ℝ) : Fin nN → ℝ :=
  (-eps) • (o.gradᵀ *ᵥ (diagonal o.edge *ᵥ o.e phi))

/-- `_charge_density` (258-261). -/
def Nodal.chargeDensity (o : Nodal nN nE nC) (eps : ℝ) (phi : Fin nN → ℝ) : Fin nC → ℝ :=
  fun i => (o.ave *ᵥ o.charge eps phi) i / o.vol i

namespace Props

/-! ### C197 -/

/-- C197. Cell centred fields: Ohm's law between the inner products, the current leaves each cell as
the source says (in every cell where the row of the system holds), and the charge of a cell is its
density times its volume. -/
theorem C197_cell_fields (o : Cell nC nF nP) (m : Fin nP → ℝ) (phi q : Fin nC → ℝ) (eps : ℝ)
    (hr : ∀ i, o.rho m i ≠ 0) (hf : ∀ i, o.face i ≠ 0) :
    (∀ i, o.rho m i * o.j m phi i = o.face i * o.e phi i) ∧
    (∀ c, ((o.div * o.rhoI m * o.grad) *ᵥ phi) c = q c → (o.div *ᵥ o.j m phi) c = q c) ∧
    (∀ c, o.charge eps phi c = o.vol c * o.chargeDensity eps phi c) := by
  refine ⟨fun i => ?_, fun c h => ?_, fun c => ?_⟩
  · simp only [Cell.j, Cell.e, Cell.rhoI, Cell.faceI, mulVec_diagonal]
    have := hr i
    have := hf i
    field_simp
  · rw [← h]
    simp only [Cell.j, mulVec_mulVec, Matrix.mul_assoc]
  · simp only [Cell.charge, Cell.chargeDensity, smul_mulVec, Pi.smul_apply, mulVec_diagonal,
      smul_eq_mul]
    ring

/-- C197. Nodal fields: Ohm's law, the current leaves each node as the source says, and all charges
add up to zero when the gradient of constants is zero. -/
theorem C197_nodal_fields (o : Nodal nN nE nC) (phi q : Fin nN → ℝ) (eps : ℝ)
    (he : ∀ i, o.edge i ≠ 0) (h1 : o.grad *ᵥ (fun _ => 1) = 0) :
    (∀ i, o.edge i * o.j phi i = o.sigma i * o.e phi i) ∧
    (∀ n, ((o.gradᵀ * diagonal o.sigma * o.grad) *ᵥ phi) n = q n →
      (o.gradᵀ *ᵥ fun i => o.edge i * o.j phi i) n = -q n) ∧
    (∑ n, o.charge eps phi n = 0) ∧
    (∀ c, o.vol c ≠ 0 → o.vol c * o.chargeDensity eps phi c = (o.ave *ᵥ o.charge eps phi) c) := by
  have ohm : ∀ i, o.edge i * o.j phi i = o.sigma i * o.e phi i := fun i => by
    simp only [Nodal.j, mulVec_diagonal]
    have := he i
    field_simp
  refine ⟨ohm, fun n h => ?_, ?_, fun c hc => ?_⟩
  · rw [← h]
    have : (fun i => o.edge i * o.j phi i) = -(diagonal o.sigma *ᵥ (o.grad *ᵥ phi)) := by
      funext i
      rw [ohm i]
      rw [Pi.neg_apply, mulVec_diagonal, Nodal.e, neg_mulVec, Pi.neg_apply]
      ring
    rw [this, mulVec_neg, Pi.neg_apply, mulVec_mulVec, mulVec_mulVec, Matrix.mul_assoc]
  · have h2 : ∀ w : Fin nE → ℝ, ∑ n, (o.gradᵀ *ᵥ w) n = 0 := fun w => by
      have : ∑ n, (o.gradᵀ *ᵥ w) n = (fun _ => (1 : ℝ)) ⬝ᵥ (o.gradᵀ *ᵥ w) := by simp [dotProduct]
      rw [this, dotProduct_mulVec, vecMul_transpose, h1, zero_dotProduct]
    simp only [Nodal.charge, Pi.smul_apply, smul_eq_mul, ← Finset.mul_sum, h2, mul_zero]
  · simp only [Nodal.chargeDensity]
    field_simp

/-- C197. The energy of the charges in the potential is not negative: for nodes, and for cells whose
gradient is the transpose of the divergence (Dirichlet boundaries). -/
theorem C197_energy (o : Nodal nN nE nC) (c : Cell nC nF nP) (psi : Fin nN → ℝ) (phi : Fin nC → ℝ)
    (eps : ℝ) (h0 : 0 ≤ eps) (he : ∀ i, 0 ≤ o.edge i) (hf : ∀ i, 0 ≤ c.face i)
    (hd : c.div = diagonal c.vol * c.faceDiv) (hg : c.grad = c.divᵀ) :
    0 ≤ psi ⬝ᵥ o.charge eps psi ∧ 0 ≤ phi ⬝ᵥ c.charge eps phi := by
  constructor
  · have e1 : o.charge eps psi = eps • (o.gradᵀ *ᵥ (diagonal o.edge *ᵥ (o.grad *ᵥ psi))) := by
      simp only [Nodal.charge, Nodal.e, neg_mulVec, mulVec_neg, smul_neg, neg_smul, neg_neg]
    rw [e1, dotProduct_smul, smul_eq_mul, dotProduct_mulVec, vecMul_transpose]
    refine mul_nonneg h0 (Finset.sum_nonneg fun i _ => ?_)
    rw [mulVec_diagonal]
    have := mul_nonneg (he i) (mul_self_nonneg ((o.grad *ᵥ psi) i))
    nlinarith
  · have e1 : c.charge eps phi = eps • (c.div *ᵥ (c.faceI *ᵥ (c.divᵀ *ᵥ phi))) := by
      rw [Cell.charge, Cell.e, hg, smul_mulVec, mulVec_mulVec, ← hd]
    rw [e1, dotProduct_smul, smul_eq_mul, dotProduct_mulVec, ← mulVec_transpose]
    refine mul_nonneg h0 (Finset.sum_nonneg fun i _ => ?_)
    rw [Cell.faceI, mulVec_diagonal]
    have := mul_nonneg (one_div_nonneg.mpr (hf i)) (mul_self_nonneg ((c.divᵀ *ᵥ phi) i))
    nlinarith

theorem hasDerivAt_mulVec {a b : Nat} (A : Matrix (Fin a) (Fin b) ℝ) {f : ℝ → Fin b → ℝ}
    {f' : Fin b → ℝ} (h : HasDerivAt f f' 0) : HasDerivAt (fun t => A *ᵥ f t) (A *ᵥ f') 0 := by
  rw [hasDerivAt_pi] at h ⊢
  intro i
  simp only [mulVec, dotProduct]
  exact HasDerivAt.fun_sum fun j _ => (h j).const_mul _

/-- C197. For potentials and electric fields of cells the products with sensitivities are defined and
are the derivatives along `v` of the fields; `phi t` are the potentials of the model `m + t v`. -/
theorem C197_cell_derivatives (o : Cell nC nF nP) (m : Fin nP → ℝ) (v : Fin nP → ℝ)
    (phi : ℝ → Fin nC → ℝ) (du : Fin nC → ℝ) (h : HasDerivAt phi du 0) :
    (∃ x, forward (o.methods m .phi) (.vec nC du) (.vec nP v) = .ok (.vec nC x) ∧
      HasDerivAt phi x 0) ∧
    (∃ x, forward (o.methods m .e) (.vec nC du) (.vec nP v) = .ok (.vec nF x) ∧
      HasDerivAt (fun t => o.e (phi t)) x 0) := by
  refine ⟨⟨du, rfl, h⟩, o.faceI *ᵥ (o.grad *ᵥ du), ?_, ?_⟩
  · simp [forward, Cell.methods, Cell.eDerivU, mulV, addV, bind, Except.bind]
  · exact hasDerivAt_mulVec _ (hasDerivAt_mulVec _ h)

/-- C197. The adjoints of these derivatives are defined, with the same inner products. -/
theorem C197_cell_adjoint (o : Cell nC nF nP) (m : Fin nP → ℝ) (du : Fin nC → ℝ) (v : Fin nP → ℝ)
    (w : Fin nF → ℝ) :
    ∃ x y, forward (o.methods m .e) (.vec nC du) (.vec nP v) = .ok (.vec nF x) ∧
      backward (o.methods m .e) (.vec nF w) = .ok (.vec nC y, .zero) ∧ w ⬝ᵥ x = y ⬝ᵥ du := by
  refine ⟨o.faceI *ᵥ (o.grad *ᵥ du), o.gradᵀ *ᵥ (o.faceIᵀ *ᵥ w), ?_, ?_, ?_⟩
  · simp [forward, Cell.methods, Cell.eDerivU, mulV, addV, bind, Except.bind]
  · simp [backward, Cell.methods, Cell.eDerivU, mulV, bind, Except.bind, pure, Except.pure]
  · rw [dotProduct_mulVec, dotProduct_mulVec, ← mulVec_transpose, ← mulVec_transpose]

/-- C197. The derivative of the inverse inner product that the fields have at hand is right: with
both arguments, `MfRhoIDeriv(w, v)` is the derivative along `v` of `MfRhoI w`. -/
theorem C197_inverse_derivative (o : Cell nC nF nP) (m v : Fin nP → ℝ) (w : Fin nF → ℝ)
    (hm : o.hasMap = true) (hr : ∀ i, o.rho m i ≠ 0)
    (hd : HasDerivAt (fun t : ℝ => o.rho (m + t • v)) (o.rhoD m *ᵥ v) 0) :
    ∃ x, o.rhoIDeriv m (.vec nF w) (some (.vec nP v)) false = .ok (.vec nF x) ∧
      HasDerivAt (fun t : ℝ => o.rhoI (m + t • v) *ᵥ w) x 0 := by
  refine ⟨fun i => (o.rhoI m *ᵥ (o.rhoI m *ᵥ (-w))) i * (o.rhoD m *ᵥ v) i, ?_, ?_⟩
  · simp only [Cell.rhoIDeriv, hm, dite_true]
    rfl
  · rw [hasDerivAt_pi] at hd ⊢
    intro i
    have h0 : o.rho (m + (0 : ℝ) • v) i = o.rho m i := by simp
    have := ((hd i).inv (by rw [h0]; exact hr i)).mul_const (w i)
    simp only [Cell.rhoI, mulVec_diagonal, Pi.neg_apply]
    have e1 : (fun t : ℝ => 1 / o.rho (m + t • v) i * w i) =
        fun y : ℝ => (fun x : ℝ => o.rho (m + x • v) i)⁻¹ y * w i := by
      funext t
      simp
    rw [e1]
    refine this.congr_deriv ?_
    rw [h0]
    have := hr i
    field_simp

/-- C197 (violation). Data of current densities have no sensitivities: on meshes with more faces than
cells every product with the sensitivities raises ValueError, whatever the vector, and so does every
product with the transpose unless there are as many parameters as faces. -/
theorem C197_violated_current (o : Cell nC nF nP) (m : Fin nP → ℝ) (hm : o.hasMap = true)
    (hC : 0 < nC) (hF : nC < nF) (du : Fin nC → ℝ) (v : Fin nP → ℝ) (w : Fin nF → ℝ) :
    forward (o.methods m .j) (.vec nC du) (.vec nP v) = .error .valueError ∧
    (nP ≠ nF → backward (o.methods m .j) (.vec nF w) = .error .valueError) := by
  constructor
  · by_cases h : nP = nC
    · subst h
      have h1 : nF ≠ nP := by omega
      have h2 : nF ≠ 1 := by omega
      simp [forward, Cell.methods, Cell.jDerivU, Cell.jDerivM, mulV, Cell.rhoIDeriv, hm, addV, bind,
        Except.bind, h1, h2]
    · simp [forward, Cell.methods, Cell.jDerivU, Cell.jDerivM, mulV, bind, Except.bind, h]
  · intro h
    simp [backward, Cell.methods, Cell.jDerivU, Cell.jDerivM, mulV, Cell.rhoIDeriv, hm, bind,
      Except.bind, h]

/-- C197. Nodal potentials: the product is the derivative of the potential. -/
theorem C197_nodal_potential (v : Val) {n : Nat} (phi : ℝ → Fin n → ℝ) (du w : Fin n → ℝ)
    (h : HasDerivAt phi du 0) :
    (∃ x, forward (nodalMethods .phi) (.vec n du) v = .ok (.vec n x) ∧ HasDerivAt phi x 0) ∧
    backward (nodalMethods .phi) (.vec n w) = .ok (.vec n w, .zero) :=
  ⟨⟨du, rfl, h⟩, rfl⟩

/-- C197 (violation). Nodal electric fields and current densities have no sensitivities, and the
error is a TypeError of the message, not the NotImplementedError meant. -/
theorem C197_violated_nodal (du v : Val) :
    forward (nodalMethods .e) du v = .error .typeError ∧
    forward (nodalMethods .j) du v = .error .typeError ∧
    backward (nodalMethods .e) v = .error .typeError ∧
    backward (nodalMethods .j) v = .error .typeError :=
  ⟨rfl, rfl, rfl, rfl⟩

/-! ### Cases that meet the hypotheses -/

/-- One cell and two faces, with one parameter: the logarithm of resistivity is not needed, the
resistivity is the parameter. -/
def small : Cell 1 2 1 where
  div := !![-1, 1]
  grad := !![-1; 1]
  faceDiv := !![-1, 1]
  vol := fun _ => 1
  rho := fun m _ => m 0
  rhoD := fun _ => !![1; 1]
  face := fun _ => 1
  hasMap := true

example : (0 < 1 ∧ 1 < 2) ∧ small.hasMap = true ∧ (∀ i, small.rho (fun _ => 3) i ≠ 0) ∧
    HasDerivAt (fun t : ℝ => small.rho ((fun _ => 3) + t • fun _ => 5))
      (small.rhoD (fun _ => 3) *ᵥ fun _ => 5) 0 := by
  refine ⟨by norm_num, rfl, fun i => by norm_num [small], ?_⟩
  rw [hasDerivAt_pi]
  intro i
  have h : HasDerivAt (fun t : ℝ => (3 : ℝ) + t * 5) 5 0 := by
    simpa using ((hasDerivAt_id (0 : ℝ)).mul_const 5).const_add 3
  fin_cases i <;> simpa [small, mulVec, dotProduct] using h

/-- The operators of `small` meet the conditions of the energy. -/
example : (!![-1, 1] : Matrix (Fin 1) (Fin 2) ℝ) = (diagonal (fun _ : Fin 1 => (1 : ℝ))) * (!![-1, 1] : Matrix (Fin 1) (Fin 2) ℝ) ∧
    (!![-1; 1] : Matrix (Fin 2) (Fin 1) ℝ) = (!![-1, 1] : Matrix (Fin 1) (Fin 2) ℝ)ᵀ := by
  refine ⟨by simp, ?_⟩
  ext i j; fin_cases i <;> fin_cases j <;> rfl

/-- Two nodes and one edge. -/
example : (!![-1, 1] : Matrix (Fin 1) (Fin 2) ℝ) *ᵥ (fun _ => 1) = 0 := by
  funext i; fin_cases i; simp [mulVec, dotProduct, Fin.sum_univ_two]

end Props
end Verif.DC.Currents
