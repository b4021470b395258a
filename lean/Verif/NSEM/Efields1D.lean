import Verif.NSEM.Analytic
import Mathlib.LinearAlgebra.Matrix.NonsingularInverse
import Mathlib.LinearAlgebra.Matrix.ToLinearEquiv
import Mathlib.Analysis.Complex.Basic

/-!
C182: one-dimensional electric fields on a mesh, `get1DEfields`
(`simpeg/electromagnetics/natural_source/utils/solutions_1d.py`). The mesh has `m + 1` cells of widths `h`, from the
bottom, conductivities `σ`; the nodes are the faces of the mesh. Simplified: numbers are exact, `Solver(Aii) * rhs`
is multiplication by the inverse.
-/

noncomputable section
namespace Verif.NSEM.Efields1D
open Verif Complex Matrix
open Verif.NSEM.Analytic (getEHfields node)

/-! ### Model -/

/-- `m1d.nodal_gradient` (14). -/
def G (m : ℕ) (h : ℕ → ℝ) : Matrix (Fin (m + 1)) (Fin (m + 2)) ℂ := fun c j =>
  if j = c.succ then ((1 / h c : ℝ) : ℂ) else if j = c.castSucc then ((-(1 / h c) : ℝ) : ℂ) else 0

/-- `sdiag(m1d.cell_volumes * (1.0 / mu_0))` (17). -/
def Mmu (m : ℕ) (μ : ℝ) (h : ℕ → ℝ) : Fin (m + 1) → ℂ := fun c => ((h c * (1 / μ) : ℝ) : ℂ)

/-- `m1d.get_face_inner_product(sigma)` (19): every cell gives half of its volume times `sigma` to its two faces. -/
def Msig (m : ℕ) (h σ : ℕ → ℝ) : Fin (m + 2) → ℝ := fun j =>
  ∑ c : Fin (m + 1), ((if j = c.castSucc then σ c * h c / 2 else 0) + if j = c.succ then σ c * h c / 2 else 0)

/-- `A` (21). -/
def A (m : ℕ) (μ freq : ℝ) (h σ : ℕ → ℝ) : Matrix (Fin (m + 2)) (Fin (m + 2)) ℂ :=
  (G m h)ᵀ * diagonal (Mmu m μ h) * G m h
    + (I * 2 * Real.pi * freq) • diagonal (fun j => ((Msig m h σ j : ℝ) : ℂ))

/-- The inner nodes, `1:-1`. -/
def inn {m : ℕ} (i : Fin m) : Fin (m + 2) := i.castSucc.succ

/-- `A[1:-1, 1:-1]` (23). -/
def Aii (m : ℕ) (μ freq : ℝ) (h σ : ℕ → ℝ) : Matrix (Fin m) (Fin m) ℂ := fun i k => A m μ freq h σ (inn i) (inn k)

/-- `-A[1:-1, [0, -1]] * bc` (25, 39). -/
def rhs (m : ℕ) (μ freq : ℝ) (h σ : ℕ → ℝ) (b0 b1 : ℂ) : Fin m → ℂ := fun i =>
  -(A m μ freq h σ (inn i) 0 * b0 + A m μ freq h σ (inn i) (Fin.last (m + 1)) * b1)

/-- `np.r_[bc[0], eii, bc[1]]` (39-44). -/
def solved (m : ℕ) (μ freq : ℝ) (h σ : ℕ → ℝ) (b0 b1 : ℂ) : Fin (m + 2) → ℂ :=
  Fin.cons b0 (Fin.snoc ((Aii m μ freq h σ)⁻¹ *ᵥ rhs m μ freq h σ b0 b1) b1 : Fin (m + 1) → ℂ)

/-- `Etot` at a node (28-29); `scaleUD` and `scaleValue` are the defaults. -/
def Etot (ε μ freq x0 : ℝ) (m : ℕ) (h σ : ℕ → ℝ) (z : ℝ) : ℂ :=
  match getEHfields ε μ freq x0 (m + 1) h σ true 1 z with
  | some (Ed, Eu, _, _) => Ed + Eu
  | none => 0

/-- `get1DEfields` (10-46). -/
def get1DEfields (ε μ freq x0 : ℝ) (m : ℕ) (h σ : ℕ → ℝ) (sourceAmp : Option ℂ) : Fin (m + 2) → ℂ :=
  let bottom := Etot ε μ freq x0 m h σ (node x0 h 0);
  let top := Etot ε μ freq x0 m h σ (node x0 h (m + 1));
  match sourceAmp with
  | some a => solved m μ freq h σ (bottom / top * a) (top / top * a)
  | none => solved m μ freq h σ bottom top

/-! ### Specification -/

/-- The equation of the electric field at the node between the cells `i` and `i + 1`, by finite volumes: the jump of
`dE/dz / μ` is `iω` times the current in the two half cells around the node. -/
def NodeEq (μ ω : ℝ) (h σ : ℕ → ℝ) (e : ℕ → ℂ) (i : ℕ) : Prop :=
  (e (i + 2) - e (i + 1)) / (μ * h (i + 1)) - (e (i + 1) - e i) / (μ * h i)
    = I * ω * ((σ i * h i / 2 + σ (i + 1) * h (i + 1) / 2) * e (i + 1))

/-! ### Lemmas -/

variable {m : ℕ} {μ freq : ℝ} {h σ : ℕ → ℝ}

/-- The vector as a function of the number of the node. -/
def ext (e : Fin (m + 2) → ℂ) (j : ℕ) : ℂ := if hj : j < m + 2 then e ⟨j, hj⟩ else 0

theorem ext_val (e : Fin (m + 2) → ℂ) (j : Fin (m + 2)) : ext e j = e j := by simp [ext]

theorem G_mulVec (e : Fin (m + 2) → ℂ) (c : Fin (m + 1)) :
    (G m h *ᵥ e) c = (e c.succ - e c.castSucc) / h c := by
  have hne : c.castSucc ≠ c.succ := by intro hc; have := congrArg Fin.val hc; simp at this
  have : ∀ j, G m h c j * e j = (if j = c.succ then ((1 / h c : ℝ) : ℂ) * e j else 0)
      + if j = c.castSucc then ((-(1 / h c) : ℝ) : ℂ) * e j else 0 := by
    intro j
    unfold G
    by_cases h1 : j = c.succ
    · have h2 : j ≠ c.castSucc := by rw [h1]; exact hne.symm
      rw [if_pos h1, if_pos h1, if_neg h2, add_zero]
    · rw [if_neg h1, if_neg h1, zero_add]
      split_ifs <;> simp
  simp only [mulVec, dotProduct]
  rw [Finset.sum_congr rfl fun j _ => this j, Finset.sum_add_distrib]
  simp only [Finset.sum_ite_eq', Finset.mem_univ, if_true]
  push_cast
  ring

theorem GT_inn (d : Fin (m + 1) → ℂ) (i : Fin m) :
    ((G m h)ᵀ *ᵥ d) (inn i) = d i.castSucc / h i - d i.succ / h (i + 1 : ℕ) := by
  have : ∀ c, G m h c (inn i) * d c = (if c = i.castSucc then ((1 / h c : ℝ) : ℂ) * d c else 0)
      + if c = i.succ then ((-(1 / h c) : ℝ) : ℂ) * d c else 0 := by
    intro c
    have e1 : inn i = c.succ ↔ c = i.castSucc := by
      unfold inn; constructor
      · intro hc; exact (Fin.succ_injective _ hc).symm
      · intro hc; rw [hc]
    have e2 : inn i = c.castSucc ↔ c = i.succ := by
      unfold inn; constructor
      · intro hc; have := congrArg Fin.val hc; apply Fin.ext; simp at this ⊢; omega
      · intro hc; rw [hc]; apply Fin.ext; simp
    unfold G
    simp only [e1, e2]
    by_cases h1 : c = i.castSucc
    · have h2 : c ≠ i.succ := by
        rw [h1]; intro hc; have := congrArg Fin.val hc; simp at this
      rw [if_pos h1, if_pos h1, if_neg h2, add_zero]
    · rw [if_neg h1, if_neg h1, zero_add]
      split_ifs <;> simp
  simp only [mulVec, dotProduct, transpose_apply]
  rw [Finset.sum_congr rfl fun c _ => this c, Finset.sum_add_distrib]
  simp only [Finset.sum_ite_eq', Finset.mem_univ, if_true]
  simp only [Fin.val_castSucc, Fin.val_succ]
  push_cast
  ring

theorem Msig_inn (i : Fin m) :
    Msig m h σ (inn i) = σ i * h i / 2 + σ (i + 1 : ℕ) * h (i + 1 : ℕ) / 2 := by
  unfold Msig
  rw [Finset.sum_add_distrib]
  have e1 : ∀ c : Fin (m + 1), inn i = c.succ ↔ c = i.castSucc := by
    intro c; unfold inn; constructor
    · intro hc; exact (Fin.succ_injective _ hc).symm
    · intro hc; rw [hc]
  have e2 : ∀ c : Fin (m + 1), inn i = c.castSucc ↔ c = i.succ := by
    intro c; unfold inn; constructor
    · intro hc; have := congrArg Fin.val hc; apply Fin.ext; simp at this ⊢; omega
    · intro hc; rw [hc]; apply Fin.ext; simp
  simp only [e1, e2, Finset.sum_ite_eq', Finset.mem_univ, if_true, Fin.val_castSucc, Fin.val_succ]
  ring

theorem A_mulVec (e : Fin (m + 2) → ℂ) (j : Fin (m + 2)) :
    (A m μ freq h σ *ᵥ e) j = ((G m h)ᵀ *ᵥ (fun c => Mmu m μ h c * (G m h *ᵥ e) c)) j
      + I * 2 * Real.pi * freq * (Msig m h σ j * e j) := by
  unfold A
  rw [add_mulVec, smul_mulVec, ← mulVec_mulVec, ← mulVec_mulVec]
  simp only [Pi.add_apply, Pi.smul_apply, mulVec_diagonal, smul_eq_mul]
  congr 2
  congr 1
  funext c
  rw [mulVec_diagonal]

theorem A_inn (hh : ∀ j ≤ m, h j ≠ 0) (hμ : μ ≠ 0) (e : Fin (m + 2) → ℂ) (i : Fin m) :
    (A m μ freq h σ *ᵥ e) (inn i) = 0 ↔ NodeEq μ (2 * Real.pi * freq) h σ (ext e) i := by
  rw [A_mulVec, GT_inn, Msig_inn]
  have x0 : ext e i = e i.castSucc.castSucc := by
    exact ext_val e i.castSucc.castSucc
  have x1 : ext e (i + 1) = e (inn i) := ext_val e (inn i)
  have x2 : ext e (i + 2) = e i.succ.succ := ext_val e i.succ.succ
  have y1 : i.castSucc.succ = inn i := rfl
  have y2 : i.succ.castSucc = inn i := by apply Fin.ext; simp [inn]
  unfold NodeEq
  rw [x0, x1, x2, G_mulVec, G_mulVec, y1, y2]
  unfold Mmu
  simp only [Fin.val_castSucc, Fin.val_succ]
  have a1 : ((h i : ℝ) : ℂ) ≠ 0 := by exact_mod_cast hh i (by have := i.2; omega)
  have a2 : ((h (i + 1 : ℕ) : ℝ) : ℂ) ≠ 0 := by exact_mod_cast hh (i + 1) (by have := i.2; omega)
  have a3 : ((μ : ℝ) : ℂ) ≠ 0 := by exact_mod_cast hμ
  have z1 : (((h i * (1 / μ) : ℝ)) : ℂ) * ((e (inn i) - e i.castSucc.castSucc) / h i) / h i
      = (e (inn i) - e i.castSucc.castSucc) / (μ * h i) := by
    push_cast; field_simp
  have z2 : (((h (i + 1 : ℕ) * (1 / μ) : ℝ)) : ℂ) * ((e i.succ.succ - e (inn i)) / h (i + 1 : ℕ)) / h (i + 1 : ℕ)
      = (e i.succ.succ - e (inn i)) / (μ * h (i + 1 : ℕ)) := by
    push_cast; field_simp
  rw [z1, z2]
  push_cast
  constructor
  · intro hz; linear_combination -hz
  · intro hz; linear_combination -hz

theorem split_sum (M : Matrix (Fin (m + 2)) (Fin (m + 2)) ℂ) (b0 b1 : ℂ) (x : Fin m → ℂ) (j : Fin (m + 2)) :
    (M *ᵥ (Fin.cons b0 (Fin.snoc x b1 : Fin (m + 1) → ℂ) : Fin (m + 2) → ℂ)) j
      = M j 0 * b0 + M j (Fin.last (m + 1)) * b1 + ∑ k, M j (inn k) * x k := by
  simp only [mulVec, dotProduct]
  rw [Fin.sum_univ_succ, Fin.sum_univ_castSucc]
  simp only [Fin.cons_zero, Fin.cons_succ, Fin.snoc_castSucc, Fin.snoc_last]
  rw [Fin.succ_last]
  unfold inn
  ring

/-- The matrix of the inner nodes is invertible, for every frequency and conductivity. -/
theorem Aii_unit (hh : ∀ j ≤ m, 0 < h j) (hμ : 0 < μ) : IsUnit (Aii m μ freq h σ).det := by
  rw [isUnit_iff_ne_zero]
  intro hdet
  obtain ⟨x, hx, hAx⟩ := exists_mulVec_eq_zero_iff.mpr hdet
  apply hx
  set e : Fin (m + 2) → ℂ := Fin.cons 0 (Fin.snoc x 0 : Fin (m + 1) → ℂ) with he
  have e_inn : ∀ k, e (inn k) = x k := by
    intro k; rw [he]; unfold inn; rw [Fin.cons_succ, Fin.snoc_castSucc]
  have e_zero : e 0 = 0 := by rw [he, Fin.cons_zero]
  have e_last : e (Fin.last (m + 1)) = 0 := by
    rw [he, ← Fin.succ_last, Fin.cons_succ, Fin.snoc_last]
  have hA : ∀ k, (A m μ freq h σ *ᵥ e) (inn k) = 0 := by
    intro k
    rw [he, split_sum, mul_zero, mul_zero, zero_add, zero_add]
    exact congrFun hAx k
  have hen : ∑ j, (starRingEnd ℂ) (e j) * (A m μ freq h σ *ᵥ e) j = 0 := by
    rw [Fin.sum_univ_succ, Fin.sum_univ_castSucc, Fin.succ_last, e_zero, e_last]
    simp only [map_zero, zero_mul, zero_add, add_zero]
    exact Finset.sum_eq_zero fun k _ => by
      have := hA k
      unfold inn at this
      rw [this, mul_zero]
  have hen2 : ∑ j, (starRingEnd ℂ) (e j) * (A m μ freq h σ *ᵥ e) j
      = ((∑ c : Fin (m + 1), h c * (1 / μ) * normSq ((G m h *ᵥ e) c) : ℝ) : ℂ)
        + I * ((2 * Real.pi * freq * ∑ j, Msig m h σ j * normSq (e j) : ℝ) : ℂ) := by
    simp only [A_mulVec, mul_add, Finset.sum_add_distrib]
    congr 1
    · have : ∀ d : Fin (m + 1) → ℂ, ∑ j, (starRingEnd ℂ) (e j) * ((G m h)ᵀ *ᵥ d) j
          = ∑ c, (starRingEnd ℂ) ((G m h *ᵥ e) c) * d c := by
        intro d
        simp only [mulVec, dotProduct, transpose_apply, Finset.mul_sum, map_sum, Finset.sum_mul]
        rw [Finset.sum_comm]
        refine Finset.sum_congr rfl fun c _ => Finset.sum_congr rfl fun j _ => ?_
        have : (starRingEnd ℂ) (G m h c j) = G m h c j := by
          unfold G
          split_ifs
          · exact Complex.conj_ofReal _
          · exact Complex.conj_ofReal _
          · simp
        rw [map_mul, this]; ring
      rw [this]
      push_cast
      refine Finset.sum_congr rfl fun c _ => ?_
      rw [Complex.normSq_eq_conj_mul_self]
      unfold Mmu
      push_cast; ring
    · push_cast
      rw [Finset.mul_sum, Finset.mul_sum]
      refine Finset.sum_congr rfl fun j _ => ?_
      rw [Complex.normSq_eq_conj_mul_self]
      ring
  rw [hen2] at hen
  have hre := congrArg Complex.re hen
  rw [Complex.add_re, Complex.ofReal_re, Complex.re_mul_ofReal, Complex.I_re, zero_mul, add_zero, Complex.zero_re]
    at hre
  have hpos : ∀ c : Fin (m + 1), 0 ≤ h c * (1 / μ) * normSq ((G m h *ᵥ e) c) := fun c =>
    mul_nonneg (mul_nonneg (hh c (by have := c.2; omega)).le (by positivity)) (normSq_nonneg _)
  have hz := (Finset.sum_eq_zero_iff_of_nonneg fun c _ => hpos c).mp hre
  have hstep : ∀ c : Fin (m + 1), e c.succ = e c.castSucc := by
    intro c
    have hc := hz c (Finset.mem_univ c)
    have hhc := hh c (by have := c.2; omega)
    have h0 : (G m h *ᵥ e) c = 0 := by
      rcases mul_eq_zero.mp hc with h1 | h1
      · exact absurd h1 (by positivity)
      · exact normSq_eq_zero.mp h1
    rw [G_mulVec, div_eq_zero_iff] at h0
    rcases h0 with h0 | h0
    · exact sub_eq_zero.mp h0
    · exact absurd (by exact_mod_cast h0) hhc.ne'
  have hall : ∀ j : Fin (m + 2), e j = 0 := by
    intro j
    induction j using Fin.induction with
    | zero => exact e_zero
    | succ c ih => rw [hstep c, ih]
  funext k
  rw [← e_inn k, hall]; rfl

theorem solved_first (b0 b1 : ℂ) : solved m μ freq h σ b0 b1 0 = b0 := rfl

theorem solved_last (b0 b1 : ℂ) : solved m μ freq h σ b0 b1 (Fin.last (m + 1)) = b1 := by
  unfold solved
  rw [← Fin.succ_last, Fin.cons_succ, Fin.snoc_last]

theorem solved_inn (hh : ∀ j ≤ m, 0 < h j) (hμ : 0 < μ) (b0 b1 : ℂ) (i : Fin m) :
    (A m μ freq h σ *ᵥ solved m μ freq h σ b0 b1) (inn i) = 0 := by
  unfold solved
  rw [split_sum]
  have : Aii m μ freq h σ *ᵥ ((Aii m μ freq h σ)⁻¹ *ᵥ rhs m μ freq h σ b0 b1) = rhs m μ freq h σ b0 b1 := by
    rw [mulVec_mulVec, mul_nonsing_inv _ (Aii_unit hh hμ), one_mulVec]
  have hi := congrFun this i
  have e : (Aii m μ freq h σ *ᵥ ((Aii m μ freq h σ)⁻¹ *ᵥ rhs m μ freq h σ b0 b1)) i
      = ∑ k, A m μ freq h σ (inn i) (inn k) * ((Aii m μ freq h σ)⁻¹ *ᵥ rhs m μ freq h σ b0 b1) k := rfl
  rw [e] at hi
  rw [hi]
  unfold rhs
  ring

theorem solved_unique (hh : ∀ j ≤ m, 0 < h j) (hμ : 0 < μ) (b0 b1 : ℂ) (e : Fin (m + 2) → ℂ) (h0 : e 0 = b0)
    (h1 : e (Fin.last (m + 1)) = b1) (hA : ∀ i, (A m μ freq h σ *ᵥ e) (inn i) = 0) :
    e = solved m μ freq h σ b0 b1 := by
  have he : e = Fin.cons b0 (Fin.snoc (fun i => e (inn i)) b1 : Fin (m + 1) → ℂ) := by
    funext j
    refine Fin.cases ?_ (fun j => ?_) j
    · rw [Fin.cons_zero, h0]
    · rw [Fin.cons_succ]
      refine Fin.lastCases ?_ (fun j => ?_) j
      · rw [Fin.snoc_last, Fin.succ_last, h1]
      · rw [Fin.snoc_castSucc]; rfl
  have hx : Aii m μ freq h σ *ᵥ (fun i => e (inn i)) = rhs m μ freq h σ b0 b1 := by
    funext i
    have := hA i
    rw [he, split_sum] at this
    have e2 : (Aii m μ freq h σ *ᵥ (fun i => e (inn i))) i
      = ∑ k, A m μ freq h σ (inn i) (inn k) * e (inn k) := rfl
    rw [e2]
    unfold rhs
    linear_combination this
  unfold solved
  rw [← hx, mulVec_mulVec, nonsing_inv_mul _ (Aii_unit hh hμ), one_mulVec]
  exact he

/-- Fields of sources above are proportional to each other at the nodes. -/
theorem proportional {ε ω x0 : ℝ} {n : ℕ} (hω : 0 < ω) (hμ : 0 < μ) (hn : 0 < n) (hσ : ∀ j < n, 0 < σ j)
    (hh : ∀ j < n, 0 ≤ h j) {E H E' H' : ℝ → ℂ} (hf' : Analytic.IsField ε μ ω x0 n h σ E' H')
    (hf : Analytic.IsField ε μ ω x0 n h σ E H) (i : ℕ) (hi : i ≤ n) (j : ℕ) (hj : j ≤ n) :
    E' (node x0 h i) * E (node x0 h j) = E (node x0 h i) * E' (node x0 h j) := by
  have key : ∀ j ≤ n, H x0 * E' (node x0 h j) = H' x0 * E (node x0 h j) ∧
      H x0 * H' (node x0 h j) = H' x0 * H (node x0 h j) := by
    intro j
    induction j with
    | zero =>
      intro _
      rw [Analytic.node_zero, Analytic.halfspace hω hμ (hσ 0 hn) hf.halfspace hf.bounded,
        Analytic.halfspace hω hμ (hσ 0 hn) hf'.halfspace hf'.bounded]
      constructor <;> ring
    | succ j ih =>
      intro hj
      obtain ⟨i1, i2⟩ := ih (by omega)
      have hs := hσ j (by omega)
      have hl := hf.layer j (by omega)
      have hl' := hf'.layer j (by omega)
      rw [Analytic.node_succ] at hl hl' ⊢
      obtain ⟨e1, e2⟩ := Analytic.layer_top hω hμ hs (hh j (by omega)) hl
      obtain ⟨f1, f2⟩ := Analytic.layer_top hω hμ hs (hh j (by omega)) hl'
      have hZ := Analytic.imp_ne (ε := ε) hω hμ hs
      constructor
      · rw [e1, f1]; linear_combination (cosh (I * Analytic.wave ε μ ω (σ j) * h j)) * i1
          + Analytic.imp ε μ ω (σ j) * sinh (I * Analytic.wave ε μ ω (σ j) * h j) * i2
      · apply mul_left_cancel₀ hZ
        linear_combination H x0 * f2 - H' x0 * e2
          + Analytic.imp ε μ ω (σ j) * cosh (I * Analytic.wave ε μ ω (σ j) * h j) * i2
          + sinh (I * Analytic.wave ε μ ω (σ j) * h j) * i1
  have hH : H x0 ≠ 0 := by
    intro h0
    have := Analytic.Props.power_pos hω hμ hn hσ hh hf 0 (by omega)
    rw [Analytic.node_zero, h0] at this
    simp at this
  obtain ⟨a1, -⟩ := key i hi
  obtain ⟨b1, -⟩ := key j hj
  apply mul_left_cancel₀ hH
  linear_combination (E (node x0 h j)) * a1 - (E (node x0 h i)) * b1

/-! ### C182 -/

/-- **C182, equations**: the fields satisfy the finite volume equation at every inner node, whatever the amplitude,
and no others with the same values at the two ends do. -/
theorem C182_equations (ε x0 : ℝ) (hh : ∀ j ≤ m, 0 < h j) (hμ : 0 < μ) (a : Option ℂ) :
    (∀ i < m, NodeEq μ (2 * Real.pi * freq) h σ (ext (get1DEfields ε μ freq x0 m h σ a)) i) ∧
    ∀ e : Fin (m + 2) → ℂ, e 0 = get1DEfields ε μ freq x0 m h σ a 0 →
      e (Fin.last (m + 1)) = get1DEfields ε μ freq x0 m h σ a (Fin.last (m + 1)) →
      (∀ i < m, NodeEq μ (2 * Real.pi * freq) h σ (ext e) i) → e = get1DEfields ε μ freq x0 m h σ a := by
  have hne : ∀ j ≤ m, h j ≠ 0 := fun j hj => (hh j hj).ne'
  obtain ⟨b0, b1, hb⟩ : ∃ b0 b1, get1DEfields ε μ freq x0 m h σ a = solved m μ freq h σ b0 b1 := by
    unfold get1DEfields
    cases a with
    | some a => exact ⟨_, _, rfl⟩
    | none => exact ⟨_, _, rfl⟩
  rw [hb]
  constructor
  · intro i hi
    exact (A_inn hne hμ.ne' _ ⟨i, hi⟩).mp (solved_inn hh hμ b0 b1 ⟨i, hi⟩)
  · intro e h0 h1 hE
    refine solved_unique hh hμ b0 b1 e (h0.trans (solved_first _ _)) (h1.trans (solved_last _ _)) fun i => ?_
    exact (A_inn hne hμ.ne' e i).mpr (hE i.1 i.2)

/-- **C182, ends**: for every plane wave field of a source above the layers (Maxwell's equations in all cells and in
the half-space below), the value at the top is `sourceAmp` and the value at the bottom is in the ratio of that field.
In particular there is no division by zero. -/
theorem C182_ends (ε x0 : ℝ) (hfr : 0 < freq) (hh : ∀ j ≤ m, 0 < h j) (hσ : ∀ j ≤ m, 0 < σ j) (hμ : 0 < μ)
    (a : ℂ) {E H : ℝ → ℂ} (hf : Analytic.IsField ε μ (2 * Real.pi * freq) x0 (m + 1) h σ E H) :
    E (node x0 h (m + 1)) ≠ 0 ∧
    get1DEfields ε μ freq x0 m h σ (some a) (Fin.last (m + 1)) = a ∧
    get1DEfields ε μ freq x0 m h σ (some a) 0 = a * (E (node x0 h 0) / E (node x0 h (m + 1))) := by
  have hω : 0 < 2 * Real.pi * freq := by have := Real.pi_pos; positivity
  have hσ' : ∀ j < m + 1, 0 < σ j := fun j hj => hσ j (by omega)
  have hh' : ∀ j < m + 1, 0 < h j := fun j hj => hh j (by omega)
  have ne : ∀ {E H : ℝ → ℂ}, Analytic.IsField ε μ (2 * Real.pi * freq) x0 (m + 1) h σ E H →
      E (node x0 h (m + 1)) ≠ 0 := by
    intro E H hf h0
    have := Analytic.Props.power_pos hω hμ (by omega) hσ' (fun j hj => (hh' j hj).le) hf (m + 1) le_rfl
    rw [h0, zero_mul] at this
    exact lt_irrefl _ this
  obtain ⟨hF, -⟩ := Analytic.Props.C159_fields (ε := ε) (x0 := x0) hfr hμ (Nat.succ_pos m) hσ' hh' true 1 one_ne_zero
  have hEt : ∀ z, Etot ε μ freq x0 m h σ z = Analytic.Props.totalE (getEHfields ε μ freq x0 (m + 1) h σ true 1 z) := by
    intro z
    unfold Etot Analytic.Props.totalE
    split <;> simp_all
  have hT : Etot ε μ freq x0 m h σ (node x0 h (m + 1)) ≠ 0 := by rw [hEt]; exact ne hF
  refine ⟨ne hf, ?_, ?_⟩
  · unfold get1DEfields
    simp only
    rw [solved_last, div_self hT, one_mul]
  · unfold get1DEfields
    simp only
    rw [solved_first, mul_comm]
    congr 1
    rw [div_eq_div_iff hT (ne hf), hEt, hEt]
    exact proportional hω hμ (Nat.succ_pos m) hσ' (fun j hj => (hh' j hj).le) hF hf 0 (by omega) (m + 1) le_rfl

/-- **C182, amplitude**: the fields are proportional to the amplitude. -/
theorem C182_amplitude (ε x0 : ℝ) (hh : ∀ j ≤ m, 0 < h j) (hμ : 0 < μ) (a c : ℂ) :
    get1DEfields ε μ freq x0 m h σ (some (c * a)) = fun j => c * get1DEfields ε μ freq x0 m h σ (some a) j := by
  unfold get1DEfields
  simp only
  set b := Etot ε μ freq x0 m h σ (node x0 h 0)
  set t := Etot ε μ freq x0 m h σ (node x0 h (m + 1))
  symm
  refine solved_unique hh hμ _ _ _ ?_ ?_ ?_
  · rw [solved_first]; ring
  · rw [solved_last]; ring
  · intro i
    have : (fun j => c * solved m μ freq h σ (b / t * a) (t / t * a) j)
        = c • solved m μ freq h σ (b / t * a) (t / t * a) := rfl
    rw [this, mulVec_smul, Pi.smul_apply, solved_inn hh hμ, smul_zero]

/-- **C182, no amplitude**: without an amplitude the fields are those with the amplitude of the analytic solution,
whose down-going part is one at the top. -/
theorem C182_unscaled (ε x0 : ℝ) (hfr : 0 < freq) (hh : ∀ j ≤ m, 0 < h j) (hσ : ∀ j ≤ m, 0 < σ j) (hμ : 0 < μ) :
    ∃ Eu Hd Hu, getEHfields ε μ freq x0 (m + 1) h σ true 1 (node x0 h (m + 1)) = some (1, Eu, Hd, Hu) ∧
      get1DEfields ε μ freq x0 m h σ none = get1DEfields ε μ freq x0 m h σ (some (1 + Eu)) := by
  have hω : 0 < 2 * Real.pi * freq := by have := Real.pi_pos; positivity
  have hσ' : ∀ j < m + 1, 0 < σ j := fun j hj => hσ j (by omega)
  have hh' : ∀ j < m + 1, 0 < h j := fun j hj => hh j (by omega)
  obtain ⟨hF, h2⟩ := Analytic.Props.C159_fields (ε := ε) (x0 := x0) hfr hμ (Nat.succ_pos m) hσ' hh' true 1 one_ne_zero
  obtain ⟨Ed, Eu, Hd, Hu, h3, -, h4, -⟩ := h2 _ le_rfl
  have h5 := h4 rfl rfl
  subst h5
  refine ⟨Eu, Hd, Hu, h3, ?_⟩
  have hT : Etot ε μ freq x0 m h σ (node x0 h (m + 1)) = 1 + Eu := by unfold Etot; rw [h3]
  have hp := Analytic.Props.power_pos hω hμ (Nat.succ_pos m) hσ' (fun j hj => (hh' j hj).le) hF (m + 1) le_rfl
  have hne : (1 : ℂ) + Eu ≠ 0 := by
    intro h0
    simp only [h3, Analytic.Props.totalE, h0, zero_mul] at hp
    exact lt_irrefl _ hp
  unfold get1DEfields
  simp only [hT]
  rw [div_mul_cancel₀ _ hne, div_mul_cancel₀ _ hne]

/-- Three cells, the middle one resistive: the conditions hold, the value at the top is the amplitude. -/
example : get1DEfields 0 1 1 0 2 (fun _ => 1) (fun j => if j = 1 then 1 / 100 else 1) (some 3) (Fin.last 3) = 3 := by
  obtain ⟨hF, -⟩ := Analytic.Props.C159_fields (ε := 0) (x0 := 0) (μ := 1) (n := 3) (h := fun _ => 1)
    (σ := fun j => if j = 1 then 1 / 100 else 1) one_pos one_pos (by norm_num)
    (fun j _ => by split <;> norm_num) (fun _ _ => one_pos) true 1 one_ne_zero
  exact (C182_ends (m := 2) 0 0 one_pos (fun _ _ => one_pos) (fun j _ => by split <;> norm_num) one_pos 3 hF).2.1

end Verif.NSEM.Efields1D
