import Verif.Basic
import Verif.Jacobian
import Mathlib.Data.Matrix.Mul
import Mathlib.Data.Fin.VecNotation
import Mathlib.Algebra.BigOperators.Fin
import Mathlib.Algebra.Order.BigOperators.Ring.Finset
import Mathlib.LinearAlgebra.Matrix.NonsingularInverse
import Mathlib.Tactic.FinCases
import Mathlib.Tactic.FieldSimp
import Mathlib.Tactic.Positivity

/-!
Self potential (`simpeg/electromagnetics/static/self_potential/simulation.py`): maps from current density
and hydraulic head to charge, predictions and sensitivities (C122), and what is kept between calls (C123).
-/

noncomputable section

namespace Verif.DC.SP
open Matrix

/-! ### Mesh and maps -/

/-- A mesh of cells and faces: the normal of a face points out of `left` and into `right`; missing cells
are outside.  `avg f k` are the weights with which cells enter the average on a face, and `dir` is the
direction of its normal (`discretize` is not part of the repository). -/
structure Mesh (ι φ : Type) where
  left : φ → Option ι
  right : φ → Option ι
  area : φ → ℝ
  vol : ι → ℝ
  dir : φ → Fin 3
  avg : φ → ι → ℝ

variable {ι φ : Type} [Fintype ι] [Fintype φ] [DecidableEq ι]

/-- `mesh.face_divergence`. -/
def Mesh.div (M : Mesh ι φ) (i : ι) (f : φ) : ℝ :=
  M.area f / M.vol i * ((if M.left f = some i then 1 else 0) - (if M.right f = some i then 1 else 0))

open Classical in
/-- `boundary_faces` of `CurrentDensityMap` (`simulation.py` 117): the transposed divergence of the active
cells does not vanish. -/
def Mesh.flagged (M : Mesh ι φ) (act : ι → Bool) (f : φ) : Bool :=
  decide ((∑ i, M.div i f * (if act i then 1 else 0)) ≠ 0)

/-- Current density on a face: `cv_to_f` applied to the current density of the active cells (109, 123-124). -/
def Mesh.onFace (M : Mesh ι φ) (act : ι → Bool) (j : ι → Fin 3 → ℝ) (f : φ) : ℝ :=
  ∑ k, M.avg f k * (if act k then j k (M.dir f) else 0)

/-- `CurrentDensityMap` (108-126). -/
def Mesh.current (M : Mesh ι φ) (active : Option (ι → Bool)) (j : ι → Fin 3 → ℝ) (i : ι) : ℝ :=
  match active with
  | none => -∑ f, M.div i f * M.onFace (fun _ => true) j f
  | some act => -∑ f, M.div i f * (if M.flagged act f then 0 else M.onFace act j f)

/-- Diagonal of `get_face_inner_product(L, invert_model=True)` for one value per cell on tensor meshes. -/
def Mesh.faceMass (M : Mesh ι φ) (L : ι → ℝ) (f : φ) : ℝ :=
  ∑ k, (if M.left f = some k ∨ M.right f = some k then M.vol k / L k / 2 else 0)

/-- `HydraulicHeadMap` (152-156). -/
def Mesh.hydraulic (M : Mesh ι φ) (L h : ι → ℝ) (i : ι) : ℝ :=
  ∑ f, M.div i f * ((M.faceMass L f)⁻¹ * ∑ k, M.div k f * (M.vol k * h k))

/-- The matrix of the resistivity simulation with Dirichlet conditions
(`resistivity/simulation.py` 355-367, 412-424), applied to a potential. -/
def Mesh.dcA (M : Mesh ι φ) (σ u : ι → ℝ) (i : ι) : ℝ :=
  ∑ f, M.vol i * M.div i f * ((M.faceMass σ f)⁻¹ * ∑ k, M.vol k * M.div k f * u k)

/-! ### Simulation -/

/-- The row of the first cell replaced for Neumann conditions (`resistivity/simulation.py` 369-377). -/
def pin (A : Matrix ι ι ℝ) (i₀ : ι) : Matrix ι ι ℝ :=
  fun i k => if i = i₀ then (if k = i₀ then 1 else 0) else A i k

variable {δ μ : Type} [Fintype δ] [Fintype μ]

/-- A simulation: the inverse of its matrix, projections of all receivers, volumes, and the charge as a
function of the model with the derivative of its map. -/
structure Sim (ι δ μ : Type) where
  Ainv : Matrix ι ι ℝ
  P : Matrix δ ι ℝ
  vol : ι → ℝ
  q : (μ → ℝ) → ι → ℝ
  qD : (μ → ℝ) → Matrix ι μ ℝ

/-- `dpred` with `getRHS` (72-73; `resistivity/simulation.py` 100-113). -/
def Sim.dpred (s : Sim ι δ μ) (m : μ → ℝ) : δ → ℝ := s.P *ᵥ (s.Ainv *ᵥ (diagonal s.vol *ᵥ s.q m))

/-- `Jvec` with `getRHSDeriv` (75-78; `resistivity/simulation.py` 156-185); the conductivity has no map. -/
def Sim.jvec (s : Sim ι δ μ) (m v : μ → ℝ) : δ → ℝ :=
  s.P *ᵥ (s.Ainv *ᵥ (diagonal s.vol *ᵥ (s.qD m *ᵥ v)))

/-- `Jtvec` (`resistivity/simulation.py` 187-256): the same solver is used for the transposed system. -/
def Sim.jtvec (s : Sim ι δ μ) (m : μ → ℝ) (w : δ → ℝ) : μ → ℝ :=
  (s.qD m)ᵀ *ᵥ (diagonal s.vol *ᵥ (s.Ainv *ᵥ (s.Pᵀ *ᵥ w)))

/-! ### What is kept -/

/-- Sensitivities as a function of the model, products and weighted diagonals. -/
structure World where
  M : Type
  Mat : Type
  Vec : Type
  Wt : Type
  sens : M → Mat
  mul : Mat → Vec → Vec
  diag : Mat → Wt → Vec
  [dec : DecidableEq M]

attribute [instance] World.dec

variable {W : World}

/-- Attributes `model`, `_Jmatrix`, `_gtgdiag`. -/
structure St (W : World) where
  model : Option W.M := none
  jm : Option W.Mat := none
  gtg : Option W.Vec := none

/-- Settings: `storeJ`, and whether the map of the charge is linear. -/
structure Opts where
  storeJ : Bool
  linear : Bool

/-- Assignment of the model with `_delete_on_model_update` (80-87). -/
def St.setModel (o : Opts) (s : St W) (m : W.M) : St W :=
  if s.model = some m then s
  else if o.storeJ && !o.linear then { model := some m, jm := none, gtg := none }
  else { s with model := some m }

/-- `getJ` (`resistivity/simulation.py` 115-121). -/
def St.getJ (o : Opts) (s : St W) (m : W.M) : St W × W.Mat :=
  let s1 := s.setModel o m
  match s1.jm with
  | some j => (s1, j)
  | none => ({ s1 with jm := some (W.sens m) }, W.sens m)

/-- `Jvec` and `Jtvec` (`resistivity/simulation.py` 156-203). -/
def St.product (o : Opts) (s : St W) (m : W.M) (v : W.Vec) : St W × W.Vec :=
  if o.storeJ then
    let r := (s.setModel o m).getJ o m
    (r.1, W.mul r.2 v)
  else (s.setModel o m, W.mul (W.sens m) v)

/-- `getJtJdiag` (`resistivity/simulation.py` 138-154). -/
def St.jtjdiag (o : Opts) (s : St W) (m : W.M) (w : W.Wt) : St W × W.Vec :=
  match s.gtg with
  | some d => (s, d)
  | none =>
    let r := s.getJ o m
    ({ r.1 with gtg := some (W.diag r.2 w) }, W.diag r.2 w)

inductive Op (W : World)
  | assign (m : W.M)
  | getJ (m : W.M)
  | product (m : W.M) (v : W.Vec)
  | diag (m : W.M) (w : W.Wt)

inductive Out (W : World)
  | unit
  | mat (j : W.Mat)
  | vec (v : W.Vec)

def step (o : Opts) (s : St W) : Op W → St W × Out W
  | .assign m => (s.setModel o m, .unit)
  | .getJ m => ((s.getJ o m).1, .mat (s.getJ o m).2)
  | .product m v => ((s.product o m v).1, .vec (s.product o m v).2)
  | .diag m w => ((s.jtjdiag o m w).1, .vec (s.jtjdiag o m w).2)

def outs (o : Opts) : St W → List (Op W) → List (Out W)
  | _, [] => []
  | s, p :: ps => (step o s p).2 :: outs o (step o s p).1 ps

end Verif.DC.SP

namespace Verif.DC.SP.Props
open Matrix Verif.DC.SP

variable {ι φ : Type} [Fintype ι] [Fintype φ] [DecidableEq ι]

/-- A mesh as such: positive volumes and areas, faces separate different cells, and averages on a face use
only the cells at this face. -/
structure Regular (M : Mesh ι φ) : Prop where
  vol : ∀ i, 0 < M.vol i
  area : ∀ f, 0 < M.area f
  sides : ∀ f i, M.left f = some i → M.right f ≠ some i
  avg : ∀ f k, M.avg f k ≠ 0 → M.left f = some k ∨ M.right f = some k

/-- Value at one side of a face, zero outside the mesh. -/
def side (o : Option ι) (g : ι → ℝ) : ℝ := (o.map g).getD 0

theorem sum_side (o : Option ι) (g : ι → ℝ) : ∑ i, (if o = some i then g i else 0) = side o g := by
  cases o with
  | none => simp [side]
  | some a =>
    simp only [Option.some.injEq, side, Option.map_some, Option.getD_some]
    simp

theorem sum_div (M : Mesh ι φ) (f : φ) (g : ι → ℝ) :
    ∑ i, M.div i f * g i = M.area f * (side (M.left f) (fun i => g i / M.vol i) -
      side (M.right f) (fun i => g i / M.vol i)) := by
  rw [← sum_side, ← sum_side, ← Finset.sum_sub_distrib, Finset.mul_sum]
  refine Finset.sum_congr rfl fun i _ => ?_
  unfold Mesh.div
  split <;> split <;> ring

theorem sum_vol_div (M : Mesh ι φ) (h : Regular M) (f : φ) :
    ∑ i, M.vol i * M.div i f = M.area f * (side (M.left f) (fun _ => 1) - side (M.right f) (fun _ => 1)) := by
  have e : ∀ i, M.vol i * M.div i f = M.div i f * M.vol i := fun i => mul_comm _ _
  simp only [e]
  rw [sum_div]
  have : (fun i => M.vol i / M.vol i) = fun _ : ι => (1 : ℝ) := by
    funext i; exact div_self (h.vol i).ne'
  rw [this]

theorem flagged_iff (M : Mesh ι φ) (h : Regular M) (act : ι → Bool) (f : φ) :
    M.flagged act f = true ↔ side (M.left f) (fun i => (if act i then 1 else 0) / M.vol i) ≠
      side (M.right f) (fun i => (if act i then 1 else 0) / M.vol i) := by
  unfold Mesh.flagged
  rw [decide_eq_true_iff, sum_div]
  have := (h.area f).ne'
  rw [Ne, mul_eq_zero, sub_eq_zero]
  simp [this]

/-- A cell at a face is active. -/
def isActive (act : ι → Bool) (o : Option ι) : Bool := (o.map act).getD false

theorem side_act_pos (M : Mesh ι φ) (h : Regular M) (act : ι → Bool) (o : Option ι) :
    (isActive act o = true → 0 < side o (fun i => (if act i then 1 else 0) / M.vol i)) ∧
    (isActive act o = false → side o (fun i => (if act i then 1 else 0) / M.vol i) = 0) := by
  cases o with
  | none => simp [isActive, side]
  | some a =>
    constructor
    · intro ha
      simp only [isActive, Option.map_some, Option.getD_some] at ha
      simpa [side, ha] using h.vol a
    · intro ha
      simp only [isActive, Option.map_some, Option.getD_some] at ha
      simp [side, ha]

/-- A face between an active cell and anything else is at the boundary. -/
theorem flagged_of_one (M : Mesh ι φ) (h : Regular M) (act : ι → Bool) (f : φ)
    (hne : isActive act (M.left f) ≠ isActive act (M.right f)) : M.flagged act f = true := by
  rw [flagged_iff M h]
  obtain ⟨l1, l2⟩ := side_act_pos M h act (M.left f)
  obtain ⟨r1, r2⟩ := side_act_pos M h act (M.right f)
  cases hl : isActive act (M.left f) <;> cases hr : isActive act (M.right f) <;> simp_all
  · exact r1.ne
  · exact l1.ne'

theorem onFace_inactive (M : Mesh ι φ) (h : Regular M) (act : ι → Bool) (j : ι → Fin 3 → ℝ) (f : φ)
    (hl : isActive act (M.left f) = false) (hr : isActive act (M.right f) = false) : M.onFace act j f = 0 := by
  unfold Mesh.onFace
  refine Finset.sum_eq_zero fun k _ => ?_
  by_cases hk : M.avg f k = 0
  · simp [hk]
  · rcases h.avg f k hk with e | e
    · simp only [e, isActive, Option.map_some, Option.getD_some] at hl
      simp [hl]
    · simp only [e, isActive, Option.map_some, Option.getD_some] at hr
      simp [hr]

/-- **C122 (charge is conserved).** With active cells given, the charges of all cells add up to zero, and
inactive cells have none. -/
theorem C122_conserved (M : Mesh ι φ) (h : Regular M) (act : ι → Bool) (j : ι → Fin 3 → ℝ) :
    ∑ i, M.vol i * M.current (some act) j i = 0 ∧ ∀ i, act i = false → M.current (some act) j i = 0 := by
  constructor
  · have e : ∑ i, M.vol i * M.current (some act) j i =
        -∑ f, (∑ i, M.vol i * M.div i f) * (if M.flagged act f then 0 else M.onFace act j f) := by
      simp only [Mesh.current, mul_neg, Finset.sum_neg_distrib, Finset.mul_sum]
      rw [Finset.sum_comm]
      simp only [Finset.sum_mul, mul_assoc]
    rw [e, neg_eq_zero]
    refine Finset.sum_eq_zero fun f _ => ?_
    rw [sum_vol_div M h]
    cases hf : M.flagged act f
    · simp only [Bool.false_eq_true, if_false]
      have hlr : isActive act (M.left f) = isActive act (M.right f) := by
        by_contra hne
        rw [flagged_of_one M h act f hne] at hf
        exact absurd hf (by decide)
      cases hl : isActive act (M.left f)
      · rw [onFace_inactive M h act j f hl (hlr ▸ hl), mul_zero]
      · have hr := hlr ▸ hl
        have hs : ∀ o : Option ι, isActive act o = true → side o (fun _ : ι => (1 : ℝ)) = 1 := by
          intro o ho
          cases o with
          | none => simp [isActive] at ho
          | some a => rfl
        rw [hs _ hl, hs _ hr, sub_self, mul_zero, zero_mul]
    · simp
  · intro i hi
    simp only [Mesh.current, neg_eq_zero]
    refine Finset.sum_eq_zero fun f _ => ?_
    by_cases hd : M.div i f = 0
    · rw [hd, zero_mul]
    · have hlr : M.left f = some i ∨ M.right f = some i := by
        by_contra hc
        push Not at hc
        exact hd (by simp [Mesh.div, hc.1, hc.2])
      cases hf : M.flagged act f
      · have heq : isActive act (M.left f) = isActive act (M.right f) := by
          by_contra hne
          rw [flagged_of_one M h act f hne] at hf
          exact absurd hf (by decide)
        have hboth : isActive act (M.left f) = false ∧ isActive act (M.right f) = false := by
          rcases hlr with e | e
          · have : isActive act (M.left f) = false := by simp [e, isActive, hi]
            exact ⟨this, heq ▸ this⟩
          · have : isActive act (M.right f) = false := by simp [e, isActive, hi]
            exact ⟨heq ▸ this, this⟩
        rw [onFace_inactive M h act j f hboth.1 hboth.2]
        simp
      · simp

/-- **C122, part (divergence).** If all active cells have the same volume, the charge is minus the
divergence of the currents through faces between active cells, those at the boundary of the active cells
being zero.  Missing: different volumes, see `C122_violated_volumes`. -/
theorem C122_divergence_partial (M : Mesh ι φ) (h : Regular M) (act : ι → Bool) (j : ι → Fin 3 → ℝ)
    (hv : ∀ i k, act i = true → act k = true → M.vol i = M.vol k) (i : ι) :
    M.current (some act) j i = -∑ f, M.div i f *
      (if isActive act (M.left f) && isActive act (M.right f) then M.onFace act j f else 0) := by
  simp only [Mesh.current]
  congr 1
  refine Finset.sum_congr rfl fun f _ => ?_
  congr 1
  cases hl : isActive act (M.left f) <;> cases hr : isActive act (M.right f)
  · rw [onFace_inactive M h act j f hl hr]; simp
  · rw [flagged_of_one M h act f (by rw [hl, hr]; decide)]; simp
  · rw [flagged_of_one M h act f (by rw [hl, hr]; decide)]; simp
  · have : M.flagged act f = false := by
      rw [← Bool.not_eq_true, flagged_iff M h, not_not]
      cases el : M.left f with
      | none => simp [el, isActive] at hl
      | some a =>
        cases er : M.right f with
        | none => simp [er, isActive] at hr
        | some b =>
          simp only [el, er, isActive, Option.map_some, Option.getD_some] at hl hr
          simp [side, hl, hr, hv a b hl hr]
    simp [this]

/-- Two cells in a row with volumes `1` and `v`. -/
def two (v : ℝ) : Mesh (Fin 2) (Fin 3) where
  left := ![none, some 0, some 1]
  right := ![some 0, some 1, none]
  area := fun _ => 1
  vol := ![1, v]
  dir := fun _ => 0
  avg := ![![1, 0], ![1 / 2, 1 / 2], ![0, 1]]

theorem two_regular (v : ℝ) (hv : 0 < v) : Regular (two v) := by
  refine ⟨?_, ?_, ?_, ?_⟩
  · intro i; fin_cases i <;> simp [two, hv]
  · intro f; simp [two]
  · intro f i; fin_cases f <;> fin_cases i <;> simp [two]
  · intro f k; fin_cases f <;> fin_cases k <;> simp [two]

/-- **C122, violated: cells of different volumes.** A face between active cells of different volumes is
taken for a boundary, so a current through it has no charges at all, although the current ends in both
cells. -/
theorem C122_violated_volumes : ∃ M : Mesh (Fin 2) (Fin 3), Regular M ∧ ∃ j, (∀ i, j i 0 = 1) ∧
    (∀ i, M.current (some fun _ => true) j i = 0) ∧
    -∑ f, M.div 0 f * (if isActive (fun _ => true) (M.left f) && isActive (fun _ => true) (M.right f)
      then M.onFace (fun _ => true) j f else 0) = -1 := by
  refine ⟨two 2, two_regular 2 (by norm_num), fun _ _ => 1, fun _ => rfl, ?_, ?_⟩
  · have hf : ∀ f, (two 2).flagged (fun _ => true) f = true := by
      intro f
      rw [flagged_iff _ (two_regular 2 (by norm_num))]
      fin_cases f <;> norm_num [two, side]
    intro i
    simp [Mesh.current, hf]
  · simp [Fin.sum_univ_three, Mesh.div, Mesh.onFace, two, isActive, Fin.sum_univ_two]
    norm_num

/-- **C122, violated: default.** All cells active is not the same as no active cells given: only then
currents stop at the boundary of the mesh. -/
theorem C122_violated_default : ∃ M : Mesh (Fin 2) (Fin 3), Regular M ∧ ∃ j,
    M.current none j 0 = 0 ∧ M.current (some fun _ => true) j 0 = -1 := by
  refine ⟨two 1, two_regular 1 (by norm_num), fun _ _ => 1, ?_, ?_⟩
  · simp [Mesh.current, Fin.sum_univ_three, Mesh.div, Mesh.onFace, two, Fin.sum_univ_two]
    norm_num
  · rw [C122_divergence_partial _ (two_regular 1 (by norm_num)) _ _ (by
      intro i k _ _; fin_cases i <;> fin_cases k <;> simp [two])]
    simp [Fin.sum_univ_three, Mesh.div, Mesh.onFace, two, isActive, Fin.sum_univ_two]
    norm_num

theorem sum_swap_square (M : Mesh ι φ) (L h : ι → ℝ) :
    ∑ i, M.vol i * h i * M.hydraulic L h i =
      ∑ f, (M.faceMass L f)⁻¹ * (∑ k, M.div k f * (M.vol k * h k)) ^ 2 := by
  simp only [Mesh.hydraulic, Finset.mul_sum]
  rw [Finset.sum_comm]
  refine Finset.sum_congr rfl fun f _ => ?_
  rw [pow_two, Finset.sum_mul, Finset.mul_sum]
  refine Finset.sum_congr rfl fun i _ => ?_
  rw [Finset.mul_sum, Finset.mul_sum]
  refine Finset.sum_congr rfl fun k _ => ?_
  ring

/-- **C122, part (hydraulic head).** For a coupling equal to the conductivity the charges of a head are
those of the potential equal to this head: `A(L) h = V q`, and `h` times the charges is never negative.
Missing: the sign, see `C122_violated_sign`. -/
theorem C122_hydraulic_partial (M : Mesh ι φ) (hM : Regular M) (L h : ι → ℝ) (hL : ∀ i, 0 < L i) :
    (∀ i, M.dcA L h i = M.vol i * M.hydraulic L h i) ∧ 0 ≤ ∑ i, M.vol i * h i * M.hydraulic L h i := by
  constructor
  · intro i
    unfold Mesh.dcA Mesh.hydraulic
    rw [Finset.mul_sum]
    refine Finset.sum_congr rfl fun f _ => ?_
    have : ∑ k, M.vol k * M.div k f * h k = ∑ k, M.div k f * (M.vol k * h k) :=
      Finset.sum_congr rfl fun k _ => by ring
    rw [this]; ring
  · rw [sum_swap_square]
    refine Finset.sum_nonneg fun f _ => mul_nonneg (inv_nonneg.2 ?_) (sq_nonneg _)
    unfold Mesh.faceMass
    refine Finset.sum_nonneg fun k _ => ?_
    have := hM.vol k
    have := hL k
    split <;> positivity

/-- **C122, part (hydraulic head).** The charges are proportional to the coupling. -/
theorem C122_hydraulic_scale (M : Mesh ι φ) (c : ℝ) (L h : ι → ℝ) (i : ι) :
    M.hydraulic (fun k => c * L k) h i = c * M.hydraulic L h i := by
  have hm : ∀ f, M.faceMass (fun k => c * L k) f = c⁻¹ * M.faceMass L f := by
    intro f
    unfold Mesh.faceMass
    rw [Finset.mul_sum]
    refine Finset.sum_congr rfl fun k _ => ?_
    split
    · rw [div_mul_eq_div_div_swap]; ring
    · ring
  unfold Mesh.hydraulic
  rw [Finset.mul_sum]
  refine Finset.sum_congr rfl fun f _ => ?_
  rw [hm, mul_inv, inv_inv]
  ring

/-- Three cells of size one in a row. -/
def three : Mesh (Fin 3) (Fin 4) where
  left := ![none, some 0, some 1, some 2]
  right := ![some 0, some 1, some 2, none]
  area := fun _ => 1
  vol := fun _ => 1
  dir := fun _ => 0
  avg := ![![1, 0, 0], ![1 / 2, 1 / 2, 0], ![0, 1 / 2, 1 / 2], ![0, 0, 1]]

/-- **C122, violated: sign of the hydraulic head map.** The map is documented as the divergence of the
coupling times the gradient of the head, whose value in a cell of size one is the second difference of the
head.  It returns the opposite. -/
theorem C122_violated_sign (h : Fin 3 → ℝ) : three.hydraulic (fun _ => 1) h 1 = -(h 0 - 2 * h 1 + h 2) := by
  simp [Mesh.hydraulic, Fin.sum_univ_four, Fin.sum_univ_three, Mesh.div, Mesh.faceMass, three]
  ring

/-! ### Predictions and products -/

variable {δ μ : Type} [Fintype δ] [Fintype μ]

/-- **C122 (Jvec).** `Jvec` is the derivative of the predicted data for any map to charges and any
boundary conditions. -/
theorem C122_jvec (s : Sim ι δ μ) (m : μ → ℝ) (h : IsJacobian s.q (s.qD m) m) :
    ∃ J : Matrix δ μ ℝ, IsJacobian s.dpred J m ∧ ∀ v, s.jvec m v = J *ᵥ v := by
  refine ⟨s.P * (s.Ainv * (diagonal s.vol * s.qD m)), ?_, fun v => ?_⟩
  · exact ((h.mulVec (diagonal s.vol)).mulVec s.Ainv).mulVec s.P
  · simp only [Sim.jvec, Matrix.mulVec_mulVec]

/-- **C122, part (Jtvec).** `Jtvec` is the adjoint of `Jvec` if the matrix of the problem is symmetric.
Missing: Neumann conditions, see `C122_violated_neumann`. -/
theorem C122_adjoint_partial (A : Matrix ι ι ℝ) (s : Sim ι δ μ) (hA : A * s.Ainv = 1) (hs : Aᵀ = A)
    (m v : μ → ℝ) (w : δ → ℝ) : s.jvec m v ⬝ᵥ w = v ⬝ᵥ s.jtvec m w := by
  have hi : s.Ainvᵀ = s.Ainv := by
    have h1 : s.Ainv * A = 1 := mul_eq_one_comm.1 hA
    have h2 : s.Ainvᵀ * A = 1 := by
      have := congrArg Matrix.transpose hA
      rwa [Matrix.transpose_mul, hs, Matrix.transpose_one] at this
    calc s.Ainvᵀ = s.Ainvᵀ * (A * s.Ainv) := by rw [hA, Matrix.mul_one]
      _ = s.Ainv := by rw [← Matrix.mul_assoc, h2, Matrix.one_mul]
  have tr : ∀ {a b : Type} [Fintype a] [Fintype b] (B : Matrix a b ℝ) (x : b → ℝ) (y : a → ℝ),
      (B *ᵥ x) ⬝ᵥ y = x ⬝ᵥ (Bᵀ *ᵥ y) := by
    intro a b _ _ B x y
    rw [dotProduct_comm, dotProduct_mulVec, ← mulVec_transpose, dotProduct_comm]
  unfold Sim.jvec Sim.jtvec
  rw [tr, tr, tr, tr, hi, diagonal_transpose]

/-- **C122, violated: Neumann conditions.** Replacing the row of the first cell makes the matrix
unsymmetric: with the Laplacian of two cells and one potential electrode `Jtvec` is not the adjoint. -/
theorem C122_violated_neumann : ∃ (A : Matrix (Fin 2) (Fin 2) ℝ) (s : Sim (Fin 2) (Fin 1) (Fin 2)),
    Aᵀ = A ∧ pin A 0 * s.Ainv = 1 ∧ ∃ m v w, s.jvec m v ⬝ᵥ w ≠ v ⬝ᵥ s.jtvec m w := by
  refine ⟨!![1, -1; -1, 1], ⟨!![1, 0; 1, 1], !![0, 1], fun _ => 1, fun m => m, fun _ => 1⟩, ?_, ?_, 0,
    ![1, 0], ![1], ?_⟩
  · ext i k; fin_cases i <;> fin_cases k <;> rfl
  · ext i k
    fin_cases i <;> fin_cases k <;> simp [pin, Matrix.mul_apply, Fin.sum_univ_two]
  · simp [Sim.jvec, Sim.jtvec, Matrix.mulVec, dotProduct, Fin.sum_univ_two, Matrix.diagonal_apply]

/-- Hypotheses of the parts. -/
example : Regular three ∧ (∀ i k, three.vol i = three.vol k) ∧
    ∃ s : Sim (Fin 2) (Fin 1) (Fin 2), !![2, 1; 1, 2] * s.Ainv = 1 ∧ !![(2 : ℝ), 1; 1, 2]ᵀ = !![2, 1; 1, 2] := by
  refine ⟨⟨?_, ?_, ?_, ?_⟩, fun _ _ => rfl, ⟨!![2 / 3, -1 / 3; -1 / 3, 2 / 3], 0, 0, fun m => m, fun _ => 1⟩,
    ?_, ?_⟩
  · intro i; simp [three]
  · intro f; simp [three]
  · intro f i; fin_cases f <;> fin_cases i <;> simp [three]
  · intro f k; fin_cases f <;> fin_cases k <;> simp [three]
  · ext i k; fin_cases i <;> fin_cases k <;> norm_num [Matrix.mul_apply, Fin.sum_univ_two]
  · ext i k; fin_cases i <;> fin_cases k <;> rfl

/-! ### C123: history -/

variable {W : World}

/-- What a new simulation returns. -/
def fresh : Op W → Out W
  | .assign _ => .unit
  | .getJ m => .mat (W.sens m)
  | .product m v => .vec (W.mul (W.sens m) v)
  | .diag m w => .vec (W.diag (W.sens m) w)

/-- Sensitivities do not depend on the model, as for linear maps. -/
def Const (W : World) : Prop := ∀ m m' : W.M, W.sens m = W.sens m'

/-- Calls with weights, if any, equal to `w0`. -/
def weights (w0 : W.Wt) : Op W → Prop
  | .diag _ w => w = w0
  | _ => True

theorem getJ_some (o : Opts) (s : St W) (m : W.M) (j : W.Mat) (h : (s.setModel o m).jm = some j) :
    s.getJ o m = (s.setModel o m, j) := by
  unfold St.getJ
  simp only [h]

theorem getJ_none (o : Opts) (s : St W) (m : W.M) (h : (s.setModel o m).jm = none) :
    s.getJ o m = ({ s.setModel o m with jm := some (W.sens m) }, W.sens m) := by
  unfold St.getJ
  simp only [h]

theorem const_step (hc : Const W) (o : Opts) (w0 : W.Wt) (s : St W)
    (hj : ∀ j, s.jm = some j → ∀ m, j = W.sens m)
    (hd : ∀ d, s.gtg = some d → ∀ m, d = W.diag (W.sens m) w0) (p : Op W) (hp : weights w0 p) :
    (step o s p).2 = fresh p ∧ (∀ j, (step o s p).1.jm = some j → ∀ m, j = W.sens m) ∧
    (∀ d, (step o s p).1.gtg = some d → ∀ m, d = W.diag (W.sens m) w0) := by
  have hset : ∀ (s : St W) m, (∀ j, s.jm = some j → ∀ m, j = W.sens m) →
      (∀ d, s.gtg = some d → ∀ m, d = W.diag (W.sens m) w0) →
      (∀ j, (s.setModel o m).jm = some j → ∀ m, j = W.sens m) ∧
      (∀ d, (s.setModel o m).gtg = some d → ∀ m, d = W.diag (W.sens m) w0) := by
    intro s m h1 h2
    unfold St.setModel
    split
    · exact ⟨h1, h2⟩
    · split
      · exact ⟨by simp, by simp⟩
      · exact ⟨h1, h2⟩
  have hget : ∀ (s : St W) m, (∀ j, s.jm = some j → ∀ m, j = W.sens m) →
      (∀ d, s.gtg = some d → ∀ m, d = W.diag (W.sens m) w0) →
      (s.getJ o m).2 = W.sens m ∧ (∀ j, (s.getJ o m).1.jm = some j → ∀ m, j = W.sens m) ∧
      (∀ d, (s.getJ o m).1.gtg = some d → ∀ m, d = W.diag (W.sens m) w0) := by
    intro s m h1 h2
    obtain ⟨a, b⟩ := hset s m h1 h2
    cases hx : (s.setModel o m).jm with
    | some j => rw [getJ_some o s m j hx]; exact ⟨a j hx m, a, b⟩
    | none =>
      rw [getJ_none o s m hx]
      exact ⟨rfl, fun j' hj' m' => by simp at hj'; rw [← hj']; exact hc _ _, b⟩
  cases p with
  | assign m => exact ⟨rfl, hset s m hj hd⟩
  | getJ m =>
    obtain ⟨a, b, c⟩ := hget s m hj hd
    exact ⟨by simp only [step, fresh, a], b, c⟩
  | product m v =>
    obtain ⟨a, b⟩ := hset s m hj hd
    obtain ⟨c, d, e⟩ := hget (s.setModel o m) m a b
    simp only [step, St.product, fresh]
    split
    · exact ⟨by rw [c], d, e⟩
    · exact ⟨rfl, a, b⟩
  | diag m w =>
    simp only [weights] at hp
    subst hp
    simp only [step, St.jtjdiag, fresh]
    cases hx : s.gtg with
    | some d => exact ⟨by simp only [hd d hx m], hj, fun d' hd' => hd d' hd'⟩
    | none =>
      obtain ⟨a, b, c⟩ := hget s m hj hd
      refine ⟨by simp only [a], b, fun d' hd' m' => ?_⟩
      simp at hd'
      rw [← hd', a, hc m m']

/-- **C123, part (linear maps).** If the map to charges is linear and weights do not change, everything is
what a new simulation returns, after any history and with any setting.
Missing: other maps or changed weights, see the violations. -/
theorem C123_linear_partial (hc : Const W) (o : Opts) (w0 : W.Wt) (ops : List (Op W))
    (hw : ∀ p ∈ ops, weights w0 p) : outs o ({} : St W) ops = ops.map fresh := by
  suffices h : ∀ (ops : List (Op W)) (s : St W), (∀ p ∈ ops, weights w0 p) →
      (∀ j, s.jm = some j → ∀ m, j = W.sens m) →
      (∀ d, s.gtg = some d → ∀ m, d = W.diag (W.sens m) w0) → outs o s ops = ops.map fresh from
    h ops {} hw (by simp) (by simp)
  intro ops
  induction ops with
  | nil => intros; rfl
  | cons p ps ih =>
    intro s hw hj hd
    obtain ⟨a, b, c⟩ := const_step hc o w0 s hj hd p (hw p List.mem_cons_self)
    simp only [outs, List.map_cons]
    rw [a, ih _ (fun x hx => hw x (List.mem_cons_of_mem _ hx)) b c]

/-- **C123 (products).** For any map, `Jvec` and `Jtvec` do not depend on the history of a simulation which
knows whether its map is linear. -/
theorem C123_products (o : Opts) (ho : o.linear = true → Const W) (before : List (Op W)) (m : W.M)
    (v : W.Vec) :
    ((before.foldl (fun s p => (step o s p).1) ({} : St W)).product o m v).2 = W.mul (W.sens m) v := by
  by_cases hs : o.storeJ
  swap
  · simp [St.product, hs]
  by_cases hl : o.linear
  · have hc := ho hl
    suffices h : ∀ (ops : List (Op W)) (s : St W), (∀ j, s.jm = some j → ∀ m, j = W.sens m) →
        ∀ j, (ops.foldl (fun s p => (step o s p).1) s).jm = some j → ∀ m, j = W.sens m by
      have h0 := h before {} (by simp)
      have key : ∀ s : St W, (∀ j, s.jm = some j → ∀ m, j = W.sens m) →
          (s.product o m v).2 = W.mul (W.sens m) v := by
        intro s hj
        have h1 : ∀ (s : St W), (∀ j, s.jm = some j → ∀ m, j = W.sens m) →
            ∀ j, (s.setModel o m).jm = some j → ∀ m, j = W.sens m := by
          intro s hj
          unfold St.setModel
          split
          · exact hj
          · split
            · simp
            · exact hj
        simp only [St.product, hs, if_true, St.getJ]
        cases hx : ((s.setModel o m).setModel o m).jm with
        | some j => simp only [h1 _ (h1 _ hj) j hx m]
        | none => rfl
      exact key _ h0
    intro ops
    induction ops with
    | nil => exact fun s h => h
    | cons p ps ih =>
      intro s hj
      refine ih _ ?_
      have hset : ∀ (s : St W) m, (∀ j, s.jm = some j → ∀ m, j = W.sens m) →
          ∀ j, (s.setModel o m).jm = some j → ∀ m, j = W.sens m := by
        intro s m hj
        unfold St.setModel
        split
        · exact hj
        · split
          · simp
          · exact hj
      have hget : ∀ (s : St W) m, (∀ j, s.jm = some j → ∀ m, j = W.sens m) →
          ∀ j, (s.getJ o m).1.jm = some j → ∀ m, j = W.sens m := by
        intro s m hj
        cases hx : (s.setModel o m).jm with
        | some j => rw [getJ_some o s m j hx]; exact hset s m hj
        | none =>
          rw [getJ_none o s m hx]
          intro j' hj' m'
          simp at hj'; rw [← hj']; exact hc _ _
      cases p with
      | assign m => exact hset s m hj
      | getJ m => exact hget s m hj
      | product m v =>
        simp only [step, St.product, hs, if_true]
        exact hget _ m (hset s m hj)
      | diag m w =>
        simp only [step, St.jtjdiag]
        cases hx : s.gtg with
        | some d => exact hj
        | none => exact hget s m hj
  · -- the stored matrix belongs to the current model
    have hclr : (o.storeJ && !o.linear) = true := by simp [hs, hl]
    have hset : ∀ (s : St W) m, (∀ j, s.jm = some j → ∃ m, s.model = some m ∧ j = W.sens m) →
        (∀ j, (s.setModel o m).jm = some j → ∃ m', (s.setModel o m).model = some m' ∧ j = W.sens m') ∧
        (s.setModel o m).model = some m := by
      intro s m hj
      unfold St.setModel
      rw [hclr]
      split
      · exact ⟨hj, by assumption⟩
      · simp
    have hget : ∀ (s : St W) m, (∀ j, s.jm = some j → ∃ m, s.model = some m ∧ j = W.sens m) →
        (∀ j, (s.getJ o m).1.jm = some j → ∃ m', (s.getJ o m).1.model = some m' ∧ j = W.sens m') ∧
        (s.getJ o m).2 = W.sens m := by
      intro s m hj
      obtain ⟨a, b⟩ := hset s m hj
      cases hx : (s.setModel o m).jm with
      | some j =>
        rw [getJ_some o s m j hx]
        obtain ⟨m', h1, h2⟩ := a j hx
        rw [b] at h1
        refine ⟨a, ?_⟩
        show j = _
        rw [h2, Option.some.inj h1]
      | none =>
        rw [getJ_none o s m hx]
        refine ⟨fun j' hj' => ⟨m, b, ?_⟩, rfl⟩
        simpa using hj'.symm
    have hall : ∀ (ops : List (Op W)) (s : St W),
        (∀ j, s.jm = some j → ∃ m, s.model = some m ∧ j = W.sens m) →
        ∀ j, (ops.foldl (fun s p => (step o s p).1) s).jm = some j →
          ∃ m, (ops.foldl (fun s p => (step o s p).1) s).model = some m ∧ j = W.sens m := by
      intro ops
      induction ops with
      | nil => exact fun s h => h
      | cons p ps ih =>
        intro s hj
        refine ih _ ?_
        cases p with
        | assign m => exact (hset s m hj).1
        | getJ m => exact (hget s m hj).1
        | product m v =>
          simp only [step, St.product, hs, if_true]
          exact (hget _ m (hset s m hj).1).1
        | diag m w =>
          simp only [step, St.jtjdiag]
          cases hx : s.gtg with
          | some d => exact hj
          | none => exact (hget s m hj).1
    have h0 := hall before {} (by simp)
    simp only [St.product, hs, if_true]
    rw [(hget _ m (hset _ m h0).1).2]

/-- Sensitivities are the model, as for a map with a quadratic. -/
def exW : World where
  M := Nat
  Mat := Nat
  Vec := Nat
  Wt := Nat
  sens := fun m => m
  mul := fun j v => j * v
  diag := fun j w => w * j

/-- **C123, violated: sensitivities.** Without `storeJ` the sensitivity matrix is kept nevertheless and not
cleared with the model: for maps which are not linear `getJ` returns that of an earlier model. -/
theorem C123_violated_getJ (m₁ m₂ : Nat) (h : m₁ ≠ m₂) :
    outs ⟨false, false⟩ ({} : St exW) [.getJ m₁, .getJ m₂] = [.mat m₁, .mat m₁] ∧
    outs ⟨true, false⟩ ({} : St exW) [.getJ m₁, .getJ m₂] = [.mat m₁, .mat m₂] := by
  constructor
  · simp [outs, step, St.getJ, St.setModel, exW, h]
  · simp [outs, step, St.getJ, St.setModel, exW, h]

/-- **C123, violated: diagonals.** With any setting `getJtJdiag` returns the diagonal of an earlier model
and of earlier weights. -/
theorem C123_violated_diag (o : Opts) (m₁ m₂ w₁ w₂ : Nat) :
    outs o ({} : St exW) [.diag m₁ w₁, .diag m₂ w₂] = [.vec (w₁ * m₁), .vec (w₁ * m₁)] := by
  simp [outs, step, St.jtjdiag, St.getJ, St.setModel, exW]

/-- A world with constant sensitivities. -/
example : Const { exW with sens := fun _ => (3 : Nat) } := fun _ _ => rfl

end Verif.DC.SP.Props
