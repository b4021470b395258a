import Verif.Basic
import Verif.Utils.Validators
import Mathlib.LinearAlgebra.Matrix.DotProduct
import Mathlib.Data.Real.Basic
import Mathlib.Data.Matrix.Mul
import Mathlib.LinearAlgebra.Matrix.Notation
import Mathlib.Tactic.Linarith
import Mathlib.Tactic.Ring
import Mathlib.Tactic.FinCases
import Mathlib.Tactic.NormNum
import Mathlib.Algebra.BigOperators.Fin

/-!
C85: the operators of `RegularizationMesh` (`simpeg/regularization/regularization_mesh.py`) on the
active cells, along one direction. `κ` are the cells of the mesh and `φ` its faces in that
direction. The operators of the mesh itself belong to `discretize`, which is not part of the
repository; they are modelled as documented there.
-/

noncomputable section
namespace Verif.Reg.RegMesh
open Verif Matrix

set_option linter.unusedSectionVars false

variable {κ φ : Type} [Fintype κ] [Fintype φ] [DecidableEq κ] [DecidableEq φ]

/-! ### Tensor meshes -/

/-- The faces of a tensor mesh in one direction: the cells before and after (none beyond the
boundary), and the distance of their centres. -/
structure Dir (κ φ : Type) where
  lo : φ → Option κ
  hi : φ → Option κ
  dist : φ → ℝ

/-- `mesh.aveFx2CC` of `discretize`: the mean of the two faces of a cell. -/
def Dir.ave (d : Dir κ φ) : Matrix κ φ ℝ :=
  fun c f => (if d.lo f = some c then 1 / 2 else 0) + if d.hi f = some c then 1 / 2 else 0

/-- `mesh.cell_gradient_x` of `discretize`: differences, with zero rows on the boundary. -/
def Dir.grad (d : Dir κ φ) : Matrix φ κ ℝ :=
  fun f c => match d.lo f, d.hi f with
    | some a, some b => (if c = b then 1 / d.dist f else 0) - if c = a then 1 / d.dist f else 0
    | _, _ => 0

/-- Whether a cell is active. -/
def isActive (act : Option (κ → Bool)) (c : κ) : Prop :=
  match act with
  | none => True
  | some a => a c = true

/-- The faces which `Pafx` keeps (`simpeg/regularization/regularization_mesh.py` 147-166). -/
def faceActive (d : Dir κ φ) (act : Option (κ → Bool)) (f : φ) : Prop :=
  match act with
  | none => True
  | some a => 1 ≤ (d.aveᵀ *ᵥ fun c => if a c then 1 else 0) f

/-- The active cells and faces. -/
abbrev Cells (act : Option (κ → Bool)) := {c : κ // isActive act c}

@[inherit_doc Cells]
abbrev Faces (d : Dir κ φ) (act : Option (κ → Bool)) := {f : φ // faceActive d act f}

/-- `Pac` (`simpeg/regularization/regularization_mesh.py` 130-145): columns of the identity. -/
def Pac (act : Option (κ → Bool)) : Matrix κ (Cells act) ℝ := fun c k => if c = k.1 then 1 else 0

/-- `Pafx` (`simpeg/regularization/regularization_mesh.py` 147-172): columns of the identity. -/
def Paf (d : Dir κ φ) (act : Option (κ → Bool)) : Matrix φ (Faces d act) ℝ :=
  fun f k => if f = k.1 then 1 else 0

section ops
variable (d : Dir κ φ) (act : Option (κ → Bool)) [Fintype (Cells act)] [Fintype (Faces d act)]

/-- `vol` (`simpeg/regularization/regularization_mesh.py` 98-111). -/
def vol (v : κ → ℝ) : Cells act → ℝ := fun c => v c.1

/-- `aveFx2CC` (`simpeg/regularization/regularization_mesh.py` 241-262). -/
def aveF2CC : Matrix (Cells act) (Faces d act) ℝ := (Pac act)ᵀ * d.ave * Paf d act

open Classical in
/-- `aveCC2Fx` (`simpeg/regularization/regularization_mesh.py` 264-286). -/
def aveCC2F : Matrix (Faces d act) (Cells act) ℝ :=
  diagonal (fun f => 1 / ∑ c, (aveF2CC d act)ᵀ f c) * (aveF2CC d act)ᵀ

/-- `cell_gradient_x` (`simpeg/regularization/regularization_mesh.py` 433-463). -/
def cellGradient : Matrix (Faces d act) (Cells act) ℝ := (Paf d act)ᵀ * d.grad * Pac act

/-- `max(axis=1)` of a row, with the zeros of the sparse matrix. -/
def rowMax [Nonempty (Cells act)] (x : Cells act → ℝ) : ℝ :=
  Finset.univ.sup' Finset.univ_nonempty x

/-- `cell_distances_x` (`simpeg/regularization/regularization_mesh.py` 521-535). -/
def cellDistances [Nonempty (Cells act)] (f : Faces d act) : ℝ :=
  (rowMax act (cellGradient d act f))⁻¹

end ops

/-! ### Tree meshes -/

/-- The faces of a tree mesh which `Pafx` keeps; `av` is `mesh.average_cell_to_total_face_x()`
(`simpeg/regularization/regularization_mesh.py` 157-164). -/
def indicator (act : Option (κ → Bool)) (c : κ) : ℝ :=
  match act with
  | none => 1
  | some a => if a c then 1 else 0

@[inherit_doc indicator]
def treeActive (av : Matrix φ κ ℝ) (act : Option (κ → Bool)) (f : φ) : Prop :=
  1 ≤ (av *ᵥ indicator act) f

/-- `aveCC2Fx` of a tree mesh (`simpeg/regularization/regularization_mesh.py` 277-281): rows and
columns of the average. -/
def treeCC2F (av : Matrix φ κ ℝ) (act : Option (κ → Bool)) :
    Matrix {f // treeActive av act f} (Cells act) ℝ := fun f c => av f.1 c.1

/-- `aveFx2CC` of a tree mesh (`simpeg/regularization/regularization_mesh.py` 255-258). -/
def treeF2CC (av : Matrix φ κ ℝ) (act : Option (κ → Bool)) [Fintype {f // treeActive av act f}] :
    Matrix (Cells act) {f // treeActive av act f} ℝ :=
  fun c f => let n := ∑ g, treeCC2F av act g c
    open Classical in (if 0 < n then 1 / n else n) * treeCC2F av act f c

/-! ### Memory -/

/-- What the operators are made of: abstract values and the constructions of the properties from
the active cells and other operators. -/
structure Ops (V : Type) where
  vol : Option (List Bool) → V
  pac : Option (List Bool) → V
  paf : Fin 3 → Option (List Bool) → V
  aveFC : Fin 3 → V → V → V
  aveCF : Fin 3 → V → V
  grad : Fin 3 → V → V → V
  dist : Fin 3 → V → V

/-- The properties which are kept. -/
inductive Name where
  | vol | pac | paf (d : Fin 3) | aveFC (d : Fin 3) | aveCF (d : Fin 3) | grad (d : Fin 3)
  | dist (d : Fin 3)
  deriving DecidableEq

/-- A `RegularizationMesh`: the active cells and the kept operators. -/
structure State (V : Type) where
  act : Option (List Bool)
  kept : Name → Option V

/-- `RegularizationMesh(mesh)` before `active_cells` is assigned
(`simpeg/regularization/regularization_mesh.py` 36-43). -/
def fresh (V : Type) : State V := ⟨none, fun _ => none⟩

/-- `if getattr(self, "_x", None) is None: self._x = ...; return self._x`. -/
def keep {V : Type} (n : Name) (make : State V → V × State V) (s : State V) : V × State V :=
  match s.kept n with
  | some v => (v, s)
  | none =>
    let r := make s
    (r.1, { r.2 with kept := fun k => if k = n then some r.1 else r.2.kept k })

/-- Reading a property (`simpeg/regularization/regularization_mesh.py` 98-567, tensor meshes). -/
def read {V : Type} (o : Ops V) : Name → State V → V × State V
  | .vol, s => match s.act with
    | none => (o.vol none, s)
    | some _ => keep .vol (fun s => (o.vol s.act, s)) s
  | .pac, s => keep .pac (fun s => (o.pac s.act, s)) s
  | .paf d, s => keep (.paf d) (fun s => (o.paf d s.act, s)) s
  | .aveFC d, s => keep (.aveFC d) (fun s =>
      let p := keep .pac (fun s => (o.pac s.act, s)) s
      let f := keep (.paf d) (fun s => (o.paf d s.act, s)) p.2
      (o.aveFC d p.1 f.1, f.2)) s
  | .aveCF d, s => keep (.aveCF d) (fun s =>
      let a := keep (.aveFC d) (fun s =>
        let p := keep .pac (fun s => (o.pac s.act, s)) s
        let f := keep (.paf d) (fun s => (o.paf d s.act, s)) p.2
        (o.aveFC d p.1 f.1, f.2)) s
      (o.aveCF d a.1, a.2)) s
  | .grad d, s => keep (.grad d) (fun s =>
      let f := keep (.paf d) (fun s => (o.paf d s.act, s)) s
      let p := keep .pac (fun s => (o.pac s.act, s)) f.2
      (o.grad d f.1 p.1, p.2)) s
  | .dist d, s => keep (.dist d) (fun s =>
      let g := keep (.grad d) (fun s =>
        let f := keep (.paf d) (fun s => (o.paf d s.act, s)) s
        let p := keep .pac (fun s => (o.pac s.act, s)) f.2
        (o.grad d f.1 p.1, p.2)) s
      (o.dist d g.1, g.2)) s

/-- An assigned value: `None` or an array. -/
abbrev Arg := Option Utils.Validators.IndexArr

/-- `all(self._active_cells == values)` with the broadcasting of NumPy; other lengths raise
(`simpeg/regularization/regularization_mesh.py` 66-68). -/
def allEqual (a : List Bool) : Arg → Except Err Bool
  | none => .ok (a.isEmpty)
  | some .other => .ok (a.isEmpty)
  | some (.bools l) =>
    if l.length = a.length then .ok (a == l)
    else match l, a with
      | [x], _ => .ok (a.all (· == x))
      | _, [y] => .ok (l.all (· == y))
      | _, _ => .error .valueError
  | some (.ints l) =>
    let t : List Int := a.map fun b => if b then 1 else 0
    if l.length = t.length then .ok (t == l)
    else match l, t with
      | [x], _ => .ok (t.all (· == x))
      | _, [y] => .ok (l.all (· == y))
      | _, _ => .error .valueError

/-- The part of the `active_cells` setter after the check: operators are forgotten
(`simpeg/regularization/regularization_mesh.py` 72-96). -/
def store {V : Type} (n : ℕ) (s : State V) : Arg → Except Err (State V)
  | none => .ok { s with act := none }
  | some x => match Utils.Validators.validateActive n x with
    | .error e => .error e
    | .ok l => .ok ⟨some l, fun _ => none⟩

/-- The `active_cells` setter; `n` is the number of cells of the mesh
(`simpeg/regularization/regularization_mesh.py` 64-96). -/
def assign {V : Type} (n : ℕ) (v : Arg) (s : State V) : Except Err (State V) :=
  match s.act with
  | none => store n s v
  | some a => match allEqual a v with
    | .error e => .error e
    | .ok false => .error .attributeError
    | .ok true => store n s v

/-- What can happen to a mesh: reads, assignments (which may be refused), and a change of the array
of active cells in place (the array is kept without a copy). -/
inductive Ev where
  | read (n : Name)
  | assign (v : Arg)
  | mutate (l : List Bool)

/-- The effect of an event. -/
def step {V : Type} (n : ℕ) (o : Ops V) (s : State V) : Ev → State V
  | .read k => (read o k s).2
  | .assign v => match assign n v s with
    | .ok s' => s'
    | .error _ => s
  | .mutate l => match s.act with
    | none => s
    | some _ => { s with act := some l }

namespace Props

/-- The number of halves a face has of active cells. -/
theorem ave_ind (d : Dir κ φ) (a : κ → Bool) (f : φ) :
    (d.aveᵀ *ᵥ fun c => if a c then (1 : ℝ) else 0) f =
      (match d.lo f with | some x => if a x then 1 / 2 else 0 | none => 0) +
      (match d.hi f with | some y => if a y then 1 / 2 else 0 | none => 0) := by
  simp only [Matrix.mulVec, dotProduct, Matrix.transpose_apply, Dir.ave, add_mul,
    Finset.sum_add_distrib]
  congr 1
  · cases h : d.lo f with
    | none => simp
    | some x =>
      simp only [Option.some.injEq]
      rw [Finset.sum_eq_single x (fun b _ hb => by simp [hb.symm]) (by simp)]
      simp
  · cases h : d.hi f with
    | none => simp
    | some x =>
      simp only [Option.some.injEq]
      rw [Finset.sum_eq_single x (fun b _ hb => by simp [hb.symm]) (by simp)]
      simp

/-- C85: on a tensor mesh with active cells, exactly the faces between two active cells are kept. -/
theorem C85_faces (d : Dir κ φ) (a : κ → Bool) (f : φ) :
    faceActive d (some a) f ↔
      ∃ x y, d.lo f = some x ∧ d.hi f = some y ∧ a x = true ∧ a y = true := by
  show 1 ≤ (d.aveᵀ *ᵥ fun c => if a c then (1 : ℝ) else 0) f ↔ _
  rw [ave_ind]
  cases hl : d.lo f with
  | none =>
    simp only [reduceCtorEq, false_and, exists_const, iff_false]
    cases hh : d.hi f with
    | none => norm_num
    | some y => by_cases hy : a y = true <;> simp [hy] <;> norm_num
  | some x =>
    cases hh : d.hi f with
    | none =>
      simp only [reduceCtorEq, false_and, and_false, exists_const, iff_false]
      by_cases hx : a x = true <;> simp [hx] <;> norm_num
    | some y =>
      by_cases hx : a x = true <;> by_cases hy : a y = true <;> simp [hx, hy] <;> norm_num

section ops
variable (d : Dir κ φ) (act : Option (κ → Bool)) [Fintype (Cells act)] [Fintype (Faces d act)]

theorem gradient_apply (f : Faces d act) (c : Cells act) : cellGradient d act f c = d.grad f.1 c.1 := by
  simp [cellGradient, Matrix.mul_apply, Pac, Paf, Finset.sum_ite_eq]

theorem aveF2CC_apply (f : Faces d act) (c : Cells act) : aveF2CC d act c f = d.ave c.1 f.1 := by
  simp [aveF2CC, Matrix.mul_apply, Pac, Paf, Finset.sum_ite_eq]

theorem sum_cells (g : κ → ℝ) (x : Cells act) (r : ℝ) :
    ∑ c : Cells act, (if c.1 = x.1 then r else 0) * g c.1 = r * g x.1 := by
  rw [Finset.sum_eq_single x]
  · simp
  · intro b _ hb
    rw [if_neg fun h => hb (Subtype.ext h), zero_mul]
  · intro h; exact absurd (Finset.mem_univ _) h

/-- C85: the gradient at a face between two active cells is the difference of their values by the
distance of their centres; on the boundary of the mesh (kept if all cells are active by default)
it is zero. -/
theorem C85_gradient (m : Cells act → ℝ) (f : Faces d act) :
    (∀ x y : Cells act, d.lo f.1 = some x.1 → d.hi f.1 = some y.1 →
      (cellGradient d act *ᵥ m) f = (m y - m x) / d.dist f.1) ∧
    (d.lo f.1 = none ∨ d.hi f.1 = none → (cellGradient d act *ᵥ m) f = 0) := by
  constructor
  · intro x y hx hy
    have e : ∀ c : Cells act, cellGradient d act f c * m c =
        (if c = y then 1 / d.dist f.1 else 0) * m c - (if c = x then 1 / d.dist f.1 else 0) * m c := by
      intro c
      rw [gradient_apply]
      simp only [Dir.grad, hx, hy, ← Subtype.ext_iff]
      ring
    have s : ∀ z : Cells act, ∑ c, (if c = z then 1 / d.dist f.1 else 0) * m c =
        1 / d.dist f.1 * m z := by
      intro z
      rw [Finset.sum_eq_single z]
      · simp
      · intro b _ hb; simp [hb]
      · intro h; exact absurd (Finset.mem_univ _) h
    simp only [Matrix.mulVec, dotProduct, e, Finset.sum_sub_distrib, s]
    ring
  · intro h
    refine Finset.sum_eq_zero fun c _ => ?_
    show cellGradient d act f c * m c = 0
    rw [gradient_apply]
    rcases h with h | h
    · simp [Dir.grad, h]
    · cases hl : d.lo f.1 <;> simp [Dir.grad, h, hl]

/-- Every kept face which has a gradient lies between two active cells. -/
theorem neighbours (f : Faces d act) :
    (d.lo f.1 = none ∨ d.hi f.1 = none) ∨
      ∃ x y : Cells act, d.lo f.1 = some x.1 ∧ d.hi f.1 = some y.1 := by
  cases act with
  | none =>
    cases hl : d.lo f.1 with
    | none => exact .inl (.inl rfl)
    | some x =>
      cases hh : d.hi f.1 with
      | none => exact .inl (.inr rfl)
      | some y => exact .inr ⟨⟨x, trivial⟩, ⟨y, trivial⟩, rfl, rfl⟩
  | some a =>
    obtain ⟨x, y, hx, hy, ax, ay⟩ := (C85_faces d a f.1).1 f.2
    exact .inr ⟨⟨x, ax⟩, ⟨y, ay⟩, hx, hy⟩

/-- C85: the gradient is zero exactly if cells on both sides of every kept face have the same value;
in particular for constants. -/
theorem C85_gradient_zero (hd : ∀ f, d.dist f ≠ 0) (m : Cells act → ℝ) :
    (∀ f, (cellGradient d act *ᵥ m) f = 0) ↔
      ∀ (f : Faces d act) (x y : Cells act), d.lo f.1 = some x.1 → d.hi f.1 = some y.1 → m x = m y := by
  constructor
  · intro h f x y hx hy
    have := h f
    rw [(C85_gradient d act m f).1 x y hx hy, div_eq_zero_iff] at this
    exact (sub_eq_zero.1 (this.resolve_right (hd _))).symm
  · intro h f
    rcases neighbours d act f with hb | ⟨x, y, hx, hy⟩
    · exact (C85_gradient d act m f).2 hb
    · rw [(C85_gradient d act m f).1 x y hx hy, h f x y hx hy, sub_self, zero_div]

theorem col_sum (f : Faces d act) (x y : Cells act) (hx : d.lo f.1 = some x.1)
    (hy : d.hi f.1 = some y.1) (m : Cells act → ℝ) :
    ∑ c, aveF2CC d act c f * m c = m x / 2 + m y / 2 := by
  have e : ∀ c : Cells act, aveF2CC d act c f * m c =
      (if c = x then m x / 2 else 0) + if c = y then m y / 2 else 0 := by
    intro c
    rw [aveF2CC_apply]
    simp only [Dir.ave, hx, hy, Option.some.injEq, Subtype.ext_iff, eq_comm (a := c.1)]
    split_ifs with h1 h2 h2
    · rw [Subtype.ext h1, Subtype.ext h2]; ring
    · rw [Subtype.ext h1]; ring
    · rw [Subtype.ext h2]; ring
    · ring
  simp only [e, Finset.sum_add_distrib, Finset.sum_ite_eq', Finset.mem_univ, if_true]

/-- C85: the average from cells to a face between two active cells is the mean of the two. -/
theorem C85_cells_to_faces (m : Cells act → ℝ) (f : Faces d act) (x y : Cells act)
    (hx : d.lo f.1 = some x.1) (hy : d.hi f.1 = some y.1) :
    (aveCC2F d act *ᵥ m) f = (m x + m y) / 2 := by
  classical
  unfold aveCC2F
  rw [← Matrix.mulVec_mulVec, Matrix.mulVec_diagonal]
  have h1 := col_sum d act f x y hx hy m
  have h2 := col_sum d act f x y hx hy fun _ => 1
  simp only [mul_one] at h2
  simp only [Matrix.mulVec, dotProduct, Matrix.transpose_apply, h1, h2]
  ring

/-- C85: the average from faces to a cell is half the sum of its kept faces. -/
theorem C85_faces_to_cells_partial (x : Faces d act → ℝ) (c : Cells act) :
    (aveF2CC d act *ᵥ x) c =
      ∑ f : Faces d act, ((if d.lo f.1 = some c.1 then x f / 2 else 0) +
        if d.hi f.1 = some c.1 then x f / 2 else 0) := by
  simp only [Matrix.mulVec, dotProduct, aveF2CC_apply, Dir.ave]
  refine Finset.sum_congr rfl fun f _ => ?_
  split_ifs <;> ring

/-- C85: the distances are those of the centres, at all faces between active cells. -/
theorem C85_distances [Nonempty (Cells act)] (f : Faces d act) (x y : Cells act)
    (hx : d.lo f.1 = some x.1) (hy : d.hi f.1 = some y.1) (hxy : x ≠ y) (hd : 0 < d.dist f.1) :
    cellDistances d act f = d.dist f.1 := by
  have hp : 0 < 1 / d.dist f.1 := by positivity
  have e : ∀ c, cellGradient d act f c =
      (if c = y then 1 / d.dist f.1 else 0) - if c = x then 1 / d.dist f.1 else 0 := by
    intro c
    rw [gradient_apply]
    simp only [Dir.grad, hx, hy, ← Subtype.ext_iff]
  have h : rowMax act (cellGradient d act f) = 1 / d.dist f.1 := by
    unfold rowMax
    apply le_antisymm
    · refine Finset.sup'_le _ _ fun c _ => ?_
      rw [e]
      split_ifs <;> linarith
    · have := Finset.le_sup' (cellGradient d act f) (Finset.mem_univ y)
      rw [e y, if_pos rfl, if_neg hxy.symm, sub_zero] at this
      exact this
  unfold cellDistances
  rw [h, one_div, inv_inv]

end ops

/-- Two cells in a row; both are active, the face between them is kept. -/
def toy : Dir (Fin 2) (Fin 3) where
  lo := ![none, some 0, some 1]
  hi := ![some 0, some 1, none]
  dist := ![1, 1, 1]

/-- C85 is violated: the average from faces to cells of a constant is not the constant in cells
with a face that is not kept. -/
theorem C85_violated_average : ∃ (d : Dir (Fin 2) (Fin 3)) (a : Fin 2 → Bool)
    (_ : Fintype (Cells (some a))) (_ : Fintype (Faces d (some a))) (c : Cells (some a)),
    (aveF2CC d (some a) *ᵥ fun _ => 1) c = 1 / 2 := by
  classical
  refine ⟨toy, fun _ => true, Fintype.ofFinite _, Fintype.ofFinite _, ⟨0, rfl⟩, ?_⟩
  letI := Fintype.ofFinite (Cells (some fun _ : Fin 2 => true))
  letI := Fintype.ofFinite (Faces toy (some fun _ => true))
  have hk : faceActive toy (some fun _ => true) 1 :=
    (C85_faces _ _ _).2 ⟨0, 1, rfl, rfl, rfl, rfl⟩
  have hu : ∀ f : Faces toy (some fun _ => true), f = ⟨1, hk⟩ := by
    intro f
    obtain ⟨x, y, hx, hy, -, -⟩ := (C85_faces _ _ _).1 f.2
    obtain ⟨f, hf⟩ := f
    refine Subtype.ext ?_
    fin_cases f
    · simp [toy] at hx
    · rfl
    · simp [toy] at hy
  rw [C85_faces_to_cells_partial, Finset.sum_eq_single ⟨1, hk⟩]
  · simp [toy]
  · intro f _ hf; exact absurd (hu f) hf
  · intro h; exact absurd (Finset.mem_univ _) h

/-! ### Tree meshes -/

/-- C85: on a tree mesh exactly the faces are kept all of whose cells are active, for an average
with rows of sum one. -/
theorem C85_tree_faces (av : Matrix φ κ ℝ) (h0 : ∀ f c, 0 ≤ av f c) (h1 : ∀ f, ∑ c, av f c = 1)
    (a : κ → Bool) (f : φ) :
    treeActive av (some a) f ↔ ∀ c, av f c ≠ 0 → a c = true := by
  unfold treeActive
  simp only [Matrix.mulVec, dotProduct, indicator]
  constructor
  · intro h c hc
    by_contra hn
    have hlt : ∑ k, av f k * (if a k then 1 else 0) < ∑ k, av f k := by
      refine Finset.sum_lt_sum (fun k _ => ?_) ⟨c, Finset.mem_univ _, ?_⟩
      · split_ifs
        · simp
        · simpa using h0 f k
      · simp only [hn, Bool.false_eq_true, if_false, mul_zero]
        exact lt_of_le_of_ne (h0 f c) hc.symm
    rw [h1] at hlt
    linarith
  · intro h
    refine le_of_eq ((h1 f).symm.trans (Finset.sum_congr rfl fun c _ => ?_))
    by_cases hc : av f c = 0
    · simp [hc]
    · simp [h c hc]

/-- C85: on a tree mesh both averages keep constants, from cells to all kept faces and from faces
to all cells with a kept face. -/
theorem C85_tree_averages (av : Matrix φ κ ℝ) (h0 : ∀ f c, 0 ≤ av f c) (h1 : ∀ f, ∑ c, av f c = 1)
    (a : κ → Bool) [Fintype (Cells (some a))] [Fintype {f // treeActive av (some a) f}] (x : ℝ) :
    (∀ f, (treeCC2F av (some a) *ᵥ fun _ => x) f = x) ∧
    (∀ c, (∃ f : {f // treeActive av (some a) f}, av f.1 c.1 ≠ 0) →
      (treeF2CC av (some a) *ᵥ fun _ => x) c = x) := by
  classical
  constructor
  · intro f
    have hk := (C85_tree_faces av h0 h1 a f.1).1 f.2
    simp only [Matrix.mulVec, dotProduct, treeCC2F, ← Finset.sum_mul]
    have : ∑ c : Cells (some a), av f.1 c.1 = 1 := by
      rw [← h1 f.1, ← Finset.sum_subtype (Finset.univ.filter fun c => a c = true)
        (p := isActive (some a)) (by simp [isActive]) fun c => av f.1 c, Finset.sum_filter]
      refine Finset.sum_congr rfl fun c _ => ?_
      by_cases hc : av f.1 c = 0
      · simp [hc]
      · simp [hk c hc]
    rw [this, one_mul]
  · rintro c ⟨f, hf⟩
    have hn : 0 < ∑ g, treeCC2F av (some a) g c :=
      lt_of_lt_of_le (lt_of_le_of_ne (h0 f.1 c.1) hf.symm)
        (Finset.single_le_sum (f := fun g => treeCC2F av (some a) g c) (fun g _ => h0 _ _)
          (Finset.mem_univ f))
    simp only [Matrix.mulVec, dotProduct, treeF2CC, if_pos hn]
    rw [← Finset.sum_mul, ← Finset.mul_sum, one_div, inv_mul_cancel₀ hn.ne', one_mul]

/-! ### Memory -/

/-- The value which an operator has for given active cells. -/
def value {V : Type} (o : Ops V) (act : Option (List Bool)) : Name → V
  | .vol => o.vol act
  | .pac => o.pac act
  | .paf d => o.paf d act
  | .aveFC d => o.aveFC d (o.pac act) (o.paf d act)
  | .aveCF d => o.aveCF d (o.aveFC d (o.pac act) (o.paf d act))
  | .grad d => o.grad d (o.paf d act) (o.pac act)
  | .dist d => o.dist d (o.grad d (o.paf d act) (o.pac act))

/-- All kept values are those of the present active cells. -/
def Good {V : Type} (o : Ops V) (s : State V) : Prop :=
  ∀ n v, s.kept n = some v → v = value o s.act n

theorem keep_good {V : Type} (o : Ops V) (n : Name) (make : State V → V × State V)
    (hm : ∀ s, Good o s → (make s).1 = value o s.act n ∧ (make s).2.act = s.act ∧ Good o (make s).2)
    (s : State V) (hs : Good o s) :
    (keep n make s).1 = value o s.act n ∧ (keep n make s).2.act = s.act ∧ Good o (keep n make s).2 := by
  unfold keep
  cases h : s.kept n with
  | some v => exact ⟨hs n v h, rfl, hs⟩
  | none =>
    obtain ⟨h1, h2, h3⟩ := hm s hs
    refine ⟨h1, h2, fun k v hk => ?_⟩
    simp only at hk
    split at hk
    · rename_i e
      subst e
      simp only [Option.some.injEq] at hk
      rw [← hk, h1, ← h2]
    · exact h3 k v hk

theorem read_good {V : Type} (o : Ops V) (n : Name) (s : State V) (hs : Good o s) :
    (read o n s).1 = value o s.act n ∧ (read o n s).2.act = s.act ∧ Good o (read o n s).2 := by
  have kp := keep_good o .pac (fun s => (o.pac s.act, s)) fun s hs => ⟨rfl, rfl, hs⟩
  have kf := fun d => keep_good o (.paf d) (fun s => (o.paf d s.act, s)) fun s hs => ⟨rfl, rfl, hs⟩
  have ka := fun d => keep_good o (.aveFC d) (fun s =>
      let p := keep .pac (fun s => (o.pac s.act, s)) s
      let f := keep (.paf d) (fun s => (o.paf d s.act, s)) p.2
      (o.aveFC d p.1 f.1, f.2)) fun s hs => by
    obtain ⟨p1, p2, p3⟩ := kp s hs
    obtain ⟨f1, f2, f3⟩ := kf d _ p3
    refine ⟨?_, f2.trans p2, f3⟩
    show o.aveFC d _ _ = _
    rw [p1, f1, p2]; rfl
  have kg := fun d => keep_good o (.grad d) (fun s =>
      let f := keep (.paf d) (fun s => (o.paf d s.act, s)) s
      let p := keep .pac (fun s => (o.pac s.act, s)) f.2
      (o.grad d f.1 p.1, p.2)) fun s hs => by
    obtain ⟨f1, f2, f3⟩ := kf d s hs
    obtain ⟨p1, p2, p3⟩ := kp _ f3
    refine ⟨?_, p2.trans f2, p3⟩
    show o.grad d _ _ = _
    rw [p1, f1, f2]; rfl
  cases n with
  | vol =>
    unfold read
    cases h : s.act with
    | none =>
      simp only [h]
      exact ⟨rfl, trivial, hs⟩
    | some a =>
      have := keep_good o .vol (fun s => (o.vol s.act, s)) (fun s hs => ⟨rfl, rfl, hs⟩) s hs
      rw [h] at this
      simp only [h]
      exact this
  | pac => exact kp s hs
  | paf d => exact kf d s hs
  | aveFC d => exact ka d s hs
  | grad d => exact kg d s hs
  | aveCF d =>
    exact keep_good o (.aveCF d) _ (fun s hs => by
      obtain ⟨a1, a2, a3⟩ := ka d s hs
      refine ⟨?_, a2, a3⟩
      show o.aveCF d _ = _
      rw [a1]; rfl) s hs
  | dist d =>
    exact keep_good o (.dist d) _ (fun s hs => by
      obtain ⟨a1, a2, a3⟩ := kg d s hs
      refine ⟨?_, a2, a3⟩
      show o.dist d _ = _
      rw [a1]; rfl) s hs

theorem value_fresh {V : Type} (o : Ops V) (act : Option (List Bool)) (n : Name) :
    (read o n ⟨act, fun _ => none⟩).1 = value o act n :=
  (read_good o n ⟨act, fun _ => none⟩ fun _ _ h => by simp at h).1

theorem assign_good {V : Type} (o : Ops V) (n : ℕ) (v : Arg) (s s' : State V) (hs : Good o s)
    (hn : s.act ≠ some []) (h : assign n v s = .ok s') : Good o s' := by
  have key : ∀ s' : State V, store n s v = .ok s' → (v = none → s.act = none) → Good o s' := by
    intro s' h hv
    unfold store at h
    cases v with
    | none =>
      simp only [Except.ok.injEq] at h
      subst h
      have := hv rfl
      intro k x hk
      exact (hs k x hk).trans (by rw [this])
    | some x =>
      simp only at h
      split at h
      · cases h
      · simp only [Except.ok.injEq] at h
        subst h
        intro k x hk
        simp at hk
  unfold assign at h
  cases ha : s.act with
  | none =>
    simp only [ha] at h
    exact key s' h fun _ => ha
  | some a =>
    simp only [ha] at h
    split at h
    · cases h
    · cases h
    · rename_i he
      refine key s' h fun hv => ?_
      subst hv
      simp only [allEqual, Except.ok.injEq, List.isEmpty_iff] at he
      subst he
      exact absurd ha hn

/-- C85: after any sequence of reads and assignments (with at least one cell in the mesh and no
change of the array in place), every operator is what it is on a new mesh with the present active
cells. -/
theorem C85_memory_partial {V : Type} (o : Ops V) (n : ℕ) (hn : 0 < n) (es : List Ev)
    (he : ∀ e ∈ es, ∀ l, e ≠ .mutate l) (k : Name) :
    let s := es.foldl (step n o) (fresh V)
    (read o k s).1 = (read o k ⟨s.act, fun _ => none⟩).1 := by
  have key : ∀ s : State V, Good o s → (∀ l, s.act = some l → l.length = n) →
      Good o (es.foldl (step n o) s) := by
    induction es with
    | nil => intro s hs _; exact hs
    | cons e es ih =>
      intro s hs hl
      refine ih (fun e he' => he e (List.mem_cons_of_mem _ he')) _ ?_ ?_
      · cases e with
        | read k => exact (read_good o k s hs).2.2
        | mutate l => exact absurd rfl (he _ List.mem_cons_self l)
        | assign v =>
          simp only [step]
          cases h : assign n v s with
          | error e => exact hs
          | ok s' =>
            refine assign_good o n v s s' hs (fun h0 => ?_) h
            have := hl [] h0
            simp at this
            omega
      · cases e with
        | read k =>
          intro l h
          exact hl l ((read_good o k s hs).2.1 ▸ h)
        | mutate l => exact absurd rfl (he _ List.mem_cons_self l)
        | assign v =>
          simp only [step]
          cases h : assign n v s with
          | error e => exact hl
          | ok s' =>
            intro l hl'
            unfold assign at h
            have st : ∀ {s' : State V}, store n s v = .ok s' → s'.act = some l → l.length = n := by
              intro s' h h2
              unfold store at h
              cases v with
              | none =>
                simp only [Except.ok.injEq] at h
                subst h
                simp at h2
              | some x =>
                simp only at h
                split at h
                · cases h
                · rename_i m hm
                  simp only [Except.ok.injEq] at h
                  subst h
                  simp only [Option.some.injEq] at h2
                  subst h2
                  exact (Utils.Validators.Props.C49_active n x m hm).1
            cases ha : s.act with
            | none => simp only [ha] at h; exact st h hl'
            | some a =>
              simp only [ha] at h
              split at h
              · cases h
              · cases h
              · exact st h hl'
  intro s
  have hg : Good o s := key _ (fun _ _ h => by simp [fresh] at h) (fun l h => by simp [fresh] at h)
  rw [(read_good o k s hg).1, value_fresh]

/-- C85: once there are active cells, masks are accepted only if they are the same; `None` and
arrays of other types are refused; and a refused assignment changes nothing. -/
theorem C85_once {V : Type} (n : ℕ) (o : Ops V) (s : State V) (a : List Bool) (ha : s.act = some a)
    (hl : a.length = n) (hn : 0 < n) :
    (∀ l : List Bool, (∃ s', assign n (some (.bools l)) s = .ok s') ↔ l = a) ∧
    (∀ s', assign n (some (.bools a)) s = .ok s' → s'.act = some a) ∧
    assign n none s = .error .attributeError ∧
    assign n (some .other) s = .error .attributeError ∧
    (∀ v e, assign n v s = .error e → step n o s (.assign v) = s) := by
  have ne : a.isEmpty = false := by
    cases a with
    | nil => simp at hl; omega
    | cons => rfl
  refine ⟨fun l => ⟨?_, ?_⟩, ?_, ?_, ?_, ?_⟩
  · rintro ⟨s', h⟩
    have hlen : l.length = n := by
      by_contra hc
      unfold assign at h
      simp only [ha, store, Utils.Validators.validateActive, hc, if_false] at h
      split at h <;> cases h
    unfold assign at h
    simp only [ha, allEqual, hlen, hl, if_true] at h
    split at h
    · cases h
    · cases h
    · rename_i he
      simp only [Except.ok.injEq, beq_iff_eq] at he
      exact he.symm
  · rintro rfl
    exact ⟨⟨some l, fun _ => none⟩, by simp [assign, store, ha, allEqual, Utils.Validators.validateActive, hl]⟩
  · intro s' h
    simp [assign, store, ha, allEqual, Utils.Validators.validateActive, hl] at h
    rw [← h]
  · simp [assign, ha, allEqual, ne]
  · simp [assign, ha, allEqual, ne]
  · intro v e h
    simp [step, h]

/-- C85 is violated: the array of active cells is kept without a copy; after a change in place the
operators are those of the old cells. -/
theorem C85_violated_alias : ∃ (o : Ops (Option (List Bool))) (es : List Ev),
    let s := es.foldl (step 2 o) (fresh _)
    (read o .vol s).1 ≠ (read o .vol ⟨s.act, fun _ => none⟩).1 := by
  refine ⟨⟨id, id, fun _ => id, fun _ x _ => x, fun _ x => x, fun _ x _ => x, fun _ x => x⟩,
    [.assign (some (.bools [true, true])), .read .vol, .mutate [true, false]], ?_⟩
  decide

/-- C85 is violated: the indices which defined the active cells are refused when given again, and
on a mesh of two cells other indices are accepted. -/
theorem C85_violated_indices {V : Type} :
    (∃ s : State V, assign 3 (some (.ints [1, 2])) (fresh V) = .ok s ∧
      assign 3 (some (.ints [1, 2])) s = .error .valueError) ∧
    (∃ s s' : State V, assign 2 (some (.bools [true, false])) (fresh V) = .ok s ∧
      assign 2 (some (.ints [1, 0])) s = .ok s' ∧ s'.act = some [true, true]) :=
  ⟨⟨⟨some [false, true, true], fun _ => none⟩, rfl, rfl⟩,
    ⟨⟨some [true, false], fun _ => none⟩, ⟨some [true, true], fun _ => none⟩, rfl, rfl, rfl⟩⟩

/-! ### Examples -/

/-- The two cells have a kept face with a positive distance between them. -/
example : faceActive toy (some fun _ => true) 1 ∧ 0 < toy.dist 1 ∧ (∀ f, toy.dist f ≠ 0) :=
  ⟨(C85_faces _ _ _).2 ⟨0, 1, rfl, rfl, rfl, rfl⟩, by simp [toy],
    fun f => by fin_cases f <;> simp [toy]⟩

/-- An average of a tree mesh with a hanging face: half of a large and half of a small cell. -/
example : (∀ f c, 0 ≤ (!![1 / 2, 1 / 2; 1, 0] : Matrix (Fin 2) (Fin 2) ℝ) f c) ∧
    ∀ f, ∑ c, (!![1 / 2, 1 / 2; 1, 0] : Matrix (Fin 2) (Fin 2) ℝ) f c = 1 := by
  constructor
  · intro f c; fin_cases f <;> fin_cases c <;> simp
  · intro f
    fin_cases f <;> simp [Fin.sum_univ_two]
    norm_num

end Props
end Verif.Reg.RegMesh
