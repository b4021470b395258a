import Verif.Reg.Mesh
import Verif.Reg.Lp

/-!
C207: the weights of sparse smoothness with the total gradient
(`simpeg/regularization/sparse.py`, `SparseSmoothness.update_weights`, 580-661), on tensor meshes.
The averages are those of C85, the weights those of C41.
-/

noncomputable section
namespace Verif.Reg.TotalGradient
open Verif Matrix Verif.Reg.RegMesh

set_option linter.unusedSectionVars false

variable {D κ : Type} {φ : D → Type} [Fintype κ] [DecidableEq κ]
  [∀ o, Fintype (φ o)] [∀ o, DecidableEq (φ o)]
  (d : ∀ o, Dir κ (φ o)) (act : Option (κ → Bool)) [Fintype (Cells act)]
  [∀ o, Fintype (Faces (d o) act)]

/-- The loop over the siblings (651-655): `sib` are the orientations of the `SparseSmoothness`
objects among `parent.objfcts`, in order; `f o` is `obj.f_m(m)` of the one along `o`. -/
def cellTotal (f : ∀ o, Faces (d o) act → ℝ) : List D → (Cells act → ℝ) → Cells act → ℝ
  | [], acc => acc
  | o :: l, acc => cellTotal f l fun c => acc c + |(aveF2CC (d o) act *ᵥ f o) c|

/-- The kernel the weights are computed from (650-660): `total` is
`gradient_type == "total"`, `parent` is `None` or the siblings. -/
def kernel (f : ∀ o, Faces (d o) act → ℝ) (total : Bool) (parent : Option (List D)) (o : D) :
    Faces (d o) act → ℝ :=
  match total, parent with
  | true, some sib => aveCC2F (d o) act *ᵥ cellTotal d act f sib fun _ => 0
  | _, _ => f o

/-- `update_weights(m)` (650-662): the `irls` weights. -/
def weights (f : ∀ o, Faces (d o) act → ℝ) (total : Bool) (parent : Option (List D)) (o : D)
    [Nonempty (Faces (d o) act)] (scaled : Bool) (e : ℝ) (p : Faces (d o) act → ℝ) :
    Faces (d o) act → ℝ :=
  Lp.lpWeights scaled e p (kernel d act f total parent o)

section tree
variable (av : ∀ o, Matrix (φ o) κ ℝ) [∀ o, Fintype {k // treeActive (av o) act k}]

/-- The loop over the siblings (651-655) on a tree mesh; `av o` is
`mesh.average_cell_to_total_face_o()` of `discretize`. -/
def treeTotal (f : ∀ o, {k // treeActive (av o) act k} → ℝ) : List D → (Cells act → ℝ) →
    Cells act → ℝ
  | [], acc => acc
  | o :: l, acc => treeTotal f l fun c => acc c + |(treeF2CC (av o) act *ᵥ f o) c|

/-- The kernel (650-660) on a tree mesh. -/
def treeKernel (f : ∀ o, {k // treeActive (av o) act k} → ℝ) (total : Bool)
    (parent : Option (List D)) (o : D) : {k // treeActive (av o) act k} → ℝ :=
  match total, parent with
  | true, some sib => treeCC2F (av o) act *ᵥ treeTotal act av f sib fun _ => 0
  | _, _ => f o

end tree

namespace Props

/-! ### Specification -/

/-- Half the sum of an array over the faces of a cell along `o`, kept ones only. -/
def mean (f : ∀ o, Faces (d o) act → ℝ) (o : D) (c : Cells act) : ℝ :=
  ∑ k : Faces (d o) act, ((if (d o).lo k.1 = some c.1 then f o k / 2 else 0) +
    if (d o).hi k.1 = some c.1 then f o k / 2 else 0)

/-- The faces of a cell along `o` that are kept are `a` below and `b` above it. -/
def TwoFaces (o : D) (c : Cells act) (a b : Faces (d o) act) : Prop :=
  (∀ k : Faces (d o) act, (d o).hi k.1 = some c.1 ↔ k = a) ∧
  ∀ k : Faces (d o) act, (d o).lo k.1 = some c.1 ↔ k = b

theorem cellTotal_eq (f : ∀ o, Faces (d o) act → ℝ) (sib : List D) (acc : Cells act → ℝ)
    (c : Cells act) :
    cellTotal d act f sib acc c = acc c + (sib.map fun o => |mean d act f o c|).sum := by
  induction sib generalizing acc with
  | nil => simp [cellTotal]
  | cons o l ih =>
    simp only [cellTotal, ih, List.map_cons, List.sum_cons]
    rw [show (aveF2CC (d o) act *ᵥ f o) c = mean d act f o c from
      RegMesh.Props.C85_faces_to_cells_partial (d o) act (f o) c]
    ring

/-- C207. With the total gradient, the kernel at a face between two cells is the mean over the two
of the sum, over all directions of the parent, of the absolute value of the mean gradient. -/
theorem C207_total (f : ∀ o, Faces (d o) act → ℝ) (sib : List D) (o : D) (k : Faces (d o) act)
    (x y : Cells act) (hx : (d o).lo k.1 = some x.1) (hy : (d o).hi k.1 = some y.1) :
    kernel d act f true (some sib) o k =
      ((sib.map fun j => |mean d act f j x|).sum + (sib.map fun j => |mean d act f j y|).sum) / 2 := by
  simp only [kernel]
  rw [RegMesh.Props.C85_cells_to_faces (d o) act _ k x y hx hy, cellTotal_eq, cellTotal_eq]
  ring

/-- C207. With components, or without parent, the kernel is the object's own. -/
theorem C207_components (f : ∀ o, Faces (d o) act → ℝ) (parent : Option (List D)) (o : D)
    (total : Bool) :
    kernel d act f false parent o = f o ∧ kernel d act f total none o = f o := by
  cases total <;> cases parent <;> simp [kernel]

/-- C207. The weights are those of the iteratively re-weighted least squares for the kernel. -/
theorem C207_weights (f : ∀ o, Faces (d o) act → ℝ) (total : Bool) (parent : Option (List D))
    (o : D) [Nonempty (Faces (d o) act)] (e : ℝ) (p : Faces (d o) act → ℝ) (k : Faces (d o) act) :
    weights d act f total parent o false e p k =
      1 / (kernel d act f total parent o k ^ 2 + e ^ 2) ^ (1 - p k / 2) := by
  simp [weights, Lp.lpWeights, Lp.lpScale]

/-- C207. The total gradient is never negative, has no sign, and is homogeneous. -/
theorem C207_magnitude (f : ∀ o, Faces (d o) act → ℝ) (sib : List D) (o : D) (k : Faces (d o) act)
    (x y : Cells act) (hx : (d o).lo k.1 = some x.1) (hy : (d o).hi k.1 = some y.1) (t : ℝ) :
    0 ≤ kernel d act f true (some sib) o k ∧
    kernel d act (fun j i => t * f j i) true (some sib) o k =
      |t| * kernel d act f true (some sib) o k := by
  have hm : ∀ j c, mean d act (fun j i => t * f j i) j c = t * mean d act f j c := by
    intro j c
    simp only [mean, Finset.mul_sum]
    refine Finset.sum_congr rfl fun i _ => ?_
    split_ifs <;> ring
  have hn : ∀ c, 0 ≤ (sib.map fun j => |mean d act f j c|).sum := by
    intro c
    apply List.sum_nonneg
    intro v hv
    simp only [List.mem_map] at hv
    obtain ⟨j, -, rfl⟩ := hv
    exact abs_nonneg _
  have hs : ∀ c, (sib.map fun j => |mean d act (fun j i => t * f j i) j c|).sum =
      |t| * (sib.map fun j => |mean d act f j c|).sum := by
    intro c
    rw [← List.sum_map_mul_left]
    simp only [hm, abs_mul]
  rw [C207_total d act f sib o k x y hx hy, C207_total d act _ sib o k x y hx hy, hs, hs]
  exact ⟨by linarith [hn x, hn y], by ring⟩

theorem mean_two (f : ∀ o, Faces (d o) act → ℝ) (o : D) (c : Cells act) (a b : Faces (d o) act)
    (h : TwoFaces d act o c a b) : mean d act f o c = (f o a + f o b) / 2 := by
  classical
  unfold mean
  simp only [h.1, h.2, Finset.sum_add_distrib, Finset.sum_ite_eq', Finset.mem_univ, if_true]
  ring

/-- C207. Where the gradient is the same on all faces of the two cells, the kernel is the sum of
the absolute values of its components. -/
theorem C207_uniform (f : ∀ o, Faces (d o) act → ℝ) (sib : List D) (o : D) (k : Faces (d o) act)
    (x y : Cells act) (hx : (d o).lo k.1 = some x.1) (hy : (d o).hi k.1 = some y.1) (g : D → ℝ)
    (h : ∀ j ∈ sib, ∀ c, c = x ∨ c = y → ∃ a b, TwoFaces d act j c a b ∧ f j a = g j ∧ f j b = g j) :
    kernel d act f true (some sib) o k = (sib.map fun j => |g j|).sum := by
  have e : ∀ c, c = x ∨ c = y →
      (sib.map fun j => |mean d act f j c|).sum = (sib.map fun j => |g j|).sum := by
    intro c hc
    congr 1
    refine List.map_congr_left fun j hj => ?_
    obtain ⟨a, b, h1, h2, h3⟩ := h j hj c hc
    rw [mean_two d act f j c a b h1, h2, h3]
    congr 1
    ring
  rw [C207_total d act f sib o k x y hx hy, e x (.inl rfl), e y (.inr rfl)]
  ring

/-- C207 fails: means are taken before absolute values, so that opposite gradients on the two faces
of a cell cancel. Where that holds in both cells of a face, the kernel is zero, however large the
gradient at that face, and the weight is that of a constant model. -/
theorem C207_violated_cancel (f : ∀ o, Faces (d o) act → ℝ) (sib : List D) (o : D)
    (k : Faces (d o) act) (x y : Cells act) (hx : (d o).lo k.1 = some x.1)
    (hy : (d o).hi k.1 = some y.1)
    (h : ∀ j ∈ sib, ∀ c, c = x ∨ c = y → ∃ a b, TwoFaces d act j c a b ∧ f j a = - f j b)
    [Nonempty (Faces (d o) act)] (e : ℝ) (p : Faces (d o) act → ℝ) :
    kernel d act f true (some sib) o k = 0 ∧
    weights d act f true (some sib) o false e p k =
      weights d act (fun _ _ => 0) true (some sib) o false e p k := by
  have z : ∀ (f : ∀ o, Faces (d o) act → ℝ),
      (∀ j ∈ sib, ∀ c, c = x ∨ c = y → mean d act f j c = 0) →
      kernel d act f true (some sib) o k = 0 := by
    intro f hf
    rw [C207_total d act f sib o k x y hx hy]
    have e : ∀ c, c = x ∨ c = y → (sib.map fun j => |mean d act f j c|).sum = 0 := by
      intro c hc
      apply List.sum_eq_zero
      intro v hv
      simp only [List.mem_map] at hv
      obtain ⟨j, hj, rfl⟩ := hv
      rw [hf j hj c hc, abs_zero]
    rw [e x (.inl rfl), e y (.inr rfl)]
    simp
  have h1 := z f fun j hj c hc => by
    obtain ⟨a, b, h1, h2⟩ := h j hj c hc
    rw [mean_two d act f j c a b h1, h2]
    ring
  have h2 := z (fun _ _ => 0) fun j _ c _ => by simp [mean]
  refine ⟨h1, ?_⟩
  rw [C207_weights, C207_weights, h1, h2]

/-- C207 fails at the boundary of the active cells: where the cell below a face has no other face
along the only direction, or one of zero gradient (as on the boundary of the mesh), a gradient that
is uniform elsewhere counts three quarters. -/
theorem C207_violated_boundary (f : ∀ o, Faces (d o) act → ℝ) (o : D) (k : Faces (d o) act)
    (x y : Cells act) (hx : (d o).lo k.1 = some x.1) (hy : (d o).hi k.1 = some y.1) (g : ℝ)
    (b : Faces (d o) act) (h1 : ∀ i : Faces (d o) act, (d o).hi i.1 = some x.1 → f o i = 0)
    (h2 : ∀ i : Faces (d o) act, (d o).lo i.1 = some x.1 ↔ i = k)
    (h3 : TwoFaces d act o y k b) (hk : f o k = g) (hb : f o b = g) :
    kernel d act f true (some [o]) o k = 3 / 4 * |g| := by
  classical
  have e1 : mean d act f o x = g / 2 := by
    unfold mean
    have e : ∀ i : Faces (d o) act, (if (d o).hi i.1 = some x.1 then f o i / 2 else 0) = 0 := by
      intro i
      split
      · next h => rw [h1 i h, zero_div]
      · rfl
    simp only [e, h2, add_zero, Finset.sum_ite_eq', Finset.mem_univ, if_true, hk]
  rw [C207_total d act f [o] o k x y hx hy]
  simp only [List.map_cons, List.map_nil, List.sum_cons, List.sum_nil, add_zero]
  rw [e1, mean_two d act f o y k b h3, hk, hb, abs_div, abs_of_pos (by norm_num : (0 : ℝ) < 2),
    add_self_div_two]
  ring

section tree
variable (av : ∀ o, Matrix (φ o) κ ℝ) [∀ o, Fintype {k // treeActive (av o) act k}]

theorem treeTotal_eq (f : ∀ o, {k // treeActive (av o) act k} → ℝ) (sib : List D)
    (acc : Cells act → ℝ) (c : Cells act) :
    treeTotal act av f sib acc c =
      acc c + (sib.map fun o => |(treeF2CC (av o) act *ᵥ f o) c|).sum := by
  induction sib generalizing acc with
  | nil => simp [treeTotal]
  | cons o l ih =>
    simp only [treeTotal, ih, List.map_cons, List.sum_cons]
    ring

theorem treeF2CC_const {ψ : Type} [Fintype ψ] [DecidableEq ψ] (A : Matrix ψ κ ℝ)
    [Fintype {k // treeActive A act k}] (c : Cells act)
    (hp : 0 < ∑ i : {k // treeActive A act k}, treeCC2F A act i c) (g : ℝ) :
    (treeF2CC A act *ᵥ fun _ => g) c = g := by
  classical
  have e : ∀ i, treeF2CC A act c i = (1 / ∑ i, treeCC2F A act i c) * treeCC2F A act i c := by
    intro i
    unfold treeF2CC
    simp only
    rw [if_pos hp]
  simp only [Matrix.mulVec, dotProduct, e]
  rw [← Finset.sum_mul, ← Finset.mul_sum, one_div, inv_mul_cancel₀ hp.ne', one_mul]

/-- C207 on tree meshes: a uniform gradient counts in full at every face whose average is over
active cells, boundaries included, if all cells of the face have faces in all directions of the
parent. -/
theorem C207_tree_uniform (g : D → ℝ) (sib : List D) (o : D) (k : {k // treeActive (av o) act k})
    (h1 : ∑ c : Cells act, av o k.1 c.1 = 1)
    (h2 : ∀ c : Cells act, av o k.1 c.1 ≠ 0 → ∀ j ∈ sib,
      0 < ∑ i : {k // treeActive (av j) act k}, av j i.1 c.1) :
    treeKernel act av (fun j _ => g j) true (some sib) o k = (sib.map fun j => |g j|).sum := by
  simp only [treeKernel, Matrix.mulVec, dotProduct]
  have e : ∀ c : Cells act, treeCC2F (av o) act k c *
      treeTotal act av (fun j _ => g j) sib (fun _ => 0) c =
      av o k.1 c.1 * (sib.map fun j => |g j|).sum := by
    intro c
    by_cases hc : av o k.1 c.1 = 0
    · simp [treeCC2F, hc]
    · rw [treeTotal_eq, zero_add]
      unfold treeCC2F
      congr 2
      refine List.map_congr_left fun j hj => ?_
      have hp := h2 c hc j hj
      congr 1
      exact treeF2CC_const act (av j) c hp (g j)
  rw [Finset.sum_congr rfl fun c _ => e c, ← Finset.sum_mul, h1, one_mul]

/-- The mean of an array on the kept faces over the faces of a cell, by the averages of the mesh;
zero for a cell without kept face. -/
noncomputable def treeMean (f : ∀ o, {k // treeActive (av o) act k} → ℝ) (o : D) (c : Cells act) :
    ℝ :=
  (∑ i : {k // treeActive (av o) act k}, av o i.1 c.1 * f o i) /
    ∑ i : {k // treeActive (av o) act k}, av o i.1 c.1

theorem treeF2CC_mean (hav : ∀ o k c, 0 ≤ av o k c)
    (f : ∀ o, {k // treeActive (av o) act k} → ℝ) (o : D) (c : Cells act) :
    (treeF2CC (av o) act *ᵥ f o) c = treeMean act av f o c := by
  classical
  have hn : 0 ≤ ∑ i, treeCC2F (av o) act i c := Finset.sum_nonneg fun i _ => hav o i.1 c.1
  have e : (treeF2CC (av o) act *ᵥ f o) c =
      (∑ i, treeCC2F (av o) act i c * f o i) / ∑ i, treeCC2F (av o) act i c := by
    simp only [Matrix.mulVec, dotProduct, treeF2CC, mul_assoc]
    rw [← Finset.mul_sum]
    by_cases h : 0 < ∑ i, treeCC2F (av o) act i c
    · rw [if_pos h, one_div, inv_mul_eq_div]
    · rw [if_neg h]
      have h0 := le_antisymm (not_lt.mp h) hn
      simp only [h0, zero_mul, div_zero]
  exact e

/-- C207 on tree meshes: with the total gradient, the kernel at a face is the average over the
cells of the face of the sum, over all directions of the parent, of the absolute value of the mean
gradient. -/
theorem C207_tree_total (hav : ∀ o k c, 0 ≤ av o k c)
    (f : ∀ o, {k // treeActive (av o) act k} → ℝ) (sib : List D) (o : D)
    (k : {k // treeActive (av o) act k}) :
    treeKernel act av f true (some sib) o k =
      ∑ c : Cells act, av o k.1 c.1 * (sib.map fun j => |treeMean act av f j c|).sum := by
  have e : ∀ c, treeTotal act av f sib (fun _ => 0) c =
      (sib.map fun j => |treeMean act av f j c|).sum := by
    intro c
    simp only [treeTotal_eq, treeF2CC_mean act av hav, zero_add]
  simp only [treeKernel, Matrix.mulVec, dotProduct, e, treeCC2F]

/-- C207 on tree meshes: never negative, without sign, and homogeneous. -/
theorem C207_tree_magnitude (hav : ∀ o k c, 0 ≤ av o k c)
    (f : ∀ o, {k // treeActive (av o) act k} → ℝ) (sib : List D) (o : D)
    (k : {k // treeActive (av o) act k}) (t : ℝ) :
    0 ≤ treeKernel act av f true (some sib) o k ∧
    treeKernel act av (fun j i => t * f j i) true (some sib) o k =
      |t| * treeKernel act av f true (some sib) o k := by
  have hm : ∀ j c, treeMean act av (fun j i => t * f j i) j c = t * treeMean act av f j c := by
    intro j c
    simp only [treeMean, mul_left_comm _ t, ← Finset.mul_sum, mul_div_assoc]
  rw [C207_tree_total act av hav, C207_tree_total act av hav]
  constructor
  · refine Finset.sum_nonneg fun c _ => mul_nonneg (hav _ _ _) (List.sum_nonneg ?_)
    intro v hv
    simp only [List.mem_map] at hv
    obtain ⟨j, -, rfl⟩ := hv
    exact abs_nonneg _
  · rw [Finset.mul_sum]
    refine Finset.sum_congr rfl fun c _ => ?_
    simp only [hm, abs_mul, List.sum_map_mul_left]
    ring

/-- C207 on tree meshes, components. -/
theorem C207_tree_components (f : ∀ o, {k // treeActive (av o) act k} → ℝ)
    (parent : Option (List D)) (o : D) (total : Bool) :
    treeKernel act av f false parent o = f o ∧ treeKernel act av f total none o = f o := by
  cases total <;> cases parent <;> simp [treeKernel]

/-- C207 fails on tree meshes likewise: where the averages over the faces of all cells of a face
vanish, so does the kernel. -/
theorem C207_violated_tree_cancel (f : ∀ o, {k // treeActive (av o) act k} → ℝ) (sib : List D)
    (o : D) (k : {k // treeActive (av o) act k})
    (h : ∀ c : Cells act, av o k.1 c.1 ≠ 0 → ∀ j ∈ sib,
      ∑ i : {k // treeActive (av j) act k}, av j i.1 c.1 * f j i = 0) :
    treeKernel act av f true (some sib) o k = 0 := by
  simp only [treeKernel, Matrix.mulVec, dotProduct]
  apply Finset.sum_eq_zero
  intro c _
  by_cases hc : av o k.1 c.1 = 0
  · simp [treeCC2F, hc]
  · rw [treeTotal_eq, zero_add]
    have : (sib.map fun j => |(treeF2CC (av j) act *ᵥ f j) c|).sum = 0 := by
      apply List.sum_eq_zero
      intro v hv
      simp only [List.mem_map] at hv
      obtain ⟨j, hj, rfl⟩ := hv
      have e : (treeF2CC (av j) act *ᵥ f j) c = 0 := by
        simp only [Matrix.mulVec, dotProduct, treeF2CC, mul_assoc]
        rw [← Finset.mul_sum]
        simp only [treeCC2F, h c hc j hj, mul_zero]
      rw [e, abs_zero]
    rw [this, mul_zero]

/-- Two cells and one face between them. -/
def half : Unit → Matrix (Fin 1) (Fin 2) ℝ := fun _ _ _ => 1 / 2

/-- Its averages are not negative, as C207_tree_total asks. -/
example : ∀ o k c, 0 ≤ half o k c := fun _ _ _ => by norm_num [half]

/-- A uniform gradient of -3 on that mesh. -/
example [∀ o, Fintype {k // treeActive (half o) none k}]
    [Fintype (Cells (none : Option (Fin 2 → Bool)))] (k : {k // treeActive (half ()) none k}) :
    treeKernel (φ := fun _ => Fin 1) none half (fun _ _ => -3) true (some [()]) () k = 3 := by
  rw [C207_tree_uniform (φ := fun _ => Fin 1) none half (fun _ => -3) [()] () k]
  · norm_num
  · have e : Fintype.card (Cells (none : Option (Fin 2 → Bool))) = 2 := by
      rw [Fintype.card_congr (Equiv.subtypeUnivEquiv (fun _ => trivial) :
        Cells (none : Option (Fin 2 → Bool)) ≃ Fin 2), Fintype.card_fin]
    simp [half, Finset.card_univ, e]
  · intro c _ j _
    exact Finset.sum_pos (fun _ _ => by norm_num [half]) ⟨k, Finset.mem_univ _⟩

end tree

/-- Four cells in a row. -/
def line : Unit → Dir (Fin 4) (Fin 5) := fun _ =>
  { lo := ![none, some 0, some 1, some 2, some 3]
    hi := ![some 0, some 1, some 2, some 3, none]
    dist := fun _ => 1 }

/-- A case of cancelling: gradients 1, -1, 1 on the inner faces, as of the model 0, 1, 0, 1. The
two cells in the middle have the faces below and above them. -/
example : TwoFaces line none () ⟨1, trivial⟩ ⟨1, trivial⟩ ⟨2, trivial⟩ ∧
    TwoFaces line none () ⟨2, trivial⟩ ⟨2, trivial⟩ ⟨3, trivial⟩ := by
  refine ⟨⟨?_, ?_⟩, ?_, ?_⟩ <;> rintro ⟨i, hi⟩ <;> fin_cases i <;> simp [line, Subtype.ext_iff]

/-- A case at the boundary: gradient 0 on the outer face and 5 on all others, as of a linear model. -/
example [∀ o, Fintype (Faces (line o) none)] [Fintype (Cells (none : Option (Fin 4 → Bool)))] :
    kernel line none (fun _ i => if i.1 = 0 then 0 else 5) true (some [()]) () ⟨1, trivial⟩ =
      3 / 4 * |5| := by
  refine C207_violated_boundary line none _ () ⟨1, trivial⟩ ⟨0, trivial⟩ ⟨1, trivial⟩ rfl rfl 5
    ⟨2, trivial⟩ ?_ ?_ ⟨?_, ?_⟩ ?_ ?_
  · rintro ⟨i, hi⟩; fin_cases i <;> simp [line]
  · rintro ⟨i, hi⟩; fin_cases i <;> simp [line, Subtype.ext_iff]
  · rintro ⟨i, hi⟩; fin_cases i <;> simp [line, Subtype.ext_iff]
  · rintro ⟨i, hi⟩; fin_cases i <;> simp [line, Subtype.ext_iff]
  · simp
  · simp

end Props
end Verif.Reg.TotalGradient
