import Verif.Jacobian
import Verif.Reg.Value
import Verif.Reg.Mesh
import Verif.Utils.Angles
import Mathlib.Data.Real.Sign

/-!
C86: `SmoothnessFirstOrder` for angles, with `units="radian"` (`simpeg/regularization/base.py`
1080-1095). The operators are those of `RegularizationMesh` along one direction.
-/

noncomputable section
namespace Verif.Reg.Radian
open Verif Verif.Reg Verif.Reg.RegMesh Verif.Utils.Angles Matrix

set_option linter.unusedSectionVars false

variable {ι κ φ : Type} [Fintype ι] [Fintype κ] [Fintype φ] [DecidableEq κ] [DecidableEq φ]

/-- `SmoothnessFirstOrder` with `units="radian"`: `f_m` (`simpeg/regularization/base.py` 1080-1090)
and `f_m_deriv` (1141). -/
def term (w : φ → ℝ) (G : Matrix φ κ ℝ) (dist : φ → ℝ) (P : Mapping ι κ) (b : Bool)
    (ref : Option (ι → ℝ)) : Term ι φ :=
  ⟨w, fun m f => coterminal (((G.map Real.sign) *ᵥ delta P (smoothRef b ref) m) f) / dist f,
    fun m => G * P.deriv m⟩

/-- The term on the active cells of a mesh (`simpeg/regularization/base.py` 980-992, 1189-1193). -/
def onMesh (d : Dir κ φ) (act : Option (κ → Bool)) [Fintype (Cells act)] [Fintype (Faces d act)]
    [Nonempty (Cells act)] (w : Faces d act → ℝ) (P : Mapping ι (Cells act)) (b : Bool)
    (ref : Option (ι → ℝ)) : Term ι (Faces d act) :=
  term w (cellGradient d act) (cellDistances d act) P b ref

namespace Props

/-- A mesh: neighbours are different cells and have positive distances. -/
structure Mesh (d : Dir κ φ) : Prop where
  ne : ∀ f x y, d.lo f = some x → d.hi f = some y → x ≠ y
  pos : ∀ f, 0 < d.dist f

section
variable (d : Dir κ φ) (hd : Mesh d) (act : Option (κ → Bool)) [Fintype (Cells act)]
  [Fintype (Faces d act)] [Nonempty (Cells act)] (w : Faces d act → ℝ) (P : Mapping ι (Cells act))
  (b : Bool) (ref : Option (ι → ℝ))
include hd

theorem sign_grad (f : Faces d act) (x y : Cells act) (hx : d.lo f.1 = some x.1)
    (hy : d.hi f.1 = some y.1) (c : Cells act) :
    Real.sign (cellGradient d act f c) = (if c = y then 1 else 0) - if c = x then 1 else 0 := by
  have hp : 0 < 1 / d.dist f.1 := by have := hd.pos f.1; positivity
  have hne : x ≠ y := fun h => hd.ne _ _ _ hx hy (congrArg Subtype.val h)
  rw [RegMesh.Props.gradient_apply]
  simp only [Dir.grad, hx, hy, ← Subtype.ext_iff]
  by_cases h1 : c = y
  · subst h1
    rw [if_pos rfl, if_neg hne.symm, if_pos rfl, if_neg hne.symm, sub_zero, sub_zero,
      Real.sign_of_pos hp]
  · by_cases h2 : c = x
    · subst h2
      rw [if_neg h1, if_pos rfl, if_neg h1, if_pos rfl, zero_sub, Real.sign_neg,
        Real.sign_of_pos hp, zero_sub]
    · simp [h1, h2]

omit hd in
theorem coterminal_zero : coterminal 0 = 0 :=
  (Utils.Angles.Props.C44_coterminal 0).2.2.2.1 (by linarith [Real.pi_pos]) Real.pi_pos

theorem sign_mulVec (f : Faces d act) (x y : Cells act) (hx : d.lo f.1 = some x.1)
    (hy : d.hi f.1 = some y.1) (u : Cells act → ℝ) :
    ((cellGradient d act).map Real.sign *ᵥ u) f = u y - u x := by
  simp only [Matrix.mulVec, dotProduct, Matrix.map_apply, sign_grad d hd act f x y hx hy, sub_mul,
    Finset.sum_sub_distrib, ite_mul, one_mul, zero_mul, Finset.sum_ite_eq', Finset.mem_univ, if_true]

omit hd in
theorem sign_mulVec_boundary (f : Faces d act) (h : d.lo f.1 = none ∨ d.hi f.1 = none)
    (u : Cells act → ℝ) : ((cellGradient d act).map Real.sign *ᵥ u) f = 0 := by
  simp only [Matrix.mulVec, dotProduct, Matrix.map_apply]
  refine Finset.sum_eq_zero fun c _ => ?_
  rw [RegMesh.Props.gradient_apply]
  rcases h with h | h
  · simp [Dir.grad, h]
  · cases hl : d.lo f.1 <;> simp [Dir.grad, h, hl]

theorem dist_eq (f : Faces d act) (x y : Cells act) (hx : d.lo f.1 = some x.1)
    (hy : d.hi f.1 = some y.1) : cellDistances d act f = d.dist f.1 :=
  RegMesh.Props.C85_distances d act f x y hx hy
    (fun h => hd.ne _ _ _ hx hy (congrArg Subtype.val h)) (hd.pos _)

/-- C86: at a face between two active cells the kernel is the difference of the angles, brought into
`[-π, π)`, by the distance of the centres; at the boundary it is zero. -/
theorem C86_kernel (m : ι → ℝ) (f : Faces d act) :
    (∀ x y : Cells act, d.lo f.1 = some x.1 → d.hi f.1 = some y.1 →
      (onMesh d act w P b ref).fm m f =
        coterminal (delta P (smoothRef b ref) m y - delta P (smoothRef b ref) m x) / d.dist f.1) ∧
    (d.lo f.1 = none ∨ d.hi f.1 = none → (onMesh d act w P b ref).fm m f = 0) := by
  constructor
  · intro x y hx hy
    simp only [onMesh, term, sign_mulVec d hd act f x y hx hy, dist_eq d hd act f x y hx hy]
  · intro h
    simp only [onMesh, term, sign_mulVec_boundary d act f h, coterminal_zero, zero_div]

omit hd in
/-- The coterminal angle only depends on the angle up to multiples of `2π`. -/
theorem coterminal_add (θ : ℝ) (k : ℤ) : coterminal (θ + 2 * Real.pi * k) = coterminal θ := by
  obtain ⟨⟨h1, h2⟩, ⟨n, hn⟩, -⟩ := Utils.Angles.Props.C44_coterminal θ
  refine (Utils.Angles.Props.C44_coterminal _).2.2.1 _ h1 h2 ⟨n + k, ?_⟩
  push_cast
  linarith

omit hd in
/-- C86: the angle is the shortest one. -/
theorem C86_shortest (θ : ℝ) (k : ℤ) : |coterminal θ| ≤ |θ + 2 * Real.pi * k| := by
  obtain ⟨⟨h1, h2⟩, ⟨n, hn⟩, -⟩ := Utils.Angles.Props.C44_coterminal θ
  have hp := Real.pi_pos
  set c := coterminal θ
  have e : θ + 2 * Real.pi * k = c + 2 * Real.pi * (n + k : ℤ) := by push_cast; linarith
  rw [e]
  rcases lt_trichotomy (n + k) 0 with h | h | h
  · have : ((n + k : ℤ) : ℝ) ≤ -1 := by exact_mod_cast Int.le_sub_one_of_lt h
    have h3 : c + 2 * Real.pi * (n + k : ℤ) ≤ c - 2 * Real.pi := by nlinarith
    rw [abs_of_nonpos (by linarith : c + 2 * Real.pi * (n + k : ℤ) ≤ 0)]
    exact abs_le.2 ⟨by linarith, by linarith⟩
  · rw [h]; simp
  · have : (1 : ℝ) ≤ ((n + k : ℤ) : ℝ) := by exact_mod_cast h
    have h3 : c + 2 * Real.pi ≤ c + 2 * Real.pi * (n + k : ℤ) := by nlinarith
    rw [abs_of_nonneg (by linarith : 0 ≤ c + 2 * Real.pi * (n + k : ℤ))]
    exact abs_le.2 ⟨by linarith, by linarith⟩

/-- C86: adding any multiples of `2π` to the angles of any cells does not change the value. -/
theorem C86_periodic (m m' : ι → ℝ) (k : Cells act → ℤ)
    (h : ∀ c, P.apply m' c = P.apply m c + 2 * Real.pi * k c) :
    (onMesh d act w P b ref).value m' = (onMesh d act w P b ref).value m := by
  have hdl : ∀ c, delta P (smoothRef b ref) m' c =
      delta P (smoothRef b ref) m c + 2 * Real.pi * k c := by
    intro c
    unfold delta
    cases smoothRef b ref with
    | none => exact h c
    | some r => simp only [Pi.sub_apply, h c]; ring
  have e : (onMesh d act w P b ref).fm m' = (onMesh d act w P b ref).fm m := by
    funext f
    rcases RegMesh.Props.neighbours d act f with hb | ⟨x, y, hx, hy⟩
    · rw [(C86_kernel d hd act w P b ref m f).2 hb, (C86_kernel d hd act w P b ref m' f).2 hb]
    · rw [(C86_kernel d hd act w P b ref m f).1 x y hx hy,
        (C86_kernel d hd act w P b ref m' f).1 x y hx hy, hdl, hdl]
      congr 1
      have := coterminal_add (delta P (smoothRef b ref) m y - delta P (smoothRef b ref) m x)
        (k y - k x)
      rw [← this]
      congr 1
      push_cast
      ring
  unfold Term.value
  rw [e]

/-- C86: the value is at most that of the same term for quantities which are not angles. -/
theorem C86_le (hw : ∀ f, 0 ≤ w f) (m : ι → ℝ) :
    (onMesh d act w P b ref).value m ≤ (firstOrderTerm w (cellGradient d act) P b ref).value m := by
  rw [(Reg.Props.C40_value _ hw m).1, (Reg.Props.C40_value _ hw m).1]
  refine Finset.sum_le_sum fun f _ => mul_le_mul_of_nonneg_left ?_ (hw f)
  rw [sq_le_sq]
  rcases RegMesh.Props.neighbours d act f with hb | ⟨x, y, hx, hy⟩
  · rw [(C86_kernel d hd act w P b ref m f).2 hb]
    simp
  · rw [(C86_kernel d hd act w P b ref m f).1 x y hx hy]
    show _ ≤ |(cellGradient d act *ᵥ delta P (smoothRef b ref) m) f|
    rw [(RegMesh.Props.C85_gradient d act _ f).1 x y hx hy, abs_div, abs_div]
    refine div_le_div_of_nonneg_right ?_ (abs_nonneg _)
    simpa using C86_shortest
      (delta P (smoothRef b ref) m y - delta P (smoothRef b ref) m x) 0

omit hd in
theorem coterminal_deriv (θ : ℝ) (h : coterminal θ ≠ -Real.pi) : HasDerivAt coterminal 1 θ := by
  have hp := Real.pi_pos
  have h2 : (0 : ℝ) < 2 * Real.pi := by positivity
  set n := ⌊(θ + Real.pi) / (2 * Real.pi)⌋ with hn
  have e : coterminal θ = θ - n * (2 * Real.pi) := by
    unfold coterminal pymod
    rw [← hn]; ring
  have r := ((Utils.Angles.Props.C44_coterminal θ).1)
  have lo : -Real.pi < θ - n * (2 * Real.pi) := e ▸ lt_of_le_of_ne r.1 (Ne.symm h)
  have hi : θ - n * (2 * Real.pi) < Real.pi := e ▸ r.2
  have loc : ∀ᶠ t in nhds θ, coterminal t = t - n * (2 * Real.pi) := by
    have c : Continuous fun t : ℝ => t - n * (2 * Real.pi) := by fun_prop
    filter_upwards [c.continuousAt.eventually (lt_mem_nhds lo), c.continuousAt.eventually
      (gt_mem_nhds hi)] with t h3 h4
    exact (Utils.Angles.Props.C44_coterminal t).2.2.1 _ h3.le h4 ⟨n, by ring⟩
  have k : HasDerivAt (fun t : ℝ => t - n * (2 * Real.pi)) 1 θ := (hasDerivAt_id θ).sub_const _
  exact HasDerivAt.congr_of_eventuallyEq k loc

/-- C86: `deriv` is the gradient of the value at all models where no two neighbours have opposite
directions, for every mapping with a derivative. -/
theorem C86_gradient (m : ι → ℝ) (hP : IsJacobian P.apply (P.deriv m) m)
    (h : ∀ (f : Faces d act) (x y : Cells act), d.lo f.1 = some x.1 → d.hi f.1 = some y.1 →
      coterminal (delta P (smoothRef b ref) m y - delta P (smoothRef b ref) m x) ≠ -Real.pi) :
    IsGradient (onMesh d act w P b ref).value ((onMesh d act w P b ref).deriv m) m := by
  classical
  refine Reg.Props.C40_gradient _ m ?_
  have hj := Reg.Props.comp_jacobian ((cellGradient d act).map Real.sign) _ _ m
    (Reg.Props.delta_jacobian P (smoothRef b ref) m hP)
  have hm := IsJacobian.map (hf := hj) (φ := fun f t => coterminal t / cellDistances d act f)
    (φ' := fun f => 1 / cellDistances d act f) (fun f => by
      refine (coterminal_deriv _ ?_).div_const _
      rcases RegMesh.Props.neighbours d act f with hb | ⟨x, y, hx, hy⟩
      · rw [sign_mulVec_boundary d act f hb, coterminal_zero]
        exact (neg_lt_zero.2 Real.pi_pos).ne'
      · rw [sign_mulVec d hd act f x y hx hy]
        exact h f x y hx hy)
  have e : diagonal (fun f => 1 / cellDistances d act f) *
      ((cellGradient d act).map Real.sign * P.deriv m) = cellGradient d act * P.deriv m := by
    rw [← Matrix.mul_assoc]
    congr 1
    ext f c
    rw [Matrix.diagonal_mul, Matrix.map_apply]
    rcases RegMesh.Props.neighbours d act f with hb | ⟨x, y, hx, hy⟩
    · rw [RegMesh.Props.gradient_apply]
      have : d.grad f.1 c.1 = 0 := by
        rcases hb with hb | hb
        · simp [Dir.grad, hb]
        · cases hl : d.lo f.1 <;> simp [Dir.grad, hb, hl]
      rw [this, Real.sign_zero, mul_zero]
    · rw [sign_grad d hd act f x y hx hy, dist_eq d hd act f x y hx hy,
        RegMesh.Props.gradient_apply]
      simp only [Dir.grad, hx, hy, ← Subtype.ext_iff]
      split_ifs <;> simp
  rw [e] at hm
  exact hm

end

/-- The excluded case: opposite directions have the angle `-π`. -/
theorem C86_opposite : coterminal Real.pi = -Real.pi :=
  (Utils.Angles.Props.C44_coterminal _).2.2.1 _ le_rfl (by linarith [Real.pi_pos]) ⟨1, by push_cast; ring⟩

/-- The mesh of two cells meets the conditions, also of the gradient. -/
example : Mesh RegMesh.Props.toy ∧ coterminal (1 - 0) ≠ -Real.pi := by
  refine ⟨⟨fun f x y hx hy => ?_, fun f => ?_⟩, ?_⟩
  · fin_cases f <;> simp [RegMesh.Props.toy] at hx hy
    rw [← hx, ← hy]; decide
  · fin_cases f <;> simp [RegMesh.Props.toy]
  · rw [(Utils.Angles.Props.C44_coterminal _).2.2.2.1 (by linarith [Real.pi_pos])
      (by linarith [Real.two_le_pi])]
    linarith [Real.pi_pos]

end Props
end Verif.Reg.Radian
