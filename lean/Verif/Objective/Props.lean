import Verif.Objective.Lemmas
import Verif.Objective.L2
import Mathlib.Tactic.NormNum
import Mathlib.Tactic.Linarith

/-! C08-C11: objective function algebra. -/

namespace Verif.Objective.Props
open Verif Objective Spec Matrix

section C08
variable {K V : Type} [Field K] [DecidableEq K]

theorem build_spec {X : Type} [AddCommGroup X] [Module K X] (base : Base K V → X) :
    ∀ (e : Expr K V), (∀ l ∈ e.leaves, WF l) → ∀ o, build e = .ok o →
    WF o ∧ total base o = denote (total base) e ∧ e.Legal ∧
      ∀ n, ((o.nP = none ∨ o.nP = some n) ↔ ∀ l ∈ e.leaves, l.nP = none ∨ l.nP = some n)
  | .leaf l, hl, o, h => by
    simp only [build, Except.ok.injEq] at h
    subst h
    simp only [Expr.leaves, List.mem_singleton, forall_eq] at hl
    simp [hl, denote, Expr.Legal, Expr.leaves]
  | .add a b, hl, o, h => by
    simp only [build] at h
    simp only [Expr.leaves, List.mem_append] at hl
    split at h
    · cases h
    · next oa ha =>
      split at h
      · cases h
      · next ob hb =>
        obtain ⟨wa, ta, ga, na⟩ := build_spec base a (fun l hm => hl l (Or.inl hm)) oa ha
        obtain ⟨wb, tb, gb, nb⟩ := build_spec base b (fun l hm => hl l (Or.inr hm)) ob hb
        obtain ⟨wo, no⟩ := add_wf oa ob o wa wb h
        obtain ⟨_, rfl⟩ := (add_ok_iff oa ob o wa wb).mp h
        refine ⟨wo, ?_, ⟨ga, gb⟩, fun n => ?_⟩
        · simp only [total, denote]
          rw [totalList_append base _ _ _ _ (unpackOperand_spec oa wa).1, total_unpack,
            total_unpack, ta, tb]
        · rw [no n, na n, nb n]
          simp only [Expr.leaves, List.mem_append]
          constructor
          · rintro ⟨h1, h2⟩ l (hm | hm)
            · exact h1 l hm
            · exact h2 l hm
          · intro h
            exact ⟨fun l hm => h l (Or.inl hm), fun l hm => h l (Or.inr hm)⟩
  | .mul c a, hl, o, h => by
    simp only [build] at h
    split at h
    · cases h
    · next oa ha =>
      obtain ⟨wa, ta, ga, na⟩ := build_spec base a hl oa ha
      obtain ⟨k, rfl, rfl⟩ := (mul_ok_iff oa o c).mp h
      obtain ⟨wo, no⟩ := mul_wf oa k wa
      refine ⟨wo, ?_, ⟨by simp, ga⟩, fun n => ?_⟩
      · simp [total, totalList, denote, Mult.val, ta]
      · rw [no]; exact na n
  | .div a c, hl, o, h => by
    simp only [build] at h
    split at h
    · cases h
    · next oa ha =>
      obtain ⟨wa, ta, ga, na⟩ := build_spec base a hl oa ha
      cases c with
      | bad => simp [Objective.div] at h
      | num k =>
        simp only [Objective.div] at h
        split at h
        · cases h
        · next hk =>
          obtain ⟨k', e, rfl⟩ := (mul_ok_iff oa o _).mp h
          cases e
          obtain ⟨wo, no⟩ := mul_wf oa (1 / k) wa
          refine ⟨wo, ?_, ⟨⟨k, rfl, hk⟩, ga⟩, fun n => ?_⟩
          · simp [total, totalList, denote, Mult.val, ta]
          · rw [no]; exact na n

/-- C08. Whatever expression is built from well-formed objective functions with `+`, scalar
`*` and scalar `/`, calling the object Python builds gives, at every model, the algebraic
value of the expression in terms of the values of its leaves. -/
theorem C08_expression_value (e : Expr K V) (hl : ∀ l ∈ e.leaves, WF l) (o : Obj K V)
    (h : build e = .ok o) (m : V) :
    o.value m = denote (fun l => l.value m) e := by
  have := (build_spec (fun b : Base K V => b.value m) e hl o h).2.1
  rw [value_eq_total, this]
  congr 1
  funext l
  rw [value_eq_total]

/-- C08. Calling a combo gives `Σ cᵢ φᵢ(m)` whatever the multipliers (zero included) and
however deeply the members nest. -/
theorem C08_combo_value (u : Bool) (fs : List (Obj K V)) (cs : List K) (m : V) :
    (Obj.combo u fs cs).value m = ((fs.zip cs).map fun p => p.2 * p.1.value m).sum := by
  simp only [Obj.value]
  rw [valueLoop_eq, zero_add]
  induction fs generalizing cs with
  | nil => simp [totalList]
  | cons f fs ih =>
    cases cs with
    | nil => simp [totalList]
    | cons c cs => simp [totalList, ih, value_eq_total]

end C08

section C10
variable {K V : Type} [Field K] [DecidableEq K]

/-- C10. An expression over well-formed leaves is accepted exactly when its scalars are
numbers, no divisor is zero, and all leaves that fix a number of parameters fix the same
one; the object built is then well-formed. -/
theorem C10_expression_accepted_iff (e : Expr K V) (hl : ∀ l ∈ e.leaves, WF l) :
    (∃ o, build e = .ok o ∧ WF o) ↔
      e.Legal ∧ ∃ n, ∀ l ∈ e.leaves, l.nP = none ∨ l.nP = some n := by
  constructor
  · rintro ⟨o, h, _⟩
    obtain ⟨w, _, g, n⟩ := build_spec (fun _ : Base K V => (0 : K)) e hl o h
    refine ⟨g, ?_⟩
    cases hn : o.nP with
    | none => exact ⟨0, (n 0).mp (Or.inl hn)⟩
    | some k => exact ⟨k, (n k).mp (Or.inr hn)⟩
  · rintro ⟨g, n, hn⟩
    suffices h : ∃ o, build e = .ok o by
      obtain ⟨o, h⟩ := h
      exact ⟨o, h, (build_spec (fun _ : Base K V => (0 : K)) e hl o h).1⟩
    induction e with
    | leaf l => exact ⟨l, rfl⟩
    | add a b iha ihb =>
      simp only [Expr.leaves, List.mem_append] at hl hn
      obtain ⟨oa, ha⟩ := iha (fun l hm => hl l (Or.inl hm)) g.1 (fun l hm => hn l (Or.inl hm))
      obtain ⟨ob, hb⟩ := ihb (fun l hm => hl l (Or.inr hm)) g.2 (fun l hm => hn l (Or.inr hm))
      obtain ⟨wa, _, _, na⟩ := build_spec (fun _ : Base K V => (0 : K)) a
        (fun l hm => hl l (Or.inl hm)) oa ha
      obtain ⟨wb, _, _, nb⟩ := build_spec (fun _ : Base K V => (0 : K)) b
        (fun l hm => hl l (Or.inr hm)) ob hb
      refine ⟨.combo true ((unpackOperand oa).1 ++ (unpackOperand ob).1)
        ((unpackOperand oa).2 ++ (unpackOperand ob).2), ?_⟩
      · simp only [build, ha, hb]
        exact (add_ok_iff oa ob _ wa wb).mpr ⟨⟨n, (na n).mpr (fun l hm => hn l (Or.inl hm)),
          (nb n).mpr (fun l hm => hn l (Or.inr hm))⟩, rfl⟩
    | mul c a ih =>
      obtain ⟨oa, ha⟩ := ih hl g.2 hn
      cases c with
      | bad => exact absurd rfl g.1
      | num k =>
        refine ⟨.combo true [oa] [k], ?_⟩
        · simp only [build, ha]
          exact (mul_ok_iff oa _ _).mpr ⟨k, rfl, rfl⟩
    | div a c ih =>
      obtain ⟨⟨k, rfl, hk⟩, g2⟩ := g
      obtain ⟨oa, ha⟩ := ih hl g2 hn
      refine ⟨.combo true [oa] [1 / k], ?_⟩
      · simp only [build, ha, Objective.div, hk, if_false]
        exact (mul_ok_iff oa _ _).mpr ⟨1 / k, rfl, rfl⟩

omit [Field K] [DecidableEq K] in
/-- C10. The constructor accepts exactly the well-formed combinations. -/
theorem C10_constructor (u : Bool) (fs : List (Obj K V)) (ms : List (Mult K))
    (hfs : ∀ f ∈ fs, WF f) :
    ((∃ o, mkCombo u fs ms = .ok o) ↔
      fs.length = ms.length ∧ (∃ n, ∀ f ∈ fs, f.nP = none ∨ f.nP = some n) ∧ .bad ∉ ms) ∧
    ∀ o, mkCombo u fs ms = .ok o → WF o := by
  constructor
  · simp only [mkCombo_ok_iff, ← validateMultipliers_ok_iff]
    constructor
    · rintro ⟨o, h1, h2, cs, h3, _⟩; exact ⟨h1, h2, cs, h3⟩
    · rintro ⟨h1, h2, cs, h3⟩; exact ⟨_, h1, h2, cs, h3, rfl⟩
  · intro o h
    obtain ⟨h1, h2, cs, h3, rfl⟩ := (mkCombo_ok_iff _ _ _ _).mp h
    refine ⟨by rw [h1, validateMultipliers_length _ _ h3], h2, (WFList_iff fs).mpr hfs⟩

omit [Field K] [DecidableEq K] in
/-- C10. Assigning multipliers: afterwards the object is well-formed; a rejected assignment
leaves the object as it was; it is rejected exactly when the value has the wrong length or
contains a non-number; an accepted one installs exactly the given numbers. -/
theorem C10_multipliers_setter (u : Bool) (fs : List (Obj K V)) (cs : List K)
    (ms : List (Mult K)) (hw : WF (Obj.combo u fs cs)) :
    let r := setMultipliers (.combo u fs cs) ms
    WF r.1 ∧ (r.2 ≠ none → r.1 = .combo u fs cs) ∧
    (r.2 = none ↔ ms.length = fs.length ∧ .bad ∉ ms) ∧
    (r.2 = none → ∃ cs', ms = cs'.map .num ∧ r.1 = .combo u fs cs') := by
  have key : ∀ (ms : List (Mult K)) (l : List K), validateMultipliers ms = .ok l →
      ms = l.map .num := by
    intro ms
    induction ms with
    | nil => intro l h; simp [validateMultipliers] at h; simp [← h]
    | cons a ms ih =>
      intro l h
      cases a with
      | bad => simp [validateMultipliers] at h
      | num c =>
        simp only [validateMultipliers] at h
        split at h
        · cases h
        · next l' h' => cases h; simp [ih l' h']
  intro r
  simp only [r, setMultipliers]
  rw [← validateMultipliers_ok_iff]
  split
  · next e he => simp [hw, he]
  · next l hl =>
    split
    · next hlen =>
      simp only [hw, ne_eq, reduceCtorEq, not_false_eq_true, imp_self, false_iff, true_and,
        not_and]
      simp
      intro h; exact absurd h.symm hlen
    · next hlen =>
      simp only [ne_eq, not_not] at hlen
      refine ⟨⟨?_, hw.2.1, hw.2.2⟩, by simp, by simp [hlen, hl], fun _ => ⟨l, key _ _ hl, rfl⟩⟩
      rw [hlen, validateMultipliers_length _ _ hl]

end C10

section C09
variable {ι : Type} [Fintype ι]

mutual
theorem total_hasFDerivAt {E F : Type} [NormedAddCommGroup E] [NormedSpace ℝ E]
    [NormedAddCommGroup F] [NormedSpace ℝ F] {V : Type} (m : E)
    (f : E → Base ℝ V → F) (f' : Base ℝ V → E →L[ℝ] F) :
    ∀ (o : Obj ℝ V), AllBases (fun b => HasFDerivAt (fun x => f x b) (f' b) m) o →
    HasFDerivAt (fun x => total (f x) o) (total f' o) m
  | .base b, h => by simpa [total, AllBases] using h
  | .combo u fs cs, h => by
    simp only [total]
    exact totalList_hasFDerivAt m f f' fs cs h
theorem totalList_hasFDerivAt {E F : Type} [NormedAddCommGroup E] [NormedSpace ℝ E]
    [NormedAddCommGroup F] [NormedSpace ℝ F] {V : Type} (m : E)
    (f : E → Base ℝ V → F) (f' : Base ℝ V → E →L[ℝ] F) :
    ∀ (fs : List (Obj ℝ V)) (cs : List ℝ),
    AllBasesList (fun b => HasFDerivAt (fun x => f x b) (f' b) m) fs →
    HasFDerivAt (fun x => totalList (f x) fs cs) (totalList f' fs cs) m
  | [], cs, h => by simp only [totalList]; exact hasFDerivAt_const _ _
  | g :: fs, [], h => by simp only [totalList]; exact hasFDerivAt_const _ _
  | g :: fs, c :: cs, h => by
    simp only [totalList]
    exact ((total_hasFDerivAt m f f' g h.1).const_smul c).add
      (totalList_hasFDerivAt m f f' fs cs h.2)
end

mutual
theorem total_map {V X Y : Type} [AddCommGroup X] [Module ℝ X] [AddCommGroup Y] [Module ℝ Y]
    (φ : X →ₗ[ℝ] Y) (base : Base ℝ V → X) : ∀ (o : Obj ℝ V),
    total (fun b => φ (base b)) o = φ (total base o)
  | .base b => by simp [total]
  | .combo u fs cs => by simp [total, totalList_map φ base fs cs]
theorem totalList_map {V X Y : Type} [AddCommGroup X] [Module ℝ X] [AddCommGroup Y]
    [Module ℝ Y] (φ : X →ₗ[ℝ] Y) (base : Base ℝ V → X) :
    ∀ (fs : List (Obj ℝ V)) (cs : List ℝ),
    totalList (fun b => φ (base b)) fs cs = φ (totalList base fs cs)
  | [], cs => by simp [totalList]
  | f :: fs, [] => by simp [totalList]
  | f :: fs, c :: cs => by simp [totalList, total_map φ base f, totalList_map φ base fs cs]
end

/-- Gradient arrays as functionals, linearly. -/
noncomputable def dotLin : (ι → ℝ) →ₗ[ℝ] ((ι → ℝ) →L[ℝ] ℝ) where
  toFun := dotL
  map_add' := dotL_add
  map_smul' := dotL_smul

/-- The array that a returned value stands for (`Zero()` is the zero array). -/
def arr (x : Option (ι → ℝ)) : ι → ℝ := x.getD 0

/-- C09. If every base function returns its true gradient at `m`, then `deriv` of every
object built from them (any nesting, any multipliers) is the true gradient of its value. -/
theorem C09_gradient (o : Obj ℝ (ι → ℝ)) (m : ι → ℝ)
    (h : AllBases (fun b => IsGradient b.value (arr (b.deriv m)) m) o) :
    IsGradient (fun x => o.value x) (arr (o.deriv m)) m := by
  have h1 := total_hasFDerivAt m (fun x b => b.value x) (fun b => dotL (arr (b.deriv m))) o h
  have h2 : total (fun b => dotL (arr (b.deriv m))) o = dotL (arr (o.deriv m)) := by
    have := total_map dotLin (fun b : Base ℝ (ι → ℝ) => arr (b.deriv m)) o
    simp only [dotLin, LinearMap.coe_mk, AddHom.coe_mk] at this
    rw [this]
    unfold arr
    rw [deriv_eq_total]
  unfold IsGradient
  rw [← h2]
  simp only [value_eq_total]
  exact h1

/-- C09. If for every base function `v ↦ deriv2(m, v)` is the derivative of its gradient at
`m`, the same holds of every object built from them. -/
theorem C09_hessian (o : Obj ℝ (ι → ℝ)) (m : ι → ℝ) (H : Base ℝ (ι → ℝ) → Matrix ι ι ℝ)
    (h : AllBases (fun b => IsJacobian (fun x => arr (b.deriv x)) (H b) m ∧
      ∀ v, arr (b.deriv2 m v) = H b *ᵥ v) o) :
    IsJacobian (fun x => arr (o.deriv x)) (total H o) m ∧
      ∀ v, arr (o.deriv2 m v) = total H o *ᵥ v := by
  have mono : ∀ (P Q : Base ℝ (ι → ℝ) → Prop) (hPQ : ∀ b, P b → Q b) (o : Obj ℝ (ι → ℝ)),
      AllBases P o → AllBases Q o := by
    intro P Q hPQ o
    refine Obj.rec (motive_1 := fun o => AllBases P o → AllBases Q o)
      (motive_2 := fun l => AllBasesList P l → AllBasesList Q l) ?_ ?_ ?_ ?_ o
    · intro b h; exact hPQ b h
    · intro u fs cs ih h; exact ih h
    · intro h; trivial
    · intro f fs ih1 ih2 h; exact ⟨ih1 h.1, ih2 h.2⟩
  constructor
  · have h1 := total_hasFDerivAt m (fun x b => arr (b.deriv x)) (fun b => mulVecL (H b)) o
      (mono _ _ (fun b hb => hb.1) o h)
    unfold IsJacobian
    have h2 : total (fun b => mulVecL (H b)) o = mulVecL (total H o) := by
      let φ : Matrix ι ι ℝ →ₗ[ℝ] ((ι → ℝ) →L[ℝ] (ι → ℝ)) :=
        { toFun := mulVecL
          map_add' := by intro A B; ext v; simp [Matrix.add_mulVec]
          map_smul' := by intro c A; ext v; simp [Matrix.smul_mulVec] }
      exact total_map φ H o
    rw [← h2]
    have h3 : (fun x => arr (o.deriv x)) = fun x => total (fun b => arr (b.deriv x)) o := by
      funext x; unfold arr; rw [deriv_eq_total]
    rw [h3]
    exact h1
  · intro v
    unfold arr
    rw [deriv2_eq_total]
    let φ : Matrix ι ι ℝ →ₗ[ℝ] (ι → ℝ) :=
      { toFun := fun A => A *ᵥ v
        map_add' := by intro A B; simp [Matrix.add_mulVec]
        map_smul' := by intro c A; simp [Matrix.smul_mulVec] }
    have h4 := total_map φ H o
    have h5 : ∀ o : Obj ℝ (ι → ℝ), AllBases (fun b => arr (b.deriv2 m v) = φ (H b)) o →
        total (fun b => (b.deriv2 m v).getD 0) o = total (fun b => φ (H b)) o := by
      intro o
      refine Obj.rec (motive_1 := fun o => AllBases (fun b => arr (b.deriv2 m v) = φ (H b)) o →
        total (fun b => (b.deriv2 m v).getD 0) o = total (fun b => φ (H b)) o)
        (motive_2 := fun l => AllBasesList (fun b => arr (b.deriv2 m v) = φ (H b)) l →
        ∀ cs, totalList (fun b => (b.deriv2 m v).getD 0) l cs
          = totalList (fun b => φ (H b)) l cs) ?_ ?_ ?_ ?_ o
      · intro b h; simpa [total, arr, AllBases] using h
      · intro u fs cs ih h; simp only [total]; exact ih h cs
      · intro h cs; simp [totalList]
      · intro f fs ih1 ih2 h cs
        cases cs with
        | nil => simp [totalList]
        | cons c cs => simp only [totalList]; rw [ih1 h.1, ih2 h.2]
    rw [h5 o (mono _ _ (fun b hb => hb.2 v) o h), h4]
    rfl

end C09

section C11
open L2
variable {ι κ ρ : Type} [Fintype ι] [Fintype κ] [Fintype ρ]

/-- The map `x ↦ x · x`. -/
theorem hasFDerivAt_dotSelf (x : ρ → ℝ) :
    HasFDerivAt (fun y : ρ → ℝ => y ⬝ᵥ y) (dotL (2 • x)) x := by
  have h : ∀ i ∈ (Finset.univ : Finset ρ), HasFDerivAt (fun y : ρ → ℝ => y i * y i)
      (x i • (ContinuousLinearMap.proj i : (ρ → ℝ) →L[ℝ] ℝ) +
        x i • (ContinuousLinearMap.proj i : (ρ → ℝ) →L[ℝ] ℝ)) x := by
    intro i _
    exact (hasFDerivAt_apply i x).mul (hasFDerivAt_apply i x)
  have := HasFDerivAt.fun_sum h
  refine this.congr_fderiv ?_
  ext v
  simp only [_root_.sum_apply, _root_.add_apply,
    _root_.smul_apply, ContinuousLinearMap.proj_apply, smul_eq_mul, dotL_apply,
    dotProduct, two_nsmul, Pi.add_apply]
  refine Finset.sum_congr rfl fun i _ => ?_
  ring

/-- C11. The value is the squared norm of the weighted residual. -/
theorem C11_value (W : Matrix ρ κ ℝ) (f : Mapping ι κ) (m : ι → ℝ) :
    L2.value W f m = ∑ i, (∑ j, W i j * f.apply m j) ^ 2 := by
  simp only [L2.value, dotProduct, mulVec, sq]

/-- C11. If `mapping.deriv(m)` is the Jacobian of the mapping at `m` then `deriv(m)` is the
gradient of the value at `m`. -/
theorem C11_gradient (W : Matrix ρ κ ℝ) (f : Mapping ι κ) (m : ι → ℝ)
    (hf : IsJacobian f.apply (f.deriv m) m) :
    IsGradient (L2.value W f) (L2.deriv W f m) m := by
  have h1 : HasFDerivAt (fun x => W *ᵥ f.apply x) ((mulVecL W).comp (mulVecL (f.deriv m))) m :=
    (mulVecL W).hasFDerivAt.comp m hf
  have h2 := (hasFDerivAt_dotSelf (W *ᵥ f.apply m)).comp m h1
  refine h2.congr_fderiv ?_
  ext v
  simp only [ContinuousLinearMap.comp_apply, mulVecL_apply, dotL_apply, L2.deriv]
  rw [smul_dotProduct, Matrix.smul_mulVec, smul_dotProduct]
  congr 1
  rw [Matrix.dotProduct_mulVec, Matrix.dotProduct_mulVec, Matrix.mulVec_transpose,
    Matrix.mulVec_transpose]

/-- C11. `deriv2(m)` and `deriv2(m, v)` agree. -/
theorem C11_deriv2_forms_agree (W : Matrix ρ κ ℝ) (f : Mapping ι κ) (m v : ι → ℝ) :
    deriv2Mat W f m *ᵥ v = deriv2 W f m v := by
  simp [deriv2Mat, deriv2, Matrix.transpose_mul, Matrix.mulVec_mulVec, Matrix.mul_assoc,
    Matrix.smul_mulVec]

/-- C11. `deriv2` is symmetric and positive semidefinite: `v·(Hv) = 2‖W J v‖²`. -/
theorem C11_deriv2_symmetric_psd (W : Matrix ρ κ ℝ) (f : Mapping ι κ) (m : ι → ℝ) :
    (deriv2Mat W f m)ᵀ = deriv2Mat W f m ∧
    ∀ v, v ⬝ᵥ deriv2 W f m v = 2 * ∑ i, ((W * f.deriv m) *ᵥ v) i ^ 2 ∧
      0 ≤ v ⬝ᵥ deriv2 W f m v := by
  refine ⟨by simp [deriv2Mat, Matrix.transpose_mul], fun v => ?_⟩
  have h : v ⬝ᵥ deriv2 W f m v = 2 * ∑ i, ((W * f.deriv m) *ᵥ v) i ^ 2 := by
    rw [← C11_deriv2_forms_agree]
    simp only [deriv2Mat]
    rw [Matrix.smul_mul, Matrix.smul_mulVec, dotProduct_smul, ← Matrix.mulVec_mulVec,
      Matrix.dotProduct_mulVec, Matrix.vecMul_transpose]
    simp [dotProduct, sq]
  refine ⟨h, ?_⟩
  rw [h]
  positivity

/-- C11. For an affine mapping (constant Jacobian), `deriv2` is the exact Hessian. -/
theorem C11_hessian_of_affine (W : Matrix ρ κ ℝ) (f : Mapping ι κ) (A : Matrix κ ι ℝ)
    (b : κ → ℝ) (hf : ∀ m, f.apply m = A *ᵥ m + b) (hA : ∀ m, f.deriv m = A) (m : ι → ℝ) :
    IsJacobian (L2.deriv W f) (deriv2Mat W f m) m := by
  have e : L2.deriv W f = fun x => deriv2Mat W f m *ᵥ x +
      ((2 • Aᵀ) *ᵥ (Wᵀ *ᵥ (W *ᵥ b))) := by
    funext x
    rw [C11_deriv2_forms_agree]
    simp only [L2.deriv, deriv2, hf, hA, Matrix.mulVec_add]
  rw [e]
  have := ((mulVecL (deriv2Mat W f m)).hasFDerivAt (x := m)).add_const ((2 • Aᵀ) *ᵥ (Wᵀ *ᵥ (W *ᵥ b)))
  exact this

/-- C11. The stacked weight matrix of a combo of L2 functions reproduces its value, provided
no multiplier is negative. -/
theorem C11_combo_W {n : Nat} {rows : Fin n → Type} [∀ i, Fintype (rows i)] (c : Fin n → ℝ)
    (W : ∀ i, Matrix (rows i) κ ℝ) (x : κ → ℝ) (hc : ∀ i, 0 ≤ c i) :
    (comboW c W *ᵥ x) ⬝ᵥ (comboW c W *ᵥ x) = ∑ i, c i * ((W i *ᵥ x) ⬝ᵥ (W i *ᵥ x)) := by
  have e : ∀ p : (Σ i, rows i), (comboW c W *ᵥ x) p = Real.sqrt (c p.1) * (W p.1 *ᵥ x) p.2 := by
    intro p
    simp only [mulVec, dotProduct, comboW, Finset.mul_sum, mul_assoc]
  simp only [dotProduct, e]
  rw [Fintype.sum_sigma]
  refine Finset.sum_congr rfl fun i _ => ?_
  rw [Finset.mul_sum]
  refine Finset.sum_congr rfl fun j _ => ?_
  have := Real.mul_self_sqrt (hc i)
  linear_combination ((W i *ᵥ x) j * (W i *ᵥ x) j) * this

end C11

section Examples

private def q (n : Option Nat) (v : ℚ → ℚ) : Obj ℚ ℚ := .base ⟨n, v, fun _ => none, fun _ _ => none⟩

/-- `(2*a + b)/4 + 0*c` over three leaves, one of them leaving `nP` free. -/
private def e1 : Expr ℚ ℚ :=
  .add (.div (.add (.mul (.num 2) (.leaf (q (some 1) id))) (.leaf (q none (· ^ 2)))) (.num 4))
    (.mul (.num 0) (.leaf (q (some 1) (· + 1))))

example : ∃ o, build e1 = .ok o ∧ o.value 3 = (2 * 3 + 3 ^ 2) / 4 := by
  refine ⟨_, rfl, ?_⟩
  simp [Obj.value, valueLoop, q]; norm_num

example : ∀ l ∈ e1.leaves, WF l := by
  simp [e1, Expr.leaves, q, WF]

/-- Disagreeing numbers of parameters are rejected. -/
example : build (.add (.leaf (q (some 1) id)) (.leaf (q (some 2) id)) : Expr ℚ ℚ)
    = .error .valueError := rfl

example : WF (Obj.combo true [q (some 1) id, q none id] [2, 3] : Obj ℚ ℚ) := by
  refine ⟨rfl, ⟨1, ?_⟩, ?_⟩ <;> simp [q, Obj.nP, WFList, WF]

/-- A base function satisfying the hypotheses of the C09 theorems: `φ(x) = x·x`. -/
private noncomputable def sqB (n : Nat) : Base ℝ (Fin n → ℝ) :=
  ⟨some n, fun x => x ⬝ᵥ x, fun x => some (2 • x), fun _ v => some (2 • v)⟩

example (n : Nat) (m : Fin n → ℝ) :
    AllBases (fun b => IsGradient b.value (arr (b.deriv m)) m)
      (.combo true [.base (sqB n), .combo false [.base (sqB n)] [-2]] [3, 0]) :=
  ⟨hasFDerivAt_dotSelf m, ⟨hasFDerivAt_dotSelf m, trivial⟩, trivial⟩

example (n : Nat) (m : Fin n → ℝ) :
    AllBases (fun b => IsJacobian (fun x => arr (b.deriv x)) (2 • (1 : Matrix (Fin n) (Fin n) ℝ)) m ∧
      ∀ v, arr (b.deriv2 m v) = (2 • (1 : Matrix (Fin n) (Fin n) ℝ)) *ᵥ v) (.base (sqB n)) := by
  refine ⟨?_, fun v => ?_⟩
  · have e : (fun x => arr ((sqB n).deriv x)) = mulVecL (2 • (1 : Matrix (Fin n) (Fin n) ℝ)) := by
      funext x; rw [mulVecL_apply, Matrix.smul_mulVec, Matrix.one_mulVec]; rfl
    unfold IsJacobian
    rw [e]
    exact ContinuousLinearMap.hasFDerivAt _
  · rw [Matrix.smul_mulVec, Matrix.one_mulVec]; rfl

/-- A nonlinear mapping with its Jacobian, as required by `C11_gradient`. -/
example (m : Fin 1 → ℝ) : IsJacobian (ι := Fin 1) (κ := Fin 1)
    (fun x => fun _ => x 0 * x 0) (fun _ _ => 2 * m 0) m := by
  unfold IsJacobian
  rw [hasFDerivAt_pi']
  intro i
  have := (hasFDerivAt_apply (𝕜 := ℝ) (0 : Fin 1) m).mul (hasFDerivAt_apply (𝕜 := ℝ) (0 : Fin 1) m)
  refine this.congr_fderiv ?_
  ext v
  change _ = ((fun _ _ => 2 * m 0 : Matrix (Fin 1) (Fin 1) ℝ) *ᵥ v) i
  simp [mulVec, dotProduct]; ring

end Examples

end Verif.Objective.Props
