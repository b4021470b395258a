import Verif.NSEM.Props

/-! The derivatives of the data of natural source receivers, and their adjoints. -/

namespace Verif.NSEM.Props
open Verif Verif.NSEM Matrix

noncomputable section

variable {n ε φ : Type} [Fintype ε] [Fintype φ]

/-- The fields `u` along a path of models, and their derivative. -/
def FieldPath {α β : Type} (u : ℝ → Matrix α β ℂ) (du : Matrix α β ℂ) (t : ℝ) : Prop :=
  ∀ a k, HasDerivAt (fun s => u s a k) (du a k) t

/-- The values of a component at a location along a path, and their derivative. -/
def TwoPath (a : ℝ → Two) (da : Two) (t : ℝ) : Prop := ∀ k, HasDerivAt (fun s => a s k) (da k) t

omit [Fintype φ] in
theorem FieldPath.row {m : Type} (P : Matrix m ε ℝ) {u : ℝ → Matrix ε (Fin 2) ℂ}
    {du : Matrix ε (Fin 2) ℂ} {t : ℝ} (h : FieldPath u du t) (i : m) :
    TwoPath (fun s => (cm P * u s) i) ((cm P * du) i) t := by
  intro k
  have := HasDerivAt.fun_sum (u := Finset.univ) (A := fun j s => cm P i j * u s j k)
    (A' := fun j => cm P i j * du j k) (x := t) fun j _ => (h j k).const_mul _
  simpa only [Matrix.mul_apply] using this

theorem TwoPath.neg {a : ℝ → Two} {da : Two} {t : ℝ} (h : TwoPath a da t) :
    TwoPath (fun s => -a s) (-da) t := fun k => (h k).neg

theorem TwoPath.det2 {a b : ℝ → Two} {da db : Two} {t : ℝ} (ha : TwoPath a da t)
    (hb : TwoPath b db t) :
    HasDerivAt (fun s => NSEM.det2 (a s) (b s))
      (a t 0 * db 1 + da 0 * b t 1 - a t 1 * db 0 - da 1 * b t 0) t := by
  have h1 := (ha 0).mul (hb 1)
  have h2 := (ha 1).mul (hb 0)
  refine (h1.sub h2).congr_deriv ?_
  ring

theorem quot_path {f g : ℝ → ℂ} {df dg : ℂ} {t : ℝ} (hf : HasDerivAt f df t) (hg : HasDerivAt g dg t)
    (h0 : g t ≠ 0) : HasDerivAt (fun s => f s / g s) (quotDeriv (f t) (g t) df dg) t := by
  refine (hf.div hg h0).congr_deriv ?_
  unfold quotDeriv
  rw [pow_two]
  ring

theorem re_path {z : ℝ → ℂ} {dz : ℂ} {t : ℝ} (h : HasDerivAt z dz t) :
    HasDerivAt (fun s => (z s).re) dz.re t :=
  (Complex.reCLM.hasFDerivAt (x := z t)).comp_hasDerivAt t h

theorem im_path {z : ℝ → ℂ} {dz : ℂ} {t : ℝ} (h : HasDerivAt z dz t) :
    HasDerivAt (fun s => (z s).im) dz.im t :=
  (Complex.imCLM.hasFDerivAt (x := z t)).comp_hasDerivAt t h

/-- The derivative of a component; for the phase the number must not be on the cut, the negative real
axis and zero. -/
theorem comp_path (alpha : ℝ) (c : NComp) {z : ℝ → ℂ} {dz : ℂ} {t : ℝ} (h : HasDerivAt z dz t)
    (hc : c = .phase → z t ∈ Complex.slitPlane) :
    HasDerivAt (fun s => c.val alpha (z s)) (c.deriv alpha (z t) dz) t := by
  cases c with
  | real => exact re_path h
  | imag => exact im_path h
  | appRes =>
    have h1 := ((re_path h).pow 2).add ((im_path h).pow 2)
    refine (h1.const_mul alpha).congr_deriv ?_
    simp only [NComp.deriv]
    push_cast
    ring
  | phase =>
    have hs := hc rfl
    have h1 := im_path (h.clog_real hs)
    have h2 : HasDerivAt (fun s => (z s).arg) (dz / z t).im t := by
      refine h1.congr_of_eventuallyEq (Filter.Eventually.of_forall fun s => ?_)
      simp [Complex.log_im]
    refine (h2.const_mul (180 / Real.pi)).congr_deriv ?_
    simp only [NComp.deriv, Complex.div_im, Complex.normSq_apply]
    rw [show (z t).re * (z t).re + (z t).im * (z t).im = (z t).im ^ 2 + (z t).re ^ 2 by ring]
    ring

/-- **C101 (impedance).** For any fields that depend differentiably on a parameter, at any location
where the magnetic fields of the two polarisations are independent, `evalDeriv` of the derivatives of the
fields is the derivative of the datum, for every orientation and component; for the phase the impedance
must not be a negative number, where the phase jumps. -/
theorem C101_impedance (Q : Proj n ε φ) (o1 o2 : Ax) (c : NComp) (alpha : ℝ)
    {e : ℝ → Matrix ε (Fin 2) ℂ} {h : ℝ → Matrix φ (Fin 2) ℂ} {de : Matrix ε (Fin 2) ℂ}
    {dh : Matrix φ (Fin 2) ℂ} {t : ℝ} (he : FieldPath e de t) (hh : FieldPath h dh t) (i : n)
    (hd : det2 ((cm (Q.h1 .x) * h t) i) ((cm (Q.h1 .y) * h t) i) ≠ 0)
    (hc : c = .phase → impAt o2 ((cm (Q.e0 o1) * e t) i) ((cm (Q.h1 .x) * h t) i)
      ((cm (Q.h1 .y) * h t) i) ∈ Complex.slitPlane) :
    HasDerivAt (fun s => impEval Q o1 o2 c alpha (e s) (h s) i)
      (impDeriv Q o1 o2 c alpha (e t) (h t) de dh i) t := by
  have hE := he.row (Q.e0 o1) i
  have hX := hh.row (Q.h1 .x) i
  have hY := hh.row (Q.h1 .y) i
  unfold impEval impDeriv
  refine comp_path alpha c ?_ hc
  cases o2
  · simp only [impAt, impDerivAt, if_true]
    exact quot_path (hE.det2 hY) (hX.det2 hY) hd
  · simp only [impAt, impDerivAt, reduceCtorEq, if_false]
    exact quot_path (hE.det2 hX.neg) (hX.det2 hY) hd

/-- **C101 (tipper).** Likewise for tippers; their components are `real` and `imag`. -/
theorem C101_tipper (Q : Proj n ε φ) (o1 : Ax3) (o2 : Ax) (c : NComp) (hr : c = .real ∨ c = .imag)
    {h : ℝ → Matrix φ (Fin 2) ℂ} {dh : Matrix φ (Fin 2) ℂ} {t : ℝ} (hh : FieldPath h dh t) (i : n)
    (hd : det2 ((cm (Q.h1 .x) * h t) i) ((cm (Q.h1 .y) * h t) i) ≠ 0) :
    HasDerivAt (fun s => tipEval Q o1 o2 c (h s) i) (tipDeriv Q o1 o2 c (h t) dh i) t := by
  have hO := hh.row (Q.h0 o1) i
  have hX := hh.row (Q.h1 .x) i
  have hY := hh.row (Q.h1 .y) i
  unfold tipEval tipDeriv
  refine comp_path 0 c ?_ (by rintro rfl; rcases hr with hr | hr <;> cases hr)
  cases o2
  · simp only [tipAt, tipDerivAt, if_true]
    exact quot_path (hY.neg.det2 hO) (hX.det2 hY) hd
  · simp only [tipAt, tipDerivAt, reduceCtorEq, if_false]
    exact quot_path (hX.det2 hO) (hX.det2 hY) hd

/-- **C101 (admittance).** Likewise for admittances: `evalDeriv` is the derivative of what `eval`
returns, whether or not that is an admittance. -/
theorem C101_admittance (Q : Proj n ε φ) (o1 : Ax3) (o2 : Ax) (c : NComp)
    (hr : c = .real ∨ c = .imag) {e : ℝ → Matrix ε (Fin 2) ℂ} {h : ℝ → Matrix φ (Fin 2) ℂ}
    {de : Matrix ε (Fin 2) ℂ} {dh : Matrix φ (Fin 2) ℂ} {t : ℝ} (he : FieldPath e de t)
    (hh : FieldPath h dh t) (i : n)
    (hd : det2 ((cm (Q.e0 .x) * e t) i) ((cm (Q.e0 .y) * e t) i) ≠ 0) :
    HasDerivAt (fun s => admEval Q o1 o2 c (e s) (h s) i)
      (admDeriv Q o1 o2 c (e t) (h t) de dh i) t := by
  have hH := hh.row (Q.h1 o1) i
  have hX := he.row (Q.e0 .x) i
  have hY := he.row (Q.e0 .y) i
  unfold admEval admDeriv
  refine comp_path 0 c ?_ (by rintro rfl; rcases hr with hr | hr <;> cases hr)
  cases o2
  · have ht := ((hH 0).mul (hY 1)).sub ((hH 1).mul (hX 1))
    have := quot_path ht (hX.det2 hY) hd
    simp only [admAt, if_true]
    refine this.congr_deriv ?_
    unfold admDerivAt
    simp only [pInd, admFact, one_mul]
    congr 1
    ring
  · have ht := ((hH 0).neg.mul (hY 0)).add ((hH 1).mul (hX 0))
    have := quot_path ht (hX.det2 hY) hd
    simp only [admAt, reduceCtorEq, if_false]
    refine this.congr_deriv ?_
    unfold admDerivAt
    simp only [pInd, admFact]
    congr 1
    · simp only [Pi.mul_apply, Pi.add_apply, Pi.neg_apply]
      ring
    · have : (-fun s => (cm (Q.h1 o1) * h s) i 0) t = -(cm (Q.h1 o1) * h t) i 0 := rfl
      simp only [this]
      ring

theorem sq_path {a : ℝ → ℂ} {da : ℂ} {t : ℝ} (h : HasDerivAt a da t) :
    HasDerivAt (fun s => ‖a s‖ ^ 2) (2 * (starRingEnd ℂ (a t) * da).re) t := by
  have h1 := ((re_path h).pow 2).add ((im_path h).pow 2)
  have h2 : (fun s => ‖a s‖ ^ 2) = fun s => (a s).re ^ 2 + (a s).im ^ 2 := by
    funext s
    rw [← Complex.normSq_eq_norm_sq, Complex.normSq_apply]; ring
  rw [h2]
  refine h1.congr_deriv ?_
  simp
  ring

/-- **C101 (apparent conductivity).** Likewise for apparent conductivities, where the electric field is
not zero. -/
theorem C101_conductivity (Q : Proj n ε φ) (fact : ℝ) {e : ℝ → Matrix ε (Fin 2) ℂ}
    {h : ℝ → Matrix φ (Fin 2) ℂ} {de : Matrix ε (Fin 2) ℂ} {dh : Matrix φ (Fin 2) ℂ} {t : ℝ}
    (he : FieldPath e de t) (hh : FieldPath h dh t) (i : n)
    (hd : ∃ k, (cm (Q.e0 .x) * e t) i k ≠ 0 ∨ (cm (Q.e0 .y) * e t) i k ≠ 0) :
    HasDerivAt (fun s => condEval Q fact (e s) (h s) i) (condDeriv Q fact (e t) (h t) de dh i) t := by
  have hX := he.row (Q.e0 .x) i
  have hY := he.row (Q.e0 .y) i
  have hA := hh.row (Q.h1 .x) i
  have hB := hh.row (Q.h1 .y) i
  have hC := hh.row (Q.h1 .z) i
  have hpos : ∑ k, (‖(cm (Q.e0 .x) * e t) i k‖ ^ 2 + ‖(cm (Q.e0 .y) * e t) i k‖ ^ 2) ≠ 0 := by
    obtain ⟨k, hk⟩ := hd
    refine (Finset.sum_pos' (fun j _ => by positivity) ⟨k, Finset.mem_univ k, ?_⟩).ne'
    rcases hk with hk | hk
    · have := norm_pos_iff.2 hk
      positivity
    · have := norm_pos_iff.2 hk
      positivity
  unfold condEval condAt
  have ht := HasDerivAt.fun_sum (u := Finset.univ) fun (k : Fin 2) _ =>
    ((sq_path (hA k)).add (sq_path (hB k))).add (sq_path (hC k))
  have hb := HasDerivAt.fun_sum (u := Finset.univ) fun (k : Fin 2) _ =>
    (sq_path (hX k)).add (sq_path (hY k))
  refine ((ht.const_mul fact).div hb hpos).congr_deriv ?_
  simp only [condDeriv, sqDeriv, Finset.sum_add_distrib, ← Finset.mul_sum, Pi.add_apply]
  rw [pow_two]
  ring

/-- **C101 (one and two dimensions).** Likewise for quotients of projected fields, the impedances of
the orientations `xy` and `yx` in one and two dimensions and the tippers and admittances in two. -/
theorem C101_ratio (alpha : ℝ) (c : NComp) (neg : Bool) (PT : Matrix n ε ℝ) (PB : Matrix n φ ℝ)
    {top : ℝ → ε → ℂ} {bot : ℝ → φ → ℂ} {dtop : ε → ℂ} {dbot : φ → ℂ} {t : ℝ}
    (ht : ∀ a, HasDerivAt (fun s => top s a) (dtop a) t)
    (hb : ∀ a, HasDerivAt (fun s => bot s a) (dbot a) t) (i : n) (h0 : (cm PB *ᵥ bot t) i ≠ 0)
    (hc : c = .phase → ratio neg PT PB (top t) (bot t) i ∈ Complex.slitPlane) :
    HasDerivAt (fun s => c.val alpha (ratio neg PT PB (top s) (bot s) i))
      (c.deriv alpha (ratio neg PT PB (top t) (bot t) i)
        (ratioDeriv neg PT PB (top t) dtop (bot t) dbot i)) t := by
  have hT : HasDerivAt (fun s => (cm PT *ᵥ top s) i) ((cm PT *ᵥ dtop) i) t := by
    have := HasDerivAt.fun_sum (u := Finset.univ) (A := fun j s => cm PT i j * top s j)
      (A' := fun j => cm PT i j * dtop j) (x := t) fun j _ => (ht j).const_mul _
    simpa only [Matrix.mulVec, dotProduct] using this
  have hB : HasDerivAt (fun s => (cm PB *ᵥ bot s) i) ((cm PB *ᵥ dbot) i) t := by
    have := HasDerivAt.fun_sum (u := Finset.univ) (A := fun j s => cm PB i j * bot s j)
      (A' := fun j => cm PB i j * dbot j) (x := t) fun j _ => (hb j).const_mul _
    simpa only [Matrix.mulVec, dotProduct] using this
  refine comp_path alpha c ?_ hc
  cases neg
  · refine (hT.div hB h0).congr_deriv ?_
    simp only [ratioDeriv, ratio, Bool.false_eq_true, if_false]
    field_simp
  · refine (hT.div hB.neg (neg_ne_zero.2 h0)).congr_deriv ?_
    simp only [ratioDeriv, ratio, if_true, Pi.neg_apply]
    field_simp
    ring

/-! ### Adjoints -/

/-- The weight of a component: the derivative times `v` is the real part of the weight times the
derivative of the number. -/
theorem wgt_spec (alpha : ℝ) (c : NComp) (z d : ℂ) (v : ℝ) :
    v * c.deriv alpha z d = (c.wgt alpha z v * d).re := by
  cases c with
  | real => simp [NComp.deriv, NComp.wgt]
  | imag => simp [NComp.deriv, NComp.wgt]
  | appRes =>
    simp [NComp.deriv, NComp.wgt]
    ring
  | phase =>
    have h1 : (180 / (Real.pi : ℂ) * z / ((z.re : ℂ) ^ 2 + (z.im : ℂ) ^ 2) * v : ℂ) =
        ((180 / Real.pi / (z.re ^ 2 + z.im ^ 2) * v : ℝ) : ℂ) * z := by
      push_cast; ring
    simp only [NComp.deriv, NComp.wgt, h1]
    rw [add_comm (z.im ^ 2)]
    generalize hk : 180 / Real.pi / (z.re ^ 2 + z.im ^ 2) * v = k
    have e1 : (((k : ℝ) : ℂ) * z).im = k * z.im := Complex.im_ofReal_mul _ _
    have e2 : (((k : ℝ) : ℂ) * z).re = k * z.re := Complex.re_ofReal_mul _ _
    rw [e1, e2, ← hk]
    have e3 : ∀ a b : ℝ, ((-(a : ℂ) - Complex.I * b) * d).re = -a * d.re + b * d.im := by
      intro a b; simp
    rw [e3]
    ring

/-- The bilinear pairing of two fields. -/
def pair {α β : Type} [Fintype α] [Fintype β] (g d : Matrix α β ℂ) : ℂ := ∑ a, ∑ k, g a k * d a k

theorem pair_add {α β : Type} [Fintype α] [Fintype β] (g g' d : Matrix α β ℂ) :
    pair (g + g') d = pair g d + pair g' d := by
  simp only [pair, Matrix.add_apply, add_mul, Finset.sum_add_distrib]

omit [Fintype φ] in
theorem pair_proj [Fintype n] (P : Matrix n ε ℂ) (G : Matrix n (Fin 2) ℂ) (d : Matrix ε (Fin 2) ℂ) :
    pair (Pᵀ * G) d = pair G (P * d) := by
  simp only [pair, Matrix.mul_apply, Matrix.transpose_apply, Finset.sum_mul, Finset.mul_sum]
  calc ∑ a, ∑ k, ∑ i, P i a * G i k * d a k = ∑ a, ∑ i, ∑ k, P i a * G i k * d a k :=
        Finset.sum_congr rfl fun a _ => Finset.sum_comm
    _ = ∑ i, ∑ a, ∑ k, P i a * G i k * d a k := Finset.sum_comm
    _ = ∑ i, ∑ k, ∑ a, P i a * G i k * d a k :=
        Finset.sum_congr rfl fun i _ => Finset.sum_comm
    _ = _ := Finset.sum_congr rfl fun i _ => Finset.sum_congr rfl fun k _ =>
        Finset.sum_congr rfl fun a _ => by ring

theorem quot_adj (w top bot dtop dbot : ℂ) :
    w * quotDeriv top bot dtop dbot = w / bot * dtop + -(top / bot) * w / bot * dbot := by
  unfold quotDeriv
  by_cases hb : bot = 0
  · simp [hb]
  · field_simp
    ring

theorem imp_adjAt (o : Ax) (e hx hy de dhx dhy : Two) (w : ℂ) :
    w * impDerivAt o e hx hy de dhx dhy =
      ∑ k, (impAdjAt o e hx hy w).1 k * de k + ∑ k, (impAdjAt o e hx hy w).2.1 k * dhx k +
        ∑ k, (impAdjAt o e hx hy w).2.2 k * dhy k := by
  unfold impDerivAt
  rw [quot_adj]
  cases o <;>
  · simp [impAdjAt, impAt, perp, Fin.sum_univ_two]
    ring

theorem tip_adjAt (o : Ax) (ho hx hy dho dhx dhy : Two) (w : ℂ) :
    w * tipDerivAt o ho hx hy dho dhx dhy =
      ∑ k, (tipAdjAt o ho hx hy w).1 k * dho k + ∑ k, (tipAdjAt o ho hx hy w).2.1 k * dhx k +
        ∑ k, (tipAdjAt o ho hx hy w).2.2 k * dhy k := by
  unfold tipDerivAt
  rw [quot_adj]
  cases o <;>
  · simp [tipAdjAt, tipAt, perp, Fin.sum_univ_two]
    ring

theorem adm_adjAt (o : Ax) (h ex ey dh dex dey : Two) (w : ℂ) :
    w * admDerivAt o h ex ey dh dex dey =
      ∑ k, (admAdjAt o h ex ey w).1 k * dh k + ∑ k, (admAdjAt o h ex ey w).2.1 k * dex k +
        ∑ k, (admAdjAt o h ex ey w).2.2 k * dey k := by
  unfold admDerivAt
  rw [quot_adj]
  cases o <;>
  · simp [admAdjAt, pInd, admFact, perp, Fin.sum_univ_two]
    ring

/-- **C101 (adjoint, impedance).** For all fields, locations, orientations and components and all
vectors, the inner product of `v` with `evalDeriv` of the derivatives of the fields is the real part of
the pairing of these derivatives with what the adjoint hands to the fields. -/
theorem C101_impedance_adjoint [Fintype n] (Q : Proj n ε φ) (o1 o2 : Ax) (c : NComp) (alpha : ℝ)
    (e de : Matrix ε (Fin 2) ℂ) (h dh : Matrix φ (Fin 2) ℂ) (v : n → ℝ) :
    ∑ i, v i * impDeriv Q o1 o2 c alpha e h de dh i =
      (pair (impAdj Q o1 o2 c alpha e h v).1 de + pair (impAdj Q o1 o2 c alpha e h v).2 dh).re := by
  simp only [impAdj, pair_add, pair_proj]
  simp only [pair, ← Finset.sum_add_distrib, Complex.re_sum, of_apply]
  refine Finset.sum_congr rfl fun i _ => ?_
  unfold impDeriv
  rw [wgt_spec, imp_adjAt]
  simp only [Fin.sum_univ_two, Complex.add_re]
  ring

/-- **C101 (adjoint, tipper).** -/
theorem C101_tipper_adjoint [Fintype n] (Q : Proj n ε φ) (o1 : Ax3) (o2 : Ax) (c : NComp)
    (h dh : Matrix φ (Fin 2) ℂ) (v : n → ℝ) :
    ∑ i, v i * tipDeriv Q o1 o2 c h dh i = (pair (tipAdj Q o1 o2 c h v) dh).re := by
  simp only [tipAdj, pair_add, pair_proj]
  simp only [pair, ← Finset.sum_add_distrib, Complex.re_sum, of_apply]
  refine Finset.sum_congr rfl fun i _ => ?_
  unfold tipDeriv
  rw [wgt_spec, tip_adjAt]
  simp only [Fin.sum_univ_two, Complex.add_re]
  ring

/-- **C101 (adjoint, admittance).** -/
theorem C101_admittance_adjoint [Fintype n] (Q : Proj n ε φ) (o1 : Ax3) (o2 : Ax) (c : NComp)
    (e de : Matrix ε (Fin 2) ℂ) (h dh : Matrix φ (Fin 2) ℂ) (v : n → ℝ) :
    ∑ i, v i * admDeriv Q o1 o2 c e h de dh i =
      (pair (admAdj Q o1 o2 c e h v).1 de + pair (admAdj Q o1 o2 c e h v).2 dh).re := by
  simp only [admAdj, pair_add, pair_proj]
  simp only [pair, ← Finset.sum_add_distrib, Complex.re_sum, of_apply]
  refine Finset.sum_congr rfl fun i _ => ?_
  unfold admDeriv
  rw [wgt_spec, adm_adjAt]
  simp only [Fin.sum_univ_two, Complex.add_re]
  ring

omit [Fintype φ] in
theorem pair_sq [Fintype n] (P : Matrix n ε ℝ) (a : n → ℝ) (f d : Matrix ε (Fin 2) ℂ) :
    (pair ((2 : ℂ) • ((cm P)ᵀ * scaleRows a (cm P * f)).map (starRingEnd ℂ)) d).re =
      ∑ i, a i * sqDeriv ((cm P * f) i) ((cm P * d) i) := by
  have h1 : (2 : ℂ) • ((cm P)ᵀ * scaleRows a (cm P * f)).map (starRingEnd ℂ) =
      (cm P)ᵀ * of fun i k => 2 * (starRingEnd ℂ ((cm P * f) i k) * a i) := by
    ext b k
    simp [Matrix.mul_apply, scaleRows, cm, Finset.mul_sum]
    refine Finset.sum_congr rfl fun i _ => ?_
    ring
  rw [h1, pair_proj]
  simp only [pair, Complex.re_sum, of_apply, sqDeriv, Finset.mul_sum]
  refine Finset.sum_congr rfl fun i _ => Finset.sum_congr rfl fun k _ => ?_
  simp
  ring

/-- **C101 (adjoint, apparent conductivity).** -/
theorem C101_conductivity_adjoint [Fintype n] (Q : Proj n ε φ) (fact : ℝ)
    (e de : Matrix ε (Fin 2) ℂ) (h dh : Matrix φ (Fin 2) ℂ) (v : n → ℝ) :
    ∑ i, v i * condDeriv Q fact e h de dh i =
      (pair (condAdj Q fact e h v).1 de + pair (condAdj Q fact e h v).2 dh).re := by
  have hmap : ∀ {α : Type} (A B : Matrix α (Fin 2) ℂ),
      (A + B).map (starRingEnd ℂ) = A.map (starRingEnd ℂ) + B.map (starRingEnd ℂ) := by
    intro α A B; ext a b; simp
  simp only [condAdj, hmap, smul_add, pair_add, Complex.add_re, pair_sq]
  simp only [← Finset.sum_add_distrib]
  refine Finset.sum_congr rfl fun i _ => ?_
  simp only [condDeriv]
  generalize ∑ k, (‖(cm (Q.h1 .x) * h) i k‖ ^ 2 + ‖(cm (Q.h1 .y) * h) i k‖ ^ 2 +
    ‖(cm (Q.h1 .z) * h) i k‖ ^ 2) = top
  generalize ∑ k, (‖(cm (Q.e0 .x) * e) i k‖ ^ 2 + ‖(cm (Q.e0 .y) * e) i k‖ ^ 2) = bot
  by_cases hb : bot = 0
  · simp [hb]
  · field_simp
    ring

/-- **C101 (adjoint, one and two dimensions).** -/
theorem C101_ratio_adjoint [Fintype n] (alpha : ℝ) (c : NComp) (neg : Bool) (PT : Matrix n ε ℝ)
    (PB : Matrix n φ ℝ) (top dtop : ε → ℂ) (bot dbot : φ → ℂ) (v : n → ℝ) :
    let g := ratioAdj neg PT PB top bot fun i => c.wgt alpha (ratio neg PT PB top bot i) (v i)
    ∑ i, v i * c.deriv alpha (ratio neg PT PB top bot i)
        (ratioDeriv neg PT PB top dtop bot dbot i) =
      (∑ a, g.1 a * dtop a + ∑ a, g.2 a * dbot a).re := by
  intro g
  have hp : ∀ {δ : Type} [Fintype δ] (P : Matrix n δ ℂ) (x : n → ℂ) (d : δ → ℂ),
      ∑ a, (Pᵀ *ᵥ x) a * d a = ∑ i, x i * (P *ᵥ d) i := by
    intro δ _ P x d
    simp only [Matrix.mulVec, dotProduct, Matrix.transpose_apply, Finset.sum_mul, Finset.mul_sum]
    rw [Finset.sum_comm]
    exact Finset.sum_congr rfl fun i _ => Finset.sum_congr rfl fun a _ => by ring
  simp only [g, ratioAdj, hp, ← Finset.sum_add_distrib, Complex.re_sum]
  refine Finset.sum_congr rfl fun i _ => ?_
  rw [wgt_spec]
  congr 1
  cases neg <;> simp [ratioDeriv] <;> ring

/-! ### `getJ` -/

/-- **C101 (`getJ`, impedance), partial.** Called with the identity, as `getJ` does, the adjoint of an
impedance receiver has as its column for the datum `j` and the polarisation `k` what the adjoint gives
for the unit vector of `j`. Missing: admittances and apparent conductivities, for which it is false, see
`C101_violated_getJ`. -/
theorem C101_getJ_partial [Fintype n] [DecidableEq n] (Q : Proj n ε φ) (o1 o2 : Ax) (c : NComp)
    (alpha : ℝ) (e : Matrix ε (Fin 2) ℂ) (h : Matrix φ (Fin 2) ℂ) (j : n) (k : Fin 2) :
    let E := cm (Q.e0 o1) * e
    let X := cm (Q.h1 .x) * h
    let Y := cm (Q.h1 .y) * h
    let G := impAdjMat o2 c alpha E X Y 1
    (∀ a, ((cm (Q.e0 o1))ᵀ * G.1) a (j, k) = (impAdj Q o1 o2 c alpha e h (Pi.single j 1)).1 a k) ∧
    ∀ b, ((cm (Q.h1 .x))ᵀ * G.2.1 + (cm (Q.h1 .y))ᵀ * G.2.2) b (j, k) =
      (impAdj Q o1 o2 c alpha e h (Pi.single j 1)).2 b k := by
  intro E X Y G
  have h0 : ∀ i, c.wgt alpha (impAt o2 (E i) (X i) (Y i)) 0 = 0 := by
    intro i; cases c <;> simp [NComp.wgt]
  have hz : ∀ i, impAdjAt o2 (E i) (X i) (Y i) 0 = (0, 0, 0) := by
    intro i; simp [impAdjAt]
  have key : ∀ i, impAdjAt o2 (E j) (X j) (Y j)
        (c.wgt alpha (impAt o2 (E j) (X j) (Y j)) ((1 : Matrix n n ℝ) i j)) =
      impAdjAt o2 (E i) (X i) (Y i)
        (c.wgt alpha (impAt o2 (E i) (X i) (Y i)) ((Pi.single j 1 : n → ℝ) i)) := by
    intro i
    by_cases hij : i = j
    · subst hij; simp
    · have h1 : (1 : Matrix n n ℝ) i j = 0 := Matrix.one_apply_ne hij
      have h2 : (Pi.single j 1 : n → ℝ) i = 0 := Pi.single_eq_of_ne hij 1
      rw [h1, h2, h0, h0, hz, hz]
  constructor
  · intro a
    simp only [impAdj, Matrix.mul_apply, G, impAdjMat, of_apply]
    exact Finset.sum_congr rfl fun i _ => by rw [key i]
  · intro b
    simp only [impAdj, Matrix.mul_apply, Matrix.add_apply, G, impAdjMat, of_apply]
    congr 1
    · exact Finset.sum_congr rfl fun i _ => by rw [key i]
    · exact Finset.sum_congr rfl fun i _ => by rw [key i]

/-- **C101 violated: `getJ`.** For any three or more locations the adjoint of an admittance receiver
raises when called with the identity, and so does that of an apparent conductivity receiver for any two
or more; neither raises for a vector. -/
theorem C101_violated_getJ (nD : Nat) :
    (3 ≤ nD → admAdjShape nD [nD, nD] = .error .valueError) ∧
    (2 ≤ nD → condAdjShape nD [nD, nD] = .error .valueError) ∧
    admAdjShape nD [nD] = .ok [nD, 2] ∧ condAdjShape nD [nD] = .ok () := by
  refine ⟨fun h => ?_, fun h => ?_, ?_, ?_⟩
  · have h1 : nD ≠ 2 := by omega
    have h2 : nD ≠ 1 := by omega
    have h3 : 2 ≠ nD := by omega
    simp [admAdjShape, bcast, bcastRev, Except.map, h1, h2, h3]
  · have h1 : nD * nD ≠ nD := by nlinarith
    have h2 : nD * nD ≠ 1 := by nlinarith
    have h3 : nD ≠ 1 := by omega
    have h4 : nD ≠ nD * nD := fun h => h1 h.symm
    simp [condAdjShape, bcast, bcastRev, Except.map, h2, h3, h4]
  · simp [admAdjShape, bcast, bcastRev, Except.map]
  · simp [condAdjShape, bcast, bcastRev, Except.map]

/-- **C101 violated: diagonal orientations.** On a mesh of one or two dimensions, where the impedances
`xx` and `yy` are zero, products with the sensitivity raise, whenever the number of the unknowns is
neither one nor the number of data; products with its transpose raise unless there are two data. -/
theorem C101_violated_diagonal (nD nU : Nat) :
    (nU ≠ nD → nU ≠ 1 → assignSlice nD (zeroDeriv false nD nU) = .error .valueError) ∧
    (nD ≠ 2 → unpackTwo (zeroDeriv true nD nU) = .error .valueError) := by
  constructor
  · intro h1 h2
    simp [assignSlice, zeroDeriv, h1, h2]
  · intro h1
    simp [unpackTwo, zeroDeriv, h1]

/-! ### A case -/

/-- Fields that depend on a parameter. -/
example : FieldPath (fun s => ((s : ℂ) • !![1, 2; 3, 4] : Matrix (Fin 2) (Fin 2) ℂ)) !![1, 2; 3, 4] 1 := by
  intro a k
  have h : HasDerivAt (fun s : ℝ => (s : ℂ)) 1 1 := by
    simpa using (HasDerivAt.ofReal_comp (hasDerivAt_id (1 : ℝ)))
  simpa using h.mul_const (!![1, 2; 3, 4] a k : ℂ)

/-- An impedance at which the phase is differentiable. -/
example : impAt .y ![3, 4] ![1, 2] ![0, 1] = -2 ∧ (⟨-2, 1⟩ : ℂ) ∈ Complex.slitPlane := by
  constructor
  · simp [impAt, det2]; norm_num
  · simp [Complex.mem_slitPlane_iff]

end

end Verif.NSEM.Props
