import Verif.TDEM.Solvable
import Verif.FDEM.Sources

/-!
Cases which meet the hypotheses of the theorems about the time domain simulations (C72 to C76), and
cases in which the code does not have the properties.
-/

namespace Verif.TDEM.Props
open Matrix Verif.EM Verif.EM.Props Verif.TDEM Verif.FDEM.Props Verif.Flow.Richards.Props

noncomputable section

/-! ### Tools -/

theorem inv_unit (A : Matrix Unit Unit ℝ) : A⁻¹ = Matrix.of fun _ _ => (A () ())⁻¹ := by
  rw [Matrix.inv_subsingleton]
  ext i j
  simp

/-- The derivative of a function of one parameter. -/
theorem jac_unit {d : ℕ} {f : (Unit → ℝ) → (Fin d → ℝ)} {J : Matrix (Fin d) Unit ℝ} {m : Unit → ℝ}
    (h : IsJacobian f J m) (i : Fin d) : HasDerivAt (fun t => f (fun _ => t) i) (J i ()) (m ()) := by
  have h1 : HasFDerivAt (fun t : ℝ => (fun _ : Unit => t))
      (ContinuousLinearMap.pi fun _ => ContinuousLinearMap.id ℝ ℝ) (m ()) :=
    hasFDerivAt_pi.2 fun _ => hasFDerivAt_id _
  have h2 : HasFDerivAt f (mulVecL J) ((fun t : ℝ => (fun _ : Unit => t)) (m ())) := h
  have h4 := (hasFDerivAt_pi'.1 (h2.comp (m ()) h1) i).hasDerivAt
  simpa [Function.comp_def, Matrix.mulVec, dotProduct] using h4

/-- A mesh with one node, edge and face; the conductivity is the model. -/
def toyE (dts : List ℝ) (c g : ℝ) : EB Unit Unit Unit Unit Unit where
  dts := dts
  thr := 1 / 10 ^ 8
  C := Matrix.of fun _ _ => c
  G := Matrix.of fun _ _ => g
  node0 := ()
  sigma := toyId
  mui := 1
  meI := 1
  mfI := 1

/-- A mesh with one cell, face and edge; the resistivity is the model. -/
def toyH (dts : List ℝ) (c d : ℝ) : HJ Unit Unit Unit Unit Unit where
  dts := dts
  thr := 1 / 10 ^ 8
  C := Matrix.of fun _ _ => c
  D := Matrix.of fun _ _ => d
  rho := toyId
  mu := 1
  muI := 1
  meI := 1
  mfI := 1
  muiVol := fun _ => 1

/-- A source which is switched on after the first time. -/
def toyOn : SrcEB Unit Unit Unit where
  sm := 0
  se k _ := if k = 0 then 0 else 1
  dc := false
  galvanic := false
  rhsdc := 0
  b0 := 0

/-- A grounded source with a constant current. -/
def toyDC : SrcEB Unit Unit Unit where
  sm := 0
  se _ _ := 1
  dc := true
  galvanic := true
  rhsdc _ := 1
  b0 := 0

/-- A receiver which measures a field at one place and one time. -/
def pick {K : Type} {L : K → Type} (f : K) (P : L f → ℝ) (k : ℕ) : Rx K L :=
  ⟨1, 1, f, fun _ i => if i = k then 1 else 0, Matrix.of fun _ x => P x⟩

section pick
variable {K : Type} {L : K → Type} [∀ k, Fintype (L k)] {p n : Type} [Fintype p] [Fintype n]
  [DecidableEq n]

/-- Its only datum. -/
def i0 (f : K) (P : L f → ℝ) (k : ℕ) : Fin (pick f P k).nD := ⟨0, Nat.one_pos⟩

theorem pick_P (f : K) (P : L f → ℝ) (k i : ℕ) (a : Fin (pick f P k).nD) (b : L f) :
    (pick f P k).P i a b = (if i = k then 1 else 0) * P b := rfl

theorem pick_apply (f : K) (P : L f → ℝ) {k N : ℕ} (h : k ≤ N) (x : ℕ → L f → ℝ) :
    (pick f P k).apply N x = fun _ => P ⬝ᵥ x k := by
  funext i
  have e : ∀ j, ((pick f P k).P j *ᵥ x j) i = if j = k then P ⬝ᵥ x j else 0 := by
    intro j
    change ∑ b : L f, ((if j = k then (1 : ℝ) else 0) * P b) * x j b = _
    by_cases hj : j = k
    · simp [dotProduct, hj]
    · simp [hj]
  unfold Rx.apply
  rw [Finset.sum_apply]
  refine (Finset.sum_congr rfl fun j _ => e j).trans ?_
  simp [Nat.lt_succ_of_le h]

/-- With one source and one datum, `Jvec` is wrong if its entry is not the derivative of the datum. -/
theorem jvec_contra {S : Sim Unit n K L} {t : Src Unit n K L} {f : K} {P : L f → ℝ} {k : ℕ}
    {m : Unit → ℝ} (h1 : S.sources = [t]) (h2 : t.rx = [pick f P k]) (hk : k ≤ S.nT) {d : ℝ}
    (hd : HasDerivAt (fun y => P ⬝ᵥ (t.fld f).val k (fun _ => y) (S.sol (fun _ => y) t k)) d (m ()))
    (hx : P ⬝ᵥ S.df m (fun _ => 1) t (t.fld f) k ≠ d) : ¬ JvecCorrect S m := by
  rintro ⟨J, hJ, hv⟩
  have hj := jac_unit (hJ t (by simp [h1]) (pick f P k) (by simp [h2])) (i0 f P k)
  have e1 : (fun y => rxData S t (pick f P k) (fun _ => y) (i0 f P k)) =
      fun y => P ⬝ᵥ (t.fld f).val k (fun _ => y) (S.sol (fun _ => y) t k) := by
    funext y
    exact congrFun (pick_apply f P hk _) _
  rw [e1] at hj
  have h3 := hj.unique hd
  have h4 := hv fun _ => 1
  have e2 : (pick f P k).apply S.nT (fun k => S.df m (fun _ => 1) t (t.fld f) k) =
      fun _ => P ⬝ᵥ S.df m (fun _ => 1) t (t.fld f) k := pick_apply f P hk _
  rw [Sim.Jvec] at h4
  split at h4
  · cases h4
  · injection h4 with h5
    rw [flat, h1] at h5
    simp only [Sim.srcJvec, h2, List.flatMap_cons, List.flatMap_nil, List.append_nil] at h5
    have h6 := congrFun (List.ofFn_injective h5) (i0 f P k)
    apply hx
    rw [← h3]
    refine (congrFun e2 (i0 f P k)).symm.trans (h6.trans ?_)
    simp [Matrix.mulVec, dotProduct]

/-- What it contributes to the sums over the receivers. -/
def pickT (f : K) (P : L f → ℝ) (k i : ℕ) : L f → ℝ :=
  ((pick f P k).P i)ᵀ *ᵥ fun i : Fin (pick f P k).nD => [(1 : ℝ)].getD i 0

theorem pickT_eq (f : K) (P : L f → ℝ) (k i : ℕ) : pickT f P k i = if i = k then P else 0 := by
  funext x
  change ∑ a : Fin 1, ((if i = k then (1 : ℝ) else 0) * P x) * [(1 : ℝ)].getD a 0 = _
  by_cases hi : i = k
  · simp [hi]
  · simp [hi]

theorem pick_rxSums {S : Sim p n K L} {t : Src p n K L} {f : K} {P : L f → ℝ} {k : ℕ} {m : p → ℝ}
    (hk : k ≤ S.nT) (h0 : ∀ i, (t.fld f).duT i m 0 = 0)
    (h0' : ∀ i, (t.fld f).dmT i m (S.sol m t i) 0 = 0) :
    S.rxSums m t [pick f P k] [1] = (fun i => if i = k then (t.fld f).duT i m P else 0,
      (t.fld f).dmT k m (S.sol m t k) P) := by
  refine Prod.ext ?_ ?_
  · funext i
    change (t.fld f).duT i m (pickT f P k i) + 0 = if i = k then (t.fld f).duT i m P else 0
    rw [pickT_eq, add_zero]
    split
    · rfl
    · exact h0 i
  · change ∑ i ∈ Finset.range (S.nT + 1), (t.fld f).dmT i m (S.sol m t i) (pickT f P k i) + 0 =
      (t.fld f).dmT k m (S.sol m t k) P
    have e2 : ∀ i ∈ Finset.range (S.nT + 1), (t.fld f).dmT i m (S.sol m t i) (pickT f P k i) =
        if i = k then (t.fld f).dmT i m (S.sol m t i) P else 0 := by
      intro i _
      rw [pickT_eq]
      split
      · rfl
      · exact h0' i
    rw [Finset.sum_congr rfl e2]
    simp [Nat.lt_succ_of_le hk]

/-- The same for a transposed product. -/
theorem jtvec_contra {S : Sim Unit n K L} {t : Src Unit n K L} {f : K} {P : L f → ℝ} {k : ℕ}
    {m : Unit → ℝ} (h1 : S.sources = [t]) (h2 : t.rx = [pick f P k]) (hk : k ≤ S.nT) {d : ℝ}
    (hd : HasDerivAt (fun y => P ⬝ᵥ (t.fld f).val k (fun _ => y) (S.sol (fun _ => y) t k)) d (m ()))
    {g : List ℝ → Except Err (Unit → ℝ)} {x : Unit → ℝ} (hg : g [1] = .ok x) (hx : x () ≠ d) :
    ¬ TransposeCorrect S m g := by
  rintro ⟨J, hJ, hv⟩
  have hj := jac_unit (hJ t (by simp [h1]) (pick f P k) (by simp [h2])) (i0 f P k)
  have e1 : (fun y => rxData S t (pick f P k) (fun _ => y) (i0 f P k)) =
      fun y => P ⬝ᵥ (t.fld f).val k (fun _ => y) (S.sol (fun _ => y) t k) := by
    funext y
    exact congrFun (pick_apply f P hk _) _
  rw [e1] at hj
  have h3 := hj.unique hd
  obtain ⟨x', hx', h4⟩ := hv [1]
  rw [hg] at hx'
  injection hx' with hx'
  subst hx'
  have h5 := h4 fun _ => 1
  rw [flat, h1] at h5
  simp only [h2, List.flatMap_cons, List.flatMap_nil, List.append_nil] at h5
  have h6 : List.ofFn (J t (pick f P k) *ᵥ fun _ => 1) = [J t (pick f P k) (i0 f P k) ()] := by
    refine List.ext_getElem (by simp [pick]) fun a ha hb => ?_
    have ha0 : a = 0 := by simpa using hb
    subst ha0
    simp [Matrix.mulVec, dotProduct, i0]
  rw [h6] at h5
  apply hx
  rw [← h3]
  simpa [dotProduct, dotList] using h5

end pick

theorem toyId_mat (y : Unit → ℝ) : toyId.mat ℝ y = Matrix.of fun _ _ => y () := by
  ext i j
  simp [toyId, Mass.mat, PDE.Inner.mat]

theorem toyId_derT (y u w : Unit → ℝ) : toyId.derT y u w = fun _ => u () * w () := by
  funext i
  simp [toyId, Mass.derT, PDE.stash, PDE.Stash.mulT, PDE.Inner.deriv, Matrix.mulVec, dotProduct]

/-! ### C72 -/

/-- **C72 is violated** by time steps which change by less than `dt_threshold`, with its default value:
the second step is solved with the factors of the first.  No magnetic flux makes the computed field a
solution of Maxwell's equations. -/
theorem C72_violated_threshold :
    let o := toyE [1 / 10 ^ 9, 2 / 10 ^ 9] 0 0
    ¬ ∃ b, MaxwellEB o.C o.mui (o.sigma.mat ℝ fun _ => 1) o.dts toyOn.sm toyOn.se
      (fun k => (o.simE [(toyOn, [])]).sol (fun _ => 1) (o.srcE (toyOn, [])) k) b := by
  intro o
  rintro ⟨b, hM⟩
  have h2 := congrFun (hM.ampere 2 (by simp [o, toyE])) ()
  have e1 : (o.simE [(toyOn, [])]).sol (fun _ => 1) (o.srcE (toyOn, [])) 2 () = -1 / 2 := by
    simp [Sim.sol, EB.simE, EB.srcE, o, toyE, EB.eA, EB.eB, EB.eRhs, EB.eInit, Sim.fac, Sim.dt, EB.dt,
      toyOn, inv_unit, toyId_mat, Matrix.mulVec, dotProduct, Matrix.mul_apply, abs_of_pos]
    norm_num
  have e2 : o.Cᵀ = 0 := by ext i j; simp [o, toyE]
  have e3 : o.sigma.mat ℝ (fun _ => 1) = 1 := by
    ext i j
    simp [o, toyE, toyId_mat, Matrix.one_apply]
  have e4 : toyOn.se 2 () = 1 := by simp [toyOn]
  rw [e2, e3, e4] at h2
  simp only [Matrix.zero_mulVec, Matrix.one_mulVec, Pi.sub_apply, e1, Pi.zero_apply] at h2
  norm_num at h2

/-- **C75 and C76 are violated** by time steps which change by less than `dt_threshold`: the field of a
source which is on all the time, with nothing to induct, doubles at the second step, so that neither is
charge conserved nor is the energy bounded by what it was before. -/
theorem C76_violated_threshold :
    let o := toyE [2 / 10 ^ 9, 1 / 10 ^ 9] 0 1
    let e := fun k => (o.simE [(toyDC, [])]).sol (fun _ => 1) (o.srcE (toyDC, [])) k
    (∀ d ∈ o.dts, 0 < d) ∧ (∀ k, toyDC.sm k = 0 ∧ toyDC.se (k + 1) = toyDC.se k) ∧
      e 1 ⬝ᵥ (o.sigma.mat ℝ (fun _ => 1) *ᵥ e 1) < e 2 ⬝ᵥ (o.sigma.mat ℝ (fun _ => 1) *ᵥ e 2) ∧
      o.Gᵀ *ᵥ (o.sigma.mat ℝ (fun _ => 1) *ᵥ e 1 + toyDC.se 1) ≠
        o.Gᵀ *ᵥ (o.sigma.mat ℝ (fun _ => 1) *ᵥ e 2 + toyDC.se 2) := by
  intro o e
  have h1 : e 1 () = -1 / 2 := by
    simp [e, Sim.sol, EB.simE, EB.srcE, o, toyE, EB.eA, EB.eB, EB.eRhs, EB.eInit, Sim.fac, Sim.dt, EB.dt,
      toyDC, EB.adc, inv_unit, toyId_mat, Matrix.mulVec, dotProduct, Matrix.mul_apply, abs_of_pos]
    norm_num
  have h2 : e 2 () = -1 := by
    simp [e, Sim.sol, EB.simE, EB.srcE, o, toyE, EB.eA, EB.eB, EB.eRhs, EB.eInit, Sim.fac, Sim.dt, EB.dt,
      toyDC, EB.adc, inv_unit, toyId_mat, Matrix.mulVec, dotProduct, Matrix.mul_apply, abs_of_pos]
    norm_num
  refine ⟨by simp [o, toyE], fun k => ⟨rfl, rfl⟩, ?_, fun h => ?_⟩
  · simp [dotProduct, Matrix.mulVec, h1, h2, o, toyE, toyId_mat]
    norm_num
  · have h3 := congrFun h ()
    simp [dotProduct, Matrix.mulVec, h1, h2, o, toyE, toyId_mat, toyDC] at h3
    norm_num at h3

/-- A source which is switched on after the first time. -/
def toyOnH : SrcHJ Unit Unit Unit where
  sm := 0
  se k _ := if k = 0 then 0 else 1
  dc := false
  galvanic := false
  rhsdc := 0
  se0 := 0
  h0 := 0

/-- **C72 is violated, current density**: where the time step changes, the change of the source is
divided by the following time step. -/
theorem C72_violated_current_density :
    let o := toyH [1, 2] 0 0
    ¬ ∃ h, MaxwellHJ o.C o.mu (o.rho.mat ℝ fun _ => 1) o.dts toyOnH.sm toyOnH.se h
      (fun k => (o.simJ [(toyOnH, [])]).sol (fun _ => 1) (o.srcJ (toyOnH, [])) k) := by
  intro o
  rintro ⟨h, hM⟩
  have h1 := congrFun (hM.ampere 1 (by simp [o, toyH])) ()
  have e1 : (o.simJ [(toyOnH, [])]).sol (fun _ => 1) (o.srcJ (toyOnH, [])) 1 () = -1 / 2 := by
    simp [Sim.sol, HJ.simJ, HJ.srcJ, o, toyH, HJ.jA, HJ.jB, HJ.jRhs, HJ.jInit, Sim.fac, Sim.dt, HJ.dt,
      HJ.jInd, HJ.jPrev, toyOnH, inv_unit, toyId_mat, Matrix.mulVec, dotProduct, Matrix.mul_apply]
    try norm_num
  have e2 : o.C = 0 := by ext i j; simp [o, toyH]
  have e4 : toyOnH.se 1 () = 1 := by simp [toyOnH]
  rw [e2, e4] at h1
  simp only [Matrix.zero_mulVec, Pi.sub_apply, e1, Pi.zero_apply] at h1
  norm_num at h1

/-- **C72 is violated, current density**: a source which is switched on at the last time is not seen. -/
theorem C72_violated_current_density_last :
    let o := toyH [1, 1] 0 0
    let x : SrcHJ Unit Unit Unit := { toyOnH with se := fun k _ => if k = 2 then 1 else 0 }
    ¬ ∃ h, MaxwellHJ o.C o.mu (o.rho.mat ℝ fun _ => 1) o.dts x.sm x.se h
      (fun k => (o.simJ [(x, [])]).sol (fun _ => 1) (o.srcJ (x, [])) k) := by
  intro o x
  rintro ⟨h, hM⟩
  have h1 := congrFun (hM.ampere 2 (by simp [o, toyH])) ()
  have e1 : (o.simJ [(x, [])]).sol (fun _ => 1) (o.srcJ (x, [])) 2 () = 0 := by
    simp [Sim.sol, HJ.simJ, HJ.srcJ, o, toyH, HJ.jA, HJ.jB, HJ.jRhs, HJ.jInit, Sim.fac, Sim.dt, HJ.dt,
      HJ.jInd, HJ.jPrev, toyOnH, x, inv_unit, toyId_mat, Matrix.mulVec, dotProduct, Matrix.mul_apply]
  have e2 : o.C = 0 := by ext i j; simp [o, toyH]
  have e4 : x.se 2 () = 1 := by simp [x]
  rw [e2, e4] at h1
  simp only [Matrix.zero_mulVec, Pi.sub_apply, e1, Pi.zero_apply] at h1
  norm_num at h1

/-- **C74 is violated, current density**: where the time step changes, the magnetic field and the current
density formulation compute different currents. -/
theorem C74_violated_HJ :
    let o := toyH [1, 2] 0 0
    (o.hJ toyOnH).val 1 (fun _ => 1) ((o.simH []).sol (fun _ => 1) (o.srcH (toyOnH, [])) 1) () = -1 ∧
      o.jJ.val 1 (fun _ => 1) ((o.simJ []).sol (fun _ => 1) (o.srcJ (toyOnH, [])) 1) () = -1 / 2 := by
  intro o
  refine ⟨?_, ?_⟩
  · simp [HJ.hJ, o, toyH, toyOnH, Matrix.mulVec, dotProduct]
  · simp [HJ.jJ, Sim.sol, HJ.simJ, HJ.srcJ, o, toyH, HJ.jA, HJ.jB, HJ.jRhs, HJ.jInit, Sim.fac, Sim.dt,
      HJ.dt, HJ.jInd, HJ.jPrev, toyOnH, inv_unit, toyId_mat, Matrix.mulVec, dotProduct, Matrix.mul_apply]
    try norm_num

/-! ### C73 -/

/-- **C73 is violated** by a receiver which uses the last time: `Jvec` is zero, the derivative of the
datum is not. -/
theorem C73_Jvec_violated_last :
    let o := toyE [1] 0 0
    ¬ JvecCorrect (o.simE [(toyOn, [pick .e (fun _ => 1) 1])]) (fun _ => 1) := by
  intro o
  set S := o.simE [(toyOn, [pick .e (fun _ => 1) 1])] with hS
  set t := o.srcE (toyOn, [pick .e (fun _ => 1) 1]) with ht
  have hN : S.nT = 1 := rfl
  refine jvec_contra (t := t) (d := 1) rfl rfl hN.ge ?_ ?_
  · have e1 : ∀ y : ℝ, (fun _ : Unit => (1 : ℝ)) ⬝ᵥ
        (t.fld .e).val 1 (fun _ => y) (S.sol (fun _ => y) t 1) = -y⁻¹ := by
      intro y
      simp [t, EB.srcE, EB.eFld, EB.eE, S, Sim.sol, EB.simE, o, toyE, EB.eA, EB.eB, EB.eRhs,
        EB.eInit, Sim.fac, Sim.dt, EB.dt, toyOn, inv_unit, toyId_mat, Matrix.mulVec, dotProduct,
        Matrix.mul_apply]
    have h2 : HasDerivAt (fun y : ℝ => -y⁻¹) (1 : ℝ) ((fun _ : Unit => (1 : ℝ)) ()) := by
      have := (hasDerivAt_inv (x := (1 : ℝ)) one_ne_zero).fun_neg
      simpa using this
    exact h2.congr_of_eventuallyEq (Filter.Eventually.of_forall e1)
  · rw [Sim.df, if_neg (by rw [hN]; omega)]
    simp

/-- **C73 is violated, electric field**: for a grounded source `Jtvec` propagates the initial condition
with the second time step instead of the first. -/
theorem C73_Jtvec_violated_galvanic :
    let o := toyE [1, 2] 0 1
    let srcs := [(toyDC, [pick .e (fun _ => 1) 1])]
    ¬ TransposeCorrect (o.simE srcs) (fun _ => 1) (o.eJtvec srcs (fun _ => 1)) := by
  intro o srcs
  set S := o.simE srcs with hS
  set t := o.srcE (toyDC, [pick .e (fun _ => 1) 1]) with ht
  have hN : S.nT = 2 := rfl
  refine jtvec_contra (t := t) (d := 1 / 4) (x := fun _ => 1 / 8) (k := 1) (f := .e)
    (P := fun _ => 1) rfl rfl (by rw [hN]; omega) ?_ ?_ (by norm_num)
  · have e1 : ∀ᶠ y in nhds (1 : ℝ), (fun _ : Unit => (1 : ℝ)) ⬝ᵥ
        (t.fld .e).val 1 (fun _ => y) (S.sol (fun _ => y) t 1) = -(y + 1)⁻¹ := by
      filter_upwards [lt_mem_nhds (show (0 : ℝ) < 1 by norm_num)] with y hy
      simp [t, EB.srcE, EB.eFld, EB.eE, S, Sim.sol, EB.simE, o, toyE, EB.eA, EB.eB, EB.eRhs,
        EB.eInit, EB.adc, Sim.fac, Sim.dt, EB.dt, toyDC, inv_unit, toyId_mat, Matrix.mulVec, dotProduct,
        Matrix.mul_apply, hy.ne']
    have h2 : HasDerivAt (fun y : ℝ => -(y + 1)⁻¹) (1 / 4 : ℝ) ((fun _ : Unit => (1 : ℝ)) ()) := by
      have h0 : HasDerivAt (fun y : ℝ => y + 1) 1 1 := (hasDerivAt_id (1 : ℝ)).add_const 1
      have := (h0.fun_inv (by norm_num)).fun_neg
      have e : (-(-1 / (1 + 1) ^ 2) : ℝ) = 1 / 4 := by norm_num
      rw [e] at this
      exact this
    exact h2.congr_of_eventuallyEq e1
  · have h0 : o.dts.length = 2 := rfl
    simp only [EB.eJtvec, h0]
    rw [if_neg (by omega), if_neg (by omega)]
    congr 1
    funext u
    simp only [srcs, List.map_cons, List.map_nil, splitData, List.zipWith_cons_cons,
      List.zipWith_nil_left, List.sum_cons, List.sum_nil, add_zero]
    set m : Unit → ℝ := fun _ => 1 with hm
    have hd0 : S.dt 0 = 1 := by simp [S, Sim.dt, EB.simE, o, toyE]
    have hd1 : S.dt 1 = 2 := by simp [S, Sim.dt, EB.simE, o, toyE]
    have hs0 : S.sol m t 0 = fun _ => -1 / 2 := by
      funext i
      simp [t, EB.srcE, Sim.sol, o, toyE, EB.eInit, EB.adc, toyDC, inv_unit, toyId_mat, Matrix.mulVec,
        dotProduct, Matrix.mul_apply, hm]
      norm_num
    have hs1 : S.sol m t 1 = fun _ => -1 / 2 := by
      funext i
      simp [t, S, EB.simE, EB.srcE, Sim.sol, o, toyE, EB.eA, EB.eB, EB.eRhs, EB.eInit, EB.adc, Sim.fac,
        Sim.dt, EB.dt, toyDC, inv_unit, toyId_mat, Matrix.mulVec, dotProduct, Matrix.mul_apply, hm]
      norm_num
    have hq := pick_rxSums (S := S) (t := t) (f := .e) (P := fun _ => 1) (m := m) (k := 1)
      (by rw [hN]; omega) (fun _ => rfl) (fun _ => rfl)
    have hw : [(1 : ℝ)].take t.nD = [1] := rfl
    have hA : ∀ d u w, S.AdiagDT d m u w = fun _ => (1 / d) * (u () * w ()) := fun d u w => by
      change (1 / d) • toyId.derT m u w = _
      rw [toyId_derT]
      rfl
    have hB : ∀ d u w, S.AsubDT d m u w = fun _ => (-1 / d) * (u () * w ()) := fun d u w => by
      change (-1 / d) • toyId.derT m u w = _
      rw [toyId_derT]
      rfl
    have hR : ∀ k w, t.rhsDT k m w = 0 := fun _ _ => rfl
    have hb1 : S.back m t (fun i => if i = 1 then fun _ => 1 else 0) 1 = (0, 0) := by
      simp only [Sim.back, hN, if_true, hA, hB, hR]
      simp
      funext i
      simp
    have hf1 : S.bfac 1 = 1 := by
      rw [bfac_eq S 1 (by rw [hN]; omega), hN]
      exact hd0
    have hAd : ((S.Adiag 1 m)ᵀ)⁻¹ = 1 := by
      have : S.Adiag 1 m = 1 := by
        ext i j
        simp [S, EB.simE, o, toyE, EB.eA, toyId_mat, Matrix.mul_apply, Matrix.one_apply, m]
      rw [this]
      simp
    have hb2 : S.back m t (fun i => if i = 1 then fun _ => 1 else 0) 2 = (fun _ => 1, 0) := by
      rw [Sim.back, hb1]
      simp only [hN, hf1, hAd, hA, hB, hR]
      simp [hs0, hs1, hd0]
      funext i
      simp
    have hrx : S.rxSums m t t.rx [1] =
        ((fun i => if i = 1 then fun _ => 1 else 0 : ℕ → Unit → ℝ), 0) := hq
    have h3 : S.srcJtvec m t [1] = 0 := by
      simp only [Sim.srcJtvec, hrx, hN, hb2, add_zero]
    have h4 : o.eTail srcs m (toyDC, [pick .e (fun _ => 1) 1]) (fun i => if i = 1 then fun _ => 1 else 0)
        = fun _ => 1 / 8 := by
      have h5 : (o.simE srcs).back m (o.srcE (toyDC, [pick .e (fun _ => 1) 1]))
          (fun i => if i = 1 then fun _ => 1 else 0) (o.simE srcs).nT = (fun _ => 1, 0) := hb2
      have h6 : (o.simE srcs).sol m (o.srcE (toyDC, [pick .e (fun _ => 1) 1])) 0 = fun _ => -1 / 2 := hs0
      have h7 : (o.simE srcs).dt 1 = 2 := hd1
      have h8 : o.sigma = toyId := rfl
      simp only [EB.eTail, h5, h6, h7, h8, toyId_derT]
      funext i
      simp [o, toyE, EB.adc, EB.eB, inv_unit, toyId_mat, Matrix.mulVec, dotProduct, Matrix.mul_apply, m]
      norm_num
    have h5 : o.eSrcJtvec srcs m (toyDC, [pick .e (fun _ => 1) 1]) [1] = fun _ => 1 / 8 := by
      have h6 : ((o.simE srcs).rxSums m (o.srcE (toyDC, [pick .e (fun _ => 1) 1]))
        [pick .e (fun _ => 1) 1] [1]).1 =
          (fun i => if i = 1 then fun _ => 1 else 0 : ℕ → Unit → ℝ) := by
        exact congrArg Prod.fst hrx
      rw [EB.eSrcJtvec]
      simp only [h6, h4]
      have h7 : (o.simE srcs).srcJtvec m (o.srcE (toyDC, [pick .e (fun _ => 1) 1])) [1] = 0 := h3
      rw [h7]
      simp [toyDC]
    exact congrFun h5 u

/-- **C73 is violated, electric field**: with a grounded source and a single time step `Jtvec` fails. -/
theorem C73_Jtvec_violated_single (o : EB Unit Unit Unit Unit Unit) (h : o.dts.length = 1)
    (r : List (Rx FldE (LocE Unit Unit))) (m : Unit → ℝ) (w : List ℝ) :
    o.eJtvec [(toyDC, r)] m w = .error .exception := by
  simp [EB.eJtvec, h, toyDC]

/-- The resistivities of two faces: the model, and 1. -/
def toyRho : Mass Unit (Fin 2) (Fin 2) :=
  ⟨⟨fun i j t => if i = j ∧ j = t then 1 else 0⟩, false, fun m => ![m (), 1],
    fun _ => Matrix.of fun i _ => ![1, 0] i⟩

theorem toyRho_inv (y : ℝ) (hy : y ≠ 0) :
    toyRho.inv ℝ (fun _ => y) = Matrix.diagonal ![y⁻¹, 1] := by
  rw [Mass.inv]
  apply Matrix.inv_eq_right_inv
  ext i j
  fin_cases i <;> fin_cases j <;>
    simp [toyRho, Mass.mat, PDE.Inner.mat, Matrix.mul_apply, Fin.sum_univ_two, hy]

/-- A cell with two faces. -/
def toyJ : HJ Unit (Fin 2) Unit Unit (Fin 2) where
  dts := [1]
  thr := 1 / 10 ^ 8
  C := 0
  D := Matrix.of fun _ _ => 1
  rho := toyRho
  mu := 1
  muI := 1
  meI := 1
  mfI := 1
  muiVol := fun _ => 1

/-- A grounded source with a constant current. -/
def toyDCJ : SrcHJ Unit Unit (Fin 2) where
  sm := 0
  se _ := ![1, 0]
  dc := true
  galvanic := true
  rhsdc _ := 1
  se0 := ![1, 0]
  h0 := 0

/-- **C73 is violated, current density**: `Jtvec` does not treat the initial condition of a grounded
source, `Jvec` does. -/
theorem C73_Jtvec_violated_initial :
    let srcs := [(toyDCJ, [pick .j ![1, 0] 0])]
    ¬ TransposeCorrect (toyJ.simJ srcs) (fun _ => 1) ((toyJ.simJ srcs).Jtvec (fun _ => 1)) := by
  intro srcs
  set S := toyJ.simJ srcs with hS
  set t := toyJ.srcJ (toyDCJ, [pick .j ![1, 0] 0]) with ht
  have hN : S.nT = 1 := rfl
  set m : Unit → ℝ := fun _ => 1 with hm
  refine jtvec_contra (t := t) (d := 1 / 4) (x := 0) (k := 0) (f := .j)
    (P := ![1, 0]) rfl rfl (Nat.zero_le _) ?_ ?_ (by norm_num)
  · have e1 : ∀ᶠ y in nhds (1 : ℝ), ![(1 : ℝ), 0] ⬝ᵥ
        (t.fld .j).val 0 (fun _ => y) (S.sol (fun _ => y) t 0) = -(y + 1)⁻¹ := by
      filter_upwards [lt_mem_nhds (show (0 : ℝ) < 1 by norm_num)] with y hy
      have hr : toyJ.rho = toyRho := rfl
      have h1 : (t.fld .j).val 0 (fun _ => y) (S.sol (fun _ => y) t 0) =
          -(toyRho.inv ℝ (fun _ => y) *ᵥ (toyJ.Dᵀ *ᵥ toyJ.phi0 toyDCJ (fun _ => y))) := rfl
      rw [h1, HJ.phi0, HJ.adc, hr, toyRho_inv y hy.ne']
      simp [toyJ, toyDCJ, inv_unit, Matrix.mulVec, dotProduct, Matrix.mul_apply, Fin.sum_univ_two,
        Matrix.diagonal_apply]
      field_simp
      try ring
    have h2 : HasDerivAt (fun y : ℝ => -(y + 1)⁻¹) (1 / 4 : ℝ) (m ()) := by
      have h0 : HasDerivAt (fun y : ℝ => y + 1) 1 1 := (hasDerivAt_id (1 : ℝ)).add_const 1
      have := (h0.fun_inv (by norm_num)).fun_neg
      have e : (-(-1 / (1 + 1) ^ 2) : ℝ) = 1 / 4 := by norm_num
      rw [e] at this
      exact this
    exact h2.congr_of_eventuallyEq e1
  · have hq : S.rxSums m t [pick .j ![1, 0] 0] [1] =
        ((fun i => if i = 0 then ![1, 0] else 0 : ℕ → Fin 2 → ℝ), (0 : Unit → ℝ)) :=
      pick_rxSums (S := S) (t := t) (f := .j) (P := ![1, 0]) (m := m) (k := 0)
        (Nat.zero_le _) (fun _ => rfl) (fun _ => rfl)
    have hA : ∀ d u, S.AdiagDT d m u 0 = 0 := fun d u => by
      change toyRho.derT m u (toyJ.C *ᵥ (toyJ.muIᵀ *ᵥ (toyJ.Cᵀ *ᵥ (toyJ.rho.mat ℝ m *ᵥ 0)))) = 0
      simp only [Matrix.mulVec_zero, derT_eq]
    have hB : ∀ d u w, S.AsubDT d m u w = 0 := fun _ _ _ => rfl
    have hR : ∀ k w, t.rhsDT k m w = 0 := fun _ _ => rfl
    have hb1 : S.back m t (fun i => if i = 0 then ![1, 0] else 0) 1 = (0, 0) := by
      simp only [Sim.back, hN, if_true, hA, hB, hR]
      simp [hA]
    have hrx : S.rxSums m t t.rx [1] =
        ((fun i => if i = 0 then ![1, 0] else 0 : ℕ → Fin 2 → ℝ), 0) := hq
    have h3 : S.srcJtvec m t [1] = 0 := by
      simp only [Sim.srcJtvec, hrx, hN, hb1, add_zero]
    have h4 : S.Jtvec m [1] = .ok (S.srcJtvec m t [1] + 0) := rfl
    rw [h4, h3, add_zero]

/-! ### Cases which meet the hypotheses -/

theorem toy_pos {y : Unit → ℝ} (h : 0 < y ()) : Pos (toyId.mat ℝ y) ∧ Pos (toyId.inv ℝ y) :=
  mass_pos (toyId_good y h.ne') fun _ => by rw [toyId_mat]; exact h

theorem one_pos' : Pos (1 : Matrix Unit Unit ℝ) := by
  intro v hv
  rw [Matrix.one_mulVec]
  have h : v () ≠ 0 := fun h => hv (funext fun _ => h)
  simpa [dotProduct] using mul_self_pos.2 h

/-- Steps which are all equal, or differ by much, with the electric field: a grounded source and an
inductive one, with receivers of different fields.  The hypotheses of C72, C73, C75 and C76 are met. -/
example :
    let o := toyE [1, 1, 2] 0 1
    let srcs : List (SrcEB Unit Unit Unit × List (Rx FldE (LocE Unit Unit))) :=
      [(toyDC, [pick .e (fun _ => 1) 1, pick .dbdt (fun _ => 1) 2]), (toyOn, [pick .j (fun _ => 1) 0])]
    let m : Unit → ℝ := fun _ => 3
    JvecCorrect (o.simE srcs) m ∧ TransposeCorrect (o.simE srcs) m (o.eJtvec srcs m) ∧
      (∃ b, MaxwellEB o.C o.mui (o.sigma.mat ℝ m) o.dts toyOn.sm toyOn.se
        (fun k => (o.simE srcs).sol m (o.srcE (toyOn, [])) k) b) ∧
      o.Gᵀ *ᵥ (o.sigma.mat ℝ m *ᵥ (o.simE srcs).sol m (o.srcE (toyOn, [])) 2 + toyOn.se 2) =
        o.Gᵀ *ᵥ (o.sigma.mat ℝ m *ᵥ o.eInit toyOn m + toyOn.se 0) ∧
      (o.simE srcs).sol m (o.srcE (toyDC, [])) 3 ⬝ᵥ
          (o.sigma.mat ℝ m *ᵥ (o.simE srcs).sol m (o.srcE (toyDC, [])) 3) ≤
        (o.simE srcs).sol m (o.srcE (toyDC, [])) 0 ⬝ᵥ
          (o.sigma.mat ℝ m *ᵥ (o.simE srcs).sol m (o.srcE (toyDC, [])) 0) := by
  intro o srcs m
  have hpos := toy_pos (y := m) (by norm_num [m])
  have hg : GoodInv o.sigma m := toyId_good m (by norm_num [m])
  have hd : ∀ d ∈ o.dts, 0 < d := by simp [o, toyE]
  have hdet : ∀ d ∈ o.dts, (o.eA d m).det ≠ 0 := fun d h =>
    C72_solvable_electric_field o m hpos.1 one_pos'.nonNeg (hd d h)
  have hdet' : ∀ k < o.dts.length, (o.eA (o.dt k) m).det ≠ 0 := fun k h => by
    rw [show o.dt k = o.dts[k] from getD_eq h]
    exact hdet _ (List.getElem_mem h)
  have hdc : (o.adc m).det ≠ 0 := C72_solvable_dc_electric_field o m hpos.1
    fun u _ h => funext fun _ => h
  have hf : Fresh (o.simE srcs) := by
    refine fun k hk => ?_
    have hk' : k + 1 < 3 := hk
    obtain rfl | rfl : k = 0 ∨ k = 1 := by omega
    · left; simp [Sim.dt, EB.simE, o, toyE]
    · right; simp [Sim.dt, EB.simE, o, toyE]; norm_num
  refine ⟨C73_Jvec_electric_field_partial o srcs m (by simp [o, toyE]) hf hg.toGood hdet' hdc ?_,
    C73_Jtvec_electric_field_partial o srcs m (by simp [o, toyE]) hf hg.toGood hdet' hdc ?_ ?_, ?_, ?_,
    ?_⟩
  · intro x hx r hr i
    simp only [srcs, List.mem_cons, List.not_mem_nil, or_false] at hx
    rcases hx with rfl | rfl <;> simp only [List.mem_cons, List.not_mem_nil, or_false] at hr
    · rcases hr with rfl | rfl <;> simp [pick, o, toyE]
    · subst hr; simp [pick, o, toyE]
  · intro x hx
    simp only [srcs, List.mem_cons, List.not_mem_nil, or_false] at hx
    rcases hx with rfl | rfl <;> simp [toyDC, toyOn]
  · intro x _ _
    simp [o, toyE, EB.dt]
  · obtain ⟨b, _, hb, _⟩ := C72_electric_field_partial o srcs (toyOn, []) m hf (fun d h => (hd d h).ne') hdet 0
      (by funext i; simp [EB.eInit, toyOn])
    exact ⟨b, hb⟩
  · exact C75_charge_electric_field_partial o srcs (toyOn, []) m hf (fun d h => (hd d h).ne') hdet
      (by ext i j; simp [o, toyE, Matrix.mul_apply]) 2 (by simp [o, toyE])
  · exact C76_electric_field_partial o srcs (toyDC, []) m hf hg.toGood hd hdet one_pos'.nonNeg hpos.1.nonNeg
      (Nat.zero_le 3) (by simp [o, toyE]) (fun i _ _ => ⟨rfl, rfl⟩)

/-- The magnetic flux density, and the electric field beside it (C72, C73, C74, C76). -/
example :
    let o := toyE [1, 2] 5 0
    let srcs : List (SrcEB Unit Unit Unit × List (Rx FldB (LocB Unit Unit))) :=
      [(toyOn, [pick .b (fun _ => 1) 1, pick .j (fun _ => 1) 0])]
    let m : Unit → ℝ := fun _ => 3
    JvecCorrect (o.simB srcs) m ∧ TransposeCorrect (o.simB srcs) m ((o.simB srcs).Jtvec m) ∧
      MaxwellEB o.C o.mui (o.sigma.mat ℝ m) o.dts toyOn.sm toyOn.se
        (fun k => (o.bE toyOn).val k m ((o.simB srcs).sol m (o.srcB (toyOn, [])) k))
        (fun k => (o.simB srcs).sol m (o.srcB (toyOn, [])) k) ∧
      o.eE.val 2 m ((o.simE []).sol m (o.srcE (toyOn, [])) 2) =
        (o.bE toyOn).val 2 m ((o.simB srcs).sol m (o.srcB (toyOn, [])) 2) ∧
      (let x : SrcEB Unit Unit Unit := { toyOn with se := 0, b0 := 1 }
       let b := (o.simB srcs).sol m (o.srcB (x, []))
       b 2 ⬝ᵥ (o.mui *ᵥ b 2) ≤ b 0 ⬝ᵥ (o.mui *ᵥ b 0)) := by
  intro o srcs m
  have hpos := toy_pos (y := m) (by norm_num [m])
  have hg : GoodInv o.sigma m := toyId_good m (by norm_num [m])
  have hd : ∀ d ∈ o.dts, 0 < d := by simp [o, toyE]
  have hms : o.muiᵀ = o.mui := Matrix.transpose_one
  have hdet : ∀ d ∈ o.dts, (o.bA d m).det ≠ 0 := fun d h =>
    C72_solvable_magnetic_flux_density o m hpos.2.nonNeg hms one_pos' (hd d h)
  have hdetE : ∀ d ∈ o.dts, (o.eA d m).det ≠ 0 := fun d h =>
    C72_solvable_electric_field o m hpos.1 one_pos'.nonNeg (hd d h)
  have hdet' : ∀ k < o.dts.length, (o.bA (o.dt k) m).det ≠ 0 := fun k h => by
    rw [show o.dt k = o.dts[k] from getD_eq h]
    exact hdet _ (List.getElem_mem h)
  have hst : ∀ k, k + 1 < 2 → o.dt (k + 1) = o.dt k ∨ o.thr < |o.dt (k + 1) - o.dt k| := by
    intro k hk
    have : k = 0 := by omega
    subst this
    right; simp [EB.dt, o, toyE]; norm_num
  have hf : Fresh (o.simB srcs) := hst
  have hfE : Fresh (o.simE []) := hst
  refine ⟨C73_Jvec_magnetic_flux_density_partial o srcs m (by simp [o, toyE]) hf hg hdet' ?_,
    C73_Jtvec_magnetic_flux_density_partial o srcs m (by simp [o, toyE]) hf hg hdet',
    (C72_magnetic_flux_density_partial o srcs (toyOn, []) m hf hg hdet).1,
    (C74_same_fields_EB_partial o toyOn [] srcs [] [] m hfE hf hg (fun d h => (hd d h).ne') hdetE hdet ?_ 2
      (by simp [o, toyE])).1, ?_⟩
  · intro x hx r hr i
    simp only [srcs, List.mem_cons, List.not_mem_nil, or_false] at hx
    subst hx
    simp only [List.mem_cons, List.not_mem_nil, or_false] at hr
    rcases hr with rfl | rfl <;> simp [pick, o, toyE]
  · funext i
    simp [EB.eInit, toyOn]
  · exact C76_magnetic_flux_density_partial o srcs (_, []) m hf hg hd hdet hms one_pos'.nonNeg hpos.1.nonNeg
      (Nat.zero_le 2) (by simp [o, toyE]) (fun i _ _ => ⟨rfl, rfl⟩)

/-- A source whose current is constant, for the HJ formulations. -/
def toyConstH : SrcHJ Unit Unit Unit := { toyOnH with se := 0, sm := 0, h0 := fun _ => 2 }

/-- The magnetic field and the current density (C72 to C76). -/
example :
    let o := toyH [1, 2] 5 0
    let sH : List (SrcHJ Unit Unit Unit × List (Rx FldH (LocH Unit Unit))) :=
      [(toyOnH, [pick .h (fun _ => 1) 1, pick .e (fun _ => 1) 0])]
    let sJ : List (SrcHJ Unit Unit Unit × List (Rx FldJ (LocJ Unit Unit))) :=
      [(toyOnH, [pick .j (fun _ => 1) 1, pick .e (fun _ => 1) 0])]
    let m : Unit → ℝ := fun _ => 3
    JvecCorrect (o.simH sH) m ∧ TransposeCorrect (o.simH sH) m ((o.simH sH).Jtvec m) ∧
      JvecCorrect (o.simJ sJ) m ∧ TransposeCorrect (o.simJ sJ) m ((o.simJ sJ).Jtvec m) ∧
      MaxwellHJ o.C o.mu (o.rho.mat ℝ m) o.dts toyOnH.sm toyOnH.se
        (fun k => (o.simH sH).sol m (o.srcH (toyOnH, [])) k)
        (fun k => (o.hJ toyOnH).val k m ((o.simH sH).sol m (o.srcH (toyOnH, [])) k)) ∧
      (let h := (o.simH sH).sol m (o.srcH (toyConstH, []))
       h 2 ⬝ᵥ (o.mu *ᵥ h 2) ≤ h 0 ⬝ᵥ (o.mu *ᵥ h 0)) ∧
      (let j := (o.simJ sJ).sol m (o.srcJ (toyConstH, []))
       j 2 ⬝ᵥ (o.rho.mat ℝ m *ᵥ j 2) ≤ j 0 ⬝ᵥ (o.rho.mat ℝ m *ᵥ j 0)) := by
  intro o sH sJ m
  have hpos := toy_pos (y := m) (by norm_num [m])
  have hg : GoodInv o.rho m := toyId_good m (by norm_num [m])
  have hd : ∀ d ∈ o.dts, 0 < d := by simp [o, toyH]
  have hms : o.muIᵀ = o.muI := Matrix.transpose_one
  have hdet : ∀ d ∈ o.dts, (o.hA d m).det ≠ 0 := fun d h =>
    C72_solvable_magnetic_field o m hpos.1.nonNeg one_pos' (hd d h)
  have hdetJ : ∀ d ∈ o.dts, (o.jA d m).det ≠ 0 := fun d h =>
    C72_solvable_current_density o m hpos.1 (mat_transpose hg.toGood) one_pos'.nonNeg (hd d h)
  have hdet' : ∀ k < o.dts.length, (o.hA (o.dt k) m).det ≠ 0 := fun k h => by
    rw [show o.dt k = o.dts[k] from getD_eq h]
    exact hdet _ (List.getElem_mem h)
  have hdetJ' : ∀ k < o.dts.length, (o.jA (o.dt k) m).det ≠ 0 := fun k h => by
    rw [show o.dt k = o.dts[k] from getD_eq h]
    exact hdetJ _ (List.getElem_mem h)
  have hst : ∀ k, k + 1 < 2 → o.dt (k + 1) = o.dt k ∨ o.thr < |o.dt (k + 1) - o.dt k| := by
    intro k hk
    have : k = 0 := by omega
    subst this
    right; simp [HJ.dt, o, toyH]; norm_num
  have hf : Fresh (o.simH sH) := hst
  have hfJ : Fresh (o.simJ sJ) := hst
  refine ⟨C73_Jvec_magnetic_field_partial o sH m (by simp [o, toyH]) hf hg.toGood hms hdet' ?_ ?_,
    C73_Jtvec_magnetic_field_partial o sH m (by simp [o, toyH]) hf hg.toGood hms hdet' ?_,
    C73_Jvec_current_density_partial o sJ m (by simp [o, toyH]) hfJ hg.toGood hms hdetJ' ?_ ?_,
    C73_Jtvec_current_density_partial o sJ m (by simp [o, toyH]) hfJ hg.toGood hms hdetJ' ?_,
    (C72_magnetic_field_partial o sH (toyOnH, []) m hf (one_mul _) hdet).1, ?_, ?_⟩
  · intro x hx h
    simp only [sH, List.mem_cons, List.not_mem_nil, or_false] at hx
    subst hx
    simp [toyOnH] at h
  · intro x hx r hr i
    simp only [sH, List.mem_cons, List.not_mem_nil, or_false] at hx
    subst hx
    simp only [List.mem_cons, List.not_mem_nil, or_false] at hr
    rcases hr with rfl | rfl <;> simp [pick, o, toyH]
  · intro x hx
    simp only [sH, List.mem_cons, List.not_mem_nil, or_false] at hx
    subst hx
    simp [toyOnH]
  · intro x hx h
    simp only [sJ, List.mem_cons, List.not_mem_nil, or_false] at hx
    subst hx
    simp [toyOnH] at h
  · intro x hx r hr i
    simp only [sJ, List.mem_cons, List.not_mem_nil, or_false] at hx
    subst hx
    simp only [List.mem_cons, List.not_mem_nil, or_false] at hr
    rcases hr with rfl | rfl <;> simp [pick, o, toyH]
  · intro x hx
    simp only [sJ, List.mem_cons, List.not_mem_nil, or_false] at hx
    subst hx
    simp [toyOnH]
  · exact C76_magnetic_field_partial o sH (toyConstH, []) m hf hd hdet (one_mul _) Matrix.transpose_one
      one_pos'.nonNeg hpos.1.nonNeg (Nat.zero_le 2) (by simp [o, toyH]) (fun i _ _ => ⟨rfl, rfl⟩)
  · exact C76_current_density_partial o sJ (toyConstH, []) m hfJ hg.toGood hd hdetJ one_pos'.nonNeg
      hpos.1.nonNeg (by simp [o, toyH]) (fun i _ => ⟨rfl, rfl⟩) (Nat.zero_le 2) (by simp [o, toyH])

/-- The current density formulation, and the same fields as with the magnetic field, for a source which
is switched on after the first of five equal steps. -/
example :
    let o := toyH [1, 1, 1, 1] 5 0
    let m : Unit → ℝ := fun _ => 3
    (∃ h, MaxwellHJ o.C o.mu (o.rho.mat ℝ m) o.dts toyOnH.sm toyOnH.se h
      (fun k => (o.simJ []).sol m (o.srcJ (toyOnH, [])) k)) ∧
    (o.hJ toyOnH).val 3 m ((o.simH []).sol m (o.srcH (toyOnH, [])) 3) =
      o.jJ.val 3 m ((o.simJ []).sol m (o.srcJ (toyOnH, [])) 3) := by
  intro o m
  have hpos := toy_pos (y := m) (by norm_num [m])
  have hg : GoodInv o.rho m := toyId_good m (by norm_num [m])
  have hd : ∀ d ∈ o.dts, 0 < d := by simp [o, toyH]
  have hdet : ∀ d ∈ o.dts, (o.hA d m).det ≠ 0 := fun d h =>
    C72_solvable_magnetic_field o m hpos.1.nonNeg one_pos' (hd d h)
  have hdetJ : ∀ d ∈ o.dts, (o.jA d m).det ≠ 0 := fun d h =>
    C72_solvable_current_density o m hpos.1 (mat_transpose hg.toGood) one_pos'.nonNeg (hd d h)
  have hst : ∀ k, k + 1 < 4 → o.dt (k + 1) = o.dt k ∨ o.thr < |o.dt (k + 1) - o.dt k| := by
    intro k hk
    left
    obtain rfl | rfl | rfl : k = 0 ∨ k = 1 ∨ k = 2 := by omega
    all_goals simp [HJ.dt, o, toyH]
  have hs : Steady o.dts toyOnH.sm toyOnH.se := by
    refine ⟨fun k h => Or.inl ?_, ?_, ?_, rfl⟩
    · have hk : k + 1 < 4 := h
      obtain rfl | rfl | rfl : k = 0 ∨ k = 1 ∨ k = 2 := by omega
      all_goals rfl
    · simp [o, toyH, toyOnH]
    · simp [o, toyH, toyOnH]
  have h0 : o.C *ᵥ o.hInit toyOnH m - o.jInit toyOnH m = toyOnH.se 0 := by
    funext i
    simp [HJ.hInit, HJ.jInit, toyOnH]
  refine ⟨?_, (C74_same_fields_HJ_partial o toyOnH [] [] [] [] m hst
    hst (one_mul _) (fun d h => (hd d h).ne') hdet hdetJ hs h0 3
    (by simp [o, toyH])).1⟩
  obtain ⟨h, _, hM, _⟩ := C72_current_density_partial o [] (toyOnH, []) m hst
    (one_mul _) (fun d h => (hd d h).ne') hdetJ hs _ h0
  exact ⟨h, hM⟩

/-- A grounded source: what its current and magnetic field start from (C75). -/
example :
    let o := { toyJ with C := Matrix.of fun i _ => ![1, -1] i }
    o.D *ᵥ o.jInit toyDCJ (fun _ => 1) + toyDCJ.rhsdc = 0 ∧
    o.C *ᵥ o.hInit toyDCJ (fun _ => 1) - o.jInit toyDCJ (fun _ => 1) = toyDCJ.se0 := by
  intro o
  have hdet : (o.adc fun _ => 1).det ≠ 0 := by
    rw [HJ.adc, show o.rho = toyRho from rfl, toyRho_inv 1 one_ne_zero, Matrix.det_unique]
    simp [o, toyJ, Matrix.mul_apply, Matrix.diagonal_apply, Fin.sum_univ_two]
  refine ⟨C75_start_current_density o toyDCJ _ rfl hdet,
    C75_start_magnetic_field o toyDCJ _ rfl rfl hdet ?_ ?_ ?_⟩
  · rw [Matrix.det_fin_two]
    simp [HJ.ammr, o, toyJ, Matrix.mul_apply]
    try norm_num
  · ext i j
    simp [o, toyJ, Matrix.mul_apply, Fin.sum_univ_two]
  · funext i
    simp [o, toyJ, toyDCJ, Matrix.mulVec, dotProduct, Fin.sum_univ_two]

/-- A grounded source with the electric field starts in equilibrium: two nodes joined by an edge. -/
example :
    let o : EB Unit Unit (Fin 2) Unit Unit :=
      ⟨[1], 1, 0, Matrix.of fun _ j => ![-1, 1] j, 0, toyId, 1, 1, 1⟩
    let src : SrcEB (Fin 2) Unit Unit := ⟨0, fun _ _ => 1, true, true, ![-1, 1], 0⟩
    o.Gᵀ *ᵥ (o.sigma.mat ℝ (fun _ => 3) *ᵥ o.eInit src (fun _ => 3) + src.se 0) = 0 := by
  intro o src
  refine C75_start_electric_field o src _ rfl ?_ ?_ ?_
  · refine C72_solvable_dc_electric_field o _ (toy_pos (by norm_num)).1 fun u h h0 => ?_
    have h1 := congrFun h ()
    simp [o, Matrix.mulVec, dotProduct, Fin.sum_univ_two] at h1
    have h0' : u 0 = 0 := h0
    funext i
    fin_cases i
    · exact h0
    · simp [h0'] at h1
      exact h1
  · funext i
    simp [o, Matrix.mulVec, dotProduct, Fin.sum_univ_two]
  · funext i
    simp [o, src, Matrix.mulVec, dotProduct]

end

end Verif.TDEM.Props
