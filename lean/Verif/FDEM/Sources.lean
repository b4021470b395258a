import Verif.FDEM.Maxwell

/-!
The sources of the frequency domain simulations
(`simpeg/electromagnetics/frequency_domain/sources.py`), what follows for them from the theorems about
the formulations, and the combinations of source, formulation and receiver whose sensitivities are
wrong.

The numerical values of the primary fields (`geoana`) are arbitrary vectors here.
-/

namespace Verif.FDEM
open Matrix Verif.EM

noncomputable section

variable {p s t ε φ : Type} [Fintype p] [Fintype s] [Fintype t] [Fintype ε] [Fintype φ]
  [DecidableEq ε] [DecidableEq φ]

/-- A source term which does not depend on the model: the derivative is `Zero()`
(`electromagnetics/base.py` 150-211). -/
def Term.fixed {g : Type} (x : g → ℂ) : Term p g := ⟨fun _ => x, fun _ _ => 0, fun _ _ => 0⟩

/-- `RawVec_e`, `RawVec_m`, `RawVec` (`sources.py` 206-306) and `LineCurrent` (1227-1416), already
integrated if asked for. -/
def rawVecEB (f : ℚ) (sm : φ → ℂ) (se : ε → ℂ) (rx : List (Rx FldEB (LocEB ε φ))) : SrcEB p ε φ where
  freq := f
  sm := Term.fixed sm
  se := Term.fixed se
  eP := Term.fixed 0
  bP := fun _ => 0
  rx := rx

/-- `MagDipole`, `MagDipole_Bfield` and `CircularLoop` in the EB formulations (`sources.py` 485-525,
588-663): `bp` is the primary magnetic flux density, `mu0` the permeability of the background.  If the
two permeabilities agree `s_e` is `Zero()`, which is the value of the formula. -/
def dipoleEB (o : EB p s t ε φ) (f : ℚ) (bp : φ → ℂ) (mu0 : ℝ) (rx : List (Rx FldEB (LocEB ε φ))) :
    SrcEB p ε φ where
  freq := f
  sm := Term.fixed (-(iw f) • bp)
  se :=
    { val := fun m => -(o.Cᵀ *ᵥ (o.mui.I.mat ℂ (fun i => o.mui.val m i - 1 / mu0) *ᵥ bp))
      d := fun m v => -(o.Cᵀ *ᵥ
        ((o.mui.I.deriv bp * (o.mui.D m).map (RCLike.ofReal : ℝ → ℂ)) *ᵥ v))
      dT := fun m w => -((o.mui.I.deriv bp * (o.mui.D m).map (RCLike.ofReal : ℝ → ℂ))ᵀ *ᵥ
        (o.C *ᵥ w)) }
  eP := Term.fixed 0
  bP := fun _ => bp
  rx := rx

/-- `RawVec` and `LineCurrent` in the HJ formulations. -/
def rawVecHJ (f : ℚ) (sm : ε → ℂ) (se : φ → ℂ) (rx : List (Rx FldHJ (LocHJ ε φ))) : SrcHJ p ε φ where
  freq := f
  sm := Term.fixed sm
  se := fun _ => se
  jP := fun _ => 0
  hP := fun _ => 0
  rx := rx

open Classical in
/-- `MagDipole` in the HJ formulations (`sources.py` 563-586, 605-608, 624-640, 663-664): `hp` is the
primary magnetic field; both source terms depend on the permeability, their derivatives are `Zero()`. -/
def dipoleHJ (o : HJ p s t ε φ) (f : ℚ) (hp : ε → ℂ) (mu0 : ℝ) (rx : List (Rx FldHJ (LocHJ ε φ))) :
    SrcHJ p ε φ where
  freq := f
  sm :=
    { val := fun m => -(iw f) • (o.mu.mat ℂ m *ᵥ hp)
      d := fun _ _ => 0
      dT := fun _ _ => 0 }
  se := fun m => if ∀ i, o.mu.val m i = mu0 then 0 else
    -(o.C *ᵥ ((o.mu.I.mat ℂ (fun i => o.mu.val m i - mu0))⁻¹ *ᵥ ((mu0 : ℂ) • hp)))
  jP := fun _ => 0
  hP := fun _ => hp
  rx := rx

end

end Verif.FDEM

namespace Verif.FDEM.Props
open Matrix Verif.FDEM Verif.EM Verif.EM.Props

noncomputable section

variable {p s t ε φ g n : Type} [Fintype p] [Fintype s] [Fintype t] [Fintype ε] [Fintype φ]
  [Fintype g] [Fintype n] [DecidableEq n] [DecidableEq ε] [DecidableEq φ]
variable {K : Type} {L : K → Type} [∀ k, Fintype (L k)]

set_option linter.unusedSectionVars false

theorem fixed_fixed (x : g → ℂ) : Term.Fixed (Term.fixed x : Term p g) :=
  ⟨fun _ _ => rfl, fun _ _ => rfl, fun _ _ => rfl⟩

theorem mat_sub (I : PDE.Inner ε s) (a b : s → ℝ) :
    I.mat ℂ (fun i => a i - b i) = I.mat ℂ a - I.mat ℂ b := by
  ext i j
  simp [PDE.Inner.mat, mul_sub, Finset.sum_sub_distrib]

theorem dipole_val (o : EB p s t ε φ) (f : ℚ) (bp : φ → ℂ) (mu0 : ℝ)
    (rx : List (Rx FldEB (LocEB ε φ))) (m : p → ℝ) :
    (dipoleEB o f bp mu0 rx).se.val m =
      -(o.Cᵀ *ᵥ (o.mui.mat ℂ m *ᵥ bp)) + o.Cᵀ *ᵥ (o.mui.I.mat ℂ (fun _ => 1 / mu0) *ᵥ bp) := by
  simp only [dipoleEB]
  rw [mat_sub o.mui.I (o.mui.val m) (fun _ => 1 / mu0), Matrix.sub_mulVec, Matrix.mulVec_sub, neg_sub,
    neg_add_eq_sub]
  rfl

theorem dipole_jac {o : EB p s t ε φ} {m : p → ℝ} (hm : Good o.mui m) (f : ℚ) (bp : φ → ℂ) (mu0 : ℝ)
    (rx : List (Rx FldEB (LocEB ε φ))) :
    IsJacK (dipoleEB o f bp mu0 rx).se.val (-(o.Cᵀ * o.mui.derMat m bp)) m := by
  have h1 := ((derMat_jac (𝕜 := ℂ) hm bp).mulVec o.Cᵀ).neg.add
    (isJacK_const (o.Cᵀ *ᵥ (o.mui.I.mat ℂ (fun _ => 1 / mu0) *ᵥ bp)) m)
  rw [add_zero] at h1
  exact IsJacK.congr h1 (Filter.Eventually.of_forall fun y => dipole_val o f bp mu0 rx y)

theorem derMat_slow {M : Mass p t φ} {m : p → ℝ} (h : Good M m) (u : φ → ℂ) :
    M.derMat m u = M.I.deriv u * (M.D m).map (RCLike.ofReal : ℝ → ℂ) := by
  have h1 := derMat_jac (𝕜 := ℂ) h u
  have h2 := (PDE.Props.C67_derivative (𝕜 := ℂ) false M.I (by simp) h.map u).1
  exact h1.unique h2

theorem dipole_exact {o : EB p s t ε φ} {m : p → ℝ} (hm : Good o.mui m) (f : ℚ) (bp : φ → ℂ) (mu0 : ℝ)
    (rx : List (Rx FldEB (LocEB ε φ))) : Term.Exact (dipoleEB o f bp mu0 rx).se m := by
  refine ⟨_, dipole_jac hm f bp mu0 rx, ?_, ?_⟩
  · intro v
    simp only [dipoleEB, derMat_slow hm, Matrix.neg_mulVec, ← Matrix.mulVec_mulVec]
  · intro w
    simp only [dipoleEB, derMat_slow hm, Matrix.transpose_neg, Matrix.transpose_mul,
      Matrix.transpose_transpose, Matrix.neg_mulVec, ← Matrix.mulVec_mulVec]

/-- A survey of raw sources and magnetic dipoles. -/
inductive PlainEB (o : EB p s t ε φ) : SrcEB p ε φ → Prop where
  | raw (f : ℚ) (sm : φ → ℂ) (se : ε → ℂ) (rx : List (Rx FldEB (LocEB ε φ))) :
      PlainEB o (rawVecEB f sm se rx)
  | dipole (f : ℚ) (bp : φ → ℂ) (mu0 : ℝ) (rx : List (Rx FldEB (LocEB ε φ))) :
      PlainEB o (dipoleEB o f bp mu0 rx)

/-- **C68.** With raw sources, line currents, magnetic dipoles and loops, both EB simulations have right
sensitivities with respect to the conductivity and the permeability, for receivers of every field; only
the electric field formulation with a permeability map needs sources of different frequencies. -/
theorem C68_sources_EB (o : EB p s t ε φ) (m : p → ℝ) (srcs : List (SrcEB p ε φ))
    (hplain : ∀ src ∈ srcs, PlainEB o src) (hm : Good o.mui m) (hs : GoodInv o.sigma m) :
    ((∀ src ∈ srcs, (o.eA src.freq m).det ≠ 0) →
      (o.muiMapped = true → (srcs.map fun src => src.freq).Nodup) →
      SensitivitiesCorrect (o.simE srcs) m) ∧
    ((∀ src ∈ srcs, (o.bA src.freq m).det ≠ 0) → SensitivitiesCorrect (o.simB srcs) m) := by
  have hsm : ∀ src ∈ srcs, Term.Exact src.sm m := by
    intro src h
    cases hplain src h with
    | raw => exact (fixed_fixed _).exact m
    | dipole => exact (fixed_fixed _).exact m
  have hse : ∀ src ∈ srcs, Term.Exact src.se m := by
    intro src h
    cases hplain src h with
    | raw => exact (fixed_fixed _).exact m
    | dipole f bp mu0 rx => exact dipole_exact hm f bp mu0 rx
  have heP : ∀ src ∈ srcs, Term.Fixed src.eP := by
    intro src h
    cases hplain src h with
    | raw => exact fixed_fixed _
    | dipole => exact fixed_fixed _
  have hbP : ∀ src ∈ srcs, ∀ m m', src.bP m = src.bP m' := by
    intro src h
    cases hplain src h with
    | raw => exact fun _ _ => rfl
    | dipole => exact fun _ _ => rfl
  have hj : ∀ src ∈ srcs, JTermOk o m src := by
    intro src h
    cases hplain src h with
    | raw f sm se rx =>
      have h0 : o.mui.derMat m (0 : φ → ℂ) = 0 := by
        have := derMat_sub o.mui m (0 : φ → ℂ) 0
        simpa using this
      change IsJacK (fun _ => se) (-(o.Cᵀ * o.mui.derMat m (0 : φ → ℂ))) m
      rw [h0, Matrix.mul_zero, neg_zero]
      exact isJacK_const se m
    | dipole f bp mu0 rx => exact dipole_jac hm f bp mu0 rx
  refine ⟨fun hdet hone => ?_, fun hdet => ?_⟩
  · exact C68_electric_field o m srcs hm hs.toGood hdet hsm hse (fun src h => (heP src h).exact m) hbP
      (fun src h _ _ _ => heP src h) hone
  · exact C68_magnetic_flux_density o m srcs hm hs hdet hsm hse (fun src h => (heP src h).exact m) hbP
      (fun src h _ _ _ => hj src h)

/-- A survey of raw sources and magnetic dipoles in the HJ formulations. -/
inductive PlainHJ (o : HJ p s t ε φ) : SrcHJ p ε φ → Prop where
  | raw (f : ℚ) (sm : ε → ℂ) (se : φ → ℂ) (rx : List (Rx FldHJ (LocHJ ε φ))) :
      PlainHJ o (rawVecHJ f sm se rx)
  | dipole (f : ℚ) (hp : ε → ℂ) (mu0 : ℝ) (rx : List (Rx FldHJ (LocHJ ε φ))) :
      PlainHJ o (dipoleHJ o f hp mu0 rx)

/-- **C68.** With raw sources, line currents and magnetic dipoles, both HJ simulations have right
sensitivities with respect to the resistivity, for receivers of every field and any number of sources
per frequency. -/
theorem C68_sources_HJ_partial (o : HJ p s t ε φ) (m : p → ℝ) (srcs : List (SrcHJ p ε φ))
    (hplain : ∀ src ∈ srcs, PlainHJ o src) (hr : Good o.rho m) (hm : GoodInv o.mu m)
    (hmu : o.muMapped = false) (hval : ∀ m m', o.mu.val m = o.mu.val m') (hD : o.mu.D m = 0) :
    ((∀ src ∈ srcs, (o.jA src.freq m).det ≠ 0) → SensitivitiesCorrect (o.simJ srcs) m) ∧
    (o.mfIᵀ = o.mfI → (∀ src ∈ srcs, (o.hA src.freq m).det ≠ 0) →
      SensitivitiesCorrect (o.simH srcs) m) := by
  have hmat : ∀ m m', o.mu.mat ℂ m = o.mu.mat ℂ m' := by
    intro m m'
    unfold Mass.mat
    rw [hval m m']
  have hsm : ∀ src ∈ srcs, Term.Exact src.sm m := by
    intro src h
    cases hplain src h with
    | raw => exact (fixed_fixed _).exact m
    | dipole f hp mu0 rx =>
      refine Term.Fixed.exact ⟨?_, fun _ _ => rfl, fun _ _ => rfl⟩ m
      intro m m'
      simp only [dipoleHJ, hmat m m']
  have hse : ∀ src ∈ srcs, ∀ m m', src.se m = src.se m' := by
    intro src h
    cases hplain src h with
    | raw => exact fun _ _ => rfl
    | dipole f hp mu0 rx =>
      intro m m'
      simp only [dipoleHJ, hval m m']
  have hjP : ∀ src ∈ srcs, ∀ m, src.jP m = 0 := by
    intro src h
    cases hplain src h with
    | raw => exact fun _ => rfl
    | dipole => exact fun _ => rfl
  have hhP : ∀ src ∈ srcs, ∀ m m', src.hP m = src.hP m' := by
    intro src h
    cases hplain src h with
    | raw => exact fun _ _ => rfl
    | dipole => exact fun _ _ => rfl
  have he : ∀ src ∈ srcs, o.rho.derMat m (src.jP m) = (0 : Matrix φ p ℂ) := by
    intro src h
    rw [hjP src h]
    have := derMat_sub o.rho m (0 : φ → ℂ) 0
    simpa using this
  have hb : ∀ src ∈ srcs, o.mu.derMat m (src.hP m) = (0 : Matrix ε p ℂ) := by
    intro src h
    rw [derMat_slow hm.toGood, hD]
    ext i j
    simp [Matrix.mul_apply]
  refine ⟨fun hdet => ?_, fun hI hdet => ?_⟩
  · exact C68_current_density o m srcs hr hm hdet hsm hse
      (fun src h m m' => by rw [hjP src h, hjP src h]) hhP (fun src h _ _ _ => he src h)
      (fun src h _ _ _ => hb src h) (fun h => by rw [hmu] at h; exact absurd h (by simp))
  · exact C68_magnetic_field o m srcs hr hm.toGood hI hdet hsm hse
      (fun src h m m' => by rw [hjP src h, hjP src h]) hhP (fun src h _ _ _ => he src h)

/-! ### A case -/

/-- A mesh with one cell, one edge and one face: the property is the model. -/
def toyId : Mass Unit Unit Unit := ⟨⟨fun _ _ _ => 1⟩, false, fun m => m, fun _ => 1⟩

/-- The property is the constant `c`. -/
def toyConst (c : ℝ) : Mass Unit Unit Unit := ⟨⟨fun _ _ _ => 1⟩, false, fun _ _ => c, fun _ => 0⟩

/-- A simulation with a given curl; the conductivity is the model. -/
def toyEB (c : ℝ) (sigma mui : Mass Unit Unit Unit) : EB Unit Unit Unit Unit Unit :=
  ⟨Matrix.of fun _ _ => c, sigma, mui, 1, 1, false⟩

theorem toyId_good (m : Unit → ℝ) (h : m () ≠ 0) : GoodInv toyId m where
  map := isJacobian_id m
  fast := by simp [toyId]
  symm := fun i j t => rfl
  diag := fun i j t h => absurd (Subsingleton.elim i j) h
  ne := fun i => by simpa [toyId, Mass.mat, PDE.Inner.mat] using h

theorem toyConst_good (c : ℝ) (m : Unit → ℝ) (h : c ≠ 0) : GoodInv (toyConst c) m where
  map := isJacobian_const _ m
  fast := by simp [toyConst]
  symm := fun i j t => rfl
  diag := fun i j t h => absurd (Subsingleton.elim i j) h
  ne := fun i => by simpa [toyConst, Mass.mat, PDE.Inner.mat] using h

/-- The hypotheses of the theorems about the EB formulations can be met: a dipole and a raw source at
the same frequency, with receivers of `e`, `h` and `j`. -/
example :
    let o := toyEB 1 toyId (toyConst 3)
    let rx : List (Rx FldEB (LocEB Unit Unit)) :=
      [⟨1, .real, .e, fun _ _ => 1⟩, ⟨1, .imag, .h, fun _ _ => 1⟩, ⟨1, .real, .j, fun _ _ => 1⟩]
    let srcs := [dipoleEB o 1 (fun _ => 1) 2 rx, rawVecEB 1 0 (fun _ => 1) rx]
    SensitivitiesCorrect (o.simE srcs) (fun _ => 5) ∧ SensitivitiesCorrect (o.simB srcs) (fun _ => 5) := by
  intro o rx srcs
  have h1 := C68_sources_EB o (fun _ => 5) srcs
    (by
      intro src h
      simp only [srcs, List.mem_cons, List.not_mem_nil, or_false] at h
      rcases h with rfl | rfl
      · exact PlainEB.dipole _ _ _ _
      · exact PlainEB.raw _ _ _ _)
    (toyConst_good 3 _ (by norm_num)).toGood (toyId_good _ (by norm_num))
  have hf : ∀ src ∈ srcs, src.freq = 1 := by
    intro src h
    simp only [srcs, List.mem_cons, List.not_mem_nil, or_false] at h
    rcases h with rfl | rfl <;> rfl
  refine ⟨h1.1 (fun src h => ?_) (by simp [o, toyEB]), h1.2 fun src h => ?_⟩
  · rw [hf src h, Matrix.det_unique]
    intro h0
    have := congrArg Complex.re h0
    simp [o, toyEB, toyId, toyConst, EB.eA, EB.C, Mass.mat, PDE.Inner.mat, iw, Matrix.mul_apply] at this
  · rw [hf src h, Matrix.det_unique]
    intro h0
    have := congrArg Complex.im h0
    simp [o, toyEB, toyId, toyConst, EB.bA, EB.bA0, EB.C, Mass.mat, Mass.inv, PDE.Inner.mat, iw,
      Matrix.mul_apply, Real.pi_ne_zero] at this

/-! ### Wrong sensitivities -/

/-- If the derivative of the data is `J0` and `Jvec` computes something else, the sensitivities are
wrong. -/
theorem wrong_of {S : Sim p n K L} {m : p → ℝ} {src : Src p n K L} {r : Rx K L}
    (hsrc : S.sources = [src]) (hrx : src.rx = [r]) {J0 : Matrix (Fin r.nD) p ℝ}
    (hJ0 : IsJacobian (fun y => r.eval (src.fld r.field) y (S.sol y src)) J0 m) (v : p → ℝ)
    (hne : r.deriv (src.fld r.field) m (S.sol m src) (S.du m src (castV ℂ v)) (castV ℂ v) ≠ J0 *ᵥ v) :
    ¬ ∃ J : (s : Src p n K L) → (r : Rx K L) → Matrix (Fin r.nD) p ℝ,
      IsDataJacobian S m J ∧
      ∀ v, S.Jvec m v = .ok (blocks (S.sources.map fun s =>
        s.rx.flatMap fun r => List.ofFn (J s r *ᵥ v))) := by
  rintro ⟨J, hJ, hv⟩
  have hok : S.fails = false := by
    by_contra h
    have h1 := hv v
    unfold Sim.Jvec at h1
    rw [if_pos (by simpa using h)] at h1
    exact absurd h1 (by simp)
  have h1 : J src r = J0 :=
    IsJacobian.unique (hJ src (by simp [hsrc]) r (by simp [hrx])) hJ0
  have h2 := hv v
  rw [Jvec_eq S m v hok, hsrc] at h2
  simp only [List.map_cons, List.map_nil, blocks, Sim.srcJvec, hrx, List.flatMap_cons,
    List.flatMap_nil, List.append_nil, h1] at h2
  injection h2 with h2
  injection h2 with h2
  injection h2 with h2
  exact hne (List.ofFn_injective h2)

/-- **C68, violated.** With a permeability map, the electric field formulation and the current density
formulation cannot compute any sensitivity for a survey with two sources of the same frequency: `Jvec`,
`Jtvec` and `getJ` raise, whatever the sources. -/
theorem C68_violated_shared_frequency (o : EB p s t ε φ) (o' : HJ p s t ε φ)
    (a b : SrcEB p ε φ) (a' b' : SrcHJ p ε φ) (h : o.muiMapped = true) (h' : o'.muMapped = true)
    (hab : a.freq = b.freq) (hab' : a'.freq = b'.freq) (m v : p → ℝ) (w : List ℝ) :
    (o.simE [a, b]).Jvec m v = .error .valueError ∧
    (o.simE [a, b]).Jtvec m w = .error .valueError ∧
    (o.simE [a, b]).getJ m = .error .valueError ∧
    (o'.simJ [a', b']).Jvec m v = .error .valueError ∧
    (o'.simJ [a', b']).Jtvec m w = .error .valueError ∧
    (o'.simJ [a', b']).getJ m = .error .valueError := by
  have h1 : (o.simE [a, b]).fails = true := by
    simp [Sim.fails, EB.simE, h, hab, List.countP_cons]
  have h2 : (o'.simJ [a', b']).fails = true := by
    simp [Sim.fails, HJ.simJ, h', hab', List.countP_cons]
  simp [Sim.Jvec, Sim.Jtvec, Sim.getJ, h1, h2]

/-- The term which is the model itself. -/
def toyTerm : Term Unit Unit := ⟨fun m => castV ℂ m, fun _ v => v, fun _ w => w⟩

theorem toyTerm_exact (m : Unit → ℝ) : Term.Exact toyTerm m := by
  refine ⟨1, ?_, fun v => by simp [toyTerm], fun w => by simp [toyTerm]⟩
  have := (isJacobian_id m).cast (𝕜 := ℂ)
  rw [Matrix.map_one _ (by simp) (by simp)] at this
  exact this

theorem toyC (sigma mui : Mass Unit Unit Unit) : (toyEB 0 sigma mui).C = 0 := by
  ext i j
  simp [EB.C, toyEB]

theorem jac_linear (c : ℝ) {f : (Unit → ℝ) → Fin 1 → ℝ} (hf : ∀ y i, f y i = c * y ()) (m : Unit → ℝ) :
    IsJacobian f (Matrix.of fun _ _ => c) m := by
  have h : f = mulVecL (Matrix.of fun _ _ => c) := by
    funext y i
    simp [hf, Matrix.mulVec, dotProduct]
  rw [h]
  exact (mulVecL (Matrix.of fun (_ : Fin 1) (_ : Unit) => c)).hasFDerivAt

/-- The real part of one value of a field is measured, and it is a linear function of the only
parameter with another slope than `Jvec` says. -/
theorem wrong_unit {S : Sim Unit Unit K L} {m : Unit → ℝ} {src : Src Unit Unit K L} (k : K)
    (P : Matrix (Fin 1) (L k) ℝ) (x : L k) (hP : ∀ z : L k → ℂ, (P.map (fun a => (a : ℂ)) *ᵥ z) 0 = z x)
    (hsrc : S.sources = [src]) (hrx : src.rx = [⟨1, .real, k, P⟩]) (c : ℝ)
    (hdata : ∀ᶠ y in nhds m, ((src.fld k).val y (S.sol y src) x).re = c * y ())
    (hne : (((src.fld k).du m (S.du m src (fun _ => 1)) +
      (src.fld k).dm m (S.sol m src) (fun _ => 1)) x).re ≠ c) : ¬ SensitivitiesCorrect S m := by
  intro hbad
  refine wrong_of (r := ⟨1, .real, k, P⟩) hsrc hrx (J0 := Matrix.of fun _ _ => c)
    ?_ (fun _ => 1) ?_ hbad.exact
  · refine HasFDerivAt.congr_of_eventuallyEq
      (jac_linear c (f := fun y _ => c * y ()) (fun y i => rfl) m) ?_
    filter_upwards [hdata] with y hy
    funext i
    rw [eval_eq, Subsingleton.elim i 0]
    change ((P.map (fun a => (a : ℂ)) *ᵥ (src.fld k).val y (S.sol y src)) 0).re = _
    rw [hP, hy]
  · intro h
    have h1 := congrFun h 0
    have h2 : (castV ℂ fun (_ : Unit) => (1 : ℝ)) = fun _ => 1 := by
      funext i
      simp
    rw [h2] at h1
    change ((P.map (fun a => (a : ℂ)) *ᵥ ((src.fld k).du m (S.du m src (fun _ => 1)) +
      (src.fld k).dm m (S.sol m src) (fun _ => 1))) 0).re = _ at h1
    rw [hP] at h1
    apply hne
    rw [h1]
    simp [Matrix.mulVec, dotProduct]

/-- The projection on the only edge or face. -/
def toyP : Matrix (Fin 1) Unit ℝ := Matrix.of fun _ _ => 1

theorem toyP_eq (z : Unit → ℂ) : (toyP.map (fun a => (a : ℂ)) *ᵥ z) 0 = z () := by
  simp [toyP, Matrix.mulVec, dotProduct]

/-- **C68, violated.** `j` of the magnetic flux density formulation: its derivative ignores that `s_e`
depends on the model, as it does for a source with a primary electric field (`PrimSecMappedSigma`). -/
theorem C68_violated_B_j :
    ∃ (o : EB Unit Unit Unit Unit Unit) (m : Unit → ℝ) (src : SrcEB Unit Unit Unit),
      Good o.mui m ∧ GoodInv o.sigma m ∧ (o.bA src.freq m).det ≠ 0 ∧ Term.Exact src.sm m ∧
      Term.Exact src.se m ∧ Term.Fixed src.eP ∧ (∀ m m', src.bP m = src.bP m') ∧
      ¬ SensitivitiesCorrect (o.simB [src]) m := by
  set o := toyEB 0 (toyConst 1) (toyConst 1) with ho
  set src : SrcEB Unit Unit Unit :=
    ⟨1, Term.fixed 0, toyTerm, Term.fixed 0, fun _ => 0, [⟨1, .real, .j, toyP⟩]⟩ with hs
  have hC : o.C = 0 := toyC _ _
  refine ⟨o, fun _ => 5, src, (toyConst_good 1 _ (by norm_num)).toGood,
    toyConst_good 1 _ (by norm_num), ?_, (fixed_fixed _).exact _, toyTerm_exact _, fixed_fixed _,
    fun _ _ => rfl, ?_⟩
  · rw [Matrix.det_unique]
    intro h0
    have := congrArg Complex.im h0
    simp only [EB.bA, EB.bA0, hC, Matrix.zero_mul, zero_add] at this
    simp [hs, ho, toyEB, toyConst, Mass.mat, PDE.Inner.mat, iw, Real.pi_ne_zero] at this
  · have hsol : ∀ y, (o.simB [src]).sol y (EB.srcB o src) = 0 := by
      intro y
      simp only [Sim.sol, EB.srcB, EB.bQ, EB.bQ0, hC, Matrix.zero_mulVec, hs, Term.fixed, add_zero,
        Matrix.mulVec_zero]
    refine wrong_unit (src := EB.srcB o src) FldEB.j toyP () toyP_eq rfl rfl (-1) (Filter.Eventually.of_forall ?_) ?_
    · intro y
      rw [hsol]
      change ((o.bJ src).val y 0 ()).re = _
      simp only [EB.bJ, hC, Matrix.transpose_zero, Matrix.zero_mulVec, zero_sub]
      simp [hs, toyTerm, EB.MeI, ho, toyEB]
    · change (((o.bJ src).du _ _ + (o.bJ src).dm _ _ _) ()).re ≠ _
      simp only [EB.bJ, hC, Matrix.transpose_zero, Matrix.zero_mulVec, Matrix.mulVec_zero, add_zero]
      simp

/-- **C68, violated.** `j` of the electric field formulation: its derivative does not multiply the
derivative of the primary electric field by the conductivity (`PrimSecMappedSigma`). -/
theorem C68_violated_E_j :
    ∃ (o : EB Unit Unit Unit Unit Unit) (m : Unit → ℝ) (src : SrcEB Unit Unit Unit),
      Good o.mui m ∧ GoodInv o.sigma m ∧ (o.eA src.freq m).det ≠ 0 ∧ Term.Fixed src.sm ∧
      Term.Fixed src.se ∧ Term.Exact src.eP m ∧ (∀ m m', src.bP m = src.bP m') ∧
      ¬ SensitivitiesCorrect (o.simE [src]) m := by
  set o := toyEB 0 (toyConst 2) (toyConst 1) with ho
  set src : SrcEB Unit Unit Unit :=
    ⟨1, Term.fixed 0, Term.fixed 0, toyTerm, fun _ => 0, [⟨1, .real, .j, toyP⟩]⟩ with hs
  have hC : o.C = 0 := toyC _ _
  refine ⟨o, fun _ => 5, src, (toyConst_good 1 _ (by norm_num)).toGood,
    toyConst_good 2 _ (by norm_num), ?_, fixed_fixed _, fixed_fixed _, toyTerm_exact _,
    fun _ _ => rfl, ?_⟩
  · rw [Matrix.det_unique]
    intro h0
    have := congrArg Complex.im h0
    simp only [EB.eA, hC, Matrix.mul_zero, zero_add] at this
    simp [hs, ho, toyEB, toyConst, Mass.mat, PDE.Inner.mat, iw, Real.pi_ne_zero] at this
  · have hsol : ∀ y, (o.simE [src]).sol y (EB.srcE o src) = 0 := by
      intro y
      simp only [Sim.sol, EB.srcE, EB.eQ, hs, Term.fixed, sub_self, smul_zero, Matrix.mulVec_zero]
    have hder : ∀ (m : Unit → ℝ) (u v : Unit → ℂ), o.sigma.der m u v = 0 := by
      intro m u v
      have hs : Good o.sigma m := (toyConst_good 2 m (by norm_num)).toGood
      rw [der_eq, derMat_slow hs]
      simp [ho, toyEB, toyConst]
    refine wrong_unit (src := EB.srcE o src) FldEB.j toyP () toyP_eq rfl rfl 2 (Filter.Eventually.of_forall ?_) ?_
    · intro y
      rw [hsol]
      change ((o.eJ src).val y 0 ()).re = _
      simp only [EB.eJ, EB.eE]
      simp [hs, toyTerm, EB.MeI, ho, toyEB, toyConst, Mass.mat, PDE.Inner.mat, Matrix.mulVec,
        dotProduct]
    · have hdu : ∀ v, (o.simE [src]).du (fun _ => 5) (EB.srcE o src) v = 0 := by
        intro v
        rw [Sim.du, hsol]
        change _ *ᵥ (-(o.eAD 1 _ _ v) + o.eQD src _ v) = 0
        simp only [EB.eAD, EB.eQD, hder, hC, Matrix.transpose_zero, Matrix.zero_mulVec, smul_zero]
        simp [hs, Term.fixed]
      rw [hdu, hsol]
      change (((o.eJ src).du _ _ + (o.eJ src).dm _ _ _) ()).re ≠ _
      simp only [EB.eJ, hder, EB.eE, Matrix.mulVec_zero, zero_add, add_zero]
      simp [hs, toyTerm, EB.MeI, ho, toyEB]

/-- A simulation without a curl in the HJ formulations. -/
def toyHJ (rho mu : Mass Unit Unit Unit) : HJ Unit Unit Unit Unit Unit := ⟨0, rho, mu, 1, 1, true⟩

theorem inv_unit (c : ℂ) (h : c ≠ 0) : (c • (1 : Matrix Unit Unit ℂ))⁻¹ = c⁻¹ • 1 := by
  refine Matrix.inv_eq_right_inv ?_
  rw [Matrix.smul_mul, Matrix.one_mul, smul_smul, mul_inv_cancel₀ h, one_smul]

/-- **C68, violated.** A magnetic dipole in the HJ formulations: its source terms depend on the
permeability, their derivatives are zero; the sensitivities with respect to the permeability are
wrong, for receivers of `h`, in both formulations. -/
theorem C68_violated_dipole_mu :
    ∃ (o : HJ Unit Unit Unit Unit Unit) (m : Unit → ℝ) (src : SrcHJ Unit Unit Unit),
      (∃ f hp mu0 rx, src = dipoleHJ o f hp mu0 rx) ∧ Good o.rho m ∧ GoodInv o.mu m ∧
      (o.jA src.freq m).det ≠ 0 ∧ (o.hA src.freq m).det ≠ 0 ∧
      ¬ SensitivitiesCorrect (o.simJ [src]) m ∧ ¬ SensitivitiesCorrect (o.simH [src]) m := by
  set o := toyHJ (toyConst 1) toyId with ho
  set src := dipoleHJ o 1 (fun _ => 1) 7 [⟨1, .real, .h, toyP⟩] with hs
  have hC : o.C = 0 := by
    ext i j
    simp [ho, toyHJ, HJ.C]
  have hse : ∀ m, src.se m = 0 := by
    intro m
    simp only [hs, dipoleHJ, hC, Matrix.zero_mulVec, neg_zero, ite_self]
  have hsm : ∀ m, src.sm.val m = -(iw 1) • (o.mu.mat ℂ m *ᵥ fun _ => 1) := fun _ => rfl
  have hmu : ∀ y : Unit → ℝ, o.mu.mat ℂ y = (y () : ℂ) • 1 := by
    intro y
    ext i j
    simp [ho, toyHJ, toyId, Mass.mat, PDE.Inner.mat]
  have hmi : ∀ y : Unit → ℝ, y () ≠ 0 → o.mu.inv ℂ y = (y () : ℂ)⁻¹ • 1 := by
    intro y hy
    rw [Mass.inv, hmu]
    exact inv_unit _ (by exact_mod_cast hy)
  have hdm : ∀ (y : Unit → ℝ) (u : Unit → ℂ), o.mu.derMat y u = u () • 1 := by
    intro y u
    ext i j
    simp [ho, toyHJ, toyId, Mass.derMat, PDE.stash, PDE.Stash.toMat, PDE.Inner.deriv]
  have hdi : ∀ (u : Unit → ℂ), o.mu.invDerMat (fun _ => 5) u = (-(1 / 25) * u ()) • 1 := by
    intro u
    have h5 := hmi (fun _ => 5) (by norm_num)
    have e : o.mu.invDerMat (fun _ => 5) u =
        o.mu.derMat (fun _ => 5) (PDE.invArg o.mu.I (o.mu.val fun _ => 5) u) := rfl
    rw [e, hdm, PDE.invArg]
    change (o.mu.inv ℂ _ *ᵥ (o.mu.inv ℂ _ *ᵥ (-u))) () • _ = _
    rw [h5]
    congr 1
    simp [Matrix.smul_mulVec]
    ring
  have hsd : ∀ m v, src.sm.d m v = 0 := fun _ _ => rfl
  have hf : src.freq = 1 := rfl
  have hg : ∀ y : Unit → ℝ, y () ≠ 0 → GoodInv o.mu y := fun y hy => toyId_good y hy
  have hr : ∀ y : Unit → ℝ, Good o.rho y := fun y => (toyConst_good 1 y (by norm_num)).toGood
  have hw := iw_ne (f := 1) (by norm_num)
  have hj : ∀ y : Unit → ℝ, o.jA src.freq y = iw 1 • 1 := by
    intro y
    simp only [HJ.jA, HJ.jA0, hC, Matrix.zero_mul, zero_add]
    ext i j
    simp [ho, toyHJ, toyConst, Mass.mat, PDE.Inner.mat, hs, dipoleHJ]
  have hh : ∀ y : Unit → ℝ, o.hA src.freq y = (iw 1 * (y () : ℂ)) • 1 := by
    intro y
    simp only [HJ.hA, hC, Matrix.mul_zero, zero_add, hmu, smul_smul]
    rfl
  have hnear : ∀ᶠ y in nhds (fun _ : Unit => (5 : ℝ)), y () ≠ 0 :=
    (continuous_apply ()).continuousAt.eventually_ne (by norm_num)
  refine ⟨o, fun _ => 5, src, ⟨1, _, _, _, rfl⟩, hr _, hg _ (by norm_num), ?_, ?_, ?_, ?_⟩
  · rw [hj, Matrix.det_unique]
    simpa using hw
  · rw [hh, Matrix.det_unique]
    simpa using hw
  · have hsol : ∀ y, (o.simJ [src]).sol y (HJ.srcJ o src) = 0 := by
      intro y
      simp only [Sim.sol, HJ.srcJ, HJ.jQ, HJ.jQ0, hC, hse, Matrix.zero_mulVec, smul_zero, sub_self,
        Matrix.mulVec_zero]
    have hdu : ∀ v, (o.simJ [src]).du (fun _ => 5) (HJ.srcJ o src) v = 0 := by
      intro v
      rw [Sim.du, hsol]
      change _ *ᵥ (-(o.jAD 1 _ _ v) + o.jQD src _ v) = 0
      simp only [HJ.jAD, HJ.jQD, hC, Matrix.zero_mulVec, Matrix.mulVec_zero, add_zero, neg_zero]
    refine wrong_unit (src := HJ.srcJ o src) FldHJ.h toyP () toyP_eq rfl rfl 0 ?_ ?_
    · filter_upwards [hnear] with y hy
      rw [hsol]
      change ((o.jH src).val y 0 ()).re = _
      simp only [HJ.jH, hC, Matrix.transpose_zero, Matrix.zero_mulVec, smul_zero, zero_add, hsm]
      have e : (1 / iw src.freq) • (-(iw 1) • (o.mu.mat ℂ y *ᵥ fun _ => (1 : ℂ))) =
          -(o.mu.mat ℂ y *ᵥ fun _ => (1 : ℂ)) := by
        change (1 / iw 1) • (-(iw 1) • _) = _
        rw [smul_smul, mul_neg, one_div, inv_mul_cancel₀ hw, neg_one_smul]
      rw [e, Matrix.mulVec_neg, Matrix.mulVec_mulVec, inv_mul (hg y hy), Matrix.one_mulVec]
      simp [hs, dipoleHJ]
    · rw [hdu, hsol]
      change (((o.jH src).du _ _ + (o.jH src).dm _ _ _) ()).re ≠ _
      simp only [HJ.jH, hC, Matrix.transpose_zero, Matrix.zero_mulVec, Matrix.mulVec_zero, smul_zero,
        zero_add, hsm, hsd, hf, hdi, hmu]
      have e : ∀ w : ℂ, w ≠ 0 → (1 / w) * (-(1 / 25) * (-w * (((5 : ℝ) : ℂ) * 1)) * 1) = 1 / 5 := by
        intro w h
        field_simp
        norm_num
      simp only [Matrix.smul_mulVec, Matrix.one_mulVec, Pi.smul_apply, Pi.add_apply, Pi.neg_apply,
        Pi.zero_apply, smul_eq_mul, mul_zero, zero_mul, neg_zero, zero_add, add_zero, e _ hw]
      norm_num
  · have hsol : ∀ y : Unit → ℝ, y () ≠ 0 → (o.simH [src]).sol y (HJ.srcH o src) = fun _ => -1 := by
      intro y hy
      refine solve_unique ?_ ?_
      · change (o.hA src.freq y).det ≠ 0
        rw [hh, Matrix.det_unique]
        simpa using ⟨hw, hy⟩
      · change o.hA src.freq y *ᵥ _ = o.hQ src y
        rw [hh, HJ.hQ, hC, hsm, hmu]
        funext i
        simp [Matrix.smul_mulVec]
    refine wrong_unit (src := HJ.srcH o src) FldHJ.h toyP () toyP_eq rfl rfl 0 ?_ ?_
    · filter_upwards [hnear] with y hy
      rw [hsol y hy]
      change ((o.hH src).val y _ ()).re = _
      simp [HJ.hH, hs, dipoleHJ]
    · have hdu : (o.simH [src]).du (fun _ => 5) (HJ.srcH o src) (fun _ => 1) = fun _ => 1 / 5 := by
        rw [Sim.du, hsol _ (by norm_num)]
        change (o.hA src.freq _)⁻¹ *ᵥ (-(o.hAD src.freq _ _ _) + o.hQD src _ _) = _
        rw [hh, HJ.hAD, HJ.hQD, hC, hdm, inv_unit _ (mul_ne_zero hw (by norm_num))]
        funext i
        simp only [hsd, hf, Matrix.smul_mulVec, Matrix.one_mulVec, Pi.smul_apply, smul_eq_mul,
          Matrix.zero_mulVec, Matrix.mulVec_zero, Matrix.transpose_zero, zero_add, add_zero, Pi.neg_apply]
        field_simp
        norm_num
      rw [hdu]
      change (((o.hH src).du _ _ + (o.hH src).dm _ _ _) ()).re ≠ _
      simp [HJ.hH]

end

end Verif.FDEM.Props
