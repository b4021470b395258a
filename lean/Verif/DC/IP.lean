import Verif.DC.Sim2D
import Mathlib.Analysis.Calculus.Deriv.Inv

/-!
The induced polarization simulations
(`simpeg/electromagnetics/static/induced_polarization/simulation.py`): the conductivity is fixed, the
model is the chargeability, and data are the linear response of the resistivity simulation, divided by
the primary voltage for receivers of the apparent chargeability.

The four classes inherit `Jvec`, `Jtvec`, `getJ` from the resistivity simulations
(`Verif/DC/Sim.lean`, `Verif/DC/Sim2D.lean`) and only replace the derivatives of the conductivity and
the resistivity.  What is remembered between calls is in `Verif/DC/IPCache.lean`.

Not modelled: miniaturised surveys (`_scale` would look up the sources of the full survey in the
fields of the miniaturised one), factors and fields handed to the constructor (71-72).
-/

namespace Verif.DC
open Matrix Verif.PDE

noncomputable section

variable {p s e f n : Type} [Fintype p] [Fintype s] [Fintype e] [Fintype f] [Fintype n]
  [DecidableEq e] [DecidableEq f] [DecidableEq n] [DecidableEq s]

/-- What `BaseIPSimulation` (14-140) uses of the resistivity simulation it is mixed with: for every
receiver whether it measures the apparent chargeability, and its primary data; the sensitivity
products and rows, at the fixed conductivity. -/
structure Engine (p : Type) where
  blocks : List (Bool × List ℝ)
  jvec : (p → ℝ) → (p → ℝ) → List ℝ
  jtvec : (p → ℝ) → List ℝ → p → ℝ
  rows : (p → ℝ) → List (p → ℝ)

/-- `_scale` (43-61): ones, except `1 / rx.eval(...)` for the apparent chargeability. -/
def Engine.scale (E : Engine p) : List ℝ :=
  E.blocks.flatMap fun b => if b.1 then b.2.map (fun d => 1 / d) else List.replicate b.2.length 1

/-- `Jvec` (127-128). -/
def Engine.Jvec (E : Engine p) (m v : p → ℝ) : List ℝ :=
  List.zipWith (· * ·) E.scale (E.jvec m v)

/-- `forward` (130-131), which is also what `dpred` (102-113) returns on a new simulation. -/
def Engine.forward (E : Engine p) (m : p → ℝ) : List ℝ := E.Jvec m m

/-- `Jtvec` (133-134). -/
def Engine.Jtvec (E : Engine p) (m : p → ℝ) (w : List ℝ) : p → ℝ :=
  E.jtvec m (List.zipWith (· * ·) w E.scale)

/-- `getJtJdiag` (115-125), on a new simulation; `W` holds the diagonal of the weights. -/
def Engine.getJtJdiag (E : Engine p) (m : p → ℝ) (W : Option (List ℝ)) : p → ℝ :=
  let W := match W with
    | none => E.scale.map (· ^ 2)
    | some W => List.zipWith (fun s w => (s * w) ^ 2) E.scale W
  fun j => (List.zipWith (fun w r => w * r j * r j) W (E.rows m)).sum

/-- `sigmaDeriv` (35-37). -/
def ipSigmaD (σ₀ : s → ℝ) (etaD : (p → ℝ) → Matrix s p ℝ) (m : p → ℝ) : Matrix s p ℝ :=
  -(diagonal σ₀ * etaD m)

/-- `rhoDeriv` (39-41). -/
def ipRhoD (ρ₀ : s → ℝ) (etaD : (p → ℝ) → Matrix s p ℝ) (m : p → ℝ) : Matrix s p ℝ :=
  diagonal ρ₀ * etaD m

/-- `Simulation3DNodal` (161-164): the conductivity does not depend on the model. -/
def Nodal.ip (o : Nodal p s e n) (σ₀ : s → ℝ) (etaD : (p → ℝ) → Matrix s p ℝ) : Nodal p s e n :=
  { o with sigma := fun _ => σ₀, sigmaD := ipSigmaD σ₀ etaD }

/-- `Simulation3DCellCentered` (155-158). -/
def Cell.ip (o : Cell p s f n) (ρ₀ : s → ℝ) (etaD : (p → ℝ) → Matrix s p ℝ) : Cell p s f n :=
  { o with rho := fun _ => ρ₀, rhoD := ipRhoD ρ₀ etaD }

/-- `Simulation2DNodal` (149-152). -/
def Nodal2.ip (o : Nodal2 p s e n) (σ₀ : s → ℝ) (etaD : (p → ℝ) → Matrix s p ℝ) :
    Nodal2 p s e n :=
  { o with sigma := fun _ => σ₀, sigmaD := ipSigmaD σ₀ etaD }

/-- `Simulation2DCellCentered` (143-146), with the conductivity `σ₀` or its reciprocal as resistivity
(`props.Reciprocal`, 17). -/
def Cell2.ip (o : Cell2 p f n) (σ₀ : n → ℝ) (etaD : (p → ℝ) → Matrix n p ℝ) : Cell2 p f n :=
  { o with rho := fun _ t => 1 / σ₀ t, rhoD := ipRhoD (fun t => 1 / σ₀ t) etaD,
           sigma := fun _ => σ₀, sigmaD := ipSigmaD σ₀ etaD }

/-- The members inherited from a 3D resistivity simulation; `kind` tells receivers of the apparent
chargeability.  The primary fields (`super().fields(None)`, 48 and 96) do not depend on the model. -/
def Sim.engine (S : Sim p n f) (kind : Rx n f → Bool) : Engine p :=
  { blocks := S.sources.flatMap fun src => src.rx.map fun r =>
      (kind r, List.ofFn (r.eval S.F (S.solve 0 src.q)))
    jvec := S.Jvec, jtvec := S.Jtvec, rows := S.getJ }

/-- The members inherited from a 2.5D simulation; `_scale` evaluates receivers on the fields in space
(50-53). -/
def Sim2.engine (S : Sim2 p n) (kind : Rx n Empty → Bool) : Engine p :=
  { blocks := S.sources.flatMap fun src => src.rx.map fun r =>
      (kind r, List.ofFn (r.eval noF (S.phi 0 src.q)))
    jvec := S.Jvec, jtvec := S.Jtvec, rows := S.getJ }

end

end Verif.DC

namespace Verif.DC.Props
open Matrix Verif.PDE Verif.PDE.Props Verif.DC Verif.Flow.Richards.Props

noncomputable section

variable {p s e f n : Type} [Fintype p] [Fintype s] [Fintype e] [Fintype f] [Fintype n]
  [DecidableEq e] [DecidableEq f] [DecidableEq n] [DecidableEq s]

set_option linter.unusedSectionVars false

/-! ### Specification -/

/-- The primary data, in the order of the survey. -/
def Engine.dc (E : Engine p) : List ℝ := E.blocks.flatMap Prod.snd

/-- A conductive earth whose conductivity is lowered by the fraction `C y`: `σ₀ (1 - C y)`, with its
derivative at `y = 0`. -/
def Nodal.charged (o : Nodal p s e n) (σ₀ : s → ℝ) (C : Matrix s p ℝ) : Nodal p s e n :=
  { o with sigma := fun y t => σ₀ t * (1 - (C *ᵥ y) t), sigmaD := fun _ => -(diagonal σ₀ * C) }

/-- The same by its resistivity, `ρ₀ / (1 - C y)`. -/
def Cell.charged (o : Cell p s f n) (ρ₀ : s → ℝ) (C : Matrix s p ℝ) : Cell p s f n :=
  { o with rho := fun y t => ρ₀ t / (1 - (C *ᵥ y) t), rhoD := fun _ => diagonal ρ₀ * C }

/-- The same in 2.5D, nodal. -/
def Nodal2.charged (o : Nodal2 p s e n) (σ₀ : s → ℝ) (C : Matrix s p ℝ) : Nodal2 p s e n :=
  { o with sigma := fun y t => σ₀ t * (1 - (C *ᵥ y) t), sigmaD := fun _ => -(diagonal σ₀ * C) }

/-- The same in 2.5D, cell centred. -/
def Cell2.charged (o : Cell2 p f n) (σ₀ : n → ℝ) (C : Matrix n p ℝ) : Cell2 p f n :=
  { o with rho := fun y t => 1 / σ₀ t / (1 - (C *ᵥ y) t),
           rhoD := fun _ => diagonal (fun t => 1 / σ₀ t) * C,
           sigma := fun y t => σ₀ t * (1 - (C *ᵥ y) t), sigmaD := fun _ => -(diagonal σ₀ * C) }

/-- `E` is the linear response, at no chargeability, of the data `D` of a chargeable earth: primary
data, derivatives, adjoint products and rows. -/
structure Response (E : Engine p) (D : (p → ℝ) → List ℝ) : Prop where
  primary : Engine.dc E = D 0
  deriv : ∀ m, ListDeriv D (E.jvec m) 0
  adjoint : ∀ m v w, dotList (E.jvec m v) w = v ⬝ᵥ E.jtvec m w
  rows : ∀ m v, (E.rows m).map (fun r => r ⬝ᵥ v) = E.jvec m v

/-! ### Lists -/

theorem scale_length (E : Engine p) : E.scale.length = (Engine.dc E).length := by
  unfold Engine.scale Engine.dc
  induction E.blocks with
  | nil => rfl
  | cons b l ih =>
    simp only [List.flatMap_cons, List.length_append, ih]
    by_cases h : b.1 <;> simp [h]

theorem zip_getD (a b : List ℝ) (hl : a.length = b.length) (i : Nat) :
    (List.zipWith (· * ·) a b).getD i 0 = a.getD i 0 * b.getD i 0 := by
  induction a generalizing b i with
  | nil => simp
  | cons x a ih =>
    cases b with
    | nil => simp at hl
    | cons y b =>
      cases i with
      | zero => simp
      | succ i => simpa using ih b (by simpa using hl) i

theorem dot_shift (s a w : List ℝ) :
    dotList (List.zipWith (· * ·) s a) w = dotList a (List.zipWith (· * ·) w s) := by
  unfold dotList
  induction s generalizing a w with
  | nil => simp
  | cons x s ih =>
    cases a with
    | nil => simp
    | cons y a =>
      cases w with
      | nil => simp
      | cons z w =>
        simp only [List.zipWith_cons_cons, List.sum_cons, ih]
        ring

theorem flat_engine {α : Type} (ss : List α) (g : α → List (Bool × List ℝ)) :
    (ss.flatMap g).flatMap Prod.snd = ss.flatMap fun a => (g a).flatMap Prod.snd := by
  rw [List.flatMap_assoc]

/-! ### Property theorems about any linear response -/

/-- **C111 (prediction).** Every predicted datum is the rate of change of the resistivity datum when
the chargeability is switched on, `σ = σ₀ (1 - t η)` at `t = 0`; for the apparent chargeability it is
divided by the primary datum. -/
theorem C111_prediction {E : Engine p} {D : (p → ℝ) → List ℝ} (h : Response E D) (m : p → ℝ)
    (i : Nat) : (E.forward m).length = (D 0).length ∧
    ∃ d : ℝ, HasDerivAt (fun t : ℝ => (D (t • m)).getD i 0) d 0 ∧
      (E.forward m).getD i 0 = E.scale.getD i 0 * d := by
  have hl : E.scale.length = (E.jvec m m).length := by
    rw [scale_length, h.primary, (h.deriv m).1 0 m]
  refine ⟨?_, ?_⟩
  · simp only [Engine.forward, Engine.Jvec, List.length_zipWith]
    rw [← hl, Nat.min_self, hl]
    exact (h.deriv m).1 0 m
  · obtain ⟨L, hL, hv⟩ := (h.deriv m).2 i
    refine ⟨L m, ?_, ?_⟩
    · have h1 : HasDerivAt (fun t : ℝ => t • m) m 0 := by
        simpa using (hasDerivAt_id (0:ℝ)).smul_const m
      have h2 : HasFDerivAt (fun y => (D y).getD i 0) L ((0:ℝ) • m) := by simpa using hL
      exact h2.comp_hasDerivAt (0:ℝ) h1
    · simp only [Engine.forward, Engine.Jvec]
      rw [zip_getD _ _ hl, hv]

/-- **C111 (sensitivity).** For a linear chargeability map `Jvec` lists the derivatives of the
predicted data, at every model, and the prediction is linear. -/
theorem C111_sensitivity {E : Engine p} {D : (p → ℝ) → List ℝ} (h : Response E D)
    (hm : ∀ m m', E.jvec m = E.jvec m') (m : p → ℝ) : ListDeriv E.forward (E.Jvec m) m := by
  have hl : ∀ m v, E.scale.length = (E.jvec m v).length := fun m v => by
    rw [scale_length, h.primary, (h.deriv m).1 0 v]
  refine ⟨fun y v => ?_, fun i => ?_⟩
  · simp only [Engine.forward, Engine.Jvec, List.length_zipWith]
    rw [← hl, ← hl]
  · obtain ⟨L, _, hv⟩ := (h.deriv m).2 i
    refine ⟨E.scale.getD i 0 • L, ?_, fun v => ?_⟩
    · have e : (fun y => (E.forward y).getD i 0) = fun y => (E.scale.getD i 0 • L) y := by
        funext y
        simp only [Engine.forward, Engine.Jvec]
        rw [zip_getD _ _ (hl y y), hm y m, hv]
        rfl
      rw [e]
      exact (E.scale.getD i 0 • L).hasFDerivAt
    · simp only [Engine.Jvec]
      rw [zip_getD _ _ (hl m v), hv]
      rfl

/-- **C111 (adjoint).** `Jtvec` is the adjoint of `Jvec`, for all kinds of receivers. -/
theorem C111_adjoint {E : Engine p} {D : (p → ℝ) → List ℝ} (h : Response E D) (m v : p → ℝ)
    (w : List ℝ) : dotList (E.Jvec m v) w = v ⬝ᵥ E.Jtvec m w := by
  unfold Engine.Jvec Engine.Jtvec
  rw [dot_shift, h.adjoint]

theorem diag_sum [DecidableEq p] (rows : List (p → ℝ)) (s W : List ℝ) (j : p) :
    (List.zipWith (fun w r => w * r j * r j) (List.zipWith (fun s w => (s * w) ^ 2) s W) rows).sum =
      (List.zipWith (fun w x => (w * x) ^ 2) W
        (List.zipWith (· * ·) s (rows.map fun r => r ⬝ᵥ Pi.single j 1))).sum := by
  induction rows generalizing s W with
  | nil => simp
  | cons r rows ih =>
    cases s with
    | nil => simp
    | cons x s =>
      cases W with
      | nil => simp
      | cons y W =>
        simp only [List.zipWith_cons_cons, List.sum_cons, List.map_cons, ih]
        simp only [dotProduct_single, mul_one]
        ring

/-- **C111 (diagonal).** On a new simulation `getJtJdiag` is the diagonal of `(WJ)ᵀ(WJ)` with the
sensitivities `J` of the predicted data: the sum of the squares of the weighted entries of every
column `J eⱼ`; without weights the sum of the squares. -/
theorem C111_diagonal [DecidableEq p] {E : Engine p} {D : (p → ℝ) → List ℝ} (h : Response E D)
    (m : p → ℝ) (j : p) :
    (∀ W : List ℝ, E.getJtJdiag m (some W) j =
      (List.zipWith (fun w x => (w * x) ^ 2) W (E.Jvec m (Pi.single j 1))).sum) ∧
    E.getJtJdiag m none j = ((E.Jvec m (Pi.single j 1)).map (· ^ 2)).sum := by
  refine ⟨fun W => ?_, ?_⟩
  · simp only [Engine.getJtJdiag, Engine.Jvec]
    rw [diag_sum, h.rows]
  · simp only [Engine.getJtJdiag, Engine.Jvec]
    rw [← h.rows]
    generalize E.rows m = rows
    generalize E.scale = s
    induction rows generalizing s with
    | nil => simp
    | cons r rows ih =>
      cases s with
      | nil => simp
      | cons x s =>
        simp only [List.map_cons, List.zipWith_cons_cons, List.sum_cons, ih, dotProduct_single,
          mul_one]
        ring

theorem uniform_lists (bl : List (Bool × List ℝ)) (c : ℝ)
    (hd : ∀ b ∈ bl, b.1 = true → ∀ d ∈ b.2, d ≠ 0) :
    List.zipWith (· * ·)
      (bl.flatMap fun b => if b.1 then b.2.map (fun d => 1 / d) else List.replicate b.2.length 1)
      ((bl.flatMap Prod.snd).map (c * ·)) =
    bl.flatMap fun b => b.2.map fun d => if b.1 then c else c * d := by
  induction bl with
  | nil => rfl
  | cons b bl ih =>
    simp only [List.flatMap_cons, List.map_append]
    rw [List.zipWith_append (by by_cases h : b.1 <;> simp [h]),
      ih fun b' hb' => hd b' (by simp [hb'])]
    congr 1
    have h0 := hd b (by simp)
    obtain ⟨k, ds⟩ := b
    cases k with
    | true =>
      have h1 : ∀ d ∈ ds, d ≠ 0 := h0 rfl
      simp only [if_true]
      clear ih hd h0
      induction ds with
      | nil => rfl
      | cons d ds ih =>
        simp only [List.map_cons, List.zipWith_cons_cons]
        rw [ih fun x hx => h1 x (by simp [hx])]
        congr 1
        have := h1 d (by simp)
        field_simp
    | false =>
      simp only [if_false, Bool.false_eq_true]
      clear ih hd h0
      induction ds with
      | nil => rfl
      | cons d ds ih =>
        simp only [List.map_cons, List.length_cons, List.replicate_succ, List.zipWith_cons_cons, ih,
          one_mul]

/-- **C111 (uniform earth).** If every conductivity is lowered by the same fraction `c`, predicted
voltages are `c` times the primary ones and predicted apparent chargeabilities are `c`, provided that
primary voltages are inversely proportional to the conductivity of the whole earth (`hs`, proved for
the simulations below) and do not vanish. -/
theorem C111_uniform {E : Engine p} {D : (p → ℝ) → List ℝ} (h : Response E D) (m : p → ℝ) (c : ℝ)
    (hs : ∀ t : ℝ, 1 - t * c ≠ 0 → D (t • m) = (D 0).map ((1 - t * c)⁻¹ * ·))
    (hd : ∀ b ∈ E.blocks, b.1 = true → ∀ d ∈ b.2, d ≠ 0) :
    E.forward m = E.blocks.flatMap fun b => b.2.map fun d => if b.1 then c else c * d := by
  have key : E.jvec m m = (D 0).map (c * ·) := by
    refine List.ext_getElem (by rw [(h.deriv m).1 0 m]; simp) fun i h1 h2 => ?_
    obtain ⟨L, hL, hv⟩ := (h.deriv m).2 i
    have h3 : HasDerivAt (fun t : ℝ => (D (t • m)).getD i 0) (L m) 0 := by
      have h1 : HasDerivAt (fun t : ℝ => t • m) m 0 := by
        simpa using (hasDerivAt_id (0:ℝ)).smul_const m
      have h2 : HasFDerivAt (fun y => (D y).getD i 0) L ((0:ℝ) • m) := by simpa using hL
      exact h2.comp_hasDerivAt (0:ℝ) h1
    have hi : i < (D 0).length := by simpa using h2
    have h4 : HasDerivAt (fun t : ℝ => (1 - t * c)⁻¹ * (D 0).getD i 0) (c * (D 0).getD i 0) 0 := by
      have hlin : HasDerivAt (fun t : ℝ => 1 - t * c) (-c) 0 := by
        simpa using ((hasDerivAt_id (0:ℝ)).mul_const c).const_sub 1
      have := (hlin.inv (by simp)).mul_const ((D 0).getD i 0)
      simpa using this
    have h5 : HasDerivAt (fun t : ℝ => (D (t • m)).getD i 0) (c * (D 0).getD i 0) 0 := by
      refine h4.congr_of_eventuallyEq ?_
      have hc : ContinuousAt (fun t : ℝ => 1 - t * c) 0 := by fun_prop
      have hne : ∀ᶠ t in nhds (0:ℝ), 1 - t * c ≠ 0 := hc.eventually_ne (by simp)
      filter_upwards [hne] with t ht
      rw [hs t ht]
      simp [List.getD, hi]
    have := hv m
    rw [h3.unique h5] at this
    rw [List.getD_eq_getElem _ _ h1] at this
    rw [this]
    simp [hi]
  unfold Engine.forward Engine.Jvec Engine.scale
  rw [key, ← h.primary]
  exact uniform_lists E.blocks c hd

/-! ### The four simulations -/

theorem charged_jac (σ₀ : s → ℝ) (C : Matrix s p ℝ) :
    IsJacobian (fun y t => σ₀ t * (1 - (C *ᵥ y) t)) (-(diagonal σ₀ * C)) (0 : p → ℝ) := by
  classical
  have h1 : IsJacobian (fun y : p → ℝ => C *ᵥ y) C 0 := by
    have := (isJacobian_id (0 : p → ℝ)).mulVec C
    simpa using this
  have h2 := (isJacobian_const σ₀ (0 : p → ℝ)).sub (h1.mulVec (diagonal σ₀))
  rw [zero_sub] at h2
  refine h2.congr (Filter.Eventually.of_forall fun y => ?_)
  funext t
  simp only [Pi.sub_apply, Matrix.mulVec_diagonal]
  ring

theorem charged_rho_jac (ρ₀ : s → ℝ) (C : Matrix s p ℝ) :
    IsJacobian (fun y t => ρ₀ t / (1 - (C *ᵥ y) t)) (diagonal ρ₀ * C) (0 : p → ℝ) := by
  classical
  rw [isJacobian_iff]
  intro t
  have h1 : HasFDerivAt (fun y : p → ℝ => (C *ᵥ y) t) (dotL (C t)) 0 := by
    have := (isJacobian_iff.1 ((isJacobian_id (0 : p → ℝ)).mulVec C)) t
    simpa using this
  have h2 : HasFDerivAt (fun y : p → ℝ => 1 - (C *ᵥ y) t) (-(dotL (C t))) 0 := by
    simpa using h1.const_sub 1
  have h3 : HasDerivAt (fun x : ℝ => ρ₀ t / x) (-ρ₀ t) (1 - (C *ᵥ (0 : p → ℝ)) t) := by
    have := (hasDerivAt_inv (x := 1 - (C *ᵥ (0 : p → ℝ)) t) (by simp)).const_mul (ρ₀ t)
    simpa [div_eq_mul_inv] using this
  have h4 := h3.comp_hasFDerivAt (0 : p → ℝ) h2
  refine h4.congr_fderiv ?_
  ext v
  simp [dotL, Matrix.diagonal_mul, dotProduct, Finset.mul_sum, mul_assoc]

theorem listDeriv_of_blocks {ss : List (Src n f)} {F : Src n f → (r : Rx n f) → (p → ℝ) → Fin r.nD → ℝ}
    {J : (src : Src n f) → (r : Rx n f) → Matrix (Fin r.nD) p ℝ} {m : p → ℝ}
    (h : ∀ src ∈ ss, ∀ r ∈ src.rx, IsJacobian (F src r) (J src r) m) :
    ListDeriv (fun y => ss.flatMap fun src => src.rx.flatMap fun r => List.ofFn (F src r y))
      (fun v => ss.flatMap fun src => src.rx.flatMap fun r => List.ofFn (J src r *ᵥ v)) m :=
  ListDeriv.flatMap ss fun src hs => ListDeriv.flatMap src.rx fun r hr => ListDeriv.ofFn (h src hs r hr)

/-- Sensitivity products of simulations which agree on everything they use are the same. -/
theorem sim_congr {S S' : Sim p n f} {m m' : p → ℝ} (hA : S.A m = S'.A m')
    (hd : S.aDeriv m = S'.aDeriv m') (hT : S.aDerivT m = S'.aDerivT m') (hF : S.F = S'.F)
    (hs : S.sources = S'.sources) :
    S.dpred m = S'.dpred m' ∧ S.Jvec m = S'.Jvec m' ∧ S.Jtvec m = S'.Jtvec m' ∧
      S.getJ m = S'.getJ m' := by
  obtain ⟨A, d, T, F, ss⟩ := S
  obtain ⟨A', d', T', F', ss'⟩ := S'
  simp only at hA hd hT hF hs
  subst hF hs
  have hsol : ∀ q, (⟨A, d, T, F, ss⟩ : Sim p n f).solve m q =
      (⟨A', d', T', F, ss⟩ : Sim p n f).solve m' q := fun q => by simp [Sim.solve, hA]
  have hrx : ∀ q r w, (⟨A, d, T, F, ss⟩ : Sim p n f).rxT m q r w =
      (⟨A', d', T', F, ss⟩ : Sim p n f).rxT m' q r w := fun q r w => by
    simp [Sim.rxT, hsol, hT, hA]
  refine ⟨?_, ?_, ?_, ?_⟩
  · simp only [Sim.dpred, hsol]
  · funext v
    simp only [Sim.Jvec, Sim.du, hsol, hd, hA]
  · funext w
    have h1 : ∀ q rs w, (⟨A, d, T, F, ss⟩ : Sim p n f).rxLoop m q rs w =
        (⟨A', d', T', F, ss⟩ : Sim p n f).rxLoop m' q rs w := by
      intro q rs
      induction rs with
      | nil => intro w; rfl
      | cons r rs ih => intro w; simp only [Sim.rxLoop, hrx, ih]
    have h2 : ∀ l w, (⟨A, d, T, F, ss⟩ : Sim p n f).srcLoop m l w =
        (⟨A', d', T', F, ss⟩ : Sim p n f).srcLoop m' l w := by
      intro l
      induction l with
      | nil => intro w; rfl
      | cons src l ih => intro w; simp only [Sim.srcLoop, h1, ih]
    exact h2 ss w
  · simp only [Sim.getJ, hrx]

theorem response_of_sim {S S' : Sim p n f} (kind : Rx n f → Bool)
    (hA : ∀ m, S.A m = S'.A 0) (hd : ∀ m, S.aDeriv m = S'.aDeriv 0)
    (hT : ∀ m, S.aDerivT m = S'.aDerivT 0) (hF : S.F = S'.F) (hs : S.sources = S'.sources)
    (hJ : ∃ J : (src : Src n f) → (r : Rx n f) → Matrix (Fin r.nD) p ℝ,
      (∀ src ∈ S'.sources, ∀ r ∈ src.rx,
        IsJacobian (fun y => r.eval S'.F (S'.solve y src.q)) (J src r) 0) ∧
      ∀ v, S'.Jvec 0 v =
        S'.sources.flatMap fun src => src.rx.flatMap fun r => List.ofFn (J src r *ᵥ v))
    (hadj : ∀ v w, dotList (S'.Jvec 0 v) w = v ⬝ᵥ S'.Jtvec 0 w ∧ S'.JvecStored 0 v = S'.Jvec 0 v) :
    Response (S.engine kind) S'.dpred ∧ ∀ m m', (S.engine kind).jvec m = (S.engine kind).jvec m' := by
  have hc := fun m => sim_congr (hA m) (hd m) (hT m) hF hs
  refine ⟨⟨?_, fun m => ?_, fun m v w => ?_, fun m v => ?_⟩, fun m m' => ?_⟩
  · rw [← (hc 0).1]
    simp only [Engine.dc, Sim.engine, Sim.dpred]
    rw [flat_engine]
    refine List.flatMap_congr fun src _ => ?_
    rw [List.flatMap_map]
  · change ListDeriv _ (S.Jvec m) 0
    rw [(hc m).2.1]
    obtain ⟨J, h1, h2⟩ := hJ
    have h3 := listDeriv_of_blocks h1
    have e : S'.Jvec 0 = fun v =>
        S'.sources.flatMap fun src => src.rx.flatMap fun r => List.ofFn (J src r *ᵥ v) := funext h2
    rw [e]
    exact h3
  · change dotList (S.Jvec m v) w = v ⬝ᵥ S.Jtvec m w
    rw [(hc m).2.1, (hc m).2.2.1]
    exact (hadj v w).1
  · change (S.getJ m).map (fun r => r ⬝ᵥ v) = S.Jvec m v
    rw [(hc m).2.1, (hc m).2.2.2]
    exact (hadj v []).2
  · change S.Jvec m = S.Jvec m'
    rw [(hc m).2.1, (hc m').2.1]

/-- **C111 (nodal).** The 3D nodal simulation with a linear chargeability map `C` is the linear
response of the resistivity simulation with the conductivity `σ₀ (1 - C y)`, and its sensitivities do
not depend on the model.  The hypotheses are those of the resistivity simulation (C63, C64). -/
theorem C111_nodal (o : Nodal p s e n) (σ₀ : s → ℝ) (C : Matrix s p ℝ) (ss : List (Src n Empty))
    (kind : Rx n Empty → Bool) (hI : o.fast = true → Diagonal o.me) (hS : Symmetric o.me)
    (hdet : ((Nodal.charged o σ₀ C).getA 0).det ≠ 0)
    (hN : o.neumann = true → o.G *ᵥ (fun _ => 1) = 0 ∧ ∀ src ∈ ss, ∀ r ∈ src.rx, Differences r) :
    Response (((o.ip σ₀ fun _ => C).sim ss).engine kind) ((Nodal.charged o σ₀ C).sim ss).dpred ∧
    ∀ m m', (((o.ip σ₀ fun _ => C).sim ss).engine kind).jvec m =
      (((o.ip σ₀ fun _ => C).sim ss).engine kind).jvec m' := by
  have h0 : (fun t => σ₀ t * (1 - (C *ᵥ (0 : p → ℝ)) t)) = σ₀ := by funext t; simp
  have hA : ∀ m, (o.ip σ₀ fun _ => C).getA m = (Nodal.charged o σ₀ C).getA 0 := by
    intro m
    simp only [Nodal.getA, Nodal.ip, Nodal.charged, h0]
    rfl
  have hj : IsJacobian (Nodal.charged o σ₀ C).sigma ((Nodal.charged o σ₀ C).sigmaD 0) 0 :=
    charged_jac σ₀ C
  exact response_of_sim (S := (o.ip σ₀ fun _ => C).sim ss) (S' := (Nodal.charged o σ₀ C).sim ss) kind
    hA (fun _ => rfl) (fun _ => rfl) rfl rfl
    (C63_nodal (Nodal.charged o σ₀ C) ss 0 hI hj hdet hN)
    (fun v w => C64_nodal (Nodal.charged o σ₀ C) ss 0 hI hS hj hdet hN v w)

/-- **C111 (cell centred).** The 3D cell centred simulation with the resistivity `ρ₀` is the linear
response of the resistivity simulation with the resistivity `ρ₀ / (1 - C y)`. -/
theorem C111_cell (o : Cell p s f n) (ρ₀ : s → ℝ) (C : Matrix s p ℝ) (ss : List (Src n f))
    (kind : Rx n f → Bool) (hO : CellOps o) (hI : Diagonal o.mf)
    (h0 : ∀ i, o.mf.mat ℝ ρ₀ i i ≠ 0) (hdet : ((Cell.charged o ρ₀ C).getA 0).det ≠ 0)
    (hN : o.bc = .neumann → ∀ src ∈ ss, ∀ r ∈ src.rx, Differences r) :
    Response (((o.ip ρ₀ fun _ => C).sim ss).engine kind) ((Cell.charged o ρ₀ C).sim ss).dpred ∧
    ∀ m m', (((o.ip ρ₀ fun _ => C).sim ss).engine kind).jvec m =
      (((o.ip ρ₀ fun _ => C).sim ss).engine kind).jvec m' := by
  have e0 : (fun t => ρ₀ t / (1 - (C *ᵥ (0 : p → ℝ)) t)) = ρ₀ := by funext t; simp
  have hA : ∀ m, (o.ip ρ₀ fun _ => C).getA m = (Cell.charged o ρ₀ C).getA 0 := by
    intro m
    simp only [Cell.getA, Cell.ip, Cell.charged, e0]
    rfl
  have hd : ∀ m, (o.ip ρ₀ fun _ => C).aDeriv m = (Cell.charged o ρ₀ C).aDeriv 0 := by
    intro m
    funext u v
    simp only [Cell.aDeriv, Cell.ip, Cell.charged, e0, ipRhoD]
    rfl
  have hT : ∀ m, (o.ip ρ₀ fun _ => C).aDerivT m = (Cell.charged o ρ₀ C).aDerivT 0 := by
    intro m
    funext u v
    simp only [Cell.aDerivT, Cell.ip, Cell.charged, e0, ipRhoD]
    rfl
  have hj : IsJacobian (Cell.charged o ρ₀ C).rho ((Cell.charged o ρ₀ C).rhoD 0) 0 :=
    charged_rho_jac ρ₀ C
  have hO' : CellOps (Cell.charged o ρ₀ C) := ⟨hO.locality, hO.gradOne, hO.interior⟩
  have h0' : ∀ i, (Cell.charged o ρ₀ C).mf.mat ℝ ((Cell.charged o ρ₀ C).rho 0) i i ≠ 0 := by
    intro i
    have : (Cell.charged o ρ₀ C).rho 0 = ρ₀ := e0
    rw [this]
    exact h0 i
  exact response_of_sim (S := (o.ip ρ₀ fun _ => C).sim ss) (S' := (Cell.charged o ρ₀ C).sim ss) kind
    hA hd hT rfl rfl
    (C63_cell (Cell.charged o ρ₀ C) ss 0 hO' hI hj h0' hdet hN)
    (fun v w => C64_cell (Cell.charged o ρ₀ C) ss 0 hO' hI hj h0' hdet hN v w)

/-! ### 2.5D -/

/-- Sensitivity products of simulations which agree on everything they use are the same. -/
theorem sim2_congr {S S' : Sim2 p n} {m m' : p → ℝ} (hA : ∀ ky, S.form.A ky m = S'.form.A ky m')
    (hd : ∀ ky, S.form.aDeriv ky m = S'.form.aDeriv ky m')
    (hT : ∀ ky, S.form.aDerivT ky m = S'.form.aDerivT ky m') (hq : S.quad = S'.quad)
    (hs : S.sources = S'.sources) :
    (∀ q, S.phi m q = S'.phi m' q) ∧ S.Jvec m = S'.Jvec m' ∧ S.Jtvec m = S'.Jtvec m' ∧
      S.getJ m = S'.getJ m' := by
  obtain ⟨⟨A, d, T⟩, quad, ss⟩ := S
  obtain ⟨⟨A', d', T'⟩, quad', ss'⟩ := S'
  simp only at hA hd hT hq hs
  subst hq hs
  have hsol : ∀ ky q, (⟨⟨A, d, T⟩, quad, ss⟩ : Sim2 p n).solve ky m q =
      (⟨⟨A', d', T'⟩, quad, ss⟩ : Sim2 p n).solve ky m' q := fun ky q => by simp [Sim2.solve, hA]
  have hloop : ∀ ky wt l w, (⟨⟨A, d, T⟩, quad, ss⟩ : Sim2 p n).srcLoop ky wt m l w =
      (⟨⟨A', d', T'⟩, quad, ss⟩ : Sim2 p n).srcLoop ky wt m' l w := by
    intro ky wt l
    induction l with
    | nil => intro w; rfl
    | cons src l ih => intro w; simp only [Sim2.srcLoop, ih, hsol, hT, hA]
  refine ⟨fun q => ?_, ?_, ?_, ?_⟩
  · simp only [Sim2.phi, hsol]
  · funext v
    simp only [Sim2.Jvec, Sim2.jvecKy, Sim2.du, Sim2.nD, hsol, hd, hA]
  · funext w
    simp only [Sim2.Jtvec, hloop]
  · simp only [Sim2.getJ, Sim2.rowsKy, Sim2.nD, hsol, hT, hA]

theorem response_of_sim2 {S S' : Sim2 p n} (kind : Rx n Empty → Bool)
    (hA : ∀ m ky, S.form.A ky m = S'.form.A ky 0)
    (hd : ∀ m ky, S.form.aDeriv ky m = S'.form.aDeriv ky 0)
    (hT : ∀ m ky, S.form.aDerivT ky m = S'.form.aDerivT ky 0) (hq : S.quad = S'.quad)
    (hs : S.sources = S'.sources) (hE : ∀ k ∈ S'.quad, Exact2 S'.form k.1 0)
    (hadj : ∀ k ∈ S'.quad, Adjoint2 S'.form k.1 0) :
    Response (S.engine kind) S'.dpred ∧ ∀ m m', (S.engine kind).jvec m = (S.engine kind).jvec m' := by
  have hc := fun m => sim2_congr (hA m) (hd m) (hT m) hq hs
  refine ⟨⟨?_, fun m => ?_, fun m v w => ?_, fun m v => ?_⟩, fun m m' => ?_⟩
  · rw [C103_data]
    simp only [Engine.dc, Sim2.engine, (hc 0).1]
    rw [flat_engine, hs]
    refine List.flatMap_congr fun src _ => ?_
    rw [List.flatMap_map]
  · change ListDeriv _ (S.Jvec m) 0
    rw [(hc m).2.1]
    exact C103_exact S' 0 hE
  · change dotList (S.Jvec m v) w = v ⬝ᵥ S.Jtvec m w
    rw [(hc m).2.1, (hc m).2.2.1]
    exact C103_adjoint S' 0 hadj v w
  · change (S.getJ m).map (fun r => r ⬝ᵥ v) = S.Jvec m v
    rw [(hc m).2.1, (hc m).2.2.2]
    exact C103_stored S' 0 hadj v
  · change S.Jvec m = S.Jvec m'
    rw [(hc m).2.1, (hc m').2.1]

/-- **C111 (2.5D nodal).** The 2.5D nodal simulation is the linear response of the resistivity
simulation with the conductivity `σ₀ (1 - C y)`. -/
theorem C111_nodal2 (o : Nodal2 p s e n) (σ₀ : s → ℝ) (C : Matrix s p ℝ) (quad : List (ℝ × ℝ))
    (ss : List (Src n Empty)) (kind : Rx n Empty → Bool) (hI : o.fast = true → Diagonal o.me)
    (hS : Symmetric o.me)
    (hdet : ∀ k ∈ quad, ((Nodal2.charged o σ₀ C).getA k.1 0).det ≠ 0) :
    Response (((o.ip σ₀ fun _ => C).sim quad ss fun _ => none).engine kind)
      ((Nodal2.charged o σ₀ C).sim quad ss fun _ => none).dpred ∧
    ∀ m m', (((o.ip σ₀ fun _ => C).sim quad ss fun _ => none).engine kind).jvec m =
      (((o.ip σ₀ fun _ => C).sim quad ss fun _ => none).engine kind).jvec m' := by
  have h0 : (fun t => σ₀ t * (1 - (C *ᵥ (0 : p → ℝ)) t)) = σ₀ := by funext t; simp
  have hA : ∀ m ky, (o.ip σ₀ fun _ => C).getA ky m = (Nodal2.charged o σ₀ C).getA ky 0 := by
    intro m ky
    simp only [Nodal2.getA, Nodal2.ip, Nodal2.charged, h0]
    rfl
  have hj : IsJacobian (Nodal2.charged o σ₀ C).sigma ((Nodal2.charged o σ₀ C).sigmaD 0) 0 :=
    charged_jac σ₀ C
  exact response_of_sim2 (S := (o.ip σ₀ fun _ => C).sim quad ss fun _ => none)
    (S' := (Nodal2.charged o σ₀ C).sim quad ss fun _ => none) kind
    hA (fun _ _ => rfl) (fun _ _ => rfl) rfl rfl
    (fun k hk => C103_nodal_exact (Nodal2.charged o σ₀ C) k.1 0 hI hj (hdet k hk))
    (fun k _ => C103_nodal_adjoint (Nodal2.charged o σ₀ C) (fun _ => none) k.1 0 hI hS hj)

/-- **C111 (2.5D cell centred).** The 2.5D cell centred simulation is the linear response of the
resistivity simulation with the conductivity `σ₀ (1 - C y)`. -/
theorem C111_cell2 (o : Cell2 p f n) (σ₀ : n → ℝ) (C : Matrix n p ℝ) (quad : List (ℝ × ℝ))
    (ss : List (Src n Empty)) (kind : Rx n Empty → Bool) (hI : Diagonal o.mf)
    (h0 : ∀ i, o.mf.mat ℝ (fun t => 1 / σ₀ t) i i ≠ 0)
    (hB : o.bc ≠ .dirichlet → ∀ k ∈ quad, ∀ i c c', o.B k.1 i c ≠ 0 → o.D c' i ≠ 0 → c' = c)
    (hdet : ∀ k ∈ quad, ((Cell2.charged o σ₀ C).getA k.1 0).det ≠ 0) :
    Response (Sim2.engine ⟨(o.ip σ₀ fun _ => C).form, quad, ss⟩ kind)
      (Sim2.dpred ⟨(Cell2.charged o σ₀ C).form, quad, ss⟩) ∧
    ∀ m m', (Sim2.engine ⟨(o.ip σ₀ fun _ => C).form, quad, ss⟩ kind).jvec m =
      (Sim2.engine ⟨(o.ip σ₀ fun _ => C).form, quad, ss⟩ kind).jvec m' := by
  have e0 : (fun t => σ₀ t * (1 - (C *ᵥ (0 : p → ℝ)) t)) = σ₀ := by funext t; simp
  have e1 : (fun t => 1 / σ₀ t / (1 - (C *ᵥ (0 : p → ℝ)) t)) = fun t => 1 / σ₀ t := by
    funext t; simp
  have hA : ∀ m ky, (o.ip σ₀ fun _ => C).getA ky m = (Cell2.charged o σ₀ C).getA ky 0 := by
    intro m ky
    simp only [Cell2.getA, Cell2.ip, Cell2.charged, e0, e1]
    rfl
  have hd : ∀ m ky, (o.ip σ₀ fun _ => C).aDeriv ky m = (Cell2.charged o σ₀ C).aDeriv ky 0 := by
    intro m ky
    funext u v
    simp only [Cell2.aDeriv, Cell2.ip, Cell2.charged, e1, ipRhoD, ipSigmaD]
    rfl
  have hT : ∀ m ky, (o.ip σ₀ fun _ => C).aDerivT ky m = (Cell2.charged o σ₀ C).aDerivT ky 0 := by
    intro m ky
    funext u v
    simp only [Cell2.aDerivT, Cell2.ip, Cell2.charged, e1, ipRhoD, ipSigmaD]
    rfl
  have hj : IsJacobian (Cell2.charged o σ₀ C).sigma ((Cell2.charged o σ₀ C).sigmaD 0) 0 :=
    charged_jac σ₀ C
  have hr : IsJacobian (Cell2.charged o σ₀ C).rho ((Cell2.charged o σ₀ C).rhoD 0) 0 :=
    charged_rho_jac (fun t => 1 / σ₀ t) C
  have h0' : ∀ i, (Cell2.charged o σ₀ C).mf.mat ℝ ((Cell2.charged o σ₀ C).rho 0) i i ≠ 0 := by
    intro i
    have : (Cell2.charged o σ₀ C).rho 0 = fun t => 1 / σ₀ t := e1
    rw [this]
    exact h0 i
  exact response_of_sim2 (S := ⟨(o.ip σ₀ fun _ => C).form, quad, ss⟩)
    (S' := ⟨(Cell2.charged o σ₀ C).form, quad, ss⟩) kind hA hd hT rfl rfl
    (fun k hk => C103_cell_exact (Cell2.charged o σ₀ C) k.1 0 hI hr hj h0' (hdet k hk))
    (fun k hk => C103_cell_adjoint (Cell2.charged o σ₀ C) k.1 0 hI hr hj h0' fun hb => hB hb k hk)

/-! ### Data and the conductivity of the whole earth -/

theorem mat_smul (I : Inner e s) (c : ℝ) (σ : s → ℝ) : I.mat ℝ (c • σ) = c • I.mat ℝ σ := by
  ext i j
  simp only [Inner.mat, Pi.smul_apply, smul_eq_mul, Matrix.smul_apply, RCLike.ofReal_real_eq_id, id,
    Finset.mul_sum]
  exact Finset.sum_congr rfl fun t _ => by ring

theorem inv_smul_mat {A : Matrix n n ℝ} {c : ℝ} (hc : c ≠ 0) (hA : A.det ≠ 0) :
    (c • A)⁻¹ = c⁻¹ • A⁻¹ := by
  refine Matrix.inv_eq_left_inv ?_
  rw [Matrix.smul_mul, Matrix.mul_smul, smul_smul, inv_mul_cancel₀ hc, one_smul,
    Matrix.nonsing_inv_mul _ (isUnit_iff_ne_zero.2 hA)]

/-- Solutions with a scaled matrix whose first row has been replaced. -/
theorem pin_scale (i0 : n) (B : Matrix n n ℝ) (c : ℝ) (hc : c ≠ 0) (h1 : B *ᵥ (fun _ => 1) = 0)
    (hdet : (pinFirst i0 B).det ≠ 0) (q : n → ℝ) :
    ∃ k : ℝ, (pinFirst i0 (c • B))⁻¹ *ᵥ q = c⁻¹ • ((pinFirst i0 B)⁻¹ *ᵥ q) + fun _ => k := by
  have hinv : (pinFirst i0 (c • B))⁻¹ =
      (pinFirst i0 B)⁻¹ * diagonal (fun i => if i = i0 then 1 else c⁻¹) := by
    refine Matrix.inv_eq_left_inv ?_
    have e : diagonal (fun i => if i = i0 then (1:ℝ) else c⁻¹) * pinFirst i0 (c • B) =
        pinFirst i0 B := by
      ext i j
      rw [Matrix.diagonal_mul]
      by_cases h : i = i0
      · simp [pinFirst, h]
      · simp [pinFirst, h, hc]
    rw [Matrix.mul_assoc, e, Matrix.nonsing_inv_mul _ (isUnit_iff_ne_zero.2 hdet)]
  refine ⟨(1 - c⁻¹) * q i0, ?_⟩
  rw [hinv, ← Matrix.mulVec_mulVec]
  have e2 : diagonal (fun i => if i = i0 then (1:ℝ) else c⁻¹) *ᵥ q =
      c⁻¹ • q + ((1 - c⁻¹) * q i0) • Pi.single i0 1 := by
    funext i
    rw [Matrix.mulVec_diagonal]
    by_cases h : i = i0
    · subst h
      simp
      ring
    · simp [h]
  rw [e2, Matrix.mulVec_add, Matrix.mulVec_smul, Matrix.mulVec_smul, pin_inv_single i0 B h1 hdet]
  congr 1
  funext i
  simp

theorem dpred_scale {S : Sim p n f} {m m' : p → ℝ} (c : ℝ)
    (h : ∀ src ∈ S.sources, ∀ r ∈ src.rx,
      weights r S.F *ᵥ S.solve m' src.q = c • (weights r S.F *ᵥ S.solve m src.q)) :
    S.dpred m' = (S.dpred m).map (c * ·) := by
  unfold Sim.dpred
  rw [List.map_flatMap]
  refine List.flatMap_congr fun src hs => ?_
  rw [List.map_flatMap]
  refine List.flatMap_congr fun r hr => ?_
  rw [eval_weights, eval_weights, h src hs r hr, List.map_ofFn]
  rfl

/-- **C111 (scaling, nodal).** When the conductivity of the whole earth is multiplied by `c`, all data
of the resistivity simulation are divided by `c`. -/
theorem C111_scaling_nodal (o : Nodal p s e n) (ss : List (Src n Empty)) (m m' : p → ℝ) (c : ℝ)
    (hc : c ≠ 0) (hσ : o.sigma m' = c • o.sigma m) (hdet : (o.getA m).det ≠ 0)
    (hN : o.neumann = true → o.G *ᵥ (fun _ => 1) = 0 ∧ ∀ src ∈ ss, ∀ r ∈ src.rx, Differences r) :
    (o.sim ss).dpred m' = ((o.sim ss).dpred m).map (c⁻¹ * ·) := by
  have hB : o.Gᵀ * o.me.mat ℝ (o.sigma m') * o.G = c • (o.Gᵀ * o.me.mat ℝ (o.sigma m) * o.G) := by
    rw [hσ, mat_smul, Matrix.mul_smul, Matrix.smul_mul]
  refine dpred_scale (S := o.sim ss) c⁻¹ fun src hs r hr => ?_
  by_cases hn : o.neumann = true
  · obtain ⟨hG, hdiff⟩ := hN hn
    have hA : o.getA m = pinFirst o.i0 (o.Gᵀ * o.me.mat ℝ (o.sigma m) * o.G) := by
      simp [Nodal.getA, hn]
    have hA' : o.getA m' = pinFirst o.i0 (c • (o.Gᵀ * o.me.mat ℝ (o.sigma m) * o.G)) := by
      simp [Nodal.getA, hn, hB]
    have hbase : (o.Gᵀ * o.me.mat ℝ (o.sigma m) * o.G) *ᵥ (fun _ => 1) = 0 := by
      rw [← Matrix.mulVec_mulVec, hG, Matrix.mulVec_zero]
    obtain ⟨k, hk⟩ := pin_scale o.i0 _ c hc hbase (hA ▸ hdet) src.q
    change weights r _ *ᵥ ((o.getA m')⁻¹ *ᵥ src.q) = c⁻¹ • (weights r _ *ᵥ ((o.getA m)⁻¹ *ᵥ src.q))
    rw [hA', hA, hk, Matrix.mulVec_add, Matrix.mulVec_smul,
      mulVec_const _ (weights_one (hdiff src hs r hr) fun _ => funext fun x => x.elim) k, add_zero]
  · have hA : o.getA m' = c • o.getA m := by
      simp only [Nodal.getA, hn, if_false, Bool.false_eq_true, hB]
      rw [smul_add, hσ, Matrix.mulVec_smul]
      congr 1
      ext i j
      by_cases h : i = j <;> simp [diagonal, h]
    change weights r _ *ᵥ ((o.getA m')⁻¹ *ᵥ src.q) = c⁻¹ • (weights r _ *ᵥ ((o.getA m)⁻¹ *ᵥ src.q))
    rw [hA, inv_smul_mat hc hdet, Matrix.smul_mulVec, Matrix.mulVec_smul]

/-- **C111 (scaling, cell centred).** When the resistivity of the whole earth is divided by `c`, all
data of the resistivity simulation are divided by `c`. -/
theorem C111_scaling_cell (o : Cell p s f n) (ss : List (Src n f)) (m m' : p → ℝ) (c : ℝ)
    (hc : c ≠ 0) (hρ : o.rho m' = c⁻¹ • o.rho m) (hO : CellOps o) (hI : Diagonal o.mf)
    (h0 : ∀ i, o.mf.mat ℝ (o.rho m) i i ≠ 0) (hdet : (o.getA m).det ≠ 0)
    (hN : o.bc = .neumann → ∀ src ∈ ss, ∀ r ∈ src.rx, Differences r) :
    (o.sim ss).dpred m' = ((o.sim ss).dpred m).map (c⁻¹ * ·) := by
  have hmat : (o.mf.mat ℝ (o.rho m)).det ≠ 0 := by
    rw [mat_diagonal hI, Matrix.det_diagonal]
    exact Finset.prod_ne_zero_iff.2 fun i _ => h0 i
  have hB : o.D * (o.mf.mat ℝ (o.rho m'))⁻¹ * o.grad =
      c • (o.D * (o.mf.mat ℝ (o.rho m))⁻¹ * o.grad) := by
    rw [hρ, mat_smul, inv_smul_mat (inv_ne_zero hc) hmat, inv_inv, Matrix.mul_smul, Matrix.smul_mul]
  refine dpred_scale (S := o.sim ss) c⁻¹ fun src hs r hr => ?_
  by_cases hn : o.bc = .neumann
  · have hG := hO.gradOne hn
    have hA : o.getA m = pinFirst o.i0 (o.D * (o.mf.mat ℝ (o.rho m))⁻¹ * o.grad) := by
      simp [Cell.getA, hn]
    have hA' : o.getA m' = pinFirst o.i0 (c • (o.D * (o.mf.mat ℝ (o.rho m))⁻¹ * o.grad)) := by
      simp [Cell.getA, hn, hB]
    have hbase : (o.D * (o.mf.mat ℝ (o.rho m))⁻¹ * o.grad) *ᵥ (fun _ => 1) = 0 := by
      rw [← Matrix.mulVec_mulVec, hG, Matrix.mulVec_zero]
    obtain ⟨k, hk⟩ := pin_scale o.i0 _ c hc hbase (hA ▸ hdet) src.q
    have hW : weights r (o.sim ss).F *ᵥ (fun _ => 1) = 0 := by
      refine weights_one (hN hn src hs r hr) fun _ => ?_
      change (o.mfI * o.grad) *ᵥ (fun _ => 1) = 0
      rw [← Matrix.mulVec_mulVec, hG, Matrix.mulVec_zero]
    change weights r _ *ᵥ ((o.getA m')⁻¹ *ᵥ src.q) = c⁻¹ • (weights r _ *ᵥ ((o.getA m)⁻¹ *ᵥ src.q))
    rw [hA', hA, hk, Matrix.mulVec_add, Matrix.mulVec_smul, mulVec_const _ hW k, add_zero]
  · have hA : o.getA m' = c • o.getA m := by
      simp only [Cell.getA, hn, if_false, hB]
    change weights r _ *ᵥ ((o.getA m')⁻¹ *ᵥ src.q) = c⁻¹ • (weights r _ *ᵥ ((o.getA m)⁻¹ *ᵥ src.q))
    rw [hA, inv_smul_mat hc hdet, Matrix.smul_mulVec, Matrix.mulVec_smul]

theorem dpred2_scale {S : Sim2 p n} {m m' : p → ℝ} (c : ℝ) (hc : c ≠ 0)
    (hA : ∀ k ∈ S.quad, S.form.A k.1 m' = c • S.form.A k.1 m ∧ (S.form.A k.1 m).det ≠ 0) :
    S.dpred m' = (S.dpred m).map (c⁻¹ * ·) := by
  rw [C103_data, C103_data, List.map_flatMap]
  refine List.flatMap_congr fun src _ => ?_
  rw [List.map_flatMap]
  refine List.flatMap_congr fun r _ => ?_
  have hphi : S.phi m' src.q = c⁻¹ • S.phi m src.q := by
    unfold Sim2.phi
    revert hA
    generalize S.quad = l
    intro hA
    induction l with
    | nil => simp
    | cons k l ih =>
      simp only [List.map_cons, List.sum_cons]
      rw [ih fun k' hk' => hA k' (by simp [hk'])]
      obtain ⟨h1, h2⟩ := hA k (by simp)
      simp only [Sim2.solve]
      rw [h1, inv_smul_mat hc h2, Matrix.smul_mulVec, smul_add, smul_comm]
  rw [hphi, eval_weights, eval_weights, Matrix.mulVec_smul, List.map_ofFn]
  rfl

/-- **C111 (scaling, 2.5D nodal).** -/
theorem C111_scaling_nodal2 (o : Nodal2 p s e n) (quad : List (ℝ × ℝ)) (ss : List (Src n Empty))
    (b : BCache p n) (m m' : p → ℝ) (c : ℝ) (hc : c ≠ 0) (hσ : o.sigma m' = c • o.sigma m)
    (hdet : ∀ k ∈ quad, (o.getA k.1 m).det ≠ 0) :
    (o.sim quad ss b).dpred m' = ((o.sim quad ss b).dpred m).map (c⁻¹ * ·) := by
  refine dpred2_scale (S := o.sim quad ss b) c hc fun k hk => ⟨?_, hdet k hk⟩
  change o.getA k.1 m' = c • o.getA k.1 m
  have hB : o.Gᵀ * o.me.mat ℝ (o.sigma m') * o.G + k.1 ^ 2 • o.mn.mat ℝ (o.sigma m') =
      c • (o.Gᵀ * o.me.mat ℝ (o.sigma m) * o.G + k.1 ^ 2 • o.mn.mat ℝ (o.sigma m)) := by
    rw [hσ, mat_smul, mat_smul, Matrix.mul_smul, Matrix.smul_mul, smul_add, smul_comm c (k.1 ^ 2)]
  unfold Nodal2.getA
  by_cases hn : o.neumann = true
  · simp only [hn, if_true, hB]
  · simp only [hn, if_false, Bool.false_eq_true, hB]
    rw [hσ, Matrix.mulVec_smul, smul_add c (o.Gᵀ * o.me.mat ℝ (o.sigma m) * o.G + _)]
    congr 1
    ext i j
    by_cases h : i = j <;> simp [diagonal, h]

/-- **C111 (scaling, 2.5D cell centred).**  Not for the Neumann condition, where one is added to an
entry of a matrix which is proportional to the conductivity (`C111_violated_scaling`). -/
theorem C111_scaling_cell2_partial (o : Cell2 p f n) (quad : List (ℝ × ℝ)) (ss : List (Src n Empty))
    (m m' : p → ℝ) (c : ℝ) (hc : c ≠ 0) (hσ : o.sigma m' = c • o.sigma m)
    (hρ : o.rho m' = c⁻¹ • o.rho m) (hI : Diagonal o.mf)
    (h0 : ∀ i, o.mf.mat ℝ (o.rho m) i i ≠ 0) (hb : o.bc ≠ .neumann)
    (hdet : ∀ k ∈ quad, (o.getA k.1 m).det ≠ 0) :
    Sim2.dpred ⟨o.form, quad, ss⟩ m' = (Sim2.dpred ⟨o.form, quad, ss⟩ m).map (c⁻¹ * ·) := by
  refine dpred2_scale (S := ⟨o.form, quad, ss⟩) c hc fun k hk => ⟨?_, hdet k hk⟩
  change o.getA k.1 m' = c • o.getA k.1 m
  have hmat : (o.mf.mat ℝ (o.rho m)).det ≠ 0 := by
    rw [mat_diagonal hI, Matrix.det_diagonal]
    exact Finset.prod_ne_zero_iff.2 fun i _ => h0 i
  simp only [Cell2.getA, hb, if_false]
  rw [hσ, hρ, mat_smul, mat_smul, inv_smul_mat (inv_ne_zero hc) hmat, inv_inv, Matrix.mul_smul,
    Matrix.smul_mul, smul_add, smul_comm c (k.1 ^ 2)]

/-- **C111 (uniform earth, nodal).** The apparent chargeability of an earth with the chargeability
`c` everywhere is `c`, whatever the conductivity, the geometry and the boundary condition. -/
theorem C111_uniform_nodal (o : Nodal p s e n) (σ₀ : s → ℝ) (C : Matrix s p ℝ)
    (ss : List (Src n Empty)) (kind : Rx n Empty → Bool) (hI : o.fast = true → Diagonal o.me)
    (hS : Symmetric o.me) (hdet : ((Nodal.charged o σ₀ C).getA 0).det ≠ 0)
    (hN : o.neumann = true → o.G *ᵥ (fun _ => 1) = 0 ∧ ∀ src ∈ ss, ∀ r ∈ src.rx, Differences r)
    (m : p → ℝ) (c : ℝ) (hm : C *ᵥ m = fun _ => c)
    (hd : ∀ b ∈ (((o.ip σ₀ fun _ => C).sim ss).engine kind).blocks, b.1 = true → ∀ d ∈ b.2, d ≠ 0) :
    (((o.ip σ₀ fun _ => C).sim ss).engine kind).forward m =
      (((o.ip σ₀ fun _ => C).sim ss).engine kind).blocks.flatMap fun b =>
        b.2.map fun d => if b.1 then c else c * d := by
  refine C111_uniform (C111_nodal o σ₀ C ss kind hI hS hdet hN).1 m c (fun t ht => ?_) hd
  refine C111_scaling_nodal (Nodal.charged o σ₀ C) ss 0 (t • m) (1 - t * c) ht ?_ hdet hN
  funext i
  simp only [Nodal.charged, Matrix.mulVec_smul, hm, Matrix.mulVec_zero, Pi.smul_apply, smul_eq_mul,
    Pi.zero_apply]
  ring

/-- **C111 (uniform earth, cell centred).** -/
theorem C111_uniform_cell (o : Cell p s f n) (ρ₀ : s → ℝ) (C : Matrix s p ℝ) (ss : List (Src n f))
    (kind : Rx n f → Bool) (hO : CellOps o) (hI : Diagonal o.mf)
    (h0 : ∀ i, o.mf.mat ℝ ρ₀ i i ≠ 0) (hdet : ((Cell.charged o ρ₀ C).getA 0).det ≠ 0)
    (hN : o.bc = .neumann → ∀ src ∈ ss, ∀ r ∈ src.rx, Differences r)
    (m : p → ℝ) (c : ℝ) (hm : C *ᵥ m = fun _ => c)
    (hd : ∀ b ∈ (((o.ip ρ₀ fun _ => C).sim ss).engine kind).blocks, b.1 = true → ∀ d ∈ b.2, d ≠ 0) :
    (((o.ip ρ₀ fun _ => C).sim ss).engine kind).forward m =
      (((o.ip ρ₀ fun _ => C).sim ss).engine kind).blocks.flatMap fun b =>
        b.2.map fun d => if b.1 then c else c * d := by
  refine C111_uniform (C111_cell o ρ₀ C ss kind hO hI h0 hdet hN).1 m c (fun t ht => ?_) hd
  have hr : (Cell.charged o ρ₀ C).rho 0 = ρ₀ := by funext t; simp [Cell.charged]
  refine C111_scaling_cell (Cell.charged o ρ₀ C) ss 0 (t • m) (1 - t * c) ht ?_
    ⟨hO.locality, hO.gradOne, hO.interior⟩ hI (by rw [hr]; exact h0) hdet hN
  rw [hr]
  funext i
  simp only [Cell.charged, Matrix.mulVec_smul, hm, Pi.smul_apply, smul_eq_mul]
  rw [div_eq_inv_mul]

/-- **C111 (uniform earth, 2.5D nodal).** -/
theorem C111_uniform_nodal2 (o : Nodal2 p s e n) (σ₀ : s → ℝ) (C : Matrix s p ℝ)
    (quad : List (ℝ × ℝ)) (ss : List (Src n Empty)) (kind : Rx n Empty → Bool)
    (hI : o.fast = true → Diagonal o.me) (hS : Symmetric o.me)
    (hdet : ∀ k ∈ quad, ((Nodal2.charged o σ₀ C).getA k.1 0).det ≠ 0)
    (m : p → ℝ) (c : ℝ) (hm : C *ᵥ m = fun _ => c)
    (hd : ∀ b ∈ (((o.ip σ₀ fun _ => C).sim quad ss fun _ => none).engine kind).blocks,
      b.1 = true → ∀ d ∈ b.2, d ≠ 0) :
    (((o.ip σ₀ fun _ => C).sim quad ss fun _ => none).engine kind).forward m =
      (((o.ip σ₀ fun _ => C).sim quad ss fun _ => none).engine kind).blocks.flatMap fun b =>
        b.2.map fun d => if b.1 then c else c * d := by
  refine C111_uniform (C111_nodal2 o σ₀ C quad ss kind hI hS hdet).1 m c (fun t ht => ?_) hd
  refine C111_scaling_nodal2 (Nodal2.charged o σ₀ C) quad ss _ 0 (t • m) (1 - t * c) ht ?_ hdet
  funext i
  simp only [Nodal2.charged, Matrix.mulVec_smul, hm, Matrix.mulVec_zero, Pi.smul_apply, smul_eq_mul,
    Pi.zero_apply]
  ring

/-- **C111 (uniform earth, 2.5D cell centred).**  Not for the Neumann condition. -/
theorem C111_uniform_cell2_partial (o : Cell2 p f n) (σ₀ : n → ℝ) (C : Matrix n p ℝ)
    (quad : List (ℝ × ℝ)) (ss : List (Src n Empty)) (kind : Rx n Empty → Bool) (hI : Diagonal o.mf)
    (h0 : ∀ i, o.mf.mat ℝ (fun t => 1 / σ₀ t) i i ≠ 0) (hb : o.bc ≠ .neumann)
    (hB : o.bc ≠ .dirichlet → ∀ k ∈ quad, ∀ i c c', o.B k.1 i c ≠ 0 → o.D c' i ≠ 0 → c' = c)
    (hdet : ∀ k ∈ quad, ((Cell2.charged o σ₀ C).getA k.1 0).det ≠ 0)
    (m : p → ℝ) (c : ℝ) (hm : C *ᵥ m = fun _ => c)
    (hd : ∀ b ∈ (Sim2.engine ⟨(o.ip σ₀ fun _ => C).form, quad, ss⟩ kind).blocks,
      b.1 = true → ∀ d ∈ b.2, d ≠ 0) :
    (Sim2.engine ⟨(o.ip σ₀ fun _ => C).form, quad, ss⟩ kind).forward m =
      (Sim2.engine ⟨(o.ip σ₀ fun _ => C).form, quad, ss⟩ kind).blocks.flatMap fun b =>
        b.2.map fun d => if b.1 then c else c * d := by
  refine C111_uniform (C111_cell2 o σ₀ C quad ss kind hI h0 hB hdet).1 m c (fun t ht => ?_) hd
  have hr : (Cell2.charged o σ₀ C).rho 0 = fun t => 1 / σ₀ t := by funext t; simp [Cell2.charged]
  refine C111_scaling_cell2_partial (Cell2.charged o σ₀ C) quad ss 0 (t • m) (1 - t * c) ht ?_ ?_ hI
    (by rw [hr]; exact h0) hb hdet
  · funext i
    simp only [Cell2.charged, Matrix.mulVec_smul, hm, Matrix.mulVec_zero, Pi.smul_apply,
      smul_eq_mul, Pi.zero_apply]
    ring
  · rw [hr]
    funext i
    simp only [Cell2.charged, Matrix.mulVec_smul, hm, Pi.smul_apply, smul_eq_mul]
    rw [div_eq_inv_mul]

/-! ### A concrete earth -/

/-- The 2.5D nodal simulation of one node with conductivity one and a receiver of the apparent
chargeability. -/
def exIP (etaD : (Fin 1 → ℝ) → Matrix (Fin 1) (Fin 1) ℝ) : Engine (Fin 1) :=
  ((exNodal2.ip (fun _ => 1) etaD).sim [(1, 1)] [exSrc2] fun _ => none).engine fun _ => true

theorem exIP_det (C : Matrix (Fin 1) (Fin 1) ℝ) (k : ℝ × ℝ) :
    ((Nodal2.charged exNodal2 (fun _ => 1) C).getA k.1 0).det ≠ 0 := by
  have e : (Nodal2.charged exNodal2 (fun _ => 1) C).getA k.1 0 = exNodal2.getA k.1 0 := by
    simp only [Nodal2.getA, Nodal2.charged, exNodal2]
    simp [Nodal2.mn]
  rw [e]
  exact exNodal2_det k.1 0

theorem exIP_blocks (etaD : (Fin 1 → ℝ) → Matrix (Fin 1) (Fin 1) ℝ) :
    (exIP etaD).blocks = [(true, [1 / 2])] := by
  have h : (exIP etaD).blocks = [(true, [((1 : Matrix (Fin 1) (Fin 1) ℝ) *ᵥ
      (((1:ℝ) • ((exNodal2.ip (fun _ => 1) etaD).getA 1 0)⁻¹ *ᵥ fun _ => (1:ℝ)) + 0)) 0])] := rfl
  have e : (exNodal2.ip (fun _ => 1) etaD).getA 1 0 = exNodal2.getA 1 0 := by
    simp only [Nodal2.getA, Nodal2.ip, exNodal2]
    simp [Nodal2.mn]
  rw [h, e, exNodal2_inv]
  simp [Matrix.mulVec, dotProduct]

theorem exIP_forward (etaD : (Fin 1 → ℝ) → Matrix (Fin 1) (Fin 1) ℝ) (m : Fin 1 → ℝ) :
    (exIP etaD).forward m = [etaD m 0 0 * m 0] := by
  have hI : exNodal2.fast = true → Diagonal exNodal2.me :=
    fun _ i j _ h => absurd (Subsingleton.elim i j) h
  have h := C111_uniform_nodal2 exNodal2 (fun _ => 1) (etaD m) [(1, 1)] [exSrc2] (fun _ => true) hI
    (diagonal_symmetric (hI rfl)) (fun k _ => exIP_det (etaD m) k) m (etaD m 0 0 * m 0)
    (by funext i; fin_cases i; simp [Matrix.mulVec, dotProduct])
    (by
      intro b hb _ d hd
      have hb' : b ∈ (exIP fun _ => etaD m).blocks := hb
      rw [exIP_blocks] at hb'
      simp only [List.mem_singleton] at hb'
      subst hb'
      simp only [List.mem_singleton] at hd
      subst hd
      norm_num)
  have e : (exIP etaD).forward m = (exIP fun _ => etaD m).forward m := by
    have e1 : (exIP etaD).scale = (exIP fun _ => etaD m).scale := by
      simp only [Engine.scale, exIP_blocks]
    have e2 : (exIP etaD).jvec m = (exIP fun _ => etaD m).jvec m :=
      (sim2_congr (S := (exNodal2.ip (fun _ => 1) etaD).sim [(1, 1)] [exSrc2] fun _ => none)
        (S' := (exNodal2.ip (fun _ => 1) fun _ => etaD m).sim [(1, 1)] [exSrc2] fun _ => none)
        (m := m) (m' := m) (fun _ => rfl) (fun _ => rfl) (fun _ => rfl) rfl rfl).2.1
    unfold Engine.forward Engine.Jvec
    rw [e1, e2]
  rw [e]
  have h' : (exIP fun _ => etaD m).forward m = (exIP fun _ => etaD m).blocks.flatMap fun b =>
      b.2.map fun d => if b.1 then etaD m 0 0 * m 0 else etaD m 0 0 * m 0 * d := h
  rw [h', exIP_blocks]
  simp

/-- Non-vacuity: with the identity map the apparent chargeability is the chargeability, and the
sensitivity is one. -/
example (x : ℝ) : (exIP fun _ => 1).forward (fun _ => x) = [x] ∧
    ListDeriv (exIP fun _ => 1).forward ((exIP fun _ => 1).Jvec fun _ => x) (fun _ => x) := by
  have hI : exNodal2.fast = true → Diagonal exNodal2.me :=
    fun _ i j _ h => absurd (Subsingleton.elim i j) h
  have h := C111_nodal2 exNodal2 (fun _ => 1) 1 [(1, 1)] [exSrc2] (fun _ => true) hI
    (diagonal_symmetric (hI rfl)) (fun k _ => exIP_det 1 k)
  refine ⟨by rw [exIP_forward]; simp, ?_⟩
  exact C111_sensitivity (E := exIP fun _ => 1) h.1 h.2 (fun _ => x)

/-- **C111, violated for maps which are not linear.** With the exponential chargeability map the model
zero means the chargeability one, but the predicted apparent chargeability is zero, and one for the
identity map and the same chargeability: the derivative of the map times the model is used instead of
the chargeability. -/
theorem C111_violated_map : ∃ (eta : (Fin 1 → ℝ) → Fin 1 → ℝ)
    (etaD : (Fin 1 → ℝ) → Matrix (Fin 1) (Fin 1) ℝ),
    (∀ m, IsJacobian eta (etaD m) m) ∧ eta 0 = (fun _ => 1) ∧ (exIP etaD).forward 0 = [0] ∧
    (exIP fun _ => 1).forward (fun _ => 1) = [1] := by
  refine ⟨exNodal2.sigma, exNodal2.sigmaD, exNodal2_sigma, ?_, ?_, ?_⟩
  · funext i; simp [exNodal2]
  · rw [exIP_forward]; simp
  · rw [exIP_forward]; simp

/-- **C111, violated for the sensitivities of such maps.** With the exponential map `Jvec` is not the
derivative of the predicted data: at the model one the prediction is `m exp m`, whose derivative is
`2 e`, while `Jvec` of the unit vector is `e`. -/
theorem C111_violated_jvec : ∃ etaD : (Fin 1 → ℝ) → Matrix (Fin 1) (Fin 1) ℝ,
    (∀ m, IsJacobian exNodal2.sigma (etaD m) m) ∧
    (exIP etaD).Jvec (fun _ => 1) (fun _ => 1) = [Real.exp 1] ∧
    HasDerivAt (fun t => ((exIP etaD).forward fun _ => t).getD 0 0) (2 * Real.exp 1) 1 := by
  refine ⟨exNodal2.sigmaD, exNodal2_sigma, ?_, ?_⟩
  · have h : (exIP exNodal2.sigmaD).Jvec (fun _ => 1) (fun _ => 1) =
        (exIP exNodal2.sigmaD).forward (fun _ => 1) := rfl
    rw [h, exIP_forward]
    simp [exNodal2]
  · have e : (fun t => ((exIP exNodal2.sigmaD).forward fun _ => t).getD 0 0) =
        fun t => Real.exp t * t := by
      funext t
      rw [exIP_forward]
      simp [exNodal2]
    rw [e]
    have := (Real.hasDerivAt_exp 1).mul (hasDerivAt_id (1:ℝ))
    refine this.congr_deriv ?_
    simp
    ring

/-- One cell with the Neumann condition and conductivity `m`. -/
def exNeu : Cell2 (Fin 1) (Fin 1) (Fin 1) :=
  { D := 0, B := fun _ => 0, mf := ⟨fun _ _ _ => 1⟩, fast := true, vol := fun _ => 1, bc := .neumann,
    i0 := 0, rho := fun m i => 1 / m i, rhoD := fun _ => 0, sigma := fun m => m, sigmaD := fun _ => 1 }

/-- **C111, violated for the 2.5D cell centred simulation with the Neumann condition.** Doubling the
conductivity of the earth turns the potential `1/2` into `1/3`: one has been added to the first entry
of the system matrix. -/
theorem C111_violated_scaling :
    Sim2.dpred ⟨exNeu.form, [(1, 1)], [exSrc2]⟩ (fun _ => 1) = [1 / 2] ∧
    Sim2.dpred ⟨exNeu.form, [(1, 1)], [exSrc2]⟩ (fun _ => 2) = [1 / 3] := by
  have hA : ∀ x : ℝ, exNeu.getA 1 (fun _ => x) = diagonal fun _ => x + 1 := by
    intro x
    ext i j
    fin_cases i; fin_cases j
    simp [exNeu, Cell2.getA, Cell2.mcc, nodeInner, Inner.mat]
  have hi : ∀ x : ℝ, 0 < x → (exNeu.getA 1 (fun _ => x))⁻¹ = diagonal fun _ => (x + 1)⁻¹ := by
    intro x hx
    refine Matrix.inv_eq_left_inv ?_
    rw [hA]
    ext i j
    fin_cases i; fin_cases j
    have : x + 1 ≠ 0 := by positivity
    simp [this]
  have h : ∀ x : ℝ, Sim2.dpred ⟨exNeu.form, [(1, 1)], [exSrc2]⟩ (fun _ => x) =
      [((1 : Matrix (Fin 1) (Fin 1) ℝ) *ᵥ ((exNeu.getA 1 fun _ => x)⁻¹ *ᵥ fun _ => 1)) 0 * 1 + 0] :=
    fun x => rfl
  rw [h, h, hi 1 (by norm_num), hi 2 (by norm_num)]
  constructor <;> simp [Matrix.mulVec, dotProduct] <;> norm_num

/-- Non-vacuity of `C111_scaling_nodal`: twice the conductivity, half the data. -/
example (ss : List (Src (Fin 2) Empty)) :
    (exNodal.sim ss).dpred ![2] = ((exNodal.sim ss).dpred ![1]).map ((2:ℝ)⁻¹ * ·) := by
  refine C111_scaling_nodal exNodal ss ![1] ![2] 2 (by norm_num) ?_ ?_ (fun h => by cases h)
  · funext i; fin_cases i; simp [exNodal]
  · rw [exNodal_A]; norm_num [Matrix.det_fin_two]

/-- Non-vacuity of `C111_nodal` and `C111_uniform_nodal`: the linear response of the two node earth. -/
example (ss : List (Src (Fin 2) Empty)) (x : ℝ) :
    (((exNodal.ip (fun _ => 1) fun _ => 1).sim ss).engine fun _ => false).forward (fun _ => x) =
      (((exNodal.ip (fun _ => 1) fun _ => 1).sim ss).engine fun _ => false).blocks.flatMap fun b =>
        b.2.map fun d => if b.1 then x else x * d := by
  have hI : Diagonal exNodal.me := fun i j _ h => absurd (Subsingleton.elim (α := Fin 1) i j) h
  refine C111_uniform_nodal exNodal (fun _ => 1) 1 ss (fun _ => false) (fun _ => hI)
    (diagonal_symmetric hI) ?_ (fun h => by cases h) (fun _ => x) x (by simp) ?_
  · have e : (Nodal.charged exNodal (fun _ => 1) 1).getA 0 = exNodal.getA ![1] := by
      have : (fun _ => 1 : Fin 1 → ℝ) = ![1] := by funext i; fin_cases i; rfl
      simp only [Nodal.getA, Nodal.charged, exNodal]
      simp [this]
    rw [e, exNodal_A]
    norm_num [Matrix.det_fin_two]
  · intro b hb h
    simp only [Sim.engine, List.mem_flatMap, List.mem_map] at hb
    obtain ⟨src, _, r, _, rfl⟩ := hb
    cases h

/-- Non-vacuity of `C111_cell` and `C111_scaling_cell`: the two cell earth with the Neumann condition
and differences of potentials. -/
example : Response ((((exCell .neumann).ip ![1] fun _ => 1).sim [exSrc !![1, -1]]).engine fun _ => true)
      ((Cell.charged (exCell .neumann) ![1] 1).sim [exSrc !![1, -1]]).dpred ∧
    (exSim !![1, -1]).dpred ![1] = ((exSim !![1, -1]).dpred ![2]).map ((2:ℝ)⁻¹ * ·) := by
  have hdiff : ∀ src ∈ [exSrc !![1, -1]], ∀ r ∈ src.rx, Differences r := by
    intro src hs r hr
    simp only [List.mem_singleton] at hs
    subst hs
    simp only [exSrc, List.mem_singleton] at hr
    subst hr
    intro _
    funext i
    fin_cases i
    simp [exRx, Matrix.mulVec, dotProduct, Fin.sum_univ_two]
  have hdet : ∀ x : ℝ, x ≠ 0 → ((exCell .neumann).getA ![x]).det ≠ 0 := by
    intro x hx
    rw [ex_A _ (by simpa using hx)]
    simp [Matrix.det_fin_two, hx]
  have e : (Cell.charged (exCell .neumann) ![1] 1).getA 0 = (exCell .neumann).getA ![1] := by
    simp only [Cell.getA, Cell.charged, exCell]
    simp [Cell.grad]
    rfl
  have hm : ∀ x : ℝ, x ≠ 0 → ∀ i, (exCell .neumann).mf.mat ℝ ![x] i i ≠ 0 := by
    intro x hx i
    rw [ex_mat]
    fin_cases i
    simpa using hx
  refine ⟨(C111_cell (exCell .neumann) ![1] 1 [exSrc !![1, -1]] (fun _ => true) ex_ops ex_diag
    (hm 1 one_ne_zero) (by rw [e]; exact hdet 1 one_ne_zero) fun _ => hdiff).1, ?_⟩
  refine C111_scaling_cell (exCell .neumann) [exSrc !![1, -1]] ![2] ![1] 2 two_ne_zero ?_ ex_ops
    ex_diag (hm 2 two_ne_zero) (hdet 2 two_ne_zero) fun _ => hdiff
  funext i; fin_cases i; simp [exCell]

end

end Verif.DC.Props
