import Verif.Basic
import Mathlib.Analysis.SpecialFunctions.Pow.NNReal
import Mathlib.Algebra.BigOperators.Fin
import Mathlib.Algebra.BigOperators.Ring.Finset
import Mathlib.Tactic.Linarith
import Mathlib.Tactic.NormNum
import Mathlib.Tactic.Ring
import Mathlib.Tactic.FinCases

/-!
C186: sensitivities and diagonals of `J.T W.T W J` with dask (`simpeg/dask/potential_fields/gravity/simulation.py` 6-22,
`simpeg/dask/potential_fields/magnetics/simulation.py` 6-33, `simpeg/dask/electromagnetics/static/resistivity/simulation.py`
13-128, `simpeg/dask/electromagnetics/static/induced_polarization/simulation.py` 8-24).

The matrices, the derivatives of the maps and the sensitivities are parameters; what is kept between calls is modelled.
-/

namespace Verif.DC.DaskDiag
open Verif

variable {d n p : ℕ} {M : Type}

/-! ### Potential fields -/

/-- `((W[:, None] * J) ** 2).sum(axis=0)` (`gravity/simulation.py` 18, `magnetics/simulation.py` 19, 27). -/
def gtg (w : Fin d → ℝ) (J : Fin d → Fin n → ℝ) : Fin n → ℝ := fun i => ∑ k, (w k * J k i) ^ 2

/-- `ampDeriv[0, :, None] * G[::3] + ampDeriv[1, :, None] * G[1::3] + ampDeriv[2, :, None] * G[2::3]`
(`magnetics/simulation.py` 22-26), `G` by the number of the row. -/
def ampJ (amp : Fin 3 → Fin d → ℝ) (G : ℕ → Fin n → ℝ) : Fin d → Fin n → ℝ := fun k i =>
  amp 0 k * G (3 * k) i + amp 1 k * G (3 * k + 1) i + amp 2 k * G (3 * k + 2) i

/-- `mkvc((sdiag(np.sqrt(diag)) @ deriv).power(2).sum(axis=0))` (`gravity/simulation.py` 22, `magnetics/simulation.py`
33). -/
noncomputable def mapped (diag : Fin n → ℝ) (deriv : Fin n → Fin p → ℝ) : Fin p → ℝ := fun j =>
  ∑ i, (Real.sqrt (diag i) * deriv i j) ^ 2

/-- What a magnetic or gravity simulation is made of: the matrix by rows, the derivative of the amplitudes, the
derivative of the map, and the test of the setter of `model` for an unchanged model (`simpeg/props.py` 456-474). -/
structure Sim (M : Type) (d n p : ℕ) where
  isAmplitude : Bool
  G : ℕ → Fin n → ℝ
  ampDeriv : M → Fin 3 → Fin d → ℝ
  deriv : M → Fin n → Fin p → ℝ
  same : M → M → Bool

/-- What is remembered. -/
structure St (M : Type) (n : ℕ) where
  model : Option M
  /-- `_gtg_diagonal` -/
  diag : Option (Fin n → ℝ)

/-- `self.model = m`: the diagonal is deleted for amplitude data if the model changed
(`simpeg/potential_fields/magnetics/simulation.py` 822-827). -/
def Sim.assign (s : Sim M d n p) (σ : St M n) (m : M) : St M n :=
  let unchanged := match σ.model with
    | none => false
    | some m' => s.same m' m;
  if unchanged = false ∧ s.isAmplitude = true then ⟨some m, none⟩ else ⟨some m, σ.diag⟩

/-- The sensitivities with respect to the values of the cells. -/
def Sim.J (s : Sim M d n p) (m : M) : Fin d → Fin n → ℝ :=
  if s.isAmplitude then ampJ (s.ampDeriv m) s.G else fun k => s.G k

/-- The diagonal of `W`, all ones if there is none (`magnetics/simulation.py` 13-16). -/
def weights : Option (Fin d → ℝ) → Fin d → ℝ
  | none => fun _ => 1
  | some w => w

/-- `dask_getJtJdiag` of the magnetics (6-33): a diagonal which is remembered is used. -/
noncomputable def Sim.getDiag (s : Sim M d n p) (σ : St M n) (m : M) (W : Option (Fin d → ℝ)) :
    St M n × (Fin p → ℝ) :=
  let σ := s.assign σ m
  let w := weights W
  match σ.diag with
  | none => (⟨σ.model, some (gtg w (s.J m))⟩, mapped (gtg w (s.J m)) (s.deriv m))
  | some dg => (σ, mapped dg (s.deriv m))

/-- `dask_getJtJdiag` of the gravity (6-22): the simulation has no attribute `nD` (13-14), which the one of the magnetics
defines (`simpeg/potential_fields/magnetics/simulation.py` 281-287). -/
noncomputable def gravityDiag (s : Sim M d n p) (σ : St M n) (m : M) (W : Option (Fin d → ℝ)) :
    Except Err (St M n × (Fin p → ℝ)) :=
  match W with
  | none => .error .attributeError
  | some w => .ok (s.getDiag σ m (some w))

/-- A sequence of calls. -/
noncomputable def runs (s : Sim M d n p) : St M n → List (M × Option (Fin d → ℝ)) → List (Fin p → ℝ)
  | _, [] => []
  | σ, (m, W) :: l => (s.getDiag σ m W).2 :: runs s (s.getDiag σ m W).1 l

/-! ### Resistivity and induced polarization -/

/-- `da.sum((w * J) ** 2, axis=0)` (resistivity 120-124), all ones for no weights. -/
def daskDC (W : Option (Fin d → ℝ)) (J : Fin d → Fin n → ℝ) : Fin n → ℝ :=
  match W with
  | none => fun i => ∑ k, J k i ^ 2
  | some w => fun i => ∑ k, (w k * J k i) ^ 2

/-- The loop without dask (`simpeg/electromagnetics/static/resistivity/simulation.py` 144-152). -/
def serialDC (W : Option (Fin d → ℝ)) (J : Fin d → Fin n → ℝ) : Fin n → ℝ :=
  let w := match W with
    | none => fun _ => 1
    | some w => fun k => w k ^ 2
  fun i => ((List.finRange d).map fun k => w k * (J k i * J k i)).foldl (· + ·) 0

/-- `da.einsum("i,ij,ij->j", W**2, J, J)` with the scale (induced polarization 15-20). -/
def daskIP (scale : Fin d → ℝ) (W : Option (Fin d → ℝ)) (J : Fin d → Fin n → ℝ) : Fin n → ℝ :=
  let w := match W with
    | none => scale
    | some w => fun k => scale k * w k
  fun i => ∑ k, w k ^ 2 * J k i * J k i

/-- `np.einsum("i,ij,ij->j", W, J, J)` without dask
(`simpeg/electromagnetics/static/induced_polarization/simulation.py` 115-125). -/
def serialIP (scale : Fin d → ℝ) (W : Option (Fin d → ℝ)) (J : Fin d → Fin n → ℝ) : Fin n → ℝ :=
  let w := match W with
    | none => fun k => scale k ^ 2
    | some w => fun k => (scale k * w k) ^ 2
  fun i => ∑ k, w k * J k i * J k i

/-- What a resistivity simulation remembers: the model and `_Jmatrix`. -/
structure DSt (M A : Type) where
  model : Option M
  J : Option A

/-- `self.model = m`, which deletes `_Jmatrix` if the model changed
(`simpeg/electromagnetics/static/resistivity/simulation.py` 291-294). -/
def DSt.assign {A : Type} (same : M → M → Bool) (σ : DSt M A) (m : M) : DSt M A :=
  match σ.model with
  | none => ⟨some m, none⟩
  | some m' => if same m' m then ⟨some m, σ.J⟩ else ⟨some m, none⟩

/-- `dask_getJ` (13-110): a remembered matrix is returned whatever `m` is; otherwise the fields are computed, which
assigns the model, or those given (by the model `f` they belong to) are used with the model of the simulation. `jac a b`
are the sensitivities computed with the model `a` from the fields of the model `b`. -/
def daskGetJ {A : Type} (same : M → M → Bool) (jac : M → M → A) (σ : DSt M A) (m : M) (f : Option M) :
    Except Err (DSt M A × A) :=
  match σ.J with
  | some J => .ok (σ, J)
  | none => match f with
    | none => .ok (⟨(σ.assign same m).model, some (jac m m)⟩, jac m m)
    | some b => match σ.model with
      | none => .error .attributeError
      | some a => .ok (⟨some a, some (jac a b)⟩, jac a b)

/-- `getJ` without dask (`simpeg/electromagnetics/static/resistivity/simulation.py` 115-121). -/
def serialGetJ {A : Type} (same : M → M → Bool) (jac : M → M → A) (σ : DSt M A) (m : M) (f : Option M) :
    DSt M A × A :=
  let σ := σ.assign same m
  match σ.J with
  | some J => (σ, J)
  | none => (⟨some m, some (jac m (f.getD m))⟩, jac m (f.getD m))

/-- `int(np.ceil(a / b))` -/
def ceilDiv (a b : ℕ) : ℕ := (a + b - 1) / b

/-- The blocks of columns of a receiver (52-61, 87): `df_duT[:, ind : ind + n_col]` for the multiples `ind` of `n_col`. -/
def blocks {α : Type} (nBlock : ℕ) (cols : List α) : List (List α) :=
  (List.range nBlock).map fun i =>
    (cols.drop (i * ceilDiv cols.length nBlock)).take (ceilDiv cols.length nBlock)

/-- The number of columns declared for a block (67-83). -/
def declared {α : Type} (nBlock : ℕ) (cols : List α) : ℕ := ceilDiv cols.length nBlock

/-! ### Specification -/

/-- The diagonal of `(W J D).T (W J D)`. -/
def trueDiag (w : Fin d → ℝ) (J : Fin d → Fin n → ℝ) (D : Fin n → Fin p → ℝ) : Fin p → ℝ := fun j =>
  ∑ k, (w k * ∑ i, J k i * D i j) ^ 2

/-- Every parameter changes at most one cell. -/
def OneCell (D : Fin n → Fin p → ℝ) : Prop := ∀ i i' j, D i j ≠ 0 → D i' j ≠ 0 → i = i'

namespace Props

theorem mapped_gtg (w : Fin d → ℝ) (J : Fin d → Fin n → ℝ) (D : Fin n → Fin p → ℝ) (j : Fin p) :
    mapped (gtg w J) D j = ∑ i, ∑ k, (w k * (J k i * D i j)) ^ 2 := by
  unfold mapped
  refine Finset.sum_congr rfl fun i _ => ?_
  rw [mul_pow, Real.sq_sqrt (by unfold gtg; exact Finset.sum_nonneg fun k _ => sq_nonneg _)]
  unfold gtg
  rw [Finset.sum_mul]
  exact Finset.sum_congr rfl fun k _ => by ring

theorem mapped_true (w : Fin d → ℝ) (J : Fin d → Fin n → ℝ) {D : Fin n → Fin p → ℝ} (h : OneCell D) :
    mapped (gtg w J) D = trueDiag w J D := by
  funext j
  rw [mapped_gtg, Finset.sum_comm]
  unfold trueDiag
  refine Finset.sum_congr rfl fun k _ => ?_
  by_cases h0 : ∃ i, D i j ≠ 0
  · obtain ⟨i, hi⟩ := h0
    have hz : ∀ i', i' ≠ i → D i' j = 0 := fun i' hne => by
      by_contra hc; exact hne (h i' i j hc hi)
    rw [Finset.sum_eq_single i, Finset.sum_eq_single i]
    · intro b _ hb; rw [hz b hb, mul_zero]
    · intro hc; exact absurd (Finset.mem_univ _) hc
    · intro b _ hb; rw [hz b hb]; ring
    · intro hc; exact absurd (Finset.mem_univ _) hc
  · have hz : ∀ i, D i j = 0 := fun i => by by_contra hc; exact h0 ⟨i, hc⟩
    rw [Finset.sum_eq_zero fun i _ => by rw [hz i]; ring, Finset.sum_eq_zero fun i _ => by rw [hz i]; ring]
    ring

/-- **C186, first call**: a simulation which remembers nothing gives the diagonal of `(W J D).T (W J D)`, if every
parameter changes at most one cell; `J` are the sensitivities of the data, or of the amplitudes. -/
theorem C186_first (s : Sim M d n p) (m : M) (W : Option (Fin d → ℝ)) (h : OneCell (s.deriv m)) :
    (s.getDiag ⟨none, none⟩ m W).2 = trueDiag (W.getD fun _ => 1) (s.J m) (s.deriv m) := by
  rw [← mapped_true _ _ h]
  unfold Sim.getDiag Sim.assign
  cases hA : s.isAmplitude <;> cases W <;> simp [weights]

/-- Non-vacuity: the identity map. -/
example : OneCell (fun i j : Fin 4 => if i = j then (1 : ℝ) else 0) := by
  intro i i' j h1 h2
  by_contra hc
  by_cases h : i = j
  · have : i' ≠ j := fun h3 => hc (h.trans h3.symm)
    simp [this] at h2
  · simp [h] at h1

/-- **C186, amplitudes**: the row of a location in the sensitivities of the amplitudes is the sum of the rows of its three
components, weighted with the derivative of the amplitude by the component. -/
theorem C186_amplitude (s : Sim M d n p) (hA : s.isAmplitude = true) (m : M) (k : Fin d) (i : Fin n) :
    s.J m k i = ∑ c : Fin 3, s.ampDeriv m c k * s.G (3 * k + c) i := by
  unfold Sim.J
  rw [if_pos hA, Fin.sum_univ_three]
  rfl

/-- What is remembered is what the current model and the weights `w` give. -/
def Inv (s : Sim M d n p) (w : Fin d → ℝ) (σ : St M n) : Prop :=
  ∀ dg, σ.diag = some dg →
    (s.isAmplitude = false ∧ dg = gtg w (fun k => s.G k)) ∨
      (s.isAmplitude = true ∧ ∃ m, σ.model = some m ∧ dg = gtg w (ampJ (s.ampDeriv m) s.G))

theorem inv_assign (s : Sim M d n p) (hs : ∀ a b, s.same a b = true → a = b) {w : Fin d → ℝ} {σ : St M n}
    (h : Inv s w σ) (m : M) : Inv s w (s.assign σ m) ∧ (s.assign σ m).model = some m := by
  unfold Sim.assign
  rcases hm : σ.model with _ | m'
  · cases hA : s.isAmplitude
    · simp only [Bool.false_eq_true, and_false, if_false, and_true]
      intro dg hd
      rcases h dg hd with h1 | ⟨h1, h2⟩
      · exact Or.inl h1
      · rw [h1] at hA; cases hA
    · simp [Inv]
  · simp only
    by_cases hb : s.same m' m = true
    · have := hs _ _ hb
      subst this
      rw [if_neg (by simp [hb])]
      refine ⟨fun dg hd => ?_, rfl⟩
      rcases h dg hd with h1 | ⟨h1, m0, e, h2⟩
      · exact Or.inl h1
      · rw [hm] at e
        exact Or.inr ⟨h1, m0, e, h2⟩
    · cases hA : s.isAmplitude
      · rw [if_neg (by simp)]
        refine ⟨fun dg hd => ?_, rfl⟩
        rcases h dg hd with h1 | ⟨h1, h2⟩
        · exact Or.inl h1
        · rw [h1] at hA; cases hA
      · rw [if_pos ⟨by simpa using hb, rfl⟩]
        exact ⟨by simp [Inv], rfl⟩

theorem getDiag_inv (s : Sim M d n p) (hs : ∀ a b, s.same a b = true → a = b) {w : Fin d → ℝ} {σ : St M n}
    (h : Inv s w σ) (m : M) (W : Option (Fin d → ℝ)) (hW : W.getD (fun _ => 1) = w) :
    Inv s w (s.getDiag σ m W).1 ∧ (s.getDiag σ m W).2 = mapped (gtg w (s.J m)) (s.deriv m) := by
  obtain ⟨h1, h2⟩ := inv_assign s hs h m
  have hw : weights W = w := by rw [← hW]; cases W <;> rfl
  unfold Sim.getDiag
  simp only [hw]
  rcases hd : (s.assign σ m).diag with _ | dg
  · simp only
    refine ⟨fun dg hdg => ?_, by first | rfl | simp⟩
    simp only [Option.some.injEq] at hdg
    subst hdg
    cases hA : s.isAmplitude
    · left; exact ⟨rfl, by unfold Sim.J; rw [hA]; simp⟩
    · right; exact ⟨rfl, m, h2, by unfold Sim.J; rw [hA]; simp⟩
  · simp only
    refine ⟨h1, ?_⟩
    congr 1
    rcases h1 dg hd with ⟨hA, e⟩ | ⟨hA, m0, e0, e⟩
    · rw [e]; unfold Sim.J; rw [hA]; simp
    · rw [e]; rw [h2] at e0
      simp only [Option.some.injEq] at e0
      subst e0
      unfold Sim.J; rw [hA]; simp

/-- **C186, history (weights unchanged)**: over any sequence of calls with whatever models and the same weights, every
result is that of a simulation which remembers nothing, if the setter of the model takes only equal models as unchanged.
Missing: other weights, see `C186_violated_weights`. -/
theorem C186_history_partial (s : Sim M d n p) (hs : ∀ a b, s.same a b = true → a = b) (w : Fin d → ℝ)
    (calls : List (M × Option (Fin d → ℝ))) (hW : ∀ c ∈ calls, c.2.getD (fun _ => 1) = w) :
    runs s ⟨none, none⟩ calls = calls.map fun c => (s.getDiag ⟨none, none⟩ c.1 c.2).2 := by
  have hnew : Inv s w (⟨none, none⟩ : St M n) := fun dg hd => by simp at hd
  have key : ∀ (l : List (M × Option (Fin d → ℝ))) (σ : St M n), Inv s w σ →
      (∀ c ∈ l, c.2.getD (fun _ => 1) = w) →
      runs s σ l = l.map fun c => (s.getDiag ⟨none, none⟩ c.1 c.2).2 := by
    intro l
    induction l with
    | nil => intros; rfl
    | cons c l ih =>
      intro σ hσ hl
      obtain ⟨m, W⟩ := c
      have hw := hl (m, W) (by simp)
      have h1 := getDiag_inv s hs hσ m W hw
      have h2 := getDiag_inv s hs hnew m W hw
      simp only [runs, List.map_cons]
      rw [ih _ h1.1 fun c hc => hl c (by simp [hc]), h1.2, h2.2]
  exact key calls _ hnew hW

/-- **C186, violated (weights)**: after a call with some weights, a call with any others, and with any model if the data
are not amplitudes, gives the diagonal for the first weights. -/
theorem C186_violated_weights (s : Sim M d n p) (hA : s.isAmplitude = false) (m m' : M) (w w' : Fin d → ℝ) :
    runs s ⟨none, none⟩ [(m, some w), (m', some w')] =
      [mapped (gtg w fun k => s.G k) (s.deriv m), mapped (gtg w fun k => s.G k) (s.deriv m')] := by
  simp [runs, Sim.getDiag, Sim.assign, hA, Sim.J, weights]

/-- Non-vacuity: one datum, one cell, the weights 1 and 2: the second diagonal should be 4 and is 1. -/
theorem C186_violated_value : ∃ s : Sim Unit 1 1 1,
    runs s ⟨none, none⟩ [((), some fun _ => 1), ((), some fun _ => 2)] = [fun _ => 1, fun _ => 1] ∧
      trueDiag (fun _ => 2) (s.J ()) (s.deriv ()) = fun _ => 4 := by
  refine ⟨⟨false, fun _ _ => 1, fun _ _ _ => 0, fun _ _ _ => 1, fun _ _ => true⟩, ?_, ?_⟩
  · simp [runs, Sim.getDiag, Sim.assign, Sim.J, weights]
    funext j
    simp [mapped, gtg]
  · funext j
    simp [trueDiag, Sim.J]
    norm_num

/-- **C186, violated (gravity without weights)**: a gravity simulation has no diagonal without weights; with weights it
has the one above. -/
theorem C186_violated_gravity (s : Sim M d n p) (σ : St M n) (m : M) :
    gravityDiag s σ m none = .error .attributeError ∧
      ∀ w, gravityDiag s σ m (some w) = .ok (s.getDiag σ m (some w)) := ⟨rfl, fun _ => rfl⟩

/-! ### Resistivity and induced polarization -/

/-- **C186, same sums**: for the same sensitivities and weights, the diagonals with dask are those without, for resistivity
and for induced polarization, and those of resistivity are the diagonal of `(W J).T (W J)`. -/
theorem C186_serial (scale : Fin d → ℝ) (W : Option (Fin d → ℝ)) (J : Fin d → Fin n → ℝ) :
    daskDC W J = serialDC W J ∧ daskIP scale W J = serialIP scale W J ∧
      (∀ i, daskDC W J i = ∑ k, (W.getD (fun _ => 1) k * J k i) ^ 2) ∧
      ∀ i, daskIP scale W J i = ∑ k, (scale k * W.getD (fun _ => 1) k * J k i) ^ 2 := by
  have hf : ∀ f : Fin d → ℝ, ((List.finRange d).map f).foldl (· + ·) 0 = ∑ k, f k := by
    intro f
    rw [← List.sum_eq_foldl, ← List.ofFn_eq_map, List.sum_ofFn]
  refine ⟨?_, ?_, ?_, ?_⟩
  · funext i
    unfold daskDC serialDC
    cases W <;> simp only [hf] <;> exact Finset.sum_congr rfl fun k _ => by ring
  · unfold daskIP serialIP
    cases W <;> rfl
  · intro i
    unfold daskDC
    cases W <;> simp
  · intro i
    unfold daskIP
    cases W <;> simp only [Option.getD] <;> exact Finset.sum_congr rfl fun k _ => by ring

/-- **C186, sensitivities after the fields**: if the model was assigned (as `fields(m)` does) just before, `getJ(m)` gives
the sensitivities of `m` at the fields of `m`, whatever was computed before by such pairs of calls, and is what `getJ`
without dask gives. Missing: `getJ` of a model which was not assigned, see below. -/
theorem C186_getJ_partial {A : Type} (same : M → M → Bool) (hs : ∀ a b, same a b = true → a = b) (jac : M → M → A)
    (σ : DSt M A) (hσ : ∀ J, σ.J = some J → ∃ a, σ.model = some a ∧ J = jac a a) (m : M) :
    ∃ σ', (∀ f, f = none ∨ f = some m → daskGetJ same jac (σ.assign same m) m f = .ok (σ', jac m m)) ∧
      (serialGetJ same jac σ m none).2 = jac m m ∧
      ∀ J, σ'.J = some J → ∃ a, σ'.model = some a ∧ J = jac a a := by
  have ha : (σ.assign same m).model = some m ∧ ∀ J, (σ.assign same m).J = some J → J = jac m m := by
    unfold DSt.assign
    rcases hm : σ.model with _ | m'
    · exact ⟨rfl, fun J h => by simp at h⟩
    · simp only
      split_ifs with hb
      · refine ⟨rfl, fun J h => ?_⟩
        obtain ⟨a, e, r⟩ := hσ J h
        rw [hm] at e
        simp only [Option.some.injEq] at e
        rw [r, ← e, hs _ _ hb]
      · exact ⟨rfl, fun J h => by simp at h⟩
  have haa : ∀ σ₁ : DSt M A, σ₁.model = some m → (σ₁.assign same m).model = some m := by
    intro σ₁ h1
    unfold DSt.assign
    rw [h1]
    simp only
    split_ifs <;> rfl
  generalize hτ : σ.assign same m = τ at ha
  obtain ⟨h1, h2⟩ := ha
  refine ⟨⟨some m, some (jac m m)⟩, ?_, ?_, ?_⟩
  · intro f hf
    unfold daskGetJ
    rcases hJ : τ.J with _ | J
    · rcases hf with rfl | rfl
      · simp only
        rw [haa τ h1]
      · simp only [h1]
    · have := h2 J hJ
      subst this
      simp only
      rw [← h1, ← hJ]
  · unfold serialGetJ
    simp only [hτ]
    rcases hJ : τ.J with _ | J
    · rfl
    · exact h2 J hJ
  · intro J h
    simp only [Option.some.injEq] at h
    exact ⟨m, rfl, h.symm⟩

/-- **C186, what is remembered**: the matrix that is returned is the one that is remembered, so that a second call
returns it again. -/
theorem C186_again {A : Type} (same : M → M → Bool) (jac : M → M → A) (σ σ' : DSt M A) (m m' : M) (f f' : Option M) (J : A)
    (h : daskGetJ same jac σ m f = .ok (σ', J)) :
    σ'.J = some J ∧ daskGetJ same jac σ' m' f' = .ok (σ', J) := by
  have hJ : σ'.J = some J := by
    unfold daskGetJ at h
    split at h
    · rename_i J' hJ'
      injection h with h
      obtain ⟨rfl, rfl⟩ := Prod.mk.inj h
      exact hJ'
    · split at h
      · injection h with h
        obtain ⟨rfl, rfl⟩ := Prod.mk.inj h
        rfl
      · split at h
        · cases h
        · injection h with h
          obtain ⟨rfl, rfl⟩ := Prod.mk.inj h
          rfl
  refine ⟨hJ, ?_⟩
  unfold daskGetJ
  rw [hJ]

/-- **C186, violated (stale sensitivities)**: with dask, `getJ(m2)` after `getJ(m1)` gives the sensitivities of `m1`,
whatever `m2` is, with and without fields; without dask those of `m2` are given. -/
theorem C186_violated_getJ {A : Type} (same : M → M → Bool) (jac : M → M → A) (m₁ m₂ : M)
    (hne : same m₁ m₂ = false) (f : Option M) :
    ∃ σ, daskGetJ same jac ⟨none, none⟩ m₁ none = .ok (σ, jac m₁ m₁) ∧
      daskGetJ same jac σ m₂ f = .ok (σ, jac m₁ m₁) ∧
      (serialGetJ same jac (serialGetJ same jac ⟨none, none⟩ m₁ none).1 m₂ none).2 = jac m₂ m₂ := by
  refine ⟨⟨some m₁, some (jac m₁ m₁)⟩, rfl, rfl, ?_⟩
  simp [serialGetJ, DSt.assign, hne]

/-! ### Blocks of columns -/

theorem take_drop_blocks {α : Type} (c : ℕ) (l : List α) (k : ℕ) :
    ((List.range k).map fun i => (l.drop (i * c)).take c).flatten = l.take (k * c) := by
  induction k with
  | zero => simp
  | succ k ih =>
    rw [List.range_succ, List.map_append, List.flatten_append, ih]
    simp only [List.map_cons, List.map_nil, List.flatten_cons, List.flatten_nil, List.append_nil]
    rw [Nat.succ_mul, List.take_add]

/-- **C186, blocks**: the blocks of columns of a receiver, one after the other, are all its columns, in order, for any
number of blocks above zero. -/
theorem C186_blocks {α : Type} (nBlock : ℕ) (h : 0 < nBlock) (cols : List α) :
    (blocks nBlock cols).flatten = cols := by
  unfold blocks
  rw [take_drop_blocks, List.take_of_length_le]
  unfold ceilDiv
  have h1 := Nat.div_add_mod (cols.length + nBlock - 1) nBlock
  have h2 := Nat.mod_lt (cols.length + nBlock - 1) h
  omega

/-- Non-vacuity: five columns in four blocks, the last of which is empty. -/
example : blocks 4 [0, 1, 2, 3, 4] = [[0, 1], [2, 3], [4], []] := by decide

/-- **C186, violated (declared sizes)**: unless the blocks fit exactly, at least one block does not have the number of
columns declared for it. -/
theorem C186_violated_blocks {α : Type} (nBlock : ℕ) (h : 0 < nBlock) (cols : List α)
    (hn : nBlock * declared nBlock cols ≠ cols.length) :
    ∃ b ∈ blocks nBlock cols, b.length ≠ declared nBlock cols := by
  by_contra hc
  push Not at hc
  apply hn
  have h1 : ((blocks nBlock cols).flatten).length = (blocks nBlock cols).length * declared nBlock cols := by
    rw [List.length_flatten, List.map_congr_left hc]
    simp
  rw [C186_blocks nBlock h] at h1
  have h2 : (blocks nBlock cols).length = nBlock := by simp [blocks]
  rw [h1, h2]

/-- Non-vacuity: five columns in four blocks of two. -/
example : 4 * declared 4 [0, 1, 2, 3, 4] ≠ [0, 1, 2, 3, 4].length := by decide

end Props
end Verif.DC.DaskDiag
