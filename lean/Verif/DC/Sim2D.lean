import Verif.DC.Sim
import Mathlib.Data.List.GetD
import Mathlib.Analysis.SpecialFunctions.ExpDeriv
import Mathlib.Analysis.SpecialFunctions.Log.Basic

/-!
The 2.5D resistivity simulations
(`simpeg/electromagnetics/static/resistivity/simulation_2d.py`, `fields_2d.py`): the potential is
computed for a number of wavenumbers, data and sensitivities are weighted sums over them.

Simplified as in `Verif/DC/Sim.lean`: the solver is exact, mesh operators are arbitrary matrices, the
survey is not miniaturised (`Verif/DC/Mini.lean`; `_mini_survey_data` 457-479 is the same code).
Receivers measure the potential: for other fields `dpred` (272) multiplies an array without a
wavenumber axis with the weights.
-/

namespace Verif.DC
open Matrix Verif.PDE

noncomputable section

variable {p s e f n : Type} [Fintype p] [Fintype s] [Fintype e] [Fintype f] [Fintype n]
  [DecidableEq e] [DecidableEq f] [DecidableEq n]

/-- What `BaseDCSimulation2D` needs from the formulation, for every wavenumber. -/
structure Form2 (p n : Type) where
  A : ℝ → (p → ℝ) → Matrix n n ℝ
  aDeriv : ℝ → (p → ℝ) → (n → ℝ) → (p → ℝ) → n → ℝ
  aDerivT : ℝ → (p → ℝ) → (n → ℝ) → (n → ℝ) → p → ℝ

/-- `BaseDCSimulation2D` (28-479): the formulation, the quadrature points and weights
(`_quad_points`, `_quad_weights`), and the sources with their receivers. -/
structure Sim2 (p n : Type) where
  form : Form2 p n
  quad : List (ℝ × ℝ)
  sources : List (Src n Empty)

/-- Potentials have no associated electric field here (`fields_2d.py` has no `_eDeriv_u`). -/
def noF : Matrix Empty n ℝ := fun x => x.elim

/-- `fields` for one wavenumber and one source (234-241). -/
def Sim2.solve (S : Sim2 p n) (ky : ℝ) (m : p → ℝ) (q : n → ℝ) : n → ℝ := (S.form.A ky m)⁻¹ *ᵥ q

/-- `f[src, "phi"]` (`fields_2d.py` 123-124) and `fields_to_space` (244-248): the weighted sum of the
potentials. -/
def Sim2.phi (S : Sim2 p n) (m : p → ℝ) (q : n → ℝ) : n → ℝ :=
  (S.quad.map fun k => k.2 • S.solve k.1 m q).sum

/-- `rx.eval(src, mesh, f).dot(weights)` (272): `rx.eval` keeps one column per wavenumber. -/
def Sim2.datum (S : Sim2 p n) (m : p → ℝ) (q : n → ℝ) (r : Rx n Empty) : Fin r.nD → ℝ :=
  fun i => (S.quad.map fun k => r.eval noF (S.solve k.1 m q) i * k.2).sum

/-- `dpred` (250-276). -/
def Sim2.dpred (S : Sim2 p n) (m : p → ℝ) : List ℝ :=
  S.sources.flatMap fun src => src.rx.flatMap fun r => List.ofFn (S.datum m src.q r)

/-- The number of data (`survey.nD`). -/
def Sim2.nD (S : Sim2 p n) : Nat := (S.sources.map fun src => (src.rx.map Rx.nD).sum).sum

/-- `du_dm_v` (323-325). -/
def Sim2.du (S : Sim2 p n) (ky : ℝ) (m : p → ℝ) (q : n → ℝ) (v : p → ℝ) : n → ℝ :=
  (S.form.A ky m)⁻¹ *ᵥ (-(S.form.aDeriv ky m (S.solve ky m q) v))

/-- The contributions of one wavenumber to `Jvec` (321-330), in the order of `count`. -/
def Sim2.jvecKy (S : Sim2 p n) (ky : ℝ) (m v : p → ℝ) : List ℝ :=
  S.sources.flatMap fun src => src.rx.flatMap fun r => List.ofFn (r.deriv noF (S.du ky m src.q v))

/-- `Jvec` with `storeJ = False` (300-334): the array starts at zero, and every wavenumber adds its
weighted contributions. -/
def Sim2.Jvec (S : Sim2 p n) (m v : p → ℝ) : List ℝ :=
  S.quad.foldl (fun acc k => List.zipWith (· + ·) acc ((S.jvecKy k.1 m v).map (k.2 * ·)))
    (List.replicate S.nD 0)

/-- The receiver loop of `_Jtvec` (378-388): the sum of the right-hand sides, and what is left of the
data vector. -/
def rxSum : List (Rx n Empty) → List ℝ → (n → ℝ) × List ℝ
  | [], w => (0, w)
  | r :: rs, w =>
    let b := rxSum rs (w.drop r.nD)
    (r.derivT noF (fun i => w.getD i 0) + b.1, b.2)

/-- The source loop of `_Jtvec` for one wavenumber with weight `wt` (376-396): one solve for every
source, with `Ainv`, not with its transpose; `df_dmT` is zero for potentials. -/
def Sim2.srcLoop (S : Sim2 p n) (ky wt : ℝ) (m : p → ℝ) : List (Src n Empty) → List ℝ → p → ℝ
  | [], _ => 0
  | src :: ss, w =>
    let b := rxSum src.rx w
    wt • (-(S.form.aDerivT ky m (S.solve ky m src.q) ((S.form.A ky m)⁻¹ *ᵥ b.1))) +
      S.srcLoop ky wt m ss b.2

/-- `Jtvec` with `storeJ = False` (345-397). -/
def Sim2.Jtvec (S : Sim2 p n) (m : p → ℝ) (w : List ℝ) : p → ℝ :=
  (S.quad.map fun k => S.srcLoop k.1 k.2 m S.sources w).sum

/-- The rows added by one wavenumber to the sensitivity matrix (402-419). -/
def Sim2.rowsKy (S : Sim2 p n) (ky wt : ℝ) (m : p → ℝ) : List (p → ℝ) :=
  S.sources.flatMap fun src => src.rx.flatMap fun r => List.ofFn fun i =>
    -wt • S.form.aDerivT ky m (S.solve ky m src.q)
      ((S.form.A ky m)⁻¹ *ᵥ r.derivT noF (Pi.single i 1))

/-- `getJ` (278-289, 399-420). -/
def Sim2.getJ (S : Sim2 p n) (m : p → ℝ) : List (p → ℝ) :=
  S.quad.foldl (fun acc k => List.zipWith (· + ·) acc (S.rowsKy k.1 k.2 m))
    (List.replicate S.nD 0)

/-! ### Cell centred formulation -/

/-- `Simulation2DCellCentered` (482-626): `B ky` is `_MBC[ky]`, `vol` the cell volumes, `i0` the first
cell. -/
structure Cell2 (p f n : Type) where
  D : Matrix n f ℝ
  B : ℝ → Matrix f n ℝ
  mf : Inner f n
  fast : Bool
  vol : n → ℝ
  bc : Bc
  i0 : n
  rho : (p → ℝ) → n → ℝ
  rhoD : (p → ℝ) → Matrix n p ℝ
  sigma : (p → ℝ) → n → ℝ
  sigmaD : (p → ℝ) → Matrix n p ℝ

/-- `G` in `getA` and `getADeriv` (523-525, 535-537). -/
def Cell2.grad (o : Cell2 p f n) (ky : ℝ) : Matrix f n ℝ :=
  if o.bc = .dirichlet then o.Dᵀ else o.Dᵀ - o.B ky

/-- `MccSigma` (`pde_simulation.py` 113-116). -/
def Cell2.mcc (o : Cell2 p f n) : Inner n n := nodeInner 1 o.vol

/-- `Simulation2DCellCentered.getA` (515-531): the Neumann condition adds one to the first diagonal
entry. -/
def Cell2.getA (o : Cell2 p f n) (ky : ℝ) (m : p → ℝ) : Matrix n n ℝ :=
  let A := o.D * (o.mf.mat ℝ (o.rho m))⁻¹ * o.grad ky + ky ^ 2 • o.mcc.mat ℝ (o.sigma m)
  if o.bc = .neumann then A + Matrix.single o.i0 o.i0 1 else A

/-- `Simulation2DCellCentered.getADeriv(u, v)` (533-545). -/
def Cell2.aDeriv (o : Cell2 p f n) (ky : ℝ) (m : p → ℝ) (u : n → ℝ) (v : p → ℝ) : n → ℝ :=
  o.D *ᵥ (stash o.fast o.mf (o.rhoD m)).mul (invArg o.mf (o.rho m) (o.grad ky *ᵥ u)) v +
    ky ^ 2 • (stash true o.mcc (o.sigmaD m)).mul u v

/-- `Simulation2DCellCentered.getADeriv(u, v, adjoint=True)` (533-545). -/
def Cell2.aDerivT (o : Cell2 p f n) (ky : ℝ) (m : p → ℝ) (u w : n → ℝ) : p → ℝ :=
  (stash o.fast o.mf (o.rhoD m)).mulT (invArg o.mf (o.rho m) (o.grad ky *ᵥ u)) (o.Dᵀ *ᵥ w) +
    ky ^ 2 • (stash true o.mcc (o.sigmaD m)).mulT u w

/-- The cell centred formulation. -/
def Cell2.form (o : Cell2 p f n) : Form2 p n := ⟨o.getA, o.aDeriv, o.aDerivT⟩

/-! ### Nodal formulation -/

/-- `Simulation2DNodal` (629-802): `avg ky` is `_AvgBC[ky]`, `ave` the average from nodes to cells. -/
structure Nodal2 (p s e n : Type) where
  G : Matrix e n ℝ
  me : Inner e s
  fast : Bool
  ave : Matrix s n ℝ
  vol : s → ℝ
  avg : ℝ → Matrix n s ℝ
  neumann : Bool
  sigma : (p → ℝ) → s → ℝ
  sigmaD : (p → ℝ) → Matrix s p ℝ

variable [DecidableEq s]

/-- `MnSigma` (`pde_simulation.py` 123-128). -/
def Nodal2.mn (o : Nodal2 p s e n) : Inner n s := nodeInner o.ave o.vol

/-- `Simulation2DNodal.getA` (666-693). -/
def Nodal2.getA (o : Nodal2 p s e n) (ky : ℝ) (m : p → ℝ) : Matrix n n ℝ :=
  let A := o.Gᵀ * o.me.mat ℝ (o.sigma m) * o.G + ky ^ 2 • o.mn.mat ℝ (o.sigma m)
  if o.neumann then A else A + diagonal (o.avg ky *ᵥ o.sigma m)

/-- `Simulation2DNodal.getADeriv(u, v)` (695-712); `K` is `_MBC_sigma[ky]`. -/
def Nodal2.aDerivK (o : Nodal2 p s e n) (K : Matrix n p ℝ) (ky : ℝ) (m : p → ℝ) (u : n → ℝ)
    (v : p → ℝ) : n → ℝ :=
  let out := o.Gᵀ *ᵥ (stash o.fast o.me (o.sigmaD m)).mul (o.G *ᵥ u) v +
    ky ^ 2 • (stash true o.mn (o.sigmaD m)).mul u v
  if o.neumann then out else out + (Stash.sparse (s := s) K).mul u v

/-- `Simulation2DNodal.getADeriv(u, v, adjoint=True)` (695-712). -/
def Nodal2.aDerivTK (o : Nodal2 p s e n) (K : Matrix n p ℝ) (ky : ℝ) (m : p → ℝ) (u w : n → ℝ) :
    p → ℝ :=
  let out := (stash o.fast o.me (o.sigmaD m)).mulT (o.G *ᵥ u) (o.G *ᵥ w) +
    ky ^ 2 • (stash true o.mn (o.sigmaD m)).mulT u w
  if o.neumann then out else out + (Stash.sparse (s := s) K).mulT u w

/-- The attribute `_MBC_sigma` (707-710): a dictionary from wavenumbers, filled when first needed and
never cleared (the 3D simulation clears its own, `simulation.py` 664-670). -/
abbrev BCache (p n : Type) := ℝ → Option (Matrix n p ℝ)

/-- `_MBC_sigma[ky]` as read by `getADeriv` for the model `m`. -/
def Nodal2.bK (o : Nodal2 p s e n) (c : BCache p n) (ky : ℝ) (m : p → ℝ) : Matrix n p ℝ :=
  (c ky).getD (o.avg ky * o.sigmaD m)

/-- The nodal formulation with what is remembered from earlier calls. -/
def Nodal2.form (o : Nodal2 p s e n) (c : BCache p n) : Form2 p n :=
  ⟨o.getA, fun ky m => o.aDerivK (o.bK c ky m) ky m, fun ky m => o.aDerivTK (o.bK c ky m) ky m⟩

/-- The nodal simulation with what is remembered from earlier calls. -/
def Nodal2.sim (o : Nodal2 p s e n) (quad : List (ℝ × ℝ)) (ss : List (Src n Empty))
    (c : BCache p n) : Sim2 p n := ⟨o.form c, quad, ss⟩

/-- What is remembered after a call of `getADeriv` for every wavenumber (706-710). -/
def Nodal2.fill (o : Nodal2 p s e n) (quad : List (ℝ × ℝ)) (ss : List (Src n Empty))
    (c : BCache p n) (m : p → ℝ) : BCache p n := fun ky =>
  if o.neumann = false ∧ ss ≠ [] ∧ ky ∈ quad.map Prod.fst then some (o.bK c ky m) else c ky

/-- Calls on a simulation, all without a fields argument. -/
inductive Call (p : Type) where
  | dpred (m : p → ℝ)
  | jvec (m v : p → ℝ)
  | jtvec (m : p → ℝ) (w : List ℝ)
  | getJ (m : p → ℝ)

/-- What a call returns. -/
inductive Ret (p : Type) where
  | data (d : List ℝ)
  | model (v : p → ℝ)
  | rows (J : List (p → ℝ))

/-- The value a simulation returns for a call. -/
def Sim2.ret (S : Sim2 p n) : Call p → Ret p
  | .dpred m => .data (S.dpred m)
  | .jvec m v => .data (S.Jvec m v)
  | .jtvec m w => .model (S.Jtvec m w)
  | .getJ m => .rows (S.getJ m)

/-- The boundary derivatives remembered after a call. -/
def Nodal2.after (o : Nodal2 p s e n) (quad : List (ℝ × ℝ)) (ss : List (Src n Empty))
    (c : BCache p n) : Call p → BCache p n
  | .dpred _ => c
  | .jvec m _ => o.fill quad ss c m
  | .jtvec m _ => o.fill quad ss c m
  | .getJ m => o.fill quad ss c m

/-- The results of a sequence of calls on one simulation object. -/
def Nodal2.run (o : Nodal2 p s e n) (quad : List (ℝ × ℝ)) (ss : List (Src n Empty)) :
    BCache p n → List (Call p) → List (Ret p)
  | _, [] => []
  | c, x :: xs => (o.sim quad ss c).ret x :: o.run quad ss (o.after quad ss c x) xs

end

end Verif.DC

namespace Verif.DC.Props
open Matrix Verif.PDE Verif.PDE.Props Verif.DC Verif.Flow.Richards.Props

noncomputable section

variable {p s e f n : Type} [Fintype p] [Fintype s] [Fintype e] [Fintype f] [Fintype n]
  [DecidableEq e] [DecidableEq f] [DecidableEq n]

set_option linter.unusedSectionVars false

/-! ### Specification -/

/-- `J v` lists the directional derivatives, in the direction `v`, of the entries of the list `F` at
the model `m`. -/
def ListDeriv (F J : (p → ℝ) → List ℝ) (m : p → ℝ) : Prop :=
  (∀ y v, (J v).length = (F y).length) ∧
    ∀ i, ∃ L : (p → ℝ) →L[ℝ] ℝ, HasFDerivAt (fun y => (F y).getD i 0) L m ∧
      ∀ v, (J v).getD i 0 = L v

/-- What is asked of a formulation at one wavenumber: the system can be solved, and `getADeriv` is the
derivative of the system matrix times a fixed vector. -/
structure Exact2 (o : Form2 p n) (ky : ℝ) (m : p → ℝ) : Prop where
  det : (o.A ky m).det ≠ 0
  deriv : ∀ u, ∃ dA : Matrix n p ℝ, IsJacobian (fun y => o.A ky y *ᵥ u) dA m ∧
    ∀ v, o.aDeriv ky m u v = dA *ᵥ v

/-- What is asked for the adjoint: a symmetric system, and the adjoint of `getADeriv`. -/
structure Adjoint2 (o : Form2 p n) (ky : ℝ) (m : p → ℝ) : Prop where
  symm : (o.A ky m)ᵀ = o.A ky m
  pair : ∀ u v x, o.aDeriv ky m u v ⬝ᵥ x = v ⬝ᵥ o.aDerivT ky m u x

/-! ### Derivatives of lists -/

theorem ListDeriv.nil (m : p → ℝ) : ListDeriv (fun _ => []) (fun _ => []) m :=
  ⟨fun _ _ => rfl, fun i => ⟨0, by simpa using hasFDerivAt_const (𝕜 := ℝ) (0:ℝ) m, fun v => by simp⟩⟩

theorem ListDeriv.ofFn {k : Nat} {F : (p → ℝ) → Fin k → ℝ} {J : Matrix (Fin k) p ℝ} {m : p → ℝ}
    (h : IsJacobian F J m) : ListDeriv (fun y => List.ofFn (F y)) (fun v => List.ofFn (J *ᵥ v)) m := by
  refine ⟨fun _ _ => by simp, fun i => ?_⟩
  by_cases hi : i < k
  · refine ⟨dotL (J ⟨i, hi⟩), ?_, fun v => ?_⟩
    · have := (isJacobian_iff.1 h) ⟨i, hi⟩
      simpa [List.getD, hi] using this
    · simp [List.getD, hi, Matrix.mulVec]
  · refine ⟨0, ?_, fun v => ?_⟩
    · have e : (fun y => (List.ofFn (F y)).getD i 0) = fun _ => 0 := by
        funext y; simp [List.getD, hi]
      rw [e]; exact hasFDerivAt_const (𝕜 := ℝ) (0:ℝ) m
    · simp [List.getD, hi]

theorem getD_append (a b : List ℝ) (i : Nat) :
    (a ++ b).getD i 0 = if i < a.length then a.getD i 0 else b.getD (i - a.length) 0 := by
  by_cases h : i < a.length
  · simp only [h, if_true]; exact List.getD_append a b 0 i h
  · simp only [h, if_false]; exact List.getD_append_right a b 0 i (Nat.le_of_not_lt h)

theorem ListDeriv.append {F J F' J' : (p → ℝ) → List ℝ} {m : p → ℝ} (h : ListDeriv F J m)
    (h' : ListDeriv F' J' m) :
    ListDeriv (fun y => F y ++ F' y) (fun v => J v ++ J' v) m := by
  refine ⟨fun y v => by simp [h.1 y v, h'.1 y v], fun i => ?_⟩
  have hl : ∀ y, (F y).length = (F m).length := fun y => by rw [← h.1 y 0, h.1 m 0]
  by_cases hi : i < (F m).length
  · obtain ⟨L, hL, hv⟩ := h.2 i
    refine ⟨L, ?_, fun v => ?_⟩
    · simpa only [getD_append, hl, hi, if_true] using hL
    · simp only [getD_append, h.1 m v, hi, if_true, hv]
  · obtain ⟨L, hL, hv⟩ := h'.2 (i - (F m).length)
    refine ⟨L, ?_, fun v => ?_⟩
    · simpa only [getD_append, hl, hi, if_false] using hL
    · simp only [getD_append, h.1 m v, hi, if_false, hv]

theorem ListDeriv.flatMap {α : Type} {F J : α → (p → ℝ) → List ℝ} {m : p → ℝ} (l : List α)
    (h : ∀ a ∈ l, ListDeriv (F a) (J a) m) :
    ListDeriv (fun y => l.flatMap fun a => F a y) (fun v => l.flatMap fun a => J a v) m := by
  induction l with
  | nil => exact ListDeriv.nil m
  | cons a l ih =>
    simp only [List.flatMap_cons]
    exact (h a (by simp)).append (ih fun b hb => h b (by simp [hb]))

theorem getD_zip (a b : List ℝ) (hl : a.length = b.length) (i : Nat) :
    (List.zipWith (· + ·) a b).getD i 0 = a.getD i 0 + b.getD i 0 := by
  by_cases h : i < a.length
  · have h' : i < b.length := hl ▸ h
    simp [List.getD, h, h']
  · have h' : ¬ i < b.length := hl ▸ h
    simp [List.getD, h, h', List.getElem?_eq_none (Nat.le_of_not_lt h)]

theorem getD_map_mul (w : ℝ) (a : List ℝ) (i : Nat) :
    (a.map (w * ·)).getD i 0 = w * a.getD i 0 := by
  by_cases h : i < a.length
  · simp [List.getD, h]
  · simp [List.getD, h]

/-! ### Data and sensitivities as sums over the wavenumbers -/

/-- The data of one wavenumber. -/
def dKy (S : Sim2 p n) (ky : ℝ) (m : p → ℝ) : List ℝ :=
  S.sources.flatMap fun src => src.rx.flatMap fun r => List.ofFn (r.eval noF (S.solve ky m src.q))

theorem flat_length {α : Type} (ss : List (Src n Empty)) (g : Src n Empty → (r : Rx n Empty) → Fin r.nD → α) :
    (ss.flatMap fun src => src.rx.flatMap fun r => List.ofFn (g src r)).length =
      (ss.map fun src => (src.rx.map Rx.nD).sum).sum := by
  simp [List.length_flatMap]

/-- Entries of a list of blocks depend linearly on the blocks. -/
theorem flat_getD (ss : List (Src n Empty)) {l : List (ℝ × ℝ)}
    (g : ℝ → Src n Empty → (r : Rx n Empty) → Fin r.nD → ℝ) (i : Nat) :
    (ss.flatMap fun src => src.rx.flatMap fun r =>
      List.ofFn fun j => (l.map fun k => g k.1 src r j * k.2).sum).getD i 0 =
    (l.map fun k => k.2 * (ss.flatMap fun src => src.rx.flatMap fun r =>
      List.ofFn (g k.1 src r)).getD i 0).sum := by
  have key : ∀ (L : List ((_ : Nat) × (ℝ → List ℝ) × List ℝ)),
      (∀ x ∈ L, (∀ k, (x.2.1 k).length = x.1) ∧ x.2.2.length = x.1 ∧
        ∀ i, x.2.2.getD i 0 = (l.map fun k => k.2 * (x.2.1 k.1).getD i 0).sum) →
      ∀ i, (L.flatMap fun x => x.2.2).getD i 0 =
        (l.map fun k => k.2 * (L.flatMap fun x => x.2.1 k.1).getD i 0).sum := by
    intro L
    induction L with
    | nil => intro _ i; simp
    | cons x L ih =>
      intro hx i
      obtain ⟨h1, h2, h3⟩ := hx x (by simp)
      have ih' := ih fun y hy => hx y (by simp [hy])
      simp only [List.flatMap_cons, getD_append, h1, h2]
      by_cases hi : i < x.1
      · simp only [hi, if_true]; exact h3 i
      · simp only [hi, if_false]; exact ih' _
  have := key ((ss.flatMap fun src => src.rx.map fun r => (src, r)).map fun x =>
    ⟨x.2.nD, fun k => List.ofFn (g k x.1 x.2),
      List.ofFn fun j => (l.map fun k => g k.1 x.1 x.2 j * k.2).sum⟩) (by
    intro x hx
    simp only [List.mem_map] at hx
    obtain ⟨y, _, rfl⟩ := hx
    refine ⟨fun k => by simp, by simp, fun i => ?_⟩
    by_cases hi : i < y.2.nD
    · simp [List.getD, hi, mul_comm]
    · simp [List.getD, hi]) i
  simpa [List.flatMap_map, List.flatMap_assoc] using this

theorem dpred_getD (S : Sim2 p n) (m : p → ℝ) (i : Nat) :
    (S.dpred m).getD i 0 = (S.quad.map fun k => k.2 * (dKy S k.1 m).getD i 0).sum :=
  flat_getD S.sources (fun ky src r => r.eval noF (S.solve ky m src.q)) i

theorem fold_getD (l : List (ℝ × ℝ)) (N : Nat) (g : ℝ → List ℝ) (hg : ∀ k ∈ l, (g k.1).length = N) :
    ∀ acc : List ℝ, acc.length = N →
      (l.foldl (fun acc k => List.zipWith (· + ·) acc ((g k.1).map (k.2 * ·))) acc).length = N ∧
      ∀ i, (l.foldl (fun acc k => List.zipWith (· + ·) acc ((g k.1).map (k.2 * ·))) acc).getD i 0 =
        acc.getD i 0 + (l.map fun k => k.2 * (g k.1).getD i 0).sum := by
  induction l with
  | nil => intro acc h; simp [h]
  | cons k l ih =>
    intro acc h
    have hk := hg k (by simp)
    have h1 : (List.zipWith (· + ·) acc ((g k.1).map (k.2 * ·))).length = N := by
      simp [h, hk]
    obtain ⟨h2, h3⟩ := ih (fun k' hk' => hg k' (by simp [hk'])) _ h1
    refine ⟨h2, fun i => ?_⟩
    simp only [List.foldl_cons, List.map_cons, List.sum_cons]
    rw [h3 i, getD_zip _ _ (by simp [h, hk]), getD_map_mul]
    ring

theorem replicate_getD (N i : Nat) : (List.replicate N (0:ℝ)).getD i 0 = 0 := by
  by_cases h : i < N <;> simp [List.getD, h]

theorem jvecKy_length (S : Sim2 p n) (ky : ℝ) (m v : p → ℝ) : (S.jvecKy ky m v).length = S.nD :=
  flat_length S.sources fun src r => r.deriv noF (S.du ky m src.q v)

theorem Jvec_length (S : Sim2 p n) (m v : p → ℝ) : (S.Jvec m v).length = S.nD :=
  (fold_getD S.quad S.nD (fun ky => S.jvecKy ky m v) (fun _ _ => jvecKy_length S _ m v) _
    (by simp)).1

theorem Jvec_getD (S : Sim2 p n) (m v : p → ℝ) (i : Nat) :
    (S.Jvec m v).getD i 0 = (S.quad.map fun k => k.2 * (S.jvecKy k.1 m v).getD i 0).sum := by
  have := (fold_getD S.quad S.nD (fun ky => S.jvecKy ky m v) (fun _ _ => jvecKy_length S _ m v)
    (List.replicate S.nD 0) (by simp)).2 i
  rw [replicate_getD, zero_add] at this
  exact this

theorem solve_deriv {S : Sim2 p n} {ky : ℝ} {m : p → ℝ} (h : Exact2 S.form ky m) (q : n → ℝ)
    (r : Rx n Empty) : ∃ J : Matrix (Fin r.nD) p ℝ,
      IsJacobian (fun y => r.eval noF (S.solve ky y q)) J m ∧
      ∀ v, r.deriv noF (S.du ky m q v) = J *ᵥ v := by
  have hdiff : ∀ i j, DifferentiableAt ℝ (fun y => S.form.A ky y i j) m := by
    choose dA hdA _ using h.deriv
    exact diff_of_jacobian hdA
  obtain ⟨dA, h1, h2⟩ := h.deriv (S.solve ky m q)
  have key : IsJacobian (fun y => S.solve ky y q) ((S.form.A ky m)⁻¹ * (0 - dA)) m := by
    refine isJacK_real.1 ?_
    exact isJacK_solve (A := S.form.A ky) (q := fun _ => q) hdiff h.det (isJacK_real.2 h1)
      (isJacK_real.2 (isJacobian_const q m))
  refine ⟨weights r noF * ((S.form.A ky m)⁻¹ * (0 - dA)), ?_, fun v => ?_⟩
  · simp only [eval_weights]
    exact key.mulVec _
  · rw [deriv_weights, Sim2.du, h2 v, ← Matrix.mulVec_mulVec, ← Matrix.mulVec_mulVec, zero_sub,
      Matrix.neg_mulVec]

theorem ky_deriv {S : Sim2 p n} {ky : ℝ} {m : p → ℝ} (h : Exact2 S.form ky m) :
    ListDeriv (dKy S ky) (S.jvecKy ky m) m := by
  refine ListDeriv.flatMap _ fun src _ => ListDeriv.flatMap _ fun r _ => ?_
  obtain ⟨J, h1, h2⟩ := solve_deriv h src.q r
  simp only [h2]
  exact ListDeriv.ofFn h1

/-! ### Property theorems -/

/-- **C103 (data).** A datum is the receiver applied to the weighted sum of the potentials. -/
theorem C103_data (S : Sim2 p n) (m : p → ℝ) :
    S.dpred m = S.sources.flatMap fun src => src.rx.flatMap fun r =>
      List.ofFn (r.eval noF (S.phi m src.q)) := by
  refine List.flatMap_congr fun src _ => List.flatMap_congr fun r _ => ?_
  congr 1
  funext i
  simp only [Sim2.datum, Sim2.phi, eval_weights]
  induction S.quad with
  | nil => simp
  | cons k l ih =>
    simp only [List.map_cons, List.sum_cons, Matrix.mulVec_add, Matrix.mulVec_smul, Pi.add_apply,
      Pi.smul_apply, smul_eq_mul]
    rw [ih]; ring

/-- **C103 (exact).** `Jvec` lists the directional derivatives of the predicted data, for every set of
wavenumbers and weights, whenever `getADeriv` is the derivative of the system matrix at every
wavenumber. -/
theorem C103_exact (S : Sim2 p n) (m : p → ℝ) (h : ∀ k ∈ S.quad, Exact2 S.form k.1 m) :
    ListDeriv S.dpred (S.Jvec m) m := by
  refine ⟨fun y v => ?_, fun i => ?_⟩
  · rw [Jvec_length]; exact (flat_length S.sources fun src r => S.datum y src.q r).symm
  · simp only [dpred_getD, Jvec_getD]
    revert h
    generalize S.quad = l
    intro h
    induction l with
    | nil => exact ⟨0, by simpa using hasFDerivAt_const (𝕜 := ℝ) (0:ℝ) m, fun v => by simp⟩
    | cons k l ih =>
      obtain ⟨L, hL, hv⟩ := ih fun k' hk' => h k' (by simp [hk'])
      obtain ⟨L', hL', hv'⟩ := (ky_deriv (h k (by simp))).2 i
      refine ⟨k.2 • L' + L, ?_, fun v => ?_⟩
      · simp only [List.map_cons, List.sum_cons]
        exact (hL'.const_mul k.2).add hL
      · simp only [List.map_cons, List.sum_cons, hv, hv']
        simp

/-! ### The adjoint -/

theorem dotList_zip (a b w : List ℝ) (h : a.length = b.length) :
    dotList (List.zipWith (· + ·) a b) w = dotList a w + dotList b w := by
  induction a generalizing b w with
  | nil => cases b with
    | nil => simp [dotList]
    | cons _ _ => simp at h
  | cons x a ih => cases b with
    | nil => simp at h
    | cons y b => cases w with
      | nil => simp [dotList]
      | cons z w =>
        have := ih b w (by simpa using h)
        simp only [dotList, List.zipWith_cons_cons, List.sum_cons] at this ⊢
        rw [this]; ring

theorem dotList_mul (c : ℝ) (a w : List ℝ) : dotList (a.map (c * ·)) w = c * dotList a w := by
  induction a generalizing w with
  | nil => simp [dotList]
  | cons x a ih => cases w with
    | nil => simp [dotList]
    | cons z w =>
      have := ih w
      simp only [dotList, List.map_cons, List.zipWith_cons_cons, List.sum_cons] at this ⊢
      rw [this]; ring

theorem dotList_zeros (N : Nat) (w : List ℝ) : dotList (List.replicate N 0) w = 0 := by
  induction N generalizing w with
  | zero => simp [dotList]
  | succ N ih => cases w with
    | nil => simp [dotList]
    | cons z w =>
      have := ih w
      simp only [dotList, List.replicate_succ, List.zipWith_cons_cons, List.sum_cons] at this ⊢
      rw [this]; ring

theorem fold_dot (l : List (ℝ × ℝ)) (N : Nat) (g : ℝ → List ℝ) (hg : ∀ k ∈ l, (g k.1).length = N)
    (w : List ℝ) : ∀ acc : List ℝ, acc.length = N →
      dotList (l.foldl (fun acc k => List.zipWith (· + ·) acc ((g k.1).map (k.2 * ·))) acc) w =
        dotList acc w + (l.map fun k => k.2 * dotList (g k.1) w).sum := by
  induction l with
  | nil => intro acc h; simp
  | cons k l ih =>
    intro acc h
    have hk := hg k (by simp)
    rw [List.foldl_cons, ih (fun k' hk' => hg k' (by simp [hk'])) _ (by simp [h, hk]),
      dotList_zip _ _ _ (by simp [h, hk]), dotList_mul]
    simp [add_assoc]

theorem rxSum_dot (du : n → ℝ) (rs : List (Rx n Empty)) (w : List ℝ) :
    dotList (rs.flatMap fun r => List.ofFn (r.deriv noF du)) w = du ⬝ᵥ (rxSum rs w).1 ∧
    (rxSum rs w).2 = w.drop (rs.flatMap fun r => List.ofFn (r.deriv noF du)).length := by
  induction rs generalizing w with
  | nil => simp [rxSum, dotList]
  | cons r rs ih =>
    have ih' := ih (w.drop r.nD)
    simp only [List.flatMap_cons, rxSum]
    constructor
    · rw [dotList_append, dotList_ofFn, List.length_ofFn, ih'.1, dotProduct_add, deriv_weights,
        derivT_weights, dot_transpose]
    · rw [ih'.2]; simp [List.drop_drop]

theorem src_dot {S : Sim2 p n} {ky : ℝ} {m : p → ℝ} (h : Adjoint2 S.form ky m) (wt : ℝ) (v : p → ℝ)
    (ss : List (Src n Empty)) (w : List ℝ) :
    wt * dotList (ss.flatMap fun src => src.rx.flatMap fun r =>
      List.ofFn (r.deriv noF (S.du ky m src.q v))) w = v ⬝ᵥ S.srcLoop ky wt m ss w := by
  induction ss generalizing w with
  | nil => simp [Sim2.srcLoop, dotList]
  | cons src ss ih =>
    have hl := rxSum_dot (S.du ky m src.q v) src.rx w
    simp only [List.flatMap_cons, Sim2.srcLoop]
    rw [dotList_append, mul_add, dotProduct_add, ← ih, hl.1, hl.2]
    congr 1
    rw [Sim2.du, dot_inv, h.symm, neg_dotProduct, h.pair, dotProduct_smul, dotProduct_neg,
      smul_eq_mul]

/-- **C103 (adjoint).** `Jtvec` is the adjoint of `Jvec`, for every data vector. -/
theorem C103_adjoint (S : Sim2 p n) (m : p → ℝ) (h : ∀ k ∈ S.quad, Adjoint2 S.form k.1 m)
    (v : p → ℝ) (w : List ℝ) : dotList (S.Jvec m v) w = v ⬝ᵥ S.Jtvec m w := by
  unfold Sim2.Jvec Sim2.Jtvec
  rw [fold_dot _ S.nD (fun ky => S.jvecKy ky m v) (fun _ _ => jvecKy_length S _ m v) w _ (by simp),
    dotList_zeros, zero_add]
  revert h
  generalize S.quad = l
  intro h
  induction l with
  | nil => simp
  | cons k l ih =>
    simp only [List.map_cons, List.sum_cons, dotProduct_add]
    rw [ih fun k' hk' => h k' (by simp [hk']), ← src_dot (h k (by simp)) k.2 v S.sources w]
    rfl

theorem rows_dot {S : Sim2 p n} {ky : ℝ} {m : p → ℝ} (h : Adjoint2 S.form ky m) (wt : ℝ)
    (v : p → ℝ) :
    (S.rowsKy ky wt m).map (fun row => row ⬝ᵥ v) = (S.jvecKy ky m v).map (wt * ·) := by
  unfold Sim2.rowsKy Sim2.jvecKy
  rw [List.map_flatMap, List.map_flatMap]
  refine List.flatMap_congr fun src _ => ?_
  rw [List.map_flatMap, List.map_flatMap]
  refine List.flatMap_congr fun r _ => ?_
  rw [List.map_ofFn, List.map_ofFn]
  congr 1
  funext i
  simp only [Function.comp]
  have e : r.deriv noF (S.du ky m src.q v) i =
      r.deriv noF (S.du ky m src.q v) ⬝ᵥ (Pi.single i 1) := by simp
  rw [e, deriv_weights, derivT_weights, dot_transpose, Sim2.du, dot_inv, h.symm, neg_dotProduct,
    h.pair, smul_dotProduct, smul_eq_mul, dotProduct_comm]
  ring

/-- **C103 (stored).** The rows of the stored sensitivity matrix give the same products. -/
theorem C103_stored (S : Sim2 p n) (m : p → ℝ) (h : ∀ k ∈ S.quad, Adjoint2 S.form k.1 m)
    (v : p → ℝ) : (S.getJ m).map (fun row => row ⬝ᵥ v) = S.Jvec m v := by
  have key : ∀ (l : List (ℝ × ℝ)), (∀ k ∈ l, Adjoint2 S.form k.1 m) → ∀ acc : List (p → ℝ),
      (l.foldl (fun acc k => List.zipWith (· + ·) acc (S.rowsKy k.1 k.2 m)) acc).map
        (fun row => row ⬝ᵥ v) =
      l.foldl (fun acc k => List.zipWith (· + ·) acc ((S.jvecKy k.1 m v).map (k.2 * ·)))
        (acc.map fun row => row ⬝ᵥ v) := by
    intro l
    induction l with
    | nil => intro _ acc; rfl
    | cons k l ih =>
      intro hl acc
      rw [List.foldl_cons, List.foldl_cons, ih (fun k' hk' => hl k' (by simp [hk'])),
        ← rows_dot (hl k (by simp))]
      congr 1
      rw [List.map_zipWith, List.zipWith_map]
      congr 1
      funext a b
      exact add_dotProduct a b v
  unfold Sim2.getJ Sim2.Jvec
  rw [key _ h]
  simp

/-! ### Cell centred formulation -/

theorem nodeInner_diagonal [DecidableEq s] (ave : Matrix s e ℝ) (vol : s → ℝ) :
    Diagonal (nodeInner ave vol) := fun i j t h => by simp [nodeInner, h]

/-- The 3D formulation with the operators of one wavenumber. -/
def Cell2.cell (o : Cell2 p f n) (ky : ℝ) : Cell p n f n :=
  { D := o.D, B := o.B ky, mfI := 0, mf := o.mf, fast := o.fast,
    bc := if o.bc = .dirichlet then .dirichlet else .robin, i0 := o.i0, rho := o.rho, rhoD := o.rhoD }

theorem cell2_grad (o : Cell2 p f n) (ky : ℝ) : (Cell2.cell o ky).grad = o.grad ky := by
  unfold Cell.grad Cell2.cell Cell2.grad
  by_cases h : o.bc = .dirichlet <;> simp [h]

/-- **C103 (cell centred, exact).** For every boundary condition `getADeriv` is the derivative of the
system matrix: face inner products are diagonal and do not vanish. -/
theorem C103_cell_exact (o : Cell2 p f n) (ky : ℝ) (m : p → ℝ) (hI : Diagonal o.mf)
    (hρ : IsJacobian o.rho (o.rhoD m) m) (hσ : IsJacobian o.sigma (o.sigmaD m) m)
    (h0 : ∀ i, o.mf.mat ℝ (o.rho m) i i ≠ 0) (hdet : (o.getA ky m).det ≠ 0) :
    Exact2 o.form ky m := by
  refine ⟨hdet, fun u => ?_⟩
  have hb := cell_base (Cell2.cell o ky) m hI hρ h0 u
  rw [cell2_grad] at hb
  have hm := isJacK_real.1 (C67_derivative (𝕜 := ℝ) true o.mcc (fun _ => nodeInner_diagonal 1 o.vol)
    hσ u).1
  have hv := (C67_derivative (𝕜 := ℝ) true o.mcc (fun _ => nodeInner_diagonal 1 o.vol) hσ u).2.1
  have hd := cell_aDeriv (Cell2.cell o ky) m hI hρ u
  refine ⟨cellD (Cell2.cell o ky) m u + ky ^ 2 • (stash true o.mcc (o.sigmaD m)).toMat u, ?_,
    fun v => ?_⟩
  · have hsum : IsJacobian (fun y => (o.D * (o.mf.mat ℝ (o.rho y))⁻¹ * o.grad ky +
        ky ^ 2 • o.mcc.mat ℝ (o.sigma y)) *ᵥ u)
        (cellD (Cell2.cell o ky) m u + ky ^ 2 • (stash true o.mcc (o.sigmaD m)).toMat u) m := by
      have := hb.add (hm.smul (ky ^ 2))
      refine this.congr (Filter.Eventually.of_forall fun y => ?_)
      simp only [Matrix.add_mulVec, Matrix.smul_mulVec]
      rfl
    change IsJacobian (fun y => o.getA ky y *ᵥ u) _ m
    unfold Cell2.getA
    by_cases hn : o.bc = .neumann
    · simp only [hn, if_true]
      have := hsum.add (isJacobian_const (Matrix.single o.i0 o.i0 1 *ᵥ u) m)
      rw [add_zero] at this
      refine this.congr (Filter.Eventually.of_forall fun y => ?_)
      simp only [Matrix.add_mulVec]
    · simp only [hn, if_false]
      exact hsum
  · change o.aDeriv ky m u v = _
    have e : o.aDeriv ky m u v = (Cell2.cell o ky).aDeriv m u v +
        ky ^ 2 • (stash true o.mcc (o.sigmaD m)).mul u v := by
      unfold Cell2.aDeriv Cell.aDeriv
      rw [cell2_grad]; rfl
    rw [e, hd v, hv v, Matrix.add_mulVec, Matrix.smul_mulVec]

/-- **C103 (cell centred, adjoint).** The system is symmetric and `getADeriv` has its adjoint, for
diagonal face inner products: the boundary part of a wavenumber couples a face with its own cell
only (a contract of `discretize`). -/
theorem C103_cell_adjoint (o : Cell2 p f n) (ky : ℝ) (m : p → ℝ) (hI : Diagonal o.mf)
    (hρ : IsJacobian o.rho (o.rhoD m) m) (hσ : IsJacobian o.sigma (o.sigmaD m) m)
    (h0 : ∀ i, o.mf.mat ℝ (o.rho m) i i ≠ 0)
    (hB : o.bc ≠ .dirichlet → ∀ i c c', o.B ky i c ≠ 0 → o.D c' i ≠ 0 → c' = c) :
    Adjoint2 o.form ky m := by
  refine ⟨?_, fun u v x => ?_⟩
  · have hO : CellOps (Cell2.cell o ky) := by
      refine ⟨fun hb => ?_, fun hb => ?_, fun hb => ?_⟩
      · refine hB fun hd => hb ?_
        simp [Cell2.cell, hd]
      · by_cases hd : o.bc = .dirichlet <;> simp [Cell2.cell, hd] at hb
      · by_cases hd : o.bc = .dirichlet <;> simp [Cell2.cell, hd] at hb
    have hs := cell_base_symm (Cell2.cell o ky) m hO hI h0
    rw [cell2_grad] at hs
    change (o.getA ky m)ᵀ = o.getA ky m
    have hc : (ky ^ 2 • o.mcc.mat ℝ (o.sigma m))ᵀ = ky ^ 2 • o.mcc.mat ℝ (o.sigma m) := by
      rw [Matrix.transpose_smul, mat_symm (I := o.mcc) (diagonal_symmetric (nodeInner_diagonal 1 o.vol))]
    have hA : (o.D * (o.mf.mat ℝ (o.rho m))⁻¹ * o.grad ky + ky ^ 2 • o.mcc.mat ℝ (o.sigma m))ᵀ =
        o.D * (o.mf.mat ℝ (o.rho m))⁻¹ * o.grad ky + ky ^ 2 • o.mcc.mat ℝ (o.sigma m) := by
      rw [Matrix.transpose_add, hc]
      exact congrArg (· + _) hs
    unfold Cell2.getA
    by_cases hn : o.bc = .neumann
    · simp only [hn, if_true]
      rw [Matrix.transpose_add, hA, Matrix.transpose_single]
    · simp only [hn, if_false]
      exact hA
  · have h1 := cell_pair (Cell2.cell o ky) m hI hρ u x v
    unfold Cell.aDeriv Cell.aDerivT at h1
    rw [cell2_grad] at h1
    have hm := C67_derivative (𝕜 := ℝ) true o.mcc (fun _ => nodeInner_diagonal 1 o.vol) hσ u
    change o.aDeriv ky m u v ⬝ᵥ x = v ⬝ᵥ o.aDerivT ky m u x
    unfold Cell2.aDeriv Cell2.aDerivT
    have h2 : (stash true o.mcc (o.sigmaD m)).mul u v ⬝ᵥ x =
        v ⬝ᵥ (stash true o.mcc (o.sigmaD m)).mulT u x := by
      rw [hm.2.1 v, hm.2.2 x, dot_transpose]
    rw [add_dotProduct, dotProduct_add, smul_dotProduct, dotProduct_smul, h2]
    refine congrArg (· + _) ?_
    exact h1

/-! ### Nodal formulation -/

variable [DecidableEq s]

/-- The 3D formulation with the operators of one wavenumber. -/
def Nodal2.nodal (o : Nodal2 p s e n) (ky : ℝ) (i0 : n) : Nodal p s e n :=
  { G := o.G, me := o.me, fast := o.fast, avg := o.avg ky, neumann := o.neumann, i0 := i0,
    sigma := o.sigma, sigmaD := o.sigmaD }

/-- The derivative of the system matrix times a vector. -/
def nodal2D (o : Nodal2 p s e n) (K : Matrix n p ℝ) (ky : ℝ) (m : p → ℝ) (u : n → ℝ) :
    Matrix n p ℝ :=
  o.Gᵀ * (stash o.fast o.me (o.sigmaD m)).toMat (o.G *ᵥ u) +
    ky ^ 2 • (stash true o.mn (o.sigmaD m)).toMat u +
    (if o.neumann then 0 else diagonal u * K)

theorem nodal2_aDeriv (o : Nodal2 p s e n) (K : Matrix n p ℝ) (ky : ℝ) (m : p → ℝ)
    (hI : o.fast = true → Diagonal o.me) (hσ : IsJacobian o.sigma (o.sigmaD m) m) (u : n → ℝ)
    (v : p → ℝ) : o.aDerivK K ky m u v = nodal2D o K ky m u *ᵥ v := by
  have h1 := (C67_derivative (𝕜 := ℝ) o.fast o.me hI hσ (o.G *ᵥ u)).2.1 v
  have h2 := (C67_derivative (𝕜 := ℝ) true o.mn (fun _ => nodeInner_diagonal o.ave o.vol) hσ u).2.1 v
  unfold Nodal2.aDerivK nodal2D
  rw [h1, h2, Matrix.add_mulVec, Matrix.add_mulVec, ← Matrix.mulVec_mulVec, Matrix.smul_mulVec]
  by_cases hn : o.neumann = true
  · simp [hn]
  · simp only [hn, if_false, Bool.false_eq_true]
    congr 1
    rw [← Matrix.mulVec_mulVec]
    funext i
    rw [Matrix.mulVec_diagonal]
    rfl

theorem nodal2_pair (o : Nodal2 p s e n) (K : Matrix n p ℝ) (ky : ℝ) (m : p → ℝ)
    (hI : o.fast = true → Diagonal o.me) (hσ : IsJacobian o.sigma (o.sigmaD m) m) (u x : n → ℝ)
    (v : p → ℝ) : o.aDerivK K ky m u v ⬝ᵥ x = v ⬝ᵥ o.aDerivTK K ky m u x := by
  have h1 := (C67_derivative (𝕜 := ℝ) o.fast o.me hI hσ (o.G *ᵥ u)).2.1 v
  have h2 := (C67_derivative (𝕜 := ℝ) o.fast o.me hI hσ (o.G *ᵥ u)).2.2 (o.G *ᵥ x)
  have h3 := C67_derivative (𝕜 := ℝ) true o.mn (fun _ => nodeInner_diagonal o.ave o.vol) hσ u
  have key : (o.Gᵀ *ᵥ (stash o.fast o.me (o.sigmaD m)).mul (o.G *ᵥ u) v +
      ky ^ 2 • (stash true o.mn (o.sigmaD m)).mul u v) ⬝ᵥ x =
      v ⬝ᵥ ((stash o.fast o.me (o.sigmaD m)).mulT (o.G *ᵥ u) (o.G *ᵥ x) +
        ky ^ 2 • (stash true o.mn (o.sigmaD m)).mulT u x) := by
    rw [h1, h2, h3.2.1 v, h3.2.2 x, add_dotProduct, dotProduct_add, smul_dotProduct,
      dotProduct_smul, dot_transpose, Matrix.transpose_transpose, dot_transpose, dot_transpose]
  unfold Nodal2.aDerivK Nodal2.aDerivTK
  by_cases hn : o.neumann = true
  · simpa [hn] using key
  · simp only [hn, if_false, Bool.false_eq_true]
    rw [add_dotProduct _ _ x, dotProduct_add v, key]
    congr 1
    simp only [Stash.mul, Stash.mulT]
    rw [Matrix.dotProduct_mulVec, Matrix.vecMul_transpose]
    simp only [dotProduct]
    exact Finset.sum_congr rfl fun i _ => by ring

theorem nodal2_jac (o : Nodal2 p s e n) (ky : ℝ) (m : p → ℝ)
    (hI : o.fast = true → Diagonal o.me) (hσ : IsJacobian o.sigma (o.sigmaD m) m) (u : n → ℝ) :
    IsJacobian (fun y => o.getA ky y *ᵥ u) (nodal2D o (o.avg ky * o.sigmaD m) ky m u) m := by
  rcases isEmpty_or_nonempty n with hn | ⟨⟨i0⟩⟩
  · rw [isJacobian_iff]; intro i; exact hn.elim i
  have hb := nodal_base (Nodal2.nodal o ky i0) m hI hσ u
  have hc := nodal_bc (Nodal2.nodal o ky i0) m hσ u
  have hm := isJacK_real.1 (C67_derivative (𝕜 := ℝ) true o.mn
    (fun _ => nodeInner_diagonal o.ave o.vol) hσ u).1
  have hsum := hb.add (hm.smul (ky ^ 2))
  unfold Nodal2.getA nodal2D
  by_cases hn : o.neumann = true
  · simp only [hn, if_true, add_zero]
    refine hsum.congr (Filter.Eventually.of_forall fun y => ?_)
    simp only [Matrix.add_mulVec, Matrix.smul_mulVec]
    rfl
  · simp only [hn, if_false, Bool.false_eq_true]
    refine (hsum.add hc).congr (Filter.Eventually.of_forall fun y => ?_)
    simp only [Matrix.add_mulVec, Matrix.smul_mulVec]
    rfl

/-- **C103 (nodal, exact).** On a simulation which remembers no boundary derivatives `getADeriv` is the
derivative of the system matrix, for both boundary conditions. -/
theorem C103_nodal_exact (o : Nodal2 p s e n) (ky : ℝ) (m : p → ℝ)
    (hI : o.fast = true → Diagonal o.me) (hσ : IsJacobian o.sigma (o.sigmaD m) m)
    (hdet : (o.getA ky m).det ≠ 0) : Exact2 (o.form fun _ => none) ky m :=
  ⟨hdet, fun u => ⟨_, nodal2_jac o ky m hI hσ u, fun v => nodal2_aDeriv o _ ky m hI hσ u v⟩⟩

/-- **C103 (nodal, adjoint).** The system is symmetric and `getADeriv` has its adjoint, whatever is
remembered: with stale boundary derivatives `Jvec` and `Jtvec` still fit each other. -/
theorem C103_nodal_adjoint (o : Nodal2 p s e n) (c : BCache p n) (ky : ℝ) (m : p → ℝ)
    (hI : o.fast = true → Diagonal o.me) (hS : Symmetric o.me)
    (hσ : IsJacobian o.sigma (o.sigmaD m) m) : Adjoint2 (o.form c) ky m := by
  refine ⟨?_, fun u v x => nodal2_pair o _ ky m hI hσ u x v⟩
  change (o.getA ky m)ᵀ = o.getA ky m
  have h1 : (o.Gᵀ * o.me.mat ℝ (o.sigma m) * o.G + ky ^ 2 • o.mn.mat ℝ (o.sigma m))ᵀ =
      o.Gᵀ * o.me.mat ℝ (o.sigma m) * o.G + ky ^ 2 • o.mn.mat ℝ (o.sigma m) := by
    rw [Matrix.transpose_add, Matrix.transpose_smul,
      mat_symm (I := o.mn) (diagonal_symmetric (nodeInner_diagonal o.ave o.vol))]
    congr 1
    simp [Matrix.transpose_mul, mat_symm hS, Matrix.mul_assoc]
  unfold Nodal2.getA
  by_cases hn : o.neumann = true
  · simpa only [hn, if_true] using h1
  · simp only [hn, if_false, Bool.false_eq_true]
    rw [Matrix.transpose_add, h1, Matrix.diagonal_transpose]

/-! ### What is remembered between calls -/

theorem ret_congr (S S' : Sim2 p n) (hq : S.quad = S'.quad) (hs : S.sources = S'.sources)
    (hA : S.form.A = S'.form.A) (x : Call p)
    (hd : ∀ m, (∀ v, x ≠ .dpred v) → (x = .getJ m ∨ (∃ v, x = .jvec m v) ∨ ∃ w, x = .jtvec m w) →
      ∀ ky, S.form.aDeriv ky m = S'.form.aDeriv ky m ∧ S.form.aDerivT ky m = S'.form.aDerivT ky m) :
    S.ret x = S'.ret x := by
  obtain ⟨⟨A, d, dT⟩, quad, ss⟩ := S
  obtain ⟨⟨A', d', dT'⟩, quad', ss'⟩ := S'
  simp only at hq hs hA
  subst hq hs hA
  have hl : ∀ (m : p → ℝ), (∀ ky, d ky m = d' ky m ∧ dT ky m = dT' ky m) → ∀ (ky wt : ℝ)
      (l : List (Src n Empty)) (w : List ℝ),
      Sim2.srcLoop ⟨⟨A, d, dT⟩, quad, ss⟩ ky wt m l w =
        Sim2.srcLoop ⟨⟨A, d', dT'⟩, quad, ss⟩ ky wt m l w := by
    intro m h ky wt l
    induction l with
    | nil => intro w; rfl
    | cons src l ih =>
      intro w
      simp only [Sim2.srcLoop, ih, Sim2.solve, (h ky).2]
  cases x with
  | dpred m => rfl
  | jvec m v =>
    have h := hd m (fun _ h => nomatch h) (Or.inr (Or.inl ⟨v, rfl⟩))
    simp only at h
    simp only [Sim2.ret, Sim2.Jvec, Sim2.jvecKy, Sim2.du, Sim2.solve, Sim2.nD, (h _).1]
  | jtvec m w =>
    have h := hd m (fun _ => by simp) (Or.inr (Or.inr ⟨w, rfl⟩))
    simp only [Sim2.ret, Sim2.Jtvec, hl m h]
  | getJ m =>
    have h := hd m (fun _ => by simp) (Or.inl rfl)
    simp only at h
    simp only [Sim2.ret, Sim2.getJ, Sim2.rowsKy, Sim2.solve, Sim2.nD, (h _).2]

/-- The model of a call which needs derivatives. -/
def derivModel : Call p → Option (p → ℝ)
  | .dpred _ => none
  | .jvec m _ => some m
  | .jtvec m _ => some m
  | .getJ m => some m

/-- **C104 (histories).** On a nodal simulation, any sequence of calls returns what a new simulation
object returns for each of them: with the Neumann condition always, with the Robin condition when the
derivative of the conductivity is the same at all the models for which sensitivities are asked (for
instance because the map is linear).  Missing: maps such as the exponential map, see
`C104_violated_stale`. -/
theorem C104_history_partial (o : Nodal2 p s e n) (quad : List (ℝ × ℝ)) (ss : List (Src n Empty))
    (xs : List (Call p))
    (h : o.neumann = true ∨ ∃ D, ∀ x ∈ xs, ∀ m, derivModel x = some m → o.sigmaD m = D) :
    o.run quad ss (fun _ => none) xs = xs.map (o.sim quad ss fun _ => none).ret := by
  rcases h with hn | ⟨D, hD⟩
  · have key : ∀ (xs : List (Call p)) (c : BCache p n),
        o.run quad ss c xs = xs.map (o.sim quad ss fun _ => none).ret := by
      intro xs
      induction xs with
      | nil => intro c; rfl
      | cons x xs ih =>
        intro c
        simp only [Nodal2.run, List.map_cons, ih]
        refine congrArg (· :: _) ?_
        refine ret_congr (o.sim quad ss c) (o.sim quad ss fun _ => none) rfl rfl rfl x
          fun m _ _ ky => ?_
        constructor
        · funext u v; simp [Nodal2.sim, Nodal2.form, Nodal2.aDerivK, hn]
        · funext u w; simp [Nodal2.sim, Nodal2.form, Nodal2.aDerivTK, hn]
    exact key xs _
  · have key : ∀ (xs : List (Call p)) (c : BCache p n),
        (∀ ky K, c ky = some K → K = o.avg ky * D) →
        (∀ x ∈ xs, ∀ m, derivModel x = some m → o.sigmaD m = D) →
        o.run quad ss c xs = xs.map (o.sim quad ss fun _ => none).ret := by
      intro xs
      induction xs with
      | nil => intro c _ _; rfl
      | cons x xs ih =>
        intro c hc hx
        have hb : ∀ m, o.sigmaD m = D → ∀ ky, o.bK c ky m = o.avg ky * D := by
          intro m hm ky
          unfold Nodal2.bK
          cases hk : c ky with
          | none => simp [hm]
          | some K => simpa using hc ky K hk
        have hfill : ∀ m, o.sigmaD m = D → ∀ ky K, o.fill quad ss c m ky = some K →
            K = o.avg ky * D := by
          intro m hm ky K hK
          unfold Nodal2.fill at hK
          split at hK
          · have := Option.some.inj hK
            rw [← this, hb m hm ky]
          · exact hc ky K hK
        simp only [Nodal2.run, List.map_cons]
        refine congrArg₂ _ ?_ ?_
        · refine ret_congr (o.sim quad ss c) (o.sim quad ss fun _ => none) rfl rfl rfl x
            fun m _ hm ky => ?_
          have hm' : o.sigmaD m = D := by
            refine hx x (by simp) m ?_
            rcases hm with rfl | ⟨v, rfl⟩ | ⟨w, rfl⟩ <;> rfl
          have e : o.bK c ky m = o.bK (fun _ => none) ky m := by
            rw [hb m hm' ky]; simp [Nodal2.bK, hm']
          constructor <;> simp only [Nodal2.sim, Nodal2.form, e]
        · refine ih _ ?_ fun y hy => hx y (by simp [hy])
          cases x with
          | dpred m => exact hc
          | jvec m v => exact hfill m (hx _ List.mem_cons_self m rfl)
          | jtvec m w => exact hfill m (hx _ List.mem_cons_self m rfl)
          | getJ m => exact hfill m (hx _ List.mem_cons_self m rfl)
    exact key xs _ (fun _ _ hK => nomatch hK) hD

/-- One node, the exponential map, and a Robin condition. -/
def exNodal2 : Nodal2 (Fin 1) (Fin 1) (Fin 1) (Fin 1) :=
  { G := 0, me := ⟨fun _ _ _ => 1⟩, fast := true, ave := 1, vol := fun _ => 1, avg := fun _ => 1,
    neumann := false, sigma := fun m i => Real.exp (m i),
    sigmaD := fun m => diagonal fun i => Real.exp (m i) }

/-- A unit current into the node, and the potential of the node. -/
def exSrc2 : Src (Fin 1) Empty :=
  { q := fun _ => 1, rx := [{ nD := 1, field := .phi, Pphi := 1, Pe := 0, geom := none }] }

theorem exNodal2_sigma (m : Fin 1 → ℝ) : IsJacobian exNodal2.sigma (exNodal2.sigmaD m) m := by
  rw [isJacobian_iff]
  intro i
  have h : HasFDerivAt (fun y : Fin 1 → ℝ => Real.exp (y i))
      (Real.exp (m i) • (ContinuousLinearMap.proj i : (Fin 1 → ℝ) →L[ℝ] ℝ)) m :=
    (hasFDerivAt_apply (𝕜 := ℝ) i m).exp
  refine h.congr_fderiv ?_
  ext v
  fin_cases i
  simp [exNodal2, dotProduct]

theorem exNodal2_A (ky : ℝ) (m : Fin 1 → ℝ) :
    exNodal2.getA ky m = diagonal fun _ => (ky ^ 2 + 1) * Real.exp (m 0) := by
  ext i j
  fin_cases i; fin_cases j
  simp [exNodal2, Nodal2.getA, Nodal2.mn, nodeInner, Inner.mat]
  ring

theorem exNodal2_inv (m : Fin 1 → ℝ) :
    (exNodal2.getA 1 m)⁻¹ = diagonal fun _ => (2 * Real.exp (m 0))⁻¹ := by
  refine Matrix.inv_eq_left_inv ?_
  rw [exNodal2_A]
  ext i j
  fin_cases i; fin_cases j
  have := (Real.exp_pos (m 0)).ne'
  simp
  field_simp
  norm_num

theorem exNodal2_det (ky : ℝ) (m : Fin 1 → ℝ) : (exNodal2.getA ky m).det ≠ 0 := by
  rw [exNodal2_A, Matrix.det_diagonal]
  simp only [Finset.univ_unique, Finset.prod_const, Finset.card_singleton, pow_one]
  positivity

theorem exNodal2_jvec (c : BCache (Fin 1) (Fin 1)) (m v : Fin 1 → ℝ) :
    (exNodal2.sim [(1, 1)] [exSrc2] c).Jvec m v =
      [-((2 * Real.exp (m 0))⁻¹ ^ 2 * (Real.exp (m 0) + exNodal2.bK c 1 m 0 0)) * v 0] := by
  have h : (exNodal2.sim [(1, 1)] [exSrc2] c).Jvec m v =
      [0 + 1 * ((1 : Matrix (Fin 1) (Fin 1) ℝ) *ᵥ ((exNodal2.getA 1 m)⁻¹ *ᵥ
        -(exNodal2.aDerivK (exNodal2.bK c 1 m) 1 m ((exNodal2.getA 1 m)⁻¹ *ᵥ fun _ => 1) v))) 0] := rfl
  rw [h, exNodal2_inv]
  simp [exNodal2, Nodal2.aDerivK, Nodal2.mn, nodeInner, stash, Stash.mul, Inner.deriv,
    Matrix.mulVec, dotProduct]
  ring_nf

/-- **C104, violated.** After sensitivities for one model, those for another model are wrong with the
Robin condition and the exponential map: the boundary derivative of the first model is never
dropped.  Here the second `Jvec` should be `-1/4`. -/
theorem C104_violated_stale : ∃ (o : Nodal2 (Fin 1) (Fin 1) (Fin 1) (Fin 1)) (quad : List (ℝ × ℝ))
    (ss : List (Src (Fin 1) Empty)) (m₁ m₂ v : Fin 1 → ℝ),
    (∀ m, IsJacobian o.sigma (o.sigmaD m) m) ∧ (∀ ky m, (o.getA ky m).det ≠ 0) ∧
    (∃ J, ListDeriv (o.sim quad ss fun _ => none).dpred J m₂ ∧ J v = [-1 / 4]) ∧
    o.run quad ss (fun _ => none) [.jvec m₁ v, .jvec m₂ v] = [.data [-1 / 2], .data [-3 / 16]] := by
  refine ⟨exNodal2, [(1, 1)], [exSrc2], fun _ => 0, fun _ => Real.log 2, fun _ => 1,
    exNodal2_sigma, exNodal2_det, ⟨_, C103_exact _ _ fun k _ => C103_nodal_exact _ _ _
      (fun _ i j _ h => absurd (Subsingleton.elim i j) h) (exNodal2_sigma _) (exNodal2_det _ _), ?_⟩, ?_⟩
  · rw [exNodal2_jvec]
    have e : exNodal2.bK (fun _ => none) 1 (fun _ => Real.log 2) 0 0 = 2 := by
      simp [Nodal2.bK, exNodal2, Real.exp_log]
    rw [e, Real.exp_log (by norm_num)]
    norm_num
  · simp only [Nodal2.run, Nodal2.after, Sim2.ret, exNodal2_jvec]
    have e1 : exNodal2.bK (fun _ => none) 1 (fun _ => 0) 0 0 = 1 := by
      simp [Nodal2.bK, exNodal2]
    have e2 : exNodal2.bK (exNodal2.fill [(1, 1)] [exSrc2] (fun _ => none) fun _ => 0) 1
        (fun _ => Real.log 2) 0 0 = 1 := by
      simp [Nodal2.bK, Nodal2.fill, exNodal2]
    rw [e1, e2, Real.exp_log (by norm_num), Real.exp_zero]
    norm_num

/-- Non-vacuity of `C103_adjoint` and `C103_stored`: the nodal example, for two wavenumbers. -/
example (m v : Fin 1 → ℝ) (w : List ℝ) :
    let S := exNodal2.sim [(1, 1), (2, 3)] [exSrc2] fun _ => none
    dotList (S.Jvec m v) w = v ⬝ᵥ S.Jtvec m w ∧
    (S.getJ m).map (fun row => row ⬝ᵥ v) = S.Jvec m v ∧ ListDeriv S.dpred (S.Jvec m) m := by
  have hI : exNodal2.fast = true → Diagonal exNodal2.me :=
    fun _ i j _ h => absurd (Subsingleton.elim i j) h
  refine ⟨C103_adjoint _ _ (fun k _ => ?_) v w, C103_stored _ _ (fun k _ => ?_) v,
    C103_exact _ _ fun k _ => C103_nodal_exact _ _ _ hI (exNodal2_sigma _) (exNodal2_det _ _)⟩
  all_goals exact C103_nodal_adjoint _ _ _ _ hI (diagonal_symmetric (hI rfl)) (exNodal2_sigma _)

/-- Non-vacuity of `C104_history_partial`: derivatives at one model, data at others. -/
example (m m' v : Fin 1 → ℝ) (w : List ℝ) :
    exNodal2.run [(1, 1)] [exSrc2] (fun _ => none) [.jvec m v, .dpred m', .jtvec m w] =
      [.jvec m v, .dpred m', .jtvec m w].map (exNodal2.sim [(1, 1)] [exSrc2] fun _ => none).ret := by
  refine C104_history_partial _ _ _ _ (Or.inr ⟨exNodal2.sigmaD m, ?_⟩)
  intro x hx m₀ h
  simp only [List.mem_cons, List.not_mem_nil, or_false] at hx
  rcases hx with rfl | rfl | rfl <;> simp [derivModel] at h <;> rw [h]

/-- One cell with one face and resistivity `m`. -/
def exCell2 : Cell2 (Fin 1) (Fin 1) (Fin 1) :=
  { D := 1, B := fun _ => 0, mf := ⟨fun _ _ _ => 1⟩, fast := true, vol := fun _ => 1, bc := .neumann,
    i0 := 0, rho := fun m i => Real.exp (m i), rhoD := fun m => diagonal fun i => Real.exp (m i),
    sigma := fun m i => Real.exp (-m i), sigmaD := fun m => diagonal fun i => -Real.exp (-m i) }

/-- Non-vacuity of `C103_cell_exact` and `C103_cell_adjoint`. -/
example (ky : ℝ) (m : Fin 1 → ℝ) : Exact2 exCell2.form ky m ∧ Adjoint2 exCell2.form ky m := by
  have hI : Diagonal exCell2.mf := fun i j _ h => absurd (Subsingleton.elim i j) h
  have hσ : IsJacobian exCell2.sigma (exCell2.sigmaD m) m := by
    rw [isJacobian_iff]
    intro i
    have h := (hasFDerivAt_apply (𝕜 := ℝ) i m).neg.exp
    refine h.congr_fderiv ?_
    ext v
    fin_cases i
    simp [exCell2, dotProduct]
  have h0 : ∀ i, exCell2.mf.mat ℝ (exCell2.rho m) i i ≠ 0 := by
    intro i
    have := (Real.exp_pos (m 0)).ne'
    simpa [Inner.mat, exCell2] using this
  have hinv : (exCell2.mf.mat ℝ (exCell2.rho m))⁻¹ = diagonal fun _ => Real.exp (-m 0) := by
    refine Matrix.inv_eq_left_inv ?_
    ext i j
    fin_cases i; fin_cases j
    simp [Inner.mat, exCell2, ← Real.exp_add]
  have hdet : (exCell2.getA ky m).det ≠ 0 := by
    unfold Cell2.getA
    rw [hinv]
    simp [exCell2, Cell2.grad, Cell2.mcc, nodeInner, Inner.mat, Matrix.det_fin_one]
    positivity
  exact ⟨C103_cell_exact _ _ _ hI (exNodal2_sigma m) hσ h0 hdet,
    C103_cell_adjoint _ _ _ hI (exNodal2_sigma m) hσ h0 fun _ i c c' h => absurd rfl h⟩

end

end Verif.DC.Props
