import Verif.Seismic.Ray
import Verif.Jacobian
import Mathlib.Analysis.SpecialFunctions.ExpDeriv
import Mathlib.Analysis.SpecialFunctions.Trigonometric.Basic

/-!
Linear simulations (`simpeg/simulation.py` 610-975: `LinearSimulation` and
`ExponentialSinusoidSimulation`; `simpeg/seismic/straight_ray_tomography/simulation.py`:
`Simulation2DIntegral`) and the time mesh of time domain simulations
(`simpeg/simulation.py` 437-603).

Simplified: numbers are reals; the mapping from the model is an arbitrary function with an arbitrary
derivative; `discretize` is modelled by what its operators mean on one-dimensional tensor meshes.
-/

namespace Verif.Linear
open Matrix

noncomputable section

variable {p k d : Type} [Fintype p] [Fintype k] [Fintype d]

/-- `LinearSimulation` (610-754): `G`, `model_map` and its derivative. -/
structure Lin (p k d : Type) where
  G : Matrix d k ℝ
  f : (p → ℝ) → k → ℝ
  fD : (p → ℝ) → Matrix k p ℝ

/-- `fields(m)` (684-687). -/
def Lin.fields (o : Lin p k d) (m : p → ℝ) : d → ℝ := o.G *ᵥ o.f m

/-- `getJ(m)` (697-739): `(model_deriv.T.dot(G.T)).T`. -/
def Lin.getJ (o : Lin p k d) (m : p → ℝ) : Matrix d p ℝ := ((o.fD m)ᵀ * o.Gᵀ)ᵀ

/-- `Jvec(m, v)` (741-744). -/
def Lin.Jvec (o : Lin p k d) (m v : p → ℝ) : d → ℝ := o.G *ᵥ (o.fD m *ᵥ v)

/-- `Jtvec(m, v)` (746-749). -/
def Lin.Jtvec (o : Lin p k d) (m : p → ℝ) (w : d → ℝ) : p → ℝ := (o.fD m)ᵀ *ᵥ (o.Gᵀ *ᵥ w)

/-- Calls of the simulation.  `dpred` has an optional model and optional fields. -/
inductive LCall (p d : Type)
  | fields (m : p → ℝ)
  | dpred (m : Option (p → ℝ)) (f : Option (d → ℝ))
  | jvec (m v : p → ℝ)
  | jtvec (m : p → ℝ) (w : d → ℝ)

/-- Answers. -/
inductive LRet (p d : Type)
  | data (x : d → ℝ)
  | model (x : p → ℝ)

/-- One call: the model kept by the object and the answer.  `self.model = m` in every method (684-749);
`dpred` without a model and without fields uses the kept model (689-695), and raises if there is none
(`linear_model` of a map without a model raises `AttributeError`, `props.py`). -/
def Lin.call (o : Lin p k d) (s : Option (p → ℝ)) :
    LCall p d → Option (p → ℝ) × Except Err (LRet p d)
  | .fields m => (some m, .ok (.data (o.fields m)))
  | .dpred m f =>
    let s := m.or s
    match f with
    | some f => (s, .ok (.data f))
    | none => match s with
      | none => (s, .error .attributeError)
      | some m => (some m, .ok (.data (o.fields m)))
  | .jvec m v => (some m, .ok (.data (o.Jvec m v)))
  | .jtvec m w => (some m, .ok (.model (o.Jtvec m w)))

/-- A sequence of calls. -/
def Lin.run (o : Lin p k d) : Option (p → ℝ) → List (LCall p d) → List (Except Err (LRet p d))
  | _, [] => []
  | s, c :: cs => (o.call s c).2 :: o.run (o.call s c).1 cs

/-! ### Kernels -/

/-- A one-dimensional tensor mesh: nodes `x 0, …, x n`. -/
structure Mesh1 where
  n : Nat
  x : Nat → ℝ

/-- Settings of `ExponentialSinusoidSimulation` (820-908). -/
structure Kern where
  nk : Nat
  p : ℝ
  q : ℝ
  j0 : ℝ
  jn : ℝ

/-- `np.linspace(j0, jn, n_kernels)` (910-922). -/
def Kern.jk (K : Kern) (i : Nat) : ℝ :=
  if K.nk ≤ 1 then K.j0 else K.j0 + i * ((K.jn - K.j0) / (K.nk - 1))

/-- `g(k)` at one position (924-942). -/
def kernel (p q j x : ℝ) : ℝ := Real.exp (p * j * x) * Real.cos (Real.pi * q * j * x)

/-- `G` (944-973) for given factors: `(average_node_to_cell @ G_nodes).T @ sdiag(cell_volumes)`; on a
one-dimensional mesh the average of the two nodes and the width of the cell. -/
def kernG (M : Mesh1) (K : Kern) (jk : Nat → ℝ) : Matrix (Fin K.nk) (Fin M.n) ℝ := fun i c =>
  (kernel K.p K.q (jk i) (M.x c) + kernel K.p K.q (jk i) (M.x (c + 1))) / 2 * (M.x (c + 1) - M.x c)

/-- The object with its lazily filled attributes `_jk` and `_G` (a matrix with its own number of rows). -/
structure KSim (M : Mesh1) where
  K : Kern
  jk : Option (Nat → ℝ) := none
  G : Option (Σ n, Matrix (Fin n) (Fin M.n) ℝ) := none

/-- Operations on the object. -/
inductive KOp
  | set (K : Kern)
  | getJk
  | getG

/-- `jk` (910-922). -/
def KSim.readJk {M : Mesh1} (s : KSim M) : (Nat → ℝ) × KSim M :=
  match s.jk with
  | some j => (j, s)
  | none => (s.K.jk, { s with jk := some s.K.jk })

/-- `G` (944-973). -/
def KSim.readG {M : Mesh1} (s : KSim M) : (Σ n, Matrix (Fin n) (Fin M.n) ℝ) × KSim M :=
  match s.G with
  | some G => (G, s)
  | none =>
    let r := s.readJk
    let G : Σ n, Matrix (Fin n) (Fin M.n) ℝ := ⟨s.K.nk, kernG M s.K r.1⟩
    (G, { r.2 with G := some G })

/-- One operation.  The setters (838-908) only assign. -/
def KSim.step {M : Mesh1} (s : KSim M) : KOp → KSim M
  | .set K => { s with K := K }
  | .getJk => s.readJk.2
  | .getG => s.readG.2

/-! ### Straight rays -/

/-- `Simulation2DIntegral` with the lazily filled attribute `_A` (`straight_ray_tomography/simulation.py`
99-115).  Neither the setter of the mesh (90-97) nor that of the survey clears it. -/
structure RSim where
  mesh : Seismic.Mesh2
  survey : List Seismic.RaySrc
  A : Option (List (Nat → ℝ)) := none

/-- Operations. -/
inductive ROp
  | mesh (M : Seismic.Mesh2)
  | survey (ss : List Seismic.RaySrc)
  | fields (s : Nat → ℝ)

/-- `fields` (117-119) with the kept matrix; the number of columns is that of the mesh.  Sizes of a kept
matrix are not compared here. -/
def RSim.step (r : RSim) : ROp → RSim × Option (List ℝ)
  | .mesh M => ({ r with mesh := M }, none)
  | .survey ss => ({ r with survey := ss }, none)
  | .fields s =>
    let A := r.A.getD (Seismic.rows r.mesh r.survey)
    ({ r with A := some A },
      some (A.map fun row => ∑ k ∈ Finset.range (r.mesh.nx * r.mesh.ny), row k * s k))

/-- A sequence of operations. -/
def RSim.run : RSim → List ROp → List (Option (List ℝ))
  | _, [] => []
  | r, x :: xs => (r.step x).2 :: (r.step x).1.run xs

/-! ### Time meshes -/

/-- An entry of the list handed to `time_steps`: a length, or a length with a number of repetitions, or
these with a factor of growth (`discretize.utils.unpack_widths`, as documented there). -/
inductive Step
  | one (h : ℝ)
  | rep (h : ℝ) (n : Nat)
  | grow (h : ℝ) (n : Nat) (a : ℝ)

/-- `unpack_widths`: `(h, n, a)` stands for `h a, h a², …, h aⁿ` for positive `a` (for a negative factor
the list is reversed). -/
def unpack : List Step → List ℝ
  | [] => []
  | .one h :: l => h :: unpack l
  | .rep h n :: l => List.replicate n h ++ unpack l
  | .grow h n a :: l =>
    let w := (List.range n).map fun i => h * |a| ^ (i + 1)
    (if 0 < a then w else w.reverse) ++ unpack l

/-- `time_mesh.nodes_x` (589-602): the first node and the running sums of the widths. -/
def nodes (t0 : ℝ) : List ℝ → List ℝ
  | [] => [t0]
  | h :: l => t0 :: nodes (t0 + h) l

/-- `BaseTimeSimulation` (437-603): `t0`, `time_steps` and the kept time mesh. -/
structure TSim where
  t0 : ℝ
  steps : List ℝ
  mesh : Option (ℝ × List ℝ) := none

/-- Operations: assigning `time_steps` as an array or in compact form, `t0`, and reading `times` and `nT`. -/
inductive TOp
  | steps (l : List ℝ)
  | compact (l : List Step)
  | t0 (t : ℝ)
  | times

/-- One operation (481-602). -/
def TSim.step (s : TSim) : TOp → TSim × Option (List ℝ × Nat)
  | .steps l => ({ s with steps := l, mesh := none }, none)
  | .compact l => ({ s with steps := unpack l, mesh := none }, none)
  | .t0 t => ({ s with t0 := t, mesh := none }, none)
  | .times =>
    let M := s.mesh.getD (s.t0, s.steps)
    ({ s with mesh := some M }, some (nodes M.1 M.2, M.2.length))

/-- A sequence of operations. -/
def TSim.run : TSim → List TOp → List (Option (List ℝ × Nat))
  | _, [] => []
  | s, x :: xs => (s.step x).2 :: (s.step x).1.run xs

/-! ### Specification -/

/-- The model of the last call which was given one. -/
def lastModel : Option (p → ℝ) → List (LCall p d) → Option (p → ℝ)
  | s, [] => s
  | _, .fields m :: cs => lastModel (some m) cs
  | s, .dpred none _ :: cs => lastModel s cs
  | _, .dpred (some m) _ :: cs => lastModel (some m) cs
  | _, .jvec m _ :: cs => lastModel (some m) cs
  | _, .jtvec m _ :: cs => lastModel (some m) cs

/-- Times at which the fields are computed and number of steps, for the present settings. -/
def expectedTimes : ℝ → List ℝ → List TOp → List (Option (List ℝ × Nat))
  | _, _, [] => []
  | t, _, .steps l :: ops => none :: expectedTimes t l ops
  | t, _, .compact l :: ops => none :: expectedTimes t (unpack l) ops
  | _, l, .t0 t :: ops => none :: expectedTimes t l ops
  | t, l, .times :: ops =>
    some ((List.range (l.length + 1)).map (fun i => t + (l.take i).sum), l.length) ::
      expectedTimes t l ops

/-! ### Property theorems -/

/-- **C108 (sensitivity).** `getJ` is the derivative of the data with respect to the model, `Jvec` and
`Jtvec` are its products. -/
theorem C108_sensitivity (o : Lin p k d) (m : p → ℝ) (hf : IsJacobian o.f (o.fD m) m) :
    IsJacobian o.fields (o.getJ m) m ∧ (∀ v, o.Jvec m v = o.getJ m *ᵥ v) ∧
      ∀ w, o.Jtvec m w = (o.getJ m)ᵀ *ᵥ w := by
  have hJ : o.getJ m = o.G * o.fD m := by simp [Lin.getJ, transpose_mul]
  refine ⟨?_, fun v => ?_, fun w => ?_⟩
  · rw [hJ]; exact hf.mulVec o.G
  · rw [hJ, ← mulVec_mulVec]; rfl
  · rw [hJ, transpose_mul, ← mulVec_mulVec]; rfl

/-- **C108 (histories).** Data predicted without a model are those of the last model handed to the
simulation, whatever was computed in between; with a model they are those of that model. -/
theorem C108_history (o : Lin p k d) (s : Option (p → ℝ)) (cs : List (LCall p d)) :
    (o.run s (cs ++ [.dpred none none])).getLast? =
      some (match lastModel s cs with
        | none => .error .attributeError
        | some m => .ok (.data (o.fields m))) ∧
    ∀ m, (o.run s (cs ++ [.dpred (some m) none])).getLast? = some (.ok (.data (o.fields m))) := by
  have hne : ∀ (s : Option (p → ℝ)) (cs : List (LCall p d)) c, o.run s (cs ++ [c]) ≠ [] := by
    intro s cs c
    cases cs <;> simp [Lin.run]
  induction cs generalizing s with
  | nil =>
    refine ⟨?_, fun m => rfl⟩
    cases s <;> rfl
  | cons c cs ih =>
    have hcons : ∀ e, (o.run s (c :: cs ++ [e])).getLast? =
        (o.run (o.call s c).1 (cs ++ [e])).getLast? := by
      intro e
      show ((o.call s c).2 :: o.run (o.call s c).1 (cs ++ [e])).getLast? = _
      rw [List.getLast?_cons]
      cases h : (o.run (o.call s c).1 (cs ++ [e])).getLast? with
      | none => exact absurd (List.getLast?_eq_none_iff.1 h) (hne _ _ _)
      | some v => rfl
    have hlast : lastModel s (c :: cs) = lastModel (o.call s c).1 cs := by
      cases c with
      | dpred m f => cases m <;> cases f <;> cases s <;> rfl
      | _ => rfl
    refine ⟨?_, fun m => ?_⟩
    · rw [hcons, (ih _).1, hlast]
    · rw [hcons]; exact (ih _).2 m

theorem trap_cell (a b ga gb : ℝ) (h : a < b) :
    ∫ x in a..b, (ga + (x - a) / (b - a) * (gb - ga)) = (ga + gb) / 2 * (b - a) := by
  have hne : b - a ≠ 0 := by linarith
  have : ∀ x, ga + (x - a) / (b - a) * (gb - ga) = (ga - a / (b - a) * (gb - ga)) +
      (gb - ga) / (b - a) * x := by intro x; field_simp; ring
  simp only [this]
  rw [intervalIntegral.integral_add (by simp) (by
    exact (continuous_const.mul continuous_id).intervalIntegrable _ _),
    intervalIntegral.integral_const, intervalIntegral.integral_const_mul, integral_id, smul_eq_mul]
  field_simp
  ring

/-- **C108 (kernels).** A datum of the exponential sinusoids is the integral over the mesh of the model,
which is constant in the cells, times the kernel `exp(p j x) cos(π q j x)` interpolated linearly between
the nodes. -/
theorem C108_kernels (M : Mesh1) (hM : ∀ i < M.n, M.x i < M.x (i + 1)) (K : Kern)
    (m : Fin M.n → ℝ) (i : Fin K.nk) (g : ℝ → ℝ)
    (hg : ∀ x, g x = Real.exp (K.p * K.jk i * x) * Real.cos (Real.pi * K.q * K.jk i * x)) :
    (kernG M K K.jk *ᵥ m) i = ∑ c : Fin M.n, ∫ x in (M.x c)..(M.x (c + 1)),
      (g (M.x c) + (x - M.x c) / (M.x (c + 1) - M.x c) * (g (M.x (c + 1)) - g (M.x c))) * m c := by
  obtain rfl : g = kernel K.p K.q (K.jk i) := funext hg
  show ∑ c, kernG M K K.jk i c * m c = _
  refine Finset.sum_congr rfl fun c _ => ?_
  rw [intervalIntegral.integral_mul_const, trap_cell _ _ _ _ (hM c c.2)]
  rfl

/-- **C108 (kernel factors).** There are `n_kernels` equally spaced factors from `j0` to `jn`. -/
theorem C108_factors (K : Kern) (h : 2 ≤ K.nk) :
    K.jk 0 = K.j0 ∧ K.jk (K.nk - 1) = K.jn ∧
      ∀ i, K.jk (i + 1) - K.jk i = (K.jn - K.j0) / (K.nk - 1) := by
  have h1 : ¬ K.nk ≤ 1 := by omega
  have h2 : (K.nk : ℝ) - 1 ≠ 0 := by
    have : (2:ℝ) ≤ K.nk := by exact_mod_cast h
    linarith
  unfold Kern.jk
  simp only [h1, if_false]
  refine ⟨by simp, ?_, fun i => ?_⟩
  · rw [Nat.cast_sub (by omega), Nat.cast_one]
    field_simp
    ring
  · push_cast; ring

/-- **C108 (settings of the kernels), partial.** The matrix is that of the settings at the time when it
was used first, if the factors were not read before; missing: changes afterwards
(`C108_violated_settings`). -/
theorem C108_settings_partial (M : Mesh1) (K : Kern) (Ks : List Kern) :
    (((Ks.map KOp.set).foldl KSim.step ({ K := K } : KSim M)).readG).1 =
      ⟨((K :: Ks).getLast (by simp)).nk, kernG M ((K :: Ks).getLast (by simp)) ((K :: Ks).getLast (by simp)).jk⟩ := by
  induction Ks generalizing K with
  | nil => rfl
  | cons L Ks ih =>
    simp only [List.map_cons, List.foldl_cons]
    rw [show KSim.step ({ K := K } : KSim M) (.set L) = { K := L } from rfl, ih L]
    simp only [List.getLast_cons_cons]

/-- **C108, violated (settings of the kernels).** After the matrix was used, changes of the number of
kernels have no effect. -/
theorem C108_violated_settings (M : Mesh1) :
    ∃ K L : Kern, K.nk ≠ L.nk ∧
      ([KOp.getG, .set L].foldl KSim.step ({ K := K } : KSim M)).readG.1.1 = K.nk :=
  ⟨⟨1, 0, 0, 0, 0⟩, ⟨2, 0, 0, 0, 0⟩, by decide, rfl⟩

/-- **C108, violated (factors of the kernels).** After the factors were read, the matrix combines the old
factors with the new exponents. -/
theorem C108_violated_factors (M : Mesh1) (K L : Kern) :
    ([KOp.getJk, .set L].foldl KSim.step ({ K := K } : KSim M)).readG.1 = ⟨L.nk, kernG M L K.jk⟩ := rfl

/-- **C108, violated (survey of straight rays).** After a prediction, a new survey has no effect: the data
of a survey with one ray are returned for a survey with none. -/
theorem C108_violated_survey :
    (({ mesh := Seismic.twoCells, survey := [⟨(1, 0), [[(1, 1)]]⟩] } : RSim).run
      [.fields fun _ => 1, .survey [], .fields fun _ => 1]) = [some [2], none, some [2]] ∧
    Seismic.times Seismic.twoCells [] (fun _ => 1) = [] := by
  refine ⟨?_, rfl⟩
  have h := Seismic.C107_violated_grid_line.1
  simp only [Seismic.times] at h
  simp only [RSim.run, RSim.step, Option.getD_none, Option.getD_some]
  rw [h]

theorem nodes_eq (t : ℝ) (l : List ℝ) :
    nodes t l = (List.range (l.length + 1)).map fun i => t + (l.take i).sum := by
  induction l generalizing t with
  | nil => simp [nodes]
  | cons h l ih =>
    rw [nodes, ih, List.length_cons, List.range_succ_eq_map (n := l.length + 1)]
    simp [Function.comp_def, add_assoc]

/-- **C109 (times).** After any sequence of assignments the times are those of the present initial time and
steps: the initial time plus the sums of the first steps, one more than there are steps. -/
theorem C109_times (t0 : ℝ) (l : List ℝ) (ops : List TOp) :
    ({ t0 := t0, steps := l } : TSim).run ops = expectedTimes t0 l ops := by
  have key : ∀ (s : TSim), (∀ M, s.mesh = some M → M = (s.t0, s.steps)) →
      s.run ops = expectedTimes s.t0 s.steps ops := by
    induction ops with
    | nil => intro s _; rfl
    | cons x xs ih =>
      intro s hs
      cases x with
      | steps l =>
        simp only [TSim.run, expectedTimes, TSim.step]
        rw [ih _ (fun M h => by simp at h)]
      | compact l =>
        simp only [TSim.run, expectedTimes, TSim.step]
        rw [ih _ (fun M h => by simp at h)]
      | t0 t =>
        simp only [TSim.run, expectedTimes, TSim.step]
        rw [ih _ (fun M h => by simp at h)]
      | times =>
        have hM : s.mesh.getD (s.t0, s.steps) = (s.t0, s.steps) := by
          cases h : s.mesh with
          | none => rfl
          | some M => rw [hs M h]; rfl
        simp only [TSim.run, expectedTimes, TSim.step, hM]
        rw [ih _ (fun M h => by simpa using h.symm), nodes_eq]
  exact key _ (fun M h => by simp at h)

/-- **C109 (compact form).** The compact form stands for the steps written out, as documented: entries in
order, each repeated as often as said; growing entries have the given ratio. -/
theorem C109_compact :
    (∀ l l', unpack (l ++ l') = unpack l ++ unpack l') ∧
    (∀ h : List ℝ, unpack (h.map .one) = h) ∧
    (∀ h n, unpack [.rep h n] = unpack (List.replicate n (.one h))) ∧
    (∀ h n a, 0 < a → ∀ i < n, (unpack [.grow h n a]).getD i 0 = h * a ^ (i + 1)) ∧
    (∀ h n a, (unpack [.grow h n a]).length = n) := by
  refine ⟨fun l l' => ?_, fun h => ?_, fun h n => ?_, fun h n a ha i hi => ?_, fun h n a => ?_⟩
  · induction l with
    | nil => rfl
    | cons x l ih => cases x <;> simp [unpack, ih]
  · induction h with
    | nil => rfl
    | cons x l ih => simp [unpack, ih]
  · induction n with
    | zero => rfl
    | succ n ih =>
      simp only [unpack, List.replicate_succ, List.append_nil] at ih ⊢
      rw [ih]
  · simp [unpack, ha, abs_of_pos ha, hi]
  · unfold unpack unpack
    simp only [List.append_nil]
    split_ifs <;> simp

/-- **C109 (monotone).** With positive steps the times increase strictly. -/
theorem C109_increasing (t : ℝ) (l : List ℝ) (h : ∀ x ∈ l, 0 < x) : (nodes t l).Pairwise (· < ·) := by
  induction l generalizing t with
  | nil => simp [nodes]
  | cons a l ih =>
    have ha : 0 < a := h a List.mem_cons_self
    have ih' := ih (t + a) fun x hx => h x (List.mem_cons_of_mem _ hx)
    rw [nodes, List.pairwise_cons]
    refine ⟨fun z hz => ?_, ih'⟩
    have : ∀ z ∈ nodes (t + a) l, t + a ≤ z := by
      cases l with
      | nil => simp [nodes]
      | cons b l =>
        rw [nodes, List.pairwise_cons] at ih'
        intro z hz
        rw [nodes, List.mem_cons] at hz
        rcases hz with rfl | hz
        · exact le_rfl
        · exact (ih'.1 z hz).le
    linarith [this z hz]

/-- The example of the documentation (459-470). -/
example : unpack [.rep (1/10) 3, .rep 1 2, .rep 10 2] = [1/10, 1/10, 1/10, 1, 1, 10, 10] := rfl

/-- Non-vacuity of `C108_sensitivity` for a mapping which is not linear. -/
example : IsJacobian (fun (m : Fin 1 → ℝ) i => Real.exp (m i)) (diagonal fun i => Real.exp ((0 : Fin 1 → ℝ) i))
    (0 : Fin 1 → ℝ) := by
  rw [isJacobian_iff]
  intro i
  have h := ((hasFDerivAt_apply i (0 : Fin 1 → ℝ)).exp)
  refine h.congr_fderiv ?_
  ext v
  have : (diagonal fun i => Real.exp ((0 : Fin 1 → ℝ) i)) = (1 : Matrix (Fin 1) (Fin 1) ℝ) := by
    ext a b; simp [diagonal, one_apply]
  fin_cases i
  simp [dotProduct]

end

end Verif.Linear
