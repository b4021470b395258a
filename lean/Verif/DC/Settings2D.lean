import Verif.DC.Sim2D
import Mathlib.Analysis.SpecialFunctions.Integrals.Basic
import Mathlib.Analysis.SpecialFunctions.Trigonometric.Basic

/-!
The settings of the 2.5D resistivity simulations and their quadrature
(`simpeg/electromagnetics/static/resistivity/simulation_2d.py` 38-131, 223-242, 565-626, 732-802).
-/

namespace Verif.DC
open Matrix Verif.PDE

noncomputable section

variable {p s e f n : Type} [Fintype p] [Fintype s] [Fintype e] [Fintype f] [Fintype n]
  [DecidableEq e] [DecidableEq f] [DecidableEq n] [DecidableEq s]

/-! ### Settings -/

/-- What a formulation does with its boundary settings.  `uses` says for which boundary conditions a
boundary matrix is used (`bc_type != "Dirichlet"`, 524 and 566; `bc_type != "Neumann"`, 682 and 738),
`make bc surf ky` is the matrix assembled for the wavenumber `ky` and the surface faces `surf`
(573-626, 749-802), and `predict` are the data predicted with given boundary matrices and quadrature. -/
structure Bound (p Surf B : Type) where
  uses : Bc → Bool
  make : Bc → Surf → ℝ → B
  dflt : B
  predict : Bc → List (ℝ × ℝ) → (ℝ → B) → (p → ℝ) → List ℝ

/-- The attributes: `bc_type`, `surface_faces`, `nky`, the quadrature computed by the constructor
(121-122), the boundary matrices kept for every wavenumber (`_MBC`, `_AvgBC`), and whether the
systems have been factored (`self.Ainv`, a list as long as the quadrature, 124). -/
structure St2 (Surf B : Type) where
  bc : Bc
  surf : Surf
  nky : Nat
  quad : List (ℝ × ℝ)
  mats : ℝ → Option B := fun _ => none
  factored : Bool := false

/-- The constructor (38-131): `pts nky` are the quadrature points and weights. -/
def St2.new {Surf B : Type} (pts : Nat → List (ℝ × ℝ)) (bc : Bc) (surf : Surf) (nky : Nat) :
    St2 Surf B := { bc := bc, surf := surf, nky := nky, quad := pts nky }

/-- `setBC(ky)` for every wavenumber (565-626, 732-802): a matrix which is already there is kept. -/
def St2.setBC {Surf B : Type} (W : Bound p Surf B) (t : St2 Surf B) : St2 Surf B :=
  if W.uses t.bc then
    { t with
      mats := fun ky =>
        if ky ∈ t.quad.map Prod.fst then some ((t.mats ky).getD (W.make t.bc t.surf ky))
        else t.mats ky }
  else t

/-- `dpred(m)` (223-242, 250-276): the factors of an earlier call are cleaned in a loop over `nky`
(228-230), which fails when there are fewer of them. -/
def St2.dpred {Surf B : Type} (W : Bound p Surf B) (t : St2 Surf B) (m : p → ℝ) :
    St2 Surf B × Except Err (List ℝ) :=
  if t.factored && decide (t.quad.length < t.nky) then (t, .error .indexError)
  else
    let t := { t.setBC W with factored := true }
    (t, .ok (W.predict t.bc t.quad (fun ky => (t.mats ky).getD W.dflt) m))

/-- What a user does with a simulation. -/
inductive Op2 (p Surf : Type) where
  | bc (b : Bc)
  | surf (x : Surf)
  | nky (k : Nat)
  | dpred (m : p → ℝ)

/-- One step, and the data returned if there are any. -/
def St2.step {Surf B : Type} (W : Bound p Surf B) (t : St2 Surf B) :
    Op2 p Surf → St2 Surf B × Option (Except Err (List ℝ))
  | .bc b => ({ t with bc := b }, none)
  | .surf x => ({ t with surf := x }, none)
  | .nky k => ({ t with nky := k }, none)
  | .dpred m => let r := t.dpred W m; (r.1, some r.2)

/-- The data returned by a sequence of steps. -/
def St2.run {Surf B : Type} (W : Bound p Surf B) :
    St2 Surf B → List (Op2 p Surf) → List (Option (Except Err (List ℝ)))
  | _, [] => []
  | t, x :: xs => (t.step W x).2 :: (t.step W x).1.run W xs

/-- The cell centred simulation with a boundary condition and boundary matrices. -/
def Cell2.simB (o : Cell2 p f n) (b : Bc) (B : ℝ → Matrix f n ℝ) (quad : List (ℝ × ℝ))
    (ss : List (Src n Empty)) : Sim2 p n := ⟨Cell2.form { o with bc := b, B := B }, quad, ss⟩

/-- The nodal simulation with a boundary condition and boundary matrices. -/
def Nodal2.simB (o : Nodal2 p s e n) (b : Bc) (A : ℝ → Matrix n s ℝ) (quad : List (ℝ × ℝ))
    (ss : List (Src n Empty)) : Sim2 p n :=
  ⟨Nodal2.form { o with neumann := decide (b = .neumann), avg := A } fun _ => none, quad, ss⟩

/-- The cell centred formulation as a `Bound`; `make` are the matrices of
`cell_gradient_weak_form_robin` (565-626). -/
def cellBound {Surf : Type} (o : Cell2 p f n) (ss : List (Src n Empty))
    (make : Bc → Surf → ℝ → Matrix f n ℝ) : Bound p Surf (Matrix f n ℝ) :=
  { uses := fun b => b ≠ .dirichlet, make := make, dflt := 0,
    predict := fun b quad B m => (o.simB b B quad ss).dpred m }

/-- The nodal formulation as a `Bound`; the boundary matrix does not depend on the boundary condition
(749-802).  Its `bc_type` cannot be "Dirichlet" (660-664). -/
def nodalBound {Surf : Type} (o : Nodal2 p s e n) (ss : List (Src n Empty))
    (make : Surf → ℝ → Matrix n s ℝ) : Bound p Surf (Matrix n s ℝ) :=
  { uses := fun b => b ≠ .neumann, make := fun _ => make, dflt := 0,
    predict := fun b quad A m => (o.simB b A quad ss).dpred m }

/-! ### Quadrature -/

/-- `np.diff(points) / 2` (114). -/
def halfDiff : List ℝ → List ℝ
  | a :: b :: l => (b - a) / 2 :: halfDiff (b :: l)
  | _ => []

/-- The weights of the trapezoidal rule (111-119), with `y = 0`. -/
def trapWeights (points : List ℝ) : List ℝ :=
  let y : ℝ := 0
  let dky := halfDiff points
  let w := List.zipWith (· + ·) (dky ++ [0]) (0 :: dky)
  let w := List.zipWith (· * ·) w (points.map fun k => Real.cos (k * y))
  let w := w.modify 0 (· + points.headD 0 / 2 * (1 + Real.cos (points.headD 0 * y)))
  w.map (· / Real.pi)

/-- The weights of the optimised quadrature (70-72, 98-100): `A i j = r_i K₀(r_i k_j)`, and half the
solution of the normal equations for a vector of ones. -/
def optWeights {r k : Type} [Fintype r] [Fintype k] [DecidableEq k] (K0 : ℝ → ℝ) (rs : r → ℝ)
    (points : k → ℝ) : k → ℝ :=
  let A : Matrix r k ℝ := fun i j => rs i * K0 (rs i * points j)
  (1 / 2 : ℝ) • ((Aᵀ * A)⁻¹ *ᵥ (Aᵀ *ᵥ fun _ => 1))

end

end Verif.DC

namespace Verif.DC.Props
open Matrix Verif.PDE Verif.PDE.Props Verif.DC

noncomputable section

variable {p s e f n : Type} [Fintype p] [Fintype s] [Fintype e] [Fintype f] [Fintype n]
  [DecidableEq e] [DecidableEq f] [DecidableEq n] [DecidableEq s]

set_option linter.unusedSectionVars false

/-! ### Specification -/

/-- The data of a simulation constructed with the current settings. -/
def fresh {Surf B : Type} (W : Bound p Surf B) (pts : Nat → List (ℝ × ℝ)) (bc : Bc) (surf : Surf)
    (nky : Nat) (m : p → ℝ) : List ℝ := W.predict bc (pts nky) (W.make bc surf) m

/-- What each step should return: the data of a new simulation with the settings of that moment. -/
def expected {Surf B : Type} (W : Bound p Surf B) (pts : Nat → List (ℝ × ℝ)) :
    Bc → Surf → Nat → List (Op2 p Surf) → List (Option (Except Err (List ℝ)))
  | _, _, _, [] => []
  | _, x, k, .bc b :: ops => none :: expected W pts b x k ops
  | b, _, k, .surf x :: ops => none :: expected W pts b x k ops
  | b, x, _, .nky k :: ops => none :: expected W pts b x k ops
  | b, x, k, .dpred m :: ops => some (.ok (fresh W pts b x k m)) :: expected W pts b x k ops

/-- Only the boundary matrices of the quadrature points matter, and those only where they are used. -/
structure BoundLocal {Surf B : Type} (W : Bound p Surf B) : Prop where
  points : ∀ b quad A A' m, (∀ ky ∈ quad.map Prod.fst, A ky = A' ky) →
    W.predict b quad A m = W.predict b quad A' m
  unused : ∀ b quad A A' m, W.uses b = false → W.predict b quad A m = W.predict b quad A' m

/-- The settings change in such a way only that the boundary matrices stay the same wherever they are
used: `g` are these matrices.  `nky` is not changed. -/
def Kept {Surf B : Type} (W : Bound p Surf B) (g : ℝ → B) : Bc → Surf → List (Op2 p Surf) → Prop
  | _, _, [] => True
  | _, x, .bc b :: ops => Kept W g b x ops
  | b, _, .surf x :: ops => Kept W g b x ops
  | _, _, .nky _ :: _ => False
  | b, x, .dpred _ :: ops => (W.uses b = true → ∀ ky, W.make b x ky = g ky) ∧ Kept W g b x ops

theorem dpred_congr {S S' : Sim2 p n} (hq : S.quad = S'.quad) (hs : S.sources = S'.sources)
    (hA : ∀ ky ∈ S.quad.map Prod.fst, S.form.A ky = S'.form.A ky) (m : p → ℝ) :
    S.dpred m = S'.dpred m := by
  obtain ⟨⟨A, d, dT⟩, quad, ss⟩ := S
  obtain ⟨⟨A', d', dT'⟩, quad', ss'⟩ := S'
  simp only at hq hs hA
  subst hq hs
  unfold Sim2.dpred
  refine List.flatMap_congr fun src _ => List.flatMap_congr fun r _ => ?_
  congr 1
  funext i
  simp only [Sim2.datum, Sim2.solve]
  congr 1
  refine List.map_congr_left fun k hk => ?_
  rw [hA k.1 (List.mem_map.2 ⟨k, hk, rfl⟩)]

theorem cell_local {Surf : Type} (o : Cell2 p f n) (ss : List (Src n Empty))
    (make : Bc → Surf → ℝ → Matrix f n ℝ) : BoundLocal (cellBound o ss make) := by
  constructor
  · intro b quad A A' m h
    refine dpred_congr (S := o.simB b A quad ss) (S' := o.simB b A' quad ss) rfl rfl
      (fun ky hk => ?_) m
    funext y
    simp only [Cell2.simB, Cell2.form, Cell2.getA, Cell2.grad, Cell2.mcc, h ky hk]
  · intro b quad A A' m h
    refine dpred_congr (S := o.simB b A quad ss) (S' := o.simB b A' quad ss) rfl rfl
      (fun ky hk => ?_) m
    have hb : b = .dirichlet := by simpa [cellBound] using h
    funext y
    simp only [Cell2.simB, Cell2.form, Cell2.getA, Cell2.grad, Cell2.mcc, hb, if_true]

theorem nodal_local {Surf : Type} (o : Nodal2 p s e n) (ss : List (Src n Empty))
    (make : Surf → ℝ → Matrix n s ℝ) : BoundLocal (nodalBound o ss make) := by
  constructor
  · intro b quad A A' m h
    refine dpred_congr (S := o.simB b A quad ss) (S' := o.simB b A' quad ss) rfl rfl
      (fun ky hk => ?_) m
    funext y
    simp only [Nodal2.simB, Nodal2.form, Nodal2.getA, Nodal2.mn, h ky hk]
  · intro b quad A A' m h
    refine dpred_congr (S := o.simB b A quad ss) (S' := o.simB b A' quad ss) rfl rfl
      (fun ky hk => ?_) m
    have hb : b = .neumann := by simpa [nodalBound] using h
    funext y
    simp [Nodal2.simB, Nodal2.form, Nodal2.getA, Nodal2.mn, hb]

/-! ### Property theorems: settings -/

/-- **C105 (general).** Every call returns the data of a new simulation with the same settings, as long
as the settings are changed in such a way only that the boundary matrices of the wavenumbers stay the
same where they are used, and the number of wavenumbers is not changed. -/
theorem C105_settings_partial {Surf B : Type} (W : Bound p Surf B) (hW : BoundLocal W)
    (pts : Nat → List (ℝ × ℝ)) (bc : Bc) (surf : Surf) (nky : Nat) (hn : (pts nky).length = nky)
    (ops : List (Op2 p Surf)) (g : ℝ → B) (h : Kept W g bc surf ops) :
    (St2.new pts bc surf nky).run W ops = expected W pts bc surf nky ops := by
  have key : ∀ (ops : List (Op2 p Surf)) (t : St2 Surf B), t.nky = nky → t.quad = pts nky →
      (∀ ky b, t.mats ky = some b → b = g ky) → Kept W g t.bc t.surf ops →
      t.run W ops = expected W pts t.bc t.surf nky ops := by
    intro ops
    induction ops with
    | nil => intros; rfl
    | cons x ops ih =>
      intro t hk hq hc hops
      cases x with
      | bc b =>
        simp only [St2.run, St2.step, expected]
        exact congrArg _ (ih { t with bc := b } hk hq hc hops)
      | surf x =>
        simp only [St2.run, St2.step, expected]
        exact congrArg _ (ih { t with surf := x } hk hq hc hops)
      | nky k => exact hops.elim
      | dpred m =>
        obtain ⟨h1, h2⟩ := hops
        have hlt : ¬ t.quad.length < t.nky := by rw [hq, hk, hn]; exact lt_irrefl _
        have hnew : ∀ ky b, (t.setBC W).mats ky = some b → b = g ky := by
          intro ky b hb
          unfold St2.setBC at hb
          split at hb
          · rename_i hu
            simp only at hb
            split at hb
            · have hb' := Option.some.inj hb
              rw [← hb']
              cases hm : t.mats ky with
              | none => simpa using h1 hu ky
              | some K => simpa using hc ky K hm
            · exact hc ky b hb
          · exact hc ky b hb
        have hs : (t.setBC W).bc = t.bc ∧ (t.setBC W).surf = t.surf ∧ (t.setBC W).nky = t.nky ∧
            (t.setBC W).quad = t.quad := by
          unfold St2.setBC; split <;> exact ⟨rfl, rfl, rfl, rfl⟩
        have hd : t.dpred W m = ({ t.setBC W with factored := true },
            .ok (W.predict (t.setBC W).bc (t.setBC W).quad
              (fun ky => ((t.setBC W).mats ky).getD W.dflt) m)) := by
          unfold St2.dpred
          rw [if_neg (by simp [hlt])]
        simp only [St2.run, St2.step, expected, hd]
        refine congrArg₂ _ ?_ ?_
        · rw [hs.1, hs.2.2.2, hq]
          refine congrArg (fun d => some (Except.ok d)) ?_
          unfold fresh
          by_cases hu : W.uses t.bc = true
          · refine hW.points _ _ _ _ _ fun ky hky => ?_
            unfold St2.setBC
            rw [if_pos hu]
            simp only [hq, hky, if_true]
            cases hm : t.mats ky with
            | none => simp
            | some K => simp [hc ky K hm, h1 hu ky]
          · exact hW.unused _ _ _ _ _ (by simpa using hu)
        · have := ih { t.setBC W with factored := true } (hs.2.2.1.trans hk) (hs.2.2.2.trans hq)
            hnew (by simpa only [hs.1, hs.2.1] using h2)
          simpa only [hs.1, hs.2.1] using this
  exact key ops (St2.new pts bc surf nky) rfl rfl (fun _ _ hb => nomatch hb) h

/-- Operations which neither change the surface faces nor the number of wavenumbers. -/
def NoSurf {Surf : Type} : List (Op2 p Surf) → Prop
  | [] => True
  | .bc _ :: ops => NoSurf ops
  | .dpred _ :: ops => NoSurf ops
  | .surf _ :: _ => False
  | .nky _ :: _ => False

/-- **C105 (nodal).** On the nodal simulation the boundary condition can be changed at any time. -/
theorem C105_nodal {Surf : Type} (o : Nodal2 p s e n) (ss : List (Src n Empty))
    (make : Surf → ℝ → Matrix n s ℝ) (pts : Nat → List (ℝ × ℝ)) (bc : Bc) (surf : Surf) (nky : Nat)
    (hn : (pts nky).length = nky) (ops : List (Op2 p Surf)) (h : NoSurf ops) :
    (St2.new pts bc surf nky).run (nodalBound o ss make) ops =
      expected (nodalBound o ss make) pts bc surf nky ops := by
  refine C105_settings_partial _ (nodal_local o ss make) pts bc surf nky hn ops (make surf) ?_
  induction ops generalizing bc with
  | nil => trivial
  | cons x ops ih =>
    cases x with
    | bc b => exact ih b h
    | surf x => exact h.elim
    | nky k => exact h.elim
    | dpred m => exact ⟨fun _ _ => rfl, ih bc h⟩

/-- Steps of the cell centred simulation which set Dirichlet conditions or the given one. -/
def OnlyWith {Surf : Type} (bc : Bc) : List (Op2 p Surf) → Prop
  | [] => True
  | .bc b :: ops => (b = .dirichlet ∨ b = bc) ∧ OnlyWith bc ops
  | .dpred _ :: ops => OnlyWith bc ops
  | .surf _ :: _ => False
  | .nky _ :: _ => False

/-- **C105 (cell centred).** On the cell centred simulation the boundary condition can be switched
between Dirichlet and one other condition.  Missing: Neumann and Robin on one object, see
`C105_violated_bc`. -/
theorem C105_cell_partial {Surf : Type} (o : Cell2 p f n) (ss : List (Src n Empty))
    (make : Bc → Surf → ℝ → Matrix f n ℝ) (pts : Nat → List (ℝ × ℝ)) (b₀ bc : Bc) (surf : Surf)
    (nky : Nat) (hn : (pts nky).length = nky) (h₀ : b₀ = .dirichlet ∨ b₀ = bc)
    (ops : List (Op2 p Surf)) (h : OnlyWith bc ops) :
    (St2.new pts b₀ surf nky).run (cellBound o ss make) ops =
      expected (cellBound o ss make) pts b₀ surf nky ops := by
  refine C105_settings_partial _ (cell_local o ss make) pts b₀ surf nky hn ops (make bc surf) ?_
  induction ops generalizing b₀ with
  | nil => trivial
  | cons x ops ih =>
    cases x with
    | bc b => exact ih b h.1 h.2
    | surf x => exact h.elim
    | nky k => exact h.elim
    | dpred m =>
      refine ⟨fun hu ky => ?_, ih b₀ h₀ h⟩
      rcases h₀ with rfl | rfl
      · simp [cellBound] at hu
      · rfl

/-- One cell with one boundary face, unit resistivity. -/
def exCellB : Cell2 (Fin 1) (Fin 1) (Fin 1) :=
  { D := 1, B := fun _ => 0, mf := ⟨fun _ _ _ => 1⟩, fast := true, vol := fun _ => 1, bc := .robin,
    i0 := 0, rho := fun _ _ => 1, rhoD := fun _ => 0, sigma := fun _ _ => 1, sigmaD := fun _ => 0 }

/-- The boundary matrices: with Neumann the gradient on the boundary face is zero, with Robin it is
halved. -/
def exMake : Bc → Bool → ℝ → Matrix (Fin 1) (Fin 1) ℝ
  | .neumann, _, _ => 1
  | _, true, _ => 1
  | _, false, _ => diagonal fun _ => 1 / 2

/-- See `exCellB` and `exMake`. -/
def exBound : Bound (Fin 1) Bool (Matrix (Fin 1) (Fin 1) ℝ) := cellBound exCellB [exSrc2] exMake

theorem diag1_inv (c : ℝ) : (diagonal fun _ : Fin 1 => c)⁻¹ = diagonal fun _ => c⁻¹ := by
  by_cases h : c = 0
  · subst h
    have : (diagonal fun _ : Fin 1 => (0:ℝ)) = 0 := Matrix.diagonal_zero
    rw [_root_.inv_zero, this, Matrix.inv_zero]
  · refine Matrix.inv_eq_left_inv ?_
    ext i j; fin_cases i; fin_cases j; simp [h]

theorem exPredict (b : Bc) (B : ℝ → Matrix (Fin 1) (Fin 1) ℝ) (m : Fin 1 → ℝ) (hb : b ≠ .dirichlet) :
    exBound.predict b [(1, 1)] B m =
      [((1 - B 1 0 0) + 1 + if b = .neumann then 1 else 0)⁻¹] := by
  have hmf : (exCellB.mf.mat ℝ (exCellB.rho m))⁻¹ = 1 := by
    refine Matrix.inv_eq_left_inv ?_
    ext i j; fin_cases i; fin_cases j; simp [exCellB, Inner.mat]
  have hA : (exCellB.simB b B [(1, 1)] [exSrc2]).form.A 1 m =
      diagonal fun _ => (1 - B 1 0 0) + 1 + if b = .neumann then 1 else 0 := by
    simp only [Cell2.simB, Cell2.form, Cell2.getA, hmf]
    ext i j; fin_cases i; fin_cases j
    by_cases hn : b = .neumann <;>
      simp [hn, hb, exCellB, Cell2.grad, Cell2.mcc, nodeInner, Inner.mat]
  have hd : exBound.predict b [(1, 1)] B m =
      [((1 : Matrix (Fin 1) (Fin 1) ℝ) *ᵥ
        (((exCellB.simB b B [(1, 1)] [exSrc2]).form.A 1 m)⁻¹ *ᵥ fun _ => 1)) 0 * 1 + 0] := rfl
  rw [hd, hA, diag1_inv]
  simp [Matrix.mulVec, dotProduct]

theorem exUses (b : Bc) : exBound.uses b = decide (b ≠ .dirichlet) := by
  cases b <;> rfl

theorem exMakes (b : Bc) (x : Bool) (ky : ℝ) : exBound.make b x ky = exMake b x ky := rfl

/-- **C105, violated (boundary condition).** After a prediction with the Robin condition, switching to
the Neumann condition keeps the Robin matrices: the data are neither those of one nor of the other. -/
theorem C105_violated_bc (m : Fin 1 → ℝ) :
    (St2.new (fun _ => [(1, 1)]) .robin false 1).run exBound
        [.dpred m, .bc .neumann, .dpred m] = [some (.ok [2 / 3]), none, some (.ok [2 / 5])] ∧
    expected exBound (fun _ => [(1, 1)]) .robin false 1
        [.dpred m, .bc .neumann, .dpred m] = [some (.ok [2 / 3]), none, some (.ok [1 / 2])] := by
  constructor
  · simp [St2.run, St2.step, St2.dpred, St2.new, St2.setBC, exPredict, exUses, exMakes, exMake]
    norm_num
  · simp [expected, fresh, exPredict, exMakes, exMake]
    norm_num

/-- **C105, violated (surface).** Changing the surface faces has no effect after the first
prediction. -/
theorem C105_violated_surface (m : Fin 1 → ℝ) :
    (St2.new (fun _ => [(1, 1)]) .robin false 1).run exBound
        [.dpred m, .surf true, .dpred m] = [some (.ok [2 / 3]), none, some (.ok [2 / 3])] ∧
    expected exBound (fun _ => [(1, 1)]) .robin false 1
        [.dpred m, .surf true, .dpred m] = [some (.ok [2 / 3]), none, some (.ok [1])] := by
  constructor
  · simp [St2.run, St2.step, St2.dpred, St2.new, St2.setBC, exPredict, exUses, exMakes, exMake]
    norm_num
  · simp [expected, fresh, exPredict, exMakes, exMake]
    norm_num

/-- **C105, violated (number of wavenumbers).** Setting `nky` never changes what is computed; with more
wavenumbers than at construction every prediction after the first one fails. -/
theorem C105_violated_nky {Surf B : Type} (W : Bound p Surf B) (pts : Nat → List (ℝ × ℝ)) (bc : Bc)
    (surf : Surf) (k k' : Nat) (hk : (pts k).length = k) (m m' : p → ℝ) :
    (St2.new pts bc surf k).run W [.nky k', .dpred m] =
      none :: (St2.new pts bc surf k).run W [.dpred m] ∧
    (k < k' → ∃ d, (St2.new pts bc surf k).run W [.dpred m, .nky k', .dpred m'] =
      [d, none, some (.error .indexError)]) := by
  constructor
  · simp only [St2.run, St2.step, St2.dpred, St2.new, Bool.false_and, Bool.false_eq_true, if_false]
    unfold St2.setBC
    split <;> rfl
  · intro h
    have hq : ((St2.new pts bc surf k : St2 Surf B).setBC W).quad = pts k := by
      unfold St2.setBC; split <;> rfl
    have h1 : ∃ d, (St2.new pts bc surf k : St2 Surf B).dpred W m =
        ({ (St2.new pts bc surf k : St2 Surf B).setBC W with factored := true }, d) := by
      unfold St2.dpred
      rw [if_neg (by simp [St2.new])]
      exact ⟨_, rfl⟩
    obtain ⟨d, h1⟩ := h1
    refine ⟨some d, ?_⟩
    simp only [St2.run, St2.step, h1]
    simp [St2.dpred, hq, hk, h]

/-- Non-vacuity of `C105_nodal` and `C105_cell_partial`. -/
example (m : Fin 1 → ℝ) (make : Bool → ℝ → Matrix (Fin 1) (Fin 1) ℝ) :
    (St2.new (fun _ => [(1, 1)]) .robin false 1).run (nodalBound exNodal2 [exSrc2] make)
        [.dpred m, .bc .neumann, .dpred m, .bc .robin, .dpred m] =
      expected (nodalBound exNodal2 [exSrc2] make) (fun _ => [(1, 1)]) .robin false 1
        [.dpred m, .bc .neumann, .dpred m, .bc .robin, .dpred m] ∧
    (St2.new (fun _ => [(1, 1)]) .robin false 1).run exBound
        [.dpred m, .bc .dirichlet, .dpred m, .bc .robin, .dpred m] =
      expected exBound (fun _ => [(1, 1)]) .robin false 1
        [.dpred m, .bc .dirichlet, .dpred m, .bc .robin, .dpred m] :=
  ⟨C105_nodal _ _ make _ _ _ _ rfl _ trivial,
    C105_cell_partial _ _ exMake _ _ .robin _ _ rfl (Or.inr rfl) _ (by simp [OnlyWith])⟩

/-! ### Property theorems: quadrature -/

/-- The integral over the successive intervals of the function which is linear between the points. -/
def interpInt (F : ℝ → ℝ) : List ℝ → ℝ
  | a :: b :: l => (∫ x in a..b, (F a + (x - a) / (b - a) * (F b - F a))) + interpInt F (b :: l)
  | _ => 0

theorem interp_one (F : ℝ → ℝ) (a b : ℝ) (h : a < b) :
    (∫ x in a..b, (F a + (x - a) / (b - a) * (F b - F a))) = (b - a) / 2 * (F a + F b) := by
  have hba : b - a ≠ 0 := sub_ne_zero.2 h.ne'
  have e : ∀ x : ℝ, F a + (x - a) / (b - a) * (F b - F a) =
      (F a - a / (b - a) * (F b - F a)) + (F b - F a) / (b - a) * x := fun x => by field_simp; ring
  simp only [e]
  rw [intervalIntegral.integral_add (by simp) (by exact (continuous_const.mul continuous_id).intervalIntegrable _ _),
    intervalIntegral.integral_const, intervalIntegral.integral_const_mul, integral_id, smul_eq_mul]
  field_simp
  ring

/-- The sum of the trapezoidal weights, before the end correction, times function values. -/
theorem trap_sum (F : ℝ → ℝ) : ∀ (c a : ℝ) (l : List ℝ), (a :: l).Pairwise (· < ·) →
    (List.zipWith (· * ·) (List.zipWith (· + ·) (halfDiff (a :: l) ++ [0]) (c :: halfDiff (a :: l)))
      ((a :: l).map F)).sum = c * F a + interpInt F (a :: l) := by
  intro c a l
  induction l generalizing c a with
  | nil => intro _; simp [halfDiff, interpInt]
  | cons b l ih =>
    intro h
    have hab : a < b := (List.pairwise_cons.1 h).1 b (by simp)
    have ih' := ih ((b - a) / 2) b (List.pairwise_cons.1 h).2
    simp only [halfDiff, interpInt, List.cons_append, List.zipWith_cons_cons, List.map_cons,
      List.sum_cons] at ih' ⊢
    rw [interp_one F a b hab]
    have e : ∀ X Y : ℝ, X = (b - a) / 2 * F b + Y →
        ((b - a) / 2 + c) * F a + X = c * F a + ((b - a) / 2 * (F a + F b) + Y) := by
      intro X Y h; rw [h]; ring
    exact e _ _ ih'

theorem trapWeights_eq (a : ℝ) (l : List ℝ) : trapWeights (a :: l) =
    (List.zipWith (· + ·) (halfDiff (a :: l) ++ [0]) (a :: halfDiff (a :: l))).map (· / Real.pi) := by
  have hlen : ∀ (a : ℝ) (l : List ℝ), (halfDiff (a :: l)).length = l.length := by
    intro a l
    induction l generalizing a with
    | nil => rfl
    | cons b l ih => simp [halfDiff, ih]
  have hone : ∀ (w : List ℝ) (k : List ℝ), w.length = k.length →
      List.zipWith (· * ·) w (k.map fun _ => (1:ℝ)) = w := by
    intro w
    induction w with
    | nil => intro k _; simp
    | cons x w ih =>
      intro k hk
      cases k with
      | nil => simp at hk
      | cons y k => simpa using ih k (by simpa using hk)
  unfold trapWeights
  simp only [mul_zero, Real.cos_zero, List.headD_cons]
  rw [hone _ _ (by simp [hlen])]
  congr 1
  cases hh : halfDiff (a :: l) ++ [0] with
  | nil => simp at hh
  | cons x xs =>
    simp only [List.zipWith_cons_cons, List.modify_zero_cons, List.cons.injEq, and_true]
    ring

/-- **C106 (trapezoidal weights).** For increasing wavenumbers the weighted sum of the values of any
function is `1/π` times the integral of the function which is constant up to the first wavenumber and
linear between the wavenumbers. -/
theorem C106_trapezoid (F : ℝ → ℝ) (a : ℝ) (l : List ℝ) (h : (a :: l).Pairwise (· < ·)) :
    (List.zipWith (· * ·) (trapWeights (a :: l)) ((a :: l).map F)).sum =
      1 / Real.pi * ((∫ _ in (0:ℝ)..a, F a) + interpInt F (a :: l)) := by
  have hdiv : ∀ (w v : List ℝ), (List.zipWith (· * ·) (w.map (· / Real.pi)) v).sum =
      1 / Real.pi * (List.zipWith (· * ·) w v).sum := by
    intro w
    induction w with
    | nil => intro v; simp
    | cons x w ih =>
      intro v
      cases v with
      | nil => simp
      | cons y v => simp only [List.map_cons, List.zipWith_cons_cons, List.sum_cons, ih]; ring
  rw [trapWeights_eq, hdiv, trap_sum F a a l h, intervalIntegral.integral_const, smul_eq_mul, sub_zero]

/-- **C106 (trapezoidal weights, sign).** There is one weight for every wavenumber, and all weights are
positive when the wavenumbers are positive and increasing. -/
theorem C106_positive (l : List ℝ) (hl : l ≠ []) (hpos : ∀ x ∈ l, 0 < x)
    (h : l.Pairwise (· < ·)) :
    (trapWeights l).length = l.length ∧ ∀ w ∈ trapWeights l, 0 < w := by
  obtain ⟨a, l, rfl⟩ := List.exists_cons_of_ne_nil hl
  rw [trapWeights_eq]
  have key : ∀ (c a : ℝ) (l : List ℝ), (a :: l).Pairwise (· < ·) → 0 < c →
      (List.zipWith (· + ·) (halfDiff (a :: l) ++ [0]) (c :: halfDiff (a :: l))).length =
        (a :: l).length ∧
      ∀ w ∈ List.zipWith (· + ·) (halfDiff (a :: l) ++ [0]) (c :: halfDiff (a :: l)), 0 < w := by
    intro c a l
    induction l generalizing c a with
    | nil => intro _ hc; simp [halfDiff, hc]
    | cons b l ih =>
      intro h hc
      have hab : a < b := (List.pairwise_cons.1 h).1 b (by simp)
      have ih' := ih ((b - a) / 2) b (List.pairwise_cons.1 h).2 (by linarith)
      simp only [halfDiff, List.cons_append, List.zipWith_cons_cons, List.length_cons,
        List.mem_cons, forall_eq_or_imp] at ih' ⊢
      exact ⟨by rw [ih'.1], by linarith, ih'.2⟩
  obtain ⟨h1, h2⟩ := key a a l h (hpos a (by simp))
  refine ⟨by simpa using h1, fun w hw => ?_⟩
  obtain ⟨x, hx, rfl⟩ := List.mem_map.1 hw
  exact div_pos (h2 x hx) Real.pi_pos

/-- **C106 (optimised weights).** For given wavenumbers, twice the weights are the best approximation, in
the sense of least squares over the sample distances, of the constant by the sums
`Σⱼ gⱼ r K₀(r kⱼ)`. -/
theorem C106_least_squares {r k : Type} [Fintype r] [Fintype k] [DecidableEq k] (K0 : ℝ → ℝ)
    (rs : r → ℝ) (points : k → ℝ)
    (hdet : ((Matrix.of fun (i : r) (j : k) => rs i * K0 (rs i * points j))ᵀ *
      (Matrix.of fun (i : r) (j : k) => rs i * K0 (rs i * points j))).det ≠ 0) (g : k → ℝ) :
    ∑ i, (∑ j, 2 * optWeights K0 rs points j * (rs i * K0 (rs i * points j)) - 1) ^ 2 ≤
      ∑ i, (∑ j, g j * (rs i * K0 (rs i * points j)) - 1) ^ 2 := by
  set A : Matrix r k ℝ := fun i j => rs i * K0 (rs i * points j) with hA
  set x : k → ℝ := (Aᵀ * A)⁻¹ *ᵥ (Aᵀ *ᵥ fun _ => 1) with hx
  have hdet' : (Aᵀ * A).det ≠ 0 := hdet
  have hn : Aᵀ *ᵥ (A *ᵥ x - fun _ => 1) = 0 := by
    rw [Matrix.mulVec_sub, Matrix.mulVec_mulVec, hx, Matrix.mulVec_mulVec,
      Matrix.mul_nonsing_inv _ (isUnit_iff_ne_zero.2 hdet'), Matrix.one_mulVec, sub_self]
  have e1 : ∀ i, ∑ j, 2 * optWeights K0 rs points j * (rs i * K0 (rs i * points j)) =
      (A *ᵥ x) i := by
    intro i
    simp only [Matrix.mulVec, dotProduct]
    refine Finset.sum_congr rfl fun j _ => ?_
    have : optWeights K0 rs points j = 1 / 2 * x j := rfl
    rw [this]; simp only [hA]; ring
  have e2 : ∀ i, ∑ j, g j * (rs i * K0 (rs i * points j)) = (A *ᵥ g) i := by
    intro i
    simp only [Matrix.mulVec, dotProduct]
    exact Finset.sum_congr rfl fun j _ => by simp only [hA]; ring
  simp only [e1, e2]
  have horth : ∑ i, ((A *ᵥ x) i - 1) * (A *ᵥ (g - x)) i = 0 := by
    have : (A *ᵥ x - fun _ => 1) ⬝ᵥ (A *ᵥ (g - x)) = 0 := by
      rw [Matrix.dotProduct_mulVec, ← Matrix.mulVec_transpose, hn, zero_dotProduct]
    simpa [dotProduct] using this
  have hs : ∑ i, ((A *ᵥ g) i - 1) ^ 2 = ∑ i, ((A *ᵥ x) i - 1) ^ 2 +
      ∑ i, ((A *ᵥ (g - x)) i) ^ 2 := by
    have h2 : ∀ i, ((A *ᵥ g) i - 1) ^ 2 = ((A *ᵥ x) i - 1) ^ 2 +
        2 * (((A *ᵥ x) i - 1) * (A *ᵥ (g - x)) i) + ((A *ᵥ (g - x)) i) ^ 2 := by
      intro i
      rw [Matrix.mulVec_sub]
      simp only [Pi.sub_apply]
      ring
    simp only [h2, Finset.sum_add_distrib, ← Finset.mul_sum, horth]
    ring
  rw [hs]
  have : 0 ≤ ∑ i, ((A *ᵥ (g - x)) i) ^ 2 := Finset.sum_nonneg fun i _ => sq_nonneg _
  linarith

/-- Non-vacuity of `C106_trapezoid`: three wavenumbers. -/
example (F : ℝ → ℝ) : (List.zipWith (· * ·) (trapWeights [1, 2, 4]) ([1, 2, 4].map F)).sum =
    1 / Real.pi * ((∫ _ in (0:ℝ)..1, F 1) + interpInt F [1, 2, 4]) :=
  C106_trapezoid F 1 [2, 4] (by norm_num)

/-- Non-vacuity of `C106_least_squares`: one wavenumber and two distances. -/
example (g : Unit → ℝ) :=
  C106_least_squares (r := Fin 2) (k := Unit) (fun x => x) ![1, 2] (fun _ => 1)
    (by simp [Matrix.det_unique, Matrix.mul_apply]; norm_num) g

end

end Verif.DC.Props
