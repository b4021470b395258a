import Verif.Basic
import Mathlib.Data.List.Basic
import Mathlib.Tactic.Common

/-!
What parametric maps remember: the coordinates of the active cells are read once per axis and kept
(`simpeg/maps/_parametric.py:1143-1231`), the polynomial map reads them every time.
-/

namespace Verif.Maps.Parametric

/-- The axes of the mesh. -/
inductive Axis
  | x | y | z
  deriving DecidableEq

/-- The state of a `BaseParametric` map on a mesh with `n` cells: the active cells (all of them when never
given) and, for each axis, the cells whose coordinates are kept in `_x`, `_y`, `_z`.
Coordinates are modelled by the numbers of the cells they belong to.
maps/_parametric.py:1107-1112, 1143-1231 -/
structure PSt where
  n : ℕ
  active : Option (List ℕ)
  kept : Axis → Option (List ℕ)

/-- A new map.  maps/_parametric.py:1093-1112 -/
def PSt.new (n : ℕ) (active : Option (List ℕ)) : PSt := ⟨n, active, fun _ => none⟩

/-- The cells the map is meant for.  maps/_parametric.py:1172-1186 -/
def PSt.cells (s : PSt) : List ℕ := s.active.getD (List.range s.n)

/-- `x`, `y`, `z`: kept at the first use.  maps/_parametric.py:1161-1231 -/
def PSt.coord (s : PSt) (a : Axis) : PSt × List ℕ :=
  match s.kept a with
  | some l => (s, l)
  | none => ({ s with kept := fun b => if b = a then some s.cells else s.kept b }, s.cells)

/-- The coordinates of several axes, one after the other. -/
def PSt.coords (s : PSt) : List Axis → PSt × List (List ℕ)
  | [] => (s, [])
  | a :: as =>
    let r := s.coord a
    let rs := r.1.coords as
    (rs.1, r.2 :: rs.2)

/-- What users do: assign active cells (`None` for all), ask for the shape, evaluate the map or its derivative
(reading some axes: a layer in two dimensions reads `y` for the map, `y` and `x` for the derivative).
maps/_parametric.py:1147-1151, 1331-1344, 1366-1370, 1418-1419 -/
inductive PIn
  | setActive (a : Option (List ℕ))
  | shape
  | eval (axes : List Axis)

/-- What they observe: the number of rows, or the cells each axis was read for. -/
inductive POut
  | done
  | rows (k : ℕ)
  | read (l : List (List ℕ))
  deriving DecidableEq

/-- One step.  maps/_parametric.py:1143-1231, 1331-1344 -/
def PSt.step (s : PSt) : PIn → PSt × POut
  | .setActive a => ({ s with active := a }, .done)
  | .shape => (s, .rows s.cells.length)
  | .eval axes => let r := s.coords axes; (r.1, .read r.2)

/-- The state after a history. -/
def PSt.run (s : PSt) (ops : List PIn) : PSt := ops.foldl (fun s o => (s.step o).1) s

/-- `ParametricPolyMap`: active cells are kept with their number, coordinates are not kept.
maps/_parametric.py:464-506, 538-551 -/
structure QSt where
  n : ℕ
  active : List ℕ
  nC : ℕ

/-- maps/_parametric.py:392-418 -/
def QSt.new (n : ℕ) (active : Option (List ℕ)) : QSt :=
  let a := active.getD (List.range n)
  ⟨n, a, a.length⟩

/-- One step; assigning `None` raises in the validation and is not modelled (it counts as no operation).
maps/_parametric.py:474-479, 489-506, 538-551 -/
def QSt.step (s : QSt) : PIn → QSt × POut
  | .setActive (some a) => ({ s with active := a, nC := a.length }, .done)
  | .setActive none => (s, .done)
  | .shape => (s, .rows s.nC)
  | .eval axes => (s, .read (axes.map fun _ => s.active))

/-- The state after a history. -/
def QSt.run (s : QSt) (ops : List PIn) : QSt := ops.foldl (fun s o => (s.step o).1) s

end Verif.Maps.Parametric

namespace Verif.Maps.Parametric.Props
open Verif Verif.Maps.Parametric

/-- The active cells as last assigned: the specification, straight from the history. -/
def lastActive (a : Option (List ℕ)) : List PIn → Option (List ℕ)
  | [] => a
  | .setActive b :: ops => lastActive b ops
  | .shape :: ops => lastActive a ops
  | .eval _ :: ops => lastActive a ops

/-- No assignment of active cells. -/
def NoAssign (ops : List PIn) : Prop := ∀ a, PIn.setActive a ∉ ops

theorem coord_active (s : PSt) (a : Axis) : (s.coord a).1.active = s.active ∧ (s.coord a).1.n = s.n := by
  unfold PSt.coord; split <;> simp

theorem coords_active (as : List Axis) : ∀ s : PSt, (s.coords as).1.active = s.active ∧ (s.coords as).1.n = s.n := by
  induction as with
  | nil => exact fun s => ⟨rfl, rfl⟩
  | cons a as ih =>
    intro s
    have := ih (s.coord a).1
    have h2 := coord_active s a
    exact ⟨this.1.trans h2.1, this.2.trans h2.2⟩

theorem run_active (ops : List PIn) : ∀ s : PSt,
    (s.run ops).active = lastActive s.active ops ∧ (s.run ops).n = s.n := by
  induction ops with
  | nil => exact fun s => ⟨rfl, rfl⟩
  | cons o ops ih =>
    intro s
    have := ih (s.step o).1
    cases o with
    | setActive a => exact this
    | shape => exact this
    | eval as =>
      have h := coords_active as s
      simp only [PSt.step] at this
      rw [h.1, h.2] at this
      exact this

/-- Nothing kept, or what is kept belongs to the active cells. -/
def Fresh (s : PSt) : Prop := ∀ a l, s.kept a = some l → l = s.cells

theorem coord_fresh {s : PSt} (h : Fresh s) (a : Axis) :
    Fresh (s.coord a).1 ∧ (s.coord a).2 = s.cells := by
  unfold PSt.coord
  cases hk : s.kept a with
  | some l => exact ⟨h, h a l hk⟩
  | none =>
    refine ⟨fun b l hb => ?_, rfl⟩
    by_cases hba : b = a
    · simp only [hba, if_true] at hb
      exact (Option.some.inj hb).symm
    · simp only [hba, if_false] at hb
      exact h b l hb

theorem coords_fresh (as : List Axis) : ∀ {s : PSt}, Fresh s →
    Fresh (s.coords as).1 ∧ (s.coords as).2 = as.map fun _ => s.cells := by
  induction as with
  | nil => exact fun h => ⟨h, rfl⟩
  | cons a as ih =>
    intro s h
    have h1 := coord_fresh h a
    have h2 := ih h1.1
    refine ⟨h2.1, ?_⟩
    have hc : (s.coord a).1.cells = s.cells := by
      have := coord_active s a
      simp only [PSt.cells, this.1, this.2]
    simp only [PSt.coords, List.map_cons, h1.2, h2.2, hc]

theorem run_fresh (ops : List PIn) (hn : NoAssign ops) : ∀ {s : PSt}, Fresh s → Fresh (s.run ops) := by
  induction ops with
  | nil => exact fun h => h
  | cons o ops ih =>
    intro s h
    have hn' : NoAssign ops := fun a ha => hn a (List.mem_cons_of_mem _ ha)
    refine ih hn' ?_
    cases o with
    | setActive a => exact absurd List.mem_cons_self (hn a)
    | shape => exact h
    | eval as => exact (coords_fresh as h).1

/-- **C127, the part which holds.** As long as active cells are assigned before the first evaluation only, every
evaluation reads the cells last assigned, as many as the shape says.  Missing: assignments after an
evaluation, which have no effect on what is evaluated. -/
theorem C127_partial (n : ℕ) (a₀ : Option (List ℕ)) (assigns ops : List PIn) (axes : List Axis)
    (ha : ∀ o ∈ assigns, ∃ a, o = .setActive a) (ho : NoAssign ops) :
    let s := (PSt.new n a₀).run (assigns ++ ops)
    let want := (lastActive a₀ (assigns ++ ops)).getD (List.range n)
    (s.step (.eval axes)).2 = .read (axes.map fun _ => want) ∧ (s.step .shape).2 = .rows want.length := by
  intro s want
  have hcells : s.cells = want := by
    have := run_active (assigns ++ ops) (PSt.new n a₀)
    simp only [PSt.cells, want, s, this.1, this.2]
    rfl
  have h0 : ∀ (l : List PIn), (∀ o ∈ l, ∃ a, o = PIn.setActive a) → ∀ s : PSt, (∀ a, s.kept a = none) →
      ∀ a, (s.run l).kept a = none := by
    intro l
    induction l with
    | nil => exact fun _ s hs => hs
    | cons o l ih =>
      intro hl s hs
      obtain ⟨a, rfl⟩ := hl o List.mem_cons_self
      exact ih (fun o ho => hl o (List.mem_cons_of_mem _ ho)) _ hs
  have h1 : Fresh s := by
    have hk := h0 assigns ha (PSt.new n a₀) (fun _ => rfl)
    have : s = ((PSt.new n a₀).run assigns).run ops := by
      simp only [s, PSt.run, List.foldl_append]
    rw [this]
    exact run_fresh ops ho (fun a l hl => by rw [hk a] at hl; cases hl)
  constructor
  · simp only [PSt.step, (coords_fresh axes h1).2, hcells]
  · simp only [PSt.step, hcells]

/-- **C127, polynomials.** At any history the polynomial map reads the cells last assigned, as many as its
shape says. -/
theorem C127_poly (n : ℕ) (a₀ : Option (List ℕ)) (ops : List PIn) (hops : PIn.setActive none ∉ ops)
    (axes : List Axis) :
    let s := (QSt.new n a₀).run ops
    let want := (lastActive a₀ ops).getD (List.range n)
    (s.step (.eval axes)).2 = .read (axes.map fun _ => want) ∧ (s.step .shape).2 = .rows want.length := by
  have main : ∀ (ops : List PIn), PIn.setActive none ∉ ops → ∀ (s : QSt) (a₀ : Option (List ℕ)),
      s.nC = s.active.length → s.active = a₀.getD (List.range n) →
      (s.run ops).nC = (s.run ops).active.length ∧
      (s.run ops).active = (lastActive a₀ ops).getD (List.range n) := by
    intro ops
    induction ops with
    | nil => exact fun _ s a₀ h1 h2 => ⟨h1, h2⟩
    | cons o ops ih =>
      intro hn s a₀ h1 h2
      have hn' : PIn.setActive none ∉ ops := fun h => hn (List.mem_cons_of_mem _ h)
      cases o with
      | setActive a =>
        cases a with
        | none => exact absurd List.mem_cons_self hn
        | some a => exact ih hn' _ (some a) rfl rfl
      | shape => exact ih hn' s a₀ h1 h2
      | eval as => exact ih hn' s a₀ h1 h2
  have := main ops hops (QSt.new n a₀) a₀ rfl rfl
  intro s want
  simp only [QSt.step, s, want, this.1, this.2, and_self]

/-- **C127, violated.** Evaluate a map, then assign other active cells and evaluate again: the map still reads
the cells of before, whereas its shape counts the new ones.  Any two choices of cells, any axis. -/
theorem C127_violated (n : ℕ) (a b : List ℕ) (ax : Axis) :
    let s := (PSt.new n (some a)).run [.eval [ax], .setActive (some b)]
    (s.step (.eval [ax])).2 = .read [a] ∧ (s.step .shape).2 = .rows b.length := by
  simp [PSt.run, PSt.step, PSt.coords, PSt.coord, PSt.new, PSt.cells]

/-- **C127, violated within one evaluation.** A layer in two dimensions reads `y` for the map and also `x` for the
derivative: evaluated, then given other active cells, the derivative mixes coordinates of both choices. -/
theorem C127_violated_mixed (n : ℕ) (a b : List ℕ) :
    let s := (PSt.new n (some a)).run [.eval [.y], .setActive (some b)]
    (s.step (.eval [.x, .y])).2 = .read [b, a] := by
  simp [PSt.run, PSt.step, PSt.coords, PSt.coord, PSt.new, PSt.cells]

/-- Assign twice, evaluate twice. -/
example : (∀ o ∈ [PIn.setActive (some [0, 1]), .setActive none], ∃ a, o = .setActive a) ∧
    NoAssign [.eval [.x], .shape, .eval [.y, .x]] := by
  constructor
  · intro o ho
    simp at ho
    rcases ho with rfl | rfl <;> exact ⟨_, rfl⟩
  · intro a ha
    simp at ha

end Verif.Maps.Parametric.Props
