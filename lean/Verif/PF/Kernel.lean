import Verif.Basic
import Mathlib.Data.Real.Sqrt
import Mathlib.Analysis.SpecialFunctions.Trigonometric.Basic
import Mathlib.Algebra.BigOperators.Fin
import Mathlib.Data.List.Sort
import Mathlib.Data.List.Dedup
import Mathlib.Tactic.Linarith
import Mathlib.Tactic.Ring
import Mathlib.Tactic.NormNum
import Mathlib.Tactic.FieldSimp
import Mathlib.Tactic.FinCases
import Mathlib.MeasureTheory.Integral.IntervalIntegral.FundThmCalculus
import Mathlib.Analysis.Calculus.Deriv.Mul

/-!
C88: the entries of the sensitivity matrix of integral potential field simulations
(`simpeg/potential_fields/base.py`, `gravity/simulation.py`, `magnetics/simulation.py`,
`_numba_utils.py`). The kernels of the libraries `geoana` and `choclo` are arbitrary functions of
the vector from the receiver to the node, related only by what their names say.
-/

noncomputable section
namespace Verif.PF.Kernel
open Verif

/-! ### The nodes of the cells -/

/-- The index of a node of a tensor mesh: `np.arange(n_nodes).reshape(shape_nodes, order="F")`
(`simpeg/potential_fields/base.py` 121), with `nx`, `ny` the numbers of cells. -/
def nodeIdx (nx ny i j k : ℕ) : ℕ := i + (nx + 1) * (j + (ny + 1) * k)

/-- The eight corners in the order of the stack: whether the upper node is taken in each direction
(`simpeg/potential_fields/base.py` 130-139). -/
def corners : List (ℕ × ℕ × ℕ) :=
  [(0, 0, 0), (1, 0, 0), (0, 1, 0), (1, 1, 0), (0, 0, 1), (1, 0, 1), (0, 1, 1), (1, 1, 1)]

/-- `cell_nodes` of a tensor mesh, row `q` (`simpeg/potential_fields/base.py` 130-140): the sliced
arrays are flattened in Fortran order. -/
def cellNodes (nx ny q : ℕ) : List ℕ :=
  corners.map fun c =>
    nodeIdx nx ny (q % nx + c.1) (q / nx % ny + c.2.1) (q / (nx * ny) + c.2.2)

/-- `mesh.nodes` of `discretize`: the coordinates of the nodes, the first changing fastest. -/
def nodes (nx ny : ℕ) (x y z : ℕ → ℝ) (p : ℕ) : ℝ × ℝ × ℝ :=
  (x (p % (nx + 1)), y (p / (nx + 1) % (ny + 1)), z (p / ((nx + 1) * (ny + 1))))

/-- `np.unique(..., return_inverse=True)`: the sorted distinct values and the place of each value
among them. -/
def unique (xs : List ℕ) : List ℕ := xs.dedup.mergeSort (· ≤ ·)

def inverse (xs : List ℕ) : List ℕ := xs.map fun x => (unique xs).idxOf x

/-! ### From nodes to cells -/

/-- The cell value of the engine geoana (`simpeg/potential_fields/gravity/simulation.py` 509-518,
`simpeg/potential_fields/magnetics/simulation.py` 767-796). -/
def geoanaCell (v : Fin 8 → ℝ) : ℝ :=
  v 0 - v 1 - v 2 + v 3 - v 4 + v 5 + v 6 - v 7

/-- `kernels_in_nodes_to_cell` (`simpeg/potential_fields/_numba_utils.py` 19-48). -/
def chocloCell (v : Fin 8 → ℝ) : ℝ :=
  -v 0 + v 1 + v 2 - v 3 + v 4 - v 5 - v 6 + v 7

/-! ### Magnetic components, engine geoana -/

/-- The components (`simpeg/potential_fields/magnetics/receivers.py` 40-60). -/
inductive Comp
  | tmi | bx | by' | bz | bxx | byy | bzz | bxy | bxz | byz | tmi_x | tmi_y | tmi_z
  deriving DecidableEq

/-- The keys of `node_evals`. -/
inductive Key
  | gxx | gxy | gxz | gyy | gyz | gzz
  | gxxx | gxxy | gxxz | gyyx | gxyz | gzzx | gyyy | gyyz | gzzy | gzzz
  deriving DecidableEq

/-- The values at the eight nodes of a cell: `vals[self._unique_inv]` for one cell. -/
abbrev Nodal := Fin 8 → ℝ

/-- `node_evals`, restricted to the nodes of a cell. -/
abbrev Dict := Key → Option Nodal

def Dict.set (k : Key) (v : Nodal) (d : Dict) : Dict := fun k' => if k' = k then some v else d k'

/-- `if k not in node_evals: node_evals[k] = v`. -/
def Dict.setNew (k : Key) (v : Nodal) (d : Dict) : Dict := if (d k).isNone then d.set k v else d

/-- `geoana.kernels.prism_*`, functions of three coordinates. -/
structure Prisms where
  fzz : ℝ → ℝ → ℝ → ℝ
  fzx : ℝ → ℝ → ℝ → ℝ
  fzy : ℝ → ℝ → ℝ → ℝ
  fxxy : ℝ → ℝ → ℝ → ℝ
  fxxz : ℝ → ℝ → ℝ → ℝ
  fxyz : ℝ → ℝ → ℝ → ℝ
  fzzz : ℝ → ℝ → ℝ → ℝ
  fz : ℝ → ℝ → ℝ → ℝ

/-- A function applied to arrays. -/
def on (f : ℝ → ℝ → ℝ → ℝ) (a b c : Nodal) : Nodal := fun i => f (a i) (b i) (c i)

variable (P : Prisms)

open Key Comp in
/-- The evaluations of `evaluate_integral` (`simpeg/potential_fields/magnetics/simulation.py`
587-644). -/
def nodeEvals (cs : List Comp) (dx dy dz : Nodal) : Dict :=
  let e : Dict := fun _ => none
  let e := if bx ∈ cs ∨ tmi ∈ cs then
    ((e.set gxx (on P.fzz dy dz dx)).set gxy (on P.fzx dy dz dx)).set gxz (on P.fzy dy dz dx) else e
  let e := if by' ∈ cs ∨ tmi ∈ cs then
    ((e.setNew gxy (on P.fzx dy dz dx)).set gyy (on P.fzz dz dx dy)).set gyz (on P.fzy dx dy dz) else e
  let e := if bz ∈ cs ∨ tmi ∈ cs then
    ((e.setNew gxz (on P.fzy dy dz dx)).setNew gyz (on P.fzy dx dy dz)).set gzz (on P.fzz dx dy dz) else e
  let e := if bxx ∈ cs ∨ tmi_x ∈ cs then
    ((e.set gxxx (on P.fzzz dy dz dx)).set gxxy (on P.fxxy dx dy dz)).set gxxz (on P.fxxz dx dy dz) else e
  let e := if bxy ∈ cs ∨ tmi_x ∈ cs ∨ tmi_y ∈ cs then
    ((e.setNew gxxy (on P.fxxy dx dy dz)).set gyyx (on P.fxxz dy dz dx)).set gxyz (on P.fxyz dx dy dz) else e
  let e := if bxz ∈ cs ∨ tmi_x ∈ cs ∨ tmi_z ∈ cs then
    ((e.setNew gxxz (on P.fxxz dx dy dz)).setNew gxyz (on P.fxyz dx dy dz)).set gzzx
      (on P.fxxy dz dx dy) else e
  let e := if byy ∈ cs ∨ tmi_y ∈ cs then
    ((e.setNew gyyx (on P.fxxz dy dz dx)).set gyyy (on P.fzzz dz dx dy)).set gyyz (on P.fxxy dy dz dx) else e
  let e := if byz ∈ cs ∨ tmi_y ∈ cs ∨ tmi_z ∈ cs then
    ((e.setNew gxyz (on P.fxyz dx dy dz)).setNew gyyz (on P.fxxy dy dz dx)).set gzzy
      (on P.fxxz dz dx dy) else e
  if bzz ∈ cs ∨ tmi_z ∈ cs then
    ((e.setNew gzzx (on P.fxxy dz dx dy)).setNew gzzy (on P.fxxz dz dx dy)).set gzzz
      (on P.fzzz dx dy dz) else e

/-- `node_evals[k]`. -/
def look (d : Dict) (k : Key) : Except Err Nodal :=
  match d k with
  | some v => .ok v
  | none => .error .keyError

/-- `vals_x`, `vals_y`, `vals_z` from three keys. -/
def three (d : Dict) (a b c : Key) : Except Err (Fin 3 → Nodal) :=
  match look d a, look d b, look d c with
  | .ok x, .ok y, .ok z => .ok ![x, y, z]
  | _, _, _ => .error .keyError

/-- Three combinations with the direction of the inducing field. -/
def projected (t : Fin 3 → ℝ) (d : Dict) (k : Fin 3 → Fin 3 → Key) : Except Err (Fin 3 → Nodal) :=
  match three d (k 0 0) (k 0 1) (k 0 2), three d (k 1 0) (k 1 1) (k 1 2),
    three d (k 2 0) (k 2 1) (k 2 2) with
  | .ok x, .ok y, .ok z => .ok fun c i => t 0 * ![x, y, z] c 0 i + t 1 * ![x, y, z] c 1 i +
      t 2 * ![x, y, z] c 2 i
  | _, _, _ => .error .keyError

open Key Comp in
/-- The values at a node of a component for the three directions of magnetization
(`simpeg/potential_fields/magnetics/simulation.py` 653-761); `t` is `tmi_projection`. -/
def vals (t : Fin 3 → ℝ) (d : Dict) : Comp → Except Err (Fin 3 → Nodal)
  | bx => three d gxx gxy gxz
  | by' => three d gxy gyy gyz
  | bz => three d gxz gyz gzz
  | tmi => projected t d ![![gxx, gxy, gxz], ![gxy, gyy, gyz], ![gxz, gyz, gzz]]
  | tmi_x => projected t d ![![gxxx, gxxy, gxxz], ![gxxy, gyyx, gxyz], ![gxxz, gxyz, gzzx]]
  | tmi_y => projected t d ![![gxxy, gyyx, gxyz], ![gyyx, gyyy, gyyz], ![gxyz, gyyz, gzzy]]
  | tmi_z => projected t d ![![gxxz, gxyz, gzzx], ![gxyz, gyyz, gzzy], ![gzzx, gzzy, gzzz]]
  | bxx => three d gxxx gxxy gxxz
  | bxy => three d gxxy gyyx gxyz
  | bxz => three d gxxz gxyz gzzx
  | byy => three d gyyx gyyy gyyz
  | byz => three d gxyz gyyz gzzy
  | bzz => three d gzzx gzzy gzzz

/-! ### Magnetic components, engine choclo -/

/-- The kernels of `choclo.prism` by their names: two or three directions. -/
structure Choclo where
  ee : (Fin 3 → ℝ) → ℝ
  nn : (Fin 3 → ℝ) → ℝ
  uu : (Fin 3 → ℝ) → ℝ
  en : (Fin 3 → ℝ) → ℝ
  eu : (Fin 3 → ℝ) → ℝ
  nu : (Fin 3 → ℝ) → ℝ
  eee : (Fin 3 → ℝ) → ℝ
  een : (Fin 3 → ℝ) → ℝ
  eeu : (Fin 3 → ℝ) → ℝ
  enn : (Fin 3 → ℝ) → ℝ
  nnn : (Fin 3 → ℝ) → ℝ
  nnu : (Fin 3 → ℝ) → ℝ
  euu : (Fin 3 → ℝ) → ℝ
  nuu : (Fin 3 → ℝ) → ℝ
  uuu : (Fin 3 → ℝ) → ℝ
  enu : (Fin 3 → ℝ) → ℝ

variable (H : Choclo)

/-- The kernels of a component: three, or the six of the total field and its derivatives in the
order xx, yy, zz, xy, xz, yz. -/
inductive Table
  | vec (x y z : (Fin 3 → ℝ) → ℝ)
  | tmi (xx yy zz xy xz yz : (Fin 3 → ℝ) → ℝ)

/-- `CHOCLO_KERNELS` (`simpeg/potential_fields/magnetics/simulation.py` 45-98), and the kernels of
the total field (`simpeg/potential_fields/magnetics/_numba/_3d_mesh.py`, `_sensitivity_tmi`). -/
def chocloKernels : Comp → Table
  | .bx => .vec H.ee H.en H.eu
  | .by' => .vec H.en H.nn H.nu
  | .bz => .vec H.eu H.nu H.uu
  | .bxx => .vec H.eee H.een H.eeu
  | .byy => .vec H.enn H.nnn H.nnu
  | .bzz => .vec H.euu H.nuu H.uuu
  | .bxy => .vec H.een H.enn H.enu
  | .bxz => .vec H.eeu H.enu H.euu
  | .byz => .vec H.enu H.nnu H.nuu
  | .tmi_x => .tmi H.eee H.enn H.euu H.een H.eeu H.enu
  | .tmi_y => .tmi H.een H.nnn H.nuu H.enn H.enu H.nnu
  | .tmi_z => .tmi H.eeu H.nnu H.uuu H.enu H.euu H.nuu
  | .tmi => .tmi H.ee H.nn H.uu H.en H.eu H.nu

/-- The value of a kernel on a cell, from the vectors to its eight nodes. -/
def onCell (D : Fin 8 → Fin 3 → ℝ) (k : (Fin 3 → ℝ) → ℝ) : ℝ := chocloCell fun i => k (D i)

/-- The three values `ux, uy, uz` or `bx, by, bz` of a cell
(`simpeg/potential_fields/magnetics/_numba/_3d_mesh.py`, `_sensitivity_mag`, `_sensitivity_tmi`,
`_sensitivity_tmi_derivative`). -/
def chocloVec (f : Fin 3 → ℝ) (D : Fin 8 → Fin 3 → ℝ) : Table → Fin 3 → ℝ
  | .vec x y z => ![onCell D x, onCell D y, onCell D z]
  | .tmi xx yy zz xy xz yz =>
    ![onCell D xx * f 0 + onCell D xy * f 1 + onCell D xz * f 2,
      onCell D xy * f 0 + onCell D yy * f 1 + onCell D yz * f 2,
      onCell D xz * f 0 + onCell D yz * f 1 + onCell D zz * f 2]

/-- The amplitude of the regional field. -/
def ampl (b0 : Fin 3 → ℝ) : ℝ := Real.sqrt (b0 0 ^ 2 + b0 1 ^ 2 + b0 2 ^ 2)

def unit (b0 : Fin 3 → ℝ) : Fin 3 → ℝ := fun i => b0 i / ampl b0

/-- The entry for a scalar model: the direction of the magnetization is that of the regional field.
The constant factor is `1 / 4 / np.pi`. -/
def chocloScalar (b0 : Fin 3 → ℝ) (D : Fin 8 → Fin 3 → ℝ) (c : Comp) : ℝ :=
  let u := chocloVec (unit b0) D (chocloKernels H c)
  1 / 4 / Real.pi * ampl b0 * (u 0 * unit b0 0 + u 1 * unit b0 1 + u 2 * unit b0 2)

/-- The entry for one direction of a vector model. -/
def chocloVector (b0 : Fin 3 → ℝ) (D : Fin 8 → Fin 3 → ℝ) (c : Comp) (dir : Fin 3) : ℝ :=
  1 / 4 / Real.pi * ampl b0 * chocloVec (unit b0) D (chocloKernels H c) dir

/-! ### The entries of the engine geoana -/

/-- The values of a component on a cell for the three directions of magnetization. -/
def geoanaVec (t : Fin 3 → ℝ) (cs : List Comp) (D : Fin 8 → Fin 3 → ℝ) (c : Comp) :
    Except Err (Fin 3 → ℝ) :=
  (vals t (nodeEvals P cs (fun i => D i 0) (fun i => D i 1) fun i => D i 2) c).map
    fun u k => geoanaCell (u k)

/-- The entry for a scalar model with magnetization `M` in the cell
(`simpeg/potential_fields/magnetics/simulation.py` 801-812). -/
def geoanaScalar (t M : Fin 3 → ℝ) (cs : List Comp) (D : Fin 8 → Fin 3 → ℝ) (c : Comp) :
    Except Err ℝ :=
  (geoanaVec P t cs D c).map fun u => (u 0 * M 0 + u 1 * M 1 + u 2 * M 2) / (4 * Real.pi)

/-- The entry for one direction of a vector model
(`simpeg/potential_fields/magnetics/simulation.py` 797-800). -/
def geoanaVector (t : Fin 3 → ℝ) (amplitude : ℝ) (cs : List Comp) (D : Fin 8 → Fin 3 → ℝ)
    (c : Comp) (dir : Fin 3) : Except Err ℝ :=
  (geoanaVec P t cs D c).map fun u => u dir * amplitude / (4 * Real.pi)

/-! ### Gravity -/

inductive GComp
  | gx | gy | gz | gxx | gyy | gzz | gxy | gxz | gyz | guv
  deriving DecidableEq

/-- The names of the components. -/
def GComp.name : GComp → String
  | gx => "gx" | gy => "gy" | gz => "gz" | gxx => "gxx" | gyy => "gyy" | gzz => "gzz"
  | gxy => "gxy" | gxz => "gxz" | gyz => "gyz" | guv => "guv"

/-- `node_evals` of gravity for one cell (`simpeg/potential_fields/gravity/simulation.py`
467-489). -/
def gravityEvals (cs : List GComp) (dx dy dz : Nodal) : GComp → Option Nodal
  | .gx => if .gx ∈ cs then some (on P.fz dy dz dx) else none
  | .gy => if .gy ∈ cs then some (on P.fz dz dx dy) else none
  | .gz => if .gz ∈ cs then some (on P.fz dx dy dz) else none
  | .gxy => if .gxy ∈ cs then some (on P.fzx dy dz dx) else none
  | .gxz => if .gxz ∈ cs then some (on P.fzx dx dy dz) else none
  | .gyz => if .gyz ∈ cs then some (on P.fzy dx dy dz) else none
  | .gxx => if .gxx ∈ cs ∨ .guv ∈ cs then some (on P.fzz dy dz dx) else none
  | .gyy => if .gyy ∈ cs ∨ .guv ∈ cs then some (on P.fzz dz dx dy) else none
  | .gzz => if .gzz ∈ cs then some (on P.fzz dx dy dz) else none
  | .guv => if .guv ∈ cs then some fun i => (on P.fzz dz dx dy i - on P.fzz dy dz dx i) * 0.5 else none

/-- The factor of the engine geoana (`simpeg/potential_fields/gravity/simulation.py` 527-530), with
`G` the constant of gravity. -/
def geoanaFactor (G : ℝ) (c : GComp) : ℝ :=
  if c.name.length = 3 then G * 1e12 else G * 1e8

/-- `_get_conversion_factor` (`simpeg/potential_fields/gravity/simulation.py` 100-110), times `G`. -/
def chocloFactor (G : ℝ) : GComp → ℝ
  | .gx | .gy | .gz => G * 1e8
  | .gxx | .gyy | .gzz | .gxy | .gxz | .gyz | .guv => G * 1e12

/-- `CHOCLO_KERNELS` of gravity (`simpeg/potential_fields/gravity/simulation.py` 24-31, 70-81);
`e, n, u` are the kernels of the acceleration. -/
def gravityKernel (e n u : (Fin 3 → ℝ) → ℝ) : GComp → (Fin 3 → ℝ) → ℝ
  | .gx => e | .gy => n | .gz => u
  | .gxx => H.ee | .gyy => H.nn | .gzz => H.uu | .gxy => H.en | .gxz => H.eu | .gyz => H.nu
  | .guv => fun d => 0.5 * (H.nn d - H.ee d)

/-- A row entry of the engine geoana: `node_evals[component]` raises for a missing key. -/
def geoanaGravity (G : ℝ) (cs : List GComp) (D : Fin 8 → Fin 3 → ℝ) (c : GComp) : Except Err ℝ :=
  match gravityEvals P cs (fun i => D i 0) (fun i => D i 1) (fun i => D i 2) c with
  | some v => .ok (geoanaCell v * geoanaFactor G c)
  | none => .error .keyError

/-- An entry of the engine choclo (`simpeg/potential_fields/gravity/_numba/_3d_mesh.py` 156-160). -/
def chocloGravity (e n u : (Fin 3 → ℝ) → ℝ) (G : ℝ) (D : Fin 8 → Fin 3 → ℝ) (c : GComp) : ℝ :=
  chocloFactor G c * onCell D (gravityKernel H e n u c)

/-! ### Specification -/

/-- What the names of the kernels of `geoana` say: `T1 i`, `T2 i j`, `T3 i j k` are the antiderivatives
of the first, second and third derivatives of the potential of a point in the given directions. They
do not depend on the order of the directions and commute with a cyclic change of the axes. -/
structure Faithful (T1 : Fin 3 → (Fin 3 → ℝ) → ℝ) (T2 : Fin 3 → Fin 3 → (Fin 3 → ℝ) → ℝ)
    (T3 : Fin 3 → Fin 3 → Fin 3 → (Fin 3 → ℝ) → ℝ) : Prop where
  fz : ∀ a b c, P.fz a b c = T1 2 ![a, b, c]
  fzz : ∀ a b c, P.fzz a b c = T2 2 2 ![a, b, c]
  fzx : ∀ a b c, P.fzx a b c = T2 2 0 ![a, b, c]
  fzy : ∀ a b c, P.fzy a b c = T2 2 1 ![a, b, c]
  fxxy : ∀ a b c, P.fxxy a b c = T3 0 0 1 ![a, b, c]
  fxxz : ∀ a b c, P.fxxz a b c = T3 0 0 2 ![a, b, c]
  fxyz : ∀ a b c, P.fxyz a b c = T3 0 1 2 ![a, b, c]
  fzzz : ∀ a b c, P.fzzz a b c = T3 2 2 2 ![a, b, c]
  symm2 : ∀ i j d, T2 i j d = T2 j i d
  symm3 : ∀ i j k d, T3 i j k d = T3 j i k d
  symm3' : ∀ i j k d, T3 i j k d = T3 i k j d
  rot1 : ∀ i d, T1 (i + 1) d = T1 i fun k => d (k + 1)
  rot2 : ∀ i j d, T2 (i + 1) (j + 1) d = T2 i j fun k => d (k + 1)
  rot3 : ∀ i j k d, T3 (i + 1) (j + 1) (k + 1) d = T3 i j k fun k => d (k + 1)

/-- What the names of the kernels of `choclo` say: the same functions with the opposite sign. -/
structure Opposite (e n u : (Fin 3 → ℝ) → ℝ) (T1 : Fin 3 → (Fin 3 → ℝ) → ℝ)
    (T2 : Fin 3 → Fin 3 → (Fin 3 → ℝ) → ℝ)
    (T3 : Fin 3 → Fin 3 → Fin 3 → (Fin 3 → ℝ) → ℝ) : Prop where
  e : ∀ d, e d = -T1 0 d
  n : ∀ d, n d = -T1 1 d
  u : ∀ d, u d = -T1 2 d
  ee : ∀ d, H.ee d = -T2 0 0 d
  nn : ∀ d, H.nn d = -T2 1 1 d
  uu : ∀ d, H.uu d = -T2 2 2 d
  en : ∀ d, H.en d = -T2 0 1 d
  eu : ∀ d, H.eu d = -T2 0 2 d
  nu : ∀ d, H.nu d = -T2 1 2 d
  eee : ∀ d, H.eee d = -T3 0 0 0 d
  een : ∀ d, H.een d = -T3 0 0 1 d
  eeu : ∀ d, H.eeu d = -T3 0 0 2 d
  enn : ∀ d, H.enn d = -T3 0 1 1 d
  nnn : ∀ d, H.nnn d = -T3 1 1 1 d
  nnu : ∀ d, H.nnu d = -T3 1 1 2 d
  euu : ∀ d, H.euu d = -T3 0 2 2 d
  nuu : ∀ d, H.nuu d = -T3 1 2 2 d
  uuu : ∀ d, H.uuu d = -T3 2 2 2 d
  enu : ∀ d, H.enu d = -T3 0 1 2 d

/-- The antiderivative of a magnetic component due to a magnetization in direction `k`: the field or
its gradient, or their projection on the direction `t`. -/
def magnetic (T2 : Fin 3 → Fin 3 → (Fin 3 → ℝ) → ℝ) (T3 : Fin 3 → Fin 3 → Fin 3 → (Fin 3 → ℝ) → ℝ)
    (t : Fin 3 → ℝ) (k : Fin 3) (d : Fin 3 → ℝ) : Comp → ℝ
  | .bx => T2 0 k d
  | .by' => T2 1 k d
  | .bz => T2 2 k d
  | .bxx => T3 0 0 k d
  | .byy => T3 1 1 k d
  | .bzz => T3 2 2 k d
  | .bxy => T3 0 1 k d
  | .bxz => T3 0 2 k d
  | .byz => T3 1 2 k d
  | .tmi => ∑ j, t j * T2 j k d
  | .tmi_x => ∑ j, t j * T3 0 j k d
  | .tmi_y => ∑ j, t j * T3 1 j k d
  | .tmi_z => ∑ j, t j * T3 2 j k d

/-- The antiderivative of a component of gravity. -/
def gravity (T1 : Fin 3 → (Fin 3 → ℝ) → ℝ) (T2 : Fin 3 → Fin 3 → (Fin 3 → ℝ) → ℝ)
    (d : Fin 3 → ℝ) : GComp → ℝ
  | .gx => T1 0 d
  | .gy => T1 1 d
  | .gz => T1 2 d
  | .gxx => T2 0 0 d
  | .gyy => T2 1 1 d
  | .gzz => T2 2 2 d
  | .gxy => T2 0 1 d
  | .gxz => T2 0 2 d
  | .gyz => T2 1 2 d
  | .guv => (T2 1 1 d - T2 0 0 d) / 2

/-- Milligal for the components of the acceleration, Eötvös for those of its gradient. -/
def units : GComp → ℝ
  | .gx | .gy | .gz => 10 ^ 8
  | _ => 10 ^ 12

/-- The difference of `g` over a box, taken in each direction. -/
def box (g : ℝ → ℝ → ℝ → ℝ) (x y z : ℕ → ℝ) (i i' j j' k k' : ℕ) : ℝ :=
  let X (b c : ℕ) := g (x i') (y b) (z c) - g (x i) (y b) (z c)
  let Y (c : ℕ) := X j' c - X j c
  Y k' - Y k

namespace Props

/-! ### Nodes -/

theorem mem_unique {xs : List ℕ} {x : ℕ} : x ∈ unique xs ↔ x ∈ xs := by
  simp [unique]

/-- The nodes which are kept are those used by the active cells, each once and in order. -/
theorem C88_unique (xs : List ℕ) :
    (unique xs).Nodup ∧ (unique xs).Pairwise (· ≤ ·) ∧ ∀ x, x ∈ unique xs ↔ x ∈ xs := by
  refine ⟨?_, ?_, fun x => mem_unique⟩
  · unfold unique
    exact ((List.mergeSort_perm _ _).nodup_iff).2 (List.nodup_dedup xs)
  · unfold unique
    have := List.pairwise_mergeSort (le := fun a b : ℕ => decide (a ≤ b))
      (by intro a b c; simp only [decide_eq_true_eq]; exact le_trans)
      (by intro a b; simp only [Bool.or_eq_true, decide_eq_true_eq]; exact le_total a b) xs.dedup
    exact this.imp fun h => by simpa using h

/-- Looking up the kept nodes by the stored places gives back the corners of every active cell. -/
theorem C88_inverse {α : Type} (f : ℕ → α) (xs : List ℕ) :
    (inverse xs).map (fun p => ((unique xs).map f)[p]?) = xs.map fun x => some (f x) := by
  unfold inverse
  rw [List.map_map]
  apply List.map_congr_left
  intro x hx
  have hm : x ∈ unique xs := mem_unique.2 hx
  simp only [Function.comp]
  rw [List.getElem?_map, List.getElem?_idxOf hm]
  rfl

theorem nodes_nodeIdx {nx ny i j k : ℕ} (x y z : ℕ → ℝ) (hi : i ≤ nx) (hj : j ≤ ny) :
    nodes nx ny x y z (nodeIdx nx ny i j k) = (x i, y j, z k) := by
  have h1 : (i + (nx + 1) * (j + (ny + 1) * k)) % (nx + 1) = i := by
    rw [Nat.add_mul_mod_self_left, Nat.mod_eq_of_lt (by omega)]
  have h2 : (i + (nx + 1) * (j + (ny + 1) * k)) / (nx + 1) = j + (ny + 1) * k := by
    rw [Nat.add_mul_div_left _ _ (by omega), Nat.div_eq_of_lt (by omega), Nat.zero_add]
  have h3 : (j + (ny + 1) * k) % (ny + 1) = j := by
    rw [Nat.add_mul_mod_self_left, Nat.mod_eq_of_lt (by omega)]
  have h4 : (j + (ny + 1) * k) / (ny + 1) = k := by
    rw [Nat.add_mul_div_left _ _ (by omega), Nat.div_eq_of_lt (by omega), Nat.zero_add]
  unfold nodes nodeIdx
  rw [h1, h2, h3, ← Nat.div_div_eq_div_mul, h2, h4]

/-- The corners of the cell `(i, j, k)` of a tensor mesh: its eight nodes, the first coordinate
changing fastest. -/
theorem C88_corners {nx ny i j k : ℕ} (x y z : ℕ → ℝ) (hi : i < nx) (hj : j < ny) :
    (cellNodes nx ny (i + nx * (j + ny * k))).map (nodes nx ny x y z) =
      [(x i, y j, z k), (x (i + 1), y j, z k), (x i, y (j + 1), z k), (x (i + 1), y (j + 1), z k),
       (x i, y j, z (k + 1)), (x (i + 1), y j, z (k + 1)), (x i, y (j + 1), z (k + 1)),
       (x (i + 1), y (j + 1), z (k + 1))] := by
  have h1 : (i + nx * (j + ny * k)) % nx = i := by
    rw [Nat.add_mul_mod_self_left, Nat.mod_eq_of_lt hi]
  have h2 : (i + nx * (j + ny * k)) / nx = j + ny * k := by
    rw [Nat.add_mul_div_left _ _ (by omega), Nat.div_eq_of_lt hi, Nat.zero_add]
  have h3 : (j + ny * k) % ny = j := by
    rw [Nat.add_mul_mod_self_left, Nat.mod_eq_of_lt hj]
  have h4 : (j + ny * k) / ny = k := by
    rw [Nat.add_mul_div_left _ _ (by omega), Nat.div_eq_of_lt hj, Nat.zero_add]
  unfold cellNodes corners
  rw [h1, ← Nat.div_div_eq_div_mul, h2, h3, h4]
  simp only [List.map_cons, List.map_nil]
  rw [nodes_nodeIdx x y z (by omega) (by omega), nodes_nodeIdx x y z (by omega) (by omega),
    nodes_nodeIdx x y z (by omega) (by omega), nodes_nodeIdx x y z (by omega) (by omega),
    nodes_nodeIdx x y z (by omega) (by omega), nodes_nodeIdx x y z (by omega) (by omega),
    nodes_nodeIdx x y z (by omega) (by omega), nodes_nodeIdx x y z (by omega) (by omega)]
  rfl

/-! ### Cells -/

/-- The value of a function of the position on cell `q`, from the coordinates of its nodes. -/
def cellValue (nx ny : ℕ) (x y z : ℕ → ℝ) (g : ℝ → ℝ → ℝ → ℝ) (q : ℕ) : ℝ :=
  chocloCell fun a => match ((cellNodes nx ny q).map (nodes nx ny x y z))[a.val]? with
    | some p => g p.1 p.2.1 p.2.2
    | none => 0

/-- The entry of a cell is the difference over the cell of the antiderivative. -/
theorem C88_cell {nx ny i j k : ℕ} (x y z : ℕ → ℝ) (g : ℝ → ℝ → ℝ → ℝ) (hi : i < nx) (hj : j < ny) :
    cellValue nx ny x y z g (i + nx * (j + ny * k)) =
      box g x y z i (i + 1) j (j + 1) k (k + 1) := by
  unfold cellValue
  rw [C88_corners x y z hi hj]
  simp [chocloCell, box]
  ring

theorem sum_split (a b : ℕ) (f : ℕ → ℝ) :
    ∑ q ∈ Finset.range (a * b), f q =
      ∑ j ∈ Finset.range b, ∑ i ∈ Finset.range a, f (i + a * j) := by
  induction b with
  | zero => simp
  | succ b ih =>
    rw [Finset.sum_range_succ, ← ih, Nat.mul_succ, Finset.sum_range_add]
    congr 1
    exact Finset.sum_congr rfl fun i _ => by rw [Nat.add_comm]

/-- A homogeneous block has the same data however it is divided in cells: the entries of the cells
of a tensor mesh sum to the entry of the block. -/
theorem C88_homogeneous (nx ny nz : ℕ) (x y z : ℕ → ℝ) (g : ℝ → ℝ → ℝ → ℝ) :
    ∑ q ∈ Finset.range (nx * (ny * nz)), cellValue nx ny x y z g q = box g x y z 0 nx 0 ny 0 nz := by
  rw [sum_split nx (ny * nz), sum_split ny nz]
  have h : ∀ k ∈ Finset.range nz, ∀ j ∈ Finset.range ny, ∀ i ∈ Finset.range nx,
      cellValue nx ny x y z g (i + nx * (j + ny * k)) =
        box g x y z i (i + 1) j (j + 1) k (k + 1) := by
    intro k _ j hj i hi
    exact C88_cell x y z g (Finset.mem_range.1 hi) (Finset.mem_range.1 hj)
  rw [Finset.sum_congr rfl fun k hk => Finset.sum_congr rfl fun j hj => Finset.sum_congr rfl
    fun i hi => h k hk j hj i hi]
  have e1 : ∀ j k, ∑ i ∈ Finset.range nx, box g x y z i (i + 1) j (j + 1) k (k + 1) =
      box g x y z 0 nx j (j + 1) k (k + 1) := by
    intro j k
    have e : ∀ i, box g x y z i (i + 1) j (j + 1) k (k + 1) =
        box g x y z 0 (i + 1) j (j + 1) k (k + 1) - box g x y z 0 i j (j + 1) k (k + 1) := by
      intro i; simp only [box]; ring
    simp only [e]
    rw [Finset.sum_range_sub fun i => box g x y z 0 i j (j + 1) k (k + 1)]
    simp [box]
  have e2 : ∀ k, ∑ j ∈ Finset.range ny, box g x y z 0 nx j (j + 1) k (k + 1) =
      box g x y z 0 nx 0 ny k (k + 1) := by
    intro k
    have e : ∀ j, box g x y z 0 nx j (j + 1) k (k + 1) =
        box g x y z 0 nx 0 (j + 1) k (k + 1) - box g x y z 0 nx 0 j k (k + 1) := by
      intro i; simp only [box]; ring
    simp only [e]
    rw [Finset.sum_range_sub fun j => box g x y z 0 nx 0 j k (k + 1)]
    simp [box]
  simp only [e1, e2]
  have e : ∀ k, box g x y z 0 nx 0 ny k (k + 1) =
      box g x y z 0 nx 0 ny 0 (k + 1) - box g x y z 0 nx 0 ny 0 k := by
    intro k; simp only [box]; ring
  simp only [e]
  rw [Finset.sum_range_sub fun k => box g x y z 0 nx 0 ny 0 k]
  simp [box]

/-- The entry of a cell is the integral over the cell of the derivative of the antiderivative in the
three directions, for a kernel which is smooth on the cell. -/
theorem C88_integral (x y z : ℕ → ℝ) (g g1 g2 h : ℝ → ℝ → ℝ → ℝ) {i j k nx ny : ℕ} (hi : i < nx)
    (hj : j < ny)
    (h1 : ∀ a ∈ Set.uIcc (x i) (x (i + 1)), ∀ b ∈ Set.uIcc (y j) (y (j + 1)),
      ∀ c ∈ Set.uIcc (z k) (z (k + 1)), HasDerivAt (fun c => g a b c) (g1 a b c) c)
    (h2 : ∀ a ∈ Set.uIcc (x i) (x (i + 1)), ∀ b ∈ Set.uIcc (y j) (y (j + 1)),
      ∀ c ∈ Set.uIcc (z k) (z (k + 1)), HasDerivAt (fun b => g1 a b c) (g2 a b c) b)
    (h3 : ∀ a ∈ Set.uIcc (x i) (x (i + 1)), ∀ b ∈ Set.uIcc (y j) (y (j + 1)),
      ∀ c ∈ Set.uIcc (z k) (z (k + 1)), HasDerivAt (fun a => g2 a b c) (h a b c) a)
    (c1 : ∀ a ∈ Set.uIcc (x i) (x (i + 1)), ∀ b ∈ Set.uIcc (y j) (y (j + 1)),
      ContinuousOn (fun c => g1 a b c) (Set.uIcc (z k) (z (k + 1))))
    (c2 : ∀ a ∈ Set.uIcc (x i) (x (i + 1)), ∀ c ∈ Set.uIcc (z k) (z (k + 1)),
      ContinuousOn (fun b => g2 a b c) (Set.uIcc (y j) (y (j + 1))))
    (c3 : ∀ b ∈ Set.uIcc (y j) (y (j + 1)), ∀ c ∈ Set.uIcc (z k) (z (k + 1)),
      ContinuousOn (fun a => h a b c) (Set.uIcc (x i) (x (i + 1)))) :
    cellValue nx ny x y z g (i + nx * (j + ny * k)) =
      ∫ c in z k..z (k + 1), ∫ b in y j..y (j + 1), ∫ a in x i..x (i + 1), h a b c := by
  rw [C88_cell x y z g hi hj]
  have x0 : x i ∈ Set.uIcc (x i) (x (i + 1)) := Set.left_mem_uIcc
  have x1 : x (i + 1) ∈ Set.uIcc (x i) (x (i + 1)) := Set.right_mem_uIcc
  have y0 : y j ∈ Set.uIcc (y j) (y (j + 1)) := Set.left_mem_uIcc
  have y1 : y (j + 1) ∈ Set.uIcc (y j) (y (j + 1)) := Set.right_mem_uIcc
  have i1 : ∀ a ∈ Set.uIcc (x i) (x (i + 1)), ∀ b ∈ Set.uIcc (y j) (y (j + 1)),
      ∫ c in z k..z (k + 1), g1 a b c = g a b (z (k + 1)) - g a b (z k) := fun a ha b hb =>
    intervalIntegral.integral_eq_sub_of_hasDerivAt (fun c hc => h1 a ha b hb c hc)
      ((c1 a ha b hb).intervalIntegrable)
  have i2 : ∀ a ∈ Set.uIcc (x i) (x (i + 1)), ∀ c ∈ Set.uIcc (z k) (z (k + 1)),
      ∫ b in y j..y (j + 1), g2 a b c = g1 a (y (j + 1)) c - g1 a (y j) c := fun a ha c hc =>
    intervalIntegral.integral_eq_sub_of_hasDerivAt (fun b hb => h2 a ha b hb c hc)
      ((c2 a ha c hc).intervalIntegrable)
  have i3 : ∀ b ∈ Set.uIcc (y j) (y (j + 1)), ∀ c ∈ Set.uIcc (z k) (z (k + 1)),
      ∫ a in x i..x (i + 1), h a b c = g2 (x (i + 1)) b c - g2 (x i) b c := fun b hb c hc =>
    intervalIntegral.integral_eq_sub_of_hasDerivAt (fun a ha => h3 a ha b hb c hc)
      ((c3 b hb c hc).intervalIntegrable)
  have s2 : ∀ c ∈ Set.uIcc (z k) (z (k + 1)),
      ∫ b in y j..y (j + 1), ∫ a in x i..x (i + 1), h a b c =
      (g1 (x (i + 1)) (y (j + 1)) c - g1 (x (i + 1)) (y j) c) -
        (g1 (x i) (y (j + 1)) c - g1 (x i) (y j) c) := by
    intro c hc
    rw [intervalIntegral.integral_congr fun b hb => i3 b hb c hc,
      intervalIntegral.integral_sub (c2 _ x1 c hc).intervalIntegrable
        (c2 _ x0 c hc).intervalIntegrable, i2 _ x1 c hc, i2 _ x0 c hc]
  have n : ∀ a ∈ Set.uIcc (x i) (x (i + 1)), ∀ b ∈ Set.uIcc (y j) (y (j + 1)),
      IntervalIntegrable (fun c => g1 a b c) MeasureTheory.volume (z k) (z (k + 1)) :=
    fun a ha b hb => (c1 a ha b hb).intervalIntegrable
  rw [intervalIntegral.integral_congr fun c hc => s2 c hc,
    intervalIntegral.integral_sub ((n _ x1 _ y1).sub (n _ x1 _ y0))
      ((n _ x0 _ y1).sub (n _ x0 _ y0)),
    intervalIntegral.integral_sub (n _ x1 _ y1) (n _ x1 _ y0),
    intervalIntegral.integral_sub (n _ x0 _ y1) (n _ x0 _ y0),
    i1 _ x1 _ y1, i1 _ x1 _ y0, i1 _ x0 _ y1, i1 _ x0 _ y0]
  simp only [box]
  ring

/-- The volume of a cell. -/
example (x y z : ℕ → ℝ) {i j k nx ny : ℕ} (hi : i < nx) (hj : j < ny) :
    cellValue nx ny x y z (fun a b c => a * b * c) (i + nx * (j + ny * k)) =
      ∫ _ in z k..z (k + 1), ∫ _ in y j..y (j + 1), ∫ _ in x i..x (i + 1), (1 : ℝ) := by
  refine C88_integral x y z _ (fun a b _ => a * b) (fun a _ _ => a) (fun _ _ _ => 1) hi hj
    ?_ ?_ ?_ ?_ ?_ ?_
  · intro a _ b _ c _
    simpa using HasDerivAt.const_mul (a * b) (hasDerivAt_id c)
  · intro a _ b _ c _
    simpa using HasDerivAt.const_mul a (hasDerivAt_id b)
  · intro a _ b _ c _
    exact hasDerivAt_id a
  all_goals intros; fun_prop

/-- The two engines combine the nodes with opposite signs. -/
theorem geoanaCell_eq (v : Fin 8 → ℝ) : geoanaCell v = -chocloCell v := by
  unfold geoanaCell chocloCell; ring

/-! ### Components -/

section
variable {P : Prisms} {H : Choclo} {T1 : Fin 3 → (Fin 3 → ℝ) → ℝ}
  {T2 : Fin 3 → Fin 3 → (Fin 3 → ℝ) → ℝ} {T3 : Fin 3 → Fin 3 → Fin 3 → (Fin 3 → ℝ) → ℝ}

/-- The function each key stands for. -/
def truth (T2 : Fin 3 → Fin 3 → (Fin 3 → ℝ) → ℝ) (T3 : Fin 3 → Fin 3 → Fin 3 → (Fin 3 → ℝ) → ℝ)
    (d : Fin 3 → ℝ) : Key → ℝ
  | .gxx => T2 0 0 d | .gxy => T2 0 1 d | .gxz => T2 0 2 d | .gyy => T2 1 1 d | .gyz => T2 1 2 d
  | .gzz => T2 2 2 d | .gxxx => T3 0 0 0 d | .gxxy => T3 0 0 1 d | .gxxz => T3 0 0 2 d
  | .gyyx => T3 0 1 1 d | .gxyz => T3 0 1 2 d | .gzzx => T3 0 2 2 d | .gyyy => T3 1 1 1 d
  | .gyyz => T3 1 1 2 d | .gzzy => T3 1 2 2 d | .gzzz => T3 2 2 2 d

theorem rotA2 (hP : Faithful P T1 T2 T3) (i j : Fin 3) (a b c : ℝ) :
    T2 i j ![b, c, a] = T2 (i + 1) (j + 1) ![a, b, c] := by
  rw [hP.rot2]; congr 1; funext k; fin_cases k <;> rfl

theorem rotA3 (hP : Faithful P T1 T2 T3) (i j k : Fin 3) (a b c : ℝ) :
    T3 i j k ![b, c, a] = T3 (i + 1) (j + 1) (k + 1) ![a, b, c] := by
  rw [hP.rot3]; congr 1; funext k; fin_cases k <;> rfl

theorem rotA1 (hP : Faithful P T1 T2 T3) (i : Fin 3) (a b c : ℝ) :
    T1 i ![b, c, a] = T1 (i + 1) ![a, b, c] := by
  rw [hP.rot1]; congr 1; funext k; fin_cases k <;> rfl

theorem vec3 (d : Fin 3 → ℝ) : ![d 0, d 1, d 2] = d := by
  funext k; fin_cases k <;> rfl

/-- The conditions under which a key is evaluated. -/
def need (cs : List Comp) : Key → Prop
  | .gxx => .bx ∈ cs ∨ .tmi ∈ cs
  | .gxy => (.bx ∈ cs ∨ .tmi ∈ cs) ∨ .by' ∈ cs ∨ .tmi ∈ cs
  | .gxz => (.bx ∈ cs ∨ .tmi ∈ cs) ∨ .bz ∈ cs ∨ .tmi ∈ cs
  | .gyy => .by' ∈ cs ∨ .tmi ∈ cs
  | .gyz => (.by' ∈ cs ∨ .tmi ∈ cs) ∨ .bz ∈ cs ∨ .tmi ∈ cs
  | .gzz => .bz ∈ cs ∨ .tmi ∈ cs
  | .gxxx => .bxx ∈ cs ∨ .tmi_x ∈ cs
  | .gxxy => (.bxx ∈ cs ∨ .tmi_x ∈ cs) ∨ .bxy ∈ cs ∨ .tmi_x ∈ cs ∨ .tmi_y ∈ cs
  | .gxxz => (.bxx ∈ cs ∨ .tmi_x ∈ cs) ∨ .bxz ∈ cs ∨ .tmi_x ∈ cs ∨ .tmi_z ∈ cs
  | .gyyx => (.bxy ∈ cs ∨ .tmi_x ∈ cs ∨ .tmi_y ∈ cs) ∨ .byy ∈ cs ∨ .tmi_y ∈ cs
  | .gxyz => (.bxy ∈ cs ∨ .tmi_x ∈ cs ∨ .tmi_y ∈ cs) ∨ (.bxz ∈ cs ∨ .tmi_x ∈ cs ∨ .tmi_z ∈ cs) ∨
      .byz ∈ cs ∨ .tmi_y ∈ cs ∨ .tmi_z ∈ cs
  | .gzzx => (.bxz ∈ cs ∨ .tmi_x ∈ cs ∨ .tmi_z ∈ cs) ∨ .bzz ∈ cs ∨ .tmi_z ∈ cs
  | .gyyy => .byy ∈ cs ∨ .tmi_y ∈ cs
  | .gyyz => (.byy ∈ cs ∨ .tmi_y ∈ cs) ∨ .byz ∈ cs ∨ .tmi_y ∈ cs ∨ .tmi_z ∈ cs
  | .gzzy => (.byz ∈ cs ∨ .tmi_y ∈ cs ∨ .tmi_z ∈ cs) ∨ .bzz ∈ cs ∨ .tmi_z ∈ cs
  | .gzzz => .bzz ∈ cs ∨ .tmi_z ∈ cs

theorem set_apply (k : Key) (v : Nodal) (d : Dict) (k' : Key) :
    d.set k v k' = if k' = k then some v else d k' := rfl

theorem setNew_apply (k : Key) (v : Nodal) (d : Dict) (k' : Key) :
    d.setNew k v k' = if k' = k then some ((d k).getD v) else d k' := by
  unfold Dict.setNew
  rcases h : d k with _ | w
  · simp [Dict.set]
  · by_cases hk : k' = k
    · subst hk; simp [h]
    · simp [hk]

theorem app (p : Prop) [Decidable p] (a b : Dict) (k : Key) :
    (if p then a else b) k = if p then a k else b k := by split_ifs <;> rfl

theorem nodeEvals_key (hP : Faithful P T1 T2 T3) (cs : List Comp) (D : Fin 8 → Fin 3 → ℝ) (k : Key)
    (hk : need cs k) :
    nodeEvals P cs (fun i => D i 0) (fun i => D i 1) (fun i => D i 2) k =
      some fun i => truth T2 T3 (D i) k := by
  have A : (on P.fzz (fun i => D i 1) (fun i => D i 2) fun i => D i 0) = fun i => T2 0 0 (D i) := by
    funext i; simp only [on, hP.fzz]; rw [rotA2 hP, vec3]; rfl
  have B : (on P.fzx (fun i => D i 1) (fun i => D i 2) fun i => D i 0) = fun i => T2 0 1 (D i) := by
    funext i; simp only [on, hP.fzx]; rw [rotA2 hP, vec3]; rfl
  have C : (on P.fzy (fun i => D i 1) (fun i => D i 2) fun i => D i 0) = fun i => T2 0 2 (D i) := by
    funext i; simp only [on, hP.fzy]; rw [rotA2 hP, vec3]; rfl
  have E : (on P.fzz (fun i => D i 2) (fun i => D i 0) fun i => D i 1) = fun i => T2 1 1 (D i) := by
    funext i; simp only [on, hP.fzz]; rw [rotA2 hP, rotA2 hP, vec3]; rfl
  have F : (on P.fzy (fun i => D i 0) (fun i => D i 1) fun i => D i 2) = fun i => T2 1 2 (D i) := by
    funext i; simp only [on, hP.fzy]; rw [vec3, hP.symm2]
  have G : (on P.fzz (fun i => D i 0) (fun i => D i 1) fun i => D i 2) = fun i => T2 2 2 (D i) := by
    funext i; simp only [on, hP.fzz]; rw [vec3]
  have a : (on P.fzzz (fun i => D i 1) (fun i => D i 2) fun i => D i 0) =
      fun i => T3 0 0 0 (D i) := by
    funext i; simp only [on, hP.fzzz]; rw [rotA3 hP, vec3]; rfl
  have b : (on P.fxxy (fun i => D i 0) (fun i => D i 1) fun i => D i 2) =
      fun i => T3 0 0 1 (D i) := by
    funext i; simp only [on, hP.fxxy]; rw [vec3]
  have c : (on P.fxxz (fun i => D i 0) (fun i => D i 1) fun i => D i 2) =
      fun i => T3 0 0 2 (D i) := by
    funext i; simp only [on, hP.fxxz]; rw [vec3]
  have e : (on P.fxxz (fun i => D i 1) (fun i => D i 2) fun i => D i 0) =
      fun i => T3 0 1 1 (D i) := by
    funext i; simp only [on, hP.fxxz]; rw [rotA3 hP, vec3]
    change T3 1 1 0 _ = _
    rw [hP.symm3', hP.symm3]
  have f : (on P.fxyz (fun i => D i 0) (fun i => D i 1) fun i => D i 2) =
      fun i => T3 0 1 2 (D i) := by
    funext i; simp only [on, hP.fxyz]; rw [vec3]
  have g : (on P.fxxy (fun i => D i 2) (fun i => D i 0) fun i => D i 1) =
      fun i => T3 0 2 2 (D i) := by
    funext i; simp only [on, hP.fxxy]; rw [rotA3 hP, rotA3 hP, vec3]
    change T3 2 2 0 _ = _
    rw [hP.symm3', hP.symm3]
  have h : (on P.fzzz (fun i => D i 2) (fun i => D i 0) fun i => D i 1) =
      fun i => T3 1 1 1 (D i) := by
    funext i; simp only [on, hP.fzzz]; rw [rotA3 hP, rotA3 hP, vec3]; rfl
  have l : (on P.fxxy (fun i => D i 1) (fun i => D i 2) fun i => D i 0) =
      fun i => T3 1 1 2 (D i) := by
    funext i; simp only [on, hP.fxxy]; rw [rotA3 hP, vec3]; rfl
  have m : (on P.fxxz (fun i => D i 2) (fun i => D i 0) fun i => D i 1) =
      fun i => T3 1 2 2 (D i) := by
    funext i; simp only [on, hP.fxxz]; rw [rotA3 hP, rotA3 hP, vec3]
    change T3 2 2 1 _ = _
    rw [hP.symm3', hP.symm3]
  have o : (on P.fzzz (fun i => D i 0) (fun i => D i 1) fun i => D i 2) =
      fun i => T3 2 2 2 (D i) := by
    funext i; simp only [on, hP.fzzz]; rw [vec3]
  unfold nodeEvals
  simp only [A, B, C, E, F, G, a, b, c, e, f, g, h, l, m, o]
  clear A B C E F G a b c e f g h l m o
  cases k <;> simp only [need] at hk <;>
    simp only [app, set_apply, setNew_apply, reduceCtorEq, if_false, if_true, truth, ite_self] <;>
    split_ifs <;> first
      | rfl
      | (exfalso; simp_all; done)
      | skip

theorem look_key (hP : Faithful P T1 T2 T3) (cs : List Comp) (D : Fin 8 → Fin 3 → ℝ) (k : Key)
    (hk : need cs k) :
    look (nodeEvals P cs (fun i => D i 0) (fun i => D i 1) fun i => D i 2) k =
      .ok fun i => truth T2 T3 (D i) k := by
  unfold look; rw [nodeEvals_key hP cs D k hk]

theorem three_key (hP : Faithful P T1 T2 T3) (cs : List Comp) (D : Fin 8 → Fin 3 → ℝ)
    (a b c : Key) (ha : need cs a) (hb : need cs b) (hc : need cs c) :
    three (nodeEvals P cs (fun i => D i 0) (fun i => D i 1) fun i => D i 2) a b c =
      .ok ![fun i => truth T2 T3 (D i) a, fun i => truth T2 T3 (D i) b,
        fun i => truth T2 T3 (D i) c] := by
  unfold three; rw [look_key hP cs D a ha, look_key hP cs D b hb, look_key hP cs D c hc]

/-- Every component which was asked for is computed, whichever others were asked for with it, and is
the antiderivative its name says. -/
theorem C88_components (hP : Faithful P T1 T2 T3) (t : Fin 3 → ℝ) (cs : List Comp)
    (D : Fin 8 → Fin 3 → ℝ) (c : Comp) (hc : c ∈ cs) :
    geoanaVec P t cs D c =
      .ok fun k => -chocloCell fun i => magnetic T2 T3 t k (D i) c := by
  have s2 := hP.symm2
  have s3 := hP.symm3
  have s3' := hP.symm3'
  have r1 : ∀ d, T2 1 0 d = T2 0 1 d := fun d => s2 _ _ _
  have r2 : ∀ d, T2 2 0 d = T2 0 2 d := fun d => s2 _ _ _
  have r3 : ∀ d, T2 2 1 d = T2 1 2 d := fun d => s2 _ _ _
  have q1 : ∀ d, T3 0 1 0 d = T3 0 0 1 d := fun d => s3' _ _ _ _
  have q2 : ∀ d, T3 0 2 0 d = T3 0 0 2 d := fun d => s3' _ _ _ _
  have q3 : ∀ d, T3 1 1 0 d = T3 0 1 1 d := fun d => by rw [s3', s3]
  have q4 : ∀ d, T3 2 2 0 d = T3 0 2 2 d := fun d => by rw [s3', s3]
  have q5 : ∀ d, T3 2 2 1 d = T3 1 2 2 d := fun d => by rw [s3', s3]
  have q6 : ∀ d, T3 0 2 1 d = T3 0 1 2 d := fun d => s3' _ _ _ _
  have q7 : ∀ d, T3 1 2 0 d = T3 0 1 2 d := fun d => by rw [s3', s3]
  have q8 : ∀ d, T3 1 2 1 d = T3 1 1 2 d := fun d => s3' _ _ _ _
  have q9 : ∀ d, T3 1 0 0 d = T3 0 0 1 d := fun d => by rw [s3, s3']
  have p1 : ∀ d, T3 1 0 1 d = T3 0 1 1 d := fun d => s3 _ _ _ _
  have p2 : ∀ d, T3 1 0 2 d = T3 0 1 2 d := fun d => s3 _ _ _ _
  have p3 : ∀ d, T3 2 0 0 d = T3 0 0 2 d := fun d => by rw [s3, s3']
  have p4 : ∀ d, T3 2 0 1 d = T3 0 1 2 d := fun d => by rw [s3, s3']
  have p5 : ∀ d, T3 2 0 2 d = T3 0 2 2 d := fun d => s3 _ _ _ _
  have p6 : ∀ d, T3 2 1 0 d = T3 0 1 2 d := fun d => by rw [s3, s3', s3]
  have p7 : ∀ d, T3 2 1 1 d = T3 1 1 2 d := fun d => by rw [s3, s3']
  have p8 : ∀ d, T3 2 1 2 d = T3 1 2 2 d := fun d => s3 _ _ _ _
  unfold geoanaVec
  cases c <;> simp only [vals, projected] <;>
    (try simp only [Matrix.cons_val_zero, Matrix.cons_val_one, Matrix.cons_val]) <;>
    (repeat rw [three_key hP cs D _ _ _ (by simp [need, hc]) (by simp [need, hc])
      (by simp [need, hc])]) <;>
    · simp only [Except.map]
      congr 1
      funext k
      rw [geoanaCell_eq]
      congr 2
      funext i
      fin_cases k <;> simp [truth, magnetic, Fin.sum_univ_three, *]

theorem chocloCell_neg (v : Fin 8 → ℝ) : (chocloCell fun i => -v i) = -chocloCell v := by
  unfold chocloCell; ring

/-- The values of a component on a cell, engine choclo. -/
theorem choclo_vec {e n u : (Fin 3 → ℝ) → ℝ} (hP : Faithful P T1 T2 T3)
    (hH : Opposite H e n u T1 T2 T3) (t : Fin 3 → ℝ) (D : Fin 8 → Fin 3 → ℝ) (c : Comp) (k : Fin 3) :
    chocloVec t D (chocloKernels H c) k = -chocloCell fun i => magnetic T2 T3 t k (D i) c := by
  have s2 := hP.symm2
  have s3 := hP.symm3
  have s3' := hP.symm3'
  have r1 : ∀ d, T2 1 0 d = T2 0 1 d := fun d => s2 _ _ _
  have r2 : ∀ d, T2 2 0 d = T2 0 2 d := fun d => s2 _ _ _
  have r3 : ∀ d, T2 2 1 d = T2 1 2 d := fun d => s2 _ _ _
  have q1 : ∀ d, T3 0 1 0 d = T3 0 0 1 d := fun d => s3' _ _ _ _
  have q2 : ∀ d, T3 0 2 0 d = T3 0 0 2 d := fun d => s3' _ _ _ _
  have q3 : ∀ d, T3 1 1 0 d = T3 0 1 1 d := fun d => by rw [s3', s3]
  have q4 : ∀ d, T3 2 2 0 d = T3 0 2 2 d := fun d => by rw [s3', s3]
  have q5 : ∀ d, T3 2 2 1 d = T3 1 2 2 d := fun d => by rw [s3', s3]
  have q6 : ∀ d, T3 0 2 1 d = T3 0 1 2 d := fun d => s3' _ _ _ _
  have q7 : ∀ d, T3 1 2 0 d = T3 0 1 2 d := fun d => by rw [s3', s3]
  have q8 : ∀ d, T3 1 2 1 d = T3 1 1 2 d := fun d => s3' _ _ _ _
  have q9 : ∀ d, T3 1 0 0 d = T3 0 0 1 d := fun d => by rw [s3, s3']
  have p1 : ∀ d, T3 1 0 1 d = T3 0 1 1 d := fun d => s3 _ _ _ _
  have p2 : ∀ d, T3 1 0 2 d = T3 0 1 2 d := fun d => s3 _ _ _ _
  have p3 : ∀ d, T3 2 0 0 d = T3 0 0 2 d := fun d => by rw [s3, s3']
  have p4 : ∀ d, T3 2 0 1 d = T3 0 1 2 d := fun d => by rw [s3, s3']
  have p5 : ∀ d, T3 2 0 2 d = T3 0 2 2 d := fun d => s3 _ _ _ _
  have p6 : ∀ d, T3 2 1 0 d = T3 0 1 2 d := fun d => by rw [s3, s3', s3]
  have p7 : ∀ d, T3 2 1 1 d = T3 1 1 2 d := fun d => by rw [s3, s3']
  have p8 : ∀ d, T3 2 1 2 d = T3 1 2 2 d := fun d => s3 _ _ _ _
  cases c <;> fin_cases k <;>
    · simp [chocloKernels, chocloVec, onCell, magnetic, Fin.sum_univ_three, hH.ee, hH.nn, hH.uu,
        hH.en, hH.eu, hH.nu, hH.eee, hH.een, hH.eeu, hH.enn, hH.nnn, hH.nnu, hH.euu, hH.nuu, hH.uuu,
        hH.enu, r1, r2, r3, q1, q2, q3, q4, q5, q6, q7, q8, q9, p1, p2, p3, p4, p5, p6, p7, p8,
        chocloCell]
      try ring

theorem ampl_smul {t : Fin 3 → ℝ} (ht : t 0 ^ 2 + t 1 ^ 2 + t 2 ^ 2 = 1) (a : ℝ) :
    ampl (a • t) = |a| := by
  unfold ampl
  rw [← Real.sqrt_sq_eq_abs]
  congr 1
  simp only [Pi.smul_apply, smul_eq_mul]
  linear_combination a ^ 2 * ht

theorem unit_smul {t : Fin 3 → ℝ} (ht : t 0 ^ 2 + t 1 ^ 2 + t 2 ^ 2 = 1) {a : ℝ} (ha : 0 < a) :
    unit (a • t) = t := by
  funext i
  unfold unit
  rw [ampl_smul ht, abs_of_pos ha]
  simp only [Pi.smul_apply, smul_eq_mul]
  field_simp

/-- The entry of a scalar model: the antiderivative for each direction of magnetization times that
component of the regional field, over `4π`, whichever engine. -/
theorem C88_scalar_partial {e n u : (Fin 3 → ℝ) → ℝ} (hP : Faithful P T1 T2 T3)
    (hH : Opposite H e n u T1 T2 T3) (t : Fin 3 → ℝ) (ht : t 0 ^ 2 + t 1 ^ 2 + t 2 ^ 2 = 1) {a : ℝ}
    (ha : 0 < a) (cs : List Comp) (D : Fin 8 → Fin 3 → ℝ) (c : Comp) (hc : c ∈ cs) :
    geoanaScalar P t (a • t) cs D c = .ok (chocloScalar H (a • t) D c) ∧
    chocloScalar H (a • t) D c =
      -(∑ k, a * t k * chocloCell fun i => magnetic T2 T3 t k (D i) c) / (4 * Real.pi) := by
  have hpi : Real.pi ≠ 0 := Real.pi_ne_zero
  have h : chocloScalar H (a • t) D c =
      -(∑ k, a * t k * chocloCell fun i => magnetic T2 T3 t k (D i) c) / (4 * Real.pi) := by
    unfold chocloScalar
    rw [unit_smul ht ha, ampl_smul ht, abs_of_pos ha]
    simp only [choclo_vec hP hH, Fin.sum_univ_three]
    field_simp
    ring
  refine ⟨?_, h⟩
  rw [h]
  unfold geoanaScalar
  rw [C88_components hP t cs D c hc]
  simp only [Except.map, Fin.sum_univ_three, Pi.smul_apply, smul_eq_mul]
  congr 1
  ring

/-- The entry of a vector model. -/
theorem C88_vector_partial {e n u : (Fin 3 → ℝ) → ℝ} (hP : Faithful P T1 T2 T3)
    (hH : Opposite H e n u T1 T2 T3) (t : Fin 3 → ℝ) (ht : t 0 ^ 2 + t 1 ^ 2 + t 2 ^ 2 = 1) {a : ℝ}
    (ha : 0 < a) (cs : List Comp) (D : Fin 8 → Fin 3 → ℝ) (c : Comp) (hc : c ∈ cs) (k : Fin 3) :
    geoanaVector P t a cs D c k = .ok (chocloVector H (a • t) D c k) ∧
    chocloVector H (a • t) D c k =
      -(a * chocloCell fun i => magnetic T2 T3 t k (D i) c) / (4 * Real.pi) := by
  have hpi : Real.pi ≠ 0 := Real.pi_ne_zero
  have h : chocloVector H (a • t) D c k =
      -(a * chocloCell fun i => magnetic T2 T3 t k (D i) c) / (4 * Real.pi) := by
    unfold chocloVector
    rw [unit_smul ht ha, ampl_smul ht, abs_of_pos ha, choclo_vec hP hH]
    field_simp
  refine ⟨?_, h⟩
  rw [h]
  unfold geoanaVector
  rw [C88_components hP t cs D c hc]
  simp only [Except.map]
  congr 1
  ring

theorem geoanaFactor_eq (G : ℝ) (c : GComp) : geoanaFactor G c = G * units c := by
  have hl : c.name.length = 3 ↔ ¬(c = .gx ∨ c = .gy ∨ c = .gz) := by
    cases c <;> decide
  unfold geoanaFactor
  cases c <;> simp [hl, units] <;> norm_num

/-- Gravity: every component asked for is computed by both engines, with the same value and in the
same units, and is the antiderivative its name says. -/
theorem C88_gravity {e n u : (Fin 3 → ℝ) → ℝ} (hP : Faithful P T1 T2 T3)
    (hH : Opposite H e n u T1 T2 T3) (G : ℝ) (cs : List GComp) (D : Fin 8 → Fin 3 → ℝ) (c : GComp)
    (hc : c ∈ cs) :
    geoanaGravity P G cs D c = .ok (chocloGravity H e n u G D c) ∧
    chocloGravity H e n u G D c =
      -(G * units c * chocloCell fun i => gravity T1 T2 (D i) c) := by
  have hr1 : ∀ i (d : Fin 3 → ℝ), T1 i ![d 1, d 2, d 0] = T1 (i + 1) d := fun i d => by
    rw [rotA1 hP, vec3]
  have hr2 : ∀ i j (d : Fin 3 → ℝ), T2 i j ![d 1, d 2, d 0] = T2 (i + 1) (j + 1) d := fun i j d => by
    rw [rotA2 hP, vec3]
  have hl1 : ∀ i (d : Fin 3 → ℝ), T1 i ![d 2, d 0, d 1] = T1 (i + 1 + 1) d := fun i d => by
    rw [rotA1 hP, rotA1 hP, vec3]
  have hl2 : ∀ i j (d : Fin 3 → ℝ), T2 i j ![d 2, d 0, d 1] = T2 (i + 1 + 1) (j + 1 + 1) d :=
    fun i j d => by rw [rotA2 hP, rotA2 hP, vec3]
  have hs1 : ∀ d, T2 2 0 d = T2 0 2 d := fun d => hP.symm2 _ _ _
  have hs2 : ∀ d, T2 2 1 d = T2 1 2 d := fun d => hP.symm2 _ _ _
  have z1 : (2 : Fin 3) + 1 = 0 := rfl
  have z2 : (0 : Fin 3) + 1 = 1 := rfl
  have h : chocloGravity H e n u G D c =
      -(G * units c * chocloCell fun i => gravity T1 T2 (D i) c) := by
    cases c <;>
    · simp only [chocloGravity, chocloFactor, gravityKernel, onCell, units, gravity, hH.e, hH.n, hH.u,
        hH.ee, hH.nn, hH.uu, hH.en, hH.eu, hH.nu, chocloCell]
      norm_num
      try ring
  refine ⟨?_, h⟩
  rw [h]
  unfold geoanaGravity
  cases c <;>
  · simp only [gravityEvals, hc, if_true, or_true, true_or]
    congr 1
    rw [geoanaCell_eq, geoanaFactor_eq]
    simp only [on, hP.fz, hP.fzz, hP.fzx, hP.fzy, hr1, hr2, hl1, hl2, hs1, hs2, z1, z2, vec3,
      units, gravity, chocloCell]
    norm_num
    try ring

/-- `guv` is half the difference of `gyy` and `gxx`. -/
theorem C88_guv {e n u : (Fin 3 → ℝ) → ℝ} (G : ℝ) (D : Fin 8 → Fin 3 → ℝ) :
    chocloGravity H e n u G D .guv =
      (chocloGravity H e n u G D .gyy - chocloGravity H e n u G D .gxx) / 2 := by
  simp only [chocloGravity, chocloFactor, gravityKernel, onCell, chocloCell]
  norm_num
  ring

end

/-- Kernels meeting the hypotheses: products of coordinates. -/
def exP : Prisms :=
  ⟨fun _ _ c => c * c, fun a _ c => c * a, fun _ b c => c * b, fun a b _ => a * a * b,
    fun a _ c => a * a * c, fun a b c => a * b * c, fun _ _ c => c * c * c, fun _ _ c => c⟩

def exH : Choclo :=
  ⟨fun d => -(d 0 * d 0), fun d => -(d 1 * d 1), fun d => -(d 2 * d 2), fun d => -(d 0 * d 1),
    fun d => -(d 0 * d 2), fun d => -(d 1 * d 2), fun d => -(d 0 * d 0 * d 0),
    fun d => -(d 0 * d 0 * d 1), fun d => -(d 0 * d 0 * d 2), fun d => -(d 0 * d 1 * d 1),
    fun d => -(d 1 * d 1 * d 1), fun d => -(d 1 * d 1 * d 2), fun d => -(d 0 * d 2 * d 2),
    fun d => -(d 1 * d 2 * d 2), fun d => -(d 2 * d 2 * d 2), fun d => -(d 0 * d 1 * d 2)⟩

theorem ex_faithful : Faithful exP (fun i d => d i) (fun i j d => d i * d j)
    fun i j k d => d i * d j * d k := by
  constructor <;> intros <;> (try simp only [exP, Matrix.cons_val]) <;> ring

theorem ex_opposite : Opposite exH (fun d => -d 0) (fun d => -d 1) (fun d => -d 2) (fun i d => d i)
    (fun i j d => d i * d j) fun i j k d => d i * d j * d k := by
  constructor <;> intros <;> rfl

/-- A box from the origin to `(x, y, z)`. -/
def exD (x y z : ℝ) : Fin 8 → Fin 3 → ℝ :=
  ![![0, 0, 0], ![x, 0, 0], ![0, y, 0], ![x, y, 0], ![0, 0, z], ![x, 0, z], ![0, y, z], ![x, y, z]]

example : geoanaScalar exP ![3 / 5, 4 / 5, 0] ((50 : ℝ) • ![3 / 5, 4 / 5, 0])
    [.tmi_x, .byz] (exD 1 2 3) .byz =
      .ok (chocloScalar exH ((50 : ℝ) • ![3 / 5, 4 / 5, 0]) (exD 1 2 3) .byz) :=
  (C88_scalar_partial ex_faithful ex_opposite _ (by simp; norm_num) (by norm_num) _ _ _
    (by simp)).1

/-- A magnetization assigned by the user is used by geoana and ignored by choclo. -/
theorem C88_violated_magnetization :
    ∃ (P : Prisms) (H : Choclo) (e n u : (Fin 3 → ℝ) → ℝ) (T1 : Fin 3 → (Fin 3 → ℝ) → ℝ)
      (T2 : Fin 3 → Fin 3 → (Fin 3 → ℝ) → ℝ) (T3 : Fin 3 → Fin 3 → Fin 3 → (Fin 3 → ℝ) → ℝ),
      Faithful P T1 T2 T3 ∧ Opposite H e n u T1 T2 T3 ∧
      ∃ (t M : Fin 3 → ℝ) (D : Fin 8 → Fin 3 → ℝ), t 0 ^ 2 + t 1 ^ 2 + t 2 ^ 2 = 1 ∧
        geoanaScalar P t M [.byz] D .byz ≠ .ok (chocloScalar H t D .byz) := by
  refine ⟨exP, exH, _, _, _, _, _, _, ex_faithful, ex_opposite, ![1, 0, 0], ![2, 0, 0],
    exD 1 1 1, by simp, ?_⟩
  have h := C88_scalar_partial ex_faithful ex_opposite ![1, 0, 0] (by simp) one_pos [.byz]
    (exD 1 1 1) .byz (by simp)
  rw [one_smul] at h
  rw [h.2]
  unfold geoanaScalar
  rw [C88_components ex_faithful _ _ _ _ (by simp)]
  simp only [Except.map, ne_eq, Except.ok.injEq]
  simp [Fin.sum_univ_three, magnetic, chocloCell, exD]

/-- A regional field with a negative amplitude is accepted and the engines disagree. -/
theorem C88_violated_amplitude :
    ∃ (P : Prisms) (H : Choclo) (e n u : (Fin 3 → ℝ) → ℝ) (T1 : Fin 3 → (Fin 3 → ℝ) → ℝ)
      (T2 : Fin 3 → Fin 3 → (Fin 3 → ℝ) → ℝ) (T3 : Fin 3 → Fin 3 → Fin 3 → (Fin 3 → ℝ) → ℝ),
      Faithful P T1 T2 T3 ∧ Opposite H e n u T1 T2 T3 ∧
      ∃ (t : Fin 3 → ℝ) (a : ℝ) (D : Fin 8 → Fin 3 → ℝ) (k : Fin 3),
        t 0 ^ 2 + t 1 ^ 2 + t 2 ^ 2 = 1 ∧
        geoanaVector P t a [.byz] D .byz k ≠ .ok (chocloVector H (a • t) D .byz k) := by
  refine ⟨exP, exH, _, _, _, _, _, _, ex_faithful, ex_opposite, ![1, 0, 0], -1, exD 1 1 1, 0,
    by simp, ?_⟩
  unfold geoanaVector chocloVector
  rw [C88_components ex_faithful _ _ _ _ (by simp), ampl_smul (by simp)]
  simp only [Except.map, ne_eq, Except.ok.injEq]
  simp [magnetic, chocloCell, exD, chocloVec, chocloKernels, exH, onCell]
  have := Real.pi_pos
  intro h
  have h' : (0 : ℝ) < 1 / 4 / Real.pi := by positivity
  field_simp at h
  norm_num at h

end Props

end Verif.PF.Kernel
