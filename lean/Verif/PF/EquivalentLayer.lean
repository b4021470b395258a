import Verif.PF.Layout
import Verif.PF.Kernel

/-!
C149: layers of equivalent sources (`simpeg/potential_fields/base.py` 411-478,
`simpeg/potential_fields/gravity/simulation.py` 727-945, `gravity/_numba/_2d_mesh.py`,
`simpeg/potential_fields/magnetics/simulation.py` 1235-1655, `magnetics/_numba/_2d_mesh.py`,
`simpeg/potential_fields/_numba_utils.py` 48-255).

A cell of a mesh in the plane and two elevations form a prism. Arrays are functions of their index;
the kernels of the libraries `geoana` and `choclo` are arbitrary functions, related only by what
their names say (`Verif/PF/Kernel.lean`).
-/

noncomputable section
namespace Verif.PF.EquivalentLayer
open Verif Verif.PF Verif.PF.Kernel

/-- A receiver location or the vector to a node. -/
abbrev V3 := Fin 3 → ℝ

/-! ### The geometry of the layer -/

/-- The arguments `cell_z_top` and `cell_z_bottom`: a Python number, an array, or something without
length which is not a Python number, as an integer of NumPy. -/
inductive Elev
  | number (r : ℝ)
  | array (l : List ℝ)
  | other

/-- `isinstance(z, (int, float))`, then `float(z) * np.ones(nC)`
(`simpeg/potential_fields/base.py` 428-432). -/
def Elev.spread (nC : ℕ) : Elev → Elev
  | .number r => .array (List.replicate nC (r * 1))
  | z => z

/-- `len(z)`, with the array itself. -/
def Elev.withLen : Elev → Except Err (List ℝ × ℕ)
  | .array l => .ok (l, l.length)
  | .number _ => .error .typeError
  | .other => .error .typeError

/-- The elevations kept by `__init__` (`simpeg/potential_fields/base.py` 425-440); `|` evaluates both
lengths. -/
def layer (nC : ℕ) (top bottom : Elev) : Except Err (List ℝ × List ℝ) :=
  match (top.spread nC).withLen, (bottom.spread nC).withLen with
  | .ok (t, nt), .ok (b, nb) => if nC ≠ nt ∨ nC ≠ nb then .error .attributeError else .ok (t, b)
  | _, _ => .error .typeError

structure Prism where
  west : ℝ
  east : ℝ
  south : ℝ
  north : ℝ
  bottom : ℝ
  top : ℝ

/-- Row `q` of `mesh.cell_bounds` of a tensor mesh in the plane with `nx` cells in the first
direction, with the elevations of the cell (the arguments of the Numba functions, for example
`simpeg/potential_fields/gravity/_numba/_2d_mesh.py` 80-91). -/
def prism (nx : ℕ) (x y : ℕ → ℝ) (q : ℕ) (bottom top : ℝ) : Prism :=
  ⟨x (q % nx), x (q % nx + 1), y (q / nx), y (q / nx + 1), bottom, top⟩

/-- `inds[i, j]` (`simpeg/potential_fields/base.py` 121). -/
def nodeIdx2 (nx i j : ℕ) : ℕ := i + (nx + 1) * j

/-- `cell_nodes` of a tensor mesh in the plane, row `q` (`simpeg/potential_fields/base.py` 122-128). -/
def cellNodes2 (nx q : ℕ) : List ℕ :=
  [nodeIdx2 nx (q % nx) (q / nx), nodeIdx2 nx (q % nx + 1) (q / nx),
    nodeIdx2 nx (q % nx) (q / nx + 1), nodeIdx2 nx (q % nx + 1) (q / nx + 1)]

/-- `mesh.nodes` of `discretize` in the plane. -/
def nodes2 (nx : ℕ) (x y : ℕ → ℝ) (p : ℕ) : ℝ × ℝ := (x (p % (nx + 1)), y (p / (nx + 1)))

/-- `cell_nodes[active_cells].T`, flattened (`simpeg/potential_fields/base.py` 140-146). -/
def flatNodes (nx : ℕ) (active : List ℕ) : List ℕ :=
  (List.range 4).flatMap fun c => active.map fun q => (cellNodes2 nx q).getD c 0

/-- `self._nodes[self._unique_inv][c][a]` (`simpeg/potential_fields/base.py` 146-148, 444): `none` is an
index which is out of range. -/
def cornerNode (nx : ℕ) (x y : ℕ → ℝ) (active : List ℕ) (c a : ℕ) : Option (ℝ × ℝ) :=
  ((inverse (flatNodes nx active))[c * active.length + a]?).bind fun p =>
    ((unique (flatNodes nx active)).map (nodes2 nx x y))[p]?

/-- Row `c` of `_nodes` of the layer, active cell `a` (`simpeg/potential_fields/base.py` 444-456). -/
def layerNode (nx : ℕ) (x y : ℕ → ℝ) (active : List ℕ) (bottom top : List ℝ) (c a : ℕ) :
    Option (ℝ × ℝ × ℝ) :=
  let elev (z : List ℝ) (c : ℕ) := (cornerNode nx x y active c a).bind fun n => (z[a]?).map fun z =>
    (n.1, n.2, z)
  if c < 4 then elev bottom c else elev top (c - 4)

/-! ### Kernels on a prism -/

/-- `evaluate_kernels_on_cell`, `evaluate_six_kernels_on_cell` for one kernel
(`simpeg/potential_fields/_numba_utils.py` 49-255). The distance given to the kernel is a function of
the three other arguments. -/
def evalOnCell (o : V3) (P : Prism) (k : V3 → ℝ) : ℝ :=
  (List.range 2).foldl (fun r i =>
    let de := if i = 0 then P.east - o 0 else P.west - o 0;
    (List.range 2).foldl (fun r j =>
      let dn := if j = 0 then P.north - o 1 else P.south - o 1;
      (List.range 2).foldl (fun r l =>
        let du := if l = 0 then P.top - o 2 else P.bottom - o 2;
        r + (-1) ^ (i + j + l) * k ![de, dn, du]) r) r) 0

/-! ### Gravity -/

section Gravity
variable (H : Choclo) (ke kn ku : V3 → ℝ) (G : ℝ)

/-- `choclo.prism.gravity_*` of a kernel: the constant of gravity and the density times the kernel on
the prism. -/
def gravityFn (k : V3 → ℝ) (o : V3) (P : Prism) (rho : ℝ) : ℝ := G * rho * evalOnCell o P k

/-- `CHOCLO_FORWARD_FUNCS` (`simpeg/potential_fields/gravity/simulation.py` 32-95). -/
def gravityForward : GComp → V3 → Prism → ℝ → ℝ
  | .gx => gravityFn G ke
  | .gy => gravityFn G kn
  | .gz => gravityFn G ku
  | .gxx => gravityFn G H.ee
  | .gyy => gravityFn G H.nn
  | .gzz => gravityFn G H.uu
  | .gxy => gravityFn G H.en
  | .gxz => gravityFn G H.eu
  | .gyz => gravityFn G H.nu
  | .guv => fun o P rho => 0.5 * (gravityFn G H.nn o P rho - gravityFn G H.ee o P rho)

/-- `_get_conversion_factor` (`simpeg/potential_fields/gravity/simulation.py` 98-110). -/
def conversion : GComp → ℝ
  | .gx | .gy | .gz => 1e8
  | .gxx | .gyy | .gzz | .gxy | .gxz | .gyz | .guv => 1e12

variable (n : ℕ) (cells : ℕ → Prism)

/-- `_forward` and `_forward_gravity` (`simpeg/potential_fields/gravity/simulation.py` 769-813,
`_numba/_2d_mesh.py` 75-93). Every receiver writes to its own entry. -/
def gForward (rs : List (Rx V3 GComp)) (rho : ℕ → ℝ) : ℕ → ℝ :=
  visit (fun a p c l => (List.range n).foldl (fun a j => Function.update a p
    (a p + conversion c * gravityForward H ke kn ku G c l (cells j) (rho j))) a) rs 0 0

/-- `_sensitivity_matrix` and `_sensitivity_gravity`
(`simpeg/potential_fields/gravity/simulation.py` 815-861, `_numba/_2d_mesh.py` 140-157). -/
def gMatrix (rs : List (Rx V3 GComp)) (junk : ℕ → ℕ → ℝ) : ℕ → ℕ → ℝ :=
  visit (fun a p c l => Function.update a p ((List.range n).foldl (fun row j => Function.update row j
    (conversion c * gravityForward H ke kn ku G c l (cells j) 1)) (a p))) rs 0 junk

/-- `_sensitivity_matrix_transpose_dot_vec` and `_g_t_dot_v_serial`
(`simpeg/potential_fields/gravity/simulation.py` 863-905, `_numba/_2d_mesh.py` 203-222). -/
def gTdot (rs : List (Rx V3 GComp)) (v : ℕ → ℝ) : ℕ → ℝ :=
  visit (fun r p c l => (List.range n).foldl (fun r j => Function.update r j
    (r j + conversion c * gravityForward H ke kn ku G c l (cells j) (v p))) r) rs 0 0

/-- `local_row` of `_g_t_dot_v_parallel` (`simpeg/potential_fields/gravity/_numba/_2d_mesh.py` 274-292),
allocated with arbitrary values. -/
def gLocal (v : ℕ → ℝ) (empty : ℕ → ℝ) (c : GComp) (p : ℕ) (l : V3) : ℕ → ℝ :=
  (List.range n).foldl (fun row j => Function.update row j
    (conversion c * gravityForward H ke kn ku G c l (cells j) (v p))) empty

/-- `_gtg_diagonal_without_building_g` and `_diagonal_G_T_dot_G_serial`
(`simpeg/potential_fields/gravity/simulation.py` 907-945, `_numba/_2d_mesh.py` 347-366): all the weights
are passed for every component and receiver object. -/
def gGtg (rs : List (Rx V3 GComp)) (w : ℕ → ℝ) : ℕ → ℝ :=
  rs.foldl (fun d r => r.components.foldl (fun d c => r.locations.zipIdx.foldl (fun d li =>
    (List.range n).foldl (fun d j => Function.update d j
      (d j + w li.2 * (conversion c * gravityForward H ke kn ku G c li.1 (cells j) 1) ^ 2)) d) d) d) 0

/-- `local_diagonal` of `_diagonal_G_T_dot_G_parallel`
(`simpeg/potential_fields/gravity/_numba/_2d_mesh.py` 420-441), allocated with arbitrary values. -/
def gLocalDiag (w : ℕ → ℝ) (empty : ℕ → ℝ) (c : GComp) (li : V3 × ℕ) : ℕ → ℝ :=
  (List.range n).foldl (fun d j => Function.update d j
    (w li.2 * (conversion c * gravityForward H ke kn ku G c li.1 (cells j) 1) ^ 2)) empty

end Gravity

/-! ### Parallel products with the transpose -/

/-- A reduction of Numba over the receivers of one call: the threads take groups of receivers in
some order, each adds its rows to zeros, and the sums are added to the result
(`result += local_row` in a `prange` loop). -/
def reduceRows {A : Type} (row : A → ℕ → ℝ) (groups : List (List A)) (res : ℕ → ℝ) : ℕ → ℝ :=
  groups.foldl (fun res g => res + g.foldl (fun acc q => acc + row q) 0) res

/-- The calls for the components of one receiver object, and for the receiver objects, where a call
gets the entries of the slice with their locations. -/
def callComponents {L C σ : Type} (call : C → List (ℕ × L) → σ → σ) (r : Rx L C) (off : ℕ) (s : σ) : σ :=
  r.components.zipIdx.foldl (fun s ci => call ci.1
    ((sliceIdx (off + ci.2) (off + r.components.length * r.locations.length) r.components.length).zip
      r.locations) s) s

def calls {L C σ : Type} (call : C → List (ℕ × L) → σ → σ) : List (Rx L C) → ℕ → σ → σ
  | [], _, s => s
  | r :: rs, off, s => calls call rs (off + r.components.length * r.locations.length)
      (callComponents call r off s)

/-! ### Magnetics -/

section Magnetics
variable (H : Choclo)

/-- The functions of `choclo.prism` for one magnetic component. -/
inductive Fn
  | e | n | u | ee | nn | uu | en | eu | nu

/-- `CHOCLO_FORWARD_FUNCS` (`simpeg/potential_fields/magnetics/simulation.py` 105-115); the total field
and its derivatives are not there. -/
def forwardFn : Comp → Option Fn
  | .bx => some .e
  | .by' => some .n
  | .bz => some .u
  | .bxx => some .ee
  | .byy => some .nn
  | .bzz => some .uu
  | .bxy => some .en
  | .bxz => some .eu
  | .byz => some .nu
  | _ => none

/-- The kernels of these functions by their names: the directions of the function and that of the
magnetization. -/
def Fn.kernels : Fn → Fin 3 → V3 → ℝ
  | .e => ![H.ee, H.en, H.eu]
  | .n => ![H.en, H.nn, H.nu]
  | .u => ![H.eu, H.nu, H.uu]
  | .ee => ![H.eee, H.een, H.eeu]
  | .nn => ![H.enn, H.nnn, H.nnu]
  | .uu => ![H.euu, H.nuu, H.uuu]
  | .en => ![H.een, H.enn, H.enu]
  | .eu => ![H.eeu, H.enu, H.euu]
  | .nu => ![H.enu, H.nnu, H.nuu]

/-- A function of `choclo.prism`: `mu` is its `VACUUM_MAGNETIC_PERMEABILITY`. -/
def magneticFn (mu : ℝ) (f : Fn) (o : V3) (P : Prism) (M : V3) : ℝ :=
  mu / (4 * Real.pi) * (M 0 * evalOnCell o P (f.kernels H 0) + M 1 * evalOnCell o P (f.kernels H 1) +
    M 2 * evalOnCell o P (f.kernels H 2))

/-- The magnetization of a cell (`simpeg/potential_fields/magnetics/_numba/_2d_mesh.py` 118-130). -/
def magnetization (scalar : Bool) (n : ℕ) (b0 : V3) (model : ℕ → ℝ) (j : ℕ) : V3 :=
  if scalar then ![model j * unit b0 0, model j * unit b0 1, model j * unit b0 2]
  else ![model j, model (j + n), model (j + 2 * n)]

/-- `bx, by, bz` from the six kernels and a vector. -/
def six (o : V3) (P : Prism) (xx yy zz xy xz yz : V3 → ℝ) (a : V3) : V3 :=
  ![evalOnCell o P xx * a 0 + evalOnCell o P xy * a 1 + evalOnCell o P xz * a 2,
    evalOnCell o P xy * a 0 + evalOnCell o P yy * a 1 + evalOnCell o P yz * a 2,
    evalOnCell o P xz * a 0 + evalOnCell o P yz * a 1 + evalOnCell o P zz * a 2]

/-- The term added for one cell by `_forward_mag`, `_forward_tmi` and `_forward_tmi_derivative`
(`simpeg/potential_fields/magnetics/_numba/_2d_mesh.py` 25-432). -/
def mTerm (mu : ℝ) (scalar : Bool) (n : ℕ) (b0 : V3) (model : ℕ → ℝ) (c : Comp) (o : V3) (P : Prism)
    (j : ℕ) : ℝ :=
  let f := unit b0
  let M := magnetization scalar n b0 model j
  match forwardFn c with
  | some g => ampl b0 * magneticFn H mu g o P M / mu
  | none =>
    if c = .tmi then
      ampl b0 * (magneticFn H mu .e o P M * f 0 + magneticFn H mu .n o P M * f 1 +
        magneticFn H mu .u o P M * f 2) / mu
    else match chocloKernels H c with
      | .tmi xx yy zz xy xz yz =>
        if scalar then
          let b := six o P xx yy zz xy xz yz f
          model j * ampl b0 * (f 0 * b 0 + f 1 * b 1 + f 2 * b 2) / (4 * Real.pi)
        else
          let b := six o P xx yy zz xy xz yz M
          ampl b0 * (b 0 * f 0 + b 1 * f 1 + b 2 * f 2) / 4 / Real.pi
      | .vec _ _ _ => 0

/-- `ux, uy, uz` or `bx, by, bz` of the functions for the sensitivities
(`simpeg/potential_fields/magnetics/_numba/_2d_mesh.py` 434-2219). -/
def sensVec (b0 : V3) (c : Comp) (o : V3) (P : Prism) : V3 :=
  match chocloKernels H c with
  | .vec x y z => ![evalOnCell o P x, evalOnCell o P y, evalOnCell o P z]
  | .tmi xx yy zz xy xz yz => six o P xx yy zz xy xz yz (unit b0)

/-- The entries of one row that are written for cell `j`: one, or three which are `n` apart. -/
def writes (scalar : Bool) (n : ℕ) (b0 u : V3) (j : ℕ) : List (ℕ × ℝ) :=
  let k := 1 / 4 / Real.pi
  let f := unit b0
  if scalar then [(j, k * ampl b0 * (u 0 * f 0 + u 1 * f 1 + u 2 * f 2))]
  else [(j, k * ampl b0 * u 0), (j + n, k * ampl b0 * u 1), (j + 2 * n, k * ampl b0 * u 2)]

variable (mu : ℝ) (scalar : Bool) (n : ℕ) (b0 : V3) (cells : ℕ → Prism)

/-- `_forward` (`simpeg/potential_fields/magnetics/simulation.py` 1278-1365). -/
def mForward (rs : List (Rx V3 Comp)) (model : ℕ → ℝ) : ℕ → ℝ :=
  visit (fun a p c l => (List.range n).foldl (fun a j => Function.update a p
    (a p + mTerm H mu scalar n b0 model c l (cells j) j)) a) rs 0 0

/-- The row written for one receiver by `_sensitivity_mag`, `_sensitivity_tmi` and
`_sensitivity_tmi_derivative` (`simpeg/potential_fields/magnetics/_numba/_2d_mesh.py` 572-623, 735-788,
868-920). -/
def mRow (c : Comp) (o : V3) (row : ℕ → ℝ) : ℕ → ℝ :=
  (List.range n).foldl (fun row j => (writes scalar n b0 (sensVec H b0 c o (cells j)) j).foldl
    (fun row q => Function.update row q.1 q.2) row) row

/-- `_sensitivity_matrix` (`simpeg/potential_fields/magnetics/simulation.py` 1367-1460). -/
def mMatrix (rs : List (Rx V3 Comp)) (junk : ℕ → ℕ → ℝ) : ℕ → ℕ → ℝ :=
  visit (fun a p c l => Function.update a p (mRow H scalar n b0 cells c l (a p))) rs 0 junk

/-- `_sensitivity_matrix_transpose_dot_vec` with the serial functions
(`simpeg/potential_fields/magnetics/simulation.py` 1462-1553,
`_numba/_2d_mesh.py` 966-1023, 1190-1242, 1413-1469). -/
def mTdot (rs : List (Rx V3 Comp)) (v : ℕ → ℝ) : ℕ → ℝ :=
  visit (fun r p c l => (List.range n).foldl (fun r j =>
    (writes scalar n b0 (sensVec H b0 c l (cells j)) j).foldl
      (fun r q => Function.update r q.1 (r q.1 + q.2 * v p)) r) r) rs 0 0

/-- `local_row` of the parallel functions (`_numba/_2d_mesh.py` 1077-1137, 1299-1357, 1531-1591). -/
def mLocal (v : ℕ → ℝ) (empty : ℕ → ℝ) (c : Comp) (p : ℕ) (o : V3) : ℕ → ℝ :=
  (List.range n).foldl (fun row j => (writes scalar n b0 (sensVec H b0 c o (cells j)) j).foldl
    (fun row q => Function.update row q.1 (q.2 * v p)) row) empty

/-- `_gtg_diagonal_without_building_g` with the serial functions
(`simpeg/potential_fields/magnetics/simulation.py` 1555-1655,
`_numba/_2d_mesh.py` 1640-1690, 1845-1893, 2057-2106). -/
def mGtg (rs : List (Rx V3 Comp)) (w : ℕ → ℝ) : ℕ → ℝ :=
  rs.foldl (fun d r => r.components.foldl (fun d c => r.locations.zipIdx.foldl (fun d li =>
    (List.range n).foldl (fun d j => (writes scalar n b0 (sensVec H b0 c li.1 (cells j)) j).foldl
      (fun d q => Function.update d q.1 (d q.1 + w li.2 * q.2 ^ 2)) d) d) d) d) 0

/-- `local_diagonal` of the parallel functions (`_numba/_2d_mesh.py` 1740-1795, 1944-1998, 2165-2219). -/
def mLocalDiag (w : ℕ → ℝ) (empty : ℕ → ℝ) (c : Comp) (li : V3 × ℕ) : ℕ → ℝ :=
  (List.range n).foldl (fun d j => (writes scalar n b0 (sensVec H b0 c li.1 (cells j)) j).foldl
    (fun d q => Function.update d q.1 (w li.2 * q.2 ^ 2)) d) empty

end Magnetics

/-! ### Specification -/

/-- The difference of `g`, a function of the vector from the receiver at `o`, over the prism, taken in
each direction. -/
def overPrism (g : V3 → ℝ) (o : V3) (P : Prism) : ℝ :=
  let d (a b c : ℝ) := g ![a - o 0, b - o 1, c - o 2]
  let X (b c : ℝ) := d P.east b c - d P.west b c
  let Y (c : ℝ) := X P.north c - X P.south c
  Y P.top - Y P.bottom

/-- The vectors from the receiver to the eight corners of the prism, in the order of
`Verif.PF.Kernel.corners`. -/
def toCorners (o : V3) (P : Prism) : Fin 8 → V3 := fun i =>
  ![(if (i : ℕ) % 2 = 0 then P.west else P.east) - o 0,
    (if (i : ℕ) / 2 % 2 = 0 then P.south else P.north) - o 1,
    (if (i : ℕ) / 4 = 0 then P.bottom else P.top) - o 2]

/-- The datum of a component of gravity for a unit density. -/
def gravityEntry (T1 : Fin 3 → V3 → ℝ) (T2 : Fin 3 → Fin 3 → V3 → ℝ) (G : ℝ) (c : GComp) (o : V3)
    (P : Prism) : ℝ := -(G * units c * overPrism (fun d => gravity T1 T2 d c) o P)

/-- The magnetic datum for a unit of the column: a susceptibility in the direction `t` of the field
with amplitude `a`, or an effective susceptibility in direction `k`. -/
def scalarEntry (T2 : Fin 3 → Fin 3 → V3 → ℝ) (T3 : Fin 3 → Fin 3 → Fin 3 → V3 → ℝ) (t : V3) (a : ℝ)
    (c : Comp) (o : V3) (P : Prism) : ℝ :=
  -(∑ k, a * t k * overPrism (fun d => magnetic T2 T3 t k d c) o P) / (4 * Real.pi)

def vectorEntry (T2 : Fin 3 → Fin 3 → V3 → ℝ) (T3 : Fin 3 → Fin 3 → Fin 3 → V3 → ℝ) (t : V3) (a : ℝ)
    (k : Fin 3) (c : Comp) (o : V3) (P : Prism) : ℝ :=
  -(a * overPrism (fun d => magnetic T2 T3 t k d c) o P) / (4 * Real.pi)

namespace Props

/-! ### Geometry -/

/-- C149. **Elevations**: numbers are used for all active cells, arrays must have one value for each of
them, and anything else is refused. -/
theorem C149_elevations (nC : ℕ) (t b : List ℝ) (r s : ℝ) (z : Elev) :
    layer nC (.number r) (.number s) = .ok (List.replicate nC r, List.replicate nC s) ∧
    (layer nC (.array t) (.array b) = .ok (t, b) ↔ t.length = nC ∧ b.length = nC) ∧
    (¬(t.length = nC ∧ b.length = nC) → layer nC (.array t) (.array b) = .error .attributeError) ∧
    (t.length = nC → layer nC (.array t) (.number s) = .ok (t, List.replicate nC s)) ∧
    (b.length = nC → layer nC (.number r) (.array b) = .ok (List.replicate nC r, b)) ∧
    layer nC .other z = .error .typeError ∧ layer nC z .other = .error .typeError := by
  refine ⟨by simp [layer, Elev.spread, Elev.withLen], ?_, ?_, ?_, ?_, ?_, ?_⟩
  · constructor
    · intro h
      by_contra hc
      have : nC ≠ t.length ∨ nC ≠ b.length := by
        by_contra hh; push Not at hh; exact hc ⟨hh.1.symm, hh.2.symm⟩
      simp [layer, Elev.spread, Elev.withLen, this] at h
    · rintro ⟨h1, h2⟩
      simp [layer, Elev.spread, Elev.withLen, h1, h2]
  · intro hc
    have : nC ≠ t.length ∨ nC ≠ b.length := by
      by_contra hh; push Not at hh; exact hc ⟨hh.1.symm, hh.2.symm⟩
    simp [layer, Elev.spread, Elev.withLen, this]
  · intro h; simp [layer, Elev.spread, Elev.withLen, h]
  · intro h; simp [layer, Elev.spread, Elev.withLen, h]
  · cases z <;> simp [layer, Elev.spread, Elev.withLen]
  · cases z <;> simp [layer, Elev.spread, Elev.withLen]

theorem flat_get (nx : ℕ) (active : List ℕ) (c a : ℕ) (hc : c < 4) (ha : a < active.length) :
    (flatNodes nx active)[c * active.length + a]? = some ((cellNodes2 nx active[a]).getD c 0) := by
  have h : ∀ m, c < m → ((List.range m).flatMap fun c => active.map fun q =>
      (cellNodes2 nx q).getD c 0)[c * active.length + a]? =
        some ((cellNodes2 nx active[a]).getD c 0) := by
    intro m
    induction m with
    | zero => intro h; omega
    | succ m ih =>
      intro h
      have hl : ((List.range m).flatMap fun c => active.map fun q =>
          (cellNodes2 nx q).getD c 0).length = m * active.length := by
        simp [List.length_flatMap]
      rw [List.range_succ, List.flatMap_append]
      rcases Nat.lt_or_ge c m with hm | hm
      · rw [List.getElem?_append_left]
        · exact ih hm
        · rw [hl]; nlinarith
      · have : c = m := by omega
        subst this
        rw [List.getElem?_append_right (by rw [hl]; omega), hl]
        simp [ha]
  exact h 4 hc

/-- C149. **Nodes**: the nodes of an active cell of the layer in the engine geoana are the corners of the
prism of the engine choclo, those at the bottom first. -/
theorem C149_nodes {nx : ℕ} (hx : 0 < nx) (x y : ℕ → ℝ) (active : List ℕ) (bottom top : List ℝ) (a : ℕ)
    (ha : a < active.length) (hb : bottom.length = active.length) (ht : top.length = active.length)
    (o : V3) (i : Fin 8) :
    (layerNode nx x y active bottom top i a).map (fun p => ![p.1 - o 0, p.2.1 - o 1, p.2.2 - o 2]) =
      some (toCorners o (prism nx x y active[a] bottom[a] top[a]) i) := by
  have hq : active[a] % nx < nx := Nat.mod_lt _ hx
  have key : ∀ c, c < 4 → cornerNode nx x y active c a =
      some (nodes2 nx x y ((cellNodes2 nx active[a]).getD c 0)) := by
    intro c hc
    have h := congrArg (fun l => l[c * active.length + a]?)
      (Kernel.Props.C88_inverse (nodes2 nx x y) (flatNodes nx active))
    simp only [List.getElem?_map, flat_get nx active c a hc ha, Option.map_some] at h
    unfold cornerNode
    cases hi : (inverse (flatNodes nx active))[c * active.length + a]? with
    | none => rw [hi] at h; simp at h
    | some p =>
      rw [hi] at h
      simp only [Option.map_some, Option.some.injEq] at h
      simp only [Option.bind_some]
      rw [List.getElem?_map]
      exact h
  have n0 : ∀ i j, i ≤ nx → nodes2 nx x y (nodeIdx2 nx i j) = (x i, y j) := by
    intro i j hi
    have h1 : (i + (nx + 1) * j) % (nx + 1) = i := by
      rw [Nat.add_mul_mod_self_left, Nat.mod_eq_of_lt (by omega)]
    have h2 : (i + (nx + 1) * j) / (nx + 1) = j := by
      rw [Nat.add_mul_div_left _ _ (by omega), Nat.div_eq_of_lt (by omega), Nat.zero_add]
    simp only [nodes2, nodeIdx2, h1, h2]
  have k0 := key 0 (by norm_num)
  have k1 := key 1 (by norm_num)
  have k2 := key 2 (by norm_num)
  have k3 := key 3 (by norm_num)
  simp only [cellNodes2, List.getD_cons_zero, List.getD_cons_succ] at k0 k1 k2 k3
  rw [n0 _ _ (by omega)] at k0 k1 k2 k3
  have hb' : bottom[a]? = some bottom[a] := List.getElem?_eq_getElem (by omega)
  have ht' : top[a]? = some top[a] := List.getElem?_eq_getElem (by omega)
  fin_cases i <;>
    simp [layerNode, k0, k1, k2, k3, hb', ht', toCorners, prism]

/-- C149. **Kernels**: the sum of the engine choclo over the corners of a prism is the difference over the
prism in each direction, and the sum of the 3D simulation over the same corners. -/
theorem C149_cell (o : V3) (P : Prism) (k : V3 → ℝ) :
    evalOnCell o P k = overPrism k o P ∧ evalOnCell o P k = onCell (toCorners o P) k := by
  have e : evalOnCell o P k =
      k ![P.east - o 0, P.north - o 1, P.top - o 2] - k ![P.east - o 0, P.north - o 1, P.bottom - o 2] -
      k ![P.east - o 0, P.south - o 1, P.top - o 2] + k ![P.east - o 0, P.south - o 1, P.bottom - o 2] -
      k ![P.west - o 0, P.north - o 1, P.top - o 2] + k ![P.west - o 0, P.north - o 1, P.bottom - o 2] +
      k ![P.west - o 0, P.south - o 1, P.top - o 2] - k ![P.west - o 0, P.south - o 1, P.bottom - o 2] := by
    simp only [evalOnCell, List.range_succ, List.range_zero, List.nil_append, List.foldl_cons,
      List.foldl_nil, List.cons_append]
    norm_num
    ring
  constructor
  · rw [e]; simp only [overPrism]; ring
  · rw [e]
    simp only [onCell, chocloCell, toCorners]
    norm_num [Fin.val_ofNat]
    ring

/-! ### Loops -/

theorem fold_at (t : ℕ → ℝ) (p n : ℕ) (a : ℕ → ℝ) :
    (List.range n).foldl (fun a j => Function.update a p (a p + t j)) a =
      Function.update a p (a p + ∑ j ∈ Finset.range n, t j) := by
  induction n with
  | zero => simp
  | succ n ih =>
    rw [List.range_succ, List.foldl_append, ih, List.foldl_cons, List.foldl_nil, Finset.sum_range_succ]
    simp only [Function.update_self, Function.update_idem, add_assoc]

theorem fold_single (op : ℝ → ℝ → ℝ) (t : ℕ → ℝ) (n : ℕ) (r : ℕ → ℝ) (q : ℕ) :
    (List.range n).foldl (fun r j => Function.update r j (op (r j) (t j))) r q =
      if q < n then op (r q) (t q) else r q := by
  induction n with
  | zero => simp
  | succ n ih =>
    rw [List.range_succ, List.foldl_append, List.foldl_cons, List.foldl_nil]
    by_cases h : q = n
    · subst h
      rw [Function.update_self, ih]
      simp
    · rw [Function.update_of_ne h, ih]
      by_cases h' : q < n
      · rw [if_pos h', if_pos (by omega)]
      · rw [if_neg h', if_neg (by omega)]

/-- The place of a column of a vector model. -/
theorem col_ne {n : ℕ} {d d' : Fin 3} {j j' : ℕ} (hj : j < n) (hj' : j' < n) (h : d ≠ d' ∨ j ≠ j') :
    j + d * n ≠ j' + (d' : ℕ) * n := by
  intro e
  have hn : 0 < n := by omega
  have e1 := congrArg (· % n) e
  simp only [Nat.add_mul_mod_self_right, Nat.mod_eq_of_lt hj, Nat.mod_eq_of_lt hj'] at e1
  subst e1
  have : (d : ℕ) = d' := Nat.eq_of_mul_eq_mul_right hn (by omega)
  rcases h with h | h
  · exact h (Fin.ext this)
  · exact h rfl

theorem fold_triple (op : ℝ → ℝ → ℝ) (t : Fin 3 → ℕ → ℝ) (n m : ℕ) (hm : m ≤ n) (r : ℕ → ℝ) (d : Fin 3) (q : ℕ)
    (hq : q < n) :
    (List.range m).foldl (fun r j => [(j, t 0 j), (j + n, t 1 j), (j + 2 * n, t 2 j)].foldl
      (fun r (x : ℕ × ℝ) => Function.update r x.1 (op (r x.1) x.2)) r) r (q + d * n) =
      if q < m then op (r (q + d * n)) (t d q) else r (q + d * n) := by
  induction m with
  | zero => simp
  | succ m ih =>
    have ih' := ih (by omega)
    clear ih
    rw [List.range_succ, List.foldl_append]
    generalize List.foldl _ r (List.range m) = r' at ih' ⊢
    simp only [List.foldl_cons, List.foldl_nil]
    have hm' : m < n := by omega
    by_cases h : q = m
    · subst h
      have n01 : q + n ≠ q := by have := col_ne (d := 1) (d' := 0) hq hq (Or.inl (by decide)); simpa using this
      have n02 : q + 2 * n ≠ q := by have := col_ne (d := 2) (d' := 0) hq hq (Or.inl (by decide)); simpa using this
      have n12 : q + 2 * n ≠ q + n := by have := col_ne (d := 2) (d' := 1) hq hq (Or.inl (by decide)); simpa using this
      rw [if_pos (by omega)]
      rw [if_neg (by omega)] at ih'
      fin_cases d
      · simp only [Fin.zero_eta, Fin.coe_ofNat_eq_mod, Nat.zero_mod, zero_mul, add_zero] at ih' ⊢
        rw [Function.update_of_ne n02.symm, Function.update_of_ne n01.symm, Function.update_self, ih']
      · simp only [Fin.mk_one, Fin.coe_ofNat_eq_mod, Nat.one_mod, one_mul] at ih' ⊢
        rw [Function.update_of_ne n12.symm, Function.update_self, Function.update_of_ne n01, ih']
      · simp only [Fin.reduceFinMk, Fin.coe_ofNat_eq_mod, Nat.reduceMod] at ih' ⊢
        rw [Function.update_self, Function.update_of_ne n12, Function.update_of_ne n02, ih']
    · have e0 : q + d * n ≠ m := by
        have := col_ne (d := d) (d' := 0) hq hm' (Or.inr h); simpa using this
      have e1 : q + d * n ≠ m + n := by
        have := col_ne (d := d) (d' := 1) hq hm' (Or.inr h); simpa using this
      have e2 : q + d * n ≠ m + 2 * n := by
        have := col_ne (d := d) (d' := 2) hq hm' (Or.inr h); simpa using this
      rw [Function.update_of_ne e2, Function.update_of_ne e1, Function.update_of_ne e0, ih']
      by_cases h' : q < m
      · rw [if_pos h', if_pos (by omega)]
      · rw [if_neg h', if_neg (by omega)]

/-! ### The loops over receivers and components -/

section Hom
variable {L C σ τ K : Type}

theorem calls_hom (φ : σ → τ) {call : C → List (ℕ × L) → σ → σ} {call' : C → List (ℕ × L) → τ → τ}
    (h : ∀ c zs s, φ (call c zs s) = call' c zs (φ s)) (rs : List (Rx L C)) (off : ℕ) (s : σ) :
    φ (calls call rs off s) = calls call' rs off (φ s) := by
  induction rs generalizing off s with
  | nil => rfl
  | cons r rs ih =>
    simp only [calls]
    rw [ih]
    congr 1
    unfold callComponents
    exact (List.foldl_hom φ fun s ci => (h _ _ _).symm).symm

theorem visit_calls (g : σ → ℕ → C → L → σ) (rs : List (Rx L C)) (off : ℕ) (s : σ) :
    visit g rs off s = calls (fun c zs s => zs.foldl (fun s q => g s q.1 c q.2) s) rs off s := by
  induction rs generalizing off s with
  | nil => rfl
  | cons r rs ih => rw [visit, ih, calls]; rfl

theorem visit_hom (φ : σ → τ) {g : σ → ℕ → C → L → σ} {g' : τ → ℕ → C → L → τ}
    (h : ∀ s p c l, φ (g s p c l) = g' (φ s) p c l) (rs : List (Rx L C)) (off : ℕ) (s : σ) :
    φ (visit g rs off s) = visit g' rs off (φ s) := by
  rw [visit_calls, visit_calls]
  exact calls_hom φ (fun c zs s => (List.foldl_hom φ fun s q => (h _ _ _ _).symm).symm) rs off s

theorem reduce_apply {A : Type} (row : A → ℕ → ℝ) (groups : List (List A)) (res : ℕ → ℝ) (q : ℕ) :
    reduceRows row groups res q = res q + (groups.flatten.map fun z => row z q).sum := by
  have h1 : ∀ (g : List A) (acc : ℕ → ℝ), g.foldl (fun acc z => acc + row z) acc q =
      acc q + (g.map fun z => row z q).sum := by
    intro g
    induction g with
    | nil => simp
    | cons z g ih => intro acc; rw [List.foldl_cons, ih, List.map_cons, List.sum_cons]; simp [add_assoc]
  unfold reduceRows
  induction groups generalizing res with
  | nil => simp
  | cons g gs ih =>
    rw [List.foldl_cons, ih, Pi.add_apply, h1, List.flatten_cons, List.map_append, List.sum_append]
    simp [add_assoc]

/-- A schedule: how the receivers of every call are shared among the threads. -/
def Shares (groups : C → List (ℕ × L) → List (List (ℕ × L))) : Prop :=
  ∀ c zs, (groups c zs).flatten.Perm zs

/-- Products with the transpose in parallel are those of the model of C87. -/
theorem par_tdot (entry : C → L → K → ℝ) (v : ℕ → ℝ) (col : K → ℕ) (row : C → ℕ × L → ℕ → ℝ)
    (groups : C → List (ℕ × L) → List (List (ℕ × L))) (hg : Shares groups)
    (hrow : ∀ c z k, row c z (col k) = entry c z.2 k * v z.1) (rs : List (Rx L C)) (k : K) :
    calls (fun c zs res => reduceRows (row c) (groups c zs) res) rs 0 0 (col k) = tdot entry rs v k := by
  have h := calls_hom (fun (r : ℕ → ℝ) (k : K) => r (col k))
    (call := fun c zs res => reduceRows (row c) (groups c zs) res)
    (call' := fun c zs s => zs.foldl (fun (a : K → ℝ) q k => a k + entry c q.2 k * v q.1) s)
    (by
      intro c zs s
      funext k
      rw [reduce_apply, ((hg c zs).map fun z => row c z (col k)).sum_eq]
      have : ∀ (zs : List (ℕ × L)) (a : K → ℝ),
          zs.foldl (fun (a : K → ℝ) q k => a k + entry c q.2 k * v q.1) a k =
            a k + (zs.map fun z => row c z (col k)).sum := by
        intro zs
        induction zs with
        | nil => simp
        | cons z zs ih =>
          intro a
          rw [List.foldl_cons, ih, List.map_cons, List.sum_cons, hrow, add_assoc]
      rw [this]) rs 0 0
  refine (congrFun h k).trans ?_
  unfold tdot
  rw [visit_calls]
  rfl

end Hom

/-! ### Gravity -/

section
variable {P : Prisms} {H : Choclo} {T1 : Fin 3 → V3 → ℝ} {T2 : Fin 3 → Fin 3 → V3 → ℝ}
  {T3 : Fin 3 → Fin 3 → Fin 3 → V3 → ℝ} {ke kn ku : V3 → ℝ}

/-- The entry of the model of C87. -/
def gEntry (H : Choclo) (ke kn ku : V3 → ℝ) (G : ℝ) {n : ℕ} (cells : ℕ → Prism) (c : GComp) (l : V3)
    (k : Fin n) : ℝ := conversion c * gravityForward H ke kn ku G c l (cells k) 1

theorem gravity_linear (G : ℝ) (c : GComp) (l : V3) (Q : Prism) (rho : ℝ) :
    gravityForward H ke kn ku G c l Q rho = gravityForward H ke kn ku G c l Q 1 * rho := by
  cases c <;> simp only [gravityForward, gravityFn] <;> ring

theorem gravity_choclo (G : ℝ) (c : GComp) (l : V3) (Q : Prism) :
    conversion c * gravityForward H ke kn ku G c l Q 1 =
      chocloGravity H ke kn ku G (toCorners l Q) c := by
  cases c <;>
    simp only [conversion, gravityForward, gravityFn, chocloGravity, chocloFactor, gravityKernel,
      (C149_cell _ _ _).2] <;>
    first
    | ring1
    | (simp only [onCell, chocloCell]; ring1)

theorem gravity_entry (hP : Faithful P T1 T2 T3) (hH : Opposite H ke kn ku T1 T2 T3) (G : ℝ) (c : GComp)
    (l : V3) (Q : Prism) :
    conversion c * gravityForward H ke kn ku G c l Q 1 = gravityEntry T1 T2 G c l Q := by
  rw [gravity_choclo, (Kernel.Props.C88_gravity hP hH G [c] (toCorners l Q) c (by simp)).2, gravityEntry,
    ← (C149_cell l Q _).1, (C149_cell l Q _).2, onCell]

theorem gForward_eq (G : ℝ) (n : ℕ) (cells : ℕ → Prism) (rs : List (Rx V3 GComp)) (rho : ℕ → ℝ) :
    gForward H ke kn ku G n cells rs rho =
      forward (gEntry H ke kn ku G (n := n) cells) rs (fun k => rho k) := by
  unfold gForward forward
  congr 1
  funext a p c l
  rw [fold_at, Finset.sum_range]
  congr 2
  refine Finset.sum_congr rfl fun j _ => ?_
  rw [gravity_linear, gEntry, mul_assoc]

theorem gMatrix_eq (G : ℝ) (n : ℕ) (cells : ℕ → Prism) (rs : List (Rx V3 GComp)) (junk : ℕ → ℕ → ℝ) (p : ℕ)
    (k : Fin n) :
    gMatrix H ke kn ku G n cells rs junk p k =
      matrix (gEntry H ke kn ku G (n := n) cells) rs (fun p k => junk p k) p k := by
  have h := visit_hom (fun (a : ℕ → ℕ → ℝ) (p : ℕ) (k : Fin n) => a p k)
    (g := fun a p c l => Function.update a p ((List.range n).foldl (fun row j => Function.update row j
      (conversion c * gravityForward H ke kn ku G c l (cells j) 1)) (a p)))
    (g' := fun a p c l => Function.update a p (gEntry H ke kn ku G (n := n) cells c l))
    (by
      intro a p c l
      funext p' k
      by_cases h : p' = p
      · subst h
        rw [Function.update_self, Function.update_self]
        have := fold_single (fun _ y => y)
          (fun j => conversion c * gravityForward H ke kn ku G c l (cells j) 1) n (a p') k
        rw [if_pos k.2] at this
        exact this
      · rw [Function.update_of_ne h, Function.update_of_ne h]) rs 0 junk
  exact congrFun (congrFun h p) k

theorem gTdot_eq (G : ℝ) (n : ℕ) (cells : ℕ → Prism) (rs : List (Rx V3 GComp)) (v : ℕ → ℝ) (k : Fin n) :
    gTdot H ke kn ku G n cells rs v k = tdot (gEntry H ke kn ku G (n := n) cells) rs v k := by
  have h := visit_hom (fun (a : ℕ → ℝ) (k : Fin n) => a k)
    (g := fun r p c l => (List.range n).foldl (fun r j => Function.update r j
      (r j + conversion c * gravityForward H ke kn ku G c l (cells j) (v p))) r)
    (g' := fun a p c l k => a k + gEntry H ke kn ku G (n := n) cells c l k * v p)
    (by
      intro a p c l
      funext k
      have := fold_single (fun x y => x + y)
        (fun j => conversion c * gravityForward H ke kn ku G c l (cells j) (v p)) n a k
      rw [if_pos k.2] at this
      refine this.trans ?_
      rw [gravity_linear, gEntry, mul_assoc]) rs 0 0
  exact congrFun h k

theorem gGtg_eq (G : ℝ) (n : ℕ) (cells : ℕ → Prism) (rs : List (Rx V3 GComp)) (w : ℕ → ℝ) (k : Fin n) :
    gGtg H ke kn ku G n cells rs w k = gtg (gEntry H ke kn ku G (n := n) cells) rs w k := by
  have h0 : ∀ (c : GComp) (li : V3 × ℕ) (d : ℕ → ℝ), (fun k : Fin n => (List.range n).foldl (fun d j =>
      Function.update d j (d j + w li.2 *
        (conversion c * gravityForward H ke kn ku G c li.1 (cells j) 1) ^ 2)) d k) =
      fun k : Fin n => d k + w li.2 * gEntry H ke kn ku G cells c li.1 k ^ 2 := by
    intro c li d
    funext k
    have := fold_single (fun x y => x + w li.2 * y ^ 2)
      (fun j => conversion c * gravityForward H ke kn ku G c li.1 (cells j) 1) n d k
    rw [if_pos k.2] at this
    exact this
  have h := List.foldl_hom (fun (d : ℕ → ℝ) (k : Fin n) => d k)
    (g₁ := fun d (r : Rx V3 GComp) => r.components.foldl (fun d c => r.locations.zipIdx.foldl (fun d li =>
      (List.range n).foldl (fun d j => Function.update d j
        (d j + w li.2 * (conversion c * gravityForward H ke kn ku G c li.1 (cells j) 1) ^ 2)) d) d) d)
    (g₂ := fun d r => r.components.foldl (fun d c => gtgLocation (gEntry H ke kn ku G (n := n) cells) w c
      r.locations d) d) (l := rs) (init := 0)
    (by
      intro d r
      refine List.foldl_hom (fun (d : ℕ → ℝ) (k : Fin n) => d k) ?_
      intro d c
      unfold gtgLocation
      refine List.foldl_hom (fun (d : ℕ → ℝ) (k : Fin n) => d k) ?_
      intro d li
      exact (h0 c li d).symm)
  exact (congrFun h k).symm

/-- C149. **Gravity**: the layer gives for every receiver, location and component, in the documented order,
the sum over the active cells of the density times the difference over the prism of the antiderivative
that the component names, in milligal or Eötvös. The rows of the sensitivities are those numbers whatever
was in the memory, and the engine geoana gives the same. -/
theorem C149_gravity (hP : Faithful P T1 T2 T3) (hH : Opposite H ke kn ku T1 T2 T3) (G : ℝ) (n : ℕ)
    (cells : ℕ → Prism) (rs : List (Rx V3 GComp)) (rho : ℕ → ℝ) (junk : ℕ → ℕ → ℝ) (p : ℕ) (l : V3)
    (c : GComp) (h : (order rs)[p]? = some (l, c)) (cs : List GComp) (hc : c ∈ cs) :
    gForward H ke kn ku G n cells rs rho p = ∑ j ∈ Finset.range n, gravityEntry T1 T2 G c l (cells j) * rho j ∧
    ∀ j < n, gMatrix H ke kn ku G n cells rs junk p j = gravityEntry T1 T2 G c l (cells j) ∧
      geoanaGravity P G cs (toCorners l (cells j)) c = .ok (gravityEntry T1 T2 G c l (cells j)) := by
  have e : ∀ k : Fin n, gEntry H ke kn ku G cells c l k = gravityEntry T1 T2 G c l (cells k) := fun k =>
    gravity_entry hP hH G c l (cells k)
  refine ⟨?_, fun j hj => ⟨?_, ?_⟩⟩
  · rw [gForward_eq, (PF.Props.C87_forward _ rs _).2 p l c h, Finset.sum_range]
    exact Finset.sum_congr rfl fun k _ => by rw [e]
  · have := gMatrix_eq (H := H) (ke := ke) (kn := kn) (ku := ku) G n cells rs junk p ⟨j, hj⟩
    rw [this, (PF.Props.C87_matrix _ rs _ p l c h).1]
    exact e ⟨j, hj⟩
  · rw [(Kernel.Props.C88_gravity hP hH G cs (toCorners l (cells j)) c hc).1, ← gravity_choclo,
      gravity_entry hP hH]

/-- C149. **Transpose**: products with the transpose are those of the stored sensitivities, in serial and in
parallel for every way to share the receivers among threads. -/
theorem C149_gravity_transpose (G : ℝ) (n : ℕ) (cells : ℕ → Prism) (rs : List (Rx V3 GComp)) (v : ℕ → ℝ)
    (junk : ℕ → ℕ → ℝ) (empty : GComp → ℕ × V3 → ℕ → ℝ)
    (groups : GComp → List (ℕ × V3) → List (List (ℕ × V3))) (hg : Shares groups) (j : ℕ) (hj : j < n) :
    gTdot H ke kn ku G n cells rs v j =
      ∑ p ∈ Finset.range (nD rs), gMatrix H ke kn ku G n cells rs junk p j * v p ∧
    calls (fun c zs res => reduceRows (fun z => gLocal H ke kn ku G n cells v (empty c z) c z.1 z.2)
      (groups c zs) res) rs 0 0 j = gTdot H ke kn ku G n cells rs v j := by
  have e := gTdot_eq (H := H) (ke := ke) (kn := kn) (ku := ku) G n cells rs v ⟨j, hj⟩
  simp only at e
  constructor
  · rw [e, PF.Props.C87_transpose _ rs v fun p (k : Fin n) => junk p k]
    refine Finset.sum_congr rfl fun p _ => ?_
    rw [← gMatrix_eq]
  · rw [e]
    refine par_tdot (gEntry H ke kn ku G (n := n) cells) v (fun k => k)
      (fun c z => gLocal H ke kn ku G n cells v (empty c z) c z.1 z.2) groups hg ?_ rs ⟨j, hj⟩
    intro c z k
    have := fold_single (fun _ y => y)
      (fun j => conversion c * gravityForward H ke kn ku G c z.2 (cells j) (v z.1)) n (empty c z) k
    rw [if_pos k.2] at this
    refine this.trans ?_
    rw [gravity_linear, gEntry, mul_assoc]

/-- C149, part: the diagonal computed without the matrix is that of `Gᵀ W² G` for one receiver object with
one component. Missing: several of them, see `C149_violated_diagonal`. -/
theorem C149_gravity_diagonal_partial (G : ℝ) (n : ℕ) (cells : ℕ → Prism) (locs : List V3) (c : GComp)
    (w : ℕ → ℝ) (junk : ℕ → ℕ → ℝ) (j : ℕ) (hj : j < n) :
    gGtg H ke kn ku G n cells [⟨locs, [c]⟩] w j = ∑ p ∈ Finset.range locs.length,
      w p * gMatrix H ke kn ku G n cells [⟨locs, [c]⟩] junk p j ^ 2 := by
  have e := gGtg_eq (H := H) (ke := ke) (kn := kn) (ku := ku) G n cells [⟨locs, [c]⟩] w ⟨j, hj⟩
  simp only at e
  rw [e, PF.Props.C87_diagonal_single_partial _ locs c w fun p (k : Fin n) => junk p k]
  simp only [nD, List.map_cons, List.map_nil, List.sum_cons, List.sum_nil, Rx.nD, List.length_cons,
    List.length_nil, Nat.zero_add, Nat.mul_one, Nat.add_zero]
  refine Finset.sum_congr rfl fun p _ => ?_
  rw [← gMatrix_eq]

/-- C149. With two components at one location the weight of the first is used for both: the diagonal is
wrong whenever the weights differ and the second entry is not zero. -/
theorem C149_violated_diagonal (G : ℝ) (n : ℕ) (cells : ℕ → Prism) (l : V3) (c c' : GComp) (w : ℕ → ℝ)
    (junk : ℕ → ℕ → ℝ) (j : ℕ) (hj : j < n) (hw : w 0 ≠ w 1)
    (hne : gMatrix H ke kn ku G n cells [⟨[l], [c, c']⟩] junk 1 j ≠ 0) :
    gGtg H ke kn ku G n cells [⟨[l], [c, c']⟩] w j ≠ ∑ p ∈ Finset.range 2,
      w p * gMatrix H ke kn ku G n cells [⟨[l], [c, c']⟩] junk p j ^ 2 := by
  have e := gGtg_eq (H := H) (ke := ke) (kn := kn) (ku := ku) G n cells [⟨[l], [c, c']⟩] w ⟨j, hj⟩
  simp only at e
  have m0 := gMatrix_eq (H := H) (ke := ke) (kn := kn) (ku := ku) G n cells [⟨[l], [c, c']⟩] junk 0 ⟨j, hj⟩
  have m1 := gMatrix_eq (H := H) (ke := ke) (kn := kn) (ku := ku) G n cells [⟨[l], [c, c']⟩] junk 1 ⟨j, hj⟩
  simp only at m0 m1
  rw [(PF.Props.C87_matrix _ _ _ 0 l c rfl).1] at m0
  rw [(PF.Props.C87_matrix _ _ _ 1 l c' rfl).1] at m1
  rw [m1] at hne
  rw [e, PF.Props.gtg_apply, Finset.sum_range_succ, Finset.sum_range_one, m0, m1]
  simp only [List.map_cons, List.map_nil, List.sum_cons, List.sum_nil, List.zipIdx_cons, List.zipIdx_nil,
    add_zero]
  intro h
  have h' : w 0 * gEntry H ke kn ku G (n := n) cells c' l ⟨j, hj⟩ ^ 2 =
      w 1 * gEntry H ke kn ku G (n := n) cells c' l ⟨j, hj⟩ ^ 2 := by linarith
  exact hw (mul_right_cancel₀ (pow_ne_zero 2 hne) h')

/-! ### Magnetics -/

/-- The entries of the model of C87. -/
def mEntryS (H : Choclo) (b0 : V3) {n : ℕ} (cells : ℕ → Prism) (c : Comp) (l : V3) (k : Fin n) : ℝ :=
  chocloScalar H b0 (toCorners l (cells k)) c

def mEntryV (H : Choclo) (b0 : V3) {n : ℕ} (cells : ℕ → Prism) (c : Comp) (l : V3) (k : Fin 3 × Fin n) : ℝ :=
  chocloVector H b0 (toCorners l (cells k.2)) c k.1

/-- The column of a direction and a cell. -/
def colV {n : ℕ} (k : Fin 3 × Fin n) : ℕ := k.2 + k.1 * n

theorem sensVec_eq (b0 : V3) (c : Comp) (o : V3) (Q : Prism) :
    sensVec H b0 c o Q = chocloVec (unit b0) (toCorners o Q) (chocloKernels H c) := by
  cases c <;> simp only [sensVec, chocloKernels, chocloVec, six, (C149_cell _ _ _).2]

/-- What a step does to the columns. -/
theorem row_scalar (op : ℝ → ℝ → ℝ) (b0 : V3) (n : ℕ) (cells : ℕ → Prism) (c : Comp) (o : V3) (r : ℕ → ℝ)
    (k : Fin n) :
    (List.range n).foldl (fun r j => (writes true n b0 (sensVec H b0 c o (cells j)) j).foldl
      (fun r q => Function.update r q.1 (op (r q.1) q.2)) r) r k = op (r k) (mEntryS H b0 cells c o k) := by
  have := fold_single op (fun j => chocloScalar H b0 (toCorners o (cells j)) c) n r k
  rw [if_pos k.2] at this
  refine Eq.trans ?_ this
  simp only [writes, if_true, List.foldl_cons, List.foldl_nil, sensVec_eq]
  rfl

theorem row_vector (op : ℝ → ℝ → ℝ) (b0 : V3) (n : ℕ) (cells : ℕ → Prism) (c : Comp) (o : V3) (r : ℕ → ℝ)
    (k : Fin 3 × Fin n) :
    (List.range n).foldl (fun r j => (writes false n b0 (sensVec H b0 c o (cells j)) j).foldl
      (fun r q => Function.update r q.1 (op (r q.1) q.2)) r) r (colV k) =
      op (r (colV k)) (mEntryV H b0 cells c o k) := by
  have := fold_triple op (fun d j => chocloVector H b0 (toCorners o (cells j)) c d) n n le_rfl r k.1 k.2 k.2.2
  rw [if_pos k.2.2] at this
  refine Eq.trans ?_ this
  simp only [writes, Bool.false_eq_true, if_false, sensVec_eq]
  rfl

theorem term_eq {mu : ℝ} (hmu : mu ≠ 0) (scalar : Bool) (n : ℕ) (b0 : V3) (model : ℕ → ℝ) (c : Comp) (o : V3)
    (Q : Prism) (j : ℕ) :
    mTerm H mu scalar n b0 model c o Q j = ∑ d, chocloVector H b0 (toCorners o Q) c d *
      magnetization scalar n b0 model j d := by
  have hpi : Real.pi ≠ 0 := Real.pi_ne_zero
  simp only [chocloVector, ← sensVec_eq, Fin.sum_univ_three]
  cases c <;> cases scalar <;>
    simp [mTerm, forwardFn, chocloKernels, sensVec, magneticFn, Fn.kernels, six, magnetization] <;>
    field_simp <;> ring

/-- The magnetization of C88 in terms of the regional field. -/
theorem scalar_vector (b0 : V3) (D : Fin 8 → V3) (c : Comp) :
    chocloScalar H b0 D c = ∑ d, chocloVector H b0 D c d * unit b0 d := by
  simp only [chocloScalar, chocloVector, Fin.sum_univ_three]
  ring

theorem scalar_entry (hP : Faithful P T1 T2 T3) (hH : Opposite H ke kn ku T1 T2 T3) {t : V3}
    (ht : t 0 ^ 2 + t 1 ^ 2 + t 2 ^ 2 = 1) {a : ℝ} (ha : 0 < a) (c : Comp) (o : V3) (Q : Prism) :
    chocloScalar H (a • t) (toCorners o Q) c = scalarEntry T2 T3 t a c o Q := by
  rw [(Kernel.Props.C88_scalar_partial hP hH t ht ha [c] (toCorners o Q) c (by simp)).2, scalarEntry]
  congr 2
  refine Finset.sum_congr rfl fun k _ => ?_
  rw [← (C149_cell o Q _).1, (C149_cell o Q _).2, onCell]

theorem vector_entry (hP : Faithful P T1 T2 T3) (hH : Opposite H ke kn ku T1 T2 T3) {t : V3}
    (ht : t 0 ^ 2 + t 1 ^ 2 + t 2 ^ 2 = 1) {a : ℝ} (ha : 0 < a) (c : Comp) (o : V3) (Q : Prism) (k : Fin 3) :
    chocloVector H (a • t) (toCorners o Q) c k = vectorEntry T2 T3 t a k c o Q := by
  rw [(Kernel.Props.C88_vector_partial hP hH t ht ha [c] (toCorners o Q) c (by simp) k).2, vectorEntry,
    ← (C149_cell o Q _).1, (C149_cell o Q _).2, onCell]

theorem mForward_scalar {mu : ℝ} (hmu : mu ≠ 0) (n : ℕ) (b0 : V3) (cells : ℕ → Prism) (rs : List (Rx V3 Comp))
    (model : ℕ → ℝ) :
    mForward H mu true n b0 cells rs model = forward (mEntryS H b0 (n := n) cells) rs (fun k => model k) := by
  unfold mForward forward
  congr 1
  funext a p c l
  rw [fold_at, Finset.sum_range]
  congr 2
  refine Finset.sum_congr rfl fun j _ => ?_
  rw [term_eq hmu, mEntryS, scalar_vector]
  simp only [magnetization, if_true, Fin.sum_univ_three, Matrix.cons_val_zero, Matrix.cons_val_one,
    Matrix.cons_val]
  ring

theorem mForward_vector {mu : ℝ} (hmu : mu ≠ 0) (n : ℕ) (b0 : V3) (cells : ℕ → Prism) (rs : List (Rx V3 Comp))
    (model : ℕ → ℝ) :
    mForward H mu false n b0 cells rs model =
      forward (mEntryV H b0 (n := n) cells) rs (fun k => model (colV k)) := by
  unfold mForward forward
  congr 1
  funext a p c l
  rw [fold_at, Finset.sum_range, Fintype.sum_prod_type, Finset.sum_comm]
  congr 2
  refine Finset.sum_congr rfl fun j _ => ?_
  rw [term_eq hmu]
  simp [magnetization, mEntryV, colV, Fin.sum_univ_three]

theorem mMatrix_col {K : Type} (scalar : Bool) (n : ℕ) (b0 : V3) (cells : ℕ → Prism) (col : K → ℕ)
    (entry : Comp → V3 → K → ℝ)
    (hr : ∀ c o (r : ℕ → ℝ) k, mRow H scalar n b0 cells c o r (col k) = entry c o k)
    (rs : List (Rx V3 Comp)) (junk : ℕ → ℕ → ℝ) (p : ℕ) (k : K) :
    mMatrix H scalar n b0 cells rs junk p (col k) = matrix entry rs (fun p k => junk p (col k)) p k := by
  have h := visit_hom (fun (a : ℕ → ℕ → ℝ) (p : ℕ) (k : K) => a p (col k))
    (g := fun a p c l => Function.update a p (mRow H scalar n b0 cells c l (a p)))
    (g' := fun a p c l => Function.update a p (entry c l))
    (by
      intro a p c l
      funext p' k
      by_cases h : p' = p
      · subst h
        rw [Function.update_self, Function.update_self, hr]
      · rw [Function.update_of_ne h, Function.update_of_ne h]) rs 0 junk
  exact congrFun (congrFun h p) k

theorem row_s (n : ℕ) (b0 : V3) (cells : ℕ → Prism) (c : Comp) (o : V3) (r : ℕ → ℝ) (k : Fin n) :
    mRow H true n b0 cells c o r k = mEntryS H b0 cells c o k :=
  row_scalar (fun _ y => y) b0 n cells c o r k

theorem row_v (n : ℕ) (b0 : V3) (cells : ℕ → Prism) (c : Comp) (o : V3) (r : ℕ → ℝ) (k : Fin 3 × Fin n) :
    mRow H false n b0 cells c o r (colV k) = mEntryV H b0 cells c o k :=
  row_vector (fun _ y => y) b0 n cells c o r k

theorem mTdot_col {K : Type} (scalar : Bool) (n : ℕ) (b0 : V3) (cells : ℕ → Prism) (col : K → ℕ)
    (entry : Comp → V3 → K → ℝ) (v : ℕ → ℝ)
    (hr : ∀ c o (r : ℕ → ℝ) p k, (List.range n).foldl (fun r j =>
      (writes scalar n b0 (sensVec H b0 c o (cells j)) j).foldl
        (fun r q => Function.update r q.1 (r q.1 + q.2 * v p)) r) r (col k) = r (col k) + entry c o k * v p)
    (rs : List (Rx V3 Comp)) (k : K) :
    mTdot H scalar n b0 cells rs v (col k) = tdot entry rs v k := by
  have h := visit_hom (fun (a : ℕ → ℝ) (k : K) => a (col k))
    (g := fun r p c l => (List.range n).foldl (fun r j =>
      (writes scalar n b0 (sensVec H b0 c l (cells j)) j).foldl
        (fun r q => Function.update r q.1 (r q.1 + q.2 * v p)) r) r)
    (g' := fun a p c l k => a k + entry c l k * v p)
    (by
      intro a p c l
      funext k
      exact hr c l a p k) rs 0 0
  exact congrFun h k

theorem mGtg_col {K : Type} (scalar : Bool) (n : ℕ) (b0 : V3) (cells : ℕ → Prism) (col : K → ℕ)
    (entry : Comp → V3 → K → ℝ) (w : ℕ → ℝ)
    (hr : ∀ c o (r : ℕ → ℝ) i k, (List.range n).foldl (fun r j =>
      (writes scalar n b0 (sensVec H b0 c o (cells j)) j).foldl
        (fun r q => Function.update r q.1 (r q.1 + w i * q.2 ^ 2)) r) r (col k) =
          r (col k) + w i * entry c o k ^ 2)
    (rs : List (Rx V3 Comp)) (k : K) :
    mGtg H scalar n b0 cells rs w (col k) = gtg entry rs w k := by
  have h := List.foldl_hom (fun (d : ℕ → ℝ) (k : K) => d (col k))
    (g₁ := fun d (r : Rx V3 Comp) => r.components.foldl (fun d c => r.locations.zipIdx.foldl (fun d li =>
      (List.range n).foldl (fun d j => (writes scalar n b0 (sensVec H b0 c li.1 (cells j)) j).foldl
        (fun d q => Function.update d q.1 (d q.1 + w li.2 * q.2 ^ 2)) d) d) d) d)
    (g₂ := fun d r => r.components.foldl (fun d c => gtgLocation entry w c r.locations d) d) (l := rs)
    (init := 0)
    (by
      intro d r
      refine List.foldl_hom (fun (d : ℕ → ℝ) (k : K) => d (col k)) ?_
      intro d c
      unfold gtgLocation
      refine List.foldl_hom (fun (d : ℕ → ℝ) (k : K) => d (col k)) ?_
      intro d li
      funext k
      exact (hr c li.1 d li.2 k).symm)
  exact (congrFun h k).symm

/-- C149. **Susceptibility**: the layer gives for every receiver, location and component, in the documented
order, the sum over the active cells of the susceptibility times the field of a prism magnetized along the
regional field, and the sensitivities are the coefficients. The engine geoana gives the same. -/
theorem C149_scalar (hP : Faithful P T1 T2 T3) (hH : Opposite H ke kn ku T1 T2 T3) {t : V3}
    (ht : t 0 ^ 2 + t 1 ^ 2 + t 2 ^ 2 = 1) {a : ℝ} (ha : 0 < a) {mu : ℝ} (hmu : mu ≠ 0) (n : ℕ)
    (cells : ℕ → Prism) (rs : List (Rx V3 Comp)) (model : ℕ → ℝ) (junk : ℕ → ℕ → ℝ) (p : ℕ) (l : V3) (c : Comp)
    (h : (order rs)[p]? = some (l, c)) (cs : List Comp) (hc : c ∈ cs) :
    mForward H mu true n (a • t) cells rs model p =
      ∑ j ∈ Finset.range n, scalarEntry T2 T3 t a c l (cells j) * model j ∧
    ∀ j < n, mMatrix H true n (a • t) cells rs junk p j = scalarEntry T2 T3 t a c l (cells j) ∧
      geoanaScalar P t (a • t) cs (toCorners l (cells j)) c = .ok (scalarEntry T2 T3 t a c l (cells j)) := by
  refine ⟨?_, fun j hj => ⟨?_, ?_⟩⟩
  · rw [mForward_scalar hmu, (PF.Props.C87_forward _ rs _).2 p l c h, Finset.sum_range]
    exact Finset.sum_congr rfl fun k _ => by rw [mEntryS, scalar_entry hP hH ht ha]
  · have := mMatrix_col (H := H) true n (a • t) cells (fun k : Fin n => (k : ℕ)) (mEntryS H (a • t) cells)
      (row_s n (a • t) cells) rs junk p ⟨j, hj⟩
    rw [this, (PF.Props.C87_matrix _ rs _ p l c h).1, mEntryS, scalar_entry hP hH ht ha]
  · rw [(Kernel.Props.C88_scalar_partial hP hH t ht ha cs _ c hc).1, scalar_entry hP hH ht ha]

/-- C149. **Vector models**: the columns of the directions follow each other, every active cell at its place,
and the data are those of prisms magnetized in any direction. -/
theorem C149_vector (hP : Faithful P T1 T2 T3) (hH : Opposite H ke kn ku T1 T2 T3) {t : V3}
    (ht : t 0 ^ 2 + t 1 ^ 2 + t 2 ^ 2 = 1) {a : ℝ} (ha : 0 < a) {mu : ℝ} (hmu : mu ≠ 0) (n : ℕ)
    (cells : ℕ → Prism) (rs : List (Rx V3 Comp)) (model : ℕ → ℝ) (junk : ℕ → ℕ → ℝ) (p : ℕ) (l : V3) (c : Comp)
    (h : (order rs)[p]? = some (l, c)) (cs : List Comp) (hc : c ∈ cs) :
    mForward H mu false n (a • t) cells rs model p =
      ∑ k : Fin 3, ∑ j ∈ Finset.range n, vectorEntry T2 T3 t a k c l (cells j) * model (j + k * n) ∧
    ∀ j < n, ∀ k : Fin 3,
      mMatrix H false n (a • t) cells rs junk p (j + k * n) = vectorEntry T2 T3 t a k c l (cells j) ∧
      geoanaVector P t a cs (toCorners l (cells j)) c k = .ok (vectorEntry T2 T3 t a k c l (cells j)) := by
  refine ⟨?_, fun j hj k => ⟨?_, ?_⟩⟩
  · rw [mForward_vector hmu, (PF.Props.C87_forward _ rs _).2 p l c h, Fintype.sum_prod_type]
    refine Finset.sum_congr rfl fun k _ => ?_
    rw [Finset.sum_range]
    exact Finset.sum_congr rfl fun j _ => by rw [mEntryV, vector_entry hP hH ht ha]; rfl
  · have := mMatrix_col (H := H) false n (a • t) cells colV (mEntryV H (a • t) cells)
      (row_v n (a • t) cells) rs junk p (k, ⟨j, hj⟩)
    rw [(PF.Props.C87_matrix _ rs _ p l c h).1, mEntryV, vector_entry hP hH ht ha] at this
    exact this
  · rw [(Kernel.Props.C88_vector_partial hP hH t ht ha cs _ c hc k).1, vector_entry hP hH ht ha]

/-- C149. **Transpose** of the magnetic sensitivities, in serial and in parallel for every way to share the
receivers among threads; `j` is any column. -/
theorem C149_magnetic_transpose (scalar : Bool) (n : ℕ) (b0 : V3) (cells : ℕ → Prism) (rs : List (Rx V3 Comp))
    (v : ℕ → ℝ) (junk : ℕ → ℕ → ℝ) (empty : Comp → ℕ × V3 → ℕ → ℝ)
    (groups : Comp → List (ℕ × V3) → List (List (ℕ × V3))) (hg : Shares groups) (j : ℕ)
    (hj : j < if scalar then n else 3 * n) :
    mTdot H scalar n b0 cells rs v j =
      ∑ p ∈ Finset.range (nD rs), mMatrix H scalar n b0 cells rs junk p j * v p ∧
    calls (fun c zs res => reduceRows (fun z => mLocal H scalar n b0 cells v (empty c z) c z.1 z.2)
      (groups c zs) res) rs 0 0 j = mTdot H scalar n b0 cells rs v j := by
  cases scalar with
  | true =>
    simp only [if_true] at hj
    have e := mTdot_col (H := H) true n b0 cells (fun k : Fin n => (k : ℕ)) (mEntryS H b0 cells) v
      (fun c o r p k => row_scalar (fun x y => x + y * v p) b0 n cells c o r k) rs ⟨j, hj⟩
    simp only at e
    constructor
    · rw [e, PF.Props.C87_transpose _ rs v fun p (k : Fin n) => junk p k]
      refine Finset.sum_congr rfl fun p _ => ?_
      rw [← mMatrix_col (H := H) true n b0 cells (fun k : Fin n => (k : ℕ)) (mEntryS H b0 cells)
        (row_s n b0 cells)]
    · rw [e]
      exact par_tdot (mEntryS H b0 (n := n) cells) v (fun k => k)
        (fun c z => mLocal H true n b0 cells v (empty c z) c z.1 z.2) groups hg
        (fun c z k => row_scalar (fun _ y => y * v z.1) b0 n cells c z.2 (empty c z) k) rs ⟨j, hj⟩
  | false =>
    simp only [Bool.false_eq_true, if_false] at hj
    have hn : 0 < n := by omega
    have hd : j / n < 3 := by rw [Nat.div_lt_iff_lt_mul hn]; omega
    obtain ⟨k, rfl⟩ : ∃ k : Fin 3 × Fin n, j = colV k := by
      refine ⟨(⟨j / n, hd⟩, ⟨j % n, Nat.mod_lt _ hn⟩), ?_⟩
      simp only [colV]
      exact (Nat.mod_add_div' j n).symm
    have e := mTdot_col (H := H) false n b0 cells colV (mEntryV H b0 (n := n) cells) v
      (fun c o r p k => row_vector (fun x y => x + y * v p) b0 n cells c o r k) rs k
    constructor
    · rw [e, PF.Props.C87_transpose _ rs v fun p (k : Fin 3 × Fin n) => junk p (colV k)]
      refine Finset.sum_congr rfl fun p _ => ?_
      rw [← mMatrix_col (H := H) false n b0 cells colV (mEntryV H b0 cells) (row_v n b0 cells)]
    · rw [e]
      exact par_tdot (mEntryV H b0 (n := n) cells) v colV
        (fun c z => mLocal H false n b0 cells v (empty c z) c z.1 z.2) groups hg
        (fun c z k => row_vector (fun _ y => y * v z.1) b0 n cells c z.2 (empty c z) k) rs k

/-- C149, part: the diagonal of the magnetic sensitivities for one receiver object with one component.
Missing: several of them, as in `C149_violated_diagonal`. -/
theorem C149_magnetic_diagonal_partial (scalar : Bool) (n : ℕ) (b0 : V3) (cells : ℕ → Prism) (locs : List V3)
    (c : Comp) (w : ℕ → ℝ) (junk : ℕ → ℕ → ℝ) (j : ℕ) (hj : j < if scalar then n else 3 * n) :
    mGtg H scalar n b0 cells [⟨locs, [c]⟩] w j = ∑ p ∈ Finset.range locs.length,
      w p * mMatrix H scalar n b0 cells [⟨locs, [c]⟩] junk p j ^ 2 := by
  have hD : nD [(⟨locs, [c]⟩ : Rx V3 Comp)] = locs.length := by simp [nD, Rx.nD]
  cases scalar with
  | true =>
    simp only [if_true] at hj
    have e := mGtg_col (H := H) true n b0 cells (fun k : Fin n => (k : ℕ)) (mEntryS H b0 cells) w
      (fun c o r i k => row_scalar (fun x y => x + w i * y ^ 2) b0 n cells c o r k) [⟨locs, [c]⟩] ⟨j, hj⟩
    simp only at e
    rw [e, PF.Props.C87_diagonal_single_partial _ locs c w fun p (k : Fin n) => junk p k, hD]
    refine Finset.sum_congr rfl fun p _ => ?_
    rw [← mMatrix_col (H := H) true n b0 cells (fun k : Fin n => (k : ℕ)) (mEntryS H b0 cells)
      (row_s n b0 cells)]
  | false =>
    simp only [Bool.false_eq_true, if_false] at hj
    have hn : 0 < n := by omega
    have hd : j / n < 3 := by rw [Nat.div_lt_iff_lt_mul hn]; omega
    obtain ⟨k, rfl⟩ : ∃ k : Fin 3 × Fin n, j = colV k := by
      refine ⟨(⟨j / n, hd⟩, ⟨j % n, Nat.mod_lt _ hn⟩), ?_⟩
      simp only [colV]
      exact (Nat.mod_add_div' j n).symm
    have e := mGtg_col (H := H) false n b0 cells colV (mEntryV H b0 (n := n) cells) w
      (fun c o r i k => row_vector (fun x y => x + w i * y ^ 2) b0 n cells c o r k) [⟨locs, [c]⟩] k
    rw [e, PF.Props.C87_diagonal_single_partial _ locs c w fun p (k : Fin 3 × Fin n) => junk p (colV k), hD]
    refine Finset.sum_congr rfl fun p _ => ?_
    rw [← mMatrix_col (H := H) false n b0 cells colV (mEntryV H b0 cells) (row_v n b0 cells)]

/-- The diagonal added by one call for one column. -/
theorem diag_call {A : Type} (row : A → ℕ → ℝ) (step : (ℕ → ℝ) → A → ℕ → ℝ) (j : ℕ)
    (h : ∀ d z, step d z j = d j + row z j) (xs : List A) (groups : List (List A))
    (hg : groups.flatten.Perm xs) (d : ℕ → ℝ) :
    reduceRows row groups d j = xs.foldl step d j := by
  rw [reduce_apply, (hg.map fun z => row z j).sum_eq]
  clear hg
  induction xs generalizing d with
  | nil => simp
  | cons z xs ih => rw [List.foldl_cons, ← ih, h, List.map_cons, List.sum_cons, add_assoc]

/-- C149. **Diagonal in parallel**: one call adds the same numbers in parallel as in serial, for every way to
share the receivers among threads. -/
theorem C149_diagonal_parallel (G : ℝ) (scalar : Bool) (n : ℕ) (b0 : V3) (cells : ℕ → Prism) (w : ℕ → ℝ)
    (locs : List V3) (groups : List (List (V3 × ℕ))) (hg : groups.flatten.Perm locs.zipIdx)
    (empty : V3 × ℕ → ℕ → ℝ) (d : ℕ → ℝ) (j : ℕ) :
    (∀ c, j < n → reduceRows (fun li => gLocalDiag H ke kn ku G n cells w (empty li) c li) groups d j =
      locs.zipIdx.foldl (fun d li => (List.range n).foldl (fun d j => Function.update d j
        (d j + w li.2 * (conversion c * gravityForward H ke kn ku G c li.1 (cells j) 1) ^ 2)) d) d j) ∧
    (∀ c, j < (if scalar then n else 3 * n) →
      reduceRows (fun li => mLocalDiag H scalar n b0 cells w (empty li) c li) groups d j =
      locs.zipIdx.foldl (fun d li => (List.range n).foldl (fun d j =>
        (writes scalar n b0 (sensVec H b0 c li.1 (cells j)) j).foldl
          (fun d q => Function.update d q.1 (d q.1 + w li.2 * q.2 ^ 2)) d) d) d j) := by
  constructor
  · intro c hj
    refine diag_call _ _ j (fun d li => ?_) _ groups hg d
    have h1 := fold_single (fun x y => x + w li.2 * y ^ 2)
      (fun j => conversion c * gravityForward H ke kn ku G c li.1 (cells j) 1) n d j
    have h2 := fold_single (fun _ y => w li.2 * y ^ 2)
      (fun j => conversion c * gravityForward H ke kn ku G c li.1 (cells j) 1) n (empty li) j
    rw [if_pos hj] at h1 h2
    rw [h1, gLocalDiag, h2]
  · intro c hj
    refine diag_call _ _ j (fun d li => ?_) _ groups hg d
    cases scalar with
    | true =>
      simp only [if_true] at hj
      have h1 := row_scalar (H := H) (fun x y => x + w li.2 * y ^ 2) b0 n cells c li.1 d ⟨j, hj⟩
      have h2 := row_scalar (H := H) (fun _ y => w li.2 * y ^ 2) b0 n cells c li.1 (empty li) ⟨j, hj⟩
      simp only at h1 h2
      rw [h1, mLocalDiag, h2]
    | false =>
      simp only [Bool.false_eq_true, if_false] at hj
      have hn : 0 < n := by omega
      have hd : j / n < 3 := by rw [Nat.div_lt_iff_lt_mul hn]; omega
      obtain ⟨k, rfl⟩ : ∃ k : Fin 3 × Fin n, j = colV k := by
        refine ⟨(⟨j / n, hd⟩, ⟨j % n, Nat.mod_lt _ hn⟩), ?_⟩
        simp only [colV]
        exact (Nat.mod_add_div' j n).symm
      rw [row_vector (H := H) (fun x y => x + w li.2 * y ^ 2) b0 n cells c li.1 d k, mLocalDiag,
        row_vector (H := H) (fun _ y => w li.2 * y ^ 2) b0 n cells c li.1 (empty li) k]

/-- C149. **Splitting**: a layer cut at an elevation gives the sum of the data of the two parts. -/
theorem C149_split (g : V3 → ℝ) (o : V3) (Q : Prism) (z : ℝ) :
    overPrism g o Q = overPrism g o { Q with top := z } + overPrism g o { Q with bottom := z } := by
  simp only [overPrism]
  ring

/-- C149. The order of the elevations is not checked: exchanged they are accepted and the sign of all the data
and sensitivities changes. -/
theorem C149_violated_order (nC : ℕ) (t b : List ℝ) (ht : t.length = nC) (hb : b.length = nC) (o : V3)
    (Q : Prism) (k : V3 → ℝ) :
    layer nC (.array b) (.array t) = .ok (b, t) ∧
    evalOnCell o { Q with top := Q.bottom, bottom := Q.top } k = -evalOnCell o Q k := by
  refine ⟨((C149_elevations nC b t 0 0 .other).2.1).2 ⟨hb, ht⟩, ?_⟩
  rw [(C149_cell _ _ _).1, (C149_cell _ _ _).1]
  simp only [overPrism]
  ring

/-- Kernels, a field and a schedule which meet the hypotheses: the last receiver first. -/
example : Faithful Kernel.Props.exP (fun i d => d i) (fun i j d => d i * d j) (fun i j k d => d i * d j * d k) ∧
    Opposite Kernel.Props.exH (fun d => -d 0) (fun d => -d 1) (fun d => -d 2) (fun i d => d i)
      (fun i j d => d i * d j) (fun i j k d => d i * d j * d k) ∧
    (![1, 0, 0] : V3) 0 ^ 2 + (![1, 0, 0] : V3) 1 ^ 2 + (![1, 0, 0] : V3) 2 ^ 2 = 1 ∧
    Shares (fun (_ : GComp) (zs : List (ℕ × V3)) => [zs.reverse]) := by
  refine ⟨Kernel.Props.ex_faithful, Kernel.Props.ex_opposite, by simp, fun c zs => ?_⟩
  simp

/-- The datum `gz` of the prism of unit size at the origin in these units, second of two components. -/
example : gForward Kernel.Props.exH (fun d => -d 0) (fun d => -d 1) (fun d => -d 2) 1 1
    (fun _ => ⟨0, 1, 0, 1, 0, 1⟩) [⟨[![0, 0, 2]], [.gxx, .gz]⟩] (fun _ => 3) 1 =
      gravityEntry (fun i d => d i) (fun i j d => d i * d j) 1 .gz ![0, 0, 2] ⟨0, 1, 0, 1, 0, 1⟩ * 3 := by
  rw [(C149_gravity Kernel.Props.ex_faithful Kernel.Props.ex_opposite 1 1 _ _ _ 0 1 ![0, 0, 2] .gz rfl [.gz]
    (by simp)).1]
  simp

end

end Props
end Verif.PF.EquivalentLayer
