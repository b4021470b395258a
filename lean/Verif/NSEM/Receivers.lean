import Verif.Basic
import Mathlib.Analysis.Calculus.Deriv.Mul
import Mathlib.Analysis.Calculus.Deriv.Inv
import Mathlib.Analysis.SpecialFunctions.Complex.LogDeriv
import Mathlib.Analysis.SpecialFunctions.Complex.Arg
import Mathlib.Analysis.Complex.RealDeriv
import Mathlib.Data.Matrix.Mul
import Mathlib.LinearAlgebra.Matrix.Notation
import Mathlib.Data.Fin.VecNotation
import Mathlib.Tactic.Ring
import Mathlib.Tactic.LinearCombination
import Mathlib.Tactic.FieldSimp
import Mathlib.Tactic.NormNum
import Mathlib.Tactic.FinCases

/-! Model of the natural source receivers (`simpeg/electromagnetics/natural_source/receivers.py`).

Fields have one column for each of the two polarisations of the source in three dimensions and one
column otherwise. `f[src, "e"]` and `f[src, "h"]` are arbitrary here, and so are their derivatives;
the fields objects are modelled elsewhere. -/

namespace Verif.NSEM
open Verif Matrix

noncomputable section

/-- `x` or `y` in an orientation. -/
inductive Ax | x | y
  deriving DecidableEq

/-- `x`, `y` or `z` in an orientation. -/
inductive Ax3 | x | y | z
  deriving DecidableEq

/-- The values of a field component at one location, for the two polarisations. -/
abbrev Two := Fin 2 → ℂ

/-- `a[:, 0] * b[:, 1] - a[:, 1] * b[:, 0]` at one location. -/
def det2 (a b : Two) : ℂ := a 0 * b 1 - a 1 * b 0

/-- `np.c_[a[:, 1], -a[:, 0]]` at one location. -/
def perp (a : Two) : Two := ![a 1, -a 0]

/-! ### The values at one location -/

/-- `Impedance._eval_impedance` (304-318, 339) in three dimensions: `e` is the component of the electric
field selected by the first letter, `o` is the second letter. -/
def impAt (o : Ax) (e hx hy : Two) : ℂ :=
  let h := if o = .x then hy else -hx
  det2 e h / det2 hx hy

/-- `Tipper._eval_tipper` (719-735) in three dimensions. -/
def tipAt (o : Ax) (ho hx hy : Two) : ℂ :=
  let h := if o = .x then -hy else hx
  det2 h ho / det2 hx hy

/-- `Admittance._eval_admittance` (996-1008) in three dimensions. -/
def admAt (o : Ax) (h ex ey : Two) : ℂ :=
  (if o = .x then h 0 * ey 1 - h 1 * ex 1 else -h 0 * ey 0 + h 1 * ex 0) / det2 ex ey

/-- The data types of `Impedance`; `Tipper` and `Admittance` have the first two only. The type
`complex`, which has no derivative, is the number itself. -/
inductive NComp | real | imag | appRes | phase
  deriving DecidableEq

/-- The number returned for an impedance `z` (505-513); `alpha` is `_alpha(src)` (13-14). -/
def NComp.val (alpha : ℝ) : NComp → ℂ → ℝ
  | .real, z => z.re
  | .imag, z => z.im
  | .appRes, z => alpha * (z.re ^ 2 + z.im ^ 2)
  | .phase, z => 180 / Real.pi * z.arg

/-- The derivative of the number returned (472-486). -/
def NComp.deriv (alpha : ℝ) : NComp → ℂ → ℂ → ℝ
  | .real, _, d => d.re
  | .imag, _, d => d.im
  | .appRes, z, d => 2 * alpha * (z.re * d.re + z.im * d.im)
  | .phase, z, d =>
    180 / Real.pi * (-z.im / (z.im ^ 2 + z.re ^ 2) * d.re + z.re / (z.im ^ 2 + z.re ^ 2) * d.im)

/-- What becomes of an entry of `v` in the adjoint (391-402). -/
def NComp.wgt (alpha : ℝ) (c : NComp) (z : ℂ) (v : ℝ) : ℂ :=
  match c with
  | .real => v
  | .imag => -Complex.I * v
  | .appRes =>
    let w : ℂ := 2 * alpha * z * v
    w.re - Complex.I * w.im
  | .phase =>
    let w : ℂ := 180 / Real.pi * z / ((z.re : ℂ) ^ 2 + (z.im : ℂ) ^ 2) * v;
    -w.im - Complex.I * w.re

/-- `ApparentConductivity._eval_apparent_conductivity` (1187-1199); `fact` is the angular frequency
times the permeability. -/
def condAt (fact : ℝ) (ex ey hx hy hz : Two) : ℝ :=
  fact * (∑ k, (‖hx k‖ ^ 2 + ‖hy k‖ ^ 2 + ‖hz k‖ ^ 2)) / ∑ k, (‖ex k‖ ^ 2 + ‖ey k‖ ^ 2)

/-! ### Receivers on a mesh of three dimensions -/

variable {n ε φ : Type} [Fintype n] [Fintype ε] [Fintype φ]

/-- The projections `getP(mesh, "Ex", 0)`, `getP(mesh, "Fx", 0)`, `getP(mesh, "Fx", 1)` and so on
(81-126): interpolation matrices to the first and second locations. -/
structure Proj (n ε φ : Type) where
  e0 : Ax → Matrix n ε ℝ
  h0 : Ax3 → Matrix n φ ℝ
  h1 : Ax3 → Matrix n φ ℝ

/-- A real matrix acting on fields. -/
def cm {α β : Type} (P : Matrix α β ℝ) : Matrix α β ℂ := P.map fun x => (x : ℂ)

/-- `Impedance.eval` (488-513). -/
def impEval (Q : Proj n ε φ) (o1 o2 : Ax) (c : NComp) (alpha : ℝ) (e : Matrix ε (Fin 2) ℂ)
    (h : Matrix φ (Fin 2) ℂ) (i : n) : ℝ :=
  c.val alpha (impAt o2 ((cm (Q.e0 o1) * e) i) ((cm (Q.h1 .x) * h) i) ((cm (Q.h1 .y) * h) i))

/-- The derivative of a quotient of the form used by the receivers (462, 840, 1113). -/
def quotDeriv (top bot dtop dbot : ℂ) : ℂ := (bot * dtop - top * dbot) / (bot * bot)

/-- `Impedance._eval_impedance_deriv` (440-462) in three dimensions at one location, without the
component. -/
def impDerivAt (o : Ax) (e hx hy de dhx dhy : Two) : ℂ :=
  let h := if o = .x then hy else -hx
  let dh := if o = .x then dhy else -dhx
  quotDeriv (det2 e h) (det2 hx hy) (e 0 * dh 1 + de 0 * h 1 - e 1 * dh 0 - de 1 * h 0)
    (hx 0 * dhy 1 + dhx 0 * hy 1 - hx 1 * dhy 0 - dhx 1 * hy 0)

/-- `Impedance.evalDeriv` (515-559); `de`, `dh`: what `f._eDeriv` and `f._hDeriv` return. -/
def impDeriv (Q : Proj n ε φ) (o1 o2 : Ax) (c : NComp) (alpha : ℝ) (e : Matrix ε (Fin 2) ℂ)
    (h : Matrix φ (Fin 2) ℂ) (de : Matrix ε (Fin 2) ℂ) (dh : Matrix φ (Fin 2) ℂ) (i : n) : ℝ :=
  let E := (cm (Q.e0 o1) * e) i
  let X := (cm (Q.h1 .x) * h) i
  let Y := (cm (Q.h1 .y) * h) i
  c.deriv alpha (impAt o2 E X Y) (impDerivAt o2 E X Y ((cm (Q.e0 o1) * de) i)
    ((cm (Q.h1 .x) * dh) i) ((cm (Q.h1 .y) * dh) i))

/-- The adjoint at one location (404-418): factors of the electric field, of `hx` and of `hy`. -/
def impAdjAt (o : Ax) (e hx hy : Two) (w : ℂ) : Two × Two × Two :=
  let h := if o = .x then hy else -hx
  let z := impAt o e hx hy
  let gtop := w / det2 hx hy
  let gbot := -z * w / det2 hx hy
  let ghx : Two := gbot • perp hy
  let ghy : Two := gbot • -perp hx
  let ge : Two := gtop • perp h
  let gh : Two := gtop • -perp e
  (ge, if o = .x then ghx else ghx - gh, if o = .x then ghy + gh else ghy)

/-- `Impedance.evalDeriv(adjoint=True)` (391-438): what is handed to the adjoints of `f._eDeriv` and
`f._hDeriv`. -/
def impAdj (Q : Proj n ε φ) (o1 o2 : Ax) (c : NComp) (alpha : ℝ) (e : Matrix ε (Fin 2) ℂ)
    (h : Matrix φ (Fin 2) ℂ) (v : n → ℝ) : Matrix ε (Fin 2) ℂ × Matrix φ (Fin 2) ℂ :=
  let E := cm (Q.e0 o1) * e
  let X := cm (Q.h1 .x) * h
  let Y := cm (Q.h1 .y) * h
  let g : n → Two × Two × Two := fun i =>
    impAdjAt o2 (E i) (X i) (Y i) (c.wgt alpha (impAt o2 (E i) (X i) (Y i)) (v i))
  ((cm (Q.e0 o1))ᵀ * of fun i => (g i).1,
   (cm (Q.h1 .x))ᵀ * (of fun i => (g i).2.1) + (cm (Q.h1 .y))ᵀ * of fun i => (g i).2.2)

/-- `Tipper.eval` (842-847). -/
def tipEval (Q : Proj n ε φ) (o1 : Ax3) (o2 : Ax) (c : NComp) (h : Matrix φ (Fin 2) ℂ) (i : n) : ℝ :=
  c.val 0 (tipAt o2 ((cm (Q.h0 o1) * h) i) ((cm (Q.h1 .x) * h) i) ((cm (Q.h1 .y) * h) i))

/-- `Tipper._eval_tipper_deriv` (807-840) at one location. -/
def tipDerivAt (o : Ax) (ho hx hy dho dhx dhy : Two) : ℂ :=
  let h := if o = .x then -hy else hx
  let dh := if o = .x then -dhy else dhx
  quotDeriv (det2 h ho) (det2 hx hy) (h 0 * dho 1 + dh 0 * ho 1 - h 1 * dho 0 - dh 1 * ho 0)
    (hx 0 * dhy 1 + dhx 0 * hy 1 - hx 1 * dhy 0 - dhx 1 * hy 0)

/-- `Tipper.evalDeriv` (849-863). -/
def tipDeriv (Q : Proj n ε φ) (o1 : Ax3) (o2 : Ax) (c : NComp) (h dh : Matrix φ (Fin 2) ℂ) (i : n) :
    ℝ :=
  let O := (cm (Q.h0 o1) * h) i
  let X := (cm (Q.h1 .x) * h) i
  let Y := (cm (Q.h1 .y) * h) i
  c.deriv 0 (tipAt o2 O X Y) (tipDerivAt o2 O X Y ((cm (Q.h0 o1) * dh) i)
    ((cm (Q.h1 .x) * dh) i) ((cm (Q.h1 .y) * dh) i))

/-- The adjoint at one location (783-795): factors of `ho`, `hx` and `hy`. -/
def tipAdjAt (o : Ax) (ho hx hy : Two) (w : ℂ) : Two × Two × Two :=
  let h := if o = .x then -hy else hx
  let z := tipAt o ho hx hy
  let gtop := w / det2 hx hy
  let gbot := -z * w / det2 hx hy
  let ghx : Two := gbot • perp hy
  let ghy : Two := gbot • -perp hx
  let gho : Two := gtop • -perp h
  let gh : Two := gtop • perp ho
  (gho, if o = .x then ghx else ghx + gh, if o = .x then ghy - gh else ghy)

/-- `Tipper.evalDeriv(adjoint=True)` (771-805, 855-857): what is handed to the adjoint of `f._hDeriv`. -/
def tipAdj (Q : Proj n ε φ) (o1 : Ax3) (o2 : Ax) (c : NComp) (h : Matrix φ (Fin 2) ℂ) (v : n → ℝ) :
    Matrix φ (Fin 2) ℂ :=
  let O := cm (Q.h0 o1) * h
  let X := cm (Q.h1 .x) * h
  let Y := cm (Q.h1 .y) * h
  let g : n → Two × Two × Two := fun i =>
    tipAdjAt o2 (O i) (X i) (Y i) (c.wgt 0 (tipAt o2 (O i) (X i) (Y i)) (v i))
  (cm (Q.h1 .x))ᵀ * (of fun i => (g i).2.1) + (cm (Q.h1 .y))ᵀ * (of fun i => (g i).2.2) +
    (cm (Q.h0 o1))ᵀ * of fun i => (g i).1

/-- `Admittance.eval` (1117-1122). -/
def admEval (Q : Proj n ε φ) (o1 : Ax3) (o2 : Ax) (c : NComp) (e : Matrix ε (Fin 2) ℂ)
    (h : Matrix φ (Fin 2) ℂ) (i : n) : ℝ :=
  c.val 0 (admAt o2 ((cm (Q.h1 o1) * h) i) ((cm (Q.e0 .x) * e) i) ((cm (Q.e0 .y) * e) i))

/-- `p_ind` (1044-1049). -/
def pInd : Ax → Fin 2
  | .x => 1
  | .y => 0

/-- `fact` (1044-1049). -/
def admFact : Ax → ℂ
  | .x => 1
  | .y => -1

/-- `Admittance._eval_admittance_deriv` (1051-1053, 1095-1113) at one location. -/
def admDerivAt (o : Ax) (h ex ey dh dex dey : Two) : ℂ :=
  let p := pInd o
  quotDeriv (admFact o * (h 0 * ey p - h 1 * ex p)) (det2 ex ey)
    (admFact o * (h 0 * dey p + dh 0 * ey p - h 1 * dex p - dh 1 * ex p))
    (ex 0 * dey 1 + dex 0 * ey 1 - ex 1 * dey 0 - dex 1 * ey 0)

/-- `Admittance.evalDeriv` (1115, 1124-1132). -/
def admDeriv (Q : Proj n ε φ) (o1 : Ax3) (o2 : Ax) (c : NComp) (e : Matrix ε (Fin 2) ℂ)
    (h : Matrix φ (Fin 2) ℂ) (de : Matrix ε (Fin 2) ℂ) (dh : Matrix φ (Fin 2) ℂ) (i : n) : ℝ :=
  let H := (cm (Q.h1 o1) * h) i
  let X := (cm (Q.e0 .x) * e) i
  let Y := (cm (Q.e0 .y) * e) i
  c.deriv 0 (admAt o2 H X Y) (admDerivAt o2 H X Y ((cm (Q.h1 o1) * dh) i)
    ((cm (Q.e0 .x) * de) i) ((cm (Q.e0 .y) * de) i))

/-- The adjoint at one location (1060-1077): factors of `h`, `ex` and `ey`. -/
def admAdjAt (o : Ax) (h ex ey : Two) (w : ℂ) : Two × Two × Two :=
  let p := pInd o
  let z := admFact o * (h 0 * ey p - h 1 * ex p) / det2 ex ey
  let a := admFact o * w / det2 ex ey
  let b := -z * w / det2 ex ey
  let exv : Two := b • perp ey
  let eyv : Two := b • -perp ex
  (a • ![ey p, -ex p],
    fun k => if k = p then exv k - h 1 * a else exv k,
    fun k => if k = p then eyv k + h 0 * a else eyv k)

/-- `Admittance.evalDeriv(adjoint=True)` (1055-1083): what is handed to the adjoints of `f._eDeriv` and
`f._hDeriv`. -/
def admAdj (Q : Proj n ε φ) (o1 : Ax3) (o2 : Ax) (c : NComp) (e : Matrix ε (Fin 2) ℂ)
    (h : Matrix φ (Fin 2) ℂ) (v : n → ℝ) : Matrix ε (Fin 2) ℂ × Matrix φ (Fin 2) ℂ :=
  let H := cm (Q.h1 o1) * h
  let X := cm (Q.e0 .x) * e
  let Y := cm (Q.e0 .y) * e
  let g : n → Two × Two × Two := fun i =>
    admAdjAt o2 (H i) (X i) (Y i) (c.wgt 0 (admAt o2 (H i) (X i) (Y i)) (v i))
  ((cm (Q.e0 .x))ᵀ * (of fun i => (g i).2.1) + (cm (Q.e0 .y))ᵀ * (of fun i => (g i).2.2),
   (cm (Q.h1 o1))ᵀ * of fun i => (g i).1)

/-- `ApparentConductivity.eval` (1275-1292). -/
def condEval (Q : Proj n ε φ) (fact : ℝ) (e : Matrix ε (Fin 2) ℂ) (h : Matrix φ (Fin 2) ℂ) (i : n) :
    ℝ :=
  condAt fact ((cm (Q.e0 .x) * e) i) ((cm (Q.e0 .y) * e) i) ((cm (Q.h1 .x) * h) i)
    ((cm (Q.h1 .y) * h) i) ((cm (Q.h1 .z) * h) i)

/-- `2 * sum((conj(a) * da).real, axis=-1)` (1263-1271). -/
def sqDeriv (a da : Two) : ℝ := 2 * ∑ k, (starRingEnd ℂ (a k) * da k).re

/-- `ApparentConductivity.evalDeriv` (1252-1273). -/
def condDeriv (Q : Proj n ε φ) (fact : ℝ) (e : Matrix ε (Fin 2) ℂ) (h : Matrix φ (Fin 2) ℂ)
    (de : Matrix ε (Fin 2) ℂ) (dh : Matrix φ (Fin 2) ℂ) (i : n) : ℝ :=
  let top := ∑ k, (‖(cm (Q.h1 .x) * h) i k‖ ^ 2 + ‖(cm (Q.h1 .y) * h) i k‖ ^ 2 +
    ‖(cm (Q.h1 .z) * h) i k‖ ^ 2)
  let bot := ∑ k, (‖(cm (Q.e0 .x) * e) i k‖ ^ 2 + ‖(cm (Q.e0 .y) * e) i k‖ ^ 2)
  let dtop := sqDeriv ((cm (Q.h1 .x) * h) i) ((cm (Q.h1 .x) * dh) i) +
    sqDeriv ((cm (Q.h1 .y) * h) i) ((cm (Q.h1 .y) * dh) i) +
    sqDeriv ((cm (Q.h1 .z) * h) i) ((cm (Q.h1 .z) * dh) i)
  let dbot := sqDeriv ((cm (Q.e0 .x) * e) i) ((cm (Q.e0 .x) * de) i) +
    sqDeriv ((cm (Q.e0 .y) * e) i) ((cm (Q.e0 .y) * de) i)
  fact * (bot * dtop - top * dbot) / (bot * bot)

/-- The rows of a matrix multiplied by real numbers. -/
def scaleRows (a : n → ℝ) (M : Matrix n (Fin 2) ℂ) : Matrix n (Fin 2) ℂ := of fun i k => M i k * a i

/-- `ApparentConductivity.evalDeriv(adjoint=True)` (1229-1250): what
is handed to the adjoints of `f._eDeriv` and `f._hDeriv`. -/
def condAdj (Q : Proj n ε φ) (fact : ℝ) (e : Matrix ε (Fin 2) ℂ) (h : Matrix φ (Fin 2) ℂ)
    (v : n → ℝ) : Matrix ε (Fin 2) ℂ × Matrix φ (Fin 2) ℂ :=
  let top := fun i => ∑ k, (‖(cm (Q.h1 .x) * h) i k‖ ^ 2 + ‖(cm (Q.h1 .y) * h) i k‖ ^ 2 +
    ‖(cm (Q.h1 .z) * h) i k‖ ^ 2)
  let bot := fun i => ∑ k, (‖(cm (Q.e0 .x) * e) i k‖ ^ 2 + ‖(cm (Q.e0 .y) * e) i k‖ ^ 2)
  let a := fun i => fact * v i / bot i
  let b := fun i => -fact * top i * v i / bot i ^ 2
  ((2 : ℂ) • ((cm (Q.e0 .x))ᵀ * scaleRows b (cm (Q.e0 .x) * e) +
      (cm (Q.e0 .y))ᵀ * scaleRows b (cm (Q.e0 .y) * e)).map (starRingEnd ℂ),
   (2 : ℂ) • ((cm (Q.h1 .x))ᵀ * scaleRows a (cm (Q.h1 .x) * h) +
      (cm (Q.h1 .y))ᵀ * scaleRows a (cm (Q.h1 .y) * h) +
      (cm (Q.h1 .z))ᵀ * scaleRows a (cm (Q.h1 .z) * h)).map (starRingEnd ℂ))

/-! ### One and two dimensions -/

/-- `Impedance._eval_impedance` (320-339) for the orientations `xy` and `yx` on a mesh of one or two
dimensions, and likewise `Admittance` (983-992) and `Tipper` (707-715) in two dimensions: a quotient of
projected fields. `neg`: in one dimension the orientation is not the direction of the fields. -/
def ratio (neg : Bool) (PT : Matrix n ε ℝ) (PB : Matrix n φ ℝ) (top : ε → ℂ)
    (bot : φ → ℂ) (i : n) : ℂ :=
  (cm PT *ᵥ top) i / (if neg then -(cm PB *ᵥ bot) i else (cm PB *ᵥ bot) i)

/-- The derivative (464-470, 810-815, 1086-1091): `(dtop - z * dbot) / bot`. -/
def ratioDeriv (neg : Bool) (PT : Matrix n ε ℝ) (PB : Matrix n φ ℝ) (top dtop : ε → ℂ)
    (bot dbot : φ → ℂ) (i : n) : ℂ :=
  let b := if neg then -(cm PB *ᵥ bot) i else (cm PB *ᵥ bot) i
  let db := if neg then -(cm PB *ᵥ dbot) i else (cm PB *ᵥ dbot) i
  ((cm PT *ᵥ dtop) i - ratio neg PT PB top bot i * db) / b

/-- The adjoint (405-406, 429-433, 776-780, 1061-1067): factors of `top` and `bot`. -/
def ratioAdj (neg : Bool) (PT : Matrix n ε ℝ) (PB : Matrix n φ ℝ) (top : ε → ℂ)
    (bot : φ → ℂ) (w : n → ℂ) : (ε → ℂ) × (φ → ℂ) :=
  let b := fun i => if neg then -(cm PB *ᵥ bot) i else (cm PB *ᵥ bot) i
  let gb := fun i => -ratio neg PT PB top bot i * w i / b i
  ((cm PT)ᵀ *ᵥ fun i => w i / b i, (cm PB)ᵀ *ᵥ fun i => if neg then -gb i else gb i)

/-- The locations of a projection, of `locations_e` and `locations_h` (`_locations[location_id]`,
122): `magnetic` is the `location_id` 320-331 gives for the magnetic field in two dimensions; in one
dimension it gives none, and the default is 0. -/
def locsOf {L : Type} (dim : Nat) (magnetic : Bool) (le lh : L) : L :=
  if dim = 1 then le else if magnetic then lh else le

/-- `Impedance._eval_impedance` for `xy` and `yx` in one or two dimensions, from the interpolation
matrices of the mesh to any locations. -/
def impLow {L : Type} (dim : Nat) (neg : Bool) (PE : L → Matrix n ε ℝ) (PH : L → Matrix n φ ℝ) (le lh : L)
    (e : ε → ℂ) (h : φ → ℂ) (i : n) : ℂ :=
  ratio (dim = 1 && neg) (PE (locsOf dim false le lh)) (PH (locsOf dim true le lh)) e h i

/-- What `evalDeriv` returns for the orientations `xx` and `yy` on a mesh of one or two dimensions
(342-346): a multiple of its argument, `v` with `nD` entries in the adjoint, `du_dm_v` with `nU`
entries otherwise; the number of entries. -/
def zeroDeriv (adjoint : Bool) (nD nU : Nat) : Nat := if adjoint then nD else nU

/-- `df_duT, df_dmT = rx.evalDeriv(..., adjoint=True)` (`frequency_domain/simulation.py` 308-310) for
an array of `k` entries. -/
def unpackTwo (k : Nat) : Except Err Unit := if k = 2 then .ok () else .error .valueError

/-- `Jv[src_rx_slice] = mkvc(...)` (254-256): `nD` places and an array of `k` entries. -/
def assignSlice (nD k : Nat) : Except Err Unit :=
  if k = nD ∨ k = 1 then .ok () else .error .valueError

/-! ### Arrays in `getJ` -/

/-- numpy's broadcasting of two shapes, from the last axis on. -/
def bcastRev : List Nat → List Nat → Except Err (List Nat)
  | [], l => .ok l
  | l, [] => .ok l
  | a :: l, b :: m => match bcastRev l m with
    | .error e => .error e
    | .ok r => if a = b ∨ b = 1 then .ok (a :: r) else if a = 1 then .ok (b :: r)
      else .error .valueError

/-- numpy's broadcasting of two shapes. -/
def bcast (a b : List Nat) : Except Err (List Nat) :=
  (bcastRev a.reverse b.reverse).map List.reverse

/-- `np.c_[ey[:, 1], -ey[:, 0]] * b_v[:, None]` in `Admittance` (1071) for a `v` of the given shape:
`b_v` has the shape of `v / bot`. -/
def admAdjShape (nD : Nat) (v : List Nat) : Except Err (List Nat) :=
  match bcast v [nD] with
  | .error e => .error e
  | .ok b => bcast [nD, 2] (b.headD 0 :: 1 :: b.tail)

/-- `hx *= a_v` in `ApparentConductivity` (1235-1238) for a `v` of the given shape: `a_v` has
one row for each entry of `v / bot`, and two columns; the result has to fit into `hx`. -/
def condAdjShape (nD : Nat) (v : List Nat) : Except Err Unit :=
  match bcast v [nD] with
  | .error e => .error e
  | .ok b => match bcast [nD, 2] [b.prod, 2] with
    | .error e => .error e
    | .ok r => if r = [nD, 2] then .ok () else .error .valueError

/-- `Impedance.evalDeriv(adjoint=True)` for a matrix `v` (`v.ndim == 2`, 404-427), as `getJ` calls it:
the entry in row `i`, column `(j, k)` of the factors of `hx` after the reshape. Arrays of length `nD`
multiply along the last axis of `v`. The factors of the other fields are alike. -/
def impAdjMat [DecidableEq n] (o : Ax) (c : NComp) (alpha : ℝ) (E X Y : Matrix n (Fin 2) ℂ)
    (v : Matrix n n ℝ) : Matrix n (n × Fin 2) ℂ × Matrix n (n × Fin 2) ℂ × Matrix n (n × Fin 2) ℂ :=
  let g := fun i j => impAdjAt o (E j) (X j) (Y j) (c.wgt alpha (impAt o (E j) (X j) (Y j)) (v i j))
  (of fun i jk => (g i jk.1).1 jk.2, of fun i jk => (g i jk.1).2.1 jk.2,
    of fun i jk => (g i jk.1).2.2 jk.2)

end

end Verif.NSEM
