import Verif.Jacobian
import Mathlib.Analysis.SpecialFunctions.Trigonometric.ArctanDeriv
import Mathlib.Analysis.SpecialFunctions.Trigonometric.Arctan
import Mathlib.Analysis.SpecialFunctions.Pow.Deriv
import Mathlib.Analysis.SpecialFunctions.Sqrt
import Mathlib.Analysis.Calculus.Deriv.Abs
import Mathlib.Tactic.FinCases

/-!
Parametric maps: layers, blocks, ellipsoids, casings, blocks within layers and circles, as functions of a
handful of parameters onto the cells of a mesh (`simpeg/maps/_parametric.py`).

A cell is given by its centre; the maps are modelled cell by cell, the Jacobian row by row.
-/

namespace Verif.Maps.Parametric

/-- The centre of a cell.  `mesh.cell_centers[:, k]`; meshes with fewer dimensions leave the others unused. -/
structure Cell where
  x : ℝ
  y : ℝ
  z : ℝ

/-- The dimensions for which layers are defined.  In one dimension `z` is never bound and the maps raise. -/
inductive LDim
  | two | three

/-- The vertical coordinate of a cell.  maps/_parametric.py:1366-1370 -/
def LDim.vert : LDim → Cell → ℝ
  | .two, c => c.y
  | .three, c => c.z

/-- `BaseParametric._atanfct`.  maps/_parametric.py:1233-1234 -/
noncomputable def atanfct (val slope : ℝ) : ℝ := Real.arctan (slope * val) / Real.pi + 0.5

/-- `BaseParametric._atanfctDeriv`.  maps/_parametric.py:1236-1240 -/
noncomputable def atanfctDeriv (val slope : ℝ) : ℝ :=
  let x := slope * val
  let dx := -slope
  (1.0 / (1 + x ^ 2)) / Real.pi * dx

/-! ### ParametricLayer -/

/-- `mDict` of layers.  maps/_parametric.py:1346-1364 -/
structure LayerP where
  val_background : ℝ
  val_layer : ℝ
  layer_center : ℝ
  layer_thickness : ℝ

/-- maps/_parametric.py:1359-1364 -/
def LayerP.ofModel (m : Fin 4 → ℝ) : LayerP := ⟨m 0, m 1, m 2, m 3⟩

/-- `_atanLayer`.  maps/_parametric.py:1366-1377 -/
noncomputable def atanLayer (z slope center thickness : ℝ) : ℝ :=
  let bottom := center - thickness / 2.0
  let top := center + thickness / 2.0
  atanfct (z - bottom) slope * atanfct (z - top) (-slope)

/-- `_atanLayerDeriv_layer_center`.  maps/_parametric.py:1379-1392 -/
noncomputable def atanLayerDerivCenter (z slope center thickness : ℝ) : ℝ :=
  let bottom := center - thickness / 2.0
  let top := center + thickness / 2.0
  atanfctDeriv (z - bottom) slope * atanfct (z - top) (-slope) +
    atanfct (z - bottom) slope * atanfctDeriv (z - top) (-slope)

/-- `_atanLayerDeriv_layer_thickness`.  maps/_parametric.py:1394-1407 -/
noncomputable def atanLayerDerivThickness (z slope center thickness : ℝ) : ℝ :=
  let bottom := center - thickness / 2.0
  let top := center + thickness / 2.0;
  -0.5 * atanfctDeriv (z - bottom) slope * atanfct (z - top) (-slope) +
    0.5 * atanfct (z - bottom) slope * atanfctDeriv (z - top) (-slope)

/-- `layer_cont`.  maps/_parametric.py:1409-1412, 2070-2074 -/
noncomputable def layerCont (z slope bg layer center thickness : ℝ) : ℝ :=
  bg + (layer - bg) * atanLayer z slope center thickness

/-- `ParametricLayer._transform`.  maps/_parametric.py:1414-1416 -/
noncomputable def layer (d : LDim) (slope : ℝ) (c : Cell) (m : Fin 4 → ℝ) : ℝ :=
  let p := LayerP.ofModel m
  layerCont (d.vert c) slope p.val_background p.val_layer p.layer_center p.layer_thickness

/-- `ParametricLayer.deriv`, the row of a cell.  maps/_parametric.py:1418-1432, 1474-1487 -/
noncomputable def layerDeriv (d : LDim) (slope : ℝ) (c : Cell) (m : Fin 4 → ℝ) : Fin 4 → ℝ :=
  let p := LayerP.ofModel m
  let z := d.vert c
  let a := atanLayer z slope p.layer_center p.layer_thickness
  ![1 - a,
    a,
    (p.val_layer - p.val_background) * atanLayerDerivCenter z slope p.layer_center p.layer_thickness,
    (p.val_layer - p.val_background) * atanLayerDerivThickness z slope p.layer_center p.layer_thickness]

/-! ### ParametricBlock and ParametricEllipsoid -/

/-- The parameters of a block map: `epsilon`, `p` and `slope`; ellipsoids have `p = 2`.
maps/_parametric.py:1578-1609, 1924-1925 -/
structure BlockOpts where
  slope : ℝ
  epsilon : ℝ
  p : ℝ

/-- `_ekblom`.  maps/_parametric.py:1688-1689 -/
noncomputable def ekblom (o : BlockOpts) (val : ℝ) : ℝ := (val ^ 2 + o.epsilon ^ 2) ^ (o.p / 2.0)

/-- `_ekblomDeriv`.  maps/_parametric.py:1691-1692 -/
noncomputable def ekblomDeriv (o : BlockOpts) (val : ℝ) : ℝ :=
  (o.p / 2) * (val ^ 2 + o.epsilon ^ 2) ^ (o.p / 2 - 1) * 2 * val

/-- The argument of the Ekblom function along an axis.  maps/_parametric.py:1700, 1704-1705, 1710-1712 -/
noncomputable def rel (x x0 dx : ℝ) : ℝ := (x - x0) / (0.5 * dx)

/-- `_block1D`.  maps/_parametric.py:1699-1700 -/
noncomputable def block1D (o : BlockOpts) (c : Cell) (x0 dx : ℝ) : ℝ := 1 - ekblom o (rel c.x x0 dx)

/-- `_block2D`.  maps/_parametric.py:1702-1706 -/
noncomputable def block2D (o : BlockOpts) (c : Cell) (x0 dx y0 dy : ℝ) : ℝ :=
  1 - (ekblom o (rel c.x x0 dx) + ekblom o (rel c.y y0 dy))

/-- `_block3D`.  maps/_parametric.py:1708-1713 -/
noncomputable def block3D (o : BlockOpts) (c : Cell) (x0 dx y0 dy z0 dz : ℝ) : ℝ :=
  1 - (ekblom o (rel c.x x0 dx) + ekblom o (rel c.y y0 dy) + ekblom o (rel c.z z0 dz))

/-- The body of `_transform`, given the block function.  maps/_parametric.py:1717-1721 -/
noncomputable def blockVal (o : BlockOpts) (bg blk η : ℝ) : ℝ := bg + (blk - bg) * atanfct η o.slope

/-- `_deriv_center_block`.  maps/_parametric.py:1733-1744 -/
noncomputable def derivCenter (o : BlockOpts) (bg blk η x x0 dx : ℝ) : ℝ :=
  (blk - bg) * (atanfctDeriv η o.slope * ekblomDeriv o ((x - x0) / (0.5 * dx)) / -(0.5 * dx))

/-- `_deriv_width_block`.  maps/_parametric.py:1746-1756 -/
noncomputable def derivWidth (o : BlockOpts) (bg blk η x x0 dx : ℝ) : ℝ :=
  (blk - bg) * (atanfctDeriv η o.slope *
    (ekblomDeriv o ((x - x0) / (0.5 * dx)) * (-(x - x0) / (0.5 * dx ^ 2))))

/-- `ParametricBlock._transform` in one dimension.  maps/_parametric.py:1647-1653, 1715-1721 -/
noncomputable def block1 (o : BlockOpts) (c : Cell) (m : Fin 4 → ℝ) : ℝ :=
  blockVal o (m 0) (m 1) (block1D o c (m 2) (m 3))

/-- `ParametricBlock._transform` in two dimensions.  maps/_parametric.py:1655-1665, 1715-1721 -/
noncomputable def block2 (o : BlockOpts) (c : Cell) (m : Fin 6 → ℝ) : ℝ :=
  blockVal o (m 0) (m 1) (block2D o c (m 2) (m 3) (m 4) (m 5))

/-- `ParametricBlock._transform` in three dimensions.  maps/_parametric.py:1667-1676, 1715-1721 -/
noncomputable def block3 (o : BlockOpts) (c : Cell) (m : Fin 8 → ℝ) : ℝ :=
  blockVal o (m 0) (m 1) (block3D o c (m 2) (m 3) (m 4) (m 5) (m 6) (m 7))

/-- `_deriv1D`.  maps/_parametric.py:1723-1731, 1758-1766 -/
noncomputable def block1Deriv (o : BlockOpts) (c : Cell) (m : Fin 4 → ℝ) : Fin 4 → ℝ :=
  let η := block1D o c (m 2) (m 3)
  ![1 - atanfct η o.slope, atanfct η o.slope,
    derivCenter o (m 0) (m 1) η c.x (m 2) (m 3), derivWidth o (m 0) (m 1) η c.x (m 2) (m 3)]

/-- `_deriv2D`.  maps/_parametric.py:1768-1778 -/
noncomputable def block2Deriv (o : BlockOpts) (c : Cell) (m : Fin 6 → ℝ) : Fin 6 → ℝ :=
  let η := block2D o c (m 2) (m 3) (m 4) (m 5)
  ![1 - atanfct η o.slope, atanfct η o.slope,
    derivCenter o (m 0) (m 1) η c.x (m 2) (m 3), derivWidth o (m 0) (m 1) η c.x (m 2) (m 3),
    derivCenter o (m 0) (m 1) η c.y (m 4) (m 5), derivWidth o (m 0) (m 1) η c.y (m 4) (m 5)]

/-- `_deriv3D`.  maps/_parametric.py:1780-1792 -/
noncomputable def block3Deriv (o : BlockOpts) (c : Cell) (m : Fin 8 → ℝ) : Fin 8 → ℝ :=
  let η := block3D o c (m 2) (m 3) (m 4) (m 5) (m 6) (m 7)
  ![1 - atanfct η o.slope, atanfct η o.slope,
    derivCenter o (m 0) (m 1) η c.x (m 2) (m 3), derivWidth o (m 0) (m 1) η c.x (m 2) (m 3),
    derivCenter o (m 0) (m 1) η c.y (m 4) (m 5), derivWidth o (m 0) (m 1) η c.y (m 4) (m 5),
    derivCenter o (m 0) (m 1) η c.z (m 6) (m 7), derivWidth o (m 0) (m 1) η c.z (m 6) (m 7)]

/-! ### ParametricCasingAndLayer -/

/-- `mDict` of casings.  maps/_parametric.py:1965-1981 -/
structure CasingP where
  val_background : ℝ
  val_layer : ℝ
  val_casing : ℝ
  val_insideCasing : ℝ
  layer_center : ℝ
  layer_thickness : ℝ
  casing_radius : ℝ
  casing_thickness : ℝ
  casing_bottom : ℝ
  casing_top : ℝ

/-- maps/_parametric.py:1970-1981 -/
def CasingP.ofModel (m : Fin 10 → ℝ) : CasingP :=
  ⟨m 0, m 1, m 2, m 3, m 4, m 5, m 6, m 7, m 8, m 9⟩

/-- `casing_a`.  maps/_parametric.py:1983-1984 -/
noncomputable def CasingP.a (p : CasingP) : ℝ := p.casing_radius - 0.5 * p.casing_thickness

/-- `casing_b`.  maps/_parametric.py:1986-1987 -/
noncomputable def CasingP.b (p : CasingP) : ℝ := p.casing_radius + 0.5 * p.casing_thickness

/-- `_atanCasingLength`.  maps/_parametric.py:1989-1992 -/
noncomputable def casingLength (s : ℝ) (c : Cell) (p : CasingP) : ℝ :=
  atanfct (c.z - p.casing_top) (-s) * atanfct (c.z - p.casing_bottom) s

/-- `_atanCasingLengthDeriv_casing_top`.  maps/_parametric.py:1994-1997 -/
noncomputable def casingLengthDerivTop (s : ℝ) (c : Cell) (p : CasingP) : ℝ :=
  atanfctDeriv (c.z - p.casing_top) (-s) * atanfct (c.z - p.casing_bottom) s

/-- `_atanCasingLengthDeriv_casing_bottom`.  maps/_parametric.py:1999-2002 -/
noncomputable def casingLengthDerivBottom (s : ℝ) (c : Cell) (p : CasingP) : ℝ :=
  atanfct (c.z - p.casing_top) (-s) * atanfctDeriv (c.z - p.casing_bottom) s

/-- `_atanInsideCasing`.  maps/_parametric.py:2004-2007 -/
noncomputable def insideCasing (s : ℝ) (c : Cell) (p : CasingP) : ℝ :=
  casingLength s c p * atanfct (c.x - p.a) (-s)

/-- `_atanInsideCasingDeriv_casing_radius`.  maps/_parametric.py:2009-2012 -/
noncomputable def insideDerivRadius (s : ℝ) (c : Cell) (p : CasingP) : ℝ :=
  casingLength s c p * atanfctDeriv (c.x - p.a) (-s)

/-- `_atanInsideCasingDeriv_casing_thickness`.  maps/_parametric.py:2014-2019 -/
noncomputable def insideDerivThickness (s : ℝ) (c : Cell) (p : CasingP) : ℝ :=
  casingLength s c p * -0.5 * atanfctDeriv (c.x - p.a) (-s)

/-- `_atanInsideCasingDeriv_casing_top`.  maps/_parametric.py:2021-2024 -/
noncomputable def insideDerivTop (s : ℝ) (c : Cell) (p : CasingP) : ℝ :=
  casingLengthDerivTop s c p * atanfct (c.x - p.a) (-s)

/-- `_atanInsideCasingDeriv_casing_bottom`.  maps/_parametric.py:2026-2029 -/
noncomputable def insideDerivBottom (s : ℝ) (c : Cell) (p : CasingP) : ℝ :=
  casingLengthDerivBottom s c p * atanfct (c.x - p.a) (-s)

/-- `_atanCasing`.  maps/_parametric.py:2031-2036 -/
noncomputable def casingWeight (s : ℝ) (c : Cell) (p : CasingP) : ℝ :=
  casingLength s c p * atanfct (c.x - p.a) s * atanfct (c.x - p.b) (-s)

/-- `_atanCasingDeriv_casing_radius`.  maps/_parametric.py:2038-2044 -/
noncomputable def casingDerivRadius (s : ℝ) (c : Cell) (p : CasingP) : ℝ :=
  casingLength s c p * (atanfctDeriv (c.x - p.a) s * atanfct (c.x - p.b) (-s) +
    atanfct (c.x - p.a) s * atanfctDeriv (c.x - p.b) (-s))

/-- `_atanCasingDeriv_casing_thickness`.  maps/_parametric.py:2046-2054 -/
noncomputable def casingDerivThickness (s : ℝ) (c : Cell) (p : CasingP) : ℝ :=
  casingLength s c p * (-0.5 * atanfctDeriv (c.x - p.a) s * atanfct (c.x - p.b) (-s) +
    atanfct (c.x - p.a) s * 0.5 * atanfctDeriv (c.x - p.b) (-s))

/-- `_atanCasingDeriv_casing_bottom`.  maps/_parametric.py:2056-2061 -/
noncomputable def casingDerivBottom (s : ℝ) (c : Cell) (p : CasingP) : ℝ :=
  casingLengthDerivBottom s c p * atanfct (c.x - p.a) s * atanfct (c.x - p.b) (-s)

/-- `_atanCasingDeriv_casing_top`.  maps/_parametric.py:2063-2068 -/
noncomputable def casingDerivTop (s : ℝ) (c : Cell) (p : CasingP) : ℝ :=
  casingLengthDerivTop s c p * atanfct (c.x - p.a) s * atanfct (c.x - p.b) (-s)

/-- `ParametricCasingAndLayer._transform`; the mesh is cylindrical, `x` the radius.
maps/_parametric.py:2070-2086 -/
noncomputable def casing (s : ℝ) (c : Cell) (m : Fin 10 → ℝ) : ℝ :=
  let p := CasingP.ofModel m
  let layer := layerCont (LDim.three.vert c) s p.val_background p.val_layer p.layer_center p.layer_thickness
  let cas := (p.val_casing - layer) * casingWeight s c p
  let ins := (p.val_insideCasing - layer) * insideCasing s c p
  layer + cas + ins

/-- `ParametricCasingAndLayer.deriv`, the row of a cell.  maps/_parametric.py:2088-2246 -/
noncomputable def casingDeriv (s : ℝ) (c : Cell) (m : Fin 10 → ℝ) : Fin 10 → ℝ :=
  let p := CasingP.ofModel m
  let z := LDim.three.vert c
  let layer := layerCont z s p.val_background p.val_layer p.layer_center p.layer_thickness
  let A := atanLayer z s p.layer_center p.layer_thickness
  let C := casingWeight s c p
  let I := insideCasing s c p
  let dbg := 1.0 - A
  let dcen := (p.val_layer - p.val_background) *
    atanLayerDerivCenter z s p.layer_center p.layer_thickness
  let dthk := (p.val_layer - p.val_background) *
    atanLayerDerivThickness z s p.layer_center p.layer_thickness
  ![dbg + -1.0 * dbg * C + -1.0 * dbg * I,
    A + -1.0 * A * C + -1.0 * A * I,
    0.0 + C + 0.0,
    0.0 + 0.0 + I,
    dcen + -dcen * C + -dcen * I,
    dthk + -dthk * C + -dthk * I,
    0.0 + (p.val_casing - layer) * casingDerivRadius s c p +
      (p.val_insideCasing - layer) * insideDerivRadius s c p,
    0.0 + (p.val_casing - layer) * casingDerivThickness s c p +
      (p.val_insideCasing - layer) * insideDerivThickness s c p,
    0.0 + (p.val_casing - layer) * casingDerivBottom s c p +
      (p.val_insideCasing - layer) * insideDerivBottom s c p,
    0.0 + (p.val_casing - layer) * casingDerivTop s c p +
      (p.val_insideCasing - layer) * insideDerivTop s c p]

/-! ### ParametricBlockInLayer -/

/-- The factor of a block along a horizontal axis: above the left edge, below the right edge.
maps/_parametric.py:2341-2358, 2400-2407 -/
noncomputable def slab (x s x0 dx : ℝ) : ℝ :=
  atanfct (x - (x0 - 0.5 * dx)) s * atanfct (x - (x0 + 0.5 * dx)) (-s)

/-- Its derivative as written in `_atanBlock2dDeriv_x0`, `_atanBlock3dDeriv_x0` and `_atanBlock3dDeriv_y0`.
maps/_parametric.py:2374-2384, 2427-2457 -/
noncomputable def slabDerivCenter (x s x0 dx : ℝ) : ℝ :=
  atanfctDeriv (x - (x0 - 0.5 * dx)) s * atanfct (x - (x0 + 0.5 * dx)) (-s) +
    atanfct (x - (x0 - 0.5 * dx)) s * atanfctDeriv (x - (x0 + 0.5 * dx)) (-s)

/-- Its derivative as written in `_atanBlock2dDeriv_dx`, `_atanBlock3dDeriv_dx` and `_atanBlock3dDeriv_dy`.
maps/_parametric.py:2386-2398, 2459-2493 -/
noncomputable def slabDerivWidth (x s x0 dx : ℝ) : ℝ :=
  atanfctDeriv (x - (x0 - 0.5 * dx)) s * -0.5 * atanfct (x - (x0 + 0.5 * dx)) (-s) +
    atanfct (x - (x0 - 0.5 * dx)) s * 0.5 * atanfctDeriv (x - (x0 + 0.5 * dx)) (-s)

/-- `_transform2d`: `m = [background, layer, block, layer centre, layer thickness, x0, dx]`.
maps/_parametric.py:2311-2320, 2353-2358, 2495-2506 -/
noncomputable def blockInLayer2 (s : ℝ) (c : Cell) (m : Fin 7 → ℝ) : ℝ :=
  let layer_cont := layerCont (LDim.two.vert c) s (m 0) (m 1) (m 3) (m 4)
  let block_cont := (m 2 - layer_cont) * (atanLayer (LDim.two.vert c) s (m 3) (m 4) * slab c.x s (m 5) (m 6))
  layer_cont + block_cont

/-- `_deriv2d`, the row of a cell.  maps/_parametric.py:2360-2398, 2508-2576 -/
noncomputable def blockInLayer2Deriv (s : ℝ) (c : Cell) (m : Fin 7 → ℝ) : Fin 7 → ℝ :=
  let z := LDim.two.vert c
  let A := atanLayer z s (m 3) (m 4)
  let L := layerCont z s (m 0) (m 1) (m 3) (m 4)
  let B := A * slab c.x s (m 5) (m 6)
  let dcen := (m 1 - m 0) * atanLayerDerivCenter z s (m 3) (m 4)
  let dthk := (m 1 - m 0) * atanLayerDerivThickness z s (m 3) (m 4)
  ![(1 - A) + (-(1 - A)) * B,
    A + (-A) * B,
    0.0 + (1.0 - 0.0) * B,
    dcen + ((m 2 - L) * (atanLayerDerivCenter z s (m 3) (m 4) * slab c.x s (m 5) (m 6)) - dcen * B),
    dthk + ((m 2 - L) * (atanLayerDerivThickness z s (m 3) (m 4) * slab c.x s (m 5) (m 6)) - dthk * B),
    0.0 + (m 2 - L) * (A * slabDerivCenter c.x s (m 5) (m 6)),
    0.0 + (m 2 - L) * (A * slabDerivWidth c.x s (m 5) (m 6))]

/-- `_transform3d`: `m = [background, layer, block, layer centre, layer thickness, x0, y0, dx, dy]`.
maps/_parametric.py:2322-2333, 2400-2407, 2578-2590 -/
noncomputable def blockInLayer3 (s : ℝ) (c : Cell) (m : Fin 9 → ℝ) : ℝ :=
  let layer_cont := layerCont (LDim.three.vert c) s (m 0) (m 1) (m 3) (m 4)
  let block_cont := (m 2 - layer_cont) *
    (atanLayer (LDim.three.vert c) s (m 3) (m 4) * slab c.x s (m 5) (m 7) * slab c.y s (m 6) (m 8))
  layer_cont + block_cont

/-- `_deriv3d`, the row of a cell.  maps/_parametric.py:2409-2493, 2592-2676 -/
noncomputable def blockInLayer3Deriv (s : ℝ) (c : Cell) (m : Fin 9 → ℝ) : Fin 9 → ℝ :=
  let z := LDim.three.vert c
  let A := atanLayer z s (m 3) (m 4)
  let L := layerCont z s (m 0) (m 1) (m 3) (m 4)
  let S := slab c.x s (m 5) (m 7)
  let T := slab c.y s (m 6) (m 8)
  let B := A * S * T
  let dcen := (m 1 - m 0) * atanLayerDerivCenter z s (m 3) (m 4)
  let dthk := (m 1 - m 0) * atanLayerDerivThickness z s (m 3) (m 4)
  ![(1 - A) + (-(1 - A)) * B,
    A + (-A) * B,
    0.0 + (1.0 - 0.0) * B,
    dcen + ((m 2 - L) * (atanLayerDerivCenter z s (m 3) (m 4) * S * T) - dcen * B),
    dthk + ((m 2 - L) * (atanLayerDerivThickness z s (m 3) (m 4) * S * T) - dthk * B),
    0.0 + (m 2 - L) * (A * (slabDerivCenter c.x s (m 5) (m 7) * T)),
    0.0 + (m 2 - L) * (A * (S * slabDerivCenter c.y s (m 6) (m 8))),
    0.0 + (m 2 - L) * (A * (slabDerivWidth c.x s (m 5) (m 7) * T)),
    0.0 + (m 2 - L) * (A * (S * slabDerivWidth c.y s (m 6) (m 8)))]

/-! ### ParametricCircleMap -/

/-- `sig1, sig2`, exponentiated with `logSigma`.  maps/_parametric.py:138-141, 187-190 -/
noncomputable def sig (logSigma : Bool) (x : ℝ) : ℝ := if logSigma then Real.exp x else x

/-- The distance of a cell from the centre.  maps/_parametric.py:145 -/
noncomputable def radius (c : Cell) (x y : ℝ) : ℝ := Real.sqrt ((c.x - x) ^ 2 + (c.y - y) ^ 2)

/-- `ParametricCircleMap._transform`.  maps/_parametric.py:137-146 -/
noncomputable def circle (logSigma : Bool) (a : ℝ) (c : Cell) (m : Fin 5 → ℝ) : ℝ :=
  let sig1 := sig logSigma (m 0)
  let sig2 := sig logSigma (m 1)
  sig1 + (sig2 - sig1) * (Real.arctan (a * (radius c (m 2) (m 3) - m 4)) / Real.pi + 0.5)

/-- `ParametricCircleMap.deriv`, the row of a cell.  maps/_parametric.py:186-247 -/
noncomputable def circleDeriv (logSigma : Bool) (a : ℝ) (c : Cell) (m : Fin 5 → ℝ) : Fin 5 → ℝ :=
  let sig1 := sig logSigma (m 0)
  let sig2 := sig logSigma (m 1)
  let r := m 4
  let R := radius c (m 2) (m 3)
  let F := Real.arctan (a * (-r + R)) / Real.pi + 0.5
  let g1 := if logSigma then -F * sig1 + sig1 else -F + 1.0
  let g2 := if logSigma then F * sig2 else F
  let g3 := a * (-c.x + m 2) * (-sig1 + sig2) / (Real.pi * (a ^ 2 * (-r + R) ^ 2 + 1) * R)
  let g4 := a * (-c.y + m 3) * (-sig1 + sig2) / (Real.pi * (a ^ 2 * (-r + R) ^ 2 + 1) * R)
  let g5 := -a * (-sig1 + sig2) / (Real.pi * (a ^ 2 * (-r + R) ^ 2 + 1))
  ![g1, g2, g3, g4, g5]

end Verif.Maps.Parametric

namespace Verif.Maps.Parametric.Props
open Verif Verif.Maps.Parametric Matrix Filter Topology

/-! ### Rules for gradients -/

section rules
variable {ι : Type} [Fintype ι] {f g : (ι → ℝ) → ℝ} {u v m : ι → ℝ}

theorem gConst (x : ℝ) : IsGradient (fun _ : ι → ℝ => x) (fun _ => 0) m := by
  unfold IsGradient
  have : dotL (fun _ : ι => (0 : ℝ)) = 0 := dotL_zero
  rw [this]
  exact hasFDerivAt_const x m

theorem gCoord [DecidableEq ι] (i : ι) :
    IsGradient (fun x : ι → ℝ => x i) (fun j => if j = i then 1 else 0) m := by
  unfold IsGradient
  have e : dotL (fun j => if j = i then (1 : ℝ) else 0) = ContinuousLinearMap.proj i := by
    ext w
    simp [dotProduct]
  rw [e]
  exact (ContinuousLinearMap.proj (R := ℝ) (φ := fun _ : ι => ℝ) i).hasFDerivAt

theorem gAdd (hf : IsGradient f u m) (hg : IsGradient g v m) :
    IsGradient (fun x => f x + g x) (fun j => u j + v j) m := by
  have h := HasFDerivAt.add hf hg
  unfold IsGradient
  have e : dotL (fun j => u j + v j) = dotL u + dotL v := dotL_add u v
  rw [e]
  exact h

theorem gSmul (x : ℝ) (hf : IsGradient f u m) :
    IsGradient (fun y => x * f y) (fun j => x * u j) m := by
  have h := HasFDerivAt.const_mul hf x
  unfold IsGradient
  have e : dotL (fun j => x * u j) = x • dotL u := dotL_smul x u
  rw [e]
  exact h

theorem gSub (hf : IsGradient f u m) (hg : IsGradient g v m) :
    IsGradient (fun x => f x - g x) (fun j => u j - v j) m := by
  have h := gAdd hf (gSmul (-1) hg)
  simpa [sub_eq_add_neg] using h

theorem gMul (hf : IsGradient f u m) (hg : IsGradient g v m) :
    IsGradient (fun x => f x * g x) (fun j => f m * v j + g m * u j) m := by
  have h := HasFDerivAt.mul hf hg
  unfold IsGradient
  have e : dotL (fun j => f m * v j + g m * u j) = f m • dotL v + g m • dotL u := by
    rw [← dotL_smul, ← dotL_smul, ← dotL_add]; rfl
  rw [e]
  exact h

theorem gComp {φ : ℝ → ℝ} {φ' : ℝ} (h : HasDerivAt φ φ' (f m)) (hf : IsGradient f u m) :
    IsGradient (fun x => φ (f x)) (fun j => φ' * u j) m := by
  have h' := h.comp_hasFDerivAt m hf
  unfold IsGradient
  have e : dotL (fun j => φ' * u j) = φ' • dotL u := dotL_smul φ' u
  rw [e]
  exact h'

theorem gCongr (hf : IsGradient f u m) (h : ∀ j, u j = v j) : IsGradient f v m := by
  have : u = v := funext h
  rwa [← this]

/-- Gradients are unique. -/
theorem gUnique (h₁ : IsGradient f u m) (h₂ : IsGradient f v m) : u = v := by
  classical
  have h := HasFDerivAt.unique h₁ h₂
  funext j
  have := congrArg (fun L : (ι → ℝ) →L[ℝ] ℝ => L (Pi.single j 1)) h
  simpa using this

end rules

/-! ### The smoothed step -/

theorem hasDerivAt_atanfct (v s : ℝ) : HasDerivAt (fun x => atanfct x s) (-(atanfctDeriv v s)) v := by
  have h1 : HasDerivAt (fun x : ℝ => s * x) s v := by simpa using (hasDerivAt_id v).const_mul s
  have h2 := ((Real.hasDerivAt_arctan (s * v)).comp v h1).div_const Real.pi
  have h3 := h2.add_const 0.5
  have e : 1 / (1 + (s * v) ^ 2) * s / Real.pi = -(atanfctDeriv v s) := by
    simp only [atanfctDeriv]
    norm_num
    ring
  rw [e] at h3
  exact h3

theorem atanfct_neg (v s : ℝ) : atanfct v (-s) = 1 - atanfct v s := by
  simp only [atanfct, neg_mul, Real.arctan_neg]
  norm_num
  ring

theorem atanfct_pos (v s : ℝ) : 0 < atanfct v s := by
  have h := Real.neg_pi_div_two_lt_arctan (s * v)
  have hp := Real.pi_pos
  have : -(1 / 2) < Real.arctan (s * v) / Real.pi := by
    rw [lt_div_iff₀ hp]
    linarith
  simp only [atanfct]
  norm_num
  linarith

theorem atanfct_lt_one (v s : ℝ) : atanfct v s < 1 := by
  have := atanfct_pos v (-s)
  rw [atanfct_neg] at this
  linarith

theorem atanfct_tendsto_one {v : ℝ} (h : 0 < v) : Tendsto (fun s => atanfct v s) atTop (𝓝 1) := by
  have h1 : Tendsto (fun s : ℝ => s * v) atTop atTop := tendsto_id.atTop_mul_const h
  have h2 : Tendsto (fun s : ℝ => Real.arctan (s * v)) atTop (𝓝 (Real.pi / 2)) :=
    (Real.tendsto_arctan_atTop.mono_right nhdsWithin_le_nhds).comp h1
  have h3 := (h2.div_const Real.pi).add_const (0.5 : ℝ)
  have e : Real.pi / 2 / Real.pi + 0.5 = 1 := by
    have := Real.pi_ne_zero
    field_simp
    norm_num
  rw [e] at h3
  exact h3

theorem atanfct_tendsto_zero {v : ℝ} (h : v < 0) : Tendsto (fun s => atanfct v s) atTop (𝓝 0) := by
  have h1 := atanfct_tendsto_one (v := -v) (by linarith)
  have h2 := h1.const_sub 1
  simp only [sub_self] at h2
  refine h2.congr (fun s => ?_)
  have : atanfct (-v) s = atanfct v (-s) := by simp [atanfct]
  rw [this, atanfct_neg]
  ring

theorem atanfct_neg_tendsto_one {v : ℝ} (h : v < 0) :
    Tendsto (fun s => atanfct v (-s)) atTop (𝓝 1) := by
  simp only [atanfct_neg]
  simpa using (atanfct_tendsto_zero h).const_sub 1

theorem atanfct_neg_tendsto_zero {v : ℝ} (h : 0 < v) :
    Tendsto (fun s => atanfct v (-s)) atTop (𝓝 0) := by
  simp only [atanfct_neg]
  simpa using (atanfct_tendsto_one h).const_sub 1

section edges
variable {ι : Type} [Fintype ι] {e : (ι → ℝ) → ℝ} {u m : ι → ℝ}

/-- A step at an edge which depends on the parameters: `_atanfctDeriv` is the derivative with respect to the
edge. -/
theorem gEdge (x s : ℝ) (h : IsGradient e u m) :
    IsGradient (fun m => atanfct (x - e m) s) (fun j => atanfctDeriv (x - e m) s * u j) m := by
  refine gCongr (gComp (hasDerivAt_atanfct (x - e m) s) (gSub (gConst x) h)) (fun j => ?_)
  ring

variable {cen wid : (ι → ℝ) → ℝ} {uc uw : ι → ℝ}

theorem gLayer (z s : ℝ) (hc : IsGradient cen uc m) (hw : IsGradient wid uw m) :
    IsGradient (fun m => atanLayer z s (cen m) (wid m))
      (fun j => atanLayerDerivCenter z s (cen m) (wid m) * uc j +
        atanLayerDerivThickness z s (cen m) (wid m) * uw j) m := by
  have hb : IsGradient (fun m => cen m - wid m / 2.0) (fun j => uc j - uw j / 2) m := by
    refine gCongr (u := fun j => uc j - (1 / 2.0) * uw j) ?_ (fun j => by norm_num; ring)
    have := gSub hc (gSmul (1 / 2.0) hw)
    simpa [div_eq_inv_mul] using this
  have ht : IsGradient (fun m => cen m + wid m / 2.0) (fun j => uc j + uw j / 2) m := by
    refine gCongr (u := fun j => uc j + (1 / 2.0) * uw j) ?_ (fun j => by norm_num; ring)
    have := gAdd hc (gSmul (1 / 2.0) hw)
    simpa [div_eq_inv_mul] using this
  refine gCongr (gMul (gEdge z s hb) (gEdge z (-s) ht)) (fun j => ?_)
  simp only [atanLayerDerivCenter, atanLayerDerivThickness]
  norm_num
  ring

theorem gSlab (x s : ℝ) (hc : IsGradient cen uc m) (hw : IsGradient wid uw m) :
    IsGradient (fun m => slab x s (cen m) (wid m))
      (fun j => slabDerivCenter x s (cen m) (wid m) * uc j +
        slabDerivWidth x s (cen m) (wid m) * uw j) m := by
  refine gCongr (gMul (gEdge x s (gSub hc (gSmul 0.5 hw))) (gEdge x (-s) (gAdd hc (gSmul 0.5 hw))))
    (fun j => ?_)
  simp only [slabDerivCenter, slabDerivWidth]
  norm_num
  ring

variable {bg lay : (ι → ℝ) → ℝ} {ub ul : ι → ℝ}

theorem gLayerCont (z s : ℝ) (hb : IsGradient bg ub m) (hl : IsGradient lay ul m)
    (hc : IsGradient cen uc m) (hw : IsGradient wid uw m) :
    IsGradient (fun m => layerCont z s (bg m) (lay m) (cen m) (wid m))
      (fun j => (1 - atanLayer z s (cen m) (wid m)) * ub j + atanLayer z s (cen m) (wid m) * ul j +
        (lay m - bg m) * (atanLayerDerivCenter z s (cen m) (wid m) * uc j +
          atanLayerDerivThickness z s (cen m) (wid m) * uw j)) m := by
  refine gCongr (gAdd hb (gMul (gSub hl hb) (gLayer z s hc hw))) (fun j => ?_)
  ring

end edges

/-! ### C124: derivatives -/

/-- **C124, layers.** The derivative of a layer map is its Jacobian: every cell, every model, every slope. -/
theorem C124_layer {κ : Type} [Fintype κ] (d : LDim) (slope : ℝ) (cells : κ → Cell) (m : Fin 4 → ℝ) :
    IsJacobian (fun m k => layer d slope (cells k) m)
      (Matrix.of fun k => layerDeriv d slope (cells k) m) m := by
  rw [isJacobian_iff]
  intro k
  refine gCongr (gLayerCont (d.vert (cells k)) slope (gCoord 0) (gCoord 1) (gCoord 2) (gCoord 3))
    (fun j => ?_)
  fin_cases j <;> simp [layerDeriv, LayerP.ofModel]

/-- When the Ekblom function is differentiable: off the centre of the block, or smoothed, or of power two
and more. -/
def Smooth (o : BlockOpts) (x x0 : ℝ) : Prop := x ≠ x0 ∨ o.epsilon ≠ 0 ∨ 2 ≤ o.p

theorem hasDerivAt_ekblom (o : BlockOpts) (v : ℝ) (h : v ≠ 0 ∨ o.epsilon ≠ 0 ∨ 2 ≤ o.p) :
    HasDerivAt (ekblom o) (ekblomDeriv o v) v := by
  have h1 : HasDerivAt (fun x : ℝ => x ^ 2 + o.epsilon ^ 2) (2 * v) v := by
    simpa using (hasDerivAt_pow 2 v).add_const (o.epsilon ^ 2)
  have h0 : v ^ 2 + o.epsilon ^ 2 ≠ 0 ∨ 1 ≤ o.p / 2.0 := by
    rcases h with h | h | h
    · left; positivity
    · left; positivity
    · right; norm_num; linarith
  have h2 := h1.rpow_const (p := o.p / 2.0) h0
  have e : 2 * v * (o.p / 2.0) * (v ^ 2 + o.epsilon ^ 2) ^ (o.p / 2.0 - 1) = ekblomDeriv o v := by
    simp only [ekblomDeriv]
    norm_num
    ring
  rw [e] at h2
  exact h2

section
variable {ι : Type} [Fintype ι] {cen wid bg blk : (ι → ℝ) → ℝ} {uc uw ub ul m : ι → ℝ}

theorem gEkblom (o : BlockOpts) (x : ℝ) (hx : Smooth o x (cen m)) (h0 : wid m ≠ 0)
    (hc : IsGradient cen uc m) (hw : IsGradient wid uw m) :
    IsGradient (fun m => ekblom o (rel x (cen m) (wid m)))
      (fun j => ekblomDeriv o ((x - cen m) / (0.5 * wid m)) * (1 / -(0.5 * wid m) * uc j +
        (-(x - cen m) / (0.5 * wid m ^ 2)) * uw j)) m := by
  have hi : IsGradient (fun m => (0.5 * wid m)⁻¹) (fun j => -((0.5 * wid m) ^ 2)⁻¹ * (0.5 * uw j)) m := by
    have h : HasDerivAt (fun x : ℝ => x⁻¹) (-((0.5 * wid m) ^ 2)⁻¹) (0.5 * wid m) :=
      hasDerivAt_inv (by norm_num; exact h0)
    exact gComp h (gSmul 0.5 hw)
  have hr : IsGradient (fun m => rel x (cen m) (wid m))
      (fun j => 1 / -(0.5 * wid m) * uc j + (-(x - cen m) / (0.5 * wid m ^ 2)) * uw j) m := by
    refine gCongr (gMul (gSub (gConst x) hc) hi) (fun j => ?_)
    norm_num
    field_simp
    ring
  refine gComp (hasDerivAt_ekblom o _ ?_) hr
  rcases hx with hx | hx
  · left
    exact div_ne_zero (sub_ne_zero.2 hx) (by norm_num; exact h0)
  · exact Or.inr hx

theorem gBlockVal (o : BlockOpts) {η : (ι → ℝ) → ℝ} {w : ι → ℝ}
    (hb : IsGradient bg ub m) (hl : IsGradient blk ul m)
    (hη : IsGradient η w m) :
    IsGradient (fun m => blockVal o (bg m) (blk m) (1 - η m))
      (fun j => (1 - atanfct (1 - η m) o.slope) * ub j + atanfct (1 - η m) o.slope * ul j +
        (blk m - bg m) * (atanfctDeriv (1 - η m) o.slope * w j)) m := by
  refine gCongr (gAdd hb (gMul (gSub hl hb) (gEdge 1 o.slope hη))) (fun j => ?_)
  ring

end

/-- **C124, blocks and ellipsoids in one dimension.** The derivative is the Jacobian wherever the width is
not zero and the Ekblom function is differentiable. -/
theorem C124_block1 {κ : Type} [Fintype κ] (o : BlockOpts) (cells : κ → Cell) (m : Fin 4 → ℝ)
    (hx : ∀ k, Smooth o (cells k).x (m 2)) (hw : m 3 ≠ 0) :
    IsJacobian (fun m k => block1 o (cells k) m)
      (Matrix.of fun k => block1Deriv o (cells k) m) m := by
  rw [isJacobian_iff]
  intro k
  refine gCongr (gBlockVal o (gCoord 0) (gCoord 1)
    (gEkblom o (cells k).x (hx k) hw (gCoord 2) (gCoord 3))) (fun j => ?_)
  fin_cases j <;> simp [block1Deriv, block1D, derivCenter, derivWidth] <;> ring

/-- **C124, blocks and ellipsoids in two dimensions.** -/
theorem C124_block2 {κ : Type} [Fintype κ] (o : BlockOpts) (cells : κ → Cell) (m : Fin 6 → ℝ)
    (hx : ∀ k, Smooth o (cells k).x (m 2)) (hdx : m 3 ≠ 0)
    (hy : ∀ k, Smooth o (cells k).y (m 4)) (hdy : m 5 ≠ 0) :
    IsJacobian (fun m k => block2 o (cells k) m)
      (Matrix.of fun k => block2Deriv o (cells k) m) m := by
  rw [isJacobian_iff]
  intro k
  refine gCongr (gBlockVal o (gCoord 0) (gCoord 1) (gAdd
    (gEkblom o (cells k).x (hx k) hdx (gCoord 2) (gCoord 3))
    (gEkblom o (cells k).y (hy k) hdy (gCoord 4) (gCoord 5)))) (fun j => ?_)
  fin_cases j <;> simp [block2Deriv, block2D, derivCenter, derivWidth] <;> ring

/-- **C124, blocks and ellipsoids in three dimensions.** -/
theorem C124_block3 {κ : Type} [Fintype κ] (o : BlockOpts) (cells : κ → Cell) (m : Fin 8 → ℝ)
    (hx : ∀ k, Smooth o (cells k).x (m 2)) (hdx : m 3 ≠ 0)
    (hy : ∀ k, Smooth o (cells k).y (m 4)) (hdy : m 5 ≠ 0)
    (hz : ∀ k, Smooth o (cells k).z (m 6)) (hdz : m 7 ≠ 0) :
    IsJacobian (fun m k => block3 o (cells k) m)
      (Matrix.of fun k => block3Deriv o (cells k) m) m := by
  rw [isJacobian_iff]
  intro k
  refine gCongr (gBlockVal o (gCoord 0) (gCoord 1) (gAdd (gAdd
    (gEkblom o (cells k).x (hx k) hdx (gCoord 2) (gCoord 3))
    (gEkblom o (cells k).y (hy k) hdy (gCoord 4) (gCoord 5)))
    (gEkblom o (cells k).z (hz k) hdz (gCoord 6) (gCoord 7)))) (fun j => ?_)
  fin_cases j <;> simp [block3Deriv, block3D, derivCenter, derivWidth] <;> ring

/-- **C124, casings.** The derivative is the Jacobian: every cell, every model, every slope. -/
theorem C124_casing {κ : Type} [Fintype κ] (s : ℝ) (cells : κ → Cell) (m : Fin 10 → ℝ) :
    IsJacobian (fun m k => casing s (cells k) m)
      (Matrix.of fun k => casingDeriv s (cells k) m) m := by
  rw [isJacobian_iff]
  intro k
  have hL := gLayerCont (m := m) (cells k).z s (gCoord 0) (gCoord 1) (gCoord 4) (gCoord 5)
  have ha : IsGradient (fun m : Fin 10 → ℝ => (CasingP.ofModel m).a) _ m :=
    gSub (gCoord 6) (gSmul 0.5 (gCoord 7))
  have hb : IsGradient (fun m : Fin 10 → ℝ => (CasingP.ofModel m).b) _ m :=
    gAdd (gCoord 6) (gSmul 0.5 (gCoord 7))
  have hlen : IsGradient (fun m : Fin 10 → ℝ => casingLength s (cells k) (CasingP.ofModel m)) _ m :=
    gMul (gEdge (cells k).z (-s) (gCoord 9)) (gEdge (cells k).z s (gCoord 8))
  have hI : IsGradient (fun m : Fin 10 → ℝ => insideCasing s (cells k) (CasingP.ofModel m)) _ m :=
    gMul hlen (gEdge (cells k).x (-s) ha)
  have hC : IsGradient (fun m : Fin 10 → ℝ => casingWeight s (cells k) (CasingP.ofModel m)) _ m :=
    gMul (gMul hlen (gEdge (cells k).x s ha)) (gEdge (cells k).x (-s) hb)
  refine gCongr (gAdd (gAdd hL (gMul (gSub (gCoord 2) hL) hC)) (gMul (gSub (gCoord 3) hL) hI))
    (fun j => ?_)
  fin_cases j <;>
    simp [-mul_eq_mul_left_iff, -mul_eq_mul_right_iff, -add_right_inj, -add_left_inj,
      casingDeriv, CasingP.ofModel, LDim.vert, casingDerivRadius, insideDerivRadius,
      casingDerivThickness, insideDerivThickness, casingDerivBottom, insideDerivBottom,
      casingDerivTop, insideDerivTop, casingWeight, insideCasing, casingLength,
      casingLengthDerivTop, casingLengthDerivBottom, CasingP.a, CasingP.b] <;>
    norm_num [-mul_eq_mul_left_iff, -mul_eq_mul_right_iff, -add_right_inj, -add_left_inj] <;> ring

/-- **C124, blocks in a layer in two dimensions.** -/
theorem C124_blockInLayer2 {κ : Type} [Fintype κ] (s : ℝ) (cells : κ → Cell) (m : Fin 7 → ℝ) :
    IsJacobian (fun m k => blockInLayer2 s (cells k) m)
      (Matrix.of fun k => blockInLayer2Deriv s (cells k) m) m := by
  rw [isJacobian_iff]
  intro k
  have hL := gLayerCont (m := m) (cells k).y s (gCoord 0) (gCoord 1) (gCoord 3) (gCoord 4)
  have hA := gLayer (m := m) (cells k).y s (gCoord 3) (gCoord 4)
  have hB := gMul hA (gSlab (cells k).x s (gCoord 5) (gCoord 6))
  refine gCongr (gAdd hL (gMul (gSub (gCoord 2) hL) hB)) (fun j => ?_)
  fin_cases j <;>
    simp [-mul_eq_mul_left_iff, -mul_eq_mul_right_iff, -add_right_inj, -add_left_inj,
      blockInLayer2Deriv, LDim.vert] <;>
    norm_num [-mul_eq_mul_left_iff, -mul_eq_mul_right_iff, -add_right_inj, -add_left_inj] <;> ring

/-- **C124, blocks in a layer in three dimensions.** -/
theorem C124_blockInLayer3 {κ : Type} [Fintype κ] (s : ℝ) (cells : κ → Cell) (m : Fin 9 → ℝ) :
    IsJacobian (fun m k => blockInLayer3 s (cells k) m)
      (Matrix.of fun k => blockInLayer3Deriv s (cells k) m) m := by
  rw [isJacobian_iff]
  intro k
  have hL := gLayerCont (m := m) (cells k).z s (gCoord 0) (gCoord 1) (gCoord 3) (gCoord 4)
  have hA := gLayer (m := m) (cells k).z s (gCoord 3) (gCoord 4)
  have hB := gMul (gMul hA (gSlab (cells k).x s (gCoord 5) (gCoord 7)))
    (gSlab (cells k).y s (gCoord 6) (gCoord 8))
  refine gCongr (gAdd hL (gMul (gSub (gCoord 2) hL) hB)) (fun j => ?_)
  fin_cases j <;>
    simp [-mul_eq_mul_left_iff, -mul_eq_mul_right_iff, -add_right_inj, -add_left_inj,
      blockInLayer3Deriv, LDim.vert] <;>
    norm_num [-mul_eq_mul_left_iff, -mul_eq_mul_right_iff, -add_right_inj, -add_left_inj] <;> ring

theorem gSig {ι : Type} [Fintype ι] [DecidableEq ι] {m : ι → ℝ} (b : Bool) (i : ι) :
    IsGradient (fun m : ι → ℝ => sig b (m i))
      (fun j => (if b then sig b (m i) else 1) * (if j = i then 1 else 0)) m := by
  cases b
  · simpa [sig] using gCoord (m := m) i
  · simpa [sig] using gComp (Real.hasDerivAt_exp (m i)) (gCoord (m := m) i)

theorem gRadius (c : Cell) {m : Fin 5 → ℝ} (h : 0 < radius c (m 2) (m 3)) :
    IsGradient (fun m : Fin 5 → ℝ => radius c (m 2) (m 3))
      (fun j => (-c.x + m 2) / radius c (m 2) (m 3) * (if j = 2 then 1 else 0) +
        (-c.y + m 3) / radius c (m 2) (m 3) * (if j = 3 then 1 else 0)) m := by
  have hx := gSub (m := m) (gConst c.x) (gCoord (2 : Fin 5))
  have hy := gSub (m := m) (gConst c.y) (gCoord (3 : Fin 5))
  have hs := gAdd (gMul hx hx) (gMul hy hy)
  have hpos : 0 < (c.x - m 2) * (c.x - m 2) + (c.y - m 3) * (c.y - m 3) := by
    have := Real.sqrt_pos.1 h
    nlinarith [this]
  have hq : ∀ m : Fin 5 → ℝ, radius c (m 2) (m 3) =
      Real.sqrt ((c.x - m 2) * (c.x - m 2) + (c.y - m 3) * (c.y - m 3)) := by
    intro m; simp only [radius, sq]
  have := gComp (Real.hasDerivAt_sqrt hpos.ne') hs
  simp only [hq] at *
  refine gCongr this (fun j => ?_)
  have hR : 0 < Real.sqrt ((c.x - m 2) * (c.x - m 2) + (c.y - m 3) * (c.y - m 3)) := Real.sqrt_pos.2 hpos
  field_simp
  ring

/-- **C124, circles.** The derivative is the Jacobian as long as no cell centre is at the centre of the
circle, with or without the logarithm. -/
theorem C124_circle {κ : Type} [Fintype κ] (b : Bool) (a : ℝ) (cells : κ → Cell) (m : Fin 5 → ℝ)
    (h : ∀ k, (cells k).x ≠ m 2 ∨ (cells k).y ≠ m 3) :
    IsJacobian (fun m k => circle b a (cells k) m)
      (Matrix.of fun k => circleDeriv b a (cells k) m) m := by
  rw [isJacobian_iff]
  intro k
  have hR : 0 < radius (cells k) (m 2) (m 3) := by
    apply Real.sqrt_pos.2
    rcases h k with h | h
    · have := sub_ne_zero.2 h; positivity
    · have := sub_ne_zero.2 h; positivity
  have hu := gSmul a (gSub (gRadius (cells k) hR) (gCoord (m := m) 4))
  have hF := gAdd (gSmul (1 / Real.pi) (gComp (Real.hasDerivAt_arctan _) hu)) (gConst 0.5)
  have hT := gAdd (gSig (m := m) b 0) (gMul (gSub (gSig b 1) (gSig b 0)) hF)
  have hfun : (fun m => circle b a (cells k) m) = fun m : Fin 5 → ℝ =>
      sig b (m 0) + (sig b (m 1) - sig b (m 0)) *
        (1 / Real.pi * Real.arctan (a * (radius (cells k) (m 2) (m 3) - m 4)) + 0.5) := by
    funext m; simp only [circle]; ring
  rw [hfun]
  refine gCongr hT (fun j => ?_)
  have hp := Real.pi_pos
  have h1 : 0 < a ^ 2 * (-m 4 + radius (cells k) (m 2) (m 3)) ^ 2 + 1 := by positivity
  have h2 : 0 < 1 + (a * (radius (cells k) (m 2) (m 3) - m 4)) ^ 2 := by positivity
  have h12 : 1 + (a * (radius (cells k) (m 2) (m 3) - m 4)) ^ 2 =
      a ^ 2 * (-m 4 + radius (cells k) (m 2) (m 3)) ^ 2 + 1 := by ring
  have hs : radius (cells k) (m 2) (m 3) - m 4 = -m 4 + radius (cells k) (m 2) (m 3) := by ring
  fin_cases j
  · cases b <;> simp [-mul_eq_mul_left_iff, -mul_eq_mul_right_iff, -add_right_inj, -add_left_inj, circleDeriv, hs] <;>
      norm_num [-mul_eq_mul_left_iff, -mul_eq_mul_right_iff, -add_right_inj, -add_left_inj] <;> ring
  · cases b <;> simp [-mul_eq_mul_left_iff, -mul_eq_mul_right_iff, -add_right_inj, -add_left_inj, circleDeriv, hs] <;>
      norm_num [-mul_eq_mul_left_iff, -mul_eq_mul_right_iff, -add_right_inj, -add_left_inj] <;> ring
  · simp [circleDeriv, h12]; field_simp; ring
  · simp [circleDeriv, h12]; field_simp; ring
  · simp [circleDeriv, h12]; field_simp; ring


/-- At the centre of the circle there is no derivative: the map has a cone there, whatever the map returns
(the code divides zero by zero). -/
theorem C124_circle_centre (a : ℝ) (ha : a ≠ 0) (c : Cell) (m : Fin 5 → ℝ)
    (hx : m 2 = c.x) (hy : m 3 = c.y) (hv : m 0 ≠ m 1) (g : Fin 5 → ℝ) :
    ¬ IsGradient (fun m => circle false a c m) g m := by
  intro h
  -- restrict to the line through the centre along the first axis
  have hline : HasDerivAt (fun t : ℝ => m + t • (Pi.single 2 1 : Fin 5 → ℝ)) (Pi.single 2 1) 0 := by
    simpa using ((hasDerivAt_id (0 : ℝ)).smul_const (Pi.single 2 1 : Fin 5 → ℝ)).const_add m
  have h0 : m + (0 : ℝ) • (Pi.single 2 1 : Fin 5 → ℝ) = m := by simp
  have h' : HasFDerivAt (fun m => circle false a c m) (dotL g) (m + (0 : ℝ) • (Pi.single 2 1 : Fin 5 → ℝ)) := by
    rw [h0]; exact h
  have hd := h'.comp_hasDerivAt (0 : ℝ) hline
  have hval : (fun m => circle false a c m) ∘ (fun t : ℝ => m + t • (Pi.single 2 1 : Fin 5 → ℝ)) =
      fun t => m 0 + (m 1 - m 0) * (Real.arctan (a * (|t| - m 4)) / Real.pi + 0.5) := by
    funext t
    simp [circle, sig, radius, hx, hy, Real.sqrt_sq_eq_abs]
  rw [hval] at hd
  -- undo the outer functions
  have hk : (m 1 - m 0) ≠ 0 := sub_ne_zero.2 (Ne.symm hv)
  have h1 := (((hd.sub_const (m 0)).div_const (m 1 - m 0)).sub_const 0.5).mul_const Real.pi
  have e1 : (fun t => (((m 0 + (m 1 - m 0) * (Real.arctan (a * (|t| - m 4)) / Real.pi + 0.5)) - m 0) /
      (m 1 - m 0) - 0.5) * Real.pi) = fun t => Real.arctan (a * (|t| - m 4)) := by
    funext t
    have := Real.pi_ne_zero
    field_simp
    ring
  rw [e1] at h1
  have hcos : Real.cos (Real.arctan (a * (|(0 : ℝ)| - m 4))) ≠ 0 := (Real.cos_arctan_pos _).ne'
  have h2 := ((Real.hasDerivAt_tan hcos).comp (0 : ℝ) h1).div_const a |>.add_const (m 4)
  have e2 : (fun t => (Real.tan ∘ fun t => Real.arctan (a * (|t| - m 4))) t / a + m 4) = fun t : ℝ => |t| := by
    funext t
    simp only [Function.comp, Real.tan_arctan]
    field_simp
    ring
  rw [e2] at h2
  exact not_differentiableAt_abs_zero h2.differentiableAt

/-! ### C125: what the parameters mean -/

/-- The smoothed indicator of an interval: one inside, zero outside, in the limit. -/
theorem atanLayer_tendsto_one {z c h : ℝ} (hz : |z - c| < h / 2) :
    Tendsto (fun s => atanLayer z s c h) atTop (𝓝 1) := by
  obtain ⟨h1, h2⟩ := abs_lt.1 hz
  have a1 : 0 < z - (c - h / 2.0) := by norm_num; linarith
  have a2 : z - (c + h / 2.0) < 0 := by norm_num; linarith
  simpa [atanLayer] using (atanfct_tendsto_one a1).mul (atanfct_neg_tendsto_one a2)

theorem bounded_mul_tendsto_zero {f g : ℝ → ℝ} (hf : ∀ s, 0 ≤ f s ∧ f s ≤ 1)
    (hg : Tendsto g atTop (𝓝 0)) : Tendsto (fun s => f s * g s) atTop (𝓝 0) := by
  refine squeeze_zero_norm (a := fun s => |g s|) (fun s => ?_) (by simpa using hg.abs)
  rw [Real.norm_eq_abs, abs_mul, abs_of_nonneg (hf s).1]
  nlinarith [(hf s).2, abs_nonneg (g s)]

theorem atanfct_mem (v s : ℝ) : 0 ≤ atanfct v s ∧ atanfct v s ≤ 1 :=
  ⟨(atanfct_pos v s).le, (atanfct_lt_one v s).le⟩

theorem atanLayer_tendsto_zero {z c h : ℝ} (hh : 0 < h) (hz : h / 2 < |z - c|) :
    Tendsto (fun s => atanLayer z s c h) atTop (𝓝 0) := by
  rcases lt_abs.1 hz with h1 | h1
  · have a2 : 0 < z - (c + h / 2.0) := by norm_num; linarith
    exact bounded_mul_tendsto_zero (fun s => atanfct_mem _ s) (atanfct_neg_tendsto_zero a2)
  · have a1 : z - (c - h / 2.0) < 0 := by norm_num; linarith
    have := bounded_mul_tendsto_zero (fun s => atanfct_mem (z - (c + h / 2.0)) (-s))
      (atanfct_tendsto_zero a1)
    simpa only [atanLayer, mul_comm] using this

theorem slab_eq (x s c h : ℝ) : slab x s c h = atanLayer x s c h := by
  simp only [slab, atanLayer]
  norm_num
  ring_nf

theorem layerCont_tendsto {z c h bg lay l : ℝ}
    (hl : Tendsto (fun s => atanLayer z s c h) atTop (𝓝 l)) :
    Tendsto (fun s => layerCont z s bg lay c h) atTop (𝓝 (bg + (lay - bg) * l)) :=
  (hl.const_mul (lay - bg)).const_add bg

/-- What a layered medium is: the value of the layer inside it, that of the background outside. -/
inductive InLayered (z bg lay c h : ℝ) : ℝ → Prop
  | inside : |z - c| < h / 2 → InLayered z bg lay c h lay
  | outside : h / 2 < |z - c| → InLayered z bg lay c h bg

theorem layered_tendsto {z bg lay c h u : ℝ} (hh : 0 < h) (hu : InLayered z bg lay c h u) :
    Tendsto (fun s => layerCont z s bg lay c h) atTop (𝓝 u) := by
  cases hu with
  | inside hz => simpa using layerCont_tendsto (bg := bg) (lay := lay) (atanLayer_tendsto_one hz)
  | outside hz => simpa using layerCont_tendsto (bg := bg) (lay := lay) (atanLayer_tendsto_zero hh hz)

/-- **C125, layers.** As the slope grows, cells inside the layer tend to the value of the layer, cells outside
to the value of the background. -/
theorem C125_layer (d : LDim) (c : Cell) (m : Fin 4 → ℝ) (hh : 0 < m 3) :
    (|d.vert c - m 2| < m 3 / 2 → Tendsto (fun s => layer d s c m) atTop (𝓝 (m 1))) ∧
    (m 3 / 2 < |d.vert c - m 2| → Tendsto (fun s => layer d s c m) atTop (𝓝 (m 0))) :=
  ⟨fun h => layered_tendsto hh (.inside h), fun h => layered_tendsto hh (.outside h)⟩

theorem blockVal_tendsto (ε p bg blk η : ℝ) :
    (0 < η → Tendsto (fun s => blockVal ⟨s, ε, p⟩ bg blk η) atTop (𝓝 blk)) ∧
    (η < 0 → Tendsto (fun s => blockVal ⟨s, ε, p⟩ bg blk η) atTop (𝓝 bg)) := by
  constructor
  · intro h
    simpa [blockVal] using ((atanfct_tendsto_one h).const_mul (blk - bg)).const_add bg
  · intro h
    simpa [blockVal] using ((atanfct_tendsto_zero h).const_mul (blk - bg)).const_add bg

theorem ekblom_ellipsoid (s x x0 dx : ℝ) :
    ekblom ⟨s, 0, 2⟩ (rel x x0 dx) = ((x - x0) / (dx / 2)) ^ 2 := by
  have : (2 : ℝ) / 2.0 = 1 := by norm_num
  simp only [ekblom, this, Real.rpow_one, rel]
  norm_num
  ring_nf

/-- **C125, ellipsoids.** Without smoothing, cells inside the ellipsoid with the given centre and axes tend to
the value of the ellipsoid, cells outside to that of the background. -/
theorem C125_ellipsoid (c : Cell) (m : Fin 8 → ℝ) :
    let q := ((c.x - m 2) / (m 3 / 2)) ^ 2 + ((c.y - m 4) / (m 5 / 2)) ^ 2 + ((c.z - m 6) / (m 7 / 2)) ^ 2
    (q < 1 → Tendsto (fun s => block3 ⟨s, 0, 2⟩ c m) atTop (𝓝 (m 1))) ∧
    (1 < q → Tendsto (fun s => block3 ⟨s, 0, 2⟩ c m) atTop (𝓝 (m 0))) := by
  intro q
  have e : ∀ s, block3D ⟨s, 0, 2⟩ c (m 2) (m 3) (m 4) (m 5) (m 6) (m 7) = 1 - q := by
    intro s
    simp only [block3D, ekblom_ellipsoid, q]
  simp only [block3, e]
  exact ⟨fun h => (blockVal_tendsto 0 2 _ _ _).1 (by linarith),
    fun h => (blockVal_tendsto 0 2 _ _ _).2 (by linarith)⟩

theorem ekblom_slope (s s' ε p v : ℝ) : ekblom ⟨s, ε, p⟩ v = ekblom ⟨s', ε, p⟩ v := rfl

/-- A cell within a half of the width of the centre has a small Ekblom function, one outside a large one. -/
theorem ekblom_outside (s p x x0 dx ε : ℝ) (hp : 0 < p) (hd : 0 < dx) (h : dx / 2 < |x - x0|) :
    1 < ekblom ⟨s, ε, p⟩ (rel x x0 dx) := by
  simp only [ekblom, rel]
  apply Real.one_lt_rpow
  · have h1 : 1 < |(x - x0) / (0.5 * dx)| := by
      rw [abs_div, abs_of_pos (show (0 : ℝ) < 0.5 * dx by positivity), lt_div_iff₀ (by positivity)]
      norm_num
      linarith
    have h2 : 1 < ((x - x0) / (0.5 * dx)) ^ 2 := by
      rw [← sq_abs]; nlinarith
    nlinarith [sq_nonneg ε]
  · norm_num; exact hp

theorem ekblom_nonneg (o : BlockOpts) (v : ℝ) : 0 ≤ ekblom o v := by
  unfold ekblom; positivity

/-- **C125, blocks.** Whatever the smoothing and the (positive) power, cells beyond half of a width from the
centre along some axis tend to the value of the background. -/
theorem C125_block3_outside (ε p : ℝ) (hp : 0 < p) (c : Cell) (m : Fin 8 → ℝ)
    (hx : 0 < m 3) (hy : 0 < m 5) (hz : 0 < m 7)
    (h : m 3 / 2 < |c.x - m 2| ∨ m 5 / 2 < |c.y - m 4| ∨ m 7 / 2 < |c.z - m 6|) :
    Tendsto (fun s => block3 ⟨s, ε, p⟩ c m) atTop (𝓝 (m 0)) := by
  have e : ∀ s, block3 ⟨s, ε, p⟩ c m = blockVal ⟨s, ε, p⟩ (m 0) (m 1)
      (block3D ⟨0, ε, p⟩ c (m 2) (m 3) (m 4) (m 5) (m 6) (m 7)) := fun s => rfl
  simp only [e]
  apply (blockVal_tendsto ε p _ _ _).2
  simp only [block3D]
  have n1 := ekblom_nonneg ⟨0, ε, p⟩ (rel c.x (m 2) (m 3))
  have n2 := ekblom_nonneg ⟨0, ε, p⟩ (rel c.y (m 4) (m 5))
  have n3 := ekblom_nonneg ⟨0, ε, p⟩ (rel c.z (m 6) (m 7))
  rcases h with h | h | h
  · have := ekblom_outside 0 p _ _ _ ε hp hx h; linarith
  · have := ekblom_outside 0 p _ _ _ ε hp hy h; linarith
  · have := ekblom_outside 0 p _ _ _ ε hp hz h; linarith

theorem ekblom_inside {x x0 dx : ℝ} (h : |x - x0| < dx / 2) :
    Tendsto (fun p => ekblom ⟨0, 0, p⟩ (rel x x0 dx)) atTop (𝓝 0) := by
  have hd : 0 < dx := by have := abs_nonneg (x - x0); linarith
  have h1 : |(x - x0) / (0.5 * dx)| < 1 := by
    rw [abs_div, abs_of_pos (show (0 : ℝ) < 0.5 * dx by positivity), div_lt_one (by positivity)]
    norm_num
    linarith
  have h2 : rel x x0 dx ^ 2 < 1 := by
    rw [← sq_abs, rel]
    have := abs_nonneg ((x - x0) / (0.5 * dx))
    nlinarith
  have h3 : Tendsto (fun p : ℝ => p / 2.0) atTop atTop :=
    tendsto_id.atTop_div_const (by norm_num)
  have h4 := (tendsto_rpow_atTop_of_base_lt_one (rel x x0 dx ^ 2)
    (by have := sq_nonneg (rel x x0 dx); linarith) h2).comp h3
  refine h4.congr (fun p => ?_)
  simp [ekblom]

/-- **C125, blocks.** Without smoothing, cells strictly inside the block along every axis get the value of the
block once the power is large enough: the limit of steep slopes. -/
theorem C125_block3_inside (c : Cell) (m : Fin 8 → ℝ)
    (hx : |c.x - m 2| < m 3 / 2) (hy : |c.y - m 4| < m 5 / 2) (hz : |c.z - m 6| < m 7 / 2) :
    ∃ P : ℝ, ∀ p, P ≤ p → Tendsto (fun s => block3 ⟨s, 0, p⟩ c m) atTop (𝓝 (m 1)) := by
  have hsum := ((ekblom_inside hx).add (ekblom_inside hy)).add (ekblom_inside hz)
  simp only [add_zero] at hsum
  obtain ⟨P, hP⟩ := (hsum.eventually (gt_mem_nhds (show (0 : ℝ) < 1 by norm_num))).exists_forall_of_atTop
  refine ⟨P, fun p hp => ?_⟩
  have e : ∀ s, block3 ⟨s, 0, p⟩ c m = blockVal ⟨s, 0, p⟩ (m 0) (m 1)
      (block3D ⟨0, 0, p⟩ c (m 2) (m 3) (m 4) (m 5) (m 6) (m 7)) := fun s => rfl
  simp only [e]
  apply (blockVal_tendsto 0 p _ _ _).1
  have := hP p hp
  simp only [block3D]
  linarith

/-- **C125, blocks in one dimension.** Cells beyond half of the width tend to the background, cells inside to the
block if the power is large enough. -/
theorem C125_block1 (c : Cell) (m : Fin 4 → ℝ) (hx : 0 < m 3) :
    (∀ ε p : ℝ, 0 < p → m 3 / 2 < |c.x - m 2| → Tendsto (fun s => block1 ⟨s, ε, p⟩ c m) atTop (𝓝 (m 0))) ∧
    (|c.x - m 2| < m 3 / 2 →
      ∃ P : ℝ, ∀ p, P ≤ p → Tendsto (fun s => block1 ⟨s, 0, p⟩ c m) atTop (𝓝 (m 1))) := by
  have e : ∀ ε p s, block1 ⟨s, ε, p⟩ c m = blockVal ⟨s, ε, p⟩ (m 0) (m 1)
      (block1D ⟨0, ε, p⟩ c (m 2) (m 3)) := fun _ _ _ => rfl
  constructor
  · intro ε p hp h
    simp only [e]
    apply (blockVal_tendsto ε p _ _ _).2
    have := ekblom_outside 0 p _ _ _ ε hp hx h
    simp only [block1D]; linarith
  · intro h
    obtain ⟨P, hP⟩ := ((ekblom_inside h).eventually
      (gt_mem_nhds (show (0 : ℝ) < 1 by norm_num))).exists_forall_of_atTop
    refine ⟨P, fun p hp => ?_⟩
    simp only [e]
    apply (blockVal_tendsto 0 p _ _ _).1
    have := hP p hp
    simp only [block1D]; linarith

/-- **C125, blocks in two dimensions.** -/
theorem C125_block2 (c : Cell) (m : Fin 6 → ℝ) (hx : 0 < m 3) (hy : 0 < m 5) :
    (∀ ε p : ℝ, 0 < p → m 3 / 2 < |c.x - m 2| ∨ m 5 / 2 < |c.y - m 4| →
      Tendsto (fun s => block2 ⟨s, ε, p⟩ c m) atTop (𝓝 (m 0))) ∧
    (|c.x - m 2| < m 3 / 2 → |c.y - m 4| < m 5 / 2 →
      ∃ P : ℝ, ∀ p, P ≤ p → Tendsto (fun s => block2 ⟨s, 0, p⟩ c m) atTop (𝓝 (m 1))) := by
  have e : ∀ ε p s, block2 ⟨s, ε, p⟩ c m = blockVal ⟨s, ε, p⟩ (m 0) (m 1)
      (block2D ⟨0, ε, p⟩ c (m 2) (m 3) (m 4) (m 5)) := fun _ _ _ => rfl
  constructor
  · intro ε p hp h
    simp only [e]
    apply (blockVal_tendsto ε p _ _ _).2
    have n1 := ekblom_nonneg ⟨0, ε, p⟩ (rel c.x (m 2) (m 3))
    have n2 := ekblom_nonneg ⟨0, ε, p⟩ (rel c.y (m 4) (m 5))
    simp only [block2D]
    rcases h with h | h
    · have := ekblom_outside 0 p _ _ _ ε hp hx h; linarith
    · have := ekblom_outside 0 p _ _ _ ε hp hy h; linarith
  · intro h1 h2
    have hsum := (ekblom_inside h1).add (ekblom_inside h2)
    simp only [add_zero] at hsum
    obtain ⟨P, hP⟩ := (hsum.eventually (gt_mem_nhds (show (0 : ℝ) < 1 by norm_num))).exists_forall_of_atTop
    refine ⟨P, fun p hp => ?_⟩
    simp only [e]
    apply (blockVal_tendsto 0 p _ _ _).1
    have := hP p hp
    simp only [block2D]; linarith

example : Tendsto (fun s => block2 ⟨s, 0, 10⟩ ⟨5, 0, 0⟩ ![1, 2, 0, 4, 0, 2]) atTop (𝓝 1) :=
  (C125_block2 ⟨5, 0, 0⟩ ![1, 2, 0, 4, 0, 2] (by simp) (by simp)).1 0 10 (by norm_num) (.inl (by simp; norm_num))

/-- **C125, blocks in a layer.** In the limit: the value of the block where layer and block overlap, and
otherwise the layered medium.  The block is confined to the layer. -/
theorem C125_blockInLayer3 (c : Cell) (m : Fin 9 → ℝ) (hh : 0 < m 4) (hdx : 0 < m 7) (hdy : 0 < m 8) :
    (|c.z - m 3| < m 4 / 2 → |c.x - m 5| < m 7 / 2 → |c.y - m 6| < m 8 / 2 →
      Tendsto (fun s => blockInLayer3 s c m) atTop (𝓝 (m 2))) ∧
    (∀ u, InLayered c.z (m 0) (m 1) (m 3) (m 4) u →
      (m 4 / 2 < |c.z - m 3| ∨ m 7 / 2 < |c.x - m 5| ∨ m 8 / 2 < |c.y - m 6|) →
      Tendsto (fun s => blockInLayer3 s c m) atTop (𝓝 u)) := by
  constructor
  · intro hz hx hy
    have hL := layered_tendsto (bg := m 0) (lay := m 1) hh (.inside hz)
    have hB := ((atanLayer_tendsto_one hz).mul (atanLayer_tendsto_one hx)).mul (atanLayer_tendsto_one hy)
    have := hL.add ((hL.const_sub (m 2)).mul hB)
    simpa [blockInLayer3, slab_eq, LDim.vert] using this
  · intro u hu hout
    have hL := layered_tendsto hh hu
    have hm : ∀ z s c h, 0 ≤ atanLayer z s c h ∧ atanLayer z s c h ≤ 1 := fun z s c h =>
      ⟨mul_nonneg (atanfct_mem _ _).1 (atanfct_mem _ _).1,
        mul_le_one₀ (atanfct_mem _ _).2 (atanfct_mem _ _).1 (atanfct_mem _ _).2⟩
    have hB : Tendsto (fun s => atanLayer c.z s (m 3) (m 4) * atanLayer c.x s (m 5) (m 7) *
        atanLayer c.y s (m 6) (m 8)) atTop (𝓝 0) := by
      have two : ∀ z z' c c' h h' s, 0 ≤ atanLayer z s c h * atanLayer z' s c' h' ∧
          atanLayer z s c h * atanLayer z' s c' h' ≤ 1 := fun z z' c c' h h' s =>
        ⟨mul_nonneg (hm _ _ _ _).1 (hm _ _ _ _).1, mul_le_one₀ (hm _ _ _ _).2 (hm _ _ _ _).1 (hm _ _ _ _).2⟩
      rcases hout with h | h | h
      · have := bounded_mul_tendsto_zero (two c.x c.y (m 5) (m 6) (m 7) (m 8)) (atanLayer_tendsto_zero hh h)
        refine this.congr (fun s => ?_); ring
      · have := bounded_mul_tendsto_zero (two c.z c.y (m 3) (m 6) (m 4) (m 8)) (atanLayer_tendsto_zero hdx h)
        refine this.congr (fun s => ?_); ring
      · exact bounded_mul_tendsto_zero (two c.z c.x (m 3) (m 5) (m 4) (m 7)) (atanLayer_tendsto_zero hdy h)
    have := hL.add ((hL.const_sub (m 2)).mul hB)
    simpa [blockInLayer3, slab_eq, LDim.vert] using this

/-- **C125, blocks in a layer, two dimensions.** -/
theorem C125_blockInLayer2 (c : Cell) (m : Fin 7 → ℝ) (hh : 0 < m 4) (hdx : 0 < m 6) :
    (|c.y - m 3| < m 4 / 2 → |c.x - m 5| < m 6 / 2 →
      Tendsto (fun s => blockInLayer2 s c m) atTop (𝓝 (m 2))) ∧
    (∀ u, InLayered c.y (m 0) (m 1) (m 3) (m 4) u →
      (m 4 / 2 < |c.y - m 3| ∨ m 6 / 2 < |c.x - m 5|) →
      Tendsto (fun s => blockInLayer2 s c m) atTop (𝓝 u)) := by
  constructor
  · intro hz hx
    have hL := layered_tendsto (bg := m 0) (lay := m 1) hh (.inside hz)
    have := hL.add ((hL.const_sub (m 2)).mul ((atanLayer_tendsto_one hz).mul (atanLayer_tendsto_one hx)))
    simpa [blockInLayer2, slab_eq, LDim.vert] using this
  · intro u hu hout
    have hL := layered_tendsto hh hu
    have hm : ∀ z s c h, 0 ≤ atanLayer z s c h ∧ atanLayer z s c h ≤ 1 := fun z s c h =>
      ⟨mul_nonneg (atanfct_mem _ _).1 (atanfct_mem _ _).1,
        mul_le_one₀ (atanfct_mem _ _).2 (atanfct_mem _ _).1 (atanfct_mem _ _).2⟩
    have hB : Tendsto (fun s => atanLayer c.y s (m 3) (m 4) * atanLayer c.x s (m 5) (m 6)) atTop (𝓝 0) := by
      rcases hout with h | h
      · have := bounded_mul_tendsto_zero (fun s => hm c.x s (m 5) (m 6)) (atanLayer_tendsto_zero hh h)
        refine this.congr (fun s => ?_); ring
      · exact bounded_mul_tendsto_zero (fun s => hm c.y s (m 3) (m 4)) (atanLayer_tendsto_zero hdx h)
    have := hL.add ((hL.const_sub (m 2)).mul hB)
    simpa [blockInLayer2, slab_eq, LDim.vert] using this

/-- **C125, casings.** In the limit, between bottom and top of the casing: the value of the inside within the
inner radius, that of the casing between inner and outer radius, and the layered medium beyond; above and
below the casing the layered medium. -/
theorem C125_casing (c : Cell) (m : Fin 10 → ℝ) (hh : 0 < m 5) (ht : 0 < m 7) (hl : m 8 < m 9) (u : ℝ)
    (hu : InLayered c.z (m 0) (m 1) (m 4) (m 5) u) :
    (m 8 < c.z → c.z < m 9 → c.x < m 6 - m 7 / 2 → Tendsto (fun s => casing s c m) atTop (𝓝 (m 3))) ∧
    (m 8 < c.z → c.z < m 9 → m 6 - m 7 / 2 < c.x → c.x < m 6 + m 7 / 2 →
      Tendsto (fun s => casing s c m) atTop (𝓝 (m 2))) ∧
    (m 6 + m 7 / 2 < c.x ∨ c.z < m 8 ∨ m 9 < c.z → Tendsto (fun s => casing s c m) atTop (𝓝 u)) := by
  have hL := layered_tendsto hh hu
  have main : ∀ k i, Tendsto (fun s => casingWeight s c (CasingP.ofModel m)) atTop (𝓝 k) →
      Tendsto (fun s => insideCasing s c (CasingP.ofModel m)) atTop (𝓝 i) →
      Tendsto (fun s => casing s c m) atTop (𝓝 (u + (m 2 - u) * k + (m 3 - u) * i)) := by
    intro k i hk hi
    exact (hL.add ((hL.const_sub (m 2)).mul hk)).add ((hL.const_sub (m 3)).mul hi)
  have ha : (CasingP.ofModel m).a = m 6 - m 7 / 2 := by
    simp only [CasingP.a, CasingP.ofModel]; norm_num; ring
  have hb : (CasingP.ofModel m).b = m 6 + m 7 / 2 := by
    simp only [CasingP.b, CasingP.ofModel]; norm_num; ring
  have len1 : m 8 < c.z → c.z < m 9 →
      Tendsto (fun s => casingLength s c (CasingP.ofModel m)) atTop (𝓝 1) := by
    intro h1 h2
    have := (atanfct_neg_tendsto_one (sub_neg.2 h2)).mul (atanfct_tendsto_one (sub_pos.2 h1))
    simpa [casingLength, CasingP.ofModel] using this
  have len0 : c.z < m 8 ∨ m 9 < c.z →
      Tendsto (fun s => casingLength s c (CasingP.ofModel m)) atTop (𝓝 0) := by
    rintro (h | h)
    · exact bounded_mul_tendsto_zero (fun s => atanfct_mem _ _) (atanfct_tendsto_zero (sub_neg.2 h))
    · have := bounded_mul_tendsto_zero (fun s => atanfct_mem (c.z - m 8) s)
        (atanfct_neg_tendsto_zero (sub_pos.2 h))
      refine this.congr (fun s => ?_)
      simp only [casingLength, CasingP.ofModel]; ring
  have lenm : ∀ s, 0 ≤ casingLength s c (CasingP.ofModel m) ∧ casingLength s c (CasingP.ofModel m) ≤ 1 :=
    fun s => ⟨mul_nonneg (atanfct_mem _ _).1 (atanfct_mem _ _).1,
      mul_le_one₀ (atanfct_mem _ _).2 (atanfct_mem _ _).1 (atanfct_mem _ _).2⟩
  refine ⟨fun h1 h2 h3 => ?_, fun h1 h2 h3 h4 => ?_, fun h => ?_⟩
  · have a1 : c.x - (CasingP.ofModel m).a < 0 := by rw [ha]; linarith
    have b1 : c.x - (CasingP.ofModel m).b < 0 := by rw [hb]; linarith
    have hk := ((len1 h1 h2).mul (atanfct_tendsto_zero a1)).mul (atanfct_neg_tendsto_one b1)
    have hi := (len1 h1 h2).mul (atanfct_neg_tendsto_one a1)
    have := main _ _ hk hi
    simpa using this
  · have a1 : 0 < c.x - (CasingP.ofModel m).a := by rw [ha]; linarith
    have b1 : c.x - (CasingP.ofModel m).b < 0 := by rw [hb]; linarith
    have hk := ((len1 h1 h2).mul (atanfct_tendsto_one a1)).mul (atanfct_neg_tendsto_one b1)
    have hi := (len1 h1 h2).mul (atanfct_neg_tendsto_zero a1)
    have := main _ _ hk hi
    simpa using this
  · rcases h with h | h
    · have a1 : 0 < c.x - (CasingP.ofModel m).a := by rw [ha]; linarith
      have b1 : 0 < c.x - (CasingP.ofModel m).b := by rw [hb]; linarith
      have hk := bounded_mul_tendsto_zero
        (f := fun s => casingLength s c (CasingP.ofModel m) * atanfct (c.x - (CasingP.ofModel m).a) s)
        (fun s => ⟨mul_nonneg (lenm s).1 (atanfct_mem _ _).1,
          mul_le_one₀ (lenm s).2 (atanfct_mem _ _).1 (atanfct_mem _ _).2⟩) (atanfct_neg_tendsto_zero b1)
      have hi := bounded_mul_tendsto_zero lenm (atanfct_neg_tendsto_zero a1)
      simpa using main _ _ hk hi
    · have hk := bounded_mul_tendsto_zero
        (f := fun s => atanfct (c.x - (CasingP.ofModel m).a) s * atanfct (c.x - (CasingP.ofModel m).b) (-s))
        (fun s => ⟨mul_nonneg (atanfct_mem _ _).1 (atanfct_mem _ _).1,
          mul_le_one₀ (atanfct_mem _ _).2 (atanfct_mem _ _).1 (atanfct_mem _ _).2⟩) (len0 h)
      have hi := bounded_mul_tendsto_zero (fun s => atanfct_mem (c.x - (CasingP.ofModel m).a) (-s)) (len0 h)
      have hk' : Tendsto (fun s => casingWeight s c (CasingP.ofModel m)) atTop (𝓝 0) :=
        hk.congr (fun s => by simp only [casingWeight]; ring)
      have hi' : Tendsto (fun s => insideCasing s c (CasingP.ofModel m)) atTop (𝓝 0) :=
        hi.congr (fun s => by simp only [insideCasing]; ring)
      simpa using main _ _ hk' hi'

/-- **C125, violated for circles.** `m = [σ₀, σ₁, x₀, y₀, R]` is documented with `σ₀` the background and `σ₁`
the circle.  In the limit cells within the radius get `σ₀` and cells beyond get `σ₁`. -/
theorem C125_violated_circle (c : Cell) (m : Fin 5 → ℝ) :
    (Real.sqrt ((c.x - m 2) ^ 2 + (c.y - m 3) ^ 2) < m 4 →
      Tendsto (fun a => circle false a c m) atTop (𝓝 (m 0))) ∧
    (m 4 < Real.sqrt ((c.x - m 2) ^ 2 + (c.y - m 3) ^ 2) →
      Tendsto (fun a => circle false a c m) atTop (𝓝 (m 1))) := by
  change (radius c (m 2) (m 3) < m 4 → _) ∧ (m 4 < radius c (m 2) (m 3) → _)
  constructor
  · intro h
    have := ((atanfct_tendsto_zero (sub_neg.2 h)).const_mul (m 1 - m 0)).const_add (m 0)
    simpa [circle, sig, atanfct] using this
  · intro h
    have := ((atanfct_tendsto_one (sub_pos.2 h)).const_mul (m 1 - m 0)).const_add (m 0)
    simpa [circle, sig, atanfct] using this

/-- **C125, violated for layers: the formula.** The documented layer is the difference of two steps; the map
multiplies them.  With a slope above zero the two never agree, unless layer and background do. -/
theorem C125_violated_layer_formula (d : LDim) (slope : ℝ) (c : Cell) (m : Fin 4 → ℝ) (h : m 0 ≠ m 1) :
    layer d slope c m ≠ m 0 + (m 1 - m 0) / Real.pi *
      (Real.arctan (slope * (d.vert c - m 2 + m 3 / 2)) - Real.arctan (slope * (d.vert c - m 2 - m 3 / 2))) := by
  have e1 : d.vert c - (m 2 - m 3 / 2.0) = d.vert c - m 2 + m 3 / 2 := by norm_num; ring
  have e2 : d.vert c - (m 2 + m 3 / 2.0) = d.vert c - m 2 - m 3 / 2 := by norm_num; ring
  have hb := atanfct_lt_one (d.vert c - m 2 + m 3 / 2) slope
  have ht := atanfct_pos (d.vert c - m 2 - m 3 / 2) slope
  have hdoc : m 0 + (m 1 - m 0) / Real.pi *
      (Real.arctan (slope * (d.vert c - m 2 + m 3 / 2)) - Real.arctan (slope * (d.vert c - m 2 - m 3 / 2))) =
      m 0 + (m 1 - m 0) * (atanfct (d.vert c - m 2 + m 3 / 2) slope -
        atanfct (d.vert c - m 2 - m 3 / 2) slope) := by
    simp only [atanfct]; ring
  rw [hdoc]
  simp only [layer, layerCont, LayerP.ofModel, atanLayer, e1, e2, atanfct_neg]
  intro hh
  have hk : m 1 - m 0 ≠ 0 := sub_ne_zero.2 (Ne.symm h)
  have := mul_left_cancel₀ hk (add_left_cancel hh)
  nlinarith [mul_pos (sub_pos.2 hb) ht]

/-! ### C126: values between those of the units -/

theorem convex2 {lo hi a b w : ℝ} (hw : 0 < w ∧ w < 1) (ha : lo ≤ a ∧ a ≤ hi) (hb : lo ≤ b ∧ b ≤ hi) :
    lo ≤ a + (b - a) * w ∧ a + (b - a) * w ≤ hi := by
  constructor <;> nlinarith [hw.1, hw.2, ha.1, ha.2, hb.1, hb.2]

theorem atanLayer_mem (z s c h : ℝ) : 0 < atanLayer z s c h ∧ atanLayer z s c h < 1 := by
  have h1 := atanfct_pos (z - (c - h / 2.0)) s
  have h2 := atanfct_lt_one (z - (c - h / 2.0)) s
  have h3 := atanfct_pos (z - (c + h / 2.0)) (-s)
  have h4 := atanfct_lt_one (z - (c + h / 2.0)) (-s)
  exact ⟨mul_pos h1 h3, mul_lt_one_of_nonneg_of_lt_one_left h1.le h2 h4.le⟩

/-- **C126.** Whatever the geometry, the slope and the cell, each map returns a value between those of its
units: in particular positive properties stay positive. -/
theorem C126_layer (d : LDim) (s : ℝ) (c : Cell) (m : Fin 4 → ℝ) (lo hi : ℝ)
    (h0 : lo ≤ m 0 ∧ m 0 ≤ hi) (h1 : lo ≤ m 1 ∧ m 1 ≤ hi) :
    lo ≤ layer d s c m ∧ layer d s c m ≤ hi :=
  convex2 (atanLayer_mem _ _ _ _) h0 h1

/-- **C126, blocks and ellipsoids.** -/
theorem C126_block (o : BlockOpts) (c : Cell) (lo hi : ℝ) :
    (∀ m : Fin 4 → ℝ, (∀ i : Fin 2, lo ≤ m (Fin.castLE (by omega) i) ∧ m (Fin.castLE (by omega) i) ≤ hi) →
      lo ≤ block1 o c m ∧ block1 o c m ≤ hi) ∧
    (∀ m : Fin 6 → ℝ, (∀ i : Fin 2, lo ≤ m (Fin.castLE (by omega) i) ∧ m (Fin.castLE (by omega) i) ≤ hi) →
      lo ≤ block2 o c m ∧ block2 o c m ≤ hi) ∧
    (∀ m : Fin 8 → ℝ, (∀ i : Fin 2, lo ≤ m (Fin.castLE (by omega) i) ∧ m (Fin.castLE (by omega) i) ≤ hi) →
      lo ≤ block3 o c m ∧ block3 o c m ≤ hi) := by
  refine ⟨fun m h => ?_, fun m h => ?_, fun m h => ?_⟩
  · exact convex2 ⟨atanfct_pos _ _, atanfct_lt_one _ _⟩ (h 0) (h 1)
  · exact convex2 ⟨atanfct_pos _ _, atanfct_lt_one _ _⟩ (h 0) (h 1)
  · exact convex2 ⟨atanfct_pos _ _, atanfct_lt_one _ _⟩ (h 0) (h 1)

/-- **C126, blocks in a layer.** -/
theorem C126_blockInLayer (s : ℝ) (c : Cell) (lo hi : ℝ) :
    (∀ m : Fin 7 → ℝ, (∀ i : Fin 3, lo ≤ m (Fin.castLE (by omega) i) ∧ m (Fin.castLE (by omega) i) ≤ hi) →
      lo ≤ blockInLayer2 s c m ∧ blockInLayer2 s c m ≤ hi) ∧
    (∀ m : Fin 9 → ℝ, (∀ i : Fin 3, lo ≤ m (Fin.castLE (by omega) i) ∧ m (Fin.castLE (by omega) i) ≤ hi) →
      lo ≤ blockInLayer3 s c m ∧ blockInLayer3 s c m ≤ hi) := by
  have mulmem : ∀ {a b : ℝ}, 0 < a ∧ a < 1 → 0 < b ∧ b < 1 → 0 < a * b ∧ a * b < 1 :=
    fun ha hb => ⟨mul_pos ha.1 hb.1, mul_lt_one_of_nonneg_of_lt_one_left ha.1.le ha.2 hb.2.le⟩
  refine ⟨fun m h => ?_, fun m h => ?_⟩
  · refine convex2 (mulmem (atanLayer_mem _ _ _ _) ?_) (convex2 (atanLayer_mem _ _ _ _) (h 0) (h 1)) (h 2)
    rw [slab_eq]; exact atanLayer_mem _ _ _ _
  · refine convex2 (mulmem (mulmem (atanLayer_mem _ _ _ _) ?_) ?_)
      (convex2 (atanLayer_mem _ _ _ _) (h 0) (h 1)) (h 2)
    · rw [slab_eq]; exact atanLayer_mem _ _ _ _
    · rw [slab_eq]; exact atanLayer_mem _ _ _ _

/-- **C126, casings.** The weights of casing and inside never exceed one together. -/
theorem C126_casing (s : ℝ) (c : Cell) (m : Fin 10 → ℝ) (lo hi : ℝ)
    (h : ∀ i : Fin 4, lo ≤ m (Fin.castLE (by omega) i) ∧ m (Fin.castLE (by omega) i) ≤ hi) :
    lo ≤ casing s c m ∧ casing s c m ≤ hi := by
  set p := CasingP.ofModel m with hp
  have hL : lo ≤ layerCont c.z s (m 0) (m 1) (m 4) (m 5) ∧ layerCont c.z s (m 0) (m 1) (m 4) (m 5) ≤ hi :=
    convex2 (atanLayer_mem _ _ _ _) (h 0) (h 1)
  have hlen : 0 < casingLength s c p ∧ casingLength s c p < 1 :=
    ⟨mul_pos (atanfct_pos _ _) (atanfct_pos _ _),
      mul_lt_one_of_nonneg_of_lt_one_left (atanfct_pos _ _).le (atanfct_lt_one _ _) (atanfct_lt_one _ _).le⟩
  have hA0 := atanfct_pos (c.x - p.a) s
  have hA1 := atanfct_lt_one (c.x - p.a) s
  have hB0 := atanfct_pos (c.x - p.b) (-s)
  have hB1 := atanfct_lt_one (c.x - p.b) (-s)
  have hC : casingWeight s c p = casingLength s c p * (atanfct (c.x - p.a) s * atanfct (c.x - p.b) (-s)) := by
    simp only [casingWeight]; ring
  have hI : insideCasing s c p = casingLength s c p * (1 - atanfct (c.x - p.a) s) := by
    simp only [insideCasing, atanfct_neg]
  have hC0 : 0 < casingWeight s c p := by rw [hC]; exact mul_pos hlen.1 (mul_pos hA0 hB0)
  have hI0 : 0 < insideCasing s c p := by rw [hI]; exact mul_pos hlen.1 (by linarith)
  have hsum : casingWeight s c p + insideCasing s c p < 1 := by
    rw [hC, hI, ← mul_add]
    have : atanfct (c.x - p.a) s * atanfct (c.x - p.b) (-s) + (1 - atanfct (c.x - p.a) s) < 1 := by
      nlinarith
    have h0 : 0 < atanfct (c.x - p.a) s * atanfct (c.x - p.b) (-s) + (1 - atanfct (c.x - p.a) s) := by
      have := mul_pos hA0 hB0; linarith
    exact mul_lt_one_of_nonneg_of_lt_one_left hlen.1.le hlen.2 this.le
  have e : casing s c m = layerCont c.z s (m 0) (m 1) (m 4) (m 5) +
      (m 2 - layerCont c.z s (m 0) (m 1) (m 4) (m 5)) * casingWeight s c p +
      (m 3 - layerCont c.z s (m 0) (m 1) (m 4) (m 5)) * insideCasing s c p := rfl
  rw [e]
  have h2 := h 2
  have h3 := h 3
  change lo ≤ m 2 ∧ m 2 ≤ hi at h2
  change lo ≤ m 3 ∧ m 3 ≤ hi at h3
  generalize layerCont c.z s (m 0) (m 1) (m 4) (m 5) = L at *
  generalize casingWeight s c p = C at *
  generalize insideCasing s c p = I at *
  constructor
  · nlinarith [mul_nonneg hC0.le (sub_nonneg.2 h2.1), mul_nonneg hI0.le (sub_nonneg.2 h3.1),
      mul_nonneg (sub_nonneg.2 hsum.le) (sub_nonneg.2 hL.1)]
  · nlinarith [mul_nonneg hC0.le (sub_nonneg.2 h2.2), mul_nonneg hI0.le (sub_nonneg.2 h3.2),
      mul_nonneg (sub_nonneg.2 hsum.le) (sub_nonneg.2 hL.2)]

/-- **C126, circles.** Between the two values, exponentiated with `logSigma`. -/
theorem C126_circle (b : Bool) (a : ℝ) (c : Cell) (m : Fin 5 → ℝ) (lo hi : ℝ)
    (h0 : lo ≤ sig b (m 0) ∧ sig b (m 0) ≤ hi) (h1 : lo ≤ sig b (m 1) ∧ sig b (m 1) ≤ hi) :
    lo ≤ circle b a c m ∧ circle b a c m ≤ hi :=
  convex2 ⟨atanfct_pos (radius c (m 2) (m 3) - m 4) a, atanfct_lt_one (radius c (m 2) (m 3) - m 4) a⟩ h0 h1

/-! ### The hypotheses can be met -/

/-- A casing of radius 5 and thickness 1 from -10 to 0 in a layer centred at -5 of thickness 4. -/
noncomputable def exCasing : Fin 10 → ℝ := ![1, 2, 1000, 3, -5, 4, 5, 1, -10, 0]

example : (0 : ℝ) < exCasing 5 ∧ 0 < exCasing 7 ∧ exCasing 8 < exCasing 9 ∧
    InLayered (-6) (exCasing 0) (exCasing 1) (exCasing 4) (exCasing 5) 2 := by
  have h1 : exCasing 1 = 2 := rfl
  have h4 : exCasing 4 = -5 := rfl
  have h5 : exCasing 5 = 4 := rfl
  have h7 : exCasing 7 = 1 := rfl
  have h8 : exCasing 8 = -10 := rfl
  have h9 : exCasing 9 = 0 := rfl
  rw [h1, h4, h5, h7, h8, h9]
  exact ⟨by norm_num, by norm_num, by norm_num, .inside (by norm_num)⟩

/-- The default block: power ten, smoothing 1e-6. -/
example (x x0 : ℝ) : Smooth ⟨1, 1e-6, 10⟩ x x0 := Or.inr (Or.inr (by norm_num))

example : radius ⟨1, 1, 0⟩ 1 1 < (2 : ℝ) := by simp [radius]

end Verif.Maps.Parametric.Props
