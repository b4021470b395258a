import Verif.EM.LineCurrent
import Mathlib.Algebra.BigOperators.Fin

/-!
Line currents on the edges of a tree mesh: `_poly_line_source_tree`
(`simpeg/electromagnetics/utils/current_utils.py` 267-365).

The mesh is a library object.  What is used of it: the cells crossed by a segment, in order
(`get_cells_along_line`), the corner, the widths and the twelve edges of a cell, and the matrix `_deflate_edges`
which expresses all edges by those that are not hanging.
-/

namespace Verif.EM.Line

/-- A cell: `cell.x0`, `cell.h` and `cell.edges`, four for each axis.  `E` are the edges of all axes. -/
structure TCell (E : Type) where
  x0 : Pt
  h : Pt
  ex : Fin 4 → E
  ey : Fin 4 → E
  ez : Fin 4 → E

/-- `xF` -/
def TCell.xF {E : Type} (c : TCell E) : Pt := ⟨c.x0.x + c.h.x, c.x0.y + c.h.y, c.x0.z + c.h.z⟩

/-- `ts[i]`: `none` for infinity.  current_utils.py:342-347 -/
noncomputable def exitAxis (ds A x0 xF : ℝ) : Option ℝ :=
  if ds > 0 then some ((xF - A) / ds) else if ds < 0 then some ((x0 - A) / ds) else none

/-- `min` with a value that may be infinite -/
noncomputable def minOpt : Option ℝ → ℝ → ℝ
  | none, r => r
  | some t, r => min t r

/-- `t = min(*ts, 1)`.  current_utils.py:348 -/
noncomputable def exitT {E : Type} (A B : Pt) (c : TCell E) : ℝ :=
  minOpt (exitAxis (B.x - A.x) A.x c.x0.x c.xF.x) (minOpt (exitAxis (B.y - A.y) A.y c.x0.y c.xF.y)
    (minOpt (exitAxis (B.z - A.z) A.z c.x0.z c.xF.z) 1))

/-- `sx[edges_x] += cell_s[0]` and the same for the other axes: what edge `e` receives.  The edges of a cell are
distinct.  current_utils.py:356-358 -/
noncomputable def cellAdd {E : Type} [DecidableEq E] (c : TCell E)
    (w : (Fin 4 → ℝ) × (Fin 4 → ℝ) × (Fin 4 → ℝ)) (s : E → ℝ) : E → ℝ := fun e =>
  s e + ((∑ i, if c.ex i = e then w.1 i else 0) + (∑ i, if c.ey i = e then w.2.1 i else 0) +
    (∑ i, if c.ez i = e then w.2.2 i else 0))

/-- The loop over the cells of a segment, from `p0`.  current_utils.py:325-360 -/
noncomputable def cellLoop {E : Type} [DecidableEq E] (A B : Pt) : List (TCell E) → Pt → (E → ℝ) → E → ℝ
  | [], _, s => s
  | c :: cs, p0, s =>
    let p1 := at' A B (exitT A B c)
    let cA : Pt := ⟨p0.x - c.x0.x, p0.y - c.x0.y, p0.z - c.x0.z⟩
    let cB : Pt := ⟨p1.x - c.x0.x, p1.y - c.x0.y, p1.z - c.x0.z⟩
    cellLoop A B cs p1 (cellAdd c (straight c.h cA cB) s)

/-- The loop over the segments.  current_utils.py:308-360 -/
noncomputable def treeLoop {E : Type} [DecidableEq E] (along : Pt → Pt → List (TCell E)) :
    List Pt → (E → ℝ) → E → ℝ
  | A :: B :: ps, s => treeLoop along (B :: ps) (cellLoop A B (along A B) A s)
  | _, s => s

/-- The corners of the mesh. -/
structure Box where
  lo : Pt
  hi : Pt

/-- `np.any(A < x0) or np.any(A > xF)`.  current_utils.py:304 -/
def Box.outside (b : Box) (p : Pt) : Prop :=
  (p.x < b.lo.x ∨ p.y < b.lo.y ∨ p.z < b.lo.z) ∨ (b.hi.x < p.x ∨ b.hi.y < p.y ∨ b.hi.z < p.z)

/-- `_poly_line_source_tree`; `R e e'` are the entries of `_deflate_edges`.  Every turn of the check looks at the
first vertex; formatting its message with `{.1f}` raises an `AttributeError` before the `ValueError`.
current_utils.py:267-365 -/
noncomputable def tree {E E' : Type} [DecidableEq E] [Fintype E] (box : Box) (along : Pt → Pt → List (TCell E))
    (R : E → E' → ℝ) (points : List Pt) : Except Err (E' → ℝ) := by
  classical
  exact match points with
    | [] => .ok fun e' => ∑ e, R e e' * 0
    | A :: ps =>
      if box.outside A then .error .attributeError
      else .ok fun e' => ∑ e, R e e' * treeLoop along (A :: ps) (fun _ => 0) e

end Verif.EM.Line

namespace Verif.EM.Line.Props
open Verif Verif.EM.Line

/-! ### Specification -/

/-- The corner of a cell. -/
def corner {E : Type} (c : TCell E) (i j k : Bool) : Pt :=
  ⟨if i then c.xF.x else c.x0.x, if j then c.xF.y else c.x0.y, if k then c.xF.z else c.x0.z⟩

/-- A point in a closed cell. -/
def InT {E : Type} (c : TCell E) (p : Pt) : Prop :=
  (c.x0.x ≤ p.x ∧ p.x ≤ c.xF.x) ∧ (c.x0.y ≤ p.y ∧ p.y ≤ c.xF.y) ∧ (c.x0.z ≤ p.z ∧ p.z ≤ c.xF.z)

/-- Trilinear interpolation of corner values. -/
noncomputable def tri {E : Type} (c : TCell E) (φ : Pt → ℝ) (p : Pt) : ℝ :=
  let u := (p.x - c.x0.x) / c.h.x
  let v := (p.y - c.x0.y) / c.h.y
  let w := (p.z - c.x0.z) / c.h.z
  (1 - u) * (1 - v) * (1 - w) * φ (corner c false false false) + u * (1 - v) * (1 - w) * φ (corner c true false false) +
  (1 - u) * v * (1 - w) * φ (corner c false true false) + u * v * (1 - w) * φ (corner c true true false) +
  (1 - u) * (1 - v) * w * φ (corner c false false true) + u * (1 - v) * w * φ (corner c true false true) +
  (1 - u) * v * w * φ (corner c false true true) + u * v * w * φ (corner c true true true)

/-- A potential `φ` of the mesh: trilinear in every cell, and `g` are its differences along the edges which are not
hanging, such that expressing all edges by these gives the differences along all edges of the cells.  Any nodal
function of a conforming mesh with its nodal gradient is one. -/
structure Potential {E E' : Type} [Fintype E'] (cells : TCell E → Prop) (R : E → E' → ℝ) (φ : Pt → ℝ) (g : E' → ℝ) : Prop where
  trilinear : ∀ c, cells c → ∀ p, InT c p → φ p = tri c φ p
  gx : ∀ c, cells c → ∀ i : Fin 4, ∑ e', R (c.ex i) e' * g e' =
    (φ (corner c true (i.val % 2 == 1) (i.val / 2 == 1)) - φ (corner c false (i.val % 2 == 1) (i.val / 2 == 1))) / c.h.x
  gy : ∀ c, cells c → ∀ i : Fin 4, ∑ e', R (c.ey i) e' * g e' =
    (φ (corner c (i.val % 2 == 1) true (i.val / 2 == 1)) - φ (corner c (i.val % 2 == 1) false (i.val / 2 == 1))) / c.h.y
  gz : ∀ c, cells c → ∀ i : Fin 4, ∑ e', R (c.ez i) e' * g e' =
    (φ (corner c (i.val % 2 == 1) (i.val / 2 == 1) true) - φ (corner c (i.val % 2 == 1) (i.val / 2 == 1) false)) / c.h.z

/-- The cells along a segment: the first contains where it begins, each contains where the one before was left,
the last contains where it ends. -/
def Along {E : Type} (cells : TCell E → Prop) (A B : Pt) : ℝ → List (TCell E) → Prop
  | t0, [] => t0 = 1
  | t0, c :: cs => cells c ∧ InT c (at' A B t0) ∧ Along cells A B (exitT A B c) cs

/-- Widths are positive. -/
def Pos {E : Type} (c : TCell E) : Prop := 0 < c.h.x ∧ 0 < c.h.y ∧ 0 < c.h.z

/-! ### Proofs -/

theorem exitAxis_le {ds A x0 xF t0 : ℝ} (h0 : x0 ≤ A + t0 * ds) (h1 : A + t0 * ds ≤ xF) :
    ∀ t, exitAxis ds A x0 xF = some t → t0 ≤ t := by
  intro t ht
  unfold exitAxis at ht
  split_ifs at ht with h2 h3
  · cases ht; rw [le_div_iff₀ h2]; linarith
  · cases ht; rw [le_div_iff_of_neg h3]; linarith

theorem exitAxis_in {ds A x0 xF t0 t : ℝ} (h0 : x0 ≤ A + t0 * ds) (h1 : A + t0 * ds ≤ xF) (ht : t0 ≤ t)
    (hle : ∀ u, exitAxis ds A x0 xF = some u → t ≤ u) : x0 ≤ A + t * ds ∧ A + t * ds ≤ xF := by
  unfold exitAxis at hle
  by_cases h2 : ds > 0
  · rw [if_pos h2] at hle
    have := hle _ rfl
    rw [le_div_iff₀ h2] at this
    constructor <;> nlinarith
  · rw [if_neg h2] at hle
    by_cases h3 : ds < 0
    · rw [if_pos h3] at hle
      have := hle _ rfl
      rw [le_div_iff_of_neg h3] at this
      constructor <;> nlinarith
    · have : ds = 0 := le_antisymm (not_lt.1 h2) (not_lt.1 h3)
      subst this
      simp only [mul_zero, add_zero] at h0 h1 ⊢
      exact ⟨h0, h1⟩

theorem minOpt_le (o : Option ℝ) (r : ℝ) : minOpt o r ≤ r := by
  cases o with
  | none => exact le_rfl
  | some t => exact min_le_right _ _

theorem minOpt_le_some {o : Option ℝ} {r : ℝ} : ∀ u, o = some u → minOpt o r ≤ u := by
  rintro u rfl; exact min_le_left _ _

theorem le_minOpt {o : Option ℝ} {r t : ℝ} (h1 : ∀ u, o = some u → t ≤ u) (h2 : t ≤ r) : t ≤ minOpt o r := by
  cases o with
  | none => exact h2
  | some u => exact le_min (h1 u rfl) h2

/-- Where a cell is left is a point of the cell. -/
theorem exit_in {E : Type} {A B : Pt} {c : TCell E} {t0 : ℝ} (h0 : InT c (at' A B t0)) (h1 : t0 ≤ 1) :
    t0 ≤ exitT A B c ∧ exitT A B c ≤ 1 ∧ InT c (at' A B (exitT A B c)) := by
  have hx := exitAxis_le h0.1.1 h0.1.2
  have hy := exitAxis_le h0.2.1.1 h0.2.1.2
  have hz := exitAxis_le h0.2.2.1 h0.2.2.2
  have ht : t0 ≤ exitT A B c := le_minOpt hx (le_minOpt hy (le_minOpt hz h1))
  refine ⟨ht, (minOpt_le _ _).trans ((minOpt_le _ _).trans (minOpt_le _ _)), ?_, ?_, ?_⟩
  · exact exitAxis_in h0.1.1 h0.1.2 ht minOpt_le_some
  · exact exitAxis_in h0.2.1.1 h0.2.1.2 ht fun u hu => (minOpt_le _ _).trans (minOpt_le_some u hu)
  · exact exitAxis_in h0.2.2.1 h0.2.2.2 ht fun u hu =>
      (minOpt_le _ _).trans ((minOpt_le _ _).trans (minOpt_le_some u hu))

/-- Pairing of what a cell adds with the differences of a potential. -/
theorem cell_pair {E E' : Type} [DecidableEq E] [Fintype E] [Fintype E'] {cells : TCell E → Prop} {R : E → E' → ℝ}
    {φ : Pt → ℝ} {g : E' → ℝ} (hφ : Potential cells R φ g) {c : TCell E} (hc : cells c) (hp : Pos c) {p q : Pt}
    (hpc : InT c p) (hqc : InT c q) (s : E → ℝ) :
    ∑ e, (∑ e', R e e' * g e') * cellAdd c (straight c.h ⟨p.x - c.x0.x, p.y - c.x0.y, p.z - c.x0.z⟩
      ⟨q.x - c.x0.x, q.y - c.x0.y, q.z - c.x0.z⟩) s e = ∑ e, (∑ e', R e e' * g e') * s e + (φ q - φ p) := by
  have pair : ∀ (f : Fin 4 → E) (w : Fin 4 → ℝ), ∑ e, (∑ e', R e e' * g e') * ∑ i, (if f i = e then w i else 0) =
      ∑ i, (∑ e', R (f i) e' * g e') * w i := by
    intro f w
    simp only [Finset.mul_sum]
    rw [Finset.sum_comm]
    refine Finset.sum_congr rfl fun i _ => ?_
    rw [Finset.sum_eq_single (f i)]
    · simp
    · intro b _ hb; rw [if_neg (fun h => hb h.symm), mul_zero]
    · simp
  unfold cellAdd
  simp only [mul_add, Finset.sum_add_distrib]
  rw [pair, pair, pair]
  congr 1
  simp only [Fin.sum_univ_four, hφ.gx c hc, hφ.gy c hc, hφ.gz c hc]
  rw [hφ.trilinear c hc p hpc, hφ.trilinear c hc q hqc]
  obtain ⟨h1, h2, h3⟩ := hp
  have e00 : (0 : Fin 4).val % 2 = 0 ∧ (0 : Fin 4).val / 2 = 0 := by decide
  have e01 : (1 : Fin 4).val % 2 = 1 ∧ (1 : Fin 4).val / 2 = 0 := by decide
  have e10 : (2 : Fin 4).val % 2 = 0 ∧ (2 : Fin 4).val / 2 = 1 := by decide
  have e11 : (3 : Fin 4).val % 2 = 1 ∧ (3 : Fin 4).val / 2 = 1 := by decide
  simp only [e00, e01, e10, e11]
  have hu : ∀ (h y : ℝ), 0 < h → ∃ u, y = h * u := fun h y hh => ⟨y / h, by field_simp⟩
  obtain ⟨u1, hu1⟩ := hu _ (p.x - c.x0.x) h1
  obtain ⟨u2, hu2⟩ := hu _ (p.y - c.x0.y) h2
  obtain ⟨u3, hu3⟩ := hu _ (p.z - c.x0.z) h3
  obtain ⟨v1, hv1⟩ := hu _ (q.x - c.x0.x) h1
  obtain ⟨v2, hv2⟩ := hu _ (q.y - c.x0.y) h2
  obtain ⟨v3, hv3⟩ := hu _ (q.z - c.x0.z) h3
  have hq : ∀ (h u v t : ℝ), 0 < h → (h * u + t * (h * v - h * u)) / h = u + t * (v - u) := by
    intro h u v t hh; field_simp
  have hm : ∀ (h u : ℝ), 0 < h → h * u / h = u := fun h u hh => by field_simp
  have hd : ∀ (h u v f g w : ℝ), 0 < h → (f - g) / h * (w * (h * v - h * u)) = (f - g) * w * (v - u) := by
    intro h u v f g w hh; field_simp
  simp only [tri, straight, hu1, hu2, hu3, hv1, hv2, hv3, hd _ _ _ _ _ _ h1, hd _ _ _ _ _ _ h2, hd _ _ _ _ _ _ h3]
  simp only [simpsons, edgeBasis, hq _ _ _ _ h1, hq _ _ _ _ h2, hq _ _ _ _ h3, hm _ _ h1, hm _ _ h2, hm _ _ h3]
  simp only [beq_self_eq_true, show ((0:ℕ) == 1) = false from rfl, show (0.0:ℝ) = 0 by norm_num,
    show (0.5:ℝ) = 1/2 by norm_num, show (1.0:ℝ) = 1 by norm_num, show (4.0:ℝ) = 4 by norm_num, show (6.0:ℝ) = 6 by norm_num,
    Matrix.cons_val]
  generalize φ (corner c false false false) = f000
  generalize φ (corner c true false false) = f100
  generalize φ (corner c false true false) = f010
  generalize φ (corner c true true false) = f110
  generalize φ (corner c false false true) = f001
  generalize φ (corner c true false true) = f101
  generalize φ (corner c false true true) = f011
  generalize φ (corner c true true true) = f111
  ring

theorem cells_pair {E E' : Type} [DecidableEq E] [Fintype E] [Fintype E'] {cells : TCell E → Prop} {R : E → E' → ℝ}
    {φ : Pt → ℝ} {g : E' → ℝ} (hφ : Potential cells R φ g) (hpos : ∀ c, cells c → Pos c) (A B : Pt) :
    ∀ (cs : List (TCell E)) (t0 : ℝ) (s : E → ℝ), t0 ≤ 1 → Along cells A B t0 cs →
      ∑ e, (∑ e', R e e' * g e') * cellLoop A B cs (at' A B t0) s e =
        ∑ e, (∑ e', R e e' * g e') * s e + (φ B - φ (at' A B t0))
  | [], t0, s, _, h => by
    obtain rfl : t0 = 1 := h
    have : at' A B 1 = B := by simp [at']
    simp [cellLoop, this]
  | c :: cs, t0, s, h1, h => by
    obtain ⟨hc, hin, hrest⟩ := h
    obtain ⟨-, e1, ein⟩ := exit_in hin h1
    rw [cellLoop, cells_pair hφ hpos A B cs _ _ e1 hrest, cell_pair hφ hc (hpos c hc) hin ein]
    ring

theorem tree_pair {E E' : Type} [DecidableEq E] [Fintype E] [Fintype E'] {cells : TCell E → Prop} {R : E → E' → ℝ}
    {φ : Pt → ℝ} {g : E' → ℝ} (hφ : Potential cells R φ g) (hpos : ∀ c, cells c → Pos c)
    (along : Pt → Pt → List (TCell E)) :
    ∀ (A : Pt) (ps : List Pt) (s : E → ℝ), (A :: ps).IsChain (fun a b => Along cells a b 0 (along a b)) →
      ∑ e, (∑ e', R e e' * g e') * treeLoop along (A :: ps) s e =
        ∑ e, (∑ e', R e e' * g e') * s e + (φ ((A :: ps).getLast (List.cons_ne_nil A ps)) - φ A)
  | A, [], s, _ => by simp [treeLoop]
  | A, B :: ps, s, h => by
    rw [List.isChain_cons_cons] at h
    have h0 : at' A B 0 = A := by simp [at']
    have := cells_pair hφ hpos A B (along A B) 0 s zero_le_one h.1
    rw [h0] at this
    rw [treeLoop, tree_pair hφ hpos along B ps _ h.2, this, List.getLast_cons (List.cons_ne_nil B ps)]
    ring

/-- **C128, tree meshes.** A wire which begins in the mesh and whose segments are followed by the cells the mesh
returns is accepted, and the source term paired with the gradient of any potential of the mesh is the difference of the
potential between the end and the beginning of the wire, however the cells are refined on the way. -/
theorem C128_tree {E E' : Type} [DecidableEq E] [Fintype E] [Fintype E'] {cells : TCell E → Prop} {R : E → E' → ℝ}
    {φ : Pt → ℝ} {g : E' → ℝ} (hφ : Potential cells R φ g) (hpos : ∀ c, cells c → Pos c)
    (along : Pt → Pt → List (TCell E)) (box : Box) (A : Pt) (ps : List Pt) (hA : ¬ box.outside A)
    (h : (A :: ps).IsChain (fun a b => Along cells a b 0 (along a b))) :
    ∃ s, tree box along R (A :: ps) = .ok s ∧
      ∑ e', g e' * s e' = φ ((A :: ps).getLast (List.cons_ne_nil A ps)) - φ A := by
  refine ⟨_, by simp only [tree]; rw [if_neg hA], ?_⟩
  have := tree_pair hφ hpos along A ps (fun _ => 0) h
  simp only [mul_zero, Finset.sum_const_zero, zero_add] at this
  rw [← this]
  simp only [Finset.mul_sum, Finset.sum_mul]
  rw [Finset.sum_comm]
  exact Finset.sum_congr rfl fun e _ => Finset.sum_congr rfl fun e' _ => by ring

/-- **C128, violated.** Only the first vertex of a wire is checked on a tree mesh, so that a wire may leave the mesh,
and when that vertex is outside what is raised is the `AttributeError` of its message. -/
theorem C128_violated_tree_check {E E' : Type} [DecidableEq E] [Fintype E] (R : E → E' → ℝ)
    (along : Pt → Pt → List (TCell E)) (box : Box) (A : Pt) (ps : List Pt) :
    (¬ box.outside A → ∃ s, tree box along R (A :: ps) = .ok s) ∧
    (box.outside A → tree box along R (A :: ps) = .error .attributeError) := by
  constructor
  · intro hA; exact ⟨_, by simp only [tree]; rw [if_neg hA]⟩
  · intro hA; simp only [tree]; rw [if_pos hA]

/-! ### A mesh which meets the hypotheses: two unit cells along `x` -/

def twoCell (k : Fin 2) : TCell (Fin 20) where
  x0 := ⟨k.val, 0, 0⟩
  h := ⟨1, 1, 1⟩
  ex i := ⟨k.val * 4 + i.val, by omega⟩
  ey i := ⟨8 + (k.val + i.val % 2) * 2 + i.val / 2, by omega⟩
  ez i := ⟨14 + (k.val + i.val % 2) * 2 + i.val / 2, by omega⟩

def twoPhi (p : Pt) : ℝ := 2 * p.x + 3 * p.y + p.z

def twoG (e : Fin 20) : ℝ := if e.val < 8 then 2 else if e.val < 14 then 3 else 1

theorem two_sum (e : Fin 20) : ∑ e', (if e = e' then (1:ℝ) else 0) * twoG e' = twoG e := by
  simp only [ite_mul, one_mul, zero_mul, Finset.sum_ite_eq, Finset.mem_univ, if_true]

theorem two_potential : Potential (fun c => c = twoCell 0 ∨ c = twoCell 1) (fun e e' => if e = e' then 1 else 0)
    twoPhi twoG where
  trilinear := by
    rintro c (rfl | rfl) p - <;> simp [tri, twoPhi, corner, TCell.xF, twoCell] <;> ring
  gx := by
    rintro c (rfl | rfl) i <;> rw [two_sum] <;> fin_cases i <;> simp [twoPhi, corner, TCell.xF, twoCell, twoG] <;> ring
  gy := by
    rintro c (rfl | rfl) i <;> rw [two_sum] <;> fin_cases i <;> simp [twoPhi, corner, TCell.xF, twoCell, twoG]
  gz := by
    rintro c (rfl | rfl) i <;> rw [two_sum] <;> fin_cases i <;> simp [twoPhi, corner, TCell.xF, twoCell, twoG]

noncomputable def twoAlong (a _ : Pt) : List (TCell (Fin 20)) := by
  classical exact if a.x < 1 then [twoCell 0, twoCell 1] else [twoCell 1]

theorem exit0 : exitT ⟨1/2, 1/2, 1/2⟩ ⟨3/2, 1/2, 1/2⟩ (twoCell 0) = 1/2 := by
  norm_num [exitT, exitAxis, minOpt, twoCell, TCell.xF]

theorem exit1 : exitT ⟨1/2, 1/2, 1/2⟩ ⟨3/2, 1/2, 1/2⟩ (twoCell 1) = 1 := by
  norm_num [exitT, exitAxis, minOpt, twoCell, TCell.xF]

theorem exit2 : exitT ⟨3/2, 1/2, 1/2⟩ ⟨3/2, 1/4, 1/2⟩ (twoCell 1) = 1 := by
  norm_num [exitT, exitAxis, minOpt, twoCell, TCell.xF]

example : ∃ s, tree ⟨⟨0, 0, 0⟩, ⟨2, 1, 1⟩⟩ twoAlong (fun e e' => if e = e' then 1 else 0)
    [⟨1/2, 1/2, 1/2⟩, ⟨3/2, 1/2, 1/2⟩, ⟨3/2, 1/4, 1/2⟩] = .ok s ∧ ∑ e', twoG e' * s e' = 5 / 4 := by
  obtain ⟨s, hs, h⟩ := C128_tree two_potential
    (by rintro c (rfl | rfl) <;> simp [Pos, twoCell]) twoAlong ⟨⟨0, 0, 0⟩, ⟨2, 1, 1⟩⟩ ⟨1/2, 1/2, 1/2⟩
    [⟨3/2, 1/2, 1/2⟩, ⟨3/2, 1/4, 1/2⟩] (by norm_num [Box.outside]) (by
      rw [List.isChain_cons_cons, List.isChain_cons_cons]
      refine ⟨?_, ?_, List.isChain_singleton _⟩
      · have : twoAlong ⟨1/2, 1/2, 1/2⟩ ⟨3/2, 1/2, 1/2⟩ = [twoCell 0, twoCell 1] := by
          unfold twoAlong; rw [if_pos (by norm_num)]
        rw [this]
        refine ⟨.inl rfl, ?_, .inr rfl, ?_, ?_⟩
        · norm_num [InT, at', twoCell, TCell.xF]
        · rw [exit0]; norm_num [InT, at', twoCell, TCell.xF]
        · exact exit1
      · have : twoAlong ⟨3/2, 1/2, 1/2⟩ ⟨3/2, 1/4, 1/2⟩ = [twoCell 1] := by
          unfold twoAlong; rw [if_neg (by norm_num)]
        rw [this]
        refine ⟨.inr rfl, ?_, ?_⟩
        · norm_num [InT, at', twoCell, TCell.xF]
        · exact exit2)
  refine ⟨s, hs, h.trans ?_⟩
  norm_num [twoPhi]

end Verif.EM.Line.Props
