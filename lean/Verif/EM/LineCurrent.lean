import Verif.Basic
import Mathlib.Data.Finset.Sort
import Mathlib.Analysis.SpecialFunctions.Integrals.Basic
import Mathlib.MeasureTheory.Integral.IntervalIntegral.Basic
import Mathlib.Tactic.Ring
import Mathlib.Tactic.FieldSimp
import Mathlib.Tactic.Linarith
import Mathlib.Tactic.NormNum

/-!
Line currents on the edges of a tensor mesh (`simpeg/electromagnetics/utils/current_utils.py` 7-264).

Numbers are real.  `eps` is the machine precision, a parameter.  A wire is a list of vertices.
-/

namespace Verif.EM.Line

/-- A row of `locs`. -/
structure Pt where
  x : ℝ
  y : ℝ
  z : ℝ

/-- `edge_basis_function`.  current_utils.py:7-38 -/
noncomputable def edgeBasis (t a1 l1 h1 a2 l2 h2 : ℝ) : Fin 4 → ℝ :=
  let x1 := a1 + t * l1
  let x2 := a2 + t * l2
  let w0 := (1.0 - x1 / h1) * (1.0 - x2 / h2)
  let w1 := (x1 / h1) * (1.0 - x2 / h2)
  let w2 := (1.0 - x1 / h1) * (x2 / h2)
  let w3 := (x1 / h1) * (x2 / h2)
  ![w0, w1, w2, w3]

/-- `_simpsons_rule`.  current_utils.py:41-46 -/
noncomputable def simpsons (a1 l1 h1 a2 l2 h2 : ℝ) : Fin 4 → ℝ :=
  let wl := edgeBasis 0.0 a1 l1 h1 a2 l2 h2
  let wc := edgeBasis 0.5 a1 l1 h1 a2 l2 h2
  let wr := edgeBasis 1.0 a1 l1 h1 a2 l2 h2
  fun i => (wl i + 4.0 * wc i + wr i) / 6.0

/-- `getStraightLineCurrentIntegral`: the weights of the four edges along each axis.
current_utils.py:50-99 -/
noncomputable def straight (h a b : Pt) : (Fin 4 → ℝ) × (Fin 4 → ℝ) × (Fin 4 → ℝ) :=
  let lx := b.x - a.x
  let ly := b.y - a.y
  let lz := b.z - a.z
  (fun i => simpsons a.y ly h.y a.z lz h.z i * lx,
   fun i => simpsons a.x lx h.x a.z lz h.z i * ly,
   fun i => simpsons a.x lx h.x a.y ly h.y i * lz)

/-- One axis of a tensor mesh: `n` cells, nodes `0, ..., n`. -/
structure Grid where
  n : ℕ
  node : ℕ → ℝ

/-- `h` of a tensor mesh. -/
def Grid.h (g : Grid) (i : ℕ) : ℝ := g.node (i + 1) - g.node i

/-- A tensor mesh with three axes. -/
structure Mesh where
  x : Grid
  y : Grid
  z : Grid

/-- `_findlast(np.logical_and(c >= x[: nx - 1], c <= x[1:nx]))`: `none` for `-1`.
current_utils.py:102-116, 186-188, 241-243 -/
noncomputable def Grid.findLast (g : Grid) (c : ℝ) : Option ℕ := by
  classical
  exact ((List.range (g.n - 1)).filter fun i => decide (g.node i ≤ c ∧ c ≤ g.node (i + 1))).getLast?

/-- `tx`: where the segment from `a` with direction `d` crosses the planes of an axis.
current_utils.py:212-228 -/
noncomputable def Grid.cross (g : Grid) (tol a d : ℝ) : Finset ℝ := by
  classical
  exact if |d| > tol then
    (((List.range (g.n + 1)).map fun i => (g.node i - a) / d).filter fun t => decide (t ≥ 0 ∧ t ≤ 1)).toFinset
  else ∅

/-- `d`, the length of a segment.  current_utils.py:208 -/
noncomputable def len (a b : Pt) : ℝ := Real.sqrt ((b.x - a.x) ^ 2 + (b.y - a.y) ^ 2 + (b.z - a.z) ^ 2)

/-- `t = np.unique(np.r_[0.0, tx, ty, tz, 1.0])`: sorted, without repetitions.
current_utils.py:204-230 -/
noncomputable def params (M : Mesh) (eps : ℝ) (a b : Pt) : List ℝ := by
  classical
  exact
    let tol := len a b * eps
    let tx := M.x.cross tol a.x (b.x - a.x)
    let ty := M.y.cross tol a.y (b.y - a.y)
    let tz := M.z.cross tol a.z (b.z - a.z)
    ({0.0} ∪ tx ∪ ty ∪ tz ∪ {1.0} : Finset ℝ).sort (· ≤ ·)

/-- `sx`, `sy`, `sz`: the entry of the edge which starts at node `(i, j, k)`. -/
structure Edges where
  x : ℕ → ℕ → ℕ → ℝ
  y : ℕ → ℕ → ℕ → ℝ
  z : ℕ → ℕ → ℕ → ℝ

/-- `np.zeros` -/
def Edges.zero : Edges := ⟨fun _ _ _ => 0, fun _ _ _ => 0, fun _ _ _ => 0⟩

/-- `np.reshape(w, (2, 2), order="F")` added at rows `p, p + 1` and columns `q, q + 1`: what entry `(j, k)`
receives. -/
noncomputable def patch (w : Fin 4 → ℝ) (p q j k : ℕ) : ℝ :=
  if j = p ∧ k = q then w 0
  else if j = p + 1 ∧ k = q then w 1
  else if j = p ∧ k = q + 1 then w 2
  else if j = p + 1 ∧ k = q + 1 then w 3
  else 0

/-- The three additions at cell `(ix, iy, iz)`.  current_utils.py:260-262 -/
noncomputable def Edges.add (s : Edges) (ix iy iz : ℕ) (w : (Fin 4 → ℝ) × (Fin 4 → ℝ) × (Fin 4 → ℝ)) : Edges where
  x i j k := s.x i j k + if i = ix then patch w.1 iy iz j k else 0
  y i j k := s.y i j k + if j = iy then patch w.2.1 ix iz i k else 0
  z i j k := s.z i j k + if k = iz then patch w.2.2 ix iy i j else 0

/-- The point of the segment at `t`. -/
def at' (a b : Pt) (t : ℝ) : Pt :=
  ⟨a.x + t * (b.x - a.x), a.y + t * (b.y - a.y), a.z + t * (b.z - a.z)⟩

/-- The part of a segment from `t0` to `t1`.  When no cell is found the index is `-1`: the slice `-1:1` is
empty and adding four weights to it raises a `ValueError`.  current_utils.py:234-262 -/
noncomputable def part (M : Mesh) (a b : Pt) (t0 t1 : ℝ) (s : Edges) : Except Err Edges :=
  let tc := 0.5 * (t0 + t1)
  let c := at' a b tc
  match M.x.findLast c.x, M.y.findLast c.y, M.z.findLast c.z with
  | some ix, some iy, some iz =>
    let o : Pt := ⟨M.x.node ix, M.y.node iy, M.z.node iz⟩
    let h : Pt := ⟨M.x.h ix, M.y.h iy, M.z.h iz⟩
    let p0 := at' a b t0
    let p1 := at' a b t1
    let aloc : Pt := ⟨p0.x - o.x, p0.y - o.y, p0.z - o.z⟩
    let bloc : Pt := ⟨p1.x - o.x, p1.y - o.y, p1.z - o.z⟩
    .ok (s.add ix iy iz (straight h aloc bloc))
  | _, _, _ => .error .valueError

/-- The loop over `iq`.  current_utils.py:234-262 -/
noncomputable def parts (M : Mesh) (a b : Pt) : List ℝ → Edges → Except Err Edges
  | t0 :: t1 :: ts, s => do
    let s' ← part M a b t0 t1 s
    parts M a b (t1 :: ts) s'
  | _, s => .ok s

/-- The loop over `ip` and the whole of `_poly_line_source_tens`; the check of the vertices prints only.
current_utils.py:147-264 -/
noncomputable def wire (M : Mesh) (eps : ℝ) : List Pt → Edges → Except Err Edges
  | a :: b :: ps, s => do
    let s' ← parts M a b (params M eps a b) s
    wire M eps (b :: ps) s'
  | _, s => .ok s

/-- `_poly_line_source_tens`.  current_utils.py:147-264 -/
noncomputable def source (M : Mesh) (eps : ℝ) (locs : List Pt) : Except Err Edges := wire M eps locs Edges.zero

end Verif.EM.Line

namespace Verif.EM.Line.Props
open Verif Verif.EM.Line

/-! ### Specification -/

/-- The nodes of an axis increase. -/
def Incr (g : Grid) : Prop := ∀ i < g.n, g.node i < g.node (i + 1)

/-- The continuous function which is one at node `i`, zero at all other nodes, and linear between nodes. -/
noncomputable def hat (g : Grid) (i : ℕ) (c : ℝ) : ℝ :=
  if 0 < i ∧ g.node (i - 1) ≤ c ∧ c ≤ g.node i then (c - g.node (i - 1)) / (g.node i - g.node (i - 1))
  else if i < g.n ∧ g.node i ≤ c ∧ c ≤ g.node (i + 1) then (g.node (i + 1) - c) / (g.node (i + 1) - g.node i)
  else 0

/-- Trilinear interpolation weight of a node. -/
noncomputable def hat3 (M : Mesh) (i j k : ℕ) (p : Pt) : ℝ := hat M.x i p.x * hat M.y j p.y * hat M.z k p.z

/-- One axis of `mesh.nodal_gradient.T * s`: edges end at node `i` and start there. -/
noncomputable def div1 (g : Grid) (s : ℕ → ℝ) (i : ℕ) : ℝ :=
  (if 0 < i then s (i - 1) / g.h (i - 1) else 0) - (if i < g.n then s i / g.h i else 0)

/-- `mesh.nodal_gradient.T * s` at a node. -/
noncomputable def gradT (M : Mesh) (s : Edges) (i j k : ℕ) : ℝ :=
  div1 M.x (fun a => s.x a j k) i + div1 M.y (fun a => s.y i a k) j + div1 M.z (fun a => s.z i j a) k

/-- A point in the mesh, but not in the last cells of an axis. -/
def InnerG (g : Grid) (c : ℝ) : Prop := 2 ≤ g.n ∧ g.node 0 ≤ c ∧ c ≤ g.node (g.n - 1)

/-- A point in the mesh, but not in the last cells of an axis. -/
def Inner (M : Mesh) (p : Pt) : Prop := InnerG M.x p.x ∧ InnerG M.y p.y ∧ InnerG M.z p.z

/-- Each component of a segment is zero or not below the tolerance. -/
def Clean (eps : ℝ) (a b : Pt) : Prop :=
  (b.x - a.x = 0 ∨ len a b * eps < |b.x - a.x|) ∧ (b.y - a.y = 0 ∨ len a b * eps < |b.y - a.y|) ∧
    (b.z - a.z = 0 ∨ len a b * eps < |b.z - a.z|)

/-- All segments of a wire. -/
def CleanWire (eps : ℝ) : List Pt → Prop
  | a :: b :: ps => Clean eps a b ∧ CleanWire eps (b :: ps)
  | _ => True

/-- Edge function of an edge of the first axis: one on the edge, bilinear across, zero in the other cells. -/
noncomputable def edgeFn (g₁ g₂ g₃ : Grid) (i j k : ℕ) (x y z : ℝ) : ℝ := by
  classical
  exact if g₁.node i ≤ x ∧ x ≤ g₁.node (i + 1) then hat g₂ j y * hat g₃ k z else 0

/-- The line integral of the edge function along all segments of a wire: axis x. -/
noncomputable def lineX (M : Mesh) (i j k : ℕ) : List Pt → ℝ
  | a :: b :: ps => (∫ t in (0:ℝ)..1, edgeFn M.x M.y M.z i j k (at' a b t).x (at' a b t).y (at' a b t).z *
      (b.x - a.x)) + lineX M i j k (b :: ps)
  | _ => 0

/-- The line integral of the edge function along all segments of a wire: axis y. -/
noncomputable def lineY (M : Mesh) (i j k : ℕ) : List Pt → ℝ
  | a :: b :: ps => (∫ t in (0:ℝ)..1, edgeFn M.y M.x M.z j i k (at' a b t).y (at' a b t).x (at' a b t).z *
      (b.y - a.y)) + lineY M i j k (b :: ps)
  | _ => 0

/-- The line integral of the edge function along all segments of a wire: axis z. -/
noncomputable def lineZ (M : Mesh) (i j k : ℕ) : List Pt → ℝ
  | a :: b :: ps => (∫ t in (0:ℝ)..1, edgeFn M.z M.x M.y k i j (at' a b t).z (at' a b t).x (at' a b t).y *
      (b.z - a.z)) + lineZ M i j k (b :: ps)
  | _ => 0

/-! ### One axis -/

/-- Local hat functions in the cell `p`. -/
noncomputable def loc (p i : ℕ) (l : ℝ) : ℝ := if i = p then 1 - l else if i = p + 1 then l else 0

theorem incr_mono {g : Grid} (hg : Incr g) {i j : ℕ} (hij : i ≤ j) (hj : j ≤ g.n) : g.node i ≤ g.node j := by
  induction j, hij using Nat.le_induction with
  | base => exact le_rfl
  | succ j hij ih => exact (ih (by omega)).trans (hg j (by omega)).le

theorem incr_strict {g : Grid} (hg : Incr g) {i j : ℕ} (hij : i < j) (hj : j ≤ g.n) : g.node i < g.node j :=
  (hg i (by omega)).trans_le (incr_mono hg (show i + 1 ≤ j by omega) hj)

theorem hat_loc {g : Grid} (hg : Incr g) {p : ℕ} (hp : p < g.n) {c : ℝ} (h0 : g.node p ≤ c)
    (h1 : c ≤ g.node (p + 1)) {i : ℕ} (hi : i ≤ g.n) : hat g i c = loc p i ((c - g.node p) / g.h p) := by
  have hpos : 0 < g.node (p + 1) - g.node p := sub_pos.2 (hg p hp)
  unfold hat loc Grid.h
  rcases lt_trichotomy i p with h | h | h
  · -- left of the cell
    rw [if_neg (show ¬ i = p by omega), if_neg (show ¬ i = p + 1 by omega)]
    have h2 : g.node i < g.node p := incr_strict hg h (by omega)
    rw [if_neg (by rintro ⟨-, -, h3⟩; linarith)]
    split_ifs with h3
    · have h4 : g.node (i + 1) ≤ g.node p := incr_mono hg (by omega) (by omega)
      have : c = g.node (i + 1) := le_antisymm h3.2.2 (h4.trans h0)
      rw [this]; simp
    · rfl
  · subst h
    rw [if_pos rfl]
    split_ifs with h2 h3
    · have hc : c = g.node i := le_antisymm h2.2.2 h0
      have h5 := incr_strict hg (show i - 1 < i by omega) (by omega)
      rw [hc, sub_self, zero_div, sub_zero, div_self (by linarith)]
    · field_simp; ring
    · exact absurd ⟨hp, h0, h1⟩ h3
  · rw [if_neg (show ¬ i = p by omega)]
    by_cases h2 : i = p + 1
    · subst h2
      rw [if_pos rfl]
      simp only [Nat.add_sub_cancel]
      rw [if_pos ⟨by omega, h0, h1⟩]
    · rw [if_neg h2]
      have h3 : g.node (p + 1) ≤ g.node (i - 1) := incr_mono hg (by omega) (by omega)
      have h4 : g.node (p + 1) < g.node i := incr_strict hg (by omega) (by omega)
      split_ifs with h5 h6
      · have : c = g.node (i - 1) := le_antisymm (h1.trans h3) h5.2.1
        rw [this]; simp
      · exfalso; linarith [h6.2.1]
      · rfl

theorem findLast_some {g : Grid} {c : ℝ} {p : ℕ} (h : g.findLast c = some p) :
    p + 1 < g.n ∧ g.node p ≤ c ∧ c ≤ g.node (p + 1) := by
  unfold Grid.findLast at h
  have := List.mem_of_mem_getLast? h
  simp only [List.mem_filter, List.mem_range, decide_eq_true_eq] at this
  exact ⟨by omega, this.2⟩

theorem findLast_inner {g : Grid} {c : ℝ} (h : InnerG g c) : ∃ p, g.findLast c = some p := by
  obtain ⟨hn, h0, h1⟩ := h
  have : ∃ i < g.n - 1, g.node i ≤ c ∧ c ≤ g.node (i + 1) := by
    by_contra hc
    push Not at hc
    have : ∀ i, i < g.n → g.node i ≤ c ∧ (i = g.n - 1 → c ≤ g.node i) ∧ (0 < i → g.node i < c) := by
      intro i
      induction i with
      | zero => intro hi; exact ⟨h0, fun h => by rw [h]; exact h1, by omega⟩
      | succ i ih =>
        intro hi
        have h3 := hc i (by omega) (ih (by omega)).1
        exact ⟨h3.le, fun h => by rw [h]; exact h1, fun _ => h3⟩
    have h5 := this (g.n - 1) (by omega)
    linarith [h5.2.1 rfl, h5.2.2 (by omega)]
  obtain ⟨i, hi, h2⟩ := this
  unfold Grid.findLast
  have hne : ((List.range (g.n - 1)).filter fun i => decide (g.node i ≤ c ∧ c ≤ g.node (i + 1))) ≠ [] := by
    intro h
    have : i ∈ ((List.range (g.n - 1)).filter fun i => decide (g.node i ≤ c ∧ c ≤ g.node (i + 1))) := by
      simp [hi, h2]
    rw [h] at this; simp at this
  exact ⟨_, List.getLast?_eq_some_getLast hne⟩

theorem findLast_none {g : Grid} (hg : Incr g) {c : ℝ} (h : g.node (g.n - 1) < c) : g.findLast c = none := by
  unfold Grid.findLast
  rw [List.getLast?_eq_none_iff, List.filter_eq_nil_iff]
  intro i hi
  simp only [List.mem_range] at hi
  simp only [decide_eq_true_eq, not_and, not_le]
  intro _
  exact (incr_mono hg (show i + 1 ≤ g.n - 1 by omega) (by omega)).trans_lt h

/-! ### One part of a segment -/

/-- Simpson's rule for products of two functions which are linear in `t`. -/
noncomputable def simp2 (u0 u1 v0 v1 : ℝ) : ℝ :=
  (u0 * v0 + 4 * ((u0 + u1) / 2 * ((v0 + v1) / 2)) + u1 * v1) / 6

theorem patch_simpsons {a1 l1 h1 a2 l2 h2 : ℝ} (p q j k : ℕ) (m : ℝ) :
    patch (fun i => simpsons a1 l1 h1 a2 l2 h2 i * m) p q j k =
      simp2 (loc p j (a1 / h1)) (loc p j ((a1 + l1) / h1)) (loc q k (a2 / h2)) (loc q k ((a2 + l2) / h2)) * m := by
  have e0 : edgeBasis 0.0 a1 l1 h1 a2 l2 h2 = ![(1 - a1/h1) * (1 - a2/h2), (a1/h1) * (1 - a2/h2),
      (1 - a1/h1) * (a2/h2), (a1/h1) * (a2/h2)] := by
    unfold edgeBasis; norm_num
  have e1 : edgeBasis 1.0 a1 l1 h1 a2 l2 h2 = ![(1 - (a1+l1)/h1) * (1 - (a2+l2)/h2),
      ((a1+l1)/h1) * (1 - (a2+l2)/h2),
      (1 - (a1+l1)/h1) * ((a2+l2)/h2), ((a1+l1)/h1) * ((a2+l2)/h2)] := by
    unfold edgeBasis; norm_num
  have e5 : edgeBasis 0.5 a1 l1 h1 a2 l2 h2 = ![(1 - (a1+l1/2)/h1) * (1 - (a2+l2/2)/h2),
      ((a1+l1/2)/h1) * (1 - (a2+l2/2)/h2),
      (1 - (a1+l1/2)/h1) * ((a2+l2/2)/h2), ((a1+l1/2)/h1) * ((a2+l2/2)/h2)] := by
    unfold edgeBasis
    rw [show (0.5:ℝ) * l1 = l1 / 2 by ring, show (0.5:ℝ) * l2 = l2 / 2 by ring]
    norm_num
  unfold patch simpsons simp2 loc
  simp only [e0, e1, e5, show (4.0:ℝ) = 4 by norm_num, show (6.0:ℝ) = 6 by norm_num]
  have hp : ¬ p + 1 = p := by omega
  have hq : ¬ q + 1 = q := by omega
  by_cases hj : j = p
  · subst hj
    by_cases hk : k = q
    · subst hk; simp [-mul_eq_mul_right_iff]; ring
    · by_cases hk1 : k = q + 1
      · subst hk1; simp [-mul_eq_mul_right_iff]; ring
      · simp [hk, hk1]
  · by_cases hj1 : j = p + 1
    · subst hj1
      by_cases hk : k = q
      · subst hk; simp [-mul_eq_mul_right_iff]; ring
      · by_cases hk1 : k = q + 1
        · subst hk1; simp [-mul_eq_mul_right_iff]; ring
        · simp [hk, hk1]
    · simp [hj, hj1]

/-- The derivative of the local hat function. -/
noncomputable def slope (p i : ℕ) : ℝ := if i = p then -1 else if i = p + 1 then 1 else 0

theorem loc_sub (p i : ℕ) (u v : ℝ) : loc p i u - loc p i v = slope p i * (u - v) := by
  unfold loc slope; split_ifs <;> ring

theorem div1_add (g : Grid) (s t : ℕ → ℝ) (i : ℕ) :
    div1 g (fun a => s a + t a) i = div1 g s i + div1 g t i := by
  unfold div1; split_ifs <;> ring

theorem div1_single (g : Grid) {p : ℕ} (hp : p < g.n) (v : ℝ) (i : ℕ) :
    div1 g (fun a => if a = p then v else 0) i = slope p i * (v / g.h p) := by
  unfold div1 slope
  rcases lt_trichotomy i p with h | h | h
  · have h1 : ¬ i = p := by omega
    have h2 : ¬ i = p + 1 := by omega
    have h3 : ¬ i - 1 = p := by omega
    simp [h1, h2, h3]
  · subst h
    by_cases h0 : 0 < i
    · have h3 : ¬ i - 1 = i := by omega
      simp [h3, hp]
    · simp [h0, hp]
  · by_cases h1 : i = p + 1
    · subst h1
      simp
    · have h2 : ¬ i = p := by omega
      have h3 : ¬ i - 1 = p := by omega
      simp [h1, h2, h3]

/-- Simpson's rule integrates the derivative of a product of three linear functions. -/
theorem simp2_telescope (u0 u1 v0 v1 w0 w1 : ℝ) :
    (u1 - u0) * simp2 v0 v1 w0 w1 + (v1 - v0) * simp2 u0 u1 w0 w1 + (w1 - w0) * simp2 u0 u1 v0 v1 =
      u1 * v1 * w1 - u0 * v0 * w0 := by
  unfold simp2; ring

/-- A point in a cell. -/
def InCell (M : Mesh) (ix iy iz : ℕ) (p : Pt) : Prop :=
  (M.x.node ix ≤ p.x ∧ p.x ≤ M.x.node (ix + 1)) ∧ (M.y.node iy ≤ p.y ∧ p.y ≤ M.y.node (iy + 1)) ∧
    (M.z.node iz ≤ p.z ∧ p.z ≤ M.z.node (iz + 1))

/-- The mesh is one. -/
def Ok (M : Mesh) : Prop := Incr M.x ∧ Incr M.y ∧ Incr M.z

/-- What a part adds, relative to the cell. -/
noncomputable def relPt (M : Mesh) (ix iy iz : ℕ) (p : Pt) : Pt :=
  ⟨p.x - M.x.node ix, p.y - M.y.node iy, p.z - M.z.node iz⟩

theorem add_x (M : Mesh) (hM : Ok M) {ix iy iz : ℕ} (hx : ix < M.x.n) (hy : iy < M.y.n) (hz : iz < M.z.n)
    {p q : Pt} (hp : InCell M ix iy iz p) (hq : InCell M ix iy iz q) (s : Edges) {i j k : ℕ}
    (hj : j ≤ M.y.n) (hk : k ≤ M.z.n) :
    (s.add ix iy iz (straight ⟨M.x.h ix, M.y.h iy, M.z.h iz⟩ (relPt M ix iy iz p) (relPt M ix iy iz q))).x i j k =
      s.x i j k + if i = ix then simp2 (hat M.y j p.y) (hat M.y j q.y) (hat M.z k p.z) (hat M.z k q.z) *
        (q.x - p.x) else 0 := by
  unfold Edges.add straight
  simp only [patch_simpsons]
  rw [hat_loc hM.2.1 hy hp.2.1.1 hp.2.1.2 hj, hat_loc hM.2.1 hy hq.2.1.1 hq.2.1.2 hj,
    hat_loc hM.2.2 hz hp.2.2.1 hp.2.2.2 hk, hat_loc hM.2.2 hz hq.2.2.1 hq.2.2.2 hk]
  unfold relPt
  simp

theorem add_y (M : Mesh) (hM : Ok M) {ix iy iz : ℕ} (hx : ix < M.x.n) (hy : iy < M.y.n) (hz : iz < M.z.n)
    {p q : Pt} (hp : InCell M ix iy iz p) (hq : InCell M ix iy iz q) (s : Edges) {i j k : ℕ}
    (hi : i ≤ M.x.n) (hk : k ≤ M.z.n) :
    (s.add ix iy iz (straight ⟨M.x.h ix, M.y.h iy, M.z.h iz⟩ (relPt M ix iy iz p) (relPt M ix iy iz q))).y i j k =
      s.y i j k + if j = iy then simp2 (hat M.x i p.x) (hat M.x i q.x) (hat M.z k p.z) (hat M.z k q.z) *
        (q.y - p.y) else 0 := by
  unfold Edges.add straight
  simp only [patch_simpsons]
  rw [hat_loc hM.1 hx hp.1.1 hp.1.2 hi, hat_loc hM.1 hx hq.1.1 hq.1.2 hi,
    hat_loc hM.2.2 hz hp.2.2.1 hp.2.2.2 hk, hat_loc hM.2.2 hz hq.2.2.1 hq.2.2.2 hk]
  unfold relPt
  simp

theorem add_z (M : Mesh) (hM : Ok M) {ix iy iz : ℕ} (hx : ix < M.x.n) (hy : iy < M.y.n) (hz : iz < M.z.n)
    {p q : Pt} (hp : InCell M ix iy iz p) (hq : InCell M ix iy iz q) (s : Edges) {i j k : ℕ}
    (hi : i ≤ M.x.n) (hj : j ≤ M.y.n) :
    (s.add ix iy iz (straight ⟨M.x.h ix, M.y.h iy, M.z.h iz⟩ (relPt M ix iy iz p) (relPt M ix iy iz q))).z i j k =
      s.z i j k + if k = iz then simp2 (hat M.x i p.x) (hat M.x i q.x) (hat M.y j p.y) (hat M.y j q.y) *
        (q.z - p.z) else 0 := by
  unfold Edges.add straight
  simp only [patch_simpsons]
  rw [hat_loc hM.1 hx hp.1.1 hp.1.2 hi, hat_loc hM.1 hx hq.1.1 hq.1.2 hi,
    hat_loc hM.2.1 hy hp.2.1.1 hp.2.1.2 hj, hat_loc hM.2.1 hy hq.2.1.1 hq.2.1.2 hj]
  unfold relPt
  simp

theorem hat_sub {g : Grid} (hg : Incr g) {p : ℕ} (hp : p < g.n) {c d : ℝ} (h0 : g.node p ≤ c)
    (h1 : c ≤ g.node (p + 1)) (h2 : g.node p ≤ d) (h3 : d ≤ g.node (p + 1)) {i : ℕ} (hi : i ≤ g.n) :
    hat g i d - hat g i c = slope p i * ((d - c) / g.h p) := by
  rw [hat_loc hg hp h0 h1 hi, hat_loc hg hp h2 h3 hi, loc_sub]
  ring

theorem add_gradT (M : Mesh) (hM : Ok M) {ix iy iz : ℕ} (hx : ix < M.x.n) (hy : iy < M.y.n) (hz : iz < M.z.n)
    {p q : Pt} (hp : InCell M ix iy iz p) (hq : InCell M ix iy iz q) (s : Edges) {i j k : ℕ}
    (hi : i ≤ M.x.n) (hj : j ≤ M.y.n) (hk : k ≤ M.z.n) :
    gradT M (s.add ix iy iz (straight ⟨M.x.h ix, M.y.h iy, M.z.h iz⟩ (relPt M ix iy iz p) (relPt M ix iy iz q)))
      i j k = gradT M s i j k + (hat3 M i j k q - hat3 M i j k p) := by
  unfold gradT
  simp only [add_x M hM hx hy hz hp hq s hj hk, add_y M hM hx hy hz hp hq s hi hk,
    add_z M hM hx hy hz hp hq s hi hj, div1_add, div1_single _ hx, div1_single _ hy, div1_single _ hz]
  have ex := hat_sub hM.1 hx hp.1.1 hp.1.2 hq.1.1 hq.1.2 hi
  have ey := hat_sub hM.2.1 hy hp.2.1.1 hp.2.1.2 hq.2.1.1 hq.2.1.2 hj
  have ez := hat_sub hM.2.2 hz hp.2.2.1 hp.2.2.2 hq.2.2.1 hq.2.2.2 hk
  unfold hat3
  rw [← simp2_telescope, ex, ey, ez]
  ring

/-! ### Segments -/

theorem mem_cross {g : Grid} {tol a d t : ℝ} :
    t ∈ g.cross tol a d ↔ tol < |d| ∧ (∃ i ≤ g.n, (g.node i - a) / d = t) ∧ 0 ≤ t ∧ t ≤ 1 := by
  unfold Grid.cross
  split_ifs with h
  · simp only [List.mem_toFinset, List.mem_filter, List.mem_map, List.mem_range, decide_eq_true_eq, ge_iff_le]
    constructor
    · rintro ⟨⟨i, hi, h1⟩, h2⟩; exact ⟨h, ⟨i, by omega, h1⟩, h2⟩
    · rintro ⟨-, ⟨i, hi, h1⟩, h2⟩; exact ⟨⟨i, by omega, h1⟩, h2⟩
  · simp only [Finset.notMem_empty, false_iff, not_and]
    intro h1; exact absurd h1 h

/-- No plane of the axis is crossed strictly between two parameters, so both ends lie in the cell of the
middle. -/
theorem between {g : Grid} {tol a d t0 t1 : ℝ} {p : ℕ} (hp : p < g.n) (h01 : t0 < t1) (h0 : 0 ≤ t0) (h1 : t1 ≤ 1)
    (hcl : d = 0 ∨ tol < |d|) (hno : ∀ t ∈ g.cross tol a d, t ≤ t0 ∨ t1 ≤ t)
    (hl : g.node p ≤ a + 0.5 * (t0 + t1) * d) (hr : a + 0.5 * (t0 + t1) * d ≤ g.node (p + 1)) :
    ∀ t, t0 ≤ t → t ≤ t1 → g.node p ≤ a + t * d ∧ a + t * d ≤ g.node (p + 1) := by
  rw [show (0.5:ℝ) * (t0 + t1) = (t0 + t1) / 2 by ring] at hl hr
  intro t ht0 ht1
  by_cases hd0 : d = 0
  · subst hd0; simp only [mul_zero, add_zero] at hl hr ⊢; exact ⟨hl, hr⟩
  · have hd : tol < |d| := hcl.resolve_left hd0
    -- the middle and `t` are on the same side of every plane
    have key : ∀ i ≤ g.n, (g.node i ≤ a + (t0 + t1) / 2 * d → g.node i ≤ a + t * d) ∧
        (a + (t0 + t1) / 2 * d ≤ g.node i → a + t * d ≤ g.node i) := by
      intro i hi
      have hc : (g.node i - a) / d < 0 ∨ 1 < (g.node i - a) / d ∨
          (g.node i - a) / d ≤ t0 ∨ t1 ≤ (g.node i - a) / d := by
        by_cases h2 : 0 ≤ (g.node i - a) / d ∧ (g.node i - a) / d ≤ 1
        · right; right
          exact hno _ (mem_cross.2 ⟨hd, ⟨i, hi, rfl⟩, h2⟩)
        · by_contra hc
          push Not at hc
          exact h2 ⟨hc.1, hc.2.1⟩
      set τ := (g.node i - a) / d with hτ
      have hn : g.node i = a + τ * d := by rw [hτ]; field_simp; ring
      have hs : τ ≤ t0 ∨ t1 ≤ τ := by
        rcases hc with h | h | h | h
        · left; linarith
        · right; linarith
        · exact Or.inl h
        · exact Or.inr h
      rw [hn]
      rcases lt_or_gt_of_ne hd0 with h | h <;> rcases hs with h2 | h2 <;> constructor <;> intro h3 <;> nlinarith
    exact ⟨(key p hp.le).1 hl, (key (p + 1) hp).2 hr⟩

/-- The part from `t0` to `t1` lies in the cell that is found. -/
def Good (M : Mesh) (a b : Pt) (t0 t1 : ℝ) : Prop :=
  ∃ ix iy iz, ix + 1 < M.x.n ∧ iy + 1 < M.y.n ∧ iz + 1 < M.z.n ∧
    M.x.findLast (at' a b (0.5 * (t0 + t1))).x = some ix ∧ M.y.findLast (at' a b (0.5 * (t0 + t1))).y = some iy ∧
    M.z.findLast (at' a b (0.5 * (t0 + t1))).z = some iz ∧
    ∀ t, t0 ≤ t → t ≤ t1 → InCell M ix iy iz (at' a b t)

theorem part_good {M : Mesh} {a b : Pt} {t0 t1 : ℝ} {ix iy iz : ℕ}
    (hx : M.x.findLast (at' a b (0.5 * (t0 + t1))).x = some ix)
    (hy : M.y.findLast (at' a b (0.5 * (t0 + t1))).y = some iy)
    (hz : M.z.findLast (at' a b (0.5 * (t0 + t1))).z = some iz) (s : Edges) :
    part M a b t0 t1 s = .ok (s.add ix iy iz (straight ⟨M.x.h ix, M.y.h iy, M.z.h iz⟩
      (relPt M ix iy iz (at' a b t0)) (relPt M ix iy iz (at' a b t1)))) := by
  unfold part
  simp only [hx, hy, hz]
  rfl

theorem innerG_convex {g : Grid} {a b t : ℝ} (ha : InnerG g a) (hb : InnerG g b) (h0 : 0 ≤ t) (h1 : t ≤ 1) :
    InnerG g (a + t * (b - a)) := by
  refine ⟨ha.1, ?_, ?_⟩
  · nlinarith [ha.2.1, hb.2.1]
  · nlinarith [ha.2.2, hb.2.2]

theorem good_of {M : Mesh} {eps : ℝ} {a b : Pt} (ha : Inner M a) (hb : Inner M b) (hc : Clean eps a b)
    {t0 t1 : ℝ} (h0 : 0 ≤ t0) (h01 : t0 < t1) (h1 : t1 ≤ 1)
    (hno : ∀ t ∈ params M eps a b, t ≤ t0 ∨ t1 ≤ t) : Good M a b t0 t1 := by
  have hm0 : (0:ℝ) ≤ 0.5 * (t0 + t1) := by
    rw [show (0.5:ℝ) * (t0 + t1) = (t0 + t1) / 2 by ring]; linarith
  have hm1 : 0.5 * (t0 + t1) ≤ (1:ℝ) := by
    rw [show (0.5:ℝ) * (t0 + t1) = (t0 + t1) / 2 by ring]; linarith
  obtain ⟨ix, hx⟩ := findLast_inner (innerG_convex ha.1 hb.1 hm0 hm1)
  obtain ⟨iy, hy⟩ := findLast_inner (innerG_convex ha.2.1 hb.2.1 hm0 hm1)
  obtain ⟨iz, hz⟩ := findLast_inner (innerG_convex ha.2.2 hb.2.2 hm0 hm1)
  have fx := findLast_some hx
  have fy := findLast_some hy
  have fz := findLast_some hz
  refine ⟨ix, iy, iz, fx.1, fy.1, fz.1, hx, hy, hz, ?_⟩
  have nx : ∀ t ∈ M.x.cross (len a b * eps) a.x (b.x - a.x), t ≤ t0 ∨ t1 ≤ t := fun t ht =>
    hno t (by simp [params, ht])
  have ny : ∀ t ∈ M.y.cross (len a b * eps) a.y (b.y - a.y), t ≤ t0 ∨ t1 ≤ t := fun t ht =>
    hno t (by simp [params, ht])
  have nz : ∀ t ∈ M.z.cross (len a b * eps) a.z (b.z - a.z), t ≤ t0 ∨ t1 ≤ t := fun t ht =>
    hno t (by simp [params, ht])
  intro t ht0 ht1
  exact ⟨between (by omega) h01 h0 h1 hc.1 nx fx.2.1 fx.2.2 t ht0 ht1,
    between (by omega) h01 h0 h1 hc.2.1 ny fy.2.1 fy.2.2 t ht0 ht1,
    between (by omega) h01 h0 h1 hc.2.2 nz fz.2.1 fz.2.2 t ht0 ht1⟩

/-- Consecutive parameters. -/
def Step (M : Mesh) (a b : Pt) (t0 t1 : ℝ) : Prop := t0 < t1 ∧ Good M a b t0 t1

theorem mem_params {M : Mesh} {eps : ℝ} {a b : Pt} {t : ℝ} (h : t ∈ params M eps a b) : 0 ≤ t ∧ t ≤ 1 := by
  simp only [params, Finset.mem_sort, Finset.mem_union, Finset.mem_singleton] at h
  rcases h with (((h | h) | h) | h) | h
  · subst h; norm_num
  · exact (mem_cross.1 h).2.2
  · exact (mem_cross.1 h).2.2
  · exact (mem_cross.1 h).2.2
  · subst h; norm_num

theorem steps_of_sorted {M : Mesh} {eps : ℝ} {a b : Pt} (ha : Inner M a) (hb : Inner M b) (hc : Clean eps a b)
    (pre : List ℝ) : ∀ ts : List ℝ, params M eps a b = pre ++ ts → ts.IsChain (Step M a b) := by
  intro ts
  induction ts generalizing pre with
  | nil => intro _; simp
  | cons t0 ts ih =>
    intro h
    match ts, ih, h with
    | [], _, _ => simp
    | t1 :: ts, ih, h =>
      have hs : (params M eps a b).Pairwise (· < ·) := Finset.sortedLT_sort _ |>.pairwise
      refine List.isChain_cons_cons.2 ⟨?_, ih (pre ++ [t0]) (by rw [h]; simp)⟩
      have hmem : ∀ t, t ∈ params M eps a b ↔ t ∈ pre ∨ t = t0 ∨ t = t1 ∨ t ∈ ts := by
        intro t; rw [h]; simp
      rw [h] at hs
      have hs' := List.pairwise_append.1 hs
      have h2 := List.pairwise_cons.1 hs'.2.1
      have h3 := List.pairwise_cons.1 h2.2
      have h01 : t0 < t1 := h2.1 t1 (by simp)
      refine ⟨h01, good_of ha hb hc (mem_params ((hmem t0).2 (by simp))).1 h01
        (mem_params ((hmem t1).2 (by simp))).2 ?_⟩
      intro t ht
      rcases (hmem t).1 ht with h4 | h4 | h4 | h4
      · exact Or.inl (hs'.2.2 t h4 t0 (by simp)).le
      · exact Or.inl h4.le
      · exact Or.inr h4.ge
      · exact Or.inr (h3.1 t h4).le

theorem steps {M : Mesh} {eps : ℝ} {a b : Pt} (ha : Inner M a) (hb : Inner M b) (hc : Clean eps a b) :
    (params M eps a b).IsChain (Step M a b) := steps_of_sorted ha hb hc [] _ rfl

/-- The parameters begin with 0 and end with 1. -/
theorem params_ends (M : Mesh) (eps : ℝ) (a b : Pt) :
    ∃ ts, params M eps a b = 0 :: ts ∧ (0 :: ts).getLast (by simp) = 1 := by
  have hs : (params M eps a b).Pairwise (· < ·) := Finset.sortedLT_sort _ |>.pairwise
  have m0 : (0:ℝ) ∈ params M eps a b := by
    simp only [params, Finset.mem_sort, Finset.mem_union, Finset.mem_singleton]; norm_num
  have m1 : (1:ℝ) ∈ params M eps a b := by
    simp only [params, Finset.mem_sort, Finset.mem_union, Finset.mem_singleton]; norm_num
  rcases hp : params M eps a b with _ | ⟨t, ts⟩
  · rw [hp] at m0; simp at m0
  · have ht := (mem_params (show t ∈ params M eps a b by rw [hp]; simp)).1
    have h0 : t = 0 := by
      rw [hp] at m0 hs
      rcases List.mem_cons.1 m0 with h | h
      · exact h.symm
      · have := (List.pairwise_cons.1 hs).1 0 h
        linarith
    subst h0
    refine ⟨ts, rfl, ?_⟩
    have hl := List.getLast_mem (show (0:ℝ) :: ts ≠ [] by simp)
    have hle := (mem_params (show (0 :: ts).getLast (by simp) ∈ params M eps a b by rw [hp]; exact hl)).2
    refine le_antisymm hle ?_
    rw [hp] at m1 hs
    have hd := List.dropLast_append_getLast (show (0:ℝ) :: ts ≠ [] by simp)
    rw [← hd] at m1 hs
    rcases List.mem_append.1 m1 with h | h
    · exact ((List.pairwise_append.1 hs).2.2 1 h _ (by simp)).le
    · exact (List.mem_singleton.1 h).le

/-- Sums over consecutive parameters. -/
noncomputable def chainSum (ψ : ℝ → ℝ → ℝ) : List ℝ → ℝ
  | t0 :: t1 :: ts => ψ t0 t1 + chainSum ψ (t1 :: ts)
  | _ => 0

theorem parts_run {M : Mesh} {a b : Pt} (Φ : Edges → ℝ) (ψ : ℝ → ℝ → ℝ)
    (hΦ : ∀ t0 t1 s, Step M a b t0 t1 → ∃ s', part M a b t0 t1 s = .ok s' ∧ Φ s' = Φ s + ψ t0 t1) :
    ∀ (ts : List ℝ) (s : Edges), ts.IsChain (Step M a b) →
      ∃ s', parts M a b ts s = .ok s' ∧ Φ s' = Φ s + chainSum ψ ts := by
  intro ts
  induction ts with
  | nil => intro s _; exact ⟨s, rfl, by simp [chainSum]⟩
  | cons t0 ts ih =>
    intro s h
    match ts, ih, h with
    | [], _, _ => exact ⟨s, rfl, by simp [chainSum]⟩
    | t1 :: ts, ih, h =>
      have h' := List.isChain_cons_cons.1 h
      obtain ⟨s1, e1, f1⟩ := hΦ t0 t1 s h'.1
      obtain ⟨s2, e2, f2⟩ := ih s1 h'.2
      refine ⟨s2, ?_, ?_⟩
      · simp only [parts, e1]; exact e2
      · simp only [chainSum]; rw [f2, f1]; ring

theorem chainSum_diff (H : ℝ → ℝ) : ∀ (t : ℝ) (ts : List ℝ),
    chainSum (fun u v => H v - H u) (t :: ts) = H ((t :: ts).getLast (by simp)) - H t := by
  intro t ts
  induction ts generalizing t with
  | nil => simp [chainSum]
  | cons t1 ts ih => simp only [chainSum]; rw [ih]; simp

theorem at_zero (a b : Pt) : at' a b 0 = a := by simp [at']

theorem at_one (a b : Pt) : at' a b 1 = b := by simp [at']

/-- A whole wire, for any quantity to which parts of segments add. -/
theorem wire_run {M : Mesh} {eps : ℝ} (Φ : Edges → ℝ) (ψ : Pt → Pt → ℝ → ℝ → ℝ) (χ : Pt → Pt → ℝ)
    (hΦ : ∀ a b t0 t1 s, Inner M a → Inner M b → Step M a b t0 t1 →
      ∃ s', part M a b t0 t1 s = .ok s' ∧ Φ s' = Φ s + ψ a b t0 t1)
    (hχ : ∀ a b, Inner M a → Inner M b → Clean eps a b → chainSum (ψ a b) (params M eps a b) = χ a b)
    (L : List Pt → ℝ) (hL : ∀ a b ps, L (a :: b :: ps) = χ a b + L (b :: ps)) (hL1 : ∀ a, L [a] = 0)
    (hL0 : L [] = 0) :
    ∀ (locs : List Pt) (s : Edges), (∀ p ∈ locs, Inner M p) → CleanWire eps locs →
      ∃ s', wire M eps locs s = .ok s' ∧ Φ s' = Φ s + L locs := by
  intro locs
  induction locs with
  | nil => intro s _ _; exact ⟨s, rfl, by rw [hL0, add_zero]⟩
  | cons a ps ih =>
    intro s hin hcl
    match ps, ih, hin, hcl with
    | [], _, _, _ => exact ⟨s, rfl, by rw [hL1, add_zero]⟩
    | b :: ps, ih, hin, hcl =>
      have ha := hin a (by simp)
      have hb := hin b (by simp)
      obtain ⟨s1, e1, f1⟩ := parts_run Φ (ψ a b) (fun t0 t1 s h => hΦ a b t0 t1 s ha hb h) _ s
        (steps ha hb hcl.1)
      obtain ⟨s2, e2, f2⟩ := ih s1 (fun p hp => hin p (by simp only [List.mem_cons] at hp ⊢; tauto)) hcl.2
      refine ⟨s2, ?_, ?_⟩
      · simp only [wire, e1]; exact e2
      · rw [f2, f1, hL, hχ a b ha hb hcl.1]; ring

/-- Where a wire ends minus where it begins. -/
noncomputable def ends (H : Pt → ℝ) : List Pt → ℝ
  | [] => 0
  | a :: ps => H ((a :: ps).getLast (by simp)) - H a

/-- **C128.** The divergence of the source term is that of the wire: at every node, the trilinear weight of the
end minus that of the beginning. -/
theorem C128_divergence (M : Mesh) (hM : Ok M) (eps : ℝ) (locs : List Pt) (hin : ∀ p ∈ locs, Inner M p)
    (hcl : CleanWire eps locs) : ∃ s, source M eps locs = .ok s ∧
      ∀ i j k, i ≤ M.x.n → j ≤ M.y.n → k ≤ M.z.n → gradT M s i j k = ends (hat3 M i j k) locs := by
  have key : ∀ i j k, i ≤ M.x.n → j ≤ M.y.n → k ≤ M.z.n →
      ∃ s, source M eps locs = .ok s ∧ gradT M s i j k = ends (hat3 M i j k) locs := by
    intro i j k hi hj hk
    obtain ⟨s, e, f⟩ := wire_run (M := M) (eps := eps) (fun s => gradT M s i j k)
      (fun a b t0 t1 => hat3 M i j k (at' a b t1) - hat3 M i j k (at' a b t0))
      (fun a b => hat3 M i j k b - hat3 M i j k a)
      (by
        rintro a b t0 t1 s - - ⟨h01, ix, iy, iz, hx, hy, hz, fx, fy, fz, hc⟩
        refine ⟨_, part_good fx fy fz s, ?_⟩
        exact add_gradT M hM (by omega) (by omega) (by omega) (hc t0 le_rfl h01.le) (hc t1 h01.le le_rfl) s
          hi hj hk)
      (by
        intro a b ha hb hc
        obtain ⟨ts, e, hl⟩ := params_ends M eps a b
        rw [e, chainSum_diff (fun t => hat3 M i j k (at' a b t)), hl, at_zero, at_one])
      (ends (hat3 M i j k)) (by intro a b ps; simp [ends]) (by intro a; simp [ends]) rfl locs Edges.zero hin hcl
    refine ⟨s, e, ?_⟩
    have h0 : gradT M Edges.zero i j k = 0 := by simp [gradT, div1, Edges.zero]
    rw [h0, zero_add] at f
    exact f
  obtain ⟨s, e, -⟩ := key 0 0 0 (by omega) (by omega) (by omega)
  refine ⟨s, e, fun i j k hi hj hk => ?_⟩
  obtain ⟨s', e', f⟩ := key i j k hi hj hk
  rw [e] at e'
  cases e'
  exact f

/-! ### Line integrals -/

theorem integral_affine (A B C D t0 t1 : ℝ) :
    ∫ t in t0..t1, (A + B * t) * (C + D * t) = simp2 (A + B * t0) (A + B * t1) (C + D * t0) (C + D * t1) * (t1 - t0) := by
  have hd : ∀ t ∈ Set.uIcc t0 t1, HasDerivAt
      (fun t : ℝ => A * C * t + (A * D + B * C) * (t ^ 2 / 2) + B * D * (t ^ 3 / 3)) ((A + B * t) * (C + D * t)) t := by
    intro t _
    have h1 : HasDerivAt (fun t : ℝ => A * C * t) (A * C * 1) t := (hasDerivAt_id t).const_mul _
    have h2 : HasDerivAt (fun t : ℝ => (A * D + B * C) * (t ^ 2 / 2))
        ((A * D + B * C) * (((2 : ℕ) : ℝ) * t ^ (2 - 1) / 2)) t :=
      ((hasDerivAt_pow 2 t).div_const 2).const_mul _
    have h3 : HasDerivAt (fun t : ℝ => B * D * (t ^ 3 / 3)) (B * D * (((3 : ℕ) : ℝ) * t ^ (3 - 1) / 3)) t :=
      ((hasDerivAt_pow 3 t).div_const 3).const_mul _
    refine HasDerivAt.congr_deriv ((h1.add h2).add h3) ?_
    norm_num
    ring
  rw [intervalIntegral.integral_eq_sub_of_hasDerivAt hd (Continuous.intervalIntegrable (by fun_prop) _ _)]
  unfold simp2
  ring

/-- Local hat functions along a segment. -/
theorem loc_affine (p i : ℕ) (a d o h t : ℝ) :
    loc p i ((a + t * d - o) / h) = loc p i ((a - o) / h) + slope p i * (d / h) * t := by
  have := loc_sub p i ((a + t * d - o) / h) ((a - o) / h)
  rw [sub_eq_iff_eq_add] at this
  rw [this]; ring

theorem part_integral {g₁ g₂ g₃ : Grid} (h₁ : Incr g₁) (h₂ : Incr g₂) (h₃ : Incr g₃) {p q r : ℕ}
    (hp : p < g₁.n) (hq : q < g₂.n) (hr : r < g₃.n) {a₁ d₁ a₂ d₂ a₃ d₃ t0 t1 : ℝ} (h01 : t0 < t1)
    (c₁ : ∀ t, t0 ≤ t → t ≤ t1 → g₁.node p ≤ a₁ + t * d₁ ∧ a₁ + t * d₁ ≤ g₁.node (p + 1))
    (c₂ : ∀ t, t0 ≤ t → t ≤ t1 → g₂.node q ≤ a₂ + t * d₂ ∧ a₂ + t * d₂ ≤ g₂.node (q + 1))
    (c₃ : ∀ t, t0 ≤ t → t ≤ t1 → g₃.node r ≤ a₃ + t * d₃ ∧ a₃ + t * d₃ ≤ g₃.node (r + 1))
    {i j k : ℕ} (hi : i < g₁.n) (hj : j ≤ g₂.n) (hk : k ≤ g₃.n) :
    IntervalIntegrable (fun t => edgeFn g₁ g₂ g₃ i j k (a₁ + t * d₁) (a₂ + t * d₂) (a₃ + t * d₃) * d₁)
        MeasureTheory.volume t0 t1 ∧
      ∫ t in t0..t1, edgeFn g₁ g₂ g₃ i j k (a₁ + t * d₁) (a₂ + t * d₂) (a₃ + t * d₃) * d₁ =
        if i = p then simp2 (hat g₂ j (a₂ + t0 * d₂)) (hat g₂ j (a₂ + t1 * d₂)) (hat g₃ k (a₃ + t0 * d₃))
          (hat g₃ k (a₃ + t1 * d₃)) * ((a₁ + t1 * d₁) - (a₁ + t0 * d₁)) else 0 := by
  by_cases hd : d₁ = 0
  · subst hd
    refine ⟨by simp, by simp⟩
  · have hA : ∀ t, t0 ≤ t → t ≤ t1 → hat g₂ j (a₂ + t * d₂) =
        loc q j ((a₂ - g₂.node q) / g₂.h q) + slope q j * (d₂ / g₂.h q) * t := fun t u v => by
      rw [hat_loc h₂ hq (c₂ t u v).1 (c₂ t u v).2 hj, loc_affine]
    have hB : ∀ t, t0 ≤ t → t ≤ t1 → hat g₃ k (a₃ + t * d₃) =
        loc r k ((a₃ - g₃.node r) / g₃.h r) + slope r k * (d₃ / g₃.h r) * t := fun t u v => by
      rw [hat_loc h₃ hr (c₃ t u v).1 (c₃ t u v).2 hk, loc_affine]
    have hE : Set.EqOn (fun t => edgeFn g₁ g₂ g₃ i j k (a₁ + t * d₁) (a₂ + t * d₂) (a₃ + t * d₃) * d₁)
        (fun t => (if i = p then d₁ else 0) * ((loc q j ((a₂ - g₂.node q) / g₂.h q) + slope q j * (d₂ / g₂.h q) * t) *
          (loc r k ((a₃ - g₃.node r) / g₃.h r) + slope r k * (d₃ / g₃.h r) * t))) (Set.Ioo t0 t1) := by
      intro t ht
      have s1 : g₁.node p < a₁ + t * d₁ ∧ a₁ + t * d₁ < g₁.node (p + 1) := by
        have e0 := c₁ t0 le_rfl h01.le
        have e1 := c₁ t1 h01.le le_rfl
        rcases lt_or_gt_of_ne hd with h | h
        · constructor <;> nlinarith [ht.1, ht.2]
        · constructor <;> nlinarith [ht.1, ht.2]
      simp only
      rw [← hA t ht.1.le ht.2.le, ← hB t ht.1.le ht.2.le]
      unfold edgeFn
      by_cases hip : i = p
      · subst hip
        rw [if_pos ⟨s1.1.le, s1.2.le⟩, if_pos rfl]; ring
      · rw [if_neg hip, if_neg]
        · ring
        · rintro ⟨e0, e1⟩
          rcases lt_or_gt_of_ne hip with h | h
          · have := incr_mono h₁ (show i + 1 ≤ p by omega) (by omega)
            linarith
          · have := incr_mono h₁ (show p + 1 ≤ i by omega) (by omega)
            linarith
    constructor
    · rw [intervalIntegrable_congr_uIoo (g := fun t => (if i = p then d₁ else 0) *
        ((loc q j ((a₂ - g₂.node q) / g₂.h q) + slope q j * (d₂ / g₂.h q) * t) *
          (loc r k ((a₃ - g₃.node r) / g₃.h r) + slope r k * (d₃ / g₃.h r) * t)))
        (by rw [Set.uIoo_of_le h01.le]; exact hE)]
      exact Continuous.intervalIntegrable (by fun_prop) _ _
    · rw [intervalIntegral.integral_congr_Ioo_of_le h01.le hE, intervalIntegral.integral_const_mul,
        integral_affine, ← hA t0 le_rfl h01.le, ← hA t1 h01.le le_rfl, ← hB t0 le_rfl h01.le,
        ← hB t1 h01.le le_rfl]
      split_ifs
      · ring
      · ring

theorem chainSum_integral (F : ℝ → ℝ) (R : ℝ → ℝ → Prop)
    (hR : ∀ t0 t1, R t0 t1 → IntervalIntegrable F MeasureTheory.volume t0 t1) :
    ∀ (t : ℝ) (ts : List ℝ), (t :: ts).IsChain R →
      IntervalIntegrable F MeasureTheory.volume t ((t :: ts).getLast (by simp)) ∧
      chainSum (fun u v => ∫ x in u..v, F x) (t :: ts) = ∫ x in t..((t :: ts).getLast (by simp)), F x := by
  intro t ts
  induction ts generalizing t with
  | nil => intro _; simp [chainSum]
  | cons t1 ts ih =>
    intro h
    have h' := List.isChain_cons_cons.1 h
    obtain ⟨i1, e1⟩ := ih t1 h'.2
    have i0 := hR t t1 h'.1
    refine ⟨?_, ?_⟩
    · rw [List.getLast_cons (by simp)]; exact i0.trans i1
    · simp only [chainSum]
      rw [e1, List.getLast_cons (List.cons_ne_nil t1 ts), intervalIntegral.integral_add_adjacent_intervals i0 i1]

/-- **C128, axis x.** The entry of an edge is the line integral of its edge function along the wire. -/
theorem C128_integral_x (M : Mesh) (hM : Ok M) (eps : ℝ) (locs : List Pt) (hin : ∀ p ∈ locs, Inner M p)
    (hcl : CleanWire eps locs) {i j k : ℕ} (hi : i < M.x.n) (hj : j ≤ M.y.n) (hk : k ≤ M.z.n) :
    ∃ s, source M eps locs = .ok s ∧ s.x i j k = lineX M i j k locs := by
  obtain ⟨s, e, f⟩ := wire_run (M := M) (eps := eps) (fun s => s.x i j k)
    (fun a b t0 t1 => ∫ t in t0..t1, edgeFn M.x M.y M.z i j k (at' a b t).x (at' a b t).y (at' a b t).z *
      (b.x - a.x))
    (fun a b => ∫ t in (0:ℝ)..1, edgeFn M.x M.y M.z i j k (at' a b t).x (at' a b t).y (at' a b t).z *
      (b.x - a.x))
    (by
      rintro a b t0 t1 s - - ⟨h01, ix, iy, iz, hx, hy, hz, fx, fy, fz, hc⟩
      refine ⟨_, part_good fx fy fz s, ?_⟩
      rw [add_x M hM (by omega) (by omega) (by omega) (hc t0 le_rfl h01.le) (hc t1 h01.le le_rfl) s hj hk]
      congr 1
      exact (part_integral hM.1 hM.2.1 hM.2.2 (by omega) (by omega) (by omega) h01
        (fun t u v => (hc t u v).1) (fun t u v => (hc t u v).2.1) (fun t u v => (hc t u v).2.2) hi hj hk).2.symm)
    (by
      intro a b ha hb hc
      have hch := steps (eps := eps) ha hb hc
      obtain ⟨ts, e, hl⟩ := params_ends M eps a b
      rw [e] at hch ⊢
      rw [(chainSum_integral _ (Step M a b) (fun t0 t1 hs => by
        obtain ⟨h01, ix, iy, iz, hx, hy, hz, fx, fy, fz, hc⟩ := hs
        exact (part_integral hM.1 hM.2.1 hM.2.2 (show ix < M.x.n by omega) (show iy < M.y.n by omega)
          (show iz < M.z.n by omega) h01
          (fun t u v => (hc t u v).1) (fun t u v => (hc t u v).2.1) (fun t u v => (hc t u v).2.2) hi hj hk).1)
        0 ts hch).2, hl])
    (lineX M i j k) (fun a b ps => rfl) (fun a => rfl) rfl locs Edges.zero hin hcl
  exact ⟨s, e, by rw [f]; simp [Edges.zero]⟩

/-- **C128, axis y.** -/
theorem C128_integral_y (M : Mesh) (hM : Ok M) (eps : ℝ) (locs : List Pt) (hin : ∀ p ∈ locs, Inner M p)
    (hcl : CleanWire eps locs) {i j k : ℕ} (hi : i ≤ M.x.n) (hj : j < M.y.n) (hk : k ≤ M.z.n) :
    ∃ s, source M eps locs = .ok s ∧ s.y i j k = lineY M i j k locs := by
  obtain ⟨s, e, f⟩ := wire_run (M := M) (eps := eps) (fun s => s.y i j k)
    (fun a b t0 t1 => ∫ t in t0..t1, edgeFn M.y M.x M.z j i k (at' a b t).y (at' a b t).x (at' a b t).z *
      (b.y - a.y))
    (fun a b => ∫ t in (0:ℝ)..1, edgeFn M.y M.x M.z j i k (at' a b t).y (at' a b t).x (at' a b t).z *
      (b.y - a.y))
    (by
      rintro a b t0 t1 s - - ⟨h01, ix, iy, iz, hx, hy, hz, fx, fy, fz, hc⟩
      refine ⟨_, part_good fx fy fz s, ?_⟩
      rw [add_y M hM (by omega) (by omega) (by omega) (hc t0 le_rfl h01.le) (hc t1 h01.le le_rfl) s hi hk]
      congr 1
      exact (part_integral hM.2.1 hM.1 hM.2.2 (by omega) (by omega) (by omega) h01
        (fun t u v => (hc t u v).2.1) (fun t u v => (hc t u v).1) (fun t u v => (hc t u v).2.2) hj hi hk).2.symm)
    (by
      intro a b ha hb hc
      have hch := steps (eps := eps) ha hb hc
      obtain ⟨ts, e, hl⟩ := params_ends M eps a b
      rw [e] at hch ⊢
      rw [(chainSum_integral _ (Step M a b) (fun t0 t1 hs => by
        obtain ⟨h01, ix, iy, iz, hx, hy, hz, fx, fy, fz, hc⟩ := hs
        exact (part_integral hM.2.1 hM.1 hM.2.2 (show iy < M.y.n by omega) (show ix < M.x.n by omega)
          (show iz < M.z.n by omega) h01
          (fun t u v => (hc t u v).2.1) (fun t u v => (hc t u v).1) (fun t u v => (hc t u v).2.2) hj hi hk).1)
        0 ts hch).2, hl])
    (lineY M i j k) (fun a b ps => rfl) (fun a => rfl) rfl locs Edges.zero hin hcl
  exact ⟨s, e, by rw [f]; simp [Edges.zero]⟩

/-- **C128, axis z.** -/
theorem C128_integral_z (M : Mesh) (hM : Ok M) (eps : ℝ) (locs : List Pt) (hin : ∀ p ∈ locs, Inner M p)
    (hcl : CleanWire eps locs) {i j k : ℕ} (hi : i ≤ M.x.n) (hj : j ≤ M.y.n) (hk : k < M.z.n) :
    ∃ s, source M eps locs = .ok s ∧ s.z i j k = lineZ M i j k locs := by
  obtain ⟨s, e, f⟩ := wire_run (M := M) (eps := eps) (fun s => s.z i j k)
    (fun a b t0 t1 => ∫ t in t0..t1, edgeFn M.z M.x M.y k i j (at' a b t).z (at' a b t).x (at' a b t).y *
      (b.z - a.z))
    (fun a b => ∫ t in (0:ℝ)..1, edgeFn M.z M.x M.y k i j (at' a b t).z (at' a b t).x (at' a b t).y *
      (b.z - a.z))
    (by
      rintro a b t0 t1 s - - ⟨h01, ix, iy, iz, hx, hy, hz, fx, fy, fz, hc⟩
      refine ⟨_, part_good fx fy fz s, ?_⟩
      rw [add_z M hM (by omega) (by omega) (by omega) (hc t0 le_rfl h01.le) (hc t1 h01.le le_rfl) s hi hj]
      congr 1
      exact (part_integral hM.2.2 hM.1 hM.2.1 (by omega) (by omega) (by omega) h01
        (fun t u v => (hc t u v).2.2) (fun t u v => (hc t u v).1) (fun t u v => (hc t u v).2.1) hk hi hj).2.symm)
    (by
      intro a b ha hb hc
      have hch := steps (eps := eps) ha hb hc
      obtain ⟨ts, e, hl⟩ := params_ends M eps a b
      rw [e] at hch ⊢
      rw [(chainSum_integral _ (Step M a b) (fun t0 t1 hs => by
        obtain ⟨h01, ix, iy, iz, hx, hy, hz, fx, fy, fz, hc⟩ := hs
        exact (part_integral hM.2.2 hM.1 hM.2.1 (show iz < M.z.n by omega) (show ix < M.x.n by omega)
          (show iy < M.y.n by omega) h01
          (fun t u v => (hc t u v).2.2) (fun t u v => (hc t u v).1) (fun t u v => (hc t u v).2.1) hk hi hj).1)
        0 ts hch).2, hl])
    (lineZ M i j k) (fun a b ps => rfl) (fun a => rfl) rfl locs Edges.zero hin hcl
  exact ⟨s, e, by rw [f]; simp [Edges.zero]⟩

/-- **C128.** A closed loop has no divergence. -/
theorem C128_closed (M : Mesh) (hM : Ok M) (eps : ℝ) (a : Pt) (ps : List Pt) (hin : ∀ p ∈ a :: ps, Inner M p)
    (hcl : CleanWire eps (a :: ps)) (hloop : (a :: ps).getLast (by simp) = a) :
    ∃ s, source M eps (a :: ps) = .ok s ∧
      ∀ i j k, i ≤ M.x.n → j ≤ M.y.n → k ≤ M.z.n → gradT M s i j k = 0 := by
  obtain ⟨s, e, f⟩ := C128_divergence M hM eps (a :: ps) hin hcl
  refine ⟨s, e, fun i j k hi hj hk => ?_⟩
  rw [f i j k hi hj hk]
  simp only [ends, hloop, sub_self]

/-- **C128 is violated in the last cells.** A segment beyond the last but one node of the first axis raises,
though it lies in the mesh. -/
theorem C128_violated_last_cell (M : Mesh) (hM : Ok M) (eps : ℝ) (a b : Pt)
    (ha : M.x.node (M.x.n - 1) < a.x) (hb : M.x.node (M.x.n - 1) < b.x) (ps : List Pt) :
    source M eps (a :: b :: ps) = .error .valueError := by
  obtain ⟨ts, e, hl⟩ := params_ends M eps a b
  have hts : ∃ t1 us, ts = t1 :: us := by
    cases ts with
    | nil => simp at hl
    | cons t1 us => exact ⟨t1, us, rfl⟩
  obtain ⟨t1, us, rfl⟩ := hts
  have hmem : t1 ∈ params M eps a b := by rw [e]; simp
  have h1 := mem_params hmem
  have hf : M.x.findLast (at' a b (0.5 * (0 + t1))).x = none := by
    apply findLast_none hM.1
    simp only [at']
    rw [show (0.5:ℝ) * (0 + t1) = t1 / 2 by ring]
    nlinarith
  have hp : part M a b 0 t1 Edges.zero = .error .valueError := by
    unfold part
    simp only [hf]
  simp only [source, wire, e, parts, hp]
  rfl

/-! ### A case -/

/-- Three unit cells. -/
def exG : Grid := ⟨3, fun i => i⟩

/-- Three by three by three unit cells. -/
def exM : Mesh := ⟨exG, exG, exG⟩

/-- A wire across several cells. -/
noncomputable def exW : List Pt := [⟨0.5, 0.5, 1⟩, ⟨1.5, 1.25, 1⟩, ⟨1.5, 2, 2⟩]

theorem exM_ok : Ok exM := by
  have : Incr exG := fun i _ => by simp [exG]
  exact ⟨this, this, this⟩

theorem exW_inner : ∀ p ∈ exW, Inner exM p := by
  intro p hp
  simp only [exW, List.mem_cons, List.not_mem_nil, or_false] at hp
  rcases hp with h | h | h <;> subst h <;> norm_num [Inner, InnerG, exM, exG]

theorem exW_clean : CleanWire 0 exW := by
  norm_num [exW, CleanWire, Clean]

example : ∃ s, source exM 0 exW = .ok s ∧
    ∀ i j k, i ≤ 3 → j ≤ 3 → k ≤ 3 → gradT exM s i j k = ends (hat3 exM i j k) exW :=
  C128_divergence exM exM_ok 0 exW exW_inner exW_clean

/-- The end of the wire has weight one half at the node (1, 2, 2). -/
example : hat3 exM 1 2 2 ⟨1.5, 2, 2⟩ = 1 / 2 := by
  norm_num [hat3, hat, exM, exG]

example : ∃ s, source exM 0 exW = .ok s ∧ s.x 1 1 1 = lineX exM 1 1 1 exW :=
  C128_integral_x exM exM_ok 0 exW exW_inner exW_clean (by decide) (by decide) (by decide)

example : source exM 0 [⟨2.25, 1, 1⟩, ⟨2.75, 1, 1⟩] = .error .valueError :=
  C128_violated_last_cell exM exM_ok 0 _ _ (by norm_num [exM, exG]) (by norm_num [exM, exG]) []

end Verif.EM.Line.Props
