import Verif.PF.Kernel
import Mathlib.Data.Finset.Range
import Mathlib.Algebra.BigOperators.Group.List.Basic
import Mathlib.Algebra.BigOperators.Intervals
import Mathlib.Tactic.FieldSimp

/-!
C176: the compiled loops of the integral simulations of gravity and magnetics
(`simpeg/potential_fields/magnetics/_numba/_3d_mesh.py` and `_2d_mesh.py`,
`simpeg/potential_fields/gravity/_numba/_3d_mesh.py` and `_2d_mesh.py`, `simpeg/potential_fields/_numba_utils.py`).

Arrays are functions of the index, and the loops change them entry by entry as the code does. The functions of the
magnetic components (`…_mag`), of the total field (`…_tmi`) and of its derivatives (`…_tmi_derivative`) differ in the
kernels only, here a table of three or six kernels. Parallel loops run in any order of the receivers; those that add
arrays run in any number of threads, each with its own sum (the reduction of Numba). Arithmetic is that of ℝ.
-/

noncomputable section
namespace Verif.PF.Numba
open Verif Verif.PF Verif.PF.Kernel

abbrev Arr := ℕ → ℝ
/-- A kernel of choclo: three coordinates of the node seen from the receiver, and their distance. -/
abbrev Kern := ℝ → ℝ → ℝ → ℝ → ℝ

/-- `a[p] = x`. -/
def setAt (a : Arr) (p : ℕ) (x : ℝ) : Arr := fun q => if q = p then x else a q

/-- `a[p] += x`. -/
def addAt (a : Arr) (p : ℕ) (x : ℝ) : Arr := fun q => if q = p then a q + x else a q

/-- `for k in range(n)`. -/
def loop {σ : Type} (n : ℕ) (body : ℕ → σ → σ) (s : σ) : σ := (List.range n).foldl (fun s k => body k s) s

/-! ### Kernels on cells -/

/-- `kernels_in_nodes_to_cell` (`simpeg/potential_fields/_numba_utils.py` 18-46). -/
def kernelsInNodesToCell (kernels : Arr) (idx : Fin 8 → ℕ) : ℝ :=
  -kernels (idx 0) + kernels (idx 1) + kernels (idx 2) - kernels (idx 3) + kernels (idx 4) - kernels (idx 5)
    - kernels (idx 6) + kernels (idx 7)

/-- The value of a kernel at a node (`simpeg/potential_fields/magnetics/_numba/_3d_mesh.py` 180-187, and
`_evaluate_kernel`, `simpeg/potential_fields/gravity/_numba/_3d_mesh.py` 472-498). -/
def atNode (k : Kern) (r node : Fin 3 → ℝ) : ℝ :=
  let dx := node 0 - r 0
  let dy := node 1 - r 1
  let dz := node 2 - r 2
  k dx dy dz (Real.sqrt (dx ^ 2 + dy ^ 2 + dz ^ 2))

/-- A kernel of `evaluate_kernels_on_cell` and `evaluate_six_kernels_on_cell`
(`simpeg/potential_fields/_numba_utils.py` 49-146, 149-253): the three nested loops over the two bounds in every
direction. `b` holds west, east, south, north, bottom and top. -/
def evaluateOnCell (k : Kern) (r : Fin 3 → ℝ) (b : Fin 6 → ℝ) : ℝ :=
  loop 2 (fun i s =>
    let shiftEast := if i = 0 then b 1 - r 0 else b 0 - r 0
    loop 2 (fun j s =>
      let shiftNorth := if j = 0 then b 3 - r 1 else b 2 - r 1
      loop 2 (fun l s =>
        let shiftUpward := if l = 0 then b 5 - r 2 else b 4 - r 2
        let radius := Real.sqrt (shiftEast ^ 2 + shiftNorth ^ 2 + shiftUpward ^ 2)
        s + (-1) ^ (i + j + l) * k shiftEast shiftNorth shiftUpward radius) s) s) 0

/-- The cells: by their nodes on three-dimensional meshes, as prisms with bounds on two-dimensional ones. Arrays of
kernels on nodes are not cut at the number of nodes: all indices of cells are taken as valid. -/
inductive Geo
  | nodal (nodes : ℕ → Fin 3 → ℝ) (cells : ℕ → Fin 8 → ℕ)
  | prisms (bounds : ℕ → Fin 6 → ℝ)

/-- A kernel on the cell `c`, as seen from a receiver. -/
def Geo.onCell (g : Geo) (r : Fin 3 → ℝ) (k : Kern) (c : ℕ) : ℝ :=
  match g with
  | .nodal nodes cells => kernelsInNodesToCell (fun j => atNode k r (nodes j)) (cells c)
  | .prisms bounds => evaluateOnCell k r (bounds c)

/-- The kernels of a component: three, or six in the order xx, yy, zz, xy, xz, yz. -/
inductive Kernels
  | mag (x y z : Kern)
  | tmi (xx yy zz xy xz yz : Kern)

/-- A call of one of the functions of magnetics. -/
structure Call where
  geo : Geo
  receivers : ℕ → Fin 3 → ℝ
  nReceivers : ℕ
  nCells : ℕ
  field : Fin 3 → ℝ
  kernels : Kernels
  factor : ℝ
  scalar : Bool

namespace Call
variable (P : Call)

/-- `regional_field_amplitude`. -/
def amplitude : ℝ := Real.sqrt (P.field 0 ^ 2 + P.field 1 ^ 2 + P.field 2 ^ 2)
/-- `fx`. -/
def fx : ℝ := P.field 0 / P.amplitude
/-- `fy`. -/
def fy : ℝ := P.field 1 / P.amplitude
/-- `fz`. -/
def fz : ℝ := P.field 2 / P.amplitude

/-- `ux, uy, uz` (`simpeg/potential_fields/magnetics/_numba/_3d_mesh.py` 188-192) or `bx, by, bz` (343-355). -/
def u (i k : ℕ) : Fin 3 → ℝ :=
  let on := fun q => P.geo.onCell (P.receivers i) q k
  match P.kernels with
  | .mag x y z => ![on x, on y, on z]
  | .tmi xx yy zz xy xz yz =>
    ![on xx * P.fx + on xy * P.fy + on xz * P.fz, on xy * P.fx + on yy * P.fy + on yz * P.fz,
      on xz * P.fx + on yz * P.fy + on zz * P.fz]

/-- One row of `_sensitivity_mag`, `_sensitivity_tmi`, `_sensitivity_tmi_derivative`
(`simpeg/potential_fields/magnetics/_numba/_3d_mesh.py` 188-205, 342-372, 526-556; `_2d_mesh.py` 589-623, 748-788,
880-920). -/
def row (i : ℕ) (a : Arr) : Arr :=
  loop P.nCells (fun k a =>
    let u := P.u i k
    if P.scalar then setAt a k (P.factor * P.amplitude * (u 0 * P.fx + u 1 * P.fy + u 2 * P.fz))
    else
      setAt (setAt (setAt a k (P.factor * P.amplitude * u 0)) (k + P.nCells) (P.factor * P.amplitude * u 1))
        (k + 2 * P.nCells) (P.factor * P.amplitude * u 2)) a

/-- `_sensitivity_*`: `prange` over the receivers in the order `order`; every iteration writes its own row. -/
def sensitivity (order : List ℕ) (M : ℕ → Arr) : ℕ → Arr :=
  order.foldl (fun M i q => if q = i then P.row i (M i) else M q) M

/-- `_mag_sensitivity_t_dot_v_serial` and its two variants (`simpeg/potential_fields/magnetics/_numba/_3d_mesh.py`
623-666, 843-898, 1087-1142; `_2d_mesh.py` 975-1023, 1200-1242, 1421-1469). -/
def tDotSerial (v : Arr) (result : Arr) : Arr :=
  loop P.nReceivers (fun i result => loop P.nCells (fun k result =>
    let u := P.u i k
    if P.scalar then
      addAt result k (P.factor * v i * P.amplitude * (u 0 * P.fx + u 1 * P.fy + u 2 * P.fz))
    else
      addAt (addAt (addAt result k (P.factor * v i * P.amplitude * u 0)) (k + P.nCells)
        (P.factor * v i * P.amplitude * u 1)) (k + 2 * P.nCells) (P.factor * v i * P.amplitude * u 2)) result) result

/-- `local_row` of a receiver (`simpeg/potential_fields/magnetics/_numba/_3d_mesh.py` 759-781); `junk` is what
`np.empty` holds. -/
def tDotLocal (v : Arr) (i : ℕ) (junk : Arr) : Arr :=
  loop P.nCells (fun k row =>
    let u := P.u i k
    if P.scalar then
      setAt row k (P.factor * v i * P.amplitude * (u 0 * P.fx + u 1 * P.fy + u 2 * P.fz))
    else
      setAt (setAt (setAt row k (P.factor * v i * P.amplitude * u 0)) (k + P.nCells)
        (P.factor * v i * P.amplitude * u 1)) (k + 2 * P.nCells) (P.factor * v i * P.amplitude * u 2)) junk

/-- `_diagonal_G_T_dot_G_mag_serial` and its two variants
(`simpeg/potential_fields/magnetics/_numba/_3d_mesh.py` 1330-1369, 1524-1574, 1742-1792; `_2d_mesh.py` 1644-1690,
1854-1893, 2060-2106). -/
def diagonalSerial (w : Arr) (diagonal : Arr) : Arr :=
  loop P.nReceivers (fun i diagonal => loop P.nCells (fun k diagonal =>
    let u := P.u i k
    if P.scalar then
      let g := P.factor * P.amplitude * (u 0 * P.fx + u 1 * P.fy + u 2 * P.fz)
      addAt diagonal k (w i * g ^ 2)
    else
      let const := P.factor * P.amplitude
      addAt (addAt (addAt diagonal k (w i * (const * u 0) ^ 2)) (k + P.nCells) (w i * (const * u 1) ^ 2))
        (k + 2 * P.nCells) (w i * (const * u 2) ^ 2)) diagonal) diagonal

/-- `local_diagonal` of a receiver (`simpeg/potential_fields/magnetics/_numba/_3d_mesh.py` 1452-1468). -/
def diagonalLocal (w : Arr) (i : ℕ) (junk : Arr) : Arr :=
  loop P.nCells (fun k diagonal =>
    let u := P.u i k
    if P.scalar then
      let g := P.factor * P.amplitude * (u 0 * P.fx + u 1 * P.fy + u 2 * P.fz)
      setAt diagonal k (w i * g ^ 2)
    else
      let const := P.factor * P.amplitude
      setAt (setAt (setAt diagonal k (w i * (const * u 0) ^ 2)) (k + P.nCells) (w i * (const * u 1) ^ 2))
        (k + 2 * P.nCells) (w i * (const * u 2) ^ 2)) junk

/-- `fields[i]` after the loop over cells of `_forward_mag`, `_forward_tmi`, `_forward_tmi_derivative`
(`simpeg/potential_fields/magnetics/_numba/_3d_mesh.py` 2020-2064, 2137-2191, 2306-2361; `_2d_mesh.py` 385-431 for the
derivatives). -/
def forwardOne (model : Arr) (i : ℕ) (x : ℝ) : ℝ :=
  loop P.nCells (fun k x =>
    let u := P.u i k
    if P.scalar then
      x + P.factor * model k * P.amplitude * (u 0 * P.fx + u 1 * P.fy + u 2 * P.fz)
    else
      x + P.factor * P.amplitude *
        (u 0 * model k + u 1 * model (k + P.nCells) + u 2 * model (k + 2 * P.nCells))) x

/-- `_forward_*`: `prange` over the receivers in the order `order`. -/
def forward (order : List ℕ) (model fields : Arr) : Arr :=
  order.foldl (fun fields i q => if q = i then P.forwardOne model i (fields i) else fields q) fields

end Call

/-- `result += local_row` in a parallel loop: the receivers of every thread are added to a sum that begins with
zeros, and the sums of the threads to the array. -/
def reduce (threads : List (List ℕ)) (localArray : ℕ → Arr) (result : Arr) : Arr :=
  threads.foldl (fun r t => fun q => r q + t.foldl (fun l i q => l q + localArray i q) (fun _ => 0) q) result

/-- `_mag_sensitivity_t_dot_v_parallel` and its two variants (`simpeg/potential_fields/magnetics/_numba/_3d_mesh.py`
669-786, 901-1022, 1145-1274; `_2d_mesh.py` 1027-1138, 1246-1358, 1473-1592). -/
def Call.tDotParallel (P : Call) (v : Arr) (junk : ℕ → Arr) (threads : List (List ℕ)) (result : Arr) : Arr :=
  reduce threads (fun i => P.tDotLocal v i (junk i)) result

/-- `_diagonal_G_T_dot_G_mag_parallel` and its two variants (`simpeg/potential_fields/magnetics/_numba/_3d_mesh.py`
1373-1475, 1578-1685; `_2d_mesh.py` 1694-1795, 1897-1998, 2110-2219). -/
def Call.diagonalParallel (P : Call) (w : Arr) (junk : ℕ → Arr) (threads : List (List ℕ)) (diagonal : Arr) : Arr :=
  reduce threads (fun i => P.diagonalLocal w i (junk i)) diagonal

/-! ### Specification -/

/-- The columns of the matrix: cells, for vector models three blocks of cells. -/
def Call.nCols (P : Call) : ℕ := if P.scalar then P.nCells else 3 * P.nCells

/-- The entry of the matrix for receiver `i` and column `p`: along the field, or along the direction of the block of
the column. -/
def Call.entry (P : Call) (i p : ℕ) : ℝ :=
  P.factor * P.amplitude *
    if P.scalar then P.u i p 0 * P.fx + P.u i p 1 * P.fy + P.u i p 2 * P.fz
    else P.u i (p % P.nCells) (Fin.ofNat 3 (p / P.nCells))

/-! ### Loops -/

theorem loop_succ {σ : Type} (n : ℕ) (body : ℕ → σ → σ) (s : σ) :
    loop (n + 1) body s = body n (loop n body s) := by
  simp [loop, List.range_succ]

theorem loop_congr {σ : Type} (n : ℕ) (f g : ℕ → σ → σ) (s : σ) (h : ∀ k < n, ∀ s, f k s = g k s) :
    loop n f s = loop n g s := by
  induction n with
  | zero => rfl
  | succ n ih => rw [loop_succ, loop_succ, ih fun k hk => h k (by omega), h n (by omega)]

/-- The two ways to write: `=` and `+=`. -/
def put (add : Bool) (a : Arr) (p : ℕ) (x : ℝ) : Arr := if add then addAt a p x else setAt a p x

theorem put_apply (add : Bool) (a : Arr) (p : ℕ) (x : ℝ) (q : ℕ) :
    put add a p x q = if q = p then (if add then a q else 0) + x else a q := by
  cases add
  · simp [put, setAt]
  · simp [put, addAt]

theorem loop_one (add : Bool) (n : ℕ) (g : ℕ → ℝ) (a : Arr) (p : ℕ) :
    loop n (fun k a => put add a k (g k)) a p = if p < n then (if add then a p else 0) + g p else a p := by
  induction n with
  | zero => simp [loop]
  | succ n ih =>
    rw [loop_succ, put_apply, ih]
    by_cases hp : p = n
    · subst hp
      rw [if_pos rfl, if_pos (show p < p + 1 by omega), if_neg (show ¬p < p by omega)]
    · rw [if_neg hp]
      by_cases h : p < n
      · rw [if_pos h, if_pos (show p < n + 1 by omega)]
      · rw [if_neg h, if_neg (show ¬p < n + 1 by omega)]

theorem loop_three (add : Bool) (n m : ℕ) (hm : m ≤ n) (g : ℕ → Fin 3 → ℝ) (a : Arr) (p : ℕ) :
    loop m (fun k a => put add (put add (put add a k (g k 0)) (k + n) (g k 1)) (k + 2 * n) (g k 2)) a p =
      if p % n < m ∧ p < 3 * n then (if add then a p else 0) + g (p % n) (Fin.ofNat 3 (p / n)) else a p := by
  induction m with
  | zero => simp [loop]
  | succ m ih =>
    have hn : 0 < n := by omega
    rw [loop_succ]
    set b := loop m (fun k a => put add (put add (put add a k (g k 0)) (k + n) (g k 1)) (k + 2 * n) (g k 2)) a
      with hb
    have ihb := ih (by omega)
    have key : ∀ d : ℕ, d < 3 → p = m + d * n → p % n = m ∧ p / n = d := by
      intro d _ hp
      subst hp
      constructor
      · rw [Nat.add_mul_mod_self_right, Nat.mod_eq_of_lt (by omega)]
      · rw [Nat.add_mul_div_right _ _ hn, Nat.div_eq_of_lt (by omega), Nat.zero_add]
    by_cases h0 : p = m
    · obtain ⟨e1, e2⟩ := key 0 (by omega) (by omega)
      rw [put_apply, if_neg (by omega), put_apply, if_neg (by omega), put_apply, if_pos h0, ihb,
        if_neg (show ¬(p % n < m ∧ p < 3 * n) by omega), if_pos (show p % n < m + 1 ∧ p < 3 * n by omega), e1, e2]
      rfl
    · by_cases h1 : p = m + n
      · obtain ⟨e1, e2⟩ := key 1 (by omega) (by omega)
        rw [put_apply, if_neg (by omega), put_apply, if_pos h1, put_apply, if_neg h0, ihb,
          if_neg (show ¬(p % n < m ∧ p < 3 * n) by omega), if_pos (show p % n < m + 1 ∧ p < 3 * n by omega), e1, e2]
        rfl
      · by_cases h2 : p = m + 2 * n
        · obtain ⟨e1, e2⟩ := key 2 (by omega) (by omega)
          rw [put_apply, if_pos h2, put_apply, if_neg h1, put_apply, if_neg h0, ihb,
            if_neg (show ¬(p % n < m ∧ p < 3 * n) by omega), if_pos (show p % n < m + 1 ∧ p < 3 * n by omega), e1, e2]
          rfl
        · rw [put_apply, if_neg h2, put_apply, if_neg h1, put_apply, if_neg h0, ihb]
          by_cases hp : p % n < m ∧ p < 3 * n
          · rw [if_pos hp, if_pos (show p % n < m + 1 ∧ p < 3 * n by omega)]
          · rw [if_neg hp, if_neg]
            rintro ⟨h3, h4⟩
            have h5 : p % n = m := by omega
            have h6 := Nat.mod_add_div p n
            have h7 : p / n < 3 := Nat.div_lt_of_lt_mul (by rw [mul_comm]; exact h4)
            interval_cases (p / n) <;> omega

/-- Scalar and vector models at once. -/
theorem loop_cells (P : Call) (add : Bool) (s : ℕ → ℝ) (t : ℕ → Fin 3 → ℝ) (a : Arr) (p : ℕ) (body : ℕ → Arr → Arr)
    (h : ∀ k a, body k a = if P.scalar then put add a k (s k) else
      put add (put add (put add a k (t k 0)) (k + P.nCells) (t k 1)) (k + 2 * P.nCells) (t k 2)) :
    loop P.nCells body a p =
      if p < P.nCols then (if add then a p else 0) +
        (if P.scalar then s p else t (p % P.nCells) (Fin.ofNat 3 (p / P.nCells))) else a p := by
  rw [loop_congr _ body _ a fun k _ a => h k a]
  unfold Call.nCols
  cases hs : P.scalar
  · simp only [Bool.false_eq_true, if_false]
    rw [loop_three add P.nCells P.nCells le_rfl t a p]
    by_cases hp : p < 3 * P.nCells
    · rw [if_pos ⟨Nat.mod_lt _ (by omega), hp⟩, if_pos hp]
    · rw [if_neg (fun hq => hp hq.2), if_neg hp]
  · simp only [if_true]
    exact loop_one add P.nCells s a p

theorem row_apply (P : Call) (i : ℕ) (a : Arr) (p : ℕ) :
    P.row i a p = if p < P.nCols then P.entry i p else a p := by
  unfold Call.row Call.entry
  rw [loop_cells P false (fun k => P.factor * P.amplitude * (P.u i k 0 * P.fx + P.u i k 1 * P.fy + P.u i k 2 * P.fz))
    (fun k d => P.factor * P.amplitude * P.u i k d) a p _ fun k a => by simp [put]]
  cases P.scalar <;> simp

theorem tDotLocal_apply (P : Call) (v : Arr) (i : ℕ) (a : Arr) (p : ℕ) :
    P.tDotLocal v i a p = if p < P.nCols then P.entry i p * v i else a p := by
  unfold Call.tDotLocal Call.entry
  rw [loop_cells P false
    (fun k => P.factor * v i * P.amplitude * (P.u i k 0 * P.fx + P.u i k 1 * P.fy + P.u i k 2 * P.fz))
    (fun k d => P.factor * v i * P.amplitude * P.u i k d) a p _ fun k a => by simp [put]]
  by_cases hp : p < P.nCols
  · rw [if_pos hp, if_pos hp]
    cases P.scalar <;> simp <;> ring
  · rw [if_neg hp, if_neg hp]

theorem diagonalLocal_apply (P : Call) (w : Arr) (i : ℕ) (a : Arr) (p : ℕ) :
    P.diagonalLocal w i a p = if p < P.nCols then w i * P.entry i p ^ 2 else a p := by
  unfold Call.diagonalLocal Call.entry
  rw [loop_cells P false
    (fun k => w i * (P.factor * P.amplitude * (P.u i k 0 * P.fx + P.u i k 1 * P.fy + P.u i k 2 * P.fz)) ^ 2)
    (fun k d => w i * (P.factor * P.amplitude * P.u i k d) ^ 2) a p _ fun k a => by simp [put]]
  by_cases hp : p < P.nCols
  · rw [if_pos hp, if_pos hp]
    cases P.scalar <;> simp
  · rw [if_neg hp, if_neg hp]

/-- Loops over receivers that add to an array. -/
theorem loop_receivers (n : ℕ) (body : ℕ → Arr → Arr) (nCols : ℕ) (g : ℕ → Arr)
    (h : ∀ i a p, body i a p = if p < nCols then a p + g i p else a p) (a : Arr) (p : ℕ) :
    loop n body a p = if p < nCols then a p + ∑ i ∈ Finset.range n, g i p else a p := by
  induction n with
  | zero => simp [loop]
  | succ n ih =>
    rw [loop_succ, h, ih]
    by_cases hp : p < nCols
    · rw [if_pos hp, if_pos hp, if_pos hp, Finset.sum_range_succ]
      ring
    · rw [if_neg hp, if_neg hp, if_neg hp]

theorem thread_apply (t : List ℕ) (f : ℕ → Arr) (l : Arr) (q : ℕ) :
    t.foldl (fun l i q => l q + f i q) l q = l q + (t.map fun i => f i q).sum := by
  induction t generalizing l with
  | nil => simp
  | cons i t ih =>
    rw [List.foldl_cons, ih, List.map_cons, List.sum_cons]
    ring

theorem reduce_apply (threads : List (List ℕ)) (f : ℕ → Arr) (a : Arr) (q : ℕ) :
    reduce threads f a q = a q + (threads.flatten.map fun i => f i q).sum := by
  unfold reduce
  induction threads generalizing a with
  | nil => simp
  | cons t ts ih =>
    rw [List.foldl_cons, ih, List.flatten_cons, List.map_append, List.sum_append, thread_apply]
    ring

theorem sum_order (order : List ℕ) (n : ℕ) (h : order.Perm (List.range n)) (f : ℕ → ℝ) :
    (order.map f).sum = ∑ i ∈ Finset.range n, f i := by
  rw [(h.map f).sum_eq, ← List.sum_toFinset f List.nodup_range]
  congr 1
  ext i
  simp

theorem foldl_rows {α : Type} (order : List ℕ) (hn : order.Nodup) (f : ℕ → α → α) (M : ℕ → α) (i : ℕ) :
    order.foldl (fun M i q => if q = i then f i (M i) else M q) M i = if i ∈ order then f i (M i) else M i := by
  induction order generalizing M with
  | nil => simp
  | cons j order ih =>
    rw [List.nodup_cons] at hn
    rw [List.foldl_cons, ih hn.2]
    by_cases hj : i = j
    · subst hj
      simp [hn.1]
    · simp [hj]

/-! ### Theorems -/

section
variable (P : Call)

/-- C176. The matrix: whatever it held before and in whatever order the receivers are computed, row `i` holds the
entries of receiver `i`, and nothing else is written. -/
theorem C176_matrix (order : List ℕ) (h : order.Perm (List.range P.nReceivers)) (M : ℕ → Arr) (i p : ℕ) :
    P.sensitivity order M i p = if i < P.nReceivers ∧ p < P.nCols then P.entry i p else M i p := by
  unfold Call.sensitivity
  rw [foldl_rows order (h.nodup_iff.2 List.nodup_range) (fun i a => P.row i a) M i]
  by_cases hi : i < P.nReceivers
  · rw [if_pos (h.mem_iff.2 (List.mem_range.2 hi)), row_apply]
    by_cases hp : p < P.nCols
    · rw [if_pos hp, if_pos ⟨hi, hp⟩]
    · rw [if_neg hp, if_neg fun q => hp q.2]
  · rw [if_neg fun q => hi (List.mem_range.1 (h.mem_iff.1 q)), if_neg fun q => hi q.1]

example : [2, 0, 1].Perm (List.range 3) := by decide

/-- C176. Products with the transpose, one receiver after another: `Gᵀ v` is added to the array. -/
theorem C176_transpose_serial (v result : Arr) (p : ℕ) (hp : p < P.nCols) :
    P.tDotSerial v result p = result p + ∑ i ∈ Finset.range P.nReceivers, P.entry i p * v i := by
  unfold Call.tDotSerial
  rw [loop_receivers P.nReceivers _ P.nCols (fun i p => P.entry i p * v i) _ result p, if_pos hp]
  intro i a p
  rw [loop_cells P true
    (fun k => P.factor * v i * P.amplitude * (P.u i k 0 * P.fx + P.u i k 1 * P.fy + P.u i k 2 * P.fz))
    (fun k d => P.factor * v i * P.amplitude * P.u i k d) a p _ fun k a => by simp [put]]
  unfold Call.entry
  by_cases hp : p < P.nCols
  · rw [if_pos hp, if_pos hp]
    cases P.scalar <;> simp <;> ring
  · rw [if_neg hp, if_neg hp]

/-- C176. The same in parallel, for every distribution of the receivers over threads and every order in them, and
whatever memory the local arrays were given. -/
theorem C176_transpose_parallel (v result : Arr) (junk : ℕ → Arr) (threads : List (List ℕ))
    (h : threads.flatten.Perm (List.range P.nReceivers)) (p : ℕ) (hp : p < P.nCols) :
    P.tDotParallel v junk threads result p = P.tDotSerial v result p := by
  rw [C176_transpose_serial P v result p hp]
  unfold Call.tDotParallel
  rw [reduce_apply, sum_order _ _ h]
  congr 1
  refine Finset.sum_congr rfl fun i _ => ?_
  rw [tDotLocal_apply, if_pos hp]

example : [[3, 1], [], [0, 2, 4]].flatten.Perm (List.range 5) := by decide

/-- C176. The diagonal of `Gᵀ W G`, one receiver after another. -/
theorem C176_diagonal_serial (w diagonal : Arr) (p : ℕ) (hp : p < P.nCols) :
    P.diagonalSerial w diagonal p = diagonal p + ∑ i ∈ Finset.range P.nReceivers, w i * P.entry i p ^ 2 := by
  unfold Call.diagonalSerial
  rw [loop_receivers P.nReceivers _ P.nCols (fun i p => w i * P.entry i p ^ 2) _ diagonal p, if_pos hp]
  intro i a p
  rw [loop_cells P true
    (fun k => w i * (P.factor * P.amplitude * (P.u i k 0 * P.fx + P.u i k 1 * P.fy + P.u i k 2 * P.fz)) ^ 2)
    (fun k d => w i * (P.factor * P.amplitude * P.u i k d) ^ 2) a p _ fun k a => by simp [put]]
  unfold Call.entry
  by_cases hp : p < P.nCols
  · rw [if_pos hp, if_pos hp]
    cases P.scalar <;> simp
  · rw [if_neg hp, if_neg hp]

/-- C176. The diagonal in parallel. -/
theorem C176_diagonal_parallel (w diagonal : Arr) (junk : ℕ → Arr) (threads : List (List ℕ))
    (h : threads.flatten.Perm (List.range P.nReceivers)) (p : ℕ) (hp : p < P.nCols) :
    P.diagonalParallel w junk threads diagonal p = P.diagonalSerial w diagonal p := by
  rw [C176_diagonal_serial P w diagonal p hp]
  unfold Call.diagonalParallel
  rw [reduce_apply, sum_order _ _ h]
  congr 1
  refine Finset.sum_congr rfl fun i _ => ?_
  rw [diagonalLocal_apply, if_pos hp]

/-- Sums over three blocks. -/
theorem sum_blocks (n : ℕ) (f : ℕ → ℝ) :
    ∑ p ∈ Finset.range (3 * n), f p = ∑ k ∈ Finset.range n, (f k + f (k + n) + f (k + 2 * n)) := by
  rw [show 3 * n = n + n + n by ring, Finset.sum_range_add, Finset.sum_range_add, Finset.sum_add_distrib,
    Finset.sum_add_distrib]
  congr 1
  · congr 1
    exact Finset.sum_congr rfl fun k _ => by rw [add_comm]
  · exact Finset.sum_congr rfl fun k _ => by congr 1; ring

theorem forwardOne_eq (model : Arr) (i : ℕ) (x : ℝ) :
    P.forwardOne model i x = x + ∑ p ∈ Finset.range P.nCols, P.entry i p * model p := by
  have gen : ∀ n (g : ℕ → ℝ), loop n (fun k x => x + g k) x = x + ∑ k ∈ Finset.range n, g k := by
    intro n g
    induction n with
    | zero => simp [loop]
    | succ n ih => rw [loop_succ, ih, Finset.sum_range_succ, add_assoc]
  unfold Call.forwardOne Call.nCols Call.entry
  cases hs : P.scalar
  · simp only [Bool.false_eq_true, if_false]
    rw [gen, sum_blocks]
    congr 1
    refine Finset.sum_congr rfl fun k hk => ?_
    rw [Finset.mem_range] at hk
    have hn : 0 < P.nCells := by omega
    have e1 : (k + P.nCells) % P.nCells = k := by rw [Nat.add_mod_right, Nat.mod_eq_of_lt hk]
    have e2 : (k + 2 * P.nCells) % P.nCells = k := by rw [Nat.add_mul_mod_self_right, Nat.mod_eq_of_lt hk]
    have e3 : (k + P.nCells) / P.nCells = 1 := by
      rw [Nat.add_div_right _ hn, Nat.div_eq_of_lt hk]
    have e4 : (k + 2 * P.nCells) / P.nCells = 2 := by
      rw [Nat.add_mul_div_right _ _ hn, Nat.div_eq_of_lt hk]
    rw [e1, e2, e3, e4, Nat.mod_eq_of_lt hk, Nat.div_eq_of_lt hk]
    rw [show (Fin.ofNat 3 0) = 0 from rfl, show (Fin.ofNat 3 1) = 1 from rfl, show (Fin.ofNat 3 2) = 2 from rfl]
    ring
  · simp only [if_true]
    rw [gen]
    congr 1
    exact Finset.sum_congr rfl fun k _ => by ring

/-- C176. Fields without a matrix: `G m` is added to the array, in whatever order the receivers are computed. -/
theorem C176_forward (order : List ℕ) (h : order.Perm (List.range P.nReceivers)) (model fields : Arr) (i : ℕ) :
    P.forward order model fields i =
      if i < P.nReceivers then fields i + ∑ p ∈ Finset.range P.nCols, P.entry i p * model p else fields i := by
  unfold Call.forward
  rw [foldl_rows order (h.nodup_iff.2 List.nodup_range) (fun i x => P.forwardOne model i x) fields i]
  by_cases hi : i < P.nReceivers
  · rw [if_pos (h.mem_iff.2 (List.mem_range.2 hi)), forwardOne_eq, if_pos hi]
  · rw [if_neg fun q => hi (List.mem_range.1 (h.mem_iff.1 q)), if_neg hi]

/-- C176. All functions agree with one matrix: begun with zeros, for any orders and threads, the fields are the
stored matrix times the model, products with the transpose are adjoint to them, and the diagonal is that of
`Gᵀ W G`. -/
theorem C176_agree (o1 o2 : List ℕ) (h1 : o1.Perm (List.range P.nReceivers)) (h2 : o2.Perm (List.range P.nReceivers))
    (threads : List (List ℕ)) (h3 : threads.flatten.Perm (List.range P.nReceivers)) (M junk : ℕ → Arr)
    (m v w : Arr) :
    (∀ i < P.nReceivers, P.forward o2 m (fun _ => 0) i =
      ∑ p ∈ Finset.range P.nCols, P.sensitivity o1 M i p * m p) ∧
    ∑ i ∈ Finset.range P.nReceivers, v i * P.forward o2 m (fun _ => 0) i =
      ∑ p ∈ Finset.range P.nCols, P.tDotParallel v junk threads (fun _ => 0) p * m p ∧
    ∀ p < P.nCols, P.diagonalParallel w junk threads (fun _ => 0) p =
      ∑ i ∈ Finset.range P.nReceivers, P.sensitivity o1 M i p * w i * P.sensitivity o1 M i p := by
  refine ⟨fun i hi => ?_, ?_, fun p hp => ?_⟩
  · rw [C176_forward P o2 h2, if_pos hi, zero_add]
    refine Finset.sum_congr rfl fun p hp => ?_
    rw [C176_matrix P o1 h1, if_pos ⟨hi, Finset.mem_range.1 hp⟩]
  · have e1 : ∑ i ∈ Finset.range P.nReceivers, v i * P.forward o2 m (fun _ => 0) i =
        ∑ i ∈ Finset.range P.nReceivers, ∑ p ∈ Finset.range P.nCols, v i * (P.entry i p * m p) := by
      refine Finset.sum_congr rfl fun i hi => ?_
      rw [C176_forward P o2 h2, if_pos (Finset.mem_range.1 hi), zero_add, Finset.mul_sum]
    rw [e1, Finset.sum_comm]
    refine Finset.sum_congr rfl fun p hp => ?_
    rw [C176_transpose_parallel P v _ junk threads h3 p (Finset.mem_range.1 hp),
      C176_transpose_serial P v _ p (Finset.mem_range.1 hp), zero_add, Finset.sum_mul]
    exact Finset.sum_congr rfl fun i _ => by ring
  · rw [C176_diagonal_parallel P w _ junk threads h3 p hp, C176_diagonal_serial P w _ p hp, zero_add]
    refine Finset.sum_congr rfl fun i hi => ?_
    rw [C176_matrix P o1 h1, if_pos ⟨Finset.mem_range.1 hi, hp⟩]
    ring

end

/-! ### Entries -/

/-- A kernel as a function of the vector from the receiver to the node. -/
def ofVector (k : Kern) : (Fin 3 → ℝ) → ℝ := fun d => k (d 0) (d 1) (d 2) (Real.sqrt (d 0 ^ 2 + d 1 ^ 2 + d 2 ^ 2))

/-- The table of C88 for the given kernels. -/
def Kernels.table : Kernels → Table
  | .mag x y z => .vec (ofVector x) (ofVector y) (ofVector z)
  | .tmi xx yy zz xy xz yz =>
    .tmi (ofVector xx) (ofVector yy) (ofVector zz) (ofVector xy) (ofVector xz) (ofVector yz)

/-- The eight corners of a prism, x running first, then y, then z. -/
def prismCorner (b : Fin 6 → ℝ) (c : Fin 8) : Fin 3 → ℝ :=
  ![if c.val % 2 = 0 then b 0 else b 1, if c.val / 2 % 2 = 0 then b 2 else b 3, if c.val / 4 = 0 then b 4 else b 5]

/-- The corners of cell `k`, seen from a place. -/
def Geo.seen (g : Geo) (r : Fin 3 → ℝ) (k : ℕ) : Fin 8 → Fin 3 → ℝ := fun c =>
  match g with
  | .nodal nodes cells => fun d => nodes (cells k c) d - r d
  | .prisms bounds => fun d => prismCorner (bounds k) c d - r d

theorem onCell_eq (g : Geo) (r : Fin 3 → ℝ) (k : ℕ) (q : Kern) :
    g.onCell r q k = Verif.PF.Kernel.onCell (g.seen r k) (ofVector q) := by
  cases g with
  | nodal nodes cells =>
    unfold Geo.onCell Geo.seen Verif.PF.Kernel.onCell chocloCell kernelsInNodesToCell atNode ofVector
    rfl
  | prisms bounds =>
    unfold Geo.onCell Geo.seen Verif.PF.Kernel.onCell chocloCell evaluateOnCell ofVector prismCorner
    simp [loop, List.range_succ]
    ring

/-- C176. Both kinds of meshes: what is summed for a cell are the kernels at its eight corners with the signs of the
triple difference, so a prism with the corners of a cell gives the same values; with the factor `1 / (4 π)` the
entries are those of C88. -/
theorem C176_entries (P : Call) (i k : ℕ) :
    P.u i k = chocloVec (unit P.field) (P.geo.seen (P.receivers i) k) P.kernels.table ∧
    ∀ (bounds : ℕ → Fin 6 → ℝ) (nodes : ℕ → Fin 3 → ℝ) (cells : ℕ → Fin 8 → ℕ),
      (∀ c, nodes (cells k c) = prismCorner (bounds k) c) →
      ({P with geo := .nodal nodes cells} : Call).u i k = ({P with geo := .prisms bounds} : Call).u i k := by
  have key : ∀ P : Call, P.u i k = chocloVec (unit P.field) (P.geo.seen (P.receivers i) k) P.kernels.table := by
    intro P
    unfold Call.u chocloVec Kernels.table
    cases P.kernels with
    | mag x y z => simp only [onCell_eq]
    | tmi xx yy zz xy xz yz =>
      simp only [onCell_eq]
      rfl
  refine ⟨key P, fun bounds nodes cells hc => ?_⟩
  rw [key, key]
  have : Geo.seen (.nodal nodes cells) (P.receivers i) k = Geo.seen (.prisms bounds) (P.receivers i) k := by
    funext c d
    simp only [Geo.seen, hc]
  simp only [this]

example : ∃ (nodes : ℕ → Fin 3 → ℝ) (cells : ℕ → Fin 8 → ℕ) (bounds : ℕ → Fin 6 → ℝ),
    ∀ c, nodes (cells 0 c) = prismCorner (bounds 0) c :=
  ⟨fun j => prismCorner (fun i => (i.val : ℝ)) (Fin.ofNat 8 j), fun _ c => c.val, fun _ i => (i.val : ℝ), fun c => by
    simp⟩

/-! ### Fields of prisms by the functions of choclo -/

/-- `fields[i]` after the loop of `_forward_mag` for two-dimensional meshes
(`simpeg/potential_fields/magnetics/_numba/_2d_mesh.py` 106-147); `F` is `forward_func` for receiver `i`. -/
def Call.forwardMag2 (P : Call) (mu0 : ℝ) (F : ℕ → (Fin 3 → ℝ) → ℝ) (model : Arr) (x : ℝ) : ℝ :=
  loop P.nCells (fun j x =>
    let m : Fin 3 → ℝ := if P.scalar then ![model j * P.fx, model j * P.fy, model j * P.fz]
      else ![model j, model (j + P.nCells), model (j + 2 * P.nCells)]
    x + P.amplitude * F j m / mu0) x

/-- `_forward_tmi` for two-dimensional meshes (`simpeg/potential_fields/magnetics/_numba/_2d_mesh.py` 224-266); `B` is
`choclo.prism.magnetic_field`. -/
def Call.forwardTmi2 (P : Call) (mu0 : ℝ) (B : ℕ → (Fin 3 → ℝ) → Fin 3 → ℝ) (model : Arr) (x : ℝ) : ℝ :=
  loop P.nCells (fun j x =>
    let m : Fin 3 → ℝ := if P.scalar then ![model j * P.fx, model j * P.fy, model j * P.fz]
      else ![model j, model (j + P.nCells), model (j + 2 * P.nCells)]
    let b := B j m
    x + P.amplitude * (b 0 * P.fx + b 1 * P.fy + b 2 * P.fz) / mu0) x

/-- `_forward_tmi_derivative` for two-dimensional meshes
(`simpeg/potential_fields/magnetics/_numba/_2d_mesh.py` 385-431). -/
def Call.forwardDer2 (P : Call) (xx yy zz xy xz yz : Kern) (i : ℕ) (model : Arr) (x : ℝ) : ℝ :=
  loop P.nCells (fun j x =>
    let on := fun q => P.geo.onCell (P.receivers i) q j
    if P.scalar then
      let bx := on xx * P.fx + on xy * P.fy + on xz * P.fz
      let by' := on xy * P.fx + on yy * P.fy + on yz * P.fz
      let bz := on xz * P.fx + on yz * P.fy + on zz * P.fz
      x + model j * P.amplitude * (P.fx * bx + P.fy * by' + P.fz * bz) / (4 * Real.pi)
    else
      let mx := model j
      let my := model (j + P.nCells)
      let mz := model (j + 2 * P.nCells)
      let bx := on xx * mx + on xy * my + on xz * mz
      let by' := on xy * mx + on yy * my + on yz * mz
      let bz := on xz * mx + on yz * my + on zz * mz
      x + P.amplitude * (bx * P.fx + by' * P.fy + bz * P.fz) / 4 / Real.pi) x

/-- C176. The fields of prisms agree with the matrix, if the functions of choclo that return fields are the kernels
that choclo offers, integrated and multiplied with the magnetization. -/
theorem C176_prisms (P : Call) (hf : P.factor = 1 / 4 / Real.pi) (mu0 : ℝ) (hmu : mu0 ≠ 0) (i : ℕ) (model : Arr)
    (x : ℝ) :
    (∀ kx ky kz F, P.kernels = .mag kx ky kz →
      (∀ j m, F j m = mu0 / (4 * Real.pi) * (P.geo.onCell (P.receivers i) kx j * m 0 +
        P.geo.onCell (P.receivers i) ky j * m 1 + P.geo.onCell (P.receivers i) kz j * m 2)) →
      P.forwardMag2 mu0 F model x = x + ∑ p ∈ Finset.range P.nCols, P.entry i p * model p) ∧
    (∀ xx yy zz xy xz yz B, P.kernels = .tmi xx yy zz xy xz yz →
      (∀ j m, B j m = fun d => mu0 / (4 * Real.pi) *
        (![P.geo.onCell (P.receivers i) xx j, P.geo.onCell (P.receivers i) xy j, P.geo.onCell (P.receivers i) xz j] d
          * m 0 +
        ![P.geo.onCell (P.receivers i) xy j, P.geo.onCell (P.receivers i) yy j, P.geo.onCell (P.receivers i) yz j] d
          * m 1 +
        ![P.geo.onCell (P.receivers i) xz j, P.geo.onCell (P.receivers i) yz j, P.geo.onCell (P.receivers i) zz j] d
          * m 2)) →
      P.forwardTmi2 mu0 B model x = x + ∑ p ∈ Finset.range P.nCols, P.entry i p * model p) ∧
    ∀ xx yy zz xy xz yz, P.kernels = .tmi xx yy zz xy xz yz →
      P.forwardDer2 xx yy zz xy xz yz i model x = x + ∑ p ∈ Finset.range P.nCols, P.entry i p * model p := by
  have hpi : Real.pi ≠ 0 := Real.pi_ne_zero
  refine ⟨fun kx ky kz F hk hF => ?_, fun xx yy zz xy xz yz B hk hB => ?_, fun xx yy zz xy xz yz hk => ?_⟩
  · rw [← forwardOne_eq]
    unfold Call.forwardMag2 Call.forwardOne
    refine loop_congr _ _ _ _ fun k _ s => ?_
    simp only [Call.u, hk, hF, hf]
    cases P.scalar <;> simp <;> field_simp
  · rw [← forwardOne_eq]
    unfold Call.forwardTmi2 Call.forwardOne
    refine loop_congr _ _ _ _ fun k _ s => ?_
    simp only [Call.u, hk, hB, hf]
    cases P.scalar <;> simp <;> field_simp <;> ring
  · rw [← forwardOne_eq]
    unfold Call.forwardDer2 Call.forwardOne
    refine loop_congr _ _ _ _ fun k _ s => ?_
    simp only [Call.u, hk, hf]
    cases P.scalar <;> simp <;> field_simp <;> ring

example : (1 : ℝ) / 4 / Real.pi = 1 / (4 * Real.pi) ∧ (4 * Real.pi * 1e-7 : ℝ) ≠ 0 :=
  ⟨by field_simp, by have := Real.pi_pos; positivity⟩

/-! ### Gravity -/

/-- A call of one of the functions of gravity: `one i k ρ` is what a cell of density `ρ` adds at a receiver. On
three-dimensional meshes `constant_factor * ρ * kernels_in_nodes_to_cell(…)`, on two-dimensional ones
`constant_factor * forward_func(…, ρ)`. -/
structure GCall where
  nReceivers : ℕ
  nCells : ℕ
  one : ℕ → ℕ → ℝ → ℝ

/-- `_forward_gravity` (`simpeg/potential_fields/gravity/_numba/_3d_mesh.py` 68-94, `_2d_mesh.py` 77-93). -/
def GCall.forward (P : GCall) (order : List ℕ) (densities fields : Arr) : Arr :=
  order.foldl (fun fields i q =>
    if q = i then loop P.nCells (fun k x => x + P.one i k (densities k)) (fields i) else fields q) fields

/-- `_sensitivity_gravity` (`simpeg/potential_fields/gravity/_numba/_3d_mesh.py` 141-163, `_2d_mesh.py` 144-160). -/
def GCall.sensitivity (P : GCall) (order : List ℕ) (M : ℕ → Arr) : ℕ → Arr :=
  order.foldl (fun M i q => if q = i then loop P.nCells (fun k a => setAt a k (P.one i k 1)) (M i) else M q) M

/-- `_sensitivity_gravity_t_dot_v_serial` (`simpeg/potential_fields/gravity/_numba/_3d_mesh.py` 362-389),
`_g_t_dot_v_serial` (`_2d_mesh.py` 206-223). -/
def GCall.tDotSerial (P : GCall) (v result : Arr) : Arr :=
  loop P.nReceivers (fun i result => loop P.nCells (fun k a => addAt a k (P.one i k (v i))) result) result

/-- `_sensitivity_gravity_t_dot_v_parallel` (`simpeg/potential_fields/gravity/_numba/_3d_mesh.py` 436-469),
`_g_t_dot_v_parallel` (`_2d_mesh.py` 271-295). -/
def GCall.tDotParallel (P : GCall) (v : Arr) (junk : ℕ → Arr) (threads : List (List ℕ)) (result : Arr) : Arr :=
  reduce threads (fun i => loop P.nCells (fun k a => setAt a k (P.one i k (v i))) (junk i)) result

/-- `_diagonal_G_T_dot_G_serial` (`simpeg/potential_fields/gravity/_numba/_3d_mesh.py` 205-234, `_2d_mesh.py`
341-358). -/
def GCall.diagonalSerial (P : GCall) (w diagonal : Arr) : Arr :=
  loop P.nReceivers (fun i result => loop P.nCells (fun k a => addAt a k (w i * P.one i k 1 ^ 2)) result) diagonal

/-- `_diagonal_G_T_dot_G_parallel` (`simpeg/potential_fields/gravity/_numba/_3d_mesh.py` 281-317, `_2d_mesh.py`
409-434). -/
def GCall.diagonalParallel (P : GCall) (w : Arr) (junk : ℕ → Arr) (threads : List (List ℕ)) (diagonal : Arr) : Arr :=
  reduce threads (fun i => loop P.nCells (fun k a => setAt a k (w i * P.one i k 1 ^ 2)) (junk i)) diagonal

/-- C176. Gravity: for cells whose attraction is proportional to their density, the matrix, the fields, the
products with the transpose and the diagonal agree, serial and parallel, for all orders and threads and whatever the
arrays held. -/
theorem C176_gravity (P : GCall) (hl : ∀ i k ρ, P.one i k ρ = P.one i k 1 * ρ) (o1 o2 : List ℕ)
    (h1 : o1.Perm (List.range P.nReceivers)) (h2 : o2.Perm (List.range P.nReceivers)) (threads : List (List ℕ))
    (h3 : threads.flatten.Perm (List.range P.nReceivers)) (M junk : ℕ → Arr) (m v w a : Arr) :
    (∀ i < P.nReceivers, ∀ k < P.nCells, P.sensitivity o1 M i k = P.one i k 1) ∧
    (∀ i < P.nReceivers, P.forward o2 m a i = a i + ∑ k ∈ Finset.range P.nCells, P.sensitivity o1 M i k * m k) ∧
    (∀ k < P.nCells, P.tDotSerial v a k =
      a k + ∑ i ∈ Finset.range P.nReceivers, P.sensitivity o1 M i k * v i) ∧
    (∀ k < P.nCells, P.tDotParallel v junk threads a k = P.tDotSerial v a k) ∧
    (∀ k < P.nCells, P.diagonalSerial w a k =
      a k + ∑ i ∈ Finset.range P.nReceivers, w i * P.sensitivity o1 M i k ^ 2) ∧
    ∀ k < P.nCells, P.diagonalParallel w junk threads a k = P.diagonalSerial w a k := by
  have hset : ∀ (g : ℕ → ℝ) (a : Arr) (p : ℕ),
      loop P.nCells (fun k a => setAt a k (g k)) a p = if p < P.nCells then g p else a p := by
    intro g a p
    have := loop_one false P.nCells g a p
    simpa [put] using this
  have hadd : ∀ (g : ℕ → ℝ) (a : Arr) (p : ℕ),
      loop P.nCells (fun k a => addAt a k (g k)) a p = if p < P.nCells then a p + g p else a p := by
    intro g a p
    have := loop_one true P.nCells g a p
    simpa [put] using this
  have gen : ∀ n (g : ℕ → ℝ) (x : ℝ), loop n (fun k x => x + g k) x = x + ∑ k ∈ Finset.range n, g k := by
    intro n g x
    induction n with
    | zero => simp [loop]
    | succ n ih => rw [loop_succ, ih, Finset.sum_range_succ, add_assoc]
  have hM : ∀ i < P.nReceivers, ∀ k < P.nCells, P.sensitivity o1 M i k = P.one i k 1 := by
    intro i hi k hk
    unfold GCall.sensitivity
    rw [foldl_rows o1 (h1.nodup_iff.2 List.nodup_range)
      (fun i a => loop P.nCells (fun k a => setAt a k (P.one i k 1)) a) M i,
      if_pos (h1.mem_iff.2 (List.mem_range.2 hi)), hset, if_pos hk]
  have hT : ∀ k < P.nCells, P.tDotSerial v a k =
      a k + ∑ i ∈ Finset.range P.nReceivers, P.one i k (v i) := by
    intro k hk
    unfold GCall.tDotSerial
    rw [loop_receivers P.nReceivers _ P.nCells (fun i k => P.one i k (v i)) (fun i a p => hadd _ a p) a k, if_pos hk]
  have hD : ∀ k < P.nCells, P.diagonalSerial w a k =
      a k + ∑ i ∈ Finset.range P.nReceivers, w i * P.one i k 1 ^ 2 := by
    intro k hk
    unfold GCall.diagonalSerial
    rw [loop_receivers P.nReceivers _ P.nCells (fun i k => w i * P.one i k 1 ^ 2) (fun i a p => hadd _ a p) a k,
      if_pos hk]
  refine ⟨hM, fun i hi => ?_, fun k hk => ?_, fun k hk => ?_, fun k hk => ?_, fun k hk => ?_⟩
  · unfold GCall.forward
    rw [foldl_rows o2 (h2.nodup_iff.2 List.nodup_range)
      (fun i x => loop P.nCells (fun k x => x + P.one i k (m k)) x) a i,
      if_pos (h2.mem_iff.2 (List.mem_range.2 hi)), gen]
    congr 1
    refine Finset.sum_congr rfl fun k hk => ?_
    rw [hM i hi k (Finset.mem_range.1 hk), hl]
  · rw [hT k hk]
    congr 1
    refine Finset.sum_congr rfl fun i hi => ?_
    rw [hM i (Finset.mem_range.1 hi) k hk, hl]
  · rw [hT k hk]
    unfold GCall.tDotParallel
    rw [reduce_apply, sum_order _ _ h3]
    congr 1
    refine Finset.sum_congr rfl fun i _ => ?_
    rw [hset, if_pos hk]
  · rw [hD k hk]
    congr 1
    refine Finset.sum_congr rfl fun i hi => ?_
    rw [hM i (Finset.mem_range.1 hi) k hk]
  · rw [hD k hk]
    unfold GCall.diagonalParallel
    rw [reduce_apply, sum_order _ _ h3]
    congr 1
    refine Finset.sum_congr rfl fun i _ => ?_
    rw [hset, if_pos hk]

/-- Three-dimensional meshes meet the hypothesis, with values that differ from cell to cell. -/
example (factor : ℝ) (g : ℕ → ℕ → ℝ) :
    ∀ i k ρ, (GCall.mk 3 5 fun i k ρ => factor * ρ * g i k).one i k ρ =
      (GCall.mk 3 5 fun i k ρ => factor * ρ * g i k).one i k 1 * ρ := by
  intro i k ρ
  simp only
  ring

end Verif.PF.Numba
