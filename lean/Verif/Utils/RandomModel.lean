import Verif.Basic
import Mathlib.Analysis.SpecialFunctions.Trigonometric.Arctan
import Mathlib.Analysis.SpecialFunctions.Sqrt
import Mathlib.Data.Fintype.Pi
import Mathlib.Data.Fintype.BigOperators
import Mathlib.Algebra.BigOperators.Fin
import Mathlib.Algebra.BigOperators.Field
import Mathlib.Algebra.Order.BigOperators.Group.Finset
import Mathlib.Data.Finset.Lattice.Fold
import Mathlib.Tactic.Linarith
import Mathlib.Tactic.FieldSimp
import Mathlib.Tactic.Ring
import Mathlib.Tactic.FinCases
import Mathlib.Tactic.NormNum

/-!
C180: random and elliptic models, models from functions and the checks of polygons,
`simpeg/utils/model_builder.py` (`create_random_model` 470-550, `create_ellipse_in_wholespace` 203-254,
`create_from_function` 379-413, `get_indices_polygon` 553-577).

Simplified: the numbers are real; the random numbers are any numbers; `none` stands for models with NaN.
-/

namespace Verif.Utils.RandomModel

noncomputable section

/-! ### Model: random models -/

/-- The cells of an array of shape `n`. -/
abbrev Cells {d : ℕ} (n : Fin d → ℕ) := (k : Fin d) → Fin (n k)

/-- Index outside of the array in the mode "reflect" of `scipy.ndimage` (d c b a | a b c d | d c b a). -/
def reflect (n : ℕ) (p : ℤ) : ℕ :=
  let q := (p % (2 * n : ℤ)).toNat
  if q < n then q else 2 * n - 1 - q

theorem reflect_lt (n : ℕ) (p : ℤ) (h : 0 < n) : reflect n p < n := by
  unfold reflect
  have h1 := Int.emod_nonneg p (show (2 * n : ℤ) ≠ 0 by omega)
  have h2 := Int.emod_lt_of_pos p (show (0 : ℤ) < 2 * n by omega)
  simp only
  split_ifs with h
  · exact h
  · omega

/-- The cell which the entry `o` of the kernel of shape `w` takes for the cell `i`: the kernel is reversed, its
centre is `w // 2`. -/
def neighbour {d : ℕ} {n w : Fin d → ℕ} (i : Cells n) (o : Cells w) : Cells n := fun k =>
  ⟨reflect (n k) ((i k : ℤ) + (w k / 2 : ℕ) - (o k : ℤ)), reflect_lt _ _ (Fin.pos (i k))⟩

/-- `ndi.convolve(mi, smth)` (544). -/
def convolve {d : ℕ} {n w : Fin d → ℕ} (smth : Cells w → ℝ) (m : Cells n → ℝ) : Cells n → ℝ := fun i =>
  ∑ o, smth o * m (neighbour i o)

/-- `smth / smth.sum()` (541). -/
def normalized {d : ℕ} {w : Fin d → ℕ} (smth : Cells w → ℝ) : Cells w → ℝ := fun o => smth o / ∑ o, smth o

/-- The loop (543-544). -/
def smooth {d : ℕ} {n w : Fin d → ℕ} (smth : Cells w → ℝ) : ℕ → (Cells n → ℝ) → Cells n → ℝ
  | 0, m => m
  | its + 1, m => smooth smth its (convolve smth m)

/-- The scaling to the bounds (547-548); not a number if all values are equal. -/
def scaled {ι : Type} [Fintype ι] [Nonempty ι] (lo hi : ℝ) (m : ι → ℝ) : Option (ι → ℝ) :=
  let mn := Finset.univ.inf' Finset.univ_nonempty m
  let mx := Finset.univ.sup' Finset.univ_nonempty m
  if mx - mn = 0 then none
  else some fun i => (m i - mn) / (mx - mn) * (hi - lo) + lo

/-- The default kernels of one and two dimensions (528-531), and `np.array([1, 4, 1])` (533). -/
def kernel1 : Fin 3 → ℝ := ![1, 10, 1]
/-- See `kernel1`. -/
def kernel2 : Fin 3 → Fin 3 → ℝ := ![![1, 7, 1], ![2, 10, 2], ![1, 7, 1]]
/-- See `kernel1`. -/
def kernal : Fin 3 → ℝ := ![1, 4, 1]

/-- `sp.kron` of matrices. -/
def kron {a b c e : ℕ} (A : Fin a → Fin b → ℝ) (B : Fin c → Fin e → ℝ) : Fin (a * c) → Fin (b * e) → ℝ :=
  fun i j => A i.divNat j.divNat * B i.modNat j.modNat

/-- The default kernel of three dimensions (533-536): `kron(kron(kernal, kernal.T), kernal).reshape((3, 3, 3))`; the
entry `(i, j, l)` is in row `i` and column `3 * j + l`. -/
def kernel3 (i j l : Fin 3) : ℝ :=
  kron (a := 1 * 3) (b := 3 * 1) (c := 1) (e := 3)
    (kron (a := 1) (b := 3) (c := 3) (e := 1) (fun _ => kernal) (fun i _ => kernal i)) (fun _ => kernal)
    ⟨i, by have := i.2; omega⟩ ⟨3 * j + l, by have := j.2; have := l.2; omega⟩

/-- The smoothing kernel: the default one by the number of dimensions, or what was given (527-539). More than three
dimensions leave the name `smth` undefined; the dimensions of a given kernel must be those of the shape. -/
def kernel {d : ℕ} (anisotropy : Option ((a : ℕ) × (w : Fin a → ℕ) × (Cells w → ℝ))) :
    Except Err ((w : Fin d → ℕ) × (Cells w → ℝ)) :=
  match anisotropy with
  | some ⟨a, w, s⟩ => if h : a = d then .ok (h ▸ ⟨w, s⟩) else .error .assertionError
  | none =>
    match d with
    | 1 => .ok ⟨fun _ => 3, fun o => kernel1 (o 0)⟩
    | 2 => .ok ⟨fun _ => 3, fun o => kernel2 (o 0) (o 1)⟩
    | 3 => .ok ⟨fun _ => 3, fun o => kernel3 (o 0) (o 1) (o 2)⟩
    | _ => .error .exception

/-- `create_random_model` (470-550) from the random numbers `mr`. A kernel of sum zero gives NaN. -/
def createRandom {d : ℕ} {n : Fin d → ℕ} [Nonempty (Cells n)] (mr : Cells n → ℝ)
    (anisotropy : Option ((a : ℕ) × (w : Fin a → ℕ) × (Cells w → ℝ))) (its : ℕ) (bounds : Option (ℝ × ℝ)) :
    Except Err (Option (Cells n → ℝ)) :=
  let b := bounds.getD (0, 1)
  (kernel (d := d) anisotropy).map fun s =>
    if (∑ o, s.2 o) = 0 then none else scaled b.1 b.2 (smooth (normalized s.2) its mr)

/-! ### Model: ellipses -/

/-- The rotation by `theta` degrees after `theta = -theta * np.pi / 180`, cut to `dim` (239-248). -/
def rotated (dim : ℕ) (theta : ℝ) (g : Fin dim → ℝ) : Fin dim → ℝ := fun i =>
  ∑ j : Fin dim, (
    let t := -theta * Real.pi / 180
    match i.1, j.1 with
    | 0, 0 => Real.cos t
    | 0, 1 => -Real.sin t
    | 1, 0 => Real.sin t
    | 1, 1 => Real.cos t
    | 2, 2 => 1
    | _, _ => 0) * g j

/-- `D` (250-253). -/
def ellDist {dim : ℕ} (center anis : Fin dim → ℝ) (theta : ℝ) (x : Fin dim → ℝ) : ℝ :=
  Real.sqrt (∑ i, (rotated dim theta (fun j => x j - center j) i / anis i * 2) ^ 2)

/-- `create_ellipse_in_wholespace` (203-254) at a cell centre. -/
def ellipse {dim : ℕ} (center anis : Fin dim → ℝ) (slope theta : ℝ) (x : Fin dim → ℝ) : ℝ :=
  -Real.arctan ((ellDist center anis theta x - 1) * slope) * (2 / Real.pi) / 2 + 0.5

/-! ### Model: checks of polygons -/

/-- `~b` for a boolean of Python: the integer `-1 - b`. -/
def invert (b : Bool) : ℤ := -1 - (if b then 1 else 0)

/-- `assert x` for an integer. -/
def assertInt (x : ℤ) : Except Err Unit := if x ≠ 0 then .ok () else .error .assertionError

/-- The checks of `get_indices_polygon` (569-574), before `Delaunay`. -/
def polygonCheck (dim cols : ℕ) : Except Err Unit :=
  if dim = 1 then .ok ()
  else if dim = 2 then assertInt (invert (cols != 2))
  else if dim = 3 then assertInt (invert (cols != 3))
  else .ok ()

/-! ### C180: random models -/

/-- **C180, bounds**: every random model that is a number is between the bounds and takes both of them. -/
theorem C180_bounds {d : ℕ} {n : Fin d → ℕ} [Nonempty (Cells n)] (mr : Cells n → ℝ)
    (anisotropy : Option ((a : ℕ) × (w : Fin a → ℕ) × (Cells w → ℝ))) (its : ℕ) (lo hi : ℝ) (h : lo ≤ hi)
    (r : Cells n → ℝ) (hr : createRandom mr anisotropy its (some (lo, hi)) = .ok (some r)) :
    (∀ i, lo ≤ r i ∧ r i ≤ hi) ∧ (∃ i, r i = lo) ∧ ∃ i, r i = hi := by
  unfold createRandom at hr
  simp only [Option.getD_some] at hr
  generalize hk : kernel (d := d) anisotropy = K at hr
  cases K with
  | error e => cases hr
  | ok s =>
    simp only [Except.map, Except.ok.injEq] at hr
    split_ifs at hr with h0
    unfold scaled at hr
    simp only at hr
    split_ifs at hr with h1
    simp only [Option.some.injEq] at hr
    set m := smooth (normalized s.2) its mr
    set mn := Finset.univ.inf' Finset.univ_nonempty m
    set mx := Finset.univ.sup' Finset.univ_nonempty m
    have hmn : ∀ i, mn ≤ m i := fun i => Finset.inf'_le _ (Finset.mem_univ i)
    have hmx : ∀ i, m i ≤ mx := fun i => Finset.le_sup' _ (Finset.mem_univ i)
    obtain ⟨i0, -, hi0⟩ := Finset.exists_mem_eq_inf' Finset.univ_nonempty m
    obtain ⟨i1, -, hi1⟩ := Finset.exists_mem_eq_sup' Finset.univ_nonempty m
    have hpos : 0 < mx - mn := lt_of_le_of_ne (by linarith [hmn i0, hmx i0]) (Ne.symm h1)
    refine ⟨fun i => ?_, ⟨i0, ?_⟩, i1, ?_⟩
    · rw [← hr]
      have a1 : 0 ≤ (m i - mn) / (mx - mn) := div_nonneg (by linarith [hmn i]) hpos.le
      have a2 : (m i - mn) / (mx - mn) ≤ 1 := by rw [div_le_one hpos]; linarith [hmx i]
      constructor <;> nlinarith
    · rw [← hr]
      simp only
      rw [← hi0]
      change (mn - mn) / (mx - mn) * (hi - lo) + lo = lo
      simp
    · rw [← hr]
      simp only
      rw [← hi1]
      change (mx - mn) / (mx - mn) * (hi - lo) + lo = hi
      rw [div_self h1]; ring

/-- **C180, kernels**: the kernel matters up to a factor only. -/
theorem C180_kernel_scale {d : ℕ} {n : Fin d → ℕ} [Nonempty (Cells n)] (mr : Cells n → ℝ) (w : Fin d → ℕ)
    (s : Cells w → ℝ) (c : ℝ) (hc : c ≠ 0) (its : ℕ) (bounds : Option (ℝ × ℝ)) :
    createRandom mr (some ⟨d, w, fun o => c * s o⟩) its bounds = createRandom mr (some ⟨d, w, s⟩) its bounds := by
  unfold createRandom
  simp only [kernel, Except.map, dite_true]
  have e1 : ∑ o, c * s o = c * ∑ o, s o := by rw [Finset.mul_sum]
  have e2 : normalized (fun o => c * s o) = normalized s := by
    funext o
    unfold normalized
    rw [e1, mul_div_mul_left _ _ hc]
  simp only [e1, e2, mul_eq_zero, hc, false_or]

/-- The largest and the smallest value are not left by smoothing. -/
theorem convolve_range {d : ℕ} {n w : Fin d → ℕ} (s : Cells w → ℝ) (hs : ∀ o, 0 ≤ s o) (h1 : ∑ o, s o = 1)
    (m : Cells n → ℝ) (a b : ℝ) (h : ∀ i, a ≤ m i ∧ m i ≤ b) (i : Cells n) :
    a ≤ convolve s m i ∧ convolve s m i ≤ b := by
  unfold convolve
  constructor
  · calc a = ∑ o, s o * a := by rw [← Finset.sum_mul, h1, one_mul]
      _ ≤ _ := Finset.sum_le_sum fun o _ => mul_le_mul_of_nonneg_left (h _).1 (hs o)
  · calc _ ≤ ∑ o, s o * b := Finset.sum_le_sum fun o _ => mul_le_mul_of_nonneg_left (h _).2 (hs o)
      _ = b := by rw [← Finset.sum_mul, h1, one_mul]

/-- **C180, smoothing**: with a kernel which is not negative, smoothing does not leave the range of the random
numbers, whatever the number of iterations, also at the ends of the array. -/
theorem C180_smoothing {d : ℕ} {n w : Fin d → ℕ} (s : Cells w → ℝ) (hs : ∀ o, 0 ≤ s o) (h1 : ∑ o, s o ≠ 0)
    (its : ℕ) (m : Cells n → ℝ) (a b : ℝ) (h : ∀ i, a ≤ m i ∧ m i ≤ b) (i : Cells n) :
    a ≤ smooth (normalized s) its m i ∧ smooth (normalized s) its m i ≤ b := by
  have hn : ∀ o, 0 ≤ normalized s o := fun o => div_nonneg (hs o) (Finset.sum_nonneg fun o _ => hs o)
  have hs1 : ∑ o, normalized s o = 1 := by
    unfold normalized
    rw [← Finset.sum_div, div_self h1]
  induction its generalizing m with
  | zero => exact h i
  | succ k ih => exact ih (convolve (normalized s) m) (convolve_range _ hn hs1 m a b h)

/-- **C180, interior**: away from the ends the smoothed value is the weighted mean of the cells around, the kernel
reversed. -/
theorem C180_interior {d : ℕ} {n w : Fin d → ℕ} (s : Cells w → ℝ) (m : Cells n → ℝ) (i : Cells n)
    (nb : Cells w → Cells n) (hnb : ∀ o k, ((nb o k : ℕ) : ℤ) = (i k : ℤ) + (w k / 2 : ℕ) - (o k : ℤ)) :
    convolve s m i = ∑ o, s o * m (nb o) := by
  unfold convolve
  refine Finset.sum_congr rfl fun o _ => ?_
  congr 2
  funext k
  apply Fin.ext
  have h := hnb o k
  show reflect (n k) _ = _
  rw [← h]
  unfold reflect
  have hlt := (nb o k).2
  rw [Int.emod_eq_of_lt (by omega) (by omega)]
  simp only [Int.toNat_natCast]
  rw [if_pos hlt]

/-- **C180, ends**: where a place of the kernel lies outside of the array, the value is that of the mirror image of the
place in the edge of the array, the cell at the edge itself being repeated. -/
theorem C180_ends {d : ℕ} {n w : Fin d → ℕ} (s : Cells w → ℝ) (m : Cells n → ℝ) (i : Cells n)
    (nb : Cells w → Cells n)
    (hnb : ∀ o k, let p := (i k : ℤ) + (w k / 2 : ℕ) - (o k : ℤ)
      ((nb o k : ℕ) : ℤ) = p ∨ ((nb o k : ℕ) : ℤ) = -1 - p ∨ ((nb o k : ℕ) : ℤ) = 2 * (n k : ℤ) - 1 - p) :
    convolve s m i = ∑ o, s o * m (nb o) := by
  unfold convolve
  refine Finset.sum_congr rfl fun o _ => ?_
  congr 2
  funext k
  apply Fin.ext
  have h := hnb o k
  show reflect (n k) ((i k : ℤ) + (w k / 2 : ℕ) - (o k : ℤ)) = _
  simp only at h
  generalize (i k : ℤ) + (w k / 2 : ℕ) - (o k : ℤ) = p at h ⊢
  have hlt := (nb o k).2
  generalize ((nb o k : Fin (n k)) : ℕ) = q at h hlt ⊢
  unfold reflect
  rcases h with h | h | h
  · rw [Int.emod_eq_of_lt (by omega) (by omega)]
    simp only
    rw [if_pos (by omega)]
    omega
  · have e : p % (2 * (n k : ℤ)) = p + 2 * n k := by
      rw [← Int.add_emod_right, Int.emod_eq_of_lt (by omega) (by omega)]
    simp only [e]
    rw [if_neg (by omega)]
    omega
  · rw [Int.emod_eq_of_lt (by omega) (by omega)]
    simp only
    rw [if_neg (by omega)]
    omega

/-- Non-vacuity: a kernel with three places in the first of two cells takes the first cell twice. -/
example (s : Cells (fun _ : Fin 1 => 3) → ℝ) (m : Cells (fun _ : Fin 1 => 2) → ℝ) :
    convolve s m (fun _ => 0) = ∑ o, s o * m (fun _ => if (o 0 : ℕ) = 0 then 1 else 0) := by
  refine C180_ends s m _ _ fun o k => ?_
  have hk : k = 0 := Subsingleton.elim _ _
  subst hk
  have h3 : (o 0 : ℕ) < 3 := (o 0).2
  by_cases h0 : (o 0 : ℕ) = 0
  · simp [h0]
  · rcases (show (o 0 : ℕ) = 1 ∨ (o 0 : ℕ) = 2 by omega) with h | h <;> simp [h]

/-- **C180, passes**: smoothing `its` times is one convolution after the other, `its` of them. -/
theorem C180_passes {d : ℕ} {n w : Fin d → ℕ} (s : Cells w → ℝ) (m : Cells n → ℝ) (its : ℕ) :
    smooth s its m = (convolve s)^[its] m := by
  induction its generalizing m with
  | zero => rfl
  | succ k ih => rw [Function.iterate_succ_apply, ← ih]; rfl

/-- **C180, default kernels**: they are not negative and symmetric about the centre, in three dimensions also under
exchange of the axes. -/
theorem C180_default_kernels :
    (∀ i, 0 < kernel1 i ∧ kernel1 i = kernel1 i.rev) ∧
    (∀ i j, 0 < kernel2 i j ∧ kernel2 i j = kernel2 i.rev j ∧ kernel2 i j = kernel2 i j.rev) ∧
    (∀ i j l, 0 < kernel3 i j l ∧ kernel3 i j l = kernel3 i.rev j l ∧ kernel3 i j l = kernel3 j i l ∧
      kernel3 i j l = kernel3 i l j) := by
  have h3 : ∀ i j l, kernel3 i j l = kernal i * kernal j * kernal l := by
    intro i j l
    fin_cases i <;> fin_cases j <;> fin_cases l <;>
      simp [kernel3, kron, kernal, Fin.divNat, Fin.modNat]
  have hk : ∀ i, 0 < kernal i ∧ kernal i.rev = kernal i := by
    intro i; fin_cases i <;> norm_num [kernal, Fin.rev]
  refine ⟨?_, ?_, ?_⟩
  · intro i; fin_cases i <;> norm_num [kernel1, Fin.rev]
  · intro i j; fin_cases i <;> fin_cases j <;> norm_num [kernel2, Fin.rev]
  · intro i j l
    rw [h3, h3, h3, h3]
    refine ⟨mul_pos (mul_pos (hk i).1 (hk j).1) (hk l).1, ?_, ?_, ?_⟩
    · rw [(hk i).2]
    · ring
    · ring

/-- **C180, errors**: more than three dimensions need a kernel, and its dimensions must be those of the model. -/
theorem C180_errors {d : ℕ} {n : Fin d → ℕ} [Nonempty (Cells n)] (mr : Cells n → ℝ) (its : ℕ)
    (bounds : Option (ℝ × ℝ)) :
    (3 < d → createRandom mr none its bounds = .error .exception) ∧
    ∀ (a : ℕ) (w : Fin a → ℕ) (s : Cells w → ℝ),
      createRandom mr (some ⟨a, w, s⟩) its bounds = .error .assertionError ↔ a ≠ d := by
  constructor
  · intro h
    have hk : kernel (d := d) none = .error .exception := by
      match d, h with
      | k + 4, _ => rfl
    unfold createRandom
    rw [hk]
    rfl
  · intro a w s
    unfold createRandom kernel
    by_cases h : a = d
    · subst h; simp [Except.map]
    · simp [h, Except.map]

theorem smooth_const {d : ℕ} {n w : Fin d → ℕ} (s : Cells w → ℝ) (its : ℕ) (m : Cells n → ℝ)
    (h : ∀ i j, m i = m j) (i j : Cells n) : smooth s its m i = smooth s its m j := by
  induction its generalizing m with
  | zero => exact h i j
  | succ k ih =>
    refine ih _ fun i j => ?_
    unfold convolve
    exact Finset.sum_congr rfl fun o _ => by rw [h (neighbour i o) (neighbour j o)]

/-- **C180, violated**: a model of one cell is not a number, for all random numbers and bounds. -/
theorem C180_violated_single {d : ℕ} {n : Fin d → ℕ} [Nonempty (Cells n)] (hn : ∀ k, n k = 1)
    (mr : Cells n → ℝ) (anisotropy : Option ((a : ℕ) × (w : Fin a → ℕ) × (Cells w → ℝ))) (its : ℕ)
    (bounds : Option (ℝ × ℝ)) (r : Option (Cells n → ℝ)) (hr : createRandom mr anisotropy its bounds = .ok r) :
    r = none := by
  have hsub : ∀ i j : Cells n, i = j := by
    intro i j
    funext k
    apply Fin.ext
    have h1 := (i k).2
    have h2 := (j k).2
    have := hn k
    omega
  unfold createRandom at hr
  generalize hk : kernel (d := d) anisotropy = K at hr
  cases K with
  | error e => cases hr
  | ok s =>
    simp only [Except.map, Except.ok.injEq] at hr
    split_ifs at hr with h0
    · exact hr.symm
    · unfold scaled at hr
      simp only at hr
      set m := smooth (normalized s.2) its mr
      obtain ⟨i0, -, hi0⟩ := Finset.exists_mem_eq_inf' Finset.univ_nonempty m
      obtain ⟨i1, -, hi1⟩ := Finset.exists_mem_eq_sup' Finset.univ_nonempty m
      rw [if_pos (by rw [hi0, hi1, hsub i0 i1, sub_self])] at hr
      exact hr.symm

/-! ### C180: ellipses -/

/-- The level of the ellipsoid at a point: the sum of squares of the coordinates along its axes, over the half
axes. -/
def level {dim : ℕ} (center anis : Fin dim → ℝ) (theta : ℝ) (x : Fin dim → ℝ) : ℝ :=
  ∑ i, (rotated dim theta (fun j => x j - center j) i / (anis i / 2)) ^ 2

/-- **C180, ellipse**: the values are between zero and one; with a positive slope they are more than one half
inside of the ellipsoid with diameters `anisotropy`, one half on it and less outside. -/
theorem C180_ellipse {dim : ℕ} (center anis : Fin dim → ℝ) (slope theta : ℝ) (hs : 0 < slope)
    (x : Fin dim → ℝ) :
    0 < ellipse center anis slope theta x ∧ ellipse center anis slope theta x < 1 ∧
    (1 / 2 < ellipse center anis slope theta x ↔ level center anis theta x < 1) ∧
    (ellipse center anis slope theta x = 1 / 2 ↔ level center anis theta x = 1) := by
  have hpi := Real.pi_pos
  have hlev : level center anis theta x
      = ∑ i, (rotated dim theta (fun j => x j - center j) i / anis i * 2) ^ 2 := by
    unfold level
    refine Finset.sum_congr rfl fun i _ => ?_
    rw [div_div_eq_mul_div, mul_div_right_comm]
  have hD : ellDist center anis theta x = Real.sqrt (level center anis theta x) := by rw [hlev]; rfl
  have h0 : 0 ≤ level center anis theta x := Finset.sum_nonneg fun _ _ => sq_nonneg _
  unfold ellipse
  rw [hD]
  set D := Real.sqrt (level center anis theta x)
  set A := Real.arctan ((D - 1) * slope)
  have hA1 : -(Real.pi / 2) < A := Real.neg_pi_div_two_lt_arctan _
  have hA2 : A < Real.pi / 2 := Real.arctan_lt_pi_div_two _
  have e : -A * (2 / Real.pi) / 2 + 0.5 = 1 / 2 - A / Real.pi := by
    field_simp; ring
  rw [e]
  have b1 : A / Real.pi < 1 / 2 := by rw [div_lt_iff₀ hpi]; linarith
  have b2 : -(1 / 2) < A / Real.pi := by rw [lt_div_iff₀ hpi]; linarith
  refine ⟨by linarith, by linarith, ?_, ?_⟩
  · have : 1 / 2 < 1 / 2 - A / Real.pi ↔ A < 0 := by
      constructor
      · intro h
        by_contra hn
        have := div_nonneg (not_lt.1 hn) hpi.le
        linarith
      · intro h
        have := div_neg_of_neg_of_pos h hpi
        linarith
    rw [this, Real.arctan_lt_zero]
    have h3 : (D - 1) * slope < 0 ↔ D < 1 := by
      constructor
      · intro h; by_contra hn; nlinarith
      · intro h; nlinarith
    rw [h3, Real.sqrt_lt' one_pos, one_pow]
  · have : 1 / 2 - A / Real.pi = 1 / 2 ↔ A = 0 := by
      rw [sub_eq_self, div_eq_zero_iff]
      simp [hpi.ne']
    rw [this, Real.arctan_eq_zero_iff, mul_eq_zero]
    simp only [hs.ne', or_false, sub_eq_zero]
    rw [Real.sqrt_eq_one]

/-- **C180, ellipse**: in two dimensions the first axis of the ellipse points `theta` degrees anticlockwise from x,
the second one is normal to it. -/
theorem C180_ellipse_axes (center anis : Fin 2 → ℝ) (theta s t : ℝ) :
    level center anis theta
      (fun j => center j + s * ![Real.cos (theta * Real.pi / 180), Real.sin (theta * Real.pi / 180)] j
        + t * ![-Real.sin (theta * Real.pi / 180), Real.cos (theta * Real.pi / 180)] j)
      = (s / (anis 0 / 2)) ^ 2 + (t / (anis 1 / 2)) ^ 2 := by
  have e : -theta * Real.pi / 180 = -(theta * Real.pi / 180) := by ring
  simp only [level, rotated, Fin.sum_univ_two, e, Real.cos_neg, Real.sin_neg, Fin.val_zero, Fin.val_one,
    Matrix.cons_val_zero, Matrix.cons_val_one]
  have h := Real.sin_sq_add_cos_sq (theta * Real.pi / 180)
  set c := Real.cos (theta * Real.pi / 180)
  set u := Real.sin (theta * Real.pi / 180)
  have e1 : c * (center 0 + s * c + t * -u - center 0) + - -u * (center 1 + s * u + t * c - center 1) = s := by
    have : c * (center 0 + s * c + t * -u - center 0) + - -u * (center 1 + s * u + t * c - center 1)
      = s * (u ^ 2 + c ^ 2) := by ring
    rw [this, h, mul_one]
  have e2 : -u * (center 0 + s * c + t * -u - center 0) + c * (center 1 + s * u + t * c - center 1) = t := by
    have : -u * (center 0 + s * c + t * -u - center 0) + c * (center 1 + s * u + t * c - center 1)
      = t * (u ^ 2 + c ^ 2) := by ring
    rw [this, h, mul_one]
  rw [e1, e2]

/-- **C180, violated**: in one dimension the angle changes the size of the interval instead of nothing. -/
theorem C180_violated_ellipse_line (center anis : Fin 1 → ℝ) (theta : ℝ) (x : Fin 1 → ℝ) :
    level center anis theta x
      = Real.cos (theta * Real.pi / 180) ^ 2 * ((x 0 - center 0) / (anis 0 / 2)) ^ 2 := by
  have e : -theta * Real.pi / 180 = -(theta * Real.pi / 180) := by ring
  simp only [level, rotated, Fin.sum_univ_one, e, Real.cos_neg, Fin.val_zero]
  ring

/-- **C180, violated**: the checks of the shape of the points of a polygon never fail. -/
theorem C180_violated_polygon (dim cols : ℕ) : polygonCheck dim cols = .ok () := by
  unfold polygonCheck assertInt invert
  split_ifs <;> first | rfl | simp_all

/-! ### Examples -/

instance : Nonempty (Cells (fun _ : Fin 1 => 2)) := ⟨fun _ => ⟨0, by norm_num⟩⟩

/-- Two cells with different numbers become the bounds. -/
example : createRandom (n := fun _ : Fin 1 => 2) (fun i => (i 0 : ℕ)) none 0 (some (-4, 0))
    = .ok (some fun i => if i 0 = 0 then -4 else 0) := by
  unfold createRandom
  simp only [Option.getD_some, kernel, Except.map, smooth]
  have hs : ¬ (∑ o : Cells (fun _ : Fin 1 => 3), kernel1 (o 0)) = 0 := by
    apply ne_of_gt
    refine Finset.sum_pos (fun o _ => (C180_default_kernels.1 (o 0)).1) ⟨fun _ => ⟨0, by norm_num⟩, Finset.mem_univ _⟩
  rw [if_neg hs]
  unfold scaled
  have hmn : Finset.univ.inf' Finset.univ_nonempty (fun i : Cells (fun _ : Fin 1 => 2) => ((i 0 : ℕ) : ℝ)) = 0 := by
    apply le_antisymm
    · exact (Finset.inf'_le _ (Finset.mem_univ (fun _ => ⟨0, by norm_num⟩ : Cells (fun _ : Fin 1 => 2)))).trans
        (by simp)
    · rw [Finset.le_inf'_iff]; intro i _; positivity
  have hmx : Finset.univ.sup' Finset.univ_nonempty (fun i : Cells (fun _ : Fin 1 => 2) => ((i 0 : ℕ) : ℝ)) = 1 := by
    apply le_antisymm
    · rw [Finset.sup'_le_iff]; intro i _
      have h2 : (i 0 : ℕ) ≤ 1 := by have h3 := (i 0).2; simp only at h3; omega
      exact_mod_cast h2
    · exact le_trans (by simp) (Finset.le_sup' (fun i : Cells (fun _ : Fin 1 => 2) => ((i 0 : ℕ) : ℝ))
        (Finset.mem_univ (fun _ => ⟨1, by norm_num⟩ : Cells (fun _ : Fin 1 => 2))))
  simp only [hmn, hmx, sub_zero, one_ne_zero, if_false]
  congr 2
  funext i
  by_cases hi : i 0 = 0
  · rw [if_pos hi, hi]; norm_num
  · have h2 : (i 0 : ℕ) = 1 := by
      have h3 := (i 0).2
      have h4 : (i 0 : ℕ) ≠ 0 := fun c => hi (Fin.ext c)
      simp only at h3; omega
    rw [if_neg hi, h2]; norm_num

/-- The centre of an ellipse is inside of it. -/
example : level (dim := 2) (fun _ => 3) (fun _ => 1) 30 (fun _ => 3) < 1 := by
  simp [level, rotated]

end
end Verif.Utils.RandomModel
