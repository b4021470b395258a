import Verif.Basic
import Mathlib.Data.List.Range
import Mathlib.Data.List.Pairwise
import Mathlib.Data.Real.Basic
import Mathlib.Algebra.BigOperators.Intervals
import Mathlib.Tactic.Linarith
import Mathlib.Tactic.Ring
import Mathlib.Tactic.FieldSimp

/-! Model of the Wenner arrays of `simpeg/electromagnetics/static/resistivity/utils.py` 13-72, for
C198. -/

noncomputable section
namespace Verif.DC.Wenner
open Verif

/-- The inner loop of `WennerSrcList` (39-43): `j` counts up to `n`, and stops at the first quadruple
that leaves the line. -/
def inner (n space : Nat) : Nat → Nat → List (Nat × Nat × Nat × Nat)
  | 0, _ => []
  | k + 1, j =>
    if n ≤ j ∨ n ≤ j + space ∨ n ≤ j + space * 2 ∨ n ≤ j + space * 3 then []
    else (j, j + space, j + space * 2, j + space * 3) :: inner n space k (j + 1)

/-- The outer loop (38-44): `k` passes, beginning with `space`. -/
def outer (n : Nat) : Nat → Nat → List (Nat × Nat × Nat × Nat)
  | 0, _ => []
  | k + 1, space => inner n space n 0 ++ outer n k (space + 1)

/-- A source with its receiver: electrodes A, B and M, N. -/
structure Quad where
  a : List ℝ
  b : List ℝ
  m : List ℝ
  n : List ℝ

/-- The location of electrode `i` (34-35): `np.arange(0, a * n, a)` shifted. Exact arithmetic, so
that the array has the entries `i * a`. -/
def eloc (n : Nat) (a : ℝ) (i : Nat) : ℝ := i * a - (n * a - a) / 2

/-- The spacing a user gives: a float or an integer. -/
inductive Spacing
  | float (a : ℝ)
  | int (a : Int)

/-- `getLoc` (54-62). -/
def getLoc (n : Nat) (a : ℝ) (in2D : Bool) (i : Nat) : List ℝ :=
  if in2D then [eloc n a i, 0] else [eloc n a i, 0, 0]

/-- `WennerSrcList` (13-72) without plots, for spacings that are not zero. With an integer spacing
`np.arange` has integers, from which `-=` cannot subtract the float of line 35: TypeError. -/
def wennerSrcList (n : Nat) (s : Spacing) (in2D : Bool) : Except Err (List Quad) :=
  match s with
  | .int _ => .error .typeError
  | .float a => .ok ((outer n n 1).map fun q =>
      { a := getLoc n a in2D q.1, m := getLoc n a in2D q.2.1, n := getLoc n a in2D q.2.2.1,
        b := getLoc n a in2D q.2.2.2 })

namespace Props

theorem mem_inner (n s : Nat) (k j : Nat) (q : Nat × Nat × Nat × Nat) (hk : n ≤ k + j) :
    q ∈ inner n s k j ↔
      ∃ i, j ≤ i ∧ i + 3 * s < n ∧ q = (i, i + s, i + 2 * s, i + 3 * s) := by
  induction k generalizing j with
  | zero =>
    simp only [inner, List.not_mem_nil, false_iff]
    rintro ⟨i, h1, h2, -⟩
    omega
  | succ k ih =>
    unfold inner
    split
    · rename_i h
      simp only [List.not_mem_nil, false_iff]
      rintro ⟨i, h1, h2, -⟩
      omega
    · rename_i h
      rw [List.mem_cons, ih (j + 1) (by omega)]
      constructor
      · rintro (rfl | ⟨i, h1, h2, rfl⟩)
        · exact ⟨j, le_rfl, by omega, by simp [mul_comm]⟩
        · exact ⟨i, by omega, h2, rfl⟩
      · rintro ⟨i, h1, h2, rfl⟩
        rcases Nat.eq_or_lt_of_le h1 with h3 | h3
        · left; subst h3; simp [mul_comm]
        · right; exact ⟨i, h3, h2, rfl⟩

theorem mem_outer (n k s : Nat) (q : Nat × Nat × Nat × Nat) :
    q ∈ outer n k s ↔
      ∃ i d, s ≤ d ∧ d < s + k ∧ i + 3 * d < n ∧ q = (i, i + d, i + 2 * d, i + 3 * d) := by
  induction k generalizing s with
  | zero =>
    simp only [outer, List.not_mem_nil, false_iff]
    rintro ⟨i, d, h1, h2, -⟩
    omega
  | succ k ih =>
    rw [outer, List.mem_append, ih, mem_inner _ _ _ _ _ (by omega)]
    constructor
    · rintro (⟨i, -, h, rfl⟩ | ⟨i, d, h1, h2, h3, rfl⟩)
      · exact ⟨i, s, le_rfl, by omega, h, rfl⟩
      · exact ⟨i, d, by omega, by omega, h3, rfl⟩
    · rintro ⟨i, d, h1, h2, h3, rfl⟩
      rcases Nat.eq_or_lt_of_le h1 with h4 | h4
      · left; subst h4; exact ⟨i, Nat.zero_le _, h3, rfl⟩
      · right; exact ⟨i, d, h4, by omega, h3, rfl⟩

theorem nodup_inner (n s k j : Nat) (hk : n ≤ k + j) : (inner n s k j).Nodup := by
  induction k generalizing j with
  | zero => simp [inner]
  | succ k ih =>
    unfold inner
    split
    · exact List.nodup_nil
    · rw [List.nodup_cons, mem_inner _ _ _ _ _ (by omega)]
      refine ⟨?_, ih _ (by omega)⟩
      rintro ⟨i, h1, -, h2⟩
      have := congrArg Prod.fst h2
      simp only at this
      omega

theorem nodup_outer (n k s : Nat) : (outer n k s).Nodup := by
  induction k generalizing s with
  | zero => simp [outer]
  | succ k ih =>
    rw [outer, List.nodup_append']
    refine ⟨nodup_inner _ _ _ _ (by omega), ih _, ?_⟩
    intro q h1 h2
    rw [mem_inner _ _ _ _ _ (by omega)] at h1
    rw [mem_outer] at h2
    obtain ⟨i, -, -, rfl⟩ := h1
    obtain ⟨i', d, h3, -, -, h5⟩ := h2
    simp only [Prod.mk.injEq] at h5
    omega

/-! ### Specification -/

/-- The electrode locations: `n` points on a line, a distance `a` apart, centred at the origin. -/
def point (n : Nat) (a : ℝ) (i : Nat) : ℝ := a * (i - ((n : ℝ) - 1) / 2)

/-! ### C198 -/

/-- C198. With a float spacing the sources are exactly the Wenner arrays on the line: electrodes A,
M, N, B in this order, at equal distances that are a multiple of the spacing. -/
theorem C198_arrays (n : Nat) (a : ℝ) (in2D : Bool) :
    ∃ L, wennerSrcList n (.float a) in2D = .ok L ∧
    ∀ q : Quad, q ∈ L ↔ ∃ i d : Nat, 1 ≤ d ∧ i + 3 * d < n ∧
      let r : List ℝ := if in2D then [0] else [0, 0];
      q.a = point n a i :: r ∧ q.m = point n a (i + d) :: r ∧ q.n = point n a (i + 2 * d) :: r ∧
      q.b = point n a (i + 3 * d) :: r := by
  have hp : ∀ i, getLoc n a in2D i = point n a i :: (if in2D then [0] else [0, 0]) := fun i => by
    have : eloc n a i = point n a i := by unfold eloc point; ring
    unfold getLoc
    split <;> rw [this]
  refine ⟨_, rfl, fun q => ?_⟩
  simp only [List.mem_map, mem_outer, hp]
  constructor
  · rintro ⟨_, ⟨i, d, h1, -, h2, rfl⟩, rfl⟩
    exact ⟨i, d, h1, h2, rfl, rfl, rfl, rfl⟩
  · rintro ⟨i, d, h1, h2, ha, hm, hn, hb⟩
    refine ⟨_, ⟨i, d, h1, by omega, h2, rfl⟩, ?_⟩
    cases q
    simp only at ha hm hn hb
    subst ha hm hn hb
    rfl

/-- C198. No array comes twice. -/
theorem C198_once (n : Nat) (a : ℝ) (ha : a ≠ 0) (in2D : Bool) :
    ∃ L, wennerSrcList n (.float a) in2D = .ok L ∧ L.Nodup := by
  refine ⟨_, rfl, ?_⟩
  refine List.Nodup.map_on ?_ (nodup_outer n n 1)
  intro x hx y hy h
  rw [mem_outer] at hx hy
  obtain ⟨i, d, -, -, -, rfl⟩ := hx
  obtain ⟨i', d', -, -, -, rfl⟩ := hy
  have inj : ∀ u v, getLoc n a in2D u = getLoc n a in2D v → u = v := fun u v h => by
    have : eloc n a u = eloc n a v := by
      cases in2D <;> simpa [getLoc] using h
    unfold eloc at this
    have h2 : (u : ℝ) * a = v * a := by linarith
    exact_mod_cast mul_right_cancel₀ ha h2
  simp only [Quad.mk.injEq] at h
  have h1 := inj _ _ h.1
  have h2 := inj _ _ h.2.1
  have : d = d' := by omega
  rw [h1, this]

theorem length_inner (n s k j : Nat) (hk : n ≤ k + j) :
    (inner n s k j).length = n - 3 * s - j := by
  induction k generalizing j with
  | zero => simp only [inner, List.length_nil]; omega
  | succ k ih =>
    unfold inner
    split
    · simp only [List.length_nil]; omega
    · rw [List.length_cons, ih _ (by omega)]; omega

theorem length_outer (n k s : Nat) :
    (outer n k s).length = ∑ d ∈ Finset.range k, (n - 3 * (s + d)) := by
  induction k generalizing s with
  | zero => rfl
  | succ k ih =>
    rw [outer, List.length_append, length_inner _ _ _ _ (by omega), ih, Finset.sum_range_succ', add_comm]
    congr 1
    refine Finset.sum_congr rfl fun d _ => ?_
    congr 1
    omega

/-- C198. The number of arrays: `n - 3 d` for every distance `d`; none with fewer than four
electrodes. -/
theorem C198_count (n : Nat) (a : ℝ) (in2D : Bool) :
    ∃ L, wennerSrcList n (.float a) in2D = .ok L ∧
      L.length = ∑ d ∈ Finset.range n, (n - 3 * (d + 1)) ∧ (n < 4 ↔ L = []) := by
  refine ⟨_, rfl, ?_, ?_⟩
  · rw [List.length_map, length_outer]
    exact Finset.sum_congr rfl fun d _ => by rw [add_comm 1 d]
  · rw [List.map_eq_nil_iff, List.eq_nil_iff_forall_not_mem]
    constructor
    · intro h q hq
      rw [mem_outer] at hq
      obtain ⟨i, d, h1, -, h2, -⟩ := hq
      omega
    · intro h
      by_contra hn
      exact h (0, 0 + 1, 0 + 2 * 1, 0 + 3 * 1) ((mem_outer _ _ _ _).mpr
        ⟨0, 1, le_rfl, by omega, by omega, rfl⟩)

/-- C198. The geometric factor of every array over a half-space is `2 π` times the distance of its
electrodes: `1/AM - 1/BM - 1/AN + 1/BN = 1/(d a)`, for a positive spacing. -/
theorem C198_distance (n i d : Nat) (a : ℝ) (ha : 0 < a) (hd : 1 ≤ d) :
    let A := point n a i; let M := point n a (i + d); let N := point n a (i + 2 * d);
    let B := point n a (i + 3 * d);
    M - A = d * a ∧ N - M = d * a ∧ B - N = d * a ∧
    1 / |M - A| - 1 / |M - B| - 1 / |N - A| + 1 / |N - B| = 1 / (d * a) := by
  have h1 : point n a (i + d) - point n a i = d * a := by simp only [point]; push_cast; ring
  have h2 : point n a (i + 2 * d) - point n a (i + d) = d * a := by simp only [point]; push_cast; ring
  have h3 : point n a (i + 3 * d) - point n a (i + 2 * d) = d * a := by
    simp only [point]; push_cast; ring
  have hp : (0 : ℝ) < d * a := mul_pos (by exact_mod_cast hd) ha
  refine ⟨h1, h2, h3, ?_⟩
  have e2 : point n a (i + d) - point n a (i + 3 * d) = -(2 * (d * a)) := by linarith
  have e3 : point n a (i + 2 * d) - point n a i = 2 * (d * a) := by linarith
  have e4 : point n a (i + 2 * d) - point n a (i + 3 * d) = -(d * a) := by linarith
  simp only [h1, e2, e3, e4, abs_neg]
  rw [abs_of_pos hp, abs_of_pos (by linarith : (0 : ℝ) < 2 * (d * a))]
  field_simp
  ring

/-- C198 (violation). An integer spacing raises TypeError. -/
theorem C198_violated_integer (n : Nat) (a : Int) (in2D : Bool) :
    wennerSrcList n (.int a) in2D = .error .typeError := rfl

/-- Seven electrodes have five arrays. -/
example : ∑ d ∈ Finset.range 7, (7 - 3 * (d + 1)) = 5 := by decide

end Props
end Verif.DC.Wenner
