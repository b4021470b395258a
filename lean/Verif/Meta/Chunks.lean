import Verif.Basic
import Mathlib.Tactic.Linarith
import Mathlib.Algebra.BigOperators.Group.List.Basic

/-! Distribution of simulations over processes (`simpeg/meta/multiprocessing.py` 231-259 and
453-480). -/

namespace Verif.Meta.Chunks
open Verif

/-- `chunk_sizes[i] += 1` for all `i` of the list; out of range raises. -/
def increments : List Nat → List Nat → Except Err (List Nat)
  | l, [] => .ok l
  | l, i :: is => if i < l.length then increments (l.modify i (· + 1)) is else .error .indexError

/-- Lines 237-239 and 458-460, for `n_processes >= 0`. -/
def chunkSizes (n p : Nat) : Except Err (List Nat) :=
  if p = 0 then .error .zeroDivision
  else increments (List.replicate (min p n) (n / p)) (List.range (n % p))

/-- The loop 241-256: slices of the members for the non-zero sizes. -/
def slices {α : Type} (xs : List α) : Nat → List Nat → List (List α)
  | _, [] => []
  | i, c :: cs => if c = 0 then slices xs i cs
      else (xs.drop i).take (i + c - i) :: slices xs (i + c) cs

/-- The chunks handed to the worker processes. -/
def chunks {α : Type} (xs : List α) (p : Nat) : Except Err (List (List α)) :=
  match chunkSizes xs.length p with
  | .error e => .error e
  | .ok sizes => .ok (slices xs 0 sizes)

namespace Props

theorem increments_range (len q : Nat) : ∀ r, r ≤ len → ∀ k ≤ r,
    increments ((List.range len).map fun i => if i < k then q + 1 else q) (List.range' k (r - k)) =
      .ok ((List.range len).map fun i => if i < r then q + 1 else q) := by
  intro r hr k hk
  induction h : r - k generalizing k with
  | zero =>
    obtain rfl : k = r := by omega
    simp [increments]
  | succ d ih =>
    rw [List.range'_succ]
    simp only [increments]
    rw [if_pos (by simp; omega)]
    have hm : ((List.range len).map fun i => if i < k then q + 1 else q).modify k (· + 1) =
        (List.range len).map fun i => if i < k + 1 then q + 1 else q := by
      apply List.ext_getElem (by simp)
      intro i h1 h2
      rw [List.getElem_modify]
      simp only [List.getElem_map, List.getElem_range]
      split
      · next e => subst e; simp
      · next e => rcases Nat.lt_or_ge i k with h | h
                  · rw [if_pos h, if_pos (by omega)]
                  · rw [if_neg (by omega), if_neg (by omega)]
    rw [hm]
    exact ih (k + 1) (by omega) (by omega)

theorem chunkSizes_eq (n p : Nat) (hp : p ≠ 0) : chunkSizes n p =
    .ok ((List.range (min p n)).map fun i => if i < n % p then n / p + 1 else n / p) := by
  have hle : n % p ≤ min p n := by
    have := Nat.mod_lt n (Nat.pos_of_ne_zero hp)
    have := Nat.mod_le n p
    omega
  have := increments_range (min p n) (n / p) (n % p) hle 0 (by omega)
  rw [chunkSizes, if_neg hp]
  simp only [Nat.not_lt_zero, if_false, Nat.sub_zero] at this
  rw [← List.range_eq_range'] at this
  rw [← this]
  congr 1
  apply List.ext_getElem (by simp)
  intro i h1 h2
  simp

theorem sum_sizes (len q : Nat) : ∀ r ≤ len,
    ((List.range len).map fun i => if i < r then q + 1 else q).sum = len * q + r := by
  intro r hr
  have : ∀ len, ((List.range len).map fun i => if i < r then q + 1 else q).sum =
      len * q + min r len := by
    intro len
    induction len with
    | zero => simp
    | succ len ih =>
      rw [List.range_succ, List.map_append, List.sum_append, ih, Nat.add_mul]
      simp only [List.map_cons, List.map_nil, List.sum_cons, List.sum_nil]
      split <;> omega
  rw [this]; omega

theorem slices_flatten {α : Type} (xs : List α) : ∀ (sizes : List Nat) (i : Nat),
    (slices xs i sizes).flatten = (xs.drop i).take sizes.sum
  | [], i => by simp [slices]
  | c :: cs, i => by
    simp only [slices]
    split
    · next h => rw [slices_flatten xs cs i]; simp [h]
    · rw [List.flatten_cons, slices_flatten xs cs (i + c), Nat.add_sub_cancel_left, List.sum_cons,
        List.take_add, List.drop_drop]

theorem slices_lengths {α : Type} (xs : List α) : ∀ (sizes : List Nat) (i : Nat),
    i + sizes.sum ≤ xs.length →
    (slices xs i sizes).map List.length = sizes.filter (· ≠ 0)
  | [], i, _ => rfl
  | c :: cs, i, h => by
    simp only [slices]
    simp only [List.sum_cons] at h
    split
    · next hc => rw [slices_lengths xs cs i (by omega)]; simp [hc]
    · next hc =>
      rw [List.map_cons, slices_lengths xs cs (i + c) (by omega), List.filter_cons, if_pos (by simpa)]
      congr 1
      simp
      omega

/-- C32. For any number of members and of processes, the chunks are contiguous, in order and
cover every member exactly once; none is empty, there are `min n_processes n_sim` of them, and
their sizes differ by at most one. -/
theorem C32_chunks {α : Type} (xs : List α) (p : Nat) (hp : p ≠ 0) :
    ∃ cs, chunks xs p = .ok cs ∧ cs.flatten = xs ∧ (∀ c ∈ cs, c ≠ []) ∧
      cs.length = min p xs.length ∧
      ∀ c ∈ cs, ∀ c' ∈ cs, c.length ≤ c'.length + 1 := by
  unfold chunks
  rw [chunkSizes_eq _ _ hp]
  set n := xs.length with hn
  set sizes := (List.range (min p n)).map fun i => if i < n % p then n / p + 1 else n / p with hsz
  have hle : n % p ≤ min p n := by
    have := Nat.mod_lt n (Nat.pos_of_ne_zero hp)
    have := Nat.mod_le n p
    omega
  have hsum : sizes.sum = n := by
    rw [hsz, sum_sizes _ _ _ hle]
    rcases Nat.lt_or_ge n p with h | h
    · rw [Nat.div_eq_of_lt h, Nat.mod_eq_of_lt h]; simp
    · rw [min_eq_left h]; exact Nat.div_add_mod n p
  have hlens := slices_lengths xs sizes 0 (by omega)
  have hpos : ∀ c ∈ sizes, c ≠ 0 := by
    intro c hc
    rw [hsz, List.mem_map] at hc
    obtain ⟨i, hi, rfl⟩ := hc
    rw [List.mem_range] at hi
    split
    · exact Nat.succ_ne_zero _
    · next h =>
      rcases Nat.lt_or_ge n p with h' | h'
      · rw [Nat.mod_eq_of_lt h'] at h; omega
      · have := Nat.div_pos h' (Nat.pos_of_ne_zero hp); omega
  have hfil : sizes.filter (· ≠ 0) = sizes := by
    rw [List.filter_eq_self]; intro c hc; simpa using hpos c hc
  rw [hfil] at hlens
  refine ⟨_, rfl, ?_, ?_, ?_, ?_⟩
  · rw [slices_flatten, hsum]; simp [hn]
  · intro c hc e
    have : c.length ∈ sizes := by rw [← hlens]; exact List.mem_map_of_mem hc
    exact hpos _ this (by simp [e])
  · have := congrArg List.length hlens
    simpa [hsz] using this
  · intro c hc c' hc'
    have h1 : c.length ∈ sizes := by rw [← hlens]; exact List.mem_map_of_mem hc
    have h2 : c'.length ∈ sizes := by rw [← hlens]; exact List.mem_map_of_mem hc'
    rw [hsz, List.mem_map] at h1 h2
    obtain ⟨i, -, e1⟩ := h1
    obtain ⟨j, -, e2⟩ := h2
    rw [← e1, ← e2]
    split <;> split <;> omega

/-- C32. No processes at all is rejected. -/
theorem C32_zero_processes {α : Type} (xs : List α) : chunks xs 0 = .error .zeroDivision := rfl

example : chunks [1, 2, 3, 4, 5, 6, 7] 3 = .ok [[1, 2, 3], [4, 5], [6, 7]] := by decide
example : chunks [1, 2] 5 = .ok [[1], [2]] := by decide

end Props
end Verif.Meta.Chunks
