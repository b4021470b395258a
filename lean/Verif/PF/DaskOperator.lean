import Verif.Basic
import Verif.PF.Cache
import Mathlib.Data.Real.Basic
import Mathlib.Algebra.BigOperators.Group.List.Basic
import Mathlib.Tactic.Linarith
import Mathlib.Tactic.NormNum
import Mathlib.Tactic.Ring

/-!
C185: the linear operator of integral potential field simulations with dask (`simpeg/dask/utils.py` 4-26,
`simpeg/dask/potential_fields/base.py` 9-73).

A dask array is modelled by its values and the sizes of its chunks along the two axes; computing, persisting and
rechunking do not change the values. The numbers computed by `evaluate_integral` are a parameter.
-/

namespace Verif.PF.DaskOperator
open Verif

/-! ### Sizes of chunks -/

/-- `int(np.ceil(a / b))`, with exact division. -/
def ceilDiv (a b : ℕ) : ℕ := (a + b - 1) / b

/-- `chunk_size >= target_chunk_size`, a chunk having eight bytes per value, in megabytes (12, 15, 23)
(`simpeg/dask/utils.py`). -/
def TooBig (target : ℝ) (r c : ℕ) : Prop := target ≤ r * c * 8 * 1e-6

open Classical in
/-- The loop of `compute_chunk_sizes` (15-24), at most `k` rounds of it (`none` if these do not suffice), with `a` chunks
of rows and `b` chunks of columns. -/
noncomputable def chunkLoop (target : ℝ) (M N : ℕ) : ℕ → ℕ → ℕ → Option (ℕ × ℕ)
  | 0, _, _ => none
  | k + 1, a, b =>
    let r := ceilDiv M a
    let c := ceilDiv N b;
    if TooBig target r c then
      if r > c then chunkLoop target M N k (a + 1) b else chunkLoop target M N k a (b + 1)
    else some (r, c)

/-- `compute_chunk_sizes(M, N, target_chunk_size)` (`simpeg/dask/utils.py` 4-26), given `k` rounds. -/
noncomputable def chunkSizes (k M N : ℕ) (target : ℝ) : Option (ℕ × ℕ) := chunkLoop target M N k 1 1

/-! ### The operator -/

/-- A dask array: its rows, the number of columns and the sizes of the chunks. -/
structure Arr where
  rows : List (List ℝ)
  ncols : ℕ
  rowChunks : List ℕ
  colChunks : List ℕ

/-- `kernel.shape` -/
def Arr.shape (k : Arr) : ℕ × ℕ := (k.rows.length, k.ncols)

/-- The options of `store_sensitivities`. -/
inductive Store
  | ram | disk | forwardOnly
  deriving DecidableEq

/-- `np.any(np.r_[a] == b)` for two tuples of chunk sizes: compared entry by entry, a tuple of one entry with all
entries, and a ValueError for other lengths (numpy 1.25 and later). -/
def anyEq (a b : List ℕ) : Except Err Bool :=
  if a.length = b.length then .ok ((List.zipWith (· == ·) a b).any id)
  else match a, b with
    | [x], b => .ok (b.any (· == x))
    | a, [y] => .ok (a.any (· == y))
    | _, _ => .error .valueError

/-- The test of an existing file (49-55). -/
def agrees (kernel stack : Arr) : Except Err Bool :=
  match anyEq kernel.rowChunks stack.rowChunks with
  | .error e => .error e
  | .ok x => match anyEq kernel.colChunks stack.colChunks with
    | .error e => .error e
    | .ok y => .ok (x && y && (kernel.shape.1 == stack.shape.1) && (kernel.shape.2 == stack.shape.2))

/-- What `linear_operator` returns: a matrix, or the data for `forward_only`. -/
inductive Result
  | matrix (k : Arr)
  | data (d : List ℝ)

/-- `rows`, stacked (16-27): one block per location, in the order of `_location_component_iterator`
(`simpeg/potential_fields/gravity/survey.py` 101-104, `magnetics/survey.py` 100-103). -/
def stacked {L C α : Type} (evaluate : L → List C → List α) (survey : List (L × List C)) : List α :=
  survey.flatMap fun lc => evaluate lc.1 lc.2

/-- The settings of a simulation: what `evaluate_integral` gives for a location and its components, as rows of the
matrix, or as data for `forward_only`, the number of columns, and the chunks chosen for a shape (30-44). -/
structure Sim (L C : Type) where
  evaluate : L → List C → List (List ℝ)
  evaluateData : L → List C → List ℝ
  survey : List (L × List C)
  ncols : ℕ
  chunks : ℕ × ℕ → List ℕ × List ℕ

variable {L C : Type}

/-- `stack` (24-44) of a simulation which keeps the matrix. -/
def Sim.stack (s : Sim L C) : Arr :=
  let rows := stacked s.evaluate s.survey
  let ch := s.chunks (rows.length, s.ncols);
  ⟨rows, s.ncols, ch.1, ch.2⟩

/-- `dask_linear_operator` (9-73). `file` is the content of `sensitivity.zarr`, if it exists; the second result is its
content afterwards. If the file exists and does not agree, the control flow leaves the inner `if`, skips the `else` of
`os.path.exists` and reaches `return kernel` with the kernel of the file. -/
def operator (s : Sim L C) (store : Store) (file : Option Arr) : Except Err (Result × Option Arr) :=
  match store with
  | .forwardOnly => .ok (.data (stacked s.evaluateData s.survey), file)
  | .ram => .ok (.matrix s.stack, file)
  | .disk =>
    match file with
    | none => .ok (.matrix s.stack, some s.stack)
    | some kernel =>
      match agrees kernel s.stack with
      | .error e => .error e
      | .ok true => .ok (.matrix kernel, file)
      | .ok false => .ok (.matrix kernel, file)

namespace Props

/-! ### Sizes of chunks -/

theorem ceilDiv_one (a : ℕ) : ceilDiv a 1 = a := by unfold ceilDiv; simp

theorem ceilDiv_cover (a b : ℕ) (h : 0 < b) : a ≤ b * ceilDiv a b ∧ (0 < a → b * (ceilDiv a b - 1) < a) := by
  unfold ceilDiv
  have h1 := Nat.div_add_mod (a + b - 1) b
  have h2 := Nat.mod_lt (a + b - 1) h
  refine ⟨by omega, fun ha => ?_⟩
  rw [Nat.mul_sub]
  omega

theorem ceilDiv_two {a b : ℕ} (h : 0 < b) (h2 : 2 ≤ ceilDiv a b) : b < a := by
  by_contra hc
  have : ceilDiv a b ≤ 1 := by
    unfold ceilDiv
    rw [← Nat.lt_succ_iff, Nat.div_lt_iff_lt_mul h]
    omega
  omega

theorem loop_none {target : ℝ} (ht : 8 * 1e-6 < target) (M N : ℕ) : ∀ (k a b : ℕ), 0 < a → 0 < b →
    (M - a) + (N - b) < k → ∃ r, chunkLoop target M N k a b = some r := by
  intro k
  induction k with
  | zero => intro a b _ _ h; omega
  | succ k ih =>
    intro a b ha hb h
    unfold chunkLoop
    simp only
    by_cases hbig : TooBig target (ceilDiv M a) (ceilDiv N b)
    · rw [if_pos hbig]
      have h2 : 2 ≤ ceilDiv M a * ceilDiv N b := by
        by_contra hc
        have h3 : ((ceilDiv M a * ceilDiv N b : ℕ) : ℝ) ≤ 1 := by exact_mod_cast (by omega)
        unfold TooBig at hbig
        push_cast at h3
        have : (ceilDiv M a : ℝ) * ceilDiv N b * 8 * 1e-6 ≤ 1 * (8 * 1e-6) := by
          rw [mul_assoc]
          exact mul_le_mul_of_nonneg_right h3 (by norm_num)
        linarith
      by_cases hrc : ceilDiv M a > ceilDiv N b
      · rw [if_pos hrc]
        have h1 : ceilDiv N b ≠ 0 := by intro h0; rw [h0] at h2; omega
        have := ceilDiv_two ha (show 2 ≤ ceilDiv M a by omega)
        exact ih (a + 1) b (by omega) hb (by omega)
      · rw [if_neg hrc]
        have h1 : 2 ≤ ceilDiv N b := by
          by_contra hc
          have h4 : ceilDiv M a ≤ 1 := by omega
          have h5 : ceilDiv N b ≤ 1 := by omega
          have := Nat.mul_le_mul h4 h5
          omega
        have := ceilDiv_two hb h1
        exact ih a (b + 1) ha (by omega) (by omega)
    · rw [if_neg hbig]
      exact ⟨_, rfl⟩

theorem loop_some {target : ℝ} {M N : ℕ} : ∀ {k a b r c : ℕ}, 0 < a → 0 < b →
    chunkLoop target M N k a b = some (r, c) →
    ¬ TooBig target r c ∧ ∃ a' b', a ≤ a' ∧ b ≤ b' ∧ r = ceilDiv M a' ∧ c = ceilDiv N b' ∧
      ((a' = a ∧ b' = b) ∨ (a < a' ∧ TooBig target (ceilDiv M (a' - 1)) c) ∨
        (b < b' ∧ TooBig target r (ceilDiv N (b' - 1)))) := by
  intro k
  induction k with
  | zero => intro a b r c _ _ h; simp [chunkLoop] at h
  | succ k ih =>
    intro a b r c ha hb h
    unfold chunkLoop at h
    simp only at h
    split_ifs at h with h1 h2
    · obtain ⟨n, a', b', ea, eb, er, ec, hor⟩ := ih (by omega) hb h
      refine ⟨n, a', b', by omega, eb, er, ec, ?_⟩
      rcases hor with ⟨rfl, rfl⟩ | ⟨x, y⟩ | h3
      · right; left
        exact ⟨by omega, by rw [ec]; simpa using h1⟩
      · right; left; exact ⟨by omega, y⟩
      · right; right; exact h3
    · obtain ⟨n, a', b', ea, eb, er, ec, hor⟩ := ih ha (by omega) h
      refine ⟨n, a', b', ea, by omega, er, ec, ?_⟩
      rcases hor with ⟨rfl, rfl⟩ | h3 | ⟨x, y⟩
      · right; right
        exact ⟨by omega, by rw [er]; simpa using h1⟩
      · right; left; exact h3
      · right; right; exact ⟨by omega, y⟩
    · simp only [Option.some.injEq, Prod.mk.injEq] at h
      obtain ⟨rfl, rfl⟩ := h
      exact ⟨h1, a, b, le_rfl, le_rfl, rfl, rfl, Or.inl ⟨rfl, rfl⟩⟩

/-- **C185, chunks**: whatever `compute_chunk_sizes` returns is below the target; it is the smallest size with which some
numbers of chunks, at least one, cover all rows and all columns; and these numbers are not larger than needed: either
there is one chunk, or one chunk less along one of the axes would be too big. -/
theorem C185_chunks {k M N : ℕ} {target : ℝ} {r c : ℕ} (h : chunkSizes k M N target = some (r, c)) :
    (r * c * 8 * 1e-6 : ℝ) < target ∧ ∃ a b : ℕ, 0 < a ∧ 0 < b ∧ M ≤ a * r ∧ (0 < M → a * (r - 1) < M) ∧
      N ≤ b * c ∧ (0 < N → b * (c - 1) < N) ∧
      ((r = M ∧ c = N) ∨
        (∃ r' : ℕ, M ≤ (a - 1) * r' ∧ (0 < M → (a - 1) * (r' - 1) < M) ∧ target ≤ r' * c * 8 * 1e-6) ∨
        ∃ c' : ℕ, N ≤ (b - 1) * c' ∧ (0 < N → (b - 1) * (c' - 1) < N) ∧ target ≤ r * c' * 8 * 1e-6) := by
  obtain ⟨n, a, b, ha, hb, rfl, rfl, hor⟩ := loop_some (by norm_num) (by norm_num) h
  refine ⟨not_le.mp n, a, b, ha, hb, (ceilDiv_cover M a ha).1, (ceilDiv_cover M a ha).2, (ceilDiv_cover N b hb).1,
    (ceilDiv_cover N b hb).2, ?_⟩
  rcases hor with ⟨rfl, rfl⟩ | ⟨x, y⟩ | ⟨x, y⟩
  · left; exact ⟨ceilDiv_one M, ceilDiv_one N⟩
  · right; left
    exact ⟨_, (ceilDiv_cover M (a - 1) (by omega)).1, (ceilDiv_cover M (a - 1) (by omega)).2, y⟩
  · right; right
    exact ⟨_, (ceilDiv_cover N (b - 1) (by omega)).1, (ceilDiv_cover N (b - 1) (by omega)).2, y⟩

/-- **C185, end of the search**: with a target above the size of one value (the setter of `max_chunk_size` asks for at
least one megabyte) the search ends, after at most as many rounds as there are rows and columns. -/
theorem C185_chunks_end (M N : ℕ) {target : ℝ} (h : 8 * 1e-6 < target) :
    ∃ r c, chunkSizes (M + N + 1) M N target = some (r, c) := by
  obtain ⟨⟨r, c⟩, h⟩ := loop_none h M N (M + N + 1) 1 1 (by norm_num) (by norm_num) (by omega)
  exact ⟨r, c, h⟩

/-- Non-vacuity: the default target. -/
example : ∃ r c, chunkSizes (30000 + 1000000 + 1) 30000 1000000 128 = some (r, c) :=
  C185_chunks_end 30000 1000000 (by norm_num)

/-- **C185, no end**: with a target which a single value exceeds, the search goes on for ever. -/
theorem C185_chunks_forever (M N : ℕ) (hM : 0 < M) (hN : 0 < N) {target : ℝ} (h : target ≤ 8 * 1e-6) (k : ℕ) :
    chunkSizes k M N target = none := by
  have key : ∀ (k a b : ℕ), 0 < a → 0 < b → chunkLoop target M N k a b = none := by
    intro k
    induction k with
    | zero => intros; rfl
    | succ k ih =>
      intro a b ha hb
      unfold chunkLoop
      simp only
      have hr : 1 ≤ ceilDiv M a := by
        have := (ceilDiv_cover M a ha).1
        by_contra hc
        have h0 : ceilDiv M a = 0 := by omega
        rw [h0] at this; omega
      have hc : 1 ≤ ceilDiv N b := by
        have := (ceilDiv_cover N b hb).1
        by_contra hc
        have h0 : ceilDiv N b = 0 := by omega
        rw [h0] at this; omega
      have h1 : (1 : ℝ) ≤ (ceilDiv M a : ℝ) * ceilDiv N b := by
        have := Nat.mul_le_mul hr hc
        exact_mod_cast this
      have hb' : TooBig target (ceilDiv M a) (ceilDiv N b) := by
        unfold TooBig
        have : (1 : ℝ) * (8 * 1e-6) ≤ (ceilDiv M a : ℝ) * ceilDiv N b * (8 * 1e-6) :=
          mul_le_mul_of_nonneg_right h1 (by norm_num)
        linarith
      rw [if_pos hb']
      split_ifs
      · exact ih _ _ (by omega) hb
      · exact ih _ _ ha (by omega)
  exact key k 1 1 (by norm_num) (by norm_num)

/-! ### The operator -/

theorem disk_ok {s : Sim L C} {k : Arr} {b : Bool} (h : agrees k s.stack = .ok b) :
    operator s .disk (some k) = .ok (.matrix k, some k) := by
  unfold operator
  simp only [h]
  cases b <;> rfl

theorem disk_error {s : Sim L C} {k : Arr} {e : Err} (h : agrees k s.stack = .error e) :
    operator s .disk (some k) = .error e := by
  unfold operator
  simp only [h]

theorem stacked_get {α : Type} (ev : L → List C → List α) (hev : ∀ l cs, (ev l cs).length = cs.length)
    (pre post : List (L × List C)) (l : L) (cs : List C) (k : ℕ) (hk : k < cs.length) :
    (stacked ev (pre ++ (l, cs) :: post))[(pre.map fun p => p.2.length).sum + k]? = (ev l cs)[k]? := by
  unfold stacked
  have hl : (pre.flatMap fun lc => ev lc.1 lc.2).length = (pre.map fun p => p.2.length).sum := by
    rw [List.length_flatMap]
    congr 1
    exact List.map_congr_left fun p _ => hev p.1 p.2
  rw [List.flatMap_append, ← hl, List.getElem?_append_right (by omega)]
  simp only [Nat.add_sub_cancel_left, List.flatMap_cons]
  rw [List.getElem?_append_left (by rw [hev]; exact hk)]

/-- **C185, matrix**: kept in memory, or on a disk without a file, the matrix has one row per location and component, in
the order receivers, locations, components, whatever the format and the sizes of the chunks are; it has as many rows as
the survey has data; and a file written has the same content. -/
theorem C185_matrix (s : Sim L C) (hev : ∀ l cs, (s.evaluate l cs).length = cs.length) (store : Store)
    (hst : store ≠ .forwardOnly) (file : Option Arr) (hf : store = .disk → file = none) :
    ∃ k, operator s store file = .ok (.matrix k, if store = .disk then some k else file) ∧
      k.shape = ((s.survey.map fun p => p.2.length).sum, s.ncols) ∧
      ∀ pre l cs post, s.survey = pre ++ (l, cs) :: post → ∀ i < cs.length,
        k.rows[(pre.map fun p => p.2.length).sum + i]? = (s.evaluate l cs)[i]? := by
  refine ⟨s.stack, ?_, ?_, ?_⟩
  · rcases store with _ | _ | _
    · rfl
    · rw [hf rfl]; rfl
    · exact absurd rfl hst
  · show ((stacked s.evaluate s.survey).length, s.ncols) = _
    unfold stacked
    rw [List.length_flatMap]
    congr 2
    exact List.map_congr_left fun p _ => hev p.1 p.2
  · intro pre l cs post h i hi
    show (stacked s.evaluate s.survey)[_]? = _
    rw [h]
    exact stacked_get s.evaluate hev pre post l cs i hi

/-- **C185, data**: with `forward_only`, if the integrals of a location applied to the model are the rows of the matrix
applied to it, the data are the rows of the matrix applied to the model, and no file is read or written. -/
theorem C185_data (s : Sim L C) (dot : List ℝ → ℝ) (h : ∀ l cs, s.evaluateData l cs = (s.evaluate l cs).map dot)
    (file : Option Arr) :
    operator s .forwardOnly file = .ok (.data (s.stack.rows.map dot), file) := by
  show Except.ok (Result.data (stacked s.evaluateData s.survey), file) = _
  congr 3
  show _ = (stacked s.evaluate s.survey).map dot
  unfold stacked
  rw [List.map_flatMap]
  congr 1
  funext lc
  exact h lc.1 lc.2

/-- **C185, reused file (the good case)**: a file written by a simulation is given back to the same simulation, and is
left as it is, if every array has at least one chunk per axis. -/
theorem C185_reload_partial (s : Sim L C) (hr : s.stack.rowChunks ≠ []) (hc : s.stack.colChunks ≠ []) :
    ∃ f, operator s .disk none = .ok (.matrix s.stack, f) ∧ agrees s.stack s.stack = .ok true ∧
      operator s .disk f = .ok (.matrix s.stack, f) := by
  refine ⟨some s.stack, rfl, ?_, ?_⟩
  · have e : ∀ l : List ℕ, l ≠ [] → anyEq l l = .ok true := by
      intro l hl
      unfold anyEq
      rw [if_pos rfl]
      rcases l with _ | ⟨a, l⟩
      · exact absurd rfl hl
      · simp
    unfold agrees
    rw [e _ hr, e _ hc]
    simp
  · have e : ∀ l : List ℕ, ∃ b, anyEq l l = .ok b := fun l => ⟨_, by unfold anyEq; rw [if_pos rfl]⟩
    obtain ⟨x, hx⟩ := e s.stack.rowChunks
    obtain ⟨y, hy⟩ := e s.stack.colChunks
    refine disk_ok (b := x && y && true && true) ?_
    unfold agrees
    rw [hx, hy]
    simp

/-- **C185, violated**: if a file exists, its content is what `linear_operator` returns, whether or not it agrees with the
survey and the mesh (or the comparison of the chunks fails with a ValueError); the matrix is never computed again and
the file never overwritten. -/
theorem C185_violated_stale (s : Sim L C) (k : Arr) :
    operator s .disk (some k) = .ok (.matrix k, some k) ∨ operator s .disk (some k) = .error .valueError := by
  have e : ∀ a b : List ℕ, (∃ x, anyEq a b = .ok x) ∨ anyEq a b = .error .valueError := by
    intro a b
    unfold anyEq
    split_ifs
    · exact Or.inl ⟨_, rfl⟩
    · split
      · exact Or.inl ⟨_, rfl⟩
      · exact Or.inl ⟨_, rfl⟩
      · exact Or.inr rfl
  rcases e k.rowChunks s.stack.rowChunks with ⟨x, hx⟩ | hx
  · rcases e k.colChunks s.stack.colChunks with ⟨y, hy⟩ | hy
    · exact Or.inl (disk_ok (by unfold agrees; rw [hx, hy]))
    · exact Or.inr (disk_error (by unfold agrees; rw [hx, hy]))
  · exact Or.inr (disk_error (by unfold agrees; rw [hx]))

/-- **C185, violated (wrong shape)**: two simulations with one chunk each and different numbers of data or cells: after
the first one has written its file, the second one gets a matrix of the shape of the first one. The operator without
dask (`geoanaDisk`, C90) computes its own matrix. -/
theorem C185_violated_shape (s t : Sim L C) (hs : s.stack.rowChunks.length = 1 ∧ s.stack.colChunks.length = 1)
    (ht : t.stack.rowChunks.length = 1 ∧ t.stack.colChunks.length = 1) (h : s.stack.shape ≠ t.stack.shape) :
    ∃ f, operator s .disk none = .ok (.matrix s.stack, f) ∧
      (∃ k, operator t .disk f = .ok (.matrix k, f) ∧ k.shape ≠ t.stack.shape) ∧
      (Cache.geoanaDisk Arr.shape t.stack.shape t.stack f).1 = t.stack := by
  refine ⟨some s.stack, rfl, ⟨s.stack, ?_, h⟩, ?_⟩
  · have e : ∃ b, agrees s.stack t.stack = .ok b := by
      unfold agrees anyEq
      rw [if_pos (hs.1.trans ht.1.symm), if_pos (hs.2.trans ht.2.symm)]
      exact ⟨_, rfl⟩
    exact disk_ok e.choose_spec
  · unfold Cache.geoanaDisk
    simp only
    rw [if_neg h]

/-- Non-vacuity: one location with one component and with two components. -/
example : ∃ s t : Sim Unit ℕ, s.stack.shape ≠ t.stack.shape ∧ s.stack.rowChunks.length = 1 ∧
    t.stack.colChunks.length = 1 :=
  ⟨⟨fun _ cs => cs.map fun _ => [1], fun _ cs => cs.map fun _ => 1, [((), [0])], 1, fun s => ([s.1], [s.2])⟩,
   ⟨fun _ cs => cs.map fun _ => [1], fun _ cs => cs.map fun _ => 1, [((), [0, 1])], 1, fun s => ([s.1], [s.2])⟩,
   by simp [Sim.stack, Arr.shape, stacked], rfl, rfl⟩

/-- **C185, violated (ValueError)**: a file with two chunks of rows makes a simulation with three chunks of rows fail. -/
theorem C185_violated_chunks (s : Sim L C) (k : Arr) (hk : 2 ≤ k.rowChunks.length)
    (hs : 2 ≤ s.stack.rowChunks.length) (h : k.rowChunks.length ≠ s.stack.rowChunks.length) :
    operator s .disk (some k) = .error .valueError := by
  have e : anyEq k.rowChunks s.stack.rowChunks = .error .valueError := by
    unfold anyEq
    rw [if_neg h]
    split
    · simp_all
    · simp_all
    · rfl
  exact disk_error (by unfold agrees; rw [e])

/-- Non-vacuity: sizes of chunks of three and of two chunks. -/
example : anyEq [1, 1] [1, 1, 1] = .error .valueError ∧ anyEq [4, 4] [4, 3] = .ok true ∧ anyEq [4] [3, 4] = .ok true :=
  ⟨rfl, rfl, rfl⟩

end Props
end Verif.PF.DaskOperator
