import Verif.Meta.Layout
import Verif.Meta.Chunks

/-! Array handling of the parallel meta simulations (`simpeg/meta/multiprocessing.py` 259-330,
376-404), for chunks of simulations in worker processes. Which replies arrive is the subject of
`Meta/Parallel.lean`; here, what the head does with them. -/

noncomputable section
namespace Verif.Meta.ChunkLayout
open Verif Verif.Meta Matrix

variable {n : Nat}

/-- `MultiprocessingMetaSimulation.dpred` (290-302); every chunk is a `MetaSimulation` (248). -/
def parDpred (cs : List (List (Member n))) (m : Fin n → ℝ) : List ℝ := cs.flatMap fun c => dpred c m

/-- `MultiprocessingMetaSimulation.Jvec` (304-314). -/
def parJvec (cs : List (List (Member n))) (m v : Fin n → ℝ) : List ℝ :=
  cs.flatMap fun c => Jvec c m v

/-- Number of data of a chunk (`sim_chunk.survey.nD`, 251). -/
def chunkNd (c : List (Member n)) : Nat := (c.map (·.nd)).sum

/-- The loop of `MultiprocessingMetaSimulation.Jtvec` (320-327): slices of `v` by
`_data_offsets`, and the sum of the chunks' results. -/
def parJtvecLoop (offs : List Nat) (m : Fin n → ℝ) (v : List ℝ) :
    Nat → List (List (Member n)) → (Fin n → ℝ) → Except Err (Fin n → ℝ)
  | _, [], acc => .ok acc
  | i, c :: cs, acc =>
    match Jtvec c m ((v.drop (offs.getD i 0)).take (offs.getD (i + 1) 0 - offs.getD i 0)) with
    | .error e => .error e
    | .ok r => parJtvecLoop offs m v (i + 1) cs (acc + r)

/-- `MultiprocessingMetaSimulation.Jtvec` (316-327). -/
def parJtvec (cs : List (List (Member n))) (m : Fin n → ℝ) (v : List ℝ) :
    Except Err (Fin n → ℝ) :=
  parJtvecLoop (offsets 0 (cs.map chunkNd)) m v 0 cs 0

/-- `MultiprocessingSumMetaSimulation.dpred` (376-388). The class has no constructor of its
own, so its chunks are plain `MetaSimulation`s (248), whose predictions are concatenated. -/
def parSumDpred (cs : List (List (Member n))) (m : Fin n → ℝ) : Except Err (List ℝ) :=
  sumArrays (cs.map fun c => dpred c m)

/-- `MultiprocessingSumMetaSimulation.Jvec` (390-399). -/
def parSumJvec (cs : List (List (Member n))) (m v : Fin n → ℝ) : Except Err (List ℝ) :=
  sumArrays (cs.map fun c => Jvec c m v)

/-- `MultiprocessingSumMetaSimulation.Jtvec` (401-411). -/
def parSumJtvec (m : Fin n → ℝ) (v : List ℝ) : List (List (Member n)) → (Fin n → ℝ) →
    Except Err (Fin n → ℝ)
  | [], acc => .ok acc
  | c :: cs, acc => match Jtvec c m v with
    | .error e => .error e
    | .ok r => parSumJtvec m v cs (acc + r)

namespace Props

/-- `Jtvec` as a function of the list of members: each takes the next entries of `v`. -/
def adj (m : Fin n → ℝ) : List (Member n) → List ℝ → (Fin n → ℝ)
  | [], _ => 0
  | s :: ss, v => (s.mapD m)ᵀ *ᵥ s.Jtvec (s.map m) (fun i => v.getD i 0) + adj m ss (v.drop s.nd)

theorem asVec_eq (nd : Nat) (l : List ℝ) (h : l.length = nd) :
    asVec nd l = .ok fun i => l.getD i 0 := by
  unfold asVec
  rw [dif_pos h]
  congr 1
  funext i
  rw [List.getD_eq_getElem?_getD, List.getElem?_eq_getElem (h ▸ i.2), Option.getD_some]

theorem JtvecLoop_eq (m : Fin n → ℝ) (v : List ℝ) : ∀ (pre ss : List (Member n))
    (acc : Fin n → ℝ), v.length = ((pre ++ ss).map (·.nd)).sum →
    JtvecLoop (offsets 0 ((pre ++ ss).map (·.nd))) m v pre.length ss acc =
      .ok (acc + adj m ss (v.drop (pre.map (·.nd)).sum))
  | pre, [], acc, _ => by simp [JtvecLoop, adj]
  | pre, s :: ss, acc, hlen => by
    simp only [JtvecLoop]
    have o1 : (offsets 0 ((pre ++ s :: ss).map (·.nd))).getD pre.length 0 =
        (pre.map (·.nd)).sum := by
      rw [Meta.Props.offsets_getD _ _ _ (by simp)]
      simp [List.take_append]
    have o2 : (offsets 0 ((pre ++ s :: ss).map (·.nd))).getD (pre.length + 1) 0 =
        (pre.map (·.nd)).sum + s.nd := by
      rw [Meta.Props.offsets_getD _ _ _ (by simp)]
      simp [List.take_append, List.take_of_length_le]
    rw [o1, o2, Nat.add_sub_cancel_left]
    have hl : ((v.drop (pre.map (·.nd)).sum).take s.nd).length = s.nd := by
      simp only [List.length_take, List.length_drop, hlen, List.map_append, List.map_cons,
        List.sum_append, List.sum_cons]
      omega
    rw [asVec_eq _ _ hl]
    simp only
    have := JtvecLoop_eq m v (pre ++ [s]) ss
      (acc + (s.mapD m)ᵀ *ᵥ s.Jtvec (s.map m) fun i =>
        ((v.drop (pre.map (·.nd)).sum).take s.nd).getD i 0) (by rw [hlen]; simp)
    rw [List.append_assoc, List.singleton_append] at this
    simp only [List.length_append, List.length_cons, List.length_nil, zero_add] at this
    rw [this, adj, List.drop_drop]
    congr 1
    rw [add_assoc]
    congr 2
    · congr 2
      funext i
      rw [List.getD_eq_getElem?_getD, List.getD_eq_getElem?_getD, List.getElem?_take, if_pos i.2]
    · simp

theorem Jtvec_eq (ms : List (Member n)) (m : Fin n → ℝ) (v : List ℝ)
    (h : v.length = (ms.map (·.nd)).sum) : Jtvec ms m v = .ok (adj m ms v) := by
  have := JtvecLoop_eq m v [] ms 0 (by simpa using h)
  simpa [Jtvec] using this

theorem adj_append (m : Fin n → ℝ) : ∀ (a b : List (Member n)) (v : List ℝ),
    adj m (a ++ b) v = adj m a (v.take (chunkNd a)) + adj m b (v.drop (chunkNd a))
  | [], b, v => by simp [adj, chunkNd]
  | s :: a, b, v => by
    rw [List.cons_append, adj, adj_append m a b, adj]
    have h1 : (fun i : Fin s.nd => v.getD i 0) =
        fun i : Fin s.nd => (v.take (chunkNd (s :: a))).getD i 0 := by
      funext i
      have hi : i.1 < chunkNd (s :: a) := by
        have := i.2
        simp only [chunkNd, List.map_cons, List.sum_cons]; omega
      rw [List.getD_eq_getElem?_getD, List.getD_eq_getElem?_getD, List.getElem?_take, if_pos hi]
    have h2 : (v.take (chunkNd (s :: a))).drop s.nd = (v.drop s.nd).take (chunkNd a) := by
      rw [List.drop_take]
      congr 1
      simp [chunkNd]
    have h3 : v.drop (chunkNd (s :: a)) = (v.drop s.nd).drop (chunkNd a) := by
      rw [List.drop_drop]
      simp [chunkNd]
    rw [h1, h2, h3, add_assoc]

theorem parJtvecLoop_eq (m : Fin n → ℝ) (v : List ℝ) : ∀ (pre cs : List (List (Member n)))
    (acc : Fin n → ℝ), v.length = ((pre ++ cs).map chunkNd).sum →
    parJtvecLoop (offsets 0 ((pre ++ cs).map chunkNd)) m v pre.length cs acc =
      .ok (acc + adj m cs.flatten (v.drop (pre.map chunkNd).sum))
  | pre, [], acc, _ => by simp [parJtvecLoop, adj]
  | pre, c :: cs, acc, hlen => by
    simp only [parJtvecLoop]
    have o1 : (offsets 0 ((pre ++ c :: cs).map chunkNd)).getD pre.length 0 =
        (pre.map chunkNd).sum := by
      rw [Meta.Props.offsets_getD _ _ _ (by simp)]
      simp [List.take_append]
    have o2 : (offsets 0 ((pre ++ c :: cs).map chunkNd)).getD (pre.length + 1) 0 =
        (pre.map chunkNd).sum + chunkNd c := by
      rw [Meta.Props.offsets_getD _ _ _ (by simp)]
      simp [List.take_append, List.take_of_length_le]
    rw [o1, o2, Nat.add_sub_cancel_left]
    have hl : ((v.drop (pre.map chunkNd).sum).take (chunkNd c)).length = chunkNd c := by
      simp only [List.length_take, List.length_drop, hlen, List.map_append, List.map_cons,
        List.sum_append, List.sum_cons]
      omega
    rw [Jtvec_eq c m _ hl]
    simp only
    have := parJtvecLoop_eq m v (pre ++ [c]) cs
      (acc + adj m c ((v.drop (pre.map chunkNd).sum).take (chunkNd c))) (by rw [hlen]; simp)
    rw [List.append_assoc, List.singleton_append] at this
    simp only [List.length_append, List.length_cons, List.length_nil, zero_add] at this
    rw [this, List.flatten_cons, adj_append, List.drop_drop]
    congr 1
    rw [add_assoc]
    congr 3
    simp

theorem chunkNd_flatten : ∀ cs : List (List (Member n)),
    (cs.map chunkNd).sum = (cs.flatten.map (·.nd)).sum
  | [] => rfl
  | c :: cs => by
    simp only [List.map_cons, List.sum_cons, List.flatten_cons, List.map_append, List.sum_append]
    rw [chunkNd_flatten cs, chunkNd]

/-- C33. For every number of processes, the prediction and the products with the sensitivity
and its transpose put together from the chunks are those of the serial simulation of all
members. -/
theorem C33_chunks_layout (ms : List (Member n)) (p : Nat) (hp : p ≠ 0) (m u : Fin n → ℝ)
    (w : List ℝ) (hw : w.length = (ms.map (·.nd)).sum) :
    ∃ cs, Chunks.chunks ms p = .ok cs ∧ parDpred cs m = dpred ms m ∧
      parJvec cs m u = Jvec ms m u ∧ parJtvec cs m w = Jtvec ms m w := by
  obtain ⟨cs, h1, h2, -⟩ := Chunks.Props.C32_chunks ms p hp
  refine ⟨cs, h1, ?_, ?_, ?_⟩
  · subst h2
    simp only [parDpred, dpred, List.flatMap_def, List.map_flatten, List.flatten_flatten,
      List.map_map]
    rfl
  · subst h2
    simp only [parJvec, Jvec, List.flatMap_def, List.map_flatten, List.flatten_flatten,
      List.map_map]
    rfl
  · subst h2
    have := parJtvecLoop_eq m w [] cs 0 (by simpa [chunkNd_flatten] using hw)
    rw [Jtvec_eq _ _ _ hw]
    simpa [parJtvec] using this

/-! ### C55 -/

theorem sumJtvec_eq (m : Fin n → ℝ) (w : List ℝ) : ∀ (ms : List (Member n)) (acc : Fin n → ℝ),
    (∀ s ∈ ms, s.nd = w.length) →
    parSumJtvec m w (ms.map fun s => [s]) acc = sumJtvec m w ms acc
  | [], acc, _ => rfl
  | s :: ss, acc, h => by
    have hs : w.length = s.nd := (h s (by simp)).symm
    rw [List.map_cons, parSumJtvec, sumJtvec, Jtvec_eq _ _ _ (by simpa using hs), asVec_eq _ _ hs]
    simp only
    rw [sumJtvec_eq m w ss _ (fun t ht => h t (by simp [ht]))]
    simp [adj]

theorem chunks_singletons {α : Type} (xs : List α) (p : Nat) (hp : xs.length ≤ p) (h0 : p ≠ 0) :
    Chunks.chunks xs p = .ok (xs.map fun s => [s]) := by
  obtain ⟨cs, h1, h2, h3, h4, -⟩ := Chunks.Props.C32_chunks xs p h0
  rw [h1]
  congr 1
  rw [min_eq_right hp] at h4
  have key : ∀ (cs : List (List α)), (∀ c ∈ cs, c ≠ []) → cs.length = cs.flatten.length →
      cs = cs.flatten.map fun s => [s] := by
    intro cs
    induction cs with
    | nil => intro _ _; rfl
    | cons c cs ih =>
      intro hne hl
      have hlen : ∀ (cs : List (List α)), (∀ c ∈ cs, c ≠ []) → cs.length ≤ cs.flatten.length := by
        intro cs
        induction cs with
        | nil => intro _; simp
        | cons c cs ih =>
          intro hne
          have := ih (fun c hc => hne c (by simp [hc]))
          have h1 : 0 < c.length := List.length_pos_iff.mpr (hne c (by simp))
          simp only [List.length_cons, List.flatten_cons, List.length_append]; omega
      have h1 : 0 < c.length := List.length_pos_iff.mpr (hne c (by simp))
      have h2 := hlen cs (fun c hc => hne c (by simp [hc]))
      simp only [List.length_cons, List.flatten_cons, List.length_append] at hl
      obtain ⟨a, rfl⟩ : ∃ a, c = [a] := List.length_eq_one_iff.mp (by omega)
      rw [List.flatten_cons, List.map_append, ← ih (fun c hc => hne c (by simp [hc]))
        (by rw [List.length_singleton] at hl; omega)]
      rfl
  rw [← h2]
  exact key cs h3 (by rw [h2]; exact h4)

/-- C55, the part that holds: with at least as many processes as simulations, the parallel sum
is the serial sum. Missing: fewer processes, where it is not (`C55_sum_is_wrong`). -/
theorem C55_parallel_sum_partial (ms : List (Member n)) (p : Nat) (hp : ms.length ≤ p)
    (h0 : p ≠ 0) (m u : Fin n → ℝ) (w : List ℝ) (hw : ∀ s ∈ ms, s.nd = w.length) :
    ∃ cs, Chunks.chunks ms p = .ok cs ∧ parSumDpred cs m = sumDpred ms m ∧
      parSumJvec cs m u = sumJvec ms m u ∧ parSumJtvec m w cs 0 = sumJtvec m w ms 0 := by
  refine ⟨_, chunks_singletons ms p hp h0, ?_, ?_, ?_⟩
  · simp only [parSumDpred, sumDpred, List.map_map]
    congr 2
    funext s
    simp [dpred]
  · simp only [parSumJvec, sumJvec, List.map_map]
    congr 2
    funext s
    simp [Jvec]
  · exact sumJtvec_eq m w ms 0 hw

/-- A member with one datum, `a * m`. -/
def lin (a : ℝ) : Member 1 :=
  ⟨1, 1, id, fun _ => 1, fun x _ => a * x 0, fun _ u _ => a * u 0, fun _ w _ => a * w 0⟩

/-- C55 fails with fewer processes than simulations: four simulations of one datum each in two
processes give two data instead of one, without an error. -/
theorem C55_sum_is_wrong :
    sumDpred [lin 1, lin 2, lin 3, lin 4] (fun _ => 1) = .ok [10] ∧
    ∃ cs, Chunks.chunks [lin 1, lin 2, lin 3, lin 4] 2 = .ok cs ∧
      parSumDpred cs (fun _ => 1) = .ok [4, 6] := by
  constructor
  · simp only [sumDpred, List.map_cons, List.map_nil, lin, id_eq]
    simp [sumArrays]
    norm_num
  · refine ⟨[[lin 1, lin 2], [lin 3, lin 4]], by
      simp [Chunks.chunks, Chunks.chunkSizes, Chunks.increments, Chunks.slices, List.range_succ], ?_⟩
    simp only [parSumDpred, dpred, List.map_cons, List.map_nil, lin, id_eq]
    simp [sumArrays]
    norm_num

/-- Three members with two processes, and three with four. -/
example : (∃ cs, Chunks.chunks [lin 1, lin 2, lin 3] 2 = .ok cs ∧
    parDpred cs (fun _ => 1) = dpred [lin 1, lin 2, lin 3] (fun _ => 1)) ∧
    ∀ s ∈ [lin 1, lin 2, lin 3], s.nd = ([5] : List ℝ).length := by
  constructor
  · obtain ⟨cs, h1, h2, -⟩ := C33_chunks_layout [lin 1, lin 2, lin 3] 2 (by decide) (fun _ => 1)
      (fun _ => 1) [1, 2, 3] rfl
    exact ⟨cs, h1, h2⟩
  · intro s hs
    simp only [List.mem_cons, List.not_mem_nil, or_false] at hs
    rcases hs with rfl | rfl | rfl <;> rfl

end Props
end Verif.Meta.ChunkLayout
