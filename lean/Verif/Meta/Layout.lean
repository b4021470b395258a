import Verif.Basic
import Verif.Analysis

/-! Model of the array handling of `MetaSimulation` and `SumMetaSimulation`
(`simpeg/meta/simulation.py` 91-255, 332-407). -/

noncomputable section
namespace Verif.Meta
open Verif Matrix

/-- One mapping and its simulation. `map` is `mapping * m`, `mapD` the matrix
`mapping.deriv(m)`; the simulation is seen through `dpred`, `Jvec`, `Jtvec` at its model.
Fields are left out: they are a function of the simulation's model (`Meta/State.lean` treats
which model that is). -/
structure Member (n : Nat) where
  k : Nat
  nd : Nat
  map : (Fin n → ℝ) → (Fin k → ℝ)
  mapD : (Fin n → ℝ) → Matrix (Fin k) (Fin n) ℝ
  dpred : (Fin k → ℝ) → (Fin nd → ℝ)
  Jvec : (Fin k → ℝ) → (Fin k → ℝ) → (Fin nd → ℝ)
  Jtvec : (Fin k → ℝ) → (Fin nd → ℝ) → (Fin k → ℝ)

variable {n : Nat}

/-- `_data_offsets = cumsum(r_[0, vnD])` (102). -/
def offsets : Nat → List Nat → List Nat
  | o, [] => [o]
  | o, d :: ds => o :: offsets (o + d) ds

/-- An array as the argument of a simulation that expects `nd` entries; other lengths raise. -/
def asVec (nd : Nat) (l : List ℝ) : Except Err (Fin nd → ℝ) :=
  if h : l.length = nd then .ok fun i => l[i.1]'(h ▸ i.2) else .error .valueError

/-- `MetaSimulation.dpred` (219-229): `np.concatenate` of the member predictions. -/
def dpred (ms : List (Member n)) (m : Fin n → ℝ) : List ℝ :=
  ms.flatMap fun s => List.ofFn (s.dpred (s.map m))

/-- `MetaSimulation.Jvec` (231-241). -/
def Jvec (ms : List (Member n)) (m v : Fin n → ℝ) : List ℝ :=
  ms.flatMap fun s => List.ofFn (s.Jvec (s.map m) (s.mapD m *ᵥ v))

/-- The loop of `MetaSimulation.Jtvec` (247-255) over the members from index `i` on. -/
def JtvecLoop (offs : List Nat) (m : Fin n → ℝ) (v : List ℝ) :
    Nat → List (Member n) → (Fin n → ℝ) → Except Err (Fin n → ℝ)
  | _, [], acc => .ok acc
  | i, s :: ss, acc =>
    match asVec s.nd ((v.drop (offs.getD i 0)).take (offs.getD (i + 1) 0 - offs.getD i 0)) with
    | .error e => .error e
    | .ok w => JtvecLoop offs m v (i + 1) ss (acc + (s.mapD m)ᵀ *ᵥ s.Jtvec (s.map m) w)

/-- `MetaSimulation.Jtvec` (243-255). -/
def Jtvec (ms : List (Member n)) (m : Fin n → ℝ) (v : List ℝ) : Except Err (Fin n → ℝ) :=
  JtvecLoop (offsets 0 (ms.map (·.nd))) m v 0 ms 0

/-- Sum of arrays of one length, starting from the number 0 (`d_pred = 0; d_pred += ...`,
383-386); different lengths raise. -/
def sumArrays : List (List ℝ) → Except Err (List ℝ)
  | [] => .ok []
  | [a] => .ok a
  | a :: b :: l => if a.length = b.length then sumArrays (List.zipWith (· + ·) a b :: l)
      else .error .valueError
termination_by l => l.length

/-- `SumMetaSimulation.dpred` (378-386). -/
def sumDpred (ms : List (Member n)) (m : Fin n → ℝ) : Except Err (List ℝ) :=
  sumArrays (ms.map fun s => List.ofFn (s.dpred (s.map m)))

/-- `SumMetaSimulation.Jvec` (388-398). -/
def sumJvec (ms : List (Member n)) (m v : Fin n → ℝ) : Except Err (List ℝ) :=
  sumArrays (ms.map fun s => List.ofFn (s.Jvec (s.map m) (s.mapD m *ᵥ v)))

/-- `SumMetaSimulation.Jtvec` (400-407). -/
def sumJtvec (m : Fin n → ℝ) (v : List ℝ) : List (Member n) → (Fin n → ℝ) →
    Except Err (Fin n → ℝ)
  | [], acc => .ok acc
  | s :: ss, acc => match asVec s.nd v with
    | .error e => .error e
    | .ok w => sumJtvec m v ss (acc + (s.mapD m)ᵀ *ᵥ s.Jtvec (s.map m) w)

namespace Props

/-! ### Specification -/

/-- Inner product of data arrays. -/
def dot (a b : List ℝ) : ℝ := (List.zipWith (· * ·) a b).sum

/-- The member's `Jvec` and `Jtvec` at `x` are adjoint. -/
def Adjoint (s : Member n) (x : Fin s.k → ℝ) : Prop :=
  ∀ u w, s.Jvec x u ⬝ᵥ w = u ⬝ᵥ s.Jtvec x w

/-- The member's mapping and prediction are differentiable at `m`, and `mapping.deriv` and
`Jvec` are their derivatives. -/
def Differentiable (s : Member n) (m : Fin n → ℝ) : Prop :=
  IsJacobian s.map (s.mapD m) m ∧
  ∃ J : Matrix (Fin s.nd) (Fin s.k) ℝ, IsJacobian s.dpred J (s.map m) ∧
    ∀ u, s.Jvec (s.map m) u = J *ᵥ u

theorem dot_append (a b c d : List ℝ) (h : a.length = c.length) :
    dot (a ++ b) (c ++ d) = dot a c + dot b d := by
  unfold dot
  rw [List.zipWith_append h, List.sum_append]

theorem dot_ofFn {k : Nat} (f : Fin k → ℝ) (l : List ℝ) (h : l.length = k) (g : Fin k → ℝ)
    (hg : ∀ i : Fin k, g i = l[i.1]'(h ▸ i.2)) : dot (List.ofFn f) l = f ⬝ᵥ g := by
  have hl : l = List.ofFn g := by
    apply List.ext_getElem (by simp [h])
    intro i h1 h2
    simp [hg]
  have hz : List.zipWith (· * ·) (List.ofFn f) (List.ofFn g) = List.ofFn fun i => f i * g i := by
    apply List.ext_getElem (by simp)
    intro i h1 h2
    simp
  unfold dot dotProduct
  rw [hl, hz, List.sum_ofFn]

/-! ### C29 -/

theorem offsets_getD : ∀ (ds : List Nat) (o i : Nat), i ≤ ds.length →
    (offsets o ds).getD i 0 = o + (ds.take i).sum
  | [], o, i, h => by
    obtain rfl : i = 0 := by simpa using h
    simp [offsets]
  | d :: ds, o, 0, h => by simp [offsets]
  | d :: ds, o, i + 1, h => by
    simp only [offsets, List.getD_cons_succ]
    rw [offsets_getD ds (o + d) i (by simpa using h)]
    simp; omega

theorem dot_add_left {a b : Fin n → ℝ} (u : Fin n → ℝ) : u ⬝ᵥ (a + b) = u ⬝ᵥ a + u ⬝ᵥ b :=
  dotProduct_add u a b

theorem adjoint_step (s : Member n) (m u : Fin n → ℝ) (h : Adjoint s (s.map m))
    (w : Fin s.nd → ℝ) :
    s.Jvec (s.map m) (s.mapD m *ᵥ u) ⬝ᵥ w = u ⬝ᵥ ((s.mapD m)ᵀ *ᵥ s.Jtvec (s.map m) w) := by
  rw [h, mulVec_transpose, dotProduct_comm u, ← dotProduct_mulVec, dotProduct_comm]

theorem JtvecLoop_spec (m u : Fin n → ℝ) (v : List ℝ) : ∀ (pre ss : List (Member n))
    (acc : Fin n → ℝ), (∀ s ∈ ss, Adjoint s (s.map m)) →
    v.length = ((pre ++ ss).map (·.nd)).sum →
    ∃ r, JtvecLoop (offsets 0 ((pre ++ ss).map (·.nd))) m v pre.length ss acc = .ok r ∧
      u ⬝ᵥ r = u ⬝ᵥ acc + dot (Jvec ss m u) (v.drop (pre.map (·.nd)).sum)
  | pre, [], acc, _, _ => ⟨acc, rfl, by simp [Jvec, dot]⟩
  | pre, s :: ss, acc, hadj, hlen => by
    simp only [JtvecLoop]
    have o1 : (offsets 0 ((pre ++ s :: ss).map (·.nd))).getD pre.length 0 =
        (pre.map (·.nd)).sum := by
      rw [offsets_getD _ _ _ (by simp)]
      simp [List.take_append]
    have o2 : (offsets 0 ((pre ++ s :: ss).map (·.nd))).getD (pre.length + 1) 0 =
        (pre.map (·.nd)).sum + s.nd := by
      rw [offsets_getD _ _ _ (by simp)]
      simp [List.take_append, List.take_of_length_le]
    rw [o1, o2, Nat.add_sub_cancel_left]
    have hl : ((v.drop (pre.map (·.nd)).sum).take s.nd).length = s.nd := by
      simp only [List.length_take, List.length_drop, hlen, List.map_append, List.map_cons,
        List.sum_append, List.sum_cons]
      omega
    simp only [asVec, hl, dif_pos]
    have ih := JtvecLoop_spec m u v (pre ++ [s]) ss
      (acc + (s.mapD m)ᵀ *ᵥ s.Jtvec (s.map m) fun i =>
        ((v.drop (pre.map (·.nd)).sum).take s.nd)[i.1]'(hl.symm ▸ i.2))
      (fun t ht => hadj t (by simp [ht])) (by rw [hlen]; simp)
    obtain ⟨r, h1, h2⟩ := ih
    refine ⟨r, ?_, ?_⟩
    · rw [← h1]; simp
    · rw [h2, dot_add_left, ← adjoint_step s m u (hadj s (by simp))]
      have e : (v.drop (pre.map (·.nd)).sum) =
          (v.drop (pre.map (·.nd)).sum).take s.nd ++ v.drop ((pre ++ [s]).map (·.nd)).sum := by
        conv_lhs => rw [← List.take_append_drop s.nd (v.drop (pre.map (·.nd)).sum)]
        rw [List.drop_drop]; simp
      rw [show Jvec (s :: ss) m u = List.ofFn (s.Jvec (s.map m) (s.mapD m *ᵥ u)) ++ Jvec ss m u from
        by simp [Jvec]]
      conv_rhs => rw [e]
      rw [dot_append _ _ _ _ (by rw [hl]; simp), dot_ofFn _ _ hl
        (fun i => ((v.drop (pre.map (·.nd)).sum).take s.nd)[i.1]'(hl.symm ▸ i.2)) (fun i => rfl)]
      ring

/-- C29. `dpred` and `Jvec` are laid out member after member, and `Jtvec` accepts every data
vector of the total length and is the adjoint of `Jvec`, for any number of members of any
sizes. -/
theorem C29_adjoint (ms : List (Member n)) (m : Fin n → ℝ)
    (hadj : ∀ s ∈ ms, Adjoint s (s.map m)) (u : Fin n → ℝ) (w : List ℝ)
    (hw : w.length = (ms.map (·.nd)).sum) :
    ∃ r, Jtvec ms m w = .ok r ∧ dot (Jvec ms m u) w = u ⬝ᵥ r := by
  obtain ⟨r, h1, h2⟩ := JtvecLoop_spec m u w [] ms 0 hadj (by simpa using hw)
  refine ⟨r, h1, ?_⟩
  rw [h2]; simp

theorem length_Jvec (ms : List (Member n)) (m u : Fin n → ℝ) :
    (Jvec ms m u).length = (ms.map (·.nd)).sum := by
  induction ms with
  | nil => rfl
  | cons s ss ih => simp [Jvec] at ih ⊢

theorem length_dpred (ms : List (Member n)) (m : Fin n → ℝ) :
    (dpred ms m).length = (ms.map (·.nd)).sum := by
  induction ms with
  | nil => rfl
  | cons s ss ih => simp [dpred] at ih ⊢

/-- C29. Entry `j` of member `i` is found at offset `nD_0 + ... + nD_{i-1} + j` of the
prediction, and is the member's own prediction at its mapped model. -/
theorem C29_layout (pre : List (Member n)) (s : Member n) (post : List (Member n))
    (m : Fin n → ℝ) (j : Fin s.nd) :
    (dpred (pre ++ s :: post) m)[(pre.map (·.nd)).sum + j.1]? = some (s.dpred (s.map m) j) := by
  have : dpred (pre ++ s :: post) m = dpred pre m ++ (List.ofFn (s.dpred (s.map m)) ++ dpred post m) := by
    simp [dpred]
  rw [this, List.getElem?_append_right (by rw [length_dpred]; omega), length_dpred,
    Nat.add_sub_cancel_left, List.getElem?_append_left (by simp)]
  simp

/-- C29. Every entry of `Jvec` is the derivative of the same entry of `dpred`. -/
theorem C29_derivative (ms : List (Member n)) (m : Fin n → ℝ)
    (hd : ∀ s ∈ ms, Differentiable s m) (i : Nat) (hi : i < (ms.map (·.nd)).sum) :
    ∃ L : (Fin n → ℝ) →L[ℝ] ℝ, HasFDerivAt (fun x => (dpred ms x).getD i 0) L m ∧
      ∀ u, L u = (Jvec ms m u).getD i 0 := by
  induction ms generalizing i with
  | nil => simp at hi
  | cons s ss ih =>
    have e1 : ∀ x, dpred (s :: ss) x = List.ofFn (s.dpred (s.map x)) ++ dpred ss x := by
      intro x; simp [dpred]
    have e2 : ∀ u, Jvec (s :: ss) m u =
        List.ofFn (s.Jvec (s.map m) (s.mapD m *ᵥ u)) ++ Jvec ss m u := by
      intro x; simp [Jvec]
    by_cases h : i < s.nd
    · obtain ⟨h1, J, h2, h3⟩ := hd s (by simp)
      have hc : HasFDerivAt (fun x => s.dpred (s.map x)) ((mulVecL J).comp (mulVecL (s.mapD m))) m :=
        h2.comp m h1
      have hp := (hasFDerivAt_pi'.mp hc) ⟨i, h⟩
      refine ⟨(ContinuousLinearMap.proj ⟨i, h⟩).comp ((mulVecL J).comp (mulVecL (s.mapD m))), ?_, ?_⟩
      · have : (fun x => (dpred (s :: ss) x).getD i 0) = fun x => s.dpred (s.map x) ⟨i, h⟩ := by
          funext x
          rw [e1, List.getD_eq_getElem?_getD, List.getElem?_append_left (by simpa using h)]
          simp [h]
        rw [this]; exact hp
      · intro u
        rw [e2, List.getD_eq_getElem?_getD, List.getElem?_append_left (by simpa using h)]
        simp only [List.getElem?_ofFn, h, dif_pos, Option.getD_some, h3]
        rfl
    · obtain ⟨L, h1, h2⟩ := ih (fun t ht => hd t (by simp [ht])) (i - s.nd)
        (by simp at hi; omega)
      refine ⟨L, ?_, ?_⟩
      · have : (fun x => (dpred (s :: ss) x).getD i 0) = fun x => (dpred ss x).getD (i - s.nd) 0 := by
          funext x
          rw [e1, List.getD_eq_getElem?_getD, List.getElem?_append_right (by simpa using h)]
          simp
        rw [this]; exact h1
      · intro u
        rw [h2, e2, List.getD_eq_getElem?_getD, List.getD_eq_getElem?_getD,
          List.getElem?_append_right (by simpa using h)]
        simp

/-! ### C30, sums -/

/-- Entrywise sum of members' arrays, as an independent specification. -/
def Total (ls : List (List ℝ)) (r : List ℝ) (nd : Nat) : Prop :=
  r.length = nd ∧ ∀ i < nd, r.getD i 0 = (ls.map fun l => l.getD i 0).sum

theorem sumArrays_spec (nd : Nat) : ∀ (ls : List (List ℝ)), ls ≠ [] → (∀ l ∈ ls, l.length = nd) →
    ∃ r, sumArrays ls = .ok r ∧ Total ls r nd
  | [], h, _ => absurd rfl h
  | [a], _, h => ⟨a, by rw [sumArrays], h a (by simp), by simp⟩
  | a :: b :: l, _, h => by
    have ha : a.length = nd := h a (by simp)
    have hb : b.length = nd := h b (by simp)
    rw [sumArrays, if_pos (by rw [ha, hb])]
    obtain ⟨r, h1, h2, h3⟩ := sumArrays_spec nd (List.zipWith (· + ·) a b :: l) (by simp) (by
      intro t ht
      simp only [List.mem_cons] at ht
      rcases ht with rfl | ht
      · simp [ha, hb]
      · exact h t (by simp [ht]))
    refine ⟨r, h1, h2, ?_⟩
    intro i hi
    rw [h3 i hi]
    simp only [List.map_cons, List.sum_cons]
    rw [← add_assoc]
    congr 1
    simp [List.getD_eq_getElem?_getD, List.getElem?_zipWith, ha, hb, hi]
termination_by l => l.length

/-- C30. `SumMetaSimulation` predicts the sum of the member predictions. -/
theorem C30_sum_dpred (ms : List (Member n)) (hne : ms ≠ []) (nd : Nat)
    (hnd : ∀ s ∈ ms, s.nd = nd) (m : Fin n → ℝ) :
    ∃ r, sumDpred ms m = .ok r ∧
      Total (ms.map fun s => List.ofFn (s.dpred (s.map m))) r nd := by
  apply sumArrays_spec nd _ (by simpa using hne)
  intro l hl
  simp only [List.mem_map] at hl
  obtain ⟨s, hs, rfl⟩ := hl
  simp [hnd s hs]

theorem dot_zipWith_add (a b w : List ℝ) (h : a.length = b.length) :
    dot (List.zipWith (· + ·) a b) w = dot a w + dot b w := by
  unfold dot
  induction a generalizing b w with
  | nil => cases b with
    | nil => simp
    | cons y b => simp at h
  | cons x a ih =>
    cases b with
    | nil => simp at h
    | cons y b =>
      cases w with
      | nil => simp
      | cons z w =>
        simp only [List.zipWith_cons_cons, List.sum_cons]
        rw [ih b w (by simpa using h)]
        ring

theorem sumArrays_dot (nd : Nat) (w : List ℝ) : ∀ (ls : List (List ℝ)), ls ≠ [] →
    (∀ l ∈ ls, l.length = nd) → ∀ r, sumArrays ls = .ok r → dot r w = (ls.map (dot · w)).sum
  | [], h, _, _, _ => absurd rfl h
  | [a], _, h, r, hr => by rw [sumArrays] at hr; cases hr; simp
  | a :: b :: l, _, h, r, hr => by
    have ha : a.length = nd := h a (by simp)
    have hb : b.length = nd := h b (by simp)
    rw [sumArrays, if_pos (by rw [ha, hb])] at hr
    rw [sumArrays_dot nd w _ (by simp) (by
      intro t ht
      simp only [List.mem_cons] at ht
      rcases ht with rfl | ht
      · simp [ha, hb]
      · exact h t (by simp [ht])) r hr]
    simp only [List.map_cons, List.sum_cons]
    rw [dot_zipWith_add _ _ _ (by rw [ha, hb])]
    ring
termination_by l => l.length

theorem sumJtvec_spec (nd : Nat) (m u : Fin n → ℝ) (w : List ℝ) (hw : w.length = nd) :
    ∀ (ms : List (Member n)) (acc : Fin n → ℝ), (∀ s ∈ ms, s.nd = nd) →
    (∀ s ∈ ms, Adjoint s (s.map m)) →
    ∃ r, sumJtvec m w ms acc = .ok r ∧ u ⬝ᵥ r = u ⬝ᵥ acc +
      (ms.map fun s => dot (List.ofFn (s.Jvec (s.map m) (s.mapD m *ᵥ u))) w).sum
  | [], acc, _, _ => ⟨acc, rfl, by simp⟩
  | s :: ss, acc, hnd, hadj => by
    have hl : w.length = s.nd := by rw [hw, hnd s (by simp)]
    simp only [sumJtvec, asVec, hl, dif_pos]
    obtain ⟨r, h1, h2⟩ := sumJtvec_spec nd m u w hw ss _ (fun t ht => hnd t (by simp [ht]))
      (fun t ht => hadj t (by simp [ht]))
    refine ⟨r, h1, ?_⟩
    rw [h2, dot_add_left, ← adjoint_step s m u (hadj s (by simp)), List.map_cons, List.sum_cons,
      dot_ofFn _ _ hl (fun i => w[i.1]'(hl.symm ▸ i.2)) (fun i => rfl)]
    ring

/-- C30. `Jvec` and `Jtvec` of `SumMetaSimulation` are adjoint. -/
theorem C30_sum_adjoint (ms : List (Member n)) (hne : ms ≠ []) (nd : Nat)
    (hnd : ∀ s ∈ ms, s.nd = nd) (m : Fin n → ℝ) (hadj : ∀ s ∈ ms, Adjoint s (s.map m))
    (u : Fin n → ℝ) (w : List ℝ) (hw : w.length = nd) :
    ∃ a r, sumJvec ms m u = .ok a ∧ sumJtvec m w ms 0 = .ok r ∧ dot a w = u ⬝ᵥ r := by
  have hlen : ∀ l ∈ ms.map fun s => List.ofFn (s.Jvec (s.map m) (s.mapD m *ᵥ u)),
      l.length = nd := by
    intro l hl
    simp only [List.mem_map] at hl
    obtain ⟨s, hs, rfl⟩ := hl
    simp [hnd s hs]
  obtain ⟨a, h1, -⟩ := sumArrays_spec nd _ (by simpa using hne) hlen
  obtain ⟨r, h2, h3⟩ := sumJtvec_spec nd m u w hw ms 0 hnd hadj
  refine ⟨a, r, h1, h2, ?_⟩
  rw [sumArrays_dot nd w _ (by simpa using hne) hlen a h1, h3, dotProduct_zero, zero_add,
    List.map_map]
  rfl

/-- Two members of different sizes that meet the hypotheses: a linear one and an empty one. -/
example : ∃ ms : List (Member 2), ms.length = 2 ∧
    (∀ m, ∀ s ∈ ms, Adjoint s (s.map m) ∧ Differentiable s m) := by
  refine ⟨[⟨2, 3, id, fun _ => 1, fun x => (fun i => x 0 + x 1), fun _ u => (fun i => u 0 + u 1),
      fun _ w => fun _ => ∑ i, w i⟩,
    ⟨2, 0, id, fun _ => 1, fun _ => 0, fun _ _ => 0, fun _ _ => 0⟩], rfl, ?_⟩
  intro m s hs
  have hid : IsJacobian (id : (Fin 2 → ℝ) → _) 1 m := by
    have h : mulVecL (1 : Matrix (Fin 2) (Fin 2) ℝ) = ContinuousLinearMap.id ℝ _ := by
      ext1 u; simp
    rw [IsJacobian, h]; exact hasFDerivAt_id m
  simp only [List.mem_cons, List.not_mem_nil, or_false] at hs
  rcases hs with rfl | rfl
  · refine ⟨?_, hid, fun _ _ => 1, ?_, ?_⟩
    · intro u w
      simp only [dotProduct]
      rw [← Finset.mul_sum, Fin.sum_univ_two]; ring
    · have : (fun x : Fin 2 → ℝ => (fun _ : Fin 3 => x 0 + x 1)) =
          ⇑(mulVecL (fun _ _ => 1 : Matrix (Fin 3) (Fin 2) ℝ)) := by
        funext x i
        change _ = ((fun _ _ => 1 : Matrix (Fin 3) (Fin 2) ℝ) *ᵥ x) i
        simp [mulVec, dotProduct, Fin.sum_univ_two]
      change HasFDerivAt _ _ _
      simp only
      rw [this]
      exact (mulVecL _).hasFDerivAt
    · intro u; funext i; simp [mulVec, dotProduct, Fin.sum_univ_two]
  · refine ⟨?_, hid, fun i _ => i.elim0, ?_, ?_⟩
    · intro u w; simp [dotProduct]
    · have h : mulVecL (fun i _ => i.elim0 : Matrix (Fin 0) (Fin 2) ℝ) = 0 := by
        ext u i; exact i.elim0
      change HasFDerivAt _ (mulVecL (fun i _ => i.elim0 : Matrix (Fin 0) (Fin 2) ℝ)) _
      rw [h]
      exact hasFDerivAt_const _ _
    · intro u; funext i; exact i.elim0

end Props
end Verif.Meta
