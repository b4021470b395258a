import Verif.TDEM.Waveforms
import Mathlib.Data.List.Sort
import Mathlib.Data.List.GetD

/-!
C77: `PiecewiseLinearWaveform` (`simpeg/electromagnetics/time_domain/sources.py` 817-908).

Simplified: times and currents are real numbers; `eval_deriv` of an array is taken at one time.
`np.argsort` may return equal times in any order; the model keeps their order, and the theorems are about
distinct times.
-/

namespace Verif.TDEM.Waveforms

noncomputable section
open Classical

/-- `PiecewiseLinearWaveform`: the sorted times with their currents. -/
structure Piecewise where
  nodes : List (ℝ × ℝ)

/-- `times[i]` and `currents[i]` of the sorted arrays. -/
def Piecewise.T (w : Piecewise) (i : ℕ) : ℝ := (w.nodes.getD i (0, 0)).1

/-- See `Piecewise.T`. -/
def Piecewise.I (w : Piecewise) (i : ℕ) : ℝ := (w.nodes.getD i (0, 0)).2

/-- `PiecewiseLinearWaveform.__init__` (829-842).  Empty arrays fail at `self.currents[0]`. -/
def Piecewise.build (times currents : List ℝ) : Except Err Piecewise :=
  if times.length ≠ currents.length then .error .valueError
  else if times.length = 0 then .error .indexError
  else .ok ⟨(times.zip currents).insertionSort (fun a b => a.1 ≤ b.1)⟩

/-- `has_initial_fields`, as set by `__init__` (842). -/
def Piecewise.hasInitial (w : Piecewise) : Bool := decide (w.I 0 ≠ 0)

/-- `np.searchsorted(times, t)` for sorted times: the number of times below `t`. -/
def search : List (ℝ × ℝ) → ℝ → ℕ
  | [], _ => 0
  | a :: l, t => if a.1 < t then search l t + 1 else 0

/-- `PiecewiseLinearWaveform.eval` (876-888). -/
def Piecewise.eval (w : Piecewise) (t : ℝ) : ℝ :=
  if t ≤ w.T 0 then w.I 0
  else if w.T (w.nodes.length - 1) ≤ t then w.I (w.nodes.length - 1)
  else
    let i := search w.nodes t
    (w.I i - w.I (i - 1)) * (t - w.T (i - 1)) / (w.T i - w.T (i - 1)) + w.I (i - 1)

/-- `PiecewiseLinearWaveform.eval_deriv` (890-904). -/
def Piecewise.evalDeriv (w : Piecewise) (t : ℝ) : ℝ :=
  if w.T 0 < t ∧ t < w.T (w.nodes.length - 1) then
    let i := search w.nodes t
    (w.I i - w.I (i - 1)) / (w.T i - w.T (i - 1))
  else 0

/-- `PiecewiseLinearWaveform.time_nodes` (906-908). -/
def Piecewise.timeNodes (w : Piecewise) : List ℝ := w.nodes.map Prod.fst

namespace Props

/-! ### Sorted nodes -/

/-- The times strictly increase. -/
def Incr (w : Piecewise) : Prop := ∀ i j, i < j → j < w.nodes.length → w.T i < w.T j

theorem build_ok {ts cs : List ℝ} {w : Piecewise} (h : Piecewise.build ts cs = .ok w) :
    ts.length = cs.length ∧ ts.length ≠ 0 ∧
      w = ⟨(ts.zip cs).insertionSort (fun a b => a.1 ≤ b.1)⟩ := by
  unfold Piecewise.build at h
  split_ifs at h with h1 h2
  exact ⟨not_not.1 h1, h2, (Except.ok.inj h).symm⟩

theorem nodes_perm {ts cs : List ℝ} {w : Piecewise} (h : Piecewise.build ts cs = .ok w) :
    w.nodes.Perm (ts.zip cs) := by
  obtain ⟨-, -, rfl⟩ := build_ok h
  exact List.perm_insertionSort _ _

theorem nodes_length {ts cs : List ℝ} {w : Piecewise} (h : Piecewise.build ts cs = .ok w) :
    w.nodes.length = ts.length := by
  rw [(nodes_perm h).length_eq, List.length_zip, ← (build_ok h).1, min_self]

theorem T_eq (w : Piecewise) {i : ℕ} (hi : i < w.nodes.length) : w.T i = (w.nodes[i]).1 := by
  rw [Piecewise.T, List.getD_eq_getElem _ _ hi]

theorem I_eq (w : Piecewise) {i : ℕ} (hi : i < w.nodes.length) : w.I i = (w.nodes[i]).2 := by
  rw [Piecewise.I, List.getD_eq_getElem _ _ hi]

theorem timeNodes_perm {ts cs : List ℝ} {w : Piecewise} (h : Piecewise.build ts cs = .ok w) :
    w.timeNodes.Perm ts := by
  have := (nodes_perm h).map Prod.fst
  rwa [List.map_fst_zip (by rw [(build_ok h).1])] at this

theorem incr_of_build {ts cs : List ℝ} {w : Piecewise} (h : Piecewise.build ts cs = .ok w)
    (hd : ts.Nodup) : Incr w := by
  have hs : w.nodes.Pairwise (fun a b => a.1 ≤ b.1) := by
    obtain ⟨-, -, rfl⟩ := build_ok h
    exact @List.pairwise_insertionSort _ (fun a b : ℝ × ℝ => a.1 ≤ b.1) _
      ⟨fun a b => le_total a.1 b.1⟩ ⟨fun a b c => le_trans⟩ _
  have hn : w.timeNodes.Nodup := (timeNodes_perm h).nodup_iff.2 hd
  intro i j hij hj
  have hi : i < w.nodes.length := by omega
  rw [T_eq w hi, T_eq w hj]
  refine lt_of_le_of_ne ((List.pairwise_iff_getElem.1 hs) i j hi hj hij) ?_
  intro he
  have h2 := (List.pairwise_iff_getElem.1 hn) i j (by simpa [Piecewise.timeNodes] using hi)
    (by simpa [Piecewise.timeNodes] using hj) hij
  apply h2
  simpa [Piecewise.timeNodes] using he

theorem incr_inj {w : Piecewise} (h : Incr w) {i j : ℕ} (hi : i < w.nodes.length)
    (hj : j < w.nodes.length) (he : w.T i = w.T j) : i = j := by
  rcases lt_trichotomy i j with k | k | k
  · exact absurd he (h i j k hj).ne
  · exact k
  · exact absurd he (h j i k hi).ne'

theorem incr_le {w : Piecewise} (h : Incr w) {i j : ℕ} (hij : i ≤ j) (hj : j < w.nodes.length) :
    w.T i ≤ w.T j := by
  rcases hij.lt_or_eq with k | k
  · exact (h i j k hj).le
  · rw [k]

theorem search_spec (l : List (ℝ × ℝ)) (t : ℝ) :
    search l t ≤ l.length ∧ (∀ j < search l t, (l.getD j (0, 0)).1 < t) ∧
      (search l t < l.length → ¬ (l.getD (search l t) (0, 0)).1 < t) := by
  induction l with
  | nil => exact ⟨le_rfl, fun j hj => absurd hj (Nat.not_lt_zero _), fun h => absurd h (Nat.not_lt_zero _)⟩
  | cons a l ih =>
    obtain ⟨h1, h2, h3⟩ := ih
    rw [search]
    split
    · rename_i ha
      refine ⟨by simpa using h1, fun j hj => ?_, fun h => ?_⟩
      · cases j with
        | zero => simpa using ha
        | succ j => simpa using h2 j (by omega)
      · simpa using h3 (by simpa using h)
    · rename_i ha
      exact ⟨Nat.zero_le _, fun j hj => absurd hj (Nat.not_lt_zero _), fun _ => by simpa using ha⟩

theorem search_eq {w : Piecewise} (h : Incr w) {i : ℕ} (hi : i + 1 < w.nodes.length) {t : ℝ}
    (h1 : w.T i < t) (h2 : t ≤ w.T (i + 1)) : search w.nodes t = i + 1 := by
  obtain ⟨s1, s2, s3⟩ := search_spec w.nodes t
  rcases lt_trichotomy (search w.nodes t) (i + 1) with k | k | k
  · exfalso
    apply s3 (by omega)
    exact lt_of_le_of_lt (incr_le h (by omega : search w.nodes t ≤ i) (by omega)) h1
  · exact k
  · have : w.T (i + 1) < t := s2 _ k
    linarith

/-- Every time between the first and the last node is in one segment. -/
theorem segment {w : Piecewise} {t : ℝ} (h1 : w.T 0 < t) (h2 : t < w.T (w.nodes.length - 1)) :
    ∃ i, i + 1 < w.nodes.length ∧ w.T i < t ∧ t ≤ w.T (i + 1) := by
  obtain ⟨s1, s2, s3⟩ := search_spec w.nodes t
  have hpos : 0 < w.nodes.length := by
    by_contra hn
    have h0 : w.nodes.length - 1 = 0 := by omega
    rw [h0] at h2
    linarith
  have hs : search w.nodes t < w.nodes.length := by
    by_contra hn
    have : w.T (w.nodes.length - 1) < t := s2 _ (by omega)
    linarith
  have h0 : search w.nodes t ≠ 0 := by
    intro h0
    have := s3 hs
    rw [h0] at this
    exact this h1
  obtain ⟨i, hi⟩ := Nat.exists_eq_succ_of_ne_zero h0
  refine ⟨i, by omega, s2 i (by omega), ?_⟩
  have := s3 hs
  rw [hi] at this
  exact not_lt.1 this

/-- The straight line through two nodes. -/
def seg (w : Piecewise) (i : ℕ) (t : ℝ) : ℝ :=
  w.I i + (w.I (i + 1) - w.I i) / (w.T (i + 1) - w.T i) * (t - w.T i)

theorem eval_seg {w : Piecewise} (h : Incr w) {i : ℕ} (hi : i + 1 < w.nodes.length) {t : ℝ}
    (h1 : w.T i ≤ t) (h2 : t ≤ w.T (i + 1)) : w.eval t = seg w i t := by
  have hlt := h i (i + 1) (by omega) hi
  have hd : w.T (i + 1) - w.T i ≠ 0 := by linarith
  have hend : seg w i (w.T (i + 1)) = w.I (i + 1) := by
    rw [seg, div_mul_cancel₀ _ hd]; ring
  have hsta : seg w i (w.T i) = w.I i := by rw [seg]; ring
  have h0 : w.T 0 ≤ w.T i := incr_le h (Nat.zero_le _) (by omega)
  have hl : w.T (i + 1) ≤ w.T (w.nodes.length - 1) := incr_le h (by omega) (by omega)
  unfold Piecewise.eval
  split_ifs with c1 c2
  · have e1 : t = w.T i := by linarith
    have e2 : w.T 0 = w.T i := by linarith
    have := incr_inj h (by omega : 0 < w.nodes.length) (by omega) e2
    rw [e1, hsta, ← this]
  · have e1 : t = w.T (i + 1) := by linarith
    have e2 : w.T (w.nodes.length - 1) = w.T (i + 1) := by linarith
    have := incr_inj h (by omega : w.nodes.length - 1 < w.nodes.length) (by omega) e2
    rw [e1, hend, ← this]
  · rcases h1.lt_or_eq with k | k
    · rw [search_eq h hi k h2]
      simp only [Nat.add_sub_cancel]
      rw [seg]; ring
    · -- `t` is a node, found in the segment before it
      have hi0 : i ≠ 0 := by
        intro e; subst e; exact c1 k.ge
      obtain ⟨j, rfl⟩ := Nat.exists_eq_succ_of_ne_zero hi0
      have hj := h j (j + 1) (by omega) (by omega)
      have hdj : w.T (j + 1) - w.T j ≠ 0 := by linarith
      have : w.T j < t := by rw [← k]; exact hj
      rw [search_eq h (by omega : j + 1 < w.nodes.length) this k.ge]
      simp only [Nat.succ_eq_add_one, Nat.add_sub_cancel] at k ⊢
      rw [← k, hsta, mul_div_assoc, div_self hdj]; ring

/-! ### C77 -/

/-- **C77, piecewise linear**: the waveform has the given current at each given time, whatever the order in
which the times are given. -/
theorem C77_piecewise_nodes {ts cs : List ℝ} {w : Piecewise} (h : Piecewise.build ts cs = .ok w)
    (hd : ts.Nodup) (k : ℕ) (hk : k < ts.length) (hk' : k < cs.length) : w.eval ts[k] = cs[k] := by
  have hi := incr_of_build h hd
  have hmem : (ts[k], cs[k]) ∈ w.nodes := by
    rw [(nodes_perm h).mem_iff]
    have hz : k < (ts.zip cs).length := by rw [List.length_zip]; omega
    have := List.getElem_mem hz
    rwa [List.getElem_zip] at this
  obtain ⟨i, hil, he⟩ := List.getElem_of_mem hmem
  have hT : w.T i = ts[k] := by rw [T_eq w hil, he]
  have hI : w.I i = cs[k] := by rw [I_eq w hil, he]
  rw [← hT, ← hI]
  by_cases hlast : i + 1 < w.nodes.length
  · rw [eval_seg hi hlast le_rfl (hi i (i + 1) (by omega) hlast).le, seg]; ring
  · have hil' : i = w.nodes.length - 1 := by omega
    unfold Piecewise.eval
    split_ifs with c1 c2
    · have : w.T 0 = w.T i := le_antisymm (incr_le hi (Nat.zero_le _) hil) c1
      rw [incr_inj hi (by omega) hil this]
    · rw [hil']
    · exact absurd (by rw [← hil']) c2

/-- **C77, piecewise linear**: between neighbouring times, for which no other time is between them, the
current is on the straight line; it is constant before the first and after the last time. -/
theorem C77_piecewise_line {ts cs : List ℝ} {w : Piecewise} (h : Piecewise.build ts cs = .ok w)
    (hd : ts.Nodup) :
    (∀ a b, a ∈ ts → b ∈ ts → a < b → (∀ c ∈ ts, ¬ (a < c ∧ c < b)) → ∀ t, a ≤ t → t ≤ b →
      w.eval t = w.eval a + (w.eval b - w.eval a) / (b - a) * (t - a)) ∧
    (∀ a ∈ ts, (∀ c ∈ ts, a ≤ c) → ∀ t ≤ a, w.eval t = w.eval a) ∧
    (∀ b ∈ ts, (∀ c ∈ ts, c ≤ b) → ∀ t, b ≤ t → w.eval t = w.eval b) := by
  have hi := incr_of_build h hd
  have hlen := nodes_length h
  have hne : 0 < w.nodes.length := by rw [hlen]; exact Nat.pos_of_ne_zero (build_ok h).2.1
  have hidx : ∀ a ∈ ts, ∃ i, i < w.nodes.length ∧ w.T i = a := by
    intro a ha
    rw [← (timeNodes_perm h).mem_iff, Piecewise.timeNodes, List.mem_map] at ha
    obtain ⟨q, hq, rfl⟩ := ha
    obtain ⟨i, hil, he⟩ := List.getElem_of_mem hq
    exact ⟨i, hil, by rw [T_eq w hil, he]⟩
  have hmem : ∀ i, i < w.nodes.length → w.T i ∈ ts := by
    intro i hil
    rw [← (timeNodes_perm h).mem_iff, Piecewise.timeNodes, T_eq w hil]
    exact List.mem_map_of_mem (List.getElem_mem hil)
  refine ⟨fun a b ha hb hab hc t h1 h2 => ?_, fun a ha hc t ht => ?_, fun b hb hc t ht => ?_⟩
  · obtain ⟨i, hil, rfl⟩ := hidx a ha
    obtain ⟨j, hjl, rfl⟩ := hidx b hb
    have hij : i < j := by
      by_contra hn
      have := incr_le hi (not_lt.1 hn) hil
      linarith
    have hji : j = i + 1 := by
      by_contra hn
      exact hc _ (hmem (i + 1) (by omega))
        ⟨hi i (i + 1) (by omega) (by omega), hi (i + 1) j (by omega) hjl⟩
    subst hji
    have hdn : w.T (i + 1) - w.T i ≠ 0 := by linarith
    rw [eval_seg hi hjl h1 h2, eval_seg hi hjl le_rfl hab.le, eval_seg hi hjl hab.le le_rfl]
    simp only [seg, sub_self, mul_zero, add_zero]
    rw [div_mul_cancel₀ _ hdn]; ring
  · have h0 : a ≤ w.T 0 := hc _ (hmem 0 hne)
    rw [Piecewise.eval, if_pos (by linarith), Piecewise.eval, if_pos h0]
  · have h0 : w.T (w.nodes.length - 1) ≤ b := hc _ (hmem _ (by omega))
    have : ∀ x, b ≤ x → w.eval x = w.I (w.nodes.length - 1) := by
      intro x hx
      unfold Piecewise.eval
      split_ifs with c1 c2
      · have e : w.T 0 = w.T (w.nodes.length - 1) :=
          le_antisymm (incr_le hi (Nat.zero_le _) (by omega)) (by linarith)
        rw [← incr_inj hi hne (by omega) e]
      · rfl
      · exact absurd (by linarith) c2
    rw [this t ht, this b le_rfl]

theorem seg_deriv (w : Piecewise) (i : ℕ) (t : ℝ) :
    HasDerivAt (seg w i) ((w.I (i + 1) - w.I i) / (w.T (i + 1) - w.T i)) t :=
  (line_deriv _ _ t).const_add _

/-- **C77, piecewise linear**: `eval_deriv` is the derivative, except at the time nodes. -/
theorem C77_deriv_piecewise {ts cs : List ℝ} {w : Piecewise} (h : Piecewise.build ts cs = .ok w)
    (hd : ts.Nodup) : DerivOff w.eval w.evalDeriv w.timeNodes := by
  have hi := incr_of_build h hd
  have hlen := nodes_length h
  have hne : 0 < w.nodes.length := by rw [hlen]; exact Nat.pos_of_ne_zero (build_ok h).2.1
  have hmem : ∀ i, i < w.nodes.length → w.T i ∈ w.timeNodes := by
    intro i hil
    rw [Piecewise.timeNodes, T_eq w hil]
    exact List.mem_map_of_mem (List.getElem_mem hil)
  intro t ht
  have n0 : t ≠ w.T 0 := fun e => ht (e ▸ hmem 0 hne)
  have n1 : t ≠ w.T (w.nodes.length - 1) := fun e => ht (e ▸ hmem _ (by omega))
  rcases lt_or_gt_of_ne n0 with n0 | n0
  · rw [Piecewise.evalDeriv, if_neg (by rintro ⟨k, -⟩; linarith)]
    exact deriv_lt n0 (fun x hx => if_pos hx.le) (hasDerivAt_const t _)
  rcases lt_or_gt_of_ne n1 with n1 | n1
  · obtain ⟨i, hil, k1, k2⟩ := segment n0 n1
    have k3 : t < w.T (i + 1) := lt_of_le_of_ne k2 fun e => ht (e ▸ hmem (i + 1) hil)
    rw [Piecewise.evalDeriv, if_pos ⟨n0, n1⟩]
    simp only [search_eq hi hil k1 k2, Nat.add_sub_cancel]
    exact deriv_in k1 k3 (fun x hx hx' => eval_seg hi hil hx.le hx'.le) (seg_deriv w i t)
  · rw [Piecewise.evalDeriv, if_neg (by rintro ⟨-, k⟩; linarith)]
    refine deriv_gt n1 (fun x hx => ?_) (hasDerivAt_const t (w.I (w.nodes.length - 1)))
    have h0 : w.T 0 ≤ w.T (w.nodes.length - 1) := incr_le hi (Nat.zero_le _) (by omega)
    rw [Piecewise.eval, if_neg (by linarith), if_pos hx.le]

theorem seg_cont (w : Piecewise) (i : ℕ) : Continuous (seg w i) := by
  unfold seg; fun_prop

theorem piecewise_cont {ts cs : List ℝ} {w : Piecewise} (h : Piecewise.build ts cs = .ok w)
    (hd : ts.Nodup) : Continuous w.eval := by
  have hi := incr_of_build h hd
  have hlen := nodes_length h
  have hne : 0 < w.nodes.length := by rw [hlen]; exact Nat.pos_of_ne_zero (build_ok h).2.1
  rw [continuous_iff_continuousAt]
  intro t
  by_cases ht : t ∈ w.timeNodes
  · rw [Piecewise.timeNodes, List.mem_map] at ht
    obtain ⟨q, hq, rfl⟩ := ht
    obtain ⟨i, hil, he⟩ := List.getElem_of_mem hq
    have hT : q.1 = w.T i := by rw [T_eq w hil, he]
    rw [hT]
    have hleft : ContinuousWithinAt w.eval (Set.Iic (w.T i)) (w.T i) := by
      rcases Nat.eq_zero_or_pos i with rfl | h0
      · exact continuousWithinAt_const.congr (fun x hx => if_pos hx) (if_pos le_rfl)
      · obtain ⟨j, rfl⟩ := Nat.exists_eq_succ_of_ne_zero h0.ne'
        have hj := hi j (j + 1) (by omega) hil
        refine (seg_cont w j).continuousWithinAt.congr_of_eventuallyEq ?_
          (eval_seg hi hil hj.le le_rfl)
        filter_upwards [self_mem_nhdsWithin, mem_nhdsWithin_of_mem_nhds (Ioi_mem_nhds hj)] with x hx hx'
        exact eval_seg hi hil (le_of_lt hx') hx
    have hright : ContinuousWithinAt w.eval (Set.Ici (w.T i)) (w.T i) := by
      by_cases hl : i + 1 < w.nodes.length
      · have hj := hi i (i + 1) (by omega) hl
        refine (seg_cont w i).continuousWithinAt.congr_of_eventuallyEq ?_
          (eval_seg hi hl le_rfl hj.le)
        filter_upwards [self_mem_nhdsWithin, mem_nhdsWithin_of_mem_nhds (Iio_mem_nhds hj)] with x hx hx'
        exact eval_seg hi hl hx (le_of_lt hx')
      · have hil' : i = w.nodes.length - 1 := by omega
        have : ∀ x, w.T i ≤ x → w.eval x = w.I i := by
          intro x hx
          unfold Piecewise.eval
          split_ifs with c1 c2
          · have e : w.T 0 = w.T i := le_antisymm (incr_le hi (Nat.zero_le _) hil) (by linarith)
            rw [← incr_inj hi hne hil e]
          · rw [hil']
          · exact absurd (by rw [← hil']; exact hx) c2
        exact continuousWithinAt_const.congr (fun x hx => this x hx) (this _ le_rfl)
    exact continuousAt_iff_continuous_left_right.2 ⟨hleft, hright⟩
  · exact (C77_deriv_piecewise h hd t ht).continuousAt

/-- **C77, piecewise linear**: the integral of `eval_deriv` is the change of the current. -/
theorem C77_charge_piecewise {ts cs : List ℝ} {w : Piecewise} (h : Piecewise.build ts cs = .ok w)
    (hd : ts.Nodup) : Charge w.eval w.evalDeriv := by
  have hi := incr_of_build h hd
  refine charge_of (piecewise_cont h hd) (C77_deriv_piecewise h hd)
    (∑ i ∈ Finset.range w.nodes.length, |(w.I (i + 1) - w.I i) / (w.T (i + 1) - w.T i)|) (fun t => ?_)
  unfold Piecewise.evalDeriv
  split_ifs with c
  · obtain ⟨i, hil, k1, k2⟩ := segment c.1 c.2
    simp only [search_eq hi hil k1 k2, Nat.add_sub_cancel]
    exact Finset.single_le_sum
      (f := fun i => |(w.I (i + 1) - w.I i) / (w.T (i + 1) - w.T i)|) (fun j _ => abs_nonneg _)
      (Finset.mem_range.2 (by omega : i < w.nodes.length))
  · rw [abs_zero]
    exact Finset.sum_nonneg fun j _ => abs_nonneg _

/-- **C77, piecewise linear**: the waveform has initial fields exactly if there is a current before the
first time. -/
theorem C77_piecewise_initial {ts cs : List ℝ} {w : Piecewise} (h : Piecewise.build ts cs = .ok w) :
    w.hasInitial = true ↔ ∀ t, (∀ a ∈ ts, t ≤ a) → w.eval t ≠ 0 := by
  have hne : 0 < w.nodes.length := by
    rw [nodes_length h]; exact Nat.pos_of_ne_zero (build_ok h).2.1
  have h0 : w.T 0 ∈ ts := by
    rw [← (timeNodes_perm h).mem_iff, Piecewise.timeNodes, T_eq w hne]
    exact List.mem_map_of_mem (List.getElem_mem hne)
  have hmin : ∀ a ∈ ts, w.T 0 ≤ a := by
    have hs : w.nodes.Pairwise (fun a b => a.1 ≤ b.1) := by
      obtain ⟨-, -, rfl⟩ := build_ok h
      exact @List.pairwise_insertionSort _ (fun a b : ℝ × ℝ => a.1 ≤ b.1) _
        ⟨fun a b => le_total a.1 b.1⟩ ⟨fun a b c => le_trans⟩ _
    intro a ha
    rw [← (timeNodes_perm h).mem_iff, Piecewise.timeNodes, List.mem_map] at ha
    obtain ⟨q, hq, rfl⟩ := ha
    obtain ⟨i, hil, he⟩ := List.getElem_of_mem hq
    rw [T_eq w hne, ← he]
    rcases Nat.eq_zero_or_pos i with rfl | hp
    · exact le_rfl
    · exact (List.pairwise_iff_getElem.1 hs) 0 i hne hil hp
  rw [Piecewise.hasInitial, decide_eq_true_eq]
  constructor
  · intro hI t ht
    rw [Piecewise.eval, if_pos (ht _ h0)]; exact hI
  · intro hall hI
    apply hall (w.T 0) hmin
    rw [Piecewise.eval, if_pos le_rfl]; exact hI

/-- Times given out of order. -/
example : Piecewise.build [2, 0, 1] [0, 1, 5] = .ok ⟨[(0, 1), (1, 5), (2, 0)]⟩ ∧ ([2, 0, 1] : List ℝ).Nodup := by
  constructor
  · unfold Piecewise.build
    simp [List.insertionSort, List.orderedInsert]
  · simp

end Props
end
end Verif.TDEM.Waveforms
