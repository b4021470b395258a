import Verif.Basic
import Verif.Jacobian
import Mathlib.Algebra.BigOperators.Fin
import Mathlib.Data.List.Basic
import Mathlib.Tactic.Linarith
import Mathlib.Tactic.Ring
import Mathlib.Tactic.NormNum

/-!
C142: the simulations of viscous remanent magnetization
(`simpeg/electromagnetics/viscous_remanent_magnetization/simulation.py` 726-760, 813-1055 and
`survey.py`): order of the data, active channels, sensitivities, stored matrices.

The rows of the geometry matrix (C141) and the decays at the channels (C138, C139) are given.
-/

noncomputable section
namespace Verif.VRM.Sim
open Verif

variable {ι κ : Type} [Fintype ι] [Fintype κ]

/-! ### Survey -/

/-- A receiver: `rows` are the rows of the geometry matrix for its locations, `times` its channels and
`eta` the decay of its waveform and field at a channel. -/
structure Rx (ι : Type) where
  rows : List (ι → ℝ)
  times : List ℝ
  eta : ℝ → ℝ

/-- A source: its receivers. -/
abbrev Src (ι : Type) := List (Rx ι)

/-- `rx.nD` (`receivers.py` 126-136). -/
def Rx.nD (r : Rx ι) : ℕ := r.rows.length * r.times.length

/-- `_nD_all` (`survey.py` 28; `simpeg/survey.py` 400, 513-524). -/
def nDAll (s : List (Src ι)) : ℕ := (s.map fun src => (src.map Rx.nD).sum).sum

/-- `SurveyVRM`: sources, `t_active`, `_nD`. -/
structure Survey (ι : Type) where
  sources : List (Src ι)
  tActive : List Bool
  nD : ℕ

/-- `SurveyVRM.__init__` (`survey.py` 25-36): the number of data is set before the channels. -/
def Survey.make (sources : List (Src ι)) (tActive : Option (List Bool)) : Except Err (Survey ι) :=
  let n := nDAll sources
  match tActive with
  | none => .ok ⟨sources, List.replicate n true, n⟩
  | some a => if a.length = n then .ok ⟨sources, a, n⟩ else .error .valueError

/-- `survey.t_active = value`: a plain attribute. -/
def Survey.setActive (s : Survey ι) (a : List Bool) : Survey ι := { s with tActive := a }

/-- The times of all data (`survey.py` 63-74): `np.kron(np.ones(nLoc), times)` per receiver. -/
def dataTimes (sources : List (Src ι)) : List ℝ :=
  sources.flatMap fun src => src.flatMap fun r => r.rows.flatMap fun _ => r.times

/-- `set_active_interval` (`survey.py` 60-77). -/
def Survey.interval (s : Survey ι) (tmin tmax : ℝ) : Survey ι :=
  let a := (dataTimes s.sources).map fun t => decide (tmin ≤ t) && decide (t ≤ tmax)
  { s with tActive := a, nD := a.count true }

/-! ### The linear simulation -/

/-- `np.vstack(self._getAMatricies())` (`simulation.py` 726-760, 866): rows by source, receiver and
location. -/
def rowsA (sources : List (Src ι)) : List (ι → ℝ) :=
  sources.flatMap fun src => src.flatMap fun r => r.rows

/-- `sp.kron(I, eta)` with the columns moved by `off`: the rows, each with its entry and column
(`simulation.py` 902-909). -/
def kronEta (off : ℕ) (r : Rx ι) : List (ℝ × ℕ) :=
  (List.range r.rows.length).flatMap fun l => r.times.map fun t => (r.eta t, off + l)

/-- `sp.block_diag(T)` (`simulation.py` 894-911). -/
def blocks (off : ℕ) : List (Rx ι) → List (ℝ × ℕ)
  | [] => []
  | r :: l => kronEta off r ++ blocks (off + r.rows.length) l

/-- `T` (`simulation.py` 874-917). -/
def matT (sources : List (Src ι)) : List (ℝ × ℕ) := blocks 0 sources.flatten

/-- `np.dot(self.A, m)`. -/
def mulA (A : List (ι → ℝ)) (x : ι → ℝ) (j : ℕ) : ℝ :=
  match A[j]? with
  | some a => ∑ c, a c * x c
  | none => 0

/-- `T @ v`. -/
def mulT (T : List (ℝ × ℕ)) (v : ℕ → ℝ) : List ℝ := T.map fun e => e.1 * v e.2

/-- `fields` (`simulation.py` 919-931), for `xi` of the active cells. -/
def fields (sources : List (Src ι)) (xi : ι → ℝ) : List ℝ :=
  mulT (matT sources) (mulA (rowsA sources) xi)

/-- Indexing with a mask. -/
def mask {α : Type} : List α → List Bool → List α
  | x :: xs, true :: bs => x :: mask xs bs
  | _ :: xs, false :: bs => mask xs bs
  | _, _ => []

/-- `f[self.survey.t_active]`: a mask of another length raises `IndexError`. -/
def pick {α : Type} (xs : List α) (a : List Bool) : Except Err (List α) :=
  if xs.length = a.length then .ok (mask xs a) else .error .indexError

/-- `dpred` (`simulation.py` 813-818). -/
def dpred (s : Survey ι) (xi : ι → ℝ) : Except Err (List ℝ) := pick (fields s.sources xi) s.tActive

/-- `Jvec` (`simulation.py` 933-952); `D` is the derivative of the map. -/
def jvec (s : Survey ι) (D : Matrix ι κ ℝ) (v : κ → ℝ) : Except Err (List ℝ) :=
  (pick (matT s.sources) s.tActive).map fun T => mulT T (mulA (rowsA s.sources) (D.mulVec v))

/-- `T.transpose() @ v`: entry `j`. -/
def mulTt (T : List (ℝ × ℕ)) (v : List ℝ) (j : ℕ) : ℝ :=
  ((T.zip v).map fun e => if e.1.2 = j then e.1.1 * e.2 else 0).sum

/-- `Jtvec` (`simulation.py` 954-974). -/
def jtvec (s : Survey ι) (D : Matrix ι κ ℝ) (v : List ℝ) : Except Err (κ → ℝ) :=
  (pick (matT s.sources) s.tActive).map fun T =>
    D.transpose.mulVec fun c =>
      ∑ j ∈ Finset.range (rowsA s.sources).length,
        mulTt T v j * (match (rowsA s.sources)[j]? with | some a => a c | none => 0)

/-! ### The log-uniform simulation -/

/-- The receivers of the other simulation: `eta` gives the decay of each cell at a channel. -/
structure RxLog (ι : Type) where
  rows : List (ι → ℝ)
  times : List ℝ
  eta : ℝ → ι → ℝ

/-- `self.A`, one matrix per source, with the rows of all its receivers (`simulation.py` 999-1024). -/
def matsLog (sources : List (List (RxLog ι))) : List (List (ι → ℝ)) :=
  sources.map fun src => src.flatMap fun r => r.rows

/-- `mkvc(self.A[qq] @ eta)` (`simulation.py` 1053): columns, one per channel, are stacked. -/
def block (A : List (List (ι → ℝ))) (q : ℕ) (r : RxLog ι) : Except Err (List ℝ) :=
  match A[q]? with
  | some M => .ok (r.times.flatMap fun t => M.map fun a => ∑ c, a c * r.eta t c)
  | none => .error .indexError

/-- The loop over the receivers of a source (`simulation.py` 1042-1053). -/
def blocksLog (A : List (List (ι → ℝ))) : ℕ → List (RxLog ι) → Except Err (List ℝ)
  | _, [] => .ok []
  | q, r :: l =>
    match block A q r with
    | .error e => .error e
    | .ok x =>
      match blocksLog A (q + 1) l with
      | .error e => .error e
      | .ok y => .ok (x ++ y)

/-- The loop over the sources (`simulation.py` 1037-1055). -/
def sourcesLog (A : List (List (ι → ℝ))) : List (List (RxLog ι)) → Except Err (List ℝ)
  | [] => .ok []
  | src :: l =>
    match blocksLog A 0 src with
    | .error e => .error e
    | .ok x =>
      match sourcesLog A l with
      | .error e => .error e
      | .ok y => .ok (x ++ y)

/-- `Simulation3DLogUniform.fields` (`simulation.py` 1026-1055). -/
def fieldsLog (sources : List (List (RxLog ι))) : Except Err (List ℝ) :=
  sourcesLog (matsLog sources) sources

/-! ### Stored matrices -/

/-- A simulation with what its matrix depends on (mesh cells, refinement distances, survey) and the
stored matrix (`_A`, `_AisSet`; `_T`, `_TisSet`). -/
structure State (I M : Type) where
  input : I
  stored : Option M

/-- Calls: setting `active_cells`, `refinement_distance` or `survey` (`simulation.py` 97-143) and using
the matrix (`simulation.py` 847-917, 999-1024). -/
inductive Call (I : Type)
  | set (i : I)
  | use

/-- A call. -/
def step {I M : Type} (compute : I → M) (s : State I M) : Call I → State I M
  | .set i => { s with input := i }
  | .use => { s with stored := some (s.stored.getD (compute s.input)) }

/-- The matrix handed out. -/
def matrix {I M : Type} (compute : I → M) (s : State I M) : M := s.stored.getD (compute s.input)

/-! ### Specification -/

/-- The data: by source, receiver, location and channel, the decay at the channel times the response
of the cells. -/
def expected (sources : List (Src ι)) (xi : ι → ℝ) (keep : ℝ → Bool) : List ℝ :=
  sources.flatMap fun src => src.flatMap fun r => r.rows.flatMap fun a =>
    (r.times.filter keep).map fun t => r.eta t * ∑ c, a c * xi c

/-- The same for the log-uniform simulation. -/
def expectedLog (sources : List (List (RxLog ι))) : List ℝ :=
  sources.flatMap fun src => src.flatMap fun r => r.rows.flatMap fun a =>
    r.times.map fun t => ∑ c, a c * r.eta t c

namespace Props

/-! ### Order -/

omit [Fintype ι] in
theorem flat_rows (sources : List (Src ι)) :
    rowsA sources = sources.flatten.flatMap fun r => r.rows := by
  simp [rowsA, List.flatMap_def, List.map_flatten, List.flatten_flatten, Function.comp_def]

theorem blocks_apply (l : List (Rx ι)) (xi : ι → ℝ) (pre : List (ι → ℝ)) :
    mulT (blocks pre.length l) (mulA (pre ++ l.flatMap fun r => r.rows) xi) =
      l.flatMap fun r => r.rows.flatMap fun a => r.times.map fun t => r.eta t * ∑ c, a c * xi c := by
  induction l generalizing pre with
  | nil => simp [blocks, mulT]
  | cons r l ih =>
    have ih' := ih (pre ++ r.rows)
    rw [List.length_append] at ih'
    simp only [List.flatMap_cons, blocks, mulT, List.map_append]
    congr 1
    · have hA : ∀ i < r.rows.length, mulA (pre ++ (r.rows ++ l.flatMap fun r => r.rows)) xi
          (pre.length + i) = mulA r.rows xi i := by
        intro i hi
        unfold mulA
        rw [List.getElem?_append_right (Nat.le_add_right _ _), Nat.add_sub_cancel_left,
          List.getElem?_append_left hi]
      have e1 : (kronEta pre.length r).map (fun e => e.1 *
          mulA (pre ++ (r.rows ++ l.flatMap fun r => r.rows)) xi e.2) =
          (List.range r.rows.length).flatMap fun i => r.times.map fun t =>
            r.eta t * mulA r.rows xi i := by
        rw [kronEta, List.map_flatMap]
        refine List.flatMap_congr fun i hi => ?_
        rw [List.map_map]
        refine List.map_congr_left fun t _ => ?_
        simp only [Function.comp]
        rw [hA i (List.mem_range.1 hi)]
      rw [e1]
      have e2 : ∀ (rows : List (ι → ℝ)) (f : ℕ → List ℝ) (g : (ι → ℝ) → List ℝ),
          (∀ i (h : i < rows.length), f i = g rows[i]) →
          (List.range rows.length).flatMap f = rows.flatMap g := by
        intro rows
        induction rows with
        | nil => intro f g _; simp
        | cons a rows ih =>
          intro f g h
          rw [List.length_cons, List.range_succ_eq_map, List.flatMap_cons, List.flatMap_cons,
            List.flatMap_map, h 0 (by simp)]
          congr 1
          exact ih (fun i => f (i + 1)) g fun i hi => h (i + 1) (by simpa using hi)
      apply e2
      intro i hi
      simp [mulA, hi]
    · rw [List.append_assoc] at ih'
      exact ih'

/-- C142. **The data of the linear simulation** come by source, receiver, location and channel, each
the decay of its receiver at its channel times the response of the cells at its location. -/
theorem C142_fields (sources : List (Src ι)) (xi : ι → ℝ) :
    fields sources xi = expected sources xi fun _ => true := by
  have := blocks_apply sources.flatten xi []
  rw [List.nil_append, List.length_nil] at this
  rw [fields, matT, flat_rows, this]
  simp [expected, List.flatMap_def, List.map_flatten, List.flatten_flatten, Function.comp_def]

theorem mask_append {α : Type} (xs ys : List α) (as bs : List Bool) (h : xs.length = as.length) :
    mask (xs ++ ys) (as ++ bs) = mask xs as ++ mask ys bs := by
  induction xs generalizing as with
  | nil =>
    cases as with
    | nil => simp [mask]
    | cons a as => simp at h
  | cons x xs ih =>
    cases as with
    | nil => simp at h
    | cons a as =>
      simp only [List.length_cons, Nat.add_right_cancel_iff] at h
      cases a <;> simp [mask, ih as h]

theorem mask_map {α : Type} (ts : List ℝ) (f : ℝ → α) (p : ℝ → Bool) :
    mask (ts.map f) (ts.map p) = (ts.filter p).map f := by
  induction ts with
  | nil => simp [mask]
  | cons t ts ih => cases h : p t <;> simp [mask, h, ih]

/-- Masks and data which are built in the same way. -/
theorem mask_flatMap {α β : Type} (l : List β) (f : β → List α) (g : β → List Bool)
    (h : ∀ b ∈ l, (f b).length = (g b).length) :
    mask (l.flatMap f) (l.flatMap g) = l.flatMap (fun b => mask (f b) (g b)) ∧
    (l.flatMap f).length = (l.flatMap g).length := by
  induction l with
  | nil => simp [mask]
  | cons b l ih =>
    have hb := h b (by simp)
    obtain ⟨i1, i2⟩ := ih fun b' hb' => h b' (List.mem_cons_of_mem _ hb')
    simp only [List.flatMap_cons]
    rw [mask_append _ _ _ _ hb, i1]
    exact ⟨rfl, by rw [List.length_append, List.length_append, hb, i2]⟩

/-- C142. **An interval of active channels** keeps exactly the data whose channel lies in it, and the
survey counts them. -/
theorem C142_interval (s : Survey ι) (tmin tmax : ℝ) (xi : ι → ℝ) :
    dpred (s.interval tmin tmax) xi =
      .ok (expected s.sources xi fun t => decide (tmin ≤ t) && decide (t ≤ tmax)) ∧
    (s.interval tmin tmax).nD =
      (expected s.sources xi fun t => decide (tmin ≤ t) && decide (t ≤ tmax)).length := by
  set p : ℝ → Bool := fun t => decide (tmin ≤ t) && decide (t ≤ tmax) with hp
  have ha : (s.interval tmin tmax).tActive = s.sources.flatMap fun src => src.flatMap fun r =>
      r.rows.flatMap fun _ => r.times.map p := by
    simp only [Survey.interval, dataTimes, List.map_flatMap, hp]
  have h0 : ∀ r : Rx ι, ∀ a ∈ r.rows, (r.times.map fun t => r.eta t * ∑ c, a c * xi c).length =
      (r.times.map p).length := by
    intro r a _
    simp
  have h1 := fun r : Rx ι => mask_flatMap r.rows
    (fun a => r.times.map fun t => r.eta t * ∑ c, a c * xi c) (fun _ => r.times.map p) (h0 r)
  have h2 := fun src : Src ι => mask_flatMap src
    (fun r => r.rows.flatMap fun a => r.times.map fun t => r.eta t * ∑ c, a c * xi c)
    (fun r => r.rows.flatMap fun _ => r.times.map p) (fun r _ => (h1 r).2)
  have h3 := mask_flatMap s.sources
    (fun src => src.flatMap fun r => r.rows.flatMap fun a => r.times.map fun t =>
      r.eta t * ∑ c, a c * xi c)
    (fun src => src.flatMap fun r => r.rows.flatMap fun _ => r.times.map p)
    (fun src _ => (h2 src).2)
  have hf : fields s.sources xi = s.sources.flatMap fun src => src.flatMap fun r =>
      r.rows.flatMap fun a => r.times.map fun t => r.eta t * ∑ c, a c * xi c := by
    rw [C142_fields]
    simp [expected]
  have hd : mask (fields s.sources xi) (s.interval tmin tmax).tActive =
      expected s.sources xi p := by
    rw [ha, hf, h3.1]
    simp only [(h2 _).1, (h1 _).1, mask_map, expected]
  have hl : (fields s.sources xi).length = (s.interval tmin tmax).tActive.length := by
    rw [ha, hf, h3.2]
  have hcount : ∀ (xs : List ℝ) (as : List Bool), xs.length = as.length →
      (mask xs as).length = as.count true := by
    intro xs
    induction xs with
    | nil => intro as h; cases as <;> simp_all [mask]
    | cons x xs ih =>
      intro as h
      cases as with
      | nil => simp at h
      | cons a as =>
        simp only [List.length_cons, Nat.add_right_cancel_iff] at h
        cases a <;> simp [mask, ih as h]
  constructor
  · unfold dpred pick
    have : (s.interval tmin tmax).sources = s.sources := rfl
    rw [this, if_pos hl, hd]
  · rw [← hd, hcount _ _ hl]
    rfl

/-! ### Sensitivities -/

theorem mask_of_map {α β : Type} (f : α → β) (xs : List α) (as : List Bool) :
    mask (xs.map f) as = (mask xs as).map f := by
  induction xs generalizing as with
  | nil => simp [mask]
  | cons x xs ih =>
    cases as with
    | nil => simp [mask]
    | cons a as => cases a <;> simp [mask, ih]

/-- C142. **Jvec** is the prediction with the change of the model: the prediction is linear in the
cells, so that `Jvec` is its derivative along every smooth map. -/
theorem C142_jvec (s : Survey ι) (D : Matrix ι κ ℝ) (v : κ → ℝ) :
    jvec s D v = dpred s (D.mulVec v) := by
  unfold jvec dpred pick
  rw [fields, mulT, List.length_map]
  split
  · simp only [Except.map, mulT, mask_of_map]
  · rfl

/-- C142. **The derivative**: every predicted datum has the gradient that `Jvec` multiplies with. -/
theorem C142_jacobian (s : Survey ι) {xi : (κ → ℝ) → (ι → ℝ)} {D : Matrix ι κ ℝ} {m : κ → ℝ}
    (hD : IsJacobian xi D m) {T : List (ℝ × ℕ)} (hT : pick (matT s.sources) s.tActive = .ok T) :
    (∀ x, dpred s (xi x) = .ok (T.map fun e => e.1 * mulA (rowsA s.sources) (xi x) e.2)) ∧
    (∀ v, jvec s D v = .ok (T.map fun e => e.1 * mulA (rowsA s.sources) (D.mulVec v) e.2)) ∧
    ∀ e : ℝ × ℕ, ∃ g : κ → ℝ,
      IsGradient (fun x => e.1 * mulA (rowsA s.sources) (xi x) e.2) g m ∧
      ∀ v, e.1 * mulA (rowsA s.sources) (D.mulVec v) e.2 = dotProduct g v := by
  refine ⟨?_, ?_, ?_⟩
  · intro x
    unfold pick at hT
    unfold dpred pick
    rw [fields, mulT, List.length_map]
    split at hT
    · rename_i h
      cases hT
      rw [if_pos h, mask_of_map]
    · cases hT
  · intro v
    simp [jvec, hT, Except.map, mulT]
  · rintro ⟨e, j⟩
    simp only [mulA]
    cases h : (rowsA s.sources)[j]? with
    | none =>
      refine ⟨0, ?_, fun v => by simp⟩
      have : IsGradient (fun _ : κ → ℝ => e * (0 : ℝ)) 0 m := by
        unfold IsGradient
        have := hasFDerivAt_const (𝕜 := ℝ) (e * (0 : ℝ)) m
        convert this using 1
        ext v
        simp [dotL]
      exact this
    | some a =>
      refine ⟨fun k => e * ∑ c, a c * D c k, ?_, ?_⟩
      · have hd : HasFDerivAt (fun x => e * ∑ c, a c * xi x c)
            (e • ∑ c, a c • (ContinuousLinearMap.proj c).comp (mulVecL D)) m := by
          apply HasFDerivAt.const_mul
          apply HasFDerivAt.fun_sum
          intro c _
          exact ((ContinuousLinearMap.proj c : (ι → ℝ) →L[ℝ] ℝ).hasFDerivAt.comp m hD).const_mul (a c)
        unfold IsGradient
        convert hd using 1
        ext v
        simp only [dotL_apply, smul_apply, sum_apply,
          ContinuousLinearMap.comp_apply, mulVecL_apply, ContinuousLinearMap.proj_apply,
          Matrix.mulVec, dotProduct, smul_eq_mul, Finset.mul_sum, Finset.sum_mul]
        rw [Finset.sum_comm]
        refine Finset.sum_congr rfl fun c _ => Finset.sum_congr rfl fun k _ => ?_
        ring
      · intro v
        simp only [Matrix.mulVec, dotProduct, Finset.mul_sum, Finset.sum_mul]
        rw [Finset.sum_comm]
        refine Finset.sum_congr rfl fun c _ => Finset.sum_congr rfl fun k _ => ?_
        ring

/-- Pairing of two lists. -/
def pair (xs ys : List ℝ) : ℝ := ((xs.zip ys).map fun p => p.1 * p.2).sum

omit [Fintype ι] in
theorem mask_mem {α : Type} {xs : List α} {as : List Bool} {x : α} (h : x ∈ mask xs as) : x ∈ xs := by
  induction xs generalizing as with
  | nil => simp [mask] at h
  | cons y xs ih =>
    cases as with
    | nil => simp [mask] at h
    | cons a as =>
      cases a
      · simp only [mask] at h
        exact List.mem_cons_of_mem _ (ih h)
      · simp only [mask, List.mem_cons] at h
        rcases h with rfl | h
        · simp
        · exact List.mem_cons_of_mem _ (ih h)

omit [Fintype ι] in
theorem blocks_lt (l : List (Rx ι)) (off : ℕ) {e : ℝ × ℕ} (h : e ∈ blocks off l) :
    e.2 < off + (l.flatMap fun r => r.rows).length := by
  induction l generalizing off with
  | nil => simp [blocks] at h
  | cons r l ih =>
    rw [blocks, List.mem_append] at h
    rw [List.flatMap_cons, List.length_append]
    rcases h with h | h
    · simp only [kronEta, List.mem_flatMap, List.mem_map, List.mem_range] at h
      obtain ⟨i, hi, t, _, rfl⟩ := h
      simp only
      omega
    · have := ih _ h
      omega

theorem pair_mulT (T : List (ℝ × ℕ)) (y : ℕ → ℝ) (w : List ℝ) (n : ℕ)
    (hT : ∀ e ∈ T, e.2 < n) :
    pair (mulT T y) w = ∑ j ∈ Finset.range n, mulTt T w j * y j := by
  induction T generalizing w with
  | nil => simp [pair, mulT, mulTt]
  | cons e T ih =>
    cases w with
    | nil => simp [pair, mulT, mulTt]
    | cons b w =>
      have ih' := ih w fun e he => hT e (List.mem_cons_of_mem _ he)
      have he := hT e (by simp)
      have : pair (mulT (e :: T) y) (b :: w) = e.1 * y e.2 * b + pair (mulT T y) w := by
        simp [pair, mulT]
      rw [this, ih']
      have h2 : ∀ j, mulTt (e :: T) (b :: w) j = (if e.2 = j then e.1 * b else 0) + mulTt T w j := by
        intro j
        simp [mulTt]
      simp only [h2, add_mul, Finset.sum_add_distrib, ite_mul, zero_mul]
      rw [Finset.sum_ite_eq]
      rw [if_pos (Finset.mem_range.2 he)]
      ring

/-- C142. **Jtvec is the adjoint of Jvec**, for every survey, set of active channels and map. -/
theorem C142_adjoint (s : Survey ι) (D : Matrix ι κ ℝ) (v : κ → ℝ) (w : List ℝ)
    {x : List ℝ} {y : κ → ℝ} (hx : jvec s D v = .ok x) (hy : jtvec s D w = .ok y) :
    pair x w = ∑ k, v k * y k := by
  unfold jvec at hx
  unfold jtvec at hy
  cases hp : pick (matT s.sources) s.tActive with
  | error e => rw [hp] at hx; simp [Except.map] at hx
  | ok T =>
    rw [hp] at hx hy
    simp only [Except.map, Except.ok.injEq] at hx hy
    subst hx hy
    have hT : ∀ e ∈ T, e.2 < (rowsA s.sources).length := by
      intro e he
      unfold pick at hp
      split at hp
      · cases hp
        have := blocks_lt s.sources.flatten 0 (mask_mem he)
        rw [flat_rows]
        omega
      · cases hp
    rw [pair_mulT _ _ _ _ hT]
    have hA : ∀ j, mulA (rowsA s.sources) (D.mulVec v) j =
        ∑ c, (match (rowsA s.sources)[j]? with | some a => a c | none => 0) * D.mulVec v c := by
      intro j
      unfold mulA
      cases (rowsA s.sources)[j]? <;> simp
    simp only [hA, Matrix.mulVec, dotProduct, Matrix.transpose_apply, Finset.mul_sum]
    rw [Finset.sum_comm' (t' := Finset.univ) (s' := fun _ => Finset.range (rowsA s.sources).length)
      (by simp)]
    rw [Finset.sum_comm' (s := Finset.univ (α := κ)) (t := fun _ => Finset.univ (α := ι))
      (t' := Finset.univ) (s' := fun _ => Finset.univ) (by simp)]
    refine Finset.sum_congr rfl fun c _ => ?_
    rw [Finset.sum_comm]
    refine Finset.sum_congr rfl fun k _ => Finset.sum_congr rfl fun j _ => ?_
    ring

/-! ### Channels handed to the survey -/

/-- C142. **The constructor counts all data**, whatever channels are active. With an inactive channel
the number of data of the survey is not the number of predicted data; also after assigning `t_active`. -/
theorem C142_violated_count (sources : List (Src ι)) (a : List Bool) (ha : a.length = nDAll sources)
    (hf : false ∈ a) (xi : ι → ℝ) (s0 : Survey ι) (hs0 : Survey.make sources none = .ok s0) :
    (∃ s d, Survey.make sources (some a) = .ok s ∧ dpred s xi = .ok d ∧ d.length < s.nD) ∧
    (∃ d, dpred (s0.setActive a) xi = .ok d ∧ d.length < (s0.setActive a).nD) := by
  have hlen : (fields sources xi).length = nDAll sources := by
    rw [C142_fields]
    simp only [expected, nDAll, List.length_flatMap, List.filter_true, List.length_map]
    congr 1
    refine List.map_congr_left fun src _ => ?_
    congr 1
    refine List.map_congr_left fun r _ => ?_
    simp [Rx.nD]
  have hm : ∀ (xs : List ℝ) (as : List Bool), xs.length = as.length → false ∈ as →
      (mask xs as).length < as.length := by
    intro xs as
    have hle : ∀ (xs : List ℝ) (as : List Bool), (mask xs as).length ≤ as.length := by
      intro xs
      induction xs with
      | nil => intro as; cases as <;> simp [mask]
      | cons x xs ih =>
        intro as
        cases as with
        | nil => simp [mask]
        | cons a as =>
          have := ih as
          cases a
          · simp only [mask, List.length_cons]; omega
          · simp only [mask, List.length_cons]; omega
    induction xs generalizing as with
    | nil => intro h hf; cases as <;> simp_all
    | cons x xs ih =>
      intro h hf
      cases as with
      | nil => simp at hf
      | cons a as =>
        simp only [List.length_cons, Nat.add_right_cancel_iff] at h
        cases a with
        | false =>
          have := hle xs as
          simp only [mask, List.length_cons]; omega
        | true =>
          have := ih as h (by simpa using hf)
          simp only [mask, List.length_cons]; omega
  have hd := hm (fields sources xi) a (by rw [hlen, ha]) hf
  refine ⟨⟨⟨sources, a, nDAll sources⟩, mask (fields sources xi) a, ?_, ?_, ?_⟩,
    mask (fields sources xi) a, ?_, ?_⟩
  · simp [Survey.make, ha]
  · simp [dpred, pick, hlen, ha]
  · simp only; omega
  · simp only [Survey.make, Except.ok.injEq] at hs0
    subst hs0
    simp [dpred, pick, Survey.setActive, hlen, ha]
  · simp only [Survey.make, Except.ok.injEq] at hs0
    subst hs0
    simp only [Survey.setActive]; omega

/-! ### The log-uniform simulation -/

/-- C142. **Two receivers of one source**: the log-uniform simulation raises `IndexError`. -/
theorem C142_violated_receivers (r₁ r₂ : RxLog ι) (rest : List (RxLog ι)) :
    fieldsLog [r₁ :: r₂ :: rest] = .error .indexError := by
  simp [fieldsLog, sourcesLog, matsLog, blocksLog, block]

/-- C142. **Two sources with one receiver each**: the second receives the geometry of the first. -/
theorem C142_violated_sources (r₁ r₂ : RxLog ι) :
    fieldsLog [[r₁], [r₂]] =
      .ok ((r₁.times.flatMap fun t => r₁.rows.map fun a => ∑ c, a c * r₁.eta t c) ++
        (r₂.times.flatMap fun t => r₁.rows.map fun a => ∑ c, a c * r₂.eta t c)) := by
  simp [fieldsLog, sourcesLog, matsLog, blocksLog, block]

/-- C142. **Two locations and two channels**: the data come with the channels outside, so that the
survey's order (and its active channels) belong to other data. -/
theorem C142_violated_order : ∃ r : RxLog (Fin 1),
    fieldsLog [[r]] = .ok [3, 6, 5, 10] ∧ expectedLog [[r]] = [3, 5, 6, 10] := by
  refine ⟨⟨[fun _ => 1, fun _ => 2], [3, 5], fun t _ => t⟩, ?_, ?_⟩
  · simp [fieldsLog, sourcesLog, matsLog, blocksLog, block]
    norm_num
  · simp [expectedLog]
    norm_num

/-- C142. **One source with one receiver** of one location, or of one channel: the log-uniform
simulation gives each datum in the survey's order.
Missing: several receivers or sources, several locations and channels (see the violations). -/
theorem C142_loguniform_partial (r : RxLog ι) (h : r.rows.length = 1 ∨ r.times.length = 1) :
    fieldsLog [[r]] = .ok (expectedLog [[r]]) := by
  have h1 : fieldsLog [[r]] =
      .ok (r.times.flatMap fun t => r.rows.map fun a => ∑ c, a c * r.eta t c) := by
    simp [fieldsLog, sourcesLog, matsLog, blocksLog, block]
  rw [h1]
  congr 1
  rcases h with h | h
  · obtain ⟨a, ha⟩ := List.length_eq_one_iff.1 h
    simp [expectedLog, ha]
    exact List.flatMap_pure_eq_map _ _
  · obtain ⟨t, ht⟩ := List.length_eq_one_iff.1 h
    simp [expectedLog, ht]
    exact (List.flatMap_pure_eq_map _ _).symm

/-- A receiver at one place with two channels. -/
example : ∃ r : RxLog (Fin 2), r.rows.length = 1 ∧ fieldsLog [[r]] = .ok [8, 14] := by
  refine ⟨⟨[![1, 2]], [3, 5], fun t => ![t - 1, t - 0]⟩, rfl, ?_⟩
  rw [C142_loguniform_partial _ (Or.inl rfl)]
  simp [expectedLog]
  norm_num

/-! ### Stored matrices -/

/-- C142. **A stored matrix is never computed again**: after the first use the matrix is that of the
cells, refinement distances and survey of the first use, whatever is set later. -/
theorem C142_violated_stale {I M : Type} (compute : I → M) (i : I) (calls : List (Call I)) :
    matrix compute (calls.foldl (step compute) (step compute ⟨i, none⟩ .use)) = compute i := by
  have : ∀ (l : List (Call I)) (s : State I M), s.stored = some (compute i) →
      (l.foldl (step compute) s).stored = some (compute i) := by
    intro l
    induction l with
    | nil => intro s h; exact h
    | cons c l ih =>
      intro s h
      apply ih
      cases c with
      | set j => exact h
      | use => simp [step, h]
  rw [matrix, this calls _ (by simp [step])]
  rfl

/-- C142. **Before the first use** every setting counts, and the matrix is that of the last one.
Missing: settings after the first use (see `C142_violated_stale`). -/
theorem C142_matrix_partial {I M : Type} (compute : I → M) (i : I) (sets : List I) :
    matrix compute ((sets.map Call.set).foldl (step compute) ⟨i, none⟩) =
      compute (sets.getLastD i) := by
  have : ∀ (l : List I) (i : I), (l.map Call.set).foldl (step compute) (⟨i, none⟩ : State I M) =
      ⟨l.getLastD i, none⟩ := by
    intro l
    induction l with
    | nil => intro i; rfl
    | cons j l ih =>
      intro i
      simp only [List.map_cons, List.foldl_cons]
      rw [show step compute (⟨i, none⟩ : State I M) (Call.set j) = ⟨j, none⟩ from rfl, ih j]
      rw [List.getLastD_cons]
  rw [this]
  rfl

/-! ### Cases -/

/-- Two receivers, the first with two places and two channels. -/
def rx1 : Rx (Fin 2) := ⟨[![1, 0], ![0, 1]], [1, 4], fun t => 1 / t⟩
/-- One place and three channels. -/
def rx2 : Rx (Fin 2) := ⟨[![1, 1]], [1, 2, 3], fun t => t⟩

example : fields [[rx1], [rx2]] ![8, 4] = [8, 2, 4, 1, 12, 24, 36] := by
  rw [C142_fields]
  simp [expected, rx1, rx2]
  norm_num

example : ∃ s, Survey.make [[rx1], [rx2]] none = .ok s ∧
    dpred (s.interval 2 4) ![8, 4] = .ok [2, 1, 24, 36] ∧ (s.interval 2 4).nD = 4 := by
  refine ⟨_, rfl, ?_, ?_⟩
  · rw [(C142_interval _ _ _ _).1]
    simp [expected, rx1, rx2, List.filter_cons]
    norm_num
  · rw [(C142_interval _ _ _ ![8, 4]).2]
    simp [expected, rx1, rx2, List.filter_cons]
    norm_num

example : ∃ x : Fin 2 → ℝ, jtvec ⟨[[rx1]], [true, false, true, false], 2⟩ 1 [3, 5] = .ok x ∧
    pair [1, 2] [3, 5] = ∑ k, (![1, 2] : Fin 2 → ℝ) k * x k := by
  refine ⟨_, rfl, ?_⟩
  refine C142_adjoint ⟨[[rx1]], [true, false, true, false], 2⟩ 1 ![1, 2] [3, 5] ?_ rfl
  simp [jvec, pick, matT, blocks, kronEta, rx1, mask, Except.map, mulT, mulA, rowsA,
    List.range_succ]

/-- Settings before the first use. -/
example (f : ℕ → ℕ) (hf : f = fun n => n * n) :
    matrix f (([3, 5].map Call.set).foldl (step f) ⟨2, none⟩) = f 5 ∧
    matrix f (([Call.set 3, Call.set 5]).foldl (step f) (step f ⟨2, none⟩ .use)) = f 2 ∧
    f 5 ≠ f 2 :=
  ⟨C142_matrix_partial _ _ _, C142_violated_stale _ _ _, by subst hf; decide⟩

end Props
end Verif.VRM.Sim
