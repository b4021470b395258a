import Verif.Basic
import Mathlib.Logic.Function.Basic
import Mathlib.Data.List.Basic

/-!
C184: models with a map and the indices of receivers: `Model` (`simpeg/models.py`), `BaseSrc._rxOrder` and
`BaseSrc.get_receiver_indices` (`simpeg/survey.py` 341-349, 364-385).

Simplified: a model is the list of its values; a map is its function with the number of parameters; receivers are
given by their identifiers.
-/

namespace Verif.Utils.ModelCache

/-! ### Model: models -/

/-- A map: `nP` (`none` is `"*"`), and its product with an array, an error for arrays of other sizes. -/
structure Mapping (V W : Type) where
  nP : Option ℕ
  apply : List V → Except Err W

/-- A `Model`: the values (the memory is shared with the array it was made from), the map and the cached products. -/
structure Model (V W : Type) where
  values : List V
  mapping : Option (Mapping V W)
  cached : Option W

/-- `Model(input_array, mapping)` (models.py 6-14) for arrays with the given number of axes. -/
def new {V W : Type} (values : List V) (axes : ℕ) (mapping : Option (Mapping V W)) : Except Err (Model V W) :=
  match mapping with
  | none => .error .assertionError
  | some M =>
    if axes ≠ 1 then .error .assertionError
    else if some values.length ≠ M.nP then .error .exception
    else .ok ⟨values, some M, none⟩

/-- The property `transform` (models.py 25-29), and the object afterwards. `transformDeriv` is the same with the
derivative. -/
def transform {V W : Type} (m : Model V W) : Except Err (W × Model V W) :=
  match m.cached with
  | some w => .ok (w, m)
  | none =>
    match m.mapping with
    | none => .error .typeError
    | some M =>
      match M.apply m.values with
      | .error e => .error e
      | .ok w => .ok (w, { m with cached := some w })

/-- A new array made from a model, by arithmetic, as a slice or a copy: `__array_finalize__` (models.py 16-19). -/
def derived {V W : Type} (m : Model V W) (f : List V → List V) : Model V W := ⟨f m.values, m.mapping, none⟩

/-- What happens to a model: values are written, also in the array that it was made from, or the product is read. -/
inductive Op (V : Type)
  | write (f : List V → List V)
  | read

/-- A history; errors of reading leave the object. -/
def step {V W : Type} (m : Model V W) : Op V → Model V W
  | .write f => { m with values := f m.values }
  | .read => match transform m with
    | .ok (_, m') => m'
    | .error _ => m

/-! ### Model: receivers -/

/-- `_rxOrder` (survey.py 341-349): `getattr(self.__rxOrder, None)` has a name that is not a string. -/
def rxOrder (_receivers : List ℕ) : Except Err (ℕ → Option ℕ) := .error .typeError

/-- `list(map(lambda rx: self._rxOrder.get(rx._uid, None), receivers))` (383). -/
def lookups (own : List ℕ) : List ℕ → Except Err (List (Option ℕ))
  | [] => .ok []
  | r :: rs =>
    match rxOrder own with
    | .error e => .error e
    | .ok order =>
      match lookups own rs with
      | .error e => .error e
      | .ok l => .ok (order r :: l)

/-- `get_receiver_indices` (364-385): receivers are given by their identifier, `none` if they have none. -/
def getReceiverIndices (own : List ℕ) (receivers : List (Option ℕ)) : Except Err (List (Option ℕ)) :=
  if none ∈ receivers then .error .keyError
  else
    match lookups own (receivers.filterMap id) with
    | .error e => .error e
    | .ok inds => if none ∈ inds then .error .keyError else .ok inds

/-! ### C184 -/

/-- **C184, new models**: exactly arrays of one axis with as many values as the map has parameters are accepted; the
product is that of the map. -/
theorem C184_new {V W : Type} (values : List V) (axes : ℕ) (mapping : Option (Mapping V W)) :
    ((∃ m, new values axes mapping = .ok m) ↔ ∃ M, mapping = some M ∧ axes = 1 ∧ M.nP = some values.length) ∧
    ∀ m M, new values axes mapping = .ok m → mapping = some M →
      (transform m).map Prod.fst = M.apply values := by
  constructor
  · unfold new
    cases mapping with
    | none => simp
    | some M =>
      rw [show (∃ M', some M = some M' ∧ axes = 1 ∧ M'.nP = some values.length)
        ↔ (axes = 1 ∧ M.nP = some values.length) by simp]
      simp only
      split_ifs with h1 h2
      · simp [h1]
      · constructor
        · rintro ⟨m, h⟩; cases h
        · rintro ⟨_, h⟩; exact absurd h.symm h2
      · exact ⟨fun _ => ⟨not_not.mp h1, (not_not.mp h2).symm⟩, fun _ => ⟨_, rfl⟩⟩
  · intro m M h hM
    subst hM
    unfold new at h
    simp only at h
    split_ifs at h
    simp only [Except.ok.injEq] at h
    subst h
    unfold transform
    simp only
    cases M.apply values <;> rfl

theorem foldl_cached {V W : Type} (ops : List (Op V)) (m : Model V W) (w : W) (h : m.cached = some w) :
    (ops.foldl step m).cached = some w ∧ (ops.foldl step m).mapping = m.mapping := by
  induction ops generalizing m with
  | nil => exact ⟨h, rfl⟩
  | cons o ops ih =>
    rw [List.foldl_cons]
    have h1 : (step m o).cached = some w ∧ (step m o).mapping = m.mapping := by
      cases o with
      | write f => exact ⟨h, rfl⟩
      | read => simp only [step, transform, h, and_self]
    have := ih (step m o) h1.1
    exact ⟨this.1, this.2.trans h1.2⟩

theorem foldl_writes {V W : Type} (fs : List (List V → List V)) (m : Model V W) :
    (fs.map Op.write).foldl step m = { m with values := fs.foldl (fun v f => f v) m.values } := by
  induction fs generalizing m with
  | nil => rfl
  | cons f fs ih => rw [List.map_cons, List.foldl_cons, ih]; rfl

/-- **C184, product (partial)**: in every history in which the values are written only before the product is read
for the first time, the product is that of the map with the current values. Missing: writes after a read, see
`C184_violated_stale`. -/
theorem C184_transform_partial {V W : Type} (M : Mapping V W) (values : List V)
    (fs : List (List V → List V)) (reads : ℕ) :
    let m := (fs.map Op.write ++ List.replicate reads Op.read).foldl step (⟨values, some M, none⟩ : Model V W);
    (transform m).map Prod.fst = M.apply m.values ∧ m.values = fs.foldl (fun v f => f v) values := by
  intro m
  have hm : m = (List.replicate reads Op.read).foldl step
      ⟨fs.foldl (fun v f => f v) values, some M, none⟩ := by
    show (fs.map Op.write ++ List.replicate reads Op.read).foldl step _ = _
    rw [List.foldl_append, foldl_writes]
  generalize fs.foldl (fun v f => f v) values = u at hm
  have key : ∀ (k : ℕ) (q : Model V W), q.values = u → q.mapping = some M →
      (∀ w, q.cached = some w → M.apply u = .ok w) →
      let r := (List.replicate k Op.read).foldl step q;
      r.values = u ∧ r.mapping = some M ∧ ∀ w, r.cached = some w → M.apply u = .ok w := by
    intro k
    induction k with
    | zero => exact fun q h1 h2 h3 => ⟨h1, h2, h3⟩
    | succ k ih =>
      intro q h1 h2 h3
      rw [List.replicate_succ, List.foldl_cons]
      have hs : (step q Op.read).values = u ∧ (step q Op.read).mapping = some M ∧
          ∀ w, (step q Op.read).cached = some w → M.apply u = .ok w := by
        unfold step transform
        cases hc : q.cached with
        | some w => exact ⟨h1, h2, by simpa [hc] using h3⟩
        | none =>
          simp only [h2, h1]
          cases ha : M.apply u with
          | error e => exact ⟨h1, h2, by simp [hc]⟩
          | ok w => exact ⟨rfl, rfl, by simp⟩
      exact ih _ hs.1 hs.2.1 hs.2.2
  have := key reads ⟨u, some M, none⟩ rfl rfl (by simp)
  rw [← hm] at this
  obtain ⟨h1, h2, h3⟩ := this
  refine ⟨?_, h1⟩
  unfold transform
  cases hc : m.cached with
  | some w => simp only [Except.map]; rw [h1, h3 w hc]
  | none =>
    simp only [h2, h1]
    cases M.apply u <;> rfl

/-- **C184, violated**: once the product has been read it stays, whatever is written to the model or to the array it
was made from. -/
theorem C184_violated_stale {V W : Type} (M : Mapping V W) (values : List V) (w : W)
    (h : M.apply values = .ok w) (ops : List (Op V)) :
    (transform ((Op.read :: ops).foldl step (⟨values, some M, none⟩ : Model V W))).map Prod.fst = .ok w := by
  rw [List.foldl_cons]
  have hc : (step (⟨values, some M, none⟩ : Model V W) Op.read).cached = some w := by
    simp [step, transform, h]
  have := (foldl_cached ops _ w hc).1
  unfold transform
  rw [this]
  rfl

/-- **C184, new arrays**: arrays made from a model have the product of their own values, whatever was read before. -/
theorem C184_derived {V W : Type} (m : Model V W) (M : Mapping V W) (hM : m.mapping = some M)
    (f : List V → List V) : (transform (derived m f)).map Prod.fst = M.apply (f m.values) := by
  unfold transform derived
  simp only [hM]
  cases M.apply (f m.values) <;> rfl

/-- **C184, violated**: a part of a model keeps the map although its size is another; its product is the error of
the map. -/
theorem C184_violated_slice {V W : Type} (m : Model V W) (M : Mapping V W) (hM : m.mapping = some M)
    (f : List V → List V) (e : Err) (he : M.apply (f m.values) = .error e) :
    (derived m f).mapping = some M ∧ transform (derived m f) = .error e := by
  refine ⟨hM, ?_⟩
  unfold transform derived
  simp only [hM, he]

/-- **C184, violated**: the indices of receivers are never returned, also for receivers of the source: the method
raises an error for every list of receivers that is not empty. -/
theorem C184_violated_receivers (own : List ℕ) (receivers : List (Option ℕ)) (hne : receivers ≠ []) :
    getReceiverIndices own receivers = .error .keyError ∨ getReceiverIndices own receivers = .error .typeError := by
  unfold getReceiverIndices
  by_cases h : none ∈ receivers
  · left; rw [if_pos h]
  · right
    rw [if_neg h]
    obtain ⟨r, rs, rfl⟩ := List.exists_cons_of_ne_nil hne
    cases r with
    | none => exact absurd List.mem_cons_self h
    | some r => simp [lookups, rxOrder]

/-- The doubling map refuses other sizes than two. -/
def twice : Mapping ℕ (List ℕ) := ⟨some 2, fun v => if v.length = 2 then .ok (v.map (2 * ·)) else .error .valueError⟩

/-- The product after a write is that of the old values. -/
example : (transform ([Op.read, .write fun _ => [7, 7]].foldl step
    (⟨[1, 2], some twice, none⟩ : Model ℕ (List ℕ)))).map Prod.fst = .ok [2, 4] :=
  C184_violated_stale twice [1, 2] [2, 4] rfl [.write fun _ => [7, 7]]

/-- A slice of a model of two values cannot be mapped. -/
example : transform (derived (⟨[1, 2], some twice, none⟩ : Model ℕ (List ℕ)) (List.take 1)) = .error .valueError :=
  (C184_violated_slice _ twice rfl (List.take 1) .valueError rfl).2

end Verif.Utils.ModelCache
