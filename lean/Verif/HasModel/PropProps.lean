import Verif.HasModel.PropModel
import Mathlib.Analysis.Calculus.Deriv.Inv
import Mathlib.Analysis.Calculus.FDeriv.Pi
import Mathlib.Analysis.Calculus.Deriv.Comp
import Mathlib.Tactic.FieldSimp

/-! C21: one source of truth for a pair of reciprocal properties. -/

noncomputable section
namespace Verif.HasModel.Props
open Verif Matrix

variable {k n : Nat}

/-! Specification: a single optional source. -/

/-- The one thing the pair was last given: a value or a map, on one of the sides. -/
inductive Source (k n : Nat) where
  | val (s : Side) (v : Val n)
  | map (s : Side) (p : PMap k n)

/-- A non-`None` assignment replaces the source; assigning `None` to (or deleting) the item
that is the source removes it; anything else changes nothing. -/
def sstep (src : Option (Source k n)) : Op k n → Option (Source k n)
  | .setVal s (some v) => some (.val s v)
  | .setMap s (some p) => some (.map s p)
  | .reject => src
  | .setVal s none | .delVal s => match src with
    | some (.val t v) => if t = s then none else some (.val t v)
    | o => o
  | .setMap s none | .delMap s => match src with
    | some (.map t p) => if t = s then none else some (.map t p)
    | o => o

def srun (ops : List (Op k n)) : Option (Source k n) := ops.foldl sstep none

/-- What a source says about side `s`: the value as it is, or one over it on the other side. -/
def onSide (t s : Side) (v : Val n) : Val n := if s = t then v else fun i => 1 / v i

/-- The value of side `s`, when there is a source (and a model, if the source is a map). -/
def value (src : Source k n) (model : Option (Fin k → ℝ)) (s : Side) : Option (Val n) :=
  match src with
  | .val t v => some (onSide t s v)
  | .map t p => model.map fun m => onSide t s (p.f m)

/-- A state that holds exactly one source. -/
def encode : Option (Source k n) → State k n
  | none => State.init
  | some (.val s v) => ⟨set (fun _ => none) s (some v), fun _ => none⟩
  | some (.map s p) => ⟨fun _ => none, set (fun _ => none) s (some p)⟩

/-- The source is of a kind the class offers. -/
def okSource (c : Cls) : Option (Source k n) → Prop
  | none => True
  | some (.val s _) => s = .A ∨ c.isPair = true
  | some (.map s _) => (s = .A ∨ c.isPair = true) ∧ c.hasMap s = true

theorem State.ext' (f g : Side → Option (Val n)) (f' g' : Side → Option (PMap k n))
    (h1 : f .A = g .A) (h2 : f .B = g .B) (h3 : f' .A = g' .A) (h4 : f' .B = g' .B) :
    (⟨f, f'⟩ : State k n) = ⟨g, g'⟩ := by
  have : f = g := by funext s; cases s <;> assumption
  have : f' = g' := by funext s; cases s <;> assumption
  subst_vars; rfl

theorem setVal_encode (c : Cls) (src : Option (Source k n)) (s : Side) (v : Val n)
    (h : s = .A ∨ c.isPair = true) (hs : okSource c src) :
    setVal c (encode src) s (some v) = encode (some (.val s v)) := by
  obtain ⟨ip, hm, opt⟩ := c
  rcases src with _ | ⟨t, w⟩ | ⟨t, q⟩
  · apply State.ext' <;> cases s <;> cases ip <;>
    cases hA : hm .A <;> cases hB : hm .B <;>
    simp_all [encode, State.init, Side.other, set]
  · apply State.ext' <;> cases s <;> cases t <;> cases ip <;>
    cases hA : hm .A <;> cases hB : hm .B <;>
    simp_all [encode, okSource, Side.other, set]
  · apply State.ext' <;> cases s <;> cases t <;> cases ip <;>
    cases hA : hm .A <;> cases hB : hm .B <;>
    simp_all [encode, okSource, Side.other, set]

theorem setMap_encode (c : Cls) (src : Option (Source k n)) (s : Side) (p : PMap k n)
    (h : s = .A ∨ c.isPair = true) (hs : okSource c src) :
    setMap c (encode src) s (some p) = encode (some (.map s p)) := by
  obtain ⟨ip, hm, opt⟩ := c
  rcases src with _ | ⟨t, w⟩ | ⟨t, q⟩
  · apply State.ext' <;> cases s <;> cases ip <;>
    cases hA : hm .A <;> cases hB : hm .B <;>
    simp_all [encode, State.init, Side.other, set]
  · apply State.ext' <;> cases s <;> cases t <;> cases ip <;>
    cases hA : hm .A <;> cases hB : hm .B <;>
    simp_all [encode, okSource, Side.other, set]
  · apply State.ext' <;> cases s <;> cases t <;> cases ip <;>
    cases hA : hm .A <;> cases hB : hm .B <;>
    simp_all [encode, okSource, Side.other, set]

theorem delVal_encode (src : Option (Source k n)) (s : Side) :
    ({ encode src with val := set (encode src).val s none } : State k n)
      = encode (sstep src (.delVal s)) := by
  rcases src with _ | ⟨t, w⟩ | ⟨t, q⟩
  · apply State.ext' <;> simp [encode, State.init, set]
  · by_cases e : t = s
    · simp only [sstep, e, if_true]
      apply State.ext' <;> cases s <;> simp [encode, State.init, set]
    · simp only [sstep, e, if_false]
      apply State.ext' <;> cases s <;> cases t <;> simp_all [encode, set]
  · apply State.ext' <;> simp [encode, set]

theorem delMap_encode (src : Option (Source k n)) (s : Side) :
    ({ encode src with map := set (encode src).map s none } : State k n)
      = encode (sstep src (.delMap s)) := by
  rcases src with _ | ⟨t, w⟩ | ⟨t, q⟩
  · apply State.ext' <;> simp [encode, State.init, set]
  · apply State.ext' <;> simp [encode, set]
  · by_cases e : t = s
    · simp only [sstep, e, if_true]
      apply State.ext' <;> cases s <;> simp [encode, State.init, set]
    · simp only [sstep, e, if_false]
      apply State.ext' <;> cases s <;> cases t <;> simp_all [encode, set]

theorem okSource_del (c : Cls) (src : Option (Source k n)) (s : Side) (hs : okSource c src) :
    okSource c (sstep src (.delVal s)) ∧ okSource c (sstep src (.delMap s)) := by
  rcases src with _ | ⟨t, w⟩ | ⟨t, q⟩
  · exact ⟨trivial, trivial⟩
  · refine ⟨?_, hs⟩
    simp only [sstep]; split
    · trivial
    · exact hs
  · refine ⟨hs, ?_⟩
    simp only [sstep]; split
    · trivial
    · exact hs

theorem step_encode (c : Cls) (src : Option (Source k n)) (op : Op k n) (h : op.avail c)
    (hs : okSource c src) :
    step c (encode src) op = encode (sstep src op) ∧ okSource c (sstep src op) := by
  rcases op with ⟨s, _ | v⟩ | ⟨s, _ | p⟩ | _ | s | s
  · exact ⟨delVal_encode src s, (okSource_del c src s hs).1⟩
  · exact ⟨setVal_encode c src s v h hs, h⟩
  · exact ⟨delMap_encode src s, (okSource_del c src s hs).2⟩
  · exact ⟨setMap_encode c src s p h.1 hs, h⟩
  · exact ⟨rfl, hs⟩
  · exact ⟨delVal_encode src s, (okSource_del c src s hs).1⟩
  · exact ⟨delMap_encode src s, (okSource_del c src s hs).2⟩

/-- C21. After any history of assignments, `None` assignments, deletions and rejected
assignments, the object holds exactly the single current source: a non-`None` assignment
leaves that item as the only one set. -/
theorem C21_single_source (c : Cls) (ops : List (Op k n)) (h : ∀ op ∈ ops, op.avail c) :
    run c ops = encode (srun ops) ∧ okSource c (srun ops) := by
  have key : ∀ (ops : List (Op k n)) (src : Option (Source k n)), (∀ op ∈ ops, op.avail c) →
      okSource c src →
      ops.foldl (step c) (encode src) = encode (ops.foldl sstep src) ∧
      okSource c (ops.foldl sstep src) := by
    intro ops
    induction ops with
    | nil => intro src _ hs; exact ⟨rfl, hs⟩
    | cons op ops ih =>
      intro src ha hs
      obtain ⟨h1, h2⟩ := step_encode c src op (ha op (by simp)) hs
      simp only [List.foldl_cons, h1]
      exact ih _ (fun o ho => ha o (by simp [ho])) h2
  exact key ops none h trivial

/-- The reading of a side that exists. -/
theorem read_encode (c : Cls) (src : Source k n) (hs : okSource c (some src))
    (model : Option (Fin k → ℝ)) (s : Side) (hside : s = .A ∨ c.isPair = true) :
    read c (encode (some src)) model s = match value src model s with
      | some v => .ok (some v)
      | none => .error .attributeError := by
  obtain ⟨ip, hm, opt⟩ := c
  rcases src with ⟨t, w⟩ | ⟨t, q⟩ <;> cases s <;> cases t <;> cases ip <;>
  cases hA : hm .A <;> cases hB : hm .B <;> cases model <;>
  simp_all [read, readBody, encode, value, onSide, okSource, set, Side.other, getMap, recipMap,
    recip] <;>
  first | rfl | (funext i; simp [recip])

/-- C21. Reading: with a source set, the side it was given on reads `v` and the other side
reads `1/v`, where `v` is the assigned value or `map * model`; a map without a model raises. -/
theorem C21_read (c : Cls) (ops : List (Op k n)) (h : ∀ op ∈ ops, op.avail c)
    (src : Source k n) (hs : srun ops = some src) (model : Option (Fin k → ℝ)) (s : Side)
    (hside : s = .A ∨ c.isPair = true) :
    read c (run c ops) model s = match value src model s with
      | some v => .ok (some v)
      | none => .error .attributeError := by
  obtain ⟨h1, h2⟩ := C21_single_source c ops h
  rw [h1, hs]
  rw [hs] at h2
  exact read_encode c src h2 model s hside

/-- C21. Reading both sides of a pair: their product is one wherever the value is not zero. -/
theorem C21_product (c : Cls) (hp : c.isPair = true) (ops : List (Op k n))
    (h : ∀ op ∈ ops, op.avail c) (model : Option (Fin k → ℝ)) (a b : Val n)
    (ha : read c (run c ops) model .A = .ok (some a))
    (hb : read c (run c ops) model .B = .ok (some b)) (i : Fin n) :
    (a i ≠ 0 → a i * b i = 1) ∧ (a i = 0 ↔ b i = 0) := by
  obtain ⟨h1, h2⟩ := C21_single_source c ops h
  cases hs : srun ops with
  | none =>
    exfalso
    rw [h1, hs] at ha
    obtain ⟨ip, hm, opt⟩ := c
    subst hp
    cases hA : hm .A <;> cases hB : hm .B <;> cases hoA : opt .A <;> cases hoB : opt .B <;>
    simp_all [read, readBody, encode, State.init, getMap, Side.other]
  | some src =>
    rw [C21_read c ops h src hs model .A (Or.inl rfl)] at ha
    rw [C21_read c ops h src hs model .B (Or.inr hp)] at hb
    rcases src with ⟨t, v⟩ | ⟨t, p⟩
    · cases t <;> simp [value, onSide] at ha hb <;> subst ha <;> subst hb
      · exact ⟨fun hne => by field_simp, by simp⟩
      · refine ⟨fun hne => ?_, by simp⟩
        have : v i ≠ 0 := fun e => hne (by simp [e])
        field_simp
    · cases model with
      | none => simp [value] at ha
      | some m =>
        cases t <;> simp [value, onSide] at ha hb <;> subst ha <;> subst hb
        · exact ⟨fun hne => by field_simp, by simp⟩
        · refine ⟨fun hne => ?_, by simp⟩
          have : p.f m i ≠ 0 := fun e => hne (by simp [e])
          field_simp

/-- C21. With nothing set, a read never returns a value: it gives `None` (an optional
property, or a lone property without a map) or raises. -/
theorem C21_unset (c : Cls) (ops : List (Op k n)) (h : ∀ op ∈ ops, op.avail c)
    (hs : srun ops = none) (model : Option (Fin k → ℝ)) (s : Side) (v : Val n) :
    read c (run c ops) model s ≠ .ok (some v) ∧
    (c.hasMap s = true → c.optional s = false →
      read c (run c ops) model s = .error .attributeError) := by
  obtain ⟨h1, -⟩ := C21_single_source c ops h
  rw [h1, hs]
  obtain ⟨ip, hm, opt⟩ := c
  cases s <;> cases ip <;> cases hA : hm .A <;> cases hB : hm .B <;> cases hoA : opt .A <;>
    cases hoB : opt .B <;>
    simp_all [read, readBody, encode, State.init, getMap, Side.other]

theorem recip_jacobian (p : PMap k n) (m : Fin k → ℝ) (hJ : IsJacobian p.f (p.J m) m)
    (hne : ∀ i, p.f m i ≠ 0) : IsJacobian (recipMap p).f ((recipMap p).J m) m := by
  rw [IsJacobian, hasFDerivAt_pi']
  rw [IsJacobian, hasFDerivAt_pi'] at hJ
  intro i
  have h := (hasDerivAt_inv (hne i)).comp_hasFDerivAt m (hJ i)
  have e : (fun x => (recipMap p).f x i) = (fun y : ℝ => y⁻¹) ∘ fun x => p.f x i := by
    funext x; simp [recipMap, recip]
  rw [e]
  refine h.congr_fderiv ?_
  ext v
  simp only [recipMap, ContinuousLinearMap.smul_apply, ContinuousLinearMap.comp_apply,
    ContinuousLinearMap.proj_apply, smul_eq_mul]
  change -(p.f m i ^ 2)⁻¹ * (p.J m *ᵥ v) i = ((Matrix.diagonal _ * p.J m) *ᵥ v) i
  rw [← Matrix.mulVec_mulVec, Matrix.mulVec_diagonal]

/-- C21. The derivative attribute is the exact derivative of the property as a function of
the model, for a class in which both or none of the pair have a map (all classes in the
package): zero for an assigned value, the map's or the reciprocal chain rule for a map. -/
theorem C21_deriv (c : Cls) (hboth : c.hasMap .A = c.hasMap .B ∨ c.isPair = false)
    (ops : List (Op k n)) (h : ∀ op ∈ ops, op.avail c) (src : Source k n)
    (hs : srun ops = some src) (s : Side) (hside : s = .A ∨ c.isPair = true) (m : Fin k → ℝ)
    (F : (Fin k → ℝ) → Val n)
    (hF : ∀ m', read c (run c ops) (some m') s = .ok (some (F m')))
    (hJ : ∀ t p, src = .map t p → IsJacobian p.f (p.J m) m ∧ ∀ i, p.f m i ≠ 0) :
    IsJacobian F (readDeriv c (run c ops) (some m) s) m := by
  obtain ⟨h1, h2⟩ := C21_single_source c ops h
  have hF' : ∀ m', value src (some m') s = some (F m') := by
    intro m'
    have := hF m'
    rw [C21_read c ops h src hs (some m') s hside] at this
    cases hv : value src (some m') s with
    | none => rw [hv] at this; simp at this
    | some w => rw [hv] at this; simp at this; rw [this]
  rw [h1, hs]
  rw [hs] at h2
  obtain ⟨ip, hm, opt⟩ := c
  rcases src with ⟨t, v⟩ | ⟨t, p⟩
  · have e : readDeriv ⟨ip, hm, opt⟩ (encode (some (Source.val t v))) (some m) s = 0 := by
      cases s <;> cases ip <;> cases hA : hm .A <;> cases hB : hm .B <;>
      simp_all [readDeriv, encode, getMap, Side.other]
    rw [e]
    have hc : F = fun _ => onSide t s v := by
      funext m'
      have := hF' m'
      simp [value] at this
      exact this.symm
    rw [hc, IsJacobian]
    have : mulVecL (0 : Matrix (Fin n) (Fin k) ℝ) = 0 := by ext; simp
    rw [this]
    exact hasFDerivAt_const _ _
  · obtain ⟨hp, hne⟩ := hJ t p rfl
    have hc : F = fun m' => onSide t s (p.f m') := by
      funext m'
      have := hF' m'
      simp [value] at this
      exact this.symm
    by_cases hst : s = t
    · subst hst
      have e : readDeriv ⟨ip, hm, opt⟩ (encode (some (Source.map s p))) (some m) s = p.J m := by
        simp only [okSource] at h2
        simp [readDeriv, encode, getMap, set, h2.2]
      rw [e, hc]
      simpa [onSide] using hp
    · have e : readDeriv ⟨ip, hm, opt⟩ (encode (some (Source.map t p))) (some m) s
          = (recipMap p).J m := by
        cases s <;> cases t <;> cases ip <;> cases hA : hm .A <;> cases hB : hm .B <;>
        simp_all [readDeriv, encode, getMap, Side.other, set, okSource]
      rw [e, hc]
      have : (fun m' => onSide t s (p.f m')) = (recipMap p).f := by
        funext m'
        simp only [onSide, hst, if_false, recipMap]
        rfl
      rw [this]
      exact recip_jacobian p m hp hne

/-- A pair with maps on both sides, as `sigma`/`rho` (`base/pde_simulation.py` 609-615). -/
def sigmaRho : Cls := ⟨true, fun _ => true, fun _ => false⟩

/-- A non-trivial history: a value, then a map on the other side, then a rejected assignment
and a `None` on an unrelated item; the map is the only source. -/
example (p : PMap 2 2) : srun (k := 2) (n := 2)
    [.setVal .A (some ![1, 2]), .setMap .B (some p), .reject, .setVal .A none] = some (.map .B p) ∧
    ∀ op ∈ ([.setVal .A (some ![1, 2]), .setMap .B (some p), .reject, .setVal .A none] :
      List (Op 2 2)), op.avail sigmaRho := by
  refine ⟨rfl, ?_⟩
  intro op hop
  fin_cases hop <;> simp [Op.avail, sigmaRho]

end Verif.HasModel.Props
