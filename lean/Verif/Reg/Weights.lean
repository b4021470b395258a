import Verif.Survey.Lemmas
import Mathlib.Data.Real.Sqrt
import Mathlib.Tactic.NormNum
import Mathlib.Tactic.Ring

/-! Model of the weights of a regularisation: `BaseRegularization.set_weights`,
`remove_weights`, `W` (`simpeg/regularization/base.py` 279-354) and the `W` of
`SmoothnessFirstOrder` (1163-1186). -/

noncomputable section
namespace Verif.Reg
open Verif

/-- What the classes differ in: the lengths `_weights_shapes` accepts (196-214, 960-972) and
what `W` does to a weight before multiplying (1182-1183: averages cell weights to faces). -/
structure Kind where
  accepts : List Nat
  nW : Nat
  conv : List ℝ → List ℝ
  conv_len : ∀ v, v.length ∈ accepts → (conv v).length = nW

/-- `Smallness` on a mesh of `n` active cells. -/
def smallness (n : Nat) : Kind := ⟨[n], n, id, fun v h => by simpa using h⟩

/-- `SmoothnessFirstOrder` with `nf` faces and `nc` cells; `ave` is multiplication by
`aveCC2F`. -/
def firstOrder (nf nc : Nat) (ave : List ℝ → List ℝ) (h : ∀ v, v.length = nc → (ave v).length = nf) :
    Kind :=
  ⟨[nf, nc], nf, fun v => if v.length = nc then ave v else v, fun v hv => by
    simp only [List.mem_cons, List.not_mem_nil, or_false] at hv
    split
    · next hc => exact h v hc
    · next hc => exact hv.resolve_right hc⟩

/-- `_weights` and `_W` (the diagonal). Arrays are values here: mutating an array in place after
registering it is not modelled. -/
structure St where
  ws : List (String × List ℝ)
  cache : Option (List ℝ)

/-- `set_weights(**weights)` (279-304): each value is validated and stored in turn; the cached
`W` is cleared after the loop. -/
def setWeights (K : Kind) : List (String × List ℝ) → St → St × Option Err
  | [], s => ({ s with cache := none }, none)
  | (k, v) :: l, s =>
    if v.length ∈ K.accepts then setWeights K l { s with ws := dictSet s.ws k v }
    else (s, some .valueError)

/-- `remove_weights(key)` (313-336). -/
def removeWeights (key : String) (s : St) : St × Option Err :=
  match dictGet s.ws key with
  | none => (s, some .keyError)
  | some _ => ({ ws := dictDel s.ws key, cache := none }, none)

/-- The product of the weights, entry by entry (352; 1180-1184). No weights at all give a number
instead of an array, which the construction of the diagonal matrix refuses (in `discretize`,
not part of this repository). -/
def product (K : Kind) : List (String × List ℝ) → Option (List ℝ)
  | [] => none
  | [(_, v)] => some (K.conv v)
  | (_, v) :: l => (product K l).map fun p => List.zipWith (· * ·) (K.conv v) p

/-- The diagonal of a newly computed `W` (353, 1185). -/
def compute (K : Kind) (ws : List (String × List ℝ)) : Except Err (List ℝ) :=
  match product K ws with
  | none => .error .exception
  | some p => .ok (p.map Real.sqrt)

/-- Reading `W` (339-354, 1164-1186). -/
def readW (K : Kind) (s : St) : Except Err (List ℝ) × St :=
  match s.cache with
  | some d => (.ok d, s)
  | none => match compute K s.ws with
    | .error e => (.error e, s)
    | .ok d => (.ok d, { s with cache := some d })

/-- Operations of a history. -/
inductive Op
  | set (l : List (String × List ℝ))
  | remove (key : String)
  | read

/-- The state after an operation, whether or not it raised. -/
def step (K : Kind) (s : St) : Op → St
  | .set l => (setWeights K l s).1
  | .remove k => (removeWeights k s).1
  | .read => (readW K s).2

/-- The state after a history. -/
def run (K : Kind) (ops : List Op) (s : St) : St := ops.foldl (step K) s

namespace Props

/-! ### Specification -/

/-- Which weights are registered after an operation: a `set` registers all its weights, or none
if one of them has a wrong length. -/
def registerStep (K : Kind) (f : String → Option (List ℝ)) : Op → String → Option (List ℝ)
  | .set l => if ∀ kv ∈ l, kv.2.length ∈ K.accepts then
      l.foldl (fun f kv => fun k => if k = kv.1 then some kv.2 else f k) f else f
  | .remove key => fun k => if k = key then none else f k
  | .read => f

/-- The registered weights after a history. -/
def registered (K : Kind) (ops : List Op) : String → Option (List ℝ) :=
  ops.foldl (registerStep K) fun _ => none

/-- No `set` call is rejected after it has already stored something. -/
def Clean (K : Kind) : List Op → Prop
  | [] => True
  | .set ((k, v) :: l) :: ops =>
    (v.length ∈ K.accepts → ∀ kv ∈ l, kv.2.length ∈ K.accepts) ∧ Clean K ops
  | _ :: ops => Clean K ops

/-! ### Lemmas -/

theorem keys_dictSet (d : List (String × List ℝ)) (k : String) (v : List ℝ)
    (h : (d.map Prod.fst).Nodup) : ((dictSet d k v).map Prod.fst).Nodup := by
  induction d with
  | nil => simp [dictSet]
  | cons a d ih =>
    obtain ⟨k', v'⟩ := a
    simp only [List.map_cons, List.nodup_cons] at h
    simp only [dictSet]
    split
    · simpa using h
    · next hne =>
      simp only [List.map_cons, List.nodup_cons]
      refine ⟨fun hm => ?_, ih h.2⟩
      have key : ∀ d : List (String × List ℝ), k' ∈ (dictSet d k v).map Prod.fst →
          k' ∈ d.map Prod.fst ∨ k' = k := by
        intro d
        induction d with
        | nil => intro hm; simp [dictSet] at hm; exact Or.inr hm
        | cons b d ih2 =>
          intro hm
          simp only [dictSet] at hm
          split at hm
          · left; simpa using hm
          · simp only [List.map_cons, List.mem_cons] at hm ⊢
            rcases hm with hm | hm
            · exact Or.inl (Or.inl hm)
            · exact (ih2 hm).imp Or.inr id
      rcases key d hm with h1 | h1
      · exact h.1 h1
      · exact hne h1

theorem dictDel_spec (d : List (String × List ℝ)) (k : String) (h : (d.map Prod.fst).Nodup) :
    ((dictDel d k).map Prod.fst).Nodup ∧
      ∀ k', dictGet (dictDel d k) k' = if k' = k then none else dictGet d k' := by
  induction d with
  | nil => simp [dictDel, dictGet]
  | cons a d ih =>
    obtain ⟨k1, v1⟩ := a
    simp only [List.map_cons, List.nodup_cons] at h
    obtain ⟨ih1, ih2⟩ := ih h.2
    simp only [dictDel]
    split
    · next he =>
      subst he
      refine ⟨h.2, fun k' => ?_⟩
      split
      · next he' => rw [he']; exact (dictGet_none_iff d k1).mpr h.1
      · next he' => simp only [dictGet]; rw [if_neg (fun e => he' e.symm)]
    · next hne =>
      refine ⟨?_, fun k' => ?_⟩
      · simp only [List.map_cons, List.nodup_cons]
        refine ⟨fun hm => h.1 ?_, ih1⟩
        have hsub : ∀ d : List (String × List ℝ), k1 ∈ (dictDel d k).map Prod.fst →
            k1 ∈ d.map Prod.fst := by
          intro d
          induction d with
          | nil => simp [dictDel]
          | cons b d ih3 =>
            intro hm
            simp only [dictDel] at hm
            split at hm
            · simp [hm]
            · simp only [List.map_cons, List.mem_cons] at hm ⊢
              exact hm.imp id ih3
        exact hsub d hm
      · simp only [dictGet]
        split
        · next he => rw [if_neg (fun e => hne (he.trans e))]
        · exact ih2 k'

theorem dictGet_dictSet (d : List (String × List ℝ)) (k k' : String) (v : List ℝ) :
    dictGet (dictSet d k v) k' = if k' = k then some v else dictGet d k' := by
  split
  · next h => rw [h]; exact dictGet_dictSet_self d k v
  · next h => exact dictGet_dictSet_ne d k k' v h

/-- The loop of `set_weights` when nothing is rejected. -/
theorem setWeights_ok (K : Kind) : ∀ (l : List (String × List ℝ)) (s : St),
    (∀ kv ∈ l, kv.2.length ∈ K.accepts) → (s.ws.map Prod.fst).Nodup →
    (∀ kv ∈ s.ws, kv.2.length ∈ K.accepts) →
    (setWeights K l s).2 = none ∧ (setWeights K l s).1.cache = none ∧
    ((setWeights K l s).1.ws.map Prod.fst).Nodup ∧
    (∀ kv ∈ (setWeights K l s).1.ws, kv.2.length ∈ K.accepts) ∧
    ∀ k, dictGet (setWeights K l s).1.ws k =
      l.foldl (fun f kv => fun k => if k = kv.1 then some kv.2 else f k) (dictGet s.ws) k
  | [], s, _, hn, hl => ⟨rfl, rfl, hn, hl, fun _ => rfl⟩
  | (k, v) :: l, s, hok, hn, hl => by
    have hv : v.length ∈ K.accepts := hok (k, v) (by simp)
    simp only [setWeights, hv, if_true]
    have hl' : ∀ kv ∈ dictSet s.ws k v, kv.2.length ∈ K.accepts := by
      intro kv hkv
      have hmem : ∀ d : List (String × List ℝ), kv ∈ dictSet d k v → kv ∈ d ∨ kv.2 = v := by
        intro d
        induction d with
        | nil => intro h; simp [dictSet] at h; right; rw [h]
        | cons b d ih =>
          intro h
          simp only [dictSet] at h
          split at h
          · rcases List.mem_cons.mp h with h | h
            · right; rw [h]
            · left; simp [h]
          · rcases List.mem_cons.mp h with h | h
            · left; simp [h]
            · exact (ih h).imp (by intro h'; simp [h']) id
      rcases hmem _ hkv with h | h
      · exact hl kv h
      · rw [h]; exact hv
    obtain ⟨h1, h2, h3, h4, h5⟩ := setWeights_ok K l { s with ws := dictSet s.ws k v }
      (fun kv h => hok kv (by simp [h])) (keys_dictSet _ _ _ hn) hl'
    refine ⟨h1, h2, h3, h4, fun k' => ?_⟩
    rw [h5, List.foldl_cons]
    rw [show dictGet (dictSet s.ws k v) = fun k'' => if k'' = k then some v else dictGet s.ws k''
      from funext fun k'' => dictGet_dictSet s.ws k k'' v]

/-- What holds along a clean history. -/
structure Good (K : Kind) (f : String → Option (List ℝ)) (s : St) : Prop where
  nodup : (s.ws.map Prod.fst).Nodup
  lens : ∀ kv ∈ s.ws, kv.2.length ∈ K.accepts
  spec : ∀ k, dictGet s.ws k = f k
  fresh : ∀ d, s.cache = some d → compute K s.ws = .ok d

theorem good_step (K : Kind) (f : String → Option (List ℝ)) (s : St) (op : Op) (ops : List Op)
    (hg : Good K f s) (hc : Clean K (op :: ops)) :
    Good K (registerStep K f op) (step K s op) ∧ Clean K ops := by
  cases op with
  | set l =>
    by_cases hall : ∀ kv ∈ l, kv.2.length ∈ K.accepts
    · have hcl : Clean K ops := by
        cases l with
        | nil => exact hc
        | cons a l => exact hc.2
      refine ⟨?_, hcl⟩
      obtain ⟨h1, h2, h3, h4, h5⟩ := setWeights_ok K l s hall hg.nodup hg.lens
      refine ⟨h3, h4, fun k => ?_, fun d hd => ?_⟩
      · simp only [step, registerStep, if_pos hall, h5]
        rw [show dictGet s.ws = f from funext hg.spec]
      · simp only [step, h2] at hd; cases hd
    · cases l with
      | nil => exact absurd (by simp) hall
      | cons a l =>
        obtain ⟨k, v⟩ := a
        have hv : ¬ v.length ∈ K.accepts := by
          intro hv
          apply hall
          intro kv hkv
          rcases List.mem_cons.mp hkv with rfl | hkv
          · exact hv
          · exact hc.1 hv kv hkv
        refine ⟨?_, hc.2⟩
        have : step K s (.set ((k, v) :: l)) = s := by simp [step, setWeights, hv]
        rw [this, registerStep, if_neg hall]
        exact hg
  | remove key =>
    refine ⟨?_, hc⟩
    simp only [step, removeWeights]
    cases h : dictGet s.ws key with
    | none =>
      simp only
      refine ⟨hg.nodup, hg.lens, fun k => ?_, hg.fresh⟩
      simp only [registerStep]
      split
      · next he => rw [he, h]
      · exact hg.spec k
    | some v =>
      simp only
      obtain ⟨h1, h2⟩ := dictDel_spec s.ws key hg.nodup
      refine ⟨h1, fun kv hkv => ?_, fun k => ?_, fun d hd => by cases hd⟩
      · have hsub : ∀ d : List (String × List ℝ), kv ∈ dictDel d key → kv ∈ d := by
          intro d
          induction d with
          | nil => simp [dictDel]
          | cons b d ih =>
            intro hm
            simp only [dictDel] at hm
            split at hm
            · simp [hm]
            · simp only [List.mem_cons] at hm ⊢
              exact hm.imp id ih
        exact hg.lens kv (hsub _ hkv)
      · simp only [h2, registerStep, hg.spec]
  | read =>
    refine ⟨?_, hc⟩
    simp only [step, readW, registerStep]
    split
    · exact hg
    · split
      · exact hg
      · next d hd => exact ⟨hg.nodup, hg.lens, hg.spec, fun d' h => by cases h; exact hd⟩

theorem good_run (K : Kind) : ∀ (ops : List Op) (f : String → Option (List ℝ)) (s : St),
    Good K f s → Clean K ops → Good K (ops.foldl (registerStep K) f) (run K ops s)
  | [], _, _, hg, _ => hg
  | op :: ops, f, s, hg, hc => by
    obtain ⟨h1, h2⟩ := good_step K f s op ops hg hc
    exact good_run K ops _ _ h1 h2

theorem product_spec (K : Kind) : ∀ ws : List (String × List ℝ), ws ≠ [] →
    (∀ kv ∈ ws, kv.2.length ∈ K.accepts) →
    ∃ p, product K ws = some p ∧ p.length = K.nW ∧
      ∀ j, j < K.nW → p.getD j 0 = (ws.map fun kv => (K.conv kv.2).getD j 0).prod
  | [], h, _ => absurd rfl h
  | [(k, v)], _, hl => by
    refine ⟨_, rfl, K.conv_len v (hl (k, v) (by simp)), fun j _ => by simp⟩
  | (k, v) :: b :: ws, _, hl => by
    obtain ⟨p, h1, h2, h3⟩ := product_spec K (b :: ws) (by simp) (fun kv h => hl kv (by simp [h]))
    have hv := K.conv_len v (hl (k, v) (by simp))
    refine ⟨List.zipWith (· * ·) (K.conv v) p, by simp [product, h1], by simp [h2, hv], ?_⟩
    intro j hj
    have hj1 : j < (K.conv v).length := by omega
    have hj2 : j < p.length := by omega
    rw [List.map_cons, List.prod_cons, ← h3 j hj]
    simp [List.getD_eq_getElem?_getD, List.getElem?_zipWith, List.getElem?_eq_getElem hj1,
      List.getElem?_eq_getElem hj2]

/-- C39 (partial). After any history of `set_weights`, `remove_weights` and evaluations that
contains no `set_weights` call rejected after storing some of its weights: if any weight is
registered, reading `W` gives a diagonal whose squares are, in every entry, the product of the
registered weights (averaged to faces where the class does so), provided that product is not
negative. The registered weights are exactly those of the specification. Missing: a call that is
rejected half-way, see below. -/
theorem C39_weights_partial (K : Kind) (ops : List Op) (hc : Clean K ops)
    (hne : ∃ k, registered K ops k ≠ none) :
    ∃ (l : List (String × List ℝ)) (d : List ℝ), (l.map Prod.fst).Nodup ∧
      (∀ k v, (k, v) ∈ l ↔ registered K ops k = some v) ∧
      (readW K (run K ops ⟨[], none⟩)).1 = .ok d ∧ d.length = K.nW ∧
      ∀ j, j < K.nW → 0 ≤ (l.map fun kv => (K.conv kv.2).getD j 0).prod →
        d.getD j 0 ^ 2 = (l.map fun kv => (K.conv kv.2).getD j 0).prod := by
  have hg : Good K (registered K ops) (run K ops ⟨[], none⟩) :=
    good_run K ops _ _ ⟨by simp, by simp, fun _ => rfl, fun d h => by cases h⟩ hc
  set s := run K ops ⟨[], none⟩ with hs
  have hws : s.ws ≠ [] := by
    intro h0
    obtain ⟨k, hk⟩ := hne
    apply hk
    rw [← hg.spec k, h0]; rfl
  obtain ⟨p, h1, h2, h3⟩ := product_spec K s.ws hws hg.lens
  have hcomp : compute K s.ws = .ok (p.map Real.sqrt) := by simp [compute, h1]
  have hread : (readW K s).1 = .ok (p.map Real.sqrt) := by
    simp only [readW]
    cases hcache : s.cache with
    | some d => exact (hg.fresh d hcache).symm.trans hcomp
    | none => simp [hcomp]
  refine ⟨s.ws, _, hg.nodup, fun k v => ?_, hread, by simp [h2], fun j hj hpos => ?_⟩
  · rw [← hg.spec k]
    constructor
    · intro hm
      obtain ⟨i, hi, he⟩ := List.getElem_of_mem hm
      exact dictGet_of_getElem s.ws hg.nodup i k v (by rw [List.getElem?_eq_getElem hi, he])
    · exact dictGet_mem s.ws k v
  · rw [← h3 j hj] at hpos ⊢
    have hj2 : j < p.length := by omega
    simp only [List.getD_eq_getElem?_getD, List.getElem?_map, List.getElem?_eq_getElem hj2,
      Option.map_some, Option.getD_some] at hpos ⊢
    exact Real.sq_sqrt hpos

/-- C39. Removing a key that is not registered raises `KeyError` and changes nothing. -/
theorem C39_remove_unknown (K : Kind) (ops : List Op) (hc : Clean K ops) (key : String)
    (h : registered K ops key = none) :
    removeWeights key (run K ops ⟨[], none⟩) = (run K ops ⟨[], none⟩, some .keyError) := by
  have hg : Good K (registered K ops) (run K ops ⟨[], none⟩) :=
    good_run K ops _ _ ⟨by simp, by simp, fun _ => rfl, fun d h => by cases h⟩ hc
  rw [removeWeights, hg.spec key, h]

/-- C39. A `set_weights` call that is rejected at its second weight has stored the first one,
but `W` is not recomputed: the registered product is 4 while `W` still has 1. -/
theorem C39_rejected_call_is_stale :
    let K := smallness 1
    let ops := [Op.set [("volume", [1])], .read, .set [("a", [4]), ("b", [1, 1])]]
    let s := run K ops ⟨[], none⟩
    s.ws = [("volume", [1]), ("a", [4])] ∧ (readW K s).1 = .ok [1] ∧
      compute K s.ws = .ok [2] := by
  have h4 : Real.sqrt 4 = 2 := by
    rw [show (4 : ℝ) = 2 ^ 2 by norm_num, Real.sqrt_sq (by norm_num)]
  simp [run, step, setWeights, smallness, dictSet, readW, compute, product, h4]

/-- C39. Removing the last weight makes every later evaluation raise. -/
theorem C39_no_weights_raises (K : Kind) (key : String) (v : List ℝ) (hv : v.length ∈ K.accepts) :
    (readW K (run K [.set [(key, v)], .remove key] ⟨[], none⟩)).1 = .error .exception := by
  simp [run, step, setWeights, hv, dictSet, removeWeights, dictGet, dictDel, readW, compute,
    product]

/-- Two cells, two weights, one replaced after an evaluation; the products are 6 and 8. -/
example : let K := smallness 2
    let ops := [Op.set [("volume", [2, 2]), ("user", [1, 1])], .read, .set [("user", [3, 4])]]
    Clean K ops ∧ registered K ops "user" = some [3, 4] ∧
      ∃ d, (readW K (run K ops ⟨[], none⟩)).1 = .ok d ∧ d.map (· ^ 2) = [6, 8] := by
  refine ⟨by simp [Clean, smallness], by simp [registered, registerStep, smallness], _, rfl, ?_⟩
  norm_num [run, step, setWeights, smallness, dictSet, readW, compute, product]

end Props
end Verif.Reg
