import Verif.Basic
import Mathlib.Tactic.NormNum
import Mathlib.Tactic.Linarith

/-! Model of `Wires` and of `Projection` with a slice (`simpeg/maps/_base.py` 626-740,
1068-1177), with C19. -/

namespace Verif.Maps.Wires
open Verif

/-- One bound of `slice(...).indices(n)`: negative values count from the end, and the result
is clipped to `[0, n]`. -/
def norm (x : Int) (n : Nat) : Nat := if x < 0 then (x + n).toNat else min x.toNat n

/-- `list(range(*slice(start, stop).indices(n)))` (674). -/
def sliceIndices (start stop : Int) (n : Nat) : List Nat :=
  List.range' (norm start n) (norm stop n - norm start n)

/-- `Projection(nP, slice(start, stop))` (667-686): `max(index)` of an empty list raises
ValueError (683). The result is its index list. -/
def mkProjection (nP : Nat) (start stop : Int) : Except Err (List Nat) :=
  let index := sliceIndices start stop nP
  if index = [] then .error .valueError
  else if index.any (fun i => decide (nP ≤ i)) then .error .assertionError
  else .ok index

/-- `Projection._transform` (688-689): `m[self.index]`. -/
def project {α : Type} (index : List Nat) (m : List α) : Except Err (List α) :=
  match index with
  | [] => .ok []
  | i :: is => match m[i]?, project is m with
    | some x, .ok l => .ok (x :: l)
    | none, _ => .error .indexError
    | _, .error e => .error e

/-- A `Wires` object: its `nP` and its named projections (1149-1157). -/
structure WiresObj where
  nP : Nat
  maps : List (String × List Nat)
  deriving DecidableEq

/-- The loop 1150-1156. -/
def buildMaps (nP : Nat) : Int → List (String × Int) → Except Err (List (String × List Nat))
  | _, [] => .ok []
  | start, (name, len) :: args =>
    match mkProjection nP start (start + len) with
    | .error e => .error e
    | .ok w => match buildMaps nP (start + len) args with
      | .error e => .error e
      | .ok l => .ok ((name, w) :: l)

/-- `Wires(*args)` (1135-1159); `validName` is namedtuple's test of field names (an
identifier, not a keyword, no leading underscore); duplicate names raise ValueError too.
With a negative total, `slice.indices` raises ValueError. -/
def mkWires (validName : String → Bool) (args : List (String × Int)) : Except Err WiresObj :=
  let nP := (args.map Prod.snd).sum
  if nP < 0 then .error .valueError
  else match buildMaps nP.toNat 0 args with
  | .error e => .error e
  | .ok maps =>
    if args.all (fun a => validName a.1) ∧ (args.map Prod.fst).Nodup then
      .ok ⟨nP.toNat, maps⟩
    else .error .valueError

/-- `wires * val` (1161-1166): `w * val` checks the length (239-246). -/
def apply {α : Type} (m : List α) (nP : Nat) :
    List (String × List Nat) → Except Err (List (String × List α))
  | [] => .ok []
  | (name, idx) :: maps =>
    if m.length = nP then match project idx m with
      | .error e => .error e
      | .ok x => match apply m nP maps with
        | .error e => .error e
        | .ok l => .ok ((name, x) :: l)
    else .error .valueError

namespace Props

theorem mkProjection_ok_iff (nP : Nat) (start stop : Int) (w : List Nat) :
    mkProjection nP start stop = .ok w ↔
      norm start nP < norm stop nP ∧ w = List.range' (norm start nP) (norm stop nP - norm start nP) := by
  unfold mkProjection sliceIndices
  simp only
  have hn : norm stop nP ≤ nP ∨ stop < 0 := by
    unfold norm; split
    · right; assumption
    · left; omega
  split
  · next h =>
    simp only [List.range'_eq_nil_iff] at h
    simp only [reduceCtorEq, false_iff, not_and]
    intro h'; omega
  · next h =>
    simp only [List.range'_eq_nil_iff] at h
    have hb : norm stop nP ≤ nP := by
      unfold norm; split <;> omega
    have : (List.range' (norm start nP) (norm stop nP - norm start nP)).any
        (fun i => decide (nP ≤ i)) = false := by
      simp only [List.any_eq_false, List.mem_range'_1, decide_eq_true_eq]
      intro i hi; omega
    rw [if_neg (by simp [this])]
    simp only [Except.ok.injEq]
    constructor
    · intro e; exact ⟨by omega, e.symm⟩
    · intro e; exact e.2.symm

theorem buildMaps_spec (nP : Nat) : ∀ (args : List (String × Int)) (start : Int)
    (l : List (String × List Nat)), buildMaps nP start args = .ok l →
    norm start nP ≤ norm (start + (args.map Prod.snd).sum) nP ∧
    (l.map Prod.snd).flatten = List.range' (norm start nP)
      (norm (start + (args.map Prod.snd).sum) nP - norm start nP) ∧
    l.map Prod.fst = args.map Prod.fst
  | [], start, l, h => by
    simp only [buildMaps, Except.ok.injEq] at h
    subst h
    simp
  | (name, len) :: args, start, l, h => by
    simp only [buildMaps] at h
    split at h
    · cases h
    · next w hw =>
      split at h
      · cases h
      · next l' hl' =>
        cases h
        obtain ⟨h1, h2, h3⟩ := buildMaps_spec nP args _ l' hl'
        obtain ⟨h4, rfl⟩ := (mkProjection_ok_iff _ _ _ _).mp hw
        simp only [List.map_cons, List.sum_cons, ← add_assoc]
        refine ⟨by omega, ?_, by rw [h3]⟩
        rw [List.flatten_cons, h2]
        have hsum : norm (start + len + (args.map Prod.snd).sum) nP - norm start nP
            = (norm (start + len) nP - norm start nP) +
              (norm (start + len + (args.map Prod.snd).sum) nP - norm (start + len) nP) := by
          omega
        rw [hsum, ← List.range'_append_1]
        congr 2
        omega

/-- C19. The index lists of an accepted `Wires` object, concatenated in order, are exactly
`0, 1, ..., nP-1`: the wires select contiguous, pairwise disjoint, order-preserving blocks
that cover the whole model. Names are kept, in order and without duplicates. -/
theorem C19_partition (validName : String → Bool) (args : List (String × Int)) (w : WiresObj)
    (h : mkWires validName args = .ok w) :
    (w.maps.map Prod.snd).flatten = List.range w.nP ∧ (w.nP : Int) = (args.map Prod.snd).sum ∧
    w.maps.map Prod.fst = args.map Prod.fst ∧ (w.maps.map Prod.fst).Nodup := by
  unfold mkWires at h
  simp only at h
  split at h
  · cases h
  · next hneg =>
    split at h
    · cases h
    · next maps hm =>
      split at h
      · next hv =>
        cases h
        obtain ⟨h1, h2, h3⟩ := buildMaps_spec _ _ _ _ hm
        refine ⟨?_, by simp; omega, h3, by simp only [h3]; exact hv.2⟩
        simp only
        rw [h2, List.range_eq_range']
        have e0 : norm 0 (args.map Prod.snd).sum.toNat = 0 := by simp [norm]
        have e1 : norm (0 + (args.map Prod.snd).sum) (args.map Prod.snd).sum.toNat
            = (args.map Prod.snd).sum.toNat := by
          rw [zero_add, norm, if_neg hneg, min_self]
        rw [e0, e1, Nat.sub_zero]
      · cases h

theorem project_range' {α : Type} (m : List α) : ∀ (len s : Nat), s + len ≤ m.length →
    project (List.range' s len) m = .ok ((m.drop s).take len)
  | 0, s, _ => by simp [project]
  | len + 1, s, h => by
    rw [List.range'_succ, project, project_range' m len (s + 1) (by omega)]
    rw [List.getElem?_eq_getElem (by omega)]
    simp only [Except.ok.injEq]
    rw [List.drop_eq_getElem_cons (i := s) (by omega), List.take_succ_cons]

theorem project_bounded {α : Type} (m : List α) : ∀ (idx : List Nat), (∀ i ∈ idx, i < m.length) →
    ∃ l, project idx m = .ok l ∧ l.map some = idx.map (fun i => m[i]?)
  | [], _ => ⟨[], rfl, rfl⟩
  | i :: is, h => by
    obtain ⟨l, hl, he⟩ := project_bounded m is (fun j hj => h j (by simp [hj]))
    have hi := h i (by simp)
    refine ⟨m[i] :: l, ?_, ?_⟩
    · rw [project, hl, List.getElem?_eq_getElem hi]
    · simp [he, List.getElem?_eq_getElem hi]

/-- C19. Applying the wires to a model of length `nP` succeeds, gives one block per wire, and
the blocks concatenated are the model; a model of any other length is rejected (if there is
a wire at all). -/
theorem C19_apply (validName : String → Bool) (args : List (String × Int)) (w : WiresObj)
    (h : mkWires validName args = .ok w) {α : Type} (m : List α) :
    (m.length = w.nP → ∃ out, apply m w.nP w.maps = .ok out ∧
      out.map Prod.fst = args.map Prod.fst ∧ (out.map Prod.snd).flatten = m ∧
      (out.map fun p => p.2.length) = w.maps.map fun p => p.2.length) ∧
    (m.length ≠ w.nP → args ≠ [] → apply m w.nP w.maps = .error .valueError) := by
  obtain ⟨h1, h2, h3, h4⟩ := C19_partition validName args w h
  constructor
  · intro hm
    have key : ∀ maps : List (String × List Nat), (∀ i ∈ (maps.map Prod.snd).flatten, i < m.length) →
        ∃ out, apply m w.nP maps = .ok out ∧ out.map Prod.fst = maps.map Prod.fst ∧
          (out.map Prod.snd).flatten.map some = (maps.map Prod.snd).flatten.map (fun i => m[i]?) ∧
          (out.map fun p => p.2.length) = maps.map fun p => p.2.length := by
      intro maps
      induction maps with
      | nil => intro _; exact ⟨[], rfl, rfl, rfl, rfl⟩
      | cons p maps ih =>
        intro hb
        simp only [List.map_cons, List.flatten_cons, List.mem_append] at hb
        obtain ⟨out, ho, hf, hs, hl⟩ := ih (fun i hi => hb i (Or.inr hi))
        obtain ⟨x, hx, hxs⟩ := project_bounded m p.2 (fun i hi => hb i (Or.inl hi))
        refine ⟨(p.1, x) :: out, ?_, ?_, ?_, ?_⟩
        · obtain ⟨name, idx⟩ := p
          simp only at hx
          simp only [apply, hm, if_true, hx, ho]
        · simp [hf]
        · simp only [List.map_cons, List.flatten_cons, List.map_append, hxs, hs]
        · have := congrArg List.length hxs
          simp only [List.length_map] at this
          simp [hl, this]
    obtain ⟨out, ho, hf, hs, hl⟩ := key w.maps (by rw [h1, hm]; simp)
    refine ⟨out, ho, by rw [hf, h3], ?_, hl⟩
    rw [h1, ← hm] at hs
    have e : (List.range m.length).map (fun i => m[i]?) = m.map some := by
      apply List.ext_getElem?
      intro i
      by_cases hi : i < m.length
      · simp [hi]
      · simp at hi
        simp [hi]
    rw [e] at hs
    have inj : Function.Injective (some : α → Option α) := fun a b h => Option.some.inj h
    exact (List.map_inj_right (fun _ _ h => inj h)).mp hs
  · intro hm ha
    cases hw : w.maps with
    | nil => rw [hw] at h3; simp at h3; exact absurd h3 ha
    | cons p l => obtain ⟨name, idx⟩ := p; simp [apply, hm]

/-- C19. Positive sizes and distinct valid names are always accepted, and then block number
`k` has exactly the declared size. -/
theorem C19_accepts (validName : String → Bool) (args : List (String × Nat))
    (hpos : ∀ a ∈ args, 0 < a.2) (hv : ∀ a ∈ args, validName a.1 = true)
    (hd : (args.map Prod.fst).Nodup) :
    ∃ w, mkWires validName (args.map fun a => (a.1, (a.2 : Int))) = .ok w ∧
      w.maps.map (fun p => p.2.length) = args.map Prod.snd ∧ w.nP = (args.map Prod.snd).sum := by
  have hsum : ((args.map fun a => (a.1, (a.2 : Int))).map Prod.snd).sum
      = (((args.map Prod.snd).sum : Nat) : Int) := by
    induction args with
    | nil => rfl
    | cons a args ih =>
      simp only [List.map_cons, List.sum_cons] at ih ⊢
      rw [ih (fun b hb => hpos b (by simp [hb])) (fun b hb => hv b (by simp [hb]))
        (by simp at hd; exact hd.2)]
      push_cast; rfl
  have key : ∀ (l : List (String × Nat)) (nP start : Nat), (∀ a ∈ l, 0 < a.2) →
      start + (l.map Prod.snd).sum ≤ nP →
      ∃ maps, buildMaps nP start (l.map fun a => (a.1, (a.2 : Int))) = .ok maps ∧
        maps.map (fun p => p.2.length) = l.map Prod.snd := by
    intro l nP
    induction l with
    | nil => intro start _ _; exact ⟨[], rfl, rfl⟩
    | cons a l ih =>
      intro start hp hs
      simp only [List.map_cons, List.sum_cons] at hs
      have ha := hp a (by simp)
      obtain ⟨maps, hm, hl⟩ := ih (start + a.2) (fun b hb => hp b (by simp [hb])) (by omega)
      have n1 : norm (start : Int) nP = start := by rw [norm, if_neg (by omega)]; omega
      have n2 : norm ((start : Int) + (a.2 : Int)) nP = start + a.2 := by
        rw [norm, if_neg (by omega)]; omega
      refine ⟨(a.1, List.range' start a.2) :: maps, ?_, ?_⟩
      · simp only [List.map_cons, buildMaps]
        rw [(mkProjection_ok_iff nP start (start + a.2) (List.range' start a.2)).mpr
          ⟨by omega, by rw [n1, n2]; congr 1; omega⟩]
        push_cast at hm
        rw [hm]
      · simp [hl]
  obtain ⟨maps, hm, hl⟩ := key args (args.map Prod.snd).sum 0 hpos (by omega)
  refine ⟨⟨(args.map Prod.snd).sum, maps⟩, ?_, hl, rfl⟩
  unfold mkWires
  simp only [hsum, Int.toNat_natCast]
  rw [if_neg (by omega)]
  simp only [Nat.cast_zero] at hm
  rw [hm]
  simp only
  rw [if_pos]
  refine ⟨?_, ?_⟩
  · simp only [List.all_eq_true, List.mem_map, forall_exists_index, and_imp]
    rintro _ a ha rfl
    exact hv a ha
  · rw [List.map_map]
    exact hd

example : mkWires (fun _ => true) [("sigma", 2), ("thick", 3)]
    = .ok ⟨5, [("sigma", [0, 1]), ("thick", [2, 3, 4])]⟩ := by decide

example : apply [7, 8, 9, 4, 5] 5 [("sigma", [0, 1]), ("thick", [2, 3, 4])]
    = .ok [("sigma", [7, 8]), ("thick", [9, 4, 5])] := by decide

/-- Empty wires are rejected. -/
example : mkWires (fun _ => true) [("a", 2), ("b", 0)] = .error .valueError := by decide

end Props
end Verif.Maps.Wires
