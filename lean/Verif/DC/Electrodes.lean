import Verif.Basic
import Mathlib.Algebra.BigOperators.Group.List.Basic
import Mathlib.Algebra.BigOperators.Fin
import Mathlib.Algebra.BigOperators.Ring.Finset
import Mathlib.Data.List.Dedup
import Mathlib.Data.Real.Basic
import Mathlib.Data.Fintype.BigOperators
import Mathlib.Tactic.Linarith
import Mathlib.Tactic.Ring
import Mathlib.Tactic.NormNum
import Mathlib.Tactic.IntervalCases

/-!
Electrode locations of resistivity surveys, draping on topography, and the source terms
(`simpeg/electromagnetics/static/resistivity/survey.py` 76-166, 196-365, `sources.py`).
-/

namespace Verif.DC.Electrodes

/-- Sources (`sources.py` 107-272); locations are of any type. -/
inductive Src (L : Type)
  | pole (a : L)
  | dipole (a b : L)
  | multipole (as : List L)

/-- Receivers (`receivers.py` 247-480). -/
inductive Rx (L : Type)
  | pole (ms : List L)
  | dipole (ms ns : List L)

/-- `rx.nD` (`receivers.py` 369-376, 451-458). -/
def Rx.nD {L : Type} : Rx L → Nat
  | .pole ms => ms.length
  | .dipole ms _ => ms.length

/-- A survey: sources with their receivers. -/
abbrev Survey (L : Type) := List (Src L × List (Rx L))

/-- What `_set_abmn_locations` appends to `locations_a` for one receiver (202-222). -/
def aRows {L : Type} (s : Src L) (n : Nat) : List L :=
  match s with
  | .pole a => List.replicate n a
  | .dipole a _ => List.replicate n a
  | .multipole as => (List.replicate n as).flatten

/-- The same for `locations_b`. -/
def bRows {L : Type} (s : Src L) (n : Nat) : List L :=
  match s with
  | .pole a => List.replicate n a
  | .dipole _ b => List.replicate n b
  | .multipole as => (List.replicate n as).flatten

/-- The same for `locations_m` (223-231). -/
def mRows {L : Type} : Rx L → List L
  | .pole ms => ms
  | .dipole ms _ => ms

/-- The same for `locations_n`. -/
def nRows {L : Type} : Rx L → List L
  | .pole ms => ms
  | .dipole _ ns => ns

/-- The four arrays. -/
structure Abmn (L : Type) where
  a : List L
  b : List L
  m : List L
  n : List L

/-- `_set_abmn_locations` (196-236). -/
def abmn {L : Type} (S : Survey L) : Abmn L :=
  { a := S.flatMap fun x => x.2.flatMap fun r => aRows x.1 r.nD
    b := S.flatMap fun x => x.2.flatMap fun r => bRows x.1 r.nD
    m := S.flatMap fun x => x.2.flatMap mRows
    n := S.flatMap fun x => x.2.flatMap nRows }

/-- The shifted locations (317-341): the horizontal parts of all electrodes, without repetition, are
shifted and distributed again by the inverse indices.  `np.unique` also sorts, which has no effect on
the result. -/
def shiftRows {L P : Type} [DecidableEq P] [Inhabited L] (proj : L → P) (shift : P → L)
    (all rows : List L) : List L :=
  let u := (all.map proj).dedup
  rows.map fun x => (u.map shift).getD (u.idxOf (proj x)) default

/-- The loop over the receivers of a source (349-356), `ind` counts data. -/
def drapeRx {L : Type} (m n : List L) : Nat → List (Rx L) → List (Rx L) × Nat
  | ind, [] => ([], ind)
  | ind, r :: rs =>
    let ml := (m.drop ind).take r.nD
    let nl := (n.drop ind).take r.nD
    let r' := match r with
      | .pole _ => .pole ml
      | .dipole _ _ => .dipole ml nl
    let rest := drapeRx m n (ind + r.nD) rs
    (r' :: rest.1, rest.2)

/-- The loop over sources (343-356); an index past the end raises IndexError. -/
def drapeLoop {L : Type} (t : Abmn L) : Nat → Survey L → Except Err (Survey L)
  | _, [] => .ok []
  | ind, (s, rs) :: S =>
    match t.a[ind]?, t.b[ind]? with
    | some a, some b =>
      let s' := match s with
        | .pole _ => .pole a
        | .multipole _ => .multipole [a]
        | .dipole _ _ => .dipole a b
      let r := drapeRx t.m t.n ind rs
      match drapeLoop t r.2 S with
      | .error e => .error e
      | .ok S' => .ok ((s', r.1) :: S')
    | _, _ => .error .indexError

/-- The survey object: sources, and the kept arrays (`_locations_a` and the others are always set
together). -/
structure Obj (L : Type) where
  sources : Survey L
  kept : Option (Abmn L) := none

/-- Reading the arrays (76-127). -/
def Obj.read {L : Type} (o : Obj L) : Obj L × Abmn L :=
  match o.kept with
  | some t => (o, t)
  | none => ({ o with kept := some (abmn o.sources) }, abmn o.sources)

/-- `drape_electrodes_on_topography` for surface surveys (316-360); `shift` is
`shift_to_discrete_topography`, which works point by point. -/
def Obj.drape {L P : Type} [DecidableEq P] [Inhabited L] (proj : L → P) (shift : P → L) (o : Obj L) :
    Except Err (Obj L) :=
  let (o, t) := o.read
  let all := t.a ++ t.b ++ t.m ++ t.n
  let t' : Abmn L := ⟨shiftRows proj shift all t.a, shiftRows proj shift all t.b,
    shiftRows proj shift all t.m, shiftRows proj shift all t.n⟩
  match drapeLoop t' 0 o.sources with
  | .error e => .error e
  | .ok S => .ok ⟨S, some t'⟩

/-- `survey.source_list = ...` (`survey.py` of the package, 436-441). -/
def Obj.setSources {L : Type} (o : Obj L) (S : Survey L) : Obj L := { o with sources := S }

/-! ### Source terms -/

/-- The attributes of a source term: one row of interpolation weights or one cell index for each
electrode. -/
structure SrcTerm (c : Type) where
  electrodes : Nat
  current : List ℝ

/-- `current.setter` (`sources.py` 54-62): one current, or one for every electrode. -/
def SrcTerm.valid {c : Type} (s : SrcTerm c) : Prop :=
  s.current.length = 1 ∨ s.current.length = s.electrodes

/-- The currents after broadcasting (79, 85). -/
def SrcTerm.cur {c : Type} (s : SrcTerm c) (k : Nat) : ℝ :=
  if s.current.length = 1 then s.current.getD 0 0 else s.current.getD k 0

/-- `q = np.zeros(nC); q[inds] = self.current` (76-79): assignments in the order of the electrodes. -/
noncomputable def evalHJ {c : Type} [DecidableEq c] (s : SrcTerm c) (inds : Nat → c) : c → ℝ :=
  (List.range s.electrodes).foldl (fun q k => Function.update q (inds k) (s.cur k)) 0

/-- `np.sum(cur[:, np.newaxis] * interpolation_matrix, axis=0)` (80-86). -/
noncomputable def evalEB {c : Type} (s : SrcTerm c) (P : Nat → c → ℝ) : c → ℝ := fun i =>
  ((List.range s.electrodes).map fun k => s.cur k * P k i).sum

/-- `Dipole.__init__` (198-202): the currents of A and B. -/
def dipoleTerm (c : Type) (I : ℝ) : SrcTerm c := ⟨2, [I, -I]⟩

end Verif.DC.Electrodes

namespace Verif.DC.Electrodes.Props
open Verif.DC.Electrodes

variable {L : Type}

/-! ### Specification -/

/-- The electrodes of a datum: A, B, M, N, where a pole has its only electrode twice. -/
def srcPair : Src L → Option (L × L)
  | .pole a => some (a, a)
  | .dipole a b => some (a, b)
  | .multipole _ => none

def rxPairs : Rx L → List (L × L)
  | .pole ms => ms.map fun m => (m, m)
  | .dipole ms ns => ms.zip ns

/-- The electrodes of all data of a survey, in the order of the data. -/
def dataOf (S : Survey L) : List (L × L × L × L) :=
  S.flatMap fun x => x.2.flatMap fun r => match srcPair x.1 with
    | some (a, b) => (rxPairs r).map fun mn => (a, b, mn.1, mn.2)
    | none => []

/-- Poles and dipoles only; the two arrays of a dipole receiver have the same length (checked by its
setter). -/
def Good (S : Survey L) : Prop :=
  ∀ x ∈ S, (srcPair x.1).isSome ∧ ∀ r ∈ x.2, match r with
    | .pole _ => True
    | .dipole ms ns => ms.length = ns.length

/-- A survey with every electrode moved. -/
def move (f : L → L) (S : Survey L) : Survey L :=
  S.map fun x => (match x.1 with
      | .pole a => .pole (f a)
      | .dipole a b => .dipole (f a) (f b)
      | .multipole as => .multipole (as.map f),
    x.2.map fun r => match r with
      | .pole ms => .pole (ms.map f)
      | .dipole ms ns => .dipole (ms.map f) (ns.map f))

/-! ### Locations -/

/-- One receiver: four arrays of the same length, columns of the data. -/
theorem rows_rx (s : Src L) (r : Rx L) (a b : L) (hs : srcPair s = some (a, b))
    (hr : match r with | .pole _ => True | .dipole ms ns => ms.length = ns.length) :
    aRows s r.nD = (rxPairs r).map (fun _ => a) ∧ bRows s r.nD = (rxPairs r).map (fun _ => b) ∧
      mRows r = (rxPairs r).map Prod.fst ∧ nRows r = (rxPairs r).map Prod.snd ∧
      (rxPairs r).length = r.nD := by
  have hlen : (rxPairs r).length = r.nD := by
    cases r with
    | pole ms => simp [rxPairs, Rx.nD]
    | dipole ms ns => simp only at hr; simp [rxPairs, Rx.nD, hr]
  refine ⟨?_, ?_, ?_, ?_, hlen⟩
  · rw [List.map_const', hlen]
    cases s <;> simp_all [srcPair, aRows]
  · rw [List.map_const', hlen]
    cases s with
    | pole x =>
      simp only [srcPair, Option.some.injEq, Prod.mk.injEq] at hs
      simp only [bRows, hs.2]
    | dipole x y =>
      simp only [srcPair, Option.some.injEq, Prod.mk.injEq] at hs
      simp only [bRows, hs.2]
    | multipole _ => simp [srcPair] at hs
  · cases r with
    | pole ms => simp [rxPairs, mRows, Function.comp_def]
    | dipole ms ns =>
      simp only at hr
      simp only [rxPairs, mRows]
      rw [List.map_fst_zip (by omega)]
  · cases r with
    | pole ms => simp [rxPairs, nRows, Function.comp_def]
    | dipole ms ns =>
      simp only at hr
      simp only [rxPairs, nRows]
      rw [List.map_snd_zip (by omega)]

/-- **C114.** For surveys of poles and dipoles the four arrays have one row for each datum, in the order
of the data, holding its electrodes. -/
theorem C114_rows (S : Survey L) (hS : Good S) :
    (abmn S).a = (dataOf S).map (fun e => e.1) ∧ (abmn S).b = (dataOf S).map (fun e => e.2.1) ∧
    (abmn S).m = (dataOf S).map (fun e => e.2.2.1) ∧ (abmn S).n = (dataOf S).map (fun e => e.2.2.2) ∧
    (dataOf S).length = (S.map fun x => (x.2.map Rx.nD).sum).sum := by
  have key : ∀ x ∈ S, ∀ r ∈ x.2, ∃ D : List (L × L × L × L),
      (match srcPair x.1 with
        | some (a, b) => (rxPairs r).map fun mn => (a, b, mn.1, mn.2)
        | none => []) = D ∧ aRows x.1 r.nD = D.map (fun e => e.1) ∧
      bRows x.1 r.nD = D.map (fun e => e.2.1) ∧ mRows r = D.map (fun e => e.2.2.1) ∧
      nRows r = D.map (fun e => e.2.2.2) ∧ D.length = r.nD := by
    intro x hx r hr
    obtain ⟨h1, h2⟩ := hS x hx
    obtain ⟨⟨a, b⟩, hab⟩ := Option.isSome_iff_exists.1 h1
    obtain ⟨e1, e2, e3, e4, e5⟩ := rows_rx x.1 r a b hab (h2 r hr)
    refine ⟨_, by rw [hab], ?_, ?_, ?_, ?_, ?_⟩ <;>
      simp [List.map_map, Function.comp_def, e1, e2, e3, e4, e5]
  have fl : ∀ {α : Type} (f : Src L → Rx L → List α) (p : L × L × L × L → α)
      (_ : ∀ x ∈ S, ∀ r ∈ x.2, f x.1 r = (match srcPair x.1 with
        | some (a, b) => (rxPairs r).map fun mn => (a, b, mn.1, mn.2)
        | none => [] : List (L × L × L × L)).map p),
      (S.flatMap fun x => x.2.flatMap fun r => f x.1 r) = (dataOf S).map p := by
    intro α f p h
    unfold dataOf
    rw [List.map_flatMap]
    apply List.flatMap_congr
    intro x hx
    rw [List.map_flatMap]
    apply List.flatMap_congr
    intro r hr
    exact h x hx r hr
  refine ⟨fl (fun s r => aRows s r.nD) _ ?_, fl (fun s r => bRows s r.nD) _ ?_,
    fl (fun _ r => mRows r) _ ?_, fl (fun _ r => nRows r) _ ?_, ?_⟩
  · intro x hx r hr; obtain ⟨D, hD, h⟩ := key x hx r hr; rw [hD]; exact h.1
  · intro x hx r hr; obtain ⟨D, hD, h⟩ := key x hx r hr; rw [hD]; exact h.2.1
  · intro x hx r hr; obtain ⟨D, hD, h⟩ := key x hx r hr; rw [hD]; exact h.2.2.1
  · intro x hx r hr; obtain ⟨D, hD, h⟩ := key x hx r hr; rw [hD]; exact h.2.2.2.1
  · unfold dataOf
    rw [List.length_flatMap]
    congr 1
    apply List.map_congr_left
    intro x hx
    rw [List.length_flatMap]
    congr 1
    apply List.map_congr_left
    intro r hr
    obtain ⟨D, hD, h⟩ := key x hx r hr
    rw [hD]; exact h.2.2.2.2

/-- Distributing the shifted locations gives the shifted location of every electrode. -/
theorem shiftRows_eq {P : Type} [DecidableEq P] [Inhabited L] (proj : L → P) (shift : P → L)
    (all rows : List L) (h : ∀ x ∈ rows, x ∈ all) :
    shiftRows proj shift all rows = rows.map fun x => shift (proj x) := by
  unfold shiftRows
  apply List.map_congr_left
  intro x hx
  have hm : proj x ∈ (all.map proj).dedup := List.mem_dedup.2 (List.mem_map_of_mem (h x hx))
  have hl := List.idxOf_lt_length_of_mem hm
  simp only [List.getD_eq_getElem?_getD, List.getElem?_map, List.getElem?_eq_getElem hl,
    List.getElem_idxOf hl, Option.map_some, Option.getD_some]

theorem drapeRx_eq (f : L → L) (pm pn qm qn : List L) (hp : pm.length = pn.length) (rs : List (Rx L))
    (hr : ∀ r ∈ rs, match r with | .pole _ => True | .dipole ms ns => ms.length = ns.length) :
    drapeRx (pm ++ ((rs.flatMap mRows).map f ++ qm)) (pn ++ ((rs.flatMap nRows).map f ++ qn)) pm.length
      rs = (rs.map fun r => match r with
        | .pole ms => .pole (ms.map f)
        | .dipole ms ns => .dipole (ms.map f) (ns.map f), pm.length + (rs.map Rx.nD).sum) := by
  induction rs generalizing pm pn with
  | nil => simp [drapeRx]
  | cons r rs ih =>
    have hr' := hr r List.mem_cons_self
    have hm : (mRows r).length = r.nD := by cases r <;> rfl
    have hn : (nRows r).length = r.nD := by
      cases r with
      | pole ms => rfl
      | dipole ms ns => simp only at hr'; simp [nRows, Rx.nD, hr']
    have ih' := ih (pm ++ (mRows r).map f) (pn ++ (nRows r).map f) (by simp [hp, hm, hn])
      (fun r' h' => hr r' (List.mem_cons_of_mem _ h'))
    simp only [List.length_append, List.length_map, hm, List.append_assoc] at ih'
    simp only [drapeRx, List.flatMap_cons, List.map_append, List.append_assoc, ih', List.map_cons,
      List.sum_cons, Prod.mk.injEq, List.cons.injEq, and_true]
    refine ⟨?_, by omega⟩
    have e1 : (pm ++ ((mRows r).map f ++ ((rs.flatMap mRows).map f ++ qm))).drop pm.length =
        (mRows r).map f ++ ((rs.flatMap mRows).map f ++ qm) := List.drop_left
    have e2 : (pn ++ ((nRows r).map f ++ ((rs.flatMap nRows).map f ++ qn))).drop pm.length =
        (nRows r).map f ++ ((rs.flatMap nRows).map f ++ qn) := by rw [hp]; exact List.drop_left
    rw [e1, e2, List.take_left' (by simp [hm]), List.take_left' (by simp [hn])]
    cases r <;> rfl

/-- Number of data of a source. -/
def nData (x : Src L × List (Rx L)) : Nat := (x.2.map Rx.nD).sum

theorem rows_src (s : Src L) (rs : List (Rx L)) (a b : L) (hs : srcPair s = some (a, b)) :
    (rs.flatMap fun r => aRows s r.nD) = List.replicate (rs.map Rx.nD).sum a ∧
    (rs.flatMap fun r => bRows s r.nD) = List.replicate (rs.map Rx.nD).sum b := by
  induction rs with
  | nil => simp
  | cons r rs ih =>
    simp only [List.flatMap_cons, ih.1, ih.2, List.map_cons, List.sum_cons, List.replicate_add]
    cases s with
    | pole x =>
      simp only [srcPair, Option.some.injEq, Prod.mk.injEq] at hs
      simp only [aRows, bRows]
      exact ⟨by rw [hs.1], by rw [hs.2]⟩
    | dipole x y =>
      simp only [srcPair, Option.some.injEq, Prod.mk.injEq] at hs
      simp only [aRows, bRows]
      exact ⟨by rw [hs.1], by rw [hs.2]⟩
    | multipole _ => simp [srcPair] at hs

theorem drapeLoop_eq (f : L → L) (S : Survey L) (hS : Good S) (hn : ∀ x ∈ S, 0 < nData x)
    (pa pb pm pn : List L) (hb : pa.length = pb.length) (hm : pa.length = pm.length)
    (hnn : pa.length = pn.length) :
    drapeLoop ⟨pa ++ (abmn S).a.map f, pb ++ (abmn S).b.map f, pm ++ (abmn S).m.map f,
      pn ++ (abmn S).n.map f⟩ pa.length S = .ok (move f S) := by
  induction S generalizing pa pb pm pn with
  | nil => rfl
  | cons x S ih =>
    obtain ⟨s, rs⟩ := x
    have hx := hS (s, rs) List.mem_cons_self
    have hpos : 0 < (rs.map Rx.nD).sum := hn (s, rs) List.mem_cons_self
    obtain ⟨⟨a, b⟩, hab⟩ := Option.isSome_iff_exists.1 hx.1
    have hml : ∀ rs' : List (Rx L), (rs'.flatMap mRows).length = (rs'.map Rx.nD).sum := by
      intro rs'
      rw [List.length_flatMap]
      congr 1
      apply List.map_congr_left
      intro r _
      cases r <;> rfl
    have hnl : (rs.flatMap nRows).length = (rs.map Rx.nD).sum := by
      rw [List.length_flatMap]
      congr 1
      apply List.map_congr_left
      intro r hr
      have := hx.2 r hr
      cases r with
      | pole ms => rfl
      | dipole ms ns => simp only at this; simp [nRows, Rx.nD, this]
    obtain ⟨hA, hB⟩ := rows_src s rs a b hab
    have ih' := ih (fun y hy => hS y (List.mem_cons_of_mem _ hy))
      (fun y hy => hn y (List.mem_cons_of_mem _ hy))
      (pa ++ (List.replicate (rs.map Rx.nD).sum a).map f)
      (pb ++ (List.replicate (rs.map Rx.nD).sum b).map f)
      (pm ++ (rs.flatMap mRows).map f) (pn ++ (rs.flatMap nRows).map f)
      (by simp [hb]) (by simp [hm, hml]) (by simp [hnn, hnl])
    simp only [List.append_assoc, List.length_append, List.length_map, List.length_replicate] at ih'
    have hd := drapeRx_eq f pm pn ((S.flatMap fun x => x.2.flatMap mRows).map f)
      ((S.flatMap fun x => x.2.flatMap nRows).map f) (hm.symm.trans hnn) rs hx.2
    rw [← hm] at hd
    have ga : (pa ++ ((List.replicate (rs.map Rx.nD).sum a).map f ++ (abmn S).a.map f))[pa.length]? =
        some (f a) := by
      rw [List.getElem?_append_right (le_refl _), Nat.sub_self, List.getElem?_append_left (by simpa),
        List.getElem?_map, List.getElem?_replicate]
      simp [hpos]
    have gb : (pb ++ ((List.replicate (rs.map Rx.nD).sum b).map f ++ (abmn S).b.map f))[pa.length]? =
        some (f b) := by
      rw [hb, List.getElem?_append_right (le_refl _), Nat.sub_self,
        List.getElem?_append_left (by simpa), List.getElem?_map, List.getElem?_replicate]
      simp [hpos]
    have ea : (abmn ((s, rs) :: S)).a = List.replicate (rs.map Rx.nD).sum a ++ (abmn S).a := by
      simp only [abmn, List.flatMap_cons, hA]
    have eb : (abmn ((s, rs) :: S)).b = List.replicate (rs.map Rx.nD).sum b ++ (abmn S).b := by
      simp only [abmn, List.flatMap_cons, hB]
    have em : (abmn ((s, rs) :: S)).m = rs.flatMap mRows ++ (abmn S).m := by
      simp only [abmn, List.flatMap_cons]
    have en : (abmn ((s, rs) :: S)).n = rs.flatMap nRows ++ (abmn S).n := by
      simp only [abmn, List.flatMap_cons]
    simp only [drapeLoop, ea, eb, em, en, List.map_append]
    have hd' : drapeRx (pm ++ ((rs.flatMap mRows).map f ++ (abmn S).m.map f))
        (pn ++ ((rs.flatMap nRows).map f ++ (abmn S).n.map f)) pa.length rs = _ := hd
    simp only [ga, gb, hd', ih']
    cases s with
    | pole a' => simp only [srcPair, Option.some.injEq, Prod.mk.injEq] at hab; simp [move, hab.1]
    | dipole a' b' =>
      simp only [srcPair, Option.some.injEq, Prod.mk.injEq] at hab
      simp [move, hab.1, hab.2]
    | multipole _ => simp [srcPair] at hab

theorem abmn_move (f : L → L) (S : Survey L) : (abmn (move f S)).a = (abmn S).a.map f ∧
    (abmn (move f S)).b = (abmn S).b.map f ∧ (abmn (move f S)).m = (abmn S).m.map f ∧
    (abmn (move f S)).n = (abmn S).n.map f := by
  have hnD : ∀ r : Rx L, (match r with
      | .pole ms => .pole (ms.map f)
      | .dipole ms ns => .dipole (ms.map f) (ns.map f) : Rx L).nD = r.nD := by
    intro r; cases r <;> simp [Rx.nD]
  refine ⟨?_, ?_, ?_, ?_⟩ <;> simp only [abmn, move, List.flatMap_map, List.map_flatMap] <;>
    apply List.flatMap_congr <;> intro x _ <;> apply List.flatMap_congr <;> intro r _
  · rw [hnD]
    cases x.1 <;> simp [aRows, List.map_flatten]
  · rw [hnD]
    cases x.1 <;> simp [bRows, List.map_flatten]
  · cases r <;> rfl
  · cases r <;> rfl

/-- **C114, part.** Draping a survey of poles and dipoles in which every source has data moves every
electrode to its shifted location, keeps sources, receivers and their order, and the arrays of the survey
are those of the moved survey.  Missing: sources without data and multipoles, see below. -/
theorem C114_drape_partial {P : Type} [DecidableEq P] [Inhabited L] (proj : L → P) (shift : P → L)
    (o : Obj L) (hk : o.kept = none ∨ o.kept = some (abmn o.sources)) (hS : Good o.sources)
    (hn : ∀ x ∈ o.sources, 0 < nData x) :
    ∃ o', o.drape proj shift = .ok o' ∧ o'.sources = move (fun x => shift (proj x)) o.sources ∧
      o'.read.2 = abmn o'.sources := by
  have hread : o.read = ({ o with kept := some (abmn o.sources) }, abmn o.sources) := by
    obtain ⟨S, k⟩ := o
    rcases hk with h | h <;> simp only at h <;> subst h <;> rfl
  have hsh : ∀ rows, (∀ x ∈ rows, x ∈ (abmn o.sources).a ++ (abmn o.sources).b ++ (abmn o.sources).m ++
      (abmn o.sources).n) → shiftRows proj shift ((abmn o.sources).a ++ (abmn o.sources).b ++
      (abmn o.sources).m ++ (abmn o.sources).n) rows = rows.map fun x => shift (proj x) :=
    fun rows h => shiftRows_eq proj shift _ rows h
  have hl := drapeLoop_eq (fun x => shift (proj x)) o.sources hS hn [] [] [] [] rfl rfl rfl
  simp only [List.nil_append, List.length_nil] at hl
  obtain ⟨m1, m2, m3, m4⟩ := abmn_move (fun x => shift (proj x)) o.sources
  refine ⟨⟨move (fun x => shift (proj x)) o.sources, some (abmn (move (fun x => shift (proj x)) o.sources))⟩, ?_, rfl, rfl⟩
  have e : (abmn (move (fun x => shift (proj x)) o.sources)) =
      ⟨(abmn o.sources).a.map fun x => shift (proj x), (abmn o.sources).b.map fun x => shift (proj x),
        (abmn o.sources).m.map fun x => shift (proj x),
        (abmn o.sources).n.map fun x => shift (proj x)⟩ := by
    rw [← m1, ← m2, ← m3, ← m4]
  simp only [Obj.drape, hread]
  rw [hsh (abmn o.sources).a (by intro x hx; simp [hx]), hsh (abmn o.sources).b (by intro x hx; simp [hx]),
    hsh (abmn o.sources).m (by intro x hx; simp [hx]), hsh (abmn o.sources).n (by intro x hx; simp [hx]),
    hl, e]

/-- A survey with a pole and a dipole meets the hypotheses. -/
example : Good [(Src.pole (1 : Int), [Rx.dipole [2, 3] [3, 4]]), (.dipole 5 6, [.pole [7], .pole [8]])] ∧
    ∀ x ∈ [(Src.pole (1 : Int), [Rx.dipole [2, 3] [3, 4]]), (.dipole 5 6, [.pole [7], .pole [8]])],
      0 < nData x := by
  constructor
  · intro x hx
    simp only [List.mem_cons, List.not_mem_nil, or_false] at hx
    rcases hx with rfl | rfl <;> simp [srcPair]
  · intro x hx
    simp only [List.mem_cons, List.not_mem_nil, or_false] at hx
    rcases hx with rfl | rfl <;> simp [nData, Rx.nD]

/-- **C114, violated for a source without receivers.** It is moved to the electrodes of the next source,
and draping fails if it is the last one. -/
theorem C114_violated_empty_source :
    (Obj.drape (fun x : Int => x) (· + 10) ⟨[(.pole 1, []), (.pole 2, [.pole [3]])], none⟩ =
      .ok ⟨[(.pole 12, []), (.pole 12, [.pole [13]])], some ⟨[12], [12], [13], [13]⟩⟩) ∧
    Obj.drape (fun x : Int => x) (· + 10) ⟨[(.pole 2, [.pole [3]]), (.pole 1, [])], none⟩ =
      .error .indexError := by
  constructor <;> rfl

/-- **C114, violated for several poles in one source.** Only the first electrode is left, and the arrays
of current and of potential electrodes differ in length, so that the next source gets a location of the
wrong electrode. -/
theorem C114_violated_multipole :
    Obj.drape (fun x : Int => x) (· + 10)
      ⟨[(.multipole [1, 2], [.pole [3]]), (.pole 4, [.pole [5]])], none⟩ =
      .ok ⟨[(.multipole [11], [.pole [13]]), (.pole 12, [.pole [15]])],
        some ⟨[11, 12, 14], [11, 12, 14], [13, 15], [13, 15]⟩⟩ := by
  rfl

/-- **C114, violated after a new list of sources.** The arrays remain those of the old list. -/
theorem C114_violated_stale : ∃ (o : Obj Int) (S : Survey Int), Good S ∧
    ((o.read.1.setSources S).read.2).a ≠ (dataOf S).map (fun e => e.1) := by
  refine ⟨⟨[(.pole 1, [.pole [2]])], none⟩, [(.pole 3, [.pole [4]])], ?_, by decide⟩
  intro x hx
  simp only [List.mem_singleton] at hx
  subst hx
  simp [srcPair]

/-- Calls on a survey object; directly changing a source is not modelled. -/
inductive Op
  | read
  | drape

/-- A history of calls; a failed draping ends it. -/
def run {P : Type} [DecidableEq P] [Inhabited L] (proj : L → P) (shift : P → L) :
    Obj L → List Op → Except Err (Obj L × List (Abmn L))
  | o, [] => .ok (o, [])
  | o, .read :: ops => match run proj shift o.read.1 ops with
    | .error e => .error e
    | .ok (o', l) => .ok (o', o.read.2 :: l)
  | o, .drape :: ops => match o.drape proj shift with
    | .error e => .error e
    | .ok o' => run proj shift o' ops

/-- The surveys which are read in a history. -/
def reads (f : L → L) : Survey L → List Op → List (Survey L)
  | _, [] => []
  | S, .read :: ops => S :: reads f S ops
  | S, .drape :: ops => reads f (move f S) ops

theorem good_move (f : L → L) (S : Survey L) (hS : Good S) (hn : ∀ x ∈ S, 0 < nData x) :
    Good (move f S) ∧ ∀ x ∈ move f S, 0 < nData x := by
  constructor
  · intro y hy
    obtain ⟨x, hx, rfl⟩ := List.mem_map.1 hy
    obtain ⟨h1, h2⟩ := hS x hx
    constructor
    · cases hs : x.1 <;> simp_all [srcPair]
    · intro r hr
      obtain ⟨r', hr', rfl⟩ := List.mem_map.1 hr
      have := h2 r' hr'
      cases r' with
      | pole ms => trivial
      | dipole ms ns => simp only at this ⊢; simp [this]
  · intro y hy
    obtain ⟨x, hx, rfl⟩ := List.mem_map.1 hy
    have := hn x hx
    unfold nData at this ⊢
    have e : ((x.2.map fun r => match r with
      | .pole ms => Rx.pole (ms.map f)
      | .dipole ms ns => .dipole (ms.map f) (ns.map f)).map Rx.nD) = x.2.map Rx.nD := by
      rw [List.map_map]
      apply List.map_congr_left
      intro r _
      cases r <;> simp [Rx.nD]
    simp only [e]
    exact this

/-- **C114, part.** In every history of readings and drapings the arrays are those of the survey as it is
at that moment.  Missing: a new list of sources (`C114_violated_stale`). -/
theorem C114_history_partial {P : Type} [DecidableEq P] [Inhabited L] (proj : L → P) (shift : P → L)
    (S : Survey L) (hS : Good S) (hn : ∀ x ∈ S, 0 < nData x) (ops : List Op) :
    ∃ o, run proj shift ⟨S, none⟩ ops = .ok (o, (reads (fun x => shift (proj x)) S ops).map abmn) := by
  have key : ∀ (ops : List Op) (o : Obj L), (o.kept = none ∨ o.kept = some (abmn o.sources)) →
      Good o.sources → (∀ x ∈ o.sources, 0 < nData x) →
      ∃ o', run proj shift o ops = .ok (o', (reads (fun x => shift (proj x)) o.sources ops).map abmn) := by
    intro ops
    induction ops with
    | nil => intro o _ _ _; exact ⟨o, rfl⟩
    | cons op ops ih =>
      intro o hk hg hp
      cases op with
      | read =>
        have hr : o.read = (⟨o.sources, some (abmn o.sources)⟩, abmn o.sources) := by
          obtain ⟨S, k⟩ := o
          rcases hk with h | h <;> simp only at h <;> subst h <;> rfl
        obtain ⟨o', ho⟩ := ih ⟨o.sources, some (abmn o.sources)⟩ (Or.inr rfl) hg hp
        refine ⟨o', ?_⟩
        simp only [run, hr, ho, reads, List.map_cons]
      | drape =>
        obtain ⟨o1, h1, h2, h3⟩ := C114_drape_partial proj shift o hk hg hp
        obtain ⟨g1, g2⟩ := good_move (fun x => shift (proj x)) o.sources hg hp
        have hk1 : o1.kept = none ∨ o1.kept = some (abmn o1.sources) := by
          obtain ⟨S1, k1⟩ := o1
          cases k1 with
          | none => exact Or.inl rfl
          | some t => exact Or.inr (congrArg some h3)
        obtain ⟨o', ho⟩ := ih o1 hk1 (by rw [h2]; exact g1) (by rw [h2]; exact g2)
        refine ⟨o', ?_⟩
        simp only [run, h1, ho, reads, h2]
  exact key ops ⟨S, none⟩ (Or.inl rfl) hS hn

/-! ### Source terms -/

/-- The currents injected by the electrodes of a source. -/
noncomputable def totalCurrent {c : Type} (s : SrcTerm c) : ℝ := ((List.range s.electrodes).map s.cur).sum

/-- **C115.** With interpolation the source term carries the whole current: a linear function which is
integrated exactly by the weights of every electrode is integrated exactly against the source term. -/
theorem C115_nodal {c : Type} [Fintype c] (s : SrcTerm c) (P : Nat → c → ℝ) (g : c → ℝ) (v : Nat → ℝ)
    (hP : ∀ k < s.electrodes, ∑ i, P k i * g i = v k) :
    ∑ i, evalEB s P i * g i = ((List.range s.electrodes).map fun k => s.cur k * v k).sum := by
  have : ∀ n, (∀ k < n, ∑ i, P k i * g i = v k) →
      ∑ i, ((List.range n).map fun k => s.cur k * P k i).sum * g i =
        ((List.range n).map fun k => s.cur k * v k).sum := by
    intro n
    induction n with
    | zero => intro _; simp
    | succ n ih =>
      intro h
      simp only [List.range_succ, List.map_append, List.map_cons, List.map_nil, List.sum_append,
        List.sum_cons, List.sum_nil, add_zero, add_mul, Finset.sum_add_distrib]
      rw [ih fun k hk => h k (by omega), ← h n (by omega), Finset.mul_sum]
      congr 1
      apply Finset.sum_congr rfl
      intro i _
      ring
  exact this _ hP

/-- **C115.** With interpolation weights that add up to one, the source term adds up to the injected
current; a dipole injects nothing in total. -/
theorem C115_nodal_total {c : Type} [Fintype c] (s : SrcTerm c) (P : Nat → c → ℝ)
    (hP : ∀ k < s.electrodes, ∑ i, P k i = 1) : ∑ i, evalEB s P i = totalCurrent s := by
  have := C115_nodal s P (fun _ => 1) (fun _ => 1) (by simpa using hP)
  simpa [totalCurrent] using this

theorem C115_dipole_total {c : Type} [Fintype c] (I : ℝ) (P : Nat → c → ℝ)
    (hP : ∀ k < 2, ∑ i, P k i = 1) : ∑ i, evalEB (dipoleTerm c I) P i = 0 := by
  rw [C115_nodal_total _ _ hP]
  simp [totalCurrent, dipoleTerm, SrcTerm.cur, List.range_succ]

/-- **C115.** A single current is that of every electrode; otherwise every electrode has its own. -/
theorem C115_broadcast {c : Type} (n : Nat) (I : ℝ) (l : List ℝ) (hl : l.length = n) (P : Nat → c → ℝ) (i : c) :
    evalEB (⟨n, [I]⟩ : SrcTerm c) P i = I * ((List.range n).map fun k => P k i).sum ∧
    evalEB (⟨n, l⟩ : SrcTerm c) P i = ((List.range n).map fun k => l.getD k 0 * P k i).sum := by
  constructor
  · simp only [evalEB, SrcTerm.cur, List.length_singleton, if_true, List.getD_cons_zero]
    rw [List.sum_map_mul_left]
  · simp only [evalEB]
    congr 1
    refine List.map_congr_left fun k hk => ?_
    have hk' : k < n := List.mem_range.1 hk
    simp only [SrcTerm.cur]
    split
    · next h1 =>
      have : k = 0 := by omega
      rw [this]
    · rfl

/-- **C115, part.** At cell centres the source term is the current of each electrode in its cell, if no
two electrodes have the same nearest cell.  Missing: electrodes in the same cell
(`C115_violated_same_cell`). -/
theorem C115_cell_partial {c : Type} [Fintype c] [DecidableEq c] (s : SrcTerm c) (inds : Nat → c)
    (h : ∀ j < s.electrodes, ∀ k < s.electrodes, inds j = inds k → j = k) :
    (∀ k < s.electrodes, evalHJ s inds (inds k) = s.cur k) ∧
    (∀ i, (∀ k < s.electrodes, inds k ≠ i) → evalHJ s inds i = 0) ∧
    ∑ i, evalHJ s inds i = totalCurrent s := by
  have key : ∀ n, (∀ j < n, ∀ k < n, inds j = inds k → j = k) →
      (∀ k < n, (List.range n).foldl (fun (q : c → ℝ) k => Function.update q (inds k) (s.cur k)) 0 (inds k) =
        s.cur k) ∧
      (∀ i, (∀ k < n, inds k ≠ i) →
        (List.range n).foldl (fun (q : c → ℝ) k => Function.update q (inds k) (s.cur k)) 0 i = 0) ∧
      ∑ i, (List.range n).foldl (fun (q : c → ℝ) k => Function.update q (inds k) (s.cur k)) 0 i =
        ((List.range n).map s.cur).sum := by
    intro n
    induction n with
    | zero => intro _; simp
    | succ n ih =>
      intro h
      obtain ⟨h1, h2, h3⟩ := ih fun j hj k hk => h j (by omega) k (by omega)
      simp only [List.range_succ, List.foldl_append, List.foldl_cons, List.foldl_nil, List.map_append,
        List.map_cons, List.map_nil, List.sum_append, List.sum_cons, List.sum_nil, add_zero]
      have hne : ∀ k < n, inds k ≠ inds n := fun k hk e => by
        have := h k (by omega) n (by omega) e; omega
      refine ⟨?_, ?_, ?_⟩
      · intro k hk
        rcases Nat.lt_succ_iff_lt_or_eq.1 hk with hk | rfl
        · rw [Function.update_of_ne (hne k hk), h1 k hk]
        · rw [Function.update_self]
      · intro i hi
        rw [Function.update_of_ne (fun e => hi n (by omega) e.symm), h2 i fun k hk => hi k (by omega)]
      · have h0 := h2 (inds n) hne
        rw [← h3, ← Finset.add_sum_erase _ _ (Finset.mem_univ (inds n)),
          ← Finset.add_sum_erase Finset.univ
            ((List.range n).foldl (fun (q : c → ℝ) k => Function.update q (inds k) (s.cur k)) 0)
            (Finset.mem_univ (inds n)), Function.update_self]
        simp only [h0, zero_add]
        rw [add_comm]
        congr 1
        apply Finset.sum_congr rfl
        intro i hi
        rw [Function.update_of_ne (Finset.ne_of_mem_erase hi)]
  exact key s.electrodes h

/-- Non-vacuity of `C115_cell_partial`: a dipole in two cells. -/
example : evalHJ (dipoleTerm (Fin 3) 2) (fun k => if k = 0 then 0 else 2) 2 = -2 := by
  have := (C115_cell_partial (dipoleTerm (Fin 3) 2) (fun k => if k = 0 then 0 else 2) (by
    intro j hj k hk h
    simp only [dipoleTerm] at hj hk
    interval_cases j <;> interval_cases k <;> simp_all)).1 1 (by simp [dipoleTerm])
  simpa [SrcTerm.cur, dipoleTerm] using this

/-- **C115, violated at cell centres.** A dipole with both electrodes nearest to the same cell injects
the current of the second electrode instead of nothing. -/
theorem C115_violated_same_cell (I : ℝ) :
    ∑ i, evalHJ (dipoleTerm (Fin 2) I) (fun _ => 0) i = -I ∧ totalCurrent (dipoleTerm (Fin 2) I) = 0 := by
  constructor
  · simp [evalHJ, dipoleTerm, SrcTerm.cur, List.range_succ, Fin.sum_univ_two]
  · simp [totalCurrent, dipoleTerm, SrcTerm.cur, List.range_succ]

end Verif.DC.Electrodes.Props
