import Verif.Basic
import Mathlib.Analysis.InnerProductSpace.PiL2
import Mathlib.Analysis.SpecialFunctions.Trigonometric.Basic
import Mathlib.Tactic.Linarith
import Mathlib.Tactic.FieldSimp
import Mathlib.Tactic.Ring
import Mathlib.Tactic.NormNum

/-!
Geometric factors and apparent resistivities of resistivity surveys
(`simpeg/electromagnetics/static/utils/static_utils.py` 79-179, 260-339,
`simpeg/electromagnetics/static/resistivity/survey.py` 168-194, `receivers.py` 156-192).

Numbers are real; a result which is infinite or not a number in the code is `none` here.
-/

noncomputable section

namespace Verif.DC.Geometry

/-- Positions. -/
abbrev Pt (d : Nat) := EuclideanSpace ℝ (Fin d)

/-- A location as used by `electrode_separations` (114-137): a point, or `np.inf`, `-np.inf` in every
component for the missing electrode of a pole. -/
inductive Loc (d : Nat)
  | pt (x : Pt d)
  | plus
  | minus

/-- Sources (`resistivity/sources.py`). -/
inductive Src (d : Nat)
  | pole (a : Pt d)
  | dipole (a b : Pt d)
  | multipole (a : List (Pt d))

/-- Receivers (`resistivity/receivers.py`): the locations, and whether the data type is apparent
resistivity. -/
structure Rx (d : Nat) where
  locs : List (Pt d) ⊕ List (Pt d × Pt d)
  app : Bool

/-- Number of data of a receiver (369-376, 451-458). -/
def Rx.nD {d : Nat} (r : Rx d) : Nat := r.locs.elim List.length List.length

/-- The potential electrodes M and N of every datum (128-134). -/
def Rx.mn {d : Nat} (r : Rx d) : List (Loc d × Loc d) :=
  match r.locs with
  | .inl ms => ms.map fun m => (.pt m, .minus)
  | .inr mns => mns.map fun mn => (.pt mn.1, .pt mn.2)

/-- The current electrodes A and B (114-125); several poles raise NotImplementedError. -/
def Src.ab {d : Nat} : Src d → Except Err (Loc d × Loc d)
  | .pole a => .ok (.pt a, .plus)
  | .dipole a b => .ok (.pt a, .pt b)
  | .multipole _ => .error .exception

/-- `1 / np.linalg.norm(A - M)`: infinite for equal points, zero for an infinite distance, not a number
for the difference of equal infinities. -/
def recip {d : Nat} : Loc d → Loc d → Option ℝ
  | .pt a, .pt m => if dist a m = 0 then none else some (1 / dist a m)
  | .plus, .plus => none
  | .minus, .minus => none
  | _, _ => some 0

/-- `G = 1 / AM - 1 / BM - 1 / AN + 1 / BN` and `G / (spaceFact * np.pi)` (303-308). -/
def factorAt {d : Nat} (c : ℝ) (ab mn : Loc d × Loc d) : Option ℝ :=
  match recip ab.1 mn.1, recip ab.2 mn.1, recip ab.1 mn.2, recip ab.2 mn.2 with
  | some am, some bm, some an, some bn => some ((am - bm - an + bn) / (c * Real.pi))
  | _, _, _, _ => none

/-- `space_type` (286-292). -/
inductive Space
  | half
  | whole

/-- `spaceFact` (286-292). -/
def Space.fact : Space → ℝ
  | .half => 2
  | .whole => 4

/-- A survey: sources with their receivers. -/
abbrev Survey (d : Nat) := List (Src d × List (Rx d))

/-- `geometric_factor(survey, space_type)` (260-308): one number for every datum, in the order of the
survey. -/
def factors {d : Nat} (sp : Space) : Survey d → Except Err (List (Option ℝ))
  | [] => .ok []
  | (s, rs) :: S => match s.ab, factors sp S with
    | .error e, _ => .error e
    | _, .error e => .error e
    | .ok ab, .ok G => .ok ((rs.flatMap fun r => r.mn.map (factorAt sp.fact ab)) ++ G)

/-- The slices of one source starting at `off` (`survey.py` 183-193): the factors stored with each
receiver of apparent resistivity. -/
def storeRx {d : Nat} (G : List (Option ℝ)) : Nat → List (Rx d) → List (Option (List (Option ℝ)))
  | _, [] => []
  | off, r :: rs => (if r.app then some ((G.drop off).take r.nD) else none) ::
      storeRx G (off + r.nD) rs

/-- `set_geometric_factor` (`survey.py` 168-194): the factors stored for every source and receiver;
receivers keep one array for each source, so receivers shared by sources are two entries here. -/
def store {d : Nat} (G : List (Option ℝ)) : Nat → Survey d → List (List (Option (List (Option ℝ))))
  | _, [] => []
  | off, (_, rs) :: S => storeRx G off rs :: store G (off + (rs.map Rx.nD).sum) S

/-- `v / self.geometric_factor[src][:, None]` (`receivers.py` 184-192); division by zero is not
finite. -/
def divFactor (v : List ℝ) (G : List (Option ℝ)) : List (Option ℝ) :=
  List.zipWith (fun v g => g.bind fun g => if g = 0 then none else some (v / g)) v G

/-- `eval` of a receiver given the voltages (156-192): without stored factors it raises KeyError. -/
def evalRx {d : Nat} (r : Rx d) (stored : Option (List (Option ℝ))) (v : List ℝ) :
    Except Err (List (Option ℝ)) :=
  if r.app then
    match stored with
    | none => .error .keyError
    | some G => .ok (divFactor v G)
  else .ok (v.map some)

/-- `apparent_resistivity_from_voltage` (311-339) for one datum. -/
def fromVoltage (eps v : ℝ) (g : Option ℝ) : Option ℝ :=
  g.bind fun g => if g + eps = 0 then none else some |v * (1 / (g + eps))|

end Verif.DC.Geometry

namespace Verif.DC.Geometry.Props
open Verif.DC.Geometry

/-! ### Specification: point electrodes in uniform ground -/

/-- The electrodes of a source which injects the current `I`, with their currents. -/
def currents {d : Nat} (I : ℝ) : Src d → List (Pt d × ℝ)
  | .pole a => [(a, I)]
  | .dipole a b => [(a, I), (b, -I)]
  | .multipole as => as.map fun a => (a, I)

/-- The potential at `x` of point electrodes in uniform ground of resistivity `ρ`; the constant is `2π`
for electrodes on the surface of a half space and `4π` in a whole space. -/
def potential {d : Nat} (sp : Space) (ρ : ℝ) (els : List (Pt d × ℝ)) (x : Pt d) : ℝ :=
  (els.map fun e => ρ * e.2 / ((match sp with | .half => 2 | .whole => 4) * Real.pi * dist e.1 x)).sum

/-- The measured voltages: the potential of M, minus that of N if there is one. -/
def voltages {d : Nat} (φ : Pt d → ℝ) (r : Rx d) : List ℝ :=
  match r.locs with
  | .inl ms => ms.map φ
  | .inr mns => mns.map fun mn => φ mn.1 - φ mn.2

/-- All potential electrodes. -/
def electrodes {d : Nat} (r : Rx d) : List (Pt d) :=
  match r.locs with
  | .inl ms => ms
  | .inr mns => mns.flatMap fun mn => [mn.1, mn.2]

/-- No potential electrode is at a current electrode. -/
def Apart {d : Nat} (s : Src d) (r : Rx d) : Prop :=
  ∀ e ∈ currents 1 s, ∀ x ∈ electrodes r, e.1 ≠ x

def noMulti {d : Nat} : Src d → Prop
  | .multipole _ => False
  | _ => True

variable {d : Nat}

theorem recip_pt {a m : Pt d} (h : a ≠ m) : recip (.pt a) (.pt m) = some (1 / dist a m) := by
  have : dist a m ≠ 0 := by simpa [dist_eq_zero] using h
  simp [recip, this]

/-- The factor of one datum, for electrodes which are apart. -/
def trueFactor (sp : Space) (s : Src d) (r : Rx d) : List ℝ := voltages (potential sp 1 (currents 1 s)) r

theorem voltages_scale (sp : Space) (ρ I : ℝ) (s : Src d) (r : Rx d) :
    voltages (potential sp ρ (currents I s)) r = (trueFactor sp s r).map (ρ * I * ·) := by
  have hp : ∀ x, potential sp ρ (currents I s) x = ρ * I * potential sp 1 (currents 1 s) x := by
    intro x
    cases s with
    | pole a => simp [potential, currents]; ring
    | dipole a b => simp [potential, currents]; ring
    | multipole as =>
      simp only [potential, currents, List.map_map]
      rw [← List.sum_map_mul_left]
      congr 1
      apply List.map_congr_left
      intro a _
      simp only [Function.comp]
      ring
  unfold trueFactor voltages
  cases r.locs with
  | inl ms => simp [hp, List.map_map, Function.comp_def]
  | inr mns =>
    simp only [hp, List.map_map, Function.comp_def]
    apply List.map_congr_left
    intro mn _
    ring

theorem factorAt_eq (sp : Space) (s : Src d) (r : Rx d) (hs : noMulti s) (h : Apart s r) :
    ∃ ab, s.ab = .ok ab ∧ r.mn.map (factorAt sp.fact ab) = (trueFactor sp s r).map some := by
  have hc : (match sp with | .half => (2:ℝ) | .whole => 4) = sp.fact := by cases sp <;> rfl
  unfold Apart electrodes at h
  unfold trueFactor voltages Rx.mn
  cases s with
  | multipole _ => exact absurd hs (fun h => h)
  | pole a =>
    refine ⟨_, rfl, ?_⟩
    cases hr : r.locs with
    | inl ms =>
      simp only [hr] at h ⊢
      simp only [List.map_map]
      apply List.map_congr_left
      intro m hm
      have h1 := h (a, 1) (by simp [currents]) m hm
      simp only [Function.comp, factorAt, recip_pt h1]
      simp only [recip, potential, currents, hc, List.map_cons, List.map_nil, List.sum_cons,
        List.sum_nil]
      congr 1
      have : dist a m ≠ 0 := by simpa [dist_eq_zero] using h1
      field_simp
      try ring
    | inr mns =>
      simp only [hr] at h ⊢
      simp only [List.map_map]
      apply List.map_congr_left
      intro mn hm
      have h1 := h (a, 1) (by simp [currents]) mn.1
        (List.mem_flatMap.2 ⟨mn, hm, by simp⟩)
      have h2 := h (a, 1) (by simp [currents]) mn.2
        (List.mem_flatMap.2 ⟨mn, hm, by simp⟩)
      simp only [Function.comp, factorAt, recip_pt h1, recip_pt h2]
      simp only [recip, potential, currents, hc, List.map_cons, List.map_nil, List.sum_cons,
        List.sum_nil]
      congr 1
      have : dist a mn.1 ≠ 0 := by simpa [dist_eq_zero] using h1
      have : dist a mn.2 ≠ 0 := by simpa [dist_eq_zero] using h2
      field_simp
      try ring
  | dipole a b =>
    refine ⟨_, rfl, ?_⟩
    cases hr : r.locs with
    | inl ms =>
      simp only [hr] at h ⊢
      simp only [List.map_map]
      apply List.map_congr_left
      intro m hm
      have h1 := h (a, 1) (by simp [currents]) m hm
      have h2 := h (b, -1) (by simp [currents]) m hm
      simp only [Function.comp, factorAt, recip_pt h1, recip_pt h2]
      simp only [recip, potential, currents, hc, List.map_cons, List.map_nil, List.sum_cons,
        List.sum_nil]
      congr 1
      have : dist a m ≠ 0 := by simpa [dist_eq_zero] using h1
      have : dist b m ≠ 0 := by simpa [dist_eq_zero] using h2
      field_simp
      try ring
    | inr mns =>
      simp only [hr] at h ⊢
      simp only [List.map_map]
      apply List.map_congr_left
      intro mn hm
      have h1 := h (a, 1) (by simp [currents]) mn.1 (List.mem_flatMap.2 ⟨mn, hm, by simp⟩)
      have h2 := h (a, 1) (by simp [currents]) mn.2 (List.mem_flatMap.2 ⟨mn, hm, by simp⟩)
      have h3 := h (b, -1) (by simp [currents]) mn.1 (List.mem_flatMap.2 ⟨mn, hm, by simp⟩)
      have h4 := h (b, -1) (by simp [currents]) mn.2 (List.mem_flatMap.2 ⟨mn, hm, by simp⟩)
      simp only [Function.comp, factorAt, recip_pt h1, recip_pt h2, recip_pt h3, recip_pt h4]
      simp only [potential, currents, hc, List.map_cons, List.map_nil, List.sum_cons,
        List.sum_nil]
      congr 1
      have : dist a mn.1 ≠ 0 := by simpa [dist_eq_zero] using h1
      have : dist a mn.2 ≠ 0 := by simpa [dist_eq_zero] using h2
      have : dist b mn.1 ≠ 0 := by simpa [dist_eq_zero] using h3
      have : dist b mn.2 ≠ 0 := by simpa [dist_eq_zero] using h4
      field_simp
      try ring

/-- **C113.** For every survey of poles and dipoles with potential electrodes apart from current
electrodes, the factors are finite, one for each datum in the order of the survey, and the voltage of
each datum in uniform ground of any resistivity with any current is resistivity times current times the
factor. -/
theorem C113_factors (sp : Space) (S : Survey d)
    (hS : ∀ x ∈ S, noMulti x.1 ∧ ∀ r ∈ x.2, Apart x.1 r) :
    ∃ G : List ℝ, factors sp S = .ok (G.map some) ∧
      ∀ ρ I, (S.flatMap fun x => x.2.flatMap fun r => voltages (potential sp ρ (currents I x.1)) r) =
        G.map (ρ * I * ·) := by
  refine ⟨S.flatMap fun x => x.2.flatMap fun r => trueFactor sp x.1 r, ?_, ?_⟩
  · induction S with
    | nil => rfl
    | cons x S ih =>
      obtain ⟨s, rs⟩ := x
      have hx := hS (s, rs) List.mem_cons_self
      have ihS := ih fun y hy => hS y (List.mem_cons_of_mem _ hy)
      have hab : ∃ ab, s.ab = .ok ab := by
        cases s with
        | pole a => exact ⟨_, rfl⟩
        | dipole a b => exact ⟨_, rfl⟩
        | multipole _ => exact absurd hx.1 (fun h => h)
      obtain ⟨ab, hab⟩ := hab
      simp only [factors, hab, ihS, List.flatMap_cons, List.map_append]
      congr 2
      rw [List.map_flatMap]
      have : ∀ r ∈ rs, r.mn.map (factorAt sp.fact ab) = (trueFactor sp s r).map some := by
        intro r hr
        obtain ⟨ab', h1, h2⟩ := factorAt_eq sp s r hx.1 (hx.2 r hr)
        rw [hab] at h1
        cases h1
        exact h2
      clear ihS hx ih
      induction rs with
      | nil => rfl
      | cons r rs ih =>
        rw [List.flatMap_cons, List.flatMap_cons, this r List.mem_cons_self, ih
          (fun y hy => ?_) (fun r' hr' => this r' (List.mem_cons_of_mem _ hr'))]
        rcases List.mem_cons.1 hy with rfl | hy
        · exact ⟨(hS (s, r :: rs) List.mem_cons_self).1, fun r' hr' =>
            (hS (s, r :: rs) List.mem_cons_self).2 r' (List.mem_cons_of_mem _ hr')⟩
        · exact hS y (List.mem_cons_of_mem _ hy)
  · intro ρ I
    rw [List.map_flatMap]
    congr 1
    funext x
    rw [List.map_flatMap]
    congr 1
    funext r
    exact voltages_scale sp ρ I x.1 r

theorem trueFactor_length (sp : Space) (s : Src d) (r : Rx d) : (trueFactor sp s r).length = r.nD := by
  unfold trueFactor voltages Rx.nD
  cases r.locs <;> simp

theorem storeRx_eq (sp : Space) (s : Src d) (pre post : List (Option ℝ)) (rs : List (Rx d)) :
    storeRx (pre ++ ((rs.flatMap fun r => (trueFactor sp s r).map some) ++ post)) pre.length rs =
      rs.map fun r => if r.app then some ((trueFactor sp s r).map some) else none := by
  induction rs generalizing pre with
  | nil => rfl
  | cons r rs ih =>
    have := ih (pre ++ (trueFactor sp s r).map some)
    simp only [List.length_append, List.length_map, trueFactor_length, List.append_assoc] at this
    simp only [storeRx, List.flatMap_cons, List.map_cons, List.append_assoc, this, List.drop_left']
    congr 1
    split
    · rw [List.take_left' (by simp [trueFactor_length])]
    · rfl

theorem store_eq (sp : Space) (pre : List (Option ℝ)) (S : Survey d) :
    store (pre ++ (S.flatMap fun x => x.2.flatMap fun r => (trueFactor sp x.1 r).map some)) pre.length S =
      S.map fun x => x.2.map fun r => if r.app then some ((trueFactor sp x.1 r).map some) else none := by
  induction S generalizing pre with
  | nil => rfl
  | cons x S ih =>
    obtain ⟨s, rs⟩ := x
    have := ih (pre ++ rs.flatMap fun r => (trueFactor sp s r).map some)
    have hl : (rs.flatMap fun r => (trueFactor sp s r).map some).length = (rs.map Rx.nD).sum := by
      simp [List.length_flatMap, trueFactor_length]
    simp only [List.length_append, hl, List.append_assoc] at this
    simp only [store, List.flatMap_cons, List.map_cons, this, storeRx_eq]

/-- **C113.** After `set_geometric_factor`, a receiver of apparent resistivity returns in uniform ground
the resistivity times the current of the source, for each source with which it is used, wherever the
geometric factor is not zero. -/
theorem C113_receivers (sp : Space) (S : Survey d)
    (hS : ∀ x ∈ S, noMulti x.1 ∧ ∀ r ∈ x.2, Apart x.1 r) :
    ∃ G, factors sp S = .ok G ∧ ∀ (i j : Nat) (s : Src d) (rs : List (Rx d)) (r : Rx d),
      S[i]? = some (s, rs) → rs[j]? = some r → r.app = true →
      ∃ T, (store G 0 S)[i]? = some T ∧ ∃ K, T[j]? = some K ∧ ∀ ρ I,
        ρ * I ≠ 0 → (∀ v ∈ voltages (potential sp ρ (currents I s)) r, v ≠ 0) →
        evalRx r K (voltages (potential sp ρ (currents I s)) r) =
          .ok (List.replicate r.nD (some (ρ * I))) := by
  obtain ⟨G, hG, hv⟩ := C113_factors sp S hS
  have hG' : G = S.flatMap fun x => x.2.flatMap fun r => trueFactor sp x.1 r := by
    have := hv 1 1
    simp only [one_mul, List.map_id'] at this
    rw [← this]
    rfl
  refine ⟨_, hG, ?_⟩
  intro i j s rs r hi hj hr
  have hst : store (G.map some) 0 S = S.map fun x => x.2.map fun r =>
      if r.app then some ((trueFactor sp x.1 r).map some) else none := by
    have := store_eq sp [] S
    rw [List.length_nil, List.nil_append] at this
    rw [← this, hG', List.map_flatMap]
    congr 2
    funext x
    rw [List.map_flatMap]
  refine ⟨_, by rw [hst, List.getElem?_map, hi]; rfl, _, by rw [List.getElem?_map, hj]; rfl, ?_⟩
  intro ρ I hne hv0
  simp only [hr, if_true, evalRx]
  rw [voltages_scale] at hv0 ⊢
  rw [← trueFactor_length sp s r]
  congr 1
  unfold divFactor
  rw [List.zipWith_map, List.zipWith_self]
  rw [← List.map_const']
  apply List.map_congr_left
  intro g hg
  have hg0 : g ≠ 0 := by
    intro h0
    exact hv0 _ (List.mem_map_of_mem hg) (by simp [h0])
  simp [hg0]

/-- **C113.** Exchanging A with B, or M with N, changes the sign of the factor; exchanging the current
electrodes with the potential electrodes does not change it. -/
theorem C113_exchange (c : ℝ) (a b m n : Pt d) (g : ℝ) :
    (factorAt c (.pt a, .pt b) (.pt m, .pt n) = some g ↔
      factorAt c (.pt b, .pt a) (.pt m, .pt n) = some (-g)) ∧
    (factorAt c (.pt a, .pt b) (.pt m, .pt n) = some g ↔
      factorAt c (.pt a, .pt b) (.pt n, .pt m) = some (-g)) ∧
    (factorAt c (.pt a, .pt b) (.pt m, .pt n) = some g ↔
      factorAt c (.pt m, .pt n) (.pt a, .pt b) = some g) := by
  have key : ∀ x y : ℝ, x = -y → ((some x : Option ℝ) = some g ↔ (some y : Option ℝ) = some (-g)) := by
    intro x y h
    simp only [Option.some.injEq]
    constructor <;> intro h' <;> linarith
  have hsym : ∀ x y : Pt d, recip (.pt x) (.pt y) = recip (.pt y) (.pt x) := by
    intro x y; simp only [recip, dist_comm]
  refine ⟨?_, ?_, ?_⟩
  · simp only [factorAt]
    cases recip (.pt a) (.pt m) <;> cases recip (.pt b) (.pt m) <;> cases recip (.pt a) (.pt n) <;>
      cases recip (.pt b) (.pt n) <;> first | (apply key; ring) | simp
  · simp only [factorAt]
    cases recip (.pt a) (.pt m) <;> cases recip (.pt b) (.pt m) <;> cases recip (.pt a) (.pt n) <;>
      cases recip (.pt b) (.pt n) <;> first | (apply key; ring) | simp
  · simp only [factorAt, hsym m a, hsym n a, hsym m b, hsym n b]
    cases recip (.pt a) (.pt m) <;> cases recip (.pt b) (.pt m) <;> cases recip (.pt a) (.pt n) <;>
      cases recip (.pt b) (.pt n) <;>
      first
        | (simp only [Option.some.injEq]; constructor <;> intro h' <;> rw [← h'] <;> ring)
        | simp

/-- **C113.** A pole and a dipole with a remote second electrode: the reciprocal survey of a pole
source and a dipole receiver is a dipole source and a pole receiver with the same factor. -/
theorem C113_pole_reciprocity (c : ℝ) (a m n : Pt d) :
    factorAt c (.pt a, .plus) (.pt m, .pt n) = factorAt c (.pt m, .pt n) (.pt a, .minus) := by
  have hsym : ∀ x y : Pt d, recip (.pt x) (.pt y) = recip (.pt y) (.pt x) := by
    intro x y; simp only [recip, dist_comm]
  simp only [factorAt, hsym m a, hsym n a]
  have h1 : ∀ x : Pt d, recip .plus (.pt x) = some 0 := fun _ => rfl
  have h2 : ∀ x : Pt d, recip (.pt x) .minus = some 0 := fun _ => rfl
  simp only [h1, h2]
  cases recip (.pt a) (.pt m) <;> cases recip (.pt a) (.pt n) <;> simp

/-- **C113.** Remote electrodes of source and receiver are on opposite sides: only there the factor of a pole
source and a pole receiver is that of the two poles; on the same side their distance is not a number. -/
theorem C113_remote (c : ℝ) (a m : Pt d) (h : a ≠ m) :
    factorAt c (.pt a, .plus) (.pt m, .minus) = some (1 / dist a m / (c * Real.pi)) ∧
    factorAt c (.pt a, .plus) (.pt m, .plus) = none := by
  have h0 : dist a m ≠ 0 := dist_ne_zero.2 h
  constructor
  · simp [factorAt, recip, h0]
  · simp [factorAt, recip, h0]

/-- **C113.** Moving all electrodes by the same isometry does not change the factor; electrodes further
apart by a common positive ratio have a factor smaller by that ratio. -/
theorem C113_invariance (c t : ℝ) (ht : 0 < t) (f g : Pt d → Pt d) (hf : Isometry f)
    (hg : ∀ x y, dist (g x) (g y) = t * dist x y) (a b m n : Pt d) :
    factorAt c (.pt (f a), .pt (f b)) (.pt (f m), .pt (f n)) =
      factorAt c (.pt a, .pt b) (.pt m, .pt n) ∧
    factorAt c (.pt (g a), .pt (g b)) (.pt (g m), .pt (g n)) =
      (factorAt c (.pt a, .pt b) (.pt m, .pt n)).map (· / t) := by
  constructor
  · simp only [factorAt, recip, hf.dist_eq]
  · have hr : ∀ x y, recip (.pt (g x)) (.pt (g y)) = (recip (.pt x) (.pt y)).map (· / t) := by
      intro x y
      simp only [recip, hg]
      by_cases h : dist x y = 0
      · simp [h]
      · simp [h, ht.ne']
        field_simp
    simp only [factorAt, hr]
    cases recip (.pt a) (.pt m) <;> cases recip (.pt b) (.pt m) <;> cases recip (.pt a) (.pt n) <;>
      cases recip (.pt b) (.pt n) <;> simp
    ring

/-- **C113.** Adjacent potential dipoles: the factors add up. -/
theorem C113_superposition (c : ℝ) (a b m n k : Pt d) (g h : ℝ)
    (h1 : factorAt c (.pt a, .pt b) (.pt m, .pt n) = some g)
    (h2 : factorAt c (.pt a, .pt b) (.pt n, .pt k) = some h) :
    factorAt c (.pt a, .pt b) (.pt m, .pt k) = some (g + h) := by
  simp only [factorAt] at *
  revert h1 h2
  cases recip (.pt a) (.pt m) <;> cases recip (.pt b) (.pt m) <;> cases recip (.pt a) (.pt n) <;>
    cases recip (.pt b) (.pt n) <;> cases recip (.pt a) (.pt k) <;> cases recip (.pt b) (.pt k) <;>
    simp
  intro e1 e2
  rw [← e1, ← e2]
  ring

/-- **C113, part.** `apparent_resistivity_from_voltage` in uniform ground with unit current: the
relative error is `eps / |G + eps|`.  Missing: the resistivity itself (see
`C113_violated_from_voltage`). -/
theorem C113_from_voltage_partial (eps ρ g : ℝ) (hρ : 0 < ρ) (he : 0 ≤ eps) (hg : g + eps ≠ 0) :
    ∃ x, fromVoltage eps (ρ * g) (some g) = some x ∧ |x - ρ| ≤ ρ * (eps / |g + eps|) ∧
      (0 < g → |x - ρ| = ρ * (eps / |g + eps|)) ∧ (eps = 0 → x = ρ) := by
  refine ⟨|ρ * g * (1 / (g + eps))|, by simp [fromVoltage, hg], ?_, ?_, ?_⟩
  · have h1 : |ρ * g * (1 / (g + eps)) - ρ| = ρ * (eps / |g + eps|) := by
      have : ρ * g * (1 / (g + eps)) - ρ = -(ρ * (eps / (g + eps))) := by field_simp; ring
      rw [this, abs_neg, abs_mul, abs_div, abs_of_pos hρ, abs_of_nonneg he]
    rw [← h1]
    have := abs_abs_sub_abs_le (ρ * g * (1 / (g + eps))) ρ
    rwa [abs_of_pos hρ] at this
  · intro hg'
    have hp : 0 < g + eps := by linarith
    have h0 : 0 ≤ ρ * g * (1 / (g + eps)) := by positivity
    rw [abs_of_nonneg h0, abs_of_pos hp]
    have : ρ * g * (1 / (g + eps)) - ρ = -(ρ * (eps / (g + eps))) := by field_simp; ring
    rw [this, abs_neg, abs_of_nonneg (by positivity)]
  · intro h0
    subst h0
    have : g ≠ 0 := by simpa using hg
    have e : ρ * g * (1 / (g + 0)) = ρ := by field_simp; ring
    rw [e, abs_of_pos hρ]

/-- Three points on a line: A at 0, M at 1, N at 2. -/
def onLine (x : ℝ) : Pt 1 := !₂[x]

theorem dist_onLine (x y : ℝ) : dist (onLine x) (onLine y) = |x - y| := by
  simp [onLine, EuclideanSpace.dist_eq, Real.dist_eq, Real.sqrt_sq_eq_abs]

/-- **C113, violated with a current.** Apparent resistivities are not divided by the current: a source
with twice the current reports twice the resistivity of uniform ground. -/
theorem C113_violated_current : ∃ (S : Survey 1) (G : List (Option ℝ)), factors .half S = .ok G ∧
    ∃ s r K, S = [(s, [r])] ∧ store G 0 S = [[K]] ∧
      evalRx r K (voltages (potential .half 5 (currents 2 s)) r) = .ok [some 10] := by
  let s : Src 1 := .pole (onLine 0)
  let r : Rx 1 := ⟨.inl [onLine 1], true⟩
  have hd : dist (onLine 0) (onLine 1) = 1 := by rw [dist_onLine]; norm_num
  have hv : ∀ ρ I, voltages (potential .half ρ (currents I s)) r = [ρ * I / (2 * Real.pi)] := by
    intro ρ I
    simp [voltages, potential, currents, s, r, hd]
  have hS : ∀ x ∈ [(s, [r])], noMulti x.1 ∧ ∀ r ∈ x.2, Apart x.1 r := by
    intro x hx
    simp only [List.mem_singleton] at hx
    subst hx
    refine ⟨trivial, ?_⟩
    intro r' hr'
    simp only [List.mem_singleton] at hr'
    subst hr'
    intro e he y hy
    simp only [currents, s, List.mem_singleton] at he
    simp only [electrodes, r, List.mem_singleton] at hy
    subst he hy
    intro h
    have := congrArg (fun z => dist z (onLine 1)) h
    simp only [hd, dist_self] at this
    exact one_ne_zero this
  obtain ⟨G, hG, h⟩ := C113_receivers .half [(s, [r])] hS
  obtain ⟨T, hT, K, hK, hval⟩ := h 0 0 s [r] r rfl rfl rfl
  refine ⟨[(s, [r])], G, hG, s, r, K, rfl, ?_, ?_⟩
  · have h1 : store G 0 [(s, [r])] = [storeRx G 0 [r]] := rfl
    rw [h1] at hT ⊢
    simp only [List.getElem?_cons_zero, Option.some.injEq] at hT
    subst hT
    simp only [storeRx, List.getElem?_cons_zero, Option.some.injEq] at hK
    simp only [storeRx, hK]
  · rw [hval 5 2 (by norm_num)]
    · have : r.nD = 1 := rfl
      rw [this]
      norm_num
    · intro v hv'
      rw [hv] at hv'
      simp only [List.mem_singleton] at hv'
      rw [hv']
      have := Real.pi_pos
      positivity

/-- **C113, violated by `apparent_resistivity_from_voltage`.** With the default `eps` the resistivity of
uniform ground is not returned, exchanging M and N changes the result, a factor of `-eps` gives no
finite number, and a negative apparent resistivity becomes positive. -/
theorem C113_violated_from_voltage (eps g ρ : ℝ) (he : 0 < eps) (hg : eps < g) (hρ : 0 < ρ) :
    fromVoltage eps (ρ * g) (some g) ≠ some ρ ∧
    fromVoltage eps (ρ * g) (some g) ≠ fromVoltage eps (-(ρ * g)) (some (-g)) ∧
    fromVoltage eps (ρ * -eps) (some (-eps)) = none ∧
    fromVoltage eps (-(ρ * g)) (some g) = fromVoltage eps (ρ * g) (some g) := by
  have h1 : g + eps ≠ 0 := by linarith
  have h2 : -g + eps ≠ 0 := by intro h; linarith
  have hp : 0 < g + eps := by linarith
  have hm : 0 < g - eps := by linarith
  have hg0 : 0 < g := by linarith
  have e1 : fromVoltage eps (ρ * g) (some g) = some (ρ * g / (g + eps)) := by
    simp only [fromVoltage, Option.bind_some, h1, if_false, Option.some.injEq]
    rw [abs_of_nonneg (by positivity)]
    ring
  have e2 : fromVoltage eps (-(ρ * g)) (some (-g)) = some (ρ * g / (g - eps)) := by
    simp only [fromVoltage, Option.bind_some, h2, if_false, Option.some.injEq]
    have : -(ρ * g) * (1 / (-g + eps)) = ρ * g / (g - eps) := by
      have : -g + eps = -(g - eps) := by ring
      rw [this]
      field_simp
    rw [this, abs_of_nonneg (by positivity)]
  refine ⟨?_, ?_, ?_, ?_⟩
  · rw [e1]
    intro h
    simp only [Option.some.injEq] at h
    rw [div_eq_iff h1] at h
    nlinarith
  · rw [e1, e2]
    intro h
    simp only [Option.some.injEq] at h
    rw [div_eq_div_iff h1 hm.ne'] at h
    have : ρ * g * (g - eps - (g + eps)) = 0 := by linarith
    have hpos : 0 < ρ * g * eps := by positivity
    nlinarith
  · simp [fromVoltage]
  · simp only [fromVoltage, Option.bind_some, h1, if_false, neg_mul, abs_neg]

/-- **C113.** Several poles in one source are refused: no factors are computed. -/
theorem C113_multipole (sp : Space) (as : List (Pt d)) (rs : List (Rx d)) (S : Survey d) :
    factors sp ((.multipole as, rs) :: S) = .error .exception := by
  simp [factors, Src.ab]

end Verif.DC.Geometry.Props
