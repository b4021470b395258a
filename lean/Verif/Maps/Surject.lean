import Verif.Basic
import Mathlib.Algebra.Ring.Basic
import Mathlib.Algebra.BigOperators.Group.List.Basic
import Mathlib.Tactic.Ring
import Mathlib.Tactic.NormNum
import Mathlib.Tactic.Linarith

/-! Model of the surjection maps `SurjectFull`, `SurjectVertical1D`, `Surject2Dto3D` and
`SurjectUnits` (`simpeg/maps/_surjection.py`), with C52. -/

namespace Verif.Maps.Surject
open Verif

variable {R : Type} [CommRing R]

/-- `SurjectFull._transform` (53-59). -/
def full (nC : Nat) (m : R) : List R := (List.replicate nC 1).map (· * m)

/-- `mkvc(m).repeat(k)` (`SurjectVertical1D._transform`, 176-178). -/
def vertical (rep : Nat) (m : List R) : List R := m.flatMap fun x => List.replicate rep x

/-- `sp.kron(sp.identity(nP), repVec) * v` (`SurjectVertical1D.deriv`, 213-220): entry `(r, k)` of the
Kronecker product is entry `(r / rep, k)` of the identity times entry `r % rep` of the column of ones. -/
def verticalDeriv (rep nP : Nat) (v : List R) : List R :=
  (List.range (nP * rep)).map fun r =>
    ((List.range nP).map fun k =>
      ((if r / rep = k then 1 else 0) * (List.replicate rep (1 : R)).getD (r % rep) 0) * v.getD k 0).sum

/-- A sparse matrix with a single one per row, in column `inds[r]`, times `v`
(`csr_matrix((ones, (range, inds)))`, 392-394). -/
def oneHotMul (inds : List Nat) (nP : Nat) (v : List R) : List R :=
  inds.map fun c => ((List.range nP).map fun k => if c = k then v.getD k 0 else 0).sum

/-- The `normal` of `Surject2Dto3D` (319-321). -/
inductive Normal | x | y | z
  deriving DecidableEq

/-- `Surject2Dto3D.nP` (323-334). -/
def nP2D (nx ny nz : Nat) : Normal → Nat
  | .z => nx * ny
  | .y => nx * nz
  | .x => ny * nz

/-- `m.reshape((a, b), order="F")[i, j]`. -/
def reshapeF {α : Type} (a : Nat) (m : List α) (i j : Nat) : Option α := m[i + a * j]?

/-- `mkvc` of a three-dimensional array: Fortran order. -/
def mkvc3 {α : Type} (nx ny nz : Nat) (A : Nat → Nat → Nat → α) : List α :=
  (List.range (nx * ny * nz)).map fun c => A (c % nx) (c / nx % ny) (c / (nx * ny))

/-- `Surject2Dto3D._transform` (336-355): reshape, insert the missing axis and repeat along
it, flatten. Entries are `none` only if the model is too short. -/
def to3D {α : Type} (nx ny nz : Nat) (normal : Normal) (m : List α) : List (Option α) :=
  match normal with
  | .z => mkvc3 nx ny nz fun i j _ => reshapeF nx m i j
  | .y => mkvc3 nx ny nz fun i _ k => reshapeF nx m i k
  | .x => mkvc3 nx ny nz fun _ j k => reshapeF ny m j k

/-- `Surject2Dto3D.deriv(m, v)` (390-394): `inds = self * arange(nP)`. -/
def to3DDeriv (nx ny nz : Nat) (normal : Normal) (v : List R) : List R :=
  oneHotMul ((to3D nx ny nz normal (List.range (nP2D nx ny nz normal))).map fun o => o.getD 0)
    (nP2D nx ny nz normal) v

/-- `SurjectUnits.P * m` (482-506): entry `r` sums the values of all units whose mask contains
cell `r` (`csr_matrix` adds duplicate entries). -/
def units (masks : List (List Bool)) (nC : Nat) (m : List R) : List R :=
  (List.range nC).map fun r => ((masks.zip m).map fun p => if p.1.getD r false then p.2 else 0).sum

namespace Props

/-- C52. `SurjectFull` gives every cell the one model value; its derivative column of ones is
exact. -/
theorem C52_full (nC : Nat) (m d : R) :
    full nC m = List.replicate nC m ∧
    full nC (m + d) = List.zipWith (· + ·) (full nC m) ((List.replicate nC 1).map (· * d)) := by
  constructor
  · simp [full]
  · simp [full]

omit [CommRing R] in
theorem vertical_getElem (rep : Nat) (m : List R) : ∀ k j, k < m.length → j < rep →
    (vertical rep m)[k * rep + j]? = m[k]? := by
  induction m with
  | nil => intro k j h; simp at h
  | cons x m ih =>
    intro k j hk hj
    cases k with
    | zero =>
      simp only [vertical, List.flatMap_cons]
      rw [List.getElem?_append_left (by simp; omega)]
      simp [hj]
    | succ k =>
      have := ih k j (by simpa using hk) hj
      simp only [vertical, List.flatMap_cons] at this ⊢
      rw [List.getElem?_append_right (by simp; nlinarith)]
      simp only [List.length_replicate, List.getElem?_cons_succ]
      rw [← this]
      congr 1
      rw [Nat.add_mul]
      omega

/-- C52. `SurjectVertical1D`: cell `j` of layer `k` (cells of a layer are consecutive) takes
model value `k`, and there are exactly `nP * rep` cells. -/
theorem C52_vertical (rep : Nat) (m : List R) :
    (vertical rep m).length = m.length * rep ∧
    ∀ k j, k < m.length → j < rep → (vertical rep m)[k * rep + j]? = m[k]? := by
  refine ⟨?_, vertical_getElem rep m⟩
  induction m with
  | nil => simp [vertical]
  | cons x m ih =>
    simp only [vertical, List.flatMap_cons] at ih ⊢
    rw [List.length_append, ih, List.length_replicate, List.length_cons]
    ring

theorem oneHot_entry (nP c : Nat) (v : List R) (hc : c < nP) :
    ((List.range nP).map fun k => if c = k then v.getD k 0 else 0).sum = v.getD c 0 := by
  induction nP with
  | zero => omega
  | succ n ih =>
    rw [List.range_succ, List.map_append, List.sum_append]
    by_cases h : c = n
    · subst h
      have hz : ((List.range c).map fun k => if c = k then v.getD k 0 else 0).sum = 0 := by
        apply List.sum_eq_zero
        intro x hx
        simp only [List.mem_map, List.mem_range] at hx
        obtain ⟨k, hk, rfl⟩ := hx
        rw [if_neg (by omega)]
      rw [hz]; simp
    · rw [ih (by omega)]
      simp [h]

/-- C52. The derivative of `SurjectVertical1D` is the map itself, which is linear. -/
theorem C52_vertical_deriv (rep : Nat) (m d : List R) :
    verticalDeriv rep d.length d = vertical rep d ∧
    (m.length = d.length → vertical rep (List.zipWith (· + ·) m d) =
      List.zipWith (· + ·) (vertical rep m) (vertical rep d)) := by
  constructor
  · apply List.ext_getElem?
    intro r
    by_cases hr : r < d.length * rep
    · have hrep : 0 < rep := by
        rcases Nat.eq_zero_or_pos rep with h | h
        · simp [h] at hr
        · exact h
      have ha : r / rep < d.length := by rw [Nat.div_lt_iff_lt_mul hrep]; exact hr
      have hb := Nat.mod_lt r hrep
      have h1 := vertical_getElem rep d (r / rep) (r % rep) ha hb
      rw [Nat.div_add_mod'] at h1
      rw [h1, verticalDeriv, List.getElem?_map, List.getElem?_range hr, Option.map_some]
      have h2 : (List.replicate rep (1 : R)).getD (r % rep) 0 = 1 := by simp [hb]
      simp only [h2, mul_one, ite_mul, one_mul, zero_mul]
      rw [oneHot_entry _ _ _ ha, List.getElem?_eq_getElem ha]
      simp [ha]
    · rw [List.getElem?_eq_none (by simp [verticalDeriv]; omega),
        List.getElem?_eq_none (by rw [(C52_vertical rep d).1]; omega)]
  · intro h
    induction m generalizing d with
    | nil => cases d <;> simp [vertical]
    | cons x m ih =>
      cases d with
      | nil => simp at h
      | cons y d =>
        have := ih d (by simpa using h)
        simp only [vertical, List.zipWith_cons_cons, List.flatMap_cons] at this ⊢
        rw [this, List.zipWith_append (by simp)]
        simp

theorem mkvc3_getElem {α : Type} (nx ny nz : Nat) (A : Nat → Nat → Nat → α) (i j k : Nat)
    (hi : i < nx) (hj : j < ny) (hk : k < nz) :
    (mkvc3 nx ny nz A)[i + nx * (j + ny * k)]? = some (A i j k) := by
  have hlt : i + nx * (j + ny * k) < nx * ny * nz := by
    have h1 : j + ny * k + 1 ≤ ny * nz := by nlinarith
    nlinarith
  have e1 : (i + nx * (j + ny * k)) % nx = i := by
    rw [Nat.add_mul_mod_self_left, Nat.mod_eq_of_lt hi]
  have e2 : (i + nx * (j + ny * k)) / nx = j + ny * k := by
    rw [Nat.add_mul_div_left _ _ (by omega), Nat.div_eq_of_lt hi, zero_add]
  have e3 : (j + ny * k) % ny = j := by
    rw [Nat.add_mul_mod_self_left, Nat.mod_eq_of_lt hj]
  have e4 : (j + ny * k) / ny = k := by
    rw [Nat.add_mul_div_left _ _ (by omega), Nat.div_eq_of_lt hj, zero_add]
  simp only [mkvc3, List.getElem?_map, List.getElem?_range hlt, Option.map_some]
  rw [← Nat.div_div_eq_div_mul, e1, e2, e3, e4]

/-- The model index of 3-D cell `(i, j, k)`: drop the coordinate along the normal, keep
Fortran order. -/
def planeIndex (nx ny : Nat) (i j k : Nat) : Normal → Nat
  | .z => i + nx * j
  | .y => i + nx * k
  | .x => j + ny * k

/-- C52. `Surject2Dto3D`: 3-D cell `(i, j, k)` (Fortran order) takes the model value at the
remaining two coordinates, so the output does not vary along the normal. -/
theorem C52_2Dto3D {α : Type} (nx ny nz : Nat) (normal : Normal) (m : List α)
    (i j k : Nat) (hi : i < nx) (hj : j < ny) (hk : k < nz) :
    (to3D nx ny nz normal m)[i + nx * (j + ny * k)]? = some m[planeIndex nx ny i j k normal]? ∧
    planeIndex nx ny i j k normal < nP2D nx ny nz normal := by
  constructor
  · cases normal <;> simp only [to3D, planeIndex] <;>
      rw [mkvc3_getElem nx ny nz _ i j k hi hj hk] <;> rfl
  · cases normal <;> simp only [planeIndex, nP2D] <;> nlinarith

omit [CommRing R] in
theorem to3D_map {α β : Type} (f : α → β) (nx ny nz : Nat) (normal : Normal) (m : List α) :
    to3D nx ny nz normal (m.map f) = (to3D nx ny nz normal m).map (Option.map f) := by
  cases normal <;> simp [to3D, mkvc3, reshapeF]

/-- C52. The derivative of `Surject2Dto3D`, built by mapping `arange(nP)`, applied to a
vector is the map itself applied to it: the map is linear and `deriv` is exact. -/
theorem C52_2Dto3D_deriv (nx ny nz : Nat) (normal : Normal) (v : List R)
    (hv : v.length = nP2D nx ny nz normal) :
    (to3DDeriv nx ny nz normal v).map some = to3D nx ny nz normal v := by
  have hmap : (List.range v.length).map (fun i => v.getD i 0) = v := by
    apply List.ext_getElem?
    intro i
    by_cases hi : i < v.length
    · simp [hi]
    · simp at hi; simp [hi]
  conv_rhs => rw [← hmap, to3D_map, hv]
  simp only [to3DDeriv, oneHotMul, List.map_map]
  apply List.map_congr_left
  intro o ho
  obtain ⟨n, hn⟩ := List.mem_iff_getElem?.mp ho
  have hlen : n < nx * ny * nz := by
    have := (List.getElem?_eq_some_iff.mp hn).1
    cases normal <;> simpa [to3D, mkvc3] using this
  have hx : 0 < nx := by
    rcases Nat.eq_zero_or_pos nx with h | h
    · subst h; simp at hlen
    · exact h
  have hy : 0 < ny := by
    rcases Nat.eq_zero_or_pos ny with h | h
    · subst h; simp at hlen
    · exact h
  have hk : n / nx / ny < nz := by
    rw [Nat.div_div_eq_div_mul]
    exact Nat.div_lt_of_lt_mul hlen
  have hdec : n % nx + nx * (n / nx % ny + ny * (n / nx / ny)) = n := by
    rw [Nat.mod_add_div, Nat.mod_add_div]
  have hc := C52_2Dto3D nx ny nz normal (List.range (nP2D nx ny nz normal))
    (n % nx) (n / nx % ny) (n / nx / ny) (Nat.mod_lt _ hx) (Nat.mod_lt _ hy) hk
  rw [hdec, hn, List.getElem?_range hc.2] at hc
  have ho' := Option.some.inj hc.1
  subst ho'
  simp only [Function.comp_apply, Option.getD_some, Option.map_some, Option.some.injEq]
  exact oneHot_entry _ _ _ hc.2

theorem units_sum_one (masks : List (List Bool)) (m : List R) (r : Nat) :
    (∀ k : Nat, k < masks.length → (masks.getD k []).getD r false = false) →
    ((masks.zip m).map fun p => if p.1.getD r false then p.2 else 0).sum = 0 := by
  intro h
  apply List.sum_eq_zero
  intro x hx
  simp only [List.mem_map] at hx
  obtain ⟨p, hp, rfl⟩ := hx
  obtain ⟨k, hk, hk'⟩ := List.mem_iff_getElem.mp (List.of_mem_zip hp).1
  have := h k hk
  have e : masks.getD k [] = p.1 := by
    rw [List.getD_eq_getElem?_getD, List.getElem?_eq_getElem hk, Option.getD_some, hk']
  rw [e] at this
  rw [this]; simp

/-- C52. `SurjectUnits`: a cell that lies in exactly one unit takes that unit's value, a cell
in no unit is zero. -/
theorem C52_units : ∀ (masks : List (List Bool)) (nC : Nat) (m : List R) (r : Nat),
    m.length = masks.length → r < nC →
    (∀ k : Nat, k < masks.length → (masks.getD k []).getD r false = true →
      (∀ j : Nat, j < masks.length → (masks.getD j []).getD r false = true → j = k) →
      (units masks nC m)[r]? = m[k]?) ∧
    ((∀ k : Nat, k < masks.length → (masks.getD k []).getD r false = false) →
      (units masks nC m)[r]? = some 0) := by
  intro masks nC m r hm hr
  have hg : (units masks nC m)[r]?
      = some ((masks.zip m).map fun p => if p.1.getD r false then p.2 else 0).sum := by
    simp only [units, List.getElem?_map, List.getElem?_range hr, Option.map_some]
  rw [hg]
  refine ⟨?_, fun h => by rw [units_sum_one masks m r h]⟩
  intro k hk hin huniq
  clear hg hr nC
  induction masks generalizing m k with
  | nil => simp at hk
  | cons a masks ih =>
    cases m with
    | nil => simp at hm
    | cons x m =>
      simp only [List.zip_cons_cons, List.map_cons, List.sum_cons]
      cases k with
      | zero =>
        have ha : a.getD r false = true := by simpa using hin
        have hrest : ∀ k : Nat, k < masks.length → (masks.getD k []).getD r false = false := by
          intro j hj
          by_contra hne
          have h1 := huniq (j + 1) (by simpa using hj)
            (by simpa [List.getD_cons_succ] using hne)
          omega
        rw [units_sum_one masks m r hrest, ha]
        simp
      | succ k =>
        have ha : a.getD r false = false := by
          by_contra hne
          have := huniq 0 (by simp) (by simpa using hne)
          omega
        rw [ha]
        simp only [Bool.false_eq_true, if_false, zero_add, List.getElem?_cons_succ]
        exact ih m (by simpa using hm) k (by simpa using hk) (by simpa using hin)
          (fun j hj hin' => by
            have := huniq (j + 1) (by simpa using hj) (by simpa using hin')
            omega)

/-- C52. The units map is linear, with `deriv(m) v = P v`. -/
theorem C52_units_linear (masks : List (List Bool)) (nC : Nat) (m d : List R)
    (hm : m.length = masks.length) (hd : d.length = masks.length) :
    units masks nC (List.zipWith (· + ·) m d)
      = List.zipWith (· + ·) (units masks nC m) (units masks nC d) := by
  have key : ∀ (masks : List (List Bool)) (m d : List R) (r : Nat), m.length = masks.length →
      d.length = masks.length →
      ((masks.zip (List.zipWith (· + ·) m d)).map fun p => if p.1.getD r false then p.2 else 0).sum
      = ((masks.zip m).map fun p => if p.1.getD r false then p.2 else 0).sum +
        ((masks.zip d).map fun p => if p.1.getD r false then p.2 else 0).sum := by
    intro masks
    induction masks with
    | nil => intro m d r _ _; simp
    | cons a masks ih =>
      intro m d r hm hd
      cases m with
      | nil => simp at hm
      | cons x m => cases d with
        | nil => simp at hd
        | cons y d =>
          simp only [List.zipWith_cons_cons, List.zip_cons_cons, List.map_cons, List.sum_cons]
          rw [ih m d r (by simpa using hm) (by simpa using hd)]
          split <;> ring
  simp only [units]
  rw [List.zipWith_map, List.zipWith_self]
  apply List.map_congr_left
  intro r _
  exact key masks m d r hm hd

example : to3D 2 3 2 .y [10, 11, 12, 13]
    = [10, 11, 10, 11, 10, 11, 12, 13, 12, 13, 12, 13].map some := by decide

example : units (R := ℤ) [[true, false, false], [false, false, true]] 3 [5, 7] = [5, 0, 7] := by
  decide

end Props
end Verif.Maps.Surject
