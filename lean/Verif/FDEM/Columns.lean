import Verif.FDEM.Sources

/-!
Fields of several sources at once: `f[:, 'b']` and `f[source_list, 'b']`, the functions of
`simpeg/electromagnetics/frequency_domain/fields.py` which turn the array of solutions, one column per
source, into the array of another field.  The receivers access the fields one source at a time
(`receivers.py`, `f[src, ...]`), which is what `Verif/FDEM/Sim.lean` models.

An array is the list of its columns.
-/

namespace Verif.FDEM
open Matrix Verif.EM

noncomputable section

variable {p s t ε φ : Type} [Fintype p] [Fintype s] [Fintype t] [Fintype ε] [Fintype φ]
  [DecidableEq ε] [DecidableEq φ]

/-- `for i, src in enumerate(source_list): b[:, i] = g(src, b[:, i])`; also the loop with
`ii = i + src._fields_per_source`, `b[:, i:ii] = …`, `i = ii` (`fields.py` 484-490), as frequency domain
sources have one field. -/
def cols {S α : Type} (g : S → α → α) : ℕ → List S → List α → List α
  | _, [], b => b
  | i, src :: l, b => cols g (i + 1) l (b.modify i (g src))

/-- The loop of `_bSecondary` of `Fields3DElectricField` (`fields.py` 505-514): `i` stays zero. -/
def colsStuck {S α : Type} (g : S → α → α) : List S → List α → List α
  | [], b => b
  | src :: l, b => colsStuck g l (b.modify 0 (g src))

/-- `np.zeros([n, nSrc])` with a primary field added to each column (`fields.py` 403-424, 469-491,
775-789, 836-852, 1141-1155, 1215-1231, 1570-1584, 1630-1646). -/
def primary {S g : Type} (P : S → g → ℂ) (srcs : List S) (n : ℕ) : List (g → ℂ) :=
  cols (fun src c => c + P src) 0 srcs (List.replicate n 0)

/-- Elementwise sum of two arrays. -/
def addCols {g : Type} (a b : List (g → ℂ)) : List (g → ℂ) := List.zipWith (· + ·) a b

/-! ### `Fields3DElectricField` -/

/-- `_e` (65-86, 403-435). -/
def EB.eEs (_o : EB p s t ε φ) (m : p → ℝ) (srcs : List (SrcEB p ε φ)) (U : List (ε → ℂ)) :
    List (ε → ℂ) := addCols (primary (fun src => src.eP.val m) srcs U.length) U

/-- `_bSecondary` (493-515). -/
def EB.eBss (o : EB p s t ε φ) (m : p → ℝ) (srcs : List (SrcEB p ε φ)) (U : List (ε → ℂ)) :
    List (φ → ℂ) :=
  colsStuck (fun src c => (-1 / iw src.freq) • c + (1 / iw src.freq) • src.sm.val m) srcs
    (U.map fun u => o.C *ᵥ u)

/-- `_b` (88-109). -/
def EB.eBb (o : EB p s t ε φ) (m : p → ℝ) (srcs : List (SrcEB p ε φ)) (U : List (ε → ℂ)) :
    List (φ → ℂ) := addCols (primary (fun src => src.bP m) srcs U.length) (o.eBss m srcs U)

/-- `_j` (556-565). -/
def EB.eJs (o : EB p s t ε φ) (m : p → ℝ) (srcs : List (SrcEB p ε φ)) (U : List (ε → ℂ)) :
    List (ε → ℂ) := (o.eEs m srcs U).map fun x => o.MeI *ᵥ (o.sigma.mat ℂ m *ᵥ x)

/-- `_h` (613-623). -/
def EB.eHs (o : EB p s t ε φ) (m : p → ℝ) (srcs : List (SrcEB p ε φ)) (U : List (ε → ℂ)) :
    List (φ → ℂ) := (o.eBb m srcs U).map fun x => o.MfI *ᵥ (o.mui.mat ℂ m *ᵥ x)

/-- The alias functions of `Fields3DElectricField` (366-380). -/
def EB.eCols (o : EB p s t ε φ) (m : p → ℝ) (srcs : List (SrcEB p ε φ)) (U : List (ε → ℂ)) :
    (k : FldEB) → List (LocEB ε φ k → ℂ)
  | .e => o.eEs m srcs U
  | .b => o.eBb m srcs U
  | .bSecondary => o.eBss m srcs U
  | .h => o.eHs m srcs U
  | .j => o.eJs m srcs U

/-! ### `Fields3DMagneticFluxDensity` -/

/-- `_b` (88-109, 775-801). -/
def EB.bBb (_o : EB p s t ε φ) (m : p → ℝ) (srcs : List (SrcEB p ε φ)) (U : List (φ → ℂ)) :
    List (φ → ℂ) := addCols (primary (fun src => src.bP m) srcs srcs.length) U

/-- `_e` (65-86, 836-878). -/
def EB.bEs (o : EB p s t ε φ) (m : p → ℝ) (srcs : List (SrcEB p ε φ)) (U : List (φ → ℂ)) :
    List (ε → ℂ) :=
  addCols (primary (fun src => src.eP.val m) srcs U.length)
    ((cols (fun src c => c + -src.se.val m) 0 srcs
      (U.map fun u => o.Cᵀ *ᵥ (o.mui.mat ℂ m *ᵥ u))).map fun c => o.sigma.inv ℂ m *ᵥ c)

/-- `_j` (932-951). -/
def EB.bJs (o : EB p s t ε φ) (m : p → ℝ) (srcs : List (SrcEB p ε φ)) (U : List (φ → ℂ)) :
    List (ε → ℂ) :=
  (cols (fun src c => c - src.se.val m) 0 srcs
    (U.map fun u => o.Cᵀ *ᵥ (o.mui.mat ℂ m *ᵥ u))).map fun c => o.MeI *ᵥ c

/-- `_h` (992-1001). -/
def EB.bHs (o : EB p s t ε φ) (m : p → ℝ) (srcs : List (SrcEB p ε φ)) (U : List (φ → ℂ)) :
    List (φ → ℂ) := (o.bBb m srcs U).map fun x => o.MfI *ᵥ (o.mui.mat ℂ m *ᵥ x)

/-- The alias functions of `Fields3DMagneticFluxDensity` (733-750). -/
def EB.bCols (o : EB p s t ε φ) (m : p → ℝ) (srcs : List (SrcEB p ε φ)) (U : List (φ → ℂ)) :
    (k : FldEB) → List (LocEB ε φ k → ℂ)
  | .e => o.bEs m srcs U
  | .b => o.bBb m srcs U
  | .bSecondary => U
  | .h => o.bHs m srcs U
  | .j => o.bJs m srcs U

/-! ### `Fields3DCurrentDensity` -/

/-- `_j` (1141-1181). -/
def HJ.jJs (_o : HJ p s t ε φ) (m : p → ℝ) (srcs : List (SrcHJ p ε φ)) (U : List (φ → ℂ)) :
    List (φ → ℂ) := addCols (primary (fun src => src.jP m) srcs U.length) U

/-- `_h` (129-150, 1215-1260). -/
def HJ.jHs (o : HJ p s t ε φ) (m : p → ℝ) (srcs : List (SrcHJ p ε φ)) (U : List (φ → ℂ)) :
    List (ε → ℂ) :=
  addCols (primary (fun src => src.hP m) srcs U.length)
    ((cols (fun src c => (-1 / iw src.freq) • c + (1 / iw src.freq) • src.sm.val m) 0 srcs
      (U.map fun u => o.Cᵀ *ᵥ (o.rho.mat ℂ m *ᵥ u))).map fun c => o.mu.inv ℂ m *ᵥ c)

/-- `_e` (1347-1357). -/
def HJ.jEs (o : HJ p s t ε φ) (m : p → ℝ) (srcs : List (SrcHJ p ε φ)) (U : List (φ → ℂ)) :
    List (φ → ℂ) := (o.jJs m srcs U).map fun x => o.MfI *ᵥ (o.rho.mat ℂ m *ᵥ x)

/-- `_b` (1403-1413). -/
def HJ.jBs (o : HJ p s t ε φ) (m : p → ℝ) (srcs : List (SrcHJ p ε φ)) (U : List (φ → ℂ)) :
    List (ε → ℂ) := (o.jHs m srcs U).map fun x => o.MeI *ᵥ (o.mu.mat ℂ m *ᵥ x)

/-- The alias functions of `Fields3DCurrentDensity` (1100-1115). -/
def HJ.jCols (o : HJ p s t ε φ) (m : p → ℝ) (srcs : List (SrcHJ p ε φ)) (U : List (φ → ℂ)) :
    (k : FldHJ) → List (LocHJ ε φ k → ℂ)
  | .j => o.jJs m srcs U
  | .h => o.jHs m srcs U
  | .e => o.jEs m srcs U
  | .b => o.jBs m srcs U

/-! ### `Fields3DMagneticField` -/

/-- `_h` (129-150, 1570-1596). -/
def HJ.hHs (_o : HJ p s t ε φ) (m : p → ℝ) (srcs : List (SrcHJ p ε φ)) (U : List (ε → ℂ)) :
    List (ε → ℂ) := addCols (primary (fun src => src.hP m) srcs U.length) U

/-- `_j` (152-173, 1630-1662). -/
def HJ.hJs (o : HJ p s t ε φ) (m : p → ℝ) (srcs : List (SrcHJ p ε φ)) (U : List (ε → ℂ)) :
    List (φ → ℂ) :=
  addCols (primary (fun src => src.jP m) srcs U.length)
    (cols (fun src c => c + -src.se m) 0 srcs (U.map fun u => o.C *ᵥ u))

/-- `_e` (1698-1708). -/
def HJ.hEs (o : HJ p s t ε φ) (m : p → ℝ) (srcs : List (SrcHJ p ε φ)) (U : List (ε → ℂ)) :
    List (φ → ℂ) := (o.hJs m srcs U).map fun x => o.MfI *ᵥ (o.rho.mat ℂ m *ᵥ x)

/-- `_b` (1751-1761). -/
def HJ.hBs (o : HJ p s t ε φ) (m : p → ℝ) (srcs : List (SrcHJ p ε φ)) (U : List (ε → ℂ)) :
    List (ε → ℂ) := (o.hHs m srcs U).map fun x => o.MeI *ᵥ (o.mu.mat ℂ m *ᵥ x)

/-- The alias functions of `Fields3DMagneticField` (1529-1544). -/
def HJ.hCols (o : HJ p s t ε φ) (m : p → ℝ) (srcs : List (SrcHJ p ε φ)) (U : List (ε → ℂ)) :
    (k : FldHJ) → List (LocHJ ε φ k → ℂ)
  | .j => o.hJs m srcs U
  | .h => o.hHs m srcs U
  | .e => o.hEs m srcs U
  | .b => o.hBs m srcs U

end

end Verif.FDEM

namespace Verif.FDEM.Props
open Matrix Verif.FDEM Verif.EM Verif.EM.Props

noncomputable section

set_option linter.unusedSectionVars false

variable {p s t ε φ : Type} [Fintype p] [Fintype s] [Fintype t] [Fintype ε] [Fintype φ]
  [DecidableEq ε] [DecidableEq φ]

theorem cols_append {S α : Type} (g : S → α → α) (srcs : List S) : ∀ (a b : List α),
    b.length = srcs.length → cols g a.length srcs (a ++ b) = a ++ List.zipWith g srcs b := by
  induction srcs with
  | nil =>
    intro a b h
    rw [List.length_eq_zero_iff.1 h]
    simp [cols]
  | cons src l ih =>
    intro a b h
    cases b with
    | nil => simp at h
    | cons c b =>
      have h1 : (a ++ c :: b).modify a.length (g src) = (a ++ [g src c]) ++ b := by
        induction a with
        | nil => rfl
        | cons x a ih => simpa using ih
      rw [cols, h1]
      have h2 := ih (a ++ [g src c]) b (by simpa using h)
      rw [List.length_append] at h2
      rw [List.zipWith_cons_cons]
      simpa using h2

theorem cols_eq {S α : Type} (g : S → α → α) (srcs : List S) (b : List α) (h : b.length = srcs.length) :
    cols g 0 srcs b = List.zipWith g srcs b := by
  simpa using cols_append g srcs [] b h

theorem primary_eq {S g : Type} (P : S → g → ℂ) (srcs : List S) :
    primary P srcs srcs.length = srcs.map P := by
  rw [primary, cols_eq _ _ _ (by simp)]
  induction srcs with
  | nil => rfl
  | cons a l ih => simp [List.replicate_succ, ih]

theorem addCols_map {S g U : Type} (P : S → g → ℂ) (Q : S → U → g → ℂ) (srcs : List S) (us : List U)
    (h : us.length = srcs.length) :
    addCols (srcs.map P) (List.zipWith Q srcs us) =
      List.zipWith (fun src u => P src + Q src u) srcs us := by
  unfold addCols
  induction srcs generalizing us with
  | nil => simp
  | cons a l ih =>
    cases us with
    | nil => simp at h
    | cons c us => simp [ih us (by simpa using h)]

theorem zipWith_right {S U : Type} (srcs : List S) (us : List U) (h : us.length = srcs.length) :
    List.zipWith (fun (_ : S) u => u) srcs us = us := by
  induction srcs generalizing us with
  | nil =>
    rw [List.length_eq_zero_iff.1 h]
    simp
  | cons a l ih =>
    cases us with
    | nil => simp at h
    | cons c us => simp [ih us (by simpa using h)]

theorem addCols_right {S g : Type} (P : S → g → ℂ) (srcs : List S) (us : List (g → ℂ))
    (h : us.length = srcs.length) :
    addCols (srcs.map P) us = List.zipWith (fun src u => P src + u) srcs us := by
  have := addCols_map P (fun _ u => u) srcs us h
  rwa [zipWith_right _ _ h] at this

/-- **C71.** Magnetic flux density formulation: the array of a field for several sources has as columns
the fields of the single sources. -/
theorem C71_magnetic_flux_density (o : EB p s t ε φ) (m : p → ℝ) (srcs : List (SrcEB p ε φ))
    (U : List (φ → ℂ)) (h : U.length = srcs.length) (k : FldEB) :
    o.bCols m srcs U k = List.zipWith (fun src u => (o.bFld src k).val m u) srcs U := by
  cases k with
  | e =>
    change o.bEs m srcs U = _
    rw [EB.bEs, h, primary_eq, cols_eq _ _ _ (by simp [h]), List.zipWith_map_right, List.map_zipWith,
      addCols_map _ _ _ _ h]
    rfl
  | b =>
    change o.bBb m srcs U = _
    rw [EB.bBb, primary_eq, addCols_right _ _ _ h]
    rfl
  | bSecondary => exact (zipWith_right srcs U h).symm
  | h =>
    change o.bHs m srcs U = _
    rw [EB.bHs, EB.bBb, primary_eq, addCols_right _ _ _ h, List.map_zipWith]
    rfl
  | j =>
    change o.bJs m srcs U = _
    rw [EB.bJs, cols_eq _ _ _ (by simp [h]), List.zipWith_map_right, List.map_zipWith]
    rfl

/-- **C71.** The same for the current density formulation. -/
theorem C71_current_density (o : HJ p s t ε φ) (m : p → ℝ) (srcs : List (SrcHJ p ε φ))
    (U : List (φ → ℂ)) (h : U.length = srcs.length) (k : FldHJ) :
    o.jCols m srcs U k = List.zipWith (fun src u => (o.jFld src k).val m u) srcs U := by
  have hh : o.jHs m srcs U = List.zipWith (fun src u => (o.jH src).val m u) srcs U := by
    rw [HJ.jHs, h, primary_eq, cols_eq _ _ _ (by simp [h]), List.zipWith_map_right, List.map_zipWith,
      addCols_map _ _ _ _ h]
    rfl
  have hj : o.jJs m srcs U = List.zipWith (fun src u => (o.jJ src).val m u) srcs U := by
    rw [HJ.jJs, h, primary_eq, addCols_right _ _ _ h]
    rfl
  cases k with
  | j => exact hj
  | h => exact hh
  | e =>
    change o.jEs m srcs U = _
    rw [HJ.jEs, hj, List.map_zipWith]
    rfl
  | b =>
    change o.jBs m srcs U = _
    rw [HJ.jBs, hh, List.map_zipWith]
    rfl

/-- **C71.** The same for the magnetic field formulation. -/
theorem C71_magnetic_field (o : HJ p s t ε φ) (m : p → ℝ) (srcs : List (SrcHJ p ε φ))
    (U : List (ε → ℂ)) (h : U.length = srcs.length) (k : FldHJ) :
    o.hCols m srcs U k = List.zipWith (fun src u => (o.hFld src k).val m u) srcs U := by
  have hh : o.hHs m srcs U = List.zipWith (fun src u => (o.hH src).val m u) srcs U := by
    rw [HJ.hHs, h, primary_eq, addCols_right _ _ _ h]
    rfl
  have hj : o.hJs m srcs U = List.zipWith (fun src u => (o.hJ src).val m u) srcs U := by
    rw [HJ.hJs, h, primary_eq, cols_eq _ _ _ (by simp [h]), List.zipWith_map_right,
      addCols_map _ _ _ _ h]
    rfl
  cases k with
  | j => exact hj
  | h => exact hh
  | e =>
    change o.hEs m srcs U = _
    rw [HJ.hEs, hj, List.map_zipWith]
    rfl
  | b =>
    change o.hBs m srcs U = _
    rw [HJ.hBs, hh, List.map_zipWith]
    rfl

/-- **C71, in part.** The electric field formulation: `e` and `j` for any number of sources, the other
fields for one source only.  Missing: `b`, `bSecondary` and `h` for several sources, for which the
statement is false (`C71_violated_electric_field`). -/
theorem C71_electric_field_partial (o : EB p s t ε φ) (m : p → ℝ) (srcs : List (SrcEB p ε φ))
    (U : List (ε → ℂ)) (h : U.length = srcs.length) (k : FldEB)
    (hk : k = .e ∨ k = .j ∨ srcs.length ≤ 1) :
    o.eCols m srcs U k = List.zipWith (fun src u => (o.eFld src k).val m u) srcs U := by
  have he : o.eEs m srcs U = List.zipWith (fun src u => (o.eE src).val m u) srcs U := by
    rw [EB.eEs, h, primary_eq, addCols_right _ _ _ h]
    rfl
  have hst : srcs.length ≤ 1 → o.eBss m srcs U =
      List.zipWith (fun src u => (o.eBs src).val m u) srcs U := by
    intro h1
    match srcs, U, h, h1 with
    | [], [], _, _ => rfl
    | [src], [u], _, _ => rfl
  have hb : srcs.length ≤ 1 → o.eBb m srcs U =
      List.zipWith (fun src u => (o.eB src).val m u) srcs U := by
    intro h1
    rw [EB.eBb, hst h1, h, primary_eq, addCols_map _ _ _ _ h]
    rfl
  cases k with
  | e => exact he
  | j =>
    change o.eJs m srcs U = _
    rw [EB.eJs, he, List.map_zipWith]
    rfl
  | bSecondary => exact hst (by simpa using hk)
  | b => exact hb (by simpa using hk)
  | h =>
    change o.eHs m srcs U = _
    rw [EB.eHs, hb (by simpa using hk), List.map_zipWith]
    rfl

/-- **C71, violated.** The electric field formulation with two sources: `f[:, 'bSecondary']`,
`f[:, 'b']` and `f[:, 'h']` differ from the fields of the single sources; the loop over the sources
works on the first column only. -/
theorem C71_violated_electric_field :
    ∃ (o : EB Unit Unit Unit Unit Unit) (m : Unit → ℝ) (srcs : List (SrcEB Unit Unit Unit))
      (U : List (Unit → ℂ)), U.length = srcs.length ∧ (∀ src ∈ srcs, src.freq ≠ 0) ∧
      ∀ k ∈ [FldEB.b, .bSecondary, .h], o.eCols m srcs U k ≠
        List.zipWith (fun src u => (o.eFld src k).val m u) srcs U := by
  have hw := iw_ne (f := 1) (by norm_num)
  set o := toyEB 0 (toyConst 1) (toyConst 1) with ho
  set src : SrcEB Unit Unit Unit := rawVecEB 1 (fun _ => 1) 0 [] with hs
  have hC : o.C = 0 := by
    ext i j
    simp [ho, toyEB, EB.C]
  have h1 : ((o.eBs src).val (fun _ => 0) 0) () = 1 / iw 1 := by
    simp [EB.eBs, hs, rawVecEB, Term.fixed, hC]
  have h2 : o.eCols (fun _ => 0) [src, src] [0, 0] .bSecondary =
      [(-1 / iw 1) • ((-1 / iw 1) • (0 : Unit → ℂ) + (1 / iw 1) • fun _ => (1 : ℂ)) +
        (1 / iw 1) • fun _ => (1 : ℂ), 0] := by
    simp only [EB.eCols, EB.eBss, hC, Matrix.zero_mulVec, List.map_cons, List.map_nil]
    rfl
  have hm : o.mui.mat ℂ (fun _ => 0) = 1 := by
    ext i j
    simp [ho, toyEB, toyConst, Mass.mat, PDE.Inner.mat]
  have hI : o.MfI = 1 := by
    ext i j
    simp [ho, toyEB, EB.MfI]
  have hne : (1 / iw 1 : ℂ) ≠ 0 := one_div_ne_zero hw
  have hb : o.eCols (fun _ => 0) [src, src] [0, 0] .b = o.eCols (fun _ => 0) [src, src] [0, 0] .bSecondary := by
    change addCols (primary (fun src => src.bP fun _ => 0) [src, src] [src, src].length)
      (o.eCols (fun _ => 0) [src, src] [0, 0] .bSecondary) = _
    rw [h2, primary_eq _ [src, src]]
    simp [addCols, hs, rawVecEB]
  have hh : o.eCols (fun _ => 0) [src, src] [0, 0] .h = o.eCols (fun _ => 0) [src, src] [0, 0] .b := by
    change (o.eCols (fun _ => 0) [src, src] [0, 0] .b).map
      (fun x => o.MfI *ᵥ (o.mui.mat ℂ (fun _ => 0) *ᵥ x)) = _
    simp [hm, hI]
  have hvb : ((o.eB src).val (fun _ => 0) 0) () = 1 / iw 1 := by
    rw [← h1]
    simp [EB.eB, hs, rawVecEB]
  have hvh : ((o.eH src).val (fun _ => 0) 0) () = 1 / iw 1 := by
    rw [← hvb]
    simp [EB.eH, hm, hI]
  refine ⟨o, fun _ => 0, [src, src], [0, 0], rfl, ?_, ?_⟩
  · intro x hx
    have : x = src := by simpa using hx
    rw [this]
    exact one_ne_zero
  · intro k hk heq
    simp only [List.mem_cons, List.not_mem_nil, or_false] at hk
    rcases hk with rfl | rfl | rfl
    · rw [hb, h2] at heq
      have := congrArg (fun l => l.getD 1 0 ()) heq
      simp only [List.zipWith_cons_cons, List.getD_cons_succ, List.getD_cons_zero, EB.eFld] at this
      rw [hvb] at this
      exact hne this.symm
    · rw [h2] at heq
      have := congrArg (fun l => l.getD 1 0 ()) heq
      simp only [List.zipWith_cons_cons, List.getD_cons_succ, List.getD_cons_zero, EB.eFld] at this
      rw [h1] at this
      exact hne this.symm
    · rw [hh, hb, h2] at heq
      have := congrArg (fun l => l.getD 1 0 ()) heq
      simp only [List.zipWith_cons_cons, List.getD_cons_succ, List.getD_cons_zero, EB.eFld] at this
      rw [hvh] at this
      exact hne this.symm

end

end Verif.FDEM.Props
