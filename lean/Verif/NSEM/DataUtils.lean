import Verif.NSEM.Records
import Mathlib.LinearAlgebra.Matrix.Determinant.Basic
import Mathlib.LinearAlgebra.Matrix.Trace
import Mathlib.LinearAlgebra.Matrix.Notation
import Mathlib.Analysis.SpecialFunctions.Trigonometric.Deriv
import Mathlib.Analysis.SpecialFunctions.Complex.Arg
import Mathlib.Analysis.SpecialFunctions.ExpDeriv
import Mathlib.Analysis.SpecialFunctions.Sqrt
import Mathlib.Tactic.LinearCombination
import Mathlib.Tactic.FieldSimp
import Mathlib.Tactic.FinCases

/-!
# Operations on natural source data

Model of `rotate_data`, `extract_data_info`, `resample_data`, `convert3Dto1Dobject`, `appResPhs` and
`skindepth`, `/repo/simpeg/electromagnetics/natural_source/utils/data_utils.py`.
-/

noncomputable section
namespace Verif.NSEM.Records
open Matrix

/-! ## Rotation -/

/-- `rotMat`, `data_utils.py` 35-37. -/
def rotMat (ang : ℝ) : Matrix (Fin 2) (Fin 2) ℂ :=
  let s := Real.sin (-(ang * (Real.pi / 180)));
  let c := Real.cos (-(ang * (Real.pi / 180)));
  !![(c : ℂ), -s; s, c]

/-- A complex number from its parts. -/
def toC (p : ℝ × ℝ) : ℂ := ⟨p.1, p.2⟩

/-- The parts of a complex number. -/
def ofC (z : ℂ) : ℝ × ℝ := (z.re, z.im)

/-- A row of `impData.reshape(-1, 2, 2)`; with NaN in one entry every entry of the products is NaN,
`data_utils.py` 26, 38-39. -/
def impOf (r : Row ℝ (ℝ × ℝ)) : Option (Matrix (Fin 2) (Fin 2) ℂ) :=
  match r.val "zxx", r.val "zxy", r.val "zyx", r.val "zyy" with
  | some a, some b, some c, some d => some !![toC a, toC b; toC c, toC d]
  | _, _, _, _ => none

/-- A record of `outRec`, `data_utils.py` 38-45. -/
def rotRow (ang : ℝ) (r : Row ℝ (ℝ × ℝ)) : Row ℝ (ℝ × ℝ) :=
  let Z := (impOf r).map fun Z => rotMat ang * (Z * (rotMat ang)ᵀ);
  ⟨r.freq, r.loc, fun k =>
    if k = "zxx" then Z.map fun Z => ofC (Z 0 0)
    else if k = "zxy" then Z.map fun Z => ofC (Z 0 1)
    else if k = "zyx" then Z.map fun Z => ofC (Z 1 0)
    else if k = "zyy" then Z.map fun Z => ofC (Z 1 1)
    else r.val k⟩

/-- `rotate_data`, `data_utils.py` 19-47. The records of a single source are a column; the
assignment of line 45 then needs a single record. -/
def rotate (d : List (Src ℝ)) (ang : ℝ) : Except Err (List (Src ℝ)) := do
  let t ← toRec "Complex" d
  match t with
  | .cplx flat names rows =>
    if !flat && rows.length != 1 then .error .valueError
    else fromRec "primary" (.cplx flat names (rows.map (rotRow ang)))
  | .real _ _ _ => .error .exception

/-! ## Lists of data, frequencies and types -/

variable {ν : Type}

/-- The names of a receiver, `data_utils.py` 70-73; `nD` names. -/
def names (rx : Rx ν) : List String :=
  (if rx.kind = .impedance then List.replicate rx.first.length ("z" ++ rx.orient) else []) ++
  (if rx.kind = .tipper then List.replicate rx.first.length ("t" ++ rx.orient) else [])

/-- `extract_data_info`, `data_utils.py` 51-74. -/
def info (d : List (Src ν)) : Except Err (List (Option ν) × List ν × List String) :=
  if (d.flatMap Src.rxs).isEmpty then .error .valueError
  else .ok (d.flatMap fun s => s.rxs.flatMap Prod.snd,
    d.flatMap fun s => s.rxs.flatMap fun rv => List.replicate rv.1.first.length s.freq,
    d.flatMap fun s => s.rxs.flatMap fun rv => names rv.1)

/-! ## Resampling -/

/-- The argument `locs` or `freqs` of `resample_data`: a string, an array (with its number of
entries), a list (of values), or something else. -/
inductive Arg (ν : Type)
  | str (s : String)
  | arr (l : List ν)
  | lst (l : List ν)
  | other

/-- The truth of `arg == "All"`: with `elementwise` the comparison of an array with a string is an
array, whose truth is an error unless it has one entry; older versions of numpy return `False`.
The truth of an empty array is taken to be `False`. -/
def isAll (elementwise : Bool) : Arg ν → Except Err Bool
  | .str s => .ok (s == "All")
  | .arr l => if elementwise && decide (1 < l.length) then .error .valueError else .ok false
  | .lst _ => .ok false
  | .other => .ok false

/-- The locations, `data_utils.py` 101-106. The data have no attribute `_unique_locations`. -/
def locsArg (ew : Bool) (a : Arg ν) : Except Err (List ν) := do
  if ← isAll ew a then .error .attributeError
  else match a with
    | .arr l => .ok l
    | _ => .error .exception

/-- The frequencies, `data_utils.py` 108-117; `fs` are those of the survey. -/
def freqsArg (ew : Bool) (fs : List ν) (a : Arg ν) : Except Err (List ν) := do
  if ← isAll ew a then .ok fs
  else match a with
    | .arr l => .ok l
    | .lst l => .ok l
    | _ => .error .exception

/-- The argument `rxs`: a string, a list of names, or something else. -/
inductive RxArg
  | str (s : String)
  | lst (l : List String)
  | other

/-- The class and orientation of a name, `data_utils.py` 123-131. -/
def rxOne (s : String) : Except Err (Kind × String) :=
  match s.toList with
  | [] => .error .indexError
  | c :: _ =>
    if c = 'z' then .ok (.impedance, mid s)
    else if c = 't' then .ok (.tipper, mid s)
    else .error .exception

/-- The receivers asked for, `data_utils.py` 119-134; `none` means all. -/
def rxsArg : RxArg → Except Err (Option (List (Kind × String)))
  | .str s => if s = "All" then .ok none else .error .exception
  | .lst l => do
    let r ← l.mapM rxOne
    .ok (some r)
  | .other => .error .exception

/-- Whether a receiver is asked for, `data_utils.py` 141-146. -/
def asked (r : Option (List (Kind × String))) (rx : Rx ν) : Bool :=
  match r with
  | none => true
  | some l => l.any fun p => decide (rx.kind = p.1) && isIn rx.orient p.2

/-- `resample_data`, `data_utils.py` 77-214. The pass over a receiver that is asked for begins with
`rx.locations.shape`; the locations of natural source receivers are a pair, which has no shape. With
no receiver asked for there is nothing to concatenate. -/
def resample [DecidableEq ν] (ew : Bool) (d : List (Src ν)) (fs : List ν) (locs freqs : Arg ν)
    (rxs : RxArg) : Except Err (List (Src ν)) := do
  let _ ← locsArg ew locs
  let fs ← freqsArg ew fs freqs
  let r ← rxsArg rxs
  if (d.filter fun s => s.freq ∈ fs).any fun s => s.rxs.any fun rv => asked r rv.1 then
    .error .attributeError
  else .error .valueError

/-! ## One-dimensional data -/

/-- One-dimensional data: the location, orientation of the receivers, the frequencies of the sources
and the data. -/
structure OneD where
  loc : List ℝ
  orient : String
  freqs : List ℝ
  data : List (Option ℝ)

/-- The number a record has in a field. -/
def column (name : String) (rows : List (Row ℝ ℝ)) : List (Option ℝ) := rows.map fun r => r.val name

/-- The distance test of `data_utils.py` 264-269. -/
def near (x y : List ℝ) : Bool :=
  decide (√((List.zipWith (fun a b => (a - b) ^ 2) x y).sum) < 1e-5)

/-- `convert3Dto1Dobject`, `data_utils.py` 217-296. The record array of a single source is no masked
array; its `data` cannot be flattened. Receivers are made without an orientation, which is then `xx`.
`np.unique` sorts the locations; here they keep their order. The fields appended for `det` are not
modelled by value (they are `none`); the two names of lines 239-241 count as fields. -/
def oneD (d : List (Src ℝ)) (rxType : String) : Except Err (List OneD) := do
  let t ← toRec "RealImag" d
  match t with
  | .real flat names rows =>
    if !flat then .error .attributeError
    else
      let fields := if isIn "det" rxType then names ++ ["zdetr", "zdeti"] else names
      let corr : ℝ := if isIn "xy" rxType then -1 else 1
      (rows.map Row.loc).dedup.mapM fun loc => do
        let sel := rows.filter fun r => near r.loc loc
        let parts ← sel.mapM fun r => do
          let cs ← ["r", "i"].mapM fun c =>
            if rxType ++ c ∈ fields then
              .ok ((column (rxType ++ c) (sel.filter fun q => q.freq = r.freq)).map
                fun v => v.map fun x => corr * x)
            else .error .valueError
          .ok cs.flatten
        if parts.flatten.length = 2 * sel.length then
          .ok (⟨loc, "xx", sel.map Row.freq, parts.flatten⟩ : OneD)
        else .error .valueError
  | .cplx _ _ _ => .error .exception

/-! ## Apparent resistivity and skin depth -/

/-- `appResPhs`, `data_utils.py` 300-303. -/
def appResPhs (freq : ℝ) (z : ℂ) : ℝ × ℝ :=
  (((1 / (8e-7 * Real.pi ^ 2)) / freq) * ‖z‖ ^ 2, z.arg * (180 / Real.pi))

/-- `mu_0`, taken to be `4e-7 π`. -/
def mu0 : ℝ := 4e-7 * Real.pi

/-- `skindepth`, `data_utils.py` 306-308. -/
def skindepth (rho freq : ℝ) : ℝ := √(rho * (1 / (freq * mu0 * Real.pi)))

/-! ## C168: rotation -/

/-- Full tensors at the locations of a source: eight receivers. -/
def tensorSrc (f : ℝ) (l : List (List ℝ × Matrix (Fin 2) (Fin 2) ℂ)) : Src ℝ :=
  let rx := fun o c => (⟨.impedance, o, c, 3, l.map Prod.fst, l.map Prod.fst⟩ : Rx ℝ);
  ⟨f, [(rx "xx" "real", l.map fun p => some (p.2 0 0).re), (rx "xx" "imag", l.map fun p => some (p.2 0 0).im),
    (rx "xy" "real", l.map fun p => some (p.2 0 1).re), (rx "xy" "imag", l.map fun p => some (p.2 0 1).im),
    (rx "yx" "real", l.map fun p => some (p.2 1 0).re), (rx "yx" "imag", l.map fun p => some (p.2 1 0).im),
    (rx "yy" "real", l.map fun p => some (p.2 1 1).re),
    (rx "yy" "imag", l.map fun p => some (p.2 1 1).im)]⟩

/-- The record of a tensor. -/
def tRow (f : ℝ) (p : List ℝ × Matrix (Fin 2) (Fin 2) ℂ) : Row ℝ ℝ :=
  ⟨f, p.1, fun k =>
    if k = "zyyi" then some (p.2 1 1).im else if k = "zyyr" then some (p.2 1 1).re
    else if k = "zyxi" then some (p.2 1 0).im else if k = "zyxr" then some (p.2 1 0).re
    else if k = "zxyi" then some (p.2 0 1).im else if k = "zxyr" then some (p.2 0 1).re
    else if k = "zxxi" then some (p.2 0 0).im else if k = "zxxr" then some (p.2 0 0).re else none⟩

theorem put_ok {ν : Type} {n : ℕ} (tab : String → List (Option ν)) {k : String} (hk : k ∈ dtRI)
    {vals : List (Option ν)} (h : vals.length = n) :
    put n tab k vals = .ok (Function.update tab k vals) := by
  unfold put
  rw [if_pos hk, if_pos h]

theorem tensor_rows (f : ℝ) (l : List (List ℝ × Matrix (Fin 2) (Fin 2) ℂ)) :
    srcRows (tensorSrc f l) = .ok (l.map (tRow f)) := by
  have k1 : key "xx" "real" = "zxxr" := by decide
  have k2 : key "xx" "imag" = "zxxi" := by decide
  have k3 : key "xy" "real" = "zxyr" := by decide
  have k4 : key "xy" "imag" = "zxyi" := by decide
  have k5 : key "yx" "real" = "zyxr" := by decide
  have k6 : key "yx" "imag" = "zyxi" := by decide
  have k7 : key "yy" "real" = "zyyr" := by decide
  have k8 : key "yy" "imag" = "zyyi" := by decide
  have hl : locsOf (tensorSrc f l) = .ok (l.map Prod.fst) := by
    simp [locsOf, tensorSrc]
  have hp : ∀ (tab : String → List (Option ℝ)) (k : String) (_ : k ∈ dtRI)
      (g : List ℝ × Matrix (Fin 2) (Fin 2) ℂ → Option ℝ),
      put (l.map Prod.fst).length tab k (l.map g) = .ok (Function.update tab k (l.map g)) := by
    intro tab k hk g
    exact put_ok tab hk (by simp)
  unfold srcRows
  rw [hl]
  simp only [bind, Except.bind]
  simp only [tensorSrc, List.any_cons, List.any_nil, List.foldlM_cons, List.foldlM_nil, k1, k2, k3, k4,
    k5, k6, k7, k8, bind, Except.bind, pure, Except.pure]
  rw [hp _ "zxxr" (by decide)]
  simp only
  rw [hp _ "zxxi" (by decide)]
  simp only
  rw [hp _ "zxyr" (by decide)]
  simp only
  rw [hp _ "zxyi" (by decide)]
  simp only
  rw [hp _ "zyxr" (by decide)]
  simp only
  rw [hp _ "zyxi" (by decide)]
  simp only
  rw [hp _ "zyyr" (by decide)]
  simp only
  rw [hp _ "zyyi" (by decide)]
  have hk : ¬ (decide (Kind.impedance = Kind.conductivity) || (decide (Kind.impedance = Kind.conductivity) ||
      (decide (Kind.impedance = Kind.conductivity) || (decide (Kind.impedance = Kind.conductivity) ||
      (decide (Kind.impedance = Kind.conductivity) || (decide (Kind.impedance = Kind.conductivity) ||
      (decide (Kind.impedance = Kind.conductivity) || (decide (Kind.impedance = Kind.conductivity) ||
        false)))))))) = true := by decide
  rw [if_neg hk]
  refine congrArg Except.ok ?_
  apply List.ext_getElem
  · simp
  · intro i h1 h2
    simp only [List.length_map, List.length_range] at h1
    simp only [List.getElem_map, List.getElem_range, tRow, Row.mk.injEq, true_and]
    refine ⟨by simp [List.getD_eq_getElem?_getD, h1], ?_⟩
    funext k
    simp only [Function.update_apply]
    split_ifs <;> simp [h1]

/-- The complex record of a tensor. -/
theorem tRow_complex (f : ℝ) (p : List ℝ × Matrix (Fin 2) (Fin 2) ℂ) :
    toComplex (tRow f p) = ⟨f, p.1, fun k =>
      if k = "zxx" then some (ofC (p.2 0 0)) else if k = "zxy" then some (ofC (p.2 0 1))
      else if k = "zyx" then some (ofC (p.2 1 0)) else if k = "zyy" then some (ofC (p.2 1 1))
      else none⟩ := by
  simp only [toComplex, tRow, Row.mk.injEq, true_and]
  funext k
  have e : ∀ a b : String, (k ++ a = b ++ a) ↔ k = b := fun a b => String.append_left_inj a
  have n1 : ∀ b : String, k ++ "r" ≠ b ++ "i" := by
    intro b h
    have := congrArg (fun s => s.toList.getLast?) h
    simp at this
  have n2 : ∀ b : String, k ++ "i" ≠ b ++ "r" := by
    intro b h
    have := congrArg (fun s => s.toList.getLast?) h
    simp at this
  have c1 : "zxxr" = "zxx" ++ "r" := by decide
  have c2 : "zxxi" = "zxx" ++ "i" := by decide
  have c3 : "zxyr" = "zxy" ++ "r" := by decide
  have c4 : "zxyi" = "zxy" ++ "i" := by decide
  have c5 : "zyxr" = "zyx" ++ "r" := by decide
  have c6 : "zyxi" = "zyx" ++ "i" := by decide
  have c7 : "zyyr" = "zyy" ++ "r" := by decide
  have c8 : "zyyi" = "zyy" ++ "i" := by decide
  simp only [c1, c2, c3, c4, c5, c6, c7, c8, e, n1, n2, if_false]
  by_cases h1 : k = "zxx"
  · subst h1; simp [ofC]
  by_cases h2 : k = "zxy"
  · subst h2; simp [ofC]
  by_cases h3 : k = "zyx"
  · subst h3; simp [ofC]
  by_cases h4 : k = "zyy"
  · subst h4; simp [ofC]
  simp [h1, h2, h3, h4]

/-- The tensor of a complex record of a tensor. -/
theorem impOf_tRow (f : ℝ) (p : List ℝ × Matrix (Fin 2) (Fin 2) ℂ) :
    impOf (toComplex (tRow f p)) = some p.2 := by
  rw [tRow_complex]
  simp only [impOf, if_true, show ¬ ("zxy" = "zxx") by decide, show ¬ ("zyx" = "zxx") by decide,
    show ¬ ("zyx" = "zxy") by decide, show ¬ ("zyy" = "zxx") by decide, show ¬ ("zyy" = "zxy") by decide,
    show ¬ ("zyy" = "zyx") by decide, if_false]
  congr 1
  ext i j
  fin_cases i <;> fin_cases j <;> rfl

theorem rotRow_tRow (ang f : ℝ) (p : List ℝ × Matrix (Fin 2) (Fin 2) ℂ) :
    rotRow ang (toComplex (tRow f p)) =
      toComplex (tRow f (p.1, rotMat ang * (p.2 * (rotMat ang)ᵀ))) := by
  have h := tRow_complex f (p.1, rotMat ang * (p.2 * (rotMat ang)ᵀ))
  rw [h]
  simp only [rotRow, impOf_tRow, Option.map_some]
  rw [tRow_complex f p]
  simp only [Row.mk.injEq, true_and]
  funext k
  split_ifs <;> rfl

theorem tensor_regular (f : ℝ) (l : List (List ℝ × Matrix (Fin 2) (Fin 2) ℂ)) :
    Regular (tensorSrc f l) ∧ Paired (tensorSrc f l) := by
  refine ⟨⟨by simp [tensorSrc], by simp [tensorSrc], by simp [tensorSrc], by simp [tensorSrc],
    by simp [tensorSrc], by simp [tensorSrc], by simp [tensorSrc], by simp [tensorSrc],
    by simp [tensorSrc]⟩, ?_⟩
  intro rv hrv
  simp only [tensorSrc, List.mem_cons, List.not_mem_nil, or_false] at hrv
  rcases hrv with rfl | rfl | rfl | rfl | rfl | rfl | rfl | rfl <;> simp [tensorSrc]

/-- **C168**, rotation of data. For full impedance tensors at two or more frequencies `rotate_data`
returns the tensors `R Z Rᵀ` at the same frequencies and locations, and nothing else. `T` lists the
frequencies with the locations and tensors. (Partial: see `C168_violated_single`,
`C168_violated_missing`, `C168_violated_tipper`.) -/
theorem C168_rotate_partial (ang : ℝ) (T : List (ℝ × List (List ℝ × Matrix (Fin 2) (Fin 2) ℂ)))
    (h2 : 2 ≤ T.length) (hne : ∃ t ∈ T, t.2 ≠ []) :
    ∃ d', rotate (T.map fun t => tensorSrc t.1 t.2) ang = .ok d' ∧
      readings d' = readings (T.map fun t => tensorSrc t.1
        (t.2.map fun p => (p.1, rotMat ang * p.2 * (rotMat ang)ᵀ))) := by
  set rot : ℝ × List (List ℝ × Matrix (Fin 2) (Fin 2) ℂ) → Src ℝ := fun t => tensorSrc t.1
    (t.2.map fun p => (p.1, rotMat ang * p.2 * (rotMat ang)ᵀ)) with hrot
  have hnil : T ≠ [] := by
    rintro rfl
    simp at h2
  have htail : (!(T.map fun t => tensorSrc t.1 t.2).tail.isEmpty) = true := by
    match T, h2 with
    | _ :: _ :: _, _ => rfl
  have htail' : (!(T.map rot).tail.isEmpty) = true := by
    match T, h2 with
    | _ :: _ :: _, _ => rfl
  -- the rotated data
  have hread : readings (T.map rot) ≠ 0 := by
    obtain ⟨t, ht, hte⟩ := hne
    obtain ⟨p, l, hl⟩ := List.exists_cons_of_ne_nil hte
    intro h0
    have : (⟨t.1, .impedance, "xx", "real", p.1, p.1,
        ((rotMat ang * p.2 * (rotMat ang)ᵀ) 0 0).re⟩ : Reading ℝ) ∈ readings (T.map rot) := by
      rw [readings, Multiset.mem_bind]
      refine ⟨rot t, by simpa using ⟨t.1, t.2, ht, rfl⟩, ?_⟩
      rw [Multiset.mem_bind]
      refine ⟨_, by simp only [hrot, tensorSrc]; exact List.mem_cons_self .., ?_⟩
      simp [rxReadings, hl]
      left
      simp [hrot, tensorSrc]
    rw [h0] at this
    simp at this
  obtain ⟨t, d', e1, e2, e3⟩ := C167_complex_round_trip_partial (T.map rot) hread
    (by
      intro s hs
      obtain ⟨t, -, rfl⟩ := List.mem_map.1 hs
      exact (tensor_regular _ _).1)
    (by
      intro s hs
      obtain ⟨t, -, rfl⟩ := List.mem_map.1 hs
      exact (tensor_regular _ _).2)
  have rowsOf : ∀ g : ℝ × List (List ℝ × Matrix (Fin 2) (Fin 2) ℂ) →
      List (List ℝ × Matrix (Fin 2) (Fin 2) ℂ), (!(T.map fun t => tensorSrc t.1 (g t)).tail.isEmpty) = true →
      toRec "Complex" (T.map fun t => tensorSrc t.1 (g t)) =
        .ok (.cplx true dtCP ((T.flatMap fun t => (g t).map (tRow t.1)).map toComplex)) := by
    intro g hg
    classical
    obtain ⟨s0, l0, hl0⟩ := List.exists_cons_of_ne_nil hnil
    have hm : (T.map fun t => tensorSrc t.1 (g t)).mapM srcRows =
        .ok (T.map fun t => (g t).map (tRow t.1)) := by
      rw [List.mapM_map]
      exact mapM_ok _ _ _ fun t _ => tensor_rows _ _
    have i2 : isIn "RealImag" "Complex" = false := by decide
    have i3 : isIn "Complex" "Complex" = true := by decide
    subst hl0
    rw [List.map_cons] at hm hg ⊢
    rw [List.mapM_cons, tensor_rows] at hm
    simp only [toRec, tensor_rows, bind, Except.bind, i2, i3, if_true, Bool.false_eq_true, if_false]
    have hm' : (l0.map fun t => tensorSrc t.1 (g t)).mapM srcRows =
        .ok (l0.map fun t => (g t).map (tRow t.1)) := by
      rw [List.mapM_map]
      exact mapM_ok _ _ _ fun t _ => tensor_rows _ _
    rw [hm']
    simp only [List.flatMap_cons, List.tail_cons] at hg ⊢
    rw [hg]
    simp [List.flatMap_def]
  have ra := rowsOf (fun t => t.2) htail
  have rb := rowsOf (fun t => t.2.map fun p => (p.1, rotMat ang * p.2 * (rotMat ang)ᵀ)) htail'
  refine ⟨d', ?_, e3⟩
  rw [e1] at rb
  cases rb
  unfold rotate
  rw [ra]
  simp only [bind, Except.bind, Bool.not_true, Bool.false_and, Bool.false_eq_true, if_false]
  rw [← e2]
  congr 2
  rw [List.map_map, List.map_flatMap, List.map_flatMap]
  apply List.flatMap_congr
  intro t _
  rw [List.map_map, List.map_map, List.map_map]
  apply List.map_congr_left
  intro p _
  simp only [Function.comp]
  rw [rotRow_tRow, Matrix.mul_assoc]

theorem rot_orth (ang : ℝ) : (rotMat ang)ᵀ * rotMat ang = 1 := by
  have h : ∀ t : ℝ, (Real.cos t : ℂ) ^ 2 + (Real.sin t : ℂ) ^ 2 = 1 := by
    intro t
    exact_mod_cast Real.cos_sq_add_sin_sq t
  have h := h (-(ang * (Real.pi / 180)))
  ext i j
  fin_cases i <;> fin_cases j <;>
    simp only [rotMat, Matrix.mul_apply, Fin.sum_univ_two, Matrix.transpose_apply, Matrix.of_apply,
      Matrix.cons_val', Matrix.cons_val_zero, Matrix.cons_val_one, Matrix.one_apply, Fin.zero_eta,
      Fin.mk_one, Fin.isValue, Matrix.cons_val_fin_one, if_true] <;>
    (try simp only [show ¬ ((0 : Fin 2) = 1) by decide, show ¬ ((1 : Fin 2) = 0) by decide, if_false]) <;>
    first
      | ring1
      | linear_combination h

/-- **C168**, what the rotated tensor is: it relates the turned fields as the tensor relates the
fields, and the vectors are turned clockwise, from `x` towards `-y`, by the angle in degrees. -/
theorem C168_rotate_frame (ang : ℝ) (Z : Matrix (Fin 2) (Fin 2) ℂ) :
    (∀ h : Fin 2 → ℂ, (rotMat ang * Z * (rotMat ang)ᵀ).mulVec ((rotMat ang).mulVec h) =
      (rotMat ang).mulVec (Z.mulVec h)) ∧
    (rotMat ang).mulVec ![1, 0] = ![(Real.cos (ang * Real.pi / 180) : ℂ),
      -(Real.sin (ang * Real.pi / 180) : ℂ)] ∧
    (rotMat ang).mulVec ![0, 1] = ![(Real.sin (ang * Real.pi / 180) : ℂ),
      (Real.cos (ang * Real.pi / 180) : ℂ)] := by
  refine ⟨fun h => ?_, ?_, ?_⟩
  · rw [Matrix.mulVec_mulVec, Matrix.mul_assoc, rot_orth, Matrix.mul_one, ← Matrix.mulVec_mulVec]
  · ext i
    fin_cases i <;> simp [rotMat, Matrix.mulVec, dotProduct, Fin.sum_univ_two, mul_div_assoc]
  · ext i
    fin_cases i <;> simp [rotMat, Matrix.mulVec, dotProduct, Fin.sum_univ_two, mul_div_assoc]

theorem rot_add (a b : ℝ) : rotMat a * rotMat b = rotMat (a + b) := by
  have e : -((a + b) * (Real.pi / 180)) = -(a * (Real.pi / 180)) + -(b * (Real.pi / 180)) := by ring
  ext i j
  fin_cases i <;> fin_cases j <;>
    simp [rotMat, Matrix.mul_apply, Fin.sum_univ_two, e, Real.cos_add, Real.sin_add] <;> ring

/-- **C168**, rotations of records. Rotating by two angles is rotating by their sum, rotating by
nothing or by 360 degrees changes nothing, and determinant, trace and the difference of the
off-diagonal entries are kept. -/
theorem C168_rotate_group (a b : ℝ) (Z : Matrix (Fin 2) (Fin 2) ℂ) :
    rotMat a * (rotMat b * Z * (rotMat b)ᵀ) * (rotMat a)ᵀ =
      rotMat (a + b) * Z * (rotMat (a + b))ᵀ ∧
    rotMat 0 * Z * (rotMat 0)ᵀ = Z ∧ rotMat 360 * Z * (rotMat 360)ᵀ = Z ∧
    (rotMat a * Z * (rotMat a)ᵀ).det = Z.det ∧ (rotMat a * Z * (rotMat a)ᵀ).trace = Z.trace ∧
    (rotMat a * Z * (rotMat a)ᵀ) 0 1 - (rotMat a * Z * (rotMat a)ᵀ) 1 0 = Z 0 1 - Z 1 0 := by
  have h0 : rotMat 0 = 1 := by
    ext i j
    fin_cases i <;> fin_cases j <;> simp [rotMat]
  have e : (360 : ℝ) * (Real.pi / 180) = 2 * Real.pi := by ring
  have h1 : rotMat 360 = 1 := by
    ext i j
    fin_cases i <;> fin_cases j <;> simp [rotMat, e]
  refine ⟨?_, by rw [h0]; simp, by rw [h1]; simp, ?_, ?_, ?_⟩
  · rw [← rot_add, Matrix.transpose_mul]
    simp only [Matrix.mul_assoc]
  · rw [Matrix.det_mul, Matrix.det_mul, mul_right_comm, ← Matrix.det_mul, mul_comm]
    have : (rotMat a * (rotMat a)ᵀ).det = 1 := by
      rw [Matrix.det_mul_comm, rot_orth, Matrix.det_one]
    rw [this, mul_one]
  · rw [Matrix.trace_mul_comm, ← Matrix.mul_assoc, rot_orth, Matrix.one_mul]
  · have h : ∀ t : ℝ, (Real.cos t : ℂ) ^ 2 + (Real.sin t : ℂ) ^ 2 = 1 := by
      intro t
      exact_mod_cast Real.cos_sq_add_sin_sq t
    have h := h (-(a * (Real.pi / 180)))
    simp only [rotMat, Matrix.mul_apply, Fin.sum_univ_two, Matrix.transpose_apply, Matrix.of_apply,
      Matrix.cons_val', Matrix.cons_val_zero, Matrix.cons_val_one, Fin.isValue,
      Matrix.cons_val_fin_one]
    linear_combination (Z 0 1 - Z 1 0) * h

/-- **C168** fails for a single frequency: data of one source with several locations cannot be
rotated. -/
theorem C168_violated_single (ang : ℝ) (s : Src ℝ) (h : Regular s)
    (hn : ∀ rv ∈ s.rxs, rv.1.first.length ≠ 1) : rotate [s] ang = .error .valueError := by
  obtain ⟨rows, h1, -⟩ := srcRows_ok h
  have hlen : rows.length ≠ 1 := by
    obtain ⟨rv, l, hl⟩ := List.exists_cons_of_ne_nil h.nonempty
    have hm : rv ∈ s.rxs := by rw [hl]; simp
    have hk := h.head rv (by rw [hl]; rfl)
    have hd := h.dim rv hm
    have hloc : locsOf s = .ok rv.1.first := by
      simp [locsOf, hl, hk, hd]
    rw [srcRows, hloc] at h1
    simp only [bind, Except.bind] at h1
    split at h1
    · cases h1
    · split at h1
      · cases h1
      · cases h1
        simpa using hn rv hm
  have ht := (toRec_ok (d := [s]) (by simp) (fun _ => rows) (by simp [h1]) false rfl).2
  simp only [List.flatMap_cons, List.flatMap_nil, List.append_nil] at ht
  unfold rotate
  rw [ht]
  simp only [bind, Except.bind]
  rw [if_pos]
  simpa using hlen

/-- **C168** fails for incomplete tensors: where an entry of the tensor was not measured the rotated
record has none, and the data of a survey without one of the entries cannot be rotated unless there
are tippers. -/
theorem C168_violated_missing (ang : ℝ) (d : List (Src ℝ)) (hd : 2 ≤ d.length)
    (h : ∀ s ∈ d, Regular s) (o : String) (ho : o ∈ ["xx", "xy", "yx", "yy"])
    (hr : ∀ s ∈ d, ∀ rv ∈ s.rxs, rv.1.kind = .impedance ∧ rv.1.orient ≠ o) :
    rotate d ang = .error .valueError := by
  obtain ⟨rs, h1, h2, -⟩ := rows_ok h
  have hne : d ≠ [] := by
    rintro rfl
    simp at hd
  have htail : (!d.tail.isEmpty) = true := by
    match d, hd with
    | _ :: _ :: _, _ => rfl
  have ht := (toRec_ok hne rs h1 true htail.symm).2
  unfold rotate
  rw [ht]
  simp only [bind, Except.bind, Bool.not_true, Bool.false_and, Bool.false_eq_true, if_false]
  apply none_fails
  intro r' hr' name hn
  obtain ⟨r, hmem, rfl⟩ := List.mem_map.1 hr'
  obtain ⟨q, hq, rfl⟩ := List.mem_map.1 hmem
  have hmid : ∀ o ∈ ["xx", "xy", "yx", "yy"], mid ("z" ++ o ++ "r") = o ∧ ("z" ++ o ++ "r") ∈ dtRI := by
    decide
  have hz : (toComplex q).val ("z" ++ o) = none := by
    have : q.val ("z" ++ o ++ "r") = none := by
      cases hv : q.val ("z" ++ o ++ "r") with
      | none => rfl
      | some v =>
        obtain ⟨s, hs, rv, hrv, -, -, e⟩ :=
          rx_of_reading (reading_of_row h2 hq (hmid o ho).2 hv)
        exact absurd (e.trans (hmid o ho).1) (hr s hs rv hrv).2
    simp only [toComplex, this]
  have hzz : impOf (toComplex q) = none := by
    simp only [List.mem_cons, List.not_mem_nil, or_false] at ho
    unfold impOf
    rcases ho with rfl | rfl | rfl | rfl
    · rw [show (toComplex q).val "zxx" = none from hz]
    · rw [show (toComplex q).val "zxy" = none from hz]
      cases (toComplex q).val "zxx" <;> rfl
    · rw [show (toComplex q).val "zyx" = none from hz]
      cases (toComplex q).val "zxx" <;> cases (toComplex q).val "zxy" <;> rfl
    · rw [show (toComplex q).val "zyy" = none from hz]
      cases (toComplex q).val "zxx" <;> cases (toComplex q).val "zxy" <;>
        cases (toComplex q).val "zyx" <;> rfl
  have htip : ∀ n ∈ ["tzx", "tzy"], (toComplex q).val n = none := by
    intro n hn
    have hx : ∀ n ∈ ["tzx", "tzy"], n ++ "r" ∈ dtRI ∧ kindOf (n ++ "r") = .tipper := by decide
    have : q.val (n ++ "r") = none := by
      cases hv : q.val (n ++ "r") with
      | none => rfl
      | some v =>
        obtain ⟨s, hs, rv, hrv, e, -⟩ := rx_of_reading (reading_of_row h2 hq (hx n hn).1 hv)
        rw [(hr s hs rv hrv).1] at e
        rw [show kindOf (n ++ "r") = Kind.tipper from (hx n hn).2] at e
        cases e
    simp only [toComplex, this]
  simp only [rotRow, hzz, Option.map_none]
  simp only [dtCP, List.mem_cons, List.not_mem_nil, or_false] at hn
  rcases hn with rfl | rfl | rfl | rfl | rfl | rfl
  · simp
  · simp
  · simp
  · simp
  · simpa using htip "tzx" (by simp)
  · simpa using htip "tzy" (by simp)

/-- **C168** fails for tippers: they are left as they are, so that with an angle that is no full
turn the tipper of the returned data does not give the vertical field from the turned horizontal
field. -/
theorem C168_violated_tipper (ang : ℝ) (r : Row ℝ (ℝ × ℝ)) :
    (rotRow ang r).val "tzx" = r.val "tzx" ∧ (rotRow ang r).val "tzy" = r.val "tzy" ∧
    (Real.cos (ang * Real.pi / 180) ≠ 1 → ∃ t h : Fin 2 → ℂ,
      t ⬝ᵥ ((rotMat ang).mulVec h) ≠ t ⬝ᵥ h) := by
  refine ⟨by simp [rotRow], by simp [rotRow], fun hc => ⟨![1, 0], ![1, 0], ?_⟩⟩
  rw [(C168_rotate_frame ang 0).2.1]
  simp only [dotProduct, Fin.sum_univ_two, Matrix.cons_val_zero, Matrix.cons_val_one, one_mul,
    zero_mul, add_zero]
  exact_mod_cast hc

/-- Two frequencies, one location each. -/
example : 2 ≤ [((1 : ℝ), [([(0 : ℝ), 0, 0], !![(0 : ℂ), 1; -1, 0])]), (10, [([0, 0, 0], 1)])].length ∧
    ∃ t ∈ [((1 : ℝ), [([(0 : ℝ), 0, 0], !![(0 : ℂ), 1; -1, 0])]), (10, [([0, 0, 0], 1)])], t.2 ≠ [] := by
  simp

/-- A quarter turn is an angle for `C168_violated_tipper`. -/
example : Real.cos ((90 : ℝ) * Real.pi / 180) ≠ 1 := by
  rw [show (90 : ℝ) * Real.pi / 180 = Real.pi / 2 by ring, Real.cos_pi_div_two]
  norm_num

/-! ## C168: lists, resampling, one-dimensional data -/

theorem zip_append3 {α β γ : Type} (a a' : List α) (b b' : List β) (c c' : List γ)
    (h1 : a.length = b.length) (h2 : b.length = c.length) :
    (a ++ a').zip ((b ++ b').zip (c ++ c')) = a.zip (b.zip c) ++ a'.zip (b'.zip c') := by
  rw [List.zip_append h2, List.zip_append]
  simp [h1, h2]

/-- **C168**, lists. For impedances and tippers `extract_data_info` returns three lists of the same
length, and position by position they hold a datum, the frequency of its source and the name of its
receiver. -/
theorem C168_info_partial (d : List (Src ν)) (hne : d.flatMap Src.rxs ≠ [])
    (hk : ∀ s ∈ d, ∀ rv ∈ s.rxs, rv.1.kind = .impedance ∨ rv.1.kind = .tipper)
    (hs : ∀ s ∈ d, ∀ rv ∈ s.rxs, rv.2.length = rv.1.first.length) :
    ∃ a f t, info d = .ok (a, f, t) ∧ a.length = f.length ∧ f.length = t.length ∧
      a.zip (f.zip t) = d.flatMap fun s => s.rxs.flatMap fun rv => rv.2.map fun v =>
        (v, s.freq, (if rv.1.kind = .impedance then "z" else "t") ++ rv.1.orient) := by
  have hname : ∀ s ∈ d, ∀ rv ∈ s.rxs, names rv.1 =
      List.replicate rv.1.first.length ((if rv.1.kind = .impedance then "z" else "t") ++ rv.1.orient) := by
    intro s hs' rv hrv
    rcases hk s hs' rv hrv with h | h <;> simp [names, h]
  refine ⟨_, _, _, by rw [info, if_neg (by simpa using hne)], ?_, ?_, ?_⟩
  · simp only [List.length_flatMap]
    congr 1
    apply List.map_congr_left
    intro s hs'
    congr 1
    apply List.map_congr_left
    intro rv hrv
    simp [hs s hs' rv hrv]
  · simp only [List.length_flatMap]
    congr 1
    apply List.map_congr_left
    intro s hs'
    congr 1
    apply List.map_congr_left
    intro rv hrv
    simp [hname s hs' rv hrv]
  · have inner : ∀ (f : ν) (l : List (Rx ν × List (Option ν))),
        (∀ rv ∈ l, names rv.1 = List.replicate rv.1.first.length
          ((if rv.1.kind = .impedance then "z" else "t") ++ rv.1.orient)) →
        (∀ rv ∈ l, rv.2.length = rv.1.first.length) →
        (l.flatMap Prod.snd).zip ((l.flatMap fun rv => List.replicate rv.1.first.length f).zip
          (l.flatMap fun rv => names rv.1)) = (l.flatMap fun rv => rv.2.map fun v =>
          (v, f, (if rv.1.kind = .impedance then "z" else "t") ++ rv.1.orient)) ∧
        (l.flatMap Prod.snd).length = (l.flatMap fun rv => List.replicate rv.1.first.length f).length ∧
        (l.flatMap fun rv => List.replicate rv.1.first.length f).length =
          (l.flatMap fun rv => names rv.1).length := by
      intro f l h1 h2
      induction l with
      | nil => simp
      | cons a l ih =>
        obtain ⟨i1, i2, i3⟩ := ih (fun rv h => h1 rv (List.mem_cons_of_mem _ h))
          (fun rv h => h2 rv (List.mem_cons_of_mem _ h))
        simp only [List.flatMap_cons]
        have e1 := h1 a (by simp)
        have e2 := h2 a (by simp)
        refine ⟨?_, ?_, ?_⟩
        · rw [zip_append3 _ _ _ _ _ _ (by simp [e2]) (by simp [e1]), i1, e1]
          congr 1
          apply List.ext_getElem
          · simp [e2]
          · intro i h3 h4
            simp
        · simp only [List.length_append, i2, e2, List.length_replicate]
        · simp only [List.length_append, i3, e1, List.length_replicate]
    clear hne
    induction d with
    | nil => simp
    | cons s d ih =>
      simp only [List.flatMap_cons]
      obtain ⟨i1, i2, i3⟩ := inner s.freq s.rxs (hname s (by simp)) (hs s (by simp))
      rw [zip_append3 _ _ _ _ _ _ i2 i3, i1,
        ih (fun s h => hk s (List.mem_cons_of_mem _ h)) (fun s h => hs s (List.mem_cons_of_mem _ h))
          (fun s h => hname s (List.mem_cons_of_mem _ h))]

/-- **C168** fails for admittances and apparent conductivities: they have no names in the third list,
so that names of later receivers come at the places of their data. -/
theorem C168_violated_info (f : ν) (rx rx' : Rx ν) (v v' : List (Option ν))
    (h : rx.kind = .admittance ∨ rx.kind = .conductivity) (h' : rx'.kind = .impedance)
    (h1 : v.length = rx.first.length) :
    info [⟨f, [(rx, v), (rx', v')]⟩] = .ok (v ++ v',
      List.replicate (rx.first.length + rx'.first.length) f,
      List.replicate rx'.first.length ("z" ++ rx'.orient)) := by
  rcases h with h | h <;>
    simp [info, names, h, h', List.replicate_append_replicate]

/-- **C168** fails for `resample_data`: whatever the data and the arguments, it raises an exception. -/
theorem C168_violated_resample [DecidableEq ν] (ew : Bool) (d : List (Src ν)) (fs : List ν)
    (locs freqs : Arg ν) (rxs : RxArg) : ∃ e, resample ew d fs locs freqs rxs = .error e := by
  unfold resample
  cases locsArg ew locs with
  | error e => exact ⟨e, rfl⟩
  | ok l =>
    cases freqsArg ew fs freqs with
    | error e => exact ⟨e, rfl⟩
    | ok f =>
      cases rxsArg rxs with
      | error e => exact ⟨e, rfl⟩
      | ok r =>
        simp only [bind, Except.bind]
        split
        · exact ⟨_, rfl⟩
        · exact ⟨_, rfl⟩

/-- **C168** fails for `convert3Dto1Dobject` and data of one source: whatever the name, it raises an
`AttributeError`. -/
theorem C168_violated_oned_single (s : Src ℝ) (rxType : String) (rows : List (Row ℝ ℝ))
    (h : srcRows s = .ok rows) : oneD [s] rxType = .error .attributeError := by
  have hi : isIn "RealImag" "RealImag" = true := by decide
  have h1 : toRec "RealImag" [s] = .ok (.real false dtRI rows) := by
    unfold toRec
    simp only [bind, Except.bind, h, hi, if_true, List.mapM_nil, pure, Except.pure, List.flatten_nil, List.append_nil]
    rfl
  unfold oneD
  rw [h1]
  rfl

/-- **C168** fails for `convert3Dto1Dobject`: with each of the names its documentation gives it raises
an exception, for every survey with a record. -/
theorem C168_violated_oned (d : List (Src ℝ)) (b : Bool) (rows : List (Row ℝ ℝ))
    (h : toRec "RealImag" d = .ok (.real b dtRI rows)) (hr : ∃ r ∈ rows, near r.loc r.loc = true)
    (rxType : String) (ht : rxType ∈ ["xy", "yx", "det"]) : ∃ e, oneD d rxType = .error e := by
  unfold oneD
  rw [h]
  simp only [bind, Except.bind]
  split
  · exact ⟨_, rfl⟩
  · refine ⟨.valueError, ?_⟩
    have hf : ∀ rxType ∈ ["xy", "yx", "det"], ∀ c ∈ ["r", "i"], rxType ++ c ∉
        (if isIn "det" rxType then dtRI ++ ["zdetr", "zdeti"] else dtRI) := by decide
    obtain ⟨r, hr, hn⟩ := hr
    -- every pass fails
    have hpass : ∀ (sel : List (Row ℝ ℝ)) (corr : ℝ) (r : Row ℝ ℝ),
        (["r", "i"].mapM fun c =>
          if rxType ++ c ∈ (if isIn "det" rxType = true then dtRI ++ ["zdetr", "zdeti"] else dtRI) then
            (.ok ((column (rxType ++ c) (sel.filter fun q => q.freq = r.freq)).map
              fun v => v.map fun x => corr * x) : Except Err (List (Option ℝ)))
          else .error .valueError) = .error .valueError := by
      intro sel corr r
      rw [List.mapM_cons, if_neg (hf rxType ht "r" (by simp))]
      rfl
    have hsel : ∀ (sel : List (Row ℝ ℝ)) (corr : ℝ), sel.mapM (fun r => (do
          let cs ← ["r", "i"].mapM fun c =>
            if rxType ++ c ∈ (if isIn "det" rxType = true then dtRI ++ ["zdetr", "zdeti"] else dtRI) then
              (.ok ((column (rxType ++ c) (sel.filter fun q => q.freq = r.freq)).map
                fun v => v.map fun x => corr * x) : Except Err (List (Option ℝ)))
            else .error .valueError
          .ok cs.flatten : Except Err (List (Option ℝ)))) =
        if sel = [] then .ok [] else .error .valueError := by
      intro sel corr
      cases sel with
      | nil => rfl
      | cons a l => rw [List.mapM_cons, hpass]; rfl
    apply mapM_err
    · intro loc _
      have := hsel (rows.filter fun r => near r.loc loc) (if isIn "xy" rxType = true then -1 else 1)
      simp only [bind, Except.bind] at this
      rw [this]
      by_cases he : (rows.filter fun r => near r.loc loc) = []
      · right
        rw [if_pos he]
        simp [he]
      · left
        rw [if_neg he]
    · refine ⟨r.loc, List.mem_dedup.2 (List.mem_map_of_mem hr), ?_⟩
      have := hsel (rows.filter fun q => near q.loc r.loc) (if isIn "xy" rxType = true then -1 else 1)
      simp only [bind, Except.bind] at this
      rw [this, if_neg]
      intro he
      rw [List.filter_eq_nil_iff] at he
      exact he r hr hn

theorem near_self (x : List ℝ) : near x x = true := by
  have : (List.zipWith (fun a b : ℝ => (a - b) ^ 2) x x).sum = 0 := by
    induction x with
    | nil => rfl
    | cons a x ih => simp [ih]
  simp only [near, this, Real.sqrt_zero, decide_eq_true_eq]
  norm_num

/-- Records are near themselves: the hypothesis of `C168_violated_oned` holds for every survey with a
record. -/
example (r : Row ℝ ℝ) (rows : List (Row ℝ ℝ)) (h : r ∈ rows) : ∃ r ∈ rows, near r.loc r.loc = true :=
  ⟨r, h, near_self _⟩

/-- **C168**, with a name that is not documented. For `zyx` and `zxy` the one-dimensional data of a
location hold the two parts of that entry, with the sign changed for `zxy`, for every frequency
measured there, if the records near a location have different frequencies; but their receivers are
for the entry `xx`. -/
theorem C168_oned_partial (d : List (Src ℝ)) (rows : List (Row ℝ ℝ))
    (h : toRec "RealImag" d = .ok (.real true dtRI rows))
    (hf : ∀ loc, ((rows.filter fun r => near r.loc loc).map Row.freq).Nodup)
    (rxType : String) (ht : rxType ∈ ["zxy", "zyx"]) :
    oneD d rxType = .ok ((rows.map Row.loc).dedup.map fun loc =>
      ⟨loc, "xx", (rows.filter fun r => near r.loc loc).map Row.freq,
        (rows.filter fun r => near r.loc loc).flatMap fun r =>
          [(r.val (rxType ++ "r")).map fun x => (if rxType = "zxy" then -1 else 1) * x,
            (r.val (rxType ++ "i")).map fun x => (if rxType = "zxy" then -1 else 1) * x]⟩) := by
  have hall : ∀ rxType ∈ ["zxy", "zyx"], (∀ c ∈ ["r", "i"], rxType ++ c ∈ dtRI) ∧
      isIn "det" rxType = false ∧ (isIn "xy" rxType = decide (rxType = "zxy")) := by decide
  obtain ⟨h1, h2, h3⟩ := hall rxType ht
  have hone : ∀ (sel : List (Row ℝ ℝ)), (sel.map Row.freq).Nodup → ∀ r ∈ sel,
      (sel.filter fun q => q.freq = r.freq) = [r] := by
    intro sel hs r hr
    induction sel with
    | nil => simp at hr
    | cons a l ih =>
      rw [List.map_cons, List.nodup_cons] at hs
      rcases List.mem_cons.1 hr with rfl | hr
      · rw [List.filter_cons_of_pos (by simp)]
        congr 1
        rw [List.filter_eq_nil_iff]
        intro q hq
        simp only [decide_eq_true_eq]
        exact fun e => hs.1 (e ▸ List.mem_map_of_mem hq)
      · rw [List.filter_cons_of_neg]
        · exact ih hs.2 hr
        · simp only [decide_eq_true_eq]
          exact fun e => hs.1 (e ▸ List.mem_map_of_mem hr)
  unfold oneD
  rw [h]
  simp only [bind, Except.bind, Bool.not_true, Bool.false_eq_true, if_false, h2, h3]
  apply mapM_ok
  intro loc _
  have hsel := hone _ (hf loc)
  rw [mapM_ok _ (fun r : Row ℝ ℝ =>
    [(r.val (rxType ++ "r")).map fun x => (if rxType = "zxy" then -1 else 1) * x,
      (r.val (rxType ++ "i")).map fun x => (if rxType = "zxy" then -1 else 1) * x])]
  · simp only
    rw [if_pos]
    · rw [← List.flatMap_def]
    · simp [List.length_flatten, Function.comp_def, mul_comm]
  · intro r hr
    rw [mapM_ok _ (fun c => [(r.val (rxType ++ c)).map fun x =>
      (if rxType = "zxy" then -1 else 1) * x])]
    · simp
    · intro c hc
      rw [if_pos (h1 c hc), hsel r hr]
      simp [column]

/-! ## C168: apparent resistivity and skin depth -/

/-- **C168**, apparent resistivity and phase. For the impedance `√(ω μ₀ ρ) exp(i π / 4)` of a uniform
Earth they are its resistivity and 45 degrees; multiplying the impedance by a positive number leaves
the phase as it is and multiplies the resistivity by its square. -/
theorem C168_apparent (f rho c : ℝ) (hf : 0 < f) (hr : 0 < rho) (hc : 0 < c) (z : ℂ) :
    appResPhs f (√(2 * Real.pi * f * mu0 * rho) * Complex.exp (Real.pi / 4 * Complex.I)) =
      (rho, 45) ∧
    appResPhs f (c * z) = (c ^ 2 * (appResPhs f z).1, (appResPhs f z).2) := by
  have hpi := Real.pi_pos
  constructor
  · have hp : 0 < 2 * Real.pi * f * mu0 * rho := by
      have : 0 < mu0 := by unfold mu0; positivity
      positivity
    rw [appResPhs, Prod.mk.injEq]
    constructor
    · have : ‖Complex.exp (Real.pi / 4 * Complex.I)‖ = 1 := by
        have := Complex.norm_exp_ofReal_mul_I (Real.pi / 4)
        push_cast at this
        exact this
      rw [norm_mul, this, mul_one, Complex.norm_real, Real.norm_of_nonneg (Real.sqrt_nonneg _),
        Real.sq_sqrt hp.le, mu0]
      field_simp
      norm_num
    · have e : ((√(2 * Real.pi * f * mu0 * rho) : ℝ) : ℂ) * Complex.exp (Real.pi / 4 * Complex.I) =
          ((√(2 * Real.pi * f * mu0 * rho) : ℝ) : ℂ) *
            (Complex.cos ((Real.pi / 4 : ℝ) : ℂ) + Complex.sin ((Real.pi / 4 : ℝ) : ℂ) * Complex.I) := by
        rw [← Complex.exp_mul_I]
        push_cast
        rfl
      rw [e, Complex.arg_mul_cos_add_sin_mul_I (Real.sqrt_pos.2 hp) ⟨by linarith, by linarith⟩]
      field_simp
      norm_num
  · rw [appResPhs, appResPhs, Prod.mk.injEq]
    constructor
    · rw [norm_mul, Complex.norm_real, Real.norm_of_nonneg hc.le]
      ring
    · rw [Complex.arg_real_mul _ hc]

/-- **C168**, skin depth. A plane wave `exp(-(1 + i) z / δ)` whose scale is the skin depth solves the
diffusion equation `E'' = i ω μ₀ E / ρ`, and over the skin depth its amplitude falls to `1 / e`. -/
theorem C168_skindepth (rho f : ℝ) (hr : 0 < rho) (hf : 0 < f) :
    (∀ z : ℝ, HasDerivAt (fun z : ℝ => Complex.exp (-(1 + Complex.I) * z / skindepth rho f))
      (-(1 + Complex.I) / skindepth rho f *
        Complex.exp (-(1 + Complex.I) * z / skindepth rho f)) z) ∧
    (-(1 + Complex.I) / skindepth rho f) ^ 2 = Complex.I * (2 * Real.pi * f) * mu0 / rho ∧
    ∀ z : ℝ, ‖Complex.exp (-(1 + Complex.I) * ((z + skindepth rho f : ℝ) : ℂ) / skindepth rho f)‖ =
      Real.exp (-1) * ‖Complex.exp (-(1 + Complex.I) * z / skindepth rho f)‖ := by
  have hpi := Real.pi_pos
  have hmu : 0 < mu0 := by unfold mu0; positivity
  have hd : 0 < skindepth rho f := Real.sqrt_pos.2 (by positivity)
  have hdc : (skindepth rho f : ℂ) ≠ 0 := by exact_mod_cast hd.ne'
  have hsq : (skindepth rho f : ℂ) ^ 2 = rho * (1 / (f * mu0 * Real.pi)) := by
    have : skindepth rho f ^ 2 = rho * (1 / (f * mu0 * Real.pi)) := Real.sq_sqrt (by positivity)
    exact_mod_cast this
  have hfc : (f : ℂ) ≠ 0 := by exact_mod_cast hf.ne'
  have hrc : (rho : ℂ) ≠ 0 := by exact_mod_cast hr.ne'
  have hmc : (mu0 : ℂ) ≠ 0 := by exact_mod_cast hmu.ne'
  have hpc : (Real.pi : ℂ) ≠ 0 := by exact_mod_cast hpi.ne'
  refine ⟨fun z => ?_, ?_, fun z => ?_⟩
  · have h1 : HasDerivAt (fun z : ℝ => (z : ℂ)) 1 z := Complex.ofRealCLM.hasDerivAt
    have h2 := ((h1.const_mul (-(1 + Complex.I))).div_const (skindepth rho f : ℂ)).cexp
    refine h2.congr_deriv ?_
    ring
  · rw [div_pow, hsq]
    have : (-(1 + Complex.I)) ^ 2 = 2 * Complex.I := by
      linear_combination Complex.I_sq
    rw [this]
    field_simp
  · rw [Complex.norm_exp, Complex.norm_exp, ← Real.exp_add]
    congr 1
    have e : ∀ x : ℝ, (-(1 + Complex.I) * (x : ℂ) / skindepth rho f).re = -x / skindepth rho f := by
      intro x
      rw [Complex.div_ofReal_re]
      simp
    rw [e, e]
    field_simp
    ring

/-- A frequency and a resistivity for `C168_apparent` and `C168_skindepth`. -/
example : (0 : ℝ) < 10 ∧ (0 : ℝ) < 100 := by norm_num

/-- The source of two locations for `C168_violated_single`, and with another frequency for
`C168_violated_missing` (no entry `xx`) and `C168_info_partial`. -/
def xySrc (f : ℝ) : Src ℝ :=
  ⟨f, [(⟨.impedance, "xy", "real", 3, [[0, 0, 0], [1, 0, 0]], [[0, 0, 0], [1, 0, 0]]⟩, [some 3, some 4]),
    (⟨.impedance, "xy", "imag", 3, [[0, 0, 0], [1, 0, 0]], [[0, 0, 0], [1, 0, 0]]⟩, [some 5, none])]⟩

example : (∀ f, Regular (xySrc f)) ∧ (∀ rv ∈ (xySrc 1).rxs, rv.1.first.length ≠ 1) ∧
    (∀ s ∈ [xySrc 1, xySrc 10], ∀ rv ∈ s.rxs, rv.1.kind = .impedance ∧ rv.1.orient ≠ "xx" ∧
      rv.2.length = rv.1.first.length) := by
  refine ⟨fun f => ⟨by simp [xySrc], by simp [xySrc], by simp [xySrc], by simp [xySrc], by simp [xySrc],
    by simp [xySrc], by simp [xySrc], by simp [xySrc], by simp [xySrc]⟩, by simp [xySrc], ?_⟩
  simp [xySrc]
  rintro a b (⟨rfl, rfl⟩ | ⟨rfl, rfl⟩) <;> simp

/-- Tensors of two frequencies at one location, for `C168_violated_oned` and `C168_oned_partial`. -/
example (Z : Matrix (Fin 2) (Fin 2) ℂ) :
    toRec "RealImag" [tensorSrc 1 [([0, 0, 0], Z)], tensorSrc 10 [([0, 0, 0], Z)]] =
      .ok (.real true dtRI [tRow 1 ([0, 0, 0], Z), tRow 10 ([0, 0, 0], Z)]) ∧
    ∀ loc, (([tRow 1 ([0, 0, 0], Z), tRow 10 ([0, 0, 0], Z)].filter fun r => near r.loc loc).map
      Row.freq).Nodup := by
  constructor
  · have i2 : isIn "RealImag" "RealImag" = true := by decide
    simp [toRec, tensor_rows, bind, Except.bind, i2, pure, Except.pure]
  · intro loc
    have hs : (([tRow 1 ([0, 0, 0], Z), tRow 10 ([0, 0, 0], Z)].filter fun r => near r.loc loc).map
        Row.freq).Sublist ([tRow 1 ([0, 0, 0], Z), tRow 10 ([0, 0, 0], Z)].map Row.freq) :=
      List.filter_sublist.map _
    exact hs.nodup (by simp [tRow])

end Verif.NSEM.Records
