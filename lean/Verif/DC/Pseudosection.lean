import Verif.Utils.Plot2D

/-! Model of `plot_pseudosection` (`simpeg/electromagnetics/static/utils/static_utils.py` 498-755), for
C203: which data are drawn, on which scale, and which calls raise. Text is a list of characters. -/

noncomputable section
namespace Verif.DC.Pseudosection
open Verif Verif.Utils.Plot2D

/-- Text. -/
abbrev Text := List Char

/-- The first argument: a survey, or data with a survey and the vector of its values. -/
inductive Arg where
  | survey
  | data (dobs : List ℝ)

/-- The data type asked for, as far as the function distinguishes it. -/
inductive DataType where
  | resistivity
  | conductivity
  | other

/-- The data to be drawn (588-608). `appRes` is `apparent_resistivity_from_voltage` for the survey and the
type of space. -/
def values (appRes : List ℝ → List ℝ) (arg : Arg) (dobs : Option (List ℝ)) (dt : DataType) :
    Except Err (List ℝ) :=
  match arg, dobs with
  | .data d, none =>
    match dt with
    | .conductivity => .ok ((appRes d).map fun x => 1 / x)
    | .resistivity => .ok (appRes d)
    | .other => .ok d
  | .data _, some d => .ok d
  | .survey, some d => .ok d
  | .survey, none => .error .valueError

/-- A scale of colours: logarithmic or linear, with its limits. -/
structure Norm where
  log : Bool
  vmin : Option ℝ
  vmax : Option ℝ

/-- The default scale (624-632). -/
def defaultNorm (log : Bool) (clim : Option (ℝ × ℝ)) : Norm :=
  ⟨log, clim.map (·.1), clim.map (·.2)⟩

/-- Options for drawing: a scale, if there is one, the size of markers, if there is one, and the names of
the other options. -/
structure DrawOpts where
  norm : Option Norm
  size : Option ℝ
  others : List String

/-- All names of the options. -/
def DrawOpts.names (o : DrawOpts) : List String :=
  (if o.norm.isSome then ["norm"] else []) ++ (if o.size.isSome then ["s"] else []) ++ o.others

/-- What is drawn: values, scale, size of markers. -/
structure Drawn where
  values : List ℝ
  norm : Norm
  size : Option ℝ

/-- `if isinstance(norm, LogNorm): dobs = np.abs(dobs)` (644, 655, 683). -/
def absLog (n : Norm) (d : List ℝ) : List ℝ := if n.log then d.map (|·|) else d

/-- Names left when the scale is taken out, for contours. -/
def DrawOpts.withoutNorm (o : DrawOpts) : List String := (if o.size.isSome then ["s"] else []) ++ o.others

/-- The three kinds of figures (636-693). Without a branch `data_plot` is not bound: UnboundLocalError at
the latest in 755, here `exception`. `**None` is TypeError. The levels of contours on a logarithmic scale
are not modelled; drawing itself accepts all options. -/
def draw (plotType : Text) (opts : Option DrawOpts) (norm : Norm) (d : List ℝ) : Except Err Drawn :=
  if plotType = "scatter".toList then
    let o := opts.getD ⟨none, none, []⟩
    let n := o.norm.getD norm
    match callKw ["s", "c", "norm"] o.others with
    | .error e => .error e
    | .ok () => .ok ⟨absLog n d, n, some (o.size.getD 40)⟩
  else if plotType = "contourf".toList then
    let o := opts.getD ⟨none, none, []⟩
    let n := o.norm.getD norm
    match callKw ["norm"] o.withoutNorm with
    | .error e => .error e
    | .ok () => .ok ⟨absLog n d, n, o.size⟩
  else if plotType = "pcolor".toList then
    match opts with
    | none => .error .typeError
    | some o =>
      let n := o.norm.getD norm
      match callKw ["shading", "norm"] o.names with
      | .error e => .error e
      | .ok () => .ok ⟨absLog n d, n, o.size⟩
  else .error .exception

/-- The kinds of figures known. -/
def kinds : List Text := ["pcolor".toList, "contourf".toList, "scatter".toList]

/-- The names given to the colour bar (734-742). -/
def barNames : List String := ["format", "fraction", "orientation", "cax", "ax"]

/-- `plot_pseudosection`, without topography: the check of the kind in lower case (581-585), the data, the
figure and the colour bar (731-742). -/
def plot (appRes : List ℝ → List ℝ) (arg : Arg) (dobs : Option (List ℝ)) (dt : DataType) (plotType : Text)
    (log : Bool) (clim : Option (ℝ × ℝ)) (opts : Option DrawOpts) (bar : Bool) (barOpts : List String) :
    Except Err Drawn :=
  if plotType.map Char.toLower ∉ kinds then .error .valueError
  else
    match values appRes arg dobs dt with
    | .error e => .error e
    | .ok d =>
      match draw plotType opts (defaultNorm log clim) d with
      | .error e => .error e
      | .ok r =>
        if bar then
          match callKw barNames barOpts with
          | .error e => .error e
          | .ok () => .ok r
        else .ok r

/-- The limits of the vertical axis (724-726), for elevations `z :: zs`. -/
def yLimits (z : ℝ) (zs : List ℝ) : ℝ × ℝ :=
  let top := zs.foldl max z
  let bot := zs.foldl min z
  (bot - 3 / 100 * (top - bot), top + 3 / 100 * (top - bot))

/-- The ticks of the colour bar (744-749): entry `i` of seven, for values `d :: ds`. -/
def tick (log : Bool) (d : ℝ) (ds : List ℝ) (i : Nat) : ℝ :=
  level log (ds.foldl min d) (ds.foldl max d) 6 i

namespace Props

/-! ### C203 -/

/-- C203. Values given are drawn as they are; else those of the data, as voltages, as apparent
resistivities or as their inverses. A survey alone raises ValueError. -/
theorem C203_values (appRes : List ℝ → List ℝ) (d e : List ℝ) (dt : DataType) (arg : Arg) :
    values appRes arg (some e) dt = .ok e ∧
    values appRes (.data d) none .other = .ok d ∧
    values appRes (.data d) none .resistivity = .ok (appRes d) ∧
    (∃ c, values appRes (.data d) none .conductivity = .ok c ∧ c.length = (appRes d).length ∧
      ∀ i (h : i < (appRes d).length), (appRes d)[i] ≠ 0 →
        ∃ y, c[i]? = some y ∧ y * (appRes d)[i] = 1) ∧
    values appRes .survey none dt = .error .valueError := by
  refine ⟨by cases arg <;> rfl, rfl, rfl, ⟨_, rfl, by simp, fun i h h0 => ⟨1 / (appRes d)[i], ?_, ?_⟩⟩, rfl⟩
  · rw [List.getElem?_map, List.getElem?_eq_getElem h]
    rfl
  · exact one_div_mul_cancel h0

theorem callKw_ok (a b : List String) (h : ∀ k ∈ a, k ∉ b) : callKw a b = .ok () := by
  unfold callKw
  rw [if_neg]
  simp only [List.any_eq_true, List.contains_iff_mem, not_exists, not_and]
  exact h

theorem callKw_error (a b : List String) (k : String) (ha : k ∈ a) (hb : k ∈ b) :
    callKw a b = .error .typeError := by
  unfold callKw
  rw [if_pos]
  simp only [List.any_eq_true, List.contains_iff_mem]
  exact ⟨k, ha, hb⟩

/-- The values as they should appear on a scale. -/
def OnScale (n : Norm) (d r : List ℝ) : Prop :=
  (n.log = true → r = d.map fun x => |x|) ∧ (n.log = false → r = d)

theorem onScale (n : Norm) (d : List ℝ) : OnScale n d (absLog n d) := by
  unfold OnScale absLog
  cases n.log <;> simp

/-- C203. Scatter plots and contours are drawn on the scale of the options, or on the one of the
arguments, with absolute values where it is logarithmic; markers have the size of the options or 40. -/
theorem C203_drawn (appRes : List ℝ → List ℝ) (arg : Arg) (dobs : Option (List ℝ)) (dt : DataType)
    (log : Bool) (clim : Option (ℝ × ℝ)) (o : DrawOpts) (bar : Bool) (barOpts : List String) (d : List ℝ)
    (hd : values appRes arg dobs dt = .ok d) (ho : ∀ k ∈ o.others, k ∉ ["s", "c", "norm"])
    (hb : ∀ k ∈ barNames, k ∉ barOpts) (pt : Text) (hp : pt = "scatter".toList ∨ pt = "contourf".toList) :
    ∃ r, plot appRes arg dobs dt pt log clim (some o) bar barOpts = .ok r ∧
      r.norm = o.norm.getD ⟨log, clim.map (·.1), clim.map (·.2)⟩ ∧ OnScale r.norm d r.values ∧
      (pt = "scatter".toList → r.size = some (o.size.getD 40)) := by
  have e1 : callKw barNames barOpts = .ok () := callKw_ok _ _ hb
  have e2 : callKw ["s", "c", "norm"] o.others = .ok () := callKw_ok _ _ fun k hk h => ho k h hk
  have e3 : callKw ["norm"] o.withoutNorm = .ok () := by
    apply callKw_ok
    intro k hk h
    have hk' : k = "norm" := by simpa using hk
    subst hk'
    unfold DrawOpts.withoutNorm at h
    rcases List.mem_append.mp h with h | h
    · split at h
      · exact absurd h (by decide)
      · simp at h
    · exact ho _ h (by decide)
  have hk : ∀ p, p = "scatter".toList ∨ p = "contourf".toList → p.map Char.toLower ∈ kinds := by
    rintro p (rfl | rfl) <;> decide
  have hne : "contourf".toList ≠ "scatter".toList := by decide
  unfold plot
  rw [if_neg (not_not.mpr (hk pt hp)), hd]
  simp only
  rcases hp with rfl | rfl
  · refine ⟨⟨absLog (o.norm.getD (defaultNorm log clim)) d, o.norm.getD (defaultNorm log clim),
      some (o.size.getD 40)⟩, ?_, rfl, onScale _ _, fun _ => rfl⟩
    unfold draw
    rw [if_pos rfl]
    simp only [Option.getD_some, e2, e1]
    cases bar <;> rfl
  · refine ⟨⟨absLog (o.norm.getD (defaultNorm log clim)) d, o.norm.getD (defaultNorm log clim),
      o.size⟩, ?_, rfl, onScale _ _, fun h => absurd h hne⟩
    unfold draw
    rw [if_neg hne, if_pos rfl]
    simp only [Option.getD_some, e3, e1]
    cases bar <;> rfl

/-- C203. Kinds of figures that are not known raise ValueError. -/
theorem C203_kinds (appRes : List ℝ → List ℝ) (arg : Arg) (dobs : Option (List ℝ)) (dt : DataType)
    (pt : Text) (log : Bool) (clim : Option (ℝ × ℝ)) (opts : Option DrawOpts) (bar : Bool)
    (barOpts : List String)
    (h : pt.map Char.toLower ∉ ["pcolor".toList, "contourf".toList, "scatter".toList]) :
    plot appRes arg dobs dt pt log clim opts bar barOpts = .error .valueError := by
  unfold plot
  rw [if_pos (show pt.map Char.toLower ∉ kinds from h)]

/-- C203. Figures with `pcolor` are drawn on the scale of the arguments, with options that have no scale. -/
theorem C203_pcolor (appRes : List ℝ → List ℝ) (arg : Arg) (dobs : Option (List ℝ)) (dt : DataType)
    (log : Bool) (clim : Option (ℝ × ℝ)) (o : DrawOpts) (bar : Bool) (barOpts : List String) (d : List ℝ)
    (hd : values appRes arg dobs dt = .ok d) (hn : o.norm = none)
    (ho : ∀ k ∈ o.others, k ∉ ["shading", "norm"]) (hb : ∀ k ∈ barNames, k ∉ barOpts) :
    ∃ r, plot appRes arg dobs dt "pcolor".toList log clim (some o) bar barOpts = .ok r ∧
      r.norm = ⟨log, clim.map (·.1), clim.map (·.2)⟩ ∧ OnScale r.norm d r.values := by
  have h1 : ("pcolor".toList).map Char.toLower ∈ kinds := by decide
  have e1 : callKw barNames barOpts = .ok () := callKw_ok _ _ hb
  have e2 : callKw ["shading", "norm"] o.names = .ok () := by
    apply callKw_ok
    intro k hk h
    unfold DrawOpts.names at h
    rw [hn] at h
    rcases List.mem_append.mp h with h | h
    · simp only [Option.isSome_none, Bool.false_eq_true, if_false, List.nil_append] at h
      have h' : k = "s" := by
        split at h
        · simpa using h
        · simp at h
      subst h'
      exact absurd hk (by decide)
    · exact ho k h hk
  refine ⟨⟨absLog (defaultNorm log clim) d, defaultNorm log clim, o.size⟩, ?_, rfl, onScale _ _⟩
  unfold plot
  rw [if_neg (not_not.mpr h1), hd]
  simp only
  unfold draw
  rw [if_neg (by decide), if_neg (by decide), if_pos rfl]
  simp only [hn, Option.getD_none, e2, e1]
  cases bar <;> rfl

/-- C203 (violation). Figures with `pcolor` raise TypeError unless options are given. -/
theorem C203_violated_pcolor (appRes : List ℝ → List ℝ) (arg : Arg) (dobs : Option (List ℝ)) (dt : DataType)
    (log : Bool) (clim : Option (ℝ × ℝ)) (bar : Bool) (barOpts : List String) (d : List ℝ)
    (hd : values appRes arg dobs dt = .ok d) :
    plot appRes arg dobs dt "pcolor".toList log clim none bar barOpts = .error .typeError := by
  have h1 : ("pcolor".toList).map Char.toLower ∈ kinds := by decide
  unfold plot
  rw [if_neg (not_not.mpr h1), hd]
  simp only
  unfold draw
  rw [if_neg (by decide), if_neg (by decide), if_pos rfl]

/-- C203 (violation). Figures with `pcolor` raise TypeError also with a scale in the options. -/
theorem C203_violated_pcolor_norm (appRes : List ℝ → List ℝ) (arg : Arg) (dobs : Option (List ℝ))
    (dt : DataType) (log : Bool) (clim : Option (ℝ × ℝ)) (o : DrawOpts) (n : Norm) (hn : o.norm = some n)
    (bar : Bool) (barOpts : List String) (d : List ℝ) (hd : values appRes arg dobs dt = .ok d) :
    plot appRes arg dobs dt "pcolor".toList log clim (some o) bar barOpts = .error .typeError := by
  have h1 : ("pcolor".toList).map Char.toLower ∈ kinds := by decide
  have h2 : callKw ["shading", "norm"] o.names = .error .typeError := by
    apply callKw_error _ _ "norm" (by decide)
    simp [DrawOpts.names, hn]
  unfold plot
  rw [if_neg (not_not.mpr h1), hd]
  simp only
  unfold draw
  rw [if_neg (by decide), if_neg (by decide), if_pos rfl]
  simp only [h2]

/-- C203 (violation). Kinds in capital letters pass the check, and raise an exception later. -/
theorem C203_violated_case (appRes : List ℝ → List ℝ) (arg : Arg) (dobs : Option (List ℝ)) (dt : DataType)
    (pt : Text) (log : Bool) (clim : Option (ℝ × ℝ)) (opts : Option DrawOpts) (bar : Bool)
    (barOpts : List String) (d : List ℝ) (hd : values appRes arg dobs dt = .ok d)
    (h1 : pt.map Char.toLower ∈ kinds) (h2 : pt ∉ kinds) :
    plot appRes arg dobs dt pt log clim opts bar barOpts = .error .exception := by
  simp only [kinds, List.mem_cons, List.not_mem_nil, or_false, not_or] at h2
  unfold plot
  rw [if_neg (not_not.mpr h1), hd]
  simp only
  unfold draw
  rw [if_neg h2.2.2, if_neg h2.2.1, if_neg h2.1]

/-- C203 (violation). The format of the colour bar, and other options it has, cannot be changed: TypeError
once the figure is drawn. -/
theorem C203_violated_bar (appRes : List ℝ → List ℝ) (arg : Arg) (dobs : Option (List ℝ)) (dt : DataType)
    (pt : Text) (log : Bool) (clim : Option (ℝ × ℝ)) (opts : Option DrawOpts) (r : Drawn)
    (h : plot appRes arg dobs dt pt log clim opts false [] = .ok r) (barOpts : List String)
    (hb : "format" ∈ barOpts) :
    plot appRes arg dobs dt pt log clim opts true barOpts = .error .typeError := by
  have e := callKw_error barNames barOpts "format" (by decide) hb
  unfold plot at h ⊢
  by_cases hk : pt.map Char.toLower ∉ kinds
  · rw [if_pos hk] at h
    simp at h
  · rw [if_neg hk] at h ⊢
    cases hv : values appRes arg dobs dt with
    | error e => rw [hv] at h; simp at h
    | ok d =>
      rw [hv] at h
      simp only at h ⊢
      cases hr : draw pt opts (defaultNorm log clim) d with
      | error e => rw [hr] at h; simp at h
      | ok r => simp only [e, if_true]

/-- C203. The vertical axis shows all locations. -/
theorem C203_axis (z : ℝ) (zs : List ℝ) :
    ∀ y ∈ z :: zs, (yLimits z zs).1 ≤ y ∧ y ≤ (yLimits z zs).2 := by
  obtain ⟨m1, m2, -⟩ := Utils.Plot2D.Props.foldl_min_le zs z
  obtain ⟨n1, n2, -⟩ := Utils.Plot2D.Props.le_foldl_max zs z
  intro y hy
  have : zs.foldl min z ≤ y ∧ y ≤ zs.foldl max z := by
    rcases List.mem_cons.mp hy with rfl | hy
    · exact ⟨m1, n1⟩
    · exact ⟨m2 y hy, n2 y hy⟩
  simp only [yLimits]
  constructor <;> linarith [this.1, this.2]

/-- C203. The first tick is the least value drawn and the last the largest, on both scales; values on a
logarithmic scale are positive. -/
theorem C203_ticks (log : Bool) (d : ℝ) (ds : List ℝ) (h : log = true → ∀ x ∈ d :: ds, 0 < x) :
    tick log d ds 0 ∈ d :: ds ∧ tick log d ds 6 ∈ d :: ds ∧
    ∀ x ∈ d :: ds, tick log d ds 0 ≤ x ∧ x ≤ tick log d ds 6 := by
  obtain ⟨m1, m2, m3⟩ := Utils.Plot2D.Props.foldl_min_le ds d
  obtain ⟨n1, n2, n3⟩ := Utils.Plot2D.Props.le_foldl_max ds d
  have hm : ds.foldl min d ∈ d :: ds := by
    rcases m3 with e | e
    · rw [e]; exact List.mem_cons_self
    · exact List.mem_cons_of_mem _ e
  have hx : ds.foldl max d ∈ d :: ds := by
    rcases n3 with e | e
    · rw [e]; exact List.mem_cons_self
    · exact List.mem_cons_of_mem _ e
  have e : tick log d ds 0 = ds.foldl min d ∧ tick log d ds 6 = ds.foldl max d := by
    unfold tick
    cases log with
    | false =>
      obtain ⟨a, b, -⟩ := Utils.Plot2D.Props.C200_linear (ds.foldl min d) (ds.foldl max d) 6 (by norm_num)
      exact ⟨a, b⟩
    | true =>
      obtain ⟨a, b, -⟩ := Utils.Plot2D.Props.C200_log (ds.foldl min d) (ds.foldl max d) (h rfl _ hm)
        (h rfl _ hx) 6 (by norm_num)
      exact ⟨a, b⟩
  rw [e.1, e.2]
  refine ⟨hm, hx, fun x hx => ?_⟩
  rcases List.mem_cons.mp hx with rfl | hx
  · exact ⟨m1, n1⟩
  · exact ⟨m2 x hx, n2 x hx⟩

/-- A survey with values and a kind in capital letters. -/
example : plot id .survey (some [1, 2]) .other "Scatter".toList false none none false [] = .error .exception :=
  C203_violated_case id .survey _ .other _ false none none false [] [1, 2] rfl (by decide) (by decide)

/-- A scatter plot with a size. -/
example : ∃ r, plot id (.data [-1, 2]) none .other "scatter".toList true none (some ⟨none, some 5, ["alpha"]⟩)
    true ["shrink"] = .ok r ∧ r.values = [1, 2] := by
  obtain ⟨r, h1, h2, h3, -⟩ := C203_drawn id (.data [-1, 2]) none .other true none ⟨none, some 5, ["alpha"]⟩ true
    ["shrink"] [-1, 2] rfl (by decide) (by decide) _ (Or.inl rfl)
  refine ⟨r, h1, ?_⟩
  rw [h3.1 (by rw [h2]; rfl)]
  simp

end Props
end Verif.DC.Pseudosection
