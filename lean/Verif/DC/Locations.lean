import Verif.Basic
import Mathlib.Data.Finset.Sort
import Mathlib.Data.Prod.Lex
import Mathlib.Algebra.BigOperators.Field
import Mathlib.Algebra.Order.Round
import Mathlib.Data.List.Sort
import Mathlib.Data.Real.Basic
import Mathlib.Analysis.SpecialFunctions.Log.Base
import Mathlib.Algebra.Order.Archimedean.Real.Basic
import Mathlib.Tactic.Linarith
import Mathlib.Tactic.NormNum
import Mathlib.Tactic.FieldSimp
import Mathlib.Tactic.Ring

/-!
# Surveys and meshes from tables of electrodes

Model of the class `IO` of `/repo/simpeg/electromagnetics/static/resistivity/IODC.py`: grouping of
readings by source, the quantities computed from the data, and the extents of the meshes. Not modelled:
plots, the pseudo-locations, refinement of quadtrees, and the search of cells below the topography.
-/

noncomputable section
namespace Verif.DC.Locations

/-! ## Readings -/

section Readings
variable {P : Type} [LinearOrder P]

/-- A line of the table: electrodes A, B, M and N. -/
structure Row (P : Type) where
  a : P
  b : P
  m : P
  n : P

/-- Kind of survey. -/
inductive Kind
  | dipoleDipole | poleDipole | dipolePole | polePole
  deriving DecidableEq

def Kind.srcDipole : Kind → Bool
  | .dipoleDipole | .dipolePole => true
  | _ => false

def Kind.rxDipole : Kind → Bool
  | .dipoleDipole | .poleDipole => true
  | _ => false

/-- A source with its receiver; second electrodes of poles are not kept. -/
structure Src (P : Type) where
  a : P
  b : Option P
  rx : List (P × Option P)

/-- A row of `np.c_[a_locations, b_locations]`. -/
def key (r : Row P) : P ×ₗ P := toLex (r.a, r.b)

/-- `unique_rows(...)[0]`: `np.unique(..., axis=0)` gives sorted rows, `utils/mat_utils.py` 106-124. -/
def uniq {κ : Type} [LinearOrder κ] (l : List κ) : List κ := l.toFinset.sort (· ≤ ·)

/-- The sources, `IODC.py` 780-812. -/
def survey (k : Kind) (rows : List (Row P)) : List (Src P) :=
  (uniq (rows.map key)).map fun u =>
    ⟨(ofLex u).1, if k.srcDipole then some (ofLex u).2 else none,
      (rows.filter fun r => decide (key r = u)).map fun r => (r.m, if k.rxDipole then some r.n else none)⟩

/-- `self.sort_inds`, `IODC.py` 783-785 and 814. -/
def sortInds (rows : List (Row P)) : List ℕ :=
  (uniq (rows.map key)).flatMap fun u =>
    (List.range rows.length).filter fun i => decide ((rows.map key)[i]? = some u)

/-- An array indexed by an array of numbers, as `data_dc[self.sort_inds]`, `IODC.py` 821-834. -/
def take {α : Type} (l : List α) (inds : List ℕ) : List α := inds.filterMap fun i => l[i]?

/-- `self.electrode_locations`, `IODC.py` 771-776. -/
def electrodes (rows : List (Row P)) : List P :=
  uniq (rows.map Row.a ++ rows.map Row.b ++ rows.map Row.m ++ rows.map Row.n)

/-! Specification: a reading is given by its electrodes. -/

/-- What a line of the table says, for a kind of survey. -/
def Row.reading (k : Kind) (r : Row P) : P × Option P × P × Option P :=
  (r.a, if k.srcDipole then some r.b else none, r.m, if k.rxDipole then some r.n else none)

/-- The readings of a survey, in the order of its data. -/
def readings (s : List (Src P)) : List (P × Option P × P × Option P) :=
  s.flatMap fun x => x.rx.map fun y => (x.a, x.b, y.1, y.2)

theorem mem_uniq {κ : Type} [LinearOrder κ] (l : List κ) (x : κ) : x ∈ uniq l ↔ x ∈ l := by
  simp [uniq]

theorem uniq_nodup {κ : Type} [LinearOrder κ] (l : List κ) : (uniq l).Nodup := Finset.sort_nodup ..

theorem take_filter {α κ : Type} [DecidableEq κ] (f : α → κ) (u : κ) (l : List α) :
    take l ((List.range l.length).filter fun i => decide ((l.map f)[i]? = some u)) =
      l.filter fun r => decide (f r = u) := by
  induction l using List.reverseRecOn with
  | nil => rfl
  | append_singleton l x ih =>
    unfold take at ih ⊢
    rw [List.length_append, List.length_singleton, List.range_succ, List.filter_append,
      List.filterMap_append, List.filter_append]
    congr 1
    · rw [← ih]
      have e1 : ((List.range l.length).filter fun i => decide (((l ++ [x]).map f)[i]? = some u)) =
          ((List.range l.length).filter fun i => decide ((l.map f)[i]? = some u)) := by
        refine List.filter_congr fun i hi => ?_
        have hi' : i < l.length := List.mem_range.1 hi
        rw [List.map_append, List.getElem?_append_left (by simpa using hi')]
      rw [e1]
      refine List.filterMap_congr fun i hi => ?_
      have hi' : i < l.length := List.mem_range.1 (List.mem_filter.1 hi).1
      rw [List.getElem?_append_left hi']
    · have e2 : ((l ++ [x]).map f)[l.length]? = some (f x) := by simp
      rw [List.filter_singleton, List.filter_singleton, e2]
      by_cases h : f x = u
      · simp [h]
      · simp [h]

theorem take_sortInds (rows : List (Row P)) :
    take rows (sortInds rows) =
      (uniq (rows.map key)).flatMap fun u => rows.filter fun r => decide (key r = u) := by
  unfold sortInds
  generalize uniq (rows.map key) = U
  induction U with
  | nil => rfl
  | cons u U ih =>
    rw [List.flatMap_cons, List.flatMap_cons, ← ih, ← take_filter key u rows]
    simp only [take, List.filterMap_append]

/-- **C173**, order of readings. The `j`-th reading of the survey is the `j`-th line of the reordered
table, which is that of the stored locations. -/
theorem C173_order (k : Kind) (rows : List (Row P)) :
    readings (survey k rows) = (take rows (sortInds rows)).map (Row.reading k) := by
  rw [take_sortInds, readings, survey, List.flatMap_map, List.map_flatMap]
  refine List.flatMap_congr fun u _ => ?_
  rw [List.map_map]
  refine List.map_congr_left fun r hr => ?_
  have : key r = u := by simpa using (List.mem_filter.1 hr).2
  subst this
  rfl

/-- **C173**, no reading is lost or repeated. -/
theorem C173_perm (rows : List (Row P)) : (sortInds rows).Perm (List.range rows.length) := by
  refine (List.perm_ext_iff_of_nodup ?_ List.nodup_range).2 ?_
  · unfold sortInds
    refine List.nodup_flatMap.2 ⟨fun u _ => List.nodup_range.filter _, ?_⟩
    refine (uniq_nodup _).imp fun {u v} huv => ?_
    intro i hi hj
    have h1 := (List.mem_filter.1 hi).2
    have h2 := (List.mem_filter.1 hj).2
    simp only [decide_eq_true_eq] at h1 h2
    exact huv (Option.some.inj (h1.symm.trans h2))
  · intro i
    simp only [sortInds, List.mem_flatMap, List.mem_filter, List.mem_range, decide_eq_true_eq]
    constructor
    · rintro ⟨u, -, h, -⟩
      exact h
    · intro h
      have h' : i < (rows.map key).length := by simpa using h
      exact ⟨(rows.map key)[i], (mem_uniq _ _).2 (List.getElem_mem h'), h, List.getElem?_eq_getElem h'⟩

theorem take_zip {α β : Type} (l : List α) (d : List β) (h : d.length = l.length) (inds : List ℕ) :
    (take l inds).zip (take d inds) = take (l.zip d) inds := by
  induction inds with
  | nil => rfl
  | cons i inds ih =>
    unfold take at ih ⊢
    by_cases hi : i < l.length
    · have hd : i < d.length := by omega
      have hz : i < (l.zip d).length := by simp; omega
      rw [List.filterMap_cons_some (List.getElem?_eq_getElem hi),
        List.filterMap_cons_some (List.getElem?_eq_getElem hd),
        List.filterMap_cons_some (List.getElem?_eq_getElem hz), List.zip_cons_cons, ih, List.getElem_zip]
    · rw [List.filterMap_cons_none (List.getElem?_eq_none (by omega)),
        List.filterMap_cons_none (List.getElem?_eq_none (by omega)),
        List.filterMap_cons_none (List.getElem?_eq_none (by simp; omega)), ih]

theorem take_range {α : Type} (l : List α) : take l (List.range l.length) = l := by
  induction l using List.reverseRecOn with
  | nil => rfl
  | append_singleton l x ih =>
    unfold take at ih ⊢
    rw [List.length_append, List.length_singleton, List.range_succ, List.filterMap_append]
    congr 1
    · conv_rhs => rw [← ih]
      refine List.filterMap_congr fun i hi => ?_
      rw [List.getElem?_append_left (List.mem_range.1 hi)]
    · simp

theorem take_perm {α : Type} (l : List α) {i j : List ℕ} (h : i.Perm j) : (take l i).Perm (take l j) :=
  h.filterMap _

theorem take_map {α β : Type} (f : α → β) (l : List α) (inds : List ℕ) :
    take (l.map f) inds = (take l inds).map f := by
  simp only [take, List.map_filterMap, List.getElem?_map]

/-- **C173**, data stay with their electrodes. For every table and every column of data, the readings
of the survey with the reordered data are those of the table with the data as given, in another
order. -/
theorem C173_data {α : Type} (k : Kind) (rows : List (Row P)) (d : List α) (hd : d.length = rows.length) :
    ((readings (survey k rows)).zip (take d (sortInds rows))).Perm
      ((rows.map (Row.reading k)).zip d) := by
  rw [C173_order, ← take_map, take_zip _ _ (by simp [hd])]
  have hz : ((rows.map (Row.reading k)).zip d).length = rows.length := by simp [hd]
  have := take_perm ((rows.map (Row.reading k)).zip d) (C173_perm rows)
  rw [← hz] at this
  rwa [take_range] at this

/-- **C173**, one source for every pair of current electrodes, sorted, each with at least one
receiver. -/
theorem C173_sources (k : Kind) (rows : List (Row P)) :
    (survey k rows).length = (rows.map key).toFinset.card ∧
    ∀ s ∈ survey k rows, s.rx ≠ [] := by
  refine ⟨by simp [survey, uniq], ?_⟩
  intro s hs
  obtain ⟨u, hu, rfl⟩ := List.mem_map.1 hs
  obtain ⟨r, hr, rfl⟩ := List.mem_map.1 ((mem_uniq _ _).1 hu)
  refine List.ne_nil_of_mem (a := (r.m, if k.rxDipole then some r.n else none)) ?_
  exact List.mem_map.2 ⟨r, List.mem_filter.2 ⟨hr, by simp⟩, rfl⟩

/-- **C173**, the electrodes are those of the table, each once. -/
theorem C173_electrodes (rows : List (Row P)) :
    (electrodes rows).Nodup ∧
    ∀ x, x ∈ electrodes rows ↔ ∃ r ∈ rows, x = r.a ∨ x = r.b ∨ x = r.m ∨ x = r.n := by
  refine ⟨uniq_nodup _, fun x => ?_⟩
  rw [electrodes, mem_uniq]
  simp only [List.mem_append, List.mem_map]
  constructor
  · rintro (((⟨r, h, rfl⟩ | ⟨r, h, rfl⟩) | ⟨r, h, rfl⟩) | ⟨r, h, rfl⟩)
    · exact ⟨r, h, Or.inl rfl⟩
    · exact ⟨r, h, Or.inr (Or.inl rfl)⟩
    · exact ⟨r, h, Or.inr (Or.inr (Or.inl rfl))⟩
    · exact ⟨r, h, Or.inr (Or.inr (Or.inr rfl))⟩
  · rintro ⟨r, h, rfl | rfl | rfl | rfl⟩
    · exact Or.inl (Or.inl (Or.inl ⟨r, h, rfl⟩))
    · exact Or.inl (Or.inl (Or.inr ⟨r, h, rfl⟩))
    · exact Or.inl (Or.inr ⟨r, h, rfl⟩)
    · exact Or.inr ⟨r, h, rfl⟩

/-- **C173**, writing and reading again. A table in the order of a survey (as `write_to_csv` writes it)
gives the same survey, with every reading at its place. -/
theorem C173_again (k : Kind) (rows : List (Row P)) :
    survey k (take rows (sortInds rows)) = survey k rows ∧
    take (take rows (sortInds rows)) (sortInds (take rows (sortInds rows))) = take rows (sortInds rows) := by
  have hp : (take rows (sortInds rows)).Perm rows := by
    have := take_perm rows (C173_perm rows)
    rwa [take_range] at this
  have hu : uniq ((take rows (sortInds rows)).map key) = uniq (rows.map key) := by
    unfold uniq
    congr 1
    exact List.toFinset_eq_of_perm _ _ (hp.map key)
  have hf : ∀ u ∈ uniq (rows.map key),
      ((take rows (sortInds rows)).filter fun r => decide (key r = u)) =
        rows.filter fun r => decide (key r = u) := by
    intro u hu
    rw [take_sortInds]
    have hn := uniq_nodup (rows.map key)
    revert hu hn
    generalize uniq (rows.map key) = U
    intro hu hn
    induction U with
    | nil => simp at hu
    | cons v U ih =>
      rw [List.flatMap_cons, List.filter_append]
      by_cases h : u = v
      · subst h
        have h0 : ((U.flatMap fun w => rows.filter fun r => decide (key r = w)).filter
            fun r => decide (key r = u)) = [] := by
          refine List.filter_eq_nil_iff.2 fun r hr => ?_
          obtain ⟨w, hw, hrw⟩ := List.mem_flatMap.1 hr
          have : key r = w := by simpa using (List.mem_filter.1 hrw).2
          simp only [decide_eq_true_eq, this]
          rintro rfl
          exact (List.nodup_cons.1 hn).1 hw
        rw [h0, List.append_nil, List.filter_filter]
        simp
      · have h0 : ((rows.filter fun r => decide (key r = v)).filter fun r => decide (key r = u)) = [] := by
          refine List.filter_eq_nil_iff.2 fun r hr => ?_
          have : key r = v := by simpa using (List.mem_filter.1 hr).2
          simp only [decide_eq_true_eq, this]
          exact fun h' => h h'.symm
        rw [h0, List.nil_append]
        exact ih (by simpa [h] using hu) (List.nodup_cons.1 hn).2
  constructor
  · unfold survey
    rw [hu]
    refine List.map_congr_left fun u h => ?_
    rw [hf u h]
  · rw [take_sortInds (take rows (sortInds rows)), hu, take_sortInds rows]
    refine List.flatMap_congr fun u h => ?_
    have := hf u h
    rwa [take_sortInds] at this

/-- The kind of survey found when a file is read, `IODC.py` 1273-1282 and 1338-1347. -/
def kindOf (rows : List (Row P)) : Kind :=
  match (rows.all fun r => decide (r.a = r.b)), (rows.all fun r => decide (r.m = r.n)) with
  | true, true => .polePole
  | true, false => .poleDipole
  | false, true => .dipolePole
  | false, false => .dipoleDipole

/-- **C173**, kinds. A file of readings of one kind is read as such; poles are written with both
electrodes in one place. -/
theorem C173_kind_partial (k : Kind) (rows : List (Row P)) (h0 : rows ≠ [])
    (h : ∀ r ∈ rows, (r.a = r.b ↔ k.srcDipole = false) ∧ (r.m = r.n ↔ k.rxDipole = false)) :
    kindOf rows = k := by
  obtain ⟨r, hr⟩ := List.exists_mem_of_ne_nil _ h0
  have e1 : (rows.all fun r => decide (r.a = r.b)) = !k.srcDipole := by
    cases hk : k.srcDipole with
    | false => exact List.all_eq_true.2 fun x hx => by simpa using ((h x hx).1.2 hk)
    | true =>
      refine List.all_eq_false.2 ⟨r, hr, ?_⟩
      have := (h r hr).1
      rw [hk] at this
      simpa using this
  have e2 : (rows.all fun r => decide (r.m = r.n)) = !k.rxDipole := by
    cases hk : k.rxDipole with
    | false => exact List.all_eq_true.2 fun x hx => by simpa using ((h x hx).2.2 hk)
    | true =>
      refine List.all_eq_false.2 ⟨r, hr, ?_⟩
      have := (h r hr).2
      rw [hk] at this
      simpa using this
  unfold kindOf
  rw [e1, e2]
  cases k <;> rfl

/-- **C173** fails for files with poles and dipoles: as soon as one line has a dipole source, poles
become dipoles with both electrodes in one place. -/
theorem C173_violated_mixed (rows : List (Row P)) (r p : Row P) (hr : r ∈ rows) (hp : p ∈ rows)
    (hd : r.a ≠ r.b) (h : p.a = p.b) :
    ∃ s ∈ survey (kindOf rows) rows, s.a = p.a ∧ s.b = some p.a := by
  have e1 : (rows.all fun r => decide (r.a = r.b)) = false :=
    List.all_eq_false.2 ⟨r, hr, by simpa using hd⟩
  have e2 : (kindOf rows).srcDipole = true := by
    unfold kindOf
    rw [e1]
    cases (rows.all fun r => decide (r.m = r.n)) <;> rfl
  refine ⟨_, List.mem_map.2 ⟨key p, (mem_uniq _ _).2 (List.mem_map.2 ⟨p, hp, rfl⟩), rfl⟩, rfl, ?_⟩
  simp [e2, key, h]

/-- Number of columns of a table against the ten names, `write_to_csv`, `IODC.py` 1300-1324. -/
def writes (dim : ℕ) : Except Err Unit := if 4 * dim + 2 = 10 then .ok () else .error .valueError

/-- **C173** fails for three dimensions: such tables cannot be written. -/
theorem C173_violated_write : writes 2 = .ok () ∧ writes 3 = .error .valueError := ⟨rfl, rfl⟩

/-- What an object holds of its last table: number of readings and data, `IODC.py` 826-836. -/
structure Held where
  n : ℕ
  data : Option (List ℝ)

def load (h : Held) (rows : List (Row P)) (d : Option (List ℝ)) : Held :=
  ⟨(readings (survey .dipoleDipole rows)).length,
    match d with
    | some d => some (take d (sortInds rows))
    | none => h.data⟩

/-- **C173** fails for objects that are used twice: without new data, those of the last table are
kept for the new survey. -/
theorem C173_violated_kept (h : Held) (rows rows' : List (Row P)) (d : List ℝ) (hd : d.length = rows.length)
    (hn : rows.length ≠ rows'.length) :
    ∃ e, (load (load h rows (some d)) rows' none).data = some e ∧
      e.length ≠ (load (load h rows (some d)) rows' none).n := by
  have len : ∀ l : List (Row P), (readings (survey .dipoleDipole l)).length = l.length := by
    intro l
    rw [C173_order, List.length_map]
    have := take_perm l (C173_perm l)
    rw [take_range] at this
    exact this.length_eq
  refine ⟨take d (sortInds rows), rfl, ?_⟩
  have : (take d (sortInds rows)).length = rows.length := by
    have := take_perm d (C173_perm rows)
    rw [← hd, take_range] at this
    rw [this.length_eq, hd]
  rw [this]
  simpa [load, len] using hn

end Readings

/-! ## Quantities -/

inductive DcType
  | volt | resistivity | conductivity

/-- `voltages`, `IODC.py` 624-636. -/
def voltage (t : DcType) (d G : ℝ) : ℝ :=
  match t with
  | .volt => d
  | .resistivity => d * G
  | .conductivity => d / (d * G)

/-- `apparent_resistivity`, `IODC.py` 638-651. -/
def resistivity (t : DcType) (d G : ℝ) : ℝ :=
  match t with
  | .resistivity => d
  | .volt => d / G
  | .conductivity => 1 / d

/-- `apparent_conductivity`, `IODC.py` 653-663. -/
def conductivity (t : DcType) (d G : ℝ) : ℝ :=
  match t with
  | .conductivity => d
  | .resistivity => 1 / d
  | .volt => 1 / d * G

/-- IP data: voltages or apparent chargeabilities; `voltages_ip` and `apparent_chargeability` (665-677,
694-708); those of each time are the same (679-692, 710-726). -/
inductive IpType
  | volt | chargeability

def voltageIp (t : IpType) (d V : ℝ) : ℝ :=
  match t with
  | .volt => d
  | .chargeability => d * V

def chargeability (t : IpType) (d V : ℝ) : ℝ :=
  match t with
  | .chargeability => d
  | .volt => d / V

/-- What is measured over a ground of resistivity `rho`: the voltage is `rho` times the geometric
factor. -/
def measured (t : DcType) (rho G : ℝ) : ℝ :=
  match t with
  | .volt => rho * G
  | .resistivity => rho
  | .conductivity => 1 / rho

/-- **C173**, quantities. Over a ground of resistivity `rho` the apparent resistivity is `rho` and the
apparent conductivity is its reciprocal whatever kind of data was given; the voltage is right for
voltages and resistivities (missing: conductivities, see `C173_violated_voltage`). -/
theorem C173_quantities_partial (t : DcType) {rho G : ℝ} (hr : rho ≠ 0) (hG : G ≠ 0) :
    resistivity t (measured t rho G) G = rho ∧ conductivity t (measured t rho G) G = 1 / rho ∧
    (t ≠ .conductivity → voltage t (measured t rho G) G = rho * G) := by
  cases t <;> refine ⟨?_, ?_, fun h => ?_⟩ <;>
    first
    | exact absurd rfl h
    | (simp only [resistivity, conductivity, voltage, measured]; field_simp)
    | rfl

/-- **C173** fails for voltages from conductivities: they do not depend on the data, and are right for
one resistivity only. -/
theorem C173_violated_voltage {rho G : ℝ} (hr : 0 < rho) (hG : G ≠ 0) :
    voltage .conductivity (measured .conductivity rho G) G = 1 / G ∧
    (voltage .conductivity (measured .conductivity rho G) G = rho * G ↔ rho = 1 / G ^ 2) := by
  have e : voltage .conductivity (measured .conductivity rho G) G = 1 / G := by
    simp only [voltage, measured]
    field_simp
  refine ⟨e, ?_⟩
  rw [e]
  field_simp
  constructor
  · intro h
    linarith
  · intro h
    linarith

/-- **C173**, IP. Voltages and chargeabilities determine one another, and both kinds of data give the
same. -/
theorem C173_ip {V : ℝ} (hV : V ≠ 0) (x : ℝ) :
    chargeability .volt (voltageIp .chargeability x V) V = x ∧
    voltageIp .chargeability (chargeability .volt x V) V = x ∧
    chargeability .chargeability x V = x ∧ voltageIp .volt x V = x := by
  refine ⟨?_, ?_, rfl, rfl⟩
  · simp only [chargeability, voltageIp]
    field_simp
  · simp only [chargeability, voltageIp]
    field_simp

/-! ## Meshes -/

/-- Largest and smallest entry. -/
def maxL (l : List ℝ) : ℝ := l.foldr max (l.headD 0)

def minL (l : List ℝ) : ℝ := l.foldr min (l.headD 0)

theorem le_maxL {l : List ℝ} {x : ℝ} (h : x ∈ l) : x ≤ maxL l := by
  unfold maxL
  generalize l.headD 0 = d
  induction l with
  | nil => simp at h
  | cons y l ih =>
    rcases List.mem_cons.1 h with rfl | h
    · exact le_max_left ..
    · exact (ih h).trans (le_max_right ..)

theorem minL_le {l : List ℝ} {x : ℝ} (h : x ∈ l) : minL l ≤ x := by
  unfold minL
  generalize l.headD 0 = d
  induction l with
  | nil => simp at h
  | cons y l ih =>
    rcases List.mem_cons.1 h with rfl | h
    · exact min_le_left ..
    · exact (min_le_right ..).trans (ih h)

theorem maxL_mem {l : List ℝ} (h : l ≠ []) : maxL l ∈ l := by
  have : ∀ (l : List ℝ) (d : ℝ), l.foldr max d = d ∨ l.foldr max d ∈ l := by
    intro l d
    induction l with
    | nil => exact Or.inl rfl
    | cons y l ih =>
      rw [List.foldr_cons]
      rcases max_choice y (l.foldr max d) with e | e <;> rw [e]
      · exact Or.inr (by simp)
      · rcases ih with h | h
        · exact Or.inl h
        · exact Or.inr (List.mem_cons_of_mem _ h)
  cases l with
  | nil => exact absurd rfl h
  | cons y l =>
    rcases this (y :: l) ((y :: l).headD 0) with e | e
    · unfold maxL
      rw [e]
      simp
    · exact e

/-- Differences of neighbours. -/
def diffs : List ℝ → List ℝ
  | x :: y :: l => |y - x| :: diffs (y :: l)
  | _ => []

/-- Smallest spacing of the electrodes along x, `abs(np.diff(np.sort(...))).min()`, `IODC.py` 917. -/
def spacing (xs : List ℝ) : ℝ := minL (diffs (xs.mergeSort (· ≤ ·)))

/-- `np.round`: to the nearest integer, halves to even numbers. -/
def npRound (x : ℝ) : ℤ :=
  if x - ⌊x⌋ < 1 / 2 then ⌊x⌋
  else if 1 / 2 < x - ⌊x⌋ then ⌊x⌋ + 1
  else if ⌊x⌋ % 2 = 0 then ⌊x⌋ else ⌊x⌋ + 1

theorem npRound_near (x : ℝ) : |(npRound x : ℝ) - x| ≤ 1 / 2 := by
  have h1 := Int.floor_le x
  have h2 := Int.lt_floor_add_one x
  unfold npRound
  rw [abs_le]
  split_ifs with a b c <;> push_cast <;> constructor <;> linarith

/-- Width of `n` padding cells, `(h * rate ** (np.arange(n) + 1)).sum()`. -/
def pad (h rate : ℝ) (n : ℕ) : ℝ := ∑ k ∈ Finset.range n, h * rate ^ (k + 1)

/-- Ends of the core of a mesh along one axis. -/
structure Core where
  lo : ℝ
  hi : ℝ

/-- Core along x: three cells on both sides; the mesh starts at `x0_mesh`, `IODC.py` 995-1005. -/
def coreX (xs : List ℝ) (dx rate : ℝ) (npad : ℕ) : Core :=
  let x0 := minL xs;
  let length := |maxL xs - minL xs|;
  let start := -(pad dx rate npad + dx * 3 - x0);
  ⟨start + pad dx rate npad, start + pad dx rate npad + npRound ((length + dx * 6) / dx) * dx⟩

/-- Core along y, `IODC.py` 1020-1030; the start is half a cell further. -/
def coreY (ys : List ℝ) (dy rate : ℝ) (npad : ℕ) : Core :=
  let y0 := minL ys - dy / 2;
  let start := -(pad dy rate npad + dy * 3 - y0);
  ⟨start + pad dy rate npad, start + pad dy rate npad + npRound ((maxL ys - minL ys + dy * 6) / dy) * dy⟩

/-- Depth of the core if it is not given, `IODC.py` 989-992: the largest depth of the pseudo-section and
the range of the second coordinate, which is that of the height in two dimensions only. -/
def coreDepth (depth : ℝ) (second : List ℝ) : ℝ := depth + (maxL second - minL second)

/-- Core along z, `IODC.py` 985, 996, 998, 1002-1004. -/
def coreZ (zs : List ℝ) (length dz rate : ℝ) (npad : ℕ) : Core :=
  let nz := npRound (length / dz);
  let start := -(pad dz rate npad + dz * nz) + maxL zs;
  ⟨start + pad dz rate npad, start + pad dz rate npad + nz * dz⟩

/-- **C173**, mesh along x. For all electrodes and any size of cells, the core of the mesh starts three
cells before the first electrode and ends three cells, but for half a cell, after the last one. -/
theorem C173_core_x (xs : List ℝ) {dx : ℝ} (hd : 0 < dx) (rate : ℝ) (npad : ℕ) {x : ℝ} (hx : x ∈ xs) :
    (coreX xs dx rate npad).lo = minL xs - 3 * dx ∧
    |(coreX xs dx rate npad).hi - (maxL xs + 3 * dx)| ≤ dx / 2 ∧
    (coreX xs dx rate npad).lo + 3 * dx ≤ x ∧ x + 5 / 2 * dx ≤ (coreX xs dx rate npad).hi := by
  have h1 := minL_le hx
  have h2 := le_maxL hx
  have h3 := npRound_near ((|maxL xs - minL xs| + dx * 6) / dx)
  rw [abs_of_nonneg (by linarith : 0 ≤ maxL xs - minL xs)] at h3
  have h4 : |(npRound ((maxL xs - minL xs + dx * 6) / dx) : ℝ) * dx - (maxL xs - minL xs + dx * 6)| ≤
      dx / 2 := by
    have e : (npRound ((maxL xs - minL xs + dx * 6) / dx) : ℝ) * dx - (maxL xs - minL xs + dx * 6) =
        ((npRound ((maxL xs - minL xs + dx * 6) / dx) : ℝ) - (maxL xs - minL xs + dx * 6) / dx) * dx := by
      field_simp
    rw [e, abs_mul, abs_of_pos hd]
    nlinarith
  have elo : (coreX xs dx rate npad).lo = minL xs - 3 * dx := by
    simp only [coreX]
    ring
  have ehi : (coreX xs dx rate npad).hi =
      minL xs - 3 * dx + npRound ((maxL xs - minL xs + dx * 6) / dx) * dx := by
    simp only [coreX, abs_of_nonneg (by linarith : 0 ≤ maxL xs - minL xs)]
    ring
  rw [abs_le] at h4
  rw [elo, ehi, abs_le]
  refine ⟨rfl, ⟨?_, ?_⟩, ?_, ?_⟩ <;> linarith [h4.1, h4.2]

/-- **C173**, mesh along y. All electrodes are in the core, at least two cells from its ends. -/
theorem C173_core_y (ys : List ℝ) {dy : ℝ} (hd : 0 < dy) (rate : ℝ) (npad : ℕ) {y : ℝ} (hy : y ∈ ys) :
    (coreY ys dy rate npad).lo + 2 * dy ≤ y ∧ y + 2 * dy ≤ (coreY ys dy rate npad).hi := by
  have h1 := minL_le hy
  have h2 := le_maxL hy
  have h3 := npRound_near ((maxL ys - minL ys + dy * 6) / dy)
  have h4 : |(npRound ((maxL ys - minL ys + dy * 6) / dy) : ℝ) * dy - (maxL ys - minL ys + dy * 6)| ≤
      dy / 2 := by
    have e : (npRound ((maxL ys - minL ys + dy * 6) / dy) : ℝ) * dy - (maxL ys - minL ys + dy * 6) =
        ((npRound ((maxL ys - minL ys + dy * 6) / dy) : ℝ) - (maxL ys - minL ys + dy * 6) / dy) * dy := by
      field_simp
    rw [e, abs_mul, abs_of_pos hd]
    nlinarith
  rw [abs_le] at h4
  simp only [coreY]
  constructor <;> linarith [h4.1, h4.2]

/-- **C173**, mesh along z in two dimensions. The mesh ends at the highest point, and its core reaches
the depth of the pseudo-section below the lowest one, but for half a cell. (Partial: in three
dimensions see `C173_violated_depth`.) -/
theorem C173_core_z_partial (zs : List ℝ) (depth : ℝ) {dz : ℝ} (hd : 0 < dz) (rate : ℝ) (npad : ℕ)
    {z : ℝ} (hz : z ∈ zs) :
    (coreZ zs (coreDepth depth zs) dz rate npad).hi = maxL zs ∧
    z ≤ (coreZ zs (coreDepth depth zs) dz rate npad).hi ∧
    (coreZ zs (coreDepth depth zs) dz rate npad).lo ≤ z - depth + dz / 2 := by
  have h1 := minL_le hz
  have h2 := le_maxL hz
  have h3 := npRound_near (coreDepth depth zs / dz)
  have h4 : |(npRound (coreDepth depth zs / dz) : ℝ) * dz - coreDepth depth zs| ≤ dz / 2 := by
    have e : (npRound (coreDepth depth zs / dz) : ℝ) * dz - coreDepth depth zs =
        ((npRound (coreDepth depth zs / dz) : ℝ) - coreDepth depth zs / dz) * dz := by
      field_simp
    rw [e, abs_mul, abs_of_pos hd]
    nlinarith
  have ehi : (coreZ zs (coreDepth depth zs) dz rate npad).hi = maxL zs := by
    simp only [coreZ]
    ring
  have elo : (coreZ zs (coreDepth depth zs) dz rate npad).lo =
      maxL zs - npRound (coreDepth depth zs / dz) * dz := by
    simp only [coreZ]
    ring
  rw [abs_le] at h4
  rw [ehi, elo]
  refine ⟨rfl, h2, ?_⟩
  have h5 := h4.1
  have e : coreDepth depth zs = depth + (maxL zs - minL zs) := rfl
  linarith [h4.1, h4.2]

/-- **C173** fails for the depth in three dimensions: the range of y takes the place of the range of
heights. For electrodes along a line of constant y, every electrode deeper below the highest one than
the pseudo-section (and half a cell) is below the core. -/
theorem C173_violated_depth (ys zs : List ℝ) (y0 depth : ℝ) (hy : ∀ y ∈ ys, y = y0) (hy0 : ys ≠ [])
    {dz : ℝ} (hd : 0 < dz) (rate : ℝ) (npad : ℕ) {z : ℝ} (hz : z < maxL zs - depth - dz / 2) :
    z < (coreZ zs (coreDepth depth ys) dz rate npad).lo := by
  have h0 : coreDepth depth ys = depth := by
    obtain ⟨y, hm⟩ := List.exists_mem_of_ne_nil _ hy0
    have e1 : maxL ys = y0 := hy _ (maxL_mem hy0)
    have e2 : minL ys = y0 := by
      unfold minL
      cases ys with
      | nil => exact absurd rfl hy0
      | cons a l =>
        have ha := hy a (by simp)
        have : ∀ (l : List ℝ), (∀ y ∈ l, y = y0) → l.foldr min y0 = y0 := by
          intro l
          induction l with
          | nil => exact fun _ => rfl
          | cons b l ih =>
            intro h
            rw [List.foldr_cons, ih fun y hy => h y (List.mem_cons_of_mem _ hy), h b (by simp), min_self]
        rw [List.headD_cons, ha]
        exact this (y0 :: l) (by simpa using fun y hy' => hy y (List.mem_cons_of_mem _ hy'))
    rw [coreDepth, e1, e2]
    ring
  rw [h0]
  have h3 := npRound_near (depth / dz)
  have h4 : |(npRound (depth / dz) : ℝ) * dz - depth| ≤ dz / 2 := by
    have e : (npRound (depth / dz) : ℝ) * dz - depth = ((npRound (depth / dz) : ℝ) - depth / dz) * dz := by
      field_simp
    rw [e, abs_mul, abs_of_pos hd]
    nlinarith
  have elo : (coreZ zs depth dz rate npad).lo = maxL zs - npRound (depth / dz) * dz := by
    simp only [coreZ]
    ring
  rw [abs_le] at h4
  rw [elo]
  linarith [h4.1, h4.2]

/-! ### Size of cells -/

theorem diffs_ne {l : List ℝ} (h : 2 ≤ l.length) : diffs l ≠ [] := by
  match l, h with
  | x :: y :: l, _ => simp [diffs]

theorem diffs_le {l : List ℝ} (hs : l.Pairwise (· ≤ ·)) {m : ℝ} (hm : ∀ d ∈ diffs l, m ≤ d) :
    l.Pairwise fun x y => m ≤ y - x := by
  induction l with
  | nil => exact List.Pairwise.nil
  | cons x l ih =>
    cases l with
    | nil => exact List.pairwise_singleton _ _
    | cons y l =>
      have h1 := ih (List.pairwise_cons.1 hs).2 fun d hd => hm d (by rw [diffs]; exact List.mem_cons_of_mem _ hd)
      refine List.pairwise_cons.2 ⟨?_, h1⟩
      have hxy : x ≤ y := (List.pairwise_cons.1 hs).1 y (by simp)
      have h2 : m ≤ y - x := by
        have := hm |y - x| (by rw [diffs]; simp)
        rwa [abs_of_nonneg (by linarith)] at this
      intro z hz
      rcases List.mem_cons.1 hz with rfl | hz
      · exact h2
      · have := (List.pairwise_cons.1 (List.pairwise_cons.1 hs).2).1 z hz
        linarith

theorem diffs_mem {l : List ℝ} {d : ℝ} (h : d ∈ diffs l) : ∃ x y, [x, y].Sublist l ∧ d = |y - x| := by
  induction l with
  | nil => simp [diffs] at h
  | cons x l ih =>
    cases l with
    | nil => simp [diffs] at h
    | cons y l =>
      rw [diffs] at h
      rcases List.mem_cons.1 h with rfl | h
      · exact ⟨x, y, by simp, rfl⟩
      · obtain ⟨a, b, hs, e⟩ := ih h
        exact ⟨a, b, hs.trans (List.sublist_cons_self _ _), e⟩

theorem minL_mem {l : List ℝ} (h : l ≠ []) : minL l ∈ l := by
  have : ∀ (l : List ℝ) (d : ℝ), l.foldr min d = d ∨ l.foldr min d ∈ l := by
    intro l d
    induction l with
    | nil => exact Or.inl rfl
    | cons y l ih =>
      rw [List.foldr_cons]
      rcases min_choice y (l.foldr min d) with e | e <;> rw [e]
      · exact Or.inr (by simp)
      · rcases ih with h | h
        · exact Or.inl h
        · exact Or.inr (List.mem_cons_of_mem _ h)
  cases l with
  | nil => exact absurd rfl h
  | cons y l =>
    rcases this (y :: l) ((y :: l).headD 0) with e | e
    · unfold minL
      rw [e]
      simp
    · exact e

theorem pairwise_mem {R : ℝ → ℝ → Prop} {l : List ℝ} (h : l.Pairwise R) {x y : ℝ} (hx : x ∈ l) (hy : y ∈ l)
    (hne : x ≠ y) : R x y ∨ R y x := by
  induction l with
  | nil => simp at hx
  | cons a l ih =>
    obtain ⟨h1, h2⟩ := List.pairwise_cons.1 h
    rcases List.mem_cons.1 hx with rfl | hx'
    · rcases List.mem_cons.1 hy with rfl | hy'
      · exact absurd rfl hne
      · exact Or.inl (h1 y hy')
    · rcases List.mem_cons.1 hy with rfl | hy'
      · exact Or.inr (h1 x hx')
      · exact ih h2 hx' hy'

theorem sorted_sort (xs : List ℝ) : (xs.mergeSort (· ≤ ·)).Pairwise (· ≤ ·) := by
  have := List.pairwise_mergeSort (le := fun a b : ℝ => decide (a ≤ b))
    (fun a b c h1 h2 => by simpa using le_trans (by simpa using h1) (by simpa using h2))
    (fun a b => by simpa using le_total a b) xs
  exact this.imp fun h => by simpa using h

/-- **C173**, size of cells. If no two electrodes have the same x, the spacing is the smallest distance
along x of two electrodes, hence positive. (Partial: see `C173_violated_spacing`.) -/
theorem C173_spacing_partial (xs : List ℝ) (hn : xs.Nodup) (hl : 2 ≤ xs.length) :
    0 < spacing xs ∧ (∀ x ∈ xs, ∀ y ∈ xs, x ≠ y → spacing xs ≤ |x - y|) ∧
    ∃ x ∈ xs, ∃ y ∈ xs, x ≠ y ∧ spacing xs = |x - y| := by
  have hp := List.mergeSort_perm xs (fun a b : ℝ => decide (a ≤ b))
  have hs := sorted_sort xs
  have hn' : (xs.mergeSort fun a b : ℝ => decide (a ≤ b)).Nodup := hp.nodup_iff.2 hn
  have hl' : 2 ≤ (xs.mergeSort fun a b : ℝ => decide (a ≤ b)).length := by rw [hp.length_eq]; exact hl
  have hex : ∃ x ∈ xs, ∃ y ∈ xs, x ≠ y ∧ spacing xs = |x - y| := by
    obtain ⟨x, y, hsub, e⟩ := diffs_mem (minL_mem (diffs_ne hl'))
    have hxy : x ≠ y := by
      have := hn'.sublist hsub
      simpa using this
    exact ⟨y, hp.mem_iff.1 (hsub.subset (by simp)), x, hp.mem_iff.1 (hsub.subset (by simp)), hxy.symm, e⟩
  refine ⟨?_, ?_, hex⟩
  · obtain ⟨x, -, y, -, hne, e⟩ := hex
    rw [e]
    exact abs_pos.2 (sub_ne_zero.2 hne)
  · have hd := diffs_le hs (m := spacing xs) fun d hd => minL_le hd
    intro x hx y hy hne
    have hx' := hp.mem_iff.2 hx
    have hy' := hp.mem_iff.2 hy
    rcases pairwise_mem hd hx' hy' hne with h | h
    · rw [abs_sub_comm]
      exact h.trans (le_abs_self _)
    · exact h.trans (le_abs_self _)

/-- **C173** fails for electrodes with the same x, as on parallel lines: the spacing and hence the size
of cells is zero. -/
theorem C173_violated_spacing (xs : List ℝ) (h : ¬ xs.Nodup) : spacing xs = 0 := by
  have hp := List.mergeSort_perm xs (fun a b : ℝ => decide (a ≤ b))
  have hs := sorted_sort xs
  have hn' : ¬ (xs.mergeSort fun a b : ℝ => decide (a ≤ b)).Nodup := fun h' => h (hp.nodup_iff.1 h')
  have hne : diffs (xs.mergeSort fun a b : ℝ => decide (a ≤ b)) ≠ [] := by
    refine diffs_ne ?_
    by_contra hc
    refine hn' ?_
    generalize (xs.mergeSort fun a b : ℝ => decide (a ≤ b)) = l at hc
    match l, hc with
    | [], _ => exact List.nodup_nil
    | [x], _ => exact List.nodup_singleton x
    | x :: y :: l, hc => simp at hc
  refine le_antisymm ?_ ?_
  · by_contra hc
    push Not at hc
    have hd := diffs_le hs (m := spacing xs) fun d hd => minL_le hd
    refine hn' (hd.imp fun {a b} h e => ?_)
    subst e
    linarith
  · obtain ⟨x, y, -, e⟩ := diffs_mem (minL_mem hne)
    have e' : spacing xs = |y - x| := e
    rw [e']
    exact abs_nonneg _

/-! ### Quadtrees -/

/-- Number of base cells, `2 ** int(np.ceil(np.log(width / h) / np.log(2)))`, `IODC.py` 1054-1059. (With
fewer than one cell the code has a fraction; here one cell.) -/
def baseCells (width h : ℝ) : ℕ := 2 ^ ⌈Real.log (width / h) / Real.log 2⌉.toNat

theorem baseCells_covers {width h : ℝ} (hw : 0 < width) (hh : 0 < h) : width ≤ baseCells width h * h := by
  have hq : 0 < width / h := by positivity
  have h2 : 0 < Real.log 2 := Real.log_pos (by norm_num)
  have h3 : Real.log (width / h) / Real.log 2 ≤ (⌈Real.log (width / h) / Real.log 2⌉.toNat : ℝ) := by
    have a := Int.le_ceil (Real.log (width / h) / Real.log 2)
    have b := Int.self_le_toNat ⌈Real.log (width / h) / Real.log 2⌉
    have b' : ((⌈Real.log (width / h) / Real.log 2⌉ : ℤ) : ℝ) ≤
        ((⌈Real.log (width / h) / Real.log 2⌉.toNat : ℤ) : ℝ) := by exact_mod_cast b
    rw [Int.cast_natCast] at b'
    exact a.trans b'
  rw [div_le_iff₀ h2] at h3
  have h4 : width / h ≤ 2 ^ ⌈Real.log (width / h) / Real.log 2⌉.toNat := by
    rw [← Real.log_le_log_iff hq (by positivity), Real.log_pow]
    exact h3
  rw [div_le_iff₀ hh] at h4
  have : ((baseCells width h : ℕ) : ℝ) = 2 ^ ⌈Real.log (width / h) / Real.log 2⌉.toNat := by
    simp [baseCells]
  rw [this]
  exact h4

/-- Ends of the quadtree along x, `IODC.py` 1051, 1071-1083. -/
def treeX (xs : List ℝ) (dx rate : ℝ) (npad : ℕ) : Core :=
  let length := |maxL xs - minL xs|;
  let width := baseCells (length + 2 * pad dx rate npad) dx * dx;
  let mid := 0.5 * (minL xs + maxL xs);
  ⟨mid - width / 2, mid - width / 2 + width⟩

/-- Ends along z, `IODC.py` 1052, 1072-1083. -/
def treeZ (zs : List ℝ) (length dz rate : ℝ) (npad : ℕ) : Core :=
  let height := baseCells (length + pad dz rate npad) dz * dz;
  ⟨maxL zs - height, maxL zs - height + height⟩

/-- **C173**, quadtrees. The mesh reaches beyond all electrodes by at least the width of the padding on
both sides, ends at the highest point and reaches below the lowest one by the depth of the
pseudo-section and the padding. -/
theorem C173_tree (xs zs : List ℝ) {dx dz depth rate : ℝ} (hx : 0 < dx) (hz : 0 < dz) (hr : 0 < rate)
    (hd : 0 < depth) {npad : ℕ} (hn : 0 < npad) {x z : ℝ} (mx : x ∈ xs) (mz : z ∈ zs) :
    (treeX xs dx rate npad).lo + pad dx rate npad ≤ x ∧ x + pad dx rate npad ≤ (treeX xs dx rate npad).hi ∧
    (treeZ zs (coreDepth depth zs) dz rate npad).hi = maxL zs ∧
    (treeZ zs (coreDepth depth zs) dz rate npad).lo + pad dz rate npad + depth ≤ z := by
  have hp : ∀ {h : ℝ}, 0 < h → 0 < pad h rate npad := by
    intro h hh
    refine Finset.sum_pos (fun k _ => by positivity) ⟨0, by simpa using hn⟩
  have h1 := minL_le mx
  have h2 := le_maxL mx
  have h3 := minL_le mz
  have h4 := le_maxL mz
  have e : |maxL xs - minL xs| = maxL xs - minL xs := abs_of_nonneg (by linarith)
  have c1 := baseCells_covers (width := maxL xs - minL xs + 2 * pad dx rate npad) (h := dx)
    (by linarith [hp hx]) hx
  have c2 := baseCells_covers (width := coreDepth depth zs + pad dz rate npad) (h := dz)
    (by unfold coreDepth; linarith [hp hz]) hz
  have e2 : coreDepth depth zs = depth + (maxL zs - minL zs) := rfl
  simp only [treeX, treeZ, e]
  refine ⟨?_, ?_, ?_, ?_⟩
  · norm_num
    linarith
  · norm_num
    linarith
  · ring
  · linarith

/-! ### Highest point -/

/-- Points that determine the top of the mesh in two dimensions: those of the topography and the
electrodes whose x is not among its x, `IODC.py` 954-967. -/
def points (topo elec : List (ℝ × ℝ)) : List (ℝ × ℝ) :=
  topo ++ elec.filter fun e => decide (e.1 ∉ topo.map Prod.fst)

/-- **C173** fails for electrodes above the topography at one of its points: such an electrode does not
count, and is above the mesh if it is higher than all other points. -/
theorem C173_violated_top (topo elec : List (ℝ × ℝ)) (e : ℝ × ℝ) (he : e.1 ∈ topo.map Prod.fst)
    (hl : e ∈ elec) (ht : ∀ p ∈ topo, p.2 < e.2) (hh : ∀ p ∈ elec, p ≠ e → p.2 < e.2) (length dz rate : ℝ)
    (npad : ℕ) :
    e ∈ elec ∧ (coreZ ((points topo elec).map Prod.snd) length dz rate npad).hi < e.2 := by
  refine ⟨hl, ?_⟩
  have hh : ∀ p ∈ points topo elec, p.2 < e.2 := by
    intro p hp
    rcases List.mem_append.1 hp with hp | hp
    · exact ht p hp
    · obtain ⟨h1, h2⟩ := List.mem_filter.1 hp
      refine hh p h1 ?_
      rintro rfl
      exact (of_decide_eq_true h2) he
  have ehi : (coreZ ((points topo elec).map Prod.snd) length dz rate npad).hi =
      maxL ((points topo elec).map Prod.snd) := by
    simp only [coreZ]
    ring
  rw [ehi]
  obtain ⟨t, ht, -⟩ := List.mem_map.1 he
  have hne : (points topo elec).map Prod.snd ≠ [] := by
    refine List.ne_nil_of_mem (List.mem_map.2 ⟨t, List.mem_append_left _ ht, rfl⟩)
  obtain ⟨p, hp, e'⟩ := List.mem_map.1 (maxL_mem hne)
  rw [← e']
  exact hh p hp

/-- Attribute of the depth of the core: `corezlength` gives the rate of the padding, `IODC.py` 600-609. -/
structure Attr where
  pad_rate_z : ℝ
  core : ℝ

def Attr.corezlength (a : Attr) : ℝ := a.pad_rate_z

def Attr.setCore (a : Attr) (x : ℝ) : Attr := { a with core := x }

/-- **C173** fails for the depth of the core: what was set is not returned. -/
theorem C173_violated_core (a : Attr) (x : ℝ) (h : x ≠ a.pad_rate_z) : (a.setCore x).corezlength ≠ x :=
  fun e => h e.symm

/-! ## Cases that meet the hypotheses -/

/-- Three readings of two sources, not in order. -/
example : ∃ rows : List (Row ℕ), rows.length = 3 ∧ ¬ (rows.map key).Nodup ∧
    (∀ r ∈ rows, (r.a = r.b ↔ Kind.dipoleDipole.srcDipole = false) ∧
      (r.m = r.n ↔ Kind.dipoleDipole.rxDipole = false)) :=
  ⟨[⟨2, 3, 4, 5⟩, ⟨1, 2, 4, 5⟩, ⟨2, 3, 5, 6⟩], rfl, by decide, by decide⟩

/-- An electrode above the topography. -/
example : ∃ (topo elec : List (ℝ × ℝ)) (e : ℝ × ℝ), e.1 ∈ topo.map Prod.fst ∧ e ∈ elec ∧
    (∀ p ∈ topo, p.2 < e.2) ∧ ∀ p ∈ elec, p ≠ e → p.2 < e.2 :=
  ⟨[(0, 1), (1, 1)], [(0, 1), (1, 2)], (1, 2), by simp, by simp, by simp, by simp⟩

/-- Four electrodes of a line, and two parallel lines. -/
example : ([0, 1, 3, 4] : List ℝ).Nodup ∧ 2 ≤ ([0, 1, 3, 4] : List ℝ).length ∧
    ¬ ([0, 1, 0, 1] : List ℝ).Nodup := by
  refine ⟨by norm_num, by simp, by simp⟩

end Verif.DC.Locations
