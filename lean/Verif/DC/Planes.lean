import Verif.Basic
import Mathlib.Analysis.SpecialFunctions.Sqrt
import Mathlib.Data.Real.Sqrt
import Mathlib.Tactic.Linarith
import Mathlib.Tactic.Ring
import Mathlib.Tactic.LinearCombination
import Mathlib.Tactic.FieldSimp
import Mathlib.Tactic.Positivity

/-! Model of the selection of data near planes: `define_plane_from_points`
(`simpeg/utils/mat_utils.py` 456-485) and `plot_3d_pseudosection`
(`simpeg/electromagnetics/static/utils/static_utils.py` 760-930, without the drawing), for C199. -/

noncomputable section
namespace Verif.DC.Planes
open Verif

/-- A location. -/
structure P3 where
  x : ℝ
  y : ℝ
  z : ℝ

/-- `p - q`. -/
def P3.sub (p q : P3) : P3 := ⟨p.x - q.x, p.y - q.y, p.z - q.z⟩

/-- `np.sum(p ** 2)`. -/
def P3.sq (p : P3) : ℝ := p.x ^ 2 + p.y ^ 2 + p.z ^ 2

/-- `np.cross`. -/
def P3.cross (p q : P3) : P3 :=
  ⟨p.y * q.z - p.z * q.y, p.z * q.x - p.x * q.z, p.x * q.y - p.y * q.x⟩

open Classical in
/-- A difference divided by its length (`mat_utils.py` 479-480); `none` is NaN, from a division of
zero by zero. -/
def unit (p : P3) : Option P3 :=
  if p.sq = 0 then none
  else some ⟨p.x / Real.sqrt p.sq, p.y / Real.sqrt p.sq, p.z / Real.sqrt p.sq⟩

/-- `define_plane_from_points` (`mat_utils.py` 456-485). -/
def definePlane (p1 p2 p3 : P3) : Option (ℝ × ℝ × ℝ × ℝ) := do
  let v12 ← unit (p2.sub p1)
  let v13 ← unit (p3.sub p1)
  let n := v12.cross v13
  return (n.x, n.y, n.z, -(n.x * p1.x + n.y * p1.y + n.z * p1.z))

open Classical in
/-- The test of one location and one plane (`static_utils.py` 899-909); comparisons with NaN are
false. -/
def near (pl : P3 × P3 × P3) (dist : ℝ) (q : P3) : Bool :=
  match definePlane pl.1 pl.2.1 pl.2.2 with
  | none => false
  | some (a, b, c, d) =>
    if a ^ 2 + b ^ 2 + c ^ 2 = 0 then false
    else decide (|a * q.x + b * q.y + c * q.z + d| / Real.sqrt (a ^ 2 + b ^ 2 + c ^ 2) < dist)

/-- The distances a user gives: one number or a list. -/
inductive Distance
  | one (d : ℝ)
  | many (d : List ℝ)

/-- `plane_distance` after line 892-893. -/
def Distance.expand (n : Nat) : Distance → List ℝ
  | .one d => List.replicate n d
  | .many d => d

/-- The loop over planes (896-909) for all locations: `k` begins with False; IndexError for a plane
without distance. -/
def loopK (locs : List P3) : List (P3 × P3 × P3) → List ℝ → List Bool → Except Err (List Bool)
  | [], _, k => .ok k
  | _ :: _, [], _ => .error .indexError
  | pl :: pls, d :: ds, k => loopK locs pls ds (List.zipWith (· || ·) k (locs.map (near pl d)))

/-- The locations kept (882-929), in their order: IndexError when there are none. `planes = none`:
no planes are given. -/
def kept (locs : List P3) (planes : Option (List (P3 × P3 × P3))) (dist : Distance) :
    Except Err (List P3) :=
  match planes with
  | none => .ok locs
  | some pls => do
    let k ← loopK locs pls (dist.expand pls.length) (List.replicate locs.length false);
    if k.all (! ·) then .error .indexError
    else return ((locs.zip k).filter (·.2)).map (·.1)

/-- `{key: opts.get(key, default[key]) for key in default}` (852-853, 867-868): the options of the
colour bar and of the markers. -/
def updateOpts {β : Type} (default opts : List (String × β)) : List (String × β) :=
  default.map fun kv => (kv.1, (opts.lookup kv.1).getD kv.2)

namespace Props

/-! ### Specification -/

/-- The square of the distance of two locations. -/
def dist2 (p q : P3) : ℝ := (p.x - q.x) ^ 2 + (p.y - q.y) ^ 2 + (p.z - q.z) ^ 2

/-- The location with coordinates `s` and `t` in the plane of three points. -/
def inPlane (pl : P3 × P3 × P3) (s t : ℝ) : P3 :=
  ⟨pl.1.x + s * (pl.2.1.x - pl.1.x) + t * (pl.2.2.x - pl.1.x),
   pl.1.y + s * (pl.2.1.y - pl.1.y) + t * (pl.2.2.y - pl.1.y),
   pl.1.z + s * (pl.2.1.z - pl.1.z) + t * (pl.2.2.z - pl.1.z)⟩

/-- Less than `d` from the plane: some location of the plane is. -/
def Near (pl : P3 × P3 × P3) (d : ℝ) (q : P3) : Prop :=
  0 < d ∧ ∃ s t, dist2 q (inPlane pl s t) < d ^ 2

/-- Three points on one line: the differences from the first are parallel. -/
def Collinear (pl : P3 × P3 × P3) : Prop :=
  ∃ s t : ℝ, (s ≠ 0 ∨ t ≠ 0) ∧ dist2 pl.1 (inPlane pl s t) = 0

/-! ### C199 -/

/-- The vector normal to the plane, not scaled. -/
def normal (pl : P3 × P3 × P3) : P3 := (pl.2.1.sub pl.1).cross (pl.2.2.sub pl.1)

theorem sq_eq_zero {p : P3} : p.sq = 0 ↔ p.x = 0 ∧ p.y = 0 ∧ p.z = 0 := by
  unfold P3.sq
  constructor
  · intro h
    have hx := sq_nonneg p.x
    have hy := sq_nonneg p.y
    have hz := sq_nonneg p.z
    refine ⟨pow_eq_zero_iff (two_ne_zero) |>.mp ?_, pow_eq_zero_iff (two_ne_zero) |>.mp ?_,
      pow_eq_zero_iff (two_ne_zero) |>.mp ?_⟩ <;> linarith
  · rintro ⟨h1, h2, h3⟩
    rw [h1, h2, h3]; norm_num

theorem sq_nonneg' (p : P3) : 0 ≤ p.sq := by unfold P3.sq; positivity

/-- The product of the vector normal to the plane with the difference from the first point. -/
def height (pl : P3 × P3 × P3) (q : P3) : ℝ :=
  (normal pl).x * (q.x - pl.1.x) + (normal pl).y * (q.y - pl.1.y) + (normal pl).z * (q.z - pl.1.z)

theorem height_cauchy (pl : P3 × P3 × P3) (q : P3) (s t : ℝ) :
    height pl q ^ 2 ≤ (normal pl).sq * dist2 q (inPlane pl s t) := by
  set n := normal pl with hn
  set y := inPlane pl s t with hy
  have h1 : height pl q = n.x * (q.x - y.x) + n.y * (q.y - y.y) + n.z * (q.z - y.z) := by
    rw [hy, height, hn]
    simp only [inPlane, normal, P3.cross, P3.sub]
    ring
  rw [h1]
  simp only [P3.sq, dist2]
  nlinarith [sq_nonneg (n.x * (q.y - y.y) - n.y * (q.x - y.x)),
    sq_nonneg (n.x * (q.z - y.z) - n.z * (q.x - y.x)),
    sq_nonneg (n.y * (q.z - y.z) - n.z * (q.y - y.y))]

/-- The foot of the perpendicular. -/
theorem foot (pl : P3 × P3 × P3) (q : P3) (hn : (normal pl).sq ≠ 0) :
    ∃ s t, dist2 q (inPlane pl s t) = height pl q ^ 2 / (normal pl).sq := by
  set n := normal pl with hN
  let r := q.sub pl.1
  let u := pl.2.1.sub pl.1
  let w := pl.2.2.sub pl.1
  let dot (a b : P3) : ℝ := a.x * b.x + a.y * b.y + a.z * b.z
  refine ⟨dot (r.cross w) n / n.sq, dot (u.cross r) n / n.sq, ?_⟩
  have ex : q.x - (inPlane pl (dot (r.cross w) n / n.sq) (dot (u.cross r) n / n.sq)).x =
      height pl q / n.sq * n.x := by
    simp only [inPlane]
    field_simp
    simp only [dot, r, u, w, height, hN, normal, P3.sq, P3.cross, P3.sub]
    ring
  have ey : q.y - (inPlane pl (dot (r.cross w) n / n.sq) (dot (u.cross r) n / n.sq)).y =
      height pl q / n.sq * n.y := by
    simp only [inPlane]
    field_simp
    simp only [dot, r, u, w, height, hN, normal, P3.sq, P3.cross, P3.sub]
    ring
  have ez : q.z - (inPlane pl (dot (r.cross w) n / n.sq) (dot (u.cross r) n / n.sq)).z =
      height pl q / n.sq * n.z := by
    simp only [inPlane]
    field_simp
    simp only [dot, r, u, w, height, hN, normal, P3.sq, P3.cross, P3.sub]
    ring
  unfold dist2
  rw [ex, ey, ez]
  have : (height pl q / n.sq * n.x) ^ 2 + (height pl q / n.sq * n.y) ^ 2 +
      (height pl q / n.sq * n.z) ^ 2 = (height pl q / n.sq) ^ 2 * n.sq := by
    simp only [P3.sq]; ring
  rw [this]
  field_simp

theorem near_spec (pl : P3 × P3 × P3) (d : ℝ) (q : P3) (hn : (normal pl).sq ≠ 0) :
    Near pl d q ↔ 0 < d ∧ height pl q ^ 2 / (normal pl).sq < d ^ 2 := by
  have hpos : 0 < (normal pl).sq := lt_of_le_of_ne (sq_nonneg' _) (Ne.symm hn)
  unfold Near
  refine and_congr_right fun _ => ⟨?_, ?_⟩
  · rintro ⟨s, t, h⟩
    have := height_cauchy pl q s t
    rw [div_lt_iff₀ hpos]
    nlinarith
  · intro h
    obtain ⟨s, t, e⟩ := foot pl q hn
    exact ⟨s, t, by rw [e]; exact h⟩

theorem normal_zero_left (pl : P3 × P3 × P3) (h : (pl.2.1.sub pl.1).sq = 0) : (normal pl).sq = 0 := by
  obtain ⟨h1, h2, h3⟩ := sq_eq_zero.mp h
  simp [normal, P3.cross, P3.sq, h1, h2, h3]

theorem normal_zero_right (pl : P3 × P3 × P3) (h : (pl.2.2.sub pl.1).sq = 0) : (normal pl).sq = 0 := by
  obtain ⟨h1, h2, h3⟩ := sq_eq_zero.mp h
  simp [normal, P3.cross, P3.sq, h1, h2, h3]

/-- The constants of the plane: a multiple of the normal vector, and the first point lies on it. -/
theorem definePlane_eq (pl : P3 × P3 × P3) (h1 : (pl.2.1.sub pl.1).sq ≠ 0)
    (h2 : (pl.2.2.sub pl.1).sq ≠ 0) :
    ∃ l > 0, definePlane pl.1 pl.2.1 pl.2.2 = some (l * (normal pl).x, l * (normal pl).y,
      l * (normal pl).z, -(l * ((normal pl).x * pl.1.x + (normal pl).y * pl.1.y +
        (normal pl).z * pl.1.z))) := by
  have p1 : 0 < Real.sqrt (pl.2.1.sub pl.1).sq :=
    Real.sqrt_pos.mpr (lt_of_le_of_ne (sq_nonneg' _) (Ne.symm h1))
  have p2 : 0 < Real.sqrt (pl.2.2.sub pl.1).sq :=
    Real.sqrt_pos.mpr (lt_of_le_of_ne (sq_nonneg' _) (Ne.symm h2))
  refine ⟨1 / (Real.sqrt (pl.2.1.sub pl.1).sq * Real.sqrt (pl.2.2.sub pl.1).sq), by positivity, ?_⟩
  unfold definePlane unit
  rw [if_neg h1, if_neg h2]
  simp only [Option.bind_eq_bind, Option.bind_some, Option.pure_def, Option.some.injEq,
    Prod.mk.injEq, P3.cross, normal]
  generalize Real.sqrt (pl.2.1.sub pl.1).sq = A at p1
  generalize Real.sqrt (pl.2.2.sub pl.1).sq = B at p2
  refine ⟨?_, ?_, ?_, ?_⟩ <;> field_simp <;> ring

/-- C199. A location is kept for a plane exactly when it is closer to it than the distance given,
whenever the three points do not lie on a line. -/
theorem C199_near (pl : P3 × P3 × P3) (hc : ¬ Collinear pl) (d : ℝ) (q : P3) :
    near pl d q = true ↔ Near pl d q := by
  have hn : (normal pl).sq ≠ 0 := by
    intro h
    apply hc
    obtain ⟨hx, hy, hz⟩ := sq_eq_zero.mp h
    simp only [normal, P3.cross, P3.sub] at hx hy hz
    by_cases hu : (pl.2.1.sub pl.1).sq = 0
    · obtain ⟨a1, a2, a3⟩ := sq_eq_zero.mp hu
      simp only [P3.sub] at a1 a2 a3
      refine ⟨1, 0, Or.inl one_ne_zero, ?_⟩
      simp only [dist2, inPlane, a1, a2, a3]
      ring
    · by_cases hux : pl.2.1.x - pl.1.x = 0
      · by_cases huy : pl.2.1.y - pl.1.y = 0
        · have huz : pl.2.1.z - pl.1.z ≠ 0 := fun huz => hu (sq_eq_zero.mpr ⟨hux, huy, huz⟩)
          refine ⟨-(pl.2.2.z - pl.1.z), pl.2.1.z - pl.1.z, Or.inr huz, ?_⟩
          have e1 : pl.2.2.x - pl.1.x = 0 := by
            rw [hux] at hy; simpa [huz] using hy
          have e2 : pl.2.2.y - pl.1.y = 0 := by
            rw [huy] at hx; simpa [huz] using hx
          simp only [dist2, inPlane, hux, huy, e1, e2]
          ring
        · refine ⟨-(pl.2.2.y - pl.1.y), pl.2.1.y - pl.1.y, Or.inr huy, ?_⟩
          simp only [dist2, inPlane]
          have e1 : pl.1.x - (pl.1.x + -(pl.2.2.y - pl.1.y) * (pl.2.1.x - pl.1.x) +
              (pl.2.1.y - pl.1.y) * (pl.2.2.x - pl.1.x)) = 0 := by linear_combination hz
          have e3 : pl.1.z - (pl.1.z + -(pl.2.2.y - pl.1.y) * (pl.2.1.z - pl.1.z) +
              (pl.2.1.y - pl.1.y) * (pl.2.2.z - pl.1.z)) = 0 := by linear_combination -hx
          rw [e1, e3]; ring
      · refine ⟨-(pl.2.2.x - pl.1.x), pl.2.1.x - pl.1.x, Or.inr hux, ?_⟩
        simp only [dist2, inPlane]
        have e2 : pl.1.y - (pl.1.y + -(pl.2.2.x - pl.1.x) * (pl.2.1.y - pl.1.y) +
            (pl.2.1.x - pl.1.x) * (pl.2.2.y - pl.1.y)) = 0 := by linear_combination -hz
        have e3 : pl.1.z - (pl.1.z + -(pl.2.2.x - pl.1.x) * (pl.2.1.z - pl.1.z) +
            (pl.2.1.x - pl.1.x) * (pl.2.2.z - pl.1.z)) = 0 := by linear_combination hy
        rw [e2, e3]; ring
  have hpos : 0 < (normal pl).sq := lt_of_le_of_ne (sq_nonneg' _) (Ne.symm hn)
  obtain ⟨l, hl, e⟩ := definePlane_eq pl (fun h => hn (normal_zero_left pl h))
    (fun h => hn (normal_zero_right pl h))
  rw [near_spec pl d q hn]
  unfold near
  rw [e]
  simp only
  have hs : (l * (normal pl).x) ^ 2 + (l * (normal pl).y) ^ 2 + (l * (normal pl).z) ^ 2 =
      l ^ 2 * (normal pl).sq := by simp only [P3.sq]; ring
  rw [hs, if_neg (by positivity), decide_eq_true_iff]
  have hh : l * (normal pl).x * q.x + l * (normal pl).y * q.y + l * (normal pl).z * q.z +
      -(l * ((normal pl).x * pl.1.x + (normal pl).y * pl.1.y + (normal pl).z * pl.1.z)) =
      l * height pl q := by simp only [height]; ring
  rw [hh, Real.sqrt_mul (by positivity), Real.sqrt_sq hl.le, abs_mul, abs_of_pos hl]
  have hsq : 0 < Real.sqrt (normal pl).sq := Real.sqrt_pos.mpr hpos
  have e2 : l * |height pl q| / (l * Real.sqrt (normal pl).sq) =
      |height pl q| / Real.sqrt (normal pl).sq := by field_simp
  have e3 : height pl q ^ 2 / (normal pl).sq = (|height pl q| / Real.sqrt (normal pl).sq) ^ 2 := by
    rw [div_pow, sq_abs, Real.sq_sqrt hpos.le]
  rw [e2, e3]
  have h0 : 0 ≤ |height pl q| / Real.sqrt (normal pl).sq := by positivity
  constructor
  · intro h
    exact ⟨lt_of_le_of_lt h0 h, by nlinarith⟩
  · rintro ⟨hd, h⟩
    exact lt_of_pow_lt_pow_left₀ 2 hd.le h

theorem collinear_normal (pl : P3 × P3 × P3) (hc : Collinear pl) : (normal pl).sq = 0 := by
  obtain ⟨s, t, hst, h⟩ := hc
  have h' : (⟨pl.1.x - (inPlane pl s t).x, pl.1.y - (inPlane pl s t).y,
      pl.1.z - (inPlane pl s t).z⟩ : P3).sq = 0 := h
  obtain ⟨hx, hy, hz⟩ := sq_eq_zero.mp h'
  simp only [inPlane] at hx hy hz
  apply sq_eq_zero.mpr
  simp only [normal, P3.cross, P3.sub]
  rcases hst with hs | ht
  · refine ⟨mul_left_cancel₀ hs ?_, mul_left_cancel₀ hs ?_, mul_left_cancel₀ hs ?_⟩
    · linear_combination (pl.2.2.y - pl.1.y) * hz - (pl.2.2.z - pl.1.z) * hy
    · linear_combination (pl.2.2.z - pl.1.z) * hx - (pl.2.2.x - pl.1.x) * hz
    · linear_combination (pl.2.2.x - pl.1.x) * hy - (pl.2.2.y - pl.1.y) * hx
  · refine ⟨mul_left_cancel₀ ht ?_, mul_left_cancel₀ ht ?_, mul_left_cancel₀ ht ?_⟩
    · linear_combination (pl.2.1.z - pl.1.z) * hy - (pl.2.1.y - pl.1.y) * hz
    · linear_combination (pl.2.1.x - pl.1.x) * hz - (pl.2.1.z - pl.1.z) * hx
    · linear_combination (pl.2.1.y - pl.1.y) * hx - (pl.2.1.x - pl.1.x) * hy

/-- C199 (violation). Three points on a line keep no location, however large the distance, also those
on the line. -/
theorem C199_violated_collinear (pl : P3 × P3 × P3) (hc : Collinear pl) (d : ℝ) (q : P3) :
    near pl d q = false := by
  replace hc := collinear_normal pl hc
  unfold near
  by_cases h1 : (pl.2.1.sub pl.1).sq = 0
  · simp [definePlane, unit, h1]
  · by_cases h2 : (pl.2.2.sub pl.1).sq = 0
    · simp [definePlane, unit, h1, h2]
    · obtain ⟨l, hl, e⟩ := definePlane_eq pl h1 h2
      obtain ⟨a, b, c⟩ := sq_eq_zero.mp hc
      rw [e]
      simp [a, b, c]

theorem loopK_spec (locs : List P3) (pls : List (P3 × P3 × P3)) (ds : List ℝ) (f : P3 → Bool)
    (h : pls.length ≤ ds.length) :
    loopK locs pls ds (locs.map f) =
      .ok (locs.map fun q => f q || (pls.zip ds).any fun pd => near pd.1 pd.2 q) := by
  induction pls generalizing ds f with
  | nil => simp [loopK]
  | cons pl pls ih =>
    cases ds with
    | nil => simp at h
    | cons d ds =>
      rw [loopK]
      have : List.zipWith (· || ·) (locs.map f) (locs.map (near pl d)) =
          locs.map fun q => f q || near pl d q := by
        rw [List.zipWith_map, List.zipWith_self]
      rw [this, ih ds _ (by simpa using h)]
      simp [Bool.or_assoc]

/-- C199. The locations kept are those near at least one of the planes, in their order; when there
are none, IndexError. Without planes all are kept. -/
theorem C199_kept (locs : List P3) (pls : List (P3 × P3 × P3)) (dist : Distance)
    (h : pls.length ≤ (dist.expand pls.length).length) (hc : ∀ pl ∈ pls, ¬ Collinear pl) :
    kept locs none dist = .ok locs ∧
    ((∃ q ∈ locs, ∃ pd ∈ pls.zip (dist.expand pls.length), Near pd.1 pd.2 q) →
      ∃ L, kept locs (some pls) dist = .ok L ∧ L.Sublist locs ∧
        ∀ q, q ∈ L ↔ q ∈ locs ∧ ∃ pd ∈ pls.zip (dist.expand pls.length), Near pd.1 pd.2 q) ∧
    ((¬ ∃ q ∈ locs, ∃ pd ∈ pls.zip (dist.expand pls.length), Near pd.1 pd.2 q) →
      kept locs (some pls) dist = .error .indexError) := by
  set ds := dist.expand pls.length with hds
  let g : P3 → Bool := fun q => (pls.zip ds).any fun pd => near pd.1 pd.2 q
  have hg : ∀ q, g q = true ↔ ∃ pd ∈ pls.zip ds, Near pd.1 pd.2 q := fun q => by
    simp only [g, List.any_eq_true]
    refine exists_congr fun pd => and_congr_right fun hpd => ?_
    exact C199_near pd.1 (hc _ (List.of_mem_zip hpd).1) pd.2 q
  have hk : loopK locs pls ds (List.replicate locs.length false) = .ok (locs.map g) := by
    have := loopK_spec locs pls ds (fun _ => false) h
    simpa [List.map_const'] using this
  have hf : ∀ L : List P3, ((L.zip (L.map g)).filter (·.2)).map (·.1) = L.filter g := fun L => by
    induction L with
    | nil => rfl
    | cons q L ih =>
      simp only [List.map_cons, List.zip_cons_cons]
      by_cases hq : g q = true
      · simp [hq, ih]
      · simp [hq, ih]
  have hall : (locs.map g).all (! ·) = true ↔ ¬ ∃ q ∈ locs, ∃ pd ∈ pls.zip ds, Near pd.1 pd.2 q := by
    simp only [List.all_eq_true, List.mem_map, forall_exists_index, and_imp,
      forall_apply_eq_imp_iff₂, not_exists, not_and]
    constructor
    · intro hq q hql pd hpd hn
      have := hq q hql
      rw [(hg q).mpr ⟨pd, hpd, hn⟩] at this
      simp at this
    · intro hq q hql
      by_contra hh
      have : g q = true := by simpa using hh
      obtain ⟨pd, hpd, hn⟩ := (hg q).mp this
      exact hq q hql pd hpd hn
  refine ⟨rfl, fun he => ?_, fun he => ?_⟩
  · refine ⟨locs.filter g, ?_, List.filter_sublist, fun q => ?_⟩
    · simp only [kept, ← hds, hk, bind, Except.bind]
      rw [if_neg (by rw [hall]; exact not_not.mpr he), hf]
      rfl
    · rw [List.mem_filter, hg]
  · simp only [kept, ← hds, hk, bind, Except.bind]
    rw [if_pos (hall.mpr he)]

/-- C199. One distance serves all planes; a list must not be shorter than that of the planes, else
IndexError (when there are planes left without distance). -/
theorem C199_distances (locs : List P3) (pls : List (P3 × P3 × P3)) (d : ℝ) (ds : List ℝ) :
    (Distance.expand pls.length (.one d)) = pls.map (fun _ => d) ∧
    (ds.length < pls.length → kept locs (some pls) (.many ds) = .error .indexError) := by
  refine ⟨by simp [Distance.expand, List.map_const'], fun h => ?_⟩
  have : ∀ (pls : List (P3 × P3 × P3)) (ds : List ℝ) k, ds.length < pls.length →
      loopK locs pls ds k = .error .indexError := by
    intro pls
    induction pls with
    | nil => intro ds k h; simp at h
    | cons pl pls ih =>
      intro ds k h
      cases ds with
      | nil => rfl
      | cons d ds => rw [loopK]; exact ih _ _ (by simpa using h)
  simp only [kept, Distance.expand, this _ _ _ h, bind, Except.bind]

/-- C199. Options the defaults have are replaced by those given. -/
theorem C199_options {β : Type} (default opts : List (String × β)) (k : String) (v : β)
    (h : default.lookup k = some v) :
    (updateOpts default opts).lookup k = some ((opts.lookup k).getD v) := by
  induction default with
  | nil => simp at h
  | cons kv rest ih =>
    rw [updateOpts, List.map_cons, List.lookup_cons]
    rw [List.lookup_cons] at h
    by_cases hk : (k == kv.1) = true
    · have hk' : k = kv.1 := by simpa using hk
      rw [hk] at h ⊢
      simp only [Option.some.injEq] at h
      subst h hk'
      rfl
    · have hk' : (k == kv.1) = false := by simpa using hk
      rw [hk'] at h ⊢
      exact ih h

/-- C199 (violation). Options without a default are dropped, whatever their values. -/
theorem C199_violated_options {β : Type} (default opts : List (String × β)) (k : String)
    (h : default.lookup k = none) : (updateOpts default opts).lookup k = none := by
  induction default with
  | nil => rfl
  | cons kv rest ih =>
    rw [updateOpts, List.map_cons, List.lookup_cons]
    rw [List.lookup_cons] at h
    by_cases hk : (k == kv.1) = true
    · rw [hk] at h; simp at h
    · have hk' : (k == kv.1) = false := by simpa using hk
      rw [hk'] at h ⊢
      exact ih h

/-- The plane of the axes `x` and `y`: its points are not on a line, and a location 1 above it is
less than 2 away. -/
example : ¬ Collinear (⟨0, 0, 0⟩, ⟨2, 0, 0⟩, ⟨0, 3, 0⟩) ∧
    Near (⟨0, 0, 0⟩, ⟨2, 0, 0⟩, ⟨0, 3, 0⟩) 2 ⟨4, 6, 1⟩ := by
  refine ⟨?_, by norm_num, 2, 2, by norm_num [dist2, inPlane]⟩
  rintro ⟨s, t, h, e⟩
  simp only [dist2, inPlane] at e
  have hs : s = 0 := by nlinarith [sq_nonneg s, sq_nonneg t]
  have ht : t = 0 := by nlinarith [sq_nonneg s, sq_nonneg t]
  rcases h with h | h
  · exact h hs
  · exact h ht

end Props
end Verif.DC.Planes
