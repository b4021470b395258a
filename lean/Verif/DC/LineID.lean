import Verif.Basic
import Mathlib.Data.Real.Sqrt
import Mathlib.Analysis.SpecialFunctions.Trigonometric.Basic
import Mathlib.Tactic.Linarith
import Mathlib.Tactic.NormNum
import Mathlib.Tactic.FieldSimp
import Mathlib.Tactic.Ring

/-!
# Numbers of survey lines

Model of `xy_2_lineID` and `r_unit` of `/repo/simpeg/electromagnetics/static/utils/static_utils.py`
(1416-1524). Coordinates are real numbers. Points are the first two coordinates.
-/

noncomputable section
namespace Verif.DC.LineID

abbrev Pt := ℝ × ℝ

/-- Length of the vector from `p1` to `p2`, `static_utils.py` 1511-1516. -/
def len (p1 p2 : Pt) : ℝ := √((p2.1 - p1.1) ^ 2 + (p2.2 - p1.2) ^ 2)

/-- `r_unit`, `static_utils.py` 1494-1524. -/
def rUnit (p1 p2 : Pt) : Pt × ℝ :=
  let r := len p1 p2
  if r ≠ 0 then (((p2.1 - p1.1) / r, (p2.2 - p1.2) / r), r) else ((0, 0), r)

/-- `vec.dot(vec)`. -/
def dot (a b : Pt) : ℝ := a.1 * b.1 + a.2 * b.2

/-- `np.mean([p, q], axis=0)`. -/
def mean (p q : Pt) : Pt := ((p.1 + q.1) / 2, (p.2 + q.2) / 2)

/-- Variables of the loop. -/
structure St where
  xout : Pt
  xy0 : Pt
  xym : Pt
  linenum : ℕ

/-- "Deal with replicate pole location", `static_utils.py` 1451-1453 and 1481-1483. -/
def nudge (xy0 xym : Pt) : Pt := if xy0 = xym then (xym.1 + 1e-3, xym.2) else xym

/-- The first source, `static_utils.py` 1441-1455. `xym` and `xout` are the same array, so that `xout` is moved
with it. -/
def start (A B : Pt) : St := ⟨nudge A (mean A B), A, nudge A (mean A B), 0⟩

/-- The test for a new line, `static_utils.py` 1462-1474. -/
def isNew (s : St) (xin : Pt) : Prop :=
  (|dot (rUnit s.xout xin).1 (rUnit s.xym xin).1| < Real.cos (Real.pi / 4) ∨
    |dot (rUnit s.xy0 xin).1 (rUnit s.xym s.xy0).1| < Real.cos (Real.pi / 4)) ∧
  (0 < (rUnit s.xout xin).2 ∧ 0 < (rUnit s.xym xin).2 ∧ 0 < (rUnit s.xy0 xin).2 ∧ 0 < (rUnit s.xym s.xy0).2)

open Classical in
/-- One pass of the loop, `static_utils.py` 1457-1489. With a new line `xym` is the array `xin`, which is moved
before it becomes `xout`. -/
def step (s : St) (A B : Pt) : St :=
  let xin := mean A B
  if isNew s xin then ⟨nudge A xin, A, nudge A xin, s.linenum + 1⟩
  else ⟨xin, s.xy0, mean s.xy0 xin, s.linenum⟩

/-- `lineID[1:]`. -/
def rest : St → List (Pt × Pt) → List ℕ
  | _, [] => []
  | s, (A, B) :: l => (step s A B).linenum :: rest (step s A B) l

/-- `lineID` for dipoles. -/
def ids : List (Pt × Pt) → List ℕ
  | [] => []
  | (A, B) :: l => 0 :: rest (start A B) l

/-- A source: the rows of its `location`, `resistivity/sources.py` 25-40; poles have one row. -/
inductive Src
  | pole (A : Pt)
  | dipole (A B : Pt)

/-- `location[0]` and `location[1]`. -/
def Src.rows : Src → Except Err (Pt × Pt)
  | .pole _ => .error .indexError
  | .dipole A B => .ok (A, B)

/-- `xy_2_lineID`, `static_utils.py` 1416-1491. -/
def lineID (l : List Src) : Except Err (List ℕ) := (l.mapM Src.rows).map ids

/-! ## Lemmas -/

theorem len_sq (p q : Pt) : len p q ^ 2 = (q.1 - p.1) ^ 2 + (q.2 - p.2) ^ 2 := Real.sq_sqrt (by positivity)

theorem len_nonneg (p q : Pt) : 0 ≤ len p q := Real.sqrt_nonneg _

/-- Square of the distance. -/
def sq (p q : Pt) : ℝ := (q.1 - p.1) ^ 2 + (q.2 - p.2) ^ 2

/-- Scalar product of the vectors from `p` to `q` and from `p'` to `q'`. -/
def dots (p q p' q' : Pt) : ℝ := (q.1 - p.1) * (q'.1 - p'.1) + (q.2 - p.2) * (q'.2 - p'.2)

theorem len_pos (p q : Pt) : 0 < (rUnit p q).2 ↔ 0 < sq p q := by
  have h1 : (rUnit p q).2 = len p q := by unfold rUnit; simp only; split <;> rfl
  rw [h1]
  exact Real.sqrt_pos

theorem angle (p q p' q' : Pt) (h : 0 < sq p q) (h' : 0 < sq p' q') :
    |dot (rUnit p q).1 (rUnit p' q').1| < Real.cos (Real.pi / 4) ↔
      2 * dots p q p' q' ^ 2 < sq p q * sq p' q' := by
  have hp : 0 < len p q := Real.sqrt_pos.2 h
  have hp' : 0 < len p' q' := Real.sqrt_pos.2 h'
  have e : dot (rUnit p q).1 (rUnit p' q').1 = dots p q p' q' / (len p q * len p' q') := by
    unfold rUnit dot dots
    simp only [if_pos hp.ne', if_pos hp'.ne', ne_eq, hp.ne', hp'.ne', not_false_eq_true, if_true]
    field_simp
  have hc : Real.cos (Real.pi / 4) ^ 2 = 1 / 2 := by
    rw [Real.cos_pi_div_four, div_pow, Real.sq_sqrt (by norm_num)]; norm_num
  have hcp : 0 ≤ Real.cos (Real.pi / 4) := by rw [Real.cos_pi_div_four]; positivity
  rw [e, ← abs_of_nonneg hcp, ← sq_lt_sq, hc, div_pow, mul_pow, len_sq, len_sq]
  rw [div_lt_iff₀ (by unfold sq at h h'; positivity)]
  unfold sq
  constructor <;> intro h <;> linarith

theorem isNew_iff (s : St) (xin : Pt) : isNew s xin ↔
    (0 < sq s.xout xin ∧ 0 < sq s.xym xin ∧ 0 < sq s.xy0 xin ∧ 0 < sq s.xym s.xy0) ∧
      (2 * dots s.xout xin s.xym xin ^ 2 < sq s.xout xin * sq s.xym xin ∨
        2 * dots s.xy0 xin s.xym s.xy0 ^ 2 < sq s.xy0 xin * sq s.xym s.xy0) := by
  unfold isNew
  simp only [len_pos]
  constructor
  · rintro ⟨h, h1, h2, h3, h4⟩
    rw [angle _ _ _ _ h1 h2, angle _ _ _ _ h3 h4] at h
    exact ⟨⟨h1, h2, h3, h4⟩, h⟩
  · rintro ⟨⟨h1, h2, h3, h4⟩, h⟩
    rw [← angle _ _ _ _ h1 h2, ← angle _ _ _ _ h3 h4] at h
    exact ⟨h, h1, h2, h3, h4⟩

/-! ## Specification -/

/-- The point at distance `s` along a line through `p` in direction `u`, and `w` beside it. -/
def at' (p u : Pt) (s w : ℝ) : Pt := (p.1 + s * u.1 - w * u.2, p.2 + s * u.2 + w * u.1)

theorem sq_at (p u : Pt) (hu : u.1 ^ 2 + u.2 ^ 2 = 1) (s w s' w' : ℝ) :
    sq (at' p u s w) (at' p u s' w') = (s' - s) ^ 2 + (w' - w) ^ 2 := by
  unfold sq at'
  simp only
  have : (p.1 + s' * u.1 - w' * u.2 - (p.1 + s * u.1 - w * u.2)) ^ 2 +
      (p.2 + s' * u.2 + w' * u.1 - (p.2 + s * u.2 + w * u.1)) ^ 2 =
      (u.1 ^ 2 + u.2 ^ 2) * ((s' - s) ^ 2 + (w' - w) ^ 2) := by ring
  rw [this, hu, one_mul]

theorem dots_at (p u : Pt) (hu : u.1 ^ 2 + u.2 ^ 2 = 1) (s w s' w' t v t' v' : ℝ) :
    dots (at' p u s w) (at' p u s' w') (at' p u t v) (at' p u t' v') =
      (s' - s) * (t' - t) + (w' - w) * (v' - v) := by
  unfold dots at'
  simp only
  have : (p.1 + s' * u.1 - w' * u.2 - (p.1 + s * u.1 - w * u.2)) * (p.1 + t' * u.1 - v' * u.2 - (p.1 + t * u.1 - v * u.2)) +
      (p.2 + s' * u.2 + w' * u.1 - (p.2 + s * u.2 + w * u.1)) * (p.2 + t' * u.2 + v' * u.1 - (p.2 + t * u.2 + v * u.1)) =
      (u.1 ^ 2 + u.2 ^ 2) * ((s' - s) * (t' - t) + (w' - w) * (v' - v)) := by ring
  rw [this, hu, one_mul]

theorem mean_at (p u : Pt) (s w s' w' : ℝ) :
    mean (at' p u s w) (at' p u s' w') = at' p u ((s + s') / 2) ((w + w') / 2) := by
  unfold mean at'
  ext <;> simp only <;> ring

theorem at_inj (p u : Pt) (hu : u.1 ^ 2 + u.2 ^ 2 = 1) {s s' : ℝ} (h : at' p u s 0 = at' p u s' 0) : s = s' := by
  have := sq_at p u hu s 0 s' 0
  rw [h] at this
  have h0 : sq (at' p u s' 0) (at' p u s' 0) = 0 := by unfold sq; ring
  rw [h0] at this
  have : (s' - s) ^ 2 = 0 := by nlinarith
  have := pow_eq_zero_iff (two_ne_zero) |>.1 this
  linarith

/-- State while on a straight line that began at `s0`. -/
structure OnLine (p u : Pt) (s0 : ℝ) (t : ℝ) (s : St) : Prop where
  xy0 : s.xy0 = at' p u s0 0
  xout : s.xout = at' p u t 0
  xym : ∃ m, s.xym = at' p u m 0
  num : s.linenum = 0

theorem OnLine.step_eq {p u : Pt} (hu : u.1 ^ 2 + u.2 ^ 2 = 1) {s0 t : ℝ} {s : St} (h : OnLine p u s0 t s)
    (a b : ℝ) : step s (at' p u a 0) (at' p u b 0) = ⟨at' p u ((a + b) / 2) 0, at' p u s0 0,
      at' p u ((s0 + (a + b) / 2) / 2) 0, 0⟩ := by
  obtain ⟨m, hm⟩ := h.xym
  have hx : mean (at' p u a 0) (at' p u b 0) = at' p u ((a + b) / 2) 0 := by rw [mean_at]; norm_num
  unfold step
  simp only
  rw [if_neg]
  · rw [hx, h.xy0, h.num, mean_at]; norm_num
  · rw [isNew_iff, hx, h.xy0, h.xout, hm]
    simp only [sq_at p u hu, dots_at p u hu]
    rintro ⟨-, h' | h'⟩
    · nlinarith [sq_nonneg (((a + b) / 2 - t) * ((a + b) / 2 - m))]
    · nlinarith [sq_nonneg (((a + b) / 2 - s0) * (s0 - m))]

theorem rest_straight {p u : Pt} (hu : u.1 ^ 2 + u.2 ^ 2 = 1) (s0 : ℝ) (l : List (ℝ × ℝ)) (l' : List (Pt × Pt)) :
    ∀ (t : ℝ) (s : St), OnLine p u s0 t s →
      rest s (l.map (fun q => (at' p u q.1 0, at' p u q.2 0)) ++ l') = List.replicate l.length 0 ++
        rest (l.foldl (fun s q => step s (at' p u q.1 0) (at' p u q.2 0)) s) l' := by
  induction l with
  | nil => intro t s h; rfl
  | cons q l ih =>
    intro t s h
    have e := h.step_eq hu q.1 q.2
    simp only [List.map_cons, List.cons_append, rest, List.length_cons, List.replicate_succ, List.foldl_cons]
    have h' : OnLine p u s0 ((q.1 + q.2) / 2) (step s (at' p u q.1 0) (at' p u q.2 0)) := by
      rw [e]; exact ⟨rfl, rfl, ⟨_, rfl⟩, rfl⟩
    rw [ih _ _ h', h'.num]

theorem start_onLine {p u : Pt} (hu : u.1 ^ 2 + u.2 ^ 2 = 1) (a b : ℝ) (hab : a ≠ b) :
    OnLine p u a ((a + b) / 2) (start (at' p u a 0) (at' p u b 0)) := by
  have hx : mean (at' p u a 0) (at' p u b 0) = at' p u ((a + b) / 2) 0 := by rw [mean_at]; norm_num
  have hne : at' p u a 0 ≠ at' p u ((a + b) / 2) 0 := by
    intro h
    have := at_inj p u hu h
    apply hab; linarith
  have hn : nudge (at' p u a 0) (mean (at' p u a 0) (at' p u b 0)) = at' p u ((a + b) / 2) 0 := by
    rw [hx, nudge, if_neg hne]
  unfold start
  rw [hn]
  exact ⟨rfl, rfl, ⟨_, rfl⟩, rfl⟩

/-- State after the last of at least two sources. -/
theorem last_onLine {p u : Pt} (hu : u.1 ^ 2 + u.2 ^ 2 = 1) (s0 : ℝ) (l : List (ℝ × ℝ)) (q : ℝ × ℝ) :
    ∀ (t : ℝ) (s : St), OnLine p u s0 t s →
      (l ++ [q]).foldl (fun s q => step s (at' p u q.1 0) (at' p u q.2 0)) s =
        ⟨at' p u ((q.1 + q.2) / 2) 0, at' p u s0 0, at' p u ((s0 + (q.1 + q.2) / 2) / 2) 0, 0⟩ := by
  induction l with
  | nil => intro t s h; exact h.step_eq hu q.1 q.2
  | cons r l ih =>
    intro t s h
    have e := h.step_eq hu r.1 r.2
    have h' : OnLine p u s0 ((r.1 + r.2) / 2) (step s (at' p u r.1 0) (at' p u r.2 0)) := by
      rw [e]; exact ⟨rfl, rfl, ⟨_, rfl⟩, rfl⟩
    exact ih _ _ h'

/-! ## Theorems -/

/-- C175. For every survey of dipoles there is one number for each source; the first is zero and each following
number is the one before it or the next one. -/
theorem C175_numbers (l : List (Pt × Pt)) : (ids l).length = l.length ∧ (∀ n ∈ (ids l).head?, n = 0) ∧
    List.IsChain (fun m n => n = m ∨ n = m + 1) (ids l) := by
  have hr : ∀ (l : List (Pt × Pt)) (s : St), (rest s l).length = l.length ∧
      List.IsChain (fun m n => n = m ∨ n = m + 1) (s.linenum :: rest s l) := by
    intro l
    induction l with
    | nil => intro s; simp [rest]
    | cons q l ih =>
      intro s
      obtain ⟨A, B⟩ := q
      refine ⟨by simp [rest, (ih _).1], ?_⟩
      simp only [rest]
      refine List.IsChain.cons_cons ?_ (ih _).2
      unfold step
      simp only
      split
      · exact Or.inr rfl
      · exact Or.inl rfl
  cases l with
  | nil => simp [ids]
  | cons q l =>
    obtain ⟨A, B⟩ := q
    refine ⟨by simp [ids, (hr _ _).1], by simp [ids], ?_⟩
    exact (hr l (start A B)).2

/-- C175. Dipoles on a straight line, in any direction and any order, are one line. -/
theorem C175_straight (p u : Pt) (hu : u.1 ^ 2 + u.2 ^ 2 = 1) (a b : ℝ) (hab : a ≠ b) (l : List (ℝ × ℝ)) :
    ids (((a, b) :: l).map fun q => (at' p u q.1 0, at' p u q.2 0)) = List.replicate (l.length + 1) 0 := by
  have := rest_straight hu a l [] _ _ (start_onLine (p := p) hu a b hab)
  simp only [List.append_nil, rest] at this
  simp only [List.map_cons, ids, this, List.replicate_succ]

example : ((3 / 5 : ℝ), (4 / 5 : ℝ)).1 ^ 2 + ((3 / 5 : ℝ), (4 / 5 : ℝ)).2 ^ 2 = 1 ∧ (0 : ℝ) ≠ 10 := by norm_num

/-- C175, partial. A source beside the last one of a straight line, at less than half the distance from the first
electrode of the line, begins a new line (surveys that go back and forth). -/
theorem C175_turn_partial (p u : Pt) (hu : u.1 ^ 2 + u.2 ^ 2 = 1) (a b : ℝ) (hab : a ≠ b) (l : List (ℝ × ℝ))
    (q : ℝ × ℝ) (A B : Pt) (w : ℝ) (hm : mean A B = at' p u ((q.1 + q.2) / 2) w) (hw : w ≠ 0)
    (hw2 : |w| < |(q.1 + q.2) / 2 - a| / 2) :
    ids (((a, b) :: l ++ [q]).map (fun q => (at' p u q.1 0, at' p u q.2 0)) ++ [(A, B)]) =
      List.replicate (l.length + 2) 0 ++ [1] := by
  have h0 := start_onLine (p := p) hu a b hab
  have := rest_straight hu a (l ++ [q]) [(A, B)] _ _ h0
  rw [last_onLine hu a l q _ _ h0] at this
  simp only [List.cons_append, List.map_cons, ids, this]
  simp only [rest]
  have hnew : (step ⟨at' p u ((q.1 + q.2) / 2) 0, at' p u a 0, at' p u ((a + (q.1 + q.2) / 2) / 2) 0, 0⟩ A B).linenum
      = 1 := by
    unfold step
    simp only
    rw [if_pos]
    rw [isNew_iff, hm]
    simp only [sq_at p u hu, dots_at p u hu]
    set t := (q.1 + q.2) / 2
    have hw' : 0 < w ^ 2 := by positivity
    have h4 : w ^ 2 < (t - a) ^ 2 / 4 := by
      have := sq_lt_sq' (by linarith [abs_nonneg w, abs_nonneg (t - a)]) hw2
      rw [sq_abs, div_pow, sq_abs] at this
      linarith
    refine ⟨⟨by nlinarith, by nlinarith [sq_nonneg (t - (a + t) / 2)], by nlinarith [sq_nonneg (t - a)],
      by nlinarith⟩, Or.inl ?_⟩
    have : (t - (a + t) / 2) ^ 2 = (t - a) ^ 2 / 4 := by ring
    have e2 : 2 * ((t - t) * (t - (a + t) / 2) + (w - 0) * (w - 0)) ^ 2 = w ^ 2 * (2 * w ^ 2) := by ring
    rw [e2]
    have e3 : ((t - t) ^ 2 + (w - 0) ^ 2) * ((t - (a + t) / 2) ^ 2 + (w - 0) ^ 2) =
        w ^ 2 * ((t - a) ^ 2 / 4 + w ^ 2) := by rw [this]; ring
    rw [e3]
    exact mul_lt_mul_of_pos_left (by linarith) hw'
  rw [hnew]
  simp [List.replicate_succ]

example : (0 : ℝ) ≠ 10 ∧ mean (100, 20) (110, 20) = at' (0, 0) (1, 0) (((100 : ℝ) + 110) / 2) 20 ∧
    |(20 : ℝ)| < |((100 : ℝ) + 110) / 2 - 0| / 2 := by
  refine ⟨by norm_num, ?_, by norm_num [abs_of_pos]⟩
  unfold mean at'
  ext <;> norm_num

/-- C175 violated. A source behind the beginning of the line, however far beside it, is taken for the same line if
it is at least as far behind as beside. -/
theorem C175_violated_far (p u : Pt) (hu : u.1 ^ 2 + u.2 ^ 2 = 1) (a b : ℝ) (hab : a ≠ b) (l : List (ℝ × ℝ))
    (q : ℝ × ℝ) (hq : a ≤ (q.1 + q.2) / 2) (A B : Pt) (d w : ℝ) (hm : mean A B = at' p u (a - d) w) (hd : |w| ≤ d) :
    ids (((a, b) :: l ++ [q]).map (fun q => (at' p u q.1 0, at' p u q.2 0)) ++ [(A, B)]) =
      List.replicate (l.length + 3) 0 := by
  have h0 := start_onLine (p := p) hu a b hab
  have := rest_straight hu a (l ++ [q]) [(A, B)] _ _ h0
  rw [last_onLine hu a l q _ _ h0] at this
  simp only [List.cons_append, List.map_cons, ids, this]
  simp only [rest]
  have hnew : (step ⟨at' p u ((q.1 + q.2) / 2) 0, at' p u a 0, at' p u ((a + (q.1 + q.2) / 2) / 2) 0, 0⟩ A B).linenum
      = 0 := by
    unfold step
    simp only
    rw [if_neg]
    rw [isNew_iff, hm]
    simp only [sq_at p u hu, dots_at p u hu]
    obtain ⟨e, he⟩ : ∃ e, (q.1 + q.2) / 2 = a + e := ⟨(q.1 + q.2) / 2 - a, by ring⟩
    rw [he] at hq ⊢
    have he0 : 0 ≤ e := by linarith
    have hd0 : 0 ≤ d := le_trans (abs_nonneg w) hd
    have hw2 : w ^ 2 ≤ d ^ 2 := by rw [← sq_abs w]; exact pow_le_pow_left₀ (abs_nonneg w) hd 2
    rintro ⟨-, h | h⟩
    · have e1 : 2 * ((a - d - (a + e)) * (a - d - (a + (a + e)) / 2) + (w - 0) * (w - 0)) ^ 2 =
          2 * ((d + e) * (d + e / 2) + w ^ 2) ^ 2 := by ring
      have e2 : ((a - d - (a + e)) ^ 2 + (w - 0) ^ 2) * ((a - d - (a + (a + e)) / 2) ^ 2 + (w - 0) ^ 2) =
          ((d + e) * (d + e / 2) + w ^ 2) ^ 2 + (w * e / 2) ^ 2 := by ring
      rw [e1, e2] at h
      have h3 : (w * e / 2) ^ 2 ≤ ((d + e) * (d + e / 2) + w ^ 2) ^ 2 := by
        apply sq_le_sq'
        · nlinarith [mul_nonneg hd0 he0, mul_nonneg he0 he0, mul_nonneg hd0 hd0, sq_nonneg (w + e), sq_nonneg (w - e)]
        · nlinarith [mul_nonneg hd0 he0, mul_nonneg he0 he0, mul_nonneg hd0 hd0, sq_nonneg (w + e), sq_nonneg (w - e)]
      linarith
    · have e1 : 2 * ((a - d - a) * (a - (a + (a + e)) / 2) + (w - 0) * (0 - 0)) ^ 2 = e ^ 2 / 4 * (2 * d ^ 2) := by ring
      have e2 : ((a - d - a) ^ 2 + (w - 0) ^ 2) * ((a - (a + (a + e)) / 2) ^ 2 + (0 - 0) ^ 2) =
          e ^ 2 / 4 * (d ^ 2 + w ^ 2) := by ring
      rw [e1, e2] at h
      have : e ^ 2 / 4 * (d ^ 2 + w ^ 2) ≤ e ^ 2 / 4 * (2 * d ^ 2) :=
        mul_le_mul_of_nonneg_left (by linarith) (by positivity)
      linarith
  rw [hnew]
  simp [List.replicate_succ, ← List.replicate_succ']

example : (0 : ℝ) ≤ ((100 : ℝ) + 110) / 2 ∧ mean (-505, 400) (-495, 400) = at' (0, 0) (1, 0) (0 - 500) 400 ∧
    |(400 : ℝ)| ≤ 500 := by
  refine ⟨by norm_num, ?_, by norm_num [abs_of_pos]⟩
  unfold mean at'
  ext <;> norm_num

/-- C175 violated. Poles given as dipoles with both electrodes at one place, on a line nearer to the north than to
the east: every source is numbered as a line of its own. -/
theorem C175_violated_poles (P : Pt) (l : List Pt)
    (h : List.IsChain (fun p q : Pt => |q.1 - p.1| < |q.2 - p.2|) (P :: l)) :
    ids ((P :: l).map fun p => (p, p)) = List.range (l.length + 1) := by
  have hmean : ∀ p : Pt, mean p p = p := by intro p; unfold mean; ext <;> simp only <;> ring
  have key : ∀ (l : List Pt) (P : Pt) (n : ℕ), List.IsChain (fun p q : Pt => |q.1 - p.1| < |q.2 - p.2|) (P :: l) →
      rest ⟨(P.1 + 1e-3, P.2), P, (P.1 + 1e-3, P.2), n⟩ (l.map fun p => (p, p)) = List.range' (n + 1) l.length := by
    intro l
    induction l with
    | nil => intro P n _; rfl
    | cons Q l ih =>
      intro P n hc
      have hPQ : |Q.1 - P.1| < |Q.2 - P.2| := by
        have := hc.rel_head; exact this
      have hs : step ⟨(P.1 + 1e-3, P.2), P, (P.1 + 1e-3, P.2), n⟩ Q Q =
          ⟨(Q.1 + 1e-3, Q.2), Q, (Q.1 + 1e-3, Q.2), n + 1⟩ := by
        unfold step
        simp only [hmean]
        have hsq : (Q.1 - P.1) ^ 2 < (Q.2 - P.2) ^ 2 := sq_lt_sq.2 hPQ
        have hy : 0 < (Q.2 - P.2) ^ 2 := lt_of_le_of_lt (sq_nonneg _) hsq
        rw [if_pos, nudge, if_pos rfl]
        rw [isNew_iff, hmean]
        unfold sq dots
        simp only
        refine ⟨⟨add_pos_of_nonneg_of_pos (sq_nonneg _) hy, add_pos_of_nonneg_of_pos (sq_nonneg _) hy,
          add_pos_of_nonneg_of_pos (sq_nonneg _) hy, by norm_num⟩, Or.inr ?_⟩
        nlinarith
      simp only [List.map_cons, rest, hs, List.length_cons, List.range'_succ]
      rw [ih Q (n + 1) hc.tail]
  simp only [List.map_cons, ids, start, hmean, nudge, if_true]
  rw [key l P 0 h, List.range_eq_range', List.range'_succ]

example : List.IsChain (fun p q : Pt => |q.1 - p.1| < |q.2 - p.2|) [((0 : ℝ), (0 : ℝ)), (0, 10), (0, 20), (1, 30)] := by
  simp [abs_of_pos]
  norm_num [abs_of_pos]

/-- C175 violated. Surveys with a pole source raise IndexError. -/
theorem C175_violated_class (l l' : List Src) (A : Pt) : lineID (l ++ .pole A :: l') = .error .indexError := by
  unfold lineID
  have : (l ++ .pole A :: l').mapM Src.rows = .error .indexError := by
    induction l with
    | nil => rw [List.nil_append, List.mapM_cons]; rfl
    | cons s l ih =>
      rw [List.cons_append, List.mapM_cons, ih]
      cases s <;> rfl
  rw [this]
  rfl

/-- C175. Surveys of dipoles alone are numbered. -/
theorem C175_dipoles (l : List (Pt × Pt)) : lineID (l.map fun q => .dipole q.1 q.2) = .ok (ids l) := by
  unfold lineID
  have : (l.map fun q => Src.dipole q.1 q.2).mapM Src.rows = .ok l := by
    induction l with
    | nil => rfl
    | cons q l ih => rw [List.map_cons, List.mapM_cons, ih]; rfl
  rw [this]
  rfl

end Verif.DC.LineID
