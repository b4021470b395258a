import Verif.Basic
import Verif.EM.Discretization
import Mathlib.Analysis.SpecialFunctions.Trigonometric.DerivHyp
import Mathlib.Analysis.Calculus.MeanValue
import Mathlib.Analysis.Calculus.Deriv.MeanValue
import Mathlib.Analysis.Calculus.FDeriv.Mul
import Mathlib.Data.Matrix.Mul

/-!
C147: resistivity data over a layered Earth, `Simulation1DLayers`
(`simpeg/electromagnetics/static/resistivity/simulation_1d.py`). Arrays are functions of `ℕ`; entries
outside of the arrays are never read. `n` is the number of layers above the half-space, `n_layer - 1`.
-/

noncomputable section
namespace Verif.DC.Layered
open Verif Verif.EM.Discretization

/-! ### The code: potentials in the wave number domain -/

/-- `t` of the loop from the bottom, at layer `i` with `k` layers between its top and the half-space
(`simpeg/electromagnetics/static/resistivity/simulation_1d.py` 41-43); `th` is `tanh`. -/
def T (ρ th : ℕ → ℝ) : ℕ → ℕ → ℝ
  | 0, i => ρ i
  | k + 1, i =>
    let t := T ρ th k (i + 1);
    (t + ρ i * th i) / (1 + t * th i / ρ i)

/-- `_phi_tilde` at one wave number (`simulation_1d.py` 22-45). -/
def phiTilde (n : ℕ) (ρ h : ℕ → ℝ) (lam : ℝ) : ℝ := T ρ (fun i => Real.tanh (lam * h i)) n 0

/-- `ts[i]` (`simulation_1d.py` 66-76). -/
def ts (ρ th : ℕ → ℝ) (n i : ℕ) : ℝ := T ρ th (n - i) i

/-- `bots[i]` (`simulation_1d.py` 75). -/
def bots (ρ th : ℕ → ℝ) (n i : ℕ) : ℝ := 1 + ts ρ th n (i + 1) * th i / ρ i

/-- `g_ti` at the beginning of pass `i` (`simulation_1d.py` 79-100). -/
def gT (ρ th : ℕ → ℝ) (n : ℕ) : ℕ → ℝ
  | 0 => 1
  | i + 1 =>
    let g := gT ρ th n i
    let gTops := g / bots ρ th n i
    let gBots := -ts ρ th n i / bots ρ th n i * g;
    th i / ρ i * gBots + gTops

/-- `J_rho[i]` (`simulation_1d.py` 82-101). -/
def jRho (ρ th : ℕ → ℝ) (n i : ℕ) : ℝ :=
  let g := gT ρ th n i
  let gTops := g / bots ρ th n i
  let gBots := -ts ρ th n i / bots ρ th n i * g;
  if i < n then -ts ρ th n (i + 1) * th i / ρ i ^ 2 * gBots + th i * gTops else g

/-- `J_h[i]` (`simulation_1d.py` 82-98). -/
def jH (lam : ℝ) (ρ th : ℕ → ℝ) (n i : ℕ) : ℝ :=
  let g := gT ρ th n i
  let gTops := g / bots ρ th n i
  let gBots := -ts ρ th n i / bots ρ th n i * g
  let gTanh := ts ρ th n (i + 1) / ρ i * gBots + ρ i * gTops;
  (1 - th i ^ 2) * lam * gTanh

/-! ### The code: data -/

/-- A source: its electrodes and currents. A dipole has currents `I` and `-I`. -/
structure Src (P : Type) where
  elec : List P
  current : List ℝ

/-- A receiver: its locations and, if it is a dipole, those of the second electrodes. -/
structure Rx (P : Type) where
  m : List P
  n : Option (List P)

variable {P : Type} [Dist P]

/-- `A[d, i]` before the geometric factor (`simulation_1d.py` 261-280); `s` are the basis splines, `m` and
`q` the locations of the datum. `zip` ends with the shorter list. -/
def rowA (s : ℕ → ℝ → ℝ) (src : Src P) (m : P) (q : Option P) (i : ℕ) : ℝ :=
  ((src.current.zip src.elec).map fun ce =>
    ce.1 * s i (Real.log (dist ce.2 m)) / dist ce.2 m -
      match q with
      | some q => ce.1 * s i (Real.log (dist ce.2 q)) / dist ce.2 q
      | none => 0).sum

/-- `A /= rx.geometric_factor[src]` (`simulation_1d.py` 281-282): an array of shape `(nD, nR)` by one of
shape `(nD,)`, whose entries go along the last axis. -/
def divGeometric (nD nR : ℕ) (A : ℕ → ℕ → ℝ) (g : ℕ → ℝ) : Except Err (ℕ → ℕ → ℝ) :=
  if nD = nR then .ok fun d i => A d i / g i
  else if nD = 1 then .ok fun d i => A d i / g 0
  else .error .valueError

/-- `A_dht[i, k]` after the rows are reversed (`simulation_1d.py` 245-249). -/
def aDht (f : Filter) (j0 : ℕ → ℝ) (nR i k : ℕ) : ℝ :=
  let i := nR - 1 - i
  if i ≤ k ∧ k < i + f.N then j0 (k - i) else 0

/-- A datum of voltage: the row of `A @ A_dht / (2 * np.pi)` times the potentials `phi` at the wave numbers
(`simulation_1d.py` 283, 288-308). -/
def datum (f : Filter) (j0 : ℕ → ℝ) (rMin rMax : ℝ) (A : ℕ → ℝ) (phi : ℝ → ℝ) : ℝ :=
  let nR := nSpline f rMin rMax
  ∑ k ∈ Finset.range (nout f rMin rMax),
    (∑ i ∈ Finset.range nR, A i * aDht f j0 nR i k) / (2 * Real.pi) * phi (out f rMax k)

/-! ### The code: matrix and what is kept -/

/-- `getJ` without its store (`simulation_1d.py` 310-328): `none` is a property without a map, and the
number 0 is the matrix 0. -/
def getJ {d l p : ℕ} (As : Matrix (Fin d) (Fin l) ℝ) (Jr : Matrix (Fin l) (Fin r) ℝ) (Jh : Matrix (Fin l) (Fin h) ℝ)
    (rhoDeriv : Option (Matrix (Fin r) (Fin p) ℝ)) (thDeriv : Option (Matrix (Fin h) (Fin p) ℝ)) :
    Matrix (Fin d) (Fin p) ℝ :=
  (0 + match rhoDeriv with
    | some D => As * Jr * D
    | none => 0) +
  match thDeriv with
  | some D => As * Jh * D
  | none => 0

/-- What is kept between calls. -/
structure Sim (S Fl M C J : Type) where
  survey : S
  filter : Fl
  model : M
  isSet : Bool
  coef : Option C
  jmat : Option J
  fix : Bool

section
variable {S Fl M C J : Type} [DecidableEq M]

/-- The operations of a user (`simulation_1d.py` 168-172, 194-202, 214-216, 288-328). -/
inductive Op (S Fl M : Type)
  | survey (s : S)
  | filter (f : Fl)
  | fix (b : Bool)
  | dpred (m : M)
  | getJ (m : M)

/-- Assignment of the model: what was made for another model is deleted (`simulation_1d.py` 342-347,
models are compared by the setter of `simpeg/props.py`). -/
def Sim.setModel (x : Sim S Fl M C J) (m : M) : Sim S Fl M C J :=
  if x.model = m then x else { x with model := m, jmat := if x.fix then x.jmat else none }

/-- `_compute_hankel_coefficients` (`simulation_1d.py` 218-286). -/
def Sim.compute (mk : S → Fl → C) (x : Sim S Fl M C J) : Sim S Fl M C J :=
  if x.isSet then x else { x with isSet := true, coef := some (mk x.survey x.filter) }

/-- One operation. -/
def Sim.step (mk : S → Fl → C) (jac : C → M → J) (x : Sim S Fl M C J) : Op S Fl M → Sim S Fl M C J
  | .survey s => { x with survey := s }
  | .filter f => { x with filter := f, isSet := false }
  | .fix b => { x with fix := b }
  | .dpred m => ((x.compute mk).setModel m).compute mk
  | .getJ m =>
    let y := x.setModel m
    match y.jmat with
    | some _ => y
    | none =>
      let z := y.compute mk
      { z with jmat := z.coef.map fun c => jac c m }

/-- The coefficients `dpred` uses. -/
def Sim.coefUsed (mk : S → Fl → C) (jac : C → M → J) (x : Sim S Fl M C J) (m : M) : Option C :=
  (x.step mk jac (.dpred m)).coef

/-- The matrix `getJ` returns. -/
def Sim.jUsed (mk : S → Fl → C) (jac : C → M → J) (x : Sim S Fl M C J) (m : M) : Option J :=
  (x.step mk jac (.getJ m)).jmat

/-- A new simulation. -/
def Sim.new (s : S) (f : Fl) (m : M) (fix : Bool) : Sim S Fl M C J := ⟨s, f, m, false, none, none, fix⟩

end

/-! ### Specification -/

/-- Potential `φ` and downward current density `q` in the wave number domain, in a region of resistivity
`ρ`, `z` downwards: `q = -φ' / ρ`, and the current is conserved: `q' = -lam² φ / ρ`. -/
def Ohm (lam ρ : ℝ) (φ q : ℝ → ℝ) (s : Set ℝ) : Prop :=
  ∀ z ∈ s, HasDerivWithinAt φ (-ρ * q z) s z ∧ HasDerivWithinAt q (-(lam ^ 2 / ρ) * φ z) s z

/-- They solve the equations in layer `i`, which begins at depth `a`, and the `k` layers below, and are
bounded in the half-space. Both are continuous through interfaces as they are functions. -/
def IsPotential (lam : ℝ) (ρ h : ℕ → ℝ) (φ q : ℝ → ℝ) : ℕ → ℕ → ℝ → Prop
  | 0, i, a => Ohm lam (ρ i) φ q (Set.Ici a) ∧ ∃ C, ∀ z, a ≤ z → |φ z| ≤ C
  | k + 1, i, a => Ohm lam (ρ i) φ q (Set.Icc a (a + h i)) ∧ IsPotential lam ρ h φ q k (i + 1) (a + h i)

/-- The voltage at the distance `r` of a unit current by the filter, the splines in between. -/
def voltage (f : Filter) (j0 : ℕ → ℝ) (s : ℕ → ℝ → ℝ) (rMin rMax : ℝ) (phi : ℝ → ℝ) (r : ℝ) : ℝ :=
  let nR := nSpline f rMin rMax
  (∑ i ∈ Finset.range nR, s i (Real.log r) *
    ∑ b ∈ Finset.range f.N, j0 b * phi (f.base b / tSpline f rMax nR i)) / (2 * Real.pi * r)

/-- Sum over the electrodes of a source with their currents, minus that for the second electrode. -/
def superpose (v : ℝ → ℝ) (src : Src P) (m : P) (q : Option P) : ℝ :=
  ((src.current.zip src.elec).map fun ce => ce.1 * v (dist ce.2 m)).sum -
    ((src.current.zip src.elec).map fun ce => ce.1 * (match q with
      | some q => v (dist ce.2 q)
      | none => 0)).sum

namespace Props

/-! ### Potentials -/

theorem T_pos {ρ th : ℕ → ℝ} (hρ : ∀ i, 0 < ρ i) (ht : ∀ i, 0 ≤ th i) : ∀ k i, 0 < T ρ th k i
  | 0, i => hρ i
  | k + 1, i => by
    have h := T_pos hρ ht k (i + 1)
    have := hρ i
    have := ht i
    unfold T
    simp only
    positivity

theorem tanh_nonneg {x : ℝ} (hx : 0 ≤ x) : 0 ≤ Real.tanh x := by
  rw [Real.tanh_eq_sinh_div_cosh]
  exact div_nonneg (Real.sinh_nonneg_iff.2 hx) (Real.cosh_pos x).le

theorem tanh_lt_one (x : ℝ) : Real.tanh x < 1 := by
  rw [Real.tanh_eq_sinh_div_cosh, div_lt_one (Real.cosh_pos x)]
  exact Real.sinh_lt_cosh x

/-- The two exponential parts in a homogeneous region. -/
theorem parts {lam ρ : ℝ} (hl : 0 < lam) (hρ : 0 < ρ) {φ q : ℝ → ℝ} {a b : ℝ} (h : Ohm lam ρ φ q (Set.Icc a b))
    (z : ℝ) (hz : z ∈ Set.Icc a b) :
    φ z + ρ / lam * q z = (φ a + ρ / lam * q a) * Real.exp (-(lam * (z - a))) ∧
    φ z - ρ / lam * q z = (φ a - ρ / lam * q a) * Real.exp (lam * (z - a)) := by
  have key : ∀ (e : ℝ) (he : e = 1 ∨ e = -1), ∀ z ∈ Set.Icc a b,
      (φ z + e * (ρ / lam * q z)) * Real.exp (e * lam * (z - a)) = φ a + e * (ρ / lam * q a) := by
    intro e he
    have hee : e * e = 1 := by rcases he with rfl | rfl <;> norm_num
    have hd : ∀ z ∈ Set.Icc a b, HasDerivWithinAt
        (fun z : ℝ => (φ z + e * (ρ / lam * q z)) * Real.exp (e * lam * (z - a))) 0 (Set.Icc a b) z := by
      intro z hz
      obtain ⟨h1, h2⟩ := h z hz
      have h3 : HasDerivWithinAt (fun z : ℝ => e * lam * (z - a)) (e * lam * 1) (Set.Icc a b) z :=
        ((hasDerivAt_id z).hasDerivWithinAt.sub_const a).const_mul (e * lam)
      have h4 := (h1.add ((h2.const_mul (ρ / lam)).const_mul e)).mul h3.exp
      refine h4.congr_deriv ?_
      simp only [Pi.add_apply]
      field_simp
      linear_combination (ρ * q z * Real.exp (e * lam * (z - a))) * hee
    have hc : ContinuousOn (fun z : ℝ => (φ z + e * (ρ / lam * q z)) * Real.exp (e * lam * (z - a)))
        (Set.Icc a b) := fun z hz => (hd z hz).continuousWithinAt
    have hd' : ∀ z ∈ Set.Ico a b, HasDerivWithinAt
        (fun z : ℝ => (φ z + e * (ρ / lam * q z)) * Real.exp (e * lam * (z - a))) 0 (Set.Ici z) z := by
      intro z hz
      refine (hd z (Set.Ico_subset_Icc_self hz)).mono_of_mem_nhdsWithin ?_
      exact Filter.mem_of_superset (Icc_mem_nhdsGE hz.2) (Set.Icc_subset_Icc_left hz.1)
    intro z hz
    have := constant_of_has_deriv_right_zero hc hd' z hz
    simpa using this
  have h1 := key 1 (Or.inl rfl) z hz
  have h2 := key (-1) (Or.inr rfl) z hz
  constructor
  · rw [one_mul, one_mul, one_mul] at h1
    rw [← h1, mul_assoc, ← Real.exp_add]; simp
  · simp only [neg_one_mul, ← sub_eq_add_neg] at h2
    rw [← h2, mul_assoc, ← Real.exp_add]; simp

theorem ohm_mono {lam ρ : ℝ} {φ q : ℝ → ℝ} {s s' : Set ℝ} (h : Ohm lam ρ φ q s) (hs : s' ⊆ s) : Ohm lam ρ φ q s' :=
  fun z hz => ⟨(h z (hs hz)).1.mono hs, (h z (hs hz)).2.mono hs⟩

theorem ohm_congr {lam ρ : ℝ} {φ q φ' q' : ℝ → ℝ} {s : Set ℝ} (h : Ohm lam ρ φ q s) (h1 : ∀ z ∈ s, φ' z = φ z)
    (h2 : ∀ z ∈ s, q' z = q z) : Ohm lam ρ φ' q' s := fun z hz => by
  rw [h1 z hz, h2 z hz]
  exact ⟨(h z hz).1.congr h1 (h1 z hz), (h z hz).2.congr h2 (h2 z hz)⟩

/-- Bounded potentials in the half-space decay. -/
theorem halfspace {lam ρ a : ℝ} (hl : 0 < lam) (hρ : 0 < ρ) {φ q : ℝ → ℝ} (h : Ohm lam ρ φ q (Set.Ici a))
    (hb : ∃ C, ∀ z, a ≤ z → |φ z| ≤ C) : φ a = ρ / lam * q a := by
  obtain ⟨C, hC⟩ := hb
  set w := φ a - ρ / lam * q a with hw
  set u := φ a + ρ / lam * q a with hu
  have key : ∀ x : ℝ, 0 ≤ x → |w| * (lam * x) ≤ 2 * C + |u| := by
    intro x hx
    obtain ⟨h1, h2⟩ := parts hl hρ (ohm_mono (s' := Set.Icc a (a + x)) h Set.Icc_subset_Ici_self) (a + x) ⟨by linarith, le_rfl⟩
    rw [add_sub_cancel_left] at h1 h2
    have h3 : w * Real.exp (lam * x) = 2 * φ (a + x) - u * Real.exp (-(lam * x)) := by
      rw [hw, hu, ← h1, ← h2]; ring
    have e2 : |u * Real.exp (-(lam * x))| ≤ |u| := by
      rw [abs_mul, abs_of_pos (Real.exp_pos _)]
      refine mul_le_of_le_one_right (abs_nonneg _) (Real.exp_le_one_iff.2 ?_)
      have : 0 ≤ lam * x := by positivity
      linarith
    have h4 : |w| * Real.exp (lam * x) ≤ 2 * C + |u| := by
      rw [← abs_of_pos (Real.exp_pos (lam * x)), ← abs_mul, h3]
      refine (abs_sub _ _).trans (add_le_add ?_ e2)
      rw [abs_mul, abs_two]
      linarith [hC (a + x) (by linarith)]
    have h5 := Real.add_one_le_exp (lam * x)
    have : |w| * (lam * x) ≤ |w| * Real.exp (lam * x) := mul_le_mul_of_nonneg_left (by linarith) (abs_nonneg _)
    linarith
  have hw0 : w = 0 := by
    by_contra hne
    have hq : 0 < |w| := abs_pos.2 hne
    have hK : 0 ≤ 2 * C + |u| := by simpa using key 0 le_rfl
    have := key ((2 * C + |u| + 1) / (|w| * lam)) (by positivity)
    rw [← mul_assoc, mul_div_cancel₀ _ (by positivity)] at this
    linarith
  linarith

/-- From the bottom of a layer to its top. -/
theorem layer_step {lam ρ a h t : ℝ} (hl : 0 < lam) (hρ : 0 < ρ) (hh : 0 ≤ h) (ht : 0 < t) {φ q : ℝ → ℝ}
    (hm : Ohm lam ρ φ q (Set.Icc a (a + h))) (hb : φ (a + h) = t / lam * q (a + h)) :
    φ a = (t + ρ * Real.tanh (lam * h)) / (1 + t * Real.tanh (lam * h) / ρ) / lam * q a := by
  obtain ⟨h1, h2⟩ := parts hl hρ hm (a + h) ⟨by linarith, le_rfl⟩
  rw [add_sub_cancel_left] at h1 h2
  set Q := q (a + h)
  have hx : 0 ≤ lam * h := by positivity
  have hth := tanh_nonneg hx
  have hc := Real.cosh_pos (lam * h)
  have hch : Real.cosh (lam * h) = (Real.exp (lam * h) + Real.exp (-(lam * h))) / 2 := Real.cosh_eq _
  have hsh : Real.sinh (lam * h) = (Real.exp (lam * h) - Real.exp (-(lam * h))) / 2 := Real.sinh_eq _
  have hee : Real.exp (lam * h) * Real.exp (-(lam * h)) = 1 := by rw [← Real.exp_add]; simp
  -- the parts at the top
  have u : φ a + ρ / lam * q a = (t / lam + ρ / lam) * Q * Real.exp (lam * h) := by
    have : (φ a + ρ / lam * q a) * (Real.exp (-(lam * h)) * Real.exp (lam * h)) =
        (φ (a + h) + ρ / lam * Q) * Real.exp (lam * h) := by rw [h1]; ring
    rw [mul_comm (Real.exp (-(lam * h))), hee, mul_one] at this
    rw [this, hb]; ring
  have w : φ a - ρ / lam * q a = (t / lam - ρ / lam) * Q * Real.exp (-(lam * h)) := by
    have : (φ a - ρ / lam * q a) * (Real.exp (lam * h) * Real.exp (-(lam * h))) =
        (φ (a + h) - ρ / lam * Q) * Real.exp (-(lam * h)) := by rw [h2]; ring
    rw [hee, mul_one] at this
    rw [this, hb]; ring
  have hφ : φ a = (t * Real.cosh (lam * h) + ρ * Real.sinh (lam * h)) / lam * Q := by
    rw [hch, hsh]; linear_combination (u + w) / 2
  have hq : ρ * q a = (t * Real.sinh (lam * h) + ρ * Real.cosh (lam * h)) * Q := by
    rw [hch, hsh]
    have : ρ / lam * q a = ((t / lam + ρ / lam) * Q * Real.exp (lam * h) -
        (t / lam - ρ / lam) * Q * Real.exp (-(lam * h))) / 2 := by linear_combination (u - w) / 2
    field_simp at this
    linarith
  have htc : Real.tanh (lam * h) = Real.sinh (lam * h) / Real.cosh (lam * h) := Real.tanh_eq_sinh_div_cosh _
  have hq' : q a = (t * Real.sinh (lam * h) + ρ * Real.cosh (lam * h)) * Q / ρ := by
    field_simp; linarith
  have hsn : 0 ≤ Real.sinh (lam * h) := Real.sinh_nonneg_iff.2 hx
  have hden : ρ * Real.cosh (lam * h) + t * Real.sinh (lam * h) ≠ 0 := by positivity
  rw [hφ, hq', htc]
  field_simp
  ring

/-- C147. **Potential**: the potential in the wave number domain at the surface of a layered Earth is what
the recursion gives, times the current density over the wave number. -/
theorem C147_potential {lam : ℝ} (hl : 0 < lam) {ρ h : ℕ → ℝ} (hρ : ∀ i, 0 < ρ i) (hh : ∀ i, 0 ≤ h i) (n : ℕ)
    {φ q : ℝ → ℝ} (hp : IsPotential lam ρ h φ q n 0 0) : φ 0 = phiTilde n ρ h lam / lam * q 0 := by
  have key : ∀ k i a, IsPotential lam ρ h φ q k i a →
      φ a = T ρ (fun i => Real.tanh (lam * h i)) k i / lam * q a := by
    intro k
    induction k with
    | zero => exact fun i a hp => halfspace hl (hρ i) hp.1 hp.2
    | succ k ih =>
      intro i a hp
      exact layer_step hl (hρ i) (hh i) (T_pos hρ (fun i => tanh_nonneg (by have := hh i; positivity)) k (i + 1)) hp.1
        (ih (i + 1) (a + h i) hp.2)
  exact key n 0 0 hp

theorem IsPotential.congr {lam : ℝ} {ρ h : ℕ → ℝ} (hh : ∀ i, 0 ≤ h i) {φ q φ' q' : ℝ → ℝ} :
    ∀ k i a, IsPotential lam ρ h φ q k i a → (∀ z, a ≤ z → φ' z = φ z ∧ q' z = q z) →
      IsPotential lam ρ h φ' q' k i a
  | 0, _, _, hp, he => ⟨ohm_congr hp.1 (fun z hz => (he z hz).1) (fun z hz => (he z hz).2),
      hp.2.imp fun C hC z hz => by rw [(he z hz).1]; exact hC z hz⟩
  | k + 1, i, a, hp, he => ⟨ohm_congr hp.1 (fun z hz => (he z hz.1).1) (fun z hz => (he z hz.1).2),
      IsPotential.congr hh k (i + 1) (a + h i) hp.2 fun z hz => he z (by linarith [hh i])⟩

/-- Explicit solution in a layer that ends at `b`. -/
theorem ohm_explicit {lam ρ : ℝ} (hl : 0 < lam) (hρ : 0 < ρ) (b p Q : ℝ) (s : Set ℝ) :
    Ohm lam ρ (fun z => p * Real.cosh (lam * (b - z)) + ρ / lam * Q * Real.sinh (lam * (b - z)))
      (fun z => Q * Real.cosh (lam * (b - z)) + lam / ρ * p * Real.sinh (lam * (b - z))) s := by
  intro z _
  have d : HasDerivAt (fun z : ℝ => lam * (b - z)) (lam * -1) z := by
    simpa using ((hasDerivAt_id z).const_sub b).const_mul lam
  have hc : HasDerivAt (fun z : ℝ => Real.cosh (lam * (b - z))) (Real.sinh (lam * (b - z)) * (lam * -1)) z :=
    (Real.hasDerivAt_cosh _).comp z d
  have hs : HasDerivAt (fun z : ℝ => Real.sinh (lam * (b - z))) (Real.cosh (lam * (b - z)) * (lam * -1)) z :=
    (Real.hasDerivAt_sinh _).comp z d
  constructor
  · refine (((hc.const_mul p).add (hs.const_mul (ρ / lam * Q))).congr_deriv ?_).hasDerivWithinAt
    field_simp
    ring
  · refine (((hc.const_mul Q).add (hs.const_mul (lam / ρ * p))).congr_deriv ?_).hasDerivWithinAt
    field_simp
    ring

/-- C147. There is such a potential for every layered Earth, with a positive current density. -/
theorem C147_potential_exists {lam : ℝ} (hl : 0 < lam) {ρ h : ℕ → ℝ} (hρ : ∀ i, 0 < ρ i) (hh : ∀ i, 0 ≤ h i)
    (n : ℕ) : ∃ φ q : ℝ → ℝ, IsPotential lam ρ h φ q n 0 0 ∧ 0 < q 0 := by
  have key : ∀ k i a, ∃ φ q : ℝ → ℝ, IsPotential lam ρ h φ q k i a ∧ 0 < q a ∧ 0 < φ a := by
    intro k
    induction k with
    | zero =>
      intro i a
      refine ⟨fun z => ρ i / lam * Real.exp (-(lam * (z - a))), fun z => Real.exp (-(lam * (z - a))),
        ⟨?_, ρ i / lam, ?_⟩, ?_, ?_⟩
      · intro z _
        have e : HasDerivAt (fun z : ℝ => Real.exp (-(lam * (z - a)))) (Real.exp (-(lam * (z - a))) * -(lam * 1)) z :=
          (((hasDerivAt_id z).sub_const a).const_mul lam).neg.exp
        have := hρ i
        constructor
        · refine ((e.const_mul (ρ i / lam)).congr_deriv ?_).hasDerivWithinAt
          field_simp
        · refine (e.congr_deriv ?_).hasDerivWithinAt
          field_simp
      · intro z hz
        have := hρ i
        rw [abs_of_pos (by positivity)]
        refine mul_le_of_le_one_right (by positivity) (Real.exp_le_one_iff.2 ?_)
        have : 0 ≤ lam * (z - a) := mul_nonneg hl.le (by linarith)
        linarith
      · positivity
      · have := hρ i
        positivity
    | succ k ih =>
      intro i a
      obtain ⟨φ, q, hp, hq, hφ⟩ := ih (i + 1) (a + h i)
      set b := a + h i with hb
      have hab : a ≤ b := by linarith [hh i]
      have ex := ohm_explicit hl (hρ i) b (φ b) (q b) (Set.Icc a b)
      set F := fun z => φ b * Real.cosh (lam * (b - z)) + ρ i / lam * q b * Real.sinh (lam * (b - z)) with hF
      set G := fun z => q b * Real.cosh (lam * (b - z)) + lam / ρ i * φ b * Real.sinh (lam * (b - z)) with hG
      have hFb : F b = φ b := by simp [hF]
      have hGb : G b = q b := by simp [hG]
      have hi := hρ i
      have hs : 0 ≤ Real.sinh (lam * (b - a)) := Real.sinh_nonneg_iff.2 (mul_nonneg hl.le (by linarith))
      have hc := Real.cosh_pos (lam * (b - a))
      have hGa : 0 < G a := by
        have h1 : 0 < q b * Real.cosh (lam * (b - a)) := mul_pos hq hc
        have h2 : 0 ≤ lam / ρ i * φ b * Real.sinh (lam * (b - a)) := by positivity
        simp only [hG]
        linarith
      have hFa : 0 < F a := by
        have h1 : 0 < φ b * Real.cosh (lam * (b - a)) := mul_pos hφ hc
        have h2 : 0 ≤ ρ i / lam * q b * Real.sinh (lam * (b - a)) := by positivity
        simp only [hF]
        linarith
      have e1 : ∀ z ∈ Set.Icc a b, (if z < b then F z else φ z) = F z := by
        intro z hz
        split_ifs with hlt
        · rfl
        · rw [le_antisymm hz.2 (not_lt.1 hlt), hFb]
      have e2 : ∀ z ∈ Set.Icc a b, (if z < b then G z else q z) = G z := by
        intro z hz
        split_ifs with hlt
        · rfl
        · rw [le_antisymm hz.2 (not_lt.1 hlt), hGb]
      refine ⟨fun z => if z < b then F z else φ z, fun z => if z < b then G z else q z, ⟨ohm_congr ex e1 e2, ?_⟩, ?_, ?_⟩
      · refine IsPotential.congr hh k (i + 1) b hp fun z hz => ?_
        simp only [if_neg (not_lt.2 hz), and_self]
      · show 0 < (if a < b then G a else q a)
        rw [e2 a ⟨le_rfl, hab⟩]
        exact hGa
      · show 0 < (if a < b then F a else φ a)
        rw [e1 a ⟨le_rfl, hab⟩]
        exact hFa
  obtain ⟨φ, q, hp, hq, -⟩ := key n 0 0
  exact ⟨φ, q, hp, hq⟩

/-- C147. **Range**: between the smallest and the largest resistivity. -/
theorem C147_range {lam : ℝ} (hl : 0 ≤ lam) {ρ h : ℕ → ℝ} (hh : ∀ i, 0 ≤ h i) {lo hi : ℝ} (h0 : 0 < lo)
    (hρ : ∀ i, lo ≤ ρ i ∧ ρ i ≤ hi) (n : ℕ) : lo ≤ phiTilde n ρ h lam ∧ phiTilde n ρ h lam ≤ hi := by
  have key : ∀ k i, lo ≤ T ρ (fun i => Real.tanh (lam * h i)) k i ∧
      T ρ (fun i => Real.tanh (lam * h i)) k i ≤ hi := by
    intro k
    induction k with
    | zero => exact fun i => hρ i
    | succ k ih =>
      intro i
      obtain ⟨h1, h2⟩ := ih (i + 1)
      obtain ⟨h3, h4⟩ := hρ i
      have ht0 : 0 ≤ Real.tanh (lam * h i) := tanh_nonneg (by have := hh i; positivity)
      have ht1 := tanh_lt_one (lam * h i)
      have hr : 0 < ρ i := lt_of_lt_of_le h0 h3
      unfold T
      simp only
      set t := T ρ (fun i => Real.tanh (lam * h i)) k (i + 1)
      set x := Real.tanh (lam * h i)
      set r := ρ i
      have htp : 0 < t := lt_of_lt_of_le h0 h1
      have hd : 0 < 1 + t * x / r := by positivity
      have e : 1 + t * x / r = (r + t * x) / r := by field_simp
      rw [e, div_div_eq_mul_div, le_div_iff₀ (by positivity), div_le_iff₀ (by positivity)]
      constructor
      · nlinarith [mul_nonneg (sub_nonneg.2 h1) (sub_nonneg.2 ht1.le), mul_nonneg (sub_nonneg.2 h3) (sub_nonneg.2 ht1.le),
          mul_nonneg (sub_nonneg.2 h3) (sub_nonneg.2 h1), mul_nonneg ht0 (mul_nonneg (sub_nonneg.2 h3) hr.le),
          mul_nonneg (sub_nonneg.2 h1) hr.le, mul_nonneg (mul_nonneg (sub_nonneg.2 h1) hr.le) (sub_nonneg.2 ht1.le),
          mul_nonneg (mul_nonneg (sub_nonneg.2 h3) (sub_nonneg.2 h3)) ht0,
          mul_nonneg (mul_nonneg (sub_nonneg.2 h3) h0.le) ht0, mul_nonneg (mul_nonneg (sub_nonneg.2 h1) h0.le) ht0,
          mul_nonneg (mul_nonneg (sub_nonneg.2 h1) h0.le) (sub_nonneg.2 ht1.le)]
      · have h5 : 0 ≤ hi - t := by linarith
        have h6 : 0 ≤ hi - r := by linarith
        nlinarith [mul_nonneg (mul_nonneg h5 hr.le) (sub_nonneg.2 ht1.le), mul_nonneg (mul_nonneg h6 hr.le) ht0,
          mul_nonneg (mul_nonneg h5 htp.le) ht0, mul_nonneg (mul_nonneg h6 htp.le) ht0,
          mul_nonneg (mul_nonneg h5 h6) ht0, mul_nonneg h5 hr.le]
  exact key n 0

/-- C147. **Homogeneous Earth**: the resistivity, however it is divided into layers. -/
theorem C147_uniform {lam : ℝ} (hl : 0 ≤ lam) {ρ h : ℕ → ℝ} (hh : ∀ i, 0 ≤ h i) {c : ℝ} (hc : 0 < c)
    (hρ : ∀ i, ρ i = c) (n : ℕ) : phiTilde n ρ h lam = c := by
  have := C147_range hl hh hc (fun i => ⟨(hρ i).ge, (hρ i).le⟩) n
  exact le_antisymm this.2 this.1

/-! ### Sensitivities -/

theorem tanh_deriv (x : ℝ) : HasDerivAt Real.tanh (1 - Real.tanh x ^ 2) x := by
  have hz := (Real.cosh_pos x).ne'
  have h := (Real.hasDerivAt_sinh x).div (Real.hasDerivAt_cosh x) hz
  have e : Real.tanh = fun x => Real.sinh x / Real.cosh x := by funext x; exact Real.tanh_eq_sinh_div_cosh x
  have h' : HasDerivAt Real.tanh ((Real.cosh x * Real.cosh x - Real.sinh x * Real.sinh x) / Real.cosh x ^ 2) x := by
    rw [e]; exact h
  refine h'.congr_deriv ?_
  rw [Real.tanh_eq_sinh_div_cosh]
  field_simp

section sweep
variable {V : Type*} [NormedAddCommGroup V] [NormedSpace ℝ V] {x : V}

/-- The derivative of a step. -/
theorem step_deriv {f g p : V → ℝ} {f' g' p' : V →L[ℝ] ℝ} (hf : HasFDerivAt f f' x) (hg : HasFDerivAt g g' x)
    (hp : HasFDerivAt p p' x) (h0 : f x ≠ 0) (hb : 1 + p x * g x / f x ≠ 0) :
    ∃ D : V →L[ℝ] ℝ, HasFDerivAt (fun y => (p y + f y * g y) / (1 + p y * g y / f y)) D x ∧ ∀ v,
      let bot := 1 + p x * g x / f x
      let Z := (p x + f x * g x) / bot
      D v = (p' v + g x * f' v + f x * g' v) / bot
        - Z / bot * (g x / f x * p' v + p x / f x * g' v - p x * g x / f x ^ 2 * f' v) := by
  have hi : HasFDerivAt (fun y => (f y)⁻¹) (-(f x ^ 2)⁻¹ • f') x := (hasDerivAt_inv h0).comp_hasFDerivAt x hf
  have hbot := ((hp.mul hg).mul hi).const_add 1
  have hb' : 1 + p x * g x * (f x)⁻¹ ≠ 0 := by rwa [← div_eq_mul_inv]
  have hbi := (hasDerivAt_inv hb').comp_hasFDerivAt x hbot
  refine ⟨_, (hp.add (hf.mul hg)).mul hbi, fun v => ?_⟩
  simp
  simp only [← div_eq_mul_inv]
  set B := 1 + p x * g x / f x with hB
  field_simp
  ring

variable {R Th : ℕ → V → ℝ} {R' Th' : ℕ → V →L[ℝ] ℝ}

/-- Reverse mode: what the second loop accumulates. `cT` is the factor of the derivative of `tanh`. -/
theorem sweep (n : ℕ) (hR : ∀ i, HasFDerivAt (R i) (R' i) x) (hT : ∀ i, HasFDerivAt (Th i) (Th' i) x)
    (h0 : ∀ i, R i x ≠ 0) (hb : ∀ i, bots (fun j => R j x) (fun j => Th j x) n i ≠ 0) :
    ∀ k i, i + k = n → ∃ D : V →L[ℝ] ℝ,
      HasFDerivAt (fun y => T (fun j => R j y) (fun j => Th j y) k i) D x ∧
      ∀ v, gT (fun j => R j x) (fun j => Th j x) n i * D v =
        ∑ j ∈ Finset.Ico i n, (jRho (fun j => R j x) (fun j => Th j x) n j * R' j v +
          (ts (fun j => R j x) (fun j => Th j x) n (j + 1) / R j x *
            (-ts (fun j => R j x) (fun j => Th j x) n j / bots (fun j => R j x) (fun j => Th j x) n j *
              gT (fun j => R j x) (fun j => Th j x) n j) +
            R j x * (gT (fun j => R j x) (fun j => Th j x) n j / bots (fun j => R j x) (fun j => Th j x) n j)) * Th' j v) +
        gT (fun j => R j x) (fun j => Th j x) n n * R' n v
  | 0, i, h => by
    obtain rfl : i = n := by omega
    refine ⟨R' i, hR i, fun v => ?_⟩
    simp
  | k + 1, i, h => by
    obtain ⟨D, hD, hv⟩ := sweep n hR hT h0 hb k (i + 1) (by omega)
    have hlt : i < n := by omega
    have hbi : 1 + T (fun j => R j x) (fun j => Th j x) k (i + 1) * Th i x / R i x ≠ 0 := by
      have := hb i
      rw [bots, ts, show n - (i + 1) = k by omega] at this
      exact this
    obtain ⟨D2, hD2, hv2⟩ := step_deriv (hR i) (hT i) hD (h0 i) hbi
    refine ⟨D2, hD2, fun v => ?_⟩
    have hz : T (fun j => R j x) (fun j => Th j x) (k + 1) i =
      (T (fun j => R j x) (fun j => Th j x) k (i + 1) + R i x * Th i x) /
        (1 + T (fun j => R j x) (fun j => Th j x) k (i + 1) * Th i x / R i x) := rfl
    have h3 := hv v
    rw [Finset.sum_eq_sum_Ico_succ_bot hlt, add_assoc, ← h3, hv2 v, jRho, gT]
    simp only [if_pos hlt]
    rw [bots, ts, ts, show n - (i + 1) = k by omega, show n - i = k + 1 by omega, hz]
    set B := 1 + T (fun j => R j x) (fun j => Th j x) k (i + 1) * Th i x / R i x
    ring

end sweep

/-- C147. **Sensitivities**: for resistivities and thicknesses that depend on the model in any
differentiable way, the potential has the derivative that the second loop gives. -/
theorem C147_sensitivity {V : Type*} [NormedAddCommGroup V] [NormedSpace ℝ V] {x : V} {ρ h : ℕ → V → ℝ}
    {ρ' h' : ℕ → V →L[ℝ] ℝ} (hρ : ∀ i, HasFDerivAt (ρ i) (ρ' i) x) (hh : ∀ i, HasFDerivAt (h i) (h' i) x)
    (h0 : ∀ i, 0 < ρ i x) (h1 : ∀ i, 0 ≤ h i x) {lam : ℝ} (hl : 0 ≤ lam) (n : ℕ) :
    HasFDerivAt (fun y => phiTilde n (fun i => ρ i y) (fun i => h i y) lam)
      (∑ i ∈ Finset.range (n + 1), jRho (fun i => ρ i x) (fun i => Real.tanh (lam * h i x)) n i • ρ' i +
        ∑ i ∈ Finset.range n, jH lam (fun i => ρ i x) (fun i => Real.tanh (lam * h i x)) n i • h' i) x := by
  have hT : ∀ i, HasFDerivAt (fun y => Real.tanh (lam * h i y)) ((1 - Real.tanh (lam * h i x) ^ 2) • (lam • h' i)) x :=
    fun i => HasDerivAt.comp_hasFDerivAt (h₂ := Real.tanh) x (tanh_deriv (lam * h i x)) ((hh i).const_mul lam)
  have hpos := T_pos (ρ := fun i => ρ i x) (th := fun i => Real.tanh (lam * h i x)) h0
    (fun i => tanh_nonneg (mul_nonneg hl (h1 i)))
  have hb : ∀ i, bots (fun j => ρ j x) (fun j => Real.tanh (lam * h j x)) n i ≠ 0 := by
    intro i
    have a1 := hpos (n - (i + 1)) (i + 1)
    have a2 := h0 i
    have a3 : 0 ≤ Real.tanh (lam * h i x) := tanh_nonneg (mul_nonneg hl (h1 i))
    unfold bots ts
    positivity
  obtain ⟨D, hD, hv⟩ := sweep (R := ρ) (Th := fun i y => Real.tanh (lam * h i y)) n hρ hT (fun i => (h0 i).ne') hb n 0
    (by omega)
  refine hD.congr_fderiv ?_
  ext v
  have h3 := hv v
  rw [gT, one_mul] at h3
  rw [h3]
  simp only [ContinuousLinearMap.add_apply, ContinuousLinearMap.coe_sum', Finset.sum_apply,
    ContinuousLinearMap.smul_apply, smul_eq_mul]
  rw [Finset.sum_range_succ, Finset.range_eq_Ico, Finset.sum_add_distrib]
  have e : jRho (fun i => ρ i x) (fun i => Real.tanh (lam * h i x)) n n =
      gT (fun i => ρ i x) (fun i => Real.tanh (lam * h i x)) n n := by
    unfold jRho
    simp
  rw [e, add_right_comm]
  congr 1
  refine Finset.sum_congr rfl fun i _ => ?_
  unfold jH
  ring

/-! ### Data -/

theorem row_sum {f : Filter} (h : f.regular) (j0 : ℕ → ℝ) {rMin rMax : ℝ} (h0 : 0 < rMin) (h1 : rMin ≤ rMax)
    (phi : ℝ → ℝ) {i : ℕ} (hi : i < nSpline f rMin rMax) :
    ∑ k ∈ Finset.range (nout f rMin rMax), aDht f j0 (nSpline f rMin rMax) i k * phi (out f rMax k) =
      ∑ b ∈ Finset.range f.N, j0 b * phi (f.base b / tSpline f rMax (nSpline f rMin rMax) i) := by
  have hn := EM.Discretization.Props.nout_ge f rMin rMax
  set j := nSpline f rMin rMax - 1 - i with hj
  have hjn : j < nSpline f rMin rMax := by omega
  have hjN : j + f.N ≤ nout f rMin rMax := by
    unfold nSpline at hjn
    omega
  have hsub : (Finset.range f.N).image (fun b => j + b) ⊆ Finset.range (nout f rMin rMax) := by
    intro k hk
    obtain ⟨b, hb, rfl⟩ := Finset.mem_image.1 hk
    have := Finset.mem_range.1 hb
    exact Finset.mem_range.2 (by omega)
  rw [← Finset.sum_subset hsub]
  · rw [Finset.sum_image (by intro a _ b _ hab; simpa using hab)]
    refine Finset.sum_congr rfl fun b hb => ?_
    have hb := Finset.mem_range.1 hb
    have hp := ((EM.Discretization.Props.C146_points h h0 h1).1 b hb j hjn).2
    unfold aDht tSpline
    simp only
    rw [← hj, if_pos (by omega), hp, Nat.add_sub_cancel_left]
  · intro k _ hk
    unfold aDht
    simp only
    rw [← hj, if_neg, zero_mul]
    intro hc
    exact hk (Finset.mem_image.2 ⟨k - j, Finset.mem_range.2 (by omega), by omega⟩)

theorem datum_eq {f : Filter} (h : f.regular) (j0 : ℕ → ℝ) {rMin rMax : ℝ} (h0 : 0 < rMin) (h1 : rMin ≤ rMax)
    (A : ℕ → ℝ) (phi : ℝ → ℝ) : datum f j0 rMin rMax A phi =
      (∑ i ∈ Finset.range (nSpline f rMin rMax), A i *
        ∑ b ∈ Finset.range f.N, j0 b * phi (f.base b / tSpline f rMax (nSpline f rMin rMax) i)) / (2 * Real.pi) := by
  unfold datum
  simp only
  have : ∀ k, (∑ i ∈ Finset.range (nSpline f rMin rMax), A i * aDht f j0 (nSpline f rMin rMax) i k) / (2 * Real.pi) *
      phi (out f rMax k) = ∑ i ∈ Finset.range (nSpline f rMin rMax),
        A i * (aDht f j0 (nSpline f rMin rMax) i k * phi (out f rMax k)) / (2 * Real.pi) := by
    intro k
    rw [div_mul_eq_mul_div, Finset.sum_mul, Finset.sum_div]
    exact Finset.sum_congr rfl fun i _ => by ring
  rw [Finset.sum_congr rfl fun k _ => this k, Finset.sum_comm, Finset.sum_div]
  refine Finset.sum_congr rfl fun i hi => ?_
  rw [← row_sum h j0 h0 h1 phi (Finset.mem_range.1 hi), Finset.mul_sum, Finset.sum_div]

theorem list_sum_mul (l : List ℝ) (c : ℝ) : l.sum * c = (l.map (· * c)).sum := by
  induction l with
  | nil => simp
  | cons a l ih => simp [add_mul, ih]

/-- C147. **Voltages**: a datum is the superposition of the voltages of the electrodes of the source with
their currents at the first electrode of the receiver, minus that at the second. -/
theorem C147_superposition {f : Filter} (h : f.regular) (j0 : ℕ → ℝ) (s : ℕ → ℝ → ℝ) {rMin rMax : ℝ} (h0 : 0 < rMin)
    (h1 : rMin ≤ rMax) (phi : ℝ → ℝ) (src : Src P) (m : P) (q : Option P) :
    datum f j0 rMin rMax (rowA s src m q) phi = superpose (voltage f j0 s rMin rMax phi) src m q := by
  rw [datum_eq h j0 h0 h1]
  set nR := nSpline f rMin rMax
  set D := fun i => ∑ b ∈ Finset.range f.N, j0 b * phi (f.base b / tSpline f rMax nR i) with hD
  have hv : ∀ r, voltage f j0 s rMin rMax phi r = (∑ i ∈ Finset.range nR, s i (Real.log r) * D i) / (2 * Real.pi * r) :=
    fun r => rfl
  unfold rowA superpose
  generalize src.current.zip src.elec = l
  induction l with
  | nil => simp
  | cons ce l ih =>
    simp only [List.map_cons, List.sum_cons, add_mul, Finset.sum_add_distrib, add_div]
    rw [show ∀ a b c d : ℝ, a + b - (c + d) = (a - c) + (b - d) by intros; ring, ← ih]
    congr 1
    rw [hv]
    cases q with
    | none =>
      simp only [sub_zero, mul_zero]
      rw [mul_div_assoc', Finset.mul_sum, Finset.sum_div, Finset.sum_div]
      refine Finset.sum_congr rfl fun i _ => ?_
      ring
    | some q =>
      simp only [hv]
      rw [mul_div_assoc', mul_div_assoc', Finset.mul_sum, Finset.mul_sum, Finset.sum_div, Finset.sum_div, Finset.sum_div,
        ← Finset.sum_sub_distrib]
      refine Finset.sum_congr rfl fun i _ => ?_
      ring

/-- C147. **Voltages at the spline distances**: the Hankel transform by the filter of the potential. -/
theorem C147_transform (f : Filter) (j0 : ℕ → ℝ) (s : ℕ → ℝ → ℝ) (rMin rMax : ℝ) (phi : ℝ → ℝ)
    (hs : ∀ i j, i < nSpline f rMin rMax → j < nSpline f rMin rMax →
      s i (Real.log (tSpline f rMax (nSpline f rMin rMax) j)) = if i = j then 1 else 0)
    (j : ℕ) (hj : j < nSpline f rMin rMax) :
    voltage f j0 s rMin rMax phi (tSpline f rMax (nSpline f rMin rMax) j) =
      1 / (2 * Real.pi) * ((∑ b ∈ Finset.range f.N,
        j0 b * phi (f.base b / tSpline f rMax (nSpline f rMin rMax) j)) / tSpline f rMax (nSpline f rMin rMax) j) := by
  unfold voltage
  simp only
  rw [Finset.sum_eq_single j]
  · rw [hs j j hj hj, if_pos rfl, one_mul]
    ring
  · intro i hi hij
    rw [hs i j (Finset.mem_range.1 hi) hj, if_neg hij, zero_mul]
  · intro hn
    exact absurd (Finset.mem_range.2 hj) hn

/-- C147. **Reciprocity**: exchanging the electrodes of a source with unit current and a receiver does
not change the datum. -/
theorem C147_reciprocity {P : Type} [PseudoMetricSpace P] (v : ℝ → ℝ) (a b m q : P) :
    superpose v ⟨[a, b], [1, -1]⟩ m (some q) = superpose v ⟨[m, q], [1, -1]⟩ a (some b) := by
  simp only [superpose, List.zip_cons_cons, List.zip_nil_right, List.map_cons, List.map_nil, List.sum_cons, List.sum_nil]
  rw [dist_comm a m, dist_comm b m, dist_comm a q, dist_comm b q]
  ring

/-- C147. **Homogeneous half-space**: with splines that reproduce constants, the voltage is `ρ / (2 π r)`
times the sum of the filter, so that the apparent resistivity of one datum with unit current is the
resistivity times that sum, for every array. -/
theorem C147_halfspace (f : Filter) (j0 : ℕ → ℝ) (s : ℕ → ℝ → ℝ) (rMin rMax c : ℝ) (r : ℝ)
    (hs : ∑ i ∈ Finset.range (nSpline f rMin rMax), s i (Real.log r) = 1) :
    voltage f j0 s rMin rMax (fun _ => c) r = c * (∑ b ∈ Finset.range f.N, j0 b) / (2 * Real.pi * r) := by
  unfold voltage
  simp only
  rw [← Finset.sum_mul, hs, one_mul, ← Finset.sum_mul, mul_comm]

/-! ### Apparent resistivities -/

/-- C147. **Apparent resistivities**: with one datum of a receiver each row is divided by its geometric
factor.
Missing: receivers with several data, see `C147_violated_apparent`. -/
theorem C147_apparent_partial (nR : ℕ) (A : ℕ → ℕ → ℝ) (g : ℕ → ℝ) (hn : nR ≠ 1) :
    ∃ B, divGeometric 1 nR A g = .ok B ∧ ∀ i, B 0 i = A 0 i / g 0 := by
  refine ⟨fun d i => A d i / g 0, ?_, fun i => rfl⟩
  unfold divGeometric
  rw [if_neg (by omega), if_pos rfl]

/-- C147. **Apparent resistivities of several data**: ValueError, unless there are as many data as spline
points; then columns are divided instead of rows. -/
theorem C147_violated_apparent (nD nR : ℕ) (h1 : nD ≠ 1) (A : ℕ → ℕ → ℝ) (g : ℕ → ℝ) :
    (nD ≠ nR → divGeometric nD nR A g = .error .valueError) ∧
    (nD = nR → ∃ B, divGeometric nD nR A g = .ok B ∧
      ∀ d i, g d ≠ 0 → g i ≠ 0 → A d i ≠ 0 → g d ≠ g i → B d i ≠ A d i / g d) := by
  unfold divGeometric
  constructor
  · intro h
    rw [if_neg h, if_neg h1]
  · intro h
    rw [if_pos h]
    refine ⟨_, rfl, fun d i hd hi hA hne he => hne ?_⟩
    have := (div_eq_div_iff hi hd).1 he
    exact mul_left_cancel₀ hA this

/-- C147. **One current for several electrodes**: it is accepted by sources, but only the first electrode
is used. -/
theorem C147_violated_current (v : ℝ → ℝ) (I : ℝ) (a : P) (es : List P) (m : P) :
    superpose v ⟨a :: es, [I]⟩ m none = I * v (dist a m) := by
  simp [superpose]

/-! ### Products -/

/-- C147. **Chain rule**: the matrix applies the derivatives of the maps, the sum of both if both
properties have one. -/
theorem C147_matrix {d l r h p : ℕ} (As : Matrix (Fin d) (Fin l) ℝ) (Jr : Matrix (Fin l) (Fin r) ℝ)
    (Jh : Matrix (Fin l) (Fin h) ℝ) (R : Matrix (Fin r) (Fin p) ℝ) (H : Matrix (Fin h) (Fin p) ℝ) :
    getJ As Jr Jh (some R) (some H) = As * (Jr * R + Jh * H) ∧
    getJ As Jr Jh (some R) none = As * (Jr * R) ∧ getJ As Jr Jh none (some H) = As * (Jh * H) := by
  simp [getJ, Matrix.mul_add, Matrix.mul_assoc]

/-! ### Histories -/

section
variable {S Fl M C J : Type} [DecidableEq M]

/-- An operation that keeps survey and filter. -/
def Op.keeps : Op S Fl M → Prop
  | .survey _ | .filter _ | .fix true => False
  | _ => True

/-- C147. **Histories**: after any sequence of predictions and sensitivities of a new simulation whose
matrix is not fixed, coefficients are those of survey and filter and the matrix is that of the model.
Missing: changes of the survey, `C147_violated_survey`, and of the filter after a matrix was made,
`C147_violated_filter`. -/
theorem C147_histories_partial (mk : S → Fl → C) (jac : C → M → J) (s : S) (f : Fl) (m0 : M) (ops : List (Op S Fl M))
    (hk : ∀ o ∈ ops, Op.keeps o) (m : M) :
    let x : Sim S Fl M C J := ops.foldl (fun x o => x.step mk jac o) (Sim.new s f m0 false)
    x.coefUsed mk jac m = some (mk s f) ∧ x.jUsed mk jac m = some (jac (mk s f) m) := by
  let inv : Sim S Fl M C J → Prop := fun x => x.survey = s ∧ x.filter = f ∧ x.fix = false ∧
    (x.isSet = true → x.coef = some (mk s f)) ∧ (∀ j, x.jmat = some j → j = jac (mk s f) x.model)
  have hset : ∀ x m, inv x → inv (x.setModel m) := by
    rintro x m ⟨h1, h2, h3, h4, h5⟩
    unfold Sim.setModel
    split_ifs with h
    · exact ⟨h1, h2, h3, h4, h5⟩
    · rename_i hf
      exact absurd (h3 ▸ hf) (by simp)
    · exact ⟨h1, h2, h3, h4, by simp⟩
  have hcomp : ∀ x, inv x → inv (x.compute mk) ∧ (x.compute mk).coef = some (mk s f) ∧ (x.compute mk).model = x.model ∧
      (x.compute mk).jmat = x.jmat := by
    rintro x ⟨h1, h2, h3, h4, h5⟩
    unfold Sim.compute
    split_ifs with h
    · exact ⟨⟨h1, h2, h3, h4, h5⟩, h4 h, rfl, rfl⟩
    · exact ⟨⟨h1, h2, h3, fun _ => by simp [h1, h2], h5⟩, by simp [h1, h2], rfl, rfl⟩
  have hmod : ∀ (x : Sim S Fl M C J) m, (x.setModel m).model = m := by
    intro x m
    unfold Sim.setModel
    split_ifs with h
    · exact h
    · rfl
    · rfl
  have hd : ∀ x m, inv x → inv (x.step mk jac (.dpred m)) ∧ (x.step mk jac (.dpred m)).coef = some (mk s f) := by
    intro x m hx
    have h1 := hcomp _ (hset _ m (hcomp x hx).1)
    exact ⟨h1.1, h1.2.1⟩
  have hj : ∀ x m, inv x → inv (x.step mk jac (.getJ m)) ∧
      (x.step mk jac (.getJ m)).jmat = some (jac (mk s f) m) := by
    intro x m hx
    have hy := hset x m hx
    have hm := hmod x m
    simp only [Sim.step]
    cases hq : (x.setModel m).jmat with
    | some j =>
      refine ⟨hy, ?_⟩
      simp only [hq]
      rw [hy.2.2.2.2 j hq, hm]
    | none =>
      obtain ⟨h1, h2, h3, h4⟩ := hcomp _ hy
      refine ⟨⟨h1.1, h1.2.1, h1.2.2.1, h1.2.2.2.1, ?_⟩, by simp [h2]⟩
      intro j hj
      simp only [h2, Option.map_some, Option.some.injEq] at hj
      rw [← hj]
      show _ = jac (mk s f) (((x.setModel m).compute mk).model)
      rw [h3, hm]
  have hfold : ∀ (ops : List (Op S Fl M)) x, inv x → (∀ o ∈ ops, Op.keeps o) →
      inv (ops.foldl (fun x o => x.step mk jac o) x) := by
    intro ops
    induction ops with
    | nil => exact fun x hx _ => hx
    | cons o ops ih =>
      intro x hx hk
      refine ih _ ?_ fun o ho => hk o (by simp [ho])
      have := hk o (by simp)
      match o, this with
      | .fix false, _ => exact ⟨hx.1, hx.2.1, rfl, hx.2.2.2.1, hx.2.2.2.2⟩
      | .dpred m, _ => exact (hd x m hx).1
      | .getJ m, _ => exact (hj x m hx).1
  intro x
  have hx : inv x := hfold ops _ ⟨rfl, rfl, rfl, by simp [Sim.new], by simp [Sim.new]⟩ hk
  exact ⟨(hd x m hx).2, (hj x m hx).2⟩

/-- C147. **Survey**: after a prediction, another survey is predicted with the coefficients of the old. -/
theorem C147_violated_survey (mk : S → Fl → C) (jac : C → M → J) (s s' : S) (f : Fl) (m0 m : M) :
    ((((Sim.new s f m0 false : Sim S Fl M C J).step mk jac (.dpred m)).step mk jac (.survey s')).coefUsed mk jac m) =
      some (mk s f) := by
  by_cases h : m0 = m <;> simp [Sim.coefUsed, Sim.step, Sim.compute, Sim.setModel, Sim.new, h]

/-- C147. **Filter**: after a matrix was made, another filter does not change it for the same model,
although it changes the predictions. -/
theorem C147_violated_filter (mk : S → Fl → C) (jac : C → M → J) (s : S) (f f' : Fl) (m0 m : M) :
    let x := ((Sim.new s f m0 false : Sim S Fl M C J).step mk jac (.getJ m)).step mk jac (.filter f')
    x.jUsed mk jac m = some (jac (mk s f) m) ∧ x.coefUsed mk jac m = some (mk s f') := by
  by_cases h : m0 = m <;> simp [Sim.jUsed, Sim.coefUsed, Sim.step, Sim.compute, Sim.setModel, Sim.new, h]

end

/-! ### Cases -/

/-- Two layers of different resistivity. -/
example : ∃ φ q : ℝ → ℝ, IsPotential 2 (fun i => if i = 0 then 100 else 10) (fun _ => 5) φ q 1 0 0 ∧ 0 < q 0 :=
  C147_potential_exists two_pos (fun i => by split_ifs <;> norm_num) (fun _ => by norm_num) 1

example : phiTilde 3 (fun _ => 100) (fun _ => 5) 2 = 100 :=
  C147_uniform (by norm_num) (fun _ => by norm_num) (by norm_num) (fun _ => rfl) 3

/-- The logarithm of the resistivities and the thicknesses as model, one layer above the half-space. -/
example : ∃ D, HasFDerivAt (𝕜 := ℝ) (fun m : Fin 3 → ℝ => phiTilde 1 (fun i => Real.exp (if i = 0 then m 0 else m 1))
    (fun _ => m 2) 2) D ![1, 2, 3] := by
  have h0 : ∀ i : Fin 3, HasFDerivAt (𝕜 := ℝ) (fun m : Fin 3 → ℝ => m i)
      (ContinuousLinearMap.proj (R := ℝ) (φ := fun _ : Fin 3 => ℝ) i) ![1, 2, 3] := fun i => hasFDerivAt_apply i _
  have h1 : ∀ i : ℕ, ∃ D, HasFDerivAt (𝕜 := ℝ) (fun m : Fin 3 → ℝ => Real.exp (if i = 0 then m 0 else m 1)) D ![1, 2, 3] := by
    intro i
    by_cases hi : i = 0
    · simp only [hi, if_true]
      exact ⟨_, (h0 0).exp⟩
    · simp only [hi, if_false]
      exact ⟨_, (h0 1).exp⟩
  choose D hD using h1
  exact ⟨_, C147_sensitivity hD (fun _ => h0 2) (fun i => Real.exp_pos _)
    (fun i => by show (0 : ℝ) ≤ 3; norm_num) (by norm_num) 1⟩

end Props
end Verif.DC.Layered
