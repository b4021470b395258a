import Verif.Optim.LineSearch

/-! Model of the limited-memory `BFGS` (`simpeg/optimization.py` 1266-1331). -/

noncomputable section
namespace Verif.Optim.BFGS
open Verif Matrix Classical

variable {n : Nat}

/-- The columns `_bfgsS`, `_bfgsY`, the counter `_bfgscnt` (starting at -1, stored shifted by
one: `cnt = _bfgscnt + 1` is the number of stored updates) and `g_last` (1284-1290). Columns
start as zero. -/
structure St (n : Nat) where
  cnt : Nat
  S : Nat → V n
  Y : Nat → V n
  gLast : V n

/-- `_startup_BFGS` (1284-1290). -/
def startup : St n := ⟨0, fun _ => 0, fun _ => 0, 0⟩

/-- The column used at depth `k` (1302), with `m = _bfgscnt` and `nn = min(nbfgs, m)`. -/
def khat (m nn k : Nat) : Nat := if nn = 0 then 0 else (m - nn + k) % nn

/-- `bfgsrec` (1296-1310); `fuel = k + 1`, so `fuel = 0` is the test `k < 0`. `H0` is
`bfgsH0 * d`. -/
def bfgsrec (H0 : V n → V n) (m nn : Nat) (S Y : Nat → V n) : Nat → V n → V n
  | 0, d => H0 d
  | k + 1, d =>
    let j := khat m nn k
    let gamma := (S j ⬝ᵥ d) / (Y j ⬝ᵥ S j)
    let w := bfgsrec H0 m nn S Y k (d - gamma • Y j)
    w + (gamma - (Y j ⬝ᵥ w) / (Y j ⬝ᵥ S j)) • S j

/-- `bfgs` (1291-1294): with no stored update `ktop = -1`, otherwise `ktop = min(nbfgs, n)`. -/
def bfgs (H0 : V n → V n) (nbfgs : Nat) (s : St n) (d : V n) : V n :=
  match s.cnt with
  | 0 => H0 d
  | m + 1 => bfgsrec H0 m (min nbfgs m) s.S s.Y (min nbfgs m + 1) d

/-- `_doEndIteration_BFGS` (1315-1331) at iteration `iter`. It runs before the main
`doEndIteration` (`call_hooks`), so `g` and `xc` are those of the point the step left and
`xt` is the point it reached. -/
def endIteration (nbfgs : Nat) (iter : Nat) (g xc xt : V n) (s : St n) : St n :=
  if iter = 0 then { s with gLast := g }
  else
    let yy := g - s.gLast
    let ss := xc - xt
    let s := { s with gLast := g }
    if 0 < yy ⬝ᵥ ss then
      let ktop := s.cnt % nbfgs
      { s with cnt := s.cnt + 1, Y := Function.update s.Y ktop yy,
               S := Function.update s.S ktop ss }
    else s

/-- The state after the iterations with the given `(g, xc, xt)`, from iteration `k` on. -/
def history (nbfgs : Nat) : Nat → St n → List (V n × V n × V n) → St n
  | _, s, [] => s
  | k, s, (g, xc, xt) :: l => history nbfgs (k + 1) (endIteration nbfgs k g xc xt s) l

/-- `findSearchDirection` (1312-1313). -/
def direction (H0 : V n → V n) (nbfgs : Nat) (s : St n) (g : V n) : V n :=
  bfgs H0 nbfgs s (-g)

namespace Props

/-- Every column filled so far has positive curvature. -/
def Inv (nbfgs : Nat) (s : St n) : Prop :=
  ∀ j, j < s.cnt → j < nbfgs → 0 < s.Y j ⬝ᵥ s.S j

theorem endIteration_inv (nbfgs : Nat) (hb : 0 < nbfgs) (k : Nat) (g xc xt : V n) (s : St n)
    (h : Inv nbfgs s) : Inv nbfgs (endIteration nbfgs k g xc xt s) := by
  unfold endIteration
  split
  · exact h
  · simp only
    split
    · next hpos =>
      intro j hj hjn
      simp only at hj ⊢
      by_cases e : j = s.cnt % nbfgs
      · subst e; simpa using hpos
      · rw [Function.update_of_ne e, Function.update_of_ne e]
        refine h j ?_ hjn
        by_contra hc
        have hjc : j = s.cnt := by omega
        apply e
        rw [← hjc, Nat.mod_eq_of_lt hjn]
    · exact h

theorem history_inv (nbfgs : Nat) (hb : 0 < nbfgs) : ∀ (l : List (V n × V n × V n)) (k : Nat)
    (s : St n), Inv nbfgs s → Inv nbfgs (history nbfgs k s l)
  | [], _, _, h => h
  | (g, xc, xt) :: l, k, s, h =>
    history_inv nbfgs hb l (k + 1) _ (endIteration_inv nbfgs hb k g xc xt s h)

/-- The recursion only uses filled columns. -/
theorem khat_filled (nbfgs m k : Nat) (hb : 0 < nbfgs) :
    khat m (min nbfgs m) k < m + 1 ∧ khat m (min nbfgs m) k < nbfgs := by
  unfold khat
  split
  · omega
  · next h =>
    have := Nat.mod_lt (m - min nbfgs m + k) (Nat.pos_of_ne_zero h)
    omega

/-- A positive definite operator (not assumed linear). -/
def PosDef (H : V n → V n) : Prop := ∀ d, d ≠ 0 → 0 < d ⬝ᵥ H d

theorem rec_pos (H0 : V n → V n) (h0 : PosDef H0) (m nn : Nat) (S Y : Nat → V n)
    (hpos : ∀ k, 0 < Y (khat m nn k) ⬝ᵥ S (khat m nn k)) :
    ∀ k, PosDef (bfgsrec H0 m nn S Y k)
  | 0 => h0
  | k + 1 => by
    intro d hd
    have ih := rec_pos H0 h0 m nn S Y hpos k
    have hr := hpos k
    simp only [bfgsrec]
    set s := S (khat m nn k)
    set y := Y (khat m nn k)
    set γ := (s ⬝ᵥ d) / (y ⬝ᵥ s) with hγ
    set w := bfgsrec H0 m nn S Y k (d - γ • y) with hw
    have key : d ⬝ᵥ (w + (γ - (y ⬝ᵥ w) / (y ⬝ᵥ s)) • s) =
        (d - γ • y) ⬝ᵥ w + (s ⬝ᵥ d) ^ 2 / (y ⬝ᵥ s) := by
      rw [dotProduct_add, dotProduct_smul, sub_dotProduct, smul_dotProduct, smul_eq_mul,
        smul_eq_mul, dotProduct_comm d s, hγ]
      field_simp
      ring
    rw [key]
    by_cases h1 : d - γ • y = 0
    · rw [h1, zero_dotProduct, zero_add]
      have hdy : d = γ • y := by rwa [sub_eq_zero] at h1
      have hγ0 : γ ≠ 0 := by
        rintro e
        rw [e, zero_smul] at hdy
        exact hd hdy
      have hsd : s ⬝ᵥ d ≠ 0 := by
        intro e; apply hγ0; rw [hγ, e, zero_div]
      positivity
    · have := ih _ h1
      have : 0 ≤ (s ⬝ᵥ d) ^ 2 / (y ⬝ᵥ s) := by positivity
      linarith

/-- C27. For every history of gradients and iterates, every memory size and every positive
definite initial operator, the BFGS search direction is a descent direction. -/
theorem C27_descent (H0 : V n → V n) (h0 : PosDef H0) (nbfgs : Nat) (hb : 0 < nbfgs)
    (l : List (V n × V n × V n)) (g : V n) (hg : g ≠ 0) :
    g ⬝ᵥ direction H0 nbfgs (history nbfgs 0 startup l) g < 0 := by
  have hI : Inv nbfgs (history nbfgs 0 startup l) :=
    history_inv nbfgs hb l 0 startup (by intro j hj; simp [startup] at hj)
  generalize history nbfgs 0 startup l = s at hI
  have hp : PosDef (bfgs H0 nbfgs s) := by
    unfold bfgs
    split
    · exact h0
    · next m hm =>
      apply rec_pos H0 h0
      intro k
      obtain ⟨a, b⟩ := khat_filled nbfgs m k hb
      exact hI _ (by omega) b
  have := hp (-g) (by simpa using hg)
  rw [neg_dotProduct] at this
  unfold direction
  linarith

/-- Symmetry of an operator. -/
def Symm (H : V n → V n) : Prop := ∀ d e, e ⬝ᵥ H d = d ⬝ᵥ H e

theorem rec_symm (H0 : V n → V n) (h0 : Symm H0) (m nn : Nat) (S Y : Nat → V n)
    (hpos : ∀ k, 0 < Y (khat m nn k) ⬝ᵥ S (khat m nn k)) :
    ∀ k, Symm (bfgsrec H0 m nn S Y k)
  | 0 => h0
  | k + 1 => by
    intro d e
    have ih := rec_symm H0 h0 m nn S Y hpos k
    have hr := hpos k
    simp only [bfgsrec]
    set s := S (khat m nn k)
    set y := Y (khat m nn k)
    have key : ∀ d e : V n, e ⬝ᵥ (bfgsrec H0 m nn S Y k (d - ((s ⬝ᵥ d) / (y ⬝ᵥ s)) • y) +
        ((s ⬝ᵥ d) / (y ⬝ᵥ s) - (y ⬝ᵥ bfgsrec H0 m nn S Y k (d - ((s ⬝ᵥ d) / (y ⬝ᵥ s)) • y))
          / (y ⬝ᵥ s)) • s) =
        (e - ((s ⬝ᵥ e) / (y ⬝ᵥ s)) • y) ⬝ᵥ bfgsrec H0 m nn S Y k (d - ((s ⬝ᵥ d) / (y ⬝ᵥ s)) • y)
          + (s ⬝ᵥ d) * (s ⬝ᵥ e) / (y ⬝ᵥ s) := by
      intro d e
      rw [dotProduct_add, dotProduct_smul, sub_dotProduct, smul_dotProduct, smul_eq_mul,
        smul_eq_mul, dotProduct_comm e s]
      field_simp
      ring
    rw [key, key, ih, mul_comm (s ⬝ᵥ d)]

/-- C27. The implicit inverse Hessian is symmetric and positive definite after every history,
so it is also a valid preconditioner for conjugate gradients. -/
theorem C27_symmetric_positive (H0 : V n → V n) (h0 : PosDef H0) (h0s : Symm H0) (nbfgs : Nat)
    (hb : 0 < nbfgs) (l : List (V n × V n × V n)) :
    PosDef (bfgs H0 nbfgs (history nbfgs 0 startup l)) ∧
    Symm (bfgs H0 nbfgs (history nbfgs 0 startup l)) := by
  have hI : Inv nbfgs (history nbfgs 0 startup l) :=
    history_inv nbfgs hb l 0 startup (by intro j hj; simp [startup] at hj)
  generalize history nbfgs 0 startup l = s at hI
  unfold bfgs
  split
  · exact ⟨h0, h0s⟩
  · next m hm =>
    have hp : ∀ k, 0 < s.Y (khat m (min nbfgs m) k) ⬝ᵥ s.S (khat m (min nbfgs m) k) := by
      intro k
      obtain ⟨a, b⟩ := khat_filled nbfgs m k hb
      exact hI _ (by omega) b
    exact ⟨rec_pos H0 h0 _ _ _ _ hp _, rec_symm H0 h0s _ _ _ _ hp _⟩

/-- The default `bfgsH0` (the identity) meets the hypotheses. -/
example : PosDef (id : V n → V n) ∧ Symm (id : V n → V n) :=
  ⟨fun d hd => by
    have h : 0 ≤ d ⬝ᵥ d := Finset.sum_nonneg fun i _ => mul_self_nonneg _
    rcases h.lt_or_eq with h | h
    · exact h
    · exact absurd (dotProduct_self_eq_zero.mp h.symm) hd,
   fun d e => dotProduct_comm _ _⟩

/-- The stored pair is not a difference of gradient and of points over the same step: it pairs
the gradient change of the previous step with (minus) the current step. So on every strictly
convex function of one variable, whenever the iterates move in one direction, all updates are
skipped and the direction stays `H0 (-g)`. -/
theorem C27_pairs_are_mismatched (nbfgs : Nat) (gr : ℝ → ℝ) (hgr : StrictMono gr) (x : Nat → ℝ)
    (hx : StrictAnti x) (N : Nat) :
    (history nbfgs 0 (startup (n := 1)) ((List.range N).map fun k =>
      (fun _ => gr (x k), fun _ => x k, fun _ => x (k + 1)))).cnt = 0 := by
  have key : ∀ (M k : Nat) (s : St 1), s.cnt = 0 →
      (0 < k → s.gLast = fun _ => gr (x (k - 1))) →
      (history nbfgs k s ((List.range' k M).map fun k =>
        (fun _ => gr (x k), fun _ => x k, fun _ => x (k + 1)))).cnt = 0 := by
    intro M
    induction M with
    | zero => intro k s h _; exact h
    | succ M ih =>
      intro k s h hl
      rw [List.range'_succ, List.map_cons]
      simp only [history]
      apply ih
      · unfold endIteration
        split
        · exact h
        · next hk =>
          simp only
          rw [if_neg]
          · exact h
          · rw [hl (by omega)]
            simp only [dotProduct, Finset.univ_unique, Finset.sum_singleton, Pi.sub_apply]
            have h1 : gr (x k) < gr (x (k - 1)) := hgr (hx (by omega))
            have h2 : x (k + 1) < x k := hx (by omega)
            nlinarith
      · intro _
        unfold endIteration
        split
        · simp
        · simp only
          split <;> simp
  have := key N 0 startup rfl (by omega)
  rwa [← List.range_eq_range'] at this

/-- While fewer than `nbfgs` updates are stored, the newest one (in column `m`, for
`m = _bfgscnt ≥ 1`) has no influence on the direction. -/
theorem C27_newest_update_ignored (H0 : V n → V n) (nbfgs : Nat) (s : St n) (m : Nat)
    (hm : s.cnt = m + 1) (h1 : 1 ≤ m) (h2 : m < nbfgs) (y' s' g : V n) :
    direction H0 nbfgs { s with Y := Function.update s.Y m y', S := Function.update s.S m s' } g =
    direction H0 nbfgs s g := by
  have hk : ∀ k, khat m (min nbfgs m) k ≠ m := by
    intro k
    unfold khat
    have : min nbfgs m = m := by omega
    rw [this, if_neg (by omega)]
    exact (Nat.mod_lt _ (by omega)).ne
  have : ∀ k d, bfgsrec H0 m (min nbfgs m) (Function.update s.S m s') (Function.update s.Y m y') k d
      = bfgsrec H0 m (min nbfgs m) s.S s.Y k d := by
    intro k
    induction k with
    | zero => intro d; rfl
    | succ k ih =>
      intro d
      simp only [bfgsrec, Function.update_of_ne (hk k), ih]
  unfold direction bfgs
  rw [hm]
  exact this _ _

theorem rec_zero (H0 : V n → V n) (h0 : H0 0 = 0) (m nn : Nat) (S Y : Nat → V n) (k : Nat) :
    bfgsrec H0 m nn S Y k 0 = 0 := by
  induction k with
  | zero => exact h0
  | succ k ih => simp [bfgsrec, ih]

theorem rec_secant (H0 : V n → V n) (h0 : H0 0 = 0) (m nn : Nat) (S Y : Nat → V n) (k : Nat)
    (h : 0 < Y (khat m nn k) ⬝ᵥ S (khat m nn k)) :
    bfgsrec H0 m nn S Y (k + 1) (Y (khat m nn k)) = S (khat m nn k) := by
  have hg : S (khat m nn k) ⬝ᵥ Y (khat m nn k) / (Y (khat m nn k) ⬝ᵥ S (khat m nn k)) = 1 := by
    rw [dotProduct_comm]; exact div_self h.ne'
  simp only [bfgsrec]
  rw [hg, one_smul, sub_self, rec_zero H0 h0, dotProduct_zero, zero_div, sub_zero, one_smul,
    zero_add]

/-- C27. The secant equation: once the memory is full, after every step of positive curvature
the implicit inverse Hessian takes the newest stored gradient difference to the newest stored
step. -/
theorem C27_secant_full_memory (H0 : V n → V n) (h0 : H0 0 = 0) (nbfgs : Nat) (hb : 0 < nbfgs)
    (s : St n) (hc : nbfgs ≤ s.cnt) (iter : Nat) (hi : iter ≠ 0) (g xc xt : V n)
    (hpos : 0 < (g - s.gLast) ⬝ᵥ (xc - xt)) :
    bfgs H0 nbfgs (endIteration nbfgs iter g xc xt s) (g - s.gLast) = xc - xt := by
  have hk : khat s.cnt (min nbfgs s.cnt) (min nbfgs s.cnt) = s.cnt % nbfgs := by
    unfold khat
    rw [Nat.min_eq_left hc, if_neg hb.ne', Nat.sub_add_cancel hc]
  simp only [endIteration, if_neg hi, if_pos hpos, bfgs]
  have := rec_secant H0 h0 s.cnt (min nbfgs s.cnt)
    (Function.update s.S (s.cnt % nbfgs) (xc - xt))
    (Function.update s.Y (s.cnt % nbfgs) (g - s.gLast)) (min nbfgs s.cnt)
  rw [hk] at this
  simpa [Function.update_self] using this (by simpa [Function.update_self] using hpos)

/-- C27. Before that (at most `nbfgs` updates stored), the secant equation holds for the oldest
update, the one in the first column. -/
theorem C27_secant_first_update (H0 : V n → V n) (h0 : H0 0 = 0) (nbfgs : Nat) (hb : 0 < nbfgs)
    (l : List (V n × V n × V n))
    (h1 : 0 < (history nbfgs 0 startup l).cnt) (h2 : (history nbfgs 0 startup l).cnt ≤ nbfgs) :
    bfgs H0 nbfgs (history nbfgs 0 startup l) ((history nbfgs 0 startup l).Y 0) =
      (history nbfgs 0 startup l).S 0 := by
  have hI : Inv nbfgs (history nbfgs 0 startup l) :=
    history_inv nbfgs hb l 0 startup (by intro j hj; simp [startup] at hj)
  generalize history nbfgs 0 startup l = s at *
  obtain ⟨m, hm⟩ : ∃ m, s.cnt = m + 1 := ⟨s.cnt - 1, by omega⟩
  have hk : khat m (min nbfgs m) (min nbfgs m) = 0 := by
    unfold khat
    rw [Nat.min_eq_right (by omega)]
    split
    · rfl
    · simp
  have := rec_secant H0 h0 m (min nbfgs m) s.S s.Y (min nbfgs m)
  rw [hk] at this
  simp only [bfgs, hm]
  exact this (hI 0 h1 hb)

/-- The counter never passes over a column: after each iteration it has grown by at most one,
and every step of positive curvature after the first iteration is stored, in the column given
by the counter modulo the memory; all other columns are kept. -/
theorem C27_memory (nbfgs iter : Nat) (s : St n) (g xc xt : V n) :
    let s' := endIteration nbfgs iter g xc xt s
    s'.gLast = g ∧
    (iter ≠ 0 ∧ 0 < (g - s.gLast) ⬝ᵥ (xc - xt) →
      s'.cnt = s.cnt + 1 ∧ s'.Y (s.cnt % nbfgs) = g - s.gLast ∧ s'.S (s.cnt % nbfgs) = xc - xt ∧
      ∀ j, j ≠ s.cnt % nbfgs → s'.Y j = s.Y j ∧ s'.S j = s.S j) ∧
    (¬ (iter ≠ 0 ∧ 0 < (g - s.gLast) ⬝ᵥ (xc - xt)) →
      s'.cnt = s.cnt ∧ s'.Y = s.Y ∧ s'.S = s.S) := by
  by_cases hi : iter = 0
  · simp [endIteration, hi]
  · by_cases hp : 0 < (g - s.gLast) ⬝ᵥ (xc - xt)
    · refine ⟨?_, fun _ => ?_, fun h => absurd ⟨hi, hp⟩ h⟩
      · simp only [endIteration, if_neg hi, if_pos hp]
      · simp only [endIteration, if_neg hi, if_pos hp]
        refine ⟨trivial, by simp, by simp, fun j hj => ?_⟩
        simp [Function.update_of_ne hj]
    · refine ⟨?_, fun h => absurd h.2 hp, fun _ => ?_⟩
      · simp only [endIteration, if_neg hi, if_neg hp]
      · simp only [endIteration, if_neg hi, if_neg hp]
        exact ⟨trivial, trivial, trivial⟩

/-- A history with a stored update: gradients 0 and 1 at the points 3 and 2, then a step down. -/
example : (history 2 0 (startup (n := 1))
    [(fun _ => 0, fun _ => 3, fun _ => 2), (fun _ => 1, fun _ => 2, fun _ => 1)]).cnt = 1 := by
  simp [history, endIteration, startup, dotProduct]

end Props
end Verif.Optim.BFGS
