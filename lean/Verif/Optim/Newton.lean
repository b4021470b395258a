import Verif.Optim.LineSearch

/-! Model of `NewtonRoot.root` (`simpeg/optimization.py` 1461-1517). -/

noncomputable section
namespace Verif.Optim.Newton
open Verif Classical

/-- The root finder: points are of type `X`; `norm (r x)` is `res x`, and the trial point of a
step from `x` with step factor `mu` (`x + mu * dh`, `dh = -(J(x) \ r(x))`) is `step x mu`,
where a failing solve is not modelled. -/
structure Root (X : Type) where
  res : X → ℝ
  step : X → ℝ → X
  tol : ℝ
  maxIter : Nat
  stepDcr : ℝ
  maxLS : Nat
  doLS : Bool

variable {X : Type}

/-- The test that ends the line search (1488). -/
def accepts (R : Root X) (x xt : X) : Prop := R.res xt ≤ R.res x ∨ R.res xt < R.tol

/-- The line search (1484-1501) from `LScnt = cnt` and `muLS = mu`; `fuel` is
`maxLS - cnt + 1` and bounds it exactly. `none` is the return of `None`. -/
def lineSearch (R : Root X) (x : X) : Nat → ℝ → Option X
  | 0, _ => none
  | fuel + 1, mu =>
    if accepts R x (R.step x mu) then some (R.step x mu)
    else lineSearch R x fuel (mu * R.stepDcr)

/-- One Newton step (1473-1501). The first trial is tested even when `maxLS = 0`. -/
def newtonStep (R : Root X) (x : X) : Option X :=
  if R.doLS then lineSearch R x (max R.maxLS 1) 1 else some (R.step x 1)

/-- The outer loop (1472-1515), given a number of passes; the outer `none` says the number of
passes was too small, the inner one is the returned `None`. The list has the points reached. -/
def outer (R : Root X) : Nat → Nat → X → Option (Option X × List X)
  | 0, _, _ => none
  | fuel + 1, iter, x =>
    match newtonStep R x with
    | none => some (none, [])
    | some xt =>
      if R.res xt < R.tol then some (some xt, [xt])
      else if R.maxIter < iter + 1 then some (some xt, [xt])
      else (outer R fuel (iter + 1) xt).map fun p => (p.1, xt :: p.2)

def root (R : Root X) (fuel : Nat) (x : X) : Option (Option X × List X) := outer R fuel 0 x

namespace Props

theorem lineSearch_spec (R : Root X) (x : X) : ∀ (fuel : Nat) (mu : ℝ),
    (∀ xt, lineSearch R x fuel mu = some xt →
      ∃ k < fuel, xt = R.step x (mu * R.stepDcr ^ k) ∧ accepts R x xt) ∧
    (lineSearch R x fuel mu = none → ∀ k < fuel, ¬ accepts R x (R.step x (mu * R.stepDcr ^ k)))
  | 0, mu => by simp [lineSearch]
  | fuel + 1, mu => by
    simp only [lineSearch]
    split
    · next h =>
      refine ⟨?_, by simp⟩
      rintro xt ⟨⟩
      exact ⟨0, by omega, by simp, by simpa using h⟩
    · next h =>
      obtain ⟨h1, h2⟩ := lineSearch_spec R x fuel (mu * R.stepDcr)
      constructor
      · intro xt hx
        obtain ⟨k, hk, e, a⟩ := h1 xt hx
        exact ⟨k + 1, by omega, by rw [e, pow_succ']; ring_nf, a⟩
      · intro hn k hk
        cases k with
        | zero => simpa using h
        | succ k =>
          have := h2 hn k (by omega)
          rwa [pow_succ', ← mul_assoc]

/-- The points reached form a chain of accepted steps. -/
def Chain (R : Root X) : X → List X → Prop
  | _, [] => True
  | x, y :: l => (∃ k, k < max R.maxLS 1 ∧ y = R.step x (R.stepDcr ^ k)) ∧
      (R.doLS = true → R.res y ≤ R.res x ∨ R.res y < R.tol) ∧ Chain R y l

theorem outer_spec (R : Root X) : ∀ (fuel iter : Nat) (x : X), R.maxIter + 1 ≤ fuel + iter →
    iter ≤ R.maxIter → 
    ∃ out l, outer R fuel iter x = some (out, l) ∧ l.length + iter ≤ R.maxIter + 1 ∧ Chain R x l ∧
      (∀ y, out = some y → l.getLast? = some y ∧
        (R.res y < R.tol ∨ l.length + iter = R.maxIter + 1)) ∧
      (out = none → R.doLS = true ∧ ∃ y, (x :: l).getLast? = some y ∧
        ∀ k < max R.maxLS 1, ¬ (R.res (R.step y (R.stepDcr ^ k)) ≤ R.res y ∨
          R.res (R.step y (R.stepDcr ^ k)) < R.tol))
  | 0, iter, x, h, hi => by omega
  | fuel + 1, iter, x, h, hi => by
    have hstep : ∀ y, newtonStep R x = some y → (∃ k, k < max R.maxLS 1 ∧
        y = R.step x (R.stepDcr ^ k)) ∧ (R.doLS = true → R.res y ≤ R.res x ∨ R.res y < R.tol) := by
      intro y hy
      unfold newtonStep at hy
      split at hy
      · obtain ⟨k, hk, e, a⟩ := (lineSearch_spec R x _ 1).1 y hy
        rw [one_mul] at e
        exact ⟨⟨k, hk, e⟩, fun _ => a⟩
      · next hd => cases hy; exact ⟨⟨0, by omega, by simp⟩, fun h => absurd h hd⟩
    simp only [outer]
    cases hn : newtonStep R x with
    | none =>
      refine ⟨none, [], rfl, by simp; omega, trivial, by simp, fun _ => ?_⟩
      unfold newtonStep at hn
      split at hn
      · next hd =>
        refine ⟨hd, x, rfl, fun k hk => ?_⟩
        have := (lineSearch_spec R x _ 1).2 hn k hk
        rwa [one_mul] at this
      · cases hn
    | some xt =>
      obtain ⟨h1, h2⟩ := hstep xt hn
      simp only
      split
      · next ht =>
        exact ⟨_, _, rfl, by simp; omega, ⟨h1, h2, trivial⟩, by
          rintro y ⟨⟩; exact ⟨rfl, Or.inl ht⟩, by simp⟩
      · split
        · next hm =>
          refine ⟨_, _, rfl, by simp; omega, ⟨h1, h2, trivial⟩, ?_, by simp⟩
          rintro y ⟨⟩
          exact ⟨rfl, Or.inr (by simp; omega)⟩
        · next hm =>
          obtain ⟨out, l, e, hlen, hc, hs, hnn⟩ := outer_spec R fuel (iter + 1) xt (by omega) (by omega)
          refine ⟨out, xt :: l, by rw [e]; rfl, by simp; omega, ⟨h1, h2, hc⟩, ?_, ?_⟩
          · intro y hy
            obtain ⟨a, b⟩ := hs y hy
            refine ⟨?_, ?_⟩
            · rw [List.getLast?_cons, a]; rfl
            · rcases b with b | b
              · exact Or.inl b
              · right; simp; omega
          · intro ho
            obtain ⟨a, y, b, c⟩ := hnn ho
            exact ⟨a, y, by rw [List.getLast?_cons_cons]; exact b, c⟩

/-- C50 (bound `maxIter + 1` in place of the documented `maxIter`, which
`C50_one_step_too_many` refutes). The root finder ends after at most `maxIter + 1` Newton
steps, each reached by a backtracked step; with the line search on, each step does not
increase the residual or lands below the tolerance. A returned point is the last one reached
and is below the tolerance, or the step limit was used up; `None` is returned only if no
backtracking step from the last point was acceptable. -/
theorem C50_root_partial (R : Root X) (x : X) :
    ∃ out l, root R (R.maxIter + 1) x = some (out, l) ∧ l.length ≤ R.maxIter + 1 ∧ Chain R x l ∧
      (∀ y, out = some y → l.getLast? = some y ∧ (R.res y < R.tol ∨ l.length = R.maxIter + 1)) ∧
      (out = none → R.doLS = true ∧ ∃ y, (x :: l).getLast? = some y ∧
        ∀ k < max R.maxLS 1, ¬ (R.res (R.step y (R.stepDcr ^ k)) ≤ R.res y ∨
          R.res (R.step y (R.stepDcr ^ k)) < R.tol)) :=
  outer_spec R (R.maxIter + 1) 0 x (by omega) (by omega)

/-- A finder that halves its point: it steps within the hypotheses above. -/
def halving : Root ℝ := ⟨fun x => |x|, fun x mu => x - mu * x / 2, 1, 0, 1 / 2, 30, true⟩

/-- The root finder makes more than `maxIter` Newton steps: with `maxIter = 0` it makes one. -/
theorem C50_one_step_too_many : ∃ (R : Root ℝ) (x : ℝ) (out : Option ℝ) (l : List ℝ),
    root R (R.maxIter + 1) x = some (out, l) ∧ R.maxIter < l.length := by
  refine ⟨halving, 8, some 4, [4], ?_, by simp [halving]⟩
  have hn : newtonStep halving 8 = some 4 := by
    have e : halving.step 8 1 = 4 := by norm_num [halving]
    have a : accepts halving 8 4 := by left; norm_num [halving]
    unfold newtonStep
    rw [if_pos (show halving.doLS = true from rfl), show max halving.maxLS 1 = 29 + 1 by simp [halving]]
    simp only [lineSearch, e, if_pos a]
  have ht : ¬ halving.res 4 < halving.tol := by norm_num [halving]
  have hm : halving.maxIter < 0 + 1 := by simp [halving]
  change outer halving (0 + 1) 0 8 = _
  simp only [outer, hn, if_neg ht, if_pos hm]

end Props
end Verif.Optim.Newton
