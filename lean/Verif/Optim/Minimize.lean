import Verif.Optim.LineSearch
import Mathlib.Data.List.Chain

/-! Model of `Minimize.minimize` (`simpeg/optimization.py` 462-529, 532-559, 643-647, 814-838)
and of `Bounded` (909-1018). -/

noncomputable section
namespace Verif.Optim
open Verif Matrix Classical

variable {n : Nat}

/-- What the run depends on. The objective may be changed between iterations by directives, so
value and gradient carry the iteration number. The direction found at iteration `k` from the
point `x` is arbitrary (it stands for any `findSearchDirection`, with any memory of the run),
as is the decision of a callback to set `stopNextIteration`. `maxStep = none` is `inf`. -/
structure Opt (n : Nat) where
  ls : LS n
  maxStep : Option ℝ
  requireDecrease : Bool
  phi : Nat → V n → ℝ
  grad : Nat → V n → V n
  dir : Nat → V n → V n
  stopReq : Nat → V n → Bool

/-- The attributes of a run. `trace` is the list of accepted iterates, the last first, and
`evals` that of all points at which the objective was evaluated. -/
structure St (n : Nat) where
  iter : Nat
  x0 : V n
  xc : V n
  f : ℝ
  f0 : ℝ
  fLast : Option ℝ
  xLast : V n
  trace : List (V n)
  evals : List (V n)

/-- The stoppers of a run: name them by their type and test (427-433 for the defaults). -/
abbrev Stoppers (n : Nat) := List (StopType × (St n → V n → Bool))

/-- `StoppingCriteria.iteration` (125-130). -/
def iterStopper (maxIter : Nat) : StopType × (St n → V n → Bool) :=
  (.critical, fun s _ => decide (maxIter ≤ s.iter))

def norm2 (v : V n) : ℝ := Real.sqrt (v ⬝ᵥ v)

/-- The default stoppers (427-433, 153-178); `|fc - fOld|` with `fOld = nan` never stops
(`iter = 0` compares 1 with 0). -/
def defaultStoppers (L : LS n) (tolF tolX tolG eps : ℝ) (maxIter : Nat) : Stoppers n :=
  [(.optimal, fun s _ => match s.iter, s.fLast with
      | 0, _ => false
      | _ + 1, none => false
      | _ + 1, some fl => decide (|s.f - fl| ≤ tolF * (1 + |s.f0|))),
   (.optimal, fun s _ => if s.iter = 0 then false
      else decide (norm2 (s.xc - s.xLast) ≤ tolX * (1 + norm2 s.x0))),
   (.optimal, fun s g => decide (norm2 (L.proj (s.xc - g) - s.xc) ≤ tolG)),
   (.critical, fun s g => decide (norm2 (L.proj (s.xc - g) - s.xc) ≤ 1000 * eps)),
   iterStopper maxIter]

/-- How a run ends. -/
inductive Ending | stopped | requested | lineSearchFailed
  deriving DecidableEq

/-- The evaluation at the head of the loop body (495), and the `f0` that `stoppingCriteria`
(643-647) stores at iteration 0. -/
def evaluated (O : Opt n) (s : St n) : St n :=
  { s with f := O.phi s.iter s.xc, f0 := if s.iter = 0 then O.phi s.iter s.xc else s.f0,
           evals := s.xc :: s.evals }

/-- What the line search at the state `s` is given (499-507). -/
def lsIn [NeZero n] (O : Opt n) (s : St n) : LSIn n :=
  ⟨O.phi s.iter, O.grad s.iter, s.xc, O.phi s.iter s.xc, O.grad s.iter s.xc,
    scaleSearchDirection O.maxStep (O.dir s.iter s.xc)⟩

/-- `doEndIteration` (814-838) after the step to `xt`. -/
def advance (O : Opt n) (s : St n) (xt : V n) : St n :=
  { s with fLast := some s.f, f := O.phi s.iter xt, xLast := s.xc, xc := xt,
           iter := s.iter + 1, trace := xt :: s.trace }

/-- One pass through the loop body (494-520): the state, and how the run ends if it does. -/
def body [NeZero n] (O : Opt n) (stop : Stoppers n) (s : St n) : Except Err (St n × Option Ending) :=
  let s1 := evaluated O s
  if checkStoppers (stop.map fun t => (t.1, t.2 s1 (O.grad s.iter s.xc))) then
    .ok (s1, some .stopped)
  else
    match modifySearchDirection O.ls (lsIn O s) with
    | .error e => .error e
    | .ok (xt, pass, ev) =>
      let s2 := { s1 with evals := ev ++ s1.evals }
      if pass = false ∧ O.requireDecrease = true then .ok (s2, some .lineSearchFailed)
      else .ok (advance O s2 xt, if O.stopReq s.iter xt then some .requested else none)

/-- The `while True` loop with a bound on the number of passes; `none` means the bound was
reached, which `C25_terminates` excludes. -/
def loop [NeZero n] (O : Opt n) (stop : Stoppers n) : Nat → St n → Except Err (Option (St n × Ending))
  | 0, _ => .ok none
  | fuel + 1, s => match body O stop s with
    | .error e => .error e
    | .ok (s', some e) => .ok (some (s', e))
    | .ok (s', none) => loop O stop fuel s'

/-- `startup` (532-559) and the first evaluation (486-491). -/
def start (O : Opt n) (x0 : V n) : St n :=
  let x := O.ls.proj x0
  ⟨0, x, x, O.phi 0 x, 0, none, x, [x], [x]⟩

/-- `minimize` (462-529), given a number of passes. -/
def minimize [NeZero n] (O : Opt n) (stop : Stoppers n) (fuel : Nat) (x0 : V n) :
    Except Err (Option (St n × Ending)) := loop O stop fuel (start O x0)

/-- A bound for one component: `None` and infinite bounds are `none`. Scalar bounds are
constant functions. -/
structure Bounds (n : Nat) where
  lower : Fin n → Option ℝ
  upper : Fin n → Option ℝ

/-- `Bounded.projection` (968-978): `maximum` with the lower, then `minimum` with the upper. -/
def Bounds.projection (b : Bounds n) (x : V n) : V n := fun i =>
  let y := match b.lower i with
    | none => x i
    | some l => max (x i) l
  match b.upper i with
    | none => y
    | some u => min y u

/-- `activeSet` (981-992). -/
def Bounds.active (b : Bounds n) (x : V n) (i : Fin n) : Prop :=
  (∃ l, b.lower i = some l ∧ x i ≤ l) ∨ (∃ u, b.upper i = some u ∧ u ≤ x i)

/-- `bindingSet` (1004-1018). -/
def Bounds.binding (b : Bounds n) (g x : V n) (i : Fin n) : Prop :=
  (∃ l, b.lower i = some l ∧ x i ≤ l ∧ 0 ≤ g i) ∨ (∃ u, b.upper i = some u ∧ u ≤ x i ∧ g i ≤ 0)

namespace Props

variable [NeZero n]

/-! ### C25 -/

/-- The step from `x` to `x'` is one the line search at iteration `k` accepted. -/
def AcceptedStep (O : Opt n) (k : Nat) (x x' : V n) : Prop :=
  ∃ j, x' = O.ls.proj (x + O.ls.shorten ^ j • scaleSearchDirection O.maxStep (O.dir k x)) ∧
    O.phi k x' ≤ O.phi k x + O.ls.reduction * (O.grad k x ⬝ᵥ (x' - x))

/-- The accepted iterates so far (last first) are linked by accepted steps. -/
def Linked (O : Opt n) : List (V n) → Prop
  | [] => True
  | [_] => True
  | x' :: x :: l => AcceptedStep O l.length x x' ∧ Linked O (x :: l)

/-- Invariant of the loop at its head. -/
structure Inv (O : Opt n) (maxIter : Nat) (s : St n) : Prop where
  le : s.iter ≤ maxIter
  head : ∃ l, s.trace = s.xc :: l ∧ l.length = s.iter
  linked : O.requireDecrease = true → O.ls.binding = none → Linked O s.trace
  evals : ∀ y ∈ s.evals, y ∈ s.trace ∨ ∃ x, y = O.ls.proj x
  traceProj : ∀ y ∈ s.trace, ∃ x, y = O.ls.proj x

theorem start_inv (O : Opt n) (maxIter : Nat) (x0 : V n) : Inv O maxIter (start O x0) where
  le := Nat.zero_le _
  head := ⟨[], rfl, rfl⟩
  linked := fun _ _ => trivial
  evals := by intro y hy; left; exact hy
  traceProj := by intro y hy; simp [start] at hy; exact ⟨x0, hy⟩

theorem body_inv (O : Opt n) (stop : Stoppers n) (maxIter : Nat)
    (hstop : iterStopper maxIter ∈ stop) (s s' : St n) (r : Option Ending) (hI : Inv O maxIter s)
    (h : body O stop s = .ok (s', r)) :
    Inv O maxIter s' ∧ (r = none → s'.iter = s.iter + 1) ∧
    (r = some .lineSearchFailed → s'.xc = s.xc ∧ s'.trace = s.trace) ∧
    (r = some .stopped → s'.xc = s.xc ∧ s'.trace = s.trace) := by
  unfold body at h
  simp only at h
  split at h
  · cases h
    refine ⟨⟨hI.le, hI.head, hI.linked, ?_, hI.traceProj⟩, by simp, by simp, fun _ => ⟨rfl, rfl⟩⟩
    intro y hy
    simp only [evaluated, List.mem_cons] at hy
    rcases hy with rfl | hy
    · obtain ⟨l, hl, -⟩ := hI.head
      left; change s.xc ∈ s.trace; rw [hl]; simp
    · exact hI.evals y hy
  · next hns =>
    have hlt : s.iter < maxIter := by
      by_contra hge
      apply hns
      rw [C23_decision]
      right
      simp only [List.mem_map]
      refine ⟨iterStopper maxIter, hstop, ?_⟩
      simp only [iterStopper]
      congr 1
      exact decide_eq_true (by change maxIter ≤ s.iter; omega)
    split at h
    · cases h
    · next xt pass ev hls =>
      have hproj : ∀ y ∈ ev, ∃ x, y = O.ls.proj x := by
        by_cases hm : O.ls.maxIterLS = 0
        · simp [modifySearchDirection, hm] at hls
        · obtain ⟨xt', pass', ev', he, -, -, -, hall⟩ := C24_bounded O.ls _ hm
          rw [hls] at he
          cases he
          intro y hy
          obtain ⟨j, -, hj⟩ := hall y hy
          exact ⟨_, hj⟩
      have hxt : ∃ x, xt = O.ls.proj x := by
        by_cases hm : O.ls.maxIterLS = 0
        · simp [modifySearchDirection, hm] at hls
        · obtain ⟨xt', pass', ev', he, -, -, hmem, -⟩ := C24_bounded O.ls _ hm
          rw [hls] at he
          cases he
          exact hproj _ hmem
      have hev : ∀ y ∈ ev ++ s.xc :: s.evals, y ∈ s.trace ∨ ∃ x, y = O.ls.proj x := by
        intro y hy
        simp only [List.mem_append, List.mem_cons] at hy
        rcases hy with hy | rfl | hy
        · right; exact hproj y hy
        · obtain ⟨l, hl, -⟩ := hI.head
          left; rw [hl]; simp
        · exact hI.evals y hy
      split at h
      · cases h
        exact ⟨⟨hI.le, hI.head, hI.linked, hev, hI.traceProj⟩, by simp, fun _ => ⟨rfl, rfl⟩, by simp⟩
      · next hpass =>
        simp only [Except.ok.injEq, Prod.mk.injEq] at h
        obtain ⟨rfl, hr⟩ := h
        have hr' : r ≠ some .lineSearchFailed ∧ r ≠ some .stopped := by
          rw [← hr]; split <;> simp
        refine ⟨⟨by simp only [advance, evaluated]; omega, ?_, ?_, ?_, ?_⟩, fun _ => rfl, fun e => absurd e hr'.1,
          fun e => absurd e hr'.2⟩
        · obtain ⟨l, hl, hlen⟩ := hI.head
          exact ⟨s.trace, rfl, by rw [hl]; simp [hlen, advance, evaluated]⟩
        · intro hreq hbind
          obtain ⟨l, hl, hlen⟩ := hI.head
          simp only [advance, evaluated]
          have hL := hI.linked hreq hbind
          rw [hl] at hL ⊢
          refine ⟨?_, hL⟩
          have hp : pass = true := by
            cases pass
            · exact absurd ⟨rfl, hreq⟩ hpass
            · rfl
          subst hp
          obtain ⟨j, -, h2, h3, -⟩ := C24_success O.ls hbind _ xt ev hls
          rw [hlen]
          exact ⟨j, h2, h3⟩
        · intro y hy
          rcases hev y hy with h' | h'
          · left; simp only [advance, evaluated, List.mem_cons]; exact Or.inr h'
          · right; exact h'
        · intro y hy
          simp only [advance, evaluated, List.mem_cons] at hy
          rcases hy with rfl | hy
          · exact hxt
          · exact hI.traceProj y hy

theorem loop_inv (O : Opt n) (stop : Stoppers n) (maxIter : Nat)
    (hstop : iterStopper maxIter ∈ stop) : ∀ (fuel : Nat) (s : St n), Inv O maxIter s →
    maxIter < fuel + s.iter →
    (∃ e, loop O stop fuel s = .error e) ∨
    ∃ s' r, loop O stop fuel s = .ok (some (s', r)) ∧ Inv O maxIter s'
  | 0, s, hI, hf => by have := hI.le; omega
  | fuel + 1, s, hI, hf => by
    simp only [loop]
    cases hb : body O stop s with
    | error e => left; exact ⟨e, rfl⟩
    | ok r =>
      obtain ⟨s', r⟩ := r
      obtain ⟨h1, h2, -⟩ := body_inv O stop maxIter hstop s s' r hI hb
      cases r with
      | some e => right; exact ⟨s', e, rfl, h1⟩
      | none => exact loop_inv O stop maxIter hstop fuel s' h1 (by have := h2 rfl; omega)

/-- C25. With the iteration stopper among the stoppers (as for all default sets), `minimize`
ends within `maxIter + 1` passes, whatever the objective, directions and callbacks do, and
has then made at most `maxIter` iterations; the returned point is the last accepted iterate
(the starting one if there is none), also when a line search failed. -/
theorem C25_terminates (O : Opt n) (stop : Stoppers n) (maxIter : Nat)
    (hstop : iterStopper maxIter ∈ stop) (hm : O.ls.maxIterLS ≠ 0) (x0 : V n) :
    ∃ s r, minimize O stop (maxIter + 1) x0 = .ok (some (s, r)) ∧ s.iter ≤ maxIter ∧
      ∃ l, s.trace = s.xc :: l ∧ l.length = s.iter := by
  have noerr : ∀ fuel s, ∀ e, loop O stop fuel s ≠ .error e := by
    intro fuel
    induction fuel with
    | zero => intro s e; simp [loop]
    | succ fuel ih =>
      intro s e
      simp only [loop]
      cases hb : body O stop s with
      | error e' =>
        exfalso
        unfold body at hb
        simp only at hb
        split at hb
        · cases hb
        · obtain ⟨xt, pass, ev, he, -⟩ := C24_bounded O.ls (lsIn O s) hm
          rw [he] at hb
          simp only at hb
          split at hb <;> cases hb
      | ok r =>
        obtain ⟨s', r⟩ := r
        cases r with
        | some _ => simp
        | none => exact ih s' e
  rcases loop_inv O stop maxIter hstop (maxIter + 1) _ (start_inv O maxIter x0)
    (by simp [start]) with ⟨e, he⟩ | ⟨s', r, h1, h2⟩
  · exact absurd he (noerr _ _ _)
  · exact ⟨s', r, h1, h2.le, h2.head⟩

/-- C25. More passes do not change the outcome: the bound on the loop is only a proof device. -/
theorem C25_fuel_irrelevant (O : Opt n) (stop : Stoppers n) : ∀ (fuel extra : Nat) (s : St n)
    (out : St n × Ending), loop O stop fuel s = .ok (some out) →
    loop O stop (fuel + extra) s = .ok (some out)
  | 0, _, _, _, h => by simp [loop] at h
  | fuel + 1, extra, s, out, h => by
    rw [show fuel + 1 + extra = fuel + extra + 1 by omega]
    simp only [loop] at h ⊢
    cases hb : body O stop s with
    | error e => rw [hb] at h; simp at h
    | ok r =>
      obtain ⟨s', r⟩ := r
      rw [hb] at h
      cases r with
      | some e => exact h
      | none => exact C25_fuel_irrelevant O stop fuel extra s' out h

/-- C25. Every accepted step satisfies the sufficient decrease inequality of its own
iteration (when a decrease is required, and without the binding-set stopper, with which it is false:
`C25_violated_binding`). -/
theorem C25_accepted_steps_partial (O : Opt n) (stop : Stoppers n) (maxIter : Nat)
    (hstop : iterStopper maxIter ∈ stop) (hreq : O.requireDecrease = true)
    (hbind : O.ls.binding = none) (x0 : V n) (s : St n) (r : Ending)
    (h : minimize O stop (maxIter + 1) x0 = .ok (some (s, r))) : Linked O s.trace := by
  rcases loop_inv O stop maxIter hstop (maxIter + 1) _ (start_inv O maxIter x0)
    (by simp [start]) with ⟨e, he⟩ | ⟨s', r', h1, h2⟩
  · unfold minimize at h; rw [he] at h; cases h
  · unfold minimize at h; rw [h1] at h; cases h; exact h2.linked hreq hbind

theorem linked_sorted (O : Opt n) (phi : V n → ℝ)
    (hstep : ∀ k x x', AcceptedStep O k x x' → phi x' ≤ phi x) :
    ∀ l : List (V n), Linked O l → (l.map phi).Pairwise (· ≤ ·)
  | [], _ => by simp
  | [x], _ => by simp
  | x' :: x :: l, h => by
    obtain ⟨hacc, hl⟩ := h
    have ih := linked_sorted O phi hstep (x :: l) hl
    have hstep := hstep _ _ _ hacc
    simp only [List.map_cons, List.pairwise_cons, List.mem_cons, List.mem_map,
      forall_eq_or_imp, forall_exists_index, and_imp, forall_apply_eq_imp_iff₂] at ih ⊢
    exact ⟨⟨hstep, fun a ha => le_trans hstep (ih.1 a ha)⟩, ih.1, ih.2⟩

theorem run_sorted (O : Opt n) (stop : Stoppers n) (maxIter : Nat)
    (hstop : iterStopper maxIter ∈ stop) (hreq : O.requireDecrease = true)
    (hbind : O.ls.binding = none) (x0 : V n) (s : St n) (r : Ending)
    (h : minimize O stop (maxIter + 1) x0 = .ok (some (s, r)))
    (phi : V n → ℝ) (hstep : ∀ k x x', AcceptedStep O k x x' → phi x' ≤ phi x) :
    (s.trace.map phi).Pairwise (· ≤ ·) ∧ phi s.xc ≤ phi (O.ls.proj x0) := by
  have hl := C25_accepted_steps_partial O stop maxIter hstop hreq hbind x0 s r h
  have hs := linked_sorted O phi hstep _ hl
  refine ⟨hs, ?_⟩
  have hlast : ∀ (fuel : Nat) (t : St n), (∃ l, t.trace = t.xc :: l) →
      t.trace.getLast? = some (O.ls.proj x0) → ∀ out, loop O stop fuel t = .ok (some out) →
      (∃ l, out.1.trace = out.1.xc :: l) ∧ out.1.trace.getLast? = some (O.ls.proj x0) := by
    intro fuel
    induction fuel with
    | zero => intro t _ _ out ho; simp [loop] at ho
    | succ fuel ih =>
      intro t ht hg out ho
      simp only [loop] at ho
      cases hb : body O stop t with
      | error e => rw [hb] at ho; simp at ho
      | ok q =>
        obtain ⟨t', q⟩ := q
        have key : (∃ l, t'.trace = t'.xc :: l) ∧ t'.trace.getLast? = some (O.ls.proj x0) := by
          unfold body at hb
          simp only at hb
          split at hb
          · cases hb; exact ⟨ht, hg⟩
          · split at hb
            · cases hb
            · split at hb
              · cases hb; exact ⟨ht, hg⟩
              · cases hb
                refine ⟨⟨t.trace, rfl⟩, ?_⟩
                obtain ⟨l, hl⟩ := ht
                simp only [advance, evaluated]
                rw [hl] at hg ⊢
                simpa using hg
        rw [hb] at ho
        cases q with
        | some e => simp at ho; subst ho; exact key
        | none => exact ih t' key.1 key.2 out ho
  obtain ⟨⟨l, hl'⟩, hg⟩ := hlast (maxIter + 1) (start O x0) ⟨[], rfl⟩ rfl (s, r) h
  simp only at hl' hg
  rw [hl'] at hs hg
  cases l with
  | nil => simp at hg; rw [hg]
  | cons y l =>
    have hm : O.ls.proj x0 ∈ y :: l := by
      have : (y :: l).getLast? = some (O.ls.proj x0) := by simpa using hg
      exact List.mem_of_getLast? this
    rw [List.map_cons, List.pairwise_cons] at hs
    exact hs.1 _ (List.mem_map_of_mem hm)

/-- C25. For a fixed objective and directions along which the (projected) step does not go
uphill to first order, the objective values of the accepted iterates never increase; the
returned point is at least as good as the (projected) starting point. -/
theorem C25_monotone_partial (O : Opt n) (stop : Stoppers n) (maxIter : Nat)
    (hstop : iterStopper maxIter ∈ stop) (hreq : O.requireDecrease = true)
    (hbind : O.ls.binding = none) (x0 : V n) (s : St n) (r : Ending)
    (h : minimize O stop (maxIter + 1) x0 = .ok (some (s, r)))
    (phi : V n → ℝ) (hphi : ∀ k x, O.phi k x = phi x) (hred : 0 ≤ O.ls.reduction)
    (hdesc : ∀ k j x, O.grad k x ⬝ᵥ
      (O.ls.proj (x + O.ls.shorten ^ j • scaleSearchDirection O.maxStep (O.dir k x)) - x) ≤ 0) :
    (s.trace.map phi).Pairwise (· ≤ ·) ∧ phi s.xc ≤ phi (O.ls.proj x0) := by
  refine run_sorted O stop maxIter hstop hreq hbind x0 s r h phi ?_
  rintro k x x' ⟨j, hx', hle⟩
  have hd := hdesc k j x
  rw [← hx'] at hd
  rw [hphi, hphi] at hle
  nlinarith

/-- C25. For a convex objective (with `gradient` a subgradient) and a reduction constant below
one, the accepted objective values never increase, whatever the directions and the projection:
the sufficient decrease test rejects every uphill step. -/
theorem C25_monotone_convex_partial (O : Opt n) (stop : Stoppers n) (maxIter : Nat)
    (hstop : iterStopper maxIter ∈ stop) (hreq : O.requireDecrease = true)
    (hbind : O.ls.binding = none) (x0 : V n) (s : St n) (r : Ending)
    (h : minimize O stop (maxIter + 1) x0 = .ok (some (s, r)))
    (phi : V n → ℝ) (hphi : ∀ k x, O.phi k x = phi x)
    (hred : 0 ≤ O.ls.reduction) (hred1 : O.ls.reduction < 1)
    (hconv : ∀ k x y, phi x + O.grad k x ⬝ᵥ (y - x) ≤ phi y) :
    (s.trace.map phi).Pairwise (· ≤ ·) ∧ phi s.xc ≤ phi (O.ls.proj x0) := by
  refine run_sorted O stop maxIter hstop hreq hbind x0 s r h phi ?_
  rintro k x x' ⟨j, hx', hle⟩
  rw [hphi, hphi] at hle
  have hc := hconv k x x'
  by_cases hg : O.grad k x ⬝ᵥ (x' - x) ≤ 0
  · nlinarith
  · push Not at hg; nlinarith

/-- The bounded line search of `ProjectedGradient` for the objective below. -/
def pgExample : Opt 1 where
  ls := ⟨Bounds.projection ⟨fun _ => some 0, fun _ => none⟩, 10, 1 / 10000, 9 / 10, 1 / 2, false,
    some fun x => ∀ i, Bounds.binding (n := 1) ⟨fun _ => some 0, fun _ => none⟩ (fun _ => 1) x i⟩
  maxStep := none
  requireDecrease := true
  phi := fun _ x => (x 0 - 1) + 6 * (x 0 - 1) ^ 2
  grad := fun _ x => fun _ => 1 + 12 * (x 0 - 1)
  dir := fun _ x => fun _ => -(1 + 12 * (x 0 - 1))
  stopReq := fun _ _ => false

/-- **C25 is violated by `ProjectedGradient`.** A trial point at which every component is in the binding set
is accepted without any decrease: from `1`, with the gradient `1` and the direction `-1`, the step to the
bound `0` is taken although the objective grows from `0` to `5`. -/
theorem C25_violated_binding :
    ∃ s r, minimize pgExample [iterStopper 1] 2 (fun _ => 1) = .ok (some (s, r)) ∧
      pgExample.phi 0 (fun _ => 1) = 0 ∧ pgExample.phi 0 s.xc = 5 := by
  have hstart : start pgExample (fun _ => 1) =
      ⟨0, fun _ => 1, fun _ => 1, 0, 0, none, fun _ => 1, [fun _ => 1], [fun _ => 1]⟩ := by
    have : pgExample.ls.proj (fun _ => 1) = fun _ => 1 := by
      funext i; simp [pgExample, Bounds.projection]
    unfold start
    rw [this]
    simp [pgExample]
  have htrial : ∀ s : St 1, s.xc = (fun _ => 1) → trial pgExample.ls (lsIn pgExample s) 1 = fun _ => 0 := by
    intro s hs
    funext i
    simp [trial, lsIn, pgExample, Bounds.projection, scaleSearchDirection, hs]
  have hls : ∀ s : St 1, s.xc = (fun _ => 1) →
      modifySearchDirection pgExample.ls (lsIn pgExample s) = .ok (fun _ => 0, true, [fun _ => 0]) := by
    intro s hs
    have hc : checkStoppers (stoppersLS pgExample.ls (lsIn pgExample s) (fun _ => 0) 0) = true := by
      rw [check_iff _ _ _ _ (by simp [pgExample])]
      right
      refine ⟨_, rfl, fun i => ?_⟩
      left
      exact ⟨0, rfl, le_refl _, zero_le_one⟩
    have h10 : pgExample.ls.maxIterLS = 9 + 1 := rfl
    rw [modifySearchDirection, h10, if_neg (by norm_num), lsLoop]
    simp only [htrial s hs, hc, if_true]
    simp
  have hb1 : ∀ s : St 1, s.xc = (fun _ => 1) → s.iter = 0 → ∃ s', s'.xc = (fun _ => 0) ∧ s'.iter = 1 ∧
      body pgExample [iterStopper 1] s = .ok (s', none) := by
    intro s hs hi
    refine ⟨advance pgExample { evaluated pgExample s with
      evals := [fun _ => 0] ++ (evaluated pgExample s).evals } (fun _ => 0), rfl, ?_, ?_⟩
    · simp [advance, evaluated, hi]
    · unfold body
      have : checkStoppers ([iterStopper 1].map fun t : StopType × (St 1 → V 1 → Bool) =>
          (t.1, t.2 (evaluated pgExample s) (pgExample.grad s.iter s.xc))) = false := by
        simp [iterStopper, evaluated, hi, checkStoppers, collect]
      simp only [this, hls s hs]
      simp [pgExample]
  have hb2 : ∀ s : St 1, s.iter = 1 →
      body pgExample [iterStopper 1] s = .ok (evaluated pgExample s, some .stopped) := by
    intro s hi
    unfold body
    have : checkStoppers ([iterStopper 1].map fun t : StopType × (St 1 → V 1 → Bool) =>
        (t.1, t.2 (evaluated pgExample s) (pgExample.grad s.iter s.xc))) = true := by
      simp [iterStopper, evaluated, hi, checkStoppers, collect]
    simp only [this, if_true]
  obtain ⟨s', hx, hi, hb⟩ := hb1 (start pgExample fun _ => 1) (by rw [hstart]) (by rw [hstart])
  refine ⟨evaluated pgExample s', .stopped, ?_, by simp [pgExample], ?_⟩
  · unfold minimize loop
    rw [hb]
    simp only
    unfold loop
    rw [hb2 s' hi]
  · simp [evaluated, hx, pgExample]; norm_num

omit [NeZero n] in
/-- The first-order condition of `C25_monotone_partial` for unconstrained optimisers: it is enough
that the search direction itself does not go uphill. -/
theorem C25_descent_unconstrained [NeZero n] (O : Opt n) (hp : O.ls.proj = id)
    (hsh : 0 ≤ O.ls.shorten) (hstep : ∀ s, O.maxStep = some s → 0 ≤ s)
    (hd : ∀ k x, O.grad k x ⬝ᵥ O.dir k x ≤ 0) (k j : Nat) (x : V n) :
    O.grad k x ⬝ᵥ
      (O.ls.proj (x + O.ls.shorten ^ j • scaleSearchDirection O.maxStep (O.dir k x)) - x) ≤ 0 := by
  have hsc : ∃ c : ℝ, 0 ≤ c ∧ scaleSearchDirection O.maxStep (O.dir k x) = c • O.dir k x := by
    cases hs : O.maxStep with
    | none => exact ⟨1, by norm_num, by simp [scaleSearchDirection]⟩
    | some s => exact (C28_scaling_partial s (hstep s hs) _).1
  obtain ⟨c, hc, he⟩ := hsc
  rw [hp, he, id, add_sub_cancel_left, dotProduct_smul, dotProduct_smul, smul_eq_mul, smul_eq_mul]
  have h1 : 0 ≤ O.ls.shorten ^ j * c := by positivity
  have h2 := hd k x
  nlinarith

/-! ### C26 -/

/-- The feasible set of the bounds. -/
def Feasible (b : Bounds n) (x : V n) : Prop :=
  ∀ i, (∀ l, b.lower i = some l → l ≤ x i) ∧ (∀ u, b.upper i = some u → x i ≤ u)

/-- The bounds are consistent: the lower does not exceed the upper one. -/
def Consistent (b : Bounds n) : Prop :=
  ∀ i l u, b.lower i = some l → b.upper i = some u → l ≤ u

omit [NeZero n] in
/-- C26. The projection lands in the bounds, does not move feasible points, and is hence
idempotent; it never moves a component further from any feasible value. -/
theorem C26_projection (b : Bounds n) (hc : Consistent b) (x : V n) :
    Feasible b (b.projection x) ∧ (Feasible b x → b.projection x = x) ∧
    b.projection (b.projection x) = b.projection x ∧
    ∀ y, Feasible b y → ∀ i, |b.projection x i - y i| ≤ |x i - y i| := by
  have hf : ∀ x, Feasible b (b.projection x) := by
    intro x i
    have := hc i
    unfold Bounds.projection
    cases hl : b.lower i <;> cases hu : b.upper i <;> simp_all
  have hfix : ∀ x, Feasible b x → b.projection x = x := by
    intro x h
    funext i
    have := h i
    unfold Bounds.projection
    cases hl : b.lower i <;> cases hu : b.upper i <;> simp_all
  refine ⟨hf x, hfix x, hfix _ (hf x), ?_⟩
  intro y hy i
  have h1 := hy i
  have h2 := hc i
  unfold Bounds.projection
  cases hl : b.lower i <;> cases hu : b.upper i <;> simp_all
  · next u => rcases min_cases (x i) u with ⟨e, h⟩ | ⟨e, h⟩ <;> rw [e]
              rw [abs_of_nonneg (by linarith), abs_of_nonneg (by linarith)]; linarith
  · next l => rcases max_cases (x i) l with ⟨e, h⟩ | ⟨e, h⟩ <;> rw [e]
              rw [abs_of_nonpos (by linarith), abs_of_nonpos (by linarith)]; linarith
  · next l u =>
    rcases max_cases (x i) l with ⟨e, h⟩ | ⟨e, h⟩ <;> rw [e]
    · rcases min_cases (x i) u with ⟨e, h⟩ | ⟨e, h⟩ <;> rw [e]
      rw [abs_of_nonneg (by linarith), abs_of_nonneg (by linarith)]; linarith
    · rw [min_eq_left h2, abs_of_nonpos (by linarith), abs_of_nonpos (by linarith)]; linarith

/-- C26. In a bounded run every point at which the objective is evaluated, every accepted
iterate and the returned point satisfy the bounds, whatever the start, the objective and the
directions. -/
theorem C26_run_feasible (O : Opt n) (b : Bounds n) (hc : Consistent b)
    (hp : O.ls.proj = b.projection) (stop : Stoppers n) (maxIter : Nat)
    (hstop : iterStopper maxIter ∈ stop) (x0 : V n) (s : St n) (r : Ending)
    (h : minimize O stop (maxIter + 1) x0 = .ok (some (s, r))) :
    (∀ y ∈ s.evals, Feasible b y) ∧ (∀ y ∈ s.trace, Feasible b y) ∧ Feasible b s.xc := by
  rcases loop_inv O stop maxIter hstop (maxIter + 1) _ (start_inv O maxIter x0)
    (by simp [start]) with ⟨e, he⟩ | ⟨s', r', h1, h2⟩
  · unfold minimize at h; rw [he] at h; cases h
  · unfold minimize at h; rw [h1] at h; cases h
    have ht : ∀ y ∈ s.trace, Feasible b y := by
      intro y hy
      obtain ⟨x, rfl⟩ := h2.traceProj y hy
      rw [hp]
      exact (C26_projection b hc x).1
    refine ⟨?_, ht, ?_⟩
    · intro y hy
      rcases h2.evals y hy with h' | ⟨x, rfl⟩
      · exact ht y h'
      · rw [hp]; exact (C26_projection b hc x).1
    · obtain ⟨l, hl, -⟩ := h2.head
      exact ht _ (by rw [hl]; simp)

omit [NeZero n] in
/-- C26. On feasible points the active set is where a bound is attained, and the binding set
is the part of it where the negative gradient does not point inwards. -/
theorem C26_sets (b : Bounds n) (x g : V n) (hx : Feasible b x) (i : Fin n) :
    (b.active x i ↔ b.lower i = some (x i) ∨ b.upper i = some (x i)) ∧
    (b.binding g x i ↔ (b.lower i = some (x i) ∧ -g i ≤ 0) ∨ (b.upper i = some (x i) ∧ 0 ≤ -g i)) ∧
    (b.binding g x i → b.active x i) := by
  obtain ⟨h1, h2⟩ := hx i
  have e1 : ∀ l, b.lower i = some l → x i ≤ l → l = x i := fun l hl h => le_antisymm (h1 l hl) h
  have e2 : ∀ u, b.upper i = some u → u ≤ x i → u = x i := fun u hu h => le_antisymm h (h2 u hu)
  refine ⟨⟨?_, ?_⟩, ⟨?_, ?_⟩, ?_⟩
  · rintro (⟨l, hl, h⟩ | ⟨u, hu, h⟩)
    · left; rw [hl, e1 l hl h]
    · right; rw [hu, e2 u hu h]
  · rintro (h | h)
    · left; exact ⟨_, h, le_rfl⟩
    · right; exact ⟨_, h, le_rfl⟩
  · rintro (⟨l, hl, h, hg⟩ | ⟨u, hu, h, hg⟩)
    · left; rw [hl, e1 l hl h]; exact ⟨rfl, by linarith⟩
    · right; rw [hu, e2 u hu h]; exact ⟨rfl, by linarith⟩
  · rintro (⟨h, hg⟩ | ⟨h, hg⟩)
    · left; exact ⟨_, h, le_rfl, by linarith⟩
    · right; exact ⟨_, h, le_rfl, by linarith⟩
  · rintro (⟨l, hl, h, -⟩ | ⟨u, hu, h, -⟩)
    · left; exact ⟨l, hl, h⟩
    · right; exact ⟨u, hu, h⟩

omit [NeZero n] in
/-- For steepest descent with bounds the projected step never goes uphill to first order, so
`C25_monotone_partial` applies to it. -/
theorem C26_projected_gradient_descends (b : Bounds n) (x g : V n) (hx : Feasible b x)
    (t : ℝ) (ht : 0 ≤ t) :
    g ⬝ᵥ (b.projection (x + t • (-g)) - x) ≤ 0 := by
  apply Finset.sum_nonpos
  intro i _
  obtain ⟨h1, h2⟩ := hx i
  simp only [Pi.sub_apply]
  by_cases hg : 0 ≤ g i
  · have : b.projection (x + t • (-g)) i ≤ x i := by
      have h0 : x i + t * (-g i) ≤ x i := by nlinarith
      unfold Bounds.projection
      cases hl : b.lower i <;> cases hu : b.upper i <;> simp_all
    nlinarith
  · push Not at hg
    have : x i ≤ b.projection (x + t • (-g)) i := by
      have h0 : x i ≤ x i + t * (-g i) := by nlinarith
      unfold Bounds.projection
      cases hl : b.lower i <;> cases hu : b.upper i <;> simp_all
    nlinarith

/-- A bounded problem with a non-trivial box. -/
example : Consistent (n := 2) ⟨![some 0, none], ![some 1, some 5]⟩ := by
  intro i l u hl hu
  fin_cases i
  · simp at hl hu; linarith
  · simp at hl

/-- The default stoppers contain the iteration stopper. -/
example (L : LS n) (tolF tolX tolG eps : ℝ) (maxIter : Nat) :
    iterStopper maxIter ∈ defaultStoppers L tolF tolX tolG eps maxIter := by
  simp [defaultStoppers]

/-- Without consistency nothing can be projected into the bounds; the optimiser does not
check it. -/
theorem C26_inconsistent_bounds_accepted :
    ∃ (b : Bounds 1) (x : V 1), ¬ Feasible b (b.projection x) := by
  refine ⟨⟨fun _ => some 1, fun _ => some 0⟩, fun _ => 0, fun h => ?_⟩
  have := (h 0).1 1 rfl
  simp [Bounds.projection] at this
  norm_num at this

end Props
end Verif.Optim
