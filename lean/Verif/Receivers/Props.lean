import Verif.Receivers.Model
import Verif.Survey.Lemmas

/-! Property theorems for C06 (projection caches of receivers). -/

namespace Verif.Receivers.Props
open Verif Verif.Receivers

variable {L M T G P Ti : Type} [DecidableEq M] [DecidableEq T] [DecidableEq G]

/-- Histories on a spatial receiver: request a projection or move the receiver. -/
inductive Op (L M G : Type) where
  | getP (m : M) (g : G)
  | setLocations (l : L)

/-- Effect of one operation. -/
def step (interp : L → M → G → P) (r : Rx L M G P) : Op L M G → Rx L M G P
  | .getP m g => (r.getP interp m g).2
  | .setLocations l => r.setLocations l

/-- Run a history. -/
def run (interp : L → M → G → P) (r : Rx L M G P) : List (Op L M G) → Rx L M G P
  | [] => r
  | o :: os => run interp (step interp r o) os

theorem step_cache (interp : L → M → G → P) (r : Rx L M G P) (m : M) (g : G) (l : L)
    (hl : r.locations = l)
    (h : ∀ k p, dictGet r.cache k = some p → p = interp l k.1 k.2) :
    (r.getP interp m g).1 = interp l m g ∧ (r.getP interp m g).2.locations = l ∧
    ∀ k p, dictGet (r.getP interp m g).2.cache k = some p → p = interp l k.1 k.2 := by
  unfold Rx.getP
  split
  · rename_i p hp
    exact ⟨h _ _ hp, hl, h⟩
  · refine ⟨by rw [hl], by split <;> exact hl, ?_⟩
    intro k p hk
    split at hk
    · by_cases hkk : k = (m, g)
      · subst hkk
        rw [dictGet_dictSet_self] at hk
        injection hk with hk
        rw [← hk, hl]
      · rw [dictGet_dictSet_ne _ _ _ _ hkk] at hk; exact h k p hk
    · exact h k p hk

/-- C06 (partial: the receiver is not moved; missing: moving a receiver after a projection
was stored, refuted by `C06_moved_receiver_is_stale`): after any sequence of projection
requests, the projection returned is the one for the requested mesh and grid. -/
theorem C06_projection_cache_partial (interp : L → M → G → P) (l : L) (store : Bool)
    (h : List (Op L M G)) (hreq : ∀ o ∈ h, ∃ m g, o = .getP m g) (m : M) (g : G) :
    ((run interp (Rx.new l store) h).getP interp m g).1 = interp l m g := by
  have key : ∀ (h : List (Op L M G)) (r : Rx L M G P), (∀ o ∈ h, ∃ m g, o = .getP m g) →
      r.locations = l → (∀ k p, dictGet r.cache k = some p → p = interp l k.1 k.2) →
      (run interp r h).locations = l ∧
        ∀ k p, dictGet (run interp r h).cache k = some p → p = interp l k.1 k.2 := by
    intro h
    induction h with
    | nil => intro r _ h1 h2; exact ⟨h1, h2⟩
    | cons o os ih =>
      intro r hr h1 h2
      obtain ⟨m', g', rfl⟩ := hr o (by simp)
      have := step_cache interp r m' g' l h1 h2
      exact ih _ (fun o ho => hr o (by simp [ho])) this.2.1 this.2.2
  have := key h (Rx.new l store) hreq rfl (by intro k p hk; simp [Rx.new, dictGet] at hk)
  exact (step_cache interp _ m g l this.1 this.2).1

/-- C06: with `storeProjections=False` the projection always is the one for the current
locations, for every history including moves. -/
theorem C06_without_store_always_fresh (interp : L → M → G → P) (l : L)
    (h : List (Op L M G)) (m : M) (g : G) :
    let r := run interp (Rx.new l false) h
    (r.getP interp m g).1 = interp r.locations m g := by
  have key : ∀ (h : List (Op L M G)) (r : Rx L M G P), r.store = false → r.cache = [] →
      (run interp r h).cache = [] := by
    intro h
    induction h with
    | nil => intro r _ h2; exact h2
    | cons o os ih =>
      intro r h1 h2
      cases o with
      | getP m g =>
        have : step interp r (.getP m g) = r := by
          simp [step, Rx.getP, h2, dictGet, h1]
        simp only [run, this]; exact ih r h1 h2
      | setLocations l => exact ih _ h1 h2
  intro r
  have hc : r.cache = [] := key h (Rx.new l false) rfl rfl
  simp [Rx.getP, hc, dictGet]

/-- C06 fails in the code when a receiver is moved: the cached projection for the old
locations is returned (`interp` distinguishes the two locations). -/
theorem C06_moved_receiver_is_stale :
    ∃ (interp : Nat → Nat → Nat → Nat) (h : List (Op Nat Nat Nat)),
      let r := run interp (Rx.new 0 true) h
      (r.getP interp 5 7).1 ≠ interp r.locations 5 7 :=
  ⟨fun l _ _ => l, [.getP 5 7, .setLocations 1], by decide⟩

/-- C06 fails for every receiver that stores: once requested, the projection on a mesh and grid
stays that of the old locations, however often and wherever the receiver is moved. -/
theorem C06_moved_receiver_keeps_projection (interp : L → M → G → P) (l : L) (m : M) (g : G)
    (ls : List L) :
    ((run interp (Rx.new l true) (.getP m g :: ls.map .setLocations)).getP interp m g).1
      = interp l m g := by
  have key : ∀ (ls : List L) (r : Rx L M G P), dictGet r.cache (m, g) = some (interp l m g) →
      dictGet (run interp r (ls.map .setLocations)).cache (m, g) = some (interp l m g) := by
    intro ls
    induction ls with
    | nil => intro r h; exact h
    | cons a ls ih => intro r h; exact ih _ h
  have h := key ls (((Rx.new l true).getP interp m g).2)
    (by simp [Rx.getP, Rx.new, dictGet, dictSet])
  change (Rx.getP interp (run interp (((Rx.new l true).getP interp m g).2)
    (ls.map .setLocations)) m g).1 = _
  generalize run interp (((Rx.new l true).getP interp m g).2) (ls.map .setLocations) = r at h
  unfold Rx.getP
  rw [h]

/-- C06 fails in the code for time receivers: after a projection from one grid, a request
for another grid on the same meshes returns the first projection. -/
theorem C06_time_receiver_ignores_grid :
    ∃ (interp : Nat → Nat → Nat → Nat → Nat → Nat → Nat) (r : TimeRx Nat Nat Nat Nat Nat),
      r = TimeRx.new 0 0 true ∧
      ((r.getP interp 1 2 10 20).2.getP interp 1 2 11 20).1 ≠ interp 0 0 1 2 11 20 :=
  ⟨fun _ _ _ _ g _ => g, TimeRx.new 0 0 true, rfl, by decide⟩

/-- Run a sequence of projection requests on a time receiver. -/
def runT (interp : L → Ti → M → T → G → G → P) (r : TimeRx L Ti M T P) :
    List (M × T × G × G) → TimeRx L Ti M T P
  | [] => r
  | q :: qs => runT interp (r.getP interp q.1 q.2.1 q.2.2.1 q.2.2.2).2 qs

omit [DecidableEq G] in
/-- C06 for time receivers (partial: all requests use the same spatial and time grid, as one
receiver's requests in the library do, and the receiver is not moved; missing: requests
with different grids, refuted by `C06_time_receiver_ignores_grid`). -/
theorem C06_time_projection_cache_partial (interp : L → Ti → M → T → G → G → P)
    (l : L) (t : Ti) (store : Bool) (g tg : G) (qs : List (M × T × G × G))
    (hq : ∀ q ∈ qs, q.2.2 = (g, tg)) (m : M) (tm : T) :
    ((runT interp (TimeRx.new l t store) qs).getP interp m tm g tg).1
      = interp l t m tm g tg := by
  have hstep : ∀ (r : TimeRx L Ti M T P) (m : M) (tm : T), r.locations = l → r.times = t →
      (∀ k p, dictGet r.cache k = some p → p = interp l t k.1 k.2 g tg) →
      (r.getP interp m tm g tg).1 = interp l t m tm g tg ∧
      (r.getP interp m tm g tg).2.locations = l ∧ (r.getP interp m tm g tg).2.times = t ∧
      ∀ k p, dictGet (r.getP interp m tm g tg).2.cache k = some p →
        p = interp l t k.1 k.2 g tg := by
    intro r m tm hl ht h
    unfold TimeRx.getP
    split
    · rename_i p hp
      exact ⟨h _ _ hp, hl, ht, h⟩
    · refine ⟨by rw [hl, ht], by split <;> exact hl, by split <;> exact ht, ?_⟩
      intro k p hk
      split at hk
      · by_cases hkk : k = (m, tm)
        · subst hkk
          rw [dictGet_dictSet_self] at hk
          injection hk with hk
          rw [← hk, hl, ht]
        · rw [dictGet_dictSet_ne _ _ _ _ hkk] at hk; exact h k p hk
      · exact h k p hk
  have key : ∀ (qs : List (M × T × G × G)) (r : TimeRx L Ti M T P),
      (∀ q ∈ qs, q.2.2 = (g, tg)) → r.locations = l → r.times = t →
      (∀ k p, dictGet r.cache k = some p → p = interp l t k.1 k.2 g tg) →
      ((runT interp r qs).getP interp m tm g tg).1 = interp l t m tm g tg := by
    intro qs
    induction qs with
    | nil => intro r _ h1 h2 h3; exact (hstep r m tm h1 h2 h3).1
    | cons q qs ih =>
      intro r hq h1 h2 h3
      obtain ⟨m', tm', g', tg'⟩ := q
      have := hq _ (List.mem_cons_self)
      simp only [Prod.mk.injEq] at this
      obtain ⟨rfl, rfl⟩ := this
      have hs := hstep r m' tm' h1 h2 h3
      exact ih _ (fun q hq' => hq q (by simp [hq'])) hs.2.1 hs.2.2.1 hs.2.2.2
  exact key qs _ hq rfl rfl (by intro k p hk; simp [TimeRx.new, dictGet] at hk)

omit [DecidableEq G] in
/-- C06 for time receivers that do not store their projections: whatever was requested before,
the projection is that of the requested meshes and grids. -/
theorem C06_time_without_store_always_fresh (interp : L → Ti → M → T → G → G → P)
    (l : L) (t : Ti) (qs : List (M × T × G × G)) (m : M) (tm : T) (g tg : G) :
    ((runT interp (TimeRx.new l t false) qs).getP interp m tm g tg).1
      = interp l t m tm g tg := by
  have key : ∀ (qs : List (M × T × G × G)),
      runT interp (TimeRx.new l t false) qs = TimeRx.new l t false := by
    intro qs
    induction qs with
    | nil => rfl
    | cons q qs ih => exact ih
  rw [key]
  rfl

omit [DecidableEq G] in
/-- C06 fails for every time receiver that stores: after one request, a request on the same
meshes returns the first projection again, for whatever grids. -/
theorem C06_time_first_grid_wins (interp : L → Ti → M → T → G → G → P)
    (l : L) (t : Ti) (m : M) (tm : T) (g tg g' tg' : G) :
    ((runT interp (TimeRx.new l t true) [(m, tm, g, tg)]).getP interp m tm g' tg').1
      = interp l t m tm g tg := by
  simp [runT, TimeRx.getP, TimeRx.new, dictGet, dictSet]

example : ((run (fun l m g => (l, m, g)) (Rx.new "loc" true : Rx String Nat String _)
    [.getP 1 "Fx", .getP 2 "Fx", .getP 1 "Fy"]).getP (fun l m g => (l, m, g)) 1 "Fy").1
      = ("loc", 1, "Fy") := by decide

example : ((runT (fun l t m tm g tg => (l, t, m, tm, g, tg)) (TimeRx.new 'l' 't' true)
    [(1, 1, 'E', 'N'), (2, 1, 'E', 'N')]).getP (fun l t m tm g tg => (l, t, m, tm, g, tg))
      1 1 'E' 'N').1 = ('l', 't', 1, 1, 'E', 'N') := by decide

end Verif.Receivers.Props
