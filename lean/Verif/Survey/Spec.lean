import Verif.Survey.Model

/-! Specification vocabulary for the survey properties (independent of the loops). -/

namespace Verif.Survey.Spec
open Verif.Survey

/-- A source list as accepted by the setters: no source twice, no receiver twice within
one source.  A receiver may be shared by several sources. -/
def WellFormed (l : List Src) : Prop :=
  (l.map Src.id).Nodup ∧ ∀ s ∈ l, (s.rxs.map Rx.id).Nodup

/-- All (source, receiver) combinations in source-major order. -/
def order (l : List Src) : List (Src × Rx) :=
  l.flatMap fun s => s.rxs.map fun r => (s, r)

/-- Number of data before the `i`-th pair. -/
def before (l : List Src) (i : Nat) : Nat :=
  (((order l).take i).map fun p => p.2.nD).sum

/-- Number of data of a source list: one per receiver datum. -/
def total (l : List Src) : Nat :=
  ((order l).map fun p => p.2.nD).sum

/-- The pair (source, receiver) given by identities is part of the survey. -/
def Contains (l : List Src) (a b : Nat) : Prop :=
  ∃ s ∈ l, s.id = a ∧ ∃ r ∈ s.rxs, r.id = b

end Verif.Survey.Spec
