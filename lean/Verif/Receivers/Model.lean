import Verif.Basic

/-!
Model of the projection-matrix caches of receivers, `simpeg/survey.py` `BaseRx.getP`
(130-164) and `BaseTimeRx.getP` (258-279).

`L` is the type of locations, `M` of meshes, `T` of time meshes, `G` of grid names and `P`
of projection matrices; dictionary keys compare meshes by identity, modelled by equality.
-/

namespace Verif.Receivers
open Verif

/-- Mutable state of a spatial receiver: `locations` (survey.py 66-72), `storeProjections`
and the cache `_Ps`. -/
structure Rx (L M G P : Type) where
  locations : L
  store : Bool
  cache : List ((M × G) × P)

variable {L M T G P : Type}

/-- `BaseRx.__init__`: empty cache. -/
def Rx.new (l : L) (store : Bool) : Rx L M G P := ⟨l, store, []⟩

/-- `BaseRx.locations` setter (survey.py 68-72); the cache is not touched. -/
def Rx.setLocations (r : Rx L M G P) (l : L) : Rx L M G P := { r with locations := l }

/-- `BaseRx.getP` (survey.py 158-164); `interp` is `mesh.get_interpolation_matrix`. -/
def Rx.getP [DecidableEq M] [DecidableEq G] (interp : L → M → G → P) (r : Rx L M G P)
    (m : M) (g : G) : P × Rx L M G P :=
  match dictGet r.cache (m, g) with
  | some p => (p, r)
  | none =>
    let p := interp r.locations m g
    (p, if r.store then { r with cache := dictSet r.cache (m, g) p } else r)

/-- Mutable state of a time receiver (survey.py 179-210). -/
structure TimeRx (L Ti M T P : Type) where
  locations : L
  times : Ti
  store : Bool
  cache : List ((M × T) × P)

/-- A fresh time receiver. -/
def TimeRx.new {Ti : Type} (l : L) (t : Ti) (store : Bool) : TimeRx L Ti M T P :=
  ⟨l, t, store, []⟩

/-- `BaseTimeRx.getP` (survey.py 269-279); `interp l t m tm g tg` is the Kronecker product
of the temporal and the spatial interpolation matrix.  The cache key is `(mesh, time_mesh)`
only. -/
def TimeRx.getP {Ti : Type} [DecidableEq M] [DecidableEq T]
    (interp : L → Ti → M → T → G → G → P) (r : TimeRx L Ti M T P)
    (m : M) (tm : T) (g tg : G) : P × TimeRx L Ti M T P :=
  match dictGet r.cache (m, tm) with
  | some p => (p, r)
  | none =>
    let p := interp r.locations r.times m tm g tg
    (p, if r.store then { r with cache := dictSet r.cache (m, tm) p } else r)

end Verif.Receivers
