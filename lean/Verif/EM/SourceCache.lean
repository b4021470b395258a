import Verif.Basic
import Mathlib.Algebra.Module.Basic
import Mathlib.Data.Real.Basic
import Mathlib.Tactic.NormNum
import Mathlib.Tactic.Linarith

/-!
What the electromagnetic sources remember between evaluations
(`simpeg/electromagnetics/time_domain/sources.py` 1227-1832 and
`simpeg/electromagnetics/frequency_domain/sources.py` 361-586, 700-717, 880-902, 1227-1355).

The same source object can be given to several simulations and its attributes can be assigned.  The
discretisation on the mesh and the analytic potentials of `geoana` are left open: only which quantity is
computed from which other ones, and what is kept, is modelled.
-/

namespace Verif.EM.SourceCache

/-- An assignment of attributes, or an evaluation. -/
inductive Op (U Q : Type) where
  | set (u : U)
  | call (q : Q)

/-- A class of objects: attributes `A` changed by assignments `U`, which may be refused, and a memory `C`
read and written by the evaluations `Q`. -/
structure Cls (A U C Q R : Type) where
  upd : A → U → Except Err A
  call : A → C → Q → C × R

variable {A U C Q R : Type}

/-- The attributes after an assignment; a refused assignment leaves the object as it is. -/
def Cls.assign (k : Cls A U C Q R) (a : A) (u : U) : A :=
  match k.upd a u with
  | .ok a' => a'
  | .error _ => a

/-- One operation on the object. -/
def Cls.step (k : Cls A U C Q R) (s : A × C) : Op U Q → A × C
  | .set u => (k.assign s.1 u, s.2)
  | .call q => (s.1, (k.call s.1 s.2 q).1)

/-- A history of operations. -/
def Cls.run (k : Cls A U C Q R) (s : A × C) (h : List (Op U Q)) : A × C := h.foldl k.step s

/-- What an evaluation returns after a history. -/
def Cls.value (k : Cls A U C Q R) (s : A × C) (h : List (Op U Q)) (q : Q) : R :=
  (k.call (k.run s h).1 (k.run s h).2 q).2

/-! ### The sources -/

/-- The discretisation of a wire: `segmented_line_current_source_term` and `line_through_faces`. -/
structure Wires (Mesh Path X : Type) where
  edges : Mesh → Path → X
  faces : Mesh → Path → X

/-- `location` and `current` of a `LineCurrent`. -/
structure LineAttr (Path : Type) where
  location : Path
  current : ℝ

inductive LineSet (Path : Type) where
  | location (l : Path)
  | current (c : ℝ)

/-- `_Mejs` and `_Mfjs`. -/
structure LineMem (X : Type) where
  mejs : Option X := none
  mfjs : Option X := none

/-- `Mejs(simulation)` and `Mfjs(simulation)`. -/
inductive LineCall (Mesh : Type) where
  | mejs (mesh : Mesh)
  | mfjs (mesh : Mesh)

open Classical in
/-- `LineCurrent` (time domain 1747-1832, frequency domain 1273-1355).  The setter of the current refuses
zero; the validation of the shape of the locations is left out. -/
noncomputable def lineCurrent {Mesh Path X : Type} [AddCommGroup X] [Module ℝ X] (w : Wires Mesh Path X) :
    Cls (LineAttr Path) (LineSet Path) (LineMem X) (LineCall Mesh) X where
  upd := fun a u => match u with
    | .location l => .ok { a with location := l }
    | .current c => if c = 0 then .error .valueError else .ok { a with current := c }
  call := fun a m q => match q with
    | .mejs mesh =>
      let v := match m.mejs with
        | some v => v
        | none => w.edges mesh a.location
      ({ m with mejs := some v }, a.current • v)
    | .mfjs mesh =>
      let v := match m.mfjs with
        | some v => v
        | none => w.faces mesh a.location
      ({ m with mfjs := some v }, a.current • v)

/-- The attributes of a magnetic dipole, the arguments of `MagneticDipoleWholeSpace`. -/
structure DipAttr (V : Type) where
  mu : ℝ
  orientation : V
  location : V
  moment : ℝ

inductive DipSet (V : Type) where
  | mu (x : ℝ)
  | orientation (v : V)
  | location (v : V)
  | moment (x : ℝ)

/-- What a magnetic dipole uses of a simulation in the EB formulation: the vector potential of a dipole on
the edges, the curl and its transpose, the mass matrix of the faces with a constant and its inverse, whether
the permeability is the given constant, and the solution of the magnetostatic problem. -/
structure DipWorld (Sim V X : Type) where
  mu0 : ℝ
  pot : DipAttr V → Sim → X
  curl : Sim → X → X
  curlT : Sim → X → X
  mass : Sim → ℝ → X → X
  massI : Sim → ℝ → X → X
  homog : Sim → ℝ → Bool
  stat : Sim → (X → X) → X → X

/-- `_dipole` (the arguments with which the geoana object was made), `_hp` and `_MfMuipI`. -/
structure DipMem (V X : Type) where
  dipole : Option (DipAttr V) := none
  hp : Option (X × (X → X)) := none

/-- `_bSrc`, the factor of the waveform in `s_e`, and `bInitial` with initial fields. -/
inductive DipCall (Sim : Type) where
  | b (sim : Sim)
  | se (sim : Sim)
  | init (sim : Sim)

variable {Sim V X : Type}

open Classical in
/-- The setters of `MagDipole` (1265-1327): the moment must be positive in the time domain (`strict`) and
not negative in the frequency domain, the permeability at least that of vacuum.  The validation of vectors
is left out. -/
noncomputable def DipAttr.upd (mu0 : ℝ) (strict : Bool) (a : DipAttr V) : DipSet V → Except Err (DipAttr V)
  | .mu x => if mu0 ≤ x then .ok { a with mu := x } else .error .valueError
  | .orientation v => .ok { a with orientation := v }
  | .location v => .ok { a with location := v }
  | .moment x => if 0 < x ∨ (strict = false ∧ x = 0) then .ok { a with moment := x } else .error .valueError

/-- `_srcFct` (1329-1339) and `_aSrc` (1341-1360). -/
def dipPot (w : DipWorld Sim V X) (a : DipAttr V) (m : DipMem V X) (s : Sim) : DipMem V X × X :=
  let d := match m.dipole with
    | some d => d
    | none => a
  ({ m with dipole := some d }, w.pot d s)

/-- `MagDipole` of the time domain in the EB formulation (1329-1553). -/
noncomputable def dipoleTD (w : DipWorld Sim V X) :
    Cls (DipAttr V) (DipSet V) (DipMem V X) (DipCall Sim) X where
  upd := DipAttr.upd w.mu0 true
  call := fun a m q => match q with
    | .b s =>
      let r := dipPot w a m s
      (r.1, w.curl s r.2)
    | .se s =>
      let r := dipPot w a m s
      (r.1, w.curlT s (w.mass s (1 / a.mu) (w.curl s r.2)))
    | .init s =>
      if w.homog s a.mu then
        let r := dipPot w a m s
        (r.1, w.curl s r.2)
      else
        match m.hp with
        | some (hp, mi) => (m, w.stat s mi hp)
        | none =>
          let r := dipPot w a m s
          let hp := w.mass s (1 / a.mu) (w.curl s r.2)
          ({ r.1 with hp := some (hp, w.massI s (1 / a.mu)) }, w.stat s (w.massI s (1 / a.mu)) hp)

/-- The instance dictionary of an object: names and dipoles. -/
abbrev Dict (V : Type) := List (String × DipAttr V)

/-- The property `_dipole` of the `MagDipole` of the frequency domain (469-478), in which `self.__dipole` is
the attribute `_MagDipole__dipole` and the string given to `getattr` is not mangled. -/
def dipoleProp (a : DipAttr V) (d : Dict V) : Dict V × DipAttr V :=
  let d := match d.lookup "__dipole" with
    | some _ => d
    | none => ("_MagDipole__dipole", a) :: d
  match d.lookup "_MagDipole__dipole" with
  | some x => (d, x)
  | none => (d, a)

/-- The memory of a dipole of the frequency domain: the dictionary and `_1d_h`. -/
structure FdMem (V X : Type) where
  dict : Dict V := []
  h1d : Option X := none

/-- `_srcFct` with a grid, and `hPrimary` in one dimension. -/
inductive FdCall (Grid : Type) where
  | src (g : Grid)
  | h1d

/-- `MagDipole` (`out` is the vector potential) and `MagDipole_Bfield` (`out` is the magnetic flux density)
of the frequency domain (469-483, 543-555, 708-718); in the latter `getattr(self, "_dipole")` is the property.
`prim` is the magnetic field at the receivers. -/
noncomputable def dipoleFD {Grid : Type} (mu0 : ℝ) (out : DipAttr V → Grid → X) (prim : DipAttr V → X) :
    Cls (DipAttr V) (DipSet V) (FdMem V X) (FdCall Grid) X where
  upd := DipAttr.upd mu0 false
  call := fun a m q => match q with
    | .src g =>
      let r := dipoleProp a m.dict
      ({ m with dict := r.1 }, out r.2 g)
    | .h1d => match m.h1d with
      | some h => (m, h)
      | none =>
        let r := dipoleProp a m.dict
        ({ dict := r.1, h1d := some (prim r.2) }, prim r.2)

/-- The attributes given to `CircularLoopWholeSpace`. -/
structure LoopArgs (V : Type) where
  mu : ℝ
  orientation : V
  location : V
  radius : ℝ
  current : ℝ

/-- The attributes of a `CircularLoop`. -/
structure LoopAttr (V : Type) where
  args : LoopArgs V
  nTurns : ℕ

inductive LoopSet (V : Type) where
  | mu (x : ℝ)
  | orientation (v : V)
  | location (v : V)
  | radius (x : ℝ)
  | current (x : ℝ)
  | nTurns (n : ℤ)

open Classical in
/-- `CircularLoop` (time domain 1611-1698, frequency domain 803-902): `_srcFct`; the memory is the arguments
of the geoana object `_loop`. -/
noncomputable def circularLoop {Grid : Type} [AddCommGroup X] [Module ℝ X] (mu0 : ℝ)
    (pot : LoopArgs V → Grid → X) :
    Cls (LoopAttr V) (LoopSet V) (Option (LoopArgs V)) Grid X where
  upd := fun a u => match u with
    | .mu x => if mu0 ≤ x then .ok { a with args := { a.args with mu := x } } else .error .valueError
    | .orientation v => .ok { a with args := { a.args with orientation := v } }
    | .location v => .ok { a with args := { a.args with location := v } }
    | .radius x => if 0 < x then .ok { a with args := { a.args with radius := x } } else .error .valueError
    | .current x => if x = 0 then .error .valueError else .ok { a with args := { a.args with current := x } }
    | .nTurns n => if 1 ≤ n then .ok { a with nTurns := n.toNat } else .error .valueError
  call := fun a m g =>
    let l := match m with
      | some l => l
      | none => a.args
    (some l, (a.nTurns : ℝ) • pot l g)

end Verif.EM.SourceCache

namespace Verif.EM.SourceCache.Spec

/-- The evaluations of a history, each with the attributes the object had, when a refused assignment changes
nothing. -/
def calls {A U Q : Type} (upd : A → U → Except Err A) : A → List (Op U Q) → List (A × Q)
  | _, [] => []
  | a, .set u :: h => calls upd (match upd a u with | .ok a' => a' | .error _ => a) h
  | a, .call q :: h => (a, q) :: calls upd a h

/-- The attributes at the end of a history. -/
def final {A U Q : Type} (upd : A → U → Except Err A) : A → List (Op U Q) → A
  | a, [] => a
  | a, .set u :: h => final upd (match upd a u with | .ok a' => a' | .error _ => a) h
  | a, .call _ :: h => final upd a h

/-- The value of the source term of a wire. -/
noncomputable def line {Mesh Path X : Type} [AddCommGroup X] [Module ℝ X] (w : Wires Mesh Path X)
    (a : LineAttr Path) : LineCall Mesh → X
  | .mejs mesh => a.current • w.edges mesh a.location
  | .mfjs mesh => a.current • w.faces mesh a.location

/-- The values of a magnetic dipole. -/
noncomputable def dipole {Sim V X : Type} (w : DipWorld Sim V X) (a : DipAttr V) : DipCall Sim → X
  | .b s => w.curl s (w.pot a s)
  | .se s => w.curlT s (w.mass s (1 / a.mu) (w.curl s (w.pot a s)))
  | .init s => if w.homog s a.mu then w.curl s (w.pot a s)
      else w.stat s (w.massI s (1 / a.mu)) (w.mass s (1 / a.mu) (w.curl s (w.pot a s)))

end Verif.EM.SourceCache.Spec

namespace Verif.EM.SourceCache.Props
open Verif.EM.SourceCache

variable {A U C Q R : Type}

theorem run_attr (k : Cls A U C Q R) (a : A) (c : C) (h : List (Op U Q)) :
    (k.run (a, c) h).1 = Spec.final k.upd a h := by
  induction h generalizing a c with
  | nil => rfl
  | cons o h ih => cases o <;> simp only [Cls.run, List.foldl_cons] <;> exact ih _ _

/-- An invariant of the memory which every evaluation of the history keeps. -/
theorem run_inv (k : Cls A U C Q R) (I : C → Prop) (a : A) (c : C) (h : List (Op U Q)) (h0 : I c)
    (hs : ∀ x ∈ Spec.calls k.upd a h, ∀ c, I c → I (k.call x.1 c x.2).1) : I (k.run (a, c) h).2 := by
  induction h generalizing a c with
  | nil => exact h0
  | cons o h ih =>
    cases o with
    | set u => exact ih _ _ h0 hs
    | call q =>
      refine ih _ _ (hs (a, q) (by simp [Spec.calls]) c h0) fun x hx => hs x ?_
      simp [Spec.calls, hx]

section line
variable {Mesh Path X : Type} [AddCommGroup X] [Module ℝ X]

/-- **C79, wires.** A `LineCurrent` evaluated after any history gives the source term of its present path on
the mesh it is given, times its present current, if the earlier evaluations were on that mesh and with that
path (whatever the current was).  Missing: other meshes and paths, which violate it. -/
theorem C79_line_current_partial (w : Wires Mesh Path X) (a : LineAttr Path)
    (h : List (Op (LineSet Path) (LineCall Mesh))) (q : LineCall Mesh)
    (hsame : ∀ x ∈ Spec.calls (lineCurrent w).upd a h,
      x.1.location = (Spec.final (lineCurrent w).upd a h).location ∧
      ∀ mesh mesh', (x.2 = .mejs mesh' ∨ x.2 = .mfjs mesh') → (q = .mejs mesh ∨ q = .mfjs mesh) →
        mesh' = mesh) :
    (lineCurrent w).value (a, {}) h q = Spec.line w (Spec.final (lineCurrent w).upd a h) q := by
  set f := Spec.final (lineCurrent w).upd a h with hf
  obtain ⟨mesh, hq⟩ : ∃ mesh, q = .mejs mesh ∨ q = .mfjs mesh := by cases q <;> simp
  have hI := run_inv (lineCurrent w)
    (fun c => (∀ v, c.mejs = some v → v = w.edges mesh f.location) ∧
      ∀ v, c.mfjs = some v → v = w.faces mesh f.location) a {} h (by simp) (by
    rintro ⟨b, q'⟩ hx c ⟨h1, h2⟩
    obtain ⟨hl, hm⟩ := hsame _ hx
    simp only at hl hm
    cases q' with
    | mejs mesh' =>
      obtain rfl := hm mesh mesh' (.inl rfl) hq
      refine ⟨?_, h2⟩
      intro v hv
      simp only [lineCurrent, Option.some.injEq] at hv
      cases hc : c.mejs with
      | none => rw [hc] at hv; simp only at hv; rw [← hv, hl]
      | some v' => rw [hc] at hv; simp only at hv; rw [← hv]; exact h1 _ hc
    | mfjs mesh' =>
      obtain rfl := hm mesh mesh' (.inr rfl) hq
      refine ⟨h1, ?_⟩
      intro v hv
      simp only [lineCurrent, Option.some.injEq] at hv
      cases hc : c.mfjs with
      | none => rw [hc] at hv; simp only at hv; rw [← hv, hl]
      | some v' => rw [hc] at hv; simp only at hv; rw [← hv]; exact h2 _ hc)
  have ha := run_attr (lineCurrent w) a {} h
  rw [← hf] at ha
  unfold Cls.value
  rw [ha]
  rcases hq with rfl | rfl
  · cases hc : ((lineCurrent w).run (a, {}) h).2.mejs with
    | none => simp [lineCurrent, Spec.line] at hc ⊢; rw [hc]
    | some v => have := hI.1 v hc; simp only [lineCurrent, Spec.line] at hc ⊢; rw [hc, this]
  · cases hc : ((lineCurrent w).run (a, {}) h).2.mfjs with
    | none => simp [lineCurrent, Spec.line] at hc ⊢; rw [hc]
    | some v => have := hI.2 v hc; simp only [lineCurrent, Spec.line] at hc ⊢; rw [hc, this]

/-- **C79, the current of a wire.** After any history, assigning a current that is not zero makes the
following evaluations those of that current; assigning zero is refused. -/
theorem C79_line_set_current (w : Wires Mesh Path X) (a : LineAttr Path)
    (h : List (Op (LineSet Path) (LineCall Mesh))) (q : LineCall Mesh) (c : ℝ) :
    (c ≠ 0 → (Spec.final (lineCurrent w).upd a h).current ≠ 0 →
      (lineCurrent w).value (a, {}) (h ++ [.set (.current c)]) q =
        (c / (Spec.final (lineCurrent w).upd a h).current) • (lineCurrent w).value (a, {}) h q) ∧
    (lineCurrent w).upd a (.current 0) = .error .valueError := by
  refine ⟨fun hc hn => ?_, by simp [lineCurrent]⟩
  rw [← run_attr (lineCurrent w) a {} h] at hn ⊢
  unfold Cls.value
  simp only [Cls.run, List.foldl_append, List.foldl_cons, List.foldl_nil]
  change (List.foldl (lineCurrent w).step (a, {}) h).1.current ≠ 0 at hn
  generalize List.foldl (lineCurrent w).step (a, {}) h = s at hn ⊢
  have : (lineCurrent w).step s (.set (.current c)) = ({ s.1 with current := c }, s.2) := by
    simp [Cls.step, Cls.assign, lineCurrent, hc]
  rw [this]
  cases q <;> simp only [lineCurrent, smul_smul, div_mul_cancel₀ _ hn]

/-- **C79 is violated, wires on two meshes or with a new path.** Whatever the meshes and the paths are, the
source term of the first evaluation is kept. -/
theorem C79_violated_line_current (w : Wires Mesh Path X) (a : LineAttr Path) (mesh mesh' : Mesh)
    (l : Path) :
    (lineCurrent w).value (a, {}) [.call (.mejs mesh), .set (.location l)] (.mejs mesh') =
      a.current • w.edges mesh a.location := rfl

/-- Two meshes with different terms: the value is not the one of the specification. -/
example : ∃ (w : Wires Bool Unit ℝ) (a : LineAttr Unit),
    (lineCurrent w).value (a, {}) [.call (.mejs true)] (.mejs false) ≠ Spec.line w a (.mejs false) := by
  refine ⟨⟨fun b _ => if b then 1 else 2, fun _ _ => 0⟩, ⟨(), 1⟩, ?_⟩
  have : (lineCurrent (⟨fun b _ => if b then 1 else 2, fun _ _ => 0⟩ : Wires Bool Unit ℝ)).value
      (⟨(), 1⟩, {}) [.call (.mejs true)] (.mejs false) = (1 : ℝ) • (1 : ℝ) := rfl
  rw [this]
  simp [Spec.line]

/-- A history that meets the hypotheses: evaluations on one mesh and changes of the current. -/
example : (lineCurrent (⟨fun _ x => x, fun _ x => 3 * x⟩ : Wires Unit ℝ ℝ)).value (⟨5, 1⟩, {})
    [.set (.location 2), .call (.mejs ()), .set (.current 4), .call (.mfjs ()), .set (.current 0)]
    (.mfjs ()) = 24 := by
  rw [C79_line_current_partial]
  · simp [Spec.line, Spec.final, lineCurrent]; norm_num
  · intro x hx
    simp [Spec.calls, Spec.final, lineCurrent] at hx ⊢
    rcases hx with rfl | rfl <;> rfl

end line

section dipole
variable {Sim V X : Type}

/-- **C79, magnetic dipoles of the time domain.** A dipole evaluated after any history gives the values for
its present attributes and the given simulation, if the earlier evaluations were made with these attributes
and, for an initial field with a varying permeability, the earlier ones of this kind were for the same
simulation.  Missing: other histories, which violate it. -/
theorem C79_dipole_partial (w : DipWorld Sim V X) (a : DipAttr V)
    (h : List (Op (DipSet V) (DipCall Sim))) (q : DipCall Sim)
    (hsame : ∀ x ∈ Spec.calls (dipoleTD w).upd a h,
      x.1 = Spec.final (dipoleTD w).upd a h ∧
      ∀ s s', x.2 = .init s' → q = .init s → w.homog s' x.1.mu = false →
        w.homog s x.1.mu = false → s' = s) :
    (dipoleTD w).value (a, {}) h q = Spec.dipole w (Spec.final (dipoleTD w).upd a h) q := by
  set f := Spec.final (dipoleTD w).upd a h with hf
  have hI := run_inv (dipoleTD w)
    (fun c => (∀ d, c.dipole = some d → d = f) ∧
      ∀ s, q = .init s → w.homog s f.mu = false → ∀ v, c.hp = some v →
        v = (w.mass s (1 / f.mu) (w.curl s (w.pot f s)), w.massI s (1 / f.mu))) a {} h (by simp) (by
    rintro ⟨b, q'⟩ hx c ⟨h1, h2⟩
    obtain ⟨hl, hm⟩ := hsame _ hx
    simp only at hl hm
    subst hl
    have hp : ∀ s, (dipPot w f c s).1 = { c with dipole := some f } ∧ (dipPot w f c s).2 = w.pot f s := by
      intro s
      unfold dipPot
      cases hc : c.dipole with
      | none => simp
      | some d => simp [h1 d hc]
    cases q' with
    | b s => simp only [dipoleTD, hp]; exact ⟨by simp, h2⟩
    | se s => simp only [dipoleTD, hp]; exact ⟨by simp, h2⟩
    | init s' =>
      by_cases hh : w.homog s' f.mu = true
      · simp only [dipoleTD, hp, hh, if_true]; exact ⟨by simp, h2⟩
      · have hh' : w.homog s' f.mu = false := by simpa using hh
        cases hc : c.hp with
        | some v => simp only [dipoleTD, hh', hc]; exact ⟨h1, h2⟩
        | none =>
          simp only [dipoleTD, hh', hc, hp, Bool.false_eq_true, if_false]
          refine ⟨by simp, ?_⟩
          intro s hs hs' v hv
          obtain rfl := hm s s' rfl hs hh' hs'
          simp only [Option.some.injEq] at hv
          exact hv.symm)
  have ha := run_attr (dipoleTD w) a {} h
  rw [← hf] at ha
  unfold Cls.value
  rw [ha]
  generalize ((dipoleTD w).run (a, {}) h).2 = c at hI ⊢
  have hp : ∀ s, (dipPot w f c s).2 = w.pot f s := by
    intro s
    unfold dipPot
    cases hc : c.dipole with
    | none => simp
    | some d => simp [hI.1 d hc]
  cases q with
  | b s => simp only [dipoleTD, hp, Spec.dipole]
  | se s => simp only [dipoleTD, hp, Spec.dipole]
  | init s =>
    cases hh : w.homog s f.mu with
    | true => simp only [dipoleTD, hp, Spec.dipole, hh, if_true]
    | false =>
      cases hc : c.hp with
      | none => simp [dipoleTD, hp, Spec.dipole, hh, hc]
      | some v =>
        have := hI.2 s rfl hh v hc
        subst this
        simp [dipoleTD, Spec.dipole, hh, hc]

/-- **C79 is violated, magnetic dipoles of the time domain.** After a first evaluation the moment, the
location and the orientation can be assigned without any effect on the flux density; the permeability has an
effect on the magnetic field only, and no longer on the flux density from which it is computed. -/
theorem C79_violated_dipole (w : DipWorld Sim V X) (a : DipAttr V) (s s' : Sim)
    (us : List (DipSet V)) :
    (dipoleTD w).value (a, {}) (.call (.b s) :: us.map .set) (.b s') = w.curl s' (w.pot a s') := by
  have : ∀ (us : List (DipSet V)) (b : DipAttr V) (c : DipMem V X),
      ((dipoleTD w).run (b, c) (us.map .set)).2 = c := by
    intro us
    induction us with
    | nil => intro b c; rfl
    | cons u us ih => intro b c; exact ih _ _
  unfold Cls.value
  have h1 : (dipoleTD w).run (a, {}) (.call (.b s) :: us.map .set) =
      (dipoleTD w).run (a, { dipole := some a }) (us.map .set) := rfl
  rw [h1]
  have h2 := this us a { dipole := some a }
  generalize (dipoleTD w).run (a, { dipole := some a }) (us.map .set) = r at h2
  obtain ⟨b, c⟩ := r
  simp only at h2
  subst h2
  rfl

/-- A dipole whose moment is doubled. -/
example : ∃ (w : DipWorld Unit Unit ℝ) (a : DipAttr Unit),
    (dipoleTD w).value (a, {}) [.call (.b ()), .set (.moment 2)] (.b ()) = 1 ∧
    Spec.dipole w (Spec.final (dipoleTD w).upd a
      ([.call (.b ()), .set (.moment 2)] : List (Op (DipSet Unit) (DipCall Unit)))) (.b ()) = 2 := by
  refine ⟨⟨1, fun a _ => a.moment, fun _ x => x, fun _ x => x, fun _ _ x => x, fun _ _ x => x,
    fun _ _ => true, fun _ _ x => x⟩, ⟨1, (), (), 1⟩, rfl, ?_⟩
  simp [Spec.dipole, Spec.final, dipoleTD, DipAttr.upd]

/-- **C79 is violated, initial fields with a varying permeability.** The background field of the first
simulation is used for the second one. -/
theorem C79_violated_dipole_initial (w : DipWorld Sim V X) (a : DipAttr V) (s s' : Sim)
    (hs : w.homog s a.mu = false) (hs' : w.homog s' a.mu = false) :
    (dipoleTD w).value (a, {}) [.call (.init s)] (.init s') =
      w.stat s' (w.massI s (1 / a.mu)) (w.mass s (1 / a.mu) (w.curl s (w.pot a s))) := by
  simp [Cls.value, Cls.run, Cls.step, dipoleTD, hs, hs', dipPot]

/-- Two simulations. -/
example : ∃ (w : DipWorld ℝ Unit ℝ) (a : DipAttr Unit), w.homog 1 a.mu = false ∧ w.homog 2 a.mu = false ∧
    w.stat 2 (w.massI 1 (1 / a.mu)) (w.mass 1 (1 / a.mu) (w.curl 1 (w.pot a 1))) ≠
      Spec.dipole w a (.init 2) := by
  refine ⟨⟨1, fun a s => s * a.moment, fun _ x => x, fun _ x => x, fun _ _ x => x, fun _ _ x => x,
    fun _ _ => false, fun _ _ x => x⟩, ⟨1, (), (), 1⟩, rfl, rfl, ?_⟩
  simp [Spec.dipole]

/-- A history that meets the hypotheses. -/
example (w : DipWorld Sim V X) (a : DipAttr V) (s s' : Sim) (l : V) :
    (dipoleTD w).value (a, {}) [.set (.location l), .call (.se s), .call (.b s'), .call (.init s)]
      (.init s) = Spec.dipole w { a with location := l } (.init s) := by
  rw [C79_dipole_partial]
  · rfl
  · intro x hx
    simp [Spec.calls, Spec.final, dipoleTD, DipAttr.upd] at hx ⊢
    rcases hx with rfl | rfl | rfl <;> simp

variable {Grid : Type}

/-- **C79, magnetic dipoles of the frequency domain.** After any history the field of a dipole on a grid is
that of its present attributes. -/
theorem C79_dipole_frequency (mu0 : ℝ) (out : DipAttr V → Grid → X) (prim : DipAttr V → X) (a : DipAttr V)
    (h : List (Op (DipSet V) (FdCall Grid))) (g : Grid) :
    (dipoleFD mu0 out prim).value (a, {}) h (.src g) =
      out (Spec.final (DipAttr.upd mu0 false) a h) g := by
  have hp : ∀ (b : DipAttr V) (d : Dict V), d.lookup "__dipole" = none →
      (dipoleProp b d).2 = b ∧ (dipoleProp b d).1.lookup "__dipole" = none := by
    intro b d hd
    simp [dipoleProp, hd, List.lookup_cons]
  have hI := run_inv (dipoleFD mu0 out prim) (fun c => c.dict.lookup "__dipole" = none) a {} h (by rfl) (by
    rintro ⟨b, q'⟩ _ c hc
    cases q' with
    | src g => exact (hp b _ hc).2
    | h1d =>
      cases h1 : c.h1d with
      | none => simp only [dipoleFD, h1]; exact (hp b _ hc).2
      | some v => simp only [dipoleFD, h1]; exact hc)
  have ha := run_attr (dipoleFD mu0 out prim) a {} h
  unfold Cls.value
  rw [ha]
  exact congrArg (fun d => out d g) (hp _ _ hI).1

/-- **C79, primary fields of the one-dimensional simulations.** They are those of the present attributes
if the earlier evaluations of the primary field were made with these.  Missing: other histories, which
violate it. -/
theorem C79_dipole_primary_partial (mu0 : ℝ) (out : DipAttr V → Grid → X) (prim : DipAttr V → X)
    (a : DipAttr V) (h : List (Op (DipSet V) (FdCall Grid)))
    (hsame : ∀ x ∈ Spec.calls (DipAttr.upd mu0 false) a h, x.2 = .h1d →
      x.1 = Spec.final (DipAttr.upd mu0 false) a h) :
    (dipoleFD mu0 out prim).value (a, {}) h .h1d = prim (Spec.final (DipAttr.upd mu0 false) a h) := by
  set f := Spec.final (DipAttr.upd mu0 false) a h with hf
  have hp : ∀ (b : DipAttr V) (d : Dict V), d.lookup "__dipole" = none →
      (dipoleProp b d).2 = b ∧ (dipoleProp b d).1.lookup "__dipole" = none := by
    intro b d hd
    simp [dipoleProp, hd, List.lookup_cons]
  have hI := run_inv (dipoleFD mu0 out prim)
    (fun c => c.dict.lookup "__dipole" = none ∧ ∀ v, c.h1d = some v → v = prim f) a {} h
    ⟨rfl, by simp⟩ (by
    rintro ⟨b, q'⟩ hx c ⟨hc, hv⟩
    cases q' with
    | src g => exact ⟨(hp b _ hc).2, hv⟩
    | h1d =>
      cases h1 : c.h1d with
      | none =>
        simp only [dipoleFD, h1]
        refine ⟨(hp b _ hc).2, ?_⟩
        intro v hv
        simp only [Option.some.injEq] at hv
        rw [← hv, (hp b _ hc).1]
        exact congrArg prim (hsame _ hx rfl)
      | some v =>
        have : ((dipoleFD mu0 out prim).call b c .h1d).1 = c := by simp only [dipoleFD, h1]
        rw [this]
        exact ⟨hc, hv⟩)
  have ha := run_attr (dipoleFD mu0 out prim) a {} h
  unfold Cls.value
  rw [ha]
  change ((dipoleFD mu0 out prim).call f _ _).2 = _
  generalize ((dipoleFD mu0 out prim).run (a, {}) h).2 = c at hI ⊢
  cases h1 : c.h1d with
  | none => simp only [dipoleFD, h1, (hp _ _ hI.1).1]
  | some v => simp only [dipoleFD, h1]; exact hI.2 v h1

/-- **C79 is violated, primary fields of the one-dimensional simulations.** They are kept when the moment is
assigned. -/
theorem C79_violated_dipole_primary (mu0 : ℝ) (out : DipAttr V → Grid → X) (prim : DipAttr V → X)
    (a : DipAttr V) (u : DipSet V) :
    (dipoleFD mu0 out prim).value (a, {}) [.call .h1d, .set u] .h1d = prim a := rfl

/-- Assignments are respected by the field on a grid. -/
example : (dipoleFD 1 (fun a (_ : Unit) => a.moment) (fun a => a.moment)).value
    ((⟨1, (), (), 1⟩ : DipAttr Unit), {}) [.call (.src ()), .set (.moment 3), .call (.src ())] (.src ()) =
      3 := by
  rw [C79_dipole_frequency]
  simp [Spec.final, DipAttr.upd]

end dipole

section loop
variable {Grid V X : Type} [AddCommGroup X] [Module ℝ X]

/-- **C79, loops.** A circular loop evaluated after any history gives the potential of its present
attributes times its present number of turns, if the earlier evaluations were made with these attributes
(whatever the number of turns was).  Missing: other histories, which violate it. -/
theorem C79_loop_partial (mu0 : ℝ) (pot : LoopArgs V → Grid → X) (a : LoopAttr V)
    (h : List (Op (LoopSet V) Grid)) (g : Grid)
    (hsame : ∀ x ∈ Spec.calls (circularLoop mu0 pot).upd a h,
      x.1.args = (Spec.final (circularLoop mu0 pot).upd a h).args) :
    (circularLoop mu0 pot).value (a, none) h g =
      ((Spec.final (circularLoop mu0 pot).upd a h).nTurns : ℝ) •
        pot (Spec.final (circularLoop mu0 pot).upd a h).args g := by
  set f := Spec.final (circularLoop mu0 pot).upd a h with hf
  have hI := run_inv (circularLoop mu0 pot) (fun c => ∀ v, c = some v → v = f.args) a none h
    (by simp) (by
    rintro ⟨b, q'⟩ hx c hc v hv
    simp only [circularLoop, Option.some.injEq] at hv
    cases c with
    | none => exact hv ▸ hsame _ hx
    | some v' => exact hv ▸ hc v' rfl)
  have ha := run_attr (circularLoop mu0 pot) a none h
  rw [← hf] at ha
  unfold Cls.value
  rw [ha]
  generalize ((circularLoop mu0 pot).run (a, none) h).2 = c at hI ⊢
  cases c with
  | none => rfl
  | some v => simp only [circularLoop, hI v rfl]

/-- **C79 is violated, loops.** After a first evaluation the current, the radius and the location can be
assigned without any effect. -/
theorem C79_violated_loop (mu0 : ℝ) (pot : LoopArgs V → Grid → X) (a : LoopAttr V) (g g' : Grid) (c : ℝ) :
    (circularLoop mu0 pot).value (a, none) [.call g, .set (.current c)] g' =
      (a.nTurns : ℝ) • pot a.args g' := by
  by_cases hc : c = 0 <;> simp [Cls.value, Cls.run, Cls.step, Cls.assign, circularLoop, hc]

/-- The turns are respected, the current is not. -/
example : (circularLoop 1 (fun l (_ : Unit) => l.current)).value
    ((⟨⟨1, (), (), 1, 5⟩, 1⟩ : LoopAttr Unit), none) [.call (), .set (.nTurns 3), .set (.nTurns 0)] () = 15 ∧
    (circularLoop 1 (fun l (_ : Unit) => l.current)).value
    ((⟨⟨1, (), (), 1, 5⟩, 1⟩ : LoopAttr Unit), none) [.call (), .set (.current 7)] () = 5 := by
  refine ⟨?_, ?_⟩
  · rw [C79_loop_partial]
    · simp [Spec.final, circularLoop]; norm_num
    · intro x hx
      simp [Spec.calls, Spec.final, circularLoop] at hx ⊢
      rw [hx]
  · rw [C79_violated_loop]; simp

end loop

/-! ### Assignments -/

/-- **C79, assignments to wires.** An assignment changes that attribute alone, to the value given; it is
refused only for a current of zero. -/
theorem C79_line_assign {Mesh Path X : Type} [AddCommGroup X] [Module ℝ X] (w : Wires Mesh Path X)
    (a a' : LineAttr Path) (l : Path) (c : ℝ) :
    ((lineCurrent w).upd a (.location l) = .ok a' ↔ a'.location = l ∧ a'.current = a.current) ∧
    ((lineCurrent w).upd a (.current c) = .ok a' ↔
      c ≠ 0 ∧ a'.current = c ∧ a'.location = a.location) := by
  obtain ⟨l', c'⟩ := a'
  constructor
  · simp only [lineCurrent, Except.ok.injEq, LineAttr.mk.injEq, eq_comm]
  · by_cases h : c = 0
    · simp [lineCurrent, h]
    · simp only [lineCurrent, h, if_false, Except.ok.injEq, LineAttr.mk.injEq, ne_eq, not_false_eq_true,
        true_and]
      constructor <;> (rintro ⟨rfl, rfl⟩; exact ⟨rfl, rfl⟩)

/-- **C79, assignments to dipoles.** An assignment changes that attribute alone, to the value given; it is
refused for permeabilities below that of vacuum, for negative moments and, in the time domain, for a moment
of zero. -/
theorem C79_dipole_assign {V : Type} (mu0 : ℝ) (strict : Bool) (a a' : DipAttr V) (x : ℝ) (v : V) :
    (a.upd mu0 strict (.mu x) = .ok a' ↔ mu0 ≤ x ∧ a'.mu = x ∧ a'.orientation = a.orientation ∧
      a'.location = a.location ∧ a'.moment = a.moment) ∧
    (a.upd mu0 strict (.orientation v) = .ok a' ↔ a'.mu = a.mu ∧ a'.orientation = v ∧
      a'.location = a.location ∧ a'.moment = a.moment) ∧
    (a.upd mu0 strict (.location v) = .ok a' ↔ a'.mu = a.mu ∧ a'.orientation = a.orientation ∧
      a'.location = v ∧ a'.moment = a.moment) ∧
    (a.upd mu0 strict (.moment x) = .ok a' ↔ (0 < x ∨ (strict = false ∧ x = 0)) ∧ a'.mu = a.mu ∧
      a'.orientation = a.orientation ∧ a'.location = a.location ∧ a'.moment = x) := by
  obtain ⟨m, o, l, k⟩ := a'
  refine ⟨?_, ?_, ?_, ?_⟩
  · by_cases h : mu0 ≤ x
    · simp only [DipAttr.upd, h, if_true, Except.ok.injEq, DipAttr.mk.injEq, true_and]
      constructor <;> (rintro ⟨rfl, rfl, rfl, rfl⟩; exact ⟨rfl, rfl, rfl, rfl⟩)
    · simp [DipAttr.upd, h]
  · simp only [DipAttr.upd, Except.ok.injEq, DipAttr.mk.injEq]
    constructor <;> (rintro ⟨rfl, rfl, rfl, rfl⟩; exact ⟨rfl, rfl, rfl, rfl⟩)
  · simp only [DipAttr.upd, Except.ok.injEq, DipAttr.mk.injEq]
    constructor <;> (rintro ⟨rfl, rfl, rfl, rfl⟩; exact ⟨rfl, rfl, rfl, rfl⟩)
  · by_cases h : 0 < x ∨ (strict = false ∧ x = 0)
    · simp only [DipAttr.upd, h, if_true, Except.ok.injEq, DipAttr.mk.injEq, true_and]
      constructor <;> (rintro ⟨rfl, rfl, rfl, rfl⟩; exact ⟨rfl, rfl, rfl, rfl⟩)
    · simp [DipAttr.upd, h]

/-- **C79, assignments to loops.** An assignment changes that attribute alone, to the value given; it is
refused for permeabilities below that of vacuum, for a radius that is not positive, a current of zero and
fewer than one turn. -/
theorem C79_loop_assign {Grid V X : Type} [AddCommGroup X] [Module ℝ X] (mu0 : ℝ)
    (pot : LoopArgs V → Grid → X) (a a' : LoopAttr V) (x : ℝ) (v : V) (n : ℤ) :
    ((circularLoop mu0 pot).upd a (.mu x) = .ok a' ↔
      mu0 ≤ x ∧ a' = ⟨⟨x, a.args.orientation, a.args.location, a.args.radius, a.args.current⟩, a.nTurns⟩) ∧
    ((circularLoop mu0 pot).upd a (.orientation v) = .ok a' ↔
      a' = ⟨⟨a.args.mu, v, a.args.location, a.args.radius, a.args.current⟩, a.nTurns⟩) ∧
    ((circularLoop mu0 pot).upd a (.location v) = .ok a' ↔
      a' = ⟨⟨a.args.mu, a.args.orientation, v, a.args.radius, a.args.current⟩, a.nTurns⟩) ∧
    ((circularLoop mu0 pot).upd a (.radius x) = .ok a' ↔
      0 < x ∧ a' = ⟨⟨a.args.mu, a.args.orientation, a.args.location, x, a.args.current⟩, a.nTurns⟩) ∧
    ((circularLoop mu0 pot).upd a (.current x) = .ok a' ↔
      x ≠ 0 ∧ a' = ⟨⟨a.args.mu, a.args.orientation, a.args.location, a.args.radius, x⟩, a.nTurns⟩) ∧
    ((circularLoop mu0 pot).upd a (.nTurns n) = .ok a' ↔
      1 ≤ n ∧ a'.args = a.args ∧ (a'.nTurns : ℤ) = n) := by
  refine ⟨?_, ?_, ?_, ?_, ?_, ?_⟩
  · by_cases h : mu0 ≤ x <;> simp [circularLoop, h, eq_comm]
  · simp [circularLoop, eq_comm]
  · simp [circularLoop, eq_comm]
  · by_cases h : 0 < x <;> simp [circularLoop, h, eq_comm]
  · by_cases h : x = 0 <;> simp [circularLoop, h, eq_comm]
  · obtain ⟨r, k⟩ := a'
    by_cases h : 1 ≤ n
    · simp only [circularLoop, h, if_true, Except.ok.injEq, LoopAttr.mk.injEq, true_and]
      constructor
      · rintro ⟨rfl, rfl⟩; exact ⟨rfl, Int.toNat_of_nonneg (by omega)⟩
      · rintro ⟨rfl, rfl⟩; exact ⟨rfl, by simp⟩
    · simp [circularLoop, h]

/-- All cases occur: an accepted and a refused assignment. -/
example : (⟨1, (), (), 1⟩ : DipAttr Unit).upd 1 true (.moment 3) = .ok ⟨1, (), (), 3⟩ ∧
    ∀ a', (⟨1, (), (), 1⟩ : DipAttr Unit).upd 1 true (.moment 0) ≠ .ok a' := by
  refine ⟨((C79_dipole_assign 1 true _ _ 3 ()).2.2.2).2 (by simp), fun a' h => ?_⟩
  have := ((C79_dipole_assign 1 true _ _ 0 ()).2.2.2).1 h
  simp at this

end Verif.EM.SourceCache.Props
