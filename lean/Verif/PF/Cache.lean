import Verif.Basic
import Mathlib.Data.List.Basic
import Mathlib.Tactic.Tauto
import Mathlib.Tactic.Ring

/-!
C90: what an integral potential field simulation remembers
(`simpeg/potential_fields/gravity/simulation.py` 255-283, 420-443,
`simpeg/potential_fields/magnetics/simulation.py` 218-227, 259-300, 380-407, 533-541, 822-827,
`simpeg/potential_fields/base.py` 289-354).

The settings of a simulation (survey, engine, kind of model, active cells, data type, ...) are an
arbitrary type `C`; the direction of the inducing field and the matrix are arbitrary functions of
them. The values which are remembered are kept in the state, as in the code.
-/

namespace Verif.PF.Cache
open Verif

/-- What is computed, as functions of the settings and of the model. -/
structure Env (C T G A W H D M : Type) where
  /-- `dip_azimuth2cartesian(inclination, declination)` of the survey. -/
  direction : C → T
  /-- The matrix, from the settings and the direction. -/
  build : C → T → G
  /-- `normalized_fields(G @ chi)`. -/
  normalized : G → M → A
  /-- The diagonal of `G.T @ W.T @ W @ G`, of the amplitudes if their derivative is given. -/
  gtg : G → Option A → W → D
  /-- `hashlib.sha256(weights)`. -/
  sha : W → H
  /-- The test of the setter of `model` for an unchanged model (`simpeg/props.py` 456-474). -/
  same : M → M → Bool

variable {C T G A W H D M : Type}

/-- A simulation with the attributes it remembers. -/
structure Sim (C T G A H D M : Type) where
  cfg : C
  isAmplitude : Bool
  model : Option M
  /-- `_tmi_projection` -/
  t : Option T
  /-- `_G` -/
  g : Option G
  /-- `_ampDeriv` -/
  amp : Option A
  /-- `_gtg_diagonal` -/
  diag : Option D
  /-- `_weights_sha256` -/
  hash : Option H

/-- A new simulation. -/
def Sim.new (c : C) (isAmplitude : Bool) : Sim C T G A H D M :=
  ⟨c, isAmplitude, none, none, none, none, none, none⟩

variable (E : Env C T G A W H D M)

/-- `self.model = m`: `_delete_on_model_update` has the diagonal and the derivative of the amplitudes
only for amplitude data (`simpeg/potential_fields/magnetics/simulation.py` 822-827). -/
def Sim.assign (s : Sim C T G A H D M) (m : M) : Sim C T G A H D M :=
  let unchanged := match s.model with
    | some m' => E.same m' m
    | none => false
  if unchanged then { s with model := some m }
  else if s.isAmplitude then { s with model := some m, amp := none, diag := none }
  else { s with model := some m }

/-- `tmi_projection` (`simpeg/potential_fields/magnetics/simulation.py` 290-299). -/
def Sim.tmi (s : Sim C T G A H D M) : Sim C T G A H D M × T :=
  match s.t with
  | some t => (s, t)
  | none => ({ s with t := some (E.direction s.cfg) }, E.direction s.cfg)

/-- `G` (`simpeg/potential_fields/magnetics/simulation.py` 259-279,
`simpeg/potential_fields/gravity/simulation.py` 420-443). -/
def Sim.matrix (s : Sim C T G A H D M) : Sim C T G A H D M × G :=
  match s.g with
  | some g => (s, g)
  | none =>
    let (s, t) := s.tmi E
    ({ s with g := some (E.build s.cfg t) }, E.build s.cfg t)

/-- `ampDeriv` (`simpeg/potential_fields/magnetics/simulation.py` 533-541). -/
def Sim.ampDeriv (s : Sim C T G A H D M) (m : M) : Sim C T G A H D M × A :=
  match s.amp with
  | some a => (s, a)
  | none =>
    let (s, g) := s.matrix E
    ({ s with amp := some (E.normalized g m) }, E.normalized g m)

/-- `_get_gtg_diagonal` (`simpeg/potential_fields/magnetics/simulation.py` 409-454). -/
def Sim.computeDiag (s : Sim C T G A H D M) (m : M) (w : W) : Sim C T G A H D M × D :=
  if s.isAmplitude then
    let (s, a) := s.ampDeriv E m
    let (s, g) := s.matrix E
    (s, E.gtg g (some a) w)
  else
    let (s, g) := s.matrix E
    (s, E.gtg g none w)

/-- `getJtJdiag`, up to the product with the mapping
(`simpeg/potential_fields/magnetics/simulation.py` 376-402). -/
def Sim.getDiag [DecidableEq H] (s : Sim C T G A H D M) (m : M) (w : W) : Sim C T G A H D M × D :=
  let s := s.assign E m
  match s.diag, s.hash with
  | some d, some h =>
    if h = E.sha w then (s, d)
    else
      let r := s.computeDiag E m w
      ({ r.1 with diag := some r.2, hash := some (E.sha w) }, r.2)
  | _, _ =>
    let r := s.computeDiag E m w
    ({ r.1 with diag := some r.2, hash := some (E.sha w) }, r.2)

/-- What a user does. -/
inductive Op (C M W : Type)
  /-- `sim.model = m` -/
  | assign (m : M)
  /-- `sim.tmi_projection` -/
  | tmi
  /-- `sim.G`, or anything which uses it. -/
  | matrix
  /-- `sim.Jvec(m, v)`, `sim.Jtvec(m, v)` for amplitude data, which use `ampDeriv` at `m`. -/
  | amp (m : M)
  /-- `sim.getJtJdiag(m, W)` -/
  | diag (m : M) (w : W)
  /-- Change a setting: `sim.survey = ...`, `sim.engine = ...`, `sim.model_type = ...`. -/
  | configure (c : C)

/-- What the user sees. -/
inductive Out (T G A D : Type)
  | nothing | tmi (t : T) | matrix (g : G) | amp (a : A) | diag (d : D)
  deriving DecidableEq

def step [DecidableEq H] (s : Sim C T G A H D M) : Op C M W → Sim C T G A H D M × Out T G A D
  | .assign m => (s.assign E m, .nothing)
  | .tmi => let r := s.tmi E; (r.1, .tmi r.2)
  | .matrix => let r := s.matrix E; (r.1, .matrix r.2)
  | .amp m => let r := (s.assign E m).ampDeriv E m; (r.1, .amp r.2)
  | .diag m w => let r := s.getDiag E m w; (r.1, .diag r.2)
  | .configure c => ({ s with cfg := c }, .nothing)

def run [DecidableEq H] : Sim C T G A H D M → List (Op C M W) → List (Out T G A D)
  | _, [] => []
  | s, op :: ops => (step E s op).2 :: run (step E s op).1 ops

/-! ### The file of the engine geoana -/

/-- `linear_operator` with `store_sensitivities = "disk"`: a file with a matrix of the expected shape
is used (`simpeg/potential_fields/base.py` 297-307, 348-352). Returns the matrix and the new content
of the file. -/
def geoanaDisk {S : Type} [DecidableEq S] (shape : G → S) (expected : S) (built : G)
    (file : Option G) : G × Option G :=
  match file with
  | some g => if shape g = expected then (g, file) else (built, some built)
  | none => (built, some built)

/-- `_sensitivity_matrix` of the engine choclo with `store_sensitivities = "disk"`: the file is
opened with mode `"w+"` and every entry is written
(`simpeg/potential_fields/gravity/simulation.py` 599-606). -/
def chocloDisk (built : G) (_file : Option G) : G × Option G := (built, some built)

/-! ### Specification -/

/-- What a simulation without memory shows for an operation, at settings `c`. -/
def fresh (c : C) (isAmplitude : Bool) : Op C M W → Out T G A D
  | .assign _ => .nothing
  | .tmi => .tmi (E.direction c)
  | .matrix => .matrix (E.build c (E.direction c))
  | .amp m => .amp (E.normalized (E.build c (E.direction c)) m)
  | .diag m w =>
    let g := E.build c (E.direction c)
    .diag (E.gtg g (if isAmplitude then some (E.normalized g m) else none) w)
  | .configure _ => .nothing

/-- The settings are not changed. -/
def Fixed (op : Op C M W) : Prop := ∀ c, op ≠ .configure c

namespace Props

/-- What is remembered is what would be computed. -/
structure Inv (s : Sim C T G A H D M) : Prop where
  t : ∀ t, s.t = some t → t = E.direction s.cfg
  g : ∀ g, s.g = some g → g = E.build s.cfg (E.direction s.cfg)
  amp : ∀ a, s.amp = some a → s.isAmplitude = true → ∃ m, s.model = some m ∧
    a = E.normalized (E.build s.cfg (E.direction s.cfg)) m
  plain : s.isAmplitude = false → ∀ d h w, s.diag = some d → s.hash = some h → E.sha w = h →
    d = E.gtg (E.build s.cfg (E.direction s.cfg)) none w
  diag : s.isAmplitude = true → ∀ d h w, s.diag = some d → s.hash = some h → E.sha w = h →
    ∃ m, s.model = some m ∧ d = E.gtg (E.build s.cfg (E.direction s.cfg))
      (some (E.normalized (E.build s.cfg (E.direction s.cfg)) m)) w

theorem inv_new (c : C) (b : Bool) : Inv E (Sim.new c b) := by
  constructor <;> intros <;> simp_all [Sim.new]

variable {E}

theorem inv_assign {s : Sim C T G A H D M} (hs : ∀ m m', E.same m m' = true → m = m')
    (h : Inv E s) (m : M) : Inv E (s.assign E m) ∧ (s.assign E m).model = some m ∧
      (s.assign E m).cfg = s.cfg ∧ (s.assign E m).isAmplitude = s.isAmplitude := by
  have key : ∀ m', s.model = some m' → E.same m' m = true → m' = m := fun m' _ h => hs _ _ h
  unfold Sim.assign
  rcases hm : s.model with _ | m'
  · simp only [Bool.false_eq_true, if_false]
    split_ifs with ha
    · refine ⟨⟨h.t, h.g, ?_, ?_, ?_⟩, rfl, rfl, rfl⟩
      · intro a h1; simp at h1
      · intro h1; simp [ha] at h1
      · intro _ d h1 w h2; simp at h2
    · refine ⟨⟨h.t, h.g, ?_, h.plain, ?_⟩, rfl, rfl, rfl⟩
      · intro a _ h1; exact absurd h1 ha
      · intro h1; exact absurd h1 ha
  · simp only
    split_ifs with hb ha
    · have := hs _ _ hb
      subst this
      refine ⟨⟨h.t, h.g, ?_, h.plain, ?_⟩, rfl, rfl, rfl⟩
      · intro a h1 h2
        obtain ⟨m0, e, r⟩ := h.amp a h1 h2
        rw [hm] at e
        exact ⟨m', rfl, by rw [r]; simp at e; rw [e]⟩
      · intro h1 d h2 w h3 h4 h5
        obtain ⟨m0, e, r⟩ := h.diag h1 d h2 w h3 h4 h5
        rw [hm] at e
        exact ⟨m', rfl, by rw [r]; simp at e; rw [e]⟩
    · refine ⟨⟨h.t, h.g, ?_, ?_, ?_⟩, rfl, rfl, rfl⟩
      · intro a h1; simp at h1
      · intro h1; simp [ha] at h1
      · intro _ d h1 w h2; simp at h2
    · refine ⟨⟨h.t, h.g, ?_, h.plain, ?_⟩, rfl, rfl, rfl⟩
      · intro a _ h1; exact absurd h1 ha
      · intro h1; exact absurd h1 ha

/-- An operation which only adds correct values keeps everything else. -/
structure Keeps (s s' : Sim C T G A H D M) : Prop where
  cfg : s'.cfg = s.cfg
  amp? : s'.isAmplitude = s.isAmplitude
  model : s'.model = s.model
  diag : s'.diag = s.diag
  hash : s'.hash = s.hash

theorem tmi_spec {s : Sim C T G A H D M} (h : Inv E s) :
    Inv E (s.tmi E).1 ∧ (s.tmi E).2 = E.direction s.cfg ∧ Keeps s (s.tmi E).1 ∧
      (s.tmi E).1.amp = s.amp := by
  unfold Sim.tmi
  rcases ht : s.t with _ | t
  · exact ⟨⟨by simp, h.g, h.amp, h.plain, h.diag⟩, rfl, ⟨rfl, rfl, rfl, rfl, rfl⟩, rfl⟩
  · exact ⟨h, h.t t ht, ⟨rfl, rfl, rfl, rfl, rfl⟩, rfl⟩

theorem matrix_spec {s : Sim C T G A H D M} (h : Inv E s) :
    Inv E (s.matrix E).1 ∧ (s.matrix E).2 = E.build s.cfg (E.direction s.cfg) ∧
      Keeps s (s.matrix E).1 ∧ (s.matrix E).1.amp = s.amp := by
  unfold Sim.matrix
  rcases hg : s.g with _ | g
  · obtain ⟨h1, h2, h3, h4⟩ := tmi_spec h
    rcases hr : s.tmi E with ⟨s1, t⟩
    rw [hr] at h1 h2 h3 h4
    simp only at h1 h2 h3 h4 ⊢
    refine ⟨⟨h1.t, ?_, h1.amp, h1.plain, h1.diag⟩, by rw [h3.cfg, h2],
      ⟨h3.cfg, h3.amp?, h3.model, h3.diag, h3.hash⟩, h4⟩
    intro g hg
    simp only [Option.some.injEq] at hg
    rw [← hg, h2, h3.cfg]
  · exact ⟨h, h.g g hg, ⟨rfl, rfl, rfl, rfl, rfl⟩, rfl⟩

theorem ampDeriv_spec {s : Sim C T G A H D M} (h : Inv E s) (ha : s.isAmplitude = true) {m : M}
    (hm : s.model = some m) :
    Inv E (s.ampDeriv E m).1 ∧
      (s.ampDeriv E m).2 = E.normalized (E.build s.cfg (E.direction s.cfg)) m ∧
      Keeps s (s.ampDeriv E m).1 := by
  unfold Sim.ampDeriv
  rcases hg : s.amp with _ | a
  · obtain ⟨h1, h2, h3, h4⟩ := matrix_spec h
    rcases hr : s.matrix E with ⟨s1, g⟩
    rw [hr] at h1 h2 h3 h4
    simp only at h1 h2 h3 h4 ⊢
    refine ⟨⟨h1.t, h1.g, ?_, h1.plain, h1.diag⟩, by rw [h2],
      ⟨h3.cfg, h3.amp?, h3.model, h3.diag, h3.hash⟩⟩
    intro a hag _
    simp only [Option.some.injEq] at hag
    exact ⟨m, by rw [← hm]; exact h3.model, by rw [← hag, h2, h3.cfg]⟩
  · obtain ⟨m', e, r⟩ := h.amp a hg ha
    rw [hm] at e
    simp only [Option.some.injEq] at e
    exact ⟨h, by rw [e]; exact r, ⟨rfl, rfl, rfl, rfl, rfl⟩⟩

/-- The diagonal that is right at the settings and the model. -/
def right (E : Env C T G A W H D M) (c : C) (b : Bool) (m : M) (w : W) : D :=
  E.gtg (E.build c (E.direction c))
    (if b then some (E.normalized (E.build c (E.direction c)) m) else none) w

theorem computeDiag_spec {s : Sim C T G A H D M} (h : Inv E s) {m : M} (hm : s.model = some m)
    (w : W) : Inv E (s.computeDiag E m w).1 ∧
      (s.computeDiag E m w).2 = right E s.cfg s.isAmplitude m w ∧ Keeps s (s.computeDiag E m w).1 := by
  unfold Sim.computeDiag right
  split_ifs with ha
  · obtain ⟨h1, h2, h3⟩ := ampDeriv_spec h ha hm
    rcases hr : s.ampDeriv E m with ⟨s1, a⟩
    rw [hr] at h1 h2 h3
    simp only at h1 h2 h3 ⊢
    obtain ⟨k1, k2, k3, k4⟩ := matrix_spec h1
    refine ⟨k1, by rw [k2, h2, h3.cfg], ⟨k3.cfg.trans h3.cfg, k3.amp?.trans h3.amp?,
      k3.model.trans h3.model, k3.diag.trans h3.diag, k3.hash.trans h3.hash⟩⟩
  · obtain ⟨k1, k2, k3, k4⟩ := matrix_spec h
    rcases hr : s.matrix E with ⟨s1, g⟩
    rw [hr] at k1 k2 k3 k4
    exact ⟨k1, by simp only at k2 ⊢; rw [k2], k3⟩

theorem store {s : Sim C T G A H D M} (hsha : Function.Injective E.sha) (h : Inv E s) {m : M}
    (hm : s.model = some m) (w : W) :
    Inv E { s with diag := some (right E s.cfg s.isAmplitude m w), hash := some (E.sha w) } := by
  refine ⟨h.t, h.g, h.amp, ?_, ?_⟩
  · intro ha d k w' hd hk hw
    simp only [Option.some.injEq] at hd hk ha
    rw [← hk] at hw
    rw [hsha hw, ← hd]
    simp [right, ha]
  · intro ha d k w' hd hk hw
    simp only [Option.some.injEq] at hd hk ha
    rw [← hk] at hw
    refine ⟨m, hm, ?_⟩
    rw [hsha hw, ← hd]
    simp [right, ha]

theorem getDiag_spec [DecidableEq H] (hsha : Function.Injective E.sha)
    (hs : ∀ m m', E.same m m' = true → m = m') {s : Sim C T G A H D M} (h : Inv E s) (m : M) (w : W) :
    Inv E (s.getDiag E m w).1 ∧ (s.getDiag E m w).2 = right E s.cfg s.isAmplitude m w ∧
      (s.getDiag E m w).1.cfg = s.cfg ∧ (s.getDiag E m w).1.isAmplitude = s.isAmplitude := by
  obtain ⟨a1, a2, a3, a4⟩ := inv_assign hs h m
  unfold Sim.getDiag
  generalize s.assign E m = s1 at a1 a2 a3 a4
  have compute : Inv E { (s1.computeDiag E m w).1 with
        diag := some (s1.computeDiag E m w).2, hash := some (E.sha w) } ∧
      (s1.computeDiag E m w).2 = right E s.cfg s.isAmplitude m w ∧
      (s1.computeDiag E m w).1.cfg = s.cfg ∧
      (s1.computeDiag E m w).1.isAmplitude = s.isAmplitude := by
    obtain ⟨k1, k2, k3⟩ := computeDiag_spec a1 a2 w
    refine ⟨?_, by rw [k2, a3, a4], k3.cfg.trans a3, k3.amp?.trans a4⟩
    have := store hsha k1 (k3.model.trans a2) w
    have e : right E (s1.computeDiag E m w).1.cfg (s1.computeDiag E m w).1.isAmplitude m w =
        (s1.computeDiag E m w).2 := by rw [k2, k3.cfg, k3.amp?]
    rw [e] at this
    exact this
  rcases hd : s1.diag with _ | d
  · simp only [hd]
    exact compute
  · rcases hh : s1.hash with _ | k
    · simp only [hd, hh]
      exact compute
    · simp only [hd, hh]
      by_cases e : k = E.sha w
      · simp only [e, if_true]
        refine ⟨a1, ?_, a3, a4⟩
        unfold right
        rw [← a3, ← a4]
        rcases ha : s1.isAmplitude with _ | _
        · simpa using a1.plain ha d k w hd hh e.symm
        · obtain ⟨m', e1, e2⟩ := a1.diag ha d k w hd hh e.symm
          rw [a2] at e1
          simp only [Option.some.injEq] at e1
          simpa [e1] using e2
      · simp only [e, if_false]
        exact compute

theorem step_spec [DecidableEq H] (hsha : Function.Injective E.sha)
    (hs : ∀ m m', E.same m m' = true → m = m') {s : Sim C T G A H D M} (h : Inv E s)
    (op : Op C M W) (hop : Fixed op) (hamp : ∀ m, op = .amp m → s.isAmplitude = true) :
    Inv E (step E s op).1 ∧ (step E s op).2 = fresh E s.cfg s.isAmplitude op ∧
      (step E s op).1.cfg = s.cfg ∧ (step E s op).1.isAmplitude = s.isAmplitude := by
  cases op with
  | assign m =>
    obtain ⟨a1, a2, a3, a4⟩ := inv_assign hs h m
    exact ⟨a1, rfl, a3, a4⟩
  | tmi =>
    obtain ⟨a1, a2, a3, a4⟩ := tmi_spec h
    exact ⟨a1, by simp [step, fresh, a2], a3.cfg, a3.amp?⟩
  | matrix =>
    obtain ⟨a1, a2, a3, a4⟩ := matrix_spec h
    exact ⟨a1, by simp [step, fresh, a2], a3.cfg, a3.amp?⟩
  | amp m =>
    obtain ⟨a1, a2, a3, a4⟩ := inv_assign hs h m
    obtain ⟨b1, b2, b3⟩ := ampDeriv_spec a1 (a4.trans (hamp m rfl)) a2
    exact ⟨b1, by simp [step, fresh, b2, a3], b3.cfg.trans a3, b3.amp?.trans a4⟩
  | diag m w =>
    obtain ⟨a1, a2, a3, a4⟩ := getDiag_spec hsha hs h m w
    exact ⟨a1, by simp [step, fresh, a2, right], a3, a4⟩
  | configure c => exact absurd rfl (hop c)

/-- While its settings are not changed, a simulation shows what a simulation without memory would,
for every sequence of operations, models and weights, if the hash tells the weights apart and the
model is recognised only if it is equal. Full claim: also when settings change. -/
theorem C90_fixed_partial [DecidableEq H] (hsha : Function.Injective E.sha)
    (hs : ∀ m m', E.same m m' = true → m = m') (c : C) (isAmplitude : Bool) (ops : List (Op C M W))
    (hops : ∀ op ∈ ops, Fixed op)
    (hamp : ∀ op ∈ ops, ∀ m, op = .amp m → isAmplitude = true) :
    run E (Sim.new c isAmplitude) ops = ops.map (fresh E c isAmplitude) := by
  have key : ∀ (ops : List (Op C M W)) (s : Sim C T G A H D M), Inv E s →
      (∀ op ∈ ops, Fixed op) → (∀ op ∈ ops, ∀ m, op = .amp m → s.isAmplitude = true) →
      run E s ops = ops.map (fresh E s.cfg s.isAmplitude) := by
    intro ops
    induction ops with
    | nil => intros; rfl
    | cons op ops ih =>
      intro s h h1 h2
      obtain ⟨a1, a2, a3, a4⟩ := step_spec hsha hs h op (h1 op (by simp)) (h2 op (by simp))
      rw [run, a2, ih _ a1 (fun o ho => h1 o (by simp [ho]))
        (fun o ho m e => by rw [a4]; exact h2 o (by simp [ho]) m e), a3, a4]
      rfl
  exact key ops _ (inv_new E c isAmplitude) hops hamp

/-- An environment: the settings are a number, the direction its double, and so on. -/
def exE : Env ℕ ℕ ℕ ℕ ℕ ℕ ℕ ℕ :=
  ⟨fun c => 2 * c, fun c t => c + 10 * t, fun g m => g * m, fun g a w => g * w + a.getD 0,
    fun w => w, fun m m' => m == m'⟩

example : Function.Injective exE.sha ∧ ∀ m m', exE.same m m' = true → m = m' :=
  ⟨fun _ _ h => h, fun _ _ h => by simpa [exE] using h⟩

example : run exE (Sim.new 1 true) [.diag 3 5, .diag 4 5, .diag 4 5, .amp 2, .diag 4 6] =
    [.diag 168, .diag 189, .diag 189, .amp 42, .diag 210] := by decide

/-- A new survey, engine or kind of model does not change a matrix or a diagonal which was computed
before: the data and the sensitivities are those of the old settings. -/
theorem C90_violated_settings : ∃ (E : Env ℕ ℕ ℕ ℕ ℕ ℕ ℕ ℕ),
    Function.Injective E.sha ∧ (∀ m m', E.same m m' = true ↔ m = m') ∧
    E.build 1 (E.direction 1) ≠ E.build 2 (E.direction 2) ∧
    run E (Sim.new 1 false) [.matrix, .configure 2, .matrix] =
      [.matrix (E.build 1 (E.direction 1)), .nothing, .matrix (E.build 1 (E.direction 1))] ∧
    run E (Sim.new 1 false) [.diag 0 5, .configure 2, .diag 0 5] =
      [.diag (E.gtg (E.build 1 (E.direction 1)) none 5), .nothing,
        .diag (E.gtg (E.build 1 (E.direction 1)) none 5)] :=
  ⟨exE, fun _ _ h => h, fun _ _ => by simp [exE], by decide, by decide, by decide⟩

/-- The direction of the inducing field is remembered by itself: after a change of the field the
matrix mixes the new settings with the old direction. -/
theorem C90_violated_direction : ∃ (E : Env ℕ ℕ ℕ ℕ ℕ ℕ ℕ ℕ),
    run E (Sim.new 1 false) [.tmi, .configure 2, .matrix] =
      [.tmi (E.direction 1), .nothing, .matrix (E.build 2 (E.direction 1))] ∧
    E.build 2 (E.direction 1) ≠ E.build 2 (E.direction 2) :=
  ⟨exE, by decide, by decide⟩

/-- With a test which takes close models for equal, the derivative of the amplitudes is that of an
earlier model. -/
theorem C90_violated_close_models : ∃ (E : Env ℕ ℕ ℕ ℕ ℕ ℕ ℕ ℕ),
    (∀ m, E.same m m = true) ∧
    run E (Sim.new 1 true) [.amp 10, .amp 11] =
      [.amp (E.normalized (E.build 1 (E.direction 1)) 10),
        .amp (E.normalized (E.build 1 (E.direction 1)) 10)] ∧
    E.normalized (E.build 1 (E.direction 1)) 10 ≠ E.normalized (E.build 1 (E.direction 1)) 11 :=
  ⟨{ exE with same := fun m m' => m / 2 == m' / 2 }, fun m => by simp, by decide, by decide⟩

/-! ### Files -/

/-- The engine choclo ignores what is in the file. -/
theorem C90_disk_choclo (built : G) (file : Option G) :
    chocloDisk built file = (built, some built) := rfl

/-- The engine geoana gives its own matrix if the file was written for the same settings or has
another shape. Full claim: for every content of the file. -/
theorem C90_disk_geoana_partial {S : Type} [DecidableEq S] (shape : G → S) (built : G)
    (file : Option G) (h : ∀ g, file = some g → g = built ∨ shape g ≠ shape built) :
    geoanaDisk shape (shape built) built file = (built, some built) := by
  unfold geoanaDisk
  rcases file with _ | g
  · rfl
  · simp only
    split_ifs with hs
    · rcases h g rfl with e | e
      · rw [e]
      · exact absurd hs e
    · rfl

/-- A file which another simulation left, for another survey with as many data, is used as it is. -/
theorem C90_violated_file {S : Type} [DecidableEq S] (shape : G → S) (built other : G)
    (h : shape other = shape built) :
    (geoanaDisk shape (shape built) built (some other)).1 = other := by
  simp [geoanaDisk, h]

example : ([1, 2] : List ℕ).length = [3, 4].length ∧ ([1, 2] : List ℕ) ≠ [3, 4] := by decide

end Props
end Verif.PF.Cache
