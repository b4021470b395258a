import Verif.Basic
import Verif.Directives.Power
import Verif.Directives.Joint

/-! Model of the directives that estimate trade-off parameters and multipliers:
`BetaEstimateMaxDerivative`, `BetaEstimate_ByEig`, `AlphasSmoothEstimate_ByEig`,
`ScalingMultipleDataMisfits_ByEig` (`simpeg/directives/_directives.py` 434-604, 674-948) and
`PairedBetaEstimate_ByEig` (`_sim_directives.py` 189-276). -/

namespace Verif.Directives
open Verif Matrix

noncomputable section

variable {ι : Type} [Fintype ι]

/-! ### The initial trade-off parameter -/

/-- `BetaEstimate_ByEig.initialize` (577-601). `xd`, `xr`: the random starts of the two power
iterations, `k` iterations each. The estimate for the regularisation is not zero; if it is, the
code assigns `inf` or `nan`. -/
def betaByEig (ratio : ℝ) (k : Nat) (dm reg : Combo ι) (xd xr : ι → ℝ) : ℝ :=
  ratio * (powerIter dm k xd / powerIter reg k xr)

/-- `PairedBetaEstimate_ByEig.initialize` (234-276): one estimate for each data misfit and the
regularisation at the same place, written into the multipliers of the regularisations but the
last, which is the coupling term. -/
def pairedBeta (ratio : ℝ) (k : Nat) (dms regs : List (Combo ι)) (xs : List ((ι → ℝ) × (ι → ℝ))) :
    Except Err (List ℝ) :=
  if dms.length ≠ regs.length then .error .valueError
  else .ok (List.zipWith (fun p x => betaByEig ratio k p.1 p.2 x.1 x.2) (dms.zip regs) xs)

/-- `np.abs(g).max()`. -/
def maxAbs [Nonempty ι] (g : ι → ℝ) : ℝ :=
  Finset.univ.sup' Finset.univ_nonempty fun i => |g i|

/-- `v.max()`. -/
def maxOf [Nonempty ι] (v : ι → ℝ) : ℝ := Finset.univ.sup' Finset.univ_nonempty v

/-- `BetaEstimateMaxDerivative.initialize` (484-501). `gd`, `gm`: gradients of the data misfit and
of the regularisation; `x0`: random numbers between 0 and 1. `none`: the division by zero makes
the parameter `inf` or `nan`, which its setter accepts. -/
def betaMaxDeriv [Nonempty ι] (ratio : ℝ) (gd gm : (ι → ℝ) → ι → ℝ) (m x0 : ι → ℝ) : Option ℝ :=
  let dm : ι → ℝ := fun i => x0 i / maxOf x0 * maxOf m
  let den := maxAbs (gm (m + dm))
  if den = 0 then none else some (ratio * (maxAbs (gd m) / den))

/-! ### The multipliers of several data misfits -/

/-- `ScalingMultipleDataMisfits_ByEig.initialize` (910-948). `chi0`: the attribute `chi0_ratio`
(`None` at first, then what the first call stores), `mults`: the multipliers of the data misfits,
`est n`: the estimates of their eigenvalues with `n` power iterations. The number of iterations
the user asked for is `nIter`; the call does not pass it on, so the default of four is used.
The new `chi0_ratio` and the new multipliers. -/
def scaleMisfits (_nIter : Nat) (chi0 : Option (List ℝ)) (mults : List ℝ)
    (est : Nat → List ℝ) : Except Err (List ℝ × List ℝ) :=
  if mults.length = 1 then .error .typeError
  else
    let ones := List.replicate mults.length (1 : ℝ)
    match (match chi0 with | some c => bmul c ones | none => .ok mults) with
    | .error e => .error e
    | .ok c =>
      if c.length ≠ mults.length then .error .valueError
      else
        let chi := List.zipWith (· / ·) c (est 4)
        .ok (c, chi.map (· / chi.sum))

/-! ### The multipliers of the smoothness terms -/

/-- What a term of a regularisation is for `AlphasSmoothEstimate_ByEig` (771-788). -/
inductive Kind | small | smooth | other
  deriving DecidableEq

/-- A term: its kind, the estimate of its eigenvalue (a positive number), and the value of its
multiplier in the regularisation it is part of (`alpha_s`, `alpha_x`, ...). -/
structure Term where
  kind : Kind
  lam : ℝ
  alpha : ℝ

/-- An element of `self.reg.objfcts`: a regularisation with several terms, or a term that stands
by itself, which has no attribute for its multiplier. -/
inductive Part
  | combo (ts : List Term)
  | single (t : Term)

/-- The terms in the order of the two loops (765-788). -/
def Part.terms : Part → List Term
  | .combo ts => ts
  | .single t => [t]

/-- The new multipliers of the smoothness terms in a list (806-821); `us` are the ratios asked
for, one for each smoothness term, and those left over are returned. -/
def updTerms (ls : ℝ) : List ℝ → List Term → List Term × List ℝ
  | us, [] => ([], us)
  | us, t :: ts => match t.kind, us with
    | .smooth, u :: us =>
      let r := updTerms ls us ts
      ({ t with alpha := t.alpha * u * (ls / t.lam) } :: r.1, r.2)
    | _, us => let r := updTerms ls us ts; (t :: r.1, r.2)

/-- The loop over all parts: reading the multiplier of a smoothness term that stands by itself
raises. -/
def updParts (ls : ℝ) : List ℝ → List Part → Except Err (List Part)
  | _, [] => .ok []
  | us, .combo ts :: ps =>
    let r := updTerms ls us ts
    match updParts ls r.2 ps with
    | .ok q => .ok (.combo r.1 :: q)
    | .error e => .error e
  | us, .single t :: ps =>
    if t.kind = .smooth then .error .attributeError
    else match updParts ls us ps with
      | .ok q => .ok (.single t :: q)
      | .error e => .error e

/-- The smoothness terms of a regularisation. -/
def smooths (ps : List Part) : List Term := (ps.flatMap Part.terms).filter (·.kind = .smooth)

/-- `AlphasSmoothEstimate_ByEig.initialize` (760-825). The reference is the first smallness of
all parts. An exception in the last loop leaves the multipliers set so far; that is not
modelled. -/
def alphasInit (ratio : List ℝ) (ps : List Part) : Except Err (List Part) :=
  match (ps.flatMap Part.terms).filter (·.kind = .small) with
  | [] => .error .exception
  | s :: _ =>
    match bmul ratio (List.replicate (smooths ps).length 1) with
    | .error e => .error e
    | .ok us =>
      if us.length ≠ (smooths ps).length then .error .valueError
      else updParts s.lam us ps

namespace Props

/-! ### C94 -/

section beta
variable [DecidableEq ι]

/-- C94. The estimated trade-off parameter is the ratio asked for times the quotient of the two
estimates: with it, the estimated curvature of the regularisation term is that ratio of the one
of the data misfit. -/
theorem C94_balance (ratio : ℝ) (k : Nat) (dm reg : Combo ι) (xd xr : ι → ℝ)
    (h : powerIter reg k xr ≠ 0) :
    betaByEig ratio k dm reg xd xr * powerIter reg k xr = ratio * powerIter dm k xd := by
  unfold betaByEig
  field_simp

/-- C94. The product of the trade-off parameter and the regularisation does not depend on how
the regularisation is scaled, and grows with the scale of the data misfit. -/
theorem C94_scale_free (ratio a : ℝ) (ha : 0 < a) (k : Nat) (dm reg : Combo ι) (xd xr : ι → ℝ)
    (hd : hess dm ^ k *ᵥ xd ≠ 0) (hr : hess reg ^ k *ᵥ xr ≠ 0) :
    a * betaByEig ratio k dm (reg.map fun p => (a * p.1, p.2)) xd xr =
      betaByEig ratio k dm reg xd xr ∧
    betaByEig ratio k (dm.map fun p => (a * p.1, p.2)) reg xd xr =
      a * betaByEig ratio k dm reg xd xr := by
  unfold betaByEig
  rw [C93_scale reg a ha k xr hr, C93_scale dm a ha k xd hd]
  constructor
  · by_cases h : powerIter reg k xr = 0
    · simp [h]
    · field_simp
  · ring

/-- C94. For convex terms (positive semidefinite Hessians) the parameter is not negative, so that
the assignment is accepted. -/
theorem C94_nonneg (ratio : ℝ) (hr0 : 0 < ratio) (k : Nat) (dm reg : Combo ι) (xd xr : ι → ℝ)
    (hd : hess dm ^ k *ᵥ xd ≠ 0) (hr : hess reg ^ k *ᵥ xr ≠ 0)
    (hpd : ∀ v, 0 ≤ v ⬝ᵥ (hess dm *ᵥ v)) (hpr : ∀ v, 0 ≤ v ⬝ᵥ (hess reg *ᵥ v)) :
    0 ≤ betaByEig ratio k dm reg xd xr :=
  mul_nonneg hr0.le (div_nonneg (est_nonneg dm k xd hpd hd) (est_nonneg reg k xr hpr hr))

/-- C94. In a joint inversion the estimates are made pair by pair: the `i`-th one balances the
`i`-th regularisation with the `i`-th data misfit, whatever the others are. -/
theorem C94_paired (ratio : ℝ) (k : Nat) (dms regs : List (Combo ι))
    (xs : List ((ι → ℝ) × (ι → ℝ))) (hl : dms.length = regs.length) (hx : xs.length = dms.length) :
    ∃ b, pairedBeta ratio k dms regs xs = .ok b ∧ b.length = regs.length ∧
      ∀ i (h : i < regs.length) (h' : i < b.length), powerIter regs[i] k xs[i].2 ≠ 0 →
        b[i] * powerIter regs[i] k xs[i].2 = ratio * powerIter dms[i] k xs[i].1 := by
  refine ⟨_, by rw [pairedBeta, if_neg (by simpa using hl)], by simp [hl, hx], ?_⟩
  intro i h h' hne
  simp only [List.getElem_zipWith, List.getElem_zip]
  exact C94_balance ratio k _ _ _ _ hne

end beta

theorem maxAbs_smul [Nonempty ι] (a : ℝ) (ha : 0 < a) (g : ι → ℝ) :
    maxAbs (a • g) = a * maxAbs g := by
  unfold maxAbs
  apply le_antisymm
  · refine Finset.sup'_le _ _ fun i _ => ?_
    rw [Pi.smul_apply, smul_eq_mul, abs_mul, abs_of_pos ha]
    exact mul_le_mul_of_nonneg_left (Finset.le_sup' (fun i => |g i|) (Finset.mem_univ i)) ha.le
  · rw [← le_div_iff₀' ha]
    refine Finset.sup'_le _ _ fun i _ => ?_
    rw [le_div_iff₀' ha]
    refine le_trans (le_of_eq ?_) (Finset.le_sup' (fun i => |(a • g) i|) (Finset.mem_univ i))
    rw [Pi.smul_apply, smul_eq_mul, abs_mul, abs_of_pos ha]

theorem maxAbs_nonneg [Nonempty ι] (g : ι → ℝ) : 0 ≤ maxAbs g := by
  obtain ⟨i⟩ := ‹Nonempty ι›
  exact (abs_nonneg (g i)).trans (Finset.le_sup' (fun i => |g i|) (Finset.mem_univ i))

/-- C94 (partial). The estimate from the largest derivatives does not depend on how the
regularisation is scaled either, and is not negative, if the gradient of the regularisation at
the perturbed model is not zero. -/
theorem C94_max_derivative_partial [Nonempty ι] (ratio a : ℝ) (hr : 0 < ratio) (ha : 0 < a)
    (gd gm : (ι → ℝ) → ι → ℝ) (m x0 : ι → ℝ)
    (h : maxAbs (gm (m + fun i => x0 i / maxOf x0 * maxOf m)) ≠ 0) :
    ∃ b b', betaMaxDeriv ratio gd gm m x0 = some b ∧ 0 ≤ b ∧
      betaMaxDeriv ratio gd (fun v => a • gm v) m x0 = some b' ∧ a * b' = b ∧
      betaMaxDeriv ratio (fun v => a • gd v) gm m x0 = some (a * b) := by
  have h' : a * maxAbs (gm (m + fun i => x0 i / maxOf x0 * maxOf m)) ≠ 0 := mul_ne_zero ha.ne' h
  refine ⟨_, _, by rw [betaMaxDeriv]; exact if_neg h, ?_,
    by rw [betaMaxDeriv]; simp only [maxAbs_smul a ha]; exact if_neg h', ?_, ?_⟩
  · exact mul_nonneg hr.le (div_nonneg (maxAbs_nonneg _) (maxAbs_nonneg _))
  · generalize maxAbs (gm (m + fun i => x0 i / maxOf x0 * maxOf m)) = d at *
    field_simp
  · rw [betaMaxDeriv]
    simp only [maxAbs_smul a ha]
    rw [if_neg h]
    congr 1
    ring

/-- C94, violated. Started from the zero model with a regularisation whose gradient vanishes
there (no reference model, or the zero one), the estimate from the largest derivatives divides
by zero whatever the data and the random numbers are, because the perturbation is proportional
to the largest value of the model. -/
theorem C94_violated_zero_model [Nonempty ι] (ratio : ℝ) (gd gm : (ι → ℝ) → ι → ℝ)
    (x0 : ι → ℝ) (h0 : gm 0 = 0) : betaMaxDeriv ratio gd gm 0 x0 = none := by
  have hm : maxOf (0 : ι → ℝ) = 0 := by simp [maxOf]
  have hz : (0 : ι → ℝ) + (fun i => x0 i / maxOf x0 * maxOf (0 : ι → ℝ)) = 0 := by
    ext i; simp [hm]
  have : maxAbs (0 : ι → ℝ) = 0 := by simp [maxAbs]
  unfold betaMaxDeriv
  simp only [hz, h0, this, if_true]

example : betaMaxDeriv 2 (fun _ => ![3, -4]) (fun m => m) (![1, 1] : Fin 2 → ℝ) ![1 / 2, 1] =
    some 4 := by
  have e : maxOf (![1 / 2, 1] : Fin 2 → ℝ) = 1 := by
    simp [maxOf, Finset.univ_fin2]
    norm_num
  have e1 : maxOf (![1, 1] : Fin 2 → ℝ) = 1 := by simp [maxOf, Finset.univ_fin2]
  have e2 : maxAbs (![3, -4] : Fin 2 → ℝ) = 4 := by
    simp [maxAbs, Finset.univ_fin2]
    norm_num
  have e3 : (![1, 1] + fun i => ![1 / 2, 1] i / 1 * 1 : Fin 2 → ℝ) = ![3 / 2, 2] := by
    ext i; fin_cases i <;> norm_num
  have e4 : maxAbs (![3 / 2, 2] : Fin 2 → ℝ) = 2 := by
    simp [maxAbs, Finset.univ_fin2]
    norm_num
  simp only [betaMaxDeriv, e, e1, e2, e3, e4]
  norm_num

/-! ### C94: several data misfits -/

theorem zipWith_div_pos (c l : List ℝ) (hc : ∀ x ∈ c, 0 < x) (hl : ∀ x ∈ l, 0 < x) :
    ∀ x ∈ List.zipWith (· / ·) c l, 0 < x := by
  intro x hx
  obtain ⟨j, hj, rfl⟩ := List.mem_iff_getElem.mp hx
  simp only [List.getElem_zipWith]
  exact div_pos (hc _ (List.getElem_mem _)) (hl _ (List.getElem_mem _))

/-- C94. The multipliers of several data misfits: positive, of sum one, and such that multiplier
times estimated eigenvalue is in the proportions asked for (those of the initial multipliers if
nothing was asked). -/
theorem C94_scaling (nIter : Nat) (chi0 : Option (List ℝ)) (mults : List ℝ)
    (est : Nat → List ℝ) (hn : 2 ≤ mults.length) (he : (est 4).length = mults.length)
    (hpe : ∀ x ∈ est 4, 0 < x) (c : List ℝ)
    (hc : c = chi0.getD mults) (hcl : c.length = mults.length) (hcp : ∀ x ∈ c, 0 < x) :
    ∃ new, scaleMisfits nIter chi0 mults est = .ok (c, new) ∧ new.length = mults.length ∧
      new.sum = 1 ∧ (∀ x ∈ new, 0 < x) ∧
      ∃ s : ℝ, 0 < s ∧ ∀ i (h : i < mults.length) (h' : i < new.length),
        new[i] * (est 4)[i] = c[i] / s := by
  have hsel : (match chi0 with
      | some c => bmul c (List.replicate mults.length (1 : ℝ))
      | none => .ok mults) = .ok c := by
    cases chi0 with
    | none => simp only [Option.getD_none] at hc; rw [hc]
    | some d =>
      simp only [Option.getD_some] at hc
      subst hc
      simp only [bmul, List.length_replicate, hcl, if_true]
      congr 1
      apply List.ext_getElem <;> simp [hcl]
  set chi := List.zipWith (· / ·) c (est 4) with hchi
  have hlen : chi.length = mults.length := by simp [hchi, hcl, he]
  have hpos := zipWith_div_pos c (est 4) hcp hpe
  have hne : chi ≠ [] := by
    intro h
    rw [h] at hlen
    simp at hlen
    omega
  have hs : 0 < chi.sum := List.sum_pos chi hpos hne
  refine ⟨chi.map (· / chi.sum), ?_, by simp [hlen], ?_, ?_, chi.sum, hs, ?_⟩
  · unfold scaleMisfits
    rw [if_neg (by omega)]
    dsimp only
    rw [hsel]
    simp only [ne_eq, hcl, not_true, if_false]
    rfl
  · simp only [div_eq_mul_inv]
    rw [List.sum_map_mul_right, List.map_id', mul_inv_cancel₀ hs.ne']
  · intro x hx
    obtain ⟨y, hy, rfl⟩ := List.mem_map.mp hx
    exact div_pos (hpos y hy) hs
  · intro i h h'
    have hi : 0 < (est 4)[i] := hpe _ (List.getElem_mem _)
    simp only [List.getElem_map, hchi, List.getElem_zipWith]
    field_simp

/-- C94. Using the directive in a second inversion with the same estimates does not compound the
scaling: the proportions of the first use are kept, not those of the scaled multipliers. -/
theorem C94_scaling_again (nIter : Nat) (mults : List ℝ) (est : Nat → List ℝ)
    (hn : 2 ≤ mults.length) (he : (est 4).length = mults.length) (hpe : ∀ x ∈ est 4, 0 < x)
    (hcp : ∀ x ∈ mults, 0 < x) (c new : List ℝ)
    (h : scaleMisfits nIter none mults est = .ok (c, new)) :
    scaleMisfits nIter (some c) new est = .ok (c, new) := by
  obtain ⟨n1, e1, l1, _⟩ := C94_scaling nIter none mults est hn he hpe mults rfl rfl hcp
  have hpair : (c, new) = (mults, n1) := Except.ok.inj (h.symm.trans e1)
  obtain ⟨rfl, rfl⟩ := Prod.mk.inj hpair
  have hb : bmul c (List.replicate new.length (1 : ℝ)) = .ok c := by
    simp only [bmul, List.length_replicate, l1, if_true]
    congr 1
    apply List.ext_getElem <;> simp
  unfold scaleMisfits at h ⊢
  rw [if_neg (by omega)] at h ⊢
  simp only [ne_eq, not_true, if_false] at h
  dsimp only
  rw [hb]
  simp only [ne_eq, l1, not_true, if_false]
  exact h

/-- C94, violated. The number of power iterations given to the directive has no effect. -/
theorem C94_violated_iterations (n n' : Nat) (chi0 : Option (List ℝ)) (mults : List ℝ)
    (est : Nat → List ℝ) :
    scaleMisfits n chi0 mults est = scaleMisfits n' chi0 mults est := rfl

example : scaleMisfits 10 none [1, 2] (fun _ => [1, 4]) = .ok ([1, 2], [2 / 3, 1 / 3]) := by
  norm_num [scaleMisfits]

/-! ### C94: smoothness terms -/

theorem updTerms_spec (ls : ℝ) : ∀ (us : List ℝ) (ts : List Term),
    (ts.filter (·.kind = .smooth)).length ≤ us.length →
    (updTerms ls us ts).1.filter (·.kind = .smooth) =
      List.zipWith (fun u t => { t with alpha := t.alpha * u * (ls / t.lam) }) us
        (ts.filter (·.kind = .smooth)) ∧
    (updTerms ls us ts).1.filter (·.kind ≠ .smooth) = ts.filter (·.kind ≠ .smooth) ∧
    (updTerms ls us ts).2 = us.drop (ts.filter (·.kind = .smooth)).length
  | us, [], _ => by simp [updTerms]
  | us, t :: ts, h => by
    rcases hk : t.kind with _ | _ | _
    · have ih := updTerms_spec ls us ts (by simpa [hk] using h)
      simp only [updTerms, hk]
      simpa [hk] using ih
    · cases us with
      | nil => simp [hk] at h
      | cons u us =>
        have ih := updTerms_spec ls us ts (by simpa [hk] using h)
        simp only [updTerms, hk]
        simpa [hk] using ih
    · have ih := updTerms_spec ls us ts (by simpa [hk] using h)
      simp only [updTerms, hk]
      simpa [hk] using ih

theorem updParts_spec (ls : ℝ) : ∀ (us : List ℝ) (ps : List Part),
    (smooths ps).length ≤ us.length → (∀ t, Part.single t ∈ ps → t.kind ≠ .smooth) →
    ∃ q, updParts ls us ps = .ok q ∧
      smooths q = List.zipWith (fun u t => { t with alpha := t.alpha * u * (ls / t.lam) }) us
        (smooths ps) ∧
      (q.flatMap Part.terms).filter (·.kind ≠ .smooth) =
        (ps.flatMap Part.terms).filter (·.kind ≠ .smooth)
  | us, [], _, _ => ⟨[], rfl, by simp [smooths], rfl⟩
  | us, .combo ts :: ps, h, hs => by
    simp only [smooths, List.flatMap_cons, List.filter_append, Part.terms, List.length_append] at h
    obtain ⟨h1, h2, h3⟩ := updTerms_spec ls us ts (by omega)
    obtain ⟨q, e1, e2, e3⟩ := updParts_spec ls (updTerms ls us ts).2 ps
      (by rw [h3, List.length_drop]; simp only [smooths]; omega)
      (fun t ht => hs t (List.mem_cons_of_mem _ ht))
    refine ⟨.combo (updTerms ls us ts).1 :: q, by simp only [updParts, e1], ?_, ?_⟩
    · simp only [smooths, List.flatMap_cons, List.filter_append, Part.terms] at e2 ⊢
      rw [e2, h1, h3]
      conv_rhs => rw [← List.take_append_drop (ts.filter (·.kind = .smooth)).length us]
      rw [List.zipWith_append (by simp; omega)]
      congr 1
      conv_lhs => rw [← List.take_append_drop (ts.filter (·.kind = .smooth)).length us]
      conv_lhs => rw [← List.append_nil (ts.filter (·.kind = .smooth))]
      rw [List.zipWith_append (by simp; omega)]
      simp
    · simp only [List.flatMap_cons, List.filter_append, Part.terms]
      rw [h2, e3]
  | us, .single t :: ps, h, hs => by
    have ht : t.kind ≠ .smooth := hs t (by simp)
    have e : smooths (.single t :: ps) = smooths ps := by
      simp [smooths, Part.terms, ht]
    rw [e] at h ⊢
    obtain ⟨q, e1, e2, e3⟩ := updParts_spec ls us ps h
      (fun t' ht' => hs t' (List.mem_cons_of_mem _ ht'))
    refine ⟨.single t :: q, by simp only [updParts, if_neg ht, e1], ?_, ?_⟩
    · rw [← e2]; simp [smooths, Part.terms, ht]
    · simp only [List.flatMap_cons, List.filter_append]
      rw [e3]

/-- C94 (partial). For a regularisation made of combinations of terms, with one ratio for each
smoothness term, the new multiplier of a smoothness term is the old one times the ratio asked for
times the quotient of the estimates of the first smallness and of the term; all other terms stay
as they are. So if the multiplier was one before, the estimated curvatures of smoothness and
smallness are in the ratio asked for. -/
theorem C94_alphas_partial (ratio : List ℝ) (ps : List Part) (s : Term) (rest : List Term)
    (hs : (ps.flatMap Part.terms).filter (·.kind = .small) = s :: rest)
    (hc : ∀ t, Part.single t ∈ ps → t.kind ≠ .smooth)
    (hl : ratio.length = (smooths ps).length) :
    ∃ q, alphasInit ratio ps = .ok q ∧ (smooths q).length = (smooths ps).length ∧
      (q.flatMap Part.terms).filter (·.kind ≠ .smooth) =
        (ps.flatMap Part.terms).filter (·.kind ≠ .smooth) ∧
      ∀ i (h : i < (smooths ps).length) (h' : i < (smooths q).length),
        (smooths q)[i].alpha = (smooths ps)[i].alpha * ratio[i] * (s.lam / (smooths ps)[i].lam) ∧
        (smooths q)[i].lam = (smooths ps)[i].lam ∧
        ((smooths ps)[i].alpha = 1 → (smooths ps)[i].lam ≠ 0 →
          (smooths q)[i].alpha * (smooths q)[i].lam = ratio[i] * s.lam) := by
  have hb : bmul ratio (List.replicate (smooths ps).length 1) = .ok ratio := by
    simp only [bmul, List.length_replicate, hl, if_true]
    congr 1
    apply List.ext_getElem <;> simp [hl]
  obtain ⟨q, e1, e2, e3⟩ := updParts_spec s.lam ratio ps hl.ge hc
  refine ⟨q, ?_, by rw [e2]; simp [hl], e3, ?_⟩
  · unfold alphasInit
    rw [hs]
    simp only [hb, hl, ne_eq, not_true, if_false]
    exact e1
  · intro i h h'
    have hg : (smooths q)[i] = { (smooths ps)[i] with
        alpha := (smooths ps)[i].alpha * ratio[i] * (s.lam / (smooths ps)[i].lam) } := by
      simp only [e2, List.getElem_zipWith]
    rw [hg]
    refine ⟨rfl, rfl, ?_⟩
    intro ha hne
    simp only
    rw [ha]
    field_simp

/-- C94, violated. The directive multiplies what is there: used in a second inversion on the same
regularisation it multiplies the estimates again, and the balance is lost. -/
theorem C94_violated_alphas_again :
    let ps : List Part := [.combo [⟨.small, 1, 1⟩, ⟨.smooth, 4, 1⟩]]
    let ps1 : List Part := [.combo [⟨.small, 1, 1⟩, ⟨.smooth, 4, 1 / 4⟩]]
    let ps2 : List Part := [.combo [⟨.small, 1, 1⟩, ⟨.smooth, 4, 1 / 16⟩]]
    alphasInit [1] ps = .ok ps1 ∧ alphasInit [1] ps1 = .ok ps2 := by
  constructor <;>
    (simp [alphasInit, smooths, Part.terms, bmul, updParts, updTerms]; try norm_num)

/-- C94, violated. A smoothness term that stands by itself in the sum makes the directive raise:
it has no multiplier attribute. -/
theorem C94_violated_alphas_single (s t : Term) (hs : s.kind = .small) (ht : t.kind = .smooth)
    (r : ℝ) : alphasInit [r] [.single s, .single t] = .error .attributeError := by
  simp [alphasInit, smooths, Part.terms, hs, ht, bmul, updParts]

/-- Two regularisations; the smallness of the first is the reference of both. -/
example : alphasInit [1, 2] [.combo [⟨.small, 2, 1⟩, ⟨.smooth, 4, 1⟩],
    .combo [⟨.smooth, 1, 1⟩, ⟨.small, 7, 1⟩]] =
    .ok [.combo [⟨.small, 2, 1⟩, ⟨.smooth, 4, 1 / 2⟩], .combo [⟨.smooth, 1, 4⟩, ⟨.small, 7, 1⟩]] := by
  simp [alphasInit, smooths, Part.terms, bmul, updParts, updTerms]
  norm_num

end Props
end
end Verif.Directives
