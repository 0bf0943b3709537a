import Verif.Driver.Model
import Mathlib.Tactic.Linarith
import Mathlib.Tactic.FieldSimp
import Mathlib.Tactic.Positivity
import Mathlib.Analysis.SpecialFunctions.Log.Base

/-!
# Properties C08, C09, C22, C23
-/

set_option linter.unusedSimpArgs false

namespace Hiop.Driver

/-! ## C08: barrier parameter -/

/-- Admissible parameters: positive tolerances and objective scale, reduction factor in
`(0,1)`, `tau_min` in `(0,1)`. -/
structure MuOk (p : MuParams) : Prop where
  kappa0 : 0 < p.kappaMu
  kappa1 : p.kappaMu < 1
  tau1 : p.tauMin < 1
  eps : 0 < p.epsTol
  comp : 0 < p.compTol
  scale : 0 < p.objScale

theorem muFloor_pos (p : MuParams) (h : MuOk p) : 0 < muFloor p := by
  unfold muFloor
  have : 0 < min p.epsTol (p.compTol / p.objScale) := lt_min h.eps (div_pos h.comp h.scale)
  positivity

theorem updateMu_eq (p : MuParams) (h : MuOk p) (mu : ℝ) (hmu : 0 ≤ mu) :
    updateMu p mu =
      if |max (min (p.kappaMu * mu) (mu ^ p.thetaMu)) (muFloor p) - mu| < 1e-16 then none
      else some (max (min (p.kappaMu * mu) (mu ^ p.thetaMu)) (muFloor p),
        max p.tauMin (1 - max (min (p.kappaMu * mu) (mu ^ p.thetaMu)) (muFloor p))) := by
  have : (0:ℝ) ≤ min (p.kappaMu * mu) (mu ^ p.thetaMu) :=
    le_min (mul_nonneg h.kappa0.le hmu) (Real.rpow_nonneg hmu _)
  unfold updateMu
  simp only [max_eq_right this]

/-- **C08.** An update returns `max(min(kappa_mu mu, mu^theta_mu), floor)`; the value is at
least the floor, strictly smaller than before by at least `1e-16`, positive, and the new `tau`
is in `[tau_min, 1)`. -/
theorem C08_mu_update (p : MuParams) (h : MuOk p) (mu mu' tau' : ℝ) (hmu : muFloor p ≤ mu)
    (hu : updateMu p mu = some (mu', tau')) :
    mu' = max (min (p.kappaMu * mu) (mu ^ p.thetaMu))
      (min p.epsTol (p.compTol / p.objScale) / 11) ∧
    min p.epsTol (p.compTol / p.objScale) / 11 ≤ mu' ∧ 0 < mu' ∧ mu' ≤ mu - 1e-16 ∧
    tau' = max p.tauMin (1 - mu') ∧ p.tauMin ≤ tau' ∧ tau' < 1 := by
  have e11 : min p.epsTol (p.compTol / p.objScale) / 11 = muFloor p := by
    unfold muFloor; norm_num
  rw [e11]
  have hf := muFloor_pos p h
  have hmu0 : 0 ≤ mu := hf.le.trans hmu
  rw [updateMu_eq p h mu hmu0] at hu
  split_ifs at hu with hc
  obtain ⟨rfl, rfl⟩ := Prod.mk.inj (Option.some.inj hu)
  have hle : max (min (p.kappaMu * mu) (mu ^ p.thetaMu)) (muFloor p) ≤ mu := by
    refine max_le (le_trans (min_le_left _ _) ?_) hmu
    have := mul_le_mul_of_nonneg_right h.kappa1.le hmu0
    linarith
  have hfl : muFloor p ≤ max (min (p.kappaMu * mu) (mu ^ p.thetaMu)) (muFloor p) := le_max_right _ _
  refine ⟨rfl, hfl, lt_of_lt_of_le hf hfl, ?_, rfl, le_max_left _ _, max_lt h.tau1 ?_⟩
  · rw [abs_of_nonpos (by linarith)] at hc
    linarith [not_lt.mp hc]
  · linarith

/-- **C08.** An update is refused exactly when the parameter would move by less than `1e-16`. -/
theorem C08_refused_iff (p : MuParams) (h : MuOk p) (mu : ℝ) (hmu : muFloor p ≤ mu) :
    updateMu p mu = none ↔
      mu - max (min (p.kappaMu * mu) (mu ^ p.thetaMu)) (muFloor p) < 1e-16 := by
  have hmu0 : 0 ≤ mu := (muFloor_pos p h).le.trans hmu
  rw [updateMu_eq p h mu hmu0]
  have hle : max (min (p.kappaMu * mu) (mu ^ p.thetaMu)) (muFloor p) ≤ mu := by
    refine max_le (le_trans (min_le_left _ _) ?_) hmu
    have := mul_le_mul_of_nonneg_right h.kappa1.le hmu0
    linarith
  rw [abs_of_nonpos (by linarith)]
  split_ifs with hc
  · simp only [true_iff]; linarith
  · simp only [reduceCtorEq, false_iff]; intro h2; exact hc (by linarith)

/-- **C08.** The inner reduction loop terminates for every sequence of error values: from any
`mu` at or above the floor, `1e16 (mu - floor) + 1` passes suffice; on exit the parameter is
in `[floor, mu]`, decreased by at least `1e-16` per reduction, `tau` is in range once reduced,
and either the barrier error exceeds `kappa_eps mu` or no further reduction is possible. -/
theorem C08_mu_loop (p : MuParams) (h : MuOk p) (kappaEps : ℝ) (err : ℕ → ℝ)
    (fuel k : ℕ) (mu tau : ℝ) (hmu : muFloor p ≤ mu)
    (hfuel : (mu - muFloor p) * 1e16 + 1 ≤ fuel) :
    ∃ mu' tau' k', muLoop p kappaEps err fuel k (mu, tau) = some (mu', tau', k') ∧
      k ≤ k' ∧ muFloor p ≤ mu' ∧ mu' + (k' - k : ℕ) * 1e-16 ≤ mu ∧
      (k = k' → mu' = mu ∧ tau' = tau) ∧ (k < k' → p.tauMin ≤ tau' ∧ tau' < 1) ∧
      (kappaEps * mu' < err k' ∨ updateMu p mu' = none) := by
  induction fuel generalizing k mu tau with
  | zero =>
    have : (0:ℝ) ≤ (mu - muFloor p) * 1e16 := mul_nonneg (by linarith) (by norm_num)
    norm_num at hfuel; linarith
  | succ fuel ih =>
    unfold muLoop
    by_cases he : err k ≤ kappaEps * mu
    · rw [if_pos he]
      cases hu : updateMu p mu with
      | none => exact ⟨mu, tau, k, by simp, le_rfl, hmu, by simp, fun _ => ⟨rfl, rfl⟩,
          fun h => absurd h (lt_irrefl _), Or.inr hu⟩
      | some mt =>
        obtain ⟨m1, t1⟩ := mt
        obtain ⟨-, h2, h3, h4, -, h5, h6⟩ := C08_mu_update p h mu m1 t1 hmu hu
        rw [show min p.epsTol (p.compTol / p.objScale) / 11 = muFloor p by unfold muFloor; norm_num] at h2
        have hf' : (m1 - muFloor p) * 1e16 + 1 ≤ fuel := by
          push_cast at hfuel; norm_num at h4 hfuel ⊢; linarith
        obtain ⟨mu', tau', k', e1, e2, e3, e4, e5, e6, e7⟩ := ih (k + 1) m1 t1 h2 hf'
        refine ⟨mu', tau', k', e1, by omega, e3, ?_, fun h => by omega, fun _ => ?_, e7⟩
        · have : k' - k = (k' - (k+1)) + 1 := by omega
          rw [this]; push_cast; linarith
        · by_cases hk : k + 1 = k'
          · obtain ⟨-, rfl⟩ := e5 hk; exact ⟨h5, h6⟩
          · exact e6 (by omega)
    · rw [if_neg he]
      exact ⟨mu, tau, k, by simp, le_rfl, hmu, by simp, fun _ => ⟨rfl, rfl⟩,
          fun h => absurd h (lt_irrefl _), Or.inl (not_le.mp he)⟩

/-- **C08**, the excluded case: a starting value below the floor is *raised* to it (so the
parameter does increase when the user picks `mu0` below a tenth of the tolerance). -/
theorem C08_mu_raised_below_floor (p : MuParams) (h : MuOk p) (mu : ℝ) (h0 : 0 < mu)
    (hmu : mu ≤ muFloor p - 1e-16) :
    updateMu p mu = some (muFloor p, max p.tauMin (1 - muFloor p)) := by
  rw [updateMu_eq p h mu h0.le]
  have hm : max (min (p.kappaMu * mu) (mu ^ p.thetaMu)) (muFloor p) = muFloor p := by
    refine max_eq_right (le_trans (min_le_left _ _) ?_)
    have := mul_le_mul_of_nonneg_right h.kappa1.le h0.le
    norm_num at hmu; linarith
  rw [hm, if_neg]
  norm_num at hmu ⊢
  rw [abs_of_nonneg (by linarith)]; linarith

/-- **C08** (elastic mode). The bound relaxation stays in `[final, initial]`. -/
theorem C08_elastic_range (st : ElasticStrategy) (muNew mu0 targetMu pInit pMin : ℝ)
    (hp : pMin ≤ pInit) :
    pMin ≤ elasticPerturb st muNew mu0 targetMu pInit pMin ∧
    elasticPerturb st muNew mu0 targetMu pInit pMin ≤ pInit := by
  unfold elasticPerturb
  simp only
  split_ifs <;> constructor <;> linarith

/-- **C08** (elastic mode). As the barrier parameter decreases, the relaxation never grows: the
bounds are only ever tightened. -/
theorem C08_elastic_monotone (st : ElasticStrategy) (mu1 mu2 mu0 targetMu pInit pMin : ℝ)
    (hp : pMin ≤ pInit) (ht : targetMu < mu0) (h : mu1 ≤ mu2) :
    elasticPerturb st mu1 mu0 targetMu pInit pMin
      ≤ elasticPerturb st mu2 mu0 targetMu pInit pMin := by
  have clamp : ∀ a b : ℝ, a ≤ b →
      (if (if a > pInit then pInit else a) < pMin then pMin else (if a > pInit then pInit else a))
      ≤ (if (if b > pInit then pInit else b) < pMin then pMin
          else (if b > pInit then pInit else b)) := by
    intro a b hab
    split_ifs <;> linarith
  cases st with
  | muScaled =>
    exact clamp (0.995 * mu1) (0.995 * mu2) (by linarith)
  | muProjected =>
    refine clamp _ _ ?_
    have : (mu1 - targetMu) / (mu0 - targetMu) ≤ (mu2 - targetMu) / (mu0 - targetMu) :=
      div_le_div_of_nonneg_right (by linarith) (by linarith)
    have := mul_le_mul_of_nonneg_right this (by linarith : 0 ≤ pInit - pMin)
    linarith
  | other => exact le_rfl

-- Non-vacuity: default-like parameters and a real reduction.
example : ∃ p : MuParams, MuOk p ∧ muFloor p ≤ 1 ∧ ∃ r, updateMu p 1 = some r ∧ r.1 = 1/5 := by
  refine ⟨⟨1/5, 3/2, 99/100, 1e-8, 1e-6, 1⟩, ⟨by norm_num, by norm_num, by norm_num, by norm_num,
    by norm_num, by norm_num⟩, by norm_num [muFloor], ?_⟩
  have hm : MuOk ⟨1/5, 3/2, 99/100, 1e-8, 1e-6, 1⟩ := ⟨by norm_num, by norm_num, by norm_num,
    by norm_num, by norm_num, by norm_num⟩
  rw [updateMu_eq _ hm 1 (by norm_num)]
  have e : max (min ((1/5:ℝ) * 1) ((1:ℝ) ^ (3/2:ℝ))) (muFloor ⟨1/5, 3/2, 99/100, 1e-8, 1e-6, 1⟩)
      = 1/5 := by
    rw [Real.one_rpow]; norm_num [muFloor]
  rw [e, if_neg (by norm_num)]
  exact ⟨_, rfl, rfl⟩

/-! ## C09: errors and termination -/

/-- The scale factor belonging to an average multiplier magnitude `avg`:
`min(max(smax,avg)/smax, 1e8)` (specification). -/
noncomputable def scaleOf (smax avg : ℝ) : ℝ := min (max smax avg / smax) 1e8

/-- **C09.** The scaling factors are at least one (and at most `1e8`), so the scaled error
never exceeds the unscaled ones, always dominates the constraint violation, and a scaled error
of `eps` limits the unscaled errors by `1e8 eps`. -/
theorem C09_scaled_error (smax : ℝ) (hs : 0 < smax) (e : ErrIn) (ho : 0 ≤ e.optim)
    (hc : 0 ≤ e.complem) (hv : 0 ≤ e.consViol) (hn : e.n = 0 → e.complem = 0) (eps : ℝ) :
    1 ≤ errSd smax e ∧ errSd smax e ≤ 1e8 ∧
    errOverall smax e ≤ max e.optim (max e.consViol e.complem) ∧
    (errOverall smax e ≤ eps ↔
      e.optim ≤ eps * scaleOf smax ((e.nrmDualBou + e.nrmDualEqu) / ((e.n + e.m : ℕ) : ℝ)) ∧
      e.consViol ≤ eps ∧
      (e.n ≠ 0 → e.complem ≤ eps * scaleOf smax (e.nrmDualBou / (e.n : ℝ)))) ∧
    (errOverall smax e ≤ eps → e.optim ≤ eps * 1e8 ∧ e.complem ≤ eps * 1e8) := by
  have hsd : errSd smax e = scaleOf smax ((e.nrmDualBou + e.nrmDualEqu) / ((e.n + e.m : ℕ) : ℝ)) := by
    unfold errSd scaleOf
    by_cases h : e.n + e.m = 0
    · simp [h, max_eq_left hs.le]
    · simp only [if_neg h]
  have hsc : e.n ≠ 0 → errSc smax e = scaleOf smax (e.nrmDualBou / (e.n : ℝ)) := by
    intro h
    unfold errSc scaleOf
    rw [if_neg h]
  have h1 : 1 ≤ errSd smax e := by
    unfold errSd
    refine le_min ?_ (by norm_num)
    rw [le_div_iff₀ hs, one_mul]
    split_ifs
    · exact le_rfl
    · exact le_max_left _ _
  have h2 : errSd smax e ≤ 1e8 := min_le_right _ _
  have h3 : e.n ≠ 0 → 1 ≤ errSc smax e := by
    intro h
    unfold errSc
    rw [if_neg h]
    refine le_min ?_ (by norm_num)
    rw [le_div_iff₀ hs, one_mul]
    exact le_max_left _ _
  have h4 : errSc smax e ≤ 1e8 := min_le_right _ _
  have h5 : e.n = 0 → errSc smax e = 0 := by
    intro h; unfold errSc; rw [if_pos h]; norm_num
  have hdiv : e.optim / errSd smax e ≤ e.optim := div_le_self ho h1
  have hiff : errOverall smax e ≤ eps ↔
      e.optim ≤ eps * errSd smax e ∧ e.consViol ≤ eps ∧
        (e.n ≠ 0 → e.complem ≤ eps * errSc smax e) := by
    unfold errOverall
    rw [max_le_iff, div_le_iff₀ (by linarith)]
    by_cases hz : e.n = 0
    · rw [if_pos (h5 hz)]; simp [hz]
    · have := h3 hz
      rw [if_neg (by linarith : ¬ errSc smax e = 0), max_le_iff, div_le_iff₀ (by linarith)]
      simp [hz]
  refine ⟨h1, h2, ?_, ?_, ?_⟩
  · unfold errOverall
    refine max_le (hdiv.trans (le_max_left _ _)) ?_
    split_ifs with hz
    · exact (le_max_left _ _).trans (le_max_right _ _)
    · have : e.n ≠ 0 := fun h => hz (h5 h)
      exact (max_le_max le_rfl (div_le_self hc (h3 this))).trans (le_max_right _ _)
  · rw [hiff, ← hsd]
    refine and_congr_right fun _ => and_congr_right fun _ => forall_congr' fun h => ?_
    rw [hsc h]
  · intro h
    obtain ⟨a, b, c⟩ := hiff.1 h
    have he : 0 ≤ eps := hv.trans b
    refine ⟨a.trans (mul_le_mul_of_nonneg_left h2 he), ?_⟩
    by_cases hz : e.n = 0
    · rw [hn hz]; positivity
    · exact (c hz).trans (mul_le_mul_of_nonneg_left h4 he)

/-- What `Solve_Success` promises. -/
def WithinTols (t : Tols) (e : Errs) : Prop :=
  e.nlp ≤ t.epsTol ∧ e.optim ≤ t.dualTol ∧ e.consViol ≤ t.consTol ∧ e.complem ≤ t.compTol

/-- The relative test. -/
def WithinRelTols (t : Tols) (e0 e : Errs) : Prop :=
  0 < t.epsRtol ∧ e.optim ≤ t.epsRtol * e0.optim ∧ e.feas ≤ t.epsRtol * e0.feas ∧
    e.complem ≤ max t.epsRtol 1e-6 * min 1 e0.complem

/-- **C09.** Meaning and priority of the statuses set by one termination check. -/
theorem C09_status_meaning (t : Tols) (e0 e : Errs) (iter nAcc : ℕ) :
    ((checkTermination t e0 e iter nAcc).1 = some .success ↔ WithinTols t e) ∧
    ((checkTermination t e0 e iter nAcc).1 = some .maxIter ↔
      ¬ WithinTols t e ∧ t.maxIt ≤ iter) ∧
    ((checkTermination t e0 e iter nAcc).1 = some .successRelTol ↔
      ¬ WithinTols t e ∧ iter < t.maxIt ∧ WithinRelTols t e0 e) ∧
    ((checkTermination t e0 e iter nAcc).1 = some .acceptable ↔
      ¬ WithinTols t e ∧ iter < t.maxIt ∧ ¬ WithinRelTols t e0 e ∧
        t.accepIt ≤ (if e.nlp ≤ t.epsTolAccep then nAcc + 1 else 0)) ∧
    (∀ s, (checkTermination t e0 e iter nAcc).1 = some s →
      s = .success ∨ s = .maxIter ∨ s = .successRelTol ∨ s = .acceptable) := by
  unfold checkTermination WithinTols WithinRelTols
  by_cases h1 : e.nlp ≤ t.epsTol ∧ e.optim ≤ t.dualTol ∧ e.consViol ≤ t.consTol ∧
      e.complem ≤ t.compTol
  · rw [if_pos h1]; simp [h1]
  · rw [if_neg h1]
    by_cases h2 : iter ≥ t.maxIt
    · rw [if_pos h2]
      have h2' : ¬ iter < t.maxIt := not_lt.mpr h2
      have h2'' : t.maxIt ≤ iter := h2
      simp [h1, h2', h2'']
    · rw [if_neg h2]
      have h2' : iter < t.maxIt := not_le.mp h2
      have h2'' : ¬ t.maxIt ≤ iter := h2
      by_cases h3 : t.epsRtol > 0 ∧ (e.optim ≤ t.epsRtol * e0.optim ∧
          e.feas ≤ t.epsRtol * e0.feas ∧ e.complem ≤ max t.epsRtol 1e-6 * min 1 e0.complem)
      · rw [if_pos h3]
        have h3' : 0 < t.epsRtol ∧ e.optim ≤ t.epsRtol * e0.optim ∧
          e.feas ≤ t.epsRtol * e0.feas ∧ e.complem ≤ max t.epsRtol 1e-6 * min 1 e0.complem := h3
        simp only [h1, h2', h2'', h3']; simp
      · rw [if_neg h3]
        have h3' : ¬ (0 < t.epsRtol ∧ e.optim ≤ t.epsRtol * e0.optim ∧
          e.feas ≤ t.epsRtol * e0.feas ∧
          e.complem ≤ max t.epsRtol 1e-6 * min 1 e0.complem) := h3
        simp only [h1, h2', h2'', h3']
        by_cases h4 : (if e.nlp ≤ t.epsTolAccep then nAcc + 1 else 0) ≥ t.accepIt
        · have h4' : t.accepIt ≤ (if e.nlp ≤ t.epsTolAccep then nAcc + 1 else 0) := h4
          simp [h4']
        · have h4' : ¬ t.accepIt ≤ (if e.nlp ≤ t.epsTolAccep then nAcc + 1 else 0) := h4
          simp [h4']

/-- The sequence of checks of a run: `errs k` are the errors at the `k`-th check, done at
iteration `k`. Returns the counter before check `k` provided no earlier check terminated. -/
noncomputable def counterAt (t : Tols) (e0 : Errs) (errs : ℕ → Errs) : ℕ → Option ℕ
  | 0 => some 0
  | k + 1 =>
    match counterAt t e0 errs k with
    | none => none
    | some c =>
      match checkTermination t e0 (errs k) k c with
      | (none, c') => some c'
      | (some _, _) => none

theorem counterAt_spec (t : Tols) (e0 : Errs) (errs : ℕ → Errs) (k c : ℕ)
    (h : counterAt t e0 errs k = some c) :
    c ≤ k ∧ (∀ j, k - c ≤ j → j < k → (errs j).nlp ≤ t.epsTolAccep) ∧
    (c < k → ¬ (errs (k - c - 1)).nlp ≤ t.epsTolAccep) := by
  induction k generalizing c with
  | zero =>
    simp only [counterAt, Option.some.injEq] at h
    subst h; simp
  | succ k ih =>
    unfold counterAt at h
    cases hc : counterAt t e0 errs k with
    | none => simp [hc] at h
    | some c0 =>
      simp only [hc] at h
      obtain ⟨i1, i2, i3⟩ := ih c0 hc
      have hcc : c = if (errs k).nlp ≤ t.epsTolAccep then c0 + 1 else 0 := by
        unfold checkTermination at h
        by_cases h1 : (errs k).nlp ≤ t.epsTol ∧ (errs k).optim ≤ t.dualTol ∧
            (errs k).consViol ≤ t.consTol ∧ (errs k).complem ≤ t.compTol
        · rw [if_pos h1] at h; simp at h
        rw [if_neg h1] at h
        by_cases h2 : k ≥ t.maxIt
        · rw [if_pos h2] at h; simp at h
        rw [if_neg h2] at h
        by_cases h3 : t.epsRtol > 0 ∧ ((errs k).optim ≤ t.epsRtol * e0.optim ∧
            (errs k).feas ≤ t.epsRtol * e0.feas ∧
            (errs k).complem ≤ max t.epsRtol 1e-6 * min 1 e0.complem)
        · rw [if_pos h3] at h; simp at h
        rw [if_neg h3] at h
        by_cases h4 : (if (errs k).nlp ≤ t.epsTolAccep then c0 + 1 else 0) ≥ t.accepIt
        · simp only [if_pos h4] at h; simp at h
        · simp only [if_neg h4] at h; exact (Option.some.inj h).symm
      by_cases ha : (errs k).nlp ≤ t.epsTolAccep
      · rw [if_pos ha] at hcc
        subst hcc
        refine ⟨by omega, fun j h1 h2 => ?_, fun h1 => ?_⟩
        · by_cases hj : j = k
          · rw [hj]; exact ha
          · exact i2 j (by omega) (by omega)
        · have : k + 1 - (c0 + 1) - 1 = k - c0 - 1 := by omega
          rw [this]; exact i3 (by omega)
      · rw [if_neg ha] at hcc
        subst hcc
        refine ⟨by omega, fun j h1 h2 => by omega, fun _ => by simpa using ha⟩

/-- **C09.** `Solve_Acceptable_Level` is reported at check `k` exactly when none of the other
tests fires and the last `acceptable_iterations` consecutive checks (this one included) were
all within the acceptable tolerance. -/
theorem C09_acceptable_level (t : Tols) (ht : 1 ≤ t.accepIt) (e0 : Errs) (errs : ℕ → Errs)
    (k c : ℕ) (h : counterAt t e0 errs k = some c) :
    (checkTermination t e0 (errs k) k c).1 = some .acceptable ↔
      ¬ WithinTols t (errs k) ∧ k < t.maxIt ∧ ¬ WithinRelTols t e0 (errs k) ∧
      t.accepIt ≤ k + 1 ∧
      ∀ j, k + 1 - t.accepIt ≤ j → j ≤ k → (errs j).nlp ≤ t.epsTolAccep := by
  obtain ⟨h1, h2, h3⟩ := counterAt_spec t e0 errs k c h
  rw [(C09_status_meaning t e0 (errs k) k c).2.2.2.1]
  refine and_congr_right fun _ => and_congr_right fun _ => and_congr_right fun _ => ?_
  constructor
  · intro hc
    split_ifs at hc with ha
    · refine ⟨by omega, fun j hj1 hj2 => ?_⟩
      by_cases hj : j = k
      · rw [hj]; exact ha
      · exact h2 j (by omega) (by omega)
    · omega
  · rintro ⟨hk, hall⟩
    have ha := hall k (by omega) le_rfl
    rw [if_pos ha]
    by_contra hlt
    push Not at hlt
    exact h3 (by omega) (hall _ (by omega) (by omega))

-- Non-vacuity: three checks, acceptable at the third with `acceptable_iterations = 2`.
example : ∃ (t : Tols) (e0 : Errs) (errs : ℕ → Errs) (c : ℕ), 1 ≤ t.accepIt ∧
    counterAt t e0 errs 2 = some c ∧
    (checkTermination t e0 (errs 2) 2 c).1 = some .acceptable := by
  refine ⟨⟨1, 1, 1, 1, 0, 10, 100, 2⟩, ⟨9, 9, 9, 9, 9⟩,
    fun k => if k = 0 then ⟨50, 9, 9, 9, 9⟩ else ⟨5, 9, 9, 9, 9⟩, 1, by norm_num, ?_, ?_⟩
  · norm_num [counterAt, checkTermination]
  · norm_num [checkTermination]

/-! ## C22: the backtracking loop -/

/-- Trials `0..k-1` were all evaluated and rejected, the second-order correction of the first
one did not succeed (and, with assertions on, did not fail in user code). -/
def AllRejected (p : LsParams) (ans : ℕ → TrialAns) (k : ℕ) : Prop :=
  ∀ j < k, (ans j).evalOk = true ∧ (ans j).status = 0 ∧
    (j = 0 → (∀ s a, (ans 0).soc ≠ .accepted s a) ∧
      (p.asserts = true → (ans 0).soc ≠ .userError))

/-- Why the loop stops at pass `k` with outcome `o`; `a` is the initial step. Trial `k` uses the
step `a / 2^k`. -/
inductive LsCause (p : LsParams) (ans : ℕ → TrialAns) (a : ℝ) (k : ℕ) : LsOut → Prop
  /-- The step fell below the minimum. -/
  | small (ls : Int) (st : Status) (hk : 1 ≤ k) (h : a / 2 ^ k < p.minStep)
      (hls : ls ≤ 0) (hst : (p.newton = false ∨ p.safe = true) → st = .stepTooSmall)
      (has : p.asserts = true → ls = 0 ∧ (st = .stepTooSmall ∨ st = .pending))
      (hst2 : st = .stepTooSmall ∨ st = .pending ∨ st = .errUser) :
      LsCause p ans a k (.ended ls (a / 2 ^ k) k st)
  /-- A user function failed at the trial point. -/
  | user (h : (ans k).evalOk = false) (hmin : 1 ≤ k → p.minStep ≤ a / 2 ^ k) :
      LsCause p ans a k .userError
  /-- The line search is disabled: leave after the first trial with status 0. -/
  | disabled (h : p.disableLS = true) (hk : k = 0) (hev : (ans k).evalOk = true) :
      LsCause p ans a k (.ended 0 a 1 .pending)
  /-- Trial `k` was accepted. -/
  | accepted (st : Status) (hev : (ans k).evalOk = true) (hs : 0 < ((ans k).status.val : Int))
      (hmin : 1 ≤ k → p.minStep ≤ a / 2 ^ k)
      (has : p.asserts = true → st = .pending) (hst2 : st = .pending ∨ st = .errUser) :
      LsCause p ans a k (.ended ((ans k).status.val : Int) (a / 2 ^ k) (k + 1) st)
  /-- The second-order correction of the first trial was accepted. -/
  | soc (s : Fin 3) (al : ℝ) (hk : k = 0) (hev : (ans k).evalOk = true)
      (hs : (ans k).status = 0) (h : (ans k).soc = .accepted s al) :
      LsCause p ans a k (.ended (s.val + 1) al 1 .pending)
  /-- A user function failed inside the second-order correction: failed assertion. -/
  | assertion (hk : k = 0) (ha : p.asserts = true) (h : (ans k).soc = .userError) :
      LsCause p ans a k .abort

/-- State of the loop on entering pass `k`. -/
structure LsInv (p : LsParams) (ans : ℕ → TrialAns) (a : ℝ) (k : ℕ) (s : LsState) : Prop where
  rej : AllRejected p ans k
  ini : s.ini = decide (k = 0)
  alpha : s.alpha = a / 2 ^ k
  num : s.num = k
  ls : s.ls ≤ 0
  ls0 : k = 0 → s.ls = 0 ∧ s.st = .pending
  asr : p.asserts = true → s.ls = 0 ∧ s.st = .pending
  dis : 1 ≤ k → p.disableLS = false
  step : 2 ≤ k → p.minStep ≤ a / 2 ^ (k - 1)
  st2 : s.st = .pending ∨ s.st = .errUser

theorem lsBody_spec (p : LsParams) (ans : ℕ → TrialAns) (a : ℝ) (k : ℕ) (s : LsState)
    (hi : LsInv p ans a k s) :
    (∀ o, lsBody p (ans k) s = .inl o → LsCause p ans a k o) ∧
    (∀ s', lsBody p (ans k) s = .inr s' → LsInv p ans a (k + 1) s' ∧ p.disableLS = false ∧
      (1 ≤ k → p.minStep ≤ a / 2 ^ k)) := by
  obtain ⟨hrej, hini, halpha, hnum, hls, hls0, hasr, hdis, hstep, hst2⟩ := hi
  have hmin : ¬ (s.ini = false ∧ s.alpha < p.minStep) → 1 ≤ k → p.minStep ≤ a / 2 ^ k := by
    intro hn hk
    rw [← halpha]; by_contra hlt
    exact hn ⟨by rw [hini]; simp; omega, not_le.mp hlt⟩
  unfold lsBody
  by_cases h1 : s.ini = false ∧ s.alpha < p.minStep
  · rw [if_pos h1]
    have hk : 1 ≤ k := by
      have := h1.1; rw [hini] at this; simp at this; omega
    have hlt : a / 2 ^ k < p.minStep := by rw [← halpha]; exact h1.2
    by_cases h2 : p.newton = false ∨ p.safe = true
    · rw [if_pos h2]
      refine ⟨fun o ho => ?_, fun s' hs' => by simp at hs'⟩
      rw [← Sum.inl.inj ho, halpha, hnum]
      exact .small _ _ hk hlt hls (fun _ => rfl) (fun ha => ⟨(hasr ha).1, Or.inl rfl⟩) (Or.inl rfl)
    · rw [if_neg h2]
      refine ⟨fun o ho => ?_, fun s' hs' => by simp at hs'⟩
      rw [← Sum.inl.inj ho, halpha, hnum]
      exact .small _ _ hk hlt le_rfl (fun hc => absurd hc h2)
        (fun ha => ⟨rfl, Or.inr (hasr ha).2⟩) (Or.inr hst2)
  · rw [if_neg h1]
    have hmin := hmin h1
    by_cases h2 : (ans k).evalOk = false
    · rw [if_pos h2]
      refine ⟨fun o ho => ?_, fun s' hs' => by simp at hs'⟩
      rw [← Sum.inl.inj ho]; exact .user h2 hmin
    · rw [if_neg h2]
      have hev : (ans k).evalOk = true := by simpa using h2
      by_cases h3 : p.disableLS = true
      · simp only [h3, if_true]
        refine ⟨fun o ho => ?_, fun s' hs' => by simp at hs'⟩
        by_cases hk : k = 0
        · have := hls0 hk
          rw [← Sum.inl.inj ho, halpha, hnum, this.1, this.2, hk]
          simpa using LsCause.disabled (p := p) (ans := ans) (a := a) (k := 0) h3 rfl (hk ▸ hev)
        · exact absurd h3 (by simp [hdis (by omega)])
      · rw [if_neg h3]
        have h3' : p.disableLS = false := by simpa using h3
        dsimp only
        by_cases h4 : ((ans k).status.val : Int) > 0
        · rw [if_pos h4]
          refine ⟨fun o ho => ?_, fun s' hs' => by simp at hs'⟩
          rw [← Sum.inl.inj ho, halpha, hnum]
          exact .accepted _ hev h4 hmin (fun ha => (hasr ha).2) hst2
        · rw [if_neg h4]
          have hs0 : (ans k).status = 0 := by
            apply Fin.ext; simp only [Fin.val_zero]; omega
          by_cases hk : k = 0
          · subst hk
            have hi0 : s.ini = true := by rw [hini]; simp
            obtain ⟨hl0, hst0⟩ := hls0 rfl
            have ha0 : s.alpha = a := by rw [halpha]; simp
            rw [if_pos hi0]
            cases hsoc : (ans 0).soc with
            | none =>
              dsimp only
              rw [if_neg (by simp)]
              refine ⟨fun o ho => by simp at ho, fun s' hs' => ?_⟩
              rw [← Sum.inr.inj hs']
              refine ⟨⟨?_, by simp, ?_, by simp [hnum], le_rfl, by simp, fun _ => ⟨rfl, hst0⟩,
                fun _ => h3', fun h => by omega, hst2⟩, h3', hmin⟩
              · intro j hj
                obtain rfl : j = 0 := by omega
                exact ⟨hev, hs0, fun _ => ⟨fun _ _ => by simp [hsoc], fun _ => by simp [hsoc]⟩⟩
              · simp only [ha0]; norm_num; ring
            | accepted st al =>
              dsimp only
              refine ⟨fun o ho => ?_, fun s' hs' => by simp at hs'⟩
              rw [← Sum.inl.inj ho, hst0, hnum]
              exact .soc st al rfl hev hs0 hsoc
            | userError =>
              dsimp only
              by_cases ha : p.asserts = true
              · rw [if_pos ⟨ha, by norm_num⟩]
                refine ⟨fun o ho => ?_, fun s' hs' => by simp at hs'⟩
                rw [← Sum.inl.inj ho]
                exact .assertion rfl ha hsoc
              · rw [if_neg (fun h => ha h.1)]
                refine ⟨fun o ho => by simp at ho, fun s' hs' => ?_⟩
                rw [← Sum.inr.inj hs']
                refine ⟨⟨?_, by simp, ?_, by simp [hnum], by norm_num, by simp,
                  fun h => absurd h ha, fun _ => h3', fun h => by omega, Or.inr rfl⟩, h3', hmin⟩
                · intro j hj
                  obtain rfl : j = 0 := by omega
                  exact ⟨hev, hs0, fun _ => ⟨fun _ _ => by simp [hsoc], fun h => absurd h ha⟩⟩
                · simp only [ha0]; norm_num; ring
          · have hi0 : ¬ s.ini = true := by rw [hini]; simp [hk]
            rw [if_neg hi0]
            dsimp only
            have hz : ((ans k).status.val : Int) = 0 := by rw [hs0]; rfl
            rw [hz, if_neg (by simp)]
            refine ⟨fun o ho => by simp at ho, fun s' hs' => ?_⟩
            rw [← Sum.inr.inj hs']
            refine ⟨⟨?_, by simp, ?_, by simp [hnum], le_rfl, by simp,
              fun ha => ⟨rfl, (hasr ha).2⟩, fun _ => h3', fun _ => hmin (by omega), hst2⟩, h3', hmin⟩
            · intro j hj
              by_cases hjk : j = k
              · subst hjk; exact ⟨hev, hs0, fun h => absurd h hk⟩
              · exact hrej j (by omega)
            · simp only [halpha, pow_succ]; norm_num; field_simp

theorem lsLoop_spec (p : LsParams) (ans : ℕ → TrialAns) (a : ℝ) (fuel k : ℕ) (s : LsState)
    (hi : LsInv p ans a k s) (o : LsOut) (h : lsLoop p ans fuel k s = some o) :
    ∃ k', k ≤ k' ∧ AllRejected p ans k' ∧ LsCause p ans a k' o ∧
      (2 ≤ k' → p.minStep ≤ a / 2 ^ (k' - 1)) := by
  induction fuel generalizing k s with
  | zero => simp [lsLoop] at h
  | succ fuel ih =>
    unfold lsLoop at h
    obtain ⟨b1, b2⟩ := lsBody_spec p ans a k s hi
    cases hb : lsBody p (ans k) s with
    | inl o' =>
      rw [hb] at h
      have : o' = o := by simpa using h
      subst this
      exact ⟨k, le_rfl, hi.rej, b1 _ hb, hi.step⟩
    | inr s' =>
      rw [hb] at h
      obtain ⟨k', h1, h2⟩ := ih (k + 1) s' (b2 _ hb).1 h
      exact ⟨k', by omega, h2⟩

theorem lsInit_inv (p : LsParams) (ans : ℕ → TrialAns) (a : ℝ) :
    LsInv p ans a 0 (lsInit a) :=
  ⟨fun j hj => absurd hj (by omega), by simp [lsInit], by simp [lsInit], rfl, le_rfl,
    fun _ => ⟨rfl, rfl⟩, fun _ => ⟨rfl, rfl⟩, by omega, by omega, Or.inl rfl⟩

theorem lsLoop_terminates (p : LsParams) (ans : ℕ → TrialAns) (a : ℝ) (N : ℕ)
    (hN1 : 1 ≤ N) (hN : a / 2 ^ N < p.minStep) (fuel k : ℕ) (hk : N + 1 ≤ fuel + k) (hkN : k ≤ N)
    (s : LsState) (hi : LsInv p ans a k s) : ∃ o, lsLoop p ans fuel k s = some o := by
  induction fuel generalizing k s with
  | zero => omega
  | succ fuel ih =>
    obtain ⟨b1, b2⟩ := lsBody_spec p ans a k s hi
    unfold lsLoop
    cases hb : lsBody p (ans k) s with
    | inl o' => exact ⟨o', rfl⟩
    | inr s' =>
      obtain ⟨c1, c2, c3⟩ := b2 _ hb
      refine ih (k + 1) (by omega) ?_ s' c1
      by_contra hlt
      have : k = N := by omega
      subst this
      linarith [c3 hN1]

/-- **C22.** The backtracking loop terminates, whatever user code and the filter answer: with a
positive minimum step, `N + 1` passes are enough as soon as `alpha_max / 2^N < min_step`. -/
theorem C22_terminates (p : LsParams) (ans : ℕ → TrialAns) (a : ℝ) (N : ℕ)
    (hN1 : 1 ≤ N) (hN : a / 2 ^ N < p.minStep) :
    ∃ o, lsLoop p ans (N + 1) 0 (lsInit a) = some o :=
  lsLoop_terminates p ans a N hN1 hN (N + 1) 0 (by omega) (by omega) _ (lsInit_inv p ans a)

/-- Such an `N` always exists. -/
theorem C22_bound_exists (p : LsParams) (a : ℝ) (hmin : 0 < p.minStep) :
    ∃ N, 1 ≤ N ∧ a / 2 ^ N < p.minStep := by
  obtain ⟨n, hn⟩ := pow_unbounded_of_one_lt (a / p.minStep) (by norm_num : (1:ℝ) < 2)
  refine ⟨n + 1, by omega, ?_⟩
  rw [div_lt_iff₀ (by positivity)]
  rw [div_lt_iff₀ hmin] at hn
  have : (2:ℝ) ^ n ≤ 2 ^ (n+1) := pow_le_pow_right₀ (by norm_num) (by omega)
  nlinarith

/-- **C22.** Every way the loop can end: at some pass `k`, all previous trials (with steps
`a, a/2, ..., a/2^(k-1)`) having been evaluated and rejected, and trial `k` (step `a/2^k`) is
accepted, or its evaluation fails, or `a/2^k` is below the minimum step, or the line search is
disabled, or the second-order correction of the first trial was accepted or failed. -/
theorem C22_outcome (p : LsParams) (ans : ℕ → TrialAns) (a : ℝ) (fuel : ℕ) (o : LsOut)
    (h : lsLoop p ans fuel 0 (lsInit a) = some o) :
    ∃ k, AllRejected p ans k ∧ LsCause p ans a k o := by
  obtain ⟨k, -, h1, h2, -⟩ := lsLoop_spec p ans a fuel 0 _ (lsInit_inv p ans a) o h
  exact ⟨k, h1, h2⟩

/-- **C22.** Number of trial points: at most `1 + max(0, log2 (alpha_max / min_step))`. -/
theorem C22_trial_bound (p : LsParams) (hmin : 0 < p.minStep) (ans : ℕ → TrialAns) (a : ℝ)
    (ha : 0 < a) (fuel : ℕ) (ls : Int) (al : ℝ) (n : ℕ) (st : Status)
    (h : lsLoop p ans fuel 0 (lsInit a) = some (.ended ls al n st)) :
    1 ≤ n ∧ (n : ℝ) ≤ 1 + max 0 (Real.logb 2 (a / p.minStep)) := by
  obtain ⟨k, -, h1, h2, h3⟩ := lsLoop_spec p ans a fuel 0 _ (lsInit_inv p ans a) _ h
  have key : ∀ j : ℕ, (1 ≤ j → p.minStep ≤ a / 2 ^ j) →
      (j : ℝ) ≤ max 0 (Real.logb 2 (a / p.minStep)) := by
    intro j hj
    by_cases hj0 : j = 0
    · subst hj0; simp
    · refine le_trans ?_ (le_max_right _ _)
      have h4 := hj (by omega)
      rw [le_div_iff₀ (by positivity)] at h4
      rw [Real.le_logb_iff_rpow_le (by norm_num) (by positivity), Real.rpow_natCast,
        le_div_iff₀ hmin]
      linarith
  cases h2 with
  | small _ _ hk hlt _ _ _ _ =>
    refine ⟨hk, ?_⟩
    have := key (n - 1) (fun hk1 => h3 (by omega))
    have hc : ((n - 1 : ℕ) : ℝ) = (n : ℝ) - 1 := by
      rw [Nat.cast_sub hk]; simp
    rw [hc] at this; linarith
  | disabled _ _ _ => exact ⟨le_rfl, by simp⟩
  | accepted _ _ _ hm _ _ =>
    refine ⟨by omega, ?_⟩
    have := key k hm
    push_cast; linarith
  | soc _ _ _ _ _ _ => exact ⟨le_rfl, by simp⟩

/-- **C22.** A user error is reported exactly when a trial evaluation that is reached fails. -/
theorem C22_user_error (p : LsParams) (ans : ℕ → TrialAns) (a : ℝ) (fuel : ℕ)
    (h : lsLoop p ans fuel 0 (lsInit a) = some .userError) :
    ∃ k, (ans k).evalOk = false ∧ ∀ j < k, (ans j).evalOk = true ∧ (ans j).status = 0 := by
  obtain ⟨k, h1, h2⟩ := C22_outcome p ans a fuel _ h
  cases h2 with
  | user h _ => exact ⟨k, h, fun j hj => ⟨(h1 j hj).1, (h1 j hj).2.1⟩⟩

/-- **C22**, counterexample to "a user failure is reported": a user function failing inside the
second-order correction trips the assertion `lsStatus == 0`. -/
theorem C22_soc_user_error_aborts (p : LsParams) (ans : ℕ → TrialAns) (a : ℝ)
    (ha : p.asserts = true) (hd : p.disableLS = false)
    (h1 : (ans 0).evalOk = true) (h2 : (ans 0).status = 0) (h3 : (ans 0).soc = .userError) :
    lsLoop p ans 1 0 (lsInit a) = some .abort := by
  simp [lsLoop, lsBody, lsInit, ha, hd, h1, h2, h3]

/-- **C22**, counterexample: with `accept_every_trial_step` the loop leaves with status 0, the
"no acceptable step" code, although the step is meant to be taken. -/
theorem C22_accept_every_step_status (p : LsParams) (ans : ℕ → TrialAns) (a : ℝ)
    (hd : p.disableLS = true) (h1 : (ans 0).evalOk = true) :
    lsLoop p ans 1 0 (lsInit a) = some (.ended 0 a 1 .pending) := by
  simp [lsLoop, lsBody, lsInit, hd, h1]

/-- **C22**, the option's lower limit: `min_step_size = 0` is an allowed setting, and then the
loop never ends if every trial is rejected. -/
theorem C22_zero_min_step_diverges (p : LsParams) (hmin : p.minStep = 0) (a : ℝ) (ha : 0 ≤ a)
    (hd : p.disableLS = false) (fuel : ℕ) :
    lsLoop p (fun _ => ⟨true, 0, .none⟩) fuel 0 (lsInit a) = none := by
  have key : ∀ (fuel k : ℕ) (s : LsState), 0 ≤ s.alpha →
      lsLoop p (fun _ => ⟨true, 0, .none⟩) fuel k s = none := by
    intro fuel
    induction fuel with
    | zero => intro k s _; rfl
    | succ fuel ih =>
      intro k s hs
      unfold lsLoop lsBody
      rw [if_neg (by rw [hmin]; exact fun h => absurd h.2 (not_lt.mpr hs))]
      cases hi : s.ini <;> simp [hd, hi] <;> exact ih _ _ (by positivity)
  exact key fuel 0 _ ha

-- Non-vacuity: two rejections, then acceptance with status 2 at a quarter of the step.
example : ∃ (p : LsParams) (ans : ℕ → TrialAns), 0 < p.minStep ∧
    lsLoop p ans 5 0 (lsInit 1) = some (.ended 2 (1/4) 3 .pending) := by
  refine ⟨⟨false, 1e-3, false, true, true⟩,
    fun k => if k < 2 then ⟨true, 0, .none⟩ else ⟨true, 2, .none⟩, by norm_num, ?_⟩
  norm_num [lsLoop, lsBody, lsInit]

/-! ## C23: moving limits -/

/-- **C23** (relative limit). With `moving_lim_rel = r > 0` the primal step is multiplied by `r`;
for `r ≤ 1` it never grows. -/
theorem C23_relative (r L nrm alpha : ℝ) (hr : 0 < r) (ha : 0 ≤ alpha) :
    ensureMovingLims r L nrm alpha = (true, r * alpha) ∧ (r ≤ 1 → r * alpha ≤ alpha) := by
  refine ⟨by simp [ensureMovingLims, hr], fun h => ?_⟩
  nlinarith

/-- **C23** (no limit set): the step is unchanged. -/
theorem C23_off (r L nrm alpha : ℝ) (hr : r ≤ 0) (hL : L ≤ 0) :
    ensureMovingLims r L nrm alpha = (false, alpha) := by
  simp [ensureMovingLims, not_lt.mpr hr, not_lt.mpr hL]

/-- **C23** (absolute limit), exact behaviour. A step within the limit is unchanged; otherwise
the new step has max-norm `L / alpha`, not `L`. -/
theorem C23_absolute_exact (r L nrm alpha : ℝ) (hr : r ≤ 0) (hL : 0 < L) (ha : 0 < alpha)
    (hn : 0 ≤ nrm) :
    (alpha * nrm ≤ L → ensureMovingLims r L nrm alpha = (false, alpha)) ∧
    (L < alpha * nrm → (ensureMovingLims r L nrm alpha).1 = true ∧
      (ensureMovingLims r L nrm alpha).2 * nrm = L / alpha) := by
  constructor
  · intro h; simp [ensureMovingLims, not_lt.mpr hr, hL, not_lt.mpr h]
  · intro h
    have hnp : 0 < nrm := by
      rcases hn.lt_or_eq with h1 | h1
      · exact h1
      · rw [← h1] at h; simp at h; linarith
    simp only [ensureMovingLims, not_lt.mpr hr, hL, h, if_true, if_false, gt_iff_lt, true_and]
    field_simp

/-- **C23** (absolute limit), the part that holds: the limit is respected and the step does not
grow when the incoming step is a full step or when it is already within the limit. Missing:
incoming steps shorter than one that exceed the limit. -/
theorem C23_absolute_partial (r L nrm alpha : ℝ) (hr : r ≤ 0) (hL : 0 < L) (ha : 0 < alpha)
    (hn : 0 ≤ nrm) (h : alpha = 1 ∨ alpha * nrm ≤ L) :
    (ensureMovingLims r L nrm alpha).2 * nrm ≤ L ∧
    (ensureMovingLims r L nrm alpha).2 ≤ alpha := by
  obtain ⟨h1, h2⟩ := C23_absolute_exact r L nrm alpha hr hL ha hn
  by_cases hc : alpha * nrm ≤ L
  · rw [h1 hc]; exact ⟨hc, le_rfl⟩
  · have h3 := (h2 (not_le.mp hc)).2
    obtain h | h := h
    · subst h
      refine ⟨by rw [h3]; simp, ?_⟩
      by_contra hlt
      push Not at hlt hc
      have hnp : 0 < nrm := by nlinarith
      have : 1 * nrm < (ensureMovingLims r L nrm 1).2 * nrm := by nlinarith
      rw [h3] at this; norm_num at this hc; linarith
    · exact absurd h hc

/-- **C23**, violation: whenever the limit is active on a step shorter than one, the returned step
exceeds the absolute limit. -/
theorem C23_absolute_violated (r L nrm alpha : ℝ) (hr : r ≤ 0) (hL : 0 < L) (ha : 0 < alpha)
    (ha1 : alpha < 1) (hn : 0 ≤ nrm) (hact : L < alpha * nrm) :
    L < (ensureMovingLims r L nrm alpha).2 * nrm := by
  rw [((C23_absolute_exact r L nrm alpha hr hL ha hn).2 hact).2, lt_div_iff₀ ha]
  nlinarith

/-- **C23**, violation: the "reduced" step can be longer than the incoming one. -/
theorem C23_absolute_can_increase :
    ∃ r L nrm alpha : ℝ, r ≤ 0 ∧ 0 < L ∧ 0 < alpha ∧ alpha ≤ 1 ∧ 0 ≤ nrm ∧
      alpha < (ensureMovingLims r L nrm alpha).2 := by
  refine ⟨0, 5, 100, 1/10, le_rfl, by norm_num, by norm_num, by norm_num, by norm_num, ?_⟩
  norm_num [ensureMovingLims]

-- Non-vacuity of the partial theorem with an active limit.
example : (ensureMovingLims 0 2 10 1).1 = true ∧ (ensureMovingLims 0 2 10 1).2 * 10 = 2 := by
  norm_num [ensureMovingLims]

-- Non-vacuity of the violation theorem.
example : (2:ℝ) < (1/2) * 10 ∧ (ensureMovingLims 0 2 10 (1/2)).2 * 10 = 4 := by
  norm_num [ensureMovingLims]

end Hiop.Driver
