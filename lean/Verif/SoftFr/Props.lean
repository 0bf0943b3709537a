import Verif.SoftFr.Model
import Verif.Filter.Props

/-!
# C91: what a soft feasibility restoration returns
-/

namespace Hiop.SoftFr

variable {T : Type}

/-! ## Specification -/

/-- The trial points: the first with the rejected direction, each further one with the residual of the
last. -/
def pts (E : Env T) : ℕ → T
  | 0 => E.move none
  | k + 1 => E.move (some (pts E k))

/-- The point reduces the optimality error enough. -/
def Reduces (E : Env T) (t : T) : Prop := E.err t ≤ 999 / 1000 * E.errCurr

/-- The filter rejects the point: an entry is at least as good in infeasibility and objective. -/
def Rejected (E : Env T) (t : T) : Prop := ∃ e ∈ E.filt, e.theta ≤ E.theta t ∧ e.phi ≤ E.phi t

/-- The four ways a restoration ends, in round `k` (from 0), all earlier trial points having reduced
the error and been rejected by the filter. -/
inductive Ends (E : Env T) (r : Res T) (k : ℕ) : Prop
  | userError (h : r.userErr = true) (hr : r.ret = true)
  | noReduction (h : r.userErr = false) (hr : r.ret = false) (ht : r.trial = pts E k)
      (hn : ¬ Reduces E r.trial)
  | accepted (h : r.userErr = false) (hr : r.ret = true) (ht : r.trial = pts E k)
      (h1 : Reduces E r.trial) (h2 : ¬ Rejected E r.trial)
  | exhausted (h : r.userErr = false) (hr : r.ret = E.duOk r.trial) (ht : r.trial = pts E k)
      (hk : k = 9) (h1 : Reduces E r.trial) (h2 : Rejected E r.trial)

/-! ## Lemmas -/

theorem rejected_iff (E : Env T) (t : T) :
    Filter.contains E.filt (E.theta t) (E.phi t) = true ↔ Rejected E t :=
  Filter.contains_eq_true_iff _ _ _

/-- What one trial point leads to. -/
theorem judge_spec (E : Env T) (asserts : Bool) (k : ℕ) (log : List T) :
    (∀ r, judge E asserts (pts E k) log = .inl (some r) →
      Ends E r k ∧ r.evals = pts E k :: log ∧ (asserts = true → r.userErr = false →
        E.duOk (pts E k) = true)) ∧
    ∀ l, judge E asserts (pts E k) log = .inr l →
      l = pts E k :: log ∧ Reduces E (pts E k) ∧ Rejected E (pts E k) ∧
        (asserts = true → E.duOk (pts E k) = true) := by
  unfold judge
  have hdu : ¬ (E.duOk (pts E k) = false ∧ asserts = true) → asserts = true →
      E.duOk (pts E k) = true := by
    intro h ha
    rcases e : E.duOk (pts E k) with _ | _
    · exact absurd ⟨e, ha⟩ h
    · rfl
  split_ifs with h1 h2 h3 h4
  · refine ⟨fun r h => ?_, fun l h => by cases h⟩
    cases h
    exact ⟨.userError rfl rfl, rfl, fun _ h => by cases h⟩
  · exact ⟨fun r h => by simp at h, fun l h => by cases h⟩
  · refine ⟨fun r h => ?_, fun l h => by cases h⟩
    cases h
    exact ⟨.noReduction rfl rfl rfl (not_le.mpr h3), rfl, fun ha _ => hdu h2 ha⟩
  · refine ⟨fun r h => (by cases h), fun l h => ?_⟩
    cases h
    exact ⟨rfl, not_lt.mp h3, (rejected_iff E _).mp h4, hdu h2⟩
  · refine ⟨fun r h => ?_, fun l h => by cases h⟩
    cases h
    exact ⟨.accepted rfl rfl rfl (not_lt.mp h3) (fun hc => h4 ((rejected_iff E _).mpr hc)), rfl,
      fun ha _ => hdu h2 ha⟩

/-- The result of all rounds. -/
def Spec (E : Env T) (asserts : Bool) (r : Res T) : Prop :=
  ∃ k, k < 10 ∧ (∀ j, j < k → Reduces E (pts E j) ∧ Rejected E (pts E j)) ∧ Ends E r k ∧
    (∀ t ∈ r.evals, ∃ j, j ≤ k ∧ t = pts E j) ∧ r.evals.length ≤ 2 * k + 1 ∧
    (asserts = true → r.userErr = false → E.duOk (pts E k) = true)

theorem later_spec (E : Env T) (asserts : Bool) :
    ∀ (fuel k : ℕ) (log : List T) (r : Res T), fuel + k = 9 →
      (∀ j, j ≤ k → Reduces E (pts E j) ∧ Rejected E (pts E j)) →
      (∀ t ∈ log, ∃ j, j ≤ k ∧ t = pts E j) → log.length ≤ 2 * k + 1 →
      (asserts = true → E.duOk (pts E k) = true) →
      later E asserts fuel (pts E k) log = some r → Spec E asserts r := by
  intro fuel
  induction fuel with
  | zero =>
    intro k log r hk hj hl hn hd h
    unfold later at h
    cases h
    obtain ⟨h1, h2⟩ := hj k le_rfl
    exact ⟨k, by omega, fun j hjk => hj j hjk.le, .exhausted rfl rfl rfl (by omega) h1 h2, hl, hn,
      fun ha _ => hd ha⟩
  | succ fuel ih =>
    intro k log r hk hj hl hn hd h
    unfold later at h
    have hl' : ∀ t ∈ pts E k :: log, ∃ j, j ≤ k ∧ t = pts E j := by
      intro t ht
      rcases List.mem_cons.mp ht with rfl | ht
      · exact ⟨k, le_rfl, rfl⟩
      · exact hl t ht
    have hl2 : ∀ t ∈ pts E (k + 1) :: pts E k :: log, ∃ j, j ≤ k + 1 ∧ t = pts E j := by
      intro t ht
      rcases List.mem_cons.mp ht with rfl | ht
      · exact ⟨k + 1, le_rfl, rfl⟩
      · obtain ⟨j, h1, h2⟩ := hl' t ht
        exact ⟨j, by omega, h2⟩
    have hlen : (pts E (k + 1) :: pts E k :: log).length ≤ 2 * (k + 1) + 1 := by
      simp only [List.length_cons]; omega
    split_ifs at h with h1 h2
    · cases h
      exact ⟨k + 1, by omega, fun j hjk => hj j (by omega), .userError rfl rfl,
        fun t ht => (hl' t ht).imp fun j hj => ⟨by omega, hj.2⟩,
        by simp only [List.length_cons]; omega, fun _ h => by cases h⟩
    · obtain ⟨g1, g2⟩ := judge_spec E asserts (k + 1) (pts E k :: log)
      change (match judge E asserts (pts E (k + 1)) (pts E k :: log) with
        | .inl r => r
        | .inr log => later E asserts fuel (pts E (k + 1)) log) = some r at h
      rcases e : judge E asserts (pts E (k + 1)) (pts E k :: log) with q | l
      · rw [e] at h
        simp only at h
        subst h
        obtain ⟨m1, m2, m3⟩ := g1 r e
        exact ⟨k + 1, by omega, fun j hjk => hj j (by omega), m1, by rw [m2]; exact hl2,
          by rw [m2]; exact hlen, m3⟩
      · rw [e] at h
        simp only at h
        obtain ⟨m1, m2, m3, m4⟩ := g2 l e
        subst m1
        refine ih (k + 1) _ r (by omega) ?_ hl2 hlen m4 h
        intro j hjk
        rcases Nat.lt_or_ge j (k + 1) with hlt | hge
        · exact hj j (by omega)
        · have : j = k + 1 := by omega
          subst this
          exact ⟨m2, m3⟩

theorem soft_spec (E : Env T) (asserts : Bool) (r : Res T) (h : soft E asserts = some r) :
    Spec E asserts r := by
  unfold soft at h
  obtain ⟨g1, g2⟩ := judge_spec E asserts 0 []
  change (match judge E asserts (pts E 0) [] with
    | .inl r => r
    | .inr log => later E asserts 9 (pts E 0) log) = some r at h
  have hl : ∀ t ∈ [pts E 0], ∃ j, j ≤ 0 ∧ t = pts E j := by
    intro t ht
    exact ⟨0, le_rfl, List.mem_singleton.mp ht⟩
  rcases e : judge E asserts (pts E 0) [] with q | l
  · rw [e] at h
    simp only at h
    subst h
    obtain ⟨m1, m2, m3⟩ := g1 r e
    exact ⟨0, by omega, fun j hj => absurd hj (by omega), m1, by rw [m2]; exact hl,
      by rw [m2]; simp, m3⟩
  · rw [e] at h
    simp only at h
    obtain ⟨m1, m2, m3, m4⟩ := g2 l e
    subst m1
    refine later_spec E asserts 9 0 _ r rfl ?_ hl (by simp) m4 h
    intro j hj
    have : j = 0 := by omega
    subst this
    exact ⟨m2, m3⟩

/-! ## Properties -/

/-- **C91.** If a soft restoration reports success and no user function failed, then its trial point is
one of the first ten, it reduces the optimality error by the factor, all trial points before it did so
too but were in the filter; and it is not in the filter itself, or it is the tenth. Missing (false,
below): that the tenth is acceptable to the filter, and that a failing user function is no success. -/
theorem C91_success_partial (E : Env T) (asserts : Bool) (r : Res T) (h : soft E asserts = some r)
    (hr : r.ret = true) (hu : r.userErr = false) :
    ∃ k, k < 10 ∧ r.trial = pts E k ∧ Reduces E r.trial ∧
      (∀ j, j < k → Reduces E (pts E j) ∧ Rejected E (pts E j)) ∧
      (k ≠ 9 → ¬ Rejected E r.trial) := by
  obtain ⟨k, h1, h2, h3, -⟩ := soft_spec E asserts r h
  rcases h3 with ⟨a, b⟩ | ⟨a, b, c, d⟩ | ⟨a, b, c, d, e⟩ | ⟨a, b, c, d, e, f⟩
  · rw [hu] at a; cases a
  · rw [hr] at b; cases b
  · exact ⟨k, h1, c, d, h2, fun _ => e⟩
  · exact ⟨k, h1, c, e, h2, fun g => absurd d g⟩

/-- **C91, failure.** With assertions, or if the multiplier updates succeed, a soft restoration reports
failure only with a trial point that does not reduce the error, all earlier ones having been rejected by
the filter. -/
theorem C91_failure (E : Env T) (asserts : Bool) (hd : asserts = true ∨ ∀ t, E.duOk t = true)
    (r : Res T) (h : soft E asserts = some r) (hr : r.ret = false) :
    r.userErr = false ∧ ∃ k, k < 10 ∧ r.trial = pts E k ∧ ¬ Reduces E r.trial ∧
      ∀ j, j < k → Reduces E (pts E j) ∧ Rejected E (pts E j) := by
  obtain ⟨k, h1, h2, h3, -, -, h4⟩ := soft_spec E asserts r h
  rcases h3 with ⟨a, b⟩ | ⟨a, b, c, d⟩ | ⟨a, b, c, d, e⟩ | ⟨a, b, c, d, e, f⟩
  · rw [hr] at b; cases b
  · exact ⟨a, k, h1, c, d, h2⟩
  · rw [hr] at b; cases b
  · exfalso
    rw [hr, c] at b
    rcases hd with hd | hd
    · rw [h4 hd a] at b; cases b
    · rw [hd] at b; cases b

/-- **C91, effort.** The user's functions are asked only at the trial points and at most 19 times. -/
theorem C91_evaluations (E : Env T) (asserts : Bool) (r : Res T) (h : soft E asserts = some r) :
    r.evals.length ≤ 19 ∧ ∀ t ∈ r.evals, ∃ j, j < 10 ∧ t = pts E j := by
  obtain ⟨k, h1, -, -, h2, h3, -⟩ := soft_spec E asserts r h
  exact ⟨by omega, fun t ht => (h2 t ht).imp fun j hj => ⟨by omega, hj.2⟩⟩

/-- **C91, course.** If nothing fails, the first trial point (of ten) that is not both reducing the
error and rejected by the filter decides: failure if it does not reduce the error, success otherwise. -/
theorem C91_course (E : Env T) (asserts : Bool) (he : ∀ l, E.evalOk l = true)
    (hd : ∀ t, E.dirOk t = true) (hu : ∀ t, E.duOk t = true) (k : ℕ) (hk : k < 10)
    (h : ∀ j, j < k → Reduces E (pts E j) ∧ Rejected E (pts E j))
    (hn : ¬ (Reduces E (pts E k) ∧ Rejected E (pts E k))) :
    ∃ r, soft E asserts = some r ∧ r.userErr = false ∧ r.trial = pts E k ∧
      (r.ret = true ↔ Reduces E (pts E k)) := by
  have hj : ∀ j log, j < k → judge E asserts (pts E j) log = .inr (pts E j :: log) := by
    intro j log hk
    unfold judge
    rw [if_neg (by simp [he]), if_neg (by simp [hu]), if_neg (not_lt.mpr (h j hk).1),
      if_pos ((rejected_iff E _).mpr (h j hk).2)]
  have hend : ∀ log, ∃ r, judge E asserts (pts E k) log = .inl (some r) ∧ r.userErr = false ∧
      r.trial = pts E k ∧ (r.ret = true ↔ Reduces E (pts E k)) := by
    intro log
    unfold judge
    rw [if_neg (by simp [he]), if_neg (by simp [hu])]
    by_cases hr : Reduces E (pts E k)
    · rw [if_neg (not_lt.mpr hr), if_neg (fun hc => hn ⟨hr, (rejected_iff E _).mp hc⟩)]
      exact ⟨_, rfl, rfl, rfl, by simp [hr]⟩
    · rw [if_pos (not_le.mp hr)]
      exact ⟨_, rfl, rfl, rfl, by simp [hr]⟩
  have hl : ∀ (d j fuel : ℕ) (log : List T), j + d + 1 = k → d + 1 ≤ fuel →
      ∃ r, later E asserts fuel (pts E j) log = some r ∧ r.userErr = false ∧ r.trial = pts E k ∧
        (r.ret = true ↔ Reduces E (pts E k)) := by
    intro d
    induction d with
    | zero =>
      intro j fuel log hjk hf
      obtain ⟨f, rfl⟩ : ∃ f, fuel = f + 1 := ⟨fuel - 1, by omega⟩
      obtain rfl : k = j + 1 := by omega
      obtain ⟨r, h1, h2⟩ := hend (pts E j :: log)
      refine ⟨r, ?_, h2⟩
      unfold later
      rw [if_neg (by simp [he]), if_neg (by simp [hd]),
        show E.move (some (pts E j)) = pts E (j + 1) from rfl, h1]
    | succ d ih =>
      intro j fuel log hjk hf
      obtain ⟨f, rfl⟩ : ∃ f, fuel = f + 1 := ⟨fuel - 1, by omega⟩
      obtain ⟨r, h1, h2⟩ := ih (j + 1) f (pts E (j + 1) :: pts E j :: log) (by omega) (by omega)
      refine ⟨r, ?_, h2⟩
      unfold later
      rw [if_neg (by simp [he]), if_neg (by simp [hd]),
        show E.move (some (pts E j)) = pts E (j + 1) from rfl, hj (j + 1) _ (by omega)]
      exact h1
  unfold soft
  rw [show E.move none = pts E 0 from rfl]
  rcases Nat.eq_zero_or_pos k with rfl | hpos
  · obtain ⟨r, h1, h2⟩ := hend []
    rw [h1]
    exact ⟨r, rfl, h2⟩
  · rw [hj 0 [] hpos]
    exact hl (k - 1) 0 9 _ (by omega) (by omega)

/-- A first trial point that reduces the error and is not in the filter is taken at once. -/
theorem C91_first_accepted (E : Env T) (asserts : Bool) (h1 : Reduces E (pts E 0))
    (h2 : ¬ Rejected E (pts E 0)) (h3 : E.evalOk [pts E 0] = true) (h4 : E.duOk (pts E 0) = true) :
    soft E asserts = some ⟨true, false, pts E 0, [pts E 0]⟩ := by
  have hj : judge E asserts (pts E 0) [] = .inl (some ⟨true, false, pts E 0, [pts E 0]⟩) := by
    unfold judge
    rw [if_neg (by simp [h3]), if_neg (by simp [h4]), if_neg (not_lt.mpr h1),
      if_neg (fun hc => h2 ((rejected_iff E _).mp hc))]
  unfold soft
  rw [show E.move none = pts E 0 from rfl, hj]

/-- **Refuted (finding): the filter.** Whenever ten trial points in a row reduce the error and are all
rejected by the filter, success is reported with a point that the filter rejects. -/
theorem C91_filter_refuted (E : Env T) (asserts : Bool) (he : ∀ l, E.evalOk l = true)
    (hd : ∀ t, E.dirOk t = true) (hu : ∀ t, E.duOk t = true)
    (h : ∀ j, j < 10 → Reduces E (pts E j) ∧ Rejected E (pts E j)) :
    ∃ r, soft E asserts = some r ∧ r.ret = true ∧ r.userErr = false ∧ Rejected E r.trial := by
  have hj : ∀ k log, k < 10 → judge E asserts (pts E k) log = .inr (pts E k :: log) := by
    intro k log hk
    unfold judge
    rw [if_neg (by simp [he]), if_neg (by simp [hu]), if_neg (not_lt.mpr (h k hk).1),
      if_pos ((rejected_iff E _).mpr (h k hk).2)]
  have hl : ∀ (fuel k : ℕ) (log : List T), fuel + k = 9 →
      ∃ l, later E asserts fuel (pts E k) log = some ⟨true, false, pts E 9, l⟩ := by
    intro fuel
    induction fuel with
    | zero =>
      intro k log hk
      have : k = 9 := by omega
      subst this
      exact ⟨log, by unfold later; rw [hu]⟩
    | succ fuel ih =>
      intro k log hk
      obtain ⟨l, hl⟩ := ih (k + 1) (pts E (k + 1) :: pts E k :: log) (by omega)
      refine ⟨l, ?_⟩
      unfold later
      rw [if_neg (by simp [he]), if_neg (by simp [hd]),
        show E.move (some (pts E k)) = pts E (k + 1) from rfl, hj (k + 1) _ (by omega)]
      exact hl
  obtain ⟨l, h9⟩ := hl 9 0 [pts E 0] rfl
  refine ⟨⟨true, false, pts E 9, l⟩, ?_, rfl, rfl, (h 9 (by omega)).2⟩
  unfold soft
  rw [show E.move none = pts E 0 from rfl, hj 0 _ (by omega)]
  exact h9

/-- **Refuted (finding): failing functions.** If the user's functions fail at the first trial point,
success is reported. -/
theorem C91_user_error_refuted (E : Env T) (asserts : Bool) (h : E.evalOk [pts E 0] = false) :
    ∃ r, soft E asserts = some r ∧ r.ret = true ∧ r.userErr = true := by
  refine ⟨⟨true, true, pts E 0, [pts E 0]⟩, ?_, rfl, rfl⟩
  unfold soft
  rw [show E.move none = pts E 0 from rfl]
  unfold judge
  rw [if_pos h]

/-- The hypotheses of `C91_filter_refuted` are met: points numbered by the rounds, errors 1/2 against
1, a filter with the entry (0, 0). -/
example : ∃ E : Env ℕ, (∀ l, E.evalOk l = true) ∧ (∀ t, E.dirOk t = true) ∧ (∀ t, E.duOk t = true) ∧
    ∀ j, j < 10 → Reduces E (pts E j) ∧ Rejected E (pts E j) :=
  ⟨⟨1, fun _ => 1 / 2, fun _ => 1, fun _ => 1, [⟨0, 0⟩], fun o => o.elim 0 (· + 1), fun _ => true,
      fun _ => true, fun _ => true⟩, fun _ => rfl, fun _ => rfl, fun _ => rfl, fun j _ =>
    ⟨by show (1 / 2 : ℝ) ≤ 999 / 1000 * 1; norm_num,
     ⟨⟨0, 0⟩, by simp, by show (0 : ℝ) ≤ 1; norm_num, by show (0 : ℝ) ≤ 1; norm_num⟩⟩⟩

/-- And those of `C91_success_partial`, `C91_failure`: a first point that is taken, one that is not. -/
example : (∃ (E : Env ℕ) (r : Res ℕ), soft E true = some r ∧ r.ret = true ∧ r.userErr = false) :=
  ⟨⟨1, fun _ => 1 / 2, fun _ => 1, fun _ => 1, [], fun o => o.elim 0 (· + 1), fun _ => true,
      fun _ => true, fun _ => true⟩, _, C91_first_accepted _ true
    (by show (1 / 2 : ℝ) ≤ 999 / 1000 * 1; norm_num) (by rintro ⟨e, he, -⟩; cases he) rfl rfl, rfl, rfl⟩

end Hiop.SoftFr
