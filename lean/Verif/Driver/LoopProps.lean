import Verif.Driver.Loop
import Verif.Driver.Props

/-!
# Property C24: the solver main loops
-/

set_option linter.unusedSimpArgs false

namespace Hiop.Driver

/-! ## Facts about the pieces -/

theorem lsRun_defined (p : LsParams) (hmin : 0 < p.minStep) (ans : ℕ → TrialAns) (a : ℝ)
    (ha : 0 < a) : ∃ o, lsRun p ans a = some o := by
  have h : a / 2 ^ (⌈Real.logb 2 (a / p.minStep)⌉₊ + 2) < p.minStep := by
    have hpos : 0 < a / p.minStep := div_pos ha hmin
    have h1 : Real.logb 2 (a / p.minStep) ≤ (⌈Real.logb 2 (a / p.minStep)⌉₊ : ℝ) := Nat.le_ceil _
    have h2 : a / p.minStep ≤ 2 ^ ⌈Real.logb 2 (a / p.minStep)⌉₊ := by
      rw [← Real.rpow_natCast]
      exact (Real.logb_le_iff_le_rpow (by norm_num) hpos).1 h1
    rw [div_le_iff₀ hmin] at h2
    rw [div_lt_iff₀ (by positivity), pow_add]
    have : 0 < (2:ℝ) ^ ⌈Real.logb 2 (a / p.minStep)⌉₊ * p.minStep := by positivity
    nlinarith
  exact C22_terminates p ans a _ (by omega) h

theorem applyFR_false (w asr : Bool) (a : FrAns) (st st2 : Status)
    (h : applyFR w asr a st = some (false, st2)) : st2 = .infeasible ∨ st2 = .errFR := by
  unfold applyFR at h
  rcases a with ⟨soft, inner, forceOk, evalOk⟩
  cases w <;> cases soft <;> cases inner <;> cases forceOk <;> cases evalOk <;> cases asr <;>
    simp_all

/-- Statuses with which the loop can be left through `return` inside a linear-solve pass. -/
theorem newtonPass_ret (c : Cfg) (it : ℕ) (a : Attempt) (safe : Bool) (st r : Status) (u : Bool)
    (h : newtonPass c it a safe st u = .ret r) : r = .errStep ∨ r = .errUser := by
  unfold newtonPass at h
  simp only at h
  repeat' split at h
  all_goals simp_all

theorem checkTermination_ne_pending (t : Tols) (e0 e : Errs) (iter nAcc : ℕ) (st : Status) (n : ℕ)
    (h : checkTermination t e0 e iter nAcc = (some st, n)) :
    st = .success ∨ st = .maxIter ∨ st = .successRelTol ∨ st = .acceptable :=
  (C09_status_meaning t e0 e iter nAcc).2.2.2.2 st (by rw [h])

theorem finishIter_ret (s : LState) (a : IterAns) (e0 : Errs) (n : ℕ) (safe : Bool) (st : Status)
    (u : Bool) (c : Cfg) (r : Status) (i : ℕ)
    (h : finishIter s a e0 n safe st u (breakWith c s.iter) = .inl (.ret r i)) :
    (r = st ∧ st ≠ .pending ∧ i = s.iter) ∨
    (r = .errUser ∧ u = false ∧ a.derivOk = false ∧ i = s.iter + 1) := by
  unfold finishIter breakWith at h
  split_ifs at h with h1 h2 h3
  · simp at h
  · simp only [Sum.inl.injEq, Res.ret.injEq] at h
    exact Or.inl ⟨h.1.symm, h1, h.2.symm⟩
  · simp only [Sum.inl.injEq, Res.ret.injEq] at h
    exact Or.inr ⟨h.1.symm, h3.1, h3.2, h.2.symm⟩

theorem finishIter_next (s : LState) (a : IterAns) (e0 : Errs) (n : ℕ) (safe : Bool) (st : Status)
    (u : Bool) (b : Status → Res) (s' : LState)
    (h : finishIter s a e0 n safe st u b = .inr s') :
    s'.iter = s.iter + 1 ∧ s'.nAcc = n ∧ s'.e0 = some e0 := by
  unfold finishIter at h
  split_ifs at h
  rw [← Sum.inr.inj h]; exact ⟨rfl, rfl, rfl⟩

/-- What one iteration of either solver can do; `P` says whether a `pending` result is allowed. -/
structure BodySpec (P : Prop) (c : Cfg) (body : LState → IterAns → Res ⊕ LState) : Prop where
  next : ∀ s a s', body s a = .inr s' →
    a.cbOk = true ∧ s'.iter = s.iter + 1 ∧ s'.e0 = some (s.e0.getD a.errs) ∧
    checkTermination c.tols (s.e0.getD a.errs) a.errs s.iter s.nAcc = (none, s'.nAcc)
  ret : ∀ s a st i, body s a = .inl (.ret st i) →
    (a.cbOk = false ∧ st = .userStopped ∧ i = s.iter) ∨
    (a.cbOk = true ∧ i = s.iter ∧
      ∃ n, checkTermination c.tols (s.e0.getD a.errs) a.errs s.iter s.nAcc = (some st, n)) ∨
    (a.cbOk = true ∧ s.iter < c.tols.maxIt ∧
      (checkTermination c.tols (s.e0.getD a.errs) a.errs s.iter s.nAcc).1 = none ∧
      (i = s.iter ∨ i = s.iter + 1 ∧ st = .errUser ∧ a.derivOk = false) ∧
      (st = .errStep ∨ st = .errUser ∨ st = .stepTooSmall ∨ st = .infeasible ∨ st = .errFR ∨
        st = .pending ∧ P))
  stop : ∀ s a, a.cbOk = false → body s a = .inl (.ret .userStopped s.iter)

theorem checkTermination_none_lt (t : Tols) (e0 e : Errs) (iter nAcc n : ℕ)
    (h : checkTermination t e0 e iter nAcc = (none, n)) : iter < t.maxIt := by
  by_contra hlt
  have h1 := (C09_status_meaning t e0 e iter nAcc).2.1
  have h2 := (C09_status_meaning t e0 e iter nAcc).1
  rw [h] at h1 h2
  simp only [reduceCtorEq, false_iff] at h1 h2
  exact h1 ⟨h2, not_lt.mp hlt⟩

/-- Possible statuses when a linear-solve pass is left, given the status on entry. -/
def Quiet (st : Status) : Prop :=
  st = .errUser ∨ st = .stepTooSmall ∨ st = .infeasible ∨ st = .errFR ∨ st = .pending

theorem lsRun_status (p : LsParams) (ans : ℕ → TrialAns) (a : ℝ) (ls : Int) (al : ℝ) (n : ℕ)
    (st : Status) (h : lsRun p ans a = some (.ended ls al n st)) :
    (st = .pending ∨ st = .errUser ∨ st = .stepTooSmall) ∧
    (0 < ls → ls = 1 ∨ ls = 2 ∨ ls = 3) ∧
    (p.asserts = true → ls = 0 ∨ 0 < ls ∧ st = .pending) := by
  obtain ⟨k, h1, h2⟩ := C22_outcome p ans a _ _ h
  cases h2 with
  | small _ _ hk hlt hls _ has hst2 =>
    refine ⟨by tauto, fun hp => by omega, fun ha => Or.inl (has ha).1⟩
  | disabled _ _ _ => exact ⟨by simp, by simp, by simp⟩
  | accepted _ _ hs _ has hst2 =>
    refine ⟨by tauto, fun hp => ?_, fun ha => Or.inr ⟨hs, has ha⟩⟩
    have := (ans k).status.isLt
    omega
  | soc s' _ _ _ _ _ =>
    refine ⟨by simp, fun _ => ?_, fun _ => Or.inr ⟨by omega, rfl⟩⟩
    have := s'.isLt
    omega

theorem mergeSt_quiet (a b : Status) (ha : Quiet a)
    (hb : b = .pending ∨ b = .errUser ∨ b = .stepTooSmall) : Quiet (mergeSt a b) := by
  unfold mergeSt
  split_ifs
  · exact ha
  · unfold Quiet; tauto

theorem newtonPass_quiet (c : Cfg) (it : ℕ) (a : Attempt) (safe : Bool) (st : Status) (u : Bool)
    (hst : Quiet st) (safe' : Bool) (st' : Status) (u' : Bool)
    (h : newtonPass c it a safe st u = .again safe' st' u' ∨
      newtonPass c it a safe st u = .done safe' st' u') : Quiet st' := by
  unfold newtonPass at h
  simp only at h
  by_cases hk : a.kktOk = false
  · rw [if_pos hk] at h
    split_ifs at h <;> simp_all
  · rw [if_neg hk] at h
    cases hd : a.dir with
    | solveFail => simp only [hd] at h; split_ifs at h <;> simp_all
    | maxRefact => simp only [hd] at h; split_ifs at h <;> simp_all
    | ok =>
      simp only [hd] at h
      cases hl : lsRun ⟨c.disableLS, c.minStep, safe, true, c.asserts⟩ a.trials a.alphaMax with
      | none => simp [hl] at h
      | some o =>
        cases o with
        | userError => simp [hl] at h
        | abort => simp [hl] at h
        | ended ls al n st1 =>
          simp only [hl] at h
          have hq := mergeSt_quiet st st1 hst (lsRun_status _ _ _ _ _ _ _ hl).1
          have hqp : Quiet .pending := by simp [Quiet]
          have hfr : ∀ st2, applyFR c.withinFR c.asserts a.fr (mergeSt st st1) = some (false, st2) →
              Quiet st2 := by
            intro st2 h2
            rcases applyFR_false _ _ _ _ _ h2 with rfl | rfl <;> simp [Quiet]
          cases hA : applyFR c.withinFR c.asserts a.fr (mergeSt st st1) with
          | none =>
            simp only [hA] at h
            split_ifs at h <;> simp_all
          | some r =>
            obtain ⟨b, st2⟩ := r
            cases b
            · have := hfr st2 hA
              simp only [hA] at h
              split_ifs at h <;> simp_all
            · simp only [hA] at h
              split_ifs at h <;> simp_all

theorem breakWith_ret (c : Cfg) (i : ℕ) (st r : Status) (j : ℕ) (h : breakWith c i st = .ret r j) :
    r = st ∧ j = i := by
  unfold breakWith at h
  split_ifs at h
  simp only [Res.ret.injEq] at h
  exact ⟨h.1.symm, h.2.symm⟩

theorem breakWith_terminal (c : Cfg) (i : ℕ) (st : Status) (h1 : st ≠ .errUser)
    (h2 : st ≠ .pending) : breakWith c i st = .ret st i := by
  unfold breakWith; rw [if_neg]; tauto

theorem newton_bodySpec (c : Cfg) : BodySpec False c (newtonIter c) := by
  constructor
  · intro s a s' h
    unfold newtonIter at h
    simp only at h
    by_cases hcb : a.cbOk = false
    · rw [if_pos hcb] at h; simp at h
    rw [if_neg hcb] at h
    have hcb' : a.cbOk = true := by simpa using hcb
    refine ⟨hcb', ?_⟩
    cases hct : checkTermination c.tols (s.e0.getD a.errs) a.errs s.iter s.nAcc with
    | mk o n =>
    cases o with
    | some st => simp [hct] at h
    | none =>
      simp only [hct] at h
      have : s'.iter = s.iter + 1 ∧ s'.nAcc = n ∧ s'.e0 = some (s.e0.getD a.errs) := by
        split at h
        · simp at h
        · simp at h
        · simp at h
        · exact finishIter_next _ _ _ _ _ _ _ _ _ h
        · split at h
          · simp at h
          · simp at h
          · simp at h
          · exact finishIter_next _ _ _ _ _ _ _ _ _ h
          · exact finishIter_next _ _ _ _ _ _ _ _ _ h
      exact ⟨this.1, this.2.2, by rw [this.2.1]⟩
  · intro s a st i h
    unfold newtonIter at h
    simp only at h
    by_cases hcb : a.cbOk = false
    · rw [if_pos hcb] at h
      have := breakWith_ret _ _ _ _ _ (Sum.inl.inj h)
      exact Or.inl ⟨hcb, this.1, this.2⟩
    rw [if_neg hcb] at h
    have hcb' : a.cbOk = true := by simpa using hcb
    right
    cases hct : checkTermination c.tols (s.e0.getD a.errs) a.errs s.iter s.nAcc with
    | mk o n =>
    cases o with
    | some st1 =>
      simp only [hct] at h
      have := breakWith_ret _ _ _ _ _ (Sum.inl.inj h)
      exact Or.inl ⟨hcb', this.2, n, by rw [this.1]⟩
    | none =>
      right
      simp only [hct] at h
      refine ⟨hcb', checkTermination_none_lt _ _ _ _ _ _ hct, rfl, ?_⟩
      have fin : ∀ safe st1 u, Quiet st1 →
          finishIter s a (s.e0.getD a.errs) n safe st1 u (breakWith c s.iter) = .inl (.ret st i) →
          (i = s.iter ∨ i = s.iter + 1 ∧ st = .errUser ∧ a.derivOk = false) ∧
          (st = .errStep ∨ st = .errUser ∨ st = .stepTooSmall ∨ st = .infeasible ∨ st = .errFR ∨
            st = .pending ∧ False) := by
        intro safe st1 u hq hf
        rcases finishIter_ret _ _ _ _ _ _ _ _ _ _ hf with ⟨rfl, hne, hi⟩ | ⟨rfl, hu, hd, hi⟩
        · exact ⟨Or.inl hi, by unfold Quiet at hq; tauto⟩
        · exact ⟨Or.inr ⟨hi, rfl, hd⟩, by simp⟩
      have hqp : Quiet .pending := by simp [Quiet]
      split at h
      · rename_i st1 hp
        simp only [Sum.inl.injEq, Res.ret.injEq] at h
        obtain ⟨rfl, rfl⟩ := h
        rcases newtonPass_ret _ _ _ _ _ _ _ hp with rfl | rfl <;> simp
      · simp at h
      · simp at h
      · rename_i hp
        exact fin _ _ _ (newtonPass_quiet _ _ _ _ _ _ hqp _ _ _ (Or.inr hp)) h
      · rename_i hp
        have hq := newtonPass_quiet _ _ _ _ _ _ hqp _ _ _ (Or.inl hp)
        split at h
        · rename_i st1 hp2
          simp only [Sum.inl.injEq, Res.ret.injEq] at h
          obtain ⟨rfl, rfl⟩ := h
          rcases newtonPass_ret _ _ _ _ _ _ _ hp2 with rfl | rfl <;> simp
        · simp at h
        · simp at h
        · rename_i hp2
          exact fin _ _ _ (newtonPass_quiet _ _ _ _ _ _ hq _ _ _ (Or.inr hp2)) h
        · rename_i hp2
          exact fin _ _ _ (newtonPass_quiet _ _ _ _ _ _ hq _ _ _ (Or.inl hp2)) h
  · intro s a h
    unfold newtonIter
    simp only
    rw [if_pos h, breakWith_terminal _ _ _ (by simp) (by simp)]

theorem qn_bodySpec (c : Cfg) : BodySpec True c (qnIter c) := by
  constructor
  · intro s a s' h
    unfold qnIter at h
    simp only at h
    by_cases hcb : a.cbOk = false
    · rw [if_pos hcb] at h; simp at h
    rw [if_neg hcb] at h
    have hcb' : a.cbOk = true := by simpa using hcb
    refine ⟨hcb', ?_⟩
    cases hct : checkTermination c.tols (s.e0.getD a.errs) a.errs s.iter s.nAcc with
    | mk o n =>
    cases o with
    | some st => simp [hct] at h
    | none =>
      simp only [hct] at h
      have : s'.iter = s.iter + 1 ∧ s'.nAcc = n ∧ s'.e0 = some (s.e0.getD a.errs) := by
        repeat' split at h
        all_goals first
          | (simp at h; done)
          | exact finishIter_next _ _ _ _ _ _ _ _ _ h
      exact ⟨this.1, this.2.2, by rw [this.2.1]⟩
  · intro s a st i h
    unfold qnIter at h
    simp only at h
    by_cases hcb : a.cbOk = false
    · rw [if_pos hcb] at h
      have := breakWith_ret _ _ _ _ _ (Sum.inl.inj h)
      exact Or.inl ⟨hcb, this.1, this.2⟩
    rw [if_neg hcb] at h
    have hcb' : a.cbOk = true := by simpa using hcb
    right
    cases hct : checkTermination c.tols (s.e0.getD a.errs) a.errs s.iter s.nAcc with
    | mk o n =>
    cases o with
    | some st1 =>
      simp only [hct] at h
      have := breakWith_ret _ _ _ _ _ (Sum.inl.inj h)
      exact Or.inl ⟨hcb', this.2, n, by rw [this.1]⟩
    | none =>
      right
      simp only [hct] at h
      refine ⟨hcb', checkTermination_none_lt _ _ _ _ _ _ hct, rfl, ?_⟩
      have fin : ∀ safe st1 u, Quiet st1 →
          finishIter s a (s.e0.getD a.errs) n safe st1 u (breakWith c s.iter) = .inl (.ret st i) →
          (i = s.iter ∨ i = s.iter + 1 ∧ st = .errUser ∧ a.derivOk = false) ∧
          (st = .errStep ∨ st = .errUser ∨ st = .stepTooSmall ∨ st = .infeasible ∨ st = .errFR ∨
            st = .pending ∧ True) := by
        intro safe st1 u hq hf
        rcases finishIter_ret _ _ _ _ _ _ _ _ _ _ hf with ⟨rfl, hne, hi⟩ | ⟨rfl, hu, hd, hi⟩
        · exact ⟨Or.inl hi, by unfold Quiet at hq; tauto⟩
        · exact ⟨Or.inr ⟨hi, rfl, hd⟩, by simp⟩
      have hqp : Quiet .pending := by simp [Quiet]
      have brk : ∀ st1, Quiet st1 → Sum.inl (β := LState) (breakWith c s.iter st1) = .inl (.ret st i) →
          (i = s.iter ∨ i = s.iter + 1 ∧ st = .errUser ∧ a.derivOk = false) ∧
          (st = .errStep ∨ st = .errUser ∨ st = .stepTooSmall ∨ st = .infeasible ∨ st = .errFR ∨
            st = .pending ∧ True) := by
        intro st1 hq hb
        obtain ⟨rfl, hi⟩ := breakWith_ret _ _ _ _ _ (Sum.inl.inj hb)
        exact ⟨Or.inl hi, by unfold Quiet at hq; tauto⟩
      have hfr : ∀ st1 st2, applyFR c.withinFR c.asserts (a.att 0).fr st1 = some (false, st2) →
          Quiet st2 := by
        intro st1 st2 h2
        rcases applyFR_false _ _ _ _ _ h2 with rfl | rfl <;> simp [Quiet]
      by_cases hk : (a.att 0).kktOk = false
      · rw [if_pos hk] at h
        simp only [Sum.inl.injEq, Res.ret.injEq] at h
        obtain ⟨rfl, rfl⟩ := h; simp
      rw [if_neg hk] at h
      cases hd : (a.att 0).dir with
      | solveFail =>
        simp only [hd, Sum.inl.injEq, Res.ret.injEq] at h
        obtain ⟨rfl, rfl⟩ := h; simp
      | maxRefact =>
        simp only [hd, Sum.inl.injEq, Res.ret.injEq] at h
        obtain ⟨rfl, rfl⟩ := h; simp
      | ok =>
        simp only [hd] at h
        cases hl : lsRun ⟨c.disableLS, c.minStep, true, false, c.asserts⟩ (a.att 0).trials
            (a.att 0).alphaMax with
        | none => simp [hl] at h
        | some o =>
          cases o with
          | userError =>
            simp only [hl, Sum.inl.injEq, Res.ret.injEq] at h
            obtain ⟨rfl, rfl⟩ := h; simp
          | abort => simp [hl] at h
          | ended ls al m st1 =>
            simp only [hl] at h
            have hq : Quiet st1 := by
              have := (lsRun_status _ _ _ _ _ _ _ hl).1
              unfold Quiet; tauto
            split at h
            · split at h
              · simp at h
              · exact fin _ _ _ hqp h
              · rename_i hf; exact fin _ _ _ (hfr _ _ hf) h
            · split at h
              · exact fin _ _ _ hq h
              · split at h
                · split at h
                  · simp at h
                  · exact brk _ hqp h
                  · rename_i hf; exact brk _ (hfr _ _ hf) h
                · split at h
                  · simp at h
                  · exact fin _ _ _ hq h
  · intro s a h
    unfold qnIter
    simp only
    rw [if_pos h, breakWith_terminal _ _ _ (by simp) (by simp)]

/-! ## Whole runs -/

/-- Termination of the loop: `max_iter + 1` passes always suffice. -/
theorem runLoop_some (P : Prop) (c : Cfg) (body : LState → IterAns → Res ⊕ LState)
    (hb : BodySpec P c body) (env : ℕ → IterAns) (fuel : ℕ) (s : LState)
    (hf : c.tols.maxIt + 1 ≤ fuel + s.iter) (hi : s.iter ≤ c.tols.maxIt) :
    ∃ r, runLoop body env fuel s = some r := by
  induction fuel generalizing s with
  | zero => omega
  | succ fuel ih =>
    unfold runLoop
    cases hbs : body s (env s.iter) with
    | inl r => exact ⟨r, rfl⟩
    | inr s' =>
      obtain ⟨-, h2, -, h4⟩ := hb.next _ _ _ hbs
      have := checkTermination_none_lt _ _ _ _ _ _ h4
      exact ih s' (by omega) (by omega)

/-- The counters before iteration `k`, in terms of the environment only. -/
theorem runLoop_ret (P : Prop) (c : Cfg) (body : LState → IterAns → Res ⊕ LState)
    (hb : BodySpec P c body) (env : ℕ → IterAns) (fuel : ℕ) (s : LState)
    (hi : s.iter ≤ c.tols.maxIt)
    (hcb : ∀ j < s.iter, (env j).cbOk = true)
    (he0 : s.e0.getD (env s.iter).errs = (env 0).errs)
    (hcnt : counterAt c.tols (env 0).errs (fun j => (env j).errs) s.iter = some s.nAcc)
    (st : Status) (i : ℕ) (h : runLoop body env fuel s = some (.ret st i)) :
    ∃ k n, k ≤ c.tols.maxIt ∧ (∀ j < k, (env j).cbOk = true) ∧
      counterAt c.tols (env 0).errs (fun j => (env j).errs) k = some n ∧
      (((env k).cbOk = false ∧ st = .userStopped ∧ i = k) ∨
       ((env k).cbOk = true ∧ i = k ∧
         (checkTermination c.tols (env 0).errs (env k).errs k n).1 = some st) ∨
       ((env k).cbOk = true ∧ k < c.tols.maxIt ∧
         (checkTermination c.tols (env 0).errs (env k).errs k n).1 = none ∧
         (i = k ∨ i = k + 1 ∧ st = .errUser ∧ (env k).derivOk = false) ∧
         (st = .errStep ∨ st = .errUser ∨ st = .stepTooSmall ∨ st = .infeasible ∨ st = .errFR ∨
           st = .pending ∧ P))) := by
  induction fuel generalizing s with
  | zero => simp [runLoop] at h
  | succ fuel ih =>
    unfold runLoop at h
    cases hbs : body s (env s.iter) with
    | inl r =>
      rw [hbs] at h
      have hr : r = .ret st i := by simpa using h
      subst hr
      refine ⟨s.iter, s.nAcc, hi, hcb, hcnt, ?_⟩
      rcases hb.ret _ _ _ _ hbs with h1 | ⟨h1, h2, n, h3⟩ | ⟨h1, h2, h5, h3, h4⟩
      · exact Or.inl h1
      · rw [he0] at h3
        exact Or.inr (Or.inl ⟨h1, h2, by rw [h3]⟩)
      · rw [he0] at h5
        exact Or.inr (Or.inr ⟨h1, h2, h5, h3, h4⟩)
    | inr s' =>
      rw [hbs] at h
      obtain ⟨h1, h2, h3, h4⟩ := hb.next _ _ _ hbs
      have hlt := checkTermination_none_lt _ _ _ _ _ _ h4
      rw [he0] at h4 h3
      refine ih s' (by omega) ?_ ?_ ?_ h
      · intro j hj
        by_cases hjs : j = s.iter
        · rw [hjs]; exact h1
        · exact hcb j (by omega)
      · rw [h3]; rfl
      · rw [h2]
        simp only [counterAt, hcnt, h4]

/-- Shared conclusion about a run that returned status `st` after `i` iterations. -/
structure RunSpec (c : Cfg) (env : ℕ → IterAns) (st : Status) (i : ℕ) : Prop where
  /-- At most `max_iter` iterations are completed. -/
  iters : i ≤ c.tols.maxIt
  /-- Success means the final errors are within all tolerances. -/
  success : st = .success → WithinTols c.tols (env i).errs
  /-- Relative success refers to the errors at the very first iterate. -/
  rel : st = .successRelTol → WithinRelTols c.tols (env 0).errs (env i).errs
  /-- Acceptable means `acceptable_iterations` consecutive acceptable iterates. -/
  acceptable : st = .acceptable → c.tols.accepIt ≤ i + 1 ∧
    ∀ j, i + 1 - c.tols.accepIt ≤ j → j ≤ i → (env j).errs.nlp ≤ c.tols.epsTolAccep
  /-- The iteration limit is reported only when reached, and without success. -/
  limit : st = .maxIter → i = c.tols.maxIt ∧ ¬ WithinTols c.tols (env i).errs
  /-- `User_Stopped` is reported exactly when the callback of the last iteration said so. -/
  stopped : st = .userStopped → (env i).cbOk = false
  /-- Every earlier iteration was allowed to continue by the callback and did not meet the
  tolerances. -/
  earlier : ∀ j < i, (env j).cbOk = true ∧ ¬ WithinTols c.tols (env j).errs
  /-- No status is reported at an iterate where the user callback had asked to stop, unless the
  derivatives could not be evaluated there. -/
  cb : (env i).cbOk = false → st = .userStopped ∨ (st = .errUser ∧ 1 ≤ i ∧ (env (i - 1)).derivOk = false)

theorem counterAt_not_within (t : Tols) (e0 : Errs) (errs : ℕ → Errs) (k c : ℕ)
    (h : counterAt t e0 errs k = some c) : ∀ j < k, ¬ WithinTols t (errs j) := by
  induction k generalizing c with
  | zero => intro j hj; omega
  | succ k ih =>
    unfold counterAt at h
    cases hc : counterAt t e0 errs k with
    | none => simp [hc] at h
    | some c0 =>
      simp only [hc] at h
      intro j hj
      by_cases hjk : j = k
      · subst hjk
        intro hw
        have := (C09_status_meaning t e0 (errs j) j c0).1.2 hw
        cases hct : checkTermination t e0 (errs j) j c0 with
        | mk o n => rw [hct] at this h; simp only at this; subst this; simp at h
      · exact ih c0 hc j (by omega)

theorem runSpec_of_ret (P : Prop) (c : Cfg) (hc : 1 ≤ c.tols.accepIt)
    (body : LState → IterAns → Res ⊕ LState)
    (hb : BodySpec P c body) (env : ℕ → IterAns) (fuel : ℕ) (safe : Bool) (st : Status) (i : ℕ)
    (h : runLoop body env fuel (startState safe) = some (.ret st i)) :
    RunSpec c env st i ∧ (st = .pending → P) := by
  obtain ⟨k, n, h1, h2, h3, h4⟩ := runLoop_ret P c body hb env fuel (startState safe)
    (Nat.zero_le _) (fun j hj => absurd hj (Nat.not_lt_zero _)) rfl rfl st i h
  have hm := C09_status_meaning c.tols (env 0).errs (env k).errs k n
  have hw := counterAt_not_within _ _ _ _ _ h3
  rcases h4 with ⟨a1, rfl, rfl⟩ | ⟨a1, rfl, a2⟩ | ⟨a1, a2, a3, a4, a5⟩
  · refine ⟨⟨h1, by simp, by simp, by simp, by simp, fun _ => a1, fun j hj => ⟨h2 j hj, hw j hj⟩,
      fun _ => Or.inl rfl⟩, by simp⟩
  · refine ⟨⟨h1, ?_, ?_, ?_, ?_, ?_, fun j hj => ⟨h2 j hj, hw j hj⟩, fun h => by simp [a1] at h⟩, ?_⟩
    · rintro rfl; exact hm.1.1 a2
    · rintro rfl; exact (hm.2.2.1.1 a2).2.2
    · rintro rfl
      have := (C09_acceptable_level c.tols hc (env 0).errs (fun j => (env j).errs) i n h3).1 a2
      exact ⟨this.2.2.2.1, this.2.2.2.2⟩
    · rintro rfl
      have := hm.2.1.1 a2
      exact ⟨by omega, this.1⟩
    · rintro rfl
      have := hm.2.2.2.2 _ a2; simp at this
    · rintro rfl
      have := hm.2.2.2.2 _ a2; simp at this
  · have hni : ¬ WithinTols c.tols (env k).errs := fun hw => by
      have := hm.1.2 hw; rw [a3] at this; simp at this
    refine ⟨⟨?_, ?_, ?_, ?_, ?_, ?_, ?_, ?_⟩, ?_⟩
    · rcases a4 with rfl | ⟨rfl, -⟩ <;> omega
    · rintro rfl; simp at a5
    · rintro rfl; simp at a5
    · rintro rfl; simp at a5
    · rintro rfl; simp at a5
    · rintro rfl; simp at a5
    · intro j hj
      by_cases hjk : j = k
      · subst hjk; exact ⟨a1, hni⟩
      · have : j < k := by rcases a4 with rfl | ⟨rfl, -⟩ <;> omega
        exact ⟨h2 j this, hw j this⟩
    · intro hcb
      rcases a4 with rfl | ⟨rfl, rfl, hd⟩
      · simp [a1] at hcb
      · exact Or.inr ⟨rfl, by omega, by simpa using hd⟩
    · rintro rfl
      simpa using a5

/-- **C24 (Newton solver).** For every behaviour of user callbacks, linear solvers, line-search
trials and restoration, the loop ends within `max_iter + 1` passes. -/
theorem C24_newton_terminates (c : Cfg) (env : ℕ → IterAns) :
    ∃ r, runNewton c env (c.tols.maxIt + 1) = some r :=
  runLoop_some False c _ (newton_bodySpec c) env _ _ (by simp [startState]) (Nat.zero_le _)

/-- **C24 (quasi-Newton solver).** Same bound. -/
theorem C24_quasi_newton_terminates (c : Cfg) (env : ℕ → IterAns) :
    ∃ r, runQuasiNewton c env (c.tols.maxIt + 1) = some r :=
  runLoop_some True c _ (qn_bodySpec c) env _ _ (by simp [startState]) (Nat.zero_le _)

/-- **C24 (Newton solver).** A returned status is never the transient `pending` one and means
what `RunSpec` says. -/
theorem C24_newton_result (c : Cfg) (hc : 1 ≤ c.tols.accepIt) (env : ℕ → IterAns) (fuel : ℕ)
    (st : Status) (i : ℕ) (h : runNewton c env fuel = some (.ret st i)) :
    st ≠ .pending ∧ RunSpec c env st i := by
  obtain ⟨h1, h2⟩ := runSpec_of_ret False c hc _ (newton_bodySpec c) env fuel _ st i h
  exact ⟨h2, h1⟩

/-- **C24 (quasi-Newton solver), partial.** The same meaning of statuses; missing: the returned
status can be `pending` (see `C24_quasi_newton_pending`). -/
theorem C24_quasi_newton_result_partial (c : Cfg) (hc : 1 ≤ c.tols.accepIt) (env : ℕ → IterAns)
    (fuel : ℕ) (st : Status) (i : ℕ) (h : runQuasiNewton c env fuel = some (.ret st i)) :
    RunSpec c env st i :=
  (runSpec_of_ret True c hc _ (qn_bodySpec c) env fuel _ st i h).1

/-- **C24.** Neither solver diverges inside a line search when the minimum step is positive and
the fraction-to-the-boundary steps are positive. -/
theorem C24_no_divergence (c : Cfg) (hmin : 0 < c.minStep) (env : ℕ → IterAns)
    (ha : ∀ k j, 0 < ((env k).att j).alphaMax) (fuel : ℕ) :
    runNewton c env fuel ≠ some .diverge ∧ runQuasiNewton c env fuel ≠ some .diverge := by
  have hpass : ∀ it k j safe st u,
      newtonPass c it ((env k).att j) safe st u ≠ .diverge := by
    intro it k j safe st u h
    obtain ⟨o, ho⟩ := lsRun_defined ⟨c.disableLS, c.minStep, safe, true, c.asserts⟩ hmin
      ((env k).att j).trials _ (ha k j)
    unfold newtonPass at h
    simp only [ho] at h
    repeat' split at h
    all_goals simp_all
  have hbrk : ∀ i st, breakWith c i st ≠ .diverge := by
    intro i st; unfold breakWith; split_ifs <;> simp
  have hfin : ∀ s a e0 n safe st u, finishIter s a e0 n safe st u (breakWith c s.iter)
      ≠ .inl .diverge := by
    intro s a e0 n safe st u
    unfold finishIter
    split_ifs <;> simp [hbrk]
  have hrun : ∀ (body : LState → IterAns → Res ⊕ LState),
      (∀ s k, body s (env k) ≠ .inl .diverge) → ∀ fuel s,
      runLoop body env fuel s ≠ some .diverge := by
    intro body hbody fuel
    induction fuel with
    | zero => intro s; simp [runLoop]
    | succ fuel ih =>
      intro s
      unfold runLoop
      cases hb : body s (env s.iter) with
      | inl r =>
        simp only [ne_eq, Option.some.injEq]
        rintro rfl; exact hbody _ _ hb
      | inr s' => exact ih s'
  constructor
  · refine hrun _ (fun s k h => ?_) fuel _
    unfold newtonIter at h
    simp only at h
    split at h
    · exact hbrk _ _ (Sum.inl.inj h)
    · split at h
      · exact hbrk _ _ (Sum.inl.inj h)
      · split at h
        · simp at h
        · simp at h
        · rename_i hp; exact hpass _ _ _ _ _ _ hp
        · exact hfin _ _ _ _ _ _ _ h
        · split at h
          · simp at h
          · simp at h
          · rename_i hp; exact hpass _ _ _ _ _ _ hp
          · exact hfin _ _ _ _ _ _ _ h
          · exact hfin _ _ _ _ _ _ _ h
  · refine hrun _ (fun s k h => ?_) fuel _
    obtain ⟨o, ho⟩ := lsRun_defined ⟨c.disableLS, c.minStep, true, false, c.asserts⟩ hmin
      ((env k).att 0).trials _ (ha k 0)
    unfold qnIter at h
    simp only [ho] at h
    repeat' split at h
    all_goals first
      | (simp at h; done)
      | exact hbrk _ _ (Sum.inl.inj h)
      | exact hfin _ _ _ _ _ _ _ h
      | simp_all

/-! ## Evaluation failures -/

/-- A search direction was available in every attempt (no inertia-free refactorisation limit). -/
def NoRefactLimit (a : IterAns) : Prop := ∀ j, (a.att j).dir ≠ .maxRefact

/-- Attempt `j` produced an accepted trial: the line search ended with status 1, 2 or 3, or
(mode `forcequick` only) with status 0. -/
def Accepted (c : Cfg) (t : Attempt) : Prop :=
  t.kktOk = true ∧ t.dir = .ok ∧ ∃ safe ls al n st,
    lsRun ⟨c.disableLS, c.minStep, safe, true, c.asserts⟩ t.trials t.alphaMax
      = some (.ended ls al n st) ∧
    (ls = 1 ∨ ls = 2 ∨ ls = 3 ∨ (ls = 0 ∧ c.mode = .forcequick))

theorem newtonPass_done (c : Cfg) (it : ℕ) (t : Attempt) (safe : Bool) (st : Status) (u : Bool)
    (safe' : Bool) (h : newtonPass c it t safe st u = .done safe' .pending false) :
    Accepted c t := by
  unfold newtonPass at h
  simp only at h
  by_cases hk : t.kktOk = false
  · rw [if_pos hk] at h; split_ifs at h
  rw [if_neg hk] at h
  have hk' : t.kktOk = true := by simpa using hk
  cases hd : t.dir with
  | solveFail => simp only [hd] at h; split_ifs at h
  | maxRefact => simp only [hd] at h; split_ifs at h
  | ok =>
    simp only [hd] at h
    cases hl : lsRun ⟨c.disableLS, c.minStep, safe, true, c.asserts⟩ t.trials t.alphaMax with
    | none => simp [hl] at h
    | some o =>
      cases o with
      | userError => simp [hl] at h
      | abort => simp [hl] at h
      | ended ls al n st1 =>
        simp only [hl] at h
        split at h
        · split at h <;> simp at h
        · split at h
          · rename_i h3
            exact ⟨hk', hd, safe, ls, al, n, st1, hl, by tauto⟩
          · split at h
            · split at h
              · split at h
                · simp at h
                · simp at h
                · rename_i h2
                  rcases applyFR_false _ _ _ _ _ h2 with rfl | rfl <;> simp at h
              · rename_i h0 _
                split at h
                · rename_i hf
                  refine ⟨hk', hd, safe, ls, al, n, st1, hl, ?_⟩
                  simp at hf; tauto
                · simp at h
            · split at h <;> simp at h

theorem newtonPass_again (c : Cfg) (hasr : c.asserts = true) (it : ℕ) (t : Attempt)
    (safe : Bool) (st : Status) (u : Bool) (hd : t.dir ≠ .maxRefact)
    (safe' : Bool) (st' : Status) (u' : Bool)
    (h : newtonPass c it t safe st u = .again safe' st' u') :
    (safe = false ∧ safe' = true) ∨ st' ≠ .pending := by
  unfold newtonPass at h
  simp only at h
  by_cases hk : t.kktOk = false
  · rw [if_pos hk] at h
    split_ifs at h with h1
    simp only [PassOut.again.injEq] at h
    left; exact ⟨by simp_all, h.1.symm⟩
  rw [if_neg hk] at h
  cases hdd : t.dir with
  | solveFail =>
    simp only [hdd] at h
    split_ifs at h with h1
    simp only [PassOut.again.injEq] at h
    left; exact ⟨by simp_all, h.1.symm⟩
  | maxRefact => exact absurd hdd hd
  | ok =>
    simp only [hdd] at h
    cases hl : lsRun ⟨c.disableLS, c.minStep, safe, true, c.asserts⟩ t.trials t.alphaMax with
    | none => simp [hl] at h
    | some o =>
      cases o with
      | userError => simp [hl] at h
      | abort => simp [hl] at h
      | ended ls al n st1 =>
        simp only [hl] at h
        split at h
        · split at h
          · simp at h
          · simp at h
          · rename_i h2
            simp only [PassOut.again.injEq] at h
            rw [← h.2.1]
            rcases applyFR_false _ _ _ _ _ h2 with rfl | rfl <;> simp
        · split at h
          · simp at h
          · split at h
            · split at h
              · split at h <;> simp at h
              · rename_i hs
                split at h
                · simp at h
                · simp only [PassOut.again.injEq] at h
                  left; exact ⟨by simpa using hs, h.1.symm⟩
            · simp [hasr] at h

theorem newtonPass_again_sticky (c : Cfg) (it : ℕ) (t : Attempt)
    (safe : Bool) (st : Status) (u : Bool) (hst : st ≠ .pending)
    (safe' : Bool) (st' : Status) (u' : Bool)
    (h : newtonPass c it t safe st u = .again safe' st' u') : st' ≠ .pending := by
  have hm : ∀ x, mergeSt st x ≠ .pending := by
    intro x; unfold mergeSt; split_ifs <;> assumption
  unfold newtonPass at h
  simp only at h
  by_cases hk : t.kktOk = false
  · rw [if_pos hk] at h
    split_ifs at h with h1
    simp only [PassOut.again.injEq] at h
    rw [← h.2.1]; exact hst
  rw [if_neg hk] at h
  cases hdd : t.dir with
  | solveFail =>
    simp only [hdd] at h
    split_ifs at h with h1
    simp only [PassOut.again.injEq] at h
    rw [← h.2.1]; exact hst
  | maxRefact =>
    simp only [hdd] at h
    split_ifs at h with h1
    simp only [PassOut.again.injEq] at h
    rw [← h.2.1]; exact hst
  | ok =>
    simp only [hdd] at h
    cases hl : lsRun ⟨c.disableLS, c.minStep, safe, true, c.asserts⟩ t.trials t.alphaMax with
    | none => simp [hl] at h
    | some o =>
      cases o with
      | userError => simp [hl] at h
      | abort => simp [hl] at h
      | ended ls al n st1 =>
        simp only [hl] at h
        split at h
        · split at h
          · simp at h
          · simp at h
          · rename_i h2
            simp only [PassOut.again.injEq] at h
            rw [← h.2.1]
            rcases applyFR_false _ _ _ _ _ h2 with rfl | rfl <;> simp
        · split at h
          · simp at h
          · split at h
            · split at h
              · split at h <;> simp at h
              · split at h
                · simp at h
                · simp only [PassOut.again.injEq] at h
                  rw [← h.2.1]; exact hm _
            · split at h
              · simp at h
              · simp only [PassOut.again.injEq] at h
                rw [← h.2.1]; exact hm _

/-- **C24.** (Newton solver, assertions on, refactorisation limit not hit.) An iteration that
completes without restoration has taken a trial point accepted by the line search of one of its
two attempts and has evaluated the derivatives there successfully. -/
theorem C24_completed_iteration_partial (c : Cfg) (hasr : c.asserts = true) (s s' : LState)
    (a : IterAns) (hd : NoRefactLimit a) (h : newtonIter c s a = .inr s') (hu : s'.useFr = false) :
    a.derivOk = true ∧ (Accepted c (a.att 0) ∨ Accepted c (a.att 1)) := by
  unfold newtonIter at h
  simp only at h
  split at h
  · simp at h
  split at h
  · simp at h
  have fin : ∀ e0 n safe st u, finishIter s a e0 n safe st u (breakWith c s.iter) = .inr s' →
      a.derivOk = true ∧ st = .pending ∧ u = false := by
    intro e0 n safe st u hf
    unfold finishIter at hf
    split_ifs at hf with h1 h2
    have hs' := Sum.inr.inj hf
    rw [← hs'] at hu
    simp only at hu
    refine ⟨?_, by simpa using h1, hu⟩
    by_contra hdv
    exact h2 ⟨hu, by simpa using hdv⟩
  split at h
  · simp at h
  · simp at h
  · simp at h
  · rename_i hp
    obtain ⟨f1, rfl, rfl⟩ := fin _ _ _ _ _ h
    exact ⟨f1, Or.inl (newtonPass_done _ _ _ _ _ _ _ hp)⟩
  · rename_i safe1 st1 u1 hp
    have ha1 := newtonPass_again c hasr _ _ _ _ _ (hd 0) _ _ _ hp
    split at h
    · simp at h
    · simp at h
    · simp at h
    · rename_i hp2
      obtain ⟨f1, rfl, rfl⟩ := fin _ _ _ _ _ h
      exact ⟨f1, Or.inr (newtonPass_done _ _ _ _ _ _ _ hp2)⟩
    · rename_i safe2 st2 u2 hp2
      obtain ⟨f1, rfl, rfl⟩ := fin _ _ _ _ _ h
      exfalso
      have ha2 := newtonPass_again c hasr _ _ _ _ _ (hd 1) _ _ _ hp2
      simp only [ne_eq, not_true_eq_false, or_false] at ha2
      rcases ha1 with ha1 | ha1
      · rw [ha1.2] at ha2; simp at ha2
      · exact newtonPass_again_sticky _ _ _ _ _ _ ha1 _ _ _ hp2 rfl

/-! ## Where the full statement fails -/

/-- A line search in which the only trial is rejected and the halved step is below the minimum. -/
theorem lsRun_small (safe newton asr : Bool) (h : newton = false ∨ safe = true) :
    lsRun ⟨false, 1, safe, newton, asr⟩ (fun _ => ⟨true, 0, .none⟩) 1
      = some (.ended 0 (1 * 0.5) 1 .stepTooSmall) := by
  unfold lsRun lsFuel
  rw [show ⌈Real.logb 2 ((1:ℝ) / 1)⌉₊ + 3 = (⌈Real.logb 2 ((1:ℝ) / 1)⌉₊ + 1) + 1 + 1 from rfl]
  unfold lsLoop
  simp only [lsBody, lsInit]
  norm_num
  unfold lsLoop
  simp only [lsBody]
  norm_num
  simp [h]

/-- Tolerances used by the witnesses. -/
noncomputable def wTols : Tols := ⟨1, 1, 1, 1, 0, 1, 5, 3⟩

/-- An environment whose errors never meet the tolerances. -/
noncomputable def wEnv (dir : DirAns) (fr : FrAns) : IterAns :=
  { errs := ⟨9, 9, 9, 9, 9⟩, cbOk := true, fast := false,
    att := fun _ => ⟨true, dir, 1, fun _ => ⟨true, 0, .none⟩, fr⟩, derivOk := true }

theorem wCheck (e0 : Errs) (n : ℕ) : checkTermination wTols e0 ⟨9, 9, 9, 9, 9⟩ 0 n = (none, 0) := by
  norm_num [checkTermination, wTols]

/-- **C24**, violation (quasi-Newton): when the line search fails and feasibility restoration
*succeeds*, the loop is left and `run` returns the transient status `NlpSolve_Pending` (in a
build with assertions it aborts instead). -/
theorem C24_quasi_newton_pending (asr : Bool) :
    runQuasiNewton ⟨wTols, .stable, false, 1, false, false, asr⟩
      (fun _ => wEnv .ok ⟨.failed, .userStopped, true, true⟩) 1
      = some (if asr = true then .abort else .ret .pending 0) := by
  cases asr <;>
  simp [runQuasiNewton, runLoop, qnIter, startState, wEnv, wCheck, lsRun_small, applyFR, breakWith]

/-- **C24**, violation: a user function that fails during the soft restoration does not end the
run; the Newton solver carries on to the next iteration. -/
theorem C24_soft_restoration_swallows_user_error (asr : Bool) :
    ∃ s', newtonIter ⟨wTols, .stable, false, 1, false, false, asr⟩ (startState true)
      (wEnv .ok ⟨.userError, .pending, true, true⟩) = .inr s' ∧ s'.iter = 1 := by
  simp [newtonIter, startState, wEnv, wCheck, safeBefore, newtonPass, lsRun_small, applyFR,
    finishIter]

/-- **C24**, violation: in the speculative mode with the inertia-free acceptor, reaching the
refactorisation limit in both passes completes an iteration although no direction was
accepted and no trial point was computed. -/
theorem C24_refactorization_limit_accepts_stale (asr : Bool) (fr : FrAns) :
    ∃ s', newtonIter ⟨wTols, .speculative, false, 1, false, false, asr⟩ (startState false)
      (wEnv .maxRefact fr) = .inr s' ∧ s'.iter = 1 ∧ s'.useFr = false := by
  simp [newtonIter, startState, wEnv, wCheck, safeBefore, newtonPass, finishIter]

/-- **C24**, violation: with `accept_every_trial_step = yes` in the stable mode every trial step
goes to feasibility restoration instead of being taken. -/
theorem C24_accept_every_step_goes_to_restoration (asr : Bool) (inner : Status)
    (hi : inner = .success) :
    runNewton ⟨wTols, .stable, true, 1, false, false, asr⟩
      (fun _ => wEnv .ok ⟨.failed, inner, true, true⟩) 1 = some (.ret .infeasible 0) := by
  subst hi
  have h : lsRun ⟨true, 1, true, true, asr⟩ (fun _ => ⟨true, 0, .none⟩) 1
      = some (.ended 0 1 1 .pending) := by
    unfold lsRun lsFuel
    rw [show ⌈Real.logb 2 ((1:ℝ) / 1)⌉₊ + 3 = (⌈Real.logb 2 ((1:ℝ) / 1)⌉₊ + 2) + 1 from rfl]
    simp [lsLoop, lsBody, lsInit]
  simp [runNewton, runLoop, newtonIter, startState, wEnv, wCheck, safeBefore, newtonPass, h,
    applyFR, finishIter, breakWith, mergeSt]

/-- An environment that accepts the first trial until iteration 1, where the errors vanish. -/
noncomputable def okEnv (k : ℕ) : IterAns :=
  { errs := if k = 0 then ⟨9, 9, 9, 9, 9⟩ else ⟨0, 0, 0, 0, 0⟩, cbOk := true, fast := false,
    att := fun _ => ⟨true, .ok, 1, fun _ => ⟨true, 1, .none⟩, ⟨.failed, .pending, true, true⟩⟩,
    derivOk := true }

-- Non-vacuity: a run that succeeds after one iteration (positive steps and minimum step).
example : runNewton ⟨wTols, .stable, false, 1, false, false, true⟩ okEnv (wTols.maxIt + 1)
    = some (.ret .success 1) := by
  have h : lsRun ⟨false, 1, true, true, true⟩ (fun _ => ⟨true, 1, .none⟩) 1
      = some (.ended 1 1 1 .pending) := by
    unfold lsRun lsFuel
    rw [show ⌈Real.logb 2 ((1:ℝ) / 1)⌉₊ + 3 = (⌈Real.logb 2 ((1:ℝ) / 1)⌉₊ + 2) + 1 from rfl]
    simp [lsLoop, lsBody, lsInit]
  have h2 : checkTermination wTols ⟨9, 9, 9, 9, 9⟩ ⟨0, 0, 0, 0, 0⟩ 1 0 = (some .success, 0) := by
    norm_num [checkTermination, wTols]
  rw [show wTols.maxIt + 1 = 4 + 1 + 1 from rfl]
  simp [runNewton, runLoop, newtonIter, startState, okEnv, wCheck, safeBefore, newtonPass, h,
    finishIter, breakWith, mergeSt, h2]

-- Non-vacuity: a run stopped by the callback at the first iteration.
example : runNewton ⟨wTols, .stable, false, 1, false, false, true⟩
    (fun k => { okEnv k with cbOk := false }) 1 = some (.ret .userStopped 0) := by
  simp [runNewton, runLoop, newtonIter, startState, breakWith]

-- Non-vacuity of `C24_completed_iteration_partial`.
example : NoRefactLimit (okEnv 0) ∧ ∃ s',
    newtonIter ⟨wTols, .stable, false, 1, false, false, true⟩ (startState true) (okEnv 0) = .inr s' ∧
    s'.useFr = false := by
  have h : lsRun ⟨false, 1, true, true, true⟩ (fun _ => ⟨true, 1, .none⟩) 1
      = some (.ended 1 1 1 .pending) := by
    unfold lsRun lsFuel
    rw [show ⌈Real.logb 2 ((1:ℝ) / 1)⌉₊ + 3 = (⌈Real.logb 2 ((1:ℝ) / 1)⌉₊ + 2) + 1 from rfl]
    simp [lsLoop, lsBody, lsInit]
  refine ⟨fun j => by simp [okEnv], ?_⟩
  simp [newtonIter, startState, okEnv, wCheck, safeBefore, newtonPass, h, finishIter, mergeSt]

end Hiop.Driver
