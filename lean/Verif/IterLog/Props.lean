import Verif.IterLog.Model
import Verif.Driver.LoopProps

/-!
# C85: what the log of a run says

Specification: `page` is the log a reader expects (one line for each iteration, numbered without gaps, a header above
every tenth, then possibly a message), and `Took` says how the line search of an attempt found the step: the number of
trial points and the letter documented for the condition that accepted it.
-/

set_option linter.unusedSimpArgs false

namespace Hiop.IterLog

open Hiop.Driver

/-! ## Specification -/

/-- `n` lines whose last columns are `cols`, numbered from `base`, with a header above the first of every ten. -/
def page (base n : ℕ) (cols : ℕ → Option (ℕ × Char)) : List Out :=
  (List.range n).flatMap fun k => (if 10 ∣ k then [Out.header] else []) ++ [Out.line (base + k) (cols k)]

/-- Sufficient decrease of objective or infeasibility without the switching condition (`s`: status 1, `h`: status 2),
Armijo (`f`: status 3). -/
def small : Fin 3 → Char
  | 0 => 's'
  | 1 => 'h'
  | 2 => 'f'

/-- The same after a second-order correction. -/
def capital : Fin 3 → Char
  | 0 => 'S'
  | 1 => 'H'
  | 2 => 'F'

/-- The line search that meets the trial points `ans` takes a step with `n` trials and letter `ch`. -/
inductive Took (p : LsParams) (ans : ℕ → TrialAns) : ℕ → Char → Prop
  /-- Trial `k` satisfies condition `r + 1`, the earlier ones none. -/
  | plain (k : ℕ) (r : Fin 3) (rej : AllRejected p ans k) (h : (ans k).status.val = r.val + 1) :
      Took p ans (k + 1) (small r)
  /-- The first trial satisfies none, but its correction satisfies condition `r + 1`. -/
  | corrected (r : Fin 3) (al : ℝ) (h0 : (ans 0).status = 0) (h : (ans 0).soc = .accepted r al) :
      Took p ans 1 (capital r)

/-- The line search found no step: all trials were rejected and the next step is below the minimum, or it did not look
for one. -/
def NoStep (p : LsParams) (t : Attempt) : Prop :=
  p.disableLS = true ∨ ∃ k, 1 ≤ k ∧ AllRejected p t.trials k ∧ t.alphaMax / 2 ^ k < p.minStep

/-- The last column printed after an iteration with environment `a` is right: a step of the line search of one of the
two attempts; or `R` for a restoration, which took place because the line search found no step or the user forces it; or
`?`, only in the mode that takes steps the line search rejected. -/
def Right (c : Cfg) (newton : Bool) (a : IterAns) (col : Option (ℕ × Char)) : Prop :=
  ∃ j : Fin 2, (newton = false → j = 0) ∧ (a.att j).kktOk = true ∧ (a.att j).dir = .ok ∧
    ((∃ safe n ch, Took ⟨c.disableLS, c.minStep, safe, newton, c.asserts⟩ (a.att j).trials n ch ∧ col = some (n, ch)) ∨
     (∃ st st2 n, applyFR c.withinFR c.asserts (a.att j).fr st = some (true, st2) ∧ (newton = true → n = 0) ∧
       col = some (n, 'R') ∧
       (c.forceResto = true ∨ NoStep ⟨c.disableLS, c.minStep, true, newton, c.asserts⟩ (a.att j))) ∨
     (newton = true ∧ c.mode = .forcequick ∧ ∃ safe n, NoStep ⟨c.disableLS, c.minStep, safe, newton, c.asserts⟩ (a.att j) ∧
       col = some (n, '?')))

/-! ## The shape of the log -/

theorem logRun_result (v : Solver) (env : ℕ → IterAns) (base fuel : ℕ) (s : LState) (i : LsInfo) :
    (logRun v env base fuel s i).2 = runLoop v.body env fuel s := by
  induction fuel generalizing s i with
  | zero => rfl
  | succ fuel ih =>
    unfold logRun runLoop
    cases h : v.body s (env s.iter) with
    | inl r => cases r <;> rfl
    | inr s' => exact ih _ _

/-- What follows the last line. -/
def ending (v : Solver) (s : LState) (a : IterAns) : Res → List Out
  | .ret st _ => if v.breaks s a then [.msg (terminationMsg st)] else []
  | _ => []

theorem dvd_ten (k : ℕ) : (k / 10 * 10 = k) ↔ 10 ∣ k := by omega

theorem logRun_shape (v : Solver) (env : ℕ → IterAns) (base : ℕ) (Q : IterAns → Option (ℕ × Char) → Prop)
    (hnext : ∀ s a s', v.body s a = .inr s' → s'.iter = s.iter + 1)
    (hQ : ∀ k s s' i, v.body s (env k) = .inr s' → Q (env k) (column v.newton (v.info s i (env k)) s'.useFr)) :
    ∀ fuel s i out r, logRun v env base fuel s i = (out, some r) →
      ∃ (n : ℕ) (cols : ℕ → Option (ℕ × Char)) (s1 : LState), out = ((List.range (n + 1)).flatMap fun k =>
          (if 10 ∣ s.iter + k then [Out.header] else []) ++ [Out.line (base + (s.iter + k)) (cols k)]) ++
            ending v s1 (env s1.iter) r ∧
        cols 0 = column v.newton i s.useFr ∧ (∀ k, k < n → Q (env (s.iter + k)) (cols (k + 1))) ∧
        s1.iter = s.iter + n ∧ v.body s1 (env s1.iter) = .inl r := by
  intro fuel
  induction fuel with
  | zero => intro s i out r h; simp [logRun] at h
  | succ fuel ih =>
    intro s i out r h
    unfold logRun at h
    cases hb : v.body s (env s.iter) with
    | inl r' =>
      simp only [hb] at h
      have hr : r' = r := by
        cases r' <;> simp only [Prod.mk.injEq, Option.some.injEq] at h <;> exact h.2
      subst hr
      refine ⟨0, fun _ => column v.newton i s.useFr, s, ?_, rfl, by simp, by simp, hb⟩
      have ho : out = outputIteration v.newton s.iter (base + s.iter) i s.useFr ++ ending v s (env s.iter) r' := by
        cases r' <;> simp only [Prod.mk.injEq] at h <;> simp [ending, ← h.1]
      rw [ho]
      simp [outputIteration, dvd_ten]
    | inr s' =>
      simp only [hb, Prod.mk.injEq] at h
      obtain ⟨n, cols, s1, h1, h2, h3, h4, h5⟩ := ih s' (v.info s i (env s.iter)) _ r (Prod.ext rfl h.2)
      have hi := hnext _ _ _ hb
      refine ⟨n + 1, fun k => match k with
        | 0 => column v.newton i s.useFr
        | k + 1 => cols k, s1, ?_, rfl, ?_, by omega, h5⟩
      · rw [← h.1]
        refine (congrArg (fun z => outputIteration v.newton s.iter (base + s.iter) i s.useFr ++ z) h1).trans ?_
        rw [← List.append_assoc]
        congr 1
        rw [List.range_succ_eq_map (n := n + 1), List.flatMap_cons, List.flatMap_map]
        congr 1
        · simp [outputIteration, dvd_ten]
        · congr 1
          funext k
          simp only [Nat.succ_eq_add_one, hi]
          rw [show s.iter + 1 + k = s.iter + (k + 1) by omega]
      · intro k hk
        cases k with
        | zero => simp only [Nat.add_zero, h2]; exact hQ _ _ _ _ hb
        | succ k =>
          have := h3 k (by omega)
          rw [hi] at this
          rw [show s.iter + (k + 1) = s.iter + 1 + k by omega]
          exact this

/-! ## The last column -/

theorem lsBody_next (p : LsParams) (a : TrialAns) (s s' : LsState) (h : lsBody p a s = .inr s') : s'.ini = false := by
  unfold lsBody at h
  simp only at h
  repeat' split at h
  all_goals first
    | (simp at h; done)
    | (rw [← Sum.inr.inj h])

theorem lsSoc_later (p : LsParams) (ans : ℕ → TrialAns) (fuel : ℕ) : ∀ k s, s.ini = false →
    lsSoc p ans fuel k s = false := by
  induction fuel with
  | zero => intros; rfl
  | succ fuel ih =>
    intro k s hs
    unfold lsSoc
    cases hb : lsBody p (ans k) s with
    | inl o => simp only; cases (ans k).soc <;> simp [hs]
    | inr s' => exact ih _ _ (lsBody_next _ _ _ _ hb)

theorem lsSoc_iff (p : LsParams) (ans : ℕ → TrialAns) (a : ℝ) (fuel : ℕ) :
    lsSoc p ans (fuel + 1) 0 (lsInit a) = true ↔
      (p.disableLS = false ∧ (ans 0).evalOk = true ∧ (ans 0).status = 0 ∧ ∃ r al, (ans 0).soc = .accepted r al) := by
  unfold lsSoc
  cases hb : lsBody p (ans 0) (lsInit a) with
  | inl o =>
    cases hs : (ans 0).soc <;> simp [lsInit, hs]
    tauto
  | inr s' =>
    have h1 : s'.ini = false := lsBody_next _ _ _ _ hb
    simp only [lsSoc_later p ans fuel 1 s' h1, Bool.false_eq_true, false_iff]
    rintro ⟨h2, h3, h4, r, al, h5⟩
    simp [lsBody, lsInit, h2, h3, h4, h5] at hb

theorem info_took (p : LsParams) (t : Attempt) (i : LsInfo) (hk : t.kktOk = true) (hd : t.dir = .ok)
    (ls : Int) (al : ℝ) (n : ℕ) (st : Status)
    (h : lsRun p t.trials t.alphaMax = some (.ended ls al n st)) (newton : Bool) :
    (ls = 1 ∨ ls = 2 ∨ ls = 3 → ∃ m ch, Took p t.trials m ch ∧ column newton (passInfo p i t) false = some (m, ch)) ∧
    (0 ≤ ls → column newton (passInfo p i t) true = some (if newton = true then 0 else n, 'R')) ∧
    (ls = 0 → column newton (passInfo p i t) false = some (n, '?') ∧ NoStep p t) := by
  have hinfo : passInfo p i t = ⟨ls, n, lsSoc p t.trials (lsFuel p t.alphaMax) 0 (lsInit t.alphaMax)⟩ := by
    simp [passInfo, hk, hd, h]
  have hsoc := lsSoc_iff p t.trials t.alphaMax (⌈Real.logb 2 (t.alphaMax / p.minStep)⌉₊ + 2)
  change lsSoc p t.trials (lsFuel p t.alphaMax) 0 (lsInit t.alphaMax) = true ↔ _ at hsoc
  rw [hinfo]
  obtain ⟨k, hr, hcz⟩ := C22_outcome p t.trials t.alphaMax _ _ h
  refine ⟨?_, ?_, ?_⟩
  · intro hls
    cases hcz with
    | small _ _ _ _ h0 _ _ _ => omega
    | disabled _ _ _ => omega
    | accepted _ hev hs _ _ _ =>
      have hf : lsSoc p t.trials (lsFuel p t.alphaMax) 0 (lsInit t.alphaMax) = false := by
        rw [Bool.eq_false_iff]
        intro hc
        obtain ⟨-, -, h0, r, al', h5⟩ := hsoc.1 hc
        rcases Nat.eq_zero_or_pos k with rfl | hk0
        · rw [h0] at hs; simp at hs
        · exact ((hr 0 hk0).2.2 rfl).1 r al' h5
      have hlt := (t.trials k).status.isLt
      refine ⟨k + 1, small ⟨(t.trials k).status.val - 1, by omega⟩, .plain k _ hr (by simp; omega), ?_⟩
      rw [hf]
      have h2 : (t.trials k).status.val = 1 ∨ (t.trials k).status.val = 2 ∨ (t.trials k).status.val = 3 := by omega
      rcases h2 with h2 | h2 | h2 <;> simp [column, stepType, h2, small]
    | soc s' _ hk0 hev hs0 hac =>
      subst hk0
      by_cases hdis : p.disableLS = true
      · exfalso
        have hh := h
        unfold lsRun lsFuel lsLoop at hh
        simp [lsBody, lsInit, hdis, hev] at hh
        omega
      have ht := hsoc.2 ⟨by simpa using hdis, hev, hs0, s', al, hac⟩
      refine ⟨1, capital s', .corrected s' _ hs0 hac, ?_⟩
      rw [ht]
      fin_cases s' <;> simp [column, stepType, capital, upperC]
  · intro h0
    have : ls ≠ -1 := by omega
    simp [column, stepType, this]
  · intro h0
    refine ⟨by simp [column, stepType, h0], ?_⟩
    cases hcz with
    | small _ _ hk hlt _ _ _ _ => exact Or.inr ⟨_, hk, hr, hlt⟩
    | disabled hdis _ _ => exact Or.inl hdis
    | accepted _ hev hs _ _ _ => omega
    | soc s' _ hk0 hev hs0 hac => omega

theorem newtonPass_shown (c : Cfg) (it : ℕ) (a : IterAns) (j : Fin 2) (safe : Bool) (st : Status) (u safe' u' : Bool)
    (hasr : c.asserts = true) (i : LsInfo)
    (h : newtonPass c it (a.att j) safe st u = .done safe' .pending u') :
    Right c true a (column true (passInfo ⟨c.disableLS, c.minStep, safe, true, c.asserts⟩ i (a.att j)) u') := by
  unfold newtonPass at h
  simp only at h
  by_cases hk : (a.att j).kktOk = false
  · rw [if_pos hk] at h; split_ifs at h
  rw [if_neg hk] at h
  have hk' : (a.att j).kktOk = true := by simpa using hk
  cases hd : (a.att j).dir with
  | solveFail => simp only [hd] at h; split_ifs at h
  | maxRefact => simp only [hd] at h; split_ifs at h
  | ok =>
    simp only [hd] at h
    cases hl : lsRun ⟨c.disableLS, c.minStep, safe, true, c.asserts⟩ (a.att j).trials (a.att j).alphaMax with
    | none => simp [hl] at h
    | some o =>
      cases o with
      | userError => simp [hl] at h
      | abort => simp [hl] at h
      | ended ls al n st1 =>
        obtain ⟨g1, g2, g3⟩ := info_took _ (a.att j) i hk' hd ls al n st1 hl true
        have hpos := (lsRun_status _ _ _ _ _ _ _ hl).2.2 hasr
        have hls : 0 ≤ ls := by omega
        simp only [hl] at h
        refine ⟨j, by simp, hk', hd, ?_⟩
        split at h
        · rename_i hforce
          split at h
          · simp at h
          · rename_i st2 hfr
            simp only [PassOut.done.injEq] at h
            rw [← h.2.2]
            exact Or.inr (Or.inl ⟨_, _, _, hfr, fun _ => rfl, g2 hls, Or.inl hforce.1⟩)
          · simp at h
        · split at h
          · rename_i h3
            simp only [PassOut.done.injEq] at h
            rw [← h.2.2]
            obtain ⟨m, ch, t1, t2⟩ := g1 h3
            exact Or.inl ⟨safe, m, ch, t1, t2⟩
          · split at h
            · rename_i h0
              split at h
              · rename_i hsafe
                split at h
                · simp at h
                · rename_i st2 hfr
                  simp only [PassOut.done.injEq] at h
                  rw [← h.2.2]
                  have hno := (g3 h0).2
                  rw [hsafe] at hno
                  exact Or.inr (Or.inl ⟨_, _, _, hfr, fun _ => rfl, g2 hls, Or.inr hno⟩)
                · rename_i h2
                  rcases applyFR_false _ _ _ _ _ h2 with rfl | rfl <;> simp at h
              · split at h
                · rename_i hf
                  simp only [PassOut.done.injEq] at h
                  rw [← h.2.2]
                  exact Or.inr (Or.inr ⟨rfl, by simpa using hf, safe, n, (g3 h0).2, (g3 h0).1⟩)
                · simp at h
            · simp at h

theorem newton_shown (c : Cfg) (hasr : c.asserts = true) (s s' : LState) (a : IterAns) (i : LsInfo)
    (hd : NoRefactLimit a) (h : newtonIter c s a = .inr s') :
    Right c true a (column true (newtonInfo c s i a) s'.useFr) := by
  unfold newtonIter at h
  simp only at h
  split at h
  · simp at h
  split at h
  · simp at h
  have fin : ∀ e0 n safe st u, finishIter s a e0 n safe st u (breakWith c s.iter) = .inr s' →
      st = .pending ∧ u = s'.useFr := by
    intro e0 n safe st u hf
    unfold finishIter at hf
    split_ifs at hf with h1 h2
    rw [← Sum.inr.inj hf]
    exact ⟨by simpa using h1, rfl⟩
  split at h
  · simp at h
  · simp at h
  · simp at h
  · rename_i hp
    obtain ⟨rfl, hu⟩ := fin _ _ _ _ _ h
    subst hu
    simp only [newtonInfo, hp]
    exact newtonPass_shown c _ a 0 _ _ _ _ _ hasr i hp
  · rename_i safe1 st1 u1 hp
    have ha1 := newtonPass_again c hasr _ _ _ _ _ (hd 0) _ _ _ hp
    simp only [newtonInfo, hp]
    split at h
    · simp at h
    · simp at h
    · simp at h
    · rename_i hp2
      obtain ⟨rfl, hu⟩ := fin _ _ _ _ _ h
      subst hu
      exact newtonPass_shown c _ a 1 _ _ _ _ _ hasr _ hp2
    · rename_i safe2 st2 u2 hp2
      obtain ⟨rfl, -⟩ := fin _ _ _ _ _ h
      exfalso
      have ha2 := newtonPass_again c hasr _ _ _ _ _ (hd 1) _ _ _ hp2
      simp only [ne_eq, not_true_eq_false, or_false] at ha2
      rcases ha1 with ha1 | ha1
      · rw [ha1.2] at ha2; simp at ha2
      · exact newtonPass_again_sticky _ _ _ _ _ _ ha1 _ _ _ hp2 rfl

theorem qn_shown (c : Cfg) (hasr : c.asserts = true) (s s' : LState) (a : IterAns) (i : LsInfo)
    (h : qnIter c s a = .inr s') : Right c false a (column false (qnInfo c s i a) s'.useFr) := by
  have fin : ∀ e0 n safe st u, finishIter s a e0 n safe st u (breakWith c s.iter) = .inr s' →
      st = .pending ∧ u = s'.useFr := by
    intro e0 n safe st u hf
    unfold finishIter at hf
    split_ifs at hf with h1 h2
    rw [← Sum.inr.inj hf]
    exact ⟨by simpa using h1, rfl⟩
  unfold qnIter at h
  simp only at h
  split at h
  · simp at h
  split at h
  · simp at h
  split at h
  · simp at h
  rename_i hk
  have hk' : (a.att 0).kktOk = true := by simpa using hk
  cases hd : (a.att 0).dir with
  | solveFail => simp [hd] at h
  | maxRefact => simp [hd] at h
  | ok =>
    simp only [hd] at h
    cases hl : lsRun ⟨c.disableLS, c.minStep, true, false, c.asserts⟩ (a.att 0).trials (a.att 0).alphaMax with
    | none => simp [hl] at h
    | some o =>
      cases o with
      | userError => simp [hl] at h
      | abort => simp [hl] at h
      | ended ls al n st1 =>
        obtain ⟨g1, g2, -⟩ := info_took _ (a.att 0) i hk' hd ls al n st1 hl false
        have hpos := (lsRun_status _ _ _ _ _ _ _ hl).2.2 hasr
        have hls : 0 ≤ ls := by omega
        simp only [hl] at h
        refine ⟨0, fun _ => rfl, hk', hd, ?_⟩
        split at h
        · rename_i hforce
          split at h
          · simp at h
          · rename_i st2 hfr
            rw [← (fin _ _ _ _ _ h).2]
            exact Or.inr (Or.inl ⟨_, _, n, hfr, by simp, g2 hls, Or.inl hforce.1⟩)
          · rename_i h2
            have := (fin _ _ _ _ _ h).1
            rcases applyFR_false _ _ _ _ _ h2 with rfl | rfl <;> simp at this
        · split at h
          · rename_i h3
            rw [← (fin _ _ _ _ _ h).2]
            obtain ⟨m, ch, t1, t2⟩ := g1 h3
            exact Or.inl ⟨true, m, ch, t1, t2⟩
          · split at h
            · split at h <;> simp at h
            · simp [hasr] at h

/-! ## Theorems -/

theorem newton_breaks (c : Cfg) (s : LState) (a : IterAns) (st : Status) (i : ℕ)
    (h : newtonIter c s a = .inl (.ret st i)) (h1 : st ≠ .errStep) (h2 : st ≠ .errUser) :
    newtonBreaks c s a = true := by
  have fin : ∀ e0 n safe st' u, finishIter s a e0 n safe st' u (breakWith c s.iter) = .inl (.ret st i) →
      st' ≠ .pending := by
    intro e0 n safe st' u hf
    rcases finishIter_ret _ _ _ _ _ _ _ _ _ _ hf with h | h
    · exact h.2.1
    · exact absurd h.1 h2
  unfold newtonIter at h
  unfold newtonBreaks
  simp only at h ⊢
  by_cases hcb : a.cbOk = false
  · simp [hcb]
  rw [if_neg hcb] at h ⊢
  cases ht : checkTermination c.tols (s.e0.getD a.errs) a.errs s.iter s.nAcc with
  | mk o n =>
    cases o with
    | some st' => simp
    | none =>
      simp only [ht] at h
      simp only [Option.isSome_none, Bool.false_eq_true, if_false]
      have hret : ∀ it t safe st0 u r, newtonPass c it t safe st0 u = .ret r → r = .errStep ∨ r = .errUser :=
        fun it t safe st0 u r hr => by
          unfold newtonPass at hr
          simp only at hr
          repeat' split at hr
          all_goals simp_all
      cases hp : newtonPass c s.iter (a.att 0) (safeBefore c s.safe a.fast) .pending s.useFr with
      | ret r =>
        simp only [hp, Sum.inl.injEq, Res.ret.injEq] at h
        rcases hret _ _ _ _ _ _ hp with hr | hr <;> rw [h.1] at hr <;> contradiction
      | abort => simp [hp] at h
      | diverge => simp [hp] at h
      | done safe1 st1 u1 =>
        simp only [hp] at h
        simpa using fin _ _ _ _ _ h
      | again safe1 st1 u1 =>
        simp only [hp] at h
        simp only
        cases hp2 : newtonPass c s.iter (a.att 1) safe1 st1 u1 with
        | ret r =>
          simp only [hp2, Sum.inl.injEq, Res.ret.injEq] at h
          rcases hret _ _ _ _ _ _ hp2 with hr | hr <;> rw [h.1] at hr <;> contradiction
        | abort => simp [hp2] at h
        | diverge => simp [hp2] at h
        | done safe2 st2 u2 =>
          simp only [hp2] at h
          simpa using fin _ _ _ _ _ h
        | again safe2 st2 u2 =>
          simp only [hp2] at h
          simpa using fin _ _ _ _ _ h

theorem qn_breaks (c : Cfg) (s : LState) (a : IterAns) (st : Status) (i : ℕ)
    (h : qnIter c s a = .inl (.ret st i)) (h1 : st ≠ .errStep) (h2 : st ≠ .errUser) : qnBreaks c s a = true := by
  have hi : i = s.iter := by
    rcases (qn_bodySpec c).ret _ _ _ _ h with h | h | h
    · exact h.2.2
    · exact h.2.1
    · rcases h.2.2.2.1 with h | h
      · exact h
      · exact absurd h.2.1 h2
  unfold qnBreaks
  by_cases hcb : a.cbOk = false
  · simp [hcb]
  rw [if_neg hcb]
  cases ht : checkTermination c.tols (s.e0.getD a.errs) a.errs s.iter s.nAcc with
  | mk o n =>
    cases o with
    | some st' => simp
    | none =>
      simp only [Option.isSome_none, Bool.false_eq_true, if_false]
      have h' := h
      unfold qnIter at h'
      simp only [hcb, if_false, ht] at h'
      by_cases hk : (a.att 0).kktOk = false
      · simp [hk] at h'
        exact absurd h'.1.symm h1
      rw [if_neg hk] at h' ⊢
      cases hd : (a.att 0).dir with
      | solveFail => simp [hd] at h'; exact absurd h'.1.symm h1
      | maxRefact => simp [hd] at h'; exact absurd h'.1.symm h1
      | ok =>
        simp only [hd] at h'
        simp only
        cases hl : lsRun ⟨c.disableLS, c.minStep, true, false, c.asserts⟩ (a.att 0).trials (a.att 0).alphaMax with
        | none => simp [hl] at h'
        | some o =>
          cases o with
          | userError => simp [hl] at h'; exact absurd h'.1.symm h2
          | abort => simp [hl] at h'
          | ended ls al n st1 => simp [h, hi]

theorem log_of (c : Cfg) (v : Solver) (P : Prop) (hb : BodySpec P c v.body) (Q : IterAns → Option (ℕ × Char) → Prop)
    (hbr : ∀ s a st i, v.body s a = .inl (.ret st i) → st ≠ .errStep → st ≠ .errUser → v.breaks s a = true)
    (env : ℕ → IterAns)
    (hQ : ∀ k s s' i, v.body s (env k) = .inr s' → Q (env k) (column v.newton (v.info s i (env k)) s'.useFr))
    (base fuel : ℕ) (safe : Bool) (out : List Out) (r : Res)
    (h : logRun v env base fuel (startState safe) info0 = (out, some r)) :
    ∃ n cols fin, out = page base (n + 1) cols ++ fin ∧ cols 0 = none ∧
      (∀ k, k < n → Q (env k) (cols (k + 1))) ∧
      (∀ st i, r = .ret st i → (i = n ∨ i = n + 1 ∧ st = .errUser) ∧
        (st ≠ .errStep → st ≠ .errUser → fin = [.msg (terminationMsg st)])) ∧
      (fin = [] ∨ ∃ st i, r = .ret st i ∧ fin = [.msg (terminationMsg st)]) := by
  obtain ⟨n, cols, s1, h1, h2, h3, h4, h5⟩ := logRun_shape v env base Q (fun s a s' hs => (hb.next s a s' hs).2.1) hQ
    fuel _ _ out r h
  have e0 : (startState safe).iter = 0 := rfl
  rw [e0] at h1 h3 h4
  simp only [Nat.zero_add] at h1 h3 h4
  refine ⟨n, cols, ending v s1 (env s1.iter) r, h1, h2, h3, ?_, ?_⟩
  · rintro st i rfl
    constructor
    · rcases hb.ret _ _ _ _ h5 with g | g | g
      · left; rw [g.2.2, h4]
      · left; rw [g.2.1, h4]
      · rcases g.2.2.2.1 with g | g
        · left; rw [g, h4]
        · right; exact ⟨by rw [g.1, h4], g.2.1⟩
    · intro g1 g2
      simp [ending, hbr _ _ _ _ h5 g1 g2]
  · cases r with
    | ret st i =>
      by_cases hbk : v.breaks s1 (env s1.iter) = true
      · exact Or.inr ⟨st, i, rfl, by simp [ending, hbk]⟩
      · exact Or.inl (by simp [ending, hbk])
    | abort => exact Or.inl rfl
    | diverge => exact Or.inl rfl

/-- The log of every completed run of the Newton solver (build with assertions, refactorization limit not hit): one line
for each iteration begun, numbered from 0 without gaps, a header above every tenth; `-(-)` in the first line; in every
other line the way in which the iteration before it found its step; and after a run that ends with a status other than a
failed step computation or a user error, the message of the returned status as the last thing. -/
theorem C85_newton_log_partial (c : Cfg) (hasr : c.asserts = true) (env : ℕ → IterAns) (hd : ∀ k, NoRefactLimit (env k))
    (base fuel : ℕ) (out : List Out) (r : Res)
    (h : logRun (newtonSolver c) env base fuel (startState (decide (c.mode = .stable))) info0 = (out, some r)) :
    runNewton c env fuel = some r ∧
    ∃ n cols fin, out = page base (n + 1) cols ++ fin ∧ cols 0 = none ∧
      (∀ k, k < n → Right c true (env k) (cols (k + 1))) ∧
      (∀ st i, r = .ret st i → (i = n ∨ i = n + 1 ∧ st = .errUser) ∧
        (st ≠ .errStep → st ≠ .errUser → fin = [.msg (terminationMsg st)])) ∧
      (fin = [] ∨ ∃ st i, r = .ret st i ∧ fin = [.msg (terminationMsg st)]) := by
  refine ⟨?_, log_of c (newtonSolver c) _ (newton_bodySpec c) _ (newton_breaks c) env
    (fun k s s' i hs => newton_shown c hasr s s' (env k) i (hd k) hs) base fuel _ out r h⟩
  have := logRun_result (newtonSolver c) env base fuel (startState (decide (c.mode = .stable))) info0
  rw [h] at this
  exact this.symm

/-- The same for the quasi-Newton solver, where the refactorization limit ends the run. -/
theorem C85_quasi_newton_log (c : Cfg) (hasr : c.asserts = true) (env : ℕ → IterAns) (base fuel : ℕ) (out : List Out)
    (r : Res) (h : logRun (qnSolver c) env base fuel (startState true) info0 = (out, some r)) :
    runQuasiNewton c env fuel = some r ∧
    ∃ n cols fin, out = page base (n + 1) cols ++ fin ∧ cols 0 = none ∧
      (∀ k, k < n → Right c false (env k) (cols (k + 1))) ∧
      (∀ st i, r = .ret st i → (i = n ∨ i = n + 1 ∧ st = .errUser) ∧
        (st ≠ .errStep → st ≠ .errUser → fin = [.msg (terminationMsg st)])) ∧
      (fin = [] ∨ ∃ st i, r = .ret st i ∧ fin = [.msg (terminationMsg st)]) := by
  refine ⟨?_, log_of c (qnSolver c) _ (qn_bodySpec c) _ (qn_breaks c) env
    (fun k s s' i hs => qn_shown c hasr s s' (env k) i hs) base fuel _ out r h⟩
  have := logRun_result (qnSolver c) env base fuel (startState true) info0
  rw [h] at this
  exact this.symm

/-- The letters can be told apart, so the last column says which of the conditions accepted the step, whether after a
correction, or that the restoration was called. -/
theorem C85_letters (r r' : Fin 3) :
    (small r = small r' → r = r') ∧ (capital r = capital r' → r = r') ∧ small r ≠ capital r' ∧
    small r ≠ 'R' ∧ small r ≠ '?' ∧ capital r ≠ 'R' ∧ capital r ≠ '?' := by
  fin_cases r <;> fin_cases r' <;> simp [small, capital]

/-- The message determines the status, except for the two that have none of their own. -/
theorem C85_message (st st' : Status) (h : terminationMsg st = terminationMsg st') :
    st = st' ∨ ((st = .errUser ∨ st = .pending) ∧ (st' = .errUser ∨ st' = .pending)) := by
  cases st <;> cases st' <;> simp [terminationMsg] at h ⊢

/-- With the same trial points a line search takes only one step: `Took` leaves no choice. -/
theorem C85_took_unique (p : LsParams) (ans : ℕ → TrialAns) (n n' : ℕ) (ch ch' : Char) (h : Took p ans n ch)
    (h' : Took p ans n' ch') : n = n' ∧ ch = ch' := by
  cases h with
  | plain k r rej hr =>
    cases h' with
    | plain k' r' rej' hr' =>
      have : k = k' := by
        rcases lt_trichotomy k k' with hlt | he | hlt
        · have := (rej' k hlt).2.1; rw [this] at hr; simp at hr
        · exact he
        · have := (rej k' hlt).2.1; rw [this] at hr'; simp at hr'
      subst this
      have : r = r' := by omega
      subst this
      exact ⟨rfl, rfl⟩
    | corrected r' al h0 hs =>
      exfalso
      rcases Nat.eq_zero_or_pos k with rfl | hk
      · rw [h0] at hr; simp at hr
      · exact ((rej 0 hk).2.2 rfl).1 _ _ hs
  | corrected r al h0 hs =>
    cases h' with
    | plain k r' rej hr =>
      exfalso
      rcases Nat.eq_zero_or_pos k with rfl | hk
      · rw [h0] at hr; simp at hr
      · exact ((rej 0 hk).2.2 rfl).1 _ _ hs
    | corrected r' al' _ hs' =>
      rw [hs] at hs'
      injection hs' with e _
      subst e
      exact ⟨rfl, rfl⟩

/-! ## Where the log does not say it -/

/-- A run that fails to compute a step returns its status without a message, although there is one for it. -/
theorem C85_step_error_silent_refuted :
    ∃ (c : Cfg) (env : ℕ → IterAns), c.asserts = true ∧
      logRun (newtonSolver c) env 0 1 (startState true) info0 = ([.header, .line 0 none], some (.ret .errStep 0)) ∧
      terminationMsg .errStep = .stepError := by
  refine ⟨⟨wTols, .stable, false, 1, false, false, true⟩, fun _ => wEnv .solveFail ⟨.failed, .pending, true, true⟩, rfl, ?_,
    rfl⟩
  simp [logRun, newtonSolver, newtonIter, newtonBreaks, startState, wEnv, wCheck, safeBefore, newtonPass, outputIteration,
    column, info0]

/-- Nor does a run that ends because a user function failed: the last line is that of the iteration before. -/
theorem C85_user_error_silent_refuted :
    ∃ (c : Cfg) (env : ℕ → IterAns), c.asserts = true ∧
      logRun (newtonSolver c) env 0 1 (startState true) info0 = ([.header, .line 0 none], some (.ret .errUser 1)) := by
  refine ⟨⟨wTols, .stable, false, 1, false, false, true⟩, fun k => { okEnv k with derivOk := false }, rfl, ?_⟩
  have h : lsRun ⟨false, 1, true, true, true⟩ (fun _ => ⟨true, 1, .none⟩) 1 = some (.ended 1 1 1 .pending) := by
    unfold lsRun lsFuel
    rw [show ⌈Real.logb 2 ((1:ℝ) / 1)⌉₊ + 3 = (⌈Real.logb 2 ((1:ℝ) / 1)⌉₊ + 2) + 1 from rfl]
    simp [lsLoop, lsBody, lsInit]
  simp [logRun, newtonSolver, newtonIter, newtonBreaks, startState, okEnv, wCheck, safeBefore, newtonPass, outputIteration,
    column, info0, h, finishIter, mergeSt]

/-- When the refactorization limit is reached twice, the iteration took no step and its line still shows the column of the
iteration before, here `-(-)`. -/
theorem C85_stale_column_refuted (fr : FrAns) :
    ∃ (c : Cfg) (env : ℕ → IterAns) (col : Option (ℕ × Char)), c.asserts = true ∧ c.mode = .speculative ∧
      logRun (newtonSolver c) env 0 2 (startState false) info0 =
        ([.header, .line 0 none, .line 1 col, .msg .success], some (.ret .success 1)) ∧ ¬ Right c true (env 0) col := by
  have h2 : checkTermination wTols ⟨9, 9, 9, 9, 9⟩ ⟨0, 0, 0, 0, 0⟩ 1 0 = (some .success, 0) := by
    norm_num [checkTermination, wTols]
  refine ⟨⟨wTols, .speculative, false, 1, false, false, true⟩,
    fun k => { wEnv .maxRefact fr with errs := (okEnv k).errs }, none, rfl, rfl, ?_, ?_⟩
  · simp [logRun, newtonSolver, newtonIter, newtonBreaks, newtonInfo, passInfo, startState, wEnv, okEnv, wCheck, safeBefore,
      newtonPass, outputIteration, column, info0, h2, finishIter, breakWith, terminationMsg]
  · rintro ⟨j, -, -, hj, -⟩
    simp [wEnv] at hj

/-! ## The hypotheses are met -/

-- A run of two iterations: the second line shows one trial accepted by the first condition, then the message.
example : logRun (newtonSolver ⟨wTols, .stable, false, 1, false, false, true⟩) okEnv 0 2 (startState true) info0 =
      ([.header, .line 0 none, .line 1 (some (1, 's')), .msg .success], some (.ret .success 1)) ∧
    ∀ k, NoRefactLimit (okEnv k) := by
  have h : lsRun ⟨false, 1, true, true, true⟩ (fun _ => ⟨true, 1, .none⟩) 1 = some (.ended 1 1 1 .pending) := by
    unfold lsRun lsFuel
    rw [show ⌈Real.logb 2 ((1:ℝ) / 1)⌉₊ + 3 = (⌈Real.logb 2 ((1:ℝ) / 1)⌉₊ + 2) + 1 from rfl]
    simp [lsLoop, lsBody, lsInit]
  have h2 : checkTermination wTols ⟨9, 9, 9, 9, 9⟩ ⟨0, 0, 0, 0, 0⟩ 1 0 = (some .success, 0) := by
    norm_num [checkTermination, wTols]
  have hs : lsSoc ⟨false, 1, true, true, true⟩ (fun _ => ⟨true, 1, .none⟩) (lsFuel ⟨false, 1, true, true, true⟩ 1) 0
      (lsInit 1) = false := by
    unfold lsFuel
    rw [show ⌈Real.logb 2 ((1:ℝ) / 1)⌉₊ + 3 = (⌈Real.logb 2 ((1:ℝ) / 1)⌉₊ + 2) + 1 from rfl]
    simp [lsSoc, lsBody, lsInit]
  refine ⟨?_, fun k j => by simp [okEnv]⟩
  simp [logRun, newtonSolver, newtonIter, newtonBreaks, newtonInfo, passInfo, startState, okEnv, wCheck, safeBefore,
    newtonPass, outputIteration, column, stepType, info0, h, h2, hs, finishIter, mergeSt, breakWith, terminationMsg]

-- The same for the quasi-Newton solver, after a checkpoint of iteration 7.
example : logRun (qnSolver ⟨wTols, .stable, false, 1, false, false, true⟩) okEnv 7 2 (startState true) info0 =
      ([.header, .line 7 none, .line 8 (some (1, 's')), .msg .success], some (.ret .success 1)) := by
  have h : lsRun ⟨false, 1, true, false, true⟩ (fun _ => ⟨true, 1, .none⟩) 1 = some (.ended 1 1 1 .pending) := by
    unfold lsRun lsFuel
    rw [show ⌈Real.logb 2 ((1:ℝ) / 1)⌉₊ + 3 = (⌈Real.logb 2 ((1:ℝ) / 1)⌉₊ + 2) + 1 from rfl]
    simp [lsLoop, lsBody, lsInit]
  have h2 : checkTermination wTols ⟨9, 9, 9, 9, 9⟩ ⟨0, 0, 0, 0, 0⟩ 1 0 = (some .success, 0) := by
    norm_num [checkTermination, wTols]
  have hs : lsSoc ⟨false, 1, true, false, true⟩ (fun _ => ⟨true, 1, .none⟩) (lsFuel ⟨false, 1, true, false, true⟩ 1) 0
      (lsInit 1) = false := by
    unfold lsFuel
    rw [show ⌈Real.logb 2 ((1:ℝ) / 1)⌉₊ + 3 = (⌈Real.logb 2 ((1:ℝ) / 1)⌉₊ + 2) + 1 from rfl]
    simp [lsSoc, lsBody, lsInit]
  simp [logRun, qnSolver, qnIter, qnBreaks, qnInfo, passInfo, startState, okEnv, wCheck, outputIteration, column, stepType,
    info0, h, h2, hs, finishIter, mergeSt, breakWith, terminationMsg]

-- A trial accepted after two rejections, and a corrected first trial.
example : Took ⟨false, 1, true, true, true⟩ (fun k => ⟨true, if k = 2 then 3 else 0, .none⟩) 3 'f' :=
  .plain 2 2 (fun j hj => by
    have : j ≠ 2 := by omega
    simp [this]) rfl

example : Took ⟨false, 1, true, true, true⟩ (fun _ => ⟨true, 0, .accepted 1 1⟩) 1 'H' := .corrected 1 1 rfl rfl

end Hiop.IterLog
