import Verif.Filter.Model
import Mathlib.Tactic.NormNum
import Mathlib.Tactic.Linarith

/-!
# Properties of the filter and of the acceptance test (C01, C02, C33)
-/

namespace Hiop.Filter

/-! ## Specification vocabulary -/

/-- A call that wipes the filter. -/
def Op.isReset : Op → Prop
  | .clear => True
  | .init _ => True
  | .reinit _ => True
  | .add _ _ => False

/-- `h` recorded the pair `(a,b)`: it contains a call recording it that is not followed
by a wiping call. `initialize(t)` and `reinitialize(t)` record `(t,-1e20)`. -/
def Recorded (h : List Op) (a b : ℝ) : Prop :=
  ∃ pre op post, h = pre ++ op :: post ∧ (∀ o ∈ post, ¬ o.isReset) ∧
    (op = .add a b ∨ (op = .init a ∧ b = -1e20) ∨ (op = .reinit a ∧ b = -1e20))

/-! ## Lemmas -/

theorem contains_eq_true_iff (f : Filt) (a b : ℝ) :
    contains f a b = true ↔ ∃ e ∈ f, e.theta ≤ a ∧ e.phi ≤ b := by
  induction f with
  | nil => simp [contains]
  | cons e es ih =>
    unfold contains
    split
    · rename_i h
      simp only [true_iff]
      exact ⟨e, by simp, h.1, h.2⟩
    · rename_i h
      rw [ih]
      constructor
      · rintro ⟨e', he', h'⟩
        exact ⟨e', by simp [he'], h'⟩
      · rintro ⟨e', he', h'⟩
        rcases List.mem_cons.1 he' with rfl | hm
        · exact absurd h' h
        · exact ⟨e', hm, h'⟩

theorem recorded_nil (a b : ℝ) : ¬ Recorded [] a b := by
  rintro ⟨pre, op, post, h, -⟩
  cases pre <;> simp at h

theorem recorded_snoc (h : List Op) (o : Op) (a b : ℝ) :
    Recorded (h ++ [o]) a b ↔
      (o = .add a b ∨ (o = .init a ∧ b = -1e20) ∨ (o = .reinit a ∧ b = -1e20)) ∨
      (¬ o.isReset ∧ Recorded h a b) := by
  constructor
  · rintro ⟨pre, op, post, heq, hpost, hop⟩
    rcases List.eq_nil_or_concat post with rfl | ⟨post', o', rfl⟩
    · have : h ++ [o] = pre ++ [op] := heq
      have h2 := List.append_inj' this rfl
      have : o = op := by simpa using h2.2
      subst this
      exact Or.inl hop
    · have : h ++ [o] = (pre ++ op :: post') ++ [o'] := by
        rw [heq]; simp
      have h2 := List.append_inj' this rfl
      have ho : o = o' := by simpa using h2.2
      subst ho
      refine Or.inr ⟨hpost o (by simp), pre, op, post', h2.1, ?_, hop⟩
      intro x hx
      exact hpost x (by simp [hx])
  · rintro (hop | ⟨hr, pre, op, post, heq, hpost, hop⟩)
    · exact ⟨h, o, [], rfl, by simp, hop⟩
    · refine ⟨pre, op, post ++ [o], by simp [heq], ?_, hop⟩
      intro x hx
      rcases List.mem_append.1 hx with hx | hx
      · exact hpost x hx
      · have : x = o := by simpa using hx
        exact this ▸ hr

theorem mem_run_iff (h : List Op) (e : Entry) :
    e ∈ run h ↔ Recorded h e.theta e.phi := by
  induction h using List.reverseRecOn with
  | nil => simp [run, empty, recorded_nil]
  | append_singleton h o ih =>
    have hrun : run (h ++ [o]) = step (run h) o := by simp [run]
    rw [hrun, recorded_snoc]
    obtain ⟨et, ep⟩ := e
    cases o with
    | clear => simp [step, clear, Op.isReset]
    | init t =>
      simp only [step, reinit, Op.isReset, List.mem_singleton, Entry.mk.injEq]
      simp [eq_comm]
    | reinit t =>
      simp only [step, reinit, Op.isReset, List.mem_singleton, Entry.mk.injEq]
      simp [eq_comm]
    | add t p =>
      simp only [step, add, Op.isReset, List.mem_cons, ih, Entry.mk.injEq]
      simp [eq_comm]

/-! ## C01 -/

/-- **C01.** After any history of calls the filter contains a pair iff a recorded pair
dominates it. -/
theorem C01_filter_contains_iff (h : List Op) (theta phi : ℝ) :
    contains (run h) theta phi = true ↔
      ∃ a b, Recorded h a b ∧ a ≤ theta ∧ b ≤ phi := by
  rw [contains_eq_true_iff]
  constructor
  · rintro ⟨e, he, h1, h2⟩
    exact ⟨e.theta, e.phi, (mem_run_iff h e).1 he, h1, h2⟩
  · rintro ⟨a, b, hr, h1, h2⟩
    exact ⟨⟨a, b⟩, (mem_run_iff h ⟨a, b⟩).2 hr, h1, h2⟩

/-- **C01.** What happened before a wiping call is irrelevant. -/
theorem C01_reset_forgets (h1 h2 h : List Op) (o : Op) (ho : o.isReset) (theta phi : ℝ) :
    contains (run (h1 ++ o :: h)) theta phi = contains (run (h2 ++ o :: h)) theta phi := by
  have : run (h1 ++ o :: h) = run (h2 ++ o :: h) := by
    cases o <;> simp_all [run, step, clear, reinit, Op.isReset]
  rw [this]

/-- **C01.** Adding points only ever enlarges the forbidden region, and an added
point is itself forbidden. -/
theorem C01_add_monotone (h : List Op) (a b theta phi : ℝ) :
    (contains (run h) theta phi = true → contains (run (h ++ [.add a b])) theta phi = true) ∧
    contains (run (h ++ [.add a b])) a b = true := by
  rw [C01_filter_contains_iff, C01_filter_contains_iff, C01_filter_contains_iff]
  constructor
  · rintro ⟨x, y, hr, h1, h2⟩
    exact ⟨x, y, (recorded_snoc _ _ _ _).2 (Or.inr ⟨by simp [Op.isReset], hr⟩), h1, h2⟩
  · exact ⟨a, b, (recorded_snoc _ _ _ _).2 (Or.inl (Or.inl rfl)), le_refl _, le_refl _⟩

/-- Non-vacuity: a non-trivial history with an accepted and a rejected query. -/
example : contains (run [.add 0 0, .init 10, .add 1 2]) 1 3 = true ∧
    contains (run [.add 0 0, .init 10, .add 1 2]) (1/2) 3 = false := by
  constructor
  · rw [contains_eq_true_iff]
    exact ⟨⟨1, 2⟩, by simp [run, step, add, reinit], by norm_num, by norm_num⟩
  · rw [← Bool.not_eq_true, contains_eq_true_iff]
    rintro ⟨e, he, h1, h2⟩
    simp only [run, step, add, reinit, List.foldl_cons, List.foldl_nil, List.mem_cons,
      List.not_mem_nil, or_false] at he
    rcases he with rfl | rfl <;> norm_num at h1

/-! ## C02 -/

/-- Sufficient decrease with respect to the current point. -/
def SuffDecrease (p : Params) (t : Trial) : Prop :=
  t.thetaTrial ≤ (1 - p.gammaTheta) * t.thetaCurr ∨
    t.phiTrial ≤ t.phiCurr - p.gammaPhi * t.thetaCurr

/-- Switching condition. -/
def Switching (p : Params) (t : Trial) : Prop :=
  t.gradPhiDx < 0 ∧ p.delta * t.thetaCurr ^ p.sTheta < t.alpha * (-t.gradPhiDx) ^ p.sPhi

/-- Armijo condition. -/
def Armijo (p : Params) (t : Trial) : Prop :=
  t.phiTrial ≤ t.phiCurr + p.etaPhi * t.alpha * t.gradPhiDx

/-- The trial pair is dominated by an entry of the filter. -/
def Dominated (f : Filt) (t : Trial) : Prop :=
  ∃ e ∈ f, e.theta ≤ t.thetaTrial ∧ e.phi ≤ t.phiTrial

/-- **C02.** Complete decision table of the acceptance test. -/
theorem C02_accept_status (p : Params) (f : Filt) (t : Trial) :
    ((accept p f t).1 = 1 ↔
      p.thetaMin ≤ t.thetaCurr ∧ SuffDecrease p t ∧ ¬ Dominated f t) ∧
    ((accept p f t).1 = 2 ↔
      t.thetaCurr < p.thetaMin ∧ ¬ Switching p t ∧ SuffDecrease p t ∧ ¬ Dominated f t) ∧
    ((accept p f t).1 = 3 ↔
      t.thetaCurr < p.thetaMin ∧ Switching p t ∧ Armijo p t ∧ ¬ Dominated f t) ∧
    (accept p f t).1 ≤ 3 := by
  have hd : Dominated f t ↔ contains f t.thetaTrial t.phiTrial = true :=
    (contains_eq_true_iff _ _ _).symm
  unfold accept SuffDecrease Switching Armijo
  rw [hd]
  by_cases h1 : t.thetaCurr ≥ p.thetaMin
  · have h1' : p.thetaMin ≤ t.thetaCurr := h1
    have h1'' : ¬ t.thetaCurr < p.thetaMin := not_lt.2 h1
    by_cases h2 : t.thetaTrial ≤ (1 - p.gammaTheta) * t.thetaCurr ∨
        t.phiTrial ≤ t.phiCurr - p.gammaPhi * t.thetaCurr <;>
    by_cases h3 : contains f t.thetaTrial t.phiTrial = true <;>
    simp [h1', h1'', h2, h3]
  · have h1' : ¬ p.thetaMin ≤ t.thetaCurr := h1
    have h1'' : t.thetaCurr < p.thetaMin := not_le.1 h1
    by_cases h2 : t.thetaTrial ≤ (1 - p.gammaTheta) * t.thetaCurr ∨
        t.phiTrial ≤ t.phiCurr - p.gammaPhi * t.thetaCurr <;>
    by_cases h3 : contains f t.thetaTrial t.phiTrial = true <;>
    by_cases h4 : t.gradPhiDx < 0 ∧
        p.delta * t.thetaCurr ^ p.sTheta < t.alpha * (-t.gradPhiDx) ^ p.sPhi <;>
    by_cases h5 : t.phiTrial ≤ t.phiCurr + p.etaPhi * t.alpha * t.gradPhiDx <;>
    simp [h1', h1'', h2, h3, h4, h5]

/-- **C02.** The "rejected by the filter" flag is raised exactly when the trial makes the
required progress but is dominated by a filter entry. -/
theorem C02_rejected_by_filter_flag (p : Params) (f : Filt) (t : Trial) :
    (accept p f t).2 = true ↔ Dominated f t ∧
      ((p.thetaMin ≤ t.thetaCurr ∧ SuffDecrease p t) ∨
       (t.thetaCurr < p.thetaMin ∧ Switching p t ∧ Armijo p t) ∨
       (t.thetaCurr < p.thetaMin ∧ ¬ Switching p t ∧ SuffDecrease p t)) := by
  have hd : Dominated f t ↔ contains f t.thetaTrial t.phiTrial = true :=
    (contains_eq_true_iff _ _ _).symm
  unfold accept SuffDecrease Switching Armijo
  rw [hd]
  by_cases h1 : p.thetaMin ≤ t.thetaCurr
  · have h1'' : ¬ t.thetaCurr < p.thetaMin := not_lt.2 h1
    by_cases h2 : t.thetaTrial ≤ (1 - p.gammaTheta) * t.thetaCurr ∨
        t.phiTrial ≤ t.phiCurr - p.gammaPhi * t.thetaCurr <;>
    by_cases h3 : contains f t.thetaTrial t.phiTrial = true <;>
    simp [h1, h1'', h2, h3]
  · have h1'' : t.thetaCurr < p.thetaMin := not_le.1 h1
    by_cases h2 : t.thetaTrial ≤ (1 - p.gammaTheta) * t.thetaCurr ∨
        t.phiTrial ≤ t.phiCurr - p.gammaPhi * t.thetaCurr <;>
    by_cases h3 : contains f t.thetaTrial t.phiTrial = true <;>
    by_cases h4 : t.gradPhiDx < 0 ∧
        p.delta * t.thetaCurr ^ p.sTheta < t.alpha * (-t.gradPhiDx) ^ p.sPhi <;>
    by_cases h5 : t.phiTrial ≤ t.phiCurr + p.etaPhi * t.alpha * t.gradPhiDx <;>
    simp [h1, h1'', h2, h3, h4, h5]

/-- **C02.** Acceptance implies strict progress in at least one measure when the current
point is infeasible and the margins are positive; when it is accepted by Armijo, the
barrier objective strictly decreases. -/
theorem C02_accept_progress (p : Params) (f : Filt) (t : Trial)
    (hg : 0 < p.gammaTheta) (hp : 0 < p.gammaPhi) (he : 0 < p.etaPhi) (ha : 0 < t.alpha)
    (ht : 0 < t.thetaCurr) (hacc : 0 < (accept p f t).1) :
    t.thetaTrial < t.thetaCurr ∨ t.phiTrial < t.phiCurr := by
  obtain ⟨c1, c2, c3, c4⟩ := C02_accept_status p f t
  have hsd : SuffDecrease p t → t.thetaTrial < t.thetaCurr ∨ t.phiTrial < t.phiCurr := by
    rintro (h | h)
    · left; nlinarith
    · right; nlinarith
  have : (accept p f t).1 = 1 ∨ (accept p f t).1 = 2 ∨ (accept p f t).1 = 3 := by omega
  rcases this with h | h | h
  · exact hsd (c1.1 h).2.1
  · exact hsd (c2.1 h).2.2.1
  · obtain ⟨-, ⟨hneg, -⟩, harm, -⟩ := c3.1 h
    right
    unfold Armijo at harm
    have : p.etaPhi * t.alpha * t.gradPhiDx < 0 :=
      mul_neg_of_pos_of_neg (mul_pos he ha) hneg
    linarith

/-- Non-vacuity of C02: a trial accepted with status 1 and one rejected by the filter. -/
example : (accept ⟨1, 1/10, 1/10, 2, 1, 1, 1/10⟩ [⟨5, 5⟩] ⟨4, 2, 3, 7, 1, -1⟩).1 = 1 := by
  refine ((C02_accept_status _ _ _).1).2 ⟨by norm_num, Or.inl (by norm_num), ?_⟩
  rintro ⟨e, he, h1, -⟩
  simp at he; subst he; norm_num at h1

/-! ## History-level consequences (C02, C33) -/

/-- Invariant of the outer loop w.r.t. the filter. -/
def LoopInv (s : LoopState) : Prop :=
  (∀ a b, (a, b, true) ∈ s.acc → (⟨a, b⟩ : Entry) ∈ s.filt) ∧
  ∀ later a b earlier, s.acc = later ++ (a, b, true) :: earlier →
    ∀ x ∈ later, x.1 < a ∨ x.2.1 < b

theorem augment_ne (p : Params) (f : Filt) (t : Trial) (st : Nat) :
    augment p f t st = f ∨ augment p f t st = add f t.thetaTrial t.phiTrial := by
  unfold augment
  split_ifs <;> simp

theorem loopInv_step (p : Params) (tm : ℝ) (s : LoopState) (e : Ev) (h : LoopInv s) :
    LoopInv (loopStep p tm s e) := by
  cases e with
  | muReduced => constructor <;> simp [loopStep]
  | trial t =>
    unfold loopStep
    simp only
    split_ifs with hst
    · obtain ⟨c1, c2, c3, c4⟩ := C02_accept_status p s.filt t
      have hnd : ¬ Dominated s.filt t := by
        have : (accept p s.filt t).1 = 1 ∨ (accept p s.filt t).1 = 2 ∨
            (accept p s.filt t).1 = 3 := by omega
        rcases this with h | h | h
        · exact (c1.1 h).2.2
        · exact (c2.1 h).2.2.2
        · exact (c3.1 h).2.2.2
      refine ⟨?_, ?_⟩
      · intro a b hm
        simp only [List.mem_cons, Prod.mk.injEq] at hm
        rcases hm with ⟨rfl, rfl, hf⟩ | hm
        · have hf : augment p s.filt t (accept p s.filt t).1 ≠ s.filt := by
            simpa using hf.symm
          rcases augment_ne p s.filt t (accept p s.filt t).1 with h' | h'
          · exact absurd h' hf
          · simp [h', add]
        · have := h.1 a b hm
          rcases augment_ne p s.filt t (accept p s.filt t).1 with h' | h' <;>
          simp [h', add, this]
      · intro later a b earlier heq x hx
        cases later with
        | nil => simp at hx
        | cons y ys =>
          simp only [List.cons_append, List.cons.injEq] at heq
          obtain ⟨hy, hrest⟩ := heq
          rcases List.mem_cons.1 hx with rfl | hx
          · have hm : (a, b, true) ∈ s.acc := by rw [hrest]; simp
            have := h.1 a b hm
            by_contra hcon
            push Not at hcon
            apply hnd
            refine ⟨⟨a, b⟩, this, ?_, ?_⟩
            · have := hcon.1; rw [← hy] at this; exact this
            · have := hcon.2; rw [← hy] at this; exact this
          · exact h.2 ys a b earlier hrest x hx
    · exact h

/-- **C02.** No cycling within a barrier problem: in every run of line searches and barrier
reductions, a point accepted after a point that entered the filter improves on it in at
least one of the two measures. -/
theorem C02_no_return_to_filtered_point (p : Params) (thetaMax : ℝ) (evs : List Ev)
    (later earlier : List (ℝ × ℝ × Bool)) (a b : ℝ)
    (hacc : (loopRun p thetaMax evs).acc = later ++ (a, b, true) :: earlier) :
    ∀ x ∈ later, x.1 < a ∨ x.2.1 < b := by
  have hinv : LoopInv (loopRun p thetaMax evs) := by
    clear hacc
    unfold loopRun
    induction evs using List.reverseRecOn with
    | nil => constructor <;> simp [loopInit]
    | append_singleton l e ih =>
      rw [List.foldl_append]; exact loopInv_step _ _ _ _ ih
  exact hinv.2 later a b earlier hacc

/-- **C02.** The filter is augmented with the accepted pair exactly when the step is not an
objective-reducing one (switching condition and Armijo decrease); otherwise it is unchanged. -/
theorem C02_augmentation_rule (p : Params) (f : Filt) (t : Trial) (hacc : 0 < (accept p f t).1) :
    ((Switching p t ∧ Armijo p t) → augment p f t (accept p f t).1 = f) ∧
    (¬ (Switching p t ∧ Armijo p t) →
      augment p f t (accept p f t).1 = ⟨t.thetaTrial, t.phiTrial⟩ :: f) := by
  obtain ⟨c1, c2, c3, c4⟩ := C02_accept_status p f t
  have : (accept p f t).1 = 1 ∨ (accept p f t).1 = 2 ∨ (accept p f t).1 = 3 := by omega
  rcases this with h | h | h
  · rw [h]
    unfold augment Switching Armijo
    by_cases h4 : t.gradPhiDx < 0 ∧ t.alpha * (-t.gradPhiDx) ^ p.sPhi > p.delta * t.thetaCurr ^ p.sTheta
    · by_cases h5 : t.phiTrial ≤ t.phiCurr + p.etaPhi * t.alpha * t.gradPhiDx
      · have h4' := h4.2
        simp [h4.1, h4', h5]
      · have h4' := h4.2
        simp [h4.1, h4', h5, add]
    · constructor
      · rintro ⟨h6, -⟩; exact absurd h6 h4
      · intro _; rw [if_pos rfl, if_neg h4]; rfl
  · have hs := (c2.1 h).2.1
    rw [h]
    exact ⟨fun h' => absurd h'.1 hs, fun _ => by simp [augment, add]⟩
  · have hs := c3.1 h
    rw [h]
    exact ⟨fun _ => by simp [augment], fun h' => absurd ⟨hs.2.1, hs.2.2.1⟩ h'⟩

theorem filt_mono (p : Params) (tm : ℝ) (mid : List Ev) (hmid : ∀ e ∈ mid, e ≠ Ev.muReduced)
    (s : LoopState) (e : Entry) (he : e ∈ s.filt) : e ∈ (mid.foldl (loopStep p tm) s).filt := by
  induction mid generalizing s with
  | nil => exact he
  | cons a as ih =>
    rw [List.foldl_cons]
    refine ih (fun e h => hmid e (List.mem_cons_of_mem _ h)) _ ?_
    cases a with
    | muReduced => exact absurd rfl (hmid _ List.mem_cons_self)
    | trial t =>
      unfold loopStep
      simp only
      split_ifs
      · rcases augment_ne p s.filt t (accept p s.filt t).1 with h' | h' <;> simp [h', add, he]
      · exact he

/-- **C02.** Within one barrier problem, every point accepted after an accepted step that was not
objective-reducing improves on that step's point in at least one measure, whatever happened before
and in between. -/
theorem C02_no_return (p : Params) (thetaMax : ℝ) (pre mid : List Ev) (t t2 : Trial)
    (hmid : ∀ e ∈ mid, e ≠ Ev.muReduced)
    (hacc : 0 < (accept p (loopRun p thetaMax pre).filt t).1)
    (hnf : ¬ (Switching p t ∧ Armijo p t))
    (hacc2 : 0 < (accept p (loopRun p thetaMax (pre ++ Ev.trial t :: mid)).filt t2).1) :
    t2.thetaTrial < t.thetaTrial ∨ t2.phiTrial < t.phiTrial := by
  have h1 : (⟨t.thetaTrial, t.phiTrial⟩ : Entry) ∈
      (loopRun p thetaMax (pre ++ Ev.trial t :: mid)).filt := by
    unfold loopRun
    rw [List.foldl_append, List.foldl_cons]
    refine filt_mono p thetaMax mid hmid _ _ ?_
    have h2 := (C02_augmentation_rule p _ t hacc).2 hnf
    change _ ∈ (loopStep p thetaMax (loopRun p thetaMax pre) (.trial t)).filt
    generalize loopRun p thetaMax pre = s at h2 hacc
    unfold loopStep
    simp only
    rw [if_pos hacc, h2]
    exact List.mem_cons_self
  obtain ⟨c1, c2, c3, c4⟩ := C02_accept_status p (loopRun p thetaMax (pre ++ Ev.trial t :: mid)).filt t2
  have hnd : ¬ Dominated (loopRun p thetaMax (pre ++ Ev.trial t :: mid)).filt t2 := by
    have : (accept p (loopRun p thetaMax (pre ++ Ev.trial t :: mid)).filt t2).1 = 1 ∨
        (accept p (loopRun p thetaMax (pre ++ Ev.trial t :: mid)).filt t2).1 = 2 ∨
        (accept p (loopRun p thetaMax (pre ++ Ev.trial t :: mid)).filt t2).1 = 3 := by omega
    rcases this with h | h | h
    · exact (c1.1 h).2.2
    · exact (c2.1 h).2.2.2
    · exact (c3.1 h).2.2.2
  by_contra hcon
  push Not at hcon
  exact hnd ⟨_, h1, hcon.1, hcon.2⟩

/-- Non-vacuity: a first accepted step with large infeasibility and positive slope is not
objective-reducing, and a second step is accepted after it. -/
example : let p : Params := ⟨1, 1/10, 1/10, 2, 1, 1, 1/10⟩
    let t : Trial := ⟨4, 2, 3, 7, 1, 1⟩
    let t2 : Trial := ⟨2, 1, 7, 7, 1, 1⟩
    0 < (accept p (loopRun p 100 []).filt t).1 ∧ ¬ (Switching p t ∧ Armijo p t) ∧
      0 < (accept p (loopRun p 100 ([] ++ [Ev.trial t])).filt t2).1 := by
  intro p t t2
  have h1 : (accept p (loopRun p 100 []).filt t).1 = 1 := by
    refine ((C02_accept_status _ _ _).1).2 ⟨by norm_num [p, t], Or.inl (by norm_num [p, t]), ?_⟩
    rintro ⟨e, he, -⟩
    simp [loopRun, loopInit, clear] at he
  have h2 : ¬ (Switching p t ∧ Armijo p t) := by
    rintro ⟨⟨h, -⟩, -⟩
    norm_num [t] at h
  refine ⟨by omega, h2, ?_⟩
  have h3 : (accept p (loopRun p 100 ([] ++ [Ev.trial t])).filt t2).1 = 1 := by
    refine ((C02_accept_status _ _ _).1).2 ⟨by norm_num [p, t2], Or.inl (by norm_num [p, t2]), ?_⟩
    have h4 := (C02_augmentation_rule p (loopRun p 100 []).filt t (by omega)).2 h2
    rintro ⟨e, he, h5, -⟩
    have : e ∈ (loopStep p 100 (loopRun p 100 []) (.trial t)).filt := he
    have h6 : (loopRun p 100 []).filt = [] := rfl
    generalize loopRun p 100 [] = s at h1 h4 this h6
    unfold loopStep at this
    simp only [h1] at h4 this
    rw [if_pos (by omega), h4, h6] at this
    simp at this
    subst this
    norm_num [t, t2] at h5
  omega

/-- Accepted points of the current barrier problem respect the infeasibility cap. -/
def CapInv (thetaMax : ℝ) (s : LoopState) : Prop :=
  (⟨thetaMax, -1e20⟩ : Entry) ∈ s.filt ∧
    ∀ x ∈ s.acc, x.1 < thetaMax ∨ x.2.1 < -1e20

theorem capInv_step (p : Params) (tm : ℝ) (s : LoopState) (e : Ev) (h : CapInv tm s) :
    CapInv tm (loopStep p tm s e) := by
  cases e with
  | muReduced => exact ⟨by simp [loopStep, reinit], by simp [loopStep]⟩
  | trial t =>
    unfold loopStep
    simp only
    split_ifs with hst
    · obtain ⟨c1, c2, c3, c4⟩ := C02_accept_status p s.filt t
      have hnd : ¬ Dominated s.filt t := by
        have : (accept p s.filt t).1 = 1 ∨ (accept p s.filt t).1 = 2 ∨
            (accept p s.filt t).1 = 3 := by omega
        rcases this with h | h | h
        · exact (c1.1 h).2.2
        · exact (c2.1 h).2.2.2
        · exact (c3.1 h).2.2.2
      refine ⟨?_, ?_⟩
      · rcases augment_ne p s.filt t (accept p s.filt t).1 with h' | h' <;>
        simp [h', add, h.1]
      · intro x hx
        rcases List.mem_cons.1 hx with rfl | hx
        · by_contra hcon
          push Not at hcon
          exact hnd ⟨_, h.1, hcon.1, hcon.2⟩
        · exact h.2 x hx
    · exact h

/-- **C33 (partial).** Once the barrier parameter has been reduced at least once, no accepted
trial point has infeasibility `theta_max` or more, unless its barrier objective is below
`-1e20`. Missing: the first barrier problem, see `C33_cap_violated_in_first_barrier_problem`. -/
theorem C33_infeasibility_cap_partial (p : Params) (thetaMax : ℝ) (pre post : List Ev) :
    ∀ x ∈ (loopRun p thetaMax (pre ++ .muReduced :: post)).acc,
      x.1 < thetaMax ∨ x.2.1 < -1e20 := by
  have hinv : CapInv thetaMax (loopRun p thetaMax (pre ++ .muReduced :: post)) := by
    unfold loopRun
    rw [List.foldl_append, List.foldl_cons]
    induction post using List.reverseRecOn with
    | nil => exact ⟨by simp [loopStep, reinit], by simp [loopStep]⟩
    | append_singleton l e ih => rw [List.foldl_append]; exact capInv_step _ _ _ _ ih
  exact hinv.2

/-- **C33 (negation).** Before the first barrier reduction the filter is empty (it is cleared,
not initialised, at hiopAlgFilterIPM.cpp:287), so trial points of arbitrarily large
infeasibility are accepted: for every cap there is a one-trial run accepting a point far
above it. -/
theorem C33_cap_violated_in_first_barrier_problem (thetaMax : ℝ) (hm : 0 < thetaMax) :
    ∃ (p : Params) (t : Trial), 0 < p.gammaTheta ∧ p.gammaTheta < 1 ∧ 0 < p.gammaPhi ∧
      p.thetaMin ≤ thetaMax ∧
      ∃ x ∈ (loopRun p thetaMax [.trial t]).acc, thetaMax < x.1 ∧ -1e20 < x.2.1 := by
  have hst : (accept ⟨thetaMax/2, 1/2, 1/2, 2, 1, 1, 1/2⟩ ([] : Filt)
      ⟨thetaMax, 2*thetaMax, thetaMax, 0, 1, -1⟩).1 = 1 := by
    refine ((C02_accept_status _ _ _).1).2 ⟨by simp only; linarith, Or.inr ?_, ?_⟩
    · simp only; linarith
    · rintro ⟨e, he, -⟩; simp at he
  refine ⟨⟨thetaMax/2, 1/2, 1/2, 2, 1, 1, 1/2⟩,
    ⟨thetaMax, 2*thetaMax, thetaMax, 0, 1, -1⟩, by norm_num, by norm_num, by norm_num,
    by simp only; linarith, ?_⟩
  simp only [loopRun, loopInit, clear, List.foldl_cons, List.foldl_nil, loopStep]
  rw [hst]
  simp only [gt_iff_lt, Nat.zero_lt_one, if_true]
  exact ⟨_, List.mem_cons_self, by simp only; linarith, by norm_num⟩

end Hiop.Filter
