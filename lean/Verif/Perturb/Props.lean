import Verif.Perturb.Lemmas
import Mathlib.Tactic.NormNum

/-!
# Property C10: inertia-correction perturbations
-/

set_option linter.unusedSimpArgs false

namespace Hiop.Perturb

/-- Requests made to a perturbation object. -/
inductive Op
  | initial
  | wrong
  | sing
  | setMu (mu : ℝ)
  | reinit

/-- One request; the Boolean is the answer, `none` a failed assertion. -/
noncomputable def step (c : Calc PState) : Op → PState → Option (Bool × PState)
  | .initial, s => c.initial s
  | .wrong, s => c.wrong s
  | .sing, s => c.sing s
  | .setMu m, s => some (true, setMu m s)
  | .reinit, s => some (true, reinit s)

/-- State after a history of requests (whatever the answers were). -/
noncomputable def run (c : Calc PState) : List Op → PState → Option PState
  | [], s => some s
  | op :: ops, s =>
    match step c op s with
    | none => none
    | some (_, s') => run c ops s'

/-- Histories in which only positive barrier parameters are set. -/
def MuPos (ops : List Op) : Prop := ∀ m, Op.setMu m ∈ ops → 0 < m

/-! ## Primal-first class -/

/-- A wrong-inertia request on consistent scalars never fails an assertion. -/
theorem wrongP_spec (p : Params) (hp : p.Ok) (s : PState) (h : Good p s) :
    ∃ b s', wrongP p s = some (b, s') ∧ Good p s' ∧ s'.mu = s.mu ∧
      (s.vec = s.cur → s'.vec = s'.cur) ∧
      (b = true → 0 < s'.cur.wx ∧ s'.cur.wx ≤ p.wMax ∧ min p.w0 p.wMin ≤ s'.cur.wx ∧
        ((s'.cur.cc = s.cur.cc ∧ s.cur.wx < s'.cur.wx ∧ growth p * s.cur.wx ≤ s'.cur.wx) ∨
         (s.cur.cc = 0 ∧ s'.cur.cc = deltaC p s.mu))) := by
  have hu := good_updateDegen p s h
  have hv := updateDegen_vec s
  have hc := updateDegen_cur s
  have hm := updateDegen_mu s
  unfold wrongP
  generalize updateDegen s = u at hu hv hc hm
  simp only
  rw [if_neg (by simp [hu.wEq, hu.cEq])]
  rw [guts_spec p u hu.wEq hu.lwEq]
  have hg := good_guts p hp u _ _ hu (guts_spec p u hu.wEq hu.lwEq)
  have hpos := nextW_pos p hp u.cur.wx u.last.wx hu.w0 hu.lw0
  have hlt := nextW_lt p hp u.cur.wx u.last.wx hu.w0 hu.lw0
  have hlow := nextW_low p hp u.cur.wx u.last.wx hu.w0 hu.lw0 hu.low
  have hgr : growth p * u.cur.wx ≤ nextW p u.cur.wx u.last.wx := by
    rcases hu.w0.lt_or_eq with h1 | h1
    · exact nextW_grow p hp _ _ h1
    · rw [← h1]; simpa using (nextW_pos p hp 0 u.last.wx le_rfl hu.lw0).le
  simp only
  by_cases hle : nextW p u.cur.wx u.last.wx ≤ p.wMax
  · rw [if_neg (by simp [hle])]
    refine ⟨_, _, rfl, hg.congr rfl rfl rfl, hm, ?_, fun _ => ⟨hpos, hle, hlow, Or.inl ?_⟩⟩
    · intro hvc
      simp only [setVecP, hv, hvc, hc]
    · rw [← hc]; exact ⟨rfl, hlt, hgr⟩
  · by_cases hcc : u.cur.cc = 0
    · rw [if_pos ⟨by simp [hle], hcc⟩]
      have hd := deltaC_pos p hp u.mu hu.mu0
      have hg2 := good_setC p _ hd.le _ (good_setW0 p _ hg)
      generalize hs2 : setC (deltaC p u.mu) (setW 0 0 _) = s2 at hg2 ⊢
      have hg3 : Good p { s2 with test := .noTest, hess := if s2.hess = .yes then .unknown else s2.hess } :=
        hg2.congr rfl rfl rfl
      have e2 : s2.cur.cc = deltaC p u.mu := by rw [← hs2]; rfl
      have e3 : s2.mu = u.mu := by rw [← hs2]; rfl
      rw [guts_spec p _ hg3.wEq hg3.lwEq]
      have hg4 := good_guts p hp _ _ _ hg3 (guts_spec p _ hg3.wEq hg3.lwEq)
      refine ⟨_, _, rfl, hg4.congr rfl rfl rfl, by simp only [setVec]; rw [e3, hm], fun _ => rfl,
        fun hb => ?_⟩
      have hle2 : nextW p s2.cur.wx s2.last.wx ≤ p.wMax := by simpa using hb
      refine ⟨nextW_pos p hp _ _ hg2.w0 hg2.lw0, hle2, nextW_low p hp _ _ hg2.w0 hg2.lw0 hg2.low,
        Or.inr ⟨by rw [← hc]; exact hcc, ?_⟩⟩
      simp only [setVec]; rw [e2, hm]
    · rw [if_neg (by simp [hcc])]
      refine ⟨_, _, rfl, hg.congr rfl rfl rfl, hm, ?_, fun hb => absurd (of_decide_eq_true hb) hle⟩
      intro hvc
      simp only [setVecP, hv, hvc, hc]

/-- **C10 (primal first).** In any consistent state an accepted wrong-inertia request yields a
positive primal perturbation, not above the maximum and not below the smaller of the first and the
smallest one, identical for `x` and the inequality slacks and identical to what the linear system
receives; it either increases the primal perturbation strictly, by at least the growth factor,
leaving the dual one alone, or turns a zero dual perturbation on. -/
theorem C10_wrong_inertia_accepted (p : Params) (hp : p.Ok) (s s' : PState) (h : Good p s)
    (hv : s.vec = s.cur) (hw : wrongP p s = some (true, s')) :
    0 < s'.cur.wx ∧ s'.cur.wx ≤ p.wMax ∧ min p.w0 p.wMin ≤ s'.cur.wx ∧
    s'.cur.wd = s'.cur.wx ∧ s'.cur.cd = s'.cur.cc ∧ s'.vec = s'.cur ∧
    ((s'.cur.cc = s.cur.cc ∧ s.cur.wx < s'.cur.wx ∧
        min p.kPlusBar p.kPlus * s.cur.wx ≤ s'.cur.wx) ∨
      (s.cur.cc = 0 ∧ s'.cur.cc = p.cBar * s.mu ^ p.kC ∧ 0 < s'.cur.cc)) := by
  obtain ⟨b, s1, h1, h2, h3, h4, h5⟩ := wrongP_spec p hp s h
  rw [hw] at h1
  obtain ⟨rfl, rfl⟩ := Prod.mk.inj (Option.some.inj h1)
  obtain ⟨a1, a2, a3, a4⟩ := h5 rfl
  refine ⟨a1, a2, a3, h2.wEq.symm, h2.cEq.symm, h4 hv, ?_⟩
  rcases a4 with a4 | ⟨a4, a5⟩
  · exact Or.inl a4
  · exact Or.inr ⟨a4, a5, by rw [a5]; exact deltaC_pos p hp _ h.mu0⟩

/-- `n` consecutive accepted wrong-inertia requests. -/
noncomputable def accepted (c : Calc PState) : ℕ → PState → Option PState
  | 0, s => some s
  | n + 1, s =>
    match c.wrong s with
    | some (true, s') => accepted c n s'
    | _ => none

/-- Some number of accepted requests is followed by a refusal. -/
def EventuallyRefused (c : Calc PState) (s : PState) : Prop :=
  ∃ n s' s'', accepted c n s = some s' ∧ c.wrong s' = some (false, s'')

theorem EventuallyRefused.step (c : Calc PState) (s s1 : PState)
    (h : c.wrong s = some (true, s1)) (h1 : EventuallyRefused c s1) : EventuallyRefused c s := by
  obtain ⟨n, s', s'', a, b⟩ := h1
  exact ⟨n + 1, s', s'', by simp [accepted, h, a], b⟩

theorem EventuallyRefused.now (c : Calc PState) (s s1 : PState)
    (h : c.wrong s = some (false, s1)) : EventuallyRefused c s := ⟨0, s, s1, rfl, h⟩

theorem exists_pow_gt (a b k : ℝ) (ha : 0 < a) (hk : 1 < k) : ∃ n : ℕ, b < k ^ n * a := by
  obtain ⟨n, hn⟩ := pow_unbounded_of_one_lt (b / a) hk
  exact ⟨n, by rwa [div_lt_iff₀ ha] at hn⟩

theorem refusedP_cpos (p : Params) (hp : p.Ok) (n : ℕ) (s : PState) (h : Good p s)
    (hc : 0 < s.cur.cc) (hw : 0 < s.cur.wx) (hn : p.wMax < growth p ^ n * s.cur.wx) :
    EventuallyRefused (calcP p) s := by
  induction n generalizing s with
  | zero =>
    obtain ⟨b, s', h1, h2, h3, h4, h5⟩ := wrongP_spec p hp s h
    cases b
    · exact .now _ _ _ h1
    · obtain ⟨a1, a2, a3, a4⟩ := h5 rfl
      rcases a4 with ⟨_, a5, _⟩ | ⟨a5, _⟩
      · simp at hn; linarith
      · linarith
  | succ n ih =>
    obtain ⟨b, s', h1, h2, h3, h4, h5⟩ := wrongP_spec p hp s h
    cases b
    · exact .now _ _ _ h1
    · obtain ⟨a1, a2, a3, a4⟩ := h5 rfl
      rcases a4 with ⟨a6, a5, a7⟩ | ⟨a5, _⟩
      · refine .step _ _ _ h1 (ih s' h2 (by rw [a6]; exact hc) a1 ?_)
        have hg := growth_gt p hp
        have : growth p ^ n * (growth p * s.cur.wx) ≤ growth p ^ n * s'.cur.wx :=
          mul_le_mul_of_nonneg_left a7 (by positivity)
        rw [pow_succ] at hn; linarith
      · linarith

theorem refusedP_c0 (p : Params) (hp : p.Ok) (n : ℕ) (s : PState) (h : Good p s)
    (hw : 0 < s.cur.wx) (hn : p.wMax < growth p ^ n * s.cur.wx) :
    EventuallyRefused (calcP p) s := by
  induction n generalizing s with
  | zero =>
    obtain ⟨b, s', h1, h2, h3, h4, h5⟩ := wrongP_spec p hp s h
    cases b
    · exact .now _ _ _ h1
    · obtain ⟨a1, a2, a3, a4⟩ := h5 rfl
      rcases a4 with ⟨_, a5, _⟩ | ⟨a5, a6⟩
      · simp at hn; linarith
      · obtain ⟨m, hm⟩ := exists_pow_gt s'.cur.wx p.wMax (growth p) a1 (growth_gt p hp)
        exact .step _ _ _ h1 (refusedP_cpos p hp m s' h2
          (by rw [a6]; exact deltaC_pos p hp _ h.mu0) a1 hm)
  | succ n ih =>
    obtain ⟨b, s', h1, h2, h3, h4, h5⟩ := wrongP_spec p hp s h
    cases b
    · exact .now _ _ _ h1
    · obtain ⟨a1, a2, a3, a4⟩ := h5 rfl
      rcases a4 with ⟨a6, a5, a7⟩ | ⟨a5, a6⟩
      · refine .step _ _ _ h1 (ih s' h2 a1 ?_)
        have hg := growth_gt p hp
        have : growth p ^ n * (growth p * s.cur.wx) ≤ growth p ^ n * s'.cur.wx :=
          mul_le_mul_of_nonneg_left a7 (by positivity)
        rw [pow_succ] at hn; linarith
      · obtain ⟨m, hm⟩ := exists_pow_gt s'.cur.wx p.wMax (growth p) a1 (growth_gt p hp)
        exact .step _ _ _ h1 (refusedP_cpos p hp m s' h2
          (by rw [a6]; exact deltaC_pos p hp _ h.mu0) a1 hm)

/-- **C10 (primal first).** From any consistent state, finitely many consecutive wrong-inertia
requests are accepted, and then one is refused (no assertion fails on the way). -/
theorem C10_wrong_inertia_finite (p : Params) (hp : p.Ok) (s : PState) (h : Good p s) :
    EventuallyRefused (calcP p) s := by
  obtain ⟨b, s', h1, h2, h3, h4, h5⟩ := wrongP_spec p hp s h
  cases b
  · exact .now _ _ _ h1
  · obtain ⟨a1, -⟩ := h5 rfl
    obtain ⟨m, hm⟩ := exists_pow_gt s'.cur.wx p.wMax (growth p) a1 (growth_gt p hp)
    exact .step _ _ _ h1 (refusedP_c0 p hp m s' h2 a1 hm)

/-! ### Reachable states -/

/-- The inconsistent state produced once both blocks are declared degenerate: the primal
perturbation of `x` is the dual one, that of the slacks is zero. -/
structure Broken (s : PState) : Prop where
  hess : s.hess = .yes
  jac : s.jac = .yes
  wd : s.cur.wd = 0
  wx : 0 < s.cur.wx
  cEq : s.cur.cc = s.cur.cd
  lcEq : s.last.cc = s.last.cd
  c0 : 0 ≤ s.cur.cc
  lc0 : 0 ≤ s.last.cc
  mu0 : 0 < s.mu

/-- Reachable states are consistent or broken. -/
def InvP (p : Params) (s : PState) : Prop := Good p s ∨ Broken s

theorem initCore_inv (p : Params) (hp : p.Ok) (u : PState) (hmu : 0 < u.mu)
    (hlc : u.last.cc = u.last.cd) (hlc0 : 0 ≤ u.last.cc)
    (hl0 : u.last.wx = u.last.wd → 0 ≤ u.last.wx)
    (hcase : (u.hess = .yes ∧ u.jac = .yes) ∨ u.last.wx = u.last.wd) (b : Bool) (s' : PState)
    (hrun : initCore p (initC p u) (setC (initC p u) (startTest u)) = some (b, s')) :
    InvP p s' := by
  have hdt : 0 ≤ initC p u := by
    unfold initC
    split_ifs
    · exact (deltaC_pos p hp u.mu hmu).le
    · exact le_rfl
  have hgood : u.last.wx = u.last.wd → Good p (setW 0 0 (setC (initC p u) (startTest u))) := fun hl =>
    ⟨rfl, rfl, hl, hlc, le_rfl, hdt, hl0 hl, hlc0, Or.inl rfl, hmu⟩
  unfold initCore at hrun
  by_cases hh : u.hess = .yes
  · rw [if_pos (by exact hh)] at hrun
    by_cases hl : u.last.wx = u.last.wd
    · have hg := hgood hl
      cases hgu : guts p (setW 0 0 (setC (initC p u) (startTest u))) with
      | none => rw [guts_spec p _ hg.wEq hg.lwEq] at hgu; simp at hgu
      | some r =>
        obtain ⟨bb, s2⟩ := r
        have hg2 := good_guts p hp _ _ _ hg hgu
        have e : s2.hess = u.hess ∧ s2.jac = u.jac := by
          rw [guts_spec p _ hg.wEq hg.lwEq] at hgu
          obtain ⟨-, rfl⟩ := Prod.mk.inj (Option.some.inj hgu)
          exact ⟨rfl, rfl⟩
        rw [hgu] at hrun
        cases bb
        · simp only [Option.some.injEq, Prod.mk.injEq] at hrun
          obtain ⟨-, rfl⟩ := hrun
          exact Or.inl hg2
        · simp only [Option.some.injEq, Prod.mk.injEq] at hrun
          obtain ⟨-, rfl⟩ := hrun
          by_cases hj : u.jac = .yes
          · refine Or.inr ⟨e.1.trans hh, e.2.trans hj, rfl, ?_, hg2.cEq, hg2.lcEq, hg2.c0, hg2.lc0,
              hg2.mu0⟩
            change 0 < initC p u
            unfold initC; rw [if_pos hj]
            exact deltaC_pos p hp u.mu hmu
          · have : initC p u = 0 := by unfold initC; rw [if_neg hj]
            rw [this]
            exact Or.inl ((good_setW0 p _ hg2).congr rfl rfl rfl)
    · have hn : guts p (setW 0 0 (setC (initC p u) (startTest u))) = none := by
        unfold guts
        exact if_pos (Or.inr hl)
      rw [hn] at hrun
      simp at hrun
  · rw [if_neg (by exact hh)] at hrun
    have hg := hgood (hcase.resolve_left (fun h => hh h.1))
    obtain ⟨-, rfl⟩ := Prod.mk.inj (Option.some.inj hrun)
    exact Or.inl (hg.congr rfl rfl rfl)

theorem initialP_inv (p : Params) (hp : p.Ok) (s : PState) (h : InvP p s) (b : Bool) (s' : PState)
    (hs : initialP p s = some (b, s')) : InvP p s' := by
  unfold initialP at hs
  rcases h with h | h
  · have hu := good_saveLast p _ (good_updateDegen p s h)
    exact initCore_inv p hp _ hu.mu0 hu.lcEq hu.lc0 (fun _ => hu.lw0) (Or.inr hu.lwEq) _ _ hs
  · have hy := updateDegen_yes s ⟨h.hess, h.jac⟩
    refine initCore_inv p hp (saveLast (updateDegen s)) ?_ ?_ ?_ ?_ (Or.inl hy) _ _ hs
    · simp only [saveLast, updateDegen_mu]; exact h.mu0
    · simp only [saveLast, updateDegen_cur, updateDegen_last, h.cEq, h.lcEq]
    · simp only [saveLast, updateDegen_cur, updateDegen_last]
      split_ifs
      · exact h.c0
      · exact h.lc0
    · intro _
      simp only [saveLast, updateDegen_cur, updateDegen_last, if_pos h.wx]
      exact h.wx.le

theorem broken_aborts (p : Params) (s : PState) (h : Broken s) :
    wrongP p s = none ∧ singP p s = none := by
  have hne : s.cur.wx ≠ s.cur.wd := by rw [h.wd]; exact h.wx.ne'
  constructor
  · unfold wrongP
    simp only [updateDegen_cur]
    rw [if_pos (Or.inl hne)]
  · unfold singP
    rw [if_pos (Or.inl hne)]

theorem singP_good (p : Params) (hp : p.Ok) (s : PState) (h : Good p s) (b : Bool) (s' : PState)
    (hs : singP p s = some (b, s')) : Good p s' ∧ s'.vec = s'.cur := by
  have hd := deltaC_pos p hp s.mu h.mu0
  have key : ∀ (u : PState) (t : Test) (chk : PState → Bool), Good p u →
      gutsThen p u t chk = some (b, s') → Good p s' ∧ s'.vec = s'.cur := by
    intro u t chk hu hrun
    unfold gutsThen at hrun
    cases hgu : guts p u with
    | none => rw [hgu] at hrun; simp at hrun
    | some r =>
      obtain ⟨bb, s2⟩ := r
      have hg2 := good_guts p hp _ _ _ hu hgu
      rw [hgu] at hrun
      cases bb
      · simp only [Option.some.injEq, Prod.mk.injEq] at hrun
        obtain ⟨-, rfl⟩ := hrun
        exact ⟨hg2.congr rfl rfl rfl, rfl⟩
      · simp only at hrun
        split_ifs at hrun
        obtain ⟨-, rfl⟩ := Prod.mk.inj (Option.some.inj hrun)
        exact ⟨hg2.congr rfl rfl rfl, rfl⟩
  have hset : ∀ t, Good p { setC (deltaC p s.mu) s with test := t } := fun t =>
    (good_setC p _ hd.le _ h).congr rfl rfl rfl
  unfold singP at hs
  simp only at hs
  rw [if_neg (by simp [h.wEq, h.cEq])] at hs
  split at hs
  · split at hs
    · split at hs
      · obtain ⟨-, rfl⟩ := Prod.mk.inj (Option.some.inj hs)
        exact ⟨(hset .cposw0).congr rfl rfl rfl, rfl⟩
      · exact key _ _ _ h hs
    · split at hs
      · simp at hs
      · exact key _ _ _ (good_setC p 0 le_rfl _ h) hs
    · split at hs
      · simp at hs
      · exact key _ _ _ (good_setC p _ hd.le _ h) hs
    · exact key _ _ _ h hs
    · simp at hs
  · split at hs
    · exact key _ _ _ h hs
    · obtain ⟨-, rfl⟩ := Prod.mk.inj (Option.some.inj hs)
      exact ⟨(good_setC p _ hd.le _ h).congr rfl rfl rfl, rfl⟩

theorem stepP_inv (p : Params) (hp : p.Ok) (op : Op) (hop : ∀ m, op = .setMu m → 0 < m)
    (s : PState) (h : InvP p s) (b : Bool) (s' : PState)
    (hs : step (calcP p) op s = some (b, s')) : InvP p s' := by
  cases op with
  | initial => exact initialP_inv p hp s h b s' hs
  | wrong =>
    rcases h with h | h
    · obtain ⟨b1, s1, h1, h2, -⟩ := wrongP_spec p hp s h
      change wrongP p s = _ at hs
      rw [hs] at h1
      obtain ⟨-, rfl⟩ := Prod.mk.inj (Option.some.inj h1)
      exact Or.inl h2
    · change wrongP p s = _ at hs
      rw [(broken_aborts p s h).1] at hs; simp at hs
  | sing =>
    rcases h with h | h
    · exact Or.inl (singP_good p hp s h b s' hs).1
    · change singP p s = _ at hs
      rw [(broken_aborts p s h).2] at hs; simp at hs
  | setMu m =>
    simp only [step, Option.some.injEq, Prod.mk.injEq] at hs
    obtain ⟨-, rfl⟩ := hs
    have hm := hop m rfl
    rcases h with h | h
    · exact Or.inl ⟨h.wEq, h.cEq, h.lwEq, h.lcEq, h.w0, h.c0, h.lw0, h.lc0, h.low, hm⟩
    · exact Or.inr ⟨h.hess, h.jac, h.wd, h.wx, h.cEq, h.lcEq, h.c0, h.lc0, hm⟩
  | reinit =>
    simp only [step, Option.some.injEq, Prod.mk.injEq] at hs
    obtain ⟨-, rfl⟩ := hs
    rcases h with h | h
    · exact Or.inl (h.congr rfl rfl rfl)
    · exact Or.inr ⟨h.hess, h.jac, h.wd, h.wx, h.cEq, h.lcEq, h.c0, h.lc0, h.mu0⟩

theorem good_fresh (p : Params) (mu : ℝ) (hmu : 0 < mu) : Good p (PState.fresh mu) :=
  ⟨rfl, rfl, rfl, rfl, le_rfl, le_rfl, le_rfl, le_rfl, Or.inl rfl, hmu⟩

theorem runP_inv (p : Params) (hp : p.Ok) (ops : List Op) (hmu : MuPos ops) (s s' : PState)
    (h : InvP p s) (hr : run (calcP p) ops s = some s') : InvP p s' := by
  induction ops generalizing s with
  | nil => simp only [run, Option.some.injEq] at hr; exact hr ▸ h
  | cons op ops ih =>
    unfold run at hr
    cases hs : step (calcP p) op s with
    | none => simp [hs] at hr
    | some r =>
      obtain ⟨b, s1⟩ := r
      simp only [hs] at hr
      exact ih (fun m hm => hmu m (List.mem_cons_of_mem _ hm)) s1
        (stepP_inv p hp op (fun m e => hmu m (e ▸ List.mem_cons_self)) s h b s1 hs) hr

/-- **C10 (primal first), partial.** After any history of requests that does not fail an assertion,
the perturbations of `x` and of the inequality slacks agree (likewise the dual ones) and are
nonnegative, the next wrong-inertia correction loop is finite -- unless the object has declared both
the Hessian and the Jacobian degenerate. Missing: that exceptional case, where the code violates
the property (`C10_degenerate_mismatch`). -/
theorem C10_reachable_consistent_partial (p : Params) (hp : p.Ok) (mu0 : ℝ) (hmu0 : 0 < mu0)
    (ops : List Op) (hmu : MuPos ops) (s : PState)
    (hr : run (calcP p) ops (PState.fresh mu0) = some s)
    (hnd : ¬ (s.hess = .yes ∧ s.jac = .yes)) :
    s.cur.wx = s.cur.wd ∧ s.cur.cc = s.cur.cd ∧ 0 ≤ s.cur.wx ∧ 0 ≤ s.cur.cc ∧
    (s.cur.wx = 0 ∨ min p.w0 p.wMin ≤ s.cur.wx) ∧ EventuallyRefused (calcP p) s := by
  rcases runP_inv p hp ops hmu _ _ (Or.inl (good_fresh p mu0 hmu0)) hr with h | h
  · exact ⟨h.wEq, h.cEq, h.w0, h.c0, h.low, C10_wrong_inertia_finite p hp s h⟩
  · exact absurd ⟨h.hess, h.jac⟩ hnd

/-- **C10 (primal first).** Unless the Hessian has been declared degenerate, a new linear system
starts from a zero primal perturbation, and from the dual one `delta_c_bar mu^kappa_c` exactly when
the Jacobian has been declared degenerate. -/
theorem C10_initial (p : Params) (s : PState) (hh : (updateDegen s).hess ≠ .yes) :
    ∃ s', initialP p s = some (true, s') ∧ s'.vec = s'.cur ∧ s'.cur.wx = 0 ∧ s'.cur.wd = 0 ∧
      s'.cur.cc = s'.cur.cd ∧
      s'.cur.cc = (if (updateDegen s).jac = .yes then p.cBar * s.mu ^ p.kC else 0) := by
  unfold initialP initCore
  rw [if_neg (by exact hh)]
  refine ⟨_, rfl, rfl, rfl, rfl, rfl, ?_⟩
  simp only [setVec, setW, setC, initC, saveLast, updateDegen_mu, deltaC]

/-! ### Violations -/

/-- **C10**, violation: a declared-degenerate Hessian is *not* perturbed at the start of a new
linear system -- the computed primal perturbation is thrown away. -/
theorem C10_degenerate_hessian_ignored (p : Params) (s s' : PState)
    (_hh : (updateDegen s).hess = .yes) (hj : (updateDegen s).jac ≠ .yes)
    (hs : initialP p s = some (true, s')) : s'.vec.wx = 0 ∧ s'.vec.wd = 0 := by
  have hj' : initC p (saveLast (updateDegen s)) = 0 := by
    unfold initC; rw [if_neg (by exact hj)]
  unfold initialP initCore at hs
  rw [hj'] at hs
  split at hs
  · split at hs
    · simp at hs
    · simp at hs
    · obtain ⟨-, rfl⟩ := Prod.mk.inj (Option.some.inj hs)
      exact ⟨rfl, rfl⟩
  · obtain ⟨-, rfl⟩ := Prod.mk.inj (Option.some.inj hs)
    exact ⟨rfl, rfl⟩

/-- Default option values. -/
noncomputable def dflt : Params := ⟨1e-20, 1e20, 1e-4, 1/3, 100, 8, 1e-8, 1/4, 1e-20, 10⟩

theorem dflt_ok : dflt.Ok := by
  constructor <;> norm_num [dflt]

theorem dflt_deltaC : deltaC dflt 1 = 1e-8 := by norm_num [deltaC, dflt]

/-- **C10**, violation: singular, wrong inertia, singular again -- a possible sequence of
factorization results within one linear system -- fails an assertion. -/
theorem C10_assertion_reachable :
    run (calcP dflt) [.initial, .sing, .wrong, .sing] (PState.fresh 1) = none := by
  have h1 : initialP dflt (PState.fresh 1) =
      some (true, ⟨.zero, .zero, .zero, .unknown, .unknown, 0, .c0w0, 1⟩) := by
    simp [initialP, initCore, initC, startTest, PState.fresh, updateDegen, saveLast, setC, setW, setVec, Deltas.zero]
  have h2 : singP dflt ⟨.zero, .zero, .zero, .unknown, .unknown, 0, .c0w0, 1⟩ =
      some (true, ⟨⟨0, 0, 1e-8, 1e-8⟩, .zero, ⟨0, 0, 1e-8, 1e-8⟩, .unknown, .unknown, 0, .cposw0, 1⟩) := by
    simp [singP, setC, setVec, Deltas.zero, dflt_deltaC]
  have h3 : wrongP dflt ⟨⟨0, 0, 1e-8, 1e-8⟩, .zero, ⟨0, 0, 1e-8, 1e-8⟩, .unknown, .unknown, 0, .cposw0, 1⟩ =
      some (true, ⟨⟨1e-4, 1e-4, 1e-8, 1e-8⟩, .zero, ⟨1e-4, 1e-4, 1e-8, 1e-8⟩, .no, .unknown, 1, .cposw0, 1⟩) := by
    norm_num [wrongP, updateDegen, guts, nextW, dflt, setVecP, Deltas.zero]
  have h4 : singP dflt ⟨⟨1e-4, 1e-4, 1e-8, 1e-8⟩, .zero, ⟨1e-4, 1e-4, 1e-8, 1e-8⟩, .no, .unknown, 1, .cposw0, 1⟩
      = none := by
    norm_num [singP]
  simp [run, step, calcP, h1, h2, h3, h4]

/-- **C10**, violation: as soon as both blocks are declared degenerate, the next linear system
starts with different perturbations for `x` (the *dual* value) and the slacks (zero), and every
later request for the same system fails an assertion. -/
theorem C10_degenerate_mismatch (p : Params) (hp : p.Ok) (s s' : PState) (h : Good p s)
    (hh : (updateDegen s).hess = .yes) (hj : (updateDegen s).jac = .yes)
    (hs : initialP p s = some (true, s')) :
    s'.vec.wx = p.cBar * s.mu ^ p.kC ∧ s'.vec.wd = 0 ∧ s'.vec.wx ≠ s'.vec.wd ∧
    wrongP p s' = none ∧ singP p s' = none := by
  have hc : initC p (saveLast (updateDegen s)) = deltaC p s.mu := by
    unfold initC; rw [if_pos (by exact hj)]; simp only [saveLast, updateDegen_mu]
  have hd := deltaC_pos p hp s.mu h.mu0
  unfold initialP initCore at hs
  rw [hc, if_pos (by exact hh)] at hs
  have hb : s'.vec.wx = deltaC p s.mu ∧ s'.vec.wd = 0 ∧ s'.cur.wx = deltaC p s.mu ∧ s'.cur.wd = 0 := by
    split at hs
    · simp at hs
    · simp at hs
    · obtain ⟨-, rfl⟩ := Prod.mk.inj (Option.some.inj hs)
      exact ⟨rfl, rfl, rfl, rfl⟩
  obtain ⟨b1, b2, b3, b4⟩ := hb
  have hne : s'.cur.wx ≠ s'.cur.wd := by rw [b3, b4]; exact hd.ne'
  refine ⟨b1, b2, by rw [b1, b2]; exact hd.ne', ?_, ?_⟩
  · unfold wrongP
    simp only [updateDegen_cur]
    rw [if_pos (Or.inl hne)]
  · unfold singP
    rw [if_pos (Or.inl hne)]

/-- The test states of three linear systems that were all repeatedly singular. -/
theorem C10_degenerate_mismatch_reachable :
    ∃ s, run (calcP dflt) [.initial, .sing, .sing, .sing, .initial, .sing, .sing, .sing,
        .initial, .sing, .sing, .sing, .initial] (PState.fresh 1) = some s ∧
      s.vec.wx ≠ s.vec.wd := by
  have i0 : initialP dflt (PState.fresh 1) =
      some (true, ⟨.zero, .zero, .zero, .unknown, .unknown, 0, .c0w0, 1⟩) := by
    simp [initialP, initCore, initC, startTest, PState.fresh, updateDegen, saveLast, setC, setW, setVec,
      Deltas.zero]
  have s1 : ∀ l n, singP dflt ⟨.zero, l, .zero, .unknown, .unknown, n, .c0w0, 1⟩ =
      some (true, ⟨⟨0, 0, 1e-8, 1e-8⟩, l, ⟨0, 0, 1e-8, 1e-8⟩, .unknown, .unknown, n, .cposw0, 1⟩) := by
    intro l n
    simp [singP, setC, setVec, Deltas.zero, dflt_deltaC]
  have s2 : ∀ l n w, l.wx = l.wd → nextW dflt 0 l.wx = w → w ≤ 1e20 →
      singP dflt ⟨⟨0, 0, 1e-8, 1e-8⟩, l, ⟨0, 0, 1e-8, 1e-8⟩, .unknown, .unknown, n, .cposw0, 1⟩ =
      some (true, ⟨⟨w, w, 0, 0⟩, l, ⟨w, w, 0, 0⟩, .unknown, .unknown, n, .c0wpos, 1⟩) := by
    intro l n w hl hw hle
    have hle' : w ≤ dflt.wMax := hle
    have hpos : ((1e-8 : ℝ) > 0) := by norm_num
    simp [singP, gutsThen, setC, guts_spec, hl, setVec, hpos]
    rw [← hl, hw]
    simp [hle', setVec]
  have s3 : ∀ l n w w2, 0 < w → l.wx = l.wd → nextW dflt w l.wx = w2 → w2 ≤ 1e20 →
      singP dflt ⟨⟨w, w, 0, 0⟩, l, ⟨w, w, 0, 0⟩, .unknown, .unknown, n, .c0wpos, 1⟩ =
      some (true, ⟨⟨w2, w2, 1e-8, 1e-8⟩, l, ⟨w2, w2, 1e-8, 1e-8⟩, .unknown, .unknown, n, .cposwpos, 1⟩) := by
    intro l n w w2 hw0 hl hw hle
    have hle' : w2 ≤ dflt.wMax := hle
    simp [singP, gutsThen, setC, guts_spec, hl, setVec, hw0, dflt_deltaC]
    rw [← hl, hw]
    simp [hle', setVec]
  have i1 : ∀ l n w, 0 < w → n + 1 < 3 →
      initialP dflt ⟨⟨w, w, 1e-8, 1e-8⟩, l, ⟨w, w, 1e-8, 1e-8⟩, .unknown, .unknown, n, .cposwpos, 1⟩ =
      some (true, ⟨.zero, ⟨w, w, 1e-8, 1e-8⟩, .zero, .unknown, .unknown, n + 1, .c0w0, 1⟩) := by
    intro l n w hw hn
    have hpos : ((1e-8 : ℝ) > 0) := by norm_num
    have hn' : ¬ 3 ≤ n + 1 := by omega
    simp [initialP, initCore, initC, startTest, updateDegen, saveLast, setC, setW, setVec,
      Deltas.zero, hw, hn', hpos]
    try simp [numDegenMax, hn']
  have n0 : nextW dflt 0 0 = 1e-4 := by norm_num [nextW, dflt]
  have n1 : nextW dflt 1e-4 0 = 1e-2 := by norm_num [nextW, dflt]
  have n2 : nextW dflt 0 1e-2 = 1/300 := by norm_num [nextW, dflt]
  have n3 : nextW dflt (1/300) 1e-2 = 8/300 := by norm_num [nextW, dflt]
  have n4 : nextW dflt 0 (8/300) = 8/900 := by norm_num [nextW, dflt]
  have n5 : nextW dflt (8/900) (8/300) = 64/900 := by norm_num [nextW, dflt]
  have n6 : nextW dflt 0 (64/900) = 64/2700 := by norm_num [nextW, dflt]
  have i3 : ∀ l, ∃ s, initialP dflt ⟨⟨64/900, 64/900, 1e-8, 1e-8⟩, l, ⟨64/900, 64/900, 1e-8, 1e-8⟩,
      .unknown, .unknown, 2, .cposwpos, 1⟩ = some (true, s) ∧ s.vec.wx ≠ s.vec.wd := by
    intro l
    have hpos : ((1e-8 : ℝ) > 0) := by norm_num
    have hpos2 : ((64/900 : ℝ) > 0) := by norm_num
    have hle : (64/2700 : ℝ) ≤ dflt.wMax := by norm_num [dflt]
    simp only [initialP, initCore, initC, startTest, updateDegen, saveLast, setC, setW, hpos, hpos2,
      if_true, dflt_deltaC, ge_iff_le, Nat.reduceAdd, le_refl, reduceCtorEq, or_self, if_false,
      guts_spec, n6, hle, decide_true]
    refine ⟨_, rfl, ?_⟩
    norm_num [setVec]
  obtain ⟨sf, hf, hne⟩ := i3 ⟨8/300, 8/300, 1e-8, 1e-8⟩
  refine ⟨sf, ?_, hne⟩
  have a1 := s2 .zero 0 _ rfl n0 (by norm_num)
  have a2 := s3 .zero 0 _ _ (by norm_num) rfl n1 (by norm_num)
  have a3 := i1 .zero 0 1e-2 (by norm_num) (by norm_num)
  have b1 := s2 ⟨1e-2, 1e-2, 1e-8, 1e-8⟩ 1 _ rfl n2 (by norm_num)
  have b2 := s3 ⟨1e-2, 1e-2, 1e-8, 1e-8⟩ 1 _ _ (by norm_num) rfl n3 (by norm_num)
  have b3 := i1 ⟨1e-2, 1e-2, 1e-8, 1e-8⟩ 1 (8/300) (by norm_num) (by norm_num)
  have c1 := s2 ⟨8/300, 8/300, 1e-8, 1e-8⟩ 2 _ rfl n4 (by norm_num)
  have c2 := s3 ⟨8/300, 8/300, 1e-8, 1e-8⟩ 2 _ _ (by norm_num) rfl n5 (by norm_num)
  simp only [run, step, calcP, i0, s1, a1, a2, a3, b1, b2, b3, c1, c2, hf, Nat.reduceAdd]

/-! ## Dual-first class -/

theorem nextC_pos (p : Params) (hp : p.Ok) (mu cur last : ℝ) (h0 : 0 ≤ cur) :
    0 < nextC p mu cur last := by
  unfold nextC
  split_ifs with h1 h2
  · exact lt_of_lt_of_le hp.cm (le_max_left _ _)
  · exact lt_of_lt_of_le hp.cm (le_max_left _ _)
  · exact mul_pos (by linarith [hp.kpb]) (lt_of_le_of_ne h0 (Ne.symm h1))
  · exact mul_pos (by linarith [hp.kcp]) (lt_of_le_of_ne h0 (Ne.symm h1))

/-- Smallest factor by which a positive dual perturbation grows. -/
noncomputable def growthC (p : Params) : ℝ := min p.kPlusBar p.kCPlus

theorem growthC_gt (p : Params) (h : p.Ok) : 1 < growthC p := lt_min h.kpb h.kcp

theorem nextC_grow (p : Params) (hp : p.Ok) (mu cur last : ℝ) (h0 : 0 ≤ cur) :
    growthC p * cur ≤ nextC p mu cur last := by
  rcases h0.lt_or_eq with h | h
  · unfold nextC
    rw [if_neg h.ne']
    split_ifs
    · exact mul_le_mul_of_nonneg_right (min_le_left _ _) h.le
    · exact mul_le_mul_of_nonneg_right (min_le_right _ _) h.le
  · have := nextC_pos p hp mu cur last h0
    rw [← h] at this ⊢
    simpa using this.le

theorem nextC_lt (p : Params) (hp : p.Ok) (mu cur last : ℝ) (h0 : 0 ≤ cur) :
    cur < nextC p mu cur last := by
  rcases h0.lt_or_eq with h | h
  · have := nextC_grow p hp mu cur last h0
    have hg := growthC_gt p hp
    nlinarith
  · rw [← h]; exact nextC_pos p hp mu 0 last le_rfl

theorem dualImpl_spec (p : Params) (s : PState) (h1 : s.cur.cc = s.cur.cd)
    (h2 : s.last.cc = s.last.cd) :
    dualImpl p s = some (decide (nextC p s.mu s.cur.cc s.last.cc ≤ p.wMax),
      { s with
        cur := { s.cur with cc := nextC p s.mu s.cur.cc s.last.cc,
                            cd := nextC p s.mu s.cur.cc s.last.cc }
        vec := { s.vec with cc := nextC p s.mu s.cur.cc s.last.cc,
                            cd := nextC p s.mu s.cur.cc s.last.cc }
        last := if nextC p s.mu s.cur.cc s.last.cc ≤ p.wMax then s.last
          else { s.last with cc := 0, cd := 0 } }) := by
  unfold dualImpl
  rw [if_neg (by simp [h1, h2])]
  simp only [setVecD, setC]
  by_cases h : nextC p s.mu s.cur.cc s.last.cc ≤ p.wMax
  · rw [if_neg (not_lt.mpr h)]; simp [h]
  · rw [if_pos (not_le.mp h)]; simp [h]

theorem good_dualImpl (p : Params) (hp : p.Ok) (s s' : PState) (b : Bool) (h : Good p s)
    (hg : dualImpl p s = some (b, s')) : Good p s' := by
  obtain ⟨h1, h2, h3, h4, h5, h6, h7, h8, h9, h10⟩ := h
  rw [dualImpl_spec p s h2 h4] at hg
  obtain ⟨-, rfl⟩ := Prod.mk.inj (Option.some.inj hg)
  have hpos := nextC_pos p hp s.mu s.cur.cc s.last.cc h6
  constructor <;> simp only <;> first | assumption | rfl | exact hpos.le | skip
  all_goals split_ifs <;> first | assumption | exact le_rfl | rfl

theorem initialD_spec (p : Params) (hp : p.Ok) (s : PState) (h : Good p s) :
    ∃ b s', initialD p s = some (b, s') ∧ Good p s' ∧ (b = true → s'.vec = s'.cur) := by
  have hu : Good p (setC 0 (startTest (saveLast (updateDegen s)))) :=
    good_setC p 0 le_rfl _ ((good_saveLast p _ (good_updateDegen p s h)).congr rfl rfl rfl)
  unfold initialD
  simp only
  generalize setC 0 (startTest (saveLast (updateDegen s))) = u at hu ⊢
  have hr1 : ∃ b1 u1, (if u.jac = .yes then dualImpl p u else some (true, u)) = some (b1, u1) ∧ Good p u1 := by
    split_ifs
    · exact ⟨_, _, dualImpl_spec p u hu.cEq hu.lcEq,
        good_dualImpl p hp u _ _ hu (dualImpl_spec p u hu.cEq hu.lcEq)⟩
    · exact ⟨_, _, rfl, hu⟩
  obtain ⟨b1, u1, e1, g1⟩ := hr1
  rw [e1]
  cases b1
  · exact ⟨_, _, rfl, g1, fun h => by simp at h⟩
  · simp only
    have g2 := good_setW0 p _ g1
    generalize setW 0 0 u1 = v at g2 ⊢
    have hr2 : ∃ b2 u2, (if v.hess = .yes then guts p v else some (true, v)) = some (b2, u2) ∧ Good p u2 := by
      split_ifs
      · exact ⟨_, _, guts_spec p v g2.wEq g2.lwEq,
          good_guts p hp v _ _ g2 (guts_spec p v g2.wEq g2.lwEq)⟩
      · exact ⟨_, _, rfl, g2⟩
    obtain ⟨b2, u2, e2, g3⟩ := hr2
    rw [e2]
    cases b2
    · exact ⟨_, _, rfl, g3, fun h => by simp at h⟩
    · exact ⟨_, _, rfl, g3.congr rfl rfl rfl, fun _ => rfl⟩

theorem wrongD_spec (p : Params) (hp : p.Ok) (s : PState) (h : Good p s) :
    ∃ b s', wrongD p s = some (b, s') ∧ Good p s' ∧
      (b = true → (s.vec = s.cur → s'.vec = s'.cur) ∧ 0 < s'.cur.cc ∧ s'.cur.cc ≤ p.wMax ∧
        ((s'.cur.wx = s.cur.wx ∧ s.cur.cc < s'.cur.cc ∧ growthC p * s.cur.cc ≤ s'.cur.cc) ∨
         (s.cur.wx = 0 ∧ 0 < s'.cur.wx ∧ s'.cur.wx ≤ p.wMax))) := by
  have hu := good_updateDegen p s h
  have hv := updateDegen_vec s
  have hc := updateDegen_cur s
  unfold wrongD
  generalize updateDegen s = u at hu hv hc
  simp only
  rw [if_neg (by simp [hu.wEq, hu.cEq]), dualImpl_spec p u hu.cEq hu.lcEq]
  have hg := good_dualImpl p hp u _ _ hu (dualImpl_spec p u hu.cEq hu.lcEq)
  have hpos := nextC_pos p hp u.mu u.cur.cc u.last.cc hu.c0
  have hlt := nextC_lt p hp u.mu u.cur.cc u.last.cc hu.c0
  have hgr := nextC_grow p hp u.mu u.cur.cc u.last.cc hu.c0
  simp only
  by_cases hle : nextC p u.mu u.cur.cc u.last.cc ≤ p.wMax
  · rw [if_neg (by simp [hle])]
    refine ⟨_, _, rfl, hg.congr rfl rfl rfl, fun _ => ⟨?_, hpos, hle, Or.inl ?_⟩⟩
    · intro hvc
      simp only [setVecD, hv, hvc, hc]
    · rw [← hc]; exact ⟨rfl, hlt, hgr⟩
  · by_cases hcc : u.cur.wx = 0
    · rw [if_pos ⟨by simp [hle], hcc⟩]
      have hg2 := good_setC p 0 le_rfl _ hg
      have ew : ∀ y, (setC 0 y).cur.wx = y.cur.wx := fun _ => rfl
      have hw2 := ew { u with
        cur := { u.cur with cc := nextC p u.mu u.cur.cc u.last.cc,
                            cd := nextC p u.mu u.cur.cc u.last.cc }
        vec := { u.vec with cc := nextC p u.mu u.cur.cc u.last.cc,
                            cd := nextC p u.mu u.cur.cc u.last.cc }
        last := if nextC p u.mu u.cur.cc u.last.cc ≤ p.wMax then u.last
          else { u.last with cc := 0, cd := 0 } }
      generalize setC 0 _ = s2 at hg2 hw2 ⊢
      rw [guts_spec p _ hg2.wEq hg2.lwEq]
      have hg3 := good_guts p hp _ _ _ hg2 (guts_spec p _ hg2.wEq hg2.lwEq)
      by_cases hle2 : nextW p s2.cur.wx s2.last.wx ≤ p.wMax
      · simp only [decide_eq_true hle2]
        generalize hs3 : ({ s2 with
          cur := { s2.cur with wx := nextW p s2.cur.wx s2.last.wx, wd := nextW p s2.cur.wx s2.last.wx }
          vec := { s2.vec with wx := nextW p s2.cur.wx s2.last.wx, wd := nextW p s2.cur.wx s2.last.wx }
          last := if nextW p s2.cur.wx s2.last.wx ≤ p.wMax then s2.last
            else { s2.last with wx := 0, wd := 0 }, test := .noTest, jac := if s2.jac = .yes then .unknown else s2.jac } : PState) = s3
        have hg4 : Good p s3 := by rw [← hs3]; exact hg3.congr rfl rfl rfl
        have e3 : s3.cur.wx = nextW p s2.cur.wx s2.last.wx := by rw [← hs3]
        have e4 : s3.vec.wx = s3.cur.wx ∧ s3.vec.wd = s3.cur.wd := by rw [← hs3]; exact ⟨rfl, rfl⟩
        rw [dualImpl_spec p _ hg4.cEq hg4.lcEq]
        refine ⟨_, _, rfl, (good_dualImpl p hp _ _ _ hg4 (dualImpl_spec p _ hg4.cEq hg4.lcEq)).congr rfl rfl rfl,
          fun hb => ⟨fun _ => rfl, nextC_pos p hp _ _ _ hg4.c0, of_decide_eq_true hb, Or.inr ⟨by rw [← hc]; exact hcc, ?_⟩⟩⟩
        simp only [setVecD, setVecP]
        rw [e3]
        exact ⟨nextW_pos p hp _ _ hg2.w0 hg2.lw0, hle2⟩
      · simp only [decide_eq_false hle2]
        exact ⟨_, _, rfl, by simpa using hg3, fun h => by simp at h⟩
    · rw [if_neg (by simp [hcc])]
      exact ⟨_, _, rfl, hg.congr rfl rfl rfl, fun hb => absurd (of_decide_eq_true hb) hle⟩

/-- **C10 (dual first).** Whatever history of requests, no assertion fails, the perturbations of
`x` and the slacks agree, likewise the two dual ones, and all are nonnegative. -/
theorem C10_dual_first_consistent (p : Params) (hp : p.Ok) (mu0 : ℝ) (hmu0 : 0 < mu0)
    (ops : List Op) (hmu : MuPos ops) :
    ∃ s, run (calcD p) ops (PState.fresh mu0) = some s ∧
      s.cur.wx = s.cur.wd ∧ s.cur.cc = s.cur.cd ∧ 0 ≤ s.cur.wx ∧ 0 ≤ s.cur.cc := by
  suffices H : ∀ s, Good p s → ∃ s', run (calcD p) ops s = some s' ∧ Good p s' by
    obtain ⟨s, h1, h2⟩ := H _ (good_fresh p mu0 hmu0)
    exact ⟨s, h1, h2.wEq, h2.cEq, h2.w0, h2.c0⟩
  induction ops with
  | nil => exact fun s h => ⟨s, rfl, h⟩
  | cons op ops ih =>
    intro s h
    have : ∃ b s1, step (calcD p) op s = some (b, s1) ∧ Good p s1 := by
      cases op with
      | initial => obtain ⟨b, s1, e, g, -⟩ := initialD_spec p hp s h; exact ⟨b, s1, e, g⟩
      | wrong => obtain ⟨b, s1, e, g, -⟩ := wrongD_spec p hp s h; exact ⟨b, s1, e, g⟩
      | sing => obtain ⟨b, s1, e, g, -⟩ := wrongD_spec p hp s h; exact ⟨b, s1, e, g⟩
      | setMu m =>
        exact ⟨_, _, rfl, h.wEq, h.cEq, h.lwEq, h.lcEq, h.w0, h.c0, h.lw0, h.lc0, h.low,
          hmu m List.mem_cons_self⟩
      | reinit => exact ⟨_, _, rfl, h.congr rfl rfl rfl⟩
    obtain ⟨b, s1, e, g⟩ := this
    obtain ⟨s', r, g'⟩ := ih (fun m hm => hmu m (List.mem_cons_of_mem _ hm)) s1 g
    exact ⟨s', by unfold run; rw [e]; exact r, g'⟩

/-- **C10 (dual first).** An accepted request in a consistent state gives a positive dual
perturbation not above the maximum, which is what the linear system receives; it either increases
the dual perturbation by at least the growth factor, or turns a zero primal perturbation on. -/
theorem C10_dual_first_accepted (p : Params) (hp : p.Ok) (s s' : PState) (h : Good p s)
    (hv : s.vec = s.cur) (hw : wrongD p s = some (true, s')) :
    0 < s'.cur.cc ∧ s'.cur.cc ≤ p.wMax ∧ s'.cur.wd = s'.cur.wx ∧ s'.cur.cd = s'.cur.cc ∧
    s'.vec = s'.cur ∧
    ((s'.cur.wx = s.cur.wx ∧ s.cur.cc < s'.cur.cc ∧
        min p.kPlusBar p.kCPlus * s.cur.cc ≤ s'.cur.cc) ∨
      (s.cur.wx = 0 ∧ 0 < s'.cur.wx ∧ s'.cur.wx ≤ p.wMax)) := by
  obtain ⟨b, s1, h1, h2, h5⟩ := wrongD_spec p hp s h
  rw [hw] at h1
  obtain ⟨rfl, rfl⟩ := Prod.mk.inj (Option.some.inj h1)
  obtain ⟨a0, a1, a2, a4⟩ := h5 rfl
  exact ⟨a1, a2, h2.wEq.symm, h2.cEq.symm, a0 hv, a4⟩

theorem refusedD_wpos (p : Params) (hp : p.Ok) (n : ℕ) (s : PState) (h : Good p s)
    (hc : 0 < s.cur.wx) (hw : 0 < s.cur.cc) (hn : p.wMax < growthC p ^ n * s.cur.cc) :
    EventuallyRefused (calcD p) s := by
  induction n generalizing s with
  | zero =>
    obtain ⟨b, s', h1, h2, h5⟩ := wrongD_spec p hp s h
    cases b
    · exact .now _ _ _ h1
    · obtain ⟨-, a1, a2, a4⟩ := h5 rfl
      rcases a4 with ⟨_, a5, _⟩ | ⟨a5, _⟩
      · simp at hn; linarith
      · linarith
  | succ n ih =>
    obtain ⟨b, s', h1, h2, h5⟩ := wrongD_spec p hp s h
    cases b
    · exact .now _ _ _ h1
    · obtain ⟨-, a1, a2, a4⟩ := h5 rfl
      rcases a4 with ⟨a6, a5, a7⟩ | ⟨a5, _⟩
      · refine .step _ _ _ h1 (ih s' h2 (by rw [a6]; exact hc) a1 ?_)
        have hg := growthC_gt p hp
        have : growthC p ^ n * (growthC p * s.cur.cc) ≤ growthC p ^ n * s'.cur.cc :=
          mul_le_mul_of_nonneg_left a7 (by positivity)
        rw [pow_succ] at hn; linarith
      · linarith

theorem refusedD_w0 (p : Params) (hp : p.Ok) (n : ℕ) (s : PState) (h : Good p s)
    (hw : 0 < s.cur.cc) (hn : p.wMax < growthC p ^ n * s.cur.cc) :
    EventuallyRefused (calcD p) s := by
  have fin : ∀ s', Good p s' → 0 < s'.cur.cc → 0 < s'.cur.wx → EventuallyRefused (calcD p) s' := by
    intro s' h2 a1 a6
    obtain ⟨m, hm⟩ := exists_pow_gt s'.cur.cc p.wMax (growthC p) a1 (growthC_gt p hp)
    exact refusedD_wpos p hp m s' h2 a6 a1 hm
  induction n generalizing s with
  | zero =>
    obtain ⟨b, s', h1, h2, h5⟩ := wrongD_spec p hp s h
    cases b
    · exact .now _ _ _ h1
    · obtain ⟨-, a1, a2, a4⟩ := h5 rfl
      rcases a4 with ⟨_, a5, _⟩ | ⟨a5, a6, _⟩
      · simp at hn; linarith
      · exact .step _ _ _ h1 (fin s' h2 a1 a6)
  | succ n ih =>
    obtain ⟨b, s', h1, h2, h5⟩ := wrongD_spec p hp s h
    cases b
    · exact .now _ _ _ h1
    · obtain ⟨-, a1, a2, a4⟩ := h5 rfl
      rcases a4 with ⟨a6, a5, a7⟩ | ⟨a5, a6, _⟩
      · refine .step _ _ _ h1 (ih s' h2 a1 ?_)
        have hg := growthC_gt p hp
        have : growthC p ^ n * (growthC p * s.cur.cc) ≤ growthC p ^ n * s'.cur.cc :=
          mul_le_mul_of_nonneg_left a7 (by positivity)
        rw [pow_succ] at hn; linarith
      · exact .step _ _ _ h1 (fin s' h2 a1 a6)

/-- **C10 (dual first).** After any history, finitely many consecutive requests are accepted and
then one is refused. -/
theorem C10_dual_first_finite (p : Params) (hp : p.Ok) (s : PState) (h : Good p s) :
    EventuallyRefused (calcD p) s := by
  obtain ⟨b, s', h1, h2, h5⟩ := wrongD_spec p hp s h
  cases b
  · exact .now _ _ _ h1
  · obtain ⟨-, a1, -⟩ := h5 rfl
    obtain ⟨m, hm⟩ := exists_pow_gt s'.cur.cc p.wMax (growthC p) a1 (growthC_gt p hp)
    exact .step _ _ _ h1 (refusedD_w0 p hp m s' h2 a1 hm)

/-- The hypotheses are met by the default options and a new object, which accepts at least one
wrong-inertia request. -/
example : dflt.Ok ∧ Good dflt (PState.fresh 1) ∧ (PState.fresh 1).vec = (PState.fresh 1).cur ∧
    ∃ s', wrongP dflt (PState.fresh 1) = some (true, s') ∧ s'.cur.wx = 1e-4 := by
  refine ⟨dflt_ok, good_fresh _ _ one_pos, rfl, ?_⟩
  have hle : (1e-4 : ℝ) ≤ 1e20 := by norm_num
  refine ⟨⟨⟨1e-4, 1e-4, 0, 0⟩, .zero, ⟨1e-4, 1e-4, 0, 0⟩, .unknown, .unknown, 0, .noTest, 1⟩, ?_, rfl⟩
  norm_num [wrongP, updateDegen, guts, nextW, dflt, setVecP, Deltas.zero, PState.fresh]

example : MuPos [.initial, .sing, .setMu 0.1, .initial, .wrong, .wrong] := by
  intro m hm; simp at hm; subst hm; norm_num

end Hiop.Perturb
