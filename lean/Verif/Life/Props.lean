import Verif.Life.Check

/-!
# C74: lifetimes of the objects of a solver

Every history of a solver — construction, any number of runs and queries, destruction, with any outcome of any
branch, any number of iterations, trials, corrections, restorations and switches of the linear system — uses
only objects that exist, and deletes no object twice. At the end every object has been deleted except for those
that were overwritten: one perturbation object for each run after the first, and one linear system for each
switch back to the fast linear system.
-/

namespace Hiop.Life

/-- The description of `start`. -/
def A0 : A := ⟨0, 2 ^ 64 - 1, 2 ^ 64 - 1, 0, []⟩

theorem A0_start : A0.Holds start :=
  ⟨by simp [A0, has], by simp [A0, has], fun _ _ => rfl, fun _ _ => Or.inl rfl, by simp [A0],
   by simp [start],
   fun _ _ => rfl, by simp [start, A0, set, has]⟩

/-- What is to be checked about the result for a session: no stray `break` or `return`, nothing owned, and only
the given pointers may have been overwritten. -/
def fine (vs : List Var) : Option Out → Bool
  | none => false
  | some o => o.brk.isEmpty && o.ret.isEmpty &&
    o.norm.all fun a => Nat.beq a.own 0 && Nat.beq (a.ov ||| vs.foldl add 0) (vs.foldl add 0)

theorem has_foldl (vs : List Var) (m : ℕ) (v : Var) : has (vs.foldl add m) v = true ↔ v ∈ vs ∨ has m v = true := by
  induction vs generalizing m with
  | nil => simp
  | cons a vs ih => rw [List.foldl_cons, ih, has_add, List.mem_cons]; tauto

theorem fine_spec {vs : List Var} {c : Cmd} (h : fine vs (chk c A0) = true) {r : Res} (hr : Exec c start r) :
    ∃ s, r = .norm s ∧ (∀ v, v ∉ vs → s.over v = 0) ∧ s.live.card = ∑ v ∈ vs.toFinset, s.over v := by
  cases hc : chk c A0 with
  | none => simp [hc, fine] at h
  | some o =>
    simp only [hc, fine, Bool.and_eq_true, List.isEmpty_iff, List.all_eq_true, Nat.beq_eq] at h
    obtain ⟨⟨hb, hre⟩, hn⟩ := h
    have hg := chk_sound c A0 o hc start A0_start r hr
    cases r with
    | brk s => obtain ⟨a, ha, _⟩ := hg; rw [hb] at ha; simp at ha
    | ret s => obtain ⟨a, ha, _⟩ := hg; rw [hre] at ha; simp at ha
    | ub => exact hg.elim
    | norm s =>
      obtain ⟨a, ha, hh⟩ := hg
      obtain ⟨h1, h2⟩ := hn a ha
      have h0 : ∀ v, v ∉ vs → s.over v = 0 := by
        intro v hv
        refine hh.ov v ?_
        by_contra hx
        have hx : has a.ov v = true := by simpa using hx
        have : has (vs.foldl add 0) v = true := by
          rw [← h2]; unfold has at hx ⊢; rw [Nat.testBit_or, hx, Bool.true_or]
        rcases (has_foldl vs 0 v).1 this with h' | h'
        · exact hv h'
        · simp [has] at h'
      refine ⟨s, rfl, h0, ?_⟩
      have he : set a.own = ∅ := by
        ext v; rw [mem_set, h1]; simp [has]
      rw [hh.card, he, Finset.card_empty, Nat.zero_add]
      symm
      apply Finset.sum_subset (Finset.subset_univ _)
      intro v _ hv; exact h0 v (by simpa using hv)

set_option maxRecDepth 100000 in
theorem session_fine : ∀ q c : Bool,
    fine (if c then [(false, .pd), (false, .kkt)] else [(false, .pd)]) (chk (session ⟨q, c⟩) A0) = true := by
  decide +kernel

set_option maxRecDepth 100000 in
theorem single_fine : ∀ q : Bool, fine [] (chk (single ⟨q, false⟩) A0) = true := by
  decide +kernel

/-! ### Executions by a schedule -/

/-- Execute with the given choices at the `alt`s (`true`: the first branch). -/
def exe : ℕ → Cmd → List Bool → St → Option (Res × List Bool)
  | 0, _, _, _ => none
  | _ + 1, .skip, ch, s => some (.norm s, ch)
  | _ + 1, .new v, ch, s => some (.norm (s.new v), ch)
  | _ + 1, .del v, ch, s => match s.env v with
    | none => some (.norm s, ch)
    | some p => if p ∈ s.live then some (.norm { s with live := s.live.erase p }, ch) else some (.ub, ch)
  | _ + 1, .null v, ch, s => some (.norm { s with env := Function.update s.env v none }, ch)
  | _ + 1, .copy v w, ch, s => some (.norm { s with env := Function.update s.env v (s.env w) }, ch)
  | _ + 1, .swap v w, ch, s =>
    some (.norm { s with env := Function.update (Function.update s.env v (s.env w)) w (s.env v) }, ch)
  | _ + 1, .use v, ch, s => match s.env v with
    | none => some (.ub, ch)
    | some p => if p ∈ s.live then some (.norm s, ch) else some (.ub, ch)
  | n + 1, .seq a b, ch, s => match exe n a ch s with
    | some (.norm s', ch') => exe n b ch' s'
    | r => r
  | n + 1, .alt a b, ch, s => match ch with
    | [] => none
    | true :: ch => exe n a ch s
    | false :: ch => exe n b ch s
  | n + 1, .ifSet v a, ch, s => if s.env v = none then some (.norm s, ch) else exe n a ch s
  | n + 1, .loop a, ch, s => match exe n a ch s with
    | some (.norm s', ch') => exe n (.loop a) ch' s'
    | some (.brk s', ch') => some (.norm s', ch')
    | r => r
  | _ + 1, .brk, ch, s => some (.brk s, ch)
  | _ + 1, .ret, ch, s => some (.ret s, ch)
  | n + 1, .call a, ch, s => match exe n a ch s with
    | some (.norm s', ch') => some (.norm s', ch')
    | some (.brk s', ch') => some (.norm s', ch')
    | some (.ret s', ch') => some (.norm s', ch')
    | r => r

theorem exe_sound (n : ℕ) : ∀ (c : Cmd) (ch : List Bool) (s : St) (r : Res) (ch' : List Bool),
    exe n c ch s = some (r, ch') → Exec c s r := by
  induction n with
  | zero => intro c ch s r ch' h; simp [exe] at h
  | succ n ih =>
    intro c ch s r ch' h
    cases c with
    | skip => simp only [exe, Option.some.injEq, Prod.mk.injEq] at h; rw [← h.1]; exact .skip s
    | new v => simp only [exe, Option.some.injEq, Prod.mk.injEq] at h; rw [← h.1]; exact .new v s
    | del v =>
      simp only [exe] at h
      cases he : s.env v with
      | none => simp only [he, Option.some.injEq, Prod.mk.injEq] at h; rw [← h.1]; exact .delNull v s he
      | some p =>
        simp only [he] at h
        split at h
        · rename_i hp
          simp only [Option.some.injEq, Prod.mk.injEq] at h; rw [← h.1]; exact .del v s p he hp
        · rename_i hp
          simp only [Option.some.injEq, Prod.mk.injEq] at h; rw [← h.1]; exact .delUb v s p he hp
    | null v => simp only [exe, Option.some.injEq, Prod.mk.injEq] at h; rw [← h.1]; exact .null v s
    | copy v w => simp only [exe, Option.some.injEq, Prod.mk.injEq] at h; rw [← h.1]; exact .copy v w s
    | swap v w => simp only [exe, Option.some.injEq, Prod.mk.injEq] at h; rw [← h.1]; exact .swap v w s
    | use v =>
      simp only [exe] at h
      cases he : s.env v with
      | none =>
        simp only [he, Option.some.injEq, Prod.mk.injEq] at h; rw [← h.1]
        exact .useUb v s fun ⟨p, _, h2⟩ => by rw [he] at h2; simp at h2
      | some p =>
        simp only [he] at h
        split at h
        · rename_i hp
          simp only [Option.some.injEq, Prod.mk.injEq] at h; rw [← h.1]; exact .use v s ⟨p, hp, he⟩
        · rename_i hp
          simp only [Option.some.injEq, Prod.mk.injEq] at h; rw [← h.1]
          exact .useUb v s fun ⟨q, h1, h2⟩ => by rw [he] at h2; cases h2; exact hp h1
    | seq a b =>
      simp only [exe] at h
      split at h
      · rename_i s' c' h1
        exact .seq (ih a ch s _ c' h1) (ih b c' s' r ch' h)
      · rename_i hn
        refine .seqStop (ih a ch s r ch' h) fun s' e => ?_
        subst e; exact hn s' ch' h
    | alt a b =>
      simp only [exe] at h
      split at h
      · simp at h
      · exact .altL (ih _ _ _ _ _ h)
      · exact .altR (ih _ _ _ _ _ h)
    | ifSet v a =>
      simp only [exe] at h
      split at h
      · rename_i he
        simp only [Option.some.injEq, Prod.mk.injEq] at h; rw [← h.1]; exact .ifNull he
      · rename_i he
        exact .ifSet he (ih _ _ _ _ _ h)
    | loop a =>
      simp only [exe] at h
      split at h
      · rename_i s' c' h1
        exact .loopAgain (ih a ch s _ c' h1) (ih _ c' s' r ch' h)
      · rename_i s' c' h1
        simp only [Option.some.injEq, Prod.mk.injEq] at h; rw [← h.1]
        exact .loopBrk (ih a ch s _ c' h1)
      · rename_i hn hb
        have := ih a ch s r ch' h
        cases r with
        | norm s' => exact absurd h (hn s' ch')
        | brk s' => exact absurd h (hb s' ch')
        | ret s' => exact .loopRet this
        | ub => exact .loopUb this
    | brk => simp only [exe, Option.some.injEq, Prod.mk.injEq] at h; rw [← h.1]; exact .brk s
    | ret => simp only [exe, Option.some.injEq, Prod.mk.injEq] at h; rw [← h.1]; exact .ret s
    | call a =>
      simp only [exe] at h
      split at h
      · rename_i s' c' h1
        simp only [Option.some.injEq, Prod.mk.injEq] at h; rw [← h.1]; exact .callNorm (ih a ch s _ c' h1)
      · rename_i s' c' h1
        simp only [Option.some.injEq, Prod.mk.injEq] at h; rw [← h.1]; exact .callBrk (ih a ch s _ c' h1)
      · rename_i s' c' h1
        simp only [Option.some.injEq, Prod.mk.injEq] at h; rw [← h.1]; exact .callRet (ih a ch s _ c' h1)
      · rename_i h1 h2 h3
        have := ih a ch s r ch' h
        cases r with
        | norm s' => exact absurd h (h1 s' ch')
        | brk s' => exact absurd h (h2 s' ch')
        | ret s' => exact absurd h (h3 s' ch')
        | ub => exact .callUb this

/-- The number of objects left after an execution by a schedule, if it ends normally. -/
def left (c : Cmd) (ch : List Bool) : Option ℕ := match exe 200 c ch start with
  | some (.norm s, _) => some s.live.card
  | _ => none

theorem left_sound {c : Cmd} {ch : List Bool} {m : ℕ} (h : left c ch = some m) :
    ∃ s, Exec c start (.norm s) ∧ s.live.card = m := by
  unfold left at h
  split at h
  · rename_i s ch' he
    exact ⟨s, exe_sound 200 c ch start _ ch' he, by simpa using h⟩
  · simp at h

/-- The choices of a query of the solution. -/
def query : List Bool := [false, false]

/-- The choices of a run that ends at its first test for termination. -/
def shortRun : List Bool := [false, true, false, true, false, false, true]

/-- The choices of a run of a condensed system with two iterations: in the first one it changes to the safer
linear system, in the second one back to the fast one. -/
def switchRun : List Bool := [false, true, false, true, false] ++
  [false, false, true, false, true, false, false, true, true, false, true, false, false] ++
  [false, false, true, true, false, false, false, true, true, false, true, true]

/-! ### C74 -/

/-- **C74 (safety).** No history of a solver uses an object that does not exist or deletes an object twice, for
the quasi-Newton and the Newton solver and both families of linear systems: each execution ends normally. -/
theorem C74_no_use_after_release (k : Kind) (r : Res) (h : Exec (session k) start r) : ∃ s, r = .norm s := by
  obtain ⟨q, c⟩ := k
  obtain ⟨s, hs, _⟩ := fine_spec (session_fine q c) h
  exact ⟨s, hs⟩

/-- **C74 (release).** The objects that exist after the destructor are exactly accounted for by overwritten
pointers to perturbation objects and linear systems of the outer solver; no other pointer is ever overwritten
while its object exists, in particular none of the restoration solver; without the condensed linear system only
perturbation objects remain. -/
theorem C74_leak_exact (k : Kind) (s : St) (h : Exec (session k) start (.norm s)) :
    s.live.card = s.over (false, .pd) + s.over (false, .kkt) ∧
    (∀ v, v ≠ (false, .pd) → v ≠ (false, .kkt) → s.over v = 0) ∧
    (k.cond = false → s.live.card = s.over (false, .pd)) := by
  obtain ⟨q, c⟩ := k
  obtain ⟨s', hs, ho, hc⟩ := fine_spec (session_fine q c) h
  cases hs
  cases c with
  | true =>
    simp only [if_true] at ho hc
    refine ⟨by simpa using hc, fun v h1 h2 => ho v (by simp [h1, h2]), by simp⟩
  | false =>
    have hk : s.over (false, .kkt) = 0 := ho _ (by simp)
    have hp : s.live.card = s.over (false, .pd) := by simpa using hc
    refine ⟨by rw [hk, hp, Nat.add_zero], fun v h1 h2 => ho v (by simpa using h1), fun _ => hp⟩

/-- **C74 (one run).** A solver without the condensed linear system that runs once releases everything, however
the run ends. (Missing for the full property: several runs, and the condensed system; see the refutations.) -/
theorem C74_one_run_partial (k : Kind) (hk : k.cond = false) (r : Res) (h : Exec (single k) start r) :
    ∃ s, r = .norm s ∧ s.live = ∅ := by
  obtain ⟨q, c⟩ := k
  simp only at hk
  subst hk
  obtain ⟨s, hs, _, hc⟩ := fine_spec (single_fine q) h
  exact ⟨s, hs, Finset.card_eq_zero.1 (by simpa using hc)⟩

/-- A Newton solver that runs once: an execution meeting the hypotheses above, with nothing left. -/
example : ∃ s, Exec (session ⟨false, false⟩) start (.norm s) ∧ s.live.card = 0 :=
  left_sound (ch := [false] ++ shortRun ++ query ++ [true]) (by decide +kernel)

/-- A run with a restoration: the restoration solver is built, ends at its first test for termination, and is
destroyed; nothing is left. -/
example : ∃ s, Exec (single ⟨false, false⟩) start (.norm s) ∧ s.live.card = 0 :=
  left_sound (ch := [false] ++ [false, true, false] ++ [false, false, true] ++
    [false, false, true, true, true, false] ++ [false] ++ [false, true, false, false, true] ++ [true] ++
    [true, true] ++ [true]) (by decide +kernel)

/-- Releasing everything is false: two runs leave a perturbation object (the pointer is assigned in each `run`
and deleted only by the destructor). -/
theorem C74_two_runs_refuted :
    ¬ ∀ (k : Kind) (s : St), k.cond = false → Exec (session k) start (.norm s) → s.live = ∅ := by
  intro h
  obtain ⟨s, hs, hc⟩ := left_sound (c := session ⟨false, false⟩) (ch := [false] ++ shortRun ++ shortRun ++ [true])
    (m := 1) (by decide +kernel)
  rw [h _ s rfl hs] at hc
  simp at hc

/-- Even a single run leaves an object behind: with the condensed linear system, a change to the safer system and
back leaves the safer one. -/
theorem C74_switch_refuted : ¬ ∀ (k : Kind) (s : St), Exec (single k) start (.norm s) → s.live = ∅ := by
  intro h
  obtain ⟨s, hs, hc⟩ := left_sound (c := single ⟨false, true⟩)
    (ch := [false] ++ switchRun.drop 2 ++ [true]) (m := 1) (by decide +kernel)
  rw [h _ s hs] at hc
  simp at hc

end Hiop.Life
