import Verif.Stats.Model
import Mathlib.Tactic.Linarith
import Mathlib.Tactic.Ring
import Mathlib.Tactic.NormNum
import Mathlib.Tactic.FieldSimp
import Mathlib.Algebra.Order.Ring.Rat

/-!
# What the run statistics say (C82)

The trace of a run is the list of its steps; what really happened is read off the trace by the four definitions of the
specification.
-/

namespace Hiop.Stats

section Spec
variable {K : Type} [Field K]

/-! ## Specification -/

/-- Time a step takes. No counterpart in the code. -/
def Step.dur : Step K → K
  | .work d => d
  | .user _ d => d
  | _ => 0

/-- Time a step spends in HiOp itself. No counterpart in the code. -/
def Step.own : Step K → K
  | .work d => d
  | _ => 0

/-- Time a step spends in those functions of the user that `sel` selects. No counterpart in the code. -/
def Step.usr (sel : Call → Bool) : Step K → K
  | .user c d => if sel c then d else 0
  | _ => 0

/-- Whether a step is a call of one of the functions `sel` selects. No counterpart in the code. -/
def Step.isCall (sel : Call → Bool) : Step K → Bool
  | .user c _ => sel c
  | _ => false

/-- Duration of a trace. No counterpart in the code. -/
def wall (p : List (Step K)) : K := (p.map Step.dur).sum

/-- Time spent in HiOp. No counterpart in the code. -/
def ownTime (p : List (Step K)) : K := (p.map Step.own).sum

/-- Time spent in the selected functions of the user. No counterpart in the code. -/
def userTime (sel : Call → Bool) (p : List (Step K)) : K := (p.map (Step.usr sel)).sum

/-- Number of calls of the selected functions of the user. No counterpart in the code. -/
def calls (sel : Call → Bool) (p : List (Step K)) : ℕ := p.countP (Step.isCall sel)

/-- No step takes negative time. No counterpart in the code. -/
def Forward [LE K] (p : List (Step K)) : Prop := ∀ x ∈ p, 0 ≤ Step.dur x

/-- Whether a step uses a timer. No counterpart in the code. -/
def Step.uses (t : Tm) : Step K → Bool
  | .start t' => t' = t
  | .stop t' => t' = t
  | .init => true
  | .kktStart => t = .kktIter ∨ t = .fact
  | .kktEnd => t = .kktIter
  | _ => false

end Spec

set_option linter.unusedSectionVars false

section
variable {K : Type} [Field K]

theorem exec_append (s : St K) (p q : List (Step K)) : exec s (p ++ q) = exec (exec s p) q := by
  simp [exec, List.foldl_append]

theorem exec_cons (s : St K) (x : Step K) (q : List (Step K)) : exec s (x :: q) = exec (step s x) q := rfl

theorem exec_nil (s : St K) : exec s [] = s := rfl

theorem wall_append (p q : List (Step K)) : wall (p ++ q) = wall p + wall q := by simp [wall]
theorem own_append (p q : List (Step K)) : ownTime (p ++ q) = ownTime p + ownTime q := by simp [ownTime]
theorem userTime_append (sel) (p q : List (Step K)) : userTime sel (p ++ q) = userTime sel p + userTime sel q := by
  simp [userTime]
theorem calls_append (sel) (p q : List (Step K)) : calls sel (p ++ q) = calls sel p + calls sel q := by simp [calls]

theorem now_exec (p : List (Step K)) : ∀ s : St K, (exec s p).now = s.now + wall p := by
  induction p with
  | nil => intro s; simp [exec, wall]
  | cons x p ih =>
    intro s
    rw [exec_cons, ih]
    cases x <;> simp [step, wall, Step.dur, add_assoc]

theorem tm_exec (t : Tm) (p : List (Step K)) : ∀ s : St K, (∀ x ∈ p, Step.uses t x = false) → (exec s p).tm t = s.tm t := by
  induction p with
  | nil => intro s _; rfl
  | cons x p ih =>
    intro s h
    rw [exec_cons, ih _ (fun y hy => h y (List.mem_cons_of_mem _ hy))]
    have hx := h x (List.mem_cons_self ..)
    cases x <;> simp_all [step, upd, Step.uses] <;> (try intro e) <;> simp_all

/-- C82: a timer that is started and stopped around something that does not use it adds exactly the time this takes. -/
theorem C82_timer (s : St K) (t : Tm) (p : List (Step K)) (h : ∀ x ∈ p, Step.uses t x = false) :
    (exec s (.start t :: p ++ [.stop t])).time t = s.time t + wall p := by
  rw [List.cons_append, exec_cons, exec_append, exec_cons, exec_nil]
  have h1 := tm_exec t p (step s (.start t)) h
  have h2 := now_exec p (step s (.start t))
  simp only [St.time, step, upd, Timer.go, Timer.halt, if_true] at h1 h2 ⊢
  rw [h1, h2]
  simp

example : (exec (⟨5, fun _ => .zero, fun _ => 0, 0⟩ : St ℚ)
    (.start .internal :: [.work 2, .user .obj 3, .start .cons] ++ [.stop .internal])).time .internal = 0 + wall [.work 2, .user .obj 3, .start .cons] :=
  C82_timer _ _ _ (by simp [Step.uses])

/-! ## Counting -/

/-- Increments of a counter in a trace. No counterpart in the code. -/
def isCount (c : Cnt) : Step K → Bool
  | .count c' => c' = c
  | _ => false

def isInit : Step K → Bool
  | .init => true
  | _ => false

theorem cnt_exec (c : Cnt) (p : List (Step K)) : ∀ s : St K, (∀ x ∈ p, isInit x = false) →
    (exec s p).cnt c = s.cnt c + p.countP (isCount c) := by
  induction p with
  | nil => intro s _; rfl
  | cons x p ih =>
    intro s h
    rw [exec_cons, ih _ (fun y hy => h y (List.mem_cons_of_mem _ hy)), List.countP_cons]
    have hx := h x (List.mem_cons_self ..)
    cases x with
    | count c' =>
      by_cases e : c' = c
      · subst e; simp [step, upd, isCount]; omega
      · have e' : ¬ c = c' := fun h => e h.symm
        simp [step, upd, isCount, e, e']
    | init => simp [isInit] at hx
    | _ => simp [step, isCount]

/-- Which calls a counter stands for. -/
def stands : Cnt → Call → Bool
  | .obj, c => c = .obj
  | .grad, c => c = .grad
  | .eq, c => c = .eq ∨ c = .all
  | .ineq, c => c = .ineq ∨ c = .all
  | .jacEq, c => c = .jacEq ∨ c = .jacAll
  | .jacIneq, c => c = .jacIneq ∨ c = .jacAll
  | .hess, c => c = .hess

/-- What holds of the steps of every evaluation; closed under concatenation. -/
structure Sound (p : List (Step K)) : Prop where
  noInit : ∀ x ∈ p, isInit x = false
  count : ∀ c, p.countP (isCount c) = calls (stands c) p
  noTotal : ∀ x ∈ p, Step.uses .total x = false

theorem Sound.append {p q : List (Step K)} (hp : Sound p) (hq : Sound q) : Sound (p ++ q) where
  noInit x hx := (List.mem_append.1 hx).elim (hp.noInit x) (hq.noInit x)
  count c := by rw [List.countP_append, calls_append, hp.count, hq.count]
  noTotal x hx := (List.mem_append.1 hx).elim (hp.noTotal x) (hq.noTotal x)

theorem Sound.nil : Sound ([] : List (Step K)) := ⟨by simp, by simp [calls], by simp⟩

macro "sound_blk" : tactic =>
  `(tactic| (constructor <;> [simp [isInit]; (intro c; cases c <;> simp [calls, isCount, stands, Step.isCall, List.countP_cons]); simp [Step.uses]]))

theorem sound_f (a : Ans K) : Sound (evalF a) := by unfold evalF; sound_blk
theorem sound_grad (a : Ans K) : Sound (evalGrad a) := by unfold evalGrad; sound_blk
theorem sound_c (a : Ans K) : Sound (evalC a) := by unfold evalC; sound_blk
theorem sound_d (a : Ans K) : Sound (evalD a) := by unfold evalD; sound_blk
theorem sound_all (a : Ans K) : Sound (evalAll a) := by unfold evalAll; sound_blk
theorem sound_jacC (f : Form) (a : Ans K) : Sound (evalJacC f a) := by cases f <;> (unfold evalJacC; sound_blk)
theorem sound_jacD (f : Form) (a : Ans K) : Sound (evalJacD f a) := by cases f <;> (unfold evalJacD; sound_blk)
theorem sound_jacAll (m : Mode) (pat a : Ans K) : Sound (evalJacAll m pat a).2 := by
  unfold evalJacAll; split_ifs <;> sound_blk
theorem sound_hess (m : Mode) (pat a : Ans K) : Sound (evalHess m pat a).2 := by
  unfold evalHess; cases m.form <;> simp only <;> [exact Sound.nil; sound_blk; (split_ifs <;> sound_blk)]

theorem sound_serve (m : Mode) (r : Req K) : Sound (serve m r).2 := by
  cases r with
  | f a => exact sound_f a
  | grad a => exact sound_grad a
  | cons c d all =>
    simp only [serve, evalCD]
    rcases m.oneCall with _ | _ | _
    · simp only; split_ifs
      · exact (sound_c c).append (sound_d d)
      · exact ((sound_c c).append (sound_d d)).append (sound_all all)
    · simp only; split_ifs
      · exact (sound_c c).append (sound_d d)
      · exact (sound_c c).append Sound.nil
    · exact sound_all all
  | jac c d pat all =>
    simp only [serve, evalJacCD]
    rcases m.oneCall with _ | _ | _
    · simp only; split_ifs
      · exact (sound_jacC _ c).append (sound_jacD _ d)
      · exact ((sound_jacC _ c).append (sound_jacD _ d)).append (sound_jacAll _ pat all)
    · simp only; split_ifs
      · exact (sound_jacC _ c).append (sound_jacD _ d)
      · exact (sound_jacC _ c).append Sound.nil
    · exact sound_jacAll _ pat all
  | hess pat a => exact sound_hess m pat a
  | other d => simp only [serve]; sound_blk

theorem sound_serveAll (rs : List (Req K)) : ∀ m : Mode, Sound (serveAll m rs) := by
  induction rs with
  | nil => intro m; exact Sound.nil
  | cons r rs ih => intro m; exact (sound_serve m r).append (ih _)

theorem exec_run (s : St K) (m : Mode) (rs : List (Req K)) :
    exec s (run m rs) = step (exec (step (step s .init) (.start .total)) (serveAll m rs)) (.stop .total) := by
  simp only [run, List.cons_append, List.nil_append]
  rw [exec_cons, exec_cons, exec_append]
  rfl

/-- C82: whatever was in the statistics before, after a run each counter of the report is the number of calls of the user's
function it stands for during the run, a call that evaluates all constraints (or their Jacobian) counting for both kinds;
also when calls fail and when the kind of interface is found out by trial. -/
theorem C82_counts (s : St K) (m : Mode) (rs : List (Req K)) :
    let r := exec s (run m rs)
    r.cnt .obj = calls (· = .obj) (run m rs) ∧ r.cnt .grad = calls (· = .grad) (run m rs) ∧
    r.cnt .eq = calls (fun c => c = .eq ∨ c = .all) (run m rs) ∧
    r.cnt .ineq = calls (fun c => c = .ineq ∨ c = .all) (run m rs) ∧
    r.cnt .jacEq = calls (fun c => c = .jacEq ∨ c = .jacAll) (run m rs) ∧
    r.cnt .jacIneq = calls (fun c => c = .jacIneq ∨ c = .jacAll) (run m rs) ∧
    r.cnt .hess = calls (· = .hess) (run m rs) := by
  have key : ∀ c, (exec s (run m rs)).cnt c = calls (stands c) (run m rs) := by
    intro c
    have hs := sound_serveAll rs m
    rw [exec_run]
    simp only [step]
    rw [cnt_exec c _ _ hs.noInit, hs.count c]
    simp [run, calls, Step.isCall]
  exact ⟨key .obj, key .grad, key .eq, key .ineq, key .jacEq, key .jacIneq, key .hess⟩

/-- Calls asking for a pattern are not counted: C82, the Jacobian function of a sparse problem with one-call constraints is
called once more than reported. -/
theorem C82_pattern_calls_refuted : ∃ (m : Mode) (rs : List (Req ℚ)) (s : St ℚ),
    (exec s (run m rs)).cnt .jacEq < calls (fun c => c = .jacAll ∨ c = .jacPat) (run m rs) := by
  refine ⟨⟨.sparse, some true, false, false⟩, [.jac ⟨true, 1, 1⟩ ⟨true, 1, 1⟩ ⟨true, 1, 1⟩ ⟨true, 1, 1⟩], ⟨0, fun _ => .zero, fun _ => 0, 0⟩, ?_⟩
  rw [(C82_counts _ _ _).2.2.2.2.1]
  simp [run, serveAll, serve, evalJacCD, evalJacAll, calls, Step.isCall]

/-- Calls for the pattern of the Jacobian still to come. -/
def jb (m : Mode) : ℕ := if m.form = .sparse ∧ m.jacDone = false then 1 else 0

/-- Calls for the pattern of the Hessian still to come. -/
def hb (m : Mode) : ℕ := if m.form = .sparse ∧ m.hessDone = false then 1 else 0

theorem pat_serve (m : Mode) (r : Req K) :
    calls (· = .jacPat) (serve m r).2 + jb (serve m r).1 ≤ jb m ∧
    calls (· = .hessPat) (serve m r).2 + hb (serve m r).1 ≤ hb m := by
  obtain ⟨f, oc, jd, hd⟩ := m
  cases r with
  | f a => simp [serve, evalF, calls, Step.isCall]
  | grad a => simp [serve, evalGrad, calls, Step.isCall]
  | other d => simp [serve, calls, Step.isCall]
  | cons c d all =>
    rcases oc with _ | _ | _ <;> simp only [serve, evalCD] <;> (try split_ifs) <;>
      simp [evalC, evalD, evalAll, calls, Step.isCall, jb, hb]
  | jac c d pat all =>
    rcases oc with _ | _ | _ <;> simp only [serve, evalJacCD] <;> (try split_ifs) <;> cases f <;> cases jd <;>
      simp [evalJacC, evalJacD, evalJacAll, calls, Step.isCall, jb, hb]
  | hess pat a =>
    cases f <;> cases hd <;> simp [serve, evalHess, calls, Step.isCall, jb, hb]

theorem pat_aux (rs : List (Req K)) : ∀ m : Mode,
    calls (· = .jacPat) (serveAll m rs) ≤ jb m ∧ calls (· = .hessPat) (serveAll m rs) ≤ hb m := by
  induction rs with
  | nil => intro m; simp [serveAll, calls]
  | cons r rs ih =>
    intro m
    have e : ∀ sel, calls sel (serveAll m (r :: rs)) = calls sel (serve m r).2 + calls sel (serveAll (serve m r).1 rs) :=
      fun sel => calls_append sel _ _
    rw [e, e]
    have hr := ih (serve m r).1
    have hm := pat_serve m r
    omega

/-- C82: apart from that one call for the pattern of a sparse Jacobian and one for that of the Hessian the counts are
complete: in a run there is at most one such call of each kind, and none for dense and mixed problems. -/
theorem C82_pattern_calls (m : Mode) (rs : List (Req K)) :
    calls (· = .jacPat) (run m rs) ≤ 1 ∧ calls (· = .hessPat) (run m rs) ≤ 1 ∧
    (m.form ≠ .sparse → calls (· = .jacPat) (run m rs) = 0 ∧ calls (· = .hessPat) (run m rs) = 0) := by
  have h := pat_aux rs m
  have e : ∀ sel, calls sel (run m rs) = calls sel (serveAll m rs) := by
    intro sel; simp [run, calls, Step.isCall]
  rw [e, e]
  refine ⟨h.1.trans (by unfold jb; split_ifs <;> simp), h.2.trans (by unfold hb; split_ifs <;> simp), fun hf => ?_⟩
  have h1 := h.1
  have h2 := h.2
  simp only [jb, hb, hf, false_and, if_false] at h1 h2
  omega

/-! ## Time of the evaluations -/

section
variable [LinearOrder K] [IsStrictOrderedRing K]

theorem Forward.left {p q : List (Step K)} (h : Forward (p ++ q)) : Forward p :=
  fun x hx => h x (List.mem_append_left _ hx)

theorem Forward.right {p q : List (Step K)} (h : Forward (p ++ q)) : Forward q :=
  fun x hx => h x (List.mem_append_right _ hx)

/-- The functions a timer of evaluations is meant for. -/
def meant : Tm → Call → Bool
  | .obj, c => c = .obj
  | .grad, c => c = .grad
  | .cons, c => c = .eq ∨ c = .ineq ∨ c = .all
  | .jac, c => c = .jacEq ∨ c = .jacIneq ∨ c = .jacAll ∨ c = .jacPat
  | .hess, c => c = .hess ∨ c = .hessPat
  | _, _ => false

/-- What a block adds to the timers: the time in the functions meant, and some of its own work. -/
def Timed (p : List (Step K)) : Prop := Forward p → ∃ w1 w2 w3 w4 : K,
  0 ≤ w1 ∧ 0 ≤ w2 ∧ 0 ≤ w3 ∧ 0 ≤ w4 ∧ ownTime p = w1 + w2 + w3 + w4 ∧ ∀ s : St K,
    (exec s p).time .obj = s.time .obj + userTime (meant .obj) p ∧
    (exec s p).time .grad = s.time .grad + userTime (meant .grad) p ∧
    (exec s p).time .cons = s.time .cons + userTime (meant .cons) p + w1 ∧
    (exec s p).time .jac = s.time .jac + userTime (meant .jac) p + w2 ∧
    (exec s p).time .hess = s.time .hess + userTime (meant .hess) p + w3

theorem Timed.append {p q : List (Step K)} (hp : Timed p) (hq : Timed q) : Timed (p ++ q) := by
  intro hf
  obtain ⟨w1, w2, w3, w4, h1, h2, h3, h4, e, H⟩ := hp hf.left
  obtain ⟨v1, v2, v3, v4, k1, k2, k3, k4, e', H'⟩ := hq hf.right
  refine ⟨w1 + v1, w2 + v2, w3 + v3, w4 + v4, by linarith, by linarith, by linarith, by linarith, ?_, fun s => ?_⟩
  · rw [own_append, e, e']; ring
  · rw [exec_append]
    obtain ⟨a1, a2, a3, a4, a5⟩ := H s
    obtain ⟨b1, b2, b3, b4, b5⟩ := H' (exec s p)
    simp only [userTime_append]
    rw [b1, b2, b3, b4, b5, a1, a2, a3, a4, a5]
    refine ⟨?_, ?_, ?_, ?_, ?_⟩ <;> ring

theorem Timed.nil : Timed ([] : List (Step K)) := fun _ =>
  ⟨0, 0, 0, 0, le_rfl, le_rfl, le_rfl, le_rfl, by simp [ownTime], fun s => by simp [exec, userTime]⟩

theorem timed_f (a : Ans K) : Timed (evalF a) := fun h =>
  ⟨0, 0, 0, a.w, le_rfl, le_rfl, le_rfl, h (.work a.w) (by simp [evalF]), by simp [evalF, ownTime, Step.own], fun s => by
    simp [evalF, exec, step, upd, St.time, Timer.go, Timer.halt, userTime, Step.usr, meant]⟩

theorem timed_grad (a : Ans K) : Timed (evalGrad a) := fun h =>
  ⟨0, 0, 0, a.w, le_rfl, le_rfl, le_rfl, h (.work a.w) (by simp [evalGrad]), by simp [evalGrad, ownTime, Step.own], fun s => by
    simp [evalGrad, exec, step, upd, St.time, Timer.go, Timer.halt, userTime, Step.usr, meant]⟩

theorem timed_c (a : Ans K) : Timed (evalC a) := fun h =>
  ⟨0, 0, 0, a.w, le_rfl, le_rfl, le_rfl, h (.work a.w) (by simp [evalC]), by simp [evalC, ownTime, Step.own], fun s => by
    simp [evalC, exec, step, upd, St.time, Timer.go, Timer.halt, userTime, Step.usr, meant]⟩

theorem timed_d (a : Ans K) : Timed (evalD a) := fun h =>
  ⟨0, 0, 0, a.w, le_rfl, le_rfl, le_rfl, h (.work a.w) (by simp [evalD]), by simp [evalD, ownTime, Step.own], fun s => by
    simp [evalD, exec, step, upd, St.time, Timer.go, Timer.halt, userTime, Step.usr, meant]⟩

theorem timed_all (a : Ans K) : Timed (evalAll a) := fun h =>
  ⟨a.w, 0, 0, 0, h (.work a.w) (by simp [evalAll]), le_rfl, le_rfl, le_rfl, by simp [evalAll, ownTime, Step.own], fun s => by
    simp [evalAll, exec, step, upd, St.time, Timer.go, Timer.halt, userTime, Step.usr, meant]; ring⟩

theorem timed_jacC (f : Form) (a : Ans K) : Timed (evalJacC f a) := by
  cases f <;> intro h
  · exact ⟨0, 0, 0, a.w, le_rfl, le_rfl, le_rfl, h (.work a.w) (by simp [evalJacC]), by simp [evalJacC, ownTime, Step.own],
      fun s => by simp [evalJacC, exec, step, upd, St.time, Timer.go, Timer.halt, userTime, Step.usr, meant]⟩
  all_goals
    exact ⟨0, a.w, 0, 0, le_rfl, h (.work a.w) (by simp [evalJacC]), le_rfl, le_rfl, by simp [evalJacC, ownTime, Step.own],
      fun s => by simp [evalJacC, exec, step, upd, St.time, Timer.go, Timer.halt, userTime, Step.usr, meant]; ring⟩

theorem timed_jacD (f : Form) (a : Ans K) : Timed (evalJacD f a) := by
  cases f <;> intro h
  · exact ⟨0, 0, 0, a.w, le_rfl, le_rfl, le_rfl, h (.work a.w) (by simp [evalJacD]), by simp [evalJacD, ownTime, Step.own],
      fun s => by simp [evalJacD, exec, step, upd, St.time, Timer.go, Timer.halt, userTime, Step.usr, meant]⟩
  all_goals
    exact ⟨0, a.w, 0, 0, le_rfl, h (.work a.w) (by simp [evalJacD]), le_rfl, le_rfl, by simp [evalJacD, ownTime, Step.own],
      fun s => by simp [evalJacD, exec, step, upd, St.time, Timer.go, Timer.halt, userTime, Step.usr, meant]; ring⟩

theorem timed_jacAll (m : Mode) (pat a : Ans K) : Timed (evalJacAll m pat a).2 := by
  intro h
  refine ⟨0, a.w, 0, 0, le_rfl, h (.work a.w) (by simp [evalJacAll]), le_rfl, le_rfl, ?_, fun s => ?_⟩
  · simp only [evalJacAll]; split_ifs <;> simp [ownTime, Step.own]
  · simp only [evalJacAll]; split_ifs <;>
      simp [exec, step, upd, St.time, Timer.go, Timer.halt, userTime, Step.usr, meant] <;> ring

theorem timed_hess (m : Mode) (pat a : Ans K) : Timed (evalHess m pat a).2 := by
  rcases hf : m.form with _ | _ | _
  · simp only [evalHess, hf]; exact Timed.nil
  all_goals
    intro h
    refine ⟨0, 0, a.w, 0, le_rfl, le_rfl, h (.work a.w) (by simp [evalHess, hf]), le_rfl, ?_, fun s => ?_⟩
    · simp only [evalHess, hf]; (try split_ifs) <;> simp [ownTime, Step.own]
    · simp only [evalHess, hf]; (try split_ifs) <;>
        simp [exec, step, upd, St.time, Timer.go, Timer.halt, userTime, Step.usr, meant] <;> ring

theorem timed_serve (m : Mode) (r : Req K) : Timed (serve m r).2 := by
  cases r with
  | f a => exact timed_f a
  | grad a => exact timed_grad a
  | cons c d all =>
    simp only [serve, evalCD]
    rcases m.oneCall with _ | _ | _
    · simp only; split_ifs
      · exact (timed_c c).append (timed_d d)
      · exact ((timed_c c).append (timed_d d)).append (timed_all all)
    · simp only; split_ifs
      · exact (timed_c c).append (timed_d d)
      · exact (timed_c c).append Timed.nil
    · exact timed_all all
  | jac c d pat all =>
    simp only [serve, evalJacCD]
    rcases m.oneCall with _ | _ | _
    · simp only; split_ifs
      · exact (timed_jacC _ c).append (timed_jacD _ d)
      · exact ((timed_jacC _ c).append (timed_jacD _ d)).append (timed_jacAll _ pat all)
    · simp only; split_ifs
      · exact (timed_jacC _ c).append (timed_jacD _ d)
      · exact (timed_jacC _ c).append Timed.nil
    · exact timed_jacAll _ pat all
  | hess pat a => exact timed_hess m pat a
  | other d =>
    intro h
    exact ⟨0, 0, 0, d, le_rfl, le_rfl, le_rfl, h (.work d) (by simp [serve]), by simp [serve, ownTime, Step.own],
      fun s => by simp [serve, exec, step, St.time, userTime, Step.usr]⟩

theorem timed_serveAll (rs : List (Req K)) : ∀ m : Mode, Timed (serveAll m rs) := by
  induction rs with
  | nil => intro m; exact Timed.nil
  | cons r rs ih => intro m; exact (timed_serve m r).append (ih _)

theorem wall_split (p : List (Step K)) : wall p = ownTime p + userTime (meant .obj) p + userTime (meant .grad) p +
    userTime (meant .cons) p + userTime (meant .jac) p + userTime (meant .hess) p := by
  induction p with
  | nil => simp [wall, ownTime, userTime]
  | cons x p ih =>
    simp only [wall, ownTime, userTime, List.map_cons, List.sum_cons] at ih ⊢
    rw [ih]
    cases x with
    | user c d => cases c <;> simp [Step.dur, Step.own, Step.usr, meant] <;> ring
    | _ => simp [Step.dur, Step.own, Step.usr] <;> ring

/-- C82: whatever was in the statistics before a run, its report shows: as total time what the run took; as times of the
objective and the gradient exactly what the user's functions took; as times of the constraints, the Jacobian and the Hessian
at least that; and the five together are no more than the total time. -/
theorem C82_eval_time (s : St K) (m : Mode) (rs : List (Req K)) (h : Forward (run m rs)) :
    let r := exec s (run m rs)
    r.time .total = wall (run m rs) ∧
    r.time .obj = userTime (· = .obj) (run m rs) ∧ r.time .grad = userTime (· = .grad) (run m rs) ∧
    userTime (fun c => c = .eq ∨ c = .ineq ∨ c = .all) (run m rs) ≤ r.time .cons ∧
    userTime (fun c => c = .jacEq ∨ c = .jacIneq ∨ c = .jacAll ∨ c = .jacPat) (run m rs) ≤ r.time .jac ∧
    userTime (fun c => c = .hess ∨ c = .hessPat) (run m rs) ≤ r.time .hess ∧
    r.evalTime ≤ r.time .total := by
  have hf : Forward (serveAll m rs) := (Forward.left h).right
  obtain ⟨w1, w2, w3, w4, h1, h2, h3, h4, e, H⟩ := timed_serveAll rs m hf
  have hs := sound_serveAll rs m
  have eu : ∀ sel, userTime sel (run m rs) = userTime sel (serveAll m rs) := by
    intro sel; simp [run, userTime, Step.usr]
  have ew : wall (run m rs) = wall (serveAll m rs) := by simp [run, wall, Step.dur]
  have htot : (exec s (run m rs)).time .total = wall (serveAll m rs) := by
    have := C82_timer (step s .init) .total (serveAll m rs) hs.noTotal
    simpa [run, exec_cons, St.time, step, Timer.zero] using this
  obtain ⟨a1, a2, a3, a4, a5⟩ := H (step (step s .init) (.start .total))
  have ez : ∀ t, t ≠ .total → (exec s (run m rs)).time t =
      (exec (step (step s .init) (.start .total)) (serveAll m rs)).time t := by
    intro t ht
    rw [exec_run]
    simp [step, St.time, upd, ht]
  have z : ∀ t, t ≠ .total → (step (step s .init) (.start .total)).time t = 0 := by
    intro t ht
    simp [step, St.time, upd, ht, Timer.zero]
  rw [z _ (by simp)] at a1 a2 a3 a4 a5
  rw [zero_add] at a1 a2 a3 a4 a5
  have hw := wall_split (serveAll m rs)
  refine ⟨htot.trans ew.symm, ?_, ?_, ?_, ?_, ?_, ?_⟩
  · rw [ez _ (by simp), a1, eu]; rfl
  · rw [ez _ (by simp), a2, eu]; rfl
  · rw [ez _ (by simp), a3, eu]; exact le_add_of_nonneg_right h1
  · rw [ez _ (by simp), a4, eu]; exact le_add_of_nonneg_right h2
  · rw [ez _ (by simp), a5, eu]; exact le_add_of_nonneg_right h3
  · rw [htot]
    unfold St.evalTime
    rw [ez _ (by simp), ez _ (by simp), ez _ (by simp), ez _ (by simp), ez _ (by simp), a1, a2, a3, a4, a5]
    linarith

/-- A run of a sparse problem whose interface evaluates all constraints in one call. -/
example : Forward (run (K := ℚ) ⟨.sparse, none, false, false⟩
    [.f ⟨true, 1, 0⟩, .cons ⟨false, 1, 1⟩ ⟨false, 1, 1⟩ ⟨true, 5, 1⟩, .other 3,
      .jac ⟨true, 1, 1⟩ ⟨true, 1, 1⟩ ⟨true, 2, 0⟩ ⟨true, 7, 1⟩, .hess ⟨true, 1, 0⟩ ⟨true, 4, 1⟩]) := by
  simp [Forward, run, serveAll, serve, evalF, evalCD, evalC, evalD, evalAll, evalJacCD, evalJacAll, evalHess, Step.dur]

end

/-! ## Time of HiOp's own work -/

theorem time_trialNewton (s : St K) (t : Trial K) : (exec s (trialNewton t)).time .internal =
    s.time .internal + (t.step + t.bar + t.inf + t.cond) + t.inf := by
  simp [trialNewton, trialHead, barTrial, infeas, exec, step, upd, St.time, Timer.go, Timer.halt]; ring

theorem own_trialNewton (t : Trial K) : ownTime (trialNewton t) = t.step + t.bar + t.inf + t.cond := by
  simp [trialNewton, trialHead, barTrial, infeas, ownTime, Step.own]; ring

theorem own_flatMap {α : Type} (f : α → List (Step K)) (l : List α) :
    ownTime (l.flatMap f) = (l.map fun a => ownTime (f a)).sum := by
  induction l with
  | nil => simp [ownTime]
  | cons a l ih => rw [List.flatMap_cons, own_append, ih]; simp

/-- C82: in the line search of the Newton method "Hiop internal time" grows by HiOp's own time plus the time of all
computations of the infeasibility, which is counted twice: `start` is called for a timer already running. -/
theorem C82_internal_newton (s : St K) (rej : List (Trial K)) (acc : Trial K) :
    (exec s (searchNewton rej acc)).time .internal =
      s.time .internal + ownTime (searchNewton rej acc) + ((rej.map Trial.inf).sum + acc.inf) := by
  have hrej : ∀ (rej : List (Trial K)) (s : St K), (exec s (rej.flatMap trialNewton)).time .internal =
      s.time .internal + ownTime (rej.flatMap trialNewton) + (rej.map Trial.inf).sum := by
    intro rej
    induction rej with
    | nil => intro s; simp [exec, ownTime]
    | cons t l ih =>
      intro s
      rw [List.flatMap_cons, exec_append, ih, time_trialNewton, own_append, own_trialNewton]
      simp; ring
  have hlast : ∀ s : St K, (exec s [.start .internal, .work acc.post, .stop .internal]).time .internal =
      s.time .internal + acc.post := by
    intro s; simp [exec, step, upd, St.time, Timer.go, Timer.halt]
  rw [searchNewton, exec_append, exec_append, hlast, time_trialNewton, hrej, own_append, own_append, own_trialNewton]
  simp [ownTime, Step.own]; ring

theorem time_rejectQN (s : St K) (t : Trial K) : (exec s (rejectQN t)).time .internal =
    s.time .internal + (t.step + t.bar + t.inf + t.post) := by
  simp [rejectQN, trialHead, barTrial, infeas, exec, step, upd, St.time, Timer.go, Timer.halt]; ring

theorem own_rejectQN (t : Trial K) : ownTime (rejectQN t) = t.step + t.bar + t.inf + t.cond + t.post := by
  simp [rejectQN, trialHead, barTrial, infeas, ownTime, Step.own]; ring

/-- C82: in the line search of the quasi-Newton method the tests of rejected trials are not counted, and for the accepted
trial the infeasibility is counted three times and the tests twice. -/
theorem C82_internal_qn (s : St K) (rej : List (Trial K)) (acc : Trial K) :
    (exec s (searchQN rej acc)).time .internal =
      s.time .internal + ownTime (searchQN rej acc) - (rej.map Trial.cond).sum + (2 * acc.inf + acc.cond) := by
  have hrej : ∀ (rej : List (Trial K)) (s : St K), (exec s (rej.flatMap rejectQN)).time .internal =
      s.time .internal + ownTime (rej.flatMap rejectQN) - (rej.map Trial.cond).sum := by
    intro rej
    induction rej with
    | nil => intro s; simp [exec, ownTime]
    | cons t l ih =>
      intro s
      rw [List.flatMap_cons, exec_append, ih, time_rejectQN, own_append, own_rejectQN]
      simp; ring
  have hacc : ∀ s : St K, (exec s (acceptQN acc)).time .internal = s.time .internal +
      (acc.step + acc.bar + acc.inf + acc.cond + acc.post) + (2 * acc.inf + acc.cond) := by
    intro s
    simp [acceptQN, trialHead, barTrial, infeas, exec, step, upd, St.time, Timer.go, Timer.halt]; ring
  rw [searchQN, exec_append, hacc, hrej, own_append]
  simp [acceptQN, trialHead, barTrial, infeas, ownTime, Step.own]; ring

/-- C82 fails for "Hiop internal time": in both methods it can exceed the total time of the run. -/
theorem C82_internal_refuted :
    (∃ acc : Trial ℚ, Forward (searchNewton [] acc) ∧ ∀ s : St ℚ,
      (exec s ([.init, .start .total] ++ searchNewton [] acc ++ [.stop .total])).time .total <
      (exec s ([.init, .start .total] ++ searchNewton [] acc ++ [.stop .total])).time .internal) ∧
    (∃ acc : Trial ℚ, Forward (searchQN [] acc) ∧ ∀ s : St ℚ,
      (exec s ([.init, .start .total] ++ searchQN [] acc ++ [.stop .total])).time .total <
      (exec s ([.init, .start .total] ++ searchQN [] acc ++ [.stop .total])).time .internal) := by
  refine ⟨⟨⟨1, 1, 1, 4, 1, 1⟩, ?_, fun s => ?_⟩, ⟨⟨1, 1, 1, 4, 1, 1⟩, ?_, fun s => ?_⟩⟩
  · simp [Forward, searchNewton, trialNewton, trialHead, barTrial, infeas, Step.dur]
  · simp [searchNewton, trialNewton, trialHead, barTrial, infeas, exec, step, upd, St.time, Timer.go, Timer.halt, Timer.zero]
    linarith
  · simp [Forward, searchQN, acceptQN, trialHead, barTrial, infeas, Step.dur]
  · simp [searchQN, acceptQN, trialHead, barTrial, infeas, exec, step, upd, St.time, Timer.go, Timer.halt, Timer.zero]
    linarith

/-! ## Time in the KKT systems -/

/-- C82, the part that holds: over iterations with one linear solve each, with anything in between that does not use the
statistics of the KKT systems, "Total KKT time" is the time of the linear solves. -/
theorem C82_kkt_partial (its : List (K × List (Step K)))
    (h : ∀ it ∈ its, ∀ x ∈ it.2, Step.uses .kktIter x = false) : ∀ s : St K,
    (exec s (its.flatMap fun it => kktIteration it.1 none ++ it.2)).kkt = s.kkt + (its.map Prod.fst).sum := by
  have hk : ∀ (p : List (Step K)) (s : St K), (∀ x ∈ p, Step.uses .kktIter x = false) → (exec s p).kkt = s.kkt := by
    intro p
    induction p with
    | nil => intro s _; rfl
    | cons x p ih =>
      intro s hp
      rw [exec_cons, ih _ (fun y hy => hp y (List.mem_cons_of_mem _ hy))]
      have hx := hp x (List.mem_cons_self ..)
      cases x <;> simp_all [step, Step.uses]
  induction its with
  | nil => intro s; simp [exec]
  | cons it its ih =>
    intro s
    rw [List.flatMap_cons, exec_append, ih (fun j hj => h j (List.mem_cons_of_mem _ hj)), exec_append,
      hk _ _ (h it (List.mem_cons_self ..))]
    simp [kktIteration, exec, step, upd, Timer.go, Timer.halt, Timer.zero]
    ring

example : (exec (⟨0, fun _ => .zero, fun _ => 0, 0⟩ : St ℚ)
    ([(2, [.work 5]), (3, [.user .obj 1])].flatMap fun it => kktIteration it.1 none ++ it.2)).kkt = 0 + (2 + (3 + 0)) :=
  C82_kkt_partial [(2, [.work 5]), (3, [.user .obj 1])] (by simp [Step.uses]) _

/-- What an iteration that repeats the linear solve in safe mode adds: the first solve three times, and the line search
between the two solves. -/
theorem C82_kkt_repeated (s : St K) (solve search solve2 : K) :
    (exec s (kktIteration solve (some (search, solve2)))).kkt = s.kkt + (solve + solve2) + (2 * solve + search) := by
  simp [kktIteration, exec, step, upd, Timer.go, Timer.halt, Timer.zero]; ring

/-- C82 fails for "Total KKT time" then: it can exceed the total time of the run. -/
theorem C82_kkt_refuted : ∃ solve search solve2 : ℚ, Forward (kktIteration solve (some (search, solve2))) ∧ ∀ s : St ℚ,
    (exec s ([.init, .start .total] ++ kktIteration solve (some (search, solve2)) ++ [.stop .total])).time .total <
    (exec s ([.init, .start .total] ++ kktIteration solve (some (search, solve2)) ++ [.stop .total])).kkt := by
  refine ⟨2, 1, 3, ?_, fun s => ?_⟩
  · simp [Forward, kktIteration, Step.dur]
  · simp [kktIteration, exec, step, upd, St.time, Timer.go, Timer.halt, Timer.zero]
    linarith

/-- C82, the part that holds: with inertia corrections, and in the inertia-free strategy if the first factorization succeeds,
the time reported for factorizations is the time they take. -/
theorem C82_fact_partial (s : St K) (rs : List (K × K)) (d : K) :
    (exec s (factorize rs)).time .fact = s.time .fact + (rs.map Prod.snd).sum ∧
    (exec s (inertiaFree d [])).time .fact = s.time .fact + d := by
  constructor
  · induction rs generalizing s with
    | nil => simp [factorize, exec]
    | cons r rs ih =>
      have e : factorize (r :: rs) = [.work r.1, .start .fact, .work r.2, .stop .fact] ++ factorize rs := by
        simp [factorize]
      rw [e, exec_append, ih]
      simp [exec, step, upd, St.time, Timer.go, Timer.halt]; ring
  · simp [inertiaFree, exec, step, upd, St.time, Timer.go, Timer.halt]

/-- C82 fails for the inertia-free strategy with repeated factorizations: the first one is not counted and the last one
twice. -/
theorem C82_fact_repeated (s : St K) (d : K) (rs : List (K × K)) (r : K × K) :
    (exec s (inertiaFree d (rs ++ [r]))).time .fact = s.time .fact + (rs.map Prod.snd).sum + 2 * r.2 := by
  have e : inertiaFree d (rs ++ [r]) = [.start .fact, .work d] ++ factorize rs ++
      [.work r.1, .start .fact, .work r.2, .stop .fact, .stop .fact] := by
    simp [inertiaFree, factorize]
  have h1 := (C82_fact_partial (exec s [.start .fact, .work d]) rs 0).1
  have h2 : (exec s [.start .fact, .work d]).time .fact = s.time .fact := by
    simp [exec, step, upd, St.time, Timer.go]
  have h3 : ∀ s : St K, (exec s [.work r.1, .start .fact, .work r.2, .stop .fact, .stop .fact]).time .fact =
      s.time .fact + 2 * r.2 := by
    intro s
    simp [exec, step, upd, St.time, Timer.go, Timer.halt]; ring
  rw [e, exec_append, exec_append, h3, h1, h2]

/-- A first factorization of 10 s that fails and a second one of 1 s are reported as 2 s. -/
theorem C82_fact_refuted : ∃ (d : ℚ) (rs : List (ℚ × ℚ)), ∀ s : St ℚ,
    (exec s (.kktStart :: inertiaFree d rs)).time .fact ≠ d + (rs.map Prod.snd).sum := by
  refine ⟨10, [(0, 1)], fun s => ?_⟩
  rw [exec_cons, show [((0 : ℚ), (1 : ℚ))] = [] ++ [(0, 1)] from rfl, C82_fact_repeated]
  simp [step, upd, St.time, Timer.zero]
  norm_num

end

/-! ## The spread over the ranks -/

/-- C82: the "std dev across ranks" of the report is the standard deviation divided by the square root of the number of
ranks. -/
theorem C82_spread {n : ℕ} (hn : 0 < n) (x : Fin n → ℝ) :
    spread x * Real.sqrt n = Real.sqrt ((∑ i, (x i - (∑ j, x j) / n) ^ 2) / n) := by
  have h0 : (0 : ℝ) < n := by exact_mod_cast hn
  have hs : Real.sqrt n * Real.sqrt n = n := Real.mul_self_sqrt h0.le
  have hp : 0 < Real.sqrt n := Real.sqrt_pos.2 h0
  rw [Real.sqrt_div' _ h0.le]
  simp only [spread, pow_two]
  rw [div_mul_eq_mul_div, div_eq_div_iff h0.ne' hp.ne', mul_assoc, hs]

/-- So it is not the standard deviation: for times of 0 and 2 seconds on two ranks this is 1. -/
theorem C82_spread_refuted : ∃ x : Fin 2 → ℝ,
    Real.sqrt ((∑ i, (x i - (∑ j, x j) / 2) ^ 2) / 2) = 1 ∧ spread x < 1 := by
  refine ⟨![0, 2], ?_, ?_⟩
  · norm_num [Fin.sum_univ_two]
  · simp only [spread, Fin.sum_univ_two]
    norm_num
    rw [div_lt_one (by norm_num), Real.sqrt_lt' (by norm_num)]
    norm_num

end Hiop.Stats
