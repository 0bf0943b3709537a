import Verif.CApi.Model
import Verif.Evals.Props
import Verif.Select.Run

/-!
# C66: a problem given through the C or Fortran interface
-/

namespace Hiop.CApi

variable {σ K RJ RH : Type}

/-! ## Specification -/

/-- What the C interface should do with a call: hand on all arguments, and report success exactly if the
callback returns 0. There are no C callbacks for some of the constraints. -/
def faithful (U : CUser σ K RJ RH) (s : σ) : Req K RJ RH → σ × Bool × Out K
  | .probSizes => let r := U s .probSizes; (r.1, decide (r.2.1 = 0), r.2.2)
  | .blocksInfo => let r := U s .blocksInfo; (r.1, decide (r.2.1 = 0), r.2.2)
  | .startPoint n => let r := U s (.startPoint n); (r.1, decide (r.2.1 = 0), r.2.2)
  | .varsInfo n =>
    let r := U s (.varsInfo n)
    (r.1, decide (r.2.1 = 0), { r.2.2 with nonlinear := List.replicate n.toNat true })
  | .consInfo m =>
    let r := U s (.consInfo m)
    (r.1, decide (r.2.1 = 0), { r.2.2 with nonlinear := List.replicate m.toNat true })
  | .evalF n x b => let r := U s (.evalF n x (if b then 1 else 0)); (r.1, decide (r.2.1 = 0), r.2.2)
  | .evalGrad n x b => let r := U s (.evalGrad n x (if b then 1 else 0)); (r.1, decide (r.2.1 = 0), r.2.2)
  | .consSome _ _ _ _ _ => (s, false, {})
  | .consAll n m x b => let r := U s (.cons n m x (if b then 1 else 0)); (r.1, decide (r.2.1 = 0), r.2.2)
  | .jacSome _ _ _ _ _ _ => (s, false, {})
  | .jacAll n m x b q => let r := U s (.jac n m x (if b then 1 else 0) q); (r.1, decide (r.2.1 = 0), r.2.2)
  | .hess n m x b f l c q =>
    let r := U s (.hess n m x (if b then 1 else 0) f l (if c then 1 else 0) q)
    (r.1, decide (r.2.1 = 0), r.2.2)

/-- The callbacks for the objective and its gradient do not use `new_x`. -/
def IgnoresNewX (U : CUser σ K RJ RH) : Prop :=
  ∀ s n x a b, U s (.evalF n x a) = U s (.evalF n x b) ∧ U s (.evalGrad n x a) = U s (.evalGrad n x b)

/-- All callbacks return 0. -/
def AlwaysSucceeds (U : CUser σ K RJ RH) : Prop := ∀ s q, (U s q).2.1 = 0

/-! ## One call and runs -/

theorem cpp_eq_faithful {U : CUser σ K RJ RH} (h1 : IgnoresNewX U) (h2 : AlwaysSucceeds U) (s : σ)
    (r : Req K RJ RH) : cpp U s r = faithful U s r := by
  cases r <;> simp only [cpp, faithful, ofBool, h2 _ _, decide_true]
  · rw [(h1 s _ _ 0 _).1]
  · rw [(h1 s _ _ 0 _).2]

/-- Whatever the solver does with the answers, for as many calls as it likes: if the callbacks succeed always and
those for the objective and its gradient do not use `new_x`, the solver and the user see through the C interface
exactly what they should. -/
theorem C66_transparent_partial (U : CUser σ K RJ RH) (h1 : IgnoresNewX U) (h2 : AlwaysSucceeds U)
    (next : List (Bool × Out K) → Req K RJ RH) (s : σ) (t : ℕ) :
    runWith (cpp U) next s t = runWith (faithful U) next s t := by
  induction t with
  | zero => rfl
  | succ t ih => simp only [runWith, ih, cpp_eq_faithful h1 h2]

/-- The codes returned by the callbacks have no influence on anything the solver does, in any run: users with the
same outputs and different codes cannot be told apart. -/
theorem C66_codes_ignored_false (U V : CUser σ K RJ RH)
    (h : ∀ s q, (U s q).1 = (V s q).1 ∧ (U s q).2.2 = (V s q).2.2)
    (next : List (Bool × Out K) → Req K RJ RH) (s : σ) (t : ℕ) :
    runWith (cpp U) next s t = runWith (cpp V) next s t := by
  have hc : ∀ s r, cpp U s r = cpp V s r := by
    intro s r
    cases r <;> simp only [cpp, (h s _).1, (h s _).2]
  induction t with
  | zero => rfl
  | succ t ih => simp only [runWith, ih, hc]

/-- A user that counts calls and fails from the second call of the objective on. -/
def failing : CUser ℕ ℤ Unit Unit := fun s q =>
  match q with
  | .evalF _ x _ => (s + 1, if s = 0 then 0 else 1, { vals := [x.sum] })
  | _ => (s + 1, 0, {})

example : (runWith (cpp failing) (fun _ => .evalF 2 [3, 4] false) 0 2).2.map (·.1) = [true, true] ∧
    (runWith (faithful failing) (fun _ => .evalF 2 [3, 4] false) 0 2).2.map (·.1) = [false, true] := by decide

/-- A user that keeps the point of the last call with `new_x` (as the documentation of `new_x` allows). -/
def caching : CUser (List ℤ) ℤ Unit Unit := fun s q =>
  let upd := fun (x : List ℤ) (b : ℤ) => if b ≠ 0 then x else s
  match q with
  | .evalF _ x b => (upd x b, 0, { vals := [(upd x b).sum] })
  | .evalGrad _ x b => (upd x b, 0, { vals := upd x b })
  | .cons _ _ x b => (upd x b, 0, { vals := upd x b })
  | _ => (s, 0, {})

/-- For a user that keeps the point of the last call with `new_x` the values the solver gets are those of no point
it asked for. -/
theorem C66_new_x_false : ∃ (next : List (Bool × Out ℤ) → Req ℤ Unit Unit) (x : List ℤ),
    (∀ l, next l = .evalF 2 x true) ∧
    (runWith (faithful caching) next [] 1).2.map (·.2.vals) = [[x.sum]] ∧
    (runWith (cpp caching) next [] 1).2.map (·.2.vals) ≠ [[x.sum]] :=
  ⟨fun _ => .evalF 2 [3, 4] true, [3, 4], fun _ => rfl, by decide, by decide⟩

/-- A user that meets the hypotheses of `C66_transparent_partial`, and a run of three calls. -/
def plainUser : CUser ℕ ℤ Unit Unit := fun s q =>
  match q with
  | .evalF _ x _ => (s + 1, 0, { vals := [x.sum] })
  | .evalGrad _ x _ => (s + 1, 0, { vals := x.map fun _ => 1 })
  | .cons _ _ x b => (s + 1, 0, { vals := b :: x })
  | _ => (s, 0, {})

example : IgnoresNewX plainUser ∧ AlwaysSucceeds plainUser ∧
    (runWith (cpp plainUser) (fun l => if l.length = 0 then .evalF 2 [3, 4] true
      else if l.length = 1 then .consSome 2 1 [0] [3, 4] false else .consAll 2 1 [3, 4] false) 0 3).2.map
        (fun r => (r.1, r.2.vals)) = [(true, [0, 3, 4]), (false, []), (true, [7])] :=
  ⟨fun _ _ _ _ _ => ⟨rfl, rfl⟩, fun s q => by cases q <;> rfl, by decide⟩

/-! ## Over whole optimisation runs -/

section Runs

open Evals

variable {X Y : Type}

/-- Only calls of the objective announce a new point. -/
def ObjOnly (l : List (Call X Y)) : Prop := ∀ c ∈ l, c.newX = true → c.fn = .obj

/-- The calls of a nested restoration problem announce a new point only with the objective. -/
def InnerObjOnly (c : Choice X Y) : Prop := ∀ p more inner q, c.fin = .robust p more inner q → ObjOnly inner

structure Good (s : St X Y) : Prop where
  log : ObjOnly s.log
  one : s.consType ≠ some false
  err : s.err = false

/-- The evaluation succeeds and keeps `Good`. -/
def Fine (e : St X Y → Bool × St X Y) : Prop := ∀ s, Good s → ∃ s', e s = (true, s') ∧ Good s'

theorem fine_andThen {a b : St X Y → Bool × St X Y} (ha : Fine a) (hb : Fine b) : Fine (andThen a b) := by
  intro s hs
  obtain ⟨s1, h1, g1⟩ := ha s hs
  obtain ⟨s2, h2, g2⟩ := hb s1 g1
  exact ⟨s2, by simp only [andThen, h1, h2], g2⟩

theorem good_cons {s : St X Y} (hs : Good s) (fn : Fn) (x : X) (nx : Bool) (y : Option Y)
    (h : nx = true → fn = .obj) : Good { s with log := ⟨fn, x, nx, y⟩ :: s.log } :=
  ⟨fun c hc h1 => by
    rcases List.mem_cons.1 hc with rfl | hc
    · exact h h1
    · exact hs.log c hc h1, hs.one, hs.err⟩

theorem fine_call {b : Bool} (fn : Fn) (x : X) (nx : Bool) (y : Option Y) (h : nx = true → fn = .obj)
    (hf : fn ≠ .consEq ∧ fn ≠ .consIneq ∧ fn ≠ .jacEq ∧ fn ≠ .jacIneq) :
    Fine (call (cEvals X Y b) fn x nx y) := fun s hs =>
  ⟨_, by simp [call, cEvals, hf.1, hf.2.1, hf.2.2.1, hf.2.2.2], good_cons hs fn x nx y h⟩

theorem fine_both {b : Bool} (e i a : Fn) (x : X) (he : e = .consEq ∨ e = .jacEq) (hi : i = .consIneq ∨ i = .jacIneq)
    (hf : a ≠ .consEq ∧ a ≠ .consIneq ∧ a ≠ .jacEq ∧ a ≠ .jacIneq) :
    Fine (evalBoth (cEvals X Y b) e i a x false) := by
  intro s hs
  cases hc : s.consType with
  | some v =>
    cases v
    · exact absurd hc hs.one
    · obtain ⟨s', h1, h2⟩ := fine_call (b := b) a x false none (by simp) hf s hs
      exact ⟨s', by simp only [evalBoth, hc, h1], h2⟩
  | none =>
    have g1 := good_cons hs e x false none (by simp)
    have g2 := good_cons g1 i x false none (by simp)
    have e1 : call (cEvals X Y b) e x false none s = (false, { s with log := ⟨e, x, false, none⟩ :: s.log }) := by
      rcases he with rfl | rfl <;> simp [call, cEvals]
    have e2 : ∀ t : St X Y, call (cEvals X Y b) i x false none t =
        (false, { t with log := ⟨i, x, false, none⟩ :: t.log }) := by
      intro t
      rcases hi with rfl | rfl <;> simp [call, cEvals]
    obtain ⟨s', h1, h2⟩ := fine_call (b := b) a x false none (by simp) hf
      { s with log := ⟨i, x, false, none⟩ :: ⟨e, x, false, none⟩ :: s.log, consType := some true }
      ⟨g2.log, by simp, g2.err⟩
    exact ⟨s', by simp only [evalBoth, hc, e1, e2]; exact h1, h2⟩

theorem fine_map {a : St X Y → Bool × St X Y} (ha : Fine a) (g : Bool → St X Y → St X Y)
    (hg : ∀ b s, (g b s).log = s.log ∧ (g b s).consType = s.consType ∧ (g b s).err = s.err) :
    Fine (fun s => let r := a s; (r.1, g r.1 r.2)) := by
  intro s hs
  obtain ⟨s1, h1, g1⟩ := ha s hs
  obtain ⟨q1, q2, q3⟩ := hg true s1
  exact ⟨g true s1, by simp only [h1], ⟨by rw [q1]; exact g1.log, by rw [q2]; exact g1.one, by rw [q3]; exact g1.err⟩⟩

theorem fine_hess {b : Bool} (p : X × Y) : Fine (evalHess (cEvals X Y b) p false) := by
  intro s hs
  cases b
  · exact ⟨s, rfl, hs⟩
  · exact fine_call (b := true) .hess p.1 false (some p.2) (by simp) (by simp) s hs

theorem fine_noHess {b : Bool} (x : X) : Fine (evalNoHess (cEvals X Y b) x) := by
  intro s0 hs0
  unfold evalNoHess
  refine fine_andThen (fun s hs => ?_)
    (fine_andThen (fun s hs => ?_) (fine_andThen (fun s hs => ?_) (fun s hs => ?_))) s0 hs0
  · exact fine_map (fine_call .obj x true none (by simp) (by simp)) (fun o s => { s with f := stored o x })
      (fun _ _ => ⟨rfl, rfl, rfl⟩) s hs
  · exact fine_map (fine_call .grad x false none (by simp) (by simp)) (fun o s => { s with grad := stored o x })
      (fun _ _ => ⟨rfl, rfl, rfl⟩) s hs
  · exact fine_map (fine_both .consEq .consIneq .consAll x (Or.inl rfl) (Or.inl rfl) (by simp))
      (fun o s => { s with cd := stored o x }) (fun _ _ => ⟨rfl, rfl, rfl⟩) s hs
  · exact fine_map (fine_both .jacEq .jacIneq .jacAll x (Or.inr rfl) (Or.inr rfl) (by simp))
      (fun o s => { s with jac := stored o x }) (fun _ _ => ⟨rfl, rfl, rfl⟩) s hs

theorem Good.of {s t : St X Y} (hs : Good s) (h1 : t.log = s.log) (h2 : t.consType = s.consType)
    (h3 : t.err = s.err) : Good t := ⟨by rw [h1]; exact hs.log, by rw [h2]; exact hs.one, by rw [h3]; exact hs.err⟩

theorem fine_func {b : Bool} : Fine (evalFunc (cEvals X Y b)) := by
  refine fine_andThen (fun s hs => ?_) (fun s hs => ?_)
  · exact fine_map (fine_call .obj s.trial.1 true none (by simp) (by simp))
      (fun o t => { t with ft := stored o s.trial.1 }) (fun _ _ => ⟨rfl, rfl, rfl⟩) s hs
  · exact fine_map (fine_both .consEq .consIneq .consAll s.trial.1 (Or.inl rfl) (Or.inl rfl) (by simp))
      (fun o t => { t with cdt := stored o s.trial.1 }) (fun _ _ => ⟨rfl, rfl, rfl⟩) s hs

theorem fine_deriv {b : Bool} : Fine (evalDeriv (cEvals X Y b)) := by
  intro s0 hs0
  unfold evalDeriv
  refine fine_andThen (fun s hs => ?_) (fine_andThen (fun s hs => ?_) (fun s hs => ?_)) s0 hs0
  · exact fine_map (fine_call .grad s.trial.1 false none (by simp) (by simp))
      (fun o t => { t with grad := stored o s.trial.1 }) (fun _ _ => ⟨rfl, rfl, rfl⟩) s hs
  · exact fine_map (fine_both .jacEq .jacIneq .jacAll s.trial.1 (Or.inr rfl) (Or.inr rfl) (by simp))
      (fun o t => { t with jac := stored o s.trial.1 }) (fun _ _ => ⟨rfl, rfl, rfl⟩) s hs
  · exact fine_map (fine_hess s.trial) (fun o t => { t with hess := stored o s.trial })
      (fun _ _ => ⟨rfl, rfl, rfl⟩) s hs

theorem good_start {b asserts : Bool} (c : StartChoice X Y) {s : St X Y} (hs : Good s) :
    ∃ s', start (cEvals X Y b) asserts c s = some (true, s') ∧ Good s' := by
  obtain ⟨s1, h1, g1⟩ := fine_noHess (b := b) c.x0 { s with cur := (c.x0, c.y0) } (hs.of rfl rfl rfl)
  obtain ⟨s2, h2, g2⟩ := fine_noHess (b := b) c.x1 { s1 with cur := (c.x1, c.y0) } (g1.of rfl rfl rfl)
  obtain ⟨s3, h3, g3⟩ := fine_map (fine_hess (b := b) (c.x1, c.y1))
    (fun o t => { t with hess := stored o (c.x1, c.y1) }) (fun _ _ => ⟨rfl, rfl, rfl⟩)
    { s2 with cur := (c.x1, c.y1) } (g2.of rfl rfl rfl)
  refine ⟨s3, ?_, g3⟩
  unfold start
  rw [h1]
  simp only []
  rw [h2]
  simp only [evalHessOnly]
  simp only at h3
  rw [h3]

theorem good_soc {b asserts : Bool} (l : List X) {s : St X Y} (hs : Good s) :
    ∃ s', socLoop (cEvals X Y b) asserts l s = some s' ∧ Good s' := by
  induction l generalizing s with
  | nil => exact ⟨s, rfl, hs⟩
  | cons x l ih =>
    obtain ⟨s1, h1, g1⟩ := fine_func (b := b) (setTrialX x s) (hs.of rfl rfl rfl)
    obtain ⟨s2, h2, g2⟩ := ih g1
    exact ⟨s2, by simp only [socLoop, h1, h2], g2⟩

theorem good_trials {b asserts : Bool} (l : List (Trial X)) {s : St X Y} (hs : Good s) :
    ∃ s', trialsLoop (cEvals X Y b) asserts l s = .done s' ∧ Good s' := by
  induction l generalizing s with
  | nil => exact ⟨s, rfl, hs⟩
  | cons t l ih =>
    obtain ⟨s1, h1, g1⟩ := fine_func (b := b) (setTrialX t.x s) (hs.of rfl rfl rfl)
    obtain ⟨s2, h2, g2⟩ := good_soc (b := b) (asserts := asserts) t.soc g1
    obtain ⟨s3, h3, g3⟩ := ih g2
    exact ⟨s3, by simp only [trialsLoop, h1, h2, h3], g3⟩

theorem good_swap {s : St X Y} (hs : Good s) : Good (swap s) := ⟨hs.log, hs.one, rfl⟩

theorem good_softRounds {b : Bool} (l : List (X × Y)) {s : St X Y} (hs : Good s) :
    ∃ s', softRounds (cEvals X Y b) l s = (true, s') ∧ Good s' := by
  induction l generalizing s with
  | nil => exact ⟨s, rfl, hs⟩
  | cons p l ih =>
    obtain ⟨s1, h1, g1⟩ := fine_func (b := b) s hs
    obtain ⟨s2, h2, g2⟩ := fine_func (b := b) (setTrialX p.1 s1) (g1.of rfl rfl rfl)
    obtain ⟨s3, h3, g3⟩ := ih (s := { s2 with trial := p }) (g2.of rfl rfl rfl)
    exact ⟨s3, by simp only [softRounds, h1, h2, h3], g3⟩

theorem good_soft {b : Bool} (p : X × Y) (l : List (X × Y)) {s : St X Y} (hs : Good s) :
    ∃ s', soft (cEvals X Y b) p l s = (true, s') ∧ Good s' := by
  obtain ⟨s1, h1, g1⟩ := fine_func (b := b) (setTrialX p.1 { s with cdt := s.cd }) (hs.of rfl rfl rfl)
  obtain ⟨s2, h2, g2⟩ := good_softRounds (b := b) l (s := { s1 with trial := p }) (g1.of rfl rfl rfl)
  exact ⟨s2, by simp only [soft, h1, h2], g2⟩

theorem good_reset {b asserts : Bool} (q : X × Y) {s : St X Y} (hs : Good s) :
    ∃ s', resetVar (cEvals X Y b) asserts q s = some s' ∧ Good s' := by
  obtain ⟨s1, h1, g1⟩ := fine_noHess (b := b) q.1 { s with trial := q } (hs.of rfl rfl rfl)
  exact ⟨s1, by simp only [resetVar, h1], g1⟩

theorem good_iteration {b asserts : Bool} (c : Choice X Y) (hc : InnerObjOnly c) {s : St X Y} (hs : Good s) :
    ∃ s', iteration (cEvals X Y b) asserts c s = .next s' ∧ Good s' := by
  obtain ⟨s1, h1, g1⟩ := good_trials (b := b) (asserts := asserts) c.trials hs
  obtain ⟨tr, fin⟩ := c
  simp only [iteration, h1]
  simp only [InnerObjOnly] at hc
  cases fin with
  | accept y =>
    obtain ⟨s2, h2, g2⟩ := fine_deriv (b := b) { s1 with trial := (s1.trial.1, y) } (g1.of rfl rfl rfl)
    exact ⟨swap s2, by
      unfold finish
      simp only []
      rw [if_neg (by simp [g1.err]), h2], good_swap g2⟩
  | soft p more =>
    obtain ⟨s2, h2, g2⟩ := good_soft (b := b) p more g1
    exact ⟨_, by simp only [finish, h2], good_swap g2⟩
  | robust p more inner q =>
    obtain ⟨s2, h2, g2⟩ := good_soft (b := b) p more g1
    obtain ⟨s3, h3, g3⟩ := good_reset (b := b) (asserts := asserts) q (s := { s2 with log := inner.reverse ++ s2.log })
      ⟨fun c h h' => by
        rcases List.mem_append.1 h with h | h
        · exact hc p more inner q rfl c (List.mem_reverse.1 h) h'
        · exact g2.log c h h', g2.one, g2.err⟩
    exact ⟨_, by simp only [finish, h2, h3], good_swap g3⟩
  | force q =>
    obtain ⟨s3, h3, g3⟩ := good_reset (b := b) (asserts := asserts) q g1
    exact ⟨_, by simp only [finish, h3], good_swap g3⟩

theorem good_loop {b asserts : Bool} (cs : List (Choice X Y)) (hc : ∀ c ∈ cs, InnerObjOnly c) {s : St X Y}
    (hs : Good s) : ∃ s', (runLoop (cEvals X Y b) asserts cs s).2 = .next s' ∧ Good s' := by
  induction cs generalizing s with
  | nil => exact ⟨s, rfl, hs⟩
  | cons c l ih =>
    obtain ⟨s1, h1, g1⟩ := good_iteration (b := b) (asserts := asserts) c (hc c (by simp)) hs
    obtain ⟨s2, h2, g2⟩ := ih (fun c h => hc c (by simp [h])) g1
    exact ⟨s2, by simp only [runLoop, h1, h2], g2⟩

/-- Through the C interface no run ends with `Error_In_User_Function` and no failed evaluation aborts it, whatever
the callbacks return and whatever the solver decides; and in all its calls a new point is announced only with the
objective - where the C interface passes 0. -/
theorem C66_runs (b asserts : Bool) (sc : StartChoice X Y) (cs : List (Choice X Y))
    (hc : ∀ c ∈ cs, InnerObjOnly c) (s0 : St X Y) (h0 : s0.log = [] ∧ s0.consType = none ∧ s0.err = false) :
    ∃ s1 s', start (cEvals X Y b) asserts sc s0 = some (true, s1) ∧
      (runLoop (cEvals X Y b) asserts cs s1).2 = .next s' ∧ s'.err = false ∧
      ∀ c ∈ s'.log, c.newX = true → c.fn = .obj := by
  obtain ⟨s1, h1, g1⟩ := good_start (b := b) (asserts := asserts) sc (s := s0)
    ⟨by rw [h0.1]; simp [ObjOnly], by simp [h0.2.1], h0.2.2⟩
  obtain ⟨s2, h2, g2⟩ := good_loop (b := b) (asserts := asserts) cs hc g1
  exact ⟨s1, s2, h1, h2, g2.err, g2.log⟩

/-- No C callback is ever told that the point is new, in any run: a callback that keeps the point of the last call
with `new_x` never learns any point. -/
theorem C66_never_new_x_false (b asserts : Bool) (sc : StartChoice X Y) (cs : List (Choice X Y))
    (hc : ∀ c ∈ cs, InnerObjOnly c) (s0 s' : St X Y) (h0 : s0.log = [] ∧ s0.consType = none ∧ s0.err = false)
    (h : Evals.run (cEvals X Y b) asserts sc cs s0 = some s') :
    (∀ c ∈ s'.log.reverse.filterMap cSees, c.newX = false) ∧
      ∀ k ∈ believed none (s'.log.reverse.filterMap cSees), k = none := by
  obtain ⟨s1, s2, h1, h2, _, h4⟩ := C66_runs b asserts sc cs hc s0 h0
  simp only [Evals.run, h1, h2, Out.state?, Option.some.injEq] at h
  obtain rfl := h
  have key : ∀ c ∈ s2.log.reverse.filterMap cSees, c.newX = false := by
    intro c hc
    obtain ⟨a, ha, hac⟩ := List.mem_filterMap.1 hc
    have := h4 a (List.mem_reverse.1 ha)
    obtain ⟨fn, x, nx, y⟩ := a
    cases fn <;> simp only [cSees, Option.some.injEq, reduceCtorEq] at hac <;> subst hac <;> simp_all
  have bel : ∀ l : List (Call X Y), (∀ c ∈ l, c.newX = false) → ∀ k ∈ believed none l, k = none := by
    intro l
    induction l with
    | nil => simp [believed]
    | cons a l ih =>
      intro hl k hk
      have ha := hl a (by simp)
      simp only [believed, ha, Bool.false_eq_true, if_false, List.mem_cons] at hk
      rcases hk with rfl | hk
      · rfl
      · exact ih (fun c h => hl c (by simp [h])) k hk
  exact ⟨key, bel _ key⟩

/-- The calls a nested restoration problem makes to the functions of the problem meet the assumption made on them
above: they are translations of the calls of a run in which (by the same theorem) only the objective announces new
points. -/
theorem C66_inner {X' Y' : Type} (g pr : X' → X) (mult : Y' → Y) (l : List (Call X' Y')) (h : ObjOnly l) :
    ObjOnly (l.flatMap (translate g pr mult)) := by
  intro c hc hn
  obtain ⟨a, ha, hac⟩ := List.mem_flatMap.1 hc
  have := h a ha
  obtain ⟨fn, x, nx, y⟩ := a
  cases fn <;> simp [translate] at hac <;> subst hac <;> simp_all

/-- A run with a trial, an accepted step and a restoration: the C callbacks see 20 calls, none with `new_x`, and
the solver announced a new point 6 times. -/
example : ∃ s', Evals.run (cEvals ℕ ℕ true) true ⟨1, 0, 2, 4⟩
      [⟨[⟨3, []⟩], .accept 5⟩, ⟨[⟨6, [7]⟩], .soft (8, 1) []⟩] blank = some s' ∧
    (s'.log.reverse.filterMap cSees).length = 20 ∧ (s'.log.filter (·.newX)).length = 6 := by
  refine ⟨_, rfl, ?_, ?_⟩ <;> decide

end Runs

/-! ## Results -/

/-- The sparse and the dense function hand over status, objective, number of iterations and point, and always
return 0. -/
theorem C66_results (r : Solved K) :
    (solve r).2.status = r.status ∧ (solve r).2.obj = r.obj ∧ (solve r).2.niters = r.iters ∧
      (solve r).2.solution = r.x ∧ (solve r).1 = 0 := ⟨rfl, rfl, rfl, rfl, rfl⟩

/-- The assertion in the function for mixed dense-sparse problems never fails, whatever status the solver returns;
the objective and the point are handed over; and the outcome depends on nothing else: a C user cannot see from it
whether the problem was solved. -/
theorem C66_mds_status_false (obj : K) (iters : ℤ) (x : List K) :
    (∀ st ∈ statusCodes, mdsSolve ⟨st, obj, iters, x⟩ = some (0, ⟨obj, x⟩)) ∧
      ∀ st ∈ statusCodes, ∀ st' ∈ statusCodes, mdsSolve ⟨st, obj, iters, x⟩ = mdsSolve ⟨st', obj, iters, x⟩ := by
  have h : ∀ st ∈ statusCodes, mdsSolve ⟨st, obj, iters, x⟩ = some (0, ⟨obj, x⟩) := by
    intro st hst
    have : st ≤ 12 := by revert st; decide
    simp [mdsSolve, this]
  exact ⟨h, fun st hst st' hst' => by rw [h st hst, h st' hst']⟩

example : (0 : ℤ) ∈ statusCodes ∧ (-15 : ℤ) ∈ statusCodes ∧
    mdsSolve (⟨-15, 7, 3, [1, 2]⟩ : Solved ℤ) = mdsSolve ⟨0, 7, 3, [1, 2]⟩ := ⟨by decide, by decide, rfl⟩

/-- A Fortran program gets the objective and the point, and cannot see the status. -/
theorem C66_fortran_status_false (st st' obj : ℤ) (iters : ℤ) (x : List ℤ) :
    fortranSolve (⟨st, obj, iters, x⟩ : Solved ℤ) = (obj, x) ∧
      fortranSolve (⟨st, obj, iters, x⟩ : Solved ℤ) = fortranSolve ⟨st', obj, iters, x⟩ := ⟨rfl, rfl⟩

end Hiop.CApi
