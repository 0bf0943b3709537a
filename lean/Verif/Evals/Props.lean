import Verif.Evals.Model

/-!
# Properties C49 (truthful `new_x`) and C50 (stored values belong to the iterate)
-/

set_option linter.unusedSimpArgs false
set_option linter.unusedVariables false

namespace Hiop.Evals

variable {X Y : Type}

/-! ## Specification -/

/-- `new_x` tells the truth in a sequence of calls (oldest first): the first call has it, and a call
without it is made at the point of the call before. -/
def Truthful (calls : List (Call X Y)) : Prop :=
  (∀ a post, calls = a :: post → a.newX = true) ∧
    ∀ pre a b post, calls = pre ++ a :: b :: post → b.newX = false → b.x = a.x

/-- The point a user who keeps the point of the last call with `new_x` believes each call to be made
at. -/
def believed : Option X → List (Call X Y) → List (Option X)
  | _, [] => []
  | k, c :: l => let k := if c.newX then some c.x else k; k :: believed k l

/-- All stored values belong to the current iterate (the Hessian also to its multipliers). -/
structure Coherent (s : St X Y) : Prop where
  f : s.f = some s.cur.1
  cd : s.cd = some s.cur.1
  grad : s.grad = some s.cur.1
  jac : s.jac = some s.cur.1
  hess : s.hess = some s.cur

/-! ## Lemmas -/

/-- `Truthful`, newest first. -/
def TR : List (Call X Y) → Prop
  | [] => True
  | [a] => a.newX = true
  | b :: a :: l => (b.newX = false → b.x = a.x) ∧ TR (a :: l)

theorem truthful_snoc (l : List (Call X Y)) (b : Call X Y) :
    Truthful (l ++ [b]) ↔ Truthful l ∧
      ((l = [] → b.newX = true) ∧ ∀ pre a, l = pre ++ [a] → b.newX = false → b.x = a.x) := by
  constructor
  · rintro ⟨h1, h2⟩
    refine ⟨⟨fun a post e => h1 a (post ++ [b]) (by simp [e]), fun pre a c post e =>
      h2 pre a c (post ++ [b]) (by simp [e])⟩, fun e => h1 b [] (by simp [e]), fun pre a e =>
      h2 pre a b [] (by simp [e])⟩
  · rintro ⟨⟨h1, h2⟩, h3, h4⟩
    refine ⟨fun a post e => ?_, fun pre a c post e => ?_⟩
    · cases l with
      | nil => simp only [List.nil_append, List.cons.injEq] at e; rw [← e.1]; exact h3 rfl
      | cons x t => simp only [List.cons_append, List.cons.injEq] at e; rw [← e.1]; exact h1 x t rfl
    · rcases List.eq_nil_or_concat post with rfl | ⟨q, z, rfl⟩
      · have e' : l ++ [b] = (pre ++ [a]) ++ [c] := by simpa using e
        have := List.append_inj' e' rfl
        have hb : b = c := by simpa using this.2
        rw [← hb]
        exact h4 pre a this.1
      · have e' : l ++ [b] = (pre ++ a :: c :: q) ++ [z] := by simpa using e
        exact h2 pre a c q (List.append_inj' e' rfl).1

theorem tr_iff (l : List (Call X Y)) : TR l ↔ Truthful l.reverse := by
  induction l with
  | nil => simp [TR, Truthful]
  | cons b l ih =>
    rw [List.reverse_cons, truthful_snoc, ← ih]
    cases l with
    | nil => simp [TR]
    | cons a t =>
      simp only [TR, List.reverse_cons]
      constructor
      · rintro ⟨h1, h2⟩
        refine ⟨h2, by simp, fun pre a' e => ?_⟩
        have := (List.append_inj' e rfl).2
        have : a = a' := by simpa using this
        rw [← this]; exact h1
      · rintro ⟨h1, -, h3⟩
        exact ⟨h3 _ a rfl, h1⟩

/-- The last call was made at `x`. -/
def At (x : X) (s : St X Y) : Prop := ∃ h t, s.log = h :: t ∧ h.x = x

/-- An evaluation at `x`: truthful if it starts with `new_x` or the last call was at `x`. -/
def EvalAt (x : X) (nx : Bool) (e : St X Y → Bool × St X Y) : Prop :=
  ∀ s, TR s.log → (nx = true ∨ At x s) → TR (e s).2.log ∧ At x (e s).2

theorem evals_call (U : User X Y) (fn : Fn) (x : X) (nx : Bool) (y : Option Y) :
    EvalAt x nx (call U fn x nx y) := by
  intro s h1 h2
  refine ⟨?_, ⟨fn, x, nx, y⟩, s.log, rfl, rfl⟩
  show TR (⟨fn, x, nx, y⟩ :: s.log)
  rcases h : s.log with _ | ⟨a, l⟩
  · rcases h2 with h2 | ⟨_, _, h2, _⟩
    · exact h2
    · rw [h] at h2; cases h2
  · rw [h] at h1
    refine ⟨fun e => ?_, h1⟩
    rcases h2 with h2 | ⟨b, t, h2, h3⟩
    · change nx = false at e; rw [h2] at e; cases e
    · rw [h] at h2
      cases h2
      exact h3.symm

theorem evals_andThen {x : X} {nx ny : Bool} {a b : St X Y → Bool × St X Y} (ha : EvalAt x nx a)
    (hb : EvalAt x ny b) : EvalAt x nx (andThen a b) := by
  intro s h1 h2
  obtain ⟨h3, h4⟩ := ha s h1 h2
  unfold andThen
  rcases h : a s with ⟨_ | _, t⟩
  · rw [h] at h3 h4; exact ⟨h3, h4⟩
  · rw [h] at h3 h4; exact hb t h3 (Or.inr h4)

/-- Changing anything but the calls afterwards. -/
theorem evals_map {x : X} {nx : Bool} {a : St X Y → Bool × St X Y} (ha : EvalAt x nx a)
    (k : St X Y → Bool × St X Y) (hk : ∀ s, (k s).2.log = (a s).2.log) : EvalAt x nx k := by
  intro s h1 h2
  obtain ⟨h3, h4⟩ := ha s h1 h2
  unfold At at *
  rw [hk s]
  exact ⟨h3, h4⟩

theorem evals_both (U : User X Y) (e i a : Fn) (x : X) (nx : Bool) :
    EvalAt x nx (evalBoth U e i a x nx) := by
  intro s h1 h2
  unfold evalBoth
  rcases s.consType with _ | _ | _
  · simp only
    obtain ⟨h3, h4⟩ := evals_call U e x nx none s h1 h2
    rcases h : call U e x nx none s with ⟨_ | _, t⟩
    · rw [h] at h3 h4
      obtain ⟨h5, h6⟩ := evals_call U i x nx none t h3 (Or.inr h4)
      simp only
      rcases h' : call U i x nx none t with ⟨_ | _, u⟩
      · rw [h'] at h5 h6
        exact evals_call U a x nx none { u with consType := some true } h5 (Or.inr h6)
      · rw [h'] at h5 h6
        exact ⟨h5, h6⟩
    · rw [h] at h3 h4
      exact evals_call U i x nx none { t with consType := some false } h3 (Or.inr h4)
  · exact evals_andThen (evals_call U e x nx none) (evals_call U i x nx none) s h1 h2
  · exact evals_call U a x nx none s h1 h2

theorem evals_noHess (U : User X Y) (x : X) : EvalAt x true (evalNoHess U x) :=
  evals_andThen (evals_map (evals_call U .obj x true none) _ fun _ => rfl)
    (evals_andThen (evals_map (evals_call U .grad x false none) _ fun _ => rfl)
      (evals_andThen (evals_map (evals_both U _ _ _ x false) _ fun _ => rfl)
        (evals_map (evals_both U _ _ _ x false) _ fun _ => rfl)))

/-- `evalBoth` only changes the calls and the evaluation type. -/
theorem evalBoth_frame (U : User X Y) (e i a : Fn) (x : X) (nx : Bool) (s : St X Y) :
    ∃ l ct, (evalBoth U e i a x nx s).2 = { s with log := l, consType := ct } := by
  unfold evalBoth
  rcases hc : s.consType with _ | _ | _
  · simp only
    rcases h : call U e x nx none s with ⟨_ | _, t⟩
    · have ht : t = { s with log := ⟨e, x, nx, none⟩ :: s.log } := (congrArg Prod.snd h).symm
      simp only
      rcases h' : call U i x nx none t with ⟨_ | _, u⟩
      · have hu : u = { t with log := ⟨i, x, nx, none⟩ :: t.log } := (congrArg Prod.snd h').symm
        subst hu; subst ht
        exact ⟨_, _, rfl⟩
      · have hu : u = { t with log := ⟨i, x, nx, none⟩ :: t.log } := (congrArg Prod.snd h').symm
        subst hu; subst ht
        exact ⟨_, _, rfl⟩
    · have ht : t = { s with log := ⟨e, x, nx, none⟩ :: s.log } := (congrArg Prod.snd h).symm
      subst ht
      exact ⟨_, _, rfl⟩
  · simp only [andThen]
    rcases h : call U e x nx none s with ⟨_ | _, t⟩
    · have ht : t = { s with log := ⟨e, x, nx, none⟩ :: s.log } := (congrArg Prod.snd h).symm
      subst ht
      exact ⟨_, s.consType, rfl⟩
    · have ht : t = { s with log := ⟨e, x, nx, none⟩ :: s.log } := (congrArg Prod.snd h).symm
      subst ht
      exact ⟨_, s.consType, rfl⟩
  · exact ⟨_, s.consType, rfl⟩

theorem evalHess_frame (U : User X Y) (p : X × Y) (nx : Bool) (s : St X Y) :
    ∃ l, (evalHess U p nx s).2 = { s with log := l } := by
  unfold evalHess
  split_ifs
  · exact ⟨_, rfl⟩
  · exact ⟨s.log, rfl⟩

theorem evals_hess (U : User X Y) (p : X × Y) (s : St X Y) (h1 : TR s.log) (h2 : At p.1 s) :
    TR (evalHess U p false s).2.log ∧ At p.1 (evalHess U p false s).2 := by
  unfold evalHess
  split_ifs
  · exact evals_call U .hess p.1 false (some p.2) s h1 (Or.inr h2)
  · exact ⟨h1, h2⟩

/-- Result of `evalFunc`: iterates kept; calls truthful and at the trial point; on success the trial
buffers belong to the trial point. -/
theorem evalFunc_spec (U : User X Y) (s : St X Y) :
    (TR s.log → TR (evalFunc U s).2.log ∧ At s.trial.1 (evalFunc U s).2) ∧
    (evalFunc U s).2.cur = s.cur ∧ (evalFunc U s).2.trial = s.trial ∧
    (evalFunc U s).2.f = s.f ∧ (evalFunc U s).2.cd = s.cd ∧ (evalFunc U s).2.grad = s.grad ∧
    (evalFunc U s).2.jac = s.jac ∧ (evalFunc U s).2.hess = s.hess ∧ (evalFunc U s).2.err = s.err ∧
    ((evalFunc U s).1 = true → (evalFunc U s).2.ft = some s.trial.1 ∧
      (evalFunc U s).2.cdt = some s.trial.1) := by
  unfold evalFunc andThen
  simp only
  have hc := evals_call U .obj s.trial.1 true none s
  rcases h : call U .obj s.trial.1 true none s with ⟨_ | _, t⟩
  · have ht : t = { s with log := ⟨.obj, s.trial.1, true, none⟩ :: s.log } := (congrArg Prod.snd h).symm
    rw [h] at hc
    refine ⟨fun h1 => hc h1 (Or.inl rfl), ?_⟩
    subst ht
    simp
  · have ht : t = { s with log := ⟨.obj, s.trial.1, true, none⟩ :: s.log } := (congrArg Prod.snd h).symm
    rw [h] at hc
    simp only [stored, if_true]
    set u : St X Y := { t with ft := some s.trial.1 } with hu
    have htr : u.trial = s.trial := by rw [hu, ht]
    obtain ⟨l, ct, hf⟩ := evalBoth_frame U .consEq .consIneq .consAll u.trial.1 false u
    have he := evals_both U .consEq .consIneq .consAll u.trial.1 false u
    refine ⟨fun h1 => ?_, ?_⟩
    · obtain ⟨h3, h4⟩ := hc h1 (Or.inl rfl)
      have := he h3 (Or.inr (by rw [htr]; exact h4))
      rw [htr] at this
      unfold evalCD
      rw [htr]
      exact this
    · unfold evalCD
      rw [hf]
      have e1 : u.cur = s.cur ∧ u.f = s.f ∧ u.cd = s.cd ∧ u.grad = s.grad ∧ u.jac = s.jac ∧
          u.hess = s.hess ∧ u.ft = some s.trial.1 ∧ u.err = s.err := by rw [hu, ht]; simp
      obtain ⟨e1, e2, e3, e4, e5, e6, e7, e8⟩ := e1
      refine ⟨e1, htr, e2, e3, e4, e5, e6, e8, fun hok => ⟨e7, ?_⟩⟩
      rw [if_pos hok, htr]

/-- Result of `evalNoHess` at `x`. -/
theorem evalNoHess_spec (U : User X Y) (x : X) (s : St X Y) :
    (evalNoHess U x s).2.cur = s.cur ∧ (evalNoHess U x s).2.trial = s.trial ∧
    (evalNoHess U x s).2.ft = s.ft ∧ (evalNoHess U x s).2.cdt = s.cdt ∧
    (evalNoHess U x s).2.hess = s.hess ∧
    ((evalNoHess U x s).1 = true → (evalNoHess U x s).2.f = some x ∧
      (evalNoHess U x s).2.grad = some x ∧ (evalNoHess U x s).2.cd = some x ∧
      (evalNoHess U x s).2.jac = some x) := by
  unfold evalNoHess andThen
  simp only
  rcases h : call U .obj x true none s with ⟨_ | _, t⟩
  · have ht : t = { s with log := ⟨.obj, x, true, none⟩ :: s.log } := (congrArg Prod.snd h).symm
    subst ht; simp
  · have ht : t = { s with log := ⟨.obj, x, true, none⟩ :: s.log } := (congrArg Prod.snd h).symm
    simp only [stored, if_true]
    rcases h' : call U .grad x false none { t with f := some x } with ⟨_ | _, u⟩
    · have hu : u = { t with f := some x, log := ⟨.grad, x, false, none⟩ :: t.log } :=
        (congrArg Prod.snd h').symm
      subst hu; subst ht; simp
    · have hu : u = { t with f := some x, log := ⟨.grad, x, false, none⟩ :: t.log } :=
        (congrArg Prod.snd h').symm
      simp only [if_true]
      set v : St X Y := { u with grad := some x } with hv
      obtain ⟨l, ct, hf⟩ := evalBoth_frame U .consEq .consIneq .consAll x false v
      rcases h2 : evalCD U x false v with ⟨_ | _, w⟩
      · have hw : w = { v with log := l, consType := ct } := by
          rw [← hf]; exact (congrArg Prod.snd h2).symm
        subst hw; rw [hv, hu, ht]; simp
      · have hw : w = { v with log := l, consType := ct } := by
          rw [← hf]; exact (congrArg Prod.snd h2).symm
        simp only [if_true]
        set z : St X Y := { w with cd := some x } with hz
        obtain ⟨l', ct', hf'⟩ := evalBoth_frame U .jacEq .jacIneq .jacAll x false z
        unfold evalJac
        rw [hf']
        rw [hz, hw, hv, hu, ht]
        simp

/-- Result of `evalDeriv`. -/
theorem evalDeriv_spec (U : User X Y) (s : St X Y) :
    (TR s.log → At s.trial.1 s → TR (evalDeriv U s).2.log ∧ At s.trial.1 (evalDeriv U s).2) ∧
    (evalDeriv U s).2.cur = s.cur ∧ (evalDeriv U s).2.trial = s.trial ∧
    (evalDeriv U s).2.f = s.f ∧ (evalDeriv U s).2.cd = s.cd ∧ (evalDeriv U s).2.ft = s.ft ∧
    (evalDeriv U s).2.cdt = s.cdt ∧
    ((evalDeriv U s).1 = true → (evalDeriv U s).2.grad = some s.trial.1 ∧
      (evalDeriv U s).2.jac = some s.trial.1 ∧ (evalDeriv U s).2.hess = some s.trial) := by
  unfold evalDeriv andThen
  simp only
  have hc := evals_call U .grad s.trial.1 false none s
  rcases h : call U .grad s.trial.1 false none s with ⟨_ | _, t⟩
  · have ht : t = { s with log := ⟨.grad, s.trial.1, false, none⟩ :: s.log } := (congrArg Prod.snd h).symm
    rw [h] at hc
    refine ⟨fun h1 h2 => hc h1 (Or.inr h2), ?_⟩
    subst ht; simp
  · have ht : t = { s with log := ⟨.grad, s.trial.1, false, none⟩ :: s.log } := (congrArg Prod.snd h).symm
    rw [h] at hc
    simp only [stored, if_true]
    set v : St X Y := { t with grad := some s.trial.1 } with hv
    have hvt : v.trial = s.trial := by rw [hv, ht]
    obtain ⟨l, ct, hf⟩ := evalBoth_frame U .jacEq .jacIneq .jacAll v.trial.1 false v
    have he := evals_both U .jacEq .jacIneq .jacAll v.trial.1 false v
    rcases h2 : evalJac U v.trial.1 false v with ⟨_ | _, w⟩
    · have hw : w = { v with log := l, consType := ct } := by
        rw [← hf]; exact (congrArg Prod.snd h2).symm
      have hlog : (evalBoth U .jacEq .jacIneq .jacAll v.trial.1 false v).2 = w := congrArg Prod.snd h2
      refine ⟨fun h3 h4 => ?_, ?_⟩
      · obtain ⟨h5, h6⟩ := hc h3 (Or.inr h4)
        have := he h5 (Or.inr (by rw [hvt]; exact h6))
        rw [hlog, hvt] at this
        exact this
      · subst hw; rw [hv, ht]; simp
    · have hw : w = { v with log := l, consType := ct } := by
        rw [← hf]; exact (congrArg Prod.snd h2).symm
      have hlog : (evalBoth U .jacEq .jacIneq .jacAll v.trial.1 false v).2 = w := congrArg Prod.snd h2
      simp only [if_true]
      set z : St X Y := { w with jac := some v.trial.1 } with hz
      have hzt : z.trial = s.trial := by rw [hz, hw]; exact hvt
      obtain ⟨l', hf'⟩ := evalHess_frame U z.trial false z
      refine ⟨fun h3 h4 => ?_, ?_⟩
      · obtain ⟨h5, h6⟩ := hc h3 (Or.inr h4)
        have := he h5 (Or.inr (by rw [hvt]; exact h6))
        rw [hlog, hvt] at this
        have h7 := evals_hess U z.trial z this.1 (by rw [hzt]; exact this.2)
        rw [hzt] at h7
        rw [hzt]
        exact h7
      · rw [hf', hz, hw, hv, ht]
        simp

/-! ## Starting procedure -/

theorem start_spec (U : User X Y) (asserts : Bool) (c : StartChoice X Y) (s s' : St X Y) (ok : Bool)
    (h : start U asserts c s = some (ok, s')) :
    (TR s.log → TR s'.log) ∧ (ok = true → Coherent s' ∧ s'.cur = (c.x1, c.y1)) := by
  unfold start at h
  have h1 := evals_noHess U c.x0 { s with cur := (c.x0, c.y0) }
  rcases e1 : evalNoHess U c.x0 { s with cur := (c.x0, c.y0) } with ⟨_ | _, t⟩
  · rw [e1] at h h1
    simp only at h
    split_ifs at h
    cases h
    exact ⟨fun h0 => (h1 h0 (Or.inl rfl)).1, fun h => by cases h⟩
  · rw [e1] at h h1
    simp only at h
    have h2 := evals_noHess U c.x1 { t with cur := (c.x1, c.y0) }
    have g2 := evalNoHess_spec U c.x1 { t with cur := (c.x1, c.y0) }
    rcases e2 : evalNoHess U c.x1 { t with cur := (c.x1, c.y0) } with ⟨_ | _, u⟩
    · rw [e2] at h h2
      simp only at h
      split_ifs at h
      cases h
      exact ⟨fun h0 => (h2 (h1 h0 (Or.inl rfl)).1 (Or.inl rfl)).1, fun h => by cases h⟩
    · rw [e2] at h h2 g2
      simp only at h g2
      have h3 := evals_hess U (c.x1, c.y1) { u with cur := (c.x1, c.y1) }
      obtain ⟨l, hf⟩ := evalHess_frame U (c.x1, c.y1) false { u with cur := (c.x1, c.y1) }
      have htr : TR s.log → TR (evalHess U (c.x1, c.y1) false { u with cur := (c.x1, c.y1) }).2.log := by
        intro h0
        obtain ⟨a1, a2⟩ := h2 (h1 h0 (Or.inl rfl)).1 (Or.inl rfl)
        exact (h3 a1 a2).1
      simp only [evalHessOnly] at h
      rcases e3 : evalHess U (c.x1, c.y1) false { u with cur := (c.x1, c.y1) } with ⟨_ | _, v⟩
      · rw [e3] at h htr
        simp only at h
        split_ifs at h
        cases h
        exact ⟨htr, fun h => by cases h⟩
      · rw [e3] at h htr hf
        simp only [stored, if_true] at h hf
        cases h
        refine ⟨htr, fun _ => ?_⟩
        subst hf
        obtain ⟨b1, b2, b3, b4⟩ := g2.2.2.2.2.2 trivial
        exact ⟨⟨b1, b3, b2, b4, rfl⟩, rfl⟩

/-! ## One iteration -/

/-- What the trials leave: calls truthful; the trial buffers belong to the trial point, at which the
last call was made, if there was at least one trial and no failure was passed over. -/
theorem socLoop_spec (U : User X Y) (asserts : Bool) (l : List X) (s s' : St X Y)
    (h : socLoop U asserts l s = some s') :
    (TR s.log → At s.trial.1 s → TR s'.log ∧ At s'.trial.1 s') ∧ s'.cur = s.cur ∧
    (s'.err = false → s.err = false ∧ (s.ft = some s.trial.1 → s.cdt = some s.trial.1 →
      s'.ft = some s'.trial.1 ∧ s'.cdt = some s'.trial.1)) := by
  induction l generalizing s with
  | nil =>
    cases h
    exact ⟨fun h1 h2 => ⟨h1, h2⟩, rfl, fun h => ⟨h, fun h1 h2 => ⟨h1, h2⟩⟩⟩
  | cons x l ih =>
    unfold socLoop at h
    obtain ⟨g1, g2, g3, -, -, -, -, -, ge, g4⟩ := evalFunc_spec U (setTrialX x s)
    rcases e : evalFunc U (setTrialX x s) with ⟨_ | _, t⟩
    · rw [e] at h g1 g2 g3 g4
      simp only at h g2 g3
      split_ifs at h with ha
      cases h
      refine ⟨fun h1 h2 => ?_, g2, fun h => by simp at h⟩
      rw [g3]; exact g1 h1
    · rw [e] at h g1 g2 g3 g4
      simp only at h g2 g3 g4
      obtain ⟨i1, i2, i3⟩ := ih t h
      rw [e] at ge
      refine ⟨fun h1 h2 => ?_, i2.trans g2, fun ha => ⟨ge.symm.trans (i3 ha).1, fun _ _ => ?_⟩⟩
      · have := g1 h1
        exact i1 this.1 (by rw [g3]; exact this.2)
      · have := g4 trivial
        exact (i3 ha).2 (by rw [g3]; exact this.1) (by rw [g3]; exact this.2)

theorem trialsLoop_err (U : User X Y) (asserts : Bool) (l : List (Trial X)) (s s' : St X Y)
    (h : trialsLoop U asserts l s = .done s') (he : s'.err = false) : s.err = false := by
  induction l generalizing s with
  | nil => simp only [trialsLoop, TrialsOut.done.injEq] at h; rw [h]; exact he
  | cons x l ih =>
    have ge := (evalFunc_spec U (setTrialX x.x s)).2.2.2.2.2.2.2.2.1
    unfold trialsLoop at h
    rcases e : evalFunc U (setTrialX x.x s) with ⟨_ | _, t⟩
    · rw [e] at h; simp at h
    · rw [e] at h ge
      simp only at h
      rcases e2 : socLoop U asserts x.soc t with _ | u
      · rw [e2] at h; simp at h
      · rw [e2] at h
        exact ge.symm.trans ((socLoop_spec U asserts x.soc t u e2).2.2 (ih u h)).1

theorem trialsLoop_spec (U : User X Y) (asserts : Bool) (l : List (Trial X)) (s : St X Y) :
    (∀ s', trialsLoop U asserts l s = .ret s' → TR s.log → TR s'.log) ∧
    ∀ s', trialsLoop U asserts l s = .done s' →
      s'.cur = s.cur ∧ (TR s.log → TR s'.log ∧ (l ≠ [] ∨ At s.trial.1 s → At s'.trial.1 s')) ∧
      (s'.err = false → l ≠ [] ∨ (s.ft = some s.trial.1 ∧ s.cdt = some s.trial.1) →
        s'.ft = some s'.trial.1 ∧ s'.cdt = some s'.trial.1) := by
  induction l generalizing s with
  | nil =>
    refine ⟨fun s' h => by simp [trialsLoop] at h, fun s' h => ?_⟩
    simp only [trialsLoop, TrialsOut.done.injEq] at h
    subst h
    exact ⟨rfl, fun h => ⟨h, fun h' => by simpa using h'⟩, fun _ h' => by simpa using h'⟩
  | cons x l ih =>
    obtain ⟨g1, g2, g3, -, -, -, -, -, ge, g4⟩ := evalFunc_spec U (setTrialX x.x s)
    unfold trialsLoop
    rcases e : evalFunc U (setTrialX x.x s) with ⟨_ | _, t⟩
    · rw [e] at g1
      refine ⟨fun s' h => ?_, fun s' h => by simp at h⟩
      simp only [TrialsOut.ret.injEq] at h
      subst h
      exact fun h0 => (g1 h0).1
    · rw [e] at g1 g2 g3 g4
      simp only at g2 g3 g4 ⊢
      have g4 := g4 trivial
      rcases e2 : socLoop U asserts x.soc t with _ | u
      · exact ⟨fun s' h => by simp at h, fun s' h => by simp at h⟩
      · obtain ⟨k1, k2, k3⟩ := socLoop_spec U asserts x.soc t u e2
        obtain ⟨i1, i2⟩ := ih u
        have hu : TR s.log → TR u.log ∧ At u.trial.1 u := fun h0 =>
          k1 (g1 h0).1 (by rw [g3]; exact (g1 h0).2)
        refine ⟨fun s' h h0 => i1 s' h (hu h0).1, fun s' h => ?_⟩
        obtain ⟨j1, j2, j3⟩ := i2 s' h
        refine ⟨j1.trans (k2.trans g2), fun h0 => ⟨(j2 (hu h0).1).1, fun _ => (j2 (hu h0).1).2 (Or.inr (hu h0).2)⟩,
          fun ha _ => j3 ha (Or.inr ?_)⟩
        exact (k3 (trialsLoop_err U asserts l u s' h ha)).2 (by rw [g3]; exact g4.1)
          (by rw [g3]; exact g4.2)

theorem softRounds_log (U : User X Y) (l : List (X × Y)) (s : St X Y) (h : TR s.log) :
    TR (softRounds U l s).2.log := by
  induction l generalizing s with
  | nil => exact h
  | cons p l ih =>
    unfold softRounds
    have g1 := (evalFunc_spec U s).1 h
    rcases e : evalFunc U s with ⟨_ | _, t⟩
    · rw [e] at g1; exact g1.1
    · rw [e] at g1
      simp only
      have g2 := (evalFunc_spec U (setTrialX p.1 t)).1 g1.1
      rcases e2 : evalFunc U (setTrialX p.1 t) with ⟨_ | _, u⟩
      · rw [e2] at g2; exact g2.1
      · rw [e2] at g2; exact ih _ g2.1

theorem soft_log (U : User X Y) (p : X × Y) (l : List (X × Y)) (s : St X Y) (h : TR s.log) :
    TR (soft U p l s).2.log := by
  unfold soft
  have g := (evalFunc_spec U (setTrialX p.1 { s with cdt := s.cd })).1 h
  rcases e : evalFunc U (setTrialX p.1 { s with cdt := s.cd }) with ⟨_ | _, u⟩
  · rw [e] at g; exact g.1
  · rw [e] at g; exact softRounds_log U l _ g.1

theorem tr_append (a b : List (Call X Y)) (ha : TR a) (hb : TR b) : TR (a ++ b) := by
  induction a with
  | nil => exact hb
  | cons x a ih =>
    cases a with
    | nil =>
      cases b with
      | nil => exact ha
      | cons y b => exact ⟨fun h => absurd h (by rw [show x.newX = true from ha]; simp), hb⟩
    | cons y a => exact ⟨ha.1, ih ha.2⟩

/-- The calls made inside robust restoration are truthful among themselves. -/
def InnerTruthful (c : Choice X Y) : Prop :=
  ∀ p more inner q, c.fin = .robust p more inner q → Truthful inner

/-- The iteration reaches its end with at least one trial, or by a restoration. -/
def HasTrial (c : Choice X Y) : Prop := ∀ y, c.fin = .accept y → c.trials ≠ []

theorem resetVar_log (U : User X Y) (asserts : Bool) (q : X × Y) (s s' : St X Y)
    (h : resetVar U asserts q s = some s') (h0 : TR s.log) : TR s'.log := by
  unfold resetVar at h
  have g := evals_noHess U q.1 { s with trial := q } h0 (Or.inl rfl)
  rcases e : evalNoHess U q.1 { s with trial := q } with ⟨_ | _, u⟩
  · rw [e] at h g
    simp only at h
    split_ifs at h
    cases h
    exact g.1
  · rw [e] at h g
    cases h
    exact g.1

/-- The state an iteration ends with. -/
def Out.state? : Out X Y → Option (St X Y)
  | .ret s => some s
  | .abort => none
  | .next s => some s

theorem iteration_log (U : User X Y) (asserts : Bool) (c : Choice X Y) (s s' : St X Y)
    (hin : InnerTruthful c) (ht : HasTrial c) (h0 : TR s.log)
    (h : (iteration U asserts c s).state? = some s') : TR s'.log := by
  obtain ⟨t1, t2⟩ := trialsLoop_spec U asserts c.trials s
  unfold iteration at h
  rcases e : trialsLoop U asserts c.trials s with u | _ | u
  · rw [e] at h
    cases h
    exact t1 _ e h0
  · rw [e] at h; cases h
  · rw [e] at h
    obtain ⟨-, t3, -⟩ := t2 u e
    obtain ⟨t3, t4⟩ := t3 h0
    unfold finish at h
    rcases hfin : c.fin with y | ⟨p, more⟩ | ⟨p, more, inner, q⟩ | q
    · have hat := t4 (Or.inl (ht y hfin))
      rw [hfin] at h
      simp only at h
      split_ifs at h
      · cases h; exact t3
      have g := (evalDeriv_spec U { u with trial := (u.trial.1, y) }).1 t3 hat
      rcases e2 : evalDeriv U { u with trial := (u.trial.1, y) } with ⟨_ | _, v⟩
      · rw [e2] at h g; cases h; exact g.1
      · rw [e2] at h g; cases h; exact g.1
    · rw [hfin] at h
      cases h
      exact soft_log U p more u t3
    · rw [hfin] at h
      simp only at h
      have g := soft_log U p more u t3
      rcases e2 : soft U p more u with ⟨_ | _, v⟩
      · rw [e2] at h g; cases h; exact g
      · rw [e2] at h g
        simp only at h
        have hv : TR (inner.reverse ++ v.log) :=
          tr_append _ _ ((tr_iff _).2 (by rw [List.reverse_reverse]; exact hin p more inner q hfin)) g
        rcases e3 : resetVar U asserts q { v with log := inner.reverse ++ v.log } with _ | w
        · rw [e3] at h; cases h
        · rw [e3] at h
          cases h
          exact resetVar_log U asserts q _ w e3 hv
    · rw [hfin] at h
      simp only at h
      rcases e3 : resetVar U asserts q u with _ | w
      · rw [e3] at h; cases h
      · rw [e3] at h
        cases h
        exact resetVar_log U asserts q _ w e3 t3

/-! ## Complete runs -/

/-- A run: starting procedure from nothing, then the loop; the state when it ends (`none`: an
assertion failed). As in the code, a failed starting procedure is not noticed. -/
def run (U : User X Y) (asserts : Bool) (sc : StartChoice X Y) (cs : List (Choice X Y)) (s : St X Y) :
    Option (St X Y) :=
  match start U asserts sc s with
  | none => none
  | some (_, s) => (runLoop U asserts cs s).2.state?

theorem runLoop_log (U : User X Y) (asserts : Bool) (cs : List (Choice X Y))
    (hc : ∀ c ∈ cs, InnerTruthful c ∧ HasTrial c) (s s' : St X Y) (h0 : TR s.log)
    (h : (runLoop U asserts cs s).2.state? = some s') : TR s'.log := by
  induction cs generalizing s with
  | nil => cases h; exact h0
  | cons c l ih =>
    have hl := iteration_log U asserts c s
    unfold runLoop at h
    rcases e : iteration U asserts c s with t | _ | t
    · rw [e] at h hl
      cases h
      exact hl s' (hc c (by simp)).1 (hc c (by simp)).2 h0 rfl
    · rw [e] at h; cases h
    · rw [e] at h hl
      exact ih (fun c hc' => hc c (by simp [hc'])) t
        (hl t (hc c (by simp)).1 (hc c (by simp)).2 h0 rfl) h

/-- **C49.** In every run, for every user (failing calls included) and every sequence of trial points,
corrections and restorations, `new_x` tells the truth in every call. Missing (false, see below): calls
made by the restoration problem itself, assumed truthful here, and iterations in which no search
direction could be computed. -/
theorem C49_new_x_partial (U : User X Y) (asserts : Bool) (sc : StartChoice X Y)
    (cs : List (Choice X Y)) (hc : ∀ c ∈ cs, InnerTruthful c ∧ HasTrial c) (s s' : St X Y)
    (hs : s.log = []) (h : run U asserts sc cs s = some s') : Truthful s'.log.reverse := by
  rw [← tr_iff]
  unfold run at h
  rcases e : start U asserts sc s with _ | ⟨ok, t⟩
  · rw [e] at h; cases h
  · rw [e] at h
    exact runLoop_log U asserts cs hc t s' ((start_spec U asserts sc s t ok e).1 (by rw [hs]; trivial)) h

/-- A user who keeps the point of the last call with `new_x` is always right. -/
theorem C49_caching_user (calls : List (Call X Y)) (h : Truthful calls) :
    believed none calls = calls.map fun c => some c.x := by
  have key : ∀ (l pre : List (Call X Y)) (k : Option X), Truthful (pre ++ l) →
      (∀ q a, pre = q ++ [a] → k = some a.x) → believed k l = l.map fun c => some c.x := by
    intro l
    induction l with
    | nil => intros; rfl
    | cons c l ih =>
      intro pre k ht hk
      have hkey : (if c.newX then some c.x else k) = some c.x := by
        cases hn : c.newX with
        | true => rfl
        | false =>
          rcases List.eq_nil_or_concat pre with rfl | ⟨q, a, rfl⟩
          · have := ht.1 c l rfl
            rw [hn] at this; cases this
          · have := ht.2 q a c l (by simp) hn
            rw [this]
            simpa using hk q a (by simp)
      simp only [believed, List.map_cons, hkey]
      congr 1
      refine ih (pre ++ [c]) (some c.x) (by simpa using ht) fun q a e => ?_
      have : c = a := by simpa using (List.append_inj' e rfl).2
      rw [this]
  exact key calls [] none h (fun q a e => by simp at e)

/-! ### Concrete runs -/

/-- A user who never fails and evaluates Hessians. -/
def goodUser : User ℕ ℕ := ⟨fun _ => true, true⟩

/-- A state before the run. -/
def blank : St ℕ ℕ := ⟨(0, 0), (0, 0), none, none, none, none, none, none, none, none, false, []⟩

/-- Two trials with a correction after the first, accepted; then a soft restoration. -/
def cs1 : List (Choice ℕ ℕ) :=
  [⟨[⟨5, [6, 7]⟩, ⟨8, []⟩], .accept 1⟩, ⟨[⟨9, []⟩], .soft (10, 2) [(11, 3)]⟩]

example : ∃ s', run goodUser true ⟨1, 0, 2, 4⟩ cs1 blank = some s' ∧ Truthful s'.log.reverse ∧
    s'.log.length = 41 := by
  have h : (run goodUser true ⟨1, 0, 2, 4⟩ cs1 blank).isSome = true := by decide
  obtain ⟨s', hs⟩ := Option.isSome_iff_exists.1 h
  refine ⟨s', hs, C49_new_x_partial goodUser true ⟨1, 0, 2, 4⟩ cs1 (fun c hc => ?_) blank s' rfl hs, ?_⟩
  · simp only [cs1, List.mem_cons, List.not_mem_nil, or_false] at hc
    rcases hc with rfl | rfl
    · exact ⟨fun _ _ _ _ e => by simp at e, fun _ _ => by simp⟩
    · exact ⟨fun _ _ _ _ e => by simp at e, fun _ e => by simp at e⟩
  · have : (run goodUser true ⟨1, 0, 2, 4⟩ cs1 blank).map (fun s => s.log.length) = some 41 := by decide
    rw [hs] at this
    simpa using this

/-! ### Where `new_x` is not truthful -/

/-- An iteration in which no search direction could be computed in either pass accepts the old trial
point: with `new_x = false` although the last call was made at another point. (That the loop ends this
way is `C24_refactorization_limit_accepts_stale`.) -/
theorem C49_no_direction_false :
    ∃ s', run goodUser true ⟨1, 0, 2, 4⟩ [⟨[], .accept 1⟩] blank = some s' ∧
      ¬Truthful s'.log.reverse := by
  have h : (run goodUser true ⟨1, 0, 2, 4⟩ [⟨[], .accept 1⟩] blank).isSome = true := by decide
  obtain ⟨s', hs⟩ := Option.isSome_iff_exists.1 h
  refine ⟨s', hs, fun ht => ?_⟩
  have hb := C49_caching_user _ ht
  have e : (run goodUser true ⟨1, 0, 2, 4⟩ [⟨[], .accept 1⟩] blank).map
      (fun s => decide (believed none s.log.reverse = s.log.reverse.map fun c => some c.x)) =
      some false := by decide
  rw [hs] at e
  simp only [Option.map_some, Option.some.injEq, decide_eq_false_iff_not] at e
  exact e hb

/-- The answers of the restoration problem: its separate constraint functions always fail
(hiopFRProb.cpp:289-298, 334-346), everything else succeeds. -/
def frUser (X Y : Type) (hasHess : Bool) : User X Y where
  ok l := match l with
    | c :: _ => !(c.fn == .consEq || c.fn == .consIneq || c.fn == .jacEq || c.fn == .jacIneq)
    | [] => true
  hasHess := hasHess

/-- Every evaluation of the restoration problem at a point `x` with `DR (x - xref)` different from the
base part of `x` (in particular the first one, at `x = xref`, unless `xref = 0`) makes the base problem
evaluate its objective at `DR (x - xref)` and then its constraints at the base part of `x` with
`new_x = false`: a base problem that relies on `new_x`, or has fixed variables removed, evaluates its
constraints and Jacobian at the wrong point. -/
theorem C49_restoration_false {X' Y' : Type} (g pr : X' → X) (mult : Y' → Y) (hasHess : Bool) (x : X')
    (hx : g x ≠ pr x) (s : St X' Y') (hs : s.log = []) (hct : s.consType = none) :
    let calls := (evalNoHess (frUser X' Y' hasHess) x s).2.log.reverse.flatMap (translate g pr mult)
    (evalNoHess (frUser X' Y' hasHess) x s).1 = true ∧
    (calls.map fun c => (c.fn, c.newX)) = [(.obj, true), (.consAll, false), (.jacAll, false)] ∧
    (calls.map fun c => c.x) = [g x, pr x, pr x] ∧
    believed none calls = [some (g x), some (g x), some (g x)] ∧ ¬Truthful calls := by
  intro calls
  have hcalls : calls = [⟨.obj, g x, true, none⟩, ⟨.consAll, pr x, false, none⟩,
      ⟨.jacAll, pr x, false, none⟩] := by
    obtain ⟨a1, a2, a3, a4, a5, a6, a7, a8, a9, a10, a11, a12⟩ := s
    simp only at hs hct
    subst hs; subst hct
    rfl
  refine ⟨?_, by rw [hcalls]; rfl, by rw [hcalls]; rfl, by rw [hcalls]; rfl, fun ht => ?_⟩
  · obtain ⟨a1, a2, a3, a4, a5, a6, a7, a8, a9, a10, a11, a12⟩ := s
    simp only at hs hct
    subst hs; subst hct
    rfl
  · rw [hcalls] at ht
    exact hx (ht.2 [] _ _ [⟨.jacAll, pr x, false, none⟩] rfl rfl).symm

/-- Whatever a call to the restoration problem makes the base problem evaluate, it evaluates with the
same `new_x` and at the image of the same point: the objective at `g`, anything else at the base part;
and every call for all constraints, for their Jacobian or for the Hessian reaches the base problem. -/
theorem C49_restoration_calls {X' Y' : Type} (g pr : X' → X) (mult : Y' → Y) (c : Call X' Y') :
    (∀ b ∈ translate g pr mult c, b.fn = c.fn ∧ b.newX = c.newX ∧
      b.x = (if c.fn = .obj then g c.x else pr c.x)) ∧
    (c.fn = .obj ∨ c.fn = .consAll ∨ c.fn = .jacAll ∨ c.fn = .hess →
      (translate g pr mult c).length = 1) := by
  obtain ⟨fn, x, nx, y⟩ := c
  cases fn <;> simp [translate]

/-- Reference point 3, weights 1: the starting point of the restoration. -/
example : (fun x : Int × Nat => x.1 - 3) (3, 0) ≠ (fun x : Int × Nat => x.1) (3, 0) := by decide

/-! ## C50 -/

/-- **C50, starting point.** -/
theorem C50_start (U : User X Y) (asserts : Bool) (sc : StartChoice X Y) (s s' : St X Y)
    (h : start U asserts sc s = some (true, s')) : Coherent s' :=
  ((start_spec U asserts sc s s' true h).2 rfl).1

theorem socLoop_trial (U : User X Y) (asserts : Bool) (l : List X) (s s' : St X Y)
    (h : socLoop U asserts l s = some s') : s'.trial.1 = s.trial.1 ∨ s'.trial.1 ∈ l := by
  induction l generalizing s with
  | nil => cases h; exact Or.inl rfl
  | cons x l ih =>
    have g3 := (evalFunc_spec U (setTrialX x s)).2.2.1
    unfold socLoop at h
    rcases e : evalFunc U (setTrialX x s) with ⟨_ | _, t⟩
    · rw [e] at h g3
      simp only at h g3
      split_ifs at h
      cases h
      right
      simp only [g3, setTrialX]
      simp
    · rw [e] at h g3
      right
      rcases ih t h with h' | h'
      · simp only at g3
        rw [h', g3]; simp [setTrialX]
      · simp [h']

theorem trialsLoop_trial (U : User X Y) (asserts : Bool) (l : List (Trial X)) (s s' : St X Y)
    (h : trialsLoop U asserts l s = .done s') :
    (l = [] ∧ s'.trial.1 = s.trial.1) ∨ s'.trial.1 ∈ l.flatMap (fun t => t.x :: t.soc) := by
  induction l generalizing s with
  | nil => simp only [trialsLoop, TrialsOut.done.injEq] at h; rw [h]; exact Or.inl ⟨rfl, rfl⟩
  | cons x l ih =>
    have g3 := (evalFunc_spec U (setTrialX x.x s)).2.2.1
    right
    unfold trialsLoop at h
    rcases e : evalFunc U (setTrialX x.x s) with ⟨_ | _, t⟩
    · rw [e] at h; simp at h
    · rw [e] at h g3
      simp only at h g3
      rcases e2 : socLoop U asserts x.soc t with _ | u
      · rw [e2] at h; simp at h
      · rw [e2] at h
        simp only [List.flatMap_cons, List.mem_append]
        rcases ih u h with ⟨-, h'⟩ | h'
        · left
          rw [h']
          rcases socLoop_trial U asserts x.soc t u e2 with h2 | h2
          · rw [h2, g3]; simp [setTrialX]
          · simp [h2]
        · exact Or.inr h'

/-- **C50, accepted step.** Whatever the state before, after an accepted step all stored values belong
to the new iterate and its multipliers, and the iterate is one of the trial points. -/
theorem C50_accepted (U : User X Y) (asserts : Bool) (c : Choice X Y) (y : Y) (hc : c.fin = .accept y)
    (ht : c.trials ≠ []) (s s' : St X Y) (h : iteration U asserts c s = .next s') :
    Coherent s' ∧ s'.cur.2 = y ∧
      s'.cur.1 ∈ c.trials.flatMap (fun t => t.x :: t.soc) := by
  unfold iteration at h
  rcases e : trialsLoop U asserts c.trials s with u | _ | u
  · rw [e] at h; simp at h
  · rw [e] at h; simp at h
  · rw [e] at h
    obtain ⟨-, -, t3⟩ := (trialsLoop_spec U asserts c.trials s).2 u e
    have t4 := trialsLoop_trial U asserts c.trials s u e
    simp only [finish, hc] at h
    split_ifs at h with he
    obtain ⟨h1, h2⟩ := t3 (by simpa using he) (Or.inl ht)
    obtain ⟨-, g1, g2, g3, g4, g5, g6, g7⟩ := evalDeriv_spec U { u with trial := (u.trial.1, y) }
    rcases e2 : evalDeriv U { u with trial := (u.trial.1, y) } with ⟨_ | _, v⟩
    · rw [e2] at h; simp at h
    · rw [e2] at h g1 g2 g3 g4 g5 g6 g7
      simp only [Out.next.injEq] at h g1 g2 g3 g4 g5 g6 g7
      obtain ⟨g8, g9, g10⟩ := g7 trivial
      subst h
      refine ⟨⟨?_, ?_, ?_, ?_, ?_⟩, ?_, ?_⟩
      · simp only [swap, g5, g2, h1]
      · simp only [swap, g6, g2, h2]
      · simp only [swap, g8, g2]
      · simp only [swap, g9, g2]
      · simp only [swap, g10, g2]
      · simp only [swap, g2]
      · simp only [swap, g2]
        rcases t4 with ⟨h', -⟩ | h'
        · exact absurd h' ht
        · exact h'

/-- **C50.** In a run without restorations whose starting procedure succeeded, at the top of every
iteration (where the iterate callback is called, the errors computed and the termination tested) all
stored values belong to the current iterate. Missing (false, see below): iterations after a
restoration. -/
theorem C50_values_partial (U : User X Y) (asserts : Bool) (sc : StartChoice X Y) (s s0 : St X Y)
    (h0 : start U asserts sc s = some (true, s0)) (cs : List (Choice X Y))
    (hc : ∀ c ∈ cs, c.trials ≠ [] ∧ ∃ y, c.fin = .accept y) :
    ∀ t ∈ (runLoop U asserts cs s0).1, Coherent t := by
  have hco := C50_start U asserts sc s s0 h0
  clear h0
  induction cs generalizing s0 with
  | nil => intro t ht; simp only [runLoop, List.mem_singleton] at ht; rw [ht]; exact hco
  | cons c l ih =>
    intro t ht
    unfold runLoop at ht
    obtain ⟨hc1, y, hc2⟩ := hc c (by simp)
    rcases e : iteration U asserts c s0 with u | _ | u
    · rw [e] at ht; simp only [List.mem_singleton] at ht; rw [ht]; exact hco
    · rw [e] at ht; simp only [List.mem_singleton] at ht; rw [ht]; exact hco
    · rw [e] at ht
      simp only [List.mem_cons] at ht
      rcases ht with rfl | ht
      · exact hco
      · exact ih u (fun c h => hc c (by simp [h])) (C50_accepted U asserts c y hc2 hc1 s0 u e).1 t ht

/-- The hypotheses hold for two accepted steps. -/
example : ∃ s0, start goodUser true ⟨1, 0, 2, 4⟩ blank = some (true, s0) ∧
    (runLoop goodUser true [⟨[⟨5, [6]⟩], .accept 1⟩, ⟨[⟨7, []⟩], .accept 2⟩] s0).1.length = 3 ∧
    ∀ t ∈ (runLoop goodUser true [⟨[⟨5, [6]⟩], .accept 1⟩, ⟨[⟨7, []⟩], .accept 2⟩] s0).1, Coherent t := by
  refine ⟨_, rfl, by decide, ?_⟩
  refine C50_values_partial goodUser true ⟨1, 0, 2, 4⟩ blank _ rfl _ (fun c hc => ?_)
  simp only [List.mem_cons, List.not_mem_nil, or_false] at hc
  rcases hc with rfl | rfl
  · exact ⟨by simp, 1, rfl⟩
  · exact ⟨by simp, 2, rfl⟩

/-! ### Restorations -/

theorem softRounds_spec (U : User X Y) (l : List (X × Y)) (s : St X Y)
    (hok : (softRounds U l s).1 = true) (h1 : s.ft = some s.trial.1) (h2 : s.cdt = some s.trial.1) :
    let t := (softRounds U l s).2
    t.cur = s.cur ∧ t.trial = (l.getLast?).getD s.trial ∧ t.ft = some t.trial.1 ∧
      t.cdt = some t.trial.1 ∧ t.f = s.f ∧ t.cd = s.cd ∧ t.grad = s.grad ∧ t.jac = s.jac ∧
      t.hess = s.hess := by
  induction l generalizing s with
  | nil => exact ⟨rfl, rfl, h1, h2, rfl, rfl, rfl, rfl, rfl⟩
  | cons p l ih =>
    unfold softRounds at hok ⊢
    obtain ⟨-, a1, a2, a3, a4, a5, a6, a7, -, -⟩ := evalFunc_spec U s
    rcases e : evalFunc U s with ⟨_ | _, t⟩
    · rw [e] at hok; simp at hok
    · rw [e] at hok a1 a2 a3 a4 a5 a6 a7
      simp only at hok a1 a2 a3 a4 a5 a6 a7 ⊢
      obtain ⟨-, b1, b2, b3, b4, b5, b6, b7, -, b9⟩ := evalFunc_spec U (setTrialX p.1 t)
      rcases e2 : evalFunc U (setTrialX p.1 t) with ⟨_ | _, u⟩
      · rw [e2] at hok; simp at hok
      · rw [e2] at hok b1 b2 b3 b4 b5 b6 b7 b9
        simp only at hok b1 b2 b3 b4 b5 b6 b7 b9 ⊢
        have := ih { u with trial := p } hok (b9 trivial).1 (b9 trivial).2
        simp only at this ⊢
        obtain ⟨c1, c2, c3, c4, c5, c6, c7, c8, c9⟩ := this
        refine ⟨?_, ?_, c3, c4, ?_, ?_, ?_, ?_, ?_⟩
        · rw [c1, b1]; exact a1
        · rw [c2]
          rw [List.getLast?_cons]
          simp
        · rw [c5, b3]; exact a3
        · rw [c6, b4]; exact a4
        · rw [c7, b5]; exact a5
        · rw [c8, b6]; exact a6
        · rw [c9, b7]; exact a7

theorem soft_spec (U : User X Y) (p : X × Y) (l : List (X × Y)) (s : St X Y)
    (hok : (soft U p l s).1 = true) :
    let t := (soft U p l s).2
    t.cur = s.cur ∧ t.trial = (l.getLast?).getD p ∧ t.ft = some t.trial.1 ∧
      t.cdt = some t.trial.1 ∧ t.f = s.f ∧ t.cd = s.cd ∧ t.grad = s.grad ∧ t.jac = s.jac ∧
      t.hess = s.hess := by
  unfold soft at hok ⊢
  obtain ⟨-, b1, b2, b3, b4, b5, b6, b7, -, b9⟩ := evalFunc_spec U (setTrialX p.1 { s with cdt := s.cd })
  rcases e2 : evalFunc U (setTrialX p.1 { s with cdt := s.cd }) with ⟨_ | _, u⟩
  · rw [e2] at hok; simp at hok
  · rw [e2] at hok b1 b2 b3 b4 b5 b6 b7 b9
    simp only at hok b1 b2 b3 b4 b5 b6 b7 b9 ⊢
    obtain ⟨c1, c2, c3, c4, c5, c6, c7, c8, c9⟩ := softRounds_spec U l { u with trial := p } hok
      (b9 trivial).1 (b9 trivial).2
    refine ⟨c1.trans b1, c2, c3, c4, c5.trans b3, c6.trans b4, c7.trans b5, c8.trans b6, c9.trans b7⟩

/-- **After a soft restoration** the objective and constraint values belong to the new iterate, but
gradient, Jacobian and Hessian are still those stored before: they are never evaluated at the new
iterate. -/
theorem C50_soft_restoration (U : User X Y) (asserts : Bool) (p : X × Y) (l : List (X × Y)) (s : St X Y)
    (hok : (soft U p l s).1 = true) :
    ∃ s', finish U asserts (.soft p l) s = .next s' ∧ s'.cur = (l.getLast?).getD p ∧
      s'.f = some s'.cur.1 ∧ s'.cd = some s'.cur.1 ∧
      s'.grad = s.grad ∧ s'.jac = s.jac ∧ s'.hess = s.hess := by
  obtain ⟨c1, c2, c3, c4, c5, c6, c7, c8, c9⟩ := soft_spec U p l s hok
  exact ⟨_, rfl, c2, c3, c4, c7, c8, c9⟩

/-- **After a solved restoration problem** gradient and Jacobian belong to the new iterate, but the
stored objective and constraint values are those of the last trial point of soft restoration (the new
ones are overwritten), and the Hessian is the one stored before. -/
theorem C50_robust_restoration (U : User X Y) (asserts : Bool) (p : X × Y) (l : List (X × Y))
    (inner : List (Call X Y)) (q : X × Y) (s : St X Y) (hok : (soft U p l s).1 = true)
    (hev : (evalNoHess U q.1 { (soft U p l s).2 with
      trial := q, log := inner.reverse ++ (soft U p l s).2.log }).1 = true) :
    ∃ s', finish U asserts (.robust p l inner q) s = .next s' ∧ s'.cur = q ∧
      s'.grad = some q.1 ∧ s'.jac = some q.1 ∧
      s'.f = some ((l.getLast?).getD p).1 ∧ s'.cd = some ((l.getLast?).getD p).1 ∧
      s'.hess = s.hess := by
  obtain ⟨c1, c2, c3, c4, c5, c6, c7, c8, c9⟩ := soft_spec U p l s hok
  obtain ⟨d1, d2, d3, d4, d5, d6⟩ := evalNoHess_spec U q.1 { (soft U p l s).2 with
      trial := q, log := inner.reverse ++ (soft U p l s).2.log }
  simp only at c1 c2 c3 c4 c5 c6 c7 c8 c9 d1 d2 d3 d4 d5
  simp only [finish]
  rcases e : soft U p l s with ⟨_ | _, t⟩
  · rw [e] at hok; simp at hok
  · rw [e] at c1 c2 c3 c4 c5 c6 c7 c8 c9 d1 d2 d3 d4 d5 d6 hev
    simp only at c1 c2 c3 c4 c5 c6 c7 c8 c9 d1 d2 d3 d4 d5 d6 hev ⊢
    simp only [resetVar]
    rcases e2 : evalNoHess U q.1 { t with trial := q, log := inner.reverse ++ t.log } with ⟨_ | _, u⟩
    · rw [e2] at hev; simp at hev
    · rw [e2] at d1 d2 d3 d4 d5 d6
      obtain ⟨d6, d7, d8, d9⟩ := d6 rfl
      simp only at d1 d2 d3 d4 d5 d6 d7 d8 d9 ⊢
      refine ⟨_, rfl, ?_, ?_, ?_, ?_, ?_, ?_⟩
      · simp only [swap, d2]
      · simp only [swap, d7]
      · simp only [swap, d9]
      · simp only [swap, d3, c3, c2]
      · simp only [swap, d4, c4, c2]
      · simp only [swap, d5, c9]

/-- A soft restoration that moves the iterate leaves stale derivatives; a solved restoration problem
leaves stale function values: neither state is coherent. -/
theorem C50_restoration_false (U : User X Y) (asserts : Bool) (p : X × Y) (l : List (X × Y))
    (inner : List (Call X Y)) (q : X × Y) (s : St X Y) (hs : Coherent s) (hok : (soft U p l s).1 = true) :
    (((l.getLast?).getD p).1 ≠ s.cur.1 →
      ∃ s', finish U asserts (.soft p l) s = .next s' ∧ ¬Coherent s') ∧
    ((evalNoHess U q.1 { (soft U p l s).2 with
        trial := q, log := inner.reverse ++ (soft U p l s).2.log }).1 = true →
      ((l.getLast?).getD p).1 ≠ q.1 →
      ∃ s', finish U asserts (.robust p l inner q) s = .next s' ∧ ¬Coherent s') := by
  refine ⟨fun h => ?_, fun hev h => ?_⟩
  · obtain ⟨s', h1, h2, -, -, h3, -, -⟩ := C50_soft_restoration U asserts p l s hok
    refine ⟨s', h1, fun hc => h ?_⟩
    have := hc.grad
    rw [h3, hs.grad, h2] at this
    simpa using this.symm
  · obtain ⟨s', h1, h2, -, -, h3, -, -⟩ := C50_robust_restoration U asserts p l inner q s hok hev
    refine ⟨s', h1, fun hc => h ?_⟩
    have := hc.f
    rw [h3, h2] at this
    simpa using this

/-- The hypotheses hold: soft restoration to 8, restoration problem to 9, from the state after the
starting procedure. -/
example : ∃ s0, start goodUser true ⟨1, 0, 2, 4⟩ blank = some (true, s0) ∧ Coherent s0 ∧
    (soft goodUser (7, 0) [(8, 1)] s0).1 = true ∧
    (evalNoHess goodUser 9 { (soft goodUser (7, 0) [(8, 1)] s0).2 with
      trial := (9, 0), log := ([] : List (Call ℕ ℕ)).reverse ++ (soft goodUser (7, 0) [(8, 1)] s0).2.log }).1
      = true := by
  refine ⟨_, rfl, C50_start goodUser true ⟨1, 0, 2, 4⟩ blank _ rfl, by decide, by decide⟩

/-! ### Failures that are not reported -/

/-- A user whose objective fails at points above 9. -/
def limitedUser : User ℕ ℕ where
  ok l := match l with
    | c :: _ => !(c.fn == .obj && decide (9 < c.x))
    | [] => true
  hasHess := true

/-- In a build without assertions a failing evaluation of the starting point does not end the run; and
in any build one in soft restoration does not: the solver goes on with undefined values. -/
theorem C50_failure_false :
    (∃ s0, start limitedUser false ⟨20, 0, 20, 4⟩ blank = some (false, s0) ∧ s0.f = none) ∧
    ∀ asserts, ∃ s0 s', start limitedUser asserts ⟨1, 0, 2, 4⟩ blank = some (true, s0) ∧
      iteration limitedUser asserts ⟨[⟨5, []⟩], .soft (20, 0) []⟩ s0 = .next s' ∧ s'.cur.1 = 20 ∧
      s'.f = none ∧ s'.cd = some 2 := by
  refine ⟨⟨_, rfl, rfl⟩, fun asserts => ?_⟩
  cases asserts
  · exact ⟨_, _, rfl, rfl, rfl, rfl, rfl⟩
  · exact ⟨_, _, rfl, rfl, rfl, rfl, rfl⟩

/-! ### Failures are noticed by the evaluation itself -/

/-- Between the calls `old` and the calls `new` the user's function `fn` was called at `x` and answered
that it succeeded. -/
def Succeeded (U : User X Y) (old new : List (Call X Y)) (fn : Fn) (x : X) : Prop :=
  ∃ h pre, h.fn = fn ∧ h.x = x ∧ U.ok (h :: pre) = true ∧ old <:+ pre ∧ (h :: pre) <:+ new

theorem succeeded_call (U : User X Y) (fn : Fn) (x : X) (nx : Bool) (y : Option Y) (s : St X Y)
    (h : (call U fn x nx y s).1 = true) : Succeeded U s.log (call U fn x nx y s).2.log fn x :=
  ⟨⟨fn, x, nx, y⟩, s.log, rfl, rfl, h, List.suffix_refl _, List.suffix_refl _⟩

theorem succeeded_mono {U : User X Y} {o o' n n' : List (Call X Y)} {fn : Fn} {x : X}
    (h : Succeeded U o n fn x) (ho : o' <:+ o) (hn : n <:+ n') : Succeeded U o' n' fn x := by
  obtain ⟨c, pre, h1, h2, h3, h4, h5⟩ := h
  exact ⟨c, pre, h1, h2, h3, ho.trans h4, h5.trans hn⟩

theorem call_suffix (U : User X Y) (fn : Fn) (x : X) (nx : Bool) (y : Option Y) (s : St X Y) :
    s.log <:+ (call U fn x nx y s).2.log := List.suffix_cons _ _

theorem both_succeeded (U : User X Y) (e i a : Fn) (x : X) (nx : Bool) (s : St X Y) :
    s.log <:+ (evalBoth U e i a x nx s).2.log ∧
    ((evalBoth U e i a x nx s).1 = true →
      (Succeeded U s.log (evalBoth U e i a x nx s).2.log e x ∧
        Succeeded U s.log (evalBoth U e i a x nx s).2.log i x) ∨
      Succeeded U s.log (evalBoth U e i a x nx s).2.log a x) := by
  have hc : ∀ (fn : Fn) (s t : St X Y) (b : Bool), call U fn x nx none s = (b, t) →
      s.log <:+ t.log ∧ (b = true → Succeeded U s.log t.log fn x) := by
    intro fn s t b h
    have h1 : (call U fn x nx none s).1 = b := by rw [h]
    have h2 : (call U fn x nx none s).2 = t := by rw [h]
    subst h1; subst h2
    exact ⟨call_suffix .., succeeded_call U fn x nx none s⟩
  unfold evalBoth
  rcases s.consType with _ | _ | _
  · simp only
    rcases h : call U e x nx none s with ⟨_ | _, t⟩
    · obtain ⟨h1, -⟩ := hc _ _ _ _ h
      simp only
      rcases h' : call U i x nx none t with ⟨_ | _, u⟩
      · obtain ⟨h2, -⟩ := hc _ _ _ _ h'
        obtain ⟨h3, h4⟩ := hc a { u with consType := some true } _ _ rfl
        exact ⟨(h1.trans h2).trans h3, fun q => Or.inr (succeeded_mono (h4 q) (h1.trans h2)
          (List.suffix_refl _))⟩
      · obtain ⟨h2, -⟩ := hc _ _ _ _ h'
        exact ⟨h1.trans h2, fun q => by simp at q⟩
    · obtain ⟨h1, h2⟩ := hc _ _ _ _ h
      obtain ⟨h3, h4⟩ := hc i { t with consType := some false } _ _ rfl
      exact ⟨h1.trans h3, fun q => Or.inl ⟨succeeded_mono (h2 rfl) (List.suffix_refl _) h3,
        succeeded_mono (h4 q) h1 (List.suffix_refl _)⟩⟩
  · simp only [andThen]
    rcases h : call U e x nx none s with ⟨_ | _, t⟩
    · exact ⟨(hc _ _ _ _ h).1, fun q => by simp at q⟩
    · obtain ⟨h1, h2⟩ := hc _ _ _ _ h
      obtain ⟨h3, h4⟩ := hc i t _ _ rfl
      exact ⟨h1.trans h3, fun q => Or.inl ⟨succeeded_mono (h2 rfl) (List.suffix_refl _) h3,
        succeeded_mono (h4 q) h1 (List.suffix_refl _)⟩⟩
  · obtain ⟨h3, h4⟩ := hc a s _ _ rfl
    exact ⟨h3, fun q => Or.inr (h4 q)⟩

/-- An evaluation only adds calls, and if it reports success then `P` holds of the calls before and
after. -/
def Ev (P : List (Call X Y) → List (Call X Y) → Prop) (e : St X Y → Bool × St X Y) : Prop :=
  (∀ o o' n n', P o n → o' <:+ o → n <:+ n' → P o' n') ∧
    ∀ s, s.log <:+ (e s).2.log ∧ ((e s).1 = true → P s.log (e s).2.log)

theorem ev_andThen {P Q : List (Call X Y) → List (Call X Y) → Prop} {a b : St X Y → Bool × St X Y}
    (ha : Ev P a) (hb : Ev Q b) : Ev (fun o n => P o n ∧ Q o n) (andThen a b) := by
  refine ⟨fun o o' n n' h h1 h2 => ⟨ha.1 _ _ _ _ h.1 h1 h2, hb.1 _ _ _ _ h.2 h1 h2⟩, fun s => ?_⟩
  unfold andThen
  obtain ⟨h1, h2⟩ := ha.2 s
  rcases h : a s with ⟨_ | _, t⟩
  · rw [h] at h1
    exact ⟨h1, fun q => by simp at q⟩
  · rw [h] at h1 h2
    obtain ⟨h3, h4⟩ := hb.2 t
    exact ⟨h1.trans h3, fun q => ⟨ha.1 _ _ _ _ (h2 rfl) (List.suffix_refl _) h3,
      hb.1 _ _ _ _ (h4 q) h1 (List.suffix_refl _)⟩⟩

theorem ev_call (U : User X Y) (fn : Fn) (x : X) (nx : Bool) (y : Option Y) :
    Ev (fun o n => Succeeded U o n fn x) (call U fn x nx y) :=
  ⟨fun _ _ _ _ h => succeeded_mono h, fun s => ⟨call_suffix .., succeeded_call U fn x nx y s⟩⟩

theorem ev_both (U : User X Y) (e i a : Fn) (x : X) (nx : Bool) :
    Ev (fun o n => (Succeeded U o n e x ∧ Succeeded U o n i x) ∨ Succeeded U o n a x)
      (evalBoth U e i a x nx) :=
  ⟨fun _ _ _ _ h h1 h2 => h.imp (fun h => ⟨succeeded_mono h.1 h1 h2, succeeded_mono h.2 h1 h2⟩)
    (fun h => succeeded_mono h h1 h2), fun s => both_succeeded U e i a x nx s⟩

theorem ev_map {P : List (Call X Y) → List (Call X Y) → Prop} {a : St X Y → Bool × St X Y}
    (ha : Ev P a) (k : St X Y → Bool × St X Y) (hk : ∀ s, (k s).2.log = (a s).2.log)
    (hk' : ∀ s, (k s).1 = (a s).1) : Ev P k :=
  ⟨ha.1, fun s => by rw [hk, hk']; exact ha.2 s⟩

/-- **C50, failures.** The evaluation at a point reports success only if in the course of it the user
answered "success" at this point for the objective, the gradient, the constraints (both separate
functions, or the one for all) and the Jacobian (likewise). -/
theorem C50_success_means_all_succeeded (U : User X Y) (x : X) (s : St X Y)
    (h : (evalNoHess U x s).1 = true) :
    let S := fun fn => Succeeded U s.log (evalNoHess U x s).2.log fn x
    S .obj ∧ S .grad ∧ ((S .consEq ∧ S .consIneq) ∨ S .consAll) ∧
      ((S .jacEq ∧ S .jacIneq) ∨ S .jacAll) := by
  have key : Ev (fun o n => Succeeded U o n .obj x ∧ Succeeded U o n .grad x ∧
      ((Succeeded U o n .consEq x ∧ Succeeded U o n .consIneq x) ∨ Succeeded U o n .consAll x) ∧
      ((Succeeded U o n .jacEq x ∧ Succeeded U o n .jacIneq x) ∨ Succeeded U o n .jacAll x))
      (evalNoHess U x) := by
    unfold evalNoHess
    refine ev_andThen (ev_map (ev_call U .obj x true none) _ ?_ ?_) (ev_andThen
      (ev_map (ev_call U .grad x false none) _ ?_ ?_) (ev_andThen
        (ev_map (ev_both U .consEq .consIneq .consAll x false) _ ?_ ?_)
        (ev_map (ev_both U .jacEq .jacIneq .jacAll x false) _ ?_ ?_))) <;> exact fun _ => rfl
  exact (key.2 s).2 h

/-- The same for the evaluation of a trial point: objective and constraints. -/
theorem C50_trial_success_means_all_succeeded (U : User X Y) (s : St X Y)
    (h : (evalFunc U s).1 = true) :
    let S := fun fn => Succeeded U s.log (evalFunc U s).2.log fn s.trial.1
    S .obj ∧ ((S .consEq ∧ S .consIneq) ∨ S .consAll) := by
  have h' : (andThen (fun s' => let r := call U .obj s.trial.1 true none s'
                    (r.1, { r.2 with ft := stored r.1 s.trial.1 }))
    (fun s' => let r := evalCD U s.trial.1 false s'
              (r.1, { r.2 with cdt := stored r.1 s.trial.1 })) s) = evalFunc U s := by
    unfold evalFunc andThen
    simp only [call]
    split
    · rename_i h1
      simp only [Prod.mk.injEq] at h1
      simp [h1.1, ← h1.2]
    · rename_i h1
      simp only [Prod.mk.injEq] at h1
      simp [h1.1, ← h1.2]
  rw [← h'] at h ⊢
  refine ((ev_andThen (P := fun o n => Succeeded U o n .obj s.trial.1)
    (Q := fun o n => (Succeeded U o n .consEq s.trial.1 ∧ Succeeded U o n .consIneq s.trial.1) ∨
      Succeeded U o n .consAll s.trial.1) ?_ ?_).2 s).2 h
  · exact ev_map (ev_call U .obj s.trial.1 true none) _ (fun _ => rfl) fun _ => rfl
  · exact ev_map (ev_both U .consEq .consIneq .consAll s.trial.1 false) _ (fun _ => rfl) fun _ => rfl

/-- The user of the restoration problem (separate functions fail, the one for all succeeds): success. -/
example : (evalNoHess (⟨fun l => match l with
    | c :: _ => !(c.fn == .consEq || c.fn == .consIneq || c.fn == .jacEq || c.fn == .jacIneq)
    | [] => true, true⟩ : User ℕ ℕ) 7 blank).1 = true := by decide

/-- A user whose equalities fail at every point and whose inequalities do not: failure. -/
example : (evalNoHess (⟨fun l => match l with
    | c :: _ => !(c.fn == .consEq)
    | [] => true, true⟩ : User ℕ ℕ) 7 blank).1 = false := by decide

end Hiop.Evals
