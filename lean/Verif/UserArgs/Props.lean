import Verif.UserArgs.Model
import Verif.Nlp.Remover
import Verif.Evals.Props

/-!
# C90: every function of the user gets a point of the user's problem
-/

set_option linter.unusedSectionVars false

namespace Hiop.UserArgs

open Hiop.Vec Hiop.Nlp

variable {K : Type} [Field K] [LinearOrder K] [IsStrictOrderedRing K] {n : ℕ} {Y : Type}

/-! ## Specification -/

/-- The array `a` is the user's point for the solver's point `x`, when the variables with lower and
upper bound within the tolerance are removed: one entry per variable of the user, the fixed variables
at their value, the others, in order, at the solver's. -/
def IsUserPoint (tol : K) (xl xu : RVec K n) (x : List K) (a : List K) : Prop :=
  ∃ v : RVec K n, a = List.ofFn v ∧ (∀ i, Close tol xl xu i → v i = xl i) ∧
    (freeIdx tol xl xu).map v = x

/-- The call answers the evaluation that was asked for, with the user's number of variables and the
user's point. -/
def Right (tol : K) (xl xu : RVec K n) {r : ℕ} (a : Evals.Call (RVec K r) Y) (g : Given K) : Prop :=
  g.fn = a.fn ∧ g.n = n ∧ IsUserPoint tol xl xu (List.ofFn a.x) g.x

/-- The same but for the number of variables. -/
def RightPoint (tol : K) (xl xu : RVec K n) {r : ℕ} (a : Evals.Call (RVec K r) Y) (g : Given K) : Prop :=
  g.fn = a.fn ∧ IsUserPoint tol xl xu (List.ofFn a.x) g.x

/-- Evaluations of the Jacobian. -/
def IsJac (fn : Evals.Fn) : Prop := fn = .jacEq ∨ fn = .jacIneq ∨ fn = .jacAll

/-! ## Lemmas -/

/-- The call before (if any) is the newest one at `x`: `Evals.Truthful` with memory. -/
def Trf {X : Type} : Option X → List (Evals.Call X Y) → Prop
  | _, [] => True
  | p, a :: l => (a.newX = false → p = some a.x) ∧ Trf (some a.x) l

theorem trf_of_truthful {X : Type} (l : List (Evals.Call X Y)) (h : Evals.Truthful l) :
    Trf none l := by
  have gen : ∀ (l : List (Evals.Call X Y)) (a : Evals.Call X Y),
      (∀ pre b c post, a :: l = pre ++ b :: c :: post → c.newX = false → c.x = b.x) →
      Trf (some a.x) l := by
    intro l
    induction l with
    | nil => intro a _; trivial
    | cons b l ih =>
      intro a h
      refine ⟨fun hb => ?_, ih b fun pre c d post e => h (a :: pre) c d post (by rw [e]; rfl)⟩
      rw [h [] a b l rfl hb]
  cases l with
  | nil => trivial
  | cons a l =>
    exact ⟨fun hf => absurd hf (by rw [h.1 a l rfl]; simp), gen l a h.2⟩

/-- The buffer holds the user's point of `p`. -/
def Holds (tol : K) (xl xu : RVec K n) {r : ℕ} (buf : RVec K n) (p : Option (RVec K r)) : Prop :=
  ∀ x, p = some x → (∀ i, Close tol xl xu i → buf i = xl i) ∧
    (freeIdx tol xl xu).map buf = List.ofFn x

variable {tol : K} {xl xu : RVec K n} {nFixed : ℕ} {R : Remover K n}

theorem invX_right (h : mkRemover tol xl xu nFixed = some R) (buf : RVec K n)
    (p : Option (RVec K (n - R.nFixed))) (x : RVec K (n - R.nFixed)) (nx : Bool)
    (hb : Holds tol xl xu buf p) (ht : nx = false → p = some x) :
    ∃ v, (Trans.removed R).invX buf x nx = some (v, v) ∧ Holds tol xl xu v (some x) := by
  cases nx with
  | true =>
    obtain ⟨v, h1, h2, h3⟩ := C14_expand h x buf
    refine ⟨v, ?_, ?_⟩
    · show ((R.invVec x buf).map fun v => (v, v)) = _
      rw [h1]; rfl
    · intro y hy; cases hy; exact ⟨h2, h3⟩
  | false =>
    refine ⟨buf, rfl, ?_⟩
    intro y hy
    exact hb y ((ht rfl).trans hy)

/-- What is proved of one evaluation with removal: the Hessian of the classes that have one is the
exception. -/
def Good (c : Cls) (tol : K) (xl xu : RVec K n) {r : ℕ} (a : Evals.Call (RVec K r) Y) :
    Option (Given K) → Prop
  | none => c = .dense ∧ a.fn = .hess
  | some g =>
    (c = .dense → Right tol xl xu a g) ∧
    (a.fn ≠ .hess → RightPoint tol xl xu a g ∧ (¬ IsJac a.fn → g.n = n) ∧
      (IsJac a.fn → c ≠ .dense → g.n = r)) ∧
    (a.fn = .hess → g.fn = .hess ∧ g.n = r ∧ g.x = List.ofFn a.x)

theorem give_good (h : mkRemover tol xl xu nFixed = some R) (c : Cls) (buf : RVec K n)
    (p : Option (RVec K (n - R.nFixed))) (a : Evals.Call (RVec K (n - R.nFixed)) Y)
    (hb : Holds tol xl xu buf p) (ht : a.newX = false → p = some a.x)
    (hh : a.fn = .hess → a.newX = false) :
    ∃ g buf', give c (.removed R) a.fn a.x a.newX buf = some (g, buf') ∧
      Good c tol xl xu a g ∧ Holds tol xl xu buf' (some a.x) := by
  obtain ⟨fn, x, nx, y⟩ := a
  obtain ⟨v, h1, h2⟩ := invX_right h buf p x nx hb ht
  have hp : IsUserPoint tol xl xu (List.ofFn x) (List.ofFn v) :=
    ⟨v, rfl, (h2 x rfl).1, (h2 x rfl).2⟩
  by_cases hf : fn = .hess
  · subst hf
    have hnx : nx = false := hh rfl
    have hbx : Holds tol xl xu buf (some x) := by rw [← ht hnx]; exact hb
    cases c
    · exact ⟨none, buf, rfl, ⟨rfl, rfl⟩, hbx⟩
    · exact ⟨_, buf, rfl, ⟨fun e => (by cases e), fun e => absurd rfl e, fun _ => ⟨rfl, rfl, rfl⟩⟩, hbx⟩
    · exact ⟨_, buf, rfl, ⟨fun e => (by cases e), fun e => absurd rfl e, fun _ => ⟨rfl, rfl, rfl⟩⟩, hbx⟩
  · by_cases hj : IsJac fn
    · refine ⟨some ⟨fn, if c = .dense then n else n - R.nFixed, List.ofFn v⟩, v, ?_, ⟨?_, ?_, ?_⟩, h2⟩
      · rcases hj with rfl | rfl | rfl <;>
        · show Option.map _ ((Trans.removed R).invX buf x nx) = _
          rw [h1]; rfl
      · intro e; exact ⟨rfl, if_pos e, hp⟩
      · intro _; exact ⟨⟨rfl, hp⟩, fun e => absurd hj e, fun _ e => if_neg e⟩
      · intro e; exact absurd e hf
    · refine ⟨some ⟨fn, n, List.ofFn v⟩, v, ?_, ⟨?_, ?_, ?_⟩, h2⟩
      · cases fn <;> first
          | exact absurd rfl hf
          | exact absurd (Or.inl rfl) hj
          | exact absurd (Or.inr (Or.inl rfl)) hj
          | exact absurd (Or.inr (Or.inr rfl)) hj
          | (show Option.map _ ((Trans.removed R).invX buf x nx) = _
             rw [h1]; rfl)
      · intro _; exact ⟨rfl, rfl, hp⟩
      · intro _; exact ⟨⟨rfl, hp⟩, fun _ => rfl, fun e => absurd e hj⟩
      · intro e; exact absurd e hf

theorem gives_good (h : mkRemover tol xl xu nFixed = some R) (c : Cls) :
    ∀ (l : List (Evals.Call (RVec K (n - R.nFixed)) Y)) (buf : RVec K n)
      (p : Option (RVec K (n - R.nFixed))),
      Holds tol xl xu buf p → Trf p l → (∀ a ∈ l, a.fn = .hess → a.newX = false) →
      ∃ gs, gives c (.removed R) buf l = some gs ∧ List.Forall₂ (Good c tol xl xu) l gs := by
  intro l
  induction l with
  | nil => intro buf p _ _ _; exact ⟨[], rfl, .nil⟩
  | cons a l ih =>
    intro buf p hb ht hh
    obtain ⟨g, buf', h1, h2, h3⟩ := give_good h c buf p a hb ht.1 (hh a (by simp))
    obtain ⟨gs, h4, h5⟩ := ih buf' (some a.x) h3 ht.2 fun b hb => hh b (by simp [hb])
    refine ⟨g :: gs, ?_, .cons h2 h5⟩
    show Option.bind (give c (.removed R) a.fn a.x a.newX buf) _ = _
    rw [h1]
    show Option.map _ (gives c (.removed R) buf' l) = _
    rw [h4]; rfl

/-! ## Properties -/

/-- **C90, nothing removed.** In every class, whatever the flags and the buffer, every evaluation
hands the user the number of variables and the solver's point itself. -/
theorem C90_nothing_removed (c : Cls) (buf : RVec K n) (l : List (Evals.Call (RVec K n) Y)) :
    ∃ gs, gives c (.none : Trans K n) buf l = some gs ∧
      List.Forall₂ (fun (a : Evals.Call (RVec K n) Y) g =>
        g = none ∧ c = .dense ∧ a.fn = .hess ∨ g = some ⟨a.fn, n, List.ofFn a.x⟩) l gs := by
  induction l generalizing buf with
  | nil => exact ⟨[], rfl, .nil⟩
  | cons a l ih =>
    obtain ⟨gs, h1, h2⟩ := ih buf
    obtain ⟨fn, x, nx, y⟩ := a
    have key : ∃ g, give c (.none : Trans K n) fn x nx buf = some (g, buf) ∧
        (g = none ∧ c = .dense ∧ fn = .hess ∨ g = some ⟨fn, n, List.ofFn x⟩) := by
      cases fn <;> cases c <;>
        first
          | exact ⟨_, rfl, Or.inr rfl⟩
          | exact ⟨_, rfl, Or.inl ⟨rfl, rfl, rfl⟩⟩
    obtain ⟨g, h3, h4⟩ := key
    refine ⟨g :: gs, ?_, .cons h4 h2⟩
    show Option.bind (give c (.none : Trans K n) fn x nx buf) _ = _
    rw [h3]
    show Option.map _ (gives c (.none : Trans K n) buf l) = _
    rw [h1]; rfl

example : ∃ gs, gives .sparse (.none : Trans ℚ 1) (fun _ => 0)
    [(⟨.obj, fun _ => 3, true, none⟩ : Evals.Call (RVec ℚ 1) Unit)] = some gs ∧ gs.length = 1 :=
  ⟨_, rfl, rfl⟩

/-- **C90, dense problems with removal.** For every sequence of evaluations with truthful `new_x`
(C49), from any content of the buffer, every call of a user's function gets the user's number of
variables and the user's point of that evaluation; only the Hessian, which the class does not ask for,
makes no call. -/
theorem C90_dense (h : mkRemover tol xl xu nFixed = some R)
    (l : List (Evals.Call (RVec K (n - R.nFixed)) Y)) (hl : Evals.Truthful l)
    (hh : ∀ a ∈ l, a.fn = .hess → a.newX = false) (buf : RVec K n) :
    ∃ gs, gives .dense (.removed R) buf l = some gs ∧
      List.Forall₂ (fun a g => (g = none ∧ a.fn = .hess) ∨ ∃ q, g = some q ∧ Right tol xl xu a q)
        l gs := by
  obtain ⟨gs, h1, h2⟩ := gives_good h .dense l buf none (fun x hx => by cases hx)
    (trf_of_truthful l hl) hh
  refine ⟨gs, h1, h2.imp ?_⟩
  intro a g hg
  cases g with
  | none => exact Or.inl ⟨rfl, hg.2⟩
  | some q => exact Or.inr ⟨q, rfl, hg.1 rfl⟩

/-- **C90, the other classes with removal, what holds.** Objective, gradient and constraints are
evaluated with the user's number of variables at the user's point, and the Jacobians at the user's
point. Missing (false, below): the number of variables given with a Jacobian, and everything about the
Hessian. -/
theorem C90_other_classes_partial (h : mkRemover tol xl xu nFixed = some R) (c : Cls)
    (l : List (Evals.Call (RVec K (n - R.nFixed)) Y)) (hl : Evals.Truthful l)
    (hh : ∀ a ∈ l, a.fn = .hess → a.newX = false) (buf : RVec K n) :
    ∃ gs, gives c (.removed R) buf l = some gs ∧
      List.Forall₂ (fun a g => a.fn ≠ .hess → ∃ q, g = some q ∧
        (¬ IsJac a.fn → Right tol xl xu a q) ∧ RightPoint tol xl xu a q) l gs := by
  obtain ⟨gs, h1, h2⟩ := gives_good h c l buf none (fun x hx => by cases hx)
    (trf_of_truthful l hl) hh
  refine ⟨gs, h1, h2.imp ?_⟩
  intro a g hg hf
  cases g with
  | none => exact absurd hg.2 hf
  | some q =>
    obtain ⟨k1, k2, -⟩ := hg.2.1 hf
    exact ⟨q, rfl, fun e => ⟨k1.1, k2 e, k1.2⟩, k1⟩

/-- The number of variables that stay, when some variable is removed. -/
theorem nVars_lt (h : mkRemover tol xl xu nFixed = some R) (i : Fin n) (hi : Close tol xl xu i) :
    n - R.nFixed < n := by
  have h1 := (C14_setup_iff tol xl xu nFixed).mp (by rw [h]; rfl)
  have h2 : 0 < (Finset.univ.filter (Close tol xl xu)).card :=
    Finset.card_pos.mpr ⟨i, by simp [hi]⟩
  have h3 := (mkRemover_spec h).2.1
  have := i.isLt
  omega

/-- **Refuted (finding): Jacobians of mixed and sparse problems.** Whenever a variable has been
removed, every evaluation of a Jacobian, at every point and with every flag, gives the user fewer
variables than the array it comes with. -/
theorem C90_jacobian_size_refuted (h : mkRemover tol xl xu nFixed = some R) (i : Fin n)
    (hi : Close tol xl xu i) (c : Cls) (hc : c ≠ .dense) (fn : Evals.Fn) (hj : IsJac fn)
    (x : RVec K (n - R.nFixed)) (nx : Bool) (buf : RVec K n) :
    ∃ q buf', give c (.removed R) fn x nx buf = some (some q, buf') ∧ q.n < n ∧ q.x.length = n := by
  obtain ⟨v, h1⟩ : ∃ v, (Trans.removed R).invX buf x nx = some (v, v) := by
    cases nx with
    | true =>
      obtain ⟨v, h1, -⟩ := C14_expand h x buf
      refine ⟨v, ?_⟩
      show ((R.invVec x buf).map fun v => (v, v)) = _
      rw [h1]; rfl
    | false => exact ⟨buf, rfl⟩
  refine ⟨⟨fn, n - R.nFixed, List.ofFn v⟩, v, ?_, nVars_lt h i hi, by simp⟩
  have e : (if c = .dense then n else n - R.nFixed) = n - R.nFixed := if_neg hc
  rcases hj with rfl | rfl | rfl <;>
  · show Option.map _ ((Trans.removed R).invX buf x nx) = _
    rw [h1, ← e]; rfl

/-- **Refuted (finding): Hessians of mixed and sparse problems.** Whenever a variable has been
removed, every evaluation of the Hessian gives the user an array that is too short for a point of the
user's problem: a user who reads the last variable reads outside it. -/
theorem C90_hessian_point_refuted (h : mkRemover tol xl xu nFixed = some R) (i : Fin n)
    (hi : Close tol xl xu i) (c : Cls) (hc : c ≠ .dense)
    (x : RVec K (n - R.nFixed)) (nx : Bool) (buf : RVec K n) :
    ∃ q, give c (.removed R) .hess x nx buf = some (some q, buf) ∧ q.n < n ∧ q.x.length < n ∧
      ¬ IsUserPoint tol xl xu (List.ofFn x) q.x := by
  have hlt := nVars_lt h i hi
  refine ⟨⟨.hess, n - R.nFixed, List.ofFn x⟩, ?_, hlt, ?_, ?_⟩
  · cases c
    · exact absurd rfl hc
    · rfl
    · rfl
  · simpa using hlt
  · rintro ⟨v, hv, -⟩
    have := congrArg List.length hv
    simp at this
    have := i.isLt
    omega

/-- **Refuted (finding): the Hessian does not take part in `new_x`.** With removal, after a Hessian at
a new point the next function, at the same point and so with `new_x = false`, is evaluated at the old
point. Two variables, the first fixed at 5; a Hessian at 7 then the objective at 7: the user is asked
for the objective at the buffer's old content, here (5, 1). -/
theorem C90_hessian_new_x_refuted :
    ∃ R : Remover ℚ 2, mkRemover 0 ![5, 0] ![5, 9] 1 = some R ∧ ∀ x : RVec ℚ (2 - R.nFixed),
      Evals.Truthful ([⟨.hess, x, true, none⟩, ⟨.obj, x, false, none⟩] :
        List (Evals.Call (RVec ℚ (2 - R.nFixed)) Unit)) ∧
      ∃ g, gives .sparse (.removed R) ![5, 1] ([⟨.hess, x, true, none⟩, ⟨.obj, x, false, none⟩] :
        List (Evals.Call (RVec ℚ (2 - R.nFixed)) Unit)) = some [g, some ⟨.obj, 2, [5, 1]⟩] := by
  have hs : (mkRemover (0:ℚ) (![5, 0] : RVec ℚ 2) (![5, 9]) 1).isSome := by decide +kernel
  obtain ⟨R, hR⟩ := Option.isSome_iff_exists.mp hs
  refine ⟨R, hR, fun x => ⟨⟨?_, ?_⟩, ?_⟩⟩
  · intro a post e
    simp only [List.cons.injEq] at e
    rw [← e.1]
  · intro pre a b post e hb
    rcases pre with _ | ⟨p, pre⟩
    · simp only [List.nil_append, List.cons.injEq] at e
      rw [← e.1, ← e.2.1]
    · have := congrArg List.length e
      simp at this
      omega
  · exact ⟨_, rfl⟩

/-- A mixed problem whose two blocks make up all variables passes the assertion of the functions that
allocate its Jacobians exactly if no variable has been removed: with assertions, `fixed_var = remove`
ends the program for every such problem with a fixed variable. -/
theorem C90_mixed_aborts (h : mkRemover tol xl xu nFixed = some R) (ns nd : ℕ) (hn : ns + nd = n) :
    mdsAllocOk (.removed R) ns nd = true ↔ ∀ i, ¬ Close tol xl xu i := by
  have h3 := (mkRemover_spec h).2.1
  have h1 := (C14_setup_iff tol xl xu nFixed).mp (by rw [h]; rfl)
  constructor
  · intro e i hi
    have := nVars_lt h i hi
    simp only [mdsAllocOk, Trans.nVars, beq_iff_eq] at e
    omega
  · intro hall
    have : (Finset.univ.filter (Close tol xl xu)).card = 0 := by
      rw [Finset.card_eq_zero]
      ext i; simp [hall i]
    simp only [mdsAllocOk, Trans.nVars, beq_iff_eq]
    omega

/-- A sparse problem with a removed variable does not pass the assertion of a second initialization,
the user's number of variables being the same. The solver's constructor makes the first and `run` the
second: with assertions, `fixed_var = remove` ends the program in the first run. -/
theorem C90_sparse_run_aborts (h : mkRemover tol xl xu nFixed = some R) (i : Fin n)
    (hi : Close tol xl xu i) : sparseReinitOk (.removed R) n = false := by
  have := nVars_lt h i hi
  simp only [sparseReinitOk, Trans.nVars, beq_eq_false_iff_ne]
  omega

example : ∃ R : Remover ℚ 2, mkRemover 0 ![5, 0] ![5, 9] 1 = some R ∧
    Close (0:ℚ) (![5, 0] : RVec ℚ 2) ![5, 9] 0 := by
  have hs : (mkRemover (0:ℚ) (![5, 0] : RVec ℚ 2) (![5, 9]) 1).isSome := by decide +kernel
  obtain ⟨R, hR⟩ := Option.isSome_iff_exists.mp hs
  exact ⟨R, hR, by simp [Close]⟩

/-! ## Complete runs -/

/-- Hessians are asked for without `new_x`. -/
def HessOld {X : Type} (l : List (Evals.Call X Y)) : Prop := ∀ a ∈ l, a.fn = .hess → a.newX = false

/-- The evaluation keeps `HessOld`. -/
def Keeps {X : Type} (f : Evals.St X Y → Bool × Evals.St X Y) : Prop :=
  ∀ s, HessOld s.log → HessOld (f s).2.log

section
variable {X : Type} (U : Evals.User X Y)

theorem keeps_call (fn : Evals.Fn) (x : X) (nx : Bool) (y : Option Y) (h : fn = .hess → nx = false) :
    Keeps (Evals.call U fn x nx y) := by
  intro s hs a ha
  rcases List.mem_cons.mp ha with rfl | ha
  · exact h
  · exact hs a ha

theorem keeps_andThen {a b : Evals.St X Y → Bool × Evals.St X Y} (ha : Keeps a) (hb : Keeps b) :
    Keeps (Evals.andThen a b) := by
  intro s hs
  have h1 := ha s hs
  unfold Evals.andThen
  rcases e : a s with ⟨_ | _, t⟩
  · rw [e] at h1; exact h1
  · rw [e] at h1; exact hb t h1

theorem keeps_map {a : Evals.St X Y → Bool × Evals.St X Y} (ha : Keeps a)
    (g : Bool → Evals.St X Y → Evals.St X Y) (hg : ∀ b s, (g b s).log = s.log) :
    Keeps (fun s => ((a s).1, g (a s).1 (a s).2)) := by
  intro s hs
  show HessOld (g (a s).1 (a s).2).log
  rw [hg]; exact ha s hs

theorem keeps_both (e i a : Evals.Fn) (he : e ≠ .hess) (hi : i ≠ .hess) (ha : a ≠ .hess) (x : X)
    (nx : Bool) : Keeps (Evals.evalBoth U e i a x nx) := by
  have ke := keeps_call U e x nx none fun h => absurd h he
  have ki := keeps_call U i x nx none fun h => absurd h hi
  have ka := keeps_call U a x nx none fun h => absurd h ha
  intro s hs
  unfold Evals.evalBoth
  rcases s.consType with _ | _ | _
  · simp only
    have h1 := ke s hs
    rcases e1 : Evals.call U e x nx none s with ⟨_ | _, t⟩
    · rw [e1] at h1
      simp only
      have h2 := ki t h1
      rcases e2 : Evals.call U i x nx none t with ⟨_ | _, u⟩
      · rw [e2] at h2; exact ka { u with consType := some true } h2
      · rw [e2] at h2; exact h2
    · rw [e1] at h1
      exact ki { t with consType := some false } h1
  · exact keeps_andThen ke ki s hs
  · exact ka s hs

theorem keeps_cd (x : X) (nx : Bool) : Keeps (Evals.evalCD U x nx) :=
  keeps_both U _ _ _ (by decide) (by decide) (by decide) x nx

theorem keeps_jac (x : X) (nx : Bool) : Keeps (Evals.evalJac U x nx) :=
  keeps_both U _ _ _ (by decide) (by decide) (by decide) x nx

theorem keeps_hess (p : X × Y) : Keeps (Evals.evalHess U p false) := by
  intro s hs
  unfold Evals.evalHess
  split_ifs
  · exact keeps_call U _ _ _ _ (fun _ => rfl) s hs
  · exact hs

theorem keeps_noHess (x : X) : Keeps (Evals.evalNoHess U x) :=
  keeps_andThen (keeps_map (keeps_call U .obj x true none (by decide))
      (fun b s => { s with f := Evals.stored b x }) fun _ _ => rfl)
    (keeps_andThen (keeps_map (keeps_call U .grad x false none (by decide))
        (fun b s => { s with grad := Evals.stored b x }) fun _ _ => rfl)
      (keeps_andThen (keeps_map (keeps_cd U x false)
          (fun b s => { s with cd := Evals.stored b x }) fun _ _ => rfl)
        (keeps_map (keeps_jac U x false)
          (fun b s => { s with jac := Evals.stored b x }) fun _ _ => rfl)))

theorem keeps_hessOnly : Keeps (Evals.evalHessOnly U) := fun s hs => keeps_hess U s.cur s hs

theorem keeps_func : Keeps (Evals.evalFunc U) := by
  intro s hs
  unfold Evals.evalFunc
  refine keeps_andThen ?_ ?_ s hs
  · exact fun t ht => keeps_call U .obj t.trial.1 true none (by decide) t ht
  · exact fun t ht => keeps_cd U t.trial.1 false t ht

theorem keeps_deriv : Keeps (Evals.evalDeriv U) := by
  intro s hs
  unfold Evals.evalDeriv
  refine keeps_andThen ?_ (keeps_andThen ?_ ?_) s hs
  · exact fun t ht => keeps_call U .grad t.trial.1 false none (by decide) t ht
  · exact fun t ht => keeps_jac U t.trial.1 false t ht
  · exact fun t ht => keeps_hess U t.trial t ht

theorem keeps_start (asserts : Bool) (c : Evals.StartChoice X Y) (s s' : Evals.St X Y) (ok : Bool)
    (hs : HessOld s.log) (h : Evals.start U asserts c s = some (ok, s')) : HessOld s'.log := by
  unfold Evals.start at h
  have h1 := keeps_noHess U c.x0 { s with cur := (c.x0, c.y0) } hs
  rcases e1 : Evals.evalNoHess U c.x0 { s with cur := (c.x0, c.y0) } with ⟨_ | _, t⟩
  · rw [e1] at h h1; simp only at h; split_ifs at h; cases h; exact h1
  rw [e1] at h h1
  simp only at h
  have h2 := keeps_noHess U c.x1 { t with cur := (c.x1, c.y0) } h1
  rcases e2 : Evals.evalNoHess U c.x1 { t with cur := (c.x1, c.y0) } with ⟨_ | _, u⟩
  · rw [e2] at h h2; simp only at h; split_ifs at h; cases h; exact h2
  rw [e2] at h h2
  simp only at h
  have h3 := keeps_hessOnly U { u with cur := (c.x1, c.y1) } h2
  rcases e3 : Evals.evalHessOnly U { u with cur := (c.x1, c.y1) } with ⟨_ | _, v⟩
  · rw [e3] at h h3; simp only at h; split_ifs at h; cases h; exact h3
  · rw [e3] at h h3; cases h; exact h3

theorem keeps_soc (asserts : Bool) (l : List X) (s s' : Evals.St X Y) (hs : HessOld s.log)
    (h : Evals.socLoop U asserts l s = some s') : HessOld s'.log := by
  induction l generalizing s with
  | nil => cases h; exact hs
  | cons x l ih =>
    unfold Evals.socLoop at h
    have h1 := keeps_func U (Evals.setTrialX x s) hs
    rcases e : Evals.evalFunc U (Evals.setTrialX x s) with ⟨_ | _, t⟩
    · rw [e] at h h1; simp only at h; split_ifs at h; cases h; exact h1
    · rw [e] at h h1; exact ih t h1 h

theorem keeps_trials (asserts : Bool) (l : List (Evals.Trial X)) (s : Evals.St X Y)
    (hs : HessOld s.log) :
    (∀ t, Evals.trialsLoop U asserts l s = .ret t → HessOld t.log) ∧
    ∀ t, Evals.trialsLoop U asserts l s = .done t → HessOld t.log := by
  induction l generalizing s with
  | nil => exact ⟨fun t h => (by cases h), fun t h => (by cases h; exact hs)⟩
  | cons x l ih =>
    unfold Evals.trialsLoop
    have h1 := keeps_func U (Evals.setTrialX x.x s) hs
    rcases e : Evals.evalFunc U (Evals.setTrialX x.x s) with ⟨_ | _, t⟩
    · rw [e] at h1
      exact ⟨fun u h => (by cases h; exact h1), fun u h => (by cases h)⟩
    · rw [e] at h1
      simp only
      rcases e2 : Evals.socLoop U asserts x.soc t with _ | u
      · exact ⟨fun u h => (by cases h), fun u h => (by cases h)⟩
      · exact ih u (keeps_soc U asserts _ t u h1 e2)

theorem keeps_softRounds (l : List (X × Y)) : Keeps (Evals.softRounds U l) := by
  induction l with
  | nil => intro s hs; exact hs
  | cons p l ih =>
    intro s hs
    unfold Evals.softRounds
    have h1 := keeps_func U s hs
    rcases e : Evals.evalFunc U s with ⟨_ | _, t⟩
    · rw [e] at h1; exact h1
    · rw [e] at h1
      simp only
      have h2 := keeps_func U (Evals.setTrialX p.1 t) h1
      rcases e2 : Evals.evalFunc U (Evals.setTrialX p.1 t) with ⟨_ | _, u⟩
      · rw [e2] at h2; exact h2
      · rw [e2] at h2; exact ih { u with trial := p } h2

theorem keeps_soft (p : X × Y) (l : List (X × Y)) : Keeps (Evals.soft U p l) := by
  intro s hs
  unfold Evals.soft
  have h2 := keeps_func U (Evals.setTrialX p.1 { s with cdt := s.cd }) hs
  rcases e2 : Evals.evalFunc U (Evals.setTrialX p.1 { s with cdt := s.cd }) with ⟨_ | _, u⟩
  · rw [e2] at h2; exact h2
  · rw [e2] at h2; exact keeps_softRounds U l { u with trial := p } h2

theorem keeps_reset (asserts : Bool) (q : X × Y) (s s' : Evals.St X Y) (hs : HessOld s.log)
    (h : Evals.resetVar U asserts q s = some s') : HessOld s'.log := by
  unfold Evals.resetVar at h
  have g := keeps_noHess U q.1 { s with trial := q } hs
  rcases e : Evals.evalNoHess U q.1 { s with trial := q } with ⟨_ | _, u⟩
  · rw [e] at h g; simp only at h; split_ifs at h; cases h; exact g
  · rw [e] at h g; cases h; exact g

/-- The Hessians asked for inside robust restoration are asked for without `new_x`. -/
def InnerHessOld (c : Evals.Choice X Y) : Prop :=
  ∀ p more inner q, c.fin = .robust p more inner q → HessOld inner

theorem keeps_iteration (asserts : Bool) (c : Evals.Choice X Y) (hc : InnerHessOld c)
    (s s' : Evals.St X Y) (hs : HessOld s.log)
    (h : (Evals.iteration U asserts c s).state? = some s') : HessOld s'.log := by
  obtain ⟨t1, t2⟩ := keeps_trials U asserts c.trials s hs
  unfold Evals.iteration at h
  rcases e : Evals.trialsLoop U asserts c.trials s with u | _ | u
  · rw [e] at h; cases h; exact t1 _ e
  · rw [e] at h; cases h
  · rw [e] at h
    have t3 := t2 u e
    unfold Evals.finish at h
    rcases hfin : c.fin with y | ⟨p, more⟩ | ⟨p, more, inner, q⟩ | q
    · rw [hfin] at h
      simp only at h
      split_ifs at h
      · cases h; exact t3
      have g := keeps_deriv U { u with trial := (u.trial.1, y) } t3
      rcases e2 : Evals.evalDeriv U { u with trial := (u.trial.1, y) } with ⟨_ | _, v⟩
      · rw [e2] at h g; cases h; exact g
      · rw [e2] at h g; cases h; exact g
    · rw [hfin] at h
      cases h
      exact keeps_soft U p more u t3
    · rw [hfin] at h
      simp only at h
      have g := keeps_soft U p more u t3
      rcases e2 : Evals.soft U p more u with ⟨_ | _, v⟩
      · rw [e2] at h g; cases h; exact g
      · rw [e2] at h g
        simp only at h
        have hv : HessOld (inner.reverse ++ v.log) := by
          intro a ha
          rcases List.mem_append.mp ha with ha | ha
          · exact hc p more inner q hfin a (List.mem_reverse.mp ha)
          · exact g a ha
        rcases e3 : Evals.resetVar U asserts q { v with log := inner.reverse ++ v.log } with _ | w
        · rw [e3] at h; cases h
        · rw [e3] at h
          cases h
          exact keeps_reset U asserts q { v with log := inner.reverse ++ v.log } w hv e3
    · rw [hfin] at h
      simp only at h
      rcases e3 : Evals.resetVar U asserts q u with _ | w
      · rw [e3] at h; cases h
      · rw [e3] at h
        cases h
        exact keeps_reset U asserts q u w t3 e3

theorem keeps_runLoop (asserts : Bool) (cs : List (Evals.Choice X Y)) (hc : ∀ c ∈ cs, InnerHessOld c)
    (s s' : Evals.St X Y) (hs : HessOld s.log)
    (h : (Evals.runLoop U asserts cs s).2.state? = some s') : HessOld s'.log := by
  induction cs generalizing s with
  | nil => cases h; exact hs
  | cons c l ih =>
    have hl := keeps_iteration U asserts c (hc c (by simp)) s
    unfold Evals.runLoop at h
    rcases e : Evals.iteration U asserts c s with t | _ | t
    · rw [e] at h hl; cases h; exact hl s' hs rfl
    · rw [e] at h; cases h
    · rw [e] at h hl
      exact ih (fun c hc' => hc c (by simp [hc'])) t (hl t hs rfl) h

theorem run_hessOld (asserts : Bool) (sc : Evals.StartChoice X Y) (cs : List (Evals.Choice X Y))
    (hc : ∀ c ∈ cs, InnerHessOld c) (s s' : Evals.St X Y) (hs : s.log = [])
    (h : Evals.run U asserts sc cs s = some s') : HessOld s'.log := by
  unfold Evals.run at h
  rcases e : Evals.start U asserts sc s with _ | ⟨ok, t⟩
  · rw [e] at h; cases h
  · rw [e] at h
    exact keeps_runLoop U asserts cs hc t s'
      (keeps_start U asserts sc s t ok (by rw [hs]; intro a ha; cases ha) e) h

end

/-- **C90, complete runs with removal.** In every run of the solver on the reduced problem, for every
user and every course of the run (as in C49: iterations have a trial point, and the calls made inside a
restoration are truthful), all calls of the user's functions are made; on a dense problem each with the
number of variables and the point of the user's problem, on the others so for objective, gradient and
constraints, and for the Jacobians as to the point. Missing (false, above): number of variables of the
Jacobians and the Hessians of mixed and sparse problems. -/
theorem C90_run_partial (h : mkRemover tol xl xu nFixed = some R) (c : Cls)
    (U : Evals.User (RVec K (n - R.nFixed)) Y) (asserts : Bool)
    (sc : Evals.StartChoice (RVec K (n - R.nFixed)) Y)
    (cs : List (Evals.Choice (RVec K (n - R.nFixed)) Y))
    (hcs : ∀ c ∈ cs, Evals.InnerTruthful c ∧ Evals.HasTrial c ∧ InnerHessOld c)
    (s s' : Evals.St (RVec K (n - R.nFixed)) Y) (hs : s.log = [])
    (hr : Evals.run U asserts sc cs s = some s') (buf : RVec K n) :
    ∃ gs, gives c (.removed R) buf s'.log.reverse = some gs ∧
      List.Forall₂ (fun a g => a.fn ≠ .hess → ∃ q, g = some q ∧
        ((c = .dense ∨ ¬ IsJac a.fn) → Right tol xl xu a q) ∧ RightPoint tol xl xu a q)
        s'.log.reverse gs := by
  have ht := Evals.C49_new_x_partial U asserts sc cs (fun c hc => ⟨(hcs c hc).1, (hcs c hc).2.1⟩) s s'
    hs hr
  have hh := run_hessOld U asserts sc cs (fun c hc => (hcs c hc).2.2) s s' hs hr
  obtain ⟨gs, h1, h2⟩ := gives_good h c s'.log.reverse buf none (fun x hx => by cases hx)
    (trf_of_truthful _ ht) fun a ha => hh a (List.mem_reverse.mp ha)
  refine ⟨gs, h1, h2.imp ?_⟩
  intro a g hg hf
  cases g with
  | none => exact absurd hg.2 hf
  | some q =>
    obtain ⟨k1, k2, -⟩ := hg.2.1 hf
    refine ⟨q, rfl, ?_, k1⟩
    rintro (e | e)
    · exact hg.1 e
    · exact ⟨k1.1, k2 e, k1.2⟩

/-- The hypotheses are met by the run that ends after its starting procedure. -/
example {X : Type} (x : X) (y : Y) : ∃ s' : Evals.St X Y,
    Evals.run ⟨fun _ => true, false⟩ true ⟨x, y, x, y⟩ []
      ⟨(x, y), (x, y), none, none, none, none, none, none, none, none, false, []⟩ = some s' ∧
    s'.log.length = 12 := ⟨_, rfl, rfl⟩

end Hiop.UserArgs
