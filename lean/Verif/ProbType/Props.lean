import Verif.ProbType.Model
import Mathlib.Tactic.NormNum
import Mathlib.Data.Real.Basic
import Mathlib.Algebra.BigOperators.Fin
import Mathlib.Tactic.Linarith
import Mathlib.Tactic.Ring

/-!
# C87: the declared type of the problem does not change what the solver computes

Specification: `expected` is the history in which every evaluation calls the user at its own arguments.
-/

namespace Hiop.ProbType

variable {X D : Type*}

/-- Every evaluation calls the user and stores the answer. -/
def expected (user : Deriv → X → D × Bool) : (Deriv → D) → List (Op X) → List ((Deriv → D) × Bool × Bool)
  | _, [] => []
  | objs, .finalize _ :: cs => expected user objs cs
  | objs, .eval k x :: cs =>
    let o := fun d => if d = k then (user k x).1 else objs d
    (o, (user k x).2, true) :: expected user o cs

theorem run_expected (user : Deriv → X → D × Bool) (cs : List (Op X)) :
    ∀ (f : Form) (_ : f.evaluated = false) objs, f.run user objs cs = expected user objs cs := by
  induction cs with
  | nil => intro _ _ _; rfl
  | cons c cs ih =>
    intro f hf objs
    cases c with
    | finalize a => exact ih (f.finalize a) hf objs
    | eval k x =>
      have hs : f.skips k = false := by cases k <;> simp [Form.skips, hf]
      have hu : Function.update objs k (user k x).1 = fun d => if d = k then (user k x).1 else objs d := by
        funext d
        simp only [Function.update_apply]
      simp only [Form.run, Form.eval, hs, Bool.false_eq_true, if_false, expected]
      rw [ih _ hf, hu]

/-- **C87.** Whatever type the user declares at each initialisation, over every history of initialisations and
evaluations each object holds the user's answer at the arguments of its last evaluation, every evaluation calls the user,
and failures are reported. -/
theorem C87_every_evaluation (user : Deriv → X → D × Bool) (objs : Deriv → D) (cs : List (Op X)) :
    Form.new.run user objs cs = expected user objs cs :=
  run_expected user cs _ rfl objs

/-- Two histories that differ in the declared types only. -/
def SameButTypes : List (Op X) → List (Op X) → Prop :=
  List.Forall₂ fun a b => match a, b with
    | .finalize _, .finalize _ => True
    | .eval k x, .eval k' x' => k = k' ∧ x = x'
    | _, _ => False

/-- **C87, the type.** Histories that differ in the declared types only give the same results and the same calls. -/
theorem C87_type_irrelevant (user : Deriv → X → D × Bool) (objs : Deriv → D) (cs cs' : List (Op X))
    (h : SameButTypes cs cs') : Form.new.run user objs cs = Form.new.run user objs cs' := by
  rw [C87_every_evaluation, C87_every_evaluation]
  induction h generalizing objs with
  | nil => rfl
  | @cons a b l l' hab _ ih =>
    cases a <;> cases b
    · exact ih objs
    · exact hab.elim
    · exact hab.elim
    · obtain ⟨rfl, rfl⟩ := hab
      simp only [expected]
      rw [ih]

/-- **C87, feasibility problems.** The restoration problem over a problem declared linear or quadratic is declared
quadratic, over a nonlinear one nonlinear; so is the restoration problem of a restoration problem. -/
theorem C87_restoration_type (t : Kind) :
    (Form.new.finalize (frInfo t)).type = (if t = .nonlinear then .nonlinear else .quadratic) ∧
    (Form.new.finalize (frInfo (Form.new.finalize (frInfo t)).type)).type = (Form.new.finalize (frInfo t)).type := by
  cases t <;> exact ⟨rfl, rfl⟩

/-- **C87, no savings.** Constant derivatives are not evaluated only once: a declared-linear problem evaluated twice calls
the user twice. -/
theorem C87_evaluated_once_refuted (user : Deriv → X → D × Bool) (objs : Deriv → D) (x : X) :
    ∃ a b, Form.new.run user objs [.finalize (fun _ => .linear), .eval .gradF x, .eval .gradF x] = [(a, (user .gradF x).2, true),
      (b, (user .gradF x).2, true)] := by
  rw [C87_every_evaluation]
  exact ⟨_, _, rfl⟩

/-- **C87, the test for linear problems** would be sound: once all objects hold the user's derivatives and these do not
depend on the arguments, skipping evaluations leaves the derivatives at any arguments. -/
theorem C87_linear_test_sound (user : Deriv → X → D × Bool) (hc : ∀ k x y, (user k x).1 = (user k y).1)
    (objs : Deriv → D) (x0 : X) (h0 : ∀ k, objs k = (user k x0).1) (cs : List (Deriv × X)) :
    ∀ r ∈ Form.run ⟨.linear, true⟩ user objs (cs.map fun c => .eval c.1 c.2), ∀ k x, r.1 k = (user k x).1 := by
  induction cs with
  | nil => intro r hr; simp [Form.run] at hr
  | cons c cs ih =>
    obtain ⟨k, x⟩ := c
    intro r hr
    have hs : (⟨.linear, true⟩ : Form).skips k = true := by cases k <;> rfl
    simp only [List.map_cons, Form.run, Form.eval, hs, if_true, List.mem_cons] at hr
    rcases hr with rfl | hr
    · intro k' x'
      exact (h0 k').trans (hc _ _ _)
    · exact ih r hr

/-- **C87, the test for quadratic problems** would be wrong, were the flag ever set: the gradient of a quadratic
objective is not constant. Here `f(x) = x^2`, evaluated at 1 and, with the flag set, at 2. -/
theorem C87_quadratic_test_refuted :
    ∃ (f : ℝ → ℝ) (user : Deriv → ℝ → ℝ × Bool),
      (∀ x d, f (x + d) = f x + (user .gradF x).1 * d + d ^ 2) ∧
      ∃ objs : Deriv → ℝ, objs .gradF = (user .gradF 1).1 ∧
        ∃ r, Form.run ⟨.quadratic, true⟩ user objs [.eval .gradF 2] = [r] ∧ r.2.1 = true ∧ r.1 .gradF ≠ (user .gradF 2).1 := by
  refine ⟨fun x => x ^ 2, fun _ x => (2 * x, true), fun x d => by ring, fun _ => 2, by norm_num, _, rfl, rfl, ?_⟩
  show (2 : ℝ) ≠ 2 * 2
  norm_num

/-! ## The hypotheses are met -/

-- A linear objective `3 x + 1` with derivative 3.
example : ∃ (user : Deriv → ℝ → ℝ × Bool) (objs : Deriv → ℝ), (∀ k x y, (user k x).1 = (user k y).1) ∧
    ∀ k, objs k = (user k 5).1 := ⟨fun _ _ => (3, true), fun _ => 3, fun _ _ _ => rfl, fun _ => rfl⟩

-- A problem declared quadratic, evaluated at 1 and 2: the gradient at 2 is stored.
example : ((Form.new.run (fun _ (x : ℕ) => (2 * x, true)) (fun _ => 0)
    [.finalize (fun _ => .quadratic), .eval .gradF 1, .eval .gradF 2])[1]?.map fun r => r.1 .gradF) = some 4 := rfl

example : SameButTypes [.finalize (fun _ => .quadratic), .eval .gradF 1, .eval .hess 2]
    [.finalize (fun t => t), .eval .gradF 1, .eval .hess 2] :=
  .cons trivial (.cons ⟨rfl, rfl⟩ (.cons ⟨rfl, rfl⟩ .nil))

end Hiop.ProbType
