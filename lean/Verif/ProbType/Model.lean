import Mathlib.Data.List.Basic
import Mathlib.Logic.Function.Basic

/-!
# Model of the declared problem type

Source: `src/Optimization/hiopNlpFormulation.cpp`: the type asked for with `get_prob_info` (232) and the early returns of the
evaluations of derivatives (757-760, 989-992, 1451-1454, 1474-1477, 1548-1551, 1586-1589, 1690-1693, 1727-1730, 1817-1819, 1888-1891, 1925-1928,
2031-2033). The evaluations themselves are in `Verif/Nlp` and `Verif/Evals`; here they are arbitrary functions of their
arguments (point, and for the Hessian the multipliers), which may fail.
-/

namespace Hiop.ProbType

/-- `NonlinearityType`, hiopInterface.hpp:138. -/
inductive Kind
  | linear
  | quadratic
  | nonlinear
  deriving DecidableEq

/-- What is evaluated: `eval_grad_f`, hiopNlpFormulation.cpp:755; `eval_Jac_c`, 1448, 1546, 1688, 1886; `eval_Jac_d`, 1471, 1584, 1725,
1923; `eval_Hess_Lagr`, 1809, 2023. (`eval_Jac_c_d`, 987, is `jacC` and `jacD` with the same test.) -/
inductive Deriv
  | gradF
  | jacC
  | jacD
  | hess
  deriving DecidableEq

/-- The members `prob_type_` and `nlp_evaluated_`, hiopNlpFormulation.hpp:349, hiopNlpFormulation.hpp:352. -/
structure Form where
  type : Kind
  evaluated : Bool

/-- The constructor, hiopNlpFormulation.cpp:77-78. -/
def Form.new : Form := ⟨.nonlinear, false⟩

/-- `finalizeInitialization`, hiopNlpFormulation.cpp:232: only the type is asked for; the user's function gets the member by
reference and may leave it alone. (Its return value is only asserted, 233.) -/
def Form.finalize (f : Form) (answer : Kind → Kind) : Form := { f with type := answer f.type }

/-- `get_prob_info` of the feasibility problems over a problem of type `base`, hiopFRProb.cpp:174-181, 815-822, 1534-1541. -/
def frInfo (base : Kind) (type : Kind) : Kind := if base ≠ .nonlinear then .quadratic else type

/-- The tests in front of the evaluations. Code: hiopNlpFormulation.cpp:757-760, 1451-1454, 1474-1477, 1548-1551, 1586-1589, 1690-1693, 1727-1730,
1888-1891, 1925-1928 (gradient and Jacobians), 1817-1819, 2031-2033 (Hessian). -/
def Form.skips (f : Form) : Deriv → Bool
  | .hess => decide (f.type = .linear) && f.evaluated
  | _ => (decide (f.type = .linear) || decide (f.type = .quadratic)) && f.evaluated

variable {X D : Type*}

/-- One evaluation into the caller's object: `user` gives the answer and whether it succeeded; the result is the
formulation (no evaluation changes it), the objects, the value returned and whether the user was called. Code:
hiopNlpFormulation.cpp:755-773, 1546-1582, 1584-1621, 1688-1723, 1725-1760, 1809-1862, 1886-1921, 1923-1958, 2023-2100. -/
def Form.eval (f : Form) (user : Deriv → X → D × Bool) (k : Deriv) (x : X) (objs : Deriv → D) :
    Form × (Deriv → D) × Bool × Bool :=
  if f.skips k then (f, objs, true, false)
  else (f, Function.update objs k (user k x).1, (user k x).2, true)

/-- What happens to a formulation: it is initialised (again, before each solve with new bounds), or something is
evaluated. -/
inductive Op (X : Type*)
  | finalize (answer : Kind → Kind)
  | eval (k : Deriv) (x : X)

/-- A history: after each evaluation the objects, the value returned and whether the user was called. Code:
hiopNlpFormulation.cpp:198-520 (initialisation), hiopAlgFilterIPM.cpp:443-536 (evaluations). -/
def Form.run (f : Form) (user : Deriv → X → D × Bool) : (Deriv → D) → List (Op X) → List ((Deriv → D) × Bool × Bool)
  | _, [] => []
  | objs, .finalize a :: cs => Form.run (f.finalize a) user objs cs
  | objs, .eval k x :: cs =>
    let r := f.eval user k x objs
    r.2 :: Form.run r.1 user r.2.1 cs

end Hiop.ProbType
