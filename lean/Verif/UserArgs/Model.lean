import Verif.Nlp.Model
import Verif.Evals.Model

/-!
# What the evaluation functions hand to the user's functions

Source: `src/Optimization/hiopNlpFormulation.cpp` (`eval_f`, `eval_grad_f`, `eval_c`, `eval_d`,
`eval_c_d`, and the Jacobians and Hessians of the dense, mixed dense-sparse and sparse classes).

For every evaluation the solver asks for: the argument `n` and the array `x` the user's function gets,
with the buffer of the remover of fixed variables as state. The remover is the one of `Verif/Nlp`; the
function and the flag `new_x` are those of `Verif/Evals`. Other transformations (relaxations, scaling)
return `x` as it is (hiopNlpTransforms.hpp:94) and are left out. One rank.
-/

namespace Hiop.UserArgs

open Hiop.Vec Hiop.Nlp

variable {K : Type} [Field K] [LinearOrder K] {n : ℕ} {Y : Type}

/-- The classes of problems: `hiopNlpDenseConstraints`, `hiopNlpMDS`, `hiopNlpSparse` (and its subclass
`hiopNlpSparseIneq`, which inherits all evaluations).
Code: hiopNlpFormulation.hpp:428, hiopNlpFormulation.hpp:485, hiopNlpFormulation.hpp:565, 657. -/
inductive Cls
  | dense
  | mds
  | sparse
  deriving DecidableEq

/-- The transformation of the variables: none, or the remover of fixed variables, appended only if
there are fixed variables and `fixed_var = remove`. Code: hiopNlpFormulation.cpp:268-338. -/
inductive Trans (K : Type) (n : ℕ)
  | none
  | removed (R : Remover K n)

/-- `n_vars_`, the number of the solver's variables. Code: hiopNlpFormulation.cpp:210 (the user's
number), hiopNlpFormulation.cpp:292 (`rs_n`). -/
def Trans.nVars : Trans K n → ℕ
  | .none => n
  | .removed R => n - R.nFixed

/-- `nlp_transformations_.n_pre()`, the number of the user's variables.
Code: hiopNlpTransforms.hpp:612-625 and 169. -/
def Trans.nPre (_ : Trans K n) : ℕ := n

/-- `nlp_transformations_.apply_inv_to_x`, hiopNlpTransforms.hpp:642-649, 175-181 and 94: the vector the user
gets, and the buffer `x_fs` afterwards. Outcome `none`: access outside an array. -/
def Trans.invX (t : Trans K n) (buf : RVec K n) (x : RVec K t.nVars) (newX : Bool) :
    Option (RVec K n × RVec K n) :=
  match t, x with
  | .none, x => some (x, buf)
  | .removed R, x => (R.invX buf x newX).map fun v => (v, v)

/-- What one call hands to the user: function, argument `n`, array `x`.
Code: hiopInterface.hpp:194, 534, 744 (the functions of the interface). -/
structure Given (K : Type) where
  fn : Evals.Fn
  n : ℕ
  x : List K

/-- One evaluation: the call of the user's function, if any, and the buffer afterwards. Objective,
gradient and constraints, hiopNlpFormulation.cpp:743-774, 883-986: `n_pre()` and the transformed point.
Jacobians: `n_pre()` in the dense class (1460, 1483, 1516, 1569, 1607), `n_vars_` in the others (1707,
1744, 1785, 1901, 1939, 1984, 1995), with the transformed point. Hessian: none in the dense class
(hiopNlpFormulation.hpp:446-456), `n_vars_` and the solver's own `x` in the others (1845, 2062, 2076),
which do not touch the buffer. The first sparse Jacobian and Hessian make two calls with the same `n`
and `x` (1984-1995, 2062-2076), one here. -/
def give (c : Cls) (t : Trans K n) (fn : Evals.Fn) (x : RVec K t.nVars) (newX : Bool)
    (buf : RVec K n) : Option (Option (Given K) × RVec K n) :=
  match fn with
  | .hess =>
    match c with
    | .dense => some (none, buf)
    | _ => some (some ⟨fn, t.nVars, List.ofFn x⟩, buf)
  | .jacEq | .jacIneq | .jacAll =>
    (t.invX buf x newX).map fun p =>
      (some ⟨fn, if c = .dense then t.nPre else t.nVars, List.ofFn p.1⟩, p.2)
  | _ => (t.invX buf x newX).map fun p => (some ⟨fn, t.nPre, List.ofFn p.1⟩, p.2)

/-- A sequence of evaluations (oldest first); for each, what the user got.
Code: hiopNlpFormulation.cpp:743-774, 883-1033, one after the other. -/
def gives (c : Cls) (t : Trans K n) : RVec K n → List (Evals.Call (RVec K t.nVars) Y) →
    Option (List (Option (Given K)))
  | _, [] => some []
  | buf, a :: l =>
    (give c t a.fn a.x a.newX buf).bind fun r => (gives c t r.2 l).map fun gs => r.1 :: gs

/-- The assertion of the functions that allocate the Jacobians of a mixed dense-sparse problem: the
sizes of the user's two blocks against `n_vars_`. Code: hiopNlpFormulation.hpp:518-536. -/
def mdsAllocOk (t : Trans K n) (nxSparse nxDense : ℕ) : Bool := t.nVars == nxSparse + nxDense

/-- The assertion of `hiopNlpSparse::finalizeInitialization`, hiopNlpFormulation.cpp:2099-2110, in a
second initialization: the user's number against the `n_vars_` left by the first one. The constructor
of the solver initializes (hiopAlgFilterIPM.cpp:102), `run` does so again (hiopAlgFilterIPM.cpp:2105). -/
def sparseReinitOk (t : Trans K n) (nx : ℕ) : Bool := nx == t.nVars

end Hiop.UserArgs
