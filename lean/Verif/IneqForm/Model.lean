import Verif.Nlp.Bounds
import Verif.Nlp.Relax

/-!
# The formulation without equalities

Source: `hiopNlpSparseIneq` (`src/Optimization/hiopNlpFormulation.cpp`, `.hpp`), used with the condensed sparse linear
system: equalities become two-sided inequalities with slightly relaxed bounds.

Arrays filled from the front are lists. `double` is an ordered field. One rank (the class is serial).
-/

namespace Hiop.IneqForm

open Hiop.Vec Hiop.Nlp

variable {K : Type*} [Field K] [LinearOrder K] {m : ℕ}

/-- State of the loop: `cons_ineq_mapping`, `dl_vec`, `du_vec`, `n_cons_eq_origNLP_`. Code: hiopNlpFormulation.cpp:592-610. -/
structure Acc (K : Type*) (m : ℕ) where
  map : List (Fin m)
  dl : List K
  du : List K
  nEq : ℕ

/-- Body of the loop, hiopNlpFormulation.cpp:2195-2214 (types of the constraints, copied alongside, and the
`HIOP_DEEPCHECKS` assertion are left out). -/
def body (e : K) (gl gu : RVec K m) (s : Acc K m) (i : Fin m) : Acc K m :=
  let s := { s with map := s.map ++ [i] }
  if gl i = gu i then
    let r := e * max |gl i| 1
    { s with dl := s.dl ++ [gl i - r], du := s.du ++ [gu i + r], nEq := s.nEq + 1 }
  else { s with dl := s.dl ++ [gl i], du := s.du ++ [gu i] }

/-- What `process_constraints` leaves in the formulation: maps, bounds, indicators and counters. Code: hiopNlpFormulation.cpp:524-670. -/
structure Res (K : Type*) (m : ℕ) where
  eqMap : List (Fin m)
  cRhs : List K
  ineqMap : List (Fin m)
  dl : List K
  du : List K
  info : IneqInfo K
  nEqOrig : ℕ

/-- `hiopNlpSparseIneq::process_constraints`, hiopNlpFormulation.cpp:2133-2289, `e` the option `eq_relax_factor`. The
last loop (2224-2251) is the one of the general class. -/
def processConstraints (e : K) (gl gu : RVec K m) : Res K m :=
  let s := (List.finRange m).foldl (body e gl gu) ⟨[], [], [], 0⟩
  { eqMap := [], cRhs := [], ineqMap := s.map, dl := s.dl, du := s.du, info := ineqInfo s.dl s.du, nEqOrig := s.nEq }

/-- Numbers of nonzeros: equality Jacobian, inequality Jacobian. `finalizeInitialization`,
hiopNlpFormulation.cpp:2115-2131. -/
def nnz (eq ineq : ℕ) : ℕ × ℕ := (0, ineq + eq)

end Hiop.IneqForm
