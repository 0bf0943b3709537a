import Mathlib.Data.List.Basic

/-!
# The calls to the user's functions and the stored values

Source: `src/Optimization/hiopAlgFilterIPM.cpp` (evaluation functions, starting procedure, main loops,
second-order correction, restoration) and `src/Optimization/hiopNlpFormulation.cpp`.

Which point every call is made at, with which `new_x`, and which point every stored value belongs to.
The numbers are not modelled: a stored value is represented by the point it was evaluated at (`none`:
undefined). Points `X` and multipliers `Y` are arbitrary; everything the linear algebra, the filter
and the tests decide is a free choice (the control flow itself is modelled in `Verif/Driver/Loop.lean`).
-/

namespace Hiop.Evals

/-- Functions of the user interface, hiopInterface.hpp: `eval_f`, `eval_grad_f`, `eval_cons` (for the
equalities, for the inequalities, for all), `eval_Jac_cons` (likewise), `eval_Hess_Lagr`. The two
calls for structure and values at the first Jacobian/Hessian evaluation of sparse problems
(hiopNlpFormulation.cpp:1980-2007, 2058-2087), made with the same arguments, are one call here. -/
inductive Fn
  | obj
  | grad
  | consEq
  | consIneq
  | consAll
  | jacEq
  | jacIneq
  | jacAll
  | hess
  deriving DecidableEq

/-- One call: function, point, `new_x`, and for the Hessian the multipliers (`new_lambda` is always
true, hiopAlgFilterIPM.cpp:486, 546, 749). -/
structure Call (X Y : Type) where
  fn : Fn
  x : X
  newX : Bool
  y : Option Y

/-- The user: the answer to the newest call (head of the list) given all earlier calls; and whether
the Hessian is evaluated by the user (`hiopNlpMDS`, `hiopNlpSparse`) or not
(`hiopNlpDenseConstraints`, hiopNlpFormulation.hpp:446-456). -/
structure User (X Y : Type) where
  ok : List (Call X Y) → Bool
  hasHess : Bool

/-- Solver state: `it_curr`, `it_trial` (primal point and constraint multipliers), `_f_nlp`,
`_f_nlp_trial`, `_c`/`_d`, `_c_trial`/`_d_trial`, `_grad_f`, `_Jac_c`/`_Jac_d`, `_Hess_Lagr`,
`cons_eval_type_` (`none`: -1, `some false`: 0, `some true`: 1), whether `solver_status_` is
`Error_In_User_Function`, and the calls, newest first. Code: hiopAlgFilterIPM.hpp:261-335. -/
structure St (X Y : Type) where
  cur : X × Y
  trial : X × Y
  f : Option X
  ft : Option X
  cd : Option X
  cdt : Option X
  grad : Option X
  jac : Option X
  hess : Option (X × Y)
  consType : Option Bool
  err : Bool
  log : List (Call X Y)

variable {X Y : Type}

/-- A call of the user's function. Code: hiopNlpFormulation.cpp:743-754, hiopNlpFormulation.cpp:755-774. -/
def call (U : User X Y) (fn : Fn) (x : X) (nx : Bool) (y : Option Y) (s : St X Y) : Bool × St X Y :=
  let log := ⟨fn, x, nx, y⟩ :: s.log
  (U.ok log, { s with log := log })

/-- First the one, then, if it succeeds, the other: `if(!a) return false; return b;`. Code: as in hiopNlpFormulation.cpp:950. -/
def andThen (a b : St X Y → Bool × St X Y) (s : St X Y) : Bool × St X Y :=
  match a s with
  | (false, s) => (false, s)
  | (true, s) => b s

/-- `eval_c_d` and `eval_Jac_c_d`, hiopNlpFormulation.cpp:925-985 and 987-1033: separate calls for
equalities and inequalities or one call for all; undecided at first, then one call exactly if both
separate calls fail. The shortcut for linear problems is never taken (`nlp_evaluated_` is never set). -/
def evalBoth (U : User X Y) (eq ineq all : Fn) (x : X) (nx : Bool) (s : St X Y) : Bool × St X Y :=
  match s.consType with
  | some false => andThen (call U eq x nx none) (call U ineq x nx none) s
  | some true => call U all x nx none s
  | none =>
    match call U eq x nx none s with
    | (true, s) => call U ineq x nx none { s with consType := some false }
    | (false, s) =>
      match call U ineq x nx none s with
      | (true, s) => (false, { s with consType := some false })
      | (false, s) => call U all x nx none { s with consType := some true }

/-- `eval_c_d`. Code: hiopNlpFormulation.cpp:883-986. -/
def evalCD (U : User X Y) : X → Bool → St X Y → Bool × St X Y :=
  evalBoth U .consEq .consIneq .consAll

/-- `eval_Jac_c_d`. Code: hiopNlpFormulation.cpp:987-1034. -/
def evalJac (U : User X Y) : X → Bool → St X Y → Bool × St X Y :=
  evalBoth U .jacEq .jacIneq .jacAll

/-- `eval_Hess_Lagr`, hiopNlpFormulation.cpp:1809-1863, 2023-2098, hiopNlpFormulation.hpp:446-456. -/
def evalHess (U : User X Y) (p : X × Y) (nx : Bool) (s : St X Y) : Bool × St X Y :=
  if U.hasHess then call U .hess p.1 nx (some p.2) s else (true, s)

/-- The stored value after an evaluation at `x`: undefined if the call failed. No counterpart in the code: used only to state and run the model. -/
def stored {P : Type} (ok : Bool) (x : P) : Option P := if ok then some x else none

/-- `evalNlp_noHess`, hiopAlgFilterIPM.cpp:495-538, at the point `x`, into `_f_nlp`, `_grad_f`, `_c`,
`_d`, `_Jac_c`, `_Jac_d`. -/
def evalNoHess (U : User X Y) (x : X) (s : St X Y) : Bool × St X Y :=
  andThen (fun s => let r := call U .obj x true none s; (r.1, { r.2 with f := stored r.1 x }))
    (andThen (fun s => let r := call U .grad x false none s; (r.1, { r.2 with grad := stored r.1 x }))
      (andThen (fun s => let r := evalCD U x false s; (r.1, { r.2 with cd := stored r.1 x }))
        (fun s => let r := evalJac U x false s; (r.1, { r.2 with jac := stored r.1 x })))) s

/-- `evalNlp_HessOnly`, hiopAlgFilterIPM.cpp:540-554, at `it_curr`. -/
def evalHessOnly (U : User X Y) (s : St X Y) : Bool × St X Y :=
  let r := evalHess U s.cur false s
  (r.1, { r.2 with hess := stored r.1 s.cur })

/-- `evalNlp_funcOnly`, hiopAlgFilterIPM.cpp:710-727, at `it_trial`. -/
def evalFunc (U : User X Y) (s : St X Y) : Bool × St X Y :=
  andThen (fun s => let r := call U .obj s.trial.1 true none s
                    (r.1, { r.2 with ft := stored r.1 s.trial.1 }))
    (fun s => let r := evalCD U s.trial.1 false s
              (r.1, { r.2 with cdt := stored r.1 s.trial.1 })) s

/-- `evalNlp_derivOnly`, hiopAlgFilterIPM.cpp:729-756, at `it_trial`. -/
def evalDeriv (U : User X Y) (s : St X Y) : Bool × St X Y :=
  andThen (fun s => let r := call U .grad s.trial.1 false none s
                    (r.1, { r.2 with grad := stored r.1 s.trial.1 }))
    (andThen (fun s => let r := evalJac U s.trial.1 false s
                       (r.1, { r.2 with jac := stored r.1 s.trial.1 }))
      (fun s => let r := evalHess U s.trial false s
                (r.1, { r.2 with hess := stored r.1 s.trial }))) s

/-- Setting the primal part of `it_trial`. Code: hiopAlgFilterIPM.hpp:262. -/
def setTrialX (x : X) (s : St X Y) : St X Y := { s with trial := (x, s.trial.2) }

/-! ## Starting procedure -/

/-- Choices of `startingProcedure`: the user's point (or zero) with the initial multipliers, the point
after the projection (the same in a warm start), the multipliers of the equalities and inequalities. Code: hiopAlgFilterIPM.cpp:290-440. -/
structure StartChoice (X Y : Type) where
  x0 : X
  y0 : Y
  x1 : X
  y1 : Y

/-- `startingProcedure`, hiopAlgFilterIPM.cpp:290-439. `none` is a failed assertion. The returned flag
is the return value, which both `run` functions ignore (lines 1003, 1020, 2142). -/
def start (U : User X Y) (asserts : Bool) (c : StartChoice X Y) (s : St X Y) : Option (Bool × St X Y) :=
  match evalNoHess U c.x0 { s with cur := (c.x0, c.y0) } with
  | (false, s) => if asserts then none else some (false, s)
  | (true, s) =>
    match evalNoHess U c.x1 { s with cur := (c.x1, c.y0) } with
    | (false, s) => if asserts then none else some (false, s)
    | (true, s) =>
      match evalHessOnly U { s with cur := (c.x1, c.y1) } with
      | (false, s) => if asserts then none else some (false, s)
      | (true, s) => some (true, s)

/-! ## One iteration -/

/-- One trial of the backtracking loop: the point, and the points of the second-order corrections
tried after it. Code: hiopAlgFilterIPM.cpp:1283-1371, hiopAlgFilterIPM.cpp:2499-2579. -/
structure Trial (X : Type) where
  x : X
  soc : List X

/-- Second-order corrections, hiopAlgFilterIPM.cpp:2986-3036. A failed evaluation sets the status and
is returned as the negative line-search status: an assertion fails, or the backtracking goes on. -/
def socLoop (U : User X Y) (asserts : Bool) : List X → St X Y → Option (St X Y)
  | [], s => some s
  | x :: l, s =>
    match evalFunc U (setTrialX x s) with
    | (true, s) => socLoop U asserts l s
    | (false, s) => if asserts then none else some { s with err := true }

/-- The outcome of the trials: `return Error_In_User_Function`, a failed assertion, or the end of the
loop. Code: hiopAlgFilterIPM.cpp:1283-1371, hiopAlgFilterIPM.cpp:2499-2579. -/
inductive TrialsOut (X Y : Type)
  | ret (s : St X Y)
  | abort
  | done (s : St X Y)

/-- All trials of one iteration (both passes of the linear-solve loop), hiopAlgFilterIPM.cpp:1283-1371,
2499-2579. The list is empty when the search direction could not be computed in either pass. -/
def trialsLoop (U : User X Y) (asserts : Bool) : List (Trial X) → St X Y → TrialsOut X Y
  | [], s => .done s
  | t :: l, s =>
    match evalFunc U (setTrialX t.x s) with
    | (false, s) => .ret s
    | (true, s) =>
      match socLoop U asserts t.soc s with
      | none => .abort
      | some s => trialsLoop U asserts l s

/-- The status is pending (accepted step, lines 1441, 2705, or set so after restoration), `_f_nlp=_f_nlp_trial`, exchange of `_c`, `_c_trial` (and `_d`) and of `it_curr`, `it_trial`,
hiopAlgFilterIPM.cpp:1479-1487, 2740-2747. -/
def swap (s : St X Y) : St X Y :=
  { s with err := false, f := s.ft, cd := s.cdt, cdt := s.cd, cur := s.trial, trial := s.cur }

/-- Rounds of `solve_soft_feasibility_restoration`, hiopAlgFilterIPM.cpp:3260-3331, after the first:
evaluation at the old trial point, step, evaluation, new multipliers. Returns false when a user
function failed (the function then returns true at once). -/
def softRounds (U : User X Y) : List (X × Y) → St X Y → Bool × St X Y
  | [], s => (true, s)
  | p :: l, s =>
    match evalFunc U s with
    | (false, s) => (false, s)
    | (true, s) =>
      match evalFunc U (setTrialX p.1 s) with
      | (false, s) => (false, s)
      | (true, s) => softRounds U l { s with trial := p }

/-- `solve_soft_feasibility_restoration`, hiopAlgFilterIPM.cpp:3235-3333: the first round copies `_c`,
`_d` to the trial buffers and does not evaluate before the step. -/
def soft (U : User X Y) (p : X × Y) (more : List (X × Y)) (s : St X Y) : Bool × St X Y :=
  match evalFunc U (setTrialX p.1 { s with cdt := s.cd }) with
  | (false, s) => (false, s)
  | (true, s) => softRounds U more { s with trial := p }

/-- How the iteration goes on after the trials. Code: hiopAlgFilterIPM.cpp:1388, hiopAlgFilterIPM.cpp:2607, hiopAlgFilterIPM.cpp:3041-3047. -/
inductive Finish (X Y : Type)
  /-- The last trial is accepted with these multipliers. -/
  | accept (y : Y)
  /-- Soft restoration succeeds (with these rounds). -/
  | soft (p : X × Y) (more : List (X × Y))
  /-- Soft restoration fails, the restoration problem is solved: it makes the calls `inner` (in this
  order) to the functions of the problem and returns a point; multipliers are reset. -/
  | robust (p : X × Y) (more : List (X × Y)) (inner : List (Call X Y)) (q : X × Y)
  /-- Inside a restoration problem: the forced update. -/
  | force (q : X × Y)

/-- `reset_var_from_fr_sol`, hiopAlgFilterIPM.cpp:3168-3233: evaluation at the new trial point into the
buffers of the current point. Its return value is ignored. -/
def resetVar (U : User X Y) (asserts : Bool) (q : X × Y) (s : St X Y) : Option (St X Y) :=
  match evalNoHess U q.1 { s with trial := q } with
  | (false, s) => if asserts then none else some s
  | (true, s) => some s

/-- Outcome of an iteration: `return Error_In_User_Function`, failed assertion, next iteration. Code: hiopAlgFilterIPM.cpp:955-1519, hiopAlgFilterIPM.cpp:2101-2781. -/
inductive Out (X Y : Type)
  | ret (s : St X Y)
  | abort
  | next (s : St X Y)

/-- The part after the trials, hiopAlgFilterIPM.cpp:1441-1487, 2705-2747, 3041-3125. A user error in
soft restoration is returned as success, and the status is set back to pending (lines 3278, 3300,
2639-2642). -/
def finish (U : User X Y) (asserts : Bool) (f : Finish X Y) (s : St X Y) : Out X Y :=
  match f with
  | .accept y =>
    if s.err then .ret s
    else
      match evalDeriv U { s with trial := (s.trial.1, y) } with
      | (false, s) => .ret s
      | (true, s) => .next (swap s)
  | .soft p more => .next (swap (soft U p more s).2)
  | .robust p more inner q =>
    match soft U p more s with
    | (false, s) => .next (swap s)
    | (true, s) =>
      match resetVar U asserts q { s with log := inner.reverse ++ s.log } with
      | none => .abort
      | some s => .next (swap s)
  | .force q =>
    match resetVar U asserts q s with
    | none => .abort
    | some s => .next (swap s)

/-- Choices of one iteration. Code: hiopAlgFilterIPM.cpp:955-1519, hiopAlgFilterIPM.cpp:2101-2781. -/
structure Choice (X Y : Type) where
  trials : List (Trial X)
  fin : Finish X Y

/-- One iteration of either main loop, hiopAlgFilterIPM.cpp:1090-1503, 2213-2762. -/
def iteration (U : User X Y) (asserts : Bool) (c : Choice X Y) (s : St X Y) : Out X Y :=
  match trialsLoop U asserts c.trials s with
  | .ret s => .ret s
  | .abort => .abort
  | .done s => finish U asserts c.fin s

/-- The states at the top of the loop (where the user's iterate callback and the termination test see
them), oldest first, and whether the run went on after the last one. Code: hiopAlgFilterIPM.cpp:955-1519, hiopAlgFilterIPM.cpp:2101-2781. -/
def runLoop (U : User X Y) (asserts : Bool) : List (Choice X Y) → St X Y → List (St X Y) × Out X Y
  | [], s => ([s], .next s)
  | c :: l, s =>
    match iteration U asserts c s with
    | .next s' => let r := runLoop U asserts l s'; (s :: r.1, r.2)
    | o => ([s], o)

/-! ## Calls made by the restoration problem -/

/-- What one call to a function of the restoration problem does to the functions of the base problem,
hiopFRProb.cpp:245-267 (`eval_f`: base objective at `DR (x - xref)`, here `g`), 269-287 (`eval_grad_f`:
nothing), 289-298, 334-346 (the separate constraint functions fail: nothing), 300-332, 348-377, 379-416
(at the base part `pr` of the point); `new_x` is handed on. The base problem's own separate calls
(`evalBoth`) are one call here. -/
def translate {X' Y' : Type} (g pr : X' → X) (mult : Y' → Y) (c : Call X' Y') : List (Call X Y) :=
  match c.fn with
  | .obj => [⟨.obj, g c.x, c.newX, none⟩]
  | .grad => []
  | .consEq => []
  | .consIneq => []
  | .jacEq => []
  | .jacIneq => []
  | fn => [⟨fn, pr c.x, c.newX, c.y.map mult⟩]

end Hiop.Evals
