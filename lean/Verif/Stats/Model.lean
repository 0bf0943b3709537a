import Mathlib.Algebra.Order.Field.Basic
import Mathlib.Analysis.Real.Sqrt
import Mathlib.Algebra.BigOperators.Fin
import Mathlib.Data.Fintype.BigOperators

/-!
# Run statistics

The timers and counters of `runStats` (hiopTimer.hpp, hiopRunStats.hpp), who starts, stops and increments them, and what
the report at the end of a run shows. A program is the list of the steps it goes through: pieces of work with their
durations, calls of the user's functions with their durations, and the operations on the timers and counters between them.
Simplification: the operations themselves take no time, and the clock (`MPI_Wtime`, `gettimeofday`) is exact.
-/

namespace Hiop.Stats

variable {K : Type} [Field K]

/-! ## Timers -/

/-- `hiopTimer`, hiopTimer.hpp:65-66, 103-104. -/
structure Timer (K : Type) where
  elapsed : K
  start : K

/-- `reset`, hiopTimer.hpp:93-95; also the constructor (68) and the assignment of zero (97-101). -/
def Timer.zero : Timer K := ⟨0, 0⟩

/-- `start`, hiopTimer.hpp:73-81. -/
def Timer.go (t : Timer K) (now : K) : Timer K := { t with start := now }

/-- `stop`, hiopTimer.hpp:83-91. -/
def Timer.halt (t : Timer K) (now : K) : Timer K := { t with elapsed := t.elapsed + (now - t.start) }

/-- The timers used below, hiopRunStats.hpp:317-322, 82, 97: `tmOptimizTotal`, `tmSolverInternal`, `tmEvalObj`,
`tmEvalGrad_f`, `tmEvalCons`, `tmEvalJac_con`, `tmEvalHessL`, `kkt.tmTotalPerIter`, `kkt.tmUpdateInnerFact`. -/
inductive Tm where
  | total | internal | obj | grad | cons | jac | hess | kktIter | fact
deriving DecidableEq

/-- The counters, hiopRunStats.hpp:323-324. -/
inductive Cnt where
  | obj | grad | eq | ineq | jacEq | jacIneq | hess
deriving DecidableEq

/-- The functions of the user: objective, gradient, constraints (equalities, inequalities or all of them in one call),
Jacobian likewise, Hessian; `jacPat` and `hessPat` are the calls asking for the sparsity pattern only
(hiopNlpFormulation.cpp:1984-1992, 2062-2073). -/
inductive Call where
  | obj | grad | eq | ineq | all | jacEq | jacIneq | jacAll | jacPat | hess | hessPat
deriving DecidableEq

/-- The steps of a program. No counterpart in the code: the two kinds of time, spent by HiOp and by the user's
functions, and the operations on `runStats`. -/
inductive Step (K : Type) where
  | work (d : K)
  | user (c : Call) (d : K)
  | start (t : Tm)
  | stop (t : Tm)
  | count (c : Cnt)
  /-- `runStats.initialize(); runStats.kkt.initialize();` -/
  | init
  /-- `kkt.start_optimiz_iteration()` -/
  | kktStart
  /-- `kkt.end_optimiz_iteration()` -/
  | kktEnd

/-- The clock, the timers, the counters and `kkt.tmTotal` (hiopRunStats.hpp:138). -/
structure St (K : Type) where
  now : K
  tm : Tm → Timer K
  cnt : Cnt → ℕ
  kkt : K

/-- No counterpart in the code: replacing one value of a function. -/
def upd {α β : Type} [DecidableEq α] (f : α → β) (a : α) (b : β) : α → β := fun x => if x = a then b else f x

/-- One step. `init`: hiopRunStats.hpp:330-336 and 157-176; `kktStart`: 178-191 (the constituents other than
`tmUpdateInnerFact` have no model); `kktEnd`: 192-204. -/
def step (s : St K) : Step K → St K
  | .work d => { s with now := s.now + d }
  | .user _ d => { s with now := s.now + d }
  | .start t => { s with tm := upd s.tm t ((s.tm t).go s.now) }
  | .stop t => { s with tm := upd s.tm t ((s.tm t).halt s.now) }
  | .count c => { s with cnt := upd s.cnt c (s.cnt c + 1) }
  | .init => { s with tm := fun _ => .zero, cnt := fun _ => 0, kkt := 0 }
  | .kktStart => { s with tm := upd (upd s.tm .kktIter (Timer.zero.go s.now)) .fact .zero }
  | .kktEnd =>
    { s with
      tm := upd s.tm .kktIter ((s.tm .kktIter).halt s.now)
      kkt := s.kkt + ((s.tm .kktIter).halt s.now).elapsed }

/-- No counterpart in the code: a program from a state. -/
def exec (s : St K) (p : List (Step K)) : St K := p.foldl step s

/-- `getElapsedTime`, hiopTimer.hpp:71. -/
def St.time (s : St K) (t : Tm) : K := (s.tm t).elapsed

/-- "Fcn/deriv time: total=" of the report, hiopRunStats.hpp:361-366. -/
def St.evalTime (s : St K) : K := s.time .obj + s.time .grad + s.time .cons + s.time .jac + s.time .hess

/-! ## Evaluations -/

/-- An answer of the user: the Boolean, the time the function takes, and the time HiOp needs for what comes with it
(transformations, copies, scaling). -/
structure Ans (K : Type) where
  ok : Bool
  d : K
  w : K

/-- Which of the NLP formulations. -/
inductive Form where
  | dense | mds | sparse
deriving DecidableEq

/-- The state of a formulation: `cons_eval_type_` (`none`: -1, `some false`: 0, `some true`: 1), `num_jac_eval_ > 0`,
`num_hess_eval_ > 0`, hiopNlpFormulation.hpp. -/
structure Mode where
  form : Form
  oneCall : Option Bool
  jacDone : Bool
  hessDone : Bool

/-- `eval_f`, hiopNlpFormulation.cpp:743-753. -/
def evalF (a : Ans K) : List (Step K) := [.start .obj, .user .obj a.d, .stop .obj, .count .obj, .work a.w]

/-- `eval_grad_f`, hiopNlpFormulation.cpp:755-773 (`nlp_evaluated_` is never set, so the early return never happens). -/
def evalGrad (a : Ans K) : List (Step K) := [.work a.w, .start .grad, .user .grad a.d, .stop .grad, .count .grad]

/-- `eval_c`, hiopNlpFormulation.cpp:883-903. -/
def evalC (a : Ans K) : List (Step K) := [.start .cons, .user .eq a.d, .stop .cons, .count .eq, .work a.w]

/-- `eval_d`, hiopNlpFormulation.cpp:904-923. -/
def evalD (a : Ans K) : List (Step K) := [.start .cons, .user .ineq a.d, .stop .cons, .count .ineq, .work a.w]

/-- The one-call evaluation of the constraints, hiopNlpFormulation.cpp:957-984. -/
def evalAll (a : Ans K) : List (Step K) :=
  [.start .cons, .user .all a.d, .work a.w, .stop .cons, .count .eq, .count .ineq]

/-- `eval_c_d`, hiopNlpFormulation.cpp:925-986. -/
def evalCD (m : Mode) (c d all : Ans K) : Mode × List (Step K) :=
  match m.oneCall with
  | none =>
    if c.ok ∨ d.ok then ({ m with oneCall := some false }, evalC c ++ evalD d)
    else ({ m with oneCall := some true }, evalC c ++ evalD d ++ evalAll all)
  | some false => (m, evalC c ++ if c.ok then evalD d else [])
  | some true => (m, evalAll all)

/-- `eval_Jac_c`, hiopNlpFormulation.cpp:1546-1581 (dense: scaling behind the timer), 1688-1723 (MDS),
1886-1921 (sparse). -/
def evalJacC (f : Form) (a : Ans K) : List (Step K) :=
  match f with
  | .dense => [.start .jac, .user .jacEq a.d, .stop .jac, .count .jacEq, .work a.w]
  | _ => [.start .jac, .user .jacEq a.d, .work a.w, .stop .jac, .count .jacEq]

/-- `eval_Jac_d`, hiopNlpFormulation.cpp:1584-1619 (dense), 1725-1759 (MDS), 1923-1959 (sparse). -/
def evalJacD (f : Form) (a : Ans K) : List (Step K) :=
  match f with
  | .dense => [.start .jac, .user .jacIneq a.d, .stop .jac, .count .jacIneq, .work a.w]
  | _ => [.start .jac, .user .jacIneq a.d, .work a.w, .stop .jac, .count .jacIneq]

/-- `eval_Jac_c_d_interface_impl`, hiopNlpFormulation.cpp:1495-1544 (dense), 1761-1807 (MDS), 1961-2021 (sparse, which asks
for the pattern first). -/
def evalJacAll (m : Mode) (pat all : Ans K) : Mode × List (Step K) :=
  ({ m with jacDone := true },
    [.start .jac] ++ (if m.form = .sparse ∧ m.jacDone = false then [.user .jacPat pat.d] else []) ++
      [.user .jacAll all.d, .work all.w, .stop .jac, .count .jacEq, .count .jacIneq])

/-- `eval_Jac_c_d`, hiopNlpFormulation.cpp:987-1034. -/
def evalJacCD (m : Mode) (c d pat all : Ans K) : Mode × List (Step K) :=
  match m.oneCall with
  | none =>
    if c.ok ∨ d.ok then ({ m with oneCall := some false }, evalJacC m.form c ++ evalJacD m.form d)
    else
      let r := evalJacAll { m with oneCall := some true } pat all
      (r.1, evalJacC m.form c ++ evalJacD m.form d ++ r.2)
  | some false => (m, evalJacC m.form c ++ if c.ok then evalJacD m.form d else [])
  | some true => evalJacAll m pat all

/-- `eval_Hess_Lagr`, hiopNlpFormulation.hpp:446-456 (dense: nothing), hiopNlpFormulation.cpp:1809-1863 (MDS), 2023-2097
(sparse, which asks for the pattern first). -/
def evalHess (m : Mode) (pat a : Ans K) : Mode × List (Step K) :=
  match m.form with
  | .dense => (m, [])
  | .mds => (m, [.start .hess, .work a.w, .user .hess a.d, .stop .hess, .count .hess])
  | .sparse =>
    ({ m with hessDone := true },
      [.start .hess, .work a.w] ++ (if m.hessDone = false then [.user .hessPat pat.d] else []) ++
        [.user .hess a.d, .stop .hess, .count .hess])

/-- What the solver may ask of a formulation, with the answers of the user it would get; `other` is work in between. -/
inductive Req (K : Type) where
  | f (a : Ans K)
  | grad (a : Ans K)
  | cons (c d all : Ans K)
  | jac (c d pat all : Ans K)
  | hess (pat a : Ans K)
  | other (d : K)

/-- One request. -/
def serve (m : Mode) : Req K → Mode × List (Step K)
  | .f a => (m, evalF a)
  | .grad a => (m, evalGrad a)
  | .cons c d all => evalCD m c d all
  | .jac c d pat all => evalJacCD m c d pat all
  | .hess pat a => evalHess m pat a
  | .other d => (m, [.work d])

/-- No counterpart in the code: requests one after the other. -/
def serveAll (m : Mode) : List (Req K) → List (Step K)
  | [] => []
  | r :: rs => (serve m r).2 ++ serveAll (serve m r).1 rs

/-- `run`, hiopAlgFilterIPM.cpp:975-976, 991, 1501 and 2119-2120, 2140, 2763: initialization, start and stop of
`tmOptimizTotal` around the requests. -/
def run (m : Mode) (rs : List (Req K)) : List (Step K) :=
  [.init, .start .total] ++ serveAll m rs ++ [.stop .total]

/-! ## The timer of HiOp's own work -/

/-- `compute_nlp_infeasib_onenorm`, hiopResidual.cpp:102-152. -/
def infeas (d : K) : List (Step K) := [.start .internal, .work d, .stop .internal]

/-- `updateWithNlpInfo_trial_funcOnly`, hiopLogBarProblem.hpp:121-132. -/
def barTrial (d : K) : List (Step K) := [.start .internal, .work d, .stop .internal]

/-- The durations of the parts of one pass of the line search: the step and the slacks, the user's functions, the log-barrier
function, the infeasibility, the tests behind it, and (quasi-Newton) what comes after them when the trial is rejected.
Simplification: no second-order correction, and the tests do not compute the directional derivative. -/
structure Trial (K : Type) where
  step : K
  user : K
  bar : K
  inf : K
  cond : K
  post : K

/-- The beginning of a pass up to the infeasibility, hiopAlgFilterIPM.cpp:1284-1313 and 2502-2537. -/
def trialHead (t : Trial K) : List (Step K) :=
  [.start .internal, .work t.step, .stop .internal, .user .obj t.user] ++ barTrial t.bar ++
    [.start .internal] ++ infeas t.inf ++ [.work t.cond]

/-- A pass of the line search of the Newton method, rejected (2585) or accepted (2555): hiopAlgFilterIPM.cpp:2501-2586. -/
def trialNewton (t : Trial K) : List (Step K) := trialHead t ++ [.stop .internal]

/-- A rejected pass of the quasi-Newton method, hiopAlgFilterIPM.cpp:1283-1367; note the second `start` at 1340. -/
def rejectQN (t : Trial K) : List (Step K) := trialHead t ++ [.start .internal, .work t.post, .stop .internal]

/-- The accepted pass and what follows it, hiopAlgFilterIPM.cpp:1335-1338, 1370-1420 (`lsStatus` 1, 2 or 3): two `stop`s. -/
def acceptQN (t : Trial K) : List (Step K) :=
  trialHead t ++ [.stop .internal] ++ [.work t.post, .stop .internal]

/-- The line search of the Newton method: rejected passes, the accepted one, and the update of the filter,
hiopAlgFilterIPM.cpp:2501-2650. -/
def searchNewton (rej : List (Trial K)) (acc : Trial K) : List (Step K) :=
  rej.flatMap trialNewton ++ trialNewton acc ++ [.start .internal, .work acc.post, .stop .internal]

/-- The line search of the quasi-Newton method, hiopAlgFilterIPM.cpp:1283-1420. -/
def searchQN (rej : List (Trial K)) (acc : Trial K) : List (Step K) := rej.flatMap rejectQN ++ acceptQN acc

/-! ## Time in the KKT systems -/

/-- One iteration of the Newton method as far as the KKT statistics go, hiopAlgFilterIPM.cpp:2339, 2380-2461: a linear solve
taking `solve`, and, if the line search (taking `search`) finds no acceptable step and safe mode is off, a second one
(2685-2694). -/
def kktIteration (solve : K) (again : Option (K × K)) : List (Step K) :=
  [.kktStart, .work solve, .kktEnd] ++
    match again with
    | none => []
    | some (search, solve2) => [.work search, .work solve2, .kktEnd]

/-- `factorize_inertia_free`, hiopKKTLinSys.cpp:376-446: the first factorization and the repeated ones, each with the
assembly before it. -/
def inertiaFree (fact : K) (more : List (K × K)) : List (Step K) :=
  [.start .fact, .work fact] ++ more.flatMap (fun r => [.work r.1, .start .fact, .work r.2, .stop .fact]) ++ [.stop .fact]

/-- The factorizations of `factorize`, hiopKKTLinSys.cpp:344-365. -/
def factorize (rs : List (K × K)) : List (Step K) :=
  rs.flatMap fun r => [.work r.1, .start .fact, .work r.2, .stop .fact]

/-! ## The spread over the ranks -/

/-- `stddev` of the report for the times `x` of the ranks, hiopRunStats.hpp:350-357. -/
noncomputable def spread {n : ℕ} (x : Fin n → ℝ) : ℝ :=
  let mean := (∑ i, x i) / n
  Real.sqrt (∑ i, (x i - mean) * (x i - mean)) / n

end Hiop.Stats
