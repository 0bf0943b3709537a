import Verif.Driver.Model
import Mathlib.Analysis.SpecialFunctions.Log.Base

/-!
# The solver main loops (src/Optimization/hiopAlgFilterIPM.cpp)

`hiopAlgFilterIPMNewton::run` (lines 2090-2780) and `hiopAlgFilterIPMQuasiNewton::run`
(lines 1000-1521). Everything numerical is an oracle (errors, factorisations, line-search trial
outcomes, restoration outcomes, user callbacks); the control flow is modelled statement by
statement. `asserts` says whether the program was built without `NDEBUG`.
-/

namespace Hiop.Driver

/-- Passes sufficient for the line search from step `a` (see `C22_terminates`). -/
noncomputable def lsFuel (p : LsParams) (a : ℝ) : ℕ := ⌈Real.logb 2 (a / p.minStep)⌉₊ + 3

/-- One complete line search; `none` means the loop does not stop within `lsFuel` passes. -/
noncomputable def lsRun (p : LsParams) (ans : ℕ → TrialAns) (a : ℝ) : Option LsOut :=
  lsLoop p ans (lsFuel p a) 0 (lsInit a)

/-- Behaviour of `compute_search_direction` / `compute_search_direction_inertia_free`
(lines 3335-3431): success, a failed linear solve, or more than ten inertia-free
refactorisations. -/
inductive DirAns
  | ok
  | solveFail
  | maxRefact

/-- Behaviour of `solve_soft_feasibility_restoration` (lines 3235-3333). -/
inductive SoftAns
  /-- Returned true with a trial point. -/
  | accepted
  /-- A user function failed: `solver_status_ = Error_In_User_Function; return true`. -/
  | userError
  /-- Returned false. -/
  | failed

/-- Behaviour of one call of `apply_feasibility_restoration`. -/
structure FrAns where
  soft : SoftAns
  /-- Status returned by the solver of the restoration problem. -/
  inner : Status
  /-- Return of `user_force_update` (only inside a restoration problem). -/
  forceOk : Bool
  /-- Result of the NLP evaluation in `reset_var_from_fr_sol`. -/
  evalOk : Bool

/-- `apply_feasibility_restoration` (lines 3040-3125), `solve_feasibility_restoration`
(3127-3165), `reset_var_from_fr_sol` (3167-3178). `none` is a failed assertion; otherwise the
returned flag and the new `solver_status_`. -/
def applyFR (within asserts : Bool) (a : FrAns) (st : Status) : Option (Bool × Status) :=
  if within = false then
    match a.soft with
    | .accepted => some (true, st)
    | .userError => some (true, .errUser)
    | .failed =>
      match a.inner with
      | .userStopped => if a.evalOk = false ∧ asserts = true then none else some (true, st)
      | .success => some (false, .infeasible)
      | .acceptable => some (false, .infeasible)
      | _ => some (false, .errFR)
  else if a.forceOk = false then some (false, .errFR)
  else if a.evalOk = false ∧ asserts = true then none else some (true, st)

/-- Behaviour of the environment during one pass of the linear-solve loop. -/
structure Attempt where
  kktOk : Bool
  dir : DirAns
  alphaMax : ℝ
  trials : ℕ → TrialAns
  fr : FrAns

/-- Behaviour of the environment during one iteration. -/
structure IterAns where
  errs : Errs
  /-- Return value of `user_callback_iterate`. -/
  cbOk : Bool
  /-- `switch_to_fast_KKT` (lines 1979-2066) turns safe mode off (possible only in the
  speculative mode). Its conditions on `mu` and the iteration count are left free. -/
  fast : Bool
  att : Fin 2 → Attempt
  /-- Result of `evalNlp_derivOnly`. -/
  derivOk : Bool

/-- Option `linsol_mode`. -/
inductive LinsolMode
  | stable
  | speculative
  | forcequick
  deriving DecidableEq

/-- Run configuration. -/
structure Cfg where
  tols : Tols
  mode : LinsolMode
  disableLS : Bool
  minStep : ℝ
  forceResto : Bool
  withinFR : Bool
  asserts : Bool

/-- Loop state: `iter_num_`, `linsol_safe_mode_on`, `n_accep_iters_`, errors at the first
iterate (`none` before they are recorded), `use_fr`. -/
structure LState where
  iter : ℕ
  safe : Bool
  nAcc : ℕ
  e0 : Option Errs
  useFr : Bool

/-- How a run ends: a status (after `iter` completed iterations), a failed assertion, or a line
search that never stops. -/
inductive Res
  | ret (st : Status) (iter : ℕ)
  | abort
  | diverge
  deriving DecidableEq

/-- Outcome of one pass of the `for(linsolve...)` loop. -/
inductive PassOut
  /-- `return` from `run`. -/
  | ret (st : Status)
  | abort
  | diverge
  /-- Next pass (`continue`, or end of the body reached). -/
  | again (safe : Bool) (st : Status) (useFr : Bool)
  /-- `break`. -/
  | done (safe : Bool) (st : Status) (useFr : Bool)

/-- `solver_status_` after the line search: `lsLoop` reports `pending` when untouched. -/
def mergeSt (old new : Status) : Status := if new = .pending then old else new

/-- One pass of the linear-solve loop of the Newton solver (lines 2376-2703). -/
noncomputable def newtonPass (c : Cfg) (iter : ℕ) (a : Attempt) (safe : Bool) (st : Status)
    (useFr : Bool) : PassOut :=
  let force : Bool := decide (c.mode = .forcequick)
  if a.kktOk = false then
    if safe = true ∨ force = true then .ret .errStep else .again true st useFr
  else
    match a.dir with
    | .solveFail => if safe = true ∨ force = true then .ret .errStep else .again true st useFr
    | .maxRefact => if safe = true ∨ force = true then .ret .errStep else .again safe st useFr
    | .ok =>
      match lsRun ⟨c.disableLS, c.minStep, safe, true, c.asserts⟩ a.trials a.alphaMax with
      | none => .diverge
      | some .userError => .ret .errUser
      | some .abort => .abort
      | some (.ended ls _ _ st') =>
        let st := mergeSt st st'
        if c.forceResto = true ∧ c.withinFR = false ∧ iter = 1 then
          match applyFR c.withinFR c.asserts a.fr st with
          | none => .abort
          | some (true, _) => .done safe .pending true
          | some (false, st2) => .again safe st2 false
        else if ls = 1 ∨ ls = 2 ∨ ls = 3 then .done safe st false
        else if ls = 0 then
          if safe = true then
            match applyFR c.withinFR c.asserts a.fr st with
            | none => .abort
            | some (true, _) => .done safe .pending true
            | some (false, st2) => .done safe st2 false
          else if force = true then .done safe st false
          else .again true st false
        else if c.asserts = true then .abort
        else .again safe st false

/-- `linsol_safe_mode_on` before the linear-solve loop (lines 2343-2374). -/
def safeBefore (c : Cfg) (safe fast : Bool) : Bool :=
  match c.mode with
  | .forcequick => false
  | .stable => true
  | .speculative => if safe = true ∧ fast = true then false else safe

/-- End of an iteration once the linear-solve loop is left (lines 2705-2748). -/
def finishIter (s : LState) (a : IterAns) (e0 : Errs) (nAcc : ℕ) (safe : Bool) (st : Status)
    (useFr : Bool) (brk : Status → Res) : Res ⊕ LState :=
  if st ≠ .pending then .inl (brk st)
  else if useFr = false ∧ a.derivOk = false then .inl (.ret .errUser (s.iter + 1))
  else .inr { iter := s.iter + 1, safe := safe, nAcc := nAcc, e0 := some e0, useFr := useFr }

/-- Leaving the loop through `break`: `displayTerminationMsg` (lines 847-925) asserts that the
status is one it knows; `Error_In_User_Function` and `NlpSolve_Pending` are not. -/
def breakWith (c : Cfg) (iter : ℕ) (st : Status) : Res :=
  if c.asserts = true ∧ (st = .errUser ∨ st = .pending) then .abort else .ret st iter

/-- One iteration of `hiopAlgFilterIPMNewton::run`, lines 2213-2762. -/
noncomputable def newtonIter (c : Cfg) (s : LState) (a : IterAns) : Res ⊕ LState :=
  let e0 := s.e0.getD a.errs
  if a.cbOk = false then .inl (breakWith c s.iter .userStopped)
  else
    match checkTermination c.tols e0 a.errs s.iter s.nAcc with
    | (some st, _) => .inl (breakWith c s.iter st)
    | (none, nAcc) =>
      let safe := safeBefore c s.safe a.fast
      match newtonPass c s.iter (a.att 0) safe .pending s.useFr with
      | .ret st => .inl (.ret st s.iter)
      | .abort => .inl .abort
      | .diverge => .inl .diverge
      | .done safe st u => finishIter s a e0 nAcc safe st u (breakWith c s.iter)
      | .again safe st u =>
        match newtonPass c s.iter (a.att 1) safe st u with
        | .ret st => .inl (.ret st s.iter)
        | .abort => .inl .abort
        | .diverge => .inl .diverge
        | .done safe st u => finishIter s a e0 nAcc safe st u (breakWith c s.iter)
        | .again safe st u => finishIter s a e0 nAcc safe st u (breakWith c s.iter)

/-- One iteration of `hiopAlgFilterIPMQuasiNewton::run`, lines 1091-1504; safe mode is always
on and only the first attempt is used. -/
noncomputable def qnIter (c : Cfg) (s : LState) (a : IterAns) : Res ⊕ LState :=
  let e0 := s.e0.getD a.errs
  if a.cbOk = false then .inl (breakWith c s.iter .userStopped)
  else
    match checkTermination c.tols e0 a.errs s.iter s.nAcc with
    | (some st, _) => .inl (breakWith c s.iter st)
    | (none, nAcc) =>
      let t := a.att 0
      if t.kktOk = false then .inl (.ret .errStep s.iter)
      else
        match t.dir with
        | .solveFail => .inl (.ret .errStep s.iter)
        | .maxRefact => .inl (.ret .errStep s.iter)
        | .ok =>
          match lsRun ⟨c.disableLS, c.minStep, true, false, c.asserts⟩ t.trials t.alphaMax with
          | none => .inl .diverge
          | some .userError => .inl (.ret .errUser s.iter)
          | some .abort => .inl .abort
          | some (.ended ls _ _ st) =>
            if c.forceResto = true ∧ c.withinFR = false ∧ s.iter = 1 then
              match applyFR c.withinFR c.asserts t.fr st with
              | none => .inl .abort
              | some (true, _) => finishIter s a e0 nAcc true .pending true (breakWith c s.iter)
              | some (false, st2) => finishIter s a e0 nAcc true st2 false (breakWith c s.iter)
            else if ls = 1 ∨ ls = 2 ∨ ls = 3 then
              finishIter s a e0 nAcc true st false (breakWith c s.iter)
            else if ls = 0 then
              match applyFR c.withinFR c.asserts t.fr st with
              | none => .inl .abort
              | some (true, _) => .inl (breakWith c s.iter .pending)
              | some (false, st2) => .inl (breakWith c s.iter st2)
            else if c.asserts = true then .inl .abort
            else finishIter s a e0 nAcc true st false (breakWith c s.iter)

/-- The `while(true)` loop; `env k` is the environment at iteration `k`. `none`: more than
`fuel` iterations. -/
def runLoop (body : LState → IterAns → Res ⊕ LState) (env : ℕ → IterAns) :
    ℕ → LState → Option Res
  | 0, _ => none
  | fuel + 1, s =>
    match body s (env s.iter) with
    | .inl r => some r
    | .inr s' => runLoop body env fuel s'

/-- State before the loop (lines 2140-2212): `iter_num_ = 0`, no recorded errors. -/
def startState (safe : Bool) : LState :=
  { iter := 0, safe := safe, nAcc := 0, e0 := none, useFr := false }

/-- `hiopAlgFilterIPMNewton::run` (the part after the starting procedure). -/
noncomputable def runNewton (c : Cfg) (env : ℕ → IterAns) (fuel : ℕ) : Option Res :=
  runLoop (newtonIter c) env fuel (startState (decide (c.mode = .stable)))

/-- `hiopAlgFilterIPMQuasiNewton::run` (the part after the starting procedure). -/
noncomputable def runQuasiNewton (c : Cfg) (env : ℕ → IterAns) (fuel : ℕ) : Option Res :=
  runLoop (qnIter c) env fuel (startState true)

end Hiop.Driver
