import Mathlib.Analysis.SpecialFunctions.Pow.Real
import Verif.Vec.Model

/-!
# Model of the solver's scalar control logic

Source: `src/Optimization/hiopAlgFilterIPM.cpp` (barrier parameter update, scaled errors,
termination test, moving limits, backtracking loop). Over `ℝ`.
-/

namespace Hiop.Driver

/-! ## Barrier parameter (hiopAlgFilterIPM.cpp:556-624) -/

/-- Algorithm parameters of the barrier update: members `kappa_mu`, `theta_mu`, `tau_min`,
`eps_tol`, `comp_tol_`, and `nlp->get_obj_scale()`. Code: hiopAlgFilterIPM.hpp:309-316. -/
structure MuParams where
  kappaMu : ℝ
  thetaMu : ℝ
  tauMin : ℝ
  epsTol : ℝ
  compTol : ℝ
  objScale : ℝ

/-- The smallest barrier parameter, lines 563 and 565:
`fmin(eps_tol, comp_tol_/obj_scale)/(10+1)`. -/
noncomputable def muFloor (p : MuParams) : ℝ := min p.epsTol (p.compTol / p.objScale) / (10 + 1)

/-- `update_log_barrier_params`, scalar part, lines 563-570; `none` is `return false`. -/
noncomputable def updateMu (p : MuParams) (mu : ℝ) : Option (ℝ × ℝ) :=
  let newMu := max 0 (min (p.kappaMu * mu) (mu ^ p.thetaMu))
  let newMu := max newMu (muFloor p)
  if |newMu - mu| < 1e-16 then none
  else some (newMu, max p.tauMin (1 - newMu))

/-- Choices of option `elastic_bound_strategy`. Code: hiopAlgFilterIPM.cpp:578-580. -/
inductive ElasticStrategy
  | muScaled
  | muProjected
  | other

/-- Bound relaxation in elastic mode, lines 572-592. -/
noncomputable def elasticPerturb (st : ElasticStrategy) (muNew mu0 targetMu pInit pMin : ℝ) : ℝ :=
  let b := match st with
    | .muScaled => 0.995 * muNew
    | .muProjected => (muNew - targetMu) / (mu0 - targetMu) * (pInit - pMin) + pMin
    | .other => pInit
  let b := if b > pInit then pInit else b
  if b < pMin then pMin else b

open Classical in
/-- The loop `while(_err_log<=kappa_eps*_mu)`, lines 1167-1205 and 2287-2327, in non-elastic
mode. `err` is the sequence of barrier errors evaluated after each reduction (an oracle:
nothing is assumed about it). Returns the final `(mu, tau)` and the number of reductions;
`none` when `fuel` iterations of the loop were not enough. -/
noncomputable def muLoop (p : MuParams) (kappaEps : ℝ) (err : ℕ → ℝ) :
    ℕ → ℕ → ℝ × ℝ → Option (ℝ × ℝ × ℕ)
  | 0, _, _ => none
  | fuel + 1, k, (mu, tau) =>
    if err k ≤ kappaEps * mu then
      match updateMu p mu with
      | none => some (mu, tau, k)
      | some mt => muLoop p kappaEps err fuel (k + 1) mt
    else some (mu, tau, k)

/-! ## Scaled errors (hiopAlgFilterIPM.cpp:636-706) -/

/-- Dual norms and problem sizes entering the scaling factors. `n` is `n_complem()`, `m` is
`m()`. Code: hiopAlgFilterIPM.cpp:636-708. -/
structure ErrIn where
  n : ℕ
  m : ℕ
  nrmDualBou : ℝ
  nrmDualEqu : ℝ
  optim : ℝ
  feas : ℝ
  complem : ℝ
  consViol : ℝ

/-- `sd`, lines 679 and 682. For `n+m=0` the quotient is NaN, which `fmax` drops. -/
noncomputable def errSd (smax : ℝ) (e : ErrIn) : ℝ :=
  let q := if e.n + e.m = 0 then smax
    else max smax ((e.nrmDualBou + e.nrmDualEqu) / ((e.n + e.m : ℕ) : ℝ))
  min (q / smax) 1e8

/-- `sc`, lines 680 and 683. -/
noncomputable def errSc (smax : ℝ) (e : ErrIn) : ℝ :=
  min (if e.n = 0 then 0 else max smax (e.nrmDualBou / (e.n : ℝ)) / smax) 1e8

/-- `nlpoverall`, line 689 (and `logoverall`, line 705, with the barrier errors). When `sc=0`
there is no complementarity condition, `complem=0`, and `0/0=NaN` is dropped by `fmax`. -/
noncomputable def errOverall (smax : ℝ) (e : ErrIn) : ℝ :=
  max (e.optim / errSd smax e)
    (if errSc smax e = 0 then e.consViol else max e.consViol (e.complem / errSc smax e))

/-! ## Termination test (hiopAlgFilterIPM.cpp:813-845) -/

/-- `hiopSolveStatus` values used by the loops, hiopInterface.hpp:65-108. -/
inductive Status
  | success
  | successRelTol
  | acceptable
  | infeasible
  | maxIter
  | userStopped
  | stepTooSmall
  | errStep
  | errUser
  | errFR
  | pending
  deriving DecidableEq, Repr

/-- Tolerances and limits: `eps_tol`, `dual_tol_`, `cons_tol_`, `comp_tol_`, `eps_rtol`,
`eps_tol_accep`, `max_n_it`, `accep_n_it`. Code: hiopAlgFilterIPM.hpp:309-332. -/
structure Tols where
  epsTol : ℝ
  dualTol : ℝ
  consTol : ℝ
  compTol : ℝ
  epsRtol : ℝ
  epsTolAccep : ℝ
  maxIt : ℕ
  accepIt : ℕ

/-- Errors at one iterate: scaled overall error and the unscaled ones. Code: hiopAlgFilterIPM.cpp:636-708. -/
structure Errs where
  nlp : ℝ
  optim : ℝ
  feas : ℝ
  complem : ℝ
  consViol : ℝ

open Classical in
/-- `checkTermination`, lines 813-845. `e0` holds the errors at the first iterate, `nAcc` is
`n_accep_iters_`. Returns the status set (if any) and the new counter. -/
noncomputable def checkTermination (t : Tols) (e0 e : Errs) (iter nAcc : ℕ) :
    Option Status × ℕ :=
  if e.nlp ≤ t.epsTol ∧ e.optim ≤ t.dualTol ∧ e.consViol ≤ t.consTol ∧ e.complem ≤ t.compTol then
    (some .success, nAcc)
  else if iter ≥ t.maxIt then (some .maxIter, nAcc)
  else if t.epsRtol > 0 ∧ (e.optim ≤ t.epsRtol * e0.optim ∧ e.feas ≤ t.epsRtol * e0.feas ∧
      e.complem ≤ max t.epsRtol 1e-6 * min 1 e0.complem) then (some .successRelTol, nAcc)
  else
    let nAcc := if e.nlp ≤ t.epsTolAccep then nAcc + 1 else 0
    if nAcc ≥ t.accepIt then (some .acceptable, nAcc) else (none, nAcc)

/-! ## Moving limits (hiopAlgFilterIPM.cpp:2814-2850) -/

open Classical in
/-- `ensure_moving_lims`: `rel`, `abs` are options `moving_lim_rel`, `moving_lim_abs`, `nrm` is
`dir.get_x()->infnorm()`. Returns the flag and the new `alpha_pr`. Code: hiopAlgFilterIPM.cpp:2814-2850. -/
noncomputable def ensureMovingLims (rel abs nrm alpha : ℝ) : Bool × ℝ :=
  if rel > 0 then (true, rel * alpha)
  else if abs > 0 then
    let stepNrm := alpha * nrm
    if stepNrm > abs then (true, abs / stepNrm) else (false, alpha)
  else (false, alpha)

/-! ## Backtracking loop (hiopAlgFilterIPM.cpp:1286-1362 and 2504-2590) -/

/-- What `apply_second_order_correction` (lines 2949-3036) reports. -/
inductive SocAns
  /-- Not tried (`theta > theta_trial`) or tried without success (`ls_status = 0`). -/
  | none
  /-- Accepted with line-search status `st+1` (1, 2 or 3); `_alpha_primal` becomes `alphaSoc`. -/
  | accepted (st : Fin 3) (alphaSoc : ℝ)
  /-- A user function failed: `solver_status_` is set and the *status code* -15 is returned as
  line-search status. -/
  | userError

/-- Behaviour of the environment at one trial point: `evalOk` is the result of
`evalNlp_funcOnly`, `status` the result of `accept_line_search_conditions`. Code: hiopAlgFilterIPM.cpp:1302, hiopAlgFilterIPM.cpp:1333, hiopAlgFilterIPM.cpp:2525, hiopAlgFilterIPM.cpp:2552. -/
structure TrialAns where
  evalOk : Bool
  status : Fin 4
  soc : SocAns

/-- Static data of one line search: `disableLS` (option `accept_every_trial_step`), option
`min_step_size`, `safe` (`linsol_safe_mode_on`), `newton` (which of the two loops),
`asserts` (built without `NDEBUG`). Code: hiopAlgFilterIPM.cpp:1045, hiopAlgFilterIPM.cpp:2156, hiopAlgFilterIPM.cpp:1282, hiopAlgFilterIPM.cpp:2500. -/
structure LsParams where
  disableLS : Bool
  minStep : ℝ
  safe : Bool
  newton : Bool
  asserts : Bool

/-- How the backtracking loop ends. Code: hiopAlgFilterIPM.cpp:1283-1371, hiopAlgFilterIPM.cpp:2499-2579. -/
inductive LsOut
  /-- `return Error_In_User_Function`. -/
  | userError
  /-- A failed `assert`. -/
  | abort
  /-- Left by `break`: final `lsStatus`, last `_alpha_primal`, number of trials `lsNum`, and
  `solver_status_`. -/
  | ended (lsStatus : Int) (alpha : ℝ) (trials : ℕ) (st : Status)

/-- Loop state: `iniStep`, `_alpha_primal`, `lsNum`, `lsStatus`, `solver_status_`. Code: hiopAlgFilterIPM.cpp:1283-1371, hiopAlgFilterIPM.cpp:2499-2579. -/
structure LsState where
  ini : Bool
  alpha : ℝ
  num : ℕ
  ls : Int
  st : Status

open Classical in
/-- One pass through the loop body: either leave the loop or go on. Code: hiopAlgFilterIPM.cpp:1283-1371, hiopAlgFilterIPM.cpp:2499-2579. -/
noncomputable def lsBody (p : LsParams) (a : TrialAns) (s : LsState) : LsOut ⊕ LsState :=
  if s.ini = false ∧ s.alpha < p.minStep then
    -- lines 1291-1300 / 2510-2523
    if p.newton = false ∨ p.safe = true then .inl (.ended s.ls s.alpha s.num .stepTooSmall)
    else .inl (.ended 0 s.alpha s.num s.st)
  else if a.evalOk = false then .inl .userError
  else
    let num := s.num + 1
    if p.disableLS = true then .inl (.ended s.ls s.alpha num s.st)
    else
      let ls : Int := a.status.val
      if ls > 0 then .inl (.ended ls s.alpha num s.st)
      else
        let r : LsOut ⊕ (Int × Status) :=
          if s.ini = true then
            match a.soc with
            | .none => .inr (0, s.st)
            | .accepted st al => .inl (.ended (st.val + 1) al num s.st)
            | .userError => .inr (-15, .errUser)
          else .inr (ls, s.st)
        match r with
        | .inl o => .inl o
        | .inr (ls, st) =>
          if p.asserts = true ∧ ls ≠ 0 then .inl .abort
          else .inr { ini := false, alpha := s.alpha * 0.5, num := num, ls := ls, st := st }

/-- The loop itself; `ans k` is the environment at the `k`-th pass. `none`: `fuel` passes were
not enough. Code: hiopAlgFilterIPM.cpp:1283-1371, hiopAlgFilterIPM.cpp:2499-2579. -/
noncomputable def lsLoop (p : LsParams) (ans : ℕ → TrialAns) : ℕ → ℕ → LsState → Option LsOut
  | 0, _, _ => none
  | fuel + 1, k, s =>
    match lsBody p (ans k) s with
    | .inl o => some o
    | .inr s' => lsLoop p ans fuel (k + 1) s'

/-- State on entry, lines 1271-1276 / 2490-2497. -/
def lsInit (alphaMax : ℝ) : LsState :=
  { ini := true, alpha := alphaMax, num := 0, ls := 0, st := .pending }

end Hiop.Driver
