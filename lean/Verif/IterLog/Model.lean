import Verif.Driver.Loop

/-!
# Model of the log of a run

Source: `src/Optimization/hiopAlgFilterIPM.cpp`: `outputIteration` (1521-1549, 2783-2812), the variables it is given
(1081-1083, 1270-1272, 1315-1356, 2204-2206, 2489-2491, 2539-2575), `displayTerminationMsg` (848-925) and where it is
called (1124, 1504, 2250, 2766). The control flow is that of `Verif/Driver/Loop`. Of a line only the iteration number
and the last column are modelled; the other columns are numbers printed as they are.
-/

namespace Hiop.IterLog

open Hiop.Driver

/-- `lsStatus`, `lsNum`, `use_soc`, hiopAlgFilterIPM.cpp:1081-1083, 2204-2206. (`use_fr` is in `LState`.) -/
structure LsInfo where
  ls : Int
  num : ℕ
  soc : Bool

/-- Their values before the first iteration, hiopAlgFilterIPM.cpp:1081-1083, 2204-2206. -/
def info0 : LsInfo := ⟨-1, 0, false⟩

/-- The message of `displayTerminationMsg`, named by the text. Code: hiopAlgFilterIPM.cpp:848-925. -/
inductive Msg
  | success
  | successRelTol
  | acceptable
  | maxIter
  | smallStep
  | userStopped
  | frFailed
  | infeasible
  | stepError
  | unclear
  deriving DecidableEq

/-- What is printed. Code: hiopAlgFilterIPM.cpp:1523-1547, 851-923. -/
inductive Out
  | header
  /-- Iteration number; last column, `none` for `-(-)`. -/
  | line (n : ℕ) (step : Option (ℕ × Char))
  | msg (m : Msg)
  deriving DecidableEq

/-- `displayTerminationMsg`, hiopAlgFilterIPM.cpp:848-925. (The assertion of the last case is in `breakWith`.) -/
def terminationMsg : Status → Msg
  | .success => .success
  | .successRelTol => .successRelTol
  | .acceptable => .acceptable
  | .maxIter => .maxIter
  | .stepTooSmall => .smallStep
  | .userStopped => .userStopped
  | .errFR => .frFailed
  | .infeasible => .infeasible
  | .errStep => .stepError
  | .errUser => .unclear
  | .pending => .unclear

/-- `toupper` on the letters used. Code: hiopAlgFilterIPM.cpp:1538, 2800. -/
def upperC (ch : Char) : Char :=
  if ch = 's' then 'S' else if ch = 'h' then 'H' else if ch = 'f' then 'F' else ch

/-- `stepType`, hiopAlgFilterIPM.cpp:1531-1543, 2793-2806. -/
def stepType (i : LsInfo) (useFr : Bool) : Char :=
  let ch := if i.ls = 1 then 's' else if i.ls = 2 then 'h' else if i.ls = 3 then 'f' else '?'
  let ch := if i.soc = true ∧ 1 ≤ i.ls ∧ i.ls ≤ 3 then upperC ch else ch
  if useFr = true then 'R' else ch

/-- The last column; `newton` says which of the two versions of `outputIteration`, which differ in line 2804. Code:
hiopAlgFilterIPM.cpp:1526-1547, 2788-2810. -/
def column (newton : Bool) (i : LsInfo) (useFr : Bool) : Option (ℕ × Char) :=
  if i.ls = -1 then none
  else some (if newton = true ∧ useFr = true then 0 else i.num, stepType i useFr)

/-- `outputIteration`, hiopAlgFilterIPM.cpp:1521-1549, 2783-2812; `total` is `iter_num_total_`. -/
def outputIteration (newton : Bool) (iter total : ℕ) (i : LsInfo) (useFr : Bool) : List Out :=
  (if iter / 10 * 10 = iter then [.header] else []) ++ [.line total (column newton i useFr)]

/-- `use_soc` when the backtracking loop is left: set where the corrected step is accepted, hiopAlgFilterIPM.cpp:1341-1359,
2560-2578. -/
noncomputable def lsSoc (p : LsParams) (ans : ℕ → TrialAns) : ℕ → ℕ → LsState → Bool
  | 0, _, _ => false
  | fuel + 1, k, s =>
    match lsBody p (ans k) s with
    | .inl _ =>
      match (ans k).soc with
      | .accepted _ _ => s.ini && (ans k).evalOk && !p.disableLS && decide ((ans k).status = 0)
      | _ => false
    | .inr s' => lsSoc p ans fuel (k + 1) s'

/-- The variables after an attempt: unchanged if it did not reach the line search. Code: hiopAlgFilterIPM.cpp:1225-1362,
2400-2582. -/
noncomputable def passInfo (p : LsParams) (i : LsInfo) (t : Attempt) : LsInfo :=
  if t.kktOk = false then i
  else
    match t.dir with
    | .ok =>
      match lsRun p t.trials t.alphaMax with
      | some (.ended ls _ n _) => ⟨ls, n, lsSoc p t.trials (lsFuel p t.alphaMax) 0 (lsInit t.alphaMax)⟩
      | _ => i
    | _ => i

/-- The variables after an iteration of the Newton solver, hiopAlgFilterIPM.cpp:2376-2703. -/
noncomputable def newtonInfo (c : Cfg) (s : LState) (i : LsInfo) (a : IterAns) : LsInfo :=
  let safe := safeBefore c s.safe a.fast
  let i0 := passInfo ⟨c.disableLS, c.minStep, safe, true, c.asserts⟩ i (a.att 0)
  match newtonPass c s.iter (a.att 0) safe .pending s.useFr with
  | .again safe' _ _ => passInfo ⟨c.disableLS, c.minStep, safe', true, c.asserts⟩ i0 (a.att 1)
  | _ => i0

/-- The variables after an iteration of the quasi-Newton solver, hiopAlgFilterIPM.cpp:1225-1442. -/
noncomputable def qnInfo (c : Cfg) (_ : LState) (i : LsInfo) (a : IterAns) : LsInfo :=
  passInfo ⟨c.disableLS, c.minStep, true, false, c.asserts⟩ i (a.att 0)

/-- Is the loop of the Newton solver left by `break` in this iteration (and not by `return`)? Code:
hiopAlgFilterIPM.cpp:2276, 2283-2286, 2404-2466, 2705-2707, 2727-2731. -/
noncomputable def newtonBreaks (c : Cfg) (s : LState) (a : IterAns) : Bool :=
  let ended : PassOut → Bool
    | .done _ st _ => decide (st ≠ .pending)
    | .again _ st _ => decide (st ≠ .pending)
    | _ => false
  if a.cbOk = false then true
  else if (checkTermination c.tols (s.e0.getD a.errs) a.errs s.iter s.nAcc).1.isSome then true
  else
    match newtonPass c s.iter (a.att 0) (safeBefore c s.safe a.fast) .pending s.useFr with
    | .again safe st u => ended (newtonPass c s.iter (a.att 1) safe st u)
    | o => ended o

/-- The same for the quasi-Newton solver: once the line search has ended, only a failed evaluation of the derivatives
returns. Code: hiopAlgFilterIPM.cpp:1149, 1160-1163, 1225-1262, 1304-1309, 1421-1444, 1471-1476. -/
noncomputable def qnBreaks (c : Cfg) (s : LState) (a : IterAns) : Bool :=
  if a.cbOk = false then true
  else if (checkTermination c.tols (s.e0.getD a.errs) a.errs s.iter s.nAcc).1.isSome then true
  else if (a.att 0).kktOk = false then false
  else
    match (a.att 0).dir with
    | .ok =>
      match lsRun ⟨c.disableLS, c.minStep, true, false, c.asserts⟩ (a.att 0).trials (a.att 0).alphaMax with
      | some (.ended _ _ _ _) =>
        match qnIter c s a with
        | .inl (.ret _ j) => decide (j = s.iter)
        | _ => false
      | _ => false
    | _ => false

/-- One of the two solvers. Code: hiopAlgFilterIPM.cpp:1521, 2783. -/
structure Solver where
  newton : Bool
  body : LState → IterAns → Res ⊕ LState
  info : LState → LsInfo → IterAns → LsInfo
  breaks : LState → IterAns → Bool

/-- `hiopAlgFilterIPMNewton`, hiopAlgFilterIPM.cpp:2213-2762. -/
noncomputable def newtonSolver (c : Cfg) : Solver := ⟨true, newtonIter c, newtonInfo c, newtonBreaks c⟩

/-- `hiopAlgFilterIPMQuasiNewton`, hiopAlgFilterIPM.cpp:1091-1504. -/
noncomputable def qnSolver (c : Cfg) : Solver := ⟨false, qnIter c, qnInfo c, qnBreaks c⟩

/-- What a run prints, and its result. `base` is `iter_num_total_` at the start: 0, or what a checkpoint holds
(hiopAlgFilterIPM.cpp:1005, 1680, 2154). Code: hiopAlgFilterIPM.cpp:1091-1504, 2213-2766. -/
def logRun (v : Solver) (env : ℕ → IterAns) (base : ℕ) : ℕ → LState → LsInfo → List Out × Option Res
  | 0, _, _ => ([], none)
  | fuel + 1, s, i =>
    let o := outputIteration v.newton s.iter (base + s.iter) i s.useFr
    match v.body s (env s.iter) with
    | .inl r =>
      match r with
      | .ret st _ => (o ++ (if v.breaks s (env s.iter) then [.msg (terminationMsg st)] else []), some r)
      | _ => (o, some r)
    | .inr s' =>
      let rest := logRun v env base fuel s' (v.info s i (env s.iter))
      (o ++ rest.1, rest.2)

end Hiop.IterLog
