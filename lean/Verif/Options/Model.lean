import Verif.Options.Table
import Mathlib.Logic.Function.Basic
import Mathlib.Data.List.Basic
import Mathlib.Data.List.Lookmap

/-!
# Reading, setting and reconciling options (`src/Utils/hiopOptions.cpp`)

The option map is a function from names to entries.  `Option` results model `assert`: `none` is a failed
assertion.  Messages are dropped.  The virtual `ensure_consistence` is a parameter of the setters, so that
one model serves both registries.
-/

namespace Hiop.Options

/-- An entry of the option map: the typed value and the two flags of `hiopOptions::Option`
(`src/Utils/hiopOptions.hpp:155-163`). -/
structure Entry where
  o : Opt
  inFile : Bool
  atRun : Bool
  deriving DecidableEq

/-- `mOptions_` (`src/Utils/hiopOptions.hpp:186`). -/
abbrev Store := String → Option Entry

/-- `register_options`: `mOptions_[name] = new ...` for each entry in turn; the flags start as `false`
(`src/Utils/hiopOptions.cpp:109-139`, `src/Utils/hiopOptions.hpp:156-157`). -/
def register (t : List (String × Opt)) : Store :=
  t.foldl (fun m p => Function.update m p.1 (some ⟨p.2, false, false⟩)) (fun _ => none)

/-- `GetNumeric` (`src/Utils/hiopOptions.cpp:79-87`): asserts that the option exists and is numeric. -/
def getNum (m : Store) (k : String) : Option (Option ℚ) :=
  match m k with
  | some ⟨.num v _ _, _, _⟩ => some v
  | _ => none

/-- `GetInteger` (`src/Utils/hiopOptions.cpp:89-97`). -/
def getInt (m : Store) (k : String) : Option ℤ :=
  match m k with
  | some ⟨.int v _ _, _, _⟩ => some v
  | _ => none

/-- `GetString` (`src/Utils/hiopOptions.cpp:99-107`). -/
def getStr (m : Store) (k : String) : Option String :=
  match m k with
  | some ⟨.str v _, _, _⟩ => some v
  | _ => none

/-- `is_user_defined` (`src/Utils/hiopOptions.cpp:242-249`). -/
def userDefined (m : Store) (k : String) : Bool :=
  match m k with
  | some e => e.inFile || e.atRun
  | none => false

/-- `a < b` on doubles: false when either is not a number. Code: as in hiopOptions.cpp:260, hiopOptions.cpp:329. -/
def ltD : Option ℚ → Option ℚ → Bool
  | some a, some b => decide (a < b)
  | _, _ => false

/-- `value < lb || value > ub` on doubles, the range test of the numeric setters
(`src/Utils/hiopOptions.cpp:260, 299`): false when `value` is not a number. -/
def outside (v : Option ℚ) (lb ub : ℚ) : Bool := ltD v (some lb) || ltD (some ub) v

/-- `transform(..., ::tolower)` (`src/Utils/hiopOptions.cpp:397, 442`), in the "C" locale. -/
def lower (s : String) : String := String.ofList (s.toList.map Char.toLower)

/-- `!inrange && !range.empty()`, the range test of the string setters
(`src/Utils/hiopOptions.cpp:398-404, 443-450`). -/
def strOutside (v : String) (range : List String) : Bool := !range.contains v && !range.isEmpty

/-- Internal `set_val` for doubles (`src/Utils/hiopOptions.cpp:251-270`): asserts existence, type and
range; leaves the flags alone. -/
def setValNum (m : Store) (k : String) (v : Option ℚ) : Option Store :=
  match m k with
  | some ⟨.num _ lb ub, f, r⟩ =>
    if outside v lb ub then none else some (Function.update m k (some ⟨.num v lb ub, f, r⟩))
  | _ => none

/-- Internal `set_val` for strings (`src/Utils/hiopOptions.cpp:388-414`): lower-cases, asserts existence,
type and range; leaves the flags alone. -/
def setValStr (m : Store) (k : String) (v : String) : Option Store :=
  match m k with
  | some ⟨.str _ range, f, r⟩ =>
    if strOutside (lower v) range then none
    else some (Function.update m k (some ⟨.str (lower v) range, f, r⟩))
  | _ => none

/-- `SetNumericValue` (`src/Utils/hiopOptions.cpp:271-317`).  `ens` is `ensure_consistence`. -/
def setNumeric (ens : Store → Option Store) (m : Store) (name : String) (v : Option ℚ) (fromFile : Bool) :
    Option Store :=
  match m name with
  | some ⟨.num old lb ub, f, r⟩ =>
    if f && !fromFile then some m
    else
      ens (Function.update m name
        (some ⟨.num (if outside v lb ub then old else v) lb ub, f || fromFile, r || !fromFile⟩))
  | _ => ens m

/-- `SetIntegerValue` (`src/Utils/hiopOptions.cpp:342-386`): like the numeric setter, except that a
setting at run time is not recorded as such. -/
def setInteger (ens : Store → Option Store) (m : Store) (name : String) (v : ℤ) (fromFile : Bool) :
    Option Store :=
  match m name with
  | some ⟨.int old lb ub, f, r⟩ =>
    if f && !fromFile then some m
    else
      ens (Function.update m name
        (some ⟨.int (if v < lb ∨ v > ub then old else v) lb ub, f || fromFile, r⟩))
  | _ => ens m

/-- `SetStringValue` (`src/Utils/hiopOptions.cpp:416-474`): lower-cases; a setting at run time is not
recorded as such. -/
def setString (ens : Store → Option Store) (m : Store) (name : String) (v : String) (fromFile : Bool) :
    Option Store :=
  match m name with
  | some ⟨.str old range, f, r⟩ =>
    if f && !fromFile then some m
    else
      ens (Function.update m name
        (some ⟨.str (if strOutside (lower v) range then old else lower v) range, f || fromFile, r⟩))
  | _ => ens m

/-- What `stringstream >> double` and `>> int` extract from a token: `none` when extraction fails
(`src/Utils/hiopOptions.cpp:195-198, 214-215`).  Any function whatsoever. -/
structure Parser where
  num : String → Option (Option ℚ)
  int : String → Option ℤ

/-- `std::isspace` in the "C" locale. Code: hiopOptions.cpp:148. -/
def isSpace (c : Char) : Bool :=
  c = ' ' || c = '\t' || c = '\n' || c = '\x0b' || c = '\x0c' || c = '\r'

/-- The blank-separated tokens of a line, as `istringstream >> name >> value` reads them
(`src/Utils/hiopOptions.cpp:178-183`). -/
def tokens (line : String) : List String :=
  ((line.toList.splitOnP isSpace).filter (fun w => !w.isEmpty)).map String.ofList

/-- One line of `load_from_file` (`src/Utils/hiopOptions.cpp:171-239`): comments, blank lines, lines with a
single token, unknown names and values that cannot be parsed are skipped. -/
def loadLine (ens : Store → Option Store) (P : Parser) (m : Store) (line : String) : Option Store :=
  match tokens line with
  | name :: value :: _ =>
    if name.toList.head? = some '#' then some m
    else
      match m name with
      | some ⟨.num .., _, _⟩ =>
        match P.num value with
        | some v => setNumeric ens m name v true
        | none => some m
      | some ⟨.str .., _, _⟩ => setString ens m name value true
      | some ⟨.int .., _, _⟩ =>
        match P.int value with
        | some v => setInteger ens m name v true
        | none => some m
      | none => some m
  | _ => some m

/-- The constructors (`src/Utils/hiopOptions.cpp:552-558, 1596-1602`): register, read the file (no lines when
it cannot be opened), reconcile. -/
def construct (t : List (String × Opt)) (ens : Store → Option Store) (P : Parser) (file : List String) :
    Option Store := do
  let m ← file.foldlM (loadLine ens P) (register t)
  ens m

/-- A call of one of the public setters; the Boolean is the optional last argument `setFromFile`. Code: hiopOptions.cpp:271, hiopOptions.cpp:342, hiopOptions.cpp:416. -/
inductive Call
  | num (name : String) (v : Option ℚ) (fromFile : Bool)
  | int (name : String) (v : ℤ) (fromFile : Bool)
  | str (name : String) (v : String) (fromFile : Bool)

/-- Performing a call. Code: hiopOptions.cpp:271, hiopOptions.cpp:342, hiopOptions.cpp:416. -/
def Call.run (ens : Store → Option Store) (m : Store) : Call → Option Store
  | .num k v f => setNumeric ens m k v f
  | .int k v f => setInteger ens m k v f
  | .str k v f => setString ens m k v f

/-- A whole history: construction from an options file, then any calls. No counterpart in the code: used only to state and run the model. -/
def history (t : List (String × Opt)) (ens : Store → Option Store) (P : Parser) (file : List String)
    (calls : List Call) : Option Store := do
  let m ← construct t ens P file
  calls.foldlM (Call.run ens) m

/-! ### `hiopOptionsPriDec::ensure_consistence` and the tolerance rules -/

/-- A tolerance that the user set tighter than `tolerance` is raised to it
(`src/Utils/hiopOptions.cpp:1315-1354`, `1715-1724`).  The code reads
`tolerance` once; no rule changes it. -/
def tolRule (k : String) (m : Store) : Option Store := do
  let v ← getNum m k
  let t ← getNum m "tolerance"
  if ltD v t && userDefined m k then setValNum m k t else some m

/-- `hiopOptionsPriDec::ensure_consistence` (`src/Utils/hiopOptions.cpp:1711-1725`). -/
def ensurePriDec (m : Store) : Option Store := tolRule "acceptable_tolerance" m

/-! ### `hiopOptionsNLP::ensure_consistence`, rule by rule -/

/-- `if(c) set_val(k, v);`, the form of every string rule (e.g. `src/Utils/hiopOptions.cpp:1524-1526`). -/
def assignIf (c : Bool) (m : Store) (k v : String) : Option Store :=
  if c then setValStr m k v else some m

/-- A user-chosen quasi-Newton Hessian excludes the Newton KKT systems
(`src/Utils/hiopOptions.cpp:1356-1366`). -/
def hessKktRule (m : Store) : Option Store := do
  let h ← getStr m "Hessian"
  if h == "quasinewton_approx" then
    let k ← getStr m "KKTLinsys"
    if (k == "xycyd" || k == "xdycyd" || k == "full" || k == "normaleqn") && userDefined m "Hessian" then
      setValStr m "KKTLinsys" "auto"
    else some m
  else some m

/-- The exact Hessian requires the linear duals update (`src/Utils/hiopOptions.cpp:1368-1383`). -/
def hessDualsRule (m : Store) : Option Store := do
  let h ← getStr m "Hessian"
  if h == "analytical_exact" then
    let d ← getStr m "duals_update_type"
    if d != "linear" then setValStr m "duals_update_type" "linear" else some m
  else some m

/-- Sparse solver against KKT system (`src/Utils/hiopOptions.cpp:1388-1412`); `solSp` is the local variable
`sol_sp` read at line 1389. -/
def kktSolverRule (solSp : String) (m : Store) : Option Store := do
  let k ← getStr m "KKTLinsys"
  if k == "full" then
    if solSp != "resolve" && solSp != "pardiso" && solSp != "strumpack" && solSp != "auto" then
      setValStr m "linear_solver_sparse" "auto"
    else some m
  else if k == "condensed" then
    if solSp != "cusolver-chol" && solSp != "auto" then setValStr m "linear_solver_sparse" "auto"
    else some m
  else some m

/-- No CUDA solver without CUDA (`src/Utils/hiopOptions.cpp:1414-1424`); tests the value `solSp` read before
the previous rule. -/
def cudaSolverRule (b : Build) (solSp : String) (m : Store) : Option Store :=
  if !b.cuda && (solSp == "resolve" || solSp == "cusolver-chol") then
    setValStr m "linear_solver_sparse" "auto"
  else some m

/-- Ginkgo executors (`src/Utils/hiopOptions.cpp:1426-1450`). -/
def ginkgoRule (b : Build) (solSp : String) (m : Store) : Option Store :=
  if b.ginkgo then do
    let e ← getStr m "ginkgo_exec"
    let m ← assignIf (!b.cuda && solSp == "ginkgo" && e == "cuda") m "ginkgo_exec" "reference"
    assignIf (!b.hip && solSp == "ginkgo" && e == "hip") m "ginkgo_exec" "reference"
  else some m

/-- Orderings (`src/Utils/hiopOptions.cpp:1454-1470`). -/
def orderingRule (b : Build) (m : Store) : Option Store :=
  if b.cuda && !b.eigen then do
    let o ← getStr m "linear_solver_sparse_ordering"
    if o == "symamd-eigen" then setValStr m "linear_solver_sparse_ordering" "symamd-cuda" else some m
  else some m

/-- Without RAJA: no GPU mode and only the default memory space (`src/Utils/hiopOptions.cpp:1473-1491`). -/
def rajaRule (b : Build) (m : Store) : Option Store :=
  if !b.raja then do
    let c ← getStr m "compute_mode"
    let m ← assignIf (c == "gpu") m "compute_mode" "hybrid"
    let s ← getStr m "mem_space"
    assignIf (s != "default") m "mem_space" "default"
  else some m

/-- Memory space of the callbacks (`src/Utils/hiopOptions.cpp:1493-1506`). -/
def memSpaceRule (m : Store) : Option Store := do
  let s ← getStr m "mem_space"
  let c ← getStr m "callback_mem_space"
  if s != c then
    if (userDefined m "callback_mem_space" && s != "device") || (c == "um" && s == "device") then
      setValStr m "callback_mem_space" s
    else if c == "default" then setValStr m "callback_mem_space" s
    else some m
  else some m

/-- Without GPU solvers the mode is `cpu` (`src/Utils/hiopOptions.cpp:1509-1527`). -/
def gpuRule (b : Build) (m : Store) : Option Store :=
  if !b.gpu then do
    let c ← getStr m "compute_mode"
    let m ← assignIf (c == "hybrid") m "compute_mode" "cpu"
    let c ← getStr m "compute_mode"
    let m ← assignIf (c == "gpu") m "compute_mode" "cpu"
    let c ← getStr m "compute_mode"
    assignIf (c == "auto") m "compute_mode" "cpu"
  else some m

/-- No removal of fixed variables in GPU mode (`src/Utils/hiopOptions.cpp:1530-1537`). -/
def fixedVarRule (m : Store) : Option Store := do
  let c ← getStr m "compute_mode"
  if c == "gpu" then
    let f ← getStr m "fixed_var"
    if f == "remove" then setValStr m "fixed_var" "relax" else some m
  else some m

/-- Inertia-free acceptance for solvers without inertia (`src/Utils/hiopOptions.cpp:1541-1561`). -/
def inertiaRule (m : Store) : Option Store := do
  let k ← getStr m "KKTLinsys"
  if k == "full" then
    let f ← getStr m "fact_acceptor"
    if f == "inertia_correction" then setValStr m "fact_acceptor" "inertia_free" else some m
  else
    let s ← getStr m "linear_solver_sparse"
    if s == "strumpack" || s == "resolve" then
      let f ← getStr m "fact_acceptor"
      if f == "inertia_correction" then setValStr m "fact_acceptor" "inertia_free" else some m
    else some m

/-- `0 != a * b` on doubles (true when either is not a number).  The product is exact: underflow of two
tiny limits to zero is not modelled. Code: hiopOptions.cpp:1563. -/
def prodNonzero : Option ℚ → Option ℚ → Bool
  | some a, some b => decide (a * b ≠ 0)
  | _, _ => true

/-- Absolute and relative moving limits exclude each other (`src/Utils/hiopOptions.cpp:1563-1570`). -/
def movingRule (m : Store) : Option Store := do
  let r ← getNum m "moving_lim_rel"
  let a ← getNum m "moving_lim_abs"
  if prodNonzero r a then setValNum m "moving_lim_rel" (some 0) else some m

/-- The checkpointing options (`src/Utils/hiopOptions.cpp:1573-1576`). -/
def chkOpts : List String :=
  ["checkpoint_save", "checkpoint_save_every_N_iter", "checkpoint_file", "checkpoint_load_on_start"]

/-- Without Axom the checkpointing options lose their "user defined" marks
(`src/Utils/hiopOptions.cpp:1572-1590`). -/
def axomRule (b : Build) (m : Store) : Option Store :=
  if !b.axom && chkOpts.any (userDefined m) then
    some (chkOpts.foldl (fun m k => Function.update m k ((m k).map fun e => { e with
      inFile := false, atRun := false })) m)
  else some m

/-- `hiopOptionsNLP::ensure_consistence` (`src/Utils/hiopOptions.cpp:1311-1591`). -/
def ensureNlp (b : Build) (m : Store) : Option Store := do
  let m ← tolRule "acceptable_tolerance" m
  let m ← tolRule "dual_tol" m
  let m ← tolRule "cons_tol" m
  let m ← tolRule "comp_tol" m
  let m ← hessKktRule m
  let m ← hessDualsRule m
  let solSp ← getStr m "linear_solver_sparse"
  let m ← kktSolverRule solSp m
  let m ← cudaSolverRule b solSp m
  let m ← ginkgoRule b solSp m
  let m ← orderingRule b m
  let m ← rajaRule b m
  let m ← memSpaceRule m
  let m ← gpuRule b m
  let m ← fixedVarRule m
  let m ← inertiaRule m
  let m ← movingRule m
  axomRule b m

end Hiop.Options
