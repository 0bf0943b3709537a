import Verif.Options.Model

/-!
# Choice of the KKT formulation, of its linear solver and of the factorization acceptor

Models src/Optimization/hiopAlgFilterIPM.cpp:1848-2100 and 2205-2395,
src/Optimization/hiopKKTLinSysSparse.cpp:268-390, 601-862,
src/Optimization/hiopKKTLinSysSparseCondensed.cpp:454-507,
src/Optimization/hiopKKTLinSysSparseNormalEqn.cpp:374-421 and
src/Optimization/hiopKKTLinSysMDS.cpp:405-484.

A failed assertion is `none`. Objects are represented by their class. The options are read from a store of
`Verif/Options`. Log messages are not modelled.
-/

namespace Hiop.Select

open Hiop.Options

/-- The preprocessor flags: those of the options (`HIOP_USE_CUDA`, `_RAJA`, `_GINKGO`, ...) and
`HIOP_SPARSE`, `HIOP_USE_COINHSL`, `_PARDISO`, `_STRUMPACK`, `_RESOLVE`, `_MAGMA`. Code: hiopKKTLinSysSparse.cpp:268-390. -/
structure Libs where
  opt : Build
  sparse : Bool
  coinhsl : Bool
  pardiso : Bool
  strumpack : Bool
  resolve : Bool
  magma : Bool

/-- The NLP formulation classes as far as `dynamic_cast` distinguishes them here
(src/Optimization/hiopAlgFilterIPM.cpp:1850-1858, 2079): `hiopNlpMDS`, `hiopNlpSparse` (of which
`hiopNlpSparseIneq` is a subclass), and the rest. -/
inductive Problem
  | dense
  | mds
  | sparse
  | sparseIneq
  deriving DecidableEq

/-- The classes derived from `hiopKKTLinSys` that `decideAndCreateLinearSystem` creates
(src/Optimization/hiopAlgFilterIPM.cpp:1861-1892). -/
inductive Form
  | denseXYcYd
  | denseXDYcYd
  | mdsXYcYd
  | full
  | xycyd
  | xdycyd
  | condensed
  | normaleqn
  deriving DecidableEq

/-- The linear solver classes. `csrMa57` is `hiopLinSolverSparseCsrMa57`, `cuChol`
`hiopLinSolverCholCuSparse`, `lu...` the two non-symmetric ones, `lapack`, `magmaBuKa` and `magmaNopiv` the
dense symmetric ones. Models the class names in the ranges listed at the top. Code: hiopKKTLinSysSparse.cpp:268-390, hiopKKTLinSysMDS.cpp:405-484. -/
inductive Solver
  | ma57
  | pardiso
  | strumpack
  | ginkgo
  | resolve
  | csrMa57
  | cuChol
  | luPardiso
  | luStrumpack
  | lapack
  | magmaBuKa
  | magmaNopiv
  deriving DecidableEq

/-- The acceptors with their required number of negative eigenvalues, src/Optimization/hiopFactAcceptor.hpp:
`hiopFactAcceptorIC` and `hiopFactAcceptorInertiaFreeDWD`. -/
inductive Acceptor
  | ic (required : ℕ)
  | dwd (required : ℕ)
  deriving DecidableEq

/-- `dynamic_cast<hiopFactAcceptorIC*>(fact_acceptor_)` is not null
(src/Optimization/hiopKKTLinSysSparse.cpp:308). -/
def Acceptor.isIC : Acceptor → Bool
  | .ic _ => true
  | .dwd _ => false

/-- The option values read here. Code: hiopAlgFilterIPM.cpp:1858, hiopAlgFilterIPM.cpp:2073, hiopAlgFilterIPM.cpp:2210-2211. -/
structure Opts where
  kkt : String
  lin : String
  mode : String
  acc : String
  linsol : String

/-- `options->GetString` for the options read here. Code: hiopAlgFilterIPM.cpp:1858, hiopAlgFilterIPM.cpp:2073, hiopAlgFilterIPM.cpp:2210-2211. -/
def readOpts (m : Store) : Option Opts := do
  let kkt ← getStr m "KKTLinsys"
  let lin ← getStr m "linear_solver_sparse"
  let mode ← getStr m "compute_mode"
  let acc ← getStr m "fact_acceptor"
  let linsol ← getStr m "linsol_mode"
  some ⟨kkt, lin, mode, acc, linsol⟩

/-- `hiopAlgFilterIPMNewton::decideAndCreateLinearSystem`, src/Optimization/hiopAlgFilterIPM.cpp:1848-1901.
`cons` is `nlp->m()`. -/
def decideForm (L : Libs) (p : Problem) (cons : ℕ) (o : Opts) : Option Form :=
  match p with
  | .mds => some .mdsXYcYd
  | .dense => if o.kkt == "xdycyd" then some .denseXDYcYd else some .denseXYcYd
  | .sparse | .sparseIneq =>
    if L.sparse then
      if o.kkt == "full" then some .full
      else if o.kkt == "xdycyd" then some .xdycyd
      else if o.kkt == "condensed" then some .condensed
      else if o.kkt == "normaleqn" then
        if cons > 0 then some .normaleqn else some .xycyd
      else some .xycyd
    else none

/-- `hiopAlgFilterIPMBase::decideAndCreateFactAcceptor`, src/Optimization/hiopAlgFilterIPM.cpp:2070-2100.
The required number for the condensed system is special under `#ifdef HIOP_SPARSE` for the inertia-free
acceptor, under `HIOP_SPARSE` and `HIOP_USE_RAJA` for the other one. -/
def decideAcceptor (L : Libs) (p : Problem) (cons : ℕ) (o : Opts) (f : Form) : Option Acceptor :=
  if o.acc == "inertia_free" then
    if L.sparse && f == .condensed then
      if p == .sparseIneq then some (.dwd 0) else none
    else some (.dwd cons)
  else
    if L.sparse && L.opt.raja && f == .condensed then
      if p == .sparseIneq then some (.ic 0) else none
    else some (.ic cons)

/-- One block `if(cond) { #ifdef avail; linSys_ = new s; [if IC acceptor assert(false)]; #endif }` of the
selection code (e.g. src/Optimization/hiopKKTLinSysSparse.cpp:300-317). -/
def block (cond avail : Bool) (s : Solver) (noIC ic : Bool) (cur : Option Solver) : Option (Option Solver) :=
  if cond && avail then
    if noIC && ic then none else some (some s)
  else some cur

/-- `assert(c)`. Code: as in hiopKKTLinSysSparse.cpp:274, hiopKKTLinSysSparse.cpp:331. -/
def chk (c : Bool) : Option Unit := if c then some () else none

/-- `(nullptr == linSys_ && linear_solver == "auto") || linear_solver == name`
(e.g. src/Optimization/hiopKKTLinSysSparse.cpp:291). -/
def want (o : Opts) (name : String) (cur : Option Solver) : Bool :=
  (cur == none && o.lin == "auto") || o.lin == name

/-- `hiopKKTLinSysCompressedSparseXYcYd::determineAndCreateLinsys` when no solver exists,
src/Optimization/hiopKKTLinSysSparse.cpp:268-390. -/
def xycydLinsys (L : Libs) (o : Opts) (ic safe : Bool) : Option (Option Solver) := do
  chk (!safe)
  if o.mode == "cpu" then
    let c ← block (o.lin == "ma57" || o.lin == "auto") L.coinhsl .ma57 false ic none
    let c ← block (want o "pardiso" c) L.pardiso .pardiso false ic c
    let c ← block (want o "strumpack" c) L.strumpack .strumpack true ic c
    let c ← block (want o "ginkgo" c) L.opt.ginkgo .ginkgo false ic c
    chk c.isSome
    some c
  else
    chk (o.mode != "gpu")
    let c ← block (want o "resolve" none) L.resolve .resolve true ic none
    let c ← block (want o "strumpack" c) L.strumpack .strumpack true ic c
    let c ← block (want o "ma57" c) L.coinhsl .ma57 false ic c
    let c ← block (want o "pardiso" c) L.pardiso .pardiso false ic c
    chk c.isSome
    some c

/-- `hiopKKTLinSysCompressedSparseXDYcYd::determineAndCreateLinsys` when no solver exists,
src/Optimization/hiopKKTLinSysSparse.cpp:601-788. `some none` is a returned null pointer. -/
def xdycydLinsys (L : Libs) (o : Opts) (ic safe : Bool) : Option (Option Solver) :=
  if safe then do
    chk (o.mode == "hybrid" || o.mode == "cpu" || o.mode == "auto")
    chk L.coinhsl
    some (some .ma57)
  else if o.mode == "cpu" then do
    let c ← block (o.lin == "ma57" || o.lin == "auto") L.coinhsl .ma57 false ic none
    let c ← block (want o "pardiso" c) L.pardiso .pardiso false ic c
    let c ← block (want o "strumpack" c) L.strumpack .strumpack true ic c
    let c ← block (want o "ginkgo" c) L.opt.ginkgo .ginkgo false ic c
    chk c.isSome
    some c
  else if o.mode == "hybrid" || o.mode == "auto" then do
    let c ← block (o.lin == "resolve" || o.lin == "auto") L.resolve .resolve true ic none
    let c ← block (c == none && (o.lin == "strumpack" || o.lin == "auto")) L.strumpack .strumpack true ic c
    if o.lin == "auto" then
      chk c.isSome
      some none
    else
      let c ← block (c == none && o.lin == "ma57") L.coinhsl .ma57 false ic c
      -- line 745 creates an MA57 object for PARDISO
      let c ← block (c == none && o.lin == "pardiso") L.pardiso .ma57 false ic c
      chk c.isSome
      some c
  else if o.mode == "gpu" then do
    let c ← block (o.lin == "resolve" || o.lin == "auto") L.resolve .resolve true ic none
    chk c.isSome
    some c
  else none

/-- `hiopKKTLinSysSparseFull::determineAndCreateLinsys` when no solver exists,
src/Optimization/hiopKKTLinSysSparse.cpp:816-862. -/
def fullLinsys (L : Libs) (o : Opts) (ic safe : Bool) : Option (Option Solver) := do
  chk (!safe)
  chk (!ic)
  chk (o.mode == "hybrid" || o.mode == "cpu")
  if L.pardiso then some (some .luPardiso)
  else if L.strumpack then some (some .luStrumpack)
  else none

/-- `determine_and_create_linsys` of the condensed and of the normal-equation system when no solver exists,
src/Optimization/hiopKKTLinSysSparseCondensed.cpp:454-507 and hiopKKTLinSysSparseNormalEqn.cpp:374-421. -/
def cholLinsys (L : Libs) (o : Opts) : Option (Option Solver) :=
  if o.mode == "cpu" then do
    chk (o.lin == "ma57" || o.lin == "auto")
    chk L.coinhsl
    some (some .csrMa57)
  else do
    chk (o.lin == "cusolver-chol" || o.lin == "auto")
    chk L.opt.cuda
    some (some .cuChol)

/-- `hiopKKTLinSysCompressedMDSXYcYd::determineAndCreateLinsys`, src/Optimization/hiopKKTLinSysMDS.cpp:405-484.
`cur` is the solver of the previous call. In a MAGMA build an object of the other kind is deleted first. -/
def mdsLinsys (L : Libs) (o : Opts) (safe : Bool) (cur : Option Solver) : Option Solver :=
  let keep : Option Solver :=
    if L.magma then
      if safe then (if cur == some .magmaBuKa then cur else none)
      else (if cur == some .magmaNopiv then cur else none)
    else cur
  match keep with
  | some s => some s
  | none =>
    if o.mode == "cpu" then some .lapack
    else if L.magma then
      if o.mode == "hybrid" || o.mode == "gpu" || o.mode == "auto" then
        if safe then some .magmaBuKa else some .magmaNopiv
      else some .lapack
    else some .lapack

/-- The choice in `build_kkt_matrix` of the two dense formulations,
src/Optimization/hiopKKTLinSysDense.hpp:98-119, 262-284. -/
def denseLinsys (L : Libs) (o : Opts) (cur : Option Solver) : Option Solver :=
  match cur with
  | some s => some s
  | none =>
    if o.mode == "hybrid" || o.mode == "gpu" then
      if L.magma then some .magmaNopiv else some .lapack
    else some .lapack

/-- The first lines of `build_kkt_matrix` of every formulation: the solver is determined and asserted to
exist (src/Optimization/hiopKKTLinSysSparse.cpp:111-114, 439-442, 906-909,
hiopKKTLinSysSparseCondensed.cpp:324, hiopKKTLinSysSparseNormalEqn.cpp:352, hiopKKTLinSysMDS.cpp:147).
The dense formulations choose when they have none: src/Optimization/hiopKKTLinSysDense.hpp:98-119, 262-284. -/
def linsys (L : Libs) (o : Opts) (ic safe : Bool) (f : Form) (cur : Option Solver) : Option Solver :=
  match f with
  | .mdsXYcYd => mdsLinsys L o safe cur
  | .denseXYcYd | .denseXDYcYd => denseLinsys L o cur
  | _ =>
    match cur with
    | some s => some s
    | none =>
      match f with
      | .xycyd => (xycydLinsys L o ic safe).join
      | .xdycyd => (xdycydLinsys L o ic safe).join
      | .full => (fullLinsys L o ic safe).join
      | _ => (cholLinsys L o).join

/-! ## The state of a run -/

/-- Local variables of `run` that the switching functions change, with the KKT object (its class, its
solver and its `safe_mode_`) and the acceptor. Code: hiopAlgFilterIPM.cpp:2210-2211. -/
structure St where
  form : Form
  solver : Option Solver
  acceptor : Acceptor
  safe : Bool
  maxIters : ℕ
  lastOn : ℕ
  thetaMu : ℚ
  kappaMu : ℚ

/-- Before the first iteration: src/Optimization/hiopAlgFilterIPM.cpp:2125, 2161-2163, 2190-2191, 2209-2210.
`theta`, `kappa` are the values of the options. -/
def start (L : Libs) (p : Problem) (cons : ℕ) (o : Opts) (theta kappa : ℚ) : Option St := do
  let f ← decideForm L p cons o
  let a ← decideAcceptor L p cons o f
  some ⟨f, none, a, o.linsol == "stable", 10, 100000, theta, kappa⟩

/-- `switch_to_safer_KKT`, src/Optimization/hiopAlgFilterIPM.cpp:1903-1981 (the block under `#if 0` is not
compiled). The new object has no solver. -/
def toSafer (L : Libs) (cons : ℕ) (o : Opts) (iter : ℕ) (s : St) : Option St :=
  if L.sparse && s.safe && s.form == .condensed then do
    chk (o.kkt == "condensed")
    some { s with form := .xdycyd, solver := none, acceptor := .ic cons, lastOn := iter,
                  thetaMu := 12 / 10, kappaMu := 4 / 10 }
  else some s

/-- `switch_to_fast_KKT`, src/Optimization/hiopAlgFilterIPM.cpp:1983-2067. `muBig` is `mu>1e-6`. The
comparison is between `int`s: `iter_num - last > max`. -/
def toFast (L : Libs) (p : Problem) (cons : ℕ) (o : Opts) (iter : ℕ) (muBig : Bool) (s : St) : Option St :=
  let due : Bool := s.safe && decide ((iter : ℤ) - s.lastOn > s.maxIters) && muBig
  if L.sparse && (s.form != .condensed) && o.kkt == "condensed" && due then do
    let a ← decideAcceptor L p cons o .condensed
    some { s with form := .condensed, solver := none, acceptor := a, safe := false,
                  maxIters := 2 * s.maxIters, lastOn := 100000, thetaMu := 105 / 100, kappaMu := 8 / 10 }
  else if p == .mds && due then
    some { s with safe := false, maxIters := 2 * s.maxIters, lastOn := 100000 }
  else some s

/-- The block before the linear-solve loop, src/Optimization/hiopAlgFilterIPM.cpp:2347-2378. -/
def beginIter (L : Libs) (p : Problem) (cons : ℕ) (o : Opts) (iter : ℕ) (muBig : Bool) (s : St) : Option St :=
  if o.linsol == "forcequick" then some { s with safe := false }
  else if o.linsol == "speculative" then toFast L p cons o iter muBig s
  else do
    chk (o.linsol == "stable")
    some { s with safe := true }

/-- One pass of the linear-solve loop up to and including the choice of the solver,
src/Optimization/hiopAlgFilterIPM.cpp:2380-2400. -/
def pass (L : Libs) (cons : ℕ) (o : Opts) (iter : ℕ) (s : St) : Option St := do
  let s ← toSafer L cons o iter s
  let v ← linsys L o s.acceptor.isIC s.safe s.form s.solver
  some { s with solver := some v }

/-- The course of an iteration: whether `mu>1e-6`; whether the first pass fails in a way that asks for safe
mode; whether there is a second pass and whether that one asks for it. Code: hiopAlgFilterIPM.cpp:2356. -/
structure Ev where
  muBig : Bool
  ask1 : Bool
  second : Option Bool

/-- A failed pass switches safe mode on unless the mode is `forcequick`
(src/Optimization/hiopAlgFilterIPM.cpp:2400-2420, 2432-2456, 2655-2700, 3343-3362, 3387-3406). A failure in
safe mode or in the `forcequick` mode ends the run; here the run may also go on unchanged. -/
def askSafe (o : Opts) (ask : Bool) (s : St) : St :=
  if ask && o.linsol != "forcequick" then { s with safe := true } else s

/-- One iteration: the block before the loop and at most two passes,
src/Optimization/hiopAlgFilterIPM.cpp:2347-2703. -/
def iteration (L : Libs) (p : Problem) (cons : ℕ) (o : Opts) (iter : ℕ) (e : Ev) (s : St) : Option St := do
  let s ← beginIter L p cons o iter e.muBig s
  let s ← pass L cons o iter s
  let s := askSafe o e.ask1 s
  match e.second with
  | none => some s
  | some ask => do
    let s ← pass L cons o iter s
    some (askSafe o ask s)

/-- A run: the iterations `0, 1, ..., T-1` (src/Optimization/hiopAlgFilterIPM.cpp:2214-2748). -/
def runTo (L : Libs) (p : Problem) (cons : ℕ) (o : Opts) (theta kappa : ℚ) (ev : ℕ → Ev) : ℕ → Option St
  | 0 => start L p cons o theta kappa
  | t + 1 => (runTo L p cons o theta kappa ev t).bind (iteration L p cons o t (ev t))

end Hiop.Select
