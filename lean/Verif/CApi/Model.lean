import Mathlib.Data.List.Basic
import Verif.Evals.Model
import Verif.Options.Model

/-!
# The C and Fortran interfaces

Source: `src/Interface/chiopInterface.hpp`, `src/Interface/chiopInterface.cpp`,
`src/Interface/hiopFortranInterface.c`, `src/Interface/hiopInterface.h`.

A C user fills a struct with function pointers; a C++ class translates the calls of the solver to them. There are
three such classes (mixed dense-sparse, sparse, dense) with the same code up to the arguments that describe
sparse and dense blocks; these arguments are handed on unchanged and are represented by the types `RJ`
(Jacobian) and `RH` (Hessian). The Fortran interface is a C user built from Fortran procedures.

Simplifications: arrays are lists; what a callback writes to its output arguments is its result `Out`; the
memory behind `user_data` (and everything else the user keeps) is a state `σ`.
-/

namespace Hiop.CApi

/-- What a callback writes: integers (sizes, numbers of nonzeros), index arrays, values, a second array of values
(upper bounds), and for the C++ interface the nonlinearity types (here only whether `hiopNonlinear` was stored). Code: chiopInterface.hpp:81-107. -/
structure Out (K : Type) where
  ints : List ℤ := []
  rows : List ℤ := []
  cols : List ℤ := []
  vals : List K := []
  upp : List K := []
  nonlinear : List Bool := []
  deriving DecidableEq

/-- A call of a function of `hiopInterfaceBase`, `hiopInterfaceDenseConstraints`, `hiopInterfaceMDS` or
`hiopInterfaceSparse` (src/Interface/hiopInterface.hpp). -/
inductive Req (K RJ RH : Type)
  | probSizes
  | blocksInfo
  | startPoint (n : ℤ)
  | varsInfo (n : ℤ)
  | consInfo (m : ℤ)
  | evalF (n : ℤ) (x : List K) (newX : Bool)
  | evalGrad (n : ℤ) (x : List K) (newX : Bool)
  | consSome (n m : ℤ) (idx : List ℤ) (x : List K) (newX : Bool)
  | consAll (n m : ℤ) (x : List K) (newX : Bool)
  | jacSome (n m : ℤ) (idx : List ℤ) (x : List K) (newX : Bool) (r : RJ)
  | jacAll (n m : ℤ) (x : List K) (newX : Bool) (r : RJ)
  | hess (n m : ℤ) (x : List K) (newX : Bool) (objFactor : K) (lambda : List K) (newLambda : Bool) (r : RH)

/-- A call of a function pointer of `cHiopMDSProblem`, `cHiopSparseProblem` or `cHiopDenseProblem`
(src/Interface/hiopInterface.h:63-180); flags are `int`s. -/
inductive CReq (K RJ RH : Type)
  | probSizes
  | blocksInfo
  | startPoint (n : ℤ)
  | varsInfo (n : ℤ)
  | consInfo (m : ℤ)
  | evalF (n : ℤ) (x : List K) (newX : ℤ)
  | evalGrad (n : ℤ) (x : List K) (newX : ℤ)
  | cons (n m : ℤ) (x : List K) (newX : ℤ)
  | jac (n m : ℤ) (x : List K) (newX : ℤ) (r : RJ)
  | hess (n m : ℤ) (x : List K) (newX : ℤ) (objFactor : K) (lambda : List K) (newLambda : ℤ) (r : RH)

/-- A C user: state, call, new state, returned `int`, outputs. Code: chiopInterface.hpp:81-107. -/
abbrev CUser (σ K RJ RH : Type) := σ → CReq K RJ RH → σ × ℤ × Out K

variable {σ K RJ RH : Type}

/-- Conversion `bool` to `int`. No counterpart in the code: used only to state and run the model. -/
def ofBool (b : Bool) : ℤ := if b then 1 else 0

/-- The class `cppUserProblemMDS`, src/Interface/chiopInterface.hpp:111-220; `cppUserProblemSparse`, 288-426;
`cppUserProblemDense`, 474-577: one call of the solver. `eval_f` and `eval_grad_f` pass the literal 0 for `new_x`
(lines 145-156, 332-343, 517-528); the functions for some of the constraints return false (157-163, 179-187,
345-354, 375-387, 530-539, 551-560); everything else returns true whatever the callback returns. The variable and
constraint types are all set to `hiopNonlinear`. -/
def cpp (U : CUser σ K RJ RH) (s : σ) : Req K RJ RH → σ × Bool × Out K
  | .probSizes => let r := U s .probSizes; (r.1, true, r.2.2)
  | .blocksInfo => let r := U s .blocksInfo; (r.1, true, r.2.2)
  | .startPoint n => let r := U s (.startPoint n); (r.1, true, r.2.2)
  | .varsInfo n =>
    let r := U s (.varsInfo n)
    (r.1, true, { r.2.2 with nonlinear := List.replicate n.toNat true })
  | .consInfo m =>
    let r := U s (.consInfo m)
    (r.1, true, { r.2.2 with nonlinear := List.replicate m.toNat true })
  | .evalF n x _ => let r := U s (.evalF n x 0); (r.1, true, r.2.2)
  | .evalGrad n x _ => let r := U s (.evalGrad n x 0); (r.1, true, r.2.2)
  | .consSome _ _ _ _ _ => (s, false, {})
  | .consAll n m x b => let r := U s (.cons n m x (ofBool b)); (r.1, true, r.2.2)
  | .jacSome _ _ _ _ _ _ => (s, false, {})
  | .jacAll n m x b q => let r := U s (.jac n m x (ofBool b) q); (r.1, true, r.2.2)
  | .hess n m x b f l c q => let r := U s (.hess n m x (ofBool b) f l (ofBool c) q); (r.1, true, r.2.2)

/-- The solver as seen from the interface: what it calls next may depend on all answers so far in any way. The
state of the user and the answers, newest first, after `t` calls. No counterpart in the code: used only to state and run the model. -/
def runWith (P : σ → Req K RJ RH → σ × Bool × Out K) (next : List (Bool × Out K) → Req K RJ RH) (s : σ) :
    ℕ → σ × List (Bool × Out K)
  | 0 => (s, [])
  | t + 1 =>
    let a := runWith P next s t
    let r := P a.1 (next a.2)
    (r.1, r.2 :: a.2)

/-! ## Creating and solving -/

/-- Options set by `hiop_mds_create_problem`, src/Interface/chiopInterface.cpp:64-79. -/
def mdsOptions : List Options.Call :=
  [.str "duals_update_type" "linear" false, .str "duals_init" "zero" false,
   .str "Hessian" "analytical_exact" false, .str "KKTLinsys" "xdycyd" false,
   .str "compute_mode" "hybrid" false, .int "verbosity_level" 3 false, .num "mu0" (some (1 / 10)) false]

/-- Options set by `hiop_sparse_create_problem`, src/Interface/chiopInterface.cpp:98-111. -/
def sparseOptions : List Options.Call :=
  [.str "Hessian" "analytical_exact" false, .str "KKTLinsys" "xdycyd" false,
   .str "compute_mode" "cpu" false, .num "mu0" (some (1 / 10)) false]

/-- Options set by `hiop_dense_create_problem`, src/Interface/chiopInterface.cpp:129-144. -/
def denseOptions : List Options.Call :=
  [.str "Hessian" "quasinewton_approx" false, .str "duals_update_type" "linear" false,
   .str "duals_init" "zero" false, .str "compute_mode" "cpu" false, .str "KKTLinsys" "xdycyd" false,
   .str "fixed_var" "relax" false]

/-- The values of `hiopSolveStatus`, src/Interface/hiopInterface.hpp:65-108. -/
def statusCodes : List ℤ :=
  [0, 1, 2, 5, 6, 7, 10, 11, 12, -1, -2, -3, -4, -5, -11, -12, -13, -14, -15, -16, -100, -101, -199, -1000, -1001,
   -10001, -10002, -10003]

/-- What a run leaves: status, objective, number of iterations, point. Code: chiopInterface.cpp:84-87, chiopInterface.cpp:115-118. -/
structure Solved (K : Type) where
  status : ℤ
  obj : K
  iters : ℤ
  x : List K

/-- The fields of the C struct that `solve` writes; `cHiopMDSProblem` has no number of iterations and no
status. Code: chiopInterface.cpp:86-87. -/
structure MdsFields (K : Type) where
  obj : K
  solution : List K

/-- Code: chiopInterface.cpp:115-118, chiopInterface.cpp:148-151. -/
structure Fields (K : Type) where
  obj : K
  solution : List K
  niters : ℤ
  status : ℤ

/-- `hiop_mds_solve_problem`, src/Interface/chiopInterface.cpp:81-89. `none`: the assertion
`status<=hiopSolveStatus::User_Stopped` fails. The `int` is the returned value. -/
def mdsSolve (r : Solved K) : Option (ℤ × MdsFields K) :=
  if r.status ≤ 12 then some (0, ⟨r.obj, r.x⟩) else none

/-- `hiop_sparse_solve_problem`, `hiop_dense_solve_problem`, src/Interface/chiopInterface.cpp:113-120, 146-153. -/
def solve (r : Solved K) : ℤ × Fields K := (0, ⟨r.obj, r.x, r.iters, r.status⟩)

/-- `hiopsparsesolve`, `hiopdensesolve`, src/Interface/hiopFortranInterface.c:319-332, 505-518: the objective and
the point. -/
def fortranSolve (r : Solved K) : K × List K :=
  let p := (solve r).2
  (p.obj, p.solution)

/-! ## Fortran -/

/-- Which of the pointers `iJacS`, `jJacS`, `MJacS` are not null, and the number of nonzeros. Code: hiopFortranInterface.c:166-168. -/
structure Parts where
  i : Bool
  j : Bool
  m : Bool
  nnz : ℤ
  deriving DecidableEq

/-- A call of a Fortran procedure (src/Interface/hiopFortranInterface.h:68-98). They return nothing. -/
inductive FReq (K : Type)
  | f (n : ℤ) (x : List K) (newX : ℤ)
  | grad (n : ℤ) (x : List K) (newX : ℤ)
  | c (n m : ℤ) (x : List K) (newX : ℤ)
  | jac (task : ℤ) (n m : ℤ) (x : List K) (newX : ℤ) (p : Parts)
  | hess (task : ℤ) (n m : ℤ) (objScal : K) (x : List K) (newX : ℤ) (lambda : List K) (newLam : ℤ) (p : Parts)

/-- Code: hiopFortranInterface.c:186, hiopFortranInterface.c:229. -/
abbrev FUser (σ K : Type) := σ → FReq K → σ × Out K

/-- `FSparseProb`, src/Interface/hiopFortranInterface.h:100-125, without the pointers: sizes and the copies of the
arrays made by `hiopsparseprob`, src/Interface/hiopFortranInterface.c:256-287. -/
structure FProb (K : Type) where
  n : ℤ
  m : ℤ
  nnzEq : ℤ
  nnzIneq : ℤ
  nnzHess : ℤ
  xlow : List K
  xupp : List K
  clow : List K
  cupp : List K
  x0 : List K

/-- The choice of the task, src/Interface/hiopFortranInterface.c:179-185, 222-228: 1 for values only, 0 for
structure only; otherwise an error message is printed and the task stays 0. -/
def task (p : Parts) : ℤ := if !p.i && !p.j && p.m then 1 else 0

/-- Subtracting one from the indices, src/Interface/hiopFortranInterface.c:188-193, 231-236. With a null pointer
this is a write through it: `none`. -/
def toZeroBased (p : Parts) (o : Out K) : Option (Out K) :=
  if task p = 0 then
    if p.nnz ≤ 0 then some o
    else if p.i && p.j then some { o with rows := o.rows.map (· - 1), cols := o.cols.map (· - 1) } else none
  else some o

/-- The wrappers for sparse problems, src/Interface/hiopFortranInterface.c:73-238, as a C user. `none`: a failed
assertion on the sizes, or a null pointer. -/
def wrapper (D : FProb K) (F : FUser σ K) (s : σ) : CReq K Parts Parts → Option (σ × ℤ × Out K)
  | .startPoint n => if n = D.n then some (s, 0, { vals := D.x0 }) else none
  | .probSizes => some (s, 0, { ints := [D.n, D.m] })
  | .varsInfo n => if n = D.n then some (s, 0, { vals := D.xlow, upp := D.xupp }) else none
  | .consInfo m => if m = D.m then some (s, 0, { vals := D.clow, upp := D.cupp }) else none
  | .blocksInfo => some (s, 0, { ints := [D.n, D.nnzEq, D.nnzIneq, D.nnzHess] })
  | .evalF n x b => if n = D.n then let r := F s (.f n x b); some (r.1, 0, r.2) else none
  | .cons n m x b => if n = D.n ∧ m = D.m then let r := F s (.c n m x b); some (r.1, 0, r.2) else none
  | .evalGrad n x b => if n = D.n then let r := F s (.grad n x b); some (r.1, 0, r.2) else none
  | .jac n m x b p =>
    if n = D.n ∧ m = D.m then
      let r := F s (.jac (task p) n m x b p)
      (toZeroBased p r.2).map fun o => (r.1, 0, o)
    else none
  | .hess n m x b f l c p =>
    if n = D.n ∧ m = D.m then
      let r := F s (.hess (task p) n m f x b l c p)
      (toZeroBased p r.2).map fun o => (r.1, 0, o)
    else none

/-- `eval_Jac_c_d_interface_impl` of sparse problems, src/Optimization/hiopNlpFormulation.cpp:1981-2002: the
pointers passed in the calls of one evaluation; `first` is `0==num_jac_eval_`. The return value of the call for the
structure is overwritten. (The Hessian likewise: 2060-2086.) -/
def patterns (first : Bool) (nnz : ℤ) : List Parts :=
  if first then [⟨true, true, false, nnz⟩, ⟨false, false, true, nnz⟩] else [⟨false, false, true, nnz⟩]

/-- A triplet matrix of the solver: what is written through the pointers that are not null. Code: hiopMatrixSparseTriplet.hpp:330-332. -/
structure Coo (K : Type) where
  rows : List ℤ
  cols : List ℤ
  vals : List K
  deriving DecidableEq

/-- The writes of one call to the arrays of the matrix. Code: hiopFortranInterface.c:186, hiopFortranInterface.c:229. -/
def store (p : Parts) (o : Out K) (A : Coo K) : Coo K :=
  ⟨if p.i then o.rows else A.rows, if p.j then o.cols else A.cols, if p.m then o.vals else A.vals⟩

/-- The calls of one evaluation through the C++ class and the Fortran wrappers; `req` gives the call for given
pointers. Code: hiopFortranInterface.c:179-194. -/
def evalWith (D : FProb K) (F : FUser σ K) (req : Parts → CReq K Parts Parts) :
    List Parts → σ → Coo K → Option (σ × Coo K)
  | [], s, A => some (s, A)
  | p :: l, s, A =>
    match wrapper D F s (req p) with
    | none => none
    | some (s', _, o) => evalWith D F req l s' (store p o A)

/-- The evaluations of matrices: the Jacobian at a point; the Hessian at a point with objective factor and
multipliers. Code: hiopNlpFormulation.cpp:1961-1962, hiopNlpFormulation.cpp:2023. -/
inductive EvOp (K : Type)
  | jac (x : List K) (newX : Bool)
  | hess (x : List K) (newX : Bool) (f : K) (lam : List K) (newLam : Bool)

/-- The user's state, `num_jac_eval_` and `num_hess_eval_` (whether positive), `cons_Jac_` and the Hessian
(src/Optimization/hiopNlpFormulation.hpp:570, 647-648). -/
structure FSt (σ K : Type) where
  user : σ
  jacDone : Bool
  hessDone : Bool
  J : Coo K
  H : Coo K

/-- One evaluation, src/Optimization/hiopNlpFormulation.cpp:1981-2002 (Jacobian, with
`nnz_sparse_Jaceq + nnz_sparse_Jacineq` nonzeros, 1973-1975), 2060-2086 (Hessian). -/
def evStep (D : FProb K) (F : FUser σ K) (a : FSt σ K) : EvOp K → Option (FSt σ K)
  | .jac x b =>
    (evalWith D F (fun p => .jac D.n D.m x (ofBool b) p) (patterns (!a.jacDone) (D.nnzEq + D.nnzIneq)) a.user a.J).map
      fun r => { a with user := r.1, J := r.2, jacDone := true }
  | .hess x b f lam c =>
    (evalWith D F (fun p => .hess D.n D.m x (ofBool b) f lam (ofBool c) p) (patterns (!a.hessDone) D.nnzHess)
      a.user a.H).map fun r => { a with user := r.1, H := r.2, hessDone := true }

/-- A sequence of evaluations. No counterpart in the code: used only to state and run the model. -/
def evRun (D : FProb K) (F : FUser σ K) (a : FSt σ K) (ops : List (EvOp K)) : Option (FSt σ K) :=
  ops.foldlM (evStep D F) a

/-! ## Memory of the Fortran interface -/

/-- The blocks of one problem: the structs, the arrays, the two C++ objects. Code: hiopFortranInterface.c:256-308, hiopFortranInterface.c:334-345. -/
inductive Block
  | fprob
  | cprob
  | xlow
  | xupp
  | clow
  | cupp
  | x0
  | solution
  | cppProblem
  | nlp
  deriving DecidableEq

/-- Allocated by `hiopsparseprob` (src/Interface/hiopFortranInterface.c:256-313) and `hiopdenseprob` (448-499). -/
def allocated : List Block :=
  [.fprob, .cprob, .xlow, .xupp, .clow, .cupp, .x0, .solution, .cppProblem, .nlp]

/-- Freed by `deletehiopsparseprob` (src/Interface/hiopFortranInterface.c:334-348) and `deletehiopdenseprob`
(520-534) with the `destroy` functions of src/Interface/chiopInterface.cpp:122-126, 155-159. -/
def freed : List Block :=
  [.nlp, .cppProblem, .xlow, .xupp, .clow, .cupp, .solution, .cprob, .fprob]

/-- Operations of a Fortran program: create problem `k`, delete problem `k`. Code: hiopFortranInterface.c:256-308, hiopFortranInterface.c:334-345. -/
inductive MemOp
  | create (k : ℕ)
  | delete (k : ℕ)

/-- Live blocks; `none` if a block is freed that is not live. Code: hiopFortranInterface.c:256-308, hiopFortranInterface.c:334-345. -/
def memStep (h : List (ℕ × Block)) : MemOp → Option (List (ℕ × Block))
  | .create k => some (allocated.map (fun b => (k, b)) ++ h)
  | .delete k => freed.foldlM (fun h b => if (k, b) ∈ h then some (h.erase (k, b)) else none) h

/-- Code: hiopFortranInterface.c:256-308, hiopFortranInterface.c:334-345. -/
def memRun (h : List (ℕ × Block)) (ops : List MemOp) : Option (List (ℕ × Block)) := ops.foldlM memStep h

/-! ## The solver's view in the terms of `Verif/Evals` -/

/-- The answers of a problem given through the C interface, in the model of the evaluations (`Verif/Evals`): the
functions for some of the constraints fail, everything else succeeds (see `cpp`). Code: chiopInterface.hpp:111-220. -/
def cEvals (X Y : Type) (hasHess : Bool) : Evals.User X Y where
  ok := fun l => match l with
    | c :: _ => !(c.fn == .consEq || c.fn == .consIneq || c.fn == .jacEq || c.fn == .jacIneq)
    | [] => true
  hasHess := hasHess

/-- What the C callbacks see of a call of the solver: nothing of the functions for some of the constraints, `new_x`
equal to 0 in `eval_f` and `eval_grad_f`. Code: chiopInterface.hpp:111-220. -/
def cSees {X Y : Type} (c : Evals.Call X Y) : Option (Evals.Call X Y) :=
  match c.fn with
  | .consEq | .consIneq | .jacEq | .jacIneq => none
  | .obj | .grad => some { c with newX := false }
  | _ => some c

end Hiop.CApi
