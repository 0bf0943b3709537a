import Mathlib.Data.Nat.Basic
import Mathlib.Data.Option.Basic

/-!
# Repeated solves (C75)

A problem object keeps its options, its internal bounds and its transformations while solvers are constructed for
it and run, options are changed and states are loaded. This file models what one run inherits from everything
before it.

What is abstract: the bounds and sizes computed from the user's data by the initialization, the decision about
gradient scaling and its effect on bounds, the memory of the quasi-Newton Hessian and the iterates. What an
iteration process leaves behind (bounds moved by `adjust_bounds` or `reset_bounds`, memory, iterate) is an input
of the model.
-/

namespace Hiop.Session

/-- Options by the time at which they are read: `fixedVar`, `fixedTol` by the test for reinitialization;
`relax` (`bound_relax_perturb`, `elastic_mode`, `elastic_mode_bound_relax_initial`, `fixed_var_perturb`) by the
initialization only; `scaling` by `apply_scaling`; `mu0` and `params` (tolerances, `max_iter`, …) by
`reload_options`; `hess` (`secant_memory_len`, `sigma0`, `sigma_update_strategy`) when the solver's objects are
allocated; `loadFile` is `checkpoint_load_on_start`. Code: hiopAlgFilterIPM.cpp:220-282, hiopNlpFormulation.cpp:185-432. -/
structure Opt where
  fixedVar : ℕ
  fixedTol : ℕ
  relax : ℕ
  scaling : ℕ
  hess : ℕ
  mu0 : ℕ
  params : ℕ
  loadFile : Bool
  deriving DecidableEq, Repr

/-- The user's problem: `B` bounds, `Sc` scalings. Code: hiopNlpFormulation.cpp:185-432. -/
structure Problem (B Sc : Type) where
  /-- internal bounds after an initialization, src/Optimization/hiopNlpFormulation.cpp:213-407 -/
  bounds : Opt → B
  /-- number of variables after an initialization -/
  size : Opt → ℕ
  /-- the scaling that `apply_scaling` (lines 671-714) creates, given the options of the last initialization, the
  options now and the scalings that are in effect already -/
  scaleOf : Opt → Opt → List Sc → Option Sc
  /-- effect of a scaling on the bounds, lines 707-709 -/
  scaleB : Sc → B → B

/-- A pointer: null, to an existing object, to an object that was deleted. No counterpart in the code: used only to state and run the model. -/
inductive Ptr (Sc : Type)
  | null
  | to (s : Sc)
  | dangling
  deriving DecidableEq

/-- The problem object (`hiopNlpFormulation`). Code: hiopNlpFormulation.hpp:337-358. -/
structure Form (B Sc : Type) where
  opt : Opt
  /-- `strFixedVars_` and `dFixedVarsTol_`: `none` before the first initialization, lines 82-83 -/
  saved : Option (ℕ × ℕ)
  /-- options at the last initialization -/
  init : Opt
  cur : B
  /-- scalings in `nlp_transformations_`, newest last -/
  scals : List Sc
  /-- `nlp_scaling_` -/
  nsc : Ptr Sc
  n : ℕ

/-- Memory of the quasi-Newton Hessian: fresh objects for given options, or something a run or a loaded state
left. No counterpart in the code: used only to state and run the model. -/
inductive Mem (M : Type)
  | fresh (hess : ℕ)
  | used (m : M)
  deriving DecidableEq

/-- A solver (`hiopAlgFilterIPMQuasiNewton`, or `hiopAlgFilterIPMNewton` if `qn` is false). Code: hiopAlgFilterIPM.hpp:261-335. -/
structure Solver (M X : Type) where
  qn : Bool
  /-- size of the allocated objects -/
  n : ℕ
  mem : Mem M
  /-- `load_state_api_called_` -/
  loaded : Bool
  /-- current iterate; `none`: not initialized -/
  it : Option X
  mu : ℕ

/-- Where the iterations start: at the point of the starting procedure (lines 290-437), or at the solver's current
iterate (`none`: memory that was never written). -/
inductive From (X : Type)
  | user
  | iterate (x : Option X)
  deriving DecidableEq

/-- What a run starts with. No counterpart in the code: used only to state and run the model. -/
structure Start (B Sc M X : Type) where
  /-- options that the iterations see -/
  opt : Opt
  bounds : B
  scals : List Sc
  n : ℕ
  mem : Mem M
  mu : ℕ
  from_ : From X
  /-- the scaling used to convert objective values and tolerances (`get_obj_scale`, lines 1395-1401) -/
  nsc : Ptr Sc
  deriving DecidableEq

/-- What the iterations of a run leave behind. No counterpart in the code: used only to state and run the model. -/
structure Left (B M X : Type) where
  bounds : B
  mem : M
  it : X
  mu : ℕ

variable {B Sc M X : Type}

/-- The constructor of the problem object, lines 66-142: nothing is initialized (`cur` and `init` are
placeholders that the first initialization replaces). -/
def newForm (P : Problem B Sc) (o : Opt) : Form B Sc :=
  ⟨o, none, o, P.bounds o, [], .null, P.size o⟩

/-- `finalizeInitialization`, lines 185-431: the test of lines 188-202; lines 214 and 379: the transformations
are deleted, but `nlp_scaling_` keeps its value. -/
def finalize (P : Problem B Sc) (f : Form B Sc) : Form B Sc :=
  if f.saved = some (f.opt.fixedVar, f.opt.fixedTol) then f
  else
    { f with
      saved := some (f.opt.fixedVar, f.opt.fixedTol)
      init := f.opt
      cur := P.bounds f.opt
      scals := []
      nsc := match f.nsc with
        | .null => .null
        | _ => .dangling
      n := P.size f.opt }

/-- `apply_scaling`, lines 671-714. -/
def applyScaling (P : Problem B Sc) (f : Form B Sc) : Form B Sc :=
  match P.scaleOf f.init f.opt f.scals with
  | none => f
  | some s => { f with cur := P.scaleB s f.cur, scals := f.scals ++ [s], nsc := .to s }

/-- The constructors of the solvers, src/Optimization/hiopAlgFilterIPM.cpp:83-103, 929-949, 1792-1809. -/
def newSolver (P : Problem B Sc) (qn : Bool) (f : Form B Sc) : Form B Sc × Solver M X :=
  let f := finalize P f
  (f, ⟨qn, f.n, .fresh f.opt.hess, false, none, f.opt.mu0⟩)

/-- The beginning of `run`, lines 955-1050 and 2101-2160: initialization of the problem if needed, options
(`reload_options`, lines 220-273, which also sets `_mu`), new objects if the size changed, then the starting
procedure or the loaded state. A state loaded from a file is not modelled: `loadFile` stands for a build without
Axom, where the current iterate is used (lines 1026-1030). -/
def begin_ (P : Problem B Sc) (f : Form B Sc) (s : Solver M X) : Form B Sc × Solver M X × Start B Sc M X :=
  let f := finalize P f
  let s := { s with mu := f.opt.mu0 }
  let s := if s.n = f.n then s else { s with n := f.n, mem := .fresh f.opt.hess, it := none }
  if s.qn ∧ (f.opt.loadFile ∨ s.loaded) then
    (f, s, ⟨f.opt, f.cur, f.scals, f.n, s.mem, s.mu, .iterate s.it, f.nsc⟩)
  else
    let f := applyScaling P f
    (f, s, ⟨f.opt, f.cur, f.scals, f.n, s.mem, s.mu, .user, f.nsc⟩)

/-- What the user does with one problem object and one solver at a time. Code: hiopAlgFilterIPM.cpp:955-970. -/
inductive Op (B M X : Type)
  /-- set options -/
  | set (o : Opt)
  /-- construct a solver for the problem (the previous one is given up) -/
  | solver (qn : Bool)
  /-- run the solver; the argument is what the iterations leave behind -/
  | run (l : Left B M X)
  /-- `load_state_from_sidre_group`, lines 1667-1762 -/
  | load (mu : ℕ) (m : M) (x : X)

/-- Problem object, solver, and the starts of all runs so far (newest first). No counterpart in the code: used only to state and run the model. -/
structure St (B Sc M X : Type) where
  form : Form B Sc
  sol : Option (Solver M X)
  starts : List (Start B Sc M X)

/-- The end of `run`: bounds, memory and iterate are as the iterations left them. Code: hiopAlgFilterIPM.cpp:955-1519, hiopAlgFilterIPM.cpp:2101-2781. -/
def finish (f : Form B Sc) (s : Solver M X) (l : Left B M X) : Form B Sc × Solver M X :=
  ({ f with cur := l.bounds },
   { s with mem := if s.qn then .used l.mem else s.mem, it := some l.it, mu := l.mu })

/-- Code: hiopAlgFilterIPM.cpp:955-970. -/
def step (P : Problem B Sc) (σ : St B Sc M X) : Op B M X → St B Sc M X
  | .set o => { σ with form := { σ.form with opt := o } }
  | .solver qn =>
    let r := newSolver P qn σ.form
    { σ with form := r.1, sol := some r.2 }
  | .run l => match σ.sol with
    | none => σ
    | some s =>
      let r := begin_ P σ.form s
      let e := finish r.1 r.2.1 l
      ⟨e.1, some e.2, r.2.2 :: σ.starts⟩
  | .load mu m x => match σ.sol with
    | none => σ
    | some s => if s.qn then
        { σ with sol := some { s with mu := mu, mem := .used m, it := some x, loaded := true } }
      else σ

/-- A history of a problem object. No counterpart in the code: used only to state and run the model. -/
def history (P : Problem B Sc) (o : Opt) (ops : List (Op B M X)) : St B Sc M X :=
  ops.foldl (step P) ⟨newForm P o, none, []⟩

end Hiop.Session
