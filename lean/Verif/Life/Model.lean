import Mathlib.Data.Finset.Card
import Mathlib.Algebra.BigOperators.Group.Finset.Basic

/-!
# Lifetimes of the objects of a solver (C74)

A solver owns about twenty-five heap objects, reuses most of them over repeated calls of `run`, replaces the
linear system in the middle of a run, swaps current and trial iterates, and builds a second solver inside of
itself for the restoration of feasibility. This file gives a small language of pointer programs with an
operational semantics, and the pointer programs of the constructors, of `run` and of the destructor.

What the programs leave out is everything that is neither a pointer operation nor a branch: the branches are
nondeterministic, so that the programs have at least the paths of the code. Objects owned by these objects
(e.g. the vectors of an iterate) live and die with their owners and are not modelled.
-/

namespace Hiop.Life

/-- The pointers of a solver: members of `hiopAlgFilterIPMBase` (src/Optimization/hiopAlgFilterIPM.hpp), the
local variables `kkt` of `run`, `updater` of `startingProcedure` and `nlpFR` of
`apply_feasibility_restoration`, and the pointers that a linear system (`kktPd`, `kktFa`, set by
`set_PD_perturb_calc` and `set_fact_acceptor`) and a factorization acceptor (`faPd`) keep. -/
inductive V
  | itCurr | itTrial | dir | c | d | gradF | jacC | jacD | hess | resid | cTrial | dTrial | gradTrial
  | jacCTrial | jacDTrial | residTrial | logbar | duals | cSoc | dSoc | socDir
  | pd | fa | kkt | updater | nlpFR | kktPd | kktFa | faPd
  deriving DecidableEq, Repr

/-- A pointer of the outer solver (`false`) or of the solver of the restoration problem (`true`). Code: hiopAlgFilterIPM.hpp:261-335. -/
abbrev Var := Bool × V

/-- The heap: which objects exist, and the pointers (`none`: null; a pointer to an object that was deleted is
`some p` with `p` not in `live`). Addresses are never reused. `over v` counts how often the result of a `new`
was stored into `v` while `v` pointed to an existing object. No counterpart in the code: used only to state and run the model. -/
structure St where
  env : Var → Option ℕ
  live : Finset ℕ
  next : ℕ
  over : Var → ℕ

/-- Pointer programs. No counterpart in the code: used only to state and run the model. -/
inductive Cmd
  | skip
  /-- `v = new …` -/
  | new (v : Var)
  /-- `delete v` (`v` keeps its value) -/
  | del (v : Var)
  /-- `v = nullptr` -/
  | null (v : Var)
  /-- `v = w` -/
  | copy (v w : Var)
  /-- exchange of two pointers -/
  | swap (v w : Var)
  /-- `*v` -/
  | use (v : Var)
  | seq (a b : Cmd)
  /-- either branch -/
  | alt (a b : Cmd)
  /-- `if(v) a` -/
  | ifSet (v : Var) (a : Cmd)
  /-- `while(true) a`, left by `brk` -/
  | loop (a : Cmd)
  | brk
  | ret
  /-- a function call: `ret` ends the body only -/
  | call (a : Cmd)

/-- How a program ends: at its end, with `break`, with `return`, or with undefined behaviour. No counterpart in the code: used only to state and run the model. -/
inductive Res
  | norm (s : St)
  | brk (s : St)
  | ret (s : St)
  | ub

/-- `v` refers to an existing object. No counterpart in the code: used only to state and run the model. -/
def St.ok (s : St) (v : Var) : Prop := ∃ p ∈ s.live, s.env v = some p

/-- The state after `v = new …`. Code: as in hiopAlgFilterIPM.cpp:146, hiopAlgFilterIPM.cpp:178. -/
def St.new (s : St) (v : Var) : St where
  env := Function.update s.env v (some s.next)
  live := insert s.next s.live
  next := s.next + 1
  over := Function.update s.over v
    (s.over v + (match s.env v with
      | some p => if p ∈ s.live then 1 else 0
      | none => 0))

/-- The executions of a program. No counterpart in the code: used only to state and run the model. -/
inductive Exec : Cmd → St → Res → Prop
  | skip (s) : Exec .skip s (.norm s)
  | new (v s) : Exec (.new v) s (.norm (s.new v))
  | delNull (v s) (h : s.env v = none) : Exec (.del v) s (.norm s)
  | del (v s p) (h : s.env v = some p) (hp : p ∈ s.live) :
      Exec (.del v) s (.norm { s with live := s.live.erase p })
  /-- deleting an object that does not exist any more -/
  | delUb (v s p) (h : s.env v = some p) (hp : p ∉ s.live) : Exec (.del v) s .ub
  | null (v s) : Exec (.null v) s (.norm { s with env := Function.update s.env v none })
  | copy (v w s) : Exec (.copy v w) s (.norm { s with env := Function.update s.env v (s.env w) })
  | swap (v w s) : Exec (.swap v w) s
      (.norm { s with env := Function.update (Function.update s.env v (s.env w)) w (s.env v) })
  | use (v s) (h : s.ok v) : Exec (.use v) s (.norm s)
  /-- null pointer, or an object that does not exist any more -/
  | useUb (v s) (h : ¬ s.ok v) : Exec (.use v) s .ub
  | seq {a b s s' r} : Exec a s (.norm s') → Exec b s' r → Exec (.seq a b) s r
  | seqStop {a b s r} : Exec a s r → (∀ s', r ≠ .norm s') → Exec (.seq a b) s r
  | altL {a b s r} : Exec a s r → Exec (.alt a b) s r
  | altR {a b s r} : Exec b s r → Exec (.alt a b) s r
  | ifNull {v a s} (h : s.env v = none) : Exec (.ifSet v a) s (.norm s)
  | ifSet {v a s r} (h : s.env v ≠ none) : Exec a s r → Exec (.ifSet v a) s r
  | loopAgain {a s s' r} : Exec a s (.norm s') → Exec (.loop a) s' r → Exec (.loop a) s r
  | loopBrk {a s s'} : Exec a s (.brk s') → Exec (.loop a) s (.norm s')
  | loopRet {a s s'} : Exec a s (.ret s') → Exec (.loop a) s (.ret s')
  | loopUb {a s} : Exec a s .ub → Exec (.loop a) s .ub
  | brk (s) : Exec .brk s (.brk s)
  | ret (s) : Exec .ret s (.ret s)
  | callNorm {a s s'} : Exec a s (.norm s') → Exec (.call a) s (.norm s')
  | callRet {a s s'} : Exec a s (.ret s') → Exec (.call a) s (.norm s')
  | callBrk {a s s'} : Exec a s (.brk s') → Exec (.call a) s (.norm s')
  | callUb {a s} : Exec a s .ub → Exec (.call a) s .ub

/-- Before the first constructor runs. No counterpart in the code: used only to state and run the model. -/
def start : St := ⟨fun _ => none, ∅, 0, fun _ => 0⟩

/-- A sequence of programs. No counterpart in the code: used only to state and run the model. -/
def block : List Cmd → Cmd
  | [] => .skip
  | [a] => a
  | a :: l => .seq a (block l)

/-- `*v` for several pointers. No counterpart in the code: used only to state and run the model. -/
def uses (l : Bool) (vs : List V) : Cmd := block (vs.map fun v => .use (l, v))

/-- Which solver: `qn` quasi-Newton or Newton, `cond` whether the option `KKTLinsys` is `condensed`. Code: hiopAlgFilterIPM.cpp:150. -/
structure Kind where
  qn : Bool
  cond : Bool

section programs

variable (k : Kind) (l : Bool)

/-- `alloc_alg_objects`, src/Optimization/hiopAlgFilterIPM.cpp:144-184. -/
def alloc : Cmd := block
  [.new (l, .itCurr), .use (l, .itCurr), .new (l, .itTrial), .use (l, .itCurr), .new (l, .dir),
   .alt (uses l [.itCurr, .itTrial, .dir]) .skip,
   .new (l, .logbar), .new (l, .c), .new (l, .d), .new (l, .gradF), .new (l, .jacC), .new (l, .jacD),
   .new (l, .cTrial), .new (l, .dTrial), .new (l, .gradTrial), .new (l, .jacCTrial), .new (l, .jacDTrial),
   .new (l, .hess), .new (l, .resid), .new (l, .residTrial), .new (l, .cSoc), .new (l, .dSoc),
   .use (l, .itCurr), .new (l, .socDir)]

/-- `dealloc_alg_objects`, lines 105-136. -/
def dealloc : Cmd := block
  [.del (l, .itCurr), .del (l, .itTrial), .del (l, .dir), .del (l, .c), .del (l, .d), .del (l, .gradF),
   .del (l, .jacC), .del (l, .jacD), .del (l, .hess), .del (l, .resid), .del (l, .cTrial), .del (l, .dTrial),
   .del (l, .gradTrial), .del (l, .jacCTrial), .del (l, .jacDTrial), .del (l, .residTrial), .del (l, .logbar),
   .del (l, .duals), .del (l, .cSoc), .del (l, .dSoc), .del (l, .socDir)]

/-- The constructors, lines 83-103, 929-949, 1792-1809: all pointers start as null, then `alloc_alg_objects`
and the updater of the multipliers. -/
def construct : Cmd := block
  [.null (l, .itCurr), .null (l, .itTrial), .null (l, .dir), .null (l, .c), .null (l, .d), .null (l, .gradF),
   .null (l, .jacC), .null (l, .jacD), .null (l, .hess), .null (l, .resid), .null (l, .cTrial),
   .null (l, .dTrial), .null (l, .gradTrial), .null (l, .jacCTrial), .null (l, .jacDTrial),
   .null (l, .residTrial), .null (l, .logbar), .null (l, .duals), .null (l, .cSoc), .null (l, .dSoc),
   .null (l, .socDir), .null (l, .pd), .null (l, .fa), alloc l, .new (l, .duals)]

/-- The destructor, lines 137-142. -/
def destroy : Cmd := block [dealloc l, .del (l, .fa), .del (l, .pd)]

/-- `reInitializeNlpObjects`, lines 186-219. -/
def reinit : Cmd := block [dealloc l, alloc l, .new (l, .duals)]

/-- The functions of the problem are evaluated at `it`; those of a restoration problem refer to the iterate and
the constraint values of the solver that needs the restoration (src/Optimization/hiopFRProb.cpp keeps a
reference to it). -/
def eval (it : V) : Cmd := block
  [.use (l, it), uses l [.c, .d, .gradF, .jacC, .jacD, .cTrial, .dTrial, .hess],
   if l then uses false [.itCurr, .c, .d, .jacC, .jacD, .hess, .logbar, .resid] else .skip]

/-- `startingProcedure`, lines 290-437; the updater for the least-squares multipliers is `dualsUpdate_` or a
temporary object (lines 404-417). -/
def starting : Cmd := block
  [eval l .itCurr,
   .alt .skip (.alt (uses l [.duals, .itCurr, .gradF, .jacC, .jacD])
     (block [.new (l, .updater), .use (l, .updater), .del (l, .updater)])),
   uses l [.itCurr, .hess]]

/-- `kkt->update` and solves with the linear system: they use the perturbations and the acceptor stored in the
system (src/Optimization/hiopKKTLinSys.cpp), the acceptor uses its perturbations
(src/Optimization/hiopFactAcceptor.cpp). -/
def kktWork : Cmd := block
  [.use (l, .kkt), uses l [.kktPd, .kktFa, .faPd, .itCurr, .gradF, .jacC, .jacD, .hess, .resid, .dir]]

/-- `if(fact_acceptor_) { delete; = nullptr }` and the new acceptor, lines 1062-1067, 2186-2191. -/
def newAcceptor : Cmd := block
  [.ifSet (l, .fa) (block [.del (l, .fa), .null (l, .fa)]), .new (l, .fa), .copy (l, .faPd) (l, .pd),
   .use (l, .kkt), .copy (l, .kktFa) (l, .fa)]

/-- `switch_to_safer_KKT`, lines 1903-1948, when the system is a condensed one: it is deleted and replaced. -/
def toSafer : Cmd := block
  [.use (l, .kkt), .del (l, .kkt), .new (l, .kkt), .use (l, .kkt), .use (l, .pd), .copy (l, .kktPd) (l, .pd),
   .del (l, .fa), .new (l, .fa), .copy (l, .faPd) (l, .pd), .copy (l, .kktFa) (l, .fa)]

/-- `switch_to_fast_KKT`, lines 2001-2040, when the system is not a condensed one: the variable `kkt` of the
function is the null pointer that `dynamic_cast` returned, so that `delete kkt` deletes nothing, and the
result replaces the caller's pointer. -/
def toFast : Cmd := block
  [.use (l, .kkt), .new (l, .kkt), .use (l, .kkt), .use (l, .pd), .copy (l, .kktPd) (l, .pd),
   .del (l, .fa), .new (l, .fa), .copy (l, .faPd) (l, .pd), .copy (l, .kktFa) (l, .fa)]

/-- `apply_second_order_correction`, lines 2947-3037. -/
def soc : Cmd := block
  [.use (l, .dir), uses l [.cSoc, .dSoc, .socDir, .c, .d, .cTrial, .dTrial, .itCurr, .itTrial, .residTrial,
     .logbar], kktWork l, eval l .itTrial, uses l [.dir, .resid, .residTrial]]

/-- `solve_soft_feasibility_restoration`, lines 3234-3318. -/
def softFR : Cmd := block
  [uses l [.socDir, .dir, .c, .d, .cTrial, .dTrial, .itTrial, .residTrial, .logbar, .duals], kktWork l,
   eval l .itTrial]

/-- `reset_var_from_fr_sol`, lines 3169-3232. -/
def resetVar : Cmd := block
  [eval l .itTrial, uses l [.itTrial, .itCurr, .dir, .kkt, .kktPd, .resid]]

/-- The line search and what follows it up to the restoration, lines 2500-2610: any number of trials. -/
def lineSearch : Cmd := block
  [uses l [.itCurr, .dir, .resid],
   .loop (block
    [.alt .brk .skip, uses l [.itTrial, .itCurr, .dir], eval l .itTrial,
     .alt (block [.del (l, .kkt), .ret]) .skip,
     uses l [.logbar, .resid], .alt (soc l) .skip, .alt .brk .skip]),
   uses l [.itTrial, .resid, .logbar, .dir]]

/-- The part of an iteration after the step was chosen, lines 2722-2759 (1482-1500): multipliers, derivatives,
exchange of the pointers of trial and current point, residual. -/
def accept : Cmd := block
  [.alt (block [uses l [.duals, .itCurr, .itTrial, .dir], eval l .itTrial,
     .alt (block [.del (l, .kkt), .ret]) .skip]) .skip,
   .swap (l, .cTrial) (l, .c), .swap (l, .dTrial) (l, .d), .swap (l, .itCurr) (l, .itTrial),
   uses l [.itCurr, .logbar, .resid, .c, .d, .gradF, .jacC, .jacD]]

/-- Errors, output, user callback, termination test and reduction of the barrier parameter,
lines 2213-2328 (1090-1206). -/
def head : Cmd := block
  [uses l [.itCurr, .resid, .logbar, .c, .d], .alt (block [.del (l, .kkt), .ret]) .skip,
   .alt .brk .skip,
   .loop (block [.alt .brk .skip, uses l [.itCurr, .itTrial, .logbar, .resid, .cTrial, .dTrial],
     .alt (block [.del (l, .kkt), .ret]) .skip]),
   .use (l, .kkt), .use (l, .pd)]

/-- Creation of the linear system, the perturbations and the acceptor, lines 1050-1067, 2158-2191. -/
def setup : Cmd := block
  [.new (l, .kkt), .new (l, .pd), .use (l, .pd), .alt (block [.del (l, .kkt), .ret]) .skip,
   .use (l, .kkt), .copy (l, .kktPd) (l, .pd), newAcceptor l]

/-- `apply_feasibility_restoration`, lines 3039-3124, given the body of `run` of the inner solver. A solver of
a restoration problem (`l`) does not start another one. -/
def restoration (inner : Cmd) : Cmd :=
  if l then block [uses l [.itTrial, .itCurr, .c, .d], .alt (resetVar l) .skip]
  else .call (block
    [softFR l, .alt .ret .skip, .new (l, .nlpFR), .use (l, .nlpFR), .use (l, .resid),
     construct true, .use (l, .nlpFR), .call inner, destroy true,
     .alt (block [.use (l, .itTrial), resetVar l]) .skip, .del (l, .nlpFR)])

/-- One pass of the linear-solve loop of the Newton solver, lines 2379-2703. -/
def pass (inner : Cmd) : Cmd := block
  [if k.cond then .alt (toSafer l) .skip else .skip,
   kktWork l, .alt (block [.del (l, .kkt), .ret]) .skip,
   kktWork l, .use (l, .fa), .alt (block [.del (l, .kkt), .ret]) .skip,
   .alt (block [lineSearch l, .alt (restoration l inner) .skip, .alt .brk .skip]) .skip]

/-- The iterations of the Newton solver, lines 2211-2764, and the end of `run`. The loop of line 2379 makes at
most two passes; here it may make any number. -/
def newtonLoop (inner : Cmd) : Cmd := block
  [.loop (block
    [head l, if k.cond then .alt (toFast l) .skip else .skip,
     .loop (block [pass k l inner, .alt .brk .skip]), .alt .brk .skip, accept l]),
   uses l [.itCurr, .c, .d], .del (l, .kkt)]

/-- The iterations of the quasi-Newton solver, lines 1088-1518. -/
def qnLoop (inner : Cmd) : Cmd := block
  [.loop (block
    [head l, .use (l, .hess), kktWork l, .alt (block [.del (l, .kkt), .ret]) .skip,
     .use (l, .fa), .alt (block [.del (l, .kkt), .ret]) .skip, lineSearch l,
     .alt (restoration l inner) .skip, .alt .brk .skip, accept l]),
   uses l [.itCurr, .c, .d], .del (l, .kkt)]

/-- `run`, lines 955-1518 and 2099-2781: the sizes are compared with those of the problem, the objects are
reallocated if they differ, then the starting procedure (or, for the quasi-Newton solver, a checkpoint). -/
def runBody (inner : Cmd) : Cmd := block
  [uses l [.itCurr, .jacC], .alt (reinit l) .skip, .use (l, .hess),
   if k.qn then .alt (starting l) (block [eval l .itCurr, .alt .ret .skip]) else starting l,
   uses l [.logbar, .itCurr, .resid], setup l,
   if k.qn then qnLoop l inner else newtonLoop k l inner]

end programs

/-- The solver of a restoration problem: its `KKTLinsys` is `xdycyd` (line 3134). -/
def innerRun (k : Kind) : Cmd := runBody ⟨k.qn, false⟩ true .skip

/-- `run` of the user's solver. Code: hiopAlgFilterIPM.cpp:955-1519, hiopAlgFilterIPM.cpp:2101-2781. -/
def run (k : Kind) : Cmd := .call (runBody k false (innerRun k))

/-- `getSolution`, `getDualSolutions`, `getObjective`, lines 755-803, and checkpointing. -/
def getters : Cmd := uses false [.itCurr]

/-- The life of a solver: the constructor, any number of calls of `run` and of the getters in any order, the
destructor. No counterpart in the code: used only to state and run the model. -/
def session (k : Kind) : Cmd := block
  [construct false, .loop (.alt .brk (.alt (run k) getters)), destroy false]

/-- The same with a single call of `run`. No counterpart in the code: used only to state and run the model. -/
def single (k : Kind) : Cmd := block
  [construct false, run k, .loop (.alt .brk getters), destroy false]

end Hiop.Life
