import Verif.PriDec.Alg

/-!
# Model of a primal decomposition solver object over its life

Source: `src/Optimization/hiopAlgPrimalDecomp.{hpp,cpp}`, `src/Interface/hiopInterfacePrimalDecomp.{hpp,cpp}`.  The
object keeps its settings, the last iterate, the number of the last iteration and the last status between runs.  The
master problem is the user's object: it has a state of its own, which every call may change, and it keeps the pointer to
the recourse approximation it was given.  Calls are recorded in a log.

Simplifications: one rank (`run_single`; `run` and `run_local` call it when there is one rank, and always do in builds
without MPI); real arithmetic; the coefficient rules are those of `Verif.PriDec.Alg`; return codes of the callbacks are
not looked at by the code and are left out; the memory space is the host's; `get_objective` does not change the user's
state.
-/

namespace Hiop.PdSession

open Hiop.Vec Hiop.PriDec

variable {σ : Type} {n nc : ℕ}

/-- What the user finds behind the pointer to the approximation: never given one; the object; or an object that has been
deleted. Code: hiopInterfacePrimalDecomp.hpp:184 (the pointer handed over), hiopAlgPrimalDecomp.cpp:1989 (deleted). -/
inductive View (n nc : ℕ) where
  | never
  | live (e : Rec ℝ n nc)
  | released

/-- The user's master problem (hiopInterfacePrimalDecomp.hpp:85-106, 184): `solve_master(x, include_r)`,
`eval_f_rterm`, `eval_grad_rterm`, `get_objective`, `set_recourse_approx_evaluator`. -/
structure User (σ : Type) (n nc : ℕ) where
  solve : σ → RVec ℝ n → Bool → View n nc → σ × RVec ℝ n × ℤ
  rf : σ → ℕ → RVec ℝ nc → σ × ℝ
  rg : σ → ℕ → RVec ℝ nc → σ × RVec ℝ nc
  obj : σ → ℝ
  give : σ → σ

/-- A call to the user, with its arguments and answers. Code: hiopInterfacePrimalDecomp.hpp:85-106, 184. -/
inductive Ev (n nc : ℕ) where
  | solve (include_r : Bool) (x : RVec ℝ n) (v : View n nc) (y : RVec ℝ n) (status : ℤ)
  | rf (i : ℕ) (x0 : RVec ℝ nc) (v : ℝ)
  | rg (i : ℕ) (x0 : RVec ℝ nc) (g : RVec ℝ nc)
  | obj (v : ℝ)
  | give (e : Rec ℝ n nc)

/-- Everything outside the solver object: the user's state, the approximation objects in memory, the address of the
next one, the pointer the user holds, the log. Code: hiopAlgPrimalDecomp.cpp:1830-1831, 1989. -/
structure World (σ : Type) (n nc : ℕ) where
  u : σ
  heap : ℕ → Option (Rec ℝ n nc)
  next : ℕ
  held : Option ℕ
  log : List (Ev n nc)

/-- Settings (hiopAlgPrimalDecomp.hpp:402-439); the integers may be negative. -/
structure Sett where
  tol : ℝ
  accpTol : ℝ
  accpCount : ℤ
  maxIter : ℤ
  alphaMin : ℝ
  alphaMax : ℝ
  alphaRatio : ℝ

/-- The solver object (hiopAlgPrimalDecomp.hpp:402-439); `status` is `none` before it is assigned for the first time
(it has no initial value). -/
structure Solver (n : ℕ) where
  sett : Sett
  x : RVec ℝ n
  it : ℤ
  status : Option ℤ

/-- The constructors (hiopAlgPrimalDecomp.cpp:560-666): settings from the options. `x_` is not set; zero stands for it. -/
def Solver.new (n : ℕ) (s : Sett) : Solver n := { sett := s, x := 0, it := -1, status := none }

/-- The coupled part of `x` (hiopAlgPrimalDecomp.cpp:1870-1876). -/
def coup (idx : Fin nc → Fin n) (x : RVec ℝ n) : RVec ℝ nc :=
  if nc < n then gather x idx else fun i => if h : i.val < n then x ⟨i, h⟩ else 0

/-- What is behind the user's pointer. Code: hiopAlgPrimalDecomp.cpp:1961, 1989. -/
def World.view (w : World σ n nc) : View n nc :=
  match w.held with
  | none => .never
  | some a => match w.heap a with
    | none => .released
    | some e => .live e

/-- A call of `solve_master` (hiopAlgPrimalDecomp.cpp:1851, 1967): point and status returned. -/
def callSolve (U : User σ n nc) (inc : Bool) (x : RVec ℝ n) (w : World σ n nc) : World σ n nc × RVec ℝ n × ℤ :=
  let r := U.solve w.u x inc w.view
  ({ w with u := r.1, log := w.log ++ [.solve inc x w.view r.2.1 r.2.2] }, r.2.1, r.2.2)

/-- One recourse term: `eval_f_rterm` and `eval_grad_rterm`, and the sums (hiopAlgPrimalDecomp.cpp:1877-1897). -/
noncomputable def term (U : User σ n nc) (x0 : RVec ℝ nc) (a : World σ n nc × ℝ × RVec ℝ nc) (i : ℕ) :
    World σ n nc × ℝ × RVec ℝ nc :=
  let f := U.rf a.1.u i x0
  let g := U.rg f.1 i x0
  ({ a.1 with u := g.1, log := a.1.log ++ [.rf i x0 f.2, .rg i x0 g.2] }, a.2.1 + f.2, axpy a.2.2 1 g.2)

/-- All recourse terms (hiopAlgPrimalDecomp.cpp:1861-1897). -/
noncomputable def terms (U : User σ n nc) (S : ℕ) (x0 : RVec ℝ nc) (w : World σ n nc) :
    World σ n nc × ℝ × RVec ℝ nc :=
  (List.range S).foldl (term U x0) (w, 0, 0)

/-- `get_objective` (hiopAlgPrimalDecomp.cpp:1855, 1919). -/
def callObj (U : User σ n nc) (w : World σ n nc) : World σ n nc × ℝ :=
  ({ w with log := w.log ++ [.obj (U.obj w.u)] }, U.obj w.u)

/-- The setters of the approximation and `set_recourse_approx_evaluator` (hiopAlgPrimalDecomp.cpp:1954-1964): the object
at address `a` receives the data, the user the pointer. -/
def callGive (U : User σ n nc) (a : ℕ) (e : Rec ℝ n nc) (w : World σ n nc) : World σ n nc :=
  { w with u := U.give w.u, heap := Function.update w.heap a (some e), held := some a, log := w.log ++ [.give e] }

/-- The local variables of `run_single` (hiopAlgPrimalDecomp.cpp:1808-1842) and what it keeps in the object. -/
structure Loc (σ : Type) (n nc : ℕ) where
  w : World σ n nc
  x : RVec ℝ n
  status : ℤ
  ha : HA nc
  base : ℝ
  basem1 : ℝ
  convg : ℝ
  accp : ℤ

/-- The settings used by the coefficient rule. Code: hiopAlgPrimalDecomp.cpp:1826-1828. -/
def Sett.opts (s : Sett) : PDOpts :=
  { tol := s.tol, accpTol := s.accpTol, accpCount := 0, maxIter := 0, alphaMin := s.alphaMin, alphaMax := s.alphaMax,
    alphaRatio := s.alphaRatio }

/-- The basecase (hiopAlgPrimalDecomp.cpp:1808, 1848-1857). -/
noncomputable def basecase (U : User σ n nc) (s : Sett) (w : World σ n nc) : Loc σ n nc :=
  let q := callSolve U false 0 w
  let b := callObj U q.1
  { w := b.1, x := q.2.1, status := q.2.2, ha := HA.new nc s.alphaRatio, base := b.2, basem1 := b.2, convg := 1e20,
    accp := 0 }

/-- The rest of iteration `it` with the approximation at address `a` (hiopAlgPrimalDecomp.cpp:1859-1979). -/
noncomputable def round (U : User σ n nc) (S : ℕ) (idx : Fin nc → Fin n) (s : Sett) (a it : ℕ) (l : Loc σ n nc) :
    Loc σ n nc :=
  let x0 := coup idx l.x
  let t := terms U S x0 l.w
  let rval := t.2.1 / S
  let g := scale t.2.2 (1 / S)
  let o := if it = 0 then (t.1, 0) else callObj U t.1
  let h0 := if it = 0 then l.ha.initialize rval x0 g else l.ha.update x0 g rval
  let bm1 := if it = 0 then l.basem1 else l.base
  let b := if it = 0 then l.base else h0.computeBase o.2
  let h1 := if it = 0 then h0 else h0.updateRatio b bm1
  let h2 := h1.getAlphaF s.opts g
  let convg := if it = 0 then l.convg else minConvg (h2.checkFcn b bm1) (h2.checkGrad g)
  let e : Rec ℝ n nc := { rval := rval, rgrad := g, rhess := fun _ => h2.alpha, x0 := x0, idx := idx }
  let q := callSolve U true l.x (callGive U a e o.1)
  { w := q.1, x := q.2.1, status := q.2.2, ha := h2, base := b, basem1 := bm1, convg := convg,
    accp := if convg ≤ s.accpTol then l.accp + 1 else 0 }

/-- `stopping_criteria` (hiopAlgPrimalDecomp.cpp:704-724). -/
noncomputable def stops (s : Sett) (it : ℕ) (l : Loc σ n nc) : Bool :=
  if l.convg < s.tol then true
  else if (it : ℤ) = s.maxIter - 1 then true
  else if l.accp = s.accpCount then true
  else false

/-- The loop (hiopAlgPrimalDecomp.cpp:1845, 1980-1983), `fuel` iterations left; also returns `it_`. -/
noncomputable def rounds (U : User σ n nc) (S : ℕ) (idx : Fin nc → Fin n) (s : Sett) (a : ℕ) :
    ℕ → ℕ → Loc σ n nc → Loc σ n nc × ℤ
  | 0, it, l => (l, (it : ℤ) - 1)
  | fuel + 1, it, l =>
    let l' := round U S idx s a it l
    if stops s it l' then (l', it) else rounds U S idx s a fuel (it + 1) l'

/-- A new approximation (hiopAlgPrimalDecomp.cpp:1830-1831; its vectors are not set, zero stands for them): the address
and the memory. -/
noncomputable def World.alloc (idx : Fin nc → Fin n) (w : World σ n nc) : World σ n nc :=
  { w with heap := Function.update w.heap w.next (some { rval := 0, rgrad := 0, rhess := 0, x0 := 0, idx := idx }),
           next := w.next + 1 }

/-- `delete evaluator` (hiopAlgPrimalDecomp.cpp:1989). -/
def World.free (a : ℕ) (w : World σ n nc) : World σ n nc := { w with heap := Function.update w.heap a none }

/-- `run_single` (hiopAlgPrimalDecomp.cpp:1804-1991): always returns `Solve_Success` (0). -/
noncomputable def run (U : User σ n nc) (S : ℕ) (idx : Fin nc → Fin n) (p : Solver n) (w : World σ n nc) :
    Solver n × World σ n nc × ℤ :=
  let a := w.next
  let w := w.alloc idx
  if p.sett.maxIter ≤ 0 then ({ p with x := 0 }, w.free a, 0)
  else
    let r := rounds U S idx p.sett a p.sett.maxIter.toNat 0 (basecase U p.sett w)
    ({ p with x := r.1.x, it := r.2, status := some r.1.status }, r.1.w.free a, 0)

/-- What the owner of the solver does with it. Code: hiopAlgPrimalDecomp.cpp:739-784, 1789-1796. -/
inductive Op where
  | setTol (v : ℝ)
  | setAccpTol (v : ℝ)
  | setAccpCount (v : ℤ)
  | setMaxIter (v : ℤ)
  | setAlphaMin (v : ℝ)
  | setAlphaMax (v : ℝ)
  | setAlphaRatio (v : ℝ)
  | run

/-- The setters (hiopAlgPrimalDecomp.cpp:739-779); none of them looks at the value, except
`set_initial_alpha_ratio`, whose assertion is not modelled. -/
def Op.set : Op → Sett → Sett
  | .setTol v, s => { s with tol := v }
  | .setAccpTol v, s => { s with accpTol := v }
  | .setAccpCount v, s => { s with accpCount := v }
  | .setMaxIter v, s => { s with maxIter := v }
  | .setAlphaMin v, s => { s with alphaMin := v }
  | .setAlphaMax v, s => { s with alphaMax := v }
  | .setAlphaRatio v, s => { s with alphaRatio := v }
  | .run, s => s

/-- One operation. Code: hiopAlgPrimalDecomp.cpp:739-784, 1789-1796. -/
noncomputable def step (U : User σ n nc) (S : ℕ) (idx : Fin nc → Fin n) (q : Solver n × World σ n nc) (o : Op) :
    Solver n × World σ n nc :=
  match o with
  | .run => ((run U S idx q.1 q.2).1, (run U S idx q.1 q.2).2.1)
  | o => ({ q.1 with sett := o.set q.1.sett }, q.2)

/-- A history. Code: hiopAlgPrimalDecomp.cpp:739-784, 1789-1796. -/
noncomputable def exec (U : User σ n nc) (S : ℕ) (idx : Fin nc → Fin n) (q : Solver n × World σ n nc) (l : List Op) :
    Solver n × World σ n nc :=
  l.foldl (step U S idx) q

/-- A user that has been given nothing, and no approximation in memory. Code: hiopAlgPrimalDecomp.cpp:560-666. -/
def World.init (u : σ) : World σ n nc := { u := u, heap := fun _ => none, next := 0, held := none, log := [] }

end Hiop.PdSession
