import Mathlib.Analysis.SpecialFunctions.Pow.Real

/-!
# Inertia-correction perturbations and factorization acceptance

* src/Optimization/hiopPDPerturbation.hpp, hiopPDPerturbation.cpp: `hiopPDPerturbation`,
  `hiopPDPerturbationPrimalFirstScalar`, `hiopPDPerturbationDualFirstScalar`.
* src/Optimization/hiopFactAcceptor.cpp: `hiopFactAcceptorIC`, `hiopFactAcceptorInertiaFreeDWD`.
* src/Optimization/hiopKKTLinSys.cpp:314-445: `factorize`, `factorize_inertia_free`.

`double` is `ℝ`. The program is taken with assertions on: `none` is a failed assertion. The
perturbation vectors of the scalar classes are constant vectors, so each is represented by its
common entry. The randomised subclasses (`*Rand`), which only differ in how the vectors are
filled from the scalars, are not modelled here.
-/

namespace Hiop.Perturb

/-- Options read by `initialize` (hiopPDPerturbation.cpp:69-79) and the two constants of the
dual-first class (lines 458-463). -/
structure Params where
  wMin : ℝ
  wMax : ℝ
  w0 : ℝ
  kMinus : ℝ
  kPlusBar : ℝ
  kPlus : ℝ
  cBar : ℝ
  kC : ℝ
  cMin : ℝ := 1e-20
  kCPlus : ℝ := 10

/-- Option ranges (src/Utils/hiopOptions.cpp:1080-1123), with the additional requirement
`delta_0_bar > 0` (the registered range also contains 0). -/
structure Params.Ok (p : Params) : Prop where
  wMin0 : 0 ≤ p.wMin
  w00 : 0 < p.w0
  km0 : 0 < p.kMinus
  km1 : p.kMinus < 1
  kpb : 1 < p.kPlusBar
  kp : 1 < p.kPlus
  cb : 0 < p.cBar
  cm : 0 < p.cMin
  kcp : 1 < p.kCPlus

/-- `DegeneracyType` (hpp). Code: hiopPDPerturbation.hpp:170-175. -/
inductive Degen
  | unknown
  | no
  | yes
  deriving DecidableEq

/-- `DeltasTestType` (hpp). Code: hiopPDPerturbation.hpp:188-195. -/
inductive Test
  | noTest
  | c0w0
  | cposw0
  | c0wpos
  | cposwpos
  deriving DecidableEq

/-- Four perturbations: `wx`, `wd`, `cc`, `cd`. Code: hiopPDPerturbation.hpp:124-142. -/
@[ext] structure Deltas where
  wx : ℝ
  wd : ℝ
  cc : ℝ
  cd : ℝ

/-- All zero. Code: hiopPDPerturbation.hpp:37-44. -/
def Deltas.zero : Deltas := ⟨0, 0, 0, 0⟩

/-- Object state. `cur`, `last` are the `*_db_` scalars; `vec` are the entries of the current
perturbation vectors handed to the linear system (`delta_*_curr_`). The `delta_*_last_` vectors
are never read and are left out. Code: hiopPDPerturbation.hpp:124-204. -/
structure PState where
  cur : Deltas
  last : Deltas
  vec : Deltas
  hess : Degen
  jac : Degen
  numDegen : ℕ
  test : Test
  mu : ℝ

/-- Constructor values (hiopPDPerturbation.hpp:28-61); `initialize` sets the vectors to zero. -/
def PState.fresh (mu : ℝ) : PState :=
  ⟨.zero, .zero, .zero, .unknown, .unknown, 0, .noTest, mu⟩

/-- `initialize` (hiopPDPerturbation.cpp:69-106) on an existing object: zeroes the vectors, the counter and the test
type; the scalars and the degeneracy flags are *not* reset. -/
def reinit (s : PState) : PState := { s with vec := .zero, numDegen := 0, test := .noTest }

/-- `set_mu`. Code: hiopPDPerturbation.hpp:84-87. -/
def setMu (mu : ℝ) (s : PState) : PState := { s with mu := mu }

/-- `update_degeneracy_type`, hiopPDPerturbation.cpp:111-159; `num_degen_max_iters_ = 3`. -/
def updateDegen (s : PState) : PState :=
  match s.test with
  | .noTest => s
  | .c0w0 =>
    { s with hess := if s.hess = .unknown then .no else s.hess,
             jac := if s.jac = .unknown then .no else s.jac }
  | .cposw0 =>
    let s := { s with hess := if s.hess = .unknown then .no else s.hess }
    if s.jac = .unknown then
      let n := s.numDegen + 1
      { s with numDegen := n, jac := if n ≥ 3 then .yes else s.jac }
    else s
  | .c0wpos =>
    let s := { s with jac := if s.jac = .unknown then .no else s.jac }
    if s.hess = .unknown then
      let n := s.numDegen + 1
      { s with numDegen := n, hess := if n ≥ 3 then .yes else s.hess }
    else s
  | .cposwpos =>
    let n := s.numDegen + 1
    if n ≥ 3 then { s with numDegen := n, hess := .yes, jac := .yes }
    else { s with numDegen := n }

/-- `set_delta_curr_vec(PrimalUpdate)`. Code: hiopPDPerturbation.cpp:371-390. -/
def setVecP (s : PState) : PState := { s with vec := { s.vec with wx := s.cur.wx, wd := s.cur.wd } }

/-- `set_delta_curr_vec(DualUpdate)`. Code: hiopPDPerturbation.cpp:627-646. -/
def setVecD (s : PState) : PState := { s with vec := { s.vec with cc := s.cur.cc, cd := s.cur.cd } }

/-- `set_delta_curr_vec(PDUpdate)`. Code: hiopPDPerturbation.cpp:371-390, hiopPDPerturbation.cpp:627-646. -/
def setVec (s : PState) : PState := { s with vec := s.cur }

/-- Remember the last positive perturbations (hiopPDPerturbation.cpp:169-180 and 474-485). -/
noncomputable def saveLast (s : PState) : PState :=
  { s with last :=
    { wx := if s.cur.wx > 0 then s.cur.wx else s.last.wx
      wd := if s.cur.wd > 0 then s.cur.wd else s.last.wd
      cc := if s.cur.cc > 0 then s.cur.cc else s.last.cc
      cd := if s.cur.cd > 0 then s.cur.cd else s.last.cd } }

/-- The value computed by `guts_of_compute_perturb_wrong_inertia` (hiopPDPerturbation.cpp:335-348) and by
`compute_primal_perturb_impl` (hiopPDPerturbation.cpp:594-606). -/
noncomputable def nextW (p : Params) (cur last : ℝ) : ℝ :=
  if cur = 0 then
    if last = 0 then p.w0 else max p.wMin (last * p.kMinus)
  else if last = 0 ∨ 1e5 * last < cur then p.kPlusBar * cur
  else p.kPlus * cur

/-- `guts_of_compute_perturb_wrong_inertia`, hiopPDPerturbation.cpp:331-359, and `compute_primal_perturb_impl`,
hiopPDPerturbation.cpp:588-617 (same effect). Its two reference arguments are never assigned. -/
noncomputable def guts (p : Params) (s : PState) : Option (Bool × PState) :=
  if s.cur.wx ≠ s.cur.wd ∨ s.last.wx ≠ s.last.wd then none
  else
    let w := nextW p s.cur.wx s.last.wx
    let s := setVecP { s with cur := { s.cur with wx := w, wd := w } }
    if w > p.wMax then
      some (false, { s with last := { s.last with wx := 0, wd := 0 } })
    else some (true, s)

/-- `compute_delta_c`, hiopPDPerturbation.cpp:361-364. -/
noncomputable def deltaC (p : Params) (mu : ℝ) : ℝ := p.cBar * mu ^ p.kC

/-- Set both dual perturbations. Code: hiopPDPerturbation.cpp:230, hiopPDPerturbation.cpp:528. -/
def setC (x : ℝ) (s : PState) : PState := { s with cur := { s.cur with cc := x, cd := x } }

/-- Set both primal perturbations. Code: hiopPDPerturbation.cpp:229, hiopPDPerturbation.cpp:500. -/
def setW (x y : ℝ) (s : PState) : PState := { s with cur := { s.cur with wx := x, wd := y } }

/-- Primal part of `compute_initial_deltas`, hiopPDPerturbation.cpp:198-214. `dt` is `delta_temp`, which still holds
the *dual* perturbation when the primal ones are overwritten at the end. -/
noncomputable def initCore (p : Params) (dt : ℝ) (s : PState) : Option (Bool × PState) :=
  if s.hess = .yes then
    match guts p (setW 0 0 s) with
    | none => none
    | some (false, s) => some (false, s)
    | some (true, s) => some (true, setVec (setW dt 0 s))
  else some (true, setVec (setW 0 0 s))

/-- The test started with a new linear system, hiopPDPerturbation.cpp:184-188. -/
def startTest (s : PState) : PState :=
  { s with test := if s.hess = .unknown ∨ s.jac = .unknown then .c0w0 else .noTest }

/-- Initial dual perturbation of the primal-first class, hiopPDPerturbation.cpp:190-194. -/
noncomputable def initC (p : Params) (s : PState) : ℝ := if s.jac = .yes then deltaC p s.mu else 0

/-- `compute_initial_deltas` of the primal-first class, hiopPDPerturbation.cpp:163-214. -/
noncomputable def initialP (p : Params) (s : PState) : Option (Bool × PState) :=
  initCore p (initC p (saveLast (updateDegen s)))
    (setC (initC p (saveLast (updateDegen s))) (startTest (saveLast (updateDegen s))))

/-- `compute_perturb_wrong_inertia` of the primal-first class, hiopPDPerturbation.cpp:217-245. -/
noncomputable def wrongP (p : Params) (s : PState) : Option (Bool × PState) :=
  let s := updateDegen s
  if s.cur.wx ≠ s.cur.wd ∨ s.cur.cc ≠ s.cur.cd then none
  else
    match guts p s with
    | none => none
    | some (ret, s) =>
      if ret = false ∧ s.cur.cc = 0 then
        let s := setC (deltaC p s.mu) (setW 0 0 s)
        let s := { s with test := .noTest, hess := if s.hess = .yes then .unknown else s.hess }
        match guts p s with
        | none => none
        | some (ret, s) => some (ret, setVec s)
      else some (ret, setVecP s)

/-- The recurring pattern of `compute_perturb_singularity`: compute the next primal perturbation,
on success check and set the next test, and copy the scalars to the vectors in either case. Code: hiopPDPerturbation.cpp:217-330. -/
noncomputable def gutsThen (p : Params) (s : PState) (t : Test) (chk : PState → Bool) :
    Option (Bool × PState) :=
  match guts p s with
  | none => none
  | some (false, s) => some (false, setVec s)
  | some (true, s) => if chk s = false then none else some (true, setVec { s with test := t })

/-- `compute_perturb_singularity` of the primal-first class, hiopPDPerturbation.cpp:250-326. -/
noncomputable def singP (p : Params) (s : PState) : Option (Bool × PState) :=
  if s.cur.wx ≠ s.cur.wd ∨ s.cur.cc ≠ s.cur.cd then none
  else
    if s.hess = .unknown ∨ s.jac = .unknown then
      match s.test with
      | .c0w0 =>
        if s.jac = .unknown then
          some (true, setVec { setC (deltaC p s.mu) s with test := .cposw0 })
        else
          gutsThen p s .c0wpos (fun s => open Classical in decide (s.cur.cc = 0 ∧ s.cur.cd = 0))
      | .cposw0 =>
        if ¬ (s.cur.wx = 0 ∧ s.cur.cc > 0) ∨ s.jac ≠ .unknown then none
        else gutsThen p (setC 0 s) .c0wpos (fun _ => true)
      | .c0wpos =>
        if ¬ (s.cur.wx > 0 ∧ s.cur.cc = 0) then none
        else gutsThen p (setC (deltaC p s.mu) s) .cposwpos (fun _ => true)
      | .cposwpos => gutsThen p s .cposwpos (fun _ => true)
      | .noTest => none
    else if s.cur.cc > 0 then gutsThen p s s.test (fun _ => true)
    else some (true, setVec (setC (deltaC p s.mu) s))

/-- `compute_dual_perturb_impl` of the dual-first class, hiopPDPerturbation.cpp:559-586. -/
noncomputable def nextC (p : Params) (mu cur last : ℝ) : ℝ :=
  if cur = 0 then
    if last = 0 then max p.cMin (p.cBar * mu ^ p.kC) else max p.cMin (last * p.kMinus)
  else if last = 0 ∨ 1e5 * last < cur then p.kPlusBar * cur
  else p.kCPlus * cur

/-- `compute_dual_perturb_impl`, hiopPDPerturbation.cpp:559-586. -/
noncomputable def dualImpl (p : Params) (s : PState) : Option (Bool × PState) :=
  if s.cur.cc ≠ s.cur.cd ∨ s.last.cc ≠ s.last.cd then none
  else
    let c := nextC p s.mu s.cur.cc s.last.cc
    let s := setVecD (setC c s)
    if c > p.wMax then
      some (false, { s with last := { s.last with cc := 0, cd := 0 } })
    else some (true, s)

/-- `compute_initial_deltas` of the dual-first class, hiopPDPerturbation.cpp:469-514. -/
noncomputable def initialD (p : Params) (s : PState) : Option (Bool × PState) :=
  let s := saveLast (updateDegen s)
  let s := startTest s
  let s := setC 0 s
  let r1 := if s.jac = .yes then dualImpl p s else some (true, s)
  match r1 with
  | none => none
  | some (false, s) => some (false, s)
  | some (true, s) =>
    let s := setW 0 0 s
    let r2 := if s.hess = .yes then guts p s else some (true, s)
    match r2 with
    | none => none
    | some (false, s) => some (false, s)
    | some (true, s) => some (true, setVec s)

/-- `compute_perturb_wrong_inertia` of the dual-first class, hiopPDPerturbation.cpp:516-548;
`compute_perturb_singularity` (550-557) is the same call. -/
noncomputable def wrongD (p : Params) (s : PState) : Option (Bool × PState) :=
  let s := updateDegen s
  if s.cur.wx ≠ s.cur.wd ∨ s.cur.cc ≠ s.cur.cd then none
  else
    match dualImpl p s with
    | none => none
    | some (ret, s) =>
      if ret = false ∧ s.cur.wx = 0 then
        match guts p (setC 0 s) with
        | none => none
        | some (false, s) => some (false, s)
        | some (true, s) =>
          let s := { s with test := .noTest, jac := if s.jac = .yes then .unknown else s.jac }
          match dualImpl p s with
          | none => none
          | some (ret, s) => some (ret, setVecD (setVecP s))
      else some (ret, setVecD s)

/-! ## Acceptors and the factorization loops -/

/-- The interface of a perturbation calculator used by acceptors. Code: hiopPDPerturbation.hpp:91-99. -/
structure Calc (σ : Type*) where
  initial : σ → Option (Bool × σ)
  wrong : σ → Option (Bool × σ)
  sing : σ → Option (Bool × σ)

/-- The primal-first calculator. Code: hiopPDPerturbation.cpp:163-330. -/
noncomputable def calcP (p : Params) : Calc PState := ⟨initialP p, wrongP p, singP p⟩

/-- The dual-first calculator. Code: hiopPDPerturbation.cpp:470-558. -/
noncomputable def calcD (p : Params) : Calc PState := ⟨initialD p, wrongD p, wrongD p⟩

/-- Turn the calculator's answer into `continue_re_fact`: 1 after a new perturbation, -1 when
refused. Code: hiopFactAcceptor.cpp:68-103. -/
def ask {σ : Type*} (r : Option (Bool × σ)) : Option (Int × σ) :=
  r.map fun (b, s) => (if b then 1 else -1, s)

/-- `hiopFactAcceptorIC::requireReFactorization`, hiopFactAcceptor.cpp:64-104. -/
def requireIC {σ : Type*} (c : Calc σ) (required negEig : Int) (_force : Bool) (s : σ) :
    Option (Int × σ) :=
  if required > 0 then
    if negEig < 0 then ask (c.sing s)
    else if negEig ≠ required then ask (c.wrong s)
    else some (0, s)
  else if negEig ≠ 0 then ask (c.wrong s)
  else some (0, s)

/-- `hiopFactAcceptorInertiaFreeDWD::requireReFactorization`, hiopFactAcceptor.cpp:106-157. -/
def requireDWD {σ : Type*} (c : Calc σ) (required negEig : Int) (force : Bool) (s : σ) :
    Option (Int × σ) :=
  if required > 0 then
    if negEig < 0 then ask (c.sing s)
    else if force = false then some (0, s)
    else ask (c.wrong s)
  else
    if negEig < 0 then ask (c.wrong s)
    else if force = false then some (0, s)
    else ask (c.wrong s)

/-- Loop of `hiopKKTLinSysCurvCheck::factorize`, hiopKKTLinSys.cpp:335-372. `solve s` is the
return of `factorizeWithCurvCheck` for the matrix built with the current perturbations; `num`
counts refactorizations. Returns success flag, the number of factorizations done and the final
calculator state; `fuel` is `11 - num`. -/
def factLoop {σ : Type*} (req : Int → Bool → σ → Option (Int × σ)) (solve : ℕ → σ → Int) :
    (fuel : ℕ) → (num : ℕ) → σ → Option (Bool × ℕ × σ)
  | 0, num, s => some (false, num, s)
  | fuel + 1, num, s =>
    match req (solve num s) false s with
    | none => none
    | some (r, s') =>
      if r = -1 then some (false, num + 1, s')
      else if r = 0 then some (true, num + 1, s')
      else factLoop req solve fuel (num + 1) s'

/-- `hiopKKTLinSysCurvCheck::factorize`, lines 314-378: `while(num <= 10)`. -/
def factorize {σ : Type*} (c : Calc σ) (req : Int → Bool → σ → Option (Int × σ))
    (solve : ℕ → σ → Int) (s : σ) : Option (Bool × ℕ × σ) :=
  match c.initial s with
  | none => none
  | some (false, s) => some (false, 0, s)
  | some (true, s) => factLoop req solve 11 0 s

/-- Loop of `factorize_inertia_free`, lines 409-437: at most 11 passes while the last
factorization failed. -/
def freeLoop {σ : Type*} (req : Int → Bool → σ → Option (Int × σ)) (solve : ℕ → σ → Int) :
    (fuel : ℕ) → (num : ℕ) → (flag : Int) → σ → Option (Bool × Int × σ)
  | 0, _, flag, s => some (true, flag, s)
  | fuel + 1, num, flag, s =>
    if flag < 0 then
      match req flag false s with
      | none => none
      | some (r, s') =>
        if r = -1 then some (false, flag, s')
        else if r ≠ 1 then none
        else freeLoop req solve fuel (num + 1) (solve (num + 1) s') s'
    else some (true, flag, s)

/-- `factorize_inertia_free`, lines 380-445. The answer of the first request is not inspected.
Returns the flag, the code of the last factorization and the state. -/
def factorizeFree {σ : Type*} (req : Int → Bool → σ → Option (Int × σ)) (solve : ℕ → σ → Int)
    (s : σ) : Option (Bool × Int × σ) :=
  match req 1 true s with
  | none => none
  | some (_, s) => freeLoop req solve 11 0 (solve 0 s) s

end Hiop.Perturb
