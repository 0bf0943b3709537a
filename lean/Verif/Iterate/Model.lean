import Verif.Vec.Model

/-!
# Model of the primal-dual iterate

Source: `src/Optimization/hiopIterate.cpp`, the linear duals updater
(`src/Optimization/hiopDualsUpdater.hpp:401-438`) and the bound adjustment
(`src/Optimization/hiopNlpFormulation.cpp:1403-1416`). One MPI rank, exact arithmetic.
-/

namespace Hiop.Iterate

open Hiop.Vec

variable {K : Type*} [Field K] [LinearOrder K] {n mc m : ℕ}

/-- Bounds and bound patterns held by `hiopNlpFormulation`
(`xl_,xu_,ixl_,ixu_,dl_,du_,idl_,idu_`). Code: hiopNlpFormulation.hpp:337-343. -/
structure Bounds (K : Type*) (n m : ℕ) where
  xl : RVec K n
  xu : RVec K n
  ixl : RVec K n
  ixu : RVec K n
  dl : RVec K m
  du : RVec K m
  idl : RVec K m
  idu : RVec K m

/-- The members of `hiopIterate`, hiopIterate.hpp (x,d, the four slacks, the equality duals
and the four bound duals). Directions have the same type. -/
structure It (K : Type*) (n mc m : ℕ) where
  x : RVec K n
  d : RVec K m
  sxl : RVec K n
  sxu : RVec K n
  sdl : RVec K m
  sdu : RVec K m
  yc : RVec K mc
  yd : RVec K m
  zl : RVec K n
  zu : RVec K n
  vl : RVec K m
  vu : RVec K m

/-- Machine constants used by `adjust_small_slacks`: `eps` is
`numeric_limits<double>::epsilon()`, `scaleFact` is `pow(eps,0.75)` (an opaque constant here),
`dblMax` is `numeric_limits<double>::max()`. Code: hiopIterate.cpp:428-429. -/
structure Mach (K : Type*) where
  eps : K
  scaleFact : K
  dblMax : K

/-- `setBoundsDualsToConstant`, hiopIterate.cpp:187-193. -/
def setBoundsDualsToConstant (b : Bounds K n m) (it : It K n mc m) (v : K) : It K n mc m :=
  { it with
    zl := setToConstantSel v b.ixl
    zu := setToConstantSel v b.ixu
    vl := setToConstantSel v b.idl
    vu := setToConstantSel v b.idu }

/-- `setEqualityDualsToConstant`, hiopIterate.cpp:195-199. -/
def setEqualityDualsToConstant (it : It K n mc m) (v : K) : It K n mc m :=
  { it with yc := fun _ => v, yd := fun _ => v }

/-- `selectPattern`, hiopIterate.cpp:259-272. -/
def selectPattern (b : Bounds K n m) (it : It K n mc m) : It K n mc m :=
  { it with
    sxl := Vec.selectPattern it.sxl b.ixl
    zl := Vec.selectPattern it.zl b.ixl
    sxu := Vec.selectPattern it.sxu b.ixu
    zu := Vec.selectPattern it.zu b.ixu
    sdl := Vec.selectPattern it.sdl b.idl
    vl := Vec.selectPattern it.vl b.idl
    sdu := Vec.selectPattern it.sdu b.idu
    vu := Vec.selectPattern it.vu b.idu }

/-- `normOneOfDuals`, hiopIterate.cpp:238-257, as `(nrm1Eq, nrm1Bnd)`. -/
def normOneOfDuals (it : It K n mc m) : K × K :=
  (onenorm it.yc + onenorm it.yd,
   onenorm it.zl + onenorm it.zu + (onenorm it.vl + onenorm it.vu))

/-- `normOneOfBoundDuals`, hiopIterate.cpp:201-217. -/
def normOneOfBoundDuals (it : It K n mc m) : K :=
  onenorm it.zl + onenorm it.zu + (onenorm it.vl + onenorm it.vu)

/-- `normOneOfEqualityDuals`, hiopIterate.cpp:219-236. -/
def normOneOfEqualityDuals (it : It K n mc m) : K :=
  onenorm it.zl + onenorm it.zu
    + (onenorm it.vl + onenorm it.vu + onenorm it.yc + onenorm it.yd)

/-- `determineSlacks`, hiopIterate.cpp:274-291. -/
def determineSlacks (b : Bounds K n m) (it : It K n mc m) : It K n mc m :=
  { it with
    sxl := Vec.selectPattern (axpy it.x (-1) b.xl) b.ixl
    sxu := Vec.selectPattern (axpy b.xu (-1) it.x) b.ixu
    sdl := Vec.selectPattern (axpy it.d (-1) b.dl) b.idl
    sdu := Vec.selectPattern (axpy b.du (-1) it.d) b.idu }

/-- Per-vector `adjust_small_slacks`, hiopIterate.cpp:414-481: the literal sequence of vector
kernels on `slack`, `arg1`, `arg2`, `arg3`. Returns the number of adjusted entries and the
new slack vector.

Division by a zero multiplier. The kernel `componentDiv_w_selectPattern` then yields
`mu/0 = +inf` (for `mu>0`). At an entry that is being adjusted (`arg1 = 1`) the infinity is
cut off by the final `component_min`, which leaves `arg2`. At a selected entry that is not
being adjusted (`arg1 = 0`) the product `0*inf` is NaN and survives; this is the outcome
`none`. (`Verif/Iterate/Ieee.lean` derives both facts from extended arithmetic.)

(`slack.get_size()>0` is tested on the global size; for an empty vector
the branch below changes nothing.) -/
def adjustSmallSlacksVec {p : ℕ} (M : Mach K) (slack bound dual sel : RVec K p) (mu : K) :
    Option (ℕ × RVec K p) :=
  let smallVal := M.eps * min 1 mu
  if p > 0 then
    let slackMin := minSel M.dblMax slack sel
    if slackMin < smallVal then
      let arg1 := slack
      let arg1 := addConstantSel arg1 (-smallVal) sel
      let arg1 := componentMinC arg1 0
      let num := numLessThan arg1 0
      let arg1 := componentSgn arg1
      let arg1 := Vec.scale arg1 (-1)
      if ∃ i, sel i ≠ 0 ∧ dual i = 0 ∧ arg1 i = 0 then none
      else
        let slack := componentMaxC slack 0
        let arg2 := setToConstantSel mu sel
        let arg2 := componentDivSel arg2 dual sel
        let arg3 := setToConstantSel smallVal sel
        let arg2 := componentMax arg2 arg3
        let arg2 := axpy arg2 (-1) slack
        let arg1 := componentMult arg1 arg2
        let arg1 := axpy arg1 1 slack
        let arg2 := setToConstantSel 1 sel
        let arg3 := bound
        let arg3 := componentAbs arg3
        let arg2 := componentMax arg2 arg3
        let arg2 := Vec.scale arg2 M.scaleFact
        let arg2 := axpy arg2 1 slack
        let arg1 : RVec K p :=
          fun i => if sel i ≠ 0 ∧ dual i = 0 then arg2 i else componentMin arg1 arg2 i
        some (num, arg1)
    else some (0, slack)
  else some (0, slack)

/-- `adjust_small_slacks(iter_curr, mu)`, hiopIterate.cpp:483-506. -/
def adjustSmallSlacks (M : Mach K) (b : Bounds K n m) (it cur : It K n mc m) (mu : K) :
    Option (ℕ × It K n mc m) := do
  let r1 ← adjustSmallSlacksVec M it.sxl b.xl cur.zl b.ixl mu
  let r2 ← adjustSmallSlacksVec M it.sxu b.xu cur.zu b.ixu mu
  let r3 ← adjustSmallSlacksVec M it.sdl b.dl cur.vl b.idl mu
  let r4 ← adjustSmallSlacksVec M it.sdu b.du cur.vu b.idu mu
  return (r1.1 + r2.1 + r3.1 + r4.1,
    { it with sxl := r1.2, sxu := r2.2, sdl := r3.2, sdu := r4.2 })

/-- `compute_safe_slacks`, hiopIterate.cpp:293-313. -/
def computeSafeSlacks (M : Mach K) (b : Bounds K n m) (it cur : It K n mc m) (mu : K) :
    Option (ℕ × It K n mc m) :=
  adjustSmallSlacks M b (determineSlacks b it) cur mu

/-- `determineDualsBounds_d`, hiopIterate.cpp:315-326. -/
def determineDualsBoundsD (b : Bounds K n m) (it : It K n mc m) (mu : K) : It K n mc m :=
  { it with
    vl := componentDivSel (fun _ => mu) it.sdl b.idl
    vu := componentDivSel (fun _ => mu) it.sdu b.idu }

/-- `fractionToTheBdry`, hiopIterate.cpp:328-364, as `(alphaprimal, alphadual)`. -/
def fractionToTheBdry (b : Bounds K n m) (it dir : It K n mc m) (tau : K) : K × K :=
  let ap := min 10 (fractionToBdrySel it.sxl dir.sxl tau b.ixl)
  let ap := min ap (fractionToBdrySel it.sxu dir.sxu tau b.ixu)
  let ap := min ap (fractionToBdrySel it.sdl dir.sdl tau b.idl)
  let ap := min ap (fractionToBdrySel it.sdu dir.sdu tau b.idu)
  let ad := min 10 (fractionToBdrySel it.zl dir.zl tau b.ixl)
  let ad := min ad (fractionToBdrySel it.zu dir.zu tau b.ixu)
  let ad := min ad (fractionToBdrySel it.vl dir.vl tau b.idl)
  let ad := min ad (fractionToBdrySel it.vu dir.vu tau b.idu)
  (ap, ad)

/-- `takeStep_primals`, hiopIterate.cpp:367-373; `it` is the receiver. -/
def takeStepPrimals (it cur dir : It K n mc m) (ap : K) : It K n mc m :=
  { it with
    x := axpy cur.x ap dir.x
    d := axpy cur.d ap dir.d }

/-- `takeStep_duals`, hiopIterate.cpp:375-390. -/
def takeStepDuals (it cur dir : It K n mc m) (ap ad : K) : It K n mc m :=
  { it with
    yd := axpy cur.yd ap dir.yd
    yc := axpy cur.yc ap dir.yc
    zl := axpy cur.zl ad dir.zl
    zu := axpy cur.zu ad dir.zu
    vl := axpy cur.vl ad dir.vl
    vu := axpy cur.vu ad dir.vu }

/-- `adjustDuals_primalLogHessian`, hiopIterate.cpp:508-521. -/
def adjustDuals (b : Bounds K n m) (it : It K n mc m) (mu kappa : K) : It K n mc m :=
  { it with
    zl := adjustDualsPlh it.zl it.sxl b.ixl mu kappa
    zu := adjustDualsPlh it.zu it.sxu b.ixu mu kappa
    vl := adjustDualsPlh it.vl it.sdl b.idl mu kappa
    vu := adjustDualsPlh it.vu it.sdu b.idu mu kappa }

/-- `hiopDualsNewtonLinearUpdate::go`, hiopDualsUpdater.hpp:411-431. -/
def linearDualsUpdate (b : Bounds K n m) (cur plus dir : It K n mc m) (ap ad mu kappa : K) :
    It K n mc m :=
  adjustDuals b (takeStepDuals plus cur dir ap ad) mu kappa

/-- `hiopNlpFormulation::adjust_bounds`, hiopNlpFormulation.cpp:1403-1416. -/
def adjustBounds (b : Bounds K n m) (it : It K n mc m) : Bounds K n m :=
  { b with
    xl := axpySel (copyFromSel b.xl it.x b.ixl) (-1) it.sxl b.ixl
    xu := axpySel (copyFromSel b.xu it.x b.ixu) 1 it.sxu b.ixu
    dl := axpySel (copyFromSel b.dl it.d b.idl) (-1) it.sdl b.idl
    du := axpySel (copyFromSel b.du it.d b.idu) 1 it.sdu b.idu }

/-- `projectPrimalsXIntoBounds`, hiopIterate.cpp:161-172; `none` is `exit(-1)`. -/
def projectPrimalsX (small kappa1 kappa2 : K) (b : Bounds K n m) (it : It K n mc m) :
    Option (It K n mc m) :=
  match projectIntoBounds small kappa1 kappa2 it.x b.xl b.ixl b.xu b.ixu with
  | (true, x) => some { it with x := x }
  | (false, _) => none

/-- `projectPrimalsDIntoBounds`, hiopIterate.cpp:174-185. -/
def projectPrimalsD (small kappa1 kappa2 : K) (b : Bounds K n m) (it : It K n mc m) :
    Option (It K n mc m) :=
  match projectIntoBounds small kappa1 kappa2 it.d b.dl b.idl b.du b.idu with
  | (true, d) => some { it with d := d }
  | (false, _) => none

/-! ## Histories of iterates

The part of `startingProcedure` / `run` that touches the iterate. -/

/-- Bounds owned by the problem and the current iterate. Code: hiopNlpFormulation.hpp:337-343, hiopAlgFilterIPM.hpp:261. -/
structure State (K : Type*) (n mc m : ℕ) where
  b : Bounds K n m
  it : It K n mc m

/-- Outcome of the starting procedure. Code: hiopAlgFilterIPM.cpp:290-440. -/
inductive StartResult (K : Type*) (n mc m : ℕ)
  /-- `exit(-1)`: a lower bound exceeds an upper bound. -/
  | inconsistentBounds
  /-- A slack became NaN (division by a zero dual while correcting small slacks). -/
  | nonfinite
  | ok (s : State K n mc m)

/-- `startingProcedure`, hiopAlgFilterIPM.cpp:353-399, for a starting point without dual or
slack information: project `x`, set `d` to the evaluated constraint body `dOfX`, project it,
compute safe slacks, adjust the bounds if a slack was adjusted, set bound duals to 1.
The oracle `dOfX` is the evaluation of the inequality body at the projected point.
Equality duals are set by LSQ or to zero; they are passed in as `yc0`, `yd0`. All duals are
zero (hiopIterate.cpp:68-84) when the safe slacks are computed. -/
def start (M : Mach K) (small kappa1 kappa2 mu0 : K) (b : Bounds K n m) (x0 : RVec K n)
    (dOfX : RVec K n → RVec K m) (yc0 : RVec K mc) (yd0 : RVec K m) :
    StartResult K n mc m :=
  let it0 : It K n mc m :=
    { x := x0, d := fun _ => 0, sxl := fun _ => 0, sxu := fun _ => 0, sdl := fun _ => 0,
      sdu := fun _ => 0, yc := fun _ => 0, yd := fun _ => 0, zl := fun _ => 0,
      zu := fun _ => 0, vl := fun _ => 0, vu := fun _ => 0 }
  match projectPrimalsX small kappa1 kappa2 b it0 with
  | none => .inconsistentBounds
  | some it1 =>
    match projectPrimalsD small kappa1 kappa2 b { it1 with d := dOfX it1.x } with
    | none => .inconsistentBounds
    | some it2 =>
      match computeSafeSlacks M b it2 it2 mu0 with
      | none => .nonfinite
      | some r =>
        let b' := if r.1 > 0 then adjustBounds b r.2 else b
        .ok { b := b', it := { setBoundsDualsToConstant b' r.2 1 with yc := yc0, yd := yd0 } }

/-- The ways in which the solver replaces its current iterate. Code: hiopAlgFilterIPM.cpp:3168. -/
inductive Op (K : Type*) (n mc m : ℕ)
  /-- An accepted trial point: primal step `ap` along `dir`, safe slacks, bound adjustment,
  dual step `ad` and dual safeguard (hiopAlgFilterIPM.cpp:1297-1298,1371-1374 / 2520-2521,
  2590-2593 and the duals update that follows). `ap`,`ad` are arbitrary. -/
  | step (dir : It K n mc m) (ap ad mu kappa : K)
  /-- Robust feasibility restoration, `reset_var_from_fr_sol` with dual reset,
  hiopAlgFilterIPM.cpp:3168-3233: new primals, safe slacks, bound adjustment, a
  fraction-to-the-boundary dual step, equality duals reset to zero. -/
  | restore (x : RVec K n) (d : RVec K m) (dir : It K n mc m) (tau mu0 : K)
  /-- Soft feasibility restoration, hiopAlgFilterIPM.cpp:3287-3310: common step to the
  boundary, slacks recomputed without correction, dual update. -/
  | soft (dir : It K n mc m) (tau mu kappa : K)
  /-- Elastic mode, hiopAlgFilterIPM.cpp:595-618: the bounds are replaced by `nb`
  (patterns kept); `correct` is `elastic_mode != tighten_bound`, `adjust` is
  `elastic_mode == correct_it_adjust_bound`. -/
  | elastic (nb : Bounds K n m) (correct adjust : Bool) (mu kappa : K)

/-- One replacement of the iterate; `none`: a slack became NaN in `adjust_small_slacks`. Code: hiopAlgFilterIPM.cpp:3168. -/
def applyOp (M : Mach K) (s : State K n mc m) : Op K n mc m → Option (State K n mc m)
  | .step dir ap ad mu kappa => do
    let t := takeStepPrimals s.it s.it dir ap
    let r ← computeSafeSlacks M s.b t s.it mu
    let b' := if r.1 > 0 then adjustBounds s.b r.2 else s.b
    return { b := b', it := linearDualsUpdate b' s.it r.2 dir ap ad mu kappa }
  | .restore x d dir tau mu0 => do
    let r ← computeSafeSlacks M s.b { s.it with x := x, d := d } s.it mu0
    let b' := if r.1 > 0 then adjustBounds s.b r.2 else s.b
    let a := fractionToTheBdry s.b s.it dir tau
    return { b := b', it := setEqualityDualsToConstant (takeStepDuals r.2 s.it dir a.1 a.2) 0 }
  | .soft dir tau mu kappa =>
    let a := fractionToTheBdry s.b s.it dir tau
    let al := min a.1 a.2
    let t := determineSlacks s.b (takeStepPrimals s.it s.it dir al)
    some { b := s.b, it := linearDualsUpdate s.b s.it t dir al al mu kappa }
  | .elastic nb correct adjust mu kappa =>
    let b1 : Bounds K n m := { s.b with xl := nb.xl, xu := nb.xu, dl := nb.dl, du := nb.du }
    if correct then do
      let r ← computeSafeSlacks M b1 s.it s.it mu
      if r.1 > 0 then
        return { b := if adjust then adjustBounds b1 r.2 else b1,
                 it := adjustDuals b1 r.2 mu kappa }
      else return { b := b1, it := r.2 }
    else some { b := b1, it := s.it }

end Hiop.Iterate
