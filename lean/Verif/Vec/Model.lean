import Mathlib.Algebra.Order.Field.Basic
import Mathlib.Algebra.BigOperators.Fin
import Mathlib.Data.List.FinRange

/-!
# Model of the vector kernels of `hiopVectorPar`

Source: `src/LinAlg/hiopVectorPar.cpp`. A local vector of size `n` is `Fin n → K` with `K`
a linearly ordered field (exact arithmetic, one MPI rank). A kernel whose loop body only
touches index `i` is given pointwise; a loop with a carried value is a fold over the
indices `0,...,n-1` in increasing order. Kernels that mutate `this` return the new vector.
-/

namespace Hiop.Vec

variable {K : Type*} [Field K] [LinearOrder K] {n : ℕ}

/-- A local vector. Code: hiopVectorPar.hpp:331. -/
abbrev RVec (K : Type*) (n : ℕ) := Fin n → K

/-- `setToConstant_w_patternSelect`, hiopVectorPar.cpp:139-150. -/
def setToConstantSel (c : K) (sel : RVec K n) : RVec K n :=
  fun i => if sel i = 1 then c else 0

/-- `copy_from_w_pattern`, hiopVectorPar.cpp:177-191. -/
def copyFromSel (x v sel : RVec K n) : RVec K n :=
  fun i => if sel i = 1 then v i else x i

/-- `componentMult`, hiopVectorPar.cpp:564-571. -/
def componentMult (x v : RVec K n) : RVec K n := fun i => x i * v i

/-- `componentDiv`, hiopVectorPar.cpp:573-578. -/
def componentDiv (x v : RVec K n) : RVec K n := fun i => x i / v i

/-- `componentDiv_w_selectPattern`, hiopVectorPar.cpp:580-592. -/
def componentDivSel (x v sel : RVec K n) : RVec K n :=
  fun i => if sel i = 0 then 0 else x i / v i

/-- `component_min(constant)`, hiopVectorPar.cpp:594-601. -/
def componentMinC (x : RVec K n) (c : K) : RVec K n := fun i => if x i > c then c else x i

/-- `component_min(vector)`, hiopVectorPar.cpp:603-612. -/
def componentMin (x v : RVec K n) : RVec K n := fun i => if x i > v i then v i else x i

/-- `component_max(constant)`, hiopVectorPar.cpp:614-621. -/
def componentMaxC (x : RVec K n) (c : K) : RVec K n := fun i => if x i < c then c else x i

/-- `component_max(vector)`, hiopVectorPar.cpp:623-632. -/
def componentMax (x v : RVec K n) : RVec K n := fun i => if x i < v i then v i else x i

/-- `component_abs`, hiopVectorPar.cpp:634-639. -/
def componentAbs (x : RVec K n) : RVec K n := fun i => |x i|

/-- `component_sgn`, hiopVectorPar.cpp:641-647. -/
def componentSgn (x : RVec K n) : RVec K n :=
  fun i => (if 0 < x i then 1 else 0) - (if x i < 0 then 1 else 0)

/-- `scale`, hiopVectorPar.cpp:657-662. -/
def scale (x : RVec K n) (c : K) : RVec K n := if 1 = c then x else fun i => c * x i

/-- `axpy`, hiopVectorPar.cpp:664-670. -/
def axpy (x : RVec K n) (a : K) (v : RVec K n) : RVec K n := fun i => x i + a * v i

/-- `axpy_w_pattern`, hiopVectorPar.cpp:692-708. -/
def axpySel (x : RVec K n) (a : K) (v sel : RVec K n) : RVec K n :=
  fun i => if sel i = 1 then x i + a * v i else x i

/-- `axzpy`, hiopVectorPar.cpp:710-734. -/
def axzpy (y : RVec K n) (a : K) (x z : RVec K n) : RVec K n :=
  if a = 1 then fun i => y i + x i * z i
  else if a = -1 then fun i => y i - x i * z i
  else if a ≠ 0 then fun i => y i + a * x i * z i
  else y

/-- `axdzpy`, hiopVectorPar.cpp:736-765. -/
def axdzpy (y : RVec K n) (a : K) (x z : RVec K n) : RVec K n :=
  if a = 0 then y
  else if a = 1 then fun i => y i + x i / z i
  else if a = -1 then fun i => y i - x i / z i
  else fun i => y i + x i / z i * a

/-- `axdzpy_w_pattern`, hiopVectorPar.cpp:767-791. -/
def axdzpySel (y : RVec K n) (a : K) (x z sel : RVec K n) : RVec K n :=
  if a = 1 then fun i => if sel i = 1 then y i + x i / z i else y i
  else if a = -1 then fun i => if sel i = 1 then y i - x i / z i else y i
  else fun i => if sel i = 1 then y i + a * x i / z i else y i

/-- `addConstant`, hiopVectorPar.cpp:793-796. -/
def addConstant (x : RVec K n) (c : K) : RVec K n := fun i => x i + c

/-- `addConstant_w_patternSelect`, hiopVectorPar.cpp:798-804. -/
def addConstantSel (x : RVec K n) (c : K) (sel : RVec K n) : RVec K n :=
  fun i => if sel i = 1 then x i + c else x i

/-- `negate`, hiopVectorPar.cpp:846-850. -/
def negate (x : RVec K n) : RVec K n := fun i => -1 * x i

/-- `selectPattern`, hiopVectorPar.cpp:1063-1071. -/
def selectPattern (x sel : RVec K n) : RVec K n := fun i => if sel i = 0 then 0 else x i

/-- `addLogBarrierGrad`, hiopVectorPar.cpp:893-905. -/
def addLogBarrierGrad (g : RVec K n) (a : K) (x sel : RVec K n) : RVec K n :=
  fun i => if sel i = 1 then g i + a / x i else g i

/-- `addLinearDampingTerm`, hiopVectorPar.cpp:927-944. -/
def addLinearDampingTerm (v ixleft ixright : RVec K n) (alpha ct : K) : RVec K n :=
  fun i => alpha * v i + (ixleft i - ixright i) * ct

/-- `linearDampingTerm_local`, hiopVectorPar.cpp:907-925. -/
def linearDampingTermLocal (x ixleft ixright : RVec K n) (mu kappad : K) : K :=
  let term := (List.finRange n).foldl
    (fun t i => if ixleft i = 1 ∧ ixright i = 0 then t + x i else t) 0
  term * mu * kappad

/-- `dotProductWith`, hiopVectorPar.cpp:480-499. -/
def dot (x v : RVec K n) : K := (List.finRange n).foldl (fun t i => t + x i * v i) 0

/-- `sum_local`, hiopVectorPar.cpp:883-890. -/
def sumLocal (x : RVec K n) : K := (List.finRange n).foldl (fun t i => t + x i) 0

/-- `infnorm_local` (and `infnorm` on one rank), hiopVectorPar.cpp:501-537: start at
`|data[0]|` for nonempty vectors and take running maxima. -/
def infnorm (x : RVec K n) : K :=
  match List.finRange n with
  | [] => 0
  | i :: is => is.foldl (fun nrm j => if |x j| > nrm then |x j| else nrm) |x i|

/-- `onenorm_local` (and `onenorm` on one rank), hiopVectorPar.cpp:540-562. -/
def onenorm (x : RVec K n) : K := (List.finRange n).foldl (fun t i => t + |x i|) 0

/-- `min_w_pattern`, hiopVectorPar.cpp:821-839; `dblMax` is `numeric_limits<double>::max()`. -/
def minSel (dblMax : K) (x sel : RVec K n) : K :=
  (List.finRange n).foldl
    (fun r i => if sel i = 1 then (if r < x i then r else x i) else r) dblMax

/-- `min`, hiopVectorPar.cpp:806-819. -/
def minAll (dblMax : K) (x : RVec K n) : K :=
  (List.finRange n).foldl (fun r i => if r < x i then r else x i) dblMax

/-- `numOfElemsLessThan`, hiopVectorPar.cpp:1222-1239. -/
def numLessThan (x : RVec K n) (v : K) : ℕ :=
  (List.finRange n).foldl (fun c i => if x i < v then c + 1 else c) 0

/-- `numOfElemsAbsLessThan`, hiopVectorPar.cpp:1241-1258. -/
def numAbsLessThan (x : RVec K n) (v : K) : ℕ :=
  (List.finRange n).foldl (fun c i => if |x i| < v then c + 1 else c) 0

/-- `allPositive`, hiopVectorPar.cpp:946-962 (early exit of the loop dropped: once the flag
is false it stays false). -/
def allPositive (x : RVec K n) : Bool :=
  (List.finRange n).foldl (fun b i => if b then (if x i ≤ 0 then false else b) else b) true

/-- `allPositive_w_patternSelect`, hiopVectorPar.cpp:1095-1115. -/
def allPositiveSel (x w : RVec K n) : Bool :=
  (List.finRange n).foldl
    (fun b i => if b then (if w i ≠ 0 ∧ x i ≤ 0 then false else b) else b) true

/-- `matchesPattern`, hiopVectorPar.cpp:1073-1093. -/
def matchesPattern (x w : RVec K n) : Bool :=
  (List.finRange n).foldl
    (fun b i => if b then (if w i = 0 ∧ x i ≠ 0 then false else b) else b) true

/-- `fractionToTheBdry_local`, hiopVectorPar.cpp:1016-1036. -/
def fractionToBdry (x d : RVec K n) (tau : K) : K :=
  (List.finRange n).foldl
    (fun alpha i =>
      if d i ≥ 0 then alpha
      else
        let aux := -tau * x i / d i
        if aux < alpha then aux else alpha) 1

/-- `fractionToTheBdry_w_pattern_local`, hiopVectorPar.cpp:1037-1061. -/
def fractionToBdrySel (x d : RVec K n) (tau : K) (pat : RVec K n) : K :=
  (List.finRange n).foldl
    (fun alpha i =>
      if d i ≥ 0 then alpha
      else if pat i = 0 then alpha
      else
        let aux := -tau * x i / d i
        if aux < alpha then aux else alpha) 1

/-- Loop body of `adjustDuals_plh`, hiopVectorPar.cpp:1117-1148, at a selected index. -/
def adjustDualComp (z x mu kappa : K) : K :=
  let a0 := mu / x
  let b := a0 / kappa
  let a := a0 * kappa
  if z < b then b
  else if a ≤ b then b
  else if a < z then a
  else z

/-- `adjustDuals_plh`, hiopVectorPar.cpp:1117-1148. -/
def adjustDualsPlh (z x ix : RVec K n) (mu kappa : K) : RVec K n :=
  fun i => if ix i = 1 then adjustDualComp (z i) (x i) mu kappa else z i

/-- Loop body of `projectIntoBounds_local`, hiopVectorPar.cpp:964-1014; `small` is
`numeric_limits<double>::min()*100`, `none` is `return false`. -/
def projComp (small kappa1 kappa2 x xl ixl xu ixu : K) : Option K :=
  if ixl ≠ 0 ∧ ixu ≠ 0 then
    if xl > xu then none
    else
      let aux := kappa2 * (xu - xl) - small
      let aux2 := xl + min (kappa1 * max 1 |xl|) aux
      if x < aux2 then some aux2
      else
        let aux2' := xu - min (kappa1 * max 1 |xu|) aux
        if x > aux2' then some aux2' else some x
  else if ixl ≠ 0 then some (max x (xl + kappa1 * max 1 |xl| - small))
  else if ixu ≠ 0 then some (min x (xu - kappa1 * max 1 |xu| - small))
  else some x

/-- Loop of `projectIntoBounds_local` over a list of remaining indices; the Boolean is the
return value, the vector the (possibly partially updated) data. Code: hiopVectorPar.cpp:964. -/
def projectLoop (small kappa1 kappa2 : K) (xl ixl xu ixu : RVec K n) :
    List (Fin n) → RVec K n → Bool × RVec K n
  | [], x => (true, x)
  | i :: is, x =>
    match projComp small kappa1 kappa2 (x i) (xl i) (ixl i) (xu i) (ixu i) with
    | none => (false, x)
    | some v => projectLoop small kappa1 kappa2 xl ixl xu ixu is (Function.update x i v)

/-- `projectIntoBounds_local`, hiopVectorPar.cpp:964-1014. -/
def projectIntoBounds (small kappa1 kappa2 : K) (x xl ixl xu ixu : RVec K n) :
    Bool × RVec K n :=
  projectLoop small kappa1 kappa2 xl ixl xu ixu (List.finRange n) x

end Hiop.Vec
