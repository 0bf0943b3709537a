import Verif.Raja.Model
import Verif.Range.Model

/-!
# Model of the vector kernels of `hiopVectorRaja`

Source: `src/LinAlg/hiopVectorRajaImpl.hpp`. The data of a vector of local size `n` are the first `n`
elements of an array `ℕ → K`; the array a kernel changes is the shared memory of its loop, the others
(`v`, patterns, bounds) are only read. Element-wise kernels are loops over `n` iterations that may run
in any interleaving (`forallR`); reductions return the set of values over all orders of combination.
Exact arithmetic, one MPI rank. Assertions under `HIOP_DEEPCHECKS` are not modelled, the others are.
The sizes of the vectors passed are those of `this`, as the assertions on the sizes require, unless
they are arguments of the model.
-/

namespace Hiop.Raja

open Hiop.Vec

variable {K : Type} [Field K] [LinearOrder K]

/-! ## Element-wise kernels -/

/-- `setToConstant`, hiopVectorRajaImpl.hpp:216-224. -/
def setToConstantV (n : ℕ) (c : K) (x : ℕ → K) : Out (ℕ → K) :=
  forallR n (fun i => .wr i c .ret) x

/-- `setToConstant_w_patternSelect`, hiopVectorRajaImpl.hpp:228-237. -/
def setToConstantSelV (n : ℕ) (c : K) (sel : ℕ → K) (x : ℕ → K) : Out (ℕ → K) :=
  forallR n (fun i => .wr i (sel i * c) .ret) x

/-- `copy_from_w_pattern`, hiopVectorRajaImpl.hpp:299-317. -/
def copyFromSelV (n : ℕ) (v sel : ℕ → K) (x : ℕ → K) : Out (ℕ → K) :=
  forallR n (fun i => if sel i = 1 then .wr i (v i) .ret else .ret) x

/-- `copy_from_indexes(v, index_in_src)`, hiopVectorRajaImpl.hpp:321-340. The assertion looks only for
indexes that are too large; a negative one is a load outside of the array, which is `fail` too. -/
def copyFromIndexesV (n nv : ℕ) (v : ℕ → K) (idx : ℕ → ℤ) (x : ℕ → K) : Out (ℕ → K) :=
  forallR n (fun i => assertP (idx i < nv) (assertP (0 ≤ idx i) (.wr i (v (idx i).toNat) .ret))) x

/-- `componentMult`, hiopVectorRajaImpl.hpp:960-971. -/
def componentMultV (n : ℕ) (v : ℕ → K) (x : ℕ → K) : Out (ℕ → K) :=
  forallR n (fun i => .rd i fun d => .wr i (d * v i) .ret) x

/-- `componentDiv`, hiopVectorRajaImpl.hpp:982-993. -/
def componentDivV (n : ℕ) (v : ℕ → K) (x : ℕ → K) : Out (ℕ → K) :=
  forallR n (fun i => .rd i fun d => .wr i (d / v i) .ret) x

/-- `componentDiv_w_selectPattern`, hiopVectorRajaImpl.hpp:1005-1025. -/
def componentDivSelV (n : ℕ) (v sel : ℕ → K) (x : ℕ → K) : Out (ℕ → K) :=
  forallR n (fun i => assertP (sel i = 0 ∨ sel i = 1)
    (if sel i = 0 then .wr i 0 .ret else .rd i fun d => .wr i (d / v i) .ret)) x

/-- `component_min(constant)`, hiopVectorRajaImpl.hpp:1031-1043. -/
def componentMinCV (n : ℕ) (c : K) (x : ℕ → K) : Out (ℕ → K) :=
  forallR n (fun i => .rd i fun d => if d > c then .wr i c .ret else .ret) x

/-- `component_min(vector)`, hiopVectorRajaImpl.hpp:1053-1068. -/
def componentMinV (n : ℕ) (v : ℕ → K) (x : ℕ → K) : Out (ℕ → K) :=
  forallR n (fun i => .rd i fun d => if d > v i then .wr i (v i) .ret else .ret) x

/-- `component_max(constant)`, hiopVectorRajaImpl.hpp:1074-1086. -/
def componentMaxCV (n : ℕ) (c : K) (x : ℕ → K) : Out (ℕ → K) :=
  forallR n (fun i => .rd i fun d => if d < c then .wr i c .ret else .ret) x

/-- `component_max(vector)`, hiopVectorRajaImpl.hpp:1096-1111. -/
def componentMaxV (n : ℕ) (v : ℕ → K) (x : ℕ → K) : Out (ℕ → K) :=
  forallR n (fun i => .rd i fun d => if d < v i then .wr i (v i) .ret else .ret) x

/-- `component_abs`, hiopVectorRajaImpl.hpp:1117-1127. -/
def componentAbsV (n : ℕ) (x : ℕ → K) : Out (ℕ → K) :=
  forallR n (fun i => .rd i fun d => .wr i |d| .ret) x

/-- `component_sgn`, hiopVectorRajaImpl.hpp:1133-1144. -/
def componentSgnV (n : ℕ) (x : ℕ → K) : Out (ℕ → K) :=
  forallR n (fun i => .rd i fun d =>
    .wr i ((if 0 < d then 1 else 0) - (if d < 0 then 1 else 0)) .ret) x

/-- `component_sqrt`, hiopVectorRajaImpl.hpp:1151-1161; `sqrt` is the square root of the library. -/
def componentSqrtV (sqrt : K → K) (n : ℕ) (x : ℕ → K) : Out (ℕ → K) :=
  forallR n (fun i => .rd i fun d => .wr i (sqrt d) .ret) x

/-- `scale`, hiopVectorRajaImpl.hpp:1169-1180. -/
def scaleV (n : ℕ) (c : K) (x : ℕ → K) : Out (ℕ → K) :=
  if 1 = c then .one x else forallR n (fun i => .rd i fun d => .wr i (d * c) .ret) x

/-- `axpy`, hiopVectorRajaImpl.hpp:1191-1203. -/
def axpyV (n : ℕ) (a : K) (v : ℕ → K) (x : ℕ → K) : Out (ℕ → K) :=
  forallR n (fun i => .rd i fun d => .wr i (a * v i + d) .ret) x

/-- `axpy` with indexes, hiopVectorRajaImpl.hpp:1207-1228; `ni` is the size of the index vector and of
`v`. The loop runs over the size of `this`. A load outside of the index vector is `fail`. -/
def axpyIdxV (n ni : ℕ) (a : K) (v : ℕ → K) (idx : ℕ → ℕ) (y : ℕ → K) : Out (ℕ → K) :=
  .check (ni ≤ n) <| forallR n (fun i => assertP (i < ni) (assertP (idx i < n)
    (.rd (idx i) fun d => .wr (idx i) (a * v i + d) .ret))) y

/-- `axpy_w_pattern`, hiopVectorRajaImpl.hpp:1232-1248. -/
def axpySelV (n : ℕ) (a : K) (v sel : ℕ → K) (x : ℕ → K) : Out (ℕ → K) :=
  forallR n (fun i => .rd i fun d => .wr i (d + a * v i * sel i) .ret) x

/-- `axzpy`, hiopVectorRajaImpl.hpp:1257-1273. -/
def axzpyV (n : ℕ) (a : K) (x z : ℕ → K) (y : ℕ → K) : Out (ℕ → K) :=
  forallR n (fun i => .rd i fun d => .wr i (d + a * x i * z i) .ret) y

/-- `axdzpy`, hiopVectorRajaImpl.hpp:1283-1299. -/
def axdzpyV (n : ℕ) (a : K) (x z : ℕ → K) (y : ℕ → K) : Out (ℕ → K) :=
  forallR n (fun i => .rd i fun d => .wr i (d + a * x i / z i) .ret) y

/-- `axdzpy_w_pattern`, hiopVectorRajaImpl.hpp:1309-1332. -/
def axdzpySelV (n : ℕ) (a : K) (x z sel : ℕ → K) (y : ℕ → K) : Out (ℕ → K) :=
  forallR n (fun i => assertP (sel i = 1 ∨ sel i = 0)
    (if sel i = 1 then .rd i fun d => .wr i (d + a * x i / z i) .ret else .ret)) y

/-- `addConstant`, hiopVectorRajaImpl.hpp:1339-1347. -/
def addConstantV (n : ℕ) (c : K) (x : ℕ → K) : Out (ℕ → K) :=
  forallR n (fun i => .rd i fun d => .wr i (d + c) .ret) x

/-- `addConstant_w_patternSelect`, hiopVectorRajaImpl.hpp:1356-1368. -/
def addConstantSelV (n : ℕ) (c : K) (sel : ℕ → K) (x : ℕ → K) : Out (ℕ → K) :=
  forallR n (fun i => assertP (sel i = 1 ∨ sel i = 0)
    (.rd i fun d => .wr i (d + sel i * c) .ret)) x

/-- `negate`, hiopVectorRajaImpl.hpp:1435-1443. -/
def negateV (n : ℕ) (x : ℕ → K) : Out (ℕ → K) :=
  forallR n (fun i => .rd i fun d => .wr i (d * -1) .ret) x

/-- `invert`, hiopVectorRajaImpl.hpp:1454-1470. -/
def invertV (n : ℕ) (x : ℕ → K) : Out (ℕ → K) :=
  forallR n (fun i => .rd i fun d => .wr i (1 / d) .ret) x

/-- `addLogBarrierGrad`, hiopVectorRajaImpl.hpp:1531-1550. -/
def addLogBarrierGradV (n : ℕ) (a : K) (v sel : ℕ → K) (x : ℕ → K) : Out (ℕ → K) :=
  forallR n (fun i => if sel i = 1 then .rd i fun d => .wr i (d + a / v i) .ret else .ret) x

/-- `addLinearDampingTerm`, hiopVectorRajaImpl.hpp:1591-1612. -/
def addLinearDampingTermV (n : ℕ) (ixl ixr : ℕ → K) (alpha ct : K) (x : ℕ → K) : Out (ℕ → K) :=
  forallR n (fun i => .rd i fun d => .wr i (alpha * d + ct * (ixl i - ixr i)) .ret) x

/-- `selectPattern`, hiopVectorRajaImpl.hpp:1809-1823. -/
def selectPatternV (n : ℕ) (sel : ℕ → K) (x : ℕ → K) : Out (ℕ → K) :=
  forallR n (fun i => if sel i = 0 then .wr i 0 .ret else .ret) x

/-- `adjustDuals_plh`, hiopVectorRajaImpl.hpp:1906-1944. -/
def adjustDualsV (n : ℕ) (x ix : ℕ → K) (mu kappa : K) (z : ℕ → K) : Out (ℕ → K) :=
  forallR n (fun i =>
    if ix i = 1 then
      let a0 := mu / x i
      let b := a0 / kappa
      let a := a0 * kappa
      .rd i fun zi =>
        if zi < b then .wr i b .ret
        else if a ≤ b then .wr i b .ret
        else .rd i fun zi => if a < zi then .wr i a .ret else .ret
    else .ret) z

/-- `set_array_from_to` with a constant, hiopVectorRajaImpl.hpp:2186-2204, for an array of a type
`α`. -/
def setArrayConstV {α : Type} (n start stop : ℕ) (c : α) (arr : ℕ → α) : Out (ℕ → α) :=
  .check (stop ≤ n ∧ start ≤ stop) <|
    if stop - start = 0 then .one arr
    else forallR (stop - start) (fun i => .wr (start + i) c .ret) arr

/-- `set_array_from_to` with a source array, hiopVectorRajaImpl.hpp:2163-2183. -/
def setArrayFromV {α : Type} (n start stop : ℕ) (src : ℕ → α) (startSrc : ℕ) (arr : ℕ → α) :
    Out (ℕ → α) :=
  .check (stop ≤ n ∧ start ≤ stop) <|
    if stop - start = 0 then .one arr
    else forallR (stop - start) (fun i => .wr (start + i) (src (startSrc + i)) .ret) arr

/-! ## Reductions -/

/-- A value that comes out of a reduction. No counterpart in the code: used only to state and run the model. -/
def Out.ofSet {α : Type} (s : Set α) : Out α := fun o => ∃ a ∈ s, o = some a

/-- `RAJA::ReduceSum` of the contributions of the iterations (`none`: the iteration does not
contribute). Code: hiopMatrixRajaSparseTripletImpl.hpp:642. -/
def reduceSum {α : Type} [Add α] [Zero α] (n : ℕ) (f : ℕ → Option α) : Set α :=
  {r | Combines (· + ·) 0 ((List.range n).filterMap f) r}

/-- `RAJA::ReduceMin` with an initial value, which takes part in the minimum. Code: hiopVectorRajaImpl.hpp:1375. -/
def reduceMin {α : Type} [LinearOrder α] (n : ℕ) (init : α) (f : ℕ → Option α) : Set α :=
  {r | Combines min init (init :: (List.range n).filterMap f) r}

/-- `RAJA::ReduceMax` with an initial value. Code: hiopMatrixRajaSparseTripletImpl.hpp:552. -/
def reduceMax {α : Type} [LinearOrder α] (n : ℕ) (init : α) (f : ℕ → Option α) : Set α :=
  {r | Combines max init (init :: (List.range n).filterMap f) r}

/-- `dotProductWith`, hiopVectorRajaImpl.hpp:849-871. -/
def dotV (n : ℕ) (x v : ℕ → K) : Set K := reduceSum n fun i => some (x i * v i)

/-- `twonorm`, hiopVectorRajaImpl.hpp:818-836: the square root of the reduced sum. -/
def twonormV (sqrt : K → K) (n : ℕ) (x : ℕ → K) : Set K :=
  sqrt '' reduceSum n fun i => some (x i * x i)

/-- `infnorm_local`, hiopVectorRajaImpl.hpp:901-912. -/
def infnormV (n : ℕ) (x : ℕ → K) : Set K := reduceMax n 0 fun i => some |x i|

/-- `onenorm_local`, hiopVectorRajaImpl.hpp:940-950. -/
def onenormV (n : ℕ) (x : ℕ → K) : Set K := reduceSum n fun i => some |x i|

/-- `min`, hiopVectorRajaImpl.hpp:1372-1391. -/
def minAllV (n : ℕ) (dblMax : K) (x : ℕ → K) : Set K := reduceMin n dblMax fun i => some (x i)

/-- `min_w_pattern`, hiopVectorRajaImpl.hpp:1395-1420. -/
def minSelV (n : ℕ) (dblMax : K) (x sel : ℕ → K) : Set K :=
  reduceMin n dblMax fun i => if sel i = 1 then some (x i) else none

/-- `logBarrier_local`, hiopVectorRajaImpl.hpp:1482-1502; `log` is the logarithm of the library. -/
def logBarrierV (log : K → K) (n : ℕ) (x sel : ℕ → K) : Set K :=
  reduceSum n fun i => if sel i = 1 then some (log (x i)) else none

/-- `sum_local`, hiopVectorRajaImpl.hpp:1508-1521. -/
def sumV (n : ℕ) (x : ℕ → K) : Set K := reduceSum n fun i => some (x i)

/-- `linearDampingTerm_local`, hiopVectorRajaImpl.hpp:1562-1588. -/
def linearDampingTermV (n : ℕ) (x ixl ixr : ℕ → K) (mu kappad : K) : Set K :=
  (fun t => t * mu * kappad) ''
    reduceSum n fun i => if ixl i = 1 ∧ ixr i = 0 then some (x i) else none

/-- `allPositive`, hiopVectorRajaImpl.hpp:1620-1637. -/
def allPositiveV (n : ℕ) (x : ℕ → K) : Set Bool :=
  (fun m => decide (m > 0)) '' reduceMin n 1 fun i => some (x i)

/-- `fractionToTheBdry_local`, hiopVectorRajaImpl.hpp:1732-1756. -/
def fractionToBdryV (n : ℕ) (x d : ℕ → K) (tau : K) : Set K :=
  reduceMin n 1 fun i => if d i ≥ 0 then none else some (-tau * x i / d i)

/-- `fractionToTheBdry_w_pattern_local`, hiopVectorRajaImpl.hpp:1768-1799. The assertion on the pattern
fails in the loop before the reduction is used. -/
def fractionToBdrySelV (n : ℕ) (x d : ℕ → K) (tau : K) (sel : ℕ → K) : Out K :=
  (forallR n (fun i => assertP (sel i = 1 ∨ sel i = 0) .ret) fun _ : ℕ => ()).andThen fun _ =>
    .ofSet (reduceMin n 1 fun i => if d i < 0 ∧ sel i = 1 then some (-tau * x i / d i) else none)

/-- `matchesPattern`, hiopVectorRajaImpl.hpp:1833-1858. -/
def matchesPatternV (n : ℕ) (x sel : ℕ → K) : Set Bool :=
  (fun m : ℕ => m == 0) '' reduceSum n fun i => some (if x i ≠ 0 ∧ sel i = 0 then 1 else 0)

/-- `allPositive_w_patternSelect`, hiopVectorRajaImpl.hpp:1868-1894. -/
def allPositiveSelV (n : ℕ) (x sel : ℕ → K) : Set Bool :=
  (fun m : ℕ => m == 0) '' reduceSum n fun i => if sel i ≠ 0 ∧ x i ≤ 0 then some 1 else none

/-- `is_zero`, hiopVectorRajaImpl.hpp:1952-1971. -/
def isZeroV (n : ℕ) (x : ℕ → K) : Set Bool :=
  (fun m : ℕ => m == 0) '' reduceSum n fun i => if x i ≠ 0 then some 1 else none

/-- `isnan_local` and `isinf_local`, hiopVectorRajaImpl.hpp:1981-2013; `bad` is `std::isnan` or
`std::isinf`, the count is converted to `bool`. -/
def anyV (bad : K → Bool) (n : ℕ) (x : ℕ → K) : Set Bool :=
  (fun m : ℕ => m != 0) '' reduceSum n fun i => if bad (x i) then some 1 else none

/-- `isfinite_local`, hiopVectorRajaImpl.hpp:2023-2034: a minimum over `int` that starts at 1. -/
def isFiniteV (fin : K → Bool) (n : ℕ) (x : ℕ → K) : Set Bool :=
  (fun m : ℤ => m != 0) '' reduceMin n 1 fun i => if !fin (x i) then some 0 else none

/-- `numOfElemsLessThan`, hiopVectorRajaImpl.hpp:2117-2137. -/
def numLessThanV (n : ℕ) (x : ℕ → K) (v : K) : Set ℕ :=
  reduceSum n fun i => some (if x i < v then 1 else 0)

/-- `numOfElemsAbsLessThan`, hiopVectorRajaImpl.hpp:2140-2160. -/
def numAbsLessThanV (n : ℕ) (x : ℕ → K) (v : K) : Set ℕ :=
  reduceSum n fun i => some (if |x i| < v then 1 else 0)

/-- `is_equal`, hiopVectorRajaImpl.hpp:2207-2233: the sizes are not compared; `nv` is the size of
`vec`, a load behind its end is `none`. -/
def isEqualV (n nv : ℕ) (x v : ℕ → K) : Out Bool :=
  .check (n ≤ nv) <| .ofSet <|
    (fun m : ℕ => m == 0) '' reduceSum n fun i => if x i ≠ v i then some 1 else none

/-! ## Projection into the bounds -/

/-- Loop body of `projectIntoBounds_local`, hiopVectorRajaImpl.hpp:1683-1717; `small` is
`numeric_limits<double>::min()*100`. Each `xd[i]` is a load. -/
def projBody (small k1 k2 xl ixl xu ixu : K) (i : ℕ) : Prog ℕ fun _ => K :=
  if ixl ≠ 0 ∧ ixu ≠ 0 then
    let aux := k2 * (xu - xl) - small
    let aux2 := xl + min (k1 * max 1 |xl|) aux
    .rd i fun x =>
      if x < aux2 then .wr i aux2 .ret
      else
        let aux2' := xu - min (k1 * max 1 |xu|) aux
        .rd i fun x => if x > aux2' then .wr i aux2' .ret else .ret
  else if ixl ≠ 0 then .rd i fun x => .wr i (max x (xl + k1 * max 1 |xl| - small)) .ret
  else if ixu ≠ 0 then .rd i fun x => .wr i (min x (xu - k1 * max 1 |xu| - small)) .ret
  else .ret

/-- `projectIntoBounds_local`, hiopVectorRajaImpl.hpp:1649-1721: the width of all intervals is reduced
first, whatever the patterns say. -/
def projectV (n : ℕ) (small k1 k2 : K) (xl ixl xu ixu x : ℕ → K) : Out (Bool × (ℕ → K)) :=
  (Out.ofSet (reduceMin n 1 fun i => some (xu i - xl i))).andThen fun m =>
    if m < 0 then .one (false, x)
    else (forallR n (fun i => projBody small k1 k2 (xl i) (ixl i) (xu i) (ixu i) i) x).andThen
      fun x' => .one (true, x')

/-! ## Copies -/

section
variable {n m : ℕ} {K : Type}
open Hiop.Range

/-- `copyFromStarting(start, v, nv)` and `copyFromStarting(start, v)`,
hiopVectorRajaImpl.hpp:378-388 and 401-415. -/
def copyFromStartingV (x : RVec K n) (start : ℤ) (v : RVec K m) : Option (RVec K n) :=
  if start + m ≤ n then if m = 0 then some x else blockCopy x start v 0 m else none

/-- `copy_from_starting_at(v, start, nv)`, hiopVectorRajaImpl.hpp:432-440, from an array of `m`
elements. -/
def copyFromStartingAtV (x : RVec K n) (v : RVec K m) (start nv : ℤ) : Option (RVec K n) :=
  if nv = 0 then some x else blockCopy x 0 v start nv

/-- `startingAtCopyFromStartingAt`, hiopVectorRajaImpl.hpp:454-479. -/
def startingAtCopyFromV (x : RVec K n) (sd : ℤ) (v : RVec K m) (ss : ℤ) : Option (RVec K n) :=
  let howManyDest : ℤ := n - sd
  if ¬ ((0 ≤ sd ∧ sd < n) ∨ n = 0) then none
  else if ¬ ((0 ≤ ss ∧ ss < m) ∨ m = 0 ∨ (m : ℤ) = ss) then none
  else
    let howManySrc : ℤ := m - ss
    if howManyDest = 0 ∨ howManySrc = 0 then some x
    else if ¬ howManyDest ≤ howManySrc then none
    else blockCopy x sd v ss howManyDest

/-- `x.copyToStarting(start, v)`, hiopVectorRajaImpl.hpp:491-506. -/
def copyToStartingV (x : RVec K n) (start : ℤ) (v : RVec K m) : Option (RVec K m) :=
  if start + m ≤ n then if m = 0 then some v else blockCopy v 0 x start m else none

/-- `x.copyToStarting(dest, start)`, hiopVectorRajaImpl.hpp:518-529. -/
def copyToStartingDestV (x : RVec K n) (dest : RVec K m) (start : ℤ) : Option (RVec K m) :=
  if start + n ≤ m then if n = 0 then some dest else blockCopy dest start x 0 n else none

/-- The number of elements copied by `startingAtCopyToStartingAt`, hiopVectorRajaImpl.hpp:707-745. -/
def clampNumV (n m : ℕ) (ss sd num : ℤ) : Option ℤ :=
  if num < 0 then some (min (n - ss) (m - sd))
  else if num + ss ≤ n then
    if num + sd ≤ m then some (min (min num (n - ss)) (m - sd)) else none
  else none

/-- `x.startingAtCopyToStartingAt(start_src, dest, start_dest, num)`,
hiopVectorRajaImpl.hpp:707-745. -/
def startingAtCopyToV (x : RVec K n) (ss : ℤ) (dest : RVec K m) (sd num : ℤ) :
    Option (RVec K m) :=
  if ¬ (0 ≤ ss ∧ ss ≤ n) then none
  else if ¬ (0 ≤ sd ∧ sd ≤ m) then none
  else if (sd = m ∨ ss = n) ∧ ¬ (num = -1 ∨ num = 0) then none
  else match clampNumV n m ss sd num with
    | none => none
    | some cnt => if cnt = 0 then some dest else blockCopy dest sd x ss cnt

/-- `startingAtCopyToStartingAt_w_pattern`, hiopVectorRajaImpl.hpp:749-790: `assert(false)`. -/
def unpackToV (_x : RVec K n) (_ss : ℤ) (_dest : RVec K m) (_sd : ℤ) (_sel : RVec K m) (_num : ℤ) :
    Option (RVec K m) := none

/-- `copy_from_starting_at` of `hiopVectorPar`, hiopVectorPar.cpp:238-254, with one process
(`glob_il_ = 0`, `glob_iu_ = n_local_ = n_`), from an array of `m` elements. -/
def copyFromStartingAtHost (x : RVec K n) (v : RVec K m) (start nv : ℤ) : Option (RVec K n) :=
  if 0 < n then
    if nv = n then blockCopy x 0 v start nv
    else if 0 ≤ start + nv ∧ (n : ℤ) ≥ start then
      let ls : ℤ := if 0 ≥ start then 0 else start - 0
      let le : ℤ := if (n : ℤ) ≤ start + nv then n - 0 else start - 0
      blockCopy x 0 v ls (le - ls)
    else some x
  else some x

end

/-- The index array used by a packing: `idx_cumsum_`, which the vector keeps from its first call on,
or the scan of the pattern, hiopVectorRajaImpl.hpp:548-568 (the same code as in the triplet matrices).
`junk` is the initial content of the index array. -/
def packIndexV (n : ℕ) (junk : ℕ → ℕ) (cumsum : Option (ℕ → ℕ)) (sel : ℕ → K) : Out (ℕ → ℕ) :=
  match cumsum with
  | some a => Out.one a
  | none => patternScan n sel junk

/-- The loop that copies, hiopVectorRajaImpl.hpp:570-583, with the index array `a`; `nv` is the size of
the destination. -/
def packStoreV (n nv : ℕ) (a : ℕ → ℕ) (x : ℕ → K) (start : ℕ) (v : ℕ → K) : Out (ℕ → K) :=
  forallR n (fun i =>
    if a (i + 1) ≠ a i then
      assertP (a (i + 1) = a i + 1) (assertP (a i + start < nv)
        (.wr (a i + start) (x i) .ret))
    else .ret) v

/-- `copyToStartingAt_w_pattern`, hiopVectorRajaImpl.hpp:533-584. `cumsum` is `idx_cumsum_`; the result
holds the destination array and the new `idx_cumsum_`. -/
def packToV (n nv : ℕ) (junk : ℕ → ℕ) (cumsum : Option (ℕ → ℕ)) (x : ℕ → K) (v : ℕ → K)
    (start : ℕ) (sel : ℕ → K) : Out ((ℕ → K) × Option (ℕ → ℕ)) :=
  if n = 0 then .one (v, cumsum)
  else
    (packIndexV n junk cumsum sel).andThen fun a =>
    (packStoreV n nv a x start v).andThen fun v' => .one (v', some a)

/-- Two loops of `copy_from_two_vec_w_pattern`, hiopVectorRajaImpl.hpp:594-638. A store outside of the
array of `n` elements is `fail`. -/
def copyFromTwoV (n n1 n2 : ℕ) (c : ℕ → K) (cMap : ℕ → ℕ) (d : ℕ → K) (dMap : ℕ → ℕ) (x : ℕ → K) :
    Out (ℕ → K) :=
  (forallR n1 (fun i => assertP (cMap i < n) (.wr (cMap i) (c i) .ret)) x).andThen
    (forallR n2 fun i => assertP (dMap i < n) (.wr (dMap i) (d i) .ret))

/-- One of the two loops of `copy_to_two_vec_w_pattern`, hiopVectorRajaImpl.hpp:646-686: splits `x`
through an index map into `c`. -/
def copyToOneV (n n1 : ℕ) (x : ℕ → K) (cMap : ℕ → ℕ) (c : ℕ → K) : Out (ℕ → K) :=
  forallR n1 (fun i => assertP (cMap i < n) (.wr i (x (cMap i)) .ret)) c

/-- `copy_to_two_vec_w_pattern`, hiopVectorRajaImpl.hpp:646-686. -/
def copyToTwoV (n n1 n2 : ℕ) (x : ℕ → K) (cMap dMap : ℕ → ℕ) (c d : ℕ → K) :
    Out ((ℕ → K) × (ℕ → K)) :=
  (copyToOneV n n1 x cMap c).andThen fun c' => (copyToOneV n n2 x dMap d).andThen fun d' =>
    .one (c', d')

end Hiop.Raja
