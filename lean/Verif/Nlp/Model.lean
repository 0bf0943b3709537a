import Verif.Vec.Model
import Mathlib.Algebra.Order.Field.Basic
import Mathlib.Data.List.FinRange
import Mathlib.Logic.Function.Basic

/-!
# Model of the NLP preprocessing

Source: `src/Optimization/hiopNlpFormulation.cpp` (bounds and constraints processing) and
`src/Optimization/hiopNlpTransforms.{hpp,cpp}` (fixed-variable removal and relaxation, bound
relaxation, gradient scaling). One MPI rank, exact arithmetic in a linearly ordered field.
An array write is `Function.update`; an access outside an array is the outcome `none`.
-/

set_option linter.unusedSectionVars false

namespace Hiop.Nlp

open Hiop.Vec

variable {K : Type*} [Field K] [LinearOrder K] {n m : ℕ}

/-! ## Bounds -/

/-- What `process_bounds` computes: indicator vectors and counters. Code: hiopNlpFormulation.hpp:337-343. -/
structure BoundsInfo (K : Type*) (n : ℕ) where
  ixl : RVec K n
  ixu : RVec K n
  nLow : ℕ
  nUpp : ℕ
  nLu : ℕ
  nFixed : ℕ

/-- Body of the loop of `process_bounds`, hiopNlpFormulation.cpp:468-514 (the warning messages
and the `HIOP_DEEPCHECKS` assert are left out). -/
def processBoundsBody (tol : K) (xl xu : RVec K n) (s : BoundsInfo K n) (i : Fin n) :
    BoundsInfo K n :=
  let s1 : BoundsInfo K n :=
    if xl i > -10 ^ 20 then
      { s with ixl := Function.update s.ixl i 1, nLow := s.nLow + 1,
               nLu := if xu i < 10 ^ 20 then s.nLu + 1 else s.nLu }
    else { s with ixl := Function.update s.ixl i 0 }
  let s2 : BoundsInfo K n :=
    if xu i < 10 ^ 20 then
      { s1 with ixu := Function.update s1.ixu i 1, nUpp := s1.nUpp + 1 }
    else { s1 with ixu := Function.update s1.ixu i 0 }
  if xu i < 10 ^ 20 ∧ |xl i - xu i| ≤ tol * max 1 |xu i| then
    { s2 with nFixed := s2.nFixed + 1 }
  else s2

/-- `process_bounds`, hiopNlpFormulation.cpp:433-522. `ixl0`, `ixu0` are the uninitialised
contents of the freshly allocated indicator vectors. -/
def processBounds (tol : K) (xl xu ixl0 ixu0 : RVec K n) : BoundsInfo K n :=
  (List.finRange n).foldl (processBoundsBody tol xl xu) ⟨ixl0, ixu0, 0, 0, 0, 0⟩

/-! ## Constraints -/

/-- What the splitting loop of `process_constraints` fills. The arrays are allocated with the
sizes counted by the first loop and written at positions `0,1,2,...` through `it_eq` and
`it_ineq`; they are modelled as lists that grow at the end, and the sizes are compared at the
end as the code's asserts do. The nonlinearity types, copied alongside, are left out. Code: hiopNlpFormulation.cpp:592-610. -/
structure Split (K : Type*) (m : ℕ) where
  eqMap : List (Fin m)
  cRhs : List K
  ineqMap : List (Fin m)
  dl : List K
  du : List K

/-- First loop of `process_constraints`, hiopNlpFormulation.cpp:563-571. -/
def countCons (gl gu : RVec K m) : ℕ × ℕ :=
  (List.finRange m).foldl
    (fun s i => if gl i = gu i then (s.1 + 1, s.2) else (s.1, s.2 + 1)) (0, 0)

/-- Body of the second loop of `process_constraints`, hiopNlpFormulation.cpp:593-607. -/
def splitBody (gl gu : RVec K m) (s : Split K m) (i : Fin m) : Split K m :=
  if gl i = gu i then
    { s with cRhs := s.cRhs ++ [gl i], eqMap := s.eqMap ++ [i] }
  else
    { s with dl := s.dl ++ [gl i], du := s.du ++ [gu i], ineqMap := s.ineqMap ++ [i] }

/-- `process_constraints` up to the asserts on the counters, hiopNlpFormulation.cpp:524-610. -/
def splitConstraints (gl gu : RVec K m) : Option (Split K m) :=
  let cnt := countCons gl gu
  let s := (List.finRange m).foldl (splitBody gl gu) ⟨[], [], [], [], []⟩
  if s.eqMap.length = cnt.1 ∧ s.ineqMap.length = cnt.2 then some s else none

/-- Indicators and counters of the inequality bounds. Code: hiopNlpFormulation.cpp:524-670. -/
structure IneqInfo (K : Type*) where
  idl : List K
  idu : List K
  nLow : ℕ
  nUpp : ℕ
  nLu : ℕ

/-- Body of the last loop of `process_constraints`, hiopNlpFormulation.cpp:628-644; `b` is the
pair of bounds at the loop index. -/
def ineqBody (s : IneqInfo K) (b : K × K) : IneqInfo K :=
  let s1 : IneqInfo K :=
    if b.1 > -10 ^ 20 then
      { s with idl := s.idl ++ [1], nLow := s.nLow + 1,
               nLu := if b.2 < 10 ^ 20 then s.nLu + 1 else s.nLu }
    else { s with idl := s.idl ++ [0] }
  if b.2 < 10 ^ 20 then { s1 with idu := s1.idu ++ [1], nUpp := s1.nUpp + 1 }
  else { s1 with idu := s1.idu ++ [0] }

/-- Last loop of `process_constraints`, hiopNlpFormulation.cpp:617-645. -/
def ineqInfo (dl du : List K) : IneqInfo K := (dl.zip du).foldl ineqBody ⟨[], [], 0, 0, 0⟩

/-- `copy_from_two_vec_w_pattern`, hiopVectorPar.cpp:338-359: merges `c` and `d` into `arr`
through the index maps; the asserts on the sizes give `none`. -/
def copyFromTwo (arr : RVec K m) (c : List K) (cMap : List (Fin m)) (d : List K)
    (dMap : List (Fin m)) : Option (RVec K m) :=
  if c.length = cMap.length ∧ d.length = dMap.length ∧ c.length + d.length = m then
    let a1 := (cMap.zip c).foldl (fun a p => Function.update a p.1 p.2) arr
    some ((dMap.zip d).foldl (fun a p => Function.update a p.1 p.2) a1)
  else none

/-- `copy_to_two_vec_w_pattern`, hiopVectorPar.cpp:366-389: splits `arr` through the index
maps. The asserts on the sizes of the targets hold because the targets are built here. -/
def copyToTwo (arr : RVec K m) (cMap dMap : List (Fin m)) : List K × List K :=
  (cMap.map arr, dMap.map arr)

/-! ## Removal of fixed variables -/

/-- State of the loop of `setupDecisionVectorPart`: the index map and the running index. Code: hiopNlpTransforms.cpp:154-169. -/
structure RemState (n : ℕ) where
  map : Fin n → ℤ
  itRs : ℕ

/-- Loop body of `hiopFixedVarsRemover::setupDecisionVectorPart`,
hiopNlpTransforms.cpp:161-169. -/
def setupBody (tol : K) (xl xu : RVec K n) (s : RemState n) (i : Fin n) : RemState n :=
  if |xl i - xu i| ≤ tol * max 1 |xu i| then
    { s with map := Function.update s.map i (-1) }
  else
    { map := Function.update s.map i (s.itRs : ℤ), itRs := s.itRs + 1 }

/-- `setupDecisionVectorPart`, hiopNlpTransforms.cpp:154-173; `nFixed` is the number of fixed
variables found by `process_bounds`, `map0` the value-initialised `std::vector<int>`. The
assert on line 170 gives `none`. -/
def setupMap (tol : K) (xl xu : RVec K n) (nFixed : ℕ) : Option (Fin n → ℤ) :=
  let s := (List.finRange n).foldl (setupBody tol xl xu) ⟨fun _ => 0, 0⟩
  if s.itRs + nFixed = n then some s.map else none

/-- The remover object: user lower bounds, index map and number of fixed variables
(hiopNlpTransforms.hpp:286-316). The reduced space has `n - nFixed` variables. -/
structure Remover (K : Type*) (n : ℕ) where
  xl : RVec K n
  map : Fin n → ℤ
  nFixed : ℕ

/-- Constructor and `setupDecisionVectorPart` as called by `finalizeInitialization`,
hiopNlpFormulation.cpp:277-292. -/
def mkRemover (tol : K) (xl xu : RVec K n) (nFixed : ℕ) : Option (Remover K n) :=
  (setupMap tol xl xu nFixed).map fun mp => ⟨xl, mp, nFixed⟩

/-- Reading `a[j]`; outside the array is undefined behaviour, `none`. Code: as in hiopNlpTransforms.cpp:214, hiopNlpTransforms.cpp:232. -/
def readAt {r : ℕ} (a : RVec K r) (j : ℤ) : Option K :=
  if h : 0 ≤ j ∧ j.toNat < r then some (a ⟨j.toNat, h.2⟩) else none

/-- Writing `a[j] = v`; outside the array is undefined behaviour, `none`. Code: as in hiopNlpTransforms.cpp:214, hiopNlpTransforms.cpp:286. -/
def writeAt {r : ℕ} (a : RVec K r) (j : ℤ) (v : K) : Option (RVec K r) :=
  if h : 0 ≤ j ∧ j.toNat < r then some (Function.update a ⟨j.toNat, h.2⟩ v) else none

/-- `apply_inv_to_vector` (reduced to full space), hiopNlpTransforms.cpp:220-235; `fs` is the
previous content of the full-space buffer. -/
def Remover.invVec (R : Remover K n) (rs : RVec K (n - R.nFixed)) (fs : RVec K n) :
    Option (RVec K n) :=
  (List.finRange n).foldl
    (fun acc i => acc.bind fun a =>
      if R.map i < 0 then some (Function.update a i (R.xl i))
      else (readAt rs (R.map i)).map fun v => Function.update a i v)
    (some fs)

/-- `apply_to_vector` (full to reduced space) and `copyFsToRs`,
hiopNlpTransforms.cpp:200-217 and 238-250; `rs` is the previous content of the target. -/
def Remover.toVec (R : Remover K n) (fs : RVec K n) (rs : RVec K (n - R.nFixed)) :
    Option (RVec K (n - R.nFixed)) :=
  (List.finRange n).foldl
    (fun acc i => acc.bind fun a => if R.map i ≥ 0 then writeAt a (R.map i) (fs i) else some a)
    (some rs)

/-- `applyToMatrix` (reduced to full space, row-major arrays, fixed columns zeroed),
hiopNlpTransforms.cpp:253-272. Arrays are unbounded memories `ℕ → K`. -/
def Remover.toMatrix (R : Remover K n) (m : ℕ) (Mrs Mfs : ℕ → K) : ℕ → K :=
  (List.finRange m).foldl
    (fun M i => (List.finRange n).foldl
      (fun M j =>
        if R.map j < 0 then Function.update M (i.val * n + j.val) 0
        else Function.update M (i.val * n + j.val)
          (Mrs (i.val * (n - R.nFixed) + (R.map j).toNat))) M) Mfs

/-- `applyInvToMatrix` (full to reduced space), hiopNlpTransforms.cpp:275-290. -/
def Remover.invMatrix (R : Remover K n) (m : ℕ) (Mfs Mrs : ℕ → K) : ℕ → K :=
  (List.finRange m).foldl
    (fun M i => (List.finRange n).foldl
      (fun M j =>
        if R.map j ≥ 0 then Function.update M (i.val * (n - R.nFixed) + (R.map j).toNat)
          (Mfs (i.val * n + j.val))
        else M) M) Mrs

/-- `apply_inv_to_x`, hiopNlpTransforms.hpp:175-181: the full-space buffer `x_fs` is a cache
that is refreshed only if the caller says the point is new. Result: the buffer. -/
def Remover.invX (R : Remover K n) (cache : RVec K n) (x : RVec K (n - R.nFixed)) (newX : Bool) :
    Option (RVec K n) :=
  if newX then R.invVec x cache else some cache

/-- `user_x` with a remover in the chain, hiopNlpFormulation.hpp:258-264 (used by
`getSolution`): the solver's point is expanded and `n_post_local()` doubles, that is the size of
the *reduced* space, are copied into the user's array `out`. -/
def Remover.userX (R : Remover K n) (cache : RVec K n) (x : RVec K (n - R.nFixed))
    (out : RVec K n) : Option (RVec K n) :=
  (R.invX cache x true).map fun fs => fun i => if i.val < n - R.nFixed then fs i else out i

/-- The corrections of the bound counters after removal, hiopNlpFormulation.cpp:334-336
(`size_type` is a signed integer). -/
def countsAfterRemoval (b : BoundsInfo K n) : ℤ × ℤ × ℤ :=
  ((b.nLow : ℤ) - b.nFixed, (b.nUpp : ℤ) - b.nFixed, (b.nLu : ℤ) - b.nFixed)

/-! ## Relaxation of bounds -/

/-- Loop body of `hiopFixedVarsRelaxer::relax`, hiopNlpTransforms.cpp:317-330, on one pair. -/
def relaxFixedPair (tol p xl xu : K) : K × K :=
  let xuabs := |xu|
  if |xu - xl| ≤ tol * max 1 xuabs then (xl - p * max 1 xuabs, xu + p * max 1 xuabs)
  else (xl, xu)

/-- `hiopFixedVarsRelaxer::relax`, hiopNlpTransforms.cpp:311-331. -/
def relaxFixed (tol p : K) (xl xu : RVec K n) : RVec K n × RVec K n :=
  (fun i => (relaxFixedPair tol p (xl i) (xu i)).1,
   fun i => (relaxFixedPair tol p (xl i) (xu i)).2)

/-- One vector of `hiopBoundsRelaxer::relax`, hiopNlpTransforms.cpp:369-372 (lower bounds with
`p := -perturb`) and 374-377 (upper bounds with `p := perturb`). -/
def relaxVec (p : K) (cur ori : RVec K n) : RVec K n :=
  axpy (scale (componentMaxC (componentAbs cur) 1) p) 1 ori

/-- Variable and inequality bounds as held by the formulation. Code: hiopNlpFormulation.hpp:337-343. -/
structure Bnds (K : Type*) (n m : ℕ) where
  xl : RVec K n
  xu : RVec K n
  dl : RVec K m
  du : RVec K m

/-- `hiopBoundsRelaxer::relax`, hiopNlpTransforms.cpp:366-389. -/
def relaxBounds (p : K) (ori cur : Bnds K n m) : Bnds K n m :=
  ⟨relaxVec (-p) cur.xl ori.xl, relaxVec p cur.xu ori.xu,
   relaxVec (-p) cur.dl ori.dl, relaxVec p cur.du ori.du⟩

/-- `hiopBoundsRelaxer::relax_from_ori`, hiopNlpTransforms.cpp:391-417, reached by
`reset_bounds`, hiopNlpFormulation.cpp:1418-1421. -/
def relaxFromOri (p : K) (ori : Bnds K n m) (_cur : Bnds K n m) : Bnds K n m :=
  ⟨relaxVec (-p) ori.xl ori.xl, relaxVec p ori.xu ori.xu,
   relaxVec (-p) ori.dl ori.dl, relaxVec p ori.du ori.du⟩

/-- `adjust_bounds`, hiopNlpFormulation.cpp:1403-1416, on one pair of bounds with point `x` and
slacks `sl`, `su`. -/
def adjustBoundPair (x sl su ixl ixu xl xu : RVec K n) : RVec K n × RVec K n :=
  (axpySel (copyFromSel xl x ixl) (-1) sl ixl, axpySel (copyFromSel xu x ixu) 1 su ixu)

/-! ## Gradient scaling -/

/-- The four scaling options. Code: hiopNlpTransforms.cpp:436-439. -/
structure ScaleOpts (K : Type*) where
  maxGrad : K
  minGrad : K
  maxObjGrad : K
  maxConGrad : K

/-- `row_max_abs_value` of a dense matrix, hiopMatrixDenseRowMajor.cpp `row_max_abs_value`: the
infinity norm of every row. -/
def rowMaxAbs {r : ℕ} (J : Fin r → RVec K n) : RVec K r := fun i => infnorm (J i)

/-- `max_abs_value` of a dense matrix: the largest entry in absolute value, 0 when empty. Code: hiopMatrixDenseRowMajor.cpp:832-842. -/
def maxAbs {r : ℕ} (J : Fin r → RVec K n) : K := infnorm (rowMaxAbs J)

/-- Scaling factor of the objective, constructor of `hiopNLPObjGradScaling`,
hiopNlpTransforms.cpp:441-453. -/
def objFactor (o : ScaleOpts K) (gradf : RVec K n) : K :=
  let nrm := infnorm gradf
  let f :=
    if o.maxObjGrad = 0 then (if nrm > o.maxGrad then o.maxGrad / nrm else 1)
    else (if nrm > 0 then o.maxObjGrad / nrm else 1)
  if o.minGrad > 0 ∧ f < o.minGrad then o.minGrad else f

/-- `scale(1./max_grad); component_max(1.0); invert()`, hiopNlpTransforms.cpp:462-464. -/
def invScaled {r : ℕ} (maxGrad : K) (v : RVec K r) : RVec K r :=
  fun i => 1 / componentMaxC (scale v (1 / maxGrad)) 1 i

/-- Scaling factors of one block of constraints (`scale_factor_c` or `scale_factor_d`),
hiopNlpTransforms.cpp:473-498. In exact arithmetic a division by a zero norm gives 0 where the
code gets an infinity; see `C16_zero_jacobian_block`. -/
def conFactor {r : ℕ} (o : ScaleOpts K) (J : Fin r → RVec K n) : RVec K r :=
  let rm := rowMaxAbs J
  let f : RVec K r :=
    if o.maxConGrad = 0 then
      (if infnorm rm > o.maxGrad then invScaled o.maxGrad rm else fun _ => 1)
    else fun _ => o.maxConGrad / infnorm rm
  if o.minGrad > 0 then componentMaxC f o.minGrad else f

/-- Factors used for the one-call constraint body (`scale_factor_cd`, before merging),
hiopNlpTransforms.cpp:461-471. -/
def conFactorCd {r : ℕ} (o : ScaleOpts K) (J : Fin r → RVec K n) : RVec K r :=
  invScaled o.maxGrad (rowMaxAbs J)

/-- Whether `apply_scaling` installs the scaling (scaling type `gradient`),
hiopNlpFormulation.cpp:675-696. -/
def scalingNeeded {r s : ℕ} (o : ScaleOpts K) (gradf : RVec K n) (Jc : Fin r → RVec K n)
    (Jd : Fin s → RVec K n) : Bool :=
  let objT := if o.maxObjGrad > 0 then o.maxObjGrad else o.maxGrad
  let conT := if o.maxConGrad > 0 then o.maxConGrad else o.maxGrad
  !decide (infnorm gradf < objT ∧ maxAbs Jc < conT ∧ maxAbs Jd < conT)

/-- `hiopMatrixDenseRowMajor::scale_row`, used by `apply_(inv_)to_jacob_(in)eq`,
hiopNlpTransforms.hpp:453-483. -/
def scaleRow {r : ℕ} (J : Fin r → RVec K n) (f : RVec K r) (inverse : Bool) : Fin r → RVec K n :=
  fun i j => (if inverse then 1 / f i else f i) * J i j

end Hiop.Nlp
