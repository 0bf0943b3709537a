import Verif.Sparse.Kkt

/-!
# Model of the least-squares computation of the constraint multipliers

Source: `src/Optimization/hiopDualsUpdater.cpp`, `hiopDualsUpdater.hpp`. The factorization and the
triangular solves (LAPACK, MAGMA, MA57, ...) are oracles: given a matrix they fail or return a
solve, and a solve fails or returns a vector. One rank; the debug checks under `HIOP_DEEPCHECKS`
are left out.
-/

namespace Hiop.Duals

open Hiop.Vec Hiop.Iterate Hiop.Kkt Hiop.Sparse

variable {K : Type*} [Field K] [LinearOrder K] {n mc m ns nd p q s : ℕ}

/-- `hiopMatrixDenseRowMajor::timesMatTrans`, hiopMatrixDenseRowMajor.cpp:646-700, on one rank:
`W := beta*W + alpha*A*B'`. -/
def denseMatTrans (beta : K) (W : NMat K) (alpha : K) (A : Matrix (Fin p) (Fin q) K)
    (B : Matrix (Fin s) (Fin q) K) : NMat K := fun i j =>
  if h : i < p ∧ j < s then beta * W i j + alpha * ∑ k, A ⟨i, h.1⟩ k * B ⟨j, h.2⟩ k else W i j

/-- `addDiagonal(value)` of a square matrix of size `p`, hiopMatrixDenseRowMajor.cpp:715-718. -/
def addDiagonal (p : ℕ) (a : K) (W : NMat K) : NMat K := fun i j =>
  if i = j ∧ i < p then W i j + a else W i j

/-- `copyBlockFromMatrix(i_start, j_start, src)` with a `p` by `q` source,
hiopMatrixDenseRowMajor.cpp:200-220. -/
def copyBlock (is js p q : ℕ) (src W : NMat K) : NMat K := fun i j =>
  if is ≤ i ∧ i < is + p ∧ js ≤ j ∧ j < js + q then src (i - is) (j - js) else W i j

/-- The work space of `hiopDualsLsqUpdateLinsysRedDense` as left by earlier calls: the system matrix
(overwritten by its factors), the three blocks, and the right-hand sides. Code: hiopDualsUpdater.hpp:212-213, hiopDualsUpdater.hpp:280. -/
structure Work (K : Type*) (mc m : ℕ) where
  M : NMat K
  cc : NMat K
  cd : NMat K
  dd : NMat K
  rhsc : RVec K mc
  rhsd : RVec K m
  rhs : ℕ → K

/-- The system matrix given the three products, hiopDualsUpdater.cpp:255-259: only the blocks on and
above the diagonal are written. -/
def lsqMatrix (mc m : ℕ) (cc cd dd W : NMat K) : NMat K :=
  let dd := addDiagonal m 1 dd
  let W := copyBlock 0 0 mc mc cc W
  let W := copyBlock 0 mc mc m cd W
  copyBlock mc mc m m dd W

/-- `vecx`, hiopDualsUpdater.cpp:285-288. -/
def vecx (grad : RVec K n) (it : It K n mc m) : RVec K n :=
  axpy (axpy grad (-1) it.zl) 1 it.zu

/-- `vecd`, hiopDualsUpdater.cpp:289-291. -/
def vecd (it : It K n mc m) : RVec K m := axpy it.vl (-1) it.vu

/-- Factorization, right-hand side, solve and copy of the result, hiopDualsUpdater.cpp:274-309; `jcx`
and `jdx` are the products with the Jacobians on lines 292-293. -/
def lsqSolve (lin : NMat K → Option ((ℕ → K) → Option (ℕ → K))) (M : NMat K) (rhs : ℕ → K)
    (jcx : RVec K mc) (jdx : RVec K m) (it : It K n mc m) : Bool × It K n mc m :=
  match lin M with
  | none => (false, it)
  | some sol =>
    let rhsd := axpy jdx (-1) (vecd it)
    let rhs := copyTo rhsd (copyTo jcx rhs 0) mc
    match sol rhs with
    | none => (false, it)
    | some y => (true, { it with yc := copyOut y 0 mc, yd := copyOut y mc m })

/-- The system matrix for dense Jacobians, hiopDualsUpdater.cpp:250-259. -/
def lsqDenseMatrix (w : Work K mc m) (Jc : Matrix (Fin mc) (Fin n) K)
    (Jd : Matrix (Fin m) (Fin n) K) : NMat K :=
  let cc := denseMatTrans 0 w.cc 1 Jc Jc
  let cd := denseMatTrans 0 w.cd 1 Jc Jd
  let dd := denseMatTrans 0 w.dd 1 Jd Jd
  lsqMatrix mc m cc cd dd w.M

/-- `hiopDualsLsqUpdateLinsysRedDense::do_lsq_update` for dense Jacobians,
hiopDualsUpdater.cpp:239-333. -/
def lsqDense (lin : NMat K → Option ((ℕ → K) → Option (ℕ → K))) (w : Work K mc m)
    (grad : RVec K n) (Jc : Matrix (Fin mc) (Fin n) K) (Jd : Matrix (Fin m) (Fin n) K)
    (it : It K n mc m) : Bool × It K n mc m :=
  lsqSolve lin (lsqDenseMatrix w Jc Jd) w.rhs
    (Kkt.timesVec Jc 0 w.rhsc (-1) (vecx grad it)) (Kkt.timesVec Jd 0 w.rhsd (-1) (vecx grad it)) it

/-- A mixed dense-sparse Jacobian: the sparse block, then the dense block; hiopMatrixMDS.hpp. -/
structure MdsJac (K : Type*) (p nd : ℕ) where
  sp : List (Ent K)
  de : Matrix (Fin p) (Fin nd) K

/-- `hiopMatrixMDS::timesMatTrans`, hiopMatrixMDS.hpp:94-100 (`alpha` is not used there). -/
def mdsMatTrans (beta : K) (W : NMat K) (A : MdsJac K p nd) (B : MdsJac K s nd) :
    Option (NMat K) :=
  Sparse.timesMatTrans p s A.sp B.sp 1 (denseMatTrans beta W 1 A.de B.de) 1

/-- `hiopMatrixMDS::timesVec`, hiopMatrixMDS.hpp:68-74. -/
def mdsTimesVec (A : MdsJac K p nd) (beta : K) (y : RVec K p) (alpha : K) (x : RVec K (ns + nd)) :
    Option (RVec K p) :=
  (Sparse.timesVec A.sp beta y alpha fun i : Fin ns => x (Fin.castAdd nd i)).map fun y =>
    Kkt.timesVec A.de 1 y alpha fun i : Fin nd => x (Fin.natAdd ns i)

/-- `hiopDualsLsqUpdateLinsysRedDense::do_lsq_update` for mixed dense-sparse Jacobians,
hiopDualsUpdater.cpp:239-333. `none` is a failed assertion. -/
def lsqMds (lin : NMat K → Option ((ℕ → K) → Option (ℕ → K))) (w : Work K mc m)
    (grad : RVec K (ns + nd)) (Jc : MdsJac K mc nd) (Jd : MdsJac K m nd)
    (it : It K (ns + nd) mc m) : Option (Bool × It K (ns + nd) mc m) := do
  let cc ← mdsMatTrans 0 w.cc Jc Jc
  let cd ← mdsMatTrans 0 w.cd Jc Jd
  let dd ← mdsMatTrans 0 w.dd Jd Jd
  let jcx ← mdsTimesVec Jc 0 w.rhsc (-1) (vecx grad it)
  let jdx ← mdsTimesVec Jd 0 w.rhsd (-1) (vecx grad it)
  some (lsqSolve lin (lsqMatrix mc m cc cd dd w.M) w.rhs jcx jdx it)

/-- Number of triplets of the sparse system, hiopDualsUpdater.cpp:367. -/
def lsqNnz (n m mc : ℕ) (Jc Jd : List (Ent K)) : ℕ :=
  n + m + Jc.length + Jd.length + m + (n + m + mc + m)

/-- The system matrix for sparse Jacobians, hiopDualsUpdater.cpp:571-591. -/
def buildLsq (n mc m : ℕ) (Jc Jd : List (Ent K)) (st : Store K) : Option (Store K) := do
  let nnz := lsqNnz n m mc Jc Jd
  let st ← copyDiagToSubblock nnz st 1 0 0 0 (n + m)
  let k := n + m
  let st ← copyRowsBlockFrom nnz st Jc 0 mc (n + m) k
  let k := k + Jc.length
  let st ← copyRowsBlockFrom nnz st Jd 0 m (n + m + mc) k
  let k := k + Jd.length
  let st ← copyDiagToSubblock nnz st (-1) (n + m + mc) n k m
  let k := k + m
  setSubDiagonalTo nnz st 0 (n + m + mc + m) 0 k

/-- `rhsx`, hiopDualsUpdater.cpp:622-626. -/
def rhsx (grad : RVec K n) (it : It K n mc m) : RVec K n :=
  axpy (axpy (negate grad) 1 it.zl) (-1) it.zu

/-- The right-hand side for sparse Jacobians, hiopDualsUpdater.cpp:622-635; `rhsc_` and `rhsd_` keep
the zeros they were constructed with (lines 96-97). -/
def sparseRhs (grad : RVec K n) (it : It K n mc m) (buf : ℕ → K) : ℕ → K :=
  copyTo (zeroVec m) (copyTo (zeroVec mc) (copyTo (vecd it) (copyTo (rhsx grad it) buf 0) n) (n + m))
    (n + m + mc)

/-- `hiopDualsLsqUpdateLinsysAugSparse::do_lsq_update`, hiopDualsUpdater.cpp:540-656. The oracle gets
the triplets; `none` of the factorization is a negative return code, line 611. `none` of the whole
function is a failed assertion. -/
def lsqSparse (lin : List (Ent K) → Option ((ℕ → K) → Option (ℕ → K))) (st : Store K)
    (buf : ℕ → K) (grad : RVec K n) (Jc Jd : List (Ent K)) (it : It K n mc m) :
    Option (Bool × It K n mc m) :=
  (buildLsq n mc m Jc Jd st).map fun st =>
    match lin (toList st (lsqNnz n m mc Jc Jd)) with
    | none => (false, it)
    | some sol =>
      match sol (sparseRhs grad it buf) with
      | none => (true, { it with yc := zeroVec mc, yd := zeroVec m })
      | some y => (true, { it with yc := copyOut y (n + m) mc, yd := copyOut y (n + m + mc) m })

/-- `hiopDualsLsqUpdate::compute_initial_duals_eq`, hiopDualsUpdater.hpp:154-186; `initOk` is the
result of the initialization (always true but for sparse problems without a linear solver), `upd`
one of the three updates above, `maxNrm` the option `duals_lsq_ini_max`. -/
def initialDuals (maxNrm : K) (initOk : Bool) (upd : It K n mc m → Option (Bool × It K n mc m))
    (it : It K n mc m) : Option (Bool × It K n mc m) :=
  if initOk = false then some (false, it)
  else (upd it).map fun r =>
    let ycnrm := infnorm r.2.yc
    let ydnrm := infnorm r.2.yd
    let ynrm := if ycnrm > ydnrm then ycnrm else ydnrm
    if ynrm > maxNrm ∨ r.1 = false then
      (r.1, { r.2 with yc := zeroVec mc, yd := zeroVec m })
    else r

/-- `hiopDualsLsqUpdate::go` called after each accepted step, hiopDualsUpdater.cpp:109-150; `tol` is the
option `recalc_lsq_duals_tol`. -/
def lsqGo (b : Bounds K n m) (tol : K) (upd : It K n mc m → Option (Bool × It K n mc m))
    (cur plus dir : It K n mc m) (ap ad mu kappa infeas : K) : Option (Bool × It K n mc m) :=
  let plus := adjustDuals b (takeStepDuals plus cur dir ap ad) mu kappa
  if infeas > tol then some (true, plus) else upd plus

end Hiop.Duals
