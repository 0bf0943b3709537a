import Verif.Vec.Model
import Mathlib.Algebra.BigOperators.Fin
import Mathlib.Data.List.Flatten
import Mathlib.Data.Rat.Lemmas

/-!
# Triplet sparse matrices (src/LinAlg/hiopMatrixSparseTriplet.cpp)

A matrix is the list of its triplets in storage order. Matrices that are assembled piecewise are a
`Store`: the arrays `iRow_`, `jCol_`, `values_` as a function of the position in storage. Failed
assertions and writes past the end are `none`.
-/

namespace Hiop.Sparse

open Hiop.Vec

variable {K : Type*} [Field K] [LinearOrder K] {p q s : ℕ}

/-- One triplet: `iRow_[k]`, `jCol_[k]`, `values_[k]`. Code: hiopMatrixSparseTriplet.hpp:330-332. -/
structure Ent (K : Type*) where
  r : ℕ
  c : ℕ
  v : K
deriving DecidableEq

/-! ## Products -/

/-- `y[k] += a` with the index assertion. Code: hiopMatrixSparseTriplet.cpp:73-90, hiopMatrixSparseTriplet.cpp:110-128. -/
def bump (y : RVec K p) (k : ℕ) (a : K) : Option (RVec K p) :=
  if h : k < p then some (Function.update y ⟨k, h⟩ (y ⟨k, h⟩ + a)) else none

/-- `x[k]` with the index assertion. Code: hiopMatrixSparseTriplet.cpp:73-90, hiopMatrixSparseTriplet.cpp:110-128. -/
def rd (x : RVec K p) (k : ℕ) : Option K := if h : k < p then some (x ⟨k, h⟩) else none

/-- Loop body of `timesVec`: `y[iRow_[i]] += alpha * x[jCol_[i]] * values_[i]`,
hiopMatrixSparseTriplet.cpp:84-88. -/
def addEnt (alpha : K) (x : RVec K q) (y : RVec K p) (e : Ent K) : Option (RVec K p) :=
  (rd x e.c).bind fun xc => bump y e.r (alpha * xc * e.v)

/-- `timesVec`, hiopMatrixSparseTriplet.cpp:72-89. -/
def timesVec (es : List (Ent K)) (beta : K) (y : RVec K p) (alpha : K) (x : RVec K q) :
    Option (RVec K p) :=
  es.foldlM (addEnt alpha x) (fun i => y i * beta)

/-- Loop body of `transTimesVec`, hiopMatrixSparseTriplet.cpp:121-125. -/
def addEntT (alpha : K) (x : RVec K p) (y : RVec K q) (e : Ent K) : Option (RVec K q) :=
  (rd x e.r).bind fun xr => bump y e.c (alpha * xr * e.v)

/-- `transTimesVec`, hiopMatrixSparseTriplet.cpp:110-126. -/
def transTimesVec (es : List (Ent K)) (beta : K) (y : RVec K q) (alpha : K) (x : RVec K p) :
    Option (RVec K q) :=
  es.foldlM (addEntT alpha x) (fun i => y i * beta)

/-- Loop body of the symmetric `timesVec`, hiopMatrixSparseTriplet.cpp:951-957: off-diagonal entries
count twice. -/
def addEntSym (alpha : K) (x : RVec K p) (y : RVec K p) (e : Ent K) : Option (RVec K p) :=
  (addEnt alpha x y e).bind fun y => if e.r ≠ e.c then addEntT alpha x y e else some y

/-- Symmetric `timesVec`, hiopMatrixSparseTriplet.cpp:940-958. -/
def symTimesVec (es : List (Ent K)) (beta : K) (y : RVec K p) (alpha : K) (x : RVec K p) :
    Option (RVec K p) :=
  es.foldlM (addEntSym alpha x) (fun i => y i * beta)

/-! ## Row starts and products of sparse matrices -/

/-- `idx_start_[i]` of `allocAndBuildRowStarts`, hiopMatrixSparseTriplet.cpp:530-562. -/
def rowStart (es : List (Ent K)) : ℕ → ℕ
  | 0 => 0
  | i + 1 => rowStart es i + ((es.drop (rowStart es i)).takeWhile fun e => decide (e.r = i)).length

/-- The final assertion `it_triplet==nnz_` of `allocAndBuildRowStarts`. Code: hiopMatrixSparseTriplet.cpp:558. -/
def rowStartsOk (p : ℕ) (es : List (Ent K)) : Bool := rowStart es p == es.length

/-- Positions `idx_start_[i] <= k < idx_start_[i+1]` of the storage. Code: hiopMatrixSparseTriplet.cpp:412. -/
def rowSlice (es : List (Ent K)) (i : ℕ) : List (Ent K) :=
  (es.drop (rowStart es i)).take (rowStart es (i + 1) - rowStart es i)

/-- The `while(ki<... && kj<...)` walk over two rows, hiopMatrixSparseTriplet.cpp:176-198, 423-434,
495-512; `f` is the product accumulated for a column. -/
def walk (f : ℕ → K → K → K) : K → List (Ent K) → List (Ent K) → K
  | acc, [], _ => acc
  | acc, _ :: _, [] => acc
  | acc, a :: as, b :: bs =>
    if a.c = b.c then walk f (acc + f a.c a.v b.v) as bs
    else if a.c < b.c then walk f acc as (b :: bs)
    else walk f acc (a :: as) bs
termination_by _ l1 l2 => l1.length + l2.length

/-- `timesMatTrans`, hiopMatrixSparseTriplet.cpp:144-202: `W = beta*W + alpha*M1*M2^T`. -/
def timesMatTrans (p s : ℕ) (M1 M2 : List (Ent K)) (beta : K) (W : ℕ → ℕ → K) (alpha : K) :
    Option (ℕ → ℕ → K) :=
  if rowStartsOk p M1 && rowStartsOk s M2 then
    some fun i j => if i < p ∧ j < s then
      beta * W i j + alpha * walk (fun _ a b => a * b) 0 (rowSlice M1 i) (rowSlice M2 j)
    else W i j
  else none

/-- `addMDinvMtransToDiagBlockOfSymDeMatUTri`, hiopMatrixSparseTriplet.cpp:390-441: on the diagonal
the squares of the stored entries are summed, above it rows are walked in pairs. -/
def addMDinvMt (p : ℕ) (es : List (Ent K)) (st : ℕ) (alpha : K) (D : ℕ → K) (W : ℕ → ℕ → K) :
    Option (ℕ → ℕ → K) :=
  if rowStartsOk p es then
    some fun i j => if st ≤ i ∧ i < st + p ∧ i ≤ j ∧ j < st + p then
      W i j + alpha * (if i = j then
        (rowSlice es (i - st)).foldl (fun acc e => acc + e.v / D e.c * e.v) 0
        else walk (fun k a b => a / D k * b) 0 (rowSlice es (i - st)) (rowSlice es (j - st)))
    else W i j
  else none

/-- `addMDinvNtransToSymDeMatUTri`, hiopMatrixSparseTriplet.cpp:447-525; the assertion
`i+row_dest_start <= j+col_dest_start` is checked for all pairs. -/
def addMDinvNt (p s : ℕ) (M1 M2 : List (Ent K)) (rs cs : ℕ) (alpha : K) (D : ℕ → K)
    (W : ℕ → ℕ → K) : Option (ℕ → ℕ → K) :=
  if rowStartsOk p M1 && rowStartsOk s M2 && (decide (s = 0) || decide (p + rs ≤ cs + 1)) then
    some fun i j => if rs ≤ i ∧ i < rs + p ∧ cs ≤ j ∧ j < cs + s then
      W i j + alpha * walk (fun k a b => a / D k * b) 0 (rowSlice M1 (i - rs)) (rowSlice M2 (j - cs))
    else W i j
  else none

/-! ## Additions into dense matrices, norms, scaling -/

/-- `W[i][j] += a`. Code: a statement that occurs several times, e.g. hiopMatrixSparseTriplet.cpp:274, hiopMatrixSparseTriplet.cpp:372, hiopMatrixSparseTriplet.cpp:437. -/
def addAt (W : ℕ → ℕ → K) (i j : ℕ) (a : K) : ℕ → ℕ → K :=
  fun i' j' => if i' = i ∧ j' = j then W i' j' + a else W i' j'

/-- `transAddToSymDenseMatrixUpperTriangle`, hiopMatrixSparseTriplet.cpp:258-276; `N` is the size of
`W`. -/
def transAddUpper (N : ℕ) (es : List (Ent K)) (rs cs : ℕ) (alpha : K) (W : ℕ → ℕ → K) :
    Option (ℕ → ℕ → K) :=
  es.foldlM (fun W e =>
    if e.c + rs < N ∧ e.r + cs < N ∧ e.c + rs ≤ e.r + cs then
      some (addAt W (e.c + rs) (e.r + cs) (alpha * e.v)) else none) W

/-- `hiopMatrixSymSparseTriplet::addUpperTriangleToSymDenseMatrixUpperTriangle`,
hiopMatrixSparseTriplet.cpp:979-1000. -/
def symAddUpper (N : ℕ) (es : List (Ent K)) (ds : ℕ) (alpha : K) (W : ℕ → ℕ → K) :
    Option (ℕ → ℕ → K) :=
  es.foldlM (fun W e =>
    if e.r ≤ e.c ∧ e.r + ds < N ∧ e.c + ds < N then
      some (addAt W (e.r + ds) (e.c + ds) (alpha * e.v)) else none) W

/-- `copy_to(dense)`, hiopMatrixSparseTriplet.cpp:363-374. -/
def copyToDense (es : List (Ent K)) : ℕ → ℕ → K :=
  es.foldl (fun W e => addAt W e.r e.c e.v) fun _ _ => 0

/-- `row_max_abs_value`, hiopMatrixSparseTriplet.cpp:285-301. -/
def rowMaxAbs (es : List (Ent K)) : ℕ → K :=
  es.foldl (fun y e => if y e.r < |e.v| then Function.update y e.r |e.v| else y) fun _ => 0

/-- `scale_row`, hiopMatrixSparseTriplet.cpp:303-319. -/
def scaleRow (es : List (Ent K)) (d : ℕ → K) (inv : Bool) : List (Ent K) :=
  es.map fun e => { e with v := e.v * (if inv then 1 / d e.r else d e.r) }

/-- `startingAtAddSubDiagonalToStartingAt`, hiopMatrixSparseTriplet.cpp:1018-1040: the destination
position is `vec_start+row`, not `vec_start+row-diag_src_start`. -/
def addSubDiagTo (es : List (Ent K)) (ds : ℕ) (alpha : K) (v : ℕ → K) (vs num : ℕ) : ℕ → K :=
  es.foldl (fun v e =>
    if e.r = e.c ∧ ds ≤ e.r ∧ e.r < ds + num then
      Function.update v (vs + e.r) (v (vs + e.r) + alpha * e.v) else v) v

/-- `extract_diagonal`, hiopMatrixSparseTriplet.cpp:1355-1369: assignment, not accumulation. -/
def extractDiagonal (es : List (Ent K)) : ℕ → K :=
  es.foldl (fun v e => if e.r = e.c then Function.update v e.r e.v else v) fun _ => 0

/-- `is_diagonal` for square matrices, hiopMatrixSparseTriplet.cpp:1338-1353. -/
def isDiagonal (p q : ℕ) (es : List (Ent K)) : Bool :=
  if p ≠ q then false else es.all fun e => decide (e.r = e.c)

/-- `numberOfOffDiagNonzeros`, hiopMatrixSparseTriplet.cpp:1171-1181. -/
def numOffDiag (es : List (Ent K)) : ℕ :=
  es.foldl (fun n e => if e.r = e.c then n - 1 else n) es.length

/-! ## Piecewise assembly -/

/-- Storage arrays of a matrix with `nnz` positions. Code: hiopMatrixSparseTriplet.hpp:330-332. -/
abbrev Store (K : Type*) := ℕ → Ent K

/-- Consecutive stores `iRow_[k], jCol_[k], values_[k++] = ...`. Code: occurs several times, e.g. hiopMatrixSparseTriplet.cpp:602, hiopMatrixSparseTriplet.cpp:603. -/
def writeAt (st : Store K) (k : ℕ) (l : List (Ent K)) : Store K :=
  fun i => if h : k ≤ i ∧ i - k < l.length then l[i - k]'h.2 else st i

/-- The triplets of a store. No counterpart in the code: used only to state and run the model. -/
def toList (st : Store K) (nnz : ℕ) : List (Ent K) := (List.range nnz).map st

/-- `itnz_dest<nnz_` for all positions written. Code: hiopMatrixSparseTriplet.cpp:594, hiopMatrixSparseTriplet.cpp:654. -/
def writeChecked (nnz : ℕ) (st : Store K) (k : ℕ) (l : List (Ent K)) : Option (Store K) :=
  if k + l.length ≤ nnz then some (writeAt st k l) else none

/-- One pass of the row-copy loops: skip smaller rows, copy the entries of `rowSrc`, renumbered.
Answers the entries copied and the source position reached. hiopMatrixSparseTriplet.cpp:582-608,
643-668. -/
def takeRow (rowSrc rowDst : ℕ) (rest : List (Ent K)) : List (Ent K) × List (Ent K) :=
  let rest := rest.dropWhile fun e => decide (e.r < rowSrc)
  ((rest.takeWhile fun e => decide (e.r = rowSrc)).map fun e => { e with r := rowDst },
    rest.dropWhile fun e => decide (e.r = rowSrc))

/-- The loop over destination rows; `f a`, `g a` are the source and destination row of pass `a`.
Answers the store, the next position and the rest of the source. Code: hiopMatrixSparseTriplet.cpp:562-618, hiopMatrixSparseTriplet.cpp:619-670. -/
def copyRowsLoop (nnz : ℕ) (f g : ℕ → ℕ) :
    ℕ → ℕ → List (Ent K) → Store K × ℕ → Option (Store K × ℕ)
  | _, 0, _, s => some s
  | a, n + 1, rest, (st, k) => do
    let t := takeRow (f a) (g a) rest
    let st ← writeChecked nnz st k t.1
    copyRowsLoop nnz f g (a + 1) n t.2 (st, k + t.1.length)

/-- `copyRowsFrom`, hiopMatrixSparseTriplet.cpp:562-610, with the final assertion. -/
def copyRowsFrom (nnz : ℕ) (st : Store K) (src : List (Ent K)) (idx : ℕ → ℕ) (n : ℕ) :
    Option (Store K) := do
  let (st, k) ← copyRowsLoop nnz idx (fun a => a) 0 n src (st, 0)
  if k = nnz then some st else none

/-- `copyRowsBlockFrom`, hiopMatrixSparseTriplet.cpp:619-669; there is no final assertion. -/
def copyRowsBlockFrom (nnz : ℕ) (st : Store K) (src : List (Ent K)) (rsrc n rdst k : ℕ) :
    Option (Store K) := do
  let (st, _) ← copyRowsLoop nnz (fun a => rsrc + a) (fun a => rdst + a) 0 n src (st, k)
  some st

/-- Triplets written by `copySubDiagonalFrom`, hiopMatrixSparseTriplet.cpp:216-234. -/
def subDiag (st num : ℕ) (v : ℕ → K) (scal : K) : List (Ent K) :=
  (List.range num).map fun a => ⟨st + a, st + a, scal * v a⟩

/-- `copySubDiagonalFrom`; positions past `nnz` are not checked by the code (undefined behaviour,
here `none`). Code: hiopMatrixSparseTriplet.cpp:216-234. -/
def copySubDiagonalFrom (nnz : ℕ) (store : Store K) (st num : ℕ) (v : ℕ → K) (k : ℕ) (scal : K) :
    Option (Store K) := writeChecked nnz store k (subDiag st num v scal)

/-- `setSubDiagonalTo`, hiopMatrixSparseTriplet.cpp:235-249. -/
def setSubDiagonalTo (nnz : ℕ) (store : Store K) (st num : ℕ) (c : K) (k : ℕ) : Option (Store K) :=
  writeChecked nnz store k ((List.range num).map fun a => ⟨st + a, st + a, c⟩)

/-- `copyDiagMatrixToSubblock`, hiopMatrixSparseTriplet.cpp:671-688. -/
def copyDiagToSubblock (nnz : ℕ) (store : Store K) (c : K) (rs cs k num : ℕ) : Option (Store K) :=
  writeChecked nnz store k ((List.range num).map fun a => ⟨rs + a, cs + a, c⟩)

/-- `copyDiagMatrixToSubblock_w_pattern`, hiopMatrixSparseTriplet.cpp:689-719. -/
def copyDiagToSubblockSel (nnz : ℕ) (store : Store K) (x : RVec K p) (rs cs k num : ℕ)
    (ix : RVec K p) : Option (Store K) :=
  let sel := (List.finRange p).filter fun i => decide (ix i ≠ 0)
  if sel.length = num then
    writeChecked nnz store k (sel.mapIdx fun a i => ⟨rs + a, cs + a, x i⟩)
  else none

/-- `copySubmatrixFrom` and, with `tr`, `copySubmatrixFromTrans`,
hiopMatrixSparseTriplet.cpp:1042-1108. -/
def copySubmatrixFrom (nnz : ℕ) (store : Store K) (src : List (Ent K)) (rs cs k : ℕ)
    (offdiagOnly tr : Bool) : Option (Store K) :=
  let src := if tr then src.map fun e => ⟨e.c, e.r, e.v⟩ else src
  let l := if offdiagOnly then src.filter fun e => decide (e.r ≠ e.c) else src
  writeChecked nnz store k (l.map fun e => ⟨rs + e.r, cs + e.c, e.v⟩)

/-- `setSubmatrixToConstantDiag_w_colpattern`, hiopMatrixSparseTriplet.cpp:1110-1138. -/
def constDiagColPattern (nnz : ℕ) (store : Store K) (c : K) (rs cs k num : ℕ) (ix : RVec K p) :
    Option (Store K) :=
  let sel := (List.finRange p).filter fun i => decide (ix i ≠ 0)
  if sel.length = num then
    writeChecked nnz store k (sel.mapIdx fun a (i : Fin p) => ⟨rs + i, cs + a, c⟩)
  else none

/-- `setSubmatrixToConstantDiag_w_rowpattern`, hiopMatrixSparseTriplet.cpp:1140-1168. -/
def constDiagRowPattern (nnz : ℕ) (store : Store K) (c : K) (rs cs k num : ℕ) (ix : RVec K p) :
    Option (Store K) :=
  let sel := (List.finRange p).filter fun i => decide (ix i ≠ 0)
  if sel.length = num then
    writeChecked nnz store k (sel.mapIdx fun a (i : Fin p) => ⟨rs + a, cs + i, c⟩)
  else none

/-! ## Feasibility-restoration Jacobian -/

/-- The rows written by `set_Jac_FR` for one Jacobian: base row, then `-1` at column `cp + i` and `+1`
at column `cn + i`; hiopMatrixSparseTriplet.cpp:827-848 and 879-896 (first block), 850-871 and
898-915 (second block). -/
def frRows (p : ℕ) (es : List (Ent K)) (r0 cp cn : ℕ) : List (Ent K) :=
  (List.range p).flatMap fun i =>
    ((rowSlice es i).map fun e => { e with r := r0 + i })
      ++ [⟨r0 + i, cp + i, -1⟩, ⟨r0 + i, cn + i, 1⟩]

/-- `set_Jac_FR`, hiopMatrixSparseTriplet.cpp:790-918, sparsity and values together; `n` is the
number of variables of the base problem. -/
def setJacFR (n mc md : ℕ) (Jc Jd : List (Ent K)) (nnz : ℕ) : Option (List (Ent K)) :=
  if nnz = Jc.length + 2 * mc + (Jd.length + 2 * md) ∧ rowStartsOk mc Jc = true ∧
      rowStartsOk md Jd = true then
    let l := frRows mc Jc 0 n (n + mc) ++ frRows md Jd mc (n + 2 * mc) (n + 2 * mc + md)
    if l.length = nnz then some l else none
  else none

end Hiop.Sparse
