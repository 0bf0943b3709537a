import Verif.Sparse.Model
import Mathlib.Algebra.BigOperators.Intervals

/-!
# Complex matrices and the Kron reduction — model

Sources: `src/LinAlg/hiopMatrixSparseTripletStorage.hpp`, `src/LinAlg/hiopMatrixComplexSparseTriplet.cpp`,
`src/LinAlg/hiopMatrixComplexDense.cpp`, `src/LinAlg/hiopLinSolverUMFPACKZ.cpp`,
`src/Utils/hiopKronReduction.cpp`. `std::complex<double>` is a field `K`; the real factors of some
routines are elements of `K` as well. Failed assertions (a debug build) and accesses outside an array are
`none`. A position `src_itnz` in the triplet arrays is represented by the triplets from that position
on. `isfinite`, `print` and memory management are left out.
-/

namespace Hiop.Kron

open Hiop.Sparse Finset

variable {K : Type*} [Field K] [DecidableEq K]

/-- `hiopMatrixSparseTripletStorage`, hiopMatrixSparseTripletStorage.hpp:138-141: sizes and triplets. -/
structure Trip (K : Type*) where
  m : ℕ
  n : ℕ
  es : List (Ent K)

/-- `hiopMatrixComplexDense`, hiopMatrixComplexDense.hpp:240-242: sizes and entries. Row-major storage is
modelled in `Verif/DenseMat`. -/
structure CMat (K : Type*) where
  m : ℕ
  n : ℕ
  a : ℕ → ℕ → K

/-! ## Sorting and adding up duplicates -/

/-- `sort_indexes`, hiopMatrixSparseTripletStorage.hpp:52-92: the index vector is sorted by `std::sort`,
which leaves the order of equal keys open; `srt` stands for the result. -/
def sortIndexes (srt : List (Ent K) → List (Ent K)) (A : Trip K) : Trip K := { A with es := srt A.es }

/-- The inner loop of `sum_up_duplicates`, hiopMatrixSparseTripletStorage.hpp:106-109. The second
argument is `nnz - itright`. Answers the arrays and `itright`. -/
def absorb (i j left : ℕ) : ℕ → (ℕ → Ent K) → ℕ → (ℕ → Ent K) × ℕ
  | 0, st, r => (st, r)
  | k + 1, st, r =>
    if (st r).r = i ∧ (st r).c = j then
      absorb i j left k (Function.update st left { st left with v := (st left).v + (st r).v }) (r + 1)
    else (st, r)

/-- The outer loop of `sum_up_duplicates`, hiopMatrixSparseTripletStorage.hpp:103-123, on the arrays `st`;
`cur` is `(currI, currJ, val1)`. Every pass increases `itright`: `fuel` passes suffice if
`nnz < itright + fuel`. Answers the arrays and `itleft`. -/
def sumLoop (nnz : ℕ) : ℕ → (ℕ → Ent K) → ℕ → ℕ → Ent K → (ℕ → Ent K) × ℕ
  | 0, st, left, _, _ => (st, left)
  | fuel + 1, st, left, right, cur =>
    if right ≤ nnz then
      let st := Function.update st left { st left with v := cur.v }
      let (st, right) := absorb cur.r cur.c left (nnz - right) st right
      let st := Function.update st left { st left with r := cur.r, c := cur.c }
      sumLoop nnz fuel st (left + 1) (right + 1) (if right < nnz then st right else cur)
    else (st, left)

/-- `sum_up_duplicates`, hiopMatrixSparseTripletStorage.hpp:96-126: the arrays are changed in place, the
first `itleft` positions remain. -/
def sumUpDuplicates (A : Trip K) : Trip K :=
  match A.es with
  | [] => A
  | e :: _ =>
    let r := sumLoop A.es.length (A.es.length + 1) (fun k => A.es.getD k e) 0 1 e
    { A with es := (List.range r.2).map r.1 }

/-! ## Slices -/

/-- `while(src_itnz<src_nnz && src_i[src_itnz]<row) src_itnz++`,
hiopMatrixComplexSparseTriplet.cpp:159-160. -/
def skipRow (row : ℕ) (l : List (Ent K)) : List (Ent K) := l.dropWhile fun e => decide (e.r < row)

/-- `while(src_itnz<src_nnz && src_i[src_itnz]==row && src_j[src_itnz]<col) src_itnz++`,
hiopMatrixComplexSparseTriplet.cpp:171-173. -/
def skipCol (row col : ℕ) (l : List (Ent K)) : List (Ent K) :=
  l.dropWhile fun e => decide (e.r = row ∧ e.c < col)

/-- The loop over the columns of the slice, hiopMatrixComplexSparseTriplet.cpp:162-181 (counting)
and 204-221 (filling), over pairs of column number and column: the pairs of column number and value
found, and the position after the loop. `skip` are the columns passed over (by `continue` or by the
first index of the loop) in the symmetric versions. -/
def findCols (row : ℕ) (skip : ℕ × ℕ → Bool) :
    List (ℕ × ℕ) → List (Ent K) → List (ℕ × K) × List (Ent K)
  | [], l => ([], l)
  | p :: cs, l =>
    if skip p then findCols row skip cs l
    else match skipCol row p.2 l with
      | [] => findCols row skip cs []
      | e :: l =>
        if e.r = row ∧ e.c = p.2 then
          let q := findCols row skip cs l
          ((p.1, e.v) :: q.1, q.2)
        else findCols row skip cs (e :: l)

/-- The loop over the rows (pairs of row number and row). Answers triplets (row number, column number,
value). Code: hiopMatrixComplexSparseTriplet.cpp:151-210. -/
def findRows (skip : ℕ × ℕ → ℕ × ℕ → Bool) (cols : List (ℕ × ℕ)) :
    List (ℕ × ℕ) → List (Ent K) → List (Ent K)
  | [], _ => []
  | p :: rs, l =>
    let q := findCols p.2 (skip p) cols (skipRow p.2 l)
    q.1.map (fun x => ⟨p.1, x.1, x.2⟩) ++ findRows skip cols rs q.2

/-- Indexes with their numbers: `(0, idxs[0]), (1, idxs[1]), ...`. Code: hiopMatrixComplexSparseTriplet.cpp:151-152. -/
def numbered (l : List ℕ) : List (ℕ × ℕ) := (List.range l.length).map fun k => (k, l.getD k 0)

/-- The assertions on an array of indexes, hiopMatrixComplexSparseTriplet.cpp:152-157, 164-170. -/
def idxOk (bound : ℕ) (l : List ℕ) : Bool :=
  l.all (fun i => decide (i < bound)) && decide (l.Pairwise (· < ·))

/-- The assertions of both loops: the columns are only looked at if there is a row. Code: hiopMatrixComplexSparseTriplet.cpp:151-171. -/
def sliceOk (A : Trip K) (rows cols : List ℕ) : Bool :=
  idxOk A.m rows && (rows.isEmpty || idxOk A.n cols)

/-- `new_slice`, hiopMatrixComplexSparseTriplet.cpp:140-228: the two passes are the same loop, so that
the entries found fill the new arrays exactly. -/
def newSlice (srt : List (Ent K) → List (Ent K)) (A : Trip K) (rows cols : List ℕ) : Option (Trip K) :=
  if sliceOk A rows cols then
    let count := (findRows (fun _ _ => false) (numbered cols) (numbered rows) A.es).length
    let fill := findRows (fun _ _ => false) (numbered cols) (numbered rows) A.es
    if fill.length = count then some (sortIndexes srt ⟨rows.length, cols.length, fill⟩) else none
  else none

/-- Entries with rows and columns exchanged. Code: hiopMatrixComplexSparseTriplet.cpp:281-292. -/
def swap (e : Ent K) : Ent K := ⟨e.c, e.r, e.v⟩

/-- `new_sliceFromSym`, hiopMatrixComplexSparseTriplet.cpp:231-389, on a matrix of which the upper triangle
is stored. Counting: lines 240-313; filling: 320-384, where the first loop over the columns begins at
`ki` instead of 0 (line 333). The new arrays have `count` positions; those not filled hold `junk`. -/
def newSliceFromSym (srt : List (Ent K) → List (Ent K)) (junk : ℕ → Ent K) (A : Trip K)
    (rows cols : List ℕ) : Option (Trip K) :=
  if sliceOk A rows cols && cols.all (fun i => decide (i < A.m)) &&
      (cols.isEmpty || rows.all fun i => decide (i < A.n)) then
    let lower := (findRows (fun row col => decide (col.2 ≤ row.2)) (numbered rows) (numbered cols)
      A.es).map swap
    let count := (findRows (fun row col => decide (col.2 < row.2)) (numbered cols) (numbered rows)
      A.es).length + lower.length
    let fill := findRows (fun row col => decide (col.2 < row.2) || decide (col.1 < row.1))
      (numbered cols) (numbered rows) A.es ++ lower
    if fill.length ≤ count then
      some (sortIndexes srt ⟨rows.length, cols.length,
        fill ++ (List.range (count - fill.length)).map fun k => junk (fill.length + k)⟩)
    else none
  else none

/-- `new_sliceFromSymToSym`, hiopMatrixComplexSparseTriplet.cpp:391-463: both passes begin at `ki`; no
sorting at the end. -/
def newSliceSymToSym (A : Trip K) (idx : List ℕ) : Option (Trip K) :=
  if idxOk A.m idx && idx.all (fun i => decide (i < A.n)) then
    some ⟨idx.length, idx.length,
      findRows (fun row col => decide (col.1 < row.1)) (numbered idx) (numbered idx) A.es⟩
  else none

/-! ## Products -/

/-- `hiopMatrixComplexSparseTriplet::timesVec`, hiopMatrixComplexSparseTriplet.cpp:63-89. -/
def spTimesVec (A : Trip K) (beta : K) (y : ℕ → K) (alpha : K) (x : ℕ → K) : Option (ℕ → K) :=
  let y : ℕ → K := fun i => if i < A.m then (if beta ≠ 0 then y i * beta else 0) else y i
  A.es.foldlM (fun y e =>
    if e.r < A.m ∧ e.c < A.n then some (Function.update y e.r (y e.r + alpha * x e.c * e.v))
    else none) y

/-- The dense matrix with `v` added to one entry. Code: hiopMatrixComplexDense.cpp:278. -/
def CMat.bump (W : CMat K) (i j : ℕ) (v : K) : CMat K :=
  { W with a := fun p q => if p = i ∧ q = j then W.a p q + v else W.a p q }

/-- `hiopMatrixComplexSparseTriplet::transTimesMat`, hiopMatrixComplexSparseTriplet.cpp:95-138:
`W = beta*W + alpha*this^T*X`. -/
def spTransTimesMat (A : Trip K) (beta : K) (W : CMat K) (alpha : K) (X : CMat K) :
    Option (CMat K) :=
  if A.m = X.m ∧ A.n = W.m ∧ W.n = X.n then
    let W : CMat K := { W with a := fun i j => if i < W.m ∧ j < W.n then
      (if beta = 0 then 0 else beta * W.a i j) else W.a i j }
    A.es.foldlM (fun W e =>
      if e.c < W.m ∧ e.r < X.m then
        some ((List.range X.n).foldl (fun W j => W.bump e.c j (alpha * e.v * X.a e.r j)) W)
      else none) W
  else none

/-- `negate`, hiopMatrixComplexDense.cpp:127-131. -/
def CMat.negate (A : CMat K) : CMat K := { A with a := fun i j => -A.a i j }

/-- `hiopMatrixComplexDense::timesVec`, hiopMatrixComplexDense.cpp:133-170: `ZGEMV` on a matrix with rows and columns;
without columns `ZSCAL` is called with the number of columns, which is zero. -/
def CMat.timesVec (A : CMat K) (beta : K) (y : ℕ → K) (alpha : K) (x : ℕ → K) : ℕ → K :=
  if A.m ≠ 0 ∧ A.n ≠ 0 then
    fun i => if i < A.m then alpha * (∑ j ∈ range A.n, A.a i j * x j) + beta * y i else y i
  else if A.m ≠ 0 then fun i => if i < A.n then beta * y i else y i
  else y

/-- `addSparseMatrix`, hiopMatrixComplexDense.cpp:257-280. -/
def CMat.addSparse (A : CMat K) (alpha : K) (X : Trip K) : Option (CMat K) :=
  if A.m = A.n ∧ X.m = X.n ∧ A.m = X.m then
    if alpha = 0 then some A
    else X.es.foldlM (fun A e =>
      if e.r < A.m ∧ e.c < A.n then some (A.bump e.r e.c (alpha * e.v)) else none) A
  else none

/-- `addSparseSymUpperTriangleToSymDenseMatrixUpperTriangle`, hiopMatrixComplexDense.cpp:282-304: the sizes of the
indexes are not asserted, a write outside is `none`. -/
def CMat.addSparseUpper (A : CMat K) (alpha : K) (X : Trip K) : Option (CMat K) :=
  if A.m = A.n ∧ X.m = X.n ∧ A.m = X.m then
    if alpha = 0 then some A
    else X.es.foldlM (fun A e =>
      if e.r ≤ e.c ∧ e.r < A.m ∧ e.c < A.n then some (A.bump e.r e.c (alpha * e.v)) else none) A
  else none

/-! ## UMFPACK -/

/-- The entries of a triplet matrix, duplicates added up: what `umfpack_zi_triplet_to_col` makes of the
triplets (hiopLinSolverUMFPACKZ.cpp:94-102). -/
def dense (es : List (Ent K)) (i j : ℕ) : K :=
  ((es.filter fun e => decide (e.r = i ∧ e.c = j)).map Ent.v).sum

/-- UMFPACK: the smallest status of the calls of `matrixChanged` for a matrix of size `n`, and for each
right-hand side the status and the solution. Negative: error, zero: success, positive: warning
(`UMFPACK_WARNING_singular_matrix` is 1). Code: hiopLinSolverUMFPACKZ.cpp:95-150. -/
structure Umf (K : Type*) where
  factor : ℕ → (ℕ → ℕ → K) → ℤ
  solve : ℕ → (ℕ → ℕ → K) → (ℕ → K) → ℤ × (ℕ → K)

/-- `matrixChanged`, hiopLinSolverUMFPACKZ.cpp:56-136. -/
def matrixChanged (U : Umf K) (A : Trip K) : ℤ :=
  if A.n = 0 then 0 else if U.factor A.n (dense A.es) < 0 then -1 else 0

/-- The right-hand side for one column, hiopLinSolverUMFPACKZ.cpp:202-229: the rows from `row` on,
beginning at position `l` (`idxsB_col[row-1]`, or for row 0 the one left by the column before); the
entry found in a row is not skipped. Answers the values and `idxsB_col[0]` (of the first row visited). -/
def colRhs (col : ℕ) : ℕ → ℕ → List (Ent K) → List K × List (Ent K)
  | 0, _, l => ([], l)
  | k + 1, row, l =>
    let l := skipCol row col (skipRow row l)
    let v := match l with
      | [] => 0
      | e :: _ => if e.r = row ∧ e.c = col then e.v else 0
    (v :: (colRhs col k (row + 1) l).1, l)

/-- The loop over the columns of `solve`, hiopLinSolverUMFPACKZ.cpp:200-252; a failing solve ends it. -/
def solveCols (U : Umf K) (n : ℕ) (A : ℕ → ℕ → K) :
    ℕ → ℕ → List (Ent K) → CMat K → Bool × CMat K
  | 0, _, _, X => (true, X)
  | k + 1, col, l, X =>
    let q := colRhs col n 0 l
    let s := U.solve n A (fun i => q.1.getD i 0)
    if s.1 < 0 then (false, X)
    else solveCols U n A k (col + 1) q.2
      { X with a := fun i j => if i < n ∧ j = col then s.2 i else X.a i j }

/-- `solve(B, X)`, hiopLinSolverUMFPACKZ.cpp:171-258. -/
def umfSolve (U : Umf K) (A B : Trip K) (X : CMat K) : Option (Bool × CMat K) :=
  if X.n = B.n ∧ A.n = B.m ∧ A.n = X.m then
    if A.n = 0 then some (true, X)
    else if X.n = 0 then some (true, X)
    else some (solveCols U A.n (dense A.es) X.n 0 B.es X)
  else none

/-! ## The reduction -/

/-- `go`, hiopKronReduction.cpp:20-92. `map` is `map_nonaux_to_aux_`. Answers the returned value, the new
`map_nonaux_to_aux_` and the new `Ybus_red`. The answer of `linsolver_->solve` is dropped (line 67). -/
def go (U : Umf K) (srt : List (Ent K) → List (Ent K)) (map : Option (CMat K)) (nonaux aux : List ℕ)
    (Y : Trip K) (red : CMat K) : Option (Bool × Option (CMat K) × CMat K) :=
  (newSlice srt Y nonaux nonaux).bind fun Yaa =>
  (newSlice srt Y aux aux).bind fun Ybb =>
  (newSlice srt Y aux nonaux).bind fun Yba =>
  if 0 ≤ matrixChanged U Ybb then
    if map.isSome then none
    else
      (umfSolve U Ybb Yba ⟨Yba.m, Yba.n, fun _ _ => 0⟩).bind fun q =>
      let mp := q.2.negate
      (spTransTimesMat Yba 0 red 1 mp).bind fun red =>
      (red.addSparse 1 Yaa).map fun red => (true, some mp, red)
  else some (false, map, red)

/-- `apply_nonaux_to_aux`, hiopKronReduction.cpp:98-127. The assertion `map_nonaux_to_aux_` fails before the
test that would return false. -/
def apply (map : Option (CMat K)) (vin : List K) (vout : List K) : Option (List K) :=
  match map with
  | none => none
  | some M =>
    if vin.length = M.n ∧ vout.length = M.m then
      some ((List.range vout.length).map
        (M.timesVec 0 (fun i => vout.getD i 0) 1 (fun i => vin.getD i 0)))
    else none

end Hiop.Kron
