import Verif.Raja.VecModel
import Verif.DenseMat.Lemmas

/-!
# C64: parallel dense matrices — model

`hiopMatrixDenseRaja` (hiopMatrixDenseRajaImpl.hpp), with the loops of `Verif/Raja/Sched.lean`. The
object is that of the host model (`DenseMat.DMat`): sizes, `max_rows_` and the array; the array of the
device has `n_local_*max_rows_` elements (hpp:111). An access outside of an array is `fail`. One process
(`n_local_ = n_global_`), memory space `data_dev_` only: the host mirror is not modelled. The vectors
are arrays with their sizes.
-/

namespace Hiop.Raja.Dense

open Hiop.DenseMat Finset Hiop.Raja

variable {K : Type} [Field K] [LinearOrder K] [IsStrictOrderedRing K]

/-- `RAJA::kernel<matrix_exec>(make_tuple(col_range, row_range), body)`: all pairs, in any order and
interleaved. The numbering of the pairs is of no importance. Code: hiopMatrixDenseRajaImpl.hpp:875, 924, 972, 1254. -/
def kernel2 (nc nr : ℕ) (body : ℕ → ℕ → Prog ℕ fun _ => K) (m : ℕ → K) : Out (ℕ → K) :=
  forallR (nc * nr) (fun k => body (k / nr) (k % nr)) m

/-- The matrix after a loop over its array. No counterpart in the code: used only to state and run the model. -/
def onMat (A : DMat K) (o : Out (ℕ → K)) : Out (DMat K) :=
  o.andThen fun a => Out.one { A with data := a }

/-- The array after a loop over it. No counterpart in the code: used only to state and run the model. -/
def onArr (y : Arr K) (o : Out (ℕ → K)) : Out (Arr K) :=
  o.andThen fun a => Out.one ⟨y.size, a⟩

/-- `a[l] = f(a[l])` in an array of `size` elements. Code: as in hiopMatrixDenseRajaImpl.hpp:557, hiopMatrixDenseRajaImpl.hpp:1209. -/
def upd1 (size l : ℕ) (f : K → K) : Prog ℕ fun _ => K :=
  assertP (l < size) (.rd l fun v => .wr l (f v) .ret)

/-- The elements `so`, `so + st`, ..., `cnt` of them, of an array that a loop only loads from. Code: as the second operand in hiopMatrixDenseRajaImpl.hpp:1209. -/
def loads (a : Arr K) (so st cnt : ℕ) (p : Prog ℕ fun _ => K) : Prog ℕ fun _ => K :=
  assertP (∀ k < cnt, so + st * k < a.size) p

/-! ## Copies -/

/-- `appendRow`, hiopMatrixDenseRajaImpl.hpp:196-206. -/
def appendRowR (A : DMat K) (r : Arr K) : Option (DMat K) :=
  (memcpy A.arr (A.m * A.n) r 0 A.n).map fun a => { A.put a with m := A.m + 1 }

/-- `copyFrom(const hiopMatrixDense&)`, hiopMatrixDenseRajaImpl.hpp:219-230: `max_rows_` rows. -/
def copyFromR (A B : DMat K) : Option (DMat K) :=
  if A.n = B.n ∧ A.m = B.m then (memcpy A.arr 0 B.arr 0 (A.n * A.cap)).map A.put else none

/-- `copyFrom(const double*)`, hiopMatrixDenseRajaImpl.hpp:256-261; `none` is the null pointer. -/
def copyFromBufR (A : DMat K) (b : Option (Arr K)) : Option (DMat K) :=
  match b with
  | none => some A
  | some b => (memcpy A.arr 0 b 0 (A.m * A.n)).map A.put

/-- `copy_to(double*)`, hiopMatrixDenseRajaImpl.hpp:239-244: `max_rows_` rows. -/
def copyToR (A : DMat K) (b : Arr K) : Option (Arr K) := memcpy b 0 A.arr 0 (A.n * A.cap)

/-- `new_copy`, hiopMatrixDenseRajaImpl.hpp:530-535, with the copy constructor, 155-187. -/
def newCopyR (A : DMat K) (junk : ℕ → K) : Option (DMat K) := copyFromR (clone A junk) A

/-- `copyRowsFrom(src, num_rows, row_dest)`, hiopMatrixDenseRajaImpl.hpp:275-294. -/
def copyRowsR (A B : DMat K) (num row : ℕ) : Option (DMat K) :=
  if num = 0 then some A else (memcpy A.arr (row * A.n) B.arr 0 (A.n * num)).map A.put

/-- `copyRowsFrom(src, rows_idxs, n_rows)`, hiopMatrixDenseRajaImpl.hpp:310-330: one parallel loop for
each row, one after the other. -/
def copyRowsIdxR (A B : DMat K) (idx : ℕ → ℕ) (nrows : ℕ) : Out (DMat K) :=
  .check (A.n = B.n ∧ nrows ≤ B.m ∧ nrows = A.m) <|
    onMat A ((List.range nrows).foldl (fun o i => o.andThen fun a =>
      forallR A.n (fun j => loads B.arr (idx i * B.n + j) 0 1
        (assertP (i * A.n + j < A.arr.size)
          (.wr (i * A.n + j) (B.data (idx i * B.n + j)) .ret))) a) (Out.one A.data))

/-- `copyBlockFromMatrix`, hiopMatrixDenseRajaImpl.hpp:345-365. -/
def copyBlockR (A : DMat K) (i0 j0 : ℕ) (B : DMat K) : Option (DMat K) :=
  if i0 + B.m ≤ A.m ∧ j0 + B.n ≤ A.n then
    if B.n = 0 ∨ B.m = 0 then some A
    else (loop (fun i a => memcpy a ((i + i0) * A.n + j0) B.arr (i * B.n) B.n) B.m A.arr).map A.put
  else none

/-- `copyFromMatrixBlock`, hiopMatrixDenseRajaImpl.hpp:379-398. -/
def copyFromBlockR (A B : DMat K) (i0 j0 : ℕ) : Option (DMat K) :=
  if A.m + i0 ≤ B.m ∧ A.n + j0 ≤ B.n then
    if A.n = B.n then (memcpy A.arr 0 B.arr (i0 * B.n) (A.n * A.m)).map A.put
    else (loop (fun i a => memcpy a (i * A.n) B.arr ((i + i0) * B.n + j0) A.n) A.m A.arr).map A.put
  else none

/-- `shiftRows`, hiopMatrixDenseRajaImpl.hpp:406-454. -/
def shiftRowsR (A : DMat K) (shift : ℤ) : Option (DMat K) :=
  if shift = 0 then some A
  else if shift.natAbs = A.m then some A
  else if A.m ≤ 1 then some A
  else if A.m ≤ shift.natAbs then none
  else
    let s := shift.natAbs
    if shift < 0 then
      (loop (fun r a => memcpy a (r * A.n) a ((r + s) * A.n) A.n) (A.m - s) A.arr).map A.put
    else
      (loop (fun k a => memcpy a ((A.m - 1 - k) * A.n) a ((A.m - 1 - k - s) * A.n) A.n) (A.m - s)
        A.arr).map A.put

/-- `replaceRow`, hiopMatrixDenseRajaImpl.hpp:458-468. -/
def replaceRowR (A : DMat K) (row : ℕ) (v : Arr K) : Option (DMat K) :=
  if row < A.m then
    (memcpy A.arr (row * A.n) v 0 (if A.n ≤ v.size then A.n else v.size)).map A.put
  else none

/-- `getRow`, hiopMatrixDenseRajaImpl.hpp:472-480. -/
def getRowR (A : DMat K) (row : ℕ) (v : Arr K) : Option (Arr K) :=
  if row < A.m ∧ A.n = v.size then memcpy v 0 A.arr (row * A.n) A.n else none

/-- `setToConstant`, hiopMatrixDenseRajaImpl.hpp:551-559 (`setToZero` is `c = 0`). -/
def setToConstantR (A : DMat K) (c : K) : Out (DMat K) :=
  onMat A (forallR (A.n * A.m) (fun i => assertP (i < A.arr.size) (.wr i c .ret)) A.data)

/-! ## Products -/

/-- `timesVec`, hiopMatrixDenseRajaImpl.hpp:681-712. -/
def timesVecR (A : DMat K) (beta : K) (y : Arr K) (alpha : K) (x : Arr K) : Out (Arr K) :=
  onArr y (forallR A.m (fun i => loads A.arr (i * A.n) 1 A.n (loads x 0 1 A.n
    (upd1 y.size i fun v =>
      beta * v + alpha * ∑ j ∈ range A.n, A.data (i * A.n + j) * x.get j))) y.get)

/-- `transTimesVec`, hiopMatrixDenseRajaImpl.hpp:753-774. -/
def transTimesVecR (A : DMat K) (beta : K) (y : Arr K) (alpha : K) (x : Arr K) : Out (Arr K) :=
  onArr y (forallR A.n (fun j => loads A.arr j A.n A.m (loads x 0 1 A.m
    (upd1 y.size j fun v =>
      beta * v + alpha * ∑ i ∈ range A.m, A.data (i * A.n + j) * x.get i))) y.get)

/-- `timesMat_local`, hiopMatrixDenseRajaImpl.hpp:849-883. -/
def timesMatLocalR (A : DMat K) (beta : K) (W : DMat K) (alpha : K) (X : DMat K) : Out (DMat K) :=
  onMat W (kernel2 W.n W.m (fun col row => loads A.arr (row * A.n) 1 A.n (loads X.arr col X.n A.n
    (upd1 W.arr.size (row * W.n + col) fun v =>
      beta * v + alpha * ∑ k ∈ range A.n, A.data (row * A.n + k) * X.data (k * X.n + col)))) W.data)

/-- `timesMat`, hiopMatrixDenseRajaImpl.hpp:799-838; `mpi` tells whether the code is built with MPI. -/
def timesMatR (mpi : Bool) (A : DMat K) (beta : K) (W : DMat K) (alpha : K) (X : DMat K) :
    Out (DMat K) :=
  if mpi then
    .check (W.m = A.m ∧ X.m = A.n ∧ W.n = X.n) <|
      if W.m = 0 ∨ X.m = 0 ∨ W.n = 0 then .one W else timesMatLocalR A beta W alpha X
  else timesMatLocalR A beta W alpha X

/-- `transTimesMat`, hiopMatrixDenseRajaImpl.hpp:898-932. -/
def transTimesMatR (A : DMat K) (beta : K) (W : DMat K) (alpha : K) (X : DMat K) : Out (DMat K) :=
  .check (W.m = A.n ∧ X.m = A.m ∧ W.n = X.n) <|
    if W.m = 0 then .one W
    else onMat W (kernel2 W.n W.m (fun col row => loads A.arr row A.n A.m (loads X.arr col X.n A.m
      (upd1 W.arr.size (row * W.n + col) fun v =>
        beta * v + alpha * ∑ k ∈ range A.m, A.data (k * A.n + row) * X.data (k * X.n + col)))) W.data)

/-- `timesMatTrans` and `timesMatTrans_local`, hiopMatrixDenseRajaImpl.hpp:947-1024, on one process. -/
def timesMatTransR (A : DMat K) (beta : K) (W : DMat K) (alpha : K) (X : DMat K) : Out (DMat K) :=
  if W.m = 0 ∨ W.n = 0 then .one W
  else onMat W (kernel2 W.n W.m (fun col row =>
    loads A.arr (row * A.n) 1 A.n (loads X.arr (col * X.n) 1 A.n
    (upd1 W.arr.size (row * W.n + col) fun v =>
      beta * v + alpha * ∑ k ∈ range A.n, A.data (row * A.n + k) * X.data (col * X.n + k)))) W.data)

/-! ## Sums -/

/-- `addDiagonal(alpha, d)`, hiopMatrixDenseRajaImpl.hpp:1038-1060. -/
def addDiagonalR (A : DMat K) (alpha : K) (d : Arr K) : Out (DMat K) :=
  onMat A (forallR (min A.m A.n) (fun i => loads d i 0 1
    (upd1 A.arr.size (i * A.n + i) fun v => v + d.get i * alpha)) A.data)

/-- `addDiagonal(value)`, hiopMatrixDenseRajaImpl.hpp:1068-1078. -/
def addDiagonalConstR (A : DMat K) (c : K) : Out (DMat K) :=
  onMat A (forallR (min A.m A.n) (fun i => upd1 A.arr.size (i * A.n + i) fun v => v + c) A.data)

/-- `addSubDiagonal(alpha, start, d)`, hiopMatrixDenseRajaImpl.hpp:1091-1111; iteration `i` is index
`start + i`. -/
def addSubDiagonalR (A : DMat K) (alpha : K) (start : ℕ) (d : Arr K) : Out (DMat K) :=
  onMat A (forallR d.size (fun i => loads d i 0 1
    (upd1 A.arr.size ((start + i) * A.n + (start + i)) fun v => v + d.get i * alpha)) A.data)

/-- `addSubDiagonal(start_on_dest_diag, alpha, d, start_on_src_vec, num_elems)`,
hiopMatrixDenseRajaImpl.hpp:1127-1153; `num = none` is the default `-1`. -/
def addSubDiagonalFromR (A : DMat K) (start : ℕ) (alpha : K) (d : Arr K) (src : ℕ)
    (num : Option ℕ) : Out (DMat K) :=
  let num := num.getD (d.size - src)
  .check (num ≤ d.size ∧ A.n = A.m ∧ start < A.m) <|
    onMat A (forallR (min num (A.m - start)) (fun i => loads d (i + src) 0 1
      (upd1 A.arr.size ((i + start) * A.n + (i + start)) fun v => v + d.get (i + src) * alpha)) A.data)

/-- `addSubDiagonal(start_on_dest_diag, num_elems, c)`, hiopMatrixDenseRajaImpl.hpp:1168-1183. -/
def addSubDiagonalConstR (A : DMat K) (start num : ℕ) (c : K) : Out (DMat K) :=
  .check (start + num ≤ A.n ∧ A.n = A.m) <|
    onMat A (forallR num (fun i =>
      upd1 A.arr.size ((i + start) * A.n + (i + start)) fun v => v + c) A.data)

/-- `addMatrix`, hiopMatrixDenseRajaImpl.hpp:1196-1211. -/
def addMatrixR (A : DMat K) (alpha : K) (X : DMat K) : Out (DMat K) :=
  onMat A (forallR (A.n * A.m) (fun i => loads X.arr i 0 1
    (upd1 A.arr.size i fun v => v + X.data i * alpha)) A.data)

/-- `addToSymDenseMatrixUpperTriangle`, hiopMatrixDenseRajaImpl.hpp:1232-1261, with the check of
HIOP_DEEPCHECKS. -/
def addToR (A : DMat K) (r0 c0 : ℕ) (alpha : K) (W : DMat K) : Out (DMat K) :=
  .check (A.m + r0 ≤ W.m ∧ A.n + c0 ≤ W.n ∧ W.n = W.m) <| .check (r0 + A.m ≤ c0) <|
    onMat W (kernel2 A.n A.m (fun jc ir => loads A.arr (ir * A.n + jc) 0 1
      (upd1 W.arr.size ((ir + r0) * W.n + (jc + c0)) fun v => v + alpha * A.data (ir * A.n + jc)))
      W.data)

/-- `transAddToSymDenseMatrixUpperTriangle`, hiopMatrixDenseRajaImpl.hpp:1272-1298, with the check of
HIOP_DEEPCHECKS. -/
def transAddToR (A : DMat K) (r0 c0 : ℕ) (alpha : K) (W : DMat K) : Out (DMat K) :=
  .check (A.n + r0 ≤ W.m ∧ A.m + c0 ≤ W.n ∧ W.n = W.m) <|
    onMat W (kernel2 A.n A.m (fun jc ir => assertP (jc + r0 ≤ ir + c0)
      (loads A.arr (ir * A.n + jc) 0 1
        (upd1 W.arr.size ((jc + r0) * W.n + (ir + c0)) fun v => v + alpha * A.data (ir * A.n + jc))))
      W.data)

/-- `addUpperTriangleToSymDenseMatrixUpperTriangle`, hiopMatrixDenseRajaImpl.hpp:1314-1336. There are
no assertions. -/
def addUpperToR (A : DMat K) (d0 : ℕ) (alpha : K) (W : DMat K) : Out (DMat K) :=
  onMat W (kernel2 A.n A.m (fun j i =>
    if j < i then .ret
    else loads A.arr (i * A.n + j) 0 1
      (upd1 W.arr.size ((i + d0) * W.n + (j + d0)) fun v => v + alpha * A.data (i * A.n + j)))
    W.data)

/-! ## Norms, scaling and symmetry -/

/-- `max_abs_value`, hiopMatrixDenseRajaImpl.hpp:1344-1361. -/
def maxAbsR (A : DMat K) : Set K := reduceMax (A.n * A.m) 0 fun i => some |A.data i|

/-- `row_max_abs_value`, hiopMatrixDenseRajaImpl.hpp:1369-1410: the vector is set to zero first; one
iteration for each row, which goes through the columns. -/
def rowMaxAbsR (A : DMat K) (v : Arr K) : Out (Arr K) :=
  .check (v.size = A.m) <|
    if A.m = 0 then .one ⟨v.size, fun i => if i < v.size then 0 else v.get i⟩
    else onArr v (forallR A.m (fun i => loads A.arr (i * A.n) 1 A.n
      (loopP (List.range A.n) fun j k => .rd i fun w =>
        .wr i (if w > |A.data (i * A.n + j)| then w else |A.data (i * A.n + j)|) k))
      fun i => if i < v.size then 0 else v.get i)

/-- `scale_row`, hiopMatrixDenseRajaImpl.hpp:1414-1434. The second argument is not used. -/
def scaleRowR (A : DMat K) (v : Arr K) (_inv : Bool) : Out (DMat K) :=
  onMat A (forallR A.m (fun i => loads v i 0 1 (loads A.arr (i * A.n) 1 A.n
    (loopP (List.range A.n) fun j k =>
      .rd (i * A.n + j) fun w => .wr (i * A.n + j) (w * v.get i) k))) A.data)

/-- `symmetrize`, hiopMatrixDenseRajaImpl.hpp:1471-1497: all pairs; entry `(i, j)` is loaded by every
iteration, and stored at `(j, i)` by those with `i < j`. -/
def symmetrizeR (A : DMat K) : Out (DMat K) :=
  .check (A.m = A.n) <|
    onMat A (kernel2 A.n A.n (fun j i => assertP (i * A.n + j < A.arr.size)
      (.rd (i * A.n + j) fun ij =>
        if i < j then assertP (j * A.n + i < A.arr.size) (.wr (j * A.n + i) ij .ret) else .ret))
      A.data)

/-- `overwriteUpperTriangleWithLower`, hiopMatrixDenseRajaImpl.hpp:493-505. -/
def upperWithLowerR (A : DMat K) : Out (DMat K) :=
  onMat A (forallR A.m (fun i => loopP (List.range (A.n - (i + 1))) fun k p =>
    assertP ((i + 1 + k) * A.n + i < A.arr.size ∧ i * A.n + (i + 1 + k) < A.arr.size)
      (.rd ((i + 1 + k) * A.n + i) fun w => .wr (i * A.n + (i + 1 + k)) w p)) A.data)

/-- `overwriteLowerTriangleWithUpper`, hiopMatrixDenseRajaImpl.hpp:508-519; iteration `i` is row
`i + 1`. -/
def lowerWithUpperR (A : DMat K) : Out (DMat K) :=
  onMat A (forallR (A.m - 1) (fun i => loopP (List.range (i + 1)) fun j p =>
    assertP (j * A.n + (i + 1) < A.arr.size ∧ (i + 1) * A.n + j < A.arr.size)
      (.rd (j * A.n + (i + 1)) fun w => .wr ((i + 1) * A.n + j) w p)) A.data)

/-- `set_Hess_FR`, hiopMatrixDenseRajaImpl.hpp:484-489. -/
def setHessFRR (A H : DMat K) (d : Arr K) : Out (DMat K) :=
  match copyFromR A H with
  | none => .abort
  | some A' => addDiagonalR A' 1 d

end Hiop.Raja.Dense
