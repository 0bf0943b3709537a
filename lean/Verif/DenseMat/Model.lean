import Mathlib.Algebra.Order.Field.Basic
import Mathlib.Algebra.BigOperators.Group.Finset.Basic
import Mathlib.Algebra.Order.Group.Abs

/-!
# C58: dense row-major matrices — model

Source: `src/LinAlg/hiopMatrixDenseRowMajor.cpp` on one process (`n_local_ = n_global_`). The storage
is one array with `max_rows_ * n_local_` entries, row `i` starting at `M_[i] = M_[0] + i*n_local_`.
An access outside an array, the use of a null array and a failed assertion are `none`. BLAS and
LAPACK routines are modelled by their reference implementations, on column-major arrays, including
their argument checks: a wrong leading dimension ends in `XERBLA`, which is `none` here (the
reference `XERBLA` stops the program, others print a message and return without computing
anything). Assertions under `HIOP_DEEPCHECKS` are left out: what they guard against shows as an access
outside an array. `isfinite` and `print` are left out.
-/

namespace Hiop.DenseMat

open Finset

variable {K : Type*} [Field K] [LinearOrder K] [IsStrictOrderedRing K]

/-- An array of doubles with its allocated size; the null pointer has size 0. Code: hiopMatrixDenseRowMajor.cpp:90-93. -/
structure Arr (K : Type*) where
  size : ℕ
  get : ℕ → K

/-- `hiopMatrixDenseRowMajor` (hiopMatrixDenseRowMajor.hpp:244-252): `m_local_`, `n_local_`,
`max_rows_`, the contents of `M_[0]` and whether `M_[0]` is null. -/
structure DMat (K : Type*) where
  m : ℕ
  n : ℕ
  cap : ℕ
  data : ℕ → K
  null : Bool

/-- What can be accessed through `M_[0]`. Code: hiopMatrixDenseRowMajor.cpp:90-93. -/
def DMat.arr (A : DMat K) : Arr K := ⟨if A.null then 0 else A.cap * A.n, A.data⟩

/-- `for(i=0; i<k; i++) body(i)`, stopping when the body fails. Code: occurs many times, e.g. hiopMatrixDenseRowMajor.cpp:393. -/
def loop {σ : Type*} (body : ℕ → σ → Option σ) : ℕ → σ → Option σ
  | 0, s => some s
  | k + 1, s => (loop body k s).bind (body k)

/-- `memcpy` of `cnt` doubles from `src + so` to `dst + d0`. Code: hiopMatrixDenseRowMajor.cpp:135-291. -/
def memcpy (dst : Arr K) (d0 : ℕ) (src : Arr K) (so cnt : ℕ) : Option (Arr K) :=
  if d0 + cnt ≤ dst.size ∧ so + cnt ≤ src.size then
    some ⟨dst.size, fun k => if d0 ≤ k ∧ k < d0 + cnt then src.get (so + (k - d0)) else dst.get k⟩
  else none

/-- `a[k] = v`. Code: as in hiopMatrixDenseRowMajor.cpp:326, hiopMatrixDenseRowMajor.cpp:346. -/
def Arr.set (a : Arr K) (k : ℕ) (v : K) : Option (Arr K) :=
  if k < a.size then some ⟨a.size, fun q => if q = k then v else a.get q⟩ else none

/-- `a[k]`. Code: as in hiopMatrixDenseRowMajor.cpp:346. -/
def Arr.read (a : Arr K) (k : ℕ) : Option K := if k < a.size then some (a.get k) else none

/-- `a[k] += v`. Code: hiopMatrixDenseRowMajor.cpp:713-717. -/
def Arr.add (a : Arr K) (k : ℕ) (v : K) : Option (Arr K) := a.set k (a.get k + v)

/-- The matrix with the contents of its array replaced. Code: the effect of writing through `M_[0]` in a BLAS call, as in hiopMatrixDenseRowMajor.cpp:601. -/
def DMat.put (A : DMat K) (a : Arr K) : DMat K := { A with data := a.get }

/-! ## BLAS and LAPACK (reference implementations) -/

/-- Whether the columns of a column-major `rows × cols` matrix lie in the array. No counterpart in the code: used only to state and run the model. -/
def fits (rows cols ld size : ℕ) : Prop := rows = 0 ∨ cols = 0 ∨ (cols - 1) * ld + rows ≤ size

instance (rows cols ld size : ℕ) : Decidable (fits rows cols ld size) := by
  unfold fits; infer_instance

/-- `DGEMV`: `y = alpha*op(A)*x + beta*y`, `A` column-major `M × N`; returns at once when `M` or `N`
is zero. Code: hiopMatrixDenseRowMajor.cpp:471, hiopMatrixDenseRowMajor.cpp:519. -/
def dgemv (trans : Bool) (M N : ℕ) (alpha : K) (A : Arr K) (lda : ℕ) (x : Arr K) (beta : K)
    (y : Arr K) : Option (Arr K) :=
  if lda < max 1 M then none
  else if M = 0 ∨ N = 0 then some y
  else if ¬ fits M N lda A.size then none
  else if trans then
    if x.size < M ∨ y.size < N then none
    else some ⟨y.size, fun j => if j < N then
      alpha * (∑ i ∈ range M, A.get (i + j * lda) * x.get i) + beta * y.get j else y.get j⟩
  else
    if x.size < N ∨ y.size < M then none
    else some ⟨y.size, fun i => if i < M then
      alpha * (∑ j ∈ range N, A.get (i + j * lda) * x.get j) + beta * y.get i else y.get i⟩

/-- Entry of `op(A)` for a column-major matrix. Code: for the calls of BLAS, as in hiopMatrixDenseRowMajor.cpp:601. -/
def opAt (trans : Bool) (A : Arr K) (lda i j : ℕ) : K :=
  if trans then A.get (j + i * lda) else A.get (i + j * lda)

/-- `DGEMM`: `C = alpha*op(A)*op(B) + beta*C`, `op(A)` is `M × L`, `op(B)` is `L × N`. Code: hiopMatrixDenseRowMajor.cpp:601, hiopMatrixDenseRowMajor.cpp:640, hiopMatrixDenseRowMajor.cpp:673. -/
def dgemm (ta tb : Bool) (M N L : ℕ) (alpha : K) (A : Arr K) (lda : ℕ) (B : Arr K) (ldb : ℕ)
    (beta : K) (C : Arr K) (ldc : ℕ) : Option (Arr K) :=
  if lda < max 1 (if ta then L else M) ∨ ldb < max 1 (if tb then N else L) ∨ ldc < max 1 M then none
  else if M = 0 ∨ N = 0 then some C
  else if ¬ fits (if ta then L else M) (if ta then M else L) lda A.size
      ∨ ¬ fits (if tb then N else L) (if tb then L else N) ldb B.size
      ∨ ¬ fits M N ldc C.size then none
  else some ⟨C.size, fun q => if q % ldc < M ∧ q / ldc < N then
    alpha * (∑ l ∈ range L, opAt ta A lda (q % ldc) l * opAt tb B ldb l (q / ldc)) + beta * C.get q
    else C.get q⟩

/-- `DSCAL` on `cnt` entries from `off` on. Code: hiopMatrixDenseRowMajor.cpp:477, hiopMatrixDenseRowMajor.cpp:525, hiopMatrixDenseRowMajor.cpp:661. -/
def dscal (cnt : ℕ) (a : K) (x : Arr K) (off : ℕ) : Option (Arr K) :=
  if cnt = 0 then some x
  else if x.size < off + cnt then none
  else some ⟨x.size, fun k => if off ≤ k ∧ k < off + cnt then a * x.get k else x.get k⟩

/-- `DAXPY`: `y += a*x` on `cnt` entries; returns at once when `a` is zero. Code: hiopMatrixDenseRowMajor.cpp:775. -/
def daxpy (cnt : ℕ) (a : K) (x y : Arr K) : Option (Arr K) :=
  if cnt = 0 ∨ a = 0 then some y
  else if x.size < cnt ∨ y.size < cnt then none
  else some ⟨y.size, fun k => if k < cnt then y.get k + a * x.get k else y.get k⟩

/-- `DLANGE` with `norm = 'M'`: the largest absolute value of a column-major matrix; the leading
dimension is not checked. Code: hiopMatrixDenseRowMajor.cpp:835, hiopMatrixDenseRowMajor.cpp:855. -/
def dlange (M N : ℕ) (A : Arr K) (off lda : ℕ) : Option K :=
  if M = 0 ∨ N = 0 then some 0
  else if A.size < off + ((N - 1) * lda + M) then none
  else some ((List.range N).foldl (fun v j =>
    (List.range M).foldl (fun v i => if v < |A.get (off + (i + j * lda))| then
      |A.get (off + (i + j * lda))| else v) v) 0)

/-! ## The matrix class -/

/-- Constructor, hiopMatrixDenseRowMajor.cpp:64-100. `mmax = none` is the default `-1`. -/
def new (m n : ℕ) (mmax : Option ℕ) : Option (DMat K) :=
  let cap := mmax.getD m
  if cap < m then none else some ⟨m, n, cap, fun _ => 0, cap == 0⟩

/-- Copy constructor (`alloc_clone`), hiopMatrixDenseRowMajor.cpp:111-127, 357-361: the values are
those the memory happens to hold. -/
def clone (A : DMat K) (junk : ℕ → K) : DMat K := ⟨A.m, A.n, A.cap, junk, A.cap == 0⟩

/-- The row pointer `M_[i]`, as an offset from `M_[0]`; the table has `max(1, max_rows_)` entries. Code: hiopMatrixDenseRowMajor.cpp:92-93. -/
def DMat.row (A : DMat K) (i : ℕ) : Option ℕ := if i < max 1 A.cap then some (i * A.n) else none

/-- `appendRow`, hiopMatrixDenseRowMajor.cpp:129-137. -/
def appendRow (A : DMat K) (r : Arr K) : Option (DMat K) :=
  match A.row A.m with
  | none => none
  | some o => match memcpy A.arr o r 0 A.n with
    | none => none
    | some a => some { A.put a with m := A.m + 1 }

/-- `copyFrom(const hiopMatrixDense&)`, hiopMatrixDenseRowMajor.cpp:139-149. -/
def copyFrom (A B : DMat K) : Option (DMat K) :=
  if A.n = B.n ∧ A.m = B.m then
    if B.null then some { A with null := true }
    else (memcpy A.arr 0 B.arr 0 (A.m * A.n)).map A.put
  else none

/-- `copyFrom(const double*)`, hiopMatrixDenseRowMajor.cpp:151-158; `none` is the null pointer. -/
def copyFromBuf (A : DMat K) (b : Option (Arr K)) : Option (DMat K) :=
  match b with
  | none => some { A with null := true }
  | some b => (memcpy A.arr 0 b 0 (A.m * A.n)).map A.put

/-- `copy_to(double*)`, hiopMatrixDenseRowMajor.cpp:160-167. -/
def copyTo (A : DMat K) (b : Arr K) : Option (Arr K) := memcpy b 0 A.arr 0 (A.m * A.n)

/-- `new_copy`, hiopMatrixDenseRowMajor.cpp:363-368. -/
def newCopy (A : DMat K) (junk : ℕ → K) : Option (DMat K) := copyFrom (clone A junk) A

/-- `copyRowsFrom(src, num_rows, row_dest)`, hiopMatrixDenseRowMajor.cpp:169-180. -/
def copyRows (A B : DMat K) (num row : ℕ) : Option (DMat K) :=
  if num = 0 then some A
  else match A.row row with
    | none => none
    | some o => (memcpy A.arr o B.arr 0 (A.n * num)).map A.put

/-- `copyRowsFrom(src, rows_idxs, n_rows)`, hiopMatrixDenseRowMajor.cpp:182-197. The index array is
assumed to have `n_rows` entries. -/
def copyRowsIdx (A B : DMat K) (idx : ℕ → ℕ) (nrows : ℕ) : Option (DMat K) :=
  if A.n = B.n ∧ nrows ≤ B.m ∧ nrows = A.m then
    (loop (fun i a => match A.row i, B.row (idx i) with
      | some o, some s => memcpy a o B.arr s A.n
      | _, _ => none) nrows A.arr).map A.put
  else none

/-- `copyBlockFromMatrix`, hiopMatrixDenseRowMajor.cpp:200-220. -/
def copyBlock (A : DMat K) (i0 j0 : ℕ) (B : DMat K) : Option (DMat K) :=
  if i0 + B.m ≤ A.m ∧ j0 + B.n ≤ A.n then
    if B.n = 0 ∨ B.m = 0 then some A
    else (loop (fun i a => match A.row (i + i0), B.row i with
      | some o, some s => memcpy a (o + j0) B.arr s B.n
      | _, _ => none) B.m A.arr).map A.put
  else none

/-- `copyFromMatrixBlock`, hiopMatrixDenseRowMajor.cpp:222-236. -/
def copyFromBlock (A B : DMat K) (i0 j0 : ℕ) : Option (DMat K) :=
  if A.m + i0 ≤ B.m ∧ A.n + j0 ≤ B.n then
    if A.n = B.n then
      match B.row i0 with
      | none => none
      | some s => (memcpy A.arr 0 B.arr s (A.n * A.m)).map A.put
    else (loop (fun i a => match A.row i, B.row (i + i0) with
      | some o, some s => memcpy a o B.arr (s + j0) A.n
      | _, _ => none) A.m A.arr).map A.put
  else none

/-- `shiftRows`, hiopMatrixDenseRowMajor.cpp:238-278. The loop for a shift down runs from the last row
to row `shift`. -/
def shiftRows (A : DMat K) (shift : ℤ) : Option (DMat K) :=
  if shift = 0 then some A
  else if shift.natAbs = A.m then some A
  else if A.m ≤ 1 then some A
  else if A.m ≤ shift.natAbs then none
  else
    let s := shift.natAbs
    if shift < 0 then
      (loop (fun r a => match A.row r, A.row (r + s) with
        | some o, some q => memcpy a o a q A.n
        | _, _ => none) (A.m - s) A.arr).map A.put
    else
      (loop (fun k a => match A.row (A.m - 1 - k), A.row (A.m - 1 - k - s) with
        | some o, some q => memcpy a o a q A.n
        | _, _ => none) (A.m - s) A.arr).map A.put

/-- `replaceRow`, hiopMatrixDenseRowMajor.cpp:279-284. -/
def replaceRow (A : DMat K) (row : ℕ) (v : Arr K) : Option (DMat K) :=
  if row < A.m then
    match A.row row with
    | none => none
    | some o => (memcpy A.arr o v 0 (if A.n ≤ v.size then A.n else v.size)).map A.put
  else none

/-- `getRow`, hiopMatrixDenseRowMajor.cpp:286-292. -/
def getRow (A : DMat K) (row : ℕ) (v : Arr K) : Option (Arr K) :=
  if row < A.m ∧ A.n = v.size then
    match A.row row with
    | none => none
    | some o => memcpy v 0 A.arr o A.n
  else none

/-- `setToConstant`, hiopMatrixDenseRowMajor.cpp:374-389 (`setToZero` is `c = 0`): fills the
first row and copies it to the others. -/
def setToConstant (A : DMat K) (c : K) : Option (DMat K) :=
  if A.null then
    if A.m = 0 then some A else none
  else
    ((loop (fun j a => a.set j c) A.n A.arr).bind fun a =>
      loop (fun i a => match A.row (i + 1) with
        | some o => memcpy a o a 0 A.n
        | none => none) (A.m - 1) a).map A.put

/-- `timesVec(beta, y, alpha, x)`, hiopMatrixDenseRowMajor.cpp:436-491: `y = beta*y + alpha*this*x`. -/
def timesVec (A : DMat K) (beta : K) (y : Arr K) (alpha : K) (x : Arr K) : Option (Arr K) :=
  if A.m ≠ 0 ∧ A.n ≠ 0 then dgemv true A.n A.m alpha A.arr A.n x beta y
  else if A.m ≠ 0 then
    if beta ≠ 1 then dscal A.m beta y 0 else some y
  else some y

/-- `transTimesVec(beta, y, alpha, x)`, hiopMatrixDenseRowMajor.cpp:494-528. -/
def transTimesVec (A : DMat K) (beta : K) (y : Arr K) (alpha : K) (x : Arr K) : Option (Arr K) :=
  if A.m ≠ 0 ∧ A.n ≠ 0 then dgemv false A.n A.m alpha A.arr A.n x beta y
  else if A.n ≠ 0 then dscal A.n beta y 0
  else some y

/-- `timesMat_local`, hiopMatrixDenseRowMajor.cpp:578-611. -/
def timesMatLocal (A : DMat K) (beta : K) (W : DMat K) (alpha : K) (X : DMat K) : Option (DMat K) :=
  (dgemm false false X.n A.m X.m alpha X.arr X.n A.arr A.n beta W.arr X.n).map W.put

/-- `timesMat`, hiopMatrixDenseRowMajor.cpp:537-573; `mpi` tells whether the code is built with MPI
(run on one process). -/
def timesMat (mpi : Bool) (A : DMat K) (beta : K) (W : DMat K) (alpha : K) (X : DMat K) :
    Option (DMat K) :=
  if mpi then
    if W.m = A.m ∧ X.m = A.n ∧ W.n = X.n then
      if W.m = 0 ∨ X.m = 0 ∨ W.n = 0 then some W
      else timesMatLocal A beta W alpha X
    else none
  else timesMatLocal A beta W alpha X

/-- `transTimesMat`, hiopMatrixDenseRowMajor.cpp:616-641. -/
def transTimesMat (A : DMat K) (beta : K) (W : DMat K) (alpha : K) (X : DMat K) : Option (DMat K) :=
  if W.m = A.n ∧ X.m = A.m ∧ W.n = X.n then
    if W.m = 0 then some W
    else (dgemm false true X.n A.n X.m alpha X.arr X.n A.arr A.n beta W.arr W.n).map W.put
  else none

/-- `timesMatTrans` and `timesMatTrans_local`, hiopMatrixDenseRowMajor.cpp:646-702, on one process. -/
def timesMatTrans (A : DMat K) (beta : K) (W : DMat K) (alpha : K) (X : DMat K) : Option (DMat K) :=
  if W.m = 0 ∨ W.n = 0 then some W
  else if A.n = 0 then
    if beta ≠ 1 then (dscal (W.m * W.n) beta W.arr 0).map W.put else some W
  else (dgemm true false X.m A.m A.n alpha X.arr A.n A.arr A.n beta W.arr W.n).map W.put

/-- `M_[i][i] += v`. Code: hiopMatrixDenseRowMajor.cpp:713-717. -/
def addDiagAt (A : DMat K) (a : Arr K) (i : ℕ) (v : K) : Option (Arr K) :=
  match A.row i with
  | none => none
  | some o => a.add (o + i) v

/-- `addDiagonal(alpha, d)`, hiopMatrixDenseRowMajor.cpp:703-714. -/
def addDiagonal (A : DMat K) (alpha : K) (d : Arr K) : Option (DMat K) :=
  (loop (fun i a => (d.read i).bind fun v => addDiagAt A a i (alpha * v)) A.n A.arr).map A.put

/-- `addDiagonal(value)`, hiopMatrixDenseRowMajor.cpp:715-718. -/
def addDiagonalConst (A : DMat K) (v : K) : Option (DMat K) :=
  (loop (fun i a => addDiagAt A a i v) A.n A.arr).map A.put

/-- `addSubDiagonal(alpha, start, d)`, hiopMatrixDenseRowMajor.cpp:719-730. -/
def addSubDiagonal (A : DMat K) (alpha : K) (start : ℕ) (d : Arr K) : Option (DMat K) :=
  (loop (fun i a => (d.read i).bind fun v => addDiagAt A a (start + i) (alpha * v)) d.size
    A.arr).map A.put

/-- `addSubDiagonal(start_on_dest_diag, alpha, d, start_on_src_vec, num_elems)`,
hiopMatrixDenseRowMajor.cpp:735-753; `num = none` is the default `-1`. -/
def addSubDiagonalFrom (A : DMat K) (start : ℕ) (alpha : K) (d : Arr K) (src : ℕ)
    (num : Option ℕ) : Option (DMat K) :=
  let num := num.getD (d.size - src)
  if num ≤ d.size ∧ A.n = A.m ∧ start < A.m then
    (loop (fun i a => (d.read (src + i)).bind fun v => addDiagAt A a (i + start) (alpha * v))
      (min num (A.m - start)) A.arr).map A.put
  else none

/-- `addSubDiagonal(start_on_dest_diag, num_elems, c)`, hiopMatrixDenseRowMajor.cpp:755-764. -/
def addSubDiagonalConst (A : DMat K) (start num : ℕ) (c : K) : Option (DMat K) :=
  if start + num ≤ A.n ∧ A.n = A.m then
    (loop (fun i a => addDiagAt A a (i + start) c) num A.arr).map A.put
  else none

/-- `addMatrix`, hiopMatrixDenseRowMajor.cpp:766-776. -/
def addMatrix (A : DMat K) (alpha : K) (X : DMat K) : Option (DMat K) :=
  (daxpy (A.m * A.n) alpha X.arr A.arr).map A.put

/-- `transAddToSymDenseMatrixUpperTriangle`, hiopMatrixDenseRowMajor.cpp:780-798. -/
def transAddTo (A : DMat K) (r0 c0 : ℕ) (alpha : K) (W : DMat K) : Option (DMat K) :=
  if A.n + r0 ≤ W.m ∧ A.m + c0 ≤ W.n ∧ W.n = W.m then
    (loop (fun ir a => loop (fun jc a =>
      if jc + r0 ≤ ir + c0 then
        match A.row ir with
        | none => none
        | some o => (A.arr.read (o + jc)).bind fun v =>
          a.add ((jc + r0) * W.n + (ir + c0)) (alpha * v)
      else none) A.n a) A.m W.arr).map W.put
  else none

/-- `addUpperTriangleToSymDenseMatrixUpperTriangle`, hiopMatrixDenseRowMajor.cpp:811-829. -/
def addUpperTo (A : DMat K) (d0 : ℕ) (alpha : K) (W : DMat K) : Option (DMat K) :=
  if W.n = W.m ∧ A.n = A.m ∧ d0 + A.n ≤ W.n then
    (loop (fun i a => loop (fun k a =>
      let j := i + k
      if i + d0 ≤ j + d0 ∧ i + d0 < W.n ∧ j + d0 < W.m then
        match A.row i with
        | none => none
        | some o => (A.arr.read (o + j)).bind fun v =>
          a.add ((i + d0) * W.n + (j + d0)) (alpha * v)
      else none) (A.m - i) a) A.n W.arr).map W.put
  else none

/-- `max_abs_value`, hiopMatrixDenseRowMajor.cpp:832-842. -/
def maxAbs (A : DMat K) : Option K := dlange A.n A.m A.arr 0 A.n

/-- `row_max_abs_value`, hiopMatrixDenseRowMajor.cpp:844-863. -/
def rowMaxAbs (A : DMat K) (v : Arr K) : Option (Arr K) :=
  if A.m = v.size then
    loop (fun i a => (dlange 1 A.n A.arr (i * A.n) 1).bind fun w => a.set i w) A.m v
  else none

/-- `scale_row`, hiopMatrixDenseRowMajor.cpp:865-883. -/
def scaleRow (A : DMat K) (v : Arr K) (inv : Bool) : Option (DMat K) :=
  if A.m = v.size then
    (loop (fun i a => dscal A.n (if inv then 1 / v.get i else v.get i) a (i * A.n)) A.m
      A.arr).map A.put
  else none

/-- `M_[i][j] = M_[j][i]`. Code: hiopMatrixDenseRowMajor.cpp:344-353. -/
def mirrorAt (A : DMat K) (a : Arr K) (i j : ℕ) : Option (Arr K) :=
  match A.row i, A.row j with
  | some o, some s => (a.read (s + i)).bind fun v => a.set (o + j) v
  | _, _ => none

/-- `symmetrize`, hiopMatrixDenseRowMajor.cpp:912-931: the upper triangle is copied to the lower. -/
def symmetrize (A : DMat K) : Option (DMat K) :=
  if A.m = A.n then
    (loop (fun i a => loop (fun k a => mirrorAt A a (i + 1 + k) i) (A.n - (i + 1)) a) A.n
      A.arr).map A.put
  else none

/-- `overwriteUpperTriangleWithLower`, hiopMatrixDenseRowMajor.cpp:341-347. -/
def upperWithLower (A : DMat K) : Option (DMat K) :=
  (loop (fun i a => loop (fun k a => mirrorAt A a i (i + 1 + k)) (A.n - (i + 1)) a) A.m
    A.arr).map A.put

/-- `overwriteLowerTriangleWithUpper`, hiopMatrixDenseRowMajor.cpp:348-354 (row 0 has nothing below
the diagonal). -/
def lowerWithUpper (A : DMat K) : Option (DMat K) :=
  (loop (fun i a => loop (fun j a => mirrorAt A a i j) i a) A.m A.arr).map A.put

/-- `set_Hess_FR`, hiopMatrixDenseRowMajor.cpp:294-299. -/
def setHessFR (A H : DMat K) (d : Arr K) : Option (DMat K) :=
  (copyFrom A H).bind fun A => addDiagonal A 1 d

end Hiop.DenseMat
