import Verif.Gpu.Model
import Verif.Csr.Model

/-!
# Model of the CSR matrices on CUDA devices

Source: `src/LinAlg/hiopMatrixSparseCsrCuda.cpp`, `src/LinAlg/MatrixSparseCsrCudaKernels.cu`.

Modelled: `form_from_symbolic`, `form_from_numeric`, `form_diag_from_symbolic`, `form_diag_from_numeric`,
`addDiagonal` (both), `set_diagonal`, `extract_diagonal`, `scale_rows`, `copy_to`,
`check_csr_is_ordered`. The threads of a kernel run concurrently (Verif.Raja.Sched) in a grid
(Verif.Gpu.Model). Products, sums and transposes are calls of cuSPARSE and are not modelled. The
members are those of the host matrix, `CsrMat`; `starts` is not used.

`dbg` says whether assertions are compiled (`NDEBUG` not defined), on the host and on the device.
`index_type` is a 32 bit `int`: a sum above `2^31 - 1` is a failure, as is an access behind the end of an
array. A null pointer that an assertion does not catch is a failure of the access behind it.
-/

namespace Hiop.CsrGpu

open Hiop.Csr Hiop.Raja Hiop.Gpu Hiop.Sparse

/-! ## Kernels -/

section
variable {L : Type} {V : L → Type} [DecidableEq L]

/-- `num_blocks = (n+block_size-1)/block_size; kernel<<<num_blocks,block_size>>>(...)`,
MatrixSparseCsrCudaKernels.cu:260-261; `th T tid` is the thread `tid` of `T` threads. A grid without blocks is
rejected by the driver; the error is not looked at. -/
def launchB (bs n : ℕ) (th : ℕ → ℕ → Prog L V) (m : Mem V) : Out (Mem V) :=
  if (n + bs - 1) / bs = 0 then .one m
  else forallR ((n + bs - 1) / bs * bs) (th ((n + bs - 1) / bs * bs)) m

end

/-- `bl_sz_binary_search`, ExecSpace.hpp:251. -/
def searchBlock : ℕ := 16

/-- `bl_sz_vector_loop`, ExecSpace.hpp:252. -/
def loopBlock : ℕ := 256

/-- How the loop MatrixSparseCsrCudaKernels.cu:85-99 ends: at `break`, at its condition, or with an
overflow of `R+L` or an access behind the array. -/
inductive Hit where
  | at (p : ℕ)
  | absent
  | bad
deriving DecidableEq

/-- The do-while loop MatrixSparseCsrCudaKernels.cu:85-99 (and 127-141, 169-183, 209-220): `E` is `R+1`, so that
`R=midpoint-1` is `E := mid`. The division rounds towards zero. -/
def search (nnz : ℕ) (col : ℕ → ℕ) (row L E : ℕ) : Hit :=
  if 2 ^ 31 < L + E then .bad
  else if nnz ≤ (L + E - 1) / 2 then .bad
  else if row < col ((L + E - 1) / 2) then
    if _h : L < (L + E - 1) / 2 then search nnz col row L ((L + E - 1) / 2) else .absent
  else if col ((L + E - 1) / 2) < row then
    if _h : (L + E - 1) / 2 + 1 < E then search nnz col row ((L + E - 1) / 2 + 1) E else .absent
  else .at ((L + E - 1) / 2)
termination_by E - L
decreasing_by all_goals omega

variable {K : Type} [Field K] [LinearOrder K]

/-- The assertions at the start of a row, MatrixSparseCsrCudaKernels.cu:78-80. -/
def rowOk (A : CsrMat K) (row : ℕ) : Prop :=
  A.ptr row < A.nnz ∧ A.ptr (row + 1) ≤ A.nnz ∧ A.ptr row < A.ptr (row + 1)

instance (A : CsrMat K) (row : ℕ) : Decidable (rowOk A row) := by unfold rowOk; infer_instance

/-- One row of `csr_add_vec_to_diag`, `csr_add_val_to_diag` and `csr_set_diag_to_val`,
MatrixSparseCsrCudaKernels.cu:75-104, 117-146, 159-187: `f row` is applied to the diagonal entry. -/
def diagRow (dbg : Bool) (A : CsrMat K) (f : ℕ → K → K) (row : ℕ) : Prog ℕ fun _ => K :=
  assertP (dbg = true → rowOk A row)
    (match search A.nnz A.col row (A.ptr row) (A.ptr (row + 1)) with
    | .at p => .rd p fun v => .wr p (f row v) .ret
    | .absent => assertP (dbg = false) .ret
    | .bad => .fail)

/-- The three kernels, MatrixSparseCsrCudaKernels.cu:70-188, 257-283. -/
def diagKernel (dbg : Bool) (A : CsrMat K) (f : ℕ → K → K) : Out (ℕ → K) :=
  launchB searchBlock A.nrows (fun T tid => gridStride T A.nrows (diagRow dbg A f) tid) A.val

/-- `addDiagonal(alpha, D)`, hiopMatrixSparseCsrCuda.cpp:297-311; `m` is the size of `D`. The new values. -/
def addDiagG (dbg : Bool) (A : CsrMat K) (alpha : K) (m : ℕ) (D : ℕ → K) : Out (ℕ → K) :=
  .check (dbg = true → A.nrows = m ∧ A.nrows = A.ncols)
    (diagKernel dbg A fun i v => v + alpha * D i)

/-- `addDiagonal(value)`, hiopMatrixSparseCsrCuda.cpp:313-323. -/
def addDiagCG (dbg : Bool) (A : CsrMat K) (c : K) : Out (ℕ → K) :=
  .check (dbg = true → A.nrows = A.ncols) (diagKernel dbg A fun _ v => v + c)

/-- `set_diagonal`, hiopMatrixSparseCsrCuda.cpp:1242-1252. -/
def setDiagG (dbg : Bool) (A : CsrMat K) (c : K) : Out (ℕ → K) :=
  .check (A.ready = true) (diagKernel dbg A fun _ _ => c)

/-- One row of `csr_copy_diag_to_vec`, MatrixSparseCsrCudaKernels.cu:201-221; `sz` is the size of `diag_out`. -/
def extractRow (dbg : Bool) (A : CsrMat K) (sz row : ℕ) : Prog ℕ fun _ => K :=
  assertP (dbg = true → rowOk A row)
    (assertP (row < sz)
      (.wr row 0
        (match search A.nnz A.col row (A.ptr row) (A.ptr (row + 1)) with
        | .at p => .wr row (A.val p) .ret
        | .absent => .ret
        | .bad => .fail)))

/-- `extract_diagonal`, hiopMatrixSparseCsrCuda.cpp:1254-1265; MatrixSparseCsrCudaKernels.cu:191-222, 285-296. The size of
the output vector is not looked at. -/
def extractDiagG (dbg : Bool) (A : CsrMat K) (sz : ℕ) (out : ℕ → K) : Out (ℕ → K) :=
  launchB searchBlock A.nrows (fun T tid => gridStride T A.nrows (extractRow dbg A sz) tid) out

/-- One row of `csr_scalerows`, MatrixSparseCsrCudaKernels.cu:246-250. -/
def scaleRow (A : CsrMat K) (D : ℕ → K) (i : ℕ) : Prog ℕ fun _ => K :=
  (rowIdx A i).foldr (fun p k => .rd p fun v => .wr p (v * D i) k) .ret

/-- `scale_rows`, hiopMatrixSparseCsrCuda.cpp:1058-1072; MatrixSparseCsrCudaKernels.cu:240-251, 304-315. -/
def scaleRowsG (dbg : Bool) (A : CsrMat K) (m : ℕ) (D : ℕ → K) : Out (ℕ → K) :=
  .check (dbg = true → A.nrows = m)
    (launchB loopBlock A.nrows (fun T tid => gridStride T A.nrows (scaleRow A D) tid) A.val)

/-! ## Forming matrices -/

/-- `dealloc(); …; alloc();` when the shape differs, hiopMatrixSparseCsrCuda.cpp:161-206, 887-895: `cudaMalloc` of zero bytes
yields a null pointer. -/
def reshapeG (dbg : Bool) (A : CsrMat K) (r c z : ℕ) (g : Garbage K) : Option (CsrMat K) :=
  if r ≠ A.nrows ∨ c ≠ A.ncols ∨ z ≠ A.nnz then
    if dbg = true ∧ z = 0 then none else some (fresh r c z g)
  else some A

/-- `cusparseXcoo2csr` as documented: for row indices in ascending order, the compressed row pointers;
otherwise its result is not specified. Called in hiopMatrixSparseCsrCuda.cpp:913-918. -/
def coo2csr (junk old : ℕ → ℕ) (m : ℕ) (rows : List ℕ) : ℕ → ℕ := fun i =>
  if i ≤ m then if rows.Pairwise (· ≤ ·) then rows.countP (· < i) else junk i else old i

/-- `form_from_symbolic`, hiopMatrixSparseCsrCuda.cpp:885-925. -/
def formSymbolicG (dbg : Bool) (A : CsrMat K) (m n : ℕ) (es : List (Ent K)) (g : Garbage K)
    (junk : ℕ → ℕ) : Option (CsrMat K) :=
  (reshapeG dbg A m n es.length g).bind fun A =>
  if A.nnz = 0 then some A
  else if A.ready = false then none
  else some { A with
    ptr := coo2csr junk A.ptr m (es.map Ent.r)
    col := fun k => (es[k]?.map Ent.c).getD (A.col k) }

/-- `form_from_numeric`, hiopMatrixSparseCsrCuda.cpp:927-935. -/
def formNumericG (dbg : Bool) (A : CsrMat K) (m n : ℕ) (es : List (Ent K)) : Option (CsrMat K) :=
  if (dbg = true → A.nrows = m ∧ A.ncols = n ∧ A.nnz = es.length) ∧ A.ready = true then
    some { A with val := copyVals A.nnz (valOf es) A.val }
  else none

/-- The elements written by `csr_form_diag_symbolic`: `irowptr` and `jcolind`. Code: MatrixSparseCsrCudaKernels.cu:226. -/
inductive DLoc where
  | ptr (i : ℕ)
  | col (i : ℕ)
deriving DecidableEq

/-- A thread of `csr_form_diag_symbolic`, MatrixSparseCsrCudaKernels.cu:226-238. -/
def diagThread (n T tid : ℕ) : Prog DLoc fun _ => ℕ :=
  seqP (gridStride T n (fun i => .wr (.ptr i) i (.wr (.col i) i .ret)) tid)
    (if tid = T - 1 then .wr (.ptr n) n .ret else .ret)

/-- `form_diag_from_symbolic`, hiopMatrixSparseCsrCuda.cpp:1018-1034; MatrixSparseCsrCudaKernels.cu:225-238, 298-302. -/
def diagSymbolicG (dbg : Bool) (A : CsrMat K) (m : ℕ) (g : Garbage K) : Out (CsrMat K) :=
  match reshapeG dbg A m m m g with
  | none => .abort
  | some A =>
    .check (dbg = true → A.ready = true)
      (Out.andThen (launchB loopBlock A.nrows (diagThread A.nrows)
          (fun l : DLoc => match l with | .ptr i => A.ptr i | .col i => A.col i))
        fun w => .one { A with ptr := fun i => w (.ptr i), col := fun i => w (.col i) })

/-- `form_diag_from_numeric`, hiopMatrixSparseCsrCuda.cpp:1036-1048. -/
def diagNumericG (dbg : Bool) (A : CsrMat K) (m : ℕ) (D : ℕ → K) : Option (CsrMat K) :=
  if (dbg = true → m = A.ncols ∧ m = A.nrows ∧ m = A.nnz) ∧ A.ready = true then
    some { A with val := copyVals A.nrows D A.val }
  else none

/-- `check_csr_is_ordered`, hiopMatrixSparseCsrCuda.cpp:1267-1272, with `copy_to` to a host matrix,
hiopMatrixSparseCsrCuda.cpp:430-439, and the check there. -/
def orderedG (A : CsrMat K) (g : Garbage K) : Bool :=
  ordered { fresh A.nrows A.ncols A.nnz g with
    ptr := fun i => if i < 1 + A.nrows then A.ptr i else g.ptr i
    col := fun k => if k < A.nnz then A.col k else g.col k
    val := copyVals A.nnz A.val g.val }

end Hiop.CsrGpu
