import Verif.Gpu.Model
import Mathlib.Algebra.Order.Group.Abs

/-!
# Model of the kernels of the GPU Krylov solver

Source: `src/LinAlg/ReSolve/KrylovSolverKernels.cu`.

The threads of a block run concurrently between two barriers (`__syncthreads`), so a kernel is a
sequence of loops in the sense of Verif.Raja.Sched. The blocks of a grid share no memory but arrays of
which each block writes its own elements. `MassIPTwoVec_kernel` ends with statements of the first 32
threads that are not separated by barriers; what they may compute depends on how the device runs the
threads of a warp (`Warp`). Exact arithmetic. An `int` above `2^31 - 1` is a failure.
-/

namespace Hiop.KryKer

open Hiop.Raja Hiop.Gpu

variable {K : Type} [Field K]

/-- How the 32 threads of a warp run: one instruction at a time for all of them (devices before compute
capability 7.0), or each on its own, as CUDA specifies from compute capability 7.0 on. Code: KrylovSolverKernels.cu:120. -/
inductive Warp where
  | lockstep
  | independent
deriving DecidableEq

/-- The blocks of a grid: each has one of its outcomes, or one of them fails. Code: KrylovSolverKernels.cu:201. -/
def blocks {α β : Type} (B : ℕ) (blk : ℕ → Out α) (f : (ℕ → α) → β) : Out β := fun o =>
  (∃ c : ℕ → α, (∀ b < B, some (c b) ∈ blk b) ∧ o = some (f c)) ∨ (o = none ∧ ∃ b < B, none ∈ blk b)

/-! ## Inner products -/

/-- The memory of a block: `s_tmp1`, `s_tmp2` and its two elements of `result`, KrylovSolverKernels.cu:68-70, 140-141. -/
inductive Sh where
  | a (t : ℕ)
  | b (t : ℕ)
  | r1
  | r2
deriving DecidableEq

/-- `Tv5`, KrylovSolverKernels.cu:55. -/
def Tv5 : ℕ := 1024

/-- Thread `t` up to the first barrier, KrylovSolverKernels.cu:73-87; the block has 1024 threads. -/
def sumUp (N j : ℕ) (u1 u2 v : ℕ → K) (t : ℕ) : Prog Sh fun _ => K :=
  .wr (.a t) 0 (.wr (.b t) 0
    (gridStride 1024 N (fun nn =>
      if 2 ^ 31 ≤ N * j + nn then .fail
      else .rd (.a t) fun x => .wr (.a t) (x + u1 nn * v (N * j + nn))
        (.rd (.b t) fun y => .wr (.b t) (y + u2 nn * v (N * j + nn)) .ret)) t))

/-- `s_tmp1[t] += s_tmp1[t + w]; s_tmp2[t] += s_tmp2[t + w];`, KrylovSolverKernels.cu:93-94. -/
def addTo (w t : ℕ) : Prog Sh fun _ => K :=
  .rd (.a t) fun x => .rd (.a (t + w)) fun y => .wr (.a t) (x + y)
    (.rd (.b t) fun x => .rd (.b (t + w)) fun y => .wr (.b t) (x + y) .ret)

/-- One step with a barrier behind it, KrylovSolverKernels.cu:91-97. -/
def halfP (w : ℕ) (m : Sh → K) : Out (Sh → K) :=
  forallR Tv5 (fun t => if t < w then addTo w t else .ret) m

/-- The statements behind the last barrier, each thread on its own, KrylovSolverKernels.cu:120-142. -/
def tailP (t : ℕ) : Prog Sh fun _ => K :=
  seqP (if t < 32 then
      seqP (addTo 32 t) (seqP (addTo 16 t) (seqP (addTo 8 t) (seqP (addTo 4 t) (seqP (addTo 2 t) (addTo 1 t)))))
    else .ret)
    (if t = 0 then .rd (.a 0) fun x => .wr .r1 x (.rd (.b 0) fun y => .wr .r2 y .ret) else .ret)

/-- One pair of these statements in lockstep: all threads load before any of them stores,
KrylovSolverKernels.cu:121-122. -/
def lockAdd (w : ℕ) (m : Sh → K) : Sh → K
  | .a t => if t < 32 then m (.a t) + m (.a (t + w)) else m (.a t)
  | .b t => if t < 32 then m (.b t) + m (.b (t + w)) else m (.b t)
  | .r1 => m .r1
  | .r2 => m .r2

/-- The two elements of `result` behind the last barrier, KrylovSolverKernels.cu:120-142. -/
def lastP (wp : Warp) (m : Sh → K) : Out (K × K) :=
  match wp with
  | .lockstep =>
    let m := lockAdd 1 (lockAdd 2 (lockAdd 4 (lockAdd 8 (lockAdd 16 (lockAdd 32 m)))))
    .one (m (.a 0), m (.b 0))
  | .independent => (forallR Tv5 tailP m).andThen fun m => .one (m .r1, m .r2)

/-- Block `j` of `MassIPTwoVec_kernel`, KrylovSolverKernels.cu:57-143; `m` is what the memory holds at the start. -/
def ipBlock (wp : Warp) (N : ℕ) (u1 u2 v : ℕ → K) (m : Sh → K) (j : ℕ) : Out (K × K) :=
  (forallR Tv5 (sumUp N j u1 u2 v) m).andThen fun m => (halfP 512 m).andThen fun m =>
    (halfP 256 m).andThen fun m => (halfP 128 m).andThen fun m => (halfP 64 m).andThen (lastP wp)

/-- `mass_inner_product_two_vectors`, KrylovSolverKernels.cu:194-202: `i+1` blocks, block `j` writes
`result[j]` and `result[j+i+1]`. `sh j` is what the shared memory of block `j` holds at the start. -/
def massInner (wp : Warp) (n i : ℕ) (vec1 vec2 mvec : ℕ → K) (sh : ℕ → Sh → K) (result : ℕ → K) :
    Out (ℕ → K) :=
  blocks (i + 1) (fun j => ipBlock wp n vec1 vec2 mvec (sh j) j) fun c l =>
    if l < i + 1 then (c l).1 else if l < 2 * (i + 1) then (c (l - (i + 1))).2 else result l

/-! ## Subtracting a combination of vectors -/

/-- The memory of a block: `s_alpha` and `y_data`, KrylovSolverKernels.cu:156-166. -/
inductive Ax where
  | s (t : ℕ)
  | y (i : ℕ)
deriving DecidableEq

/-- `maxk`, KrylovSolverKernels.cu:54. -/
def maxk : ℕ := 1024

/-- `temp += x_data[j*N+i] * s_alpha[j]` for the remaining `d` values of `j`, KrylovSolverKernels.cu:163-166. -/
def comb (N i : ℕ) (x : ℕ → K) : ℕ → ℕ → K → (K → Prog Ax fun _ => K) → Prog Ax fun _ => K
  | 0, _, temp, k => k temp
  | d + 1, j, temp, k =>
    if maxk ≤ j ∨ 2 ^ 31 ≤ j * N then .fail
    else .rd (.s j) fun al => comb N i x d (j + 1) (temp + x (j * N + i) * al) k

/-- Block `b` of `massAxpy3_kernel`, KrylovSolverKernels.cu:148-169, with 384 threads. -/
def axBlock (N k : ℕ) (x alpha : ℕ → K) (m : Ax → K) (b : ℕ) : Out (Ax → K) :=
  (forallR 384 (fun t => if t < k then (if t < maxk then .wr (.s t) (alpha t) .ret else .fail) else .ret) m).andThen
    (forallR 384 fun t =>
      if b * 384 + t < N then
        comb N (b * 384 + t) x k 0 0 fun temp =>
          .rd (.y (b * 384 + t)) fun v => .wr (.y (b * 384 + t)) (v - temp) .ret
      else .ret)

/-- `mass_axpy`, KrylovSolverKernels.cu:203-206; `sh b` is what `s_alpha` of block `b` holds at the start. -/
def massAxpy (n i : ℕ) (x alpha : ℕ → K) (sh : ℕ → ℕ → K) (y : ℕ → K) : Out (ℕ → K) :=
  blocks ((n + 384 - 1) / 384)
    (fun b => axBlock n (i + 1) x alpha (fun l => match l with | .s t => sh b t | .y i => y i) b)
    fun c l => if l < n then c (l / 384) (.y l) else y l

/-! ## Row sums -/

section
variable [LinearOrder K]

/-- `matrix_row_sums`, KrylovSolverKernels.cu:171-191, 208-215: 1000 blocks of 1024 threads. Simplification: the sum
`idx + 1024000` does not overflow. -/
def rowSums (n : ℕ) (ia : ℕ → ℕ) (val : ℕ → K) (result : ℕ → K) : Out (ℕ → K) :=
  forallR (1000 * 1024)
    (fun tid => gridStride (1000 * 1024) n
      (fun idx => .wr idx ((List.range' (ia idx) (ia (idx + 1) - ia idx)).foldl (fun s i => s + |val i|) 0) .ret) tid)
    result

/-- `matrixAInfNrm`, IterativeRefinement.cpp:226-236; `cusolverSpDnrminf` is the largest absolute value, zero for no
entries. -/
def matNorm (n : ℕ) (ia : ℕ → ℕ) (val : ℕ → K) (z : ℕ → K) : Out K :=
  (rowSums n ia val z).andThen fun r => .one ((List.range n).foldl (fun s i => max s |r i|) 0)

end

end Hiop.KryKer
