import Verif.Raja.VecModel

/-!
# Model of the CUDA and HIP vectors

Source: `src/LinAlg/hiopVectorCuda.cpp`, `src/LinAlg/VectorCudaKernels.cu`,
`src/LinAlg/hiopVectorIntCuda.cpp`, `src/Utils/MathKernelsCuda.cu`. The HIP files
(`hiopVectorHip.cpp`, `VectorHipKernels.cpp`, `hiopVectorIntHip.cpp`, `MathKernelsHip.cpp`) differ from
them only in the names of the library calls, so the model is a model of both; the lines of the
HIP files follow those of the CUDA files.

A kernel is a grid of threads that run concurrently (Verif.Raja.Sched); every thread runs a loop over
the indexes `tid`, `tid + num_threads`, …. The data of a vector of local size `n` are the first `n`
elements of an array. Launches on the default stream run one after the other, and the copies that
follow wait for them. Thrust transforms touch every index once in any order, Thrust reductions combine
in any order, the cuBLAS routines compute what their names say. Exact arithmetic, one MPI rank.
Assertions under `HIOP_DEEPCHECKS` are not modelled, the others are. Reading the element behind the
end of an array is a failure.
-/

namespace Hiop.Gpu

open Hiop.Vec Hiop.Raja Function

/-! ## Kernels -/

section
variable {L : Type} {V : L → Type}

/-- Statements one after the other, in one thread. No counterpart in the code: used only to state and run the model. -/
def seqP : Prog L V → Prog L V → Prog L V
  | .ret, q => q
  | .fail, _ => .fail
  | .rd l k, q => .rd l fun v => seqP (k v) q
  | .wr l v k, q => .wr l v (seqP k q)
  | .rmw l f k, q => .rmw l f (seqP k q)

/-- `for(int i = tid; i < n; i += num_threads)`, as in VectorCudaKernels.cu:214-221 and all other
kernels; `T` is `num_threads`. HIP: VectorHipKernels.cpp:214-221. -/
def gridStride (T n : ℕ) (body : ℕ → Prog L V) (i : ℕ) : Prog L V :=
  if _h : i < n ∧ 0 < T then seqP (body i) (gridStride T n body (i + T)) else .ret
  termination_by n - i

/-- `constexpr int block_size=256`, VectorCudaKernels.cu:648. HIP: VectorHipKernels.cpp:643. -/
def blockSize : ℕ := 256

/-- `num_blocks`, VectorCudaKernels.cu:656 and all other launches. HIP: VectorHipKernels.cpp:651. -/
def numBlocks (n : ℕ) : ℕ := (n + blockSize - 1) / blockSize

/-- `kernel<<<num_blocks,block_size>>>(...)` with a grid computed from `ng` and a loop up to `n`. A grid
without blocks is rejected by the driver; the error is not looked at and nothing is executed. Code: VectorCudaKernels.cu:648-657.
HIP: VectorHipKernels.cpp:643-652. -/
def launchG [DecidableEq L] (ng n : ℕ) (body : ℕ → Prog L V) (m : Mem V) : Out (Mem V) :=
  if numBlocks ng = 0 then .one m
  else forallR (numBlocks ng * blockSize) (gridStride (numBlocks ng * blockSize) n body) m

/-- The usual launch: grid and loop have the same bound. Code: VectorCudaKernels.cu:648-657.
HIP: VectorHipKernels.cpp:643-652. -/
def launch [DecidableEq L] (n : ℕ) (body : ℕ → Prog L V) (m : Mem V) : Out (Mem V) :=
  launchG n n body m

/-- `thrust::transform` and `thrust::fill` in place, VectorCudaKernels.cu:920-924, 954-965.
HIP: VectorHipKernels.cpp:915-919, 949-960. -/
def transform [DecidableEq L] (n : ℕ) (body : ℕ → Prog L V) (m : Mem V) : Out (Mem V) :=
  forallR n body m

end

variable {K : Type} [Field K] [LinearOrder K]

/-! ## Element-wise operations -/

/-- `setToZero`, `setToConstant`, hiopVectorCuda.cpp:140-149; VectorCudaKernels.cu:920-924.
HIP: hiopVectorHip.cpp:144-153; VectorHipKernels.cpp:915-919. -/
def setToConstantG (n : ℕ) (c : K) (x : ℕ → K) : Out (ℕ → K) :=
  transform n (fun i => .wr i c .ret) x

/-- `componentMult`, hiopVectorCuda.cpp:487-491; VectorCudaKernels.cu:954-965.
HIP: hiopVectorHip.cpp:491-495; VectorHipKernels.cpp:949-960. -/
def componentMultG (n : ℕ) (v : ℕ → K) (x : ℕ → K) : Out (ℕ → K) :=
  transform n (fun i => .rd i fun d => .wr i (d * v i) .ret) x

/-- `setToConstant_w_patternSelect`, hiopVectorCuda.cpp:159-164. HIP: hiopVectorHip.cpp:163-168. -/
def setToConstantSelG (n : ℕ) (c : K) (sel : ℕ → K) (x : ℕ → K) : Out (ℕ → K) :=
  (setToConstantG n c x).andThen (componentMultG n sel)

/-- `copyFrom`, hiopVectorCuda.cpp:167-182. HIP: hiopVectorHip.cpp:171-186. -/
def copyFromG (n : ℕ) (v : ℕ → K) (x : ℕ → K) : Out (ℕ → K) :=
  transform n (fun i => .wr i (v i) .ret) x

/-- `copy_from_w_pattern`, hiopVectorCuda.cpp:198-202. HIP: hiopVectorHip.cpp:202-206. -/
def copyFromSelG (n : ℕ) (v sel : ℕ → K) (x : ℕ → K) : Out (ℕ → K) :=
  (copyFromG n v x).andThen (componentMultG n sel)

/-- `copy_from_indexes`, hiopVectorCuda.cpp:234-251; VectorCudaKernels.cu:254-261, 651-658. The index
is not checked; a load outside of the source array of size `nv` is a failure.
HIP: hiopVectorHip.cpp:237-254; VectorHipKernels.cpp:254-261, 646-653. -/
def copyFromIndexesG (n nv : ℕ) (v : ℕ → K) (idx : ℕ → ℤ) (x : ℕ → K) : Out (ℕ → K) :=
  launch n (fun i => assertP (0 ≤ idx i ∧ idx i < nv) (.wr i (v (idx i).toNat) .ret)) x

/-- `componentDiv`, hiopVectorCuda.cpp:494-498; VectorCudaKernels.cu:968-979.
HIP: hiopVectorHip.cpp:498-502; VectorHipKernels.cpp:963-974. -/
def componentDivG (n : ℕ) (v : ℕ → K) (x : ℕ → K) : Out (ℕ → K) :=
  transform n (fun i => .rd i fun d => .wr i (d / v i) .ret) x

/-- `componentDiv_w_selectPattern`, hiopVectorCuda.cpp:504-508; VectorCudaKernels.cu:324-336.
HIP: hiopVectorHip.cpp:508-512; VectorHipKernels.cpp:320-331. -/
def componentDivSelG (n : ℕ) (v sel : ℕ → K) (x : ℕ → K) : Out (ℕ → K) :=
  launch n (fun i => if sel i = 1 then .rd i fun d => .wr i (d / v i) .ret else .wr i 0 .ret) x

/-- `component_min(constant)`, hiopVectorCuda.cpp:511-514; VectorCudaKernels.cu:214-221.
HIP: hiopVectorHip.cpp:515-518; VectorHipKernels.cpp:214-221. -/
def componentMinCG (n : ℕ) (c : K) (x : ℕ → K) : Out (ℕ → K) :=
  launch n (fun i => .rd i fun d =>
    if d < c then .rd i fun d => .wr i d .ret else .wr i c .ret) x

/-- `component_min(vector)`, hiopVectorCuda.cpp:517-522; VectorCudaKernels.cu:224-231.
HIP: hiopVectorHip.cpp:521-526; VectorHipKernels.cpp:224-231. -/
def componentMinG (n : ℕ) (v : ℕ → K) (x : ℕ → K) : Out (ℕ → K) :=
  launch n (fun i => .rd i fun d =>
    if d < v i then .rd i fun d => .wr i d .ret else .wr i (v i) .ret) x

/-- `component_max(constant)`, hiopVectorCuda.cpp:525-528; VectorCudaKernels.cu:234-241.
HIP: hiopVectorHip.cpp:529-532; VectorHipKernels.cpp:234-241. -/
def componentMaxCG (n : ℕ) (c : K) (x : ℕ → K) : Out (ℕ → K) :=
  launch n (fun i => .rd i fun d =>
    if d > c then .rd i fun d => .wr i d .ret else .wr i c .ret) x

/-- `component_max(vector)`, hiopVectorCuda.cpp:531-538; VectorCudaKernels.cu:244-251.
HIP: hiopVectorHip.cpp:535-542; VectorHipKernels.cpp:244-251. -/
def componentMaxG (n : ℕ) (v : ℕ → K) (x : ℕ → K) : Out (ℕ → K) :=
  launch n (fun i => .rd i fun d =>
    if d > v i then .rd i fun d => .wr i d .ret else .wr i (v i) .ret) x

/-- `component_abs`, hiopVectorCuda.cpp:541-544; VectorCudaKernels.cu:982-990.
HIP: hiopVectorHip.cpp:545-548; VectorHipKernels.cpp:977-985. -/
def componentAbsG (n : ℕ) (x : ℕ → K) : Out (ℕ → K) :=
  transform n (fun i => .rd i fun d => .wr i |d| .ret) x

/-- `component_sgn`, hiopVectorCuda.cpp:547-550; VectorCudaKernels.cu:121-130, 993-1001.
HIP: hiopVectorHip.cpp:551-554; VectorHipKernels.cpp:121-130, 988-996. -/
def componentSgnG (n : ℕ) (x : ℕ → K) : Out (ℕ → K) :=
  transform n (fun i => .rd i fun d =>
    .wr i ((if 0 < d then 1 else 0) - (if d < 0 then 1 else 0)) .ret) x

/-- `component_sqrt`, hiopVectorCuda.cpp:553-556; VectorCudaKernels.cu:1004-1012.
HIP: hiopVectorHip.cpp:557-560; VectorHipKernels.cpp:999-1007. -/
def componentSqrtG (sqrt : K → K) (n : ℕ) (x : ℕ → K) : Out (ℕ → K) :=
  transform n (fun i => .rd i fun d => .wr i (sqrt d) .ret) x

/-- `scale`, hiopVectorCuda.cpp:559-564 (`cublasDscal`). HIP: hiopVectorHip.cpp:563-568. -/
def scaleG (n : ℕ) (c : K) (x : ℕ → K) : Out (ℕ → K) :=
  transform n (fun i => .rd i fun d => .wr i (c * d) .ret) x

/-- `axpy`, hiopVectorCuda.cpp:567-572 (`cublasDaxpy`). HIP: hiopVectorHip.cpp:571-576. -/
def axpyG (n : ℕ) (a : K) (v : ℕ → K) (x : ℕ → K) : Out (ℕ → K) :=
  transform n (fun i => .rd i fun d => .wr i (a * v i + d) .ret) x

/-- `axpy_w_pattern`, hiopVectorCuda.cpp:575-579. HIP: hiopVectorHip.cpp:579-583. -/
def axpySelG (n : ℕ) (a : K) (v sel : ℕ → K) (x : ℕ → K) : Out (ℕ → K) :=
  (axpyG n a v x).andThen (componentMultG n sel)

/-- `axpy` with indexes, hiopVectorCuda.cpp:582-593; VectorCudaKernels.cu:264-272, 697-705. `ni` is the
size of the index vector and of `v`; the kernel runs over the size of `this`.
HIP: hiopVectorHip.cpp:586-597; VectorHipKernels.cpp:264-272, 692-700. -/
def axpyIdxG (n ni : ℕ) (a : K) (v : ℕ → K) (idx : ℕ → ℕ) (y : ℕ → K) : Out (ℕ → K) :=
  .check (ni ≤ n) <| launch n (fun i => assertP (i < ni) (assertP (idx i < n)
    (.rd (idx i) fun d => .wr (idx i) (a * v i + d) .ret))) y

/-- `axzpy`, hiopVectorCuda.cpp:596-607; VectorCudaKernels.cu:275-283.
HIP: hiopVectorHip.cpp:600-611; VectorHipKernels.cpp:275-282. -/
def axzpyG (n : ℕ) (a : K) (x z : ℕ → K) (y : ℕ → K) : Out (ℕ → K) :=
  launch n (fun i => .rd i fun d => .wr i (a * x i * z i + d) .ret) y

/-- `axdzpy`, hiopVectorCuda.cpp:610-621; VectorCudaKernels.cu:286-294.
HIP: hiopVectorHip.cpp:614-625; VectorHipKernels.cpp:285-292. -/
def axdzpyG (n : ℕ) (a : K) (x z : ℕ → K) (y : ℕ → K) : Out (ℕ → K) :=
  launch n (fun i => .rd i fun d => .wr i (a * x i / z i + d) .ret) y

/-- `axdzpy_w_pattern`, hiopVectorCuda.cpp:624-639; VectorCudaKernels.cu:297-307.
HIP: hiopVectorHip.cpp:628-643; VectorHipKernels.cpp:295-304. -/
def axdzpySelG (n : ℕ) (a : K) (x z sel : ℕ → K) (y : ℕ → K) : Out (ℕ → K) :=
  launch n (fun i => if sel i = 1 then .rd i fun d => .wr i (a * x i / z i + d) .ret else .ret) y

/-- `addConstant`, hiopVectorCuda.cpp:642-645; VectorCudaKernels.cu:339-346.
HIP: hiopVectorHip.cpp:646-649; VectorHipKernels.cpp:334-341. -/
def addConstantG (n : ℕ) (c : K) (x : ℕ → K) : Out (ℕ → K) :=
  launch n (fun i => .rd i fun d => .wr i (d + c) .ret) x

/-- `addConstant_w_patternSelect`, hiopVectorCuda.cpp:648-654; VectorCudaKernels.cu:349-356.
HIP: hiopVectorHip.cpp:652-658; VectorHipKernels.cpp:344-351. -/
def addConstantSelG (n : ℕ) (c : K) (sel : ℕ → K) (x : ℕ → K) : Out (ℕ → K) :=
  launch n (fun i => .rd i fun d => .wr i (d + c * sel i) .ret) x

/-- `negate`, hiopVectorCuda.cpp:675-678; VectorCudaKernels.cu:1015-1019.
HIP: hiopVectorHip.cpp:679-682; VectorHipKernels.cpp:1010-1014. -/
def negateG (n : ℕ) (x : ℕ → K) : Out (ℕ → K) :=
  transform n (fun i => .rd i fun d => .wr i (-d) .ret) x

/-- `invert`, hiopVectorCuda.cpp:681-684; VectorCudaKernels.cu:359-366.
HIP: hiopVectorHip.cpp:685-688; VectorHipKernels.cpp:354-361. -/
def invertG (n : ℕ) (x : ℕ → K) : Out (ℕ → K) :=
  launch n (fun i => .rd i fun d => .wr i (1 / d) .ret) x

/-- `addLogBarrierGrad`, hiopVectorCuda.cpp:696-709; VectorCudaKernels.cu:310-320.
HIP: hiopVectorHip.cpp:700-713; VectorHipKernels.cpp:307-316. -/
def addLogBarrierGradG (n : ℕ) (a : K) (v sel : ℕ → K) (x : ℕ → K) : Out (ℕ → K) :=
  launch n (fun i => if sel i = 1 then .rd i fun d => .wr i (a / v i + d) .ret else .ret) x

/-- `addLinearDampingTerm`, hiopVectorCuda.cpp:738-754; VectorCudaKernels.cu:386-393.
HIP: hiopVectorHip.cpp:742-758; VectorHipKernels.cpp:381-388. -/
def addLinearDampingTermG (n : ℕ) (ixl ixr : ℕ → K) (alpha ct : K) (x : ℕ → K) : Out (ℕ → K) :=
  launch n (fun i => .rd i fun d => .wr i (alpha * d + ct * (ixl i - ixr i)) .ret) x

/-- `selectPattern`, hiopVectorCuda.cpp:903-914; VectorCudaKernels.cu:416-425.
HIP: hiopVectorHip.cpp:907-918; VectorHipKernels.cpp:411-420. -/
def selectPatternG (n : ℕ) (sel : ℕ → K) (x : ℕ → K) : Out (ℕ → K) :=
  launch n (fun i => if sel i = 0 then .wr i 0 .ret else .ret) x

/-- `adjustDuals_plh`, hiopVectorCuda.cpp:938-952; VectorCudaKernels.cu:530-560.
HIP: hiopVectorHip.cpp:942-956; VectorHipKernels.cpp:525-555. -/
def adjustDualsG (n : ℕ) (x ix : ℕ → K) (mu kappa : K) (z : ℕ → K) : Out (ℕ → K) :=
  launch n (fun i =>
    if ix i = 1 then
      let a0 := mu / x i
      let b := a0 / kappa
      let a := a0 * kappa
      .rd i fun zi =>
        if zi < b then .wr i b .ret
        else if a ≤ b then .wr i b .ret
        else .rd i fun zi => if a < zi then .wr i a .ret else .ret
    else .ret) z

/-- `set_array_from_to` with a constant, hiopVectorCuda.cpp:1068-1082; VectorCudaKernels.cu:578-589,
909-917. The array is not null; the assertion also asks that the value is not zero.
HIP: hiopVectorHip.cpp:1072-1086; VectorHipKernels.cpp:573-584. -/
def setArrayConstG (n start stop c : ℕ) (arr : ℕ → ℕ) : Out (ℕ → ℕ) :=
  .check (c ≠ 0) <| .check (stop ≤ n ∧ start ≤ stop) <|
    if stop - start = 0 then .one arr
    else launchG n (min n (stop - start)) (fun i => .wr (start + i) c .ret) arr

/-- `set_array_from_to` with a source array, hiopVectorCuda.cpp:1050-1065;
VectorCudaKernels.cu:563-575, 897-906. HIP: hiopVectorHip.cpp:1054-1069; VectorHipKernels.cpp:558-570, 892-901. -/
def setArrayFromG (n start stop : ℕ) (src : ℕ → ℕ) (startSrc : ℕ) (arr : ℕ → ℕ) : Out (ℕ → ℕ) :=
  .check (stop ≤ n ∧ start ≤ stop) <|
    if stop - start = 0 then .one arr
    else launchG n (min n (stop - start))
      (fun i => .wr (start + i) (src (startSrc + i)) .ret) arr

/-! ## Reductions -/

/-- `thrust::reduce` and `thrust::transform_reduce` with an initial value and `plus`,
VectorCudaKernels.cu:940-951, 1046-1051. HIP: VectorHipKernels.cpp:935-946, 1041-1046. -/
def sumR {α : Type} [Add α] [Zero α] (n : ℕ) (f : ℕ → α) : Set α :=
  {r | Combines (· + ·) 0 (0 :: (List.range n).map f) r}

/-- The value `thrust::min_element` points to. On an empty range that is the element behind the end of
the array. Code: VectorCudaKernels.cu:1079, VectorCudaKernels.cu:1113.
HIP: VectorHipKernels.cpp:1074; VectorHipKernels.cpp:1108. -/
def minElem (n : ℕ) (f : ℕ → K) : Out K :=
  if n = 0 then .abort else .ofSet {r | Combines min (f 0) ((List.range n).map f) r}

/-- A temporary array filled by a kernel with the value `f i` at index `i`; `junk` is its initial
content. Code: VectorCudaKernels.cu:648-657. HIP: VectorHipKernels.cpp:643-652. -/
def tempG {α : Type} (n : ℕ) (f : ℕ → α) (junk : ℕ → α) : Out (ℕ → α) :=
  launch n (fun i => .wr i (f i) .ret) junk

/-- `dotProductWith`, hiopVectorCuda.cpp:657-672 (`cublasDdot`). HIP: hiopVectorHip.cpp:661-676. -/
def dotG (n : ℕ) (x v : ℕ → K) : Set K := sumR n fun i => v i * x i

/-- `twonorm`, hiopVectorCuda.cpp:430-446 (`cublasDnrm2`). HIP: hiopVectorHip.cpp:434-450. -/
def twonormG (sqrt : K → K) (n : ℕ) (x : ℕ → K) : Set K :=
  if 0 < n then sqrt '' sumR n fun i => x i * x i else {0}

/-- `infnorm_local`, hiopVectorCuda.cpp:463-466; VectorCudaKernels.cu:927-937.
HIP: hiopVectorHip.cpp:467-470; VectorHipKernels.cpp:922-932. -/
def infnormG (n : ℕ) (x : ℕ → K) : Set K :=
  {r | Combines max 0 (0 :: (List.range n).map fun i => |x i|) r}

/-- `onenorm_local`, hiopVectorCuda.cpp:481-484; VectorCudaKernels.cu:940-951.
HIP: hiopVectorHip.cpp:485-488; VectorHipKernels.cpp:935-946. -/
def onenormG (n : ℕ) (x : ℕ → K) : Set K := sumR n fun i => |x i|

/-- `sum_local`, hiopVectorCuda.cpp:712-715; VectorCudaKernels.cu:1046-1051.
HIP: hiopVectorHip.cpp:716-719; VectorHipKernels.cpp:1041-1046. -/
def sumG (n : ℕ) (x : ℕ → K) : Set K := sumR n x

/-- `logBarrier_local`, hiopVectorCuda.cpp:687-693; VectorCudaKernels.cu:144-156, 1022-1043.
HIP: hiopVectorHip.cpp:691-697; VectorHipKernels.cpp:144-156, 1017-1038. -/
def logBarrierG (log : K → K) (n : ℕ) (x sel : ℕ → K) : Set K :=
  sumR n fun i => if x i * sel i > 0 then log (x i * sel i) else 0

/-- `linearDampingTerm_local`, hiopVectorCuda.cpp:718-732; VectorCudaKernels.cu:369-380, 1054-1073.
HIP: hiopVectorHip.cpp:722-736; VectorHipKernels.cpp:364-375, 1049-1068. -/
def linearDampingTermG (n : ℕ) (junk x ixl ixr : ℕ → K) (mu kappad : K) : Out K :=
  (tempG n (fun i => if ixl i = 1 ∧ ixr i = 0 then x i else 0) junk).andThen fun t =>
    .ofSet ((fun s => s * mu * kappad) '' sumR n t)

/-- `min`, hiopVectorCuda.cpp:795-805; VectorCudaKernels.cu:1076-1089.
HIP: hiopVectorHip.cpp:799-809; VectorHipKernels.cpp:1071-1084. -/
def minAllG (n : ℕ) (x : ℕ → K) : Out K := minElem n x

/-- `min_w_pattern`, hiopVectorCuda.cpp:808-823; VectorCudaKernels.cu:406-413, 1104-1126.
HIP: hiopVectorHip.cpp:812-827; VectorHipKernels.cpp:401-408, 1099-1121. -/
def minSelG (n : ℕ) (junk : ℕ → K) (dblMax : K) (x sel : ℕ → K) : Out K :=
  (tempG n (fun i => if sel i = 1 then x i else dblMax) junk).andThen (minElem n)

/-- `allPositive`, hiopVectorCuda.cpp:757-769. HIP: hiopVectorHip.cpp:761-773. -/
def allPositiveG (n : ℕ) (x : ℕ → K) : Out Bool :=
  (minElem n x).andThen fun m => .one (decide (m > 0))

/-- `allPositive_w_patternSelect`, hiopVectorCuda.cpp:772-792; VectorCudaKernels.cu:396-403,
1092-1101: the number of selected positive elements is compared with the number of all elements. The
temporary array holds ones and zeros. HIP: hiopVectorHip.cpp:776-796; VectorHipKernels.cpp:391-398. -/
def allPositiveSelG (n : ℕ) (junk : ℕ → ℕ) (x sel : ℕ → K) : Out Bool :=
  (tempG n (fun i => if sel i = 1 ∧ x i > 0 then 1 else 0) junk).andThen fun t =>
    .ofSet ((fun s : ℕ => decide (s = n)) '' sumR n t)

/-- `fractionToTheBdry_local`, hiopVectorCuda.cpp:866-880; VectorCudaKernels.cu:483-494, 1158-1171.
HIP: hiopVectorHip.cpp:870-884; VectorHipKernels.cpp:478-489, 1153-1166. -/
def fractionToBdryG (n : ℕ) (junk x d : ℕ → K) (tau : K) : Out K :=
  (tempG n (fun i => if d i ≥ 0 then 1 else -tau * x i / d i) junk).andThen (minElem n)

/-- `fractionToTheBdry_w_pattern_local`, hiopVectorCuda.cpp:883-900; VectorCudaKernels.cu:497-513,
1174-1189. HIP: hiopVectorHip.cpp:887-904; VectorHipKernels.cpp:492-508. -/
def fractionToBdrySelG (n : ℕ) (junk x d : ℕ → K) (tau : K) (sel : ℕ → K) : Out K :=
  (tempG n (fun i => if d i ≥ 0 ∨ sel i = 0 then 1 else -tau * x i / d i) junk).andThen (minElem n)

/-- `matchesPattern`, hiopVectorCuda.cpp:917-935; VectorCudaKernels.cu:516-527, 1192-1204.
HIP: hiopVectorHip.cpp:921-939; VectorHipKernels.cpp:511-522, 1187-1199. -/
def matchesPatternG (n : ℕ) (junk : ℕ → ℕ) (x sel : ℕ → K) : Out Bool :=
  (tempG n (fun i => if sel i = 0 ∧ x i ≠ 0 then 0 else 1) junk).andThen fun t =>
    .one ((List.range n).all fun i => t i != 0)

/-- `is_zero`, hiopVectorCuda.cpp:955-958; VectorCudaKernels.cu:1207-1214.
HIP: hiopVectorHip.cpp:959-962; VectorHipKernels.cpp:1202-1209. -/
def isZeroG (n : ℕ) (x : ℕ → K) : Bool := (List.range n).all fun i => decide (x i = 0)

/-- `isnan_local`, `isinf_local`, hiopVectorCuda.cpp:961-976; VectorCudaKernels.cu:1217-1234.
HIP: hiopVectorHip.cpp:965-980; VectorHipKernels.cpp:1212-1229. -/
def anyG (bad : K → Bool) (n : ℕ) (x : ℕ → K) : Bool := (List.range n).any fun i => bad (x i)

/-- `isfinite_local`, hiopVectorCuda.cpp:979-982; VectorCudaKernels.cu:1237-1244.
HIP: hiopVectorHip.cpp:983-986; VectorHipKernels.cpp:1232-1239. -/
def isFiniteG (fin : K → Bool) (n : ℕ) (x : ℕ → K) : Bool := (List.range n).all fun i => fin (x i)

/-- `numOfElemsLessThan`, hiopVectorCuda.cpp:1038-1041; VectorCudaKernels.cu:1247-1252.
HIP: hiopVectorHip.cpp:1042-1045; VectorHipKernels.cpp:1242-1247. -/
def numLessThanG (n : ℕ) (x : ℕ → K) (v : K) : Set ℕ := sumR n fun i => if x i < v then 1 else 0

/-- `numOfElemsAbsLessThan`, hiopVectorCuda.cpp:1044-1047; VectorCudaKernels.cu:1255-1260.
HIP: hiopVectorHip.cpp:1048-1051; VectorHipKernels.cpp:1250-1255. -/
def numAbsLessThanG (n : ℕ) (x : ℕ → K) (v : K) : Set ℕ := sumR n fun i => if |x i| < v then 1 else 0

/-! ## Projection into the bounds -/

/-- `projectIntoBounds_local`, hiopVectorCuda.cpp:832-863; VectorCudaKernels.cu:439-480, 1129-1155. The
loop body is that of the RAJA backend. The preliminary check asks for `xl < xu` at every index,
whatever the patterns say. HIP: hiopVectorHip.cpp:836-867; VectorHipKernels.cpp:434-475, 1124-1150. -/
def projectG (n : ℕ) (small k1 k2 : K) (xl ixl xu ixu x : ℕ → K) : Out (Bool × (ℕ → K)) :=
  (minElem n fun i => xu i - xl i).andThen fun m =>
    if m > 0 then
      (launch n (fun i => projBody small k1 k2 (xl i) (ixl i) (xu i) (ixu i) i) x).andThen
        fun x' => .one (true, x')
    else .one (false, x)

/-! ## Copies -/

section
variable {n m : ℕ} {K : Type}
open Hiop.Range

/-- `copyFromStarting(start, v, nv)` and `copyFromStarting(start, v)`, hiopVectorCuda.cpp:205-224.
HIP: hiopVectorHip.cpp:209-227. -/
def copyFromStartingG (x : RVec K n) (start : ℤ) (v : RVec K m) : Option (RVec K n) :=
  if start + m ≤ n then blockCopy x start v 0 m else none

/-- `copy_from_starting_at(v, start, nv)`, hiopVectorCuda.cpp:227-231, from an array of `m`
elements. HIP: hiopVectorHip.cpp:230-234. -/
def copyFromStartingAtG (x : RVec K n) (v : RVec K m) (start nv : ℤ) : Option (RVec K n) :=
  blockCopy x 0 v start nv

/-- `startingAtCopyFromStartingAt`, hiopVectorCuda.cpp:254-276. HIP: hiopVectorHip.cpp:257-279. -/
def startingAtCopyFromG (x : RVec K n) (sd : ℤ) (v : RVec K m) (ss : ℤ) : Option (RVec K n) :=
  let howManyDest : ℤ := n - sd
  if ¬ ((0 ≤ sd ∧ sd < n) ∨ n = 0) then none
  else if ¬ ((0 ≤ ss ∧ ss < m) ∨ m = 0 ∨ (m : ℤ) = ss) then none
  else
    let howManySrc : ℤ := m - ss
    if howManyDest = 0 ∨ howManySrc = 0 then some x
    else if ¬ howManyDest ≤ howManySrc then none
    else blockCopy x sd v ss howManyDest

/-- `x.copyToStarting(start, dst)`, hiopVectorCuda.cpp:288-302. HIP: hiopVectorHip.cpp:291-305. -/
def copyToStartingG (x : RVec K n) (start : ℤ) (v : RVec K m) : Option (RVec K m) :=
  if start + m ≤ n then if m = 0 then some v else blockCopy v 0 x start m else none

/-- `x.copyToStarting(dst, start)`, hiopVectorCuda.cpp:305-316. HIP: hiopVectorHip.cpp:308-319. -/
def copyToStartingDestG (x : RVec K n) (dest : RVec K m) (start : ℤ) : Option (RVec K m) :=
  if start + n ≤ m then if n = 0 then some dest else blockCopy dest start x 0 n else none

/-- The number of elements copied by `startingAtCopyToStartingAt`, hiopVectorCuda.cpp:399-408.
HIP: hiopVectorHip.cpp:402-411. -/
def clampNumG (n m : ℕ) (ss sd num : ℤ) : Option ℤ :=
  if num < 0 then some (min (n - ss) (m - sd))
  else if num + ss ≤ n then
    if num + sd ≤ m then some (min (min num (n - ss)) (m - sd)) else none
  else none

/-- `x.startingAtCopyToStartingAt(start_src, dest, start_dest, num)`, hiopVectorCuda.cpp:382-414.
HIP: hiopVectorHip.cpp:385-418. -/
def startingAtCopyToG (x : RVec K n) (ss : ℤ) (dest : RVec K m) (sd num : ℤ) :
    Option (RVec K m) :=
  if ¬ (0 ≤ ss ∧ ss ≤ n) then none
  else if ¬ (0 ≤ sd ∧ sd ≤ m) then none
  else if (sd = m ∨ ss = n) ∧ ¬ (num = -1 ∨ num = 0) then none
  else match clampNumG n m ss sd num with
    | none => none
    | some cnt => if cnt = 0 then some dest else blockCopy dest sd x ss cnt

/-- `startingAtCopyToStartingAt_w_pattern`, hiopVectorCuda.cpp:420-427: `assert(false)`.
HIP: hiopVectorHip.cpp:424-431. -/
def unpackToG (_x : RVec K n) (_ss : ℤ) (_dest : RVec K m) (_sd : ℤ) (_sel : RVec K m) (_num : ℤ) :
    Option (RVec K m) := none

end

/-- `compute_cusum_kernel`, VectorCudaKernels.cu:607-623, 1293-1300, for `sz = n+1`.
HIP: VectorHipKernels.cpp:602-618, 1288-1295. -/
def cusumG (n : ℕ) (sel : ℕ → K) (junk : ℕ → ℕ) : Out (ℕ → ℕ) :=
  (launch n.succ (fun i =>
    if i = 0 then .wr i 0 .ret else if sel (i - 1) ≠ 0 then .wr i 1 .ret else .wr i 0 .ret)
    junk).andThen fun a => .one (inclusiveScan 0 n.succ a)

/-- The index array used by a packing: `idx_cumsum_`, which the vector keeps from its first call on,
hiopVectorCuda.cpp:329-336. HIP: hiopVectorHip.cpp:332-339. -/
def packIndexG (n : ℕ) (junk : ℕ → ℕ) (cumsum : Option (ℕ → ℕ)) (sel : ℕ → K) : Out (ℕ → ℕ) :=
  match cumsum with
  | some a => Out.one a
  | none => cusumG n sel junk

/-- The copy, VectorCudaKernels.cu:626-641, 1263-1277: the loop runs over `tid+1 .. n`, which is shifted
by one here. `nv` is the size of the destination; a store outside of it is a failure.
HIP: VectorHipKernels.cpp:621-636, 1258-1272. -/
def packStoreG (n nv : ℕ) (a : ℕ → ℕ) (x : ℕ → K) (start : ℕ) (v : ℕ → K) : Out (ℕ → K) :=
  launch n (fun i =>
    if a (i + 1) ≠ a i then assertP (a i + start < nv) (.wr (a i + start) (x i) .ret)
    else .ret) v

/-- `copyToStartingAt_w_pattern`, hiopVectorCuda.cpp:319-345. `cumsum` is `idx_cumsum_`; the result
holds the destination array and the new `idx_cumsum_`. HIP: hiopVectorHip.cpp:322-348. -/
def packToG (n nv : ℕ) (junk : ℕ → ℕ) (cumsum : Option (ℕ → ℕ)) (x : ℕ → K) (v : ℕ → K)
    (start : ℕ) (sel : ℕ → K) : Out ((ℕ → K) × Option (ℕ → ℕ)) :=
  if n = 0 then .one (v, cumsum)
  else
    (packIndexG n junk cumsum sel).andThen fun a =>
    (packStoreG n nv a x start v).andThen fun v' => .one (v', some a)

/-- `copy_from_two_vec_w_pattern`, hiopVectorCuda.cpp:348-362; MathKernelsCuda.cu:93-101, 152-157. A
store outside of the array of `n` elements is a failure.
HIP: hiopVectorHip.cpp:351-365; MathKernelsHip.cpp:88-96, 149-154. -/
def copyFromTwoG (n n1 n2 : ℕ) (c : ℕ → K) (cMap : ℕ → ℕ) (d : ℕ → K) (dMap : ℕ → ℕ) (x : ℕ → K) :
    Out (ℕ → K) :=
  .check (n1 + n2 = n) <|
    (launch n1 (fun i => assertP (cMap i < n) (.wr (cMap i) (c i) .ret)) x).andThen
      (launch n2 fun i => assertP (dMap i < n) (.wr (dMap i) (d i) .ret))

/-- One of the two copies of `copy_to_two_vec_w_pattern`, MathKernelsCuda.cu:103-111, 159-164.
HIP: MathKernelsHip.cpp:98-106, 156-161. -/
def copyToOneG (n n1 : ℕ) (x : ℕ → K) (cMap : ℕ → ℕ) (c : ℕ → K) : Out (ℕ → K) :=
  launch n1 (fun i => assertP (cMap i < n) (.wr i (x (cMap i)) .ret)) c

/-- `copy_to_two_vec_w_pattern`, hiopVectorCuda.cpp:365-379. HIP: hiopVectorHip.cpp:368-382. -/
def copyToTwoG (n n1 n2 : ℕ) (x : ℕ → K) (cMap dMap : ℕ → ℕ) (c d : ℕ → K) :
    Out ((ℕ → K) × (ℕ → K)) :=
  .check (n1 + n2 = n) <|
    (copyToOneG n n1 x cMap c).andThen fun c' => (copyToOneG n n2 x dMap d).andThen fun d' =>
      .one (c', d')

/-! ## Vectors of integers -/

/-- The bytes of an array of 32-bit integers, least significant byte first. Code: hiopVectorIntCuda.cpp:107-114.
HIP: hiopVectorIntHip.cpp:106-113. -/
abbrev Bytes := ℕ → ℕ

/-- The `i`-th integer of an array, as an unsigned number. Code: hiopVectorIntCuda.cpp:107-114.
HIP: hiopVectorIntHip.cpp:106-113. -/
def word (b : Bytes) (i : ℕ) : ℕ :=
  b (4 * i) + 256 * b (4 * i + 1) + 65536 * b (4 * i + 2) + 16777216 * b (4 * i + 3)

/-- `cudaMemset(p, c, count)`: `count` counts bytes, and every byte becomes the low byte of `c`. Code: hiopVectorIntCuda.cpp:107, hiopVectorIntCuda.cpp:114.
HIP: hiopVectorIntHip.cpp:106; hiopVectorIntHip.cpp:113. -/
def memset (b : Bytes) (c : ℤ) (count : ℕ) : Bytes :=
  fun j => if j < count then (c % 256).toNat else b j

/-- `set_to_zero` of an integer vector with `sz` elements, hiopVectorIntCuda.cpp:105-109.
HIP: hiopVectorIntHip.cpp:104-108. -/
def intSetToZeroG (sz : ℕ) (b : Bytes) : Bytes := memset b 0 sz

/-- `set_to_constant`, hiopVectorIntCuda.cpp:112-116. HIP: hiopVectorIntHip.cpp:111-115. -/
def intSetToConstantG (sz : ℕ) (c : ℤ) (b : Bytes) : Bytes := memset b c sz

/-- `linspace`, hiopVectorIntCuda.cpp:128-131; VectorCudaKernels.cu:596-604, 1286-1290.
HIP: hiopVectorIntHip.cpp:127-130; VectorHipKernels.cpp:591-599, 1281-1285. -/
def linspaceG (sz : ℕ) (i0 di : ℤ) (x : ℕ → ℤ) : Out (ℕ → ℤ) :=
  launch sz (fun i => .wr i (i0 + i * di) .ret) x

end Hiop.Gpu
