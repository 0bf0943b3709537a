import Verif.Resid.Model
import Verif.QN.Model
import Verif.Nlp.Model

/-!
# Model of the distributed (MPI) build

Sources: `src/LinAlg/hiopVectorPar.cpp`, `src/LinAlg/hiopMatrixDenseRowMajor.cpp`,
`src/Optimization/hiopIterate.cpp`, `hiopResidual.cpp`, `hiopHessianLowRank.cpp`,
`hiopNlpFormulation.cpp`, `hiopNlpTransforms.cpp`, the parts under `#ifdef HIOP_USE_MPI`.

`P` ranks run the same program. A vector of the variables' space is a family of local arrays, one
for each rank; vectors of the constraints' space are replicated. Each function that communicates is
a relation between what the ranks hold and what the ranks obtain. The kernels on local arrays are
those of the serial model.
-/

namespace Hiop.Mpi

open Hiop.Vec Hiop.Iterate Hiop.Kkt

/-! ## Distribution -/

/-- The array `col_part` of `P+1` offsets: rank `r` holds the indexes from `off r` to
`off (r+1) - 1`. hiopVectorPar.cpp:68-90, hiopMatrixDenseRowMajor.cpp:64-84. Ranks may hold
nothing. -/
structure Part (N P : ℕ) where
  off : ℕ → ℕ
  zero : off 0 = 0
  last : off P = N
  mono : Monotone off

/-- `n_local_ = glob_iu_ - glob_il_`, hiopVectorPar.cpp:88. -/
def Part.len {N P : ℕ} (p : Part N P) (r : ℕ) : ℕ := p.off (r + 1) - p.off r

/-- Global index of the local index `i` of rank `r`. No counterpart in the code: used only to state and run the model. -/
def Part.idx {N P : ℕ} (p : Part N P) (r : Fin P) (i : Fin (p.len r)) : Fin N :=
  ⟨p.off r + i, by
    have h1 : p.off (r + 1) ≤ p.off P := p.mono (by omega)
    have h2 := i.isLt
    have h3 := p.last
    unfold Part.len at h2
    omega⟩

/-- A distributed vector: the local array of each rank. No counterpart in the code: used only to state and run the model. -/
abbrev Dist {N P : ℕ} (p : Part N P) (K : Type*) := ∀ r : Fin P, RVec K (p.len r)

/-- The local arrays of a vector. No counterpart in the code: used only to state and run the model. -/
def scatter {N P : ℕ} {K : Type*} (p : Part N P) (x : RVec K N) : Dist p K :=
  fun r i => x (p.idx r i)

/-- The local columns of a matrix distributed by columns, hiopMatrixDenseRowMajor.cpp:64-84. -/
def scatterCols {N P m : ℕ} {K : Type*} (p : Part N P) (A : Matrix (Fin m) (Fin N) K) (r : Fin P) :
    Matrix (Fin m) (Fin (p.len r)) K := fun i j => A i (p.idx r j)

/-! ## MPI_Allreduce -/

/-- The values an implementation of `MPI_Allreduce` may compute from the contributions `v` of the
ranks in the list: any tree of applications of the operation, over the contributions in any
order. Code: hiopVectorPar.cpp:474, hiopVectorPar.cpp:516, hiopVectorPar.cpp:814. -/
inductive Red {ι A : Type*} (op : A → A → A) (v : ι → A) : List ι → A → Prop
  | one (r : ι) : Red op v [r] (v r)
  | two {l1 l2 l : List ι} {a b : A} (ha : Red op v l1 a) (hb : Red op v l2 b)
      (hl : l.Perm (l1 ++ l2)) : Red op v l (op a b)

/-- `MPI_Allreduce` over all the ranks: each rank obtains a reduction of all the contributions. The
order may differ from rank to rank. Code: hiopVectorPar.cpp:474. -/
def Allreduce {P : ℕ} {A : Type*} (op : A → A → A) (v : Fin P → A) (out : Fin P → A) : Prop :=
  ∀ r, Red op v (List.finRange P) (out r)

/-- `MPI_LAND` on `int`. Code: hiopVectorPar.cpp:1088. -/
def land (a b : ℤ) : ℤ := if a ≠ 0 ∧ b ≠ 0 then 1 else 0

/-- A C `bool`/`int` flag. No counterpart in the code: used only to state and run the model. -/
def flag (b : Bool) : ℤ := if b then 1 else 0

variable {N P mc m : ℕ} {p q : Part N P} {K : Type*} [Field K] [LinearOrder K]

/-! ## Vectors -/

/-- `dotProductWith`, hiopVectorPar.cpp:480-499. -/
def dotD (x y : Dist p K) (out : Fin P → K) : Prop :=
  Allreduce (· + ·) (fun r => dot (x r) (y r)) out

/-- `twonorm`, hiopVectorPar.cpp:463-478: the local norms are squared, summed, and the root taken;
an empty local array contributes 0. -/
noncomputable def twonormD (x : Dist p ℝ) (out : Fin P → ℝ) : Prop :=
  ∃ g : Fin P → ℝ, Allreduce (· + ·)
    (fun r => let nrm := if p.len r > 0 then QN.twonorm (x r) else 0; nrm * nrm) g ∧
    ∀ r, out r = Real.sqrt (g r)

/-- `infnorm`, hiopVectorPar.cpp:501-520. -/
def infnormD (x : Dist p K) (out : Fin P → K) : Prop :=
  Allreduce max (fun r => infnorm (x r)) out

/-- `onenorm`, hiopVectorPar.cpp:540-553. -/
def onenormD (x : Dist p K) (out : Fin P → K) : Prop :=
  Allreduce (· + ·) (fun r => onenorm (x r)) out

/-- `min`, hiopVectorPar.cpp:806-819. -/
def minAllD (dblMax : K) (x : Dist p K) (out : Fin P → K) : Prop :=
  Allreduce min (fun r => minAll dblMax (x r)) out

/-- `min_w_pattern`, hiopVectorPar.cpp:821-839. -/
def minSelD (dblMax : K) (x sel : Dist p K) (out : Fin P → K) : Prop :=
  Allreduce min (fun r => minSel dblMax (x r) (sel r)) out

/-- `allPositive`, hiopVectorPar.cpp:946-962. -/
def allPositiveD (x : Dist p K) (out : Fin P → Bool) : Prop :=
  ∃ g : Fin P → ℤ, Allreduce min (fun r => flag (allPositive (x r))) g ∧
    ∀ r, out r = decide (g r ≠ 0)

/-- `allPositive_w_patternSelect`, hiopVectorPar.cpp:1095-1115. -/
def allPositiveSelD (x w : Dist p K) (out : Fin P → Bool) : Prop :=
  ∃ g : Fin P → ℤ, Allreduce min (fun r => flag (allPositiveSel (x r) (w r))) g ∧
    ∀ r, out r = decide (g r ≠ 0)

/-- `matchesPattern`, hiopVectorPar.cpp:1073-1093. -/
def matchesPatternD (x w : Dist p K) (out : Fin P → Bool) : Prop :=
  ∃ g : Fin P → ℤ, Allreduce land (fun r => flag (matchesPattern (x r) (w r))) g ∧
    ∀ r, out r = decide (g r ≠ 0)

/-- The loop of `is_zero`, hiopVectorPar.cpp:1150-1158 (the early exit is dropped: once the flag is
false it stays false). -/
def isZero {n : ℕ} (x : RVec K n) : Bool :=
  (List.finRange n).foldl (fun b i => if b then (if x i ≠ 0 then false else b) else b) true

/-- `is_zero`, hiopVectorPar.cpp:1150-1165. -/
def isZeroD (x : Dist p K) (out : Fin P → Bool) : Prop :=
  ∃ g : Fin P → ℤ, Allreduce min (fun r => flag (isZero (x r))) g ∧
    ∀ r, out r = decide (g r ≠ 0)

/-- `numOfElemsLessThan`, hiopVectorPar.cpp:1222-1239. -/
def numLessThanD (x : Dist p K) (v : K) (out : Fin P → ℕ) : Prop :=
  Allreduce (· + ·) (fun r => numLessThan (x r) v) out

/-- `numOfElemsAbsLessThan`, hiopVectorPar.cpp:1241-1258. -/
def numAbsLessThanD (x : Dist p K) (v : K) (out : Fin P → ℕ) : Prop :=
  Allreduce (· + ·) (fun r => numAbsLessThan (x r) v) out

/-- Outcome of a call in which some ranks reach a collective call that other ranks skip. No counterpart in the code: used only to state and run the model. -/
inductive Call (A : Type*)
  | done (out : A)
  | hang

/-- The loop of `is_equal`, hiopVectorPar.cpp:1289-1299, on arrays of the same length. -/
def isEqual {a b : ℕ} (x : RVec K a) (y : RVec K b) : Bool :=
  (List.range a).foldl
    (fun f i => if f then (if (if h : i < a then x ⟨i, h⟩ else 0) ≠ (if h : i < b then y ⟨i, h⟩ else 0)
      then false else f) else f) true

/-- `is_equal`, hiopVectorPar.cpp:1287-1307, of vectors with distributions `p` and `q`. A rank whose
local sizes differ returns `false` before the collective call; if the other ranks make that call,
they wait for it. -/
def isEqualD (x : Dist p K) (y : Dist q K) : Call (Fin P → Bool) → Prop
  | .done out =>
      (∀ r : Fin P, p.len r ≠ q.len r ∧ out r = false) ∨
      ((∀ r : Fin P, p.len r = q.len r) ∧
        ∃ g : Fin P → ℤ, Allreduce min (fun r => flag (isEqual (x r) (y r))) g ∧
          ∀ r, out r = decide (g r ≠ 0))
  | .hang => (∃ r : Fin P, p.len r ≠ q.len r) ∧ ∃ r : Fin P, p.len r = q.len r

/-! ## Matrices -/

/-- The kernel of `timesVec` before the reduction, hiopMatrixDenseRowMajor.cpp:464-482: only rank 0
keeps `beta`; without local columns the vector is only scaled. (With no rows nothing is done and
nothing is communicated, on any rank.) -/
def timesVecLocal {n : ℕ} (rank : ℕ) (A : Matrix (Fin m) (Fin n) K) (beta : K) (y : RVec K m)
    (alpha : K) (x : RVec K n) : RVec K m :=
  let beta := if rank ≠ 0 then 0 else beta
  if n ≠ 0 then timesVec A beta y alpha x
  else if beta ≠ 1 then scale y beta else y

/-- `timesVec`, hiopMatrixDenseRowMajor.cpp:457-490; `y r` is the (replicated) vector held by rank
`r`. -/
def timesVecD (A : ∀ r : Fin P, Matrix (Fin m) (Fin (p.len r)) K) (beta : K) (y : Fin P → RVec K m)
    (alpha : K) (x : Dist p K) (out : Fin P → RVec K m) : Prop :=
  Allreduce (fun a b i => a i + b i) (fun r => timesVecLocal r (A r) beta (y r) alpha (x r)) out

/-- `transTimesVec`, hiopMatrixDenseRowMajor.cpp:494-535: no communication. -/
def transTimesVecD (A : ∀ r : Fin P, Matrix (Fin m) (Fin (p.len r)) K) (beta : K) (y : Dist p K)
    (alpha : K) (x : Fin P → RVec K m) : Dist p K :=
  fun r => transTimesVec (A r) beta (y r) alpha (x r)

/-- `timesMatTrans_local`, hiopMatrixDenseRowMajor.cpp:647-675: `W := beta*W + alpha*A*X'`. -/
def timesMatTransLocal {n k : ℕ} (beta : K) (W : Matrix (Fin m) (Fin k) K) (alpha : K)
    (A : Matrix (Fin m) (Fin n) K) (X : Matrix (Fin k) (Fin n) K) : Matrix (Fin m) (Fin k) K :=
  fun i j =>
    if n = 0 then (if beta ≠ 1 then beta * W i j else W i j)
    else alpha * (A * X.transpose) i j + beta * W i j

/-- `timesMatTrans`, hiopMatrixDenseRowMajor.cpp:677-703: rank 0 uses `beta`, the other ranks 0. -/
def timesMatTransD {k : ℕ} (beta : K) (W : Fin P → Matrix (Fin m) (Fin k) K) (alpha : K)
    (A : ∀ r : Fin P, Matrix (Fin m) (Fin (p.len r)) K)
    (X : ∀ r : Fin P, Matrix (Fin k) (Fin (p.len r)) K)
    (out : Fin P → Matrix (Fin m) (Fin k) K) : Prop :=
  Allreduce (fun a b i j => a i j + b i j)
    (fun r => if r.val = 0 then timesMatTransLocal beta (W r) alpha (A r) (X r)
      else timesMatTransLocal 0 (W r) alpha (A r) (X r)) out

/-- `DLANGE('M')` of a matrix stored by rows: the largest absolute value, 0 for an empty matrix. Code: hiopMatrixDenseRowMajor.cpp:832-842. -/
def maxAbsLocal {n : ℕ} (A : Matrix (Fin m) (Fin n) K) : K := infnorm fun i => infnorm (A i)

/-- `max_abs_value`, hiopMatrixDenseRowMajor.cpp:832-842. -/
def maxAbsD (A : ∀ r : Fin P, Matrix (Fin m) (Fin (p.len r)) K) (out : Fin P → K) : Prop :=
  Allreduce max (fun r => maxAbsLocal (A r)) out

/-- `row_max_abs_value`, hiopMatrixDenseRowMajor.cpp:845-862: one reduction for each row. -/
def rowMaxAbsD (A : ∀ r : Fin P, Matrix (Fin m) (Fin (p.len r)) K) (out : Fin P → RVec K m) : Prop :=
  ∀ i, Allreduce max (fun r => infnorm (A r i)) (fun r => out r i)

/-! ## The problem -/

/-- The reduction of the number of fixed variables, hiopNlpFormulation.cpp:256-266, and of the three
bound counters, hiopNlpFormulation.cpp:381-391, starting from the counts `c r` of `process_bounds`
on rank `r`: `(n_fixed, n_bnds_low, n_bnds_upp, n_bnds_lu)`. -/
def countsD (c : Fin P → ℕ × ℕ × ℕ × ℕ) (out : Fin P → ℕ × ℕ × ℕ × ℕ) : Prop :=
  ∃ g : Fin P → ℕ, Allreduce (· + ·) (fun r => (c r).1) g ∧
  ∃ a : Fin P → ℕ × ℕ × ℕ, Allreduce (· + ·) (fun r => (c r).2) a ∧
  ∀ r, out r = (g r, a r)

/-- `allocRSVectorDistrib`, hiopNlpTransforms.cpp:106-151: gather the numbers of fixed variables
(`rs[k+1]` is that of rank `k`), accumulate, subtract from the full-space offsets. -/
def rsOffsets (off : ℕ → ℕ) (fixed : ℕ → ℕ) (k : ℕ) : ℤ :=
  let acc := (List.range k).foldl (fun t r => t + fixed r) 0
  (off k : ℤ) - acc

/-! ## Iterate -/

variable {n : ℕ}

/-- The parts of the iterate held by each rank: x-vectors are distributed, the others replicated. Code: hiopIterate.hpp:182-201. -/
def scatterIt (p : Part N P) (it : It K N mc m) (r : Fin P) : It K (p.len r) mc m where
  x := scatter p it.x r
  d := it.d
  sxl := scatter p it.sxl r
  sxu := scatter p it.sxu r
  sdl := it.sdl
  sdu := it.sdu
  yc := it.yc
  yd := it.yd
  zl := scatter p it.zl r
  zu := scatter p it.zu r
  vl := it.vl
  vu := it.vu

/-- The parts of the bounds held by each rank. Code: hiopNlpFormulation.hpp:337-343. -/
def scatterBounds (p : Part N P) (b : Bounds K N m) (r : Fin P) : Bounds K (p.len r) m where
  xl := scatter p b.xl r
  xu := scatter p b.xu r
  ixl := scatter p b.ixl r
  ixu := scatter p b.ixu r
  dl := b.dl
  du := b.du
  idl := b.idl
  idu := b.idu

/-- `normOneOfBoundDuals`, hiopIterate.cpp:201-217. -/
def normOneOfBoundDualsD (it : ∀ r : Fin P, It K (p.len r) mc m) (out : Fin P → K) : Prop :=
  ∃ g : Fin P → K, Allreduce (· + ·) (fun r => onenorm (it r).zl + onenorm (it r).zu) g ∧
    ∀ r, out r = g r + (onenorm (it r).vl + onenorm (it r).vu)

/-- `normOneOfEqualityDuals`, hiopIterate.cpp:219-236. -/
def normOneOfEqualityDualsD (it : ∀ r : Fin P, It K (p.len r) mc m) (out : Fin P → K) : Prop :=
  ∃ g : Fin P → K, Allreduce (· + ·) (fun r => onenorm (it r).zl + onenorm (it r).zu) g ∧
    ∀ r, out r = g r
      + (onenorm (it r).vl + onenorm (it r).vu + onenorm (it r).yc + onenorm (it r).yd)

/-- `normOneOfDuals`, hiopIterate.cpp:238-257, as `(nrm1Eq, nrm1Bnd)`. -/
def normOneOfDualsD (it : ∀ r : Fin P, It K (p.len r) mc m) (out : Fin P → K × K) : Prop :=
  ∃ g : Fin P → K, Allreduce (· + ·) (fun r => onenorm (it r).zl + onenorm (it r).zu) g ∧
    ∀ r, out r = (onenorm (it r).yc + onenorm (it r).yd,
      g r + (onenorm (it r).vl + onenorm (it r).vu))

/-- `fractionToTheBdry`, hiopIterate.cpp:328-364: both local step lengths are reduced in one call. -/
def fractionToTheBdryD (b : ∀ r : Fin P, Bounds K (p.len r) m)
    (it dir : ∀ r : Fin P, It K (p.len r) mc m) (tau : K) (out : Fin P → K × K) : Prop :=
  Allreduce (fun a c => (min a.1 c.1, min a.2 c.2))
    (fun r => fractionToTheBdry (b r) (it r) (dir r) tau) out

/-- `evalLogBarrier`, hiopIterate.cpp:523-537. -/
noncomputable def evalLogBarrierD (b : ∀ r : Fin P, Bounds ℝ (p.len r) m)
    (it : ∀ r : Fin P, It ℝ (p.len r) mc m) (out : Fin P → ℝ) : Prop :=
  ∃ g : Fin P → ℝ, Allreduce (· + ·) (fun r => Barrier.logBarrierLocal (it r).sxl (b r).ixl
      + Barrier.logBarrierLocal (it r).sxu (b r).ixu) g ∧
    ∀ r, out r = g r + Barrier.logBarrierLocal (it r).sdl (b r).idl
      + Barrier.logBarrierLocal (it r).sdu (b r).idu

/-- `linearDampingTerm`, hiopIterate.cpp:552-566. -/
noncomputable def linearDampingTermD (b : ∀ r : Fin P, Bounds ℝ (p.len r) m)
    (it : ∀ r : Fin P, It ℝ (p.len r) mc m) (mu kappad : ℝ) (out : Fin P → ℝ) : Prop :=
  ∃ g : Fin P → ℝ, Allreduce (· + ·)
      (fun r => linearDampingTermLocal (it r).sxl (b r).ixl (b r).ixu mu kappad
        + linearDampingTermLocal (it r).sxu (b r).ixu (b r).ixl mu kappad) g ∧
    ∀ r, out r = g r + linearDampingTermLocal (it r).sdl (b r).idl (b r).idu mu kappad
      + linearDampingTermLocal (it r).sdu (b r).idu (b r).idl mu kappad

/-! ## Residual -/

/-- What `update` receives on each rank. No counterpart in the code: used only to state and run the model. -/
def scatterEval (p : Part N P) (e : Resid.Eval N mc m) (r : Fin P) :
    Resid.Eval (p.len r) mc m where
  crhs := e.crhs
  c := e.c
  d := e.d
  grad := scatter p e.grad r
  Jc := scatterCols p e.Jc r
  Jd := scatterCols p e.Jd r
  mu := e.mu
  kappad := e.kappad

/-- `hiopResidual::update`, hiopResidual.cpp:154-369 (and the end of `update_soc`, 605-622): the six
infinity norms of each rank are reduced by maximum; the 1-norms of `rx` are those of the distributed
vector (183, 188). `cn r` are the counters of rank `r`. -/
noncomputable def updateD (dblMax : ℝ) (b : ∀ r : Fin P, Bounds ℝ (p.len r) m)
    (cn : Fin P → Counts) (it : ∀ r : Fin P, It ℝ (p.len r) mc m)
    (e : ∀ r : Fin P, Resid.Eval (p.len r) mc m) (old out : ∀ r : Fin P, Resid.RState (p.len r) mc m) :
    Prop :=
  let loc := fun r => Resid.update dblMax (b r) (cn r) (it r) (e r) (old r)
  ∃ (o1 o2 : Fin P → ℝ) (g : Fin P → Fin 6 → ℝ),
    onenormD (p := p) (fun r => Resid.rxPlain (it r) (e r)) o1 ∧
    onenormD (p := p) (fun r => (loc r).v.rx) o2 ∧
    Allreduce (fun a c i => max (a i) (c i))
      (fun r => ![(loc r).nr.nlpOptim, (loc r).nr.nlpFeas, (loc r).nr.nlpCompl,
                  (loc r).nr.barOptim, (loc r).nr.barFeas, (loc r).nr.barCompl]) g ∧
    ∀ r, out r =
      { v := (loc r).v
        nr := { nlpOptim := g r 0, nlpFeas := g r 1, nlpCompl := g r 2,
                barOptim := g r 3, barFeas := g r 4, barCompl := g r 5,
                oneNlpFeas := (loc r).nr.oneNlpFeas, oneBarFeas := (loc r).nr.oneBarFeas,
                oneNlpOptim := 0 + o1 r + onenorm (Resid.rdPlain (it r)),
                oneBarOptim := 0 + o2 r + onenorm (loc r).v.rd,
                consViol := (loc r).nr.consViol } }

/-! ## Quasi-Newton matrix -/

/-- The parts of the quasi-Newton memory held by each rank: the pairs and the diagonals are
distributed, `L_`, `D_`, `V_` and the scalars replicated. No counterpart in the code: used only to state and run the model. -/
def scatterQN (p : Part N P) (prev : ∀ r : Fin P, QN.Pt (p.len r) mc m) (q : QN.St N mc m)
    (r : Fin P) : QN.St (p.len r) mc m where
  lMax := q.lMax
  lCurr := q.lCurr
  strat := q.strat
  sigma := q.sigma
  sigma0 := q.sigma0
  S := q.S.map fun s => scatter p s r
  Y := q.Y.map fun y => scatter p y r
  L := q.L
  lDim := q.lDim
  D := q.D
  prev := prev r
  dhInv := scatter p q.dhInv r
  dx := scatter p q.dx r
  V := q.V
  vDim := q.vDim
  changed := q.changed

/-- The three local blocks copied to `_buff1_lxlx3`, hiopHessianLowRank.cpp:419-455: blocks (2,2), (1,2)
and (1,1) of the matrix without `D_` and `L_`. -/
noncomputable def qnBlocks {n : ℕ} (q : QN.St n mc m) : NMat ℝ × NMat ℝ × NMat ℝ :=
  let S := fun i => q.S.getD i 0
  let Y := fun i => q.Y.getD i 0
  let b0 := scale q.dhInv q.sigma
  let th := scale (addConstant b0 (-1)) q.sigma
  (QN.symMatDiag 0 (fun _ _ => 0) 1 Y q.dhInv, QN.matDiag S b0 Y,
    QN.symMatDiag 0 (fun _ _ => 0) 1 S th)

/-- What every rank does with the reduced blocks, hiopHessianLowRank.cpp:458-474. `none`: the sizes of
`L_` or `D_` do not match (405-412, see the serial model). -/
noncomputable def qnAssemble {n : ℕ} (q : QN.St n mc m) (g : NMat ℝ × NMat ℝ × NMat ℝ) :
    Option (QN.St n mc m) :=
  let l := q.S.length
  if q.lDim = l ∧ q.D.length = l then
    let V := QN.setBlock q.V l l l (fun i j => g.1 i j + if i = j then q.D.getD i 0 else 0)
    let V := QN.setBlock V 0 l l (fun i j => g.2.1 i j + -1 * q.L i j)
    let V := QN.setBlock V 0 0 l g.2.2
    some { q with V := V, vDim := 2 * l, changed := false }
  else none

/-- `updateInternalBFGSRepresentation` with MPI, hiopHessianLowRank.cpp:400-485: the three local
blocks are reduced together, then `D_` is added and `L_` subtracted on every rank. -/
noncomputable def repD (q : ∀ r : Fin P, QN.St (p.len r) mc m)
    (out : ∀ r : Fin P, Option (QN.St (p.len r) mc m)) : Prop :=
  ∃ g : Fin P → NMat ℝ × NMat ℝ × NMat ℝ,
    Allreduce (· + ·) (fun r => qnBlocks (q r)) g ∧ ∀ r, out r = qnAssemble (q r) (g r)

/-- `if(matrixChanged) updateInternalBFGSRepresentation()`: the flag is the same on every rank
(otherwise some ranks would wait in the reduction). Code: hiopHessianLowRank.cpp:497, hiopHessianLowRank.cpp:555. -/
noncomputable def refreshD (q : ∀ r : Fin P, QN.St (p.len r) mc m)
    (out : ∀ r : Fin P, Option (QN.St (p.len r) mc m)) : Prop :=
  ((∀ r, (q r).changed = true) ∧ repD q out) ∨
  ((∀ r, (q r).changed = false) ∧ ∀ r, out r = some (q r))

/-- `solve` with MPI, hiopHessianLowRank.cpp:495-540: `Y'x` and `S'x` are distributed products
(`timesVec` with `beta = 0`); everything else is local. -/
noncomputable def solveD (la : QN.Lapack) (q : ∀ r : Fin P, QN.St (p.len r) mc m) (rhs : Dist p ℝ)
    (out : ∀ r : Fin P, Option (QN.St (p.len r) mc m × RVec ℝ (p.len r))) : Prop :=
  ∃ q' : ∀ r : Fin P, Option (QN.St (p.len r) mc m), refreshD q q' ∧
  ((∃ r, q' r = none) ∧ (∀ r, out r = none) ∨
   ∃ q1 : ∀ r : Fin P, QN.St (p.len r) mc m, (∀ r, q' r = some (q1 r)) ∧
    ∃ x : Dist p ℝ, (∀ r, x r = componentMult (rhs r) (q1 r).dhInv) ∧
    ∃ ytx stx : Fin P → ℕ → ℝ,
      Allreduce (· + ·) (fun r a => dot ((q1 r).Y.getD a 0) (x r)) ytx ∧
      Allreduce (· + ·) (fun r a => dot ((q1 r).S.getD a 0) (scale (x r) (q1 r).sigma)) stx ∧
      ∀ r, out r = (do
        let (sp, yp) ← QN.solveWithV la (q1 r) (q1 r).S.length (stx r) (ytx r)
        let t := QN.rowsTransTimes (q1 r).S 0 (fun _ => 0) sp
        let t := scale t (q1 r).sigma
        let t := QN.rowsTransTimes (q1 r).Y 1 t yp
        let t := componentMult t (q1 r).dhInv
        some (q1 r, axpy (x r) (-1) t)))

/-- `symMatTimesInverseTimesMatTrans` with MPI, hiopHessianLowRank.cpp:549-630: rank 0 uses `beta`,
the others 0; the two right-hand-side blocks and `W` are reduced; the rest is done on every rank. -/
noncomputable def symMatTimesInverseD (la : QN.Lapack) (q : ∀ r : Fin P, QN.St (p.len r) mc m)
    (k : ℕ) (beta : ℝ) (W : Fin P → NMat ℝ) (alpha : ℝ) (X : ∀ r : Fin P, ℕ → RVec ℝ (p.len r))
    (out : ∀ r : Fin P, Option (QN.St (p.len r) mc m × NMat ℝ)) : Prop :=
  ∃ q' : ∀ r : Fin P, Option (QN.St (p.len r) mc m), refreshD q q' ∧
  ((∃ r, q' r = none) ∧ (∀ r, out r = none) ∨
   ∃ q1 : ∀ r : Fin P, QN.St (p.len r) mc m, (∀ r, q' r = some (q1 r)) ∧
    ∃ (sy : Fin P → NMat ℝ × NMat ℝ) (w : Fin P → NMat ℝ),
      Allreduce (· + ·) (fun r =>
        (QN.matDiag (X r) (scale (q1 r).dhInv (q1 r).sigma) (fun j => (q1 r).S.getD j 0),
         QN.matDiag (X r) (q1 r).dhInv (fun j => (q1 r).Y.getD j 0))) sy ∧
      Allreduce (· + ·) (fun r =>
        if r.val = 0 then QN.symMatDiag beta (W r) alpha (X r) (q1 r).dhInv
        else QN.symMatDiag 0 (W r) alpha (X r) (q1 r).dhInv) w ∧
      ∀ r, out r = (do
        let l := (q1 r).S.length
        let S1 := (sy r).1
        let Y1 := (sy r).2
        let rows ← (List.range k).mapM fun i => QN.solveWithV la (q1 r) l (S1 i) (Y1 i)
        let S2 : NMat ℝ := fun i => (rows.getD i (0, 0)).1
        let Y2 : NMat ℝ := fun i => (rows.getD i (0, 0)).2
        let alpha := 0 - alpha
        let W : NMat ℝ := fun i j => w r i j + alpha * ∑ a ∈ Finset.range l, S1 i a * S2 j a
        some (q1 r, fun i j => W i j + alpha * ∑ a ∈ Finset.range l, Y1 i a * Y2 j a)))

end Hiop.Mpi
