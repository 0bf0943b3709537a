import Verif.Kkt.Dense
import Verif.QN.Core

/-!
# Model of the limited-memory quasi-Newton Hessian

Source: `src/Optimization/hiopHessianLowRank.cpp`, `src/LinAlg/hiopMatrixDenseRowMajor.cpp`. Over
`ℝ`, one rank. The memory matrices `St_`, `Yt_` are lists of rows; the small matrices `L_`, `V_` are
functions of two indices together with their dimension; `DSYTRF`/`DSYTRS` is an oracle. Failed
assertions give `none`. Work buffers are local bindings, messages and timers are left out.
-/

namespace Hiop.QN

open Hiop.Vec Hiop.Kkt

variable {n mc m k : ℕ}

/-- The data `update` receives at an iterate: point, multipliers, derivatives. Code: hiopHessianLowRank.cpp:262-264. -/
structure Pt (n mc m : ℕ) where
  x : RVec ℝ n
  yc : RVec ℝ mc
  yd : RVec ℝ m
  grad : RVec ℝ n
  Jc : Matrix (Fin mc) (Fin n) ℝ
  Jd : Matrix (Fin m) (Fin n) ℝ

/-- Option `sigma_update_strategy`, hiopHessianLowRank.cpp:122-135. -/
inductive Strategy
  | sty | styInv | snrmYnrm | styAvg | const

/-- Members of `hiopHessianLowRank`, hiopHessianLowRank.hpp; `prev` is what `it_prev_`,
`grad_f_prev_`, `Jac_c_prev_`, `Jac_d_prev_` hold. -/
structure St (n mc m : ℕ) where
  lMax : ℕ
  lCurr : ℤ
  strat : Strategy
  sigma : ℝ
  sigma0 : ℝ
  S : List (RVec ℝ n)
  Y : List (RVec ℝ n)
  L : NMat ℝ
  lDim : ℕ
  D : List ℝ
  prev : Pt n mc m
  dhInv : RVec ℝ n
  dx : RVec ℝ n
  V : NMat ℝ
  vDim : ℕ
  changed : Bool

/-- The constructor, hiopHessianLowRank.cpp:78-150; `junk` holds the uninitialised members. -/
def fresh (lMax : ℕ) (strat : Strategy) (sigma0 : ℝ) (junk : St n mc m) : St n mc m :=
  { junk with lMax := lMax, lCurr := -1, strat := strat, sigma := sigma0, sigma0 := sigma0,
              S := [], Y := [], lDim := 0, D := [], vDim := 0, changed := false }

/-! ## Update -/

/-- `twonorm`, hiopVectorPar.cpp:463-478. -/
noncomputable def twonorm (x : RVec ℝ n) : ℝ := Real.sqrt (dot x x)

/-- `M[i][j] = a`. Code: hiopHessianLowRank.cpp:779-807. -/
def setAt (M : NMat ℝ) (i j : ℕ) (a : ℝ) : NMat ℝ := fun i' j' => if i' = i ∧ j' = j then a else M i' j'

/-- `growL`, hiopHessianLowRank.cpp:779-806. -/
def growL (l : ℕ) (L : NMat ℝ) (yts : ℕ → ℝ) : NMat ℝ :=
  let N : NMat ℝ := fun i j => if i < l ∧ j < l then L i j else 0
  let N := (List.range l).foldl (fun N j => setAt N l j (yts j)) N
  (List.range (l + 1)).foldl (fun N i => setAt N i l 0) N

/-- Inner loop of `updateL`, hiopHessianLowRank.cpp:839-842. -/
def shiftLRow (L : NMat ℝ) (i : ℕ) : NMat ℝ :=
  (List.range i).foldl (fun L j => setAt L i j (L (i + 1) (j + 1))) L

/-- `updateL`, hiopHessianLowRank.cpp:826-859, for `l ≥ 1`. -/
def updateL (l : ℕ) (L : NMat ℝ) (yts : ℕ → ℝ) : NMat ℝ :=
  let lm1 := l - 1
  let L := (List.range' 1 (lm1 - 1)).foldl shiftLRow L
  let L := (List.range lm1).foldl (fun L j => setAt L lm1 j (yts (j + 1))) L
  setAt L lm1 lm1 0

/-- `shiftRows(-1)`, hiopMatrixDenseRowMajor.cpp:238-277. -/
def shiftUp {α : Type*} (l : List α) : List α :=
  if h : l.length ≤ 1 then l
  else l.tail ++ [l.getLast (by rintro rfl; simp at h)]

/-- `updateD`, hiopHessianLowRank.cpp:860-867. -/
def updateD (D : List ℝ) (sTy : ℝ) : List ℝ := D.tail ++ [sTy]

/-- The memory part of `update` (`l_max > 0`), hiopHessianLowRank.cpp:307-329, with the assertions of
`growD` (808-821), `replaceRow` and `updateL`. -/
noncomputable def store (q : St n mc m) (s y : RVec ℝ n) (sTy : ℝ) : Option (St n mc m) :=
  let yts : ℕ → ℝ := fun j => dot (q.Y.getD j 0) s
  if q.lCurr < q.lMax then
    if (q.D.length : ℤ) = q.lCurr then
      some { q with S := q.S ++ [s], Y := q.Y ++ [y], L := growL q.lDim q.L yts,
                    lDim := q.lDim + 1, D := q.D ++ [sTy], lCurr := q.lCurr + 1 }
    else none
  else
    if q.lMax - 1 < q.S.length ∧ q.lMax - 1 < q.Y.length ∧ q.lCurr = q.lDim then
      some { q with S := (shiftUp q.S).set (q.lMax - 1) s, Y := (shiftUp q.Y).set (q.lMax - 1) y,
                    L := updateL q.lDim q.L yts, D := updateD q.D sTy, lCurr := q.lMax }
    else none

/-- The new multiplier of the identity before safeguarding, hiopHessianLowRank.cpp:337-356. -/
noncomputable def newSigma (strat : Strategy) (sigma0 sTy sn yn : ℝ) : ℝ :=
  match strat with
  | .sty => sTy / (sn * sn)
  | .styInv => yn * yn / sTy
  | .snrmYnrm => Real.sqrt (sn * sn / yn / yn)
  | .styAvg => 1 / 2 * (sTy / (sn * sn) + yn * yn / sTy)
  | .const => sigma0

/-- `fmax(fmin(sigma_safe_max, sigma), sigma_safe_min)`, hiopHessianLowRank.cpp:358, bounds from 137-138. -/
noncomputable def safeguard (sigma : ℝ) : ℝ := max (min (10 ^ 8) sigma) (1 / 10 ^ 8)

/-- `y_new`, hiopHessianLowRank.cpp:288-296. -/
noncomputable def yNew (prev cur : Pt n mc m) : RVec ℝ n :=
  let y := axpy cur.grad (-1) prev.grad
  let y := transTimesVec cur.Jc 1 y 1 cur.yc
  let y := transTimesVec prev.Jc 1 y (-1) cur.yc
  let y := transTimesVec cur.Jd 1 y 1 cur.yd
  transTimesVec prev.Jd 1 y (-1) cur.yd

/-- A pair that passed the test on `s`, hiopHessianLowRank.cpp:298-362. -/
noncomputable def tryPair (eps : ℝ) (q : St n mc m) (s y : RVec ℝ n) : Option (St n mc m) :=
  let sTy := dot s y
  let sn := twonorm s
  let yn := twonorm y
  if sTy > sn * yn * Real.sqrt eps then do
    let q ← if q.lMax > 0 then store q s y sTy else some q
    some { q with sigma := safeguard (newSigma q.strat q.sigma0 sTy sn yn) }
  else some q

/-- `update`, hiopHessianLowRank.cpp:262-388; `eps` is the machine epsilon. -/
noncomputable def update (eps : ℝ) (q : St n mc m) (cur : Pt n mc m) : Option (St n mc m) :=
  if q.lCurr ≥ 0 then do
    let s := axpy cur.x (-1) q.prev.x
    let q ← if infnorm s ≥ 100 * eps then tryPair eps q s (yNew q.prev cur) else some q
    some { q with prev := cur }
  else some { q with prev := cur, lCurr := q.lCurr + 1 }

/-! ## Representation of the inverse and solves -/

/-- `updateLogBarrierDiagonal`, hiopHessianLowRank.cpp:221-233. -/
noncomputable def updateLogBarrierDiagonal (q : St n mc m) (dx : RVec ℝ n) : St n mc m :=
  let dh := axpy (fun _ => q.sigma) 1 dx
  { q with dhInv := fun i => 1 / dh i, dx := dx, changed := true }

/-- The accumulation `sum {a[p]*d[p]*b[p]}`, hiopHessianLowRank.cpp:1108-1110, 1146-1149. -/
noncomputable def wdot (a d b : RVec ℝ n) : ℝ :=
  (List.finRange n).foldl (fun t i => t + a i * d i * b i) 0

/-- `symmMatTimesDiagTimesMatTrans_local`, hiopHessianLowRank.cpp:1079-1116: entries with `i ≤ j` are
computed and mirrored. -/
noncomputable def symMatDiag (beta : ℝ) (W : NMat ℝ) (alpha : ℝ) (X : ℕ → RVec ℝ n) (d : RVec ℝ n) :
    NMat ℝ := fun i j =>
  beta * W (min i j) (max i j) + alpha * wdot (X (min i j)) d (X (max i j))

/-- `matTimesDiagTimesMatTrans_local`, hiopHessianLowRank.cpp:1119-1154. -/
noncomputable def matDiag (S : ℕ → RVec ℝ n) (d : RVec ℝ n) (X : ℕ → RVec ℝ n) : NMat ℝ :=
  fun i j => wdot (S i) d (X j)

/-- `copyBlockFromMatrix` of an `l × l` block. Code: hiopHessianLowRank.cpp:427-473. -/
def setBlock (V : NMat ℝ) (i0 j0 l : ℕ) (B : NMat ℝ) : NMat ℝ := fun i j =>
  if i0 ≤ i ∧ i < i0 + l ∧ j0 ≤ j ∧ j < j0 + l then B (i - i0) (j - j0) else V i j

/-- `updateInternalBFGSRepresentation`, hiopHessianLowRank.cpp:400-485 (build without MPI). `V_`
keeps the matrix; its factorisation `factorizeV` (633-675) is part of the `Lapack` oracle. The reallocation of `L_` or
`D_` with a changed size, which would lose their contents, is the outcome `none`. -/
noncomputable def rep (q : St n mc m) : Option (St n mc m) :=
  let l := q.S.length
  if q.lDim = l ∧ q.D.length = l then
    let S := fun i => q.S.getD i 0
    let Y := fun i => q.Y.getD i 0
    -- block (2,2)
    let B := symMatDiag 0 (fun _ _ => 0) 1 Y q.dhInv
    let V := setBlock q.V l l l (fun i j => B i j + if i = j then q.D.getD i 0 else 0)
    -- block (1,2)
    let b0 := scale q.dhInv q.sigma
    let B := matDiag S b0 Y
    let V := setBlock V 0 l l (fun i j => B i j + -1 * q.L i j)
    -- block (1,1)
    let th := scale (addConstant b0 (-1)) q.sigma
    let B := symMatDiag 0 (fun _ _ => 0) 1 S th
    let V := setBlock V 0 0 l B
    some { q with V := V, vDim := 2 * l, changed := false }
  else none

/-- `DSYTRF` followed by `DSYTRS` for a symmetric matrix of the given size stored in the upper
triangle; `none` is a singular factor (`assert(info==0)`). Code: hiopHessianLowRank.cpp:653-664, hiopHessianLowRank.cpp:703. -/
abbrev Lapack := ℕ → NMat ℝ → (ℕ → ℝ) → Option (ℕ → ℝ)

/-- `solveWithV(rhs_s, rhs_y)`, hiopHessianLowRank.cpp:677-727; nothing happens for size 0. -/
def solveWithV (la : Lapack) (q : St n mc m) (l : ℕ) (s y : ℕ → ℝ) : Option ((ℕ → ℝ) × (ℕ → ℝ)) :=
  if q.vDim = 0 then some (s, y)
  else do
    let z ← la q.vDim q.V (fun a => if a < l then s a else y (a - l))
    some (z, fun a => z (l + a))

/-- `transTimesVec(beta, y, 1, x)` of a matrix given by rows. Code: hiopHessianLowRank.cpp:529-531. -/
noncomputable def rowsTransTimes (rows : List (RVec ℝ n)) (beta : ℝ) (y : RVec ℝ n) (x : ℕ → ℝ) :
    RVec ℝ n := fun i =>
  beta * y i + ∑ a ∈ Finset.range rows.length, rows.getD a 0 i * x a

/-- The guard `if(matrixChanged) updateInternalBFGSRepresentation()`. Code: hiopHessianLowRank.cpp:497, hiopHessianLowRank.cpp:555. -/
noncomputable def refresh (q : St n mc m) : Option (St n mc m) :=
  if q.changed = true then rep q else some q

/-- `solve`, hiopHessianLowRank.cpp:495-540. -/
noncomputable def solve (la : Lapack) (q : St n mc m) (rhs : RVec ℝ n) :
    Option (St n mc m × RVec ℝ n) := do
  let q ← refresh q
  let x := componentMult rhs q.dhInv
  let ytx : ℕ → ℝ := fun a => dot (q.Y.getD a 0) x
  let stx : ℕ → ℝ := fun a => dot (q.S.getD a 0) (scale x q.sigma)
  let (sp, yp) ← solveWithV la q q.S.length stx ytx
  let r := rowsTransTimes q.S 0 (fun _ => 0) sp
  let r := scale r q.sigma
  let r := rowsTransTimes q.Y 1 r yp
  let r := componentMult r q.dhInv
  some (q, axpy x (-1) r)

/-- `symMatTimesInverseTimesMatTrans`, hiopHessianLowRank.cpp:549-630, for `X` with `k` rows: the
multiple right-hand sides are solved row by row. -/
noncomputable def symMatTimesInverse (la : Lapack) (q : St n mc m) (k : ℕ) (beta : ℝ) (W : NMat ℝ)
    (alpha : ℝ) (X : ℕ → RVec ℝ n) : Option (St n mc m × NMat ℝ) := do
  let q ← refresh q
  let l := q.S.length
  let W := symMatDiag beta W alpha X q.dhInv
  let S1 := matDiag X (scale q.dhInv q.sigma) (fun j => q.S.getD j 0)
  let Y1 := matDiag X q.dhInv (fun j => q.Y.getD j 0)
  let rows ← (List.range k).mapM fun i => solveWithV la q l (S1 i) (Y1 i)
  let S2 : NMat ℝ := fun i => (rows.getD i (0, 0)).1
  let Y2 : NMat ℝ := fun i => (rows.getD i (0, 0)).2
  let alpha := 0 - alpha
  let W : NMat ℝ := fun i j => W i j + alpha * ∑ a ∈ Finset.range l, S1 i a * S2 j a
  some (q, fun i j => W i j + alpha * ∑ a ∈ Finset.range l, Y1 i a * Y2 j a)

/-! ## Products -/

/-- One pass of the loop computing `a[k]`, `b[k]`, hiopHessianLowRank.cpp:1004-1036. -/
noncomputable def abStep (eps sigma : ℝ) (acc : List (RVec ℝ n × RVec ℝ n)) (p : Pair n) :
    List (RVec ℝ n × RVec ℝ n) :=
  let sTy := dot p.2 p.1
  let sTy := if sTy < eps then eps else sTy
  let b := scale p.2 (1 / Real.sqrt sTy)
  let a := scale p.1 sigma
  let a := acc.foldl (fun a ab => axpy (axpy a (dot ab.2 p.1) ab.2) (-dot ab.1 p.1) ab.1) a
  acc ++ [(scale a (1 / Real.sqrt (dot a p.1)), b)]

/-- `timesVecCmn`, hiopHessianLowRank.cpp:974-1059. -/
noncomputable def timesVecCmn (eps : ℝ) (q : St n mc m) (beta : ℝ) (y : RVec ℝ n) (alpha : ℝ)
    (x : RVec ℝ n) (addLogTerm : Bool) : Option (RVec ℝ n) :=
  if q.lCurr = q.S.length then
    let ab := (q.S.zip q.Y).foldl (abStep eps q.sigma) []
    let y := scale y beta
    let y := if addLogTerm = true then axzpy y alpha x q.dx else y
    let y := axpy y (alpha * q.sigma) x
    some (ab.foldl (fun y ab => axpy (axpy y (alpha * dot ab.2 x) ab.2) (-alpha * dot ab.1 x) ab.1) y)
  else none

/-! ## Histories -/

/-- The calls made on the object by the solver (products do not change it). Code: hiopHessianLowRank.cpp:221, hiopHessianLowRank.cpp:262, hiopHessianLowRank.cpp:495. -/
inductive Op (n mc m : ℕ)
  | update (cur : Pt n mc m)
  | diag (dx : RVec ℝ n)
  | solve (rhs : RVec ℝ n)
  | inverse (k : ℕ) (beta : ℝ) (W : NMat ℝ) (alpha : ℝ) (X : ℕ → RVec ℝ n)

/-- One call; `none` is a failed assertion. The order of calls is decided in
hiopAlgFilterIPM.cpp:1215 (`update`) and hiopKKTLinSys.cpp:1065-1165 (the rest): any order is allowed
here. -/
noncomputable def step (la : Lapack) (eps : ℝ) (q : St n mc m) : Op n mc m → Option (St n mc m)
  | .update cur => update eps q cur
  | .diag dx => some (updateLogBarrierDiagonal q dx)
  | .solve rhs => (solve la q rhs).map Prod.fst
  | .inverse k beta W alpha X => (symMatTimesInverse la q k beta W alpha X).map Prod.fst

/-- A sequence of calls. No counterpart in the code: used only to state and run the model. -/
noncomputable def run (la : Lapack) (eps : ℝ) (q : St n mc m) (ops : List (Op n mc m)) :
    Option (St n mc m) := ops.foldlM (step la eps) q

end Hiop.QN
