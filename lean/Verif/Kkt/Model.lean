import Verif.Iterate.Model
import Mathlib.LinearAlgebra.Matrix.Notation

/-!
# Model of the search-direction linear systems

Source: `src/Optimization/hiopKKTLinSys.cpp`, `hiopKKTLinSysMDS.cpp`, `hiopKKTLinSysSparse.cpp`,
`hiopKKTLinSysSparseCondensed.cpp`, `hiopKKTLinSysSparseNormalEqn.cpp`, `hiopKKTLinSysDense.hpp`.
Matrices are dense `Matrix` values (storage formats are the subject of other modules), linear
solvers are oracles, arithmetic is exact, one rank. Working buffers borrowed from the direction
are written as local bindings: each borrowed buffer is overwritten before it is read again.
-/

namespace Hiop.Kkt

open Hiop.Vec Hiop.Iterate

variable {K : Type*} [Field K] [LinearOrder K] {n mc m : ℕ}

/-- Hessian and Jacobians given to `update`, hiopKKTLinSys.cpp:543-556. -/
structure Mats (K : Type*) (n mc m : ℕ) where
  H : Matrix (Fin n) (Fin n) K
  Jc : Matrix (Fin mc) (Fin n) K
  Jd : Matrix (Fin m) (Fin n) K

/-- The current perturbations `delta_wx`, `delta_wd`, `delta_cc`, `delta_cd`. Code: hiopPDPerturbation.hpp:124-127. -/
structure Deltas (K : Type*) (n mc m : ℕ) where
  wx : RVec K n
  wd : RVec K m
  cc : RVec K mc
  cd : RVec K m

/-- The residual vectors of `hiopResidual`, hiopResidual.hpp. -/
structure Resid (K : Type*) (n mc m : ℕ) where
  rx : RVec K n
  rd : RVec K m
  ryc : RVec K mc
  ryd : RVec K m
  rxl : RVec K n
  rxu : RVec K n
  rdl : RVec K m
  rdu : RVec K m
  rszl : RVec K n
  rszu : RVec K n
  rsvl : RVec K m
  rsvu : RVec K m

/-- The bound counters `n_low_local`, `n_upp_local`, `m_ineq_low`, `m_ineq_upp` of
`hiopNlpFormulation`. Code: hiopNlpFormulation.hpp:240-244. -/
structure Counts where
  nLow : ℤ
  nUpp : ℤ
  mLow : ℤ
  mUpp : ℤ

/-- `timesVec(beta, y, alpha, x)`: `y := beta*y + alpha*A*x`. Code: hiopMatrix.hpp:76. -/
def timesVec {p q : ℕ} (A : Matrix (Fin p) (Fin q) K) (beta : K) (y : RVec K p) (alpha : K)
    (x : RVec K q) : RVec K p := fun i => beta * y i + alpha * (A.mulVec x) i

/-- `transTimesVec(beta, y, alpha, x)`: `y := beta*y + alpha*A'*x`. Code: hiopMatrix.hpp:80. -/
def transTimesVec {p q : ℕ} (A : Matrix (Fin p) (Fin q) K) (beta : K) (y : RVec K q) (alpha : K)
    (x : RVec K p) : RVec K q := fun j => beta * y j + alpha * (A.transpose.mulVec x) j

/-- `setToZero`. Code: hiopVector.hpp:74. -/
def zeroVec (p : ℕ) : RVec K p := fun _ => 0

/-- `Dx_`, hiopKKTLinSys.cpp:562-565 (same lines in every `update`, e.g. 795-797, 1073-1075,
hiopKKTLinSysMDS.cpp:153-157). -/
def barrierDx (b : Bounds K n m) (it : It K n mc m) : RVec K n :=
  axdzpySel (axdzpySel (zeroVec n) 1 it.zl it.sxl b.ixl) 1 it.zu it.sxu b.ixu

/-- `Dd_`, hiopKKTLinSys.cpp:568-571 (same lines 801-803 and 1970-1972). -/
def barrierDd (b : Bounds K n m) (it : It K n mc m) : RVec K m :=
  axdzpySel (axdzpySel (zeroVec m) 1 it.vl it.sdl b.idl) 1 it.vu it.sdu b.idu

/-- `compute_directions_for_full_space`, hiopKKTLinSys.cpp:218-287: slack and bound-multiplier
directions from the directions in `x` and `d`. The `DEEPCHECKS` assertions are omitted. -/
def fullSpace (b : Bounds K n m) (c : Counts) (it : It K n mc m) (r : Resid K n mc m)
    (dir : It K n mc m) : It K n mc m :=
  let dir : It K n mc m :=
    if c.nLow > 0 then
      let sxl := selectPattern (axpy r.rxl 1 dir.x) b.ixl
      let zl := componentDivSel (axzpy r.rszl (-1) it.zl sxl) it.sxl b.ixl
      { dir with sxl := sxl, zl := zl }
    else { dir with sxl := zeroVec n, zl := zeroVec n }
  let dir : It K n mc m :=
    if c.nUpp > 0 then
      let sxu := selectPattern (axpy r.rxu (-1) dir.x) b.ixu
      let zu := componentDivSel (selectPattern (axzpy r.rszu (-1) it.zu sxu) b.ixu) it.sxu b.ixu
      { dir with sxu := sxu, zu := zu }
    else { dir with sxu := zeroVec n, zu := zeroVec n }
  let dir : It K n mc m :=
    if c.mLow > 0 then
      let sdl := selectPattern (axpy r.rdl 1 dir.d) b.idl
      let vl := componentDivSel (selectPattern (axzpy r.rsvl (-1) it.vl sdl) b.idl) it.sdl b.idl
      { dir with sdl := sdl, vl := vl }
    else { dir with sdl := zeroVec m, vl := zeroVec m }
  if c.mUpp > 0 then
    let sdu := selectPattern (axpy r.rdu (-1) dir.d) b.idu
    let vu := componentDivSel (selectPattern (axzpy r.rsvu (-1) it.vu sdu) b.idu) it.sdu b.idu
    { dir with sdu := sdu, vu := vu }
  else { dir with sdu := zeroVec m, vu := zeroVec m }

/-- `rx_tilde_`, hiopKKTLinSys.cpp:602-617 (same lines 831-846 and 1999-2014). -/
def rxTilde (b : Bounds K n m) (c : Counts) (it : It K n mc m) (r : Resid K n mc m) : RVec K n :=
  let t := r.rx
  let t := if c.nLow > 0 then
      axdzpySel t 1 (axzpy r.rszl (-1) it.zl r.rxl) it.sxl b.ixl else t
  if c.nUpp > 0 then axdzpySel t (-1) (axzpy r.rszu (-1) it.zu r.rxu) it.sxu b.ixu else t

/-- `ryd2`, hiopKKTLinSys.cpp:625-643, resp. `rd_tilde_`, same lines 848-865 and 2017-2033. -/
def rdTilde (b : Bounds K n m) (c : Counts) (it : It K n mc m) (r : Resid K n mc m) : RVec K m :=
  let t := r.rd
  let t := if c.mLow > 0 then
      axdzpySel t 1 (axzpy r.rsvl (-1) it.vl r.rdl) it.sdl b.idl else t
  if c.mUpp > 0 then axdzpySel t (-1) (axzpy r.rsvu (-1) it.vu r.rdu) it.sdu b.idu else t

/-- A solver for the (x, yc, yd) system: right-hand sides to directions, or failure. Code: hiopKKTLinSys.hpp:317. -/
abbrev Solve3 (K : Type*) (n mc m : ℕ) :=
  RVec K n → RVec K mc → RVec K m → Option (RVec K n × RVec K mc × RVec K m)

/-- A solver for the (x, d, yc, yd) system. Code: hiopKKTLinSys.hpp:360. -/
abbrev Solve4 (K : Type*) (n mc m : ℕ) :=
  RVec K n → RVec K m → RVec K mc → RVec K m →
    Option (RVec K n × RVec K m × RVec K mc × RVec K m)

/-- `hiopKKTLinSysCompressedXYcYd::computeDirections`, hiopKKTLinSys.cpp:585-690. `ddInv` is the
member `Dd_inv_` left behind by the last matrix build; a failed solve returns `false` (`none`). -/
def xycydDirections (b : Bounds K n m) (c : Counts) (it : It K n mc m) (ddInv : RVec K m)
    (solveCompressed : Solve3 K n mc m) (r : Resid K n mc m) (dir : It K n mc m) :
    Option (It K n mc m) :=
  let ryd2 := rdTilde b c it r
  let rydTilde := axzpy r.ryd 1 ryd2 ddInv
  match solveCompressed (rxTilde b c it r) r.ryc rydTilde with
  | none => none
  | some (dx, dyc, dyd) =>
    let dd := componentMult (axpy ryd2 1 dyd) ddInv
    some (fullSpace b c it r { dir with x := dx, yc := dyc, yd := dyd, d := dd })

/-- `hiopKKTLinSysCompressedXDYcYd::computeDirections`, hiopKKTLinSys.cpp:818-908. -/
def xdycydDirections (b : Bounds K n m) (c : Counts) (it : It K n mc m)
    (solveCompressed : Solve4 K n mc m) (r : Resid K n mc m) (dir : It K n mc m) :
    Option (It K n mc m) :=
  match solveCompressed (rxTilde b c it r) (rdTilde b c it r) r.ryc r.ryd with
  | none => none
  | some (dx, dd, dyc, dyd) =>
    some (fullSpace b c it r { dir with x := dx, d := dd, yc := dyc, yd := dyd })

/-! ## Matrix builds and compressed solves -/

/-- `Dd_inv_` of the MDS and dense builds: `copyFrom(delta_wd)`, two `axdzpy_w_pattern`,
`invert()`; hiopKKTLinSysMDS.cpp:280-286, hiopKKTLinSysDense.hpp:142-148. -/
def ddInvFresh (b : Bounds K n m) (it : It K n mc m) (dl : Deltas K n mc m) : RVec K m :=
  fun i => 1 / (axdzpySel (axdzpySel dl.wd 1 it.vl it.sdl b.idl) 1 it.vu it.sdu b.idu) i

/-- `Dd_inv_` after one more build of the sparse (x,yc,yd) matrix, as a function of its value
before: `axpy(1, delta_wd)`, two `axdzpy_w_pattern`, `invert()`, `axpy(1, delta_cd)`;
hiopKKTLinSysSparse.cpp:166-174. The vector is not reset, neither here nor in `update`. -/
def ddInvSparse (b : Bounds K n m) (it : It K n mc m) (dl : Deltas K n mc m) (old : RVec K m) :
    RVec K m :=
  let v := axpy old 1 dl.wd
  let v := axdzpySel v 1 it.vl it.sdl b.idl
  let v := axdzpySel v 1 it.vu it.sdu b.idu
  let v : RVec K m := fun i => 1 / v i
  axpy v 1 dl.cd

/-- `Dd_inv_` of the quasi-Newton `update`, hiopKKTLinSys.cpp:1080-1088. -/
def ddInvLowRank (b : Bounds K n m) (it : It K n mc m) : RVec K m := fun i => 1 / barrierDd b it i

/-- `hiopKKTLinSysLowRank::solveCompressed`, hiopKKTLinSys.cpp:1110-1190. `hsolve` is the
application of the inverse of the quasi-Newton matrix plus barrier diagonal
(`HessLowRank->solve`), `nmat` the matrix returned by `symMatTimesInverseTimesMatTrans` for the
stacked Jacobian, `lin` the dense solve with its argument matrix. Stacked vectors and matrices are
kept as pairs of blocks (`copyRowsFrom`, `copyFromStarting`, `copyToStarting` with offset `m_eq`). -/
def lowRankSolve (M : Mats K n mc m) (ddInv : RVec K m) (hsolve : RVec K n → RVec K n)
    (nmat : Matrix (Fin mc ⊕ Fin m) (Fin n) K → Matrix (Fin mc ⊕ Fin m) (Fin mc ⊕ Fin m) K)
    (lin : Matrix (Fin mc ⊕ Fin m) (Fin mc ⊕ Fin m) K → (Fin mc ⊕ Fin m → K) →
      (Fin mc ⊕ Fin m → K)) : Solve3 K n mc m := fun rx ryc ryd =>
  let J : Matrix (Fin mc ⊕ Fin m) (Fin n) K := Matrix.of (Sum.elim M.Jc M.Jd)
  let N := nmat J + Matrix.diagonal (Sum.elim (fun _ => 0) ddInv)
  let dx := hsolve rx
  let rhs : Fin mc ⊕ Fin m → K := fun k => -1 * Sum.elim ryc ryd k + 1 * (J.mulVec dx) k
  let y := lin N rhs
  let dyc : RVec K mc := fun i => y (Sum.inl i)
  let dyd : RVec K m := fun i => y (Sum.inr i)
  let rx : RVec K n := fun j => 1 * rx j + -1 * (J.transpose.mulVec y) j
  let dx := hsolve rx
  some (dx, dyc, dyd)

/-- One pass of the refinement loop and its exits, hiopKKTLinSys.cpp:1250-1310: `x` is set to the
buffer `X` filled by `dposvx` at the start of *every* pass, the correction is added to `x` at the
end of the pass. `fuel` is the number of remaining refinements. -/
def refineLoop {p : ℕ} (A : Matrix (Fin p) (Fin p) K) (rhs X : RVec K p)
    (correct : RVec K p → RVec K p) (tol : K) : ℕ → RVec K p → RVec K p
  | fuel, _x =>
    let x := X
    let resid := timesVec A 1 rhs (-1) x
    if infnorm resid < tol then x
    else match fuel with
      | 0 => x
      | fuel + 1 => refineLoop A rhs X correct tol fuel (axpy x 1 (correct resid))

/-- `solveWithRefin`, hiopKKTLinSys.cpp:1192-1350; `dposvx` answers the first solve, `correct` the
Cholesky solve of the refinement, `MAX_ITER_REFIN` is 3. The return code is the constant 0. -/
def solveWithRefin {p : ℕ} (A : Matrix (Fin p) (Fin p) K) (rhs : RVec K p)
    (dposvx correct : RVec K p → RVec K p) (tol : K) : RVec K p × ℤ :=
  (refineLoop A rhs (dposvx rhs) correct tol 3 rhs, 0)

/-- `hiopKKTLinSysCondensedSparse::solve_compressed_direct`,
hiopKKTLinSysSparseCondensed.cpp:345-397 (no equality constraints: `mc = 0`). `lin` solves with the
condensed matrix, `hd` is `Hd_ = Dd + delta_wd`. -/
def condensedSolve (M : Mats K n 0 m) (hd : RVec K m) (lin : RVec K n → Option (RVec K n)) :
    Solve4 K n 0 m := fun rx rd _ryc ryd =>
  let t := axpy (componentMult ryd hd) 1 rd
  let rhs := transTimesVec M.Jd 1 rx 1 t
  match lin rhs with
  | none => none
  | some dx =>
    let dd := timesVec M.Jd (-1) ryd 1 dx
    let dyd := axpy (componentMult dd hd) (-1) rd
    some (dx, dd, fun i => i.elim0, dyd)

/-- The condensed matrix `J'*D*J + H + Dx + delta_wx`,
hiopKKTLinSysSparseCondensed.cpp:166-167, 216-317; assembled from `Hess_lower_csr_`,
`Hess_upper_csr_` with zeroed diagonal and two diagonals. The Hessian triplet stores the upper
triangle, `H` is its symmetric completion. `delta_cd` does not enter. -/
def condensedMatrix (M : Mats K n 0 m) (dx wx : RVec K n) (hd : RVec K m) :
    Matrix (Fin n) (Fin n) K :=
  fun i j => M.H i j + (if i = j then dx i + wx i else 0)
    + ∑ k, M.Jd k i * (hd k * M.Jd k j)

/-- `hiopKKTLinSysNormalEquation::computeDirections`, hiopKKTLinSys.cpp:1987-2101; `hx` is
`Hx_ = Dx + delta_wx + diag(Hess)`, `hd` is `Hd_ = Dd + delta_wd`, `lin` solves the normal
equations. -/
def normalDirections (b : Bounds K n m) (c : Counts) (it : It K n mc m) (M : Mats K n mc m)
    (hx : RVec K n) (hd : RVec K m)
    (lin : RVec K mc → RVec K m → Option (RVec K mc × RVec K m)) (r : Resid K n mc m)
    (dir : It K n mc m) : Option (It K n mc m) :=
  let rxt := rxTilde b c it r
  let rdt := rdTilde b c it r
  let xw := componentDiv rxt hx
  let ryct := timesVec M.Jc (-1) r.ryc 1 xw
  let dw := componentDiv rdt hd
  let rydt := axpy (timesVec M.Jd (-1) r.ryd 1 xw) (-1) dw
  match lin ryct rydt with
  | none => none
  | some (dyc, dyd) =>
    let dx := componentDiv (transTimesVec M.Jd 1 (transTimesVec M.Jc 1 rxt (-1) dyc) (-1) dyd) hx
    let dd := componentDiv (axpy rdt 1 dyd) hd
    some (fullSpace b c it r { dir with x := dx, d := dd, yc := dyc, yd := dyd })


/-! ## Full operator, error measure, curvature test -/

/-- `hiopMatVecKKTFullOpr::times_vec`, hiopKKTLinSys.cpp:1619-1731; the twelve parts of the
argument are the parts of a direction, the twelve parts of the result those of a residual (in the
order rx, rd, ryc, ryd, rxl, rxu, rdl, rdu, rszl, rszu, rsvl, rsvu). -/
def kktTimes (b : Bounds K n m) (M : Mats K n mc m) (dl : Deltas K n mc m) (it x : It K n mc m) :
    Resid K n mc m where
  rx :=
    let y := timesVec M.H 0 (zeroVec n) 1 x.x
    let y := axzpy y 1 dl.wx x.x
    let y := transTimesVec M.Jc 1 y 1 x.yc
    let y := transTimesVec M.Jd 1 y 1 x.yd
    axpy (axpy y (-1) x.zl) 1 x.zu
  rd := axzpy (axpy (axpy (axpy (zeroVec m) (-1) x.yd) (-1) x.vl) 1 x.vu) 1 dl.wd x.d
  ryc := axzpy (timesVec M.Jc 0 (zeroVec mc) 1 x.x) (-1) dl.cc x.yc
  ryd := axzpy (axpy (timesVec M.Jd 0 (zeroVec m) 1 x.x) (-1) x.d) (-1) dl.cd x.yd
  rxl := selectPattern (axpy x.sxl (-1) x.x) b.ixl
  rxu := selectPattern (axpy x.sxu 1 x.x) b.ixu
  rdl := selectPattern (axpy x.sdl (-1) x.d) b.idl
  rdu := selectPattern (axpy x.sdu 1 x.d) b.idu
  rszl := axzpy (axzpy (zeroVec n) 1 it.sxl x.zl) 1 it.zl x.sxl
  rszu := axzpy (axzpy (zeroVec n) 1 it.sxu x.zu) 1 it.zu x.sxu
  rsvl := axzpy (axzpy (zeroVec m) 1 it.sdl x.vl) 1 it.vl x.sdl
  rsvu := axzpy (axzpy (zeroVec m) 1 it.sdu x.vu) 1 it.vu x.sdu

/-- `hiopMatVecKKTFullOpr::trans_times_vec`, hiopKKTLinSys.cpp:1754-1868. -/
def kktTransTimes (b : Bounds K n m) (M : Mats K n mc m) (dl : Deltas K n mc m)
    (it x : It K n mc m) : Resid K n mc m where
  rx :=
    let y := timesVec M.H 0 (zeroVec n) 1 x.x
    let y := axzpy y 1 dl.wx x.x
    let y := transTimesVec M.Jc 1 y 1 x.yc
    let y := transTimesVec M.Jd 1 y 1 x.yd
    axpy (axpy y (-1) x.zl) 1 x.zu
  rd := axzpy (axpy (axpy (axpy (zeroVec m) (-1) x.yd) (-1) x.vl) 1 x.vu) 1 dl.wd x.d
  ryc := axzpy (timesVec M.Jc 0 (zeroVec mc) 1 x.x) (-1) dl.cc x.yc
  ryd := axzpy (axpy (timesVec M.Jd 0 (zeroVec m) 1 x.x) (-1) x.d) (-1) dl.cd x.yd
  rxl := selectPattern (axzpy (axpy (zeroVec n) (-1) x.x) 1 it.sxl x.sxl) b.ixl
  rxu := selectPattern (axzpy x.x 1 it.sxu x.sxu) b.ixu
  rdl := selectPattern (axzpy (axpy (zeroVec m) (-1) x.d) 1 it.sdl x.sdl) b.idl
  rdu := selectPattern (axzpy (axpy (zeroVec m) 1 x.d) 1 it.sdu x.sdu) b.idu
  rszl := axzpy x.zl 1 it.zl x.sxl
  rszu := axzpy x.zu 1 it.zu x.sxu
  rsvl := axzpy x.vl 1 it.vl x.sdl
  rsvu := axzpy x.vu 1 it.vu x.sdu

/-- `errorKKT`, hiopKKTLinSys.cpp:88-213 (`HIOP_DEEPCHECKS` builds): the vectors whose norms are
logged; the returned value is the maximum of `1e20` and their norms. -/
def kktError (b : Bounds K n m) (M : Mats K n mc m) (dl : Deltas K n mc m) (it : It K n mc m)
    (r : Resid K n mc m) (d : It K n mc m) : Resid K n mc m where
  rx :=
    let y := timesVec M.H 1 r.rx (-1) d.x
    let y := axzpy y (-1) dl.wx d.x
    let y := transTimesVec M.Jc 1 y (-1) d.yc
    let y := transTimesVec M.Jd 1 y (-1) d.yd
    axpy (axpy y 1 d.zl) (-1) d.zu
  rd := axzpy (axpy (axpy (axpy r.rd 1 d.yd) 1 d.vl) (-1) d.vu) (-1) dl.wd d.d
  ryc := axzpy (timesVec M.Jc 1 r.ryc (-1) d.x) 1 dl.cc d.yc
  ryd := axzpy (axpy (timesVec M.Jd 1 r.ryd (-1) d.x) 1 d.d) 1 dl.cd d.yd
  rxl := selectPattern (axpy (axpy r.rxl 1 d.x) (-1) d.sxl) b.ixl
  rxu := selectPattern (axpy (axpy r.rxu (-1) d.x) (-1) d.sxu) b.ixu
  rdl := selectPattern (axpy (axpy r.rdl 1 d.d) (-1) d.sdl) b.idl
  rdu := selectPattern (axpy (axpy r.rdu (-1) d.d) (-1) d.sdu) b.idu
  rszl := axzpy (axzpy r.rszl (-1) it.sxl d.zl) (-1) it.zl d.sxl
  rszu := axzpy (axzpy r.rszu (-1) it.sxu d.zu) (-1) it.zu d.sxu
  rsvl := axzpy (axzpy r.rsvl (-1) it.sdl d.vl) (-1) it.vl d.sdl
  rsvu := axzpy (axzpy r.rsvu (-1) it.sdu d.vu) (-1) it.vu d.sdu

/-- The curvature `dWd` of `test_direction`, hiopKKTLinSys.cpp:469-497 (and, with the diagonals
recomputed, 2118-2152). -/
def curvature (b : Bounds K n m) (M : Mats K n mc m) (dl : Deltas K n mc m) (it dir : It K n mc m) :
    K :=
  let w := timesVec M.H 0 (zeroVec n) 1 dir.x
  let s := dot w dir.x
  let w := axzpy (componentMult (barrierDx b it) dir.x) 1 dl.wx dir.x
  let s := s + dot w dir.x
  let wd := axzpy (componentMult (barrierDd b it) dir.d) 1 dl.wd dir.d
  s + dot wd dir.d

/-- `test_direction`, hiopKKTLinSys.cpp:455-510, 2104-2166; `twonorm^2` is the inner product. -/
def testDirection (b : Bounds K n m) (M : Mats K n mc m) (dl : Deltas K n mc m)
    (it dir : It K n mc m) (fact : K) : Bool :=
  let nrmsq := dot dir.x dir.x + dot dir.d dir.d
  if curvature b M dl it dir < nrmsq * fact then false else true

end Hiop.Kkt
