import Verif.Sparse.Kkt
import Verif.Range.Props

/-!
# C57: the full unsymmetric sparse system — model

Source: `src/Optimization/hiopKKTLinSysSparse.cpp:867-1180` (`hiopKKTLinSysSparseFull`). The vectors
are packed and unpacked with the copies of `Verif/Range`, the matrix is written block after block
into one triplet store. Timers, logging and the files written with `write_kkt` are left out.
-/

set_option linter.unusedSectionVars false

namespace Hiop.Sparse

open Hiop.Vec Hiop.Iterate Hiop.Kkt Hiop.Range

variable {K : Type*} [Field K] [LinearOrder K] [IsStrictOrderedRing K] {n mc m p q : ℕ}

/-- `m_ineq_low()`, `m_ineq_upp()`, `n_low()`, `n_upp()`. -/
structure BCounts where
  ndl : ℕ
  ndu : ℕ
  nxl : ℕ
  nxu : ℕ

/-- `n2st`, first row of the inequality slacks, hiopKKTLinSysSparse.cpp:893. -/
def st2 (n mc m : ℕ) : ℕ := n + mc + m

/-- `n3st`, first row of the bound multipliers, hiopKKTLinSysSparse.cpp:894. -/
def st3 (n mc m : ℕ) : ℕ := st2 n mc m + m

/-- `n4st`, first row of the bound slacks, hiopKKTLinSysSparse.cpp:895. -/
def st4 (c : BCounts) (n mc m : ℕ) : ℕ := st3 n mc m + c.ndl + c.ndu + c.nxl + c.nxu

/-- `n`, the order of the system, hiopKKTLinSysSparse.cpp:896. -/
def fullN (c : BCounts) (n mc m : ℕ) : ℕ := st4 c n mc m + c.ndl + c.ndu + c.nxl + c.nxu

/-- `nnz`, hiopKKTLinSysSparse.cpp:900-904. -/
def fullNnz (c : BCounts) (S : SpMats K) (n mc m : ℕ) : ℕ :=
  S.H.length + numOffDiag S.H + 2 * S.Jc.length + 2 * S.Jd.length
    + 2 * (m + c.ndl + c.ndu + c.nxl + c.nxu + c.ndl + c.ndu + c.nxl + c.nxu)
    + c.ndl + c.ndu + c.nxl + c.nxu + st3 n mc m

/-- One statement `Msys->op(..., dest_nnz_st, ...); dest_nnz_st += inc;`. -/
structure Blk (K : Type*) where
  inc : ℕ
  wr : Store K → ℕ → Option (Store K)

/-- The statements in sequence. -/
def runBlks (st : Store K) (k : ℕ) : List (Blk K) → Option (Store K × ℕ)
  | [] => some (st, k)
  | B :: Bs => match B.wr st k with
    | none => none
    | some st => runBlks st (k + B.inc) Bs

/-- The statements of `hiopKKTLinSysSparseFull::build_kkt_matrix` that write to the matrix,
hiopKKTLinSysSparse.cpp:925-1046. `hx`, `hd` are `Hx_`, `Hd_` after the additions of lines 1027 and
1036. -/
def fullBlks (nnz : ℕ) (b : Bounds K n m) (c : BCounts) (S : SpMats K) (it : It K n mc m)
    (hx : RVec K n) (hd : RVec K m) (dl : Deltas K n mc m) : List (Blk K) :=
  let n2 := st2 n mc m
  let n3 := st3 n mc m
  let n4 := st4 c n mc m
  [⟨numOffDiag S.H, fun s k => copySubmatrixFrom nnz s S.H 0 0 k true false⟩,
   ⟨S.H.length, fun s k => copySubmatrixFrom nnz s S.H 0 0 k false true⟩,
   ⟨S.Jc.length, fun s k => copySubmatrixFrom nnz s S.Jc 0 n k false true⟩,
   ⟨S.Jd.length, fun s k => copySubmatrixFrom nnz s S.Jd 0 (n + mc) k false true⟩,
   ⟨c.nxl, fun s k => constDiagColPattern nnz s (-1) 0 (n3 + c.ndl + c.ndu) k c.nxl b.ixl⟩,
   ⟨c.nxu, fun s k => constDiagColPattern nnz s 1 0 (n3 + c.ndl + c.ndu + c.nxl) k c.nxu b.ixu⟩,
   ⟨S.Jc.length, fun s k => copySubmatrixFrom nnz s S.Jc n 0 k false false⟩,
   ⟨S.Jd.length, fun s k => copySubmatrixFrom nnz s S.Jd (n + mc) 0 k false false⟩,
   ⟨m, fun s k => copyDiagToSubblock nnz s (-1) (n + mc) n2 k m⟩,
   ⟨m, fun s k => copyDiagToSubblock nnz s (-1) n2 (n + mc) k m⟩,
   ⟨c.ndl, fun s k => constDiagColPattern nnz s (-1) n2 n3 k c.ndl b.idl⟩,
   ⟨c.ndu, fun s k => constDiagColPattern nnz s 1 n2 (n3 + c.ndl) k c.ndu b.idu⟩,
   ⟨c.ndl, fun s k => constDiagRowPattern nnz s (-1) n3 n2 k c.ndl b.idl⟩,
   ⟨c.ndl, fun s k => copyDiagToSubblock nnz s 1 n3 n4 k c.ndl⟩,
   ⟨c.ndu, fun s k => constDiagRowPattern nnz s 1 (n3 + c.ndl) n2 k c.ndu b.idu⟩,
   ⟨c.ndu, fun s k => copyDiagToSubblock nnz s 1 (n3 + c.ndl) (n4 + c.ndl) k c.ndu⟩,
   ⟨c.nxl, fun s k => constDiagRowPattern nnz s (-1) (n3 + c.ndl + c.ndu) 0 k c.nxl b.ixl⟩,
   ⟨c.nxl, fun s k => copyDiagToSubblock nnz s 1 (n3 + c.ndl + c.ndu) (n4 + c.ndl + c.ndu) k c.nxl⟩,
   ⟨c.nxu, fun s k => constDiagRowPattern nnz s 1 (n3 + c.ndl + c.ndu + c.nxl) 0 k c.nxu b.ixu⟩,
   ⟨c.nxu, fun s k => copyDiagToSubblock nnz s 1 (n3 + c.ndl + c.ndu + c.nxl)
      (n4 + c.ndl + c.ndu + c.nxl) k c.nxu⟩,
   ⟨c.ndl, fun s k => copyDiagToSubblockSel nnz s it.sdl n4 n3 k c.ndl b.idl⟩,
   ⟨c.ndl, fun s k => copyDiagToSubblockSel nnz s it.vl n4 n4 k c.ndl b.idl⟩,
   ⟨c.ndu, fun s k => copyDiagToSubblockSel nnz s it.sdu (n4 + c.ndl) (n3 + c.ndl) k c.ndu b.idu⟩,
   ⟨c.ndu, fun s k => copyDiagToSubblockSel nnz s it.vu (n4 + c.ndl) (n4 + c.ndl) k c.ndu b.idu⟩,
   ⟨c.nxl, fun s k => copyDiagToSubblockSel nnz s it.sxl (n4 + c.ndl + c.ndu) (n3 + c.ndl + c.ndu)
      k c.nxl b.ixl⟩,
   ⟨c.nxl, fun s k => copyDiagToSubblockSel nnz s it.zl (n4 + c.ndl + c.ndu) (n4 + c.ndl + c.ndu)
      k c.nxl b.ixl⟩,
   ⟨c.nxu, fun s k => copyDiagToSubblockSel nnz s it.sxu (n4 + c.ndl + c.ndu + c.nxl)
      (n3 + c.ndl + c.ndu + c.nxl) k c.nxu b.ixu⟩,
   ⟨c.nxu, fun s k => copyDiagToSubblockSel nnz s it.zu (n4 + c.ndl + c.ndu + c.nxl)
      (n4 + c.ndl + c.ndu + c.nxl) k c.nxu b.ixu⟩,
   ⟨n, fun s k => copySubDiagonalFrom nnz s 0 n (at1 hx) k 1⟩,
   ⟨m, fun s k => copySubDiagonalFrom nnz s n2 m (at1 hd) k 1⟩,
   ⟨mc, fun s k => copySubDiagonalFrom nnz s n mc (at1 dl.cc) k (-1)⟩,
   ⟨m, fun s k => copySubDiagonalFrom nnz s (n + mc) m (at1 dl.cd) k (-1)⟩]

/-- `hiopKKTLinSysSparseFull::build_kkt_matrix`, hiopKKTLinSysSparse.cpp:867-1067: the vectors `Hx_`,
`Hd_` (`hx0`, `hd0` before the call) are increased by the perturbations, and the matrix is written;
`Msys->setToZero()` only clears the values, all of which are overwritten. Answers the matrix and the
new `Hx_`, `Hd_`. -/
def buildFull (b : Bounds K n m) (c : BCounts) (S : SpMats K) (it : It K n mc m) (hx0 : RVec K n)
    (hd0 : RVec K m) (dl : Deltas K n mc m) (st : Store K) :
    Option (Store K × RVec K n × RVec K m) :=
  let nnz := fullNnz c S n mc m
  let hx := axpy hx0 1 dl.wx
  let hd := axpy hd0 1 dl.wd
  match runBlks st 0 (fullBlks nnz b c S it hx hd dl) with
  | none => none
  | some (st, k) => if k = nnz then some (st, hx, hd) else none

/-- The right-hand side, hiopKKTLinSysSparse.cpp:1110-1121, with the arguments passed by
`hiopKKTLinSysFull::computeDirections`, hiopKKTLinSys.cpp:1557-1562. -/
def fullRhs (b : Bounds K n m) (c : BCounts) (r : Resid K n mc m)
    (rhs : RVec K (fullN c n mc m)) : Option (RVec K (fullN c n mc m)) := do
  let rhs ← copyToStartingGlobal r.rx rhs (0 : ℕ)
  let rhs ← copyToStartingGlobal r.ryc rhs (n : ℕ)
  let rhs ← copyToStartingGlobal r.ryd rhs (n + mc : ℕ)
  let rhs ← copyToStartingGlobal r.rd rhs (n + mc + m : ℕ)
  let rhs ← packTo r.rdl rhs (n + mc + m + m : ℕ) b.idl
  let rhs ← packTo r.rdu rhs (n + mc + m + m + c.ndl : ℕ) b.idu
  let rhs ← packTo r.rxl rhs (n + mc + m + m + c.ndl + c.ndu : ℕ) b.ixl
  let rhs ← packTo r.rxu rhs (n + mc + m + m + c.ndl + c.ndu + c.nxl : ℕ) b.ixu
  let rhs ← packTo r.rsvl rhs (n + mc + m + m + c.ndl + c.ndu + c.nxl + c.nxu : ℕ) b.idl
  let rhs ← packTo r.rsvu rhs (n + mc + m + m + c.ndl + c.ndu + c.nxl + c.nxu + c.ndl : ℕ) b.idu
  let rhs ← packTo r.rszl rhs
    (n + mc + m + m + c.ndl + c.ndu + c.nxl + c.nxu + c.ndl + c.ndu : ℕ) b.ixl
  packTo r.rszu rhs
    (n + mc + m + m + c.ndl + c.ndu + c.nxl + c.nxu + c.ndl + c.ndu + c.nxl : ℕ) b.ixu

/-- Unpacking of the solution, hiopKKTLinSysSparse.cpp:1147-1158. -/
def fullUnpack (b : Bounds K n m) (c : BCounts) (x : RVec K (fullN c n mc m))
    (dir : It K n mc m) : Option (It K n mc m) := do
  let dx ← startingAtCopyTo x (0 : ℕ) dir.x (0 : ℕ) (-1)
  let dyc ← startingAtCopyTo x (n : ℕ) dir.yc (0 : ℕ) (-1)
  let dyd ← startingAtCopyTo x (n + mc : ℕ) dir.yd (0 : ℕ) (-1)
  let dd ← startingAtCopyTo x (n + mc + m : ℕ) dir.d (0 : ℕ) (-1)
  let dvl ← unpackTo x (n + mc + m + m : ℕ) dir.vl 0 b.idl (-1)
  let dvu ← unpackTo x (n + mc + m + m + c.ndl : ℕ) dir.vu 0 b.idu (-1)
  let dzl ← unpackTo x (n + mc + m + m + c.ndl + c.ndu : ℕ) dir.zl 0 b.ixl (-1)
  let dzu ← unpackTo x (n + mc + m + m + c.ndl + c.ndu + c.nxl : ℕ) dir.zu 0 b.ixu (-1)
  let dsdl ← unpackTo x (n + mc + m + m + c.ndl + c.ndu + c.nxl + c.nxu : ℕ) dir.sdl 0 b.idl (-1)
  let dsdu ← unpackTo x (n + mc + m + m + c.ndl + c.ndu + c.nxl + c.nxu + c.ndl : ℕ) dir.sdu 0
    b.idu (-1)
  let dsxl ← unpackTo x (n + mc + m + m + c.ndl + c.ndu + c.nxl + c.nxu + c.ndl + c.ndu : ℕ)
    dir.sxl 0 b.ixl (-1)
  let dsxu ← unpackTo x
    (n + mc + m + m + c.ndl + c.ndu + c.nxl + c.nxu + c.ndl + c.ndu + c.nxl : ℕ) dir.sxu 0
    b.ixu (-1)
  some { x := dx, d := dd, sxl := dsxl, sxu := dsxu, sdl := dsdl, sdu := dsdu, yc := dyc,
         yd := dyd, zl := dzl, zu := dzu, vl := dvl, vu := dvu }

/-- `hiopKKTLinSysSparseFull::solve`, hiopKKTLinSysSparse.cpp:1070-1180, called from
`hiopKKTLinSysFull::computeDirections`, hiopKKTLinSys.cpp:1545-1567. `lin` is the linear solver
(`none` when it reports a failure), `rhs0` the contents of `rhs_`. Outer `none`: a failed assertion;
`(false, dir)`: the solver failed, `(true, dir')`: success. -/
def fullDirections (b : Bounds K n m) (c : BCounts)
    (lin : RVec K (fullN c n mc m) → Option (RVec K (fullN c n mc m)))
    (rhs0 : RVec K (fullN c n mc m)) (r : Resid K n mc m) (dir : It K n mc m) :
    Option (Bool × It K n mc m) :=
  match fullRhs b c r rhs0 with
  | none => none
  | some rhs => match lin rhs with
    | none => some (false, dir)
    | some x => match fullUnpack b c x dir with
      | none => none
      | some dir' => some (true, dir')

end Hiop.Sparse
