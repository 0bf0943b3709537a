import Verif.Csr.Model

/-!
# The condensed KKT matrix

Model of `hiopKKTLinSysCondensedSparse::build_kkt_matrix` (src/Optimization/hiopKKTLinSysSparseCondensed.cpp)
in CPU compute mode and of the copy into the triplets of MA57 made by `hiopLinSolverSparseCsrMa57`
(src/LinAlg/hiopLinSolverSymSparseMA57.hpp).
-/

namespace Hiop.Csr

open Hiop.Sparse

variable {K : Type*} [Field K] [LinearOrder K] [IsStrictOrderedRing K]

/-- The CSR members of the class, hiopKKTLinSysSparseCondensed.hpp:166-199: `JacD_`, `JacDt_`, `JtDiagJ_`,
`Hess_upper_csr_`, `Hess_lower_csr_`, `Diag_Dx_deltawx_`, `Hess_upper_plus_diag_`, `Hess_csr_`,
`M_condensed_`. All are null before the first call. -/
structure Cond (K : Type*) where
  J : CsrMat K
  Jt : CsrMat K
  P : CsrMat K
  U : CsrMat K
  L : CsrMat K
  D : CsrMat K
  UD : CsrMat K
  H : CsrMat K
  M : CsrMat K

/-- What one call reads: the triplets of the inequality Jacobian and of the Hessian, the diagonals
`Dx_`, `Dd_` and the perturbations `delta_wx`, `delta_wd`. -/
structure CondIn (K : Type*) where
  jac : List (Ent K)
  hess : List (Ent K)
  dx : ℕ → K
  wx : ℕ → K
  dd : ℕ → K
  wd : ℕ → K

/-- `Hd_`, hiopKKTLinSysSparseCondensed.cpp:166-167 (fresh copies on every call). -/
def CondIn.hd (u : CondIn K) (k : ℕ) : K := u.dd k + u.wd k

/-- `Dx_plus_deltawx_`, hiopKKTLinSysSparseCondensed.cpp:195-202. -/
def CondIn.dxw (u : CondIn K) (i : ℕ) : K := u.dx i + u.wx i

/-- Symbolic conversion of the Jacobian and of its transpose, first call only,
hiopKKTLinSysSparseCondensed.cpp:213-222. -/
def jacSym (m n : ℕ) (es : List (Ent K)) (g : ℕ → Garbage K) : Option (CsrMat K × CsrMat K) :=
  (formSymbolic (empty (g 0)) m n es (g 1)).bind fun J =>
  (transSymbolicCsr (empty (g 2)) J (g 3)).map fun Jt => (J, Jt)

/-- Numeric conversion of a triplet matrix and of its transpose, hiopKKTLinSysSparseCondensed.cpp:226-227
(Jacobian), 308-309 (Hessian). -/
def convNum (m n : ℕ) (A At : CsrMat K) (es : List (Ent K)) : Option (CsrMat K × CsrMat K) :=
  (formNumeric A m n es).bind fun A' =>
  (transNumericCsr At A').map fun At' => (A', At')

/-- Allocation and symbolic phase of the product, hiopKKTLinSysSparseCondensed.cpp:239-240. -/
def prodSym (J Jt : CsrMat K) (g : Garbage K) : Option (CsrMat K) :=
  (timesAlloc Jt J g).bind fun M0 => timesSymbolic Jt M0 J

/-- Numeric phase of the product, hiopKKTLinSysSparseCondensed.cpp:247-249. -/
def prodNum (m : ℕ) (hd : ℕ → K) (J Jt P : CsrMat K) : Option (CsrMat K × CsrMat K) :=
  (scaleRows J m hd).bind fun J' =>
  (timesNumeric Jt 0 P 1 J').map fun P' => (J', P')

/-- `add_matrix_alloc`, `add_matrix_symbolic`, `add_matrix_numeric` with factors one,
hiopKKTLinSysSparseCondensed.cpp:284-286, 290-292, 295-297. -/
def sumNew (X Y : CsrMat K) (g : Garbage K) : Option (CsrMat K) :=
  (addAlloc X Y g).bind fun M0 => (addSymbolic X M0 Y).bind fun M => addNumeric X M 1 Y 1

/-- First call of `build_kkt_matrix`, hiopKKTLinSysSparseCondensed.cpp:213-297. -/
def buildFirst (m n : ℕ) (g : ℕ → Garbage K) (u : CondIn K) : Option (Cond K) :=
  (jacSym m n u.jac g).bind fun a =>
  (convNum m n a.1 a.2 u.jac).bind fun b =>
  (prodSym b.1 b.2 (g 4)).bind fun P0 =>
  (prodNum m u.hd b.1 b.2 P0).bind fun q =>
  (formSymbolic (empty (g 5)) n n u.hess (g 6)).bind fun U0 =>
  (formNumeric U0 n n u.hess).bind fun U1 =>
  (transSymbolicCsr (empty (g 7)) U1 (g 8)).bind fun L0 =>
  (transNumericCsr L0 U1).bind fun L =>
  (setDiag U1 0).bind fun U =>
  if L.nnz = U.nnz then
    (diagSymbolic (empty (g 9)) n (g 10)).bind fun D0 =>
    (diagNumeric D0 n u.dxw).bind fun D =>
    (sumNew U D (g 11)).bind fun UD =>
    (sumNew L UD (g 12)).bind fun H =>
    (sumNew H q.2 (g 13)).map fun M => ⟨q.1, b.2, q.2, U, L, D, UD, H, M⟩
  else none

/-- Later calls of `build_kkt_matrix`, hiopKKTLinSysSparseCondensed.cpp:226-227, 247-249, 308-315. -/
def buildNext (m n : ℕ) (c : Cond K) (u : CondIn K) : Option (Cond K) :=
  (convNum m n c.J c.Jt u.jac).bind fun b =>
  (prodNum m u.hd b.1 b.2 c.P).bind fun q =>
  (convNum n n c.U c.L u.hess).bind fun h =>
  (setDiag h.1 0).bind fun U =>
  (diagNumeric c.D n u.dxw).bind fun D =>
  (addNumeric U c.UD 1 D 1).bind fun UD =>
  (addNumeric h.2 c.H 1 UD 1).bind fun H =>
  (addNumeric H c.M 1 q.2 1).map fun M => ⟨q.1, b.2, q.2, U, h.2, D, UD, H, M⟩

/-- `build_kkt_matrix`, hiopKKTLinSysSparseCondensed.cpp:104-343, CPU mode; the null tests of the members
distinguish the first call. -/
def build (m n : ℕ) (g : ℕ → Garbage K) (c : Option (Cond K)) (u : CondIn K) : Option (Cond K) :=
  match c with
  | none => buildFirst m n g u
  | some c => buildNext m n c u

/-- A history of calls on a new object. -/
def buildAll (m n : ℕ) (g : ℕ → Garbage K) : List (CondIn K) → Option (Option (Cond K))
  | us => us.foldlM (fun c u => (build m n g c u).map some) none

/-- The triplets handed to MA57: `fill_triplet_index_arrays` and `fill_triplet_values_array`,
hiopLinSolverSymSparseMA57.hpp:268-324, without the shift to 1-based indices. -/
def ma57Triplets (M : CsrMat K) : List (Ent K) :=
  (List.range M.nrows).flatMap fun r =>
    ((rowIdx M r).filter fun p => M.col p ≤ r).map fun p => ⟨r, M.col p, M.val p⟩

end Hiop.Csr
