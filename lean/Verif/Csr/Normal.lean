import Verif.Csr.Condensed

/-!
# The normal-equation matrix

Model of `hiopKKTLinSysSparseNormalEqn::build_kkt_matrix` and `solveCompressed`
(src/Optimization/hiopKKTLinSysSparseNormalEqn.cpp) in CPU compute mode.
-/

namespace Hiop.Csr

open Hiop.Sparse

variable {K : Type*} [Field K] [LinearOrder K] [IsStrictOrderedRing K]

/-- The members kept between calls, hiopKKTLinSysSparseNormalEqn.hpp:112-158: `Hess_diag_`, `JacD_`,
`JacDt_`, `JDiagJt_`, `Diag_dualreg_`, `M_normaleqn_`. All are null before the first call. -/
structure Norm (K : Type*) where
  hdg : ℕ → K
  J : CsrMat K
  Jt : CsrMat K
  P : CsrMat K
  D : CsrMat K
  M : CsrMat K

/-- What one call reads: the triplets of the Jacobians and of the Hessian, the diagonals `Dx_`, `Dd_`,
the four perturbations, and whether the kind of the last perturbation update
(`get_curr_delta_type`) is `DualUpdate`. -/
structure NormIn (K : Type*) where
  jc : List (Ent K)
  jd : List (Ent K)
  hess : List (Ent K)
  dx : ℕ → K
  wx : ℕ → K
  dd : ℕ → K
  wd : ℕ → K
  cc : ℕ → K
  cd : ℕ → K
  dual : Bool

/-- `[Hx_; Hd_]`, hiopKKTLinSysSparseNormalEqn.cpp:204-211, 315-316; `hdg` is the stored
`Hess_diag_`. -/
def NormIn.hxd (n : ℕ) (u : NormIn K) (hdg : ℕ → K) (k : ℕ) : K :=
  if k < n then u.dx k + u.wx k + hdg k else u.dd (k - n) + u.wd (k - n)

/-- `dual_reg_copy_`, hiopKKTLinSysSparseNormalEqn.cpp:344-345. -/
def NormIn.reg (mc : ℕ) (u : NormIn K) (i : ℕ) : K := if i < mc then u.cc i else u.cd (i - mc)

/-- The sorted triplets of `[Jc 0; Jd -I]`, hiopKKTLinSysSparseNormalEqn.cpp:269-292. `srt` stands for
`hiopMatrixSparseTriplet::sort` (hiopMatrixSparseTriplet.cpp:1322-1336), that is `std::sort`. -/
def normJac (srt : List (Ent K) → List (Ent K)) (n mc md : ℕ) (u : NormIn K) :
    Option (List (Ent K)) :=
  let nnz := u.jc.length + u.jd.length + md
  (copyRowsBlockFrom nnz (fun _ => ⟨0, 0, 0⟩) u.jc 0 mc 0 0).bind fun st =>
  (copyRowsBlockFrom nnz st u.jd 0 md mc u.jc.length).bind fun st =>
  (copyDiagToSubblock nnz st (-1) mc n (u.jc.length + u.jd.length) md).map fun st =>
  srt (toList st nnz)

/-- The product with the inverse diagonal, hiopKKTLinSysSparseNormalEqn.cpp:313-326; skipped after an
update of the dual perturbations only. Answers the scaled transpose and the product. -/
def normProd (n md : ℕ) (u : NormIn K) (hdg : ℕ → K) (J Jt P : CsrMat K) :
    Option (CsrMat K × CsrMat K) :=
  if u.dual then some (Jt, P)
  else (transNumericCsr Jt J).bind fun Jt' => prodNum (n + md) (fun k => 1 / u.hxd n hdg k) Jt' J P

/-- The dual regularization and the sum, hiopKKTLinSysSparseNormalEqn.cpp:341-349. -/
def normSum (mc md : ℕ) (u : NormIn K) (D M P : CsrMat K) : Option (CsrMat K × CsrMat K) :=
  (setDiag D 0).bind fun D =>
  (diagNumeric D (mc + md) (u.reg mc)).bind fun D =>
  (addNumeric D M 1 P 1).map fun M => (D, M)

/-- First call of `build_kkt_matrix`, hiopKKTLinSysSparseNormalEqn.cpp:149-349. -/
def normFirst (srt : List (Ent K) → List (Ent K)) (n mc md : ℕ) (g : ℕ → Garbage K) (u : NormIn K) :
    Option (Norm K) :=
  if isDiagonal n n u.hess then
    let hdg := extractDiagonal u.hess
    (normJac srt n mc md u).bind fun es =>
    (formSymbolic (empty (g 0)) (mc + md) (n + md) es (g 1)).bind fun J0 =>
    (formNumeric J0 (mc + md) (n + md) es).bind fun J =>
    (transSymbolicCsr (empty (g 2)) J (g 3)).bind fun Jt0 =>
    (transNumericCsr Jt0 J).bind fun Jt1 =>
    (prodSym Jt1 J (g 4)).bind fun P0 =>
    (normProd n md u hdg J Jt1 P0).bind fun q =>
    (diagSymbolic (empty (g 5)) (mc + md) (g 6)).bind fun D0 =>
    (addAlloc D0 q.2 (g 7)).bind fun M0 =>
    (addSymbolic D0 M0 q.2).bind fun M1 =>
    (normSum mc md u D0 M1 q.2).map fun r => ⟨hdg, J, q.1, q.2, r.1, r.2⟩
  else none

/-- Later calls of `build_kkt_matrix`, hiopKKTLinSysSparseNormalEqn.cpp:149, 203-211, 313-326, 341-349:
neither the Jacobians nor the diagonal of the Hessian are read again. -/
def normNext (n mc md : ℕ) (c : Norm K) (u : NormIn K) : Option (Norm K) :=
  if isDiagonal n n u.hess then
    (normProd n md u c.hdg c.J c.Jt c.P).bind fun q =>
    (normSum mc md u c.D c.M q.2).map fun r => ⟨c.hdg, c.J, q.1, q.2, r.1, r.2⟩
  else none

/-- `build_kkt_matrix`, hiopKKTLinSysSparseNormalEqn.cpp:117-379, CPU mode; the null tests of the
members distinguish the first call. -/
def normBuild (srt : List (Ent K) → List (Ent K)) (n mc md : ℕ) (g : ℕ → Garbage K)
    (c : Option (Norm K)) (u : NormIn K) : Option (Norm K) :=
  match c with
  | none => normFirst srt n mc md g u
  | some c => normNext n mc md c u

/-- A history of calls on a new object. -/
def normAll (srt : List (Ent K) → List (Ent K)) (n mc md : ℕ) (g : ℕ → Garbage K)
    (us : List (NormIn K)) : Option (Option (Norm K)) :=
  us.foldlM (fun c u => (normBuild srt n mc md g c u).map some) none

/-- `solveCompressed`, hiopKKTLinSysSparseNormalEqn.cpp:426-483: the two right-hand sides are stacked,
the answer of the linear solver is split. -/
def normSolve {mc md : ℕ} (lin : (Fin (mc + md) → K) → Option (Fin (mc + md) → K))
    (ryc : Fin mc → K) (ryd : Fin md → K) : Option ((Fin mc → K) × (Fin md → K)) :=
  (lin (Fin.append ryc ryd)).map fun y => (fun i => y (Fin.castAdd md i), fun i => y (Fin.natAdd mc i))

/-- `factorizeWithCurvCheck`, hiopKKTLinSysSparseNormalEqn.cpp:485-503: `ret` is the answer of
`matrixChanged`. -/
def normCount (mc md : ℕ) (ret : ℤ) : ℤ := if ret = -1 then -1 else mc + md

end Hiop.Csr
