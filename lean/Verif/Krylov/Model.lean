import Verif.Vec.Model
import Mathlib.Data.Rat.Lemmas

/-!
# Krylov solvers (src/LinAlg/hiopKrylovSolver.cpp)

`A`, `ML`, `MR` are arbitrary functions (the operators of hiopLinearOperator.hpp), the two-norm and
the dot product are parameters (their values over all ranks), `eps` is the machine epsilon.
Simplifications: exact arithmetic; the text messages are not modelled; the aliased call
`MR_opr_->times_vec(*ph_, *ph_)` is the application of `MR`.
-/

namespace Hiop.Krylov

open Hiop.Vec

variable {K : Type*} [Field K] [LinearOrder K] [IsStrictOrderedRing K] {n : ℕ}

/-- Operators and settings of a solver object (hiopKrylovSolver.hpp: `A_opr_`, `ML_opr_`, `MR_opr_`,
`tol_`, `maxit_`). -/
structure Par (K : Type*) (n : ℕ) where
  A : RVec K n → RVec K n
  ML : Option (RVec K n → RVec K n)
  MR : Option (RVec K n → RVec K n)
  nrm : RVec K n → K
  dot : RVec K n → RVec K n → K
  tol : K
  eps : K
  maxit : ℕ

/-- Variables of the loops: `b`, `xk_`, `res_`, `pk_`, `v_`, `xmin_`, `rho`, `alpha`, `omega`,
`normrmin`, `abs_resid_`, `stagsteps`, `moresteps`, `flag_`, `iter_`, `imin`. Code: hiopKrylovSolver.hpp:133-156. -/
structure St (K : Type*) (n : ℕ) where
  b : RVec K n
  xk : RVec K n
  res : RVec K n
  pk : RVec K n
  v : RVec K n
  xmin : RVec K n
  rho : K
  alpha : K
  omega : K
  normrmin : K
  absr : K
  stag : ℕ
  more : ℕ
  flag : ℕ
  iter : K
  imin : K

/-- The three calls computing `b - A*x`: `times_vec`, `axpy(-1,b)`, `scale(-1)`,
hiopKrylovSolver.cpp:187-189, 443-445 and at each recomputation. -/
def residual (p : Par K n) (b x : RVec K n) : RVec K n := scale (axpy (p.A x) (-1) b) (-1)

/-- Preconditioning, hiopKrylovSolver.cpp:219-228 and 503-510, 583-590. -/
def precond (p : Par K n) (r : RVec K n) : RVec K n :=
  let y := match p.ML with
    | some f => f r
    | none => r
  match p.MR with
  | some f => f y
  | none => y

/-- Stagnation counter, hiopKrylovSolver.cpp:270-274, 531-535, 610-614. -/
def stagUpd (p : Par K n) (s : St K n) (d : RVec K n) (a : K) : ℕ :=
  if p.nrm d * |a| < p.eps * p.nrm s.xk then s.stag + 1 else 0

/-- Convergence check after a (half) step with the updated residual vector `r`, iteration label `it`:
hiopKrylovSolver.cpp:280-308 (PCG, `pcg = true`), 542-570 and 621-649 (BiCGStab). PCG copies the
solution into `b` when converged, BiCGStab when it gives up after 100 more steps. The Boolean of the
answer says whether the loop is left. -/
def check (pcg : Bool) (p : Par K n) (tolb it : K) (s : St K n) (r : RVec K n) :
    St K n × RVec K n × Bool :=
  if p.nrm r ≤ tolb ∨ 3 ≤ s.stag ∨ s.more ≠ 0 then
    let r' := residual p s.b s.xk
    if p.nrm r' ≤ tolb then
      ({ s with absr := p.nrm r', b := (if pcg then s.xk else s.b), flag := 0, iter := it }, r', true)
    else
      let stag := if 3 ≤ s.stag ∧ s.more = 0 then 0 else s.stag
      if 100 ≤ s.more + 1 then
        ({ s with absr := p.nrm r', stag := stag, more := s.more + 1,
                  b := (if pcg then s.b else s.xk), flag := 3, iter := it }, r', true)
      else ({ s with absr := p.nrm r', stag := stag, more := s.more + 1 }, r', false)
  else ({ s with absr := p.nrm r }, r, false)

/-- Best iterate so far, hiopKrylovSolver.cpp:309-314, 576-581, 651-656. -/
def minUpd (s : St K n) (it : K) : St K n :=
  if s.absr < s.normrmin then { s with normrmin := s.absr, xmin := s.xk, imin := it } else s

/-- Breakdown exit, e.g. hiopKrylovSolver.cpp:234-238. -/
def breakdown (s : St K n) (it : K) : St K n × Bool := ({ s with flag := 4, iter := it }, true)

/-- Update of iterate and residual, convergence check and bookkeeping in a pass of PCG,
hiopKrylovSolver.cpp:269-319; `qk = A*pk`. -/
def pcgTail (p : Par K n) (tolb : K) (ii : ℕ) (s : St K n) (alpha : K) (pk qk : RVec K n) :
    St K n × Bool :=
  let c := check true p tolb (ii + 1)
    { s with stag := stagUpd p s pk alpha, xk := axpy s.xk alpha pk } (axpy s.res (-alpha) qk)
  let s1 := { c.1 with res := c.2.1 }
  if c.2.2 = true then (s1, true)
  else
    let s2 := minUpd s1 ii
    if 3 ≤ s2.stag then ({ s2 with flag := 3, iter := ii + 1 }, true) else (s2, false)

/-- New search direction and step length in a pass of PCG, hiopKrylovSolver.cpp:239-267. -/
def pcgDirection (p : Par K n) (tolb : K) (ii : ℕ) (s : St K n) (rho1 : K) (zk : RVec K n) :
    St K n × Bool :=
  let beta := s.rho / rho1
  if ii ≠ 0 ∧ (beta = 0 ∨ |beta| > 10 ^ 20) then breakdown s (ii + 1)
  else
    let pk := if ii = 0 then zk else axpy (scale s.pk beta) 1 zk
    let qk := p.A pk
    let pq := p.dot pk qk
    if pq ≤ 0 ∨ |pq| > 10 ^ 20 then breakdown { s with pk := pk } (ii + 1)
    else
      let alpha := s.rho / pq
      if |alpha| > 10 ^ 20 then breakdown { s with pk := pk } (ii + 1)
      else pcgTail p tolb ii { s with pk := pk } alpha pk qk

/-- One pass of the PCG loop, hiopKrylovSolver.cpp:217-320. -/
def pcgStep (p : Par K n) (tolb : K) (ii : ℕ) (s : St K n) : St K n × Bool :=
  let zk := precond p s.res
  let rho := p.dot s.res zk
  if rho = 0 ∨ |rho| > 10 ^ 20 then breakdown { s with rho := rho } (ii + 1)
  else pcgDirection p tolb ii { s with rho := rho } s.rho zk

/-- Second update of iterate and residual in a pass of BiCGStab, hiopKrylovSolver.cpp:610-663;
`t = A*ph`. -/
def bicgTail (p : Par K n) (tolb : K) (ii : ℕ) (s : St K n) (omega : K) (ph sk t : RVec K n) :
    St K n × Bool :=
  let c := check false p tolb (ii + 1)
    { s with stag := stagUpd p s ph omega, xk := axpy s.xk omega ph } (axpy sk (-omega) t)
  let s1 := { c.1 with res := c.2.1 }
  if c.2.2 = true then (s1, true)
  else
    let s2 := minUpd s1 (ii + 1)
    if 3 ≤ s2.stag then ({ s2 with flag := 3, iter := ii + 1 - 1 / 2 }, true) else (s2, false)

/-- Second half step of BiCGStab, hiopKrylovSolver.cpp:583-608. -/
def bicgSecond (p : Par K n) (tolb : K) (ii : ℕ) (s : St K n) (sk : RVec K n) : St K n × Bool :=
  let ph := precond p sk
  let t := p.A ph
  let tt := p.dot t t
  if tt = 0 ∨ |tt| > 10 ^ 20 then breakdown s (ii + 1)
  else
    let omega := p.dot t sk / tt
    if |omega| > 10 ^ 20 then breakdown { s with omega := omega } (ii + 1)
    else bicgTail p tolb ii { s with omega := omega } omega ph sk t

/-- First update of iterate and residual in a pass of BiCGStab, hiopKrylovSolver.cpp:530-581;
`v = A*ph`. -/
def bicgFirst (p : Par K n) (tolb : K) (ii : ℕ) (s : St K n) (alpha : K) (ph v : RVec K n) :
    St K n × Bool :=
  let c := check false p tolb (ii + 1 - 1 / 2)
    { s with stag := stagUpd p s ph alpha, xk := axpy s.xk alpha ph } (axpy s.res (-alpha) v)
  if c.2.2 = true then (c.1, true)
  else if 3 ≤ c.1.stag then ({ c.1 with flag := 3, iter := ii + 1 - 1 / 2 }, true)
  else bicgSecond p tolb ii (minUpd c.1 (ii + 1 - 1 / 2)) c.2.1

/-- New search direction and step length in a pass of BiCGStab, hiopKrylovSolver.cpp:489-528. -/
def bicgDirection (p : Par K n) (rt : RVec K n) (tolb : K) (ii : ℕ) (s : St K n) (rho1 : K) :
    St K n × Bool :=
  let beta := s.rho / rho1 * (s.alpha / s.omega)
  if ii ≠ 0 ∧ (beta = 0 ∨ |beta| > 10 ^ 40) then breakdown s (ii + 1 - 1 / 2)
  else
    let pk := if ii = 0 then s.res else axpy (scale (axpy s.pk (-s.omega) s.v) beta) 1 s.res
    let ph := precond p pk
    let v := p.A ph
    let rtv := p.dot rt v
    if rtv = 0 ∨ |rtv| > 10 ^ 40 then breakdown { s with pk := pk, v := v } (ii + 1 - 1 / 2)
    else
      let alpha := s.rho / rtv
      if |alpha| > 10 ^ 20 then
        breakdown { s with pk := pk, v := v, alpha := alpha } (ii + 1 - 1 / 2)
      else bicgFirst p tolb ii { s with pk := pk, v := v, alpha := alpha } alpha ph v

/-- One pass of the BiCGStab loop, hiopKrylovSolver.cpp:477-664; `rt` is the shadow residual. -/
def bicgStep (p : Par K n) (rt : RVec K n) (tolb : K) (ii : ℕ) (s : St K n) : St K n × Bool :=
  let rho := p.dot rt s.res
  if rho = 0 ∨ |rho| > 10 ^ 40 then breakdown { s with rho := rho } (ii + 1 - 1 / 2)
  else bicgDirection p rt tolb ii { s with rho := rho } s.rho

/-- `for(; ii < maxit_; ++ii)` with breaks, hiopKrylovSolver.cpp:217 and 477; also returns `ii`. -/
def loop (step : ℕ → St K n → St K n × Bool) : ℕ → ℕ → St K n → St K n × ℕ
  | 0, ii, s => (s, ii)
  | fuel + 1, ii, s =>
    let (s', out) := step ii s
    if out then (s', ii) else loop step fuel (ii + 1) s'

/-- What a call leaves behind: success, the vector in `b`, the iterate left in `x0_` (aliased to
`xk_`), and the reported iteration count and residual. Code: hiopKrylovSolver.hpp:133-156. -/
structure Ans (K : Type*) (n : ℕ) where
  ok : Bool
  x : RVec K n
  x0 : RVec K n
  iter : K
  absr : K

/-- After the loop, hiopKrylovSolver.cpp:322-353 and 666-698. -/
def finish (p : Par K n) (s : St K n) (ii : ℕ) : Ans K n :=
  if s.flag = 0 then ⟨true, s.xk, s.xk, s.iter, s.absr⟩
  else
    let nc := p.nrm (residual p s.b s.xmin)
    if nc ≤ s.absr then ⟨false, s.xmin, s.xk, s.imin + 1, nc⟩
    else ⟨false, s.xk, s.xk, ii + 1, s.absr⟩

/-- State before the loop; `pk_`, `v_` hold leftovers `junk` of earlier calls and `alpha` is an
uninitialised local, hiopKrylovSolver.cpp:178-216, 434-476. -/
def start (p : Par K n) (junk : St K n) (b x0 : RVec K n) : St K n :=
  let r := residual p b x0
  { junk with b := b, xk := x0, res := r, xmin := x0, rho := 1, omega := 1, normrmin := p.nrm r,
              absr := p.nrm r, stag := 0, more := 0, flag := 1, imin := 0 }

/-- `hiopPCGSolver::solve(b)`, hiopKrylovSolver.cpp:150-354; `x0` is the content of `x0_`. -/
def pcg (p : Par K n) (junk : St K n) (x0 b : RVec K n) : Ans K n :=
  if p.nrm b = 0 then ⟨true, b, x0, 0, 0⟩
  else
    let tolb := p.tol * p.nrm b
    let s := start p junk b x0
    if p.nrm s.res ≤ tolb then ⟨true, x0, x0, 0, s.absr⟩
    else
      let (s, ii) := loop (pcgStep p tolb) p.maxit 0 s
      finish p s ii

/-- `hiopBiCGStabSolver::solve(b)`, hiopKrylovSolver.cpp:399-699. -/
def bicg (p : Par K n) (junk : St K n) (x0 b : RVec K n) : Ans K n :=
  if p.nrm b = 0 then ⟨true, b, x0, 0, 0⟩
  else
    let tolb := p.tol * p.nrm b
    let s := start p junk b x0
    if p.nrm s.res ≤ tolb then ⟨true, x0, x0, 0, s.absr⟩
    else
      let (s, ii) := loop (bicgStep p s.res tolb) p.maxit 0 s
      finish p s ii

/-! ## Solving into an iterate object -/

/-- Iterate objects by address; `bound` is the object whose vectors the member `b_` refers to. Code: hiopKrylovSolver.hpp:155. -/
structure Mem (K : Type*) (n : ℕ) where
  obj : ℕ → RVec K n
  bound : Option ℕ

/-- `solve(hiopIterate* xsol, const hiopResidual*)`, hiopKrylovSolver.cpp:140-148 and 389-397: the
compound vector is created only in the first call and refers to the vectors of that `xsol`
(hiopVectorCompoundPD.cpp:97-147). -/
def solveInto (solve : RVec K n → Ans K n) (m : Mem K n) (xsol : ℕ) (rhs : RVec K n) :
    Mem K n × Bool :=
  let tgt := m.bound.getD xsol
  let a := solve rhs
  ({ obj := Function.update m.obj tgt a.x, bound := some tgt }, a.ok)

/-- `compute_directions_w_IR`, hiopKKTLinSys.cpp:911-962: with a positive iteration limit the answer
is always success. `direct` is `computeDirections`. -/
def directionsIR (irMaxit : ℕ) (direct : RVec K n → Option (RVec K n)) (solve : RVec K n → Ans K n)
    (m : Mem K n) (dir : ℕ) (rhs : RVec K n) : Mem K n × Bool :=
  if irMaxit = 0 then
    match direct rhs with
    | some x => ({ m with obj := Function.update m.obj dir x }, true)
    | none => (m, false)
  else ((solveInto solve m dir rhs).1, true)

end Hiop.Krylov
