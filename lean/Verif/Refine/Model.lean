import Verif.Krylov.Model
import Verif.Compound.Props
import Verif.Kkt.Model

/-!
# Outer iterative refinement of the search direction (src/Optimization/hiopKKTLinSys.cpp)

The Newton system is handed to the BiCGStab method of `Verif.Krylov` in the twelve-part vectors of
`Verif.Compound`; the operator is the one of `Verif.Kkt` and the preconditioner is the direct
computation of directions.
Simplifications: exact arithmetic; a vector of twelve parts is its concatenation (this is justified
by the theorems of `Verif.Compound.Props`); run statistics and log messages are omitted.
-/

namespace Hiop.Refine

open Hiop.Vec Hiop.Iterate Hiop.Kkt Hiop.Compound Hiop.Krylov

variable {n mc m : ℕ}

/-- `dim_rhs`, hiopKKTLinSys.cpp:923-928, in the shape of the compound vectors
(hiopVectorCompoundPD.cpp:99-153). -/
abbrev Dim (n mc m : ℕ) : ℕ := ∑ j, sizes n mc m j

/-- `getVector(i)` of a compound vector, hiopVectorCompoundPD.hpp:90. -/
def part {K : Type*} (v : RVec K (Dim n mc m)) (i : Fin 12) : RVec K (sizes n mc m i) :=
  fun k => v (place i k)

/-- The parts of the argument taken as those of a direction, hiopKKTLinSys.cpp:1639-1650; also the
result of writing a compound vector into the vectors of an iterate (1906). -/
def asIt {K : Type*} (v : RVec K (Dim n mc m)) : It K n mc m where
  x := part v 0
  d := part v 1
  yc := part v 2
  yd := part v 3
  sxl := part v 4
  sxu := part v 5
  sdl := part v 6
  sdu := part v 7
  zl := part v 8
  zu := part v 9
  vl := part v 10
  vu := part v 11

/-- `res_cv_->copyFrom(x)`, hiopKKTLinSys.cpp:1902: the parts of the argument become the vectors of
the residual object (order of hiopVectorCompoundPD.cpp:155-209). -/
def asResid {K : Type*} (v : RVec K (Dim n mc m)) : Resid K n mc m where
  rx := part v 0
  rd := part v 1
  ryc := part v 2
  ryd := part v 3
  rxl := part v 4
  rxu := part v 5
  rdl := part v 6
  rdu := part v 7
  rszl := part v 8
  rszu := part v 9
  rsvl := part v 10
  rsvu := part v 11

/-- `hiopMatVecKKTFullOpr::times_vec` on compound vectors, hiopKKTLinSys.cpp:1619-1731. -/
def kktOpr {K : Type*} [Field K] [LinearOrder K] (b : Bounds K n m) (M : Mats K n mc m)
    (dl : Deltas K n mc m) (it : It K n mc m) (v : RVec K (Dim n mc m)) : RVec K (Dim n mc m) :=
  flat (ofResid (kktTimes b M dl it (asIt v)))

/-- `hiopPrecondKKTOpr::times_vec`, hiopKKTLinSys.cpp:1900-1909. `dirs` is `computeDirections`; when
it fails, the iterate `dir_` holds leftovers, here an arbitrary function `left` of the argument, which
are copied to the answer. The callers ignore the Boolean (hiopKrylovSolver.cpp:503-510, 583-590).
Simplification: a repeated failure with the same argument leaves the same vectors. -/
def precOpr {K : Type*} (dirs : Resid K n mc m → Option (It K n mc m))
    (left : Resid K n mc m → It K n mc m) (v : RVec K (Dim n mc m)) : RVec K (Dim n mc m) :=
  flat (ofIterate ((dirs (asResid v)).getD (left (asResid v))))

/-- `tol`, hiopKKTLinSys.cpp:942. -/
noncomputable def outerTol (mu factor tolMin : ℝ) : ℝ := min (mu * factor) tolMin

/-- The solver object `bicgIR_` and its settings, hiopKKTLinSys.cpp:933-944: left preconditioner only. -/
noncomputable def irPar (b : Bounds ℝ n m) (M : Mats ℝ n mc m) (dl : Deltas ℝ n mc m)
    (it : It ℝ n mc m) (dirs : Resid ℝ n mc m → Option (It ℝ n mc m))
    (left : Resid ℝ n mc m → It ℝ n mc m) (tol eps : ℝ) (maxit : ℕ) : Par ℝ (Dim n mc m) where
  A := kktOpr b M dl it
  ML := some (precOpr dirs left)
  MR := none
  nrm := QN.twonorm
  dot := Vec.dot
  tol := tol
  eps := eps
  maxit := maxit

/-- `compute_directions_w_IR`, hiopKKTLinSys.cpp:911-962, on the iterate objects `mem`; `dir` is the
object the caller wants the direction in. The initial guess is `set_x0(0.0)` (945). -/
noncomputable def refinedDirections (b : Bounds ℝ n m) (M : Mats ℝ n mc m) (dl : Deltas ℝ n mc m)
    (it : It ℝ n mc m) (dirs : Resid ℝ n mc m → Option (It ℝ n mc m))
    (left : Resid ℝ n mc m → It ℝ n mc m) (tol eps : ℝ) (maxit : ℕ) (junk : St ℝ (Dim n mc m))
    (mem : Mem ℝ (Dim n mc m)) (dir : ℕ) (r : Resid ℝ n mc m) : Mem ℝ (Dim n mc m) × Bool :=
  directionsIR maxit (fun v => (dirs (asResid v)).map fun d => flat (ofIterate d))
    (bicg (irPar b M dl it dirs left tol eps maxit) junk (fun _ => 0)) mem dir (flat (ofResid r))

end Hiop.Refine
