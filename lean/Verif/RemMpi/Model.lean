import Verif.Mpi.Model
import Verif.Nlp.Model

/-!
# Model of the removal of fixed variables on several ranks

Source: `src/Optimization/hiopNlpFormulation.cpp:216-341` and `src/Optimization/hiopNlpTransforms.cpp:66-290` under
`HIOP_USE_MPI`. Each rank holds its part of the bounds and builds its own remover (`Verif/Nlp/Model`) from it; the number
of fixed variables is reduced over the ranks and the new distribution computed from the numbers of all ranks.
-/

set_option linter.unusedSectionVars false

namespace Hiop.RemMpi

open Hiop.Vec Hiop.Nlp Hiop.Mpi

variable {K : Type*} [Field K] [LinearOrder K] {N P : ℕ}

/-- What a rank has after the removal: its remover (hiopNlpFormulation.cpp:277-282), the number of variables of the
reduced problem (`n_vars_`, 292) and the distribution of its vectors (`vec_distrib_`, 294-296). -/
structure RankRem (K : Type*) (len : ℕ) where
  rem : Remover K len
  nVars : ℤ
  dist : ℕ → ℤ

/-- `setFSVectorDistrib`, hiopNlpTransforms.cpp:98-103: the assertion that there is a distribution gives `none`. -/
def setFSDistrib (vecDistrib : Option (ℕ → ℕ)) : Option (ℕ → ℕ) := vecDistrib

/-- The number of fixed variables found by `process_bounds` on a rank, hiopNlpFormulation.cpp:254-255; `junk` is what
the new indicator vectors hold. -/
def fixedOn {len : ℕ} (tol : K) (xl xu : RVec K len) (junk : RVec K len) : ℕ :=
  (processBounds tol xl xu junk junk).nFixed

/-- The branch `fixed_var = remove` of `finalizeInitialization` on rank `r`, hiopNlpFormulation.cpp:277-297.
`vecDistrib` is `vec_distrib_` (none if the interface gives no distribution, 220-226), `nFixed` the result of the
reduction (263), `fixed` the numbers gathered from the ranks (hiopNlpTransforms.cpp:124-131), the own one among them. -/
def setupRank {len : ℕ} (tol : K) (vecDistrib : Option (ℕ → ℕ)) (n : ℕ) (xl xu : RVec K len) (nFixed nLocal : ℕ)
    (fixed : ℕ → ℕ) : Option (RankRem K len) :=
  (setFSDistrib vecDistrib).bind fun fs => (mkRemover tol xl xu nLocal).bind fun R =>
    some ⟨R, (n : ℤ) - nFixed, rsOffsets fs fixed⟩

/-- All ranks together: `nFixed r` is what rank `r` obtains from `MPI_Allreduce`, hiopNlpFormulation.cpp:263-264;
`MPI_Allgather` (hiopNlpTransforms.cpp:124-131) gives every rank the numbers of all ranks. -/
def setupAll (p : Part N P) (tol : K) (given : Bool) (xl xu : RVec K N) (junk : RVec K N)
    (out : ∀ r : Fin P, Option (RankRem K (p.len r))) : Prop :=
  let cnt : Fin P → ℕ := fun r => fixedOn tol (scatter p xl r) (scatter p xu r) (scatter p junk r)
  ∃ nFixed : Fin P → ℕ, Allreduce (· + ·) cnt nFixed ∧
    ∀ r, out r = setupRank tol (if given then some p.off else none) N (scatter p xl r) (scatter p xu r) (nFixed r)
      (cnt r) (fun k => if h : k < P then cnt ⟨k, h⟩ else 0)

/-- `n_local_` of a vector of the reduced problem on rank `r`, hiopNlpFormulation.cpp:302, hiopVectorPar.cpp:80-88. -/
def RankRem.localSize {len : ℕ} (s : RankRem K len) (r : ℕ) : ℤ := s.dist (r + 1) - s.dist r

/-- The calls of `apply_inv_to_x` on a rank, hiopNlpTransforms.hpp:175-181, one after the other: the points handed to
the user's functions. -/
def points {len : ℕ} (R : Remover K len) : RVec K len → List (RVec K (len - R.nFixed) × Bool) →
    Option (List (RVec K len))
  | _, [] => some []
  | cache, (x, newX) :: cs => (R.invX cache x newX).bind fun fs => (points R fs cs).map fun l => fs :: l

end Hiop.RemMpi
