import Verif.Csr.Model
import Mathlib.Algebra.BigOperators.Intervals

/-!
# What the CSR routines should do

The dense matrix held by the three arrays and the well-formedness of the arrays.
-/

namespace Hiop.Csr

variable {K : Type*} [Field K] [LinearOrder K]

/-- The value at row `i`, column `j` of the matrix stored in the arrays: the sum of the stored values
of row `i` whose column index is `j`. -/
def get (A : CsrMat K) (i j : ℕ) : K :=
  ∑ p ∈ Finset.Ico (A.ptr i) (A.ptr (i + 1)), if A.col p = j then A.val p else 0

/-- The pattern contains the position `(i, j)`. -/
def Stored (A : CsrMat K) (i j : ℕ) : Prop := ∃ p, A.ptr i ≤ p ∧ p < A.ptr (i + 1) ∧ A.col p = j

/-- The arrays are a CSR matrix: the row pointers start at zero, do not decrease and end at the number
of nonzeros, and within every row the column indices are in range and strictly increase. -/
structure Valid (A : CsrMat K) : Prop where
  ready : A.ready = true
  first : A.ptr 0 = 0
  mono : ∀ i < A.nrows, A.ptr i ≤ A.ptr (i + 1)
  last : A.ptr A.nrows = A.nnz
  range : ∀ p < A.nnz, A.col p < A.ncols
  sorted : ∀ i < A.nrows, ∀ p, A.ptr i ≤ p → p + 1 < A.ptr (i + 1) → A.col p < A.col (p + 1)

end Hiop.Csr
