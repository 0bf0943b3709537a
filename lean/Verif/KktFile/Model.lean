import Mathlib.Algebra.Order.Archimedean.Real.Basic
import Mathlib.Algebra.Order.Round

/-!
# The files `kkt_linsys_<k>.iajaaa` written with the option `write_kkt`

Source: `src/Utils/hiopCSR_IO.hpp` (dense matrices) and its callers in the dense, mixed dense-sparse and
normal equation systems. A file is the list of the numbers in it (white space only separates them).
Opening a file always succeeds; one rank. The writer of triplet matrices (166-231) is not modelled here.
-/

namespace Hiop.KktFile

/-- `zero_tol`, hiopCSR_IO.hpp:111. -/
noncomputable def zeroTol : ℝ := 1 / 10 ^ 25

/-- The number that `fprintf` with `%.20f` leaves in the file: the closest multiple of `10^-20`.
Simplification: ties go up. Code: hiopCSR_IO.hpp:63, 150. -/
noncomputable def fmt (v : ℝ) : ℝ := (round (v * 10 ^ 20) : ℤ) / 10 ^ 20

open Classical in
/-- The columns `j = i, …, m-1` with `fabs(M[i*m+j]) > zero_tol`, in the order of the loops at
hiopCSR_IO.hpp:115-116, 129-130, 140-141 and 148-149. -/
noncomputable def rowCols (m : ℕ) (M : ℕ → ℝ) (i : ℕ) : List ℕ :=
  (List.range' i (m - i)).filter (fun j => decide (zeroTol < |M (i * m + j)|))

/-- The variable `nnz`, hiopCSR_IO.hpp:112-120. -/
noncomputable def countNnz (m : ℕ) (M : ℕ → ℝ) : ℕ :=
  (List.range m).foldl (fun n i => (rowCols m M i).foldl (fun n _ => n + 1) n) 0

/-- The variable `offset` and the offsets printed, hiopCSR_IO.hpp:126-134. -/
noncomputable def offsets (m : ℕ) (M : ℕ → ℝ) : ℕ × List ℕ :=
  (List.range m).foldl
    (fun s i =>
      let o := (rowCols m M i).foldl (fun n _ => n + 1) s.1
      (o, s.2 ++ [o])) (1, [1])

/-- The column indexes printed, hiopCSR_IO.hpp:139-143. -/
noncomputable def colIdx (m : ℕ) (M : ℕ → ℝ) : List ℕ :=
  (List.range m).flatMap fun i => (rowCols m M i).map fun j => j + 1

/-- The entries printed, hiopCSR_IO.hpp:147-151. -/
noncomputable def entries (m : ℕ) (M : ℕ → ℝ) : List ℝ :=
  (List.range m).flatMap fun i => (rowCols m M i).map fun j => fmt (M (i * m + j))

/-- Integers as numbers of the file. No counterpart in the code. -/
def nums (l : List ℕ) : List ℝ := l.map fun n : ℕ => (n : ℝ)

/-- The sizes of a system: `Msys.m()`, `nx`, `meq`, `mineq`, hiopCSR_IO.hpp:89-93. -/
structure Dims where
  m : ℕ
  nx : ℕ
  meq : ℕ
  mineq : ℕ

/-- What `writeMatToFile` writes into the new file, hiopCSR_IO.hpp:123-152. -/
noncomputable def matFile (d : Dims) (M : ℕ → ℝ) : List ℝ :=
  nums [d.m, d.nx, d.meq, d.mineq, countNnz d.m M] ++ nums (offsets d.m M).2 ++ nums (colIdx d.m M)
    ++ entries d.m M

/-- The counter of the system (`write_linsys_counter_`), the members `m` and `last_counter` of the
writer, and the files by number. Code: hiopCSR_IO.hpp:238-239, hiopKKTLinSysMDS.cpp:64. -/
structure State where
  counter : ℤ
  wm : ℤ
  last : ℤ
  fs : ℤ → Option (List ℝ)

/-- A new system among the files of a directory, hiopCSR_IO.hpp:29-30, hiopKKTLinSysMDS.cpp:64. -/
def fresh (fs : ℤ → Option (List ℝ)) : State := ⟨-1, -1, -1, fs⟩

/-- `writeMatToFile`, hiopCSR_IO.hpp:98-154 (`w+`: the file is replaced). -/
noncomputable def writeMat (d : Dims) (M : ℕ → ℝ) (s : State) : State :=
  { s with last := s.counter, wm := d.m, fs := Function.update s.fs s.counter (some (matFile d M)) }

/-- `writeRhsToFile` and `writeSolToFile`, hiopCSR_IO.hpp:44-78 (`a+`: appended; the file is made if
there is none). `none`: an assertion fails. -/
noncomputable def writeVec (asserts : Bool) (v : List ℝ) (s : State) : Option State :=
  if asserts && (decide (s.counter ≠ s.last) || decide (s.wm ≠ v.length)) then none
  else
    let f := (s.fs s.counter).getD [] ++ (v.take s.wm.toNat).map fmt
    some { s with fs := Function.update s.fs s.counter (some f) }

/-- What the solver asks of a system: a new matrix, or a solve with a right-hand side and the contents
of the vector afterwards. No counterpart in the code. -/
inductive Op where
  | update (M : ℕ → ℝ)
  | solve (rhs sol : List ℝ)

/-- One call, with `write_kkt = yes`. `hasMat`: the class writes its matrix (dense and mixed systems);
the class of the normal equation does not (hiopKKTLinSysSparseNormalEqn.cpp:364-369). Code:
hiopKKTLinSysDense.hpp:161-166, 190-195, 320-325, 352-356, hiopKKTLinSysMDS.cpp:297-302, 359-377,
hiopKKTLinSysSparseNormalEqn.cpp:453-455, 470-472. -/
noncomputable def step (asserts hasMat : Bool) (d : Dims) (s : State) : Op → Option State
  | .update M =>
    let s := { s with counter := s.counter + 1 }
    some (if hasMat then writeMat d M s else s)
  | .solve r x =>
    if 0 ≤ s.counter then (writeVec asserts r s).bind (writeVec asserts x) else some s

/-- A sequence of calls. No counterpart in the code. -/
noncomputable def run (asserts hasMat : Bool) (d : Dims) : State → List Op → Option State
  | s, [] => some s
  | s, o :: os => (step asserts hasMat d s o).bind fun s => run asserts hasMat d s os

end Hiop.KktFile
