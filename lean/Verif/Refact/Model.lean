import Mathlib.Data.List.Basic

/-!
# Joining the triangular factors for the refactorization on the GPU (C77)

After the first factorization (KLU, on the host) the GPU library is given the sparsity pattern of both factors as one
matrix in compressed rows. This file models the function that builds it from the two factors in compressed columns,
and the allocation around it. Every array access is checked: `none` is an access out of bounds.
-/

namespace Hiop.Refact

/-- `a[k] = v`. Code: RefactorizationSolver.cpp:352-401. -/
def wr (a : List ℕ) (k v : ℕ) : Option (List ℕ) := if k < a.length then some (a.set k v) else none

/-- `a[k]++`. Code: RefactorizationSolver.cpp:352-401. -/
def incr (a : List ℕ) (k : ℕ) : Option (List ℕ) := do
  let v ← a[k]?
  wr a k (v + 1)

/-- `for(int j = p[c]; j < p[c+1]; ++j) { row = i[j]; … }` (RefactorizationSolver.cpp:363-369, 371-374, 384-391,
393-397). -/
def loopCol {σ : Type} (p i : List ℕ) (c : ℕ) (f : σ → ℕ → Option σ) (s : σ) : Option σ := do
  let a ← p[c]?
  let b ← p[c + 1]?
  (List.range' a (b - a)).foldlM (fun s j => do
    let row ← i[j]?
    f s row) s

/-- Counting the entries of each row, the diagonal once (RefactorizationSolver.cpp:360-375). -/
def count (n : ℕ) (Lp Li Up Ui mia : List ℕ) : Option (List ℕ) :=
  (List.range n).foldlM (fun mia c => do
    let mia ← loopCol Lp Li c (fun m row => if row ≠ c then incr m (row + 1) else some m) mia
    loopCol Up Ui c (fun m row => incr m (row + 1)) mia) mia

/-- `mia_[i] += mia_[i - 1]` (RefactorizationSolver.cpp:378-380). -/
def addPrev (mia : List ℕ) (i : ℕ) : Option (List ℕ) := do
  let x ← mia[i]?
  let y ← mia[i - 1]?
  wr mia i (x + y)

/-- From numbers to offsets (RefactorizationSolver.cpp:376-380). -/
def organize (n : ℕ) (mia : List ℕ) : Option (List ℕ) := do
  let mia ← wr mia 0 0
  (List.range' 1 n).foldlM addPrev mia

/-- `mja_[mia_[row] + Mshifts[row]] = i; Mshifts[row]++` (RefactorizationSolver.cpp:388-389, 395-396); the state is
`(mja_, Mshifts)`. -/
def place (mia : List ℕ) (c : ℕ) (s : List ℕ × List ℕ) (row : ℕ) : Option (List ℕ × List ℕ) := do
  let o ← mia[row]?
  let k ← s.2[row]?
  let mja ← wr s.1 (o + k) c
  let sh ← incr s.2 row
  some (mja, sh)

/-- The second pass (RefactorizationSolver.cpp:382-398). -/
def fillIn (n : ℕ) (Lp Li Up Ui mia : List ℕ) (s : List ℕ × List ℕ) : Option (List ℕ × List ℕ) :=
  (List.range n).foldlM (fun s c => do
    let s ← loopCol Lp Li c (fun s row => if row ≠ c then place mia c s row else some s) s
    loopCol Up Ui c (place mia c) s) s

/-- `createM` (RefactorizationSolver.cpp:352-401): the new contents of `mia_` and `mja_`. -/
def createM (n : ℕ) (Lp Li Up Ui mia mja : List ℕ) : Option (List ℕ × List ℕ) := do
  let mia ← count n Lp Li Up Ui mia
  let mia ← organize n mia
  let (mja, _) ← fillIn n Lp Li Up Ui mia (mja, List.replicate n 0)
  some (mia, mja)

/-- The beginning of `refactorizationSetupCusolverGLU` (RefactorizationSolver.cpp:465-505): the arrays are allocated
and set to zero, then filled. `Lp`, `Li`, `Up`, `Ui` are what `klu_extract` returned; `Li` has `lnz` and `Ui` has `unz`
entries. -/
def setupGLU (n : ℕ) (Lp Li Up Ui : List ℕ) : Option (List ℕ × List ℕ) :=
  createM n Lp Li Up Ui (List.replicate (n + 1) 0) (List.replicate (Li.length + Ui.length - n) 0)

end Hiop.Refact
