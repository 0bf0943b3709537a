import Verif.Sparse.Model

/-!
# Compressed sparse row matrices (src/LinAlg/hiopMatrixSparseCSRSeq.cpp)

The arrays `irowptr_`, `jcolind_`, `values_` and `row_starts_` are functions of the position. A fresh
array holds arbitrary values, given by a `Garbage`. Failed assertions and accesses through a null
pointer or past the end of an array are `none`. Indices are natural numbers: overflow of the 32-bit
counters is not modelled. The assertions are those of a build without `NDEBUG`.
-/

namespace Hiop.Csr

open Hiop.Sparse

variable {K : Type*} [Field K] [LinearOrder K]

/-- The data members, hiopMatrixSparseCSRSeq.hpp and the constructor hiopMatrixSparseCSRSeq.cpp:78-92.
`ready` says that the three arrays are allocated; `starts` is `row_starts_`, `none` for `nullptr`. -/
structure CsrMat (K : Type*) where
  nrows : ℕ
  ncols : ℕ
  nnz : ℕ
  ready : Bool
  ptr : ℕ → ℕ
  col : ℕ → ℕ
  val : ℕ → K
  starts : Option (ℕ → ℕ)

/-- Contents of freshly allocated memory. Code: what the memory holds after hiopMatrixSparseCSRSeq.cpp:116, hiopMatrixSparseCSRSeq.cpp:117, hiopMatrixSparseCSRSeq.cpp:118, hiopMatrixSparseCSRSeq.cpp:902. -/
structure Garbage (K : Type*) where
  ptr : ℕ → ℕ
  col : ℕ → ℕ
  val : ℕ → K
  starts : ℕ → ℕ

/-- `assert(b)`. Code: as in hiopMatrixSparseCSRSeq.cpp:112, hiopMatrixSparseCSRSeq.cpp:114. -/
def need (b : Prop) [Decidable b] : Option Unit := if b then some () else none

/-- `a[k] = v`. Code: as in hiopMatrixSparseCSRSeq.cpp:144, hiopMatrixSparseCSRSeq.cpp:859. -/
def wr {α : Type*} (a : ℕ → α) (k : ℕ) (v : α) : ℕ → α := fun t => if t = k then v else a t

/-- The indices of `for(p=irowptr_[i]; p<irowptr_[i+1]; ++p)`. Code: hiopMatrixSparseCSRSeq.cpp:241, hiopMatrixSparseCSRSeq.cpp:255. -/
def rowIdx (A : CsrMat K) (i : ℕ) : List ℕ := List.range' (A.ptr i) (A.ptr (i + 1) - A.ptr i)

/-- `dealloc` followed by `alloc`, hiopMatrixSparseCSRSeq.cpp:110-139. -/
def fresh (r c z : ℕ) (g : Garbage K) : CsrMat K :=
  { nrows := r, ncols := c, nnz := z, ready := true
    ptr := g.ptr, col := g.col, val := g.val, starts := none }

/-- The constructor, hiopMatrixSparseCSRSeq.cpp:78-92: nothing is allocated when a dimension is
zero, and then the number of nonzeros must be zero. -/
def create (r c z : ℕ) (g : Garbage K) : Option (CsrMat K) :=
  if r = 0 ∨ c = 0 then
    if z = 0 then some { fresh r c 0 g with ready := false } else none
  else some (fresh r c z g)

/-- The default constructor, hiopMatrixSparseCSRSeq.cpp:94-102. -/
def empty (g : Garbage K) : CsrMat K := { fresh 0 0 0 g with ready := false }

/-- Reallocation when the shape differs, hiopMatrixSparseCSRSeq.cpp:815-823. -/
def reshape (A : CsrMat K) (r c z : ℕ) (g : Garbage K) : CsrMat K :=
  if r ≠ A.nrows ∨ c ≠ A.ncols ∨ z ≠ A.nnz then fresh r c z g else A

/-! ## From triplets -/

/-- Variables of the loop hiopMatrixSparseCSRSeq.cpp:839-859: `it`, the previous triplet, `w` and
`jcolind_`. -/
structure FormS (K : Type*) where
  it : ℕ
  prev : Option (Ent K)
  w : ℕ → ℕ
  col : ℕ → ℕ

/-- The ordering assertions of hiopMatrixSparseCSRSeq.cpp:842-849. -/
def inOrder (prev : Option (Ent K)) (e : Ent K) : Bool :=
  match prev with
  | none => true
  | some q => decide (q.r ≤ e.r) && (decide (e.r ≠ q.r) || decide (q.c < e.c))

/-- Loop body, hiopMatrixSparseCSRSeq.cpp:839-859. -/
def formStep (m n : ℕ) (s : FormS K) (e : Ent K) : Option (FormS K) :=
  if inOrder s.prev e = true ∧ e.r < m ∧ e.c < n then
    some { it := s.it + 1, prev := some e, w := wr s.w e.r (s.w e.r + 1), col := wr s.col s.it e.c }
  else none

/-- `irowptr_[0] = 0; for(i) irowptr_[i+1] = irowptr_[i] + w[i];`,
hiopMatrixSparseCSRSeq.cpp:861-864. -/
def cumsum (m : ℕ) (ptr w : ℕ → ℕ) : ℕ → ℕ :=
  (List.range m).foldl (fun (p : ℕ → ℕ) i => wr p (i + 1) (p i + w i)) (wr ptr 0 0)

/-- `form_from_symbolic`, hiopMatrixSparseCSRSeq.cpp:813-865. -/
def formSymbolic (A : CsrMat K) (m n : ℕ) (es : List (Ent K)) (g : Garbage K) : Option (CsrMat K) :=
  let A := reshape A m n es.length g
  if A.nnz = 0 then some A
  else if A.ready = false then none
  else
    (es.foldlM (formStep m n) { it := 0, prev := none, w := fun _ => 0, col := A.col }).bind fun s =>
    let ptr := cumsum m A.ptr s.w
    if ptr m = A.nnz then some { A with ptr := ptr, col := s.col } else none

/-- `memcpy` of `n` values. Code: hiopMatrixSparseCSRSeq.cpp:874. -/
def copyVals (n : ℕ) (src : ℕ → K) (dst : ℕ → K) : ℕ → K := fun k => if k < n then src k else dst k

/-- `values_[k]` of the triplet matrix. Code: hiopMatrixSparseTriplet.hpp:330-332. -/
def valOf (es : List (Ent K)) (k : ℕ) : K := (es[k]?.map Ent.v).getD 0

/-- `form_from_numeric`, hiopMatrixSparseCSRSeq.cpp:867-875. -/
def formNumeric (A : CsrMat K) (m n : ℕ) (es : List (Ent K)) : Option (CsrMat K) :=
  if A.ready = true ∧ A.nrows = m ∧ A.ncols = n ∧ A.nnz = es.length then
    some { A with val := copyVals A.nnz (valOf es) A.val }
  else none

/-! ## Transposes -/

/-- Counting step `assert(Mjcol[it]<nrows_); w[Mjcol[it]]++;`, hiopMatrixSparseCSRSeq.cpp:915-918. -/
def countStep (nrows : ℕ) (w : ℕ → ℕ) (c : ℕ) : Option (ℕ → ℕ) :=
  if c < nrows then some (wr w c (w c + 1)) else none

/-- Cumulative sum that also turns the counts into row starts, hiopMatrixSparseCSRSeq.cpp:920-925. The
state is `(irowptr_, w)`; the loop variable is `i-1`. -/
def cumsumStarts (nrows : ℕ) (ptr w : ℕ → ℕ) : (ℕ → ℕ) × (ℕ → ℕ) :=
  (List.range nrows).foldl
    (fun (s : (ℕ → ℕ) × (ℕ → ℕ)) i => (wr s.1 (i + 1) (s.1 i + s.2 i), wr s.2 i (s.1 i)))
    (wr ptr 0 0, w)

/-- Population step for one entry that goes to row `r`: place `x` at the current start of the row and
advance it, with the two assertions, hiopMatrixSparseCSRSeq.cpp:931-947, 984-999. -/
def placeStep {α : Type*} (nnz : ℕ) (ptr : ℕ → ℕ) (s : (ℕ → ℕ) × (ℕ → α)) (r : ℕ) (x : α) :
    Option ((ℕ → ℕ) × (ℕ → α)) :=
  if s.1 r < nnz ∧ s.1 r + 1 ≤ ptr (r + 1) then some (wr s.1 r (s.1 r + 1), wr s.2 (s.1 r) x)
  else none

/-- Roll back of the row starts, hiopMatrixSparseCSRSeq.cpp:950-953. -/
def rollback (nrows : ℕ) (st : ℕ → ℕ) : ℕ → ℕ :=
  wr ((List.range' 1 (nrows - 1)).reverse.foldl (fun (s : ℕ → ℕ) i => wr s i (s (i - 1))) st) 0 0

/-- Column indices strictly increase within every row, the debug check of
hiopMatrixSparseCSRSeq.cpp:955-960 and, up to the messages, `check_csr_is_ordered`,
hiopMatrixSparseCSRSeq.cpp:1467-1491. -/
def ordered (A : CsrMat K) : Bool :=
  (List.range A.nrows).all fun i =>
    (List.range' (A.ptr i + 1) (A.ptr (i + 1) - (A.ptr i + 1))).all fun p =>
      decide (A.col (p - 1) < A.col p)

/-- `form_transpose_from_symbolic` from triplets, hiopMatrixSparseCSRSeq.cpp:877-962. The source is
`m` by `n`. -/
def transSymbolic (A : CsrMat K) (m n : ℕ) (es : List (Ent K)) (g : Garbage K) : Option (CsrMat K) :=
  let A := reshape A n m es.length g
  if A.nnz = 0 then some A
  else if A.ready = false ∨ A.starts.isSome = true then none
  else
    (es.foldlM (fun w e => countStep A.nrows w e.c) (fun _ => 0)).bind fun w =>
    let ps := cumsumStarts A.nrows A.ptr w
    if ps.1 A.nrows = A.nnz then
      (es.foldlM (fun s e => if e.r < A.ncols then placeStep A.nnz ps.1 s e.c e.r else none)
        (ps.2, A.col)).bind fun s =>
      let B := { A with
        ptr := ps.1, col := s.2, starts := some (rollback A.nrows s.1) }
      if ordered B = true then some B else none
    else none

/-- `form_transpose_from_numeric` from triplets, hiopMatrixSparseCSRSeq.cpp:964-1005. -/
def transNumeric (A : CsrMat K) (m n : ℕ) (es : List (Ent K)) : Option (CsrMat K) :=
  match A.starts with
  | none => none
  | some st =>
    if A.ready = true ∧ A.nrows = n ∧ A.ncols = m ∧ A.nnz = es.length ∧ ordered A = true then
      (es.foldlM (fun s e => if e.r < A.ncols then placeStep A.nnz A.ptr s e.c e.v else none)
        (st, A.val)).bind fun s =>
      some { A with
        val := s.2, starts := some (rollback A.nrows s.1) }
    else none

/-- `form_transpose_from_symbolic` from a CSR matrix, hiopMatrixSparseCSRSeq.cpp:1007-1095. -/
def transSymbolicCsr (A M : CsrMat K) (g : Garbage K) : Option (CsrMat K) :=
  let A := reshape A M.ncols M.nrows M.nnz g
  if A.nnz = 0 then some A
  else if A.ready = false ∨ A.starts.isSome = true then none
  else
    ((List.range A.nnz).foldlM (fun w it => countStep A.nrows w (M.col it)) (fun _ => 0)).bind fun w =>
    let ps := cumsumStarts A.nrows A.ptr w
    if ps.1 A.nrows = A.nnz then
      ((List.range A.ncols).foldlM (fun s i =>
        (rowIdx M i).foldlM (fun s it => placeStep A.nnz ps.1 s (M.col it) i) s)
        (ps.2, A.col)).bind fun s =>
      let B := { A with
        ptr := ps.1, col := s.2, starts := some (rollback A.nrows s.1) }
      if ordered B = true then some B else none
    else none

/-- `form_transpose_from_numeric` from a CSR matrix, hiopMatrixSparseCSRSeq.cpp:1097-1142. -/
def transNumericCsr (A M : CsrMat K) : Option (CsrMat K) :=
  match A.starts with
  | none => none
  | some st =>
    if A.ready = true ∧ A.nrows = M.ncols ∧ A.ncols = M.nrows ∧ A.nnz = M.nnz ∧ ordered A = true then
      ((List.range A.ncols).foldlM (fun s i =>
        (rowIdx M i).foldlM (fun s it => placeStep A.nnz A.ptr s (M.col it) (M.val it)) s)
        (st, A.val)).bind fun s =>
      some { A with
        val := s.2, starts := some (rollback A.nrows s.1) }
    else none

/-! ## Diagonals and scaling -/

/-- `form_diag_from_symbolic`, hiopMatrixSparseCSRSeq.cpp:1148-1170. -/
def diagSymbolic (A : CsrMat K) (m : ℕ) (g : Garbage K) : Option (CsrMat K) :=
  let A := reshape A m m m g
  if A.ready = false then none
  else
    let s := (List.range m).foldl (fun (s : (ℕ → ℕ) × (ℕ → ℕ)) i => (wr s.1 i i, wr s.2 i i))
      (A.ptr, A.col)
    some { A with ptr := wr s.1 m m, col := s.2 }

/-- `form_diag_from_numeric`, hiopMatrixSparseCSRSeq.cpp:1178-1182. -/
def diagNumeric (A : CsrMat K) (m : ℕ) (D : ℕ → K) : Option (CsrMat K) :=
  if m = A.ncols ∧ m = A.nrows ∧ m = A.nnz then some { A with val := copyVals A.nrows D A.val }
  else none

/-- `scale_cols`, hiopMatrixSparseCSRSeq.cpp:1185-1196. -/
def scaleCols (A : CsrMat K) (m : ℕ) (D : ℕ → K) : Option (CsrMat K) :=
  if A.ncols = m then
    some { A with
      val := (List.range A.nrows).foldl (fun (v : ℕ → K) i =>
        (rowIdx A i).foldl (fun (v : ℕ → K) p => wr v p (v p * D (A.col p))) v) A.val }
  else none

/-- `scale_rows`, hiopMatrixSparseCSRSeq.cpp:1199-1209. -/
def scaleRows (A : CsrMat K) (m : ℕ) (D : ℕ → K) : Option (CsrMat K) :=
  if A.nrows = m then
    some { A with
      val := (List.range A.nrows).foldl (fun (v : ℕ → K) i =>
        (rowIdx A i).foldl (fun (v : ℕ → K) p => wr v p (v p * D i)) v) A.val }
  else none

/-- The loop with `break` of hiopMatrixSparseCSRSeq.cpp:240-247, 254-261, 1457-1464: apply `f` to the
first entry of each row that lies on the diagonal. -/
def onDiag (A : CsrMat K) (f : ℕ → K → K) : ℕ → K :=
  (List.range A.nrows).foldl (fun (v : ℕ → K) i =>
    match (rowIdx A i).find? fun p => A.col p == i with
    | none => v
    | some p => wr v p (f i (v p))) A.val

/-- `addDiagonal(alpha, D)`, hiopMatrixSparseCSRSeq.cpp:232-248. -/
def addDiag (A : CsrMat K) (alpha : K) (m : ℕ) (D : ℕ → K) : Option (CsrMat K) :=
  if A.ready = true ∧ m = A.nrows ∧ m = A.ncols then
    some { A with val := onDiag A fun i v => v + alpha * D i }
  else none

/-- `addDiagonal(value)`, hiopMatrixSparseCSRSeq.cpp:250-262. -/
def addDiagC (A : CsrMat K) (c : K) : Option (CsrMat K) :=
  if A.ready = true then some { A with val := onDiag A fun _ v => v + c } else none

/-- `set_diagonal`, hiopMatrixSparseCSRSeq.cpp:1454-1465. -/
def setDiag (A : CsrMat K) (c : K) : Option (CsrMat K) :=
  if A.ready = true then some { A with val := onDiag A fun _ _ => c } else none

/-! ## Product -/

/-- Body of the counting loop of `times_mat_alloc`, hiopMatrixSparseCSRSeq.cpp:623-633: state
`(nnzM, flag)`. -/
def flagStep (n : ℕ) (s : ℕ × (ℕ → Bool)) (j : ℕ) : Option (ℕ × (ℕ → Bool)) :=
  if j < n then
    if s.2 j = false then some (s.1 + 1, wr s.2 j true) else some s
  else none

/-- The two inner loops over row `i` of the product: `f` is applied to every pair of a position in row
`i` of `X` and a position in the matching row of `Y`, hiopMatrixSparseCSRSeq.cpp:616-634, 693-717,
777-792. -/
def pairLoop {S : Type*} (X Y : CsrMat K) (i : ℕ) (f : S → ℕ → ℕ → Option S) (s : S) : Option S :=
  (rowIdx X i).foldlM (fun s px =>
    if X.col px < X.ncols then (rowIdx Y (X.col px)).foldlM (fun s py => f s px py) s else none) s

/-- `times_mat_alloc`, hiopMatrixSparseCSRSeq.cpp:590-641. -/
def timesAlloc (X Y : CsrMat K) (g : Garbage K) : Option (CsrMat K) :=
  if Y.nrows = X.ncols then
    ((List.range X.nrows).foldlM (fun z i =>
      (pairLoop X Y i (fun s _ py => flagStep Y.ncols s (Y.col py)) (z, fun _ => false)).map
        fun s => s.1) 0).bind fun z =>
    create X.nrows Y.ncols z g
  else none

/-- `std::set<index_type>::insert`: an ordered list without repetitions. Code: hiopMatrixSparseCSRSeq.cpp:683-719. -/
def sinsert (j : ℕ) : List ℕ → List ℕ
  | [] => [j]
  | a :: l => if j < a then j :: a :: l else if j = a then a :: l else a :: sinsert j l

/-- Body of the scatter loop of hiopMatrixSparseCSRSeq.cpp:720-723: state `(nnzM, jcolindM)`. -/
def pushStep {α : Type*} (nnz : ℕ) (s : ℕ × (ℕ → α)) (j : α) : Option (ℕ × (ℕ → α)) :=
  if s.1 < nnz then some (s.1 + 1, wr s.2 s.1 j) else none

/-- `times_mat_symbolic`, hiopMatrixSparseCSRSeq.cpp:651-726. The state is `(nnzM, irowptrM,
jcolindM)`. -/
def timesSymbolic (X M Y : CsrMat K) : Option (CsrMat K) :=
  if M.ready = true ∧ M.nrows = X.nrows ∧ M.ncols = Y.ncols ∧ Y.nrows = X.ncols then
    ((List.range X.nrows).foldlM (fun (s : ℕ × (ℕ → ℕ) × (ℕ → ℕ)) i =>
      (pairLoop X Y i (fun l _ py => if Y.col py < Y.ncols then some (sinsert (Y.col py) l) else none)
        []).bind fun l =>
      (l.foldlM (pushStep M.nnz) (s.1, s.2.2)).map fun t => (t.1, wr s.2.1 i s.1, t.2))
      (0, M.ptr, M.col)).bind fun s =>
    some { M with ptr := wr s.2.1 X.nrows s.1, col := s.2.2 }
  else none

/-- Scaling of the values of `M` by `beta`, hiopMatrixSparseCSRSeq.cpp:754-767. -/
def betaVals (nnz : ℕ) (beta : K) (v : ℕ → K) : ℕ → K :=
  if beta ≠ 1 then fun k => if k < nnz then (if beta = 0 then 0 else beta * v k) else v k
  else v

/-- Scatter step `W[jcolindY[py]] += valuesY[py]*val`, hiopMatrixSparseCSRSeq.cpp:785-791. -/
def scatterStep (X Y : CsrMat K) (W : ℕ → K) (px py : ℕ) : Option (ℕ → K) :=
  if Y.col py < Y.ncols then some (wr W (Y.col py) (W (Y.col py) + Y.val py * X.val px)) else none

/-- Gather step, hiopMatrixSparseCSRSeq.cpp:795-809. State `(W, valuesM)`; reads of `W` and
`valuesM` past their end are `none`. -/
def gatherStep (M : CsrMat K) (i : ℕ) (alpha : K) (s : (ℕ → K) × (ℕ → K)) (p : ℕ) :
    Option ((ℕ → K) × (ℕ → K)) :=
  if (p + 1 < M.ptr (i + 1) → M.col p < M.col (p + 1)) ∧ M.col p < M.ncols ∧ p < M.nnz then
    some (wr s.1 (M.col p) 0, wr s.2 p (s.2 p + alpha * s.1 (M.col p)))
  else none

/-- `times_mat_numeric`: `M = beta*M + alpha*X*Y`, hiopMatrixSparseCSRSeq.cpp:728-811. -/
def timesNumeric (X : CsrMat K) (beta : K) (M : CsrMat K) (alpha : K) (Y : CsrMat K) : Option (CsrMat K) :=
  if M.ready = true ∧ M.nrows = X.nrows ∧ M.ncols = Y.ncols ∧ Y.nrows = X.ncols then
    ((List.range X.nrows).foldlM (fun (s : (ℕ → K) × (ℕ → K)) i =>
      (pairLoop X Y i (scatterStep X Y) s.1).bind fun W =>
      (rowIdx M i).foldlM (gatherStep M i alpha) (W, s.2))
      ((fun _ => 0), betaVals M.nnz beta M.val)).bind fun s =>
    some { M with val := s.2 }
  else none

/-! ## Sum -/

/-- The sorted merge `while` loop of one row, hiopMatrixSparseCSRSeq.cpp:1236-1255, 1303-1328,
1388-1420. `f` is the loop body: it receives the consumed positions of `X` and `Y`. The fuel is the
number of remaining entries of both rows, of which each pass consumes at least one. Returns the state
and the final `ptX`, `ptY`. -/
def mergeWhile {S : Type*} (X Y : CsrMat K) (eX eY : ℕ) (f : S → Option ℕ → Option ℕ → Option S) :
    ℕ → ℕ → ℕ → S → Option (S × ℕ × ℕ)
  | 0, pX, pY, s => some (s, pX, pY)
  | fuel + 1, pX, pY, s =>
    if pX < eX ∧ pY < eY then
      if X.col pX < X.ncols ∧ Y.col pY < X.ncols then
        if X.col pX < Y.col pY then
          (f s (some pX) none).bind (mergeWhile X Y eX eY f fuel (pX + 1) pY)
        else if X.col pX = Y.col pY then
          (f s (some pX) (some pY)).bind (mergeWhile X Y eX eY f fuel (pX + 1) (pY + 1))
        else (f s none (some pY)).bind (mergeWhile X Y eX eY f fuel pX (pY + 1))
      else none
    else some (s, pX, pY)

/-- One row of the three addition routines: the merge loop, its assertion, and the two loops over the
rest of the row of `X` and of `Y`, hiopMatrixSparseCSRSeq.cpp:1233-1262, 1300-1343, 1384-1449. -/
def mergeRow {S : Type*} (X Y : CsrMat K) (f : S → Option ℕ → Option ℕ → Option S) (s : S) (i : ℕ) :
    Option S :=
  let eX := X.ptr (i + 1)
  let eY := Y.ptr (i + 1)
  (mergeWhile X Y eX eY f (eX - X.ptr i + (eY - Y.ptr i)) (X.ptr i) (Y.ptr i) s).bind fun t =>
  if t.2.1 = eX ∨ t.2.2 = eY then
    ((List.range' t.2.1 (eX - t.2.1)).foldlM
      (fun s p => if X.col p < X.ncols then f s (some p) none else none) t.1).bind fun s =>
    (List.range' t.2.2 (eY - t.2.2)).foldlM
      (fun s p => if Y.col p < X.ncols then f s none (some p) else none) s
  else none

/-- `add_matrix_alloc`, hiopMatrixSparseCSRSeq.cpp:1212-1263. The assertions on the column indices in
the two remainder loops of `mergeRow` are absent here; they hold for every valid matrix. -/
def addAlloc (X Y : CsrMat K) (g : Garbage K) : Option (CsrMat K) :=
  if X.nrows = Y.nrows ∧ X.ncols = Y.ncols then
    ((List.range X.nrows).foldlM (fun z i => mergeRow X Y (fun z _ _ => some (z + 1)) z i) 0).bind
      fun z => create X.nrows X.ncols z g
  else none

/-- Column of a merge step: `jX`, or `jY` when only `Y` is consumed,
hiopMatrixSparseCSRSeq.cpp:1310-1324. -/
def mergeCol (X Y : CsrMat K) (a b : Option ℕ) : ℕ :=
  match a, b with
  | some p, _ => X.col p
  | none, some q => Y.col q
  | none, none => 0

/-- `add_matrix_symbolic`, hiopMatrixSparseCSRSeq.cpp:1270-1343. The bound on the rows of `M` is the size
of `irowptrM`; it is not asserted in the source. -/
def addSymbolic (X M Y : CsrMat K) : Option (CsrMat K) :=
  if M.ready = true ∧ X.nrows ≤ M.nrows ∧ X.nrows = Y.nrows ∧ X.ncols = Y.ncols then
    ((List.range X.nrows).foldlM (fun (s : ℕ × (ℕ → ℕ) × (ℕ → ℕ)) i =>
      (mergeRow X Y (fun t a b => pushStep M.nnz t (mergeCol X Y a b)) (s.1, s.2.2) i).bind fun t =>
      if t.1 ≤ M.nnz then some (t.1, wr s.2.1 i s.1, t.2) else none) (0, M.ptr, M.col)).bind fun s =>
    if s.1 = M.nnz then some { M with ptr := wr s.2.1 X.nrows s.1, col := s.2.2 } else none
  else none

/-- Value of a merge step, hiopMatrixSparseCSRSeq.cpp:1397-1418. -/
def mergeVal (X Y : CsrMat K) (alpha beta : K) (a b : Option ℕ) : K :=
  match a, b with
  | some p, some q => alpha * X.val p + beta * Y.val q
  | some p, none => alpha * X.val p
  | none, some q => beta * Y.val q
  | none, none => 0

/-- `valuesM[itnnzM] += x; itnnzM++` with the range assertion, hiopMatrixSparseCSRSeq.cpp:1395-1420. -/
def addAtStep (nnz : ℕ) (s : ℕ × (ℕ → K)) (x : K) : Option (ℕ × (ℕ → K)) :=
  if s.1 < nnz then some (s.1 + 1, wr s.2 s.1 (s.2 s.1 + x)) else none

/-- `add_matrix_numeric`: `M = alpha*X + beta*Y`, hiopMatrixSparseCSRSeq.cpp:1348-1452. The checks
under `HIOP_DEEPCHECKS` are left out. -/
def addNumeric (X M : CsrMat K) (alpha : K) (Y : CsrMat K) (beta : K) : Option (CsrMat K) :=
  if X.nrows = Y.nrows ∧ X.ncols = Y.ncols then
    ((List.range X.nrows).foldlM (fun s i =>
      mergeRow X Y (fun t a b => addAtStep M.nnz t (mergeVal X Y alpha beta a b)) s i)
      (0, fun k => if k < M.nnz then 0 else M.val k)).bind fun s =>
    if s.1 = M.nnz then some { M with val := s.2 } else none
  else none

/-- `copyFrom`, hiopMatrixSparseCSRSeq.cpp:351-359, on whole arrays. -/
def copyFrom (A B : CsrMat K) : Option (CsrMat K) :=
  if A.nnz = B.nnz ∧ A.nrows = B.nrows then
    some { A with
      ptr := fun k => if k < A.nrows + 1 then B.ptr k else A.ptr k
      col := fun k => if k < A.nnz then B.col k else A.col k
      val := copyVals A.nnz B.val A.val }
  else none

end Hiop.Csr
