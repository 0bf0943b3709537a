import Verif.Csr.Model

/-!
# From triplets to the compressed rows handed to sparse direct solvers

Source: `firstCall` and `matrixChanged` of src/LinAlg/hiopLinSolverSparseSTRUMPACK.cpp,
hiopLinSolverSparsePARDISO.cpp, hiopLinSolverSparseGinkgo.cpp (`transferTripletToCSR`,
`update_matrix`), hiopLinSolverSparseReSolve.cpp (`compute_nnz`, `set_csr_indices_values`,
`update_matrix_values` with host memory) and `convert_to_csr_arrays` of
src/LinAlg/hiopMatrixSparseTriplet.cpp.

The pattern (`i_row`, `j_col`) is a list of positions, the values are a function of the position in
storage, so that the same pattern can be refreshed with other values. Arrays are functions; accesses
past the end and failed assertions are `none`. The shift to Fortran indices done for PARDISO
(hiopLinSolverSparsePARDISO.cpp:205-211, 392-398) is left out. Indices are natural numbers: overflow is
not modelled.
-/

namespace Hiop.Lin

open Hiop.Csr Hiop.Sparse

variable {K : Type*} [Field K] [LinearOrder K]

/-- `a[k]++`. Code: hiopLinSolverSparseSTRUMPACK.cpp:106-117. -/
def inc (a : ℕ → ℕ) (k : ℕ) : ℕ → ℕ := wr a k (a k + 1)

/-- `for(i=1; i<n+1; i++) p[i] += p[i-1];`, hiopLinSolverSparseSTRUMPACK.cpp:117-120 and the same loop
in the other wrappers. The loop variable here is `i-1`. -/
def accumulate (n : ℕ) (p : ℕ → ℕ) : ℕ → ℕ :=
  (List.range n).foldl (fun (p : ℕ → ℕ) i => wr p (i + 1) (p (i + 1) + p i)) p

/-- The arrays `jCol_`, `kVal_`, `index_covert_CSR2Triplet_`, `nnz_each_row_tmp` and
`index_covert_extra_Diag2CSR_` (`none`: -1) while they are filled. Code: hiopLinSolverSparseReSolve.cpp:459-547. -/
structure Fill (K : Type*) where
  cnt : ℕ → ℕ
  col : ℕ → ℕ
  idx : ℕ → ℕ
  val : ℕ → K
  diag : ℕ → Option ℕ

/-- `nnz_tmp = nnz_each_row_tmp[a] + kRowPtr_[a]; jCol_[nnz_tmp] = b; kVal_[nnz_tmp] = v;
index_covert_CSR2Triplet_[nnz_tmp] = k;`, e.g. hiopLinSolverSparseSTRUMPACK.cpp:153-156, with the array
bounds. -/
def put (n nnz : ℕ) (ptr : ℕ → ℕ) (a b : ℕ) (v : K) (k : ℕ) (s : Fill K) : Option (Fill K) :=
  let p := s.cnt a + ptr a
  if a < n ∧ p < nnz then
    some { s with col := wr s.col p b, val := wr s.val p v, idx := wr s.idx p k }
  else none

/-- `nnz_each_row_tmp[a]++`. Code: hiopLinSolverSparseReSolve.cpp:503, hiopLinSolverSparseReSolve.cpp:516-517. -/
def incCnt (a : ℕ) (s : Fill K) : Fill K := { s with cnt := inc s.cnt a }

/-- An off-diagonal triplet at `(a, b)`. Code: hiopLinSolverSparseReSolve.cpp:506-520. -/
def putOff (n nnz : ℕ) (ptr : ℕ → ℕ) (M : ℕ → K) (k : ℕ) (s : Fill K) (ab : ℕ × ℕ) : Option (Fill K) :=
  (put n nnz ptr ab.1 ab.2 (M k) k s).map (incCnt ab.1)

/-- `kVal_[nnz_tmp] += M[e]; index_covert_extra_Diag2CSR_[r] = nnz_tmp;`,
hiopLinSolverSparseSTRUMPACK.cpp:147-148. -/
def addExtra (ptr : ℕ → ℕ) (M : ℕ → K) (r e : ℕ) (s : Fill K) : Fill K :=
  let p := s.cnt r + ptr r
  { s with val := wr s.val p (s.val p + M e), diag := wr s.diag r (some p) }

/-- `reorder(arr+lo, ind, len)`, hiopCppStdUtils.hpp:78-92. -/
def reorder {α : Type*} (arr : ℕ → α) (lo : ℕ) (ind : List ℕ) : ℕ → α := fun t =>
  if lo ≤ t then
    match ind[t - lo]? with
    | some a => arr (lo + a)
    | none => arr t
  else arr t

/-- Overwriting the positions `lo, lo+1, ...` by a list. No counterpart in the code: used only to state and run the model. -/
def wrSeg {α : Type*} (arr : ℕ → α) (lo : ℕ) (l : List α) : ℕ → α := fun t =>
  if lo ≤ t then (l[t - lo]?).getD (arr t) else arr t

/-- `std::sort(l, key)`: an arbitrary function here, `Sorts` is what the standard guarantees. Code: hiopLinSolverSparseSTRUMPACK.cpp:180-184. -/
abbrev SortFn := (ℕ → ℕ) → List ℕ → List ℕ

/-- The permutation `ind_temp` of one row, hiopLinSolverSparseSTRUMPACK.cpp:178-180. -/
def rowPerm (srt : SortFn) (ptr : ℕ → ℕ) (i : ℕ) (s : Fill K) : List ℕ :=
  srt (fun a => s.col (a + ptr i)) (List.range (ptr (i + 1) - ptr i))

/-- Sorting a row by columns, hiopLinSolverSparseSTRUMPACK.cpp:178-184: values and indices are permuted
like the columns, which are sorted by themselves. -/
def sortRow (srt : SortFn) (ptr : ℕ → ℕ) (i : ℕ) (s : Fill K) : Fill K :=
  let ind := rowPerm srt ptr i s
  { s with
    val := reorder s.val (ptr i) ind
    idx := reorder s.idx (ptr i) ind
    col := wrSeg s.col (ptr i)
      (srt id ((List.range (ptr (i + 1) - ptr i)).map fun a => s.col (ptr i + a))) }

/-- What the wrapper keeps between factorizations: the matrix, the position of every stored value in
the triplets, and the positions to which a further value is added. Code: hiopLinSolverSparseReSolve.cpp:459-547. -/
structure Conv (K : Type*) where
  A : CsrMat K
  idx : ℕ → ℕ
  diag : ℕ → Option ℕ

/-- The matrix given by the arrays. Code: hiopLinSolverSparseReSolve.cpp:459-547. -/
def mkCsr (n nnz : ℕ) (ptr col : ℕ → ℕ) (val : ℕ → K) : CsrMat K :=
  { nrows := n, ncols := n, nnz := nnz, ready := true, ptr := ptr, col := col, val := val
    starts := none }

/-! ## Symmetric wrappers -/

/-- Where an off-diagonal triplet `(r, c)` is stored: at both positions by STRUMPACK, Ginkgo and
ReSolve (hiopLinSolverSparseSTRUMPACK.cpp:152-166, hiopLinSolverSparseGinkgo.cpp:136-150,
hiopLinSolverSparseReSolve.cpp:505-519). -/
def both (r c : ℕ) : List (ℕ × ℕ) := [(r, c), (c, r)]

/-- At the transposed position by PARDISO, hiopLinSolverSparsePARDISO.cpp:171-179. -/
def transposed (r c : ℕ) : List (ℕ × ℕ) := [(c, r)]

/-- Loop body of the count of nonzeros, hiopLinSolverSparseSTRUMPACK.cpp:105-111,
hiopLinSolverSparsePARDISO.cpp:121-126: the state is `kRowPtr_`, `nnz_`. -/
def countSym (tg : ℕ → ℕ → List (ℕ × ℕ)) (n : ℕ) (s : (ℕ → ℕ) × ℕ) (rc : ℕ × ℕ) :
    Option ((ℕ → ℕ) × ℕ) :=
  if rc.1 = rc.2 then some s
  else if rc.1 < n ∧ rc.2 < n then
    some ((tg rc.1 rc.2).foldl (fun s ab => (inc s.1 (ab.1 + 1), s.2 + 1)) s)
  else none

/-- Loop body of the second pass, hiopLinSolverSparseSTRUMPACK.cpp:138-167,
hiopLinSolverSparsePARDISO.cpp:157-180. `nz` is `numberOfNonzeros()`. The counters of both rows of an
off-diagonal triplet are advanced after both entries in the code; they belong to different rows. -/
def fillSym (tg : ℕ → ℕ → List (ℕ × ℕ)) (n nnz nz : ℕ) (ptr : ℕ → ℕ) (M : ℕ → K) (s : Fill K)
    (e : (ℕ × ℕ) × ℕ) : Option (Fill K) :=
  if e.1.1 = e.1.2 then
    (put n nnz ptr e.1.1 e.1.2 (M e.2) e.2 s).map fun s =>
      incCnt e.1.1 (addExtra ptr M e.1.1 (nz - n + e.1.1) s)
  else (tg e.1.1 e.1.2).foldlM (putOff n nnz ptr M e.2) s

/-- Loop body of the last pass, hiopLinSolverSparseSTRUMPACK.cpp:169-186: rows without a diagonal
triplet get the additional diagonal entry and are sorted. -/
def fixRow (srt : SortFn) (n nnz nz : ℕ) (ptr : ℕ → ℕ) (M : ℕ → K) (s : Fill K) (i : ℕ) :
    Option (Fill K) :=
  if s.cnt i = ptr (i + 1) - ptr i then some s
  else if s.cnt i + 1 = ptr (i + 1) - ptr i then
    (put n nnz ptr i i (M (nz - n + i)) (nz - n + i) s).map (sortRow srt ptr i)
  else none

/-- `firstCall`, hiopLinSolverSparseSTRUMPACK.cpp:88-189, hiopLinSolverSparsePARDISO.cpp:104-203,
hiopLinSolverSparseGinkgo.cpp:67-173, hiopLinSolverSparseReSolve.cpp:418-547: the last `n` triplets are
the additional diagonal; their positions are not looked at. New arrays are zero
(hiopLinSolverSparseSTRUMPACK.cpp:123-124; the index arrays are not initialized, which the garbage
`g` stands for). -/
def convSym (tg : ℕ → ℕ → List (ℕ × ℕ)) (srt : SortFn) (n : ℕ) (pat : List (ℕ × ℕ)) (M : ℕ → K)
    (g : ℕ → ℕ) : Option (Conv K) :=
  let nz := pat.length
  let body := pat.take (nz - n)
  (body.foldlM (countSym tg n) (fun _ => 0, 0)).bind fun s =>
  let s := (List.range n).foldl (fun (s : (ℕ → ℕ) × ℕ) i => (inc s.1 (i + 1), s.2 + 1)) s
  let ptr := accumulate n s.1
  let nnz := s.2
  if nnz = ptr n then
    (body.zipIdx.foldlM (fillSym tg n nnz nz ptr M)
      { cnt := fun _ => 0, col := fun _ => 0, idx := g, val := fun _ => 0, diag := fun _ => none }).bind
    fun f =>
    ((List.range n).foldlM (fixRow srt n nnz nz ptr M) f).map fun f =>
    { A := mkCsr n nnz ptr f.col f.val, idx := f.idx, diag := f.diag }
  else none

/-- `matrixChanged` after the first call, hiopLinSolverSparseSTRUMPACK.cpp:240-248,
hiopLinSolverSparsePARDISO.cpp:263-271, hiopLinSolverSparseGinkgo.cpp:189-199,
hiopLinSolverSparseReSolve.cpp:403-412. -/
def refreshSym (n nz : ℕ) (M : ℕ → K) (C : Conv K) : Conv K :=
  let val := (List.range C.A.nnz).foldl (fun (v : ℕ → K) k => wr v k (M (C.idx k))) C.A.val
  let val := (List.range n).foldl
    (fun (v : ℕ → K) i => match C.diag i with
      | some p => wr v p (v p + M (nz - n + i))
      | none => v) val
  { C with A := { C.A with val := val } }

/-! ## Nonsymmetric wrappers -/

/-- Variables of the first pass of `convert_to_csr_arrays`: `diag_defined`, `csr_kRowPtr`, `csr_nnz`,
`extra_diag_nnz_map_temp`. Code: hiopMatrixSparseTriplet.cpp:1207-1234. -/
structure Count where
  seen : ℕ → Option ℕ
  ptr : ℕ → ℕ
  nnz : ℕ
  extra : ℕ → Option ℕ

/-- Loop body of the first pass, hiopMatrixSparseTriplet.cpp:1215-1228. -/
def countNon (n : ℕ) (s : Count) (e : (ℕ × ℕ) × ℕ) : Option Count :=
  let r := e.1.1
  if r < n then
    some (if r ≠ e.1.2 then { s with ptr := inc s.ptr (r + 1), nnz := s.nnz + 1 }
      else if s.seen r = none then
        { s with seen := wr s.seen r (some e.2), ptr := inc s.ptr (r + 1), nnz := s.nnz + 1 }
      else { s with extra := wr s.extra r (some e.2) })
  else none

/-- Loop body of the second pass, hiopMatrixSparseTriplet.cpp:1263-1289; the state is `diag_defined`
and the arrays (`diag` is `index_convert_extra_Diag2CSR_temp`). -/
def fillNon (n nnz : ℕ) (ptr : ℕ → ℕ) (extra : ℕ → Option ℕ) (M : ℕ → K)
    (s : (ℕ → Option ℕ) × Fill K) (e : (ℕ × ℕ) × ℕ) : Option ((ℕ → Option ℕ) × Fill K) :=
  let r := e.1.1
  if r = e.1.2 then
    if s.1 r = none then
      (put n nnz ptr r e.1.2 (M e.2) e.2 s.2).map fun f =>
        (wr s.1 r (some e.2), incCnt r (match extra r with
          | some x => addExtra ptr M r x f
          | none => f))
    else some s
  else (putOff n nnz ptr M e.2 s.2 e.1).map fun f => (s.1, f)

/-- The result of `convert_to_csr_arrays`: `extra` is the list of pairs in `extra_diag_nnz_map`. Code: hiopMatrixSparseTriplet.cpp:1311. -/
structure ConvNon (K : Type*) where
  A : CsrMat K
  idx : ℕ → ℕ
  extra : List (ℕ × ℕ)

/-- Loop body of the last pass, hiopMatrixSparseTriplet.cpp:1291-1314: `ind_temp[old]` is looked up in
`ind_temp`. -/
def fixNon (srt : SortFn) (ptr : ℕ → ℕ) (extra : ℕ → Option ℕ) (s : Fill K × List (ℕ × ℕ)) (i : ℕ) :
    Option (Fill K × List (ℕ × ℕ)) :=
  let ind := rowPerm srt ptr i s.1
  let f := sortRow srt ptr i s.1
  match s.1.diag i with
  | none => some (f, s.2)
  | some old =>
    match ind[old - ptr i]?, extra i with
    | some x, some k => some (f, s.2 ++ [(ind.idxOf x + ptr i, k)])
    | _, _ => none

/-- `convert_to_csr_arrays`, hiopMatrixSparseTriplet.cpp:1186-1320. New arrays hold arbitrary
values. -/
def convNon (srt : SortFn) (n : ℕ) (pat : List (ℕ × ℕ)) (M : ℕ → K) (g : Garbage K) :
    Option (ConvNon K) :=
  (pat.zipIdx.foldlM (countNon n)
    { seen := fun _ => none, ptr := fun _ => 0, nnz := 0, extra := fun _ => none }).bind fun c =>
  let ptr := accumulate n c.ptr
  if c.nnz = ptr n ∧ c.nnz + ((List.range n).filter fun i => (c.extra i).isSome).length = pat.length then
    (pat.zipIdx.foldlM (fillNon n c.nnz ptr c.extra M)
      (fun _ => none,
        { cnt := fun _ => 0, col := g.col, idx := g.ptr, val := g.val, diag := fun _ => none })).bind
    fun s =>
    ((List.range n).foldlM (fixNon srt ptr c.extra) (s.2, [])).map fun f =>
    { A := mkCsr n c.nnz ptr f.1.col f.1.val, idx := f.1.idx, extra := f.2 }
  else none

/-- `matrixChanged` after the first call, hiopLinSolverSparsePARDISO.cpp:450-457,
hiopLinSolverSparseSTRUMPACK.cpp:383-390. -/
def refreshNon (M : ℕ → K) (C : ConvNon K) : ConvNon K :=
  let val := (List.range C.A.nnz).foldl (fun (v : ℕ → K) k => wr v k (M (C.idx k))) C.A.val
  let val := C.extra.foldl (fun (v : ℕ → K) p => wr v p.1 (v p.1 + M p.2)) val
  { C with A := { C.A with val := val } }

end Hiop.Lin
