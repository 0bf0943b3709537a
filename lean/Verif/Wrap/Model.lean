import Mathlib.Data.Int.Basic
import Mathlib.Data.Nat.Find
import Mathlib.Data.Matrix.Mul

/-!
# The wrappers around the linear solver libraries

Source: `hiopLinSolverSymSparseMA57.cpp`, `hiopLinSolverSparsePARDISO.cpp`, `hiopLinSolverSparseSTRUMPACK.cpp`,
`hiopLinSolverSparseGinkgo.cpp`, `hiopLinSolverSparseReSolve.cpp`, `ReSolve/RefactorizationSolver.cpp`,
`hiopLinSolverSymDenseMagma.cpp`, `hiopLinSolverCholCuSparse.cpp` (all in `src/LinAlg`).

All of them implement the same two calls (src/LinAlg/hiopLinSolver.hpp:84-97): `matrixChanged` factorizes the matrix
and returns the number of negative eigenvalues, or -1; `solve` overwrites a right-hand side and returns a bool.
A library is an arbitrary function from its inputs to its status codes and outputs. The state of a wrapper is what it
remembers from one call to the next.

Simplifications: the conversion of the matrix to the format of the library is in `Verif/Lin`; timers, logging,
transfers between host and device and the memory allocated are left out, as are failures of allocations.
-/

namespace Hiop.Wrap

/-- Calls made by the optimization code. Code: hiopLinSolver.hpp:88-97. -/
inductive Op (M X : Type)
  | change (A : M)
  | solve (b : X)

/-- What the caller sees: the returned int; the returned bool and the contents of the vector; a failed assertion;
a call that never returns; undefined behaviour. No counterpart in the code: used only to state and run the model. -/
inductive Ans (X : Type)
  | code (c : ℤ)
  | sol (ok : Bool) (x : X)
  | abort
  | hang
  | ub

/-- A wrapper: state and the two calls. Code: hiopLinSolver.hpp:88-97. -/
structure Wrapper (M X S : Type) where
  init : S
  change : M → S → S × Ans X
  solve : X → S → S × Ans X

variable {M X S : Type}

/-- The program continues after this answer. No counterpart in the code: used only to state and run the model. -/
def Ans.goesOn : Ans X → Bool
  | .code _ => true
  | .sol _ _ => true
  | _ => false

/-- Code: hiopLinSolver.hpp:88-97. -/
def Wrapper.step (W : Wrapper M X S) (s : S) : Op M X → S × Ans X
  | .change A => W.change A s
  | .solve b => W.solve b s

/-- The answers to a sequence of calls; nothing after an abort, an endless call or undefined behaviour. No counterpart in the code: used only to state and run the model. -/
def Wrapper.run (W : Wrapper M X S) : S → List (Op M X) → List (Op M X × Ans X)
  | _, [] => []
  | s, o :: l => let r := W.step s o; (o, r.2) :: if r.2.goesOn then W.run r.1 l else []

/-! ## MA57 -/

/-- What MA57BD reports: `info_[0]`, `info_[23]` (negative eigenvalues), and the suggested sizes `info_[16]`,
`info_[17]`. Code: hiopLinSolverSymSparseMA57.cpp:107-184. -/
structure Ma57Info where
  code : ℤ
  neg : ℤ
  sugF : ℤ
  sugI : ℤ

/-- MA57: sizes suggested by the analysis (`info_[8]`, `info_[9]`), factorization for given sizes of the work arrays,
solution with the factors of a matrix. Code: hiopLinSolverSymSparseMA57.cpp:107-252. -/
structure Ma57 (M X : Type) where
  anF : M → ℤ
  anI : M → ℤ
  bd : M → ℤ → ℤ → Ma57Info
  dd : M → X → ℤ × X

/-- `(int)(1.05 * s)`, as an allocation: undefined when negative or not an `int`
(src/LinAlg/hiopLinSolverSymSparseMA57.cpp:45-46, 99-103, 136-137, 149-150). The product is taken exactly. -/
def pess (s : ℤ) : Option ℤ := if 0 ≤ s ∧ s * 105 / 100 < 2 ^ 31 then some (s * 105 / 100) else none

/-- One round of the do-while loop, src/LinAlg/hiopLinSolverSymSparseMA57.cpp:122-168: either the loop ends with an
answer (the sizes are kept) or goes on with new sizes. The `default` branch asserts; with assertions off it leaves the
loop for a nonnegative code and repeats the same call for a negative one. -/
def ma57Round (asserts : Bool) (L : Ma57 M X) (A : M) (z : ℤ × ℤ) : (ℤ × ℤ) × Option (Ans X) :=
  let i := L.bd A z.1 z.2
  if i.code = 0 then (z, some (.code i.neg))
  else if i.code = -3 then
    match pess i.sugF with
    | some f => ((f, z.2), none)
    | none => (z, some .ub)
  else if i.code = -4 then
    match pess i.sugI with
    | some f => ((z.1, f), none)
    | none => (z, some .ub)
  else if i.code = 4 then (z, some (.code (-1)))
  else if asserts then (z, some .abort)
  else if 0 ≤ i.code then (z, some (.code i.neg))
  else (z, none)

/-- The sizes after `k` rounds that did not end the loop. Code: hiopLinSolverSymSparseMA57.cpp:107-184. -/
def ma57Sizes (asserts : Bool) (L : Ma57 M X) (A : M) (z : ℤ × ℤ) : ℕ → ℤ × ℤ
  | 0 => z
  | k + 1 => (ma57Round asserts L A (ma57Sizes asserts L A z k)).1

open Classical in
/-- The whole loop: its answer comes from the first round that ends it, if there is one. Code: hiopLinSolverSymSparseMA57.cpp:107-184. -/
noncomputable def ma57Loop (asserts : Bool) (L : Ma57 M X) (A : M) (z : ℤ × ℤ) : (ℤ × ℤ) × Ans X :=
  if h : ∃ k, (ma57Round asserts L A (ma57Sizes asserts L A z k)).2.isSome then
    let r := ma57Round asserts L A (ma57Sizes asserts L A z (Nat.find h))
    (r.1, r.2.getD .hang)
  else (z, .hang)

/-- State: the sizes of the work arrays once allocated, and the matrix factorized last. Code: hiopLinSolverSymSparseMA57.cpp:78-184. -/
structure Ma57St (M : Type) where
  sizes : Option (ℤ × ℤ)
  fact : Option M

/-- `matrixChanged` (with `firstCall`, whose status is not looked at), src/LinAlg/hiopLinSolverSymSparseMA57.cpp:78-184;
`solve`, lines 186-252: a positive status, a warning, also counts as failure. -/
noncomputable def ma57 (asserts : Bool) (L : Ma57 M X) : Wrapper M X (Ma57St M) where
  init := ⟨none, none⟩
  change A s :=
    let z : Option (ℤ × ℤ) :=
      match s.sizes with
      | some z => some z
      | none =>
        match pess (L.anF A), pess (L.anI A) with
        | some f, some i => some (f, i)
        | _, _ => none
    match z with
    | none => (s, .ub)
    | some z => let r := ma57Loop asserts L A z; (⟨some r.1, some A⟩, r.2)
  solve b s :=
    match s.fact with
    | none => (s, .ub)
    | some A => let r := L.dd A b; (s, .sol (decide (r.1 = 0)) r.2)

/-! ## PARDISO -/

/-- PARDISO: factorization: error code, `iparm_[21]` (positive eigenvalues), `iparm_[22]` (negative ones); solution. Code: hiopLinSolverSparsePARDISO.cpp:252-336. -/
structure Pardiso (M X : Type) where
  fact : M → ℤ × ℤ × ℤ
  back : M → X → ℤ × X

/-- Symmetric systems, src/LinAlg/hiopLinSolverSparsePARDISO.cpp:252-336: errors are only asserted. -/
def pardisoSym (asserts : Bool) (n : ℕ) (L : Pardiso M X) : Wrapper M X (Option M) where
  init := none
  change A _ :=
    let r := L.fact A
    if asserts ∧ r.1 ≠ 0 then (some A, .abort)
    else (some A, .code (if r.2.1 + r.2.2 ≠ n then -1 else r.2.2))
  solve b s :=
    match s with
    | none => (s, .ub)
    | some A =>
      let r := L.back A b
      if asserts ∧ r.1 ≠ 0 then (s, .abort) else (s, .sol true r.2)

/-- General systems, src/LinAlg/hiopLinSolverSparsePARDISO.cpp:439-515: 0 is returned for every matrix. -/
def pardisoNon (asserts : Bool) (L : Pardiso M X) : Wrapper M X (Option M) where
  init := none
  change A _ := if asserts ∧ (L.fact A).1 ≠ 0 then (some A, .abort) else (some A, .code 0)
  solve b s :=
    match s with
    | none => (s, .ub)
    | some A => let r := L.back A b; (s, .sol (decide (r.1 = 0)) r.2)

/-! ## STRUMPACK -/

/-- Code: hiopLinSolverSparseSTRUMPACK.cpp:226-274. -/
inductive Rc
  | success
  | zeroPivot
  | other
  deriving DecidableEq

/-- STRUMPACK: status of the factorization; inertia: whether it succeeded and the value left in
`num_neg_eig_val`; solution: status and vector. Code: hiopLinSolverSparseSTRUMPACK.cpp:226-296. -/
structure Strumpack (M X : Type) where
  factor : M → Rc
  inertia : M → Bool × ℤ
  solve : M → X → Bool × X

/-- Symmetric systems, src/LinAlg/hiopLinSolverSparseSTRUMPACK.cpp:226-296: a failed inertia computation is only
logged, the status of the solve is not looked at. -/
def strumpackSym (asserts : Bool) (L : Strumpack M X) : Wrapper M X (Option M) where
  init := none
  change A _ :=
    match L.factor A with
    | .zeroPivot => (some A, .code (-1))
    | .success => (some A, .code (L.inertia A).2)
    | .other => (some A, if asserts then .abort else .code 0)
  solve b s :=
    match s with
    | none => (s, .ub)
    | some A => (s, .sol true (L.solve A b).2)

/-- General systems, src/LinAlg/hiopLinSolverSparseSTRUMPACK.cpp:373-421: no status is looked at. -/
def strumpackNon (L : Strumpack M X) : Wrapper M X (Option M) where
  init := none
  change A _ := (some A, .code 0)
  solve b s :=
    match s with
    | none => (s, .ub)
    | some A => (s, .sol true (L.solve A b).2)

/-! ## Ginkgo -/

/-- Ginkgo: whether the factorization succeeded; solution (with GMRES if iterative refinement is on) and whether it
converged. Code: hiopLinSolverSparseGinkgo.cpp:314-374. -/
structure Ginkgo (M X : Type) where
  fact : M → Bool
  apply : M → X → Bool × X

/-- src/LinAlg/hiopLinSolverSparseGinkgo.cpp:309-372. -/
def ginkgo (L : Ginkgo M X) : Wrapper M X (Option M) where
  init := none
  change A _ := (some A, .code (if L.fact A then 0 else -1))
  solve b s :=
    match s with
    | none => (s, .ub)
    | some A => (s, .sol true (L.apply A b).2)

/-! ## MAGMA -/

/-- MAGMA: `info` of the factorization; inertia (positive, negative, zero) unless it fails; solution. Code: hiopLinSolverSymDenseMagma.cpp:120-270. -/
structure Magma (M X : Type) where
  trf : M → ℤ
  inert : M → Option (ℤ × ℤ × ℤ)
  trs : M → X → ℤ × X

/-- The value returned by `matrixChanged` after a factorization, src/LinAlg/hiopLinSolverSymDenseMagma.cpp:152-182,
354-381. -/
def magmaCode (L : Magma M X) (A : M) : ℤ :=
  if L.trf A < 0 then -1
  else if L.trf A > 0 then -1
  else
    match L.inert A with
    | none => -1
    | some e => if e.2.2 > 0 then -1 else e.2.1

/-- Bunch-Kaufman, src/LinAlg/hiopLinSolverSymDenseMagma.cpp:120-270. -/
def magmaBuKa (asserts : Bool) (n : ℕ) (L : Magma M X) : Wrapper M X (Option M) where
  init := none
  change A _ := if n = 0 then (some A, .code 0) else (some A, .code (magmaCode L A))
  solve b s :=
    if n = 0 then (s, .sol true b)
    else
      match s with
      | none => (s, .ub)
      | some A =>
        let r := L.trs A b
        if asserts ∧ r.1 < 0 then (s, .abort) else (s, .sol (decide (r.1 = 0)) r.2)

/-- Without pivoting, src/LinAlg/hiopLinSolverSymDenseMagma.cpp:324-476: `return true` for an empty matrix, and the
vector on the host is left alone when the solve fails. -/
def magmaNopiv (n : ℕ) (L : Magma M X) : Wrapper M X (Option M) where
  init := none
  change A _ := if n = 0 then (some A, .code 1) else (some A, .code (magmaCode L A))
  solve b s :=
    if n = 0 then (s, .sol true b)
    else
      match s with
      | none => (s, .ub)
      | some A => let r := L.trs A b; if r.1 ≠ 0 then (s, .sol false b) else (s, .sol true r.2)

/-! ## ReSolve -/

/-- The libraries below ReSolve: KLU's analysis and factorization, its solve; factorization on the device (cusolver
GLU or Rf) and solve with it. Code: hiopLinSolverSparseReSolve.cpp:280-336. -/
structure ReLib (M X : Type) where
  analyze : M → Bool
  klu : M → Bool
  kluSolve : M → X → X
  dev : M → Bool
  devSolve : M → X → Bool × X

/-- State: `is_first_call_`; `Symbolic_`, `Numeric_` (with the matrix they were made from); `factorizationSetupSucc_`;
the matrix whose factors are on the device (`none`: no valid ones); `is_first_solve_`. Code: hiopLinSolverSparseReSolve.cpp:280-336. -/
structure ReSt (M : Type) where
  first : Bool
  sym : Bool
  num : Option M
  setup : Bool
  dev : Option M
  firstSolve : Bool

/-- `matrixChanged`, src/LinAlg/hiopLinSolverSparseReSolve.cpp:280-311 with `firstCall` (lines 336-377),
`factorize`, `setup_refactorization` and `refactorize` (src/LinAlg/ReSolve/RefactorizationSolver.cpp:160-233):
the first factorization is by KLU, later ones are on the device and their status is not looked at. The setup for GLU
factorizes on the device (line 547), the one for Rf passes KLU's factors (lines 730-747). -/
def reChange (glu : Bool) (L : ReLib M X) (A : M) (s : ReSt M) : ReSt M × Ans X :=
  let s : ReSt M := if s.first then { s with first := !L.analyze A, sym := L.analyze A } else s
  if !s.setup then
    if s.sym && L.klu A then
      ({ s with num := some A, setup := true, dev := if glu then (if L.dev A then some A else none) else some A },
        .code 0)
    else ({ s with num := none }, .code (-1))
  else ({ s with dev := if L.dev A then some A else none }, .code 0)

/-- `solve`, src/LinAlg/hiopLinSolverSparseReSolve.cpp:313-334, with `triangular_solve`
(src/LinAlg/ReSolve/RefactorizationSolver.cpp:235-350): for Rf the first solve is with KLU's factors, which are freed
then, and so is the symbolic factorization (KLU does nothing when its factors are a null pointer). Whatever `triangular_solve` returns, the answer is true. `junk`: the device's solution without valid factors.
Iterative refinement is part of `devSolve`. With `silent` a failed GLU solve goes on, otherwise the vector is left
alone. -/
def reSolveSolve (glu silent : Bool) (junk : X → X) (L : ReLib M X) (b : X) (s : ReSt M) : ReSt M × Ans X :=
  if glu then
    match s.dev with
    | some A =>
      let r := L.devSolve A b
      (s, .sol true (if !r.1 && !silent then b else r.2))
    | none => (s, .sol true (if silent then junk b else b))
  else if s.firstSolve then
    match s.num with
    | some A => ({ s with num := none, sym := false, firstSolve := false }, .sol true (L.kluSolve A b))
    | none => ({ s with sym := false, firstSolve := false }, .sol true b)
  else
    match s.dev with
    | some A => let r := L.devSolve A b; (s, .sol true (if !r.1 then b else r.2))
    | none => (s, .sol true (junk b))

/-- Code: hiopLinSolverSparseReSolve.cpp:280-336. -/
def resolve (glu silent : Bool) (junk : X → X) (L : ReLib M X) : Wrapper M X (ReSt M) where
  init := ⟨true, false, none, false, none, true⟩
  change := reChange glu L
  solve := reSolveSolve glu silent junk L

/-! ## Cholesky of cuSOLVER -/

/-- The status of the factorization, and of the search for a zero pivot with the position it reports. Code: hiopLinSolverCholCuSparse.cpp:394-466. -/
structure Chol (M X : Type) where
  factor : M → Bool
  pivot : M → Bool × ℤ
  solve : M → X → Bool × X

/-- `matrixChanged`, src/LinAlg/hiopLinSolverCholCuSparse.cpp:394-466: `position` is -1 if the search for a zero pivot
does not set it; its status is not looked at. `solve`: lines 468-513 (the permutations are below). -/
def chol (L : Chol M X) : Wrapper M X (Option M) where
  init := none
  change A _ :=
    if !L.factor A then (some A, .code (-1))
    else
      let p := L.pivot A
      let position := if p.1 then p.2 else -1
      (some A, .code (if position ≥ 0 then -1 else 0))
  solve b s :=
    match s with
    | none => (s, .ub)
    | some A => let r := L.solve A b; (s, .sol r.1 r.2)

/-- `PT_h[P_h[i]] = i` for all `i`, src/LinAlg/hiopLinSolverCholCuSparse.cpp:243-247, on memory `old`. -/
def invPerm (m : ℕ) (P : ℕ → ℕ) (old : ℕ → ℕ) : ℕ → ℕ :=
  (List.range m).foldl (fun q i => fun j => if j = P i then i else q j) old

/-- `permute_vec`: a gather, src/LinAlg/hiopLinSolverCholCuSparse.cpp:515-551. -/
def gather {K : Type} (v : ℕ → K) (perm : ℕ → ℕ) : ℕ → K := fun i => v (perm i)

/-- Entry `(i, j)` of a matrix in CSR format (repeated column indices are added). No counterpart in the code: used only to state and run the model. -/
def csrEntry {K : Type} [AddCommMonoid K] (row : ℕ → ℕ) (col : ℕ → ℕ) (val : ℕ → K) (i j : ℕ) : K :=
  ((List.range' (row i) (row (i + 1) - row i)).map fun k => if col k = j then val k else 0).sum

/-- What `initial_setup` leaves on the device: the permuted pattern, the map of the nonzeros, the permutation and its
inverse (src/LinAlg/hiopLinSolverCholCuSparse.cpp:192-391). -/
structure Setup where
  row : ℕ → ℕ
  col : ℕ → ℕ
  map : ℕ → ℕ
  P : ℕ → ℕ
  PT : ℕ → ℕ

/-- `initial_setup`: the ordering `P` and the library's permuted pattern and map; the inverse is computed here. Code: hiopLinSolverCholCuSparse.cpp:192-391. -/
def cholSetup (m : ℕ) (order : ℕ → ℕ) (csrperm : (ℕ → ℕ) → (ℕ → ℕ) × (ℕ → ℕ) × (ℕ → ℕ)) (old : ℕ → ℕ) : Setup :=
  let r := csrperm order
  ⟨r.1, r.2.1, r.2.2, order, invPerm m order old⟩

/-- The values given to the factorization, src/LinAlg/hiopLinSolverCholCuSparse.cpp:423-426. -/
def cholValues {K : Type} (s : Setup) (val : ℕ → K) : ℕ → K := gather val s.map

/-- `solve`: permute, solve with the permuted matrix, permute back,
src/LinAlg/hiopLinSolverCholCuSparse.cpp:487-497. -/
def cholSolve {K : Type} (s : Setup) (lib : (ℕ → K) → ℕ → K) (b : ℕ → K) : ℕ → K :=
  gather (lib (gather b s.P)) s.PT

end Hiop.Wrap
