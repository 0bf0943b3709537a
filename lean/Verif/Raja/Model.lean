import Verif.Raja.Sched
import Verif.Sparse.Model

/-!
# Triplet sparse matrices on the RAJA backend (src/LinAlg/hiopMatrixRajaSparseTripletImpl.hpp)

Every `RAJA::forall` is a `forallR` over the iterations below. Matrices that are only read are lists
of triplets as in `Verif.Sparse.Model`; matrices that are assembled are the three arrays
`iRow_`, `jCol_`, `values_`, each element a location of its own. The builds modelled are those
without HIOP_DEEPCHECKS and with assertions. Memory spaces and the host mirrors are not modelled;
uninitialised device arrays hold arbitrary contents.
-/

namespace Hiop.Raja

open Hiop.Sparse Hiop.Vec

variable {K : Type} [Field K] [LinearOrder K]

section
variable {L : Type} {V : L → Type}

/-- `assert` inside an iteration. Code: as in hiopMatrixRajaSparseTripletImpl.hpp:236, hiopMatrixRajaSparseTripletImpl.hpp:237. -/
def assertP (c : Prop) [Decidable c] (k : Prog L V) : Prog L V := if c then k else .fail

/-- Iteration `i` of a loop over the triplets. Code: as in hiopMatrixRajaSparseTripletImpl.hpp:233. -/
def nth {α : Type} (es : List α) (i : ℕ) (f : α → Prog L V) : Prog L V :=
  match es[i]? with
  | some e => f e
  | none => .ret

/-- A sequential loop inside an iteration. Code: as in hiopMatrixRajaSparseTripletImpl.hpp:383, hiopMatrixRajaSparseTripletImpl.hpp:819. -/
def loopP {α : Type} (l : List α) (f : α → Prog L V → Prog L V) : Prog L V := l.foldr f .ret

/-- `x += c`, not atomic. Code: hiopMatrixRajaSparseTripletImpl.hpp:541, hiopMatrixRajaSparseTripletImpl.hpp:816. -/
def plusEq (l : L) (c : K) (k : Prog L fun _ => K) : Prog L fun _ => K :=
  .rd l fun v => .wr l (v + c) k

/-- `RAJA::AtomicRef` `+=`. Code: hiopMatrixRajaSparseTripletImpl.hpp:238, hiopMatrixRajaSparseTripletImpl.hpp:311. -/
def atomicPlusEq (l : L) (c : K) (k : Prog L fun _ => K) : Prog L fun _ => K :=
  .rmw l (fun v => v + c) k

end

/-! ## Products with vectors -/

/-- `y[i] *= beta`, hiopMatrixRajaSparseTripletImpl.hpp:216-220, 289-293, 1948-1952. -/
def scaleLoop (n : ℕ) (beta : K) (y : ℕ → K) : Out (ℕ → K) :=
  forallR n (fun i => .rd i fun v => .wr i (v * beta) .ret) y

/-- `timesVec`, hiopMatrixRajaSparseTripletImpl.hpp:208-241. -/
def timesVecR (p q : ℕ) (es : List (Ent K)) (beta : K) (y : ℕ → K) (alpha : K) (x : ℕ → K) :
    Out (ℕ → K) :=
  (scaleLoop p beta y).andThen fun y =>
    forallR es.length (fun i => nth es i fun e =>
      assertP (e.r < p) <| assertP (e.c < q) <|
        atomicPlusEq e.r (alpha * x e.c * e.v) .ret) y

/-- `transTimesVec`, hiopMatrixRajaSparseTripletImpl.hpp:282-314. -/
def transTimesVecR (p q : ℕ) (es : List (Ent K)) (beta : K) (y : ℕ → K) (alpha : K) (x : ℕ → K) :
    Out (ℕ → K) :=
  (scaleLoop q beta y).andThen fun y =>
    forallR es.length (fun i => nth es i fun e =>
      assertP (e.r < p) <| assertP (e.c < q) <|
        atomicPlusEq e.c (alpha * x e.r * e.v) .ret) y

/-- Symmetric `timesVec`, hiopMatrixRajaSparseTripletImpl.hpp:1942-1978. -/
def symTimesVecR (p : ℕ) (es : List (Ent K)) (beta : K) (y : ℕ → K) (alpha : K) (x : ℕ → K) :
    Out (ℕ → K) :=
  (scaleLoop p beta y).andThen fun y =>
    forallR es.length (fun i => nth es i fun e =>
      assertP (e.r < p) <| assertP (e.c < p) <|
        atomicPlusEq e.r (alpha * x e.c * e.v) <|
          if e.r ≠ e.c then atomicPlusEq e.c (alpha * x e.r * e.v) .ret else .ret) y

/-! ## Products and additions into dense matrices -/

/-- `timesMatTrans`, hiopMatrixRajaSparseTripletImpl.hpp:340-413: one iteration per row of `this`. -/
def timesMatTransR (p s : ℕ) (M1 M2 : List (Ent K)) (beta : K) (W : ℕ × ℕ → K) (alpha : K) :
    Out (ℕ × ℕ → K) :=
  Out.check (rowStartsOk p M1 = true) <| Out.check (rowStartsOk s M2 = true) <|
    forallR p (fun i => loopP (List.range s) fun j k =>
      .rd (i, j) fun w => .wr (i, j)
        (beta * w + alpha * walk (fun _ a b => a * b) 0 (rowSlice M1 i) (rowSlice M2 j)) k) W

/-- `addMDinvMtransToDiagBlockOfSymDeMatUTri`, hiopMatrixRajaSparseTripletImpl.hpp:780-848. -/
def addMDinvMtR (p : ℕ) (es : List (Ent K)) (st : ℕ) (alpha : K) (D : ℕ → K) (W : ℕ × ℕ → K) :
    Out (ℕ × ℕ → K) :=
  Out.check (rowStartsOk p es = true) <|
    forallR p (fun i =>
      plusEq (i + st, i + st)
        (alpha * (rowSlice es i).foldl (fun acc e => acc + e.v / D e.c * e.v) 0) <|
      loopP (List.range' (i + 1) (p - (i + 1))) fun j k =>
        plusEq (i + st, j + st)
          (alpha * walk (fun c a b => a / D c * b) 0 (rowSlice es i) (rowSlice es j)) k) W

/-- `addMDinvNtransToSymDeMatUTri`, hiopMatrixRajaSparseTripletImpl.hpp:874-958; that the block lies
above the diagonal is only asserted with HIOP_DEEPCHECKS. -/
def addMDinvNtR (p s : ℕ) (M1 M2 : List (Ent K)) (rs cs : ℕ) (alpha : K) (D : ℕ → K)
    (W : ℕ × ℕ → K) : Out (ℕ × ℕ → K) :=
  Out.check (rowStartsOk p M1 = true) <| Out.check (rowStartsOk s M2 = true) <|
    forallR p (fun i => loopP (List.range s) fun j k =>
      plusEq (i + rs, j + cs)
        (alpha * walk (fun c a b => a / D c * b) 0 (rowSlice M1 i) (rowSlice M2 j)) k) W

/-- `copy_to(dense)`, hiopMatrixRajaSparseTripletImpl.hpp:706-735; `W.setToZero()` first. -/
def copyToDenseR (p q : ℕ) (es : List (Ent K)) : Out (ℕ × ℕ → K) :=
  forallR es.length (fun i => nth es i fun e =>
    assertP (e.r < p) <| assertP (e.c < q) <| atomicPlusEq (e.r, e.c) e.v .ret) fun _ => 0

/-- `transAddToSymDenseMatrixUpperTriangle`, hiopMatrixRajaSparseTripletImpl.hpp:513-543; the addition
is not atomic. -/
def transAddR (es : List (Ent K)) (rs cs : ℕ) (alpha : K) (W : ℕ × ℕ → K) : Out (ℕ × ℕ → K) :=
  forallR es.length (fun i => nth es i fun e => plusEq (e.c + rs, e.r + cs) (alpha * e.v) .ret) W

/-- `addUpperTriangleToSymDenseMatrixUpperTriangle`, hiopMatrixRajaSparseTripletImpl.hpp:2006-2035;
the addition is not atomic. -/
def symAddR (N : ℕ) (es : List (Ent K)) (ds : ℕ) (alpha : K) (W : ℕ × ℕ → K) : Out (ℕ × ℕ → K) :=
  forallR es.length (fun i => nth es i fun e =>
    assertP (e.r ≤ e.c) <| assertP (e.r + ds < N ∧ e.c + ds < N) <|
      plusEq (e.r + ds, e.c + ds) (alpha * e.v) .ret) W

/-- `startingAtAddSubDiagonalToStartingAt`, hiopMatrixRajaSparseTripletImpl.hpp:2058-2091; `N` is the
size of the vector. The addition is not atomic. -/
def addSubDiagR (N : ℕ) (es : List (Ent K)) (ds : ℕ) (alpha : K) (v : ℕ → K) (vs num : ℕ) :
    Out (ℕ → K) :=
  forallR es.length (fun i => nth es i fun e =>
    if e.r = e.c then
      if ds ≤ e.r ∧ e.r < ds + num then
        assertP (e.r + vs < N) <| plusEq (vs + e.r) (alpha * e.v) .ret
      else .ret
    else .ret) v

/-! ## Norms, scaling, tests -/

/-- `row_max_abs_value`, hiopMatrixRajaSparseTripletImpl.hpp:569-603; `ret_vec.setToZero()` first,
then one iteration per row. -/
def rowMaxAbsR (p : ℕ) (es : List (Ent K)) (y : ℕ → K) : Out (ℕ → K) :=
  (forallR p (fun i => .wr i 0 .ret) y).andThen fun y =>
    if p = 0 then Out.one y else
    Out.check (rowStartsOk p es = true) <|
      forallR p (fun i => loopP (rowSlice es i) fun e k =>
        .rd i fun v => if |e.v| < v then .rd i fun v' => .wr i v' k else .wr i |e.v| k) y

/-- `scale_row`, hiopMatrixRajaSparseTripletImpl.hpp:605-630, on the array `values_`; `irow` is
`iRow_`. -/
def scaleRowR (nnz : ℕ) (irow : ℕ → ℕ) (d : ℕ → K) (inv : Bool) (vals : ℕ → K) : Out (ℕ → K) :=
  forallR nnz (fun k => .rd k fun v =>
    .wr k (v * (if inv then 1 / d (irow k) else d (irow k))) .ret) vals

/-- `setToConstant`, hiopMatrixRajaSparseTripletImpl.hpp:157-166, on the array `values_`. -/
def setToConstantR (nnz : ℕ) (c : K) (vals : ℕ → K) : Out (ℕ → K) :=
  forallR nnz (fun k => .wr k c .ret) vals

/-- `max_abs_value`, hiopMatrixRajaSparseTripletImpl.hpp:548-560: the values `norm.get()` may have. -/
def maxAbsR (es : List (Ent K)) : Set K :=
  {r | Combines max 0 (es.map fun e => |e.v|) r}

/-- `isfinite`, hiopMatrixRajaSparseTripletImpl.hpp:635-651; `fin` is `std::isfinite`. -/
def isFiniteR (fin : K → Bool) (es : List (Ent K)) : Set Bool :=
  {b | ∃ s : ℕ, Combines (· + ·) 0 ((es.filter fun e => !fin e.v).map fun _ => 1) s ∧ b = (s == 0)}

/-- `is_diagonal`, hiopMatrixRajaSparseTripletImpl.hpp:1889-1916. -/
def isDiagonalR (p q : ℕ) (es : List (Ent K)) : Set Bool :=
  {b | if p ≠ q then b = false else
    ∃ s : ℕ, Combines (· + ·) 0 ((es.filter fun e => decide (e.r ≠ e.c)).map fun _ => 1) s ∧
      b = (s == 0)}

/-- `numberOfOffDiagNonzeros`, hiopMatrixRajaSparseTripletImpl.hpp:2093-2115; `cache` is
`nnz_offdiag_`, `none` standing for -1. -/
def numOffDiagR (cache : Option ℕ) (es : List (Ent K)) : Set ℕ :=
  {r | match cache with
    | some c => r = c
    | none => ∃ s : ℕ,
      Combines (· + ·) 0 ((es.filter fun e => decide (e.r = e.c)).map fun _ => 1) s ∧
        r = es.length - s}

/-! ## Assembly -/

/-- Elements of the three arrays of an assembled matrix. Code: the arrays hiopMatrixRajaSparseTriplet.hpp:378, hiopMatrixRajaSparseTriplet.hpp:379, hiopMatrixRajaSparseTriplet.hpp:380. -/
inductive TLoc
  | row (k : ℕ)
  | col (k : ℕ)
  | val (k : ℕ)
deriving DecidableEq

/-- Types of the elements. No counterpart in the code: used only to state and run the model. -/
def TV (K : Type) : TLoc → Type
  | .row _ => ℕ
  | .col _ => ℕ
  | .val _ => K

/-- The three arrays. No counterpart in the code: used only to state and run the model. -/
abbrev TMem (K : Type) := Mem (TV K)

/-- The arrays of a store. No counterpart in the code: used only to state and run the model. -/
def ofStore (st : Store K) : TMem K
  | .row k => (st k).r
  | .col k => (st k).c
  | .val k => (st k).v

/-- The store of the arrays. No counterpart in the code: used only to state and run the model. -/
def toStore (m : TMem K) : Store K := fun k => ⟨m (.row k), m (.col k), m (.val k)⟩

/-- `iRow[k] = ...; jCol[k] = ...; values[k] = ...` for a list of positions, one after the other;
`wi`, `wv`: the loop writes the index arrays, the value array. Code: occurs several times, e.g. hiopMatrixRajaSparseTripletImpl.hpp:462, hiopMatrixRajaSparseTripletImpl.hpp:463, hiopMatrixRajaSparseTripletImpl.hpp:1091, hiopMatrixRajaSparseTripletImpl.hpp:1093. -/
def puts (wi wv : Bool) : List (ℕ × Ent K) → Prog TLoc (TV K)
  | [] => .ret
  | (k, e) :: l =>
    if wi then
      if wv then .wr (.row k) e.r (.wr (.col k) e.c (.wr (.val k) e.v (puts wi wv l)))
      else .wr (.row k) e.r (.wr (.col k) e.c (puts wi wv l))
    else if wv then .wr (.val k) e.v (puts wi wv l)
    else puts wi wv l

/-- Consecutive positions from `k` on (`k++` after each store). No counterpart in the code: used only to state and run the model. -/
def posFrom : ℕ → List (Ent K) → List (ℕ × Ent K)
  | _, [] => []
  | k, e :: l => (k, e) :: posFrom (k + 1) l

/-- `copySubDiagonalFrom`, hiopMatrixRajaSparseTripletImpl.hpp:438-466; `p` is `nrows_`, `nv` the
size of `vec_d`. The column index is written before the row index. -/
def copySubDiagonalFromR (p nv : ℕ) (m : TMem K) (st num : ℕ) (v : ℕ → K) (k : ℕ) (scal : K) :
    Out (TMem K) :=
  Out.check (num ≤ nv ∧ st + num ≤ p) <|
    forallR num (fun i => .wr (.col (i + k)) (i + st) (.wr (.row (i + k)) (i + st)
      (.wr (.val (i + k)) (scal * v i) .ret))) m

/-- `setSubDiagonalTo`, hiopMatrixRajaSparseTripletImpl.hpp:470-495. -/
def setSubDiagonalToR (p : ℕ) (m : TMem K) (st num : ℕ) (c : K) (k : ℕ) : Out (TMem K) :=
  Out.check (st + num ≤ p) <|
    forallR num (fun i => puts true true [(i + k, ⟨i + st, i + st, c⟩)]) m

/-- `copyDiagMatrixToSubblock`, hiopMatrixRajaSparseTripletImpl.hpp:1767-1795; the matrix is `p` by
`q` with `nnz` positions. -/
def copyDiagToSubblockR (p q nnz : ℕ) (m : TMem K) (c : K) (rs cs k num : ℕ) : Out (TMem K) :=
  Out.check (num + k ≤ nnz ∧ num ≤ q ∧ num + rs ≤ p ∧ num + cs ≤ q) <|
    forallR num (fun i => puts true true [(k + i, ⟨rs + i, cs + i, c⟩)]) m

/-- `row_start_dev`: flags of the nonzero entries of the pattern, then the inclusive scan;
hiopMatrixRajaSparseTripletImpl.hpp:1633-1651, 1721-1739, 1851-1869. `junk` are the contents of the
freshly allocated array. -/
def patternScan (n : ℕ) (ix : ℕ → K) (junk : ℕ → ℕ) : Out (ℕ → ℕ) :=
  (forallR n.succ (fun i =>
    if i = 0 then .wr i 0 .ret else if ix (i - 1) ≠ 0 then .wr i 1 .ret else .wr i 0 .ret)
    junk).andThen fun a => Out.one (inclusiveScan 0 n.succ a)

/-- The last loop of the functions with a pattern, over `1 .. n`: iteration `i+1` stores its entry at
the position the scan gives; hiopMatrixRajaSparseTripletImpl.hpp:1653-1666, 1741-1754, 1871-1884. -/
def patternLoop (n k num : ℕ) (ent : ℕ → ℕ → Ent K) (a : ℕ → ℕ) (m : TMem K) : Out (TMem K) :=
  forallR n (fun i =>
    if a (i + 1) ≠ a i then
      assertP (a (i + 1) - 1 < num) <| puts true true [(k + (a (i + 1) - 1), ent i (a (i + 1) - 1))]
    else .ret) m

/-- `copyDiagMatrixToSubblock_w_pattern`, hiopMatrixRajaSparseTripletImpl.hpp:1805-1887. -/
def copyDiagToSubblockSelR (p q nnz n : ℕ) (junk : ℕ → ℕ) (m : TMem K) (x : ℕ → K)
    (rs cs k num : ℕ) (ix : ℕ → K) : Out (TMem K) :=
  Out.check (num + k ≤ nnz ∧ num ≤ q ∧ num + rs ≤ p ∧ num + cs ≤ q) <|
    (patternScan n ix junk).andThen fun a =>
      patternLoop n k num (fun i el => ⟨rs + el, cs + el, x i⟩) a m

/-- `setSubmatrixToConstantDiag_w_colpattern`, hiopMatrixRajaSparseTripletImpl.hpp:1591-1669. The
assertions are those of the row variant: they bound the columns by the pattern and the rows by the
number of entries. -/
def constDiagColPatternR (p q nnz n : ℕ) (junk : ℕ → ℕ) (m : TMem K) (c : K) (rs cs k num : ℕ)
    (ix : ℕ → K) : Out (TMem K) :=
  Out.check (n + cs ≤ q ∧ num + rs ≤ p ∧ k + num ≤ nnz) <|
    (patternScan n ix junk).andThen fun a =>
      patternLoop n k num (fun i el => ⟨rs + (i + 1) - 1, cs + el, c⟩) a m

/-- `setSubmatrixToConstantDiag_w_rowpattern`, hiopMatrixRajaSparseTripletImpl.hpp:1679-1757. The
assertions are those of the column variant. -/
def constDiagRowPatternR (p q nnz n : ℕ) (junk : ℕ → ℕ) (m : TMem K) (c : K) (rs cs k num : ℕ)
    (ix : ℕ → K) : Out (TMem K) :=
  Out.check (n + rs ≤ p ∧ num + cs ≤ q ∧ k + num ≤ nnz) <|
    (patternScan n ix junk).andThen fun a =>
      patternLoop n k num (fun i el => ⟨rs + el, cs + (i + 1) - 1, c⟩) a m

/-- `copySubmatrixFrom` and, with `tr`, `copySubmatrixFromTrans`,
hiopMatrixRajaSparseTripletImpl.hpp:1499-1581. The source is `ps` by `qs`, the destination `p` by `q`;
the assertions are the same for both, entry `i` goes to position `k+i` also when diagonal entries are
skipped. -/
def copySubmatrixFromR (p q nnz ps qs : ℕ) (m : TMem K) (src : List (Ent K)) (rs cs k : ℕ)
    (offdiagOnly tr : Bool) : Out (TMem K) :=
  Out.check (src.length ≤ nnz ∧ qs + cs ≤ q ∧ ps + rs ≤ p ∧ k + src.length ≤ nnz) <|
    forallR src.length (fun i => nth src i fun e =>
      let r := if tr then e.c else e.r
      let c := if tr then e.r else e.c
      if offdiagOnly = false ∨ r ≠ c then puts true true [(k + i, ⟨rs + r, cs + c, e.v⟩)] else .ret) m

/-! ## Copying rows -/

/-- The entries of a row, stored under another row index. Code: as in hiopMatrixRajaSparseTripletImpl.hpp:1091. -/
def withRow (i : ℕ) (l : List (Ent K)) : List (Ent K) := l.map fun e => { e with r := i }

/-- The row starts of the destination computed on the first `copyRowsFrom`,
hiopMatrixRajaSparseTripletImpl.hpp:1047-1076. -/
def rowsInit (n : ℕ) (idx : ℕ → ℕ) (src : List (Ent K)) (junk : ℕ → ℕ) : Out (ℕ → ℕ) :=
  (forallR (n + 1) (fun i => .wr i 0 .ret) junk).andThen fun a =>
  (forallR n (fun i =>
    .wr (i + 1) (rowStart src (idx i + 1) - rowStart src (idx i)) .ret) a).andThen fun a =>
  Out.one (inclusiveScan 0 (n + 1) a)

/-- `copyRowsFrom`, hiopMatrixRajaSparseTripletImpl.hpp:1021-1099. The destination has `p` rows and
`nnz` positions, the source `ps` rows; `starts` is `row_starts_` of the destination. -/
def copyRowsFromR (p nnz ps : ℕ) (junk : ℕ → ℕ) (starts : Option (ℕ → ℕ)) (m : TMem K)
    (src : List (Ent K)) (idx : ℕ → ℕ) (n : ℕ) : Out ((ℕ → ℕ) × TMem K) :=
  Out.check (p = n ∧ nnz ≤ src.length ∧ n ≤ ps) <|
  Out.check (rowStartsOk ps src = true) <|
    (match starts with
      | some a => Out.one a
      | none => rowsInit n idx src junk).andThen fun a =>
    (forallR n (fun i =>
      puts true true (posFrom (a i) (withRow i (rowSlice src (idx i))))) m).andThen
      fun m => Out.one (a, m)

/-- `row_starts_` of the destination of `copyRowsBlockFrom`: the array and `register_row_st_`,
hiopMatrixRajaSparseTriplet.hpp:388-410. -/
structure Starts where
  a : ℕ → ℕ
  reg : ℕ

/-- `copyRowsBlockFrom`, hiopMatrixRajaSparseTripletImpl.hpp:1109-1207. The destination has `p` rows
and `nnz` positions, the source `ps` rows. -/
def copyRowsBlockFromR (p nnz ps : ℕ) (junk : ℕ → ℕ) (starts : Option Starts) (m : TMem K)
    (src : List (Ent K)) (rsrc n rdst k : ℕ) : Out (Option Starts × TMem K) :=
  if n = 0 then Out.one (starts, m) else
  Out.check (src.length ≤ nnz ∧ n + rsrc ≤ ps ∧ n + rdst ≤ p) <|
  Out.check (rowStartsOk ps src = true) <|
    (match starts with
      | some s => Out.one s
      | none => (forallR (p + 1) (fun i => .wr i 0 .ret) junk).andThen fun a =>
          Out.one (Starts.mk a 0)).andThen fun s =>
    (if s.a (1 + rdst) = 0 then
        Out.check (s.reg ≤ rdst) <|
        (forallR n (fun i =>
          .wr (rdst + i + 1) (rowStart src (rsrc + i + 1) - rowStart src (rsrc + i)) .ret)
          s.a).andThen fun a =>
        Out.one (Starts.mk (inclusiveScan s.reg (n + 1 + rdst - s.reg) a) (n + rdst))
      else Out.one s).andThen fun s =>
    (forallR n (fun i =>
      puts true true (posFrom (s.a (rdst + i) - s.a rdst + k)
        (withRow (rdst + i) (rowSlice src (rsrc + i))))) m).andThen
      fun m => Out.one (some s, m)

/-! ## Feasibility restoration -/

/-- One loop over the rows of a Jacobian in `set_Jac_FR`: row `i` of the base Jacobian goes to
position `k0 + idx_start[i] + 2*i`, followed by the two new entries;
hiopMatrixRajaSparseTripletImpl.hpp:1383-1407, 1410-1434, 1447-1468, 1471-1492. -/
def frLoop (wi wv : Bool) (p : ℕ) (es : List (Ent K)) (k0 r0 cp cn : ℕ) (m : TMem K) :
    Out (TMem K) :=
  forallR p (fun i =>
    puts wi wv (posFrom (k0 + rowStart es i + 2 * i)
      (withRow (r0 + i) (rowSlice es i)
        ++ [⟨r0 + i, cp + i, -1⟩, ⟨r0 + i, cn + i, 1⟩]))) m

/-- `set_Jac_FR`, hiopMatrixRajaSparseTripletImpl.hpp:1335-1495; the matrix has `q` columns and `nnz`
positions, `wi`: the index arrays were passed, `wv`: the value array was passed. The copies in the
arrays of the caller receive the same numbers and are not modelled. -/
def setJacFRR (q nnz n mc md : ℕ) (Jc Jd : List (Ent K)) (wi wv : Bool) (m : TMem K) :
    Out (TMem K) :=
  Out.check (q = n + 2 * mc + 2 * md ∧ nnz = Jc.length + 2 * mc + Jd.length + 2 * md) <|
  Out.check (rowStartsOk mc Jc = true) <| Out.check (rowStartsOk md Jd = true) <|
    (if wi then
      (frLoop true false mc Jc 0 0 n (n + mc) m).andThen fun m =>
        frLoop true false md Jd (Jc.length + 2 * mc) mc (n + 2 * mc) (n + 2 * mc + md) m
      else Out.one m).andThen fun m =>
    if wv then
      (frLoop false true mc Jc 0 0 n (n + mc) m).andThen fun m =>
        frLoop false true md Jd (Jc.length + 2 * mc) mc (n + 2 * mc) (n + 2 * mc + md) m
    else Out.one m

/-- The entries `set_Hess_FR` stores for row `i`: diagonal entry first, merged with the first stored
entry of the row when that one is diagonal; hiopMatrixRajaSparseTripletImpl.hpp:2216-2239,
2268-2292. -/
def hessRow (H : List (Ent K)) (diag : ℕ → K) (i : ℕ) : List (Ent K) :=
  match rowSlice H i with
  | [] => [⟨i, i, diag i⟩]
  | e :: es =>
    if e.r = e.c then ⟨i, i, diag i + e.v⟩ :: es.map fun e => ⟨i, e.c, e.v⟩
    else ⟨i, i, diag i⟩ :: (e :: es).map fun e => ⟨i, e.c, e.v⟩

/-- Number of entries counted for row `i`, hiopMatrixRajaSparseTripletImpl.hpp:2195-2207. -/
def hessCount (H : List (Ent K)) (i : ℕ) : ℕ :=
  match rowSlice H i with
  | [] => 0
  | e :: es => if e.r = e.c then es.length else es.length + 1

/-- Row starts of the restoration Hessian, hiopMatrixRajaSparseTripletImpl.hpp:2181-2210. -/
def hessInit (m1 m2 : ℕ) (H : List (Ent K)) (junk : ℕ → ℕ) : Out (ℕ → ℕ) :=
  (forallR (m1 + 1) (fun i => .wr i (if 0 < i then 1 else 0) .ret) junk).andThen fun a =>
  (forallR m2 (fun i => .rd (i + 1) fun c => .wr (i + 1) (c + hessCount H i) .ret) a).andThen fun a =>
  Out.one (inclusiveScan 0 (m1 + 1) a)

/-- `set_Hess_FR`, hiopMatrixRajaSparseTripletImpl.hpp:2120-2306. `starts` is `row_starts_` of the
restoration Hessian, which is `m1` by `m1` with `nnz` positions; the base Hessian is `m2` by `m2` with
`offd` off-diagonal nonzeros, `nd` is the size of `add_diag`. The pointer the index loop uses is set
only when `row_starts_` is created in the same call: otherwise it is null (`abort`). -/
def setHessFRR (m1 nnz m2 nd offd : ℕ) (junk : ℕ → ℕ) (starts : Option (ℕ → ℕ)) (H : List (Ent K))
    (diag : ℕ → K) (wi wv : Bool) (m : TMem K) : Out (Option (ℕ → ℕ) × TMem K) :=
  if nnz = 0 then Out.one (starts, m) else
  Out.check (m2 ≤ m1 ∧ (nd = m2 ∨ m2 = 0) ∧ nnz = nd + offd) <|
  Out.check (rowStartsOk m2 H = true) <|
    (if wi then
      if 0 < m2 then
        match starts with
        | none =>
          (hessInit m1 m2 H junk).andThen fun a =>
          (forallR m2 (fun i => puts true false (posFrom (a i) (hessRow H diag i))) m).andThen fun m =>
          Out.one (some a, m)
        | some _ => Out.abort
      else
        (forallR nd (fun i => puts true false [(i, ⟨i, i, diag i⟩)]) m).andThen fun m =>
        Out.one (starts, m)
      else Out.one (starts, m)).andThen fun s =>
    if wv then
      match s.1 with
      | none => Out.abort
      | some a =>
        if 0 < m2 then
          (forallR m2 (fun i => puts false true (posFrom (a i) (hessRow H diag i))) s.2).andThen
            fun m => Out.one (some a, m)
        else
          (forallR nd (fun i => puts false true [(i, ⟨i, i, diag i⟩)]) s.2).andThen
            fun m => Out.one (some a, m)
    else Out.one s

end Hiop.Raja
