import Mathlib.Algebra.Order.Floor.Ring
import Mathlib.Algebra.Order.Field.Basic
import Mathlib.Logic.Function.Basic

/-!
# Model of checkpointing

Source: `src/Utils/SidreHelper.hpp`, `src/Optimization/hiopAlgFilterIPM.cpp:1001-1034,1551-1786`,
`src/Optimization/hiopHessianLowRank.cpp:202-219`. One rank: the arrays are this rank's local data.
A sidre group is a partial map from view names to views; a view is a number of elements, a stride
and a buffer. Two views do not share memory, all views hold doubles, and files are the group they
hold. Numbers are an ordered field with a floor function. A thrown exception leaves the changes made
before it in place, which the functions show by returning the state together with the exception.
Messages are left out.
-/

namespace Hiop.Checkpoint

/-- How a call can end other than normally: `missing` and `size` are the exceptions of the view
copies (SidreHelper.hpp:97-103, 181-193), `ranks` that of hiopAlgFilterIPM.cpp:1686-1692; `crash` is
a failed assertion, a failed allocation or a null pointer dereference. -/
inductive Err
  | missing (view : String)
  | size (view : String)
  | ranks
  | crash
  deriving DecidableEq, Repr

/-- `sidre::View` of doubles. Simplification: the buffer is unbounded. Code: SidreHelper.hpp:91-115. -/
structure View (K : Type*) where
  num : ℕ
  stride : ℕ
  buf : ℕ → K

/-- `sidre::Group`: view by name. Code: SidreHelper.hpp:91-115. -/
abbrev Group (K : Type*) := String → Option (View K)

variable {K : Type*}

/-- `get_or_create_view`, SidreHelper.hpp:272-279; a new view has stride 1 (its uninitialized
contents are zeros here). -/
def getOrCreate [Zero K] (g : Group K) (name : String) (size : ℕ) : View K :=
  match g name with
  | some v => v
  | none => ⟨size, 1, fun _ => 0⟩

/-- The strided copy loop of `copy_array_to_view`, SidreHelper.hpp:110-112, from index `i` on. -/
def writeLoop (stride : ℕ) : List K → ℕ → (ℕ → K) → ℕ → K
  | [], _, buf => buf
  | x :: xs, i, buf => writeLoop stride xs (i + 1) (Function.update buf (i * stride) x)

/-- `copy_array_to_view`, SidreHelper.hpp:91-114. `std::copy` (107-108) is the loop with stride 1.
A view that was just created stays in the group also when the exception is thrown, which cannot
happen for a new view. -/
def copyArrayToView [Zero K] (g : Group K) (name : String) (src : List K) :
    Except Err (Group K) :=
  let view := getOrCreate g name src.length
  if view.num ≠ src.length then .error (.size name)
  else if view.stride = 1 then
    .ok (Function.update g name (some { view with buf := writeLoop 1 src 0 view.buf }))
  else
    .ok (Function.update g name (some { view with buf := writeLoop view.stride src 0 view.buf }))

/-- `copy_array_from_view`, SidreHelper.hpp:175-208; the result is the new contents of the
destination array. -/
def copyArrayFromView (g : Group K) (name : String) (size : ℕ) : Except Err (List K) :=
  match g name with
  | none => .error (.missing name)
  | some view =>
    if view.num ≠ size then .error (.size name)
    else if view.stride = 1 then .ok ((List.range size).map view.buf)
    else .ok ((List.range size).map fun i => view.buf (i * view.stride))

/-- An array of the state `σ` and the name of its view. Code: SidreHelper.hpp:141-157. -/
structure Slot (σ K : Type*) where
  name : String
  get : σ → List K
  set : List K → σ → σ

/-- A sequence of `copy_array_to_view`/`copy_vec_to_view` calls (SidreHelper.hpp:117-124), up to the
first exception. -/
def saveSlots [Zero K] {σ : Type*} (s : σ) :
    List (Slot σ K) → Group K → Group K × Option Err
  | [], g => (g, none)
  | t :: ts, g =>
    match copyArrayToView g t.name (t.get s) with
    | .error e => (g, some e)
    | .ok g' => saveSlots s ts g'

/-- A sequence of `copy_array_from_view`/`copy_vec_from_view` calls (SidreHelper.hpp:211-219), up to
the first exception. -/
def loadSlots {σ : Type*} (g : Group K) :
    List (Slot σ K) → σ → σ × Option Err
  | [], s => (s, none)
  | t :: ts, s =>
    match copyArrayFromView g t.name (t.get s).length with
    | .error e => (s, some e)
    | .ok v => loadSlots g ts (t.set v s)

/-- The twelve vectors of a `hiopIterate`, local parts. Code: hiopIterate.hpp:182-201. -/
@[ext]
structure ItV (K : Type*) where
  x : List K
  d : List K
  sxl : List K
  sxu : List K
  sdl : List K
  sdu : List K
  yc : List K
  yd : List K
  zl : List K
  zu : List K
  vl : List K
  vu : List K
  deriving DecidableEq

/-- The calls made by `copy_iterate_to_views` (SidreHelper.hpp:141-157) and
`copy_iterate_from_views` (237-253), in order; `get`/`set` locate the iterate in the state. -/
def itSlots {σ : Type*} (pre : String) (get : σ → ItV K) (set : ItV K → σ → σ) :
    List (Slot σ K) :=
  [⟨pre ++ "x", fun s => (get s).x, fun v s => set { get s with x := v } s⟩,
   ⟨pre ++ "d", fun s => (get s).d, fun v s => set { get s with d := v } s⟩,
   ⟨pre ++ "sxl", fun s => (get s).sxl, fun v s => set { get s with sxl := v } s⟩,
   ⟨pre ++ "sxu", fun s => (get s).sxu, fun v s => set { get s with sxu := v } s⟩,
   ⟨pre ++ "sdl", fun s => (get s).sdl, fun v s => set { get s with sdl := v } s⟩,
   ⟨pre ++ "sdu", fun s => (get s).sdu, fun v s => set { get s with sdu := v } s⟩,
   ⟨pre ++ "yc", fun s => (get s).yc, fun v s => set { get s with yc := v } s⟩,
   ⟨pre ++ "yd", fun s => (get s).yd, fun v s => set { get s with yd := v } s⟩,
   ⟨pre ++ "zl", fun s => (get s).zl, fun v s => set { get s with zl := v } s⟩,
   ⟨pre ++ "zu", fun s => (get s).zu, fun v s => set { get s with zu := v } s⟩,
   ⟨pre ++ "vl", fun s => (get s).vl, fun v s => set { get s with vl := v } s⟩,
   ⟨pre ++ "vu", fun s => (get s).vu, fun v s => set { get s with vu := v } s⟩]

/-- A `hiopMatrixDenseRowMajor` with room for more rows: `m_local_`, `n_local_`, `max_rows_` and the
row-major entries of the current rows. Code: hiopMatrixDenseRowMajor.hpp:245-252. -/
@[ext]
structure Mem (K : Type*) where
  rows : ℕ
  cols : ℕ
  cap : ℕ
  dat : List K
  deriving DecidableEq

/-- Members of `hiopHessianLowRank` that are checkpointed, hiopHessianLowRank.hpp:128-144; `nloc` is
the local number of variables of the problem, fixed. -/
@[ext]
structure Hqn (K : Type*) where
  nloc : ℕ
  lmax : ℤ
  lcurr : ℤ
  sigma : K
  sigma0 : K
  changed : Bool
  itPrev : ItV K
  gradPrev : List K
  jacC : List K
  jacD : List K
  St : Mem K
  Yt : Mem K
  D : List K
  L : List K
  deriving DecidableEq

/-- The part of the solver object that checkpointing reads or writes; `nranks` is the number of MPI
ranks it runs on. Code: hiopAlgFilterIPM.hpp:261-335. -/
@[ext]
structure Alg (K : Type*) where
  it : ItV K
  hqn : Hqn K
  mu : K
  iterTotal : ℤ
  nranks : ℕ
  apiLoad : Bool
  deriving DecidableEq

/-- Conversion from `double` to an integer type (hiopAlgFilterIPM.cpp:1680, 1686, 1720, 1724):
truncation towards zero. Simplification: no overflow. -/
def toInt [Field K] [LinearOrder K] [IsStrictOrderedRing K] [FloorRing K] (x : K) : ℤ :=
  if 0 ≤ x then ⌊x⌋ else ⌈x⌉

/-- Conversion of `bool` to `double`, hiopAlgFilterIPM.cpp:1606. -/
def ofBool [Zero K] [One K] (b : Bool) : K := if b then 1 else 0

/-- `hqn_params`, hiopAlgFilterIPM.cpp:1602-1606. -/
def hqnParams [Field K] (h : Hqn K) : List K :=
  [(h.lmax : K), (h.lcurr : K), h.sigma, h.sigma0, ofBool h.changed]

/-- `alg_params`, hiopAlgFilterIPM.cpp:1650-1651; `version` is `HIOP_VERSION_*`. -/
def algParams [Field K] (version : K) (a : Alg K) : List K :=
  [a.mu, (a.iterTotal : K), (a.nranks : K), version]

/-- The iterate slots of `it_curr`. Code: hiopAlgFilterIPM.cpp:1592-1666. -/
def currSlots : List (Slot (Alg K) K) :=
  itSlots "alg_iterate_" (fun a => a.it) (fun i a => { a with it := i })

/-- The slots following the quasi-Newton parameters, in the order shared by
hiopAlgFilterIPM.cpp:1611-1641 (save) and 1732-1761 (load). -/
def hqnSlots : List (Slot (Alg K) K) :=
  itSlots "Hess_quasiNewton_prev_iter" (fun a => a.hqn.itPrev)
    (fun i a => { a with hqn := { a.hqn with itPrev := i } }) ++
  [⟨"Hess_quasiNewton_prev_grad", fun a => a.hqn.gradPrev,
      fun v a => { a with hqn := { a.hqn with gradPrev := v } }⟩,
   ⟨"Hess_quasiNewton_prev_Jacc", fun a => a.hqn.jacC,
      fun v a => { a with hqn := { a.hqn with jacC := v } }⟩,
   ⟨"Hess_quasiNewton_prev_Jacd", fun a => a.hqn.jacD,
      fun v a => { a with hqn := { a.hqn with jacD := v } }⟩,
   ⟨"Hess_quasiNewton_St", fun a => a.hqn.St.dat,
      fun v a => { a with hqn := { a.hqn with St := { a.hqn.St with dat := v } } }⟩,
   ⟨"Hess_quasiNewton_Yt", fun a => a.hqn.Yt.dat,
      fun v a => { a with hqn := { a.hqn with Yt := { a.hqn.Yt with dat := v } } }⟩,
   ⟨"Hess_quasiNewton_D", fun a => a.hqn.D,
      fun v a => { a with hqn := { a.hqn with D := v } }⟩,
   ⟨"Hess_quasiNewton_L", fun a => a.hqn.L,
      fun v a => { a with hqn := { a.hqn with L := v } }⟩]

/-- `save_state_to_sidre_group`, hiopAlgFilterIPM.cpp:1592-1665: the group after the call and the
exception, if any. The two parameter arrays are temporaries, so their slots have no target. -/
def save [Field K] (version : K) (g : Group K) (a : Alg K) : Group K × Option Err :=
  saveSlots a
    (currSlots ++ [⟨"Hess_quasiNewton_params", fun a => hqnParams a.hqn, fun _ a => a⟩] ++
      hqnSlots ++ [⟨"alg_params", algParams version, fun _ a => a⟩]) g

/-- A zero matrix with room for more rows: the constructor of `hiopMatrixDenseRowMajor`,
hiopMatrixDenseRowMajor.cpp:63-100, whose assertion at line 88 is the `none`. A negative number of
rows makes the allocation fail. -/
def Mem.alloc [Zero K] (m : ℤ) (n : ℕ) (maxRows : ℤ) : Option (Mem K) :=
  let mr := if maxRows = -1 then m else maxRows
  if m < 0 then none
  else if mr < m then none
  else some ⟨m.toNat, n, mr.toNat, List.replicate (m.toNat * n) 0⟩

/-- `alloc_for_limited_mem`, hiopHessianLowRank.cpp:202-219. `alloc_clone` copies the dimensions
and the room for rows. -/
def allocForLimitedMem [Zero K] (h : Hqn K) (len : ℤ) : Option (Hqn K) :=
  if h.lcurr = len then
    if (h.D.length : ℤ) = h.lcurr then some h else none
  else
    match Mem.alloc len h.nloc h.lmax with
    | none => none
    | some M =>
      some { h with
        St := M, Yt := M, L := List.replicate (len.toNat * len.toNat) 0
        D := List.replicate len.toNat 0 }

/-- `load_state_from_sidre_group`, hiopAlgFilterIPM.cpp:1667-1762: the solver after the call and the
exception, if any. -/
def load [Field K] [LinearOrder K] [IsStrictOrderedRing K] [FloorRing K] (g : Group K) (a : Alg K) :
    Alg K × Option Err :=
  let a := { a with apiLoad := true }
  match copyArrayFromView g "alg_params" 4 with
  | .error e => (a, some e)
  | .ok p =>
    let a := { a with mu := p.getD 0 0, iterTotal := toInt (p.getD 1 0) }
    if toInt (p.getD 2 0) ≠ a.nranks then (a, some .ranks)
    else
      match loadSlots g currSlots a with
      | (a, some e) => (a, some e)
      | (a, none) =>
        match copyArrayFromView g "Hess_quasiNewton_params" 5 with
        | .error e => (a, some e)
        | .ok q =>
          let len := toInt (q.getD 1 0)
          match allocForLimitedMem a.hqn len with
          | none => (a, some .crash)
          | some h =>
            loadSlots g hqnSlots
              { a with hqn := { h with
                  lmax := toInt (q.getD 0 0), lcurr := len, sigma := q.getD 2 0
                  sigma0 := q.getD 3 0, changed := decide (q.getD 4 0 ≠ 0) } }

/-- What `reader.read` and `getGroup` of `load_state_from_file` find,
hiopAlgFilterIPM.cpp:1578-1582. -/
inductive File (K : Type*)
  /-- no readable file: `read` throws -/
  | unreadable
  /-- the file has no group of the expected name: `getGroup` returns a null pointer -/
  | noGroup
  | holds (g : Group K)

/-- `load_state_from_file`, hiopAlgFilterIPM.cpp:1572-1590: the solver and the returned flag, or
`none` for a crash. -/
def loadFile [Field K] [LinearOrder K] [IsStrictOrderedRing K] [FloorRing K] (f : File K)
    (a : Alg K) : Option (Alg K × Bool) :=
  match f with
  | .unreadable => some (a, false)
  | .noGroup => none
  | .holds g =>
    match load g a with
    | (a, none) => some (a, true)
    | (_, some .crash) => none
    | (a, some _) => some (a, false)

/-- `save_state_to_file`, hiopAlgFilterIPM.cpp:1553-1570, up to the writing of the group: the group
written, or the exception. -/
def saveFile [Field K] (version : K) (a : Alg K) : Except Err (Group K) :=
  match save version (fun _ => none) a with
  | (g, none) => .ok g
  | (_, some e) => .error e

/-- Choice of the starting point in `run`, hiopAlgFilterIPM.cpp:1001-1034. `startProc` is
`startingProcedure`, which sets the current iterate; the evaluation of the problem functions
afterwards does not change the members modelled here. -/
def start [Field K] [LinearOrder K] [IsStrictOrderedRing K] [FloorRing K] (loadOnStart : Bool)
    (f : File K) (startProc : ItV K → ItV K) (mu0 : K) (a : Alg K) : Option (Alg K) :=
  if !loadOnStart && !a.apiLoad then
    some { a with it := startProc a.it, mu := mu0, iterTotal := 0 }
  else if !a.apiLoad then
    match loadFile f a with
    | none => none
    | some (a, true) => some a
    | some (a, false) => some { a with it := startProc a.it, mu := mu0, iterTotal := 0 }
  else some a

/-- `appendRow`, hiopMatrixDenseRowMajor.cpp:129-137: writing past the allocated rows is `none` (the
check at line 133 is compiled only with `HIOP_DEEPCHECKS`). -/
def Mem.appendRow (M : Mem K) (row : List K) : Option (Mem K) :=
  if M.cap ≤ M.rows then none
  else some { M with rows := M.rows + 1, dat := M.dat ++ row }

/-! ### The file name -/

/-- `path.find("#", pos)`. Code: hiopAlgFilterIPM.cpp:1776-1779. -/
def find (c : Char) (path : List Char) (pos : ℕ) : Option ℕ :=
  ((path.drop pos).findIdx? (· == c)).map (pos + ·)

/-- `path.replace(pos, 1, s)`. Code: hiopAlgFilterIPM.cpp:1776-1779. -/
def replaceAt (path : List Char) (pos : ℕ) (s : List Char) : List Char :=
  path.take pos ++ s ++ path.drop (pos + 1)

/-- The loop of hiopAlgFilterIPM.cpp:1777-1780, at most `fuel` times; `none` if it is not over. -/
def substLoop (s : List Char) : ℕ → List Char → Option ℕ → Option (List Char)
  | _, path, none => some path
  | 0, _, some _ => none
  | fuel + 1, path, some pos =>
    let path := replaceAt path pos s
    substLoop s fuel path (find '#' path pos)

/-- Lines 1774-1780: the name of the checkpoint file of iteration `iter`. -/
def fileName (fuel : ℕ) (path : List Char) (iter : ℕ) : Option (List Char) :=
  substLoop (Nat.toDigits 10 iter) fuel path (find '#' path 0)

/-- `checkpointing_stuff`, hiopAlgFilterIPM.cpp:1764-1786: the name of the file it saves to in
iteration `iter`, if it saves. -/
def checkpointing (saveOn : Bool) (every : ℕ) (fuel : ℕ) (path : List Char) (iter : ℕ) :
    Option (List Char) :=
  if !saveOn then none
  else if 0 < iter ∧ iter % every = 0 then fileName fuel path iter
  else none

end Hiop.Checkpoint
