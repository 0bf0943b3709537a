import Mathlib.Algebra.Field.Defs
import Mathlib.Algebra.BigOperators.Group.List.Basic
import Mathlib.Data.List.Basic

/-!
# The adapters to Ipopt

Source: `src/Drivers/IpoptAdapter/IpoptAdapter.hpp`: classes that present a HiOp problem (dense, mixed
dense-sparse, sparse) to Ipopt.

Ipopt asks for the structure of a matrix once (row and column of each entry) and for the values of the entries as
often as it likes; entries with the same row and column are added.

Simplifications: the problem's callbacks write exactly the number of entries announced; a failed callback writes
nothing; `new_x` (handed on unchanged to every call) and the calls that only copy data are left out; `Index` and
`size_type` do not overflow. An array filled from the front is the list of its written entries. Sparse problems are
mixed problems without dense variables: the code of the two classes is the same up to the dense parts, which are
empty then.
-/

namespace Hiop.Ipopt

/-- A HiOp problem: `none` is a callback that returns false. The calls for some of the constraints
(`eval_cons`, `eval_Jac_cons` with indices) and those for all; structure and values of sparse parts, dense parts row
by row; the Hessian of the Lagrangian (src/Interface/hiopInterface.hpp:225-255, 645-770, 806-875). -/
structure User (K : Type) where
  consSome : List ℕ → List K → Option (List K)
  consAll : List K → Option (List K)
  jacSomeS : List ℕ → Option (List (ℕ × ℕ))
  jacSomeV : List ℕ → List K → Option (List K × List K)
  jacAllS : Option (List (ℕ × ℕ))
  jacAllV : List K → Option (List K × List K)
  hessS : Option (List (ℕ × ℕ))
  hessV : List K → K → List K → Option (List K × List K)

/-- Sizes and bounds: numbers of constraints, sparse and dense variables, and which constraints have equal
bounds. `nnzEq`, `nnzIneq`, `nnzH`: the numbers of nonzeros of the sparse parts. Code: IpoptAdapter.hpp:222-227, IpoptAdapter.hpp:293-300. -/
structure Dims where
  m : ℕ
  nS : ℕ
  nD : ℕ
  nnzEq : ℕ
  nnzIneq : ℕ
  nnzH : ℕ
  isEq : ℕ → Bool

variable {K : Type}

/-- `cons_eq_idxs`, src/Drivers/IpoptAdapter/IpoptAdapter.hpp:284-301, 759-776. -/
def Dims.eqIdx (D : Dims) : List ℕ := (List.range D.m).filter D.isEq

/-- `cons_ineq_idxs`, same lines. Code: IpoptAdapter.hpp:293-300. -/
def Dims.ineqIdx (D : Dims) : List ℕ := (List.range D.m).filter fun i => !D.isEq i

/-- `nnz_jac_g`, src/Drivers/IpoptAdapter/IpoptAdapter.hpp:256-258, 735. -/
def Dims.neleJac (D : Dims) : ℕ := D.nnzEq + D.nnzIneq + D.m * D.nD

/-- `nnz_h_lag`, src/Drivers/IpoptAdapter/IpoptAdapter.hpp:261-263, 738. -/
def Dims.neleHess (D : Dims) : ℕ := D.nnzH + D.nD * (D.nD + 1) / 2

/-- The members of the adapter that change between calls: `onecall_Jac_detected_`, and whether `JacDeq`, `JacDineq`,
`JacDeqineq` are allocated (src/Drivers/IpoptAdapter/IpoptAdapter.hpp:674-677). -/
structure St where
  one : Bool
  deq : Bool
  dineq : Bool
  dall : Bool
  deriving DecidableEq

/-- src/Drivers/IpoptAdapter/IpoptAdapter.hpp:221-229. -/
def St.new : St := ⟨false, false, false, false⟩

/-- The loop `g[idx[i]] = v[i]`. Code: IpoptAdapter.hpp:348-351, IpoptAdapter.hpp:360-362. -/
def scatter (idx : List ℕ) (v : List K) (g : ℕ → K) : ℕ → K :=
  (idx.zip v).foldl (fun g p => fun i => if i = p.1 then p.2 else g i) g

/-- Copy of a whole array to `g`. Code: IpoptAdapter.hpp:372-373. -/
def copyAll (v : List K) (g : ℕ → K) : ℕ → K := fun i => (v[i]?).getD (g i)

/-- `eval_g`, src/Drivers/IpoptAdapter/IpoptAdapter.hpp:339-378, 814-853: the returned value and the array `g`. -/
def evalG (D : Dims) (U : User K) (x : List K) (g : ℕ → K) : Bool × (ℕ → K) :=
  let a : Bool × (ℕ → K) :=
    match U.consSome D.eqIdx x with
    | some v => (false, scatter D.eqIdx v g)
    | none => (true, g)
  match U.consSome D.ineqIdx x with
  | some v => (true, scatter D.ineqIdx v a.2)
  | none =>
    if !a.1 then (false, a.2)
    else
      match U.consAll x with
      | some v => (true, copyAll v a.2)
      | none => (false, a.2)

/-- The dense part of the structure: for each of the rows all dense columns,
src/Drivers/IpoptAdapter/IpoptAdapter.hpp:404-411, 432-439, 458-465. -/
def denseS (D : Dims) (rows : List ℕ) : List (ℕ × ℕ) :=
  rows.flatMap fun i => (List.range D.nD).map fun j => (i, j + D.nS)

/-- Outcome of a call: a failed assertion, `return false`, or the array written. No counterpart in the code: used only to state and run the model. -/
inductive Res (α : Type)
  | abort
  | fail
  | ok (a : α)

/-- `assert(c)` with assertions on or off. Code: as in IpoptAdapter.hpp:91, IpoptAdapter.hpp:92. -/
def check {α : Type} (asserts c : Bool) (r : Res α) : Res α := if asserts && !c then .abort else r

/-- The structure in `eval_jac_g`, src/Drivers/IpoptAdapter/IpoptAdapter.hpp:393-467, 873-919: separate calls for
equalities and inequalities, where the rows of the latter are shifted by the number of the former; one call for all
if both fail. -/
def jacS (asserts : Bool) (D : Dims) (U : User K) : Res (List (ℕ × ℕ)) :=
  let a : Bool × List (ℕ × ℕ) :=
    match U.jacSomeS D.eqIdx with
    | some e => (false, e ++ denseS D D.eqIdx)
    | none => (true, [])
  match U.jacSomeS D.ineqIdx with
  | some e =>
    let r := a.2 ++ e.map (fun p => (p.1 + D.eqIdx.length, p.2)) ++ denseS D D.ineqIdx
    check asserts (r.length == D.neleJac) (.ok r)
  | none =>
    if !a.1 then .fail
    else
      match U.jacAllS with
      | none => .fail
      | some e =>
        let r := e ++ denseS D (List.range D.m)
        check asserts (r.length == D.neleJac) (.ok r)

/-- One call for all, src/Drivers/IpoptAdapter/IpoptAdapter.hpp:548-567, 963-971. -/
def jacVall (asserts : Bool) (D : Dims) (U : User K) (x : List K) (s : St) : St × Res (List K) :=
  if !s.dall && asserts && (s.deq || s.dineq) then (s, .abort)
  else
    let s : St := { s with dall := true }
    match U.jacAllV x with
    | none => (s, .fail)
    | some (v, d) => (s, check asserts ((v ++ d).length == D.neleJac) (.ok (v ++ d)))

/-- The values in `eval_jac_g`, src/Drivers/IpoptAdapter/IpoptAdapter.hpp:469-568, 920-972. The buffers are
allocated on demand and freed when the call for which they are needed fails. (The sparse class has no buffers and no
assertions on them.) -/
def jacV (asserts : Bool) (D : Dims) (U : User K) (x : List K) (s : St) : St × Res (List K) :=
  if s.one then jacVall asserts D U x s
  else if !s.deq && asserts && s.dineq then (s, .abort)
  else
    let s : St := { s with deq := true, dineq := true }
    let a : Bool × List K × St :=
      match U.jacSomeV D.eqIdx x with
      | some (v, d) => (false, v ++ d, s)
      | none => (true, [], { s with deq := false })
    match U.jacSomeV D.ineqIdx x with
    | some (v, d) =>
      let r := a.2.1 ++ v ++ d
      (a.2.2, check asserts (r.length == D.neleJac) (.ok r))
    | none =>
      let s : St := { a.2.2 with dineq := false }
      if !a.1 then (s, .fail) else jacVall asserts D U x { s with one := true }

/-- The structure in `eval_h`, src/Drivers/IpoptAdapter/IpoptAdapter.hpp:580-603, 983-994: the dense part is the
upper triangle. (Entries between sparse and dense variables are not supported: line 578.) -/
def hessS (asserts : Bool) (D : Dims) (U : User K) : Res (List (ℕ × ℕ)) :=
  match U.hessS with
  | none => .fail
  | some e =>
    let r := e ++ (List.range D.nD).flatMap fun i => (List.range' i (D.nD - i)).map fun j => (D.nS + i, D.nS + j)
    check asserts (r.length == D.neleHess) (.ok r)

/-- The values in `eval_h`, src/Drivers/IpoptAdapter/IpoptAdapter.hpp:605-640, 996-1010; `none` in a list: memory
never written (the dense matrix of the user is too short). -/
def hessV [Zero K] (asserts : Bool) (D : Dims) (U : User K) (x : List K) (f : K) (lam : List K) : Res (List K) :=
  match U.hessV x f lam with
  | none => .fail
  | some (v, d) =>
    let r := v ++ (List.range D.nD).flatMap fun i =>
      (List.range' i (D.nD - i)).map fun j => (d[i * D.nD + j]?).getD 0
    check asserts (r.length == D.neleHess) (.ok r)

/-- Calls of Ipopt. Code: IpoptAdapter.hpp:339. -/
inductive Op (K : Type)
  | g (x : List K) (old : ℕ → K)
  | jacS
  | jacV (x : List K)
  | hessS
  | hessV (x : List K) (f : K) (lam : List K)
  | finalize

/-- Answers: the array `g`; a structure; values; failure; an aborted program; nothing. No counterpart in the code: used only to state and run the model. -/
inductive Ans (K : Type)
  | g (a : ℕ → K)
  | str (l : List (ℕ × ℕ))
  | vals (l : List K)
  | fail
  | abort
  | done

/-- No counterpart in the code: used only to state and run the model. -/
def Res.ans {α : Type} (c : α → Ans K) : Res α → Ans K
  | .abort => .abort
  | .fail => .fail
  | .ok a => c a

/-- One call; `finalize_solution`: src/Drivers/IpoptAdapter/IpoptAdapter.hpp:646-665, 1015-1039. -/
def step [Zero K] (asserts : Bool) (D : Dims) (U : User K) (s : St) : Op K → St × Ans K
  | .g x old => let r := evalG D U x old; (s, if r.1 then .g r.2 else .fail)
  | .jacS => (s, (jacS asserts D U).ans .str)
  | .jacV x => let r := jacV asserts D U x s; (r.1, r.2.ans .vals)
  | .hessS => (s, (hessS asserts D U).ans .str)
  | .hessV x f lam => (s, (hessV asserts D U x f lam).ans .vals)
  | .finalize => (.new, .done)

/-- All answers of a sequence of calls. No counterpart in the code: used only to state and run the model. -/
def runOps [Zero K] (asserts : Bool) (D : Dims) (U : User K) : St → List (Op K) → List (Ans K)
  | _, [] => []
  | s, o :: l => let r := step asserts D U s o; r.2 :: runOps asserts D U r.1 l

/-! ## The adapter for dense problems -/

/-- A dense problem (src/Interface/hiopInterface.hpp:518-565). -/
structure DUser (K : Type) where
  consSome : List ℕ → List K → Option (List K)
  consAll : List K → Option (List K)
  jacSome : List ℕ → List K → Option (List K)
  jacAll : List K → Option (List K)

/-- `eval_g`, src/Drivers/IpoptAdapter/IpoptAdapter.hpp:115-123. -/
def denseG (m : ℕ) (U : DUser K) (x : List K) : Option (List K) := U.consSome (List.range m) x

/-- The structure in `eval_jac_g`, src/Drivers/IpoptAdapter/IpoptAdapter.hpp:150-157. -/
def denseJacS (n m : ℕ) : List (ℕ × ℕ) := (List.range m).flatMap fun i => (List.range n).map fun j => (i, j)

/-- The values in `eval_jac_g`, src/Drivers/IpoptAdapter/IpoptAdapter.hpp:142-149: a call for each constraint. -/
def denseJacV (m : ℕ) (U : DUser K) (x : List K) : Option (List K) :=
  (List.range m).foldlM (fun a i => (U.jacSome [i] x).map (a ++ ·)) []

end Hiop.Ipopt
