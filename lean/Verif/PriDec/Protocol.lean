import Mathlib.Algebra.BigOperators.Fin
import Mathlib.Data.Fintype.BigOperators
import Mathlib.Logic.Function.Basic

/-!
# Primal decomposition: the master/evaluator message protocol

One outer iteration of `hiopAlgPrimalDecomposition::run` and `::run_local`
(src/Optimization/hiopAlgPrimalDecomp.cpp:897-1133 and :1374-1658): rank 0 hands out the recourse
indices, the other ranks evaluate them, the results come back through non-blocking messages.

The state holds the program counter and variables of every rank, every message buffer and every
message in flight.  A schedule chooses at each instant which rank executes its next action or which
message moves; nothing is assumed about the order.

Message semantics (MPI standard, trusted):
* messages from one sender to one receiver with one tag are received in the order posted;
* a non-blocking send leaves its data in the sender's buffer (`posted`) until the system copies it out
  (`sent`), and only then `MPI_Wait` on the send returns; the data is read at copy time, so a sender
  that overwrote the buffer too early would send the wrong data;
* with `eager = false` the system copies a message out only when the matching receive has been posted
  (rendezvous); with `eager = true` it may do so at any time.  A blocking `MPI_Send` is a posted send
  followed by a wait;
* `MPI_Test` on a null request reports completion.

Simplifications: the payload (value and gradient) is one element of an additive group `M`; the recourse
callbacks are a function `f` of the index (the point is the same on every rank in an iteration, it is
broadcast at :893); a failed callback is ignored by the code and so has no separate outcome here; rank
`r+1` of the communicator is `r : Fin w` here.
-/

namespace Hiop.PriDec

/-- A message in flight: still in the sender's buffer, in the network, or arrived at the receiver. -/
inductive Msg (α : Type) where
  | posted
  | sent (a : α)
  | here (a : α)
  deriving DecidableEq, Repr

/-- Program counter of rank 0 in one iteration (hiopAlgPrimalDecomp.cpp:909-1003, :1122-1126). -/
inductive MPC where
  | start
  | initSend (r : ℕ)
  | initWait (r : ℕ)
  | initRecv (r : ℕ)
  | top
  | sweep (r : ℕ)
  | waitIdx (r : ℕ)
  | endSweep
  | finSend (r : ℕ)
  | finWait (r : ℕ)
  | done
  | abort
  deriving DecidableEq, Repr

/-- Program counter of an evaluator rank (hiopAlgPrimalDecomp.cpp:1006-1120). -/
inductive WPC where
  | recv0
  | eval (i : ℤ)
  | poll
  | done
  deriving DecidableEq, Repr

/-- What is fixed during an iteration: the number of recourse terms `S`, the two communication options
and the recourse callbacks. -/
structure Cfg (M : Type) where
  S : ℕ
  eager : Bool
  loc : Bool
  f : ℤ → M

/-- State of all ranks and of the network.  `rreq r` says that rank 0 has a receive from rank `r+1`
pending, `rbuf`/`cbuf` are the buffers of `rec_prob[r]` and `req_cont_idx[r]` on rank 0, `wbuf` that of
`rec_prob[my_rank_]` on the evaluator, `wacc` the evaluator's local sum (`run_local` only), `evals` the
recourse indices for which the callbacks have been called, in order. -/
structure St (w : ℕ) (M : Type) where
  pc : MPC
  idx : ℕ
  last : Bool
  finish : Fin w → Bool
  acc : M
  rreq : Fin w → Bool
  rbuf : Fin w → M
  cbuf : Fin w → ℤ
  inbox : Fin w → List (Msg ℤ)
  outbox : Fin w → List (Msg M)
  wpc : Fin w → WPC
  wbuf : Fin w → M
  wacc : Fin w → M
  evals : List ℤ

variable {w : ℕ} {M : Type} [AddCommGroup M]

/-- Beginning of an iteration: fresh request objects on all ranks (hiopAlgPrimalDecomp.cpp:897-906),
no message in flight, sums set to zero (:911-912; :1388-1392 in `run_local`). -/
def init : St w M :=
  { pc := .start, idx := 0, last := false, finish := fun _ => false, acc := 0,
    rreq := fun _ => false, rbuf := fun _ => 0, cbuf := fun _ => 0, inbox := fun _ => [],
    outbox := fun _ => [], wpc := fun _ => .recv0, wbuf := fun _ => 0, wacc := fun _ => 0,
    evals := [] }

/-- A message whose data has left the sender's buffer. -/
def Msg.left {α : Type} : Msg α → Bool
  | .posted => false
  | _ => true

/-- `ReqContingencyIdx::wait` returns on rank 0 for rank `r` when no earlier send to `r` still needs the
buffer (hiopAlgPrimalDecomp.cpp:169-173). -/
def waitable (s : St w M) (r : Fin w) : Bool := (s.inbox r).all Msg.left

/-- `ReqRecourseApprox::test` on rank 0 for rank `r` (hiopAlgPrimalDecomp.cpp:86-95): completes, and
fills the buffer, when a receive is pending and the message has arrived; a null request tests true. -/
def test (s : St w M) (r : Fin w) : Bool × St w M :=
  if s.rreq r then
    match s.outbox r with
    | .here v :: t =>
      (true, { s with rreq := Function.update s.rreq r false, rbuf := Function.update s.rbuf r v,
                      outbox := Function.update s.outbox r t })
    | _ => (false, s)
  else (true, s)

/-- `post_send` of index `i` to rank `r` (hiopAlgPrimalDecomp.cpp:180-187): the index is written in the
buffer (`set_idx`) and the message posted. -/
def postIdx (s : St w M) (r : Fin w) (i : ℤ) : St w M :=
  { s with cbuf := Function.update s.cbuf r i,
           inbox := Function.update s.inbox r (s.inbox r ++ [.posted]) }

/-- Rank 0 after `test` reported completion for an unfinished rank, up to the wait on the previous index
send (hiopAlgPrimalDecomp.cpp:959-978).  In `run_local` nothing is added on rank 0 (:1444-1450). -/
def collect (c : Cfg M) (s : St w M) (r : Fin w) : St w M :=
  let s1 := if c.loc then s else { s with acc := s.acc + s.rbuf r }
  let s2 := if s1.last then { s1 with finish := Function.update s1.finish r true } else s1
  if s2.idx < c.S then { s2 with pc := .waitIdx r }
  else { s2 with finish := Function.update s2.finish r true, last := true, idx := s2.idx + 1,
                 pc := .sweep (r + 1) }

/-- Next action of rank 0 (hiopAlgPrimalDecomp.cpp:909-1003 and :1122-1126; `run_local`: :1395-1493 and
:1629-1637).  `none`: blocked.  `pc = abort`: a failed assert or an out-of-range read of the index
array. -/
def master (c : Cfg M) (s : St w M) : Option (St w M) :=
  match s.pc with
  | .start => if w ≤ c.S then some { s with pc := .initSend 0 } else some { s with pc := .abort }
  | .initSend r =>
    if h : r < w then
      if s.idx < c.S then some { postIdx s ⟨r, h⟩ s.idx with pc := .initWait r }
      else some { s with pc := .abort }
    else some { s with pc := .initRecv 0 }
  | .initWait r =>
    if h : r < w then
      if waitable s ⟨r, h⟩ then some { s with idx := s.idx + 1, pc := .initSend (r + 1) } else none
    else none
  | .initRecv r =>
    if h : r < w then
      if s.rreq ⟨r, h⟩ then some { s with pc := .abort }
      else some { s with rreq := Function.update s.rreq ⟨r, h⟩ true, pc := .initRecv (r + 1) }
    else some { s with finish := fun _ => false, last := false, pc := .top }
  | .top => if s.idx ≤ c.S ∨ s.last = true then some { s with pc := .sweep 0 }
            else some { s with pc := .finSend 0 }
  | .sweep r =>
    if h : r < w then
      let t := test s ⟨r, h⟩
      if t.1 = true ∧ s.finish ⟨r, h⟩ = false then some (collect c t.2 ⟨r, h⟩)
      else some { t.2 with pc := .sweep (r + 1) }
    else some { s with pc := .endSweep }
  | .waitIdx r =>
    if h : r < w then
      if waitable s ⟨r, h⟩ then
        let s1 := postIdx s ⟨r, h⟩ s.idx
        if s1.rreq ⟨r, h⟩ then some { s1 with pc := .abort }
        else some { s1 with rreq := Function.update s1.rreq ⟨r, h⟩ true, idx := s1.idx + 1,
                            pc := .sweep (r + 1) }
      else none
    else none
  | .endSweep =>
    some { s with last := if s.last then decide (∃ r, s.finish r = false) else s.last, pc := .top }
  | .finSend r =>
    if h : r < w then
      if waitable s ⟨r, h⟩ then some { postIdx s ⟨r, h⟩ (-1) with pc := .finSend (r + 1) } else none
    else some { s with pc := .finWait 0 }
  | .finWait r =>
    if h : r < w then
      let t := test s ⟨r, h⟩
      if t.1 = true ∧ waitable s ⟨r, h⟩ = true then some { t.2 with pc := .finWait (r + 1) } else none
    else some { s with pc := .done }
  | .done => none
  | .abort => none

/-- The evaluator's `rec_prob[my_rank_]->wait()` returns (hiopAlgPrimalDecomp.cpp:1055, :1106). -/
def wWaitable (s : St w M) (r : Fin w) : Bool := (s.outbox r).all Msg.left

/-- What the evaluator puts in its result message: the value and gradient, or in `run_local` a bare
signal (hiopAlgPrimalDecomp.cpp:1056-1059; :1550-1557). -/
def Cfg.pay (c : Cfg M) (i : ℤ) : M := if c.loc then 0 else c.f i

/-- What the evaluator adds to its local sum (hiopAlgPrimalDecomp.cpp:1534, :1547; nothing in `run`). -/
def Cfg.part (c : Cfg M) (i : ℤ) : M := if c.loc then c.f i else 0

/-- Next action of evaluator `r` (hiopAlgPrimalDecomp.cpp:1017-1119; `run_local`: :1507-1624): receive the
first index with a blocking receive, evaluate, wait for the previous result message, post the result;
then poll for the next index until it is -1. -/
def worker (c : Cfg M) (s : St w M) (r : Fin w) : Option (St w M) :=
  match s.wpc r with
  | .recv0 =>
    match s.inbox r with
    | .here i :: t =>
      some { s with inbox := Function.update s.inbox r t, wpc := Function.update s.wpc r (.eval i) }
    | _ => none
  | .eval i =>
    if wWaitable s r then
      some { s with wbuf := Function.update s.wbuf r (c.pay i),
                    wacc := Function.update s.wacc r (s.wacc r + c.part i),
                    outbox := Function.update s.outbox r (s.outbox r ++ [.posted]),
                    wpc := Function.update s.wpc r .poll,
                    evals := s.evals ++ [i] }
    else none
  | .poll =>
    match s.inbox r with
    | .here i :: t =>
      some { s with inbox := Function.update s.inbox r t,
                    wpc := Function.update s.wpc r (if i = -1 then .done else .eval i) }
    | _ => none
  | .done => none

/-- The system moves the oldest message from rank 0 to rank `r`: out of the sender's buffer, then to the
receiver.  Trusted MPI semantics, see the header. -/
def moveIdx (c : Cfg M) (s : St w M) (r : Fin w) : Option (St w M) :=
  match s.inbox r with
  | .posted :: t =>
    if c.eager = true ∨ s.wpc r = .recv0 ∨ s.wpc r = .poll then
      some { s with inbox := Function.update s.inbox r (.sent (s.cbuf r) :: t) }
    else none
  | .sent v :: t => some { s with inbox := Function.update s.inbox r (.here v :: t) }
  | _ => none

/-- The system moves the oldest message from rank `r` to rank 0, likewise. -/
def moveRes (c : Cfg M) (s : St w M) (r : Fin w) : Option (St w M) :=
  match s.outbox r with
  | .posted :: t =>
    if c.eager = true ∨ s.rreq r = true then
      some { s with outbox := Function.update s.outbox r (.sent (s.wbuf r) :: t) }
    else none
  | .sent v :: t => some { s with outbox := Function.update s.outbox r (.here v :: t) }
  | _ => none

/-- What a schedule can choose at an instant. -/
inductive Act (w : ℕ) where
  | master
  | worker (r : Fin w)
  | moveIdx (r : Fin w)
  | moveRes (r : Fin w)
  deriving DecidableEq

/-- The chosen action, `none` when it is not possible. -/
def act (c : Cfg M) (s : St w M) : Act w → Option (St w M)
  | .master => master c s
  | .worker r => worker c s r
  | .moveIdx r => moveIdx c s r
  | .moveRes r => moveRes c s r

/-- One instant: an impossible action changes nothing. -/
def step (c : Cfg M) (s : St w M) (a : Act w) : St w M := (act c s a).getD s

/-- The state after a finite schedule. -/
def exec (c : Cfg M) (s : St w M) (l : List (Act w)) : St w M := l.foldl (step c) s

/-- The state at instant `n` of an infinite schedule. -/
def trace (c : Cfg M) (sch : ℕ → Act w) : ℕ → St w M
  | 0 => init
  | n + 1 => step c (trace c sch n) (sch n)

/-- All ranks have left the communication part of the iteration. -/
def Final (s : St w M) : Prop := s.pc = .done ∧ ∀ r, s.wpc r = .done

/-- The sum rank 0 ends with: its own, or in `run_local` the reduction of the local sums
(hiopAlgPrimalDecomp.cpp:1651-1658; the assert of :1630-1633 on rank 0's own part is the
conclusion `C25_local_master_zero`). -/
def total (c : Cfg M) (s : St w M) : M := if c.loc then s.acc + ∑ r, s.wacc r else s.acc

/-- The serial solver's collection loop (hiopAlgPrimalDecomp.cpp:1877-1897). -/
def serialTotal (c : Cfg M) : M := (List.range c.S).foldl (fun a (i : ℕ) => a + c.f i) 0

end Hiop.PriDec
