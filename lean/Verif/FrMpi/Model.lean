import Verif.Fr.Model
import Verif.Mpi.Model

/-!
# Model of the dense restoration problem on several ranks

Source: `src/Optimization/hiopFRProb.cpp:1399-2037` (`hiopFRProbDense`) under `HIOP_USE_MPI`,
`src/LinAlg/hiopVectorPar.cpp:68-90, 238-254, 293-313`, `src/LinAlg/hiopMatrixDenseRowMajor.cpp:160-180, 301-338`.

Each rank runs the functions below on its own arrays. A local array is a function of the position; what it holds
past the local size means nothing. A failed assertion, or a copy of a negative number of entries, is `none`.
Arithmetic is over `ℝ`. Not modelled here: the value of the base objective stored by `eval_f` and the test of
`iterate_callback` (modelled on one rank in `Verif/Fr`), messages.
-/

namespace Hiop.FrMpi

open Hiop.Vec Hiop.Kkt Hiop.QN Hiop.Mpi Hiop.Fr Hiop.Iterate

variable {n mc m P : ℕ}

/-! ## Vectors of one rank -/

/-- `hiopVectorPar` as one rank holds it: global size, first and one past the last global index, entries,
hiopVectorPar.cpp:68-91. -/
structure PVec where
  n : ℕ
  il : ℕ
  iu : ℕ
  data : ℕ → ℝ

/-- `n_local_`, hiopVectorPar.cpp:88. -/
def PVec.len (v : PVec) : ℕ := v.iu - v.il

/-- A vector without a column partition: every rank holds all of it, hiopVectorPar.cpp:86. -/
def whole (k : ℕ) (data : ℕ → ℝ) : PVec := ⟨k, 0, k, data⟩

/-- `exec_space_.copy(dst + doff, src + soff, cnt)`, used at hiopVectorPar.cpp:245, 250, 310. -/
def copyN (dst : ℕ → ℝ) (doff : ℕ) (src : ℕ → ℝ) (soff cnt : ℕ) : ℕ → ℝ := fun k =>
  if doff ≤ k ∧ k < doff + cnt then src (soff + (k - doff)) else dst k

/-- `copyToStarting(dest, start_global_index_in_dest)`, hiopVectorPar.cpp:294-313. -/
def copyToStarting (s v : PVec) (start : ℕ) : Option PVec :=
  if start + s.n ≤ v.n then
    if 0 < s.len then
      let st : ℤ :=
        if v.il ≤ start ∧ start < v.iu then (start : ℤ) - v.il
        else if v.iu ≤ start then -1 else 0
      if 0 ≤ st then
        if (s.len : ℤ) + st ≤ v.len then some { v with data := copyN v.data st.toNat s.data 0 s.len }
        else none
      else some v
    else some v
  else none

/-- `copy_from_starting_at(v, start_index_in_global_v, global_nv)`, hiopVectorPar.cpp:238-254. -/
def copyFromStartingAt (w : PVec) (v : ℕ → ℝ) (start nv : ℕ) : Option PVec :=
  if 0 < w.len then
    if nv = w.len ∧ w.len = w.n then some { w with data := copyN w.data 0 v start nv }
    else if w.il ≤ start + nv ∧ start ≤ w.iu then
      let ls : ℤ := if start ≤ w.il then 0 else (start : ℤ) - w.il
      let le : ℤ := if w.iu ≤ start + nv then (w.iu : ℤ) - w.il else (start : ℤ) - w.il
      if ls ≤ le ∧ le - ls ≤ w.len then some { w with data := copyN w.data 0 v ls.toNat (le - ls).toNat }
      else none
    else some w
  else some w

/-- `sum_local`, hiopVectorPar.cpp:883-892. -/
def PVec.sum (v : PVec) : ℝ := (List.range v.len).foldl (fun a i => a + v.data i) 0

/-! ## The problem on one rank -/

/-- `col_partition_` as the constructor leaves it, hiopFRProb.cpp:1438-1449: `dist` is the distribution the user
gave for the base problem, if any; `none` is an entry nobody wrote. -/
def colPartition (dist : Option (ℕ → ℕ)) (P ntot : ℕ) : ℕ → Option ℕ := fun i =>
  if i < P then
    match dist with
    | some d => some (d i)
    | none => if i = 0 then some 0 else none
  else if i = P then some ntot else none

/-- What `get_vecdistrib_info` hands to the solver, hiopFRProb.cpp:1511-1521: the first `P + 1` entries, or `none`
when one of them was never written. -/
def vecDistrib (dist : Option (ℕ → ℕ)) (P ntot : ℕ) : Option (List ℕ) :=
  if (List.range (P + 1)).all fun i => (colPartition dist P ntot i).isSome then
    some ((List.range (P + 1)).map fun i => (colPartition dist P ntot i).getD 0)
  else none

/-- A vector of the variables of the base problem, cloned from `x_ref_`, hiopFRProb.cpp:1466. -/
def xVec (p : Part n P) (r : Fin P) (data : ℕ → ℝ) : PVec := ⟨n, p.off r, p.off (r + 1), data⟩

/-- `wrk_primal_`, hiopFRProb.cpp:1451-1452; `col` is `col_partition_`. -/
def primal (n mc m : ℕ) (col : ℕ → ℕ) (r : Fin P) (data : ℕ → ℝ) : PVec :=
  ⟨nTot n mc m, col r, col (r + 1), data⟩

/-- `get_vars_info`, hiopFRProb.cpp:1543-1568: lower and upper bounds on rank `r`; `xl`, `xu` are its parts of the
base bounds. -/
noncomputable def varsInfo (p : Part n P) (mc m : ℕ) (col : ℕ → ℕ) (r : Fin P) (xl xu : ℕ → ℝ) :
    Option ((ℕ → ℝ) × (ℕ → ℝ)) := do
  let lo ← copyToStarting (xVec p r xl) (primal n mc m col r fun _ => 0) 0
  let up ← copyToStarting (xVec p r xu) (primal n mc m col r fun _ => 1e20) 0
  some (lo.data, up.data)

/-- The kinds of nonlinearity, src/Interface/hiopInterface.hpp:138. -/
inductive Kind
  | linear | quadratic | nonlinear
  deriving DecidableEq

/-- The array `type` after `get_vars_info`, hiopFRProb.cpp:1563-1565; `none`: not written. -/
def varsType (p : Part n P) (r : Fin P) : ℕ → Option Kind := fun k =>
  if k < p.len r then some .nonlinear else none

/-- The array `type` after `get_cons_info`, hiopFRProb.cpp:1591-1593; `none`: not written. -/
def consType (m : ℕ) : ℕ → Option Kind := fun k => if k < m then some .linear else none

/-- `get_cons_info`, hiopFRProb.cpp:1570-1590, the same on every rank. -/
def consInfo (crhs : RVec ℝ mc) (dl du : RVec ℝ m) : Option ((ℕ → ℝ) × (ℕ → ℝ)) := do
  let w ← copyToStarting (whole mc (copyTo crhs (fun _ => 0) 0)) (whole (mc + m) fun _ => 0) 0
  let lo ← copyToStarting (whole m (copyTo dl (fun _ => 0) 0)) w mc
  let up ← copyToStarting (whole m (copyTo du (fun _ => 0) 0)) lo mc
  some (lo.data, up.data)

/-- The contribution of rank `r` to the sum of `eval_f`, hiopFRProb.cpp:1603-1609, and `DR*(x-x_ref)`,
hiopFRProb.cpp:1618-1619; `x`, `xref`, `dr` are local arrays. -/
noncomputable def evalFLocal (p : Part n P) (mc m : ℕ) (col : ℕ → ℕ) (rho : ℝ) (r : Fin P) (x xref dr : ℕ → ℝ)
    (junk : ℕ → ℝ) : Option (ℝ × RVec ℝ (p.len r)) := do
  let wp ← copyFromStartingAt (primal n mc m col r junk) x 0 (nTot n mc m)
  let wx ← copyFromStartingAt (xVec p r junk) x 0 n
  some (rho * (wp.sum - wx.sum), fun i => (wx.data i + -1 * xref i) * dr i)

/-- `eval_f`, hiopFRProb.cpp:1597-1627, all ranks together: the values `out` the ranks may obtain from the local
results `loc`, with `MPI_Allreduce` and the distributed `twonorm`. -/
noncomputable def evalF (p : Part n P) (zeta : ℝ) (loc : ∀ r : Fin P, ℝ × RVec ℝ (p.len r)) (out : Fin P → ℝ) :
    Prop :=
  ∃ s db : Fin P → ℝ, Allreduce (· + ·) (fun r => (loc r).1) s ∧ twonormD (fun r => (loc r).2) db ∧
    ∀ r, out r = s r + 0.5 * zeta * db r * db r

/-- `eval_grad_f`, hiopFRProb.cpp:1629-1651. -/
noncomputable def evalGrad (p : Part n P) (mc m : ℕ) (col : ℕ → ℕ) (rho zeta : ℝ) (r : Fin P)
    (x xref dr : ℕ → ℝ) (junk : ℕ → ℝ) : Option (ℕ → ℝ) := do
  let wx ← copyFromStartingAt (xVec p r junk) x 0 n
  let g : ℕ → ℝ := fun i => zeta * ((wx.data i + -1 * xref i) * dr i * dr i)
  let wp ← copyToStarting (xVec p r g) (primal n mc m col r fun _ => rho) 0
  some wp.data

/-- The point at which the base constraints are evaluated on rank `r`, hiopFRProb.cpp:1662-1666. -/
def consPoint (p : Part n P) (r : Fin P) (x : ℕ → ℝ) (junk : ℕ → ℝ) : Option (ℕ → ℝ) :=
  (copyFromStartingAt (xVec p r junk) x 0 n).map (·.data)

/-- `b - p + n` on the last rank, hiopFRProb.cpp:1671-1676, 1683-1688: `pst`, `nst` are the global places of `p` and
`n`, `c0` is `col_partition_[rank_]`. -/
noncomputable def addPN {q : ℕ} (x : ℕ → ℝ) (c0 pst nst : ℕ) (b : RVec ℝ q) (junk : ℕ → ℝ) :
    Option (RVec ℝ q) :=
  if 0 < q then
    if c0 ≤ pst ∧ c0 ≤ nst then do
      let w ← copyFromStartingAt (whole q junk) (fun k => x (pst - c0 + k)) 0 q
      let b := axpy b (-1) (copyOut w.data 0 q)
      let w ← copyFromStartingAt w (fun k => x (nst - c0 + k)) 0 q
      some (axpy b 1 (copyOut w.data 0 q))
    else none
  else some b

/-- `wrk_c_`, `wrk_d_` put together into `cons`, hiopFRProb.cpp:1713-1719. -/
def joinCons (c : RVec ℝ mc) (d : RVec ℝ m) (junk : ℕ → ℝ) : Option (ℕ → ℝ) := do
  let w ← copyToStarting (whole mc (copyTo c (fun _ => 0) 0)) (whole (mc + m) junk) 0
  let w ← copyToStarting (whole m (copyTo d (fun _ => 0) 0)) w mc
  some w.data

/-- `eval_cons`, hiopFRProb.cpp:1653-1720, all ranks together: `base` gives, from the points of all ranks, what the
base problem leaves in `wrk_c_`, `wrk_d_` on each rank; `last` is the rank `comm_size_-1`, which computes and
broadcasts. -/
noncomputable def evalCons (p : Part n P) (col : ℕ → ℕ) (last : Fin P)
    (base : (Fin P → ℕ → ℝ) → Fin P → RVec ℝ mc × RVec ℝ m) (xs : Fin P → ℕ → ℝ) (junk : ℕ → ℝ) :
    Option (Fin P → ℕ → ℝ) :=
  if ∀ r, (consPoint p r (xs r) junk).isSome then do
    let pts := fun r => (consPoint p r (xs r) junk).getD junk
    let cd := base pts
    let c ← addPN (xs last) (col last) n (n + mc) (cd last).1 junk
    let d ← addPN (xs last) (col last) (n + mc + mc) (n + mc + mc + m) (cd last).2 junk
    let cast := fun (r : Fin P) => (if 0 < mc then c else (cd r).1, if 0 < m then d else (cd r).2)
    if ∀ r, (joinCons (cast r).1 (cast r).2 junk).isSome then
      some fun r => (joinCons (cast r).1 (cast r).2 junk).getD junk
    else none
  else none

/-- `copyRowsFrom(src, num_rows, row_dest)`, hiopMatrixDenseRowMajor.cpp:169-180: one `memcpy` of
`n_local_*num_rows` entries into rows of length `nl` from rows of length `snl`. -/
def copyRows (nl snl : ℕ) (M S : ℕ → ℕ → ℝ) (num dest : ℕ) : ℕ → ℕ → ℝ := fun i k =>
  if dest ≤ i ∧ i < dest + num then
    let t := (i - dest) * nl + k
    S (t / snl) (t % snl)
  else M i k

/-- `set_Jac_FR` on a rank, hiopMatrixDenseRowMajor.cpp:301-338: `nl` local columns of `this`, `snl` of the base
Jacobians `Jc`, `Jd`. -/
def setJacFR (mc m nl snl : ℕ) (isLast : Bool) (Jc Jd : ℕ → ℕ → ℝ) : Option (ℕ → ℕ → ℝ) :=
  if isLast then
    if snl + 2 * mc + 2 * m = nl then
      some fun i k =>
        if i < mc then
          if k = snl + mc + i then 1 else if k = snl + i then -1 else if k < snl then Jc i k else 0
        else if i < mc + m then
          if k = snl + 2 * mc + m + (i - mc) then 1 else if k = snl + 2 * mc + (i - mc) then -1
          else if k < snl then Jd (i - mc) k else 0
        else 0
    else none
  else some (copyRows nl snl (copyRows nl snl (fun _ _ => 0) Jc mc 0) Jd m mc)

/-- `copyToStarting` of the point and of the four blocks into `wrk_primal_`, hiopFRProb.cpp:1823-1829, 1849-1853,
2021-2025. -/
def assemble (p : Part n P) (col : ℕ → ℕ) (r : Fin P) (x : ℕ → ℝ) (pe ne : RVec ℝ mc) (pi ni : RVec ℝ m)
    (buf : ℕ → ℝ) : Option (ℕ → ℝ) := do
  let w ← copyToStarting (xVec p r x) (primal n mc m col r buf) 0
  let w ← copyToStarting (whole mc (copyTo pe (fun _ => 0) 0)) w n
  let w ← copyToStarting (whole mc (copyTo ne (fun _ => 0) 0)) w (n + mc)
  let w ← copyToStarting (whole m (copyTo pi (fun _ => 0) 0)) w (n + 2 * mc)
  let w ← copyToStarting (whole m (copyTo ni (fun _ => 0) 0)) w (n + 2 * mc + m)
  some w.data

/-- What the base solver holds on a rank: its parts of `x_ref_`, `zl`, `zu`, and the replicated `c`, `d`, `s`,
`crhs`. Code: hiopFRProb.cpp:1765-1773. -/
structure BaseSt (mc m : ℕ) where
  xref : ℕ → ℝ
  zl : ℕ → ℝ
  zu : ℕ → ℝ
  c : RVec ℝ mc
  d : RVec ℝ m
  s : RVec ℝ m
  crhs : RVec ℝ mc

/-- `component_min(c)` on a local array, hiopFRProb.cpp:1836, 1859. -/
noncomputable def minC (v : ℕ → ℝ) (c : ℝ) : ℕ → ℝ := fun i => if v i > c then c else v i

/-- `get_warmstart_point`, hiopFRProb.cpp:1752-1879, the arrays `x0`, `z_bndL0`, `z_bndU0` of rank `r`. -/
noncomputable def warmStart (p : Part n P) (col : ℕ → ℕ) (mu rho : ℝ) (r : Fin P) (B : BaseSt mc m) :
    Option ((ℕ → ℝ) × (ℕ → ℝ) × (ℕ → ℝ)) := do
  let e := pn mu rho (axpy B.c (-1) B.crhs)
  let i := pn mu rho (axpy B.d (-1) B.s)
  let x0 ← assemble p col r B.xref e.1 e.2 i.1 i.2 fun _ => 0
  let zl0 ← assemble p col r (minC B.zl rho) (muInv mu e.1) (muInv mu e.2) (muInv mu i.1) (muInv mu i.2) x0
  let zu0 ← copyToStarting (xVec p r (minC B.zu rho)) (primal n mc m col r fun _ => 0) 0
  some (x0, zl0, zu0.data)

/-- `force_update_x`, hiopFRProb.cpp:1963-2033. -/
noncomputable def forceUpdate (p : Part n P) (col : ℕ → ℕ) (mu rho : ℝ) (r : Fin P) (B : BaseSt mc m)
    (x : ℕ → ℝ) (junk : ℕ → ℝ) : Option (ℕ → ℝ) := do
  let wx ← copyFromStartingAt (xVec p r junk) x 0 n
  let e := pn mu rho (axpy B.c (-1) B.crhs)
  let i := pn mu rho (axpy B.d (-1) B.s)
  assemble p col r wx.data e.1 e.2 i.1 i.2 junk

end Hiop.FrMpi
