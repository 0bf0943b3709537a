import Verif.Barrier.Model
import Verif.Filter.Model
import Verif.Kkt.Dense
import Verif.QN.Model
import Verif.Sparse.Model

/-!
# Model of the feasibility-restoration problem

Source: `src/Optimization/hiopFRProb.cpp`, `src/LinAlg/hiopMatrixSparseTriplet.cpp:1374-1490`,
`src/LinAlg/hiopMatrixMDS.cpp:8-41`, `src/LinAlg/hiopMatrixDenseRowMajor.cpp:294-338`. Over `ℝ`, one
rank. The three classes `hiopFRProbSparse`, `hiopFRProbMDS` and `hiopFRProbDense` differ in the place
of the variables in the array given by the solver; the place is a `Layout`. Arrays of the solver are
functions of the position. Callbacks of the base problem are functions that may fail; when they fail
the code goes on with the contents of its work vectors, which are arguments named `old...`. Work
vectors are local bindings otherwise. Messages and type arrays are left out.
-/

namespace Hiop.Fr

open Hiop.Vec Hiop.Kkt Hiop.QN Hiop.Iterate Hiop.Barrier Hiop.Sparse

variable {n mc m ns nd : ℕ}

/-- The place of the variables of the base problem and of `pe`, `ne`, `pi`, `ni` in the array of the
restoration problem. `getX`/`putX` are the copies between that array and `wrk_x_`. Code: hiopFRProb.hpp:206, hiopFRProb.hpp:381. -/
structure Layout (n mc m : ℕ) where
  getX : (ℕ → ℝ) → RVec ℝ n
  putX : RVec ℝ n → (ℕ → ℝ) → ℕ → ℝ
  pe : ℕ
  ne : ℕ
  pi : ℕ
  ni : ℕ

/-- `[x pe ne pi ni]`: hiopFRProbSparse, hiopFRProb.cpp:84-87, and hiopFRProbDense on one rank,
hiopFRProb.cpp:1402-1483. -/
def sparseL (n mc m : ℕ) : Layout n mc m where
  getX x := copyOut x 0 n
  putX v buf := copyTo v buf 0
  pe := n
  ne := n + mc
  pi := n + mc + mc
  ni := n + mc + mc + m

/-- `[xsp pe ne pi ni xde]`: hiopFRProbMDS, hiopFRProb.cpp:719-724 and the copies
`startingAtCopyToStartingAt` of hiopFRProb.cpp:898-900, 934-935. In the code the dense part is copied
after the four blocks when the whole array is written; the pieces do not overlap. -/
def mdsL (ns nd mc m : ℕ) : Layout (ns + nd) mc m where
  getX x := Fin.append (copyOut x 0 ns) (copyOut x (ns + mc + mc + m + m) nd)
  putX v buf := copyTo (fun i => v (Fin.natAdd ns i)) (copyTo (fun i => v (Fin.castAdd nd i)) buf 0)
    (ns + mc + mc + m + m)
  pe := ns
  ne := ns + mc
  pi := ns + mc + mc
  ni := ns + mc + mc + m

/-- `n_`, hiopFRProb.cpp:81, 714. -/
def nTot (n mc m : ℕ) : ℕ := n + 2 * mc + 2 * m

/-- What the restoration problem asks from the base problem: objective, constraint bodies (`none`: the
user's callback reports failure), bounds. Code: hiopFRProb.cpp:245-268, hiopFRProb.cpp:300-333. -/
structure Base (n mc m : ℕ) where
  f : RVec ℝ n → Option ℝ
  cd : RVec ℝ n → Option (RVec ℝ mc × RVec ℝ m)
  xl : RVec ℝ n
  xu : RVec ℝ n
  crhs : RVec ℝ mc
  dl : RVec ℝ m
  du : RVec ℝ m

/-- Members of the restoration problem that outlive a call. Code: hiopFRProb.hpp:197-219, hiopFRProb.hpp:372-397. -/
structure Prob (n m : ℕ) where
  xref : RVec ℝ n
  dr : RVec ℝ n
  mu : ℝ
  zeta : ℝ
  rho : ℝ
  nrmRef : ℝ
  objBase : ℝ
  lastX : RVec ℝ n
  lastD : RVec ℝ m

/-- `DR_`, hiopFRProb.cpp:92-95: `component_abs`, `invert`, `component_min(1.)`; `1/0` is `+inf` in
IEEE arithmetic, of which the minimum with 1 is 1. -/
noncomputable def drOf (xref : RVec ℝ n) : RVec ℝ n :=
  fun i => if |xref i| = 0 then 1 else if 1 / |xref i| > 1 then 1 else 1 / |xref i|

/-- Constructors, hiopFRProb.cpp:70-133, 702-770, 1402-1483: `mu` and `nrm` are the barrier parameter
and `get_nrmInf_bar_feasib()` of the base solver. `obj_base_`, `last_x_`, `last_d_` are not
initialised by the code: `obj0`, `x0`, `d0`. -/
noncomputable def newProb (xref : RVec ℝ n) (mu nrm obj0 : ℝ) (x0 : RVec ℝ n) (d0 : RVec ℝ m) :
    Prob n m :=
  let mu1 := if mu < nrm then nrm else mu
  { xref := xref, dr := drOf xref, mu := mu1, zeta := Real.sqrt mu1, rho := 1000, nrmRef := nrm,
    objBase := obj0, lastX := x0, lastD := d0 }

/-! ## Bounds -/

/-- `get_vars_info`, hiopFRProb.cpp:183-204, 824-848, 1543-1568: lower and upper bounds. -/
noncomputable def varsInfo (L : Layout n mc m) (B : Base n mc m) : (ℕ → ℝ) × (ℕ → ℝ) :=
  (L.putX B.xl fun _ => 0, L.putX B.xu fun _ => 1e20)

/-- `get_cons_info`, hiopFRProb.cpp:206-231, 850-875, 1570-1595. -/
def consInfo (B : Base n mc m) : (ℕ → ℝ) × (ℕ → ℝ) :=
  let w := copyTo B.dl (copyTo B.crhs (fun _ => 0) 0) mc
  (w, copyTo B.du w mc)

/-! ## Evaluations -/

/-- `eval_f`, hiopFRProb.cpp:245-267, 893-915, 1597-1627. The base objective is evaluated at `wrk_x_`
after `wrk_x_` was overwritten. -/
noncomputable def evalF (L : Layout n mc m) (B : Base n mc m) (P : Prob n m) (x : ℕ → ℝ) :
    ℝ × Prob n m :=
  let wx := L.getX x
  let obj := P.rho * (sumLocal (copyOut x 0 (nTot n mc m)) - sumLocal wx)
  let wx := componentMult (axpy wx (-1) P.xref) P.dr
  let db := twonorm wx
  let obj := obj + 0.5 * P.zeta * db * db
  (obj, { P with objBase := (B.f wx).getD P.objBase })

/-- `eval_grad_f`, hiopFRProb.cpp:269-287, 917-940, 1629-1651. -/
noncomputable def evalGrad (L : Layout n mc m) (P : Prob n m) (x : ℕ → ℝ) : ℕ → ℝ :=
  let wx := componentMult (componentMult (axpy (L.getX x) (-1) P.xref) P.dr) P.dr
  L.putX (scale wx P.zeta) fun _ => P.rho

/-- `eval_cons`, hiopFRProb.cpp:300-332, 953-987, 1653-1720. The answer is always `true`. -/
noncomputable def evalCons (L : Layout n mc m) (B : Base n mc m) (oldC : RVec ℝ mc) (oldD : RVec ℝ m)
    (x : ℕ → ℝ) : ℕ → ℝ :=
  let cd := (B.cd (L.getX x)).getD (oldC, oldD)
  let c := axpy (axpy cd.1 (-1) (copyOut x L.pe mc)) 1 (copyOut x L.ne mc)
  let d := axpy (axpy cd.2 (-1) (copyOut x L.pi m)) 1 (copyOut x L.ni m)
  copyTo d (copyTo c (fun _ => 0) 0) mc

/-- `hiopMatrixDenseRowMajor::set_Jac_FR`, hiopMatrixDenseRowMajor.cpp:302-338, on one rank (the last
one). -/
def denseJacFR (n mc m : ℕ) (Jc Jd : ℕ → ℕ → ℝ) : ℕ → ℕ → ℝ := fun i k =>
  if i < mc then
    if k < n then Jc i k else if k = n + mc + i then 1 else if k = n + i then -1 else 0
  else if i < mc + m then
    if k < n then Jd (i - mc) k else if k = n + 2 * mc + m + (i - mc) then 1
      else if k = n + 2 * mc + (i - mc) then -1 else 0
  else 0

/-- `hiopMatrixMDS::set_Jac_FR`, hiopMatrixMDS.cpp:8-26: the sparse part by `set_Jac_FR`, the rows of
the dense parts one below the other. -/
noncomputable def mdsJacFR (ns mc m : ℕ) (JcS JdS : List (Ent ℝ)) (JcD JdD : ℕ → ℕ → ℝ) (nnz : ℕ) :
    Option (List (Ent ℝ) × (ℕ → ℕ → ℝ)) := do
  let l ← setJacFR ns mc m JcS JdS nnz
  some (l, fun i k => if i < mc then JcD i k else JdD (i - mc) k)

/-- The rows written by `set_Hess_FR`, hiopMatrixSparseTriplet.cpp:1410-1432, 1458-1480: the diagonal
entry first, merged with the first stored entry of the row when that one is diagonal. -/
def hessRows (p : ℕ) (H : List (Ent ℝ)) (diag : ℕ → ℝ) : List (Ent ℝ) :=
  (List.range p).flatMap fun i =>
    match rowSlice H i with
    | [] => [⟨i, i, diag i⟩]
    | e :: es =>
      if e.r = e.c then ⟨i, i, diag i + e.v⟩ :: es.map fun e => ⟨i, e.c, e.v⟩
      else ⟨i, i, diag i⟩ :: (e :: es).map fun e => ⟨i, e.c, e.v⟩

/-- `hiopMatrixSymSparseTriplet::set_Hess_FR`, hiopMatrixSparseTriplet.cpp:1374-1490, sparsity and
values together; `mh` is the size of the base Hessian, `p` that of `add_diag`. Stores past `nnz` and
failed assertions give `none`. -/
def setHessFR (mh : ℕ) (H : List (Ent ℝ)) (diag : RVec ℝ p) (nnz : ℕ) : Option (List (Ent ℝ)) :=
  if nnz = 0 then some [] else
  if nnz = p + numOffDiag H ∧ rowStartsOk mh H = true ∧ (mh = 0 ∨ mh = p) then
    let dg : ℕ → ℝ := copyTo diag (fun _ => 0) 0
    let l := if mh > 0 then hessRows mh H dg else (List.range p).map fun i => ⟨i, i, dg i⟩
    if l.length = nnz then some l else none
  else none

/-- `zeta*DR^2`, hiopFRProb.cpp:407-409, 1371-1373. -/
noncomputable def hessDiag (P : Prob n m) : RVec ℝ n :=
  componentMult (componentMult (fun _ => P.zeta) P.dr) P.dr

/-- `eval_Hess_Lagr`, hiopFRProb.cpp:379-416: `hess x of yc yd` are the triplets of the base problem.
The local `obj_factor` hides the argument. -/
noncomputable def evalHess (hess : RVec ℝ n → ℝ → RVec ℝ mc → RVec ℝ m → List (Ent ℝ))
    (P : Prob n m) (x : ℕ → ℝ) (_objFactor : ℝ) (lam : ℕ → ℝ) (nnz : ℕ) :
    Option (List (Ent ℝ)) :=
  let H := hess ((sparseL n mc m).getX x) 0 (copyOut lam 0 mc) (copyOut lam mc m)
  setHessFR n H (hessDiag P) nnz

/-- `eval_Hess_Lagr` of the mixed dense-sparse class, hiopFRProb.cpp:1329-1386, with
`hiopMatrixSymBlockDiagMDS::set_Hess_FR`, hiopMatrixMDS.cpp:28-41, and the dense `set_Hess_FR`,
hiopMatrixDenseRowMajor.cpp:294-299. -/
noncomputable def evalHessMds
    (hess : RVec ℝ (ns + nd) → ℝ → RVec ℝ mc → RVec ℝ m → List (Ent ℝ) × (ℕ → ℕ → ℝ))
    (P : Prob (ns + nd) m) (x : ℕ → ℝ) (_objFactor : ℝ) (lam : ℕ → ℝ) (nnz : ℕ) :
    Option (List (Ent ℝ) × (ℕ → ℕ → ℝ)) := do
  let H := hess ((mdsL ns nd mc m).getX x) 0 (copyOut lam 0 mc) (copyOut lam mc m)
  let dg := hessDiag P
  let l ← setHessFR ns H.1 (fun i : Fin ns => dg (Fin.castAdd nd i)) nnz
  let dgD : ℕ → ℝ := copyTo (fun i : Fin nd => dg (Fin.natAdd ns i)) (fun _ => 0) 0
  some (l, fun i j => if i = j then H.2 i j + 1 * dgD i else H.2 i j)

/-! ## Starting point -/

/-- `p` and `n` for constraint violations `cb`, hiopFRProb.cpp:452-470: `(p, n)`. -/
noncomputable def pn (mu rho : ℝ) (cb : RVec ℝ q) : RVec ℝ q × RVec ℝ q :=
  let t := mu / (2 * rho)
  let w : RVec ℝ q := axpy (fun _ => t) (-0.5) cb
  let e := axpy (componentMult w w) t cb
  let e : RVec ℝ q := fun i => Real.sqrt (e i)
  let e := axpy e 1 w
  (axpy cb 1 e, e)

/-- `copyToStarting` of the four blocks. Code: hiopFRProb.cpp:420-544. -/
def putPN (L : Layout n mc m) (pe ne : RVec ℝ mc) (pi ni : RVec ℝ m) (buf : ℕ → ℝ) : ℕ → ℝ :=
  copyTo ni (copyTo pi (copyTo ne (copyTo pe buf L.pe) L.ne) L.pi) L.ni

/-- What `get_warmstart_point` hands over. Code: hiopFRProb.cpp:420-544. -/
structure Start (m : ℕ) where
  x0 : ℕ → ℝ
  zl0 : ℕ → ℝ
  zu0 : ℕ → ℝ
  lam0 : ℕ → ℝ
  slack : RVec ℝ m
  vl0 : RVec ℝ m
  vu0 : RVec ℝ m

/-- `invert` and `scale(mu_)`. Code: hiopFRProb.cpp:420-544. -/
noncomputable def muInv (mu : ℝ) (v : RVec ℝ q) : RVec ℝ q := scale (fun i => 1 / v i) mu

/-- `get_warmstart_point`, hiopFRProb.cpp:420-544, 1045-1174, 1752-1879: `c`, `d`, `it` are the
constraint bodies and the iterate of the base solver. -/
noncomputable def warmStart (L : Layout n mc m) (B : Base n mc m) (P : Prob n m) (c : RVec ℝ mc)
    (d : RVec ℝ m) (it : It ℝ n mc m) : Start m :=
  let e := pn P.mu P.rho (axpy c (-1) B.crhs)
  let i := pn P.mu P.rho (axpy d (-1) it.d)
  { x0 := putPN L e.1 e.2 i.1 i.2 (L.putX P.xref fun _ => 0)
    zl0 := putPN L (muInv P.mu e.1) (muInv P.mu e.2) (muInv P.mu i.1) (muInv P.mu i.2)
      (L.putX (componentMinC it.zl P.rho) fun _ => 0)
    zu0 := L.putX (componentMinC it.zu P.rho) fun _ => 0
    lam0 := fun _ => 0
    slack := it.d
    vl0 := componentMinC it.vl P.rho
    vu0 := componentMinC it.vu P.rho }

/-- `force_update_x`, hiopFRProb.cpp:626-691, 1258-1327, 1963-2033: the violations are those of the
base solver's iterate. -/
noncomputable def forceUpdate (L : Layout n mc m) (B : Base n mc m) (P : Prob n m) (c : RVec ℝ mc)
    (d : RVec ℝ m) (it : It ℝ n mc m) (x : ℕ → ℝ) : ℕ → ℝ :=
  let e := pn P.mu P.rho (axpy c (-1) B.crhs)
  let i := pn P.mu P.rho (axpy d (-1) it.d)
  putPN L e.1 e.2 i.1 i.2 (L.putX (L.getX x) fun _ => 0)

/-! ## Termination test -/

/-- What the callback reads from the base solver: current and trial iterates, bounds, machine
constants, barrier parameter, damping, filter, `kappa_resto`. Code: hiopFRProb.cpp:546-624. -/
structure Solver (n mc m : ℕ) where
  cur : It ℝ n mc m
  trial : It ℝ n mc m
  b : Bounds ℝ n m
  M : Mach ℝ
  mu : ℝ
  kappad : ℝ
  filter : Filter.Filt
  kappaResto : ℝ

/-- `iterate_callback`, hiopFRProb.cpp:546-624, 1176-1256, 1881-1961: `false` stops the restoration.
`none` is a NaN slack (see `adjustSmallSlacksVec`). -/
noncomputable def iterateCallback (L : Layout n mc m) (B : Base n mc m) (S : Solver n mc m)
    (oldC : RVec ℝ mc) (oldD : RVec ℝ m) (P : Prob n m) (iter : ℕ) (x : ℕ → ℝ) (s : RVec ℝ m)
    (mu : ℝ) : Option (Bool × Prob n m) :=
  let wx := L.getX x
  let cd := (B.cd wx).getD (oldC, oldD)
  let cb := axpy cd.1 (-1) B.crhs
  let db := axpy cd.2 (-1) s
  let theta := onenorm cb + onenorm db
  let nrm := max (infnorm cb) (infnorm db)
  let go : Prob n m := { P with mu := mu, zeta := Real.sqrt mu }
  if nrm ≤ S.kappaResto * P.nrmRef ∧ iter > 0 then
    match computeSafeSlacks S.M S.b { S.trial with x := wx, d := s } S.cur S.mu with
    | none => none
    | some (_, tr) =>
      if Filter.contains S.filter theta (trialFuncOnly S.b tr S.mu S.kappad P.objBase) = true then
        some (true, go)
      else some (false, { P with lastX := wx, lastD := s })
  else some (true, go)

/-- Status with which the restoration solver ends, as far as `solve_feasibility_restoration`
distinguishes it. Code: hiopAlgFilterIPM.cpp:3126-3167. -/
inductive FrStatus
  | userStopped
  | success
  | acceptable
  | other
deriving DecidableEq

/-- Effect on the base solver: continue, or stop with a status. Code: hiopAlgFilterIPM.cpp:3041-3125. -/
inductive FrOutcome
  | resume
  | infeasibleProblem
  | errorInFR
deriving DecidableEq

/-- `solve_feasibility_restoration`, hiopAlgFilterIPM.cpp:3156-3171. -/
def frOutcome : FrStatus → FrOutcome
  | .userStopped => .resume
  | .success => .infeasibleProblem
  | .acceptable => .infeasibleProblem
  | .other => .errorInFR

end Hiop.Fr
