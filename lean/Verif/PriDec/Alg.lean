import Verif.PriDec.Recourse
import Mathlib.Analysis.SpecialFunctions.Pow.NNReal

/-!
# Model of the outer iteration of the primal decomposition solver

Source: `src/Optimization/hiopAlgPrimalDecomp.{hpp,cpp}`: the quadratic-coefficient rules of
`HessianApprox` and the loop of `run_single`.  The loop of `run` and `run_local` on rank 0 has the same body
(:1135-1222, :1660-1745) except that the recourse sums come from the evaluators (`Protocol.lean`, C25).

The master problem is an oracle: call number `k` of `solve_master`, given the current `x` and the recourse
approximation (or none), returns the new `x`, the objective and the status.  The recourse callbacks are
functions of the coupled variables; the code ignores their return codes.
-/

namespace Hiop.PriDec

open Hiop.Vec

/-- The data of `HessianApprox` (hiopAlgPrimalDecomp.hpp:365-380). -/
structure HA (nc : ℕ) where
  alpha : ℝ
  ratio : ℝ
  fk : ℝ
  fkm1 : ℝ
  fkm1Lin : ℝ
  xkm1 : RVec ℝ nc
  gkm1 : RVec ℝ nc
  skm1 : RVec ℝ nc
  ykm1 : RVec ℝ nc

/-- Solver options (hiopOptions.cpp:1607-1725) and `alpha_ratio_` (hiopAlgPrimalDecomp.hpp:436). -/
structure PDOpts where
  tol : ℝ
  accpTol : ℝ
  accpCount : ℕ
  maxIter : ℕ
  alphaMin : ℝ
  alphaMax : ℝ
  alphaRatio : ℝ

variable {n nc : ℕ}

/-- The constructor (hiopAlgPrimalDecomp.cpp:206-240).  The vectors are allocated but not set; `initialize`
sets the two that are read before being written, so zero stands for them here. -/
noncomputable def HA.new (nc : ℕ) (ratio : ℝ) : HA nc :=
  { alpha := 1e6, ratio := ratio, fk := 1e20, fkm1 := 1e20, fkm1Lin := 1e20,
    xkm1 := 0, gkm1 := 0, skm1 := 0, ykm1 := 0 }

/-- `initialize`, hiopAlgPrimalDecomp.cpp:278-303; the vectors exist since construction. -/
def HA.initialize (h : HA nc) (f : ℝ) (x g : RVec ℝ nc) : HA nc := { h with fk := f, xkm1 := x, gkm1 := g }

/-- `update_hess_coeff`, hiopAlgPrimalDecomp.cpp:306-328. -/
noncomputable def HA.update (h : HA nc) (xk gk : RVec ℝ nc) (f : ℝ) : HA nc :=
  let s := axpy xk (-1) h.xkm1
  let y := axpy gk (-1) h.gkm1
  { h with
    fkm1 := h.fk, fk := f, skm1 := s, ykm1 := y, xkm1 := xk, fkm1Lin := dot h.gkm1 s, gkm1 := gk }

/-- `twonorm`, hiopVectorPar.cpp:463-478 (one rank). -/
noncomputable def twonorm (v : RVec ℝ nc) : ℝ := Real.sqrt (dot v v)

/-- The value of the previous recourse approximation at the current point, as the code computes it
(hiopAlgPrimalDecomp.cpp:392-394 and :526-527). -/
noncomputable def HA.recAppx (h : HA nc) : ℝ :=
  h.fkm1 + h.fkm1Lin + 0.5 * h.alpha * twonorm h.skm1 * twonorm h.skm1

/-- `compute_base`, hiopAlgPrimalDecomp.cpp:523-529. -/
noncomputable def HA.computeBase (h : HA nc) (val : ℝ) : ℝ := val - h.recAppx

/-- `num/den < c` for doubles: division by (positive) zero gives an infinity or not-a-number. -/
noncomputable def quotLt (num den c : ℝ) : Bool := if den = 0 then num < 0 else num / den < c

/-- `num/den > c` for doubles. -/
noncomputable def quotGt (num den c : ℝ) : Bool := if den = 0 then num > 0 else num / den > c

/-- `update_ratio(base_v, base_vm1)` with the two-argument `update_ratio_tr`,
hiopAlgPrimalDecomp.cpp:389-435; the bounds are hiopAlgPrimalDecomp.hpp:368-369. -/
noncomputable def HA.updateRatio (h : HA nc) (bv bvm1 : ℝ) : HA nc :=
  let num := bvm1 + h.fkm1 - h.fk - bv
  let den := h.fkm1 + bvm1 - h.recAppx - bv
  let r := if quotLt num den (1 / 4) then h.ratio / 0.75
    else if quotGt num den 0.75 then h.ratio * 0.75 else h.ratio
  { h with ratio := min 5 (max 0.5 r) }

/-- `get_alpha_f`, hiopAlgPrimalDecomp.cpp:452-466.  For `fk = 0` the quotient is infinite or
not-a-number, and `std::max`, `std::min` then give `alpha_max` or `alpha_min`. -/
noncomputable def HA.getAlphaF (o : PDOpts) (h : HA nc) (gk : RVec ℝ nc) : HA nc :=
  let t := twonorm gk * twonorm gk
  let a := if h.fk = 0 then (if 0 < t ∧ 0 < h.ratio then o.alphaMax else o.alphaMin)
    else t / 2.0 / h.fk * h.ratio
  { h with alpha := min o.alphaMax (max o.alphaMin a) }

/-- `check_convergence_grad`, hiopAlgPrimalDecomp.cpp:478-506: numerator and denominator. -/
noncomputable def HA.checkGrad (h : HA nc) (gk : RVec ℝ nc) : ℝ × ℝ :=
  (twonorm (axpy (scale h.skm1 (-h.alpha)) 1 h.ykm1), twonorm gk)

/-- `check_convergence_fcn`, hiopAlgPrimalDecomp.cpp:509-521. -/
noncomputable def HA.checkFcn (h : HA nc) (bv bvm1 : ℝ) : ℝ :=
  |h.fkm1Lin + 0.5 * h.alpha * twonorm h.skm1 * twonorm h.skm1 + (bv - bvm1)|

/-- `std::min(convg_f, convg_g)`, hiopAlgPrimalDecomp.cpp:1936; when the gradient is zero `convg_g` is
infinite or not-a-number and the result is `convg_f`. -/
noncomputable def minConvg (cf : ℝ) (cg : ℝ × ℝ) : ℝ :=
  if cg.2 = 0 then cf else if cg.1 / cg.2 < cf then cg.1 / cg.2 else cf

/-- The user's problem. -/
structure Prob (n nc : ℕ) where
  S : ℕ
  rf : ℕ → RVec ℝ nc → ℝ
  rg : ℕ → RVec ℝ nc → RVec ℝ nc
  idx : Fin nc → Fin n
  solve : ℕ → RVec ℝ n → Option (Rec ℝ n nc) → RVec ℝ n × ℝ × ℤ

/-- The coupled part of `x` (hiopAlgPrimalDecomp.cpp:1870-1876): with `nc < n` it is gathered by the index
list, otherwise `x` is copied as it is and the index list is not used. -/
def coupled (E : Prob n nc) (x : RVec ℝ n) : RVec ℝ nc :=
  if nc < n then gather x E.idx else fun i => if h : i.val < n then x ⟨i, h⟩ else 0

/-- The averages (hiopAlgPrimalDecomp.cpp:1877-1900). -/
noncomputable def avgVal (E : Prob n nc) (x0 : RVec ℝ nc) : ℝ :=
  ((List.range E.S).foldl (fun a (i : ℕ) => a + E.rf i x0) 0) / E.S

/-- The averages (hiopAlgPrimalDecomp.cpp:1877-1900). -/
noncomputable def avgGrad (E : Prob n nc) (x0 : RVec ℝ nc) : RVec ℝ nc :=
  scale ((List.range E.S).foldl (fun a (i : ℕ) => axpy a 1 (E.rg i x0)) 0) (1 / E.S)

/-- State of the outer loop after an iteration.  `recd` is what the evaluator holds. -/
structure LS (n nc : ℕ) where
  x : RVec ℝ n
  obj : ℝ
  status : ℤ
  solves : ℕ
  ha : HA nc
  base : ℝ
  basem1 : ℝ
  convg : ℝ
  accp : ℕ
  recd : Option (Rec ℝ n nc)

/-- Before the recourse terms of iteration 0: `x` is zero, the basecase is solved
(hiopAlgPrimalDecomp.cpp:1808, :1846-1857). -/
noncomputable def start (E : Prob n nc) (o : PDOpts) : LS n nc :=
  let q := E.solve 0 0 none
  { x := q.1, obj := q.2.1, status := q.2.2, solves := 1, ha := HA.new nc o.alphaRatio,
    base := q.2.1, basem1 := q.2.1, convg := 1e20, accp := 0, recd := none }

/-- The rest of iteration `it` (hiopAlgPrimalDecomp.cpp:1859-1979). -/
noncomputable def body (E : Prob n nc) (o : PDOpts) (it : ℕ) (s : LS n nc) : LS n nc :=
  let x0 := coupled E s.x
  let rval := avgVal E x0
  let g := avgGrad E x0
  let h0 := if it = 0 then s.ha.initialize rval x0 g else s.ha.update x0 g rval
  let bm1 := if it = 0 then s.basem1 else s.base
  let b := if it = 0 then s.base else h0.computeBase s.obj
  let h1 := if it = 0 then h0 else h0.updateRatio b bm1
  let h2 := h1.getAlphaF o g
  let convg := if it = 0 then s.convg else minConvg (h2.checkFcn b bm1) (h2.checkGrad g)
  let e : Rec ℝ n nc := { rval := rval, rgrad := g, rhess := fun _ => h2.alpha, x0 := x0, idx := E.idx }
  let q := E.solve s.solves s.x (some e)
  { x := q.1, obj := q.2.1, status := q.2.2, solves := s.solves + 1, ha := h2, base := b, basem1 := bm1,
    convg := convg, accp := if convg ≤ o.accpTol then s.accp + 1 else 0, recd := some e }

/-- `stopping_criteria`, hiopAlgPrimalDecomp.cpp:704-724. -/
noncomputable def stopping (o : PDOpts) (it : ℕ) (s : LS n nc) : Bool :=
  if s.convg < o.tol then true
  else if it + 1 = o.maxIter then true
  else if s.accp = o.accpCount then true
  else false

/-- The loop from iteration `it` with `fuel = max_iter_ - it`; returns the final state and `it_`. -/
noncomputable def loop (E : Prob n nc) (o : PDOpts) : ℕ → ℕ → LS n nc → LS n nc × ℕ
  | 0, it, s => (s, it - 1)
  | fuel + 1, it, s =>
    let s' := body E o it s
    if stopping o it s' then (s', it) else loop E o fuel (it + 1) s'

/-- `run_single`, hiopAlgPrimalDecomp.cpp:1804-1991: final state, iteration counter and returned status. -/
noncomputable def runSingle (E : Prob n nc) (o : PDOpts) : LS n nc × ℕ × ℤ :=
  let r := loop E o o.maxIter 0 (start E o)
  (r.1, r.2, 0)

/-- The status `run` returns on rank 0 (hiopAlgPrimalDecomp.cpp:1257-1261): that of the last master
solve. -/
noncomputable def runStatus (E : Prob n nc) (o : PDOpts) : ℤ := (runSingle E o).1.status

end Hiop.PriDec
