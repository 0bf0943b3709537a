import Verif.Iterate.Model
import Mathlib.Analysis.SpecialFunctions.Log.Basic

/-!
# Model of the log-barrier problem

Source: `src/Optimization/hiopLogBarProblem.hpp`, `hiopIterate.cpp:523-588`,
`hiopVectorPar.cpp:863-881`. Over `ℝ`, one MPI rank.
-/

namespace Hiop.Barrier

open Hiop.Vec Hiop.Iterate

variable {n mc m : ℕ}

/-- `logBarrier_local`, hiopVectorPar.cpp:863-881: the loop carries the compensated sum
`(sum, comp)`. -/
noncomputable def logBarrierLocal (x sel : RVec ℝ n) : ℝ :=
  ((List.finRange n).foldl
    (fun (s : ℝ × ℝ) i =>
      if sel i = 1 then
        let y := Real.log (x i) - s.2
        let t := s.1 + y
        (t, (t - s.1) - y)
      else s) (0, 0)).1

/-- `evalLogBarrier`, hiopIterate.cpp:523-537. -/
noncomputable def evalLogBarrier (b : Bounds ℝ n m) (it : It ℝ n mc m) : ℝ :=
  logBarrierLocal it.sxl b.ixl + logBarrierLocal it.sxu b.ixu
    + logBarrierLocal it.sdl b.idl + logBarrierLocal it.sdu b.idu

/-- `addLogBarGrad_x`, hiopIterate.cpp:539-544. -/
noncomputable def addLogBarGradX (b : Bounds ℝ n m) (it : It ℝ n mc m) (mu : ℝ) (g : RVec ℝ n) :
    RVec ℝ n :=
  addLogBarrierGrad (addLogBarrierGrad g (-mu) it.sxl b.ixl) mu it.sxu b.ixu

/-- `addLogBarGrad_d`, hiopIterate.cpp:546-550. -/
noncomputable def addLogBarGradD (b : Bounds ℝ n m) (it : It ℝ n mc m) (mu : ℝ) (g : RVec ℝ m) :
    RVec ℝ m :=
  addLogBarrierGrad (addLogBarrierGrad g (-mu) it.sdl b.idl) mu it.sdu b.idu

/-- `linearDampingTerm`, hiopIterate.cpp:552-566. -/
noncomputable def linearDampingTerm (b : Bounds ℝ n m) (it : It ℝ n mc m) (mu kappad : ℝ) : ℝ :=
  linearDampingTermLocal it.sxl b.ixl b.ixu mu kappad
    + linearDampingTermLocal it.sxu b.ixu b.ixl mu kappad
    + linearDampingTermLocal it.sdl b.idl b.idu mu kappad
    + linearDampingTermLocal it.sdu b.idu b.idl mu kappad

/-- `addLinearDampingTermToGrad_x`, hiopIterate.cpp:568-577. -/
noncomputable def addLinearDampingTermToGradX (b : Bounds ℝ n m) (mu kappad beta : ℝ)
    (g : RVec ℝ n) : RVec ℝ n :=
  addLinearDampingTerm g b.ixl b.ixu 1 (kappad * mu * beta)

/-- `addLinearDampingTermToGrad_d`, hiopIterate.cpp:579-588. -/
noncomputable def addLinearDampingTermToGradD (b : Bounds ℝ n m) (mu kappad beta : ℝ)
    (g : RVec ℝ m) : RVec ℝ m :=
  addLinearDampingTerm g b.idl b.idu 1 (kappad * mu * beta)

/-- The members of `hiopLogBarProblem` that are computed: `f_logbar`, `_grad_x_logbar`,
`_grad_d_logbar`. Code: hiopLogBarProblem.hpp:61-62. -/
structure LogBar (n m : ℕ) where
  f : ℝ
  gx : RVec ℝ n
  gd : RVec ℝ m

/-- `updateWithNlpInfo`, hiopLogBarProblem.hpp:84-120; `f`, `gradf` are the objective value and
gradient. -/
noncomputable def updateWithNlpInfo (b : Bounds ℝ n m) (it : It ℝ n mc m) (mu kappad f : ℝ)
    (gradf : RVec ℝ n) : LogBar n m :=
  let gx := gradf
  let gd : RVec ℝ m := fun _ => 0
  let aux := -mu * evalLogBarrier b it
  let flb := f + aux
  let gx := addLogBarGradX b it mu gx
  let gd := addLogBarGradD b it mu gd
  if kappad > 0 then
    { f := flb + linearDampingTerm b it mu kappad
      gx := addLinearDampingTermToGradX b mu kappad 1 gx
      gd := addLinearDampingTermToGradD b mu kappad 1 gd }
  else { f := flb, gx := gx, gd := gd }

/-- `updateWithNlpInfo_trial_funcOnly`, hiopLogBarProblem.hpp:122-133: `f_logbar_trial`. -/
noncomputable def trialFuncOnly (b : Bounds ℝ n m) (it : It ℝ n mc m) (mu kappad f : ℝ) : ℝ :=
  let v := f - mu * evalLogBarrier b it
  if kappad > 0 then v + linearDampingTerm b it mu kappad else v

/-- `addNonLogBarTermsToGrad_x`, hiopLogBarProblem.hpp:135-139. -/
noncomputable def addNonLogBarTermsToGradX (b : Bounds ℝ n m) (mu kappad beta : ℝ)
    (g : RVec ℝ n) : RVec ℝ n :=
  if kappad > 0 then addLinearDampingTermToGradX b mu kappad beta g else g

/-- `addNonLogBarTermsToGrad_d`, hiopLogBarProblem.hpp:141-146. -/
noncomputable def addNonLogBarTermsToGradD (b : Bounds ℝ n m) (mu kappad beta : ℝ)
    (g : RVec ℝ m) : RVec ℝ m :=
  if kappad > 0 then addLinearDampingTermToGradD b mu kappad beta g else g

/-- `directionalDerivative`, hiopLogBarProblem.hpp:149-156. -/
noncomputable def directionalDerivative (lb : LogBar n m) (dir : It ℝ n mc m) : ℝ :=
  dot dir.x lb.gx + dot dir.d lb.gd

end Hiop.Barrier
