import Verif.Vec.Model
import Verif.Iterate.Model
import Verif.Kkt.Model
import Verif.Barrier.Model
import Verif.Mpi.Model
import Verif.QN.Model
import Mathlib.Algebra.BigOperators.Fin
import Mathlib.Analysis.SpecialFunctions.Sqrt
import Mathlib.Analysis.SpecialFunctions.Log.Basic

/-!
# Model of the compound vector `hiopVectorCompoundPD`

Source: `src/LinAlg/hiopVectorCompoundPD.cpp`. The object is an array of vectors (`vectors_`),
the number of parts the loops run over (`n_parts_`) and a total size (`n_`). The vectors are
those of `Verif.Vec.Model` (exact arithmetic, one rank).

The array `vectors_` has `p` entries with sizes `sz 0, ..., sz (p-1)`. Two compound vectors used
in one operation have the same list of sizes; the code asserts this part by part inside the
kernels of the parts, so a disagreement there is outside the model. `n_parts_` is kept apart
from `p` because `addVector` changes one and not the other.

Every loop is `for i < n_parts_` and touches `vectors_[i]`. An entry with `i ≥ n_parts_` is not
touched. When `n_parts_ > p` the code would read past the array: the model only has the entries
that exist and the properties are stated for `n_parts_ ≤ p`.
-/

namespace Hiop.Compound

open Hiop.Vec

variable {K : Type*} {p : ℕ} {sz : Fin p → ℕ}

/-- The members of `hiopVectorCompoundPD`, hiopVectorCompoundPD.hpp:327-330: `n` is the inherited
`n_`. -/
structure Comp (K : Type*) (p : ℕ) (sz : Fin p → ℕ) where
  parts : (i : Fin p) → RVec K (sz i)
  nparts : ℕ
  n : ℕ

/-- The loop `for(i = 0; i < n_parts_; i++) vectors_[i]->f(...)` of every operation that changes
the vector, e.g. hiopVectorCompoundPD.cpp:258-263. -/
def loopParts (c : Comp K p sz) (f : (i : Fin p) → RVec K (sz i) → RVec K (sz i)) :
    Comp K p sz :=
  { c with parts := fun i => if (i : ℕ) < c.nparts then f i (c.parts i) else c.parts i }

/-- The loop `for(i = 0; i < n_parts_; i++) acc = g(acc, vectors_[i])` of every operation that
returns a number, e.g. hiopVectorCompoundPD.cpp:450-461. -/
def foldParts {β : Type*} (c : Comp K p sz) (g : β → (i : Fin p) → β) (b : β) : β :=
  ((List.finRange p).filter fun i : Fin p => decide (i.val < c.nparts)).foldl g b

/-! ## Construction -/

/-- `hiopVectorCompoundPD(bool)`, hiopVectorCompoundPD.cpp:69-74. -/
def emptyComp (K : Type*) : Comp K 0 Fin.elim0 := ⟨fun i => i.elim0, 0, 0⟩

/-- `addVector`, hiopVectorCompoundPD.cpp:1013-1017: the vector is appended to the array and its
size added to `n_`; `n_parts_` is left as it is. -/
def addVector {m : ℕ} (c : Comp K p sz) (v : RVec K m) :
    Comp K (p + 1) (Fin.snoc (α := fun _ => ℕ) sz m) where
  parts := fun i =>
    if h : (i : ℕ) < p then
      fun k => c.parts ⟨i, h⟩ (k.cast (by simp [Fin.snoc, h]; rfl))
    else fun k => v (k.cast (by simp [Fin.snoc, h]))
  nparts := c.nparts
  n := c.n + m

/-- The sizes of the twelve parts, in the order of hiopVectorCompoundPD.cpp:104-150. -/
def sizes (n mc m : ℕ) : Fin 12 → ℕ := ![n, m, mc, m, n, n, m, m, n, n, m, m]

/-- Sizes summed by the constructors, hiopVectorCompoundPD.cpp:101-150 and 157-206. -/
def totalSize (n mc m : ℕ) : ℕ := n + m + mc + m + n + n + m + m + n + n + m + m

/-- `hiopVectorCompoundPD(const hiopIterate*)`, hiopVectorCompoundPD.cpp:99-153. The object points
to the vectors of the iterate; the values seen through it are those of the iterate. -/
def ofIterate {n mc m : ℕ} (it : Iterate.It K n mc m) : Comp K 12 (sizes n mc m) where
  parts := fun i => match i with
    | 0 => it.x | 1 => it.d | 2 => it.yc | 3 => it.yd
    | 4 => it.sxl | 5 => it.sxu | 6 => it.sdl | 7 => it.sdu
    | 8 => it.zl | 9 => it.zu | 10 => it.vl | 11 => it.vu
  nparts := 12
  n := totalSize n mc m

/-- `hiopVectorCompoundPD(const hiopResidual*)`, hiopVectorCompoundPD.cpp:155-209. -/
def ofResid {n mc m : ℕ} (r : Kkt.Resid K n mc m) : Comp K 12 (sizes n mc m) where
  parts := fun i => match i with
    | 0 => r.rx | 1 => r.rd | 2 => r.ryc | 3 => r.ryd
    | 4 => r.rxl | 5 => r.rxu | 6 => r.rdl | 7 => r.rdu
    | 8 => r.rszl | 9 => r.rszu | 10 => r.rsvl | 11 => r.rsvu
  nparts := 12
  n := totalSize n mc m

/-- The copy constructor and `alloc_clone`, hiopVectorCompoundPD.cpp:88-97, 211-216: as many parts
as `n_parts_` of the same sizes, whose values `junk` are not set. The vector cloned has
`n_parts_ = p` here: a copy has no entries past `n_parts_`. -/
def allocClone (c : Comp K p sz) (junk : (i : Fin p) → RVec K (sz i)) : Comp K p sz :=
  ⟨junk, c.nparts, c.n⟩

/-! ## Operations that change the vector -/

/-- `copyFrom`, hiopVectorCompoundPD.cpp:288-295. -/
def copyFrom (c v : Comp K p sz) : Option (Comp K p sz) :=
  if c.nparts = v.nparts then some (loopParts c fun i _ => v.parts i) else none

/-- `new_copy`, hiopVectorCompoundPD.cpp:218-224. -/
def newCopy (c : Comp K p sz) (junk : (i : Fin p) → RVec K (sz i)) : Option (Comp K p sz) :=
  copyFrom (allocClone c junk) c

/-- `copy_from_resid`, hiopVectorCompoundPD.cpp:226-240: the twelve entries are written whatever
`n_parts_` is. -/
def copyFromResid {n mc m : ℕ} (c : Comp K 12 (sizes n mc m)) (r : Kkt.Resid K n mc m) :
    Comp K 12 (sizes n mc m) :=
  { c with parts := fun i => match i with
      | 0 => r.rx | 1 => r.rd | 2 => r.ryc | 3 => r.ryd
      | 4 => r.rxl | 5 => r.rxu | 6 => r.rdl | 7 => r.rdu
      | 8 => r.rszl | 9 => r.rszu | 10 => r.rsvl | 11 => r.rsvu }

/-- `copy_from_iterate`, hiopVectorCompoundPD.cpp:242-256. -/
def copyFromIterate {n mc m : ℕ} (c : Comp K 12 (sizes n mc m)) (it : Iterate.It K n mc m) :
    Comp K 12 (sizes n mc m) :=
  { c with parts := fun i => match i with
      | 0 => it.x | 1 => it.d | 2 => it.yc | 3 => it.yd
      | 4 => it.sxl | 5 => it.sxu | 6 => it.sdl | 7 => it.sdu
      | 8 => it.zl | 9 => it.zu | 10 => it.vl | 11 => it.vu }

section Ops
variable [Field K] [LinearOrder K]

/-- `setToConstant`, hiopVectorCompoundPD.cpp:265-270; `setToZero` (258-263) is the constant 0. -/
def setToConstant (c : Comp K p sz) (a : K) : Comp K p sz := loopParts c fun _ _ _ => a

/-- `setToConstant_w_patternSelect`, hiopVectorCompoundPD.cpp:279-286. -/
def setToConstantSel (c s : Comp K p sz) (a : K) : Option (Comp K p sz) :=
  if c.nparts = s.nparts then
    some (loopParts c fun i _ => Vec.setToConstantSel a (s.parts i))
  else none

/-- `copy_from_w_pattern`, hiopVectorCompoundPD.cpp:313-324: the assertions compare the total sizes. -/
def copyFromSel (c v s : Comp K p sz) : Option (Comp K p sz) :=
  if c.n = s.n ∧ c.n = v.n then
    some (loopParts c fun i y => Vec.copyFromSel y (v.parts i) (s.parts i))
  else none

/-- `componentMult`, hiopVectorCompoundPD.cpp:505-513. -/
def componentMult (c v : Comp K p sz) : Option (Comp K p sz) :=
  if c.nparts = v.nparts then
    some (loopParts c fun i y => Vec.componentMult y (v.parts i))
  else none

/-- `componentDiv`, hiopVectorCompoundPD.cpp:515-523. -/
def componentDiv (c v : Comp K p sz) : Option (Comp K p sz) :=
  if c.nparts = v.nparts then
    some (loopParts c fun i y => Vec.componentDiv y (v.parts i))
  else none

/-- `componentDiv_w_selectPattern`, hiopVectorCompoundPD.cpp:525-535. -/
def componentDivSel (c v s : Comp K p sz) : Option (Comp K p sz) :=
  if c.nparts = v.nparts ∧ c.nparts = s.nparts then
    some (loopParts c fun i y => Vec.componentDivSel y (v.parts i) (s.parts i))
  else none

/-- `component_min(constant)`, hiopVectorCompoundPD.cpp:537-542. -/
def componentMinC (c : Comp K p sz) (a : K) : Comp K p sz :=
  loopParts c fun _ y => Vec.componentMinC y a

/-- `component_min(vector)`, hiopVectorCompoundPD.cpp:544-551. -/
def componentMin (c v : Comp K p sz) : Option (Comp K p sz) :=
  if c.nparts = v.nparts then
    some (loopParts c fun i y => Vec.componentMin y (v.parts i))
  else none

/-- `component_max(constant)`, hiopVectorCompoundPD.cpp:553-558. -/
def componentMaxC (c : Comp K p sz) (a : K) : Comp K p sz :=
  loopParts c fun _ y => Vec.componentMaxC y a

/-- `component_max(vector)`, hiopVectorCompoundPD.cpp:560-567. -/
def componentMax (c v : Comp K p sz) : Option (Comp K p sz) :=
  if c.nparts = v.nparts then
    some (loopParts c fun i y => Vec.componentMax y (v.parts i))
  else none

/-- `component_abs`, hiopVectorCompoundPD.cpp:569-574. -/
def componentAbs (c : Comp K p sz) : Comp K p sz :=
  loopParts c fun _ y => Vec.componentAbs y

/-- `component_sgn`, hiopVectorCompoundPD.cpp:576-581. -/
def componentSgn (c : Comp K p sz) : Comp K p sz :=
  loopParts c fun _ y => Vec.componentSgn y

/-- `scale`, hiopVectorCompoundPD.cpp:590-595. -/
def scale (c : Comp K p sz) (a : K) : Comp K p sz :=
  loopParts c fun _ y => Vec.scale y a

/-- `axpy`, hiopVectorCompoundPD.cpp:597-604. -/
def axpy (c v : Comp K p sz) (a : K) : Option (Comp K p sz) :=
  if c.nparts = v.nparts then
    some (loopParts c fun i y => Vec.axpy y a (v.parts i))
  else none

/-- `axpy_w_pattern`, hiopVectorCompoundPD.cpp:618-626: the parts of the selection are not compared. -/
def axpySel (c v s : Comp K p sz) (a : K) : Option (Comp K p sz) :=
  if c.nparts = v.nparts then
    some (loopParts c fun i y => Vec.axpySel y a (v.parts i) (s.parts i))
  else none

/-- `axzpy`, hiopVectorCompoundPD.cpp:628-636. -/
def axzpy (c x z : Comp K p sz) (a : K) : Option (Comp K p sz) :=
  if c.nparts = x.nparts then
    some (loopParts c fun i y => Vec.axzpy y a (x.parts i) (z.parts i))
  else none

/-- `axdzpy`, hiopVectorCompoundPD.cpp:638-647: `alpha==0.` returns before the assertion. -/
def axdzpy (c x z : Comp K p sz) (a : K) : Option (Comp K p sz) :=
  if a = 0 then some c
  else if c.nparts = x.nparts then
    some (loopParts c fun i y => Vec.axdzpy y a (x.parts i) (z.parts i))
  else none

/-- `axdzpy_w_pattern`, hiopVectorCompoundPD.cpp:649-658. -/
def axdzpySel (c x z s : Comp K p sz) (a : K) : Option (Comp K p sz) :=
  if c.nparts = x.nparts then
    some (loopParts c fun i y => Vec.axdzpySel y a (x.parts i) (z.parts i) (s.parts i))
  else none

/-- `addConstant`, hiopVectorCompoundPD.cpp:660-665. -/
def addConstant (c : Comp K p sz) (a : K) : Comp K p sz :=
  loopParts c fun _ y => Vec.addConstant y a

/-- `addConstant_w_patternSelect`, hiopVectorCompoundPD.cpp:667-674. -/
def addConstantSel (c s : Comp K p sz) (a : K) : Option (Comp K p sz) :=
  if c.nparts = s.nparts then
    some (loopParts c fun i y => Vec.addConstantSel y a (s.parts i))
  else none

/-- `negate`, hiopVectorCompoundPD.cpp:704-709. -/
def negate (c : Comp K p sz) : Comp K p sz :=
  loopParts c fun _ y => Vec.negate y

/-- `addLogBarrierGrad`, hiopVectorCompoundPD.cpp:740-748: both `ix` and `x` are the argument `select`; the argument
`vx` is not used. -/
def addLogBarrierGrad (c _vx s : Comp K p sz) (a : K) : Option (Comp K p sz) :=
  if c.nparts = s.nparts then
    some (loopParts c fun i y => Vec.addLogBarrierGrad y a (s.parts i) (s.parts i))
  else none

/-- `addLinearDampingTerm`, hiopVectorCompoundPD.cpp:766-779. -/
def addLinearDampingTerm (c l r : Comp K p sz) (a ct : K) : Option (Comp K p sz) :=
  if c.nparts = l.nparts ∧ c.nparts = r.nparts then
    some (loopParts c fun i y => Vec.addLinearDampingTerm y (l.parts i) (r.parts i) a ct)
  else none

/-- `selectPattern`, hiopVectorCompoundPD.cpp:850-858. -/
def selectPattern (c s : Comp K p sz) : Option (Comp K p sz) :=
  if c.nparts = s.nparts then
    some (loopParts c fun i y => Vec.selectPattern y (s.parts i))
  else none

/-- `adjustDuals_plh`, hiopVectorCompoundPD.cpp:890-903. -/
def adjustDualsPlh (c x s : Comp K p sz) (mu kappa : K) : Option (Comp K p sz) :=
  if c.nparts = x.nparts ∧ c.nparts = s.nparts then
    some (loopParts c fun i y => Vec.adjustDualsPlh y (x.parts i) (s.parts i) mu kappa)
  else none

/-- `projectIntoBounds_local`, hiopVectorCompoundPD.cpp:793-813: the values returned by the parts are
dropped and `true` is returned. A part whose projection fails is left as its kernel leaves it. -/
def projectIntoBounds (c xl ixl xu ixu : Comp K p sz) (small k1 k2 : K) :
    Option (Bool × Comp K p sz) :=
  if c.nparts = xl.nparts ∧ c.nparts = ixl.nparts ∧ c.nparts = xu.nparts ∧ c.nparts = ixu.nparts
  then some (true, loopParts c fun i y =>
    (Vec.projectIntoBounds small k1 k2 y (xl.parts i) (ixl.parts i) (xu.parts i) (ixu.parts i)).2)
  else none

/-! ## Operations that return a value -/

/-- `dotProductWith`, hiopVectorCompoundPD.cpp:450-461. -/
def dot (c v : Comp K p sz) : Option K :=
  if c.nparts = v.nparts then
    some (foldParts c (fun t i => t + Vec.dot (c.parts i) (v.parts i)) 0)
  else none

/-- `infnorm` and `infnorm_local`, hiopVectorCompoundPD.cpp:463-483. -/
def infnorm (c : Comp K p sz) : K :=
  foldParts c (fun t i => if t > Vec.infnorm (c.parts i) then t else Vec.infnorm (c.parts i)) 0

/-- `onenorm` and `onenorm_local`, hiopVectorCompoundPD.cpp:485-503. -/
def onenorm (c : Comp K p sz) : K :=
  foldParts c (fun t i => t + Vec.onenorm (c.parts i)) 0

/-- `min`, hiopVectorCompoundPD.cpp:676-684. -/
def minAll (c : Comp K p sz) (dblMax : K) : K :=
  foldParts c (fun t i => if t < Vec.minAll dblMax (c.parts i) then t else Vec.minAll dblMax (c.parts i)) dblMax

/-- `min_w_pattern`, hiopVectorCompoundPD.cpp:686-697. -/
def minSel (c s : Comp K p sz) (dblMax : K) : Option K :=
  if c.nparts = s.nparts then
    some (foldParts c (fun t i => if t < Vec.minSel dblMax (c.parts i) (s.parts i) then t
      else Vec.minSel dblMax (c.parts i) (s.parts i)) dblMax)
  else none

/-- `sum_local`, hiopVectorCompoundPD.cpp:730-737. -/
def sumLocal (c : Comp K p sz) : K :=
  foldParts c (fun t i => t + Vec.sumLocal (c.parts i)) 0

/-- `linearDampingTerm_local`, hiopVectorCompoundPD.cpp:750-764. -/
def linearDampingTermLocal (c l r : Comp K p sz) (mu kappad : K) : Option K :=
  if c.nparts = l.nparts ∧ c.nparts = r.nparts then
    some (foldParts c (fun t i => t + Vec.linearDampingTermLocal (c.parts i) (l.parts i) (r.parts i) mu kappad) 0)
  else none

/-- `allPositive`, hiopVectorCompoundPD.cpp:781-791 (the `break` is dropped: the flag stays false). -/
def allPositive (c : Comp K p sz) : Bool :=
  foldParts c (fun t i => if !Vec.allPositive (c.parts i) then false else t) true

/-- `fractionToTheBdry_local`, hiopVectorCompoundPD.cpp:816-829. -/
def fractionToBdry (c d : Comp K p sz) (tau : K) : Option K :=
  if c.nparts = d.nparts then
    some (foldParts c (fun t i => if Vec.fractionToBdry (c.parts i) (d.parts i) tau < t
      then Vec.fractionToBdry (c.parts i) (d.parts i) tau else t) 1)
  else none

/-- `fractionToTheBdry_w_pattern_local`, hiopVectorCompoundPD.cpp:832-848. -/
def fractionToBdrySel (c d s : Comp K p sz) (tau : K) : Option K :=
  if c.nparts = d.nparts ∧ c.nparts = s.nparts then
    some (foldParts c (fun t i => if Vec.fractionToBdrySel (c.parts i) (d.parts i) tau (s.parts i) < t
      then Vec.fractionToBdrySel (c.parts i) (d.parts i) tau (s.parts i) else t) 1)
  else none

/-- `matchesPattern`, hiopVectorCompoundPD.cpp:860-873. -/
def matchesPattern (c s : Comp K p sz) : Option Bool :=
  if c.nparts = s.nparts then
    some (foldParts c (fun t i => if !Vec.matchesPattern (c.parts i) (s.parts i) then false else t) true)
  else none

/-- `allPositive_w_patternSelect`, hiopVectorCompoundPD.cpp:875-888. -/
def allPositiveSel (c s : Comp K p sz) : Option Bool :=
  if c.nparts = s.nparts then
    some (foldParts c (fun t i => if !Vec.allPositiveSel (c.parts i) (s.parts i) then false else t) true)
  else none

/-- `is_zero`, hiopVectorCompoundPD.cpp:905-915. -/
def isZero (c : Comp K p sz) : Bool :=
  foldParts c (fun t i => if !Mpi.isZero (c.parts i) then false else t) true

/-- `numOfElemsLessThan`, hiopVectorCompoundPD.cpp:972-979. -/
def numLessThan (c : Comp K p sz) (v : K) : ℕ :=
  foldParts c (fun t i => t + Vec.numLessThan (c.parts i) v) 0

/-- `numOfElemsAbsLessThan`, hiopVectorCompoundPD.cpp:981-989. -/
def numAbsLessThan (c : Comp K p sz) (v : K) : ℕ :=
  foldParts c (fun t i => t + Vec.numAbsLessThan (c.parts i) v) 0

end Ops

/-- `logBarrier_local`, hiopVectorCompoundPD.cpp:719-728. -/
noncomputable def logBarrierLocal (c s : Comp ℝ p sz) : Option ℝ :=
  if c.nparts = s.nparts then
    some (foldParts c (fun t i => t + Barrier.logBarrierLocal (c.parts i) (s.parts i)) 0)
  else none

/-- `twonorm`, hiopVectorCompoundPD.cpp:438-448. -/
noncomputable def twonorm (c : Comp ℝ p sz) : ℝ :=
  Real.sqrt (foldParts c (fun t i => t + QN.twonorm (c.parts i) * QN.twonorm (c.parts i)) 0)

end Hiop.Compound
