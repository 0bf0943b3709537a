import Verif.Nlp.Eval
import Verif.Nlp.Remover

/-!
# What the callbacks and the getters show to the user

Source: `src/Optimization/hiopNlpFormulation.cpp` (`user_callback_solution`, `user_callback_iterate`,
`user_callback_full_iterate`, `user_force_update`, `get_dual_solutions`), `src/Optimization/hiopAlgFilterIPM.cpp`
(where they are called, `getObjective`, `getDualSolutions`).

Equality and inequality parts of constraint vectors are lists, `sp` holds the maps from these to the user's
constraints (`Verif/Nlp/Model.lean`). One rank. Step lengths, infeasibilities and the barrier parameter, handed on
unchanged, are left out. Copies from device to host memory before a call are not distinguished from handing over the
arrays themselves, except in `fullCb`, where they go wrong.
-/

namespace Hiop.Callback

open Hiop.Vec Hiop.Nlp

/-- What the formulation knows: the split of the constraints and the scaling object, if there is one: factor of the
objective, of the equalities and of the inequalities (hiopNlpFormulation.hpp, members `cons_eq_mapping_`,
`cons_ineq_mapping_`, `nlp_scaling_`). -/
structure Form (K : Type*) (m : ℕ) where
  sp : Split K m
  scal : Option (K × List K × List K)

/-- An iterate of the solver with the function values stored for it: `x`, `zl`, `zu`, `d`, `yc`, `yd` of `it_curr`;
`_c`, `_d`, `_f_nlp` (hiopAlgFilterIPM.hpp). The slacks `d` are called `s` as in the callback. -/
structure Point (K : Type*) (n : ℕ) where
  x : RVec K n
  zl : RVec K n
  zu : RVec K n
  s : List K
  yc : List K
  yd : List K
  c : List K
  d : List K
  f : K

/-- The arguments of `iterate_callback` (of `solution_callback`: without the slacks),
src/Interface/hiopInterface.hpp:401-409, 446-464; `n` and `m` are the lengths. -/
structure View (K : Type*) (n m : ℕ) where
  x : RVec K n
  zl : RVec K n
  zu : RVec K n
  s : List K
  g : RVec K m
  lam : RVec K m
  obj : K

variable {K : Type*} [Field K] {n m : ℕ}

/-- `get_obj_scale`, hiopNlpFormulation.cpp:1395-1401. -/
def Form.objScale (F : Form K m) : K :=
  match F.scal with
  | none => 1
  | some q => q.1

/-- Componentwise quotient (`componentDiv`), used by `apply_inv_to_cons_eq` and `apply_inv_to_cons_ineq` of the
scaling, hiopNlpTransforms.hpp:405-436. -/
def divL (a b : List K) : List K := List.zipWith (· / ·) a b

/-- `user_callback_iterate`, hiopNlpFormulation.cpp:1165-1272; `bl`, `bg` are the earlier contents of
`cons_lambdas_` and `cons_body_`. `none`: a failed assertion in the merge. -/
def iterCb (F : Form K m) (bl bg : RVec K m) (P : Point K n) : Option (View K n m) :=
  (copyFromTwo bl P.yc F.sp.eqMap P.yd F.sp.ineqMap).bind fun lam =>
    (copyFromTwo bg P.c F.sp.eqMap P.d F.sp.ineqMap).map fun g =>
      ⟨P.x, P.zl, P.zu, P.s, g, lam, P.f / F.objScale⟩

/-- The iterate as `user_callback_solution` leaves it when there is a scaling: multipliers and constraint values are
changed in place, hiopNlpFormulation.cpp:1097-1107, 1114-1118. -/
def unscaleInPlace (q : K × List K × List K) (P : Point K n) : Point K n :=
  { P with
    yc := (mulL P.yc q.2.1).map (q.1 * ·)
    yd := (mulL P.yd q.2.2).map (q.1 * ·)
    zl := fun i => q.1 * P.zl i
    zu := fun i => q.1 * P.zu i
    c := divL P.c q.2.1
    d := divL P.d q.2.2 }

/-- `user_callback_solution`, hiopNlpFormulation.cpp:1079-1163: what the user sees and the iterate afterwards. -/
def solCb (F : Form K m) (bl bg : RVec K m) (P : Point K n) : Option (View K n m × Point K n) :=
  let P' := match F.scal with
    | none => P
    | some q => unscaleInPlace q P
  (copyFromTwo bl P'.yc F.sp.eqMap P'.yd F.sp.ineqMap).bind fun lam =>
    (copyFromTwo bg P'.c F.sp.eqMap P'.d F.sp.ineqMap).map fun g =>
      (⟨P'.x, P'.zl, P'.zu, P'.s, g, lam, P'.f / F.objScale⟩, P')

/-- `getDualSolutions`, hiopAlgFilterIPM.cpp:787-799 and `get_dual_solutions`, hiopNlpFormulation.cpp:1035-1077, applied to
the iterate left by the run. `te`, `ti`: contents of `temp_eq_`, `temp_ineq_`. -/
def getDuals (F : Form K m) (te ti : List K) (bl : RVec K m) (P : Point K n) :
    Option (RVec K n × RVec K n × RVec K m) :=
  match F.scal with
  | none => dualsUnscaled P.zl P.zu P.yc P.yd F.sp bl
  | some q => dualsGetScaled q.1 q.2.1 q.2.2 te ti P.zl P.zu P.yc P.yd F.sp bl

/-- `getObjective`, hiopAlgFilterIPM.cpp:759-770: `user_obj` divides the scaling out
(hiopNlpFormulation.hpp:254-257, hiopNlpTransforms.hpp:384-389, 664-671). -/
def getObj (F : Form K m) (P : Point K n) : K :=
  match F.scal with
  | none => P.f
  | some q => P.f / q.1

/-- What happens in a run and after it: an iterate is shown; the run ends at an iterate; the user asks for the
multipliers or the objective. The contents of work vectors are free. Code: hiopNlpFormulation.cpp:1165, hiopNlpFormulation.cpp:1079, hiopAlgFilterIPM.cpp:759, hiopAlgFilterIPM.cpp:787. -/
inductive Ev (K : Type*) (n m : ℕ)
  | iterate (P : Point K n) (bl bg : RVec K m)
  | finish (P : Point K n) (bl bg : RVec K m)
  | duals (te ti : List K) (bl : RVec K m)
  | objective

/-- What the user receives. No counterpart in the code: used only to state and run the model. -/
inductive Seen (K : Type*) (n m : ℕ)
  | iterate (v : Option (View K n m))
  | solution (v : Option (View K n m))
  | duals (r : Option (RVec K n × RVec K n × RVec K m))
  | objective (f : K)

/-- One event; the state is the iterate held by the solver object. The callback of an iteration gets constant
references (hiopAlgFilterIPM.cpp:1131-1149, 2257-2275), the callback at the end does not (1507-1515, 2769-2777). -/
def step (F : Form K m) (P : Point K n) : Ev K n m → Point K n × Seen K n m
  | .iterate Q bl bg => (Q, .iterate (iterCb F bl bg Q))
  | .finish Q bl bg =>
    match solCb F bl bg Q with
    | none => (Q, .solution none)
    | some r => (r.2, .solution (some r.1))
  | .duals te ti bl => (P, .duals (getDuals F te ti bl P))
  | .objective => (P, .objective (getObj F P))

/-- A whole history. No counterpart in the code: used only to state and run the model. -/
def session (F : Form K m) : Point K n → List (Ev K n m) → List (Seen K n m)
  | _, [] => []
  | P, e :: l => (step F P e).2 :: session F (step F P e).1 l

/-! ## The callback with all parts of the iterate -/

/-- The eight arrays of `iterate_full_callback`, src/Interface/hiopInterface.hpp:488-495. `none`: an array that was
never written. -/
structure Full (K : Type*) where
  x : Option (List K)
  zl : Option (List K)
  zu : Option (List K)
  yc : Option (List K)
  yd : Option (List K)
  s : Option (List K)
  vl : Option (List K)
  vu : Option (List K)

/-- The parts of an iterate, by their names. Code: hiopIterate.hpp:182-201. -/
structure Parts (K : Type*) where
  x : List K
  zl : List K
  zu : List K
  yc : List K
  yd : List K
  s : List K
  vl : List K
  vu : List K

/-- `copy_to_vectorpar`, hiopVectorRajaImpl.hpp:266-270: an assertion on the sizes; without assertions more entries
than there is room for are written (`none`) or the rest keeps its old contents. -/
def toHost (asserts : Bool) (dst src : List K) : Option (List K) :=
  if asserts then if src.length = dst.length then some src else none
  else if src.length ≤ dst.length then some (src ++ dst.drop src.length) else none

/-- `user_callback_full_iterate`, hiopNlpFormulation.cpp:1274-1339; `copies`: callbacks on the host and the solver on
the device. `none`: a failed assertion or a write beyond the end of an array. No part of the solver calls this
function. -/
def fullCb (asserts copies : Bool) (P : Parts K) : Option (Full K) :=
  if copies then
    (toHost asserts P.zl P.vl).bind fun zl =>
      (toHost asserts P.zu P.vu).map fun zu =>
        ⟨some P.x, some zl, some zu, some P.yc, some P.yd, some P.s, none, none⟩
  else
    some ⟨some P.x, some P.zl, some P.zu, some P.yc, some P.yd, some P.s, some P.vl, some P.vu⟩

/-! ## The forced update -/

/-- How the restoration inside a restoration ends. Code: hiopNlpFormulation.cpp:1341-1365. -/
inductive Forced (K : Type*)
  | abort
  | userStopped
  | frError
  | goesOn (x : List K)

/-- `user_force_update`, hiopNlpFormulation.cpp:1341-1366, and its caller, hiopAlgFilterIPM.cpp:3099-3121; `ans` is what
the user returns and the point as the user leaves it. -/
def forceUpdate (asserts : Bool) (ans : Bool × List K) : Forced K :=
  if asserts && !ans.1 then .abort
  else
    let ret := true
    if !ret then .frError else .goesOn ans.2

end Hiop.Callback
