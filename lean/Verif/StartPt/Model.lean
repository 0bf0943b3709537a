import Verif.Iterate.Model

/-!
# Model of the starting point

Source: `hiopNlpFormulation::get_starting_point` and `get_warmstart_point` (`src/Optimization/hiopNlpFormulation.cpp:774-873`)
and `hiopAlgFilterIPMBase::startingProcedure` (`src/Optimization/hiopAlgFilterIPM.cpp:290-437`), with all combinations of
multipliers and slacks that the user may provide. `Verif/Iterate/Model.lean` has the case without any. One rank; evaluations
of the user's functions succeed (their failure ends the run, see `Verif/Evals`).
-/

namespace Hiop.StartPt

open Hiop.Vec Hiop.Iterate

variable {K : Type*} [Field K] [LinearOrder K] {N n mc m M : ℕ}

/-- The user's variables (`N`, `n_pre()`) and the solver's (`n`): `keep j` is the user's index of the solver's variable `j`,
`expand` the full vector of a solver's vector. Without fixed-variable removal `N = n` and both are the identity. Code:
hiopNlpTransforms.cpp:220-236 (`expand`), 238-252 (`keep`), hiopNlpTransforms.hpp:192-199. Their construction is in
`Verif/Nlp`. -/
structure Space (K : Type*) (N n : ℕ) where
  keep : Fin n → Fin N
  expand : RVec K n → RVec K N
  le : n ≤ N

/-- No variable removed. Code: hiopNlpTransforms.hpp:97-101. -/
def Space.same (K : Type*) (n : ℕ) : Space K n n := ⟨id, id, le_rfl⟩

/-- The arrays handed to the user; the user is told that `x`, `zl` and `zu` have `N` entries. Code:
hiopNlpFormulation.cpp:789-804, 843-858. -/
structure Buf (K : Type*) (N m M : ℕ) where
  x : RVec K N
  zl : RVec K N
  zu : RVec K N
  lam : RVec K M
  d : RVec K m
  vl : RVec K m
  vu : RVec K m

/-- The user's methods: from the contents of the arrays to the new contents and the values returned. `full` is
`get_starting_point` with multipliers (hiopInterface.hpp:332-345; it returns `duals_avail`, `slacks_avail` and the method's
value and does not get `vl` and `vu`), `primal` the one for the point only (292-295), `warm` is `get_warmstart_point`
(366-377). -/
structure User (K : Type*) (N m M : ℕ) where
  full : Buf K N m M → Buf K N m M × Bool × Bool × Bool
  primal : RVec K N → RVec K N × Bool
  warm : Buf K N m M → Buf K N m M × Bool

/-- The default of `get_warmstart_point`, hiopInterface.hpp:366-377. -/
def warmDefault (b : Buf K N m M) : Buf K N m M × Bool := (b, false)

/-- The default of `get_starting_point`, hiopInterface.hpp:332-345. -/
def fullDefault (b : Buf K N m M) : Buf K N m M × Bool × Bool × Bool := (b, false, false, false)

/-- An array of the solver (`n` entries) as the user sees it (`N` entries), with the memory `out` behind it. Code:
hiopNlpFormulation.cpp:790-791, 844-845. -/
def pad (out : RVec K N) (z : RVec K n) : RVec K N := fun i => if h : i.1 < n then z ⟨i.1, h⟩ else out i

/-- What the solver finds in its array. Code: hiopNlpFormulation.cpp:790-791. -/
def Space.take (S : Space K N n) (z : RVec K N) : RVec K n := fun j => z (Fin.castLE S.le j)

/-- Memory outside the array of the solver was changed. Code: hiopNlpFormulation.cpp:795-803, 850-858. -/
def overrun (n : ℕ) (old new : RVec K N) : Prop := ∃ i : Fin N, n ≤ i.1 ∧ new i ≠ old i

/-- What `startingProcedure` gets: the value returned, `duals_avail`, `slacks_avail` and the iterate. -/
structure Fetch (K : Type*) (n mc m : ℕ) where
  ret : Bool
  duals : Bool
  slacks : Bool
  it : It K n mc m

open Classical in
/-- `get_starting_point`, hiopNlpFormulation.cpp:774-823: `junk` is the content of the new vector `lambdas`, `ceq` and
`cineq` the mappings of the constraints, `out` the memory behind the solver's arrays; `none` if memory outside them is
changed. -/
noncomputable def getStart (S : Space K N n) (U : User K N m M) (ceq : Fin mc → Fin M) (cineq : Fin m → Fin M)
    (out : RVec K N) (junk : RVec K M) (it : It K n mc m) : Option (Fetch K n mc m) :=
  let b0 : Buf K N m M := ⟨S.expand it.x, pad out it.zl, pad out it.zu, junk, it.d, it.vl, it.vu⟩
  let r := U.full b0
  let b := r.1
  if overrun n b0.zl b.zl ∨ overrun n b0.zu b.zu then none
  else
    let it1 : It K n mc m := { it with zl := S.take b.zl, zu := S.take b.zu, d := b.d }
    let it2 : It K n mc m := if r.2.1 then { it1 with yc := fun i => b.lam (ceq i), yd := fun i => b.lam (cineq i) } else it1
    let p := if r.2.2.2 then (b.x, true) else U.primal b.x
    some ⟨p.2, r.2.1, r.2.2.1, { it2 with x := fun j => p.1 (S.keep j) }⟩

open Classical in
/-- `get_warmstart_point`, hiopNlpFormulation.cpp:825-873, and the flags that `startingProcedure` sets after it,
hiopAlgFilterIPM.cpp:311. -/
noncomputable def getWarm (S : Space K N n) (U : User K N m M) (ceq : Fin mc → Fin M) (cineq : Fin m → Fin M)
    (out : RVec K N) (junk : RVec K M) (it : It K n mc m) : Option (Fetch K n mc m) :=
  let b0 : Buf K N m M := ⟨S.expand it.x, pad out it.zl, pad out it.zu, junk, it.d, it.vl, it.vu⟩
  let r := U.warm b0
  let b := r.1
  if overrun n b0.zl b.zl ∨ overrun n b0.zu b.zu then none
  else
    let it1 : It K n mc m := { it with zl := S.take b.zl, zu := S.take b.zu, d := b.d, vl := b.vl, vu := b.vu,
                                       yc := fun i => b.lam (ceq i), yd := fun i => b.lam (cineq i) }
    let p := if r.2 then (b.x, true) else U.primal b.x
    some ⟨p.2, true, true, { it1 with x := fun j => p.1 (S.keep j) }⟩

/-- How the starting procedure ends. Code: hiopAlgFilterIPM.cpp:290-437. -/
inductive Res (K : Type*) (n mc m : ℕ)
  /-- Memory outside the arrays was written. -/
  | overrun
  /-- `exit(-1)`: a lower bound exceeds an upper bound. -/
  | inconsistentBounds
  /-- A slack became NaN. -/
  | nonfinite
  | ok (s : State K n mc m)

/-- The parameters: machine constants, `kappa1`, `kappa2`, `mu0`, the smallest number of the projection, and the initial
multipliers, `some lsq` for the least-squares ones and `none` for zero (option `duals_init`). Code:
hiopAlgFilterIPM.cpp:402-426. -/
structure Par (K : Type*) (n mc m : ℕ) where
  mach : Mach K
  small : K
  kappa1 : K
  kappa2 : K
  mu0 : K
  lsq : Option (It K n mc m → RVec K mc × RVec K m)

/-- `startingProcedure` from the point where the safe slacks are computed, hiopAlgFilterIPM.cpp:384-426. -/
def finish (P : Par K n mc m) (b : Bounds K n m) (duals warm : Bool) (it : It K n mc m) : Res K n mc m :=
  match computeSafeSlacks P.mach b it it P.mu0 with
  | none => .nonfinite
  | some r =>
    let b' := if r.1 > 0 then adjustBounds b r.2 else b
    if duals then .ok ⟨b', if warm then r.2 else determineDualsBoundsD b' r.2 P.mu0⟩
    else
      let it1 := setBoundsDualsToConstant b' r.2 1
      .ok ⟨b', match P.lsq with
        | some f => { it1 with yc := (f it1).1, yd := (f it1).2 }
        | none => setEqualityDualsToConstant it1 0⟩

/-- `startingProcedure` after the starting point is fetched, hiopAlgFilterIPM.cpp:325-426. `b` are the bounds and `dOfX` the
inequality body of the solver's (scaled) problem. -/
def proceed (P : Par K n mc m) (b : Bounds K n m) (dOfX : RVec K n → RVec K m) (warmOpt : Bool) (F : Fetch K n mc m) :
    Res K n mc m :=
  let warm := F.ret && warmOpt
  let duals := F.ret && F.duals
  let slacks := F.ret && F.slacks
  let it1 : It K n mc m := if F.ret then F.it else { F.it with x := fun _ => 0 }
  let it2 := if duals then it1 else setEqualityDualsToConstant it1 0
  match (if warm then some it2 else projectPrimalsX P.small P.kappa1 P.kappa2 b it2) with
  | none => .inconsistentBounds
  | some it3 =>
    let it4 : It K n mc m := if slacks then it3 else { it3 with d := dOfX it3.x }
    match (if warm then some it4 else projectPrimalsD P.small P.kappa1 P.kappa2 b it4) with
    | none => .inconsistentBounds
    | some it5 => finish P b duals warm it5

/-- `startingProcedure`, hiopAlgFilterIPM.cpp:290-437; `warmOpt` is the option `warm_start`, `it` the iterate before. -/
noncomputable def start (P : Par K n mc m) (b : Bounds K n m) (dOfX : RVec K n → RVec K m) (S : Space K N n)
    (U : User K N m M) (ceq : Fin mc → Fin M) (cineq : Fin m → Fin M) (out : RVec K N) (junk : RVec K M) (warmOpt : Bool)
    (it : It K n mc m) : Res K n mc m :=
  match (if warmOpt then getWarm S U ceq cineq out junk it else getStart S U ceq cineq out junk it) with
  | none => .overrun
  | some F => proceed P b dOfX warmOpt F

end Hiop.StartPt
