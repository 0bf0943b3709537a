import Verif.Kkt.Lemmas
import Verif.Barrier.Model

/-!
# Model of the residual and error-norm computation

Source: `src/Optimization/hiopResidual.cpp`. Over `ℝ`, one rank (the reductions at the end of
`update` are maxima over the ranks of the six infinity norms).
-/

namespace Hiop.Resid

open Hiop.Vec Hiop.Iterate Hiop.Kkt

variable {n mc m p : ℕ}

/-- The cached norms of `hiopResidual`, hiopResidual.hpp. -/
structure Norms where
  nlpOptim : ℝ
  nlpFeas : ℝ
  nlpCompl : ℝ
  barOptim : ℝ
  barFeas : ℝ
  barCompl : ℝ
  oneNlpFeas : ℝ
  oneBarFeas : ℝ
  oneNlpOptim : ℝ
  oneBarOptim : ℝ
  consViol : ℝ

/-- The state of a residual object: its vectors and cached norms. Code: hiopResidual.hpp:160-163. -/
structure RState (n mc m : ℕ) where
  v : Kkt.Resid ℝ n mc m
  nr : Norms

/-- What `update` receives from the problem: right-hand sides, constraint bodies, gradient and
Jacobians at the iterate, and the barrier parameters held by the log-barrier problem. Code: hiopResidual.hpp:68-69. -/
structure Eval (n mc m : ℕ) where
  crhs : RVec ℝ mc
  c : RVec ℝ mc
  d : RVec ℝ m
  grad : RVec ℝ n
  Jc : Matrix (Fin mc) (Fin n) ℝ
  Jd : Matrix (Fin m) (Fin n) ℝ
  mu : ℝ
  kappad : ℝ

/-- Slack-definition block, hiopResidual.cpp:233-245 (lower bounds), 247-258 (upper bounds),
260-278 (inequalities, `always = true`): `a1 - a2 - a3`, with absent bounds zeroed. When the
counter is zero the vector keeps its value. -/
noncomputable def slackRes (cnt : ℤ) (always : Bool) (sel old a1 a2 a3 : RVec ℝ p) : RVec ℝ p :=
  if cnt > 0 then
    let v := axpy (axpy a1 (-1) a2) (-1) a3
    if always = true ∨ cnt < (p : ℤ) then Vec.selectPattern v sel else v
  else old

/-- The part of a complementarity block without `mu`, hiopResidual.cpp:285-291, 299-307, 315-322,
331-339. -/
noncomputable def compRes0 (cnt : ℤ) (sel s z : RVec ℝ p) : RVec ℝ p :=
  let v := axzpy (zeroVec p) (-1) s z
  if cnt < (p : ℤ) then Vec.selectPattern v sel else v

/-- A complementarity block, hiopResidual.cpp:284-346. -/
noncomputable def compRes (cnt : ℤ) (sel old s z : RVec ℝ p) (mu : ℝ) : RVec ℝ p :=
  if cnt > 0 then addConstantSel (compRes0 cnt sel s z) mu sel else old

/-- Running maximum of a complementarity block's norms: unchanged when the counter is zero. Code: hiopResidual.cpp:154-424. -/
noncomputable def bump (cnt : ℤ) (acc : ℝ) (v : RVec ℝ p) : ℝ :=
  if cnt > 0 then max acc (infnorm v) else acc

/-- `rx` before the damping terms, hiopResidual.cpp:176-180. -/
noncomputable def rxPlain (it : It ℝ n mc m) (e : Eval n mc m) : RVec ℝ n :=
  let rx := e.grad
  let rx := transTimesVec e.Jc 1 rx 1 it.yc
  let rx := transTimesVec e.Jd 1 rx 1 it.yd
  axpy (axpy rx (-1) it.zl) 1 it.zu

/-- `rd` before the damping terms, hiopResidual.cpp:191-193. -/
noncomputable def rdPlain (it : It ℝ n mc m) : RVec ℝ m :=
  axpy (axpy it.yd 1 it.vl) (-1) it.vu

/-- Violation of one side of the inequalities, hiopResidual.cpp:213-216, 219-222: the smallest
selected entry of `hi - lo`, negated when negative. -/
noncomputable def sideViol (dblMax : ℝ) (hi lo sel : RVec ℝ p) : ℝ :=
  let a := minSel dblMax (axpy hi (-1) lo) sel
  if a < 0 then -a else 0

/-- The vectors of `update` and `update_soc` given the feasibility blocks `ryc`, `ryd`;
hiopResidual.cpp:176-346 and 450-603. -/
noncomputable def residVectors (b : Bounds ℝ n m) (cn : Counts) (it : It ℝ n mc m)
    (e : Eval n mc m) (ryc : RVec ℝ mc) (ryd : RVec ℝ m) (old : Kkt.Resid ℝ n mc m) :
    Kkt.Resid ℝ n mc m where
  rx := negate (Barrier.addNonLogBarTermsToGradX b e.mu e.kappad 1 (rxPlain it e))
  rd := Barrier.addNonLogBarTermsToGradD b e.mu e.kappad (-1) (rdPlain it)
  ryc := ryc
  ryd := ryd
  rxl := slackRes cn.nLow false b.ixl old.rxl it.x it.sxl b.xl
  rxu := slackRes cn.nUpp false b.ixu old.rxu b.xu it.x it.sxu
  rdl := slackRes cn.mLow true b.idl old.rdl it.d it.sdl b.dl
  rdu := slackRes cn.mUpp true b.idu old.rdu b.du it.sdu it.d
  rszl := compRes cn.nLow b.ixl old.rszl it.sxl it.zl e.mu
  rszu := compRes cn.nUpp b.ixu old.rszu it.sxu it.zu e.mu
  rsvl := compRes cn.mLow b.idl old.rsvl it.sdl it.vl e.mu
  rsvu := compRes cn.mUpp b.idu old.rsvu it.sdu it.vu e.mu

/-- The norms of `update` and `update_soc`, hiopResidual.cpp:160-164, 181-208, 228-230, 281-346 and 435-603;
`fmax` chains starting from 0. -/
noncomputable def residNorms (b : Bounds ℝ n m) (cn : Counts) (it : It ℝ n mc m)
    (e : Eval n mc m) (v : Kkt.Resid ℝ n mc m) (consViol : ℝ) : Norms where
  nlpOptim := max (max 0 (infnorm (rxPlain it e))) (infnorm (rdPlain it))
  nlpFeas := max (max 0 (infnorm v.ryc)) (infnorm v.ryd)
  nlpCompl :=
    let a := bump cn.nLow 0 (compRes0 cn.nLow b.ixl it.sxl it.zl)
    let a := bump cn.nUpp a (compRes0 cn.nUpp b.ixu it.sxu it.zu)
    let a := bump cn.mLow a (compRes0 cn.mLow b.idl it.sdl it.vl)
    bump cn.mUpp a (compRes0 cn.mUpp b.idu it.sdu it.vu)
  barOptim := max (max 0 (infnorm v.rx)) (infnorm v.rd)
  barFeas := max (max 0 (infnorm v.ryc)) (infnorm v.ryd)
  barCompl :=
    let a := bump cn.nLow 0 v.rszl
    let a := bump cn.nUpp a v.rszu
    let a := bump cn.mLow a v.rsvl
    bump cn.mUpp a v.rsvu
  oneNlpFeas := 0 + onenorm v.ryc + onenorm v.ryd
  oneBarFeas := 0 + onenorm v.ryc + onenorm v.ryd
  oneNlpOptim := 0 + onenorm (rxPlain it e) + onenorm (rdPlain it)
  oneBarOptim := 0 + onenorm v.rx + onenorm v.rd
  consViol := consViol

/-- `hiopResidual::update`, hiopResidual.cpp:154-369. -/
noncomputable def update (dblMax : ℝ) (b : Bounds ℝ n m) (cn : Counts) (it : It ℝ n mc m)
    (e : Eval n mc m) (old : RState n mc m) : RState n mc m :=
  let ryc := axpy e.crhs (-1) e.c
  let ryd := axpy it.d (-1) e.d
  let v := residVectors b cn it e ryc ryd old.v
  let viol := max 0 (infnorm ryc)
  let viol := max viol (sideViol dblMax e.d b.dl b.idl)
  let viol := max viol (sideViol dblMax b.du e.d b.idu)
  { v := v, nr := residNorms b cn it e v viol }

/-- `hiopResidual::update_soc`, hiopResidual.cpp:425-619: the feasibility blocks are given, the
constraint violation is not touched. -/
noncomputable def updateSoc (b : Bounds ℝ n m) (cn : Counts) (it : It ℝ n mc m)
    (e : Eval n mc m) (csoc : RVec ℝ mc) (dsoc : RVec ℝ m) (old : RState n mc m) :
    RState n mc m :=
  let v := residVectors b cn it e csoc dsoc old.v
  { v := v, nr := residNorms b cn it e v old.nr.consViol }

/-- `compute_nlp_infeasib_onenorm`, hiopResidual.cpp:102-152: returns the one norm of `(ryc, ryd)`
and overwrites the six feasibility blocks of the residual used as scratch space. -/
noncomputable def infeasOneNorm (b : Bounds ℝ n m) (cn : Counts) (it : It ℝ n mc m)
    (crhs c : RVec ℝ mc) (d : RVec ℝ m) (old : RState n mc m) : ℝ × RState n mc m :=
  let ryc := axpy crhs (-1) c
  let ryd := axpy it.d (-1) d
  (0 + onenorm ryc + onenorm ryd,
   { old with v := { old.v with
      ryc := ryc, ryd := ryd
      rxl := slackRes cn.nLow false b.ixl old.v.rxl it.x it.sxl b.xl
      rxu := slackRes cn.nUpp false b.ixu old.v.rxu b.xu it.x it.sxu
      rdl := slackRes cn.mLow true b.idl old.v.rdl it.d it.sdl b.dl
      rdu := slackRes cn.mUpp true b.idu old.v.rdu b.du it.sdu it.d } })

/-- `hiopResidual::copyFrom`, hiopResidual.cpp:394-423: every vector and every cached norm but
`nrmInf_cons_violation`. -/
def copyFrom (dst src : RState n mc m) : RState n mc m :=
  { v := src.v, nr := { src.nr with consViol := dst.nr.consViol } }

/-- The constructor, hiopResidual.cpp:57-83: every vector zero except `ryd`, which is allocated
without being set (`junk`); the norms are `1e6`. -/
noncomputable def fresh (junk : RVec ℝ m) : RState n mc m where
  v := ⟨zeroVec n, zeroVec m, zeroVec mc, junk, zeroVec n, zeroVec n, zeroVec m, zeroVec m,
    zeroVec n, zeroVec n, zeroVec m, zeroVec m⟩
  nr := ⟨10 ^ 6, 10 ^ 6, 10 ^ 6, 10 ^ 6, 10 ^ 6, 10 ^ 6, 10 ^ 6, 10 ^ 6, 10 ^ 6, 10 ^ 6, 10 ^ 6⟩

end Hiop.Resid
