import Verif.Iterate.Model
import Mathlib.Tactic.Linarith

/-!
# The zero-multiplier case of `adjust_small_slacks` in extended arithmetic

`Hiop.Iterate.adjustSmallSlacksVec` treats a division by a zero multiplier by two rules. This
file replays the per-entry computation of hiopIterate.cpp:440-475 over the IEEE-754 values
relevant to it (exact finite numbers, the two infinities and NaN; rounding, overflow and the
sign of zero are left out) and derives both rules.
-/

namespace Hiop.Iterate

variable {K : Type*} [Field K] [LinearOrder K]

/-- IEEE-754 values without rounding. -/
inductive Ext (K : Type*)
  | fin (x : K)
  | pinf
  | ninf
  | nan

namespace Ext

/-- Sign of a finite number applied to an infinity. -/
def ofSign (x : K) (pos neg zero : Ext K) : Ext K :=
  if 0 < x then pos else if x < 0 then neg else zero

/-- IEEE addition. -/
def add : Ext K → Ext K → Ext K
  | nan, _ => nan
  | _, nan => nan
  | fin a, fin b => fin (a + b)
  | pinf, ninf => nan
  | ninf, pinf => nan
  | pinf, _ => pinf
  | _, pinf => pinf
  | ninf, _ => ninf
  | _, ninf => ninf

/-- IEEE multiplication; `0·∞` is NaN. -/
def mul : Ext K → Ext K → Ext K
  | nan, _ => nan
  | _, nan => nan
  | fin a, fin b => fin (a * b)
  | fin a, pinf => ofSign a pinf ninf nan
  | pinf, fin a => ofSign a pinf ninf nan
  | fin a, ninf => ofSign a ninf pinf nan
  | ninf, fin a => ofSign a ninf pinf nan
  | pinf, pinf => pinf
  | ninf, ninf => pinf
  | pinf, ninf => ninf
  | ninf, pinf => ninf

/-- IEEE division of finite numbers (divisor `+0` when zero). -/
def divFin (a b : K) : Ext K := if b = 0 then ofSign a pinf ninf nan else fin (a / b)

/-- `a < b`; every comparison with NaN is false. -/
def lt : Ext K → Ext K → Prop
  | fin a, fin b => a < b
  | fin _, pinf => True
  | ninf, fin _ => True
  | ninf, pinf => True
  | _, _ => False

open Classical in
/-- `component_max`, hiopVectorPar.cpp: replace `x` by `y` when `x < y`. -/
noncomputable def vmax (x y : Ext K) : Ext K := if lt x y then y else x

open Classical in
/-- `component_min`: replace `x` by `y` when `x > y`. -/
noncomputable def vmin (x y : Ext K) : Ext K := if lt y x then y else x

end Ext

open Ext Classical in
/-- One selected entry of hiopIterate.cpp:440-475 (`sel = 1`), with `slackPos = max(slack,0)`,
`a1` the 0/1 flag left in `arg1`, `sv` the threshold and `cap = scale_fact*max(1,|bound|)`. -/
noncomputable def entryIeee (slackPos a1 dual mu sv cap : K) : Ext K :=
  let arg2 := divFin mu dual
  let arg2 := vmax arg2 (.fin sv)
  let arg2 := add arg2 (mul (.fin (-1)) (.fin slackPos))
  let arg1 := mul (.fin a1) arg2
  let arg1 := add arg1 (mul (.fin 1) (.fin slackPos))
  let arg2' := add (.fin cap) (mul (.fin 1) (.fin slackPos))
  vmin arg1 arg2'

/-- **C06**, extended arithmetic: an entry that is not being corrected and has a zero
multiplier becomes NaN. -/
theorem C06_ieee_zero_dual_nan (slackPos mu sv cap : K) (hmu : 0 < mu) :
    entryIeee slackPos 0 0 mu sv cap = Ext.nan := by
  simp [entryIeee, Ext.divFin, Ext.ofSign, hmu, Ext.vmax, Ext.lt, Ext.add, Ext.mul, Ext.vmin]

/-- **C06**, extended arithmetic: an entry that is being corrected and has a zero multiplier
becomes `slack⁺ + scale_fact·max(1,|bound|)`. -/
theorem C06_ieee_zero_dual_cap [IsStrictOrderedRing K] (slackPos mu sv cap : K) (hmu : 0 < mu) :
    entryIeee slackPos 1 0 mu sv cap = Ext.fin (cap + slackPos) := by
  simp [entryIeee, Ext.divFin, Ext.ofSign, hmu, Ext.vmax, Ext.lt, Ext.add, Ext.mul, Ext.vmin]

-- Non-vacuity: with a nonzero multiplier the same pipeline stays finite.
example : entryIeee (K := ℚ) (1/10) 1 2 1 (1/1000) (1/100) = Ext.fin (11/100) := by
  simp [entryIeee, Ext.divFin, Ext.vmax, Ext.lt, Ext.add, Ext.mul, Ext.vmin]
  norm_num

end Hiop.Iterate
