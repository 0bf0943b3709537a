import Mathlib.Data.Real.Basic
import Mathlib.Analysis.SpecialFunctions.Pow.Real

/-!
# Model of the IPM filter and of the line-search acceptance test

Sources: `src/Optimization/hiopFilter.hpp`, `src/Optimization/hiopFilter.cpp`,
`src/Optimization/hiopAlgFilterIPM.cpp`.
`double` is modelled by `ℝ` (no rounding, no NaN).
-/

namespace Hiop.Filter

/-- `hiopFilter::FilterEntry`, hiopFilter.hpp:79-85. -/
structure Entry where
  theta : ℝ
  phi : ℝ

/-- `hiopFilter::entries`, hiopFilter.hpp:86; head of the list = front of `std::list`. -/
abbrev Filt := List Entry

/-- the default-constructed filter, hiopFilter.hpp:62. -/
def empty : Filt := []

/-- `hiopFilter::clear`, hiopFilter.hpp:67. -/
def clear (_ : Filt) : Filt := []

/-- `hiopFilter::initialize` / `reinitialize`, hiopFilter.hpp:64-65. -/
def reinit (_ : Filt) (thetaMax : ℝ) : Filt := [⟨thetaMax, -1e20⟩]

/-- `hiopFilter::add`, hiopFilter.hpp:70-73 (`push_front`). -/
def add (f : Filt) (theta phi : ℝ) : Filt := ⟨theta, phi⟩ :: f

open Classical in
/-- `hiopFilter::contains`, hiopFilter.cpp:56-68: scan from the front, stop at the
first dominating entry. -/
noncomputable def contains : Filt → ℝ → ℝ → Bool
  | [], _, _ => false
  | e :: es, theta, phi =>
    if theta ≥ e.theta ∧ phi ≥ e.phi then true else contains es theta phi

/-- One call on a filter object. Code: hiopFilter.hpp:64-70. -/
inductive Op where
  | clear
  | init (thetaMax : ℝ)
  | reinit (thetaMax : ℝ)
  | add (theta phi : ℝ)

/-- Effect of one call. Code: hiopFilter.hpp:64-70. -/
def step (f : Filt) : Op → Filt
  | .clear => clear f
  | .init t => reinit f t
  | .reinit t => reinit f t
  | .add t p => add f t p

/-- State after a history of calls (first call first). No counterpart in the code: used only to state and run the model. -/
def run (h : List Op) : Filt := h.foldl step empty

/-! ## Line-search acceptance -/

/-- Algorithm parameters read by the acceptance test
(hiopAlgFilterIPM.hpp, set in hiopAlgFilterIPM.cpp:220-271). -/
structure Params where
  thetaMin : ℝ
  gammaTheta : ℝ
  gammaPhi : ℝ
  sPhi : ℝ
  sTheta : ℝ
  delta : ℝ
  etaPhi : ℝ

/-- Data of one trial point. `gradPhiDx` is the value `logbar->directionalDerivative(*dir)`
returns; caching through `grad_phi_dx_computed` is dropped because the direction and
the barrier gradient do not change while it is set. Code: hiopAlgFilterIPM.cpp:2852-2948. -/
structure Trial where
  thetaCurr : ℝ
  thetaTrial : ℝ
  phiCurr : ℝ
  phiTrial : ℝ
  alpha : ℝ
  gradPhiDx : ℝ

open Classical in
/-- `hiopAlgFilterIPMBase::accept_line_search_conditions`,
hiopAlgFilterIPM.cpp:2852-2946. Returns `(bret, trial_is_rejected_by_filter)`. -/
noncomputable def accept (p : Params) (f : Filt) (t : Trial) : Nat × Bool :=
  if t.thetaCurr ≥ p.thetaMin then
    -- lines 2863-2885
    if t.thetaTrial ≤ (1 - p.gammaTheta) * t.thetaCurr ∨
        t.phiTrial ≤ t.phiCurr - p.gammaPhi * t.thetaCurr then
      if contains f t.thetaTrial t.phiTrial = true then (0, true) else (1, false)
    else (0, false)
  else
    -- lines 2886-2945
    if t.gradPhiDx < 0 ∧
        t.alpha * (-t.gradPhiDx) ^ p.sPhi > p.delta * t.thetaCurr ^ p.sTheta then
      if t.phiTrial ≤ t.phiCurr + p.etaPhi * t.alpha * t.gradPhiDx then
        if contains f t.thetaTrial t.phiTrial = true then (0, true) else (3, false)
      else (0, false)
    else
      if t.thetaTrial ≤ (1 - p.gammaTheta) * t.thetaCurr ∨
          t.phiTrial ≤ t.phiCurr - p.gammaPhi * t.thetaCurr then
        if contains f t.thetaTrial t.phiTrial = true then (0, true) else (2, false)
      else (0, false)

open Classical in
/-- Filter augmentation after an accepted line search, hiopAlgFilterIPM.cpp:2614-2648
(Newton) and 1389-1420 (quasi-Newton): status 1 re-checks switching and Armijo,
status 2 always augments, status 3 never. Status 0 does not touch the filter. -/
noncomputable def augment (p : Params) (f : Filt) (t : Trial) (lsStatus : Nat) : Filt :=
  if lsStatus = 1 then
    if t.gradPhiDx < 0 ∧
        t.alpha * (-t.gradPhiDx) ^ p.sPhi > p.delta * t.thetaCurr ^ p.sTheta then
      if t.phiTrial ≤ t.phiCurr + p.etaPhi * t.alpha * t.gradPhiDx then f
      else add f t.thetaTrial t.phiTrial
    else add f t.thetaTrial t.phiTrial
  else if lsStatus = 2 then add f t.thetaTrial t.phiTrial
  else f

/-- Events of the outer loop that touch the filter: a line-search trial, or a barrier
parameter reduction (`filter.reinitialize(theta_max)`, hiopAlgFilterIPM.cpp:1197, 2321). -/
inductive Ev where
  | trial (t : Trial)
  | muReduced

/-- State of the outer loop as far as the filter is concerned: the filter and, most
recent first, the accepted `(theta, phi)` pairs of the current barrier problem together
with a flag telling whether the pair was put in the filter. Code: hiopAlgFilterIPM.cpp:955-1519. -/
structure LoopState where
  filt : Filt
  acc : List (ℝ × ℝ × Bool)

/-- `resetSolverStatus` clears the filter, hiopAlgFilterIPM.cpp:287. -/
def loopInit : LoopState := ⟨clear empty, []⟩

open Classical in
/-- One event. The accepted-pair log is ghost state used only to state properties. Code: hiopAlgFilterIPM.cpp:955-1519, hiopAlgFilterIPM.cpp:2852-2948. -/
noncomputable def loopStep (p : Params) (thetaMax : ℝ) (s : LoopState) : Ev → LoopState
  | .muReduced => ⟨reinit s.filt thetaMax, []⟩
  | .trial t =>
    let st := (accept p s.filt t).1
    if st > 0 then
      let f' := augment p s.filt t st
      ⟨f', (t.thetaTrial, t.phiTrial, decide (f' ≠ s.filt)) :: s.acc⟩
    else s

/-- No counterpart in the code: used only to state and run the model. -/
noncomputable def loopRun (p : Params) (thetaMax : ℝ) (evs : List Ev) : LoopState :=
  evs.foldl (loopStep p thetaMax) loopInit

end Hiop.Filter
