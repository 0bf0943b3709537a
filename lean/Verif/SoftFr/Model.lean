import Verif.Filter.Model

/-!
# The soft feasibility restoration

Source: `solve_soft_feasibility_restoration`, `src/Optimization/hiopAlgFilterIPM.cpp:3235-3333`, with
the filter of `Verif/Filter`. Points are of an arbitrary type; the linear algebra is a free function.
-/

namespace Hiop.SoftFr

/-- What the function finds. `T` are the trial points (primal and dual part).
`errCurr`, `err`: one-norms of optimality plus feasibility at the current and at a trial point (lines
3258, 3313); `theta`, `phi`: infeasibility and barrier objective of a trial point (3322, 3323);
`filt`: the filter; `move`: the trial point reached with the direction found before (`none`: the
direction of the rejected step) or with the residual of a trial point, from the current point, with
slacks and multipliers (3269, 3281, 3286-3307); `dirOk`: the return of `compute_directions_w_IR` (3281);
`duOk`: the return of the multiplier update (3304); `evalOk`: whether the user's functions succeed at
the newest point, given all points evaluated (newest first; they do not depend on the multipliers).
`fractionToTheBdry` and `takeStep_primals` always return true. -/
structure Env (T : Type) where
  errCurr : ℝ
  err : T → ℝ
  theta : T → ℝ
  phi : T → ℝ
  filt : Filter.Filt
  move : Option T → T
  dirOk : T → Bool
  duOk : T → Bool
  evalOk : List T → Bool

/-- The outcome: return value, whether `solver_status_` was set to `Error_In_User_Function`, the trial
point, the points evaluated (newest first). Code: hiopAlgFilterIPM.cpp:3277-3278, 3299-3300, 3332. -/
structure Res (T : Type) where
  ret : Bool
  userErr : Bool
  trial : T
  evals : List T

variable {T : Type}

open Classical in
/-- From the evaluation at the new trial point `t` to the end of a round,
hiopAlgFilterIPM.cpp:3298-3330. `inl`: the function returns (or an assertion fails: `none`), `inr`: the
point is in the filter, next round. -/
noncomputable def judge (E : Env T) (asserts : Bool) (t : T) (log : List T) :
    Option (Res T) ⊕ List T :=
  if E.evalOk (t :: log) = false then .inl (some ⟨true, true, t, t :: log⟩)
  else if E.duOk t = false ∧ asserts = true then .inl none
  else if E.err t > 999 / 1000 * E.errCurr then .inl (some ⟨false, false, t, t :: log⟩)
  else if Filter.contains E.filt (E.theta t) (E.phi t) = true then .inr (t :: log)
  else .inl (some ⟨true, false, t, t :: log⟩)

/-- The loop, hiopAlgFilterIPM.cpp:3265-3332, with `fuel` rounds left and, after the first round, the
last trial point `prev`. At the end of the rounds the return value is what the multiplier update of the
last round returned. -/
noncomputable def later (E : Env T) (asserts : Bool) : ℕ → T → List T → Option (Res T)
  | 0, prev, log => some ⟨E.duOk prev, false, prev, log⟩
  | fuel + 1, prev, log =>
    if E.evalOk (prev :: log) = false then some ⟨true, true, prev, prev :: log⟩
    else if E.dirOk prev = false ∧ asserts = true then none
    else
      match judge E asserts (E.move (some prev)) (prev :: log) with
      | .inl r => r
      | .inr log => later E asserts fuel (E.move (some prev)) log

/-- `solve_soft_feasibility_restoration`, hiopAlgFilterIPM.cpp:3235-3333: at most ten rounds
(`max_soft_fr_iter`, line 3237), the first with the direction at hand (3268-3274). -/
noncomputable def soft (E : Env T) (asserts : Bool) : Option (Res T) :=
  match judge E asserts (E.move none) [] with
  | .inl r => r
  | .inr log => later E asserts 9 (E.move none) log

end Hiop.SoftFr
