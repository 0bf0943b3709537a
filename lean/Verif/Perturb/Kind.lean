import Verif.Perturb.Accept

/-!
# C59: the announced kind of a perturbation update

`get_curr_delta_type` tells the linear system which perturbations changed. The normal-equation system
skips the product with the primal diagonal after a `DualUpdate`.
-/

namespace Hiop.Perturb

/-- `DeltasUpdateType`, hiopPDPerturbation.hpp:14-21. -/
inductive Kind
  | initialized
  | primal
  | dual
  | pd
  deriving DecidableEq

/-- `deltas_curr_update_` after `compute_perturb_wrong_inertia` of the dual-first class,
hiopPDPerturbation.cpp:516-548: the argument of the last `set_delta_curr_vec` on the path. Line 542 is
reached on every path but the early return of line 531, whose last call is line 610. -/
noncomputable def wrongDKind (p : Params) (s : PState) : Kind :=
  match dualImpl p (updateDegen s) with
  | none => .dual
  | some (ret, s) =>
    if ret = false ∧ s.cur.wx = 0 then
      match guts p (setC 0 s) with
      | some (false, _) => .primal
      | _ => .dual
    else .dual

/-- `deltas_curr_update_` after `compute_perturb_wrong_inertia` of the primal-first class,
hiopPDPerturbation.cpp:217-245. -/
noncomputable def wrongPKind (p : Params) (s : PState) : Kind :=
  match guts p (updateDegen s) with
  | none => .primal
  | some (ret, s) => if ret = false ∧ s.cur.cc = 0 then .pd else .primal

/-- **C59, primal-first.** An update of the primal-first class is never announced as a dual update. -/
theorem C59_primal_first_kind (p : Params) (s : PState) : wrongPKind p s ≠ .dual := by
  unfold wrongPKind
  repeat' split
  all_goals simp

/-- **C59, dual-first.** Every new perturbation of the dual-first class is announced as a dual update. -/
theorem dual_kind (p : Params) (s s' : PState) (h : wrongD p s = some (true, s')) :
    wrongDKind p s = .dual := by
  unfold wrongD at h
  unfold wrongDKind
  simp only at h
  split_ifs at h with h0
  generalize dualImpl p (updateDegen s) = q at h
  match q, h with
  | some (ret, s1), h =>
    simp only at h ⊢
    by_cases hc : ret = false ∧ s1.cur.wx = 0
    · rw [if_pos hc]
      rw [if_pos hc] at h
      generalize guts p (setC 0 s1) = q2 at h
      match q2, h with
      | some (true, s2), _ => rfl
      | some (false, s2), h => simp at h
    · rw [if_neg hc]

/-- **C59 fails: a change of the primal perturbation is announced as a change of the dual ones only.**
For every consistent state of the dual-first class without primal perturbation whose next dual
perturbation is refused: if a new perturbation is found at all, the primal perturbation handed to the
linear system changes from 0 to a positive value and the update is announced as `DualUpdate`. -/
theorem C59_dual_first_kind_false (p : Params) (hp : p.Ok) (s s' : PState) (hg : Good p s)
    (hw : s.cur.wx = 0) (hr : p.wMax < nextC p s.mu s.cur.cc s.last.cc)
    (h : wrongD p s = some (true, s')) :
    wrongDKind p s = .dual ∧ 0 < s'.vec.wx := by
  refine ⟨dual_kind p s s' h, ?_⟩
  have hgu := good_updateDegen p s hg
  have e1 := updateDegen_cur s
  have e2 := updateDegen_last s
  have e3 := updateDegen_mu s
  unfold wrongD at h
  simp only at h
  rw [if_neg (by rw [← hgu.wEq, ← hgu.cEq]; simp), dualImpl_spec p _ hgu.cEq hgu.lcEq] at h
  simp only [e1, e2, e3] at h
  rw [if_pos ⟨by simpa using hr, hw⟩] at h
  rw [guts_spec _ _ (by simp [setC, hg.wEq]) (by
    simp only [setC]; rw [if_neg (not_le.2 hr)]; exact hg.lwEq)] at h
  by_cases hn : nextW p s.cur.wx s.last.wx ≤ p.wMax
  · simp only [setC, if_neg (not_le.2 hr), hn, decide_true, if_true] at h
    rw [dualImpl_spec _ _ rfl rfl] at h
    simp only [Option.some.injEq, Prod.mk.injEq] at h
    rw [← h.2]
    simp only [setVecD, setVecP]
    exact nextW_pos p hp _ _ hg.w0 hg.lw0
  · simp only [setC, if_neg (not_le.2 hr), hn, decide_false] at h
    simp at h

/-- Options with a small upper limit of the perturbations. -/
noncomputable def small : Params := { dflt with wMax := 1e-3 }

theorem small_wrongD (x : ℝ) (hx : 0 < x) (hle : 100 * x ≤ 1e-3) :
    wrongD small (dualState x) = some (true, dualState (100 * x)) := by
  have h1 : nextC small 1 x 0 = 100 * x := by
    unfold nextC; rw [if_neg hx.ne', if_pos (Or.inl rfl)]; rfl
  have hle' : 100 * x ≤ small.wMax := hle
  unfold wrongD
  simp only [dualState, updateDegen, ne_eq, not_true_eq_false, or_self, if_false]
  rw [dualImpl_spec _ _ rfl rfl]
  simp [Deltas.zero, h1, hle', setVecD]

/-- The situation is met: dual perturbation `1e-4`, limit `1e-3`. The new state has primal perturbation
`1e-4`. -/
example : small.Ok ∧ Good small (dualState 1e-4) ∧ small.wMax < nextC small 1 1e-4 0 ∧
    ∃ s', wrongD small (dualState 1e-4) = some (true, s') ∧ s'.vec.wx = 1e-4 := by
  have hn : nextC small 1 1e-4 0 = 1e-2 := by
    unfold nextC; rw [if_neg (by norm_num), if_pos (Or.inl rfl)]; norm_num [small, dflt]
  have hn0 : nextC small 1 0 0 = 1e-8 := by
    norm_num [nextC, small, dflt]
  have hw0 : nextW small 0 0 = 1e-4 := by norm_num [nextW, small, dflt]
  have hm : small.wMax = 1e-3 := rfl
  refine ⟨?_, ?_, ?_, ?_⟩
  · constructor <;> norm_num [small, dflt]
  · constructor <;> norm_num [dualState, Deltas.zero]
  · rw [hn, hm]; norm_num
  · unfold wrongD
    simp only [dualState, updateDegen, ne_eq, not_true_eq_false, or_self, if_false]
    rw [dualImpl_spec _ _ rfl rfl]
    simp only [Deltas.zero, hn, hm]
    rw [if_pos ⟨by norm_num, trivial⟩, guts_spec _ _ rfl (by simp only [setC]; norm_num)]
    have n1 : ¬ ((1e-2 : ℝ) ≤ 1e-3) := by norm_num
    have n2 : (1e-4 : ℝ) ≤ 1e-3 := by norm_num
    simp only [setC, n1, if_false, hw0, hm, n2, decide_true, if_true]
    rw [dualImpl_spec _ _ rfl rfl]
    simp only [hn0, hm]
    refine ⟨_, by rw [decide_eq_true (by norm_num)], rfl⟩

end Hiop.Perturb
