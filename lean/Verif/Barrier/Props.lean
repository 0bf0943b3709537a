import Verif.Barrier.Model
import Verif.Iterate.Props
import Mathlib.Analysis.SpecialFunctions.Log.Deriv
import Mathlib.Analysis.Calculus.Deriv.Add

/-!
# Property C07: the barrier gradient is the gradient of the barrier objective
-/

set_option linter.unusedSimpArgs false
set_option linter.unnecessarySeqFocus false

namespace Hiop.Barrier

open Hiop.Vec Hiop.Iterate

variable {n mc m p : ℕ}

/-! ## Specification -/

/-- Barrier and damping terms of a vector `x` with optional bounds: `-mu log(x-l)`,
`-mu log(u-x)` for each bound, and the linear damping `kd mu (x-l)` or `kd mu (u-x)` for
one-sided components, damping only when `kd > 0`. -/
noncomputable def barrierTerms (mu kd : ℝ) (l u il iu x : RVec ℝ p) : ℝ :=
  ∑ i, ((if il i = 1 then -mu * Real.log (x i - l i) else 0)
    + (if iu i = 1 then -mu * Real.log (u i - x i) else 0)
    + (if 0 < kd ∧ il i = 1 ∧ iu i = 0 then kd * mu * (x i - l i) else 0)
    + (if 0 < kd ∧ iu i = 1 ∧ il i = 0 then kd * mu * (u i - x i) else 0))

/-- The barrier objective as a mathematical function of `(x,d)`. -/
noncomputable def barrierObjective (f : RVec ℝ n → ℝ) (b : Bounds ℝ n m) (mu kd : ℝ)
    (x : RVec ℝ n) (d : RVec ℝ m) : ℝ :=
  f x + barrierTerms mu kd b.xl b.xu b.ixl b.ixu x + barrierTerms mu kd b.dl b.du b.idl b.idu d

/-! ## Lemmas -/

/-- The compensation term of the summation stays zero in exact arithmetic. -/
theorem logBarrierLocal_eq_sum (x sel : RVec ℝ p) :
    logBarrierLocal x sel = ∑ i, if sel i = 1 then Real.log (x i) else 0 := by
  unfold logBarrierLocal
  rw [← finRange_map_sum]
  have key : ∀ (l : List (Fin p)) (a : ℝ),
      l.foldl (fun (s : ℝ × ℝ) i =>
        if sel i = 1 then
          let y := Real.log (x i) - s.2
          let t := s.1 + y
          (t, (t - s.1) - y)
        else s) (a, 0)
      = (a + (l.map (fun i => if sel i = 1 then Real.log (x i) else 0)).sum, 0) := by
    intro l
    induction l with
    | nil => simp
    | cons i l ih =>
      intro a
      rw [List.foldl_cons, List.map_cons, List.sum_cons]
      by_cases hi : sel i = 1
      · have e : (a + (Real.log (x i) - 0), a + (Real.log (x i) - 0) - a - (Real.log (x i) - 0))
            = ((a + Real.log (x i), 0) : ℝ × ℝ) := by ext <;> simp
        rw [if_pos hi, if_pos hi]
        simp only [e]
        rw [ih, add_assoc]
      · rw [if_neg hi, if_neg hi, ih, zero_add]
  rw [key]; simp

theorem barrierTerms_split (mu kd : ℝ) (l u il iu x sl su : RVec ℝ p)
    (h1 : ∀ i, il i = 1 → sl i = x i - l i) (h2 : ∀ i, iu i = 1 → su i = u i - x i) :
    barrierTerms mu kd l u il iu x =
      -mu * (logBarrierLocal sl il + logBarrierLocal su iu)
      + (if kd > 0 then linearDampingTermLocal sl il iu mu kd
          + linearDampingTermLocal su iu il mu kd else 0) := by
  rw [logBarrierLocal_eq_sum, logBarrierLocal_eq_sum, linearDampingTermLocal_eq_sum,
    linearDampingTermLocal_eq_sum]
  unfold barrierTerms
  by_cases hk : 0 < kd
  · simp only [hk, true_and, if_true, gt_iff_lt, Finset.sum_add_distrib, Finset.sum_mul,
      Finset.mul_sum, mul_add]
    have e1 : ∀ i, (if il i = 1 then -mu * Real.log (x i - l i) else 0)
        = -mu * (if il i = 1 then Real.log (sl i) else 0) := by
      intro i; split_ifs with h
      · rw [h1 i h]
      · simp
    have e2 : ∀ i, (if iu i = 1 then -mu * Real.log (u i - x i) else 0)
        = -mu * (if iu i = 1 then Real.log (su i) else 0) := by
      intro i; split_ifs with h
      · rw [h2 i h]
      · simp
    have e3 : ∀ i, (if il i = 1 ∧ iu i = 0 then kd * mu * (x i - l i) else 0)
        = (if il i = 1 ∧ iu i = 0 then sl i else 0) * mu * kd := by
      intro i; split_ifs with h
      · rw [h1 i h.1]; ring
      · simp
    have e4 : ∀ i, (if iu i = 1 ∧ il i = 0 then kd * mu * (u i - x i) else 0)
        = (if iu i = 1 ∧ il i = 0 then su i else 0) * mu * kd := by
      intro i; split_ifs with h
      · rw [h2 i h.1]; ring
      · simp
    simp only [e1, e2, e3, e4]; ring
  · simp only [hk, false_and, if_false, gt_iff_lt, Finset.sum_add_distrib, Finset.mul_sum, mul_add,
      Finset.sum_const_zero, add_zero]
    congr 1
    · refine Finset.sum_congr rfl fun i _ => ?_
      split_ifs with h
      · rw [h1 i h]
      · simp
    · refine Finset.sum_congr rfl fun i _ => ?_
      split_ifs with h
      · rw [h2 i h]
      · simp

/-- The gradient block as computed. -/
noncomputable def gradBlock (mu kd : ℝ) (sl su il iu g : RVec ℝ p) : RVec ℝ p :=
  let g' := addLogBarrierGrad (addLogBarrierGrad g (-mu) sl il) mu su iu
  if kd > 0 then addLinearDampingTerm g' il iu 1 (kd * mu * 1) else g'

theorem hasDerivAt_barrierTerms (mu kd : ℝ) (l u il iu x dx sl su g : RVec ℝ p)
    (hil : IsPattern il) (hiu : IsPattern iu)
    (h1 : ∀ i, il i = 1 → sl i = x i - l i) (h2 : ∀ i, iu i = 1 → su i = u i - x i)
    (p1 : ∀ i, il i = 1 → 0 < sl i) (p2 : ∀ i, iu i = 1 → 0 < su i) :
    HasDerivAt (fun t : ℝ => barrierTerms mu kd l u il iu (fun i => x i + t * dx i))
      (∑ i, dx i * (gradBlock mu kd sl su il iu g i - g i)) 0 := by
  unfold barrierTerms
  refine HasDerivAt.fun_sum fun i _ => ?_
  have hlin : HasDerivAt (fun t : ℝ => x i + t * dx i) (dx i) 0 := by
    simpa using ((hasDerivAt_id (0:ℝ)).mul_const (dx i)).const_add (x i)
  have hL : HasDerivAt (fun t : ℝ => x i + t * dx i - l i) (dx i) 0 := hlin.sub_const _
  have hU : HasDerivAt (fun t : ℝ => u i - (x i + t * dx i)) (-dx i) 0 := hlin.const_sub _
  have tL : HasDerivAt (fun t : ℝ => if il i = 1 then
      -mu * Real.log (x i + t * dx i - l i) else 0)
      (if il i = 1 then dx i * (-mu / sl i) else 0) 0 := by
    by_cases h : il i = 1
    · simp only [h, if_true]
      have hne : x i + (0:ℝ) * dx i - l i ≠ 0 := by
        have := p1 i h; rw [h1 i h] at this; simpa using this.ne'
      have := (hL.log hne).const_mul (-mu)
      refine this.congr_deriv ?_
      rw [h1 i h]; simp only [zero_mul, add_zero]; ring
    · simp only [h, if_false]; exact hasDerivAt_const _ _
  have tU : HasDerivAt (fun t : ℝ => if iu i = 1 then
      -mu * Real.log (u i - (x i + t * dx i)) else 0)
      (if iu i = 1 then dx i * (mu / su i) else 0) 0 := by
    by_cases h : iu i = 1
    · simp only [h, if_true]
      have hne : u i - (x i + (0:ℝ) * dx i) ≠ 0 := by
        have := p2 i h; rw [h2 i h] at this; simpa using this.ne'
      have := (hU.log hne).const_mul (-mu)
      refine this.congr_deriv ?_
      rw [h2 i h]; simp only [zero_mul, add_zero]; ring
    · simp only [h, if_false]; exact hasDerivAt_const _ _
  have dL : HasDerivAt (fun t : ℝ => if 0 < kd ∧ il i = 1 ∧ iu i = 0 then
      kd * mu * (x i + t * dx i - l i) else 0)
      (if 0 < kd ∧ il i = 1 ∧ iu i = 0 then kd * mu * dx i else 0) 0 := by
    split_ifs
    · exact hL.const_mul _
    · exact hasDerivAt_const _ _
  have dU : HasDerivAt (fun t : ℝ => if 0 < kd ∧ iu i = 1 ∧ il i = 0 then
      kd * mu * (u i - (x i + t * dx i)) else 0)
      (if 0 < kd ∧ iu i = 1 ∧ il i = 0 then kd * mu * -dx i else 0) 0 := by
    split_ifs
    · exact hU.const_mul _
    · exact hasDerivAt_const _ _
  refine (((tL.add tU).add dL).add dU).congr_deriv ?_
  unfold gradBlock
  by_cases hk : 0 < kd
  · simp only [hk, gt_iff_lt, if_true, true_and, addLinearDampingTerm, addLogBarrierGrad]
    rcases hil i with a | a <;> rcases hiu i with c | c <;> simp [a, c] <;> ring
  · simp only [hk, gt_iff_lt, if_false, false_and, addLogBarrierGrad]
    rcases hil i with a | a <;> rcases hiu i with c | c <;> simp [a, c] <;> ring

/-! ## Property theorems -/

/-- **C07.** The barrier objective evaluated for a trial point, and the one evaluated for the
current point, are the mathematical barrier objective. -/
theorem C07_barrier_value (f : RVec ℝ n → ℝ) (gradf : RVec ℝ n) (b : Bounds ℝ n m)
    (it : It ℝ n mc m) (mu kd : ℝ) (hm : SlacksMatch b it) :
    trialFuncOnly b it mu kd (f it.x) = barrierObjective f b mu kd it.x it.d ∧
    (updateWithNlpInfo b it mu kd (f it.x) gradf).f
      = barrierObjective f b mu kd it.x it.d := by
  unfold barrierObjective
  rw [barrierTerms_split mu kd b.xl b.xu b.ixl b.ixu it.x it.sxl it.sxu hm.sxl hm.sxu,
    barrierTerms_split mu kd b.dl b.du b.idl b.idu it.d it.sdl it.sdu hm.sdl hm.sdu]
  unfold trialFuncOnly updateWithNlpInfo evalLogBarrier linearDampingTerm
  by_cases hk : kd > 0
  · simp only [hk, if_true]; constructor <;> ring
  · simp only [hk, if_false]; constructor <;> ring

/-- **C07.** At an iterate with consistent, positive slacks, the reported directional
derivative is the derivative at `0` of the barrier objective evaluated by the solver at the
trial points `(x + t dx, d + t dd)`, given that the user's gradient is correct along `dx`. -/
theorem C07_directional_derivative (f : RVec ℝ n → ℝ) (gradf : RVec ℝ n) (b : Bounds ℝ n m)
    (it dir : It ℝ n mc m) (mu kd : ℝ) (hp : Patterns b) (hs : SlacksOk b it)
    (hm : SlacksMatch b it)
    (hf : HasDerivAt (fun t : ℝ => f (fun i => it.x i + t * dir.x i))
      (∑ i, gradf i * dir.x i) 0) :
    HasDerivAt
      (fun t : ℝ =>
        let trial := determineSlacks b (takeStepPrimals it it dir t)
        trialFuncOnly b trial mu kd (f trial.x))
      (directionalDerivative (updateWithNlpInfo b it mu kd (f it.x) gradf) dir) 0 := by
  have hx := hasDerivAt_barrierTerms mu kd b.xl b.xu b.ixl b.ixu it.x dir.x it.sxl it.sxu gradf
    hp.ixl hp.ixu hm.sxl hm.sxu (fun i => (hs.sxl i).1) (fun i => (hs.sxu i).1)
  have hd := hasDerivAt_barrierTerms mu kd b.dl b.du b.idl b.idu it.d dir.d it.sdl it.sdu
    (fun _ => 0) hp.idl hp.idu hm.sdl hm.sdu (fun i => (hs.sdl i).1) (fun i => (hs.sdu i).1)
  have hfun : (fun t : ℝ =>
        let trial := determineSlacks b (takeStepPrimals it it dir t)
        trialFuncOnly b trial mu kd (f trial.x))
      = fun t => barrierObjective f b mu kd (fun i => it.x i + t * dir.x i)
          (fun i => it.d i + t * dir.d i) := by
    funext t
    have hm' : SlacksMatch b (determineSlacks b (takeStepPrimals it it dir t)) := by
      refine ⟨?_, ?_, ?_, ?_⟩ <;> intro i hi <;>
        simp [determineSlacks, takeStepPrimals, Vec.selectPattern, axpy, hi, sub_eq_add_neg]
    exact (C07_barrier_value f gradf b _ mu kd hm').1
  rw [hfun]
  unfold barrierObjective
  refine ((hf.add hx).add hd).congr_deriv ?_
  unfold directionalDerivative
  rw [dot_eq_sum, dot_eq_sum]
  have ex : (updateWithNlpInfo b it mu kd (f it.x) gradf).gx
      = gradBlock mu kd it.sxl it.sxu b.ixl b.ixu gradf := by
    unfold updateWithNlpInfo gradBlock
    by_cases hk : kd > 0
    · simp only [hk, if_true]; rfl
    · simp only [hk, if_false]; rfl
  have ed : (updateWithNlpInfo b it mu kd (f it.x) gradf).gd
      = gradBlock mu kd it.sdl it.sdu b.idl b.idu (fun _ => 0) := by
    unfold updateWithNlpInfo gradBlock
    by_cases hk : kd > 0
    · simp only [hk, if_true]; rfl
    · simp only [hk, if_false]; rfl
  rw [ex, ed, ← Finset.sum_add_distrib]
  congr 1
  · refine Finset.sum_congr rfl fun i _ => ?_; ring
  · refine Finset.sum_congr rfl fun i _ => ?_; ring

/-- **C07.** The terms added to the dual residual (`addNonLogBarTermsToGrad_x/_d`) are `beta`
times the derivative of the damping part of the barrier objective: the difference between the
barrier gradient and the plain log-barrier gradient. -/
theorem C07_damping_in_residual (b : Bounds ℝ n m) (it : It ℝ n mc m) (mu kd beta f : ℝ)
    (gradf gx : RVec ℝ n) (gd : RVec ℝ m) (i : Fin n) (j : Fin m) :
    addNonLogBarTermsToGradX b mu kd beta gx i
      = gx i + beta * ((updateWithNlpInfo b it mu kd f gradf).gx i
        - (updateWithNlpInfo b it mu 0 f gradf).gx i) ∧
    addNonLogBarTermsToGradD b mu kd beta gd j
      = gd j + beta * ((updateWithNlpInfo b it mu kd f gradf).gd j
        - (updateWithNlpInfo b it mu 0 f gradf).gd j) := by
  unfold addNonLogBarTermsToGradX addNonLogBarTermsToGradD updateWithNlpInfo
  by_cases hk : kd > 0
  · simp only [hk, gt_iff_lt, lt_irrefl, if_true, if_false, addLinearDampingTermToGradX,
      addLinearDampingTermToGradD, addLinearDampingTerm]
    constructor <;> ring
  · simp [hk]

/-- One variable with lower bound `0` only, at `x = 2`, one free inequality. -/
noncomputable def exIt : It ℝ 1 0 1 :=
  { x := ![2], d := ![5], sxl := ![2], sxu := ![0], sdl := ![0], sdu := ![0], yc := ![],
    yd := ![0], zl := ![1], zu := ![0], vl := ![0], vu := ![0] }

/-- Its bounds. -/
noncomputable def exBd : Bounds ℝ 1 1 :=
  { xl := ![0], xu := ![0], ixl := ![1], ixu := ![0], dl := ![0], du := ![0], idl := ![0],
    idu := ![0] }

-- Non-vacuity: `f(x) = x²` at `x = 2`, direction `1`, meets the hypotheses; the derivative is
-- `4 - mu/2 + kd mu`.
example : HasDerivAt
    (fun t : ℝ =>
      let trial := determineSlacks exBd (takeStepPrimals exIt exIt { exIt with x := ![1] } t)
      trialFuncOnly exBd trial 1 (1/10) ((fun x : RVec ℝ 1 => (x 0)^2) trial.x))
    (4 - 1/2 + 1/10) 0 := by
  have h := C07_directional_derivative (fun x : RVec ℝ 1 => (x 0)^2) ![4] exBd exIt
    { exIt with x := ![1] } 1 (1/10)
    ⟨fun i => by fin_cases i; simp [exBd], fun i => by fin_cases i; simp [exBd],
      fun i => by fin_cases i; simp [exBd], fun i => by fin_cases i; simp [exBd]⟩
    ⟨fun i => by fin_cases i; simp [exBd, exIt], fun i => by fin_cases i; simp [exBd, exIt],
      fun i => by fin_cases i; simp [exBd, exIt], fun i => by fin_cases i; simp [exBd, exIt]⟩
    ⟨fun i => by fin_cases i; simp [exBd, exIt], fun i => by fin_cases i; simp [exBd],
      fun i => by fin_cases i; simp [exBd], fun i => by fin_cases i; simp [exBd]⟩
    (by
      have h1 : HasDerivAt (fun t : ℝ => (2:ℝ) + t * 1) 1 0 := by
        simpa using (hasDerivAt_id (0:ℝ)).const_add 2
      have h2 := h1.pow 2
      refine (h2.congr_deriv ?_)
      simp; norm_num)
  refine h.congr_deriv ?_
  rw [directionalDerivative, dot_eq_sum, dot_eq_sum]
  simp [updateWithNlpInfo, addLinearDampingTermToGradX, addLinearDampingTermToGradD,
    addLinearDampingTerm, addLogBarGradX, addLogBarGradD, addLogBarrierGrad, exBd, exIt]
  norm_num

end Hiop.Barrier
