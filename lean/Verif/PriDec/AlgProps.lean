import Verif.PriDec.Alg
import Mathlib.Algebra.BigOperators.Field

/-!
# C45 — the outer iteration of the primal decomposition solver

`iter E o k` is the state after `k` outer iterations if none of them stops; `runSingle E o` is the run with
the stopping test.  Specifications used below: `approx` (the quadratic model, `Recourse.lean`), `meanVal`
and `meanGrad` (the averages over the recourse terms), and `convgAt` (the error measure of an iteration).
-/

set_option linter.unusedSectionVars false

namespace Hiop.PriDec

open Hiop.Vec

variable {n nc : ℕ}

/-- The state after `k` outer iterations. -/
noncomputable def iter (E : Prob n nc) (o : PDOpts) : ℕ → LS n nc
  | 0 => start E o
  | k + 1 => body E o k (iter E o k)

/-- The error measure computed in iteration `k`. -/
noncomputable def convgAt (E : Prob n nc) (o : PDOpts) (k : ℕ) : ℝ := (iter E o (k + 1)).convg

/-- Specification: mean of the recourse values at coupled variables `x0`. -/
noncomputable def meanVal (E : Prob n nc) (x0 : RVec ℝ nc) : ℝ := (∑ i ∈ Finset.range E.S, E.rf i x0) / E.S

/-- Specification: mean of the recourse gradients. -/
noncomputable def meanGrad (E : Prob n nc) (x0 : RVec ℝ nc) (j : Fin nc) : ℝ :=
  (∑ i ∈ Finset.range E.S, E.rg i x0 j) / E.S

theorem foldl_range_sum (m : ℕ) (g : ℕ → ℝ) :
    (List.range m).foldl (fun a i => a + g i) 0 = ∑ i ∈ Finset.range m, g i := by
  induction m with
  | zero => simp
  | succ m ih => rw [List.range_succ, List.foldl_append, ih, Finset.sum_range_succ]; rfl

theorem avgVal_eq (E : Prob n nc) (x0 : RVec ℝ nc) : avgVal E x0 = meanVal E x0 := by
  rw [avgVal, meanVal, foldl_range_sum E.S fun i => E.rf i x0]

theorem foldl_axpy (g : ℕ → RVec ℝ nc) (m : ℕ) (j : Fin nc) :
    (List.range m).foldl (fun a i => axpy a 1 (g i)) 0 j = ∑ i ∈ Finset.range m, g i j := by
  induction m with
  | zero => simp
  | succ m ih =>
    rw [List.range_succ, List.foldl_append, Finset.sum_range_succ, ← ih]
    simp [axpy]

theorem avgGrad_eq (E : Prob n nc) (x0 : RVec ℝ nc) (j : Fin nc) : avgGrad E x0 j = meanGrad E x0 j := by
  rw [avgGrad, meanGrad, ← foldl_axpy (fun i => E.rg i x0) E.S j]
  unfold scale
  split
  · rename_i h
    have : (E.S : ℝ) = 1 := by
      have h0 : (E.S : ℝ) ≠ 0 := fun h0 => by rw [h0] at h; norm_num at h
      field_simp at h
      linarith
    rw [this, div_one]
  · ring

/-! ### Which iteration is the last -/

theorem loop_eq (E : Prob n nc) (o : PDOpts) : ∀ fuel it, it + fuel = o.maxIter → 1 ≤ fuel →
    ∃ k, it ≤ k ∧ k < o.maxIter ∧ loop E o fuel it (iter E o it) = (iter E o (k + 1), k) ∧
      stopping o k (iter E o (k + 1)) = true ∧
      ∀ j, it ≤ j → j < k → stopping o j (iter E o (j + 1)) = false := by
  intro fuel
  induction fuel with
  | zero => intro it _ h; omega
  | succ fuel ih =>
    intro it hit _
    by_cases hs : stopping o it (iter E o (it + 1)) = true
    · refine ⟨it, le_refl _, by omega, ?_, hs, fun j h1 h2 => by omega⟩
      rw [loop]
      exact if_pos hs
    · have hne : it + 1 ≠ o.maxIter := by
        intro h
        apply hs
        simp [stopping, h]
      obtain ⟨k, h1, h2, h3, h4, h5⟩ := ih (it + 1) (by omega) (by omega)
      refine ⟨k, by omega, h2, ?_, h4, ?_⟩
      · rw [loop]
        rw [show (let s' := body E o it (iter E o it); if stopping o it s' then (s', it)
          else loop E o fuel (it + 1) s') = loop E o fuel (it + 1) (iter E o (it + 1)) from if_neg hs]
        exact h3
      · intro j hj1 hj2
        rcases Nat.eq_or_lt_of_le hj1 with rfl | h
        · simpa using hs
        · exact h5 j h hj2

/-- `accp` counts the latest consecutive iterations within the acceptable tolerance. -/
theorem accp_spec (E : Prob n nc) (o : PDOpts) : ∀ k, (iter E o k).accp ≤ k ∧
    (∀ j, j < k → k ≤ j + (iter E o k).accp → convgAt E o j ≤ o.accpTol) ∧
    ((iter E o k).accp < k → o.accpTol < convgAt E o (k - 1 - (iter E o k).accp)) := by
  intro k
  induction k with
  | zero => simp [iter, start]
  | succ k ih =>
    obtain ⟨h1, h2, h3⟩ := ih
    have hac : (iter E o (k + 1)).accp
        = if convgAt E o k ≤ o.accpTol then (iter E o k).accp + 1 else 0 := rfl
    by_cases hc : convgAt E o k ≤ o.accpTol
    · rw [if_pos hc] at hac
      rw [hac]
      refine ⟨by omega, fun j hj hj2 => ?_, fun hlt => ?_⟩
      · rcases Nat.lt_succ_iff_lt_or_eq.mp hj with h | rfl
        · exact h2 j h (by omega)
        · exact hc
      · have := h3 (by omega)
        rwa [show k + 1 - 1 - ((iter E o k).accp + 1) = k - 1 - (iter E o k).accp by omega]
    · rw [if_neg hc] at hac
      rw [hac]
      refine ⟨by omega, fun j hj hj2 => by omega, fun _ => ?_⟩
      simpa using hc

/-- The documented stopping rule, in terms of the error measures of the iterations: the tolerance is
reached, or this is the last allowed iteration, or exactly the `accpCount` latest consecutive iterations
are within the acceptable tolerance. -/
def StopsAt (c : ℕ → ℝ) (o : PDOpts) (k : ℕ) : Prop :=
  c k < o.tol ∨ k + 1 = o.maxIter ∨
    (o.accpCount ≤ k + 1 ∧ (∀ j, j ≤ k → k < j + o.accpCount → c j ≤ o.accpTol) ∧
      (o.accpCount < k + 1 → o.accpTol < c (k - o.accpCount)))

theorem stopping_iff (E : Prob n nc) (o : PDOpts) (k : ℕ) :
    stopping o k (iter E o (k + 1)) = true ↔ StopsAt (convgAt E o) o k := by
  have hs := accp_spec E o (k + 1)
  have key : (iter E o (k + 1)).accp = o.accpCount ↔
      (o.accpCount ≤ k + 1 ∧ (∀ j, j ≤ k → k < j + o.accpCount → convgAt E o j ≤ o.accpTol) ∧
      (o.accpCount < k + 1 → o.accpTol < convgAt E o (k - o.accpCount))) := by
    obtain ⟨h1, h2, h3⟩ := hs
    constructor
    · intro h
      rw [h] at h1 h2 h3
      refine ⟨h1, fun j hj hj2 => h2 j (by omega) (by omega), fun hlt => ?_⟩
      have := h3 hlt
      rwa [show k + 1 - 1 - o.accpCount = k - o.accpCount by omega] at this
    · rintro ⟨g1, g2, g3⟩
      rcases lt_trichotomy (iter E o (k + 1)).accp o.accpCount with h | h | h
      · have a := h3 (by omega)
        have b := g2 (k + 1 - 1 - (iter E o (k + 1)).accp) (by omega) (by omega)
        linarith
      · exact h
      · have a := g3 (by omega)
        have b := h2 (k - o.accpCount) (by omega) (by omega)
        linarith
  unfold stopping StopsAt
  rw [← key]
  show (if convgAt E o k < o.tol then true else _) = true ↔ _
  by_cases h1 : convgAt E o k < o.tol
  · simp [h1]
  · by_cases h2 : k + 1 = o.maxIter
    · simp [h1, h2]
    · by_cases h3 : (iter E o (k + 1)).accp = o.accpCount <;> simp [h1, h2, h3]

theorem iter_solves (E : Prob n nc) (o : PDOpts) (k : ℕ) : (iter E o k).solves = k + 1 := by
  induction k with
  | zero => rfl
  | succ k ih => show (iter E o k).solves + 1 = _; rw [ih]

/-- The run ends in the first iteration that meets the documented rule, hence after at most `max_iter`
iterations; the master problem has then been solved two times more than `getNumIterations` reports. -/
theorem C45_stops (E : Prob n nc) (o : PDOpts) (hm : 1 ≤ o.maxIter) :
    ∃ k, k < o.maxIter ∧ StopsAt (convgAt E o) o k ∧ (∀ j < k, ¬ StopsAt (convgAt E o) o j) ∧
      (runSingle E o).1 = iter E o (k + 1) ∧ (runSingle E o).2.1 = k ∧
      (runSingle E o).1.solves = k + 2 := by
  obtain ⟨k, -, h2, h3, h4, h5⟩ := loop_eq E o o.maxIter 0 (by omega) hm
  have hr : loop E o o.maxIter 0 (start E o) = (iter E o (k + 1), k) := h3
  refine ⟨k, h2, (stopping_iff E o k).mp h4, fun j hj h => ?_, ?_, ?_, ?_⟩
  · have := h5 j (Nat.zero_le _) hj
    rw [(stopping_iff E o j).mpr h] at this
    cases this
  · simp [runSingle, hr]
  · simp [runSingle, hr]
  · simp [runSingle, hr, iter_solves]

/-- `getNumIterations` is documented as the number of master solves; it never is. -/
theorem C45_num_iterations_false (E : Prob n nc) (o : PDOpts) (hm : 1 ≤ o.maxIter) :
    (runSingle E o).2.1 ≠ (runSingle E o).1.solves := by
  obtain ⟨k, -, -, -, -, h1, h2⟩ := C45_stops E o hm
  omega

/-! ### The quadratic coefficient and the approximation handed to the master problem -/

theorem alpha_bounds (o : PDOpts) (hab : o.alphaMin ≤ o.alphaMax) (h : HA nc) (g : RVec ℝ nc) :
    o.alphaMin ≤ (h.getAlphaF o g).alpha ∧ (h.getAlphaF o g).alpha ≤ o.alphaMax := by
  simp only [HA.getAlphaF]
  exact ⟨le_min hab (le_max_left _ _), min_le_left _ _⟩

/-- What the evaluator holds after iteration `k`. -/
theorem rec_spec (E : Prob n nc) (o : PDOpts) (k : ℕ) :
    ∃ e, (iter E o (k + 1)).recd = some e ∧ e.rval = meanVal E (coupled E (iter E o k).x) ∧
      (∀ j, e.rgrad j = meanGrad E (coupled E (iter E o k).x) j) ∧
      e.x0 = coupled E (iter E o k).x ∧ e.idx = E.idx ∧
      (∀ j, e.rhess j = (iter E o (k + 1)).ha.alpha) ∧
      (iter E o (k + 1)).ha.fk = e.rval ∧ (iter E o (k + 1)).ha.xkm1 = e.x0 ∧
      (iter E o (k + 1)).ha.gkm1 = e.rgrad ∧
      (iter E o (k + 1)).x = (E.solve (k + 1) (iter E o k).x (some e)).1 ∧
      (iter E o (k + 1)).obj = (E.solve (k + 1) (iter E o k).x (some e)).2.1 := by
  refine ⟨_, rfl, avgVal_eq E _, avgGrad_eq E _, rfl, rfl, fun _ => rfl, ?_, ?_, ?_, ?_, ?_⟩
  · show (HA.getAlphaF o _ _).fk = _
    by_cases hk : k = 0 <;> simp [hk, HA.getAlphaF, HA.updateRatio, HA.initialize, HA.update]
  · show (HA.getAlphaF o _ _).xkm1 = _
    by_cases hk : k = 0 <;> simp [hk, HA.getAlphaF, HA.updateRatio, HA.initialize, HA.update]
  · show (HA.getAlphaF o _ _).gkm1 = _
    by_cases hk : k = 0 <;> simp [hk, HA.getAlphaF, HA.updateRatio, HA.initialize, HA.update]
  · show (E.solve (iter E o k).solves _ _).1 = _
    rw [iter_solves]
  · show (E.solve (iter E o k).solves _ _).2.1 = _
    rw [iter_solves]

/-- The coupled part of `x` is `x[idx[0]], …`. -/
def CouplingOk (E : Prob n nc) : Prop := ∀ x j, coupled E x j = x (E.idx j)

theorem coupling_lt (E : Prob n nc) (h : nc < n) : CouplingOk E := by
  intro x j
  simp [coupled, h, gather]

theorem coupling_id (E : Prob n nc) (h : nc = n) (hid : ∀ j, (E.idx j).val = j.val) : CouplingOk E := by
  intro x j
  have hj : j.val < n := h ▸ j.isLt
  have : E.idx j = ⟨j.val, hj⟩ := Fin.ext (hid j)
  rw [this]
  simp [coupled, show ¬ nc < n by omega, hj]

/-- In every iteration the quadratic coefficients handed to the master problem lie in
`[alpha_min, alpha_max]`, so with positive `alpha_min` the approximation is strongly convex in the coupled
variables. -/
theorem C45_alpha (E : Prob n nc) (o : PDOpts) (hab : o.alphaMin ≤ o.alphaMax) (k : ℕ) :
    ∃ e, (iter E o (k + 1)).recd = some e ∧ ∀ j, o.alphaMin ≤ e.rhess j ∧ e.rhess j ≤ o.alphaMax := by
  obtain ⟨e, h1, -, -, -, -, h6, -⟩ := rec_spec E o k
  refine ⟨e, h1, fun j => ?_⟩
  rw [h6 j]
  exact alpha_bounds o hab _ _

/-- In every iteration the approximation handed to the master problem is tangent to the mean recourse
function at the current point: it has its value there, and the slope given by the mean gradient in every
direction. -/
theorem C45_tangent_partial (E : Prob n nc) (o : PDOpts) (hc : CouplingOk E) (k : ℕ) :
    ∃ e, (iter E o (k + 1)).recd = some e ∧
      (iter E o (k + 1)).x = (E.solve (k + 1) (iter E o k).x (some e)).1 ∧
      (∀ obj, e.evalF (iter E o k).x obj = obj + meanVal E (fun j => (iter E o k).x (E.idx j))) ∧
      ∀ d : RVec ℝ n, ∑ i, e.evalGrad (iter E o k).x 0 i * d i
        = ∑ j, meanGrad E (fun j => (iter E o k).x (E.idx j)) j * d (E.idx j) := by
  obtain ⟨e, h1, h2, h3, h4, h5, -, -, -, -, h10, -⟩ := rec_spec E o k
  have hx : coupled E (iter E o k).x = fun j => (iter E o k).x (E.idx j) := funext fun j => hc _ j
  have hx0 : ∀ j, (iter E o k).x (e.idx j) = e.x0 j := by
    intro j; rw [h4, h5, hx]
  refine ⟨e, h1, h10, fun obj => ?_, fun d => ?_⟩
  · rw [C30_value_at_x0 e _ hx0, h2, hx]
  · rw [C30_grad_at_x0 e _ d hx0, h5]
    refine Finset.sum_congr rfl fun j _ => ?_
    rw [h3 j, hx]

theorem sq_twonorm (v : RVec ℝ nc) : twonorm v * twonorm v = ∑ j, v j ^ 2 := by
  have h : dot v v = ∑ j, v j ^ 2 := by
    rw [dot_eq_sum]; exact Finset.sum_congr rfl fun j _ => by ring
  rw [twonorm, Real.mul_self_sqrt (by rw [h]; exact Finset.sum_nonneg fun j _ => sq_nonneg _), h]

/-- The recourse estimate used by the update rules is the value of the approximation that the master
problem was given. -/
theorem recAppx_eq (E : Prob n nc) (o : PDOpts) (hc : CouplingOk E) (k : ℕ) (e : Rec ℝ n nc)
    (he : (iter E o (k + 1)).recd = some e) (g : RVec ℝ nc) (f : ℝ) :
    ((iter E o (k + 1)).ha.update (coupled E (iter E o (k + 1)).x) g f).recAppx
      = approx e (iter E o (k + 1)).x := by
  obtain ⟨e', h1, h2, h3, h4, h5, h6, h7, h8, h9, -⟩ := rec_spec E o k
  rw [he] at h1
  obtain rfl : e = e' := Option.some.inj h1
  have hx : coupled E (iter E o (k + 1)).x = fun j => (iter E o (k + 1)).x (e.idx j) :=
    funext fun j => by rw [hc, h5]
  simp only [HA.recAppx, HA.update, h7, h9, h8, hx, mul_assoc, sq_twonorm, approx, dot_eq_sum, axpy,
    neg_one_mul, ← sub_eq_add_neg]
  have : ∀ j, e.rhess j = (iter E o (k + 1)).ha.alpha := h6
  simp only [this, ← Finset.sum_mul]
  have e1 : ∑ j, e.rgrad j * ((iter E o (k + 1)).x (e.idx j) - e.x0 j)
      = ∑ j, ((iter E o (k + 1)).x (e.idx j) - e.x0 j) * e.rgrad j :=
    Finset.sum_congr rfl fun j _ => mul_comm _ _
  rw [e1]
  norm_num
  ring

/-- If the master problem reports as its objective the basecase objective plus the approximation it was
given, the solver recovers the basecase objective exactly. -/
theorem C45_base (E : Prob n nc) (o : PDOpts) (hc : CouplingOk E) (k : ℕ) (e : Rec ℝ n nc)
    (he : (iter E o (k + 1)).recd = some e) (base : RVec ℝ n → ℝ)
    (hobj : (iter E o (k + 1)).obj = e.evalF (iter E o (k + 1)).x (base (iter E o (k + 1)).x)) :
    (iter E o (k + 2)).base = base (iter E o (k + 1)).x := by
  show (HA.update _ (coupled E (iter E o (k + 1)).x) _ _).computeBase (iter E o (k + 1)).obj = _
  rw [HA.computeBase, recAppx_eq E o hc k e he, hobj, C30_value]
  ring

/-- The error measure never exceeds the model's predicted decrease of the total objective, taken with the
coefficient of the new iteration: `½ (α_new - α_old) ‖s‖²` is added to the documented quantity. -/
theorem C45_convg_partial (E : Prob n nc) (o : PDOpts) (hc : CouplingOk E) (k : ℕ) (e : Rec ℝ n nc)
    (he : (iter E o (k + 1)).recd = some e) :
    convgAt E o (k + 1) ≤
      |(approx e (iter E o (k + 1)).x - e.rval) + ((iter E o (k + 2)).base - (iter E o (k + 1)).base)
        + ((iter E o (k + 2)).ha.alpha - (iter E o (k + 1)).ha.alpha) / 2
          * ∑ j, ((iter E o (k + 1)).x (E.idx j) - e.x0 j) ^ 2| := by
  obtain ⟨e', h1, h2, h3, h4, h5, h6, h7, h8, h9, -⟩ := rec_spec E o k
  have hr := recAppx_eq E o hc k e he (avgGrad E (coupled E (iter E o (k + 1)).x))
    (avgVal E (coupled E (iter E o (k + 1)).x))
  rw [he] at h1
  obtain rfl : e = e' := Option.some.inj h1
  have hs : axpy (coupled E (iter E o (k + 1)).x) (-1) (iter E o (k + 1)).ha.xkm1
      = fun j => (iter E o (k + 1)).x (E.idx j) - e.x0 j := by
    funext j
    simp [axpy, h8, hc (iter E o (k + 1)).x j, sub_eq_add_neg]
  have hcv : convgAt E o (k + 1) = minConvg ((iter E o (k + 2)).ha.checkFcn (iter E o (k + 2)).base
      (iter E o (k + 1)).base) ((iter E o (k + 2)).ha.checkGrad (avgGrad E (coupled E (iter E o (k + 1)).x))) :=
    rfl
  have hle : ∀ a q, minConvg a q ≤ a := by
    intro a q
    unfold minConvg
    split
    · exact le_refl _
    · split
      · exact le_of_lt ‹_›
      · exact le_refl _
  rw [hcv]
  refine le_trans (hle _ _) (le_of_eq ?_)
  have hlin : (iter E o (k + 2)).ha.fkm1Lin = dot (iter E o (k + 1)).ha.gkm1
      (axpy (coupled E (iter E o (k + 1)).x) (-1) (iter E o (k + 1)).ha.xkm1) := rfl
  have hsk : (iter E o (k + 2)).ha.skm1
      = axpy (coupled E (iter E o (k + 1)).x) (-1) (iter E o (k + 1)).ha.xkm1 := rfl
  rw [← hr]
  simp only [HA.checkFcn, hlin, hsk, HA.recAppx, HA.update, mul_assoc, sq_twonorm, hs, h7]
  congr 1
  norm_num
  ring

/-- The trust-region ratio keeps the multiplier of the coefficient within its bounds. -/
theorem C45_ratio (E : Prob n nc) (o : PDOpts) (k : ℕ) :
    1 / 2 ≤ (iter E o (k + 2)).ha.ratio ∧ (iter E o (k + 2)).ha.ratio ≤ 5 := by
  show 1 / 2 ≤ (HA.updateRatio _ _ _).ratio ∧ (HA.updateRatio _ _ _).ratio ≤ 5
  simp only [HA.updateRatio]
  refine ⟨?_, min_le_left _ _⟩
  have : (0.5 : ℝ) = 1 / 2 := by norm_num
  rw [this]
  exact le_min (by norm_num) (le_max_left _ _)

/-- The documented rule for the coefficient: when the mean recourse value is positive and the cap
`alpha_max` is not active, the approximation handed to the master problem stays above
`(1 - 1/ratio)` times the mean recourse value at every point. -/
theorem C45_model_lower_bound (E : Prob n nc) (o : PDOpts) (hmin : 0 < o.alphaMin)
    (k : ℕ) (e : Rec ℝ n nc) (he : (iter E o (k + 1)).recd = some e) (hf : 0 < e.rval)
    (hr : 0 < (iter E o (k + 1)).ha.ratio) (hcap : (iter E o (k + 1)).ha.alpha < o.alphaMax)
    (x : RVec ℝ n) :
    (1 - 1 / (iter E o (k + 1)).ha.ratio) * e.rval ≤ approx e x := by
  obtain ⟨e', h1, h2, h3, h4, h5, h6, h7, h8, h9, -⟩ := rec_spec E o k
  rw [he] at h1
  obtain rfl : e = e' := Option.some.inj h1
  set a := (iter E o (k + 1)).ha.alpha with ha
  set r := (iter E o (k + 1)).ha.ratio with hrr
  have hal : a = min o.alphaMax (max o.alphaMin
      (if (iter E o (k + 1)).ha.fk = 0 then (if 0 < twonorm e.rgrad * twonorm e.rgrad ∧ 0 < r
        then o.alphaMax else o.alphaMin)
      else twonorm e.rgrad * twonorm e.rgrad / 2.0 / (iter E o (k + 1)).ha.fk * r)) := by
    have hg : e.rgrad = avgGrad E (coupled E (iter E o k).x) := by
      funext j; rw [h3 j, avgGrad_eq]
    rw [ha, hrr, hg]
    rfl
  rw [h7, if_neg hf.ne'] at hal
  have hge : (∑ j, e.rgrad j ^ 2) / 2 / e.rval * r ≤ a := by
    rw [sq_twonorm] at hal
    have h20 : (2.0 : ℝ) = 2 := by norm_num
    rw [h20] at hal
    rcases min_choice o.alphaMax (max o.alphaMin ((∑ j, e.rgrad j ^ 2) / 2 / e.rval * r)) with h | h
    · rw [h] at hal; exact absurd hal hcap.ne
    · rw [hal, h]; exact le_max_right _ _
  have hapos : 0 < a := by
    rw [hal]
    refine lt_min (lt_of_le_of_lt' hcap.le ?_) (lt_of_lt_of_le hmin (le_max_left _ _))
    rw [hal]
    rcases min_choice o.alphaMax (max o.alphaMin (twonorm e.rgrad * twonorm e.rgrad / 2.0 / e.rval * r)) with h | h
    · exact absurd (hal.trans h) hcap.ne
    · rw [h]; exact lt_of_lt_of_le hmin (le_max_left _ _)
  -- completing the square in each coupled variable
  have hsq : ∑ j, e.rgrad j ^ 2 ≤ 2 * e.rval * a / r := by
    rw [le_div_iff₀ hr]
    have := mul_le_mul_of_nonneg_right hge (by positivity : 0 ≤ 2 * e.rval)
    have e2 : (∑ j, e.rgrad j ^ 2) / 2 / e.rval * r * (2 * e.rval) = (∑ j, e.rgrad j ^ 2) * r := by
      field_simp
    linarith
  have hj : ∀ j, -(e.rgrad j ^ 2 / (2 * a)) ≤ (x (e.idx j) - e.x0 j) * e.rgrad j
      + 1 / 2 * ((x (e.idx j) - e.x0 j) ^ 2 * a) := by
    intro j
    have h := sq_nonneg (a * (x (e.idx j) - e.x0 j) + e.rgrad j)
    have h2 : 0 ≤ (a * (x (e.idx j) - e.x0 j) + e.rgrad j) ^ 2 / (2 * a) := div_nonneg h (by positivity)
    have e3 : (a * (x (e.idx j) - e.x0 j) + e.rgrad j) ^ 2 / (2 * a)
        = (x (e.idx j) - e.x0 j) * e.rgrad j + 1 / 2 * ((x (e.idx j) - e.x0 j) ^ 2 * a)
          + e.rgrad j ^ 2 / (2 * a) := by
      field_simp
      ring
    linarith
  have hsum := Finset.sum_le_sum fun j (_ : j ∈ Finset.univ) => hj j
  rw [Finset.sum_neg_distrib, ← Finset.sum_div, Finset.sum_add_distrib, ← Finset.mul_sum] at hsum
  have hA : approx e x = e.rval + (∑ j, (x (e.idx j) - e.x0 j) * e.rgrad j
      + 1 / 2 * ∑ j, (x (e.idx j) - e.x0 j) ^ 2 * a) := by
    simp only [approx, h6]
    ring
  have hb : (∑ j, e.rgrad j ^ 2) / (2 * a) ≤ e.rval / r := by
    rw [div_le_div_iff₀ (by positivity) hr]
    rw [le_div_iff₀ hr] at hsq
    linarith
  rw [hA]
  have : (1 - 1 / r) * e.rval = e.rval - e.rval / r := by ring
  rw [this]
  linarith

/-! ### Where the documented behaviour fails -/

/-- One recourse term `x ↦ x₀` of two coupled variables listed in the order `1, 0`. -/
noncomputable def swapProb : Prob 2 2 :=
  { S := 1, rf := fun _ x => x 0, rg := fun _ _ => ![1, 0], idx := ![1, 0],
    solve := fun _ _ _ => (![1, 2], 0, 0) }

/-- When all variables are coupled but the index list is not `0, 1, …`, the approximation handed to the
master problem is not tangent at the current point: `C45_tangent_partial` needs its hypothesis. -/
theorem C45_tangent_false (o : PDOpts) (hmin : 0 < o.alphaMin) (hab : o.alphaMin ≤ o.alphaMax) :
    ∃ e, (iter swapProb o 1).recd = some e ∧
      e.evalF (iter swapProb o 0).x 0 ≠ meanVal swapProb (fun j => (iter swapProb o 0).x (swapProb.idx j)) ∧
      e.evalF (iter swapProb o 0).x 0 ≠ meanVal swapProb (coupled swapProb (iter swapProb o 0).x) := by
  obtain ⟨e, h1, h2, h3, h4, h5, h6, -⟩ := rec_spec swapProb o 0
  have hx : (iter swapProb o 0).x = ![1, 2] := rfl
  have hc : coupled swapProb ![1, 2] = ![1, 2] := by
    funext j
    fin_cases j <;> simp [coupled]
  have ha : o.alphaMin ≤ (iter swapProb o 1).ha.alpha := (alpha_bounds o hab _ _).1
  rw [hx, hc] at h2 h3 h4
  have m1 : meanVal swapProb ![1, 2] = 1 := by simp [meanVal, swapProb]
  have m2 : meanVal swapProb (fun j => (![1, 2] : RVec ℝ 2) (swapProb.idx j)) = 2 := by
    simp [meanVal, swapProb]
  have g0 : e.rgrad 0 = 1 := by rw [h3]; simp [meanGrad, swapProb]
  have g1 : e.rgrad 1 = 0 := by rw [h3]; simp [meanGrad, swapProb]
  have hv : e.evalF ![1, 2] 0 = 2 + (iter swapProb o 1).ha.alpha := by
    rw [C30_value, approx, h2, m1, h5, h4]
    simp only [Fin.sum_univ_two, h6, g0, g1]
    simp [swapProb]
    ring
  refine ⟨e, h1, ?_, ?_⟩
  · rw [hx, hv, m2]
    intro h
    linarith
  · rw [hx, hv, hc, m1]
    intro h
    linarith

/-- A problem with one variable, not coupled to anything that changes. -/
noncomputable def oneProb : Prob 1 1 :=
  { S := 1, rf := fun _ _ => 1, rg := fun _ _ => 0, idx := fun _ => 0, solve := fun _ _ _ => (0, 0, 0) }

/-- `run` and `run_single` report `Solve_Success` also when the iteration limit stops them without any
convergence test having been met. -/
theorem C45_success_without_convergence (o : PDOpts) (hm : o.maxIter = 1) (ht : o.tol ≤ 1)
    (hat : o.accpTol ≤ 1) :
    (runSingle oneProb o).2.2 = 0 ∧ runStatus oneProb o = 0 ∧ (runSingle oneProb o).2.1 = 0 ∧
      ¬ (convgAt oneProb o 0 < o.tol) ∧ ¬ (convgAt oneProb o 0 ≤ o.accpTol) := by
  have h0 : convgAt oneProb o 0 = 1e20 := rfl
  have hlt : (1 : ℝ) < 1e20 := by norm_num
  obtain ⟨k, h1, -, -, h4, h5, -⟩ := C45_stops oneProb o (by omega)
  obtain rfl : k = 0 := by omega
  refine ⟨rfl, ?_, h5, ?_, ?_⟩
  · rw [runStatus, h4]; rfl
  · rw [h0]; linarith
  · rw [h0]; linarith

/-! ### The hypotheses are met -/

/-- The default options (hiopOptions.cpp:1607-1725). -/
noncomputable def defaultOpts : PDOpts :=
  { tol := 1e-5, accpTol := 1e-3, accpCount := 25, maxIter := 30000, alphaMin := 1e-5, alphaMax := 1e6,
    alphaRatio := 1 }

example : 0 < defaultOpts.alphaMin ∧ defaultOpts.alphaMin ≤ defaultOpts.alphaMax ∧ 1 ≤ defaultOpts.maxIter ∧
    defaultOpts.tol ≤ 1 := by
  norm_num [defaultOpts]

/-- Two variables, one coupled: `x₁`; recourse value `x₁²`.  The master problem returns `(0, 1)` first. -/
noncomputable def exProb : Prob 2 1 :=
  { S := 1, rf := fun _ x => x 0 ^ 2, rg := fun _ x => fun _ => 2 * x 0, idx := fun _ => 1,
    solve := fun k _ _ => if k = 0 then (![0, 1], 0, 0) else (![0, 1 / 2], 1 / 4, 0) }

example : CouplingOk exProb := coupling_lt _ (by norm_num)

/-- The hypotheses of `C45_model_lower_bound` hold in the first iteration: value 1, coefficient 2. -/
example : ∃ e, (iter exProb defaultOpts 1).recd = some e ∧ 0 < e.rval ∧
    0 < (iter exProb defaultOpts 1).ha.ratio ∧ (iter exProb defaultOpts 1).ha.alpha < defaultOpts.alphaMax := by
  obtain ⟨e, h1, h2, -⟩ := rec_spec exProb defaultOpts 0
  have hx : (iter exProb defaultOpts 0).x = ![0, 1] := by simp [iter, start, exProb]
  have hv : e.rval = 1 := by
    rw [h2, hx]; simp [meanVal, exProb, coupled, gather]
  have hr : (iter exProb defaultOpts 1).ha.ratio = 1 := by
    show (HA.getAlphaF _ _ _).ratio = 1
    rfl
  refine ⟨e, h1, by rw [hv]; norm_num, by rw [hr]; norm_num, ?_⟩
  have hal : (iter exProb defaultOpts 1).ha.alpha = min defaultOpts.alphaMax (max defaultOpts.alphaMin
      (if avgVal exProb (coupled exProb (iter exProb defaultOpts 0).x) = 0 then _ else
        twonorm (avgGrad exProb (coupled exProb (iter exProb defaultOpts 0).x))
          * twonorm (avgGrad exProb (coupled exProb (iter exProb defaultOpts 0).x)) / 2.0
          / avgVal exProb (coupled exProb (iter exProb defaultOpts 0).x) * 1)) := rfl
  have ha : avgVal exProb (coupled exProb (iter exProb defaultOpts 0).x) = 1 := by
    rw [avgVal_eq, hx]; simp [meanVal, exProb, coupled, gather]
  rw [hal, sq_twonorm, ha]
  simp only [avgGrad_eq, hx]
  simp [meanGrad, exProb, coupled, gather, defaultOpts]
  norm_num

end Hiop.PriDec
