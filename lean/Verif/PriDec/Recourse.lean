import Verif.Vec.Lemmas
import Mathlib.Analysis.Calculus.Deriv.Pow
import Mathlib.Analysis.Calculus.Deriv.Mul
import Mathlib.Analysis.Calculus.Deriv.Add
import Mathlib.Data.Real.Basic

/-!
# C30 — the recourse approximation seen by the master problem

Source: `src/Interface/hiopInterfacePrimalDecomp.cpp`, class `RecourseApproxEvaluator`.  The user's master
problem calls `eval_f`, `eval_grad`, `eval_hess` to add the approximation of the recourse term to their own
objective, gradient and Hessian.  `x` has `n` entries, of which the `nc` entries `x[idx[0]], …` are coupled
to the recourse problems.
-/

set_option linter.unusedSectionVars false

namespace Hiop.PriDec

open Hiop.Vec

section Model

variable {K : Type*} [Field K] [LinearOrder K] {n nc : ℕ}

/-- The members of the evaluator (hiopInterfacePrimalDecomp.cpp:80-82 and the setters :185-225).  `xc_idx_`
is a list of indices into `x`; the asserts of `axpy`/`copy_from_indexes` make them less than `n`. -/
structure Rec (K : Type*) (n nc : ℕ) where
  rval : K
  rgrad : RVec K nc
  rhess : RVec K nc
  x0 : RVec K nc
  idx : Fin nc → Fin n

/-- `copy_from_indexes`, hiopVectorPar.cpp:210-220. -/
def gather (x : RVec K n) (idx : Fin nc → Fin n) : RVec K nc := fun i => x (idx i)

/-- `axpy` with indices, hiopVectorPar.cpp:673-689. -/
def axpyIdx (y : RVec K n) (a : K) (x : RVec K nc) (idx : Fin nc → Fin n) : RVec K n :=
  (List.finRange nc).foldl (fun y j => Function.update y (idx j) (y (idx j) + a * x j)) y

/-- `eval_f`, hiopInterfacePrimalDecomp.cpp:119-135: `obj_value` on exit. -/
def Rec.evalF (e : Rec K n nc) (x : RVec K n) (obj : K) : K :=
  let obj := obj + e.rval
  let v := axpy (gather x e.idx) (-1) e.x0
  let obj := obj + dot v e.rgrad
  let v := componentMult v v
  obj + 1 / 2 * dot v e.rhess

/-- `eval_grad`, hiopInterfacePrimalDecomp.cpp:138-167: `grad` on exit.  The work vector of size `n` is
only a copy of `grad`. -/
def Rec.evalGrad (e : Rec K n nc) (x : RVec K n) (grad : RVec K n) : RVec K n :=
  let v := axpy (gather x e.idx) (-1) e.x0
  let v := componentMult v e.rhess
  let v := axpy v 1 e.rgrad
  axpyIdx grad 1 v e.idx

/-- `eval_hess`, hiopInterfacePrimalDecomp.cpp:175-182: a vector with one entry per coupled variable. -/
def Rec.evalHess (e : Rec K n nc) (_x : RVec K n) (hess : RVec K nc) : RVec K nc := axpy hess 1 e.rhess

end Model

section Props

variable {K : Type*} [Field K] [LinearOrder K] [IsStrictOrderedRing K] {n nc : ℕ}

theorem axpyIdx_apply (a : K) (x : RVec K nc) (idx : Fin nc → Fin n) (y : RVec K n) (k : Fin n) :
    axpyIdx y a x idx k = y k + ∑ j, if idx j = k then a * x j else 0 := by
  have gen : ∀ (l : List (Fin nc)) (y : RVec K n),
      l.foldl (fun y j => Function.update y (idx j) (y (idx j) + a * x j)) y k
        = y k + (l.map fun j => if idx j = k then a * x j else 0).sum := by
    intro l
    induction l with
    | nil => intro y; simp
    | cons j l ih =>
      intro y
      rw [List.foldl_cons, ih, List.map_cons, List.sum_cons]
      by_cases h : idx j = k
      · subst h; simp; ring
      · rw [Function.update_of_ne (Ne.symm h)]; simp [h]
  rw [axpyIdx, gen, finRange_map_sum]

/-- Specification: the second-order model `rval + g·(x_c - x0) + ½ Σ h (x_c - x0)²`, where `x_c` are the
coupled entries of `x`. -/
def approx (e : Rec K n nc) (x : RVec K n) : K :=
  e.rval + ∑ j, (x (e.idx j) - e.x0 j) * e.rgrad j + 1 / 2 * ∑ j, (x (e.idx j) - e.x0 j) ^ 2 * e.rhess j

/-- `eval_f` adds exactly the value of the model to the user's objective. -/
theorem C30_value (e : Rec K n nc) (x : RVec K n) (obj : K) : e.evalF x obj = obj + approx e x := by
  simp only [Rec.evalF, approx, dot_eq_sum, axpy, gather, componentMult, neg_one_mul, ← sub_eq_add_neg]
  have : ∀ j, (x (e.idx j) - e.x0 j) * (x (e.idx j) - e.x0 j) = (x (e.idx j) - e.x0 j) ^ 2 := fun j => by ring
  simp only [this]
  ring

/-- What `eval_grad` adds to entry `k` of the user's gradient: the sum over the coupling positions that
refer to `k`. -/
theorem evalGrad_apply (e : Rec K n nc) (x grad : RVec K n) (k : Fin n) :
    e.evalGrad x grad k
      = grad k + ∑ j, if e.idx j = k then (x (e.idx j) - e.x0 j) * e.rhess j + e.rgrad j else 0 := by
  rw [Rec.evalGrad, axpyIdx_apply]
  congr 1
  refine Finset.sum_congr rfl fun j _ => ?_
  by_cases h : e.idx j = k
  · simp [h, axpy, gather, componentMult, ← sub_eq_add_neg]
  · simp [h]

theorem grad_dot (e : Rec K n nc) (x d : RVec K n) :
    ∑ k, (e.evalGrad x 0 k) * d k
      = ∑ j, ((x (e.idx j) - e.x0 j) * e.rhess j + e.rgrad j) * d (e.idx j) := by
  simp only [evalGrad_apply, Pi.zero_apply, zero_add, Finset.sum_mul]
  rw [Finset.sum_comm]
  refine Finset.sum_congr rfl fun j _ => ?_
  rw [Finset.sum_eq_single (e.idx j)]
  · simp
  · intro k _ hk; simp [Ne.symm hk]
  · simp

/-- `eval_grad` adds the same vector whatever the user's gradient is. -/
theorem C30_grad_adds (e : Rec K n nc) (x grad : RVec K n) (k : Fin n) :
    e.evalGrad x grad k = grad k + e.evalGrad x 0 k := by
  simp [evalGrad_apply]

/-- `eval_f`, `eval_grad` and `eval_hess` are consistent with each other for every point, every direction
and every list of coupling indices (repeated ones included): moving from `x` to `x + d` changes the value
by the added gradient times `d` plus half the quadratic form of the added Hessian entries at the coupled
entries of `d`. -/
theorem C30_taylor (e : Rec K n nc) (x d : RVec K n) (obj : K) :
    e.evalF (x + d) obj = e.evalF x obj + ∑ k, e.evalGrad x 0 k * d k
      + 1 / 2 * ∑ j, e.evalHess x 0 j * d (e.idx j) ^ 2 := by
  rw [C30_value, C30_value, grad_dot]
  have hh : ∀ j, e.evalHess x 0 j = e.rhess j := fun j => by simp [Rec.evalHess, axpy]
  simp only [hh, approx, Pi.add_apply]
  have key : ∑ j, (x (e.idx j) + d (e.idx j) - e.x0 j) * e.rgrad j
      + 1 / 2 * ∑ j, (x (e.idx j) + d (e.idx j) - e.x0 j) ^ 2 * e.rhess j
      = ∑ j, (x (e.idx j) - e.x0 j) * e.rgrad j + 1 / 2 * ∑ j, (x (e.idx j) - e.x0 j) ^ 2 * e.rhess j
      + ∑ j, ((x (e.idx j) - e.x0 j) * e.rhess j + e.rgrad j) * d (e.idx j)
      + 1 / 2 * ∑ j, e.rhess j * d (e.idx j) ^ 2 := by
    simp only [Finset.mul_sum, ← Finset.sum_add_distrib]
    refine Finset.sum_congr rfl fun j _ => ?_
    ring
  linear_combination key

/-- The gradient changes along `d` by the Hessian entries times the coupled entries of `d`, scattered to
the coupled variables. -/
theorem C30_hessian (e : Rec K n nc) (x d : RVec K n) (k : Fin n) :
    e.evalGrad (x + d) 0 k = e.evalGrad x 0 k
      + ∑ j, if e.idx j = k then e.evalHess x 0 j * d (e.idx j) else 0 := by
  rw [evalGrad_apply, evalGrad_apply]
  simp only [Pi.zero_apply, zero_add, ← Finset.sum_add_distrib]
  refine Finset.sum_congr rfl fun j _ => ?_
  by_cases h : e.idx j = k
  · simp [h, Rec.evalHess, axpy]; ring
  · simp [h]

/-- At the expansion point the value added is `rval`. -/
theorem C30_value_at_x0 (e : Rec K n nc) (x : RVec K n) (hx : ∀ j, x (e.idx j) = e.x0 j) (obj : K) :
    e.evalF x obj = obj + e.rval := by
  rw [C30_value]
  simp [approx, hx]

/-- At the expansion point the derivative of the added value along `d` is `rgrad · d_c`. -/
theorem C30_grad_at_x0 (e : Rec K n nc) (x d : RVec K n) (hx : ∀ j, x (e.idx j) = e.x0 j) :
    ∑ k, e.evalGrad x 0 k * d k = ∑ j, e.rgrad j * d (e.idx j) := by
  rw [grad_dot]
  simp [hx]

/-- With distinct coupling indices, each coupled entry of the added gradient is the corresponding entry of
`rgrad` at the expansion point, and the uncoupled entries are untouched. -/
theorem C30_grad_entries (e : Rec K n nc) (x : RVec K n) (hx : ∀ j, x (e.idx j) = e.x0 j)
    (hinj : Function.Injective e.idx) (grad : RVec K n) :
    (∀ j, e.evalGrad x grad (e.idx j) = grad (e.idx j) + e.rgrad j) ∧
    ∀ k, (∀ j, e.idx j ≠ k) → e.evalGrad x grad k = grad k := by
  constructor
  · intro j
    rw [evalGrad_apply, Finset.sum_eq_single j]
    · simp [hx]
    · intro i _ hi; simp [hinj.ne hi]
    · simp
  · intro k hk
    rw [evalGrad_apply]
    simp [hk]

/-- With nonnegative Hessian entries the added term lies above each of its tangents (it is convex). -/
theorem C30_convex (e : Rec K n nc) (hh : ∀ j, 0 ≤ e.rhess j) (x d : RVec K n) (obj : K) :
    e.evalF x obj + ∑ k, e.evalGrad x 0 k * d k ≤ e.evalF (x + d) obj := by
  rw [C30_taylor]
  have : 0 ≤ ∑ j, e.evalHess x 0 j * d (e.idx j) ^ 2 := by
    refine Finset.sum_nonneg fun j _ => mul_nonneg ?_ (sq_nonneg _)
    simpa [Rec.evalHess, axpy] using hh j
  linarith [mul_nonneg (by norm_num : (0 : K) ≤ 1 / 2) this]

end Props

section Deriv

variable {n nc : ℕ}

/-- Over the reals, `eval_grad` adds the directional derivatives of what `eval_f` adds. -/
theorem C30_derivative (e : Rec ℝ n nc) (x d : RVec ℝ n) (obj : ℝ) :
    HasDerivAt (fun t : ℝ => e.evalF (x + t • d) obj) (∑ k, e.evalGrad x 0 k * d k) 0 := by
  have key : (fun t : ℝ => e.evalF (x + t • d) obj) = fun t => e.evalF x obj
      + (∑ k, e.evalGrad x 0 k * d k) * t + (1 / 2 * ∑ j, e.evalHess x 0 j * d (e.idx j) ^ 2) * t ^ 2 := by
    funext t
    rw [C30_taylor]
    have h1 : ∑ k, e.evalGrad x 0 k * (t • d) k = (∑ k, e.evalGrad x 0 k * d k) * t := by
      rw [Finset.sum_mul]; refine Finset.sum_congr rfl fun k _ => ?_
      simp only [Pi.smul_apply, smul_eq_mul]; ring
    have h2 : ∑ j, e.evalHess x 0 j * (t • d) (e.idx j) ^ 2
        = (∑ j, e.evalHess x 0 j * d (e.idx j) ^ 2) * t ^ 2 := by
      rw [Finset.sum_mul]; refine Finset.sum_congr rfl fun k _ => ?_
      simp only [Pi.smul_apply, smul_eq_mul]; ring
    rw [h1, h2]
    ring
  rw [key]
  have h1 := ((hasDerivAt_id (0 : ℝ)).const_mul (∑ k, e.evalGrad x 0 k * d k)).const_add (e.evalF x obj)
  have h2 := ((hasDerivAt_id (0 : ℝ)).pow 2).const_mul (1 / 2 * ∑ j, e.evalHess x 0 j * d (e.idx j) ^ 2)
  have h3 := h1.add h2
  refine (h3.congr_deriv ?_)
  simp

end Deriv

/-- A concrete evaluator with two of three variables coupled, in a non-monotone order. -/
def exRec : Rec ℚ 3 2 :=
  { rval := 5, rgrad := ![1, -2], rhess := ![4, 4], x0 := ![10, 20], idx := ![2, 0] }

/-- The point `x = (20, 7, 10)` has its coupled entries at the expansion point; moving by `(1, 1, 1)`
changes the value by `-1 + ½(4+4)`. -/
example : (∀ j, (![20, 7, 10] : RVec ℚ 3) (exRec.idx j) = exRec.x0 j) ∧ Function.Injective exRec.idx ∧
    (∀ j, 0 ≤ exRec.rhess j) ∧ exRec.evalF ![20, 7, 10] 100 = 105 ∧ exRec.evalF ![21, 8, 11] 100 = 108 ∧
    exRec.evalGrad ![21, 8, 11] ![0, 9, 0] = ![2, 9, 5] := by
  decide +kernel

end Hiop.PriDec
