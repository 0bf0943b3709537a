import Verif.Kkt.Props
import Mathlib.LinearAlgebra.Matrix.NonsingularInverse

/-!
# Quasi-Newton solve, iterative refinement, error measure, transposed operator, curvature test
-/

set_option linter.unusedSectionVars false
set_option linter.unusedSimpArgs false

namespace Hiop.Kkt

open Hiop.Vec Hiop.Iterate

variable {K : Type*} [Field K] [LinearOrder K] [IsStrictOrderedRing K] {n mc m p : ℕ}

/-! ## C18 for the quasi-Newton formulation -/

/-- The stacked Jacobian `[Jc; Jd]`. -/
def stackedJ (M : Mats K n mc m) : Matrix (Fin mc ⊕ Fin m) (Fin n) K :=
  Matrix.of (Sum.elim M.Jc M.Jd)

/-- **C18, quasi-Newton.** When the quasi-Newton matrix plus barrier diagonal is applied through an
exact inverse, the constraint matrix is built from the same inverse and nonsingular, and the dense
solve is exact for nonsingular matrices, the answers solve the (x, yc, yd) system. -/
theorem C18_low_rank (M : Mats K n mc m) (gx : RVec K n) (ddInv : RVec K m)
    (Ainv : Matrix (Fin n) (Fin n) K) (hsolve : RVec K n → RVec K n)
    (nmat : Matrix (Fin mc ⊕ Fin m) (Fin n) K → Matrix (Fin mc ⊕ Fin m) (Fin mc ⊕ Fin m) K)
    (lin : Matrix (Fin mc ⊕ Fin m) (Fin mc ⊕ Fin m) K → (Fin mc ⊕ Fin m → K) →
      (Fin mc ⊕ Fin m → K))
    (hA : (M.H + Matrix.diagonal gx) * Ainv = 1)
    (hh : ∀ r, hsolve r = Ainv.mulVec r)
    (hn : ∀ J, nmat J = J * Ainv * J.transpose)
    (hl : ∀ (N : Matrix (Fin mc ⊕ Fin m) (Fin mc ⊕ Fin m) K) r, IsUnit N.det →
      N.mulVec (lin N r) = r)
    (hdet : IsUnit (stackedJ M * Ainv * (stackedJ M).transpose
      + Matrix.diagonal (Sum.elim (fun _ => 0) ddInv)).det) :
    Solves3 M gx (fun _ => 0) ddInv (lowRankSolve M ddInv hsolve nmat lin) := by
  intro rx ryc ryd dx dyc dyd h
  set J : Matrix (Fin mc ⊕ Fin m) (Fin n) K := Matrix.of (Sum.elim M.Jc M.Jd) with hJ
  set N := nmat J + Matrix.diagonal (Sum.elim (fun _ => (0 : K)) ddInv) with hN
  set rhs : Fin mc ⊕ Fin m → K :=
    fun k => -1 * Sum.elim ryc ryd k + 1 * (J.mulVec (hsolve rx)) k with hrhs
  set y := lin N rhs with hy
  simp only [lowRankSolve, Option.some.injEq, Prod.mk.injEq] at h
  obtain ⟨h1, h2, h3⟩ := h
  have e1 : dyc = fun i => y (Sum.inl i) := h2.symm
  have e2 : dyd = fun i => y (Sum.inr i) := h3.symm
  have e0 : dx = Ainv.mulVec (rx - J.transpose.mulVec y) := by
    rw [← h1, hh]
    congr 1
    funext j
    change 1 * rx j + -1 * (J.transpose.mulVec y) j = rx j - (J.transpose.mulVec y) j
    ring
  have r0 : (M.H + Matrix.diagonal gx).mulVec dx = rx - J.transpose.mulVec y := by
    rw [e0, Matrix.mulVec_mulVec, hA, Matrix.one_mulVec]
  have hNy : N.mulVec y = rhs := hl N rhs (by rw [hN, hn]; exact hdet)
  have r1 : ∀ k, (J.mulVec dx) k
      = Sum.elim ryc ryd k + Sum.elim (fun _ => (0 : K)) ddInv k * y k := by
    intro k
    have a : J.mulVec dx = J.mulVec (Ainv.mulVec rx) - (nmat J).mulVec y := by
      rw [e0, Matrix.mulVec_sub, Matrix.mulVec_sub, hn, Matrix.mul_assoc, ← Matrix.mulVec_mulVec,
        ← Matrix.mulVec_mulVec]
    have c : (nmat J).mulVec y = rhs - (Matrix.diagonal (Sum.elim (fun _ => (0 : K)) ddInv)).mulVec y := by
      rw [← hNy, hN, Matrix.add_mulVec, add_sub_cancel_right]
    rw [a, c]
    simp only [Pi.sub_apply, Matrix.mulVec_diagonal, hrhs, hh]
    ring
  refine ⟨fun i => ?_, fun i => ?_, fun i => ?_⟩
  · have := congrFun r0 i
    rw [Matrix.add_mulVec, Pi.add_apply, Matrix.mulVec_diagonal] at this
    have t : (J.transpose.mulVec y) i = (∑ j, M.Jc j i * dyc j) + ∑ j, M.Jd j i * dyd j := by
      simp only [Matrix.mulVec, dotProduct, Fintype.sum_sum_type, Matrix.transpose_apply, hJ,
        Matrix.of_apply, e1, e2]
      rfl
    rw [Pi.sub_apply, t] at this
    have u : (M.H.mulVec dx) i = ∑ j, M.H i j * dx j := rfl
    rw [u] at this
    linear_combination this
  · have := r1 (Sum.inl i)
    simp only [Sum.elim_inl, zero_mul, add_zero] at this
    rw [zero_mul, sub_zero, ← this]
    rfl
  · have := r1 (Sum.inr i)
    simp only [Sum.elim_inr] at this
    have u : (J.mulVec dx) (Sum.inr i) = ∑ j, M.Jd i j * dx j := rfl
    rw [u] at this
    rw [this, e2]; ring

/-- Hypotheses of `C18_low_rank` on a concrete instance: one variable with Hessian and barrier term
one, one equality, one inequality, gradient one each. -/
example : Solves3 exM (fun _ => 1) (fun _ => 0) (fun _ => 1)
    (lowRankSolve exM (fun _ => 1) (fun r => (Matrix.of fun _ _ => (1 / 2 : ℚ)).mulVec r)
      (fun J => J * (Matrix.of fun _ _ => (1 / 2 : ℚ)) * J.transpose)
      (fun N r => (N⁻¹).mulVec r)) := by
  refine C18_low_rank exM (fun _ => 1) (fun _ => 1) (Matrix.of fun _ _ => (1 / 2 : ℚ)) _ _ _ ?_
    (fun _ => rfl) (fun _ => rfl) (fun N r hN => ?_) ?_
  · ext i j
    fin_cases i; fin_cases j
    decide +kernel
  · rw [Matrix.mulVec_mulVec, Matrix.mul_nonsing_inv _ hN, Matrix.one_mulVec]
  · rw [← Matrix.det_reindex_self finSumFinEquiv, Matrix.det_fin_two]
    simp only [isUnit_iff_ne_zero]
    decide +kernel

/-- **C18, quasi-Newton, end to end.** The direction of the quasi-Newton formulation solves the
unperturbed Newton equations. -/
theorem C18_low_rank_directions (b : Bounds K n m) (c : Counts) (M : Mats K n mc m)
    (it : It K n mc m) (r : Resid K n mc m) (dir dir' : It K n mc m)
    (Ainv : Matrix (Fin n) (Fin n) K) (hsolve : RVec K n → RVec K n)
    (nmat : Matrix (Fin mc ⊕ Fin m) (Fin n) K → Matrix (Fin mc ⊕ Fin m) (Fin mc ⊕ Fin m) K)
    (lin : Matrix (Fin mc ⊕ Fin m) (Fin mc ⊕ Fin m) K → (Fin mc ⊕ Fin m → K) →
      (Fin mc ⊕ Fin m → K))
    (hp : Patterns b) (hc : CountsOk c b) (hs : SlacksOk b it) (hz : DualsOk b it)
    (hi : ∀ i, b.idl i = 1 ∨ b.idu i = 1)
    (hA : (M.H + Matrix.diagonal (barrierDx b it)) * Ainv = 1)
    (hh : ∀ r, hsolve r = Ainv.mulVec r)
    (hn : ∀ J, nmat J = J * Ainv * J.transpose)
    (hl : ∀ (N : Matrix (Fin mc ⊕ Fin m) (Fin mc ⊕ Fin m) K) r, IsUnit N.det →
      N.mulVec (lin N r) = r)
    (hdet : IsUnit (stackedJ M * Ainv * (stackedJ M).transpose
      + Matrix.diagonal (Sum.elim (fun _ => 0) (fun i => 1 / sigD b it i))).det)
    (h : xycydDirections b c it (ddInvLowRank b it)
      (lowRankSolve M (ddInvLowRank b it) hsolve nmat lin) r dir = some dir') :
    FullNewton b M ⟨fun _ => 0, fun _ => 0, fun _ => 0, fun _ => 0⟩ it r dir' := by
  refine C18_xycyd b c M _ it r dir dir' _ _ hp hc hs hz ⟨hi, fun _ => le_rfl⟩
    (fun i => ddInvLowRank_eq b it i) ?_ h
  have := C18_low_rank M (barrierDx b it) (ddInvLowRank b it) Ainv hsolve nmat lin hA hh hn hl
    (by
      have e : ddInvLowRank b it = fun i => 1 / sigD b it i := by
        funext i; rw [ddInvLowRank_eq, add_zero]
      rw [e]; exact hdet)
  have e1 : barrierDx b it = fun i => sigX b it i + 0 := by
    funext i; rw [barrierDx_apply, sigX, add_zero]
  have e2 : ddInvLowRank b it = fun i => 1 / (sigD b it i + 0) + 0 := by
    funext i; rw [ddInvLowRank_eq, add_zero, add_zero]
  rw [e1] at this
  intro rx ryc ryd dx dyc dyd h
  have h' := this rx ryc ryd dx dyc dyd h
  simp only [e2] at h'
  exact h'

/-! ## C41: iterative refinement of the dense solve -/

theorem refineLoop_eq (A : Matrix (Fin p) (Fin p) K) (rhs X : RVec K p)
    (correct : RVec K p → RVec K p) (tol : K) (fuel : ℕ) (x : RVec K p) :
    refineLoop A rhs X correct tol fuel x = X := by
  induction fuel generalizing x with
  | zero => unfold refineLoop; simp
  | succ k ih =>
    unfold refineLoop
    simp only
    split
    · rfl
    · exact ih _

/-- **C41, deviation.** The refinement loop never changes the answer: whatever the corrections, the
returned vector is the first solution and the return code is success. -/
theorem C41_refinement_has_no_effect (A : Matrix (Fin p) (Fin p) K) (rhs : RVec K p)
    (dposvx correct : RVec K p → RVec K p) (tol : K) :
    solveWithRefin A rhs dposvx correct tol = (dposvx rhs, 0) := by
  unfold solveWithRefin
  rw [refineLoop_eq]

/-- **C41, refuted.** There are data for which the correction solve is exact, so one refinement
would yield the exact solution, and yet success is reported with a residual above the tolerance. -/
theorem C41_refined_residual_refuted :
    ∃ (A : Matrix (Fin 1) (Fin 1) ℚ) (rhs : RVec ℚ 1) (dposvx correct : RVec ℚ 1 → RVec ℚ 1)
      (tol : ℚ), 0 < tol ∧ (∀ r, A.mulVec (correct r) = r) ∧
      (solveWithRefin A rhs dposvx correct tol).2 = 0 ∧
      tol < infnorm (timesVec A 1 rhs (-1) (solveWithRefin A rhs dposvx correct tol).1) := by
  refine ⟨1, fun _ => 1, fun _ _ => 0, id, 1 / 2, by norm_num, fun r => Matrix.one_mulVec r, rfl, ?_⟩
  rw [C41_refinement_has_no_effect]
  have e : timesVec (1 : Matrix (Fin 1) (Fin 1) ℚ) 1 (fun _ => 1) (-1) (fun _ => 0) = fun _ => 1 := by
    funext i; simp [timesVec]
  change 1 / 2 < infnorm (timesVec (1 : Matrix (Fin 1) (Fin 1) ℚ) 1 (fun _ => 1) (-1) (fun _ => 0))
  rw [e]
  have := infnorm_ge (fun _ : Fin 1 => (1 : ℚ)) 0
  norm_num at this
  linarith

/-! ## C40: error measure and transposed operator -/

/-- **C40.** The logged error vectors are right-hand side minus operator applied to the
direction (the slack rows restricted to the existing bounds). -/
theorem C40_error_vectors (b : Bounds K n m) (M : Mats K n mc m) (dl : Deltas K n mc m)
    (it d : It K n mc m) (r : Resid K n mc m)
    (hr : ZeroOff r.rxl b.ixl ∧ ZeroOff r.rxu b.ixu ∧ ZeroOff r.rdl b.idl ∧ ZeroOff r.rdu b.idu) :
    let e := kktError b M dl it r d
    let k := kktTimes b M dl it d
    (∀ i, e.rx i = r.rx i - k.rx i) ∧ (∀ i, e.rd i = r.rd i - k.rd i) ∧
    (∀ i, e.ryc i = r.ryc i - k.ryc i) ∧ (∀ i, e.ryd i = r.ryd i - k.ryd i) ∧
    (∀ i, e.rxl i = r.rxl i - k.rxl i) ∧ (∀ i, e.rxu i = r.rxu i - k.rxu i) ∧
    (∀ i, e.rdl i = r.rdl i - k.rdl i) ∧ (∀ i, e.rdu i = r.rdu i - k.rdu i) ∧
    (∀ i, e.rszl i = r.rszl i - k.rszl i) ∧ (∀ i, e.rszu i = r.rszu i - k.rszu i) ∧
    (∀ i, e.rsvl i = r.rsvl i - k.rsvl i) ∧ (∀ i, e.rsvu i = r.rsvu i - k.rsvu i) := by
  obtain ⟨r1, r2, r3, r4⟩ := hr
  have sel : ∀ {q : ℕ} (w a rr u : RVec K q), ZeroOff rr w →
      (∀ i, a i = rr i - u i) →
      ∀ i, Vec.selectPattern a w i = rr i - Vec.selectPattern u w i := by
    intro q w a rr u hz ha i
    unfold Vec.selectPattern
    split_ifs with h
    · rw [hz i h, sub_zero]
    · exact ha i
  refine ⟨fun i => ?_, fun i => ?_, fun i => ?_, fun i => ?_,
    sel _ _ _ _ r1 fun i => by simp only [axpy]; ring,
    sel _ _ _ _ r2 fun i => by simp only [axpy]; ring,
    sel _ _ _ _ r3 fun i => by simp only [axpy]; ring,
    sel _ _ _ _ r4 fun i => by simp only [axpy]; ring,
    fun i => ?_, fun i => ?_, fun i => ?_, fun i => ?_⟩ <;>
  · simp only [kktError, kktTimes, axzpy_one, axzpy_neg_one, axpy, zeroVec, timesVec_apply,
      transTimesVec_apply]
    ring

/-- Sum of the products of the twelve parts. -/
def inner12 (a : Resid K n mc m) (c : It K n mc m) : K :=
  (∑ i, a.rx i * c.x i) + (∑ i, a.rd i * c.d i) + (∑ i, a.ryc i * c.yc i)
    + (∑ i, a.ryd i * c.yd i) + (∑ i, a.rxl i * c.sxl i) + (∑ i, a.rxu i * c.sxu i)
    + (∑ i, a.rdl i * c.sdl i) + (∑ i, a.rdu i * c.sdu i) + (∑ i, a.rszl i * c.zl i)
    + (∑ i, a.rszu i * c.zu i) + (∑ i, a.rsvl i * c.vl i) + (∑ i, a.rsvu i * c.vu i)

/-- **C40, deviation.** The operator offered as the transpose is not the transpose. -/
theorem C40_transpose_refuted :
    ∃ (b : Bounds ℚ 1 0) (M : Mats ℚ 1 0 0) (dl : Deltas ℚ 1 0 0) (it x y : It ℚ 1 0 0),
      Patterns b ∧ SlacksOk b it ∧ DualsOk b it ∧
      inner12 (kktTimes b M dl it x) y ≠ inner12 (kktTransTimes b M dl it y) x := by
  let z0 : RVec ℚ 0 := fun _ => 0
  let z1 : RVec ℚ 1 := fun _ => 0
  let o1 : RVec ℚ 1 := fun _ => 1
  refine ⟨⟨z1, z1, o1, z1, z0, z0, z0, z0⟩, ⟨0, 0, 0⟩, ⟨z1, z0, z0, z0⟩,
    ⟨o1, z0, o1, z1, z0, z0, z0, z0, o1, z1, z0, z0⟩,
    ⟨z1, z0, z1, z1, z0, z0, z0, z0, o1, z1, z0, z0⟩,
    ⟨o1, z0, z1, z1, z0, z0, z0, z0, z1, z1, z0, z0⟩, ?_, ?_, ?_, ?_⟩
  · constructor <;> intro i <;> first | exact i.elim0 | simp [z1, o1]
  · constructor <;> intro i <;> first | exact i.elim0 | simp [z1, o1]
  · constructor <;> intro i <;> first | exact i.elim0 | simp [z1, o1]
  · simp [inner12, kktTimes, kktTransTimes, axzpy, axpy, timesVec, transTimesVec, zeroVec,
      Vec.selectPattern, z0, z1, o1]

/-! ## C43: the curvature test -/

/-- **C43.** The curvature tested by the inertia-free test is the quadratic form of Hessian plus
barrier diagonals plus primal perturbations. -/
theorem C43_curvature (b : Bounds K n m) (M : Mats K n mc m) (dl : Deltas K n mc m)
    (it dir : It K n mc m) :
    curvature b M dl it dir
      = (∑ i, ∑ j, dir.x i * M.H i j * dir.x j)
        + (∑ i, (sigX b it i + dl.wx i) * dir.x i ^ 2)
        + ∑ i, (sigD b it i + dl.wd i) * dir.d i ^ 2 := by
  unfold curvature
  simp only [dot_eq_sum, timesVec_apply, zeroVec, axzpy_one, componentMult, barrierDx_apply,
    barrierDd_apply]
  congr 1
  · congr 1
    · refine Finset.sum_congr rfl fun i _ => ?_
      rw [mul_zero, zero_add, one_mul, Finset.sum_mul]
      exact Finset.sum_congr rfl fun j _ => by ring
    · refine Finset.sum_congr rfl fun i _ => ?_
      unfold sigX; ring
  · refine Finset.sum_congr rfl fun i _ => ?_
    unfold sigD; ring

/-- **C43.** The test accepts exactly the directions with curvature at least `fact` times the
squared length. -/
theorem C43_test (b : Bounds K n m) (M : Mats K n mc m) (dl : Deltas K n mc m)
    (it dir : It K n mc m) (fact : K) :
    testDirection b M dl it dir fact = true ↔
      fact * ((∑ i, dir.x i ^ 2) + ∑ i, dir.d i ^ 2)
        ≤ (∑ i, ∑ j, dir.x i * M.H i j * dir.x j)
        + (∑ i, (sigX b it i + dl.wx i) * dir.x i ^ 2)
        + ∑ i, (sigD b it i + dl.wd i) * dir.d i ^ 2 := by
  rw [← C43_curvature]
  unfold testDirection
  simp only [dot_eq_sum]
  have e : ∀ {q : ℕ} (v : RVec K q), ∑ i, v i * v i = ∑ i, v i ^ 2 := fun v =>
    Finset.sum_congr rfl fun i _ => by ring
  rw [e, e, mul_comm]
  by_cases h : curvature b M dl it dir < fact * (∑ i, dir.x i ^ 2 + ∑ i, dir.d i ^ 2)
  · simp [h]
  · simp [h]; exact not_lt.1 h

end Hiop.Kkt
