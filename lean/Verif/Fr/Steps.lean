import Verif.Fr.Props
import Verif.Filter.Props
import Verif.Iterate.Props
import Verif.Barrier.Props
import Mathlib.Analysis.SpecialFunctions.Log.Basic

/-!
# Property C48: starting point, penalty, termination test, forced update
-/

set_option linter.unusedSimpArgs false
set_option linter.unusedSectionVars false
set_option linter.unusedVariables false

namespace Hiop.Fr

open Hiop.Vec Hiop.Kkt Hiop.QN Hiop.Iterate Hiop.Barrier Hiop.Sparse Finset

variable {n mc m ns nd : ℕ}

/-- The base problem `c(x) = x = rhs` in one variable. -/
def lineBase (rhs : ℝ) : Base 1 1 0 where
  f x := some (x 0)
  cd x := some (fun _ => x 0, fun i => i.elim0)
  xl := fun _ => 0
  xu := fun _ => 1
  crhs := fun _ => rhs
  dl := fun i => i.elim0
  du := fun i => i.elim0

/-! ## Parameters -/

/-- **C48, parameters.** The barrier parameter of the restoration is at least that of the base solver
and at least the violation; the penalty is positive; `DR` keeps `DR |xref| <= 1`. -/
theorem C48_params (xref : RVec ℝ n) (mu nrm obj0 : ℝ) (x0 : RVec ℝ n) (d0 : RVec ℝ m) (hmu : 0 < mu) :
    let P := newProb xref mu nrm obj0 x0 d0
    P.xref = xref ∧ P.nrmRef = nrm ∧ P.mu = max mu nrm ∧ 0 < P.mu ∧ P.zeta ^ 2 = P.mu ∧ 0 < P.zeta ∧
      0 < P.rho ∧ ∀ i, 0 < P.dr i ∧ P.dr i = min 1 (1 / |xref i|) ∨ (xref i = 0 ∧ P.dr i = 1) := by
  have hm : (if mu < nrm then nrm else mu) = max mu nrm := by
    split_ifs with h
    · rw [max_eq_right h.le]
    · rw [max_eq_left (not_lt.1 h)]
  have hp : 0 < max mu nrm := lt_max_of_lt_left hmu
  simp only [newProb, hm]
  refine ⟨trivial, trivial, trivial, hp, Real.sq_sqrt hp.le, Real.sqrt_pos.2 hp, by norm_num, fun i => ?_⟩
  unfold drOf
  by_cases h : |xref i| = 0
  · rw [if_pos h]; exact Or.inr ⟨abs_eq_zero.1 h, rfl⟩
  · left
    rw [if_neg h]
    have h0 : 0 < 1 / |xref i| := by
      have := abs_nonneg (xref i)
      have : 0 < |xref i| := lt_of_le_of_ne this (Ne.symm h)
      positivity
    split_ifs with h1
    · exact ⟨one_pos, (min_eq_left h1.le).symm⟩
    · exact ⟨h0, (min_eq_right (not_lt.1 h1)).symm⟩

example : (newProb (n := 1) (m := 0) (fun _ => 2) 1 3 0 0 0).mu = 3 := by
  have := (C48_params (n := 1) (m := 0) (fun _ => 2) 1 3 0 0 0 one_pos).2.2.1
  rw [this]; norm_num

/-! ## Starting point -/

/-- `p`, `n` is the solution of `min rho (p + n) - mu ln p - mu ln n, p - n = v`. -/
def BarrierOpt (mu rho v p q : ℝ) : Prop :=
  0 < p ∧ 0 < q ∧ p - q = v ∧ ∀ p' q' : ℝ, 0 < p' → 0 < q' → p' - q' = v →
    rho * (p + q) - mu * Real.log p - mu * Real.log q ≤
      rho * (p' + q') - mu * Real.log p' - mu * Real.log q'

theorem pn_opt (mu rho : ℝ) (hmu : 0 < mu) (hrho : 0 < rho) {q : ℕ} (cb : RVec ℝ q) (i : Fin q) :
    BarrierOpt mu rho (cb i) ((pn mu rho cb).1 i) ((pn mu rho cb).2 i) := by
  set t := mu / (2 * rho) with ht
  have tpos : 0 < t := by positivity
  set v := cb i
  set S := Real.sqrt (t ^ 2 + v ^ 2 / 4) with hS
  have hSS : S ^ 2 = t ^ 2 + v ^ 2 / 4 := Real.sq_sqrt (by positivity)
  have hS0 : 0 ≤ S := Real.sqrt_nonneg _
  have e2 : (pn mu rho cb).2 i = S + (t - v / 2) := by
    simp only [pn, axpy, componentMult]
    rw [← ht, show (t + -0.5 * cb i) * (t + -0.5 * cb i) + t * cb i = t ^ 2 + v ^ 2 / 4 by
      simp only [v]; ring]
    simp only [v]; ring
  have e1 : (pn mu rho cb).1 i = v + (S + (t - v / 2)) := by
    have : (pn mu rho cb).1 i = cb i + 1 * (pn mu rho cb).2 i := rfl
    rw [this, e2]; simp only [v]; ring
  have hSv : |v / 2| ≤ S := by
    rw [hS]; apply Real.abs_le_sqrt; nlinarith [sq_nonneg t]
  have hv1 := (abs_le.1 hSv).1
  have hv2 := (abs_le.1 hSv).2
  rw [e1, e2]
  set q0 := S + (t - v / 2) with hq0
  have q0pos : 0 < q0 := by rw [hq0]; linarith
  have p0pos : 0 < v + q0 := by rw [hq0]; linarith
  refine ⟨p0pos, q0pos, by ring, fun p' q' hp' hq' hd => ?_⟩
  have hpq : (v + q0) * q0 = t * ((v + q0) + q0) := by
    rw [hq0]; nlinarith
  have hmt : mu = t * (2 * rho) := by rw [ht]; field_simp
  have l1 : Real.log p' - Real.log (v + q0) ≤ p' / (v + q0) - 1 := by
    rw [← Real.log_div hp'.ne' p0pos.ne']
    exact Real.log_le_sub_one_of_pos (by positivity)
  have l2 : Real.log q' - Real.log q0 ≤ q' / q0 - 1 := by
    rw [← Real.log_div hq'.ne' q0pos.ne']
    exact Real.log_le_sub_one_of_pos (by positivity)
  have key : mu * (p' / (v + q0) - 1) + mu * (q' / q0 - 1) = rho * (p' + q') - rho * ((v + q0) + q0) := by
    have : p' = v + q' := by linarith
    subst this
    rw [hmt]
    field_simp
    have : (v + q0) * q0 = t * ((v + q0) + q0) := hpq
    linear_combination (-(2 : ℝ) * (q' - q0)) * this
  have := mul_le_mul_of_nonneg_left l1 hmu.le
  have := mul_le_mul_of_nonneg_left l2 hmu.le
  nlinarith

example : BarrierOpt 1 1 0 ((pn 1 1 (fun _ : Fin 1 => (0 : ℝ))).1 0) ((pn 1 1 (fun _ : Fin 1 => (0 : ℝ))).2 0) :=
  pn_opt 1 1 one_pos one_pos _ 0

theorem muInv_mul (mu : ℝ) {q : ℕ} (v : RVec ℝ q) (i : Fin q) (h : 0 < v i) :
    v i * muInv mu v i = mu := by
  rw [muInv, scale_apply]; field_simp

/-- **C48, starting point.** The restoration starts at the reference point and slack, with `p`, `n`
positive, such that all constraints of the restoration problem hold exactly, as the minimisers of the
barrier function for that `x`, with bound multipliers `mu/p`, `mu/n`, the base multipliers cut off at
the penalty parameter and zero constraint multipliers. -/
theorem C48_warm_start {L : Layout n mc m} (hL : IsLayout L) (B : Base n mc m) (P : Prob n m)
    (hmu : 0 < P.mu) (hrho : 0 < P.rho) (c : RVec ℝ mc) (d : RVec ℝ m) (it : It ℝ n mc m)
    (oldC : RVec ℝ mc) (oldD : RVec ℝ m) (hcd : B.cd P.xref = some (c, d)) :
    let W := warmStart L B P c d it
    L.getX W.x0 = P.xref ∧ W.slack = it.d ∧
    (∀ i : Fin mc, evalCons L B oldC oldD W.x0 i = B.crhs i) ∧
    (∀ i : Fin m, evalCons L B oldC oldD W.x0 (mc + i) = W.slack i) ∧
    (∀ i : Fin mc, BarrierOpt P.mu P.rho (c i - B.crhs i) (W.x0 (L.pe + i)) (W.x0 (L.ne + i)) ∧
      W.x0 (L.pe + i) * W.zl0 (L.pe + i) = P.mu ∧ W.x0 (L.ne + i) * W.zl0 (L.ne + i) = P.mu) ∧
    (∀ i : Fin m, BarrierOpt P.mu P.rho (d i - it.d i) (W.x0 (L.pi + i)) (W.x0 (L.ni + i)) ∧
      W.x0 (L.pi + i) * W.zl0 (L.pi + i) = P.mu ∧ W.x0 (L.ni + i) * W.zl0 (L.ni + i) = P.mu) ∧
    (∀ i, L.getX W.zl0 i = min (it.zl i) P.rho ∧ L.getX W.zu0 i = min (it.zu i) P.rho) ∧
    (∀ k, L.pe ≤ k → k < L.ni + m → W.zu0 k = 0) ∧
    (∀ i, W.vl0 i = min (it.vl i) P.rho ∧ W.vu0 i = min (it.vu i) P.rho) ∧ ∀ k, W.lam0 k = 0 := by
  obtain ⟨pl⟩ := hL.places
  have hmin : ∀ {q : ℕ} (v : RVec ℝ q) (a : ℝ) (i : Fin q), componentMinC v a i = min (v i) a := by
    intro q v a i
    unfold componentMinC
    split_ifs with h
    · rw [min_eq_right h.le]
    · rw [min_eq_left (not_lt.1 h)]
  have hx : L.getX (warmStart L B P c d it).x0 = P.xref := by
    simp only [warmStart]
    rw [getX_putPN pl, getX_putX pl]
  have he : ∀ i : Fin mc, BarrierOpt P.mu P.rho (c i - B.crhs i)
      ((pn P.mu P.rho (axpy c (-1) B.crhs)).1 i) ((pn P.mu P.rho (axpy c (-1) B.crhs)).2 i) := by
    intro i
    have := pn_opt P.mu P.rho hmu hrho (axpy c (-1) B.crhs) i
    rwa [show axpy c (-1) B.crhs i = c i - B.crhs i by simp only [axpy]; ring] at this
  have hi : ∀ i : Fin m, BarrierOpt P.mu P.rho (d i - it.d i)
      ((pn P.mu P.rho (axpy d (-1) it.d)).1 i) ((pn P.mu P.rho (axpy d (-1) it.d)).2 i) := by
    intro i
    have := pn_opt P.mu P.rho hmu hrho (axpy d (-1) it.d) i
    rwa [show axpy d (-1) it.d i = d i - it.d i by simp only [axpy]; ring] at this
  have hcons := C48_constraints B oldC oldD (warmStart L B P c d it).x0 (by rw [hx]; exact hcd)
  simp only
  refine ⟨hx, rfl, fun i => ?_, fun i => ?_, fun i => ⟨?_, ?_, ?_⟩, fun i => ⟨?_, ?_, ?_⟩,
    fun i => ⟨?_, ?_⟩, fun k h1 h2 => ?_, fun i => ⟨hmin _ _ _, hmin _ _ _⟩, fun _ => rfl⟩
  · rw [hcons.1]
    simp only [warmStart]
    rw [putPN_pe pl, putPN_ne pl]
    have := (he i).2.2.1
    linarith
  · rw [hcons.2]
    simp only [warmStart]
    rw [putPN_pi pl, putPN_ni pl]
    have := (hi i).2.2.1
    linarith
  · simp only [warmStart]; rw [putPN_pe pl, putPN_ne pl]; exact he i
  · simp only [warmStart]; rw [putPN_pe pl, putPN_pe pl]; exact muInv_mul _ _ _ (he i).1
  · simp only [warmStart]; rw [putPN_ne pl, putPN_ne pl]; exact muInv_mul _ _ _ (he i).2.1
  · simp only [warmStart]; rw [putPN_pi pl, putPN_ni pl]; exact hi i
  · simp only [warmStart]; rw [putPN_pi pl, putPN_pi pl]; exact muInv_mul _ _ _ (hi i).1
  · simp only [warmStart]; rw [putPN_ni pl, putPN_ni pl]; exact muInv_mul _ _ _ (hi i).2.1
  · simp only [warmStart]; rw [getX_putPN pl, getX_putX pl]; exact hmin _ _ _
  · simp only [warmStart]; rw [getX_putX pl]; exact hmin _ _ _
  · exact putX_block pl _ _ k h1 h2

/-- The hypotheses hold for the problem built by the constructor. -/
example (c : RVec ℝ 1) (d : RVec ℝ 1) (it : It ℝ 3 1 1) :
    let P := newProb (n := 3) (m := 1) (fun i => (i : ℕ)) 1 2 0 0 0
    0 < P.mu ∧ 0 < P.rho ∧ IsLayout (mdsL 2 1 1 1) := by
  have := C48_params (n := 3) (m := 1) (fun i => (i : ℕ)) 1 2 0 0 0 one_pos
  exact ⟨this.2.2.2.1, this.2.2.2.2.2.2.1, .mds ..⟩

/-! ## The restoration problem is an exact l1 penalty -/

/-- `y` satisfies the constraints of the restoration problem with values `s` of the inequality bodies
(`s` between `dl` and `du`). -/
def Feasible (L : Layout n mc m) (B : Base n mc m) (oldC : RVec ℝ mc) (oldD : RVec ℝ m) (s : RVec ℝ m)
    (y : ℕ → ℝ) : Prop :=
  (∀ k, L.pe ≤ k → k < L.ni + m → (varsInfo L B).1 k ≤ y k) ∧
    (∀ i : Fin mc, evalCons L B oldC oldD y i = B.crhs i) ∧
    ∀ i : Fin m, evalCons L B oldC oldD y (mc + i) = s i

/-- **C48, penalty.** Over all `p`, `n` feasible with given `x` and `s`, the least objective is `rho`
times the l1 norm of the violation of the base constraints plus the proximity term, and it is
attained. -/
theorem C48_penalty {L : Layout n mc m} (hL : IsLayout L) (B : Base n mc m) (P : Prob n m)
    (hrho : 0 < P.rho) (oldC : RVec ℝ mc) (oldD : RVec ℝ m) (x : RVec ℝ n) (s : RVec ℝ m)
    {c : RVec ℝ mc} {d : RVec ℝ m} (hcd : B.cd x = some (c, d)) :
    IsLeast {v | ∃ y, L.getX y = x ∧ Feasible L B oldC oldD s y ∧ (evalF L B P y).1 = v}
      (P.rho * (∑ i, |c i - B.crhs i| + ∑ i, |d i - s i|) +
        P.zeta / 2 * ∑ i, (P.dr i * (x i - P.xref i)) ^ 2) := by
  obtain ⟨pl⟩ := hL.places
  have e1 := pl.hne; have e2 := pl.hpi; have e3 := pl.hni
  have hlow : ∀ k, L.pe ≤ k → k < L.ni + m → (varsInfo L B).1 k = 0 := fun k h1 h2 =>
    ((C48_bounds hL B).2.2.1 k h1 h2).1
  constructor
  · have hpos : ∀ a : ℝ, max a 0 + max (-a) 0 = |a| ∧ max a 0 - max (-a) 0 = a := by
      intro a
      rcases le_total 0 a with h | h
      · rw [max_eq_left h, max_eq_right (by linarith), abs_of_nonneg h]; simp
      · rw [max_eq_right h, max_eq_left (by linarith), abs_of_nonpos h]; simp
    let y := putPN L (fun i => max (c i - B.crhs i) 0) (fun i => max (-(c i - B.crhs i)) 0)
      (fun i => max (d i - s i) 0) (fun i => max (-(d i - s i)) 0) (L.putX x fun _ => 0)
    have hx : L.getX y = x := by simp only [y]; rw [getX_putPN pl, getX_putX pl]
    have hc := C48_constraints B oldC oldD y (by rw [hx]; exact hcd)
    refine ⟨y, hx, ⟨fun k h1 h2 => ?_, fun i => ?_, fun i => ?_⟩, ?_⟩
    · rw [hlow k h1 h2]
      by_cases h3 : k < L.ne
      · obtain ⟨q, rfl⟩ : ∃ q : Fin mc, L.pe + (q : ℕ) = k :=
          ⟨⟨k - L.pe, by omega⟩, by simp; omega⟩
        simp only [y]; rw [putPN_pe pl]; exact le_max_right _ _
      by_cases h4 : k < L.pi
      · obtain ⟨q, rfl⟩ : ∃ q : Fin mc, L.ne + (q : ℕ) = k :=
          ⟨⟨k - L.ne, by omega⟩, by simp; omega⟩
        simp only [y]; rw [putPN_ne pl]; exact le_max_right _ _
      by_cases h5 : k < L.ni
      · obtain ⟨q, rfl⟩ : ∃ q : Fin m, L.pi + (q : ℕ) = k :=
          ⟨⟨k - L.pi, by omega⟩, by simp; omega⟩
        simp only [y]; rw [putPN_pi pl]; exact le_max_right _ _
      · obtain ⟨q, rfl⟩ : ∃ q : Fin m, L.ni + (q : ℕ) = k :=
          ⟨⟨k - L.ni, by omega⟩, by simp; omega⟩
        simp only [y]; rw [putPN_ni pl]; exact le_max_right _ _
    · rw [hc.1]; simp only [y]; rw [putPN_pe pl, putPN_ne pl]
      have := (hpos (c i - B.crhs i)).2
      linarith
    · rw [hc.2]; simp only [y]; rw [putPN_pi pl, putPN_ni pl]
      have := (hpos (d i - s i)).2
      linarith
    · rw [C48_objective hL, hx]
      simp only [y, putPN_pe pl, putPN_ne pl, putPN_pi pl, putPN_ni pl, (hpos _).1]
  · rintro v ⟨y, hx, ⟨h1, h2, h3⟩, rfl⟩
    rw [C48_objective hL, hx]
    have hc := C48_constraints B oldC oldD y (by rw [hx]; exact hcd)
    have hnn : ∀ k, L.pe ≤ k → k < L.ni + m → 0 ≤ y k := fun k a b => by
      have := h1 k a b; rwa [hlow k a b] at this
    have a1 : ∑ i, |c i - B.crhs i| ≤ ∑ i : Fin mc, (y (L.pe + i) + y (L.ne + i)) := by
      refine Finset.sum_le_sum fun i _ => ?_
      have hi := i.2
      have p1 := hnn (L.pe + i) (by omega) (by omega)
      have p2 := hnn (L.ne + i) (by omega) (by omega)
      have := h2 i
      rw [hc.1] at this
      rw [abs_le]; constructor <;> linarith
    have a2 : ∑ i, |d i - s i| ≤ ∑ i : Fin m, (y (L.pi + i) + y (L.ni + i)) := by
      refine Finset.sum_le_sum fun i _ => ?_
      have hi := i.2
      have p1 := hnn (L.pi + i) (by omega) (by omega)
      have p2 := hnn (L.ni + i) (by omega) (by omega)
      have := h3 i
      rw [hc.2] at this
      rw [abs_le]; constructor <;> linarith
    have := mul_le_mul_of_nonneg_left (add_le_add a1 a2) hrho.le
    linarith

/-- For `c(x) = x = 4` at `x = 1`: violation 3. -/
example (P : Prob 1 0) (h : 0 < P.rho) :
    IsLeast {v | ∃ y, (sparseL 1 1 0).getX y = (fun _ => 1) ∧
        Feasible (sparseL 1 1 0) (lineBase 4) 0 0 (fun i => i.elim0) y ∧
        (evalF (sparseL 1 1 0) (lineBase 4) P y).1 = v}
      (P.rho * 3 + P.zeta / 2 * (P.dr 0 * (1 - P.xref 0)) ^ 2) := by
  have := C48_penalty (.sparse 1 1 0) (lineBase 4) P h 0 0 (fun _ => 1) (fun i => i.elim0)
    (c := fun _ => 1) (d := fun i => i.elim0) rfl
  have e : |(1 : ℝ) - (lineBase 4).crhs 0| = 3 := by
    simp only [lineBase]; norm_num [abs_of_neg]
  simpa [e] using this

/-! ## Forced update -/

/-- **C48, restoration inside restoration.** If the base solver's stored constraint bodies are those
at the `x` of the restoration iterate, the forced update keeps `x` and gives `p`, `n` positive with
all constraints satisfied. Missing: the stored bodies are those of the base solver's iterate, see
`C48_force_false`. -/
theorem C48_force_partial {L : Layout n mc m} (hL : IsLayout L) (B : Base n mc m) (P : Prob n m)
    (hmu : 0 < P.mu) (hrho : 0 < P.rho) (c : RVec ℝ mc) (d : RVec ℝ m) (it : It ℝ n mc m)
    (oldC : RVec ℝ mc) (oldD : RVec ℝ m) (x : ℕ → ℝ) (hcd : B.cd (L.getX x) = some (c, d)) :
    let y := forceUpdate L B P c d it x
    L.getX y = L.getX x ∧
    (∀ i : Fin mc, 0 < y (L.pe + i) ∧ 0 < y (L.ne + i) ∧
      evalCons L B oldC oldD y i = B.crhs i) ∧
    ∀ i : Fin m, 0 < y (L.pi + i) ∧ 0 < y (L.ni + i) ∧
      evalCons L B oldC oldD y (mc + i) = it.d i := by
  obtain ⟨pl⟩ := hL.places
  have hx : L.getX (forceUpdate L B P c d it x) = L.getX x := by
    simp only [forceUpdate]
    rw [getX_putPN pl, getX_putX pl]
  have hcons := C48_constraints B oldC oldD (forceUpdate L B P c d it x) (by rw [hx]; exact hcd)
  refine ⟨hx, fun i => ?_, fun i => ?_⟩
  · obtain ⟨h1, h2, h3, -⟩ := pn_opt P.mu P.rho hmu hrho (axpy c (-1) B.crhs) i
    rw [hcons.1]
    simp only [forceUpdate]
    rw [putPN_pe pl, putPN_ne pl]
    refine ⟨h1, h2, ?_⟩
    simp only [axpy] at h3
    linarith
  · obtain ⟨h1, h2, h3, -⟩ := pn_opt P.mu P.rho hmu hrho (axpy d (-1) it.d) i
    rw [hcons.2]
    simp only [forceUpdate]
    rw [putPN_pi pl, putPN_ni pl]
    refine ⟨h1, h2, ?_⟩
    simp only [axpy] at h3
    linarith

/-- With the base solver at `x = 1` (so its stored body is 1) and the restoration at `x = 3`, the
forced update leaves the constraint `x - p + n = 0` violated by 2. -/
theorem C48_force_false (P : Prob 1 0) (hmu : 0 < P.mu) (hrho : 0 < P.rho) (it : It ℝ 1 1 0)
    (x : ℕ → ℝ) (hx : x 0 = 3) :
    evalCons (sparseL 1 1 0) (lineBase 0) 0 0
      (forceUpdate (sparseL 1 1 0) (lineBase 0) P (fun _ => 1) (fun i => i.elim0) it x) 0 = 2 := by
  have hL : IsLayout (sparseL 1 1 0) := .sparse ..
  have pl := sparsePlaces 1 1 0
  have hgx : (sparseL 1 1 0).getX (forceUpdate (sparseL 1 1 0) (lineBase 0) P (fun _ => 1)
      (fun i => i.elim0) it x) = (sparseL 1 1 0).getX x := by
    simp only [forceUpdate]
    rw [getX_putPN pl, getX_putX pl]
  have hcons := (C48_constraints (L := sparseL 1 1 0) (lineBase 0) 0 0 (forceUpdate (sparseL 1 1 0) (lineBase 0) P
    (fun _ => 1) (fun i => i.elim0) it x) rfl).1 0
  obtain ⟨h1, h2, h3, -⟩ := pn_opt P.mu P.rho hmu hrho (axpy (fun _ => 1) (-1) (lineBase 0).crhs) 0
  change evalCons _ _ _ _ _ ((0 : Fin 1) : ℕ) = 2
  rw [hcons]
  simp only [hgx]
  simp only [forceUpdate]
  rw [putPN_pe pl, putPN_ne pl]
  have hx' : (sparseL 1 1 0).getX x 0 = 3 := by simp [sparseL, copyOut, hx]
  rw [hx']
  simp only [axpy, lineBase] at h3 ⊢
  linarith

/-! ## Termination test -/

/-- **C48, termination test.** Provided the stored base objective is the objective at the iterate:
the restoration is stopped exactly when it has made a step, the largest violation of the base
constraints is at most `kappa_resto` times the one at the reference point, and the base filter
accepts the pair (l1 violation, barrier objective); the point handed back is the iterate. Missing:
the stored value is the objective at another point, see `C48_stop_false`. -/
theorem C48_stop_partial (L : Layout n mc m) (B : Base n mc m) (S : Solver n mc m)
    (hp : Patterns S.b) (hdu : DualsOk S.b S.cur)
    (oldC : RVec ℝ mc) (oldD : RVec ℝ m) (P : Prob n m) (iter : ℕ) (x : ℕ → ℝ) (s : RVec ℝ m) (mu : ℝ)
    {c : RVec ℝ mc} {d : RVec ℝ m} (hcd : B.cd (L.getX x) = some (c, d)) {f : ℝ}
    (hf : B.f (L.getX x) = some f) (hobj : P.objBase = f) (hk : 0 ≤ S.kappaResto * P.nrmRef) :
    ∃ k tr go P', computeSafeSlacks S.M S.b { S.trial with x := L.getX x, d := s } S.cur S.mu
        = some (k, tr) ∧
      iterateCallback L B S oldC oldD P iter x s mu = some (go, P') ∧
      (go = false ↔ 0 < iter ∧ (∀ i, |c i - B.crhs i| ≤ S.kappaResto * P.nrmRef) ∧
        (∀ i, |d i - s i| ≤ S.kappaResto * P.nrmRef) ∧
        ∀ e ∈ S.filter, ¬(e.theta ≤ ∑ i, |c i - B.crhs i| + ∑ i, |d i - s i| ∧
          e.phi ≤ trialFuncOnly S.b tr S.mu S.kappad f)) ∧
      (go = false → P'.lastX = L.getX x ∧ P'.lastD = s) ∧
      (go = true → P' = { P with mu := mu, zeta := Real.sqrt mu }) := by
  obtain ⟨⟨k, tr⟩, hs⟩ := computeSafeSlacks_defined S.M S.b hp
    { S.trial with x := L.getX x, d := s } S.cur S.mu hdu
  have hcb : ∀ i, axpy c (-1) B.crhs i = c i - B.crhs i := fun i => by simp only [axpy]; ring
  have hdb : ∀ i, axpy d (-1) s i = d i - s i := fun i => by simp only [axpy]; ring
  have hth : onenorm (axpy c (-1) B.crhs) + onenorm (axpy d (-1) s) =
      ∑ i, |c i - B.crhs i| + ∑ i, |d i - s i| := by
    rw [onenorm_eq_sum, onenorm_eq_sum]; simp only [hcb, hdb]
  have hnrm : max (infnorm (axpy c (-1) B.crhs)) (infnorm (axpy d (-1) s)) ≤ S.kappaResto * P.nrmRef ↔
      (∀ i, |c i - B.crhs i| ≤ S.kappaResto * P.nrmRef) ∧
        ∀ i, |d i - s i| ≤ S.kappaResto * P.nrmRef := by
    rw [max_le_iff, infnorm_le_iff _ _ hk, infnorm_le_iff _ _ hk]; simp only [hcb, hdb]
  refine ⟨k, tr, ?_⟩
  simp only [iterateCallback, hcd, Option.getD_some, hth, hs]
  by_cases h1 : max (infnorm (axpy c (-1) B.crhs)) (infnorm (axpy d (-1) s)) ≤
      S.kappaResto * P.nrmRef ∧ iter > 0
  · rw [if_pos h1]
    by_cases h2 : Filter.contains S.filter (∑ i, |c i - B.crhs i| + ∑ i, |d i - s i|)
        (trialFuncOnly S.b tr S.mu S.kappad P.objBase) = true
    · rw [if_pos h2]
      refine ⟨true, _, trivial, rfl, ⟨fun h => by simp at h, fun h => ?_⟩, fun h => by simp at h,
        fun _ => rfl⟩
      rw [Filter.contains_eq_true_iff] at h2
      obtain ⟨e, he, he'⟩ := h2
      rw [hobj] at he'
      exact absurd he' (h.2.2.2 e he)
    · rw [if_neg h2]
      refine ⟨false, _, trivial, rfl, ⟨fun _ => ⟨h1.2, (hnrm.1 h1.1).1, (hnrm.1 h1.1).2,
        fun e he he' => h2 ?_⟩, fun _ => rfl⟩, fun _ => ⟨rfl, rfl⟩, fun h => by simp at h⟩
      rw [Filter.contains_eq_true_iff]
      exact ⟨e, he, by rw [hobj]; exact he'⟩
  · rw [if_neg h1]
    exact ⟨true, _, trivial, rfl, ⟨fun h => by simp at h, fun h => absurd ⟨hnrm.2 ⟨h.2.1, h.2.2.1⟩, h.1⟩ h1⟩,
      fun h => by simp at h, fun _ => rfl⟩

/-- What `eval_f` stores: the base objective at `DR (x - xref)`. -/
theorem C48_obj_base (L : Layout n mc m) (B : Base n mc m) (P : Prob n m) (x : ℕ → ℝ) {f : ℝ}
    (hf : B.f (fun i => (L.getX x i - P.xref i) * P.dr i) = some f) :
    (evalF L B P x).2.objBase = f := by
  have : componentMult (axpy (L.getX x) (-1) P.xref) P.dr =
      fun i => (L.getX x i - P.xref i) * P.dr i := by
    funext i; simp only [componentMult, axpy]; ring
  simp only [evalF, this, hf, Option.getD_some]

/-- An iterate of zeros. -/
def zeroIt (n mc m : ℕ) : It ℝ n mc m :=
  ⟨0, 0, 0, 0, 0, 0, 0, 0, 0, 0, 0, 0⟩

/-- A base solver for a problem without bounds whose filter rejects `theta >= 0, phi >= 3`. -/
noncomputable def lineSolver : Solver 1 1 0 where
  cur := zeroIt 1 1 0
  trial := zeroIt 1 1 0
  b := ⟨0, 0, 0, 0, 0, 0, 0, 0⟩
  M := ⟨1, 1, 1⟩
  mu := 1
  kappad := 0
  filter := [⟨0, 3⟩]
  kappaResto := 0.9

/-- Reference point 2, restoration at 4 where `c(x) = x = 4` holds and the objective is `x = 4`: the
base filter contains the pair `(0, 4)` of that point, but the value stored by `eval_f` is the
objective at `(4 - 2)/2 = 1`, and the restoration is stopped with a point the filter rejects. -/
theorem C48_stop_false :
    let L := sparseL 1 1 0
    let P := newProb (n := 1) (m := 0) (fun _ => 2) 1 2 0 0 0
    let x : ℕ → ℝ := fun k => if k = 0 then 4 else 0
    let P1 := (evalF L (lineBase 4) P x).2
    (lineBase 4).cd (L.getX x) = some (fun _ => 4, fun i => i.elim0) ∧
      (lineBase 4).f (L.getX x) = some 4 ∧
      (∃ P2, iterateCallback L (lineBase 4) lineSolver 0 0 P1 1 x (fun i => i.elim0) 1
        = some (false, P2)) ∧
      ∃ k tr, computeSafeSlacks lineSolver.M lineSolver.b
          { lineSolver.trial with x := L.getX x, d := fun i => i.elim0 } lineSolver.cur lineSolver.mu
          = some (k, tr) ∧
        Filter.contains lineSolver.filter 0 (trialFuncOnly lineSolver.b tr lineSolver.mu
          lineSolver.kappad 4) = true := by
  intro L P x P1
  have hgx : L.getX x = fun _ => 4 := by
    funext i; fin_cases i; simp [L, sparseL, copyOut, x]
  have hP1 : P1.objBase = 1 := by
    have := C48_obj_base L (lineBase 4) P x (f := 1) (by
      simp only [lineBase, hgx, P, newProb, drOf]; norm_num)
    exact this
  have hpat : Patterns lineSolver.b := ⟨fun i => Or.inl rfl, fun i => Or.inl rfl,
    fun i => i.elim0, fun i => i.elim0⟩
  have hdu : DualsOk lineSolver.b lineSolver.cur := by
    constructor <;> intro i
    · exact ⟨fun h => by simp [lineSolver] at h, fun _ => rfl⟩
    · exact ⟨fun h => by simp [lineSolver] at h, fun _ => rfl⟩
    · exact i.elim0
    · exact i.elim0
  obtain ⟨⟨k, tr⟩, hs⟩ := computeSafeSlacks_defined lineSolver.M lineSolver.b hpat
    { lineSolver.trial with x := L.getX x, d := fun i => i.elim0 } lineSolver.cur lineSolver.mu hdu
  have htf : ∀ f, trialFuncOnly lineSolver.b tr lineSolver.mu lineSolver.kappad f = f := by
    intro f
    simp [trialFuncOnly, evalLogBarrier, logBarrierLocal_eq_sum, lineSolver]
  have hcd : (lineBase 4).cd (L.getX x) = some (fun _ => 4, fun i => i.elim0) := by
    rw [hgx]; rfl
  refine ⟨hcd, by rw [hgx]; rfl, ?_, k, tr, hs, ?_⟩
  · have hz : infnorm (axpy (fun _ : Fin 1 => (4 : ℝ)) (-1) (lineBase 4).crhs) ≤ 0 := by
      rw [infnorm_le_iff _ _ (le_refl _)]
      intro i; simp [axpy, lineBase]
    have hz0 : infnorm (axpy (fun i : Fin 0 => i.elim0) (-1) (fun i : Fin 0 => (i.elim0 : ℝ))) ≤ 0 := by
      rw [infnorm_le_iff _ _ (le_refl _)]
      intro i; exact i.elim0
    have ho : onenorm (axpy (fun _ : Fin 1 => (4 : ℝ)) (-1) (lineBase 4).crhs) = 0 := by
      rw [onenorm_eq_sum]; simp [axpy, lineBase]
    have ho0 : onenorm (axpy (fun i : Fin 0 => i.elim0) (-1) (fun i : Fin 0 => (i.elim0 : ℝ))) = 0 := by
      rw [onenorm_eq_sum]; simp
    have hpos : (0 : ℝ) ≤ lineSolver.kappaResto * P1.nrmRef := by
      change (0 : ℝ) ≤ 0.9 * 2; norm_num
    simp only [iterateCallback, hcd, Option.getD_some]
    rw [if_pos ⟨(max_le hz hz0).trans hpos, by norm_num⟩, hs]
    simp only
    rw [if_neg]
    · exact ⟨_, rfl⟩
    · rw [htf, hP1, ho, ho0, Filter.contains_eq_true_iff]
      simp only [lineSolver, List.mem_singleton, exists_eq_left]
      norm_num
  · rw [htf, Filter.contains_eq_true_iff]
    exact ⟨⟨0, 3⟩, by simp [lineSolver], by norm_num⟩

/-- The hypotheses of `C48_stop_partial` hold in this situation once the right objective is stored. -/
example : ∃ go P', iterateCallback (sparseL 1 1 0) (lineBase 4) lineSolver 0 0
    { newProb (n := 1) (m := 0) (fun _ => 2) 1 2 0 0 0 with objBase := 4 } 1
    (fun k => if k = 0 then 4 else 0) (fun i => i.elim0) 1 = some (go, P') := by
  have hgx : (sparseL 1 1 0).getX (fun k => if k = 0 then 4 else 0) = fun _ => 4 := by
    funext i; fin_cases i; simp [sparseL, copyOut]
  have hpat : Patterns lineSolver.b := ⟨fun i => Or.inl rfl, fun i => Or.inl rfl,
    fun i => i.elim0, fun i => i.elim0⟩
  have hdu : DualsOk lineSolver.b lineSolver.cur := by
    constructor <;> intro i
    · exact ⟨fun h => by simp [lineSolver] at h, fun _ => rfl⟩
    · exact ⟨fun h => by simp [lineSolver] at h, fun _ => rfl⟩
    · exact i.elim0
    · exact i.elim0
  obtain ⟨k, tr, go, P', -, h, -⟩ := C48_stop_partial (sparseL 1 1 0) (lineBase 4) lineSolver hpat hdu
    0 0 { newProb (n := 1) (m := 0) (fun _ => 2) 1 2 0 0 0 with objBase := 4 } 1
    (fun k => if k = 0 then 4 else 0) (fun i => i.elim0) 1 (by rw [hgx]; rfl) (f := 4)
    (by rw [hgx]; rfl) rfl (by change (0 : ℝ) ≤ 0.9 * 2; norm_num)
  exact ⟨go, P', h⟩

/-! ## Failing callbacks of the base problem -/

/-- A base problem whose constraints cannot be evaluated for `x > 1`. -/
noncomputable def partialBase : Base 1 1 0 :=
  { lineBase 0 with cd := fun x => if x 0 > 1 then none else some (fun _ => x 0, fun i => i.elim0) }

/-- A failure of the base problem's constraint callback is not reported: the restoration problem
answers with values computed from whatever its work vectors hold. -/
theorem C48_failure_false (a b : ℝ) :
    partialBase.cd ((sparseL 1 1 0).getX fun k => if k = 0 then 2 else 0) = none ∧
      evalCons (sparseL 1 1 0) partialBase (fun _ => a) 0 (fun k => if k = 0 then 2 else 0) 0 = a := by
  have h : partialBase.cd ((sparseL 1 1 0).getX fun k => if k = 0 then 2 else 0) = none := by
    simp [partialBase, sparseL, copyOut]
  refine ⟨h, ?_⟩
  simp only [evalCons, h, Option.getD_none]
  simp [copyTo, axpy, copyOut, sparseL]

/-! ## Outcome -/

/-- **C48, outcome.** The base solver resumes only when the restoration was stopped by its termination
test, and reports an infeasible problem exactly when the restoration problem was solved to (acceptable)
optimality without the test having stopped it. -/
theorem C48_outcome (st : FrStatus) :
    (frOutcome st = .resume ↔ st = .userStopped) ∧
      (frOutcome st = .infeasibleProblem ↔ st = .success ∨ st = .acceptable) := by
  cases st <;> simp [frOutcome]

end Hiop.Fr
