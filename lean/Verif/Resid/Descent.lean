import Verif.Resid.Props
import Verif.Kkt.Systems
import Verif.Barrier.Props

/-!
# Property C43: accepted search directions are descent directions of the barrier objective
-/

set_option linter.unusedSectionVars false
set_option linter.unusedSimpArgs false

namespace Hiop.Resid

open Hiop.Vec Hiop.Iterate Hiop.Kkt

variable {n mc m p : ℕ}

theorem sum_mul_swap {q : ℕ} (J : Matrix (Fin q) (Fin n) ℝ) (x : RVec ℝ n) (y : RVec ℝ q) :
    ∑ i, (∑ j, J j i * y j) * x i = ∑ j, y j * ∑ i, J j i * x i := by
  simp only [Finset.sum_mul, Finset.mul_sum]
  rw [Finset.sum_comm]
  exact Finset.sum_congr rfl fun j _ => Finset.sum_congr rfl fun i _ => by ring

/-- The barrier gradient of the log-barrier problem, entry by entry. -/
theorem logbar_grad (b : Bounds ℝ n m) (hp : Patterns b) (it : It ℝ n mc m) (mu kd f : ℝ)
    (g : RVec ℝ n) :
    (∀ i, (Barrier.updateWithNlpInfo b it mu kd f g).gx i
      = g i - (if b.ixl i = 1 then mu / it.sxl i else 0)
        + (if b.ixu i = 1 then mu / it.sxu i else 0) + damp b.ixl b.ixu mu kd i) ∧
    (∀ i, (Barrier.updateWithNlpInfo b it mu kd f g).gd i
      = - (if b.idl i = 1 then mu / it.sdl i else 0)
        + (if b.idu i = 1 then mu / it.sdu i else 0) + damp b.idl b.idu mu kd i) := by
  have key : ∀ {q : ℕ} (il iu sl su g : RVec ℝ q) (i : Fin q),
      addLogBarrierGrad (addLogBarrierGrad g (-mu) sl il) mu su iu i
        = g i - (if il i = 1 then mu / sl i else 0) + (if iu i = 1 then mu / su i else 0) := by
    intro q il iu sl su g i
    unfold addLogBarrierGrad
    split_ifs <;> ring
  constructor <;> intro i
  · have d := dampX_apply b hp mu kd 1 (addLogBarrierGrad (addLogBarrierGrad g (-mu) it.sxl b.ixl) mu
      it.sxu b.ixu) i
    rw [key, one_mul] at d
    rw [← d]
    unfold Barrier.updateWithNlpInfo Barrier.addNonLogBarTermsToGradX
    by_cases hk : kd > 0
    · simp only [if_pos hk]; rfl
    · simp only [if_neg hk]; rfl
  · have d := dampD_apply b hp mu kd 1 (addLogBarrierGrad (addLogBarrierGrad (fun _ => 0) (-mu) it.sdl
      b.idl) mu it.sdu b.idu) i
    rw [key, one_mul] at d
    rw [← zero_sub, ← d]
    unfold Barrier.updateWithNlpInfo Barrier.addNonLogBarTermsToGradD
    by_cases hk : kd > 0
    · simp only [if_pos hk]; rfl
    · simp only [if_neg hk]; rfl

/-- Contribution of a bound block to the eliminated right-hand side. -/
theorem elim_bound {w sl z : RVec ℝ p} {mu : ℝ} (hw : IsPattern w) (hs : PosOn sl w)
    (hz : PosOn z w) (dist : Fin p → ℝ) (hm : ∀ i, w i = 1 → sl i = dist i) (i : Fin p) :
    (if w i = 1 then ((if w i = 1 then mu - sl i * z i else 0)
      - z i * (if w i = 1 then dist i - sl i else 0)) / sl i else 0)
      = (if w i = 1 then mu / sl i else 0) - z i := by
  rcases hw i with h | h
  · simp [h, (hz i).2 h]
  · have hpos : sl i ≠ 0 := ((hs i).1 h).ne'
    simp only [h, if_true, hm i h]
    rw [hm i h] at hpos
    field_simp
    ring

/-- **C43.** Identity behind the descent property: if the direction solves the perturbed Newton
equations for the residual computed at the iterate, and the slacks equal the distances to the
bounds, then the directional derivative of the barrier objective is minus the tested curvature,
plus constraint terms that vanish at feasible points without dual perturbation. -/
theorem C43_directional_derivative (dblMax : ℝ) (b : Bounds ℝ n m) (cn : Counts)
    (H : Matrix (Fin n) (Fin n) ℝ) (dl : Deltas ℝ n mc m) (it d : It ℝ n mc m) (e : Eval n mc m)
    (old : RState n mc m) (f : ℝ) (hp : Patterns b) (hc : CountsOk cn b) (ho : BlocksOk cn old.v)
    (hs : SlacksOk b it) (hz : DualsOk b it) (hm : SlacksMatch b it)
    (hN : FullNewton b ⟨H, e.Jc, e.Jd⟩ dl it (update dblMax b cn it e old).v d) :
    Barrier.directionalDerivative (Barrier.updateWithNlpInfo b it e.mu e.kappad f e.grad) d
      = - curvature b ⟨H, e.Jc, e.Jd⟩ dl it d
        - (∑ i, (it.yc i + d.yc i) * (e.crhs i - e.c i + dl.cc i * d.yc i))
        - ∑ i, (it.yd i + d.yd i) * (it.d i - e.d i + dl.cd i * d.yd i) := by
  obtain ⟨e1, e2, e3, e4, e5, e6, e7, e8, e9, e10, e11, e12, -⟩ :=
    C21_vectors dblMax b cn it e old hp hc ho
  set v := (update dblMax b cn it e old).v with hv
  obtain ⟨nx, nd⟩ := newton_reduced b _ dl it v d hp hs hN
  obtain ⟨gx, gd⟩ := logbar_grad b hp it e.mu e.kappad f e.grad
  -- the eliminated right-hand sides in terms of the barrier gradient
  have tx : ∀ i, (∑ j, H i j * d.x j) + (sigX b it i + dl.wx i) * d.x i
      + (∑ j, e.Jc j i * d.yc j) + (∑ j, e.Jd j i * d.yd j)
      = - (Barrier.updateWithNlpInfo b it e.mu e.kappad f e.grad).gx i
        - (∑ j, e.Jc j i * it.yc j) - (∑ j, e.Jd j i * it.yd j) := by
    intro i
    rw [gx i]
    have h := nx i
    simp only at h
    rw [h, e1, e9, e10, e5, e6]
    unfold lagX
    rw [elim_bound hp.ixl hs.sxl hz.zl (fun i => it.x i - b.xl i) hm.sxl,
      elim_bound hp.ixu hs.sxu hz.zu (fun i => b.xu i - it.x i) hm.sxu]
    ring
  have td : ∀ i, (sigD b it i + dl.wd i) * d.d i - d.yd i
      = - (Barrier.updateWithNlpInfo b it e.mu e.kappad f e.grad).gd i + it.yd i := by
    intro i
    rw [gd i, nd i, e2, e11, e12, e7, e8]
    unfold lagD
    rw [elim_bound hp.idl hs.sdl hz.vl (fun i => it.d i - b.dl i) hm.sdl,
      elim_bound hp.idu hs.sdu hz.vu (fun i => b.du i - it.d i) hm.sdu]
    ring
  have sx : ∑ i, d.x i * (Barrier.updateWithNlpInfo b it e.mu e.kappad f e.grad).gx i
      = - (∑ i, ∑ j, d.x i * H i j * d.x j) - (∑ i, (sigX b it i + dl.wx i) * d.x i ^ 2)
        - (∑ j, (it.yc j + d.yc j) * ∑ i, e.Jc j i * d.x i)
        - ∑ j, (it.yd j + d.yd j) * ∑ i, e.Jd j i * d.x i := by
    have h1 := sum_mul_swap e.Jc d.x (fun j => it.yc j + d.yc j)
    have h2 := sum_mul_swap e.Jd d.x (fun j => it.yd j + d.yd j)
    rw [← h1, ← h2, ← Finset.sum_neg_distrib, ← Finset.sum_sub_distrib, ← Finset.sum_sub_distrib,
      ← Finset.sum_sub_distrib]
    refine Finset.sum_congr rfl fun i _ => ?_
    have t := tx i
    have u : ∑ j, d.x i * H i j * d.x j = d.x i * ∑ j, H i j * d.x j := by
      rw [Finset.mul_sum]; exact Finset.sum_congr rfl fun j _ => by ring
    rw [u]
    simp only [mul_add, Finset.sum_add_distrib]
    linear_combination d.x i * t
  have sd : ∑ i, d.d i * (Barrier.updateWithNlpInfo b it e.mu e.kappad f e.grad).gd i
      = (∑ i, (it.yd i + d.yd i) * d.d i) - ∑ i, (sigD b it i + dl.wd i) * d.d i ^ 2 := by
    rw [← Finset.sum_sub_distrib]
    refine Finset.sum_congr rfl fun i _ => ?_
    linear_combination d.d i * td i
  unfold Barrier.directionalDerivative
  rw [dot_eq_sum, dot_eq_sum, sx, sd, C43_curvature]
  have hyc : ∀ j, ∑ i, e.Jc j i * d.x i = e.crhs j - e.c j + dl.cc j * d.yc j := fun j => by
    have := hN.yc j; rw [e3] at this; simp only at this; linarith
  have hyd : ∀ j, ∑ i, e.Jd j i * d.x i = it.d j - e.d j + dl.cd j * d.yd j + d.d j := fun j => by
    have := hN.yd j; rw [e4] at this; simp only at this; linarith
  simp only [hyc, hyd]
  have split : ∑ j, (it.yd j + d.yd j) * (it.d j - e.d j + dl.cd j * d.yd j + d.d j)
      = (∑ j, (it.yd j + d.yd j) * (it.d j - e.d j + dl.cd j * d.yd j))
        + ∑ j, (it.yd j + d.yd j) * d.d j := by
    rw [← Finset.sum_add_distrib]
    exact Finset.sum_congr rfl fun j _ => by ring
  rw [split]
  ring

/-- **C43.** At a point satisfying the constraints, without dual perturbation, a direction that
solves the Newton equations and passes the curvature test decreases the barrier objective at first
order by at least `fact` times its squared length. -/
theorem C43_descent (dblMax : ℝ) (b : Bounds ℝ n m) (cn : Counts)
    (H : Matrix (Fin n) (Fin n) ℝ) (dl : Deltas ℝ n mc m) (it d : It ℝ n mc m) (e : Eval n mc m)
    (old : RState n mc m) (f fact : ℝ) (hp : Patterns b) (hc : CountsOk cn b)
    (ho : BlocksOk cn old.v) (hs : SlacksOk b it) (hz : DualsOk b it) (hm : SlacksMatch b it)
    (hfeas : (∀ i, e.c i = e.crhs i) ∧ ∀ i, e.d i = it.d i)
    (hdl : (∀ i, dl.cc i = 0) ∧ ∀ i, dl.cd i = 0)
    (hN : FullNewton b ⟨H, e.Jc, e.Jd⟩ dl it (update dblMax b cn it e old).v d)
    (ht : testDirection b ⟨H, e.Jc, e.Jd⟩ dl it d fact = true) :
    Barrier.directionalDerivative (Barrier.updateWithNlpInfo b it e.mu e.kappad f e.grad) d
      ≤ - fact * ((∑ i, d.x i ^ 2) + ∑ i, d.d i ^ 2) := by
  rw [C43_directional_derivative dblMax b cn H dl it d e old f hp hc ho hs hz hm hN]
  have h := (C43_test b ⟨H, e.Jc, e.Jd⟩ dl it d fact).1 ht
  rw [← C43_curvature] at h
  have z1 : ∑ i, (it.yc i + d.yc i) * (e.crhs i - e.c i + dl.cc i * d.yc i) = 0 :=
    Finset.sum_eq_zero fun i _ => by rw [hfeas.1, hdl.1]; ring
  have z2 : ∑ i, (it.yd i + d.yd i) * (it.d i - e.d i + dl.cd i * d.yd i) = 0 :=
    Finset.sum_eq_zero fun i _ => by rw [hfeas.2, hdl.2]; ring
  rw [z1, z2]
  linarith

/-- **C43.** In particular a nonzero accepted direction is a strict descent direction. -/
theorem C43_strict_descent (dblMax : ℝ) (b : Bounds ℝ n m) (cn : Counts)
    (H : Matrix (Fin n) (Fin n) ℝ) (dl : Deltas ℝ n mc m) (it d : It ℝ n mc m) (e : Eval n mc m)
    (old : RState n mc m) (f fact : ℝ) (hp : Patterns b) (hc : CountsOk cn b)
    (ho : BlocksOk cn old.v) (hs : SlacksOk b it) (hz : DualsOk b it) (hm : SlacksMatch b it)
    (hfeas : (∀ i, e.c i = e.crhs i) ∧ ∀ i, e.d i = it.d i)
    (hdl : (∀ i, dl.cc i = 0) ∧ ∀ i, dl.cd i = 0)
    (hN : FullNewton b ⟨H, e.Jc, e.Jd⟩ dl it (update dblMax b cn it e old).v d)
    (ht : testDirection b ⟨H, e.Jc, e.Jd⟩ dl it d fact = true) (hfact : 0 < fact)
    (hne : d.x ≠ 0 ∨ d.d ≠ 0) :
    Barrier.directionalDerivative (Barrier.updateWithNlpInfo b it e.mu e.kappad f e.grad) d < 0 := by
  refine (C43_descent dblMax b cn H dl it d e old f fact hp hc ho hs hz hm hfeas hdl hN ht).trans_lt ?_
  have pos : ∀ {q : ℕ} (v : RVec ℝ q), v ≠ 0 → 0 < ∑ i, v i ^ 2 := by
    intro q v hv
    obtain ⟨i, hi⟩ := Function.ne_iff.1 hv
    exact Finset.sum_pos' (fun i _ => sq_nonneg _) ⟨i, Finset.mem_univ i, by
      have : v i ≠ 0 := hi
      positivity⟩
  have nn : ∀ {q : ℕ} (v : RVec ℝ q), 0 ≤ ∑ i, v i ^ 2 := fun v =>
    Finset.sum_nonneg fun i _ => sq_nonneg _
  have : 0 < (∑ i, d.x i ^ 2) + ∑ i, d.d i ^ 2 := by
    rcases hne with h | h
    · linarith [pos _ h, nn d.d]
    · linarith [pos _ h, nn d.x]
  nlinarith

/-! ## A concrete instance: minimise `3x` with `x ≥ 0` at `x = 1`, `mu = 1` -/

/-- Bounds of the instance. -/
noncomputable def dB : Bounds ℝ 1 0 :=
  ⟨fun _ => 0, fun _ => 0, fun _ => 1, fun _ => 0, fun i => i.elim0, fun i => i.elim0,
    fun i => i.elim0, fun i => i.elim0⟩

/-- Its iterate. -/
noncomputable def dIt : It ℝ 1 0 0 :=
  ⟨fun _ => 1, fun i => i.elim0, fun _ => 1, fun _ => 0, fun i => i.elim0, fun i => i.elim0,
    fun i => i.elim0, fun i => i.elim0, fun _ => 1, fun _ => 0, fun i => i.elim0, fun i => i.elim0⟩

/-- The Newton direction. -/
noncomputable def dDir : It ℝ 1 0 0 :=
  ⟨fun _ => -2, fun i => i.elim0, fun _ => -2, fun _ => 0, fun i => i.elim0, fun i => i.elim0,
    fun i => i.elim0, fun i => i.elim0, fun _ => 2, fun _ => 0, fun i => i.elim0, fun i => i.elim0⟩

/-- The evaluations. -/
noncomputable def dE : Eval 1 0 0 :=
  ⟨fun i => i.elim0, fun i => i.elim0, fun i => i.elim0, fun _ => 3, fun i _ => i.elim0,
    fun i _ => i.elim0, 1, 0⟩

/-- C43 applies: the Newton direction passes the test and is a strict descent direction. -/
example : Barrier.directionalDerivative (Barrier.updateWithNlpInfo dB dIt 1 0 3 dE.grad) dDir < 0 := by
  have hp : Patterns dB := by
    constructor <;> intro i <;> first | exact i.elim0 | simp [dB]
  have hc : CountsOk ⟨1, 0, 0, 0⟩ dB := by constructor <;> simp [CountOk, dB]
  have ho := C21_blocks_fresh (n := 1) (mc := 0) ⟨1, 0, 0, 0⟩ (fun i : Fin 0 => i.elim0)
  obtain ⟨e1, -, -, -, e5, e6, -, -, e9, e10, -⟩ := C21_vectors 1 dB _ dIt dE _ hp hc ho
  refine C43_strict_descent 1 dB ⟨1, 0, 0, 0⟩ 0 ⟨fun _ => 0, fun i => i.elim0, fun i => i.elim0,
    fun i => i.elim0⟩ dIt dDir dE (fresh fun i => i.elim0) 3 1 hp hc ho ?_ ?_ ?_
    ⟨fun i => i.elim0, fun i => i.elim0⟩ ⟨fun i => i.elim0, fun i => i.elim0⟩ ?_ ?_ one_pos
    (Or.inl fun h => by have := congrFun h 0; simp [dDir] at this)
  · constructor <;> intro i <;> first | exact i.elim0 | simp [dB, dIt]
  · constructor <;> intro i <;> first | exact i.elim0 | simp [dB, dIt]
  · constructor <;> intro i <;> first | exact i.elim0 | simp [dB, dIt]
  · constructor <;> intro i <;> first
      | exact i.elim0
      | (rw [e1]; simp [dB, dIt, dDir, dE, lagX, damp]; norm_num)
      | (rw [e5]; simp [dB, dIt, dDir])
      | (rw [e9]; simp [dB, dIt, dDir, dE])
      | simp [dB, dDir]
  · rw [C43_test]
    simp [dDir, sigX, dB, dIt]

end Hiop.Resid
