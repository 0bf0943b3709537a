import Verif.Resid.Model
import Verif.Kkt.Props
import Mathlib.Tactic.LinearCombination

/-!
# Property C21: residuals and error norms are those of the perturbed optimality conditions
-/

set_option linter.unusedSectionVars false
set_option linter.unusedSimpArgs false

namespace Hiop.Resid

open Hiop.Vec Hiop.Iterate Hiop.Kkt

variable {n mc m p : ℕ}

/-! ## Specification -/

/-- Derivative of the linear damping term of one component: `kd*mu` for a component with a lower
bound only, `-kd*mu` for one with an upper bound only. -/
noncomputable def damp (il iu : RVec ℝ p) (mu kd : ℝ) (i : Fin p) : ℝ :=
  if 0 < kd ∧ il i = 1 ∧ iu i = 0 then kd * mu
  else if 0 < kd ∧ iu i = 1 ∧ il i = 0 then -(kd * mu) else 0

/-- Gradient of the Lagrangian in the variables. -/
def lagX (it : It ℝ n mc m) (e : Eval n mc m) (i : Fin n) : ℝ :=
  e.grad i + (∑ j, e.Jc j i * it.yc j) + (∑ j, e.Jd j i * it.yd j) - it.zl i + it.zu i

/-- Gradient of the Lagrangian in the slacks `d` of the inequalities. -/
def lagD (it : It ℝ n mc m) (i : Fin m) : ℝ := - it.yd i - it.vl i + it.vu i

/-- The perturbed optimality conditions of the barrier problem with damping. -/
structure BarrierKKT (b : Bounds ℝ n m) (it : It ℝ n mc m) (e : Eval n mc m) : Prop where
  statx : ∀ i, lagX it e i + damp b.ixl b.ixu e.mu e.kappad i = 0
  statd : ∀ i, lagD it i + damp b.idl b.idu e.mu e.kappad i = 0
  eq : ∀ i, e.c i = e.crhs i
  ineq : ∀ i, e.d i = it.d i
  xl : ∀ i, b.ixl i = 1 → it.x i - b.xl i = it.sxl i
  xu : ∀ i, b.ixu i = 1 → b.xu i - it.x i = it.sxu i
  dl : ∀ i, b.idl i = 1 → it.d i - b.dl i = it.sdl i
  du : ∀ i, b.idu i = 1 → b.du i - it.d i = it.sdu i
  czl : ∀ i, b.ixl i = 1 → it.sxl i * it.zl i = e.mu
  czu : ∀ i, b.ixu i = 1 → it.sxu i * it.zu i = e.mu
  cvl : ∀ i, b.idl i = 1 → it.sdl i * it.vl i = e.mu
  cvu : ∀ i, b.idu i = 1 → it.sdu i * it.vu i = e.mu

/-- First-order optimality of the user's problem (with inequality bodies `d(x)` and bounds):
stationarity with multipliers of the right sign, feasibility, complementarity. -/
structure NlpKKT (b : Bounds ℝ n m) (it : It ℝ n mc m) (e : Eval n mc m) : Prop where
  stat : ∀ i, e.grad i + (∑ j, e.Jc j i * it.yc j) + (∑ j, e.Jd j i * (it.vu j - it.vl j))
    - it.zl i + it.zu i = 0
  eq : ∀ i, e.c i = e.crhs i
  dl : ∀ i, b.idl i = 1 → b.dl i ≤ e.d i
  du : ∀ i, b.idu i = 1 → e.d i ≤ b.du i
  xl : ∀ i, b.ixl i = 1 → b.xl i ≤ it.x i
  xu : ∀ i, b.ixu i = 1 → it.x i ≤ b.xu i
  czl : ∀ i, b.ixl i = 1 → 0 ≤ it.zl i ∧ (it.x i - b.xl i) * it.zl i = 0
  czu : ∀ i, b.ixu i = 1 → 0 ≤ it.zu i ∧ (b.xu i - it.x i) * it.zu i = 0
  cvl : ∀ i, b.idl i = 1 → 0 ≤ it.vl i ∧ (e.d i - b.dl i) * it.vl i = 0
  cvu : ∀ i, b.idu i = 1 → 0 ≤ it.vu i ∧ (b.du i - e.d i) * it.vu i = 0
  zl0 : ∀ i, b.ixl i = 0 → it.zl i = 0
  zu0 : ∀ i, b.ixu i = 0 → it.zu i = 0
  vl0 : ∀ i, b.idl i = 0 → it.vl i = 0
  vu0 : ∀ i, b.idu i = 0 → it.vu i = 0

/-- Bound blocks of a residual are zero when the problem has no bound of that kind; true after the
constructor and preserved by every update. -/
structure BlocksOk (cn : Counts) (v : Kkt.Resid ℝ n mc m) : Prop where
  nLow : ¬ cn.nLow > 0 → (∀ i, v.rxl i = 0) ∧ ∀ i, v.rszl i = 0
  nUpp : ¬ cn.nUpp > 0 → (∀ i, v.rxu i = 0) ∧ ∀ i, v.rszu i = 0
  mLow : ¬ cn.mLow > 0 → (∀ i, v.rdl i = 0) ∧ ∀ i, v.rsvl i = 0
  mUpp : ¬ cn.mUpp > 0 → (∀ i, v.rdu i = 0) ∧ ∀ i, v.rsvu i = 0

/-! ## Lemmas -/

theorem CountOk.full {c : ℤ} {w : RVec ℝ p} (h : CountOk c w) (hc : ¬ c < (p : ℤ)) (i : Fin p) :
    w i = 1 := by
  unfold CountOk at h
  have h2 : p ≤ (Finset.univ.filter fun i => w i = 1).card := by omega
  have h3 : (Finset.univ.filter fun i => w i = 1) = Finset.univ :=
    (Finset.card_eq_iff_eq_univ _).1 (le_antisymm (Finset.card_le_univ _) (by simpa using h2))
  have : i ∈ Finset.univ.filter fun i => w i = 1 := by rw [h3]; simp
  simpa using this

theorem slackRes_apply {c : ℤ} {w : RVec ℝ p} (hw : IsPattern w) (h : CountOk c w) (al : Bool)
    (old a1 a2 a3 : RVec ℝ p) (hold : ¬ c > 0 → ∀ i, old i = 0) (i : Fin p) :
    slackRes c al w old a1 a2 a3 i = if w i = 1 then a1 i - a2 i - a3 i else 0 := by
  unfold slackRes
  by_cases h1 : c > 0
  · rw [if_pos h1]
    by_cases h2 : al = true ∨ c < (p : ℤ)
    · simp only [if_pos h2, Vec.selectPattern, axpy]
      rcases hw i with h0 | h0
      · simp [h0]
      · simp only [h0, one_ne_zero, if_false, if_true]; ring
    · simp only [if_neg h2, axpy]
      rw [if_pos (CountOk.full h (fun h3 => h2 (Or.inr h3)) i)]; ring
  · rw [if_neg h1, if_neg (h.none h1 i), hold h1 i]

theorem compRes0_apply {c : ℤ} {w : RVec ℝ p} (hw : IsPattern w) (h : CountOk c w)
    (s z : RVec ℝ p) (i : Fin p) :
    compRes0 c w s z i = if w i = 1 then - (s i * z i) else 0 := by
  unfold compRes0
  by_cases h2 : c < (p : ℤ)
  · simp only [if_pos h2, Vec.selectPattern, axzpy_neg_one, zeroVec]
    rcases hw i with h0 | h0
    · simp [h0]
    · simp only [h0, one_ne_zero, if_false, if_true]; ring
  · simp only [if_neg h2, axzpy_neg_one, zeroVec]
    rw [if_pos (CountOk.full h h2 i)]; ring

theorem compRes_apply {c : ℤ} {w : RVec ℝ p} (hw : IsPattern w) (h : CountOk c w)
    (old s z : RVec ℝ p) (mu : ℝ) (hold : ¬ c > 0 → ∀ i, old i = 0) (i : Fin p) :
    compRes c w old s z mu i = if w i = 1 then mu - s i * z i else 0 := by
  unfold compRes
  by_cases h1 : c > 0
  · simp only [if_pos h1, addConstantSel, compRes0_apply hw h]
    rcases hw i with h0 | h0
    · simp [h0]
    · simp only [h0, if_true]; ring
  · rw [if_neg h1, if_neg (h.none h1 i), hold h1 i]

theorem dampX_apply (b : Bounds ℝ n m) (hp : Patterns b) (mu kd beta : ℝ) (g : RVec ℝ n)
    (i : Fin n) : Barrier.addNonLogBarTermsToGradX b mu kd beta g i
      = g i + beta * damp b.ixl b.ixu mu kd i := by
  unfold Barrier.addNonLogBarTermsToGradX Barrier.addLinearDampingTermToGradX addLinearDampingTerm
    damp
  by_cases hk : kd > 0
  · rw [if_pos hk]
    rcases hp.ixl i with h1 | h1 <;> rcases hp.ixu i with h2 | h2 <;>
      simp [h1, h2, hk] <;> ring
  · rw [if_neg hk, if_neg (by tauto), if_neg (by tauto)]; ring

theorem dampD_apply (b : Bounds ℝ n m) (hp : Patterns b) (mu kd beta : ℝ) (g : RVec ℝ m)
    (i : Fin m) : Barrier.addNonLogBarTermsToGradD b mu kd beta g i
      = g i + beta * damp b.idl b.idu mu kd i := by
  unfold Barrier.addNonLogBarTermsToGradD Barrier.addLinearDampingTermToGradD addLinearDampingTerm
    damp
  by_cases hk : kd > 0
  · rw [if_pos hk]
    rcases hp.idl i with h1 | h1 <;> rcases hp.idu i with h2 | h2 <;>
      simp [h1, h2, hk] <;> ring
  · rw [if_neg hk, if_neg (by tauto), if_neg (by tauto)]; ring

theorem rxPlain_apply (it : It ℝ n mc m) (e : Eval n mc m) (i : Fin n) :
    rxPlain it e i = lagX it e i := by
  unfold rxPlain lagX
  simp only [axpy, transTimesVec_apply]; ring

theorem rdPlain_apply (it : It ℝ n mc m) (i : Fin m) : rdPlain it i = - lagD it i := by
  unfold rdPlain lagD
  simp only [axpy]; ring

/-! ## C21 -/

/-- **C21.** Every residual vector, at every iterate: negative gradient of the damped barrier
Lagrangian, constraint and slack-definition defects, and complementarity defects, the latter two
exactly on the existing bounds. -/
theorem C21_vectors (dblMax : ℝ) (b : Bounds ℝ n m) (cn : Counts) (it : It ℝ n mc m)
    (e : Eval n mc m) (old : RState n mc m) (hp : Patterns b) (hc : CountsOk cn b)
    (ho : BlocksOk cn old.v) :
    let v := (update dblMax b cn it e old).v
    (∀ i, v.rx i = - (lagX it e i + damp b.ixl b.ixu e.mu e.kappad i)) ∧
    (∀ i, v.rd i = - (lagD it i + damp b.idl b.idu e.mu e.kappad i)) ∧
    (∀ i, v.ryc i = e.crhs i - e.c i) ∧ (∀ i, v.ryd i = it.d i - e.d i) ∧
    (∀ i, v.rxl i = if b.ixl i = 1 then it.x i - b.xl i - it.sxl i else 0) ∧
    (∀ i, v.rxu i = if b.ixu i = 1 then b.xu i - it.x i - it.sxu i else 0) ∧
    (∀ i, v.rdl i = if b.idl i = 1 then it.d i - b.dl i - it.sdl i else 0) ∧
    (∀ i, v.rdu i = if b.idu i = 1 then b.du i - it.d i - it.sdu i else 0) ∧
    (∀ i, v.rszl i = if b.ixl i = 1 then e.mu - it.sxl i * it.zl i else 0) ∧
    (∀ i, v.rszu i = if b.ixu i = 1 then e.mu - it.sxu i * it.zu i else 0) ∧
    (∀ i, v.rsvl i = if b.idl i = 1 then e.mu - it.sdl i * it.vl i else 0) ∧
    (∀ i, v.rsvu i = if b.idu i = 1 then e.mu - it.sdu i * it.vu i else 0) ∧
    BlocksOk cn v := by
  intro v
  have h1 : ∀ i, v.rxl i = if b.ixl i = 1 then it.x i - b.xl i - it.sxl i else 0 := fun i => by
    rw [show v.rxl i = slackRes cn.nLow false b.ixl old.v.rxl it.x it.sxl b.xl i from rfl,
      slackRes_apply hp.ixl hc.nLow _ _ _ _ _ (fun h => (ho.nLow h).1)]
    congr 1; ring
  have h2 : ∀ i, v.rxu i = if b.ixu i = 1 then b.xu i - it.x i - it.sxu i else 0 := fun i =>
    slackRes_apply hp.ixu hc.nUpp _ _ _ _ _ (fun h => (ho.nUpp h).1) i
  have h3 : ∀ i, v.rdl i = if b.idl i = 1 then it.d i - b.dl i - it.sdl i else 0 := fun i => by
    rw [show v.rdl i = slackRes cn.mLow true b.idl old.v.rdl it.d it.sdl b.dl i from rfl,
      slackRes_apply hp.idl hc.mLow _ _ _ _ _ (fun h => (ho.mLow h).1)]
    congr 1; ring
  have h4 : ∀ i, v.rdu i = if b.idu i = 1 then b.du i - it.d i - it.sdu i else 0 := fun i => by
    rw [show v.rdu i = slackRes cn.mUpp true b.idu old.v.rdu b.du it.sdu it.d i from rfl,
      slackRes_apply hp.idu hc.mUpp _ _ _ _ _ (fun h => (ho.mUpp h).1)]
    congr 1; ring
  have h5 : ∀ i, v.rszl i = if b.ixl i = 1 then e.mu - it.sxl i * it.zl i else 0 := fun i =>
    compRes_apply hp.ixl hc.nLow _ _ _ _ (fun h => (ho.nLow h).2) i
  have h6 : ∀ i, v.rszu i = if b.ixu i = 1 then e.mu - it.sxu i * it.zu i else 0 := fun i =>
    compRes_apply hp.ixu hc.nUpp _ _ _ _ (fun h => (ho.nUpp h).2) i
  have h7 : ∀ i, v.rsvl i = if b.idl i = 1 then e.mu - it.sdl i * it.vl i else 0 := fun i =>
    compRes_apply hp.idl hc.mLow _ _ _ _ (fun h => (ho.mLow h).2) i
  have h8 : ∀ i, v.rsvu i = if b.idu i = 1 then e.mu - it.sdu i * it.vu i else 0 := fun i =>
    compRes_apply hp.idu hc.mUpp _ _ _ _ (fun h => (ho.mUpp h).2) i
  refine ⟨fun i => ?_, fun i => ?_, fun i => ?_, fun i => ?_, h1, h2, h3, h4, h5, h6, h7, h8, ?_⟩
  · change negate _ i = _
    simp only [negate, dampX_apply b hp, rxPlain_apply]; ring
  · change Barrier.addNonLogBarTermsToGradD _ _ _ _ _ i = _
    simp only [dampD_apply b hp, rdPlain_apply]; ring
  · change axpy _ _ _ i = _; simp only [axpy]; ring
  · change axpy _ _ _ i = _; simp only [axpy]; ring
  · constructor <;> intro h <;> constructor <;> intro i
    · rw [h1, if_neg (hc.nLow.none h i)]
    · rw [h5, if_neg (hc.nLow.none h i)]
    · rw [h2, if_neg (hc.nUpp.none h i)]
    · rw [h6, if_neg (hc.nUpp.none h i)]
    · rw [h3, if_neg (hc.mLow.none h i)]
    · rw [h7, if_neg (hc.mLow.none h i)]
    · rw [h4, if_neg (hc.mUpp.none h i)]
    · rw [h8, if_neg (hc.mUpp.none h i)]

/-- The constructor establishes the hypothesis of `C21_vectors`. -/
theorem C21_blocks_fresh (cn : Counts) (junk : RVec ℝ m) :
    BlocksOk cn (fresh (n := n) (mc := mc) junk).v := by
  constructor <;> intro _ <;> constructor <;> intro i <;> rfl

/-- **C21.** The residual is zero in every component exactly when the iterate satisfies the
perturbed optimality conditions. -/
theorem C21_zero_iff_kkt (dblMax : ℝ) (b : Bounds ℝ n m) (cn : Counts) (it : It ℝ n mc m)
    (e : Eval n mc m) (old : RState n mc m) (hp : Patterns b) (hc : CountsOk cn b)
    (ho : BlocksOk cn old.v) :
    let v := (update dblMax b cn it e old).v
    ((∀ i, v.rx i = 0) ∧ (∀ i, v.rd i = 0) ∧ (∀ i, v.ryc i = 0) ∧ (∀ i, v.ryd i = 0) ∧
      (∀ i, v.rxl i = 0) ∧ (∀ i, v.rxu i = 0) ∧ (∀ i, v.rdl i = 0) ∧ (∀ i, v.rdu i = 0) ∧
      (∀ i, v.rszl i = 0) ∧ (∀ i, v.rszu i = 0) ∧ (∀ i, v.rsvl i = 0) ∧ (∀ i, v.rsvu i = 0))
    ↔ BarrierKKT b it e := by
  intro v
  obtain ⟨e1, e2, e3, e4, e5, e6, e7, e8, e9, e10, e11, e12, -⟩ :=
    C21_vectors dblMax b cn it e old hp hc ho
  have key : ∀ {q : ℕ} (w a s : RVec ℝ q), (∀ i, (if w i = 1 then a i - s i else 0) = 0) ↔
      ∀ i, w i = 1 → a i = s i := by
    intro q w a s
    constructor
    · intro h i hi; have := h i; rw [if_pos hi] at this; linarith
    · intro h i
      by_cases hi : w i = 1
      · rw [if_pos hi, h i hi, sub_self]
      · rw [if_neg hi]
  constructor
  · rintro ⟨h1, h2, h3, h4, h5, h6, h7, h8, h9, h10, h11, h12⟩
    refine ⟨fun i => ?_, fun i => ?_, fun i => ?_, fun i => ?_, ?_, ?_, ?_, ?_, fun i hi => ?_,
      fun i hi => ?_, fun i hi => ?_, fun i hi => ?_⟩
    · have := h1 i; rw [e1] at this; linarith
    · have := h2 i; rw [e2] at this; linarith
    · have := h3 i; rw [e3] at this; linarith
    · have := h4 i; rw [e4] at this; linarith
    · exact (key b.ixl (fun i => it.x i - b.xl i) it.sxl).1 fun i => by rw [← e5, h5]
    · exact (key b.ixu (fun i => b.xu i - it.x i) it.sxu).1 fun i => by rw [← e6, h6]
    · exact (key b.idl (fun i => it.d i - b.dl i) it.sdl).1 fun i => by rw [← e7, h7]
    · exact (key b.idu (fun i => b.du i - it.d i) it.sdu).1 fun i => by rw [← e8, h8]
    · have := h9 i; rw [e9, if_pos hi] at this; linarith
    · have := h10 i; rw [e10, if_pos hi] at this; linarith
    · have := h11 i; rw [e11, if_pos hi] at this; linarith
    · have := h12 i; rw [e12, if_pos hi] at this; linarith
  · intro h
    refine ⟨fun i => ?_, fun i => ?_, fun i => ?_, fun i => ?_, fun i => ?_, fun i => ?_,
      fun i => ?_, fun i => ?_, fun i => ?_, fun i => ?_, fun i => ?_, fun i => ?_⟩
    · rw [e1, h.statx i, neg_zero]
    · rw [e2, h.statd i, neg_zero]
    · rw [e3, h.eq i, sub_self]
    · rw [e4, h.ineq i, sub_self]
    · rw [e5]; exact (key b.ixl (fun i => it.x i - b.xl i) it.sxl).2 h.xl i
    · rw [e6]; exact (key b.ixu (fun i => b.xu i - it.x i) it.sxu).2 h.xu i
    · rw [e7]; exact (key b.idl (fun i => it.d i - b.dl i) it.sdl).2 h.dl i
    · rw [e8]; exact (key b.idu (fun i => b.du i - it.d i) it.sdu).2 h.du i
    · rw [e9]; split_ifs with hi
      · rw [h.czl i hi, sub_self]
      · rfl
    · rw [e10]; split_ifs with hi
      · rw [h.czu i hi, sub_self]
      · rfl
    · rw [e11]; split_ifs with hi
      · rw [h.cvl i hi, sub_self]
      · rfl
    · rw [e12]; split_ifs with hi
      · rw [h.cvu i hi, sub_self]
      · rfl

theorem bump_le {c : ℤ} {w : RVec ℝ p} (h : CountOk c w) (acc t : ℝ) (ht : 0 ≤ t) (v : RVec ℝ p)
    (hv : ∀ i, w i ≠ 1 → v i = 0) :
    bump c acc v ≤ t ↔ acc ≤ t ∧ ∀ i, w i = 1 → |v i| ≤ t := by
  unfold bump
  by_cases h1 : c > 0
  · rw [if_pos h1, max_le_iff, infnorm_le_iff _ _ ht]
    refine and_congr_right fun _ => ⟨fun h i _ => h i, fun h i => ?_⟩
    by_cases hi : w i = 1
    · exact h i hi
    · rw [hv i hi, abs_zero]; exact ht
  · rw [if_neg h1]
    exact ⟨fun h2 => ⟨h2, fun i hi => absurd hi (h.none h1 i)⟩, fun h => h.1⟩

theorem sideViol_le (dblMax : ℝ) (hd : 0 ≤ dblMax) (hi lo sel : RVec ℝ p) (t : ℝ) (ht : 0 ≤ t) :
    sideViol dblMax hi lo sel ≤ t ↔ ∀ i, sel i = 1 → lo i - hi i ≤ t := by
  obtain ⟨h1, h2, h3⟩ := minSel_char dblMax (axpy hi (-1) lo) sel
  unfold sideViol
  simp only
  have ea : ∀ i, axpy hi (-1) lo i = hi i - lo i := fun i => by simp only [axpy]; ring
  constructor
  · intro h i hs
    have := h2 i hs
    rw [ea] at this
    split_ifs at h with hneg
    · linarith
    · linarith
  · intro h
    split_ifs with hneg
    · rcases h3 with h3 | ⟨i, hs, h3⟩
      · linarith
      · have := h i hs
        rw [ea] at h3
        linarith
    · exact ht

/-- **C21.** The reported error norms are the largest absolute entries of their blocks: each is at
most `t` exactly when every entry of the block is. The complementarity errors look at existing
bounds only; the constraint violation is that of the user's constraints, not of the slacks. -/
theorem C21_norms (dblMax : ℝ) (b : Bounds ℝ n m) (cn : Counts) (it : It ℝ n mc m)
    (e : Eval n mc m) (old : RState n mc m) (hp : Patterns b) (hc : CountsOk cn b)
    (ho : BlocksOk cn old.v) (hM : 0 ≤ dblMax) (t : ℝ) (ht : 0 ≤ t) :
    let nr := (update dblMax b cn it e old).nr
    (nr.nlpOptim ≤ t ↔ (∀ i, |lagX it e i| ≤ t) ∧ ∀ i, |lagD it i| ≤ t) ∧
    (nr.barOptim ≤ t ↔ (∀ i, |lagX it e i + damp b.ixl b.ixu e.mu e.kappad i| ≤ t) ∧
      ∀ i, |lagD it i + damp b.idl b.idu e.mu e.kappad i| ≤ t) ∧
    (nr.nlpFeas ≤ t ↔ (∀ i, |e.c i - e.crhs i| ≤ t) ∧ ∀ i, |e.d i - it.d i| ≤ t) ∧
    nr.barFeas = nr.nlpFeas ∧
    (nr.nlpCompl ≤ t ↔ (∀ i, b.ixl i = 1 → |it.sxl i * it.zl i| ≤ t) ∧
      (∀ i, b.ixu i = 1 → |it.sxu i * it.zu i| ≤ t) ∧
      (∀ i, b.idl i = 1 → |it.sdl i * it.vl i| ≤ t) ∧
      (∀ i, b.idu i = 1 → |it.sdu i * it.vu i| ≤ t)) ∧
    (nr.barCompl ≤ t ↔ (∀ i, b.ixl i = 1 → |it.sxl i * it.zl i - e.mu| ≤ t) ∧
      (∀ i, b.ixu i = 1 → |it.sxu i * it.zu i - e.mu| ≤ t) ∧
      (∀ i, b.idl i = 1 → |it.sdl i * it.vl i - e.mu| ≤ t) ∧
      (∀ i, b.idu i = 1 → |it.sdu i * it.vu i - e.mu| ≤ t)) ∧
    nr.oneNlpFeas = (∑ i, |e.c i - e.crhs i|) + ∑ i, |e.d i - it.d i| ∧
    nr.oneBarFeas = nr.oneNlpFeas ∧
    (nr.consViol ≤ t ↔ (∀ i, |e.c i - e.crhs i| ≤ t) ∧ (∀ i, b.idl i = 1 → b.dl i - e.d i ≤ t) ∧
      ∀ i, b.idu i = 1 → e.d i - b.du i ≤ t) := by
  intro nr
  obtain ⟨e1, e2, e3, e4, -, -, -, -, e9, e10, e11, e12, -⟩ :=
    C21_vectors dblMax b cn it e old hp hc ho
  set v := (update dblMax b cn it e old).v with hv
  have off : ∀ {q : ℕ} {w a : RVec ℝ q} {f : Fin q → ℝ},
      (∀ i, a i = if w i = 1 then f i else 0) → ∀ i, w i ≠ 1 → a i = 0 := by
    intro q w a f h i hi; rw [h i, if_neg hi]
  have z0 : ∀ {q : ℕ} {w s z : RVec ℝ q} {c : ℤ} (hw : IsPattern w) (h : CountOk c w),
      ∀ i, w i ≠ 1 → compRes0 c w s z i = 0 := by
    intro q w s z c hw h i hi; rw [compRes0_apply hw h, if_neg hi]
  have hyc : ∀ i, |v.ryc i| = |e.c i - e.crhs i| := fun i => by rw [e3, abs_sub_comm]
  have hyd : ∀ i, |v.ryd i| = |e.d i - it.d i| := fun i => by rw [e4, abs_sub_comm]
  refine ⟨?_, ?_, ?_, rfl, ?_, ?_, ?_, rfl, ?_⟩
  · change max (max 0 (infnorm (rxPlain it e))) (infnorm (rdPlain it)) ≤ t ↔ _
    rw [max_le_iff, max_le_iff, infnorm_le_iff _ _ ht, infnorm_le_iff _ _ ht]
    simp only [rxPlain_apply, rdPlain_apply, abs_neg, ht, true_and]
  · change max (max 0 (infnorm v.rx)) (infnorm v.rd) ≤ t ↔ _
    rw [max_le_iff, max_le_iff, infnorm_le_iff _ _ ht, infnorm_le_iff _ _ ht]
    simp only [e1, e2, abs_neg, ht, true_and]
  · change max (max 0 (infnorm v.ryc)) (infnorm v.ryd) ≤ t ↔ _
    rw [max_le_iff, max_le_iff, infnorm_le_iff _ _ ht, infnorm_le_iff _ _ ht]
    simp only [hyc, hyd, ht, true_and]
  · change bump cn.mUpp (bump cn.mLow (bump cn.nUpp (bump cn.nLow 0 _) _) _) _ ≤ t ↔ _
    rw [bump_le hc.mUpp _ _ ht _ (z0 hp.idu hc.mUpp), bump_le hc.mLow _ _ ht _ (z0 hp.idl hc.mLow),
      bump_le hc.nUpp _ _ ht _ (z0 hp.ixu hc.nUpp), bump_le hc.nLow _ _ ht _ (z0 hp.ixl hc.nLow)]
    have ha : ∀ {q : ℕ} {w s z : RVec ℝ q} {c : ℤ} (hw : IsPattern w) (h : CountOk c w),
        (∀ i, w i = 1 → |compRes0 c w s z i| ≤ t) ↔ ∀ i, w i = 1 → |s i * z i| ≤ t := by
      intro q w s z c hw h
      refine forall_congr' fun i => imp_congr_right fun hi => ?_
      rw [compRes0_apply hw h, if_pos hi, abs_neg]
    rw [ha hp.ixl hc.nLow, ha hp.ixu hc.nUpp, ha hp.idl hc.mLow, ha hp.idu hc.mUpp]
    simp only [ht, true_and, and_assoc]
  · change bump cn.mUpp (bump cn.mLow (bump cn.nUpp (bump cn.nLow 0 v.rszl) v.rszu) v.rsvl) v.rsvu
      ≤ t ↔ _
    rw [bump_le hc.mUpp _ _ ht _ (off e12), bump_le hc.mLow _ _ ht _ (off e11),
      bump_le hc.nUpp _ _ ht _ (off e10), bump_le hc.nLow _ _ ht _ (off e9)]
    have ha : ∀ {q : ℕ} {w a : RVec ℝ q} {f : Fin q → ℝ},
        (∀ i, a i = if w i = 1 then e.mu - f i else 0) →
        ((∀ i, w i = 1 → |a i| ≤ t) ↔ ∀ i, w i = 1 → |f i - e.mu| ≤ t) := by
      intro q w a f h
      refine forall_congr' fun i => imp_congr_right fun hi => ?_
      rw [h i, if_pos hi, abs_sub_comm]
    rw [ha e9, ha e10, ha e11, ha e12]
    simp only [ht, true_and, and_assoc]
  · change 0 + onenorm v.ryc + onenorm v.ryd = _
    rw [onenorm_eq_sum, onenorm_eq_sum, zero_add]
    simp only [hyc, hyd]
  · change max (max (max 0 (infnorm v.ryc)) _) _ ≤ t ↔ _
    rw [max_le_iff, max_le_iff, max_le_iff, infnorm_le_iff _ _ ht, sideViol_le _ hM _ _ _ _ ht,
      sideViol_le _ hM _ _ _ _ ht]
    simp only [hyc, ht, true_and, and_assoc]

/-- **C21.** If the reported optimality, feasibility and complementarity errors of the problem are
all zero at an iterate with consistent slacks and multipliers of the right sign, the iterate is a
first-order optimal point of the user's problem, with multipliers `vu - vl` for the
inequalities. -/
theorem C21_zero_errors_optimal (dblMax : ℝ) (b : Bounds ℝ n m) (cn : Counts) (it : It ℝ n mc m)
    (e : Eval n mc m) (old : RState n mc m) (hp : Patterns b) (hc : CountsOk cn b)
    (ho : BlocksOk cn old.v) (hM : 0 ≤ dblMax)
    (hs : ∀ i, 0 ≤ it.sxl i ∧ 0 ≤ it.sxu i) (hsd : ∀ i, 0 ≤ it.sdl i ∧ 0 ≤ it.sdu i)
    (hm : SlacksMatch b it) (hz : ∀ i, 0 ≤ it.zl i ∧ 0 ≤ it.zu i)
    (hv : ∀ i, 0 ≤ it.vl i ∧ 0 ≤ it.vu i)
    (hoff : ZeroOff it.zl b.ixl ∧ ZeroOff it.zu b.ixu ∧ ZeroOff it.vl b.idl ∧ ZeroOff it.vu b.idu)
    (h1 : (update dblMax b cn it e old).nr.nlpOptim ≤ 0)
    (h2 : (update dblMax b cn it e old).nr.nlpFeas ≤ 0)
    (h3 : (update dblMax b cn it e old).nr.nlpCompl ≤ 0) : NlpKKT b it e := by
  obtain ⟨k1, -, k3, -, k5, -⟩ := C21_norms dblMax b cn it e old hp hc ho hM 0 le_rfl
  obtain ⟨a1, a2⟩ := k1.1 h1
  obtain ⟨c1, c2⟩ := k3.1 h2
  obtain ⟨p1, p2, p3, p4⟩ := k5.1 h3
  have z : ∀ {x : ℝ}, |x| ≤ 0 → x = 0 := fun h => abs_nonpos_iff.1 h
  have hyd : ∀ i, it.yd i = it.vu i - it.vl i := fun i => by
    have := z (a2 i); unfold lagD at this; linarith
  have hd : ∀ i, e.d i = it.d i := fun i => by have := z (c2 i); linarith
  refine ⟨fun i => ?_, fun i => ?_, fun i hi => ?_, fun i hi => ?_, fun i hi => ?_, fun i hi => ?_,
    fun i hi => ⟨(hz i).1, ?_⟩, fun i hi => ⟨(hz i).2, ?_⟩, fun i hi => ⟨(hv i).1, ?_⟩,
    fun i hi => ⟨(hv i).2, ?_⟩, hoff.1, hoff.2.1, hoff.2.2.1, hoff.2.2.2⟩
  · have := z (a1 i); unfold lagX at this; simp only [hyd] at this; exact this
  · have := z (c1 i); linarith
  · have := hm.sdl i hi; have := (hsd i).1; rw [hd]; linarith
  · have := hm.sdu i hi; have := (hsd i).2; rw [hd]; linarith
  · have := hm.sxl i hi; have := (hs i).1; linarith
  · have := hm.sxu i hi; have := (hs i).2; linarith
  · rw [← hm.sxl i hi]; exact z (p1 i hi)
  · rw [← hm.sxu i hi]; exact z (p2 i hi)
  · rw [hd, ← hm.sdl i hi]; exact z (p3 i hi)
  · rw [hd, ← hm.sdu i hi]; exact z (p4 i hi)

/-- **C21.** The infeasibility used by the line search is the one norm of the constraint defects of
the trial iterate and leaves the cached norms unchanged. -/
theorem C21_infeas_onenorm (b : Bounds ℝ n m) (cn : Counts) (it : It ℝ n mc m)
    (crhs c : RVec ℝ mc) (d : RVec ℝ m) (old : RState n mc m) :
    (infeasOneNorm b cn it crhs c d old).1 = (∑ i, |c i - crhs i|) + ∑ i, |d i - it.d i| ∧
    (infeasOneNorm b cn it crhs c d old).2.nr = old.nr := by
  refine ⟨?_, rfl⟩
  change 0 + onenorm (axpy crhs (-1) c) + onenorm (axpy it.d (-1) d) = _
  rw [onenorm_eq_sum, onenorm_eq_sum, zero_add]
  congr 1
  · refine Finset.sum_congr rfl fun i _ => ?_
    rw [abs_sub_comm]; congr 1; simp only [axpy]; ring
  · refine Finset.sum_congr rfl fun i _ => ?_
    rw [abs_sub_comm]; congr 1; simp only [axpy]; ring

/-- **C21.** In the second-order correction only the two feasibility blocks differ from those of
`update`: they are the given corrected defects; the constraint violation is not recomputed. -/
theorem C21_soc (dblMax : ℝ) (b : Bounds ℝ n m) (cn : Counts) (it : It ℝ n mc m)
    (e : Eval n mc m) (csoc : RVec ℝ mc) (dsoc : RVec ℝ m) (old : RState n mc m) :
    (updateSoc b cn it e csoc dsoc old).v
      = { (update dblMax b cn it e old).v with ryc := csoc, ryd := dsoc } ∧
    (updateSoc b cn it e csoc dsoc old).nr.consViol = old.nr.consViol ∧
    (updateSoc b cn it e csoc dsoc old).nr.oneNlpFeas = (∑ i, |csoc i|) + ∑ i, |dsoc i| := by
  refine ⟨rfl, rfl, ?_⟩
  change 0 + onenorm csoc + onenorm dsoc = _
  rw [onenorm_eq_sum, onenorm_eq_sum, zero_add]

/-- **C21, deviation.** Copying a residual object keeps the destination's old constraint
violation: after an accepted soft feasibility-restoration step the reported violation can be that
of an earlier iterate. -/
theorem C21_copy_stale_violation :
    ∃ dst src : RState 1 1 1, (copyFrom dst src).v = src.v ∧
      (copyFrom dst src).nr.nlpFeas = src.nr.nlpFeas ∧
      (copyFrom dst src).nr.consViol ≠ src.nr.consViol := by
  refine ⟨fresh (fun _ => 0), { fresh (fun _ => 0) with
    nr := ⟨0, 0, 0, 0, 0, 0, 0, 0, 0, 0, 0⟩ }, rfl, rfl, ?_⟩
  simp [copyFrom, fresh]

/-! ## A concrete instance -/

/-- One variable with lower bound zero, one equality, one inequality with an upper bound. -/
noncomputable def exB : Bounds ℝ 1 1 :=
  ⟨fun _ => 0, fun _ => 0, fun _ => 1, fun _ => 0, fun _ => 0, fun _ => 4, fun _ => 0, fun _ => 1⟩

/-- Its counters. -/
def exCn : Counts := ⟨1, 0, 0, 1⟩

/-- The barrier solution of minimising `x` with `x = 2`, `x ≤ 4`, `x ≥ 0`, `mu = 1`. -/
noncomputable def exIt : It ℝ 1 1 1 :=
  ⟨fun _ => 2, fun _ => 2, fun _ => 2, fun _ => 0, fun _ => 0, fun _ => 2, fun _ => -1,
    fun _ => 1 / 2, fun _ => 1 / 2, fun _ => 0, fun _ => 0, fun _ => 1 / 2⟩

/-- The evaluations there. -/
noncomputable def exE : Eval 1 1 1 :=
  ⟨fun _ => 2, fun _ => 2, fun _ => 2, fun _ => 1, fun _ _ => 1, fun _ _ => 1, 1, 0⟩

theorem exB_ok : Patterns exB ∧ CountsOk exCn exB := by
  refine ⟨?_, ?_⟩ <;> constructor
  any_goals (intro i; simp [exB])
  all_goals simp [CountOk, exB, exCn]

/-- The hypotheses of C21 are met and the conditions hold, so the residual vanishes there. -/
example : BarrierKKT exB exIt exE := by
  constructor <;> intro i <;> simp [exB, exIt, exE, lagX, lagD, damp] <;> norm_num

example : ∀ i, ((update 1 exB exCn exIt exE (fresh fun _ => 0)).v).rszl i = 0 :=
  ((C21_zero_iff_kkt 1 exB exCn exIt exE _ exB_ok.1 exB_ok.2 (C21_blocks_fresh _ _)).2
    (by constructor <;> intro i <;> simp [exB, exIt, exE, lagX, lagD, damp] <;> norm_num)
    ).2.2.2.2.2.2.2.2.1

end Hiop.Resid
