import Verif.Iterate.Model
import Verif.Vec.Props

/-! # Helper lemmas about the iterate -/

set_option linter.unusedSectionVars false

namespace Hiop.Iterate

open Hiop.Vec

variable {K : Type*} [Field K] [LinearOrder K] [IsStrictOrderedRing K] {n mc m p : ℕ}

theorem mem_admissible_iff (x d pat : RVec K n) (tau a : K)
    (hp : IsPattern pat) (hx : ∀ i, pat i = 1 → 0 < x i) (ht : 0 < tau) :
    a ∈ AdmissibleSteps x d tau pat ↔ 0 < a ∧ a ≤ fractionToBdrySel x d tau pat := by
  have hg := C03_fraction_to_boundary_greatest x d pat tau hp hx ht
  constructor
  · intro h; exact ⟨h.1, hg.2 h⟩
  · rintro ⟨h0, h1⟩
    obtain ⟨g0, g1, g2⟩ := hg.1
    refine ⟨h0, h1.trans g1, fun i hi => ?_⟩
    rcases le_total 0 (d i) with hd | hd
    · have := mul_nonneg h0.le hd
      have := mul_pos ht (hx i hi)
      linarith
    · have := g2 i hi
      have := mul_le_mul_of_nonpos_right h1 hd
      linarith

theorem fractionToBdrySel_pos (x d pat : RVec K n) (tau : K)
    (hp : IsPattern pat) (hx : ∀ i, pat i = 1 → 0 < x i) (ht : 0 < tau) :
    0 < fractionToBdrySel x d tau pat :=
  (C03_fraction_to_boundary_greatest x d pat tau hp hx ht).1.1

theorem scale_apply (x : RVec K p) (c : K) (i : Fin p) : Vec.scale x c i = c * x i := by
  unfold Vec.scale; split_ifs with h
  · rw [← h, one_mul]
  · rfl

/-- What the kernel sequence of `adjust_small_slacks` does to one component. -/
theorem adjustSmallSlacksVec_comp (M : Mach K) (slack bound dual sel : RVec K p) (mu : K)
    (hsel : IsPattern sel) (hoff : ∀ i, sel i = 0 → slack i = 0)
    (hsf : 0 < M.scaleFact) (hsv : 0 < M.eps * min 1 mu) (num : ℕ) (s' : RVec K p)
    (h : adjustSmallSlacksVec M slack bound dual sel mu = some (num, s')) (i : Fin p) :
    (sel i = 0 → s' i = 0) ∧
    (sel i = 1 → M.eps * min 1 mu ≤ slack i → s' i = slack i) ∧
    (sel i = 1 → slack i < M.eps * min 1 mu → dual i ≠ 0 →
      s' i = min (max (mu / dual i) (M.eps * min 1 mu))
        (max (slack i) 0 + M.scaleFact * max 1 |bound i|)) ∧
    (sel i = 1 → slack i < M.eps * min 1 mu → dual i = 0 →
      s' i = max (slack i) 0 + M.scaleFact * max 1 |bound i|) := by
  set sv := M.eps * min 1 mu with hsvdef
  have hp : p > 0 := Nat.lt_of_le_of_lt (Nat.zero_le _) i.2
  unfold adjustSmallSlacksVec at h
  simp only [← hsvdef] at h
  rw [if_pos hp] at h
  by_cases hmin : minSel M.dblMax slack sel < sv
  · rw [if_pos hmin] at h
    by_cases hz : ∃ i, sel i ≠ 0 ∧ dual i = 0 ∧
        Vec.scale (componentSgn (componentMinC (addConstantSel slack (-sv) sel) 0)) (-1) i = 0
    · rw [if_pos hz] at h; simp at h
    · rw [if_neg hz] at h
      have hs' := (Prod.mk.inj (Option.some.inj h)).2
      rw [← hs']
      have hb : (0:K) < M.scaleFact * max 1 |bound i| :=
        mul_pos hsf (lt_of_lt_of_le one_pos (le_max_left _ _))
      have hmax : ∀ a b : K, (if a < b then b else a) = max a b := by
        intro a b; split_ifs with h
        · exact (max_eq_right h.le).symm
        · exact (max_eq_left (not_lt.mp h)).symm
      have hmin' : ∀ a b : K, (if a > b then b else a) = min a b := by
        intro a b; split_ifs with h
        · exact (min_eq_right (le_of_lt h)).symm
        · exact (min_eq_left (not_lt.mp h)).symm
      rcases hsel i with hi | hi
      · refine ⟨fun _ => ?_, fun h1 => ?_, fun h1 => ?_, fun h1 => ?_⟩
        · have h0 := hoff i hi
          have h01 : ¬ ((0:K) = 1) := zero_ne_one
          simp only [componentMin, axpy, componentMult, scale_apply, componentSgn, componentMinC,
            addConstantSel, componentMaxC, componentMax, componentDivSel, setToConstantSel,
            componentAbs, hi, h0, if_true, if_neg h01, hmax, hmin', max_self, ne_eq,
            not_true_eq_false, false_and, if_false]
          have : 0 ≤ M.scaleFact * |bound i| := mul_nonneg hsf.le (abs_nonneg _)
          simp [this]
        · rw [hi] at h1; exact absurd h1 zero_ne_one
        · rw [hi] at h1; exact absurd h1 zero_ne_one
        · rw [hi] at h1; exact absurd h1 zero_ne_one
      · have h10 : ¬ ((1:K) = 0) := one_ne_zero
        refine ⟨fun h1 => absurd (hi.symm.trans h1) one_ne_zero, fun _ hge => ?_,
          fun _ hlt hd => ?_, fun _ hlt hd => ?_⟩
        · have e1 : min (slack i + -sv) 0 = 0 := min_eq_right (by linarith)
          have e2 : max (slack i) 0 = slack i := max_eq_left (by linarith)
          have hd : dual i ≠ 0 := by
            intro hd
            refine hz ⟨i, by rw [hi]; exact one_ne_zero, hd, ?_⟩
            simp only [scale_apply, componentSgn, componentMinC, addConstantSel, hi, if_true, hmin', e1,
              lt_irrefl, if_false, sub_self, mul_zero]
          simp only [componentMin, axpy, componentMult, scale_apply, componentSgn, componentMinC,
            addConstantSel, componentMaxC, componentMax, componentDivSel, setToConstantSel,
            componentAbs, hi, hd, if_true, if_neg h10, hmax, hmin', e1, e2, lt_irrefl, if_false,
            sub_self, mul_zero, zero_mul, one_mul, zero_add, and_false]
          exact min_eq_left (by linarith)
        · have e1 : min (slack i + -sv) 0 = slack i + -sv := min_eq_left (by linarith)
          have e3 : ¬ (0 < slack i + -sv) := by linarith
          have e4 : slack i + -sv < 0 := by linarith
          simp only [componentMin, axpy, componentMult, scale_apply, componentSgn, componentMinC,
            addConstantSel, componentMaxC, componentMax, componentDivSel, setToConstantSel,
            componentAbs, hi, hd, if_true, if_neg h10, hmax, hmin', e1, if_neg e3, if_pos e4,
            one_mul, zero_sub, and_false, if_false]
          congr 1
          · ring
          · ring
        · simp only [axpy, scale_apply, componentMaxC, componentMax, setToConstantSel,
            componentAbs, hi, hd, if_true, hmax, ne_eq, h10, not_false_eq_true, and_self]
          ring
  · rw [if_neg hmin] at h
    have hs' := (Prod.mk.inj (Option.some.inj h)).2
    rw [← hs']
    have hno : sel i = 1 → ¬ slack i < sv := fun h1 h2 =>
      hmin (lt_of_le_of_lt ((minSel_char M.dblMax slack sel).2.1 i h1) h2)
    exact ⟨hoff i, fun _ _ => rfl, fun h1 h2 => absurd h2 (hno h1),
      fun h1 h2 => absurd h2 (hno h1)⟩

theorem adjustSmallSlacksVec_num (M : Mach K) (slack bound dual sel : RVec K p) (mu : K)
    (hsel : IsPattern sel) (hoff : ∀ i, sel i = 0 → slack i = 0)
    (num : ℕ) (s' : RVec K p)
    (h : adjustSmallSlacksVec M slack bound dual sel mu = some (num, s')) :
    num = (Finset.univ.filter fun i => sel i = 1 ∧ slack i < M.eps * min 1 mu).card := by
  set sv := M.eps * min 1 mu with hsvdef
  unfold adjustSmallSlacksVec at h
  simp only [← hsvdef] at h
  by_cases hp : p > 0
  · rw [if_pos hp] at h
    by_cases hmin : minSel M.dblMax slack sel < sv
    · rw [if_pos hmin] at h
      by_cases hz : ∃ i, sel i ≠ 0 ∧ dual i = 0 ∧
          Vec.scale (componentSgn (componentMinC (addConstantSel slack (-sv) sel) 0)) (-1) i = 0
      · rw [if_pos hz] at h; simp at h
      · rw [if_neg hz] at h
        have hs' := (Prod.mk.inj (Option.some.inj h)).1
        rw [← hs', numLessThan_eq]
        congr 1
        ext i
        rw [Finset.mem_filter, Finset.mem_filter]
        simp only [Finset.mem_univ, true_and, componentMinC, addConstantSel]
        rcases hsel i with hi | hi
        · simp [hi, hoff i hi]
        · simp only [hi, if_true, true_and]
          split_ifs with h1
          · constructor
            · intro h; exact absurd h (lt_irrefl _)
            · intro h; have h1' : 0 < slack i + -sv := h1; linarith
          · constructor <;> intro h <;> linarith
    · rw [if_neg hmin] at h
      have hs' := (Prod.mk.inj (Option.some.inj h)).1
      rw [← hs', eq_comm, Finset.card_eq_zero, Finset.filter_eq_empty_iff]
      rintro i - ⟨h1, h2⟩
      exact hmin (lt_of_le_of_lt ((minSel_char M.dblMax slack sel).2.1 i h1) h2)
  · rw [if_neg hp] at h
    have hs' := (Prod.mk.inj (Option.some.inj h)).1
    have : p = 0 := by omega
    subst this
    rw [← hs', eq_comm, Finset.card_eq_zero, Finset.filter_eq_empty_iff]
    rintro i
    exact i.elim0

/-- Exactly when the correction produces a NaN. -/
theorem adjustSmallSlacksVec_none_iff (M : Mach K) (slack bound dual sel : RVec K p) (mu : K)
    (hsel : IsPattern sel) (hmax : M.eps * min 1 mu ≤ M.dblMax) :
    adjustSmallSlacksVec M slack bound dual sel mu = none ↔
      (∃ j, sel j = 1 ∧ slack j < M.eps * min 1 mu) ∧
      (∃ i, sel i = 1 ∧ dual i = 0 ∧ M.eps * min 1 mu ≤ slack i) := by
  set sv := M.eps * min 1 mu with hsvdef
  have hval : ∀ i, sel i = 1 →
      (Vec.scale (componentSgn (componentMinC (addConstantSel slack (-sv) sel) 0)) (-1) i = 0 ↔
        sv ≤ slack i) := by
    intro i hi
    simp only [scale_apply, componentSgn, componentMinC, addConstantSel, hi, if_true]
    by_cases h : sv ≤ slack i
    · by_cases h2 : slack i + -sv > 0
      · simp [h2, h]
      · have : slack i + -sv = 0 := le_antisymm (not_lt.mp h2) (by linarith)
        simp [this, h]
    · have h1 : ¬ (slack i + -sv > 0) := by
        intro h3; have : 0 < slack i + -sv := h3; linarith
      have h2 : slack i + -sv < 0 := by linarith
      have h3 : ¬ (0 < slack i + -sv) := h1
      simp [h, h1, h2]
  have hmin : minSel M.dblMax slack sel < sv ↔ ∃ j, sel j = 1 ∧ slack j < sv := by
    obtain ⟨c1, c2, c3⟩ := minSel_char M.dblMax slack sel
    constructor
    · intro h
      rcases c3 with h3 | ⟨j, hj, h3⟩
      · rw [h3] at h; exact absurd h (not_lt.mpr hmax)
      · exact ⟨j, hj, h3 ▸ h⟩
    · rintro ⟨j, hj, h⟩; exact lt_of_le_of_lt (c2 j hj) h
  unfold adjustSmallSlacksVec
  simp only [← hsvdef]
  by_cases hp : p > 0
  · rw [if_pos hp]
    by_cases hm : minSel M.dblMax slack sel < sv
    · rw [if_pos hm]
      have hm' := hmin.mp hm
      by_cases hz : ∃ i, sel i ≠ 0 ∧ dual i = 0 ∧
          Vec.scale (componentSgn (componentMinC (addConstantSel slack (-sv) sel) 0)) (-1) i = 0
      · rw [if_pos hz]
        simp only [true_iff]
        obtain ⟨i, h1, h2, h3⟩ := hz
        have hi := (hsel i).resolve_left h1
        exact ⟨hm', i, hi, h2, (hval i hi).1 h3⟩
      · rw [if_neg hz]
        simp only [reduceCtorEq, false_iff, not_and]
        rintro - ⟨i, hi, h2, h3⟩
        exact hz ⟨i, by rw [hi]; exact one_ne_zero, h2, (hval i hi).2 h3⟩
    · rw [if_neg hm]
      simp only [reduceCtorEq, false_iff, not_and]
      intro h; exact absurd (hmin.mpr h) hm
  · rw [if_neg hp]
    simp only [reduceCtorEq, false_iff, not_and]
    rintro ⟨j, -⟩
    exact absurd (Nat.lt_of_le_of_lt (Nat.zero_le _) j.2) hp

end Hiop.Iterate
