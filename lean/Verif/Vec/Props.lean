import Verif.Vec.Lemmas
import Mathlib.Order.Bounds.Basic
import Mathlib.Tactic.NormNum
import Mathlib.Tactic.FinCases

/-!
# Properties C03 (kernel level), C04, C05
-/

set_option linter.unusedSectionVars false

namespace Hiop.Vec

variable {K : Type*} [Field K] [LinearOrder K] [IsStrictOrderedRing K] {n : ℕ}

/-- A selection pattern holds only zeros and ones. -/
def IsPattern (w : RVec K n) : Prop := ∀ i, w i = 0 ∨ w i = 1

/-- Step lengths in `(0,1]` that keep at least the fraction `1-tau` of every selected
(positive) component of `x` when moving along `d`. -/
def AdmissibleSteps (x d : RVec K n) (tau : K) (pat : RVec K n) : Set K :=
  {a | 0 < a ∧ a ≤ 1 ∧ ∀ i, pat i = 1 → (1 - tau) * x i ≤ x i + a * d i}

/-- **C03** (one vector). The returned step is the largest admissible one. -/
theorem C03_fraction_to_boundary_greatest (x d pat : RVec K n) (tau : K)
    (hp : IsPattern pat) (hx : ∀ i, pat i = 1 → 0 < x i) (ht : 0 < tau) :
    IsGreatest (AdmissibleSteps x d tau pat) (fractionToBdrySel x d tau pat) := by
  obtain ⟨h1, h2, h3⟩ := fractionToBdrySel_char x d tau pat
  have hsel : ∀ i, pat i ≠ 0 → pat i = 1 := fun i hi => (hp i).resolve_left hi
  constructor
  · refine ⟨?_, h1, ?_⟩
    · rcases h3 with h | ⟨i, hd, hi, h⟩
      · rw [h]; exact one_pos
      · rw [h]
        have := mul_pos ht (hx i (hsel i hi))
        rw [show -tau * x i / d i = (tau * x i) / (-d i) by rw [div_neg, neg_mul, neg_div]]
        exact div_pos this (by linarith)
    · intro i hi
      rcases lt_or_ge (d i) 0 with hd | hd
      · have h := h2 i hd (by rw [hi]; exact one_ne_zero)
        have : fractionToBdrySel x d tau pat * d i ≥ -tau * x i := by
          have := mul_le_mul_of_nonpos_right h hd.le
          rwa [div_mul_cancel₀ _ hd.ne] at this
        linarith
      · have hpos : 0 ≤ fractionToBdrySel x d tau pat := by
          rcases h3 with h | ⟨j, hd', hj, h⟩
          · rw [h]; exact zero_le_one
          · rw [h]
            have := mul_pos ht (hx j (hsel j hj))
            rw [show -tau * x j / d j = (tau * x j) / (-d j) by rw [div_neg, neg_mul, neg_div]]
            exact (div_pos this (by linarith)).le
        have := mul_nonneg hpos hd
        have := mul_pos ht (hx i hi)
        linarith
  · rintro a ⟨ha0, ha1, ha⟩
    rcases h3 with h | ⟨i, hd, hi, h⟩
    · rw [h]; exact ha1
    · rw [h, le_div_iff_of_neg hd]
      have := ha i (hsel i hi)
      linarith

/-- **C03**, unselected kernel `fractionToTheBdry_local`. -/
theorem C03_fraction_to_boundary_all (x d : RVec K n) (tau : K)
    (hx : ∀ i, 0 < x i) (ht : 0 < tau) :
    IsGreatest {a | 0 < a ∧ a ≤ 1 ∧ ∀ i, (1 - tau) * x i ≤ x i + a * d i}
      (fractionToBdry x d tau) := by
  rw [fractionToBdry_eq]
  have := C03_fraction_to_boundary_greatest x d (fun _ => 1) tau (fun _ => Or.inr rfl)
    (fun i _ => hx i) ht
  simpa [AdmissibleSteps] using this

-- Non-vacuity: two selected components, one blocking.
example : fractionToBdrySel (K := ℚ) ![1, 2, -5] ![-4, 1, -1] (1/2) ![1, 1, 0] = 1/8 := by
  simp [fractionToBdrySel, List.finRange]
  norm_num
example : IsPattern (K := ℚ) ![1, 1, 0] ∧
    ∀ i, (![1, 1, 0] : RVec ℚ 3) i = 1 → 0 < (![1, 2, -5] : RVec ℚ 3) i := by
  constructor
  · intro i; fin_cases i <;> simp
  · intro i; fin_cases i <;> simp

/-! ## C04: projection of the starting point -/

/-- The distance the starting point is kept away from a lower bound `l` when there is also an
upper bound `u`: `min(κ₁ max(1,|l|), κ₂ (u-l) - small)`. -/
def lowerMargin (small k1 k2 l u : K) : K := min (k1 * max 1 |l|) (k2 * (u - l) - small)

/-- The same for the upper bound. -/
def upperMargin (small k1 k2 l u : K) : K := min (k1 * max 1 |u|) (k2 * (u - l) - small)

/-- `y` is a point of the set `S` closest to `x`. -/
def IsNearest (S : Set K) (x y : K) : Prop := y ∈ S ∧ ∀ w ∈ S, |y - x| ≤ |w - x|

theorem isNearest_clamp (lo hi x : K) (h : lo ≤ hi) :
    IsNearest (Set.Icc lo hi) x (if x < lo then lo else if x > hi then hi else x) := by
  constructor
  · split_ifs with h1 h2
    · exact ⟨le_rfl, h⟩
    · exact ⟨h, le_rfl⟩
    · exact ⟨not_lt.mp h1, not_lt.mp h2⟩
  · rintro w ⟨hw1, hw2⟩
    split_ifs with h1 h2
    · rw [abs_of_pos (by linarith : (0:K) < lo - x), abs_of_pos (by linarith : (0:K) < w - x)]
      linarith
    · rw [abs_of_neg (by linarith : hi - x < (0:K)), abs_of_neg (by linarith : w - x < (0:K))]
      linarith
    · simp

theorem isNearest_Ici (lo x : K) : IsNearest (Set.Ici lo) x (max x lo) := by
  refine ⟨le_max_right _ _, ?_⟩
  intro w hw
  have hw' : lo ≤ w := hw
  rcases le_total x lo with h | h
  · rw [max_eq_right h, abs_of_nonneg (by linarith : 0 ≤ lo - x),
      abs_of_nonneg (by linarith : 0 ≤ w - x)]
    linarith
  · rw [max_eq_left h]; simp

theorem isNearest_Iic (hi x : K) : IsNearest (Set.Iic hi) x (min x hi) := by
  refine ⟨min_le_right _ _, ?_⟩
  intro w hw
  have hw' : w ≤ hi := hw
  rcases le_total x hi with h | h
  · rw [min_eq_left h]; simp
  · rw [min_eq_right h, abs_of_nonpos (by linarith : hi - x ≤ 0),
      abs_of_nonpos (by linarith : w - x ≤ 0)]
    linarith

/-- **C04.** The projection fails exactly when some variable has a lower bound above its upper
bound. -/
theorem C04_projection_fails_iff (small k1 k2 : K) (x xl ixl xu ixu : RVec K n) :
    (projectIntoBounds small k1 k2 x xl ixl xu ixu).1 = false ↔
      ∃ i, ixl i ≠ 0 ∧ ixu i ≠ 0 ∧ xu i < xl i := by
  rw [← Bool.not_eq_true, projectIntoBounds_true_iff, not_forall]
  apply exists_congr
  intro i
  unfold projComp
  by_cases h1 : ixl i = 0
  · by_cases h2 : ixu i = 0 <;> simp [h1, h2]
  · by_cases h2 : ixu i = 0
    · simp [h1, h2]
    · simp only [h1, h2, ne_eq, not_false_eq_true, and_self, if_true, true_and, gt_iff_lt]
      split_ifs <;> simp_all

/-- **C04.** When it succeeds, every component is replaced by the closest point that respects
the margins prescribed by `κ₁`, `κ₂`; free components are untouched. -/
theorem C04_projection_nearest (small k1 k2 : K) (x xl ixl xu ixu : RVec K n)
    (hs : 0 ≤ small) (hk2' : k2 ≤ 1 / 2)
    (hok : (projectIntoBounds small k1 k2 x xl ixl xu ixu).1 = true) (i : Fin n) :
    let y := (projectIntoBounds small k1 k2 x xl ixl xu ixu).2 i
    (ixl i ≠ 0 → ixu i ≠ 0 → IsNearest
        (Set.Icc (xl i + lowerMargin small k1 k2 (xl i) (xu i))
          (xu i - upperMargin small k1 k2 (xl i) (xu i))) (x i) y) ∧
    (ixl i ≠ 0 → ixu i = 0 →
        IsNearest (Set.Ici (xl i + k1 * max 1 |xl i| - small)) (x i) y) ∧
    (ixl i = 0 → ixu i ≠ 0 →
        IsNearest (Set.Iic (xu i - k1 * max 1 |xu i| - small)) (x i) y) ∧
    (ixl i = 0 → ixu i = 0 → y = x i) := by
  have hc := projectIntoBounds_comp small k1 k2 x xl ixl xu ixu hok i
  intro y
  refine ⟨?_, ?_, ?_, ?_⟩
  · intro h1 h2
    unfold projComp at hc
    rw [if_pos ⟨h1, h2⟩] at hc
    by_cases h3 : xl i > xu i
    · rw [if_pos h3] at hc; simp at hc
    · rw [if_neg h3] at hc
      have hle : xl i + lowerMargin small k1 k2 (xl i) (xu i)
          ≤ xu i - upperMargin small k1 k2 (xl i) (xu i) := by
        have a1 : lowerMargin small k1 k2 (xl i) (xu i) ≤ k2 * (xu i - xl i) - small :=
          min_le_right _ _
        have a2 : upperMargin small k1 k2 (xl i) (xu i) ≤ k2 * (xu i - xl i) - small :=
          min_le_right _ _
        have a3 : k2 * (xu i - xl i) ≤ 1 / 2 * (xu i - xl i) :=
          mul_le_mul_of_nonneg_right hk2' (by linarith)
        linarith
      have hn := isNearest_clamp _ _ (x i) hle
      have hy : y = (if x i < xl i + lowerMargin small k1 k2 (xl i) (xu i)
          then xl i + lowerMargin small k1 k2 (xl i) (xu i)
          else if x i > xu i - upperMargin small k1 k2 (xl i) (xu i)
          then xu i - upperMargin small k1 k2 (xl i) (xu i) else x i) := by
        change (if x i < xl i + lowerMargin small k1 k2 (xl i) (xu i)
          then some (xl i + lowerMargin small k1 k2 (xl i) (xu i))
          else if x i > xu i - upperMargin small k1 k2 (xl i) (xu i)
          then some (xu i - upperMargin small k1 k2 (xl i) (xu i)) else some (x i)) = some y at hc
        by_cases h4 : x i < xl i + lowerMargin small k1 k2 (xl i) (xu i)
        · rw [if_pos h4] at hc ⊢; exact (Option.some.inj hc).symm
        · rw [if_neg h4] at hc ⊢
          by_cases h5 : x i > xu i - upperMargin small k1 k2 (xl i) (xu i)
          · rw [if_pos h5] at hc ⊢; exact (Option.some.inj hc).symm
          · rw [if_neg h5] at hc ⊢; exact (Option.some.inj hc).symm
      rw [hy]; exact hn
  · intro h1 h2
    unfold projComp at hc
    rw [if_neg (by simp [h2]), if_pos h1] at hc
    have hy : y = max (x i) (xl i + k1 * max 1 |xl i| - small) := (Option.some.inj hc).symm
    rw [hy]
    exact isNearest_Ici _ _
  · intro h1 h2
    unfold projComp at hc
    rw [if_neg (by simp [h1]), if_neg (by simp [h1]), if_pos h2] at hc
    have hy : y = min (x i) (xu i - k1 * max 1 |xu i| - small) := (Option.some.inj hc).symm
    rw [hy]
    exact isNearest_Iic _ _
  · intro h1 h2
    unfold projComp at hc
    rw [if_neg (by simp [h1]), if_neg (by simp [h1]), if_neg (by simp [h2])] at hc
    exact (Option.some.inj hc).symm

/-- **C04.** The projected point is strictly inside all its bounds, provided every two-sided
interval is wide enough for the margin not to vanish (`small < κ₂ (u-l)`) and `small < κ₁`. -/
theorem C04_projection_strictly_inside (small k1 k2 : K) (x xl ixl xu ixu : RVec K n)
    (hs : 0 ≤ small) (hk1 : small < k1) (hk2' : k2 ≤ 1 / 2)
    (hw : ∀ i, ixl i ≠ 0 → ixu i ≠ 0 → small < k2 * (xu i - xl i))
    (hok : (projectIntoBounds small k1 k2 x xl ixl xu ixu).1 = true) (i : Fin n) :
    let y := (projectIntoBounds small k1 k2 x xl ixl xu ixu).2 i
    (ixl i ≠ 0 → xl i < y) ∧ (ixu i ≠ 0 → y < xu i) := by
  intro y
  obtain ⟨h1, h2, h3, -⟩ := C04_projection_nearest small k1 k2 x xl ixl xu ixu hs hk2' hok i
  have hk1' : ∀ a : K, small < k1 * max 1 |a| := by
    intro a
    have : k1 * 1 ≤ k1 * max 1 |a| :=
      mul_le_mul_of_nonneg_left (le_max_left _ _) (by linarith)
    linarith
  have hk1p : ∀ a : K, 0 < k1 * max 1 |a| := fun a => lt_of_le_of_lt hs (hk1' a)
  have hm : ixl i ≠ 0 → ixu i ≠ 0 → 0 < lowerMargin small k1 k2 (xl i) (xu i) ∧
      0 < upperMargin small k1 k2 (xl i) (xu i) := by
    intro a b
    have := hw i a b
    exact ⟨lt_min (hk1p _) (by linarith), lt_min (hk1p _) (by linarith)⟩
  constructor
  · intro hl
    by_cases hu : ixu i = 0
    · have : xl i + k1 * max 1 |xl i| - small ≤ y := (h2 hl hu).1
      have := hk1' (xl i)
      linarith
    · have := (h1 hl hu).1.1
      have := (hm hl hu).1
      linarith
  · intro hu
    by_cases hl : ixl i = 0
    · have : y ≤ xu i - k1 * max 1 |xu i| - small := (h3 hl hu).1
      have := hk1p (xu i)
      linarith
    · have := (h1 hl hu).1.2
      have := (hm hl hu).2
      linarith

/-- **C04**, the excluded case: on an interval narrower than `small/κ₂` the result is *not*
strictly inside the bounds (starting from the lower bound itself). -/
theorem C04_narrow_interval_not_inside (small k1 k2 l u : K)
    (hlu : l ≤ u) (hn : k2 * (u - l) ≤ small) :
    (projectIntoBounds (n := 1) small k1 k2 (fun _ => l) (fun _ => l) (fun _ => 1)
      (fun _ => u) (fun _ => 1)).1 = true ∧
    ¬ (l < (projectIntoBounds (n := 1) small k1 k2 (fun _ => l) (fun _ => l) (fun _ => 1)
      (fun _ => u) (fun _ => 1)).2 0) := by
  have hok : (projectIntoBounds (n := 1) small k1 k2 (fun _ => l) (fun _ => l) (fun _ => 1)
      (fun _ => u) (fun _ => 1)).1 = true := by
    rw [← Bool.not_eq_false, C04_projection_fails_iff]
    simp [hlu]
  refine ⟨hok, ?_⟩
  have hc := projectIntoBounds_comp small k1 k2 (fun _ : Fin 1 => l) (fun _ => l) (fun _ => 1)
      (fun _ => u) (fun _ => 1) hok 0
  unfold projComp at hc
  have hm : min (k1 * max 1 |l|) (k2 * (u - l) - small) ≤ 0 :=
    (min_le_right _ _).trans (by linarith)
  have hm' : min (k1 * max 1 |u|) (k2 * (u - l) - small) ≤ 0 :=
    (min_le_right _ _).trans (by linarith)
  rw [if_pos ⟨one_ne_zero, one_ne_zero⟩, if_neg (not_lt.mpr hlu)] at hc
  simp only at hc
  rw [if_neg (by linarith), if_neg (by linarith)] at hc
  rw [← Option.some.inj hc]
  exact lt_irrefl _

-- Non-vacuity of the hypotheses of the two previous theorems.
example : (projectIntoBounds (K := ℚ) (1/1000000) (1/100) (1/100) ![-5, 7] ![0, 0] ![1, 1]
    ![4, 4] ![1, 0]).1 = true := by
  rw [← Bool.not_eq_false, C04_projection_fails_iff]
  rintro ⟨i, hi⟩; fin_cases i <;> simp at hi
  exact absurd hi (by norm_num)

/-! ## C05: safeguard of the bound multipliers -/

/-- **C05.** After the safeguard, the product of a selected multiplier with its slack lies in
`[μ/κ, κ μ]`; the multiplier is the closest one to the given one with this property; the
other components are unchanged. -/
theorem C05_dual_safeguard (z s ix : RVec K n) (mu kappa : K)
    (hk : 1 ≤ kappa) (hmu : 0 < mu) (hs : ∀ i, ix i = 1 → 0 < s i) (i : Fin n) :
    (ix i = 1 →
      IsNearest {w | mu / kappa ≤ w * s i ∧ w * s i ≤ kappa * mu} (z i)
        (adjustDualsPlh z s ix mu kappa i)) ∧
    (ix i ≠ 1 → adjustDualsPlh z s ix mu kappa i = z i) := by
  have hk0 : 0 < kappa := lt_of_lt_of_le one_pos hk
  constructor
  · intro hi
    have hsi := hs i hi
    have hset : {w | mu / kappa ≤ w * s i ∧ w * s i ≤ kappa * mu}
        = Set.Icc (mu / s i / kappa) (mu / s i * kappa) := by
      ext w
      simp only [Set.mem_ofPred_eq, Set.mem_Icc]
      rw [div_div, mul_comm (s i) kappa, ← div_div, div_le_iff₀ hsi,
        show mu / s i * kappa = (kappa * mu) / s i by ring, le_div_iff₀ hsi]
    have hle : mu / s i / kappa ≤ mu / s i * kappa := by
      have : 0 < mu / s i := div_pos hmu hsi
      calc mu / s i / kappa ≤ mu / s i := div_le_self this.le hk
        _ ≤ mu / s i * kappa := le_mul_of_one_le_right this.le hk
    rw [hset]
    have hn := isNearest_clamp _ _ (z i) hle
    have he : adjustDualsPlh z s ix mu kappa i =
        if z i < mu / s i / kappa then mu / s i / kappa
        else if z i > mu / s i * kappa then mu / s i * kappa else z i := by
      unfold adjustDualsPlh adjustDualComp
      simp only [hi, if_true]
      split_ifs with h1 h2 h3 h4
      · rfl
      · exact le_antisymm hle h2
      · exact le_antisymm (not_lt.mp h1) ((not_lt.mp h3).trans h2)
      · rfl
      · rfl
    rw [he]; exact hn
  · intro hi
    simp [adjustDualsPlh, hi]

/-- **C05.** Safeguarded multipliers are positive. -/
theorem C05_dual_positive (z s ix : RVec K n) (mu kappa : K)
    (hk : 1 ≤ kappa) (hmu : 0 < mu) (hs : ∀ i, ix i = 1 → 0 < s i) (i : Fin n) (hi : ix i = 1) :
    0 < adjustDualsPlh z s ix mu kappa i := by
  have h := ((C05_dual_safeguard z s ix mu kappa hk hmu hs i).1 hi).1.1
  have : 0 < mu / kappa := div_pos hmu (lt_of_lt_of_le one_pos hk)
  exact pos_of_mul_pos_left (lt_of_lt_of_le this h) (hs i hi).le

example : adjustDualsPlh (K := ℚ) ![5, 1, 100] ![1, 1, 1] ![1, 1, 0] (1/10) 10
    = ![1, 1, 100] := by
  funext i; fin_cases i <;> norm_num [adjustDualsPlh, adjustDualComp]

end Hiop.Vec
