import Verif.Nlp.Bounds
import Verif.Vec.Lemmas

/-!
# Gradient-based scaling (C16)
-/

set_option linter.unusedSectionVars false

namespace Hiop.Nlp

open Hiop.Vec

variable {K : Type*} [Field K] [LinearOrder K] [IsStrictOrderedRing K] {n r s : ℕ}

/-- The ranges in which the options registry keeps the four options
(hiopOptions.cpp:773-801). -/
structure ScaleOpts.Valid (o : ScaleOpts K) : Prop where
  maxGrad_pos : 0 < o.maxGrad
  minGrad_nonneg : 0 ≤ o.minGrad
  maxObj_nonneg : 0 ≤ o.maxObjGrad
  maxCon_nonneg : 0 ≤ o.maxConGrad

theorem infnorm_smul (c : K) (hc : 0 ≤ c) (g : RVec K n) :
    infnorm (fun i => c * g i) = c * infnorm g := by
  apply le_antisymm
  · rw [infnorm_le_iff _ _ (mul_nonneg hc (infnorm_nonneg g))]
    intro i
    rw [abs_mul, abs_of_nonneg hc]
    exact mul_le_mul_of_nonneg_left (infnorm_ge g i) hc
  · rcases infnorm_attained g with ⟨-, h⟩ | ⟨i, h⟩
    · rw [h, mul_zero]; exact infnorm_nonneg _
    · rw [h]
      have := infnorm_ge (fun i => c * g i) i
      rwa [abs_mul, abs_of_nonneg hc] at this

theorem scale_apply (x : RVec K n) (c : K) : scale x c = fun i => c * x i := by
  unfold scale
  split_ifs with h
  · funext i; rw [← h, one_mul]
  · rfl

/-! ## Objective -/

/-- The factor before the lower clamp. -/
def objRaw (o : ScaleOpts K) (gradf : RVec K n) : K :=
  if o.maxObjGrad = 0 then
    (if infnorm gradf > o.maxGrad then o.maxGrad / infnorm gradf else 1)
  else (if infnorm gradf > 0 then o.maxObjGrad / infnorm gradf else 1)

theorem objFactor_eq (o : ScaleOpts K) (gradf : RVec K n) :
    objFactor o gradf = if o.minGrad > 0 then max (objRaw o gradf) o.minGrad
      else objRaw o gradf := by
  have h0 : objFactor o gradf = if o.minGrad > 0 ∧ objRaw o gradf < o.minGrad then o.minGrad
      else objRaw o gradf := rfl
  rw [h0]
  by_cases h1 : o.minGrad > 0
  · rw [if_pos h1]
    by_cases h2 : objRaw o gradf < o.minGrad
    · rw [if_pos ⟨h1, h2⟩, max_eq_right h2.le]
    · rw [if_neg (fun h => h2 h.2), max_eq_left (not_lt.mp h2)]
  · rw [if_neg h1, if_neg (fun h => h1 h.1)]

theorem objRaw_pos (o : ScaleOpts K) (ho : o.Valid) (gradf : RVec K n) : 0 < objRaw o gradf := by
  unfold objRaw
  split_ifs with h1 h2 h3
  · exact div_pos ho.maxGrad_pos (ho.maxGrad_pos.trans h2)
  · exact one_pos
  · exact div_pos (lt_of_le_of_ne ho.maxObj_nonneg (Ne.symm h1)) h3
  · exact one_pos

/-- **C16.** With options in their ranges the objective's scale factor is positive, whatever the
gradient. -/
theorem C16_obj_factor_pos (o : ScaleOpts K) (ho : o.Valid) (gradf : RVec K n) :
    0 < objFactor o gradf := by
  rw [objFactor_eq]
  split_ifs with h
  · exact lt_of_lt_of_le (objRaw_pos o ho gradf) (le_max_left _ _)
  · exact objRaw_pos o ho gradf

/-- **C16 (factor at most one).** It is at most one when only the common limit `scaling_max_grad`
is used and the lower limit on factors is at most one. Missing: the objective's own target
`scaling_max_obj_grad`, which can give a factor above one (`C16_obj_factor_gt_one`). -/
theorem C16_obj_factor_le_one_partial (o : ScaleOpts K) (ho : o.Valid)
    (h0 : o.maxObjGrad = 0) (h1 : o.minGrad ≤ 1) (gradf : RVec K n) :
    objFactor o gradf ≤ 1 := by
  have hraw : objRaw o gradf ≤ 1 := by
    unfold objRaw
    rw [if_pos h0]
    split_ifs with h2
    · rw [div_le_one (ho.maxGrad_pos.trans h2)]; exact h2.le
    · exact le_rfl
  rw [objFactor_eq]
  split_ifs with h
  · exact max_le hraw h1
  · exact hraw

/-- **C16 (limit).** The infinity norm of the scaled objective gradient is at most the configured
maximum (the objective's own target if set, else the common limit), provided the lower limit on
factors does not interfere. With the objective's own target and a nonzero gradient the norm is
exactly the target. -/
theorem C16_obj_limit (o : ScaleOpts K) (ho : o.Valid) (gradf : RVec K n)
    (hmin : o.minGrad * infnorm gradf ≤
      if o.maxObjGrad = 0 then o.maxGrad else o.maxObjGrad) :
    (infnorm (fun i => objFactor o gradf * gradf i) ≤
      if o.maxObjGrad = 0 then o.maxGrad else o.maxObjGrad) ∧
    (o.maxObjGrad ≠ 0 → 0 < infnorm gradf →
      infnorm (fun i => objFactor o gradf * gradf i) = o.maxObjGrad) := by
  have hnn := infnorm_nonneg gradf
  have hraw : objRaw o gradf * infnorm gradf ≤
      if o.maxObjGrad = 0 then o.maxGrad else o.maxObjGrad := by
    unfold objRaw
    split_ifs with h1 h2 h3
    · rw [div_mul_cancel₀ _ (ne_of_gt (ho.maxGrad_pos.trans h2))]
    · rw [one_mul]; exact not_lt.mp h2
    · rw [div_mul_cancel₀ _ (ne_of_gt h3)]
    · rw [one_mul]; exact (not_lt.mp h3).trans ho.maxObj_nonneg
  rw [infnorm_smul _ (C16_obj_factor_pos o ho gradf).le]
  refine ⟨?_, ?_⟩
  · rw [objFactor_eq]
    split_ifs with h h'
    · rw [if_pos h'] at hmin hraw
      rcases max_cases (objRaw o gradf) o.minGrad with ⟨e, -⟩ | ⟨e, -⟩ <;> rw [e] <;> assumption
    · rw [if_neg h'] at hmin hraw
      rcases max_cases (objRaw o gradf) o.minGrad with ⟨e, -⟩ | ⟨e, -⟩ <;> rw [e] <;> assumption
    · rwa [if_pos ‹_›] at hraw
    · rwa [if_neg ‹_›] at hraw
  · intro hne hpos
    rw [if_neg hne] at hmin
    have hr : objRaw o gradf = o.maxObjGrad / infnorm gradf := by
      unfold objRaw; rw [if_neg hne, if_pos hpos]
    have hle : o.minGrad ≤ objRaw o gradf := by rw [hr, le_div_iff₀ hpos]; exact hmin
    rw [objFactor_eq]
    split_ifs with h
    · rw [max_eq_left hle, hr, div_mul_cancel₀ _ (ne_of_gt hpos)]
    · rw [hr, div_mul_cancel₀ _ (ne_of_gt hpos)]

/-- The default options. -/
def defaultScaleOpts : ScaleOpts ℚ := ⟨100, 1 / 10 ^ 8, 0, 0⟩

theorem defaultScaleOpts_valid : defaultScaleOpts.Valid := by
  constructor <;> norm_num [defaultScaleOpts]

example : infnorm (fun i => objFactor defaultScaleOpts (![500, -1000] : RVec ℚ 2) *
    (![500, -1000] : RVec ℚ 2) i) ≤ 100 := by
  have := (C16_obj_limit defaultScaleOpts defaultScaleOpts_valid (![500, -1000] : RVec ℚ 2)
    (by decide +kernel)).1
  simpa [defaultScaleOpts] using this

/-- The limit fails when the lower limit on factors interferes (finding): with the default options
and a gradient of norm `10^11` the factor is raised to `10^-8` and the scaled gradient has norm
`1000 > 100`. -/
theorem C16_obj_limit_false :
    100 < infnorm (fun i => objFactor defaultScaleOpts (![10 ^ 11] : RVec ℚ 1) *
      (![10 ^ 11] : RVec ℚ 1) i) := by decide +kernel

/-- A factor above one (finding): objective target 50, objective gradient of norm 2, and a
constraint gradient that triggers the scaling. -/
theorem C16_obj_factor_gt_one :
    scalingNeeded (⟨100, 1 / 10 ^ 8, 50, 0⟩ : ScaleOpts ℚ) (![2] : RVec ℚ 1)
      (fun _ : Fin 1 => ![1000]) (fun i : Fin 0 => i.elim0) = true ∧
    objFactor (⟨100, 1 / 10 ^ 8, 50, 0⟩ : ScaleOpts ℚ) (![2] : RVec ℚ 1) = 25 := by
  constructor <;> decide +kernel

/-! ## Constraints -/

theorem invScaled_apply (mg : K) (v : RVec K r) (i : Fin r) :
    invScaled mg v i = 1 / max 1 (v i / mg) := by
  unfold invScaled
  congr 1
  rw [scale_apply]
  change (if 1 / mg * v i < 1 then (1 : K) else 1 / mg * v i) = _
  have e : 1 / mg * v i = v i / mg := by ring
  rw [e]
  by_cases h : v i / mg < 1
  · rw [if_pos h, max_eq_left h.le]
  · rw [if_neg h, max_eq_right (not_lt.mp h)]

/-- Without a constraint target the factor of every row is
`min(1, max_grad/‖row‖)` (and 1 for rows below the limit), raised to the lower limit. -/
theorem conFactor_eq (o : ScaleOpts K) (ho : o.Valid) (h0 : o.maxConGrad = 0)
    (J : Fin r → RVec K n) (i : Fin r) :
    conFactor o J i =
      if o.minGrad > 0 then max (1 / max 1 (infnorm (J i) / o.maxGrad)) o.minGrad
      else 1 / max 1 (infnorm (J i) / o.maxGrad) := by
  have hf : ∀ i, (if o.maxConGrad = 0 then
      (if infnorm (rowMaxAbs J) > o.maxGrad then invScaled o.maxGrad (rowMaxAbs J) else fun _ => 1)
      else fun _ => o.maxConGrad / infnorm (rowMaxAbs J)) i
        = 1 / max 1 (infnorm (J i) / o.maxGrad) := by
    intro i
    rw [if_pos h0]
    split_ifs with h
    · exact invScaled_apply _ _ _
    · have h1 := infnorm_ge (rowMaxAbs J) i
      have h2 : |rowMaxAbs J i| = infnorm (J i) := abs_of_nonneg (infnorm_nonneg _)
      rw [h2] at h1
      rw [max_eq_left, one_div_one]
      rw [div_le_one ho.maxGrad_pos]
      exact h1.trans (not_lt.mp h)
  unfold conFactor
  by_cases h : o.minGrad > 0
  · rw [if_pos h, if_pos h]
    unfold componentMaxC
    rw [hf i]
    split_ifs with h'
    · exact (max_eq_right h'.le).symm
    · exact (max_eq_left (not_lt.mp h')).symm
  · rw [if_neg h, if_neg h]; exact hf i

/-- **C16 (constraints).** Without a constraint target: every row's factor is positive, it is at
most one if the lower limit is, and the scaled row has infinity norm at most the configured
maximum unless the lower limit interferes. -/
theorem C16_con_factor (o : ScaleOpts K) (ho : o.Valid) (h0 : o.maxConGrad = 0)
    (J : Fin r → RVec K n) (i : Fin r) :
    0 < conFactor o J i ∧ (o.minGrad ≤ 1 → conFactor o J i ≤ 1) ∧
    (o.minGrad * infnorm (J i) ≤ o.maxGrad →
      infnorm (fun j => conFactor o J i * J i j) ≤ o.maxGrad) := by
  have hm : (1 : K) ≤ max 1 (infnorm (J i) / o.maxGrad) := le_max_left _ _
  have hpos : 0 < 1 / max 1 (infnorm (J i) / o.maxGrad) := one_div_pos.mpr (by linarith)
  have hle : 1 / max 1 (infnorm (J i) / o.maxGrad) ≤ 1 := by
    rw [div_le_one (by linarith)]; exact hm
  have hlim : 1 / max 1 (infnorm (J i) / o.maxGrad) * infnorm (J i) ≤ o.maxGrad := by
    rw [div_mul_eq_mul_div, one_mul, div_le_iff₀ (by linarith)]
    have h1 := le_max_right 1 (infnorm (J i) / o.maxGrad)
    have h2 := mul_le_mul_of_nonneg_left h1 ho.maxGrad_pos.le
    rwa [mul_div_cancel₀ _ (ne_of_gt ho.maxGrad_pos)] at h2
  have hp : 0 < conFactor o J i := by
    rw [conFactor_eq o ho h0]
    split_ifs
    · exact lt_of_lt_of_le hpos (le_max_left _ _)
    · exact hpos
  refine ⟨hp, ?_, ?_⟩
  · intro hmin
    rw [conFactor_eq o ho h0]
    split_ifs
    · exact max_le hle hmin
    · exact hle
  · intro hmin
    rw [infnorm_smul _ hp.le, conFactor_eq o ho h0]
    split_ifs
    · rcases max_cases (1 / max 1 (infnorm (J i) / o.maxGrad)) o.minGrad with ⟨e, -⟩ | ⟨e, -⟩ <;>
        rw [e] <;> assumption
    · exact hlim

example : conFactor defaultScaleOpts (![![200, -50], ![1, 1]] : Fin 2 → RVec ℚ 2) = ![1/2, 1] := by
  funext i; fin_cases i <;> decide +kernel

/-- With a constraint target all rows of a block share one factor, so only the largest row gets
the target norm. The option's documentation promises it for each constraint (finding): rows of
norms 4 and 1 with target 2 are scaled to norms 2 and 1/2. -/
theorem C16_con_target_not_per_row :
    let o : ScaleOpts ℚ := ⟨100, 0, 0, 2⟩
    let J : Fin 2 → RVec ℚ 1 := ![![4], ![1]]
    infnorm (fun j => conFactor o J 0 * J 0 j) = 2 ∧
    infnorm (fun j => conFactor o J 1 * J 1 j) = 1/2 := by
  constructor <;> decide +kernel

/-- With a constraint target and a nonzero block, the largest row of the block gets exactly the
target norm and no row exceeds it, unless the lower limit interferes. -/
theorem C16_con_target (o : ScaleOpts K) (ho : o.Valid) (h0 : o.maxConGrad ≠ 0)
    (J : Fin r → RVec K n) (hJ : 0 < infnorm (rowMaxAbs J))
    (hmin : o.minGrad * infnorm (rowMaxAbs J) ≤ o.maxConGrad) :
    (∀ i, 0 < conFactor o J i ∧ infnorm (fun j => conFactor o J i * J i j) ≤ o.maxConGrad) ∧
    (∃ i, infnorm (fun j => conFactor o J i * J i j) = o.maxConGrad) := by
  have hcpos : 0 < o.maxConGrad := lt_of_le_of_ne ho.maxCon_nonneg (Ne.symm h0)
  have hf : ∀ i, conFactor o J i = o.maxConGrad / infnorm (rowMaxAbs J) := by
    intro i
    have hle : o.minGrad ≤ o.maxConGrad / infnorm (rowMaxAbs J) := by
      rw [le_div_iff₀ hJ]; exact hmin
    unfold conFactor
    simp only [if_neg h0]
    split_ifs
    · unfold componentMaxC; rw [if_neg (not_lt.mpr hle)]
    · rfl
  have hfp : 0 < o.maxConGrad / infnorm (rowMaxAbs J) := div_pos hcpos hJ
  have hrow : ∀ i, infnorm (J i) ≤ infnorm (rowMaxAbs J) := fun i =>
    (le_abs_self _).trans (infnorm_ge (rowMaxAbs J) i)
  refine ⟨fun i => ?_, ?_⟩
  · rw [hf i]
    refine ⟨hfp, ?_⟩
    rw [infnorm_smul _ hfp.le]
    calc _ ≤ o.maxConGrad / infnorm (rowMaxAbs J) * infnorm (rowMaxAbs J) :=
          mul_le_mul_of_nonneg_left (hrow i) hfp.le
      _ = _ := div_mul_cancel₀ _ (ne_of_gt hJ)
  · rcases infnorm_attained (rowMaxAbs J) with ⟨-, h⟩ | ⟨i, h⟩
    · rw [h] at hJ; exact absurd hJ (lt_irrefl _)
    · refine ⟨i, ?_⟩
      have h' : infnorm (rowMaxAbs J) = infnorm (J i) :=
        h.trans (abs_of_nonneg (infnorm_nonneg _))
      rw [hf i, infnorm_smul _ hfp.le, ← h', div_mul_cancel₀ _ (ne_of_gt hJ)]

/-- Without the nonzero hypothesis the code divides by zero (finding): for a block of constraints
whose Jacobian vanishes at the starting point the divisor of the common factor is 0. -/
theorem C16_zero_jacobian_block (J : Fin r → RVec K n) (hJ : ∀ i j, J i j = 0) :
    infnorm (rowMaxAbs J) = 0 := by
  apply le_antisymm _ (infnorm_nonneg _)
  rw [infnorm_le_iff _ _ le_rfl]
  intro i
  have : infnorm (J i) ≤ 0 := by
    rw [infnorm_le_iff _ _ le_rfl]; intro j; rw [hJ]; simp
  rw [show rowMaxAbs J i = 0 from le_antisymm this (infnorm_nonneg _)]; simp

/-! ## When scaling is installed -/

/-- **C16 (threshold).** The problem is left unscaled exactly when the objective gradient and all
entries of both Jacobians are below their thresholds. -/
theorem C16_unscaled_iff (o : ScaleOpts K) (ho : o.Valid) (gradf : RVec K n)
    (Jc : Fin r → RVec K n) (Jd : Fin s → RVec K n) :
    scalingNeeded o gradf Jc Jd = false ↔
      (∀ j, |gradf j| < if o.maxObjGrad > 0 then o.maxObjGrad else o.maxGrad) ∧
      (∀ i j, |Jc i j| < if o.maxConGrad > 0 then o.maxConGrad else o.maxGrad) ∧
      (∀ i j, |Jd i j| < if o.maxConGrad > 0 then o.maxConGrad else o.maxGrad) := by
  have hlt : ∀ {q : ℕ} (v : RVec K q) (c : K), 0 < c → (infnorm v < c ↔ ∀ i, |v i| < c) := by
    intro q v c hc
    constructor
    · exact fun h i => (infnorm_ge v i).trans_lt h
    · intro h
      rcases infnorm_attained v with ⟨-, h'⟩ | ⟨i, h'⟩
      · rw [h']; exact hc
      · rw [h']; exact h i
  have h1 : 0 < if o.maxObjGrad > 0 then o.maxObjGrad else o.maxGrad := by
    split_ifs with h
    · exact h
    · exact ho.maxGrad_pos
  have h2 : 0 < if o.maxConGrad > 0 then o.maxConGrad else o.maxGrad := by
    split_ifs with h
    · exact h
    · exact ho.maxGrad_pos
  have hJ : ∀ {q : ℕ} (J : Fin q → RVec K n) (c : K), 0 < c →
      (maxAbs J < c ↔ ∀ i j, |J i j| < c) := by
    intro q J c hc
    unfold maxAbs
    rw [hlt _ _ hc]
    constructor
    · intro h i
      have := h i
      rw [show |rowMaxAbs J i| = infnorm (J i) from abs_of_nonneg (infnorm_nonneg _)] at this
      exact (hlt _ _ hc).mp this
    · intro h i
      rw [show |rowMaxAbs J i| = infnorm (J i) from abs_of_nonneg (infnorm_nonneg _)]
      exact (hlt _ _ hc).mpr (h i)
  unfold scalingNeeded
  simp only [Bool.not_eq_false', decide_eq_true_eq]
  rw [hlt _ _ h1, hJ _ _ h2, hJ _ _ h2]

example : scalingNeeded defaultScaleOpts (![99, -99] : RVec ℚ 2) (fun i : Fin 0 => i.elim0)
    (![![1, 99]] : Fin 1 → RVec ℚ 2) = false := by decide +kernel

/-! ## Round trips -/

/-- **C16 (round trip).** Scaling followed by unscaling is the identity for the objective value,
the objective gradient, constraint values and Jacobians, for every positive factor. -/
theorem C16_round_trip (so : K) (sc : RVec K r) (hso : 0 < so) (hsc : ∀ i, 0 < sc i)
    (f : K) (g : RVec K n) (c : RVec K r) (J : Fin r → RVec K n) :
    so * f / so = f ∧ scale (scale g so) (1 / so) = g ∧
    componentDiv (componentMult c sc) sc = c ∧ scaleRow (scaleRow J sc false) sc true = J := by
  refine ⟨mul_div_cancel_left₀ f hso.ne', ?_, ?_, ?_⟩
  · rw [scale_apply, scale_apply]; funext i; field_simp
  · funext i
    exact mul_div_cancel_right₀ (c i) (hsc i).ne'
  · funext i j
    have := (hsc i).ne'
    simp only [scaleRow]
    simp only [if_true, Bool.false_eq_true, if_false]
    field_simp

/-- The other direction. -/
theorem C16_round_trip_inv (so : K) (sc : RVec K r) (hso : 0 < so) (hsc : ∀ i, 0 < sc i)
    (f : K) (g : RVec K n) (c : RVec K r) (J : Fin r → RVec K n) :
    so * (f / so) = f ∧ scale (scale g (1 / so)) so = g ∧
    componentMult (componentDiv c sc) sc = c ∧ scaleRow (scaleRow J sc true) sc false = J := by
  refine ⟨mul_div_cancel₀ f hso.ne', ?_, ?_, ?_⟩
  · rw [scale_apply, scale_apply]; funext i; field_simp
  · funext i
    exact div_mul_cancel₀ (c i) (hsc i).ne'
  · funext i j
    have := (hsc i).ne'
    simp only [scaleRow]
    simp only [if_true, Bool.false_eq_true, if_false]
    field_simp

/-! ## The factors used for the one-call constraint body -/

/-- The merged factors agree with the factors of the two blocks when there is no constraint
target and the lower limit does not interfere. -/
theorem C16_cd_factor_consistent (o : ScaleOpts K) (ho : o.Valid) (h0 : o.maxConGrad = 0)
    (J : Fin r → RVec K n) (hmin : o.minGrad ≤ 1)
    (hlow : ∀ i, o.minGrad * infnorm (J i) ≤ o.maxGrad) :
    conFactorCd o J = conFactor o J := by
  funext i
  rw [conFactor_eq o ho h0]
  have e : conFactorCd o J i = 1 / max 1 (infnorm (J i) / o.maxGrad) := invScaled_apply _ _ _
  rw [e]
  split_ifs
  · symm
    apply max_eq_left
    have hpos : (0 : K) < max 1 (infnorm (J i) / o.maxGrad) :=
      lt_of_lt_of_le one_pos (le_max_left _ _)
    rw [le_div_iff₀ hpos]
    rcases max_cases 1 (infnorm (J i) / o.maxGrad) with ⟨e', -⟩ | ⟨e', -⟩ <;> rw [e']
    · rw [mul_one]; exact hmin
    · rw [← mul_div_assoc, div_le_one ho.maxGrad_pos]; exact hlow i
  · rfl

/-- Otherwise they differ (finding): with a constraint target of 2 and a row of norm 4 the block
factor is `1/2` but the merged factor is 1. The merged factors are the ones applied to the
multipliers before the user's Hessian of the Lagrangian is evaluated. -/
theorem C16_cd_factor_inconsistent :
    let o : ScaleOpts ℚ := ⟨100, 1 / 10 ^ 8, 0, 2⟩
    let J : Fin 1 → RVec ℚ 1 := ![![4]]
    conFactor o J 0 = 1/2 ∧ conFactorCd o J 0 = 1 := by
  constructor <;> decide +kernel

end Hiop.Nlp
