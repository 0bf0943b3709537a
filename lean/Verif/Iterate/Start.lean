import Verif.Iterate.Props
import Mathlib.Tactic.FinCases

/-!
# Property C32: when the starting procedure succeeds, and when it produces NaN slacks
-/

set_option linter.unusedSectionVars false

namespace Hiop.Iterate

open Hiop.Vec

variable {K : Type*} [Field K] [LinearOrder K] [IsStrictOrderedRing K] {n mc m p : ℕ}

/-- Every two-sided interval is wide enough for the margins to exceed the slack threshold. -/
def WideEnough (small k2 t : K) (l il u iu : RVec K p) : Prop :=
  ∀ i, il i = 1 → iu i = 1 → small + t ≤ k2 * (u i - l i)

theorem project_gap (small k1 k2 t : K) (x xl ixl xu ixu : RVec K p)
    (hs : 0 ≤ small) (ht : 0 < t) (hk1 : small + t ≤ k1) (hk2' : k2 ≤ 1 / 2)
    (hok : (projectIntoBounds small k1 k2 x xl ixl xu ixu).1 = true) (i : Fin p)
    (hw : ixl i ≠ 0 → ixu i ≠ 0 → small + t ≤ k2 * (xu i - xl i)) :
    let y := (projectIntoBounds small k1 k2 x xl ixl xu ixu).2 i
    (ixl i ≠ 0 → t ≤ y - xl i) ∧ (ixu i ≠ 0 → t ≤ xu i - y) := by
  intro y
  obtain ⟨h1, h2, h3, -⟩ := C04_projection_nearest small k1 k2 x xl ixl xu ixu hs hk2' hok i
  have hk1' : ∀ a : K, small + t ≤ k1 * max 1 |a| := by
    intro a
    have : k1 * 1 ≤ k1 * max 1 |a| :=
      mul_le_mul_of_nonneg_left (le_max_left _ _) (by linarith)
    linarith
  have hm : ixl i ≠ 0 → ixu i ≠ 0 → t ≤ lowerMargin small k1 k2 (xl i) (xu i) ∧
      t ≤ upperMargin small k1 k2 (xl i) (xu i) := by
    intro a b
    have := hw a b
    exact ⟨le_min (by linarith [hk1' (xl i)]) (by linarith),
      le_min (by linarith [hk1' (xu i)]) (by linarith)⟩
  constructor
  · intro hl
    by_cases hu : ixu i = 0
    · have : xl i + k1 * max 1 |xl i| - small ≤ y := (h2 hl hu).1
      have := hk1' (xl i)
      linarith
    · have := (h1 hl hu).1.1
      have := (hm hl hu).1
      linarith
  · intro hu
    by_cases hl : ixl i = 0
    · have : y ≤ xu i - k1 * max 1 |xu i| - small := (h3 hl hu).1
      have := hk1' (xu i)
      linarith
    · have := (h1 hl hu).1.2
      have := (hm hl hu).2
      linarith

theorem adjustVec_some_of_ge (M : Mach K) (slack bound dual sel : RVec K p) (mu : K)
    (hsel : IsPattern sel) (hmax : tiny M mu ≤ M.dblMax)
    (h : ∀ i, sel i = 1 → tiny M mu ≤ slack i) :
    ∃ r, adjustSmallSlacksVec M slack bound dual sel mu = some r := by
  rw [← Option.ne_none_iff_exists', ne_eq, C06_nan_iff M slack bound dual sel mu hsel hmax]
  rintro ⟨⟨j, hj, hlt⟩, -⟩
  exact absurd (h j hj) (not_le.mpr hlt)

/-- **C32.** If the bounds are consistent and every two-sided interval (of a variable or of an
inequality body) is wide enough, the starting procedure succeeds, whatever the starting point
and whatever the constraint body evaluates to. -/
theorem C32_start_succeeds (M : Mach K) (hM : MachOk M) (small k1 k2 mu0 : K)
    (b : Bounds K n m) (hp : Patterns b) (x0 : RVec K n) (dOfX : RVec K n → RVec K m)
    (yc0 : RVec K mc) (yd0 : RVec K m) (hmu : 0 < mu0) (hmax : tiny M mu0 ≤ M.dblMax)
    (hs : 0 ≤ small) (hk1 : small + tiny M mu0 ≤ k1) (hk2 : 0 < k2) (hk2' : k2 ≤ 1 / 2)
    (hx : WideEnough small k2 (tiny M mu0) b.xl b.ixl b.xu b.ixu)
    (hd : WideEnough small k2 (tiny M mu0) b.dl b.idl b.du b.idu) :
    ∃ s, start M small k1 k2 mu0 b x0 dOfX yc0 yd0 = .ok s := by
  have ht : 0 < tiny M mu0 := mul_pos hM.eps (lt_min one_pos hmu)
  have hcons : ∀ {q : ℕ} (x l il u iu : RVec K q), IsPattern il → IsPattern iu →
      WideEnough small k2 (tiny M mu0) l il u iu →
      (projectIntoBounds small k1 k2 x l il u iu).1 = true := by
    intro q x l il u iu h1 h2 hw
    rw [← Bool.not_eq_false, C04_projection_fails_iff]
    rintro ⟨i, a, c, hlt⟩
    have := hw i ((h1 i).resolve_left a) ((h2 i).resolve_left c)
    have : k2 * (u i - l i) ≤ 0 := mul_nonpos_of_nonneg_of_nonpos hk2.le (by linarith)
    linarith
  have hokx := hcons x0 b.xl b.ixl b.xu b.ixu hp.ixl hp.ixu hx
  set x1 := (projectIntoBounds small k1 k2 x0 b.xl b.ixl b.xu b.ixu).2 with hx1
  have ex : projectIntoBounds small k1 k2 x0 b.xl b.ixl b.xu b.ixu = (true, x1) := by
    rw [← hokx]
  have hokd := hcons (dOfX x1) b.dl b.idl b.du b.idu hp.idl hp.idu hd
  set d1 := (projectIntoBounds small k1 k2 (dOfX x1) b.dl b.idl b.du b.idu).2 with hd1
  have ed : projectIntoBounds small k1 k2 (dOfX x1) b.dl b.idl b.du b.idu = (true, d1) := by
    rw [← hokd]
  have gx := fun i => project_gap small k1 k2 (tiny M mu0) x0 b.xl b.ixl b.xu b.ixu hs ht hk1
    hk2' hokx i (fun a c => hx i ((hp.ixl i).resolve_left a) ((hp.ixu i).resolve_left c))
  have gd := fun i => project_gap small k1 k2 (tiny M mu0) (dOfX x1) b.dl b.idl b.du b.idu hs ht
    hk1 hk2' hokd i (fun a c => hd i ((hp.idl i).resolve_left a) ((hp.idu i).resolve_left c))
  unfold start
  simp only [projectPrimalsX, ex, projectPrimalsD, ed, computeSafeSlacks, adjustSmallSlacks,
    determineSlacks]
  obtain ⟨r1, h1⟩ := adjustVec_some_of_ge M (Vec.selectPattern (axpy x1 (-1) b.xl) b.ixl) b.xl
    (fun _ => 0) b.ixl mu0 hp.ixl hmax (fun i hi => by
      have h := (gx i).1 (by rw [hi]; exact one_ne_zero)
      simpa [Vec.selectPattern, axpy, hi, sub_eq_add_neg] using h)
  obtain ⟨r2, h2⟩ := adjustVec_some_of_ge M (Vec.selectPattern (axpy b.xu (-1) x1) b.ixu) b.xu
    (fun _ => 0) b.ixu mu0 hp.ixu hmax (fun i hi => by
      have h := (gx i).2 (by rw [hi]; exact one_ne_zero)
      simpa [Vec.selectPattern, axpy, hi, sub_eq_add_neg] using h)
  obtain ⟨r3, h3⟩ := adjustVec_some_of_ge M (Vec.selectPattern (axpy d1 (-1) b.dl) b.idl) b.dl
    (fun _ => 0) b.idl mu0 hp.idl hmax (fun i hi => by
      have h := (gd i).1 (by rw [hi]; exact one_ne_zero)
      simpa [Vec.selectPattern, axpy, hi, sub_eq_add_neg] using h)
  obtain ⟨r4, h4⟩ := adjustVec_some_of_ge M (Vec.selectPattern (axpy b.du (-1) d1) b.idu) b.du
    (fun _ => 0) b.idu mu0 hp.idu hmax (fun i hi => by
      have h := (gd i).2 (by rw [hi]; exact one_ne_zero)
      simpa [Vec.selectPattern, axpy, hi, sub_eq_add_neg] using h)
  rw [h1, h2, h3, h4]
  exact ⟨_, rfl⟩

/-- A defect: if one variable has equal lower and upper bounds and another two-sided variable
has room, the starting procedure never succeeds (the slack of the second one becomes NaN). So
fixed variables must be removed or relaxed before. -/
theorem C32_start_fixed_variable_nan (M : Mach K) (hM : MachOk M) (small k1 k2 mu0 : K)
    (b : Bounds K n m) (hp : Patterns b) (x0 : RVec K n) (dOfX : RVec K n → RVec K m)
    (yc0 : RVec K mc) (yd0 : RVec K m) (hmu : 0 < mu0) (hmax : tiny M mu0 ≤ M.dblMax)
    (hs : 0 ≤ small) (hk1 : small + tiny M mu0 ≤ k1) (hk2' : k2 ≤ 1 / 2)
    (i j : Fin n) (hj : b.ixl j = 1 ∧ b.ixu j = 1 ∧ b.xl j = b.xu j)
    (hi : b.ixl i = 1 ∧ b.ixu i = 1 ∧ small + tiny M mu0 ≤ k2 * (b.xu i - b.xl i)) :
    ∀ s, start M small k1 k2 mu0 b x0 dOfX yc0 yd0 ≠ .ok s := by
  have ht : 0 < tiny M mu0 := mul_pos hM.eps (lt_min one_pos hmu)
  intro s h
  unfold start at h
  simp only at h
  split at h
  · simp at h
  · split at h
    · simp at h
    · split at h
      · simp at h
      · rename_i _ it1 e1 _ it2 e2 _ r hr
        have hx : ∃ x1, projectIntoBounds small k1 k2 x0 b.xl b.ixl b.xu b.ixu = (true, x1) ∧
            it1.x = x1 := by
          simp only [projectPrimalsX] at e1
          split at e1
          · rename_i x1 he
            refine ⟨x1, he, ?_⟩
            rw [← Option.some.inj e1]
          · simp at e1
        obtain ⟨x1, he, hx1⟩ := hx
        have hx2 : it2.x = x1 := by
          simp only [projectPrimalsD] at e2
          split at e2
          · rw [← Option.some.inj e2]; exact hx1
          · simp at e2
        have hz : it2.zl = (fun _ => 0) ∧ it2.zu = (fun _ => 0) := by
          simp only [projectPrimalsD] at e2
          simp only [projectPrimalsX] at e1
          split at e2
          · split at e1
            · rw [← Option.some.inj e2, ← Option.some.inj e1]; exact ⟨rfl, rfl⟩
            · simp at e1
          · simp at e2
        have hok : (projectIntoBounds small k1 k2 x0 b.xl b.ixl b.xu b.ixu).1 = true := by rw [he]
        have hg := project_gap small k1 k2 (tiny M mu0) x0 b.xl b.ixl b.xu b.ixu hs ht hk1 hk2'
          hok i (fun _ _ => hi.2.2)
        simp only [he] at hg
        have g1 := hg.1 (by rw [hi.1]; exact one_ne_zero)
        have g2 := hg.2 (by rw [hi.2.1]; exact one_ne_zero)
        obtain ⟨r1, r2, _, _, h1, h2, -⟩ := computeSafeSlacks_cases M b it2 it2 mu0 r hr
        rcases le_total (x1 j) (b.xl j) with hle | hle
        · have := (C06_nan_iff M (determineSlacks b it2).sxl b.xl it2.zl b.ixl mu0 hp.ixl
            hmax).2 ⟨⟨j, hj.1, by
              simp only [determineSlacks, Vec.selectPattern, axpy, hj.1, hx2, one_ne_zero, if_false]
              linarith⟩, i, hi.1, by rw [hz.1], by
              simp only [determineSlacks, Vec.selectPattern, axpy, hi.1, hx2, one_ne_zero, if_false]
              linarith⟩
          rw [this] at h1; simp at h1
        · have := (C06_nan_iff M (determineSlacks b it2).sxu b.xu it2.zu b.ixu mu0 hp.ixu
            hmax).2 ⟨⟨j, hj.2.1, by
              simp only [determineSlacks, Vec.selectPattern, axpy, hj.2.1, hx2, one_ne_zero,
                if_false]
              linarith [hj.2.2]⟩, i, hi.2.1, by rw [hz.2], by
              simp only [determineSlacks, Vec.selectPattern, axpy, hi.2.1, hx2, one_ne_zero,
                if_false]
              linarith⟩
          rw [this] at h2; simp at h2

/-! ## Concrete instances -/

/-- Two variables in `[0,10]`, one inequality `d ≥ 1`. -/
def exB : Bounds ℚ 2 1 :=
  { xl := ![0, 0], xu := ![10, 10], ixl := ![1, 1], ixu := ![1, 0],
    dl := ![1], du := ![0], idl := ![1], idu := ![0] }

/-- The first variable fixed at 3, the second in `[0,10]`. -/
def exFix : Bounds ℚ 2 1 :=
  { xl := ![3, 0], xu := ![3, 10], ixl := ![1, 1], ixu := ![1, 1],
    dl := ![1], du := ![0], idl := ![1], idu := ![0] }

/-- Machine constants of the examples. -/
def exM : Mach ℚ := ⟨1/1000, 1/100, 1000⟩

theorem exB_patterns : Patterns exB := by
  refine ⟨?_, ?_, ?_, ?_⟩ <;> intro i <;> fin_cases i <;> simp [exB]

theorem exM_ok : MachOk exM := ⟨by norm_num [exM], by norm_num [exM]⟩

/-- The starting procedure succeeds on the first problem, and its result satisfies the
invariant, so the hypotheses of the C32 theorems are met. -/
theorem ex_start (x0 : RVec ℚ 2) (f : RVec ℚ 2 → RVec ℚ 1) :
    ∃ s, start (mc := 0) exM (1/10^6) (1/100) (1/100) 1 exB x0 f ![] ![0] = .ok s ∧ Inv s ∧
      SlacksMatch s.b s.it := by
  obtain ⟨s, h⟩ := C32_start_succeeds (mc := 0) exM exM_ok (1/10^6) (1/100) (1/100) 1 exB
    exB_patterns x0 f ![] ![0] (by norm_num) (by norm_num [tiny, exM]) (by norm_num)
    (by norm_num [tiny, exM]) (by norm_num) (by norm_num)
    (by intro i; fin_cases i <;> norm_num [tiny, exM, exB])
    (by intro i; fin_cases i; norm_num [tiny, exM, exB])
  exact ⟨s, h, C32_start_establishes exM exM_ok _ _ _ _ exB exB_patterns x0 f _ _ one_pos s h⟩

-- From that start, a step, a restoration and an elastic change compose to a non-trivial run.
example (x0 : RVec ℚ 2) (f : RVec ℚ 2 → RVec ℚ 1) (nb : Bounds ℚ 2 1) :
    let dir : It ℚ 2 0 1 :=
      { x := ![1, -1], d := ![2], sxl := ![1, -1], sxu := ![-1, 0], sdl := ![2], sdu := ![0],
        yc := ![], yd := ![1], zl := ![0, 0], zu := ![0, 0], vl := ![0], vu := ![0] }
    ∃ s t, Inv s ∧ Run exM s t ∧ Inv t ∧
      (∃ u, applyOp exM s (.step dir (1/2) (1/3) 1 (10^10)) = some u ∧
        applyOp exM u (.elastic nb true true 1 (10^10)) = some t) := by
  intro dir
  obtain ⟨s, -, hi, -⟩ := ex_start x0 f
  have hdir : ∀ b : Bounds ℚ 2 1, DualDirOk b dir := fun b =>
    ⟨fun i _ => by fin_cases i <;> rfl, fun i _ => by fin_cases i <;> rfl,
      fun i _ => by fin_cases i; rfl, fun i _ => by fin_cases i; rfl⟩
  obtain ⟨u, hu⟩ := C32_steps_defined exM exM_ok s s hi (.refl s)
    (.step dir (1/2) (1/3) 1 (10^10))
  have r1 : Run exM s u := .snoc (.step dir (1/2) (1/3) 1 (10^10)) (.refl s)
    ⟨hdir s.b, by norm_num, by norm_num⟩ hu
  obtain ⟨t, ht⟩ := C32_steps_defined exM exM_ok s u hi r1 (.elastic nb true true 1 (10^10))
  have r2 : Run exM s t := .snoc (.elastic nb true true 1 (10^10)) r1 ⟨by norm_num, by norm_num⟩ ht
  exact ⟨s, t, hi, r2, C32_positivity_invariant exM exM_ok s t hi r2, u, hu, ht⟩

-- The fixed-variable problem never starts.
example (x0 : RVec ℚ 2) (f : RVec ℚ 2 → RVec ℚ 1) (s : State ℚ 2 0 1) :
    start exM (1/10^6) (1/100) (1/100) 1 exFix x0 f ![] ![0] ≠ .ok s :=
  C32_start_fixed_variable_nan exM exM_ok (1/10^6) (1/100) (1/100) 1 exFix
    (by refine ⟨?_, ?_, ?_, ?_⟩ <;> intro i <;> fin_cases i <;> simp [exFix])
    x0 f _ _ (by norm_num) (by norm_num [tiny, exM]) (by norm_num)
    (by norm_num [tiny, exM]) (by norm_num) 1 0
    ⟨by simp [exFix], by simp [exFix], by simp [exFix]⟩
    ⟨by simp [exFix], by simp [exFix], by norm_num [exFix, tiny, exM]⟩ s

end Hiop.Iterate
