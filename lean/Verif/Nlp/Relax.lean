import Verif.Nlp.Bounds
import Verif.Vec.Lemmas

/-!
# Relaxation of bounds (C17, C36)
-/

set_option linter.unusedSectionVars false

namespace Hiop.Nlp

open Hiop.Vec

variable {K : Type*} [Field K] [LinearOrder K] [IsStrictOrderedRing K] {n m : ℕ}

theorem relaxVec_apply (p : K) (cur ori : RVec K n) (i : Fin n) :
    relaxVec p cur ori i = ori i + p * max 1 |cur i| := by
  have h : componentMaxC (componentAbs cur) 1 i = max 1 |cur i| := by
    change (if |cur i| < 1 then (1 : K) else |cur i|) = _
    by_cases h : |cur i| < 1
    · rw [if_pos h, max_eq_left h.le]
    · rw [if_neg h, max_eq_right (not_lt.mp h)]
  unfold relaxVec axpy scale
  split_ifs with hp
  · rw [h, ← hp]; ring
  · change p * componentMaxC (componentAbs cur) 1 i + 1 * ori i = _
    rw [h]; ring

/-- **C17.** Relaxing the bounds (of variables and of inequalities) moves every lower bound down
and every upper bound up, by exactly the perturbation times `max(1,|bound|)`; bounds beyond
`±10^20` stay beyond. -/
theorem C17_relax (p : K) (hp : 0 ≤ p) (b : Bnds K n m) :
    let r := relaxBounds p b b
    (∀ i, r.xl i = b.xl i - p * max 1 |b.xl i|) ∧ (∀ i, r.xu i = b.xu i + p * max 1 |b.xu i|) ∧
    (∀ i, r.dl i = b.dl i - p * max 1 |b.dl i|) ∧ (∀ i, r.du i = b.du i + p * max 1 |b.du i|) ∧
    (∀ i, r.xl i ≤ b.xl i) ∧ (∀ i, b.xu i ≤ r.xu i) ∧
    (∀ i, r.dl i ≤ b.dl i) ∧ (∀ i, b.du i ≤ r.du i) ∧
    (∀ i, b.xl i ≤ -10 ^ 20 → r.xl i ≤ -10 ^ 20) ∧ (∀ i, 10 ^ 20 ≤ b.xu i → 10 ^ 20 ≤ r.xu i) ∧
    (∀ i, b.dl i ≤ -10 ^ 20 → r.dl i ≤ -10 ^ 20) ∧
    (∀ i, 10 ^ 20 ≤ b.du i → 10 ^ 20 ≤ r.du i) := by
  intro r
  have e1 : ∀ i, r.xl i = b.xl i - p * max 1 |b.xl i| := fun i => by
    have := relaxVec_apply (-p) b.xl b.xl i
    change relaxVec (-p) b.xl b.xl i = _
    rw [this]; ring
  have e2 : ∀ i, r.xu i = b.xu i + p * max 1 |b.xu i| := fun i => relaxVec_apply p b.xu b.xu i
  have e3 : ∀ i, r.dl i = b.dl i - p * max 1 |b.dl i| := fun i => by
    have := relaxVec_apply (-p) b.dl b.dl i
    change relaxVec (-p) b.dl b.dl i = _
    rw [this]; ring
  have e4 : ∀ i, r.du i = b.du i + p * max 1 |b.du i| := fun i => relaxVec_apply p b.du b.du i
  have hpos : ∀ y : K, 0 ≤ p * max 1 |y| := fun y =>
    mul_nonneg hp (le_trans zero_le_one (le_max_left _ _))
  have l1 : ∀ i, r.xl i ≤ b.xl i := fun i => by rw [e1]; linarith [hpos (b.xl i)]
  have l2 : ∀ i, b.xu i ≤ r.xu i := fun i => by rw [e2]; linarith [hpos (b.xu i)]
  have l3 : ∀ i, r.dl i ≤ b.dl i := fun i => by rw [e3]; linarith [hpos (b.dl i)]
  have l4 : ∀ i, b.du i ≤ r.du i := fun i => by rw [e4]; linarith [hpos (b.du i)]
  exact ⟨e1, e2, e3, e4, l1, l2, l3, l4, fun i h => (l1 i).trans h, fun i h => h.trans (l2 i),
    fun i h => (l3 i).trans h, fun i h => h.trans (l4 i)⟩

example : (relaxBounds (1/2 : ℚ) (⟨![-4], ![1/2], ![0], ![10]⟩ : Bnds ℚ 1 1)
    ⟨![-4], ![1/2], ![0], ![10]⟩).xl 0 = -6 := by
  rw [(C17_relax (1/2 : ℚ) (by norm_num) _).1]; norm_num [abs_of_neg]

/-- **C17 (fixed variables).** Relaxing fixed variables leaves the other variables alone; a fixed
variable's box grows by exactly the perturbation times `max(1,|upper|)` on each side, and with a
positive perturbation its interior becomes nonempty. -/
theorem C17_relax_fixed (tol p : K) (hp : 0 ≤ p) (xl xu : RVec K n) (i : Fin n) :
    let r := relaxFixed tol p xl xu
    (tol * max 1 |xu i| < |xu i - xl i| → r.1 i = xl i ∧ r.2 i = xu i) ∧
    (|xu i - xl i| ≤ tol * max 1 |xu i| →
      r.1 i = xl i - p * max 1 |xu i| ∧ r.2 i = xu i + p * max 1 |xu i|) ∧
    r.1 i ≤ xl i ∧ xu i ≤ r.2 i ∧
    (|xu i - xl i| ≤ tol * max 1 |xu i| → 0 < p → xl i ≤ xu i → r.1 i < r.2 i) := by
  intro r
  have h1 : (1 : K) ≤ max 1 |xu i| := le_max_left _ _
  have hnn : 0 ≤ p * max 1 |xu i| := mul_nonneg hp (by linarith)
  by_cases h : |xu i - xl i| ≤ tol * max 1 |xu i|
  · have e : r.1 i = xl i - p * max 1 |xu i| ∧ r.2 i = xu i + p * max 1 |xu i| := by
      constructor <;> simp [r, relaxFixed, relaxFixedPair, h]
    refine ⟨fun hh => absurd h (not_le.mpr hh), fun _ => e, by rw [e.1]; linarith,
      by rw [e.2]; linarith, fun _ hp' hle => ?_⟩
    have : 0 < p * max 1 |xu i| := mul_pos hp' (by linarith)
    rw [e.1, e.2]; linarith
  · have e : r.1 i = xl i ∧ r.2 i = xu i := by
      constructor <;> simp [r, relaxFixed, relaxFixedPair, h]
    exact ⟨fun _ => e, fun hh => absurd hh h, e.1.le, e.2.ge, fun hh => absurd hh h⟩

example : relaxFixed (n := 2) (0:ℚ) (1/10) ![3, 0] ![3, 1] = (![27/10, 0], ![33/10, 1]) := by
  refine Prod.ext ?_ ?_ <;> funext i <;> fin_cases i <;> decide +kernel

/-! ## Histories: relaxation, scaling and elastic tightening -/

/-- What happens to the bounds after initialisation: installation of the gradient scaling
(`apply_scaling` multiplies the inequality bounds by the row factors,
hiopNlpFormulation.cpp:707-709) and elastic tightening (`reset_bounds`,
hiopNlpFormulation.cpp:1418-1421, called by `update_log_barrier_params`,
hiopAlgFilterIPM.cpp:595). -/
inductive BOp (K : Type*) (m : ℕ) where
  | scaleD (f : RVec K m)
  | reset (p : K)

/-- Effect of one event on the bounds. -/
def bstep (ori : Bnds K n m) (b : Bnds K n m) : BOp K m → Bnds K n m
  | .scaleD f => { b with dl := componentMult b.dl f, du := componentMult b.du f }
  | .reset p => relaxFromOri p ori b

/-- Initial relaxation followed by a history of events. -/
def brun (p0 : K) (ori : Bnds K n m) (ops : List (BOp K m)) : Bnds K n m :=
  ops.foldl (bstep ori) (relaxBounds p0 ori ori)

/-- `b` contains `a`. -/
def Contains (b a : Bnds K n m) : Prop :=
  (∀ i, b.xl i ≤ a.xl i) ∧ (∀ i, a.xu i ≤ b.xu i) ∧ (∀ i, b.dl i ≤ a.dl i) ∧
  (∀ i, a.du i ≤ b.du i)

theorem relaxFromOri_eq (p : K) (ori cur : Bnds K n m) :
    relaxFromOri p ori cur = relaxBounds p ori ori := rfl

/-- **C17 (histories).** Through any sequence of elastic tightenings with nonnegative factors the
bounds are those obtained by relaxing the original bounds once with the last factor, so errors do
not accumulate and the original box always stays inside. -/
theorem C17_tightening_history (p0 : K) (hp0 : 0 ≤ p0) (ori : Bnds K n m) (ps : List K)
    (hps : ∀ p ∈ ps, 0 ≤ p) :
    brun p0 ori (ps.map BOp.reset) = relaxBounds ((p0 :: ps).getLast (by simp)) ori ori ∧
    Contains (brun p0 ori (ps.map BOp.reset)) ori := by
  have gen : ∀ (ps : List K) (q : K), (ps.map (BOp.reset (m := m))).foldl (bstep ori)
      (relaxBounds q ori ori) = relaxBounds ((q :: ps).getLast (by simp)) ori ori := by
    intro ps
    induction ps with
    | nil => intro q; rfl
    | cons p ps ih =>
      intro q
      rw [List.map_cons, List.foldl_cons]
      have : bstep ori (relaxBounds q ori ori) (BOp.reset p) = relaxBounds p ori ori := rfl
      rw [this, ih p]; simp only [List.getLast_cons_cons]
  have h := gen ps p0
  refine ⟨h, ?_⟩
  have hlast : 0 ≤ (p0 :: ps).getLast (by simp) := by
    have hm := List.getLast_mem (l := p0 :: ps) (by simp)
    rcases List.mem_cons.mp hm with h' | h'
    · rw [h']; exact hp0
    · exact hps _ h'
  have hr := C17_relax _ hlast ori
  unfold brun
  rw [h]
  exact ⟨hr.2.2.2.2.1, hr.2.2.2.2.2.1, hr.2.2.2.2.2.2.1, hr.2.2.2.2.2.2.2.1⟩

example : Contains (brun (1/100 : ℚ) (⟨![0], ![1], ![0], ![2]⟩ : Bnds ℚ 1 1)
    [BOp.reset (1/1000), BOp.reset (1/10000)]) ⟨![0], ![1], ![0], ![2]⟩ :=
  (C17_tightening_history (1/100 : ℚ) (by norm_num) _ [1/1000, 1/10000]
    (by intro p hp; simp at hp; rcases hp with rfl | rfl <;> norm_num)).2

/-- The user's inequality bounds in the units the solver works in: scaled by `f`. -/
def scaledBnds (f : RVec K m) (ori : Bnds K n m) : Bnds K n m :=
  { ori with dl := componentMult ori.dl f, du := componentMult ori.du f }

/-- **C36 (part).** Installing a positive scaling once, after the initial relaxation and with no
tightening afterwards, keeps the scaled user region inside the solver's bounds. Missing: elastic
tightening after scaling, for which the claim is false (`C36_reset_drops_scaling`). -/
theorem C36_scaled_bounds_partial (p0 : K) (hp0 : 0 ≤ p0) (ori : Bnds K n m) (f : RVec K m)
    (hf : ∀ i, 0 < f i) (ps : List K) (hps : ∀ p ∈ ps, 0 ≤ p) :
    Contains (brun p0 ori (ps.map BOp.reset ++ [BOp.scaleD f])) (scaledBnds f ori) := by
  obtain ⟨-, h1, h2, h3, h4⟩ := C17_tightening_history p0 hp0 ori ps hps
  unfold brun at *
  rw [List.foldl_append, List.foldl_cons, List.foldl_nil]
  refine ⟨h1, h2, fun i => ?_, fun i => ?_⟩
  · exact mul_le_mul_of_nonneg_right (h3 i) (hf i).le
  · exact mul_le_mul_of_nonneg_right (h4 i) (hf i).le

example : Contains (brun (1/100 : ℚ) (⟨![0], ![1], ![0], ![2]⟩ : Bnds ℚ 1 1)
    ([].map BOp.reset ++ [BOp.scaleD ![1/2]])) (scaledBnds ![1/2] ⟨![0], ![1], ![0], ![2]⟩) :=
  C36_scaled_bounds_partial (1/100 : ℚ) (by norm_num) _ _
    (by intro i; fin_cases i; norm_num) [] (by simp)

/-- **C36 fails with elastic mode (finding).** A tightening after the scaling was installed
forgets the scaling whatever it was: the solver's inequality bounds are again those of the
unscaled problem, while the constraint values it compares with them stay scaled. -/
theorem C36_reset_drops_scaling (p0 p : K) (ori : Bnds K n m) (f : RVec K m) :
    brun p0 ori [BOp.scaleD f, BOp.reset p] = relaxBounds p ori ori := rfl

/-- Concrete instance: `2 ≤ d(x) ≤ 4` scaled by `1/2` becomes `1 ≤ d(x)/2 ≤ 2`; after one
tightening with factor `1/10` the solver demands `1.8 ≤ d(x)/2`, so the feasible `d(x) = 2`
violates the solver's bound. -/
theorem C36_scaled_bounds_false :
    ∃ (ori : Bnds ℚ 0 1) (f : RVec ℚ 1), (∀ i, 0 < f i ∧ f i ≤ 1) ∧
      ¬ Contains (brun (1/100) ori [BOp.scaleD f, BOp.reset (1/10)]) (scaledBnds f ori) := by
  refine ⟨⟨![], ![], ![2], ![4]⟩, ![1/2], by intro i; fin_cases i; norm_num, ?_⟩
  rw [C36_reset_drops_scaling]
  rintro ⟨-, -, h, -⟩
  have h0 := h 0
  rw [(C17_relax (1/10 : ℚ) (by norm_num) _).2.2.1] at h0
  norm_num [scaledBnds, componentMult] at h0

/-! ## Adjusting the bounds to enlarged slacks -/

/-- **C17 (slack adjustment).** After the bounds are moved to match the slacks, every present
lower (upper) bound is exactly the point minus (plus) its slack, absent ones are unchanged; and if
the slack is at least the distance to the old bound, the bound moves outwards. -/
theorem C17_adjust_bounds (x sl su ixl ixu xl xu : RVec K n) (i : Fin n) :
    let r := adjustBoundPair x sl su ixl ixu xl xu
    (ixl i = 1 → r.1 i = x i - sl i) ∧ (ixl i ≠ 1 → r.1 i = xl i) ∧
    (ixu i = 1 → r.2 i = x i + su i) ∧ (ixu i ≠ 1 → r.2 i = xu i) ∧
    (x i - xl i ≤ sl i → r.1 i ≤ xl i) ∧ (xu i - x i ≤ su i → xu i ≤ r.2 i) := by
  intro r
  have e1 : ixl i = 1 → r.1 i = x i - sl i := by
    intro h; simp [r, adjustBoundPair, axpySel, copyFromSel, h]; ring
  have e2 : ixl i ≠ 1 → r.1 i = xl i := by
    intro h; simp [r, adjustBoundPair, axpySel, copyFromSel, h]
  have e3 : ixu i = 1 → r.2 i = x i + su i := by
    intro h; simp [r, adjustBoundPair, axpySel, copyFromSel, h]
  have e4 : ixu i ≠ 1 → r.2 i = xu i := by
    intro h; simp [r, adjustBoundPair, axpySel, copyFromSel, h]
  refine ⟨e1, e2, e3, e4, fun h => ?_, fun h => ?_⟩
  · by_cases h' : ixl i = 1
    · rw [e1 h']; linarith
    · rw [e2 h']
  · by_cases h' : ixu i = 1
    · rw [e3 h']; linarith
    · rw [e4 h']

example : (adjustBoundPair (n := 2) (![1, 1] : RVec ℚ 2) ![3/2, 0] ![0, 0] ![1, 0] ![0, 0]
    ![0, -5] ![9, 9]).1 = ![-1/2, -5] := by
  funext i; fin_cases i <;> decide +kernel

end Hiop.Nlp
