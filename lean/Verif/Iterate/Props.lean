import Verif.Iterate.Lemmas

/-!
# Properties C03 (whole iterate), C06 and C32
-/

set_option linter.unusedSectionVars false

namespace Hiop.Iterate

open Hiop.Vec

variable {K : Type*} [Field K] [LinearOrder K] [IsStrictOrderedRing K] {n mc m p : ℕ}

/-! ## Specification vocabulary -/

/-- The four bound patterns hold only zeros and ones. -/
structure Patterns (b : Bounds K n m) : Prop where
  ixl : IsPattern b.ixl
  ixu : IsPattern b.ixu
  idl : IsPattern b.idl
  idu : IsPattern b.idu

/-- A vector is positive where there is a bound and zero where there is none. -/
def PosOn (v w : RVec K p) : Prop := ∀ i, (w i = 1 → 0 < v i) ∧ (w i = 0 → v i = 0)

/-- A vector vanishes where there is no bound. -/
def ZeroOff (v w : RVec K p) : Prop := ∀ i, w i = 0 → v i = 0

/-- Slacks are positive exactly where there is a bound. -/
structure SlacksOk (b : Bounds K n m) (it : It K n mc m) : Prop where
  sxl : PosOn it.sxl b.ixl
  sxu : PosOn it.sxu b.ixu
  sdl : PosOn it.sdl b.idl
  sdu : PosOn it.sdu b.idu

/-- Bound multipliers are positive exactly where there is a bound. -/
structure DualsOk (b : Bounds K n m) (it : It K n mc m) : Prop where
  zl : PosOn it.zl b.ixl
  zu : PosOn it.zu b.ixu
  vl : PosOn it.vl b.idl
  vu : PosOn it.vu b.idu

/-- Bound-multiplier directions vanish where there is no bound. -/
structure DualDirOk (b : Bounds K n m) (dir : It K n mc m) : Prop where
  zl : ZeroOff dir.zl b.ixl
  zu : ZeroOff dir.zu b.ixu
  vl : ZeroOff dir.vl b.idl
  vu : ZeroOff dir.vu b.idu

/-- The slacks equal the distances to the bounds. -/
structure SlacksMatch (b : Bounds K n m) (it : It K n mc m) : Prop where
  sxl : ∀ i, b.ixl i = 1 → it.sxl i = it.x i - b.xl i
  sxu : ∀ i, b.ixu i = 1 → it.sxu i = b.xu i - it.x i
  sdl : ∀ i, b.idl i = 1 → it.sdl i = it.d i - b.dl i
  sdu : ∀ i, b.idu i = 1 → it.sdu i = b.du i - it.d i

/-- Slack directions are the directions induced by the primal directions. -/
structure SlackDirMatch (b : Bounds K n m) (dir : It K n mc m) : Prop where
  sxl : ∀ i, b.ixl i = 1 → dir.sxl i = dir.x i
  sxu : ∀ i, b.ixu i = 1 → dir.sxu i = - dir.x i
  sdl : ∀ i, b.idl i = 1 → dir.sdl i = dir.d i
  sdu : ∀ i, b.idu i = 1 → dir.sdu i = - dir.d i

/-! ## C03 for the whole iterate -/

/-- **C03.** The primal (dual) step length is the largest one in `(0,1]` for which every
slack (every bound multiplier) keeps the fraction `1-tau` of its value. -/
theorem C03_iterate_step_lengths (b : Bounds K n m) (it dir : It K n mc m) (tau : K)
    (hp : Patterns b) (hs : SlacksOk b it) (hd : DualsOk b it) (ht : 0 < tau) :
    IsGreatest {a | 0 < a ∧ a ≤ 1 ∧
        (∀ i, b.ixl i = 1 → (1 - tau) * it.sxl i ≤ it.sxl i + a * dir.sxl i) ∧
        (∀ i, b.ixu i = 1 → (1 - tau) * it.sxu i ≤ it.sxu i + a * dir.sxu i) ∧
        (∀ i, b.idl i = 1 → (1 - tau) * it.sdl i ≤ it.sdl i + a * dir.sdl i) ∧
        (∀ i, b.idu i = 1 → (1 - tau) * it.sdu i ≤ it.sdu i + a * dir.sdu i)}
      (fractionToTheBdry b it dir tau).1 ∧
    IsGreatest {a | 0 < a ∧ a ≤ 1 ∧
        (∀ i, b.ixl i = 1 → (1 - tau) * it.zl i ≤ it.zl i + a * dir.zl i) ∧
        (∀ i, b.ixu i = 1 → (1 - tau) * it.zu i ≤ it.zu i + a * dir.zu i) ∧
        (∀ i, b.idl i = 1 → (1 - tau) * it.vl i ≤ it.vl i + a * dir.vl i) ∧
        (∀ i, b.idu i = 1 → (1 - tau) * it.vu i ≤ it.vu i + a * dir.vu i)}
      (fractionToTheBdry b it dir tau).2 := by
  have key : ∀ {p q : ℕ} (x1 d1 w1 : RVec K p) (x2 d2 w2 : RVec K p) (x3 d3 w3 : RVec K q)
      (x4 d4 w4 : RVec K q), IsPattern w1 → IsPattern w2 → IsPattern w3 → IsPattern w4 →
      PosOn x1 w1 → PosOn x2 w2 → PosOn x3 w3 → PosOn x4 w4 →
      IsGreatest {a | 0 < a ∧ a ≤ 1 ∧
        (∀ i, w1 i = 1 → (1 - tau) * x1 i ≤ x1 i + a * d1 i) ∧
        (∀ i, w2 i = 1 → (1 - tau) * x2 i ≤ x2 i + a * d2 i) ∧
        (∀ i, w3 i = 1 → (1 - tau) * x3 i ≤ x3 i + a * d3 i) ∧
        (∀ i, w4 i = 1 → (1 - tau) * x4 i ≤ x4 i + a * d4 i)}
      (min (min (min (min 10 (fractionToBdrySel x1 d1 tau w1)) (fractionToBdrySel x2 d2 tau w2))
        (fractionToBdrySel x3 d3 tau w3)) (fractionToBdrySel x4 d4 tau w4)) := by
    intro p q x1 d1 w1 x2 d2 w2 x3 d3 w3 x4 d4 w4 p1 p2 p3 p4 h1 h2 h3 h4
    have e1 := fun a => mem_admissible_iff x1 d1 w1 tau a p1 (fun i => (h1 i).1) ht
    have e2 := fun a => mem_admissible_iff x2 d2 w2 tau a p2 (fun i => (h2 i).1) ht
    have e3 := fun a => mem_admissible_iff x3 d3 w3 tau a p3 (fun i => (h3 i).1) ht
    have e4 := fun a => mem_admissible_iff x4 d4 w4 tau a p4 (fun i => (h4 i).1) ht
    have l1 := (fractionToBdrySel_char x1 d1 tau w1).1
    have l2 := (fractionToBdrySel_char x2 d2 tau w2).1
    have l3 := (fractionToBdrySel_char x3 d3 tau w3).1
    have l4 := (fractionToBdrySel_char x4 d4 tau w4).1
    have g1 := fractionToBdrySel_pos x1 d1 w1 tau p1 (fun i => (h1 i).1) ht
    have g2 := fractionToBdrySel_pos x2 d2 w2 tau p2 (fun i => (h2 i).1) ht
    have g3 := fractionToBdrySel_pos x3 d3 w3 tau p3 (fun i => (h3 i).1) ht
    have g4 := fractionToBdrySel_pos x4 d4 w4 tau p4 (fun i => (h4 i).1) ht
    have h10 : (1:K) ≤ 10 := by norm_num
    rw [min_eq_right (l1.trans h10)]
    set f1 := fractionToBdrySel x1 d1 tau w1
    set f2 := fractionToBdrySel x2 d2 tau w2
    set f3 := fractionToBdrySel x3 d3 tau w3
    set f4 := fractionToBdrySel x4 d4 tau w4
    have hpos : 0 < min (min (min f1 f2) f3) f4 := lt_min (lt_min (lt_min g1 g2) g3) g4
    have m1 : min (min (min f1 f2) f3) f4 ≤ f1 :=
      (min_le_left _ _).trans ((min_le_left _ _).trans (min_le_left _ _))
    have m2 : min (min (min f1 f2) f3) f4 ≤ f2 :=
      (min_le_left _ _).trans ((min_le_left _ _).trans (min_le_right _ _))
    have m3 : min (min (min f1 f2) f3) f4 ≤ f3 := (min_le_left _ _).trans (min_le_right _ _)
    have m4 : min (min (min f1 f2) f3) f4 ≤ f4 := min_le_right _ _
    constructor
    · exact ⟨hpos, m1.trans l1, ((e1 _).2 ⟨hpos, m1⟩).2.2, ((e2 _).2 ⟨hpos, m2⟩).2.2,
        ((e3 _).2 ⟨hpos, m3⟩).2.2, ((e4 _).2 ⟨hpos, m4⟩).2.2⟩
    · rintro a ⟨a0, a1, c1, c2, c3, c4⟩
      exact le_min (le_min (le_min ((e1 a).1 ⟨a0, a1, c1⟩).2 ((e2 a).1 ⟨a0, a1, c2⟩).2)
        ((e3 a).1 ⟨a0, a1, c3⟩).2) ((e4 a).1 ⟨a0, a1, c4⟩).2
  exact ⟨key _ _ _ _ _ _ _ _ _ _ _ _ hp.ixl hp.ixu hp.idl hp.idu hs.sxl hs.sxu hs.sdl hs.sdu,
    key _ _ _ _ _ _ _ _ _ _ _ _ hp.ixl hp.ixu hp.idl hp.idu hd.zl hd.zu hd.vl hd.vu⟩

/-! ## C06: correction of small slacks -/

/-- The threshold below which a slack is corrected: `eps * min(1,mu)`. -/
def tiny (M : Mach K) (mu : K) : K := M.eps * min 1 mu

/-- **C06.** Slacks at or above the threshold are untouched; a slack below it is replaced by
`min(max(mu/z, tiny), max(slack,0) + c·max(1,|bound|))` (read `mu/z` as `+∞` for `z = 0`);
components without bound stay zero; and the returned count is the number of slacks below the
threshold. -/
theorem C06_small_slack_rule (M : Mach K) (slack bound dual sel : RVec K p) (mu : K)
    (hsel : IsPattern sel) (hoff : ZeroOff slack sel)
    (he : 0 < M.eps) (hc : 0 < M.scaleFact) (hmu : 0 < mu) (num : ℕ) (s' : RVec K p)
    (h : adjustSmallSlacksVec M slack bound dual sel mu = some (num, s')) :
    (∀ i, sel i = 0 → s' i = 0) ∧
    (∀ i, sel i = 1 → tiny M mu ≤ slack i → s' i = slack i) ∧
    (∀ i, sel i = 1 → slack i < tiny M mu → dual i ≠ 0 →
      s' i = min (max (mu / dual i) (tiny M mu))
        (max (slack i) 0 + M.scaleFact * max 1 |bound i|)) ∧
    (∀ i, sel i = 1 → slack i < tiny M mu → dual i = 0 →
      s' i = max (slack i) 0 + M.scaleFact * max 1 |bound i|) ∧
    num = (Finset.univ.filter fun i => sel i = 1 ∧ slack i < tiny M mu).card := by
  have hsv : 0 < M.eps * min 1 mu := mul_pos he (lt_min one_pos hmu)
  have hcomp := adjustSmallSlacksVec_comp M slack bound dual sel mu hsel hoff hc hsv num s' h
  exact ⟨fun i => (hcomp i).1, fun i => (hcomp i).2.1, fun i => (hcomp i).2.2.1,
    fun i => (hcomp i).2.2.2,
    adjustSmallSlacksVec_num M slack bound dual sel mu hsel hoff num s' h⟩

/-- **C06.** Corrected slacks are positive, never smaller than the original ones, and exceed
the nonnegative part of the original slack by at most `c·max(1,|bound|)`. -/
theorem C06_small_slack_bounds (M : Mach K) (slack bound dual sel : RVec K p) (mu : K)
    (hsel : IsPattern sel) (hoff : ZeroOff slack sel)
    (he : 0 < M.eps) (hc : 0 < M.scaleFact) (hmu : 0 < mu) (num : ℕ) (s' : RVec K p)
    (h : adjustSmallSlacksVec M slack bound dual sel mu = some (num, s')) :
    PosOn s' sel ∧ (∀ i, slack i ≤ s' i) ∧
    (∀ i, s' i ≤ max (slack i) 0 + M.scaleFact * max 1 |bound i|) := by
  obtain ⟨h0, h1, h2, h3, -⟩ :=
    C06_small_slack_rule M slack bound dual sel mu hsel hoff he hc hmu num s' h
  have ht : 0 < tiny M mu := mul_pos he (lt_min one_pos hmu)
  have hb : ∀ i, 0 < M.scaleFact * max 1 |bound i| := fun i =>
    mul_pos hc (lt_of_lt_of_le one_pos (le_max_left _ _))
  refine ⟨fun i => ⟨fun hi => ?_, h0 i⟩, fun i => ?_, fun i => ?_⟩
  · rcases le_or_gt (tiny M mu) (slack i) with hle | hlt
    · rw [h1 i hi hle]; exact lt_of_lt_of_le ht hle
    · have h0' : 0 ≤ max (slack i) 0 := le_max_right _ _
      have hbi := hb i
      by_cases hd : dual i = 0
      · rw [h3 i hi hlt hd]; linarith
      · rw [h2 i hi hlt hd]
        exact lt_min (lt_of_lt_of_le ht (le_max_right _ _)) (by linarith)
  · rcases hsel i with hi | hi
    · rw [h0 i hi, hoff i hi]
    · rcases le_or_gt (tiny M mu) (slack i) with hle | hlt
      · rw [h1 i hi hle]
      · have h0' : slack i ≤ max (slack i) 0 := le_max_left _ _
        have hbi := hb i
        by_cases hd : dual i = 0
        · rw [h3 i hi hlt hd]; linarith
        · rw [h2 i hi hlt hd]
          exact le_min (hlt.le.trans (le_max_right _ _)) (by linarith)
  · have hm : slack i ≤ max (slack i) 0 := le_max_left _ _
    have h0' : (0:K) ≤ max (slack i) 0 := le_max_right _ _
    have := hb i
    rcases hsel i with hi | hi
    · rw [h0 i hi]; linarith
    · rcases le_or_gt (tiny M mu) (slack i) with hle | hlt
      · rw [h1 i hi hle]; linarith
      · by_cases hd : dual i = 0
        · rw [h3 i hi hlt hd]
        · rw [h2 i hi hlt hd]; exact min_le_right _ _

/-- **C06.** The correction produces a NaN exactly when some slack is below the threshold and
some *other* bounded component, whose slack is fine, has a zero multiplier. -/
theorem C06_nan_iff (M : Mach K) (slack bound dual sel : RVec K p) (mu : K)
    (hsel : IsPattern sel) (hmax : tiny M mu ≤ M.dblMax) :
    adjustSmallSlacksVec M slack bound dual sel mu = none ↔
      (∃ j, sel j = 1 ∧ slack j < tiny M mu) ∧
      (∃ i, sel i = 1 ∧ dual i = 0 ∧ tiny M mu ≤ slack i) :=
  adjustSmallSlacksVec_none_iff M slack bound dual sel mu hsel hmax

/-- **C06.** The correction never produces a NaN when the multipliers are positive. -/
theorem C06_defined_of_positive_duals (M : Mach K) (slack bound dual sel : RVec K p) (mu : K)
    (hsel : IsPattern sel) (hd : PosOn dual sel) :
    ∃ r, adjustSmallSlacksVec M slack bound dual sel mu = some r := by
  unfold adjustSmallSlacksVec
  by_cases hp : p > 0
  · by_cases hm : minSel M.dblMax slack sel < M.eps * min 1 mu
    · simp only [hp, hm, if_true]
      rw [if_neg]
      · exact ⟨_, rfl⟩
      · rintro ⟨i, h1, h2, -⟩
        have := (hd i).1 ((hsel i).resolve_left h1)
        exact this.ne' h2
    · simp only [hp, hm, if_true, if_false]; exact ⟨_, rfl⟩
  · simp only [hp, if_false]; exact ⟨_, rfl⟩

-- Non-vacuity: one adjusted and one kept slack, one component without bound.
example : adjustSmallSlacksVec (K := ℚ) ⟨1/1000, 1/100, 1000⟩ ![-1, 3, 0] ![5, 5, 9]
    ![1, 1, 0] ![1, 1, 0] 1 = some (1, ![1/20, 3, 0]) := by
  have key : ∀ r, adjustSmallSlacksVec (K := ℚ) ⟨1/1000, 1/100, 1000⟩ ![-1, 3, 0] ![5, 5, 9]
    ![1, 1, 0] ![1, 1, 0] 1 = some r → r = (1, ![1/20, 3, 0]) := by
    rintro ⟨num, s'⟩ hr
    have hpat : IsPattern (![1, 1, 0] : RVec ℚ 3) := by intro i; fin_cases i <;> simp
    have hz : ZeroOff (![-1, 3, 0] : RVec ℚ 3) (![1, 1, 0] : RVec ℚ 3) := by
      intro i; fin_cases i <;> simp
    obtain ⟨h0, h1, h2, -, h3⟩ := C06_small_slack_rule _ _ _ _ _ _ hpat hz (by norm_num)
      (by norm_num) (by norm_num) num s' hr
    have e0 := h2 0 (by simp) (by norm_num [tiny]) (by simp)
    have e1 := h1 1 (by simp) (by norm_num [tiny])
    have e2 := h0 2 (by simp)
    norm_num at e0 e1 e2
    refine Prod.ext ?_ ?_
    · rw [h3]; rw [show (Finset.univ.filter fun i : Fin 3 => (![1, 1, 0] : RVec ℚ 3) i = 1 ∧
        (![-1, 3, 0] : RVec ℚ 3) i < tiny ⟨1/1000, 1/100, 1000⟩ 1) = {0} from ?_]
      · rfl
      · ext i; fin_cases i <;> norm_num [tiny]
    · funext i; fin_cases i
      · exact e0
      · exact e1
      · exact e2
  obtain ⟨r, hr⟩ : ∃ r, adjustSmallSlacksVec (K := ℚ) ⟨1/1000, 1/100, 1000⟩ ![-1, 3, 0]
      ![5, 5, 9] ![1, 1, 0] ![1, 1, 0] 1 = some r := by
    refine C06_defined_of_positive_duals _ _ _ _ _ _ ?_ ?_
    · intro i; fin_cases i <;> simp
    · intro i; fin_cases i <;> simp
  rw [hr, key r hr]

/-- **C06** at bound level: after `adjust_bounds` every slack is again the exact distance to
the (moved) bound, and components without a bound keep their stored bound. -/
theorem C06_adjusted_bounds_match (b : Bounds K n m) (it : It K n mc m) :
    SlacksMatch (adjustBounds b it) it ∧
    (adjustBounds b it).ixl = b.ixl ∧ (adjustBounds b it).ixu = b.ixu ∧
    (adjustBounds b it).idl = b.idl ∧ (adjustBounds b it).idu = b.idu ∧
    (∀ i, b.ixl i ≠ 1 → (adjustBounds b it).xl i = b.xl i) ∧
    (∀ i, b.ixu i ≠ 1 → (adjustBounds b it).xu i = b.xu i) ∧
    (∀ i, b.idl i ≠ 1 → (adjustBounds b it).dl i = b.dl i) ∧
    (∀ i, b.idu i ≠ 1 → (adjustBounds b it).du i = b.du i) := by
  refine ⟨⟨?_, ?_, ?_, ?_⟩, rfl, rfl, rfl, rfl, ?_, ?_, ?_, ?_⟩ <;>
    · intro i hi
      simp only [adjustBounds, axpySel, copyFromSel] at hi ⊢
      simp [hi]

/-! ## C32: the positivity/pattern invariant over whole histories -/

/-- Machine constants are positive. -/
structure MachOk (M : Mach K) : Prop where
  eps : 0 < M.eps
  scaleFact : 0 < M.scaleFact

/-- What the solver guarantees about the arguments of each replacement. Positivity of `mu`,
`kappa ≥ 1` and `0 < tau < 1` hold by construction of the parameters; the dual directions are
recovered with the bound pattern; the soft restoration step additionally uses that slack
directions and slacks are consistent with the primal ones. -/
def OpOk (s : State K n mc m) : Op K n mc m → Prop
  | .step dir _ _ mu kappa => DualDirOk s.b dir ∧ 0 < mu ∧ 1 ≤ kappa
  | .restore _ _ dir tau mu0 => DualDirOk s.b dir ∧ 0 < tau ∧ tau < 1 ∧ 0 < mu0
  | .soft dir tau mu kappa => DualDirOk s.b dir ∧ 0 < tau ∧ tau < 1 ∧ 0 < mu ∧ 1 ≤ kappa ∧
      SlacksMatch s.b s.it ∧ SlackDirMatch s.b dir
  | .elastic _ _ _ mu kappa => 0 < mu ∧ 1 ≤ kappa

/-- `Run M s t`: from `s`, some finite sequence of replacements leads to `t`. -/
inductive Run (M : Mach K) : State K n mc m → State K n mc m → Prop
  | refl (s) : Run M s s
  | snoc {s t u} (op : Op K n mc m) : Run M s t → OpOk t op → applyOp M t op = some u → Run M s u

/-- The invariant: slacks and bound multipliers are positive exactly on the bounded
components and zero elsewhere. -/
structure Inv (s : State K n mc m) : Prop where
  pat : Patterns s.b
  slacks : SlacksOk s.b s.it
  duals : DualsOk s.b s.it

theorem zeroOff_selectPattern (v w : RVec K p) : ZeroOff (Vec.selectPattern v w) w := by
  intro i hi; simp [Vec.selectPattern, hi]

theorem computeSafeSlacks_cases (M : Mach K) (b : Bounds K n m) (it cur : It K n mc m) (mu : K)
    (r : ℕ × It K n mc m) (h : computeSafeSlacks M b it cur mu = some r) :
    ∃ r1 r2 r3 r4,
      adjustSmallSlacksVec M (determineSlacks b it).sxl b.xl cur.zl b.ixl mu = some r1 ∧
      adjustSmallSlacksVec M (determineSlacks b it).sxu b.xu cur.zu b.ixu mu = some r2 ∧
      adjustSmallSlacksVec M (determineSlacks b it).sdl b.dl cur.vl b.idl mu = some r3 ∧
      adjustSmallSlacksVec M (determineSlacks b it).sdu b.du cur.vu b.idu mu = some r4 ∧
      r = (r1.1 + r2.1 + r3.1 + r4.1,
        { it with sxl := r1.2, sxu := r2.2, sdl := r3.2, sdu := r4.2 }) := by
  unfold computeSafeSlacks adjustSmallSlacks at h
  simp only [Option.bind_eq_bind, Option.bind_eq_some_iff] at h
  obtain ⟨r1, h1, r2, h2, r3, h3, r4, h4, h5⟩ := h
  refine ⟨r1, r2, r3, r4, h1, h2, h3, h4, ?_⟩
  have := Option.some.inj h5
  rw [← this]
  simp [determineSlacks]

theorem computeSafeSlacks_ok (M : Mach K) (hM : MachOk M) (b : Bounds K n m) (hp : Patterns b)
    (it cur : It K n mc m) (mu : K) (hmu : 0 < mu)
    (r : ℕ × It K n mc m) (h : computeSafeSlacks M b it cur mu = some r) :
    SlacksOk b r.2 := by
  obtain ⟨r1, r2, r3, r4, h1, h2, h3, h4, rfl⟩ := computeSafeSlacks_cases M b it cur mu r h
  exact ⟨(C06_small_slack_bounds M _ _ _ _ mu hp.ixl (zeroOff_selectPattern _ _) hM.eps
      hM.scaleFact hmu r1.1 r1.2 h1).1,
    (C06_small_slack_bounds M _ _ _ _ mu hp.ixu (zeroOff_selectPattern _ _) hM.eps
      hM.scaleFact hmu r2.1 r2.2 h2).1,
    (C06_small_slack_bounds M _ _ _ _ mu hp.idl (zeroOff_selectPattern _ _) hM.eps
      hM.scaleFact hmu r3.1 r3.2 h3).1,
    (C06_small_slack_bounds M _ _ _ _ mu hp.idu (zeroOff_selectPattern _ _) hM.eps
      hM.scaleFact hmu r4.1 r4.2 h4).1⟩

/-- Nothing but the slacks is changed. -/
theorem computeSafeSlacks_rest (M : Mach K) (b : Bounds K n m)
    (it cur : It K n mc m) (mu : K)
    (r : ℕ × It K n mc m) (h : computeSafeSlacks M b it cur mu = some r) :
    r.2.x = it.x ∧ r.2.d = it.d ∧ r.2.zl = it.zl ∧ r.2.zu = it.zu ∧ r.2.vl = it.vl ∧
      r.2.vu = it.vu := by
  obtain ⟨r1, r2, r3, r4, h1, h2, h3, h4, rfl⟩ := computeSafeSlacks_cases M b it cur mu r h
  simp

/-- If no slack was adjusted, the slacks are the exact distances to the bounds. -/
theorem computeSafeSlacks_match (M : Mach K) (hM : MachOk M) (b : Bounds K n m)
    (hp : Patterns b) (it cur : It K n mc m) (mu : K) (hmu : 0 < mu)
    (r : ℕ × It K n mc m) (h : computeSafeSlacks M b it cur mu = some r) (h0 : r.1 = 0) :
    SlacksMatch b r.2 := by
  have key : ∀ {p : ℕ} (slack bound dual sel : RVec K p), IsPattern sel → ZeroOff slack sel →
      ∀ num s', adjustSmallSlacksVec M slack bound dual sel mu = some (num, s') → num = 0 →
      ∀ i, sel i = 1 → s' i = slack i := by
    intro p slack bound dual sel hsel hoff num s' hh hn i hi
    obtain ⟨-, k1, -, -, k3⟩ := C06_small_slack_rule M slack bound dual sel mu hsel hoff hM.eps
      hM.scaleFact hmu num s' hh
    refine k1 i hi ?_
    rw [hn, eq_comm, Finset.card_eq_zero, Finset.filter_eq_empty_iff] at k3
    by_contra hlt
    exact k3 (Finset.mem_univ i) ⟨hi, not_le.mp hlt⟩
  obtain ⟨r1, r2, r3, r4, h1, h2, h3, h4, rfl⟩ := computeSafeSlacks_cases M b it cur mu r h
  simp only [Nat.add_eq_zero_iff] at h0
  obtain ⟨⟨⟨e1, e2⟩, e3⟩, e4⟩ := h0
  refine ⟨fun i hi => ?_, fun i hi => ?_, fun i hi => ?_, fun i hi => ?_⟩
  · have := key _ _ _ _ hp.ixl (zeroOff_selectPattern _ _) r1.1 r1.2 h1 e1 i hi
    simp only at this ⊢
    rw [this]; simp [Vec.selectPattern, axpy, hi, sub_eq_add_neg]
  · have := key _ _ _ _ hp.ixu (zeroOff_selectPattern _ _) r2.1 r2.2 h2 e2 i hi
    simp only at this ⊢
    rw [this]; simp [Vec.selectPattern, axpy, hi, sub_eq_add_neg]
  · have := key _ _ _ _ hp.idl (zeroOff_selectPattern _ _) r3.1 r3.2 h3 e3 i hi
    simp only at this ⊢
    rw [this]; simp [Vec.selectPattern, axpy, hi, sub_eq_add_neg]
  · have := key _ _ _ _ hp.idu (zeroOff_selectPattern _ _) r4.1 r4.2 h4 e4 i hi
    simp only at this ⊢
    rw [this]; simp [Vec.selectPattern, axpy, hi, sub_eq_add_neg]

theorem computeSafeSlacks_defined (M : Mach K) (b : Bounds K n m) (hp : Patterns b)
    (it cur : It K n mc m) (mu : K) (hd : DualsOk b cur) :
    ∃ r, computeSafeSlacks M b it cur mu = some r := by
  obtain ⟨r1, h1⟩ := C06_defined_of_positive_duals M (determineSlacks b it).sxl b.xl cur.zl
    b.ixl mu hp.ixl hd.zl
  obtain ⟨r2, h2⟩ := C06_defined_of_positive_duals M (determineSlacks b it).sxu b.xu cur.zu
    b.ixu mu hp.ixu hd.zu
  obtain ⟨r3, h3⟩ := C06_defined_of_positive_duals M (determineSlacks b it).sdl b.dl cur.vl
    b.idl mu hp.idl hd.vl
  obtain ⟨r4, h4⟩ := C06_defined_of_positive_duals M (determineSlacks b it).sdu b.du cur.vu
    b.idu mu hp.idu hd.vu
  unfold computeSafeSlacks adjustSmallSlacks
  rw [h1, h2, h3, h4]
  exact ⟨_, rfl⟩

theorem adjustDuals_ok (b : Bounds K n m) (it : It K n mc m) (mu kappa : K)
    (hmu : 0 < mu) (hk : 1 ≤ kappa) (hs : SlacksOk b it)
    (hz : DualDirOk b it) : DualsOk b (adjustDuals b it mu kappa) := by
  have key : ∀ {p : ℕ} (z s w : RVec K p), PosOn s w → ZeroOff z w →
      PosOn (adjustDualsPlh z s w mu kappa) w := by
    intro p z s w h1 h2 i
    refine ⟨fun hi => C05_dual_positive z s w mu kappa hk hmu (fun j => (h1 j).1) i hi,
      fun hi => ?_⟩
    rw [(C05_dual_safeguard z s w mu kappa hk hmu (fun j => (h1 j).1) i).2
      (by rw [hi]; exact zero_ne_one)]
    exact h2 i hi
  exact ⟨key _ _ _ hs.sxl hz.zl, key _ _ _ hs.sxu hz.zu, key _ _ _ hs.sdl hz.vl,
    key _ _ _ hs.sdu hz.vu⟩

theorem zeroOff_of_posOn {v w : RVec K p} (h : PosOn v w) : ZeroOff v w := fun i => (h i).2

theorem zeroOff_axpy {v d w : RVec K p} (a : K) (h1 : ZeroOff v w) (h2 : ZeroOff d w) :
    ZeroOff (axpy v a d) w := by
  intro i hi; simp [axpy, h1 i hi, h2 i hi]

theorem takeStepDuals_zeroOff (b : Bounds K n m) (it cur dir : It K n mc m) (ap ad : K)
    (h1 : DualsOk b cur) (h2 : DualDirOk b dir) :
    DualDirOk b (takeStepDuals it cur dir ap ad) :=
  ⟨zeroOff_axpy ad (zeroOff_of_posOn h1.zl) h2.zl, zeroOff_axpy ad (zeroOff_of_posOn h1.zu) h2.zu,
   zeroOff_axpy ad (zeroOff_of_posOn h1.vl) h2.vl, zeroOff_axpy ad (zeroOff_of_posOn h1.vu) h2.vu⟩

theorem linearDualsUpdate_ok (b : Bounds K n m) (cur plus dir : It K n mc m) (ap ad mu kappa : K)
    (hmu : 0 < mu) (hk : 1 ≤ kappa) (hs : SlacksOk b plus) (hd : DualsOk b cur)
    (hdir : DualDirOk b dir) :
    SlacksOk b (linearDualsUpdate b cur plus dir ap ad mu kappa) ∧
    DualsOk b (linearDualsUpdate b cur plus dir ap ad mu kappa) := by
  refine ⟨⟨hs.sxl, hs.sxu, hs.sdl, hs.sdu⟩, ?_⟩
  exact adjustDuals_ok b _ mu kappa hmu hk ⟨hs.sxl, hs.sxu, hs.sdl, hs.sdu⟩
    (takeStepDuals_zeroOff b plus cur dir ap ad hd hdir)

theorem slacksOk_congr {b b' : Bounds K n m} {it : It K n mc m}
    (h1 : b'.ixl = b.ixl) (h2 : b'.ixu = b.ixu) (h3 : b'.idl = b.idl) (h4 : b'.idu = b.idu)
    (h : SlacksOk b it) : SlacksOk b' it :=
  ⟨h1 ▸ h.sxl, h2 ▸ h.sxu, h3 ▸ h.sdl, h4 ▸ h.sdu⟩

theorem step_inv (M : Mach K) (hM : MachOk M) (s t : State K n mc m) (op : Op K n mc m)
    (hi : Inv s) (hok : OpOk s op) (h : applyOp M s op = some t) : Inv t := by
  cases op with
  | step dir ap ad mu kappa =>
    obtain ⟨hdir, hmu, hk⟩ := hok
    simp only [applyOp, Option.bind_eq_bind, Option.bind_eq_some_iff] at h
    obtain ⟨r, hr, ht⟩ := h
    have ht := Option.some.inj ht
    have hs := computeSafeSlacks_ok M hM s.b hi.pat _ _ mu hmu r hr
    set b' := if r.1 > 0 then adjustBounds s.b r.2 else s.b with hb'
    have e1 : b'.ixl = s.b.ixl := by rw [hb']; split_ifs <;> rfl
    have e2 : b'.ixu = s.b.ixu := by rw [hb']; split_ifs <;> rfl
    have e3 : b'.idl = s.b.idl := by rw [hb']; split_ifs <;> rfl
    have e4 : b'.idu = s.b.idu := by rw [hb']; split_ifs <;> rfl
    have hl := linearDualsUpdate_ok b' s.it r.2 dir ap ad mu kappa hmu hk
      (slacksOk_congr e1 e2 e3 e4 hs)
      ⟨e1 ▸ hi.duals.zl, e2 ▸ hi.duals.zu, e3 ▸ hi.duals.vl, e4 ▸ hi.duals.vu⟩
      ⟨e1 ▸ hdir.zl, e2 ▸ hdir.zu, e3 ▸ hdir.vl, e4 ▸ hdir.vu⟩
    rw [← ht]
    exact ⟨⟨e1 ▸ hi.pat.ixl, e2 ▸ hi.pat.ixu, e3 ▸ hi.pat.idl, e4 ▸ hi.pat.idu⟩, hl.1, hl.2⟩
  | restore x d dir tau mu0 =>
    obtain ⟨hdir, ht0, ht1, hmu⟩ := hok
    simp only [applyOp, Option.bind_eq_bind, Option.bind_eq_some_iff] at h
    obtain ⟨r, hr, ht⟩ := h
    have ht := Option.some.inj ht
    have hs := computeSafeSlacks_ok M hM s.b hi.pat _ _ mu0 hmu r hr
    set b' := if r.1 > 0 then adjustBounds s.b r.2 else s.b with hb'
    have e1 : b'.ixl = s.b.ixl := by rw [hb']; split_ifs <;> rfl
    have e2 : b'.ixu = s.b.ixu := by rw [hb']; split_ifs <;> rfl
    have e3 : b'.idl = s.b.idl := by rw [hb']; split_ifs <;> rfl
    have e4 : b'.idu = s.b.idu := by rw [hb']; split_ifs <;> rfl
    have hf := (C03_iterate_step_lengths s.b s.it dir tau hi.pat hi.slacks hi.duals ht0).2.1
    obtain ⟨f0, f1, c1, c2, c3, c4⟩ := hf
    have key : ∀ {p : ℕ} (z dz w : RVec K p) (a : K), PosOn z w → ZeroOff dz w →
        (∀ i, w i = 1 → (1 - tau) * z i ≤ z i + a * dz i) → PosOn (axpy z a dz) w := by
      intro p z dz w a h1 h2 h3 i
      refine ⟨fun hw => ?_, fun hw => zeroOff_axpy a (zeroOff_of_posOn h1) h2 i hw⟩
      have := h3 i hw
      have := mul_pos (by linarith : (0:K) < 1 - tau) ((h1 i).1 hw)
      simp only [axpy]; linarith
    rw [← ht]
    refine ⟨⟨e1 ▸ hi.pat.ixl, e2 ▸ hi.pat.ixu, e3 ▸ hi.pat.idl, e4 ▸ hi.pat.idu⟩,
      ?_, ⟨?_, ?_, ?_, ?_⟩⟩
    · have := slacksOk_congr e1 e2 e3 e4 hs
      exact ⟨this.sxl, this.sxu, this.sdl, this.sdu⟩
    · have := key _ _ _ _ hi.duals.zl hdir.zl c1
      exact e1 ▸ this
    · have := key _ _ _ _ hi.duals.zu hdir.zu c2
      exact e2 ▸ this
    · have := key _ _ _ _ hi.duals.vl hdir.vl c3
      exact e3 ▸ this
    · have := key _ _ _ _ hi.duals.vu hdir.vu c4
      exact e4 ▸ this
  | soft dir tau mu kappa =>
    obtain ⟨hdir, ht0, ht1, hmu, hk, hm, hsd⟩ := hok
    have ht := Option.some.inj h
    have hf := (C03_iterate_step_lengths s.b s.it dir tau hi.pat hi.slacks hi.duals ht0)
    set a := fractionToTheBdry s.b s.it dir tau with ha
    have a0 : 0 < min a.1 a.2 := lt_min hf.1.1.1 hf.2.1.1
    have key : ∀ {p : ℕ} (x dx sl ds w : RVec K p), PosOn sl w →
        (∀ i, w i = 1 → (1 - tau) * sl i ≤ sl i + a.1 * ds i) →
        ∀ i, w i = 1 → 0 < sl i + min a.1 a.2 * ds i := by
      intro p x dx sl ds w h1 h2 i hw
      have hp := (h1 i).1 hw
      have := h2 i hw
      have hpos := mul_pos (by linarith : (0:K) < 1 - tau) hp
      rcases le_total 0 (ds i) with hds | hds
      · have := mul_nonneg a0.le hds; linarith
      · have := mul_le_mul_of_nonpos_right (min_le_left a.1 a.2) hds; linarith
    obtain ⟨-, -, c1, c2, c3, c4⟩ := hf.1.1
    have hs : SlacksOk s.b (determineSlacks s.b (takeStepPrimals s.it s.it dir (min a.1 a.2))) := by
      refine ⟨fun i => ⟨fun hw => ?_, zeroOff_selectPattern _ _ i⟩,
        fun i => ⟨fun hw => ?_, zeroOff_selectPattern _ _ i⟩,
        fun i => ⟨fun hw => ?_, zeroOff_selectPattern _ _ i⟩,
        fun i => ⟨fun hw => ?_, zeroOff_selectPattern _ _ i⟩⟩
      · have := key s.it.x dir.x _ _ _ hi.slacks.sxl c1 i hw
        rw [hm.sxl i hw, hsd.sxl i hw] at this
        simp only [determineSlacks, takeStepPrimals, Vec.selectPattern, axpy, hw, one_ne_zero,
          if_false]
        linarith
      · have := key s.it.x dir.x _ _ _ hi.slacks.sxu c2 i hw
        rw [hm.sxu i hw, hsd.sxu i hw] at this
        simp only [determineSlacks, takeStepPrimals, Vec.selectPattern, axpy, hw, one_ne_zero,
          if_false]
        linarith
      · have := key s.it.d dir.d _ _ _ hi.slacks.sdl c3 i hw
        rw [hm.sdl i hw, hsd.sdl i hw] at this
        simp only [determineSlacks, takeStepPrimals, Vec.selectPattern, axpy, hw, one_ne_zero,
          if_false]
        linarith
      · have := key s.it.d dir.d _ _ _ hi.slacks.sdu c4 i hw
        rw [hm.sdu i hw, hsd.sdu i hw] at this
        simp only [determineSlacks, takeStepPrimals, Vec.selectPattern, axpy, hw, one_ne_zero,
          if_false]
        linarith
    have hl := linearDualsUpdate_ok s.b s.it _ dir (min a.1 a.2) (min a.1 a.2) mu kappa hmu hk
      hs hi.duals hdir
    rw [← ht]
    exact ⟨hi.pat, hl.1, hl.2⟩
  | elastic nb correct adjust mu kappa =>
    obtain ⟨hmu, hk⟩ := hok
    simp only [applyOp] at h
    set b1 : Bounds K n m := { s.b with xl := nb.xl, xu := nb.xu, dl := nb.dl, du := nb.du }
    have hp1 : Patterns b1 := ⟨hi.pat.ixl, hi.pat.ixu, hi.pat.idl, hi.pat.idu⟩
    cases correct with
    | false =>
      have ht := Option.some.inj h
      rw [← ht]
      exact ⟨hp1, ⟨hi.slacks.sxl, hi.slacks.sxu, hi.slacks.sdl, hi.slacks.sdu⟩,
        ⟨hi.duals.zl, hi.duals.zu, hi.duals.vl, hi.duals.vu⟩⟩
    | true =>
      simp only [if_true, Option.bind_eq_bind, Option.bind_eq_some_iff] at h
      obtain ⟨r, hr, ht⟩ := h
      have hs := computeSafeSlacks_ok M hM b1 hp1 _ _ mu hmu r hr
      obtain ⟨-, -, z1, z2, z3, z4⟩ := computeSafeSlacks_rest M b1 _ _ mu r hr
      have hdo : DualsOk b1 r.2 :=
        ⟨by rw [z1]; exact hi.duals.zl, by rw [z2]; exact hi.duals.zu,
          by rw [z3]; exact hi.duals.vl, by rw [z4]; exact hi.duals.vu⟩
      by_cases hn : r.1 > 0
      · rw [if_pos hn] at ht
        have ht := Option.some.inj ht
        have had := adjustDuals_ok b1 r.2 mu kappa hmu hk hs
          ⟨zeroOff_of_posOn hdo.zl, zeroOff_of_posOn hdo.zu, zeroOff_of_posOn hdo.vl,
            zeroOff_of_posOn hdo.vu⟩
        rw [← ht]
        cases adjust with
        | false => exact ⟨hp1, ⟨hs.sxl, hs.sxu, hs.sdl, hs.sdu⟩, had⟩
        | true =>
          exact ⟨⟨hp1.ixl, hp1.ixu, hp1.idl, hp1.idu⟩, ⟨hs.sxl, hs.sxu, hs.sdl, hs.sdu⟩,
            ⟨had.zl, had.zu, had.vl, had.vu⟩⟩
      · rw [if_neg hn] at ht
        have ht := Option.some.inj ht
        rw [← ht]
        exact ⟨hp1, hs, hdo⟩

/-- **C32.** Along every history of accepted steps, restorations and elastic bound changes,
slacks and bound multipliers stay positive on bounded components and zero on the others. -/
theorem C32_positivity_invariant (M : Mach K) (hM : MachOk M) (s t : State K n mc m)
    (hi : Inv s) (hr : Run M s t) : Inv t := by
  induction hr with
  | refl => exact hi
  | snoc op _ hok h ih => exact step_inv M hM _ _ op ih hok h

/-- **C32.** No replacement ever produces a NaN slack, so every history can continue. -/
theorem C32_steps_defined (M : Mach K) (hM : MachOk M) (s t : State K n mc m)
    (hi : Inv s) (hr : Run M s t) (op : Op K n mc m) : ∃ u, applyOp M t op = some u := by
  have ht := C32_positivity_invariant M hM s t hi hr
  cases op with
  | step dir ap ad mu kappa =>
    obtain ⟨r, h⟩ := computeSafeSlacks_defined M t.b ht.pat
      (takeStepPrimals t.it t.it dir ap) t.it mu ht.duals
    simp only [applyOp, h]; exact ⟨_, rfl⟩
  | restore x d dir tau mu0 =>
    obtain ⟨r, h⟩ := computeSafeSlacks_defined M t.b ht.pat
      { t.it with x := x, d := d } t.it mu0 ht.duals
    simp only [applyOp, h]; exact ⟨_, rfl⟩
  | soft dir tau mu kappa => exact ⟨_, rfl⟩
  | elastic nb correct adjust mu kappa =>
    cases correct with
    | false => exact ⟨_, rfl⟩
    | true =>
      obtain ⟨r, h⟩ := computeSafeSlacks_defined M
        { t.b with xl := nb.xl, xu := nb.xu, dl := nb.dl, du := nb.du }
        ⟨ht.pat.ixl, ht.pat.ixu, ht.pat.idl, ht.pat.idu⟩ t.it t.it mu
        ⟨ht.duals.zl, ht.duals.zu, ht.duals.vl, ht.duals.vu⟩
      simp only [applyOp, if_true, h]
      by_cases hn : r.1 > 0
      · simp only [Option.bind_eq_bind, Option.bind_some, hn, if_true]; exact ⟨_, rfl⟩
      · simp only [Option.bind_eq_bind, Option.bind_some, hn, if_false]; exact ⟨_, rfl⟩

/-- **C32.** The starting procedure establishes the invariant. -/
theorem C32_start_establishes (M : Mach K) (hM : MachOk M) (small k1 k2 mu0 : K)
    (b : Bounds K n m) (hp : Patterns b) (x0 : RVec K n) (dOfX : RVec K n → RVec K m)
    (yc0 : RVec K mc) (yd0 : RVec K m) (hmu : 0 < mu0) (s : State K n mc m)
    (h : start M small k1 k2 mu0 b x0 dOfX yc0 yd0 = .ok s) : Inv s ∧ SlacksMatch s.b s.it := by
  unfold start at h
  simp only at h
  split at h
  · simp at h
  · split at h
    · simp at h
    · split at h
      · simp at h
      · rename_i _ it1 _ _ it2 _ _ r hr
        injection h with h
        have hs := computeSafeSlacks_ok M hM b hp _ _ mu0 hmu r hr
        have hone : ∀ {p : ℕ} (w : RVec K p), IsPattern w → PosOn (setToConstantSel 1 w) w := by
          intro p w hw i
          constructor
          · intro hi; simp [setToConstantSel, hi]
          · intro hi; simp [setToConstantSel, hi]
        rw [← h]
        by_cases hn : r.1 > 0
        · simp only [hn, if_true]
          refine ⟨⟨⟨hp.ixl, hp.ixu, hp.idl, hp.idu⟩, ⟨hs.sxl, hs.sxu, hs.sdl, hs.sdu⟩,
            ⟨hone _ hp.ixl, hone _ hp.ixu, hone _ hp.idl, hone _ hp.idu⟩⟩, ?_⟩
          have := (C06_adjusted_bounds_match b r.2).1
          exact ⟨this.sxl, this.sxu, this.sdl, this.sdu⟩
        · simp only [hn, if_false]
          refine ⟨⟨hp, ⟨hs.sxl, hs.sxu, hs.sdl, hs.sdu⟩,
            ⟨hone _ hp.ixl, hone _ hp.ixu, hone _ hp.idl, hone _ hp.idu⟩⟩, ?_⟩
          have := computeSafeSlacks_match M hM b hp _ _ mu0 hmu r hr (by omega)
          exact ⟨this.sxl, this.sxu, this.sdl, this.sdu⟩

/-- Replacements after which slacks are recomputed from (possibly moved) bounds: everything
except the elastic modes that leave the slacks inconsistent on purpose. -/
def KeepsMatch : Op K n mc m → Prop
  | .elastic _ correct adjust _ _ => correct = true ∧ adjust = true
  | _ => True

/-- **C32.** After every replacement other than the elastic modes `tighten_bound` and
`correct_it`, the slacks are exactly the distances of the primal variables to the bounds held
by the problem. -/
theorem C32_slacks_match_bounds (M : Mach K) (hM : MachOk M) (s t : State K n mc m)
    (op : Op K n mc m) (hi : Inv s) (hok : OpOk s op) (hk : KeepsMatch op)
    (h : applyOp M s op = some t) : SlacksMatch t.b t.it := by
  cases op with
  | step dir ap ad mu kappa =>
    obtain ⟨hdir, hmu, -⟩ := hok
    simp only [applyOp, Option.bind_eq_bind, Option.bind_eq_some_iff] at h
    obtain ⟨r, hr, ht⟩ := h
    have ht := Option.some.inj ht
    rw [← ht]
    by_cases hn : r.1 > 0
    · simp only [hn, if_true]
      have := (C06_adjusted_bounds_match s.b r.2).1
      exact ⟨this.sxl, this.sxu, this.sdl, this.sdu⟩
    · simp only [hn, if_false]
      have := computeSafeSlacks_match M hM s.b hi.pat _ _ mu hmu r hr (by omega)
      exact ⟨this.sxl, this.sxu, this.sdl, this.sdu⟩
  | restore x d dir tau mu0 =>
    obtain ⟨hdir, -, -, hmu⟩ := hok
    simp only [applyOp, Option.bind_eq_bind, Option.bind_eq_some_iff] at h
    obtain ⟨r, hr, ht⟩ := h
    have ht := Option.some.inj ht
    rw [← ht]
    by_cases hn : r.1 > 0
    · simp only [hn, if_true]
      have := (C06_adjusted_bounds_match s.b r.2).1
      exact ⟨this.sxl, this.sxu, this.sdl, this.sdu⟩
    · simp only [hn, if_false]
      have := computeSafeSlacks_match M hM s.b hi.pat _ _ mu0 hmu r hr (by omega)
      exact ⟨this.sxl, this.sxu, this.sdl, this.sdu⟩
  | soft dir tau mu kappa =>
    have ht := Option.some.inj h
    rw [← ht]
    refine ⟨?_, ?_, ?_, ?_⟩ <;>
      · intro i hw
        simp only at hw
        simp [linearDualsUpdate, adjustDuals, takeStepDuals, determineSlacks, takeStepPrimals,
          Vec.selectPattern, axpy, hw, sub_eq_add_neg]
  | elastic nb correct adjust mu kappa =>
    obtain ⟨hmu, -⟩ := hok
    obtain ⟨rfl, rfl⟩ := hk
    simp only [applyOp, if_true, Option.bind_eq_bind, Option.bind_eq_some_iff] at h
    obtain ⟨r, hr, ht⟩ := h
    by_cases hn : r.1 > 0
    · rw [if_pos hn] at ht
      have ht := Option.some.inj ht
      rw [← ht]
      have := (C06_adjusted_bounds_match
        { s.b with xl := nb.xl, xu := nb.xu, dl := nb.dl, du := nb.du } r.2).1
      exact ⟨this.sxl, this.sxu, this.sdl, this.sdu⟩
    · rw [if_neg hn] at ht
      have ht := Option.some.inj ht
      rw [← ht]
      have := computeSafeSlacks_match M hM
        { s.b with xl := nb.xl, xu := nb.xu, dl := nb.dl, du := nb.du }
        ⟨hi.pat.ixl, hi.pat.ixu, hi.pat.idl, hi.pat.idu⟩ s.it s.it mu hmu r hr (by omega)
      exact ⟨this.sxl, this.sxu, this.sdl, this.sdu⟩

end Hiop.Iterate
