import Verif.Iterate.Props

/-!
# Property C39: what an accepted step does
-/

set_option linter.unusedSectionVars false

namespace Hiop.Iterate

open Hiop.Vec

variable {K : Type*} [Field K] [LinearOrder K] [IsStrictOrderedRing K] {n mc m : ℕ}

/-- `new` is the point nearest to `old + a*dir` for which complementarity with `slack` stays within
the factor `kappa` of `mu`, on the bounded components (specification). -/
def SafeguardedStep (sel old dir new slack : RVec K n) (a mu kappa : K) : Prop :=
  ∀ i, sel i = 1 → IsNearest {w | mu / kappa ≤ w * slack i ∧ w * slack i ≤ kappa * mu}
    (old i + a * dir i) (new i)

/-- Every bound of `b'` is at or outside the corresponding bound of `b` (specification). -/
structure Wider (b b' : Bounds K n m) : Prop where
  xl : ∀ i, b'.xl i ≤ b.xl i
  xu : ∀ i, b.xu i ≤ b'.xu i
  dl : ∀ i, b'.dl i ≤ b.dl i
  du : ∀ i, b.du i ≤ b'.du i
  ixl : b'.ixl = b.ixl
  ixu : b'.ixu = b.ixu
  idl : b'.idl = b.idl
  idu : b'.idu = b.idu

theorem Wider.refl (b : Bounds K n m) : Wider b b :=
  ⟨fun _ => le_rfl, fun _ => le_rfl, fun _ => le_rfl, fun _ => le_rfl, rfl, rfl, rfl, rfl⟩

theorem Wider.trans {b b' b'' : Bounds K n m} (h : Wider b b') (h' : Wider b' b'') :
    Wider b b'' :=
  ⟨fun i => (h'.xl i).trans (h.xl i), fun i => (h.xu i).trans (h'.xu i),
   fun i => (h'.dl i).trans (h.dl i), fun i => (h.du i).trans (h'.du i),
   h'.ixl.trans h.ixl, h'.ixu.trans h.ixu, h'.idl.trans h.idl, h'.idu.trans h.idu⟩

/-- Slacks after the correction: not smaller than the distances to the old bounds, and larger than
their nonnegative part by at most `c*max(1,|bound|)`. -/
theorem safeSlacks_range (M : Mach K) (hM : MachOk M) (b : Bounds K n m) (hp : Patterns b)
    (it cur : It K n mc m) (mu : K) (hmu : 0 < mu)
    (r : ℕ × It K n mc m) (h : computeSafeSlacks M b it cur mu = some r) :
    (∀ i, b.ixl i = 1 → it.x i - b.xl i ≤ r.2.sxl i ∧
      r.2.sxl i ≤ max (it.x i - b.xl i) 0 + M.scaleFact * max 1 |b.xl i|) ∧
    (∀ i, b.ixu i = 1 → b.xu i - it.x i ≤ r.2.sxu i ∧
      r.2.sxu i ≤ max (b.xu i - it.x i) 0 + M.scaleFact * max 1 |b.xu i|) ∧
    (∀ i, b.idl i = 1 → it.d i - b.dl i ≤ r.2.sdl i ∧
      r.2.sdl i ≤ max (it.d i - b.dl i) 0 + M.scaleFact * max 1 |b.dl i|) ∧
    (∀ i, b.idu i = 1 → b.du i - it.d i ≤ r.2.sdu i ∧
      r.2.sdu i ≤ max (b.du i - it.d i) 0 + M.scaleFact * max 1 |b.du i|) := by
  obtain ⟨r1, r2, r3, r4, h1, h2, h3, h4, rfl⟩ := computeSafeSlacks_cases M b it cur mu r h
  have k1 := C06_small_slack_bounds M _ _ _ _ mu hp.ixl (zeroOff_selectPattern _ _) hM.eps
      hM.scaleFact hmu r1.1 r1.2 h1
  have k2 := C06_small_slack_bounds M _ _ _ _ mu hp.ixu (zeroOff_selectPattern _ _) hM.eps
      hM.scaleFact hmu r2.1 r2.2 h2
  have k3 := C06_small_slack_bounds M _ _ _ _ mu hp.idl (zeroOff_selectPattern _ _) hM.eps
      hM.scaleFact hmu r3.1 r3.2 h3
  have k4 := C06_small_slack_bounds M _ _ _ _ mu hp.idu (zeroOff_selectPattern _ _) hM.eps
      hM.scaleFact hmu r4.1 r4.2 h4
  refine ⟨fun i hi => ?_, fun i hi => ?_, fun i hi => ?_, fun i hi => ?_⟩
  · have a := k1.2.1 i; have c := k1.2.2 i
    simp only [Vec.selectPattern, axpy, hi] at a c
    simpa [sub_eq_add_neg] using And.intro a c
  · have a := k2.2.1 i; have c := k2.2.2 i
    simp only [Vec.selectPattern, axpy, hi] at a c
    simpa [sub_eq_add_neg] using And.intro a c
  · have a := k3.2.1 i; have c := k3.2.2 i
    simp only [Vec.selectPattern, axpy, hi] at a c
    simpa [sub_eq_add_neg] using And.intro a c
  · have a := k4.2.1 i; have c := k4.2.2 i
    simp only [Vec.selectPattern, axpy, hi] at a c
    simpa [sub_eq_add_neg] using And.intro a c

theorem adjustBounds_wider (M : Mach K) (hM : MachOk M) (b : Bounds K n m) (hp : Patterns b)
    (it cur : It K n mc m) (mu : K) (hmu : 0 < mu)
    (r : ℕ × It K n mc m) (h : computeSafeSlacks M b it cur mu = some r) :
    Wider b (if r.1 > 0 then adjustBounds b r.2 else b) := by
  by_cases hn : r.1 > 0
  · rw [if_pos hn]
    obtain ⟨a1, a2, a3, a4⟩ := safeSlacks_range M hM b hp it cur mu hmu r h
    obtain ⟨e1, e2, -⟩ := computeSafeSlacks_rest M b it cur mu r h
    obtain ⟨sm, i1, i2, i3, i4, o1, o2, o3, o4⟩ := C06_adjusted_bounds_match b r.2
    refine ⟨fun i => ?_, fun i => ?_, fun i => ?_, fun i => ?_, i1, i2, i3, i4⟩
    · by_cases hi : b.ixl i = 1
      · have := sm.sxl i (by rw [i1]; exact hi)
        have := (a1 i hi).1
        rw [← e1] at this; linarith
      · rw [o1 i hi]
    · by_cases hi : b.ixu i = 1
      · have := sm.sxu i (by rw [i2]; exact hi)
        have := (a2 i hi).1
        rw [← e1] at this; linarith
      · rw [o2 i hi]
    · by_cases hi : b.idl i = 1
      · have := sm.sdl i (by rw [i3]; exact hi)
        have := (a3 i hi).1
        rw [← e2] at this; linarith
      · rw [o3 i hi]
    · by_cases hi : b.idu i = 1
      · have := sm.sdu i (by rw [i4]; exact hi)
        have := (a4 i hi).1
        rw [← e2] at this; linarith
      · rw [o4 i hi]
  · rw [if_neg hn]; exact Wider.refl b

/-- **C39.** An accepted step along `dir` with step lengths `ap`, `ad`: the primal variables and the
constraint multipliers move by exactly `ap` times the direction; each bound multiplier moves by `ad`
times the direction and is then moved as little as possible so that its product with the slack is
within a factor `kappa` of `mu`; the solver's bounds are never tightened, and where they are moved
the new slack exceeds the nonnegative part of the distance to the old bound by at most
`c*max(1,|bound|)`. -/
theorem C39_step (M : Mach K) (hM : MachOk M) (s t : State K n mc m) (dir : It K n mc m)
    (ap ad mu kappa : K) (hi : Inv s) (hmu : 0 < mu) (hk : 1 ≤ kappa)
    (h : applyOp M s (.step dir ap ad mu kappa) = some t) :
    (∀ i, t.it.x i = s.it.x i + ap * dir.x i) ∧ (∀ i, t.it.d i = s.it.d i + ap * dir.d i) ∧
    (∀ i, t.it.yc i = s.it.yc i + ap * dir.yc i) ∧
    (∀ i, t.it.yd i = s.it.yd i + ap * dir.yd i) ∧
    SafeguardedStep s.b.ixl s.it.zl dir.zl t.it.zl t.it.sxl ad mu kappa ∧
    SafeguardedStep s.b.ixu s.it.zu dir.zu t.it.zu t.it.sxu ad mu kappa ∧
    SafeguardedStep s.b.idl s.it.vl dir.vl t.it.vl t.it.sdl ad mu kappa ∧
    SafeguardedStep s.b.idu s.it.vu dir.vu t.it.vu t.it.sdu ad mu kappa ∧
    Wider s.b t.b ∧
    (∀ i, s.b.ixl i = 1 →
      t.it.sxl i ≤ max (t.it.x i - s.b.xl i) 0 + M.scaleFact * max 1 |s.b.xl i|) ∧
    (∀ i, s.b.ixu i = 1 →
      t.it.sxu i ≤ max (s.b.xu i - t.it.x i) 0 + M.scaleFact * max 1 |s.b.xu i|) ∧
    (∀ i, s.b.idl i = 1 →
      t.it.sdl i ≤ max (t.it.d i - s.b.dl i) 0 + M.scaleFact * max 1 |s.b.dl i|) ∧
    (∀ i, s.b.idu i = 1 →
      t.it.sdu i ≤ max (s.b.du i - t.it.d i) 0 + M.scaleFact * max 1 |s.b.du i|) := by
  simp only [applyOp, Option.bind_eq_bind, Option.bind_eq_some_iff] at h
  obtain ⟨r, hr, ht⟩ := h
  have hw := adjustBounds_wider M hM s.b hi.pat _ _ mu hmu r hr
  have hs := computeSafeSlacks_ok M hM s.b hi.pat _ _ mu hmu r hr
  obtain ⟨a1, a2, a3, a4⟩ := safeSlacks_range M hM s.b hi.pat _ _ mu hmu r hr
  obtain ⟨e1, e2, -⟩ := computeSafeSlacks_rest M s.b _ _ mu r hr
  have ht := Option.some.inj ht
  subst ht
  have ex : ∀ i, r.2.x i = s.it.x i + ap * dir.x i := fun i => by
    rw [e1]; simp [takeStepPrimals, axpy]
  have ed : ∀ i, r.2.d i = s.it.d i + ap * dir.d i := fun i => by
    rw [e2]; simp [takeStepPrimals, axpy]
  have key : ∀ {p : ℕ} (sel old dd slack : RVec K p), (∀ i, sel i = 1 → 0 < slack i) →
      SafeguardedStep sel old dd (adjustDualsPlh (axpy old ad dd) slack sel mu kappa) slack
        ad mu kappa := by
    intro p sel old dd slack hpos i hsel
    exact (C05_dual_safeguard (axpy old ad dd) slack sel mu kappa hk hmu hpos i).1 hsel
  refine ⟨ex, ed, fun _ => rfl, fun _ => rfl, ?_, ?_, ?_, ?_, hw, fun i hsel => ?_,
    fun i hsel => ?_, fun i hsel => ?_, fun i hsel => ?_⟩
  · have := key s.b.ixl s.it.zl dir.zl r.2.sxl (fun i hh => (hs.sxl i).1 hh)
    simp only [linearDualsUpdate, adjustDuals, takeStepDuals, hw.ixl]; exact this
  · have := key s.b.ixu s.it.zu dir.zu r.2.sxu (fun i hh => (hs.sxu i).1 hh)
    simp only [linearDualsUpdate, adjustDuals, takeStepDuals, hw.ixu]; exact this
  · have := key s.b.idl s.it.vl dir.vl r.2.sdl (fun i hh => (hs.sdl i).1 hh)
    simp only [linearDualsUpdate, adjustDuals, takeStepDuals, hw.idl]; exact this
  · have := key s.b.idu s.it.vu dir.vu r.2.sdu (fun i hh => (hs.sdu i).1 hh)
    simp only [linearDualsUpdate, adjustDuals, takeStepDuals, hw.idu]; exact this
  · have := (a1 i hsel).2; rw [← e1] at this; exact this
  · have := (a2 i hsel).2; rw [← e1] at this; exact this
  · have := (a3 i hsel).2; rw [← e2] at this; exact this
  · have := (a4 i hsel).2; rw [← e2] at this; exact this

/-- A history without elastic-mode bound changes. -/
inductive PlainRun (M : Mach K) : State K n mc m → State K n mc m → Prop
  | refl (s) : PlainRun M s s
  | snoc {s t u} (op : Op K n mc m) (hop : ∀ nb c a mu k, op ≠ .elastic nb c a mu k) :
      PlainRun M s t → OpOk t op → applyOp M t op = some u → PlainRun M s u

theorem PlainRun.toRun {M : Mach K} {s t : State K n mc m} (h : PlainRun M s t) : Run M s t := by
  induction h with
  | refl => exact .refl _
  | snoc op _ _ h1 h2 ih => exact .snoc op ih h1 h2

/-- **C39.** Over any history without elastic mode the solver's bounds are only ever widened. -/
theorem C39_bounds_only_widen (M : Mach K) (hM : MachOk M) (s t : State K n mc m) (hi : Inv s)
    (hr : PlainRun M s t) : Wider s.b t.b := by
  induction hr with
  | refl => exact Wider.refl _
  | @snoc t u op hop hst hok happ ih =>
    have hit : Inv t := C32_positivity_invariant M hM s t hi hst.toRun
    refine ih.trans ?_
    cases op with
    | step dir ap ad mu kappa =>
      exact (C39_step M hM t u dir ap ad mu kappa hit hok.2.1 hok.2.2 happ).2.2.2.2.2.2.2.2.1
    | restore x d dir tau mu0 =>
      simp only [applyOp, Option.bind_eq_bind, Option.bind_eq_some_iff] at happ
      obtain ⟨r, hr, ht⟩ := happ
      have hw := adjustBounds_wider M hM t.b hit.pat _ _ mu0 hok.2.2.2 r hr
      have ht := Option.some.inj ht
      subst ht
      exact hw
    | soft dir tau mu kappa =>
      have ht := Option.some.inj happ
      subst ht
      exact Wider.refl _
    | elastic nb c a mu k => exact absurd rfl (hop nb c a mu k)

-- Non-vacuity: a state with a two-sided variable satisfying the invariant, from which a step that
-- crosses the lower bound is taken.
example : ∃ (s t : State ℚ 1 0 0) (dir : It ℚ 1 0 0), Inv s ∧
    applyOp ⟨1/1000, 1/100, 1000⟩ s (.step dir 1 1 (1/10) 10) = some t ∧ t.it.x 0 = -1 ∧
    t.b.xl 0 < s.b.xl 0 := by
  let e : RVec ℚ 0 := fun i => i.elim0
  let b : Bounds ℚ 1 0 := ⟨fun _ => 0, fun _ => 2, fun _ => 1, fun _ => 1, e, e, e, e⟩
  let it : It ℚ 1 0 0 := ⟨fun _ => 1, e, fun _ => 1, fun _ => 1, e, e, e, e, fun _ => 1, fun _ => 1, e, e⟩
  let dir : It ℚ 1 0 0 := ⟨fun _ => -2, e, fun _ => 0, fun _ => 0, e, e, e, e, fun _ => 0, fun _ => 0, e, e⟩
  have hinv : Inv (⟨b, it⟩ : State ℚ 1 0 0) := by
    refine ⟨⟨?_, ?_, ?_, ?_⟩, ⟨?_, ?_, ?_, ?_⟩, ⟨?_, ?_, ?_, ?_⟩⟩
    all_goals first
      | exact fun i => i.elim0
      | exact fun _ => Or.inr rfl
      | exact fun _ => ⟨fun _ => one_pos, fun h => absurd h one_ne_zero⟩
  have hM : MachOk (⟨1/1000, 1/100, 1000⟩ : Mach ℚ) := ⟨by norm_num, by norm_num⟩
  obtain ⟨t, ht⟩ := C32_steps_defined _ hM _ _ hinv (.refl _) (.step dir 1 1 (1/10) 10)
  have hok : OpOk (⟨b, it⟩ : State ℚ 1 0 0) (.step dir 1 1 (1/10) 10) :=
    ⟨⟨fun _ h => absurd h one_ne_zero, fun _ h => absurd h one_ne_zero, fun i => i.elim0,
      fun i => i.elim0⟩, by norm_num, by norm_num⟩
  have hx := (C39_step _ hM _ t dir 1 1 (1/10) 10 hinv (by norm_num) (by norm_num) ht).1 0
  have hx' : t.it.x 0 = -1 := by rw [hx]; norm_num [it, dir]
  have hm := C32_slacks_match_bounds _ hM _ t _ hinv hok trivial ht
  have hw := (C39_step _ hM _ t dir 1 1 (1/10) 10 hinv (by norm_num) (by norm_num) ht).2.2.2.2.2.2.2.2.1
  have hti := step_inv _ hM _ t _ hinv hok ht
  have h1 : t.b.ixl 0 = 1 := by rw [hw.ixl]
  refine ⟨_, t, dir, hinv, ht, hx', ?_⟩
  have := hm.sxl 0 h1
  have := (hti.slacks.sxl 0).1 h1
  change t.b.xl 0 < 0
  linarith

end Hiop.Iterate
