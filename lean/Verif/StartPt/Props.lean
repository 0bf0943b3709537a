import Verif.StartPt.Model
import Verif.Iterate.Start
import Mathlib.Tactic.FinCases
import Mathlib.Tactic.Linarith
import Mathlib.Data.Real.Basic

/-!
# C88: the solver starts from the point the user provides

The specification is in `Inside` (a point away from its bounds), `Room` (the slacks are not too small to be kept) and in the
statements, which name the user's arrays.
-/

set_option linter.unusedSectionVars false

namespace Hiop.StartPt

open Hiop.Vec Hiop.Iterate

variable {K : Type*} [Field K] [LinearOrder K] [IsStrictOrderedRing K] {N n mc m M p : ℕ}

/-! ## Specification -/

/-- `x` keeps the margins of the options `kappa1` (relative to the bound) or, between two bounds, `kappa2` (relative to
their distance). -/
def Inside (small k1 k2 : K) (x l il u iu : RVec K p) : Prop :=
  ∀ i, (il i = 1 → l i + k1 * max 1 |l i| ≤ x i ∨ (iu i = 1 ∧ l i + k2 * (u i - l i) ≤ x i)) ∧
    (iu i = 1 → x i + k1 * max 1 |u i| + small ≤ u i ∨ (il i = 1 ∧ x i + k2 * (u i - l i) ≤ u i))

/-- The distances to the bounds are at least `t`. -/
def Room (t : K) (x l il u iu : RVec K p) : Prop :=
  ∀ i, (il i = 1 → t ≤ x i - l i) ∧ (iu i = 1 → t ≤ u i - x i)

/-! ## Pieces -/

theorem project_inside (small k1 k2 : K) (x l il u iu : RVec K p) (hs : 0 ≤ small) (hl : IsPattern il) (hu : IsPattern iu)
    (hc : ∀ i, il i = 1 → iu i = 1 → l i ≤ u i) (h : Inside small k1 k2 x l il u iu) :
    projectIntoBounds small k1 k2 x l il u iu = (true, x) := by
  have hcomp : ∀ i, projComp small k1 k2 (x i) (l i) (il i) (u i) (iu i) = some (x i) := by
    intro i
    obtain ⟨h1, h2⟩ := h i
    unfold projComp
    rcases hl i with a | a <;> rcases hu i with c | c
    · simp [a, c]
    · rcases h2 c with h2 | h2
      · rw [if_neg (by simp [a]), if_neg (by simp [a]), if_pos (by simp [c])]
        rw [min_eq_left (by linarith)]
      · exact absurd (h2.1.symm.trans a) one_ne_zero
    · rcases h1 a with h1 | h1
      · rw [if_neg (by simp [c]), if_pos (by simp [a])]
        rw [max_eq_left (by linarith)]
      · exact absurd (h1.1.symm.trans c) one_ne_zero
    · rw [if_pos (by simp [a, c]), if_neg (not_lt.mpr (hc i a c))]
      have e1 : ¬ x i < l i + min (k1 * max 1 |l i|) (k2 * (u i - l i) - small) := by
        rw [not_lt]
        rcases h1 a with h1 | h1
        · exact le_trans (by linarith [min_le_left (k1 * max 1 |l i|) (k2 * (u i - l i) - small)]) h1
        · exact le_trans (by linarith [min_le_right (k1 * max 1 |l i|) (k2 * (u i - l i) - small)]) h1.2
      have e2 : ¬ x i > u i - min (k1 * max 1 |u i|) (k2 * (u i - l i) - small) := by
        rw [gt_iff_lt, not_lt]
        rcases h2 c with h2 | h2
        · linarith [min_le_left (k1 * max 1 |u i|) (k2 * (u i - l i) - small)]
        · linarith [min_le_right (k1 * max 1 |u i|) (k2 * (u i - l i) - small), h2.2]
      simp only [if_neg e1, if_neg e2]
  have ht : (projectIntoBounds small k1 k2 x l il u iu).1 = true := by
    rw [projectIntoBounds_true_iff]
    intro i
    rw [hcomp i]
    rfl
  refine Prod.ext ht (funext fun i => ?_)
  have := projectIntoBounds_comp small k1 k2 x l il u iu ht i
  rw [hcomp i] at this
  exact (Option.some.inj this).symm

theorem adjustVec_room (Mc : Mach K) (slack bound dual sel : RVec K p) (mu : K)
    (hmax : tiny Mc mu ≤ Mc.dblMax) (h : ∀ i, sel i = 1 → tiny Mc mu ≤ slack i) :
    adjustSmallSlacksVec Mc slack bound dual sel mu = some (0, slack) := by
  unfold adjustSmallSlacksVec
  by_cases hp : p > 0
  · have hm : ¬ minSel Mc.dblMax slack sel < Mc.eps * min 1 mu := by
      rw [not_lt]
      obtain ⟨h1, h2, h3⟩ := minSel_char Mc.dblMax slack sel
      rcases h3 with h3 | ⟨i, hi, h3⟩
      · rw [h3]; exact hmax
      · rw [h3]; exact h i hi
    simp only [if_pos hp, if_neg hm]
  · simp only [if_neg hp]

theorem safeSlacks_room (Mc : Mach K) (b : Bounds K n m) (it : It K n mc m) (mu : K) (hmax : tiny Mc mu ≤ Mc.dblMax)
    (hx : Room (tiny Mc mu) it.x b.xl b.ixl b.xu b.ixu) (hd : Room (tiny Mc mu) it.d b.dl b.idl b.du b.idu) :
    computeSafeSlacks Mc b it it mu = some (0, determineSlacks b it) := by
  unfold computeSafeSlacks adjustSmallSlacks
  rw [adjustVec_room Mc _ _ _ _ mu hmax (fun i hi => by
      simpa [determineSlacks, Vec.selectPattern, axpy, hi, sub_eq_add_neg] using (hx i).1 hi),
    adjustVec_room Mc _ _ _ _ mu hmax (fun i hi => by
      simpa [determineSlacks, Vec.selectPattern, axpy, hi, sub_eq_add_neg] using (hx i).2 hi),
    adjustVec_room Mc _ _ _ _ mu hmax (fun i hi => by
      simpa [determineSlacks, Vec.selectPattern, axpy, hi, sub_eq_add_neg] using (hd i).1 hi),
    adjustVec_room Mc _ _ _ _ mu hmax (fun i hi => by
      simpa [determineSlacks, Vec.selectPattern, axpy, hi, sub_eq_add_neg] using (hd i).2 hi)]
  rfl

/-- Lower bounds do not exceed upper bounds. -/
structure Consistent (b : Bounds K n m) : Prop where
  x : ∀ i, b.ixl i = 1 → b.ixu i = 1 → b.xl i ≤ b.xu i
  d : ∀ i, b.idl i = 1 → b.idu i = 1 → b.dl i ≤ b.du i

/-- What the user is handed before `get_starting_point` or `get_warmstart_point`. -/
def handed (S : Space K N n) (out : RVec K N) (junk : RVec K M) (it : It K n mc m) : Buf K N m M :=
  ⟨S.expand it.x, pad out it.zl, pad out it.zu, junk, it.d, it.vl, it.vu⟩

/-- The user left the memory behind the solver's arrays alone (always so when no variable is removed). -/
def Stays (n : ℕ) (a b : Buf K N m M) : Prop :=
  ∀ i : Fin N, n ≤ i.1 → b.zl i = a.zl i ∧ b.zu i = a.zu i

theorem stays_same (a b : Buf K n m M) : Stays n a b := fun i hi => absurd i.isLt (not_lt.mpr hi)

theorem not_overrun {a b : Buf K N m M} (h : Stays n a b) : ¬ (overrun n a.zl b.zl ∨ overrun n a.zu b.zu) := by
  rintro (⟨i, hi, hne⟩ | ⟨i, hi, hne⟩)
  · exact hne (h i hi).1
  · exact hne (h i hi).2

/-! ## The user's point is kept -/

/-- **C88, primal-dual point.** A user who provides a point, multipliers and slacks that keep the margins to the bounds gets
exactly these as the first iterate: no entry of the point, of the multipliers or of the slacks of the inequalities is
changed, the bounds are not moved, the slacks are the distances to the bounds, and the multipliers of the inequality bounds
(not asked for) are `mu0` divided by the slacks. -/
theorem C88_primal_dual_partial (P : Par K n mc m) (b : Bounds K n m) (hp : Patterns b) (hc : Consistent b)
    (dOfX : RVec K n → RVec K m) (S : Space K N n) (U : User K N m M) (ceq : Fin mc → Fin M) (cineq : Fin m → Fin M)
    (out : RVec K N) (junk : RVec K M) (it : It K n mc m) (u : Buf K N m M)
    (hu : U.full (handed S out junk it) = (u, true, true, true)) (hst : Stays n (handed S out junk it) u)
    (hs : 0 ≤ P.small) (hmax : tiny P.mach P.mu0 ≤ P.mach.dblMax)
    (hx : Inside P.small P.kappa1 P.kappa2 (fun j => u.x (S.keep j)) b.xl b.ixl b.xu b.ixu)
    (hd : Inside P.small P.kappa1 P.kappa2 u.d b.dl b.idl b.du b.idu)
    (rx : Room (tiny P.mach P.mu0) (fun j => u.x (S.keep j)) b.xl b.ixl b.xu b.ixu)
    (rd : Room (tiny P.mach P.mu0) u.d b.dl b.idl b.du b.idu) :
    ∃ s, start P b dOfX S U ceq cineq out junk false it = .ok s ∧ s.b = b ∧
      (∀ j, s.it.x j = u.x (S.keep j)) ∧ (∀ i, s.it.d i = u.d i) ∧
      (∀ i, s.it.yc i = u.lam (ceq i)) ∧ (∀ i, s.it.yd i = u.lam (cineq i)) ∧
      (∀ j, s.it.zl j = u.zl (Fin.castLE S.le j)) ∧ (∀ j, s.it.zu j = u.zu (Fin.castLE S.le j)) ∧
      SlacksMatch b s.it ∧
      (∀ i, s.it.vl i = if b.idl i = 1 then P.mu0 / (u.d i - b.dl i) else 0) ∧
      (∀ i, s.it.vu i = if b.idu i = 1 then P.mu0 / (b.du i - u.d i) else 0) := by
  have hx' := project_inside _ _ _ _ _ _ _ _ hs hp.ixl hp.ixu hc.x hx
  have hd' := project_inside _ _ _ _ _ _ _ _ hs hp.idl hp.idu hc.d hd
  have hno := not_overrun hst
  have hu' : U.full ⟨S.expand it.x, pad out it.zl, pad out it.zu, junk, it.d, it.vl, it.vu⟩ = (u, true, true, true) := hu
  refine ⟨⟨b, determineDualsBoundsD b (determineSlacks b
    { it with x := fun j => u.x (S.keep j), d := u.d, zl := S.take u.zl, zu := S.take u.zu,
              yc := fun i => u.lam (ceq i), yd := fun i => u.lam (cineq i) }) P.mu0⟩, ?_, rfl, fun _ => rfl, fun _ => rfl,
    fun _ => rfl, fun _ => rfl, fun _ => rfl, fun _ => rfl, ?_, ?_, ?_⟩
  · have hf : getStart S U ceq cineq out junk it = some ⟨true, true, true,
        { it with x := fun j => u.x (S.keep j), d := u.d, zl := S.take u.zl, zu := S.take u.zu,
                  yc := fun i => u.lam (ceq i), yd := fun i => u.lam (cineq i) }⟩ := by
      unfold getStart
      simp only [hu', if_true]
      exact if_neg (by rw [hu']; exact hno)
    unfold start
    simp only [Bool.false_eq_true, if_false, hf]
    simp only [proceed, projectPrimalsX, projectPrimalsD, Bool.and_false, Bool.and_true, if_true, Bool.false_eq_true,
      if_false, hx', hd']
    unfold finish
    rw [safeSlacks_room P.mach b _ P.mu0 hmax rx rd]
    simp
  · refine ⟨fun i hi => ?_, fun i hi => ?_, fun i hi => ?_, fun i hi => ?_⟩ <;>
      simp [determineDualsBoundsD, determineSlacks, Vec.selectPattern, axpy, hi, sub_eq_add_neg]
  · intro i
    rcases hp.idl i with a | a <;>
      simp [determineDualsBoundsD, determineSlacks, Vec.selectPattern, axpy, componentDivSel, a, sub_eq_add_neg]
  · intro i
    rcases hp.idu i with a | a <;>
      simp [determineDualsBoundsD, determineSlacks, Vec.selectPattern, axpy, componentDivSel, a, sub_eq_add_neg]

/-- **C88, warm start.** With `warm_start` a user who implements `get_warmstart_point` gets exactly the arrays provided as
the first iterate, projected nowhere, as soon as the distances to the bounds exceed the smallest slack allowed. -/
theorem C88_warm_start_partial (P : Par K n mc m) (b : Bounds K n m)
    (dOfX : RVec K n → RVec K m) (S : Space K N n) (U : User K N m M) (ceq : Fin mc → Fin M) (cineq : Fin m → Fin M)
    (out : RVec K N) (junk : RVec K M) (it : It K n mc m) (u : Buf K N m M)
    (hu : U.warm (handed S out junk it) = (u, true)) (hst : Stays n (handed S out junk it) u)
    (hmax : tiny P.mach P.mu0 ≤ P.mach.dblMax)
    (rx : Room (tiny P.mach P.mu0) (fun j => u.x (S.keep j)) b.xl b.ixl b.xu b.ixu)
    (rd : Room (tiny P.mach P.mu0) u.d b.dl b.idl b.du b.idu) :
    ∃ s, start P b dOfX S U ceq cineq out junk true it = .ok s ∧ s.b = b ∧
      (∀ j, s.it.x j = u.x (S.keep j)) ∧ (∀ i, s.it.d i = u.d i) ∧
      (∀ i, s.it.yc i = u.lam (ceq i)) ∧ (∀ i, s.it.yd i = u.lam (cineq i)) ∧
      (∀ j, s.it.zl j = u.zl (Fin.castLE S.le j)) ∧ (∀ j, s.it.zu j = u.zu (Fin.castLE S.le j)) ∧
      (∀ i, s.it.vl i = u.vl i) ∧ (∀ i, s.it.vu i = u.vu i) ∧ SlacksMatch b s.it := by
  have hno := not_overrun hst
  have hu' : U.warm ⟨S.expand it.x, pad out it.zl, pad out it.zu, junk, it.d, it.vl, it.vu⟩ = (u, true) := hu
  refine ⟨⟨b, determineSlacks b
    { it with x := fun j => u.x (S.keep j), d := u.d, zl := S.take u.zl, zu := S.take u.zu, vl := u.vl, vu := u.vu,
              yc := fun i => u.lam (ceq i), yd := fun i => u.lam (cineq i) }⟩, ?_, rfl, fun _ => rfl, fun _ => rfl,
    fun _ => rfl, fun _ => rfl, fun _ => rfl, fun _ => rfl, fun _ => rfl, fun _ => rfl, ?_⟩
  · have hf : getWarm S U ceq cineq out junk it = some ⟨true, true, true,
        { it with x := fun j => u.x (S.keep j), d := u.d, zl := S.take u.zl, zu := S.take u.zu, vl := u.vl, vu := u.vu,
                  yc := fun i => u.lam (ceq i), yd := fun i => u.lam (cineq i) }⟩ := by
      unfold getWarm
      simp only [hu', if_true]
      exact if_neg (by rw [hu']; exact hno)
    unfold start
    simp only [if_true, hf]
    simp only [proceed, Bool.and_true, if_true]
    unfold finish
    rw [safeSlacks_room P.mach b _ P.mu0 hmax rx rd]
    simp
  · refine ⟨fun i hi => ?_, fun i hi => ?_, fun i hi => ?_, fun i hi => ?_⟩ <;>
      simp [determineSlacks, Vec.selectPattern, axpy, hi, sub_eq_add_neg]

/-! ## A point without multipliers, and no point -/

/-- The iterate after its construction, hiopIterate.cpp:59-84: everything zero. -/
def fresh : It K n mc m :=
  { x := fun _ => 0, d := fun _ => 0, sxl := fun _ => 0, sxu := fun _ => 0, sdl := fun _ => 0, sdu := fun _ => 0,
    yc := fun _ => 0, yd := fun _ => 0, zl := fun _ => 0, zu := fun _ => 0, vl := fun _ => 0, vu := fun _ => 0 }

/-- The starting procedure of `Verif/Iterate` (for C04 and C32) in the terms used here. -/
def ofIterate : StartResult K n mc m → Res K n mc m
  | .inconsistentBounds => .inconsistentBounds
  | .nonfinite => .nonfinite
  | .ok s => .ok s

theorem proceed_primal (P : Par K n mc m) (b : Bounds K n m) (dOfX : RVec K n → RVec K m) (w : Bool)
    (F : Fetch K n mc m) (x0 d0 yc0 yd0 : _) (hF : F.it = { (fresh : It K n mc m) with x := x0, d := d0, yc := yc0, yd := yd0 }) (hw : (F.ret && w) = false)
    (hdu : (F.ret && F.duals) = false) (hsl : (F.ret && F.slacks) = false) :
    ∃ yc yd, proceed P b dOfX w F = ofIterate (Iterate.start P.mach P.small P.kappa1 P.kappa2 P.mu0 b
      (if F.ret then x0 else fun _ => 0) dOfX yc yd) := by
  obtain ⟨ret, du, sl, it⟩ := F
  simp only at hF hw hdu hsl
  subst hF
  simp only [proceed, hw, hdu, hsl, Bool.false_eq_true, if_false]
  have key : ∀ x1 : RVec K n, ∃ yc yd,
      (match projectPrimalsX P.small P.kappa1 P.kappa2 b
          (setEqualityDualsToConstant ({ (fresh : It K n mc m) with x := x1, d := d0, yc := yc0, yd := yd0 } : It K n mc m) 0) with
        | none => Res.inconsistentBounds
        | some it3 =>
          match projectPrimalsD P.small P.kappa1 P.kappa2 b { it3 with d := dOfX it3.x } with
          | none => Res.inconsistentBounds
          | some it5 => finish P b false false it5) =
      ofIterate (Iterate.start P.mach P.small P.kappa1 P.kappa2 P.mu0 b x1 dOfX yc yd) := by
    intro x1
    simp only [Iterate.start, projectPrimalsX, setEqualityDualsToConstant, fresh]
    rcases projectIntoBounds P.small P.kappa1 P.kappa2 x1 b.xl b.ixl b.xu b.ixu with ⟨_ | _, x2⟩
    · exact ⟨fun _ => 0, fun _ => 0, rfl⟩
    · simp only [projectPrimalsD]
      rcases projectIntoBounds P.small P.kappa1 P.kappa2 (dOfX x2) b.dl b.idl b.du b.idu with ⟨_ | _, d2⟩
      · exact ⟨fun _ => 0, fun _ => 0, rfl⟩
      · simp only [finish]
        cases computeSafeSlacks P.mach b (⟨x2, d2, fun _ => 0, fun _ => 0, fun _ => 0, fun _ => 0, fun _ => 0, fun _ => 0,
            fun _ => 0, fun _ => 0, fun _ => 0, fun _ => 0⟩ : It K n mc m) ⟨x2, d2, fun _ => 0, fun _ => 0, fun _ => 0,
            fun _ => 0, fun _ => 0, fun _ => 0, fun _ => 0, fun _ => 0, fun _ => 0, fun _ => 0⟩ P.mu0 with
        | none => exact ⟨fun _ => 0, fun _ => 0, rfl⟩
        | some r =>
          cases hl : P.lsq with
          | none => exact ⟨fun _ => 0, fun _ => 0, rfl⟩
          | some f => exact ⟨_, _, rfl⟩
  cases ret
  · exact key fun _ => 0
  · exact key x0

theorem take_pad (S : Space K N n) (out : RVec K N) (z : RVec K n) : S.take (pad out z) = z := by
  funext j
  simp only [Space.take, pad, Fin.val_castLE]
  rw [dif_pos j.isLt]

theorem getStart_plain (S : Space K N n) (U : User K N m M) (ceq : Fin mc → Fin M) (cineq : Fin m → Fin M)
    (out : RVec K N) (junk : RVec K M) (u : Buf K N m M) (sl ret : Bool) (it : It K n mc m)
    (hu : U.full (handed S out junk it) = (u, false, sl, ret))
    (hl : u.zl = pad out it.zl) (hz : u.zu = pad out it.zu) :
    getStart S U ceq cineq out junk it = some ⟨(if ret then (u.x, true) else U.primal u.x).2, false, sl,
      { it with x := fun j => (if ret then (u.x, true) else U.primal u.x).1 (S.keep j), d := u.d }⟩ := by
  have hno : ¬ (overrun n (pad out it.zl) u.zl ∨ overrun n (pad out it.zu) u.zu) := by
    rintro (⟨i, -, hne⟩ | ⟨i, -, hne⟩)
    · exact hne (by rw [hl])
    · exact hne (by rw [hz])
  have hu' : U.full ⟨S.expand it.x, pad out it.zl, pad out it.zu, junk, it.d, it.vl, it.vu⟩ = (u, false, sl, ret) := hu
  unfold getStart
  simp only [hu', Bool.false_eq_true, if_false]
  rw [if_neg (by rw [hu']; exact hno), hl, hz, take_pad, take_pad]

/-- **C88, point only.** A user who provides a point without multipliers or slacks, with either method, gets the starting
procedure of C04 and C32 at exactly that point. -/
theorem C88_point (P : Par K n mc m) (b : Bounds K n m) (dOfX : RVec K n → RVec K m) (S : Space K N n) (U : User K N m M)
    (ceq : Fin mc → Fin M) (cineq : Fin m → Fin M) (out : RVec K N) (junk : RVec K M) (u : Buf K N m M) (ret : Bool)
    (hu : U.full (handed S out junk (fresh : It K n mc m)) = (u, false, false, ret))
    (hl : u.zl = pad out fun _ : Fin n => 0) (hz : u.zu = pad out fun _ : Fin n => 0) (x : RVec K N)
    (hx : (ret = true ∧ x = u.x) ∨ (ret = false ∧ U.primal u.x = (x, true))) :
    ∃ yc yd, start P b dOfX S U ceq cineq out junk false fresh = ofIterate
      (Iterate.start P.mach P.small P.kappa1 P.kappa2 P.mu0 b (fun j => x (S.keep j)) dOfX yc yd) := by
  have hf := getStart_plain S U ceq cineq out junk u false ret fresh hu hl hz
  have hp : (if ret then (u.x, true) else U.primal u.x) = (x, true) := by
    rcases hx with ⟨rfl, rfl⟩ | ⟨rfl, h⟩
    · rfl
    · simpa using h
  rw [hp] at hf
  unfold start
  simp only [Bool.false_eq_true, if_false, hf]
  obtain ⟨yc, yd, h⟩ := proceed_primal P b dOfX false
    ⟨true, false, false, { (fresh : It K n mc m) with x := fun j => x (S.keep j), d := u.d }⟩ (fun j => x (S.keep j)) u.d
    (fun _ => 0) (fun _ => 0) rfl rfl rfl rfl
  exact ⟨yc, yd, h⟩

theorem finish_duals (P : Par K n mc m) (b : Bounds K n m) (w : Bool) (it : It K n mc m) (s : State K n mc m)
    (h : finish P b true w it = .ok s) : s.it.x = it.x ∧ s.it.d = it.d ∧
    s.it.zl = it.zl ∧ s.it.zu = it.zu ∧ s.it.yc = it.yc ∧ s.it.yd = it.yd := by
  unfold finish at h
  cases hr : computeSafeSlacks P.mach b it it P.mu0 with
  | none => rw [hr] at h; cases h
  | some r =>
    rw [hr] at h
    simp only [if_true] at h
    obtain ⟨r1, r2, r3, r4, -, -, -, -, rfl⟩ := computeSafeSlacks_cases P.mach b it it P.mu0 r hr
    have hss := (Res.ok.inj h).symm
    subst hss
    cases w <;> exact ⟨rfl, rfl, rfl, rfl, rfl, rfl⟩

/-- **C88, no point.** If neither method provides a point, the solver starts from zero, projected and completed, whatever
the user announced about multipliers and slacks. -/
theorem C88_no_point (P : Par K n mc m) (b : Bounds K n m) (dOfX : RVec K n → RVec K m) (S : Space K N n) (U : User K N m M)
    (ceq : Fin mc → Fin M) (cineq : Fin m → Fin M) (out : RVec K N) (junk : RVec K M) (u : Buf K N m M) (du sl : Bool)
    (hu : U.full (handed S out junk (fresh : It K n mc m)) = (u, du, sl, false))
    (hl : u.zl = pad out fun _ : Fin n => 0) (hz : u.zu = pad out fun _ : Fin n => 0)
    (hx : (U.primal u.x).2 = false) :
    ∃ yc yd, start P b dOfX S U ceq cineq out junk false fresh = ofIterate
      (Iterate.start P.mach P.small P.kappa1 P.kappa2 P.mu0 b (fun _ => 0) dOfX yc yd) := by
  have hno : ¬ (overrun n (pad out (fresh : It K n mc m).zl) u.zl ∨ overrun n (pad out (fresh : It K n mc m).zu) u.zu) := by
    rintro (⟨i, -, hne⟩ | ⟨i, -, hne⟩)
    · exact hne (by rw [hl]; rfl)
    · exact hne (by rw [hz]; rfl)
  obtain ⟨yc0, yd0, hf⟩ : ∃ yc0 yd0, getStart S U ceq cineq out junk (fresh : It K n mc m) = some ⟨false, du, sl,
      { (fresh : It K n mc m) with x := fun j => (U.primal u.x).1 (S.keep j), d := u.d, yc := yc0, yd := yd0 }⟩ := by
    have hu' : U.full ⟨S.expand (fresh : It K n mc m).x, pad out (fresh : It K n mc m).zl, pad out (fresh : It K n mc m).zu,
      junk, (fresh : It K n mc m).d, (fresh : It K n mc m).vl, (fresh : It K n mc m).vu⟩ = (u, du, sl, false) := hu
    have e1 : S.take u.zl = (fresh : It K n mc m).zl := by rw [hl, take_pad]; rfl
    have e2 : S.take u.zu = (fresh : It K n mc m).zu := by rw [hz, take_pad]; rfl
    cases du with
    | true =>
      refine ⟨fun i => u.lam (ceq i), fun i => u.lam (cineq i), ?_⟩
      unfold getStart
      refine (if_neg (by rw [hu']; exact hno)).trans ?_
      simp only [hu', Bool.false_eq_true, if_false, if_true, hx, e1, e2]
    | false =>
      refine ⟨(fresh : It K n mc m).yc, (fresh : It K n mc m).yd, ?_⟩
      unfold getStart
      refine (if_neg (by rw [hu']; exact hno)).trans ?_
      simp only [hu', Bool.false_eq_true, if_false, hx, e1, e2]
  unfold start
  simp only [Bool.false_eq_true, if_false, hf]
  exact proceed_primal P b dOfX false ⟨false, du, sl, _⟩ _ u.d yc0 yd0 rfl rfl rfl rfl

/-- **C88, projection.** Whatever point and slacks the user provides along with multipliers, the first iterate has the
projection (C04) of the point and of the slacks, or of the constraint values at the projected point if no slacks are
provided; the multipliers are the user's. -/
theorem C88_projected (P : Par K n mc m) (b : Bounds K n m) (dOfX : RVec K n → RVec K m) (S : Space K N n)
    (U : User K N m M) (ceq : Fin mc → Fin M) (cineq : Fin m → Fin M) (out : RVec K N) (junk : RVec K M) (it : It K n mc m)
    (u : Buf K N m M) (sl : Bool) (hu : U.full (handed S out junk it) = (u, true, sl, true))
    (s : State K n mc m) (h : start P b dOfX S U ceq cineq out junk false it = .ok s) :
    projectIntoBounds P.small P.kappa1 P.kappa2 (fun j => u.x (S.keep j)) b.xl b.ixl b.xu b.ixu = (true, s.it.x) ∧
    projectIntoBounds P.small P.kappa1 P.kappa2 (if sl then u.d else dOfX s.it.x) b.dl b.idl b.du b.idu
      = (true, s.it.d) ∧
    (∀ j, s.it.zl j = u.zl (Fin.castLE S.le j)) ∧ (∀ j, s.it.zu j = u.zu (Fin.castLE S.le j)) ∧
    (∀ i, s.it.yc i = u.lam (ceq i)) ∧ (∀ i, s.it.yd i = u.lam (cineq i)) := by
  have hu' : U.full ⟨S.expand it.x, pad out it.zl, pad out it.zu, junk, it.d, it.vl, it.vu⟩ = (u, true, sl, true) := hu
  unfold start getStart at h
  simp only [Bool.false_eq_true, if_false, hu', if_true] at h
  split_ifs at h with ho
  · simp only [proceed, Bool.and_false, Bool.and_true, Bool.true_and, if_true, Bool.false_eq_true, if_false,
      projectPrimalsX, projectPrimalsD] at h
    split at h
    · cases h
    · rename_i it3 h3
      split at h3
      · rename_i x1 hx1
        cases h3
        split at h
        · cases h
        · rename_i it5 h5
          split at h5
          · rename_i d1 hd1
            cases h5
            obtain ⟨h0, h00, h1, h2, h6, h7⟩ := finish_duals P b false _ s h
            rw [h0, h00, h1, h2, h6, h7]
            cases sl
            · exact ⟨hx1, hd1, fun _ => rfl, fun _ => rfl, fun _ => rfl, fun _ => rfl⟩
            · exact ⟨hx1, hd1, fun _ => rfl, fun _ => rfl, fun _ => rfl, fun _ => rfl⟩
          · cases h5
      · cases h3

/-! ## The invariant of the iterates (C32) from a user's multipliers -/

theorem adjustBounds_patterns (b : Bounds K n m) (it : It K n mc m) (k : ℕ) :
    let b' := if k > 0 then adjustBounds b it else b
    b'.ixl = b.ixl ∧ b'.ixu = b.ixu ∧ b'.idl = b.idl ∧ b'.idu = b.idu := by
  intro b'
  by_cases h : k > 0
  · simp [b', h, adjustBounds]
  · simp [b', h]

theorem posOn_div (mu : K) (hmu : 0 < mu) (s w : RVec K p) (hs : PosOn s w) :
    PosOn (componentDivSel (fun _ => mu) s w) w := by
  intro i
  refine ⟨fun h => ?_, fun h => by simp [componentDivSel, h]⟩
  simp only [componentDivSel]
  rw [if_neg (by rw [h]; exact one_ne_zero)]
  exact div_pos hmu ((hs i).1 h)

theorem finish_inv (P : Par K n mc m) (hM : MachOk P.mach) (hmu : 0 < P.mu0) (b : Bounds K n m) (hp : Patterns b)
    (warm : Bool) (it : It K n mc m) (hzl : PosOn it.zl b.ixl) (hzu : PosOn it.zu b.ixu)
    (hv : warm = true → PosOn it.vl b.idl ∧ PosOn it.vu b.idu) (s : State K n mc m)
    (h : finish P b true warm it = .ok s) : Inv s := by
  unfold finish at h
  cases hr : computeSafeSlacks P.mach b it it P.mu0 with
  | none => rw [hr] at h; cases h
  | some r =>
    rw [hr] at h
    simp only [if_true] at h
    obtain ⟨p1, p2, p3, p4⟩ := adjustBounds_patterns b r.2 r.1
    have hs := computeSafeSlacks_ok P.mach hM b hp it it P.mu0 hmu r hr
    obtain ⟨-, -, ezl, ezu, evl, evu⟩ := computeSafeSlacks_rest P.mach b it it P.mu0 r hr
    have hss := (Res.ok.inj h).symm
    subst hss
    cases warm with
    | true =>
      obtain ⟨h1, h2⟩ := hv rfl
      simp only [if_true]
      exact ⟨⟨by rw [p1]; exact hp.ixl, by rw [p2]; exact hp.ixu, by rw [p3]; exact hp.idl, by rw [p4]; exact hp.idu⟩,
        ⟨by simp only [p1]; exact hs.sxl, by simp only [p2]; exact hs.sxu, by simp only [p3]; exact hs.sdl,
          by simp only [p4]; exact hs.sdu⟩,
        ⟨by simp only [p1, ezl]; exact hzl, by simp only [p2, ezu]; exact hzu, by simp only [p3, evl]; exact h1,
          by simp only [p4, evu]; exact h2⟩⟩
    | false =>
      simp only [Bool.false_eq_true, if_false, determineDualsBoundsD]
      exact ⟨⟨by rw [p1]; exact hp.ixl, by rw [p2]; exact hp.ixu, by rw [p3]; exact hp.idl, by rw [p4]; exact hp.idu⟩,
        ⟨by simp only [p1]; exact hs.sxl, by simp only [p2]; exact hs.sxu, by simp only [p3]; exact hs.sdl,
          by simp only [p4]; exact hs.sdu⟩,
        ⟨by simp only [p1, ezl]; exact hzl, by simp only [p2, ezu]; exact hzu,
          by simp only [p3]; exact posOn_div _ hmu _ _ hs.sdl,
          by simp only [p4]; exact posOn_div _ hmu _ _ hs.sdu⟩⟩

/-- **C88, positivity.** If the user's bound multipliers are positive on the bounded variables and zero on the others,
the iterate that the solver starts from satisfies the invariant of C32: slacks and all bound multipliers are positive
exactly where there is a bound. No condition on the point or the slacks. -/
theorem C88_invariant (P : Par K n mc m) (hM : MachOk P.mach) (hmu : 0 < P.mu0) (b : Bounds K n m) (hp : Patterns b)
    (dOfX : RVec K n → RVec K m) (S : Space K N n) (U : User K N m M) (ceq : Fin mc → Fin M) (cineq : Fin m → Fin M)
    (out : RVec K N) (junk : RVec K M) (it : It K n mc m) (u : Buf K N m M) (sl : Bool)
    (hu : U.full (handed S out junk it) = (u, true, sl, true))
    (hzl : PosOn (fun j => u.zl (Fin.castLE S.le j)) b.ixl) (hzu : PosOn (fun j => u.zu (Fin.castLE S.le j)) b.ixu)
    (s : State K n mc m) (h : start P b dOfX S U ceq cineq out junk false it = .ok s) : Inv s := by
  have hu' : U.full ⟨S.expand it.x, pad out it.zl, pad out it.zu, junk, it.d, it.vl, it.vu⟩ = (u, true, sl, true) := hu
  unfold start getStart at h
  simp only [Bool.false_eq_true, if_false, hu', if_true] at h
  split_ifs at h with ho
  · simp only [proceed, Bool.and_false, Bool.and_true, Bool.true_and, if_true, Bool.false_eq_true, if_false,
      projectPrimalsX, projectPrimalsD] at h
    split at h
    · cases h
    · rename_i it3 h3
      split at h3
      · cases h3
        split at h
        · cases h
        · rename_i it5 h5
          split at h5
          · cases h5
            refine finish_inv P hM hmu b hp false _ ?_ ?_ (fun e => by cases e) s h
            · cases sl <;> exact hzl
            · cases sl <;> exact hzu
          · cases h5
      · cases h3

/-- **C88, positivity, warm start.** The same for a warm start with positive multipliers of both kinds. -/
theorem C88_invariant_warm (P : Par K n mc m) (hM : MachOk P.mach) (hmu : 0 < P.mu0) (b : Bounds K n m) (hp : Patterns b)
    (dOfX : RVec K n → RVec K m) (S : Space K N n) (U : User K N m M) (ceq : Fin mc → Fin M) (cineq : Fin m → Fin M)
    (out : RVec K N) (junk : RVec K M) (it : It K n mc m) (u : Buf K N m M)
    (hu : U.warm (handed S out junk it) = (u, true))
    (hzl : PosOn (fun j => u.zl (Fin.castLE S.le j)) b.ixl) (hzu : PosOn (fun j => u.zu (Fin.castLE S.le j)) b.ixu)
    (hvl : PosOn u.vl b.idl) (hvu : PosOn u.vu b.idu)
    (s : State K n mc m) (h : start P b dOfX S U ceq cineq out junk true it = .ok s) : Inv s := by
  have hu' : U.warm ⟨S.expand it.x, pad out it.zl, pad out it.zu, junk, it.d, it.vl, it.vu⟩ = (u, true) := hu
  unfold start getWarm at h
  simp only [hu', if_true] at h
  split_ifs at h with ho
  simp only [proceed, Bool.and_true, if_true] at h
  exact finish_inv P hM hmu b hp true _ hzl hzu (fun _ => ⟨hvl, hvu⟩) s h

/-! ## What fails -/

/-- **C88, arrays too short.** With fixed variables removed, the arrays for the bound multipliers have the solver's number of
entries although the user is told the user's number: a user who fills them writes outside. -/
theorem C88_removed_refuted (P : Par K n mc m) (b : Bounds K n m) (dOfX : RVec K n → RVec K m) (S : Space K N n)
    (U : User K N m M) (ceq : Fin mc → Fin M) (cineq : Fin m → Fin M) (out : RVec K N) (junk : RVec K M) (it : It K n mc m)
    (u : Buf K N m M) (du sl ret : Bool) (hu : U.full (handed S out junk it) = (u, du, sl, ret))
    (i : Fin N) (hi : n ≤ i.1) (hw : u.zl i ≠ out i) :
    start P b dOfX S U ceq cineq out junk false it = .overrun := by
  have hu' : U.full ⟨S.expand it.x, pad out it.zl, pad out it.zu, junk, it.d, it.vl, it.vu⟩ = (u, du, sl, ret) := hu
  have ho : overrun n (pad out it.zl) u.zl := by
    refine ⟨i, hi, ?_⟩
    simp only [pad]
    rw [dif_neg (by omega)]
    exact hw
  have hf : getStart S U ceq cineq out junk it = none := by
    unfold getStart
    exact if_pos (by rw [hu']; exact Or.inl ho)
  unfold start
  simp only [Bool.false_eq_true, if_false, hf]

theorem finish_warm (P : Par K n mc m) (b : Bounds K n m) (it : It K n mc m) (s : State K n mc m)
    (h : finish P b true true it = .ok s) :
    s.it.x = it.x ∧ s.it.zl = it.zl ∧ s.it.zu = it.zu ∧ s.it.vl = it.vl ∧ s.it.vu = it.vu ∧ s.it.yc = it.yc ∧
      s.it.yd = it.yd := by
  unfold finish at h
  cases hr : computeSafeSlacks P.mach b it it P.mu0 with
  | none => rw [hr] at h; cases h
  | some r =>
    rw [hr] at h
    simp only [if_true] at h
    obtain ⟨r1, r2, r3, r4, -, -, -, -, rfl⟩ := computeSafeSlacks_cases P.mach b it it P.mu0 r hr
    have hss := (Res.ok.inj h).symm
    subst hss
    exact ⟨rfl, rfl, rfl, rfl, rfl, rfl, rfl⟩

/-- **C88, warm start without `get_warmstart_point`.** With `warm_start` set, a user who implements only the method for the
point (and not `get_warmstart_point`, whose default returns false) starts from that point without projection, with zero
bound multipliers, and with the content of uninitialised memory as multipliers of the constraints. -/
theorem C88_warm_default_refuted (P : Par K n mc m) (b : Bounds K n m) (dOfX : RVec K n → RVec K m) (S : Space K N n)
    (U : User K N m M) (hU : U.warm = warmDefault) (ceq : Fin mc → Fin M) (cineq : Fin m → Fin M) (out : RVec K N)
    (junk : RVec K M) (x : RVec K N) (hx : U.primal (S.expand fun _ => 0) = (x, true)) (s : State K n mc m)
    (h : start P b dOfX S U ceq cineq out junk true fresh = .ok s) :
    (∀ j, s.it.x j = x (S.keep j)) ∧ (∀ j, s.it.zl j = 0) ∧ (∀ j, s.it.zu j = 0) ∧ (∀ i, s.it.vl i = 0) ∧
      (∀ i, s.it.vu i = 0) ∧ (∀ i, s.it.yc i = junk (ceq i)) ∧ (∀ i, s.it.yd i = junk (cineq i)) := by
  have hno : ∀ z : RVec K N, ¬ (overrun n z z) := fun z ⟨_, _, hne⟩ => hne rfl
  have hx' : U.primal (S.expand (fresh : It K n mc m).x) = (x, true) := hx
  have hf : getWarm S U ceq cineq out junk (fresh : It K n mc m) = some ⟨true, true, true,
      { (fresh : It K n mc m) with x := fun j => x (S.keep j), yc := fun i => junk (ceq i),
                                   yd := fun i => junk (cineq i) }⟩ := by
    unfold getWarm
    rw [hU]
    refine (if_neg (by rintro (h | h) <;> exact hno _ h)).trans ?_
    simp only [warmDefault, Bool.false_eq_true, if_false, hx', take_pad]
  unfold start at h
  simp only [if_true, hf, proceed, Bool.and_true] at h
  obtain ⟨h1, h2, h3, h4, h5, h6, h7⟩ := finish_warm P b _ s h
  rw [h1, h2, h3, h4, h5, h6, h7]
  exact ⟨fun _ => rfl, fun _ => rfl, fun _ => rfl, fun _ => rfl, fun _ => rfl, fun _ => rfl, fun _ => rfl⟩

/-- **C88, announced but not provided.** If the method with multipliers announces them (`duals_avail`) and then returns
false, and the method for the point provides one, the solver takes the announcement at its word: it starts from whatever the
failed call left in the arrays. -/
theorem C88_failed_call_refuted (P : Par K n mc m) (b : Bounds K n m) (dOfX : RVec K n → RVec K m) (S : Space K N n)
    (U : User K N m M) (ceq : Fin mc → Fin M) (cineq : Fin m → Fin M) (out : RVec K N)
    (junk : RVec K M) (it : It K n mc m) (u : Buf K N m M) (sl : Bool)
    (hu : U.full (handed S out junk it) = (u, true, sl, false)) (x : RVec K N) (hx : U.primal u.x = (x, true))
    (s : State K n mc m) (h : start P b dOfX S U ceq cineq out junk false it = .ok s) :
    (∀ j, s.it.zl j = u.zl (Fin.castLE S.le j)) ∧ (∀ j, s.it.zu j = u.zu (Fin.castLE S.le j)) ∧
      (∀ i, s.it.yc i = u.lam (ceq i)) ∧ (∀ i, s.it.yd i = u.lam (cineq i)) := by
  have hu' : U.full ⟨S.expand it.x, pad out it.zl, pad out it.zu, junk, it.d, it.vl, it.vu⟩ = (u, true, sl, false) := hu
  unfold start getStart at h
  simp only [Bool.false_eq_true, if_false, hu', if_true, hx] at h
  split_ifs at h with ho
  · simp only [proceed, Bool.and_false, Bool.and_true, Bool.true_and, if_true, Bool.false_eq_true, if_false,
      projectPrimalsX, projectPrimalsD] at h
    split at h
    · cases h
    · rename_i it3 h3
      split at h3
      · cases h3
        split at h
        · cases h
        · rename_i it5 h5
          split at h5
          · cases h5
            obtain ⟨-, -, h1, h2, h6, h7⟩ := finish_duals P b false _ s h
            rw [h1, h2, h6, h7]
            cases sl <;> exact ⟨fun _ => rfl, fun _ => rfl, fun _ => rfl, fun _ => rfl⟩
          · cases h5
      · cases h3

/-! ## Instances -/

/-- Parameters, one variable `x >= 0`, no constraints. -/
noncomputable def exP : Par ℝ 1 0 0 := ⟨⟨1 / 1000, 1 / 100, 1000⟩, 0, 1 / 100, 1 / 100, 1, none⟩

noncomputable def exB : Bounds ℝ 1 0 := ⟨fun _ => 0, fun _ => 0, fun _ => 1, fun _ => 0, fun _ => 0, fun _ => 0, fun _ => 0, fun _ => 0⟩

/-- The user's arrays: the point 1 and the multiplier `z`. -/
noncomputable def exU (z : ℝ) : Buf ℝ 1 0 0 := ⟨fun _ => 1, fun _ => z, fun _ => 0, Fin.elim0, fun _ => 0, fun _ => 0, fun _ => 0⟩

/-- A user who provides the arrays above with every method; `r` is the value returned by the first. -/
noncomputable def exUser (z : ℝ) (r : Bool) : User ℝ 1 0 0 := ⟨fun _ => (exU z, true, true, r), fun _ => (fun _ => 1, true),
  fun _ => (exU z, true)⟩

theorem exB_ok : Patterns exB ∧ Consistent exB :=
  ⟨⟨fun _ => Or.inr rfl, fun _ => Or.inl rfl, fun i => i.elim0, fun i => i.elim0⟩,
    ⟨fun _ _ _ => le_rfl, fun i => i.elim0⟩⟩

theorem ex_inside : Inside exP.small exP.kappa1 exP.kappa2 (fun _ => (1 : ℝ)) exB.xl exB.ixl exB.xu exB.ixu := by
  intro i
  constructor
  · intro _
    left
    norm_num [exP, exB]
  · intro h
    norm_num [exB] at h

theorem ex_room : Room (tiny exP.mach exP.mu0) (fun _ => (1 : ℝ)) exB.xl exB.ixl exB.xu exB.ixu := by
  intro i
  constructor
  · intro _
    norm_num [exP, exB, tiny]
  · intro h
    norm_num [exB] at h

theorem ex_max : tiny exP.mach exP.mu0 ≤ exP.mach.dblMax := by norm_num [exP, tiny]

/-- The hypotheses of `C88_primal_dual_partial` hold for the instance, for every multiplier. -/
theorem ex_start_pd (z : ℝ) : ∃ s, start exP exB (fun _ => Fin.elim0) (Space.same ℝ 1) (exUser z true) Fin.elim0 Fin.elim0
    (fun _ => 0) Fin.elim0 false fresh = .ok s ∧ s.it.zl 0 = z ∧ s.it.x 0 = 1 := by
  obtain ⟨s, h, -, hx, -, -, -, hz, -⟩ := C88_primal_dual_partial exP exB exB_ok.1 exB_ok.2 (fun _ => Fin.elim0)
    (Space.same ℝ 1) (exUser z true) Fin.elim0 Fin.elim0 (fun _ => 0) Fin.elim0 (fresh : It ℝ 1 0 0) (exU z) rfl
    (stays_same _ _) le_rfl ex_max ex_inside (fun i => i.elim0) ex_room (fun i => i.elim0)
  exact ⟨s, h, hz 0, hx 0⟩

/-- **C88, scaling.** The user's multipliers are used as they are although the solver works on the problem with a scaled
objective: multipliers that are optimal for the user's problem (here `min g x`, `x >= 0`, with `z = g`) leave a dual
residual in the solver's problem whenever the scaling factor is not one. -/
theorem C88_scaled_refuted (g so : ℝ) (hg : g ≠ 0) (hso : so ≠ 1) :
    ∃ s, start exP exB (fun _ => Fin.elim0) (Space.same ℝ 1) (exUser g true) Fin.elim0 Fin.elim0 (fun _ => 0) Fin.elim0
      false fresh = .ok s ∧ g - (exU g).zl 0 = 0 ∧ so * g - s.it.zl 0 ≠ 0 := by
  obtain ⟨s, h, hz, -⟩ := ex_start_pd g
  refine ⟨s, h, sub_self g, ?_⟩
  rw [hz]
  intro h0
  exact hso (mul_right_cancel₀ hg (by linarith))

-- A warm start, and a point without multipliers, at the same instance.
example (z : ℝ) : ∃ s, start exP exB (fun _ => Fin.elim0) (Space.same ℝ 1) (exUser z true) Fin.elim0 Fin.elim0
    (fun _ => 0) Fin.elim0 true fresh = .ok s ∧ s.it.zl 0 = z := by
  obtain ⟨s, h, -, -, -, -, -, hz, -⟩ := C88_warm_start_partial exP exB (fun _ => Fin.elim0)
    (Space.same ℝ 1) (exUser z true) Fin.elim0 Fin.elim0 (fun _ => 0) Fin.elim0 (fresh : It ℝ 1 0 0) (exU z) rfl
    (stays_same _ _) ex_max ex_room (fun i => i.elim0)
  exact ⟨s, h, hz 0⟩

example : ∃ yc yd, start exP exB (fun _ => Fin.elim0) (Space.same ℝ 1)
    ⟨fullDefault, fun _ => (fun _ => 1, true), warmDefault⟩ Fin.elim0 Fin.elim0 (fun _ => 0) (Fin.elim0 : RVec ℝ 0) false
    fresh = ofIterate (Iterate.start exP.mach exP.small exP.kappa1 exP.kappa2 exP.mu0 exB (fun _ => 1)
      (fun _ => Fin.elim0) yc yd) :=
  C88_point exP exB _ (Space.same ℝ 1) _ _ _ _ _ (handed (Space.same ℝ 1) (fun _ => 0) Fin.elim0 fresh) false rfl rfl rfl
    (fun _ => 1) (Or.inr ⟨rfl, rfl⟩)

-- With the option `warm_start` and the default method the run does start, with a zero multiplier of the bound.
example : ∃ s, start exP exB (fun _ => Fin.elim0) (Space.same ℝ 1)
    ⟨fullDefault, fun _ => (fun _ => 1, true), warmDefault⟩ Fin.elim0 Fin.elim0 (fun _ => 0) (Fin.elim0 : RVec ℝ 0) true
    fresh = .ok s ∧ exB.ixl 0 = 1 ∧ s.it.zl 0 = 0 := by
  have hno : ∀ z : RVec ℝ 1, ¬ (overrun 1 z z) := fun z ⟨_, _, hne⟩ => hne rfl
  let it0 : It ℝ 1 0 0 := { (fresh : It ℝ 1 0 0) with x := fun _ => 1, yc := Fin.elim0, yd := Fin.elim0 }
  refine ⟨⟨exB, determineSlacks exB it0⟩, ?_, by simp [exB], by simp [determineSlacks, it0, fresh]⟩
  have hf : getWarm (Space.same ℝ 1) ⟨fullDefault, fun _ => (fun _ => 1, true), warmDefault⟩ Fin.elim0 Fin.elim0
      (fun _ => 0) (Fin.elim0 : RVec ℝ 0) (fresh : It ℝ 1 0 0) = some ⟨true, true, true,
        { (fresh : It ℝ 1 0 0) with x := fun _ => 1, yc := Fin.elim0, yd := Fin.elim0 }⟩ := by
    unfold getWarm
    refine (if_neg (by rintro (h | h) <;> exact hno _ h)).trans ?_
    simp only [warmDefault, Bool.false_eq_true, if_false, take_pad]
    congr 3
  unfold start
  simp only [if_true, hf, proceed, Bool.and_true]
  unfold finish
  rw [safeSlacks_room exP.mach exB _ exP.mu0 ex_max ex_room (fun i => i.elim0)]
  simp [it0]

-- Two user's variables, one kept: a user who writes 5 into both multipliers.
example : ∃ (S : Space ℝ 2 1) (U : User ℝ 2 0 0) (u : Buf ℝ 2 0 0), U.full (handed S (fun _ => 0) Fin.elim0
    (fresh : It ℝ 1 0 0)) = (u, true, true, true) ∧ ∃ i : Fin 2, 1 ≤ i.1 ∧ u.zl i ≠ 0 :=
  ⟨⟨fun _ => 0, fun x i => if i = 0 then x 0 else 7, by omega⟩,
    ⟨fun _ => (⟨fun _ => 1, fun _ => 5, fun _ => 5, Fin.elim0, Fin.elim0, Fin.elim0, Fin.elim0⟩, true, true, true),
      fun x => (x, false), warmDefault⟩, _, rfl, 1, le_rfl, by norm_num⟩

end Hiop.StartPt
