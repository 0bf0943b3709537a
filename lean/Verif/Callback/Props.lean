import Verif.Callback.Model
import Mathlib.Tactic.FieldSimp
import Mathlib.Tactic.Linarith
import Mathlib.Tactic.NormNum

/-!
# The user's callbacks and getters (C69)
-/

set_option linter.unusedSectionVars false

namespace Hiop.Callback

open Hiop.Vec Hiop.Nlp

variable {K : Type*} [Field K] [LinearOrder K] [IsStrictOrderedRing K] {n m : ℕ}

/-! ## Specification -/

/-- The formulation belongs to the user's constraints with bounds `gl`, `gu`; scaling factors are positive and there
is one for each constraint. -/
structure Form.Of (F : Form K m) (gl gu : RVec K m) : Prop where
  split : splitConstraints gl gu = some F.sp
  pos : ∀ q, F.scal = some q → 0 < q.1 ∧ q.2.1.length = F.sp.eqMap.length ∧ q.2.2.length = F.sp.ineqMap.length ∧
    (∀ a ∈ q.2.1, 0 < a) ∧ (∀ a ∈ q.2.2, 0 < a)

/-- The values stored for the iterate are those of the user's functions at the user's point: `fu` the user's
objective, `gu` the user's constraint values; the solver holds the scaled values (property C50 is about when they are
those of the current iterate). -/
structure Point.Holds (P : Point K n) (F : Form K m) (fu : K) (g : RVec K m) : Prop where
  f : P.f = match F.scal with | none => fu | some q => q.1 * fu
  c : P.c = match F.scal with | none => F.sp.eqMap.map g | some q => mulL (F.sp.eqMap.map g) q.2.1
  d : P.d = match F.scal with | none => F.sp.ineqMap.map g | some q => mulL (F.sp.ineqMap.map g) q.2.2
  yc : P.yc.length = F.sp.eqMap.length
  yd : P.yd.length = F.sp.ineqMap.length

/-- `lam` is `yc`, `yd` in the user's order: entry `k` of `yc` (`yd`) is at the position of the user's `k`-th equality
(inequality). -/
def InUserOrder (gl gu : RVec K m) (yc yd : List K) (lam : RVec K m) : Prop :=
  ((List.finRange m).filter fun i => gl i = gu i).map lam = yc ∧
    ((List.finRange m).filter fun i => gl i ≠ gu i).map lam = yd

/-! ## Auxiliary facts -/

theorem split_maps {gl gu : RVec K m} {sp : Split K m} (h : splitConstraints gl gu = some sp) :
    sp.eqMap = (List.finRange m).filter (fun i => gl i = gu i) ∧
      sp.ineqMap = (List.finRange m).filter (fun i => gl i ≠ gu i) ∧
      (sp.eqMap ++ sp.ineqMap).Perm (List.finRange m) := by
  obtain ⟨s, hs, h1, h2, h3, h4, hp, -⟩ := C13_split gl gu
  rw [h] at hs; cases hs
  refine ⟨?_, ?_, hp⟩
  · apply List.Pairwise.eq_of_mem_iff (r := (· < ·)) h3 ((List.pairwise_lt_finRange m).filter _)
    intro i; simp [h1]
  · apply List.Pairwise.eq_of_mem_iff (r := (· < ·)) h4 ((List.pairwise_lt_finRange m).filter _)
    intro i; simp [h2]

/-- Merging gives the one vector with these parts. -/
theorem merge_eq {gl gu : RVec K m} {sp : Split K m} (h : splitConstraints gl gu = some sp) (buf v : RVec K m) :
    copyFromTwo buf (sp.eqMap.map v) sp.eqMap (sp.ineqMap.map v) sp.ineqMap = some v := by
  obtain ⟨s, hs, h1⟩ := C13_split_merge gl gu v buf
  rw [h] at hs; cases hs
  exact h1

theorem merge_order {gl gu : RVec K m} {sp : Split K m} (h : splitConstraints gl gu = some sp) (buf : RVec K m)
    {c d : List K} (hc : c.length = sp.eqMap.length) (hd : d.length = sp.ineqMap.length) :
    ∃ v, copyFromTwo buf c sp.eqMap d sp.ineqMap = some v ∧ InUserOrder gl gu c d v := by
  obtain ⟨e1, e2, hp⟩ := split_maps h
  obtain ⟨v, h1, h2⟩ := merge_then_split c d sp.eqMap sp.ineqMap hc hd hp buf
  refine ⟨v, h1, ?_, ?_⟩
  · rw [← e1]; exact congrArg Prod.fst h2
  · rw [← e2]; exact congrArg Prod.snd h2

theorem div_mul_list {a b : List K} (h : a.length = b.length) (hb : ∀ x ∈ b, 0 < x) : divL (mulL a b) b = a := by
  induction a generalizing b with
  | nil => simp [divL, mulL]
  | cons x a ih =>
    cases b with
    | nil => simp at h
    | cons y b =>
      have hy : 0 < y := hb y (by simp)
      have := ih (by simpa using h) (fun z hz => hb z (by simp [hz]))
      simp only [divL, mulL, List.zipWith_cons_cons] at this ⊢
      rw [this]
      congr 1
      field_simp

/-- Entry of a list at the position of `i` in the other. -/
theorem zip_scale_exists (l : List (Fin m)) (hl : l.Nodup) (q : List K) (hq : q.length = l.length) :
    ∃ t : RVec K m, l.map t = q := by
  induction l generalizing q with
  | nil => exact ⟨fun _ => 0, by simp at hq; simp [hq]⟩
  | cons a l ih =>
    cases q with
    | nil => simp at hq
    | cons b q =>
      obtain ⟨t, ht⟩ := ih (List.nodup_cons.mp hl).2 q (by simpa using hq)
      refine ⟨Function.update t a b, ?_⟩
      simp only [List.map_cons, Function.update_self, List.cons.injEq, true_and]
      rw [← ht]
      apply List.map_congr_left
      intro i hi
      rw [Function.update_of_ne]
      rintro rfl
      exact (List.nodup_cons.mp hl).1 hi

/-! ## Without scaling -/

/-- **C69 (iterations, no scaling).** Without scaling the callback of an iteration shows the user's objective, the
user's constraint values and the multipliers in the user's order, at the iterate. Whatever the work vectors held.
Missing: with scaling and with removed variables it does not (`C69_iterate_scaled_false`,
`C69_iterate_removed_false`). -/
theorem C69_iterate_partial {gl gu : RVec K m} {F : Form K m} (hF : F.Of gl gu) (hn : F.scal = none)
    {P : Point K n} {fu : K} {g : RVec K m} (hP : P.Holds F fu g) (bl bg : RVec K m) :
    ∃ lam, iterCb F bl bg P = some ⟨P.x, P.zl, P.zu, P.s, g, lam, fu⟩ ∧ InUserOrder gl gu P.yc P.yd lam := by
  obtain ⟨lam, h1, h2⟩ := merge_order hF.split bl hP.yc hP.yd
  refine ⟨lam, ?_, h2⟩
  have hf := hP.f; have hc := hP.c; have hd := hP.d
  rw [hn] at hf hc hd
  simp only at hf hc hd
  simp [iterCb, h1, hc, hd, merge_eq hF.split, Form.objScale, hn, hf]

/-- **C69 (solution).** With and without scaling the callback at the end shows the user's objective and the user's
constraint values, and the point of the iterate. (The multipliers: property C37.) -/
theorem C69_solution {gl gu : RVec K m} {F : Form K m} (hF : F.Of gl gu)
    {P : Point K n} {fu : K} {g : RVec K m} (hP : P.Holds F fu g) (bl bg : RVec K m) :
    ∃ v P', solCb F bl bg P = some (v, P') ∧ v.obj = fu ∧ v.g = g ∧ v.x = P.x := by
  have hf := hP.f; have hc := hP.c; have hd := hP.d
  cases hs : F.scal with
  | none =>
    rw [hs] at hf hc hd
    simp only at hf hc hd
    obtain ⟨lam, h1, h2⟩ := merge_order hF.split bl hP.yc hP.yd
    exact ⟨⟨P.x, P.zl, P.zu, P.s, g, lam, P.f / F.objScale⟩, P,
      by simp [solCb, hs, h1, hc, hd, merge_eq hF.split], by simp [Form.objScale, hs, hf], rfl, rfl⟩
  | some q =>
    rw [hs] at hf hc hd
    simp only at hf hc hd
    obtain ⟨q0, q1, q2, q3, q4⟩ := hF.pos q hs
    obtain ⟨lam, h1, -⟩ := merge_order hF.split bl (c := (unscaleInPlace q P).yc) (d := (unscaleInPlace q P).yd)
      (by simp [unscaleInPlace, mulL, hP.yc, q1]) (by simp [unscaleInPlace, mulL, hP.yd, q2])
    have e1 : (unscaleInPlace q P).c = F.sp.eqMap.map g := by
      simp only [unscaleInPlace, hc]
      exact div_mul_list (by simp [q1]) q3
    have e2 : (unscaleInPlace q P).d = F.sp.ineqMap.map g := by
      simp only [unscaleInPlace, hd]
      exact div_mul_list (by simp [q2]) q4
    refine ⟨⟨P.x, (unscaleInPlace q P).zl, (unscaleInPlace q P).zu, P.s, g, lam, P.f / F.objScale⟩,
      unscaleInPlace q P, ?_, ?_, rfl, rfl⟩
    · simp only [solCb, hs, h1, e1, e2, merge_eq hF.split, Option.bind_some, Option.map_some]
      rfl
    · simp only [Form.objScale, hs, hf]
      field_simp

/-- **C69 (getter of the objective).** It agrees with the callbacks: after any iterate was shown, and after the end of
the run. -/
theorem C69_objective_agrees {F : Form K m} {P : Point K n} {bl bg : RVec K m} :
    (∀ v, iterCb F bl bg P = some v → getObj F P = v.obj) ∧
      ∀ v P', solCb F bl bg P = some (v, P') → getObj F P' = v.obj := by
  constructor
  · intro v hv
    simp only [iterCb, Option.bind_eq_some_iff, Option.map_eq_some_iff] at hv
    obtain ⟨lam, -, g, -, rfl⟩ := hv
    cases hs : F.scal <;> simp [getObj, Form.objScale, hs]
  · intro v P' hv
    simp only [solCb, Option.bind_eq_some_iff, Option.map_eq_some_iff] at hv
    obtain ⟨lam, -, g, -, h⟩ := hv
    simp only [Prod.mk.injEq] at h
    obtain ⟨rfl, rfl⟩ := h
    cases hs : F.scal <;> simp [getObj, Form.objScale, hs]

/-! ## Histories -/

/-- The specification of a history without scaling: a getter returns what belongs to the newest iterate shown (or the
solution); `last` is what was shown. -/
def Consistent (last : Option (View K n m)) : List (Seen K n m) → Prop
  | [] => True
  | .iterate (some v) :: l => Consistent (some v) l
  | .solution (some v) :: l => Consistent (some v) l
  | .iterate none :: _ => False
  | .solution none :: _ => False
  | .duals r :: l => (∀ v, last = some v → r = some (v.zl, v.zu, v.lam)) ∧ Consistent last l
  | .objective f :: l => (∀ v, last = some v → f = v.obj) ∧ Consistent last l

theorem merge_buf {gl gu : RVec K m} {sp : Split K m} (h : splitConstraints gl gu = some sp) (b b' : RVec K m)
    {c d : List K} (hc : c.length = sp.eqMap.length) (hd : d.length = sp.ineqMap.length) :
    copyFromTwo b c sp.eqMap d sp.ineqMap = copyFromTwo b' c sp.eqMap d sp.ineqMap := by
  obtain ⟨v, h1, h2⟩ := merge_order h b hc hd
  obtain ⟨e1, e2, -⟩ := split_maps h
  obtain ⟨h3, h4⟩ := h2
  rw [← e1] at h3; rw [← e2] at h4
  rw [h1, ← h3, ← h4, merge_eq h]

/-- All iterates of a history have stored values of the right lengths. -/
def Sized (F : Form K m) : List (Ev K n m) → Prop
  | [] => True
  | .iterate P _ _ :: l => (P.yc.length = F.sp.eqMap.length ∧ P.yd.length = F.sp.ineqMap.length ∧
      P.c.length = F.sp.eqMap.length ∧ P.d.length = F.sp.ineqMap.length) ∧ Sized F l
  | .finish P _ _ :: l => (P.yc.length = F.sp.eqMap.length ∧ P.yd.length = F.sp.ineqMap.length ∧
      P.c.length = F.sp.eqMap.length ∧ P.d.length = F.sp.ineqMap.length) ∧ Sized F l
  | _ :: l => Sized F l

/-- **C69 (histories, no scaling).** Over every history of iterations, ends of runs and calls of the getters, the
getters return the multipliers and the objective of the iterate shown last.
Missing: with scaling the getter of the multipliers contradicts the callback (`C69_duals_scaled_false`). -/
theorem C69_history_partial {gl gu : RVec K m} {F : Form K m} (hF : F.Of gl gu) (hn : F.scal = none)
    (l : List (Ev K n m)) (hl : Sized F l) (P : Point K n) : Consistent none (session F P l) := by
  have key : ∀ (l : List (Ev K n m)) (P : Point K n) (last : Option (View K n m)), Sized F l →
      (∀ v, last = some v → v.zl = P.zl ∧ v.zu = P.zu ∧ v.obj = P.f ∧
        ∀ b, copyFromTwo b P.yc F.sp.eqMap P.yd F.sp.ineqMap = some v.lam) →
      Consistent last (session F P l) := by
    intro l
    induction l with
    | nil => intros; trivial
    | cons e l ih =>
      intro P last hl hlast
      cases e with
      | iterate Q bl bg =>
        obtain ⟨⟨s1, s2, s3, s4⟩, hl⟩ := hl
        obtain ⟨lam, h1, -⟩ := merge_order hF.split bl s1 s2
        obtain ⟨g, h2, -⟩ := merge_order hF.split bg s3 s4
        have e : iterCb F bl bg Q = some ⟨Q.x, Q.zl, Q.zu, Q.s, g, lam, Q.f / F.objScale⟩ := by
          simp [iterCb, h1, h2]
        simp only [session, step, e, Consistent]
        refine ih Q _ hl ?_
        rintro v ⟨⟩
        refine ⟨rfl, rfl, by simp [Form.objScale, hn], fun b => ?_⟩
        rw [merge_buf hF.split b bl s1 s2, h1]
      | finish Q bl bg =>
        obtain ⟨⟨s1, s2, s3, s4⟩, hl⟩ := hl
        obtain ⟨lam, h1, -⟩ := merge_order hF.split bl s1 s2
        obtain ⟨g, h2, -⟩ := merge_order hF.split bg s3 s4
        have e : solCb F bl bg Q = some (⟨Q.x, Q.zl, Q.zu, Q.s, g, lam, Q.f / F.objScale⟩, Q) := by
          simp [solCb, hn, h1, h2]
        simp only [session, step, e, Consistent]
        refine ih Q _ hl ?_
        rintro v ⟨⟩
        refine ⟨rfl, rfl, by simp [Form.objScale, hn], fun b => ?_⟩
        rw [merge_buf hF.split b bl s1 s2, h1]
      | duals te ti bl =>
        refine ⟨?_, ih P last hl hlast⟩
        intro v hv
        obtain ⟨a, b, -, d⟩ := hlast v hv
        simp [getDuals, hn, dualsUnscaled, d bl, a, b]
      | objective =>
        refine ⟨?_, ih P last hl hlast⟩
        intro v hv
        obtain ⟨-, -, c, -⟩ := hlast v hv
        simp [getObj, hn, c]
  exact key l P none hl (by simp)

/-! ## With scaling -/

/-- What the callback of an iteration shows with scaling: the user's objective, but every constraint value multiplied
by the factor of its constraint. -/
theorem C69_iterate_scaled_exact {gl gu : RVec K m} {F : Form K m} (hF : F.Of gl gu)
    {q : K × List K × List K} (hq : F.scal = some q) {P : Point K n} {fu : K} {g : RVec K m}
    (hP : P.Holds F fu g) (bl bg : RVec K m) :
    ∃ (t : RVec K m) (lam : RVec K m), InUserOrder gl gu q.2.1 q.2.2 t ∧ InUserOrder gl gu P.yc P.yd lam ∧
      iterCb F bl bg P = some ⟨P.x, P.zl, P.zu, P.s, fun i => g i * t i, lam, fu⟩ := by
  have hf := hP.f; have hc := hP.c; have hd := hP.d
  rw [hq] at hf hc hd
  simp only at hf hc hd
  obtain ⟨q0, q1, q2, -, -⟩ := hF.pos q hq
  obtain ⟨t, -, ht⟩ := merge_order hF.split bl q1 q2
  obtain ⟨lam, h1, h2⟩ := merge_order hF.split bl hP.yc hP.yd
  obtain ⟨e1, e2, -⟩ := split_maps hF.split
  refine ⟨t, lam, ht, h2, ?_⟩
  obtain ⟨t1, t2⟩ := ht
  rw [← e1] at t1; rw [← e2] at t2
  have r1 : P.c = F.sp.eqMap.map fun i => g i * t i := by
    rw [hc, ← t1]; simp [mulL, List.zipWith_map]
  have r2 : P.d = F.sp.ineqMap.map fun i => g i * t i := by
    rw [hd, ← t2]; simp [mulL, List.zipWith_map]
  rw [iterCb, h1, r1, r2, merge_eq hF.split]
  simp only [Option.bind_some, Option.map_some, Form.objScale, hq, hf]
  congr 2
  field_simp

/-- The problem of the examples: the constraints `g0 = 1` and `0 ≤ g1 ≤ 9`, factors 1/2 (objective), 1/4, 1/8. -/
def exForm : Form ℚ 2 where
  sp := ⟨[0], [1], [1], [0], [9]⟩
  scal := some (1 / 2, [1 / 4], [1 / 8])

/-- An iterate of it: the user's objective is 6, the user's constraint values are 1 and 8. -/
def exPoint : Point ℚ 1 where
  x := fun _ => 3
  zl := fun _ => 1
  zu := fun _ => 0
  s := [1]
  yc := [2]
  yd := [5]
  c := [1 / 4]
  d := [1]
  f := 3

theorem exForm_of : exForm.Of ![1, 0] ![1, 9] := by
  constructor
  · have : ∀ s : Option (Split ℚ 2), s.map (fun s => (s.eqMap, s.cRhs, s.ineqMap, s.dl, s.du)) =
        some ([0], [1], [1], [0], [9]) → s = some ⟨[0], [1], [1], [0], [9]⟩ := by
      intro s h
      cases s with
      | none => simp at h
      | some s => cases s; simp at h; simp [h]
    exact this _ (by decide +kernel)
  · intro q hq
    have : q = (1 / 2, [1 / 4], [1 / 8]) := by simpa [exForm] using hq.symm
    subst this
    simp [exForm]

theorem exPoint_holds : exPoint.Holds exForm 6 ![1, 8] := by
  constructor <;> simp [exPoint, exForm, mulL] <;> norm_num

/-- The full claim fails for iterations with scaling (finding): the objective is in the user's units, the constraint
values are not. Here the user is shown `1/4` and `1` for constraints that are `1` and `8`, and the equality `g0 = 1`
that holds looks violated. The callback at the end shows the right values of the same iterate. -/
theorem C69_iterate_scaled_false :
    ∃ (F : Form ℚ 2) (P : Point ℚ 1) (g : RVec ℚ 2) (fu : ℚ), F.Of ![1, 0] ![1, 9] ∧ P.Holds F fu g ∧
      ∀ bl bg, ∃ v w P', iterCb F bl bg P = some v ∧ solCb F bl bg P = some (w, P') ∧
        v.obj = fu ∧ w.g = g ∧ v.g 0 ≠ g 0 ∧ v.g 1 ≠ g 1 := by
  refine ⟨exForm, exPoint, ![1, 8], 6, exForm_of, exPoint_holds, ?_⟩
  intro bl bg
  obtain ⟨t, lam, ht, -, h⟩ := C69_iterate_scaled_exact exForm_of (q := (1 / 2, [1 / 4], [1 / 8])) rfl
    exPoint_holds bl bg
  obtain ⟨w, P', hw, -, hg, -⟩ := C69_solution exForm_of exPoint_holds bl bg
  have e1 : (List.finRange 2).filter (fun i => (![1, 0] : RVec ℚ 2) i = (![1, 9] : RVec ℚ 2) i) = [0] := by
    decide +kernel
  have e2 : (List.finRange 2).filter (fun i => (![1, 0] : RVec ℚ 2) i ≠ (![1, 9] : RVec ℚ 2) i) = [1] := by
    decide +kernel
  obtain ⟨t0, t1⟩ := ht
  rw [e1] at t0; rw [e2] at t1
  simp only [List.map_cons, List.map_nil, List.cons.injEq, and_true] at t0 t1
  refine ⟨_, w, P', h, hw, rfl, hg, ?_, ?_⟩
  · simp only [t0]; norm_num
  · simp only [t1]; norm_num

/-- The getter of the multipliers contradicts the callback at the end when there is scaling (finding), whatever the
contents of the work vectors: the callback changes the iterate in place, and the getter multiplies the changed bound
multipliers by the objective factor again. -/
theorem C69_duals_scaled_exact {F : Form K m} {q : K × List K × List K} (hq : F.scal = some q) {P P' : Point K n}
    {bl bg : RVec K m} {v : View K n m} (h : solCb F bl bg P = some (v, P')) (te ti : List K) (b : RVec K m)
    {r : RVec K n × RVec K n × RVec K m} (hr : getDuals F te ti b P' = some r) :
    (∀ i, v.zl i = q.1 * P.zl i ∧ v.zu i = q.1 * P.zu i) ∧
      ∀ i, r.1 i = q.1 * v.zl i ∧ r.2.1 i = q.1 * v.zu i := by
  simp only [solCb, hq, Option.bind_eq_some_iff, Option.map_eq_some_iff] at h
  obtain ⟨lam, -, g, -, h⟩ := h
  simp only [Prod.mk.injEq] at h
  obtain ⟨rfl, rfl⟩ := h
  simp only [getDuals, hq, dualsGetScaled, Option.map_eq_some_iff] at hr
  obtain ⟨lam', -, rfl⟩ := hr
  exact ⟨fun i => ⟨rfl, rfl⟩, fun i => ⟨rfl, rfl⟩⟩

theorem C69_duals_scaled_false :
    ∃ (F : Form ℚ 2) (P : Point ℚ 1), F.Of ![1, 0] ![1, 9] ∧ P.Holds F 6 ![1, 8] ∧
      ∀ bl bg, ∃ v P', solCb F bl bg P = some (v, P') ∧ v.zl 0 = 1 / 2 ∧
        ∀ te ti b r, getDuals F te ti b P' = some r → r.1 0 = 1 / 4 := by
  refine ⟨exForm, exPoint, exForm_of, exPoint_holds, ?_⟩
  intro bl bg
  obtain ⟨v, P', h, -⟩ := C69_solution exForm_of exPoint_holds bl bg
  have hq : exForm.scal = some (1 / 2, [1 / 4], [1 / 8]) := rfl
  have hz : v.zl 0 = 1 / 2 := by
    obtain ⟨lam, h1, -⟩ := merge_order exForm_of.split bl (c := [0]) (d := [0]) rfl rfl
    have := (C69_duals_scaled_exact hq h [0] [0] bl (r := (fun i => 1 / 2 * P'.zl i, fun i => 1 / 2 * P'.zu i,
      fun i => 1 / 2 * lam i)) (by simp [getDuals, hq, dualsGetScaled, mulL, h1])).1 0
    rw [this.1]; simp [exPoint]
  refine ⟨v, P', h, hz, ?_⟩
  intro te ti b r hr
  rw [((C69_duals_scaled_exact hq h te ti b hr).2 0).1, hz]
  norm_num

/-! ## With removed variables -/

/-- With removed variables both callbacks show the point of the reduced problem: the entries of the variables that
stay, in the user's order, without the others. `u` is the user's point that belongs to the iterate. -/
theorem C69_removed_exact {N nFixed : ℕ} {tol : K} {xl xu : RVec K N} {R : Remover K N}
    (h : mkRemover tol xl xu nFixed = some R) {F : Form K m} {P : Point K (N - R.nFixed)} {u fs0 : RVec K N}
    (hu : R.invVec P.x fs0 = some u) {bl bg : RVec K m} :
    (∀ v, iterCb F bl bg P = some v → List.ofFn v.x = (freeIdx tol xl xu).map u) ∧
      ∀ v P', solCb F bl bg P = some (v, P') → List.ofFn v.x = (freeIdx tol xl xu).map u := by
  obtain ⟨fs, h1, -, h2⟩ := C14_expand h P.x fs0
  rw [hu] at h1; cases h1
  constructor
  · intro v hv
    simp only [iterCb, Option.bind_eq_some_iff, Option.map_eq_some_iff] at hv
    obtain ⟨lam, -, g, -, rfl⟩ := hv
    exact h2.symm
  · intro v P' hv
    simp only [solCb, Option.bind_eq_some_iff, Option.map_eq_some_iff] at hv
    obtain ⟨lam, -, g, -, hv⟩ := hv
    simp only [Prod.mk.injEq] at hv
    obtain ⟨rfl, rfl⟩ := hv
    rw [h2]
    cases F.scal <;> rfl

/-- The full claim fails with removed variables (finding; the code carries a remark that this is untested): of two
variables the first is fixed at 5; the callbacks announce one variable, and its value is the one of the user's second
variable. -/
theorem C69_iterate_removed_false :
    ∃ R : Remover ℚ 2, mkRemover 0 ![5, 0] ![5, 1] 1 = some R ∧
      ∀ (F : Form ℚ m) (P : Point ℚ (2 - R.nFixed)) (u fs0 : RVec ℚ 2) (bl bg : RVec ℚ m) (v : View ℚ _ m),
        R.invVec P.x fs0 = some u → iterCb F bl bg P = some v → u 0 = 5 ∧ List.ofFn v.x = [u 1] := by
  have hs : (mkRemover (0:ℚ) (![5, 0] : RVec ℚ 2) (![5, 1]) 1).isSome := by decide +kernel
  obtain ⟨R, hR⟩ := Option.isSome_iff_exists.mp hs
  refine ⟨R, hR, ?_⟩
  intro F P u fs0 bl bg v hu hv
  obtain ⟨fs, h1, h2, -⟩ := C14_expand hR P.x fs0
  rw [hu] at h1; cases h1
  refine ⟨h2 0 (by decide +kernel), ?_⟩
  rw [(C69_removed_exact hR hu).1 v hv]
  have : freeIdx (0 : ℚ) (![5, 0] : RVec ℚ 2) ![5, 1] = [1] := by decide +kernel
  rw [this]; rfl

/-! ## The callback with all parts -/

/-- **C69 (all parts).** Called in the memory of the solver, the callback gets every part under its own name. -/
theorem C69_full_direct (asserts : Bool) (P : Parts K) :
    fullCb asserts false P =
      some ⟨some P.x, some P.zl, some P.zu, some P.yc, some P.yd, some P.s, some P.vl, some P.vu⟩ := rfl

/-- With copies to the host (finding) the arrays for the duals of the constraint bounds are never written, for any
iterate; and when the call is reached with assertions on, the duals of the variable bounds are replaced by them. -/
theorem C69_full_copies_false (asserts : Bool) (P : Parts K) (r : Full K) (h : fullCb asserts true P = some r) :
    r.vl = none ∧ r.vu = none ∧ (asserts = true → r.zl = some P.vl ∧ r.zu = some P.vu) := by
  simp only [fullCb, if_true, Option.bind_eq_some_iff, Option.map_eq_some_iff] at h
  obtain ⟨zl, h1, zu, h2, rfl⟩ := h
  refine ⟨rfl, rfl, ?_⟩
  rintro rfl
  simp only [toHost, if_true, Option.ite_none_right_eq_some, Option.some.injEq] at h1 h2
  exact ⟨by rw [← h1.2], by rw [← h2.2]⟩

/-- With assertions the call with copies fails unless there are as many inequalities as variables; without, it writes
beyond the end of an array when there are more. -/
theorem C69_full_copies_defined (asserts : Bool) (P : Parts K) :
    (fullCb asserts true P).isSome ↔
      if asserts then P.vl.length = P.zl.length ∧ P.vu.length = P.zu.length
      else P.vl.length ≤ P.zl.length ∧ P.vu.length ≤ P.zu.length := by
  cases asserts <;>
    simp only [fullCb, toHost, if_true, Bool.false_eq_true, if_false] <;>
    split_ifs <;> simp_all

/-! ## The forced update -/

/-- **C69 (forced update).** A user who agrees determines the point with which the run goes on. Missing: the
documentation says that the run stops with `User_Stopped` when the user does not agree
(`C69_force_refused_false`). -/
theorem C69_force_partial (asserts : Bool) (x : List K) : forceUpdate asserts (true, x) = .goesOn x := by
  cases asserts <;> rfl

/-- A refused forced update (finding) aborts the program, or, without assertions, is taken for an agreement. It is
never reported as a stop by the user, and the branch that reports a failed restoration is never taken. -/
theorem C69_force_refused_false (x : List K) :
    forceUpdate true (false, x) = .abort ∧ forceUpdate false (false, x) = .goesOn x ∧
      ∀ asserts ans, forceUpdate (K := K) asserts ans ≠ .userStopped ∧ forceUpdate (K := K) asserts ans ≠ .frError := by
  refine ⟨rfl, rfl, fun asserts ans => ?_⟩
  obtain ⟨a, y⟩ := ans
  cases asserts <;> cases a <;> simp [forceUpdate]

/-! ## Cases that meet the hypotheses -/

/-- The same problem without scaling. -/
def exForm' : Form ℚ 2 := { exForm with scal := none }

/-- The same iterate with unscaled values. -/
def exPoint' : Point ℚ 1 := { exPoint with c := [1], d := [8], f := 6 }

example : exForm'.Of ![1, 0] ![1, 9] ∧ exForm'.scal = none ∧ exPoint'.Holds exForm' 6 ![1, 8] :=
  ⟨⟨exForm_of.split, by simp [exForm']⟩, rfl, by constructor <;> simp [exPoint', exForm', exPoint, exForm]⟩

example : Sized exForm' [.iterate exPoint' 0 0, .duals [] [] 0, .finish exPoint' 0 0, .objective, .duals [] [] 0] := by
  simp [Sized, exForm', exPoint', exForm, exPoint]

/-- More variables than inequalities: with assertions the program aborts, without the user sees duals of constraints
as duals of variables. -/
example : fullCb true true (⟨[1, 2], [3, 4], [5, 6], [], [7], [8], [9], [10]⟩ : Parts ℚ) = none ∧
    (fullCb false true (⟨[1, 2], [3, 4], [5, 6], [], [7], [8], [9], [10]⟩ : Parts ℚ)).map (·.zl) =
      some (some [9, 4]) := by
  constructor <;> simp [fullCb, toHost]

end Hiop.Callback
