import Verif.Nlp.Bounds
import Mathlib.Tactic.LinearCombination

/-!
# Evaluation protocol of the constraints, multipliers given back to the user, multipliers
given to the user's Hessian (C31, C37, C38)
-/

set_option linter.unusedSectionVars false

namespace Hiop.Nlp

open Hiop.Vec

/-! ## Two-call and one-call evaluation of the constraints (C31) -/

/-- A call of the user's `eval_cons` or `eval_Jac_cons`: for the equalities, for the
inequalities, or (the overload without index list) for all constraints at once. -/
inductive UCall
  | eq | ineq | all
  deriving DecidableEq, Repr

/-- Calls made during one request, each with the user's answer, and what is returned to the
solver; `ty` is `cons_eval_type_` afterwards and `k` the number of calls made so far. -/
structure EvalRes where
  calls : List (UCall × Bool)
  ret : Bool
  ty : ℤ
  k : ℕ
  deriving DecidableEq, Repr

/-- `hiopNlpFormulation::eval_c_d`, hiopNlpFormulation.cpp:925-983, and `eval_Jac_c_d`,
hiopNlpFormulation.cpp:985-1033, which has the same structure with the Jacobian calls. `ans k` is
the user's answer to the `k`-th call. The short cut for linear problems needs `nlp_evaluated_`,
which is never set. -/
def evalCD (ans : ℕ → Bool) (ty : ℤ) (k : ℕ) : EvalRes :=
  if ty = -1 then
    if ans k then
      -- equalities succeeded: two-call mode, only the inequalities are still to be evaluated
      ⟨[(.eq, true), (.ineq, ans (k + 1))], ans (k + 1), 0, k + 2⟩
    else if ans (k + 1) then ⟨[(.eq, false), (.ineq, true)], false, 0, k + 2⟩
    else ⟨[(.eq, false), (.ineq, false), (.all, ans (k + 2))], ans (k + 2), 1, k + 3⟩
  else if ty = 0 then
    if ans k then ⟨[(.eq, true), (.ineq, ans (k + 1))], ans (k + 1), 0, k + 2⟩
    else ⟨[(.eq, false)], false, 0, k + 1⟩
  else ⟨[(.all, ans k)], ans k, ty, k + 1⟩

/-- A sequence of `q` requests (constraint values or Jacobians in any order: they share
`cons_eval_type_`). -/
def evalRun (ans : ℕ → Bool) (ty : ℤ) (k : ℕ) : ℕ → List EvalRes
  | 0 => []
  | q + 1 => evalCD ans ty k :: evalRun ans (evalCD ans ty k).ty (evalCD ans ty k).k q

/-- A request served in two-call mode: equalities first; inequalities only if that succeeded; the
result is true iff both calls succeeded. -/
def TwoCall (e : EvalRes) : Prop :=
  (e.calls = [(.eq, false)] ∧ e.ret = false) ∨ ∃ b, e.calls = [(.eq, true), (.ineq, b)] ∧ e.ret = b

/-- A request served in one-call mode: one call for all constraints; the result is the user's
answer. -/
def OneCall (e : EvalRes) : Prop := ∃ b, e.calls = [(.all, b)] ∧ e.ret = b

theorem evalCD_two (ans : ℕ → Bool) (k : ℕ) :
    TwoCall (evalCD ans 0 k) ∧ (evalCD ans 0 k).ty = 0 := by
  cases h : ans k <;> simp [evalCD, TwoCall, h]

theorem evalCD_one (ans : ℕ → Bool) (k : ℕ) :
    OneCall (evalCD ans 1 k) ∧ (evalCD ans 1 k).ty = 1 := by
  simp [evalCD, OneCall]

theorem evalRun_two (ans : ℕ → Bool) (q k : ℕ) : ∀ e ∈ evalRun ans 0 k q, TwoCall e := by
  induction q generalizing k with
  | zero => simp [evalRun]
  | succ q ih =>
    intro e he
    rw [evalRun, (evalCD_two ans k).2] at he
    rcases List.mem_cons.mp he with rfl | he
    · exact (evalCD_two ans k).1
    · exact ih _ e he

theorem evalRun_one (ans : ℕ → Bool) (q k : ℕ) : ∀ e ∈ evalRun ans 1 k q, OneCall e := by
  induction q generalizing k with
  | zero => simp [evalRun]
  | succ q ih =>
    intro e he
    rw [evalRun, (evalCD_one ans k).2] at he
    rcases List.mem_cons.mp he with rfl | he
    · exact (evalCD_one ans k).1
    · exact ih _ e he

/-- **C31.** For every stream of user answers and every number of requests, the first request
decides the mode for the whole run: two-call mode if the user answers at least one of the two
partial calls, one-call mode if the user refuses both. Every later request is served in that mode
only, and every request returns true only if the values it needed were delivered. -/
theorem C31_protocol (ans : ℕ → Bool) (q : ℕ) :
    ∃ first rest, evalRun ans (-1) 0 (q + 1) = first :: rest ∧ rest.length = q ∧
      ((∃ b, first.calls = [(.eq, true), (.ineq, b)] ∧ first.ret = b ∧ ∀ e ∈ rest, TwoCall e) ∨
       (first.calls = [(.eq, false), (.ineq, true)] ∧ first.ret = false ∧ ∀ e ∈ rest, TwoCall e) ∨
       (∃ b, first.calls = [(.eq, false), (.ineq, false), (.all, b)] ∧ first.ret = b ∧
          ∀ e ∈ rest, OneCall e)) := by
  have hlen : ∀ q ty k, (evalRun ans ty k q).length = q := by
    intro q
    induction q with
    | zero => intro ty k; rfl
    | succ q ih => intro ty k; rw [evalRun, List.length_cons, ih]
  refine ⟨_, _, rfl, hlen _ _ _, ?_⟩
  cases h0 : ans 0
  · cases h1 : ans 1
    · refine Or.inr (Or.inr ⟨ans 2, ?_, ?_, ?_⟩)
      · simp [evalCD, h0, h1]
      · simp [evalCD, h0, h1]
      · have : (evalCD ans (-1) 0).ty = 1 := by simp [evalCD, h0, h1]
        rw [this]; exact evalRun_one ans q _
    · refine Or.inr (Or.inl ⟨?_, ?_, ?_⟩)
      · simp [evalCD, h0, h1]
      · simp [evalCD, h0, h1]
      · have : (evalCD ans (-1) 0).ty = 0 := by simp [evalCD, h0, h1]
        rw [this]; exact evalRun_two ans q _
  · refine Or.inl ⟨ans 1, ?_, ?_, ?_⟩
    · simp [evalCD, h0]
    · simp [evalCD, h0]
    · have : (evalCD ans (-1) 0).ty = 0 := by simp [evalCD, h0]
      rw [this]; exact evalRun_two ans q _

/-- The answers recorded in the trace are the user's, in order, none skipped. -/
theorem C31_answers_in_order (ans : ℕ → Bool) (q : ℕ) (ty : ℤ) (k : ℕ) :
    ∃ N, ((evalRun ans ty k q).flatMap fun e => e.calls.map Prod.snd) =
      (List.range N).map fun i => ans (k + i) := by
  induction q generalizing ty k with
  | zero => exact ⟨0, rfl⟩
  | succ q ih =>
    have h1 : ∃ N, (evalCD ans ty k).calls.map Prod.snd = (List.range N).map (fun i => ans (k + i)) ∧
        (evalCD ans ty k).k = k + N := by
      unfold evalCD
      split_ifs with a b c d e
      · exact ⟨2, by simp [List.range_succ, b], rfl⟩
      · exact ⟨2, by simp [List.range_succ, b, c], rfl⟩
      · exact ⟨3, by simp [List.range_succ, b, c], rfl⟩
      · exact ⟨2, by simp [List.range_succ, e], rfl⟩
      · exact ⟨1, by simp [List.range_succ, e], rfl⟩
      · exact ⟨1, by simp [List.range_succ], rfl⟩
    obtain ⟨N, e1, e2⟩ := h1
    obtain ⟨N', e3⟩ := ih (evalCD ans ty k).ty (evalCD ans ty k).k
    refine ⟨N + N', ?_⟩
    rw [evalRun, List.flatMap_cons, e1, e3, e2, List.range_add, List.map_append, List.map_map]
    congr 1
    apply List.map_congr_left
    intro i _
    simp [Nat.add_assoc]

example : (evalRun (fun k => k ≥ 2) (-1) 0 3).map (fun e => (e.calls, e.ret)) =
    [([(.eq, false), (.ineq, false), (.all, true)], true), ([(.all, true)], true),
     ([(.all, true)], true)] := by decide

/-- A consequence a user of the two-call interface should know (finding): if both partial
evaluations fail at the first point, for instance because the starting point is outside the
domain of the functions, the partial interface is never called again. -/
theorem C31_transient_failure_switches_mode (ans : ℕ → Bool) (q : ℕ)
    (h0 : ans 0 = false) (h1 : ans 1 = false) :
    ∀ e ∈ (evalRun ans (-1) 0 (q + 1)).tail, ∀ c ∈ e.calls, c.1 = .all := by
  intro e he c hc
  have : (evalCD ans (-1) 0).ty = 1 := by simp [evalCD, h0, h1]
  rw [evalRun, List.tail_cons, this] at he
  obtain ⟨b, hb, -⟩ := evalRun_one ans q _ e he
  rw [hb, List.mem_singleton] at hc
  rw [hc]

/-! ## Multipliers returned to the user (C37) -/

variable {K : Type*} [Field K] [LinearOrder K] [IsStrictOrderedRing K] {n m : ℕ}

/-- Componentwise product of two arrays (`componentMult`). -/
def mulL (a b : List K) : List K := List.zipWith (· * ·) a b

/-- `user_callback_solution` without scaling, and `get_dual_solutions` without scaling,
hiopNlpFormulation.cpp:1039-1048 and 1108: bound multipliers copied, constraint multipliers
merged through the maps. -/
def dualsUnscaled (zl zu : RVec K n) (yc yd : List K) (sp : Split K m) (buf : RVec K m) :
    Option (RVec K n × RVec K n × RVec K m) :=
  (copyFromTwo buf yc sp.eqMap yd sp.ineqMap).map fun lam => (zl, zu, lam)

/-- `user_callback_solution` with scaling, hiopNlpFormulation.cpp:1097-1108. -/
def dualsCallbackScaled (so : K) (sc sd : List K) (zl zu : RVec K n) (yc yd : List K)
    (sp : Split K m) (buf : RVec K m) : Option (RVec K n × RVec K n × RVec K m) :=
  (copyFromTwo buf ((mulL yc sc).map (so * ·)) sp.eqMap
    ((mulL yd sd).map (so * ·)) sp.ineqMap).map
    fun lam => (fun i => so * zl i, fun i => so * zu i, lam)

/-- `get_dual_solutions` with scaling, hiopNlpFormulation.cpp:1049-1074; `tEq` and `tIneq` are the
contents of the work vectors `temp_eq_` and `temp_ineq_`, which are never assigned the
multipliers. -/
def dualsGetScaled (so : K) (sc sd : List K) (tEq tIneq : List K) (zl zu : RVec K n)
    (_yc _yd : List K) (sp : Split K m) (buf : RVec K m) :
    Option (RVec K n × RVec K n × RVec K m) :=
  (copyFromTwo buf (mulL tEq sc) sp.eqMap (mulL tIneq sd) sp.ineqMap).map
    fun lam => (fun i => so * zl i, fun i => so * zu i, fun i => so * lam i)

/-- Stationarity of the user's problem at a point with objective gradient `g` and Jacobian rows
`J`, for multipliers `lam`, `zl`, `zu` (specification). -/
def Stationary (g : RVec K n) (J : Fin m → RVec K n) (lam : RVec K m) (zl zu : RVec K n) : Prop :=
  ∀ j, g j + ∑ i, lam i * J i j - zl j + zu j = 0

/-- Stationarity of the solver's problem: objective scaled by `so`, constraint rows (picked by the
maps) scaled by `sc` and `sd` (specification). -/
def StationarySolver (so : K) (sc sd : List K) (sp : Split K m) (g : RVec K n)
    (J : Fin m → RVec K n) (yc yd : List K) (zl zu : RVec K n) : Prop :=
  ∀ j, so * g j + (List.zipWith (fun y i => y * J i j) (mulL yc sc) sp.eqMap).sum
    + (List.zipWith (fun y i => y * J i j) (mulL yd sd) sp.ineqMap).sum - zl j + zu j = 0

theorem zipWith_map_sum (l : List (Fin m)) (lam : RVec K m) (F : Fin m → K) :
    (List.zipWith (fun y i => y * F i) (l.map lam) l).sum = (l.map fun i => lam i * F i).sum := by
  induction l with
  | nil => rfl
  | cons a l ih => simp [ih]

theorem sum_over_split {gl gu : RVec K m} {sp : Split K m} (hsp : splitConstraints gl gu = some sp)
    {c d : List K} {buf lam : RVec K m} (hc : c.length = sp.eqMap.length)
    (hd : d.length = sp.ineqMap.length)
    (h : copyFromTwo buf c sp.eqMap d sp.ineqMap = some lam) (F : Fin m → K) :
    ∑ i, lam i * F i = (List.zipWith (fun y i => y * F i) c sp.eqMap).sum +
      (List.zipWith (fun y i => y * F i) d sp.ineqMap).sum := by
  obtain ⟨s, hs, -, -, -, -, hperm, -⟩ := C13_split gl gu
  rw [hsp] at hs; cases hs
  obtain ⟨out, h1, h2⟩ := merge_then_split c d sp.eqMap sp.ineqMap hc hd hperm buf
  rw [h] at h1; cases h1
  simp only [copyToTwo, Prod.mk.injEq] at h2
  have e1 : ∑ i, lam i * F i = ((List.finRange m).map fun i => lam i * F i).sum := by
    rw [← List.ofFn_eq_map, List.sum_ofFn]
  rw [e1, ← (hperm.map _).sum_eq, List.map_append, List.sum_append,
    ← zipWith_map_sum, ← zipWith_map_sum, h2.1, h2.2]

theorem merge_defined {gl gu : RVec K m} {sp : Split K m} (hsp : splitConstraints gl gu = some sp)
    {c d : List K} (buf : RVec K m) (hc : c.length = sp.eqMap.length)
    (hd : d.length = sp.ineqMap.length) :
    ∃ lam, copyFromTwo buf c sp.eqMap d sp.ineqMap = some lam := by
  obtain ⟨s, hs, -, -, -, -, hperm, -⟩ := C13_split gl gu
  rw [hsp] at hs; cases hs
  obtain ⟨out, h1, -⟩ := merge_then_split c d sp.eqMap sp.ineqMap hc hd hperm buf
  exact ⟨out, h1⟩

theorem mulL_ones (y : List K) (k : ℕ) (h : y.length = k) : mulL y (List.replicate k 1) = y := by
  subst h
  induction y with
  | nil => rfl
  | cons a y ih => simp [mulL, List.replicate_succ] at ih ⊢; exact ih

/-- **C37 (no scaling).** Without scaling, multipliers of a stationary solver iterate are returned
as multipliers for which the user's problem is stationary, in the user's constraint order.
Missing: the scaled case, in which the code violates the property
(`C37_callback_scaled_exact`, `C37_callback_scaled_false`, `C37_getter_scaled_false`). -/
theorem C37_unscaled_partial {gl gu : RVec K m} {sp : Split K m}
    (hsp : splitConstraints gl gu = some sp) (g : RVec K n) (J : Fin m → RVec K n)
    (yc yd : List K) (zl zu : RVec K n) (buf : RVec K m)
    (hc : yc.length = sp.eqMap.length) (hd : yd.length = sp.ineqMap.length)
    (hst : StationarySolver 1 (List.replicate yc.length 1) (List.replicate yd.length 1) sp g J
      yc yd zl zu) :
    ∃ lam, dualsUnscaled zl zu yc yd sp buf = some (zl, zu, lam) ∧ Stationary g J lam zl zu := by
  obtain ⟨lam, hl⟩ := merge_defined hsp buf hc hd
  refine ⟨lam, by simp [dualsUnscaled, hl], ?_⟩
  intro j
  have := hst j
  rw [mulL_ones _ _ rfl, mulL_ones _ _ rfl] at this
  rw [sum_over_split hsp hc hd hl (fun i => J i j)]
  linarith

theorem zipWith_smul_sum (so : K) (w : List K) (l : List (Fin m)) (F : Fin m → K) :
    (List.zipWith (fun y i => y * F i) (w.map (so * ·)) l).sum =
      so * (List.zipWith (fun y i => y * F i) w l).sum := by
  induction w generalizing l with
  | nil => simp
  | cons a w ih =>
    cases l with
    | nil => simp
    | cons b l => simp [ih, mul_add, mul_assoc]

/-- What the solution callback really returns with scaling: multipliers for the user's problem
with the objective multiplied by the *square* of the objective factor. -/
theorem C37_callback_scaled_exact {gl gu : RVec K m} {sp : Split K m}
    (hsp : splitConstraints gl gu = some sp) (so : K) (sc sd : List K) (g : RVec K n)
    (J : Fin m → RVec K n) (yc yd : List K) (zl zu : RVec K n) (buf : RVec K m)
    (hc : yc.length = sp.eqMap.length) (hd : yd.length = sp.ineqMap.length)
    (hsc : sc.length = yc.length) (hsd : sd.length = yd.length)
    (hst : StationarySolver so sc sd sp g J yc yd zl zu) :
    ∃ zl' zu' lam, dualsCallbackScaled so sc sd zl zu yc yd sp buf = some (zl', zu', lam) ∧
      Stationary (fun j => so ^ 2 * g j) J lam zl' zu' := by
  have h1 : ((mulL yc sc).map (so * ·)).length = sp.eqMap.length := by simp [mulL, hsc, hc]
  have h2 : ((mulL yd sd).map (so * ·)).length = sp.ineqMap.length := by simp [mulL, hsd, hd]
  obtain ⟨lam, hl⟩ := merge_defined hsp buf h1 h2
  refine ⟨_, _, lam, by simp only [dualsCallbackScaled, hl, Option.map_some]; rfl, ?_⟩
  intro j
  have := hst j
  rw [sum_over_split hsp h1 h2 hl (fun i => J i j), zipWith_smul_sum, zipWith_smul_sum]
  change so ^ 2 * g j + _ - so * zl j + so * zu j = 0
  linear_combination so * this

/-- With an objective factor of one (only constraints scaled) the callback is right. -/
theorem C37_callback_unit_objective {gl gu : RVec K m} {sp : Split K m}
    (hsp : splitConstraints gl gu = some sp) (sc sd : List K) (g : RVec K n)
    (J : Fin m → RVec K n) (yc yd : List K) (zl zu : RVec K n) (buf : RVec K m)
    (hc : yc.length = sp.eqMap.length) (hd : yd.length = sp.ineqMap.length)
    (hsc : sc.length = yc.length) (hsd : sd.length = yd.length)
    (hst : StationarySolver 1 sc sd sp g J yc yd zl zu) :
    ∃ zl' zu' lam, dualsCallbackScaled 1 sc sd zl zu yc yd sp buf = some (zl', zu', lam) ∧
      Stationary g J lam zl' zu' := by
  obtain ⟨zl', zu', lam, h1, h2⟩ :=
    C37_callback_scaled_exact hsp 1 sc sd g J yc yd zl zu buf hc hd hsc hsd hst
  refine ⟨zl', zu', lam, h1, ?_⟩
  intro j
  have := h2 j
  simpa using this

/-- The full property fails for the solution callback (finding; the comment in the code asks for
a division): minimise `x` subject to `x ≥ 0`, objective factor 1/2. The solver's multiplier is
1/2, the user is told 1/4, the user's problem has multiplier 1. -/
theorem C37_callback_scaled_false :
    ∃ (so : ℚ) (g zl zu : RVec ℚ 1) (J : Fin 0 → RVec ℚ 1) (sp : Split ℚ 0) (buf : RVec ℚ 0)
      (zl' zu' : RVec ℚ 1) (lam : RVec ℚ 0),
      0 < so ∧ StationarySolver so [] [] sp g J [] [] zl zu ∧
      dualsCallbackScaled so [] [] zl zu [] [] sp buf = some (zl', zu', lam) ∧
      ¬ Stationary g J lam zl' zu' := by
  refine ⟨1/2, fun _ => 1, fun _ => 1/2, fun _ => 0, fun i => i.elim0, ⟨[], [], [], [], []⟩,
    fun i => i.elim0, fun _ => 1/2 * (1/2), fun _ => 1/2 * 0, fun i => i.elim0, by norm_num, ?_, ?_, ?_⟩
  · intro j; simp [mulL]
  · simp only [dualsCallbackScaled, mulL, copyFromTwo]
    simp
  · intro h
    have := h 0
    norm_num at this

/-- The getter ignores the constraint multipliers altogether when scaling is on (finding): its
result does not depend on them. -/
theorem C37_getter_ignores_multipliers (so : K) (sc sd tEq tIneq : List K) (zl zu : RVec K n)
    (yc yc' yd yd' : List K) (sp : Split K m) (buf : RVec K m) :
    dualsGetScaled so sc sd tEq tIneq zl zu yc yd sp buf =
      dualsGetScaled so sc sd tEq tIneq zl zu yc' yd' sp buf := rfl

/-- Hence it cannot be right: two solver iterates with different multipliers, both stationary, are
given the same answer, which is stationary for at most one of them. Here `m = 1` equality
`x = 0`, gradients 1 and 2 and multipliers -1 and -2, all factors 1. -/
theorem C37_getter_scaled_false (t : ℚ) :
    ∃ (g : RVec ℚ 1) (y : ℚ), StationarySolver 1 [1] [] ⟨[0], [0], [], [], []⟩ g
        (fun _ : Fin 1 => fun _ => 1) [y] [] (fun _ => 0) (fun _ => 0) ∧
      ∀ zl' zu' lam, dualsGetScaled 1 [1] [] [t] [] (fun _ => 0) (fun _ => 0) [y] []
        ⟨[0], [0], [], [], []⟩ (fun _ => 0) = some (zl', zu', lam) →
        ¬ Stationary g (fun _ : Fin 1 => fun _ => 1) lam zl' zu' := by
  refine ⟨fun _ => 1 - t, t - 1, ?_, ?_⟩
  · intro j; simp [mulL]
  · intro zl' zu' lam h hst
    simp only [dualsGetScaled, mulL, copyFromTwo] at h
    simp at h
    obtain ⟨rfl, rfl, rfl⟩ := h
    have := hst 0
    simp at this

/-! ## Multipliers given to the user's Hessian (C38) -/

/-- `hiopNlpSparse::eval_Hess_Lagr`, multipliers passed to the user,
hiopNlpFormulation.cpp:2048-2056: merged through the maps, then multiplied by the merged factors
`cd` (all 1 without scaling). -/
def hessLambdaSparse (yc yd : List K) (sp : Split K m) (cd buf : RVec K m) :
    Option (RVec K m) :=
  (copyFromTwo buf yc sp.eqMap yd sp.ineqMap).map fun lam => fun i => lam i * cd i

/-- `hiopNlpMDS::eval_Hess_Lagr`, multipliers passed to the user,
hiopNlpFormulation.cpp:1834-1841: equalities first, then inequalities, then multiplied by the
merged factors `cd`. -/
def hessLambdaMds (yc yd : List K) (cd : RVec K m) : RVec K m :=
  fun i => (yc ++ yd).getD i.val 0 * cd i

/-- An entry of the Hessian of the solver's Lagrangian, from the entries `h0` of the objective's
and `H i` of the constraints' Hessians (specification). -/
def lagrHess (so σ : K) (sc sd : List K) (sp : Split K m) (yc yd : List K) (h0 : K)
    (H : Fin m → K) : K :=
  σ * so * h0 + (List.zipWith (fun y i => y * H i) (mulL yc sc) sp.eqMap).sum +
    (List.zipWith (fun y i => y * H i) (mulL yd sd) sp.ineqMap).sum

/-- What a user computes who takes `lam i` to be the multiplier of constraint `i`
(the order of `eval_cons`). -/
def userHessOwnOrder (f : K) (lam : RVec K m) (h0 : K) (H : Fin m → K) : K :=
  f * h0 + ∑ i, lam i * H i

/-- What a user computes who follows the documented order `lambda = [lambda_eq, lambda_ineq]`
(hiopInterface.hpp:742 and 857): the `k`-th multiplier belongs to the `k`-th entry of the
concatenated index maps. -/
def userHessDocumented (f : K) (lam : RVec K m) (sp : Split K m) (h0 : K) (H : Fin m → K) : K :=
  f * h0 + ((List.finRange m).map fun k =>
    match (sp.eqMap ++ sp.ineqMap)[k.val]? with
    | some i => lam k * H i
    | none => 0).sum

theorem zipWith_mul_sum (y s : List K) (l : List (Fin m)) (F : Fin m → K) (cd : RVec K m)
    (h : s = l.map cd) :
    (List.zipWith (fun y i => y * F i) (mulL y s) l).sum =
      (List.zipWith (fun y i => y * (cd i * F i)) y l).sum := by
  subst h
  unfold mulL
  induction l generalizing y with
  | nil => simp
  | cons a l ih =>
    cases y with
    | nil => simp
    | cons b y => simp [ih, mul_assoc]

/-- **C38 (sparse problems).** A user who pairs multiplier `i` with constraint `i` returns exactly
the Hessian of the solver's Lagrangian, for every interleaving of equalities and inequalities,
provided the merged factors are the blocks' factors (see `C16_cd_factor_consistent`; not the case
for some option values). -/
theorem C38_sparse_own_order_partial {gl gu : RVec K m} {sp : Split K m}
    (hsp : splitConstraints gl gu = some sp) (so σ : K) (cd buf : RVec K m) (yc yd : List K)
    (hc : yc.length = sp.eqMap.length) (hd : yd.length = sp.ineqMap.length)
    (h0 : K) (H : Fin m → K) :
    ∃ lam, hessLambdaSparse yc yd sp cd buf = some lam ∧
      userHessOwnOrder (σ * so) lam h0 H =
        lagrHess so σ (sp.eqMap.map cd) (sp.ineqMap.map cd) sp yc yd h0 H := by
  obtain ⟨lam, hl⟩ := merge_defined hsp buf hc hd
  refine ⟨fun i => lam i * cd i, by simp [hessLambdaSparse, hl], ?_⟩
  have := sum_over_split hsp hc hd hl (fun i => cd i * H i)
  unfold userHessOwnOrder lagrHess
  rw [zipWith_mul_sum yc _ _ H cd rfl, zipWith_mul_sum yd _ _ H cd rfl, add_assoc, ← this]
  simp [mul_assoc]

/-- **C38 (sparse problems, documented order).** The documented order is not the order passed
(finding): one inequality followed by one equality. -/
theorem C38_sparse_documented_false :
    ∃ (gl gu : RVec ℚ 2) (sp : Split ℚ 2) (lam : RVec ℚ 2) (H : Fin 2 → ℚ),
      splitConstraints gl gu = some sp ∧
      hessLambdaSparse [1] [0] sp (fun _ => 1) (fun _ => 0) = some lam ∧
      userHessDocumented 1 lam sp 0 H ≠ lagrHess 1 1 [1] [1] sp [1] [0] 0 H := by
  refine ⟨![0, 5], ![1, 5], _, ![0, 1], ![1, 0], splitConstraints_eq _ _, ?_, ?_⟩
  · have e1 : eqIdx (![0, 5] : RVec ℚ 2) ![1, 5] = [1] := by decide +kernel
    have e2 : ineqIdx (![0, 5] : RVec ℚ 2) ![1, 5] = [0] := by decide +kernel
    simp only [e1, e2, hessLambdaSparse, copyFromTwo]
    rw [if_pos (by simp)]
    simp only [Option.map_some]
    congr 1; funext i; fin_cases i <;> simp
  · have e1 : eqIdx (![0, 5] : RVec ℚ 2) ![1, 5] = [1] := by decide +kernel
    have e2 : ineqIdx (![0, 5] : RVec ℚ 2) ![1, 5] = [0] := by decide +kernel
    simp only [e1, e2, userHessDocumented, lagrHess, mulL]
    decide +kernel

theorem documented_sum (l : List (Fin m)) (hl : l.length = m) (y : List K) (hy : y.length = m)
    (cd : RVec K m) (H : Fin m → K) (hcd : ∀ i, cd i = 1) :
    ((List.finRange m).map fun k => match l[k.val]? with
      | some i => y.getD k.val 0 * cd k * H i
      | none => 0).sum = (List.zipWith (fun y i => y * H i) y l).sum := by
  have : (List.finRange m).map (fun k => match l[k.val]? with
      | some i => y.getD k.val 0 * cd k * H i
      | none => 0) = List.zipWith (fun y i => y * H i) y l := by
    apply List.ext_getElem
    · simp [hl, hy]
    · intro j h1 h2
      have hj : j < m := by simpa using h1
      simp only [List.getElem_map, List.getElem_finRange, List.getElem_zipWith, hcd, mul_one]
      rw [List.getElem?_eq_getElem (by simpa [hl] using hj)]
      simp [List.getD_eq_getElem?_getD, List.getElem?_eq_getElem (by simpa [hy] using hj : j < y.length)]
  rw [this]

/-- **C38 (MDS problems, no scaling).** A user who follows the documented order returns exactly the
Hessian of the Lagrangian. -/
theorem C38_mds_documented_partial {gl gu : RVec K m} {sp : Split K m}
    (hsp : splitConstraints gl gu = some sp) (σ : K) (yc yd : List K)
    (hc : yc.length = sp.eqMap.length) (hd : yd.length = sp.ineqMap.length)
    (h0 : K) (H : Fin m → K) :
    userHessDocumented σ (hessLambdaMds yc yd (fun _ => 1)) sp h0 H =
      lagrHess 1 σ (List.replicate yc.length 1) (List.replicate yd.length 1) sp yc yd h0 H := by
  obtain ⟨s, hs, -, -, -, -, hperm, -⟩ := C13_split gl gu
  rw [hsp] at hs; cases hs
  have hl : (sp.eqMap ++ sp.ineqMap).length = m := by
    rw [hperm.length_eq, List.length_finRange]
  unfold userHessDocumented lagrHess hessLambdaMds
  rw [documented_sum (sp.eqMap ++ sp.ineqMap) hl (yc ++ yd)
    (by rw [List.length_append, hc, hd, ← List.length_append]; exact hl) (fun _ => 1) H
    (fun _ => rfl), List.zipWith_append hc, List.sum_append, mulL_ones _ _ rfl,
    mulL_ones _ _ rfl, mul_one, add_assoc]

/-- **C38 (MDS problems, scaling).** With scaling the factors, stored in the user's order, are
applied to multipliers stored in the documented order (finding): one inequality with factor 1
followed by one equality with factor 1/2. -/
theorem C38_mds_scaled_false :
    ∃ (gl gu : RVec ℚ 2) (sp : Split ℚ 2) (cd : RVec ℚ 2) (H : Fin 2 → ℚ),
      splitConstraints gl gu = some sp ∧
      userHessDocumented 1 (hessLambdaMds [1] [0] cd) sp 0 H ≠
        lagrHess 1 1 (sp.eqMap.map cd) (sp.ineqMap.map cd) sp [1] [0] 0 H := by
  refine ⟨![0, 5], ![1, 5], _, ![1, 1/2], ![0, 1], splitConstraints_eq _ _, ?_⟩
  have e1 : eqIdx (![0, 5] : RVec ℚ 2) ![1, 5] = [1] := by decide +kernel
  have e2 : ineqIdx (![0, 5] : RVec ℚ 2) ![1, 5] = [0] := by decide +kernel
  simp only [e1, e2, userHessDocumented, lagrHess, mulL, hessLambdaMds]
  decide +kernel

end Hiop.Nlp
