import Verif.IneqForm.Model
import Mathlib.Tactic.Linarith
import Mathlib.Tactic.NormNum
import Mathlib.Tactic.Positivity

/-!
# The formulation without equalities (C70)
-/

set_option linter.unusedSectionVars false

namespace Hiop.IneqForm

open Hiop.Vec Hiop.Nlp

variable {K : Type*} [Field K] [LinearOrder K] [IsStrictOrderedRing K] {m n : ℕ}

/-! ## Specification -/

/-- Constraint values `v` satisfy the user's constraints; bounds beyond `±10^20` do not count. -/
def UserFeasible (gl gu v : RVec K m) : Prop :=
  ∀ i, (-10 ^ 20 < gl i → gl i ≤ v i) ∧ (gu i < 10 ^ 20 → v i ≤ gu i)

/-- Constraint values satisfy what the solver enforces: for every inequality of the solver, at the user's constraint
given by the map, the bounds whose indicator is set. -/
def SolverFeasible (r : Res K m) (v : RVec K m) : Prop :=
  ∀ (k : ℕ) (i : Fin m) (l u a b : K), r.ineqMap[k]? = some i → r.dl[k]? = some l → r.du[k]? = some u →
    r.info.idl[k]? = some a → r.info.idu[k]? = some b → (a = 1 → l ≤ v i) ∧ (b = 1 → v i ≤ u)

/-! ## The loop -/

theorem fold_spec (e : K) (gl gu : RVec K m) (l : List (Fin m)) (s : Acc K m) :
    l.foldl (body e gl gu) s =
      ⟨s.map ++ l,
       s.dl ++ l.map (fun i => if gl i = gu i then gl i - e * max |gl i| 1 else gl i),
       s.du ++ l.map (fun i => if gl i = gu i then gu i + e * max |gl i| 1 else gu i),
       s.nEq + l.countP (fun i => gl i = gu i)⟩ := by
  induction l generalizing s with
  | nil => simp
  | cons i l ih =>
    rw [List.foldl_cons, ih]
    by_cases h : gl i = gu i
    · simp [body, h]; omega
    · simp [body, h]

/-- The bounds given to the solver for constraint `i`. -/
def low (e : K) (gl gu : RVec K m) (i : Fin m) : K := if gl i = gu i then gl i - e * max |gl i| 1 else gl i
/-- See `low`. -/
def upp (e : K) (gl gu : RVec K m) (i : Fin m) : K := if gl i = gu i then gu i + e * max |gl i| 1 else gu i

/-- **C70 (structure).** The solver's problem has no equalities and all of the user's constraints as inequalities, in
the user's order, none lost and none twice; proper inequalities keep their bounds; the counters are right. -/
theorem C70_structure (e : K) (gl gu : RVec K m) :
    let r := processConstraints e gl gu
    r.eqMap = [] ∧ r.cRhs = [] ∧ r.ineqMap = List.finRange m ∧
      (∀ i : Fin m, gl i ≠ gu i → r.dl[i.val]? = some (gl i) ∧ r.du[i.val]? = some (gu i)) ∧
      (∀ i : Fin m, gl i = gu i → r.dl[i.val]? = some (gl i - e * max |gl i| 1) ∧
        r.du[i.val]? = some (gl i + e * max |gl i| 1)) ∧
      r.dl.length = m ∧ r.du.length = m ∧
      r.nEqOrig = (Finset.univ.filter fun i => gl i = gu i).card := by
  intro r
  have hr : r = processConstraints e gl gu := rfl
  simp only [processConstraints, fold_spec, List.nil_append] at hr
  rw [hr]
  refine ⟨rfl, rfl, rfl, ?_, ?_, by simp, by simp, ?_⟩
  · intro i hi; simp [hi]
  · intro i hi; simp [hi]
  · simp only [Nat.zero_add]
    rw [List.countP_eq_length_filter, ← List.toFinset_card_of_nodup ((List.nodup_finRange m).filter _)]
    congr 1
    ext i; simp

theorem entries (e : K) (gl gu : RVec K m) (k : ℕ) (i : Fin m)
    (h : (processConstraints e gl gu).ineqMap[k]? = some i) :
    (processConstraints e gl gu).dl[k]? = some (low e gl gu i) ∧
      (processConstraints e gl gu).du[k]? = some (upp e gl gu i) ∧
      (processConstraints e gl gu).info.idl[k]? = some (if -10 ^ 20 < low e gl gu i then 1 else 0) ∧
      (processConstraints e gl gu).info.idu[k]? = some (if upp e gl gu i < 10 ^ 20 then 1 else 0) := by
  have hm : (processConstraints e gl gu).ineqMap = List.finRange m := (C70_structure e gl gu).2.2.1
  rw [hm] at h
  obtain ⟨hk, hi⟩ := List.getElem?_eq_some_iff.mp h
  have hdl : (processConstraints e gl gu).dl = (List.finRange m).map (low e gl gu) := by
    simp only [processConstraints, fold_spec, List.nil_append]; rfl
  have hdu : (processConstraints e gl gu).du = (List.finRange m).map (upp e gl gu) := by
    simp only [processConstraints, fold_spec, List.nil_append]; rfl
  have hinfo : (processConstraints e gl gu).info =
      ineqInfo (processConstraints e gl gu).dl (processConstraints e gl gu).du := rfl
  have hz : ((List.finRange m).map (low e gl gu)).zip ((List.finRange m).map (upp e gl gu)) =
      (List.finRange m).map fun i => (low e gl gu i, upp e gl gu i) := by
    rw [List.zip_map', ]
  obtain ⟨h1, h2, -⟩ := C12_ineq_classified (processConstraints e gl gu).dl (processConstraints e gl gu).du
  rw [hinfo, h1, h2, hdl, hdu, hz]
  simp only [List.getElem?_map, h, Option.map_some]
  exact ⟨trivial, trivial, trivial, trivial⟩

theorem one_of_ite {p : Prop} [Decidable p] (h : (if p then (1 : K) else 0) = 1) : p := by
  by_contra hp
  rw [if_neg hp] at h
  exact zero_ne_one h

/-- The solver enforces, for every constraint, the relaxed bounds that are finite. -/
theorem solverFeasible_iff (e : K) (gl gu v : RVec K m) :
    SolverFeasible (processConstraints e gl gu) v ↔
      ∀ i, (-10 ^ 20 < low e gl gu i → low e gl gu i ≤ v i) ∧ (upp e gl gu i < 10 ^ 20 → v i ≤ upp e gl gu i) := by
  constructor
  · intro h i
    have hm : (processConstraints e gl gu).ineqMap[i.val]? = some i := by
      rw [(C70_structure e gl gu).2.2.1]; simp
    obtain ⟨h1, h2, h3, h4⟩ := entries e gl gu i.val i hm
    obtain ⟨a, b⟩ := h i.val i _ _ _ _ hm h1 h2 h3 h4
    exact ⟨fun q => a (if_pos q), fun q => b (if_pos q)⟩
  · intro h k i l u a b hm hl hu ha hb
    obtain ⟨h1, h2, h3, h4⟩ := entries e gl gu k i hm
    rw [h1] at hl; rw [h2] at hu; rw [h3] at ha; rw [h4] at hb
    cases hl; cases hu; cases ha; cases hb
    exact ⟨fun q => (h i).1 (one_of_ite q), fun q => (h i).2 (one_of_ite q)⟩

/-! ## Feasible sets -/

theorem relax_nonneg {e : K} (he : 0 ≤ e) (y : K) : 0 ≤ e * max |y| 1 :=
  mul_nonneg he (le_trans zero_le_one (le_max_right _ _))

/-- **C70 (nothing is cut off).** Every point that satisfies the user's constraints is feasible for the solver. -/
theorem C70_contains {e : K} (he : 0 ≤ e) (gl gu v : RVec K m) (hv : UserFeasible gl gu v) :
    SolverFeasible (processConstraints e gl gu) v := by
  rw [solverFeasible_iff]
  intro i
  have := hv i
  by_cases h : gl i = gu i
  · simp only [low, upp, if_pos h]
    have hr := relax_nonneg he (gl i)
    rw [← h] at this ⊢
    constructor
    · intro q; have := this.1 (by linarith); linarith
    · intro q; have := this.2 (by linarith); linarith
  · simpa only [low, upp, if_neg h] using this

/-- **C70 (violation).** A point that is feasible for the solver satisfies the user's inequalities exactly, and the
equalities up to the factor times `max(|rhs|, 1)`, provided the relaxed right-hand sides stay below `10^20` (see
`C70_infinite_false`). -/
theorem C70_violation {e : K} (gl gu v : RVec K m)
    (hb : ∀ i, gl i = gu i → |gl i| + e * max |gl i| 1 < 10 ^ 20)
    (hv : SolverFeasible (processConstraints e gl gu) v) :
    (∀ i, gl i ≠ gu i → (-10 ^ 20 < gl i → gl i ≤ v i) ∧ (gu i < 10 ^ 20 → v i ≤ gu i)) ∧
      ∀ i, gl i = gu i → |v i - gl i| ≤ e * max |gl i| 1 := by
  rw [solverFeasible_iff] at hv
  constructor
  · intro i h
    simpa only [low, upp, if_neg h] using hv i
  · intro i h
    have h1 := hv i
    have h2 := hb i h
    simp only [low, upp, if_pos h] at h1
    rw [← h] at h1
    have := neg_abs_le (gl i)
    have := le_abs_self (gl i)
    have a := h1.1 (by linarith)
    have b := h1.2 (by linarith)
    rw [abs_le]; constructor <;> linarith

/-- A factor within its range and right-hand sides below `10^19` are enough for that. -/
theorem C70_bounded {e : K} (he1 : e ≤ 1) {y : K} (hy : |y| ≤ 10 ^ 19) :
    |y| + e * max |y| 1 < 10 ^ 20 := by
  have h1 : max |y| 1 ≤ 10 ^ 19 := max_le hy (by norm_num)
  have h2 : 0 ≤ max |y| 1 := le_trans zero_le_one (le_max_right _ _)
  have h3 : e * max |y| 1 ≤ 1 * 10 ^ 19 := mul_le_mul he1 h1 h2 zero_le_one
  have h4 : (10 : K) ^ 19 + 1 * 10 ^ 19 < 10 ^ 20 := by norm_num
  linarith

/-- **C70 (room).** With a positive factor every former equality has an interior: the lower bound is strictly below
the right-hand side and the upper bound strictly above. -/
theorem C70_interior {e : K} (he : 0 < e) (gl gu : RVec K m) (i : Fin m) (h : gl i = gu i) :
    low e gl gu i < gl i ∧ gl i < upp e gl gu i := by
  have : 0 < e * max |gl i| 1 := mul_pos he (lt_of_lt_of_le zero_lt_one (le_max_right _ _))
  simp only [low, upp, if_pos h]
  rw [← h]
  constructor <;> linarith

/-- **C70 (violation after the relaxation of all bounds).** The solver then relaxes all bounds by the perturbation `p`
(`bound_relax_perturb`). A point within these satisfies the equalities up to `(e + p (1 + e)) max(|rhs|, 1)`. -/
theorem C70_violation_relaxed {e p : K} (he : 0 ≤ e) (hp : 0 ≤ p) (gl gu v : RVec K m) (xl xu : RVec K n)
    (hv : let r := relaxBounds p ⟨xl, xu, low e gl gu, upp e gl gu⟩ ⟨xl, xu, low e gl gu, upp e gl gu⟩
      ∀ i, r.dl i ≤ v i ∧ v i ≤ r.du i) (i : Fin m) (h : gl i = gu i) :
    |v i - gl i| ≤ (e + p * (1 + e)) * max |gl i| 1 := by
  obtain ⟨-, -, e3, e4, -⟩ := C17_relax p hp ⟨xl, xu, low e gl gu, upp e gl gu⟩
  obtain ⟨h1, h2⟩ := hv i
  rw [e3] at h1
  rw [e4] at h2
  simp only [low, upp, if_pos h] at h1 h2
  rw [← h] at h2
  have hM : (1 : K) ≤ max |gl i| 1 := le_max_right _ _
  have hM' : |gl i| ≤ max |gl i| 1 := le_max_left _ _
  have hr := relax_nonneg he (gl i)
  have a1 : max 1 |gl i - e * max |gl i| 1| ≤ (1 + e) * max |gl i| 1 := by
    apply max_le
    · nlinarith
    · rw [abs_le]; constructor <;> nlinarith [abs_le.mp (le_refl |gl i|)]
  have a2 : max 1 |gl i + e * max |gl i| 1| ≤ (1 + e) * max |gl i| 1 := by
    apply max_le
    · nlinarith
    · rw [abs_le]; constructor <;> nlinarith [abs_le.mp (le_refl |gl i|)]
  have b1 := mul_le_mul_of_nonneg_left a1 hp
  have b2 := mul_le_mul_of_nonneg_left a2 hp
  rw [abs_le]
  constructor <;> nlinarith

/-- With large right-hand sides the claim fails (finding): the equality `g = 9·10^19` relaxed with factor 1 has an
upper bound beyond `10^20`, which counts as no bound, and `g = 10^30` is feasible for the solver. -/
theorem C70_infinite_false :
    ∃ (e : ℚ) (gl gu v : RVec ℚ 1), 0 < e ∧ e ≤ 1 ∧ gl 0 = gu 0 ∧ |gl 0| < 10 ^ 20 ∧
      SolverFeasible (processConstraints e gl gu) v ∧ ¬ |v 0 - gl 0| ≤ e * max |gl 0| 1 := by
  refine ⟨1, fun _ => 9 * 10 ^ 19, fun _ => 9 * 10 ^ 19, fun _ => 10 ^ 30, by norm_num, by norm_num, rfl, ?_, ?_, ?_⟩
  · norm_num [abs_of_pos]
  · rw [solverFeasible_iff]
    intro i
    simp only [low, upp]
    norm_num [abs_of_pos]
  · norm_num [abs_of_pos]

/-! ## Multipliers and sizes -/

/-- **C70 (multipliers).** Values and multipliers of the solver's inequalities go back to the user unchanged and in
the user's order: merging with these maps copies the array. -/
theorem C70_merge (e : K) (gl gu buf y : RVec K m) :
    let r := processConstraints e gl gu
    copyFromTwo buf [] r.eqMap (List.ofFn y) r.ineqMap = some y := by
  intro r
  have h1 : r.eqMap = [] := (C70_structure e gl gu).1
  have h2 : r.ineqMap = List.finRange m := (C70_structure e gl gu).2.2.1
  rw [h1, h2]
  obtain ⟨out, h3, h4⟩ := merge_then_split [] (List.ofFn y) [] (List.finRange m) rfl (by simp) (by simp) buf
  rw [h3]
  simp only [copyToTwo, Prod.mk.injEq, List.map_nil, true_and] at h4
  congr 1
  rw [← List.ofFn_eq_map] at h4
  exact List.ofFn_injective h4

/-- **C70 (nonzeros).** No nonzero of the two Jacobians is lost. -/
theorem C70_nnz (eq ineq : ℕ) : (nnz eq ineq).1 = 0 ∧ (nnz eq ineq).1 + (nnz eq ineq).2 = eq + ineq := by
  simp [nnz, Nat.add_comm]

/-! ## Cases that meet the hypotheses -/

/-- One equality, one inequality. -/
example : (processConstraints (1 / 100 : ℚ) (![50, 0] : RVec ℚ 2) ![50, 7]).dl = [50 - 1 / 2, 0] ∧
    (processConstraints (1 / 100 : ℚ) (![50, 0] : RVec ℚ 2) ![50, 7]).du = [50 + 1 / 2, 7] ∧
    (processConstraints (1 / 100 : ℚ) (![50, 0] : RVec ℚ 2) ![50, 7]).nEqOrig = 1 := by decide +kernel

example : UserFeasible (![50, 0] : RVec ℚ 2) ![50, 7] ![50, 3] := by
  intro i; fin_cases i <;> norm_num

example : ∀ i, (![50, 0] : RVec ℚ 2) i = (![50, 7] : RVec ℚ 2) i →
    |(![50, 0] : RVec ℚ 2) i| + 1 / 100 * max |(![50, 0] : RVec ℚ 2) i| 1 < 10 ^ 20 := by
  intro i _; fin_cases i <;> norm_num

example : ∀ i, (relaxBounds (1 / 10 : ℚ) (n := 0) ⟨Fin.elim0, Fin.elim0, low (1 / 100) ![50, 0] ![50, 7],
      upp (1 / 100) ![50, 0] ![50, 7]⟩ ⟨Fin.elim0, Fin.elim0, low (1 / 100) ![50, 0] ![50, 7],
      upp (1 / 100) ![50, 0] ![50, 7]⟩).dl i ≤ (![52, 3] : RVec ℚ 2) i ∧
    (![52, 3] : RVec ℚ 2) i ≤ (relaxBounds (1 / 10 : ℚ) (n := 0) ⟨Fin.elim0, Fin.elim0, low (1 / 100) ![50, 0] ![50, 7],
      upp (1 / 100) ![50, 0] ![50, 7]⟩ ⟨Fin.elim0, Fin.elim0, low (1 / 100) ![50, 0] ![50, 7],
      upp (1 / 100) ![50, 0] ![50, 7]⟩).du i := by decide +kernel

end Hiop.IneqForm
