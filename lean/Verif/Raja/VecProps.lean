import Verif.Raja.VecModel
import Verif.Raja.Assembly
import Verif.Vec.Props
import Verif.Range.Props
import Verif.PriDec.Recourse

/-!
# C63: vectors of the parallel backend

For every schedule of the parallel loops and every order of the parallel reductions, the operations of
`hiopVectorRaja` have the outcome of the same operation of `hiopVectorPar` (Verif.Vec.Model,
Verif.Range.Model), whose properties are proved elsewhere (C03, C04, C05, C43, …). The cases in which
they do not are stated as theorems too: indexed `axpy`, a second packing with another pattern,
`projectIntoBounds` with absent bounds, `is_equal` of vectors of different sizes, unpacking, and
`copy_from_starting_at` of fewer elements than the vector has (where the host is the one that fails).
-/

set_option linter.unusedSectionVars false

namespace Hiop.Raja

open Hiop.Vec Function

variable {K : Type} [Field K] [LinearOrder K] [IsStrictOrderedRing K] {n m : ℕ}

/-- The first `n` elements of an array, as a vector. -/
def asVec (n : ℕ) (x : ℕ → K) : RVec K n := fun i => x i

theorem elem_one {body : ℕ → Prog ℕ fun _ => K} {x : ℕ → K} {r : RVec K n}
    (hb : ∀ i (hi : i < n), Within {i} ∅ (body i) ∧
      run (body i) x = some (update x i (r ⟨i, hi⟩))) :
    forallR n body x = Out.one (putBack r x) := by
  refine forallR_race_free _ (fun i => {i}) (fun _ => ∅)
    (fun i => if hi : i < n then update x i (r ⟨i, hi⟩) else x) (fun i hi => (hb i hi).1) ?_ ?_ ?_ ?_
  · intro i j _ _ hij l hl
    rw [Set.mem_singleton_iff] at hl
    subst hl
    exact ⟨hij, fun h => h⟩
  · intro i hi
    rw [dif_pos hi]
    exact (hb i hi).2
  · intro i hi l hl
    rw [Set.mem_singleton_iff] at hl
    subst hl
    simp [putBack, hi]
  · intro l hl
    have : ¬ l < n := fun h => hl l h rfl
    simp [putBack, this]

/-- An iteration that touches only its own element. -/
macro "within" : tactic => `(tactic|
  repeat' (first
    | exact trivial
    | exact Or.inl rfl
    | exact rfl
    | (dsimp only [Within, assertP])
    | (refine And.intro ?_ ?_)
    | intro _
    | split))

/-- Closes the goals of `elem_one`. -/
macro "elem" "[" ds:Lean.Parser.Tactic.simpLemma,* "]" : tactic => `(tactic|
  (refine elem_one fun i hi => ⟨by within, ?_⟩
   simp only [run, assertP, asVec, $ds,*]
   try split_ifs
   all_goals simp_all [run, -not_lt, -not_le]))

/-! ## Element-wise operations -/

theorem C63_setToConstant (c : K) (x : ℕ → K) :
    setToConstantV n c x = .one (putBack (fun _ : Fin n => c) x) := by
  elem [setToConstantV]

theorem C63_setToConstantSel (c : K) (sel x : ℕ → K) (h : IsPattern (asVec n sel)) :
    setToConstantSelV n c sel x = .one (putBack (setToConstantSel c (asVec n sel)) x) := by
  refine elem_one fun i hi => ⟨by within, ?_⟩
  rcases h ⟨i, hi⟩ with h | h <;> simp_all [asVec, setToConstantSel, run]

theorem C63_copyFromSel (v sel x : ℕ → K) :
    copyFromSelV n v sel x = .one (putBack (copyFromSel (asVec n x) (asVec n v) (asVec n sel)) x) := by
  elem [copyFromSel]

theorem C63_componentMult (v x : ℕ → K) :
    componentMultV n v x = .one (putBack (componentMult (asVec n x) (asVec n v)) x) := by
  elem [componentMult]

theorem C63_componentDiv (v x : ℕ → K) :
    componentDivV n v x = .one (putBack (componentDiv (asVec n x) (asVec n v)) x) := by
  elem [componentDiv]

theorem C63_componentDivSel (v sel x : ℕ → K) (h : IsPattern (asVec n sel)) :
    componentDivSelV n v sel x
      = .one (putBack (componentDivSel (asVec n x) (asVec n v) (asVec n sel)) x) := by
  refine elem_one fun i hi => ?_
  rcases h ⟨i, hi⟩ with h | h <;> simp_all [asVec, componentDivSel, run, Within, assertP]

theorem C63_componentMinC (c : K) (x : ℕ → K) :
    componentMinCV n c x = .one (putBack (componentMinC (asVec n x) c) x) := by
  elem [componentMinC]

theorem C63_componentMin (v x : ℕ → K) :
    componentMinV n v x = .one (putBack (componentMin (asVec n x) (asVec n v)) x) := by
  elem [componentMin]

theorem C63_componentMaxC (c : K) (x : ℕ → K) :
    componentMaxCV n c x = .one (putBack (componentMaxC (asVec n x) c) x) := by
  elem [componentMaxC]

theorem C63_componentMax (v x : ℕ → K) :
    componentMaxV n v x = .one (putBack (componentMax (asVec n x) (asVec n v)) x) := by
  elem [componentMax]

theorem C63_componentAbs (x : ℕ → K) :
    componentAbsV n x = .one (putBack (componentAbs (asVec n x)) x) := by
  elem [componentAbs]

theorem C63_componentSgn (x : ℕ → K) :
    componentSgnV n x = .one (putBack (componentSgn (asVec n x)) x) := by
  elem [componentSgn]

theorem C63_componentSqrt (sqrt : K → K) (x : ℕ → K) :
    componentSqrtV sqrt n x = .one (putBack (fun i : Fin n => sqrt (x i)) x) := by
  elem [componentSqrtV]

theorem C63_scale (c : K) (x : ℕ → K) :
    scaleV n c x = .one (putBack (Vec.scale (asVec n x) c) x) := by
  unfold scaleV Vec.scale
  split_ifs with h
  · congr 1
    funext i
    by_cases hi : i < n <;> simp [putBack, asVec, hi]
  · refine elem_one fun i hi => ⟨by within, ?_⟩
    simp [run, asVec, mul_comm]

theorem C63_axpy (a : K) (v x : ℕ → K) :
    axpyV n a v x = .one (putBack (Vec.axpy (asVec n x) a (asVec n v)) x) := by
  refine elem_one fun i hi => ⟨by within, ?_⟩
  simp [run, asVec, Vec.axpy, add_comm]

theorem C63_axpySel (a : K) (v sel x : ℕ → K) (h : IsPattern (asVec n sel)) :
    axpySelV n a v sel x
      = .one (putBack (axpySel (asVec n x) a (asVec n v) (asVec n sel)) x) := by
  refine elem_one fun i hi => ⟨by within, ?_⟩
  rcases h ⟨i, hi⟩ with h | h <;> simp_all [asVec, axpySel, run]

theorem C63_axzpy (a : K) (x z y : ℕ → K) :
    axzpyV n a x z y = .one (putBack (axzpy (asVec n y) a (asVec n x) (asVec n z)) y) := by
  refine elem_one fun i hi => ⟨by within, ?_⟩
  unfold axzpy
  split_ifs <;> simp_all [run, asVec, sub_eq_add_neg]

theorem C63_axdzpy (a : K) (x z y : ℕ → K) :
    axdzpyV n a x z y = .one (putBack (axdzpy (asVec n y) a (asVec n x) (asVec n z)) y) := by
  refine elem_one fun i hi => ⟨by within, ?_⟩
  unfold axdzpy
  split_ifs <;> simp_all [run, asVec, sub_eq_add_neg, neg_div]
  congr 1
  ring

theorem C63_axdzpySel (a : K) (x z sel y : ℕ → K) (h : IsPattern (asVec n sel)) :
    axdzpySelV n a x z sel y
      = .one (putBack (axdzpySel (asVec n y) a (asVec n x) (asVec n z) (asVec n sel)) y) := by
  refine elem_one fun i hi => ?_
  unfold axdzpySel
  rcases h ⟨i, hi⟩ with h | h <;> split_ifs <;>
    simp_all [run, asVec, sub_eq_add_neg, neg_div, Within, assertP]

theorem C63_addConstant (c : K) (x : ℕ → K) :
    addConstantV n c x = .one (putBack (addConstant (asVec n x) c) x) := by
  elem [addConstant]

theorem C63_addConstantSel (c : K) (sel x : ℕ → K) (h : IsPattern (asVec n sel)) :
    addConstantSelV n c sel x = .one (putBack (addConstantSel (asVec n x) c (asVec n sel)) x) := by
  refine elem_one fun i hi => ?_
  rcases h ⟨i, hi⟩ with h | h <;> simp_all [asVec, addConstantSel, run, Within, assertP]

theorem C63_negate (x : ℕ → K) : negateV n x = .one (putBack (negate (asVec n x)) x) := by
  elem [negate]

theorem C63_invert (x : ℕ → K) : invertV n x = .one (putBack (fun i : Fin n => (x i)⁻¹) x) := by
  elem [invertV]

theorem C63_addLogBarrierGrad (a : K) (v sel x : ℕ → K) :
    addLogBarrierGradV n a v sel x
      = .one (putBack (addLogBarrierGrad (asVec n x) a (asVec n v) (asVec n sel)) x) := by
  elem [addLogBarrierGrad]

theorem C63_addLinearDampingTerm (ixl ixr : ℕ → K) (alpha ct : K) (x : ℕ → K) :
    addLinearDampingTermV n ixl ixr alpha ct x
      = .one (putBack (addLinearDampingTerm (asVec n x) (asVec n ixl) (asVec n ixr) alpha ct) x) := by
  refine elem_one fun i hi => ⟨by within, ?_⟩
  simp [run, asVec, addLinearDampingTerm, mul_comm ct]

theorem C63_selectPattern (sel x : ℕ → K) :
    selectPatternV n sel x = .one (putBack (selectPattern (asVec n x) (asVec n sel)) x) := by
  elem [selectPattern]

theorem C63_adjustDuals (x ix : ℕ → K) (mu kappa : K) (z : ℕ → K) :
    adjustDualsV n x ix mu kappa z
      = .one (putBack (adjustDualsPlh (asVec n z) (asVec n x) (asVec n ix) mu kappa) z) := by
  refine elem_one fun i hi => ⟨by within, ?_⟩
  simp only [asVec, adjustDualsPlh, adjustDualComp]
  by_cases h1 : ix i = 1 <;> by_cases h2 : z i < mu / x i / kappa <;>
    by_cases h3 : mu / x i * kappa ≤ mu / x i / kappa <;>
    by_cases h4 : mu / x i * kappa < z i <;> simp only [h1, h2, h3, h4, run, if_true, if_false] <;>
    simp

/-- A pattern with another value than 0 and 1 ends the program, in the operations that check it. -/
theorem C63_pattern_abort (a c : K) (x z sel y : ℕ → K) (h : ¬ IsPattern (asVec n sel)) :
    none ∈ componentDivSelV n x sel y ∧ none ∈ axdzpySelV n a x z sel y ∧
      none ∈ addConstantSelV n c sel y := by
  unfold IsPattern at h
  push Not at h
  obtain ⟨i, h0, h1⟩ := h
  refine ⟨forallR_abort i.2 ?_, forallR_abort i.2 ?_, forallR_abort i.2 ?_⟩ <;>
    exact if_neg (by rintro (h | h) <;> contradiction)

/-! ## Reductions -/

theorem ofSet_one {α : Type} (a : α) : Out.ofSet {a} = Out.one a := by
  ext o
  show (∃ b ∈ ({a} : Set α), o = some b) ↔ o = some a
  simp

theorem reduceSum_one {α : Type} [AddCommMonoid α] (f : ℕ → Option α) :
    reduceSum n f = {((List.range n).filterMap f).sum} := by
  ext a
  rw [Set.mem_singleton_iff]
  constructor
  · intro h
    exact combines_eq (fun _ => True) trivial (fun _ _ _ _ => trivial) add_comm add_assoc
      (fun a _ => zero_add a) h fun _ _ => trivial
  · rintro rfl
    exact combines_exists _ _ _

theorem filterMap_sum {α : Type} [AddCommMonoid α] (f : ℕ → Option α) :
    ((List.range n).filterMap f).sum = ∑ i : Fin n, (f i).getD 0 := by
  induction n with
  | zero => rfl
  | succ n ih =>
    rw [List.range_succ, List.filterMap_append, List.sum_append, ih, Fin.sum_univ_castSucc]
    congr 1
    cases h : f n <;> simp [h]

/-- A minimum does not depend on the order; it is the smallest of the initial value and the
contributions. -/
theorem reduceMin_one {α : Type} [LinearOrder α] (init : α) (f : ℕ → Option α) :
    ∃ r, reduceMin n init f = {r} ∧
      ∀ c, c ≤ r ↔ c ≤ init ∧ ∀ i, i < n → ∀ a, f i = some a → c ≤ a := by
  have key : ∀ (l : List α) (a : α), Combines min init l a →
      ∀ c, c ≤ init → (c ≤ a ↔ ∀ x ∈ l, c ≤ x) := by
    intro l a h c hc
    induction h with
    | neutral => simp [hc]
    | single a => simp
    | node _ _ h1 h2 =>
      rw [le_min_iff, h1, h2]
      simp only [List.mem_append]
      exact ⟨fun h x hx => hx.elim (h.1 x) (h.2 x), fun h => ⟨fun x hx => h x (Or.inl hx),
        fun x hx => h x (Or.inr hx)⟩⟩
    | perm hp _ ih =>
      rw [ih]
      exact ⟨fun h x hx => h x (hp.mem_iff.2 hx), fun h x hx => h x (hp.mem_iff.1 hx)⟩
  have le0 : ∀ (l : List α) (a : α), Combines min init l a → init ∈ l → a ≤ init := by
    intro l a h
    induction h with
    | neutral => simp
    | single a => exact fun h => le_of_eq (List.mem_singleton.1 h).symm
    | node _ _ h1 h2 =>
      intro hm
      rcases List.mem_append.1 hm with hm | hm
      · exact (min_le_left _ _).trans (h1 hm)
      · exact (min_le_right _ _).trans (h2 hm)
    | perm hp _ ih => exact fun hm => ih (hp.mem_iff.2 hm)
  have char : ∀ r ∈ reduceMin n init f,
      ∀ c, c ≤ r ↔ c ≤ init ∧ ∀ i, i < n → ∀ a, f i = some a → c ≤ a := by
    intro r hr c
    have h0 : r ≤ init := le0 _ _ hr List.mem_cons_self
    constructor
    · intro h
      have hi := h.trans h0
      have := (key _ _ hr c hi).1 h
      refine ⟨hi, fun i hi a ha => this a ?_⟩
      exact List.mem_cons_of_mem _ (List.mem_filterMap.2 ⟨i, List.mem_range.2 hi, ha⟩)
    · rintro ⟨h1, h2⟩
      refine (key _ _ hr c h1).2 fun x hx => ?_
      rcases List.mem_cons.1 hx with rfl | hx
      · exact h1
      · obtain ⟨i, hi, ha⟩ := List.mem_filterMap.1 hx
        exact h2 i (List.mem_range.1 hi) x ha
  refine ⟨_, ?_, char _ (combines_exists _ _ _)⟩
  ext a
  rw [Set.mem_singleton_iff]
  constructor
  · intro h
    have h1 := char a h
    have h2 := char _ (combines_exists min init (init :: (List.range n).filterMap f))
    exact le_antisymm ((h2 a).2 ((h1 a).1 le_rfl)) ((h1 _).2 ((h2 _).1 le_rfl))
  · rintro rfl
    exact combines_exists _ _ _

theorem reduceMax_one {α : Type} [LinearOrder α] (init : α) (f : ℕ → Option α) :
    ∃ r, reduceMax n init f = {r} ∧
      ∀ c, r ≤ c ↔ init ≤ c ∧ ∀ i, i < n → ∀ a, f i = some a → a ≤ c :=
  reduceMin_one (α := αᵒᵈ) init f

theorem C63_dot (x v : ℕ → K) : dotV n x v = {dot (asVec n x) (asVec n v)} := by
  rw [dotV, reduceSum_one, filterMap_sum, dot_eq_sum]; rfl

theorem C63_twonorm (sqrt : K → K) (x : ℕ → K) :
    twonormV sqrt n x = {sqrt (∑ i : Fin n, x i ^ 2)} := by
  rw [twonormV, reduceSum_one, filterMap_sum, Set.image_singleton]
  simp [pow_two]

theorem C63_infnorm (x : ℕ → K) : infnormV n x = {infnorm (asVec n x)} := by
  obtain ⟨r, h1, h2⟩ := reduceMax_one (n := n) (0 : K) fun i => some |x i|
  rw [infnormV, h1]
  congr 1
  have e : ∀ c, r ≤ c ↔ infnorm (asVec n x) ≤ c := by
    intro c
    rw [h2]
    constructor
    · rintro ⟨a, b⟩
      exact (infnorm_le_iff _ _ a).2 fun i => b i i.2 _ rfl
    · intro h
      have h0 := (infnorm_nonneg (asVec n x)).trans h
      refine ⟨h0, fun i hi a ha => ?_⟩
      cases ha
      exact (infnorm_le_iff _ _ h0).1 h ⟨i, hi⟩
  exact le_antisymm ((e _).2 le_rfl) ((e _).1 le_rfl)

theorem C63_onenorm (x : ℕ → K) : onenormV n x = {onenorm (asVec n x)} := by
  rw [onenormV, reduceSum_one, filterMap_sum, onenorm_eq_sum]; rfl

theorem C63_sum (x : ℕ → K) : sumV n x = {sumLocal (asVec n x)} := by
  rw [sumV, reduceSum_one, filterMap_sum, sumLocal_eq_sum]; rfl

theorem C63_minSel (dblMax : K) (x sel : ℕ → K) :
    minSelV n dblMax x sel = {minSel dblMax (asVec n x) (asVec n sel)} := by
  obtain ⟨r, h1, h2⟩ := reduceMin_one (n := n) dblMax fun i => if sel i = 1 then some (x i) else none
  obtain ⟨a, b, c⟩ := minSel_char dblMax (asVec n x) (asVec n sel)
  rw [minSelV, h1]
  congr 1
  have hr := (h2 r).1 le_rfl
  apply le_antisymm
  · rcases c with c | ⟨i, hi, c⟩
    · rw [c]; exact hr.1
    · rw [c]
      refine hr.2 i i.2 _ ?_
      have : sel i = 1 := hi
      simp [this, asVec]
  · refine (h2 _).2 ⟨a, fun i hi v hv => ?_⟩
    by_cases hs : sel i = 1
    · rw [if_pos hs] at hv
      cases hv
      exact b ⟨i, hi⟩ hs
    · rw [if_neg hs] at hv
      exact absurd hv (by simp)

theorem C63_min (dblMax : K) (x : ℕ → K) : minAllV n dblMax x = {minAll dblMax (asVec n x)} := by
  have e : minAll dblMax (asVec n x) = minSel dblMax (asVec n x) (asVec n fun _ => 1) := by
    simp [minAll, minSel, asVec]
  rw [e, ← C63_minSel]
  simp [minAllV, minSelV]

theorem C63_logBarrier (log : K → K) (x sel : ℕ → K) :
    logBarrierV log n x sel = {∑ i : Fin n, if sel i = 1 then log (x i) else 0} := by
  rw [logBarrierV, reduceSum_one, filterMap_sum]
  congr 1
  refine Finset.sum_congr rfl fun i _ => ?_
  split_ifs <;> rfl

theorem C63_linearDampingTerm (x ixl ixr : ℕ → K) (mu kappad : K) :
    linearDampingTermV n x ixl ixr mu kappad
      = {linearDampingTermLocal (asVec n x) (asVec n ixl) (asVec n ixr) mu kappad} := by
  rw [linearDampingTermV, reduceSum_one, filterMap_sum, Set.image_singleton]
  congr 1
  unfold linearDampingTermLocal
  have : ∀ (l : List (Fin n)) (t : K), l.foldl (fun t i =>
      if asVec n ixl i = 1 ∧ asVec n ixr i = 0 then t + asVec n x i else t) t
      = t + (l.map fun i : Fin n => (if ixl i = 1 ∧ ixr i = 0 then some (x i) else none).getD 0).sum := by
    intro l
    induction l with
    | nil => simp
    | cons i l ih =>
      intro t
      rw [List.foldl_cons, ih, List.map_cons, List.sum_cons]
      by_cases h : ixl i = 1 ∧ ixr i = 0 <;> simp [asVec, h, add_assoc]
  rw [this, zero_add, finRange_map_sum]

theorem C63_allPositive (x : ℕ → K) : allPositiveV n x = {allPositive (asVec n x)} := by
  obtain ⟨r, h1, h2⟩ := reduceMin_one (n := n) (1 : K) fun i => some (x i)
  rw [allPositiveV, h1, Set.image_singleton]
  congr 1
  rw [Bool.eq_iff_iff, allPositive_iff, decide_eq_true_iff]
  obtain ⟨a, b, c⟩ := minAll_char 1 (asVec n x)
  have hr := (h2 r).1 le_rfl
  constructor
  · intro h i
    exact lt_of_lt_of_le h (hr.2 i i.2 _ rfl)
  · intro h
    have : r = minAll 1 (asVec n x) := by
      apply le_antisymm
      · rcases c with c | ⟨i, c⟩
        · rw [c]; exact hr.1
        · rw [c]; exact hr.2 i i.2 _ rfl
      · refine (h2 _).2 ⟨a, fun i hi v hv => ?_⟩
        cases hv
        exact b ⟨i, hi⟩
    rw [this]
    rcases c with c | ⟨i, c⟩
    · rw [c]; exact one_pos
    · rw [c]; exact h i

/-- The admissible step; with C03 the greatest one. -/
theorem C63_fractionToBdrySel (x d : ℕ → K) (tau : K) (sel : ℕ → K) (h : IsPattern (asVec n sel)) :
    fractionToBdrySelV n x d tau sel
      = .one (fractionToBdrySel (asVec n x) (asVec n d) tau (asVec n sel)) := by
  obtain ⟨r, h1, h2⟩ := reduceMin_one (n := n) (1 : K)
    fun i => if d i < 0 ∧ sel i = 1 then some (-tau * x i / d i) else none
  obtain ⟨a, b, c⟩ := fractionToBdrySel_char (asVec n x) (asVec n d) tau (asVec n sel)
  have hr := (h2 r).1 le_rfl
  have e : r = fractionToBdrySel (asVec n x) (asVec n d) tau (asVec n sel) := by
    apply le_antisymm
    · rcases c with c | ⟨i, hd, hp, c⟩
      · rw [c]; exact hr.1
      · rw [c]
        have h1 : sel i = 1 := (h i).resolve_left hp
        have h2 : d i < 0 := hd
        exact hr.2 i i.2 _ (if_pos ⟨h2, h1⟩)
    · refine (h2 _).2 ⟨a, fun i hi v hv => ?_⟩
      by_cases hs : d i < 0 ∧ sel i = 1
      · rw [if_pos hs] at hv
        cases hv
        exact b ⟨i, hi⟩ hs.1 (by show sel i ≠ 0; rw [hs.2]; exact one_ne_zero)
      · rw [if_neg hs] at hv
        exact absurd hv (by simp)
  unfold fractionToBdrySelV
  rw [forallR_race_free (fun _ => ()) (fun _ => ∅) (fun _ => ∅) (fun _ _ => ()), Out.one_andThen]
  · rw [h1, ofSet_one, ← e]
  · intro i hi
    have hs : sel i = 1 ∨ sel i = 0 := (h ⟨i, hi⟩).symm
    rw [assertP, if_pos hs]
    trivial
  · exact fun _ _ _ _ _ _ h => absurd h (by simp)
  · intro i hi
    have hs : sel i = 1 ∨ sel i = 0 := (h ⟨i, hi⟩).symm
    rw [assertP, if_pos hs]
    rfl
  · exact fun _ _ _ _ => rfl
  · exact fun _ _ => rfl

theorem C63_fractionToBdry (x d : ℕ → K) (tau : K) :
    fractionToBdryV n x d tau = {fractionToBdry (asVec n x) (asVec n d) tau} := by
  obtain ⟨r, h1, h2⟩ := reduceMin_one (n := n) (1 : K)
    fun i => if d i ≥ 0 then none else some (-tau * x i / d i)
  rw [fractionToBdry_eq, fractionToBdryV, h1]
  obtain ⟨a, b, c⟩ := fractionToBdrySel_char (asVec n x) (asVec n d) tau fun _ => 1
  have hr := (h2 r).1 le_rfl
  congr 1
  apply le_antisymm
  · rcases c with c | ⟨i, hd, hp, c⟩
    · rw [c]; exact hr.1
    · rw [c]
      have h2 : d i < 0 := hd
      exact hr.2 i i.2 _ (if_neg (not_le.2 h2))
  · refine (h2 _).2 ⟨a, fun i hi v hv => ?_⟩
    by_cases hs : d i ≥ 0
    · rw [if_pos hs] at hv
      exact absurd hv (by simp)
    · rw [if_neg hs] at hv
      cases hv
      exact b ⟨i, hi⟩ (not_le.1 hs) one_ne_zero

theorem reduceCount_one (f : ℕ → Option ℕ) :
    (fun m : ℕ => m == 0) '' reduceSum n f = {decide (∀ i : Fin n, (f i).getD 0 = 0)} := by
  rw [reduceSum_one, filterMap_sum, Set.image_singleton]
  congr 1
  rw [Bool.eq_iff_iff, beq_iff_eq, decide_eq_true_iff, Finset.sum_eq_zero_iff]
  simp

theorem C63_matchesPattern (x sel : ℕ → K) :
    matchesPatternV n x sel = {matchesPattern (asVec n x) (asVec n sel)} := by
  rw [matchesPatternV, reduceCount_one]
  congr 1
  rw [Bool.eq_iff_iff, matchesPattern_iff, decide_eq_true_iff]
  refine forall_congr' fun i => ?_
  by_cases h1 : x i = 0 <;> by_cases h2 : sel i = 0 <;> simp [asVec, h1, h2]

theorem C63_allPositiveSel (x sel : ℕ → K) :
    allPositiveSelV n x sel = {allPositiveSel (asVec n x) (asVec n sel)} := by
  rw [allPositiveSelV, reduceCount_one]
  congr 1
  rw [Bool.eq_iff_iff, allPositiveSel_iff, decide_eq_true_iff]
  refine forall_congr' fun i => ?_
  by_cases h1 : x i ≤ 0 <;> by_cases h2 : sel i = 0 <;> simp [asVec, h1, h2]
  exact not_le.1 h1

theorem C63_isZero (x : ℕ → K) : isZeroV n x = {decide (∀ i : Fin n, x i = 0)} := by
  rw [isZeroV, reduceCount_one]
  congr 1
  rw [Bool.eq_iff_iff, decide_eq_true_iff, decide_eq_true_iff]
  refine forall_congr' fun i => ?_
  by_cases h1 : x i = 0 <;> simp [h1]

theorem C63_any (bad : K → Bool) (x : ℕ → K) :
    anyV bad n x = {decide (∃ i : Fin n, bad (x i) = true)} := by
  have e : (fun m : ℕ => m != 0) = (fun b : Bool => !b) ∘ fun m : ℕ => m == 0 := rfl
  rw [anyV, e, Set.image_comp, reduceCount_one, Set.image_singleton, ← decide_not]
  congr 1
  rw [Bool.eq_iff_iff, decide_eq_true_iff, decide_eq_true_iff]
  push Not
  refine exists_congr fun i => ?_
  cases bad (x i) <;> simp

theorem C63_isFinite (fin : K → Bool) (x : ℕ → K) :
    isFiniteV fin n x = {decide (∀ i : Fin n, fin (x i) = true)} := by
  obtain ⟨r, h1, h2⟩ := reduceMin_one (n := n) (1 : ℤ) fun i => if !fin (x i) then some 0 else none
  rw [isFiniteV, h1, Set.image_singleton]
  congr 1
  rw [Bool.eq_iff_iff, decide_eq_true_iff, bne_iff_ne]
  have h0 : 0 ≤ r := (h2 0).2 ⟨by norm_num, fun i _ a ha => by
    split_ifs at ha with h
    cases ha
    exact le_rfl⟩
  constructor
  · intro h i
    by_contra hf
    have := ((h2 r).1 le_rfl).2 i i.2 0 (by simp [hf])
    omega
  · intro h
    have : 1 ≤ r := (h2 1).2 ⟨le_rfl, fun i hi a ha => by
      rw [h ⟨i, hi⟩] at ha
      simp at ha⟩
    omega

theorem C63_numLessThan (x : ℕ → K) (v : K) : numLessThanV n x v = {numLessThan (asVec n x) v} := by
  rw [numLessThanV, reduceSum_one, filterMap_sum, numLessThan_eq, Finset.card_filter]
  rfl

theorem C63_numAbsLessThan (x : ℕ → K) (v : K) :
    numAbsLessThanV n x v = {numAbsLessThan (asVec n x) v} := by
  have : numAbsLessThan (asVec n x) v = numLessThan (asVec n fun i => |x i|) v := rfl
  rw [this, ← C63_numLessThan]
  rfl

/-! ## Equality -/

/-- **C63, equality (partial).** For vectors of the same size. -/
theorem C63_isEqual_partial (x v : ℕ → K) :
    isEqualV n n x v = .one (Range.isEqual (asVec n x) (asVec n v)) := by
  rw [isEqualV, Out.check_pos le_rfl, reduceCount_one, ofSet_one]
  have : (decide (∀ i : Fin n, ((if x i ≠ v i then some 1 else none : Option ℕ)).getD 0 = 0))
      = Range.isEqual (asVec n x) (asVec n v) := by
    rw [Bool.eq_iff_iff, decide_eq_true_iff, Range.isEqual, dif_pos rfl, List.all_eq_true]
    simp only [List.mem_finRange, true_implies, decide_eq_true_iff]
    refine forall_congr' fun i => ?_
    by_cases h : x i = v i <;> simp [h, asVec]
  rw [this]

/-- **C63, equality, refuted.** A vector equals every longer vector that starts with it; the host
compares the sizes. -/
theorem C63_isEqual_refuted :
    isEqualV 1 2 (fun _ => (3 : ℚ)) (fun _ => 3) = .one true ∧
      Range.isEqual (asVec 1 fun _ => (3 : ℚ)) (asVec 2 fun _ => 3) = false := by
  refine ⟨?_, rfl⟩
  rw [isEqualV, Out.check_pos (by norm_num), reduceCount_one, ofSet_one]
  simp

/-! ## Projection into the bounds -/

theorem project_body (small k1 k2 : K) (xl ixl xu ixu : K) (i : ℕ) (x : ℕ → K)
    (h : ixl ≠ 0 ∧ ixu ≠ 0 → xl ≤ xu) :
    ∃ v, projComp small k1 k2 (x i) xl ixl xu ixu = some v ∧
      run (projBody small k1 k2 xl ixl xu ixu i) x = some (update x i v) := by
  unfold projComp projBody
  by_cases h1 : ixl ≠ 0 ∧ ixu ≠ 0
  · simp only [if_pos h1, run, if_neg (not_lt.2 (h h1))]
    by_cases h2 : x i < xl + min (k1 * max 1 |xl|) (k2 * (xu - xl) - small)
    · simp only [if_pos h2, run]
      exact ⟨_, rfl, rfl⟩
    · simp only [if_neg h2, run]
      by_cases h3 : x i > xu - min (k1 * max 1 |xu|) (k2 * (xu - xl) - small)
      · simp only [if_pos h3, run]
        exact ⟨_, rfl, rfl⟩
      · simp only [if_neg h3, run]
        exact ⟨_, rfl, by simp⟩
  · simp only [if_neg h1]
    by_cases h2 : ixl ≠ 0
    · simp only [if_pos h2, run]
      exact ⟨_, rfl, rfl⟩
    · simp only [if_neg h2]
      by_cases h3 : ixu ≠ 0
      · simp only [if_pos h3, run]
        exact ⟨_, rfl, rfl⟩
      · simp only [if_neg h3, run]
        exact ⟨_, rfl, by simp⟩

/-- **C63, projection (partial).** When the intervals with an absent bound are not inverted (HiOp's
"infinite" values guarantee it), the verdict is that of the host: false iff a two-sided interval is
empty. When the verdict is true the vector is the host's; when it is false the vector is unchanged. -/
theorem C63_project_partial (small k1 k2 : K) (xl ixl xu ixu x : ℕ → K)
    (h : ∀ i, i < n → ixl i = 0 ∨ ixu i = 0 → xl i ≤ xu i) :
    let r := projectIntoBounds small k1 k2 (asVec n x) (asVec n xl) (asVec n ixl) (asVec n xu)
      (asVec n ixu)
    projectV n small k1 k2 xl ixl xu ixu x
      = .one (r.1, if r.1 then putBack r.2 x else x) := by
  intro r
  obtain ⟨q, h1, h2⟩ := reduceMin_one (n := n) (1 : K) fun i => some (xu i - xl i)
  have hr := (h2 q).1 le_rfl
  unfold projectV
  rw [h1, ofSet_one, Out.one_andThen]
  have hq : q < 0 ↔ r.1 = false := by
    rw [← Bool.not_eq_true, ← not_le, not_iff_not, projectIntoBounds_true_iff]
    constructor
    · intro h0 i
      obtain ⟨v, hv, _⟩ := project_body small k1 k2 (xl i) (ixl i) (xu i) (ixu i) i x fun _ =>
        sub_nonneg.1 (h0.trans (hr.2 i i.2 _ rfl))
      exact Option.isSome_iff_exists.2 ⟨v, hv⟩
    · intro hs
      refine (h2 0).2 ⟨zero_le_one, fun i hi a ha => ?_⟩
      cases ha
      refine sub_nonneg.2 ?_
      by_contra hlt
      have hb : ixl i ≠ 0 ∧ ixu i ≠ 0 := by
        constructor
        · exact fun e => hlt (h i hi (Or.inl e))
        · exact fun e => hlt (h i hi (Or.inr e))
      have := hs ⟨i, hi⟩
      have e : projComp small k1 k2 (x i) (xl i) (ixl i) (xu i) (ixu i) = none := by
        unfold projComp
        rw [if_pos hb, if_pos (not_le.1 hlt)]
      have h' : (projComp small k1 k2 (x i) (xl i) (ixl i) (xu i) (ixu i)).isSome = true := this
      rw [e] at h'
      exact absurd h' (by simp)
  by_cases hf : r.1 = true
  · have hn : ¬ q < 0 := by rw [hq, hf]; simp
    rw [if_neg hn, elem_one (r := r.2), Out.one_andThen, hf, if_pos rfl]
    intro i hi
    refine ⟨?_, ?_⟩
    · unfold projBody
      within
    · obtain ⟨v, hv, hv'⟩ := project_body small k1 k2 (xl i) (ixl i) (xu i) (ixu i) i x fun _ =>
        sub_nonneg.1 ((not_lt.1 hn).trans (hr.2 i hi _ rfl))
      have := projectIntoBounds_comp small k1 k2 (asVec n x) (asVec n xl) (asVec n ixl) (asVec n xu)
        (asVec n ixu) hf ⟨i, hi⟩
      simp only [asVec] at this
      rw [hv] at this
      rw [hv', Option.some.inj this]
  · rw [Bool.not_eq_true] at hf
    rw [if_pos (hq.2 hf), hf]
    simp

/-- **C63, projection, refuted.** A component with a lower bound only, whose (absent) upper bound
holds a smaller number: the host projects, the parallel backend reports failure. -/
theorem C63_project_refuted (small : ℚ) :
    projectV 1 small 0 0 (fun _ => 1) (fun _ => 1) (fun _ => 0) (fun _ => 0) (fun _ => 5)
        = .one (false, fun _ => 5) ∧
      (projectIntoBounds small 0 0 (asVec 1 fun _ => 5) (asVec 1 fun _ => 1) (asVec 1 fun _ => 1)
        (asVec 1 fun _ => (0 : ℚ)) (asVec 1 fun _ => 0)).1 = true := by
  constructor
  · obtain ⟨q, h1, h2⟩ := reduceMin_one (n := 1) (1 : ℚ) fun _ => some (0 - 1)
    have hr := ((h2 q).1 le_rfl).2 0 (by norm_num) _ rfl
    unfold projectV
    rw [h1, ofSet_one, Out.one_andThen, if_pos (by linarith)]
  · rw [projectIntoBounds_true_iff]
    intro i
    simp [projComp, asVec]

/-! ## Copies -/

section
variable {K : Type}
open Hiop.Range

theorem blockCopy_zero (x : RVec K n) (v : RVec K m) (o s : ℤ) (ho : 0 ≤ o ∧ o ≤ n)
    (hs : 0 ≤ s ∧ s ≤ m) : blockCopy x o v s 0 = some x := by
  unfold blockCopy
  rw [dif_pos (by omega)]
  congr 1
  funext k
  rw [dif_neg (by omega)]

theorem C63_copyFromStarting (x : RVec K n) (start : ℕ) (v : RVec K m) :
    copyFromStartingV x start v = copyFromStarting x start v := by
  unfold copyFromStartingV copyFromStarting
  split_ifs with h1 h2
  · subst h2
    exact (blockCopy_zero _ _ _ _ (by omega) (by omega)).symm
  · rfl
  · rfl

theorem C63_startingAtCopyFrom (x : RVec K n) (sd : ℤ) (v : RVec K m) (ss : ℤ) :
    startingAtCopyFromV x sd v ss = startingAtCopyFromStartingAt x sd v ss := by
  unfold startingAtCopyFromV startingAtCopyFromStartingAt
  simp only
  by_cases h1 : ¬ ((0 ≤ sd ∧ sd < n) ∨ n = 0)
  · rw [if_pos h1, if_pos h1]
  rw [if_neg h1, if_neg h1]
  by_cases h2 : ¬ ((0 ≤ ss ∧ ss < m) ∨ m = 0 ∨ (m : ℤ) = ss)
  · rw [if_pos h2, if_pos h2]
  rw [if_neg h2, if_neg h2]
  by_cases h3 : (n : ℤ) - sd = 0 ∨ (m : ℤ) - ss = 0
  · rw [if_pos h3, if_pos h3]
  rw [if_neg h3, if_neg h3]
  by_cases h4 : ¬ (n : ℤ) - sd ≤ m - ss
  · rw [if_pos h4, if_pos h4]
  have h6 : ¬ (n : ℤ) - sd > m - ss := by omega
  rw [if_neg h4, if_neg h4, if_neg h6]
  by_cases h5 : 0 ≤ (n : ℤ) - sd
  · rw [if_pos h5]
  · rw [if_neg h5]
    unfold blockCopy
    rw [dif_neg (by omega)]

theorem C63_copyToStarting (x : RVec K n) (start : ℕ) (v : RVec K m) :
    copyToStartingV x start v = copyToStarting x start v := by
  unfold copyToStartingV copyToStarting
  split_ifs with h1 h2
  · subst h2
    exact (blockCopy_zero _ _ _ _ (by omega) (by omega)).symm
  · rfl
  · rfl

theorem C63_copyToStartingDest (x : RVec K n) (dest : RVec K m) (start : ℕ) :
    copyToStartingDestV x dest start = copyToStartingGlobal x dest start := by
  unfold copyToStartingDestV copyToStartingGlobal
  by_cases h1 : (start : ℤ) + n ≤ m
  · rw [if_pos h1, if_neg (not_not.2 h1)]
    by_cases h2 : n = 0
    · rw [if_pos h2, if_neg (by omega)]
    · rw [if_neg h2, if_pos (by omega)]
      simp only
      rw [if_pos (by omega), if_pos (by omega), if_pos (by omega), sub_zero]
  · rw [if_neg h1, if_pos h1]

theorem clampNumV_eq (ss sd num : ℤ) : clampNumV n m ss sd num = clampNum n m ss sd num := by
  unfold clampNumV clampNum
  by_cases h5 : num + ss ≤ n <;> by_cases h6 : num + sd ≤ m <;> simp [h5, h6]

theorem C63_startingAtCopyTo (x : RVec K n) (ss : ℤ) (dest : RVec K m) (sd num : ℤ) :
    startingAtCopyToV x ss dest sd num = startingAtCopyTo x ss dest sd num := by
  unfold startingAtCopyToV startingAtCopyTo
  by_cases h1 : ¬ (0 ≤ ss ∧ ss ≤ n)
  · rw [if_pos h1, if_pos h1]
  by_cases h2 : ¬ (0 ≤ sd ∧ sd ≤ m)
  · rw [if_neg h1, if_neg h1, if_pos h2, if_pos h2]
    split_ifs <;> rfl
  have key : ∀ cnt : ℤ, (if cnt = 0 then some dest else blockCopy dest sd x ss cnt)
      = blockCopy dest sd x ss cnt := by
    intro cnt
    split_ifs with h
    · subst h
      exact (blockCopy_zero _ _ _ _ (not_not.1 h2) (not_not.1 h1)).symm
    · rfl
  simp only [key, if_neg h1, if_neg h2, clampNumV_eq]
  generalize clampNum n m ss sd num = c
  by_cases ha : num = -1 ∨ num = 0 <;> by_cases hb : sd = m <;> by_cases hc : ss = n <;>
    simp [ha, hb, hc] <;> cases c <;> rfl

/-- **C63, unpacking, refuted.** The parallel backend has no unpacking; the host succeeds. -/
theorem C63_unpack_refuted [One K] [DecidableEq K] (x : RVec K n) (ss : ℕ) (dest sel : RVec K m)
    (hs : ss ≤ n) :
    unpackToV x ss dest 0 sel (-1) = none ∧ ∃ y, unpackTo x ss dest 0 sel (-1) = some y := by
  obtain ⟨y, h, _⟩ := C56_unpack x ss dest sel hs
  exact ⟨rfl, y, h⟩

/-- **C63, copy from a position of an array (partial).** When as many elements are copied as the
vector has, both backends agree. -/
theorem C63_copyFromStartingAt_partial (x : RVec K n) (v : RVec K m) (start : ℕ) :
    copyFromStartingAtV x v start n = copyFromStartingAtHost x v start n := by
  unfold copyFromStartingAtV copyFromStartingAtHost
  by_cases h0 : 0 < n
  · rw [if_neg (by omega), if_pos h0, if_pos rfl]
  · rw [if_pos (by omega), if_neg h0]

/-- **C63, copy from a position of an array, refuted.** Copying two elements into a vector of three:
the host copies nothing. -/
theorem C63_copyFromStartingAt_refuted :
    copyFromStartingAtHost (![0, 0, 0] : RVec ℚ 3) (![7, 8] : RVec ℚ 2) 0 2 = some ![0, 0, 0] ∧
      copyFromStartingAtV (![0, 0, 0] : RVec ℚ 3) (![7, 8] : RVec ℚ 2) 0 2 = some ![7, 8, 0] := by
  decide +kernel

end

/-! ## Indexed copies -/

/-- **C63, gathering.** -/
theorem C63_copyFromIndexes (nv : ℕ) (v : ℕ → K) (idx : ℕ → ℕ) (x : ℕ → K)
    (h : ∀ i, i < n → idx i < nv) :
    ∃ y, Range.copyFromIndexes (asVec n x) (asVec nv v) (fun i => (idx i : ℤ)) = some y ∧
      copyFromIndexesV n nv v (fun i => idx i) x = .one (putBack y x) := by
  refine ⟨_, Range.C56_copyFromIndexes (asVec n x) (asVec nv v) fun i => ⟨idx i, h i i.2⟩, ?_⟩
  refine elem_one fun i hi => ?_
  have h1 : ((idx i : ℕ) : ℤ) < nv := by exact_mod_cast h i hi
  have h2 : (0 : ℤ) ≤ (idx i : ℕ) := by omega
  simp only [assertP, if_pos h1, if_pos h2]
  exact ⟨by within, by simp [run, asVec]⟩

/-- An index outside of the source ends the program. -/
theorem C63_copyFromIndexes_abort (nv : ℕ) (v : ℕ → K) (idx : ℕ → ℤ) (x : ℕ → K) (i : ℕ)
    (hi : i < n) (h : ¬ (0 ≤ idx i ∧ idx i < nv)) :
    none ∈ copyFromIndexesV n nv v idx x := by
  refine forallR_abort hi ?_
  unfold assertP
  split_ifs with h1 h2
  · exact absurd ⟨h2, h1⟩ h
  · rfl
  · rfl

/-- Stores at different places. -/
theorem forallR_scatter {n1 : ℕ} (loc : ℕ → ℕ) (c : ℕ → K) (x : ℕ → K)
    (hinj : ∀ i j, i < n1 → j < n1 → loc i = loc j → i = j) (hlt : ∀ i, i < n1 → loc i < n) :
    ∃ M, forallR n1 (fun i => assertP (loc i < n) (.wr (loc i) (c i) .ret)) x = Out.one M ∧
      (∀ i, i < n1 → M (loc i) = c i) ∧ ∀ l, (∀ i, i < n1 → loc i ≠ l) → M l = x l := by
  classical
  let M : ℕ → K := fun l => if h : ∃ i, i < n1 ∧ loc i = l then c h.choose else x l
  have h1 : ∀ i, i < n1 → M (loc i) = c i := by
    intro i hi
    have he : ∃ j, j < n1 ∧ loc j = loc i := ⟨i, hi, rfl⟩
    simp only [M, dif_pos he]
    exact congrArg c (hinj _ _ he.choose_spec.1 hi he.choose_spec.2)
  have h2 : ∀ l, (∀ i, i < n1 → loc i ≠ l) → M l = x l := by
    intro l hl
    simp only [M]
    rw [dif_neg]
    rintro ⟨i, hi, e⟩
    exact hl i hi e
  refine ⟨M, forallR_wr M loc hinj (fun i hi => ?_) h2, h1, h2⟩
  rw [assertP, if_pos (hlt i hi), h1 i hi]

/-- **C63, merging.** With index maps that do not meet, each entry of `c` and `d` arrives at its place,
and nothing else changes. -/
theorem C63_copyFromTwo (n1 n2 : ℕ) (c : ℕ → K) (cMap : ℕ → ℕ) (d : ℕ → K) (dMap : ℕ → ℕ)
    (x : ℕ → K) (hc : ∀ i, i < n1 → cMap i < n) (hd : ∀ i, i < n2 → dMap i < n)
    (ic : ∀ i j, i < n1 → j < n1 → cMap i = cMap j → i = j)
    (id : ∀ i j, i < n2 → j < n2 → dMap i = dMap j → i = j)
    (hcd : ∀ i j, i < n1 → j < n2 → cMap i ≠ dMap j) :
    ∃ M, copyFromTwoV n n1 n2 c cMap d dMap x = .one M ∧ (∀ i, i < n1 → M (cMap i) = c i) ∧
      (∀ i, i < n2 → M (dMap i) = d i) ∧
      ∀ l, (∀ i, i < n1 → cMap i ≠ l) → (∀ i, i < n2 → dMap i ≠ l) → M l = x l := by
  obtain ⟨M1, e1, a1, b1⟩ := forallR_scatter (n := n) cMap c x ic hc
  obtain ⟨M2, e2, a2, b2⟩ := forallR_scatter (n := n) dMap d M1 id hd
  refine ⟨M2, ?_, fun i hi => ?_, a2, fun l h1 h2 => ?_⟩
  · unfold copyFromTwoV
    rw [e1, Out.one_andThen, e2]
  · rw [b2 _ fun j hj => (hcd i j hi hj).symm, a1 i hi]
  · rw [b2 l h2, b1 l h1]

/-- **C63, splitting.** -/
theorem C63_copyToTwo (n1 n2 : ℕ) (x : ℕ → K) (cMap dMap : ℕ → ℕ) (c d : ℕ → K)
    (hc : ∀ i, i < n1 → cMap i < n) (hd : ∀ i, i < n2 → dMap i < n) :
    copyToTwoV n n1 n2 x cMap dMap c d
      = .one (putBack (fun i : Fin n1 => x (cMap i)) c, putBack (fun i : Fin n2 => x (dMap i)) d) := by
  have key : ∀ (k : ℕ) (f : ℕ → ℕ) (y : ℕ → K), (∀ i, i < k → f i < n) →
      copyToOneV n k x f y = .one (putBack (fun i : Fin k => x (f i)) y) := by
    intro k f y h
    refine elem_one fun i hi => ?_
    rw [assertP, if_pos (h i hi)]
    exact ⟨by within, rfl⟩
  unfold copyToTwoV
  rw [key _ _ _ hc, Out.one_andThen, key _ _ _ hd, Out.one_andThen]

/-! ## Packing -/

theorem rank_selBelow (sel : ℕ → K) (h : IsPattern (asVec n sel)) (i : Fin n) :
    Range.rank (asVec n sel) i = selBelow sel i := by
  unfold Range.rank selBelow
  rw [← List.toFinset_card_of_nodup (List.nodup_range.filter _)]
  refine Finset.card_bij (fun j _ => (j : ℕ)) ?_ (fun a _ b _ e => Fin.ext e) ?_
  · intro j hj
    simp only [Finset.mem_filter, Finset.mem_univ, true_and] at hj
    simp only [List.mem_toFinset, List.mem_filter, List.mem_range, decide_eq_true_iff]
    refine ⟨hj.1, ?_⟩
    have : sel j = 1 := hj.2
    rw [this]
    exact one_ne_zero
  · intro b hb
    simp only [List.mem_toFinset, List.mem_filter, List.mem_range, decide_eq_true_iff] at hb
    refine ⟨⟨b, hb.1.trans i.2⟩, ?_, rfl⟩
    simp only [Finset.mem_filter, Finset.mem_univ, true_and]
    exact ⟨hb.1, (h ⟨b, hb.1.trans i.2⟩).resolve_left hb.2⟩

/-- The index array a vector keeps is absent or belongs to the pattern. -/
def Cached (n : ℕ) (sel : ℕ → K) (cumsum : Option (ℕ → ℕ)) : Prop :=
  ∀ a, cumsum = some a → ∀ i, i ≤ n → a i = selBelow sel i

/-- The store with the index array of the pattern is the packing of the host. -/
theorem packStore_one (nv : ℕ) (a : ℕ → ℕ) (x v : ℕ → K) (start : ℕ) (sel : ℕ → K)
    (h : IsPattern (asVec n sel)) (hv : ∀ i, i ≤ n → a i = selBelow sel i)
    (hfit : start + Range.count (asVec n sel) ≤ nv) :
    ∃ y, Range.packTo (asVec n x) (asVec nv v) start (asVec n sel) = some y ∧
      packStoreV n nv a x start v = .one (putBack y v) := by
  obtain ⟨y, hy, y1, y2⟩ := (Range.C56_pack (asVec n x) (asVec nv v) start (asVec n sel)).1 hfit
  refine ⟨y, hy, ?_⟩
  unfold packStoreV
  have hb : ∀ i, i < n → (if a (i + 1) ≠ a i then
      assertP (a (i + 1) = a i + 1) (assertP (a i + start < nv)
        (.wr (a i + start) (x i) .ret))
    else .ret : Prog ℕ fun _ => K) = if sel i = 1 then .wr (selBelow sel i + start) (x i) .ret
      else .ret := by
    intro i hi
    rw [hv i hi.le, hv (i + 1) hi, selBelow_succ]
    rcases h ⟨i, hi⟩ with h0 | h1
    · have h0' : sel i = 0 := h0
      simp [h0']
    · have h1' : sel i = 1 := h1
      have := Range.rank_lt_count (asVec n sel) h1
      rw [rank_selBelow sel h] at this
      simp only at this
      simp only [h1', ne_eq, one_ne_zero, not_false_eq_true, if_true, assertP]
      rw [if_pos (by omega), if_pos (by omega)]
  rw [forallR_congr hb]
  have hne : ∀ i j, i < n → j < n → sel i = 1 → sel j = 1 → i ≠ j →
      selBelow sel i + start ≠ selBelow sel j + start := by
    intro i j hi hj h1 h2 hij e
    refine hij (congrArg Fin.val (Range.rank_injective (asVec n sel) (i := ⟨i, hi⟩) (j := ⟨j, hj⟩)
      h1 h2 ?_))
    rw [rank_selBelow sel h, rank_selBelow sel h]
    simp only
    omega
  refine forallR_race_free _ (fun i => if sel i = 1 then {selBelow sel i + start} else ∅) (fun _ => ∅)
    (fun i => if sel i = 1 then update v (selBelow sel i + start) (x i) else v) ?_ ?_ ?_ ?_ ?_
  · intro i _
    by_cases hs : sel i = 1
    · simp [hs, Within]
    · simp [hs, Within]
  · intro i j hi hj hij l hl
    by_cases hs : sel i = 1
    · rw [if_pos hs, Set.mem_singleton_iff] at hl
      subst hl
      by_cases hs' : sel j = 1
      · rw [if_pos hs', Set.mem_singleton_iff]
        exact ⟨hne i j hi hj hs hs' hij, fun h => h⟩
      · rw [if_neg hs']
        exact ⟨fun h => h, fun h => h⟩
    · rw [if_neg hs] at hl
      exact absurd hl fun h => h
  · intro i _
    by_cases hs : sel i = 1
    · simp [hs, run]
    · simp [hs, run]
  · intro i hi l hl
    by_cases hs : sel i = 1
    · rw [if_pos hs, Set.mem_singleton_iff] at hl
      subst hl
      have hr := Range.rank_lt_count (asVec n sel) (i := ⟨i, hi⟩) hs
      rw [rank_selBelow sel h] at hr
      simp only at hr
      have hlt : selBelow sel i + start < nv := by omega
      rw [if_pos hs, update_self, putBack, dif_pos hlt]
      refine y1 ⟨i, hi⟩ _ hs ?_
      rw [rank_selBelow sel h]
      exact Nat.add_comm _ _
    · rw [if_neg hs] at hl
      exact absurd hl fun h => h
  · intro l hl
    unfold putBack
    split_ifs with hlt
    · refine y2 ⟨l, hlt⟩ ?_
      by_contra hcon
      push Not at hcon
      simp only at hcon
      obtain ⟨i, hi, hr⟩ := Range.exists_rank (asVec n sel) (k := l - start) (by omega)
      have hi' : sel i = 1 := hi
      refine hl i i.2 ?_
      rw [if_pos hi', Set.mem_singleton_iff, ← rank_selBelow sel h, hr]
      omega
    · rfl

theorem packIndex_one (junk : ℕ → ℕ) (cumsum : Option (ℕ → ℕ)) (sel : ℕ → K)
    (hc : Cached n sel cumsum) :
    ∃ a, packIndexV n junk cumsum sel = Out.one a ∧ ∀ i, i ≤ n → a i = selBelow sel i := by
  cases cumsum with
  | none => exact patternScan_one n sel junk
  | some a => exact ⟨a, rfl, hc a rfl⟩

/-- **C63, packing (partial).** As long as a vector is packed with one pattern, every call stores what
the host stores, and the vector stays in a state in which this is so. -/
theorem C63_pack_partial (nv : ℕ) (junk : ℕ → ℕ) (cumsum : Option (ℕ → ℕ)) (x v : ℕ → K) (start : ℕ)
    (sel : ℕ → K) (h : IsPattern (asVec n sel)) (hc : Cached n sel cumsum)
    (hfit : start + Range.count (asVec n sel) ≤ nv) :
    ∃ y c', Range.packTo (asVec n x) (asVec nv v) start (asVec n sel) = some y ∧
      packToV n nv junk cumsum x v start sel = .one (putBack y v, c') ∧ Cached n sel c' := by
  by_cases hn : n = 0
  · obtain ⟨y, hy, y1, y2⟩ := (Range.C56_pack (asVec n x) (asVec nv v) start (asVec n sel)).1 hfit
    refine ⟨y, cumsum, hy, ?_, hc⟩
    unfold packToV
    rw [if_pos hn]
    congr 2
    funext l
    unfold putBack
    split_ifs with hl
    · subst hn
      have : Range.count (asVec 0 sel) = 0 := rfl
      rw [y2 ⟨l, hl⟩ (by show l < start ∨ _ ≤ l; omega)]
      rfl
    · rfl
  obtain ⟨a, ha, hv⟩ := packIndex_one junk cumsum sel hc
  obtain ⟨y, hy, hs⟩ := packStore_one nv a x v start sel h hv hfit
  refine ⟨y, some a, hy, ?_, fun b hb => by cases hb; exact hv⟩
  unfold packToV
  rw [if_neg hn, ha, Out.one_andThen, hs, Out.one_andThen]

/-- A packing that does not fit ends the program, for the first pattern a vector sees. -/
theorem C63_pack_abort (nv : ℕ) (junk : ℕ → ℕ) (cumsum : Option (ℕ → ℕ)) (x v : ℕ → K) (start : ℕ)
    (sel : ℕ → K) (h : IsPattern (asVec n sel)) (hc : Cached n sel cumsum)
    (hfit : nv < start + Range.count (asVec n sel)) (hs : start ≤ nv) :
    Range.packTo (asVec n x) (asVec nv v) start (asVec n sel) = none ∧
      none ∈ packToV n nv junk cumsum x v start sel := by
  refine ⟨(Range.C56_pack (asVec n x) (asVec nv v) start (asVec n sel)).2 (by omega), ?_⟩
  have hn : n ≠ 0 := by
    rintro rfl
    have : Range.count (asVec 0 sel) = 0 := rfl
    omega
  obtain ⟨a, ha, hv⟩ := packIndex_one junk cumsum sel hc
  unfold packToV
  rw [if_neg hn, ha, Out.one_andThen, Out.mem_andThen]
  refine Or.inl ⟨rfl, ?_⟩
  obtain ⟨i, hi, hr⟩ := Range.exists_rank (asVec n sel) (k := nv - start) (by omega)
  have hi' : sel i = 1 := hi
  rw [rank_selBelow sel h] at hr
  refine forallR_abort i.2 ?_
  rw [hv i i.2.le, hv (i + 1) i.2, selBelow_succ]
  simp only [hi', ne_eq, one_ne_zero, not_false_eq_true, if_true, assertP]
  rw [if_pos (by omega), if_neg (by omega)]

/-- **C63, packing, refuted.** The second packing of the same vector, with another pattern, stores the
entries selected by the first pattern: the vector `(7, 8)` packed with `(0, 1)` after a packing with
`(1, 0)` stores 7, the host stores 8. -/
theorem C63_pack_refuted (junk : ℕ → ℕ) :
    ∃ c, packToV 2 1 junk none (fun i => if i = 0 then (7 : ℚ) else 8) (fun _ => 0) 0
          (fun i => if i = 0 then 1 else 0) = .one (putBack ![7] fun _ => 0, c) ∧
      packToV 2 1 junk c (fun i => if i = 0 then (7 : ℚ) else 8) (fun _ => 0) 0
          (fun i => if i = 0 then 0 else 1) = .one (putBack ![7] fun _ => 0, c) ∧
      Range.packTo (![7, 8] : RVec ℚ 2) (![0] : RVec ℚ 1) (0 : ℕ) ![0, 1] = some ![8] := by
  have hp : IsPattern (asVec 2 fun i => if i = 0 then (1 : ℚ) else 0) := by
    intro i
    fin_cases i
    · exact Or.inr rfl
    · exact Or.inl rfl
  have hcnt : 0 + Range.count (asVec 2 fun i => if i = 0 then (1 : ℚ) else 0) ≤ 1 := by
    decide +kernel
  obtain ⟨a, ha, hv⟩ := patternScan_one 2 (fun i => if i = 0 then (1 : ℚ) else 0) junk
  obtain ⟨y, h1, h2⟩ := packStore_one (n := 2) 1 a
    (fun i => if i = 0 then (7 : ℚ) else 8) (fun _ => 0) 0 _ hp hv hcnt
  have hy : y = ![7] := by
    have : Range.packTo (asVec 2 fun i => if i = 0 then (7 : ℚ) else 8) (asVec 1 fun _ => 0)
        ((0 : ℕ) : ℤ) (asVec 2 fun i => if i = 0 then (1 : ℚ) else 0) = some ![7] := by
      decide +kernel
    rw [h1] at this
    exact Option.some.inj this
  subst hy
  refine ⟨some a, ?_, ?_, by decide +kernel⟩
  · unfold packToV packIndexV
    rw [if_neg (by norm_num), ha, Out.one_andThen, h2, Out.one_andThen]
  · unfold packToV packIndexV
    rw [if_neg (by norm_num), Out.one_andThen, h2, Out.one_andThen]

/-! ## Indexed addition -/

theorem axpyIdx_host (a : K) (v y : ℕ → K) (idx : Fin n → Fin n) (hinj : Function.Injective idx)
    (j : Fin n) :
    PriDec.axpyIdx (asVec n y) a (asVec n v) idx (idx j) = y (idx j) + a * v j := by
  unfold PriDec.axpyIdx
  have key : ∀ (l : List (Fin n)) (w : RVec K n), l.Nodup → ∀ j,
      l.foldl (fun y j => update y (idx j) (y (idx j) + a * asVec n v j)) w (idx j)
        = if j ∈ l then w (idx j) + a * v j else w (idx j) := by
    intro l
    induction l with
    | nil => intro w _ j; simp
    | cons i l ih =>
      intro w hnd j
      rw [List.nodup_cons] at hnd
      rw [List.foldl_cons, ih _ hnd.2]
      by_cases hji : j = i
      · subst hji
        simp [hnd.1, asVec]
      · have hne : idx j ≠ idx i := fun e => hji (hinj e)
        simp [hji, hne]
  rw [key _ _ (List.nodup_finRange n), if_pos (List.mem_finRange j)]
  rfl

/-- **C63, indexed addition (partial).** With an index for every element and no index twice. -/
theorem C63_axpyIdx_partial (a : K) (v y : ℕ → K) (idx : Fin n → Fin n)
    (hinj : Function.Injective idx) :
    axpyIdxV n n a v (fun i => if h : i < n then idx ⟨i, h⟩ else 0) y
      = .one (putBack (PriDec.axpyIdx (asVec n y) a (asVec n v) idx) y) := by
  rw [axpyIdxV, Out.check_pos le_rfl]
  refine forallR_upd _ (fun i => [((if h : i < n then (idx ⟨i, h⟩ : ℕ) else 0), fun d => a * v i + d)])
    (fun i hi => ?_) (fun i _ => by simp) ?_ ?_ ?_
  · simp only [assertP, dif_pos hi, if_pos hi, if_pos (idx ⟨i, hi⟩).2]
    rfl
  · intro i j hi hj hij u hu w hw
    rw [List.mem_singleton] at hu hw
    subst hu hw
    simp only [dif_pos hi, dif_pos hj]
    intro e
    exact hij (congrArg Fin.val (hinj (Fin.ext e)))
  · intro i hi u hu
    rw [List.mem_singleton] at hu
    subst hu
    simp only [dif_pos hi]
    rw [putBack, dif_pos (idx ⟨i, hi⟩).2]
    exact (axpyIdx_host a v y idx hinj ⟨i, hi⟩).trans (add_comm _ _)
  · intro l hl
    unfold putBack
    split_ifs with hln
    · exfalso
      obtain ⟨j, hj⟩ := (Finite.injective_iff_surjective.1 hinj) ⟨l, hln⟩
      refine hl j j.2 _ (List.mem_singleton.2 rfl) ?_
      simp [hj]
    · rfl

/-- **C63, indexed addition, refuted (1).** With fewer indexes than the vector has elements, which the
assertions admit and the host handles, the loop reads behind the end of the index vector. -/
theorem C63_axpyIdx_short_refuted (ni : ℕ) (hni : ni < n) (a : K) (v y : ℕ → K) (idx : ℕ → ℕ) :
    none ∈ axpyIdxV n ni a v idx y := by
  rw [axpyIdxV, Out.check_pos hni.le]
  exact forallR_abort hni (if_neg (lt_irrefl _))

/-- **C63, indexed addition, refuted (2).** With a repeated index one of the two contributions can be
lost; the host adds both. -/
theorem C63_axpyIdx_repeated_refuted :
    some (fun i => if i = 0 then (20 : ℚ) else 0) ∈
        axpyIdxV 2 2 (1 : ℚ) (fun i => if i = 0 then 10 else 20) (fun _ => 0) (fun _ => 0) ∧
      PriDec.axpyIdx (![0, 0] : RVec ℚ 2) 1 (![10, 20] : RVec ℚ 2) (fun _ => 0) = ![30, 0] := by
  refine ⟨?_, by decide +kernel⟩
  rw [axpyIdxV, Out.check_pos le_rfl]
  have e : (fun i => if i = 0 then (20 : ℚ) else 0)
      = update (fun _ => (0 : ℚ)) 0 ((fun _ : ℕ => (0 : ℚ)) 0 + 20) := by
    funext i
    by_cases h : i = 0 <;> simp [h]
  rw [e]
  refine lost_update (fun _ => 0) 0 (fun i => if i = 0 then 10 else 20) _ ?_ ?_
  · simp [assertP, add_comm]
  · simp [assertP, add_comm]

/-! ## Cases that meet the hypotheses -/

/-- A pattern with a one and a zero (`C63_pack_partial`, and the reductions with a pattern). -/
example : IsPattern (asVec 3 fun i => if i = 1 then (0 : ℚ) else 1) ∧
    1 + Range.count (asVec 3 fun i => if i = 1 then (0 : ℚ) else 1) ≤ 4 ∧
    Cached 3 (fun i => if i = 1 then (0 : ℚ) else 1) none := by
  refine ⟨fun i => ?_, by decide +kernel, fun _ h => by cases h⟩
  fin_cases i
  · exact Or.inr rfl
  · exact Or.inl rfl
  · exact Or.inr rfl

/-- After a first call the kept index array is that of the pattern: `(1, 0, 1)` has the counts
`0, 1, 1, 2`. -/
example : Cached 3 (fun i => if i = 1 then (0 : ℚ) else 1)
    (some fun i => if i = 0 then 0 else if i ≤ 2 then 1 else 2) := by
  intro a ha i hi
  cases ha
  interval_cases i <;> decide +kernel

/-- A packing that does not fit (`C63_pack_abort`). -/
example : 2 < 1 + Range.count (asVec 3 fun i => if i = 1 then (0 : ℚ) else 1) := by decide +kernel

/-- Index maps that do not meet (`C63_copyFromTwo`). -/
example : (∀ i, i < 2 → 2 * i < 3) ∧ (∀ i, i < 1 → 2 * i + 1 < 3) ∧
    (∀ i j, i < 2 → j < 2 → 2 * i = 2 * j → i = j) ∧
    ∀ i j, i < 2 → j < 1 → 2 * i ≠ 2 * j + 1 := by
  refine ⟨?_, ?_, ?_, ?_⟩ <;> intros <;> omega

/-- An injective index map that is not the identity (`C63_axpyIdx_partial`). -/
example : Function.Injective (![2, 0, 1] : Fin 3 → Fin 3) := by decide

/-- Bounds with an absent upper bound of 10 (`C63_project_partial`). -/
example : ∀ i, i < 1 → (1 : ℚ) = 0 ∨ (0 : ℚ) = 0 → (1 : ℚ) ≤ 10 := by norm_num

end Hiop.Raja
