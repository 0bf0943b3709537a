import Verif.Compound.Model
import Verif.Vec.Lemmas
import Verif.Barrier.Props
import Verif.Mpi.Props

/-!
# C55: a vector made of parts behaves like the concatenation of its parts

`flat c` is the vector obtained by writing the parts one after the other. Every operation of a
compound vector gives the result of the same operation of an ordinary vector on the
concatenations (`C55_*`). Three operations do not: `addLogBarrierGrad`, `addVector` and the value
returned by `projectIntoBounds_local`.
-/

set_option linter.unusedSectionVars false

namespace Hiop.Compound

open Hiop.Vec

/-! ## Specification -/

section Spec
variable {K : Type*} {p : ℕ} {sz : Fin p → ℕ}

/-- The place of entry `k` of part `i` in the concatenation. -/
def place (i : Fin p) (k : Fin (sz i)) : Fin (∑ j, sz j) := finSigmaFinEquiv ⟨i, k⟩

/-- The concatenation of the parts. -/
def flat (c : Comp K p sz) : RVec K (∑ j, sz j) := fun k =>
  c.parts (finSigmaFinEquiv.symm k).1 (finSigmaFinEquiv.symm k).2

/-- The counters agree with the parts. -/
def Whole (c : Comp K p sz) : Prop := c.nparts = p ∧ c.n = ∑ j, sz j

/-- The operation succeeds, keeps the counters right and its result is the concatenation `w`. -/
def Does (o : Option (Comp K p sz)) (w : RVec K (∑ j, sz j)) : Prop :=
  ∃ r, o = some r ∧ Whole r ∧ flat r = w

end Spec

/-- `place` puts part `i` after the parts before it. -/
theorem place_val {p : ℕ} {sz : Fin p → ℕ} (i : Fin p) (k : Fin (sz i)) :
    (place i k : ℕ) = (∑ j : Fin i.val, sz (Fin.castLE i.2.le j)) + k := by
  simp [place]

section Lemmas
variable {K : Type*} {p : ℕ} {sz : Fin p → ℕ}

@[simp] theorem flat_place (c : Comp K p sz) (i : Fin p) (k : Fin (sz i)) :
    flat c (place i k) = c.parts i k := by
  unfold flat place
  rw [Equiv.symm_apply_apply]

theorem ext_place {β : Type*} {u v : Fin (∑ j, sz j) → β}
    (h : ∀ (i : Fin p) (k : Fin (sz i)), u (place i k) = v (place i k)) : u = v := by
  funext k
  obtain ⟨⟨i, l⟩, rfl⟩ := finSigmaFinEquiv.surjective k
  exact h i l

theorem forall_place {P : Fin (∑ j, sz j) → Prop} :
    (∀ k, P k) ↔ ∀ (i : Fin p) (k : Fin (sz i)), P (place i k) := by
  constructor
  · intro h i k; exact h _
  · intro h k
    obtain ⟨⟨i, l⟩, rfl⟩ := finSigmaFinEquiv.surjective k
    exact h i l

theorem sum_place {M : Type*} [AddCommMonoid M] (g : Fin (∑ j, sz j) → M) :
    ∑ k, g k = ∑ i, ∑ k, g (place i k) := by
  rw [← Equiv.sum_comp finSigmaFinEquiv g, Fintype.sum_sigma]
  rfl

theorem does_loop {c : Comp K p sz} (hc : Whole c)
    {f : (i : Fin p) → RVec K (sz i) → RVec K (sz i)} {w : RVec K (∑ j, sz j)}
    (h : ∀ i k, f i (c.parts i) k = w (place i k)) : Does (some (loopParts c f)) w := by
  refine ⟨_, rfl, ⟨hc.1, hc.2⟩, ?_⟩
  apply ext_place
  intro i k
  rw [flat_place, ← h]
  unfold loopParts
  simp [hc.1]

theorem foldParts_whole {β : Type*} {c : Comp K p sz} (hc : Whole c) (g : β → Fin p → β) (b : β) :
    foldParts c g b = (List.finRange p).foldl g b := by
  unfold foldParts
  congr 1
  simp [hc.1]

end Lemmas

section Folds
variable {p : ℕ}

theorem foldl_sum {M : Type*} [AddCommMonoid M] (g : Fin p → M) :
    (List.finRange p).foldl (fun t i => t + g i) 0 = ∑ i, g i := by
  have key : ∀ (l : List (Fin p)) (a : M),
      l.foldl (fun t i => t + g i) a = a + (l.map g).sum := by
    intro l
    induction l with
    | nil => simp
    | cons i l ih => intro a; simp [ih, add_assoc]
  rw [key, zero_add, ← List.ofFn_eq_map, List.sum_ofFn]

theorem foldl_and (b : Fin p → Bool) (l : List (Fin p)) (a : Bool) :
    l.foldl (fun t i => if !b i then false else t) a = true ↔ a = true ∧ ∀ i ∈ l, b i = true := by
  induction l generalizing a with
  | nil => simp
  | cons i l ih =>
    simp only [List.foldl_cons, ih]
    cases h : b i <;> simp [h]

variable {K : Type*} [LinearOrder K]

theorem le_foldl_min (g : Fin p → K) (f : K → Fin p → K) (hf : ∀ a i, f a i = min a (g i))
    (l : List (Fin p)) (a t : K) : t ≤ l.foldl f a ↔ t ≤ a ∧ ∀ i ∈ l, t ≤ g i := by
  induction l generalizing a with
  | nil => simp
  | cons i l ih => simp only [List.foldl_cons, ih, hf, le_min_iff, List.forall_mem_cons, and_assoc]

theorem foldl_max_le (g : Fin p → K) (f : K → Fin p → K) (hf : ∀ a i, f a i = max a (g i))
    (l : List (Fin p)) (a t : K) : l.foldl f a ≤ t ↔ a ≤ t ∧ ∀ i ∈ l, g i ≤ t := by
  induction l generalizing a with
  | nil => simp
  | cons i l ih => simp only [List.foldl_cons, ih, hf, max_le_iff, List.forall_mem_cons, and_assoc]

end Folds

section VecChar
variable {K : Type*} [Field K] [LinearOrder K] [IsStrictOrderedRing K] {n : ℕ}

theorem le_minSel (M : K) (x s : RVec K n) (t : K) :
    t ≤ Vec.minSel M x s ↔ t ≤ M ∧ ∀ i, s i = 1 → t ≤ x i := by
  obtain ⟨h1, h2, h3⟩ := minSel_char M x s
  constructor
  · intro h; exact ⟨h.trans h1, fun i hi => h.trans (h2 i hi)⟩
  · rintro ⟨ha, hb⟩
    rcases h3 with h | ⟨i, hi, h⟩
    · rw [h]; exact ha
    · rw [h]; exact hb i hi

theorem le_minAll (M : K) (x : RVec K n) (t : K) :
    t ≤ Vec.minAll M x ↔ t ≤ M ∧ ∀ i, t ≤ x i := by
  obtain ⟨h1, h2, h3⟩ := minAll_char M x
  constructor
  · intro h; exact ⟨h.trans h1, fun i => h.trans (h2 i)⟩
  · rintro ⟨ha, hb⟩
    rcases h3 with h | ⟨i, h⟩
    · rw [h]; exact ha
    · rw [h]; exact hb i

theorem le_frac (x d s : RVec K n) (tau t : K) :
    t ≤ Vec.fractionToBdrySel x d tau s ↔
      t ≤ 1 ∧ ∀ i, d i < 0 → s i ≠ 0 → t ≤ -tau * x i / d i := by
  obtain ⟨h1, h2, h3⟩ := fractionToBdrySel_char x d tau s
  constructor
  · intro h; exact ⟨h.trans h1, fun i hi hs => h.trans (h2 i hi hs)⟩
  · rintro ⟨ha, hb⟩
    rcases h3 with h | ⟨i, hi, hs, h⟩
    · rw [h]; exact ha
    · rw [h]; exact hb i hi hs

theorem if_lt_min (a b : K) : (if a < b then a else b) = min a b := by
  split_ifs with h
  · exact (min_eq_left h.le).symm
  · exact (min_eq_right (not_lt.mp h)).symm

theorem if_gt_max (a b : K) : (if a > b then a else b) = max a b := by
  split_ifs with h
  · exact (max_eq_left (le_of_lt h)).symm
  · exact (max_eq_right (not_lt.mp h)).symm

end VecChar

/-! ## The operations that change the vector -/

section Change
variable {K : Type*} [Field K] [LinearOrder K] [IsStrictOrderedRing K] {p : ℕ} {sz : Fin p → ℕ}
variable {c u v w s : Comp K p sz}

/-- **C55.** Setting to a constant. -/
theorem C55_setToConstant (hc : Whole c) (a : K) :
    Does (some (setToConstant c a)) (fun _ => a) := by
  exact does_loop hc fun i k => by simp []

/-- **C55.** Copying. -/
theorem C55_copyFrom (hc : Whole c) (hv : Whole v) : Does (copyFrom c v) (flat v) := by
  rw [copyFrom, if_pos (hc.1.trans hv.1.symm)]
  exact does_loop hc fun i k => by simp

/-- **C55.** A new copy has the values of the original, whatever the memory it is given held. -/
theorem C55_newCopy (hc : Whole c) (junk : (i : Fin p) → RVec K (sz i)) :
    Does (newCopy c junk) (flat c) :=
  C55_copyFrom (c := allocClone c junk) ⟨hc.1, hc.2⟩ hc

/-- **C55.** Setting the selected entries. -/
theorem C55_setToConstantSel (hc : Whole c) (hs : Whole s) (a : K) :
    Does (setToConstantSel c s a) (Vec.setToConstantSel a (flat s)) := by
  rw [setToConstantSel, if_pos (hc.1.trans hs.1.symm)]
  exact does_loop hc fun i k => by simp [Vec.setToConstantSel]

/-- **C55.** Copying the selected entries. -/
theorem C55_copyFromSel (hc : Whole c) (hv : Whole v) (hs : Whole s) :
    Does (copyFromSel c v s) (Vec.copyFromSel (flat c) (flat v) (flat s)) := by
  rw [copyFromSel, if_pos ⟨hc.2.trans hs.2.symm, hc.2.trans hv.2.symm⟩]
  exact does_loop hc fun i k => by simp [Vec.copyFromSel]

/-- **C55.** Entrywise product. -/
theorem C55_componentMult (hc : Whole c) (hv : Whole v) :
    Does (componentMult c v) (Vec.componentMult (flat c) (flat v)) := by
  rw [componentMult, if_pos (hc.1.trans hv.1.symm)]
  exact does_loop hc fun i k => by simp [Vec.componentMult]

/-- **C55.** Entrywise quotient. -/
theorem C55_componentDiv (hc : Whole c) (hv : Whole v) :
    Does (componentDiv c v) (Vec.componentDiv (flat c) (flat v)) := by
  rw [componentDiv, if_pos (hc.1.trans hv.1.symm)]
  exact does_loop hc fun i k => by simp [Vec.componentDiv]

/-- **C55.** Entrywise quotient on a selection. -/
theorem C55_componentDivSel (hc : Whole c) (hv : Whole v) (hs : Whole s) :
    Does (componentDivSel c v s) (Vec.componentDivSel (flat c) (flat v) (flat s)) := by
  rw [componentDivSel, if_pos ⟨hc.1.trans hv.1.symm, hc.1.trans hs.1.symm⟩]
  exact does_loop hc fun i k => by simp [Vec.componentDivSel]

/-- **C55.** Entrywise minimum with a constant. -/
theorem C55_componentMinC (hc : Whole c) (a : K) :
    Does (some (componentMinC c a)) (Vec.componentMinC (flat c) a) := by
  exact does_loop hc fun i k => by simp [Vec.componentMinC]

/-- **C55.** Entrywise minimum. -/
theorem C55_componentMin (hc : Whole c) (hv : Whole v) :
    Does (componentMin c v) (Vec.componentMin (flat c) (flat v)) := by
  rw [componentMin, if_pos (hc.1.trans hv.1.symm)]
  exact does_loop hc fun i k => by simp [Vec.componentMin]

/-- **C55.** Entrywise maximum with a constant. -/
theorem C55_componentMaxC (hc : Whole c) (a : K) :
    Does (some (componentMaxC c a)) (Vec.componentMaxC (flat c) a) := by
  exact does_loop hc fun i k => by simp [Vec.componentMaxC]

/-- **C55.** Entrywise maximum. -/
theorem C55_componentMax (hc : Whole c) (hv : Whole v) :
    Does (componentMax c v) (Vec.componentMax (flat c) (flat v)) := by
  rw [componentMax, if_pos (hc.1.trans hv.1.symm)]
  exact does_loop hc fun i k => by simp [Vec.componentMax]

/-- **C55.** Absolute values. -/
theorem C55_componentAbs (hc : Whole c) :
    Does (some (componentAbs c)) (Vec.componentAbs (flat c)) := by
  exact does_loop hc fun i k => by simp [Vec.componentAbs]

/-- **C55.** Signs. -/
theorem C55_componentSgn (hc : Whole c) :
    Does (some (componentSgn c)) (Vec.componentSgn (flat c)) := by
  exact does_loop hc fun i k => by simp [Vec.componentSgn]

/-- **C55.** Scaling. -/
theorem C55_scale (hc : Whole c) (a : K) :
    Does (some (scale c a)) (Vec.scale (flat c) a) := by
  exact does_loop hc fun i k => by simp [Vec.scale]; split_ifs <;> simp

/-- **C55.** `c += a v`. -/
theorem C55_axpy (hc : Whole c) (hv : Whole v) (a : K) :
    Does (axpy c v a) (Vec.axpy (flat c) a (flat v)) := by
  rw [axpy, if_pos (hc.1.trans hv.1.symm)]
  exact does_loop hc fun i k => by simp [Vec.axpy]

/-- **C55.** `c += a v` on a selection. -/
theorem C55_axpySel (hc : Whole c) (hv : Whole v) (a : K) :
    Does (axpySel c v s a) (Vec.axpySel (flat c) a (flat v) (flat s)) := by
  rw [axpySel, if_pos (hc.1.trans hv.1.symm)]
  exact does_loop hc fun i k => by simp [Vec.axpySel]

/-- **C55.** `c += a u v`. -/
theorem C55_axzpy (hc : Whole c) (hu : Whole u) (a : K) :
    Does (axzpy c u v a) (Vec.axzpy (flat c) a (flat u) (flat v)) := by
  rw [axzpy, if_pos (hc.1.trans hu.1.symm)]
  exact does_loop hc fun i k => by simp [Vec.axzpy]; split_ifs <;> simp_all

/-- **C55.** `c += a u / v` on a selection. -/
theorem C55_axdzpySel (hc : Whole c) (hu : Whole u) (a : K) :
    Does (axdzpySel c u v s a) (Vec.axdzpySel (flat c) a (flat u) (flat v) (flat s)) := by
  rw [axdzpySel, if_pos (hc.1.trans hu.1.symm)]
  exact does_loop hc fun i k => by simp [Vec.axdzpySel]; split_ifs <;> simp_all

/-- **C55.** `c += a u / v`. -/
theorem C55_axdzpy (hc : Whole c) (hu : Whole u) (a : K) :
    Does (axdzpy c u v a) (Vec.axdzpy (flat c) a (flat u) (flat v)) := by
  unfold axdzpy
  by_cases ha : a = 0
  · rw [if_pos ha]
    exact ⟨c, rfl, hc, by simp [Vec.axdzpy, ha]⟩
  · rw [if_neg ha, if_pos (hc.1.trans hu.1.symm)]
    exact does_loop hc fun i k => by simp [Vec.axdzpy]; split_ifs <;> simp

/-- **C55.** Adding a constant. -/
theorem C55_addConstant (hc : Whole c) (a : K) :
    Does (some (addConstant c a)) (Vec.addConstant (flat c) a) := by
  exact does_loop hc fun i k => by simp [Vec.addConstant]

/-- **C55.** Adding a constant on a selection. -/
theorem C55_addConstantSel (hc : Whole c) (hs : Whole s) (a : K) :
    Does (addConstantSel c s a) (Vec.addConstantSel (flat c) a (flat s)) := by
  rw [addConstantSel, if_pos (hc.1.trans hs.1.symm)]
  exact does_loop hc fun i k => by simp [Vec.addConstantSel]

/-- **C55.** Negation. -/
theorem C55_negate (hc : Whole c) :
    Does (some (negate c)) (Vec.negate (flat c)) := by
  exact does_loop hc fun i k => by simp [Vec.negate]

/-- **C55.** Gradient of the linear damping term. -/
theorem C55_addLinearDampingTerm (hc : Whole c) (hu : Whole u) (hv : Whole v) (a ct : K) :
    Does (addLinearDampingTerm c u v a ct) (Vec.addLinearDampingTerm (flat c) (flat u) (flat v) a ct) := by
  rw [addLinearDampingTerm, if_pos ⟨hc.1.trans hu.1.symm, hc.1.trans hv.1.symm⟩]
  exact does_loop hc fun i k => by simp [Vec.addLinearDampingTerm]

/-- **C55.** Zeroing the entries outside a selection. -/
theorem C55_selectPattern (hc : Whole c) (hs : Whole s) :
    Does (selectPattern c s) (Vec.selectPattern (flat c) (flat s)) := by
  rw [selectPattern, if_pos (hc.1.trans hs.1.symm)]
  exact does_loop hc fun i k => by simp [Vec.selectPattern]

/-- **C55.** Adjustment of bound duals. -/
theorem C55_adjustDualsPlh (hc : Whole c) (hu : Whole u) (hs : Whole s) (mu kappa : K) :
    Does (adjustDualsPlh c u s mu kappa) (Vec.adjustDualsPlh (flat c) (flat u) (flat s) mu kappa) := by
  rw [adjustDualsPlh, if_pos ⟨hc.1.trans hu.1.symm, hc.1.trans hs.1.symm⟩]
  exact does_loop hc fun i k => by simp [Vec.adjustDualsPlh]

end Change

/-! ## The operations that return a value -/

section Value
variable {K : Type*} [Field K] [LinearOrder K] [IsStrictOrderedRing K] {p : ℕ} {sz : Fin p → ℕ}
variable {c u v s : Comp K p sz}

/-- **C55.** Scalar product. -/
theorem C55_dot (hc : Whole c) (hv : Whole v) : dot c v = some (Vec.dot (flat c) (flat v)) := by
  rw [dot, if_pos (hc.1.trans hv.1.symm), foldParts_whole hc, foldl_sum, dot_eq_sum, sum_place]
  simp [dot_eq_sum]

/-- **C55.** Sum of absolute values. -/
theorem C55_onenorm (hc : Whole c) : onenorm c = Vec.onenorm (flat c) := by
  rw [onenorm, foldParts_whole hc, foldl_sum, onenorm_eq_sum, sum_place]
  simp [onenorm_eq_sum]

/-- **C55.** Sum. -/
theorem C55_sumLocal (hc : Whole c) : sumLocal c = Vec.sumLocal (flat c) := by
  rw [sumLocal, foldParts_whole hc, foldl_sum, sumLocal_eq_sum, sum_place]
  simp [sumLocal_eq_sum]

/-- **C55.** Largest absolute value. -/
theorem C55_infnorm (hc : Whole c) : infnorm c = Vec.infnorm (flat c) := by
  rw [infnorm, foldParts_whole hc]
  apply eq_of_forall_ge_iff
  intro t
  rw [foldl_max_le (fun i => Vec.infnorm (c.parts i)) _ fun a i => if_gt_max _ _]
  by_cases ht : 0 ≤ t
  · rw [infnorm_le_iff _ _ ht, forall_place]
    simp [ht, infnorm_le_iff _ _ ht]
  · constructor
    · intro h; exact absurd h.1 ht
    · intro h; exact absurd ((infnorm_nonneg _).trans h) ht

/-- **C55.** Smallest entry. -/
theorem C55_minAll (hc : Whole c) (M : K) : minAll c M = Vec.minAll M (flat c) := by
  rw [minAll, foldParts_whole hc]
  apply eq_of_forall_le_iff
  intro t
  rw [le_foldl_min (fun i => Vec.minAll M (c.parts i)) _ fun a i => if_lt_min _ _, le_minAll,
    forall_place]
  simp only [flat_place, le_minAll, List.mem_finRange, true_implies]
  exact ⟨fun h => ⟨h.1, fun i k => (h.2 i).2 k⟩, fun h => ⟨h.1, fun i => ⟨h.1, h.2 i⟩⟩⟩

/-- **C55.** Smallest selected entry. -/
theorem C55_minSel (hc : Whole c) (hs : Whole s) (M : K) :
    minSel c s M = some (Vec.minSel M (flat c) (flat s)) := by
  rw [minSel, if_pos (hc.1.trans hs.1.symm), foldParts_whole hc]
  congr 1
  apply eq_of_forall_le_iff
  intro t
  rw [le_foldl_min (fun i => Vec.minSel M (c.parts i) (s.parts i)) _ fun a i => if_lt_min _ _,
    le_minSel, forall_place]
  simp only [flat_place, le_minSel, List.mem_finRange, true_implies]
  exact ⟨fun h => ⟨h.1, fun i k => (h.2 i).2 k⟩, fun h => ⟨h.1, fun i => ⟨h.1, h.2 i⟩⟩⟩

/-- **C55.** Linear damping term. -/
theorem C55_linearDampingTermLocal (hc : Whole c) (hu : Whole u) (hv : Whole v) (mu kd : K) :
    linearDampingTermLocal c u v mu kd =
      some (Vec.linearDampingTermLocal (flat c) (flat u) (flat v) mu kd) := by
  rw [linearDampingTermLocal, if_pos ⟨hc.1.trans hu.1.symm, hc.1.trans hv.1.symm⟩,
    foldParts_whole hc, foldl_sum, linearDampingTermLocal_eq_sum, sum_place]
  simp only [linearDampingTermLocal_eq_sum, flat_place, Finset.sum_mul]

/-- **C55.** Largest step to the boundary. -/
theorem C55_fractionToBdrySel (hc : Whole c) (hv : Whole v) (hs : Whole s) (tau : K) :
    fractionToBdrySel c v s tau
      = some (Vec.fractionToBdrySel (flat c) (flat v) tau (flat s)) := by
  rw [fractionToBdrySel, if_pos ⟨hc.1.trans hv.1.symm, hc.1.trans hs.1.symm⟩, foldParts_whole hc]
  congr 1
  apply eq_of_forall_le_iff
  intro t
  rw [le_foldl_min (fun i => Vec.fractionToBdrySel (c.parts i) (v.parts i) tau (s.parts i)) _
      fun a i => by rw [if_lt_min, min_comm], le_frac, forall_place]
  simp only [flat_place, le_frac, List.mem_finRange, true_implies]
  exact ⟨fun h => ⟨h.1, fun i k => (h.2 i).2 k⟩, fun h => ⟨h.1, fun i => ⟨h.1, h.2 i⟩⟩⟩

/-- **C55.** Largest step to the boundary, all entries selected. -/
theorem C55_fractionToBdry (hc : Whole c) (hv : Whole v) (tau : K) :
    fractionToBdry c v tau = some (Vec.fractionToBdry (flat c) (flat v) tau) := by
  rw [fractionToBdry, if_pos (hc.1.trans hv.1.symm), foldParts_whole hc]
  congr 1
  apply eq_of_forall_le_iff
  intro t
  rw [le_foldl_min (fun i => Vec.fractionToBdry (c.parts i) (v.parts i) tau) _
      fun a i => by rw [if_lt_min, min_comm], fractionToBdry_eq, le_frac, forall_place]
  simp only [flat_place, fractionToBdry_eq, le_frac, List.mem_finRange, true_implies]
  exact ⟨fun h => ⟨h.1, fun i k => (h.2 i).2 k⟩, fun h => ⟨h.1, fun i => ⟨h.1, h.2 i⟩⟩⟩

/-- **C55.** Test of positivity. -/
theorem C55_allPositive (hc : Whole c) : allPositive c = Vec.allPositive (flat c) := by
  rw [allPositive, foldParts_whole hc, Bool.eq_iff_iff, foldl_and, allPositive_iff, forall_place]
  simp [allPositive_iff]

/-- **C55.** Test of positivity on a selection. -/
theorem C55_allPositiveSel (hc : Whole c) (hs : Whole s) :
    allPositiveSel c s = some (Vec.allPositiveSel (flat c) (flat s)) := by
  rw [allPositiveSel, if_pos (hc.1.trans hs.1.symm), foldParts_whole hc]
  congr 1
  rw [Bool.eq_iff_iff, foldl_and, allPositiveSel_iff, forall_place]
  simp [allPositiveSel_iff]

/-- **C55.** Test that the entries outside a selection are zero. -/
theorem C55_matchesPattern (hc : Whole c) (hs : Whole s) :
    matchesPattern c s = some (Vec.matchesPattern (flat c) (flat s)) := by
  rw [matchesPattern, if_pos (hc.1.trans hs.1.symm), foldParts_whole hc]
  congr 1
  rw [Bool.eq_iff_iff, foldl_and, matchesPattern_iff, forall_place]
  simp [matchesPattern_iff]

/-- **C55.** Test that the vector is zero. -/
theorem C55_isZero (hc : Whole c) : isZero c = Mpi.isZero (flat c) := by
  rw [isZero, foldParts_whole hc, Bool.eq_iff_iff, foldl_and, Mpi.isZero_iff, forall_place]
  simp [Mpi.isZero_iff]

theorem card_place (Q : Fin (∑ j, sz j) → Prop) [DecidablePred Q] :
    (Finset.univ.filter Q).card
      = ∑ i, (Finset.univ.filter fun k : Fin (sz i) => Q (place i k)).card := by
  simp only [Finset.card_filter]
  rw [sum_place]

/-- **C55.** Number of entries below a value. -/
theorem C55_numLessThan (hc : Whole c) (t : K) :
    numLessThan c t = Vec.numLessThan (flat c) t := by
  rw [numLessThan, foldParts_whole hc, foldl_sum, numLessThan_eq, card_place]
  simp [numLessThan_eq]

/-- **C55.** Number of entries below a value in absolute value. -/
theorem C55_numAbsLessThan (hc : Whole c) (t : K) :
    numAbsLessThan c t = Vec.numAbsLessThan (flat c) t := by
  rw [numAbsLessThan, foldParts_whole hc, foldl_sum, Mpi.numAbsLessThan_eq, card_place]
  simp [Mpi.numAbsLessThan_eq]

end Value

/-- **C55.** Sum of logarithms of the selected entries. -/
theorem C55_logBarrierLocal {p : ℕ} {sz : Fin p → ℕ} {c s : Comp ℝ p sz} (hc : Whole c)
    (hs : Whole s) :
    logBarrierLocal c s = some (Barrier.logBarrierLocal (flat c) (flat s)) := by
  rw [logBarrierLocal, if_pos (hc.1.trans hs.1.symm), foldParts_whole hc, foldl_sum,
    Barrier.logBarrierLocal_eq_sum, sum_place]
  simp [Barrier.logBarrierLocal_eq_sum]

/-- **C55.** Euclidean norm. -/
theorem C55_twonorm {p : ℕ} {sz : Fin p → ℕ} {c : Comp ℝ p sz} (hc : Whole c) :
    twonorm c = QN.twonorm (flat c) := by
  unfold twonorm QN.twonorm
  rw [foldParts_whole hc, foldl_sum, dot_eq_sum (flat c), sum_place]
  congr 1
  refine Finset.sum_congr rfl fun i _ => ?_
  rw [Real.mul_self_sqrt]
  · simp [dot_eq_sum]
  · rw [dot_eq_sum]; exact Finset.sum_nonneg fun k _ => mul_self_nonneg _

/-! ## The vectors of the solver -/

section Solver
variable {K : Type*} {n mc m : ℕ}

theorem total_sizes : totalSize n mc m = ∑ j, sizes n mc m j := by
  simp [totalSize, sizes, Fin.sum_univ_succ]
  ring

/-- **C55.** The compound vector of an iterate has the right counters: all twelve vectors take
part in every operation. -/
theorem C55_ofIterate_whole (it : Iterate.It K n mc m) : Whole (ofIterate it) :=
  ⟨rfl, total_sizes⟩

/-- **C55.** So has that of a residual. -/
theorem C55_ofResid_whole (r : Kkt.Resid K n mc m) : Whole (ofResid r) := ⟨rfl, total_sizes⟩

/-- **C55.** Copying a residual into a vector of this shape gives the concatenation of the
residual, whatever the vector held. -/
theorem C55_copyFromResid (c : Comp K 12 (sizes n mc m)) (r : Kkt.Resid K n mc m) :
    flat (copyFromResid c r) = flat (ofResid r) := by
  apply ext_place
  intro i k
  rw [flat_place, flat_place]
  fin_cases i <;> rfl

/-- **C55.** Copying an iterate into a vector of this shape gives the concatenation of the
iterate. -/
theorem C55_copyFromIterate (c : Comp K 12 (sizes n mc m)) (it : Iterate.It K n mc m) :
    flat (copyFromIterate c it) = flat (ofIterate it) := by
  apply ext_place
  intro i k
  rw [flat_place, flat_place]
  fin_cases i <;> rfl

/-- **C55.** Nothing of an iterate is lost: equal concatenations come from equal iterates. -/
theorem C55_ofIterate_injective (it it' : Iterate.It K n mc m)
    (h : flat (ofIterate it) = flat (ofIterate it')) : it = it' := by
  have key : ∀ i, (ofIterate it).parts i = (ofIterate it').parts i := by
    intro i
    funext k
    have := congrFun h (place i k)
    rwa [flat_place, flat_place] at this
  cases it; cases it'
  simp only [Iterate.It.mk.injEq]
  exact ⟨key 0, key 1, key 4, key 5, key 6, key 7, key 2, key 3, key 8, key 9, key 10, key 11⟩

/-- The part of the direction paired with each residual. -/
theorem C55_pairing [Field K] (it : Iterate.It K n mc m) (r : Kkt.Resid K n mc m) :
    ∑ k, flat (ofIterate it) k * flat (ofResid r) k
      = (∑ i, it.x i * r.rx i) + (∑ i, it.d i * r.rd i) + (∑ i, it.yc i * r.ryc i)
        + (∑ i, it.yd i * r.ryd i) + (∑ i, it.sxl i * r.rxl i) + (∑ i, it.sxu i * r.rxu i)
        + (∑ i, it.sdl i * r.rdl i) + (∑ i, it.sdu i * r.rdu i) + (∑ i, it.zl i * r.rszl i)
        + (∑ i, it.zu i * r.rszu i) + (∑ i, it.vl i * r.rsvl i) + (∑ i, it.vu i * r.rsvu i) := by
  rw [sum_place]
  simp only [flat_place]
  rw [Fin.sum_univ_succ, Fin.sum_univ_succ, Fin.sum_univ_succ, Fin.sum_univ_succ,
    Fin.sum_univ_succ, Fin.sum_univ_succ, Fin.sum_univ_succ, Fin.sum_univ_succ,
    Fin.sum_univ_succ, Fin.sum_univ_succ, Fin.sum_univ_succ, Fin.sum_univ_succ]
  simp only [Finset.univ_eq_empty, Finset.sum_empty, add_zero, ← add_assoc]
  rfl

end Solver

/-! ## What fails -/

/-- A vector with two parts of sizes 1 and 2. -/
def demoSz : Fin 2 → ℕ := ![1, 2]

/-- Parts `(a)` and `(b, d)`. -/
def demo (a b d : ℚ) : Comp ℚ 2 demoSz where
  parts := fun i => match i with
    | 0 => fun _ => a
    | 1 => fun k => if k.val = 0 then b else d
  nparts := 2
  n := 3

theorem demo_whole (a b d : ℚ) : Whole (demo a b d) := ⟨rfl, by simp [demo, demoSz]⟩

/-- **C55, false for the gradient of the log barrier.** The vector of values is ignored: the
selection is used in its place. With `c = 0`, values `(2, 4, 4)` and everything selected the entry
`1/2` is expected and `1` is obtained. -/
theorem C55_addLogBarrierGrad_false :
    ¬ Does (addLogBarrierGrad (demo 0 0 0) (demo 2 4 4) (demo 1 1 1) 1)
      (Vec.addLogBarrierGrad (flat (demo 0 0 0)) 1 (flat (demo 2 4 4)) (flat (demo 1 1 1))) := by
  rintro ⟨r, hr, -, h⟩
  rw [addLogBarrierGrad, if_pos (show (demo 0 0 0).nparts = (demo 1 1 1).nparts from rfl),
    Option.some.injEq] at hr
  have := congrFun h (place (sz := demoSz) 0 ⟨0, by simp [demoSz]⟩)
  rw [flat_place, ← hr] at this
  simp [Vec.addLogBarrierGrad, loopParts, demo] at this

/-- What it does: the selection takes the place of the values. -/
theorem C55_addLogBarrierGrad_partial {K : Type*} [Field K] [LinearOrder K]
    [IsStrictOrderedRing K] {p : ℕ} {sz : Fin p → ℕ} {c v s : Comp K p sz} (hc : Whole c)
    (hs : Whole s) (a : K) :
    Does (addLogBarrierGrad c v s a)
      (fun k => if flat s k = 1 then flat c k + a else flat c k) := by
  rw [addLogBarrierGrad, if_pos (hc.1.trans hs.1.symm)]
  exact does_loop hc fun i k => by
    simp only [Vec.addLogBarrierGrad, flat_place]
    split_ifs with h
    · rw [h, div_one]
    · rfl

/-- **C55, false for vectors built with `addVector`.** The counter of the loops is not increased:
after any number of additions every operation leaves the added vectors alone. Here the vector
`(5)` is added to an empty one and the result is set to zero: the entry is still 5. -/
theorem C55_addVector_false :
    let c := addVector (emptyComp ℚ) (fun _ : Fin 1 => 5)
    c.n = 1 ∧ flat (setToConstant c 0) = (fun _ => 5) ∧ infnorm c = 0 := by
  refine ⟨rfl, ?_, ?_⟩
  · apply ext_place
    intro i k
    rw [flat_place]
    simp [setToConstant, loopParts, addVector, emptyComp]
  · simp [infnorm, foldParts, addVector, emptyComp]

/-- In general: a vector added is not touched by the loops. -/
theorem C55_addVector_ignored {K : Type*} {p m : ℕ} {sz : Fin p → ℕ} (c : Comp K p sz)
    (hc : c.nparts ≤ p) (v : RVec K m)
    (f : (i : Fin (p + 1)) → RVec K (Fin.snoc (α := fun _ => ℕ) sz m i)
      → RVec K (Fin.snoc (α := fun _ => ℕ) sz m i)) :
    (loopParts (addVector c v) f).parts (Fin.last p) = (addVector c v).parts (Fin.last p) := by
  unfold loopParts
  simp only [Fin.val_last]
  rw [if_neg]
  exact not_lt.mpr hc

/-- What `addVector` does: the size grows by that of the new vector, and the entries are those of the old vector
followed by those of the new one. -/
theorem C55_addVector {K : Type*} {p m : ℕ} {sz : Fin p → ℕ} (c : Comp K p sz) (v : RVec K m) :
    (c.n = ∑ i, sz i → (addVector c v).n = ∑ i, Fin.snoc (α := fun _ => ℕ) sz m i) ∧
    (∀ (i : Fin p) (k : Fin (sz i)), (addVector c v).parts i.castSucc (k.cast (by simp)) = c.parts i k) ∧
    ∀ k : Fin m, (addVector c v).parts (Fin.last p) (k.cast (by simp)) = v k := by
  refine ⟨fun h => ?_, fun i k => ?_, fun k => ?_⟩
  · rw [Fin.sum_univ_castSucc]
    simp [addVector, h]
  · simp [addVector]
  · simp [addVector]

example : (addVector (addVector (emptyComp ℚ) (![1, 2] : RVec ℚ 2)) (![7] : RVec ℚ 1)).n = 3 := by
  decide +kernel

/-- **C55, false for the value returned by the projection.** With the bounds `1 ≤ x ≤ 0` in the
first part an ordinary vector reports failure, the compound vector reports success. -/
theorem C55_project_false :
    (∃ r, projectIntoBounds (demo 0 0 0) (demo 1 0 0) (demo 1 0 0) (demo 0 0 0) (demo 1 0 0) 0
      (1/100) (1/100) = some (true, r)) ∧
    (Vec.projectIntoBounds 0 (1/100) (1/100) (flat (demo 0 0 0)) (flat (demo 1 0 0))
      (flat (demo 1 0 0)) (flat (demo 0 0 0)) (flat (demo 1 0 0))).1 = false := by
  constructor
  · exact ⟨_, by rw [projectIntoBounds, if_pos ⟨rfl, rfl, rfl, rfl⟩]⟩
  · rw [Bool.eq_false_iff, Ne, projectIntoBounds_true_iff]
    intro h
    have := h (place (sz := demoSz) 0 ⟨0, by simp [demoSz]⟩)
    simp [demo, projComp] at this

/-- When the bounds are consistent the projection gives the projected concatenation. -/
theorem C55_project_partial {K : Type*} [Field K] [LinearOrder K] [IsStrictOrderedRing K] {p : ℕ}
    {sz : Fin p → ℕ} {c xl ixl xu ixu : Comp K p sz} (hc : Whole c) (h1 : Whole xl)
    (h2 : Whole ixl) (h3 : Whole xu) (h4 : Whole ixu) (small k1 k2 : K)
    (h : (Vec.projectIntoBounds small k1 k2 (flat c) (flat xl) (flat ixl) (flat xu)
      (flat ixu)).1 = true) :
    ∃ r, projectIntoBounds c xl ixl xu ixu small k1 k2 = some (true, r) ∧ Whole r ∧
      flat r = (Vec.projectIntoBounds small k1 k2 (flat c) (flat xl) (flat ixl) (flat xu)
        (flat ixu)).2 := by
  rw [projectIntoBounds, if_pos ⟨hc.1.trans h1.1.symm, hc.1.trans h2.1.symm, hc.1.trans h3.1.symm,
    hc.1.trans h4.1.symm⟩]
  refine ⟨_, rfl, ⟨hc.1, hc.2⟩, ?_⟩
  apply ext_place
  intro i k
  rw [flat_place]
  have hi : (Vec.projectIntoBounds small k1 k2 (c.parts i) (xl.parts i) (ixl.parts i) (xu.parts i)
      (ixu.parts i)).1 = true := by
    rw [projectIntoBounds_true_iff] at h ⊢
    intro k
    simpa using h (place i k)
  have e1 := projectIntoBounds_comp _ _ _ _ _ _ _ _ h (place i k)
  have e2 := projectIntoBounds_comp _ _ _ _ _ _ _ _ hi k
  simp only [flat_place] at e1
  simp only [loopParts, hc.1, i.2, if_true]
  rw [e1] at e2
  exact (Option.some.inj e2).symm

/-! ## A concrete case -/

theorem demo_sum : ∑ j, demoSz j = 3 := by simp [demoSz]

example : ∀ k : Fin 3, flat (demo 1 2 3) (k.cast demo_sum.symm) = (k : ℕ) + 1 := by
  decide +kernel

example : ∃ r, axpy (demo 1 2 3) (demo 1 1 1) 2 = some r ∧
    ∀ k : Fin 3, flat r (k.cast demo_sum.symm) = (k : ℕ) + 3 := by
  obtain ⟨r, h, -, e⟩ := C55_axpy (demo_whole 1 2 3) (demo_whole 1 1 1) 2
  refine ⟨r, h, ?_⟩
  rw [e]
  decide +kernel

example : infnorm (demo 1 (-7) 3) = 7 := by
  decide +kernel

example : infnorm (demo 1 (-7) 3) = Vec.infnorm (flat (demo 1 (-7) 3)) :=
  C55_infnorm (demo_whole _ _ _)

end Hiop.Compound
