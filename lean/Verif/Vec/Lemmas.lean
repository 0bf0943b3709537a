import Verif.Vec.Model
import Mathlib.Tactic.Linarith
import Mathlib.Tactic.FieldSimp
import Mathlib.Tactic.Ring
import Mathlib.Tactic.Positivity
import Mathlib.Tactic.SplitIfs
import Mathlib.Algebra.Order.Field.Basic

/-! # Helper lemmas about the vector kernels (folds) -/

set_option linter.unusedSectionVars false

namespace Hiop.Vec

variable {K : Type*} [Field K] [LinearOrder K] [IsStrictOrderedRing K] {n : ℕ}

/-- A running minimum over the selected entries of a list. -/
theorem foldl_min_char {ι : Type*} (P : ι → Prop) [DecidablePred P] (g : ι → K)
    (f : K → ι → K) (hf : ∀ a i, f a i = if P i then (if g i < a then g i else a) else a)
    (l : List ι) (a0 : K) :
    l.foldl f a0 ≤ a0 ∧ (∀ i ∈ l, P i → l.foldl f a0 ≤ g i) ∧
      (l.foldl f a0 = a0 ∨ ∃ i ∈ l, P i ∧ l.foldl f a0 = g i) := by
  induction l generalizing a0 with
  | nil => simp
  | cons i l ih =>
    simp only [List.foldl_cons]
    obtain ⟨h1, h2, h3⟩ := ih (f a0 i)
    have hfa : f a0 i ≤ a0 := by
      rw [hf]; split_ifs with h h'
      · exact le_of_lt h'
      · exact le_rfl
      · exact le_rfl
    have hfg : P i → f a0 i ≤ g i := by
      intro hP; rw [hf, if_pos hP]; split_ifs with h'
      · exact le_rfl
      · exact not_lt.mp h'
    refine ⟨h1.trans hfa, ?_, ?_⟩
    · intro j hj hPj
      rcases List.mem_cons.mp hj with rfl | hj
      · exact h1.trans (hfg hPj)
      · exact h2 j hj hPj
    · rcases h3 with h3 | ⟨j, hj, hPj, h3⟩
      · rw [h3, hf]
        split_ifs with h h'
        · exact Or.inr ⟨i, by simp, h, rfl⟩
        · exact Or.inl rfl
        · exact Or.inl rfl
      · exact Or.inr ⟨j, by simp [hj], hPj, h3⟩

theorem fractionToBdrySel_char (x d : RVec K n) (tau : K) (pat : RVec K n) :
    fractionToBdrySel x d tau pat ≤ 1 ∧
    (∀ i, d i < 0 → pat i ≠ 0 → fractionToBdrySel x d tau pat ≤ -tau * x i / d i) ∧
    (fractionToBdrySel x d tau pat = 1 ∨
      ∃ i, d i < 0 ∧ pat i ≠ 0 ∧ fractionToBdrySel x d tau pat = -tau * x i / d i) := by
  have h := foldl_min_char (fun i : Fin n => d i < 0 ∧ pat i ≠ 0)
    (fun i => -tau * x i / d i)
    (fun alpha i =>
      if d i ≥ 0 then alpha
      else if pat i = 0 then alpha
      else
        let aux := -tau * x i / d i
        if aux < alpha then aux else alpha)
    (by
      intro a i
      by_cases h1 : d i ≥ 0
      · simp [h1, not_lt.mpr h1]
      · by_cases h2 : pat i = 0
        · simp [h2]
        · simp [h1, h2, not_le.mp h1])
    (List.finRange n) 1
  refine ⟨h.1, fun i hi hp => h.2.1 i (by simp) ⟨hi, hp⟩, ?_⟩
  rcases h.2.2 with h3 | ⟨i, -, ⟨hi, hp⟩, h3⟩
  · exact Or.inl h3
  · exact Or.inr ⟨i, hi, hp, h3⟩

theorem fractionToBdry_eq (x d : RVec K n) (tau : K) :
    fractionToBdry x d tau = fractionToBdrySel x d tau (fun _ => 1) := by
  simp [fractionToBdry, fractionToBdrySel]

theorem minSel_char (dblMax : K) (x sel : RVec K n) :
    minSel dblMax x sel ≤ dblMax ∧ (∀ i, sel i = 1 → minSel dblMax x sel ≤ x i) ∧
    (minSel dblMax x sel = dblMax ∨ ∃ i, sel i = 1 ∧ minSel dblMax x sel = x i) := by
  have h := foldl_min_char (fun i : Fin n => sel i = 1) x
    (fun r i => if sel i = 1 then (if r < x i then r else x i) else r)
    (by
      intro a i
      by_cases h1 : sel i = 1
      · simp only [h1, if_true]
        split_ifs with h2 h3 h3
        · exact absurd h2 (not_lt.mpr h3.le)
        · rfl
        · rfl
        · exact le_antisymm (not_lt.mp h2) (not_lt.mp h3)
      · simp [h1])
    (List.finRange n) dblMax
  refine ⟨h.1, fun i hi => h.2.1 i (by simp) hi, ?_⟩
  rcases h.2.2 with h3 | ⟨i, -, hi, h3⟩
  · exact Or.inl h3
  · exact Or.inr ⟨i, hi, h3⟩

theorem minAll_char (dblMax : K) (x : RVec K n) :
    minAll dblMax x ≤ dblMax ∧ (∀ i, minAll dblMax x ≤ x i) ∧
    (minAll dblMax x = dblMax ∨ ∃ i, minAll dblMax x = x i) := by
  have e : minAll dblMax x = minSel dblMax x (fun _ => 1) := by simp [minAll, minSel]
  rw [e]
  obtain ⟨h1, h2, h3⟩ := minSel_char dblMax x (fun _ => 1)
  refine ⟨h1, fun i => h2 i rfl, ?_⟩
  rcases h3 with h | ⟨i, -, h⟩
  · exact Or.inl h
  · exact Or.inr ⟨i, h⟩

theorem foldl_add_sum {ι : Type*} (g : ι → K) (l : List ι) (a : K) :
    l.foldl (fun t i => t + g i) a = a + (l.map g).sum := by
  induction l generalizing a with
  | nil => simp
  | cons i l ih => simp [ih, add_assoc]

theorem finRange_map_sum (g : Fin n → K) : ((List.finRange n).map g).sum = ∑ i, g i := by
  rw [← List.ofFn_eq_map, List.sum_ofFn]

theorem dot_eq_sum (x v : RVec K n) : dot x v = ∑ i, x i * v i := by
  rw [dot, foldl_add_sum, zero_add, finRange_map_sum]

theorem onenorm_eq_sum (x : RVec K n) : onenorm x = ∑ i, |x i| := by
  rw [onenorm, foldl_add_sum, zero_add, finRange_map_sum]

theorem sumLocal_eq_sum (x : RVec K n) : sumLocal x = ∑ i, x i := by
  rw [sumLocal, foldl_add_sum, zero_add, finRange_map_sum]

theorem linearDampingTermLocal_eq_sum (x il ir : RVec K n) (mu kd : K) :
    linearDampingTermLocal x il ir mu kd
      = (∑ i, if il i = 1 ∧ ir i = 0 then x i else 0) * mu * kd := by
  unfold linearDampingTermLocal
  have : (fun (t : K) (i : Fin n) => if il i = 1 ∧ ir i = 0 then t + x i else t)
      = fun t i => t + (if il i = 1 ∧ ir i = 0 then x i else 0) := by
    funext t i; split_ifs <;> simp
  simp only [this]
  rw [foldl_add_sum, zero_add, finRange_map_sum]

theorem foldl_max_char {ι : Type*} (g : ι → K) (l : List ι) (a0 : K) :
    a0 ≤ l.foldl (fun nrm j => if g j > nrm then g j else nrm) a0 ∧
    (∀ i ∈ l, g i ≤ l.foldl (fun nrm j => if g j > nrm then g j else nrm) a0) ∧
    (l.foldl (fun nrm j => if g j > nrm then g j else nrm) a0 = a0 ∨
      ∃ i ∈ l, l.foldl (fun nrm j => if g j > nrm then g j else nrm) a0 = g i) := by
  induction l generalizing a0 with
  | nil => simp
  | cons i l ih =>
    simp only [List.foldl_cons]
    obtain ⟨h1, h2, h3⟩ := ih (if g i > a0 then g i else a0)
    have ha : a0 ≤ (if g i > a0 then g i else a0) := by
      split_ifs with h
      · exact le_of_lt h
      · exact le_rfl
    have hg : g i ≤ (if g i > a0 then g i else a0) := by
      split_ifs with h
      · exact le_rfl
      · exact not_lt.mp h
    refine ⟨ha.trans h1, ?_, ?_⟩
    · intro j hj
      rcases List.mem_cons.mp hj with rfl | hj
      · exact hg.trans h1
      · exact h2 j hj
    · rcases h3 with h3 | ⟨j, hj, h3⟩
      · by_cases h : g i > a0
        · rw [if_pos h] at h3 ⊢; exact Or.inr ⟨i, by simp, h3⟩
        · rw [if_neg h] at h3 ⊢; exact Or.inl h3
      · exact Or.inr ⟨j, by simp [hj], h3⟩

theorem infnorm_ge (x : RVec K n) (i : Fin n) : |x i| ≤ infnorm x := by
  unfold infnorm
  have hi : i ∈ List.finRange n := by simp
  cases h : List.finRange n with
  | nil => rw [h] at hi; simp at hi
  | cons j l =>
    rw [h] at hi
    have := foldl_max_char (fun j => |x j|) l |x j|
    rcases List.mem_cons.mp hi with rfl | hi
    · exact this.1
    · exact this.2.1 i hi

theorem infnorm_attained (x : RVec K n) : (n = 0 ∧ infnorm x = 0) ∨ ∃ i, infnorm x = |x i| := by
  unfold infnorm
  cases h : List.finRange n with
  | nil =>
    left
    refine ⟨?_, rfl⟩
    have := congrArg List.length h
    simpa using this
  | cons j l =>
    right
    have := (foldl_max_char (fun j => |x j|) l |x j|).2.2
    rcases this with h | ⟨i, -, h⟩
    · exact ⟨j, h⟩
    · exact ⟨i, h⟩

theorem infnorm_nonneg (x : RVec K n) : 0 ≤ infnorm x := by
  rcases infnorm_attained x with ⟨-, h⟩ | ⟨i, h⟩
  · rw [h]
  · rw [h]; exact abs_nonneg _

theorem infnorm_le_iff (x : RVec K n) (c : K) (hc : 0 ≤ c) :
    infnorm x ≤ c ↔ ∀ i, |x i| ≤ c := by
  constructor
  · intro h i; exact (infnorm_ge x i).trans h
  · intro h
    rcases infnorm_attained x with ⟨-, h'⟩ | ⟨i, h'⟩
    · rw [h']; exact hc
    · rw [h']; exact h i

theorem foldl_count {ι : Type*} (P : ι → Prop) [DecidablePred P] (l : List ι) (c : ℕ) :
    l.foldl (fun c i => if P i then c + 1 else c) c = c + (l.filter (fun i => P i)).length := by
  induction l generalizing c with
  | nil => simp
  | cons i l ih =>
    simp only [List.foldl_cons, ih, List.filter_cons]
    by_cases h : P i
    · simp [h]; omega
    · simp [h]

theorem numLessThan_eq (x : RVec K n) (v : K) :
    numLessThan x v = (Finset.univ.filter fun i => x i < v).card := by
  unfold numLessThan
  rw [foldl_count (fun i => x i < v), zero_add]
  have hnd : ((List.finRange n).filter fun i => decide (x i < v)).Nodup :=
    (List.nodup_finRange n).filter _
  rw [← List.toFinset_card_of_nodup hnd]
  congr 1
  ext i; simp

theorem foldl_all {ι : Type*} (P : ι → Prop) [DecidablePred P] (l : List ι) (b : Bool) :
    l.foldl (fun b i => if b then (if P i then false else b) else b) b
      = (b && decide (∀ i ∈ l, ¬ P i)) := by
  induction l generalizing b with
  | nil => simp
  | cons i l ih =>
    simp only [List.foldl_cons, ih]
    cases b <;> by_cases h : P i <;> simp [h]

theorem allPositiveSel_iff (x w : RVec K n) :
    allPositiveSel x w = true ↔ ∀ i, w i ≠ 0 → 0 < x i := by
  unfold allPositiveSel
  have := foldl_all (fun i : Fin n => w i ≠ 0 ∧ x i ≤ 0) (List.finRange n) true
  rw [this]
  simp

theorem allPositive_iff (x : RVec K n) : allPositive x = true ↔ ∀ i, 0 < x i := by
  unfold allPositive
  have := foldl_all (fun i : Fin n => x i ≤ 0) (List.finRange n) true
  rw [this]
  simp

theorem matchesPattern_iff (x w : RVec K n) :
    matchesPattern x w = true ↔ ∀ i, w i = 0 → x i = 0 := by
  unfold matchesPattern
  have := foldl_all (fun i : Fin n => w i = 0 ∧ x i ≠ 0) (List.finRange n) true
  rw [this]
  simp

/-- The loop of `projectIntoBounds_local` acts componentwise when it does not fail. -/
theorem projectLoop_spec (small k1 k2 : K) (xl ixl xu ixu : RVec K n) (l : List (Fin n))
    (hl : l.Nodup) (x : RVec K n) :
    ((projectLoop small k1 k2 xl ixl xu ixu l x).1 = true ↔
      ∀ i ∈ l, (projComp small k1 k2 (x i) (xl i) (ixl i) (xu i) (ixu i)).isSome) ∧
    ((projectLoop small k1 k2 xl ixl xu ixu l x).1 = true →
      ∀ i, (i ∈ l → projComp small k1 k2 (x i) (xl i) (ixl i) (xu i) (ixu i)
            = some ((projectLoop small k1 k2 xl ixl xu ixu l x).2 i)) ∧
          (i ∉ l → (projectLoop small k1 k2 xl ixl xu ixu l x).2 i = x i)) := by
  induction l generalizing x with
  | nil => simp [projectLoop]
  | cons j l ih =>
    obtain ⟨hj, hl⟩ := List.nodup_cons.mp hl
    unfold projectLoop
    cases h : projComp small k1 k2 (x j) (xl j) (ixl j) (xu j) (ixu j) with
    | none => simp [h]
    | some v =>
      obtain ⟨ih1, ih2⟩ := ih hl (Function.update x j v)
      have hne : ∀ i ∈ l, Function.update x j v i = x i := by
        intro i hi
        rw [Function.update_of_ne]; rintro rfl; exact hj hi
      constructor
      · rw [show ((projectLoop small k1 k2 xl ixl xu ixu l (Function.update x j v)).1 = true) ↔ _
          from ih1]
        constructor
        · intro hh i hi
          rcases List.mem_cons.mp hi with rfl | hi
          · simp [h]
          · have := hh i hi; rwa [hne i hi] at this
        · intro hh i hi
          rw [hne i hi]; exact hh i (List.mem_cons_of_mem _ hi)
      · intro ht i
        have h2 := ih2 ht i
        constructor
        · intro hi
          rcases List.mem_cons.mp hi with rfl | hi
          · rw [h, h2.2 hj]; simp
          · have := h2.1 hi; rwa [hne i hi] at this
        · intro hi
          have hi1 : i ≠ j := fun e => hi (by simp [e])
          have hi2 : i ∉ l := fun e => hi (List.mem_cons_of_mem _ e)
          rw [h2.2 hi2, Function.update_of_ne hi1]

theorem projectIntoBounds_true_iff (small k1 k2 : K) (x xl ixl xu ixu : RVec K n) :
    (projectIntoBounds small k1 k2 x xl ixl xu ixu).1 = true ↔
      ∀ i, (projComp small k1 k2 (x i) (xl i) (ixl i) (xu i) (ixu i)).isSome := by
  have := (projectLoop_spec small k1 k2 xl ixl xu ixu (List.finRange n)
    (List.nodup_finRange n) x).1
  simpa [projectIntoBounds] using this

theorem projectIntoBounds_comp (small k1 k2 : K) (x xl ixl xu ixu : RVec K n)
    (h : (projectIntoBounds small k1 k2 x xl ixl xu ixu).1 = true) (i : Fin n) :
    projComp small k1 k2 (x i) (xl i) (ixl i) (xu i) (ixu i)
      = some ((projectIntoBounds small k1 k2 x xl ixl xu ixu).2 i) := by
  have := (projectLoop_spec small k1 k2 xl ixl xu ixu (List.finRange n)
    (List.nodup_finRange n) x).2 h i
  exact this.1 (by simp)

end Hiop.Vec
