import Mathlib.Data.List.FinRange
import Mathlib.Data.Fintype.Card
import Mathlib.Data.Finset.Card
import Mathlib.Algebra.Order.Group.Nat

/-!
# Invariants of counting loops

`for(int i=0; i<n; i++) s = f(s,i)` is modelled as `(List.finRange n).foldl f s`. The lemmas
here are the usual loop rule: a predicate that holds initially and is preserved by each pass
of the body holds at the end.
-/

namespace Hiop.Loop

variable {S : Type*} {n : ℕ}

/-- Loop rule over the suffix `k, k+1, ..., n-1`. -/
theorem foldl_inv_aux (P : ℕ → S → Prop) (f : S → Fin n → S)
    (hs : ∀ (i : Fin n) (s : S), P i s → P (i + 1) (f s i))
    (l : List (Fin n)) (k : ℕ) (hl : l.map Fin.val = List.range' k (n - k)) (hk : k ≤ n) (s : S)
    (h0 : P k s) : P n (l.foldl f s) := by
  induction l generalizing k s with
  | nil =>
    have : n - k = 0 := by
      have := congrArg List.length hl
      simpa using this.symm
    have : k = n := by omega
    subst this; simpa using h0
  | cons i l ih =>
    have hlen := congrArg List.length hl
    simp only [List.map_cons, List.length_cons, List.length_map, List.length_range'] at hlen
    have hsplit : List.range' k (n - k) = k :: List.range' (k + 1) (n - (k + 1)) := by
      have : n - k = (n - (k + 1)) + 1 := by omega
      rw [this, List.range'_succ]
    rw [List.map_cons, hsplit, List.cons.injEq] at hl
    rw [List.foldl_cons]
    refine ih (k + 1) hl.2 (by omega) _ ?_
    have := hs i s (by rw [hl.1]; exact h0)
    rwa [hl.1] at this

/-- Loop rule for `for(i=0;i<n;i++)`. -/
theorem foldl_inv (P : ℕ → S → Prop) (f : S → Fin n → S) (s : S) (h0 : P 0 s)
    (hs : ∀ (i : Fin n) (s : S), P i s → P (i + 1) (f s i)) :
    P n ((List.finRange n).foldl f s) := by
  refine foldl_inv_aux P f hs _ 0 ?_ (Nat.zero_le _) s h0
  rw [List.map_coe_finRange_eq_range, Nat.sub_zero, List.range_eq_range']

/-- Number of indices below `k` that satisfy `p`. -/
def countBelow (p : Fin n → Prop) [DecidablePred p] (k : ℕ) : ℕ :=
  (Finset.univ.filter fun i : Fin n => i.val < k ∧ p i).card

@[simp] theorem countBelow_zero (p : Fin n → Prop) [DecidablePred p] : countBelow p 0 = 0 := by
  simp [countBelow]

theorem countBelow_succ (p : Fin n → Prop) [DecidablePred p] (i : Fin n) :
    countBelow p (i + 1) = countBelow p i + if p i then 1 else 0 := by
  unfold countBelow
  by_cases h : p i
  · rw [if_pos h]
    have : (Finset.univ.filter fun j : Fin n => j.val < i.val + 1 ∧ p j)
        = insert i (Finset.univ.filter fun j : Fin n => j.val < i.val ∧ p j) := by
      ext j
      simp only [Finset.mem_filter, Finset.mem_univ, true_and, Finset.mem_insert]
      constructor
      · rintro ⟨h1, h2⟩
        by_cases hji : j = i
        · exact Or.inl hji
        · exact Or.inr ⟨by have := Fin.val_ne_of_ne hji; omega, h2⟩
      · rintro (rfl | ⟨h1, h2⟩)
        · exact ⟨by omega, h⟩
        · exact ⟨by omega, h2⟩
    rw [this, Finset.card_insert_of_notMem]
    simp
  · simp only [if_neg h, add_zero]
    refine congrArg Finset.card (Finset.ext fun j => ?_)
    simp only [Finset.mem_filter, Finset.mem_univ, true_and]
    constructor
    · rintro ⟨h1, h2⟩
      have hji : j ≠ i := fun hh => h (hh ▸ h2)
      exact ⟨by have := Fin.val_ne_of_ne hji; omega, h2⟩
    · rintro ⟨h1, h2⟩; exact ⟨by omega, h2⟩

theorem countBelow_all (p : Fin n → Prop) [DecidablePred p] :
    countBelow p n = (Finset.univ.filter p).card := by
  unfold countBelow
  congr 1
  ext j; simp

theorem countBelow_mono (p : Fin n → Prop) [DecidablePred p] {j k : ℕ} (h : j ≤ k) :
    countBelow p j ≤ countBelow p k := by
  apply Finset.card_le_card
  intro i
  simp only [Finset.mem_filter, Finset.mem_univ, true_and]
  rintro ⟨h1, h2⟩; exact ⟨by omega, h2⟩

/-- The running count is strictly below the total at a counted index. -/
theorem countBelow_lt (p : Fin n → Prop) [DecidablePred p] {i : Fin n} (hi : p i) {k : ℕ}
    (h : i.val < k) : countBelow p i < countBelow p k := by
  have h1 := countBelow_succ p i
  rw [if_pos hi] at h1
  have := countBelow_mono p (j := i.val + 1) (k := k) h
  omega

theorem countBelow_inj (p : Fin n → Prop) [DecidablePred p] {i j : Fin n} (hi : p i) (hj : p j)
    (h : countBelow p i = countBelow p j) : i = j := by
  rcases lt_trichotomy i.val j.val with h' | h' | h'
  · have := countBelow_lt p hi h'; omega
  · exact Fin.ext h'
  · have := countBelow_lt p hj h'; omega

/-- Every rank below the total is attained. -/
theorem countBelow_surj (p : Fin n → Prop) [DecidablePred p] (r : ℕ) (k : ℕ) (hk : k ≤ n)
    (h : r < countBelow p k) : ∃ i : Fin n, p i ∧ i.val < k ∧ countBelow p i = r := by
  induction k with
  | zero => simp at h
  | succ k ih =>
    have hs := countBelow_succ p (⟨k, by omega⟩ : Fin n)
    simp only at hs
    by_cases hr : r < countBelow p k
    · obtain ⟨i, h1, h2, h3⟩ := ih (by omega) hr
      exact ⟨i, h1, by omega, h3⟩
    · by_cases hp : p (⟨k, by omega⟩ : Fin n)
      · rw [if_pos hp] at hs
        exact ⟨⟨k, by omega⟩, hp, by simp, by simp only; omega⟩
      · rw [if_neg hp] at hs; omega

end Hiop.Loop
