import Verif.Nlp.Model
import Verif.Loop
import Mathlib.Tactic.Linarith
import Mathlib.Tactic.NormNum
import Mathlib.Tactic.FinCases
import Mathlib.Data.Rat.Cast.Order

/-!
# Bounds classification (C12) and constraint splitting (C13)
-/

set_option linter.unusedSectionVars false

namespace Hiop.Nlp

open Hiop.Vec Hiop.Loop

variable {K : Type*} [Field K] [LinearOrder K] [IsStrictOrderedRing K] {n m : ℕ}

/-! ## Specification of C12 -/

/-- A lower bound counts as present. -/
def HasLow (xl : RVec K n) (i : Fin n) : Prop := -10 ^ 20 < xl i
/-- An upper bound counts as present. -/
def HasUpp (xu : RVec K n) (i : Fin n) : Prop := xu i < 10 ^ 20
/-- The variable counts as fixed. -/
def Fixed (tol : K) (xl xu : RVec K n) (i : Fin n) : Prop :=
  xu i < 10 ^ 20 ∧ |xl i - xu i| ≤ tol * max 1 |xu i|

instance (xl : RVec K n) : DecidablePred (HasLow xl) := fun i => by unfold HasLow; infer_instance
instance (xu : RVec K n) : DecidablePred (HasUpp xu) := fun i => by unfold HasUpp; infer_instance
instance (tol : K) (xl xu : RVec K n) : DecidablePred (Fixed tol xl xu) :=
  fun i => by unfold Fixed; infer_instance

/-- **C12.** After bounds processing the lower (upper) indicator of every variable is 1 if its
bound is present and 0 otherwise, and the four reported counts are the numbers of variables
with a lower bound, an upper bound, both, and fixed. -/
theorem C12_bounds_classified (tol : K) (xl xu ixl0 ixu0 : RVec K n) :
    let b := processBounds tol xl xu ixl0 ixu0
    (∀ i, b.ixl i = if -10 ^ 20 < xl i then 1 else 0) ∧
    (∀ i, b.ixu i = if xu i < 10 ^ 20 then 1 else 0) ∧
    b.nLow = (Finset.univ.filter (HasLow xl)).card ∧
    b.nUpp = (Finset.univ.filter (HasUpp xu)).card ∧
    b.nLu = (Finset.univ.filter fun i => HasLow xl i ∧ HasUpp xu i).card ∧
    b.nFixed = (Finset.univ.filter (Fixed tol xl xu)).card := by
  intro b
  have key := foldl_inv (n := n)
    (fun k (s : BoundsInfo K n) =>
      (∀ i : Fin n, i.val < k → s.ixl i = if -10 ^ 20 < xl i then 1 else 0) ∧
      (∀ i : Fin n, i.val < k → s.ixu i = if xu i < 10 ^ 20 then 1 else 0) ∧
      s.nLow = countBelow (HasLow xl) k ∧ s.nUpp = countBelow (HasUpp xu) k ∧
      s.nLu = countBelow (fun i => HasLow xl i ∧ HasUpp xu i) k ∧
      s.nFixed = countBelow (Fixed tol xl xu) k)
    (processBoundsBody tol xl xu) ⟨ixl0, ixu0, 0, 0, 0, 0⟩
    (by simp)
    (by
      rintro i s ⟨h1, h2, h3, h4, h5, h6⟩
      simp only [countBelow_succ]
      have hupd : ∀ (v : RVec K n) (a : K) (w : Fin n → K),
          (∀ j : Fin n, j.val < i.val → v j = w j) → a = w i →
          ∀ j : Fin n, j.val < i.val + 1 → Function.update v i a j = w j := by
        intro v a w hv ha j hj
        by_cases hji : j = i
        · subst hji; simpa using ha
        · rw [Function.update_of_ne hji]
          exact hv j (by have := Fin.val_ne_of_ne hji; omega)
      by_cases hl : -10 ^ 20 < xl i <;> by_cases hu : xu i < 10 ^ 20 <;>
        by_cases hf : |xl i - xu i| ≤ tol * max 1 |xu i| <;>
        simp only [processBoundsBody, gt_iff_lt, hl, hu, hf, if_true, if_false, and_self,
          and_true, and_false, HasLow, HasUpp, Fixed, h3, h4, h5, h6, Nat.add_zero] <;>
        exact ⟨hupd _ _ (fun i => if -10 ^ 20 < xl i then 1 else 0) h1 (by simp [hl]),
          hupd _ _ (fun i => if xu i < 10 ^ 20 then 1 else 0) h2 (by simp [hu])⟩)
  obtain ⟨h1, h2, h3, h4, h5, h6⟩ := key
  refine ⟨fun i => h1 i i.isLt, fun i => h2 i i.isLt, ?_, ?_, ?_, ?_⟩
  · rw [← countBelow_all]; exact h3
  · rw [← countBelow_all]; exact h4
  · rw [← countBelow_all]; exact h5
  · rw [← countBelow_all]; exact h6

/-- A five-variable instance: free, lower bounded, upper bounded, boxed, fixed. -/
example :
    let b := processBounds (n := 5) (1/10 : ℚ) (![-10^20, 0, -10^21, -1, 3])
      (![10^20, 10^30, 7, 1, 3]) (fun _ => 9) (fun _ => 9)
    (b.nLow, b.nUpp, b.nLu, b.nFixed) = (3, 3, 2, 1) ∧
    b.ixl = ![0, 1, 0, 1, 1] ∧ b.ixu = ![0, 0, 1, 1, 1] := by
  refine ⟨?_, ?_, ?_⟩
  · decide +kernel
  · funext i; fin_cases i <;> decide +kernel
  · funext i; fin_cases i <;> decide +kernel

/-! ## Counters after removing the fixed variables -/

/-- **C12 (after removal).** If every fixed variable has both bounds present, then the
corrected counters are the numbers of lower, upper and two-sided bounds among the remaining
variables. -/
theorem C12_counts_after_removal (tol : K) (xl xu ixl0 ixu0 : RVec K n)
    (hfin : ∀ i, Fixed tol xl xu i → HasLow xl i) :
    countsAfterRemoval (processBounds tol xl xu ixl0 ixu0) =
      (((Finset.univ.filter fun i => ¬ Fixed tol xl xu i ∧ HasLow xl i).card : ℤ),
       ((Finset.univ.filter fun i => ¬ Fixed tol xl xu i ∧ HasUpp xu i).card : ℤ),
       ((Finset.univ.filter fun i =>
          ¬ Fixed tol xl xu i ∧ HasLow xl i ∧ HasUpp xu i).card : ℤ)) := by
  obtain ⟨-, -, h3, h4, h5, h6⟩ := C12_bounds_classified tol xl xu ixl0 ixu0
  have aux : ∀ (p : Fin n → Prop) [DecidablePred p], (∀ i, Fixed tol xl xu i → p i) →
      ((Finset.univ.filter p).card : ℤ) - (Finset.univ.filter (Fixed tol xl xu)).card
        = (Finset.univ.filter fun i => ¬ Fixed tol xl xu i ∧ p i).card := by
    intro p _ hp
    have hsub : Finset.univ.filter (Fixed tol xl xu) ⊆ Finset.univ.filter p := by
      intro i; simp only [Finset.mem_filter, Finset.mem_univ, true_and]; exact hp i
    have heq : (Finset.univ.filter fun i => ¬ Fixed tol xl xu i ∧ p i)
        = Finset.univ.filter p \ Finset.univ.filter (Fixed tol xl xu) := by
      ext i
      simp only [Finset.mem_filter, Finset.mem_univ, true_and, Finset.mem_sdiff]
      tauto
    rw [heq, Finset.card_sdiff_of_subset hsub, Nat.cast_sub (Finset.card_le_card hsub)]
  unfold countsAfterRemoval
  rw [h3, h4, h5, h6, aux _ hfin, aux (HasUpp xu) (fun i h => h.1),
    aux (fun i => HasLow xl i ∧ HasUpp xu i) (fun i h => ⟨hfin i h, h.1⟩)]

/-- The hypothesis of `C12_counts_after_removal` is met whenever the tolerance is at most
`1/100` (the option's maximum) and no upper bound lies below `-10^20 / 1.01`. -/
theorem fixed_hasLow (tol : K) (xl xu : RVec K n) (htol : tol ≤ 1 / 100)
    (hxu : ∀ i, -10 ^ 20 * (100 / 101) < xu i) (i : Fin n) (h : Fixed tol xl xu i) :
    HasLow xl i := by
  obtain ⟨h1, h2⟩ := h
  unfold HasLow
  have h3 := neg_abs_le (xl i - xu i)
  have h4 : tol * max 1 |xu i| ≤ 1 / 100 * max 1 |xu i| :=
    mul_le_mul_of_nonneg_right htol (le_trans zero_le_one (le_max_left _ _))
  have h5 := hxu i
  rcases max_cases (1 : K) |xu i| with ⟨h6, -⟩ | ⟨h6, -⟩ <;> rw [h6] at h4 h2
  · have : (10 : K) ^ 20 = 100000000000000000000 := by norm_num
    rw [this] at h5 ⊢; linarith
  · rcases abs_cases (xu i) with ⟨h7, -⟩ | ⟨h7, -⟩ <;> rw [h7] at h4 h2
    · have : (10 : K) ^ 20 = 100000000000000000000 := by norm_num
      rw [this] at h5 h1 ⊢; linarith
    · have : (10 : K) ^ 20 = 100000000000000000000 := by norm_num
      rw [this] at h5 h1 ⊢; linarith

example : countsAfterRemoval (processBounds (n := 3) (1/100 : ℚ) (![0, 5, -10^20]) (![1, 5, 2])
    (fun _ => 0) (fun _ => 0)) = (1, 2, 1) := by decide +kernel

/-- Without that hypothesis the corrected counters can be wrong (finding): one variable fixed
at `-10^20`, the number HiOp uses for "no lower bound", is counted as fixed although it has no
lower bound in the count, so the corrected number of lower bounds is `-1`. -/
theorem C12_counts_after_removal_false :
    (countsAfterRemoval (processBounds (n := 1) (0 : ℚ) (fun _ => -10 ^ 20)
      (fun _ => -10 ^ 20) (fun _ => 0) (fun _ => 0))).1 = -1 := by decide +kernel

/-! ## Constraint splitting -/

theorem countCons_spec (gl gu : RVec K m) :
    countCons gl gu = ((Finset.univ.filter fun i => gl i = gu i).card,
      (Finset.univ.filter fun i => gl i ≠ gu i).card) := by
  have key := foldl_inv (n := m)
    (fun k (s : ℕ × ℕ) => s = (countBelow (fun i => gl i = gu i) k,
      countBelow (fun i => gl i ≠ gu i) k))
    (fun s i => if gl i = gu i then (s.1 + 1, s.2) else (s.1, s.2 + 1)) (0, 0)
    (by simp)
    (by
      rintro i s rfl
      simp only [countBelow_succ]
      by_cases h : gl i = gu i <;> simp [h])
  rw [countBelow_all, countBelow_all] at key
  exact key

/-- The list of the indices below `k` that satisfy `p`, in increasing order. -/
def idxBelow (p : Fin m → Prop) [DecidablePred p] (k : ℕ) : List (Fin m) :=
  (List.finRange m).filter fun i => decide (i.val < k ∧ p i)

theorem idxBelow_zero (p : Fin m → Prop) [DecidablePred p] : idxBelow p 0 = [] := by
  simp [idxBelow]

theorem idxBelow_all (p : Fin m → Prop) [DecidablePred p] :
    idxBelow p m = (List.finRange m).filter fun i => decide (p i) := by
  unfold idxBelow
  apply List.filter_congr
  intro i _; simp [i.isLt]

theorem filter_snoc_aux (p : Fin m → Prop) [DecidablePred p] (i : Fin m)
    (l : List (Fin m)) (hl : l.Pairwise (· < ·)) (hi : i ∈ l) :
    l.filter (fun j => decide (j.val < i.val + 1 ∧ p j)) =
      l.filter (fun j => decide (j.val < i.val ∧ p j)) ++ if p i then [i] else [] := by
  induction l with
  | nil => simp at hi
  | cons a l ih =>
    rw [List.pairwise_cons] at hl
    rcases List.mem_cons.mp hi with rfl | hi'
    · have hnone : ∀ (q : ℕ), q ≤ i.val + 1 →
          l.filter (fun j => decide (j.val < q ∧ p j)) = [] := by
        intro q hq
        rw [List.filter_eq_nil_iff]
        intro j hj
        have : i.val < j.val := hl.1 j hj
        simp only [decide_eq_true_eq, not_and]
        intro h; omega
      rw [List.filter_cons, List.filter_cons, hnone _ le_rfl, hnone _ (Nat.le_succ _)]
      by_cases h : p i <;> simp [h]
    · have hai : a.val < i.val := hl.1 i hi'
      have ih' := ih hl.2 hi'
      rw [List.filter_cons, List.filter_cons, ih']
      by_cases h : p a
      · have h1 : a.val < i.val + 1 := by omega
        simp [h, hai, h1]
      · simp [h]

theorem idxBelow_succ (p : Fin m → Prop) [DecidablePred p] (i : Fin m) :
    idxBelow p (i + 1) = idxBelow p i ++ if p i then [i] else [] :=
  filter_snoc_aux p i _ (List.pairwise_lt_finRange m) (List.mem_finRange i)

theorem length_idxBelow (p : Fin m → Prop) [DecidablePred p] :
    (idxBelow p m).length = (Finset.univ.filter p).card := by
  have := foldl_inv (n := m) (S := Unit)
    (fun k _ => (idxBelow p k).length = countBelow p k) (fun _ _ => ()) ()
    (by simp [idxBelow_zero])
    (by
      intro i s h
      rw [idxBelow_succ, countBelow_succ, List.length_append, h]
      by_cases hp : p i <;> simp [hp])
  rw [this, countBelow_all]

/-- The indices of the equality constraints, in increasing order (specification). -/
def eqIdx (gl gu : RVec K m) : List (Fin m) := (List.finRange m).filter fun i => gl i = gu i
/-- The indices of the inequality constraints, in increasing order (specification). -/
def ineqIdx (gl gu : RVec K m) : List (Fin m) := (List.finRange m).filter fun i => ¬ gl i = gu i

/-- The splitting never aborts and produces the two index lists with the matching data. -/
theorem splitConstraints_eq (gl gu : RVec K m) :
    splitConstraints gl gu = some ⟨eqIdx gl gu, (eqIdx gl gu).map gl, ineqIdx gl gu,
      (ineqIdx gl gu).map gl, (ineqIdx gl gu).map gu⟩ := by
  have key := foldl_inv (n := m)
    (fun k (s : Split K m) => s = ⟨idxBelow (fun i => gl i = gu i) k,
      (idxBelow (fun i => gl i = gu i) k).map gl,
      idxBelow (fun i => ¬ gl i = gu i) k, (idxBelow (fun i => ¬ gl i = gu i) k).map gl,
      (idxBelow (fun i => ¬ gl i = gu i) k).map gu⟩)
    (splitBody gl gu) ⟨[], [], [], [], []⟩
    (by simp [idxBelow_zero])
    (by
      rintro i s rfl
      simp only [idxBelow_succ, splitBody]
      by_cases h : gl i = gu i
      · simp [h]
      · simp [h])
  unfold splitConstraints
  simp only [key, countCons_spec, length_idxBelow]
  rw [if_pos (by simp), idxBelow_all, idxBelow_all]
  rfl

/-- **C13.** The constraint split never fails; a constraint is an equality iff its two bounds
are equal; the two index maps are strictly increasing, disjoint, and together contain every
constraint exactly once; right-hand sides and inequality bounds are those of the constraints
they are mapped to. -/
theorem C13_split (gl gu : RVec K m) :
    ∃ s, splitConstraints gl gu = some s ∧
      (∀ i, i ∈ s.eqMap ↔ gl i = gu i) ∧ (∀ i, i ∈ s.ineqMap ↔ gl i ≠ gu i) ∧
      s.eqMap.Pairwise (· < ·) ∧ s.ineqMap.Pairwise (· < ·) ∧
      (s.eqMap ++ s.ineqMap).Perm (List.finRange m) ∧
      s.cRhs = s.eqMap.map gl ∧ s.dl = s.ineqMap.map gl ∧ s.du = s.ineqMap.map gu := by
  refine ⟨_, splitConstraints_eq gl gu, ?_, ?_, ?_, ?_, ?_, rfl, rfl, rfl⟩
  · intro i; simp [eqIdx]
  · intro i; simp [ineqIdx]
  · exact (List.pairwise_lt_finRange m).filter _
  · exact (List.pairwise_lt_finRange m).filter _
  · have := List.filter_append_perm (fun i : Fin m => decide (gl i = gu i)) (List.finRange m)
    simpa [eqIdx, ineqIdx] using this

example : (splitConstraints (m := 4) (![1, 0, 2, -5] : RVec ℚ 4) ![1, 3, 2, 8]).map
    (fun s => (s.eqMap, s.cRhs, s.ineqMap, s.dl, s.du)) =
    some ([0, 2], [1, 2], [1, 3], [0, -5], [3, 8]) := by decide +kernel

/-! ### Merging and splitting along the maps -/

theorem foldl_update_notMem (l : List (Fin m × K)) (a : RVec K m) (i : Fin m)
    (h : i ∉ l.map Prod.fst) :
    l.foldl (fun a p => Function.update a p.1 p.2) a i = a i := by
  induction l generalizing a with
  | nil => rfl
  | cons p l ih =>
    simp only [List.map_cons, List.mem_cons, not_or] at h
    rw [List.foldl_cons, ih _ h.2, Function.update_of_ne h.1]

theorem foldl_update_map (l : List (Fin m)) (c : List K) (hlen : c.length = l.length)
    (hnd : l.Nodup) (a : RVec K m) :
    l.map ((l.zip c).foldl (fun a p => Function.update a p.1 p.2) a) = c := by
  induction l generalizing c a with
  | nil =>
    cases c with
    | nil => rfl
    | cons => simp at hlen
  | cons i l ih =>
    cases c with
    | nil => simp at hlen
    | cons x c =>
      rw [List.nodup_cons] at hnd
      simp only [List.length_cons, Nat.add_right_cancel_iff] at hlen
      rw [List.zip_cons_cons, List.foldl_cons, List.map_cons, ih c hlen hnd.2]
      rw [foldl_update_notMem]
      · simp
      · rw [List.map_fst_zip (by omega)]; exact hnd.1

/-- A merge along two maps that partition the indices succeeds, and splitting the result gives
the two parts back. -/
theorem merge_then_split (c d : List K) (cMap dMap : List (Fin m))
    (hc : c.length = cMap.length) (hd : d.length = dMap.length)
    (hperm : (cMap ++ dMap).Perm (List.finRange m)) (arr : RVec K m) :
    ∃ out, copyFromTwo arr c cMap d dMap = some out ∧ copyToTwo out cMap dMap = (c, d) := by
  have hnd : (cMap ++ dMap).Nodup := hperm.nodup_iff.mpr (List.nodup_finRange m)
  have hlen : c.length + d.length = m := by
    have := hperm.length_eq
    simp only [List.length_append, List.length_finRange] at this
    omega
  rw [List.nodup_append'] at hnd
  obtain ⟨h1, h2, h3⟩ := hnd
  refine ⟨_, if_pos ⟨hc, hd, hlen⟩, ?_⟩
  unfold copyToTwo
  rw [foldl_update_map dMap d hd h2]
  congr 1
  rw [← foldl_update_map cMap c hc h1 arr]
  apply List.map_congr_left
  intro i hi
  rw [foldl_update_notMem]
  · rw [foldl_update_map cMap c hc h1 arr]
  · rw [List.map_fst_zip (by omega)]
    exact fun hid => h3 hi hid

/-- Two vectors that agree along both maps of a partition are equal. -/
theorem eq_of_split_eq {a b : RVec K m} {cMap dMap : List (Fin m)}
    (hperm : (cMap ++ dMap).Perm (List.finRange m))
    (h : copyToTwo a cMap dMap = copyToTwo b cMap dMap) : a = b := by
  simp only [copyToTwo, Prod.mk.injEq] at h
  funext i
  have hi : i ∈ cMap ++ dMap := hperm.mem_iff.mpr (List.mem_finRange i)
  rw [List.mem_append] at hi
  rcases hi with hi | hi
  · exact List.map_inj_left.mp h.1 i hi
  · exact List.map_inj_left.mp h.2 i hi

/-- **C13.** Splitting any vector of constraint values or multipliers along the maps computed
from the user's constraint bounds and merging the parts again, into any buffer, gives back the
vector: each value returns to its own constraint's position. -/
theorem C13_split_merge (gl gu : RVec K m) (body buf : RVec K m) :
    ∃ s, splitConstraints gl gu = some s ∧
      copyFromTwo buf (copyToTwo body s.eqMap s.ineqMap).1 s.eqMap
        (copyToTwo body s.eqMap s.ineqMap).2 s.ineqMap = some body := by
  obtain ⟨s, hs, -, -, -, -, hperm, -⟩ := C13_split gl gu
  refine ⟨s, hs, ?_⟩
  obtain ⟨out, h1, h2⟩ := merge_then_split (body |> (copyToTwo · s.eqMap s.ineqMap)).1
    (copyToTwo body s.eqMap s.ineqMap).2 s.eqMap s.ineqMap (by simp [copyToTwo])
    (by simp [copyToTwo]) hperm buf
  rw [h1, eq_of_split_eq hperm (a := out) (b := body) h2]

/-- **C13.** Conversely, equality and inequality parts of the right sizes survive merging and
splitting. -/
theorem C13_merge_split (gl gu : RVec K m) (c d : List K) (buf : RVec K m)
    (hc : c.length = (Finset.univ.filter fun i => gl i = gu i).card)
    (hd : d.length = (Finset.univ.filter fun i => gl i ≠ gu i).card) :
    ∃ s out, splitConstraints gl gu = some s ∧
      copyFromTwo buf c s.eqMap d s.ineqMap = some out ∧
      copyToTwo out s.eqMap s.ineqMap = (c, d) := by
  have h1 := length_idxBelow (fun i => gl i = gu i)
  have h2 := length_idxBelow (fun i => ¬ gl i = gu i)
  rw [idxBelow_all] at h1 h2
  obtain ⟨out, h3, h4⟩ := merge_then_split c d (eqIdx gl gu) (ineqIdx gl gu)
    (by rw [hc, ← h1]; rfl) (by rw [hd, ← h2]; rfl)
    (by
      have := List.filter_append_perm (fun i : Fin m => decide (gl i = gu i)) (List.finRange m)
      simpa [eqIdx, ineqIdx] using this) buf
  exact ⟨_, out, splitConstraints_eq gl gu, h3, h4⟩

example : copyFromTwo (m := 4) (fun _ => (0:ℚ)) [10, 12] [0, 2] [11, 13] [1, 3] =
    some ![10, 11, 12, 13] := by
  simp only [copyFromTwo]
  rw [if_pos (by simp)]
  congr 1; funext i; fin_cases i <;> rfl

/-! ## Inequality bounds -/

/-- **C12 (constraints).** The indicators of the inequality bounds are 1 exactly for the
present bounds, and the three counts are the numbers of present lower, upper and two-sided
bounds. -/
theorem C12_ineq_classified (dl du : List K) :
    let b := ineqInfo dl du
    b.idl = (dl.zip du).map (fun p => if -10 ^ 20 < p.1 then 1 else 0) ∧
    b.idu = (dl.zip du).map (fun p => if p.2 < 10 ^ 20 then 1 else 0) ∧
    b.nLow = (dl.zip du).countP (fun p => -10 ^ 20 < p.1) ∧
    b.nUpp = (dl.zip du).countP (fun p => p.2 < 10 ^ 20) ∧
    b.nLu = (dl.zip du).countP (fun p => -10 ^ 20 < p.1 ∧ p.2 < 10 ^ 20) := by
  have key : ∀ (l : List (K × K)) (s : IneqInfo K),
      l.foldl ineqBody s =
        ⟨s.idl ++ l.map (fun p => if -10 ^ 20 < p.1 then 1 else 0),
         s.idu ++ l.map (fun p => if p.2 < 10 ^ 20 then 1 else 0),
         s.nLow + l.countP (fun p => -10 ^ 20 < p.1),
         s.nUpp + l.countP (fun p => p.2 < 10 ^ 20),
         s.nLu + l.countP (fun p => -10 ^ 20 < p.1 ∧ p.2 < 10 ^ 20)⟩ := by
    intro l
    induction l with
    | nil => intro s; simp
    | cons p l ih =>
      intro s
      rw [List.foldl_cons, ih]
      by_cases h1 : -10 ^ 20 < p.1 <;> by_cases h2 : p.2 < 10 ^ 20 <;>
        simp [ineqBody, h1, h2, Nat.add_assoc, Nat.add_comm]
  intro b
  have := key (dl.zip du) ⟨[], [], 0, 0, 0⟩
  simp only [List.nil_append, Nat.zero_add] at this
  have hb : b = _ := this
  rw [hb]
  exact ⟨rfl, rfl, rfl, rfl, rfl⟩

example : let b := ineqInfo [-10^20, 0, 1, -10^22] [(5:ℚ), 2, 10^20, 10^21]
    (b.idl, b.idu, b.nLow, b.nUpp, b.nLu) = ([0, 1, 1, 0], [1, 1, 0, 0], 2, 2, 1) := by
  decide +kernel

end Hiop.Nlp
