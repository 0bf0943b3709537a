import Verif.Range.Model
import Mathlib.Data.Fintype.BigOperators
import Mathlib.Data.List.FinRange
import Mathlib.Tactic.FinCases
import Mathlib.Data.Rat.Defs

/-!
# C56: sub-range and pattern copies move exactly the requested entries
-/

set_option linter.unusedSectionVars false

namespace Hiop.Range

open Hiop.Vec

variable {K : Type*} {n m p N : ℕ}

/-! ## Specification -/

/-- `y` is `x` with the `c` entries from position `o` on replaced by those of `src` from `s` on. -/
def BlockAt (y x : RVec K n) (o c : ℕ) (src : RVec K m) (s : ℕ) : Prop :=
  (∀ (k : Fin n) (j : Fin m) (t : ℕ), t < c → (k : ℕ) = o + t → (j : ℕ) = s + t → y k = src j) ∧
  ∀ k : Fin n, (k : ℕ) < o ∨ o + c ≤ k → y k = x k

/-- Number of entries selected by the pattern. -/
def count [One K] [DecidableEq K] (sel : RVec K p) : ℕ :=
  (Finset.univ.filter fun j => sel j = 1).card

/-- Number of entries selected before position `i`. -/
def rank [One K] [DecidableEq K] (sel : RVec K p) (i : Fin p) : ℕ :=
  (Finset.univ.filter fun j => j < i ∧ sel j = 1).card

/-! ## Block copies -/

theorem blockCopy_spec (dst : RVec K n) (o : ℕ) (src : RVec K m) (s c : ℕ)
    (ho : o + c ≤ n) (hs : s + c ≤ m) :
    ∃ y, blockCopy dst o src s c = some y ∧ BlockAt y dst o c src s := by
  unfold blockCopy
  rw [dif_pos (by omega)]
  refine ⟨_, rfl, ?_, ?_⟩
  · intro k j t ht hk hj
    simp only
    rw [dif_pos (by omega)]
    congr 1
    ext
    simp only
    omega
  · intro k hk
    simp only
    rw [dif_neg (by omega)]

/-- Two results of the same block copy agree, so that `BlockAt` determines the result. -/
theorem BlockAt.unique {y y' x : RVec K n} {o c : ℕ} {src : RVec K m} {s : ℕ}
    (hs : s + c ≤ m) (h : BlockAt y x o c src s) (h' : BlockAt y' x o c src s) : y = y' := by
  funext k
  by_cases hk : (k : ℕ) < o ∨ o + c ≤ k
  · rw [h.2 k hk, h'.2 k hk]
  · have h1 : s + ((k : ℕ) - o) < m := by omega
    rw [h.1 k ⟨s + (k - o), h1⟩ (k - o) (by omega) (by omega) rfl,
      h'.1 k ⟨s + (k - o), h1⟩ (k - o) (by omega) (by omega) rfl]

/-- `copyFromStarting` writes the whole source from `start` on and nothing else; it is refused iff
the source does not fit. -/
theorem C56_copyFromStarting (x : RVec K n) (start : ℕ) (v : RVec K m) :
    (start + m ≤ n → ∃ y, copyFromStarting x start v = some y ∧ BlockAt y x start m v 0) ∧
      (¬ start + m ≤ n → copyFromStarting x start v = none) := by
  unfold copyFromStarting
  constructor
  · intro h
    rw [if_pos (by omega)]
    exact blockCopy_spec x start v 0 m h (by omega)
  · intro h
    rw [if_neg (by omega)]

/-- The same for a raw array. -/
theorem C56_copyFromStartingArr (x : RVec K n) (start : ℕ) (v : RVec K m) :
    (start + m ≤ n → ∃ y, copyFromStartingArr x start v = some y ∧ BlockAt y x start m v 0) ∧
      (¬ start + m ≤ n → copyFromStartingArr x start v = none) :=
  C56_copyFromStarting x start v

/-- `copyToStarting(start, v)` fills `v` with the block of `x` that begins at `start`; it is refused
iff there are not enough entries. -/
theorem C56_copyToStarting (x : RVec K n) (start : ℕ) (v : RVec K m) :
    (∀ h : start + m ≤ n, copyToStarting x start v =
      some fun i : Fin m => x ⟨start + i, by omega⟩) ∧
      (¬ start + m ≤ n → copyToStarting x start v = none) := by
  unfold copyToStarting
  constructor
  · intro h
    rw [if_pos (by omega)]
    obtain ⟨y, hy, hb⟩ := blockCopy_spec v 0 x start m (by omega) h
    have e : ((0 : ℕ) : ℤ) = 0 := rfl
    rw [e] at hy
    rw [hy]
    congr 1
    funext i
    exact hb.1 i ⟨start + i, by omega⟩ i i.2 (by omega) rfl
  · intro h
    rw [if_neg (by omega)]

/-- `copyToStarting(dest, start)` writes the whole of `x` into `dest` from `start` on and nothing
else; it is refused iff `x` does not fit. -/
theorem C56_copyToStartingGlobal (x : RVec K n) (dest : RVec K m) (start : ℕ) :
    (start + n ≤ m → ∃ y, copyToStartingGlobal x dest start = some y ∧
      BlockAt y dest start n x 0) ∧
      (¬ start + n ≤ m → copyToStartingGlobal x dest start = none) := by
  unfold copyToStartingGlobal
  constructor
  · intro h
    rw [if_neg (by omega)]
    by_cases hn : 0 < n
    · rw [if_pos hn]
      have e : (if 0 ≤ (start : ℤ) ∧ (start : ℤ) < m then (start : ℤ) - 0
          else if (start : ℤ) ≥ m then -1 else 0) = start := by
        rw [if_pos (by omega)]; omega
      simp only [e]
      rw [if_pos (by omega), if_pos (by omega)]
      exact blockCopy_spec dest start x 0 n h (by omega)
    · rw [if_neg hn]
      exact ⟨dest, rfl, fun k j t ht => absurd ht (by omega), fun k _ => rfl⟩
  · intro h
    rw [if_pos (by omega)]

/-- `startingAtCopyFromStartingAt` fills the destination from `start_dest` to its end with the
entries of the source from `start_src` on, provided there are enough of them. Nothing happens when
the source is exhausted. -/
theorem C56_startingAtCopyFrom (x : RVec K n) (sd : ℕ) (v : RVec K m) (ss : ℕ)
    (hsd : sd < n ∨ n = 0 ∧ sd = 0) (hss : ss ≤ m) :
    (n - sd ≤ m - ss → ∃ y, startingAtCopyFromStartingAt x sd v ss = some y ∧
      BlockAt y x sd (n - sd) v ss) ∧
    (ss = m → startingAtCopyFromStartingAt x sd v ss = some x) ∧
    (ss < m → m - ss < n - sd → startingAtCopyFromStartingAt x sd v ss = none) := by
  unfold startingAtCopyFromStartingAt
  rw [if_neg (not_not.2 (by omega)), if_neg (not_not.2 (by omega))]
  refine ⟨?_, ?_, ?_⟩
  · intro h
    by_cases hz : (n : ℤ) - sd = 0 ∨ (m : ℤ) - ss = 0
    · simp only [hz, if_true]
      exact ⟨x, rfl, fun k j t ht => absurd ht (by omega), fun k _ => rfl⟩
    · simp only [hz, if_false]
      rw [if_neg (not_not.2 (by omega)), if_neg (show ¬ ((n : ℤ) - sd > m - ss) by omega),
        if_pos (by omega)]
      have := blockCopy_spec x sd v ss (n - sd) (by omega) (by omega)
      rwa [show ((n - sd : ℕ) : ℤ) = n - sd by omega] at this
  · intro h
    simp only
    rw [if_pos (by omega)]
  · intro h1 h2
    simp only
    rw [if_neg (by omega), if_pos (by omega)]

section
variable [One K] [DecidableEq K]

/-- `startingAtCopyToStartingAt` without a count copies until the source or the destination ends. -/
theorem C56_startingAtCopyTo_all (x : RVec K n) (ss : ℕ) (dest : RVec K m) (sd : ℕ)
    (hs : ss ≤ n) (hd : sd ≤ m) :
    ∃ y, startingAtCopyTo x ss dest sd (-1) = some y ∧
      BlockAt y dest sd (min (n - ss) (m - sd)) x ss := by
  unfold startingAtCopyTo clampNum
  rw [if_neg (not_not.2 (by omega)), if_neg (by simp), if_neg (not_not.2 (by omega)),
    if_neg (by simp), if_pos (by omega)]
  have := blockCopy_spec dest sd x ss (min (n - ss) (m - sd)) (by omega) (by omega)
  rwa [show ((min (n - ss) (m - sd) : ℕ) : ℤ) = min ((n : ℤ) - ss) (m - sd) by omega] at this

/-- With a count it copies exactly that many entries; it is refused iff the count exceeds what is left
in the source or in the destination. -/
theorem C56_startingAtCopyTo (x : RVec K n) (ss : ℕ) (dest : RVec K m) (sd c : ℕ)
    (hs : ss ≤ n) (hd : sd ≤ m) :
    (ss + c ≤ n → sd + c ≤ m → ∃ y, startingAtCopyTo x ss dest sd c = some y ∧
      BlockAt y dest sd c x ss) ∧
    (¬ (ss + c ≤ n ∧ sd + c ≤ m) → startingAtCopyTo x ss dest sd c = none) := by
  unfold startingAtCopyTo clampNum
  rw [if_neg (not_not.2 (by omega))]
  constructor
  · intro h1 h2
    rw [if_neg (by omega), if_neg (not_not.2 (by omega)), if_neg (by omega), if_neg (by omega),
      if_pos (by omega)]
    have := blockCopy_spec dest sd x ss c (by omega) (by omega)
    rwa [show (c : ℤ) = min (min (c : ℤ) (n - ss)) (m - sd) by omega] at this
  · intro h
    by_cases h1 : (ss : ℤ) = n ∧ ¬ ((c : ℤ) = -1 ∨ (c : ℤ) = 0)
    · rw [if_pos h1]
    rw [if_neg h1, if_neg (not_not.2 (by omega))]
    by_cases h2 : (sd : ℤ) = m ∧ ¬ ((c : ℤ) = -1 ∨ (c : ℤ) = 0)
    · rw [if_pos h2]
    rw [if_neg h2, if_neg (by omega), if_neg (by omega)]

/-! ## Patterns -/

theorem packLoop_eq (x sel : RVec K p) (st c : ℤ) (v : RVec K n) (is : List (Fin p))
    (h0 : 0 ≤ st + c) :
    packLoop x sel st (c, v) is =
      if st + c + (is.filter fun i => decide (sel i = 1)).length ≤ n ∨
          (is.filter fun i => decide (sel i = 1)) = [] then
        some (c + (is.filter fun i => decide (sel i = 1)).length, fun k : Fin n =>
          if st + c ≤ (k : ℤ) then
            (((is.filter fun i => decide (sel i = 1))[((k : ℤ) - (st + c)).toNat]?).map x).getD (v k)
          else v k)
      else none := by
  induction is generalizing c v with
  | nil => simp [packLoop]
  | cons i is ih =>
    unfold packLoop
    by_cases hi : sel i = 1
    · rw [if_pos hi]
      have hf : ((i :: is).filter fun i => decide (sel i = 1)) =
          i :: (is.filter fun i => decide (sel i = 1)) := by simp [hi]
      rw [hf]
      set L := is.filter fun i => decide (sel i = 1) with hL
      by_cases hr : st + c < n
      · have hst : store v (st + c) (x i) =
            some (Function.update v ⟨(st + c).toNat, by omega⟩ (x i)) := by
          unfold store; rw [dif_pos ⟨h0, hr⟩]
        simp only [hst]
        rw [ih _ _ (by omega)]
        simp only [List.length_cons, reduceCtorEq, or_false]
        by_cases hlen : st + c + (L.length + 1 : ℕ) ≤ n
        · rw [if_pos (by left; push_cast at hlen ⊢; omega), if_pos hlen]
          congr 2
          · push_cast; omega
          · funext k
            by_cases hk : st + c ≤ k
            · by_cases hk' : st + c = k
              · have hkk : (⟨(st + c).toNat, by omega⟩ : Fin n) = k := by ext; simp; omega
                rw [if_neg (by omega), if_pos hk, hkk, Function.update_self,
                  show ((k : ℤ) - (st + c)).toNat = 0 by omega]
                rfl
              · have hkk : k ≠ (⟨(st + c).toNat, by omega⟩ : Fin n) := by
                  intro e; apply hk'; rw [e]; simp; omega
                rw [if_pos (by omega), if_pos hk, Function.update_of_ne hkk,
                  show ((k : ℤ) - (st + c)).toNat = ((k : ℤ) - (st + (c + 1))).toNat + 1 by omega,
                  List.getElem?_cons_succ]
            · have hkk : k ≠ (⟨(st + c).toNat, by omega⟩ : Fin n) := by
                intro e; apply hk; rw [e]; simp
              rw [if_neg (by omega), if_neg hk, Function.update_of_ne hkk]
        · rw [if_neg hlen, if_neg]
          rintro (h | h)
          · apply hlen; push_cast; omega
          · apply hlen; rw [h]; simp; omega
      · have hst : store v (st + c) (x i) = none := by
          unfold store; rw [dif_neg (by omega)]
        simp only [hst]
        rw [if_neg]
        rintro (h | h)
        · simp only [List.length_cons] at h; omega
        · simp at h
    · rw [if_neg hi, ih _ _ h0]
      have hf : ((i :: is).filter fun i => decide (sel i = 1)) =
          is.filter fun i => decide (sel i = 1) := by simp [hi]
      rw [hf]

theorem sorted_index {L : List (Fin p)} (hL : L.Pairwise (· < ·)) {i : Fin p} (hi : i ∈ L) :
    L[(L.filter fun j => decide (j < i)).length]? = some i := by
  induction L with
  | nil => simp at hi
  | cons a t ih =>
    rw [List.pairwise_cons] at hL
    rcases List.mem_cons.1 hi with rfl | h
    · have : (List.filter (fun j => decide (j < i)) (i :: t)) = [] := by
        rw [List.filter_eq_nil_iff]
        intro b hb
        rcases List.mem_cons.1 hb with rfl | hb
        · simp
        · simp [le_of_lt (hL.1 b hb)]
      rw [this]; rfl
    · have ha : a < i := hL.1 i h
      rw [List.filter_cons_of_pos (by simp [ha]), List.length_cons, List.getElem?_cons_succ]
      exact ih hL.2 h

/-- The list of selected indexes. -/
def selList (sel : RVec K p) : List (Fin p) :=
  (List.finRange p).filter fun i => decide (sel i = 1)

theorem selList_sorted (sel : RVec K p) : (selList sel).Pairwise (· < ·) :=
  List.Pairwise.filter _ (List.pairwise_lt_finRange p)

theorem card_filter_list (q : Fin p → Prop) [DecidablePred q] :
    (Finset.univ.filter q).card = ((List.finRange p).filter fun i => decide (q i)).length := by
  rw [← List.toFinset_card_of_nodup ((List.nodup_finRange p).filter _)]
  congr 1
  ext i
  simp

theorem count_eq (sel : RVec K p) : count sel = (selList sel).length := card_filter_list _

theorem rank_eq (sel : RVec K p) (i : Fin p) :
    rank sel i = ((selList sel).filter fun j => decide (j < i)).length := by
  unfold rank selList
  rw [card_filter_list, List.filter_filter]
  congr 1
  apply List.filter_congr
  intro j _
  simp

theorem selList_rank (sel : RVec K p) {i : Fin p} (hi : sel i = 1) :
    (selList sel)[rank sel i]? = some i := by
  rw [rank_eq]
  exact sorted_index (selList_sorted sel) (by simp [selList, hi])

theorem rank_lt_count (sel : RVec K p) {i : Fin p} (hi : sel i = 1) : rank sel i < count sel := by
  rw [count_eq]
  have := selList_rank sel hi
  rw [List.getElem?_eq_some_iff] at this
  exact this.1

/-- Every place below the count is the place of exactly one selected entry. -/
theorem exists_rank (sel : RVec K p) {k : ℕ} (hk : k < count sel) :
    ∃ i, sel i = 1 ∧ rank sel i = k := by
  rw [count_eq] at hk
  refine ⟨(selList sel)[k], ?_, ?_⟩
  · have h := List.getElem_mem hk
    exact of_decide_eq_true (List.mem_filter.1 h).2
  · have h1 : sel (selList sel)[k] = 1 := by
      have h := List.getElem_mem hk
      exact of_decide_eq_true (List.mem_filter.1 h).2
    have h2 := selList_rank sel h1
    rw [List.getElem?_eq_some_iff] at h2
    obtain ⟨h3, h4⟩ := h2
    have hnd : (selList sel).Nodup := (List.nodup_finRange p).filter _
    exact (List.Nodup.getElem_inj_iff hnd).1 h4

theorem rank_injective (sel : RVec K p) {i j : Fin p} (hi : sel i = 1) (hj : sel j = 1)
    (h : rank sel i = rank sel j) : i = j := by
  have h1 := selList_rank sel hi
  rw [h, selList_rank sel hj] at h1
  exact (Option.some.inj h1).symm

theorem rank_strictMono (sel : RVec K p) {i j : Fin p} (hi : sel i = 1) (h : i < j) :
    rank sel i < rank sel j := by
  apply Finset.card_lt_card
  rw [Finset.ssubset_iff_of_subset]
  · exact ⟨i, by simp [h, hi], by simp⟩
  · intro k hk
    simp only [Finset.mem_filter, Finset.mem_univ, true_and] at hk ⊢
    exact ⟨lt_trans hk.1 h, hk.2⟩

/-- `copyToStartingAt_w_pattern` writes the selected entries, in order, next to each other from
`start` on, and nothing else. It runs into a failed assertion or outside the array iff they do not
fit. -/
theorem C56_pack (x : RVec K p) (v : RVec K n) (start : ℕ) (sel : RVec K p) :
    (start + count sel ≤ n → ∃ y, packTo x v start sel = some y ∧
      (∀ i (k : Fin n), sel i = 1 → (k : ℕ) = start + rank sel i → y k = x i) ∧
      ∀ k : Fin n, (k : ℕ) < start ∨ start + count sel ≤ k → y k = v k) ∧
    (¬ start + count sel ≤ n → packTo x v start sel = none) := by
  have hl := count_eq sel
  unfold selList at hl
  unfold packTo
  rw [packLoop_eq _ _ _ _ _ _ (by omega)]
  rw [← hl]
  constructor
  · intro h
    rw [if_pos (by left; omega)]
    simp only
    rw [if_pos (by omega)]
    refine ⟨_, rfl, ?_, ?_⟩
    · intro i k hi hk
      rw [if_pos (by omega), show ((k : ℤ) - (start + 0)).toNat = rank sel i by omega]
      have := selList_rank sel hi
      unfold selList at this
      rw [this]; rfl
    · intro k hk
      by_cases h1 : (start : ℤ) + 0 ≤ k
      · rw [if_pos h1, List.getElem?_eq_none (by rw [← hl]; omega)]; rfl
      · rw [if_neg h1]
  · intro h
    by_cases hc : ((List.finRange p).filter fun i => decide (sel i = 1)) = []
    · rw [if_pos (Or.inr hc)]
      simp only
      rw [if_neg (by omega)]
    · rw [if_neg]
      rintro (h1 | h1)
      · omega
      · exact hc h1

theorem unpackLoop_eq (x : RVec K n) (ss num : ℤ) (sel : RVec K m) (c : ℤ) (v : RVec K m)
    (is : List (Fin m)) (hnd : is.Pairwise (· < ·)) (h0 : 0 ≤ ss) (hc : 0 ≤ c)
    (hn : ss + num ≤ n) (hcn : c ≤ num) :
    ∃ y, unpackLoop x ss num sel (c, v) is = some y ∧
      (∀ i ∈ is, sel i = 1 → ∀ j : Fin n,
        c + ((is.filter fun t => decide (t < i ∧ sel t = 1)).length : ℤ) < num →
        (j : ℤ) = ss + c + (is.filter fun t => decide (t < i ∧ sel t = 1)).length → y i = x j) ∧
      (∀ i, (i ∉ is ∨ sel i ≠ 1 ∨
        num ≤ c + (is.filter fun t => decide (t < i ∧ sel t = 1)).length) → y i = v i) := by
  induction is generalizing c v with
  | nil => exact ⟨v, rfl, by simp, fun _ _ => rfl⟩
  | cons a is ih =>
    rw [List.pairwise_cons] at hnd
    unfold unpackLoop
    by_cases hlt : c < num
    · simp only [hlt, if_true]
      by_cases ha : sel a = 1
      · simp only [ha, if_true]
        rw [dif_pos (by omega)]
        obtain ⟨y, hy, h1, h2⟩ := ih (c + 1)
          (Function.update v a (x ⟨(ss + c).toNat, by omega⟩)) hnd.2 (by omega) (by omega)
        refine ⟨y, hy, ?_, ?_⟩
        · intro i hi hsi j hj1 hj2
          rcases List.mem_cons.1 hi with rfl | hi'
          · have hnot : i ∉ is := fun h => lt_irrefl _ (hnd.1 i h)
            rw [h2 i (Or.inl hnot), Function.update_self]
            have hf : ((i :: is).filter fun t => decide (t < i ∧ sel t = 1)) = [] := by
              rw [List.filter_eq_nil_iff]
              intro b hb
              rcases List.mem_cons.1 hb with rfl | hb
              · simp
              · simp [not_lt.2 (le_of_lt (hnd.1 b hb))]
            rw [hf] at hj2
            congr 1
            ext
            simp at hj2 ⊢
            omega
          · have hai := hnd.1 i hi'
            rw [List.filter_cons_of_pos (by simp [hai, ha]), List.length_cons] at hj1 hj2
            refine h1 i hi' hsi j ?_ ?_
            · push_cast at hj1; omega
            · push_cast at hj2; omega
        · intro i hi
          by_cases hia : i = a
          · subst hia
            exfalso
            have hf : ((i :: is).filter fun t => decide (t < i ∧ sel t = 1)) = [] := by
              rw [List.filter_eq_nil_iff]
              intro b hb
              rcases List.mem_cons.1 hb with rfl | hb
              · simp
              · simp [not_lt.2 (le_of_lt (hnd.1 b hb))]
            rw [hf] at hi
            rcases hi with h | h | h
            · exact h (by simp)
            · exact h ha
            · simp at h; omega
          · have hcase : i ∉ is ∨ sel i ≠ 1 ∨
                num ≤ c + 1 + (is.filter fun t => decide (t < i ∧ sel t = 1)).length := by
              rcases hi with h | h | h
              · left; intro h'; exact h (List.mem_cons_of_mem _ h')
              · right; left; exact h
              · by_cases him : i ∈ is
                · right; right
                  have hai := hnd.1 i him
                  rw [List.filter_cons_of_pos (by simp [hai, ha]), List.length_cons] at h
                  push_cast at h; omega
                · left; exact him
            rw [h2 i hcase, Function.update_of_ne hia]
      · simp only [ha, if_false]
        obtain ⟨y, hy, h1, h2⟩ := ih c v hnd.2 hc hcn
        have hf : ∀ i, ((a :: is).filter fun t => decide (t < i ∧ sel t = 1)) =
            is.filter fun t => decide (t < i ∧ sel t = 1) := by
          intro i; rw [List.filter_cons_of_neg (by simp [ha])]
        refine ⟨y, hy, ?_, ?_⟩
        · intro i hi hsi j hj1 hj2
          rw [hf] at hj1 hj2
          rcases List.mem_cons.1 hi with rfl | hi'
          · exact absurd hsi ha
          · exact h1 i hi' hsi j hj1 hj2
        · intro i hi
          rw [hf] at hi
          apply h2
          rcases hi with h | h | h
          · left; intro h'; exact h (List.mem_cons_of_mem _ h')
          · right; left; exact h
          · right; right; exact h
    · simp only [hlt, if_false]
      refine ⟨v, rfl, ?_, fun _ _ => rfl⟩
      intro i hi hsi j hj1
      omega

/-- `startingAtCopyToStartingAt_w_pattern` from the beginning of the destination, without a count:
the selected entries of the destination receive, in order, the entries of the source from `start_src`
on, as long as there are any; all other entries of the destination keep their values. It never reads
or writes outside the arrays. -/
theorem C56_unpack (x : RVec K n) (ss : ℕ) (dest sel : RVec K m) (hs : ss ≤ n) :
    ∃ y, unpackTo x ss dest 0 sel (-1) = some y ∧
      (∀ i (j : Fin n), sel i = 1 → (j : ℕ) = ss + rank sel i → y i = x j) ∧
      ∀ i, sel i ≠ 1 ∨ n ≤ ss + rank sel i → y i = dest i := by
  unfold unpackTo clampNum
  rw [if_neg (not_not.2 (by omega)), if_neg (not_not.2 (by omega)), if_pos (by omega)]
  simp only [Int.toNat_zero, List.drop_zero]
  obtain ⟨y, hy, h1, h2⟩ := unpackLoop_eq x ss (min ((n : ℤ) - ss) ((m : ℤ) - 0)) sel 0 dest
    (List.finRange m) (List.pairwise_lt_finRange m) (by omega) le_rfl (by omega) (by omega)
  have hr : ∀ i, ((List.finRange m).filter fun t => decide (t < i ∧ sel t = 1)).length =
      rank sel i := fun i => (card_filter_list _).symm
  refine ⟨y, hy, ?_, ?_⟩
  · intro i j hi hj
    have hrm : rank sel i < m := lt_of_lt_of_le (rank_lt_count sel hi)
      (le_trans (Finset.card_le_univ _) (by simp))
    apply h1 i (by simp) hi j
    · rw [hr]; have := j.2; omega
    · rw [hr]; omega
  · intro i hi
    by_cases hs1 : sel i = 1
    · have hrm : rank sel i < m := lt_of_lt_of_le (rank_lt_count sel hs1)
        (le_trans (Finset.card_le_univ _) (by simp))
      apply h2
      right; right
      rw [hr]
      rcases hi with h | h
      · exact absurd hs1 h
      · omega
    · exact h2 i (Or.inr (Or.inl hs1))

/-- With a count `c` only the first `c` selected entries change. -/
theorem C56_unpack_num (x : RVec K n) (ss c : ℕ) (dest sel : RVec K m) (hs : ss + c ≤ n)
    (hm : c ≤ m) :
    ∃ y, unpackTo x ss dest 0 sel c = some y ∧
      (∀ i (j : Fin n), sel i = 1 → rank sel i < c → (j : ℕ) = ss + rank sel i → y i = x j) ∧
      ∀ i, sel i ≠ 1 ∨ c ≤ rank sel i → y i = dest i := by
  unfold unpackTo clampNum
  rw [if_neg (not_not.2 (by omega)), if_neg (not_not.2 (by omega)), if_neg (by omega),
    if_pos (by omega)]
  simp only [Int.toNat_zero, List.drop_zero]
  obtain ⟨y, hy, h1, h2⟩ := unpackLoop_eq x ss (min (min (c : ℤ) ((n : ℤ) - ss)) ((m : ℤ) - 0))
    sel 0 dest (List.finRange m) (List.pairwise_lt_finRange m) (by omega) le_rfl (by omega)
    (by omega)
  have hr : ∀ i, ((List.finRange m).filter fun t => decide (t < i ∧ sel t = 1)).length =
      rank sel i := fun i => (card_filter_list _).symm
  refine ⟨y, hy, ?_, ?_⟩
  · intro i j hi hlt hj
    apply h1 i (by simp) hi j
    · rw [hr]; omega
    · rw [hr]; omega
  · intro i hi
    apply h2
    right
    rw [hr]
    rcases hi with h | h
    · left; exact h
    · right; omega

/-- From position `sd` of the destination on, without a count: the entries before `sd` keep their values; of those
from `sd` on the selected ones receive, in order, the entries of the source from `start_src` on, as long as there
are any. -/
theorem C56_unpack_at (x : RVec K n) (ss sd : ℕ) (dest sel : RVec K m) (hs : ss ≤ n) (hd : sd ≤ m) :
    ∃ y, unpackTo x ss dest sd sel (-1) = some y ∧
      (∀ i : Fin m, (i : ℕ) < sd → y i = dest i) ∧
      (∀ i : Fin m, sd ≤ i → sel i = 1 → ∀ j : Fin n,
        (j : ℕ) = ss + (Finset.univ.filter fun t : Fin m => sd ≤ t ∧ t < i ∧ sel t = 1).card → y i = x j) ∧
      ∀ i : Fin m, sd ≤ i → (sel i ≠ 1 ∨
        n ≤ ss + (Finset.univ.filter fun t : Fin m => sd ≤ t ∧ t < i ∧ sel t = 1).card) → y i = dest i := by
  unfold unpackTo clampNum
  rw [if_neg (not_not.2 (by omega)), if_neg (not_not.2 (by omega)), if_pos (by omega)]
  simp only [Int.toNat_natCast]
  have hpw : ((List.finRange m).drop sd).Pairwise (· < ·) :=
    (List.pairwise_lt_finRange m).sublist (List.drop_sublist _ _)
  have hmem : ∀ i : Fin m, i ∈ (List.finRange m).drop sd ↔ sd ≤ (i : ℕ) := by
    intro i
    rw [List.mem_iff_getElem]
    constructor
    · rintro ⟨k, hk, hk'⟩
      rw [List.getElem_drop, List.getElem_finRange] at hk'
      rw [← hk']
      simp
    · intro h
      refine ⟨i - sd, by simp; omega, ?_⟩
      rw [List.getElem_drop, List.getElem_finRange]
      ext
      simp
      omega
  obtain ⟨y, hy, h1, h2⟩ := unpackLoop_eq x ss (min ((n : ℤ) - ss) ((m : ℤ) - sd)) sel 0 dest
    ((List.finRange m).drop sd) hpw (by omega) le_rfl (by omega) (by omega)
  have hr : ∀ i, (((List.finRange m).drop sd).filter fun t => decide (t < i ∧ sel t = 1)).length =
      (Finset.univ.filter fun t : Fin m => sd ≤ t ∧ t < i ∧ sel t = 1).card := by
    intro i
    rw [← List.toFinset_card_of_nodup ((hpw.imp fun h => ne_of_lt h).filter _)]
    congr 1
    ext t
    simp [hmem]
  have hlt : ∀ i : Fin m, sd ≤ (i : ℕ) →
      (Finset.univ.filter fun t : Fin m => sd ≤ t ∧ t < i ∧ sel t = 1).card + sd < m := by
    intro i hi
    have hsub : (Finset.univ.filter fun t : Fin m => sd ≤ t ∧ t < i ∧ sel t = 1).card ≤
        (Finset.Ico sd (i : ℕ)).card := by
      apply Finset.card_le_card_of_injOn (fun t : Fin m => (t : ℕ))
      · intro t ht
        simp only [Finset.coe_filter, Finset.mem_univ, true_and, Set.mem_ofPred_eq] at ht
        simp only [Finset.coe_Ico, Set.mem_Ico]
        exact ⟨ht.1, ht.2.1⟩
      · intro a _ b _ h
        exact Fin.ext h
    rw [Nat.card_Ico] at hsub
    have := i.2
    omega
  refine ⟨y, hy, ?_, ?_, ?_⟩
  · intro i hi
    exact h2 i (Or.inl fun h => absurd ((hmem i).1 h) (by omega))
  · intro i hi hs1 j hj
    have := hlt i hi
    have := j.2
    apply h1 i ((hmem i).2 hi) hs1 j
    · rw [hr]; omega
    · rw [hr]; omega
  · intro i hi h
    have := hlt i hi
    rcases h with h | h
    · exact h2 i (Or.inr (Or.inl h))
    · exact h2 i (Or.inr (Or.inr (by rw [hr]; omega)))

/-- Packing the selected entries into a buffer and unpacking them from the same place copies exactly
the selected entries, whatever the buffer held before and wherever in it they were put. -/
theorem C56_pack_unpack (x y sel : RVec K p) (buf : RVec K n) (start : ℕ)
    (h : start + count sel ≤ n) :
    ∃ b, packTo x buf start sel = some b ∧
      unpackTo b start y 0 sel (-1) =
        some fun i => if sel i = 1 then x i else y i := by
  obtain ⟨b, hb, h1, -⟩ := (C56_pack x buf start sel).1 h
  obtain ⟨z, hz, h2, h3⟩ := C56_unpack b start y sel (by omega)
  refine ⟨b, hb, ?_⟩
  rw [hz]
  congr 1
  funext i
  by_cases hi : sel i = 1
  · rw [if_pos hi]
    have hlt := rank_lt_count sel hi
    rw [h2 i ⟨start + rank sel i, by omega⟩ hi rfl]
    exact h1 i _ hi rfl
  · rw [if_neg hi]
    exact h3 i (Or.inl hi)

end

/-- `copy_from_indexes` picks the entries with the given indexes. -/
theorem C56_copyFromIndexes (x : RVec K p) (v : RVec K n) (idx : Fin p → Fin n) :
    copyFromIndexes x v (fun i => (idx i : ℤ)) = some fun i => v (idx i) := by
  unfold copyFromIndexes
  have key : ∀ (is : List (Fin p)) (c : RVec K p), is.Nodup →
      gatherLoop v (fun i => (idx i : ℤ)) c is = some fun i => if i ∈ is then v (idx i) else c i := by
    intro is
    induction is with
    | nil => intro c _; simp [gatherLoop]
    | cons a is ih =>
      intro c hnd
      rw [List.nodup_cons] at hnd
      unfold gatherLoop
      have hl : load v (idx a : ℤ) = some (v (idx a)) := by
        unfold load
        rw [dif_pos (by have := (idx a).2; omega)]
        simp
      simp only [hl]
      rw [ih _ hnd.2]
      congr 1
      funext i
      by_cases hia : i = a
      · subst hia; simp [hnd.1]
      · simp [hia]
  rw [key _ _ (List.nodup_finRange p)]
  simp

/-- `is_equal` is equality of size and entries. -/
theorem C56_isEqual [DecidableEq K] (x : RVec K n) (v : RVec K m) :
    isEqual x v = true ↔ ∃ h : n = m, ∀ i, x i = v (i.cast h) := by
  unfold isEqual
  by_cases h : n = m
  · rw [dif_pos h]
    simp [h, List.all_eq_true]
  · rw [dif_neg h]
    simp [h]

/-- A block written into a buffer is read back unchanged, also after other blocks have been written
to places that do not overlap it. -/
theorem C56_roundtrip [One K] [DecidableEq K] (x dx : RVec K n) (w : RVec K m) (buf : RVec K N)
    (o o' : ℕ) (h : o + n ≤ N) (h' : o' + m ≤ N) (hdis : o + n ≤ o' ∨ o' + m ≤ o) :
    ∃ b b', copyToStartingGlobal x buf o = some b ∧ copyToStartingGlobal w b o' = some b' ∧
      startingAtCopyTo b' o dx 0 n = some x ∧ copyToStarting b' o dx = some x := by
  obtain ⟨b, hb, hb1, -⟩ := (C56_copyToStartingGlobal x buf o).1 h
  obtain ⟨b', hb', -, hb2⟩ := (C56_copyToStartingGlobal w b o').1 h'
  have key : ∀ i : Fin n, b' ⟨o + i, by omega⟩ = x i := by
    intro i
    rw [hb2 _ (by have := i.2; simp only; omega)]
    exact hb1 _ i i i.2 rfl (by omega)
  refine ⟨b, b', hb, hb', ?_, ?_⟩
  · obtain ⟨y, hy, hy1, -⟩ := (C56_startingAtCopyTo b' o dx 0 n (by omega) (by omega)).1 h (by omega)
    rw [show ((0 : ℕ) : ℤ) = 0 from rfl] at hy
    rw [hy]
    congr 1
    funext i
    rw [← key i]
    exact hy1 i _ i i.2 (by omega) rfl
  · rw [(C56_copyToStarting b' o dx).1 h]
    congr 1
    funext i
    exact key i

/-- A negative start is not refused by `copyToStarting(dest, start)`: the block is written at the
beginning of the destination instead. -/
theorem C56_negative_start_false :
    copyToStartingGlobal (![1] : RVec ℚ 1) (![5, 6] : RVec ℚ 2) (-1) = some ![1, 6] := by
  unfold copyToStartingGlobal blockCopy
  simp
  funext k
  fin_cases k <;> simp

/-! ## Instances -/

/-- Pattern used in the instances: the entries 0 and 2 of three. -/
def exSel : RVec ℚ 3 := ![1, 0, 1]

theorem exSel_count : count exSel = 2 := by decide +kernel

example : (![rank exSel 0, rank exSel 1, rank exSel 2] : Fin 3 → ℕ) = ![0, 1, 1] := by decide +kernel

example : packTo (![7, 8, 9] : RVec ℚ 3) (![0, 0, 0, 0] : RVec ℚ 4) 1 exSel =
    some ![0, 7, 9, 0] := by decide +kernel

example : unpackTo (![0, 7, 9, 0] : RVec ℚ 4) 1 (![4, 5, 6] : RVec ℚ 3) 0 exSel (-1) =
    some ![7, 5, 9] := by decide +kernel

example : unpackTo (![0, 7, 9, 0] : RVec ℚ 4) 1 (![4, 5, 6] : RVec ℚ 3) 1 exSel (-1) =
    some ![4, 5, 7] := by decide +kernel

/-- Too small a buffer. -/
example : packTo (![7, 8, 9] : RVec ℚ 3) (![0, 0, 0, 0] : RVec ℚ 4) 3 exSel = none := by
  decide +kernel

example : ∃ b, packTo (![7, 8, 9] : RVec ℚ 3) (![0, 0, 0, 0] : RVec ℚ 4) (2 : ℕ) exSel = some b ∧
    unpackTo b (2 : ℕ) (![4, 5, 6] : RVec ℚ 3) 0 exSel (-1) =
      some fun i => if exSel i = 1 then ![7, 8, 9] i else ![4, 5, 6] i :=
  C56_pack_unpack _ _ _ _ 2 (by rw [exSel_count])

example : startingAtCopyTo (![1, 2, 3] : RVec ℚ 3) 1 (![0, 0, 0, 0] : RVec ℚ 4) 1 (-1) =
    some ![0, 2, 3, 0] := by decide +kernel

example : ∃ b b', copyToStartingGlobal (![1, 2] : RVec ℚ 2) (![0, 0, 0, 0] : RVec ℚ 4) (1 : ℕ) =
      some b ∧ copyToStartingGlobal (![3] : RVec ℚ 1) b (3 : ℕ) = some b' ∧
      startingAtCopyTo b' (1 : ℕ) (![9, 9] : RVec ℚ 2) 0 (2 : ℕ) = some ![1, 2] ∧
      copyToStarting b' (1 : ℕ) (![9, 9] : RVec ℚ 2) = some ![1, 2] :=
  C56_roundtrip _ _ _ _ 1 3 (by omega) (by omega) (by omega)

example : copyFromIndexes (![0, 0] : RVec ℚ 2) (![5, 6, 7] : RVec ℚ 3) (fun i => (![2, 0] i : Fin 3)) =
    some fun i => (![5, 6, 7] : RVec ℚ 3) (![2, 0] i) := C56_copyFromIndexes _ _ _

end Hiop.Range
