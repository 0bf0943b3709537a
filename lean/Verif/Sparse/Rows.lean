import Verif.Sparse.Props
import Verif.Kkt.Dense
import Mathlib.Tactic.FinCases
import Mathlib.Tactic.NormNum
import Mathlib.Data.Fin.VecNotation

/-!
# C27: products of triplet matrices and the row-start table
-/

set_option linter.unusedSectionVars false
set_option linter.unusedSimpArgs false

namespace Hiop.Sparse

open Hiop.Vec

variable {K : Type*} [Field K] [LinearOrder K] [IsStrictOrderedRing K] {p q s : ℕ}

/-! ## Row starts -/

theorem split_row (l : List (Ent K)) (i : ℕ) (hs : RowSorted l) (hi : ∀ e ∈ l, i ≤ e.r) :
    (l.takeWhile fun e => decide (e.r = i)) = l.filter (fun e => decide (e.r = i)) ∧
    l.drop (l.takeWhile fun e => decide (e.r = i)).length
      = l.filter (fun e => decide (i + 1 ≤ e.r)) := by
  induction l with
  | nil => simp
  | cons e t ih =>
    obtain ⟨h1, h2⟩ := List.pairwise_cons.1 hs
    obtain ⟨a, b⟩ := ih h2 fun e' he => hi e' (List.mem_cons_of_mem _ he)
    by_cases h : e.r = i
    · have h' : ¬ (i + 1 ≤ e.r) := by omega
      simp only [List.takeWhile_cons, h, decide_true, if_true, List.filter_cons, List.length_cons,
        List.drop_succ_cons]
      refine ⟨by rw [a], ?_⟩
      rw [b]
      have : ¬ (i + 1 ≤ i) := by omega
      simp [this]
    · have hlt : i + 1 ≤ e.r := by
        have := hi e List.mem_cons_self
        omega
      have all : ∀ e' ∈ e :: t, i + 1 ≤ e'.r := by
        intro e' he'
        rcases List.mem_cons.1 he' with rfl | he'
        · exact hlt
        · exact le_trans hlt (h1 e' he')
      constructor
      · rw [List.takeWhile_cons, if_neg (by simpa using h), eq_comm, List.filter_eq_nil_iff]
        intro e' he'
        have := all e' he'
        simp; omega
      · rw [List.takeWhile_cons, if_neg (by simpa using h), List.length_nil, List.drop_zero, eq_comm,
          List.filter_eq_self]
        intro e' he'
        simpa using all e' he'

theorem drop_rowStart (es : List (Ent K)) (hs : RowSorted es) (i : ℕ) :
    es.drop (rowStart es i) = es.filter fun e => decide (i ≤ e.r) := by
  induction i with
  | zero => simp [rowStart]
  | succ i ih =>
    have hs' : RowSorted (es.drop (rowStart es i)) := List.Pairwise.sublist (List.drop_sublist _ _) hs
    have hi : ∀ e ∈ es.drop (rowStart es i), i ≤ e.r := by
      intro e he
      rw [ih] at he
      simpa using (List.mem_filter.1 he).2
    have := (split_row _ i hs' hi).2
    rw [List.drop_drop] at this
    rw [rowStart, this, ih, List.filter_filter]
    congr 1
    funext e
    by_cases h : i + 1 ≤ e.r
    · have : i ≤ e.r := by omega
      simp [h, this]
    · simp [h]

/-- The storage slice between two row starts is the row. -/
theorem rowSlice_eq (es : List (Ent K)) (hs : RowSorted es) (i : ℕ) :
    rowSlice es i = es.filter fun e => decide (e.r = i) := by
  have hs' : RowSorted (es.drop (rowStart es i)) := List.Pairwise.sublist (List.drop_sublist _ _) hs
  have hi : ∀ e ∈ es.drop (rowStart es i), i ≤ e.r := by
    intro e he
    rw [drop_rowStart es hs] at he
    simpa using (List.mem_filter.1 he).2
  have h1 := (split_row _ i hs' hi).1
  have h2 : rowStart es (i + 1) - rowStart es i
      = ((es.drop (rowStart es i)).takeWhile fun e => decide (e.r = i)).length := by
    rw [rowStart]; omega
  rw [rowSlice, h2, ← List.prefix_iff_eq_take.1 (List.takeWhile_prefix _), h1,
    drop_rowStart es hs, List.filter_filter]
  congr 1
  funext e
  by_cases h : e.r = i
  · simp [h]
  · simp [h]

theorem rowStart_le (es : List (Ent K)) (i : ℕ) : rowStart es i ≤ es.length := by
  induction i with
  | zero => exact Nat.zero_le _
  | succ i ih =>
    rw [rowStart]
    have : ((es.drop (rowStart es i)).takeWhile fun e => decide (e.r = i)).length
        ≤ (es.drop (rowStart es i)).length := (List.takeWhile_prefix _).length_le
    rw [List.length_drop] at this
    omega

/-- The final assertion of the row-start builder holds exactly when all rows are in range. -/
theorem rowStartsOk_iff (es : List (Ent K)) (hs : RowSorted es) (p : ℕ) :
    rowStartsOk p es = true ↔ ∀ e ∈ es, e.r < p := by
  have hd := drop_rowStart es hs p
  have hle := rowStart_le es p
  rw [rowStartsOk, beq_iff_eq]
  constructor
  · intro h e he
    rw [h, List.drop_length] at hd
    by_contra hc
    have : e ∈ es.filter fun e => decide (p ≤ e.r) :=
      List.mem_filter.2 ⟨he, by simpa using Nat.le_of_not_lt hc⟩
    rw [← hd] at this
    exact absurd this List.not_mem_nil
  · intro h
    have : es.filter (fun e => decide (p ≤ e.r)) = [] := by
      rw [List.filter_eq_nil_iff]
      intro e he
      simpa using h e he
    rw [this] at hd
    have := List.drop_eq_nil_iff.1 hd
    omega

theorem Sorted.row {es : List (Ent K)} (h : Sorted es) : RowSorted es :=
  h.imp fun h => by rcases h with h | h <;> omega

/-! ## The two-pointer walk -/

/-- Sum over all pairs of entries in the same column. -/
def pairSum (f : ℕ → K → K → K) (l1 l2 : List (Ent K)) : K :=
  (l1.map fun a => (l2.map fun b => if a.c = b.c then f a.c a.v b.v else 0).sum).sum

theorem pairSum_right_nil (f : ℕ → K → K → K) (l : List (Ent K)) : pairSum f l [] = 0 := by
  simp [pairSum]

theorem inner_zero (f : ℕ → K → K → K) (a : Ent K) (l : List (Ent K))
    (h : ∀ b ∈ l, a.c ≠ b.c) : (l.map fun b => if a.c = b.c then f a.c a.v b.v else 0).sum = 0 := by
  induction l with
  | nil => rfl
  | cons b l ih =>
    rw [List.map_cons, List.sum_cons, ih fun b' hb => h b' (List.mem_cons_of_mem _ hb),
      if_neg (h b List.mem_cons_self), add_zero]

theorem pairSum_cons_right (f : ℕ → K → K → K) (l1 : List (Ent K)) (b : Ent K) (l2 : List (Ent K))
    (h : ∀ a ∈ l1, a.c ≠ b.c) : pairSum f l1 (b :: l2) = pairSum f l1 l2 := by
  unfold pairSum
  congr 1
  refine List.map_congr_left fun a ha => ?_
  rw [List.map_cons, List.sum_cons, if_neg (h a ha), zero_add]

theorem pairSum_cons_left (f : ℕ → K → K → K) (a : Ent K) (l1 l2 : List (Ent K)) :
    pairSum f (a :: l1) l2
      = (l2.map fun b => if a.c = b.c then f a.c a.v b.v else 0).sum + pairSum f l1 l2 := by
  simp [pairSum]

theorem walk_eq (f : ℕ → K → K → K) (acc : K) (l1 l2 : List (Ent K))
    (h1 : l1.Pairwise fun a b => a.c < b.c) (h2 : l2.Pairwise fun a b => a.c < b.c) :
    walk f acc l1 l2 = acc + pairSum f l1 l2 := by
  match l1, l2 with
  | [], l2 => rw [walk]; simp [pairSum]
  | a :: as, [] => rw [walk, pairSum_right_nil, add_zero]
  | a :: as, b :: bs =>
    obtain ⟨p1, p2⟩ := List.pairwise_cons.1 h1
    obtain ⟨q1, q2⟩ := List.pairwise_cons.1 h2
    rw [walk]
    by_cases h : a.c = b.c
    · rw [if_pos h, walk_eq f _ as bs p2 q2, pairSum_cons_left, List.map_cons, List.sum_cons, if_pos h,
        inner_zero f a bs, pairSum_cons_right f as b bs]
      · ring
      · intro a' ha'
        have := p1 a' ha'
        omega
      · intro b' hb'
        have := q1 b' hb'
        omega
    · rw [if_neg h]
      by_cases hlt : a.c < b.c
      · rw [if_pos hlt, walk_eq f acc as (b :: bs) p2 h2, pairSum_cons_left,
          inner_zero f a (b :: bs), zero_add]
        intro b' hb'
        rcases List.mem_cons.1 hb' with rfl | hb'
        · exact h
        · have := q1 b' hb'
          omega
      · rw [if_neg hlt, walk_eq f acc (a :: as) bs h1 q2, pairSum_cons_right]
        intro a' ha'
        rcases List.mem_cons.1 ha' with rfl | ha'
        · exact h
        · have := p1 a' ha'
          omega
termination_by l1.length + l2.length

/-- Column `j` of a row given as a list of entries. -/
def colVal (l : List (Ent K)) (j : ℕ) : K := (l.map fun e => if e.c = j then e.v else 0).sum

/-- The row of a matrix read column-wise. -/
theorem colVal_row (es : List (Ent K)) (i j : ℕ) :
    colVal (es.filter fun e => decide (e.r = i)) j = entry es i j := by
  induction es with
  | nil => rfl
  | cons e es ih =>
    rw [entry_cons, ← ih, List.filter_cons]
    by_cases h : e.r = i
    · simp [h, colVal]
    · simp [h]

theorem pairSum_eq_sum (w : ℕ → K) (l1 l2 : List (Ent K)) (q : ℕ) (h1 : ∀ e ∈ l1, e.c < q) :
    pairSum (fun k a b => a * w k * b) l1 l2
      = ∑ k : Fin q, colVal l1 k * w k * colVal l2 k := by
  induction l1 with
  | nil => simp [pairSum, colVal]
  | cons a l1 ih =>
    rw [pairSum_cons_left, ih fun e he => h1 e (List.mem_cons_of_mem _ he)]
    have ha : a.c < q := h1 a List.mem_cons_self
    have hc : ∀ k, colVal (a :: l1) k = (if a.c = k then a.v else 0) + colVal l1 k := by
      intro k; simp [colVal]
    simp only [hc, add_mul, Finset.sum_add_distrib]
    congr 1
    rw [Finset.sum_eq_single (⟨a.c, ha⟩ : Fin q)]
    · simp only [if_true]
      clear ih hc
      unfold colVal
      induction l2 with
      | nil => simp
      | cons b l2 ih2 =>
        simp only [List.map_cons, List.sum_cons, ih2, mul_add]
        congr 1
        by_cases hb : a.c = b.c
        · rw [if_pos hb, if_pos hb.symm]
        · rw [if_neg hb, if_neg (Ne.symm hb), mul_zero]
    · intro k _ hk
      rw [if_neg, zero_mul, zero_mul]
      intro e; exact hk (Fin.ext e.symm)
    · intro h; exact absurd (Finset.mem_univ _) h

theorem Sorted.cols {es : List (Ent K)} (h : Sorted es) (i : ℕ) :
    (es.filter fun e => decide (e.r = i)).Pairwise fun a b => a.c < b.c := by
  rw [List.pairwise_filter]
  refine List.Pairwise.imp ?_ h
  intro a b hab ha hb
  simp only [decide_eq_true_eq] at ha hb
  rcases hab with hab | hab
  · omega
  · exact hab.2

/-- Walking over two sorted rows computes the weighted product of the dense rows. -/
theorem walk_rows (M1 M2 : List (Ent K)) (w : ℕ → K) (i j q : ℕ) (h1 : Sorted M1) (h2 : Sorted M2)
    (hq : ∀ e ∈ M1, e.c < q) :
    walk (fun k a b => a * w k * b) 0 (rowSlice M1 i) (rowSlice M2 j)
      = ∑ k : Fin q, entry M1 i k * w k * entry M2 j k := by
  rw [rowSlice_eq M1 h1.row, rowSlice_eq M2 h2.row, walk_eq _ _ _ _ (h1.cols i) (h2.cols j), zero_add,
    pairSum_eq_sum w _ _ q fun e he => hq e (List.mem_filter.1 he).1]
  simp only [colVal_row]

/-! ## The properties -/

/-- **C27, product of sparse matrices.** -/
theorem C27_timesMatTrans (M1 M2 : List (Ent K)) (beta alpha : K) (W : ℕ → ℕ → K)
    (h1 : Sorted M1) (h2 : Sorted M2) (r1 : InRange p q M1) (r2 : InRange s q M2) :
    ∃ W', timesMatTrans p s M1 M2 beta W alpha = some W' ∧
      (∀ i j, i < p → j < s →
        W' i j = beta * W i j + alpha * ∑ k : Fin q, entry M1 i k * entry M2 j k) ∧
      ∀ i j, ¬ (i < p ∧ j < s) → W' i j = W i j := by
  have o1 := (rowStartsOk_iff M1 h1.row p).2 fun e he => (r1 e he).1
  have o2 := (rowStartsOk_iff M2 h2.row s).2 fun e he => (r2 e he).1
  refine ⟨_, by rw [timesMatTrans, o1, o2]; rfl, fun i j hi hj => ?_, fun i j h => if_neg h⟩
  simp only [if_pos (And.intro hi hj)]
  have := walk_rows M1 M2 (fun _ => (1 : K)) i j q h1 h2 fun e he => (r1 e he).2
  simp only [mul_one] at this
  rw [this]

theorem fold_sq (l : List (Ent K)) (D : ℕ → K) (acc : K) :
    l.foldl (fun acc e => acc + e.v / D e.c * e.v) acc
      = acc + (l.map fun e => e.v / D e.c * e.v).sum := by
  induction l generalizing acc with
  | nil => simp
  | cons e l ih => rw [List.foldl_cons, ih, List.map_cons, List.sum_cons]; ring

theorem sum_sq_eq_pairSum (l : List (Ent K)) (w : ℕ → K) (h : l.Pairwise fun a b => a.c < b.c) :
    (l.map fun e => e.v * w e.c * e.v).sum = pairSum (fun k a b => a * w k * b) l l := by
  induction l with
  | nil => rfl
  | cons e l ih =>
    obtain ⟨h1, h2⟩ := List.pairwise_cons.1 h
    rw [List.map_cons, List.sum_cons, ih h2, pairSum_cons_left, List.map_cons, List.sum_cons, if_pos rfl,
      inner_zero (fun k a b => a * w k * b) e l, pairSum_cons_right, add_zero]
    · intro a ha; have := h1 a ha; omega
    · intro b hb; have := h1 b hb; omega

/-- The dense matrix of a triplet list. -/
def dense (p q : ℕ) (es : List (Ent K)) : Matrix (Fin p) (Fin q) K := fun i j => entry es i j

/-- **C27, weighted product into the diagonal block.** The sparse loops do what the dense formula
used by the mixed dense-sparse system (`Hiop.Kkt.addMDinvMt`) says. -/
theorem C27_addMDinvMt (es : List (Ent K)) (st : ℕ) (alpha : K) (D : RVec K q) (D' : ℕ → K)
    (hD : ∀ k : Fin q, D' k = D k) (W : ℕ → ℕ → K) (h1 : Sorted es) (r1 : InRange p q es) :
    addMDinvMt p es st alpha D' W = some (Kkt.addMDinvMt st alpha (dense p q es) D W) := by
  have o1 := (rowStartsOk_iff es h1.row p).2 fun e he => (r1 e he).1
  rw [addMDinvMt, if_pos o1]
  congr 1
  funext i j
  unfold Kkt.addMDinvMt
  have key : ∀ a b : Fin p, (∑ k : Fin q, entry es a k * (1 / D' k) * entry es b k)
      = Kkt.wprod (dense p q es) D (dense p q es) a b := by
    intro a b
    unfold Kkt.wprod dense
    refine Finset.sum_congr rfl fun k _ => ?_
    rw [hD]; ring
  have fe : (fun (k : ℕ) (a b : K) => a / D' k * b) = fun k a b => a * (1 / D' k) * b := by
    funext k a b; ring
  by_cases h : st ≤ i ∧ i < st + p ∧ i ≤ j ∧ j < st + p
  · have h' : st ≤ i ∧ i ≤ j := ⟨h.1, h.2.2.1⟩
    rw [if_pos h, if_pos h']
    congr 2
    have hi : i - st < p := by omega
    have hj : j - st < p := by omega
    rw [Kkt.at2, dif_pos ⟨hi, hj⟩, ← key ⟨i - st, hi⟩ ⟨j - st, hj⟩]
    by_cases hij : i = j
    · rw [if_pos hij, fold_sq, zero_add]
      subst hij
      rw [← walk_rows es es (fun k => 1 / D' k) _ _ q h1 h1 fun e he => (r1 e he).2,
        rowSlice_eq es h1.row, walk_eq _ _ _ _ (h1.cols _) (h1.cols _), zero_add,
        ← sum_sq_eq_pairSum _ _ (h1.cols _)]
      congr 1
      refine List.map_congr_left fun e _ => ?_
      ring
    · rw [if_neg hij, fe, walk_rows es es (fun k => 1 / D' k) _ _ q h1 h1 fun e he => (r1 e he).2]
  · rw [if_neg h]
    by_cases h2 : st ≤ i ∧ i ≤ j
    · rw [if_pos h2, Kkt.at2, dif_neg, mul_zero, add_zero]
      omega
    · rw [if_neg h2, add_zero]

/-- **C27, weighted product of two matrices into an upper block.** -/
theorem C27_addMDinvNt (M1 M2 : List (Ent K)) (rs cs : ℕ) (alpha : K) (D : RVec K q) (D' : ℕ → K)
    (hD : ∀ k : Fin q, D' k = D k) (W : ℕ → ℕ → K) (h1 : Sorted M1) (h2 : Sorted M2)
    (r1 : InRange p q M1) (r2 : InRange s q M2) (hu : rs + p ≤ cs + 1) :
    addMDinvNt p s M1 M2 rs cs alpha D' W
      = some (Kkt.addMDinvNt rs cs alpha (dense p q M1) D (dense s q M2) W) := by
  have o1 := (rowStartsOk_iff M1 h1.row p).2 fun e he => (r1 e he).1
  have o2 := (rowStartsOk_iff M2 h2.row s).2 fun e he => (r2 e he).1
  have o3 : decide (p + rs ≤ cs + 1) = true := by simp; omega
  rw [addMDinvNt, o1, o2, o3, Bool.or_true, if_pos (by rfl)]
  congr 1
  funext i j
  unfold Kkt.addMDinvNt
  have key : ∀ (a : Fin p) (b : Fin s), (∑ k : Fin q, entry M1 a k * (1 / D' k) * entry M2 b k)
      = Kkt.wprod (dense p q M1) D (dense s q M2) a b := by
    intro a b
    unfold Kkt.wprod dense
    refine Finset.sum_congr rfl fun k _ => ?_
    rw [hD]; ring
  have fe : (fun (k : ℕ) (a b : K) => a / D' k * b) = fun k a b => a * (1 / D' k) * b := by
    funext k a b; ring
  by_cases h : rs ≤ i ∧ i < rs + p ∧ cs ≤ j ∧ j < cs + s
  · rw [if_pos h, if_pos ⟨h.1, h.2.2.1⟩]
    have hi : i - rs < p := by omega
    have hj : j - cs < s := by omega
    rw [Kkt.at2, dif_pos ⟨hi, hj⟩, ← key ⟨i - rs, hi⟩ ⟨j - cs, hj⟩, fe,
      walk_rows M1 M2 (fun k => 1 / D' k) _ _ q h1 h2 fun e he => (r1 e he).2]
  · rw [if_neg h]
    by_cases h2 : rs ≤ i ∧ cs ≤ j
    · rw [if_pos h2, Kkt.at2, dif_neg, mul_zero, add_zero]
      omega
    · rw [if_neg h2, add_zero]

/-! ## Concrete cases -/

/-- A 2 by 3 matrix with an empty column and an off-diagonal overlap. -/
def exA : List (Ent ℚ) := [⟨0, 0, 2⟩, ⟨0, 2, 3⟩, ⟨1, 2, 5⟩]

theorem exA_sorted : Sorted exA := by
  unfold Sorted exA; simp

theorem exA_inRange : InRange 2 3 exA := by
  intro e he
  simp only [exA, List.mem_cons, List.not_mem_nil, or_false] at he
  rcases he with rfl | rfl | rfl <;> simp

example : ∃ W', timesMatTrans 2 2 exA exA 0 (fun _ _ => 7) 1 = some W' ∧ W' 0 0 = 13 ∧ W' 0 1 = 15 ∧
    W' 1 1 = 25 ∧ W' 2 0 = 7 := by
  obtain ⟨W', h, h1, h2⟩ := C27_timesMatTrans (K := ℚ) (p := 2) (s := 2) (q := 3) exA exA 0 1
    (fun _ _ => 7) exA_sorted exA_sorted exA_inRange exA_inRange
  refine ⟨W', h, ?_, ?_, ?_, h2 2 0 (by omega)⟩
  · rw [h1 0 0 (by omega) (by omega)]; decide +kernel
  · rw [h1 0 1 (by omega) (by omega)]; decide +kernel
  · rw [h1 1 1 (by omega) (by omega)]; decide +kernel

example : addMDinvMt 2 exA 1 1 (fun k => (k : ℚ) + 1) (fun _ _ => 0)
    = some (Kkt.addMDinvMt 1 1 (dense 2 3 exA) ![1, 2, 3] fun _ _ => 0) :=
  C27_addMDinvMt (q := 3) exA 1 1 ![1, 2, 3] _ (by intro k; fin_cases k <;> norm_num) _ exA_sorted
    exA_inRange

example : (addMDinvMt 2 exA 1 1 (fun k => (k : ℚ) + 1) (fun _ _ => 0)).map (fun W => (W 1 1, W 1 2, W 2 1))
    = some (7, 5, 0) := by decide +kernel

/-- **C27, refuted for repeated positions.** With two triplets at one position the diagonal of the
weighted product gets the sum of squares (here 2) and not the square of the sum (4), although
the products with vectors add up such triplets. -/
theorem C27_addMDinvMt_duplicates_refuted :
    ∃ es : List (Ent ℚ), RowSorted es ∧ InRange 1 1 es ∧
      (addMDinvMt 1 es 0 1 (fun _ => 1) fun _ _ => 0).map (fun W => W 0 0) = some 2 ∧
      Kkt.addMDinvMt 0 1 (dense 1 1 es) ![1] (fun _ _ => 0) 0 0 = 4 := by
  refine ⟨[⟨0, 0, 1⟩, ⟨0, 0, 1⟩], by simp [RowSorted], ?_, by decide +kernel, by decide +kernel⟩
  intro e he
  simp only [List.mem_cons, List.not_mem_nil, or_false, or_self] at he
  subst he; simp

/-- **C27, refuted for unsorted columns.** If the columns of a row are out of order, the product of a
matrix with itself misses common columns. -/
theorem C27_timesMatTrans_unsorted_refuted :
    ∃ M1 M2 : List (Ent ℚ), RowSorted M1 ∧ InRange 1 2 M1 ∧ Sorted M2 ∧ InRange 1 2 M2 ∧
      (timesMatTrans 1 1 M1 M2 0 (fun _ _ => 0) 1).map (fun W => W 0 0) = some 1 ∧
      ∑ k : Fin 2, entry M1 0 k * entry M2 0 k = 2 := by
  refine ⟨[⟨0, 1, 1⟩, ⟨0, 0, 1⟩], [⟨0, 0, 1⟩, ⟨0, 1, 1⟩], by simp [RowSorted], ?_, by simp [Sorted], ?_,
    by simp [timesMatTrans, rowStartsOk, rowStart, rowSlice, walk], by decide +kernel⟩ <;>
  · intro e he
    simp only [List.mem_cons, List.not_mem_nil, or_false] at he
    rcases he with rfl | rfl <;> simp

end Hiop.Sparse
