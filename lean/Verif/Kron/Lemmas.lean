import Verif.Kron.Model
import Mathlib.LinearAlgebra.Matrix.NonsingularInverse
import Mathlib.LinearAlgebra.Matrix.ToLin
import Mathlib.Data.Matrix.Mul

/-!
# Complex matrices and the Kron reduction — lemmas
-/

set_option linter.unusedSectionVars false

namespace Hiop.Kron

open Hiop.Sparse Finset

variable {K : Type*} [Field K] [DecidableEq K]

/-- Triplets ordered by rows, then columns, without duplicates. -/
def SSorted (l : List (Ent K)) : Prop :=
  l.Pairwise fun a b => a.r < b.r ∨ a.r = b.r ∧ a.c < b.c

/-- Triplets ordered by rows, then columns. -/
def WSorted (l : List (Ent K)) : Prop :=
  l.Pairwise fun a b => a.r < b.r ∨ a.r = b.r ∧ a.c ≤ b.c

/-- `std::sort` by rows, then columns. -/
def Sorts (srt : List (Ent K) → List (Ent K)) : Prop := ∀ l, (srt l).Perm l ∧ WSorted (srt l)

/-! ## The matrix of a list of triplets -/

@[simp] theorem dense_nil (i j : ℕ) : dense ([] : List (Ent K)) i j = 0 := rfl

theorem dense_cons (e : Ent K) (l : List (Ent K)) (i j : ℕ) :
    dense (e :: l) i j = (if e.r = i ∧ e.c = j then e.v else 0) + dense l i j := by
  unfold dense
  by_cases h : e.r = i ∧ e.c = j <;> simp [h]

theorem dense_append (l l' : List (Ent K)) (i j : ℕ) :
    dense (l ++ l') i j = dense l i j + dense l' i j := by
  unfold dense; simp

theorem dense_perm {l l' : List (Ent K)} (h : l.Perm l') (i j : ℕ) : dense l i j = dense l' i j := by
  unfold dense
  exact ((h.filter _).map _).sum_eq

theorem dense_eq_zero {l : List (Ent K)} {i j : ℕ} (h : ∀ e ∈ l, ¬ (e.r = i ∧ e.c = j)) :
    dense l i j = 0 := by
  unfold dense
  rw [List.filter_eq_nil_iff.2 (by simpa using h)]
  rfl

theorem dense_swap (l : List (Ent K)) (i j : ℕ) : dense (l.map swap) i j = dense l j i := by
  induction l with
  | nil => rfl
  | cons e l ih => rw [List.map_cons, dense_cons, dense_cons, ih]; simp [swap, and_comm]

/-! ## Positions -/

/-- Whether a triplet comes at or after `(r, c)`. -/
def at' (r c : ℕ) (e : Ent K) : Bool := decide (r < e.r ∨ e.r = r ∧ c ≤ e.c)

/-- The triplets at or after `(r, c)`. -/
def tl (l : List (Ent K)) (r c : ℕ) : List (Ent K) := l.filter (at' r c)

theorem tl_zero (l : List (Ent K)) : tl l 0 0 = l := by
  unfold tl
  rw [List.filter_eq_self]
  intro e _
  simp only [at', Nat.zero_le, and_true, decide_eq_true_eq]
  omega

theorem dropWhile_eq_filter (p : Ent K → Bool) (l : List (Ent K))
    (h : l.Pairwise fun a b => p b = true → p a = true) : l.dropWhile p = l.filter fun e => !p e := by
  induction l with
  | nil => rfl
  | cons a l ih =>
    rw [List.pairwise_cons] at h
    by_cases ha : p a = true
    · rw [List.dropWhile_cons_of_pos ha, ih h.2, List.filter_cons_of_neg (by simp [ha])]
    · rw [List.dropWhile_cons_of_neg ha, List.filter_cons_of_pos (by simp [ha])]
      congr 1
      symm
      rw [List.filter_eq_self]
      intro b hb
      cases hpb : p b with
      | false => rfl
      | true => exact absurd (h.1 b hb hpb) ha

theorem skipRow_tl {l : List (Ent K)} (hl : SSorted l) {r c row : ℕ}
    (h : r < row ∨ r = row ∧ c = 0) : skipRow row (tl l r c) = tl l row 0 := by
  unfold skipRow
  rw [dropWhile_eq_filter]
  · unfold tl
    rw [List.filter_filter]
    apply List.filter_congr
    intro e _
    rw [Bool.eq_iff_iff]
    simp only [at', Bool.and_eq_true, Bool.not_eq_true', decide_eq_false_iff_not,
      decide_eq_true_eq]
    omega
  · refine (hl.filter _).imp ?_
    intro a b hab
    simp only [decide_eq_true_eq]
    omega

theorem skipCol_tl {l : List (Ent K)} (hl : SSorted l) {c row col : ℕ} (h : c ≤ col) :
    skipCol row col (tl l row c) = tl l row col := by
  unfold skipCol
  rw [dropWhile_eq_filter]
  · unfold tl
    rw [List.filter_filter]
    apply List.filter_congr
    intro e _
    rw [Bool.eq_iff_iff]
    simp only [at', Bool.and_eq_true, Bool.not_eq_true', decide_eq_false_iff_not,
      decide_eq_true_eq]
    omega
  · refine List.Pairwise.imp_of_mem ?_ (hl.filter _)
    intro a b ha _ hab
    have := (List.mem_filter.1 ha).2
    simp only [at', decide_eq_true_eq] at this ⊢
    omega

theorem sorted_tail_ne {l : List (Ent K)} {a : Ent K} (hl : SSorted (a :: l)) :
    ∀ e ∈ l, ¬ (e.r = a.r ∧ e.c = a.c) := by
  intro e he h
  have := (List.pairwise_cons.1 hl).1 e he
  omega

/-- The triplet at `(row, col)`, if there is one, comes first. -/
theorem tl_step {l : List (Ent K)} (hl : SSorted l) (row col : ℕ) :
    (tl l row col = ⟨row, col, dense l row col⟩ :: tl l row (col + 1)) ∨
    (dense l row col = 0 ∧ tl l row col = tl l row (col + 1) ∧
      ∀ e ∈ tl l row col, ¬ (e.r = row ∧ e.c = col)) := by
  induction l with
  | nil => right; exact ⟨rfl, rfl, by simp [tl]⟩
  | cons a l ih =>
    have hl' : SSorted l := (List.pairwise_cons.1 hl).2
    have ih := ih hl'
    rw [dense_cons]
    by_cases h : a.r = row ∧ a.c = col
    · left
      rw [if_pos h]
      have hz : dense l row col = 0 := dense_eq_zero fun e he => by
        have := sorted_tail_ne hl e he
        rwa [h.1, h.2] at this
      have h1 : at' row col a = true := by simp [at', h.1, h.2]
      have h2 : at' row (col + 1) a = false := by simp [at', h.1, h.2]
      unfold tl at ih ⊢
      rw [List.filter_cons_of_pos h1, List.filter_cons_of_neg (by simp [h2]), hz, add_zero]
      congr 1
      · obtain ⟨r, c, v⟩ := a; simp only at h ⊢; rw [h.1, h.2]
      · rcases ih with ih | ih
        · exfalso
          have : (⟨row, col, dense l row col⟩ : Ent K) ∈ l :=
            (List.mem_filter.1 (by rw [ih]; simp : (⟨row, col, dense l row col⟩ : Ent K) ∈ _)).1
          exact sorted_tail_ne hl _ this ⟨h.1.symm, h.2.symm⟩
        · exact ih.2.1
    · rw [if_neg h, zero_add]
      by_cases h1 : at' row col a = true
      · have h2 : at' row (col + 1) a = true := by
          simp only [at', decide_eq_true_eq] at h1 ⊢
          omega
        have hall : ∀ e ∈ l, ¬ (e.r = row ∧ e.c = col) := by
          intro e he hee
          have := (List.pairwise_cons.1 hl).1 e he
          simp only [at', decide_eq_true_eq] at h1
          omega
        right
        refine ⟨dense_eq_zero hall, ?_, ?_⟩
        · unfold tl at ih ⊢
          rw [List.filter_cons_of_pos h1, List.filter_cons_of_pos h2]
          congr 1
          apply List.filter_congr
          intro e he
          have := hall e he
          rw [Bool.eq_iff_iff]
          simp only [at', decide_eq_true_eq]
          omega
        · intro e he
          rcases List.mem_cons.1 (List.mem_filter.1 he).1 with rfl | he'
          · exact h
          · exact hall e he'
      · have h2 : ¬ at' row (col + 1) a = true := by
          simp only [at', decide_eq_true_eq] at h1 ⊢
          omega
        unfold tl at ih ⊢
        rw [List.filter_cons_of_neg h1, List.filter_cons_of_neg h2]
        exact ih

/-- Whether a triplet is stored at `(row, col)`. -/
def has (l : List (Ent K)) (row col : ℕ) : Bool := l.any fun e => decide (e.r = row ∧ e.c = col)

theorem has_false {l : List (Ent K)} {row col : ℕ} (h : has l row col = false) :
    dense l row col = 0 := by
  apply dense_eq_zero
  intro e he hee
  have : has l row col = true := by
    unfold has; rw [List.any_eq_true]; exact ⟨e, he, by simpa using hee⟩
  rw [h] at this; cases this

theorem tl_has {l : List (Ent K)} (hl : SSorted l) (row col : ℕ) :
    (has l row col = true → tl l row col = ⟨row, col, dense l row col⟩ :: tl l row (col + 1)) ∧
    (has l row col = false → tl l row col = tl l row (col + 1) ∧
      ∀ e ∈ tl l row col, ¬ (e.r = row ∧ e.c = col)) := by
  rcases tl_step hl row col with h | h
  · refine ⟨fun _ => h, fun hf => ?_⟩
    exfalso
    have : (⟨row, col, dense l row col⟩ : Ent K) ∈ l :=
      (List.mem_filter.1 (by unfold tl at h; rw [h]; simp :
        (⟨row, col, dense l row col⟩ : Ent K) ∈ l.filter (at' row col))).1
    have : has l row col = true := by
      unfold has; rw [List.any_eq_true]; exact ⟨_, this, by simp⟩
    rw [hf] at this; cases this
  · refine ⟨fun ht => ?_, fun _ => h.2⟩
    exfalso
    unfold has at ht
    rw [List.any_eq_true] at ht
    obtain ⟨e, he, hee⟩ := ht
    rw [decide_eq_true_eq] at hee
    exact h.2.2 e (List.mem_filter.2 ⟨he, by simp [at', hee.1, hee.2]⟩) hee

/-! ## Slices -/

/-- What one row of a slice finds. -/
theorem findCols_spec {l : List (Ent K)} (hl : SSorted l) (row : ℕ) (skip : ℕ × ℕ → Bool)
    (cs : List (ℕ × ℕ)) (hcs : cs.Pairwise fun a b => a.2 < b.2) (c : ℕ) (hc : ∀ p ∈ cs, c ≤ p.2) :
    ∃ c', findCols row skip cs (tl l row c) =
      ((cs.filter fun p => !skip p && has l row p.2).map fun p => (p.1, dense l row p.2), tl l row c') := by
  induction cs generalizing c with
  | nil => exact ⟨c, rfl⟩
  | cons p cs ih =>
    rw [List.pairwise_cons] at hcs
    unfold findCols
    by_cases hs : skip p = true
    · rw [if_pos hs, List.filter_cons_of_neg (by simp [hs])]
      exact ih hcs.2 c fun q hq => hc q (by simp [hq])
    · rw [if_neg hs, skipCol_tl hl (hc p (by simp))]
      cases hh : has l row p.2 with
      | true =>
        rw [(tl_has hl row p.2).1 hh, List.filter_cons_of_pos (by simp [hs, hh])]
        simp only [and_self, if_true]
        obtain ⟨c', h'⟩ := ih hcs.2 (p.2 + 1) fun q hq => hcs.1 q hq
        rw [h']
        exact ⟨c', rfl⟩
      | false =>
        rw [List.filter_cons_of_neg (by simp [hh])]
        have h2 := (tl_has hl row p.2).2 hh
        obtain ⟨c', h'⟩ := ih hcs.2 p.2 fun q hq => (hcs.1 q hq).le
        refine ⟨c', ?_⟩
        rw [← h']
        generalize tl l row p.2 = t at h2
        cases t with
        | nil => rfl
        | cons e t =>
          simp only
          rw [if_neg (h2.2 e (by simp))]

/-- What a slice finds. -/
theorem findRows_spec {l : List (Ent K)} (hl : SSorted l) (skip : ℕ × ℕ → ℕ × ℕ → Bool)
    (cs : List (ℕ × ℕ)) (hcs : cs.Pairwise fun a b => a.2 < b.2)
    (rs : List (ℕ × ℕ)) (hrs : rs.Pairwise fun a b => a.2 < b.2) (r c : ℕ)
    (hr : ∀ p ∈ rs, r < p.2 ∨ r = p.2 ∧ c = 0) :
    findRows skip cs rs (tl l r c) = rs.flatMap fun p =>
      (cs.filter fun q => !skip p q && has l p.2 q.2).map fun q => ⟨p.1, q.1, dense l p.2 q.2⟩ := by
  induction rs generalizing r c with
  | nil => rfl
  | cons p rs ih =>
    rw [List.pairwise_cons] at hrs
    unfold findRows
    rw [skipRow_tl hl (hr p (by simp))]
    obtain ⟨c', h'⟩ := findCols_spec hl p.2 (skip p) cs hcs 0 (fun _ _ => Nat.zero_le _)
    simp only [h', List.flatMap_cons, List.map_map]
    rw [ih hrs.2 p.2 c' fun q hq => Or.inl (hrs.1 q hq)]
    rfl

theorem numbered_pairwise {l : List ℕ} (hl : l.Pairwise (· < ·)) :
    (numbered l).Pairwise fun a b => a.2 < b.2 := by
  unfold numbered
  rw [List.pairwise_map, List.pairwise_iff_getElem]
  intro i j hi hj hij
  simp only [List.length_range] at hi hj
  simp only [List.getElem_range]
  have h1 : l.getD i 0 = l[i] := by simp [List.getD, hi]
  have h2 : l.getD j 0 = l[j] := by simp [List.getD, hj]
  rw [h1, h2]
  exact List.pairwise_iff_getElem.1 hl i j hi hj hij

theorem dense_flatMap {β : Type*} (L : List β) (f : β → List (Ent K)) (i j : ℕ) :
    dense (L.flatMap f) i j = (L.map fun b => dense (f b) i j).sum := by
  induction L with
  | nil => rfl
  | cons b L ih => rw [List.flatMap_cons, dense_append, ih, List.map_cons, List.sum_cons]

theorem sum_range_map (n : ℕ) (f : ℕ → K) : ((List.range n).map f).sum = ∑ k ∈ range n, f k := by
  induction n with
  | zero => rfl
  | succ n ih => rw [List.range_succ, List.map_append, List.sum_append, ih, sum_range_succ]; simp

theorem dense_map_filter (L : List (ℕ × ℕ)) (P : ℕ × ℕ → Bool) (k : ℕ) (g : ℕ × ℕ → K) (i j : ℕ) :
    dense ((L.filter P).map fun q => (⟨k, q.1, g q⟩ : Ent K)) i j =
      (L.map fun q => if k = i ∧ q.1 = j ∧ P q then g q else 0).sum := by
  induction L with
  | nil => rfl
  | cons q L ih =>
    rw [List.map_cons, List.sum_cons]
    by_cases h : P q = true
    · rw [List.filter_cons_of_pos h, List.map_cons, dense_cons, ih]
      simp [h]
    · rw [List.filter_cons_of_neg h, ih]
      simp [h]

/-- The entries of a slice. -/
theorem findRows_dense {l : List (Ent K)} (hl : SSorted l) (skip : ℕ × ℕ → ℕ × ℕ → Bool)
    {rows cols : List ℕ} (hr : rows.Pairwise (· < ·)) (hc : cols.Pairwise (· < ·)) (i j : ℕ) :
    dense (findRows skip (numbered cols) (numbered rows) l) i j =
      if i < rows.length ∧ j < cols.length ∧ skip (i, rows.getD i 0) (j, cols.getD j 0) = false
      then dense l (rows.getD i 0) (cols.getD j 0) else 0 := by
  have h := findRows_spec hl skip (numbered cols) (numbered_pairwise hc) (numbered rows)
    (numbered_pairwise hr) 0 0 (fun p _ => by omega)
  rw [tl_zero] at h
  rw [h, dense_flatMap]
  simp only [dense_map_filter]
  unfold numbered
  rw [List.map_map, sum_range_map]
  simp only [List.map_map, Function.comp_def, sum_range_map]
  by_cases hi : i < rows.length
  · rw [sum_eq_single_of_mem i (mem_range.2 hi)]
    · by_cases hj : j < cols.length
      · rw [sum_eq_single_of_mem j (mem_range.2 hj)]
        · simp only [true_and, Bool.and_eq_true, Bool.not_eq_true', hi, hj]
          cases hh : has l (rows.getD i 0) (cols.getD j 0) with
          | true => simp only [and_true]
          | false => rw [has_false hh]; simp
        · intro b _ hb
          rw [if_neg]
          exact fun h => hb h.2.1
      · rw [if_neg (fun h => hj h.2.1)]
        apply sum_eq_zero
        intro b hb
        rw [if_neg]
        rintro ⟨-, rfl, -⟩
        exact hj (mem_range.1 hb)
    · intro b _ hb
      apply sum_eq_zero
      intro x _
      rw [if_neg]
      exact fun h => hb h.1
  · rw [if_neg (fun h => hi h.1)]
    apply sum_eq_zero
    intro b hb
    apply sum_eq_zero
    intro x _
    rw [if_neg]
    rintro ⟨rfl, -⟩
    exact hi (mem_range.1 hb)

/-- The triplets of a slice are in range. -/
theorem findRows_mem {l : List (Ent K)} (hl : SSorted l) (skip : ℕ × ℕ → ℕ × ℕ → Bool)
    {rows cols : List ℕ} (hr : rows.Pairwise (· < ·)) (hc : cols.Pairwise (· < ·)) {e : Ent K}
    (he : e ∈ findRows skip (numbered cols) (numbered rows) l) :
    e.r < rows.length ∧ e.c < cols.length ∧
      skip (e.r, rows.getD e.r 0) (e.c, cols.getD e.c 0) = false := by
  have h := findRows_spec hl skip (numbered cols) (numbered_pairwise hc) (numbered rows)
    (numbered_pairwise hr) 0 0 (fun p _ => by omega)
  rw [tl_zero] at h
  rw [h] at he
  simp only [List.mem_flatMap, List.mem_map, List.mem_filter, numbered, List.mem_range,
    Bool.and_eq_true, Bool.not_eq_true'] at he
  obtain ⟨p, ⟨k, hk, rfl⟩, q, ⟨⟨k', hk', rfl⟩, hs⟩, rfl⟩ := he
  exact ⟨hk, hk', hs.1⟩

/-- The triplets of a slice are ordered. -/
theorem findRows_sorted {l : List (Ent K)} (hl : SSorted l) (skip : ℕ × ℕ → ℕ × ℕ → Bool)
    {rows cols : List ℕ} (hr : rows.Pairwise (· < ·)) (hc : cols.Pairwise (· < ·)) :
    SSorted (findRows skip (numbered cols) (numbered rows) l) := by
  have h := findRows_spec hl skip (numbered cols) (numbered_pairwise hc) (numbered rows)
    (numbered_pairwise hr) 0 0 (fun p _ => by omega)
  rw [tl_zero] at h
  rw [h]
  have hn : ∀ L : List ℕ, (numbered L).Pairwise fun a b => a.1 < b.1 := by
    intro L
    unfold numbered
    rw [List.pairwise_map]
    exact List.pairwise_lt_range
  unfold SSorted
  rw [List.pairwise_flatMap]
  constructor
  · intro p _
    rw [List.pairwise_map]
    refine ((hn cols).filter _).imp ?_
    intro a b hab
    exact Or.inr ⟨rfl, hab⟩
  · refine (hn rows).imp ?_
    intro a b hab x hx y hy
    simp only [List.mem_map] at hx hy
    obtain ⟨_, _, rfl⟩ := hx
    obtain ⟨_, _, rfl⟩ := hy
    exact Or.inl hab

theorem SSorted.srt {srt : List (Ent K) → List (Ent K)} (hs : Sorts srt) {l : List (Ent K)}
    (hd : l.Pairwise fun a b => ¬ (a.r = b.r ∧ a.c = b.c)) : SSorted (srt l) := by
  have h1 := (hs l).2
  have h2 : (srt l).Pairwise fun a b => ¬ (a.r = b.r ∧ a.c = b.c) :=
    ((hs l).1.pairwise_iff (by intro a b h h'; exact h ⟨h'.1.symm, h'.2.symm⟩)).2 hd
  refine (h1.and h2).imp ?_
  intro a b h
  omega

theorem SSorted.ne {l : List (Ent K)} (h : SSorted l) :
    l.Pairwise fun a b => ¬ (a.r = b.r ∧ a.c = b.c) := h.imp fun h => by omega

/-! ## Adding up duplicates -/

/-- Neighbouring triplets of the same position added up. -/
def group (cur : Ent K) : List (Ent K) → List (Ent K)
  | [] => [cur]
  | e :: l => if e.r = cur.r ∧ e.c = cur.c then group { cur with v := cur.v + e.v } l
    else cur :: group e l

theorem dense_group (l : List (Ent K)) (cur : Ent K) (i j : ℕ) :
    dense (group cur l) i j = dense (cur :: l) i j := by
  induction l generalizing cur with
  | nil => rfl
  | cons e l ih =>
    unfold group
    split
    · next h =>
      rw [ih, dense_cons, dense_cons, dense_cons, h.1, h.2]
      by_cases hh : cur.r = i ∧ cur.c = j <;> simp [hh, add_assoc]
    · rw [dense_cons, ih, dense_cons cur]

theorem group_mem (l : List (Ent K)) (cur : Ent K) {e : Ent K} (he : e ∈ group cur l) :
    ∃ e' ∈ cur :: l, e'.r = e.r ∧ e'.c = e.c := by
  induction l generalizing cur with
  | nil => exact ⟨e, he, rfl, rfl⟩
  | cons a l ih =>
    unfold group at he
    split at he
    · obtain ⟨e', he', h⟩ := ih _ he
      rcases List.mem_cons.1 he' with rfl | he'
      · exact ⟨cur, by simp, h⟩
      · exact ⟨e', by simp [he'], h⟩
    · rcases List.mem_cons.1 he with rfl | he
      · exact ⟨e, by simp, rfl, rfl⟩
      · obtain ⟨e', he', h⟩ := ih _ he
        exact ⟨e', List.mem_cons_of_mem _ he', h⟩

theorem group_sorted (l : List (Ent K)) (cur : Ent K) (h : WSorted (cur :: l)) :
    SSorted (group cur l) := by
  induction l generalizing cur with
  | nil => exact List.pairwise_singleton _ _
  | cons a l ih =>
    unfold WSorted at h
    rw [List.pairwise_cons] at h
    unfold group
    split
    · apply ih
      unfold WSorted
      rw [List.pairwise_cons]
      exact ⟨fun e he => h.1 e (by simp [he]), (List.pairwise_cons.1 h.2).2⟩
    · next hne =>
      unfold SSorted
      rw [List.pairwise_cons]
      refine ⟨fun e he => ?_, ih a h.2⟩
      obtain ⟨e', he', hr, hc⟩ := group_mem l a he
      have h1 := h.1 a (by simp)
      rcases List.mem_cons.1 he' with rfl | he''
      · omega
      · have h2 := (List.pairwise_cons.1 h.2).1 e' he''
        omega

theorem absorb_spec (i j left k : ℕ) (st : ℕ → Ent K) (r : ℕ) (hl : left < r) :
    let q := absorb i j left k st r
    (∀ n, n ≠ left → q.1 n = st n) ∧ r ≤ q.2 ∧ q.2 ≤ r + k ∧
    group ⟨i, j, (st left).v⟩ ((List.range' r k).map st) =
      if q.2 < r + k then
        ⟨i, j, (q.1 left).v⟩ :: group (st q.2) ((List.range' (q.2 + 1) (r + k - (q.2 + 1))).map st)
      else [⟨i, j, (q.1 left).v⟩] := by
  induction k generalizing st r with
  | zero => simp [absorb, group]
  | succ k ih =>
    unfold absorb
    by_cases h : (st r).r = i ∧ (st r).c = j
    · rw [if_pos h]
      have hne : r ≠ left := by omega
      have := ih (Function.update st left { st left with v := (st left).v + (st r).v }) (r + 1)
        (by omega)
      simp only at this ⊢
      obtain ⟨h1, h2, h3, h4⟩ := this
      have hu : ∀ s n, left < s → (List.range' s n).map
          (Function.update st left { st left with v := (st left).v + (st r).v }) =
          (List.range' s n).map st := by
        intro s n hs
        apply List.map_congr_left
        intro x hx
        have := (List.mem_range'_1.1 hx).1
        rw [Function.update_of_ne (by omega)]
      refine ⟨fun n hn => by rw [h1 n hn, Function.update_of_ne hn], by omega, by omega, ?_⟩
      rw [List.range'_succ, List.map_cons, group, if_pos h]
      rw [hu _ _ (by omega), hu _ _ (by omega), Function.update_self] at h4
      simp only at h4
      rw [h4, Function.update_of_ne (by omega), show r + 1 + k = r + (k + 1) by omega]
    · rw [if_neg h]
      refine ⟨fun _ _ => rfl, le_rfl, by omega, ?_⟩
      rw [List.range'_succ, List.map_cons, group, if_neg h]
      simp only
      rw [if_pos (by omega), show r + (k + 1) - (r + 1) = k by omega]

theorem sumLoop_spec (nnz fuel : ℕ) (st : ℕ → Ent K) (left right : ℕ) (cur : Ent K)
    (hl : left < right) (hr : right ≤ nnz) (hf : nnz < right + fuel) :
    let q := sumLoop nnz fuel st left right cur
    (List.range q.2).map q.1 =
      (List.range left).map st ++ group cur ((List.range' right (nnz - right)).map st) := by
  induction fuel generalizing st left right cur with
  | zero => omega
  | succ fuel ih =>
    unfold sumLoop
    rw [if_pos hr]
    have ha := absorb_spec cur.r cur.c left (nnz - right)
      (Function.update st left { st left with v := cur.v }) right hl
    have hu : ∀ s n, left < s → (List.range' s n).map
        (Function.update st left { st left with v := cur.v }) = (List.range' s n).map st := by
      intro s n hs
      apply List.map_congr_left
      intro x hx
      have := (List.mem_range'_1.1 hx).1
      rw [Function.update_of_ne (by omega)]
    simp only at ha ⊢
    generalize absorb cur.r cur.c left (nnz - right)
      (Function.update st left { st left with v := cur.v }) right = q at ha
    obtain ⟨st1, r1⟩ := q
    simp only at ha ⊢
    obtain ⟨h1, h2, h3, h4⟩ := ha
    have hcur : (⟨cur.r, cur.c, cur.v⟩ : Ent K) = cur := rfl
    rw [Function.update_self, hu _ _ hl, hu _ _ (by omega), hcur,
      show right + (nnz - right) = nnz by omega] at h4
    rw [h4]
    set st2 := Function.update st1 left { st1 left with r := cur.r, c := cur.c } with hst2
    have h2n : ∀ n, n ≠ left → st2 n = st n := by
      intro n hn
      rw [hst2, Function.update_of_ne hn, h1 n hn, Function.update_of_ne hn]
    have hhead : (List.range (left + 1)).map st2 =
        (List.range left).map st ++ [⟨cur.r, cur.c, (st1 left).v⟩] := by
      rw [List.range_succ, List.map_append]
      congr 1
      · apply List.map_congr_left
        intro x hx
        exact h2n x (by have := List.mem_range.1 hx; omega)
      · rw [List.map_singleton, hst2, Function.update_self]
    by_cases hlt : r1 < nnz
    · rw [if_pos hlt, if_pos hlt]
      have := ih st2 (left + 1) (r1 + 1) (st2 r1) (by omega) (by omega) (by omega)
      simp only at this
      rw [this, hhead, h2n r1 (by omega), List.append_assoc, List.singleton_append,
        Function.update_of_ne (by omega)]
      congr 3
      apply List.map_congr_left
      intro x hx
      exact h2n x (by have := (List.mem_range'_1.1 hx).1; omega)
    · rw [if_neg hlt, if_neg hlt]
      cases fuel with
      | zero => exact hhead
      | succ fuel =>
        unfold sumLoop
        rw [if_neg (by omega)]
        exact hhead

theorem sumUpDuplicates_spec (A : Trip K) : sumUpDuplicates A =
    match A.es with
    | [] => A
    | e :: l => { A with es := group e l } := by
  unfold sumUpDuplicates
  cases h : A.es with
  | nil => rfl
  | cons e l =>
    simp only
    congr 1
    have := sumLoop_spec (e :: l).length ((e :: l).length + 1) (fun k => (e :: l).getD k e) 0 1 e
      (by omega) (by simp) (by omega)
    simp only at this
    rw [this, List.range_zero, List.map_nil, List.nil_append]
    congr 1
    apply List.ext_getElem
    · simp
    · intro k h1 h2
      simp only [List.getElem_map, List.getElem_range']
      rw [show 1 + 1 * k = k + 1 by omega]
      simp [List.getD, h2]

/-! ## Loops over the triplets -/

/-- The sum over the triplets of an adding loop on a row: `∑ j < n, A i j * x j`. -/
theorem dense_row_sum_cons (e : Ent K) (l : List (Ent K)) (n i : ℕ) (x : ℕ → K) (hc : e.c < n) :
    ∑ j ∈ range n, dense (e :: l) i j * x j =
      (if e.r = i then e.v * x e.c else 0) + ∑ j ∈ range n, dense l i j * x j := by
  simp only [dense_cons, add_mul, sum_add_distrib]
  congr 1
  rw [sum_eq_single_of_mem e.c (mem_range.2 hc)]
  · by_cases h : e.r = i <;> simp [h]
  · intro b _ hb
    rw [if_neg (fun h => hb h.2.symm), zero_mul]

/-- `∑ k < m, A k i * x k`. -/
theorem dense_col_sum_cons (e : Ent K) (l : List (Ent K)) (m i : ℕ) (x : ℕ → K) (hr : e.r < m) :
    ∑ k ∈ range m, dense (e :: l) k i * x k =
      (if e.c = i then e.v * x e.r else 0) + ∑ k ∈ range m, dense l k i * x k := by
  simp only [dense_cons, add_mul, sum_add_distrib]
  congr 1
  rw [sum_eq_single_of_mem e.r (mem_range.2 hr)]
  · by_cases h : e.c = i <;> simp [h]
  · intro b _ hb
    rw [if_neg (fun h => hb h.1.symm), zero_mul]

theorem spTimesVec_fold (m n : ℕ) (alpha : K) (x : ℕ → K) (es : List (Ent K))
    (hes : ∀ e ∈ es, e.r < m ∧ e.c < n) (y : ℕ → K) :
    ∃ y', es.foldlM (fun (y : ℕ → K) e =>
      if e.r < m ∧ e.c < n then some (Function.update y e.r (y e.r + alpha * x e.c * e.v))
      else none) y = some y' ∧ (∀ i, y' i = y i + alpha * ∑ j ∈ range n, dense es i j * x j) := by
  induction es generalizing y with
  | nil => exact ⟨y, rfl, by simp⟩
  | cons e es ih =>
    rw [List.foldlM_cons, if_pos (hes e (by simp))]
    obtain ⟨y', h1, h2⟩ := ih (fun a ha => hes a (by simp [ha]))
      (Function.update y e.r (y e.r + alpha * x e.c * e.v))
    refine ⟨y', h1, fun i => ?_⟩
    rw [h2, dense_row_sum_cons e es n i x (hes e (by simp)).2]
    by_cases h : e.r = i
    · subst h; simp; ring
    · rw [Function.update_of_ne (fun h' => h h'.symm), if_neg h, zero_add]

theorem bump_fold (n i : ℕ) (f : ℕ → K) (W : CMat K) :
    (List.range n).foldl (fun W j => W.bump i j (f j)) W =
      { W with a := fun p q => if p = i ∧ q < n then W.a p q + f q else W.a p q } := by
  induction n with
  | zero => simp
  | succ n ih =>
    rw [List.range_succ, List.foldl_append, ih]
    simp only [List.foldl_cons, List.foldl_nil, CMat.bump]
    congr 1
    funext p q
    by_cases hp : p = i
    · by_cases hq : q = n
      · subst hq; simp [hp]
      · have : q < n + 1 ↔ q < n := by omega
        simp [hp, hq, this]
    · simp [hp]

theorem spTransTimesMat_fold (alpha : K) (X : CMat K) (es : List (Ent K)) (W : CMat K)
    (hes : ∀ e ∈ es, e.c < W.m ∧ e.r < X.m) :
    ∃ W', es.foldlM (fun (W : CMat K) e =>
      if e.c < W.m ∧ e.r < X.m then
        some ((List.range X.n).foldl (fun W j => W.bump e.c j (alpha * e.v * X.a e.r j)) W)
      else none) W = some W' ∧ W'.m = W.m ∧ W'.n = W.n ∧
      ∀ i j, j < X.n → W'.a i j = W.a i j + alpha * ∑ k ∈ range X.m, dense es k i * X.a k j := by
  induction es generalizing W with
  | nil => exact ⟨W, rfl, rfl, rfl, by simp⟩
  | cons e es ih =>
    rw [List.foldlM_cons, if_pos (hes e (by simp)), bump_fold]
    obtain ⟨W', h1, h2, h3, h4⟩ := ih
      { W with a := fun p q => if p = e.c ∧ q < X.n then W.a p q + alpha * e.v * X.a e.r q
        else W.a p q } (fun a ha => hes a (by simp [ha]))
    refine ⟨W', h1, h2, h3, fun i j hj => ?_⟩
    rw [h4 i j hj, dense_col_sum_cons e es X.m i (fun k => X.a k j) (hes e (by simp)).2]
    simp only
    by_cases h : i = e.c
    · rw [if_pos ⟨h, hj⟩, if_pos h.symm]; ring
    · rw [if_neg (fun h' => h h'.1), if_neg (fun h' => h h'.symm), zero_add]

theorem addSparse_fold (alpha : K) (P : ℕ → ℕ → Prop) [∀ i j, Decidable (P i j)] (es : List (Ent K))
    (A : CMat K) (hes : ∀ e ∈ es, P e.r e.c ∧ e.r < A.m ∧ e.c < A.n) :
    ∃ A', es.foldlM (fun (A : CMat K) e =>
      if P e.r e.c ∧ e.r < A.m ∧ e.c < A.n then some (A.bump e.r e.c (alpha * e.v)) else none) A =
        some A' ∧ A'.m = A.m ∧ A'.n = A.n ∧ ∀ i j, A'.a i j = A.a i j + alpha * dense es i j := by
  induction es generalizing A with
  | nil => exact ⟨A, rfl, rfl, rfl, by simp⟩
  | cons e es ih =>
    rw [List.foldlM_cons, if_pos (hes e (by simp))]
    obtain ⟨A', h1, h2, h3, h4⟩ := ih (A.bump e.r e.c (alpha * e.v))
      (fun a ha => hes a (by simp [ha]))
    refine ⟨A', h1, h2, h3, fun i j => ?_⟩
    rw [h4, dense_cons]
    simp only [CMat.bump]
    by_cases h : e.r = i ∧ e.c = j
    · rw [if_pos h, if_pos ⟨h.1.symm, h.2.symm⟩]; ring
    · rw [if_neg h, if_neg (fun h' => h ⟨h'.1.symm, h'.2.symm⟩), zero_add]

/-! ## Several right-hand sides -/

theorem skipRow_tl_self {l : List (Ent K)} (hl : SSorted l) (row c : ℕ) :
    skipRow row (tl l row c) = tl l row c := by
  unfold skipRow
  rw [dropWhile_eq_filter]
  · rw [List.filter_eq_self]
    intro e he
    have := (List.mem_filter.1 he).2
    simp only [at', decide_eq_true_eq, Bool.not_eq_true', decide_eq_false_iff_not] at this ⊢
    omega
  · refine (hl.filter _).imp ?_
    intro a b hab
    simp only [decide_eq_true_eq]
    omega

theorem colRhs_spec {l : List (Ent K)} (hl : SSorted l) (col k row r c : ℕ)
    (h : r < row ∨ r = row ∧ c ≤ col) :
    colRhs col k row (tl l r c) =
      ((List.range' row k).map fun i => dense l i col, if k = 0 then tl l r c else tl l row col) := by
  induction k generalizing row r c with
  | zero => rfl
  | succ k ih =>
    have hskip : skipCol row col (skipRow row (tl l r c)) = tl l row col := by
      rcases h with h | ⟨rfl, h⟩
      · rw [skipRow_tl hl (Or.inl h), skipCol_tl hl (Nat.zero_le _)]
      · rw [skipRow_tl_self hl, skipCol_tl hl h]
    unfold colRhs
    simp only [hskip]
    rw [ih (row + 1) row col (Or.inl (by omega)), List.range'_succ, List.map_cons]
    simp only [Nat.add_eq_zero_iff, one_ne_zero, and_false, if_false]
    congr 2
    rcases tl_step hl row col with h' | h'
    · rw [h']; simp
    · have h2 := h'.2.2
      generalize tl l row col = t at h2
      cases t with
      | nil => exact h'.1.symm
      | cons e t => simp only; rw [if_neg (h2 e (by simp)), h'.1]

/-- The right-hand side `solve` builds for a column: zero from `n` on. -/
def rhsCol (n : ℕ) (l : List (Ent K)) (col : ℕ) : ℕ → K := fun i => if i < n then dense l i col else 0

theorem getD_range'_map (n : ℕ) (f : ℕ → K) :
    (fun i => ((List.range' 0 n).map f).getD i 0) = fun i => if i < n then f i else 0 := by
  funext i
  by_cases h : i < n
  · simp [List.getD, h]
  · simp [List.getD, h]

theorem solveCols_spec (U : Umf K) {n : ℕ} (hn : n ≠ 0) (A : ℕ → ℕ → K) {l : List (Ent K)}
    (hl : SSorted l) (k col c : ℕ) (hc : c ≤ col) (X : CMat K)
    (hU : ∀ q, 0 ≤ (U.solve n A (rhsCol n l q)).1) :
    solveCols U n A k col (tl l 0 c) X =
      (true, { X with a := fun i j => if i < n ∧ col ≤ j ∧ j < col + k
        then (U.solve n A (rhsCol n l j)).2 i else X.a i j }) := by
  induction k generalizing col c X with
  | zero =>
    have : X = { X with a := fun i j => if i < n ∧ col ≤ j ∧ j < col + 0
        then (U.solve n A (rhsCol n l j)).2 i else X.a i j } := by
      obtain ⟨m, n', a⟩ := X
      congr 1
      funext i j
      rw [if_neg (by omega)]
    rw [← this]
    rfl
  | succ k ih =>
    unfold solveCols
    rw [colRhs_spec hl col n 0 0 c (Or.inr ⟨rfl, hc⟩)]
    simp only
    rw [getD_range'_map, if_neg hn]
    have hs := hU col
    rw [show (fun i => if i < n then dense l i col else 0) = rhsCol n l col from rfl,
      if_neg (by omega), ih (col + 1) col (by omega)]
    congr 2
    funext i j
    simp only
    by_cases h : j = col
    · subst h
      by_cases hi : i < n
      · rw [if_neg (by omega), if_pos ⟨hi, rfl⟩, if_pos ⟨hi, le_rfl, by omega⟩]
      · rw [if_neg (by omega), if_neg (by omega), if_neg (by omega)]
    · by_cases h' : i < n ∧ col ≤ j ∧ j < col + (k + 1)
      · rw [if_pos (by omega), if_pos h']
      · rw [if_neg (by omega), if_neg (by omega), if_neg h']

/-! ## Sums over an index list -/

theorem sum_list_range (l : List ℕ) (f : ℕ → K) :
    (l.map f).sum = ∑ k ∈ range l.length, f (l.getD k 0) := by
  rw [← sum_range_map]
  congr 1
  apply List.ext_getElem
  · simp
  · intro k h1 h2
    simp only [List.length_map] at h1
    simp [List.getD, h1]

/-- A sum over all nodes, split along the two lists of nodes. -/
theorem sum_split {N : ℕ} {L L' : List ℕ} (h : (L ++ L').Perm (List.range N)) (f : ℕ → K) :
    ∑ j ∈ range N, f j =
      ∑ k ∈ range L.length, f (L.getD k 0) + ∑ k ∈ range L'.length, f (L'.getD k 0) := by
  rw [← sum_range_map, ← (h.map f).sum_eq, List.map_append, List.sum_append, sum_list_range,
    sum_list_range]

/-- A square system with a solution for every right-hand side has only one. -/
theorem inj_of_solves {n : ℕ} (A : ℕ → ℕ → K)
    (h : ∀ b : ℕ → K, ∃ x : ℕ → K, ∀ i < n, ∑ j ∈ range n, A i j * x j = b i) (x : ℕ → K)
    (hx : ∀ i < n, ∑ j ∈ range n, A i j * x j = 0) : ∀ i < n, x i = 0 := by
  let M : Matrix (Fin n) (Fin n) K := fun i j => A i j
  have key : ∀ (y : ℕ → K) (i : Fin n), M.mulVec (fun j => y j) i = ∑ j ∈ range n, A i j * y j := by
    intro y i
    rw [← Fin.sum_univ_eq_sum_range (fun j => A i j * y j)]
    rfl
  have hs : Function.Surjective M.mulVec := by
    intro b
    obtain ⟨y, hy⟩ := h fun i => if hi : i < n then b ⟨i, hi⟩ else 0
    refine ⟨fun j => y j, ?_⟩
    funext i
    rw [key, hy i i.2]
    simp
  have hi : Function.Injective M.mulVec :=
    Matrix.mulVec_injective_iff_isUnit.2 (Matrix.mulVec_surjective_iff_isUnit.1 hs)
  intro i hin
  have h0 : M.mulVec (fun j => x j) = M.mulVec 0 := by
    funext k
    rw [key, hx k k.2]
    simp
  exact congrFun (hi h0) ⟨i, hin⟩

end Hiop.Kron
