import Verif.Kron.Lemmas
import Mathlib.Tactic.NormNum
import Mathlib.Data.Rat.Defs
import Mathlib.Algebra.Field.Rat
import Mathlib.Data.List.Sort

/-!
# C61 — complex matrices and the Kron reduction

`K` is any field (in the program: complex numbers with exact arithmetic). A triplet matrix means the
matrix `dense es i j`: the sum of the values stored at `(i, j)`.

The specification in `Lemmas.lean`: `SSorted` (ordered by rows, then columns, without duplicates),
`Sorts` (what `std::sort` promises).
-/

set_option linter.unusedSectionVars false

namespace Hiop.Kron

open Hiop.Sparse Finset

variable {K : Type*} [Field K] [DecidableEq K]

/-! ## Specification -/

/-- All triplets lie inside the matrix. -/
def InRange (A : Trip K) : Prop := ∀ e ∈ A.es, e.r < A.m ∧ e.c < A.n

/-- `B` is the matrix of the given rows and columns of `f`. -/
def IsSlice (B : Trip K) (f : ℕ → ℕ → K) (rows cols : List ℕ) : Prop :=
  B.m = rows.length ∧ B.n = cols.length ∧
    ∀ i < rows.length, ∀ j < cols.length, dense B.es i j = f (rows.getD i 0) (cols.getD j 0)

/-- The symmetric matrix of which the upper triangle is given. -/
def symd (f : ℕ → ℕ → K) (i j : ℕ) : K := if i ≤ j then f i j else f j i

/-- Increasing indexes below a bound. -/
def Idx (N : ℕ) (l : List ℕ) : Prop := (∀ i ∈ l, i < N) ∧ l.Pairwise (· < ·)

/-- The solver answers without an error and solves the system with matrix `A` of size `n`. -/
def Solves (U : Umf K) (n : ℕ) (A : ℕ → ℕ → K) : Prop :=
  0 ≤ U.factor n A ∧ ∀ b : ℕ → K, 0 ≤ (U.solve n A b).1 ∧
    ∀ i < n, ∑ j ∈ range n, A i j * (U.solve n A b).2 j = b i

/-- The submatrix of `f` for a list of nodes. -/
def sub (f : ℕ → ℕ → K) (l : List ℕ) (i j : ℕ) : K :=
  if i < l.length ∧ j < l.length then f (l.getD i 0) (l.getD j 0) else 0

/-! ## Sorting and adding up -/

/-- `sort_indexes` followed by `sum_up_duplicates`: the same matrix, ordered and without duplicates. -/
theorem C61_sort_sum {srt : List (Ent K) → List (Ent K)} (hs : Sorts srt) (A : Trip K) :
    let B := sumUpDuplicates (sortIndexes srt A)
    B.m = A.m ∧ B.n = A.n ∧ SSorted B.es ∧ (∀ i j, dense B.es i j = dense A.es i j) ∧
      (InRange A → InRange B) := by
  have hp := (hs A.es).1
  have hw := (hs A.es).2
  simp only [sumUpDuplicates_spec, sortIndexes]
  cases h : srt A.es with
  | nil =>
    simp only
    refine ⟨trivial, trivial, List.Pairwise.nil, fun i j => ?_, fun _ e he => ?_⟩
    · rw [← dense_perm hp, h]
    · simp at he
  | cons e l =>
    rw [h] at hp hw
    refine ⟨rfl, rfl, group_sorted l e hw, fun i j => ?_, fun hA e' he' => ?_⟩
    · simp only
      rw [dense_group, dense_perm hp]
    · obtain ⟨e'', h1, h2, h3⟩ := group_mem l e he'
      have := hA e'' (hp.mem_iff.1 h1)
      simp only
      rw [← h2, ← h3]
      exact this

/-! ## Slices -/

theorem idxOk_of {N : ℕ} {l : List ℕ} (h : Idx N l) : idxOk N l = true := by
  unfold idxOk
  simp only [Bool.and_eq_true, List.all_eq_true, decide_eq_true_eq]
  exact h

theorem sliceOk_of {A : Trip K} {rows cols : List ℕ} (hr : Idx A.m rows) (hc : Idx A.n cols) :
    sliceOk A rows cols = true := by
  unfold sliceOk
  rw [idxOk_of hr, idxOk_of hc]
  simp

/-- `new_slice` of an ordered matrix without duplicates succeeds on increasing indexes in range; the
result is the submatrix, again ordered, without duplicates and in range. -/
theorem C61_new_slice {srt : List (Ent K) → List (Ent K)} (hs : Sorts srt) {A : Trip K}
    (hA : SSorted A.es) {rows cols : List ℕ} (hr : Idx A.m rows) (hc : Idx A.n cols) :
    ∃ B, newSlice srt A rows cols = some B ∧ IsSlice B (dense A.es) rows cols ∧ SSorted B.es ∧
      InRange B := by
  unfold newSlice
  rw [if_pos (sliceOk_of hr hc)]
  simp only [if_true, sortIndexes]
  refine ⟨_, rfl, ⟨rfl, rfl, fun i hi j hj => ?_⟩, ?_, fun e he => ?_⟩
  · rw [dense_perm (hs _).1, findRows_dense hA _ hr.2 hc.2, if_pos ⟨hi, hj, rfl⟩]
  · exact SSorted.srt hs (findRows_sorted hA _ hr.2 hc.2).ne
  · have := findRows_mem hA _ hr.2 hc.2 ((hs _).1.mem_iff.1 he)
    exact ⟨this.1, this.2.1⟩

/-- Outside the slice the new matrix has no entries. -/
theorem newSlice_dense {srt : List (Ent K) → List (Ent K)} (hs : Sorts srt) {A : Trip K}
    (hA : SSorted A.es) {rows cols : List ℕ} (hr : Idx A.m rows) (hc : Idx A.n cols) {B : Trip K}
    (h : newSlice srt A rows cols = some B) (i j : ℕ) : dense B.es i j =
      if i < rows.length ∧ j < cols.length then dense A.es (rows.getD i 0) (cols.getD j 0) else 0 := by
  unfold newSlice at h
  rw [if_pos (sliceOk_of hr hc)] at h
  simp only [if_true, sortIndexes, Option.some.injEq] at h
  subst h
  simp only
  rw [dense_perm (hs _).1, findRows_dense hA _ hr.2 hc.2]
  simp

/-- Indexes out of range or not increasing: an assertion fails. -/
theorem C61_new_slice_rejects (srt : List (Ent K) → List (Ent K)) (A : Trip K) {rows cols : List ℕ}
    (hne : rows ≠ []) (h : ¬ (Idx A.m rows ∧ Idx A.n cols)) : newSlice srt A rows cols = none := by
  unfold newSlice
  rw [if_neg]
  intro hok
  apply h
  unfold sliceOk at hok
  have hemp : rows.isEmpty = false := by cases rows <;> simp_all
  rw [hemp] at hok
  simp only [idxOk, Bool.and_eq_true, List.all_eq_true, decide_eq_true_eq, Bool.false_or] at hok
  exact ⟨hok.1, hok.2⟩

/-- `new_sliceFromSymToSym`: the upper triangle of the submatrix of a symmetric matrix of which the
upper triangle is stored. -/
theorem C61_slice_sym_to_sym {A : Trip K} (hA : SSorted A.es) (hsq : A.m = A.n) {idx : List ℕ}
    (hi : Idx A.m idx) :
    ∃ B, newSliceSymToSym A idx = some B ∧ B.m = idx.length ∧ B.n = idx.length ∧ SSorted B.es ∧
      (∀ e ∈ B.es, e.r ≤ e.c ∧ e.c < idx.length) ∧
      ∀ i < idx.length, ∀ j < idx.length,
        symd (dense B.es) i j = symd (dense A.es) (idx.getD i 0) (idx.getD j 0) := by
  have hmono : ∀ i j, i < idx.length → j < idx.length → i < j → idx.getD i 0 < idx.getD j 0 := by
    intro i j h1 h2 h12
    have e1 : idx.getD i 0 = idx[i] := by simp [List.getD, h1]
    have e2 : idx.getD j 0 = idx[j] := by simp [List.getD, h2]
    rw [e1, e2]
    exact List.pairwise_iff_getElem.1 hi.2 i j h1 h2 h12
  unfold newSliceSymToSym
  rw [if_pos (by
    rw [idxOk_of hi]
    simp only [Bool.true_and, List.all_eq_true, decide_eq_true_eq]
    exact fun x hx => hsq ▸ hi.1 x hx)]
  refine ⟨_, rfl, rfl, rfl, findRows_sorted hA _ hi.2 hi.2, fun e he => ?_, fun i h1 j h2 => ?_⟩
  · have := findRows_mem hA _ hi.2 hi.2 he
    simp only [decide_eq_false_iff_not] at this
    omega
  · unfold symd
    simp only [findRows_dense hA _ hi.2 hi.2, decide_eq_false_iff_not]
    by_cases h : i ≤ j
    · rw [if_pos h, if_pos (by omega)]
      rcases Nat.lt_or_eq_of_le h with h' | rfl
      · rw [if_pos (hmono i j h1 h2 h').le]
      · rw [if_pos le_rfl]
    · rw [if_neg h, if_pos (by omega), if_neg (by have := hmono j i h2 h1 (by omega); omega)]

/-- `new_sliceFromSym`: the submatrix of a symmetric matrix of which the upper triangle is stored.
Missing for the full property: the entries stored at `(rows[ki], cols[kj])` with `kj < ki`, which the
loop that fills the arrays passes over (`C61_slice_from_sym_false`). -/
theorem C61_slice_from_sym_partial {srt : List (Ent K) → List (Ent K)} (hs : Sorts srt)
    (junk : ℕ → Ent K) {A : Trip K} (hA : SSorted A.es) (hsq : A.m = A.n)
    {rows cols : List ℕ} (hr : Idx A.m rows) (hc : Idx A.m cols)
    (hpass : ∀ ki < rows.length, ∀ kj < ki, kj < cols.length →
      ∀ e ∈ A.es, ¬ (e.r = rows.getD ki 0 ∧ e.c = cols.getD kj 0)) :
    ∃ B, newSliceFromSym srt junk A rows cols = some B ∧
      IsSlice B (symd (dense A.es)) rows cols ∧ InRange B := by
  have hfill : findRows (fun row col => decide (col.2 < row.2) || decide (col.1 < row.1))
      (numbered cols) (numbered rows) A.es =
      findRows (fun row col => decide (col.2 < row.2)) (numbered cols) (numbered rows) A.es := by
    have h1 := findRows_spec hA (fun row col => decide (col.2 < row.2) || decide (col.1 < row.1))
      (numbered cols) (numbered_pairwise hc.2) (numbered rows) (numbered_pairwise hr.2) 0 0
      (fun p _ => by omega)
    have h2 := findRows_spec hA (fun row col => decide (col.2 < row.2))
      (numbered cols) (numbered_pairwise hc.2) (numbered rows) (numbered_pairwise hr.2) 0 0
      (fun p _ => by omega)
    rw [tl_zero] at h1 h2
    rw [h1, h2]
    apply List.flatMap_congr
    intro p hp
    congr 1
    apply List.filter_congr
    intro q hq
    simp only [numbered, List.mem_map, List.mem_range] at hp hq
    obtain ⟨ki, hki, rfl⟩ := hp
    obtain ⟨kj, hkj, rfl⟩ := hq
    simp only
    by_cases hlt : kj < ki
    · have : has A.es (rows.getD ki 0) (cols.getD kj 0) = false := by
        unfold has
        rw [List.any_eq_false]
        intro e he
        simpa using hpass ki hki kj hlt hkj e he
      rw [this]
      simp
    · simp [hlt]
  unfold newSliceFromSym
  rw [if_pos (by
    rw [sliceOk_of hr (hsq ▸ hc)]
    simp only [Bool.true_and, Bool.and_eq_true, List.all_eq_true, decide_eq_true_eq, Bool.or_eq_true]
    exact ⟨hc.1, Or.inr fun x hx => hsq ▸ hr.1 x hx⟩)]
  simp only [hfill, List.length_append, le_refl, if_true, Nat.sub_self, List.range_zero,
    List.map_nil, List.append_nil, sortIndexes]
  refine ⟨_, rfl, ⟨rfl, rfl, fun i hi j hj => ?_⟩, fun e he => ?_⟩
  · rw [dense_perm (hs _).1, dense_append, dense_swap, findRows_dense hA _ hr.2 hc.2,
      findRows_dense hA _ hc.2 hr.2]
    simp only [hi, hj, true_and, decide_eq_false_iff_not]
    unfold symd
    by_cases h : rows.getD i 0 ≤ cols.getD j 0
    · rw [if_pos (by omega), if_neg (by omega), if_pos h, add_zero]
    · rw [if_neg (by omega), if_pos (by omega), if_neg h, zero_add]
  · have he := (hs _).1.mem_iff.1 he
    simp only
    rcases List.mem_append.1 he with he | he
    · have := findRows_mem hA _ hr.2 hc.2 he
      exact ⟨this.1, this.2.1⟩
    · obtain ⟨e', he', rfl⟩ := List.mem_map.1 he
      have := findRows_mem hA _ hc.2 hr.2 he'
      exact ⟨this.2.1, this.1⟩

/-! ## Products -/

/-- `timesVec` of a sparse matrix: `y = beta*y + alpha*A*x`. -/
theorem C61_sparse_times_vec {A : Trip K} (hA : InRange A) (beta alpha : K) (y x : ℕ → K) :
    ∃ y', spTimesVec A beta y alpha x = some y' ∧
      (∀ i < A.m, y' i = beta * y i + alpha * ∑ j ∈ range A.n, dense A.es i j * x j) ∧
      ∀ i, A.m ≤ i → y' i = y i := by
  unfold spTimesVec
  obtain ⟨y', h1, h2⟩ := spTimesVec_fold A.m A.n alpha x A.es hA
    (fun i => if i < A.m then (if beta ≠ 0 then y i * beta else 0) else y i)
  refine ⟨y', h1, fun i hi => ?_, fun i hi => ?_⟩
  · rw [h2, if_pos hi]
    by_cases hb : beta = 0
    · simp [hb]
    · rw [if_pos hb, mul_comm]
  · rw [h2, if_neg (by omega)]
    have : ∀ j, dense A.es i j = 0 := fun j => dense_eq_zero fun e he h => by
      have := (hA e he).1; omega
    simp [this]

/-- `transTimesMat` of a sparse matrix: `W = beta*W + alpha*A^T*X`. -/
theorem C61_sparse_trans_times_mat {A : Trip K} (hA : InRange A) (beta alpha : K) {W X : CMat K}
    (h1 : A.m = X.m) (h2 : A.n = W.m) (h3 : W.n = X.n) :
    ∃ W', spTransTimesMat A beta W alpha X = some W' ∧ W'.m = W.m ∧ W'.n = W.n ∧
      ∀ i < W.m, ∀ j < W.n,
        W'.a i j = beta * W.a i j + alpha * ∑ k ∈ range A.m, dense A.es k i * X.a k j := by
  unfold spTransTimesMat
  rw [if_pos ⟨h1, h2, h3⟩]
  obtain ⟨W', g1, g2, g3, g4⟩ := spTransTimesMat_fold alpha X A.es
    { W with a := fun i j => if i < W.m ∧ j < W.n then
      (if beta = 0 then 0 else beta * W.a i j) else W.a i j }
    (fun e he => by have := hA e he; simp only; omega)
  refine ⟨W', g1, g2, g3, fun i hi j hj => ?_⟩
  rw [g4 i j (by omega), h1]
  simp only [hi, hj, and_self, if_true]
  congr 1
  split
  · next h => rw [h, zero_mul]
  · rfl

/-- `addSparseMatrix`: `this += alpha*X`. -/
theorem C61_add_sparse {A : CMat K} {X : Trip K} (hX : InRange X) (alpha : K) (h1 : A.m = A.n)
    (h2 : X.m = X.n) (h3 : A.m = X.m) :
    ∃ A', A.addSparse alpha X = some A' ∧ A'.m = A.m ∧ A'.n = A.n ∧
      ∀ i j, A'.a i j = A.a i j + alpha * dense X.es i j := by
  unfold CMat.addSparse
  rw [if_pos ⟨h1, h2, h3⟩]
  split
  · next h => exact ⟨A, rfl, rfl, rfl, by simp [h]⟩
  · have := addSparse_fold alpha (fun _ _ => True) X.es A
      (fun e he => ⟨trivial, by have := hX e he; omega, by have := hX e he; omega⟩)
    simpa only [true_and] using this

/-- `addSparseSymUpperTriangleToSymDenseMatrixUpperTriangle`: the entries stored in the upper
triangle are added, the lower triangle does not change. -/
theorem C61_add_sparse_upper {A : CMat K} {X : Trip K} (hX : InRange X) (hu : ∀ e ∈ X.es, e.r ≤ e.c)
    (alpha : K) (h1 : A.m = A.n) (h2 : X.m = X.n) (h3 : A.m = X.m) :
    ∃ A', A.addSparseUpper alpha X = some A' ∧ A'.m = A.m ∧ A'.n = A.n ∧
      (∀ i j, A'.a i j = A.a i j + alpha * dense X.es i j) ∧ ∀ i j, j < i → A'.a i j = A.a i j := by
  have hlow : ∀ i j, j < i → dense X.es i j = 0 := fun i j hij => dense_eq_zero fun e he h => by
    have := hu e he; omega
  unfold CMat.addSparseUpper
  rw [if_pos ⟨h1, h2, h3⟩]
  split
  · next h => exact ⟨A, rfl, rfl, rfl, by simp [h], fun _ _ _ => rfl⟩
  · obtain ⟨A', g1, g2, g3, g4⟩ := addSparse_fold alpha (fun i j => i ≤ j) X.es A
      (fun e he => ⟨hu e he, by have := hX e he; omega, by have := hX e he; omega⟩)
    exact ⟨A', g1, g2, g3, g4, fun i j hij => by rw [g4, hlow i j hij, mul_zero, add_zero]⟩

/-- `timesVec` of a dense matrix with columns: `y = beta*y + alpha*A*x`. Missing for the full property:
matrices without columns, where `y` is not multiplied by `beta` (`C61_dense_times_vec_false`). -/
theorem C61_dense_times_vec_partial {A : CMat K} (hn : A.n ≠ 0) (beta alpha : K) (y x : ℕ → K) :
    (∀ i < A.m, A.timesVec beta y alpha x i = beta * y i + alpha * ∑ j ∈ range A.n, A.a i j * x j) ∧
      ∀ i, A.m ≤ i → A.timesVec beta y alpha x i = y i := by
  unfold CMat.timesVec
  refine ⟨fun i hi => ?_, fun i hi => ?_⟩
  · rw [if_pos ⟨by omega, hn⟩]
    simp only [hi, if_true]
    ring
  · by_cases hm : A.m = 0
    · simp [hm]
    · rw [if_pos ⟨hm, hn⟩, if_neg (by omega)]

/-! ## Several right-hand sides -/

/-- `solve(B, X)`: with an exact solver, `X` satisfies `A*X = B`. -/
theorem C61_solve {U : Umf K} {A B : Trip K} {X : CMat K} (hB : SSorted B.es)
    (h1 : X.n = B.n) (h2 : A.n = B.m) (h3 : A.n = X.m) (hU : Solves U A.n (dense A.es)) :
    ∃ X', umfSolve U A B X = some (true, X') ∧ X'.m = X.m ∧ X'.n = X.n ∧
      ∀ i < A.n, ∀ j < X.n, ∑ k ∈ range A.n, dense A.es i k * X'.a k j = dense B.es i j := by
  unfold umfSolve
  rw [if_pos ⟨h1, h2, h3⟩]
  by_cases hn : A.n = 0
  · rw [if_pos hn]
    exact ⟨X, rfl, rfl, rfl, fun i hi => by omega⟩
  · rw [if_neg hn]
    by_cases hx : X.n = 0
    · rw [if_pos hx]
      exact ⟨X, rfl, rfl, rfl, fun i _ j hj => by omega⟩
    · rw [if_neg hx]
      have := solveCols_spec U hn (dense A.es) hB X.n 0 0 le_rfl X fun q => (hU.2 _).1
      rw [tl_zero] at this
      rw [this]
      refine ⟨_, rfl, rfl, rfl, fun i hi j hj => ?_⟩
      have hs := (hU.2 (rhsCol A.n B.es j)).2 i hi
      rw [rhsCol, if_pos hi] at hs
      rw [← hs]
      apply sum_congr rfl
      intro k hk
      simp only
      rw [if_pos ⟨mem_range.1 hk, Nat.zero_le _, by omega⟩]

/-! ## The reduction -/

/-- The current at node `r` for the voltages `V`: the row `r` of `Y*V`. -/
def current (Y : ℕ → ℕ → K) (N : ℕ) (V : ℕ → K) (r : ℕ) : K := ∑ j ∈ range N, Y r j * V j

/-- **The Kron reduction.** For an ordered symmetric matrix, nodes split into nonauxiliary and auxiliary
ones, and a solver that solves with the auxiliary block: `go` succeeds. For every vector of voltages:
the currents at all auxiliary nodes are zero exactly if the auxiliary voltages are those that
`apply_nonaux_to_aux` computes from the nonauxiliary ones; and then the currents at the nonauxiliary nodes
are the reduced matrix times the nonauxiliary voltages. -/
theorem C61_kron {U : Umf K} {srt : List (Ent K) → List (Ent K)} (hs : Sorts srt) {N : ℕ}
    {nonaux aux : List ℕ} {Y : Trip K} {red : CMat K} (hm : Y.m = N) (hn : Y.n = N)
    (hY : SSorted Y.es) (hsym : ∀ i < N, ∀ j < N, dense Y.es i j = dense Y.es j i)
    (hnon : nonaux.Pairwise (· < ·)) (haux : aux.Pairwise (· < ·))
    (hperm : (nonaux ++ aux).Perm (List.range N)) (hne : nonaux ≠ [])
    (hrm : red.m = nonaux.length) (hrn : red.n = nonaux.length)
    (hU : Solves U aux.length (sub (dense Y.es) aux)) :
    ∃ mp red', go U srt none nonaux aux Y red = some (true, some mp, red') ∧
      red'.m = nonaux.length ∧ red'.n = nonaux.length ∧
      ∀ (V : ℕ → K) (vin vout : List K), vin.length = nonaux.length → vout.length = aux.length →
        (∀ k < nonaux.length, vin.getD k 0 = V (nonaux.getD k 0)) →
        ∃ vaux, apply (some mp) vin vout = some vaux ∧ vaux.length = aux.length ∧
          ((∀ k < aux.length, current (dense Y.es) N V (aux.getD k 0) = 0) ↔
            ∀ k < aux.length, V (aux.getD k 0) = vaux.getD k 0) ∧
          ((∀ k < aux.length, current (dense Y.es) N V (aux.getD k 0) = 0) →
            ∀ i < nonaux.length, current (dense Y.es) N V (nonaux.getD i 0) =
              ∑ k ∈ range nonaux.length, red'.a i k * vin.getD k 0) := by
  have hmemN : ∀ x ∈ nonaux ++ aux, x < N := fun x hx => List.mem_range.1 (hperm.mem_iff.1 hx)
  have hin : Idx N nonaux := ⟨fun x hx => hmemN x (by simp [hx]), hnon⟩
  have hia : Idx N aux := ⟨fun x hx => hmemN x (by simp [hx]), haux⟩
  have hgetn : ∀ k < nonaux.length, nonaux.getD k 0 < N := fun k hk => hin.1 _ (by
    have : nonaux.getD k 0 = nonaux[k] := by simp [List.getD, hk]
    rw [this]; exact List.getElem_mem hk)
  have hgeta : ∀ k < aux.length, aux.getD k 0 < N := fun k hk => hia.1 _ (by
    have : aux.getD k 0 = aux[k] := by simp [List.getD, hk]
    rw [this]; exact List.getElem_mem hk)
  obtain ⟨Yaa, haa, saa, -, raa⟩ := C61_new_slice hs hY (rows := nonaux) (cols := nonaux)
    (hm ▸ hin) (hn ▸ hin)
  obtain ⟨Ybb, hbb, sbb, -, -⟩ := C61_new_slice hs hY (rows := aux) (cols := aux)
    (hm ▸ hia) (hn ▸ hia)
  obtain ⟨Yba, hba, sba, oba, rba⟩ := C61_new_slice hs hY (rows := aux) (cols := nonaux)
    (hm ▸ hia) (hn ▸ hin)
  have hdbb : dense Ybb.es = sub (dense Y.es) aux := by
    funext i j
    rw [newSlice_dense hs hY (hm ▸ hia) (hn ▸ hia) hbb]
    rfl
  unfold go
  rw [haa, hbb, hba]
  simp only [Option.bind_some]
  have hmc : 0 ≤ matrixChanged U Ybb := by
    unfold matrixChanged
    split
    · exact le_rfl
    · rw [if_neg (by rw [hdbb, sbb.2.1]; have := hU.1; omega)]
  rw [if_pos hmc]
  simp only [Option.isSome_none, Bool.false_eq_true, if_false]
  obtain ⟨X', hX, hXm, hXn, hXs⟩ := C61_solve (U := U) (A := Ybb) (B := Yba)
    (X := ⟨Yba.m, Yba.n, fun _ _ => 0⟩) oba rfl (by rw [sbb.2.1, sba.1]) (by rw [sbb.2.1, sba.1])
    (by rw [hdbb, sbb.2.1]; exact hU)
  simp only [sba.1, sba.2.1] at hXm hXn
  rw [hX]
  simp only [Option.bind_some]
  obtain ⟨W', hW, hWm, hWn, hWs⟩ := C61_sparse_trans_times_mat rba (0 : K) 1 (W := red)
    (X := X'.negate) (by rw [sba.1]; exact hXm.symm) (by rw [sba.2.1, hrm]) (by rw [hrn]; exact hXn.symm)
  rw [hW]
  simp only [Option.bind_some]
  obtain ⟨R', hR, hRm, hRn, hRs⟩ := C61_add_sparse (A := W') raa (1 : K) (by rw [hWm, hWn, hrm, hrn])
    (by rw [saa.1, saa.2.1]) (by rw [hWm, hrm, saa.1])
  rw [hR]
  refine ⟨X'.negate, R', rfl, by rw [hRm, hWm, hrm], by rw [hRn, hWn, hrn], ?_⟩
  intro V vin vout hvin hvout hV
  have hnz : X'.negate.n ≠ 0 := by
    simp only [CMat.negate, hXn]
    exact fun h => hne (List.length_eq_zero_iff.1 h)
  -- the auxiliary voltages
  have happ : apply (some X'.negate) vin vout = some ((List.range vout.length).map
      (X'.negate.timesVec 0 (fun i => vout.getD i 0) 1 (fun i => vin.getD i 0))) := by
    unfold apply
    simp only
    rw [if_pos ⟨by rw [hvin]; exact hXn.symm, by rw [hvout]; exact hXm.symm⟩]
  have hval : ∀ k < aux.length, ((List.range vout.length).map
      (X'.negate.timesVec 0 (fun i => vout.getD i 0) 1 (fun i => vin.getD i 0))).getD k 0 =
      -∑ j ∈ range nonaux.length, X'.a k j * vin.getD j 0 := by
    intro k hk
    have := (C61_dense_times_vec_partial hnz (0 : K) 1 (fun i => vout.getD i 0)
      (fun i => vin.getD i 0)).1 k (by simpa only [CMat.negate, hXm] using hk)
    have e1 : ((List.range vout.length).map
      (X'.negate.timesVec 0 (fun i => vout.getD i 0) 1 (fun i => vin.getD i 0))).getD k 0 =
      X'.negate.timesVec 0 (fun i => vout.getD i 0) 1 (fun i => vin.getD i 0) k := by
      simp only [List.getD]
      rw [List.getElem?_map, List.getElem?_range (by omega)]
      rfl
    rw [e1, this]
    simp only [CMat.negate, hXn, zero_mul, zero_add, one_mul, neg_mul, sum_neg_distrib]
  refine ⟨_, happ, by simp [hvout], ?_⟩
  generalize hvaux : (List.range vout.length).map
      (X'.negate.timesVec 0 (fun i => vout.getD i 0) 1 (fun i => vin.getD i 0)) = vaux at hval
  -- the block equations
  have hsub : ∀ i < aux.length, ∀ k < aux.length,
      sub (dense Y.es) aux i k = dense Y.es (aux.getD i 0) (aux.getD k 0) := by
    intro i hi k hk
    rw [sub, if_pos ⟨hi, hk⟩]
  have hblock : ∀ i < aux.length, ∑ k ∈ range aux.length,
      dense Y.es (aux.getD i 0) (aux.getD k 0) * vaux.getD k 0 =
      -∑ j ∈ range nonaux.length, dense Y.es (aux.getD i 0) (nonaux.getD j 0) * vin.getD j 0 := by
    intro i hi
    have e1 : ∀ j < nonaux.length, ∑ k ∈ range aux.length,
        dense Y.es (aux.getD i 0) (aux.getD k 0) * X'.a k j =
        dense Y.es (aux.getD i 0) (nonaux.getD j 0) := by
      intro j hj
      have := hXs i (by rw [sbb.2.1]; exact hi) j (by simp only [sba.2.1]; exact hj)
      rw [sba.2.2 i hi j hj, sbb.2.1, hdbb] at this
      rw [← this]
      exact sum_congr rfl fun k hk => by rw [hsub i hi k (mem_range.1 hk)]
    calc ∑ k ∈ range aux.length, dense Y.es (aux.getD i 0) (aux.getD k 0) * vaux.getD k 0
        = ∑ k ∈ range aux.length, -∑ j ∈ range nonaux.length,
            dense Y.es (aux.getD i 0) (aux.getD k 0) * X'.a k j * vin.getD j 0 := by
          apply sum_congr rfl
          intro k hk
          rw [hval k (mem_range.1 hk), mul_neg, mul_sum]
          congr 1
          exact sum_congr rfl fun j _ => by ring
      _ = -∑ j ∈ range nonaux.length, (∑ k ∈ range aux.length,
            dense Y.es (aux.getD i 0) (aux.getD k 0) * X'.a k j) * vin.getD j 0 := by
          rw [sum_neg_distrib, sum_comm]
          congr 1
          exact sum_congr rfl fun j _ => by rw [sum_mul]
      _ = _ := by
          congr 1
          exact sum_congr rfl fun j hj => by rw [e1 j (mem_range.1 hj)]
  have hcur : ∀ r, current (dense Y.es) N V r =
      ∑ k ∈ range nonaux.length, dense Y.es r (nonaux.getD k 0) * vin.getD k 0 +
      ∑ k ∈ range aux.length, dense Y.es r (aux.getD k 0) * V (aux.getD k 0) := by
    intro r
    rw [current, sum_split hperm]
    congr 1
    exact sum_congr rfl fun k hk => by rw [hV k (mem_range.1 hk)]
  have hiff : (∀ k < aux.length, current (dense Y.es) N V (aux.getD k 0) = 0) ↔
      ∀ k < aux.length, V (aux.getD k 0) = vaux.getD k 0 := by
    constructor
    · intro h0 k hk
      have := inj_of_solves (n := aux.length) (sub (dense Y.es) aux)
        (fun b => ⟨_, (hU.2 b).2⟩) (fun k => V (aux.getD k 0) - vaux.getD k 0) (by
          intro i hi
          have h1 := h0 i hi
          rw [hcur] at h1
          have h2 := hblock i hi
          simp only [mul_sub, sum_sub_distrib]
          have e1 : ∀ f : ℕ → K, ∑ j ∈ range aux.length, sub (dense Y.es) aux i j * f j =
              ∑ j ∈ range aux.length, dense Y.es (aux.getD i 0) (aux.getD j 0) * f j :=
            fun f => sum_congr rfl fun j hj => by rw [hsub i hi j (mem_range.1 hj)]
          rw [e1 (fun j => V (aux.getD j 0)), e1 (fun j => vaux.getD j 0), h2, sub_neg_eq_add, add_comm]
          exact h1) k hk
      exact sub_eq_zero.1 this
    · intro h i hi
      have e1 : ∑ k ∈ range aux.length, dense Y.es (aux.getD i 0) (aux.getD k 0) * V (aux.getD k 0) =
          ∑ k ∈ range aux.length, dense Y.es (aux.getD i 0) (aux.getD k 0) * vaux.getD k 0 :=
        sum_congr rfl fun k hk => by rw [h k (mem_range.1 hk)]
      rw [hcur, e1, hblock i hi, add_neg_cancel]
  refine ⟨hiff, fun h0 i hi => ?_⟩
  have hVa := hiff.1 h0
  rw [hcur]
  have hred : ∀ j < nonaux.length, R'.a i j =
      dense Y.es (nonaux.getD i 0) (nonaux.getD j 0) -
        ∑ k ∈ range aux.length, dense Y.es (nonaux.getD i 0) (aux.getD k 0) * X'.a k j := by
    intro j hj
    rw [hRs, hWs i (by omega) j (by omega), saa.2.2 i hi j hj, sba.1]
    simp only [CMat.negate, zero_mul, zero_add, one_mul, mul_neg, sum_neg_distrib]
    rw [sub_eq_add_neg, add_comm]
    congr 2
    apply sum_congr rfl
    intro k hk
    have hk := mem_range.1 hk
    rw [sba.2.2 k hk i hi, hsym _ (hgeta k hk) _ (hgetn i hi)]
  have e2 : ∑ k ∈ range aux.length, dense Y.es (nonaux.getD i 0) (aux.getD k 0) * V (aux.getD k 0) =
      -∑ j ∈ range nonaux.length, (∑ k ∈ range aux.length,
        dense Y.es (nonaux.getD i 0) (aux.getD k 0) * X'.a k j) * vin.getD j 0 := by
    simp only [sum_mul]
    rw [sum_comm, ← sum_neg_distrib]
    apply sum_congr rfl
    intro k hk
    have hk := mem_range.1 hk
    rw [hVa k hk, hval k hk, mul_neg, mul_sum]
    congr 1
    exact sum_congr rfl fun j _ => by ring
  rw [e2, ← sub_eq_add_neg, ← sum_sub_distrib]
  apply sum_congr rfl
  intro j hj
  rw [hred j (mem_range.1 hj)]
  ring

/-- A failing factorization: `go` answers false and changes nothing. -/
theorem C61_factor_fails {U : Umf K} {srt : List (Ent K) → List (Ent K)} (hs : Sorts srt)
    {map : Option (CMat K)} {nonaux aux : List ℕ} {Y : Trip K} {red : CMat K} (hY : SSorted Y.es)
    (hsq : Y.m = Y.n) (hnon : Idx Y.m nonaux) (haux : Idx Y.m aux) (hne : aux ≠ [])
    (hU : U.factor aux.length (sub (dense Y.es) aux) < 0) :
    go U srt map nonaux aux Y red = some (false, map, red) := by
  obtain ⟨Yaa, haa, -⟩ := C61_new_slice hs hY (rows := nonaux) (cols := nonaux) hnon (hsq ▸ hnon)
  obtain ⟨Ybb, hbb, sbb, -⟩ := C61_new_slice hs hY (rows := aux) (cols := aux) haux (hsq ▸ haux)
  obtain ⟨Yba, hba, -⟩ := C61_new_slice hs hY (rows := aux) (cols := nonaux) haux (hsq ▸ hnon)
  have hdbb : dense Ybb.es = sub (dense Y.es) aux := by
    funext i j
    rw [newSlice_dense hs hY haux (hsq ▸ haux) hbb]
    rfl
  unfold go
  rw [haa, hbb, hba]
  simp only [Option.bind_some]
  rw [if_neg]
  unfold matrixChanged
  rw [if_neg (by rw [sbb.2.1]; exact fun h => hne (List.length_eq_zero_iff.1 h)),
    if_pos (by rw [hdbb, sbb.2.1]; exact hU)]
  decide

/-- After a successful reduction a second one on the same object fails an assertion. -/
theorem C61_second_go_false {U : Umf K} {srt : List (Ent K) → List (Ent K)} (hs : Sorts srt)
    {mp : CMat K} {nonaux aux : List ℕ} {Y : Trip K} {red : CMat K} (hY : SSorted Y.es)
    (hsq : Y.m = Y.n) (hnon : Idx Y.m nonaux) (haux : Idx Y.m aux)
    (hU : 0 ≤ U.factor aux.length (sub (dense Y.es) aux)) :
    go U srt (some mp) nonaux aux Y red = none := by
  obtain ⟨Yaa, haa, -⟩ := C61_new_slice hs hY (rows := nonaux) (cols := nonaux) hnon (hsq ▸ hnon)
  obtain ⟨Ybb, hbb, sbb, -⟩ := C61_new_slice hs hY (rows := aux) (cols := aux) haux (hsq ▸ haux)
  obtain ⟨Yba, hba, -⟩ := C61_new_slice hs hY (rows := aux) (cols := nonaux) haux (hsq ▸ hnon)
  have hdbb : dense Ybb.es = sub (dense Y.es) aux := by
    funext i j
    rw [newSlice_dense hs hY haux (hsq ▸ haux) hbb]
    rfl
  unfold go
  rw [haa, hbb, hba]
  simp only [Option.bind_some, Option.isSome_some, if_true]
  have hmc : 0 ≤ matrixChanged U Ybb := by
    unfold matrixChanged
    split
    · exact le_rfl
    · rw [if_neg (by rw [hdbb, sbb.2.1]; omega)]
  rw [if_pos hmc]

/-! ## Instances -/

section Instances

/-- A sorting function. -/
def isort (l : List (Ent ℚ)) : List (Ent ℚ) :=
  l.insertionSort fun a b => a.r < b.r ∨ a.r = b.r ∧ a.c ≤ b.c

theorem isort_sorts : Sorts isort := by
  intro l
  have h1 : Std.Total (fun a b : Ent ℚ => a.r < b.r ∨ a.r = b.r ∧ a.c ≤ b.c) := ⟨fun a b => by omega⟩
  have h2 : IsTrans (Ent ℚ) (fun a b => a.r < b.r ∨ a.r = b.r ∧ a.c ≤ b.c) :=
    ⟨fun a b c h h' => by omega⟩
  exact ⟨List.perm_insertionSort _ l, List.pairwise_insertionSort _ l⟩

/-- A network of four nodes. -/
def exY : Trip ℚ := ⟨4, 4, [⟨0, 0, 2⟩, ⟨0, 1, -1⟩, ⟨0, 3, -1⟩, ⟨1, 0, -1⟩, ⟨1, 1, 3⟩, ⟨1, 2, -2⟩,
  ⟨2, 1, -2⟩, ⟨2, 2, 5⟩, ⟨2, 3, -4⟩, ⟨3, 0, -1⟩, ⟨3, 2, -4⟩, ⟨3, 3, 5⟩]⟩

/-- A solver for diagonal matrices. -/
def exU : Umf ℚ := ⟨fun _ _ => 0, fun _ A b => (0, fun i => b i / A i i)⟩

theorem exU_solves : Solves exU ([1, 3] : List ℕ).length (sub (dense exY.es) [1, 3]) := by
  have h00 : sub (dense exY.es) [1, 3] 0 0 = 3 := by decide +kernel
  have h01 : sub (dense exY.es) [1, 3] 0 1 = 0 := by decide +kernel
  have h10 : sub (dense exY.es) [1, 3] 1 0 = 0 := by decide +kernel
  have h11 : sub (dense exY.es) [1, 3] 1 1 = 5 := by decide +kernel
  refine ⟨le_rfl, fun b => ⟨le_rfl, fun i hi => ?_⟩⟩
  have : i = 0 ∨ i = 1 := by simp only [List.length_cons, List.length_nil] at hi; omega
  simp only [List.length_cons, List.length_nil, Nat.zero_add, Nat.reduceAdd, sum_range_succ,
    sum_range_zero, exU]
  rcases this with rfl | rfl
  · rw [h00, h01]; ring
  · rw [h10, h11]; ring

example : SSorted exY.es := by unfold SSorted; decide +kernel

/-- The hypotheses of `C61_kron` hold for this network. -/
example : ∃ mp red', go exU isort none [0, 2] [1, 3] exY ⟨2, 2, fun _ _ => 7⟩ =
    some (true, some mp, red') ∧ red'.m = 2 :=
  let ⟨mp, red', h, hm, _⟩ := C61_kron isort_sorts (N := 4) rfl rfl
    (by unfold SSorted; decide +kernel) (by decide +kernel) (by decide) (by decide) (by decide)
    (by decide) rfl rfl exU_solves
  ⟨mp, red', h, hm⟩

/-- The reduced matrix of this network. -/
example : (go exU isort none [0, 2] [1, 3] exY ⟨2, 2, fun _ _ => 7⟩).map
    (fun p => (p.1, [p.2.2.a 0 0, p.2.2.a 0 1, p.2.2.a 1 0, p.2.2.a 1 1])) =
    some (true, [22 / 15, -22 / 15, -22 / 15, 7 / 15]) := by decide +kernel

/-- Duplicates are added up: `(1, 0)` is stored three times. -/
example : (sumUpDuplicates (sortIndexes isort ⟨2, 2, [⟨1, 0, 1⟩, ⟨0, 1, 5⟩, ⟨1, 0, 2⟩, ⟨1, 1, 4⟩,
    ⟨1, 0, 3⟩]⟩)).es.map (fun e => (e.r, e.c, e.v)) = [(0, 1, 5), (1, 0, 6), (1, 1, 4)] := by
  decide +kernel

/-- `new_sliceFromSym` where nothing is passed over: rows after columns. -/
example : (newSliceFromSym isort (fun _ => ⟨0, 0, 0⟩) ⟨4, 4, [⟨0, 2, 5⟩, ⟨1, 2, 6⟩, ⟨1, 3, 7⟩]⟩ [2, 3]
    [0, 1]).map (fun B => B.es.map (fun e => (e.r, e.c, e.v))) =
    some [(0, 0, 5), (0, 1, 6), (1, 1, 7)] := by decide +kernel

/-- The hypothesis of `C61_slice_from_sym_partial` in this case. -/
example : ∀ ki < ([2, 3] : List ℕ).length, ∀ kj < ki, kj < ([0, 1] : List ℕ).length →
    ∀ e ∈ ([⟨0, 2, 5⟩, ⟨1, 2, 6⟩, ⟨1, 3, 7⟩] : List (Ent ℚ)),
      ¬ (e.r = ([2, 3] : List ℕ).getD ki 0 ∧ e.c = ([0, 1] : List ℕ).getD kj 0) := by decide +kernel

/-- `new_sliceFromSymToSym` of an upper triangle. -/
example : (newSliceSymToSym (⟨4, 4, [⟨0, 0, 1⟩, ⟨0, 2, 5⟩, ⟨1, 2, 6⟩, ⟨2, 3, 7⟩]⟩ : Trip ℚ) [0, 2, 3]).map
    (fun B => B.es.map (fun e => (e.r, e.c, e.v))) = some [(0, 0, 1), (0, 1, 5), (1, 2, 7)] := by
  decide +kernel

end Instances

/-! ## Where the program fails -/

/-- Triplets not ordered: `new_slice` loses entries. -/
theorem C61_slice_unsorted_false : ∃ (A B : Trip ℚ), InRange A ∧ Idx A.m [0, 1] ∧
    newSlice isort A [0, 1] [0, 1] = some B ∧ dense A.es 0 0 = 3 ∧ dense B.es 0 0 = 0 := by
  refine ⟨⟨2, 2, [⟨1, 1, 1⟩, ⟨0, 0, 3⟩]⟩, ⟨2, 2, [⟨1, 1, 1⟩]⟩, ?_, ?_, ?_, ?_, ?_⟩
  · unfold InRange; decide +kernel
  · unfold Idx; decide
  · rfl
  · decide +kernel
  · decide +kernel

/-- Duplicates not added up: `new_slice` keeps only the first of them. -/
theorem C61_slice_duplicates_false : ∃ (A B : Trip ℚ), InRange A ∧ WSorted A.es ∧ Idx A.m [0, 1] ∧
    newSlice isort A [0, 1] [0, 1] = some B ∧ dense A.es 0 0 = 7 ∧ dense B.es 0 0 = 3 := by
  refine ⟨⟨2, 2, [⟨0, 0, 3⟩, ⟨0, 0, 4⟩]⟩, ⟨2, 2, [⟨0, 0, 3⟩]⟩, ?_, ?_, ?_, ?_, ?_, ?_⟩
  · unfold InRange; decide +kernel
  · unfold WSorted; decide +kernel
  · unfold Idx; decide
  · rfl
  · decide +kernel
  · decide +kernel

/-- `new_sliceFromSym` of the rows 0, 1 and the columns 2, 3: the entry stored at `(1, 2)` is counted but
not filled in, the last triplet of the result is whatever the new arrays held. -/
theorem C61_slice_from_sym_false (junk : ℕ → Ent ℚ) :
    ∃ (A : Trip ℚ), InRange A ∧ SSorted A.es ∧ (∀ e ∈ A.es, e.r ≤ e.c) ∧ A.m = A.n ∧
      Idx A.m [0, 1] ∧ Idx A.m [2, 3] ∧ dense A.es 1 2 = 6 ∧
      newSliceFromSym isort junk A [0, 1] [2, 3] =
        some ⟨2, 2, isort [⟨0, 0, 5⟩, junk 1]⟩ := by
  refine ⟨⟨4, 4, [⟨0, 2, 5⟩, ⟨1, 2, 6⟩]⟩, ?_, ?_, ?_, rfl, ?_, ?_, ?_, rfl⟩
  · unfold InRange; decide +kernel
  · unfold SSorted; decide +kernel
  · decide +kernel
  · unfold Idx; decide
  · unfold Idx; decide
  · decide +kernel

/-- `timesVec` of a dense matrix without columns does not multiply `y` by `beta`. -/
theorem C61_dense_times_vec_false (a : ℕ → ℕ → K) (y x : ℕ → K) (beta alpha : K) (m : ℕ) :
    (⟨m, 0, a⟩ : CMat K).timesVec beta y alpha x = y := by
  unfold CMat.timesVec
  funext i
  by_cases h : m = 0 <;> simp [h]

/-- Without nonauxiliary nodes `apply_nonaux_to_aux` leaves the output as it was, although all auxiliary
voltages should be zero. -/
theorem C61_apply_empty_false : ∃ (mp red' : CMat ℚ),
    go exU isort none [] [0] ⟨1, 1, [⟨0, 0, 2⟩]⟩ ⟨0, 0, fun _ _ => 0⟩ = some (true, some mp, red') ∧
      apply (some mp) [] [9] = some [9] := by
  refine ⟨_, _, rfl, ?_⟩
  decide +kernel

/-- A matrix that is not symmetric: `go` answers true, but the reduced matrix is wrong. With voltage 1 at
node 0 and no current at node 1 the current at node 0 is -1, the reduced matrix gives 1. -/
theorem C61_unsymmetric_false : ∃ (Y : Trip ℚ) (V : ℕ → ℚ), SSorted Y.es ∧ InRange Y ∧
    current (dense Y.es) 2 V 1 = 0 ∧ V 0 = 1 ∧ current (dense Y.es) 2 V 0 = -1 ∧
    (go exU isort none [0] [1] Y ⟨1, 1, fun _ _ => 0⟩).map (fun p => (p.1, p.2.2.a 0 0 * V 0)) =
      some (true, 1) := by
  refine ⟨⟨2, 2, [⟨0, 0, 2⟩, ⟨0, 1, 3⟩, ⟨1, 0, 1⟩, ⟨1, 1, 1⟩]⟩, fun i => if i = 0 then 1 else -1,
    ?_, ?_, ?_, ?_, ?_, ?_⟩
  · unfold SSorted; decide +kernel
  · unfold InRange; decide +kernel
  · decide +kernel
  · decide +kernel
  · decide +kernel
  · decide +kernel

/-- A solve that fails is not reported: `go` answers true, with the reduced matrix of a network in which
the auxiliary nodes were left out. -/
theorem C61_solve_failure_false : ∃ (U : Umf ℚ), (∀ n A b, (U.solve n A b).1 < 0) ∧
    (go U isort none [0, 2] [1, 3] exY ⟨2, 2, fun _ _ => 7⟩).map
      (fun p => (p.1, [p.2.2.a 0 0, p.2.2.a 0 1, p.2.2.a 1 0, p.2.2.a 1 1])) =
      some (true, [2, 0, 0, 5]) :=
  ⟨⟨fun _ _ => 0, fun _ _ _ => (-1, fun _ => 0)⟩, fun _ _ _ => (by decide : (-1 : ℤ) < 0), by decide +kernel⟩

/-- A singular auxiliary block, for which UMFPACK gives a warning (status 1): `go` answers true. Here no
auxiliary voltages make the current at the auxiliary node zero. -/
theorem C61_singular_false : ∃ (U : Umf ℚ) (Y : Trip ℚ), SSorted Y.es ∧
    (∀ i < 2, ∀ j < 2, dense Y.es i j = dense Y.es j i) ∧
    U.factor 1 (sub (dense Y.es) [1]) = 1 ∧ dense Y.es 1 1 = 0 ∧
    (∀ V : ℕ → ℚ, V 0 = 1 → current (dense Y.es) 2 V 1 ≠ 0) ∧
    ((go U isort none [0] [1] Y ⟨1, 1, fun _ _ => 0⟩).map fun p => p.1) = some true := by
  refine ⟨⟨fun _ _ => 1, fun _ _ _ => (1, fun _ => 0)⟩,
    ⟨2, 2, [⟨0, 0, 2⟩, ⟨0, 1, 3⟩, ⟨1, 0, 3⟩]⟩, ?_, ?_, rfl, ?_, ?_, ?_⟩
  · unfold SSorted; decide +kernel
  · decide +kernel
  · decide +kernel
  · intro V hV
    have h0 : dense ([⟨0, 0, 2⟩, ⟨0, 1, 3⟩, ⟨1, 0, 3⟩] : List (Ent ℚ)) 1 0 = 3 := by decide +kernel
    have h1 : dense ([⟨0, 0, 2⟩, ⟨0, 1, 3⟩, ⟨1, 0, 3⟩] : List (Ent ℚ)) 1 1 = 0 := by decide +kernel
    simp only [current, sum_range_succ, sum_range_zero, h0, h1, hV]
    norm_num
  · decide +kernel

end Hiop.Kron
