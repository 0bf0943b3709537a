import Verif.Sparse.Rows

/-!
# C27: additions into dense matrices, row norms, diagonals and piecewise assembly of triplet matrices
-/

set_option linter.unusedSectionVars false
set_option linter.unusedSimpArgs false

namespace Hiop.Sparse

open Hiop.Vec

variable {K : Type*} [Field K] [LinearOrder K] [IsStrictOrderedRing K] {p q s : ℕ}

/-- No two triplets at one position. -/
def Distinct (es : List (Ent K)) : Prop := es.Pairwise fun a b => ¬ (a.r = b.r ∧ a.c = b.c)

theorem Sorted.distinct {es : List (Ent K)} (h : Sorted es) : Distinct es :=
  h.imp fun {a b} h => by rintro ⟨h1, h2⟩; rcases h with h | h <;> omega

/-! ## Dense additions -/

theorem transAdd_loop (N : ℕ) (es : List (Ent K)) (rs cs : ℕ) (alpha : K) (h : InRange p q es)
    (hr : rs + q ≤ N) (hc : cs + p ≤ N) (hu : rs + q ≤ cs + 1) (W : ℕ → ℕ → K) :
    transAddUpper N es rs cs alpha W = some fun i j =>
      W i j + if rs ≤ i ∧ cs ≤ j then alpha * entry es (j - cs) (i - rs) else 0 := by
  unfold transAddUpper
  induction es generalizing W with
  | nil => simp
  | cons e es ih =>
    obtain ⟨⟨h1, h2⟩, h3⟩ := inRange_cons h
    rw [List.foldlM_cons, if_pos (by omega), Option.bind_eq_bind, Option.bind_some, ih h3]
    congr 1
    funext i j
    rw [addAt, entry_cons]
    by_cases hp : rs ≤ i ∧ cs ≤ j
    · rw [if_pos hp, if_pos hp]
      by_cases he : e.r = j - cs ∧ e.c = i - rs
      · rw [if_pos he, if_pos (by omega)]; ring
      · rw [if_neg he, if_neg (by omega)]; ring
    · rw [if_neg hp, if_neg hp, if_neg (by omega)]

/-- **C27, adding the transpose into the upper triangle of a dense symmetric matrix.** -/
theorem C27_transAddUpper (N : ℕ) (es : List (Ent K)) (rs cs : ℕ) (alpha : K) (h : InRange p q es)
    (hr : rs + q ≤ N) (hc : cs + p ≤ N) (hu : rs + q ≤ cs + 1) (W : ℕ → ℕ → K) :
    transAddUpper N es rs cs alpha W = some (Kkt.transAdd rs cs alpha (dense p q es) W) := by
  rw [transAdd_loop N es rs cs alpha h hr hc hu]
  congr 1
  funext i j
  unfold Kkt.transAdd
  by_cases hp : rs ≤ i ∧ cs ≤ j
  · rw [if_pos hp, if_pos hp]
    unfold Kkt.at2
    by_cases hq : j - cs < p ∧ i - rs < q
    · rw [dif_pos hq]; rfl
    · rw [dif_neg hq]
      congr 2
      by_cases h1 : j - cs < p
      · exact entry_out_col fun e he x => hq ⟨h1, x ▸ (h e he).2⟩
      · exact entry_out_row fun e he x => h1 (x ▸ (h e he).1)
  · rw [if_neg hp, if_neg hp]

/-- **C27, adding a symmetric matrix stored by its upper triangle.** -/
theorem C27_symAddUpper (N : ℕ) (es : List (Ent K)) (ds : ℕ) (alpha : K) (h : InRange p p es)
    (hut : ∀ e ∈ es, e.r ≤ e.c) (hN : ds + p ≤ N) (W : ℕ → ℕ → K) :
    symAddUpper N es ds alpha W = some fun i j =>
      W i j + if ds ≤ i ∧ i ≤ j then alpha * symEntry es (i - ds) (j - ds) else 0 := by
  have key : ∀ (W : ℕ → ℕ → K), symAddUpper N es ds alpha W = some fun i j =>
      W i j + if ds ≤ i ∧ ds ≤ j then alpha * entry es (i - ds) (j - ds) else 0 := by
    unfold symAddUpper
    induction es with
    | nil => intro W; simp
    | cons e es ih =>
      intro W
      obtain ⟨⟨h1, h2⟩, h3⟩ := inRange_cons h
      have h4 := hut e List.mem_cons_self
      rw [List.foldlM_cons, if_pos (by omega), Option.bind_eq_bind, Option.bind_some,
        ih h3 fun e' he => hut e' (List.mem_cons_of_mem _ he)]
      congr 1
      funext i j
      rw [addAt, entry_cons]
      by_cases hp : ds ≤ i ∧ ds ≤ j
      · rw [if_pos hp, if_pos hp]
        by_cases he : e.r = i - ds ∧ e.c = j - ds
        · rw [if_pos he, if_pos (by omega)]; ring
        · rw [if_neg he, if_neg (by omega)]; ring
      · rw [if_neg hp, if_neg hp, if_neg (by omega)]
  rw [key]
  congr 1
  funext i j
  have low : ∀ a b, b < a → entry es a b = 0 := by
    intro a b hab
    clear key
    induction es with
    | nil => rfl
    | cons e es ih =>
      have h4 := hut e List.mem_cons_self
      rw [entry_cons, ih (inRange_cons h).2 fun e' he => hut e' (List.mem_cons_of_mem _ he),
        if_neg (by omega), add_zero]
  by_cases hp : ds ≤ i ∧ i ≤ j
  · rw [if_pos hp, if_pos (by omega), symEntry_eq]
    by_cases hij : i - ds = j - ds
    · rw [if_pos hij, hij]
    · rw [if_neg hij, low (j - ds) (i - ds) (by omega), add_zero]
  · rw [if_neg hp]
    by_cases hq : ds ≤ i ∧ ds ≤ j
    · rw [if_pos hq, low _ _ (by omega), mul_zero]
    · rw [if_neg hq]

theorem copy_loop (es : List (Ent K)) (W : ℕ → ℕ → K) (i j : ℕ) :
    es.foldl (fun W e => addAt W e.r e.c e.v) W i j = W i j + entry es i j := by
  induction es generalizing W with
  | nil => simp
  | cons e es ih =>
    rw [List.foldl_cons, ih, entry_cons, addAt]
    by_cases h : e.r = i ∧ e.c = j
    · rw [if_pos h, if_pos ⟨h.1.symm, h.2.symm⟩]; ring
    · rw [if_neg h, if_neg fun x => h ⟨x.1.symm, x.2.symm⟩]; ring

/-- **C27, conversion to a dense matrix.** -/
theorem C27_copyToDense (es : List (Ent K)) (i j : ℕ) : copyToDense es i j = entry es i j := by
  rw [copyToDense, copy_loop, zero_add]

/-! ## Row norms and row scaling -/

/-- **C27, row maxima.** The value for a row is the largest magnitude stored in it, and zero for an
empty row. -/
theorem C27_rowMaxAbs (es : List (Ent K)) (i : ℕ) :
    (∀ e ∈ es, e.r = i → |e.v| ≤ rowMaxAbs es i) ∧
    (rowMaxAbs es i = 0 ∨ ∃ e ∈ es, e.r = i ∧ rowMaxAbs es i = |e.v|) := by
  have gen : ∀ (y : ℕ → K),
      (∀ e ∈ es, e.r = i → |e.v| ≤ es.foldl (fun y e => if y e.r < |e.v| then
        Function.update y e.r |e.v| else y) y i) ∧
      y i ≤ es.foldl (fun y e => if y e.r < |e.v| then Function.update y e.r |e.v| else y) y i ∧
      (es.foldl (fun y e => if y e.r < |e.v| then Function.update y e.r |e.v| else y) y i = y i ∨
        ∃ e ∈ es, e.r = i ∧ es.foldl (fun y e => if y e.r < |e.v| then
          Function.update y e.r |e.v| else y) y i = |e.v|) := by
    induction es with
    | nil => intro y; simp
    | cons e es ih =>
      intro y
      simp only [List.foldl_cons]
      obtain ⟨h1, h2, h3⟩ := ih (if y e.r < |e.v| then Function.update y e.r |e.v| else y)
      by_cases hr : e.r = i
      · subst hr
        by_cases hlt : y e.r < |e.v|
        · rw [if_pos hlt] at h1 h2 h3 ⊢
          rw [Function.update_self] at h2 h3
          refine ⟨?_, le_trans hlt.le h2, ?_⟩
          · intro e' he' hr'
            rcases List.mem_cons.1 he' with rfl | he'
            · exact h2
            · exact h1 e' he' hr'
          · right
            rcases h3 with h3 | ⟨e', m, r, h3⟩
            · exact ⟨e, List.mem_cons_self, rfl, h3⟩
            · exact ⟨e', List.mem_cons_of_mem _ m, r, h3⟩
        · rw [if_neg hlt] at h1 h2 h3 ⊢
          refine ⟨?_, h2, ?_⟩
          · intro e' he' hr'
            rcases List.mem_cons.1 he' with rfl | he'
            · exact le_trans (not_lt.1 hlt) h2
            · exact h1 e' he' hr'
          · rcases h3 with h3 | ⟨e', m, r, h3⟩
            · exact .inl h3
            · exact .inr ⟨e', List.mem_cons_of_mem _ m, r, h3⟩
      · have e1 : (if y e.r < |e.v| then Function.update y e.r |e.v| else y) i = y i := by
          by_cases hlt : y e.r < |e.v|
          · rw [if_pos hlt, Function.update_of_ne (Ne.symm hr)]
          · rw [if_neg hlt]
        rw [e1] at h2 h3
        refine ⟨?_, h2, ?_⟩
        · intro e' he' hr'
          rcases List.mem_cons.1 he' with rfl | he'
          · exact absurd hr' hr
          · exact h1 e' he' hr'
        · rcases h3 with h3 | ⟨e', m, r, h3⟩
          · exact .inl h3
          · exact .inr ⟨e', List.mem_cons_of_mem _ m, r, h3⟩
  obtain ⟨h1, -, h3⟩ := gen fun _ => 0
  exact ⟨h1, h3⟩

theorem Distinct.entry_mem {es : List (Ent K)} (h : Distinct es) {e : Ent K} (he : e ∈ es) :
    entry es e.r e.c = e.v := by
  induction es with
  | nil => exact absurd he List.not_mem_nil
  | cons a es ih =>
    obtain ⟨h1, h2⟩ := List.pairwise_cons.1 h
    rw [entry_cons]
    rcases List.mem_cons.1 he with rfl | he
    · rw [if_pos ⟨rfl, rfl⟩]
      have : entry es e.r e.c = 0 := by
        clear ih h2 h he
        induction es with
        | nil => rfl
        | cons b es ih =>
          rw [entry_cons, ih fun a' ha => h1 a' (List.mem_cons_of_mem _ ha), if_neg, add_zero]
          rintro ⟨x, y⟩
          exact h1 b List.mem_cons_self ⟨x.symm, y.symm⟩
      rw [this, add_zero]
    · rw [ih h2 he, if_neg (h1 e he), zero_add]

theorem entry_eq_zero_or (es : List (Ent K)) (h : Distinct es) (i j : ℕ) :
    entry es i j = 0 ∨ ∃ e ∈ es, e.r = i ∧ e.c = j ∧ e.v = entry es i j := by
  by_cases hx : ∃ e ∈ es, e.r = i ∧ e.c = j
  · obtain ⟨e, he, rfl, rfl⟩ := hx
    exact .inr ⟨e, he, rfl, rfl, (h.entry_mem he).symm⟩
  · left
    clear h
    induction es with
    | nil => rfl
    | cons a es ih =>
      rw [entry_cons, if_neg fun x => hx ⟨a, List.mem_cons_self, x⟩,
        ih fun ⟨e, he, x⟩ => hx ⟨e, List.mem_cons_of_mem _ he, x⟩, add_zero]

/-- **C27, row maxima of the matrix.** Without repeated positions the row maximum is the infinity norm
of the row of the dense matrix. -/
theorem C27_rowMaxAbs_dense (es : List (Ent K)) (h : Distinct es) (i : ℕ) :
    (∀ j, |entry es i j| ≤ rowMaxAbs es i) ∧
    (rowMaxAbs es i = 0 ∨ ∃ j, rowMaxAbs es i = |entry es i j|) := by
  obtain ⟨h1, h2⟩ := C27_rowMaxAbs es i
  have pos : 0 ≤ rowMaxAbs es i := by
    rcases h2 with h2 | ⟨e, -, -, h2⟩
    · rw [h2]
    · rw [h2]; exact abs_nonneg _
  refine ⟨fun j => ?_, ?_⟩
  · rcases entry_eq_zero_or es h i j with h3 | ⟨e, he, hr, -, hv⟩
    · rw [h3, abs_zero]; exact pos
    · rw [← hv]; exact h1 e he hr
  · rcases h2 with h2 | ⟨e, he, rfl, h2⟩
    · exact .inl h2
    · exact .inr ⟨e.c, by rw [h.entry_mem he]; exact h2⟩

/-- **C27, row scaling.** -/
theorem C27_scaleRow (es : List (Ent K)) (d : ℕ → K) (inv : Bool) (i j : ℕ) :
    entry (scaleRow es d inv) i j = (if inv then 1 / d i else d i) * entry es i j := by
  induction es with
  | nil => simp [scaleRow]
  | cons e es ih =>
    rw [scaleRow, List.map_cons, entry_cons, ← scaleRow, ih, entry_cons]
    by_cases h : e.r = i ∧ e.c = j
    · obtain ⟨rfl, rfl⟩ := h
      simp only [and_self, if_true]; ring
    · simp only [if_neg h]; ring

/-! ## Diagonals -/

theorem subdiag_loop (es : List (Ent K)) (ds : ℕ) (alpha : K) (v : ℕ → K) (vs num k : ℕ) :
    addSubDiagTo es ds alpha v vs num k = v k + if vs + ds ≤ k ∧ k < vs + ds + num then
      alpha * entry es (k - vs) (k - vs) else 0 := by
  unfold addSubDiagTo
  induction es generalizing v with
  | nil => simp
  | cons e es ih =>
    rw [List.foldl_cons, ih, entry_cons]
    by_cases hk : vs + ds ≤ k ∧ k < vs + ds + num
    · rw [if_pos hk, if_pos hk]
      by_cases h : e.r = k - vs ∧ e.c = k - vs
      · have : vs + e.r = k := by omega
        rw [if_pos h, if_pos (by omega), this, Function.update_self]; ring
      · rw [if_neg h, zero_add]
        by_cases h2 : e.r = e.c ∧ ds ≤ e.r ∧ e.r < ds + num
        · rw [if_pos h2, Function.update_of_ne (by omega)]
        · rw [if_neg h2]
    · rw [if_neg hk, if_neg hk]
      by_cases h2 : e.r = e.c ∧ ds ≤ e.r ∧ e.r < ds + num
      · rw [if_pos h2, Function.update_of_ne (by omega)]
      · rw [if_neg h2]

/-- **C27, adding a diagonal to a vector (partial).** The wanted result for a diagonal segment
starting at `ds` is `v[vs+a] += alpha*diag[ds+a]`; it holds for segments starting at zero, the only
ones the solver uses. -/
theorem C27_addSubDiag_partial (es : List (Ent K)) (alpha : K) (v : ℕ → K) (vs num k : ℕ) :
    addSubDiagTo es 0 alpha v vs num k = v k + if vs ≤ k ∧ k < vs + num then
      alpha * entry es (0 + (k - vs)) (0 + (k - vs)) else 0 := by
  simpa using subdiag_loop es 0 alpha v vs num k

/-- **C27, refuted for segments starting elsewhere.** The values land `ds` positions too far: asked to
add the last diagonal entry (5) of `diag(3, 5)` to `v[0]`, the routine adds it to `v[1]`. -/
theorem C27_addSubDiag_refuted :
    addSubDiagTo [⟨0, 0, 3⟩, ⟨1, 1, 5⟩] 1 1 (fun _ => (0 : ℚ)) 0 1 0 = 0 ∧
    addSubDiagTo [⟨0, 0, 3⟩, ⟨1, 1, 5⟩] 1 1 (fun _ => (0 : ℚ)) 0 1 1 = 5 := by
  constructor <;> decide +kernel

/-- **C27, diagonal extraction.** -/
theorem C27_extractDiagonal (es : List (Ent K)) (h : Distinct es) (i : ℕ) :
    extractDiagonal es i = entry es i i := by
  have gen : ∀ v : ℕ → K, es.foldl (fun v e => if e.r = e.c then Function.update v e.r e.v else v) v i
      = if ∃ e ∈ es, e.r = i ∧ e.c = i then entry es i i else v i := by
    induction es with
    | nil => intro v; simp
    | cons e es ih =>
      intro v
      obtain ⟨h1, h2⟩ := List.pairwise_cons.1 h
      rw [List.foldl_cons, ih h2, entry_cons]
      by_cases he : e.r = i ∧ e.c = i
      · have hno : ¬ ∃ e' ∈ es, e'.r = i ∧ e'.c = i := by
          rintro ⟨e', m, a, b⟩
          exact h1 e' m ⟨he.1.trans a.symm, he.2.trans b.symm⟩
        have hyes : ∃ e' ∈ e :: es, e'.r = i ∧ e'.c = i := ⟨e, List.mem_cons_self, he⟩
        rw [if_neg hno, if_pos hyes, if_pos he, if_pos (he.1.trans he.2.symm), he.1,
          Function.update_self]
        have : entry es i i = 0 := by
          rcases entry_eq_zero_or es h2 i i with h3 | ⟨e', m, a, b, -⟩
          · exact h3
          · exact absurd ⟨e', m, a, b⟩ hno
        rw [this, add_zero]
      · have e1 : (if e.r = e.c then Function.update v e.r e.v else v) i = v i := by
          by_cases hd : e.r = e.c
          · rw [if_pos hd, Function.update_of_ne]
            rintro rfl
            exact he ⟨rfl, hd.symm⟩
          · rw [if_neg hd]
        rw [e1, if_neg he, zero_add]
        by_cases hx : ∃ e' ∈ es, e'.r = i ∧ e'.c = i
        · obtain ⟨e', m, a⟩ := hx
          rw [if_pos ⟨e', m, a⟩, if_pos ⟨e', List.mem_cons_of_mem _ m, a⟩]
        · rw [if_neg hx, if_neg]
          rintro ⟨e', m, a⟩
          rcases List.mem_cons.1 m with rfl | m
          · exact he a
          · exact hx ⟨e', m, a⟩
  rw [extractDiagonal, gen]
  by_cases hx : ∃ e ∈ es, e.r = i ∧ e.c = i
  · rw [if_pos hx]
  · rw [if_neg hx]
    rcases entry_eq_zero_or es h i i with h3 | ⟨e', m, a, b, -⟩
    · rw [h3]
    · exact absurd ⟨e', m, a, b⟩ hx

/-- **C27, refuted for repeated positions.** The extracted diagonal is the last triplet (2) and not the
entry (3) of the matrix. -/
theorem C27_extractDiagonal_duplicates_refuted :
    extractDiagonal [⟨0, 0, (1 : ℚ)⟩, ⟨0, 0, 2⟩] 0 = 2 ∧ entry [⟨0, 0, (1 : ℚ)⟩, ⟨0, 0, 2⟩] 0 0 = 3 := by
  constructor <;> decide +kernel

/-- **C27, diagonal test.** Accepted matrices are square and diagonal; a rejected square matrix stores
some off-diagonal triplet. -/
theorem C27_isDiagonal (p q : ℕ) (es : List (Ent K)) :
    (isDiagonal p q es = true → p = q ∧ ∀ i j, i ≠ j → entry es i j = 0) ∧
    (isDiagonal p q es = false → p = q → ∃ e ∈ es, e.r ≠ e.c) := by
  unfold isDiagonal
  by_cases h : p = q
  · rw [if_neg (not_not.2 h)]
    constructor
    · intro ha
      refine ⟨h, fun i j hij => ?_⟩
      rw [List.all_eq_true] at ha
      induction es with
      | nil => rfl
      | cons e es ih =>
        have he : e.r = e.c := by simpa using ha e List.mem_cons_self
        rw [entry_cons, ih fun e' m => ha e' (List.mem_cons_of_mem _ m), if_neg, add_zero]
        rintro ⟨a, b⟩
        exact hij (a.symm.trans (he.trans b))
    · intro ha _
      rw [List.all_eq_false] at ha
      obtain ⟨e, m, x⟩ := ha
      exact ⟨e, m, by simpa using x⟩
  · rw [if_pos h]
    exact ⟨fun x => absurd x (by simp), fun _ x => absurd x h⟩

/-- **C27, off-diagonal count.** -/
theorem C27_numOffDiag (es : List (Ent K)) :
    numOffDiag es = (es.filter fun e => decide (e.r ≠ e.c)).length := by
  have gen : ∀ n, (es.filter fun e => decide (e.r = e.c)).length ≤ n →
      es.foldl (fun n e => if e.r = e.c then n - 1 else n) n
        = n - (es.filter fun e => decide (e.r = e.c)).length := by
    induction es with
    | nil => intro n _; simp
    | cons e es ih =>
      intro n hn
      rw [List.foldl_cons]
      by_cases h : e.r = e.c
      · simp only [List.filter_cons, h, decide_true, if_true, List.length_cons] at hn ⊢
        rw [ih _ (by omega)]; omega
      · simp only [List.filter_cons, h, decide_false, Bool.false_eq_true, if_false] at hn ⊢
        exact ih _ hn
  have hl : es.length = (es.filter fun e => decide (e.r = e.c)).length
      + (es.filter fun e => decide (e.r ≠ e.c)).length := by
    clear gen
    induction es with
    | nil => rfl
    | cons e es ih =>
      by_cases h : e.r = e.c <;> simp [List.filter_cons, h] <;> simp at ih <;> omega
  rw [numOffDiag, gen _ (by omega)]
  omega

/-! ## Piecewise assembly -/

theorem toList_add (st : Store K) (a b : ℕ) :
    toList st (a + b) = toList st a ++ (List.range b).map fun i => st (a + i) := by
  rw [toList, List.range_add, List.map_append, List.map_map]; rfl

theorem toList_length (st : Store K) (n : ℕ) : (toList st n).length = n := by simp [toList]

/-- Writing `l` after the first `k` positions. -/
theorem toList_writeAt (st : Store K) (k : ℕ) (l : List (Ent K)) :
    toList (writeAt st k l) (k + l.length) = toList st k ++ l := by
  rw [toList_add]
  congr 1
  · rw [toList, toList]
    refine List.map_congr_left fun i hi => ?_
    rw [List.mem_range] at hi
    rw [writeAt, dif_neg (by omega)]
  · refine List.ext_getElem (by simp) fun i h1 h2 => ?_
    rw [List.getElem_map, List.getElem_range, writeAt, dif_pos (by constructor <;> omega)]
    simp

/-- `writeChecked` succeeds exactly when the piece fits. -/
theorem writeChecked_iff (nnz : ℕ) (st st' : Store K) (k : ℕ) (l : List (Ent K)) :
    writeChecked nnz st k l = some st' ↔ k + l.length ≤ nnz ∧ writeAt st k l = st' := by
  unfold writeChecked
  by_cases h : k + l.length ≤ nnz
  · rw [if_pos h]; simp [h]
  · rw [if_neg h]; simp [h]

theorem dropWhile_lt (l : List (Ent K)) (x : ℕ) (hs : RowSorted l) :
    (l.dropWhile fun e => decide (e.r < x)) = l.filter fun e => decide (x ≤ e.r) := by
  induction l with
  | nil => rfl
  | cons e l ih =>
    obtain ⟨h1, h2⟩ := List.pairwise_cons.1 hs
    by_cases h : e.r < x
    · have h' : ¬ x ≤ e.r := by omega
      rw [List.dropWhile_cons, if_pos (by simpa using h), ih h2, List.filter_cons,
        if_neg (by simpa using h)]
    · rw [List.dropWhile_cons, if_neg (by simpa using h), eq_comm, List.filter_eq_self]
      intro e' he'
      rcases List.mem_cons.1 he' with rfl | he'
      · simpa using h
      · have := h1 e' he'
        simp; omega

theorem takeRow_eq (x y : ℕ) (l : List (Ent K)) (hs : RowSorted l) :
    takeRow x y l = ((l.filter fun e => decide (e.r = x)).map fun e => { e with r := y },
      l.filter fun e => decide (x + 1 ≤ e.r)) := by
  unfold takeRow
  rw [dropWhile_lt l x hs]
  have hs' : RowSorted (l.filter fun e => decide (x ≤ e.r)) := List.Pairwise.filter _ hs
  have hi : ∀ e ∈ l.filter fun e => decide (x ≤ e.r), x ≤ e.r := by
    intro e he; simpa using (List.mem_filter.1 he).2
  obtain ⟨h1, h2⟩ := split_row _ x hs' hi
  have dw : ∀ (m : List (Ent K)) (P : Ent K → Bool),
      m.dropWhile P = m.drop (m.takeWhile P).length := by
    intro m P
    induction m with
    | nil => rfl
    | cons a m ih =>
      by_cases h : P a
      · rw [List.dropWhile_cons, if_pos h, List.takeWhile_cons, if_pos h, List.length_cons,
          List.drop_succ_cons, ih]
      · rw [List.dropWhile_cons, if_neg h, List.takeWhile_cons, if_neg h, List.length_nil,
          List.drop_zero]
  simp only
  rw [dw, h2, h1, List.filter_filter, List.filter_filter]
  congr 2
  · congr 1
    funext e
    by_cases h : e.r = x
    · simp [h]
    · simp [h]
  · funext e
    by_cases h : x + 1 ≤ e.r
    · have : x ≤ e.r := by omega
      simp [h, this]
    · simp [h]

/-- The triplets of rows `f a`, `f (a+1)`, ..., renumbered `g a`, `g (a+1)`, ... -/
def pickRows (src : List (Ent K)) (f g : ℕ → ℕ) (a n : ℕ) : List (Ent K) :=
  (List.range' a n).flatMap fun b =>
    (src.filter fun e => decide (e.r = f b)).map fun e => { e with r := g b }

theorem pickRows_succ (src : List (Ent K)) (f g : ℕ → ℕ) (a n : ℕ) :
    pickRows src f g a (n + 1) = ((src.filter fun e => decide (e.r = f a)).map fun e =>
      { e with r := g a }) ++ pickRows src f g (a + 1) n := by
  rw [pickRows, List.range'_succ, List.flatMap_cons]; rfl

theorem pickRows_congr (src src' : List (Ent K)) (f g : ℕ → ℕ) (a n : ℕ)
    (h : ∀ b, a ≤ b → (src.filter fun e => decide (e.r = f b)) = src'.filter fun e => decide (e.r = f b)) :
    pickRows src f g a n = pickRows src' f g a n := by
  induction n generalizing a with
  | zero => rfl
  | succ n ih =>
    rw [pickRows_succ, pickRows_succ, h a le_rfl, ih (a + 1) fun b hb => h b (by omega)]

theorem copyRowsLoop_eq (nnz : ℕ) (f g : ℕ → ℕ) (hf : StrictMono f) (a n : ℕ) (src : List (Ent K))
    (hs : RowSorted src) (st : Store K) (k : ℕ) (hk : k + (pickRows src f g a n).length ≤ nnz) :
    ∃ st', copyRowsLoop nnz f g a n src (st, k) = some (st', k + (pickRows src f g a n).length) ∧
      toList st' (k + (pickRows src f g a n).length) = toList st k ++ pickRows src f g a n := by
  induction n generalizing a src st k with
  | zero => exact ⟨st, by simp [copyRowsLoop, pickRows], by simp [pickRows]⟩
  | succ n ih =>
    rw [copyRowsLoop, takeRow_eq _ _ _ hs]
    have hp : pickRows src f g (a + 1) n
        = pickRows (src.filter fun e => decide (f a + 1 ≤ e.r)) f g (a + 1) n := by
      refine pickRows_congr _ _ _ _ _ _ fun b hb => ?_
      rw [List.filter_filter]
      congr 1
      funext e
      by_cases h : e.r = f b
      · have : f a < f b := hf (by omega)
        have : f a + 1 ≤ e.r := by omega
        simp [h]; omega
      · simp [h]
    rw [pickRows_succ, hp] at hk ⊢
    set l1 := ((src.filter fun e => decide (e.r = f a)).map fun e => ({ e with r := g a } : Ent K))
      with hl1
    set rest := src.filter fun e => decide (f a + 1 ≤ e.r) with hrest
    rw [List.length_append] at hk ⊢
    have hw : writeChecked nnz st k l1 = some (writeAt st k l1) :=
      (writeChecked_iff _ _ _ _ _).2 ⟨by omega, rfl⟩
    obtain ⟨st', h1, h2⟩ := ih (a + 1) rest (List.Pairwise.filter _ hs) (writeAt st k l1)
      (k + l1.length) (by omega)
    refine ⟨st', ?_, ?_⟩
    · simp only [hw, Option.bind_eq_bind, Option.bind_some, h1]
      rw [Nat.add_assoc]
    · rw [← Nat.add_assoc, h2, toList_writeAt, List.append_assoc]

theorem entry_row_single (l : List (Ent K)) (x y i j : ℕ) :
    entry ((l.filter fun e => decide (e.r = x)).map fun e => ({ e with r := y } : Ent K)) i j
      = if y = i then entry l x j else 0 := by
  induction l with
  | nil => simp
  | cons e l ih =>
    rw [List.filter_cons, entry_cons]
    by_cases h : e.r = x
    · rw [if_pos (by simpa using h), List.map_cons, entry_cons, ih]
      by_cases hy : y = i
      · simp [hy, h]
      · simp [hy]
    · rw [if_neg (by simpa using h), ih, if_neg (fun z : e.r = x ∧ e.c = j => h z.1), zero_add]

theorem entry_pickRows (src : List (Ent K)) (f : ℕ → ℕ) (d a n i j : ℕ) :
    entry (pickRows src f (fun b => d + b) a n) i j
      = if d + a ≤ i ∧ i < d + a + n then entry src (f (i - d)) j else 0 := by
  induction n generalizing a with
  | zero => rw [if_neg (by omega)]; rfl
  | succ n ih =>
    rw [pickRows_succ, entry_append, entry_row_single, ih]
    by_cases h : d + a = i
    · subst h
      rw [if_pos rfl, if_neg (by omega), if_pos (by omega), add_zero, Nat.add_sub_cancel_left]
    · rw [if_neg h, zero_add]
      by_cases h2 : d + (a + 1) ≤ i ∧ i < d + (a + 1) + n
      · rw [if_pos h2, if_pos (by omega)]
      · rw [if_neg h2, if_neg (by omega)]

/-- **C27, copying selected rows.** A matrix with room for exactly the selected entries, filled from a
row-sorted source through strictly increasing row indices, holds the selected rows. -/
theorem C27_copyRowsFrom (nnz : ℕ) (st : Store K) (src : List (Ent K)) (idx : ℕ → ℕ) (n : ℕ)
    (hs : RowSorted src) (hidx : StrictMono idx)
    (hn : nnz = (pickRows src idx (fun a => a) 0 n).length) :
    ∃ st', copyRowsFrom nnz st src idx n = some st' ∧
      ∀ i j, i < n → entry (toList st' nnz) i j = entry src (idx i) j := by
  obtain ⟨st', h1, h2⟩ := copyRowsLoop_eq nnz idx (fun a => a) hidx 0 n src hs st 0 (by omega)
  refine ⟨st', ?_, fun i j hi => ?_⟩
  · rw [copyRowsFrom, h1]
    simp [← hn]
  · rw [Nat.zero_add, ← hn] at h2
    rw [h2, entry_append]
    have : (fun a : ℕ => a) = fun a => 0 + a := by funext a; omega
    rw [this, entry_pickRows, if_pos (by omega)]
    simp [toList]

/-- **C27, copying a block of rows.** -/
theorem C27_copyRowsBlockFrom (nnz : ℕ) (st : Store K) (src : List (Ent K)) (rsrc n rdst k : ℕ)
    (hs : RowSorted src)
    (hn : k + (pickRows src (fun a => rsrc + a) (fun a => rdst + a) 0 n).length ≤ nnz) :
    ∃ st', copyRowsBlockFrom nnz st src rsrc n rdst k = some st' ∧
      toList st' (k + (pickRows src (fun a => rsrc + a) (fun a => rdst + a) 0 n).length)
        = toList st k ++ pickRows src (fun a => rsrc + a) (fun a => rdst + a) 0 n ∧
      ∀ i j, entry (toList st' (k + (pickRows src (fun a => rsrc + a) (fun a => rdst + a) 0 n).length)) i j
        = entry (toList st k) i j
          + if rdst ≤ i ∧ i < rdst + n then entry src (rsrc + (i - rdst)) j else 0 := by
  obtain ⟨st', h1, h2⟩ := copyRowsLoop_eq nnz (fun a => rsrc + a) (fun a => rdst + a)
    (fun a b h => by simp only; omega) 0 n src hs st k hn
  refine ⟨st', by rw [copyRowsBlockFrom, h1]; rfl, h2, fun i j => ?_⟩
  rw [h2, entry_append, entry_pickRows, Nat.add_zero]

/-- When all rows are copied in place, the piece is the source itself. -/
theorem pickRows_all (src : List (Ent K)) (hs : RowSorted src) (d n : ℕ)
    (h : ∀ e ∈ src, e.r < n) :
    pickRows src (fun a => 0 + a) (fun a => d + a) 0 n = src.map fun e => { e with r := d + e.r } := by
  have gen : ∀ m a, (∀ e ∈ src, e.r < a + m) → pickRows src (fun a => 0 + a) (fun a => d + a) a m
      = (src.filter fun e => decide (a ≤ e.r)).map fun e => { e with r := d + e.r } := by
    intro m
    induction m with
    | zero =>
      intro a h
      have : (src.filter fun e => decide (a ≤ e.r)) = [] := by
        rw [List.filter_eq_nil_iff]
        intro e he
        have := h e he
        simp; omega
      rw [this]; rfl
    | succ m ih =>
      intro a h
      rw [pickRows_succ, ih (a + 1) fun e he => by have := h e he; omega]
      have hs' : RowSorted (src.filter fun e => decide (a ≤ e.r)) := List.Pairwise.filter _ hs
      have hi : ∀ e ∈ src.filter fun e => decide (a ≤ e.r), a ≤ e.r := by
        intro e he; simpa using (List.mem_filter.1 he).2
      obtain ⟨h1, h2⟩ := split_row _ a hs' hi
      have hsp := List.take_append_drop
        ((src.filter fun e => decide (a ≤ e.r)).takeWhile fun e => decide (e.r = a)).length
        (src.filter fun e => decide (a ≤ e.r))
      rw [h2, ← List.prefix_iff_eq_take.1 (List.takeWhile_prefix _), h1, List.filter_filter,
        List.filter_filter] at hsp
      have f1 : (src.filter fun e => decide (e.r = a) && decide (a ≤ e.r))
          = src.filter fun e => decide (e.r = 0 + a) := by
        congr 1
        funext e
        by_cases h : e.r = a
        · simp [h]
        · simp [h]
      have f2 : (src.filter fun e => decide (a + 1 ≤ e.r) && decide (a ≤ e.r))
          = src.filter fun e => decide (a + 1 ≤ e.r) := by
        congr 1
        funext e
        by_cases h : a + 1 ≤ e.r
        · have : a ≤ e.r := by omega
          simp [h, this]
        · simp [h]
      rw [f1, f2] at hsp
      rw [← hsp, List.map_append]
      congr 1
      refine List.map_congr_left fun e he => ?_
      have : e.r = 0 + a := by simpa using (List.mem_filter.1 he).2
      rw [this, Nat.zero_add]
  have := gen n 0 (by simpa using h)
  rw [this]
  congr 1
  rw [List.filter_eq_self]
  intro e _; simp

/-- **C27, refuted for unsorted sources.** With the rows of the source out of order the copy skips
entries, nothing is reported, and the skipped positions of the destination keep what they held
before: asked for the two rows of `diag(4, 9)` stored as row 1, row 0, the destination ends with
its old contents in place of row 0. -/
theorem C27_copyRowsBlock_unsorted_refuted :
    ∃ st', copyRowsBlockFrom 2 (fun _ => ⟨0, 1, (77 : ℚ)⟩) [⟨1, 1, 9⟩, ⟨0, 0, 4⟩] 0 2 0 0 = some st' ∧
      toList st' 2 = [⟨1, 1, 9⟩, ⟨0, 1, 77⟩] := by
  refine ⟨writeAt (writeAt (fun _ => ⟨0, 1, 77⟩) 0 []) 0 [⟨1, 1, 9⟩], ?_, by decide +kernel⟩
  rfl

/-! ## Diagonal pieces -/

/-- A shifted diagonal `[(rs+a, cs+a, v a)]`. -/
def diagList (rs cs num : ℕ) (v : ℕ → K) : List (Ent K) :=
  (List.range num).map fun a => ⟨rs + a, cs + a, v a⟩

theorem entry_diagList (rs cs num : ℕ) (v : ℕ → K) (i j : ℕ) :
    entry (diagList rs cs num v) i j
      = if rs ≤ i ∧ i < rs + num ∧ cs ≤ j ∧ j - cs = i - rs then v (i - rs) else 0 := by
  induction num with
  | zero => rw [if_neg (by omega)]; rfl
  | succ n ih =>
    rw [diagList, List.range_succ, List.map_append, entry_append, ← diagList, ih]
    simp only [List.map_cons, List.map_nil, entry_cons, entry_nil, add_zero]
    by_cases h : rs + n = i ∧ cs + n = j
    · obtain ⟨rfl, rfl⟩ := h
      rw [if_neg (by omega), if_pos ⟨rfl, rfl⟩, if_pos (by omega), zero_add, Nat.add_sub_cancel_left]
    · rw [if_neg h, add_zero]
      by_cases h2 : rs ≤ i ∧ i < rs + n ∧ cs ≤ j ∧ j - cs = i - rs
      · rw [if_pos h2, if_pos (by omega)]
      · rw [if_neg h2, if_neg (by omega)]

/-- **C27, diagonal pieces.** Each of the routines that append a diagonal appends exactly it and keeps
what was written before. -/
theorem C27_copySubDiagonal (nnz : ℕ) (store : Store K) (st num : ℕ) (v : ℕ → K) (k : ℕ) (scal : K)
    (h : k + num ≤ nnz) :
    ∃ st', copySubDiagonalFrom nnz store st num v k scal = some st' ∧
      toList st' (k + num) = toList store k ++ diagList st st num fun a => scal * v a := by
  refine ⟨_, (writeChecked_iff _ _ _ _ _).2 ⟨by simpa [subDiag] using h, rfl⟩, ?_⟩
  have := toList_writeAt store k (subDiag st num v scal)
  rw [show (subDiag st num v scal).length = num by simp [subDiag]] at this
  exact this

theorem C27_setSubDiagonal (nnz : ℕ) (store : Store K) (st num : ℕ) (c : K) (k : ℕ)
    (h : k + num ≤ nnz) :
    ∃ st', setSubDiagonalTo nnz store st num c k = some st' ∧
      toList st' (k + num) = toList store k ++ diagList st st num fun _ => c := by
  refine ⟨_, (writeChecked_iff _ _ _ _ _).2 ⟨by simpa using h, rfl⟩, ?_⟩
  have := toList_writeAt store k (diagList st st num fun _ => c)
  rw [show (diagList st st num fun _ => c).length = num by simp [diagList]] at this
  exact this

theorem C27_copyDiagToSubblock (nnz : ℕ) (store : Store K) (c : K) (rs cs k num : ℕ)
    (h : k + num ≤ nnz) :
    ∃ st', copyDiagToSubblock nnz store c rs cs k num = some st' ∧
      toList st' (k + num) = toList store k ++ diagList rs cs num fun _ => c := by
  refine ⟨_, (writeChecked_iff _ _ _ _ _).2 ⟨by simpa using h, rfl⟩, ?_⟩
  have := toList_writeAt store k (diagList rs cs num fun _ => c)
  rw [show (diagList rs cs num fun _ => c).length = num by simp [diagList]] at this
  exact this

/-! ## Submatrix copies -/

/-- Shifted triplets. -/
def shift (rs cs : ℕ) (l : List (Ent K)) : List (Ent K) := l.map fun e => ⟨rs + e.r, cs + e.c, e.v⟩

theorem entry_shift (rs cs : ℕ) (l : List (Ent K)) (i j : ℕ) :
    entry (shift rs cs l) i j = if rs ≤ i ∧ cs ≤ j then entry l (i - rs) (j - cs) else 0 := by
  induction l with
  | nil => simp [shift]
  | cons e l ih =>
    rw [shift, List.map_cons, entry_cons, ← shift, ih, entry_cons]
    by_cases h : rs ≤ i ∧ cs ≤ j
    · rw [if_pos h, if_pos h]
      by_cases h2 : e.r = i - rs ∧ e.c = j - cs
      · rw [if_pos h2, if_pos (by simp only; omega)]
      · rw [if_neg h2, if_neg (by simp only; omega)]
    · rw [if_neg h, if_neg h, if_neg (by simp only; omega), zero_add]

theorem entry_offdiag (l : List (Ent K)) (i j : ℕ) :
    entry (l.filter fun e => decide (e.r ≠ e.c)) i j = if i = j then 0 else entry l i j := by
  induction l with
  | nil => simp
  | cons e l ih =>
    rw [List.filter_cons, entry_cons]
    by_cases h : e.r = e.c
    · rw [if_neg (by simpa using h), ih]
      by_cases hij : i = j
      · rw [if_pos hij, if_pos hij]
      · rw [if_neg hij, if_neg hij, if_neg (fun x : e.r = i ∧ e.c = j => hij (x.1.symm.trans (h.trans x.2))),
          zero_add]
    · rw [if_pos (by simpa using h), entry_cons, ih]
      by_cases hij : i = j
      · rw [if_pos hij, if_pos hij, if_neg (fun x : e.r = i ∧ e.c = j => h (x.1.trans (hij.trans x.2.symm))),
          zero_add]
      · rw [if_neg hij, if_neg hij]

/-- **C27, submatrix copies.** With room for the copied entries, the copy adds the (possibly
transposed, possibly without its diagonal) source at the given offsets. -/
theorem C27_copySubmatrix (nnz : ℕ) (store : Store K) (src : List (Ent K)) (rs cs k : ℕ)
    (offdiagOnly tr : Bool) (h : k + src.length ≤ nnz) :
    ∃ st' k', copySubmatrixFrom nnz store src rs cs k offdiagOnly tr = some st' ∧ k ≤ k' ∧ k' ≤ nnz ∧
      ∀ i j, entry (toList st' k') i j = entry (toList store k) i j +
        if rs ≤ i ∧ cs ≤ j ∧ ¬ (offdiagOnly = true ∧ i - rs = j - cs) then
          (if tr then entry src (j - cs) (i - rs) else entry src (i - rs) (j - cs)) else 0 := by
  set s1 := if tr then src.map fun e => (⟨e.c, e.r, e.v⟩ : Ent K) else src with hs1
  set l := if offdiagOnly then s1.filter fun e => decide (e.r ≠ e.c) else s1 with hl
  have len1 : s1.length = src.length := by
    rw [hs1]; cases tr <;> simp
  have len : l.length ≤ src.length := by
    rw [hl, ← len1]
    cases offdiagOnly
    · simp
    · simpa using List.length_filter_le _ _
  have hlen : (shift rs cs l).length = l.length := by simp [shift]
  refine ⟨writeAt store k (shift rs cs l), k + l.length, ?_, by omega, by omega, fun i j => ?_⟩
  · have hle : k + (shift rs cs l).length ≤ nnz := by omega
    exact (writeChecked_iff _ _ _ _ _).2 ⟨hle, rfl⟩
  · rw [← hlen, toList_writeAt, entry_append, entry_shift]
    congr 1
    have e1 : ∀ a b, entry s1 a b = if tr then entry src b a else entry src a b := by
      intro a b
      rw [hs1]
      cases tr
      · simp
      · simp only [if_true]
        exact entry_flip src a b
    have e2 : ∀ a b, entry l a b = if offdiagOnly = true ∧ a = b then 0 else
        if tr then entry src b a else entry src a b := by
      intro a b
      rw [hl]
      cases offdiagOnly
      · simp [e1]
      · simp only [if_true]
        rw [entry_offdiag, e1]
        simp
    rw [e2]
    by_cases hp : rs ≤ i ∧ cs ≤ j
    · rw [if_pos hp]
      by_cases ho : offdiagOnly = true ∧ i - rs = j - cs
      · rw [if_pos ho, if_neg (fun x => x.2.2 ho)]
      · have hq : rs ≤ i ∧ cs ≤ j ∧ ¬ (offdiagOnly = true ∧ i - rs = j - cs) := ⟨hp.1, hp.2, ho⟩
        rw [if_neg ho, if_pos hq]
    · rw [if_neg hp, if_neg (fun x => hp ⟨x.1, x.2.1⟩)]

/-! ## The Jacobian of the feasibility-restoration problem -/

theorem filter_lt_succ (es : List (Ent K)) (p : ℕ) :
    (es.filter fun e => decide (e.r < p + 1)).length
      = (es.filter fun e => decide (e.r < p)).length + (es.filter fun e => decide (e.r = p)).length := by
  induction es with
  | nil => rfl
  | cons e es ih =>
    simp only [List.filter_cons]
    rcases lt_trichotomy e.r p with h | h | h
    · have h1 : e.r < p + 1 := by omega
      have h2 : e.r ≠ p := by omega
      simp only [h, h1, h2, decide_true, decide_false, if_true, List.length_cons, Bool.false_eq_true,
        if_false, ih]
      omega
    · have h1 : e.r < p + 1 := by omega
      have h2 : ¬ e.r < p := by omega
      simp only [h, h1, h2, decide_true, decide_false, if_true, List.length_cons, Bool.false_eq_true,
        if_false, ih, lt_irrefl, Nat.lt_succ_self]
      omega
    · have h1 : ¬ e.r < p + 1 := by omega
      have h2 : ¬ e.r < p := by omega
      have h3 : e.r ≠ p := by omega
      simp only [h1, h2, h3, decide_false, Bool.false_eq_true, if_false, ih]

theorem frRows_length (p : ℕ) (es : List (Ent K)) (hs : RowSorted es) (r0 cp cn : ℕ) :
    (frRows p es r0 cp cn).length = (es.filter fun e => decide (e.r < p)).length + 2 * p := by
  induction p with
  | zero => simp [frRows]
  | succ p ih =>
    have : frRows (p + 1) es r0 cp cn = frRows p es r0 cp cn ++
        (((rowSlice es p).map fun e => { e with r := r0 + p })
          ++ [⟨r0 + p, cp + p, -1⟩, ⟨r0 + p, cn + p, 1⟩]) := by
      simp [frRows, List.range_succ, List.flatMap_append]
    rw [this, List.length_append, ih, List.length_append, List.length_map, rowSlice_eq es hs,
      filter_lt_succ]
    simp only [List.length_cons, List.length_nil]
    omega

theorem entry_frRows (p : ℕ) (es : List (Ent K)) (hs : RowSorted es) (r0 cp cn i j : ℕ) :
    entry (frRows p es r0 cp cn) i j = if r0 ≤ i ∧ i < r0 + p then
      entry es (i - r0) j + (if j = cp + (i - r0) then -1 else 0) + (if j = cn + (i - r0) then 1 else 0)
      else 0 := by
  induction p with
  | zero => rw [if_neg (by omega)]; simp [frRows]
  | succ p ih =>
    have : frRows (p + 1) es r0 cp cn = frRows p es r0 cp cn ++
        (((rowSlice es p).map fun e => { e with r := r0 + p })
          ++ [⟨r0 + p, cp + p, -1⟩, ⟨r0 + p, cn + p, 1⟩]) := by
      simp [frRows, List.range_succ, List.flatMap_append]
    rw [this, entry_append, entry_append, ih, rowSlice_eq es hs, entry_row_single]
    simp only [entry_cons, entry_nil, add_zero]
    by_cases h : r0 + p = i
    · subst h
      have n1 : ¬ (r0 ≤ r0 + p ∧ r0 + p < r0 + p) := by omega
      have n2 : r0 ≤ r0 + p ∧ r0 + p < r0 + (p + 1) := by omega
      simp only [if_neg n1, if_pos n2, if_true, Nat.add_sub_cancel_left, true_and,
        eq_comm (a := j), zero_add, add_assoc]
    · simp only [h, false_and, if_false, add_zero]
      by_cases h2 : r0 ≤ i ∧ i < r0 + p
      · have h3 : r0 ≤ i ∧ i < r0 + (p + 1) := by omega
        rw [if_pos h2, if_pos h3]
      · have h3 : ¬ (r0 ≤ i ∧ i < r0 + (p + 1)) := by omega
        rw [if_neg h2, if_neg h3]

/-- **C27, Jacobian of the restoration problem.** For row-sorted Jacobians in range the restoration
Jacobian is `[Jc -I I 0 0; Jd 0 0 -I I]`, the number of stored entries is the one allocated, and no
assertion fails. -/
theorem C27_setJacFR (n mc md : ℕ) (Jc Jd : List (Ent K)) (hc : RowSorted Jc) (hd : RowSorted Jd)
    (rc : InRange mc n Jc) (rd : InRange md n Jd) :
    ∃ l, setJacFR n mc md Jc Jd (Jc.length + 2 * mc + (Jd.length + 2 * md)) = some l ∧
      l.length = Jc.length + 2 * mc + (Jd.length + 2 * md) ∧
      (∀ i j, i < mc → entry l i j = if j < n then entry Jc i j else
        if j = n + i then -1 else if j = n + mc + i then 1 else 0) ∧
      (∀ i j, i < md → entry l (mc + i) j = if j < n then entry Jd i j else
        if j = n + 2 * mc + i then -1 else if j = n + 2 * mc + md + i then 1 else 0) := by
  have lc := frRows_length mc Jc hc 0 n (n + mc)
  have ld := frRows_length md Jd hd mc (n + 2 * mc) (n + 2 * mc + md)
  have fc : (Jc.filter fun e => decide (e.r < mc)) = Jc := by
    rw [List.filter_eq_self]; intro e he; simpa using (rc e he).1
  have fd : (Jd.filter fun e => decide (e.r < md)) = Jd := by
    rw [List.filter_eq_self]; intro e he; simpa using (rd e he).1
  rw [fc] at lc
  rw [fd] at ld
  have hl : (frRows mc Jc 0 n (n + mc) ++ frRows md Jd mc (n + 2 * mc) (n + 2 * mc + md)).length
      = Jc.length + 2 * mc + (Jd.length + 2 * md) := by rw [List.length_append, lc, ld]
  have oc : ∀ i j, ¬ j < n → entry Jc i j = 0 := fun i j h =>
    entry_out_col fun e he x => h (x ▸ (rc e he).2)
  have od : ∀ i j, ¬ j < n → entry Jd i j = 0 := fun i j h =>
    entry_out_col fun e he x => h (x ▸ (rd e he).2)
  refine ⟨_, ?_, hl, fun i j hi => ?_, fun i j hi => ?_⟩
  · rw [setJacFR, if_pos ⟨rfl, (rowStartsOk_iff Jc hc mc).2 fun e he => (rc e he).1,
      (rowStartsOk_iff Jd hd md).2 fun e he => (rd e he).1⟩]
    simp only
    rw [if_pos hl]
  · have n1 : 0 ≤ i ∧ i < 0 + mc := by omega
    have n2 : ¬ (mc ≤ i ∧ i < mc + md) := by omega
    rw [entry_append, entry_frRows mc Jc hc, entry_frRows md Jd hd, if_pos n1, if_neg n2, add_zero]
    simp only [Nat.sub_zero]
    by_cases h : j < n
    · rw [if_pos h, if_neg (by omega), if_neg (by omega), add_zero, add_zero]
    · rw [if_neg h, oc i j h, zero_add]
      by_cases h2 : j = n + i
      · rw [if_pos h2, if_pos h2, if_neg (by omega), add_zero]
      · rw [if_neg h2, if_neg h2, zero_add]
  · have n1 : ¬ (0 ≤ mc + i ∧ mc + i < 0 + mc) := by omega
    have n2 : mc ≤ mc + i ∧ mc + i < mc + md := by omega
    rw [entry_append, entry_frRows mc Jc hc, entry_frRows md Jd hd, if_neg n1, if_pos n2, zero_add,
      Nat.add_sub_cancel_left]
    by_cases h : j < n
    · rw [if_pos h, if_neg (by omega), if_neg (by omega), add_zero, add_zero]
    · rw [if_neg h, od i j h, zero_add]
      by_cases h2 : j = n + 2 * mc + i
      · rw [if_pos h2, if_pos h2, if_neg (by omega), add_zero]
      · rw [if_neg h2, if_neg h2, zero_add]

/-! ## Concrete cases -/

/-- A symmetric 2 by 2 matrix stored by its upper triangle. -/
def exS : List (Ent ℚ) := [⟨0, 0, 2⟩, ⟨0, 1, 3⟩, ⟨1, 1, 5⟩]

theorem exS_inRange : InRange 2 2 exS := by
  intro e he
  simp only [exS, List.mem_cons, List.not_mem_nil, or_false] at he
  rcases he with rfl | rfl | rfl <;> simp

theorem exS_sorted : Sorted exS := by unfold Sorted exS; simp

example : transAddUpper 6 exA 0 3 2 (fun _ _ => 1)
    = some (Kkt.transAdd 0 3 2 (dense 2 3 exA) fun _ _ => 1) :=
  C27_transAddUpper (p := 2) (q := 3) 6 exA 0 3 2 exA_inRange (by omega) (by omega) (by omega) _

example : Kkt.transAdd 0 3 2 (dense 2 3 exA) (fun _ _ => 1) 2 3 = 7 := by decide +kernel

example : ∃ W, symAddUpper 3 exS 1 2 (fun _ _ => 1) = some W ∧ W 1 2 = 7 ∧ W 2 1 = 1 := by
  refine ⟨_, C27_symAddUpper (p := 2) 3 exS 1 2 exS_inRange ?_ (by omega) _, ?_, ?_⟩
  · intro e he
    simp only [exS, List.mem_cons, List.not_mem_nil, or_false] at he
    rcases he with rfl | rfl | rfl <;> simp
  · decide +kernel
  · decide +kernel

example : rowMaxAbs [⟨0, 0, (2 : ℚ)⟩, ⟨0, 2, -3⟩, ⟨1, 2, 5⟩] 0 = 3 := by decide +kernel
example : Distinct exA := exA_sorted.distinct
example : extractDiagonal exS 1 = 5 := by
  rw [C27_extractDiagonal exS exS_sorted.distinct]; decide +kernel

example : ∃ st', copyRowsFrom 1 (fun _ => ⟨0, 0, (0 : ℚ)⟩) exA (fun a => a + 1) 1 = some st' ∧
    entry (toList st' 1) 0 2 = 5 := by
  obtain ⟨st', h1, h2⟩ := C27_copyRowsFrom 1 (fun _ => ⟨0, 0, (0 : ℚ)⟩) exA (fun a => a + 1) 1
    exA_sorted.row (fun a b h => by simp only; omega) (by decide +kernel)
  exact ⟨st', h1, by rw [h2 0 2 (by omega)]; decide +kernel⟩

example : ∃ l, setJacFR 3 2 2 exA exA 14 = some l ∧ entry l 1 2 = 5 ∧ entry l 1 4 = -1 ∧ entry l 1 6 = 1 ∧
    entry l 2 0 = 2 ∧ entry l 2 7 = -1 ∧ entry l 2 9 = 1 ∧ entry l 2 3 = 0 := by
  obtain ⟨l, h, -, h1, h2⟩ := C27_setJacFR (K := ℚ) 3 2 2 exA exA exA_sorted.row exA_sorted.row
    exA_inRange exA_inRange
  exact ⟨l, h, by rw [h1 1 2 (by omega)]; decide +kernel, by rw [h1 1 4 (by omega)]; decide +kernel,
    by rw [h1 1 6 (by omega)]; decide +kernel, by rw [h2 0 0 (by omega)]; decide +kernel,
    by rw [h2 0 7 (by omega)]; decide +kernel, by rw [h2 0 9 (by omega)]; decide +kernel,
    by rw [h2 0 3 (by omega)]; decide +kernel⟩

/-- **C27, refuted: row maxima with repeated positions.** The row norm used for gradient-based scaling
misses that two triplets at one position add up. -/
theorem C27_rowMaxAbs_duplicates_refuted :
    rowMaxAbs [⟨0, 0, (2 : ℚ)⟩, ⟨0, 0, 3⟩] 0 = 3 ∧ entry [⟨0, 0, (2 : ℚ)⟩, ⟨0, 0, 3⟩] 0 0 = 5 := by
  constructor <;> decide +kernel

end Hiop.Sparse
