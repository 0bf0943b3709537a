import Verif.Sparse.Full
import Mathlib.Data.List.Indexes
import Mathlib.Algebra.BigOperators.Fin

/-!
# C57: rows of a matrix written block by block
-/

set_option linter.unusedSectionVars false

namespace Hiop.Sparse

open Hiop.Vec Hiop.Iterate Hiop.Kkt Hiop.Range

variable {K : Type*} [Field K] [LinearOrder K] [IsStrictOrderedRing K] {n mc m p q : ℕ}

/-- Product of row `r` of a list of triplets with `x`. -/
def rowSum (es : List (Ent K)) (x : ℕ → K) (r : ℕ) : K :=
  (es.map fun e => if e.r = r then e.v * x e.c else 0).sum

theorem rowSum_append (a b : List (Ent K)) (x : ℕ → K) (r : ℕ) :
    rowSum (a ++ b) x r = rowSum a x r + rowSum b x r := by simp [rowSum]

theorem rowSum_nil (x : ℕ → K) (r : ℕ) : rowSum ([] : List (Ent K)) x r = 0 := rfl

theorem rowSum_cons (e : Ent K) (es : List (Ent K)) (x : ℕ → K) (r : ℕ) :
    rowSum (e :: es) x r = (if e.r = r then e.v * x e.c else 0) + rowSum es x r := by simp [rowSum]

theorem rowSum_flatten (ls : List (List (Ent K))) (x : ℕ → K) (r : ℕ) :
    rowSum ls.flatten x r = (ls.map fun l => rowSum l x r).sum := by
  induction ls with
  | nil => rfl
  | cons l ls ih => simp [rowSum_append, ih]

theorem sum_entry (es : List (Ent K)) (N : ℕ) (h : ∀ e ∈ es, e.c < N) (x : ℕ → K) (r : ℕ) :
    ∑ c ∈ Finset.range N, entry es r c * x c = rowSum es x r := by
  induction es with
  | nil => simp [rowSum]
  | cons e es ih =>
    rw [rowSum_cons, ← ih fun e' he => h e' (List.mem_cons_of_mem _ he)]
    simp only [entry_cons, add_mul, Finset.sum_add_distrib]
    congr 1
    by_cases hr : e.r = r
    · rw [if_pos hr, Finset.sum_eq_single e.c]
      · rw [if_pos ⟨hr, rfl⟩]
      · intro c _ hc
        rw [if_neg fun hh => hc hh.2.symm, zero_mul]
      · intro hc
        exact absurd (Finset.mem_range.2 (h e List.mem_cons_self)) hc
    · rw [if_neg hr]
      exact Finset.sum_eq_zero fun c _ => by rw [if_neg fun hh => hr hh.1, zero_mul]

theorem rowSum_shift (rs cs : ℕ) (l : List (Ent K)) (x : ℕ → K) (r : ℕ) :
    rowSum (shift rs cs l) x r = if rs ≤ r then rowSum l (fun c => x (cs + c)) (r - rs) else 0 := by
  induction l with
  | nil => simp [shift, rowSum]
  | cons e l ih =>
    have : shift rs cs (e :: l) = ⟨rs + e.r, cs + e.c, e.v⟩ :: shift rs cs l := rfl
    rw [this, rowSum_cons, ih, rowSum_cons]
    by_cases h : rs ≤ r
    · rw [if_pos h, if_pos h]
      by_cases h2 : e.r = r - rs
      · rw [if_pos h2, if_pos (by simp only; omega)]
      · rw [if_neg h2, if_neg (by simp only; omega)]
    · rw [if_neg h, if_neg h, if_neg (by simp only; omega), add_zero]

theorem rowSum_out {es : List (Ent K)} (h : InRange p q es) (x : ℕ → K) {r : ℕ} (hr : p ≤ r) :
    rowSum es x r = 0 := by
  unfold rowSum
  apply List.sum_eq_zero
  intro a ha
  rw [List.mem_map] at ha
  obtain ⟨e, he, rfl⟩ := ha
  rw [if_neg (by have := (h e he).1; omega)]

/-- Rows of a copied submatrix with `p` rows. -/
theorem rowSum_shift_in {es : List (Ent K)} (_ : InRange p q es) (rs cs : ℕ) (x : ℕ → K) {r : ℕ}
    (hr : rs ≤ r ∧ r < rs + p) : rowSum (shift rs cs es) x r = rowSum es (fun c => x (cs + c)) (r - rs) := by
  rw [rowSum_shift, if_pos hr.1]

theorem rowSum_shift_out {es : List (Ent K)} (h : InRange p q es) (rs cs : ℕ) (x : ℕ → K) {r : ℕ}
    (hr : r < rs ∨ rs + p ≤ r) : rowSum (shift rs cs es) x r = 0 := by
  rw [rowSum_shift]
  by_cases h1 : rs ≤ r
  · rw [if_pos h1, rowSum_out h _ (by omega)]
  · rw [if_neg h1]

theorem rowSum_diag (rs cs num : ℕ) (v : ℕ → K) (x : ℕ → K) (r : ℕ) :
    rowSum (diagList rs cs num v) x r =
      if rs ≤ r ∧ r < rs + num then v (r - rs) * x (cs + (r - rs)) else 0 := by
  induction num with
  | zero => rw [if_neg (by omega)]; rfl
  | succ k ih =>
    rw [diagList, List.range_succ, List.map_append, rowSum_append, ← diagList, ih]
    simp only [List.map_cons, List.map_nil, rowSum_cons, rowSum_nil, add_zero]
    by_cases h : rs + k = r
    · subst h
      rw [if_neg (by omega), if_pos rfl, if_pos (by omega), zero_add, Nat.add_sub_cancel_left]
    · rw [if_neg h, add_zero]
      by_cases h2 : rs ≤ r ∧ r < rs + k
      · rw [if_pos h2, if_pos (by omega)]
      · rw [if_neg h2, if_neg (by omega)]

theorem rowSum_diag_in (rs cs num : ℕ) (v : ℕ → K) (x : ℕ → K) {r : ℕ}
    (h : rs ≤ r ∧ r < rs + num) :
    rowSum (diagList rs cs num v) x r = v (r - rs) * x (cs + (r - rs)) := by
  rw [rowSum_diag, if_pos h]

theorem rowSum_diag_out (rs cs num : ℕ) (v : ℕ → K) (x : ℕ → K) {r : ℕ}
    (h : r < rs ∨ rs + num ≤ r) : rowSum (diagList rs cs num v) x r = 0 := by
  rw [rowSum_diag, if_neg (by omega)]

/-! ## Blocks selected by a pattern -/

/-- Triplets of `setSubmatrixToConstantDiag_w_colpattern`. -/
def colPat (c : K) (rs cs : ℕ) (ix : RVec K p) : List (Ent K) :=
  (selList ix).mapIdx fun a (i : Fin p) => ⟨rs + i, cs + a, c⟩

/-- Triplets of `setSubmatrixToConstantDiag_w_rowpattern`. -/
def rowPat (c : K) (rs cs : ℕ) (ix : RVec K p) : List (Ent K) :=
  (selList ix).mapIdx fun a (i : Fin p) => ⟨rs + a, cs + i, c⟩

/-- Triplets of `copyDiagMatrixToSubblock_w_pattern`. -/
def selDiag (v : RVec K p) (rs cs : ℕ) (ix : RVec K p) : List (Ent K) :=
  (selList ix).mapIdx fun a i => ⟨rs + a, cs + a, v i⟩

theorem selList_ne_zero {ix : RVec K p} (h : IsPattern ix) :
    ((List.finRange p).filter fun i => decide (ix i ≠ 0)) = selList ix := by
  unfold selList
  apply List.filter_congr
  intro i _
  rcases h i with h | h <;> simp [h]

theorem sum_selList (ix : RVec K p) (g : ℕ → Fin p → K) :
    ((selList ix).mapIdx g).sum = ∑ i, if ix i = 1 then g (rank ix i) i else 0 := by
  rw [List.mapIdx_eq_ofFn, List.sum_ofFn, ← Finset.sum_filter]
  symm
  refine Finset.sum_bij' (fun i hi => ⟨rank ix i, ?_⟩) (fun k _ => (selList ix)[k]) ?_ ?_ ?_ ?_ ?_
  · rw [← count_eq]
    exact rank_lt_count ix (Finset.mem_filter.1 hi).2
  · intro i hi; exact Finset.mem_univ _
  · intro k _
    rw [Finset.mem_filter]
    have h := List.getElem_mem k.2
    exact ⟨Finset.mem_univ _, of_decide_eq_true (List.mem_filter.1 h).2⟩
  · intro i hi
    have h := selList_rank ix (Finset.mem_filter.1 hi).2
    rw [List.getElem?_eq_some_iff] at h
    exact h.2
  · intro k _
    have h1 : ix (selList ix)[k] = 1 := of_decide_eq_true (List.mem_filter.1 (List.getElem_mem k.2)).2
    have h2 := selList_rank ix h1
    rw [List.getElem?_eq_some_iff] at h2
    obtain ⟨h3, h4⟩ := h2
    have hnd : (selList ix).Nodup := (List.nodup_finRange p).filter _
    ext
    exact (List.Nodup.getElem_inj_iff hnd).1 h4
  · intro i hi
    have h := selList_rank ix (Finset.mem_filter.1 hi).2
    rw [List.getElem?_eq_some_iff] at h
    obtain ⟨h3, h4⟩ := h
    simp only [List.get_eq_getElem, h4]

theorem rowSum_mapIdx (ix : RVec K p) (f : ℕ → Fin p → Ent K) (x : ℕ → K) (r : ℕ) :
    rowSum ((selList ix).mapIdx f) x r =
      ∑ i, if ix i = 1 then (if (f (rank ix i) i).r = r then
        (f (rank ix i) i).v * x (f (rank ix i) i).c else 0) else 0 := by
  unfold rowSum
  have h : ((selList ix).mapIdx f).map (fun e => if e.r = r then e.v * x e.c else 0) =
      (selList ix).mapIdx fun a i => if (f a i).r = r then (f a i).v * x (f a i).c else 0 := by
    rw [List.mapIdx_eq_ofFn, List.mapIdx_eq_ofFn, List.map_ofFn]
    rfl
  rw [h]
  exact sum_selList ix _

theorem rowSum_colPat {ix : RVec K p} (i : Fin p) {c : K} {rs cs : ℕ} {x : ℕ → K} {r : ℕ}
    (hr : r = rs + i) :
    rowSum (colPat c rs cs ix) x r = if ix i = 1 then c * x (cs + rank ix i) else 0 := by
  subst hr
  unfold colPat
  rw [rowSum_mapIdx, Finset.sum_eq_single i]
  · simp
  · intro j _ hj
    have : ¬ (rs + (j : ℕ) = rs + (i : ℕ)) := fun e => hj (Fin.ext (by omega))
    simp only [if_neg this, ite_self]
  · simp

theorem rowSum_colPat_out (c : K) (rs cs : ℕ) (ix : RVec K p) (x : ℕ → K) {r : ℕ}
    (hr : r < rs ∨ rs + p ≤ r) : rowSum (colPat c rs cs ix) x r = 0 := by
  unfold colPat
  rw [rowSum_mapIdx]
  apply Finset.sum_eq_zero
  intro i _
  have : ¬ (rs + (i : ℕ) = r) := by have := i.2; omega
  simp [this]

theorem rowSum_rowPat {ix : RVec K p} {i : Fin p} (hi : ix i = 1) {c : K} {rs cs : ℕ}
    {x : ℕ → K} {r : ℕ} (hr : r = rs + rank ix i) :
    rowSum (rowPat c rs cs ix) x r = c * x (cs + i) := by
  subst hr
  unfold rowPat
  rw [rowSum_mapIdx, Finset.sum_eq_single i]
  · simp [hi]
  · intro j _ hj
    by_cases hj1 : ix j = 1
    · have : ¬ (rs + rank ix j = rs + rank ix i) := fun e =>
        hj (rank_injective ix hj1 hi (by omega))
      simp only [if_neg this, ite_self]
    · simp [hj1]
  · simp

theorem rowSum_rowPat_out (c : K) (rs cs : ℕ) (ix : RVec K p) (x : ℕ → K) {r : ℕ}
    (hr : r < rs ∨ rs + count ix ≤ r) : rowSum (rowPat c rs cs ix) x r = 0 := by
  unfold rowPat
  rw [rowSum_mapIdx]
  apply Finset.sum_eq_zero
  intro i _
  by_cases hi : ix i = 1
  · have : ¬ (rs + rank ix i = r) := by have := rank_lt_count ix hi; omega
    simp [this]
  · simp [hi]

theorem rowSum_selDiag {ix : RVec K p} {i : Fin p} (hi : ix i = 1) {v : RVec K p} {rs cs : ℕ}
    {x : ℕ → K} {r : ℕ} (hr : r = rs + rank ix i) :
    rowSum (selDiag v rs cs ix) x r = v i * x (cs + rank ix i) := by
  subst hr
  unfold selDiag
  rw [rowSum_mapIdx, Finset.sum_eq_single i]
  · simp [hi]
  · intro j _ hj
    by_cases hj1 : ix j = 1
    · have : ¬ (rs + rank ix j = rs + rank ix i) := fun e =>
        hj (rank_injective ix hj1 hi (by omega))
      simp only [if_neg this, ite_self]
    · simp [hj1]
  · simp

theorem rowSum_selDiag_out (v : RVec K p) (rs cs : ℕ) (ix : RVec K p) (x : ℕ → K) {r : ℕ}
    (hr : r < rs ∨ rs + count ix ≤ r) : rowSum (selDiag v rs cs ix) x r = 0 := by
  unfold selDiag
  rw [rowSum_mapIdx]
  apply Finset.sum_eq_zero
  intro i _
  by_cases hi : ix i = 1
  · have : ¬ (rs + rank ix i = r) := by have := rank_lt_count ix hi; omega
    simp [this]
  · simp [hi]

theorem colPat_cols (c : K) (rs cs : ℕ) (ix : RVec K p) : ∀ e ∈ colPat c rs cs ix,
    e.c < cs + count ix := by
  intro e he
  rw [colPat, List.mem_mapIdx] at he
  obtain ⟨k, hk, rfl⟩ := he
  rw [count_eq]
  simpa using hk

theorem rowPat_cols (c : K) (rs cs : ℕ) (ix : RVec K p) : ∀ e ∈ rowPat c rs cs ix,
    e.c < cs + p := by
  intro e he
  rw [rowPat, List.mem_mapIdx] at he
  obtain ⟨k, hk, rfl⟩ := he
  simp

theorem selDiag_cols (v : RVec K p) (rs cs : ℕ) (ix : RVec K p) : ∀ e ∈ selDiag v rs cs ix,
    e.c < cs + count ix := by
  intro e he
  rw [selDiag, List.mem_mapIdx] at he
  obtain ⟨k, hk, rfl⟩ := he
  rw [count_eq]
  simpa using hk

theorem diagList_cols (rs cs num : ℕ) (v : ℕ → K) : ∀ e ∈ diagList rs cs num v, e.c < cs + num := by
  intro e he
  rw [diagList, List.mem_map] at he
  obtain ⟨k, hk, rfl⟩ := he
  rw [List.mem_range] at hk
  simpa using hk

theorem shift_cols {es : List (Ent K)} (h : InRange p q es) (rs cs : ℕ) :
    ∀ e ∈ shift rs cs es, e.c < cs + q := by
  intro e he
  rw [shift, List.mem_map] at he
  obtain ⟨e', he', rfl⟩ := he
  have := (h e' he').2
  simpa using this

/-! ## Transposes and the Hessian -/

/-- Triplets of the transposed matrix. -/
def swap (es : List (Ent K)) : List (Ent K) := es.map fun e => ⟨e.c, e.r, e.v⟩

theorem swap_inRange {es : List (Ent K)} (h : InRange p q es) : InRange q p (swap es) := by
  intro e he
  rw [swap, List.mem_map] at he
  obtain ⟨e', he', rfl⟩ := he
  exact ⟨(h e' he').2, (h e' he').1⟩

theorem entry_swap (es : List (Ent K)) (i j : ℕ) : entry (swap es) i j = entry es j i := by
  induction es with
  | nil => rfl
  | cons e es ih =>
    have : swap (e :: es) = ⟨e.c, e.r, e.v⟩ :: swap es := rfl
    rw [this, entry_cons, entry_cons, ih]
    simp only [and_comm]

theorem offdiag_inRange {es : List (Ent K)} (h : InRange p q es) :
    InRange p q (es.filter fun e => decide (e.r ≠ e.c)) :=
  fun e he => h e (List.mem_of_mem_filter he)

/-- A row of a `p` by `q` list of triplets as a row of the dense matrix. -/
theorem rowSum_dense {es : List (Ent K)} (h : InRange p q es) (x : ℕ → K) (r : ℕ) :
    rowSum es x r = ∑ j : Fin q, entry es r j * x j := by
  rw [← sum_entry es q (fun e he => (h e he).2) x r, Finset.sum_range]

theorem rowSum_swap_dense {es : List (Ent K)} (h : InRange p q es) (x : ℕ → K) (r : ℕ) :
    rowSum (swap es) x r = ∑ j : Fin p, entry es j r * x j := by
  rw [rowSum_dense (swap_inRange h)]
  simp only [entry_swap]

/-- The off-diagonal part and the transposed triangle together are the symmetric matrix. -/
theorem rowSum_hess {es : List (Ent K)} (h : InRange p p es) (x : ℕ → K) (i : ℕ) :
    rowSum (es.filter fun e => decide (e.r ≠ e.c)) x i + rowSum (swap es) x i =
      ∑ j : Fin p, symEntry es i j * x j := by
  rw [rowSum_dense (offdiag_inRange h), rowSum_swap_dense h, ← Finset.sum_add_distrib]
  refine Finset.sum_congr rfl fun j _ => ?_
  rw [entry_offdiag, symEntry_eq]
  by_cases e : i = (j : ℕ)
  · rw [if_pos e, if_pos e, ← e]; ring
  · rw [if_neg e, if_neg e]; ring

/-! ## Sequences of blocks -/

/-- A statement appends the triplets `l`. -/
def Appends (nnz : ℕ) (B : Blk K) (l : List (Ent K)) : Prop :=
  B.inc = l.length ∧ ∀ st k, B.wr st k = writeChecked nnz st k l

theorem runBlks_appends {nnz : ℕ} {Bs : List (Blk K)} {ls : List (List (Ent K))}
    (h : List.Forall₂ (Appends nnz) Bs ls) (st : Store K) (k : ℕ)
    (hk : k + ls.flatten.length ≤ nnz) :
    ∃ st', runBlks st k Bs = some (st', k + ls.flatten.length) ∧
      toList st' (k + ls.flatten.length) = toList st k ++ ls.flatten := by
  induction h generalizing st k with
  | nil => exact ⟨st, by simp [runBlks], by simp⟩
  | @cons B l Bs ls hB _ ih =>
    simp only [List.flatten_cons, List.length_append] at hk
    obtain ⟨st', h1, h2⟩ := ih (writeAt st k l) (k + l.length) (by omega)
    refine ⟨st', ?_, ?_⟩
    · unfold runBlks
      rw [hB.2, (writeChecked_iff _ _ _ _ _).2 ⟨by omega, rfl⟩]
      simp only
      rw [hB.1, h1]
      simp only [List.flatten_cons, List.length_append]
      congr 2
      omega
    · rw [toList_writeAt] at h2
      simp only [List.flatten_cons, List.length_append]
      rw [← Nat.add_assoc, h2, List.append_assoc]

theorem appends_sub (nnz : ℕ) (src : List (Ent K)) (rs cs : ℕ) :
    Appends nnz ⟨src.length, fun s k => copySubmatrixFrom nnz s src rs cs k false false⟩
      (shift rs cs src) := by
  constructor
  · simp [shift]
  · intro st k
    simp [copySubmatrixFrom, shift]

theorem appends_sub_trans (nnz : ℕ) (src : List (Ent K)) (rs cs : ℕ) :
    Appends nnz ⟨src.length, fun s k => copySubmatrixFrom nnz s src rs cs k false true⟩
      (shift rs cs (swap src)) := by
  constructor
  · simp [shift, swap]
  · intro st k
    simp [copySubmatrixFrom, shift, swap]

theorem appends_sub_off (nnz : ℕ) (src : List (Ent K)) (rs cs : ℕ) :
    Appends nnz ⟨numOffDiag src, fun s k => copySubmatrixFrom nnz s src rs cs k true false⟩
      (shift rs cs (src.filter fun e => decide (e.r ≠ e.c))) := by
  constructor
  · rw [C27_numOffDiag]; simp [shift]
  · intro st k
    simp [copySubmatrixFrom, shift]

theorem appends_diag (nnz : ℕ) (c : K) (rs cs num : ℕ) :
    Appends nnz ⟨num, fun s k => copyDiagToSubblock nnz s c rs cs k num⟩
      (diagList rs cs num fun _ => c) :=
  ⟨by simp [diagList], fun _ _ => rfl⟩

theorem appends_subDiag (nnz : ℕ) (v : ℕ → K) (st num : ℕ) (c : K) :
    Appends nnz ⟨num, fun s k => copySubDiagonalFrom nnz s st num v k c⟩
      (diagList st st num fun a => c * v a) :=
  ⟨by simp [diagList], fun _ _ => rfl⟩

theorem selList_length_mapIdx (ix : RVec K p) (f : ℕ → Fin p → Ent K) :
    ((selList ix).mapIdx f).length = count ix := by simp [count_eq]

theorem appends_col (nnz : ℕ) (c : K) (rs cs num : ℕ) {ix : RVec K p} (h : IsPattern ix)
    (hn : num = count ix) :
    Appends nnz ⟨num, fun s k => constDiagColPattern nnz s c rs cs k num ix⟩ (colPat c rs cs ix) := by
  constructor
  · rw [colPat, selList_length_mapIdx, hn]
  · intro st k
    simp only [constDiagColPattern]
    rw [selList_ne_zero h, if_pos (by rw [hn, count_eq])]
    rfl

theorem appends_row (nnz : ℕ) (c : K) (rs cs num : ℕ) {ix : RVec K p} (h : IsPattern ix)
    (hn : num = count ix) :
    Appends nnz ⟨num, fun s k => constDiagRowPattern nnz s c rs cs k num ix⟩ (rowPat c rs cs ix) := by
  constructor
  · rw [rowPat, selList_length_mapIdx, hn]
  · intro st k
    simp only [constDiagRowPattern]
    rw [selList_ne_zero h, if_pos (by rw [hn, count_eq])]
    rfl

theorem appends_sel (nnz : ℕ) (v : RVec K p) (rs cs num : ℕ) {ix : RVec K p} (h : IsPattern ix)
    (hn : num = count ix) :
    Appends nnz ⟨num, fun s k => copyDiagToSubblockSel nnz s v rs cs k num ix⟩
      (selDiag v rs cs ix) := by
  constructor
  · rw [selDiag, selList_length_mapIdx, hn]
  · intro st k
    simp only [copyDiagToSubblockSel]
    rw [selList_ne_zero h, if_pos (by rw [hn, count_eq])]
    rfl

end Hiop.Sparse
