import Verif.Raja.Props
import Verif.Fr.Lemmas

/-!
# C62: the RAJA assembly kernels of triplet matrices

The arrays of a matrix are one memory (`TMem`); `ofStore` and `toStore` relate it to the store of the
host functions.
-/

set_option linter.unusedSectionVars false
set_option linter.unusedSimpArgs false

namespace Hiop.Raja

open Hiop.Sparse Hiop.Vec Function

variable {K : Type} [Field K] [LinearOrder K] [IsStrictOrderedRing K] {p q s : ℕ}

theorem writeAt_append (st : Store K) (k : ℕ) (a b : List (Ent K)) :
    writeAt (writeAt st k a) (k + a.length) b = writeAt st k (a ++ b) := by
  have h := mergeAt_append true true (ofStore st) k a b
  rw [mergeAt_full, mergeAt_full, mergeAt_full, toStore_ofStore, toStore_ofStore] at h
  have := congrArg toStore h
  rwa [toStore_ofStore, toStore_ofStore] at this

theorem forallR_val {n : ℕ} {body : ℕ → Prog ℕ fun _ => ℕ} {m : ℕ → ℕ} (M : ℕ → ℕ) (loc : ℕ → ℕ)
    (hinj : ∀ i j, i < n → j < n → loc i = loc j → i = j) {val : ℕ → ℕ}
    (hb : ∀ i, i < n → body i = .wr (loc i) (val i) .ret) (hv : ∀ i, i < n → M (loc i) = val i)
    (hM : ∀ l, (∀ i, i < n → loc i ≠ l) → M l = m l) : forallR n body m = Out.one M :=
  forallR_wr M loc hinj (fun i hi => by rw [hb i hi, hv i hi]) hM

/-- Entry `i` goes to position `k + i`. -/
theorem forallR_block (n : ℕ) (m : TMem K) (k : ℕ) (f : ℕ → Ent K)
    (body : ℕ → Prog TLoc (TV K)) (wi wv : Bool)
    (hb : ∀ i, i < n → body i = puts wi wv [(k + i, f i)]) :
    forallR n body m = Out.one (mergeAt wi wv m k ((List.range n).map f)) := by
  refine forallR_puts wi wv m (fun i => posFrom (k + i) [f i]) k _ hb ?_
  rw [flatMap_posFrom n k (fun i => [f i]) (fun i => k + i) (fun _ => rfl) (fun i _ => rfl)]
  congr 1
  rw [List.map_eq_flatMap]

/-! ## Diagonals and submatrices -/

/-- **C62, copying a diagonal.** -/
theorem C62_copySubDiagonalFrom (nnz nv : ℕ) (m : TMem K) (st num : ℕ) (v : ℕ → K) (k : ℕ)
    (scal : K) (store : Store K) (h : num ≤ nv ∧ st + num ≤ p)
    (hh : copySubDiagonalFrom nnz (toStore m) st num v k scal = some store) :
    copySubDiagonalFromR p nv m st num v k scal = Out.one (ofStore store) := by
  obtain ⟨_, rfl⟩ := (writeChecked_iff _ _ _ _ _).1 hh
  unfold copySubDiagonalFromR
  rw [Out.check_pos h, ← mergeAt_full, forallR_congr (b' := fun i => .wr (.col (k + i)) (st + i)
    (.wr (.row (k + i)) (st + i) (.wr (.val (k + i)) (scal * v i) .ret)))
    (fun i _ => by rw [Nat.add_comm i k, Nat.add_comm i st])]
  refine forallR_race_free _ (fun i => {.row (k + i), .col (k + i), .val (k + i)}) (fun _ => ∅)
    (fun i => update (update (update m (.col (k + i)) (st + i)) (.row (k + i)) (st + i))
      (.val (k + i)) (scal * v i)) (fun i _ => ?_) ?_ (fun i _ => rfl) ?_ ?_
  · refine ⟨?_, ?_, ?_, trivial⟩ <;> simp
  · intro i j _ _ hij l hl
    refine ⟨?_, fun h => h⟩
    simp only [Set.mem_insert_iff, Set.mem_singleton_iff] at hl ⊢
    rcases hl with rfl | rfl | rfl <;> simp [hij]
  · intro i hi l hl
    simp only [Set.mem_insert_iff, Set.mem_singleton_iff] at hl
    have hlen : (subDiag st num v scal).length = num := by simp [subDiag]
    have hpos : k ≤ l.pos ∧ l.pos - k < (subDiag st num v scal).length := by
      rcases hl with rfl | rfl | rfl <;> (simp only [TLoc.pos]; omega)
    unfold mergeAt
    rw [dif_pos hpos]
    rcases hl with rfl | rfl | rfl
    · simp [sel, update, TLoc.pos, subDiag]; rfl
    · simp [sel, update, TLoc.pos, subDiag]; rfl
    · simp [sel, update, TLoc.pos, subDiag]; rfl
  · intro l hl
    unfold mergeAt
    rw [dif_neg]
    rintro ⟨h1, h2⟩
    have hlen : (subDiag st num v scal).length = num := by simp [subDiag]
    refine hl (l.pos - k) (by omega) ?_
    have : k + (l.pos - k) = l.pos := by omega
    rw [this]
    cases l <;> simp [TLoc.pos]

/-- **C62, setting a diagonal.** -/
theorem C62_setSubDiagonalTo (nnz : ℕ) (m : TMem K) (st num : ℕ) (c : K) (k : ℕ)
    (store : Store K) (h : st + num ≤ p)
    (hh : setSubDiagonalTo nnz (toStore m) st num c k = some store) :
    setSubDiagonalToR p m st num c k = Out.one (ofStore store) := by
  obtain ⟨_, rfl⟩ := (writeChecked_iff _ _ _ _ _).1 hh
  unfold setSubDiagonalToR
  rw [Out.check_pos h, ← mergeAt_full]
  exact forallR_block num m k (fun a => ⟨st + a, st + a, c⟩) _ true true
    fun i _ => by rw [Nat.add_comm i k, Nat.add_comm i st]

/-- **C62, constant diagonal block.** -/
theorem C62_copyDiagToSubblock (nnz : ℕ) (m : TMem K) (c : K) (rs cs k num : ℕ)
    (store : Store K) (h : num ≤ q ∧ num + rs ≤ p ∧ num + cs ≤ q)
    (hh : copyDiagToSubblock nnz (toStore m) c rs cs k num = some store) :
    copyDiagToSubblockR p q nnz m c rs cs k num = Out.one (ofStore store) := by
  obtain ⟨hn, rfl⟩ := (writeChecked_iff _ _ _ _ _).1 hh
  unfold copyDiagToSubblockR
  rw [List.length_map, List.length_range] at hn
  rw [Out.check_pos ⟨by omega, h⟩, ← mergeAt_full]
  exact forallR_block num m k (fun a => ⟨rs + a, cs + a, c⟩) _ true true fun i _ => rfl

/-- **C62, copying a matrix into a block, partial.** With all entries, the source inside the
destination as asserted. Missing: `offdiag_only` (`C62_copySubmatrix_offdiag_refuted`) and transposed
sources the assertions refuse (`C62_copySubmatrix_trans_refuted`). -/
theorem C62_copySubmatrixFrom_partial (nnz ps qs : ℕ) (m : TMem K) (src : List (Ent K))
    (rs cs k : ℕ) (tr : Bool) (store : Store K) (h : qs + cs ≤ q ∧ ps + rs ≤ p)
    (hh : copySubmatrixFrom nnz (toStore m) src rs cs k false tr = some store) :
    copySubmatrixFromR p q nnz ps qs m src rs cs k false tr = Out.one (ofStore store) := by
  obtain ⟨hn, rfl⟩ := (writeChecked_iff _ _ _ _ _).1 hh
  have hlen : k + src.length ≤ nnz := by cases tr <;> simpa using hn
  unfold copySubmatrixFromR
  rw [Out.check_pos ⟨by omega, h.1, h.2, hlen⟩, ← mergeAt_full]
  let f : ℕ → Ent K := fun i => if hi : i < src.length then
    ⟨rs + (if tr then src[i].c else src[i].r), cs + (if tr then src[i].r else src[i].c), src[i].v⟩
    else ⟨0, 0, 0⟩
  rw [forallR_block src.length m k f _ true true fun i hi => by
    rw [nth_lt hi]; simp only [f, hi, dif_pos, true_or, if_true]]
  congr 2
  refine List.ext_getElem ?_ fun i h1 h2 => ?_
  · cases tr <;> simp
  · have h1' : i < src.length := by simpa using h1
    cases tr <;> simp [f, h1']

/-- **C62 fails for `offdiag_only`.** The host stores the off-diagonal entries one after the other; the
parallel loop leaves a hole, here position 0, at the diagonal entry. -/
theorem C62_copySubmatrix_offdiag_refuted :
    let m : TMem ℚ := ofStore fun _ => ⟨0, 0, 9⟩
    (copySubmatrixFrom 2 (toStore m) [⟨0, 0, 5⟩, ⟨0, 1, 7⟩] 0 0 0 true false).map
      (fun st => (toList st 2).map fun e => (e.r, e.c, e.v)) = some [(0, 1, 7), (0, 0, 9)] ∧
    copySubmatrixFromR 2 2 2 2 2 m [⟨0, 0, 5⟩, ⟨0, 1, 7⟩] 0 0 0 true false
      = Out.one (mergeAt true true m 1 [⟨0, 1, 7⟩]) := by
  refine ⟨by decide +kernel, ?_⟩
  unfold copySubmatrixFromR
  rw [Out.check_pos (by decide)]
  refine forallR_puts true true _ (fun i => if i = 1 then [(1, ⟨0, 1, 7⟩)] else []) 1 _ ?_ rfl
  intro i hi
  have : i = 0 ∨ i = 1 := by simp at hi; omega
  rcases this with rfl | rfl <;> simp [nth, puts]

/-- The off-diagonal copy also refuses destinations with room for the off-diagonal entries only, which
the host fills. -/
theorem C62_copySubmatrix_offdiag_room_refuted (m : TMem ℚ) :
    (copySubmatrixFrom 1 (toStore m) [⟨0, 0, 5⟩, ⟨0, 1, 7⟩] 0 0 0 true false).isSome ∧
    copySubmatrixFromR 2 2 1 2 2 m [⟨0, 0, 5⟩, ⟨0, 1, 7⟩] 0 0 0 true false = Out.abort := by
  refine ⟨by simp [copySubmatrixFrom, writeChecked], ?_⟩
  unfold copySubmatrixFromR
  rw [Out.check_neg (by decide)]

/-- **C62 fails for transposed sources.** A 1 by 2 matrix transposed into a 2 by 1 matrix: the host
copies it, the parallel function stops at an assertion about the untransposed sizes. -/
theorem C62_copySubmatrix_trans_refuted (m : TMem ℚ) :
    (copySubmatrixFrom 2 (toStore m) [⟨0, 0, 5⟩, ⟨0, 1, 7⟩] 0 0 0 false true).map
      (fun st => (toList st 2).map fun e => (e.r, e.c, e.v)) = some [(0, 0, 5), (1, 0, 7)] ∧
    copySubmatrixFromR 2 1 2 1 2 m [⟨0, 0, 5⟩, ⟨0, 1, 7⟩] 0 0 0 false true = Out.abort := by
  refine ⟨?_, ?_⟩
  · simp [copySubmatrixFrom, writeChecked, writeAt, Sparse.toList, List.range_succ]
  · unfold copySubmatrixFromR
    rw [Out.check_neg (by decide)]

/-! ## Patterns -/

/-- Number of selected positions below `i`. -/
def selBelow (ix : ℕ → K) (i : ℕ) : ℕ := ((List.range i).filter fun j => decide (ix j ≠ 0)).length

theorem selBelow_succ (ix : ℕ → K) (i : ℕ) :
    selBelow ix (i + 1) = selBelow ix i + if ix i ≠ 0 then 1 else 0 := by
  unfold selBelow
  rw [List.range_succ, List.filter_append, List.length_append, List.filter_singleton]
  by_cases h : ix i = 0 <;> simp [h]

theorem selBelow_mono (ix : ℕ → K) {i j : ℕ} (h : i ≤ j) : selBelow ix i ≤ selBelow ix j := by
  induction j, h using Nat.le_induction with
  | base => exact le_rfl
  | succ j _ ih => rw [selBelow_succ]; omega

theorem patternScan_one (n : ℕ) (ix : ℕ → K) (junk : ℕ → ℕ) :
    ∃ a, patternScan n ix junk = Out.one a ∧ ∀ i, i ≤ n → a i = selBelow ix i := by
  unfold patternScan
  rw [forallR_val (fun i => if i < n.succ then if i = 0 then 0 else if ix (i - 1) ≠ 0 then 1 else 0
    else junk i) (fun i => i) (fun i j _ _ h => h)
    (val := fun i => if i = 0 then 0 else if ix (i - 1) ≠ 0 then 1 else 0)
    (fun i hi => ?_) (fun i hi => by simp [hi]) (fun l hl => ?_), Out.one_andThen]
  · refine ⟨_, rfl, fun i hi => ?_⟩
    rw [inclusiveScan_eq n _ i hi]
    induction i with
    | zero => simp [selBelow]
    | succ i ih =>
      rw [Finset.sum_range_succ, ih (by omega), selBelow_succ, if_pos (by omega), if_neg (by omega),
        Nat.add_sub_cancel]
  · by_cases h0 : i = 0
    · simp [h0]
    · by_cases h1 : ix (i - 1) ≠ 0
      · simp only [if_neg h0, if_pos h1]
      · simp only [if_neg h0, if_neg h1]
  · have : ¬ l < n.succ := fun h => hl l h rfl
    simp [this]

theorem mapIdx_sel (n : ℕ) (ix : ℕ → K) (ent : ℕ → ℕ → Ent K) :
    ((List.range n).flatMap fun i => if ix i ≠ 0 then [ent i (selBelow ix i)] else [])
      = ((List.finRange n).filter fun i : Fin n => decide (ix i ≠ 0)).mapIdx
        fun a (i : Fin n) => ent i a := by
  have e1 : (((List.finRange n).filter fun i : Fin n => decide (ix i ≠ 0)).mapIdx
      fun a (i : Fin n) => ent i a)
      = ((List.range n).filter fun i => decide (ix i ≠ 0)).mapIdx fun a i => ent i a := by
    have : (List.range n).filter (fun i => decide (ix i ≠ 0))
        = ((List.finRange n).filter fun i : Fin n => decide (ix i ≠ 0)).map Fin.val := by
      rw [← List.map_coe_finRange_eq_range, List.filter_map]
      rfl
    rw [this, List.mapIdx_eq_zipIdx_map, List.mapIdx_eq_zipIdx_map, List.zipIdx_map, List.map_map]
    rfl
  rw [e1]
  clear e1
  induction n with
  | zero => rfl
  | succ n ih =>
    rw [List.range_succ, List.flatMap_append, ih, List.filter_append, List.mapIdx_append,
      List.filter_singleton]
    congr 1
    by_cases h : ix n = 0
    · simp [h]
    · simp [h, selBelow]

/-- The common part of the functions with a pattern. -/
theorem pattern_one (n k num : ℕ) (ix : ℕ → K) (junk : ℕ → ℕ) (ent : ℕ → ℕ → Ent K) (m : TMem K)
    (hn : ((List.finRange n).filter fun i : Fin n => decide (ix i ≠ 0)).length = num) :
    ((patternScan n ix junk).andThen fun a => patternLoop n k num ent a m)
      = Out.one (mergeAt true true m k
        (((List.finRange n).filter fun i : Fin n => decide (ix i ≠ 0)).mapIdx
          fun a (i : Fin n) => ent i a)) := by
  obtain ⟨a, ha, hv⟩ := patternScan_one n ix junk
  have hnum : selBelow ix n = num := by
    rw [← hn, selBelow]
    have : (List.range n).filter (fun i => decide (ix i ≠ 0))
        = ((List.finRange n).filter fun i : Fin n => decide (ix i ≠ 0)).map Fin.val := by
      rw [← List.map_coe_finRange_eq_range, List.filter_map]
      rfl
    rw [this, List.length_map]
  rw [ha, Out.one_andThen, ← mapIdx_sel]
  unfold patternLoop
  refine forallR_puts true true m (fun i => posFrom (k + selBelow ix i)
    (if ix i ≠ 0 then [ent i (selBelow ix i)] else [])) k _ (fun i hi => ?_) ?_
  · rw [hv i (by omega), hv (i + 1) (by omega), selBelow_succ]
    by_cases h : ix i ≠ 0
    · have hlt : selBelow ix i < num := by
        have := selBelow_mono ix (show i + 1 ≤ n by omega)
        rw [selBelow_succ, if_pos h] at this
        omega
      rw [if_pos h, if_pos h, if_pos (by omega), Nat.add_sub_cancel, assertP, if_pos hlt]
      rfl
    · rw [if_neg h, if_neg h, if_neg (by omega)]
      rfl
  · refine flatMap_posFrom n k _ (fun i => k + selBelow ix i) (fun _ => by simp [selBelow])
      fun i _ => ?_
    simp only [selBelow_succ]
    by_cases h : ix i ≠ 0
    · rw [if_pos h, if_pos h, List.length_singleton]; omega
    · rw [if_neg h, if_neg h, List.length_nil]; omega

/-- **C62, diagonal of selected entries.** -/
theorem C62_copyDiagToSubblockSel (nnz n : ℕ) (junk : ℕ → ℕ) (m : TMem K) (x ix : ℕ → K)
    (rs cs k num : ℕ) (store : Store K) (h : num ≤ q ∧ num + rs ≤ p ∧ num + cs ≤ q)
    (hh : copyDiagToSubblockSel nnz (toStore m) (fun i : Fin n => x i) rs cs k num
      (fun i : Fin n => ix i) = some store) :
    copyDiagToSubblockSelR p q nnz n junk m x rs cs k num ix = Out.one (ofStore store) := by
  unfold copyDiagToSubblockSel at hh
  by_cases hn : ((List.finRange n).filter fun i : Fin n => decide (ix i ≠ 0)).length = num
  · simp only [hn, if_true] at hh
    obtain ⟨hk, rfl⟩ := (writeChecked_iff _ _ _ _ _).1 hh
    rw [List.length_mapIdx, hn] at hk
    unfold copyDiagToSubblockSelR
    rw [Out.check_pos ⟨by omega, h⟩, pattern_one n k num ix junk _ m hn, mergeAt_full]
  · simp only [if_neg hn] at hh
    exact absurd hh (by simp)

/-- **C62, constant diagonal with a column pattern, partial.** Under the assertions of the parallel
function, which are those of the row variant. Missing: destinations these refuse
(`C62_colPattern_refuted`). -/
theorem C62_colPattern_partial (nnz n : ℕ) (junk : ℕ → ℕ) (m : TMem K) (c : K) (ix : ℕ → K)
    (rs cs k num : ℕ) (store : Store K) (h : n + cs ≤ q ∧ num + rs ≤ p)
    (hh : constDiagColPattern nnz (toStore m) c rs cs k num (fun i : Fin n => ix i) = some store) :
    constDiagColPatternR p q nnz n junk m c rs cs k num ix = Out.one (ofStore store) := by
  unfold constDiagColPattern at hh
  by_cases hn : ((List.finRange n).filter fun i : Fin n => decide (ix i ≠ 0)).length = num
  · simp only [hn, if_true] at hh
    obtain ⟨hk, rfl⟩ := (writeChecked_iff _ _ _ _ _).1 hh
    rw [List.length_mapIdx, hn] at hk
    unfold constDiagColPatternR
    rw [Out.check_pos ⟨h.1, h.2, hk⟩, pattern_one n k num ix junk _ m hn, mergeAt_full]
    rfl
  · simp only [if_neg hn] at hh
    exact absurd hh (by simp)

/-- **C62, constant diagonal with a row pattern, partial.** Missing: destinations the assertions
refuse (`C62_rowPattern_refuted`). -/
theorem C62_rowPattern_partial (nnz n : ℕ) (junk : ℕ → ℕ) (m : TMem K) (c : K) (ix : ℕ → K)
    (rs cs k num : ℕ) (store : Store K) (h : n + rs ≤ p ∧ num + cs ≤ q)
    (hh : constDiagRowPattern nnz (toStore m) c rs cs k num (fun i : Fin n => ix i) = some store) :
    constDiagRowPatternR p q nnz n junk m c rs cs k num ix = Out.one (ofStore store) := by
  unfold constDiagRowPattern at hh
  by_cases hn : ((List.finRange n).filter fun i : Fin n => decide (ix i ≠ 0)).length = num
  · simp only [hn, if_true] at hh
    obtain ⟨hk, rfl⟩ := (writeChecked_iff _ _ _ _ _).1 hh
    rw [List.length_mapIdx, hn] at hk
    unfold constDiagRowPatternR
    rw [Out.check_pos ⟨h.1, h.2, hk⟩, pattern_one n k num ix junk _ m hn, mergeAt_full]
    rfl
  · simp only [if_neg hn] at hh
    exact absurd hh (by simp)

/-- **C62 fails for column patterns.** Three rows, one column, the last row selected: the host stores
the entry inside the 3 by 1 matrix, the parallel function stops at an assertion. -/
theorem C62_colPattern_refuted (junk : ℕ → ℕ) (m : TMem ℚ) :
    let ix : ℕ → ℚ := fun i => if i = 2 then 1 else 0
    (constDiagColPattern 1 (toStore m) (-1) 0 0 0 1 (fun i : Fin 3 => ix i)).map
      (fun st => (toList st 1).map fun e => (e.r, e.c, e.v)) = some [(2, 0, -1)] ∧
    constDiagColPatternR 3 1 1 3 junk m (-1) 0 0 0 1 ix = Out.abort := by
  refine ⟨?_, ?_⟩
  · simp [constDiagColPattern, writeChecked, writeAt, Sparse.toList, List.finRange_succ]
  · unfold constDiagColPatternR
    rw [Out.check_neg (by decide)]

/-- **C62 fails for row patterns.** -/
theorem C62_rowPattern_refuted (junk : ℕ → ℕ) (m : TMem ℚ) :
    let ix : ℕ → ℚ := fun i => if i = 2 then 1 else 0
    (constDiagRowPattern 1 (toStore m) (-1) 0 0 0 1 (fun i : Fin 3 => ix i)).map
      (fun st => (toList st 1).map fun e => (e.r, e.c, e.v)) = some [(0, 2, -1)] ∧
    constDiagRowPatternR 1 3 1 3 junk m (-1) 0 0 0 1 ix = Out.abort := by
  refine ⟨?_, ?_⟩
  · simp [constDiagRowPattern, writeChecked, writeAt, Sparse.toList, List.finRange_succ]
  · unfold constDiagRowPatternR
    rw [Out.check_neg (by decide)]

/-! ## Rows -/

theorem copyRowsLoop_write (nnz : ℕ) (f g : ℕ → ℕ) (hf : StrictMono f) (a n : ℕ)
    (src : List (Ent K)) (hs : RowSorted src) (st : Store K) (k : ℕ) (r : Store K × ℕ)
    (h : copyRowsLoop nnz f g a n src (st, k) = some r) :
    r = (writeAt st k (pickRows src f g a n), k + (pickRows src f g a n).length) := by
  induction n generalizing a src st k with
  | zero =>
    rw [copyRowsLoop, Option.some.injEq] at h
    subst h
    simp only [pickRows, List.range'_zero, List.flatMap_nil, List.length_nil, Nat.add_zero]
    congr 1
    funext i
    simp [writeAt]
  | succ n ih =>
    rw [copyRowsLoop, takeRow_eq _ _ _ hs] at h
    have hp : pickRows src f g (a + 1) n
        = pickRows (src.filter fun e => decide (f a + 1 ≤ e.r)) f g (a + 1) n := by
      refine pickRows_congr _ _ _ _ _ _ fun b hb => ?_
      rw [List.filter_filter]
      congr 1
      funext e
      by_cases h : e.r = f b
      · have : f a < f b := hf (by omega)
        simp [h]; omega
      · simp [h]
    rw [pickRows_succ, hp]
    set l1 := ((src.filter fun e => decide (e.r = f a)).map fun e => ({ e with r := g a } : Ent K))
      with hl1
    by_cases hk : k + l1.length ≤ nnz
    · have hw : writeChecked nnz st k l1 = some (writeAt st k l1) :=
        (writeChecked_iff _ _ _ _ _).2 ⟨hk, rfl⟩
      simp only [hw, Option.bind_eq_bind, Option.bind_some] at h
      rw [ih (a + 1) _ (List.Pairwise.filter _ hs) _ _ h, writeAt_append, List.length_append,
        Nat.add_assoc]
    · have hw : writeChecked nnz st k l1 = none := by unfold writeChecked; rw [if_neg hk]
      simp only [hw, Option.bind_eq_bind, Option.bind_none] at h
      exact absurd h (by simp)

theorem rowSlice_length (es : List (Ent K)) (i : ℕ) :
    (rowSlice es i).length = rowStart es (i + 1) - rowStart es i := by
  unfold rowSlice
  rw [List.length_take, List.length_drop]
  have := rowStart_le es (i + 1)
  omega

theorem rowStart_succ (es : List (Ent K)) (i : ℕ) :
    rowStart es (i + 1) = rowStart es i + (rowSlice es i).length := by
  rw [rowSlice_length]
  have : rowStart es i ≤ rowStart es (i + 1) := by rw [rowStart]; omega
  omega

theorem withRow_length (i : ℕ) (l : List (Ent K)) : (withRow i l).length = l.length := by
  simp [withRow]

theorem pick_eq (src : List (Ent K)) (hs : RowSorted src) (f g : ℕ → ℕ) (n : ℕ) :
    ((List.range n).flatMap fun i => withRow (g i) (rowSlice src (f i))) = pickRows src f g 0 n := by
  unfold pickRows
  rw [List.range_eq_range']
  refine List.flatMap_congr fun i _ => ?_
  rw [rowSlice_eq src hs]
  rfl

/-- The row starts `a` of the destination record the rows `f 0, f 1, ...` of the source from
destination row `d` on. -/
def Records (a : ℕ → ℕ) (d n : ℕ) (src : List (Ent K)) (f : ℕ → ℕ) : Prop :=
  ∀ i, i < n → a (d + i + 1) = a (d + i) + (rowSlice src (f i)).length

theorem rows_one (n : ℕ) (m : TMem K) (k : ℕ) (src : List (Ent K)) (hs : RowSorted src)
    (f g s : ℕ → ℕ) (h0 : 0 < n → s 0 = k)
    (h : ∀ i, i + 1 < n → s (i + 1) = s i + (rowSlice src (f i)).length) :
    forallR n (fun i => puts true true (posFrom (s i) (withRow (g i) (rowSlice src (f i))))) m
      = Out.one (ofStore (writeAt (toStore m) k (pickRows src f g 0 n))) := by
  rw [← mergeAt_full, ← pick_eq src hs]
  refine forallR_puts true true m _ k _ (fun i _ => rfl) ?_
  exact flatMap_posFrom n k (fun i => withRow (g i) (rowSlice src (f i))) s h0
    fun i hi => by rw [h i hi, withRow_length]

/-- **C62, copying rows.** The first call, which computes the row starts of the destination, stores
what the host stores; the row starts it leaves record the copied rows. -/
theorem C62_copyRowsFrom_first (nnz ps n : ℕ) (junk : ℕ → ℕ) (m : TMem K) (src : List (Ent K))
    (idx : ℕ → ℕ) (hi : StrictMono idx) (store : Store K)
    (h : p = n ∧ nnz ≤ src.length ∧ n ≤ ps) (hok : rowStartsOk ps src = true)
    (hh : copyRowsFrom nnz (toStore m) src idx n = some store) :
    ∃ a, copyRowsFromR p nnz ps junk none m src idx n = Out.one (a, ofStore store) ∧
      a 0 = 0 ∧ Records a 0 n src idx := by
  have hs := (rowStartsOk_sorted hok).1
  unfold copyRowsFromR
  rw [Out.check_pos h, Out.check_pos hok]
  have hinit : ∃ a, rowsInit n idx src junk = Out.one a ∧ a 0 = 0 ∧ Records a 0 n src idx := by
    unfold rowsInit
    rw [forallR_val (fun i => if i < n + 1 then 0 else junk i) (fun i => i) (fun i j _ _ h => h)
      (val := fun _ => 0) (fun i _ => rfl) (fun i hi => by simp [hi]) (fun l hl => by
        have : ¬ l < n + 1 := fun h => hl l h rfl
        simp [this]), Out.one_andThen,
      forallR_val (fun i => if 0 < i ∧ i ≤ n then (rowSlice src (idx (i - 1))).length
        else if i < n + 1 then 0 else junk i) (fun i => i + 1) (fun i j _ _ h => by omega)
        (val := fun i => rowStart src (idx i + 1) - rowStart src (idx i))
        (fun i _ => rfl)
        (fun i hi => by
          have : 0 < i + 1 ∧ i + 1 ≤ n := by omega
          simp only [if_pos this, Nat.add_sub_cancel, rowSlice_length])
        (fun l hl => by
          have : ¬ (0 < l ∧ l ≤ n) := fun h => hl (l - 1) (by omega) (by omega)
          simp only [if_neg this]), Out.one_andThen]
    refine ⟨_, rfl, ?_, fun i hi => ?_⟩
    · rw [inclusiveScan_eq n _ 0 (by omega)]; simp
    · rw [Nat.zero_add, inclusiveScan_eq n _ (i + 1) (by omega), inclusiveScan_eq n _ i (by omega),
        Finset.sum_range_succ]
      congr 1
      have : 0 < i + 1 ∧ i + 1 ≤ n := by omega
      simp only [if_pos this, Nat.add_sub_cancel]
  obtain ⟨a, ha, h0, hr⟩ := hinit
  refine ⟨a, ?_, h0, hr⟩
  rw [ha, Out.one_andThen, rows_one n m 0 src hs idx (fun i => i) a (fun _ => h0) (fun i hi => by
    have := hr i (by omega); simpa using this), Out.one_andThen]
  unfold copyRowsFrom at hh
  rw [Option.bind_eq_bind, Option.bind_eq_some_iff] at hh
  obtain ⟨r, h1, h2⟩ := hh
  rw [copyRowsLoop_write nnz idx (fun a => a) hi 0 n src hs _ _ r h1] at h2
  simp only at h2
  split at h2
  · rw [Option.some.injEq] at h2
    rw [h2]
  · exact absurd h2 (by simp)

/-- **C62, copying rows again.** Later calls, with other values in a source of the same pattern. -/
theorem C62_copyRowsFrom_again (nnz ps n : ℕ) (junk : ℕ → ℕ) (m : TMem K) (src : List (Ent K))
    (idx : ℕ → ℕ) (hi : StrictMono idx) (store : Store K)
    (h : p = n ∧ nnz ≤ src.length ∧ n ≤ ps) (hok : rowStartsOk ps src = true)
    (a : ℕ → ℕ) (h0 : a 0 = 0) (hr : Records a 0 n src idx)
    (hh : copyRowsFrom nnz (toStore m) src idx n = some store) :
    copyRowsFromR p nnz ps junk (some a) m src idx n = Out.one (a, ofStore store) := by
  have hs := (rowStartsOk_sorted hok).1
  unfold copyRowsFromR
  rw [Out.check_pos h, Out.check_pos hok]
  simp only [Out.one_andThen]
  rw [rows_one n m 0 src hs idx (fun i => i) a (fun _ => h0) (fun i hi => by
    have := hr i (by omega); simpa using this), Out.one_andThen]
  unfold copyRowsFrom at hh
  rw [Option.bind_eq_bind, Option.bind_eq_some_iff] at hh
  obtain ⟨r, h1, h2⟩ := hh
  rw [copyRowsLoop_write nnz idx (fun a => a) hi 0 n src hs _ _ r h1] at h2
  simp only at h2
  split at h2
  · rw [Option.some.injEq] at h2
    rw [h2]
  · exact absurd h2 (by simp)

theorem records_diff {a : ℕ → ℕ} {d n : ℕ} {src : List (Ent K)} {f : ℕ → ℕ}
    (h : Records a d n src f) : ∀ i, i ≤ n → a d ≤ a (d + i) := by
  intro i
  induction i with
  | zero => intro _; exact le_rfl
  | succ i ih =>
    intro hi
    have := h i (by omega)
    have := ih (by omega)
    rw [← Nat.add_assoc]
    omega

theorem blockHost (nnz : ℕ) (st store : Store K) (src : List (Ent K)) (hs : RowSorted src)
    (rsrc n rdst k : ℕ) (hh : copyRowsBlockFrom nnz st src rsrc n rdst k = some store) :
    store = writeAt st k (pickRows src (fun a => rsrc + a) (fun a => rdst + a) 0 n) := by
  unfold copyRowsBlockFrom at hh
  rw [Option.bind_eq_bind, Option.bind_eq_some_iff] at hh
  obtain ⟨r, h1, h2⟩ := hh
  rw [copyRowsLoop_write nnz _ _ (fun a b h => Nat.add_lt_add_left h _) 0 n src hs _ _ r h1] at h2
  simp only [Option.some.injEq] at h2
  exact h2.symm

/-- The row starts of a destination assembled from row 0 downwards: nothing beyond the registered
rows. -/
def Starts.Fresh (p : ℕ) (s : Starts) : Prop := ∀ j, s.reg < j → j ≤ p → s.a j = 0

theorem block_rows (n : ℕ) (m : TMem K) (src : List (Ent K)) (hs : RowSorted src)
    (rsrc rdst k : ℕ) (a : ℕ → ℕ) (hr : Records a rdst n src fun i => rsrc + i) :
    forallR n (fun i => puts true true (posFrom (a (rdst + i) - a rdst + k)
        (withRow (rdst + i) (rowSlice src (rsrc + i))))) m
      = Out.one (ofStore (writeAt (toStore m) k
        (pickRows src (fun a => rsrc + a) (fun a => rdst + a) 0 n))) := by
  refine rows_one n m k src hs (fun a => rsrc + a) (fun a => rdst + a)
    (fun i => a (rdst + i) - a rdst + k) (fun _ => by simp) fun i hi => ?_
  have h1 := hr i (by omega)
  have h2 := records_diff hr i (by omega)
  simp only [← Nat.add_assoc] at h1 ⊢
  omega

/-- **C62, copying a block of rows, first assembly.** For blocks given in the order of the destination
rows the parallel function stores what the host stores. The row starts it leaves record the block and
keep what they recorded before. -/
theorem C62_copyRowsBlock_first (nnz ps n rsrc rdst k : ℕ) (junk : ℕ → ℕ) (m : TMem K)
    (src : List (Ent K)) (s : Starts) (hf : s.Fresh p) (hreg : s.reg ≤ rdst) (hn : 0 < n)
    (h : src.length ≤ nnz ∧ n + rsrc ≤ ps ∧ n + rdst ≤ p) (hok : rowStartsOk ps src = true)
    (store : Store K) (hh : copyRowsBlockFrom nnz (toStore m) src rsrc n rdst k = some store) :
    ∃ s' : Starts, copyRowsBlockFromR p nnz ps junk (some s) m src rsrc n rdst k
        = Out.one (some s', ofStore store) ∧
      s'.Fresh p ∧ s'.reg = rdst + n ∧ Records s'.a rdst n src (fun i => rsrc + i) ∧
      ∀ j, j ≤ s.reg → s'.a j = s.a j := by
  have hs := (rowStartsOk_sorted hok).1
  unfold copyRowsBlockFromR
  rw [if_neg (by omega), Out.check_pos h, Out.check_pos hok]
  simp only [Out.one_andThen]
  rw [if_pos (hf _ (by omega) (by omega)), Out.check_pos hreg]
  set b : ℕ → ℕ := fun i => if rdst < i ∧ i ≤ rdst + n
    then (rowSlice src (rsrc + (i - rdst - 1))).length else s.a i with hb
  rw [forallR_val b (fun i => rdst + i + 1) (fun i j _ _ h => by omega)
    (val := fun i => rowStart src (rsrc + i + 1) - rowStart src (rsrc + i)) (fun i _ => rfl)
    (fun i hi => by
      have h1 : rdst < rdst + i + 1 ∧ rdst + i + 1 ≤ rdst + n := by omega
      have h2 : rdst + i + 1 - rdst - 1 = i := by omega
      simp only [hb, if_pos h1, h2, rowSlice_length])
    (fun l hl => by
      have : ¬ (rdst < l ∧ l ≤ rdst + n) := fun h => hl (l - rdst - 1) (by omega) (by omega)
      simp only [hb, if_neg this]), Out.one_andThen, Out.one_andThen]
  set s' : Starts := ⟨inclusiveScan s.reg (n + 1 + rdst - s.reg) b, n + rdst⟩ with hs'
  have hstep : ∀ j, s.reg ≤ j → j + 1 ≤ rdst + n → s'.a (j + 1) = s'.a j + b (j + 1) := by
    intro j h1 h2
    have ea : s'.a = inclusiveScan s.reg (n + 1 + rdst - s.reg) b := rfl
    rw [ea]
    unfold inclusiveScan
    rw [if_pos ⟨by omega, by omega⟩, if_pos ⟨by omega, by omega⟩]
    have e : j + 1 - s.reg + 1 = (j - s.reg + 1) + 1 := by omega
    rw [e, Finset.sum_range_succ]
    congr 2
    omega
  have hrec : Records s'.a rdst n src fun i => rsrc + i := by
    intro i hi
    rw [hstep (rdst + i) (by omega) (by omega)]
    have h1 : rdst < rdst + i + 1 ∧ rdst + i + 1 ≤ rdst + n := by omega
    have h2 : rdst + i + 1 - rdst - 1 = i := by omega
    simp only [hb, if_pos h1, h2]
  refine ⟨s', ?_, ?_, Nat.add_comm _ _, hrec, ?_⟩
  · rw [block_rows n m src hs rsrc rdst k s'.a hrec, Out.one_andThen,
      blockHost nnz _ _ src hs rsrc n rdst k hh]
  · intro j h1 h2
    have h1 : n + rdst < j := h1
    have ea : s'.a = inclusiveScan s.reg (n + 1 + rdst - s.reg) b := rfl
    rw [ea]
    unfold inclusiveScan
    rw [if_neg (by omega)]
    simp only [hb]
    rw [if_neg (by omega)]
    exact hf j (by omega) h2
  · intro j hj
    have ea : s'.a = inclusiveScan s.reg (n + 1 + rdst - s.reg) b := rfl
    rw [ea]
    unfold inclusiveScan
    by_cases hj' : j = s.reg
    · subst hj'
      rw [if_pos ⟨le_rfl, by omega⟩]
      simp only [Nat.sub_self, Nat.zero_add, Finset.sum_range_one, Nat.add_zero, hb]
      rw [if_neg (by omega)]
    · rw [if_neg (by omega)]
      simp only [hb]
      rw [if_neg (by omega)]

/-- **C62, the very first block.** Without row starts they are created, all zero. -/
theorem C62_copyRowsBlock_create (nnz ps n rsrc rdst k : ℕ) (junk : ℕ → ℕ) (m : TMem K)
    (src : List (Ent K)) (hn : 0 < n)
    (h : src.length ≤ nnz ∧ n + rsrc ≤ ps ∧ n + rdst ≤ p) (hok : rowStartsOk ps src = true)
    (store : Store K) (hh : copyRowsBlockFrom nnz (toStore m) src rsrc n rdst k = some store) :
    ∃ s' : Starts, copyRowsBlockFromR p nnz ps junk none m src rsrc n rdst k
        = Out.one (some s', ofStore store) ∧
      s'.Fresh p ∧ s'.reg = rdst + n ∧ Records s'.a rdst n src (fun i => rsrc + i) ∧ s'.a 0 = 0 := by
  obtain ⟨s', h1, h2, h3, h4, h5⟩ := C62_copyRowsBlock_first nnz ps n rsrc rdst k junk m src
    ⟨fun i => if i < p + 1 then 0 else junk i, 0⟩
    (fun j _ hj => if_pos (by omega)) (Nat.zero_le _) hn h hok store hh
  refine ⟨s', ?_, h2, h3, h4, by rw [h5 0 le_rfl]; simp⟩
  rw [← h1]
  unfold copyRowsBlockFromR
  rw [if_neg (by omega), if_neg (by omega)]
  simp only
  rw [forallR_val (fun i => if i < p + 1 then 0 else junk i) (fun i => i) (fun i j _ _ h => h)
    (val := fun _ => 0) (fun i _ => rfl) (fun i hi => by simp [hi]) (fun l hl => by
      have : ¬ l < p + 1 := fun h => hl l h rfl
      simp [this]), Out.one_andThen]

/-- **C62, copying a block of rows again, partial.** When the row starts record the block and the
entry after its first row is not zero. Missing: blocks for which it is zero
(`C62_copyRowsBlock_refuted`). -/
theorem C62_copyRowsBlock_again_partial (nnz ps n rsrc rdst k : ℕ) (junk : ℕ → ℕ) (m : TMem K)
    (src : List (Ent K)) (s : Starts) (hr : Records s.a rdst n src fun i => rsrc + i)
    (hz : s.a (rdst + 1) ≠ 0) (hn : 0 < n)
    (h : src.length ≤ nnz ∧ n + rsrc ≤ ps ∧ n + rdst ≤ p) (hok : rowStartsOk ps src = true)
    (store : Store K) (hh : copyRowsBlockFrom nnz (toStore m) src rsrc n rdst k = some store) :
    copyRowsBlockFromR p nnz ps junk (some s) m src rsrc n rdst k
      = Out.one (some s, ofStore store) := by
  have hs := (rowStartsOk_sorted hok).1
  unfold copyRowsBlockFromR
  rw [if_neg (by omega), Out.check_pos h, Out.check_pos hok]
  simp only [Out.one_andThen]
  rw [if_neg (by rwa [Nat.add_comm]), Out.one_andThen, block_rows n m src hs rsrc rdst k s.a hr,
    Out.one_andThen, blockHost nnz _ _ src hs rsrc n rdst k hh]

/-- **C62 fails for a block whose first row is empty.** The first assembly of a 2 by 2 matrix with an
empty row 0 is right on every schedule; the second stops at an assertion. The host assembles it any
number of times. -/
theorem C62_copyRowsBlock_refuted (junk : ℕ → ℕ) (m m' : TMem ℚ) :
    let src : List (Ent ℚ) := [⟨1, 0, 5⟩]
    (∀ st, (copyRowsBlockFrom 1 st src 0 2 0 0).isSome) ∧
    ∃ s' m1, copyRowsBlockFromR 2 1 2 junk none m src 0 2 0 0 = Out.one (some s', m1) ∧
      copyRowsBlockFromR 2 1 2 junk (some s') m' src 0 2 0 0 = Out.abort := by
  intro src
  have hok : rowStartsOk 2 src = true := by decide +kernel
  have hh : ∀ st, copyRowsBlockFrom 1 st src 0 2 0 0 = some (writeAt (writeAt st 0 []) 0 src) :=
    fun st => rfl
  refine ⟨fun st => by rw [hh]; rfl, ?_⟩
  obtain ⟨s', h1, -, h3, h4, h5⟩ := C62_copyRowsBlock_create (p := 2) 1 2 2 0 0 0 junk m src
    (by omega) (by decide) hok _ (hh _)
  refine ⟨s', _, h1, ?_⟩
  have h6 : s'.a 1 = 0 := by
    have := h4 0 (by omega)
    rw [Nat.zero_add, Nat.zero_add, h5] at this
    rw [this]
    rfl
  unfold copyRowsBlockFromR
  rw [if_neg (by omega), Out.check_pos (by decide), Out.check_pos hok]
  simp only [Out.one_andThen, Nat.add_zero]
  rw [if_pos h6, Out.check_neg (by omega), Out.abort_andThen]

/-! ## Feasibility restoration -/

theorem frRows_len (es : List (Ent K)) (r0 cp cn : ℕ) :
    ∀ p, (frRows p es r0 cp cn).length = rowStart es p + 2 * p := by
  intro p
  induction p with
  | zero => rfl
  | succ p ih =>
    have : frRows (p + 1) es r0 cp cn = frRows p es r0 cp cn ++
        (((rowSlice es p).map fun e => { e with r := r0 + p })
          ++ [⟨r0 + p, cp + p, -1⟩, ⟨r0 + p, cn + p, 1⟩]) := by
      simp [frRows, List.range_succ, List.flatMap_append]
    rw [this, List.length_append, ih, List.length_append, List.length_map, rowStart_succ]
    simp only [List.length_cons, List.length_nil]
    omega

theorem frLoop_one (wi wv : Bool) (p : ℕ) (es : List (Ent K)) (k0 r0 cp cn : ℕ) (m : TMem K) :
    frLoop wi wv p es k0 r0 cp cn m = Out.one (mergeAt wi wv m k0 (frRows p es r0 cp cn)) := by
  refine forallR_puts wi wv m _ k0 _ (fun i _ => rfl) ?_
  refine flatMap_posFrom p k0 (fun i => withRow (r0 + i) (rowSlice es i)
    ++ [⟨r0 + i, cp + i, -1⟩, ⟨r0 + i, cn + i, 1⟩]) (fun i => k0 + rowStart es i + 2 * i)
    (fun _ => by simp [rowStart]) fun i _ => ?_
  rw [List.length_append, withRow_length]
  simp only [rowStart_succ, List.length_cons, List.length_nil]
  omega

theorem mergeAt_none (m : TMem K) (k : ℕ) (l : List (Ent K)) : mergeAt false false m k l = m := by
  funext x
  unfold mergeAt
  split
  · cases x <;> rfl
  · rfl

/-- **C62, Jacobian of the restoration problem.** The call with the index arrays stores the host's
indices, the call with the value array the host's values, the call with both the host's triplets. -/
theorem C62_setJacFR (q nnz n mc md : ℕ) (Jc Jd l : List (Ent K)) (wi wv : Bool) (m : TMem K)
    (hq : q = n + 2 * mc + 2 * md) (hh : setJacFR n mc md Jc Jd nnz = some l) :
    setJacFRR q nnz n mc md Jc Jd wi wv m = Out.one (mergeAt wi wv m 0 l) ∧
    toList (toStore (mergeAt true true m 0 l)) nnz = l := by
  unfold setJacFR at hh
  split at hh
  case isFalse => exact absurd hh (by simp)
  rename_i hc
  simp only at hh
  split at hh
  case isFalse => exact absurd hh (by simp)
  rename_i hl
  rw [Option.some.injEq] at hh
  have hJc : (frRows mc Jc 0 n (n + mc)).length = Jc.length + 2 * mc := by
    rw [frRows_len, beq_iff_eq.1 hc.2.1]
  have app : ∀ wi wv (m : TMem K),
      ((frLoop wi wv mc Jc 0 0 n (n + mc) m).andThen fun m =>
        frLoop wi wv md Jd (Jc.length + 2 * mc) mc (n + 2 * mc) (n + 2 * mc + md) m)
        = Out.one (mergeAt wi wv m 0 l) := by
    intro wi wv m
    rw [frLoop_one, Out.one_andThen, frLoop_one, ← hh, ← mergeAt_append wi wv m 0, Nat.zero_add, hJc]
  refine ⟨?_, ?_⟩
  · unfold setJacFRR
    rw [Out.check_pos ⟨hq, by omega⟩, Out.check_pos hc.2.1, Out.check_pos hc.2.2]
    cases wi <;> cases wv
    · simp [mergeAt_none]
    · simp only [Bool.false_eq_true, if_false, Out.one_andThen, if_true]
      exact app false true m
    · simp only [Bool.false_eq_true, if_false, if_true]
      rw [app true false m, Out.one_andThen]
    · simp only [if_true]
      rw [app true false m, Out.one_andThen, app false true, mergeAt_mergeAt]
  · rw [mergeAt_full, toStore_ofStore]
    have := toList_writeAt (toStore m) 0 l
    rw [Nat.zero_add] at this
    rw [← hl, hh, this]
    rfl

/-- The row starts `a` fit the restoration Hessian of `H`. -/
def HessStarts (a : ℕ → ℕ) (mh : ℕ) (H : List (Ent K)) : Prop :=
  a 0 = 0 ∧ ∀ i, i < mh → a (i + 1) = a i + (1 + hessCount H i)

theorem hessRow_length (H : List (Ent K)) (diag : ℕ → K) (i : ℕ) :
    (hessRow H diag i).length = 1 + hessCount H i := by
  unfold hessRow hessCount
  split
  · rfl
  · split <;> simp <;> omega

theorem hessInit_one (m1 m2 : ℕ) (h : m2 ≤ m1) (H : List (Ent K)) (junk : ℕ → ℕ) :
    ∃ a, hessInit m1 m2 H junk = Out.one a ∧ HessStarts a m2 H := by
  unfold hessInit
  rw [forallR_val (fun i => if i < m1 + 1 then if 0 < i then 1 else 0 else junk i) (fun i => i)
    (fun i j _ _ h => h) (val := fun i => if 0 < i then 1 else 0) (fun i _ => rfl)
    (fun i hi => by simp [hi]) (fun l hl => by
      have : ¬ l < m1 + 1 := fun h => hl l h rfl
      simp [this]), Out.one_andThen]
  rw [forallR_race_free (fun i => if 0 < i ∧ i ≤ m2 then 1 + hessCount H (i - 1)
      else if i < m1 + 1 then if 0 < i then 1 else 0 else junk i) (fun i => {i + 1}) (fun _ => ∅)
      (fun i => update (fun i => if i < m1 + 1 then if 0 < i then 1 else 0 else junk i) (i + 1)
        ((if i + 1 < m1 + 1 then if 0 < i + 1 then 1 else 0 else junk (i + 1)) + hessCount H i))
      (fun i _ => by exact ⟨Or.inl rfl, fun _ => ⟨rfl, trivial⟩⟩) ?_ (fun i _ => rfl) ?_ ?_,
    Out.one_andThen]
  · refine ⟨_, rfl, ?_, fun i hi => ?_⟩
    · rw [inclusiveScan_eq m1 _ 0 (by omega)]; simp
    · rw [inclusiveScan_eq m1 _ (i + 1) (by omega), inclusiveScan_eq m1 _ i (by omega),
        Finset.sum_range_succ]
      congr 1
      have : 0 < i + 1 ∧ i + 1 ≤ m2 := by omega
      simp only [if_pos this, Nat.add_sub_cancel]
  · intro i j _ _ hij l hl
    rw [Set.mem_singleton_iff] at hl
    subst hl
    exact ⟨by simpa using hij, fun h => h⟩
  · intro i hi l hl
    rw [Set.mem_singleton_iff] at hl
    subst hl
    have h1 : 0 < i + 1 ∧ i + 1 ≤ m2 := by omega
    have h2 : i + 1 < m1 + 1 := by omega
    simp only [update_self, if_pos h1, if_pos h2, if_pos h1.1, Nat.add_sub_cancel]
  · intro l hl
    have : ¬ (0 < l ∧ l ≤ m2) := fun h => hl (l - 1) (by omega) (by
      rw [Set.mem_singleton_iff]; omega)
    simp only [if_neg this]

theorem hess_loop (wi wv : Bool) (mh : ℕ) (H : List (Ent K)) (diag : ℕ → K) (a : ℕ → ℕ)
    (ha : HessStarts a mh H) (m : TMem K) :
    forallR mh (fun i => puts wi wv (posFrom (a i) (hessRow H diag i))) m
      = Out.one (mergeAt wi wv m 0 ((List.range mh).flatMap (hessRow H diag))) := by
  refine forallR_puts wi wv m _ 0 _ (fun i _ => rfl) ?_
  exact flatMap_posFrom mh 0 (hessRow H diag) a (fun _ => ha.1) fun i hi => by
    rw [ha.2 i (by omega), hessRow_length]

/-- **C62, Hessian of the restoration problem, partial.** For a base Hessian with rows: the first call
with the index arrays (and possibly the values), and every later call with the values only, store
what the host stores. Missing: a second call with the index arrays, and values without a base Hessian
(`C62_setHessFR_refuted`). -/
theorem C62_setHessFR_partial (m1 nnz mh : ℕ) (junk : ℕ → ℕ) (H l : List (Ent ℝ))
    (diag : RVec ℝ p) (m : TMem ℝ) (h0 : nnz ≠ 0) (hm : 0 < mh) (hm1 : mh ≤ m1)
    (hh : Fr.setHessFR mh H diag nnz = some l) :
    let dg : ℕ → ℝ := Kkt.copyTo diag (fun _ => 0) 0
    (∀ wv, ∃ a, setHessFRR m1 nnz mh p (numOffDiag H) junk none H dg true wv m
        = Out.one (some a, mergeAt true wv m 0 l) ∧ HessStarts a mh H) ∧
    (∀ a, HessStarts a mh H → setHessFRR m1 nnz mh p (numOffDiag H) junk (some a) H dg false true m
        = Out.one (some a, mergeAt false true m 0 l)) ∧
    toList (toStore (mergeAt true true m 0 l)) nnz = l := by
  intro dg
  unfold Fr.setHessFR at hh
  rw [if_neg h0] at hh
  split at hh
  case isFalse => exact absurd hh (by simp)
  rename_i hc
  simp only at hh
  split at hh
  case isFalse => exact absurd hh (by simp)
  rename_i hl
  rw [Option.some.injEq] at hh
  have hl2 : (List.range mh).flatMap (hessRow H dg) = l := by
    rw [← hh]
    unfold Fr.hessRows
    refine List.flatMap_congr fun i _ => ?_
    unfold hessRow
    cases rowSlice H i <;> rfl
  have hck : mh ≤ m1 ∧ (p = mh ∨ mh = 0) ∧ nnz = p + numOffDiag H :=
    ⟨hm1, Or.inl (by rcases hc.2.2 with h | h <;> omega), hc.1⟩
  refine ⟨fun wv => ?_, fun a ha => ?_, ?_⟩
  · obtain ⟨a, h1, ha⟩ := hessInit_one m1 mh hm1 H junk
    refine ⟨a, ?_, ha⟩
    unfold setHessFRR
    rw [if_neg h0, Out.check_pos hck, Out.check_pos hc.2.1]
    simp only [if_true, if_pos hm]
    rw [h1, Out.one_andThen, hess_loop true false mh H dg a ha, Out.one_andThen, Out.one_andThen, hl2]
    cases wv
    · simp
    · simp only [if_true]
      rw [hess_loop false true mh H dg a ha, Out.one_andThen, hl2, mergeAt_mergeAt]
  · unfold setHessFRR
    rw [if_neg h0, Out.check_pos hck, Out.check_pos hc.2.1]
    simp only [Bool.false_eq_true, if_false, Out.one_andThen, if_true, if_pos hm]
    rw [hess_loop false true mh H dg a ha, Out.one_andThen, hl2]
  · rw [mergeAt_full, toStore_ofStore]
    have := toList_writeAt (toStore m) 0 l
    rw [Nat.zero_add] at this
    rw [← hl, hh, this]
    rfl

/-- **C62 fails for the restoration Hessian.** Whenever the checks pass: once the row starts exist, a
call with the index arrays uses a null pointer; without a base Hessian, a call with the values stops
at an assertion. -/
theorem C62_setHessFR_refuted (m1 nnz mh nd offd : ℕ) (junk : ℕ → ℕ) (H : List (Ent K)) (dg : ℕ → K)
    (m : TMem K) (h0 : nnz ≠ 0) :
    (∀ a wv, 0 < mh → setHessFRR m1 nnz mh nd offd junk (some a) H dg true wv m = Out.abort) ∧
    (∀ wi, mh = 0 → setHessFRR m1 nnz mh nd offd junk none H dg wi true m = Out.abort) := by
  refine ⟨fun a wv hm => ?_, fun wi hm => ?_⟩
  · unfold setHessFRR
    rw [if_neg h0]
    by_cases h1 : mh ≤ m1 ∧ (nd = mh ∨ mh = 0) ∧ nnz = nd + offd
    · rw [Out.check_pos h1]
      by_cases h2 : rowStartsOk mh H = true
      · rw [Out.check_pos h2]
        simp only [if_true, if_pos hm, Out.abort_andThen]
      · rw [Out.check_neg h2]
    · rw [Out.check_neg h1]
  · unfold setHessFRR
    rw [if_neg h0]
    by_cases h1 : mh ≤ m1 ∧ (nd = mh ∨ mh = 0) ∧ nnz = nd + offd
    · rw [Out.check_pos h1]
      by_cases h2 : rowStartsOk mh H = true
      · rw [Out.check_pos h2]
        cases wi
        · simp [Out.one_andThen]
        · simp only [if_true, if_neg (by omega : ¬ 0 < mh)]
          rw [forallR_block nd m 0 (fun i => ⟨i, i, dg i⟩) _ true false (fun i _ => by
            rw [Nat.zero_add]), Out.one_andThen, Out.one_andThen]
      · rw [Out.check_neg h2]
    · rw [Out.check_neg h1]

/-! ## The hypotheses are met -/

/-- A 3 by 3 matrix, sorted, with an empty row 1. -/
def exA : List (Ent ℚ) := [⟨0, 0, 2⟩, ⟨0, 2, 3⟩, ⟨2, 1, 5⟩]

/-- Products and sums: the loops end with the numbers, on every schedule. -/
example : timesVecR 3 3 exA 0 (fun _ => 7) 1 (fun j => if j = 0 then 1 else 10)
    = Out.one fun i => if i = 0 then 32 else if i = 1 then 0 else if i = 2 then 50 else 7 := by
  have h := C62_timesVec (p := 3) (q := 3) exA 0 1 (fun _ => 7) (fun j => if j = 0 then 1 else 10)
  rw [(C27_timesVec exA 0 1 _ _).1 (by simp [InRange, exA])] at h
  simp only at h
  rw [h]
  congr 1
  funext i
  unfold putBack
  by_cases hi : i < 3
  · have : i = 0 ∨ i = 1 ∨ i = 2 := by omega
    rcases this with rfl | rfl | rfl <;>
      simp [Fin.sum_univ_three, entry, exA] <;> norm_num
  · rw [dif_neg hi, if_neg (by omega), if_neg (by omega), if_neg (by omega)]

/-- A wrong index stops the loop. -/
example : none ∈ timesVecR 2 2 exA 0 (fun _ => 7) 1 (fun _ => 1) := by
  have h := C62_timesVec (p := 2) (q := 2) exA 0 1 (fun _ => 7) (fun _ => 1)
  rw [(C27_timesVec exA 0 1 _ _).2 (by simp [InRange, exA])] at h
  exact h

example : rowMaxAbsR 3 exA (fun _ => 9)
    = Out.one fun i => if i = 0 then 3 else if i = 1 then 0 else if i = 2 then 5 else 9 := by
  rw [(C62_rowMaxAbs (p := 3) exA (fun _ => 9) (by omega)).1 ⟨by simp [RowSorted, exA], by simp [exA]⟩]
  congr 1
  funext i
  by_cases hi : i < 3
  · have : i = 0 ∨ i = 1 ∨ i = 2 := by omega
    rcases this with rfl | rfl | rfl <;> decide +kernel
  · rw [if_neg hi, if_neg (by omega), if_neg (by omega), if_neg (by omega)]

/-- Unsorted rows: the host finds the maximum, the parallel function stops. -/
example : rowMaxAbs [⟨1, 0, (5 : ℚ)⟩, ⟨0, 0, 2⟩] 0 = 2 ∧
    rowMaxAbsR 2 [⟨1, 0, (5 : ℚ)⟩, ⟨0, 0, 2⟩] (fun _ => 9) = Out.abort :=
  ⟨by decide +kernel, (C62_rowMaxAbs (p := 2) _ _ (by omega)).2 (by simp [RowSorted])⟩

example : ∃ r, symAddUpper 3 [⟨0, 1, 3⟩, ⟨1, 1, 4⟩] 0 (1 : ℚ) (fun _ _ => 0) = some r ∧
    symAddR 3 [⟨0, 1, 3⟩, ⟨1, 1, 4⟩] 0 (1 : ℚ) (uncurry fun _ _ => 0) = Out.one (uncurry r) :=
  ⟨_, rfl, C62_symAdd_partial 3 _ (by simp [Distinct]) 0 1 _ _ rfl⟩

example (m : TMem ℚ) (junk : ℕ → ℕ) : ∃ store,
    copyDiagToSubblockSelR 5 5 4 3 junk m (fun i => i) 1 1 0 2 (fun i => if i = 1 then 0 else 1)
      = Out.one (ofStore store) ∧
    (toList store 2).map (fun e => (e.r, e.c, e.v)) = [(1, 1, 0), (2, 2, 2)] := by
  have h : copyDiagToSubblockSel 4 (toStore m) (fun i : Fin 3 => ((i : ℕ) : ℚ)) 1 1 0 2
      (fun i : Fin 3 => if (i : ℕ) = 1 then 0 else 1)
      = some (writeAt (toStore m) 0 [⟨1, 1, 0⟩, ⟨2, 2, 2⟩]) := by
    simp [copyDiagToSubblockSel, writeChecked, List.finRange_succ]
  refine ⟨_, C62_copyDiagToSubblockSel 4 3 junk m _ (fun i => if i = 1 then 0 else 1) 1 1 0 2 _
    (by omega) h, ?_⟩
  simp [writeAt, Sparse.toList, List.range_succ]

/-- Two blocks of rows, one below the other, and the same two again. -/
example (m : TMem ℚ) (junk : ℕ → ℕ) : ∃ s1 m1 s2 m2,
    copyRowsBlockFromR 5 6 3 junk none m exA 0 2 0 0 = Out.one (some s1, m1) ∧
    copyRowsBlockFromR 5 6 3 junk (some s1) m1 exA 0 3 2 2 = Out.one (some s2, m2) ∧
    (toList (toStore m2) 5).map (fun e => (e.r, e.c, e.v))
      = [(0, 0, 2), (0, 2, 3), (2, 0, 2), (2, 2, 3), (4, 1, 5)] ∧
    (∃ m3, copyRowsBlockFromR 5 6 3 junk (some s2) m2 exA 0 3 2 2 = Out.one (some s2, m3)) := by
  have hok : rowStartsOk 3 exA = true := by decide +kernel
  have h1 : ∀ st, copyRowsBlockFrom 6 st exA 0 2 0 0
      = some (writeAt (writeAt st 0 [⟨0, 0, 2⟩, ⟨0, 2, 3⟩]) 2 []) := fun st => rfl
  have h2 : ∀ st, copyRowsBlockFrom 6 st exA 0 3 2 2
      = some (writeAt (writeAt (writeAt st 2 [⟨2, 0, 2⟩, ⟨2, 2, 3⟩]) 4 []) 4 [⟨4, 1, 5⟩]) :=
    fun st => rfl
  obtain ⟨s1, a1, a2, a3, a4, a5⟩ := C62_copyRowsBlock_create (p := 5) 6 3 2 0 0 0 junk m exA
    (by omega) (by decide) hok _ (h1 _)
  obtain ⟨s2, b1, b2, b3, b4, b5⟩ := C62_copyRowsBlock_first (p := 5) 6 3 3 0 2 2 junk
    (ofStore (writeAt (writeAt (toStore m) 0 [⟨0, 0, 2⟩, ⟨0, 2, 3⟩]) 2 [])) exA s1 a2 (by omega)
    (by omega) (by decide) hok _ (h2 _)
  refine ⟨s1, _, s2, _, a1, b1, ?_, _, C62_copyRowsBlock_again_partial (p := 5) 6 3 3 0 2 2 junk _ exA
    s2 b4 ?_ (by omega) (by decide) hok _ (h2 _)⟩
  · rw [toStore_ofStore, toStore_ofStore]
    simp [writeAt, Sparse.toList, List.range_succ]
  · have e1 := b4 0 (by omega)
    have e2 : (rowSlice exA (0 + 0)).length = 2 := rfl
    rw [e2] at e1
    simp only [Nat.add_zero] at e1
    omega

example (m : TMem ℚ) : ∃ l, setJacFR 3 3 0 exA [] 9 = some l ∧ l.length = 9 ∧
    setJacFRR 9 9 3 3 0 exA [] true true m = Out.one (mergeAt true true m 0 l) := by
  have h : setJacFR 3 3 0 exA [] 9 = some (frRows 3 exA 0 3 6 ++ []) := by
    unfold setJacFR
    rw [if_pos (by decide +kernel), if_pos (by decide +kernel)]
    rfl
  exact ⟨_, h, rfl, (C62_setJacFR 9 9 3 3 0 exA [] _ true true m rfl h).1⟩

example (m : TMem ℝ) (junk : ℕ → ℕ) : ∃ l a,
    Fr.setHessFR 2 [⟨0, 0, 5⟩, ⟨0, 1, 7⟩] ![1, 2] 3 = some l ∧
    setHessFRR 4 3 2 2 (numOffDiag [⟨0, 0, (5 : ℝ)⟩, ⟨0, 1, 7⟩]) junk none [⟨0, 0, 5⟩, ⟨0, 1, 7⟩]
      (Kkt.copyTo ![1, 2] (fun _ => 0) 0) true true m = Out.one (some a, mergeAt true true m 0 l) := by
  have hok : rowStartsOk 2 [⟨0, 0, (5 : ℝ)⟩, ⟨0, 1, 7⟩] = true := by
    rw [rowStartsOk_iff _ (by simp [RowSorted])]
    simp
  have h : ∃ l, Fr.setHessFR 2 [⟨0, 0, 5⟩, ⟨0, 1, 7⟩] ![1, 2] 3 = some l := by
    unfold Fr.setHessFR
    rw [if_neg (by omega), if_pos ⟨by simp [numOffDiag], hok, Or.inr rfl⟩]
    refine ⟨_, if_pos ?_⟩
    rfl
  obtain ⟨l, hl⟩ := h
  obtain ⟨a, ha, -⟩ := (C62_setHessFR_partial 4 3 2 junk _ l _ m (by omega) (by omega) (by omega)
    hl).1 true
  exact ⟨l, a, hl, ha⟩

end Hiop.Raja
