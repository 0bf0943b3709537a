import Verif.CsrGpu.Model
import Verif.Gpu.Props
import Verif.Csr.Props

/-!
# C79: sparse matrices on CUDA devices

For every schedule of the threads, whether or not assertions are compiled: the operations on the
diagonal, the row scaling and the construction of a CSR matrix on the device do what they do on the
host (C28): the value at `(i, j)` of the matrix afterwards (`get`, Verif.Csr.Spec) is the documented
one. The cases in which they do not are stated as `_refuted`.
-/

set_option linter.unusedSectionVars false

namespace Hiop.CsrGpu

open Hiop.Csr Hiop.Raja Hiop.Gpu Hiop.Sparse Function

/-! ## Grids -/

section
variable {L : Type} {V : L → Type} [DecidableEq L]

theorem blocks_pos {bs n : ℕ} (hbs : 0 < bs) (hn : 0 < n) : 0 < (n + bs - 1) / bs :=
  Nat.div_pos (by omega) hbs

theorem blocks_cover {bs n : ℕ} (hbs : 0 < bs) : n ≤ (n + bs - 1) / bs * bs := by
  have h := Nat.div_add_mod (n + bs - 1) bs
  have h' := Nat.mod_lt (n + bs - 1) hbs
  rw [mul_comm] at h
  omega

theorem launchB_eq {bs : ℕ} (hbs : 0 < bs) (n : ℕ) (body : ℕ → Prog L V) (m : Mem V) :
    launchB bs n (fun T tid => gridStride T n body tid) m = forallR n body m := by
  unfold launchB
  by_cases hn : n = 0
  · subst hn
    rw [if_pos (Nat.div_eq_of_lt (by omega)), Gpu.forallR_zero]
  · have := blocks_pos hbs (n := n) (by omega)
    rw [if_neg (by omega), forallR_idle (blocks_cover hbs) _ fun i hi => gridStride_ge _ hi]
    exact forallR_congr (fun i hi => gridStride_covered _ (blocks_cover hbs) hi) m

end

/-! ## The search -/

/-- Column indices between `L` and `E` strictly increase. -/
def Incr (col : ℕ → ℕ) (L E : ℕ) : Prop := ∀ p q, L ≤ p → p < q → q < E → col p < col q

theorem search_at {nnz : ℕ} {col : ℕ → ℕ} {row L E p : ℕ} (hE : E ≤ nnz) (hb : E ≤ 2 ^ 30)
    (hI : Incr col L E) (h1 : L ≤ p) (h2 : p < E) (hp : col p = row) :
    search nnz col row L E = .at p := by
  generalize hd : E - L = d
  induction d using Nat.strong_induction_on generalizing L E with
  | _ d ih =>
    rw [search, if_neg (by omega), if_neg (by omega)]
    generalize hm : (L + E - 1) / 2 = mid
    have m1 : L ≤ mid := by omega
    have m2 : mid < E := by omega
    rcases lt_trichotomy p mid with h | h | h
    · have := hI p mid h1 h m2
      rw [if_pos (by omega), dif_pos (by omega)]
      exact ih (mid - L) (by omega) (by omega) (by omega)
        (fun a b ha hab hbE => hI a b ha hab (by omega)) h1 h rfl
    · subst h
      rw [if_neg (by omega), if_neg (by omega)]
    · have := hI mid p m1 h h2
      rw [if_neg (by omega), if_pos (by omega), dif_pos (by omega)]
      exact ih (E - (mid + 1)) (by omega) hE hb
        (fun a b ha hab hbE => hI a b (by omega) hab hbE) (by omega) h2 rfl

theorem search_absent {nnz : ℕ} {col : ℕ → ℕ} {row L E : ℕ} (hE : E ≤ nnz) (hb : E ≤ 2 ^ 30)
    (hne : L < E) (hn : ∀ p, L ≤ p → p < E → col p ≠ row) :
    search nnz col row L E = .absent := by
  generalize hd : E - L = d
  induction d using Nat.strong_induction_on generalizing L E with
  | _ d ih =>
    rw [search, if_neg (by omega), if_neg (by omega)]
    generalize hm : (L + E - 1) / 2 = mid
    have hc := hn mid (by omega) (by omega)
    rcases lt_or_gt_of_ne hc with h | h
    · rw [if_neg (by omega), if_pos h]
      split_ifs with h'
      · exact ih (E - (mid + 1)) (by omega) hE hb h' (fun p a b => hn p (by omega) b) rfl
      · rfl
    · rw [if_pos h]
      split_ifs with h'
      · exact ih (mid - L) (by omega) (by omega) (by omega) h' (fun p a b => hn p a (by omega)) rfl
      · rfl

variable {K : Type} [Field K] [LinearOrder K] [IsStrictOrderedRing K]

theorem incr_row {A : CsrMat K} (hV : Valid A) {i : ℕ} (hi : i < A.nrows) :
    Incr A.col (A.ptr i) (A.ptr (i + 1)) := fun _ _ h1 h2 h3 => hV.col_lt hi h1 h2 h3

theorem ptr_succ_le {A : CsrMat K} (hV : Valid A) {i : ℕ} (hi : i < A.nrows) :
    A.ptr (i + 1) ≤ A.nnz := hV.ptr_le (by omega)

/-! ## Diagonal updates -/

/-- The diagonal kernels, when every row has an entry: they touch the stored diagonal positions and
nothing else; with assertions, if all of them are stored. -/
theorem diagKernel_one {A : CsrMat K} (hV : Valid A) (hz : A.nnz ≤ 2 ^ 30) (dbg : Bool)
    (hne : ∀ i < A.nrows, A.ptr i < A.ptr (i + 1))
    (hdiag : dbg = true → ∀ i < A.nrows, Stored A i i) (f : ℕ → K → K) :
    ∃ w, diagKernel dbg A f = .one w ∧
      ∀ i < A.nrows, ∀ p, A.ptr i ≤ p → p < A.ptr (i + 1) →
        w p = if A.col p = i then f i (A.val p) else A.val p := by
  classical
  let own : ℕ → Set ℕ := fun i => {p | A.ptr i ≤ p ∧ p < A.ptr (i + 1) ∧ A.col p = i}
  have hok : ∀ i < A.nrows, rowOk A i := fun i hi =>
    ⟨lt_of_lt_of_le (hne i hi) (ptr_succ_le hV hi), ptr_succ_le hV hi, hne i hi⟩
  have hdis : ∀ i j, i < A.nrows → j < A.nrows → ∀ p, A.ptr i ≤ p → p < A.ptr (i + 1) →
      A.ptr j ≤ p → p < A.ptr (j + 1) → i = j := by
    intro i j hi hj p a1 a2 b1 b2
    rcases lt_trichotomy i j with h | h | h
    · have := hV.ptr_mono (show i + 1 ≤ j by omega) (by omega); omega
    · exact h
    · have := hV.ptr_mono (show j + 1 ≤ i by omega) (by omega); omega
  have hb : ∀ i < A.nrows, (∃ q, q ∈ own i ∧
      diagRow dbg A f i = .rd q fun v => .wr q (f i v) .ret) ∨
      ((∀ p, p ∉ own i) ∧ diagRow dbg A f i = .ret) := by
    intro i hi
    unfold diagRow assertP
    rw [if_pos fun _ => hok i hi]
    by_cases h : Stored A i i
    · obtain ⟨p, a, b, e⟩ := h
      rw [search_at (ptr_succ_le hV hi) ((ptr_succ_le hV hi).trans hz) (incr_row hV hi) a b e]
      exact Or.inl ⟨p, ⟨a, b, e⟩, rfl⟩
    · rw [search_absent (ptr_succ_le hV hi) ((ptr_succ_le hV hi).trans hz) (hne i hi)
        fun p a b e => h ⟨p, a, b, e⟩]
      refine Or.inr ⟨fun p hp => h ⟨p, hp.1, hp.2.1, hp.2.2⟩, ?_⟩
      have : dbg = false := by
        cases dbg
        · rfl
        · exact absurd (hdiag rfl i hi) h
      simp [this]
  have huniq : ∀ i < A.nrows, ∀ p ∈ own i, ∀ q ∈ own i, p = q := fun i hi p hp q hq =>
    hV.col_inj hi ((mem_rowIdx A i p).mpr ⟨hp.1, hp.2.1⟩) ((mem_rowIdx A i q).mpr ⟨hq.1, hq.2.1⟩)
      (by rw [hp.2.2, hq.2.2])
  let w : ℕ → K := fun p => if h : ∃ i, i < A.nrows ∧ p ∈ own i then f h.choose (A.val p) else A.val p
  have hw : ∀ i < A.nrows, ∀ p ∈ own i, w p = f i (A.val p) := by
    intro i hi p hp
    have h : ∃ k, k < A.nrows ∧ p ∈ own k := ⟨i, hi, hp⟩
    simp only [w]
    rw [dif_pos h]
    have := h.choose_spec
    rw [hdis h.choose i this.1 hi p this.2.1 this.2.2.1 hp.1 hp.2.1]
  refine ⟨w, ?_, ?_⟩
  · unfold diagKernel
    rw [launchB_eq (by decide)]
    refine forallR_race_free w own (fun _ => ∅)
      (fun i p => if p ∈ own i then f i (A.val p) else A.val p) ?_ ?_ ?_ ?_ ?_
    · intro i hi
      rcases hb i hi with ⟨q, hq, e⟩ | ⟨_, e⟩ <;> rw [e]
      · exact ⟨Or.inl hq, fun _ => ⟨hq, trivial⟩⟩
      · trivial
    · intro i j hi hj hij l hl
      exact ⟨fun h => hij (hdis i j hi hj l hl.1 hl.2.1 h.1 h.2.1), by simp⟩
    · intro i hi
      rcases hb i hi with ⟨q, hq, e⟩ | ⟨hn, e⟩ <;> rw [e]
      · simp only [run]
        congr 1
        funext p
        by_cases hp : p = q
        · subst hp; rw [update_self, if_pos hq]
        · rw [update_of_ne hp, if_neg fun h => hp (huniq i hi p h q hq)]
      · simp only [run]
        congr 1
        funext p
        rw [if_neg (hn p)]
    · intro i hi l hl
      rw [hw i hi l hl, if_pos hl]
    · intro l hl
      simp only [w]
      rw [dif_neg]
      rintro ⟨i, hi, h⟩
      exact hl i hi h
  · intro i hi p h1 h2
    by_cases hc : A.col p = i
    · rw [if_pos hc, hw i hi p ⟨h1, h2, hc⟩]
    · rw [if_neg hc]
      simp only [w]
      rw [dif_neg]
      rintro ⟨k, hk, hp⟩
      have := hdis k i hk hi _ hp.1 hp.2.1 h1 h2
      subst this
      exact hc hp.2.2

theorem nonempty_of_diag {A : CsrMat K} (h : ∀ i < A.nrows, Stored A i i) :
    ∀ i < A.nrows, A.ptr i < A.ptr (i + 1) := fun i hi => by
  obtain ⟨p, a, b, _⟩ := h i hi; omega

theorem with_val_valid {A : CsrMat K} (hV : Valid A) (w : ℕ → K) : Valid { A with val := w } :=
  SamePat.valid (A := A) ⟨rfl, rfl, rfl, rfl, rfl, rfl⟩ hV

open Classical in
theorem get_on_diag {A : CsrMat K} (hV : Valid A) {w : ℕ → K} {f : ℕ → K → K} {i : ℕ}
    (hi : i < A.nrows)
    (hw : ∀ p, A.ptr i ≤ p → p < A.ptr (i + 1) →
      w p = if A.col p = i then f i (A.val p) else A.val p) (j : ℕ) :
    get { A with val := w } i j = if i = j ∧ Stored A i i then f i (get A i i) else get A i j := by
  have hV' := with_val_valid hV w
  by_cases hs : Stored A i j
  · obtain ⟨p, h1, h2, rfl⟩ := hs
    have hp := (mem_rowIdx A i p).mpr ⟨h1, h2⟩
    have e := hV'.get_at (i := i) (p := p) hi hp
    simp only at e
    rw [e, hw p h1 h2, hV.get_at hi hp]
    by_cases h : A.col p = i
    · rw [if_pos h, if_pos ⟨h.symm, p, h1, h2, h⟩, ← hV.get_at hi hp, h]
    · rw [if_neg h, if_neg fun hh => h hh.1.symm]
  · rw [get_not_stored (A := { A with val := w }) hs, get_not_stored hs, if_neg]
    rintro ⟨rfl, h⟩; exact hs h

/-- **C79, diagonal updates.** On a matrix with at most `2^30` nonzeros whose pattern contains every
diagonal position the three diagonal routines change the diagonal as documented and nothing else.
Missing: larger matrices (`C79_overflow_refuted`), patterns without a diagonal position
(`C79_missing_diagonal`) and rows without entries (`C79_empty_row_refuted`). -/
theorem C79_diagonal_partial (dbg : Bool) (A : CsrMat K) (hV : Valid A) (hsq : A.nrows = A.ncols)
    (hz : A.nnz ≤ 2 ^ 30) (hdiag : ∀ i < A.nrows, Stored A i i) (alpha c : K) (D : ℕ → K) :
    (∃ w, addDiagG dbg A alpha A.nrows D = .one w ∧ ∀ i < A.nrows, ∀ j,
      get { A with val := w } i j = get A i j + if i = j then alpha * D i else 0) ∧
    (∃ w, addDiagCG dbg A c = .one w ∧ ∀ i < A.nrows, ∀ j,
      get { A with val := w } i j = get A i j + if i = j then c else 0) ∧
    ∃ w, setDiagG dbg A c = .one w ∧ ∀ i < A.nrows, ∀ j,
      get { A with val := w } i j = if i = j then c else get A i j := by
  refine ⟨?_, ?_, ?_⟩
  · obtain ⟨w, h1, h2⟩ := diagKernel_one hV hz dbg (nonempty_of_diag hdiag) (fun _ => hdiag) fun i v => v + alpha * D i
    refine ⟨w, ?_, fun i hi j => ?_⟩
    · unfold addDiagG
      rw [Out.check_pos fun _ => ⟨rfl, hsq⟩, h1]
    · rw [get_on_diag (f := fun i v => v + alpha * D i) hV hi (h2 i hi)]
      simp only [hdiag i hi, and_true]
      split_ifs with h
      · rw [h]
      · rw [add_zero]
  · obtain ⟨w, h1, h2⟩ := diagKernel_one hV hz dbg (nonempty_of_diag hdiag) (fun _ => hdiag) fun _ v => v + c
    refine ⟨w, ?_, fun i hi j => ?_⟩
    · unfold addDiagCG
      rw [Out.check_pos fun _ => hsq, h1]
    · rw [get_on_diag (f := fun _ v => v + c) hV hi (h2 i hi)]
      simp only [hdiag i hi, and_true]
      split_ifs with h
      · rw [h]
      · rw [add_zero]
  · obtain ⟨w, h1, h2⟩ := diagKernel_one hV hz dbg (nonempty_of_diag hdiag) (fun _ => hdiag) fun _ _ => c
    refine ⟨w, ?_, fun i hi j => ?_⟩
    · unfold setDiagG
      rw [Out.check_pos hV.ready, h1]
    · rw [get_on_diag (f := fun _ _ => c) hV hi (h2 i hi)]
      simp only [hdiag i hi, and_true]

/-- **C79, same as on the host.** The values at the stored positions are those the host routines of
C28 leave. -/
theorem C79_diagonal_host_partial (dbg : Bool) (A : CsrMat K) (hV : Valid A) (hsq : A.nrows = A.ncols)
    (hz : A.nnz ≤ 2 ^ 30) (hdiag : ∀ i < A.nrows, Stored A i i) (alpha : K) (D : ℕ → K) :
    ∃ w B, addDiagG dbg A alpha A.nrows D = .one w ∧ addDiag A alpha A.nrows D = some B ∧
      ∀ i < A.nrows, ∀ p, A.ptr i ≤ p → p < A.ptr (i + 1) → w p = B.val p := by
  obtain ⟨w, h1, h2⟩ := diagKernel_one hV hz dbg (nonempty_of_diag hdiag) (fun _ => hdiag) fun i v => v + alpha * D i
  refine ⟨w, { A with val := onDiag A fun i v => v + alpha * D i }, ?_, ?_, fun i hi p a b => ?_⟩
  · unfold addDiagG
    rw [Out.check_pos fun _ => ⟨rfl, hsq⟩, h1]
  · unfold addDiag
    rw [if_pos ⟨hV.ready, rfl, hsq⟩]
  · rw [h2 i hi p a b]
    exact (onDiag_val hV (fun i v => v + alpha * D i) hi a b).symm

/-- A row without a stored diagonal position. -/
theorem diagRow_absent {A : CsrMat K} (hV : Valid A) (hz : A.nnz ≤ 2 ^ 30) {i : ℕ} (hi : i < A.nrows)
    (hne : A.ptr i < A.ptr (i + 1)) (hns : ¬ Stored A i i) (dbg : Bool) (f : ℕ → K → K) :
    diagRow dbg A f i = if dbg = false then .ret else .fail := by
  have hs := search_absent (nnz := A.nnz) (col := A.col) (row := i) (ptr_succ_le hV hi)
    ((ptr_succ_le hV hi).trans hz) hne fun p a b e => hns ⟨p, a, b, e⟩
  have hok : rowOk A i := ⟨lt_of_lt_of_le hne (ptr_succ_le hV hi), ptr_succ_le hV hi, hne⟩
  unfold diagRow assertP
  rw [if_pos fun _ => hok, hs]

/-- **C79, a diagonal position that is not stored.** With assertions the device stops, for every
update of the diagonal; without, nothing tells that the value was dropped: see
`C79_dropped`. -/
theorem C79_missing_diagonal (A : CsrMat K) (hV : Valid A) (hsq : A.nrows = A.ncols)
    (hz : A.nnz ≤ 2 ^ 30) {i : ℕ} (hi : i < A.nrows) (hne : A.ptr i < A.ptr (i + 1))
    (hns : ¬ Stored A i i) (alpha : K) (D : ℕ → K) :
    none ∈ addDiagG true A alpha A.nrows D := by
  unfold addDiagG diagKernel
  rw [Out.check_pos fun _ => ⟨rfl, hsq⟩, launchB_eq (by decide)]
  exact forallR_abort hi (by rw [diagRow_absent hV hz hi hne hns]; rfl)

/-- **C79, a diagonal position that is not stored, without assertions.** If every row has an entry, the
stored diagonal positions are updated and the other rows keep all their values. -/
theorem C79_dropped (A : CsrMat K) (hV : Valid A) (hz : A.nnz ≤ 2 ^ 30)
    (hne : ∀ i < A.nrows, A.ptr i < A.ptr (i + 1)) (alpha : K) (m : ℕ) (D : ℕ → K) :
    ∃ w, addDiagG false A alpha m D = .one w ∧
      (∀ i < A.nrows, Stored A i i → ∀ j,
        get { A with val := w } i j = get A i j + if i = j then alpha * D i else 0) ∧
      ∀ i < A.nrows, ¬ Stored A i i → ∀ j, get { A with val := w } i j = get A i j := by
  obtain ⟨w, h1, h2⟩ := diagKernel_one hV hz false hne (by simp) fun i v => v + alpha * D i
  refine ⟨w, ?_, fun i hi hs j => ?_, fun i hi hs j => ?_⟩
  · unfold addDiagG
    rw [Out.check_pos (by simp), h1]
  · rw [get_on_diag (f := fun i v => v + alpha * D i) hV hi (h2 i hi)]
    simp only [hs, and_true]
    split_ifs with h
    · rw [h]
    · rw [add_zero]
  · rw [get_on_diag (f := fun i v => v + alpha * D i) hV hi (h2 i hi), if_neg fun h => hs h.2]

/-! ## Extraction -/

theorem search_diag {A : CsrMat K} (hV : Valid A) (hz : A.nnz ≤ 2 ^ 30) {i : ℕ} (hi : i < A.nrows)
    (hne : A.ptr i < A.ptr (i + 1)) :
    (∃ p, A.ptr i ≤ p ∧ p < A.ptr (i + 1) ∧ A.col p = i ∧
        search A.nnz A.col i (A.ptr i) (A.ptr (i + 1)) = .at p) ∨
      (¬ Stored A i i ∧ search A.nnz A.col i (A.ptr i) (A.ptr (i + 1)) = .absent) := by
  by_cases h : Stored A i i
  · obtain ⟨p, a, b, e⟩ := h
    exact Or.inl ⟨p, a, b, e, search_at (ptr_succ_le hV hi) ((ptr_succ_le hV hi).trans hz)
      (incr_row hV hi) a b e⟩
  · exact Or.inr ⟨h, search_absent (ptr_succ_le hV hi) ((ptr_succ_le hV hi).trans hz) hne
      fun p a b e => h ⟨p, a, b, e⟩⟩

/-- **C79, extraction.** If every row has an entry, `extract_diagonal` yields the diagonal of the
matrix, zero where no entry is stored. Missing: rows without entries (`C79_empty_row_refuted`). -/
theorem C79_extract_partial (dbg : Bool) (A : CsrMat K) (hV : Valid A) (hz : A.nnz ≤ 2 ^ 30)
    (hne : ∀ i < A.nrows, A.ptr i < A.ptr (i + 1)) (sz : ℕ) (hsz : A.nrows ≤ sz) (out : ℕ → K) :
    extractDiagG dbg A sz out = .one fun i => if i < A.nrows then get A i i else out i := by
  unfold extractDiagG
  rw [launchB_eq (by decide)]
  refine forallR_race_free _ (fun i => {i}) (fun _ => ∅) (fun i => update out i (get A i i)) ?_ ?_ ?_ ?_ ?_
  · intro i hi
    unfold extractRow assertP
    rw [if_pos fun _ => ⟨lt_of_lt_of_le (hne i hi) (ptr_succ_le hV hi), ptr_succ_le hV hi, hne i hi⟩,
      if_pos (by omega)]
    rcases search_diag hV hz hi (hne i hi) with ⟨p, _, _, _, h⟩ | ⟨_, h⟩ <;> rw [h] <;> simp [Within]
  · intro i j _ _ hij l hl
    rw [Set.mem_singleton_iff] at hl
    subst hl
    exact ⟨fun h => hij h, by simp⟩
  · intro i hi
    unfold extractRow assertP
    rw [if_pos fun _ => ⟨lt_of_lt_of_le (hne i hi) (ptr_succ_le hV hi), ptr_succ_le hV hi, hne i hi⟩,
      if_pos (by omega)]
    rcases search_diag hV hz hi (hne i hi) with ⟨p, a, b, e, h⟩ | ⟨hn, h⟩
    · rw [h]
      have := hV.get_at hi ((mem_rowIdx A i p).mpr ⟨a, b⟩)
      rw [e] at this
      simp [run, this]
    · rw [h, get_not_stored hn]
      simp [run]
  · intro i hi l hl
    rw [Set.mem_singleton_iff] at hl
    subst hl
    rw [update_self, if_pos hi]
  · intro l hl
    rw [if_neg]
    intro h
    exact hl l h rfl

/-! ## Row scaling -/

theorem scaleRow_within (A : CsrMat K) (D : ℕ → K) (i : ℕ) :
    Within {p | A.ptr i ≤ p ∧ p < A.ptr (i + 1)} ∅ (scaleRow A D i) := by
  unfold scaleRow
  have : ∀ l : List ℕ, (∀ p ∈ l, A.ptr i ≤ p ∧ p < A.ptr (i + 1)) →
      Within {p | A.ptr i ≤ p ∧ p < A.ptr (i + 1)} ∅
        (l.foldr (fun p k => .rd p fun v => .wr p (v * D i) k) (.ret : Prog ℕ fun _ => K)) := by
    intro l
    induction l with
    | nil => intro _; trivial
    | cons p l ih =>
      intro h
      have hp := h p (by simp)
      exact ⟨Or.inl hp, fun _ => ⟨hp, ih fun q hq => h q (by simp [hq])⟩⟩
  exact this _ fun p hp => (mem_rowIdx A i p).mp hp

theorem scaleRow_run (A : CsrMat K) (D : ℕ → K) (i : ℕ) (v : ℕ → K) :
    run (scaleRow A D i) v =
      some fun p => if A.ptr i ≤ p ∧ p < A.ptr (i + 1) then v p * D i else v p := by
  unfold scaleRow
  have : ∀ (l : List ℕ) (v : ℕ → K), l.Nodup →
      run (l.foldr (fun p k => .rd p fun v => .wr p (v * D i) k) (.ret : Prog ℕ fun _ => K)) v =
        some fun p => if p ∈ l then v p * D i else v p := by
    intro l
    induction l with
    | nil => intro v _; simp [run]
    | cons q l ih =>
      intro v hn
      rw [List.nodup_cons] at hn
      simp only [List.foldr_cons, run]
      rw [ih _ hn.2]
      congr 1
      funext p
      by_cases hpq : p = q
      · subst hpq
        simp [hn.1]
      · simp [hpq]
  rw [this (rowIdx A i) v (by unfold rowIdx; exact List.nodup_range')]
  congr 1
  funext p
  simp only [mem_rowIdx]

/-- **C79, row scaling.** `scale_rows` multiplies by the diagonal matrix from the left. -/
theorem C79_scale_rows (dbg : Bool) (A : CsrMat K) (hV : Valid A) (D : ℕ → K) :
    ∃ w, scaleRowsG dbg A A.nrows D = .one w ∧
      ∀ i < A.nrows, ∀ j, get { A with val := w } i j = D i * get A i j := by
  obtain ⟨B, hB, -⟩ := (C28_scale A hV D).1
  have hval : B.val = (List.range A.nrows).foldl (fun (v : ℕ → K) i =>
      (rowIdx A i).foldl (fun (v : ℕ → K) p => wr v p (v p * D i)) v) A.val := by
    unfold scaleRows at hB
    rw [if_pos rfl] at hB
    simp only [Option.some.injEq] at hB
    rw [← hB]
  let w : ℕ → K := fun p => if p < A.nnz then B.val p else A.val p
  have hw : ∀ i < A.nrows, ∀ p, A.ptr i ≤ p → p < A.ptr (i + 1) → w p = A.val p * D i := by
    intro i hi p a b
    have : p < A.nnz := lt_of_lt_of_le b (ptr_succ_le hV hi)
    simp only [w]
    rw [if_pos this, hval, scaleRows_val hV D hi a b]
  have hfind : ∀ p < A.nnz, ∃ i, i < A.nrows ∧ A.ptr i ≤ p ∧ p < A.ptr (i + 1) := by
    intro p hp
    by_contra hcon
    push Not at hcon
    have : ∀ k ≤ A.nrows, A.ptr k ≤ p := by
      intro k
      induction k with
      | zero => intro _; rw [hV.first]; omega
      | succ k ih => intro hk; exact hcon k (by omega) (ih (by omega))
    have := this A.nrows le_rfl
    rw [hV.last] at this
    omega
  refine ⟨w, ?_, fun i hi j => ?_⟩
  · unfold scaleRowsG
    rw [Out.check_pos fun _ => rfl, launchB_eq (by decide)]
    refine forallR_race_free w (fun i => {p | A.ptr i ≤ p ∧ p < A.ptr (i + 1)}) (fun _ => ∅)
      (fun i p => if A.ptr i ≤ p ∧ p < A.ptr (i + 1) then A.val p * D i else A.val p)
      (fun i _ => scaleRow_within A D i) ?_ (fun i _ => scaleRow_run A D i A.val) ?_ ?_
    · intro i j hi hj hij p hp
      refine ⟨fun hq => hij ?_, by simp⟩
      simp only [Set.mem_ofPred_eq] at hp hq
      rcases lt_trichotomy i j with h | h | h
      · have := hV.ptr_mono (show i + 1 ≤ j by omega) (by omega); omega
      · exact h
      · have := hV.ptr_mono (show j + 1 ≤ i by omega) (by omega); omega
    · intro i hi p hp
      simp only [Set.mem_ofPred_eq] at hp
      rw [if_pos hp, hw i hi p hp.1 hp.2]
    · intro p hp
      simp only [w]
      rw [if_neg]
      intro h
      obtain ⟨i, hi, a, b⟩ := hfind p h
      exact hp i hi ⟨a, b⟩
  · unfold Csr.get
    rw [Finset.mul_sum]
    refine Finset.sum_congr rfl fun p hp => ?_
    rw [Finset.mem_Ico] at hp
    simp only
    rw [hw i hi p hp.1 hp.2]
    split_ifs <;> ring

/-! ## Construction -/

theorem count_lt (es : List (Ent K)) (i : ℕ) :
    (es.map Ent.r).countP (· < i) = offs (fun t => ((rowOf es t).map Ent.c).length) i := by
  induction i with
  | zero => simp [offs]
  | succ i ih =>
    rw [offs_succ, ← ih]
    simp only [List.length_map, rowOf, ← List.countP_eq_length_filter, List.countP_map]
    clear ih
    induction es with
    | nil => rfl
    | cons e es ih =>
      simp only [List.countP_cons, Function.comp_apply, decide_eq_true_eq, beq_iff_eq]
      have := ih
      simp only [Function.comp_def] at this ⊢
      split_ifs <;> omega

/-- **C79, construction from triplets.** For every ordered list of triplets with at least one entry,
from any previous state of the object and whatever memory it is given, the symbolic pass yields a
well formed matrix; every later numeric pass, with whatever values at the same positions, stores the
triplet matrix. Missing: no entries (`C79_empty_refuted`); triplets out of order, which the host
rejects and the device does not (`C79_unsorted_refuted`). -/
theorem C79_from_triplets_partial (dbg : Bool) (A : CsrMat K) (m n : ℕ) (es : List (Ent K))
    (g : Garbage K) (junk : ℕ → ℕ) (hA : A.ready = true ∨ A.nnz ≠ es.length) (hne : es ≠ [])
    (hs : Sorted es) (hr : InRange m n es) :
    ∃ B, formSymbolicG dbg A m n es g junk = some B ∧ Valid B ∧ B.nrows = m ∧ B.ncols = n ∧
      B.nnz = es.length ∧ (∀ i < m, ∀ j, Stored B i j ↔ ∃ e ∈ es, e.r = i ∧ e.c = j) ∧
      ∀ (B' : CsrMat K) (es' : List (Ent K)), SamePat B B' → SamePos es es' →
        ∃ C, formNumericG dbg B' m n es' = some C ∧ SamePat B C ∧ Valid C ∧
          ∀ i < m, ∀ j, get C i j = entry es' i j := by
  have hlen : (es.length : ℕ) ≠ 0 := by simpa using hne
  have hre : reshapeG dbg A m n es.length g = some (reshape A m n es.length g) := by
    unfold reshapeG reshape
    split_ifs with h1 h2
    · exact absurd h2.2 hlen
    · rfl
    · rfl
  obtain ⟨d1, d2, d3⟩ := reshape_dims A m n es.length g
  have hready : (reshape A m n es.length g).ready = true := by
    unfold reshape
    split_ifs with h
    · rfl
    · push Not at h
      rcases hA with h' | h'
      · exact h'
      · exact absurd h.2.2.symm h'
  obtain ⟨H, -, e1, e2, e3, -, hPH, hcH⟩ := formSymbolic_ok A m n es g hA hne hs hr
  have hrows : (es.map Ent.r).Pairwise (· ≤ ·) := by
    rw [List.pairwise_map]
    exact sorted_rows hs
  let B : CsrMat K := { reshape A m n es.length g with
    ptr := coo2csr junk (reshape A m n es.length g).ptr m (es.map Ent.r)
    col := fun k => (es[k]?.map Ent.c).getD ((reshape A m n es.length g).col k) }
  have hptr : ∀ i ≤ m, B.ptr i = offs (fun t => ((rowOf es t).map Ent.c).length) i := by
    intro i hi
    simp only [B, coo2csr]
    rw [if_pos hi, if_pos hrows, count_lt]
  have hPB : Pat B (fun i => (rowOf es i).map Ent.c) := by
    have hn : B.nrows = m := d1
    refine ⟨fun i hi => hptr i (by omega), ?_, ?_⟩
    · rw [hn, show B.nnz = es.length from d3, ← e3, hPH.nnz, e1]
    · intro i hi t ht
      have hi' : i < H.nrows := by omega
      have hk : offs (fun t => ((rowOf es t).map Ent.c).length) i + t < es.length := by
        have h1 : offs (fun t => ((rowOf es t).map Ent.c).length) (i + 1) ≤
            offs (fun t => ((rowOf es t).map Ent.c).length) H.nrows := offs_mono _ (by omega)
        rw [← hPH.nnz, e3, offs_succ] at h1
        omega
      have := hPH.col i hi' t ht
      rw [hPH.ptr i (by omega), hcH _ hk] at this
      rw [hptr i (by omega), ← this]
      simp only [B]
      rw [List.getElem?_eq_getElem hk]
      rfl
  have hV : Valid B := hPB.valid hready (fun i _ => rowOf_pairwise hs i) (by
    intro i _ c hc
    obtain ⟨e, he, rfl⟩ := List.mem_map.mp hc
    rw [show B.ncols = n from d2]; exact (hr e (List.mem_of_mem_filter he)).2)
  refine ⟨B, ?_, hV, d1, d2, d3, fun i hi j => ?_, fun B' es' hB hp => ?_⟩
  · unfold formSymbolicG
    rw [hre]
    simp only [Option.bind_some]
    rw [if_neg (by rw [d3]; exact hlen), if_neg (by simp [hready])]
  · rw [hPB.stored (by rw [show B.nrows = m from d1]; exact hi)]
    simp [rowOf, List.mem_map, List.mem_filter, and_assoc]
  · have hB' := hB
    obtain ⟨a1, a2, a3, a4, a5, a6⟩ := hB'
    have k1 : B'.nrows = m := by rw [a1]; exact d1
    have k2 : B'.ncols = n := by rw [a2]; exact d2
    have k3 : B'.nnz = es.length := by rw [a3]; exact d3
    have k4 : B'.ready = true := by rw [a4]; exact hready
    obtain ⟨C, c1, c2, -, c3⟩ := formNumeric_ok (B := B') hs hr ⟨k1, k2, k3⟩ k4
      ⟨by rw [a1, a5]; exact hPB.ptr, by rw [a3, a1]; exact hPB.nnz, by rw [a1, a5, a6]; exact hPB.col⟩ hp
    have hC : formNumericG dbg B' m n es' = some C := by
      rw [← c1]
      unfold formNumericG formNumeric
      rw [if_pos ⟨fun _ => ⟨k1, k2, by rw [k3, hp.length]⟩, k4⟩,
        if_pos ⟨k4, k1, k2, by rw [k3, hp.length]⟩]
    obtain ⟨e1, e2, e3, e4, e5, e6⟩ := c2
    have hBC : SamePat B C := ⟨by rw [e1, a1], by rw [e2, a2], by rw [e3, a3], by rw [e4, a4],
      by rw [e5, a5], by rw [e6, a6]⟩
    exact ⟨C, hC, hBC, hBC.valid hV, c3⟩

theorem diagThread_eq {n T tid : ℕ} (hT : n ≤ T) :
    diagThread n T tid =
      if tid < n then
        (if tid = T - 1 then .wr (.ptr tid) tid (.wr (.col tid) tid (.wr (.ptr n) n .ret))
        else .wr (.ptr tid) tid (.wr (.col tid) tid .ret))
      else if tid = T - 1 then .wr (.ptr n) n .ret else .ret := by
  unfold diagThread
  by_cases h1 : tid < n
  · rw [gridStride_covered _ hT h1, if_pos h1]
    split_ifs <;> simp only [seqP]
  · rw [gridStride_ge _ (by omega), if_neg h1]
    simp only [seqP]

theorem diagLaunch {n : ℕ} (hn : 0 < n) (w : DLoc → ℕ) :
    launchB loopBlock n (diagThread n) w = .one fun l => match l with
      | .ptr i => if i ≤ n then i else w (.ptr i)
      | .col i => if i < n then i else w (.col i) := by
  have hT : n ≤ (n + loopBlock - 1) / loopBlock * loopBlock := blocks_cover (by decide)
  have hb : 0 < (n + loopBlock - 1) / loopBlock := blocks_pos (by decide) hn
  unfold launchB
  rw [if_neg (by omega)]
  generalize (n + loopBlock - 1) / loopBlock * loopBlock = T at hT
  have hTpos : 0 < T := by omega
  refine forallR_race_free _
    (fun i => {l | (i < n ∧ (l = .ptr i ∨ l = .col i)) ∨ (i = T - 1 ∧ l = .ptr n)}) (fun _ => ∅)
    (fun i => (fun l => if i < n ∧ (l = .ptr i ∨ l = .col i) then i
      else if i = T - 1 ∧ l = .ptr n then n else w l)) ?_ ?_ ?_ ?_ ?_
  · intro i hi
    rw [diagThread_eq hT]
    split_ifs with h1 h2 h3
    · subst h2; simp [Within, h1]
    · simp [Within, h1]
    · subst h3; simp [Within]
    · trivial
  · rintro i j hi hj hij l hl
    refine ⟨?_, by simp⟩
    simp only [Set.mem_ofPred_eq] at hl ⊢
    rcases hl with ⟨a, rfl | rfl⟩ | ⟨a, rfl⟩ <;>
      simp only [DLoc.ptr.injEq, DLoc.col.injEq, reduceCtorEq, false_or, or_false, and_false] <;> omega
  · intro i hi
    rw [diagThread_eq hT]
    split_ifs with h1 h2 h3
    · subst h2
      simp only [run]
      congr 1
      funext l
      cases l with
      | ptr k =>
        by_cases e1 : k = T - 1 <;> by_cases e2 : k = n <;> simp [update, e1, e2, h1] <;> omega
      | col k =>
        by_cases e1 : k = T - 1 <;> simp [update, e1, h1]
    · simp only [run]
      congr 1
      funext l
      cases l with
      | ptr k => by_cases e1 : k = i <;> simp [update, e1, h1, h2]
      | col k => by_cases e1 : k = i <;> simp [update, e1, h1, h2]
    · subst h3
      simp only [run]
      congr 1
      funext l
      cases l with
      | ptr k => by_cases e1 : k = n <;> simp [update, e1, h1]
      | col k => simp [update, h1]
    · simp only [run]
      congr 1
      funext l
      rw [if_neg (by omega), if_neg (by omega)]
  · intro i hi l hl
    simp only [Set.mem_ofPred_eq] at hl
    rcases hl with ⟨a, rfl | rfl⟩ | ⟨a, rfl⟩
    · simp [a]; try omega
    · simp [a]
    · simp [a]; try omega
  · intro l hl
    cases l with
    | ptr k =>
      simp only
      rw [if_neg]
      intro hk
      rcases Nat.lt_or_ge k n with h | h
      · exact hl k (by omega) (Or.inl ⟨h, Or.inl rfl⟩)
      · have : k = n := by omega
        subst this
        exact hl (T - 1) (by omega) (Or.inr ⟨rfl, rfl⟩)
    | col k =>
      simp only
      rw [if_neg]
      intro hk
      exact hl k (by omega) (Or.inl ⟨hk, Or.inr rfl⟩)

/-- **C79, diagonal matrices.** For every vector of positive size, from any previous state: the
symbolic pass yields the pattern of the identity; every later numeric pass stores the diagonal matrix. -/
theorem C79_form_diag (dbg : Bool) (A : CsrMat K) (m : ℕ) (hm : 0 < m) (g : Garbage K)
    (hA : A.ready = true ∨ ¬ (A.nrows = m ∧ A.ncols = m ∧ A.nnz = m)) :
    ∃ B, diagSymbolicG dbg A m g = .one B ∧ Valid B ∧ B.nrows = m ∧ B.ncols = m ∧
      (∀ i < m, ∀ j, Stored B i j ↔ i = j) ∧
      ∀ B' D, SamePat B B' → ∃ C, diagNumericG dbg B' m D = some C ∧ SamePat B C ∧ Valid C ∧
        ∀ i < m, ∀ j, get C i j = if i = j then D i else 0 := by
  obtain ⟨d1, d2, d3⟩ := reshape_dims A m m m g
  have hre : reshapeG dbg A m m m g = some (reshape A m m m g) := by
    unfold reshapeG reshape
    split_ifs with h1 h2
    · omega
    · rfl
    · rfl
  have hready : (reshape A m m m g).ready = true := by
    unfold reshape
    split_ifs with h
    · rfl
    · push Not at h
      rcases hA with h' | h'
      · exact h'
      · exact absurd ⟨h.1.symm, h.2.1.symm, h.2.2.symm⟩ h'
  generalize reshape A m m m g = R at d1 d2 d3 hre hready
  let B : CsrMat K := { R with
    ptr := fun i => if i ≤ m then i else R.ptr i
    col := fun i => if i < m then i else R.col i }
  have hp : ∀ i ≤ m, B.ptr i = i := fun i hi => if_pos hi
  have hc : ∀ i < m, B.col i = i := fun i hi => if_pos hi
  have hn : B.nrows = m := d1
  have hV : Valid B := by
    refine ⟨hready, hp 0 (by omega), ?_, ?_, ?_, ?_⟩
    · intro i hi; rw [hp i (by omega), hp (i + 1) (by omega)]; omega
    · rw [hn, hp m le_rfl]; exact d3.symm
    · intro p hp'
      have : p < m := by rw [← d3]; exact hp'
      rw [hc p this, show B.ncols = m from d2]; exact this
    · intro i hi p h1 h2
      rw [hp i (by omega)] at h1
      rw [hp (i + 1) (by omega)] at h2
      omega
  refine ⟨B, ?_, hV, d1, d2, fun i hi j => ?_, fun B' D hB => ?_⟩
  · unfold diagSymbolicG
    rw [hre]
    simp only
    rw [Out.check_pos fun _ => hready, diagLaunch (by omega), Out.one_andThen]
    simp only [B, d1]
  · unfold Stored
    rw [hp i (by omega), hp (i + 1) (by omega)]
    constructor
    · rintro ⟨p, a, b, rfl⟩
      rw [hc p (by omega)]; omega
    · rintro rfl
      exact ⟨i, le_rfl, by omega, hc i hi⟩
  · obtain ⟨a1, a2, a3, a4, a5, a6⟩ := hB
    have k1 : B'.nrows = m := by rw [a1]; exact d1
    refine ⟨{ B' with val := copyVals B'.nrows D B'.val }, ?_, ⟨a1, a2, a3, a4, a5, a6⟩, ?_, ?_⟩
    · unfold diagNumericG
      rw [if_pos]
      refine ⟨fun _ => ⟨?_, ?_, ?_⟩, by rw [a4]; exact hready⟩
      · rw [a2]; exact d2.symm
      · rw [a1]; exact d1.symm
      · rw [a3]; exact d3.symm
    · exact SamePat.valid (A := B) ⟨a1, a2, a3, a4, a5, a6⟩ hV
    · intro i hi j
      unfold Csr.get
      simp only
      have hcv : copyVals B'.nrows D B'.val i = D i := by rw [copyVals, if_pos (by omega)]
      rw [a5, a6, hp i (by omega), hp (i + 1) (by omega), Nat.Ico_succ_singleton,
        Finset.sum_singleton, hc i hi, hcv]

/-- **C79, order check.** `check_csr_is_ordered` answers true exactly when the column indices strictly
increase within every row. -/
theorem C79_order_check (A : CsrMat K) (hm : ∀ i < A.nrows, A.ptr (i + 1) ≤ A.nnz) (g : Garbage K) :
    orderedG A g = true ↔
      ∀ i < A.nrows, ∀ p, A.ptr i ≤ p → p + 1 < A.ptr (i + 1) → A.col p < A.col (p + 1) := by
  unfold orderedG
  rw [ordered_iff]
  simp only [fresh]
  refine forall_congr' fun i => forall_congr' fun hi => forall_congr' fun p => ?_
  rw [if_pos (by omega), if_pos (by omega)]
  have := hm i hi
  constructor
  · intro h a b
    have := h a b
    rwa [if_pos (by omega), if_pos (by omega)] at this
  · intro h a b
    rw [if_pos (by omega), if_pos (by omega)]
    exact h a b

/-! ## Where it fails -/

/-- A matrix with a row that has no entries: `(0,1)` holds 5, row 1 is empty. -/
def mGap : CsrMat ℚ := ⟨2, 2, 1, true, fun i => if i = 0 then 0 else 1, fun _ => 1, fun _ => 5, none⟩

theorem mGap_valid : Valid mGap := by
  refine ⟨rfl, rfl, ?_, rfl, ?_, ?_⟩
  · intro i _
    simp only [mGap]
    split_ifs <;> simp_all
  · intro p _
    simp [mGap]
  · intro i _ p h1 h2
    simp only [mGap] at h1 h2
    split_ifs at h1 h2 <;> omega

theorem mGap_get : get mGap 1 1 = 0 ∧ get mGap 0 1 = 5 := by
  constructor <;> simp [Csr.get, mGap]

/-- **C79 fails on a row without entries.** The search starts in the row above. Without assertions the
diagonal that is extracted is 5 where the matrix has 0, and setting the diagonal to 1 changes the value
at `(0, 1)`; with assertions the device stops, although the kernel announces a zero. -/
theorem C79_empty_row_refuted :
    Valid mGap ∧ get mGap 1 1 = 0 ∧ get mGap 0 1 = 5 ∧
      (∀ out, extractDiagG false mGap 2 out = .one fun i => if i = 0 then 0 else if i = 1 then 5 else out i) ∧
      (∃ w, setDiagG false mGap 1 = .one w ∧ get { mGap with val := w } 0 1 = 1) ∧
      ∀ out, none ∈ extractDiagG true mGap 2 out := by
  have s0 : search 1 (fun _ => 1) 0 0 1 = .absent := by
    rw [search]; simp
  have s1 : search 1 (fun _ => 1) 1 1 1 = .at 0 := by
    rw [search]; simp
  refine ⟨mGap_valid, mGap_get.1, mGap_get.2, fun out => ?_, ?_, fun out => ?_⟩
  · unfold extractDiagG
    rw [launchB_eq (by decide)]
    have h0 : extractRow false mGap 2 0 = .wr 0 0 .ret := by
      simp [extractRow, assertP, mGap, s0]
    have h1 : extractRow false mGap 2 1 = .wr 1 0 (.wr 1 5 .ret) := by
      simp [extractRow, assertP, mGap, s1]
    refine forallR_race_free _ (fun i => {i}) (fun _ => ∅)
      (fun i => update out i (if i = 0 then 0 else 5)) ?_ ?_ ?_ ?_ ?_
    · intro i hi
      have hi : i < 2 := hi
      interval_cases i
      · rw [h0]; simp [Within]
      · rw [h1]; simp [Within]
    · intro i j _ _ hij l hl
      rw [Set.mem_singleton_iff] at hl
      subst hl
      exact ⟨fun h => hij h, by simp⟩
    · intro i hi
      have hi : i < 2 := hi
      interval_cases i
      · rw [h0]; simp [run]
      · rw [h1]; simp [run]
    · intro i hi l hl
      have hi : i < 2 := hi
      rw [Set.mem_singleton_iff] at hl
      subst hl
      interval_cases l <;> simp
    · intro l hl
      have a := hl 0 (by decide)
      have b := hl 1 (by decide)
      simp only [Set.mem_singleton_iff] at a b
      rw [if_neg a, if_neg b]
  · refine ⟨update mGap.val 0 1, ?_, ?_⟩
    · unfold setDiagG diagKernel
      rw [Out.check_pos (show mGap.ready = true from rfl), launchB_eq (by decide)]
      have h0 : diagRow false mGap (fun _ _ => (1 : ℚ)) 0 = .ret := by
        simp [diagRow, assertP, mGap, s0]
      have h1 : diagRow false mGap (fun _ _ => (1 : ℚ)) 1 = .rd 0 fun _ => .wr 0 1 .ret := by
        simp [diagRow, assertP, mGap, s1]
      refine forallR_race_free _ (fun i => if i = 1 then {0} else ∅) (fun _ => ∅)
        (fun i => if i = 1 then update mGap.val 0 1 else mGap.val) ?_ ?_ ?_ ?_ ?_
      · intro i hi
        have hi : i < 2 := hi
        interval_cases i
        · rw [h0]; trivial
        · rw [h1]; simp [Within]
      · intro i j hi hj hij l hl
        have hi : i < 2 := hi
        have hj : j < 2 := hj
        interval_cases i <;> interval_cases j <;> simp_all
      · intro i hi
        have hi : i < 2 := hi
        interval_cases i
        · rw [h0]; simp [run]
        · rw [h1]; simp [run]
      · intro i hi l hl
        have hi : i < 2 := hi
        interval_cases i
        · simp at hl
        · simp
      · intro l hl
        have b := hl 1 (by decide)
        simp only [if_true, Set.mem_singleton_iff] at b
        rw [update_of_ne b]
    · simp [Csr.get, mGap]
  · unfold extractDiagG
    rw [launchB_eq (by decide)]
    refine forallR_abort (i := 1) (by decide) ?_
    simp [extractRow, assertP, rowOk, mGap]

/-- The identity of size `n`. -/
def ident (n : ℕ) : CsrMat ℚ := ⟨n, n, n, true, fun i => i, fun i => i, fun _ => 1, none⟩

theorem ident_valid (n : ℕ) : Valid (ident n) := by
  refine ⟨rfl, rfl, ?_, rfl, fun p hp => hp, ?_⟩
  · intro i _; simp [ident]
  · intro i _ p h1 h2; simp only [ident] at h1 h2; omega

theorem ident_stored {n i : ℕ} (_hi : i < n) : Stored (ident n) i i := ⟨i, le_rfl, Nat.lt_succ_self i, rfl⟩

/-- **C79 fails above `2^30` nonzeros.** On the identity of size `2^30 + 1`, whose indices all fit in 32
bits, the sum of the ends of the search overflows, with and without assertions. -/
theorem C79_overflow_refuted (dbg : Bool) (alpha : ℚ) (D : ℕ → ℚ) :
    Valid (ident (2 ^ 30 + 1)) ∧ (ident (2 ^ 30 + 1)).nnz < 2 ^ 31 ∧
      (∀ i < 2 ^ 30 + 1, Stored (ident (2 ^ 30 + 1)) i i) ∧
      none ∈ addDiagG dbg (ident (2 ^ 30 + 1)) alpha (2 ^ 30 + 1) D := by
  refine ⟨ident_valid _, by norm_num [ident], fun i hi => ident_stored hi, ?_⟩
  unfold addDiagG diagKernel
  rw [Out.check_pos fun _ => ⟨rfl, rfl⟩, launchB_eq (by decide)]
  refine forallR_abort (i := 2 ^ 30) (by norm_num [ident]) ?_
  have hs : search (2 ^ 30 + 1) (fun i => i) (2 ^ 30) (2 ^ 30) (2 ^ 30 + 1) = .bad := by
    rw [search]; norm_num
  unfold diagRow assertP
  rw [if_pos fun _ => by unfold rowOk; norm_num [ident]]
  simp only [ident]
  rw [hs]

/-- **C79 fails without entries.** With assertions the symbolic pass for no triplets stops at the
allocation; without, the row pointers are what the memory held. -/
theorem C79_empty_refuted (m n : ℕ) (hm : 0 < m) (junk : ℕ → ℕ) :
    (∀ g0 g : Garbage K, formSymbolicG true (empty g0) m n ([] : List (Ent K)) g junk = none) ∧
      ∃ (g0 g : Garbage K) (B : CsrMat K),
        formSymbolicG false (empty g0) m n ([] : List (Ent K)) g junk = some B ∧ ¬ Valid B := by
  have hne : ∀ g : Garbage K, m ≠ (empty g).nrows := by
    intro g; simp only [empty, fresh]; omega
  constructor
  · intro g0 g
    unfold formSymbolicG reshapeG
    rw [if_pos (Or.inl (hne g0)), if_pos ⟨rfl, rfl⟩]
    rfl
  · let g : Garbage K := ⟨fun i => i, fun _ => 0, fun _ => 1, fun _ => 0⟩
    refine ⟨g, g, fresh m n 0 g, ?_, fun h => ?_⟩
    · unfold formSymbolicG reshapeG
      rw [if_pos (Or.inl (hne g)), if_neg (by simp)]
      rfl
    · have := h.last
      simp only [fresh, g] at this
      omega

/-- Triplets of a 2 × 2 matrix, ordered by row only. -/
def esMixed : List (Ent ℚ) := [⟨0, 1, 3⟩, ⟨0, 0, 2⟩, ⟨1, 1, 4⟩]

/-- The matrix the symbolic and the numeric pass store for them. -/
def mMixed : CsrMat ℚ :=
  ⟨2, 2, 3, true, fun i => if i = 0 then 0 else if i = 1 then 2 else if i = 2 then 3 else 7,
    fun k => if k = 0 then 1 else if k = 1 then 0 else if k = 2 then 1 else 7,
    fun k => if k = 0 then 3 else if k = 1 then 2 else if k = 2 then 4 else 7, none⟩

theorem mMixed_formed (junk : ℕ → ℕ) (dbg : Bool) :
    ∃ B, formSymbolicG dbg (empty g7) 2 2 esMixed g7 junk = some B ∧
      formNumericG dbg B 2 2 esMixed = some mMixed := by
  refine ⟨{ mMixed with val := fun _ => 7 }, ?_, ?_⟩
  · unfold formSymbolicG reshapeG
    rw [if_pos (Or.inl (by decide)), if_neg (by simp [esMixed])]
    simp only [Option.bind_some, fresh, esMixed, List.length_cons, List.length_nil]
    rw [if_neg (by norm_num), if_neg (by simp)]
    congr 1
    simp only [mMixed, CsrMat.mk.injEq, true_and, and_true, g7]
    refine ⟨?_, ?_⟩
    · funext i
      unfold coo2csr
      rcases i with _ | _ | _ | i <;> simp
    · funext k
      rcases k with _ | _ | _ | k <;> simp
  · unfold formNumericG
    rw [if_pos ⟨fun _ => ⟨rfl, rfl, rfl⟩, rfl⟩]
    congr 1
    simp only [mMixed, CsrMat.mk.injEq, true_and, and_true]
    funext k
    rcases k with _ | _ | _ | k <;> simp [copyVals, valOf, esMixed]

/-- **C79 fails on triplets whose columns are not ordered within a row.** The host stops on an assertion
when the matrix is formed. On the device the matrix is formed and holds 2 at `(0, 0)`; adding 1 to the
diagonal without assertions leaves it at 2, with assertions it stops. -/
theorem C79_unsorted_refuted (junk : ℕ → ℕ) :
    (∀ A g, formSymbolic A 2 2 esMixed g = none) ∧
      (∃ B, formSymbolicG true (empty g7) 2 2 esMixed g7 junk = some B ∧
        formNumericG true B 2 2 esMixed = some mMixed) ∧ get mMixed 0 0 = 2 ∧
      (∃ w, addDiagCG false mMixed 1 = .one w ∧ get { mMixed with val := w } 0 0 = 2) ∧
      none ∈ addDiagCG true mMixed 1 := by
  have s0 : search 3 mMixed.col 0 0 2 = .absent := by
    rw [search]; simp [mMixed]
  have s1 : search 3 mMixed.col 1 2 3 = .at 2 := by
    rw [search]; simp [mMixed]
  have hsq : ∀ {b : Bool}, b = true → mMixed.nrows = mMixed.ncols := fun _ => rfl
  refine ⟨fun A g => ?_, mMixed_formed junk true, by simp [Csr.get, mMixed, Finset.sum_range_succ], ?_, ?_⟩
  · obtain ⟨_, _, d3⟩ := reshape_dims A 2 2 esMixed.length g
    unfold formSymbolic
    simp only
    rw [d3, if_neg (by simp [esMixed])]
    split_ifs
    · rfl
    · simp [esMixed, formStep, inOrder]
  · refine ⟨update mMixed.val 2 5, ?_, ?_⟩
    · unfold addDiagCG diagKernel
      rw [Out.check_pos hsq, launchB_eq (by decide)]
      have h0 : diagRow false mMixed (fun _ v => v + (1 : ℚ)) 0 = .ret := by
        have e : search mMixed.nnz mMixed.col 0 (mMixed.ptr 0) (mMixed.ptr (0 + 1)) = .absent := s0
        unfold diagRow assertP
        rw [e]; simp
      have h1 : diagRow false mMixed (fun _ v => v + (1 : ℚ)) 1 = .rd 2 fun v => .wr 2 (v + 1) .ret := by
        have e : search mMixed.nnz mMixed.col 1 (mMixed.ptr 1) (mMixed.ptr (1 + 1)) = .at 2 := s1
        unfold diagRow assertP
        rw [e]; simp
      refine forallR_race_free _ (fun i => if i = 1 then {2} else ∅) (fun _ => ∅)
        (fun i => if i = 1 then update mMixed.val 2 5 else mMixed.val) ?_ ?_ ?_ ?_ ?_
      · intro i hi
        have hi : i < 2 := hi
        interval_cases i
        · rw [h0]; trivial
        · rw [h1]; simp [Within]
      · intro i j hi hj hij l hl
        have hi : i < 2 := hi
        have hj : j < 2 := hj
        interval_cases i <;> interval_cases j <;> simp_all
      · intro i hi
        have hi : i < 2 := hi
        interval_cases i
        · rw [h0]; simp [run]
        · rw [h1]; simp [run]; norm_num [mMixed]
      · intro i hi l hl
        have hi : i < 2 := hi
        interval_cases i
        · simp at hl
        · simp
      · intro l hl
        have b := hl 1 (by decide)
        simp only [if_true, Set.mem_singleton_iff] at b
        rw [update_of_ne b]
    · simp [Csr.get, mMixed, Finset.sum_range_succ, update]
  · unfold addDiagCG diagKernel
    rw [Out.check_pos hsq, launchB_eq (by decide)]
    refine forallR_abort (i := 0) (by decide) ?_
    have e : search mMixed.nnz mMixed.col 0 (mMixed.ptr 0) (mMixed.ptr (0 + 1)) = .absent := s0
    unfold diagRow assertP
    rw [e]
    simp

/-! ## The Hessian of the condensed system in hybrid mode -/

/-- `Hess_upper_csr_` of the condensed system: formed from the Hessian triplets, diagonal set to zero,
hiopKKTLinSysSparseCondensed.cpp:262-273. -/
def hessUpper (dbg : Bool) (n : ℕ) (hs : List (Ent K)) (g : Garbage K) (junk : ℕ → ℕ) :
    Out (CsrMat K) :=
  match (formSymbolicG dbg (empty g) n n hs g junk).bind fun B => formNumericG dbg B n n hs with
  | none => .abort
  | some U => Out.andThen (setDiagG dbg U 0) fun w => .one { U with val := w }

/-- **C79, the Hessian in hybrid mode.** For ordered Hessian triplets with an entry in every row, and in
builds with assertions at every diagonal position, the strict upper triangle of the Hessian is stored.
Missing: Hessians with empty rows, see `C79_hessian_refuted`. -/
theorem C79_hessian_partial (dbg : Bool) (n : ℕ) (hs : List (Ent K)) (g : Garbage K) (junk : ℕ → ℕ)
    (hne : hs ≠ []) (hso : Sorted hs) (hr : InRange n n hs) (hz : hs.length ≤ 2 ^ 30)
    (hrow : ∀ i < n, ∃ e ∈ hs, e.r = i)
    (hdiag : dbg = true → ∀ i < n, ∃ e ∈ hs, e.r = i ∧ e.c = i) :
    ∃ U, hessUpper dbg n hs g junk = .one U ∧ Valid U ∧ U.nrows = n ∧ U.ncols = n ∧
      ∀ i < n, ∀ j, get U i j = if i = j then 0 else entry hs i j := by
  have hA : (empty g).ready = true ∨ (empty g).nnz ≠ hs.length := by
    refine Or.inr fun h => hne (List.length_eq_zero_iff.mp ?_)
    exact h.symm
  obtain ⟨B, b1, -, b3, b4, b5, b6, b7⟩ := C79_from_triplets_partial dbg (empty g) n n hs g junk hA hne hso hr
  obtain ⟨C, c1, c2, c3, c4⟩ := b7 B hs ⟨rfl, rfl, rfl, rfl, rfl, rfl⟩ rfl
  have hst : ∀ i < C.nrows, ∀ j, Stored C i j ↔ ∃ e ∈ hs, e.r = i ∧ e.c = j := by
    intro i hi j
    rw [c2.stored, b6 i (by rw [c2.1, b3] at hi; exact hi)]
  have hn : C.nrows = n := by rw [c2.1, b3]
  have hrowC : ∀ i < C.nrows, C.ptr i < C.ptr (i + 1) := by
    intro i hi
    obtain ⟨e, he, her⟩ := hrow i (by omega)
    obtain ⟨p, h1, h2, -⟩ := (hst i hi e.c).mpr ⟨e, he, her, rfl⟩
    omega
  have hdC : dbg = true → ∀ i < C.nrows, Stored C i i := by
    intro h i hi
    exact (hst i hi i).mpr (hdiag h i (by omega))
  obtain ⟨w, w1, w2⟩ := diagKernel_one c3 (by rw [c2.2.2.1, b5]; exact hz) dbg hrowC hdC fun _ _ => (0 : K)
  refine ⟨{ C with val := w }, ?_, with_val_valid c3 w, hn, by rw [← b4]; exact c2.2.1, fun i hi j => ?_⟩
  · unfold hessUpper setDiagG
    rw [b1]
    simp only [Option.bind_some]
    rw [c1]
    simp only
    rw [Out.check_pos c3.ready, w1, Out.one_andThen]
  · have hi' : i < C.nrows := by omega
    rw [get_on_diag (f := fun _ _ => (0 : K)) c3 hi' (w2 i hi')]
    by_cases hij : i = j
    · subst hij
      rw [if_pos rfl]
      split_ifs with h
      · rfl
      · exact get_not_stored fun hs => h ⟨rfl, hs⟩
    · rw [if_neg hij, if_neg fun h => hij h.1, c4 i hi]

/-- The matrix formed from the one triplet `(0, 1, 5)`. -/
def mHess : CsrMat ℚ :=
  ⟨2, 2, 1, true, fun i => if i = 0 then 0 else if i ≤ 2 then 1 else 7,
    fun k => if k = 0 then 1 else 7, fun k => if k = 0 then 5 else 7, none⟩

theorem mHess_formed (junk : ℕ → ℕ) (dbg : Bool) :
    ((formSymbolicG dbg (empty g7) 2 2 [(⟨0, 1, 5⟩ : Ent ℚ)] g7 junk).bind fun B =>
      formNumericG dbg B 2 2 [(⟨0, 1, 5⟩ : Ent ℚ)]) = some mHess := by
  have h : formSymbolicG dbg (empty g7) 2 2 [(⟨0, 1, 5⟩ : Ent ℚ)] g7 junk =
      some { mHess with val := fun _ => 7 } := by
    unfold formSymbolicG reshapeG
    rw [if_pos (Or.inl (by decide)), if_neg (by simp)]
    simp only [Option.bind_some, fresh, List.length_cons, List.length_nil]
    rw [if_neg (by norm_num), if_neg (by simp)]
    congr 1
    simp only [mHess, CsrMat.mk.injEq, true_and, and_true, g7]
    refine ⟨?_, ?_⟩
    · funext i
      unfold coo2csr
      rcases i with _ | _ | _ | i <;> simp
    · funext k
      rcases k with _ | k <;> simp
  rw [h]
  simp only [Option.bind_some]
  unfold formNumericG
  rw [if_pos ⟨fun _ => ⟨rfl, rfl, rfl⟩, rfl⟩]
  congr 1
  simp only [mHess, CsrMat.mk.injEq, true_and, and_true]
  funext k
  rcases k with _ | k <;> simp [copyVals, valOf]

/-- **C79 fails for a Hessian with an empty row.** The Hessian has one entry, 5 at `(0, 1)`. On the host
(C46) the strict upper triangle is kept; in hybrid mode without assertions the 5 is overwritten by
zero, with assertions the device stops. -/
theorem C79_hessian_refuted (junk : ℕ → ℕ) :
    entry [(⟨0, 1, 5⟩ : Ent ℚ)] 0 1 = 5 ∧
      (∃ U, hessUpper false 2 [(⟨0, 1, 5⟩ : Ent ℚ)] g7 junk = .one U ∧ get U 0 1 = 0) ∧
      none ∈ hessUpper true 2 [(⟨0, 1, 5⟩ : Ent ℚ)] g7 junk := by
  have s0 : search 1 mHess.col 0 0 1 = .absent := by
    rw [search]; simp [mHess]
  have s1 : search 1 mHess.col 1 1 1 = .at 0 := by
    rw [search]; simp [mHess]
  refine ⟨by simp [entry], ⟨{ mHess with val := update mHess.val 0 0 }, ?_, ?_⟩, ?_⟩
  · unfold hessUpper
    rw [mHess_formed]
    simp only
    have h : setDiagG false mHess 0 = .one (update mHess.val 0 0) := by
      unfold setDiagG diagKernel
      rw [Out.check_pos (show mHess.ready = true from rfl), launchB_eq (by decide)]
      have h0 : diagRow false mHess (fun _ _ => (0 : ℚ)) 0 = .ret := by
        have e : search mHess.nnz mHess.col 0 (mHess.ptr 0) (mHess.ptr (0 + 1)) = .absent := s0
        unfold diagRow assertP
        rw [e]; simp
      have h1 : diagRow false mHess (fun _ _ => (0 : ℚ)) 1 = .rd 0 fun _ => .wr 0 0 .ret := by
        have e : search mHess.nnz mHess.col 1 (mHess.ptr 1) (mHess.ptr (1 + 1)) = .at 0 := s1
        unfold diagRow assertP
        rw [e]; simp
      refine forallR_race_free _ (fun i => if i = 1 then {0} else ∅) (fun _ => ∅)
        (fun i => if i = 1 then update mHess.val 0 0 else mHess.val) ?_ ?_ ?_ ?_ ?_
      · intro i hi
        have hi : i < 2 := hi
        interval_cases i
        · rw [h0]; trivial
        · rw [h1]; simp [Within]
      · intro i j hi hj hij l hl
        have hi : i < 2 := hi
        have hj : j < 2 := hj
        interval_cases i <;> interval_cases j <;> simp_all
      · intro i hi
        have hi : i < 2 := hi
        interval_cases i
        · rw [h0]; simp [run]
        · rw [h1]; simp [run]
      · intro i hi l hl
        have hi : i < 2 := hi
        interval_cases i
        · simp at hl
        · simp
      · intro l hl
        have b := hl 1 (by decide)
        simp only [if_true, Set.mem_singleton_iff] at b
        rw [update_of_ne b]
    rw [h, Out.one_andThen]
  · simp [Csr.get, mHess]
  · unfold hessUpper
    rw [mHess_formed]
    simp only
    have h : none ∈ setDiagG true mHess 0 := by
      unfold setDiagG diagKernel
      rw [Out.check_pos (show mHess.ready = true from rfl), launchB_eq (by decide)]
      refine forallR_abort (i := 1) (by decide) ?_
      simp [diagRow, assertP, rowOk, mHess]
    exact Or.inl ⟨rfl, h⟩

/-! ## Concrete cases -/

-- a Hessian that meets the hypotheses, with assertions too
example : ([⟨0, 0, 2⟩, ⟨0, 1, 5⟩, ⟨1, 1, 3⟩] : List (Ent ℚ)) ≠ [] ∧
    Sorted ([⟨0, 0, 2⟩, ⟨0, 1, 5⟩, ⟨1, 1, 3⟩] : List (Ent ℚ)) ∧
    InRange 2 2 ([⟨0, 0, 2⟩, ⟨0, 1, 5⟩, ⟨1, 1, 3⟩] : List (Ent ℚ)) ∧
    ∀ i < 2, ∃ e ∈ ([⟨0, 0, 2⟩, ⟨0, 1, 5⟩, ⟨1, 1, 3⟩] : List (Ent ℚ)), e.r = i ∧ e.c = i := by
  refine ⟨by simp, by simp [Sorted], by simp [InRange], fun i hi => ?_⟩
  interval_cases i <;> simp

example : Valid (ident 5) ∧ (ident 5).nrows = (ident 5).ncols ∧ (ident 5).nnz ≤ 2 ^ 30 ∧
    ∀ i < (ident 5).nrows, Stored (ident 5) i i :=
  ⟨ident_valid 5, rfl, by norm_num [ident], fun _ hi => ident_stored hi⟩

example : esX ≠ [] ∧ Sorted esX ∧ InRange 2 3 esX := by
  refine ⟨by simp [esX], by simp [Sorted, esX], ?_⟩
  intro e he
  simp [esX] at he
  rcases he with rfl | rfl | rfl | rfl <;> simp

example : mGap.ptr 0 < mGap.ptr 1 ∧ ¬ Stored mGap 0 0 := by
  refine ⟨by simp [mGap], ?_⟩
  rintro ⟨p, _, _, h⟩
  simp [mGap] at h

example : (ident 3).ready = true ∧ ∀ i < (ident 3).nrows, (ident 3).ptr i < (ident 3).ptr (i + 1) :=
  ⟨rfl, fun i _ => Nat.lt_succ_self i⟩

end Hiop.CsrGpu
