import Verif.Csr.Ops
import Mathlib.Tactic.NormNum
import Mathlib.Tactic.IntervalCases
import Mathlib.Data.Rat.Defs

/-!
# C28: CSR operations agree with dense matrix algebra

`entry es i j` is the dense matrix of a list of triplets (Verif/Sparse/Props.lean) and `get A i j` the
dense matrix of the CSR arrays (Verif/Csr/Spec.lean).
-/

set_option linter.unusedSectionVars false

namespace Hiop.Csr

open Hiop.Sparse

variable {K : Type*} [Field K] [LinearOrder K] [IsStrictOrderedRing K]

/-- Two lists of triplets with the same positions, in the same order. -/
def SamePos (es es' : List (Ent K)) : Prop :=
  es'.map (fun e => (e.r, e.c)) = es.map fun e => (e.r, e.c)

theorem SamePos.length {es es' : List (Ent K)} (h : SamePos es es') : es'.length = es.length := by
  have := congrArg List.length h; simpa using this

theorem SamePos.sorted {es es' : List (Ent K)} (h : SamePos es es') (hs : Sorted es) : Sorted es' := by
  have h1 : ∀ l : List (Ent K), Sorted l ↔
      (l.map fun e => (e.r, e.c)).Pairwise fun a b => a.1 < b.1 ∨ a.1 = b.1 ∧ a.2 < b.2 := by
    intro l; rw [List.pairwise_map]; rfl
  rw [h1] at hs ⊢
  rw [show es'.map (fun e => (e.r, e.c)) = es.map fun e => (e.r, e.c) from h]; exact hs

theorem SamePos.range {es es' : List (Ent K)} (h : SamePos es es') {m n : ℕ} (hr : InRange m n es) :
    InRange m n es' := by
  intro e he
  have : (e.r, e.c) ∈ es.map fun e => (e.r, e.c) := by
    rw [← show es'.map (fun e => (e.r, e.c)) = es.map fun e => (e.r, e.c) from h]
    exact List.mem_map.mpr ⟨e, he, rfl⟩
  obtain ⟨a, ha, hh⟩ := List.mem_map.mp this
  have := hr a ha
  simp only [Prod.mk.injEq] at hh
  rw [← hh.1, ← hh.2]; exact this

theorem SamePos.rows {es es' : List (Ent K)} (h : SamePos es es') (i : ℕ) :
    (rowOf es' i).map Ent.c = (rowOf es i).map Ent.c := by
  have h1 : ∀ l : List (Ent K), (rowOf l i).map Ent.c =
      ((l.map fun e => (e.r, e.c)).filter fun x => x.1 == i).map Prod.snd := by
    intro l; rw [List.filter_map, List.map_map]; rfl
  rw [h1, h1, show es'.map (fun e => (e.r, e.c)) = es.map fun e => (e.r, e.c) from h]

theorem formNumeric_ok {B : CsrMat K} {m n : ℕ} {es es' : List (Ent K)} (hs : Sorted es)
    (hr : InRange m n es) (hd : B.nrows = m ∧ B.ncols = n ∧ B.nnz = es.length) (hready : B.ready = true)
    (hP : Pat B (fun i => (rowOf es i).map Ent.c)) (h : SamePos es es') :
    ∃ C, formNumeric B m n es' = some C ∧ SamePat B C ∧ C.starts = B.starts ∧
      ∀ i < m, ∀ j, get C i j = entry es' i j := by
  refine ⟨{ B with val := copyVals B.nnz (valOf es') B.val }, ?_, ⟨rfl, rfl, rfl, rfl, rfl, rfl⟩, rfl,
    ?_⟩
  · unfold formNumeric
    rw [if_pos ⟨hready, hd.1, hd.2.1, by rw [hd.2.2, h.length]⟩]
  · intro i hi j
    refine form_get (B := { B with val := copyVals B.nnz (valOf es') B.val }) (h.sorted hs) (fun e he => (h.range hr e he).1) hd.1 ?_ ?_ hi j
    · have : (fun i => (rowOf es' i).map Ent.c) = fun i => (rowOf es i).map Ent.c := funext h.rows
      rw [this]; exact ⟨hP.ptr, hP.nnz, hP.col⟩
    · intro k hk
      have : k < B.nnz := by rw [hd.2.2, ← h.length]; exact hk
      simp [copyVals, this, valOf, hk]

/-- **C28, construction from triplets.** For every ordered list of triplets with at least one entry,
the symbolic pass succeeds from any previous state of the object (whatever memory it is given) and
yields a well formed matrix; every later numeric pass, with whatever values at the same positions,
succeeds and gives exactly the matrix of the triplets. -/
theorem C28_from_triplets (A : CsrMat K) (m n : ℕ) (es : List (Ent K)) (g : Garbage K)
    (hA : A.ready = true ∨ A.nnz ≠ es.length) (hne : es ≠ []) (hs : Sorted es)
    (hr : InRange m n es) :
    ∃ B, formSymbolic A m n es g = some B ∧ Valid B ∧ B.nrows = m ∧ B.ncols = n ∧
      ∀ (B' : CsrMat K) (es' : List (Ent K)), SamePat B B' → SamePos es es' →
        ∃ C, formNumeric B' m n es' = some C ∧ SamePat B C ∧ Valid C ∧
          ∀ i < m, ∀ j, get C i j = entry es' i j := by
  obtain ⟨B, h1, d1, d2, d3, h2, hP, -⟩ := formSymbolic_ok A m n es g hA hne hs hr
  have hV : Valid B := hP.valid h2 (fun i _ => rowOf_pairwise hs i) (by
    intro i _ c hc
    obtain ⟨e, he, rfl⟩ := List.mem_map.mp hc
    rw [d2]; exact (hr e (List.mem_of_mem_filter he)).2)
  refine ⟨B, h1, hV, d1, d2, fun B' es' hB hp => ?_⟩
  have hB' := hB
  obtain ⟨a1, a2, a3, a4, a5, a6⟩ := hB'
  obtain ⟨C, c1, c2, -, c3⟩ := formNumeric_ok (B := B') hs hr ⟨by rw [a1, d1], by rw [a2, d2],
    by rw [a3, d3]⟩ (by rw [a4, h2]) ⟨by rw [a1, a5]; exact hP.ptr, by rw [a3, a1]; exact hP.nnz,
      by rw [a1, a5, a6]; exact hP.col⟩ hp
  obtain ⟨e1, e2, e3, e4, e5, e6⟩ := c2
  have hBC : SamePat B C := ⟨by rw [e1, a1], by rw [e2, a2], by rw [e3, a3], by rw [e4, a4],
    by rw [e5, a5], by rw [e6, a6]⟩
  exact ⟨C, c1, hBC, hBC.valid hV, c3⟩

/-- **C28, transpose from triplets.** The symbolic pass succeeds and, after it, any number of numeric
passes with new values at the same positions; each gives exactly the transpose of its triplets. -/
theorem C28_transpose_triplets (A : CsrMat K) (m n : ℕ) (es : List (Ent K)) (g : Garbage K)
    (hA : A.ready = true ∧ A.starts = none ∨ ¬ (A.nrows = n ∧ A.ncols = m ∧ A.nnz = es.length))
    (hne : es ≠ []) (hs : Sorted es) (hr : InRange m n es) :
    ∃ B, transSymbolic A m n es g = some B ∧ Valid B ∧ B.nrows = n ∧ B.ncols = m ∧
      ∀ (hist : List (List (Ent K))) (last : List (Ent K)), (∀ e ∈ hist, SamePos es e) →
        SamePos es last →
        ∃ C, (hist ++ [last]).foldlM (fun M e => transNumeric M m n e) B = some C ∧ Valid C ∧
          C.nrows = n ∧ C.ncols = m ∧ ∀ i < m, ∀ j < n, get C j i = entry last i j := by
  obtain ⟨B, h1, h2⟩ := transSymbolic_ok A m n es g hA hne hs hr
  refine ⟨B, h1, h2.valid, h2.nrows, h2.ncols, fun hist last hh hl => ?_⟩
  have step : ∀ (hist : List (List (Ent K))) (M : CsrMat K) (es0 : List (Ent K)),
      TransReady M m n es0 → InRange m n es0 → (∀ e ∈ hist, SamePos es0 e) → SamePos es0 last →
      ∃ C, (hist ++ [last]).foldlM (fun M e => transNumeric M m n e) M = some C ∧ Valid C ∧
          C.nrows = n ∧ C.ncols = m ∧ ∀ i < m, ∀ j < n, get C j i = entry last i j := by
    intro hist
    induction hist with
    | nil =>
      intro M es0 hM hr0 _ hl
      obtain ⟨C, c1, c2, c3⟩ := transNumeric_ok M m n es0 last hM hl hr0
      exact ⟨C, by rw [List.nil_append, List.foldlM_cons, c1]; rfl, c2.valid, c2.nrows, c2.ncols, c3⟩
    | cons e hist ih =>
      intro M es0 hM hr0 hh hl
      have he := hh e (by simp)
      obtain ⟨C, c1, c2, -⟩ := transNumeric_ok M m n es0 e hM he hr0
      have hswap : ∀ x, SamePos es0 x → SamePos e x := fun x hx => hx.trans he.symm
      obtain ⟨D, d1, d2⟩ := ih C e c2 (he.range hr0) (fun x hx => hswap x (hh x (by simp [hx])))
        (hswap last hl)
      exact ⟨D, by rw [List.cons_append, List.foldlM_cons, c1]; exact d1, d2⟩
  exact step hist B es h2 hr hh hl

/-- **C28, transpose of a CSR matrix.** Symbolic and numeric passes succeed and give exactly the
transpose. -/
theorem C28_transpose (A M : CsrMat K) (g : Garbage K) (hM : Valid M) (hne : 0 < M.nnz)
    (hA : A.ready = true ∧ A.starts = none ∨
      ¬ (A.nrows = M.ncols ∧ A.ncols = M.nrows ∧ A.nnz = M.nnz)) :
    ∃ B, transSymbolicCsr A M g = some B ∧ Valid B ∧ B.nrows = M.ncols ∧ B.ncols = M.nrows ∧
      ∀ M', SamePat M M' → ∃ C, transNumericCsr B M' = some C ∧ Valid C ∧ SamePat B C ∧
        ∀ i < M.nrows, ∀ j < M.ncols, get C j i = get M' i j := by
  have hl := ents_length hM
  obtain ⟨B, h1, h2⟩ := transSymbolic_ok A M.nrows M.ncols (ents M) g (by rw [hl]; exact hA)
    (by intro e; rw [e] at hl; simp at hl; omega) (ents_sorted hM) (ents_range hM)
  refine ⟨B, by rw [transSymbolicCsr_eq A M g hM, h1], h2.valid, h2.nrows, h2.ncols,
    fun M' hM' => ?_⟩
  have hV' := hM'.valid hM
  have hd := hM'
  obtain ⟨a1, a2, a3, a4, a5, a6⟩ := hd
  have hpos : SamePos (ents M) (ents M') := by
    unfold SamePos ents rowIdx
    rw [a1, a5, a6]
    simp only [List.map_flatMap, List.map_map]
    rfl
  obtain ⟨C, c1, c2, c3⟩ := transNumeric_ok B M.nrows M.ncols (ents M) (ents M') h2 hpos (ents_range hM)
  refine ⟨C, by rw [transNumericCsr_eq B M' hV', a1, a2, c1], c2.valid, ?_, ?_⟩
  · have : ∃ v s, C = { B with val := v, starts := s } := by
      unfold transNumeric at c1
      split at c1
      · cases c1
      · split_ifs at c1
        obtain ⟨s, -, e⟩ := Option.bind_eq_some_iff.mp c1
        exact ⟨_, _, (Option.some.inj e).symm⟩
    obtain ⟨v, s, rfl⟩ := this
    exact ⟨rfl, rfl, rfl, rfl, rfl, rfl⟩
  · intro i hi j hj
    rw [c3 i hi j hj, entry_ents M' (by omega)]

/-- **C28, product.** Allocation, symbolic pass and numeric pass of the product of two well formed
matrices succeed, and the result is `beta*M + alpha*X*Y` entry by entry, for every matrix `M` with the
computed pattern. The pattern is exactly the pairs reached through a common index. -/
theorem C28_product (X Y : CsrMat K) (hX : Valid X) (hY : Valid Y) (hd : Y.nrows = X.ncols)
    (hm : 0 < X.nrows) (hn : 0 < Y.ncols) (g : Garbage K) :
    ∃ M0 M, timesAlloc X Y g = some M0 ∧ timesSymbolic X M0 Y = some M ∧ Valid M ∧
      M.nrows = X.nrows ∧ M.ncols = Y.ncols ∧
      (∀ i < X.nrows, ∀ j, Stored M i j ↔ ∃ k, Stored X i k ∧ Stored Y k j) ∧
      ∀ M' X' Y', SamePat M M' → SamePat X X' → SamePat Y Y' → ∀ alpha beta : K,
        ∃ N, timesNumeric X' beta M' alpha Y' = some N ∧ SamePat M N ∧ Valid N ∧
          ∀ i < X.nrows, ∀ j, get N i j = beta * get M' i j +
            alpha * ∑ k ∈ Finset.range X.ncols, get X' i k * get Y' k j := by
  obtain ⟨M, h1, h2, h3, h4, h5⟩ := timesSymbolic_ok (X := X) (Y := Y)
    (M := fresh X.nrows Y.ncols (offs (fun t => (prodCols X Y t).length) X.nrows) g) hX hY hd rfl rfl
    rfl rfl
  refine ⟨_, M, timesAlloc_ok hX hY hd hm hn g, h1, h4, h2, h3, fun i hi j => ?_, ?_⟩
  · exact h5.prod_stored (by omega) j
  · intro M' X' Y' hM' hX' hY' alpha beta
    have hdX := hX'; have hdY := hY'; have hdM := hM'
    obtain ⟨x1, x2, -, -, -, -⟩ := hdX
    obtain ⟨y1, y2, -, -, -, -⟩ := hdY
    obtain ⟨m1, m2, m3, m4, m5, m6⟩ := hdM
    obtain ⟨N, n1, n2, n3⟩ := timesNumeric_ok (hX'.valid hX) (hY'.valid hY) (hM'.valid h4)
      (by omega) (by omega) (by omega) (by
        intro i hi k j hk hj
        rw [hX'.stored] at hk
        rw [hY'.stored] at hj
        rw [hM'.stored, h5.prod_stored (by omega)]
        exact ⟨k, hk, hj⟩) alpha beta
    obtain ⟨e1, e2, e3, e4, e5, e6⟩ := n2
    have hMN : SamePat M N := ⟨by rw [e1, m1], by rw [e2, m2], by rw [e3, m3], by rw [e4, m4],
      by rw [e5, m5], by rw [e6, m6]⟩
    refine ⟨N, n1, hMN, hMN.valid h4, fun i hi j => ?_⟩
    rw [n3 i (by omega) j, x2]

/-- **C28, sum.** Allocation, symbolic pass and numeric pass of the sum of two well formed matrices of
equal shape succeed, and the result is `alpha*X + beta*Y` entry by entry. The pattern is the union. -/
theorem C28_sum (X Y : CsrMat K) (hX : Valid X) (hY : Valid Y) (h1 : X.nrows = Y.nrows)
    (h2 : X.ncols = Y.ncols) (hm : 0 < X.nrows) (hn : 0 < X.ncols) (g : Garbage K) :
    ∃ M0 M, addAlloc X Y g = some M0 ∧ addSymbolic X M0 Y = some M ∧ Valid M ∧
      M.nrows = X.nrows ∧ M.ncols = X.ncols ∧
      (∀ i < X.nrows, ∀ j, Stored M i j ↔ Stored X i j ∨ Stored Y i j) ∧
      ∀ M' X' Y', SamePat M M' → SamePat X X' → SamePat Y Y' → ∀ alpha beta : K,
        ∃ N, addNumeric X' M' alpha Y' beta = some N ∧ SamePat M N ∧ Valid N ∧
          ∀ i < X.nrows, ∀ j, get N i j = alpha * get X' i j + beta * get Y' i j := by
  obtain ⟨M, a1, a2, a3, a4, a5⟩ := addSymbolic_ok (X := X) (Y := Y)
    (M := fresh X.nrows X.ncols (offs (fun t => (sumCols X Y t).length) X.nrows) g) hX hY h1 h2 rfl rfl
    rfl rfl
  refine ⟨_, M, addAlloc_ok hX hY h1 h2 hm hn g, a1, a4, a2, a3, fun i hi j => ?_, ?_⟩
  · rw [a5.stored (by omega), (sumCols_spec hX hY h1 hi).2]
  · intro M' X' Y' hM' hX' hY' alpha beta
    have hdX := hX'; have hdY := hY'; have hdM := hM'
    obtain ⟨x1, x2, x3, x4, x5, x6⟩ := hdX
    obtain ⟨y1, y2, y3, y4, y5, y6⟩ := hdY
    obtain ⟨m1, m2, m3, m4, m5, m6⟩ := hdM
    have hml : ∀ a b fuel p q, mlist X' Y' a b fuel p q = mlist X Y a b fuel p q := by
      intro a b fuel
      induction fuel with
      | zero => intro p q; rfl
      | succ fuel ih => intro p q; simp only [mlist, x6, y6, ih]
    have hcols : sumCols X' Y' = sumCols X Y := by
      funext i
      simp only [sumCols, mrow, hml, x5, y5]
      refine List.map_congr_left fun e _ => ?_
      simp only [mc, mergeCol, x6, y6]
    obtain ⟨N, n1, n2, n3⟩ := addNumeric_ok (M := M') (hX'.valid hX) (hY'.valid hY) (by omega)
      (by omega) (by omega) (by
        rw [hcols]
        exact ⟨by rw [m1, m5]; exact a5.ptr, by rw [m3, m1]; exact a5.nnz,
          by rw [m1, m5, m6]; exact a5.col⟩) alpha beta
    obtain ⟨e1, e2, e3, e4, e5, e6⟩ := n2
    have hMN : SamePat M N := ⟨by rw [e1, m1], by rw [e2, m2], by rw [e3, m3], by rw [e4, m4],
      by rw [e5, m5], by rw [e6, m6]⟩
    exact ⟨N, n1, hMN, hMN.valid a4, fun i hi j => n3 i (by omega) j⟩

theorem scaleRows_val {A : CsrMat K} (hV : Valid A) (D : ℕ → K) {i p : ℕ} (hi : i < A.nrows)
    (h1 : A.ptr i ≤ p) (h2 : p < A.ptr (i + 1)) :
    ((List.range A.nrows).foldl (fun (v : ℕ → K) i =>
        (rowIdx A i).foldl (fun (v : ℕ → K) p => wr v p (v p * D i)) v) A.val) p = A.val p * D i :=
  rowLoop hV _ (fun i _ x => x * D i) (fun v k _ p => rowCell A k (fun _ x => x * D k) v p) A.val hi
    h1 h2

theorem scaleCols_val {A : CsrMat K} (hV : Valid A) (D : ℕ → K) {i p : ℕ} (hi : i < A.nrows)
    (h1 : A.ptr i ≤ p) (h2 : p < A.ptr (i + 1)) :
    ((List.range A.nrows).foldl (fun (v : ℕ → K) i =>
        (rowIdx A i).foldl (fun (v : ℕ → K) p => wr v p (v p * D (A.col p))) v) A.val) p =
      A.val p * D (A.col p) :=
  rowLoop hV _ (fun _ p x => x * D (A.col p))
    (fun v k _ p => rowCell A k (fun p x => x * D (A.col p)) v p) A.val hi h1 h2

/-- **C28, scaling.** `scale_rows` multiplies by the diagonal matrix from the left, `scale_cols` from
the right; the pattern does not change. -/
theorem C28_scale (A : CsrMat K) (hV : Valid A) (D : ℕ → K) :
    (∃ B, scaleRows A A.nrows D = some B ∧ SamePat A B ∧ Valid B ∧
      ∀ i < A.nrows, ∀ j, get B i j = D i * get A i j) ∧
    ∃ B, scaleCols A A.ncols D = some B ∧ SamePat A B ∧ Valid B ∧
      ∀ i < A.nrows, ∀ j, get B i j = get A i j * D j := by
  constructor
  · refine ⟨{ A with
      val := (List.range A.nrows).foldl (fun (v : ℕ → K) i =>
        (rowIdx A i).foldl (fun (v : ℕ → K) p => wr v p (v p * D i)) v) A.val },
      by unfold scaleRows; rw [if_pos rfl], ⟨rfl, rfl, rfl, rfl, rfl, rfl⟩,
      SamePat.valid (A := A) ⟨rfl, rfl, rfl, rfl, rfl, rfl⟩ hV, fun i hi j => ?_⟩
    unfold Csr.get
    rw [Finset.mul_sum]
    refine Finset.sum_congr rfl fun p hp => ?_
    rw [Finset.mem_Ico] at hp
    simp only
    rw [scaleRows_val hV D hi hp.1 hp.2]
    split_ifs <;> ring
  · refine ⟨{ A with
      val := (List.range A.nrows).foldl (fun (v : ℕ → K) i =>
        (rowIdx A i).foldl (fun (v : ℕ → K) p => wr v p (v p * D (A.col p))) v) A.val },
      by unfold scaleCols; rw [if_pos rfl], ⟨rfl, rfl, rfl, rfl, rfl, rfl⟩,
      SamePat.valid (A := A) ⟨rfl, rfl, rfl, rfl, rfl, rfl⟩ hV, fun i hi j => ?_⟩
    unfold Csr.get
    rw [Finset.sum_mul]
    refine Finset.sum_congr rfl fun p hp => ?_
    rw [Finset.mem_Ico] at hp
    simp only
    rw [scaleCols_val hV D hi hp.1 hp.2]
    split_ifs with h
    · rw [h]
    · ring

open Classical in
theorem onDiag_get {A : CsrMat K} (hV : Valid A) (f : ℕ → K → K) {i : ℕ} (hi : i < A.nrows) (j : ℕ) :
    get { A with val := onDiag A f } i j =
      if i = j ∧ Stored A i i then f i (get A i i) else get A i j := by
  have hV' : Valid { A with val := onDiag A f } :=
    SamePat.valid (A := A) ⟨rfl, rfl, rfl, rfl, rfl, rfl⟩ hV
  by_cases hs : Stored A i j
  · obtain ⟨p, h1, h2, rfl⟩ := hs
    have hp := (mem_rowIdx A i p).mpr ⟨h1, h2⟩
    have e := hV'.get_at (i := i) (p := p) hi hp
    simp only at e
    rw [e, onDiag_val hV f hi h1 h2, hV.get_at hi hp]
    by_cases h : A.col p = i
    · rw [if_pos h, if_pos ⟨h.symm, ⟨p, h1, h2, h⟩⟩]
      conv_rhs => rw [← h]
      rw [h, ← hV.get_at hi hp, h]
    · rw [if_neg h, if_neg fun hh => h hh.1.symm]
  · rw [get_not_stored (A := { A with val := onDiag A f }) hs, if_neg, get_not_stored hs]
    rintro ⟨rfl, h⟩; exact hs h

/-- **C28, diagonal updates.** On a matrix whose pattern contains every diagonal position the three
diagonal routines change the diagonal as documented and nothing else. Missing: patterns without a
diagonal position, where the property fails, see `C28_diagonal_false`. -/
theorem C28_diagonal_partial (A : CsrMat K) (hV : Valid A) (hsq : A.nrows = A.ncols)
    (hdiag : ∀ i < A.nrows, Stored A i i) (alpha c : K) (D : ℕ → K) :
    (∃ B, addDiag A alpha A.nrows D = some B ∧ SamePat A B ∧
      ∀ i < A.nrows, ∀ j, get B i j = get A i j + if i = j then alpha * D i else 0) ∧
    (∃ B, addDiagC A c = some B ∧ SamePat A B ∧
      ∀ i < A.nrows, ∀ j, get B i j = get A i j + if i = j then c else 0) ∧
    ∃ B, setDiag A c = some B ∧ SamePat A B ∧
      ∀ i < A.nrows, ∀ j, get B i j = if i = j then c else get A i j := by
  refine ⟨?_, ?_, ?_⟩
  · refine ⟨{ A with val := onDiag A fun i v => v + alpha * D i },
      by unfold addDiag; rw [if_pos ⟨hV.ready, rfl, hsq⟩], ⟨rfl, rfl, rfl, rfl, rfl, rfl⟩,
      fun i hi j => ?_⟩
    rw [onDiag_get hV _ hi]
    by_cases h : i = j
    · subst h; rw [if_pos ⟨rfl, hdiag i hi⟩, if_pos rfl]
    · rw [if_neg fun hh => h hh.1, if_neg h, add_zero]
  · refine ⟨{ A with val := onDiag A fun _ v => v + c },
      by unfold addDiagC; rw [if_pos hV.ready], ⟨rfl, rfl, rfl, rfl, rfl, rfl⟩,
      fun i hi j => ?_⟩
    rw [onDiag_get hV _ hi]
    by_cases h : i = j
    · subst h; rw [if_pos ⟨rfl, hdiag i hi⟩, if_pos rfl]
    · rw [if_neg fun hh => h hh.1, if_neg h, add_zero]
  · refine ⟨{ A with val := onDiag A fun _ _ => c },
      by unfold setDiag; rw [if_pos hV.ready], ⟨rfl, rfl, rfl, rfl, rfl, rfl⟩,
      fun i hi j => ?_⟩
    rw [onDiag_get hV _ hi]
    by_cases h : i = j
    · subst h; rw [if_pos ⟨rfl, hdiag i hi⟩, if_pos rfl]
    · rw [if_neg fun hh => h hh.1, if_neg h]

/-- **C28, diagonal matrices.** `form_diag_from_symbolic` and `form_diag_from_numeric` give the diagonal
matrix of the vector. -/
theorem C28_form_diag (A : CsrMat K) (m : ℕ) (g : Garbage K)
    (hA : A.ready = true ∨ ¬ (A.nrows = m ∧ A.ncols = m ∧ A.nnz = m)) :
    ∃ B, diagSymbolic A m g = some B ∧ Valid B ∧ B.nrows = m ∧ B.ncols = m ∧
      (∀ i < m, ∀ j, Stored B i j ↔ i = j) ∧
      ∀ B' D, SamePat B B' → ∃ C, diagNumeric B' m D = some C ∧ SamePat B C ∧ Valid C ∧
        ∀ i < m, ∀ j, get C i j = if i = j then D i else 0 := by
  obtain ⟨d1, d2, d3⟩ := reshape_dims A m m m g
  have hready : (reshape A m m m g).ready = true := by
    unfold reshape
    split_ifs with h
    · rfl
    · push Not at h
      rcases hA with h' | h'
      · exact h'
      · exact absurd ⟨h.1.symm, h.2.1.symm, h.2.2.symm⟩ h'
  have hloop := foldl_range (fun k (s : (ℕ → ℕ) × (ℕ → ℕ)) => ∀ i < k, s.1 i = i ∧ s.2 i = i)
    (fun (s : (ℕ → ℕ) × (ℕ → ℕ)) i => (wr s.1 i i, wr s.2 i i)) m
    ((reshape A m m m g).ptr, (reshape A m m m g).col) (fun i hi => by omega) (by
      intro k s hk h i hi
      simp only
      rcases Nat.lt_or_ge i k with h' | h'
      · rw [wr_ne _ _ (by omega), wr_ne _ _ (by omega)]; exact h i h'
      · have : i = k := by omega
        subst this; simp)
  generalize hs : (List.range m).foldl (fun (s : (ℕ → ℕ) × (ℕ → ℕ)) i => (wr s.1 i i, wr s.2 i i))
    ((reshape A m m m g).ptr, (reshape A m m m g).col) = s at hloop
  have hptr : ∀ i ≤ m, wr s.1 m m i = i := by
    intro i hi
    rcases Nat.lt_or_ge i m with h' | h'
    · rw [wr_ne _ _ (by omega)]; exact (hloop i h').1
    · have : i = m := by omega
      subst this; simp
  set B : CsrMat K :=
    { nrows := m, ncols := m, nnz := m, ready := true, ptr := wr s.1 m m, col := s.2
      val := (reshape A m m m g).val, starts := (reshape A m m m g).starts } with hB
  have hV : Valid B :=
    { ready := rfl
      first := hptr 0 (Nat.zero_le _)
      mono := fun i hi => by
        simp only [hB] at hi ⊢
        rw [hptr i (by omega), hptr (i + 1) (by omega)]; omega
      last := hptr m le_rfl
      range := fun p hp => by
        simp only [hB] at hp ⊢
        rw [(hloop p hp).2]; exact hp
      sorted := fun i hi p h1 h2 => by
        simp only [hB] at hi h1 h2
        rw [hptr i (by omega)] at h1
        rw [hptr (i + 1) (by omega)] at h2
        omega }
  refine ⟨B, ?_, hV, rfl, rfl, ?_, ?_⟩
  · unfold diagSymbolic
    simp only
    rw [hready, if_neg (by simp), hs, hB]
    simp only [d1, d2, d3]
  · intro i hi j
    unfold Stored
    simp only [hB]
    rw [hptr i (by omega), hptr (i + 1) (by omega)]
    constructor
    · rintro ⟨p, h1, h2, rfl⟩
      have : p = i := by omega
      subst this; exact (hloop p hi).2.symm
    · rintro rfl; exact ⟨i, le_rfl, by omega, (hloop i hi).2⟩
  · intro B' D hB'
    have hd := hB'
    obtain ⟨a1, a2, a3, a4, a5, a6⟩ := hd
    have hBC : SamePat B { B' with val := copyVals B'.nrows D B'.val } := ⟨a1, a2, a3, a4, a5, a6⟩
    refine ⟨_, by unfold diagNumeric; rw [if_pos ⟨a2.symm, a1.symm, a3.symm⟩], hBC, hBC.valid hV, ?_⟩
    intro i hi j
    unfold Csr.get
    simp only [a5, a6, a1]
    simp only [hB]
    rw [hptr i (by omega), hptr (i + 1) (by omega), Nat.Ico_succ_singleton, Finset.sum_singleton,
      (hloop i hi).2, copyVals, if_pos hi]

/-- **C28, copy.** Copying a well formed matrix of the same shape and size gives the same matrix. -/
theorem C28_copy (A B : CsrMat K) (hB : Valid B) (hA : A.ready = true) (h1 : A.nrows = B.nrows)
    (h2 : A.ncols = B.ncols) (h3 : A.nnz = B.nnz) :
    ∃ C, copyFrom A B = some C ∧ Valid C ∧ C.nrows = B.nrows ∧ C.ncols = B.ncols ∧
      ∀ i < B.nrows, ∀ j, get C i j = get B i j := by
  have hp : ∀ k ≤ B.nrows, (if k < A.nrows + 1 then B.ptr k else A.ptr k) = B.ptr k := fun k hk => by
    rw [if_pos (by omega)]
  have hle : ∀ i < B.nrows, B.ptr (i + 1) ≤ B.nnz := fun i hi => by
    rw [← hB.last]; exact hB.ptr_mono (by omega) le_rfl
  refine ⟨{ A with
      ptr := fun k => if k < A.nrows + 1 then B.ptr k else A.ptr k
      col := fun k => if k < A.nnz then B.col k else A.col k
      val := copyVals A.nnz B.val A.val }, by unfold copyFrom; rw [if_pos ⟨h3, h1⟩], ?_, h1, h2, ?_⟩
  · refine ⟨hA, ?_, ?_, ?_, ?_, ?_⟩
    · simp only; rw [hp 0 (Nat.zero_le _)]; exact hB.first
    · intro i hi
      simp only [h1] at hi
      simp only
      rw [hp i (by omega), hp (i + 1) (by omega)]; exact hB.mono i hi
    · simp only; rw [hp _ (by omega), h3, h1]; exact hB.last
    · intro p hp'
      simp only at hp' ⊢
      rw [if_pos hp', h2]; exact hB.range p (by omega)
    · intro i hi p
      simp only [h1] at hi
      simp only
      rw [hp i (by omega), hp (i + 1) (by omega)]
      intro a b
      have := hle i hi
      rw [if_pos (by omega), if_pos (by omega)]
      exact hB.sorted i hi p a b
  · intro i hi j
    unfold Csr.get
    simp only
    rw [hp i (by omega), hp (i + 1) (by omega)]
    refine Finset.sum_congr rfl fun p hp' => ?_
    rw [Finset.mem_Ico] at hp'
    have := hle i hi
    have hlt : p < A.nnz := by omega
    rw [if_pos hlt, copyVals, if_pos hlt]

/-- **C28, order check.** `check_csr_is_ordered` answers true exactly when the column indices strictly
increase within every row. -/
theorem C28_order_check (A : CsrMat K) :
    ordered A = true ↔
      ∀ i < A.nrows, ∀ p, A.ptr i ≤ p → p + 1 < A.ptr (i + 1) → A.col p < A.col (p + 1) :=
  ordered_iff A

/-- **C28 fails on a pattern without a diagonal position.** Adding a diagonal, or a multiple of the
identity, to any matrix in row `i` without the stored position `(i, i)` changes nothing in that row. -/
theorem C28_diagonal_false (A : CsrMat K) (hV : Valid A) (hsq : A.nrows = A.ncols) {i : ℕ}
    (hi : i < A.nrows) (hns : ¬ Stored A i i) (alpha c : K) (D : ℕ → K) :
    ∃ B C, addDiag A alpha A.nrows D = some B ∧ addDiagC A c = some C ∧
      (∀ j, get B i j = get A i j) ∧ ∀ j, get C i j = get A i j := by
  refine ⟨{ A with val := onDiag A fun i v => v + alpha * D i },
    { A with val := onDiag A fun _ v => v + c }, by unfold addDiag; rw [if_pos ⟨hV.ready, rfl, hsq⟩],
    by unfold addDiagC; rw [if_pos hV.ready], fun j => ?_, fun j => ?_⟩
  · rw [onDiag_get hV _ hi, if_neg fun h => hns h.2]
  · rw [onDiag_get hV _ hi, if_neg fun h => hns h.2]

/-- **C28 fails without entries.** Forming a matrix from an empty list of triplets leaves the row
pointers as they came from the allocator: for some contents of the fresh memory the object is not a
well formed matrix and its value at `(0, 0)` is not zero. -/
theorem C28_empty_false (m n : ℕ) (hm : 0 < m) :
    ∃ (g0 g : Garbage K) (B C : CsrMat K),
      formSymbolic (empty g0) m n ([] : List (Ent K)) g = some B ∧
      formNumeric B m n ([] : List (Ent K)) = some C ∧ ¬ Valid C ∧ get C 0 0 = 1 := by
  let g : Garbage K := ⟨fun i => i, fun _ => 0, fun _ => 1, fun _ => 0⟩
  have hre : reshape (empty g) m n 0 g = fresh m n 0 g := by
    unfold reshape
    rw [if_pos]
    left; simp only [empty, fresh]; omega
  refine ⟨g, g, fresh m n 0 g, { fresh m n 0 g with
    val := copyVals 0 (valOf []) g.val }, ?_, ?_, ?_, ?_⟩
  · unfold formSymbolic
    simp only [List.length_nil]
    rw [hre]; simp [fresh]
  · unfold formNumeric
    simp [fresh]
  · intro h
    have := h.last
    simp only [fresh, g] at this; omega
  · simp [Csr.get, fresh, g, copyVals, Nat.Ico_succ_singleton]

/-- **C28 fails without entries, transposes.** After the symbolic transposition of a matrix without
entries the numeric one stops on the assertion that the row starts exist. -/
theorem C28_empty_transpose_false (m n : ℕ) (hm : 0 < m) (g0 g : Garbage K) :
    ∃ B : CsrMat K, transSymbolic (empty g0) m n ([] : List (Ent K)) g = some B ∧
      transNumeric B m n ([] : List (Ent K)) = none := by
  have hre : reshape (empty g0) n m 0 g = fresh n m 0 g := by
    unfold reshape
    rw [if_pos]
    right; left; simp only [empty, fresh]; omega
  refine ⟨fresh n m 0 g, ?_, rfl⟩
  unfold transSymbolic
  simp only [List.length_nil]
  rw [hre]; simp [fresh]

/-- **C28 fails on a second symbolic transposition.** Calling it again with the same source stops on the
assertion that the row starts are not allocated. -/
theorem C28_transpose_twice_false (A : CsrMat K) (m n : ℕ) (es : List (Ent K)) (g g' : Garbage K)
    (hA : A.ready = true ∧ A.starts = none ∨ ¬ (A.nrows = n ∧ A.ncols = m ∧ A.nnz = es.length))
    (hne : es ≠ []) (hs : Sorted es) (hr : InRange m n es) :
    ∃ B, transSymbolic A m n es g = some B ∧ transSymbolic B m n es g' = none := by
  obtain ⟨B, h1, h2⟩ := transSymbolic_ok A m n es g hA hne hs hr
  refine ⟨B, h1, ?_⟩
  obtain ⟨st, hst, -⟩ := h2.starts
  have hre : reshape B n m es.length g' = B := by
    unfold reshape
    rw [if_neg]
    push Not
    exact ⟨h2.nrows.symm, h2.ncols.symm, h2.nnz.symm⟩
  unfold transSymbolic
  simp only
  rw [hre, if_neg (by rw [h2.nnz]; simpa using hne), if_pos (by right; rw [hst]; rfl)]

/-- **C28 fails for a product without rows or columns.** The allocation routine returns an object
without arrays and the symbolic pass writes through a null pointer. -/
theorem C28_zero_dim_false (X Y M0 : CsrMat K) (g : Garbage K) (h : X.nrows = 0 ∨ Y.ncols = 0)
    (hM : timesAlloc X Y g = some M0) : timesSymbolic X M0 Y = none := by
  have : M0.ready = false := by
    unfold timesAlloc at hM
    split_ifs at hM
    obtain ⟨z, -, hc⟩ := Option.bind_eq_some_iff.mp hM
    unfold create at hc
    rw [if_pos h] at hc
    split_ifs at hc
    rw [← Option.some.inj hc]
  unfold timesSymbolic
  rw [if_neg (by simp [this])]

/-! ## Concrete cases meeting the hypotheses -/

section examples

/-- Memory with arbitrary nonzero contents. -/
def g7 : Garbage ℚ := ⟨fun _ => 7, fun _ => 7, fun _ => 7, fun _ => 7⟩

/-- The 2×3 matrix `[2 0 1; 0 3 4]`. -/
def esX : List (Ent ℚ) := [⟨0, 0, 2⟩, ⟨0, 2, 1⟩, ⟨1, 1, 3⟩, ⟨1, 2, 4⟩]

-- the hypotheses of the triplet theorems
example : esX ≠ [] ∧ Sorted esX ∧ InRange 2 3 esX ∧ (empty g7).nnz ≠ esX.length := by
  unfold Sorted InRange; decide +kernel

-- the triplets are really read back, whatever the memory contained
example : (do
    let B ← formSymbolic (empty g7) 2 3 esX g7
    let C ← formNumeric B 2 3 esX
    pure ((List.range 2).map fun i => (List.range 3).map fun j => get C i j)) =
      some [[2, 0, 1], [0, 3, 4]] := by decide +kernel

/-- The CSR matrix of `esX`, and its transpose. -/
def mX : CsrMat ℚ :=
  ⟨2, 3, 4, true, fun i => [0, 2, 4].getD i 0, fun i => [0, 2, 1, 2].getD i 0,
    fun i => [2, 1, 3, 4].getD i 0, none⟩

def mXt : CsrMat ℚ :=
  ⟨3, 2, 4, true, fun i => [0, 1, 2, 4].getD i 0, fun i => [0, 1, 0, 1].getD i 0,
    fun i => [2, 3, 1, 4].getD i 0, none⟩

theorem valid_mX : Valid mX where
  ready := rfl
  first := rfl
  mono := by decide
  last := rfl
  range := by decide
  sorted := by
    intro i hi p h1 h2
    change i < 2 at hi
    have : p + 1 < 4 := by
      have : mX.ptr (i + 1) ≤ 4 := by interval_cases i <;> decide
      omega
    have hp : p < 3 := by omega
    interval_cases i <;> interval_cases p <;> revert h1 h2 <;> decide

theorem valid_mXt : Valid mXt where
  ready := rfl
  first := rfl
  mono := by decide
  last := rfl
  range := by decide
  sorted := by
    intro i hi p h1 h2
    change i < 3 at hi
    have : p + 1 < 4 := by
      have : mXt.ptr (i + 1) ≤ 4 := by interval_cases i <;> decide
      omega
    have hp : p < 3 := by omega
    interval_cases i <;> interval_cases p <;> revert h1 h2 <;> decide

-- transposition: hypotheses and result
example : Valid mX ∧ 0 < mX.nnz ∧
    ¬ ((empty g7).nrows = mX.ncols ∧ (empty g7).ncols = mX.nrows ∧ (empty g7).nnz = mX.nnz) :=
  ⟨valid_mX, by decide, by decide⟩

example : (do
    let B ← transSymbolicCsr (empty g7) mX g7
    let C ← transNumericCsr B mX
    pure ((List.range 3).map fun i => (List.range 2).map fun j => get C i j)) =
      some [[2, 0], [0, 3], [1, 4]] := by decide +kernel

-- product and sum: hypotheses and result
example : Valid mXt ∧ Valid mX ∧ mX.nrows = mXt.ncols ∧ 0 < mXt.nrows ∧ 0 < mX.ncols :=
  ⟨valid_mXt, valid_mX, by decide, by decide, by decide⟩

example : (do
    let M0 ← timesAlloc mXt mX g7
    let M ← timesSymbolic mXt M0 mX
    let N ← timesNumeric mXt 0 M 2 mX
    pure ((List.range 3).map fun i => (List.range 3).map fun j => get N i j)) =
      some [[8, 0, 4], [0, 18, 24], [4, 24, 34]] := by decide +kernel

example : (do
    let M0 ← addAlloc mX mX g7
    let M ← addSymbolic mX M0 mX
    let N ← addNumeric mX M 2 mX 3
    pure ((List.range 2).map fun i => (List.range 3).map fun j => get N i j)) =
      some [[10, 0, 5], [0, 15, 20]] := by decide +kernel

-- a square matrix with a full diagonal, and one without
example : (do
    let B ← diagSymbolic (empty g7) 2 g7
    let C ← diagNumeric B 2 (fun i => [5, 6].getD i 0)
    let D ← addDiagC C 1
    pure ((List.range 2).map fun i => (List.range 2).map fun j => get D i j)) =
      some [[6, 0], [0, 7]] := by decide +kernel

example : (do
    let B ← formSymbolic (empty g7) 2 2 [(⟨0, 1, 3⟩ : Ent ℚ), ⟨1, 1, 4⟩] g7
    let C ← formNumeric B 2 2 [(⟨0, 1, 3⟩ : Ent ℚ), ⟨1, 1, 4⟩]
    let D ← addDiagC C 1
    pure ((List.range 2).map fun i => (List.range 2).map fun j => get D i j)) =
      some [[0, 3], [0, 5]] := by decide +kernel

end examples

end Hiop.Csr
