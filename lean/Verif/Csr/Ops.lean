import Verif.Csr.Form

/-! # Scaling, diagonals, products and sums of CSR matrices -/

set_option linter.unusedSectionVars false

namespace Hiop.Csr

variable {K : Type*} [Field K] [LinearOrder K] [IsStrictOrderedRing K] {α S : Type*}

/-! ## Row by row updates -/

/-- A loop over the rows that touches only the positions of its row. -/
theorem rowLoop {A : CsrMat K} (hV : Valid A) (body : (ℕ → K) → ℕ → (ℕ → K)) (F : ℕ → ℕ → K → K)
    (hb : ∀ v i, i < A.nrows → ∀ p,
      body v i p = if A.ptr i ≤ p ∧ p < A.ptr (i + 1) then F i p (v p) else v p)
    (v : ℕ → K) {i p : ℕ} (hi : i < A.nrows) (h1 : A.ptr i ≤ p) (h2 : p < A.ptr (i + 1)) :
    ((List.range A.nrows).foldl body v) p = F i p (v p) := by
  have := foldl_range (fun k (w : ℕ → K) =>
      (∀ i < k, i < A.nrows → ∀ p, A.ptr i ≤ p → p < A.ptr (i + 1) → w p = F i p (v p)) ∧
      ∀ p, A.ptr k ≤ p → w p = v p) body A.nrows v
    ⟨fun i hi => by omega, fun p _ => rfl⟩ (by
      intro k w hk ⟨q1, q2⟩
      refine ⟨fun i hi hi' p hp1 hp2 => ?_, fun p hp => ?_⟩
      · rw [hb w k hk]
        rcases Nat.lt_or_ge i k with h | h
        · have := hV.ptr_mono (show i + 1 ≤ k by omega) (by omega)
          rw [if_neg (by omega)]; exact q1 i h hi' p hp1 hp2
        · have : i = k := by omega
          subst this; rw [if_pos ⟨hp1, hp2⟩, q2 p hp1]
      · rw [hb w k hk, if_neg (by omega)]
        exact q2 p (by have := hV.mono k hk; omega))
  exact this.1 i hi hi p h1 h2

theorem cellLoop (k n : ℕ) (F : ℕ → K → K) (v : ℕ → K) (p : ℕ) :
    ((List.range' k n).foldl (fun (v : ℕ → K) p => wr v p (F p (v p))) v) p =
      if k ≤ p ∧ p < k + n then F p (v p) else v p := by
  have := foldl_range' (fun t (w : ℕ → K) =>
      ∀ p, w p = if k ≤ p ∧ p < t then F p (v p) else v p)
    (fun (v : ℕ → K) p => wr v p (F p (v p))) k n v (fun p => by rw [if_neg (by omega)]) (by
      intro t w h1 h2 hw p
      by_cases hp : p = t
      · subst hp; rw [wr_same, hw, if_neg (by omega), if_pos (by omega)]
      · rw [wr_ne _ _ hp, hw]
        by_cases h : k ≤ p ∧ p < t
        · rw [if_pos h, if_pos (by omega)]
        · rw [if_neg h, if_neg (by omega)])
  exact this p

theorem rowCell (A : CsrMat K) (i : ℕ) (F : ℕ → K → K) (v : ℕ → K) (p : ℕ) :
    ((rowIdx A i).foldl (fun (v : ℕ → K) p => wr v p (F p (v p))) v) p =
      if A.ptr i ≤ p ∧ p < A.ptr (i + 1) then F p (v p) else v p := by
  unfold rowIdx
  rw [cellLoop]
  by_cases h : A.ptr i ≤ p ∧ p < A.ptr (i + 1)
  · rw [if_pos h, if_pos (by omega)]
  · rw [if_neg h, if_neg (by omega)]

theorem onDiag_val {A : CsrMat K} (hV : Valid A) (f : ℕ → K → K) {i p : ℕ} (hi : i < A.nrows)
    (h1 : A.ptr i ≤ p) (h2 : p < A.ptr (i + 1)) :
    onDiag A f p = if A.col p = i then f i (A.val p) else A.val p := by
  unfold onDiag
  refine rowLoop hV _ (fun i p x => if A.col p = i then f i x else x) ?_ A.val hi h1 h2
  intro v k hk p
  cases hf : (rowIdx A k).find? fun p => A.col p == k with
  | none =>
    simp only
    rw [List.find?_eq_none] at hf
    split_ifs with a b
    · exact absurd (by simpa using b) (hf p ((mem_rowIdx A k p).mpr a))
    · rfl
    · rfl
  | some q =>
    simp only
    have hq := List.mem_of_find?_eq_some hf
    have hqk : A.col q = k := by simpa using List.find?_some hf
    by_cases hp : p = q
    · subst hp
      rw [wr_same, if_pos ((mem_rowIdx A k p).mp hq), if_pos hqk]
    · rw [wr_ne _ _ hp]
      split_ifs with a b
      · exact absurd (hV.col_inj hk ((mem_rowIdx A k p).mpr a) hq (by rw [b, hqk])) hp
      · rfl
      · rfl

/-- Same pattern, other values. -/
def SamePat (A B : CsrMat K) : Prop :=
  B.nrows = A.nrows ∧ B.ncols = A.ncols ∧ B.nnz = A.nnz ∧ B.ready = A.ready ∧ B.ptr = A.ptr ∧
    B.col = A.col

theorem SamePat.valid {A B : CsrMat K} (h : SamePat A B) (hV : Valid A) : Valid B := by
  obtain ⟨a1, a2, a3, a4, a5, a6⟩ := h
  exact ⟨by rw [a4]; exact hV.ready, by rw [a5]; exact hV.first, by rw [a1, a5]; exact hV.mono,
    by rw [a1, a5, a3]; exact hV.last, by rw [a3, a6, a2]; exact hV.range,
    by rw [a1, a5, a6]; exact hV.sorted⟩

theorem SamePat.stored {A B : CsrMat K} (h : SamePat A B) (i j : ℕ) : Stored B i j ↔ Stored A i j := by
  obtain ⟨_, _, _, _, a5, a6⟩ := h
  unfold Stored; rw [a5, a6]

/-! ## Product -/

/-- Pairs of positions visited for row `i` of the product. -/
def pairs (X Y : CsrMat K) (i : ℕ) : List (ℕ × ℕ) :=
  (rowIdx X i).flatMap fun px => (rowIdx Y (X.col px)).map fun py => (px, py)

theorem pairLoop_eq {X : CsrMat K} (hX : Valid X) (Y : CsrMat K) {i : ℕ} (hi : i < X.nrows)
    (f : S → ℕ → ℕ → Option S) (s : S) :
    pairLoop X Y i f s = (pairs X Y i).foldlM (fun s e => f s e.1 e.2) s := by
  unfold pairLoop pairs
  rw [foldlM_flatMap]
  refine foldlM_congr _ (fun px hp s => ?_) _
  rw [if_pos (hX.range px (hX.mem_lt hi hp)), foldlM_map]

theorem pairs_range {X Y : CsrMat K} (hX : Valid X) (hY : Valid Y) (hd : Y.nrows = X.ncols) {i : ℕ}
    (hi : i < X.nrows) {e : ℕ × ℕ} (he : e ∈ pairs X Y i) : Y.col e.2 < Y.ncols := by
  unfold pairs at he
  obtain ⟨px, hp, he⟩ := List.mem_flatMap.mp he
  obtain ⟨py, hq, rfl⟩ := List.mem_map.mp he
  have : X.col px < Y.nrows := by rw [hd]; exact hX.range px (hX.mem_lt hi hp)
  exact hY.range py (hY.mem_lt this hq)

/-- The columns of row `i` of the product. -/
def prodCols (X Y : CsrMat K) (i : ℕ) : List ℕ :=
  ((pairs X Y i).map fun e => Y.col e.2).foldl (fun l j => sinsert j l) []

theorem mem_sinsert (j a : ℕ) (l : List ℕ) : a ∈ sinsert j l ↔ a = j ∨ a ∈ l := by
  induction l with
  | nil => simp [sinsert]
  | cons b l ih =>
    unfold sinsert
    split_ifs with h1 h2
    · simp
    · subst h2; simp
    · simp only [List.mem_cons, ih]; tauto

theorem sinsert_sorted (j : ℕ) (l : List ℕ) (h : l.Pairwise (· < ·)) :
    (sinsert j l).Pairwise (· < ·) := by
  induction l with
  | nil => simp [sinsert]
  | cons b l ih =>
    unfold sinsert
    rw [List.pairwise_cons] at h
    split_ifs with h1 h2
    · rw [List.pairwise_cons]
      refine ⟨fun a ha => ?_, List.pairwise_cons.mpr h⟩
      rcases List.mem_cons.mp ha with rfl | ha
      · exact h1
      · exact lt_trans h1 (h.1 a ha)
    · exact List.pairwise_cons.mpr h
    · rw [List.pairwise_cons]
      refine ⟨fun a ha => ?_, ih h.2⟩
      rcases (mem_sinsert j a l).mp ha with rfl | ha
      · omega
      · exact h.1 a ha

theorem sinsert_length (j : ℕ) (l : List ℕ) (h : l.Pairwise (· < ·)) :
    (sinsert j l).length = if j ∈ l then l.length else l.length + 1 := by
  induction l with
  | nil => simp [sinsert]
  | cons b l ih =>
    unfold sinsert
    rw [List.pairwise_cons] at h
    split_ifs with h1 h2 h3 h3 h3
    · exfalso
      rcases List.mem_cons.mp h2 with rfl | h2
      · omega
      · have := h.1 j h2; omega
    · rfl
    · rfl
    · simp_all
    · rcases List.mem_cons.mp ‹j ∈ b :: l› with e | e
      · omega
      · rw [List.length_cons, ih h.2, if_pos e, List.length_cons]
    · have : j ∉ l := fun e => ‹¬ j ∈ b :: l› (by simp [e])
      rw [List.length_cons, ih h.2, if_neg this, List.length_cons]

theorem setFold (l : List ℕ) (l0 : List ℕ) (h0 : l0.Pairwise (· < ·)) :
    (l.foldl (fun l j => sinsert j l) l0).Pairwise (· < ·) ∧
      ∀ a, a ∈ l.foldl (fun l j => sinsert j l) l0 ↔ a ∈ l ∨ a ∈ l0 := by
  induction l generalizing l0 with
  | nil => exact ⟨h0, fun a => by simp⟩
  | cons j l ih =>
    obtain ⟨i1, i2⟩ := ih (sinsert j l0) (sinsert_sorted j l0 h0)
    refine ⟨i1, fun a => ?_⟩
    rw [List.foldl_cons, i2, mem_sinsert, List.mem_cons]; tauto

theorem prodCols_sorted (X Y : CsrMat K) (i : ℕ) : (prodCols X Y i).Pairwise (· < ·) :=
  (setFold _ [] List.Pairwise.nil).1

theorem mem_prodCols (X Y : CsrMat K) (i a : ℕ) :
    a ∈ prodCols X Y i ↔ ∃ e ∈ pairs X Y i, Y.col e.2 = a := by
  unfold prodCols
  rw [(setFold _ [] List.Pairwise.nil).2]; simp

theorem foldlM_some {f : S → α → Option S} {g : S → α → S} (l : List α)
    (h : ∀ a ∈ l, ∀ s, f s a = some (g s a)) (s : S) : l.foldlM f s = some (l.foldl g s) := by
  induction l generalizing s with
  | nil => rfl
  | cons a l ih =>
    rw [List.foldlM_cons, h a (by simp)]
    exact ih (fun b hb => h b (by simp [hb])) _

theorem setLoop {X Y : CsrMat K} (hX : Valid X) (hY : Valid Y) (hd : Y.nrows = X.ncols) {i : ℕ}
    (hi : i < X.nrows) :
    pairLoop X Y i (fun l _ py => if Y.col py < Y.ncols then some (sinsert (Y.col py) l) else none)
      [] = some (prodCols X Y i) := by
  rw [pairLoop_eq hX Y hi]
  rw [foldlM_some (g := fun l e => sinsert (Y.col e.2) l) _
    (fun e he s => if_pos (pairs_range hX hY hd hi he))]
  unfold prodCols
  rw [List.foldl_map]

theorem flagLoop (n : ℕ) (l : List ℕ) (hl : ∀ j ∈ l, j < n) (z : ℕ) :
    ∃ s, l.foldlM (flagStep n) (z, fun _ => false) = some s ∧
      s.1 = z + (l.foldl (fun l j => sinsert j l) []).length := by
  obtain ⟨s, h1, h2⟩ := foldlM_prefix
    (fun pre (s : ℕ × (ℕ → Bool)) => s.1 = z + (pre.foldl (fun l j => sinsert j l) []).length ∧
      ∀ j, s.2 j = true ↔ j ∈ pre) (flagStep n) l (z, fun _ => false) ⟨rfl, fun j => by simp⟩ (by
      rintro pre j suf ⟨c, fl⟩ h ⟨q1, q2⟩
      simp only at q1 q2
      obtain ⟨so, me⟩ := setFold pre [] List.Pairwise.nil
      have hlen := sinsert_length j _ so
      unfold flagStep
      rw [if_pos (hl j (by rw [h]; simp))]
      by_cases hj : fl j = false
      · rw [if_pos hj]
        have hnot : j ∉ pre := fun e => by rw [(q2 j).mpr e] at hj; exact absurd hj (by simp)
        refine ⟨_, rfl, ?_, fun t => ?_⟩
        · rw [List.foldl_append]
          simp only [List.foldl_cons, List.foldl_nil]
          rw [hlen, if_neg (by rw [me]; simpa using hnot)]; omega
        · simp only
          by_cases ht : t = j
          · subst ht; simp
          · rw [wr_ne _ _ ht, q2]; simp [ht]
      · rw [if_neg hj]
        have hin : j ∈ pre := (q2 j).mp (by simpa using hj)
        refine ⟨_, rfl, ?_, fun t => ?_⟩
        · rw [List.foldl_append]
          simp only [List.foldl_cons, List.foldl_nil]
          rw [hlen, if_pos (by rw [me]; simpa using hin)]; exact q1
        · simp only
          rw [q2]
          constructor
          · intro h; simp [h]
          · intro h
            rcases List.mem_append.mp h with h | h
            · exact h
            · rw [List.mem_singleton.mp h]; exact hin)
  exact ⟨s, h1, h2.1⟩

theorem timesAlloc_ok {X Y : CsrMat K} (hX : Valid X) (hY : Valid Y) (hd : Y.nrows = X.ncols)
    (hm : 0 < X.nrows) (hn : 0 < Y.ncols) (g : Garbage K) :
    timesAlloc X Y g =
      some (fresh X.nrows Y.ncols (offs (fun t => (prodCols X Y t).length) X.nrows) g) := by
  obtain ⟨z, h1, h2⟩ := foldlM_range (fun i z => z = offs (fun t => (prodCols X Y t).length) i)
    (fun z i => (pairLoop X Y i (fun s _ py => flagStep Y.ncols s (Y.col py))
      (z, fun _ => false)).map fun s => s.1) X.nrows 0 rfl (by
      intro i z hi hz
      obtain ⟨s, s1, s2⟩ := flagLoop Y.ncols ((pairs X Y i).map fun e => Y.col e.2) (by
        intro j hj
        obtain ⟨e, he, rfl⟩ := List.mem_map.mp hj
        exact pairs_range hX hY hd hi he) z
      rw [foldlM_map] at s1
      rw [pairLoop_eq hX Y hi, s1]
      exact ⟨_, rfl, by beta_reduce; rw [s2, offs_succ, hz]; rfl⟩)
  unfold timesAlloc
  rw [if_pos hd, h1, h2]
  simp only [Option.bind_some, create]
  rw [if_neg (by omega)]

theorem pushLoop (nnz k : ℕ) (a : ℕ → α) (l : List α) (h : k + l.length ≤ nnz) :
    ∃ b, l.foldlM (pushStep nnz) (k, a) = some (k + l.length, b) ∧
      (∀ t (ht : t < l.length), b (k + t) = l[t]) ∧ ∀ p, p < k ∨ k + l.length ≤ p → b p = a p := by
  obtain ⟨s, h1, h2⟩ := foldlM_prefix
    (fun pre (s : ℕ × (ℕ → α)) => s.1 = k + pre.length ∧
      (∀ t (ht : t < pre.length), s.2 (k + t) = pre[t]) ∧
      ∀ p, p < k ∨ k + pre.length ≤ p → s.2 p = a p) (pushStep nnz) l (k, a)
    ⟨rfl, fun t ht => by simp at ht, fun _ _ => rfl⟩ (by
      rintro pre x suf ⟨c, b⟩ he ⟨q1, q2, q3⟩
      simp only at q1 q2 q3
      have : l.length = pre.length + (suf.length + 1) := by rw [he]; simp
      refine ⟨_, by unfold pushStep; rw [if_pos (by simp only; omega)], ?_, ?_, ?_⟩
      · simp [q1]; omega
      · intro t ht
        simp only
        rcases Nat.lt_or_ge t pre.length with h' | h'
        · rw [wr_ne _ _ (by omega), q2 t h', List.getElem_append_left h']
        · have : t = pre.length := by simp at ht; omega
          subst this; rw [q1, wr_same]; simp
      · intro p hp
        simp only [List.length_append, List.length_singleton] at hp ⊢
        rw [wr_ne _ _ (by omega)]; exact q3 p (by omega))
  obtain ⟨c, b⟩ := s
  simp only at h2
  obtain ⟨rfl, h3, h4⟩ := h2
  exact ⟨b, h1, h3, h4⟩

/-- A loop that writes one row after the other. -/
theorem buildRows (m nnz : ℕ) (L : ℕ → List ℕ) (hn : offs (fun t => (L t).length) m = nnz)
    (body : (ℕ × (ℕ → ℕ) × (ℕ → ℕ)) → ℕ → Option (ℕ × (ℕ → ℕ) × (ℕ → ℕ)))
    (hb : ∀ s i t, i < m → (L i).foldlM (pushStep nnz) (s.1, s.2.2) = some t → t.1 ≤ nnz →
      body s i = some (t.1, wr s.2.1 i s.1, t.2)) (ptr col : ℕ → ℕ) :
    ∃ s, (List.range m).foldlM body (0, ptr, col) = some s ∧ s.1 = nnz ∧
      (∀ i < m, s.2.1 i = offs (fun t => (L t).length) i) ∧
      ∀ i < m, ∀ t (h : t < (L i).length), s.2.2 (offs (fun t => (L t).length) i + t) = (L i)[t] := by
  obtain ⟨s, h1, h2⟩ := foldlM_range (fun k (s : ℕ × (ℕ → ℕ) × (ℕ → ℕ)) =>
      s.1 = offs (fun t => (L t).length) k ∧
      (∀ i < k, s.2.1 i = offs (fun t => (L t).length) i) ∧
      ∀ i < k, ∀ t (h : t < (L i).length), s.2.2 (offs (fun t => (L t).length) i + t) = (L i)[t])
    body m (0, ptr, col) ⟨rfl, fun i hi => by omega, fun i hi => by omega⟩ (by
      rintro k ⟨z, p, c⟩ hk ⟨q1, q2, q3⟩
      simp only at q1 q2 q3
      have hle : z + (L k).length ≤ nnz := by
        rw [q1, ← hn, ← offs_succ (fun t => (L t).length)]; exact offs_mono _ (by omega)
      obtain ⟨b, b1, b2, b3⟩ := pushLoop nnz z c (L k) hle
      refine ⟨_, hb (z, p, c) k _ hk b1 hle, ?_, ?_, ?_⟩
      · simp only; rw [offs_succ, q1]
      · intro i hi
        simp only
        rcases Nat.lt_or_ge i k with h | h
        · rw [wr_ne _ _ (by omega)]; exact q2 i h
        · have : i = k := by omega
          subst this; rw [wr_same, q1]
      · intro i hi t ht
        simp only
        rcases Nat.lt_or_ge i k with h | h
        · rw [b3, q3 i h t ht]
          left
          have := offs_mono (fun t => (L t).length) (show i + 1 ≤ k by omega)
          rw [offs_succ] at this; omega
        · have : i = k := by omega
          subst this; rw [← q1]; exact b2 t ht)
  exact ⟨s, h1, by rw [h2.1, hn], h2.2⟩

theorem timesSymbolic_ok {X Y M : CsrMat K} (hX : Valid X) (hY : Valid Y) (hd : Y.nrows = X.ncols)
    (hr : M.ready = true) (h1 : M.nrows = X.nrows) (h2 : M.ncols = Y.ncols)
    (h3 : M.nnz = offs (fun t => (prodCols X Y t).length) X.nrows) :
    ∃ N, timesSymbolic X M Y = some N ∧ N.nrows = X.nrows ∧ N.ncols = Y.ncols ∧ Valid N ∧
      Pat N (prodCols X Y) := by
  obtain ⟨s, s1, s2, s3, s4⟩ := buildRows X.nrows M.nnz (prodCols X Y) h3.symm
    (fun (s : ℕ × (ℕ → ℕ) × (ℕ → ℕ)) i =>
      (pairLoop X Y i (fun l _ py => if Y.col py < Y.ncols then some (sinsert (Y.col py) l) else none)
        []).bind fun l =>
      (l.foldlM (pushStep M.nnz) (s.1, s.2.2)).map fun t => (t.1, wr s.2.1 i s.1, t.2))
    (by
      intro s i t hi ht _
      rw [setLoop hX hY hd hi]
      simp only [Option.bind_some]
      rw [ht]; rfl) M.ptr M.col
  have hP : Pat { M with ptr := wr s.2.1 X.nrows s.1, col := s.2.2 } (prodCols X Y) := by
    have hptr : ∀ i ≤ X.nrows, wr s.2.1 X.nrows s.1 i =
        offs (fun t => (prodCols X Y t).length) i := by
      intro i hi
      rcases Nat.lt_or_ge i X.nrows with h | h
      · rw [wr_ne _ _ (by omega), s3 i h]
      · have : i = X.nrows := by omega
        subst this; rw [wr_same, s2, h3]
    refine ⟨by simp only [h1]; exact hptr, by simp only [h1]; exact h3, ?_⟩
    simp only [h1]
    intro i hi t ht
    rw [hptr i (by omega)]; exact s4 i hi t ht
  refine ⟨{ M with ptr := wr s.2.1 X.nrows s.1, col := s.2.2 }, ?_, h1, h2, ?_, hP⟩
  · unfold timesSymbolic
    rw [if_pos ⟨hr, h1, h2, hd⟩, s1]; rfl
  · refine hP.valid hr (fun i _ => prodCols_sorted X Y i) ?_
    intro i hi c hc
    simp only [h1] at hi
    obtain ⟨e, he, rfl⟩ := (mem_prodCols X Y i c).mp hc
    simp only [h2]
    exact pairs_range hX hY hd hi he

/-- The pattern of `M` covers the product. -/
def Covers (M X Y : CsrMat K) : Prop :=
  ∀ i < X.nrows, ∀ k j, Stored X i k → Stored Y k j → Stored M i j

theorem Pat.stored {A : CsrMat K} {L : ℕ → List ℕ} (hP : Pat A L) {i : ℕ} (hi : i < A.nrows) (j : ℕ) :
    Stored A i j ↔ j ∈ L i := by
  unfold Stored
  rw [hP.succ hi]
  constructor
  · rintro ⟨p, h1, h2, rfl⟩
    obtain ⟨t, rfl⟩ : ∃ t, p = A.ptr i + t := ⟨p - A.ptr i, by omega⟩
    rw [hP.col i hi t (by omega)]; exact List.getElem_mem _
  · intro h
    obtain ⟨t, ht, rfl⟩ := List.getElem_of_mem h
    exact ⟨A.ptr i + t, by omega, by omega, hP.col i hi t ht⟩

theorem mem_pairs (X Y : CsrMat K) (i j : ℕ) :
    (∃ e ∈ pairs X Y i, Y.col e.2 = j) ↔ ∃ k, Stored X i k ∧ Stored Y k j := by
  unfold pairs Stored
  constructor
  · rintro ⟨e, he, rfl⟩
    obtain ⟨px, hp, he⟩ := List.mem_flatMap.mp he
    obtain ⟨py, hq, rfl⟩ := List.mem_map.mp he
    rw [mem_rowIdx] at hp hq
    exact ⟨X.col px, ⟨px, hp.1, hp.2, rfl⟩, ⟨py, hq.1, hq.2, rfl⟩⟩
  · rintro ⟨k, ⟨p, h1, h2, rfl⟩, ⟨q, h3, h4, rfl⟩⟩
    exact ⟨(p, q), List.mem_flatMap.mpr ⟨p, (mem_rowIdx _ _ _).mpr ⟨h1, h2⟩,
      List.mem_map.mpr ⟨q, (mem_rowIdx _ _ _).mpr ⟨h3, h4⟩, rfl⟩⟩, rfl⟩

theorem Pat.prod_stored {N X Y : CsrMat K} (hP : Pat N (prodCols X Y)) {i : ℕ} (hi : i < N.nrows)
    (j : ℕ) : Stored N i j ↔ ∃ k, Stored X i k ∧ Stored Y k j := by
  rw [hP.stored hi, mem_prodCols, mem_pairs]

/-- What the scatter loop accumulates. -/
def scat (X Y : CsrMat K) (i j : ℕ) : K :=
  ((pairs X Y i).map fun e => if Y.col e.2 = j then Y.val e.2 * X.val e.1 else 0).sum

theorem scatterLoop {X Y : CsrMat K} (hX : Valid X) (hY : Valid Y) (hd : Y.nrows = X.ncols) {i : ℕ}
    (hi : i < X.nrows) (W : ℕ → K) (hW : ∀ j, W j = 0) :
    pairLoop X Y i (scatterStep X Y) W = some (scat X Y i) := by
  rw [pairLoop_eq hX Y hi]
  obtain ⟨V, h1, h2⟩ := foldlM_prefix
    (fun pre (V : ℕ → K) => ∀ j, V j =
      (pre.map fun e : ℕ × ℕ => if Y.col e.2 = j then Y.val e.2 * X.val e.1 else 0).sum)
    (fun W (e : ℕ × ℕ) => scatterStep X Y W e.1 e.2) (pairs X Y i) W (fun j => by simp [hW]) (by
      intro pre e suf V h hV
      refine ⟨_, by
        unfold scatterStep
        rw [if_pos (pairs_range hX hY hd hi (e := e) (by rw [h]; simp))], fun j => ?_⟩
      rw [List.map_append, List.sum_append, ← hV j]
      by_cases hj : j = Y.col e.2
      · subst hj; simp
      · rw [wr_ne _ _ hj]; simp [Ne.symm hj])
  rw [h1]; congr 1; funext j; exact h2 j

theorem flatMap_sum (l : List α) (f : α → List K) :
    (l.flatMap f).sum = (l.map fun a => (f a).sum).sum := by
  induction l with
  | nil => rfl
  | cons a l ih => rw [List.flatMap_cons, List.sum_append, ih, List.map_cons, List.sum_cons]

theorem row_sum_col {X : CsrMat K} (hX : Valid X) {i : ℕ} (hi : i < X.nrows) (G : ℕ → K) :
    ((rowIdx X i).map fun px => X.val px * G (X.col px)).sum =
      ∑ k ∈ Finset.range X.ncols, get X i k * G k := by
  rw [rowIdx_sum]
  simp only [Csr.get, Finset.sum_mul]
  rw [Finset.sum_comm]
  refine Finset.sum_congr rfl fun px hp => ?_
  have hlt : X.col px < X.ncols := by
    refine hX.range px (hX.mem_lt hi ?_)
    rw [mem_rowIdx]; exact Finset.mem_Ico.mp hp
  rw [Finset.sum_eq_single (X.col px)]
  · rw [if_pos rfl]
  · intro k _ hk; rw [if_neg (Ne.symm hk), zero_mul]
  · intro h; exact absurd (Finset.mem_range.mpr hlt) h

theorem scat_eq {X Y : CsrMat K} (hX : Valid X) {i : ℕ} (hi : i < X.nrows) (j : ℕ) :
    scat X Y i j = ∑ k ∈ Finset.range X.ncols, get X i k * get Y k j := by
  unfold scat pairs
  rw [List.map_flatMap, flatMap_sum, ← row_sum_col hX hi fun k => get Y k j]
  congr 1
  refine List.map_congr_left fun px _ => ?_
  rw [List.map_map, Csr.get, Finset.mul_sum, ← rowIdx_sum]
  congr 1
  refine List.map_congr_left fun py _ => ?_
  simp only [Function.comp]
  split_ifs <;> ring

theorem scat_zero {X Y : CsrMat K} {i j : ℕ} (h : ¬ ∃ k, Stored X i k ∧ Stored Y k j) :
    scat X Y i j = 0 := by
  unfold scat
  rw [← mem_pairs] at h
  push Not at h
  refine List.sum_eq_zero fun x hx => ?_
  obtain ⟨e, he, rfl⟩ := List.mem_map.mp hx
  rw [if_neg (h e he)]

theorem gatherLoop {M : CsrMat K} (hM : Valid M) {i : ℕ} (hi : i < M.nrows) (alpha : K) (W v : ℕ → K) :
    ∃ s, (rowIdx M i).foldlM (gatherStep M i alpha) (W, v) = some s ∧
      (∀ j, s.1 j = 0 ∨ ¬ Stored M i j ∧ s.1 j = W j) ∧
      (∀ p, M.ptr i ≤ p → p < M.ptr (i + 1) → s.2 p = v p + alpha * W (M.col p)) ∧
      ∀ p, p < M.ptr i ∨ M.ptr (i + 1) ≤ p → s.2 p = v p := by
  have hmono := hM.mono i hi
  obtain ⟨s, h1, h2⟩ := foldlM_range' (fun t (s : (ℕ → K) × (ℕ → K)) =>
      (∀ p, M.ptr i ≤ p → p < t → s.1 (M.col p) = 0) ∧
      (∀ j, (∀ p, M.ptr i ≤ p → p < t → M.col p ≠ j) → s.1 j = W j) ∧
      (∀ p, M.ptr i ≤ p → p < t → s.2 p = v p + alpha * W (M.col p)) ∧
      ∀ p, p < M.ptr i ∨ t ≤ p → s.2 p = v p)
    (gatherStep M i alpha) (M.ptr i) (M.ptr (i + 1) - M.ptr i) (W, v)
    ⟨fun p _ _ => by omega, fun _ _ => rfl, fun p _ _ => by omega, fun _ _ => rfl⟩ (by
      rintro t ⟨W', v'⟩ ht1 ht2 ⟨q1, q2, q3, q4⟩
      simp only at q1 q2 q3 q4
      have hnn : t < M.nnz := hM.mem_lt hi ((mem_rowIdx M i t).mpr ⟨ht1, by omega⟩)
      refine ⟨_, by
        unfold gatherStep
        rw [if_pos ⟨fun h => hM.sorted i hi t ht1 h, hM.range t hnn, hnn⟩], ?_, ?_, ?_, ?_⟩
      · intro p hp1 hp2
        simp only
        by_cases h : M.col p = M.col t
        · rw [h, wr_same]
        · rw [wr_ne _ _ h]
          refine q1 p hp1 ?_
          rcases Nat.lt_or_ge p t with h' | h'
          · exact h'
          · have : p = t := by omega
            subst this; exact absurd rfl h
      · intro j hj
        simp only
        rw [wr_ne _ _ (Ne.symm (hj t ht1 (by omega)))]
        exact q2 j fun p hp1 hp2 => hj p hp1 (by omega)
      · intro p hp1 hp2
        simp only
        by_cases h : p = t
        · subst h
          rw [wr_same, q4 p (Or.inr le_rfl), q2]
          intro q hq1 hq2
          exact ne_of_lt (hM.col_lt hi hq1 hq2 (by omega))
        · rw [wr_ne _ _ h]; exact q3 p hp1 (by omega)
      · intro p hp
        simp only
        rw [wr_ne _ _ (by omega)]; exact q4 p (by omega))
  rw [show M.ptr i + (M.ptr (i + 1) - M.ptr i) = M.ptr (i + 1) by omega] at h2
  refine ⟨s, h1, fun j => ?_, h2.2.2.1, h2.2.2.2⟩
  by_cases hj : Stored M i j
  · obtain ⟨p, hp1, hp2, rfl⟩ := hj
    exact Or.inl (h2.1 p hp1 hp2)
  · exact Or.inr ⟨hj, h2.2.1 j fun p hp1 hp2 e => hj ⟨p, hp1, hp2, e⟩⟩

theorem timesNumeric_ok {X Y M : CsrMat K} (hX : Valid X) (hY : Valid Y) (hM : Valid M)
    (hd : Y.nrows = X.ncols) (h1 : M.nrows = X.nrows) (h2 : M.ncols = Y.ncols)
    (hc : Covers M X Y) (alpha beta : K) :
    ∃ N, timesNumeric X beta M alpha Y = some N ∧ SamePat M N ∧
      ∀ i < X.nrows, ∀ j, get N i j =
        beta * get M i j + alpha * ∑ k ∈ Finset.range X.ncols, get X i k * get Y k j := by
  obtain ⟨s, s1, s2⟩ := foldlM_range (fun k (s : (ℕ → K) × (ℕ → K)) =>
      (∀ j, s.1 j = 0) ∧
      (∀ i < k, ∀ p, M.ptr i ≤ p → p < M.ptr (i + 1) →
        s.2 p = betaVals M.nnz beta M.val p + alpha * scat X Y i (M.col p)) ∧
      ∀ p, M.ptr k ≤ p → s.2 p = betaVals M.nnz beta M.val p)
    (fun (s : (ℕ → K) × (ℕ → K)) i =>
      (pairLoop X Y i (scatterStep X Y) s.1).bind fun W =>
      (rowIdx M i).foldlM (gatherStep M i alpha) (W, s.2))
    X.nrows ((fun _ => 0), betaVals M.nnz beta M.val)
    ⟨fun _ => rfl, fun i hi => by omega, fun _ _ => rfl⟩ (by
      rintro k ⟨W, v⟩ hk ⟨q1, q2, q3⟩
      simp only at q1 q2 q3
      simp only
      rw [scatterLoop hX hY hd hk W q1]
      simp only [Option.bind_some]
      obtain ⟨t, t1, t2, t3, t4⟩ := gatherLoop hM (i := k) (by omega) alpha (scat X Y k) v
      refine ⟨t, t1, fun j => ?_, fun i hi p hp1 hp2 => ?_, fun p hp => ?_⟩
      · rcases t2 j with h | ⟨h, h'⟩
        · exact h
        · rw [h']
          exact scat_zero fun ⟨l, hl1, hl2⟩ => h (hc k hk l j hl1 hl2)
      · rcases Nat.lt_or_ge i k with h | h
        · have := hM.ptr_mono (show i + 1 ≤ k by omega) (by omega)
          rw [t4 p (by omega)]; exact q2 i h p hp1 hp2
        · have : i = k := by omega
          subst this; rw [t3 p hp1 hp2, q3 p hp1]
      · have := hM.mono k (by omega)
        rw [t4 p (Or.inr hp)]; exact q3 p (by omega))
  refine ⟨{ M with val := s.2 }, ?_, ⟨rfl, rfl, rfl, rfl, rfl, rfl⟩, ?_⟩
  · unfold timesNumeric
    rw [if_pos ⟨hM.ready, h1, h2, hd⟩, s1]; rfl
  · intro i hi j
    have hbeta : ∀ p < M.nnz, betaVals M.nnz beta M.val p = beta * M.val p := by
      intro p hp
      unfold betaVals
      split_ifs with a b
      · subst b; simp [hp]
      · simp [hp]
      · push Not at a; rw [a, one_mul]
    have hsum : ∀ p, M.ptr i ≤ p → p < M.ptr (i + 1) →
        s.2 p = beta * M.val p + alpha * scat X Y i (M.col p) := by
      intro p hp1 hp2
      rw [s2.2.1 i hi p hp1 hp2, hbeta p (hM.mem_lt (by omega) ((mem_rowIdx M i p).mpr ⟨hp1, hp2⟩))]
    rw [← scat_eq hX hi]
    by_cases hj : Stored M i j
    · obtain ⟨p, hp1, hp2, rfl⟩ := hj
      have hp := (mem_rowIdx M i p).mpr ⟨hp1, hp2⟩
      have hN : Valid { M with val := s.2 } := SamePat.valid (A := M) ⟨rfl, rfl, rfl, rfl, rfl, rfl⟩ hM
      have e := hN.get_at (i := i) (p := p) (by simp only; omega) hp
      simp only at e
      rw [e, hM.get_at (by omega) hp, hsum p hp1 hp2]
    · rw [get_not_stored hj, scat_zero fun ⟨l, hl1, hl2⟩ => hj (hc i hi l j hl1 hl2)]
      rw [get_not_stored (A := { M with val := s.2 }) hj]; simp

/-! ## Sum -/

/-- The rest of a row of `X` or `Y`. -/
def restX (pX eX : ℕ) : List (Option ℕ × Option ℕ) := (List.range' pX (eX - pX)).map fun p => (some p, none)
/-- The rest of a row of `Y`. -/
def restY (pY eY : ℕ) : List (Option ℕ × Option ℕ) := (List.range' pY (eY - pY)).map fun p => (none, some p)

/-- The merge steps of one row. -/
def mlist (X Y : CsrMat K) (eX eY : ℕ) : ℕ → ℕ → ℕ → List (Option ℕ × Option ℕ)
  | 0, pX, pY => restX pX eX ++ restY pY eY
  | fuel + 1, pX, pY =>
    if pX < eX ∧ pY < eY then
      if X.col pX < Y.col pY then (some pX, none) :: mlist X Y eX eY fuel (pX + 1) pY
      else if X.col pX = Y.col pY then
        (some pX, some pY) :: mlist X Y eX eY fuel (pX + 1) (pY + 1)
      else (none, some pY) :: mlist X Y eX eY fuel pX (pY + 1)
    else restX pX eX ++ restY pY eY

theorem merge_eq (X Y : CsrMat K) (eX eY : ℕ) (f : S → Option ℕ → Option ℕ → Option S)
    (n fuel pX pY : ℕ) (hn : n = X.ncols) (hf : eX - pX + (eY - pY) ≤ fuel)
    (hpX : pX ≤ eX) (hpY : pY ≤ eY)
    (hbX : ∀ p, pX ≤ p → p < eX → X.col p < n) (hbY : ∀ p, pY ≤ p → p < eY → Y.col p < n) (s : S) :
    ((mergeWhile X Y eX eY f fuel pX pY s).bind fun t =>
      if t.2.1 = eX ∨ t.2.2 = eY then
        ((List.range' t.2.1 (eX - t.2.1)).foldlM
          (fun s p => if X.col p < X.ncols then f s (some p) none else none) t.1).bind fun s =>
        (List.range' t.2.2 (eY - t.2.2)).foldlM
          (fun s p => if Y.col p < X.ncols then f s none (some p) else none) s
      else none) = (mlist X Y eX eY fuel pX pY).foldlM (fun s e => f s e.1 e.2) s := by
  have hrest : ∀ (pX pY : ℕ) (s : S), pX = eX ∨ pY = eY →
      (∀ p, pX ≤ p → p < eX → X.col p < n) → (∀ p, pY ≤ p → p < eY → Y.col p < n) →
      (if pX = eX ∨ pY = eY then
        ((List.range' pX (eX - pX)).foldlM
          (fun s p => if X.col p < X.ncols then f s (some p) none else none) s).bind fun s =>
        (List.range' pY (eY - pY)).foldlM
          (fun s p => if Y.col p < X.ncols then f s none (some p) else none) s
      else none) = (restX pX eX ++ restY pY eY).foldlM (fun s e => f s e.1 e.2) s := by
    intro pX pY s h hX hY
    rw [if_pos h, List.foldlM_append, restX, restY, foldlM_map]
    rw [foldlM_congr (g := fun s p => f s (some p) none) _ (fun p hp s => if_pos (by
      rw [List.mem_range'_1] at hp; rw [← hn]; exact hX p hp.1 (by omega)))]
    change Option.bind _ _ = Option.bind _ _
    congr 1
    funext s'
    rw [foldlM_map]
    exact foldlM_congr _ (fun p hp s => if_pos (by
      rw [List.mem_range'_1] at hp; rw [← hn]; exact hY p hp.1 (by omega))) _
  induction fuel generalizing pX pY s with
  | zero =>
    simp only [mergeWhile, mlist, Option.bind_some]
    exact hrest pX pY s (by omega) hbX hbY
  | succ fuel ih =>
    unfold mergeWhile mlist
    by_cases h : pX < eX ∧ pY < eY
    · rw [if_pos h, if_pos h, if_pos ⟨by rw [← hn]; exact hbX pX le_rfl h.1,
        by rw [← hn]; exact hbY pY le_rfl h.2⟩]
      split_ifs with h1 h2
      · rw [List.foldlM_cons, Option.bind_assoc]
        change _ = Option.bind _ _
        congr 1; funext s'
        exact ih (pX + 1) pY (by omega) (by omega) (by omega) (fun p hp => hbX p (by omega)) hbY s'
      · rw [List.foldlM_cons, Option.bind_assoc]
        change _ = Option.bind _ _
        congr 1; funext s'
        exact ih (pX + 1) (pY + 1) (by omega) (by omega) (by omega) (fun p hp => hbX p (by omega))
          (fun p hp => hbY p (by omega)) s'
      · rw [List.foldlM_cons, Option.bind_assoc]
        change _ = Option.bind _ _
        congr 1; funext s'
        exact ih pX (pY + 1) (by omega) (by omega) (by omega) hbX (fun p hp => hbY p (by omega)) s'
    · rw [if_neg h, if_neg h]
      simp only [Option.bind_some]
      exact hrest pX pY s (by omega) hbX hbY

/-- The merge steps of row `i`. -/
def mrow (X Y : CsrMat K) (i : ℕ) : List (Option ℕ × Option ℕ) :=
  mlist X Y (X.ptr (i + 1)) (Y.ptr (i + 1))
    (X.ptr (i + 1) - X.ptr i + (Y.ptr (i + 1) - Y.ptr i)) (X.ptr i) (Y.ptr i)

theorem mergeRow_eq {X Y : CsrMat K} (hX : Valid X) (hY : Valid Y) (h1 : X.nrows = Y.nrows)
    (h2 : X.ncols = Y.ncols) (f : S → Option ℕ → Option ℕ → Option S) (s : S) {i : ℕ}
    (hi : i < X.nrows) :
    mergeRow X Y f s i = (mrow X Y i).foldlM (fun s e => f s e.1 e.2) s := by
  unfold mergeRow mrow
  refine merge_eq X Y _ _ f X.ncols _ _ _ rfl le_rfl (hX.mono i hi) (hY.mono i (by omega)) ?_ ?_ s
  · intro p hp1 hp2; exact hX.range p (hX.mem_lt hi ((mem_rowIdx X i p).mpr ⟨hp1, hp2⟩))
  · intro p hp1 hp2
    rw [h2]; exact hY.range p (hY.mem_lt (by omega : i < Y.nrows) ((mem_rowIdx Y i p).mpr ⟨hp1, hp2⟩))

/-- Column of a merge step. -/
abbrev mc (X Y : CsrMat K) (e : Option ℕ × Option ℕ) : ℕ := mergeCol X Y e.1 e.2

theorem range'_sum (a n : ℕ) (f : ℕ → K) :
    ((List.range' a n).map f).sum = ∑ p ∈ Finset.Ico a (a + n), f p := by
  rw [Finset.sum_Ico_eq_sum_range, Nat.add_sub_cancel_left]
  induction n with
  | zero => simp
  | succ n ih =>
    rw [List.range'_1_concat, List.map_append, List.sum_append, ih, Finset.sum_range_succ]; simp

theorem mlist_sorted (X Y : CsrMat K) (eX eY fuel pX pY : ℕ) (hf : eX - pX + (eY - pY) ≤ fuel)
    (hsX : ∀ p q, pX ≤ p → p < q → q < eX → X.col p < X.col q)
    (hsY : ∀ p q, pY ≤ p → p < q → q < eY → Y.col p < Y.col q) :
    ((mlist X Y eX eY fuel pX pY).map (mc X Y)).Pairwise (· < ·) ∧
      (∀ c ∈ (mlist X Y eX eY fuel pX pY).map (mc X Y),
        (∃ p, pX ≤ p ∧ p < eX ∧ X.col p = c) ∨ ∃ p, pY ≤ p ∧ p < eY ∧ Y.col p = c) ∧
      (∀ p, pX ≤ p → p < eX → X.col p ∈ (mlist X Y eX eY fuel pX pY).map (mc X Y)) ∧
      ∀ p, pY ≤ p → p < eY → Y.col p ∈ (mlist X Y eX eY fuel pX pY).map (mc X Y) := by
  have hrest : ∀ pX pY, ¬ (pX < eX ∧ pY < eY) →
      (∀ p q, pX ≤ p → p < q → q < eX → X.col p < X.col q) →
      (∀ p q, pY ≤ p → p < q → q < eY → Y.col p < Y.col q) →
      ((restX pX eX ++ restY pY eY).map (mc X Y)).Pairwise (· < ·) ∧
      (∀ c ∈ (restX pX eX ++ restY pY eY).map (mc X Y),
        (∃ p, pX ≤ p ∧ p < eX ∧ X.col p = c) ∨ ∃ p, pY ≤ p ∧ p < eY ∧ Y.col p = c) ∧
      (∀ p, pX ≤ p → p < eX → X.col p ∈ (restX pX eX ++ restY pY eY).map (mc X Y)) ∧
      ∀ p, pY ≤ p → p < eY → Y.col p ∈ (restX pX eX ++ restY pY eY).map (mc X Y) := by
    intro pX pY h hX hY
    have eX' : (restX pX eX).map (mc X Y) = (List.range' pX (eX - pX)).map X.col := by
      rw [restX, List.map_map]; rfl
    have eY' : (restY pY eY).map (mc X Y) = (List.range' pY (eY - pY)).map Y.col := by
      rw [restY, List.map_map]; rfl
    rw [List.map_append, eX', eY']
    refine ⟨?_, ?_, ?_, ?_⟩
    · rw [List.pairwise_append]
      refine ⟨?_, ?_, ?_⟩
      · rw [List.pairwise_map]
        refine List.Pairwise.imp_of_mem ?_ (List.pairwise_lt_range' (s := pX) (n := eX - pX))
        intro a b ha hb hab
        rw [List.mem_range'_1] at ha hb
        exact hX a b ha.1 hab (by omega)
      · rw [List.pairwise_map]
        refine List.Pairwise.imp_of_mem ?_ (List.pairwise_lt_range' (s := pY) (n := eY - pY))
        intro a b ha hb hab
        rw [List.mem_range'_1] at ha hb
        exact hY a b ha.1 hab (by omega)
      · intro a ha b hb
        obtain ⟨p, hp, -⟩ := List.mem_map.mp ha
        obtain ⟨q, hq, -⟩ := List.mem_map.mp hb
        rw [List.mem_range'_1] at hp hq; omega
    · intro c hc
      rcases List.mem_append.mp hc with hc | hc
      · obtain ⟨p, hp, rfl⟩ := List.mem_map.mp hc
        rw [List.mem_range'_1] at hp
        exact Or.inl ⟨p, hp.1, by omega, rfl⟩
      · obtain ⟨p, hp, rfl⟩ := List.mem_map.mp hc
        rw [List.mem_range'_1] at hp
        exact Or.inr ⟨p, hp.1, by omega, rfl⟩
    · intro p h1 h2
      exact List.mem_append_left _ (List.mem_map.mpr ⟨p, List.mem_range'_1.mpr ⟨h1, by omega⟩, rfl⟩)
    · intro p h1 h2
      exact List.mem_append_right _ (List.mem_map.mpr ⟨p, List.mem_range'_1.mpr ⟨h1, by omega⟩, rfl⟩)
  induction fuel generalizing pX pY with
  | zero => exact hrest pX pY (by omega) hsX hsY
  | succ fuel ih =>
    unfold mlist
    by_cases h : pX < eX ∧ pY < eY
    · rw [if_pos h]
      split_ifs with h1 h2
      · obtain ⟨i1, i2, i3, i4⟩ := ih (pX + 1) pY (by omega)
          (fun p q hp => hsX p q (by omega)) hsY
        refine ⟨?_, ?_, ?_, ?_⟩
        · rw [List.map_cons, List.pairwise_cons]
          refine ⟨fun c hc => ?_, i1⟩
          change X.col pX < c
          rcases i2 c hc with ⟨p, a, b, rfl⟩ | ⟨p, a, b, rfl⟩
          · exact hsX pX p le_rfl (by omega) b
          · rcases Nat.eq_or_lt_of_le a with rfl | a
            · exact h1
            · exact lt_trans h1 (hsY pY p le_rfl a b)
        · intro c hc
          rw [List.map_cons] at hc
          rcases List.mem_cons.mp hc with rfl | hc
          · exact Or.inl ⟨pX, le_rfl, h.1, rfl⟩
          · rcases i2 c hc with ⟨p, a, b, e⟩ | ⟨p, a, b, e⟩
            · exact Or.inl ⟨p, by omega, b, e⟩
            · exact Or.inr ⟨p, a, b, e⟩
        · intro p a b
          rw [List.map_cons]
          rcases Nat.eq_or_lt_of_le a with rfl | a
          · exact List.mem_cons_self ..
          · exact List.mem_cons_of_mem _ (i3 p a b)
        · intro p a b
          rw [List.map_cons]; exact List.mem_cons_of_mem _ (i4 p a b)
      · obtain ⟨i1, i2, i3, i4⟩ := ih (pX + 1) (pY + 1) (by omega)
          (fun p q hp => hsX p q (by omega)) (fun p q hp => hsY p q (by omega))
        refine ⟨?_, ?_, ?_, ?_⟩
        · rw [List.map_cons, List.pairwise_cons]
          refine ⟨fun c hc => ?_, i1⟩
          change X.col pX < c
          rcases i2 c hc with ⟨p, a, b, rfl⟩ | ⟨p, a, b, rfl⟩
          · exact hsX pX p le_rfl (by omega) b
          · rw [h2]; exact hsY pY p le_rfl (by omega) b
        · intro c hc
          rw [List.map_cons] at hc
          rcases List.mem_cons.mp hc with rfl | hc
          · exact Or.inl ⟨pX, le_rfl, h.1, rfl⟩
          · rcases i2 c hc with ⟨p, a, b, e⟩ | ⟨p, a, b, e⟩
            · exact Or.inl ⟨p, by omega, b, e⟩
            · exact Or.inr ⟨p, by omega, b, e⟩
        · intro p a b
          rw [List.map_cons]
          rcases Nat.eq_or_lt_of_le a with rfl | a
          · exact List.mem_cons_self ..
          · exact List.mem_cons_of_mem _ (i3 p a b)
        · intro p a b
          rw [List.map_cons]
          rcases Nat.eq_or_lt_of_le a with rfl | a
          · rw [← h2]; exact List.mem_cons_self ..
          · exact List.mem_cons_of_mem _ (i4 p a b)
      · obtain ⟨i1, i2, i3, i4⟩ := ih pX (pY + 1) (by omega) hsX
          (fun p q hp => hsY p q (by omega))
        have h3 : Y.col pY < X.col pX := by omega
        refine ⟨?_, ?_, ?_, ?_⟩
        · rw [List.map_cons, List.pairwise_cons]
          refine ⟨fun c hc => ?_, i1⟩
          change Y.col pY < c
          rcases i2 c hc with ⟨p, a, b, rfl⟩ | ⟨p, a, b, rfl⟩
          · rcases Nat.eq_or_lt_of_le a with rfl | a
            · exact h3
            · exact lt_trans h3 (hsX pX p le_rfl a b)
          · exact hsY pY p le_rfl (by omega) b
        · intro c hc
          rw [List.map_cons] at hc
          rcases List.mem_cons.mp hc with rfl | hc
          · exact Or.inr ⟨pY, le_rfl, h.2, rfl⟩
          · rcases i2 c hc with ⟨p, a, b, e⟩ | ⟨p, a, b, e⟩
            · exact Or.inl ⟨p, a, b, e⟩
            · exact Or.inr ⟨p, by omega, b, e⟩
        · intro p a b
          rw [List.map_cons]; exact List.mem_cons_of_mem _ (i3 p a b)
        · intro p a b
          rw [List.map_cons]
          rcases Nat.eq_or_lt_of_le a with rfl | a
          · exact List.mem_cons_self ..
          · exact List.mem_cons_of_mem _ (i4 p a b)
    · rw [if_neg h]; exact hrest pX pY h hsX hsY

theorem mlist_sum (X Y : CsrMat K) (alpha beta : K) (j eX eY fuel pX pY : ℕ) (hpX : pX ≤ eX)
    (hpY : pY ≤ eY) :
    ((mlist X Y eX eY fuel pX pY).map fun e =>
      if mc X Y e = j then mergeVal X Y alpha beta e.1 e.2 else 0).sum =
      alpha * (∑ p ∈ Finset.Ico pX eX, if X.col p = j then X.val p else 0) +
      beta * ∑ p ∈ Finset.Ico pY eY, if Y.col p = j then Y.val p else 0 := by
  have tX : ∀ p, (if mc X Y (some p, none) = j then mergeVal X Y alpha beta (some p) none else 0) =
      alpha * if X.col p = j then X.val p else 0 := by
    intro p
    by_cases h : X.col p = j
    · rw [if_pos h, if_pos (show mc X Y (some p, none) = j from h)]; rfl
    · rw [if_neg h, if_neg (show ¬ mc X Y (some p, none) = j from h), mul_zero]
  have tY : ∀ p, (if mc X Y (none, some p) = j then mergeVal X Y alpha beta none (some p) else 0) =
      beta * if Y.col p = j then Y.val p else 0 := by
    intro p
    by_cases h : Y.col p = j
    · rw [if_pos h, if_pos (show mc X Y (none, some p) = j from h)]; rfl
    · rw [if_neg h, if_neg (show ¬ mc X Y (none, some p) = j from h), mul_zero]
  have tXY : ∀ p q, X.col p = Y.col q →
      (if mc X Y (some p, some q) = j then mergeVal X Y alpha beta (some p) (some q) else 0) =
      (alpha * if X.col p = j then X.val p else 0) + beta * if Y.col q = j then Y.val q else 0 := by
    intro p q e
    by_cases h : X.col p = j
    · rw [if_pos h, if_pos (show mc X Y (some p, some q) = j from h), if_pos (e ▸ h)]; rfl
    · rw [if_neg h, if_neg (show ¬ mc X Y (some p, some q) = j from h), if_neg (e ▸ h), mul_zero,
        mul_zero, add_zero]
  have hrest : ∀ pX pY, pX ≤ eX → pY ≤ eY →
      ((restX pX eX ++ restY pY eY).map fun e =>
        if mc X Y e = j then mergeVal X Y alpha beta e.1 e.2 else 0).sum =
      alpha * (∑ p ∈ Finset.Ico pX eX, if X.col p = j then X.val p else 0) +
      beta * ∑ p ∈ Finset.Ico pY eY, if Y.col p = j then Y.val p else 0 := by
    intro pX pY h1 h2
    rw [List.map_append, List.sum_append, restX, restY, List.map_map, List.map_map, range'_sum,
      range'_sum, Finset.mul_sum, Finset.mul_sum, show pX + (eX - pX) = eX by omega,
      show pY + (eY - pY) = eY by omega]
    congr 1
    · exact Finset.sum_congr rfl fun p _ => tX p
    · exact Finset.sum_congr rfl fun p _ => tY p
  induction fuel generalizing pX pY with
  | zero => exact hrest pX pY hpX hpY
  | succ fuel ih =>
    unfold mlist
    by_cases h : pX < eX ∧ pY < eY
    · rw [if_pos h]
      split_ifs with h1 h2
      · rw [List.map_cons, List.sum_cons, ih (pX + 1) pY (by omega) hpY,
          Finset.sum_eq_sum_Ico_succ_bot h.1]
        rw [tX]; ring
      · rw [List.map_cons, List.sum_cons, ih (pX + 1) (pY + 1) (by omega) (by omega),
          Finset.sum_eq_sum_Ico_succ_bot h.1, Finset.sum_eq_sum_Ico_succ_bot h.2]
        rw [tXY pX pY h2]; ring
      · rw [List.map_cons, List.sum_cons, ih pX (pY + 1) hpX (by omega),
          Finset.sum_eq_sum_Ico_succ_bot h.2]
        rw [tY]; ring
    · rw [if_neg h]; exact hrest pX pY hpX hpY

/-- Columns of row `i` of the sum. -/
def sumCols (X Y : CsrMat K) (i : ℕ) : List ℕ := (mrow X Y i).map (mc X Y)

theorem sumCols_spec {X Y : CsrMat K} (hX : Valid X) (hY : Valid Y) (h1 : X.nrows = Y.nrows) {i : ℕ}
    (hi : i < X.nrows) :
    (sumCols X Y i).Pairwise (· < ·) ∧ ∀ j, j ∈ sumCols X Y i ↔ Stored X i j ∨ Stored Y i j := by
  obtain ⟨a1, a2, a3, a4⟩ := mlist_sorted X Y (X.ptr (i + 1)) (Y.ptr (i + 1)) _ (X.ptr i) (Y.ptr i)
    le_rfl (fun p q hp hpq hq => hX.col_lt hi hp hpq hq)
    (fun p q hp hpq hq => hY.col_lt (by omega) hp hpq hq)
  refine ⟨a1, fun j => ⟨a2 j, ?_⟩⟩
  rintro (⟨p, b, c, rfl⟩ | ⟨p, b, c, rfl⟩)
  · exact a3 p b c
  · exact a4 p b c

theorem addAlloc_ok {X Y : CsrMat K} (hX : Valid X) (hY : Valid Y) (h1 : X.nrows = Y.nrows)
    (h2 : X.ncols = Y.ncols) (hm : 0 < X.nrows) (hn : 0 < X.ncols) (g : Garbage K) :
    addAlloc X Y g =
      some (fresh X.nrows X.ncols (offs (fun t => (sumCols X Y t).length) X.nrows) g) := by
  obtain ⟨z, z1, z2⟩ := foldlM_range (fun i z => z = offs (fun t => (sumCols X Y t).length) i)
    (fun z i => mergeRow X Y (fun z _ _ => some (z + 1)) z i) X.nrows 0 rfl (by
      intro i z hi hz
      rw [mergeRow_eq hX hY h1 h2 _ _ hi]
      rw [foldlM_some (g := fun z _ => z + 1) _ (fun _ _ _ => rfl)]
      refine ⟨_, rfl, ?_⟩
      rw [offs_succ, ← hz, sumCols, List.length_map]
      generalize mrow X Y i = l
      have : ∀ (l : List (Option ℕ × Option ℕ)) z, l.foldl (fun z _ => z + 1) z = z + l.length := by
        intro l
        induction l with
        | nil => intro z; rfl
        | cons a l ih => intro z; rw [List.foldl_cons, ih, List.length_cons]; omega
      exact this l z)
  unfold addAlloc
  rw [if_pos ⟨h1, h2⟩, z1, z2]
  simp only [Option.bind_some, create]
  rw [if_neg (by omega)]

theorem addSymbolic_ok {X Y M : CsrMat K} (hX : Valid X) (hY : Valid Y) (h1 : X.nrows = Y.nrows)
    (h2 : X.ncols = Y.ncols) (hr : M.ready = true) (h3 : M.nrows = X.nrows) (h4 : M.ncols = X.ncols)
    (h5 : M.nnz = offs (fun t => (sumCols X Y t).length) X.nrows) :
    ∃ N, addSymbolic X M Y = some N ∧ N.nrows = X.nrows ∧ N.ncols = X.ncols ∧ Valid N ∧
      Pat N (sumCols X Y) := by
  obtain ⟨s, s1, s2, s3, s4⟩ := buildRows X.nrows M.nnz (sumCols X Y) h5.symm
    (fun (s : ℕ × (ℕ → ℕ) × (ℕ → ℕ)) i =>
      (mergeRow X Y (fun t a b => pushStep M.nnz t (mergeCol X Y a b)) (s.1, s.2.2) i).bind fun t =>
      if t.1 ≤ M.nnz then some (t.1, wr s.2.1 i s.1, t.2) else none)
    (by
      intro s i t hi ht hle
      rw [sumCols, foldlM_map] at ht
      rw [mergeRow_eq hX hY h1 h2 _ _ hi]
      rw [ht]
      simp only [Option.bind_some]
      rw [if_pos hle]) M.ptr M.col
  have hP : Pat { M with ptr := wr s.2.1 X.nrows s.1, col := s.2.2 } (sumCols X Y) := by
    have hptr : ∀ i ≤ X.nrows, wr s.2.1 X.nrows s.1 i =
        offs (fun t => (sumCols X Y t).length) i := by
      intro i hi
      rcases Nat.lt_or_ge i X.nrows with h | h
      · rw [wr_ne _ _ (by omega), s3 i h]
      · have : i = X.nrows := by omega
        subst this; rw [wr_same, s2, h5]
    refine ⟨by simp only [h3]; exact hptr, by simp only [h3]; exact h5, ?_⟩
    simp only [h3]
    intro i hi t ht
    rw [hptr i (by omega)]; exact s4 i hi t ht
  refine ⟨{ M with ptr := wr s.2.1 X.nrows s.1, col := s.2.2 }, ?_, h3, h4, ?_, hP⟩
  · unfold addSymbolic
    rw [if_pos ⟨hr, by omega, h1, h2⟩, s1]
    simp only [Option.bind_some]
    rw [if_pos s2]
  · refine hP.valid hr (fun i hi => (sumCols_spec hX hY h1 (by simpa only [h3] using hi)).1) ?_
    intro i hi c hc
    simp only [h3] at hi
    simp only [h4]
    rcases ((sumCols_spec hX hY h1 hi).2 c).mp hc with ⟨p, a, b, rfl⟩ | ⟨p, a, b, rfl⟩
    · exact hX.range p (hX.mem_lt hi ((mem_rowIdx X i p).mpr ⟨a, b⟩))
    · rw [h2]; exact hY.range p (hY.mem_lt (by omega : i < Y.nrows) ((mem_rowIdx Y i p).mpr ⟨a, b⟩))

theorem addAtLoop (nnz k : ℕ) (a : ℕ → K) (l : List K) (h : k + l.length ≤ nnz)
    (ha : ∀ p, k ≤ p → p < nnz → a p = 0) :
    ∃ b, l.foldlM (addAtStep nnz) (k, a) = some (k + l.length, b) ∧
      (∀ t (ht : t < l.length), b (k + t) = l[t]) ∧ ∀ p, p < k ∨ k + l.length ≤ p → b p = a p := by
  induction l generalizing k a with
  | nil => exact ⟨a, rfl, fun t ht => by simp at ht, fun _ _ => rfl⟩
  | cons x l ih =>
    rw [List.length_cons] at h
    obtain ⟨b, b1, b2, b3⟩ := ih (k + 1) (wr a k (a k + x)) (by omega)
      (fun p hp hp' => by rw [wr_ne _ _ (by omega)]; exact ha p (by omega) hp')
    refine ⟨b, ?_, ?_, ?_⟩
    · rw [List.foldlM_cons]
      unfold addAtStep
      simp only
      rw [if_pos (by omega)]
      refine b1.trans ?_
      rw [List.length_cons, show k + 1 + l.length = k + (l.length + 1) by omega]
    · intro t ht
      cases t with
      | zero => rw [Nat.add_zero, b3 k (by omega), wr_same, ha k le_rfl (by omega), zero_add]; rfl
      | succ t =>
        rw [List.length_cons] at ht
        rw [show k + (t + 1) = k + 1 + t by omega, b2 t (by omega)]; rfl
    · intro p hp
      rw [List.length_cons] at hp
      rw [b3 p (by omega), wr_ne _ _ (by omega)]

theorem addNumeric_ok {X Y M : CsrMat K} (hX : Valid X) (hY : Valid Y) (h1 : X.nrows = Y.nrows)
    (h2 : X.ncols = Y.ncols) (h3 : M.nrows = X.nrows) (hP : Pat M (sumCols X Y)) (alpha beta : K) :
    ∃ N, addNumeric X M alpha Y beta = some N ∧ SamePat M N ∧
      ∀ i < X.nrows, ∀ j, get N i j = alpha * get X i j + beta * get Y i j := by
  set V : ℕ → List K := fun i => (mrow X Y i).map fun e => mergeVal X Y alpha beta e.1 e.2 with hV
  have hlen : ∀ i, (V i).length = (sumCols X Y i).length := by intro i; simp [hV, sumCols]
  obtain ⟨s, s1, s2⟩ := foldlM_range (fun k (s : ℕ × (ℕ → K)) =>
      s.1 = M.ptr k ∧
      (∀ i < k, ∀ t (h : t < (V i).length), s.2 (M.ptr i + t) = (V i)[t]) ∧
      ∀ p, M.ptr k ≤ p → p < M.nnz → s.2 p = 0)
    (fun s i => mergeRow X Y (fun t a b => addAtStep M.nnz t (mergeVal X Y alpha beta a b)) s i)
    X.nrows (0, fun k => if k < M.nnz then 0 else M.val k)
    ⟨by rw [hP.ptr 0 (Nat.zero_le _), offs_zero], fun i hi => by omega, fun p _ h => by simp [h]⟩ (by
      rintro k ⟨z, v⟩ hk ⟨q1, q2, q3⟩
      simp only at q1 q2 q3
      rw [mergeRow_eq hX hY h1 h2 _ _ hk]
      have hsucc := hP.succ (i := k) (by omega)
      have hle : M.ptr (k + 1) ≤ M.nnz := by
        rw [hP.ptr (k + 1) (by omega), hP.nnz]; exact offs_mono _ (by omega)
      have hl := hlen k
      obtain ⟨b, b1, b2, b3⟩ := addAtLoop M.nnz z v (V k) (by omega)
        (fun p hp hp' => q3 p (by omega) hp')
      simp only [hV] at b1
      rw [foldlM_map] at b1
      refine ⟨_, b1, ?_, ?_, ?_⟩
      · simp only [List.length_map]
        have : (mrow X Y k).length = (sumCols X Y k).length := by simp [sumCols]
        omega
      · intro i hi t ht
        simp only
        rcases Nat.lt_or_ge i k with h | h
        · rw [b3, q2 i h t ht]
          left
          have e1 := hP.succ (i := i) (by omega)
          have e2 : M.ptr (i + 1) ≤ M.ptr k := by
            rw [hP.ptr (i + 1) (by omega), hP.ptr k (by omega)]; exact offs_mono _ (by omega)
          have := hlen i
          omega
        · have : i = k := by omega
          subst this; rw [← q1]; exact b2 t ht
      · intro p hp hp'
        simp only
        rw [b3 p (by omega)]; exact q3 p (by omega) hp')
  have hN : Pat { M with val := s.2 } (sumCols X Y) := ⟨hP.ptr, hP.nnz, hP.col⟩
  refine ⟨{ M with val := s.2 }, ?_, ⟨rfl, rfl, rfl, rfl, rfl, rfl⟩, ?_⟩
  · unfold addNumeric
    rw [if_pos ⟨h1, h2⟩, s1]
    simp only [Option.bind_some]
    rw [if_pos]
    rw [s2.1, ← h3, hP.ptr _ le_rfl, hP.nnz]
  · intro i hi j
    rw [hN.get (by simp only; omega) j (V i) (hlen i) (s2.2.1 i hi)]
    have := mlist_sum X Y alpha beta j (X.ptr (i + 1)) (Y.ptr (i + 1))
      (X.ptr (i + 1) - X.ptr i + (Y.ptr (i + 1) - Y.ptr i)) (X.ptr i) (Y.ptr i) (hX.mono i hi)
      (hY.mono i (by omega))
    unfold Csr.get
    rw [← this]
    exact zip_map_sum _ _ _ _

end Hiop.Csr
