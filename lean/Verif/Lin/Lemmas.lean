import Verif.Lin.Model
import Verif.Csr.Form

/-! # Filling and sorting rows -/

set_option linter.unusedSectionVars false

namespace Hiop.Lin

open Hiop.Csr Hiop.Sparse

variable {K : Type*} [Field K] [LinearOrder K]

/-- What the standard guarantees about `std::sort`: a permutation with keys in order. -/
def Sorts (srt : SortFn) : Prop :=
  ∀ key l, (srt key l).Perm l ∧ ((srt key l).map key).Pairwise (· ≤ ·)

/-! ## Row pointers -/

theorem accumulate_spec (n : ℕ) (p : ℕ → ℕ) (h0 : p 0 = 0) :
    ∀ i ≤ n, accumulate n p i = offs (fun t => p (t + 1)) i := by
  have := foldl_range (fun k (q : ℕ → ℕ) => (∀ i ≤ k, q i = offs (fun t => p (t + 1)) i) ∧
      ∀ i, k < i → q i = p i)
    (fun (p : ℕ → ℕ) i => wr p (i + 1) (p (i + 1) + p i)) n p
    ⟨fun i hi => by rw [Nat.le_zero.mp hi, h0]; rfl, fun _ _ => rfl⟩ (by
      rintro k q _ ⟨h1, h2⟩
      refine ⟨fun i hi => ?_, fun i hi => ?_⟩
      · rcases Nat.lt_or_ge i (k + 1) with h' | h'
        · rw [wr_ne _ _ (by omega)]; exact h1 i (by omega)
        · have : i = k + 1 := by omega
          subst this
          rw [wr_same, h1 k le_rfl, h2 (k + 1) (by omega), offs_succ]; omega
      · rw [wr_ne _ _ (by omega)]; exact h2 i (by omega))
  exact this.1

/-! ## Filling -/

/-- The additional value of row `i`. -/
def exv (M : ℕ → K) (ex : ℕ → Option ℕ) (i : ℕ) : K := ((ex i).map M).getD 0

/-- The additional value of an entry of row `i`: on the diagonal only. -/
def onDiag (v : K) (i : ℕ) (x : ℕ × ℕ) : K := if x.1 = i then v else 0

/-- One entry `(b, k)` (column, position in the triplets) for row `a`; diagonal entries receive the
additional value. -/
def stepP (n nnz : ℕ) (ptr : ℕ → ℕ) (ex : ℕ → Option ℕ) (M : ℕ → K) (s : Fill K) (e : ℕ × (ℕ × ℕ)) :
    Option (Fill K) :=
  (put n nnz ptr e.1 e.2.1 (M e.2.2) e.2.2 s).map fun s =>
    incCnt e.1 (if e.1 = e.2.1 then
      match ex e.1 with
      | some x => addExtra ptr M e.1 x s
      | none => s
    else s)

/-- Row `i` of the arrays holds the entries `R` (column, position in the triplets), and the values are
those of the triplets plus `w`. -/
def RowIs (ptr : ℕ → ℕ) (M : ℕ → K) (w : ℕ × ℕ → K) (i : ℕ) (R : List (ℕ × ℕ)) (col idx : ℕ → ℕ)
    (val : ℕ → K) : Prop :=
  ∀ t (h : t < R.length), col (ptr i + t) = R[t].1 ∧ idx (ptr i + t) = R[t].2 ∧
    val (ptr i + t) = M R[t].2 + w R[t]

/-- Position of the diagonal entry that receives a further value. -/
def DiagIs (ptr : ℕ → ℕ) (ex : ℕ → Option ℕ) (i : ℕ) (R : List (ℕ × ℕ)) (d : Option ℕ) : Prop :=
  (∀ t (h : t < R.length), R[t].1 = i → d = (ex i).map fun _ => ptr i + t) ∧
  ((∀ x ∈ R, x.1 ≠ i) → d = none)

/-- The row pointers are those of rows of lengths `len`. -/
structure Ptrs (n nnz : ℕ) (ptr len : ℕ → ℕ) : Prop where
  ptr : ∀ i ≤ n, ptr i = offs len i
  nnz : nnz = offs len n

theorem Ptrs.succ {n nnz : ℕ} {ptr len : ℕ → ℕ} (h : Ptrs n nnz ptr len) {i : ℕ} (hi : i < n) :
    ptr (i + 1) = ptr i + len i := by
  rw [h.ptr i (by omega), h.ptr (i + 1) (by omega), offs_succ]

theorem Ptrs.le {n nnz : ℕ} {ptr len : ℕ → ℕ} (h : Ptrs n nnz ptr len) {i : ℕ} (hi : i < n) :
    ptr i + len i ≤ nnz := by
  rw [← h.succ hi, h.ptr (i + 1) (by omega), h.nnz]; exact offs_mono _ (by omega)

theorem Ptrs.disj {n nnz : ℕ} {ptr len : ℕ → ℕ} (h : Ptrs n nnz ptr len) {i j s t : ℕ} (hi : i < n)
    (hj : j < n) (hs : s < len i) (ht : t < len j) (e : ptr i + s = ptr j + t) : i = j ∧ s = t := by
  rw [h.ptr i (by omega), h.ptr j (by omega)] at e
  exact offs_disj len hs ht e

theorem Ptrs.find {n nnz : ℕ} {ptr len : ℕ → ℕ} (h : Ptrs n nnz ptr len) {p : ℕ} (hp : p < nnz) :
    ∃ i < n, ∃ t < len i, p = ptr i + t := by
  rw [h.nnz] at hp
  obtain ⟨i, hi, t, ht, e⟩ := offs_find len n p hp
  exact ⟨i, hi, t, ht, by rw [h.ptr i (by omega)]; exact e⟩

theorem put_eq (n nnz : ℕ) (ptr : ℕ → ℕ) (a b : ℕ) (v : K) (k : ℕ) (s : Fill K) (ha : a < n)
    (hp : s.cnt a + ptr a < nnz) :
    put n nnz ptr a b v k s = some { s with
      col := wr s.col (s.cnt a + ptr a) b, val := wr s.val (s.cnt a + ptr a) v
      idx := wr s.idx (s.cnt a + ptr a) k } := by
  unfold put; rw [if_pos ⟨ha, hp⟩]

/-- The state after one entry. -/
theorem stepP_eq (n nnz : ℕ) (ptr : ℕ → ℕ) (ex : ℕ → Option ℕ) (M : ℕ → K) (s : Fill K) (a b k : ℕ)
    (ha : a < n) (hp : s.cnt a + ptr a < nnz) :
    stepP n nnz ptr ex M s (a, (b, k)) = some
      { cnt := inc s.cnt a
        col := wr s.col (s.cnt a + ptr a) b
        idx := wr s.idx (s.cnt a + ptr a) k
        val := wr s.val (s.cnt a + ptr a) (M k + onDiag (exv M ex a) a (b, k))
        diag := if a = b then (match ex a with
          | some _ => wr s.diag a (some (s.cnt a + ptr a))
          | none => s.diag) else s.diag } := by
  unfold stepP
  rw [put_eq _ _ _ _ _ _ _ _ ha hp]
  simp only [Option.map_some, Option.some.injEq]
  by_cases hab : a = b
  · subst hab
    rw [if_pos rfl, if_pos rfl]
    cases hx : ex a with
    | none =>
      simp [incCnt, onDiag, exv, hx]
    | some x =>
      simp only [incCnt, addExtra, onDiag, exv, hx, if_true, Option.map_some, Option.getD_some, wr_same,
        Fill.mk.injEq, true_and, and_true]
      funext t
      by_cases ht : t = s.cnt a + ptr a
      · subst ht; simp
      · rw [wr_ne _ _ ht, wr_ne _ _ ht, wr_ne _ _ ht]
  · rw [if_neg hab, if_neg hab]
    simp [incCnt, onDiag, Ne.symm hab]

/-- At most one entry of row `i` lies on the diagonal. -/
def OneDiag (i : ℕ) (R : List (ℕ × ℕ)) : Prop := R.Pairwise fun a b => ¬(a.1 = i ∧ b.1 = i)

theorem OneDiag.of_append {i : ℕ} {R S : List (ℕ × ℕ)} (h : OneDiag i (R ++ S)) : OneDiag i R :=
  (List.pairwise_append.mp h).1

theorem fill_spec (n nnz : ℕ) (ptr len : ℕ → ℕ) (hP : Ptrs n nnz ptr len) (ex : ℕ → Option ℕ)
    (M : ℕ → K) (pl : List (ℕ × (ℕ × ℕ))) (hl : ∀ e ∈ pl, e.1 < n)
    (hlen : ∀ i < n, (sel pl i).length ≤ len i) (hone : ∀ i < n, OneDiag i (sel pl i)) (s0 : Fill K)
    (h0 : s0.cnt = fun _ => 0) (hd0 : s0.diag = fun _ => none) :
    ∃ f, pl.foldlM (stepP n nnz ptr ex M) s0 = some f ∧ ∀ i < n, f.cnt i = (sel pl i).length ∧
      RowIs ptr M (onDiag (exv M ex i) i) i (sel pl i) f.col f.idx f.val ∧
      DiagIs ptr ex i (sel pl i) (f.diag i) := by
  refine foldlM_prefix (fun pre (f : Fill K) => ∀ i < n, f.cnt i = (sel pre i).length ∧
      RowIs ptr M (onDiag (exv M ex i) i) i (sel pre i) f.col f.idx f.val ∧
      DiagIs ptr ex i (sel pre i) (f.diag i)) (stepP n nnz ptr ex M) pl s0 ?_ ?_
  · intro i _
    refine ⟨by simp [h0, sel], fun t h => by simp [sel] at h, ⟨fun t h => by simp [sel] at h, fun _ => ?_⟩⟩
    rw [hd0]
  · rintro pre ⟨a, b, k⟩ suf s e hs
    have ha : a < n := hl (a, b, k) (by rw [e]; simp)
    obtain ⟨q1, -, -⟩ := hs a ha
    have hsel : sel pl a = sel pre a ++ (b, k) :: sel suf a := by
      rw [e, show pre ++ (a, b, k) :: suf = pre ++ ([(a, b, k)] ++ suf) by simp, sel_append, sel_append]
      simp [sel]
    have hlt : (sel pre a).length < len a := by
      have := hlen a ha; rw [hsel] at this; simp at this; omega
    have hle := hP.le ha
    refine ⟨_, stepP_eq n nnz ptr ex M s a b k ha (by omega), fun i hi => ?_⟩
    obtain ⟨r1, r2, r3⟩ := hs i hi
    by_cases hia : i = a
    · subst hia
      have hsel' : sel (pre ++ [(i, b, k)]) i = sel pre i ++ [(b, k)] := by rw [sel_append]; simp [sel]
      rw [hsel']
      refine ⟨by simp [inc, r1], fun t ht => ?_, fun t ht htd => ?_, fun hnd => ?_⟩
      · simp only
        rcases Nat.lt_or_ge t (sel pre i).length with h' | h'
        · rw [wr_ne _ _ (by omega), wr_ne _ _ (by omega), wr_ne _ _ (by omega)]
          simp only [List.getElem_append_left h']
          exact r2 t h'
        · have : t = (sel pre i).length := by simp at ht; omega
          subst this
          rw [show s.cnt i + ptr i = ptr i + (sel pre i).length by omega]
          simp
      · simp only
        rcases Nat.lt_or_ge t (sel pre i).length with h' | h'
        · simp only [List.getElem_append_left h'] at htd
          have hb : ¬ i = b := by
            intro hib
            have h1 := hone i hi
            unfold OneDiag at h1
            rw [hsel, List.pairwise_append] at h1
            exact h1.2.2 _ (List.getElem_mem h') (b, k) (by simp) ⟨htd, hib.symm⟩
          rw [if_neg hb]
          exact r3.1 t h' htd
        · have : t = (sel pre i).length := by simp at ht; omega
          subst this
          have hib : i = b := by simpa using htd.symm
          rw [if_pos hib]
          cases hx : ex i with
          | none =>
            simp only [Option.map_none]
            subst hib
            refine r3.2 fun x hx' hxi => ?_
            have h1 := hone i hi
            unfold OneDiag at h1
            rw [hsel, List.pairwise_append] at h1
            exact h1.2.2 x hx' (i, k) (by simp) ⟨hxi, rfl⟩
          | some x => simp [r1, Nat.add_comm]
      · simp only
        have hb : ¬ i = b := fun h => hnd (b, k) (by simp) h.symm
        rw [if_neg hb]
        exact r3.2 fun x hx => hnd x (by simp [hx])
    · have hsel' : sel (pre ++ [(a, b, k)]) i = sel pre i := by
        rw [sel_append]; simp [sel, Ne.symm hia]
      rw [hsel']
      refine ⟨by simp only [inc]; rw [wr_ne _ _ hia]; exact r1, fun t ht => ?_, ?_⟩
      · have hne : ptr i + t ≠ s.cnt a + ptr a := by
          intro h
          have hli : (sel pre i).length ≤ len i := by
            have := hlen i hi
            rw [e, sel_append] at this; simp at this; omega
          exact hia (hP.disj hi ha (s := t) (t := s.cnt a) (by omega) (by omega) (by omega)).1
        simp only
        rw [wr_ne _ _ hne, wr_ne _ _ hne, wr_ne _ _ hne]
        exact r2 t ht
      · simp only
        have hdi : (if a = b then (match ex a with
          | some _ => wr s.diag a (some (s.cnt a + ptr a))
          | none => s.diag) else s.diag) i = s.diag i := by
          split_ifs with hab
          · cases ex a with
            | none => rfl
            | some x => exact wr_ne _ _ hia
          · rfl
        rw [hdi]
        exact r3

/-! ## Sorting a row -/

theorem sortRow_spec {srt : SortFn} (hs : Sorts srt) {n nnz : ℕ} {ptr len : ℕ → ℕ}
    (hP : Ptrs n nnz ptr len) {i : ℕ} (hi : i < n) (M : ℕ → K) (w : ℕ × ℕ → K) (R : List (ℕ × ℕ))
    (hR : R.length = len i) (f : Fill K) (h : RowIs ptr M w i R f.col f.idx f.val) :
    ∃ R', R' = (rowPerm srt ptr i f).map (fun a => R.getD a (0, 0)) ∧ R'.Perm R ∧
      (R'.map Prod.fst).Pairwise (· ≤ ·) ∧
      RowIs ptr M w i R' (sortRow srt ptr i f).col (sortRow srt ptr i f).idx (sortRow srt ptr i f).val := by
  have hsz : ptr (i + 1) - ptr i = R.length := by rw [hP.succ hi]; omega
  obtain ⟨hp, hsorted⟩ := hs (fun a => f.col (a + ptr i)) (List.range (ptr (i + 1) - ptr i))
  have hind : (rowPerm srt ptr i f).Perm (List.range R.length) := by
    have := hp; rw [hsz] at this; unfold rowPerm; rw [hsz]; exact this
  have hmem : ∀ a ∈ rowPerm srt ptr i f, a < R.length := fun a ha => by
    simpa using hind.mem_iff.mp ha
  have hcol : ∀ a ∈ rowPerm srt ptr i f, f.col (a + ptr i) = (R.getD a (0, 0)).1 := fun a ha => by
    have := hmem a ha
    rw [Nat.add_comm, (h a this).1]; simp [List.getD_eq_getElem?_getD, this]
  have hRid : (List.range R.length).map (fun a => R.getD a (0, 0)) = R := by
    refine List.ext_getElem (by simp) fun t h1 h2 => ?_
    simp [List.getD_eq_getElem?_getD, h2]
  have hperm : ((rowPerm srt ptr i f).map (fun a => R.getD a (0, 0))).Perm R := by
    have := hind.map (fun a => R.getD a (0, 0))
    rwa [hRid] at this
  have hcols : ((rowPerm srt ptr i f).map (fun a => R.getD a (0, 0))).map Prod.fst
      = (rowPerm srt ptr i f).map fun a => f.col (a + ptr i) := by
    rw [List.map_map]
    refine List.map_congr_left fun a ha => ?_
    rw [hcol a ha]; rfl
  have hsort' : (((rowPerm srt ptr i f).map (fun a => R.getD a (0, 0))).map Prod.fst).Pairwise (· ≤ ·) := by
    rw [hcols]; exact hsorted
  refine ⟨_, rfl, hperm, hsort', ?_⟩
  have hseg : (List.range (ptr (i + 1) - ptr i)).map (fun a => f.col (ptr i + a)) = R.map Prod.fst := by
    rw [hsz]
    refine List.ext_getElem (by simp) fun t h1 h2 => ?_
    simp only [List.length_map] at h2
    simp only [List.getElem_map, List.getElem_range]
    exact (h t h2).1
  have hc : srt id ((List.range (ptr (i + 1) - ptr i)).map fun a => f.col (ptr i + a))
      = ((rowPerm srt ptr i f).map (fun a => R.getD a (0, 0))).map Prod.fst := by
    obtain ⟨k1, k2⟩ := hs id ((List.range (ptr (i + 1) - ptr i)).map fun a => f.col (ptr i + a))
    rw [List.map_id] at k2
    refine List.Perm.eq_of_pairwise (le := (· ≤ ·)) (fun a b _ _ => Nat.le_antisymm) k2 hsort' ?_
    refine k1.trans ?_
    rw [hseg]
    exact (hperm.map Prod.fst).symm
  intro t ht
  have htl : t < (rowPerm srt ptr i f).length := by simpa using ht
  have hm := hmem _ (List.getElem_mem htl)
  have hrow := h _ hm
  refine ⟨?_, ?_, ?_⟩
  · simp only [sortRow, wrSeg]
    rw [if_pos (by omega), Nat.add_sub_cancel_left, hc, List.getElem?_map, List.getElem?_eq_getElem ht]
    rfl
  · simp only [sortRow, reorder]
    rw [if_pos (by omega), Nat.add_sub_cancel_left, List.getElem?_eq_getElem htl]
    simp only [hrow.2.1, List.getElem_map]
    simp [List.getD_eq_getElem?_getD, hm]
  · simp only [sortRow, reorder]
    rw [if_pos (by omega), Nat.add_sub_cancel_left, List.getElem?_eq_getElem htl]
    simp only [hrow.2.2, List.getElem_map]
    simp [List.getD_eq_getElem?_getD, hm]

/-- Sorting row `i` leaves the other positions alone. -/
theorem sortRow_frame {srt : SortFn} (hs : Sorts srt) {n nnz : ℕ} {ptr len : ℕ → ℕ}
    (hP : Ptrs n nnz ptr len) {i j : ℕ} (hi : i < n) (hj : j < n) (hij : j ≠ i) (f : Fill K) {t : ℕ}
    (ht : t < len j) :
    (sortRow srt ptr i f).col (ptr j + t) = f.col (ptr j + t) ∧
    (sortRow srt ptr i f).idx (ptr j + t) = f.idx (ptr j + t) ∧
    (sortRow srt ptr i f).val (ptr j + t) = f.val (ptr j + t) := by
  have hsz : ptr (i + 1) - ptr i = len i := by rw [hP.succ hi]; omega
  have hlen : (rowPerm srt ptr i f).length = len i := by
    unfold rowPerm; rw [(hs _ _).1.length_eq, List.length_range, hsz]
  have hout : ptr i ≤ ptr j + t → len i ≤ ptr j + t - ptr i := by
    intro h
    by_contra hlt
    push Not at hlt
    exact hij (hP.disj hj hi (s := t) (t := ptr j + t - ptr i) ht hlt (by omega)).1
  have hlen2 : (srt id ((List.range (ptr (i + 1) - ptr i)).map fun a => f.col (ptr i + a))).length = len i := by
    rw [(hs _ _).1.length_eq]; simp [hsz]
  refine ⟨?_, ?_, ?_⟩
  · simp only [sortRow, wrSeg]
    split_ifs with h
    · rw [List.getElem?_eq_none (by rw [hlen2]; exact hout h)]; rfl
    · rfl
  · simp only [sortRow, reorder]
    split_ifs with h
    · rw [List.getElem?_eq_none (by rw [hlen]; exact hout h)]
    · rfl
  · simp only [sortRow, reorder]
    split_ifs with h
    · rw [List.getElem?_eq_none (by rw [hlen]; exact hout h)]
    · rfl

theorem RowIs.congr {ptr : ℕ → ℕ} {M : ℕ → K} {w : ℕ × ℕ → K} {i : ℕ} {R : List (ℕ × ℕ)}
    {col idx col' idx' : ℕ → ℕ} {val val' : ℕ → K} (h : RowIs ptr M w i R col idx val)
    (hc : ∀ t < R.length, col' (ptr i + t) = col (ptr i + t) ∧ idx' (ptr i + t) = idx (ptr i + t) ∧
      val' (ptr i + t) = val (ptr i + t)) : RowIs ptr M w i R col' idx' val' := fun t ht => by
  rw [(hc t ht).1, (hc t ht).2.1, (hc t ht).2.2]; exact h t ht

/-! ## The dense matrix -/

theorem RowIs.get {n nnz : ℕ} {ptr len : ℕ → ℕ} (hP : Ptrs n nnz ptr len) {i : ℕ} (hi : i < n)
    {M : ℕ → K} {w : ℕ × ℕ → K} {R : List (ℕ × ℕ)} (hR : R.length = len i) {col idx : ℕ → ℕ}
    {val : ℕ → K} (h : RowIs ptr M w i R col idx val) (j : ℕ) :
    get (mkCsr n nnz ptr col val) i j = (R.map fun x => if x.1 = j then M x.2 + w x else 0).sum := by
  change (∑ p ∈ Finset.Ico (ptr i) (ptr (i + 1)), if col p = j then val p else 0) = _
  rw [hP.succ hi, Finset.sum_Ico_eq_sum_range, Nat.add_sub_cancel_left, ← hR,
    ← Fin.sum_univ_eq_sum_range (fun t => if col (ptr i + t) = j then val (ptr i + t) else 0),
    ← List.sum_ofFn]
  congr 1
  refine List.ext_getElem (by simp) fun t h1 h2 => ?_
  simp only [List.length_ofFn] at h1
  simp only [List.getElem_ofFn, List.getElem_map]
  rw [(h t h1).1, (h t h1).2.2]

end Hiop.Lin
