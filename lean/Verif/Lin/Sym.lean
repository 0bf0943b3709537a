import Verif.Lin.Lemmas

/-! # The symmetric conversions -/

set_option linter.unusedSectionVars false

namespace Hiop.Lin

open Hiop.Csr Hiop.Sparse

variable {K : Type*} [Field K] [LinearOrder K]

/-- Where the triplet `(r, c)` is stored. -/
def tgt (tg : ℕ → ℕ → List (ℕ × ℕ)) (rc : ℕ × ℕ) : List (ℕ × ℕ) :=
  if rc.1 = rc.2 then [rc] else tg rc.1 rc.2

/-- The entries (row, column, position in the triplets) in the order in which they are stored. -/
def plOf (tg : ℕ → ℕ → List (ℕ × ℕ)) (l : List ((ℕ × ℕ) × ℕ)) : List (ℕ × (ℕ × ℕ)) :=
  l.flatMap fun e => (tgt tg e.1).map fun ab => (ab.1, (ab.2, e.2))

/-- Off-diagonal triplets go to off-diagonal positions. -/
def GoodTg (tg : ℕ → ℕ → List (ℕ × ℕ)) (n : ℕ) : Prop :=
  ∀ r c, r ≠ c → r < n → c < n → ∀ ab ∈ tg r c, ab.1 ≠ ab.2 ∧ ab.1 < n ∧ ab.2 < n

theorem good_both (n : ℕ) : GoodTg both n := by
  intro r c h hr hc ab hab
  simp only [both, List.mem_cons, List.not_mem_nil, or_false] at hab
  rcases hab with rfl | rfl
  · exact ⟨h, hr, hc⟩
  · exact ⟨h.symm, hc, hr⟩

theorem good_transposed (n : ℕ) : GoodTg transposed n := by
  intro r c h hr hc ab hab
  simp only [transposed, List.mem_cons, List.not_mem_nil, or_false] at hab
  subst hab
  exact ⟨h.symm, hc, hr⟩

/-- Off-diagonal entries of row `i`. -/
def offLen (pl : List (ℕ × (ℕ × ℕ))) (i : ℕ) : ℕ := ((sel pl i).filter fun x => decide (x.1 ≠ i)).length

theorem offLen_append (a b : List (ℕ × (ℕ × ℕ))) (i : ℕ) : offLen (a ++ b) i = offLen a i + offLen b i := by
  simp [offLen, sel_append]

/-! ## Counting -/

theorem incLoop (n : ℕ) (l : List (ℕ × ℕ)) (hl : ∀ ab ∈ l, ab.1 < n) (s : (ℕ → ℕ) × ℕ) :
    let s' := l.foldl (fun (s : (ℕ → ℕ) × ℕ) ab => (inc s.1 (ab.1 + 1), s.2 + 1)) s
    s'.1 0 = s.1 0 ∧ (∀ i, s'.1 (i + 1) = s.1 (i + 1) + (l.filter fun ab => ab.1 == i).length) ∧
      (s.2 = offs (fun i => s.1 (i + 1)) n → s'.2 = offs (fun i => s'.1 (i + 1)) n) := by
  induction l generalizing s with
  | nil => exact ⟨rfl, fun i => by simp, fun h => h⟩
  | cons ab l ih =>
    have ha := hl ab (by simp)
    obtain ⟨h1, h2, h3⟩ := ih (fun x hx => hl x (by simp [hx])) (inc s.1 (ab.1 + 1), s.2 + 1)
    simp only at h1 h2 h3
    refine ⟨?_, fun i => ?_, fun h => ?_⟩
    · rw [List.foldl_cons, h1]; simp [inc, wr]
    · rw [List.foldl_cons, h2]
      by_cases hi : ab.1 = i
      · subst hi; simp [inc]; omega
      · simp only [inc]
        rw [wr_ne _ _ (by omega), List.filter_cons_of_neg (by simpa using hi)]
    · rw [List.foldl_cons]
      refine h3 ?_
      rw [h]
      unfold offs
      rw [← Finset.sum_erase_add _ _ (Finset.mem_range.mpr ha),
        ← Finset.sum_erase_add (Finset.range n) _ (Finset.mem_range.mpr ha)]
      have : ∀ x ∈ (Finset.range n).erase ab.1, inc s.1 (ab.1 + 1) (x + 1) = s.1 (x + 1) := by
        intro x hx
        have := Finset.ne_of_mem_erase hx
        exact wr_ne _ _ (by omega)
      rw [Finset.sum_congr rfl this]
      simp only [inc, wr_same]
      omega

theorem offLen_off (l : List (ℕ × ℕ)) (hl : ∀ ab ∈ l, ab.1 ≠ ab.2) (k i : ℕ) :
    offLen (l.map fun ab => (ab.1, (ab.2, k))) i = (l.filter fun ab => ab.1 == i).length := by
  induction l with
  | nil => rfl
  | cons ab l ih =>
    have := ih fun x hx => hl x (by simp [hx])
    rw [List.map_cons, show (ab.1, (ab.2, k)) :: l.map (fun ab => (ab.1, (ab.2, k)))
      = [(ab.1, (ab.2, k))] ++ l.map (fun ab => (ab.1, (ab.2, k))) from rfl, offLen_append, this]
    have hab := hl ab (by simp)
    by_cases hi : ab.1 = i
    · subst hi
      have : offLen [(ab.1, (ab.2, k))] ab.1 = 1 := by simp [offLen, sel, Ne.symm hab]
      rw [this]; simp; omega
    · have : offLen [(ab.1, (ab.2, k))] i = 0 := by simp [offLen, sel, hi]
      rw [this, List.filter_cons_of_neg (by simpa using hi)]; omega

theorem count_spec (tg : ℕ → ℕ → List (ℕ × ℕ)) (n : ℕ) (hg : GoodTg tg n) (l : List ((ℕ × ℕ) × ℕ))
    (hl : ∀ e ∈ l, e.1.1 < n ∧ e.1.2 < n) :
    ∃ s, l.foldlM (fun s e => countSym tg n s e.1) ((fun _ => 0, 0) : (ℕ → ℕ) × ℕ) = some s ∧
      s.1 0 = 0 ∧ (∀ i, s.1 (i + 1) = offLen (plOf tg l) i) ∧ s.2 = offs (fun i => s.1 (i + 1)) n := by
  refine foldlM_prefix (fun pre (s : (ℕ → ℕ) × ℕ) => s.1 0 = 0 ∧
    (∀ i, s.1 (i + 1) = offLen (plOf tg pre) i) ∧ s.2 = offs (fun i => s.1 (i + 1)) n) _ l _ ?_ ?_
  · refine ⟨rfl, fun i => rfl, ?_⟩
    simp [offs]
  · rintro pre ⟨⟨r, c⟩, k⟩ suf s e ⟨h1, h2, h3⟩
    obtain ⟨hr, hc⟩ := hl ((r, c), k) (by rw [e]; simp)
    simp only at hr hc
    have hpl : plOf tg (pre ++ [((r, c), k)])
        = plOf tg pre ++ (tgt tg (r, c)).map fun ab => (ab.1, (ab.2, k)) := by
      simp [plOf]
    by_cases hrc : r = c
    · refine ⟨s, by simp [countSym, hrc], h1, fun i => ?_, h3⟩
      rw [hpl, offLen_append, ← h2]
      subst hrc
      by_cases hi : r = i
      · subst hi; simp [tgt, offLen, sel]
      · simp [tgt, offLen, sel, hi]
    · have hgood := hg r c hrc hr hc
      obtain ⟨g1, g2, g3⟩ := incLoop n (tg r c) (fun ab h => (hgood ab h).2.1) s
      refine ⟨_, by simp only [countSym]; rw [if_neg hrc, if_pos ⟨hr, hc⟩], ?_, fun i => ?_, ?_⟩
      · exact g1.trans h1
      · rw [g2, h2, hpl, offLen_append]
        simp only [tgt, if_neg hrc]
        rw [offLen_off _ (fun ab h => (hgood ab h).1)]
      · exact g3 h3

theorem addDiag_spec (n : ℕ) (s : (ℕ → ℕ) × ℕ) (h3 : s.2 = offs (fun i => s.1 (i + 1)) n) :
    let s' := (List.range n).foldl (fun (s : (ℕ → ℕ) × ℕ) i => (inc s.1 (i + 1), s.2 + 1)) s
    s'.1 0 = s.1 0 ∧ (∀ i < n, s'.1 (i + 1) = s.1 (i + 1) + 1) ∧ s'.2 = offs (fun i => s'.1 (i + 1)) n := by
  have key := incLoop n ((List.range n).map fun i => (i, i)) (by simp) s
  simp only [List.foldl_map] at key
  refine ⟨key.1, fun i hi => ?_, key.2.2 h3⟩
  rw [key.2.1 i]
  congr 1
  rw [List.filter_map, List.length_map]
  have : (List.range n).filter ((fun ab : ℕ × ℕ => ab.1 == i) ∘ fun i => (i, i))
      = (List.range n).filter (fun x => x == i) := rfl
  rw [this]
  have hn : ((List.range n).filter fun x => x == i).length = (List.range n).count i := by
    rw [List.count_eq_length_filter]
  rw [hn, List.count_eq_one_of_mem (List.nodup_range) (by simpa using hi)]

/-! ## Filling -/

theorem fillSym_eq (tg : ℕ → ℕ → List (ℕ × ℕ)) (n nnz nz : ℕ) (hg : GoodTg tg n) (ptr : ℕ → ℕ)
    (M : ℕ → K) (s : Fill K) (e : (ℕ × ℕ) × ℕ) (he : e.1.1 < n ∧ e.1.2 < n) :
    fillSym tg n nnz nz ptr M s e = ((tgt tg e.1).map fun ab => (ab.1, (ab.2, e.2))).foldlM
      (stepP n nnz ptr (fun i => some (nz - n + i)) M) s := by
  obtain ⟨⟨r, c⟩, k⟩ := e
  simp only at he ⊢
  unfold fillSym tgt
  by_cases hrc : r = c
  · subst hrc
    simp [stepP]
  · simp only [if_neg hrc]
    rw [foldlM_map]
    refine foldlM_congr _ (fun ab hab s => ?_) s
    have := (hg r c hrc he.1 he.2 ab hab).1
    simp only [putOff, stepP, if_neg this]

theorem sel_plOf (tg : ℕ → ℕ → List (ℕ × ℕ)) (l : List ((ℕ × ℕ) × ℕ)) (i : ℕ) :
    sel (plOf tg l) i = l.flatMap fun e => ((tgt tg e.1).filter fun ab => ab.1 == i).map fun ab => (ab.2, e.2) := by
  unfold plOf
  induction l with
  | nil => rfl
  | cons e l ih =>
    rw [List.flatMap_cons, List.flatMap_cons, sel_append, ih]
    congr 1
    simp only [sel, List.filter_map, List.map_map]
    rfl

theorem oneDiag_plOf (tg : ℕ → ℕ → List (ℕ × ℕ)) (n : ℕ) (hg : GoodTg tg n) (l : List ((ℕ × ℕ) × ℕ))
    (hl : ∀ e ∈ l, e.1.1 < n ∧ e.1.2 < n) (hd : l.Pairwise fun a b => a.1.1 = a.1.2 → a.1 ≠ b.1)
    (i : ℕ) : OneDiag i (sel (plOf tg l) i) := by
  have hmem : ∀ e ∈ l, ∀ x ∈ ((tgt tg e.1).filter fun ab => ab.1 == i).map (fun ab => (ab.2, e.2)),
      x.1 = i → e.1 = (i, i) := by
    rintro ⟨⟨r, c⟩, k⟩ he x hx hxi
    simp only [List.mem_map, List.mem_filter, beq_iff_eq] at hx
    obtain ⟨ab, ⟨hab, hi⟩, rfl⟩ := hx
    simp only at hxi
    unfold tgt at hab
    simp only at hab
    split_ifs at hab with hrc
    · simp only [List.mem_singleton] at hab
      subst hab
      simp only at hi hxi
      rw [hi, hxi]
    · have := (hg r c hrc (hl _ he).1 (hl _ he).2 ab hab).1
      exact absurd (hi.trans hxi.symm) this
  unfold OneDiag
  rw [sel_plOf, List.pairwise_flatMap]
  refine ⟨?_, ?_⟩
  · rintro ⟨⟨r, c⟩, k⟩ he
    by_cases hrc : r = c
    · subst hrc
      simp only [tgt, if_true]
      by_cases hi : r = i
      · subst hi; simp
      · simp [hi]
    · have : ∀ x ∈ ((tgt tg (r, c)).filter fun ab => ab.1 == i).map (fun ab => (ab.2, k)), x.1 ≠ i := by
        intro x hx hxi
        have := hmem _ he x hx hxi
        simp only [Prod.mk.injEq] at this
        exact hrc (this.1.trans this.2.symm)
      exact List.pairwise_of_forall_mem_list fun a ha b _ h => this a ha h.1
  · refine hd.imp_of_mem ?_
    intro a b ha hb h x hx y hy hxy
    have h1 := hmem a ha x hx hxy.1
    have h2 := hmem b hb y hy hxy.2
    exact h (by rw [h1]) (h1.trans h2.symm)

theorem oneDiag_length {i : ℕ} {R : List (ℕ × ℕ)} (h : OneDiag i R) :
    R.length = (R.filter fun x => decide (x.1 ≠ i)).length + (if ∃ x ∈ R, x.1 = i then 1 else 0) := by
  induction R with
  | nil => simp
  | cons a R ih =>
    rw [OneDiag, List.pairwise_cons] at h
    have hih := ih h.2
    by_cases ha : a.1 = i
    · have hno : ¬ ∃ x ∈ R, x.1 = i := by rintro ⟨x, hx, e⟩; exact h.1 x hx ⟨ha, e⟩
      rw [if_neg hno] at hih
      rw [List.filter_cons_of_neg (by simpa using ha), if_pos ⟨a, by simp, ha⟩, List.length_cons, hih]
    · rw [List.filter_cons_of_pos (by simpa using ha), List.length_cons, List.length_cons, hih]
      have : (∃ x ∈ a :: R, x.1 = i) ↔ ∃ x ∈ R, x.1 = i := by simp [ha]
      simp only [this]
      omega

/-! ## The rows of the result -/

/-- Row `i` of the result: either the stored entries contain the diagonal, which receives the further
value, or the additional diagonal entry is stored and the row sorted. -/
structure FinRow (nz n : ℕ) (ptr : ℕ → ℕ) (S : List (ℕ × ℕ)) (i : ℕ) (R : List (ℕ × ℕ)) (d : Option ℕ) :
    Prop where
  row : (∃ x ∈ S, x.1 = i) ∧ R = S ∨ (∀ x ∈ S, x.1 ≠ i) ∧ R.Perm (S ++ [(i, nz - n + i)]) ∧
    (R.map Prod.fst).Pairwise (· ≤ ·)
  diag : ∀ t (h : t < R.length), d = some (ptr i + t) ↔ (∃ x ∈ S, x.1 = i) ∧ R[t].1 = i
  diagLt : ∀ p, d = some p → ∃ t < R.length, p = ptr i + t

open Classical in
/-- The further value of an entry of row `i`. -/
noncomputable def extraW (M : ℕ → K) (nz n : ℕ) (S : List (ℕ × ℕ)) (i : ℕ) (x : ℕ × ℕ) : K :=
  if ∃ x ∈ S, x.1 = i then onDiag (M (nz - n + i)) i x else 0

theorem finRow_present {nz n : ℕ} {ptr : ℕ → ℕ} {S : List (ℕ × ℕ)} {i : ℕ} {d : Option ℕ}
    (hx : ∃ x ∈ S, x.1 = i)
    (hd : DiagIs ptr (fun i => some (nz - n + i)) i S d) : FinRow nz n ptr S i S d := by
  refine ⟨.inl ⟨hx, rfl⟩, fun t ht => ⟨fun h => ⟨hx, ?_⟩, fun h => ?_⟩, fun p hp => ?_⟩
  · obtain ⟨x, hxS, hxi⟩ := hx
    obtain ⟨u, hu, rfl⟩ := List.getElem_of_mem hxS
    have := hd.1 u hu hxi
    rw [h] at this
    simp only [Option.map_some, Option.some.injEq, Nat.add_left_cancel_iff] at this
    subst this; exact hxi
  · exact hd.1 t ht h.2
  · obtain ⟨x, hxS, hxi⟩ := hx
    obtain ⟨u, hu, rfl⟩ := List.getElem_of_mem hxS
    have := hd.1 u hu hxi
    rw [hp] at this
    exact ⟨u, hu, by simpa using this⟩

theorem sum_finRow {nz n : ℕ} {ptr : ℕ → ℕ} {S R : List (ℕ × ℕ)} {i : ℕ} {d : Option ℕ}
    (hone : OneDiag i S) (h : FinRow nz n ptr S i R d) (M : ℕ → K) (j : ℕ) :
    (R.map fun x => if x.1 = j then M x.2 + extraW M nz n S i x else 0).sum
      = (S.map fun x => if x.1 = j then M x.2 else 0).sum + if i = j then M (nz - n + i) else 0 := by
  rcases h.row with ⟨hx, rfl⟩ | ⟨hx, hp, -⟩
  · have hw : ∀ x : ℕ × ℕ, extraW M nz n R i x = onDiag (M (nz - n + i)) i x := fun x => by
      unfold extraW; rw [if_pos hx]
    simp only [hw]
    have : ∀ Q : List (ℕ × ℕ), OneDiag i Q →
        (Q.map fun x => if x.1 = j then M x.2 + onDiag (M (nz - n + i)) i x else 0).sum
        = (Q.map fun x => if x.1 = j then M x.2 else 0).sum
          + if (∃ x ∈ Q, x.1 = i) ∧ i = j then M (nz - n + i) else 0 := by
      intro Q hQ
      induction Q with
      | nil => simp
      | cons a Q ih =>
        rw [OneDiag, List.pairwise_cons] at hQ
        rw [List.map_cons, List.sum_cons, ih hQ.2, List.map_cons, List.sum_cons]
        by_cases ha : a.1 = i
        · have hno : ¬ ((∃ x ∈ Q, x.1 = i) ∧ i = j) := by
            rintro ⟨⟨x, hx, e⟩, -⟩; exact hQ.1 x hx ⟨ha, e⟩
          rw [if_neg hno]
          by_cases hij : i = j
          · rw [if_pos (ha.trans hij), if_pos (ha.trans hij), if_pos ⟨⟨a, by simp, ha⟩, hij⟩]
            simp only [onDiag, ha, if_true]; ring
          · rw [if_neg (fun h => hij (ha.symm.trans h)), if_neg (fun h => hij (ha.symm.trans h)),
              if_neg (fun h => hij h.2)]
            ring
        · have hex : (∃ x ∈ a :: Q, x.1 = i) ↔ ∃ x ∈ Q, x.1 = i := by simp [ha]
          simp only [hex, onDiag, if_neg ha, add_zero]
          ring
    rw [this R hone]
    simp only [hx, true_and]
  · have hno : ¬ ∃ x ∈ S, x.1 = i := by rintro ⟨x, h, e⟩; exact hx x h e
    have hw : ∀ x : ℕ × ℕ, extraW M nz n S i x = 0 := fun x => by unfold extraW; rw [if_neg hno]
    simp only [hw, add_zero]
    rw [(hp.map _).sum_eq, List.map_append, List.sum_append]
    simp

/-- The pattern part of the result does not depend on the values. -/
structure SymOk (n nz : ℕ) (pl : List (ℕ × (ℕ × ℕ))) (C : Conv K) (R : ℕ → List (ℕ × ℕ)) : Prop where
  nrows : C.A.nrows = n
  csr : C.A = mkCsr n C.A.nnz C.A.ptr C.A.col C.A.val
  ptrs : Ptrs n C.A.nnz C.A.ptr fun i => offLen pl i + 1
  len : ∀ i < n, (R i).length = offLen pl i + 1
  rows : ∀ i < n, FinRow nz n C.A.ptr (sel pl i) i (R i) (C.diag i)
  cols : ∀ i < n, ∀ t (h : t < (R i).length), C.A.col (C.A.ptr i + t) = (R i)[t].1 ∧
    C.idx (C.A.ptr i + t) = (R i)[t].2

theorem zipIdx_fst {α : Type*} (l : List α) (k : ℕ) : (l.zipIdx k).map Prod.fst = l := by
  simp

open Classical in
theorem convSym_spec (tg : ℕ → ℕ → List (ℕ × ℕ)) {srt : SortFn} (hs : Sorts srt) (n : ℕ)
    (hg : GoodTg tg n) (body : List (ℕ × ℕ)) (tail : List (ℕ × ℕ)) (ht : tail.length = n)
    (hr : ∀ e ∈ body, e.1 < n ∧ e.2 < n) (hd : body.Pairwise fun a b => a.1 = a.2 → a ≠ b)
    (M : ℕ → K) (g : ℕ → ℕ) :
    ∃ C R, convSym tg srt n (body ++ tail) M g = some C ∧
      SymOk n (body.length + n) (plOf tg body.zipIdx) C R ∧
      ∀ i < n, RowIs C.A.ptr M (extraW M (body.length + n) n (sel (plOf tg body.zipIdx) i) i) i (R i)
        C.A.col C.idx C.A.val := by
  have hl : ∀ e ∈ body.zipIdx, e.1.1 < n ∧ e.1.2 < n := fun e he => hr e.1 (by
    have := List.mem_map_of_mem (f := Prod.fst) he
    rwa [zipIdx_fst] at this)
  have hd' : body.zipIdx.Pairwise fun a b => a.1.1 = a.1.2 → a.1 ≠ b.1 := by
    have := hd; rw [← zipIdx_fst body 0, List.pairwise_map] at this; exact this
  set pl := plOf tg body.zipIdx with hpl
  set nz := body.length + n with hnz
  have hnz' : (body ++ tail).length = nz := by simp [ht, hnz]
  have htake : (body ++ tail).take (nz - n) = body := by rw [hnz, Nat.add_sub_cancel]; simp
  obtain ⟨s, e1, e2, e3, e4⟩ := count_spec tg n hg body.zipIdx hl
  rw [← hpl] at e3
  have e1' : body.foldlM (countSym tg n) ((fun _ => 0, 0) : (ℕ → ℕ) × ℕ) = some s := by
    rw [← e1]
    conv_lhs => rw [← zipIdx_fst body 0]
    rw [foldlM_map]
  obtain ⟨d1, d2, d3⟩ := addDiag_spec n s e4
  set s' := (List.range n).foldl (fun (s : (ℕ → ℕ) × ℕ) i => (inc s.1 (i + 1), s.2 + 1)) s with hs'
  set ptr := accumulate n s'.1 with hptr
  have hP : Ptrs n s'.2 ptr fun i => offLen pl i + 1 := by
    have hacc := accumulate_spec n s'.1 (d1.trans e2)
    have hcong : ∀ i ≤ n, offs (fun t => s'.1 (t + 1)) i = offs (fun t => offLen pl t + 1) i :=
      fun i hi => offs_congr i fun t ht => by rw [d2 t (by omega), e3]
    exact ⟨fun i hi => by rw [hptr, hacc i hi, hcong i hi], by rw [d3, hcong n le_rfl]⟩
  have hone : ∀ i < n, OneDiag i (sel pl i) := fun i _ => oneDiag_plOf tg n hg _ hl hd' i
  have hlenS : ∀ i < n, (sel pl i).length
      = offLen pl i + (if ∃ x ∈ sel pl i, x.1 = i then 1 else 0) := fun i hi => oneDiag_length (hone i hi)
  have hplr : ∀ e ∈ pl, e.1 < n := by
    intro e he
    rw [hpl, plOf, List.mem_flatMap] at he
    obtain ⟨⟨⟨r, c⟩, k⟩, hx, he⟩ := he
    rw [List.mem_map] at he
    obtain ⟨ab, hab, rfl⟩ := he
    simp only [tgt] at hab
    split_ifs at hab with hrc
    · simp only [List.mem_singleton] at hab; subst hab; exact (hl _ hx).1
    · exact (hg r c hrc (hl _ hx).1 (hl _ hx).2 ab hab).2.1
  obtain ⟨f, f1, f2⟩ := fill_spec n s'.2 ptr _ hP (fun i => some (nz - n + i)) M pl hplr
    (fun i hi => by rw [hlenS i hi]; split_ifs <;> omega) hone
    { cnt := fun _ => 0, col := fun _ => 0, idx := g, val := fun _ => 0, diag := fun _ => none } rfl rfl
  have f1' : body.zipIdx.foldlM (fillSym tg n s'.2 nz ptr M)
      { cnt := fun _ => 0, col := fun _ => 0, idx := g, val := fun _ => 0, diag := fun _ => none } = some f := by
    rw [← f1, hpl, plOf, foldlM_flatMap]
    exact foldlM_congr _ (fun e he s => fillSym_eq tg n s'.2 nz hg ptr M s e (hl e he)) _
  -- the last pass
  obtain ⟨f', g1, g2, g3⟩ := foldlM_range
    (fun k (f' : Fill K) =>
      (∀ i, k ≤ i → i < n → f'.cnt i = (sel pl i).length ∧
        RowIs ptr M (onDiag (exv M (fun i => some (nz - n + i)) i) i) i (sel pl i) f'.col f'.idx f'.val ∧
        DiagIs ptr (fun i => some (nz - n + i)) i (sel pl i) (f'.diag i)) ∧
      ∀ i < k, i < n → ∃ R, R.length = offLen pl i + 1 ∧ FinRow nz n ptr (sel pl i) i R (f'.diag i) ∧
        RowIs ptr M (extraW M nz n (sel pl i) i) i R f'.col f'.idx f'.val)
    (fixRow srt n s'.2 nz ptr M) n f
    ⟨fun i _ hi => f2 i hi, fun i hi => by omega⟩ (by
      rintro k f' hk ⟨q1, q2⟩
      obtain ⟨p1, p2, p3⟩ := q1 k le_rfl hk
      have hsz : ptr (k + 1) - ptr k = offLen pl k + 1 := by rw [hP.succ hk]; omega
      have hLS := hlenS k hk
      by_cases hx : ∃ x ∈ sel pl k, x.1 = k
      · rw [if_pos hx] at hLS
        refine ⟨f', by unfold fixRow; rw [if_pos (by rw [p1, hsz, hLS])],
          fun i hi hin => q1 i (by omega) hin, fun i hi hin => ?_⟩
        rcases Nat.lt_or_ge i k with h' | h'
        · exact q2 i h' hin
        · have : i = k := by omega
          subst this
          refine ⟨sel pl i, hLS, finRow_present hx p3, fun t ht => ?_⟩
          obtain ⟨r1, r2, r3⟩ := p2 t ht
          refine ⟨r1, r2, ?_⟩
          rw [r3]
          unfold extraW
          rw [if_pos hx]
          rfl
      · rw [if_neg hx] at hLS
        have hno : ∀ x ∈ sel pl k, x.1 ≠ k := fun x h e => hx ⟨x, h, e⟩
        have hdn : f'.diag k = none := p3.2 hno
        have hpos : f'.cnt k + ptr k < s'.2 := by have := hP.le hk; omega
        set f1 : Fill K := { f' with
          col := wr f'.col (f'.cnt k + ptr k) k, val := wr f'.val (f'.cnt k + ptr k) (M (nz - n + k))
          idx := wr f'.idx (f'.cnt k + ptr k) (nz - n + k) } with hf1
        have hRow : RowIs ptr M (fun _ => (0 : K)) k (sel pl k ++ [(k, nz - n + k)]) f1.col f1.idx f1.val := by
          intro t ht
          simp only [hf1]
          rcases Nat.lt_or_ge t (sel pl k).length with h' | h'
          · obtain ⟨r1, r2, r3⟩ := p2 t h'
            rw [wr_ne _ _ (by omega), wr_ne _ _ (by omega), wr_ne _ _ (by omega), r1, r2, r3]
            simp only [List.getElem_append_left h', true_and]
            simp only [onDiag, if_neg (hno _ (List.getElem_mem h'))]
          · have : t = (sel pl k).length := by simp at ht; omega
            subst this
            rw [show f'.cnt k + ptr k = ptr k + (sel pl k).length by omega]
            simp
        obtain ⟨R, -, R2, R3, R4⟩ := sortRow_spec hs hP hk M (fun _ => (0 : K)) _
          (by simp only [List.length_append, List.length_singleton]; omega) f1 hRow
        have hRlen : R.length = offLen pl k + 1 := by
          rw [R2.length_eq]; simp only [List.length_append, List.length_singleton]; omega
        refine ⟨sortRow srt ptr k f1, ?_, fun i hi hin => ?_, fun i hi hin => ?_⟩
        · unfold fixRow
          rw [if_neg (by omega), if_pos (by omega),
            put_eq _ _ _ _ _ _ _ _ hk hpos]
          rfl
        · obtain ⟨a1, a2, a3⟩ := q1 i (by omega) hin
          refine ⟨a1, a2.congr fun t ht => ?_, a3⟩
          have hti : t < offLen pl i + 1 := by
            have := hlenS i hin; split_ifs at this <;> omega
          have hfr := sortRow_frame hs hP hk hin (by omega) f1 hti
          have hne : ptr i + t ≠ f'.cnt k + ptr k := fun h =>
            absurd (hP.disj hin hk (s := t) (t := f'.cnt k) hti (by omega) (by omega)).1 (by omega)
          rw [hfr.1, hfr.2.1, hfr.2.2]
          simp only [hf1]
          rw [wr_ne _ _ hne, wr_ne _ _ hne, wr_ne _ _ hne]
          exact ⟨rfl, rfl, rfl⟩
        · rcases Nat.lt_or_ge i k with h' | h'
          · obtain ⟨Ri, a1, a2, a3⟩ := q2 i h' hin
            refine ⟨Ri, a1, a2, a3.congr fun t ht => ?_⟩
            have hfr := sortRow_frame hs hP hk hin (by omega) f1 (t := t) (by omega)
            have hne : ptr i + t ≠ f'.cnt k + ptr k := fun h =>
              absurd (hP.disj hin hk (s := t) (t := f'.cnt k) (by omega) (by omega) (by omega)).1 (by omega)
            rw [hfr.1, hfr.2.1, hfr.2.2]
            simp only [hf1]
            rw [wr_ne _ _ hne, wr_ne _ _ hne, wr_ne _ _ hne]
            exact ⟨rfl, rfl, rfl⟩
          · have : i = k := by omega
            subst this
            refine ⟨R, hRlen, ⟨.inr ⟨hno, R2, R3⟩, fun t ht => ⟨fun h => ?_, fun h => absurd h.1 hx⟩,
              fun p hp => ?_⟩, fun t ht => ?_⟩
            · simp only [sortRow, hf1, hdn] at h; cases h
            · simp only [sortRow, hf1, hdn] at hp; cases hp
            · obtain ⟨b1, b2, b3⟩ := R4 t ht
              refine ⟨b1, b2, ?_⟩
              rw [b3]; unfold extraW; rw [if_neg hx])
  have g3' : ∀ i, ∃ R, i < n → R.length = offLen pl i + 1 ∧ FinRow nz n ptr (sel pl i) i R (f'.diag i) ∧
        RowIs ptr M (extraW M nz n (sel pl i) i) i R f'.col f'.idx f'.val := fun i => by
    by_cases hi : i < n
    · obtain ⟨R, h⟩ := g3 i hi hi; exact ⟨R, fun _ => h⟩
    · exact ⟨[], fun h => absurd h hi⟩
  choose R hR using g3'
  refine ⟨{ A := mkCsr n s'.2 ptr f'.col f'.val, idx := f'.idx, diag := f'.diag }, R, ?_, ?_, ?_⟩
  · unfold convSym
    simp only [hnz', htake, e1', Option.bind_some]
    rw [if_pos (by rw [← hs', ← hptr, hP.ptr n le_rfl]; exact hP.nnz)]
    rw [← hs', ← hptr, f1', Option.bind_some, g1]
    rfl
  · exact ⟨rfl, rfl, hP, fun i hi => (hR i hi).1, fun i hi => (hR i hi).2.1,
      fun i hi t ht => ⟨((hR i hi).2.2 t ht).1, ((hR i hi).2.2 t ht).2.1⟩⟩
  · exact fun i hi => (hR i hi).2.2

/-! ## Refreshing the values -/

theorem diagLoop (n : ℕ) (diag : ℕ → Option ℕ) (x : ℕ → K) (v0 : ℕ → K) (p : ℕ) :
    (List.range n).foldl (fun (v : ℕ → K) i => match diag i with
      | some p => wr v p (v p + x i)
      | none => v) v0 p = v0 p + ∑ i ∈ Finset.range n, if diag i = some p then x i else 0 := by
  refine foldl_range (fun k (v : ℕ → K) => v p = v0 p + ∑ i ∈ Finset.range k,
    if diag i = some p then x i else 0) _ n v0 (by simp) fun k v _ h => ?_
  rw [Finset.sum_range_succ]
  cases hd : diag k with
  | none => simp [h]
  | some q =>
    by_cases hq : q = p
    · subst hq; simp [h]; ring
    · simp only [Option.some.injEq, hq, if_false, add_zero]
      rw [wr_ne _ _ (Ne.symm hq), h]

theorem copyLoop (nnz : ℕ) (f : ℕ → K) (v0 : ℕ → K) : ∀ p < nnz,
    (List.range nnz).foldl (fun (v : ℕ → K) k => wr v k (f k)) v0 p = f p := by
  refine foldl_range (fun k (v : ℕ → K) => ∀ p < k, v p = f p) _ nnz v0 (fun p hp => by omega)
    fun k v _ h p hp => ?_
  rcases Nat.lt_or_ge p k with h' | h'
  · rw [wr_ne _ _ (by omega)]; exact h p h'
  · have : p = k := by omega
    subst this; rw [wr_same]

theorem refreshSym_spec (n nz : ℕ) (pl : List (ℕ × (ℕ × ℕ))) (C : Conv K) (R : ℕ → List (ℕ × ℕ))
    (h : SymOk n nz pl C R) (M : ℕ → K) :
    SymOk n nz pl (refreshSym n nz M C) R ∧
    ∀ i < n, RowIs C.A.ptr M (extraW M nz n (sel pl i) i) i (R i) C.A.col C.idx
      (refreshSym n nz M C).A.val := by
  refine ⟨⟨h.nrows, ?_, h.ptrs, h.len, h.rows, h.cols⟩, fun i hi t ht => ?_⟩
  · have := h.csr
    simp only [refreshSym]
    conv_lhs => rw [this]
    rfl
  · obtain ⟨c1, c2⟩ := h.cols i hi t ht
    refine ⟨c1, c2, ?_⟩
    have hp : C.A.ptr i + t < C.A.nnz := by
      have := h.ptrs.le hi; rw [h.len i hi] at ht; omega
    simp only [refreshSym]
    refine (diagLoop n C.diag (fun i => M (nz - n + i)) _ _).trans ?_
    rw [copyLoop _ _ _ _ hp, c2]
    congr 1
    rw [Finset.sum_eq_single i]
    · unfold extraW onDiag
      by_cases hx : ∃ x ∈ sel pl i, x.1 = i
      · rw [if_pos hx]
        by_cases hti : (R i)[t].1 = i
        · rw [if_pos hti, if_pos (((h.rows i hi).diag t ht).mpr ⟨hx, hti⟩)]
        · rw [if_neg hti, if_neg fun hh => hti (((h.rows i hi).diag t ht).mp hh).2]
      · rw [if_neg hx, if_neg fun hh => hx (((h.rows i hi).diag t ht).mp hh).1]
    · intro b hb hbi
      rw [Finset.mem_range] at hb
      refine if_neg fun hh => hbi ?_
      obtain ⟨u, hu, hpu⟩ := (h.rows b hb).diagLt _ hh
      rw [h.len b hb] at hu
      rw [h.len i hi] at ht
      exact (h.ptrs.disj hb hi hu ht hpu.symm).1
    · intro hn; exact absurd (Finset.mem_range.mpr hi) hn

/-- The dense matrix of the result. -/
theorem SymOk.get {n nz : ℕ} {pl : List (ℕ × (ℕ × ℕ))} {C : Conv K} {R : ℕ → List (ℕ × ℕ)}
    (h : SymOk n nz pl C R) {M : ℕ → K} {i : ℕ} (hi : i < n) (hone : OneDiag i (sel pl i))
    (hrow : RowIs C.A.ptr M (extraW M nz n (sel pl i) i) i (R i) C.A.col C.idx C.A.val) (j : ℕ) :
    get C.A i j = ((sel pl i).map fun x => if x.1 = j then M x.2 else 0).sum
      + if i = j then M (nz - n + i) else 0 := by
  rw [h.csr, RowIs.get h.ptrs hi (h.len i hi) hrow, sum_finRow hone (h.rows i hi)]

end Hiop.Lin
