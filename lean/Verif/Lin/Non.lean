import Verif.Lin.Sym

/-! # The nonsymmetric conversion -/

set_option linter.unusedSectionVars false

namespace Hiop.Lin

open Hiop.Csr Hiop.Sparse

variable {K : Type*} [Field K] [LinearOrder K]

/-- The places in storage of the diagonal triplets of row `r`. -/
def diags (l : List ((ℕ × ℕ) × ℕ)) (r : ℕ) : List ℕ := (l.filter fun e => decide (e.1 = (r, r))).map Prod.snd

/-- Off the diagonal, or the first diagonal triplet of the row. -/
def keep (l : List ((ℕ × ℕ) × ℕ)) (e : (ℕ × ℕ) × ℕ) : Bool :=
  decide (e.1.1 ≠ e.1.2 ∨ (diags l e.1.1).head? = some e.2)

/-- The stored entries. -/
def plN (l sub : List ((ℕ × ℕ) × ℕ)) : List (ℕ × (ℕ × ℕ)) :=
  (sub.filter (keep l)).map fun e => (e.1.1, (e.1.2, e.2))

theorem diags_append (a b : List ((ℕ × ℕ) × ℕ)) (r : ℕ) : diags (a ++ b) r = diags a r ++ diags b r := by
  simp [diags]

theorem plN_append (l a b : List ((ℕ × ℕ) × ℕ)) : plN l (a ++ b) = plN l a ++ plN l b := by
  simp [plN]

theorem diags_single_off (r c k i : ℕ) (h : r ≠ c) : diags [((r, c), k)] i = [] := by
  have : ¬ (r = i ∧ c = i) := fun hh => h (hh.1.trans hh.2.symm)
  simp [diags, this]

theorem diags_single_ne (r k i : ℕ) (h : r ≠ i) : diags [((r, r), k)] i = [] := by simp [diags, h]

theorem diags_single (r k : ℕ) : diags [((r, r), k)] r = [k] := by simp [diags]

theorem keep_diag {l pre suf : List ((ℕ × ℕ) × ℕ)} {r k : ℕ} (hl : (l.map Prod.snd).Nodup)
    (e : l = pre ++ ((r, r), k) :: suf) : keep l ((r, r), k) = true ↔ diags pre r = [] := by
  have hd : diags l r = diags pre r ++ k :: diags suf r := by
    rw [e, show pre ++ ((r, r), k) :: suf = pre ++ ([((r, r), k)] ++ suf) by simp, diags_append,
      diags_append, diags_single]; rfl
  simp only [keep, ne_eq, not_true_eq_false, false_or, decide_eq_true_eq]
  rw [hd]
  cases hp : diags pre r with
  | nil => simp
  | cons a t =>
    simp only [List.cons_append, List.head?_cons, Option.some.injEq, reduceCtorEq, iff_false]
    intro hak
    have ha : a ∈ pre.map Prod.snd := by
      have : a ∈ diags pre r := by rw [hp]; simp
      simp only [diags, List.mem_map, List.mem_filter] at this
      obtain ⟨x, ⟨hx, -⟩, rfl⟩ := this
      exact List.mem_map_of_mem hx
    rw [e, List.map_append, List.nodup_append] at hl
    exact hl.2.2 a ha k (by simp) hak

theorem keep_off {l : List ((ℕ × ℕ) × ℕ)} {r c k : ℕ} (h : r ≠ c) : keep l ((r, c), k) = true := by
  simp [keep, h]

/-- What the first pass computes. -/
structure CountOk (n : ℕ) (l pre : List ((ℕ × ℕ) × ℕ)) (c : Count) : Prop where
  first : c.ptr 0 = 0
  ptr : ∀ i, c.ptr (i + 1) = (sel (plN l pre) i).length
  nnz : c.nnz = offs (fun i => c.ptr (i + 1)) n
  seen : ∀ r, c.seen r = (diags pre r).head?
  extra : ∀ r, c.extra r = (diags pre r)[1]?
  total : c.nnz + ∑ i ∈ Finset.range n, (if (c.extra i).isSome then 1 else 0) = pre.length

theorem offs_inc (n r : ℕ) (p : ℕ → ℕ) (hr : r < n) :
    offs (fun i => inc p (r + 1) (i + 1)) n = offs (fun i => p (i + 1)) n + 1 := by
  have := incLoop n [(r, 0)] (by simpa using hr) (p, offs (fun i => p (i + 1)) n)
  exact (this.2.2 rfl).symm

theorem sel_single (a b k i : ℕ) : sel [(a, (b, k))] i = if a = i then [(b, k)] else [] := by
  by_cases h : a = i
  · simp [sel, h]
  · simp [sel, h]

theorem countNon_spec (n : ℕ) (l : List ((ℕ × ℕ) × ℕ)) (hl : (l.map Prod.snd).Nodup)
    (hr : ∀ e ∈ l, e.1.1 < n) (h2 : ∀ r, (diags l r).length ≤ 2) :
    ∃ c, l.foldlM (countNon n)
      { seen := fun _ => none, ptr := fun _ => 0, nnz := 0, extra := fun _ => none } = some c ∧
      CountOk n l l c := by
  refine foldlM_prefix (fun pre c => CountOk n l pre c) (countNon n) l _ ?_ ?_
  · exact ⟨rfl, fun _ => rfl, by simp [offs], fun _ => rfl, fun _ => rfl, by simp⟩
  · rintro pre ⟨⟨r, c⟩, k⟩ suf s e hs
    have hrn : r < n := hr ((r, c), k) (by rw [e]; simp)
    by_cases hrc : r = c
    · subst hrc
      by_cases hd : diags pre r = []
      · have hkeep : keep l ((r, r), k) = true := (keep_diag hl e).mpr hd
        have hpl : plN l (pre ++ [((r, r), k)]) = plN l pre ++ [(r, (r, k))] := by
          rw [plN_append]; simp [plN, hkeep]
        have hseen : s.seen r = none := by rw [hs.seen, hd]; rfl
        refine ⟨{ seen := wr s.seen r (some k), ptr := inc s.ptr (r + 1), nnz := s.nnz + 1, extra := s.extra },
          by simp only [countNon, ne_eq, not_true_eq_false, if_false, hseen, if_true, hrn], ?_⟩
        refine ⟨?_, fun i => ?_, ?_, fun i => ?_, fun i => ?_, ?_⟩
        · simp only [inc]; rw [wr_ne _ _ (by omega)]; exact hs.first
        · simp only [inc]
          rw [hpl, sel_append, sel_single]
          by_cases hi : i = r
          · subst hi; simp [hs.ptr]
          · rw [wr_ne _ _ (by omega), hs.ptr, if_neg (Ne.symm hi)]; simp
        · simp only; rw [offs_inc n r _ hrn, hs.nnz]
        · simp only
          rw [diags_append]
          by_cases hi : i = r
          · subst hi; rw [hd, diags_single]; simp
          · rw [wr_ne _ _ hi, hs.seen, diags_single_ne _ _ _ (Ne.symm hi)]; simp
        · simp only
          rw [diags_append, hs.extra]
          by_cases hi : i = r
          · subst hi; rw [hd, diags_single]; rfl
          · rw [diags_single_ne _ _ _ (Ne.symm hi)]; simp
        · simp only [List.length_append, List.length_singleton]
          have := hs.total; omega
      · have hkeep : keep l ((r, r), k) = false := by
          rw [Bool.eq_false_iff]; exact fun h => hd ((keep_diag hl e).mp h)
        have hpl : plN l (pre ++ [((r, r), k)]) = plN l pre := by
          rw [plN_append]; simp [plN, hkeep]
        obtain ⟨a, ha⟩ : ∃ a, diags pre r = [a] := by
          have h3 := h2 r
          rw [e, show pre ++ ((r, r), k) :: suf = pre ++ ([((r, r), k)] ++ suf) by simp, diags_append,
            diags_append, diags_single] at h3
          match hh : diags pre r with
          | [] => exact absurd hh hd
          | [a] => exact ⟨a, rfl⟩
          | a :: b :: t => rw [hh] at h3; simp at h3
        have hseen : s.seen r = some a := by rw [hs.seen, ha]; rfl
        have hex : s.extra r = none := by rw [hs.extra, ha]; rfl
        refine ⟨{ seen := s.seen, ptr := s.ptr, nnz := s.nnz, extra := wr s.extra r (some k) },
          by simp only [countNon, ne_eq, not_true_eq_false, if_false, hseen, reduceCtorEq, hrn, if_true], ?_⟩
        refine ⟨hs.first, fun i => ?_, hs.nnz, fun i => ?_, fun i => ?_, ?_⟩
        · rw [hpl]; exact hs.ptr i
        · simp only
          rw [diags_append, hs.seen]
          by_cases hi : i = r
          · subst hi; rw [ha]; rfl
          · rw [diags_single_ne _ _ _ (Ne.symm hi)]; simp
        · simp only
          rw [diags_append]
          by_cases hi : i = r
          · subst hi; rw [ha, diags_single]; simp
          · rw [wr_ne _ _ hi, diags_single_ne _ _ _ (Ne.symm hi), hs.extra]; simp
        · simp only [List.length_append, List.length_singleton]
          have htot := hs.total
          rw [← Finset.sum_erase_add _ _ (Finset.mem_range.mpr hrn), hex] at htot
          rw [← Finset.sum_erase_add _ _ (Finset.mem_range.mpr hrn)]
          have hcg : ∀ x ∈ (Finset.range n).erase r,
              (if (wr s.extra r (some k) x).isSome then 1 else 0) = if (s.extra x).isSome then 1 else 0 := by
            intro x hx; rw [wr_ne _ _ (Finset.ne_of_mem_erase hx)]
          rw [Finset.sum_congr rfl hcg]
          simp only [wr_same, Option.isSome_some, if_true]
          simp only [Option.isSome_none, Bool.false_eq_true, if_false] at htot
          omega
    · have hpl : plN l (pre ++ [((r, c), k)]) = plN l pre ++ [(r, (c, k))] := by
        rw [plN_append]; simp [plN, keep_off hrc]
      refine ⟨{ seen := s.seen, ptr := inc s.ptr (r + 1), nnz := s.nnz + 1, extra := s.extra },
        by simp only [countNon, ne_eq, hrc, not_false_eq_true, if_true, hrn], ?_⟩
      refine ⟨?_, fun i => ?_, ?_, fun i => ?_, fun i => ?_, ?_⟩
      · simp only [inc]; rw [wr_ne _ _ (by omega)]; exact hs.first
      · simp only [inc]
        rw [hpl, sel_append, sel_single]
        by_cases hi : i = r
        · subst hi; simp [hs.ptr]
        · rw [wr_ne _ _ (by omega), hs.ptr, if_neg (Ne.symm hi)]; simp
      · simp only; rw [offs_inc n r _ hrn, hs.nnz]
      · simp only; rw [diags_append, diags_single_off _ _ _ _ hrc, List.append_nil]; exact hs.seen i
      · simp only; rw [diags_append, diags_single_off _ _ _ _ hrc, List.append_nil]; exact hs.extra i
      · simp only [List.length_append, List.length_singleton]
        have := hs.total; omega

/-! ## Filling -/

theorem fillNon_fold (n nnz : ℕ) (ptr : ℕ → ℕ) (extra : ℕ → Option ℕ) (M : ℕ → K)
    (l : List ((ℕ × ℕ) × ℕ)) (hl : (l.map Prod.snd).Nodup) (s0 f : Fill K)
    (h : (plN l l).foldlM (stepP n nnz ptr extra M) s0 = some f) :
    ∃ sn, l.foldlM (fillNon n nnz ptr extra M) (fun _ => none, s0) = some (sn, f) := by
  have key : ∀ (suf pre : List ((ℕ × ℕ) × ℕ)) (s : Fill K) (sn : ℕ → Option ℕ), l = pre ++ suf →
      (∀ r, sn r = (diags pre r).head?) → (plN l suf).foldlM (stepP n nnz ptr extra M) s = some f →
      ∃ sn', suf.foldlM (fillNon n nnz ptr extra M) (sn, s) = some (sn', f) := by
    intro suf
    induction suf with
    | nil =>
      intro pre s sn _ _ hf
      simp only [plN, List.filter_nil, List.map_nil, List.foldlM_nil] at hf
      obtain rfl : s = f := Option.some.inj hf
      exact ⟨sn, rfl⟩
    | cons e suf ih =>
      intro pre s sn he hsn hf
      obtain ⟨⟨r, c⟩, k⟩ := e
      have he' : l = (pre ++ [((r, c), k)]) ++ suf := by rw [he]; simp
      have hcons : plN l (((r, c), k) :: suf) = plN l [((r, c), k)] ++ plN l suf := by
        rw [← plN_append]; rfl
      rw [hcons, List.foldlM_append] at hf
      rw [List.foldlM_cons]
      by_cases hrc : r = c
      · subst hrc
        by_cases hd : diags pre r = []
        · have hkeep : keep l ((r, r), k) = true := (keep_diag hl he).mpr hd
          have hpl : plN l [((r, r), k)] = [(r, (r, k))] := by simp [plN, hkeep]
          rw [hpl, List.foldlM_cons] at hf
          simp only [List.foldlM_nil, Option.bind_eq_bind, Option.pure_def, Option.bind_fun_some] at hf
          have hsn' : sn r = none := by rw [hsn, hd]; rfl
          have hstep : fillNon n nnz ptr extra M (sn, s) ((r, r), k)
              = (stepP n nnz ptr extra M s (r, (r, k))).map fun f => (wr sn r (some k), f) := by
            unfold fillNon stepP
            simp only [if_true, hsn']
            cases put n nnz ptr r r (M k) k s with
            | none => rfl
            | some f => rfl
          rw [hstep]
          cases hx : stepP n nnz ptr extra M s (r, (r, k)) with
          | none => rw [hx] at hf; cases hf
          | some s' =>
            rw [hx] at hf
            refine ih _ s' (wr sn r (some k)) he' (fun i => ?_) hf
            rw [diags_append]
            by_cases hi : i = r
            · subst hi; rw [hd, diags_single]; simp
            · rw [wr_ne _ _ hi, hsn, diags_single_ne _ _ _ (Ne.symm hi)]; simp
        · have hkeep : keep l ((r, r), k) = false := by
            rw [Bool.eq_false_iff]; exact fun h => hd ((keep_diag hl he).mp h)
          have hpl : plN l [((r, r), k)] = [] := by simp [plN, hkeep]
          rw [hpl] at hf
          obtain ⟨a, t, hat⟩ := List.exists_cons_of_ne_nil hd
          have hsn' : sn r = some a := by rw [hsn, hat]; rfl
          have hstep : fillNon n nnz ptr extra M (sn, s) ((r, r), k) = some (sn, s) := by
            unfold fillNon
            simp [hsn']
          rw [hstep]
          refine ih _ s sn he' (fun i => ?_) hf
          rw [diags_append, hsn]
          by_cases hi : i = r
          · subst hi; rw [hat]; rfl
          · rw [diags_single_ne _ _ _ (Ne.symm hi)]; simp
      · have hpl : plN l [((r, c), k)] = [(r, (c, k))] := by simp [plN, keep_off hrc]
        rw [hpl, List.foldlM_cons] at hf
        simp only [List.foldlM_nil, Option.bind_eq_bind, Option.pure_def, Option.bind_fun_some] at hf
        have hstep : fillNon n nnz ptr extra M (sn, s) ((r, c), k)
            = (stepP n nnz ptr extra M s (r, (c, k))).map fun f => (sn, f) := by
          unfold fillNon stepP putOff
          simp only [if_neg hrc]
        rw [hstep]
        cases hx : stepP n nnz ptr extra M s (r, (c, k)) with
        | none => rw [hx] at hf; cases hf
        | some s' =>
          rw [hx] at hf
          refine ih _ s' sn he' (fun i => ?_) hf
          rw [diags_append, diags_single_off _ _ _ _ hrc, List.append_nil]
          exact hsn i
  exact key l [] s0 (fun _ => none) rfl (fun _ => rfl) h

theorem oneDiag_plN (l : List ((ℕ × ℕ) × ℕ)) (hl : (l.map Prod.snd).Nodup) (i : ℕ) :
    OneDiag i (sel (plN l l) i) := by
  have hmem : ∀ x ∈ sel (plN l l) i, x.1 = i → (diags l i).head? = some x.2 := by
    intro x hx hxi
    simp only [sel, plN, List.mem_map, List.mem_filter, beq_iff_eq] at hx
    obtain ⟨y, ⟨⟨e, ⟨he, hk⟩, rfl⟩, hyi⟩, rfl⟩ := hx
    simp only at hyi hxi
    simp only [keep, decide_eq_true_eq] at hk
    rcases hk with hk | hk
    · exact absurd (hyi.trans hxi.symm) hk
    · rw [hyi] at hk; exact hk
  have hnd : ((sel (plN l l) i).map Prod.snd).Nodup := by
    have hsub : ((sel (plN l l) i).map Prod.snd).Sublist (l.map Prod.snd) := by
      simp only [sel, plN, List.filter_map, List.map_map]
      exact ((List.filter_sublist).trans List.filter_sublist).map _
    exact hsub.nodup hl
  unfold OneDiag
  have : (sel (plN l l) i).Pairwise fun a b => a.2 ≠ b.2 := by
    rwa [List.Nodup, List.pairwise_map] at hnd
  refine this.imp_of_mem ?_
  intro a b ha hb hne hab
  have h1 := hmem a ha hab.1
  have h2 := hmem b hb hab.2
  rw [h1] at h2
  exact hne (Option.some.inj h2)

/-! ## Sorting -/

/-- The new position computed for the additional diagonal value is the old one. -/
theorem idxOf_perm (l : List ℕ) (m t : ℕ) (h : l.Perm (List.range m)) (ht : t < m) :
    ∃ x, l[t]? = some x ∧ l.idxOf x = t := by
  have hl : t < l.length := by rw [h.length_eq]; simpa using ht
  refine ⟨l[t], List.getElem?_eq_getElem hl, ?_⟩
  exact (h.nodup_iff.mpr List.nodup_range).idxOf_getElem t hl

/-- The value a row has after a row whose stored entries are `S` with further value `v`. -/
structure NonOk (n : ℕ) (l : List ((ℕ × ℕ) × ℕ)) (C : ConvNon K) (R : ℕ → List (ℕ × ℕ)) : Prop where
  nrows : C.A.nrows = n
  csr : C.A = mkCsr n C.A.nnz C.A.ptr C.A.col C.A.val
  ptrs : Ptrs n C.A.nnz C.A.ptr fun i => (sel (plN l l) i).length
  perm : ∀ i < n, (R i).Perm (sel (plN l l) i)
  sorted : ∀ i < n, ((R i).map Prod.fst).Pairwise (· ≤ ·)
  cols : ∀ i < n, ∀ t (h : t < (R i).length), C.A.col (C.A.ptr i + t) = (R i)[t].1 ∧
    C.idx (C.A.ptr i + t) = (R i)[t].2
  extra : ∀ p ∈ C.extra, ∃ i < n, ∃ t, ∃ h : t < (sel (plN l l) i).length,
    p.1 = C.A.ptr i + t ∧ (sel (plN l l) i)[t].1 = i ∧ (diags l i)[1]? = some p.2
  extraAll : ∀ i < n, ∀ k, (diags l i)[1]? = some k → ∃ p, (p, k) ∈ C.extra ∧ C.A.ptr i ≤ p ∧
    p < C.A.ptr i + (sel (plN l l) i).length
  extraOnce : (C.extra.map Prod.fst).Nodup

theorem diag_stored {l : List ((ℕ × ℕ) × ℕ)} {i : ℕ} (h : diags l i ≠ []) :
    ∃ x ∈ sel (plN l l) i, x.1 = i := by
  obtain ⟨a, t, hat⟩ := List.exists_cons_of_ne_nil h
  have ha : a ∈ diags l i := by rw [hat]; simp
  simp only [diags, List.mem_map, List.mem_filter, decide_eq_true_eq] at ha
  obtain ⟨⟨rc, k⟩, ⟨he, hrc⟩, rfl⟩ := ha
  simp only at hrc
  subst hrc
  refine ⟨(i, k), ?_, rfl⟩
  simp only [sel, plN, List.mem_map, List.mem_filter, beq_iff_eq]
  refine ⟨(i, (i, k)), ⟨⟨((i, i), k), ⟨he, ?_⟩, rfl⟩, rfl⟩, rfl⟩
  simp only [keep, decide_eq_true_eq]
  right
  rw [hat]; rfl

theorem convNon_spec {srt : SortFn} (hs : Sorts srt) (n : ℕ) (pat : List (ℕ × ℕ))
    (hr : ∀ e ∈ pat, e.1 < n) (h2 : ∀ r, (diags pat.zipIdx r).length ≤ 2) (M : ℕ → K) (g : Garbage K) :
    ∃ C R, convNon srt n pat M g = some C ∧ NonOk n pat.zipIdx C R ∧
      ∀ i < n, RowIs C.A.ptr M (onDiag (exv M (fun r => (diags pat.zipIdx r)[1]?) i) i) i (R i)
        C.A.col C.idx C.A.val := by
  set l := pat.zipIdx with hl
  have hnd : (l.map Prod.snd).Nodup := by rw [hl]; simp [List.zipIdx_map_snd, List.nodup_range']
  have hrl : ∀ e ∈ l, e.1.1 < n := fun e he => hr e.1 (by
    have := List.mem_map_of_mem (f := Prod.fst) he
    rwa [hl, zipIdx_fst] at this)
  obtain ⟨c, c1, c2⟩ := countNon_spec n l hnd hrl h2
  set ptr := accumulate n c.ptr with hptr
  have hP : Ptrs n c.nnz ptr fun i => (sel (plN l l) i).length := by
    have hacc := accumulate_spec n c.ptr c2.first
    have hcong : ∀ i ≤ n, offs (fun t => c.ptr (t + 1)) i = offs (fun t => (sel (plN l l) t).length) i :=
      fun i hi => offs_congr i fun t ht => c2.ptr t
    exact ⟨fun i hi => by rw [hptr, hacc i hi, hcong i hi], by rw [c2.nnz, hcong n le_rfl]⟩
  have hexeq : c.extra = fun r => (diags l r)[1]? := funext c2.extra
  have hone := oneDiag_plN l hnd
  have hplr : ∀ e ∈ plN l l, e.1 < n := by
    intro e he
    simp only [plN, List.mem_map, List.mem_filter] at he
    obtain ⟨x, ⟨hx, -⟩, rfl⟩ := he
    exact hrl x hx
  obtain ⟨f, f1, f2⟩ := fill_spec n c.nnz ptr _ hP c.extra M (plN l l) hplr (fun i _ => le_rfl)
    (fun i _ => hone i)
    { cnt := fun _ => 0, col := g.col, idx := g.ptr, val := g.val, diag := fun _ => none } rfl rfl
  obtain ⟨sn, f3⟩ := fillNon_fold n c.nnz ptr c.extra M l hnd _ f f1
  rw [hexeq] at f2
  -- diagonal positions
  have hdiag : ∀ i < n, ∀ k, (diags l i)[1]? = some k →
      ∃ t, ∃ h : t < (sel (plN l l) i).length, f.diag i = some (ptr i + t) ∧ (sel (plN l l) i)[t].1 = i := by
    intro i hi k hk
    have hne : diags l i ≠ [] := by intro h; rw [h] at hk; cases hk
    obtain ⟨x, hx, hxi⟩ := diag_stored hne
    obtain ⟨t, ht, rfl⟩ := List.getElem_of_mem hx
    have := (f2 i hi).2.2.1 t ht hxi
    simp only [hk] at this
    exact ⟨t, ht, by simpa using this, hxi⟩
  have hdiagN : ∀ i < n, (diags l i)[1]? = none → f.diag i = none := by
    intro i hi hk
    by_cases hx : ∃ x ∈ sel (plN l l) i, x.1 = i
    · obtain ⟨x, hx, hxi⟩ := hx
      obtain ⟨t, ht, rfl⟩ := List.getElem_of_mem hx
      have := (f2 i hi).2.2.1 t ht hxi
      simp only [hk] at this
      simpa using this
    · exact (f2 i hi).2.2.2 fun x h e => hx ⟨x, h, e⟩
  obtain ⟨f', g1, g2⟩ := foldlM_range
    (fun k (q : Fill K × List (ℕ × ℕ)) => q.1.diag = f.diag ∧
      (∀ i, k ≤ i → i < n →
        RowIs ptr M (onDiag (exv M (fun r => (diags l r)[1]?) i) i) i (sel (plN l l) i) q.1.col q.1.idx q.1.val) ∧
      (∀ i < k, i < n → ∃ R : List (ℕ × ℕ), R.Perm (sel (plN l l) i) ∧ (R.map Prod.fst).Pairwise (· ≤ ·) ∧
        RowIs ptr M (onDiag (exv M (fun r => (diags l r)[1]?) i) i) i R q.1.col q.1.idx q.1.val) ∧
      (∀ p ∈ q.2, ∃ i < k, i < n ∧ ∃ t, ∃ h : t < (sel (plN l l) i).length,
        p.1 = ptr i + t ∧ (sel (plN l l) i)[t].1 = i ∧ (diags l i)[1]? = some p.2) ∧
      (∀ i < k, i < n → ∀ a, (diags l i)[1]? = some a → ∃ p, (p, a) ∈ q.2 ∧ ptr i ≤ p ∧
        p < ptr i + (sel (plN l l) i).length) ∧
      (q.2.map Prod.fst).Nodup)
    (fixNon srt ptr c.extra) n (f, [])
    ⟨rfl, fun i _ hi => (f2 i hi).2.1, fun i hi => by omega, fun p hp => by simp at hp,
      fun i hi => by omega, List.nodup_nil⟩ (by
      rintro k ⟨q, ex⟩ hk ⟨p1, p2, p3, p4, p5, p6⟩
      simp only at p1 p2 p3 p4 p5 p6
      obtain ⟨R, -, R2, R3, R4⟩ := sortRow_spec hs hP hk M
        (onDiag (exv M (fun r => (diags l r)[1]?) k) k) (sel (plN l l) k) rfl q (p2 k le_rfl hk)
      have hrest : ∀ q' : Fill K, q' = sortRow srt ptr k q →
          q'.diag = f.diag ∧
          (∀ i, k + 1 ≤ i → i < n →
            RowIs ptr M (onDiag (exv M (fun r => (diags l r)[1]?) i) i) i (sel (plN l l) i) q'.col q'.idx q'.val) ∧
          (∀ i < k + 1, i < n → ∃ R : List (ℕ × ℕ), R.Perm (sel (plN l l) i) ∧ (R.map Prod.fst).Pairwise (· ≤ ·) ∧
            RowIs ptr M (onDiag (exv M (fun r => (diags l r)[1]?) i) i) i R q'.col q'.idx q'.val) := by
        rintro q' rfl
        refine ⟨p1, fun i hi hin => (p2 i (by omega) hin).congr fun t ht =>
          sortRow_frame hs hP hk hin (by omega) q ht, fun i hi hin => ?_⟩
        rcases Nat.lt_or_ge i k with h' | h'
        · obtain ⟨Ri, a1, a2, a3⟩ := p3 i h' hin
          refine ⟨Ri, a1, a2, a3.congr fun t ht => sortRow_frame hs hP hk hin (by omega) q ?_⟩
          rw [← a1.length_eq]; exact ht
        · have : i = k := by omega
          subst this
          exact ⟨R, R2, R3, R4⟩
      cases hx : (diags l k)[1]? with
      | none =>
        have hd := hdiagN k hk hx
        refine ⟨(sortRow srt ptr k q, ex), by simp only [fixNon, p1, hd], ?_⟩
        obtain ⟨a1, a2, a3⟩ := hrest _ rfl
        refine ⟨a1, a2, a3, fun p hp => ?_, fun i hi hin a ha => ?_, p6⟩
        · obtain ⟨i, b1, b2⟩ := p4 p hp; exact ⟨i, by omega, b2⟩
        · rcases Nat.lt_or_ge i k with h' | h'
          · exact p5 i h' hin a ha
          · have : i = k := by omega
            subst this; rw [hx] at ha; cases ha
      | some a =>
        obtain ⟨t, ht, hd, hti⟩ := hdiag k hk a hx
        have hperm : (rowPerm srt ptr k q).Perm (List.range (sel (plN l l) k).length) := by
          have := (hs (fun a => q.col (a + ptr k)) (List.range (ptr (k + 1) - ptr k))).1
          rw [hP.succ hk, Nat.add_sub_cancel_left] at this
          unfold rowPerm
          rw [hP.succ hk, Nat.add_sub_cancel_left]
          exact this
        obtain ⟨x, hx1, hx2⟩ := idxOf_perm _ _ t hperm ht
        refine ⟨(sortRow srt ptr k q, ex ++ [(t + ptr k, a)]), ?_, ?_⟩
        · simp only [fixNon, p1, hd, Nat.add_sub_cancel_left, hx1, hexeq, hx, hx2]
        obtain ⟨a1, a2, a3⟩ := hrest _ rfl
        refine ⟨a1, a2, a3, fun p hp => ?_, fun i hi hin b hb => ?_, ?_⟩
        · rcases List.mem_append.mp hp with h | h
          · obtain ⟨i, b1, b2⟩ := p4 p h; exact ⟨i, by omega, b2⟩
          · simp only [List.mem_singleton] at h
            subst h
            exact ⟨k, by omega, hk, t, ht, Nat.add_comm _ _, hti, hx⟩
        · rcases Nat.lt_or_ge i k with h' | h'
          · obtain ⟨p, b1, b2⟩ := p5 i h' hin b hb
            exact ⟨p, List.mem_append_left _ b1, b2⟩
          · have : i = k := by omega
            subst this
            rw [hx, Option.some.injEq] at hb
            subst hb
            exact ⟨t + ptr i, by simp, by omega, by omega⟩
        · simp only [List.map_append, List.map_cons, List.map_nil]
          rw [List.nodup_append]
          refine ⟨p6, by simp, fun y hy z hz => ?_⟩
          simp only [List.mem_singleton] at hz
          subst hz
          rw [List.mem_map] at hy
          obtain ⟨p, hp, rfl⟩ := hy
          obtain ⟨i, b1, b2, u, hu, b3, -⟩ := p4 p hp
          intro heq
          have := (hP.disj b2 hk (s := u) (t := t) hu ht (by omega)).1
          omega)
  obtain ⟨-, -, g4, g5, g6, g7⟩ := g2
  have g3' : ∀ i, ∃ R : List (ℕ × ℕ), i < n → R.Perm (sel (plN l l) i) ∧ (R.map Prod.fst).Pairwise (· ≤ ·) ∧
      RowIs ptr M (onDiag (exv M (fun r => (diags l r)[1]?) i) i) i R f'.1.col f'.1.idx f'.1.val := fun i => by
    by_cases hi : i < n
    · obtain ⟨R, h⟩ := g4 i hi hi; exact ⟨R, fun _ => h⟩
    · exact ⟨[], fun h => absurd h hi⟩
  choose R hR using g3'
  refine ⟨{ A := mkCsr n c.nnz ptr f'.1.col f'.1.val, idx := f'.1.idx, extra := f'.2 }, R, ?_, ?_, ?_⟩
  · unfold convNon
    simp only [← hl, c1, Option.bind_some]
    have htot := c2.total
    have hfl : ((List.range n).filter fun i => (c.extra i).isSome).length
        = ∑ i ∈ Finset.range n, (if (c.extra i).isSome then 1 else 0) := by
      have : ∀ m, ((List.range m).filter fun i => (c.extra i).isSome).length
          = ∑ i ∈ Finset.range m, (if (c.extra i).isSome then 1 else 0) := by
        intro m
        induction m with
        | zero => rfl
        | succ m ih =>
          rw [List.range_succ, List.filter_append, List.length_append, ih, Finset.sum_range_succ]
          congr 1
          by_cases h : (c.extra m).isSome <;> simp [h]
      exact this n
    rw [if_pos ⟨by rw [← hptr, hP.ptr n le_rfl]; exact hP.nnz, by rw [hfl, htot, hl, List.length_zipIdx]⟩]
    rw [← hptr, f3, Option.bind_some, g1]
    rfl
  · exact ⟨rfl, rfl, hP, fun i hi => (hR i hi).1, fun i hi => (hR i hi).2.1,
      fun i hi t ht => ⟨((hR i hi).2.2 t ht).1, ((hR i hi).2.2 t ht).2.1⟩,
      fun p hp => by
        obtain ⟨i, b1, b2, b3⟩ := g5 p hp
        exact ⟨i, b2, b3⟩,
      fun i hi k hk => g6 i hi hi k hk, g7⟩
  · exact fun i hi => (hR i hi).2.2

/-- The sum of a row. -/
theorem sum_keep (l : List ((ℕ × ℕ) × ℕ)) (hl : (l.map Prod.snd).Nodup) (h2 : ∀ r, (diags l r).length ≤ 2)
    (M : ℕ → K) (i j : ℕ) :
    ((sel (plN l l) i).map fun x => if x.1 = j then M x.2
        + onDiag (exv M (fun r => (diags l r)[1]?) i) i x else 0).sum
      = (l.map fun e => if e.1.1 = i ∧ e.1.2 = j then M e.2 else 0).sum := by
  have hsum : ∀ sub : List ((ℕ × ℕ) × ℕ), (∃ pre, l = pre ++ sub) →
      ((sel (plN l sub) i).map fun x => if x.1 = j then M x.2 else 0).sum
      + (if i = j then ((sub.filter fun e => decide (e.1 = (i, i)) && !keep l e).map fun e => M e.2).sum else 0)
      = (sub.map fun e => if e.1.1 = i ∧ e.1.2 = j then M e.2 else 0).sum := by
    intro sub
    induction sub with
    | nil => intro _; simp [plN, sel]
    | cons e sub ih =>
      rintro ⟨pre, hpre⟩
      have ih' := ih ⟨pre ++ [e], by rw [hpre]; simp⟩
      obtain ⟨⟨r, c⟩, k⟩ := e
      rw [List.map_cons, List.sum_cons, ← ih',
        show ((r, c), k) :: sub = [((r, c), k)] ++ sub from rfl, plN_append, sel_append, List.map_append,
        List.sum_append, List.filter_append, List.map_append, List.sum_append]
      by_cases hk : keep l ((r, c), k) = true
      · have h1 : plN l [((r, c), k)] = [(r, (c, k))] := by simp [plN, hk]
        have h2 : [((r, c), k)].filter (fun e => decide (e.1 = (i, i)) && !keep l e) = [] := by simp [hk]
        rw [h1, h2, sel_single]
        by_cases hri : r = i
        · subst hri
          by_cases hcj : c = j <;> simp [hcj] <;> ring
        · simp [hri]
      · have hk' : keep l ((r, c), k) = false := by simpa using hk
        have hrc : r = c := by
          by_contra h; exact hk (keep_off h)
        subst hrc
        have h1 : plN l [((r, r), k)] = [] := by simp [plN, hk']
        rw [h1]
        by_cases hri : r = i
        · subst hri
          have h2 : [((r, r), k)].filter (fun e => decide (e.1 = (r, r)) && !keep l e) = [((r, r), k)] := by
            simp [hk']
          rw [h2]
          by_cases hcj : r = j <;> simp [hcj, sel] <;> ring
        · have h2 : [((r, r), k)].filter (fun e => decide (e.1 = (i, i)) && !keep l e) = [] := by
            simp [hri]
          rw [h2]
          simp [sel, hri]
  rw [← hsum l ⟨[], rfl⟩]
  -- the triplets that are not stored
  have hnot : ((l.filter fun e => decide (e.1 = (i, i)) && !keep l e).map fun e => M e.2).sum
      = exv M (fun r => (diags l r)[1]?) i := by
    have hmap : ((l.filter fun e => decide (e.1 = (i, i)) && !keep l e).map fun e => e.2)
        = (diags l i).filter fun k => decide ((diags l i).head? ≠ some k) := by
      simp only [diags, List.filter_map, List.filter_filter]
      congr 1
      apply List.filter_congr
      rintro ⟨rc, k⟩ _
      by_cases h : rc = (i, i)
      · subst h
        rw [Bool.eq_iff_iff]
        simp only [keep, diags, Bool.and_eq_true, Bool.not_eq_true', decide_eq_true_eq, decide_eq_false_iff_not,
          ne_eq, not_true_eq_false, false_or, true_and, and_true, Function.comp]
        exact decide_eq_true_iff.symm
      · simp [h]
    have hM : ((l.filter fun e => decide (e.1 = (i, i)) && !keep l e).map fun e => M e.2)
        = (((diags l i).filter fun k => decide ((diags l i).head? ≠ some k)).map M) := by
      rw [← hmap, List.map_map]; rfl
    rw [hM]
    have hndd : (diags l i).Nodup := by
      have : (diags l i).Sublist (l.map Prod.snd) := List.filter_sublist.map _
      exact this.nodup hl
    have hlen := h2 i
    unfold exv
    match hd : diags l i with
    | [] => simp [hd]
    | [a] => simp [hd]
    | [a, b] =>
      rw [hd] at hndd
      have hab : ¬ a = b := by simpa using hndd
      simp [hab, hd]
    | a :: b :: c :: t => rw [hd] at hlen; simp at hlen
  rw [hnot]
  -- distributing the further value
  have hpush : ∀ Q : List (ℕ × ℕ), OneDiag i Q → ∀ v : K, 
      (Q.map fun x => if x.1 = j then M x.2 + onDiag v i x else 0).sum
      = (Q.map fun x => if x.1 = j then M x.2 else 0).sum
        + if (∃ x ∈ Q, x.1 = i) ∧ i = j then v else 0 := by
    intro Q hQ v
    induction Q with
    | nil => simp
    | cons a Q ih =>
      rw [OneDiag, List.pairwise_cons] at hQ
      rw [List.map_cons, List.sum_cons, ih hQ.2, List.map_cons, List.sum_cons]
      by_cases ha : a.1 = i
      · have hno : ¬ ((∃ x ∈ Q, x.1 = i) ∧ i = j) := by
          rintro ⟨⟨x, hx, e⟩, -⟩; exact hQ.1 x hx ⟨ha, e⟩
        rw [if_neg hno]
        by_cases hij : i = j
        · rw [if_pos (ha.trans hij), if_pos (ha.trans hij), if_pos ⟨⟨a, by simp, ha⟩, hij⟩]
          simp only [onDiag, ha, if_true]; ring
        · rw [if_neg (fun h => hij (ha.symm.trans h)), if_neg (fun h => hij (ha.symm.trans h)),
            if_neg (fun h => hij h.2)]
          ring
      · have hex : (∃ x ∈ a :: Q, x.1 = i) ↔ ∃ x ∈ Q, x.1 = i := by simp [ha]
        simp only [hex, onDiag, if_neg ha, add_zero]
        ring
  rw [hpush _ (oneDiag_plN l hl i)]
  congr 1
  by_cases hij : i = j
  · rw [if_pos hij]
    by_cases hx : ∃ x ∈ sel (plN l l) i, x.1 = i
    · rw [if_pos ⟨hx, hij⟩]
    · rw [if_neg fun h => hx h.1]
      have : diags l i = [] := by by_contra h; exact hx (diag_stored h)
      simp [exv, this]
  · rw [if_neg hij, if_neg fun h => hij h.2]

theorem NonOk.get {n : ℕ} {l : List ((ℕ × ℕ) × ℕ)} {C : ConvNon K} {R : ℕ → List (ℕ × ℕ)}
    (h : NonOk n l C R) (hl : (l.map Prod.snd).Nodup) (h2 : ∀ r, (diags l r).length ≤ 2) {M : ℕ → K} {i : ℕ}
    (hi : i < n) (hrow : RowIs C.A.ptr M (onDiag (exv M (fun r => (diags l r)[1]?) i) i) i (R i)
      C.A.col C.idx C.A.val) (j : ℕ) :
    get C.A i j = (l.map fun e => if e.1.1 = i ∧ e.1.2 = j then M e.2 else 0).sum := by
  rw [h.csr, RowIs.get h.ptrs hi (h.perm i hi).length_eq hrow, ← sum_keep l hl h2 M i j]
  exact ((h.perm i hi).map _).sum_eq

end Hiop.Lin
