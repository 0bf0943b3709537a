import Verif.Lin.Non
import Verif.Lin.SymProps

/-! # C51: the matrix handed to the nonsymmetric sparse direct solvers -/

set_option linter.unusedSectionVars false

namespace Hiop.Lin

open Hiop.Csr Hiop.Sparse

variable {K : Type*} [Field K] [LinearOrder K] [IsStrictOrderedRing K]

/-- The life of a nonsymmetric solver object: the conversion with the values `M0`, later
`matrixChanged` with the values in `Ms`. -/
def solverRunNon (srt : SortFn) (n : ℕ) (pat : List (ℕ × ℕ)) (g : Garbage K) (M0 : ℕ → K)
    (Ms : List (ℕ → K)) : Option (ConvNon K) :=
  (convNon srt n pat M0 g).map fun C => Ms.foldl (fun C M => refreshNon M C) C

theorem diags_count (pat : List (ℕ × ℕ)) (k r : ℕ) : (diags (pat.zipIdx k) r).length = pat.count (r, r) := by
  have : pat.count (r, r) = ((pat.zipIdx k).map Prod.fst).count (r, r) := by rw [zipIdx_fst]
  rw [this, List.count_eq_countP, List.countP_map, List.countP_eq_length_filter]
  simp only [diags, List.length_map]
  congr 1
  exact List.filter_congr fun e _ => by simp [Bool.beq_eq_decide_eq]

theorem zipIdx_nodup (pat : List (ℕ × ℕ)) : (pat.zipIdx.map Prod.snd).Nodup := by
  simp [List.zipIdx_map_snd, List.nodup_range']

theorem entry_trip (pat : List (ℕ × ℕ)) (M : ℕ → K) (i j : ℕ) :
    entry (trip pat M) i j = (pat.zipIdx.map fun e => if e.1.1 = i ∧ e.1.2 = j then M e.2 else 0).sum := by
  simp only [entry, trip, List.map_map]
  rfl

/-- **C51, nonsymmetric, first factorization.** For every pattern in range with at most two triplets per
diagonal position, in any order, the matrix of the first factorization is the matrix of the triplets, and
the columns of every row are in order. -/
theorem C51_nonsym_first {srt : SortFn} (hs : Sorts srt) {n : ℕ} {pat : List (ℕ × ℕ)}
    (hr : ∀ e ∈ pat, e.1 < n) (h2 : ∀ r, pat.count (r, r) ≤ 2) (g : Garbage K) (M : ℕ → K) :
    ∃ C, solverRunNon srt n pat g M [] = some C ∧ C.A.nrows = n ∧
      (∀ i < n, ∀ j, get C.A i j = entry (trip pat M) i j) ∧
      ∀ i < n, ∀ p, C.A.ptr i ≤ p → p + 1 < C.A.ptr (i + 1) → C.A.col p ≤ C.A.col (p + 1) := by
  have h2' : ∀ r, (diags pat.zipIdx r).length ≤ 2 := fun r => by rw [diags_count]; exact h2 r
  obtain ⟨C, R, e1, e2, e3⟩ := convNon_spec hs n pat hr h2' M g
  refine ⟨C, by rw [solverRunNon, e1]; rfl, e2.nrows, fun i hi j => ?_, fun i hi p hp1 hp2 => ?_⟩
  · rw [e2.get (zipIdx_nodup pat) h2' hi (e3 i hi), entry_trip]
  · rw [e2.ptrs.succ hi] at hp2
    obtain ⟨t, rfl⟩ := Nat.exists_eq_add_of_le hp1
    have hl := (e2.perm i hi).length_eq
    have ht : t + 1 < (R i).length := by omega
    rw [(e2.cols i hi t (by omega)).1, Nat.add_assoc, (e2.cols i hi (t + 1) ht).1]
    have := List.pairwise_iff_getElem.mp (e2.sorted i hi) t (t + 1) (by simp; omega) (by simpa using ht)
      (Nat.lt_succ_self t)
    simpa using this

/-! ## Later factorizations -/

theorem extraLoop (l : List (ℕ × ℕ)) (M : ℕ → K) (v0 : ℕ → K) (p : ℕ) :
    l.foldl (fun (v : ℕ → K) q => wr v q.1 (v q.1 + M q.2)) v0 p
      = v0 p + (l.map fun q => if q.1 = p then M q.2 else 0).sum := by
  induction l generalizing v0 with
  | nil => simp
  | cons q l ih =>
    rw [List.foldl_cons, ih, List.map_cons, List.sum_cons]
    by_cases h : q.1 = p
    · subst h; simp; ring
    · rw [wr_ne _ _ (Ne.symm h), if_neg h, zero_add]

theorem sum_once (l : List (ℕ × ℕ)) (h : (l.map Prod.fst).Nodup) (M : ℕ → K) {p k : ℕ} (hm : (p, k) ∈ l) :
    (l.map fun q => if q.1 = p then M q.2 else 0).sum = M k := by
  induction l with
  | nil => simp at hm
  | cons q l ih =>
    rw [List.map_cons, List.nodup_cons] at h
    rw [List.map_cons, List.sum_cons]
    rcases List.mem_cons.mp hm with rfl | hm
    · have : (l.map fun q => if q.1 = p then M q.2 else 0).sum = 0 := by
        apply List.sum_eq_zero
        intro x hx
        rw [List.mem_map] at hx
        obtain ⟨y, hy, rfl⟩ := hx
        refine if_neg fun e => h.1 ?_
        have := List.mem_map_of_mem (f := Prod.fst) hy
        rw [e] at this; exact this
      simp [this]
    · have : q.1 ≠ p := fun e => h.1 (by rw [e]; exact List.mem_map_of_mem (f := Prod.fst) hm)
      rw [if_neg this, zero_add, ih h.2 hm]

theorem refreshNon_spec {n : ℕ} {l : List ((ℕ × ℕ) × ℕ)} (hl : (l.map Prod.snd).Nodup) {C : ConvNon K}
    {R : ℕ → List (ℕ × ℕ)} (h : NonOk n l C R)
    (hR : ∀ i < n, ∀ k, (diags l i)[1]? = some k → R i = sel (plN l l) i) (M : ℕ → K) :
    NonOk n l (refreshNon M C) R ∧
    ∀ i < n, RowIs C.A.ptr M (onDiag (exv M (fun r => (diags l r)[1]?) i) i) i (R i) C.A.col C.idx
      (refreshNon M C).A.val := by
  refine ⟨⟨h.nrows, ?_, h.ptrs, h.perm, h.sorted, h.cols, h.extra, h.extraAll, h.extraOnce⟩,
    fun i hi t ht => ?_⟩
  · have := h.csr
    simp only [refreshNon]
    conv_lhs => rw [this]
    rfl
  · obtain ⟨c1, c2⟩ := h.cols i hi t ht
    refine ⟨c1, c2, ?_⟩
    have hlen := (h.perm i hi).length_eq
    have hp : C.A.ptr i + t < C.A.nnz := by have := h.ptrs.le hi; omega
    simp only [refreshNon]
    rw [extraLoop, copyLoop _ _ _ _ hp, c2]
    congr 1
    have hzero : (∀ q ∈ C.extra, q.1 ≠ C.A.ptr i + t) →
        (C.extra.map fun q => if q.1 = C.A.ptr i + t then M q.2 else 0).sum = 0 := by
      intro hq
      apply List.sum_eq_zero
      intro x hx
      rw [List.mem_map] at hx
      obtain ⟨y, hy, rfl⟩ := hx
      exact if_neg (hq y hy)
    have hwhere : ∀ q ∈ C.extra, q.1 = C.A.ptr i + t →
        (∃ h' : t < (sel (plN l l) i).length, (sel (plN l l) i)[t].1 = i) ∧ (diags l i)[1]? = some q.2 := by
      intro q hq e
      obtain ⟨i', hi', t', ht', a1, a2, a3⟩ := h.extra q hq
      obtain ⟨rfl, rfl⟩ := h.ptrs.disj hi' hi (s := t') (t := t) ht' (by omega) (by omega)
      exact ⟨⟨ht', a2⟩, a3⟩
    cases hx : (diags l i)[1]? with
    | none =>
      rw [hzero fun q hq e => by have := (hwhere q hq e).2; rw [hx] at this; cases this]
      simp [onDiag, exv, hx]
    | some k =>
      have hRi := hR i hi k hx
      by_cases hti : (R i)[t].1 = i
      · obtain ⟨p, hpk, hp1, hp2⟩ := h.extraAll i hi k hx
        obtain ⟨i', hi', t', ht', a1, a2, a3⟩ := h.extra (p, k) hpk
        simp only at a1
        obtain ⟨u, rfl⟩ := Nat.exists_eq_add_of_le hp1
        obtain ⟨rfl, rfl⟩ := h.ptrs.disj hi hi' (s := u) (t := t') (by omega) ht' (by omega)
        have hut : u = t := by
          have h1 := oneDiag_plN l hl i
          have hti' : (sel (plN l l) i)[t].1 = i := by simpa only [hRi] using hti
          rcases Nat.lt_trichotomy u t with h' | h' | h'
          · exact absurd ⟨a2, hti'⟩ (List.pairwise_iff_getElem.mp h1 u t ht' (by omega) h')
          · exact h'
          · exact absurd ⟨hti', a2⟩ (List.pairwise_iff_getElem.mp h1 t u (by omega) ht' h')
        subst hut
        rw [sum_once _ h.extraOnce M hpk]
        simp [onDiag, exv, hti, hx]
      · rw [hzero fun q hq e => by
          obtain ⟨⟨h', a⟩, -⟩ := hwhere q hq e
          exact hti (by simpa only [hRi] using a)]
        simp [onDiag, hti]

/-- The columns of every row come in strictly increasing order. -/
def RowsIncreasing (body : List (ℕ × ℕ)) : Prop := body.Pairwise fun a b => a.1 = b.1 → a.2 < b.2

theorem rowsIncreasing_sel {nr : ℕ} {body : List (ℕ × ℕ)} (hinc : RowsIncreasing body) {i k : ℕ}
    (hk : (diags (withDiag body nr).zipIdx i)[1]? = some k) :
    ((sel (plN (withDiag body nr).zipIdx (withDiag body nr).zipIdx) i).map Prod.fst).Pairwise (· < ·) := by
  set l := (withDiag body nr).zipIdx with hl
  have hsplit : l = body.zipIdx ++ ((List.range nr).map fun i => (i, i)).zipIdx body.length := by
    rw [hl, withDiag, List.zipIdx_append, Nat.zero_add]
  have hnd : (l.map Prod.snd).Nodup := zipIdx_nodup _
  -- the diagonal at the end is not stored
  have htail : sel (plN l (((List.range nr).map fun i => (i, i)).zipIdx body.length)) i = [] := by
    rw [List.eq_nil_iff_forall_not_mem]
    intro x hx
    simp only [sel, plN, List.mem_map, List.mem_filter, beq_iff_eq] at hx
    obtain ⟨y, ⟨⟨e, ⟨he, hkp⟩, rfl⟩, hyi⟩, rfl⟩ := hx
    have he1 : e.1.1 = e.1.2 := by
      have := List.mem_map_of_mem (f := Prod.fst) he
      rw [zipIdx_fst, List.mem_map] at this
      obtain ⟨a, -, ha⟩ := this
      rw [← ha]
    simp only at hyi
    simp only [keep, decide_eq_true_eq] at hkp
    rcases hkp with hkp | hkp
    · exact hkp he1
    · rw [hyi] at hkp
      have hcnt : (diags (((List.range nr).map fun i => (i, i)).zipIdx body.length) i).length ≤ 1 := by
        rw [diags_count]
        have : ((List.range nr).map fun i => (i, i)).Nodup :=
          List.nodup_range.map fun a b hab => by simpa using hab
        exact List.nodup_iff_count_le_one.mp this _
      have hd : diags l i = diags body.zipIdx i ++ diags (((List.range nr).map fun i => (i, i)).zipIdx body.length) i := by
        rw [hsplit, diags_append]
      cases hb : diags body.zipIdx i with
      | nil =>
        rw [hd, hb, List.nil_append] at hk
        have := (List.getElem?_eq_some_iff.mp hk).1
        omega
      | cons a t =>
        rw [hd, hb, List.cons_append, List.head?_cons, Option.some.injEq] at hkp
        have ha : a ∈ (body.zipIdx).map Prod.snd := by
          have : a ∈ diags body.zipIdx i := by rw [hb]; simp
          simp only [diags, List.mem_map, List.mem_filter] at this
          obtain ⟨z, ⟨hz, -⟩, rfl⟩ := this
          exact List.mem_map_of_mem hz
        rw [hsplit, List.map_append, List.nodup_append] at hnd
        exact hnd.2.2 a ha e.2 (List.mem_map_of_mem he) hkp
  have : plN l l = plN l body.zipIdx ++ plN l (((List.range nr).map fun i => (i, i)).zipIdx body.length) := by
    conv_lhs => rw [show plN l l = plN l (body.zipIdx ++ ((List.range nr).map fun i => (i, i)).zipIdx body.length) by
      rw [← hsplit]]
    exact plN_append _ _ _
  rw [this, sel_append, htail, List.append_nil, List.pairwise_map]
  simp only [sel, plN]
  rw [List.pairwise_map]
  have hz : body.zipIdx.Pairwise fun a b => a.1.1 = b.1.1 → a.1.2 < b.1.2 := by
    have := hinc; rw [RowsIncreasing, ← zipIdx_fst body 0, List.pairwise_map] at this; exact this
  rw [List.filter_map, List.pairwise_map]
  refine ((hz.sublist List.filter_sublist).sublist List.filter_sublist).imp_of_mem ?_
  intro a b ha hb hab
  simp only [List.mem_filter, Function.comp, beq_iff_eq] at ha hb
  exact hab (ha.2.trans hb.2.symm)

/-- **C51, nonsymmetric, all factorizations.** If, before the additional diagonal, the columns of every
row come in strictly increasing order, every later factorization also gets the matrix of the triplets.
Missing: patterns in other orders, for which this is false, see `C51_nonsym_refresh_false`. -/
theorem C51_nonsym_refresh_partial {srt : SortFn} (hs : Sorts srt) {n nr : ℕ} {body : List (ℕ × ℕ)}
    (hr : ∀ e ∈ body, e.1 < n) (hnr : nr ≤ n) (hinc : RowsIncreasing body) (g : Garbage K) (M0 : ℕ → K)
    (Ms : List (ℕ → K)) :
    ∃ C, solverRunNon srt n (withDiag body nr) g M0 Ms = some C ∧ C.A.nrows = n ∧
      ∀ i < n, ∀ j, get C.A i j = entry (trip (withDiag body nr) (lastVals M0 Ms)) i j := by
  set pat := withDiag body nr with hpat
  have hr' : ∀ e ∈ pat, e.1 < n := by
    intro e he
    rw [hpat, withDiag, List.mem_append] at he
    rcases he with h | h
    · exact hr e h
    · simp only [List.mem_map, List.mem_range] at h
      obtain ⟨a, ha, rfl⟩ := h
      simp only; omega
  have h2 : ∀ r, (diags pat.zipIdx r).length ≤ 2 := by
    intro r
    rw [diags_count, hpat, withDiag, List.count_append]
    have h1 : body.count (r, r) ≤ 1 := by
      by_contra hc
      have : [(r, r), (r, r)].Sublist body := by
        have := List.replicate_sublist_iff.mpr (show 2 ≤ body.count (r, r) by omega)
        simpa [List.replicate] using this
      have := hinc.sublist this
      simp at this
    have h1' : ((List.range nr).map fun i => (i, i)).count (r, r) ≤ 1 := by
      have : ((List.range nr).map fun i => (i, i)).Nodup :=
        List.nodup_range.map fun a b hab => by simpa using hab
      exact List.nodup_iff_count_le_one.mp this _
    omega
  obtain ⟨C0, R, e1, e2, e3⟩ := convNon_spec hs n pat hr' h2 M0 g
  have hRs : ∀ i < n, ∀ k, (diags pat.zipIdx i)[1]? = some k → R i = sel (plN pat.zipIdx pat.zipIdx) i := by
    intro i hi k hk
    have hstrict := rowsIncreasing_sel hinc hk
    rw [← hpat] at hstrict
    have hsorted := e2.sorted i hi
    have hperm := e2.perm i hi
    -- two sorted lists with the same elements, keys distinct
    rw [List.pairwise_map] at hstrict hsorted
    have hinj : ∀ a ∈ sel (plN pat.zipIdx pat.zipIdx) i, ∀ b ∈ sel (plN pat.zipIdx pat.zipIdx) i,
        a.1 = b.1 → a = b := by
      intro a ha b hb hab
      obtain ⟨s, hs', rfl⟩ := List.getElem_of_mem ha
      obtain ⟨t, ht', rfl⟩ := List.getElem_of_mem hb
      rcases Nat.lt_trichotomy s t with h | h | h
      · have := List.pairwise_iff_getElem.mp hstrict s t hs' ht' h; omega
      · subst h; rfl
      · have := List.pairwise_iff_getElem.mp hstrict t s ht' hs' h; omega
    refine List.Perm.eq_of_pairwise (le := fun a b : ℕ × ℕ => a.1 ≤ b.1) ?_ hsorted
      (hstrict.imp fun h => Nat.le_of_lt h) hperm
    intro a b ha hb hab hba
    exact hinj a (hperm.mem_iff.mp ha) b hb (Nat.le_antisymm hab hba)
  have key : ∀ (Ms : List (ℕ → K)) (C : ConvNon K) (M : ℕ → K), NonOk n pat.zipIdx C R →
      (∀ i < n, RowIs C.A.ptr M (onDiag (exv M (fun r => (diags pat.zipIdx r)[1]?) i) i) i (R i)
        C.A.col C.idx C.A.val) →
      ∃ C', Ms.foldl (fun C M => refreshNon M C) C = C' ∧ NonOk n pat.zipIdx C' R ∧
        ∀ i < n, RowIs C'.A.ptr (lastVals M Ms)
          (onDiag (exv (lastVals M Ms) (fun r => (diags pat.zipIdx r)[1]?) i) i) i (R i)
          C'.A.col C'.idx C'.A.val := by
    intro Ms
    induction Ms with
    | nil => intro C M a b; exact ⟨C, rfl, a, b⟩
    | cons M' Ms ih =>
      intro C M a b
      obtain ⟨q1, q2⟩ := refreshNon_spec (zipIdx_nodup pat) a hRs M'
      obtain ⟨C', e1, e2, e3⟩ := ih (refreshNon M' C) M' q1 (fun i hi => q2 i hi)
      have hlast : lastVals M (M' :: Ms) = lastVals M' Ms := by
        simp only [lastVals, List.getLastD_cons]
      exact ⟨C', e1, e2, by rw [hlast]; exact e3⟩
  obtain ⟨C', k1, k2, k3⟩ := key Ms C0 M0 e2 e3
  refine ⟨C', by rw [solverRunNon, e1, Option.map_some, k1], k2.nrows, fun i hi j => ?_⟩
  rw [k2.get (zipIdx_nodup pat) h2 hi (k3 i hi), entry_trip]

/-- Uninitialized memory. -/
def zeroGarbage : Garbage ℚ := ⟨fun _ => 0, fun _ => 0, fun _ => 0, fun _ => 0⟩

/-- The positions written for a Hessian `[[h, a], [a, h]]`: off-diagonal triplets, the transposed
Hessian, then the additional diagonal (hiopKKTLinSysSparse.cpp:930-933). -/
def exNon : List (ℕ × ℕ) := withDiag [(0, 1), (0, 0), (1, 0), (1, 1)] 2

/-- **C51, nonsymmetric, refuted.** `convert_to_csr_arrays` stores the position the diagonal had before
the row was sorted (hiopMatrixSparseTriplet.cpp:1301-1306): the first factorization is right, but from the
second on the additional diagonal value is added to an off-diagonal entry. The values are those of
`[[2, 1], [1, 2]]` with the additional diagonal 0 first and then 1. -/
theorem C51_nonsym_refresh_false : ∃ (pat : List (ℕ × ℕ)) (M0 M1 : ℕ → ℚ) (C0 C1 : ConvNon ℚ),
    (∀ e ∈ pat, e.1 < 2 ∧ e.2 < 2) ∧ (∀ r, pat.count (r, r) ≤ 2) ∧ Sorts insSort ∧
    solverRunNon insSort 2 pat zeroGarbage M0 [] = some C0 ∧
    solverRunNon insSort 2 pat zeroGarbage M0 [M1] = some C1 ∧
    (∀ i < 2, ∀ j, get C0.A i j = entry (trip pat M0) i j) ∧
    entry (trip pat M1) 0 0 = 3 ∧ get C1.A 0 0 = 2 ∧
    entry (trip pat M1) 0 1 = 1 ∧ get C1.A 0 1 = 2 := by
  have hr : ∀ e ∈ exNon, e.1 < 2 := by decide
  have h2 : ∀ r, exNon.count (r, r) ≤ 2 := by
    intro r
    by_cases h0 : r = 0
    · subst h0; decide
    · by_cases h1 : r = 1
      · subst h1; decide
      · have : (r, r) ∉ exNon := by
          simp [exNon, withDiag, h0, h1, List.range_succ]
        rw [List.count_eq_zero_of_not_mem this]; omega
  set M0 : ℕ → ℚ := fun k => if k = 0 ∨ k = 2 then 1 else if k = 1 ∨ k = 3 then 2 else 0 with hM0
  set M1 : ℕ → ℚ := fun k => if k = 0 ∨ k = 2 then 1 else if k = 1 ∨ k = 3 then 2 else 1 with hM1
  obtain ⟨C0, e1, -, e2, -⟩ := C51_nonsym_first insSort_sorts hr h2 zeroGarbage M0
  have hC1 : ∃ C1, solverRunNon insSort 2 exNon zeroGarbage M0 [M1] = some C1 ∧
      get C1.A 0 0 = 2 ∧ get C1.A 0 1 = 2 := by
    have h : (solverRunNon insSort 2 exNon zeroGarbage M0 [M1]).map (fun C => (get C.A 0 0, get C.A 0 1))
        = some (2, 2) := by decide +kernel
    cases hc : solverRunNon insSort 2 exNon zeroGarbage M0 [M1] with
    | none => rw [hc] at h; cases h
    | some C =>
      rw [hc] at h
      simp only [Option.map_some, Option.some.injEq, Prod.mk.injEq] at h
      exact ⟨C, rfl, h.1, h.2⟩
  obtain ⟨C1, f1, f2, f3⟩ := hC1
  refine ⟨exNon, M0, M1, C0, C1, by decide, h2, insSort_sorts, e1, f1, e2, ?_, f2, ?_, f3⟩
  · decide +kernel
  · decide +kernel

/-! ## A concrete case -/

example : RowsIncreasing [(0, 0), (0, 1), (1, 0), (2, 1), (2, 2)] := by
  unfold RowsIncreasing; decide

/-- The middle row has no diagonal triplet before the additional one; the last row has one. -/
example : (solverRunNon insSort 3 (withDiag [(0, 0), (0, 1), (1, 0), (2, 1), (2, 2)] 3) zeroGarbage
    (fun k => (k + 1 : ℚ)) [fun k => 10 * (k + 1 : ℚ)]).map
      (fun C => (List.range 6).map fun p => (C.A.col p, C.A.val p))
    = some [(0, 70), (1, 20), (0, 30), (1, 70), (1, 40), (2, 130)] := by
  decide +kernel

end Hiop.Lin
