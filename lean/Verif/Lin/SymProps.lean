import Verif.Lin.Sym
import Verif.Sparse.Kkt

/-!
# C51: the matrix handed to the symmetric sparse direct solvers

The theorems quantify over every pattern with at most one diagonal triplet per row followed by the
additional diagonal, every sorting routine that sorts, every sequence of values and every content of
uninitialized memory.
-/

set_option linter.unusedSectionVars false

namespace Hiop.Lin

open Hiop.Vec Hiop.Csr Hiop.Sparse Hiop.Kkt Hiop.Iterate

variable {K : Type*} [Field K] [LinearOrder K] [IsStrictOrderedRing K]

/-! ## Specification -/

/-- The triplets with positions `pat` and values `M`. -/
def trip (pat : List (ℕ × ℕ)) (M : ℕ → K) : List (Ent K) :=
  pat.zipIdx.map fun e => ⟨e.1.1, e.1.2, M e.2⟩

/-- The system matrices end with one diagonal triplet per row. -/
def withDiag (body : List (ℕ × ℕ)) (n : ℕ) : List (ℕ × ℕ) := body ++ (List.range n).map fun i => (i, i)

/-- In range, and no diagonal position twice. -/
structure BodyOk (n : ℕ) (body : List (ℕ × ℕ)) : Prop where
  range : ∀ e ∈ body, e.1 < n ∧ e.2 < n
  diag : body.Pairwise fun a b => a.1 = a.2 → a ≠ b

/-- The entries of every row of the result come with increasing columns when the triplets are scanned
in order. -/
def Increasing (tg : ℕ → ℕ → List (ℕ × ℕ)) (body : List (ℕ × ℕ)) : Prop :=
  body.Pairwise fun a b => ∀ x ∈ tgt tg a, ∀ y ∈ tgt tg b, x.1 = y.1 → x.2 < y.2

/-- The life of a solver object: `firstCall` with the values `M0`, later `matrixChanged` with the values
in `Ms`. -/
def solverRun (tg : ℕ → ℕ → List (ℕ × ℕ)) (srt : SortFn) (n : ℕ) (pat : List (ℕ × ℕ)) (g : ℕ → ℕ)
    (M0 : ℕ → K) (Ms : List (ℕ → K)) : Option (Conv K) :=
  (convSym tg srt n pat M0 g).map fun C => Ms.foldl (fun C M => refreshSym n pat.length M C) C

/-- The values the solver has been given last. -/
def lastVals (M0 : ℕ → K) (Ms : List (ℕ → K)) : ℕ → K := Ms.getLastD M0

/-! ## The result of a run -/

theorem BodyOk.zip {n : ℕ} {body : List (ℕ × ℕ)} (h : BodyOk n body) :
    (∀ e ∈ body.zipIdx, e.1.1 < n ∧ e.1.2 < n) ∧
      body.zipIdx.Pairwise fun a b => a.1.1 = a.1.2 → a.1 ≠ b.1 := by
  constructor
  · intro e he
    refine h.range e.1 ?_
    have := List.mem_map_of_mem (f := Prod.fst) he
    rwa [zipIdx_fst] at this
  · have := h.diag; rw [← zipIdx_fst body 0, List.pairwise_map] at this; exact this

theorem withDiag_length (body : List (ℕ × ℕ)) (n : ℕ) : (withDiag body n).length = body.length + n := by
  simp [withDiag]

theorem solverRun_spec (tg : ℕ → ℕ → List (ℕ × ℕ)) {srt : SortFn} (hs : Sorts srt) {n : ℕ}
    (hg : GoodTg tg n) {body : List (ℕ × ℕ)} (hb : BodyOk n body) (g : ℕ → ℕ) (M0 : ℕ → K)
    (Ms : List (ℕ → K)) :
    ∃ C R, solverRun tg srt n (withDiag body n) g M0 Ms = some C ∧
      SymOk n (body.length + n) (plOf tg body.zipIdx) C R ∧
      ∀ i < n, RowIs C.A.ptr (lastVals M0 Ms) (extraW (lastVals M0 Ms) (body.length + n) n
        (sel (plOf tg body.zipIdx) i) i) i (R i) C.A.col C.idx C.A.val := by
  obtain ⟨C0, R, h1, h2, h3⟩ := convSym_spec tg hs n hg body
    ((List.range n).map fun i => (i, i)) (by simp) hb.range hb.diag M0 g
  have key : ∀ (Ms : List (ℕ → K)) (C : Conv K) (M : ℕ → K),
      SymOk n (body.length + n) (plOf tg body.zipIdx) C R →
      (∀ i < n, RowIs C.A.ptr M (extraW M (body.length + n) n
        (sel (plOf tg body.zipIdx) i) i) i (R i) C.A.col C.idx C.A.val) →
      ∃ C', Ms.foldl (fun C M => refreshSym n (body.length + n) M C) C = C' ∧
        SymOk n (body.length + n) (plOf tg body.zipIdx) C' R ∧
        ∀ i < n, RowIs C'.A.ptr (lastVals M Ms) (extraW (lastVals M Ms) (body.length + n) n
          (sel (plOf tg body.zipIdx) i) i) i (R i) C'.A.col C'.idx C'.A.val := by
    intro Ms
    induction Ms with
    | nil => intro C M a b; exact ⟨C, rfl, a, b⟩
    | cons M' Ms ih =>
      intro C M a b
      obtain ⟨q1, q2⟩ := refreshSym_spec n _ _ C R a M'
      obtain ⟨C', e1, e2, e3⟩ := ih (refreshSym n (body.length + n) M' C) M' q1 (fun i hi => q2 i hi)
      have hlast : lastVals M (M' :: Ms) = lastVals M' Ms := by
        simp only [lastVals, List.getLastD_cons]
      exact ⟨C', e1, e2, by rw [hlast]; exact e3⟩
  obtain ⟨C', e1, e2, e3⟩ := key Ms C0 M0 h2 h3
  refine ⟨C', R, ?_, e2, e3⟩
  unfold solverRun
  rw [show withDiag body n = body ++ (List.range n).map fun i => (i, i) from rfl, h1]
  simp only [Option.map_some, List.length_append, List.length_map, List.length_range, e1]

theorem sel_sum (tg : ℕ → ℕ → List (ℕ × ℕ)) (l : List ((ℕ × ℕ) × ℕ)) (M : ℕ → K) (i j : ℕ) :
    ((sel (plOf tg l) i).map fun x => if x.1 = j then M x.2 else 0).sum
      = (l.map fun e => ((tgt tg e.1).map fun ab => if ab.1 = i ∧ ab.2 = j then M e.2 else 0).sum).sum := by
  rw [sel_plOf]
  induction l with
  | nil => rfl
  | cons e l ih =>
    rw [List.flatMap_cons, List.map_append, List.sum_append, ih, List.map_cons, List.sum_cons]
    congr 1
    generalize tgt tg e.1 = t
    induction t with
    | nil => rfl
    | cons ab t iht =>
      rw [List.map_cons, List.sum_cons, ← iht]
      by_cases h : ab.1 = i
      · rw [List.filter_cons_of_pos (by simpa using h)]
        simp [h]
      · rw [List.filter_cons_of_neg (by simpa using h)]
        simp [h]

theorem trip_withDiag (body : List (ℕ × ℕ)) (n : ℕ) (M : ℕ → K) :
    trip (withDiag body n) M = trip body M ++ diagList 0 0 n fun a => M (body.length + a) := by
  unfold trip withDiag
  rw [List.zipIdx_append, List.map_append]
  congr 1
  apply List.ext_getElem
  · simp [diagList]
  · intro k h1 h2
    simp [diagList]

theorem both_sum (body : List ((ℕ × ℕ) × ℕ)) (M : ℕ → K) (i j : ℕ) :
    (body.map fun e => ((tgt both e.1).map fun ab => if ab.1 = i ∧ ab.2 = j then M e.2 else 0).sum).sum
      = symEntry (body.map fun e => (⟨e.1.1, e.1.2, M e.2⟩ : Ent K)) i j := by
  induction body with
  | nil => rfl
  | cons e l ih =>
    rw [List.map_cons, List.sum_cons, ih, List.map_cons, symEntry_cons]
    congr 1
    obtain ⟨⟨r, c⟩, k⟩ := e
    by_cases h : r = c
    · subst h; simp [tgt]
    · simp [tgt, both, h]

theorem transposed_sum (body : List ((ℕ × ℕ) × ℕ)) (M : ℕ → K) (i j : ℕ) :
    (body.map fun e => ((tgt transposed e.1).map fun ab => if ab.1 = i ∧ ab.2 = j then M e.2 else 0).sum).sum
      = entry (body.map fun e => (⟨e.1.1, e.1.2, M e.2⟩ : Ent K)) j i := by
  induction body with
  | nil => rfl
  | cons e l ih =>
    rw [List.map_cons, List.sum_cons, ih, List.map_cons, entry_cons]
    congr 1
    obtain ⟨⟨r, c⟩, k⟩ := e
    by_cases h : r = c
    · subst h; simp [tgt, and_comm]
    · simp [tgt, transposed, h, and_comm]

/-! ## C51 -/

/-- **C51, both triangles (STRUMPACK, Ginkgo, ReSolve).** After the first call and after any number of
later ones the matrix handed to the solver is the symmetric matrix given by the triplets with the values
of the last call. -/
theorem C51_sym {srt : SortFn} (hs : Sorts srt) {n : ℕ} {body : List (ℕ × ℕ)} (hb : BodyOk n body)
    (g : ℕ → ℕ) (M0 : ℕ → K) (Ms : List (ℕ → K)) :
    ∃ C, solverRun both srt n (withDiag body n) g M0 Ms = some C ∧ C.A.nrows = n ∧
      ∀ i < n, ∀ j < n, get C.A i j = symEntry (trip (withDiag body n) (lastVals M0 Ms)) i j := by
  obtain ⟨C, R, h1, h2, h3⟩ := solverRun_spec both hs (good_both n) hb g M0 Ms
  refine ⟨C, h1, h2.nrows, fun i hi j hj => ?_⟩
  rw [h2.get hi (oneDiag_plOf both n (good_both n) _ hb.zip.1 hb.zip.2 i) (h3 i hi), sel_sum, both_sum,
    trip_withDiag, symEntry_append, symEntry_diagList, Nat.add_sub_cancel]
  congr 1
  by_cases hij : i = j
  · rw [if_pos hij, if_pos ⟨hij, by omega, by omega⟩]; rfl
  · rw [if_neg hij, if_neg fun h => hij h.1]

/-- **C51, upper triangle (PARDISO).** If the triplets lie in the lower triangle, the matrix handed to
the solver is the upper triangle of the symmetric matrix they stand for. -/
theorem C51_pardiso_partial {srt : SortFn} (hs : Sorts srt) {n : ℕ} {body : List (ℕ × ℕ)} (hb : BodyOk n body)
    (hlow : ∀ e ∈ body, e.2 ≤ e.1) (g : ℕ → ℕ) (M0 : ℕ → K) (Ms : List (ℕ → K)) :
    ∃ C, solverRun transposed srt n (withDiag body n) g M0 Ms = some C ∧ C.A.nrows = n ∧
      ∀ i < n, ∀ j < n, get C.A i j
        = if i ≤ j then symEntry (trip (withDiag body n) (lastVals M0 Ms)) i j else 0 := by
  obtain ⟨C, R, h1, h2, h3⟩ := solverRun_spec transposed hs (good_transposed n) hb g M0 Ms
  refine ⟨C, h1, h2.nrows, fun i hi j hj => ?_⟩
  have hz : ∀ a b, b > a → entry (trip body (lastVals M0 Ms)) a b = 0 := by
    intro a b hab
    unfold entry
    apply List.sum_eq_zero
    intro x hx
    simp only [trip, List.map_map, List.mem_map, Function.comp] at hx
    obtain ⟨e, he, rfl⟩ := hx
    have : e.1 ∈ body := by
      have := List.mem_map_of_mem (f := Prod.fst) he
      rwa [zipIdx_fst] at this
    have := hlow _ this
    exact if_neg (by omega)
  rw [h2.get hi (oneDiag_plOf transposed n (good_transposed n) _ hb.zip.1 hb.zip.2 i) (h3 i hi), sel_sum,
    transposed_sum, trip_withDiag, symEntry_append, symEntry_diagList, Nat.add_sub_cancel, symEntry_eq]
  change entry (trip body (lastVals M0 Ms)) j i + _ = _
  by_cases hij : i = j
  · subst hij
    rw [if_pos rfl, if_pos le_rfl, if_pos rfl, if_pos ⟨rfl, by omega, by omega⟩]; rfl
  · rw [if_neg hij, if_neg (c := i = j) hij, if_neg (c := i = j ∧ _) fun h => hij h.1]
    rcases Nat.lt_or_ge i j with h | h
    · rw [if_pos (Nat.le_of_lt h), hz i j h]; ring
    · rw [if_neg (fun h' => hij (Nat.le_antisymm h' h)), hz j i (by omega)]; ring

/-- **C51, format.** If the triplets come in an order in which the rows of the result are increasing, the
arrays are a valid compressed-row matrix with strictly increasing columns and the diagonal of every row
stored; the pattern never changes afterwards. -/
theorem C51_format (tg : ℕ → ℕ → List (ℕ × ℕ)) (htg : tg = both ∨ tg = transposed) {srt : SortFn}
    (hs : Sorts srt) {n : ℕ} {body : List (ℕ × ℕ)} (hb : BodyOk n body) (hinc : Increasing tg body)
    (g : ℕ → ℕ) (M0 : ℕ → K) (Ms : List (ℕ → K)) :
    ∃ C, solverRun tg srt n (withDiag body n) g M0 Ms = some C ∧ Valid C.A ∧
      (∀ i < n, ∃ p, C.A.ptr i ≤ p ∧ p < C.A.ptr (i + 1) ∧ C.A.col p = i) ∧
      ∃ C0, solverRun tg srt n (withDiag body n) g M0 [] = some C0 ∧
        C0.A.ptr = C.A.ptr ∧ C0.A.col = C.A.col ∧ C0.A.nnz = C.A.nnz := by
  have hg : GoodTg tg n := by rcases htg with rfl | rfl; exacts [good_both n, good_transposed n]
  obtain ⟨C, R, h1, h2, h3⟩ := solverRun_spec tg hs hg hb g M0 Ms
  have hzinc : body.zipIdx.Pairwise fun a b => ∀ x ∈ tgt tg a.1, ∀ y ∈ tgt tg b.1, x.1 = y.1 → x.2 < y.2 := by
    have := hinc; rw [Increasing, ← zipIdx_fst body 0, List.pairwise_map] at this; exact this
  have hS : ∀ i, ((sel (plOf tg body.zipIdx) i).map Prod.fst).Pairwise (· < ·) := by
    intro i
    rw [List.pairwise_map, sel_plOf, List.pairwise_flatMap]
    refine ⟨?_, ?_⟩
    · rintro ⟨⟨r, c⟩, k⟩ -
      by_cases hrc : r = c
      · subst hrc
        simp only [tgt, if_true]
        by_cases hi : r = i
        · subst hi; simp
        · simp [hi]
      · rcases htg with rfl | rfl
        · simp only [tgt, if_neg hrc, both]
          by_cases hi : r = i
          · subst hi; simp [Ne.symm hrc]
          · by_cases hi' : c = i
            · subst hi'; simp [hrc]
            · simp [hi, hi']
        · simp only [tgt, if_neg hrc, transposed]
          by_cases hi' : c = i
          · subst hi'; simp
          · simp [hi']
    · refine hzinc.imp ?_
      intro a b hab x hx y hy
      simp only [List.mem_map, List.mem_filter, beq_iff_eq] at hx hy
      obtain ⟨x', ⟨hx1, hx2⟩, rfl⟩ := hx
      obtain ⟨y', ⟨hy1, hy2⟩, rfl⟩ := hy
      exact hab x' hx1 y' hy1 (hx2.trans hy2.symm)
  have hSr : ∀ i, ∀ x ∈ sel (plOf tg body.zipIdx) i, x.1 < n := by
    intro i x hx
    rw [sel_plOf, List.mem_flatMap] at hx
    obtain ⟨⟨⟨r, c⟩, k⟩, he, hx⟩ := hx
    simp only [List.mem_map, List.mem_filter] at hx
    obtain ⟨ab, ⟨hab, -⟩, rfl⟩ := hx
    have hrc' := hb.zip.1 _ he
    simp only [tgt] at hab
    split_ifs at hab with hrc
    · simp only [List.mem_singleton] at hab; subst hab; exact hrc'.2
    · exact (hg r c hrc hrc'.1 hrc'.2 ab hab).2.2
  have hRinc : ∀ i < n, ((R i).map Prod.fst).Pairwise (· < ·) ∧ (∃ x ∈ R i, x.1 = i) ∧ ∀ x ∈ R i, x.1 < n := by
    intro i hi
    rcases (h2.rows i hi).row with ⟨hx, hR⟩ | ⟨hx, hp, hle⟩
    · rw [hR]; exact ⟨hS i, hx, hSr i⟩
    · refine ⟨?_, ⟨(i, body.length + n - n + i), hp.mem_iff.mpr (by simp), rfl⟩, fun x hxR => ?_⟩
      · have hnd : ((R i).map Prod.fst).Nodup := by
          rw [(hp.map Prod.fst).nodup_iff, List.map_append, List.nodup_append]
          refine ⟨(hS i).imp (fun h => Nat.ne_of_lt h), by simp, ?_⟩
          intro a ha b hb'
          simp only [List.map_cons, List.map_nil, List.mem_singleton] at hb'
          subst hb'
          rw [List.mem_map] at ha
          obtain ⟨x, h, rfl⟩ := ha
          exact hx x h
        exact (hle.and hnd).imp fun h => lt_of_le_of_ne h.1 h.2
      · rcases List.mem_append.mp (hp.mem_iff.mp hxR) with h | h
        · exact hSr i x h
        · simp only [List.mem_singleton] at h; subst h; exact hi
  refine ⟨C, h1, ⟨?_, ?_, ?_, ?_, ?_, ?_⟩, ?_, ?_⟩
  · rw [h2.csr]; rfl
  · rw [h2.ptrs.ptr 0 (by omega)]; rfl
  · intro i hi
    rw [h2.nrows] at hi
    rw [h2.ptrs.succ hi]; omega
  · rw [h2.nrows, h2.ptrs.ptr n le_rfl, ← h2.ptrs.nnz]
  · intro p hp
    obtain ⟨i, hi, t, ht, rfl⟩ := h2.ptrs.find hp
    have ht' : t < (R i).length := by rw [h2.len i hi]; exact ht
    rw [(h2.cols i hi t ht').1, h2.csr]
    exact (hRinc i hi).2.2 _ (List.getElem_mem ht')
  · intro i hi p hp1 hp2
    rw [h2.nrows] at hi
    rw [h2.ptrs.succ hi] at hp2
    obtain ⟨t, rfl⟩ := Nat.exists_eq_add_of_le hp1
    have hl := h2.len i hi
    have ht : t + 1 < (R i).length := by omega
    rw [(h2.cols i hi t (by omega)).1, Nat.add_assoc, (h2.cols i hi (t + 1) ht).1]
    have := List.pairwise_iff_getElem.mp (hRinc i hi).1 t (t + 1) (by simp; omega) (by simpa using ht)
      (Nat.lt_succ_self t)
    simpa using this
  · intro i hi
    obtain ⟨x, hx, hxi⟩ := (hRinc i hi).2.1
    obtain ⟨t, ht, rfl⟩ := List.getElem_of_mem hx
    refine ⟨C.A.ptr i + t, by omega, ?_, ?_⟩
    · rw [h2.ptrs.succ hi, ← h2.len i hi]; omega
    · rw [(h2.cols i hi t ht).1]; exact hxi
  · obtain ⟨C0, e0⟩ : ∃ C0, convSym tg srt n (withDiag body n) M0 g = some C0 := by
      obtain ⟨C0, _, e0, _⟩ := convSym_spec tg hs n hg body
          ((List.range n).map fun i => (i, i)) (by simp) hb.range hb.diag M0 g
      exact ⟨C0, e0⟩
    refine ⟨C0, by rw [solverRun, e0]; rfl, ?_⟩
    rw [solverRun, e0, Option.map_some, Option.some.injEq] at h1
    have : ∀ (Ms : List (ℕ → K)) (C : Conv K),
        (Ms.foldl (fun C M => refreshSym n (withDiag body n).length M C) C).A.ptr = C.A.ptr ∧
        (Ms.foldl (fun C M => refreshSym n (withDiag body n).length M C) C).A.col = C.A.col ∧
        (Ms.foldl (fun C M => refreshSym n (withDiag body n).length M C) C).A.nnz = C.A.nnz := by
      intro Ms
      induction Ms with
      | nil => intro C; exact ⟨rfl, rfl, rfl⟩
      | cons M Ms ih => intro C; obtain ⟨a, b, c⟩ := ih (refreshSym n _ M C); exact ⟨a, b, c⟩
    obtain ⟨a, b, c⟩ := this Ms C0
    rw [h1] at a b c
    exact ⟨a.symm, b.symm, c.symm⟩

/-! ## The systems HiOp assembles -/

/-- The positions and values of a triplet matrix. -/
def posOf (es : List (Ent K)) : List (ℕ × ℕ) := es.map fun e => (e.r, e.c)

/-- The values of a triplet matrix. -/
def valOf (es : List (Ent K)) : ℕ → K := fun k => (es.map fun e => e.v).getD k 0

theorem trip_posOf (es : List (Ent K)) : trip (posOf es) (valOf es) = es := by
  apply List.ext_getElem
  · simp [trip, posOf]
  · intro k h1 h2
    simp [trip, posOf, valOf, h2]

/-- The positions before the additional diagonal, (x, yc, yd) system. -/
def bodyXYcYd (n mc : ℕ) (S : SpMats K) : List (ℕ × ℕ) :=
  posOf (S.H ++ shift n 0 S.Jc ++ shift (n + mc) 0 S.Jd)

/-- The positions before the additional diagonal, (x, d, yc, yd) system. -/
def bodyXDYcYd (n mc m : ℕ) (S : SpMats K) : List (ℕ × ℕ) :=
  posOf (S.H ++ shift (n + m) 0 S.Jc ++ shift (n + m + mc) 0 S.Jd
    ++ diagList (n + m + mc) n m (fun _ => -1))

theorem posOf_diagList (a n : ℕ) (v : ℕ → K) :
    posOf (diagList a a n v) = (List.range n).map fun i => (a + i, a + i) := by
  simp [posOf, diagList]

theorem range_two (a b : ℕ) : ((List.range (a + b)).map fun i => (i, i)) =
    ((List.range a).map fun i => (0 + i, 0 + i)) ++ (List.range b).map fun i => (a + i, a + i) := by
  rw [List.range_add]; simp

theorem posOf_tripXYcYd {n mc m : ℕ} (S : SpMats K) (dx : RVec K n) (dl : Deltas K n mc m)
    (ddInv : RVec K m) :
    posOf (tripXYcYd S dx dl ddInv) = withDiag (bodyXYcYd n mc S) (n + mc + m) := by
  unfold withDiag bodyXYcYd
  rw [List.range_add, List.range_add]
  simp only [tripXYcYd, posOf, List.map_append, diagList, List.map_map, List.append_assoc, Nat.zero_add]
  rfl

theorem posOf_tripXDYcYd {n mc m : ℕ} (S : SpMats K) (dx : RVec K n) (dd : RVec K m)
    (dl : Deltas K n mc m) :
    posOf (tripXDYcYd S dx dd dl) = withDiag (bodyXDYcYd n mc m S) (n + m + mc + m) := by
  unfold withDiag bodyXDYcYd
  rw [List.range_add, List.range_add, List.range_add]
  simp only [tripXDYcYd, posOf, List.map_append, diagList, List.map_map, List.append_assoc, Nat.zero_add]
  rfl

/-- No diagonal position of the Hessian twice. -/
def DiagOnce (H : List (Ent K)) : Prop := (posOf H).Pairwise fun a b => a.1 = a.2 → a ≠ b

theorem bodyOk_append {N : ℕ} {a b : List (ℕ × ℕ)} (ha : BodyOk N a) (hb : ∀ e ∈ b, e.1 < N ∧ e.2 < N ∧ e.1 ≠ e.2) :
    BodyOk N (a ++ b) := by
  refine ⟨fun e he => ?_, ?_⟩
  · rcases List.mem_append.mp he with h | h
    · exact ha.range e h
    · exact ⟨(hb e h).1, (hb e h).2.1⟩
  · rw [List.pairwise_append]
    refine ⟨ha.diag, List.pairwise_of_forall_mem_list fun x hx y _ h => absurd h (hb x hx).2.2, ?_⟩
    intro x _ y hy hxd hxy
    subst hxy
    exact (hb x hy).2.2 hxd

theorem mem_posOf_shift {es : List (Ent K)} {p q d : ℕ} (h : InRange p q es) {e : ℕ × ℕ}
    (he : e ∈ posOf (shift d 0 es)) : d ≤ e.1 ∧ e.1 < d + p ∧ e.2 < q := by
  simp only [posOf, shift, List.map_map, List.mem_map, Function.comp] at he
  obtain ⟨x, hx, rfl⟩ := he
  have := h x hx
  simp only
  omega

theorem bodyOk_H {n N : ℕ} {H : List (Ent K)} (h : InRange n n H) (hd : DiagOnce H) (hN : n ≤ N) :
    BodyOk N (posOf H) := by
  refine ⟨fun e he => ?_, hd⟩
  simp only [posOf, List.mem_map] at he
  obtain ⟨x, hx, rfl⟩ := he
  have := h x hx
  simp only
  omega

theorem bodyOk_XYcYd {n mc m : ℕ} (S : SpMats K) (ok : S.Ok n mc m) (hd : DiagOnce S.H) :
    BodyOk (n + mc + m) (bodyXYcYd n mc S) := by
  unfold bodyXYcYd posOf
  rw [List.map_append, List.map_append]
  refine bodyOk_append (bodyOk_append (bodyOk_H ok.rH hd (by omega)) fun e he => ?_) fun e he => ?_
  · have := mem_posOf_shift ok.rJc he; omega
  · have := mem_posOf_shift ok.rJd he; omega

theorem bodyOk_XDYcYd {n mc m : ℕ} (S : SpMats K) (ok : S.Ok n mc m) (hd : DiagOnce S.H) :
    BodyOk (n + m + mc + m) (bodyXDYcYd n mc m S) := by
  unfold bodyXDYcYd posOf
  rw [List.map_append, List.map_append, List.map_append]
  refine bodyOk_append (bodyOk_append (bodyOk_append (bodyOk_H ok.rH hd (by omega)) fun e he => ?_)
    fun e he => ?_) fun e he => ?_
  · have := mem_posOf_shift ok.rJc he; omega
  · have := mem_posOf_shift ok.rJd he; omega
  · simp only [diagList, List.map_map, List.mem_map, List.mem_range, Function.comp] at he
    obtain ⟨a, ha, rfl⟩ := he
    simp only
    omega

/-- Exact solutions of the system whose compressed-row matrix was handed over. -/
def CsrSolves (N : ℕ) (A : CsrMat K) (lin : (ℕ → K) → Option (ℕ → K)) : Prop :=
  ∀ rhs x, lin rhs = some x → ∀ r < N, ∑ c ∈ Finset.range N, get A r c * x c = rhs r

/-- **C51, the (x, yc, yd) system.** Assembling the system and handing it over to a solver that stores
both triangles: whatever was factorized before with the same pattern, exact solutions of the matrix the
solver holds solve the system in `(x, yc, yd)`. -/
theorem C51_xycyd {n mc m : ℕ} (S : SpMats K) (dx : RVec K n) (dl : Deltas K n mc m) (ddInv : RVec K m)
    (st : Store K) (ok : S.Ok n mc m) (hd : DiagOnce S.H) {srt : SortFn} (hs : Sorts srt) (g : ℕ → ℕ)
    (M0 : ℕ → K) (Ms : List (ℕ → K)) :
    ∃ st' C, buildXYcYd S dx dl ddInv st = some st' ∧
      solverRun both srt (n + mc + m)
        (posOf (toList st' (S.H.length + S.Jc.length + S.Jd.length + (n + mc + m)))) g M0
        (Ms ++ [valOf (toList st' (S.H.length + S.Jc.length + S.Jd.length + (n + mc + m)))]) = some C ∧
      ∀ (lin : (ℕ → K) → Option (ℕ → K)) (buf : ℕ → K), CsrSolves (n + mc + m) C.A lin →
        Solves3 (S.toMats n mc m) (fun i => dx i + dl.wx i) dl.cc ddInv (pack3 lin buf) := by
  obtain ⟨st', h1, h2⟩ := buildXYcYd_eq S dx dl ddInv st ok
  obtain ⟨st'', h1', h3⟩ := C18_sparse_assembly S dx dl ddInv st ok
  obtain rfl : st' = st'' := by rw [h1] at h1'; exact Option.some.inj h1'
  set T := toList st' (S.H.length + S.Jc.length + S.Jd.length + (n + mc + m)) with hT
  have hp : posOf T = withDiag (bodyXYcYd n mc S) (n + mc + m) := by rw [h2]; exact posOf_tripXYcYd S dx dl ddInv
  obtain ⟨C, e1, -, e2⟩ := C51_sym hs (bodyOk_XYcYd S ok hd) g M0 (Ms ++ [valOf T])
  refine ⟨st', C, h1, by rw [hp]; exact e1, fun lin buf hl => h3 lin buf fun rhs x hx r hr => ?_⟩
  rw [← hl rhs x hx r hr]
  refine Finset.sum_congr rfl fun c hc => ?_
  rw [e2 r hr c (Finset.mem_range.mp hc), ← hp]
  have : lastVals M0 (Ms ++ [valOf T]) = valOf T := by simp [lastVals]
  rw [this, trip_posOf]

/-- **C51, the (x, d, yc, yd) system.** -/
theorem C51_xdycyd {n mc m : ℕ} (S : SpMats K) (dx : RVec K n) (dd : RVec K m) (dl : Deltas K n mc m)
    (st : Store K) (ok : S.Ok n mc m) (hd : DiagOnce S.H) {srt : SortFn} (hs : Sorts srt) (g : ℕ → ℕ)
    (M0 : ℕ → K) (Ms : List (ℕ → K)) :
    ∃ st' C, buildXDYcYd S dx dd dl st = some st' ∧
      solverRun both srt (n + m + mc + m)
        (posOf (toList st' (S.H.length + S.Jc.length + S.Jd.length + (m + n + m + mc + m)))) g M0
        (Ms ++ [valOf (toList st' (S.H.length + S.Jc.length + S.Jd.length + (m + n + m + mc + m)))])
        = some C ∧
      ∀ (lin : (ℕ → K) → Option (ℕ → K)) (buf : ℕ → K), CsrSolves (n + m + mc + m) C.A lin →
        Solves4 (S.toMats n mc m) (fun i => dx i + dl.wx i) (fun i => dd i + dl.wd i) dl.cc dl.cd
          (pack4 lin buf) := by
  obtain ⟨st', h1, h2⟩ := buildXDYcYd_eq S dx dd dl st ok
  obtain ⟨st'', h1', h3⟩ := C19_sparse_assembly S dx dd dl st ok
  obtain rfl : st' = st'' := by rw [h1] at h1'; exact Option.some.inj h1'
  set T := toList st' (S.H.length + S.Jc.length + S.Jd.length + (m + n + m + mc + m)) with hT
  have hp : posOf T = withDiag (bodyXDYcYd n mc m S) (n + m + mc + m) := by
    rw [h2]; exact posOf_tripXDYcYd S dx dd dl
  obtain ⟨C, e1, -, e2⟩ := C51_sym hs (bodyOk_XDYcYd S ok hd) g M0 (Ms ++ [valOf T])
  refine ⟨st', C, h1, by rw [hp]; exact e1, fun lin buf hl => h3 lin buf fun rhs x hx r hr => ?_⟩
  rw [← hl rhs x hx r hr]
  refine Finset.sum_congr rfl fun c hc => ?_
  rw [e2 r hr c (Finset.mem_range.mp hc), ← hp]
  have : lastVals M0 (Ms ++ [valOf T]) = valOf T := by simp [lastVals]
  rw [this, trip_posOf]

/-! ## The order of the assembled triplets -/

theorem mem_tgt_both {a x : ℕ × ℕ} (h : x ∈ tgt both a) :
    (x.1 = a.1 ∧ x.2 = a.2) ∨ (a.1 ≠ a.2 ∧ x.1 = a.2 ∧ x.2 = a.1) := by
  unfold tgt at h
  split_ifs at h with e
  · rw [List.mem_singleton] at h; subst h; exact .inl ⟨rfl, rfl⟩
  · simp only [both, List.mem_cons, List.not_mem_nil, or_false] at h
    rcases h with rfl | rfl
    · exact .inl ⟨rfl, rfl⟩
    · exact .inr ⟨e, rfl, rfl⟩

/-- A sorted list of triplets in one triangle. -/
theorem increasing_sorted {es : List (Ent K)} (hs : Sorted es)
    (ht : (∀ e ∈ es, e.r ≤ e.c) ∨ ∀ e ∈ es, e.c ≤ e.r) : Increasing both (posOf es) := by
  unfold Increasing posOf
  rw [List.pairwise_map]
  refine hs.imp_of_mem ?_
  intro a b ha hb hab x hx y hy hxy
  rcases mem_tgt_both hx with h1 | h1 <;> rcases mem_tgt_both hy with h2 | h2 <;> simp only at h1 h2 <;>
    rcases ht with ht | ht <;> have h3 := ht a ha <;> have h4 := ht b hb <;> omega

theorem sorted_shift {es : List (Ent K)} (hs : Sorted es) (d : ℕ) : Sorted (shift d 0 es) := by
  unfold Sorted shift
  rw [List.pairwise_map]
  refine hs.imp ?_
  intro a b h
  simp only
  omega

theorem increasing_append {a b : List (ℕ × ℕ)} (ha : Increasing both a) (hb : Increasing both b)
    (h : ∀ x ∈ a, ∀ y ∈ b, (x.1 = y.1 → x.2 < y.2) ∧ (x.1 = y.2 → x.2 < y.1) ∧ (x.2 = y.1 → x.1 < y.2) ∧
      (x.2 = y.2 → x.1 < y.1)) : Increasing both (a ++ b) := by
  unfold Increasing
  rw [List.pairwise_append]
  refine ⟨ha, hb, ?_⟩
  intro p hp q hq x hx y hy hxy
  have := h p hp q hq
  rcases mem_tgt_both hx with h1 | h1 <;> rcases mem_tgt_both hy with h2 | h2 <;> omega

theorem mem_posOf_range {es : List (Ent K)} {p q : ℕ} (h : InRange p q es) {e : ℕ × ℕ}
    (he : e ∈ posOf es) : e.1 < p ∧ e.2 < q := by
  simp only [posOf, List.mem_map] at he
  obtain ⟨x, hx, rfl⟩ := he
  exact h x hx

/-- The triplets of the (x, yc, yd) system come in an order in which rows are increasing, for sorted
Jacobians and a sorted Hessian given by either triangle. -/
theorem increasing_XYcYd {n mc m : ℕ} (S : SpMats K) (ok : S.Ok n mc m) (hH : Sorted S.H)
    (hJc : Sorted S.Jc) (hJd : Sorted S.Jd)
    (ht : (∀ e ∈ S.H, e.r ≤ e.c) ∨ ∀ e ∈ S.H, e.c ≤ e.r) : Increasing both (bodyXYcYd n mc S) := by
  have hlow : ∀ (d p : ℕ) (es : List (Ent K)), n ≤ d → InRange p n es → ∀ e ∈ shift d 0 es, e.c ≤ e.r := by
    intro d p es hd hr e he
    simp only [shift, List.mem_map] at he
    obtain ⟨x, hx, rfl⟩ := he
    have := (hr x hx).2
    simp only; omega
  unfold bodyXYcYd posOf
  rw [List.map_append, List.map_append]
  refine increasing_append (increasing_append (increasing_sorted hH ht)
    (increasing_sorted (sorted_shift hJc n) (.inr (hlow n mc _ le_rfl ok.rJc))) ?_)
    (increasing_sorted (sorted_shift hJd (n + mc)) (.inr (hlow _ m _ (by omega) ok.rJd))) ?_
  · intro x hx y hy
    have h1 := mem_posOf_range ok.rH hx
    have h2 := mem_posOf_shift ok.rJc hy
    omega
  · intro x hx y hy
    have h2 := mem_posOf_shift ok.rJd hy
    rcases List.mem_append.mp hx with hx | hx
    · have h1 := mem_posOf_range ok.rH hx; omega
    · have h1 := mem_posOf_shift ok.rJc hx; omega

/-- The same for the (x, d, yc, yd) system. -/
theorem increasing_XDYcYd {n mc m : ℕ} (S : SpMats K) (ok : S.Ok n mc m) (hH : Sorted S.H)
    (hJc : Sorted S.Jc) (hJd : Sorted S.Jd)
    (ht : (∀ e ∈ S.H, e.r ≤ e.c) ∨ ∀ e ∈ S.H, e.c ≤ e.r) : Increasing both (bodyXDYcYd n mc m S) := by
  have hlow : ∀ (d p : ℕ) (es : List (Ent K)), n ≤ d → InRange p n es → ∀ e ∈ shift d 0 es, e.c ≤ e.r := by
    intro d p es hd hr e he
    simp only [shift, List.mem_map] at he
    obtain ⟨x, hx, rfl⟩ := he
    have := (hr x hx).2
    simp only; omega
  have hdl : ∀ e ∈ posOf (diagList (n + m + mc) n m (fun _ => (-1 : K))), ∃ a < m, e.1 = n + m + mc + a ∧ e.2 = n + a := by
    intro e he
    simp only [posOf, diagList, List.map_map, List.mem_map, List.mem_range, Function.comp] at he
    obtain ⟨a, ha, rfl⟩ := he
    exact ⟨a, ha, rfl, rfl⟩
  unfold bodyXDYcYd
  have happ : ∀ a b : List (Ent K), posOf (a ++ b) = posOf a ++ posOf b := fun a b => by simp [posOf]
  rw [happ, happ, happ]
  refine increasing_append (increasing_append (increasing_append (increasing_sorted hH ht)
    (increasing_sorted (sorted_shift hJc _) (.inr (hlow _ mc _ (by omega) ok.rJc))) ?_)
    (increasing_sorted (sorted_shift hJd _) (.inr (hlow _ m _ (by omega) ok.rJd))) ?_)
    (increasing_sorted ?_ (.inr ?_)) ?_
  · intro x hx y hy
    have h1 := mem_posOf_range ok.rH hx
    have h2 := mem_posOf_shift ok.rJc hy
    omega
  · intro x hx y hy
    have h2 := mem_posOf_shift ok.rJd hy
    rcases List.mem_append.mp hx with hx | hx
    · have h1 := mem_posOf_range ok.rH hx; omega
    · have h1 := mem_posOf_shift ok.rJc hx; omega
  · unfold Sorted diagList
    rw [List.pairwise_map]
    refine List.pairwise_lt_range.imp ?_
    intro a b h
    simp only; omega
  · intro e he
    simp only [diagList, List.mem_map, List.mem_range] at he
    obtain ⟨a, ha, rfl⟩ := he
    simp only; omega
  · intro x hx y hy
    obtain ⟨a, ha, h2⟩ := hdl y hy
    rcases List.mem_append.mp hx with hx | hx
    · rcases List.mem_append.mp hx with hx | hx
      · have h1 := mem_posOf_range ok.rH hx; omega
      · have h1 := mem_posOf_shift ok.rJc hx; omega
    · have h1 := mem_posOf_shift ok.rJd hx; omega

/-- **C51, format of the assembled systems.** For sorted Jacobians and a sorted Hessian given by either
triangle, the arrays handed to a solver that stores both triangles are a valid compressed-row matrix with
strictly increasing columns, for both symmetric systems. -/
theorem C51_format_assembled {n mc m : ℕ} (S : SpMats K) (ok : S.Ok n mc m) (hH : Sorted S.H)
    (hJc : Sorted S.Jc) (hJd : Sorted S.Jd) (ht : (∀ e ∈ S.H, e.r ≤ e.c) ∨ ∀ e ∈ S.H, e.c ≤ e.r)
    {srt : SortFn} (hs : Sorts srt) (g : ℕ → ℕ) (M0 : ℕ → K) (Ms : List (ℕ → K)) :
    (∃ C, solverRun both srt (n + mc + m) (withDiag (bodyXYcYd n mc S) (n + mc + m)) g M0 Ms = some C ∧
      Valid C.A) ∧
    ∃ C, solverRun both srt (n + m + mc + m) (withDiag (bodyXDYcYd n mc m S) (n + m + mc + m)) g M0 Ms
      = some C ∧ Valid C.A := by
  have hd : DiagOnce S.H := by
    unfold DiagOnce posOf
    rw [List.pairwise_map]
    refine hH.imp ?_
    intro a b h _ e
    simp only [Prod.mk.injEq] at e
    omega
  obtain ⟨C, h1, h2, -⟩ := C51_format both (.inl rfl) hs (bodyOk_XYcYd S ok hd)
    (increasing_XYcYd S ok hH hJc hJd ht) g M0 Ms
  obtain ⟨C', h1', h2', -⟩ := C51_format both (.inl rfl) hs (bodyOk_XDYcYd S ok hd)
    (increasing_XDYcYd S ok hH hJc hJd ht) g M0 Ms
  exact ⟨⟨C, h1, h2⟩, C', h1', h2'⟩

/-! ## PARDISO and the triangle of the Hessian -/

/-- A sorting routine. -/
def insSort : SortFn := fun key l => l.insertionSort fun a b => key a ≤ key b

theorem insSort_sorts : Sorts insSort := by
  intro key l
  refine ⟨List.perm_insertionSort _ l, ?_⟩
  rw [List.pairwise_map]
  have : Std.Total fun a b : ℕ => key a ≤ key b := ⟨fun a b => le_total _ _⟩
  have : IsTrans ℕ fun a b => key a ≤ key b := ⟨fun a b c => le_trans⟩
  exact List.pairwise_insertionSort _ l

/-- The problem with Hessian `[[2, 1], [1, 2]]`, upper triangle, and no constraints. -/
def upperSp : SpMats ℚ := ⟨[⟨0, 0, 2⟩, ⟨0, 1, 1⟩, ⟨1, 1, 2⟩], [], []⟩

/-- **C51, PARDISO, refuted for upper triangles.** The class of the Hessian documents the upper triangle
(hiopMatrixSparseTriplet.hpp:365), the wrapper expects the lower one
(hiopLinSolverSparsePARDISO.cpp:113): with the upper triangle the off-diagonal entries of the Hessian end
up below the diagonal of the matrix PARDISO reads as an upper triangle. -/
theorem C51_pardiso_upper_false : ∃ (S : SpMats ℚ) (srt : SortFn) (M : ℕ → ℚ) (C : Conv ℚ),
    S.Ok 2 0 0 ∧ DiagOnce S.H ∧ (∀ e ∈ S.H, e.r ≤ e.c) ∧ Sorts srt ∧
    (∀ i j, symEntry (trip (withDiag (bodyXYcYd 2 0 S) 2) M) i j = symEntry S.H i j) ∧
    solverRun transposed srt 2 (withDiag (bodyXYcYd 2 0 S) 2) (fun _ => 0) M [] = some C ∧
    symEntry S.H 0 1 = 1 ∧ get C.A 0 1 = 0 ∧ get C.A 1 0 = 1 := by
  have hbody : bodyXYcYd 2 0 upperSp = [(0, 0), (0, 1), (1, 1)] := by
    simp [bodyXYcYd, posOf, upperSp, shift]
  have hd : DiagOnce upperSp.H := by
    simp [DiagOnce, posOf, upperSp]
  have hrH : InRange 2 2 upperSp.H := by
    intro e he
    simp only [upperSp, List.mem_cons, List.not_mem_nil, or_false] at he
    rcases he with rfl | rfl | rfl <;> decide
  have hb : BodyOk 2 (bodyXYcYd 2 0 upperSp) := by
    have := bodyOk_H hrH hd (le_refl 2)
    rw [hbody]
    exact this
  set M : ℕ → ℚ := fun k => if k = 0 ∨ k = 2 then 2 else if k = 1 then 1 else 0 with hM
  obtain ⟨C, R, h1, h2, h3⟩ := solverRun_spec transposed insSort_sorts (good_transposed 2) hb
    (fun _ => 0) M []
  have hg : ∀ i < 2, ∀ j, get C.A i j = _ := fun i hi j =>
    h2.get hi (oneDiag_plOf transposed 2 (good_transposed 2) _ hb.zip.1 hb.zip.2 i) (h3 i hi) j
  refine ⟨upperSp, insSort, M, C, ⟨?_, List.Pairwise.nil, List.Pairwise.nil, hrH, ?_, ?_⟩, hd, ?_,
    insSort_sorts, ?_, h1, ?_, ?_, ?_⟩
  · simp [RowSorted, upperSp]
  · intro e he; simp [upperSp] at he
  · intro e he; simp [upperSp] at he
  · intro e he
    simp only [upperSp, List.mem_cons, List.not_mem_nil, or_false] at he
    rcases he with rfl | rfl | rfl <;> decide
  · intro i j
    rw [trip_withDiag, symEntry_append, symEntry_diagList, hbody]
    have : trip [(0, 0), (0, 1), (1, 1)] M = upperSp.H := by
      simp [trip, upperSp, hM]
    rw [this]
    have : ∀ a, M (3 + a) = 0 := fun a => by simp only [hM]; rw [if_neg (by omega), if_neg (by omega)]
    simp [this]
  · simp [symEntry, upperSp]
  · rw [hg 0 (by omega), sel_sum, transposed_sum, hbody]
    simp [entry]
  · rw [hg 1 (by omega), sel_sum, transposed_sum, hbody]
    simp [entry, lastVals, hM]

/-! ## A concrete case -/

/-- Three rows, the first without a diagonal triplet. -/
def exBody : List (ℕ × ℕ) := [(1, 0), (1, 1), (2, 0), (2, 2)]

theorem exBody_ok : BodyOk 3 exBody := ⟨by decide, by decide⟩

example : Increasing both exBody := by
  unfold Increasing exBody
  decide

example : Increasing transposed exBody := by
  unfold Increasing exBody
  decide

/-- Values 1, 2, 3, ... first, then 10, 20, 30, ...: the first row holds the additional diagonal
value and the two mirrored entries. -/
example : (solverRun both insSort 3 (withDiag exBody 3) (fun _ => 0) (fun k => (k + 1 : ℚ))
    [fun k => 10 * (k + 1 : ℚ)]).map (fun C => (List.range 7).map fun p => (C.A.col p, C.A.val p))
    = some [(0, 50), (1, 10), (2, 30), (0, 10), (1, 80), (0, 30), (2, 110)] := by
  decide +kernel

example : ∃ C, solverRun both insSort 3 (withDiag exBody 3) (fun _ => 0) (fun k => (k + 1 : ℚ))
    [fun k => 10 * (k + 1 : ℚ)] = some C ∧ C.A.nrows = 3 ∧ ∀ i < 3, ∀ j < 3, get C.A i j
      = symEntry (trip (withDiag exBody 3) fun k => 10 * (k + 1 : ℚ)) i j :=
  C51_sym insSort_sorts exBody_ok _ _ _

/-- A Hessian in the upper triangle, one equality and one inequality. -/
def exSp2 : SpMats ℚ := ⟨[⟨0, 0, 2⟩, ⟨0, 1, 1⟩, ⟨1, 1, 2⟩], [⟨0, 0, 1⟩, ⟨0, 1, 1⟩], [⟨0, 1, 1⟩]⟩

example : exSp2.Ok 2 1 1 ∧ Sorted exSp2.H ∧ Sorted exSp2.Jc ∧ Sorted exSp2.Jd ∧ ∀ e ∈ exSp2.H, e.r ≤ e.c := by
  refine ⟨⟨?_, ?_, ?_, ?_, ?_, ?_⟩, ?_, ?_, ?_, ?_⟩ <;>
    simp [exSp2, RowSorted, InRange, Sorted]

example : exSp.Ok 1 1 1 ∧ DiagOnce exSp.H := ⟨exSp_ok, by simp [DiagOnce, posOf, exSp]⟩

end Hiop.Lin
