import Verif.Csr.CondProps
import Verif.Csr.Normal
import Verif.Sparse.Assembly
import Verif.Perturb.Accept

/-!
# C59: the normal-equation matrix

The matrix handed to the linear solver is
`[Jc 0; Jd -I] * diag(Dx + delta_wx + H, Dd + delta_wd)^{-1} * [Jc 0; Jd -I]' + diag(delta_cc, delta_cd)`
with the Jacobians and the Hessian of the first call, and with the primal quantities of the last call
that was not announced as an update of the dual perturbations only.
-/

set_option linter.unusedSectionVars false

namespace Hiop.Csr

open Hiop.Sparse

variable {K : Type*} [Field K] [LinearOrder K] [IsStrictOrderedRing K]

/-! ## Specification -/

/-- A sorting function: a permutation in which rows, and columns within a row, do not decrease. -/
def Sorts (srt : List (Ent K) → List (Ent K)) : Prop :=
  ∀ l, (srt l).Perm l ∧ (srt l).Pairwise fun a b => a.r < b.r ∨ a.r = b.r ∧ a.c ≤ b.c

/-- Entry `(i, k)` of `[Jc 0; Jd -I]`. -/
def stackEntry (n mc : ℕ) (jc jd : List (Ent K)) (i k : ℕ) : K :=
  if i < mc then (if k < n then entry jc i k else 0)
  else if k < n then entry jd (i - mc) k else if k - n = i - mc then -1 else 0

/-- Entry `(i, j)` of `A * diag(h)^{-1} * A' + diag(reg)` for `A = [Jc 0; Jd -I]`. -/
def normEntry (n mc md : ℕ) (jc jd : List (Ent K)) (h reg : ℕ → K) (i j : ℕ) : K :=
  (∑ k ∈ Finset.range (n + md), stackEntry n mc jc jd i k * stackEntry n mc jc jd j k / h k) +
    if i = j then reg i else 0

/-- The last call that was not announced as an update of the dual perturbations only. -/
def lastFull (u0 : NormIn K) (us : List (NormIn K)) : NormIn K :=
  us.foldl (fun a u => if u.dual then a else u) u0

/-! ## The stacked Jacobian -/

theorem entry_perm {a b : List (Ent K)} (h : a.Perm b) (i j : ℕ) : entry a i j = entry b i j :=
  (h.map _).sum_eq

theorem Distinct.perm {a b : List (Ent K)} (h : a.Perm b) (hb : Distinct b) : Distinct a :=
  (h.pairwise_iff fun {x y} hxy => by intro hh; exact hxy ⟨hh.1.symm, hh.2.symm⟩).2 hb

theorem Sorts.sorted {srt : List (Ent K) → List (Ent K)} (hs : Sorts srt) {l : List (Ent K)}
    (hd : Distinct l) : Sorted (srt l) := by
  obtain ⟨h1, h2⟩ := hs l
  refine List.Pairwise.imp₂ ?_ h2 (Distinct.perm h1 hd)
  intro a b hab hne
  rcases hab with h | ⟨h, h'⟩
  · exact Or.inl h
  · exact Or.inr ⟨h, lt_of_le_of_ne h' fun e => hne ⟨h, e⟩⟩

/-- The unsorted triplets. -/
def stackList (n mc md : ℕ) (jc jd : List (Ent K)) : List (Ent K) :=
  jc ++ (jd.map fun e => { e with r := mc + e.r }) ++
    (List.range md).map fun a => (⟨mc + a, n + a, -1⟩ : Ent K)

theorem sorted_rowSorted {es : List (Ent K)} (h : Sorted es) : RowSorted es :=
  h.imp fun {a b} hab => by omega

theorem normJac_eq (srt : List (Ent K) → List (Ent K)) (n mc md : ℕ) (u : NormIn K)
    (hc : Sorted u.jc) (hd : Sorted u.jd) (rc : InRange mc n u.jc) (rd : InRange md n u.jd) :
    normJac srt n mc md u = some (srt (stackList n mc md u.jc u.jd)) := by
  have e1 : pickRows u.jc (fun a => 0 + a) (fun a => 0 + a) 0 mc = u.jc := by
    rw [pickRows_all u.jc (sorted_rowSorted hc) 0 mc fun e he => (rc e he).1]
    simp
  have e2 := pickRows_all u.jd (sorted_rowSorted hd) mc md fun e he => (rd e he).1
  obtain ⟨s1, a1, a2, -⟩ := C27_copyRowsBlockFrom (u.jc.length + u.jd.length + md)
    (fun _ => (⟨0, 0, 0⟩ : Ent K)) u.jc 0 mc 0 0 (sorted_rowSorted hc) (by rw [e1]; omega)
  rw [e1, Nat.zero_add] at a2
  obtain ⟨s2, b1, b2, -⟩ := C27_copyRowsBlockFrom (u.jc.length + u.jd.length + md)
    s1 u.jd 0 md mc u.jc.length (sorted_rowSorted hd) (by rw [e2, List.length_map]; omega)
  rw [e2, List.length_map] at b2
  unfold normJac
  simp only [a1, b1, Option.bind_some]
  unfold copyDiagToSubblock
  rw [(writeChecked_iff _ _ _ _ _).2 ⟨by simp, rfl⟩, Option.map_some]
  have := toList_writeAt s2 (u.jc.length + u.jd.length)
    ((List.range md).map fun a => (⟨mc + a, n + a, -1⟩ : Ent K))
  rw [List.length_map, List.length_range] at this
  rw [this, b2, a2]
  simp [stackList, toList]

theorem stackList_distinct (n mc md : ℕ) {jc jd : List (Ent K)}
    (hc : Sorted jc) (hd : Sorted jd) (rc : InRange mc n jc) (rd : InRange md n jd) :
    Distinct (stackList n mc md jc jd) := by
  unfold stackList Distinct
  rw [List.pairwise_append, List.pairwise_append]
  refine ⟨⟨hc.distinct, ?_, ?_⟩, ?_, ?_⟩
  · rw [List.pairwise_map]
    exact hd.distinct.imp fun {a b} h hh => h ⟨by simpa using hh.1, hh.2⟩
  · intro a ha b hb hh
    obtain ⟨e, -, rfl⟩ := List.mem_map.1 hb
    have := (rc a ha).1
    simp only at hh
    omega
  · rw [List.pairwise_map]
    refine List.Pairwise.imp ?_ List.pairwise_lt_range
    intro a b h hh
    simp only at hh
    omega
  · intro a ha b hb hh
    obtain ⟨t, -, rfl⟩ := List.mem_map.1 hb
    simp only at hh
    rcases List.mem_append.1 ha with h | h
    · have := (rc a h).2; omega
    · obtain ⟨e, he, rfl⟩ := List.mem_map.1 h
      have := (rd e he).2
      simp only at hh; omega

theorem stackList_range (n mc md : ℕ) {jc jd : List (Ent K)}
    (rc : InRange mc n jc) (rd : InRange md n jd) :
    InRange (mc + md) (n + md) (stackList n mc md jc jd) := by
  intro a ha
  unfold stackList at ha
  rcases List.mem_append.1 ha with h | h
  · rcases List.mem_append.1 h with h | h
    · have := rc a h; omega
    · obtain ⟨e, he, rfl⟩ := List.mem_map.1 h
      have := rd e he; simp only; omega
  · obtain ⟨t, ht, rfl⟩ := List.mem_map.1 h
    have := List.mem_range.1 ht; simp only; omega

theorem entry_not_row {es : List (Ent K)} {i : ℕ} (h : ∀ e ∈ es, e.r ≠ i) (j : ℕ) : entry es i j = 0 := by
  induction es with
  | nil => rfl
  | cons e es ih =>
    rw [entry_cons, if_neg fun hh => h e (by simp) hh.1, ih fun e' m => h e' (by simp [m]), add_zero]

theorem entry_not_col {es : List (Ent K)} {j : ℕ} (h : ∀ e ∈ es, e.c ≠ j) (i : ℕ) : entry es i j = 0 := by
  induction es with
  | nil => rfl
  | cons e es ih =>
    rw [entry_cons, if_neg fun hh => h e (by simp) hh.2, ih fun e' m => h e' (by simp [m]), add_zero]

theorem entry_shiftRow (jd : List (Ent K)) (mc i j : ℕ) :
    entry (jd.map fun e => { e with r := mc + e.r }) i j = if mc ≤ i then entry jd (i - mc) j else 0 := by
  induction jd with
  | nil => simp
  | cons e es ih =>
    rw [List.map_cons, entry_cons, ih, entry_cons]
    by_cases h : mc ≤ i
    · rw [if_pos h, if_pos h]
      congr 1
      have : (mc + e.r = i ∧ e.c = j) ↔ (e.r = i - mc ∧ e.c = j) := by omega
      simp only [this]
    · rw [if_neg h, if_neg h, if_neg (by simp only; omega), add_zero]

theorem entry_minusI (mc n md i j : ℕ) :
    entry ((List.range md).map fun a => (⟨mc + a, n + a, -1⟩ : Ent K)) i j =
      if mc ≤ i ∧ i < mc + md ∧ n ≤ j ∧ j - n = i - mc then -1 else 0 := by
  induction md with
  | zero => rw [if_neg (by omega)]; rfl
  | succ m ih =>
    rw [List.range_succ, List.map_append, entry_append, ih, List.map_singleton, entry_cons, entry_nil,
      add_zero]
    by_cases h1 : mc ≤ i ∧ i < mc + m ∧ n ≤ j ∧ j - n = i - mc
    · rw [if_pos h1, if_neg (by simp only; omega), if_pos (by omega), add_zero]
    · rw [if_neg h1, zero_add]
      by_cases h2 : mc + m = i ∧ n + m = j
      · rw [if_pos h2, if_pos (by omega)]
      · rw [if_neg h2, if_neg (by omega)]

theorem entry_stackList (n mc md : ℕ) {jc jd : List (Ent K)}
    (rc : InRange mc n jc) (rd : InRange md n jd) {i k : ℕ} (hi : i < mc + md) :
    entry (stackList n mc md jc jd) i k = stackEntry n mc jc jd i k := by
  unfold stackList stackEntry
  rw [entry_append, entry_append, entry_shiftRow, entry_minusI]
  by_cases h : i < mc
  · rw [if_pos h, if_neg (by omega), if_neg (by omega), add_zero, add_zero]
    by_cases hk : k < n
    · rw [if_pos hk]
    · rw [if_neg hk, entry_not_col]
      intro e he; have := (rc e he).2; omega
  · rw [if_neg h, if_pos (by omega), entry_not_row (fun e he => by have := (rc e he).1; omega), zero_add]
    by_cases hk : k < n
    · rw [if_pos hk, if_neg (by omega), add_zero]
    · rw [if_neg hk, entry_not_col (fun e he => by have := (rd e he).2; omega), zero_add]
      by_cases h2 : k - n = i - mc
      · rw [if_pos h2, if_pos (by omega)]
      · rw [if_neg h2, if_neg (by omega)]

/-! ## The matrix after every call -/

/-- State between calls: `es` are the stacked triplets of the first call, `hdg` its Hessian diagonal,
`hv` the inverse diagonal of the last full update. -/
structure NInv (p q : ℕ) (es : List (Ent K)) (hdg hv : ℕ → K) (c : Norm K) : Prop where
  hdg : c.hdg = hdg
  J : FormedAs c.J p q es
  Jval : ∀ i < p, ∀ k, get c.J i k = entry es i k
  Jt : TransOf c.Jt c.J
  P : Valid c.P ∧ c.P.nrows = p ∧ c.P.ncols = p
  cov : Covers c.P c.J c.Jt
  Pval : ∀ i < p, ∀ j < p, get c.P i j = ∑ k ∈ Finset.range q, entry es i k * (hv k * entry es j k)
  D : DiagOf c.D p
  M : SumOf c.M c.D c.P

theorem prodNum_starts {m : ℕ} {hv : ℕ → K} {A B P A' P' : CsrMat K}
    (h : prodNum m hv A B P = some (A', P')) : A'.starts = A.starts := by
  unfold prodNum at h
  obtain ⟨A1, h1, h2⟩ := Option.bind_eq_some_iff.1 h
  obtain ⟨P1, -, h3⟩ := Option.map_eq_some_iff.1 h2
  obtain ⟨rfl, -⟩ := Prod.mk.inj h3
  unfold scaleRows at h1
  split_ifs at h1
  rw [← Option.some.inj h1]

theorem TransOf.rescaled {At At' A : CsrMat K} (h : TransOf At A) (hp : SamePat At At')
    (hs : At'.starts = At.starts) : TransOf At' A := by
  obtain ⟨A0, h1, h2, h3⟩ := h
  obtain ⟨st, s1, s2⟩ := h3.starts
  exact ⟨A0, h1, h2, hp.1.trans h3.nrows, hp.2.1.trans h3.ncols, hp.2.2.1.trans h3.nnz,
    hp.valid h3.valid, h3.pat.same hp, st, hs.trans s1, fun i hi => by rw [s2 i hi, hp.2.2.2.2.1]⟩

theorem normProd_stage {n md p : ℕ} {es : List (Ent K)} (u : NormIn K) (hu : u.dual = false)
    (hdg : ℕ → K) {J Jt P : CsrMat K} (hJ : FormedAs J p (n + md) es)
    (hv : ∀ i < p, ∀ k, get J i k = entry es i k) (hJt : TransOf Jt J)
    (hP : Valid P ∧ P.nrows = p ∧ P.ncols = p) (hc : Covers P J Jt) :
    ∃ Jt' P', normProd n md u hdg J Jt P = some (Jt', P') ∧ TransOf Jt' J ∧ SamePat Jt Jt' ∧
      SamePat P P' ∧ ∀ i < p, ∀ j < p, get P' i j =
        ∑ k ∈ Finset.range (n + md), entry es i k * (1 / u.hxd n hdg k * entry es j k) := by
  obtain ⟨Jt1, a1, a2, a3, a4⟩ := transNum_stage hJt
  have hJtv := a3.valid
  obtain ⟨Jt', P', b1, b2, b3, b4⟩ := prod_stage (m := n + md) (n := p) hJtv.1
    ⟨by rw [hJtv.2.1, hJ.ncols], by rw [hJtv.2.2.1, hJ.nrows]⟩ hJ.valid ⟨hJ.nrows, hJ.ncols⟩ hP.1 hP.2
    (hc.same (SamePat.refl _) (SamePat.refl _) a2) (fun k => 1 / u.hxd n hdg k)
  refine ⟨Jt', P', ?_, ?_, a2.trans b2, b3, fun i hi j hj => ?_⟩
  · unfold normProd
    rw [hu, a1]
    exact b1
  · exact a3.rescaled b2 (prodNum_starts b1)
  · rw [b4 i hi j]
    refine Finset.sum_congr rfl fun k hk => ?_
    rw [hv i hi k, a4 j (by rw [hJ.nrows]; exact hj) k (by rw [hJ.ncols]; exact Finset.mem_range.1 hk),
      hv j hj k]

theorem normSum_stage {mc md : ℕ} (u : NormIn K) {D M P : CsrMat K} (hD : DiagOf D (mc + md))
    (hP : Valid P ∧ P.nrows = mc + md ∧ P.ncols = mc + md) (hM : SumOf M D P) :
    ∃ D' M', normSum mc md u D M P = some (D', M') ∧ DiagOf D' (mc + md) ∧ SumOf M' D' P ∧
      ∀ i < mc + md, ∀ j, get M' i j = get P i j + if i = j then u.reg mc i else 0 := by
  obtain ⟨D1, a1, a2, -⟩ := setDiag_stage hD.valid
  obtain ⟨D2, b1, b2, b3⟩ := hD.num D1 (u.reg mc) a2
  have hD2 := hD.same b2
  have hM2 : SumOf M D2 P := hM.same (SamePat.refl _) b2 (SamePat.refl _)
  obtain ⟨M', c1, c2, c3⟩ := sum_stage hD2.valid hP.1 (by rw [hD2.nrows, hP.2.1])
    (by rw [hD2.ncols, hP.2.2]) hM2
  refine ⟨D2, M', ?_, hD2, hM2.same c2 (SamePat.refl _) (SamePat.refl _), fun i hi j => ?_⟩
  · unfold normSum
    simp only [a1, b1, c1, Option.bind_some, Option.map_some]
  · rw [c3 i (by rw [hD2.nrows]; exact hi) j, b3 i hi j, add_comm]

/-- The inverse diagonal after a call. -/
def nextHv (n : ℕ) (hdg hv : ℕ → K) (u : NormIn K) : ℕ → K :=
  if u.dual then hv else fun k => 1 / u.hxd n hdg k

theorem normNext_ok {n mc md : ℕ} {es : List (Ent K)} {hdg hv : ℕ → K} {c : Norm K}
    (hc : NInv (mc + md) (n + md) es hdg hv c) (u : NormIn K) (hh : isDiagonal n n u.hess = true) :
    ∃ c', normNext n mc md c u = some c' ∧ NInv (mc + md) (n + md) es hdg (nextHv n hdg hv u) c' ∧
      ∀ i < mc + md, ∀ j, get c'.M i j = get c'.P i j + if i = j then u.reg mc i else 0 := by
  have key : ∃ Jt' P', normProd n md u c.hdg c.J c.Jt c.P = some (Jt', P') ∧ TransOf Jt' c.J ∧
      SamePat c.Jt Jt' ∧ SamePat c.P P' ∧ ∀ i < mc + md, ∀ j < mc + md, get P' i j =
        ∑ k ∈ Finset.range (n + md), entry es i k * (nextHv n hdg hv u k * entry es j k) := by
    cases hu : u.dual with
    | true =>
      refine ⟨c.Jt, c.P, ?_, hc.Jt, SamePat.refl _, SamePat.refl _, ?_⟩
      · unfold normProd; rw [hu]; rfl
      · unfold nextHv; rw [hu]; exact hc.Pval
    | false =>
      obtain ⟨Jt', P', h1, h2, h3, h4, h5⟩ := normProd_stage u hu c.hdg hc.J hc.Jval hc.Jt hc.P hc.cov
      refine ⟨Jt', P', h1, h2, h3, h4, ?_⟩
      unfold nextHv; rw [hu, ← hc.hdg]; exact h5
  obtain ⟨Jt', P', h1, h2, h3, h4, h5⟩ := key
  have hP' : Valid P' ∧ P'.nrows = mc + md ∧ P'.ncols = mc + md :=
    ⟨h4.valid hc.P.1, h4.1.trans hc.P.2.1, h4.2.1.trans hc.P.2.2⟩
  obtain ⟨D', M', k1, k2, k3, k4⟩ := normSum_stage u hc.D hP'
    (hc.M.same (SamePat.refl _) (SamePat.refl _) h4)
  refine ⟨⟨c.hdg, c.J, Jt', P', D', M'⟩, ?_, ?_, k4⟩
  · unfold normNext
    rw [if_pos hh]
    simp only [h1, k1, Option.bind_some, Option.map_some]
  · exact ⟨hc.hdg, hc.J, hc.Jval, h2, hP', hc.cov.same h4 (SamePat.refl _) h3, h5, k2, k3⟩

theorem normFirst_ok {n mc md : ℕ} {srt : List (Ent K) → List (Ent K)} (hs : Sorts srt)
    (g : ℕ → Garbage K) (u : NormIn K) (hu : u.dual = false) (hh : isDiagonal n n u.hess = true)
    (hc : Sorted u.jc) (hd : Sorted u.jd) (rc : InRange mc n u.jc) (rd : InRange md n u.jd)
    (hne : u.jc ≠ [] ∨ 0 < md) :
    ∃ c', normFirst srt n mc md g u = some c' ∧
      NInv (mc + md) (n + md) (srt (stackList n mc md u.jc u.jd)) (extractDiagonal u.hess)
        (fun k => 1 / u.hxd n (extractDiagonal u.hess) k) c' ∧
      ∀ i < mc + md, ∀ j, get c'.M i j = get c'.P i j + if i = j then u.reg mc i else 0 := by
  set es := srt (stackList n mc md u.jc u.jd) with hes
  have hperm := (hs (stackList n mc md u.jc u.jd)).1
  have hse : Sorted es := hs.sorted (stackList_distinct n mc md hc hd rc rd)
  have hre : InRange (mc + md) (n + md) es := fun e he =>
    stackList_range n mc md rc rd e (hperm.mem_iff.1 he)
  have hle : 0 < es.length := by
    rw [hes, hperm.length_eq]
    unfold stackList
    rw [List.length_append, List.length_append, List.length_map, List.length_map, List.length_range]
    rcases hne with h | h
    · have := List.length_pos_iff.2 h; omega
    · omega
  have hne' : es ≠ [] := List.length_pos_iff.1 hle
  obtain ⟨e0, he0⟩ := List.exists_mem_of_ne_nil _ hne'
  have hpos : 0 < mc + md := by have := hre e0 he0; omega
  have ej : ∀ x : Garbage K, (empty x).nnz = 0 := fun _ => rfl
  obtain ⟨J0, x1, x2⟩ := form_stage (empty (g 0)) (mc + md) (n + md) es (g 1)
    (Or.inr (by rw [ej]; omega)) hne' hse hre
  obtain ⟨J, w1, w2, -, w3⟩ := formNumeric_ok (es' := es) hse hre ⟨x2.nrows, x2.ncols, x2.nnz⟩
    x2.valid.ready x2.pat rfl
  have hJ := x2.same w2
  obtain ⟨Jt0, v1, v2⟩ := transSym_stage (empty (g 2)) J (g 3) hJ.valid (by rw [hJ.nnz]; omega)
    (by rw [ej, hJ.nnz]; omega)
  obtain ⟨Jt1, t1, t2, t3, t4⟩ := transNum_stage v2
  have hJt := t3.valid
  have rJt : Jt1.nrows = n + md := by rw [hJt.2.1, hJ.ncols]
  have cJt : Jt1.ncols = mc + md := by rw [hJt.2.2.1, hJ.nrows]
  obtain ⟨P0, y1, y2, y3, y4, y5⟩ := timesSymbolic_ok (X := J) (Y := Jt1)
    (M := fresh J.nrows Jt1.ncols (offs (fun t => (prodCols J Jt1 t).length) J.nrows) (g 4)) hJ.valid
    hJt.1 (by rw [rJt, hJ.ncols]) rfl rfl rfl rfl
  have y0 := timesAlloc_ok hJ.valid hJt.1 (by rw [rJt, hJ.ncols]) (by rw [hJ.nrows]; exact hpos)
    (by rw [cJt]; exact hpos) (g 4)
  have hcov : Covers P0 J Jt1 := by
    intro i hi k j hk hj
    rw [y5.prod_stored (by rw [y2]; exact hi)]
    exact ⟨k, hk, hj⟩
  rw [hJ.nrows] at y2
  rw [cJt] at y3
  obtain ⟨Jt, P, h1, h2, h3, h4, h5⟩ := normProd_stage u hu (extractDiagonal u.hess) hJ w3 t3
    ⟨y4, y2, y3⟩ hcov
  have hP : Valid P ∧ P.nrows = mc + md ∧ P.ncols = mc + md :=
    ⟨h4.valid y4, h4.1.trans y2, h4.2.1.trans y3⟩
  obtain ⟨D0, s1, s2, s3, s4, -, s5⟩ := C28_form_diag (empty (g 5)) (mc + md) (g 6) (Or.inr (by
    rw [ej]; omega))
  have hD0 : DiagOf D0 (mc + md) := ⟨s2, s3, s4, fun B' d hB => by
    obtain ⟨C, c1, c2, -, c3⟩ := s5 B' d hB; exact ⟨C, c1, c2, c3⟩⟩
  have a0 := addAlloc_ok s2 hP.1 (by rw [s3, hP.2.1]) (by rw [s4, hP.2.2]) (by rw [s3]; exact hpos)
    (by rw [s4]; exact hpos) (g 7)
  obtain ⟨M1, a1, a2, a3, a4, a5⟩ := addSymbolic_ok (X := D0) (Y := P)
    (M := fresh D0.nrows D0.ncols (offs (fun t => (sumCols D0 P t).length) D0.nrows) (g 7)) s2 hP.1
    (by rw [s3, hP.2.1]) (by rw [s4, hP.2.2]) rfl rfl rfl rfl
  obtain ⟨D, M, k1, k2, k3, k4⟩ := normSum_stage u hD0 hP ⟨a4, a2, a3, a5⟩
  refine ⟨⟨extractDiagonal u.hess, J, Jt, P, D, M⟩, ?_, ?_, k4⟩
  · unfold normFirst prodSym
    rw [if_pos hh]
    simp only [normJac_eq srt n mc md u hc hd rc rd, ← hes, x1, w1, v1, t1, y0, y1, h1, s1, a0, a1, k1,
      Option.bind_some, Option.map_some]
  · exact ⟨rfl, hJ, w3, h2, hP, hcov.same h4 (SamePat.refl _) h3, h5, k2, k3⟩

theorem entry_srt {srt : List (Ent K) → List (Ent K)} (hs : Sorts srt) (n mc md : ℕ)
    {jc jd : List (Ent K)} (rc : InRange mc n jc) (rd : InRange md n jd) {i k : ℕ} (hi : i < mc + md) :
    entry (srt (stackList n mc md jc jd)) i k = stackEntry n mc jc jd i k := by
  rw [entry_perm (hs _).1, entry_stackList n mc md rc rd hi]

/-- **C59, matrix.** For every history of calls on a new object, starting with a full update, in which
every Hessian is diagonal, all calls succeed, and the matrix of the last one is
`A * diag(Dx + delta_wx + H, Dd + delta_wd)^{-1} * A' + diag(delta_cc, delta_cd)` where `A = [Jc 0; Jd -I]`
and `H` are those of the *first* call, `Dx, Dd, delta_wx, delta_wd` those of the last call not announced as
a dual update, and `delta_cc, delta_cd` those of the last call. Nothing comes from the allocator. -/
theorem C59_matrix (srt : List (Ent K) → List (Ent K)) (hs : Sorts srt) (n mc md : ℕ)
    (g : ℕ → Garbage K) (u0 : NormIn K) (us : List (NormIn K)) (h0 : u0.dual = false)
    (hdiag : ∀ v ∈ u0 :: us, isDiagonal n n v.hess = true) (hc : Sorted u0.jc) (hd : Sorted u0.jd)
    (rc : InRange mc n u0.jc) (rd : InRange md n u0.jd) (hne : u0.jc ≠ [] ∨ 0 < md) :
    ∃ c, normAll srt n mc md g (u0 :: us) = some (some c) ∧ Valid c.M ∧ c.M.nrows = mc + md ∧
      c.M.ncols = mc + md ∧ ∀ i < mc + md, ∀ j < mc + md, get c.M i j =
        normEntry n mc md u0.jc u0.jd ((lastFull u0 us).hxd n (extractDiagonal u0.hess))
          (((u0 :: us).getLast (by simp)).reg mc) i j := by
  have fin : ∀ (us : List (NormIn K)) (v w : NormIn K) (c : Norm K),
      NInv (mc + md) (n + md) (srt (stackList n mc md u0.jc u0.jd)) (extractDiagonal u0.hess)
        (fun k => 1 / v.hxd n (extractDiagonal u0.hess) k) c →
      (∀ i < mc + md, ∀ j, get c.M i j = get c.P i j + if i = j then w.reg mc i else 0) →
      (∀ v ∈ us, isDiagonal n n v.hess = true) →
      ∃ c', us.foldlM (fun c u => (normBuild srt n mc md g c u).map some) (some c) = some (some c') ∧
        NInv (mc + md) (n + md) (srt (stackList n mc md u0.jc u0.jd)) (extractDiagonal u0.hess)
          (fun k => 1 / (lastFull v us).hxd n (extractDiagonal u0.hess) k) c' ∧
        ∀ i < mc + md, ∀ j, get c'.M i j =
          get c'.P i j + if i = j then ((w :: us).getLast (by simp)).reg mc i else 0 := by
    intro us
    induction us with
    | nil => intro v w c h1 h2 _; exact ⟨c, rfl, h1, h2⟩
    | cons u us ih =>
      intro v w c h1 h2 h3
      obtain ⟨c1, k1, k2, k3⟩ := normNext_ok h1 u (h3 u (by simp))
      have hv : nextHv n (extractDiagonal u0.hess) (fun k => 1 / v.hxd n (extractDiagonal u0.hess) k) u =
          fun k => 1 / (if u.dual then v else u).hxd n (extractDiagonal u0.hess) k := by
        unfold nextHv; split_ifs <;> rfl
      rw [hv] at k2
      obtain ⟨c', m1, m2, m3⟩ := ih _ u c1 k2 k3 fun x hx => h3 x (by simp [hx])
      refine ⟨c', ?_, m2, ?_⟩
      · rw [List.foldlM_cons]
        simp only [normBuild, k1, Option.map_some]
        exact m1
      · rw [List.getLast_cons (by simp)]
        exact m3
  obtain ⟨c0, a1, a2, a3⟩ := normFirst_ok (n := n) (mc := mc) (md := md) hs g u0 h0 (hdiag u0 (by simp))
    hc hd rc rd hne
  obtain ⟨c, b1, b2, b3⟩ := fin us u0 u0 c0 a2 a3 fun v hv => hdiag v (by simp [hv])
  refine ⟨c, ?_, b2.M.valid, by rw [b2.M.nrows, b2.D.nrows], by rw [b2.M.ncols, b2.D.ncols], ?_⟩
  · unfold normAll
    rw [List.foldlM_cons]
    simp only [normBuild, a1, Option.map_some]
    exact b1
  · intro i hi j hj
    rw [b3 i hi j, b2.Pval i hi j hj]
    unfold normEntry
    congr 1
    refine Finset.sum_congr rfl fun k _ => ?_
    rw [entry_srt hs n mc md rc rd hi, entry_srt hs n mc md rc rd hj]
    ring

theorem normEntry_symm (n mc md : ℕ) (jc jd : List (Ent K)) (h reg : ℕ → K) (i j : ℕ) :
    normEntry n mc md jc jd h reg i j = normEntry n mc md jc jd h reg j i := by
  unfold normEntry
  congr 1
  · exact Finset.sum_congr rfl fun k _ => by ring
  · by_cases e : i = j
    · subst e; rfl
    · rw [if_neg e, if_neg (Ne.symm e)]

/-- The triplets given to MA57 stand for the matrix, when that is symmetric. -/
theorem ma57_sym (M : CsrMat K) (hsym : ∀ i < M.nrows, ∀ j < M.nrows, get M i j = get M j i) :
    ∀ i < M.nrows, ∀ j < M.nrows, symEntry (ma57Triplets M) i j = get M i j := by
  intro i hi j hj
  rw [symEntry_eq, ma57_entry M hi, ma57_entry M hi, ma57_entry M hj]
  by_cases h : i = j
  · subst h; rw [if_pos rfl, if_pos le_rfl]
  · rw [if_neg h]
    rcases Nat.lt_or_gt_of_ne h with h' | h'
    · rw [if_neg (by omega), if_pos (by omega), zero_add, hsym j hj i hi]
    · rw [if_pos (by omega), if_neg (by omega), add_zero]

/-- The matrices of the problem given by the triplets of a call. -/
def NormIn.mats (n mc md : ℕ) (u : NormIn K) : Kkt.Mats K n mc md where
  H := fun i j => symEntry u.hess i j
  Jc := fun i j => entry u.jc i j
  Jd := fun i j => entry u.jd i j

theorem stack_low {n mc : ℕ} {jc jd : List (Ent K)} {i k : ℕ} (hi : i < mc) (hk : k < n) :
    stackEntry n mc jc jd i k = entry jc i k := by unfold stackEntry; rw [if_pos hi, if_pos hk]

theorem stack_low' {n mc : ℕ} {jc jd : List (Ent K)} {i k : ℕ} (hi : i < mc) (hk : ¬ k < n) :
    stackEntry n mc jc jd i k = 0 := by unfold stackEntry; rw [if_pos hi, if_neg hk]

theorem stack_high {n mc : ℕ} {jc jd : List (Ent K)} {i k : ℕ} (hk : k < n) :
    stackEntry n mc jc jd (mc + i) k = entry jd i k := by
  unfold stackEntry; rw [if_neg (by omega), if_pos hk, Nat.add_sub_cancel_left]

theorem stack_high' {n mc : ℕ} {jc jd : List (Ent K)} {i k : ℕ} :
    stackEntry n mc jc jd (mc + i) (n + k) = if k = i then -1 else 0 := by
  unfold stackEntry
  rw [if_neg (by omega), if_neg (by omega), Nat.add_sub_cancel_left, Nat.add_sub_cancel_left]

/-- The blocks of the matrix. -/
theorem normEntry_blocks {n mc md : ℕ} (jc jd : List (Ent K)) (h reg : ℕ → K) :
    (∀ i < mc, ∀ k < mc, normEntry n mc md jc jd h reg i k =
      (∑ j : Fin n, entry jc i j * entry jc k j / h j) + if i = k then reg i else 0) ∧
    (∀ i < mc, ∀ k, normEntry n mc md jc jd h reg i (mc + k) =
      ∑ j : Fin n, entry jc i j * entry jd k j / h j) ∧
    (∀ i, ∀ k < mc, normEntry n mc md jc jd h reg (mc + i) k =
      ∑ j : Fin n, entry jd i j * entry jc k j / h j) ∧
    ∀ i < md, ∀ k < md, normEntry n mc md jc jd h reg (mc + i) (mc + k) =
      (∑ j : Fin n, entry jd i j * entry jd k j / h j) +
        if i = k then 1 / h (n + i) + reg (mc + i) else 0 := by
  have split : ∀ f : ℕ → K, ∑ k ∈ Finset.range (n + md), f k =
      (∑ j : Fin n, f j) + ∑ j : Fin md, f (n + j) := by
    intro f; rw [Finset.sum_range, Fin.sum_univ_add]; rfl
  refine ⟨fun i hi k hk => ?_, fun i hi k => ?_, fun i k hk => ?_, fun i hi k hk => ?_⟩
  · unfold normEntry
    rw [split]
    congr 1
    rw [Finset.sum_eq_zero (s := (Finset.univ : Finset (Fin md))) (fun j _ => by
      rw [stack_low' hi (by omega)]; simp), add_zero]
    exact Finset.sum_congr rfl fun j _ => by rw [stack_low hi j.2, stack_low hk j.2]
  · unfold normEntry
    rw [split, if_neg (by omega), add_zero, Finset.sum_eq_zero (s := (Finset.univ : Finset (Fin md)))
      (fun j _ => by rw [stack_low' hi (by omega)]; simp), add_zero]
    exact Finset.sum_congr rfl fun j _ => by rw [stack_low hi j.2, stack_high j.2]
  · unfold normEntry
    rw [split, if_neg (by omega), add_zero, Finset.sum_eq_zero (s := (Finset.univ : Finset (Fin md)))
      (fun j _ => by rw [stack_low' hk (by omega)]; simp), add_zero]
    exact Finset.sum_congr rfl fun j _ => by rw [stack_low hk j.2, stack_high j.2]
  · unfold normEntry
    rw [split, add_assoc]
    congr 1
    · exact Finset.sum_congr rfl fun j _ => by rw [stack_high j.2, stack_high j.2]
    · rw [Finset.sum_eq_single (⟨i, hi⟩ : Fin md)]
      · rw [stack_high', stack_high', if_pos rfl]
        by_cases e : i = k
        · subst e; simp
        · rw [if_neg e, if_neg (by omega), if_neg (by omega)]; simp
      · intro b _ hb
        rw [stack_high', if_neg (by intro e; exact hb (Fin.ext e))]; simp
      · intro hx; exact absurd (Finset.mem_univ _) hx

/-- **C59, directions.** For every history of calls starting with a full update: if the Jacobians and
the Hessian diagonal of the last call are those of the first, and the primal diagonal has not changed since
the last full update and has no zero, then a solver that is exact for the triplets it is given yields
the Newton direction of the last call. Missing: the three equalities, which the program does not
check (see `C59_first_jacobian_false`, `C59_dual_update_false`). -/
theorem C59_newton_partial (srt : List (Ent K) → List (Ent K)) (hs : Sorts srt) (n mc md : ℕ)
    (g : ℕ → Garbage K) (u0 : NormIn K) (us : List (NormIn K)) (h0 : u0.dual = false)
    (hdiag : ∀ v ∈ u0 :: us, isDiagonal n n v.hess = true) (hc : Sorted u0.jc) (hd : Sorted u0.jd)
    (rc : InRange mc n u0.jc) (rd : InRange md n u0.jd) (hne : u0.jc ≠ [] ∨ 0 < md)
    (u : NormIn K) (hu : (u0 :: us).getLast (by simp) = u)
    (hjc : u.jc = u0.jc) (hjd : u.jd = u0.jd) (hhs : u.hess = u0.hess) (hdist : Distinct u.hess)
    (hxd : ∀ k < n + md, (lastFull u0 us).hxd n (extractDiagonal u0.hess) k =
      u.hxd n (extractDiagonal u0.hess) k)
    (hnz : ∀ k < n + md, u.hxd n (extractDiagonal u0.hess) k ≠ 0) :
    ∃ c, normAll srt n mc md g (u0 :: us) = some (some c) ∧
      ∀ lin : (Fin (mc + md) → K) → Option (Fin (mc + md) → K),
        (∀ rhs x, lin rhs = some x → ∀ i : Fin (mc + md), ∑ j : Fin (mc + md),
          symEntry (ma57Triplets c.M) i j * x j = rhs i) →
        ∀ (b : Iterate.Bounds K n md) (ct : Kkt.Counts) (it : Iterate.It K n mc md)
          (r : Kkt.Resid K n mc md) (dir dir' : Iterate.It K n mc md) (_ : Iterate.Patterns b)
          (_ : Kkt.CountsOk ct b) (_ : Iterate.SlacksOk b it)
          (_ : ∀ i : Fin n, u.dx i = Kkt.sigX b it i) (_ : ∀ i : Fin md, u.dd i = Kkt.sigD b it i),
          Kkt.normalDirections b ct it (u.mats n mc md)
            (fun i => u.hxd n (extractDiagonal u0.hess) i)
            (fun i => u.hxd n (extractDiagonal u0.hess) (n + i)) (normSolve lin) r dir = some dir' →
          Kkt.FullNewton b (u.mats n mc md)
            ⟨fun i => u.wx i, fun i => u.wd i, fun i => u.cc i, fun i => u.cd i⟩ it r dir' := by
  obtain ⟨c, h1, -, h2, -, h3⟩ := C59_matrix srt hs n mc md g u0 us h0 hdiag hc hd rc rd hne
  refine ⟨c, h1, fun lin hlin b ct it r dir dir' hp hcn hsl hdx hdd hdir => ?_⟩
  rw [hu] at h3
  have hent : ∀ i < mc + md, ∀ j < mc + md, symEntry (ma57Triplets c.M) i j =
      normEntry n mc md u.jc u.jd (u.hxd n (extractDiagonal u0.hess)) (u.reg mc) i j := by
    intro i hi j hj
    have hsym : ∀ i < c.M.nrows, ∀ j < c.M.nrows, get c.M i j = get c.M j i := by
      intro i hi j hj
      rw [h2] at hi hj
      rw [h3 i hi j hj, h3 j hj i hi, normEntry_symm]
    rw [ma57_sym c.M hsym i (by rw [h2]; exact hi) j (by rw [h2]; exact hj), h3 i hi j hj, hjc, hjd]
    unfold normEntry
    congr 1
    refine Finset.sum_congr rfl fun k hk => ?_
    rw [hxd k (Finset.mem_range.1 hk)]
  obtain ⟨b1, b2, b3, b4⟩ := normEntry_blocks (n := n) (mc := mc) (md := md) u.jc u.jd
    (u.hxd n (extractDiagonal u0.hess)) (u.reg mc)
  have hdg : ∀ i, extractDiagonal u0.hess i = symEntry u.hess i i := by
    intro i
    rw [← hhs, C27_extractDiagonal _ hdist, symEntry_eq, if_pos rfl]
  refine Kkt.C19_normal_equations b ct (u.mats n mc md) _ it r dir dir' _ _ (normSolve lin) hp hcn hsl
    ?_ ?_ (fun i => hnz i (by omega)) ?_ (fun i => hnz _ (by omega)) ?_ hdir
  · intro i j hij
    have hd' := (C27_isDiagonal n n u.hess).1 (hdiag u (by rw [← hu]; exact List.getLast_mem _))
    have hij' : (i : ℕ) ≠ j := fun e => hij (Fin.ext e)
    show symEntry u.hess i j = 0
    rw [symEntry_eq, if_neg hij', hd'.2 _ _ hij', hd'.2 _ _ hij'.symm, add_zero]
  · intro i
    show u.hxd n _ i = _ + u.wx i + symEntry u.hess i i
    unfold NormIn.hxd
    rw [if_pos i.2, hdx i, hdg]
  · intro i
    show u.hxd n _ (n + i) = _ + u.wd i
    unfold NormIn.hxd
    rw [if_neg (by omega), Nat.add_sub_cancel_left, hdd i]
  · intro ryc ryd yc yd hsol
    unfold normSolve at hsol
    obtain ⟨y, hy, hyy⟩ := Option.map_eq_some_iff.1 hsol
    obtain ⟨rfl, rfl⟩ := Prod.mk.inj hyy
    have he := hlin _ _ hy
    constructor
    · intro i
      have := he (Fin.castAdd md i)
      rw [Fin.append_left, Fin.sum_univ_add] at this
      rw [← this]
      have e1 : ∀ k : Fin mc, symEntry (ma57Triplets c.M) (Fin.castAdd md i : Fin (mc + md))
          (Fin.castAdd md k : Fin (mc + md)) = (∑ j : Fin n, entry u.jc i j * entry u.jc k j /
            u.hxd n (extractDiagonal u0.hess) j) + if i = k then u.cc i else 0 := by
        intro k
        rw [hent _ (Fin.castAdd md i).2 _ (Fin.castAdd md k).2, Fin.val_castAdd, Fin.val_castAdd,
          b1 i i.2 k k.2]
        simp only [Fin.ext_iff, NormIn.reg, i.2, if_true]
      have e2 : ∀ k : Fin md, symEntry (ma57Triplets c.M) (Fin.castAdd md i : Fin (mc + md))
          (Fin.natAdd mc k : Fin (mc + md)) = ∑ j : Fin n, entry u.jc i j * entry u.jd k j /
            u.hxd n (extractDiagonal u0.hess) j := by
        intro k
        rw [hent _ (Fin.castAdd md i).2 _ (Fin.natAdd mc k).2, Fin.val_castAdd, Fin.val_natAdd,
          b2 i i.2 k]
      simp only [e1, e2, add_mul, Finset.sum_add_distrib, ite_mul, zero_mul, Finset.sum_ite_eq,
        Finset.mem_univ, if_true]
      show _ + _ + u.cc i * _ = _
      unfold NormIn.mats
      ring
    · intro i
      have := he (Fin.natAdd mc i)
      rw [Fin.append_right, Fin.sum_univ_add] at this
      rw [← this]
      have e1 : ∀ k : Fin mc, symEntry (ma57Triplets c.M) (Fin.natAdd mc i : Fin (mc + md))
          (Fin.castAdd md k : Fin (mc + md)) = ∑ j : Fin n, entry u.jd i j * entry u.jc k j /
            u.hxd n (extractDiagonal u0.hess) j := by
        intro k
        rw [hent _ (Fin.natAdd mc i).2 _ (Fin.castAdd md k).2, Fin.val_natAdd, Fin.val_castAdd,
          b3 i k k.2]
      have e2 : ∀ k : Fin md, symEntry (ma57Triplets c.M) (Fin.natAdd mc i : Fin (mc + md))
          (Fin.natAdd mc k : Fin (mc + md)) = (∑ j : Fin n, entry u.jd i j * entry u.jd k j /
            u.hxd n (extractDiagonal u0.hess) j) +
            if i = k then 1 / u.hxd n (extractDiagonal u0.hess) (n + i) + u.cd i else 0 := by
        intro k
        rw [hent _ (Fin.natAdd mc i).2 _ (Fin.natAdd mc k).2, Fin.val_natAdd, Fin.val_natAdd,
          b4 i i.2 k k.2]
        have : ¬ mc + (i : ℕ) < mc := by omega
        simp only [Fin.ext_iff, NormIn.reg, this, if_false, Nat.add_sub_cancel_left]
      simp only [e1, e2, add_mul, Finset.sum_add_distrib, ite_mul, zero_mul, Finset.sum_ite_eq,
        Finset.mem_univ, if_true]
      show _ + _ + _ / _ + u.cd i * _ = _
      unfold NormIn.mats
      ring

/-- **C59, acceptance.** Whatever number of negative eigenvalues the factorization reports, unless it
reports `-1`, the inertia test accepts the matrix. -/
theorem C59_any_inertia_accepted {σ : Type*} (c : Perturb.Calc σ) (mc md : ℕ) (h : 0 < mc + md)
    (ret : ℤ) (hr : ret ≠ -1) (force : Bool) (s : σ) :
    Perturb.requireIC c ((mc : ℤ) + md) (normCount mc md ret) force s = some (0, s) := by
  unfold normCount Perturb.requireIC
  rw [if_neg hr, if_pos (by omega), if_neg (by omega), if_neg (by simp)]

/-! ## Failures -/

section examples

/-- A sorting routine. -/
def insSortE (l : List (Ent ℚ)) : List (Ent ℚ) :=
  l.insertionSort fun a b => a.r < b.r ∨ a.r = b.r ∧ a.c ≤ b.c

theorem insSortE_sorts : Sorts insSortE := by
  intro l
  refine ⟨List.perm_insertionSort _ l, ?_⟩
  have : Std.Total fun a b : Ent ℚ => a.r < b.r ∨ a.r = b.r ∧ a.c ≤ b.c := ⟨fun a b => by omega⟩
  have : IsTrans (Ent ℚ) fun a b => a.r < b.r ∨ a.r = b.r ∧ a.c ≤ b.c := ⟨fun a b c h1 h2 => by omega⟩
  exact List.pairwise_insertionSort _ l

/-- One free variable, Hessian 1, one equality with Jacobian entry `j`, primal perturbation `w`. -/
def exN (j w : ℚ) (dual : Bool) : NormIn ℚ :=
  ⟨[⟨0, 0, j⟩], [], [⟨0, 0, 1⟩], fun _ => 0, fun _ => w, fun _ => 0, fun _ => 0, fun _ => 0, fun _ => 0, dual⟩

/-- No bounds. -/
def freeB : Iterate.Bounds ℚ 1 0 :=
  ⟨fun _ => 0, fun _ => 0, fun _ => 0, fun _ => 0, fun i => i.elim0, fun i => i.elim0, fun i => i.elim0,
    fun i => i.elim0⟩

/-- All parts zero. -/
def zeroIt : Iterate.It ℚ 1 1 0 :=
  ⟨fun _ => 0, fun i => i.elim0, fun _ => 0, fun _ => 0, fun i => i.elim0, fun i => i.elim0, fun _ => 0,
    fun i => i.elim0, fun _ => 0, fun _ => 0, fun i => i.elim0, fun i => i.elim0⟩

/-- Constraint violation one, other residuals zero. -/
def oneR : Kkt.Resid ℚ 1 1 0 :=
  ⟨fun _ => 0, fun i => i.elim0, fun _ => 1, fun i => i.elim0, fun _ => 0, fun _ => 0, fun i => i.elim0,
    fun i => i.elim0, fun _ => 0, fun _ => 0, fun i => i.elim0, fun i => i.elim0⟩

theorem exN_side (j w : ℚ) (dual : Bool) : Sorted (exN j w dual).jc ∧ Sorted (exN j w dual).jd ∧
    InRange 1 1 (exN j w dual).jc ∧ InRange 0 1 (exN j w dual).jd ∧
    isDiagonal 1 1 (exN j w dual).hess = true ∧ Distinct (exN j w dual).hess ∧
    ((exN j w dual).jc ≠ [] ∨ 0 < 0) := by
  refine ⟨?_, ?_, ?_, ?_, ?_, ?_, ?_⟩ <;> simp [Sorted, InRange, isDiagonal, Distinct, exN]

theorem freeB_counts : Kkt.CountsOk ⟨0, 0, 0, 0⟩ freeB := by
  constructor <;> simp [Kkt.CountOk, freeB]

theorem freeB_patterns : Iterate.Patterns freeB := by
  constructor <;> intro i <;> first | exact i.elim0 | simp [freeB]

/-- A system with one equality whose matrix entry is one: the direction of an exact solver, for the
Jacobian entry `j` and the diagonal `h`. -/
theorem exN_direction (c : Norm ℚ) (j w : ℚ) (dual : Bool) (hn : c.M.nrows = 1)
    (h1 : get c.M 0 0 = 1) (hw : (exN j w dual).hxd 1 (extractDiagonal (exN 1 0 false).hess) 0 = 1 + w)
    (hne : j * (j / (1 + w)) ≠ 1) :
    ∃ lin : (Fin (1 + 0) → ℚ) → Option (Fin (1 + 0) → ℚ),
      (∀ rhs x, lin rhs = some x → ∀ i : Fin (1 + 0), ∑ k : Fin (1 + 0),
        symEntry (ma57Triplets c.M) i k * x k = rhs i) ∧
      ∃ dir', Kkt.normalDirections freeB ⟨0, 0, 0, 0⟩ zeroIt ((exN j w dual).mats 1 1 0)
          (fun i => (exN j w dual).hxd 1 (extractDiagonal (exN 1 0 false).hess) i)
          (fun i => (exN j w dual).hxd 1 (extractDiagonal (exN 1 0 false).hess) (1 + i)) (normSolve lin) oneR
          zeroIt = some dir' ∧
        ¬ Kkt.FullNewton freeB ((exN j w dual).mats 1 1 0)
          ⟨fun _ => w, fun _ => 0, fun _ => 0, fun _ => 0⟩ zeroIt oneR dir' := by
  refine ⟨some, ?_, ?_⟩
  · intro rhs x hx i
    obtain rfl := Option.some.inj hx
    have hs := ma57_sym c.M (by
      rw [hn]; intro i hi j hj
      obtain rfl : i = 0 := by omega
      obtain rfl : j = 0 := by omega
      rfl) 0 (by omega) 0 (by omega)
    have hi : i = 0 := Subsingleton.elim (α := Fin 1) i 0
    subst hi
    rw [Finset.sum_eq_single (0 : Fin (1 + 0))]
    · show symEntry (ma57Triplets c.M) 0 0 * _ = _
      rw [hs, h1, one_mul]
    · intro b _ hb; exact absurd (Subsingleton.elim (α := Fin 1) b 0) hb
    · intro hx; exact absurd (Finset.mem_univ _) hx
  · refine ⟨_, rfl, fun hN => hne ?_⟩
    have := hN.yc 0
    rw [Kkt.fullSpace_x freeB _ freeB_counts freeB_patterns] at this
    have e1 : ∀ i k, ((exN j w dual).mats 1 1 0).Jc i k = j := by
      intro i k
      have hi : i = 0 := Subsingleton.elim _ _
      have hk : k = 0 := Subsingleton.elim _ _
      subst hi hk
      simp [NormIn.mats, exN, entry]
    have e0 : Kkt.rxTilde freeB ⟨0, 0, 0, 0⟩ zeroIt oneR = fun _ => 0 := by
      funext i; simp [Kkt.rxTilde, oneR]
    simp only [Fin.sum_univ_one, Kkt.transTimesVec_apply, Vec.componentDiv, Fin.append_left,
      Kkt.timesVec_apply, show ((0 : Fin 1) : ℕ) = 0 from rfl, hw, e1, e0, Finset.univ_eq_empty, Finset.sum_empty] at this
    simp only [oneR] at this
    refine Eq.trans ?_ this
    ring

/-- **C59 fails when the Jacobian changes.** Two full updates with Jacobian entries 1 and 2: an exact solver
of the matrix of the second call does not give the Newton direction of the second call. -/
theorem C59_first_jacobian_false : ∃ (u0 u1 : NormIn ℚ) (c : Norm ℚ), u0.dual = false ∧
    u1.dual = false ∧ u1 = { u0 with jc := u1.jc } ∧ SamePos u0.jc u1.jc ∧
    normAll insSortE 1 1 0 (fun _ => g7) [u0, u1] = some (some c) ∧
    ∃ lin : (Fin (1 + 0) → ℚ) → Option (Fin (1 + 0) → ℚ),
      (∀ rhs x, lin rhs = some x → ∀ i : Fin (1 + 0), ∑ k : Fin (1 + 0),
        symEntry (ma57Triplets c.M) i k * x k = rhs i) ∧
      ∃ dir', Kkt.normalDirections freeB ⟨0, 0, 0, 0⟩ zeroIt (u1.mats 1 1 0)
          (fun i => u1.hxd 1 (extractDiagonal u0.hess) i)
          (fun i => u1.hxd 1 (extractDiagonal u0.hess) (1 + i)) (normSolve lin) oneR zeroIt = some dir' ∧
        ¬ Kkt.FullNewton freeB (u1.mats 1 1 0)
          ⟨fun _ => 0, fun _ => 0, fun _ => 0, fun _ => 0⟩ zeroIt oneR dir' := by
  obtain ⟨a1, a2, a3, a4, a5, -, a6⟩ := exN_side 1 0 false
  obtain ⟨c, h1, -, h2, -, h3⟩ := C59_matrix insSortE insSortE_sorts 1 1 0 (fun _ => g7) (exN 1 0 false)
    [exN 2 0 false] rfl (by
      intro v hv
      rcases List.mem_pair.1 hv with rfl | rfl <;> exact (exN_side _ _ _).2.2.2.2.1) a1 a2 a3 a4 a6
  refine ⟨exN 1 0 false, exN 2 0 false, c, rfl, rfl, rfl, rfl, h1, ?_⟩
  refine exN_direction c 2 0 false h2 ?_ (by decide +kernel) (by norm_num)
  rw [h3 0 (by omega) 0 (by omega)]
  decide +kernel

/-- **C59 fails when a change of the primal perturbation is announced as a dual update**, as the dual-first
perturbation does (`Perturb.C59_dual_first_kind_false`): the exact solver's direction is not the Newton
direction of the last call. -/
theorem C59_dual_update_false : ∃ (u0 u1 : NormIn ℚ) (c : Norm ℚ), u0.dual = false ∧
    u1 = { u0 with wx := u1.wx, dual := true } ∧
    normAll insSortE 1 1 0 (fun _ => g7) [u0, u1] = some (some c) ∧
    ∃ lin : (Fin (1 + 0) → ℚ) → Option (Fin (1 + 0) → ℚ),
      (∀ rhs x, lin rhs = some x → ∀ i : Fin (1 + 0), ∑ k : Fin (1 + 0),
        symEntry (ma57Triplets c.M) i k * x k = rhs i) ∧
      ∃ dir', Kkt.normalDirections freeB ⟨0, 0, 0, 0⟩ zeroIt (u1.mats 1 1 0)
          (fun i => u1.hxd 1 (extractDiagonal u0.hess) i)
          (fun i => u1.hxd 1 (extractDiagonal u0.hess) (1 + i)) (normSolve lin) oneR zeroIt = some dir' ∧
        ¬ Kkt.FullNewton freeB (u1.mats 1 1 0)
          ⟨fun _ => u1.wx 0, fun _ => 0, fun _ => 0, fun _ => 0⟩ zeroIt oneR dir' := by
  obtain ⟨a1, a2, a3, a4, a5, -, a6⟩ := exN_side 1 0 false
  obtain ⟨c, h1, -, h2, -, h3⟩ := C59_matrix insSortE insSortE_sorts 1 1 0 (fun _ => g7) (exN 1 0 false)
    [exN 1 1 true] rfl (by
      intro v hv
      rcases List.mem_pair.1 hv with rfl | rfl <;> exact (exN_side _ _ _).2.2.2.2.1) a1 a2 a3 a4 a6
  refine ⟨exN 1 0 false, exN 1 1 true, c, rfl, rfl, h1, ?_⟩
  refine exN_direction c 1 1 true h2 ?_ (by decide +kernel) (by norm_num)
  rw [h3 0 (by omega) 0 (by omega)]
  decide +kernel

/-- Two free variables, Hessian `diag(1, -1)`, one equality on the first variable. -/
def exNeg : NormIn ℚ :=
  ⟨[⟨0, 0, 1⟩], [], [⟨0, 0, 1⟩, ⟨1, 1, -1⟩], fun _ => 0, fun _ => 0, fun _ => 0, fun _ => 0, fun _ => 0,
    fun _ => 0, false⟩

/-- **C59 fails: positive definiteness of the normal-equation matrix does not imply the inertia of the full
system.** The matrix of the example is the number 1, so every factorization of it succeeds and the count
handed to the inertia test is the required one, but the Hessian has negative curvature on the null space
of the Jacobian. -/
theorem C59_inertia_false : ∃ c : Norm ℚ, normAll insSortE 2 1 0 (fun _ => g7) [exNeg] = some (some c) ∧
    c.M.nrows = 1 ∧ get c.M 0 0 = 1 ∧
    (∀ (σ : Type) (cs : Perturb.Calc σ) (s : σ), Perturb.requireIC cs ((1 : ℕ) + (0 : ℕ))
      (normCount 1 0 0) false s = some (0, s)) ∧
    ∃ v : Fin 2 → ℚ, (∀ i : Fin 1, ∑ j : Fin 2, (exNeg.mats 2 1 0).Jc i j * v j = 0) ∧
      ∑ i : Fin 2, ∑ j : Fin 2, v i * ((exNeg.mats 2 1 0).H i j * v j) < 0 := by
  obtain ⟨c, h1, -, h2, -, h3⟩ := C59_matrix insSortE insSortE_sorts 2 1 0 (fun _ => g7) exNeg []
    rfl (by intro v hv; rw [List.mem_singleton.1 hv]; decide +kernel) (by unfold Sorted; decide +kernel)
    (by unfold Sorted; decide +kernel) (by unfold InRange; decide +kernel)
    (by unfold InRange; decide +kernel) (Or.inl (by simp [exNeg]))
  refine ⟨c, h1, h2, ?_, fun σ cs s => C59_any_inertia_accepted cs 1 0 (by omega) 0 (by omega) false s,
    ![0, 1], by decide +kernel, by decide +kernel⟩
  rw [h3 0 (by omega) 0 (by omega)]
  decide +kernel

/-- **C59 fails without stored Jacobian entries.** Without inequalities and without stored entries of the
equality Jacobian the first call stops on an assertion. -/
theorem C59_empty_false (srt : List (Ent K) → List (Ent K)) (hs : Sorts srt) (n mc : ℕ) (hn : 0 < n)
    (g : ℕ → Garbage K) (u : NormIn K) (us : List (NormIn K)) (hc : u.jc = []) (hd : u.jd = []) :
    normAll srt n mc 0 g (u :: us) = none := by
  have hj : normJac srt n mc 0 u = some [] := by
    rw [normJac_eq srt n mc 0 u (by rw [hc]; exact List.Pairwise.nil) (by rw [hd]; exact List.Pairwise.nil)
      (by rw [hc]; intro e he; simp at he) (by rw [hd]; intro e he; simp at he), hc, hd]
    congr 1
    exact List.perm_nil.1 (hs _).1
  have hre : reshape (empty (g 0)) (mc + 0) (n + 0) 0 (g 1) = fresh (mc + 0) (n + 0) 0 (g 1) := by
    unfold reshape
    rw [if_pos]
    right; left; simp only [empty, fresh]; omega
  have h1 : formSymbolic (empty (g 0)) (mc + 0) (n + 0) ([] : List (Ent K)) (g 1) =
      some (fresh (mc + 0) (n + 0) 0 (g 1)) := by
    unfold formSymbolic
    simp only [List.length_nil]
    rw [hre]; simp [fresh]
  have h2 : ∀ J, formNumeric (fresh (mc + 0) (n + 0) 0 (g 1)) (mc + 0) (n + 0) ([] : List (Ent K)) = some J →
      transSymbolicCsr (empty (g 2)) J (g 3) = some (fresh (n + 0) (mc + 0) 0 (g 3)) := by
    intro J hJ
    have hp : J.nrows = mc + 0 ∧ J.ncols = n + 0 ∧ J.nnz = 0 := by
      unfold formNumeric at hJ
      split_ifs at hJ
      rw [← Option.some.inj hJ]
      exact ⟨rfl, rfl, rfl⟩
    have hre2 : reshape (empty (g 2)) J.ncols J.nrows J.nnz (g 3) = fresh (n + 0) (mc + 0) 0 (g 3) := by
      rw [hp.1, hp.2.1, hp.2.2]
      unfold reshape
      rw [if_pos]
      left; simp only [empty, fresh]; omega
    unfold transSymbolicCsr
    simp only
    rw [hre2, if_pos (show (fresh (n + 0) (mc + 0) 0 (g 3)).nnz = 0 from rfl)]
  have h3 : normFirst srt n mc 0 g u = none := by
    unfold normFirst
    split_ifs
    · simp only [hj, Option.bind_some, h1]
      cases hJ : formNumeric (fresh (mc + 0) (n + 0) 0 (g 1)) (mc + 0) (n + 0) ([] : List (Ent K)) with
      | none => rfl
      | some J =>
        simp only [Option.bind_some, h2 J hJ]
        have : transNumericCsr (fresh (n + 0) (mc + 0) 0 (g 3)) J = none := rfl
        rw [this]; rfl
    · rfl
  unfold normAll
  rw [List.foldlM_cons]
  simp only [normBuild, h3]
  rfl

/-! ## Concrete histories -/

/-- Two variables, one equality and one inequality. -/
def exU1 : NormIn ℚ :=
  ⟨[⟨0, 0, 1⟩, ⟨0, 1, 2⟩], [⟨0, 1, 3⟩], [⟨0, 0, 1⟩], fun _ => 1, fun _ => 0, fun _ => 1, fun _ => 1,
    fun _ => 5, fun _ => 7, false⟩

/-- A dual update. -/
def exU2 : NormIn ℚ := { exU1 with cc := fun _ => 50, cd := fun _ => 70, dual := true }

-- the hypotheses of `C59_newton_partial`
example : exU1.dual = false ∧ (∀ v ∈ [exU1, exU2], isDiagonal 2 2 v.hess = true) ∧ Sorted exU1.jc ∧
    Sorted exU1.jd ∧ InRange 1 2 exU1.jc ∧ InRange 1 2 exU1.jd ∧ exU1.jc ≠ [] ∧ Distinct exU2.hess ∧
    (∀ k < 2 + 1, (lastFull exU1 [exU2]).hxd 2 (extractDiagonal exU1.hess) k =
      exU2.hxd 2 (extractDiagonal exU1.hess) k) ∧
    ∀ k < 2 + 1, exU2.hxd 2 (extractDiagonal exU1.hess) k ≠ 0 := by
  unfold Sorted InRange Distinct; decide +kernel

-- `h = (2, 1, 2)`: `[1 2 0; 0 3 -1] * diag(h)^{-1} * [...]' = [9/2 6; 6 19/2]`
example : (normAll insSortE 2 1 1 (fun _ => g7) [exU1]).map (fun c => c.map fun c =>
    (List.range 2).map fun i => (List.range 2).map fun j => get c.M i j) =
    some (some [[9/2 + 5, 6], [6, 19/2 + 7]]) := by decide +kernel

example : (normAll insSortE 2 1 1 (fun _ => g7) [exU1, exU2]).map (fun c => c.map fun c =>
    (List.range 2).map fun i => (List.range 2).map fun j => get c.M i j) =
    some (some [[9/2 + 50, 6], [6, 19/2 + 70]]) := by decide +kernel

end examples

end Hiop.Csr
