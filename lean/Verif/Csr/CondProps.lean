import Verif.Csr.Props
import Verif.Csr.Condensed
import Verif.Kkt.Props

/-!
# C46: the condensed KKT matrix

On every call the matrix handed to the linear solver is `H + Dx + delta_wx + J' * (Dd + delta_wd) * J`.
-/

set_option linter.unusedSectionVars false

namespace Hiop.Csr

open Hiop.Sparse

variable {K : Type*} [Field K] [LinearOrder K] [IsStrictOrderedRing K]

theorem SamePat.refl (A : CsrMat K) : SamePat A A := ⟨rfl, rfl, rfl, rfl, rfl, rfl⟩

theorem SamePat.trans {A B C : CsrMat K} (h : SamePat A B) (h' : SamePat B C) : SamePat A C := by
  obtain ⟨a1, a2, a3, a4, a5, a6⟩ := h
  obtain ⟨b1, b2, b3, b4, b5, b6⟩ := h'
  exact ⟨b1.trans a1, b2.trans a2, b3.trans a3, b4.trans a4, b5.trans a5, b6.trans a6⟩

theorem ents_samePos {M M' : CsrMat K} (h : SamePat M M') : SamePos (ents M) (ents M') := by
  obtain ⟨a1, a2, a3, a4, a5, a6⟩ := h
  unfold SamePos ents rowIdx
  rw [a1, a5, a6]
  simp only [List.map_flatMap, List.map_map]
  rfl

theorem transNumeric_pat {B C : CsrMat K} {m n : ℕ} {es : List (Ent K)}
    (h : transNumeric B m n es = some C) : SamePat B C := by
  have : ∃ v s, C = { B with val := v, starts := s } := by
    unfold transNumeric at h
    split at h
    · cases h
    · split_ifs at h
      obtain ⟨s, -, e⟩ := Option.bind_eq_some_iff.mp h
      exact ⟨_, _, (Option.some.inj e).symm⟩
  obtain ⟨v, s, rfl⟩ := this
  exact ⟨rfl, rfl, rfl, rfl, rfl, rfl⟩

theorem sumCols_congr {X Y X' Y' : CsrMat K} (hX : SamePat X X') (hY : SamePat Y Y') :
    sumCols X' Y' = sumCols X Y := by
  obtain ⟨x1, x2, x3, x4, x5, x6⟩ := hX
  obtain ⟨y1, y2, y3, y4, y5, y6⟩ := hY
  have hml : ∀ a b fuel p q, mlist X' Y' a b fuel p q = mlist X Y a b fuel p q := by
    intro a b fuel
    induction fuel with
    | zero => intro p q; rfl
    | succ fuel ih => intro p q; simp only [mlist, x6, y6, ih]
  funext i
  simp only [sumCols, mrow, hml, x5, y5]
  refine List.map_congr_left fun e _ => ?_
  simp only [mc, mergeCol, x6, y6]

/-- `A` has the shape and the pattern of the triplets. -/
structure FormedAs (A : CsrMat K) (m n : ℕ) (es : List (Ent K)) : Prop where
  valid : Valid A
  nrows : A.nrows = m
  ncols : A.ncols = n
  nnz : A.nnz = es.length
  pat : Pat A (fun i => (rowOf es i).map Ent.c)

/-- `At` is prepared for numeric transpositions of matrices with the pattern of `A`. -/
def TransOf (At A : CsrMat K) : Prop :=
  ∃ A0, SamePat A0 A ∧ Valid A0 ∧ TransReady At A0.nrows A0.ncols (ents A0)

/-- `M` has the pattern of the sum. -/
structure SumOf (M X Y : CsrMat K) : Prop where
  valid : Valid M
  nrows : M.nrows = X.nrows
  ncols : M.ncols = X.ncols
  pat : Pat M (sumCols X Y)

/-- `D` is prepared for diagonal matrices. -/
structure DiagOf (D : CsrMat K) (n : ℕ) : Prop where
  valid : Valid D
  nrows : D.nrows = n
  ncols : D.ncols = n
  num : ∀ B' d, SamePat D B' → ∃ C, diagNumeric B' n d = some C ∧ SamePat D C ∧
    ∀ i < n, ∀ j, get C i j = if i = j then d i else 0

theorem Pat.same {A B : CsrMat K} {L : ℕ → List ℕ} (hP : Pat A L) (h : SamePat A B) : Pat B L := by
  obtain ⟨a1, a2, a3, a4, a5, a6⟩ := h
  exact ⟨by rw [a1, a5]; exact hP.ptr, by rw [a3, a1]; exact hP.nnz, by rw [a1, a5, a6]; exact hP.col⟩

theorem FormedAs.same {A B : CsrMat K} {m n : ℕ} {es : List (Ent K)} (h : FormedAs A m n es)
    (hB : SamePat A B) : FormedAs B m n es :=
  ⟨hB.valid h.valid, hB.1.trans h.nrows, hB.2.1.trans h.ncols, hB.2.2.1.trans h.nnz, h.pat.same hB⟩

theorem TransOf.same {At A B : CsrMat K} (h : TransOf At A) (hB : SamePat A B) : TransOf At B := by
  obtain ⟨A0, h1, h2, h3⟩ := h
  exact ⟨A0, h1.trans hB, h2, h3⟩

theorem TransOf.valid {At A : CsrMat K} (h : TransOf At A) :
    Valid At ∧ At.nrows = A.ncols ∧ At.ncols = A.nrows ∧ At.nnz = A.nnz := by
  obtain ⟨A0, h1, h2, h3⟩ := h
  exact ⟨h3.valid, by rw [h3.nrows, h1.2.1], by rw [h3.ncols, h1.1],
    by rw [h3.nnz, ents_length h2, h1.2.2.1]⟩

theorem SumOf.same {M X Y M' X' Y' : CsrMat K} (h : SumOf M X Y) (hM : SamePat M M')
    (hX : SamePat X X') (hY : SamePat Y Y') : SumOf M' X' Y' :=
  ⟨hM.valid h.valid, by rw [hM.1, h.nrows, hX.1], by rw [hM.2.1, h.ncols, hX.2.1],
    by rw [sumCols_congr hX hY]; exact h.pat.same hM⟩

theorem DiagOf.same {D D' : CsrMat K} {n : ℕ} (h : DiagOf D n) (hD : SamePat D D') : DiagOf D' n := by
  refine ⟨hD.valid h.valid, hD.1.trans h.nrows, hD.2.1.trans h.ncols, fun B' d hB => ?_⟩
  obtain ⟨C, c1, c2, c3⟩ := h.num B' d (hD.trans hB)
  obtain ⟨a1, a2, a3, a4, a5, a6⟩ := hD
  obtain ⟨b1, b2, b3, b4, b5, b6⟩ := c2
  exact ⟨C, c1, ⟨b1.trans a1.symm, b2.trans a2.symm, b3.trans a3.symm, b4.trans a4.symm,
    b5.trans a5.symm, b6.trans a6.symm⟩, c3⟩

/-! ## Stages -/

theorem transNum_stage {At A : CsrMat K} (h : TransOf At A) :
    ∃ C, transNumericCsr At A = some C ∧ SamePat At C ∧ TransOf C A ∧
      ∀ i < A.nrows, ∀ j < A.ncols, get C j i = get A i j := by
  obtain ⟨A0, h1, h2, h3⟩ := h
  have hV := h1.valid h2
  obtain ⟨C, c1, c2, c3⟩ := transNumeric_ok At A0.nrows A0.ncols (ents A0) (ents A) h3 (ents_samePos h1)
    (ents_range h2)
  refine ⟨C, by rw [transNumericCsr_eq At A hV, h1.1, h1.2.1, c1], transNumeric_pat c1,
    ⟨A, SamePat.refl A, hV, by rw [h1.1, h1.2.1]; exact c2⟩, fun i hi j hj => ?_⟩
  rw [c3 i (by rw [h1.1] at hi; exact hi) j (by rw [h1.2.1] at hj; exact hj), entry_ents A hi]

theorem conv_stage {A At : CsrMat K} {m n : ℕ} {es es' : List (Ent K)} (hs : Sorted es)
    (hr : InRange m n es) (hA : FormedAs A m n es) (hAt : TransOf At A) (h : SamePos es es') :
    ∃ B Bt, convNum m n A At es' = some (B, Bt) ∧ SamePat A B ∧ SamePat At Bt ∧ TransOf Bt B ∧
      (∀ i < m, ∀ j, get B i j = entry es' i j) ∧
      ∀ i < n, ∀ j < m, get Bt i j = entry es' j i := by
  obtain ⟨B, b1, b2, -, b3⟩ := formNumeric_ok hs hr ⟨hA.nrows, hA.ncols, hA.nnz⟩ hA.valid.ready hA.pat h
  obtain ⟨Bt, c1, c2, c3, c4⟩ := transNum_stage (hAt.same b2)
  refine ⟨B, Bt, ?_, b2, c2, c3, b3, fun i hi j hj => ?_⟩
  · unfold convNum
    rw [b1, Option.bind_some, c1]; rfl
  · rw [c4 j (by rw [b2.1, hA.nrows]; exact hj) i (by rw [b2.2.1, hA.ncols]; exact hi), b3 j hj]

theorem sum_stage {M X Y : CsrMat K} (hX : Valid X) (hY : Valid Y) (h1 : X.nrows = Y.nrows)
    (h2 : X.ncols = Y.ncols) (hM : SumOf M X Y) :
    ∃ N, addNumeric X M 1 Y 1 = some N ∧ SamePat M N ∧
      ∀ i < X.nrows, ∀ j, get N i j = get X i j + get Y i j := by
  obtain ⟨N, n1, n2, n3⟩ := addNumeric_ok hX hY h1 h2 hM.nrows hM.pat 1 1
  exact ⟨N, n1, n2, fun i hi j => by rw [n3 i hi j, one_mul, one_mul]⟩

theorem sumNew_stage {X Y : CsrMat K} (hX : Valid X) (hY : Valid Y) (h1 : X.nrows = Y.nrows)
    (h2 : X.ncols = Y.ncols) (hm : 0 < X.nrows) (hn : 0 < X.ncols) (g : Garbage K) :
    ∃ N, sumNew X Y g = some N ∧ SumOf N X Y ∧
      ∀ i < X.nrows, ∀ j, get N i j = get X i j + get Y i j := by
  obtain ⟨M, a1, a2, a3, a4, a5⟩ := addSymbolic_ok (X := X) (Y := Y)
    (M := fresh X.nrows X.ncols (offs (fun t => (sumCols X Y t).length) X.nrows) g) hX hY h1 h2 rfl rfl
    rfl rfl
  have hM : SumOf M X Y := ⟨a4, a2, a3, a5⟩
  obtain ⟨N, n1, n2, n3⟩ := sum_stage hX hY h1 h2 hM
  refine ⟨N, ?_, hM.same n2 (SamePat.refl X) (SamePat.refl Y), n3⟩
  unfold sumNew
  rw [addAlloc_ok hX hY h1 h2 hm hn g, Option.bind_some, a1, Option.bind_some, n1]

theorem prod_stage {J Jt P : CsrMat K} {m n : ℕ} (hJ : Valid J) (hd : J.nrows = m ∧ J.ncols = n)
    (hJt : Valid Jt) (hdt : Jt.nrows = n ∧ Jt.ncols = m) (hP : Valid P) (hdP : P.nrows = n ∧ P.ncols = n)
    (hc : Covers P Jt J) (hv : ℕ → K) :
    ∃ J' P', prodNum m hv J Jt P = some (J', P') ∧ SamePat J J' ∧ SamePat P P' ∧
      ∀ i < n, ∀ j, get P' i j = ∑ k ∈ Finset.range m, get Jt i k * (hv k * get J k j) := by
  obtain ⟨⟨J', j1, j2, j3, j4⟩, -⟩ := C28_scale J hJ hv
  obtain ⟨P', p1, p2, p3⟩ := timesNumeric_ok (M := P) hJt j3 hP (by rw [j2.1, hd.1, hdt.2])
    (by rw [hdP.1, hdt.1]) (by rw [hdP.2, j2.2.1, hd.2]) (by
      intro i hi k j h1 h2
      rw [j2.stored] at h2
      exact hc i hi k j h1 h2) 1 0
  refine ⟨J', P', ?_, j2, p2, fun i hi j => ?_⟩
  · unfold prodNum
    rw [← hd.1, j1, Option.bind_some, p1]; rfl
  · rw [p3 i (by rw [hdt.1]; exact hi) j, zero_mul, zero_add, one_mul, hdt.2]
    refine Finset.sum_congr rfl fun k hk => ?_
    rw [j4 k (by rw [hd.1]; exact Finset.mem_range.mp hk)]

theorem setDiag_stage {A : CsrMat K} (hV : Valid A) :
    ∃ B, setDiag A 0 = some B ∧ SamePat A B ∧
      ∀ i < A.nrows, ∀ j, get B i j = if i = j then 0 else get A i j := by
  refine ⟨{ A with val := onDiag A fun _ _ => 0 }, by unfold setDiag; rw [if_pos hV.ready],
    ⟨rfl, rfl, rfl, rfl, rfl, rfl⟩, fun i hi j => ?_⟩
  rw [onDiag_get hV _ hi]
  by_cases h : i = j
  · subst h
    rw [if_pos rfl]
    by_cases hs : Stored A i i
    · rw [if_pos ⟨rfl, hs⟩]
    · rw [if_neg fun h => hs h.2, get_not_stored hs]
  · rw [if_neg fun hh => h hh.1, if_neg h]

theorem form_stage (A : CsrMat K) (m n : ℕ) (es : List (Ent K)) (g : Garbage K)
    (hA : A.ready = true ∨ A.nnz ≠ es.length) (hne : es ≠ []) (hs : Sorted es) (hr : InRange m n es) :
    ∃ B, formSymbolic A m n es g = some B ∧ FormedAs B m n es := by
  obtain ⟨B, h1, d1, d2, d3, h2, hP, -⟩ := formSymbolic_ok A m n es g hA hne hs hr
  have hV : Valid B := hP.valid h2 (fun i _ => rowOf_pairwise hs i) (by
    intro i _ c hc
    obtain ⟨e, he, rfl⟩ := List.mem_map.mp hc
    rw [d2]; exact (hr e (List.mem_of_mem_filter he)).2)
  exact ⟨B, h1, hV, d1, d2, d3, hP⟩

theorem transSym_stage (A M : CsrMat K) (g : Garbage K) (hM : Valid M) (hne : 0 < M.nnz)
    (hA : A.nnz ≠ M.nnz) : ∃ B, transSymbolicCsr A M g = some B ∧ TransOf B M := by
  have hl := ents_length hM
  obtain ⟨B, h1, h2⟩ := transSymbolic_ok A M.nrows M.ncols (ents M) g
    (Or.inr (by rw [hl]; exact fun h => hA h.2.2))
    (by intro e; rw [e] at hl; simp at hl; omega) (ents_sorted hM) (ents_range hM)
  exact ⟨B, by rw [transSymbolicCsr_eq A M g hM, h1], M, SamePat.refl M, hM, h2⟩

/-! ## The matrix after every call -/

/-- Entry `(i, j)` of `H + Dx + delta_wx + J' * (Dd + delta_wd) * J`; the Hessian triplets hold one
triangle. -/
def condEntry (m : ℕ) (u : CondIn K) (i j : ℕ) : K :=
  symEntry u.hess i j + (if i = j then u.dx i + u.wx i else 0) +
    ∑ k ∈ Finset.range m, entry u.jac k i * ((u.dd k + u.wd k) * entry u.jac k j)

/-- State between calls. -/
structure CInv (m n : ℕ) (es hs : List (Ent K)) (c : Cond K) : Prop where
  J : FormedAs c.J m n es
  Jt : TransOf c.Jt c.J
  P : Valid c.P ∧ c.P.nrows = n ∧ c.P.ncols = n
  cov : Covers c.P c.Jt c.J
  U : FormedAs c.U n n hs
  L : TransOf c.L c.U
  D : DiagOf c.D n
  UD : SumOf c.UD c.U c.D
  H : SumOf c.H c.L c.UD
  M : SumOf c.M c.H c.P

theorem condEntry_parts {m n : ℕ} {u : CondIn K} {U U1 L D UD H P M : CsrMat K}
    (hU1 : ∀ i < n, ∀ j, get U1 i j = entry u.hess i j)
    (hL : ∀ i < n, ∀ j < n, get L i j = entry u.hess j i)
    (hU : ∀ i < n, ∀ j, get U i j = if i = j then 0 else get U1 i j)
    (hD : ∀ i < n, ∀ j, get D i j = if i = j then u.dxw i else 0)
    (hUD : ∀ i < n, ∀ j, get UD i j = get U i j + get D i j)
    (hH : ∀ i < n, ∀ j, get H i j = get L i j + get UD i j)
    (hP : ∀ i < n, ∀ j < n, get P i j =
      ∑ k ∈ Finset.range m, entry u.jac k i * (u.hd k * entry u.jac k j))
    (hM : ∀ i < n, ∀ j, get M i j = get H i j + get P i j) :
    ∀ i < n, ∀ j < n, get M i j = condEntry m u i j := by
  intro i hi j hj
  rw [hM i hi j, hH i hi j, hUD i hi j, hU i hi j, hD i hi j, hL i hi j hj, hU1 i hi j, hP i hi j hj,
    condEntry, symEntry_eq]
  unfold CondIn.dxw CondIn.hd
  by_cases h : i = j
  · subst h; simp only [if_pos]; ring
  · simp only [if_neg h]; ring

theorem Covers.same {P X Y P' X' Y' : CsrMat K} (h : Covers P X Y) (hP : SamePat P P')
    (hX : SamePat X X') (hY : SamePat Y Y') : Covers P' X' Y' := by
  intro i hi k j h1 h2
  rw [hX.stored] at h1
  rw [hY.stored] at h2
  rw [hP.stored]
  exact h i (by rw [← hX.1]; exact hi) k j h1 h2

theorem buildNext_ok {m n : ℕ} {es hs : List (Ent K)} (hse : Sorted es) (hre : InRange m n es)
    (hsh : Sorted hs) (hrh : InRange n n hs) {c : Cond K} (hc : CInv m n es hs c) (u : CondIn K)
    (hj : SamePos es u.jac) (hh : SamePos hs u.hess) :
    ∃ c', buildNext m n c u = some c' ∧ CInv m n es hs c' ∧
      ∀ i < n, ∀ j < n, get c'.M i j = condEntry m u i j := by
  obtain ⟨J1, Jt, a1, a2, a3, a4, a5, a6⟩ := conv_stage hse hre hc.J hc.Jt hj
  have hJ1 := hc.J.same a2
  have hJtv := a4.valid
  obtain ⟨J, P, b1, b2, b3, b4⟩ := prod_stage (m := m) (n := n) hJ1.valid ⟨hJ1.nrows, hJ1.ncols⟩ hJtv.1
    ⟨by rw [hJtv.2.1, hJ1.ncols], by rw [hJtv.2.2.1, hJ1.nrows]⟩ hc.P.1 hc.P.2
    (hc.cov.same (SamePat.refl _) a3 a2) u.hd
  obtain ⟨U1, L, d1, d2, d3, d4, d5, d6⟩ := conv_stage hsh hrh hc.U hc.L hh
  have hU1 := hc.U.same d2
  obtain ⟨U, e1, e2, e3⟩ := setDiag_stage hU1.valid
  have hU := hU1.same e2
  have hL := d4.valid
  obtain ⟨D, f1, f2, f3⟩ := hc.D.num c.D u.dxw (SamePat.refl _)
  have hD := hc.D.same f2
  have hUDof : SumOf c.UD U D := hc.UD.same (SamePat.refl _) (d2.trans e2) f2
  obtain ⟨UD, g1, g2, g3⟩ := sum_stage hU.valid hD.valid (by rw [hU.nrows, hD.nrows])
    (by rw [hU.ncols, hD.ncols]) hUDof
  have hUD := hUDof.same g2 (SamePat.refl _) (SamePat.refl _)
  have hHof : SumOf c.H L UD := hc.H.same (SamePat.refl _) d3 g2
  have rUD : UD.nrows = n := by rw [hUD.nrows, hU.nrows]
  have cUD : UD.ncols = n := by rw [hUD.ncols, hU.ncols]
  have rL : L.nrows = n := by rw [hL.2.1, hU1.ncols]
  have cL : L.ncols = n := by rw [hL.2.2.1, hU1.nrows]
  obtain ⟨H, i1, i2, i3⟩ := sum_stage hL.1 hUD.valid (by rw [rL, rUD]) (by rw [cL, cUD]) hHof
  have hH := hHof.same i2 (SamePat.refl _) (SamePat.refl _)
  have rH : H.nrows = n := by rw [hH.nrows, rL]
  have cH : H.ncols = n := by rw [hH.ncols, cL]
  have hMof : SumOf c.M H P := hc.M.same (SamePat.refl _) i2 b3
  obtain ⟨M, k1, k2, k3⟩ := sum_stage hH.valid (b3.valid hc.P.1) (by rw [rH, b3.1, hc.P.2.1])
    (by rw [cH, b3.2.1, hc.P.2.2]) hMof
  refine ⟨⟨J, Jt, P, U, L, D, UD, H, M⟩, ?_, ?_, ?_⟩
  · unfold buildNext
    simp only [a1, b1, d1, e1, f1, g1, i1, k1, Option.bind_some, Option.map_some]
  · exact ⟨hJ1.same b2, a4.same b2, ⟨b3.valid hc.P.1, by rw [b3.1, hc.P.2.1], by rw [b3.2.1, hc.P.2.2]⟩,
      hc.cov.same b3 a3 (a2.trans b2), hU, d4.same e2, hD, hUD, hH,
      hMof.same k2 (SamePat.refl _) (SamePat.refl _)⟩
  · rw [hU1.nrows] at e3
    rw [hU.nrows] at g3
    rw [rL] at i3
    rw [rH] at k3
    refine condEntry_parts d5 d6 e3 f3 g3 i3 (fun i hi j hj => ?_) k3
    rw [b4 i hi j]
    refine Finset.sum_congr rfl fun k hk => ?_
    have hk := Finset.mem_range.mp hk
    rw [a6 i hi k hk, a5 k hk]

theorem buildFirst_ok {m n : ℕ} (g : ℕ → Garbage K) (u : CondIn K) (hje : u.jac ≠ []) (hhe : u.hess ≠ [])
    (hse : Sorted u.jac) (hre : InRange m n u.jac) (hsh : Sorted u.hess) (hrh : InRange n n u.hess) :
    ∃ c', buildFirst m n g u = some c' ∧ CInv m n u.jac u.hess c' ∧
      ∀ i < n, ∀ j < n, get c'.M i j = condEntry m u i j := by
  have hn : 0 < n := by
    obtain ⟨e, he⟩ := List.exists_mem_of_ne_nil _ hhe
    have := hrh e he; omega
  have ej : ∀ x : Garbage K, (empty x).nnz = 0 := fun _ => rfl
  have lj : 0 < u.jac.length := List.length_pos_iff.mpr hje
  have lh : 0 < u.hess.length := List.length_pos_iff.mpr hhe
  obtain ⟨J0, x1, x2⟩ := form_stage (empty (g 0)) m n u.jac (g 1) (Or.inr (by rw [ej]; omega)) hje hse hre
  obtain ⟨Jt0, x3, x4⟩ := transSym_stage (empty (g 2)) J0 (g 3) x2.valid (by rw [x2.nnz]; omega)
    (by rw [ej, x2.nnz]; omega)
  obtain ⟨J1, Jt, a1, a2, a3, a4, a5, a6⟩ := conv_stage hse hre x2 x4 (es' := u.jac) rfl
  have hJ1 := x2.same a2
  have hJtv := a4.valid
  have rJt : Jt.nrows = n := by rw [hJtv.2.1, hJ1.ncols]
  have cJt : Jt.ncols = m := by rw [hJtv.2.2.1, hJ1.nrows]
  obtain ⟨P0, y1, y2, y3, y4, y5⟩ := timesSymbolic_ok (X := Jt) (Y := J1)
    (M := fresh Jt.nrows J1.ncols (offs (fun t => (prodCols Jt J1 t).length) Jt.nrows) (g 4)) hJtv.1
    hJ1.valid (by rw [hJ1.nrows, cJt]) rfl rfl rfl rfl
  have y0 := timesAlloc_ok hJtv.1 hJ1.valid (by rw [hJ1.nrows, cJt]) (by rw [rJt]; exact hn)
    (by rw [hJ1.ncols]; exact hn) (g 4)
  have hcov : Covers P0 Jt J1 := by
    intro i hi k j hk hj
    rw [y5.prod_stored (by rw [y2]; exact hi)]
    exact ⟨k, hk, hj⟩
  rw [rJt] at y2
  rw [hJ1.ncols] at y3
  obtain ⟨J, P, b1, b2, b3, b4⟩ := prod_stage (m := m) (n := n) hJ1.valid ⟨hJ1.nrows, hJ1.ncols⟩ hJtv.1
    ⟨rJt, cJt⟩ y4 ⟨y2, y3⟩ hcov u.hd
  obtain ⟨U0, z1, z2⟩ := form_stage (empty (g 5)) n n u.hess (g 6) (Or.inr (by rw [ej]; omega)) hhe hsh hrh
  obtain ⟨U1, w1, w2, -, d5⟩ := formNumeric_ok (es' := u.hess) hsh hrh ⟨z2.nrows, z2.ncols, z2.nnz⟩
    z2.valid.ready z2.pat rfl
  have hU1 := z2.same w2
  obtain ⟨L0, v1, v2⟩ := transSym_stage (empty (g 7)) U1 (g 8) hU1.valid (by rw [hU1.nnz]; omega)
    (by rw [ej, hU1.nnz]; omega)
  obtain ⟨L, t1, t2, t3, t4⟩ := transNum_stage v2
  have d6 : ∀ i < n, ∀ j < n, get L i j = entry u.hess j i := fun i hi j hj => by
    rw [t4 j (by rw [hU1.nrows]; exact hj) i (by rw [hU1.ncols]; exact hi), d5 j hj]
  obtain ⟨U, e1, e2, e3⟩ := setDiag_stage hU1.valid
  have hU := hU1.same e2
  have hL := t3.valid
  obtain ⟨D0, s1, s2, s3, s4, -, s5⟩ := C28_form_diag (empty (g 9)) n (g 10) (Or.inr (by
    rw [ej]; omega))
  have hD0 : DiagOf D0 n := ⟨s2, s3, s4, fun B' d hB => by
    obtain ⟨C, c1, c2, -, c3⟩ := s5 B' d hB; exact ⟨C, c1, c2, c3⟩⟩
  obtain ⟨D, f1, f2, f3⟩ := hD0.num D0 u.dxw (SamePat.refl _)
  have hD := hD0.same f2
  obtain ⟨UD, g1, hUD, g3⟩ := sumNew_stage hU.valid hD.valid (by rw [hU.nrows, hD.nrows])
    (by rw [hU.ncols, hD.ncols]) (by rw [hU.nrows]; exact hn) (by rw [hU.ncols]; exact hn) (g 11)
  have rUD : UD.nrows = n := by rw [hUD.nrows, hU.nrows]
  have cUD : UD.ncols = n := by rw [hUD.ncols, hU.ncols]
  have rL : L.nrows = n := by rw [hL.2.1, hU1.ncols]
  have cL : L.ncols = n := by rw [hL.2.2.1, hU1.nrows]
  obtain ⟨H, i1, hH, i3⟩ := sumNew_stage hL.1 hUD.valid (by rw [rL, rUD]) (by rw [cL, cUD])
    (by rw [rL]; exact hn) (by rw [cL]; exact hn) (g 12)
  have rH : H.nrows = n := by rw [hH.nrows, rL]
  have cH : H.ncols = n := by rw [hH.ncols, cL]
  obtain ⟨M, k1, hM, k3⟩ := sumNew_stage hH.valid (b3.valid y4) (by rw [rH, b3.1, y2])
    (by rw [cH, b3.2.1, y3]) (by rw [rH]; exact hn) (by rw [cH]; exact hn) (g 13)
  refine ⟨⟨J, Jt, P, U, L, D, UD, H, M⟩, ?_, ?_, ?_⟩
  · unfold buildFirst jacSym prodSym
    simp only [x1, x3, a1, y0, y1, b1, z1, w1, v1, t1, e1, s1, f1, g1, i1, k1, Option.bind_some,
      Option.map_some]
    rw [if_pos (by rw [hL.2.2.2, e2.2.2.1])]
  · exact ⟨hJ1.same b2, a4.same b2, ⟨b3.valid y4, by rw [b3.1, y2], by rw [b3.2.1, y3]⟩,
      hcov.same b3 (SamePat.refl _) b2, hU, t3.same e2, hD, hUD, hH, hM⟩
  · rw [hU1.nrows] at e3
    rw [hU.nrows] at g3
    rw [rL] at i3
    rw [rH] at k3
    refine condEntry_parts d5 d6 e3 f3 g3 i3 (fun i hi j hj => ?_) k3
    rw [b4 i hi j]
    refine Finset.sum_congr rfl fun k hk => ?_
    have hk := Finset.mem_range.mp hk
    rw [a6 i hi k hk, a5 k hk]

/-- **C46, matrix.** For every history of calls on a new object, with whatever values at the fixed
positions of the Jacobian and Hessian triplets and whatever diagonals and perturbations, all calls
succeed and the matrix of the last one is `H + Dx + delta_wx + J' * (Dd + delta_wd) * J`: nothing is
left over from earlier calls or from the allocator. -/
theorem C46_condensed_matrix (m n : ℕ) (g : ℕ → Garbage K) (es hs : List (Ent K)) (hne : es ≠ [])
    (hnh : hs ≠ []) (hse : Sorted es) (hre : InRange m n es) (hsh : Sorted hs) (hrh : InRange n n hs)
    (hist : List (CondIn K)) (u : CondIn K)
    (hpos : ∀ v ∈ hist ++ [u], SamePos es v.jac ∧ SamePos hs v.hess) :
    ∃ c, buildAll m n g (hist ++ [u]) = some (some c) ∧ Valid c.M ∧ c.M.nrows = n ∧ c.M.ncols = n ∧
      ∀ i < n, ∀ j < n, get c.M i j = condEntry m u i j := by
  have hdims : ∀ c, CInv m n es hs c → Valid c.M ∧ c.M.nrows = n ∧ c.M.ncols = n := by
    intro c hc
    have hL := hc.L.valid
    exact ⟨hc.M.valid, by rw [hc.M.nrows, hc.H.nrows, hL.2.1, hc.U.ncols],
      by rw [hc.M.ncols, hc.H.ncols, hL.2.2.1, hc.U.nrows]⟩
  have hlater : ∀ (hist : List (CondIn K)) (c : Cond K), CInv m n es hs c →
      (∀ v ∈ hist ++ [u], SamePos es v.jac ∧ SamePos hs v.hess) →
      ∃ c', (hist ++ [u]).foldlM (fun c u => (build m n g c u).map some) (some c) = some (some c') ∧
        CInv m n es hs c' ∧ ∀ i < n, ∀ j < n, get c'.M i j = condEntry m u i j := by
    intro hist
    induction hist with
    | nil =>
      intro c hc hp
      obtain ⟨c', h1, h2, h3⟩ := buildNext_ok hse hre hsh hrh hc u (hp u (by simp)).1 (hp u (by simp)).2
      exact ⟨c', by simp [build, h1], h2, h3⟩
    | cons v hist ih =>
      intro c hc hp
      obtain ⟨c1, h1, h2, -⟩ := buildNext_ok hse hre hsh hrh hc v (hp v (by simp)).1 (hp v (by simp)).2
      obtain ⟨c', k1, k2⟩ := ih c1 h2 fun w hw => hp w (by simp at hw ⊢; tauto)
      refine ⟨c', ?_, k2⟩
      rw [List.cons_append, List.foldlM_cons]
      simp only [build, h1, Option.map_some]
      exact k1
  have hfirst : ∀ v, SamePos es v.jac → SamePos hs v.hess →
      ∃ c, buildFirst m n g v = some c ∧ CInv m n es hs c ∧
        ∀ i < n, ∀ j < n, get c.M i j = condEntry m v i j := by
    intro v h1 h2
    obtain ⟨c, k1, k2, k3⟩ := buildFirst_ok (m := m) (n := n) g v
      (by intro e; have := h1.length; rw [e] at this; exact hne (List.length_eq_zero_iff.mp this.symm))
      (by intro e; have := h2.length; rw [e] at this; exact hnh (List.length_eq_zero_iff.mp this.symm))
      (h1.sorted hse) (h1.range hre) (h2.sorted hsh) (h2.range hrh)
    refine ⟨c, k1, ⟨?_, k2.Jt, k2.P, k2.cov, ?_, k2.L, k2.D, k2.UD, k2.H, k2.M⟩, k3⟩
    · exact ⟨k2.J.valid, k2.J.nrows, k2.J.ncols, by rw [k2.J.nnz, h1.length], by
        rw [← funext h1.rows]; exact k2.J.pat⟩
    · exact ⟨k2.U.valid, k2.U.nrows, k2.U.ncols, by rw [k2.U.nnz, h2.length], by
        rw [← funext h2.rows]; exact k2.U.pat⟩
  cases hist with
  | nil =>
    obtain ⟨c, h1, h2, h3⟩ := hfirst u (hpos u (by simp)).1 (hpos u (by simp)).2
    obtain ⟨q1, q2, q3⟩ := hdims c h2
    exact ⟨c, by simp [buildAll, build, h1], q1, q2, q3, h3⟩
  | cons v hist =>
    obtain ⟨c1, h1, h2, -⟩ := hfirst v (hpos v (by simp)).1 (hpos v (by simp)).2
    obtain ⟨c', k1, k2, k3⟩ := hlater hist c1 h2 fun w hw => hpos w (by simp at hw ⊢; tauto)
    obtain ⟨q1, q2, q3⟩ := hdims c' k2
    refine ⟨c', ?_, q1, q2, q3, k3⟩
    unfold buildAll
    rw [List.cons_append, List.foldlM_cons]
    simp only [build, h1, Option.map_some]
    exact k1

/-- The condensed matrix is symmetric. -/
theorem condEntry_symm (m : ℕ) (u : CondIn K) (i j : ℕ) : condEntry m u i j = condEntry m u j i := by
  unfold condEntry
  rw [symEntry_symm]
  congr 1
  · congr 1
    by_cases h : i = j
    · subst h; rfl
    · rw [if_neg h, if_neg (Ne.symm h)]
  · exact Finset.sum_congr rfl fun k _ => by ring

theorem ma57_entry (M : CsrMat K) {i : ℕ} (hi : i < M.nrows) (j : ℕ) :
    entry (ma57Triplets M) i j = if j ≤ i then get M i j else 0 := by
  have key : ∀ l : List ℕ, l.Nodup → entry (l.flatMap fun r =>
      ((rowIdx M r).filter fun p => M.col p ≤ r).map fun p => (⟨r, M.col p, M.val p⟩ : Ent K)) i j =
      if i ∈ l ∧ j ≤ i then get M i j else 0 := by
    intro l
    induction l with
    | nil => intro _; simp
    | cons r l ih =>
      intro hl
      rw [List.nodup_cons] at hl
      rw [List.flatMap_cons, entry_append, ih hl.2]
      have hrow : entry (((rowIdx M r).filter fun p => M.col p ≤ r).map fun p =>
          (⟨r, M.col p, M.val p⟩ : Ent K)) i j = if r = i ∧ j ≤ i then get M i j else 0 := by
        have hg : get M i j = ((rowIdx M i).map fun p => if M.col p = j then M.val p else 0).sum :=
          (rowIdx_sum M i _).symm
        by_cases h : r = i
        · subst h
          simp only [true_and]
          rw [hg]
          generalize rowIdx M r = ps
          induction ps with
          | nil => simp
          | cons p ps ihp =>
            by_cases hp : M.col p ≤ r
            · rw [List.filter_cons_of_pos (by simpa using hp), List.map_cons, entry_cons, ihp,
                List.map_cons, List.sum_cons]
              by_cases hj : M.col p = j
              · subst hj; simp [hp]
              · simp [hj]
            · rw [List.filter_cons_of_neg (by simpa using hp), ihp, List.map_cons, List.sum_cons]
              by_cases hj : M.col p = j
              · subst hj; simp [hp]
              · simp [hj]
        · rw [if_neg fun hh => h hh.1]
          generalize (rowIdx M r).filter _ = ps
          induction ps with
          | nil => rfl
          | cons p ps ihp => rw [List.map_cons, entry_cons, ihp]; simp [h]
      rw [hrow]
      by_cases h : r = i
      · subst h
        simp only [true_and, hl.1, false_and, if_false, add_zero, List.mem_cons, true_or]
      · simp only [h, false_and, if_false, zero_add, List.mem_cons, Ne.symm h, false_or]
  unfold ma57Triplets
  rw [key _ List.nodup_range]
  simp [hi]

/-- **C46, solver input.** The triplets given to MA57, which stand for a symmetric matrix and hold one
triangle, are the condensed matrix. -/
theorem C46_ma57 (m n : ℕ) (u : CondIn K) (M : CsrMat K) (hn : M.nrows = n)
    (hM : ∀ i < n, ∀ j < n, get M i j = condEntry m u i j) :
    (∀ e ∈ ma57Triplets M, e.c ≤ e.r) ∧
    ∀ i < n, ∀ j < n, symEntry (ma57Triplets M) i j = condEntry m u i j := by
  constructor
  · intro e he
    obtain ⟨r, -, he⟩ := List.mem_flatMap.mp he
    obtain ⟨p, hp, rfl⟩ := List.mem_map.mp he
    simpa using (List.mem_filter.mp hp).2
  · intro i hi j hj
    rw [symEntry_eq, ma57_entry M (by omega), ma57_entry M (by omega), ma57_entry M (by omega)]
    by_cases h : i = j
    · subst h; rw [if_pos rfl, if_pos le_rfl, hM i hi i hi]
    · rw [if_neg h]
      rcases Nat.lt_or_gt_of_ne h with h' | h'
      · rw [if_neg (by omega), if_pos (by omega), zero_add, hM j hj i hi, condEntry_symm]
      · rw [if_pos (by omega), if_neg (by omega), add_zero, hM i hi j hj]

/-- The matrices of the problem given by the triplets of a call. -/
def CondIn.mats (n m : ℕ) (u : CondIn K) : Kkt.Mats K n 0 m where
  H := fun i j => symEntry u.hess i j
  Jc := fun i _ => i.elim0
  Jd := fun i j => entry u.jac i j

/-- **C46, directions.** For every history of calls, a solver that is exact for the matrix it is given in
the last call yields exact solutions of the (x, d, yd) system of the last call, with `delta_cd = 0`. -/
theorem C46_directions (m n : ℕ) (g : ℕ → Garbage K) (es hs : List (Ent K)) (hne : es ≠ [])
    (hnh : hs ≠ []) (hse : Sorted es) (hre : InRange m n es) (hsh : Sorted hs) (hrh : InRange n n hs)
    (hist : List (CondIn K)) (u : CondIn K)
    (hpos : ∀ v ∈ hist ++ [u], SamePos es v.jac ∧ SamePos hs v.hess) :
    ∃ c, buildAll m n g (hist ++ [u]) = some (some c) ∧
      ∀ lin : (Fin n → K) → Option (Fin n → K),
        (∀ rhs x, lin rhs = some x → ∀ i : Fin n, ∑ j : Fin n,
          symEntry (ma57Triplets c.M) i j * x j = rhs i) →
        Kkt.Solves4 (u.mats n m) (fun i => u.dx i + u.wx i) (fun k => u.dd k + u.wd k)
          (fun i => i.elim0) (fun _ => 0) (Kkt.condensedSolve (u.mats n m) (fun k => u.dd k + u.wd k) lin) := by
  obtain ⟨c, h1, -, h2, -, h3⟩ := C46_condensed_matrix m n g es hs hne hnh hse hre hsh hrh hist u hpos
  refine ⟨c, h1, fun lin hlin => ?_⟩
  refine Kkt.C19_condensed_partial (u.mats n m) _ (fun i => u.dx i) (fun i => u.wx i) _ lin
    (fun _ => rfl) ?_
  intro rhs x hx i
  rw [← hlin rhs x hx i]
  refine Finset.sum_congr rfl fun j _ => ?_
  rw [(C46_ma57 m n u c.M h2 h3).2 i i.2 j j.2]
  congr 1
  unfold Kkt.condensedMatrix condEntry CondIn.mats
  simp only [Fin.ext_iff]
  rw [Finset.sum_range]

/-- **C46 fails without inequality Jacobian entries.** The first call stops on an assertion, for every
problem whose inequality Jacobian has no stored entries. -/
theorem C46_empty_jacobian_false (m n : ℕ) (hn : 0 < n) (g : ℕ → Garbage K) (u : CondIn K)
    (hj : u.jac = []) (hist : List (CondIn K)) : buildAll m n g (u :: hist) = none := by
  have hre : reshape (empty (g 0)) m n 0 (g 1) = fresh m n 0 (g 1) := by
    unfold reshape
    rw [if_pos]
    right; left; simp only [empty, fresh]; omega
  have h1 : formSymbolic (empty (g 0)) m n ([] : List (Ent K)) (g 1) = some (fresh m n 0 (g 1)) := by
    unfold formSymbolic
    simp only [List.length_nil]
    rw [hre]; simp [fresh]
  have hre2 : reshape (empty (g 2)) n m 0 (g 3) = fresh n m 0 (g 3) := by
    unfold reshape
    rw [if_pos]
    left; simp only [empty, fresh]; omega
  have h2 : transSymbolicCsr (empty (g 2)) (fresh m n 0 (g 1)) (g 3) = some (fresh n m 0 (g 3)) := by
    unfold transSymbolicCsr
    change (let A := reshape (empty (g 2)) n m 0 (g 3); if A.nnz = 0 then some A else _) = _
    simp only
    rw [hre2, if_pos (show (fresh n m 0 (g 3)).nnz = 0 from rfl)]
  have h3 : buildFirst m n g u = none := by
    unfold buildFirst jacSym convNum
    rw [hj, h1]
    simp only [Option.bind_some, h2, Option.map_some]
    have : ∀ A : CsrMat K, transNumericCsr (fresh n m 0 (g 3)) A = none := fun A => rfl
    simp only [this, Option.map_none]
    cases formNumeric (fresh m n 0 (g 1)) m n [] <;> rfl
  unfold buildAll
  rw [List.foldlM_cons]
  simp only [build, h3]
  rfl

/-! ## A concrete history -/

section examples

/-- One inequality on two variables, Hessian `[1 2; 2 0]` given by its upper triangle. -/
def u1 : CondIn ℚ :=
  ⟨[⟨0, 0, 1⟩, ⟨0, 1, 3⟩], [⟨0, 0, 1⟩, ⟨0, 1, 2⟩], fun _ => 1, fun _ => 10, fun _ => 1, fun _ => 1⟩

def u2 : CondIn ℚ :=
  ⟨[⟨0, 0, 2⟩, ⟨0, 1, 1⟩], [⟨0, 0, 5⟩, ⟨0, 1, 7⟩], fun _ => 0, fun _ => 1, fun _ => 1, fun _ => 0⟩

example : u1.jac ≠ [] ∧ u1.hess ≠ [] ∧ Sorted u1.jac ∧ InRange 1 2 u1.jac ∧ Sorted u1.hess ∧
    InRange 2 2 u1.hess ∧ SamePos u1.jac u2.jac ∧ SamePos u1.hess u2.hess := by
  unfold Sorted InRange SamePos; decide +kernel

-- first call `H + 11 I + 2 J'J`, second call `H + I + J'J` with the new values
example : (buildAll 1 2 (fun _ => g7) [u1]).map (fun c => c.map fun c =>
    (List.range 2).map fun i => (List.range 2).map fun j => get c.M i j) =
    some (some [[14, 8], [8, 29]]) := by decide +kernel

example : (buildAll 1 2 (fun _ => g7) [u1, u2]).map (fun c => c.map fun c =>
    (List.range 2).map fun i => (List.range 2).map fun j => get c.M i j) =
    some (some [[10, 9], [9, 2]]) := by decide +kernel

end examples

end Hiop.Csr
