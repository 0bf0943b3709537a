import Verif.Fr.Props

/-!
# Property C48: the Hessian of the restoration problem
-/

set_option linter.unusedSimpArgs false
set_option linter.unusedSectionVars false
set_option linter.unusedVariables false

namespace Hiop.Fr

open Hiop.Vec Hiop.Kkt Hiop.QN Hiop.Iterate Hiop.Barrier Hiop.Sparse Finset

variable {n mc m ns nd : ℕ}

/-- Component `k` of the gradient of `sigma * objective + lam . constraints` of the restoration
problem, with the gradient and the Jacobian `J` handed to the solver (`C48_gradient`,
`C48_jacobian`). -/
noncomputable def lagGrad (L : Layout n mc m) (P : Prob n m) (J : (ℕ → ℝ) → ℕ → ℕ → ℝ) (sigma : ℝ)
    (lam x : ℕ → ℝ) (k : ℕ) : ℝ :=
  sigma * evalGrad L P x k + ∑ i ∈ range (mc + m), lam i * J x i k

/-- `H` is the derivative of the gradient of that Lagrangian at `x`. -/
def IsHess (L : Layout n mc m) (P : Prob n m) (J : (ℕ → ℝ) → ℕ → ℕ → ℝ) (sigma : ℝ) (lam x : ℕ → ℝ)
    (H : ℕ → ℕ → ℝ) : Prop :=
  ∀ k < n + 2 * mc + 2 * m, ∀ v : ℕ → ℝ,
    HasDerivAt (fun t : ℝ => lagGrad L P J sigma lam (fun k => x k + t * v k) k)
      (∑ k' ∈ range (n + 2 * mc + 2 * m), H k k' * v k') 0

/-- `H` is the Hessian of `yc . c + yd . d` for the base problem at `x`. -/
def BaseHess (Jc : RVec ℝ n → Fin mc → Fin n → ℝ) (Jd : RVec ℝ n → Fin m → Fin n → ℝ)
    (yc : RVec ℝ mc) (yd : RVec ℝ m) (x : RVec ℝ n) (H : Fin n → Fin n → ℝ) : Prop :=
  ∀ j (v : RVec ℝ n), HasDerivAt (fun t : ℝ =>
    ∑ i, yc i * Jc (fun a => x a + t * v a) i j + ∑ i, yd i * Jd (fun a => x a + t * v a) i j)
      (∑ k, H j k * v k) 0

/-- Block form of the restoration Hessian. -/
structure HessBlocks {L : Layout n mc m} (pl : Places L) (P : Prob n m) (H : ℕ → ℕ → ℝ)
    (Hb : Fin n → Fin n → ℝ) : Prop where
  xx : ∀ i j, H (pl.ix i) (pl.ix j) = Hb i j + if i = j then P.zeta * P.dr i * P.dr i else 0
  xb : ∀ i k, L.pe ≤ k → k < L.ni + m → H (pl.ix i) k = 0
  b : ∀ k k', L.pe ≤ k → k < L.ni + m → k' < n + 2 * mc + 2 * m → H k k' = 0

theorem isHess_of_blocks {L : Layout n mc m} (pl : Places L) (P : Prob n m)
    {J : (ℕ → ℝ) → ℕ → ℕ → ℝ} {Jc : RVec ℝ n → Fin mc → Fin n → ℝ}
    {Jd : RVec ℝ n → Fin m → Fin n → ℝ}
    (hJ : ∀ x, JacBlocks pl (J x) (Jc (L.getX x)) (Jd (L.getX x))) (lam x : ℕ → ℝ)
    {H : ℕ → ℕ → ℝ} {Hb : Fin n → Fin n → ℝ} (hH : HessBlocks pl P H Hb)
    (hb : BaseHess Jc Jd (copyOut lam 0 mc) (copyOut lam mc m) (L.getX x) Hb) :
    IsHess L P J 1 lam x H := by
  have hgx : ∀ (v : ℕ → ℝ) (t : ℝ), L.getX (fun k => x k + t * v k) =
      fun j => L.getX x j + t * L.getX v j := fun v t => by funext j; simp only [pl.get]
  have e1 := pl.hne; have e2 := pl.hpi; have e3 := pl.hni
  intro k hk v
  have hsplit : ∀ y : ℕ → ℝ, ∑ i ∈ range (mc + m), lam i * J y i k =
      ∑ i : Fin mc, lam i * J y i k + ∑ i : Fin m, lam (mc + i) * J y (mc + i) k := fun y => by
    rw [Finset.sum_range_add, Finset.sum_range, Finset.sum_range]
  by_cases hkb : L.pe ≤ k ∧ k < L.ni + m
  · -- blocks
    have hz : ∑ k' ∈ range (n + 2 * mc + 2 * m), H k k' * v k' = 0 :=
      Finset.sum_eq_zero fun k' hk' => by
        rw [hH.b k k' hkb.1 hkb.2 (Finset.mem_range.1 hk'), zero_mul]
    rw [hz]
    have hJc : ∀ y : ℕ → ℝ, ∀ i < mc + m, J y i k = J x i k := by
      intro y i hi
      by_cases h : i < mc
      · obtain ⟨i, rfl⟩ : ∃ i' : Fin mc, (i' : ℕ) = i := ⟨⟨i, h⟩, rfl⟩
        by_cases h1 : k < L.ne
        · obtain ⟨q, rfl⟩ : ∃ q : Fin mc, L.pe + (q : ℕ) = k :=
            ⟨⟨k - L.pe, by omega⟩, by simp; omega⟩
          rw [(hJ y).cpe, (hJ x).cpe]
        by_cases h2 : k < L.pi
        · obtain ⟨q, rfl⟩ : ∃ q : Fin mc, L.ne + (q : ℕ) = k :=
            ⟨⟨k - L.ne, by omega⟩, by simp; omega⟩
          rw [(hJ y).cne, (hJ x).cne]
        by_cases h3 : k < L.ni
        · obtain ⟨q, rfl⟩ : ∃ q : Fin m, L.pi + (q : ℕ) = k :=
            ⟨⟨k - L.pi, by omega⟩, by simp; omega⟩
          rw [(hJ y).cpi, (hJ x).cpi]
        · obtain ⟨q, rfl⟩ : ∃ q : Fin m, L.ni + (q : ℕ) = k :=
            ⟨⟨k - L.ni, by omega⟩, by simp; omega⟩
          rw [(hJ y).cni, (hJ x).cni]
      · obtain ⟨i, rfl⟩ : ∃ i' : Fin m, mc + (i' : ℕ) = i := ⟨⟨i - mc, by omega⟩, by simp; omega⟩
        by_cases h1 : k < L.ne
        · obtain ⟨q, rfl⟩ : ∃ q : Fin mc, L.pe + (q : ℕ) = k :=
            ⟨⟨k - L.pe, by omega⟩, by simp; omega⟩
          rw [(hJ y).dpe, (hJ x).dpe]
        by_cases h2 : k < L.pi
        · obtain ⟨q, rfl⟩ : ∃ q : Fin mc, L.ne + (q : ℕ) = k :=
            ⟨⟨k - L.ne, by omega⟩, by simp; omega⟩
          rw [(hJ y).dne, (hJ x).dne]
        by_cases h3 : k < L.ni
        · obtain ⟨q, rfl⟩ : ∃ q : Fin m, L.pi + (q : ℕ) = k :=
            ⟨⟨k - L.pi, by omega⟩, by simp; omega⟩
          rw [(hJ y).dpi, (hJ x).dpi]
        · obtain ⟨q, rfl⟩ : ∃ q : Fin m, L.ni + (q : ℕ) = k :=
            ⟨⟨k - L.ni, by omega⟩, by simp; omega⟩
          rw [(hJ y).dni, (hJ x).dni]
    have hf : (fun t : ℝ => lagGrad L P J 1 lam (fun k => x k + t * v k) k) =
        fun _ => 1 * P.rho + ∑ i ∈ range (mc + m), lam i * J x i k := by
      funext t
      rw [lagGrad, evalGrad, putX_block pl _ _ k hkb.1 hkb.2]
      congr 1
      exact Finset.sum_congr rfl fun i hi => by rw [hJc _ i (Finset.mem_range.1 hi)]
    rw [hf]
    exact hasDerivAt_const _ _
  · obtain ⟨j, rfl⟩ := pl.cover k hk (by omega)
    have hsum : ∑ k' ∈ range (n + 2 * mc + 2 * m), H (pl.ix j) k' * v k' =
        P.zeta * P.dr j * P.dr j * L.getX v j + ∑ a, Hb j a * L.getX v a := by
      rw [show n + 2 * mc + 2 * m = nTot n mc m from rfl, pl.sum]
      have b1 : ∀ i : Fin mc, H (pl.ix j) (L.pe + i) = 0 := fun i =>
        hH.xb _ _ (by omega) (by have := i.2; omega)
      have b2 : ∀ i : Fin mc, H (pl.ix j) (L.ne + i) = 0 := fun i =>
        hH.xb _ _ (by omega) (by have := i.2; omega)
      have b3 : ∀ i : Fin m, H (pl.ix j) (L.pi + i) = 0 := fun i =>
        hH.xb _ _ (by omega) (by have := i.2; omega)
      have b4 : ∀ i : Fin m, H (pl.ix j) (L.ni + i) = 0 := fun i =>
        hH.xb _ _ (by omega) (by have := i.2; omega)
      simp only [b1, b2, b3, b4, zero_mul, Finset.sum_const_zero, add_zero, hH.xx, add_mul,
        Finset.sum_add_distrib, ite_mul, Finset.sum_ite_eq, Finset.mem_univ, if_true, pl.get]
      ring
    rw [hsum]
    have hf : (fun t : ℝ => lagGrad L P J 1 lam (fun k => x k + t * v k) (pl.ix j)) = fun t =>
        P.zeta * P.dr j * P.dr j * ((L.getX x j - P.xref j) + t * L.getX v j) +
          (∑ i, copyOut lam 0 mc i * Jc (fun a => L.getX x a + t * L.getX v a) i j +
            ∑ i, copyOut lam mc m i * Jd (fun a => L.getX x a + t * L.getX v a) i j) := by
      funext t
      rw [lagGrad, hsplit, evalGrad, pl.put, scale_apply]
      simp only [(hJ _).cx, (hJ _).dx, hgx, copyOut, Nat.zero_add, componentMult, axpy]
      ring
    rw [hf]
    exact ((lin_deriv _ _).const_mul _).add (hb j (L.getX v))

/-! ## The triplets -/

/-- **C48, restoration Hessian block.** For a base Hessian stored as a sorted upper triangle,
`set_Hess_FR` succeeds and its triplets are the base Hessian plus the diagonal. -/
theorem C48_setHessFR (H : List (Ent ℝ)) (hs : Sorted H) (hu : ∀ e ∈ H, e.r ≤ e.c)
    (hr : InRange n n H) (diag : RVec ℝ n) :
    ∃ l, setHessFR n H diag (n + numOffDiag H) = some l ∧ l.length = n + numOffDiag H ∧
      (∀ e ∈ l, e.r ≤ e.c ∧ e.c < n) ∧
      ∀ i j : ℕ, symEntry l i j = symEntry H i j + if h : i = j ∧ i < n then diag ⟨i, h.2⟩ else 0 := by
  have hrs : RowSorted H := hs.imp fun h => by omega
  have hrow : ∀ e ∈ H, e.r < n := fun e he => (hr e he).1
  by_cases hn : n = 0
  · subst hn
    have hH : H = [] := by
      cases H with
      | nil => rfl
      | cons e H => exact absurd (hr e (by simp)).1 (by omega)
    subst hH
    exact ⟨[], by simp [setHessFR, numOffDiag], by simp [numOffDiag], by simp,
      fun i j => by simp [symEntry_nil]⟩
  · have hlen := length_hessRows n H hs hu hrow (copyTo diag (fun _ => 0) 0)
    refine ⟨hessRows n H (copyTo diag (fun _ => 0) 0), ?_, hlen, ?_, fun i j => ?_⟩
    · unfold setHessFR
      rw [if_neg (by omega), if_pos ⟨rfl, (rowStartsOk_iff H hrs n).2 hrow, Or.inr rfl⟩]
      simp only
      rw [if_pos (show n > 0 by omega), if_pos hlen]
    · intro e he
      rw [hessRows_eq, List.mem_flatMap] at he
      obtain ⟨r, hrn, he⟩ := he
      have hrn : r < n := by simpa using hrn
      have hsl : ∀ a ∈ rowSlice H r, a.r = r ∧ a.r ≤ a.c ∧ a.c < n := by
        intro a ha
        rw [rowSlice_eq H hrs] at ha
        obtain ⟨h1, h2⟩ := List.mem_filter.1 ha
        exact ⟨by simpa using h2, hu a h1, (hr a h1).2⟩
      unfold hessRow at he
      cases hc : rowSlice H r with
      | nil => rw [hc] at he; simp at he; subst he; exact ⟨le_refl _, hrn⟩
      | cons a as =>
        rw [hc] at he hsl
        simp only at he
        split_ifs at he
        · rcases List.mem_cons.1 he with rfl | he
          · exact ⟨le_refl _, hrn⟩
          · obtain ⟨a', ha', rfl⟩ := List.mem_map.1 he
            have := hsl a' (List.mem_cons_of_mem _ ha')
            exact ⟨by simp only; omega, this.2.2⟩
        · rcases List.mem_cons.1 he with rfl | he
          · exact ⟨le_refl _, hrn⟩
          · obtain ⟨a', ha', rfl⟩ := List.mem_map.1 he
            have := hsl a' ha'
            exact ⟨by simp only; omega, this.2.2⟩
    · rw [symEntry_hessRows n H hrs hrow]
      congr 1
      by_cases h : i = j ∧ i < n
      · rw [if_pos h, dif_pos h]
        simpa using copyTo_in diag (fun _ => 0) 0 ⟨i, h.2⟩
      · rw [if_neg h, dif_neg h]

example : ∃ l, setHessFR 2 [⟨0, 0, 5⟩, ⟨0, 1, 7⟩] ![1, 2] 3 = some l ∧ symEntry l 0 0 = 6 ∧
    symEntry l 1 0 = 7 ∧ symEntry l 1 1 = 2 := by
  obtain ⟨l, h1, -, -, h2⟩ := C48_setHessFR (n := 2) [⟨0, 0, 5⟩, ⟨0, 1, 7⟩] (by simp [Sorted])
    (by simp) (by simp [InRange]) ![1, 2]
  refine ⟨l, by simpa [numOffDiag] using h1, ?_, ?_, ?_⟩
  · rw [h2]; simp [symEntry]; norm_num
  · rw [h2]; simp [symEntry]
  · rw [h2]; simp [symEntry]

/-- Not true of Hessians with two entries at a diagonal position (which the base solver accepts,
triplets being summed): the space reserved is too small. -/
theorem C48_setHessFR_repeated_false :
    RowSorted ([⟨0, 0, 1⟩, ⟨0, 0, 1⟩] : List (Ent ℝ)) ∧
      setHessFR 1 [⟨0, 0, 1⟩, ⟨0, 0, 1⟩] (fun _ : Fin 1 => (1 : ℝ))
        (1 + numOffDiag ([⟨0, 0, 1⟩, ⟨0, 0, 1⟩] : List (Ent ℝ))) = none := by
  refine ⟨by simp [RowSorted], ?_⟩
  have hsl : rowSlice ([⟨0, 0, 1⟩, ⟨0, 0, 1⟩] : List (Ent ℝ)) 0 = [⟨0, 0, 1⟩, ⟨0, 0, 1⟩] := by
    rw [rowSlice_eq _ (by simp [RowSorted])]; simp
  have hn : numOffDiag ([⟨0, 0, 1⟩, ⟨0, 0, 1⟩] : List (Ent ℝ)) = 0 := by simp [numOffDiag]
  unfold setHessFR
  rw [hn, if_neg (by omega), if_pos ⟨rfl, by
    rw [rowStartsOk_iff _ (by simp [RowSorted])]; simp, Or.inr rfl⟩]
  simp only
  rw [if_pos (show 1 > 0 by omega), if_neg]
  simp [hessRows, hsl]

theorem symEntry_outside {H : List (Ent ℝ)} {p : ℕ} (hr : ∀ e ∈ H, e.r < p ∧ e.c < p) {i j : ℕ}
    (h : p ≤ i ∨ p ≤ j) : symEntry H i j = 0 := by
  apply List.sum_eq_zero
  intro a ha
  obtain ⟨e, he, rfl⟩ := List.mem_map.1 ha
  have := hr e he
  rw [if_neg (by omega), if_neg (by omega), add_zero]

theorem sparse_hessBlocks (P : Prob n m) {H l : List (Ent ℝ)} (hs : Sorted H)
    (hu : ∀ e ∈ H, e.r ≤ e.c) (hr : InRange n n H)
    (hl : setHessFR n H (hessDiag P) (n + numOffDiag H) = some l) :
    HessBlocks (sparsePlaces n mc m) P (symEntry l) (fun i j => symEntry H i j) := by
  obtain ⟨l', h1, -, h3, h4⟩ := C48_setHessFR H hs hu hr (hessDiag P)
  obtain rfl : l' = l := by rw [h1] at hl; exact Option.some.inj hl
  have hr' : ∀ e ∈ l', e.r < n ∧ e.c < n := fun e he => by have := h3 e he; omega
  refine ⟨fun i j => ?_, fun i k h1 h2 => symEntry_outside hr' (Or.inr h1),
    fun k k' h1 h2 h3 => symEntry_outside hr' (Or.inl h1)⟩
  simp only [sparsePlaces]
  rw [h4]
  congr 1
  by_cases h : i = j
  · subst h
    rw [dif_pos ⟨rfl, i.2⟩, if_pos rfl]
    simp [hessDiag, componentMult]
  · have : (i : ℕ) ≠ j := fun e => h (Fin.ext e)
    rw [dif_neg (by tauto), if_neg h]

/-- **C48, Hessian (sparse class).** With objective factor 1 — the only one the inner solver uses,
its scaling being switched off — the triplets are the Hessian of the Lagrangian of the restoration
problem. -/
theorem C48_hessian (P : Prob n m) {Jc Jd : RVec ℝ n → List (Ent ℝ)} (hc : ∀ x, RowSorted (Jc x))
    (hd : ∀ x, RowSorted (Jd x)) (rc : ∀ x, InRange mc n (Jc x)) (rd : ∀ x, InRange m n (Jd x))
    {J : (ℕ → ℝ) → List (Ent ℝ)}
    (hJ : ∀ x, setJacFR n mc m (Jc ((sparseL n mc m).getX x)) (Jd ((sparseL n mc m).getX x))
      ((Jc ((sparseL n mc m).getX x)).length + 2 * mc +
        ((Jd ((sparseL n mc m).getX x)).length + 2 * m)) = some (J x))
    (hess : RVec ℝ n → ℝ → RVec ℝ mc → RVec ℝ m → List (Ent ℝ)) (x lam : ℕ → ℝ) {H : List (Ent ℝ)}
    (hH : hess ((sparseL n mc m).getX x) 0 (copyOut lam 0 mc) (copyOut lam mc m) = H)
    (hs : Sorted H) (hu : ∀ e ∈ H, e.r ≤ e.c) (hr : InRange n n H)
    (hb : BaseHess (fun x i j => entry (Jc x) i j) (fun x i j => entry (Jd x) i j)
      (copyOut lam 0 mc) (copyOut lam mc m) ((sparseL n mc m).getX x) fun i j => symEntry H i j) :
    ∃ l, evalHess hess P x 1 lam (n + numOffDiag H) = some l ∧
      IsHess (sparseL n mc m) P (fun x => entry (J x)) 1 lam x (symEntry l) := by
  obtain ⟨l, hl, -⟩ := C48_setHessFR H hs hu hr (hessDiag P)
  refine ⟨l, by simp only [evalHess]; rw [hH]; exact hl, ?_⟩
  exact isHess_of_blocks (sparsePlaces n mc m) P
    (fun x => sparse_blocks (hc _) (hd _) (rc _) (rd _) (hJ x)) lam x
    (sparse_hessBlocks P hs hu hr hl) hb

/-- The matrix of a block-diagonal mixed dense-sparse symmetric matrix. -/
noncomputable def mdsSym (nsp : ℕ) (S : List (Ent ℝ)) (D : ℕ → ℕ → ℝ) : ℕ → ℕ → ℝ :=
  fun i j => if i < nsp ∧ j < nsp then symEntry S i j
    else if nsp ≤ i ∧ nsp ≤ j then D (i - nsp) (j - nsp) else 0

theorem mdsSym_dd {nsp : ℕ} (S : List (Ent ℝ)) (D : ℕ → ℕ → ℝ) (i j : ℕ) :
    mdsSym nsp S D (nsp + i) (nsp + j) = D i j := by simp [mdsSym]

/-- **C48, Hessian (mixed dense-sparse class).** -/
theorem C48_hessian_mds (P : Prob (ns + nd) m)
    {JcS JdS : RVec ℝ (ns + nd) → List (Ent ℝ)} (JcD JdD : RVec ℝ (ns + nd) → ℕ → ℕ → ℝ)
    (hc : ∀ x, RowSorted (JcS x)) (hd : ∀ x, RowSorted (JdS x)) (rc : ∀ x, InRange mc ns (JcS x))
    (rd : ∀ x, InRange m ns (JdS x)) {J : (ℕ → ℝ) → List (Ent ℝ) × (ℕ → ℕ → ℝ)}
    (hJ : ∀ y, ∀ x, (mdsL ns nd mc m).getX y = x → mdsJacFR ns mc m (JcS x) (JdS x) (JcD x) (JdD x)
      ((JcS x).length + 2 * mc + ((JdS x).length + 2 * m)) = some (J y))
    (hess : RVec ℝ (ns + nd) → ℝ → RVec ℝ mc → RVec ℝ m → List (Ent ℝ) × (ℕ → ℕ → ℝ))
    (x lam : ℕ → ℝ) {H : List (Ent ℝ) × (ℕ → ℕ → ℝ)}
    (hH : hess ((mdsL ns nd mc m).getX x) 0 (copyOut lam 0 mc) (copyOut lam mc m) = H)
    (hs : Sorted H.1) (hu : ∀ e ∈ H.1, e.r ≤ e.c) (hr : InRange ns ns H.1)
    (hb : BaseHess (fun x i j => mdsMat ns (JcS x) (JcD x) i j)
      (fun x i j => mdsMat ns (JdS x) (JdD x) i j) (copyOut lam 0 mc) (copyOut lam mc m)
      ((mdsL ns nd mc m).getX x) fun i j => mdsSym ns H.1 H.2 i j) :
    ∃ l, evalHessMds hess P x 1 lam (ns + numOffDiag H.1) = some l ∧
      IsHess (mdsL ns nd mc m) P (fun y => mdsMat (ns + 2 * mc + 2 * m) (J y).1 (J y).2) 1 lam x
        (mdsSym (ns + 2 * mc + 2 * m) l.1 l.2) := by
  obtain ⟨l, hl, -, h3, h4⟩ := C48_setHessFR H.1 hs hu hr
    (fun i : Fin ns => hessDiag P (Fin.castAdd nd i))
  have hr' : ∀ e ∈ l, e.r < ns ∧ e.c < ns := fun e he => by have := h3 e he; omega
  refine ⟨(l, fun i j => if i = j then H.2 i j + 1 *
    copyTo (fun i : Fin nd => hessDiag P (Fin.natAdd ns i)) (fun _ => 0) 0 i else H.2 i j), ?_, ?_⟩
  · simp only [evalHessMds]; rw [hH, hl]; rfl
  · refine isHess_of_blocks (mdsPlaces ns nd mc m) P (fun y => mds_blocks _ _ (hc _) (hd _) (rc _)
      (rd _) (hJ y _ rfl)) lam x ⟨?_, ?_, ?_⟩ hb
    · intro i j
      cases i using Fin.addCases with
      | left i =>
        cases j using Fin.addCases with
        | left j =>
          have := i.2; have := j.2
          simp only [mdsPlaces, Fin.append_left, mdsSym, Fin.val_castAdd]
          rw [if_pos (by omega), if_pos (by omega), h4]
          congr 1
          by_cases h : i = j
          · subst h; rw [dif_pos ⟨rfl, i.2⟩, if_pos rfl]; simp [hessDiag, componentMult]
          · have : (i : ℕ) ≠ j := fun e => h (Fin.ext e)
            rw [dif_neg (by tauto), if_neg (by simpa [Fin.ext_iff] using this)]
        | right j =>
          have := i.2
          simp only [mdsPlaces, Fin.append_left, Fin.append_right, mdsSym, Fin.val_castAdd,
            Fin.val_natAdd]
          rw [if_neg (by omega), if_neg (by omega), if_neg (by omega), if_neg (by omega),
            if_neg (by simp [Fin.ext_iff]; omega), add_zero]
      | right i =>
        cases j using Fin.addCases with
        | left j =>
          have := j.2
          simp only [mdsPlaces, Fin.append_left, Fin.append_right, mdsSym, Fin.val_castAdd,
            Fin.val_natAdd]
          rw [if_neg (by omega), if_neg (by omega), if_neg (by omega), if_neg (by omega),
            if_neg (by simp [Fin.ext_iff]; omega), add_zero]
        | right j =>
          simp only [mdsPlaces, Fin.append_right, Fin.val_natAdd]
          have e1 : ∀ q : ℕ, ns + mc + mc + m + m + q = ns + 2 * mc + 2 * m + q := by
            intro q; omega
          rw [e1, e1, mdsSym_dd, mdsSym_dd]
          by_cases h : i = j
          · subst h
            rw [if_pos rfl, if_pos rfl]
            have := copyTo_in (fun i : Fin nd => hessDiag P (Fin.natAdd ns i)) (fun _ => 0) 0 i
            rw [Nat.zero_add] at this
            rw [this, one_mul]; simp [hessDiag, componentMult]
          · have : (i : ℕ) ≠ j := fun e => h (Fin.ext e)
            rw [if_neg this, if_neg (by simpa [Fin.ext_iff] using this), add_zero]
    · intro i k h1 h2
      simp only [mdsL] at h1 h2
      simp only [mdsSym]
      by_cases h : (mdsPlaces ns nd mc m).ix i < ns + 2 * mc + 2 * m
      · rw [if_pos ⟨h, by omega⟩]
        exact symEntry_outside hr' (Or.inr h1)
      · rw [if_neg (by omega), if_neg (by omega)]
    · intro k k' h1 h2 h3
      simp only [mdsL] at h1 h2
      simp only [mdsSym]
      by_cases h : k' < ns + 2 * mc + 2 * m
      · rw [if_pos ⟨by omega, h⟩]
        exact symEntry_outside hr' (Or.inl h1)
      · rw [if_neg (by omega), if_neg (by omega)]

/-- The hypotheses of `C48_hessian` on a base problem with `c(x) = x0 * x1`. -/
example (P : Prob 2 0) (x lam : ℕ → ℝ) :
    ∃ (l : List (Ent ℝ)) (J : (ℕ → ℝ) → List (Ent ℝ)), evalHess (fun _ _ yc (_ : RVec ℝ 0) => [⟨0, 1, yc (0 : Fin 1)⟩]) P x 1 lam 3 = some l ∧
      IsHess (sparseL 2 1 0) P (fun x => entry (J x)) 1 lam x (symEntry l) := by
  let Jc : RVec ℝ 2 → List (Ent ℝ) := fun x => [⟨0, 0, x 1⟩, ⟨0, 1, x 0⟩]
  have h1 : ∀ x, RowSorted (Jc x) := fun x => by simp [Jc, RowSorted]
  have h2 : ∀ x, InRange 1 2 (Jc x) := fun x => by simp [Jc, InRange]
  have hJ : ∀ x : ℕ → ℝ, ∃ l, setJacFR 2 1 0 (Jc ((sparseL 2 1 0).getX x)) []
      ((Jc ((sparseL 2 1 0).getX x)).length + 2 * 1 + (([] : List (Ent ℝ)).length + 2 * 0)) = some l :=
    fun x => by
      obtain ⟨l, hl, -⟩ := C27_setJacFR 2 1 0 (Jc ((sparseL 2 1 0).getX x)) [] (h1 _)
        (by simp [RowSorted]) (h2 _) (by simp [InRange])
      exact ⟨l, hl⟩
  choose J hJ using hJ
  obtain ⟨l, hl, hh⟩ := C48_hessian (n := 2) (mc := 1) (m := 0) P (Jc := Jc) (Jd := fun _ => []) h1
    (fun _ => by simp [RowSorted]) h2 (fun _ => by simp [InRange]) hJ
    (fun _ _ yc (_ : RVec ℝ 0) => [⟨0, 1, yc (0 : Fin 1)⟩]) x lam rfl (by simp [Sorted]) (by simp)
    (by simp [InRange]) (fun j v => by
      have e : ∀ a b c : ℝ, HasDerivAt (fun t : ℝ => a * (b + t * c)) (a * c) 0 := fun a b c =>
        (lin_deriv b c).const_mul a
      fin_cases j
      · simpa [Jc, entry, symEntry, Fin.sum_univ_two] using
          e (copyOut lam 0 1 0) ((sparseL 2 1 0).getX x 1) (v 1)
      · simpa [Jc, entry, symEntry, Fin.sum_univ_two] using
          e (copyOut lam 0 1 0) ((sparseL 2 1 0).getX x 0) (v 0))
  exact ⟨l, J, by simpa [numOffDiag] using hl, hh⟩

/-- The Hessian callback does not use its objective factor: for any other factor its answer is not
the Hessian asked for. -/
theorem C48_hessian_factor_false (P : Prob 1 0) (hz : P.zeta ≠ 0) (hd : P.dr 0 ≠ 0) (sigma : ℝ)
    (hs : sigma ≠ 1) (x lam : ℕ → ℝ) :
    ∃ l, evalHess (fun _ _ (_ : RVec ℝ 0) (_ : RVec ℝ 0) => []) P x sigma lam 1 = some l ∧
      ¬IsHess (sparseL 1 0 0) P (fun _ _ _ => 0) sigma lam x (symEntry l) := by
  obtain ⟨l, hl, -, -, h4⟩ := C48_setHessFR (n := 1) [] (by simp [Sorted]) (by simp)
    (by simp [InRange]) (hessDiag P)
  refine ⟨l, by simpa [evalHess, numOffDiag] using hl, fun hh => ?_⟩
  have h := hh 0 (by omega) (fun _ => 1)
  have hf : (fun t : ℝ => lagGrad (sparseL 1 0 0) P (fun _ _ _ => 0) sigma lam
      (fun k => x k + t * 1) 0) =
      fun t => sigma * (P.zeta * P.dr 0 * P.dr 0) * ((x 0 - P.xref 0) + t * 1) := by
    funext t
    have := (sparsePlaces 1 0 0).put (scale (componentMult (componentMult
      (axpy ((sparseL 1 0 0).getX fun k => x k + t * 1) (-1) P.xref) P.dr) P.dr) P.zeta)
      (fun _ => P.rho) 0
    simp only [lagGrad, evalGrad]
    change sigma * (sparseL 1 0 0).putX _ _ ((sparsePlaces 1 0 0).ix 0) + _ = _
    rw [this, scale_apply]
    simp [componentMult, axpy, sparseL, copyOut]; ring
  rw [hf] at h
  have h' := h.unique ((lin_deriv (x 0 - P.xref 0) 1).const_mul (sigma * (P.zeta * P.dr 0 * P.dr 0)))
  simp [h4, symEntry_nil, hessDiag, componentMult] at h'
  have hne : P.zeta * P.dr 0 * P.dr 0 ≠ 0 := mul_ne_zero (mul_ne_zero hz hd) hd
  have : (sigma - 1) * (P.zeta * P.dr 0 * P.dr 0) = 0 := by linarith
  rcases mul_eq_zero.1 this with h1 | h1
  · exact hs (by linarith)
  · exact hne h1

end Hiop.Fr
