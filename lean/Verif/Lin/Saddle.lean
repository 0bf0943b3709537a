import Verif.Lin.Sylvester
import Mathlib.Data.Matrix.Block

/-! # Inertia and curvature of saddle point matrices -/

namespace Hiop.Lin

open Matrix

set_option linter.unusedSectionVars false

variable {ι κ : Type*} [Fintype ι] [DecidableEq ι] [Fintype κ] [DecidableEq κ]

/-- The saddle point matrix `[A Bᵀ; B -diag c]`. -/
def saddle (A : Matrix ι ι ℝ) (B : Matrix κ ι ℝ) (c : κ → ℝ) : Matrix (ι ⊕ κ) (ι ⊕ κ) ℝ :=
  fromBlocks A Bᵀ B (-(diagonal c))

theorem saddle_symm (A : Matrix ι ι ℝ) (hA : A.IsHermitian) (B : Matrix κ ι ℝ) (c : κ → ℝ) :
    (saddle A B c).IsHermitian := by
  unfold saddle
  refine IsHermitian.fromBlocks hA ?_ ?_
  · exact conjTranspose_eq_transpose_of_trivial _ |>.trans (transpose_transpose B)
  · exact (isHermitian_diagonal _).neg

/-- The quadratic form of the saddle point matrix. -/
theorem saddle_form (A : Matrix ι ι ℝ) (B : Matrix κ ι ℝ) (c : κ → ℝ) (x : ι → ℝ) (y : κ → ℝ) :
    Sum.elim x y ⬝ᵥ saddle A B c *ᵥ Sum.elim x y =
      x ⬝ᵥ A *ᵥ x + 2 * (y ⬝ᵥ B *ᵥ x) - ∑ k, c k * y k ^ 2 := by
  unfold saddle
  rw [fromBlocks_mulVec]
  simp only [Sum.elim_comp_inl, Sum.elim_comp_inr, sumElim_dotProduct_sumElim, dotProduct_add]
  have h1 : x ⬝ᵥ Bᵀ *ᵥ y = y ⬝ᵥ B *ᵥ x := by
    rw [mulVec_transpose, ← dotProduct_comm, dotProduct_mulVec]
  have h2 : y ⬝ᵥ (-(diagonal c)) *ᵥ y = -∑ k, c k * y k ^ 2 := by
    rw [neg_mulVec, dotProduct_neg]
    simp only [dotProduct, mulVec_diagonal]
    congr 1
    exact Finset.sum_congr rfl fun k _ => by ring
  rw [h1, h2]; ring

/-- A subspace on which the form of a symmetric matrix is not positive has at most as many dimensions
as the matrix has negative eigenvalues, if the matrix is nonsingular. -/
theorem nonpos_finrank (M : Matrix ι ι ℝ) (hM : M.IsHermitian) (hd : M.det ≠ 0)
    (W : Submodule ℝ (ι → ℝ)) (hW : ∀ x ∈ W, x ⬝ᵥ M *ᵥ x ≤ 0) : Module.finrank ℝ W ≤ negEigs M hM := by
  obtain ⟨u, hu, hq⟩ := eigen_form M hM
  have hne : ∀ k, hM.eigenvalues k ≠ 0 := by
    intro k hk
    refine hd ?_
    rw [hM.det_eq_prod_eigenvalues]
    exact Finset.prod_eq_zero (Finset.mem_univ k) (by simp [hk])
  have h := finrank_disjoint W (vanish (Finset.univ.filter fun k => hM.eigenvalues k < 0) u) fun x h1 h2 => by
    rw [mem_vanish] at h2
    refine hu x fun k => ?_
    by_contra hk
    have : 0 < x ⬝ᵥ M *ᵥ x := by
      rw [hq x]
      refine Finset.sum_pos' (fun i _ => ?_) ⟨k, Finset.mem_univ k, ?_⟩
      · rcases lt_or_gt_of_ne (hne i) with h | h
        · rw [h2 i (by simp [h])]; simp
        · exact mul_nonneg h.le (sq_nonneg _)
      · rcases lt_or_gt_of_ne (hne k) with h | h
        · exact absurd (h2 k (by simp [h])) hk
        · exact mul_pos h (by positivity)
    exact absurd (hW x h1) (not_le.mpr this)
  have := vanish_finrank (Finset.univ.filter fun k => hM.eigenvalues k < 0) u
  unfold negEigs
  omega

/-- A subspace on which the form is positive leaves room for at most the remaining number of negative
eigenvalues. -/
theorem pos_finrank (M : Matrix ι ι ℝ) (hM : M.IsHermitian)
    (W : Submodule ℝ (ι → ℝ)) (hW : ∀ x ∈ W, x ≠ 0 → 0 < x ⬝ᵥ M *ᵥ x) :
    Module.finrank ℝ W + negEigs M hM ≤ Fintype.card ι ∧
    Module.finrank ℝ W ≤ (Finset.univ.filter fun k => 0 < hM.eigenvalues k).card := by
  obtain ⟨u, hu, hq⟩ := eigen_form M hM
  have h := finrank_disjoint W (vanish (Finset.univ.filter fun k => 0 < hM.eigenvalues k) u)
    fun x h1 h2 => by
    rw [mem_vanish] at h2
    by_contra hx
    have h3 := hW x h1 hx
    rw [hq x] at h3
    refine absurd h3 (not_lt.mpr (Finset.sum_nonpos fun i _ => ?_))
    rcases lt_or_ge 0 (hM.eigenvalues i) with h | h
    · rw [h2 i (by simp [h])]; simp
    · exact mul_nonpos_of_nonpos_of_nonneg h (sq_nonneg _)
  have h2 := vanish_finrank (Finset.univ.filter fun k => 0 < hM.eigenvalues k) u
  have h3 : (Finset.univ.filter fun k => 0 < hM.eigenvalues k).card + negEigs M hM ≤ Fintype.card ι := by
    unfold negEigs
    rw [← Finset.card_union_of_disjoint]
    · exact Finset.card_le_univ _
    · rw [Finset.disjoint_filter]
      intro k _ h1 h2
      linarith
  omega

/-- A subspace on which the form is negative. -/
theorem neg_finrank (M : Matrix ι ι ℝ) (hM : M.IsHermitian)
    (W : Submodule ℝ (ι → ℝ)) (hW : ∀ x ∈ W, x ≠ 0 → x ⬝ᵥ M *ᵥ x < 0) :
    Module.finrank ℝ W ≤ negEigs M hM := by
  obtain ⟨u, hu, hq⟩ := eigen_form M hM
  have h := finrank_disjoint W (vanish (Finset.univ.filter fun k => hM.eigenvalues k < 0) u)
    fun x h1 h2 => by
    rw [mem_vanish] at h2
    by_contra hx
    have h3 := hW x h1 hx
    rw [hq x] at h3
    refine absurd h3 (not_lt.mpr (Finset.sum_nonneg fun i _ => ?_))
    rcases lt_or_ge (hM.eigenvalues i) 0 with h | h
    · rw [h2 i (by simp [h])]; simp
    · exact mul_nonneg h (sq_nonneg _)
  have h2 := vanish_finrank (Finset.univ.filter fun k => hM.eigenvalues k < 0) u
  unfold negEigs
  omega

/-- The inertia of a matrix whose form is positive on a subspace of some dimension and negative on one
of the complementary dimension. -/
theorem inertia_of_subspaces (M : Matrix ι ι ℝ) (hM : M.IsHermitian) (P Q : Submodule ℝ (ι → ℝ))
    (hP : ∀ x ∈ P, x ≠ 0 → 0 < x ⬝ᵥ M *ᵥ x) (hQ : ∀ x ∈ Q, x ≠ 0 → x ⬝ᵥ M *ᵥ x < 0)
    (hdim : Fintype.card ι ≤ Module.finrank ℝ P + Module.finrank ℝ Q) :
    M.det ≠ 0 ∧ negEigs M hM = Module.finrank ℝ Q := by
  have h1 := pos_finrank M hM P hP
  have h2 := neg_finrank M hM Q hQ
  refine ⟨?_, by omega⟩
  rw [hM.det_eq_prod_eigenvalues]
  intro h0
  rw [Finset.prod_eq_zero_iff] at h0
  obtain ⟨k, -, hk⟩ := h0
  have hk' : hM.eigenvalues k = 0 := by simpa using hk
  have hcard : (Finset.univ.filter fun k => 0 < hM.eigenvalues k).card + negEigs M hM + 1 ≤ Fintype.card ι := by
    unfold negEigs
    rw [← Finset.card_union_of_disjoint]
    · have : (({k} : Finset ι)).card = 1 := Finset.card_singleton k
      rw [← this, ← Finset.card_union_of_disjoint]
      · exact Finset.card_le_univ _
      · rw [Finset.disjoint_singleton_right]
        simp [hk']
    · rw [Finset.disjoint_filter]
      intro k _ h1 h2
      linarith
  omega

/-- **The inertia test.** If the saddle point matrix is nonsingular with as many negative eigenvalues
as it has rows of `B`, the form of `A` is positive on the kernel of the constraints (in the form that
takes the dual regularization into account). -/
theorem saddle_curvature (A : Matrix ι ι ℝ) (hA : A.IsHermitian) (B : Matrix κ ι ℝ) (c : κ → ℝ)
    (hc : ∀ k, 0 ≤ c k) (hd : (saddle A B c).det ≠ 0)
    (hn : negEigs (saddle A B c) (saddle_symm A hA B c) = Fintype.card κ)
    (x : ι → ℝ) (y : κ → ℝ) (hx : x ≠ 0) (hy : ∀ k, (B *ᵥ x) k = c k * y k) :
    0 < x ⬝ᵥ A *ᵥ x + y ⬝ᵥ B *ᵥ x := by
  by_contra hneg
  push Not at hneg
  let L : (ℝ × (κ → ℝ)) →ₗ[ℝ] (ι ⊕ κ → ℝ) :=
    { toFun := fun p => Sum.elim (p.1 • x) (p.1 • y + p.2)
      map_add' := by
        intro p q
        funext k
        rcases k with k | k
        · simp [add_mul]
        · simp [add_mul]; ring
      map_smul' := by
        intro a p
        funext k
        rcases k with k | k
        · simp [mul_assoc]
        · simp; ring }
  have hL : Function.Injective L := by
    rw [← LinearMap.ker_eq_bot, Submodule.eq_bot_iff]
    rintro ⟨t, z⟩ h
    have h1 : t • x = 0 := funext fun i => by simpa [L] using congrFun h (Sum.inl i)
    have ht : t = 0 := by
      rcases smul_eq_zero.mp h1 with h | h
      · exact h
      · exact absurd h hx
    have h2 : z = 0 := funext fun k => by
      have := congrFun h (Sum.inr k)
      simpa [L, ht] using this
    rw [ht, h2]; rfl
  have hW : ∀ w ∈ LinearMap.range L, w ⬝ᵥ saddle A B c *ᵥ w ≤ 0 := by
    rintro w ⟨⟨t, z⟩, rfl⟩
    have hB : B *ᵥ x = fun k => c k * y k := funext hy
    have e1 : L (t, z) = Sum.elim (t • x) (t • y + z) := rfl
    rw [e1, saddle_form]
    have e2 : y ⬝ᵥ B *ᵥ x = ∑ k, c k * y k ^ 2 := by
      rw [hB]; simp only [dotProduct]; exact Finset.sum_congr rfl fun k _ => by ring
    have e3 : (t • y + z) ⬝ᵥ B *ᵥ (t • x) = t * t * ∑ k, c k * y k ^ 2 + t * ∑ k, c k * y k * z k := by
      rw [mulVec_smul, hB, Finset.mul_sum, Finset.mul_sum, ← Finset.sum_add_distrib]
      simp only [dotProduct, Pi.add_apply, Pi.smul_apply, smul_eq_mul]
      exact Finset.sum_congr rfl fun k _ => by ring
    have e4 : ∑ k, c k * (t • y + z) k ^ 2 =
        t * t * ∑ k, c k * y k ^ 2 + 2 * (t * ∑ k, c k * y k * z k) + ∑ k, c k * z k ^ 2 := by
      simp only [Finset.mul_sum, ← Finset.sum_add_distrib, Pi.add_apply, Pi.smul_apply, smul_eq_mul]
      exact Finset.sum_congr rfl fun k _ => by ring
    have e5 : (t • x) ⬝ᵥ A *ᵥ (t • x) = t * t * (x ⬝ᵥ A *ᵥ x) := by
      rw [mulVec_smul, dotProduct_smul, smul_dotProduct, smul_eq_mul, smul_eq_mul]; ring
    have e6 : 0 ≤ ∑ k, c k * z k ^ 2 :=
      Finset.sum_nonneg fun k _ => mul_nonneg (hc k) (sq_nonneg _)
    rw [e3, e4, e5]
    rw [e2] at hneg
    nlinarith [mul_self_nonneg t, mul_nonneg (mul_self_nonneg t) (neg_nonneg.mpr hneg)]
  have h1 := nonpos_finrank _ (saddle_symm A hA B c) hd _ hW
  rw [LinearMap.finrank_range_of_inj hL] at h1
  simp [hn] at h1

/-- **Additivity of inertia.** A form that splits into squares of `σ` functionals and the form of a
smaller nonsingular matrix. -/
theorem inertia_additive {σ τ : Type*} [Fintype σ] [DecidableEq σ] [Fintype τ] [DecidableEq τ]
    (M : Matrix ι ι ℝ) (hM : M.IsHermitian) (S : Matrix τ τ ℝ) (hS : S.IsHermitian) (hd : S.det ≠ 0)
    (a : σ → ((ι → ℝ) →ₗ[ℝ] ℝ)) (p : (ι → ℝ) →ₗ[ℝ] (τ → ℝ)) (w : σ → ℝ) (hw : ∀ i, w i ≠ 0)
    (hcard : Fintype.card σ + Fintype.card τ = Fintype.card ι)
    (hinj : ∀ x, (∀ i, a i x = 0) → p x = 0 → x = 0)
    (hq : ∀ x, x ⬝ᵥ M *ᵥ x = ∑ i, w i * a i x ^ 2 + p x ⬝ᵥ S *ᵥ p x) :
    M.det ≠ 0 ∧ negEigs M hM = (Finset.univ.filter fun i => w i < 0).card + negEigs S hS := by
  obtain ⟨u, hu, hqS⟩ := eigen_form S hS
  have hne : ∀ k, hS.eigenvalues k ≠ 0 := by
    intro k hk
    refine hd ?_
    rw [hS.det_eq_prod_eigenvalues]
    exact Finset.prod_eq_zero (Finset.mem_univ k) (by simp [hk])
  set l : σ ⊕ τ → ((ι → ℝ) →ₗ[ℝ] ℝ) := Sum.elim a fun k => (u k).comp p with hl
  set v : σ ⊕ τ → ℝ := Sum.elim w hS.eigenvalues with hv
  have h1 : ∀ x, (∀ k, l k x = 0) → x = 0 := fun x hx =>
    hinj x (fun i => hx (Sum.inl i)) (hu _ fun k => hx (Sum.inr k))
  have h2 : ∀ k, v k ≠ 0 := by
    rintro (k | k)
    · exact hw k
    · exact hne k
  have h3 : ∀ x, x ⬝ᵥ M *ᵥ x = ∑ k, v k * l k x ^ 2 := by
    intro x
    rw [hq x, hqS, Fintype.sum_sum_type]
    rfl
  have hc : Fintype.card (σ ⊕ τ) = Fintype.card ι := by rw [Fintype.card_sum, hcard]
  refine ⟨squares_nonsingular M hM l v hc h1 h2 h3, ?_⟩
  rw [neg_eigenvalues M hM l v hc h1 h2 h3]
  unfold negEigs
  simp only [Finset.card_filter, Fintype.sum_sum_type]
  rfl

/-! ## The effect of primal regularization -/

/-- The rows of `B` are independent as far as the dual regularization does not make up for it. -/
def RowsIndep (B : Matrix κ ι ℝ) (c : κ → ℝ) : Prop :=
  ∀ y : κ → ℝ, Bᵀ *ᵥ y = 0 → (∀ k, c k * y k = 0) → y = 0

theorem rowsIndep_of_nonsingular (A : Matrix ι ι ℝ) (B : Matrix κ ι ℝ) (c : κ → ℝ)
    (hd : (saddle A B c).det ≠ 0) : RowsIndep B c := by
  intro y h1 h2
  by_contra hy
  refine hd (exists_mulVec_eq_zero_iff.mp ⟨Sum.elim 0 y, fun h => hy (funext fun k => ?_), ?_⟩)
  · simpa using congrFun h (Sum.inr k)
  · unfold saddle
    rw [fromBlocks_mulVec]
    have h3 : (-(diagonal c)) *ᵥ y = 0 := by
      rw [neg_mulVec]
      funext k
      simp [mulVec_diagonal, h2 k]
    funext k
    rcases k with k | k
    · simpa using congrFun h1 k
    · simpa using congrFun h3 k

/-- A bound for the form of a matrix. -/
theorem form_bound (A : Matrix ι ι ℝ) : ∃ a : ℝ, 0 ≤ a ∧ ∀ x, |x ⬝ᵥ A *ᵥ x| ≤ a * (x ⬝ᵥ x) := by
  refine ⟨∑ i, ∑ j, |A i j|, Finset.sum_nonneg fun i _ => Finset.sum_nonneg fun j _ => abs_nonneg _,
    fun x => ?_⟩
  have hx : ∀ i, x i ^ 2 ≤ x ⬝ᵥ x := fun i => by
    have : x ⬝ᵥ x = ∑ i, x i ^ 2 := by simp [dotProduct, sq]
    rw [this]
    exact Finset.single_le_sum (fun j _ => sq_nonneg (x j)) (Finset.mem_univ i)
  calc |x ⬝ᵥ A *ᵥ x| = |∑ i, ∑ j, x i * (A i j * x j)| := by
        simp only [dotProduct, mulVec, Finset.mul_sum]
    _ ≤ ∑ i, ∑ j, |x i * (A i j * x j)| :=
        (Finset.abs_sum_le_sum_abs _ _).trans (Finset.sum_le_sum fun i _ => Finset.abs_sum_le_sum_abs _ _)
    _ ≤ ∑ i, ∑ j, |A i j| * (x ⬝ᵥ x) := by
        refine Finset.sum_le_sum fun i _ => Finset.sum_le_sum fun j _ => ?_
        rw [abs_mul, abs_mul]
        have h1 : |x i| * |x j| ≤ x ⬝ᵥ x := by
          have := hx i
          have := hx j
          rw [← sq_abs] at *
          nlinarith [sq_nonneg (|x i| - |x j|), sq_abs (x i), sq_abs (x j)]
        nlinarith [abs_nonneg (A i j)]
    _ = (∑ i, ∑ j, |A i j|) * (x ⬝ᵥ x) := by simp only [Finset.sum_mul]

/-- With independent rows there are at least as many negative directions as rows. -/
theorem saddle_negative (A : Matrix ι ι ℝ) (B : Matrix κ ι ℝ) (c : κ → ℝ) (hc : ∀ k, 0 ≤ c k)
    (hB : RowsIndep B c) : ∃ Q : Submodule ℝ (ι ⊕ κ → ℝ), Module.finrank ℝ Q = Fintype.card κ ∧
      ∀ x ∈ Q, x ≠ 0 → x ⬝ᵥ saddle A B c *ᵥ x < 0 := by
  obtain ⟨a, ha, hbd⟩ := form_bound A
  set s : ℝ := 1 / (a + 1) with hs
  have hs0 : 0 < s := by positivity
  have hsa : s * a < 1 := by
    rw [hs, div_mul_eq_mul_div, one_mul, div_lt_one (by linarith)]; linarith
  let L : (κ → ℝ) →ₗ[ℝ] (ι ⊕ κ → ℝ) :=
    { toFun := fun y => Sum.elim (-s • (Bᵀ *ᵥ y)) y
      map_add' := by
        intro p q
        funext k
        rcases k with k | k
        · simp only [Sum.elim_inl, Pi.add_apply, Pi.smul_apply, mulVec_add, smul_eq_mul]; ring
        · simp
      map_smul' := by
        intro a p
        funext k
        rcases k with k | k
        · simp only [Sum.elim_inl, Pi.smul_apply, mulVec_smul, smul_eq_mul, RingHom.id_apply]; ring
        · simp }
  have hL : Function.Injective L := by
    intro p q h
    funext k
    simpa [L] using congrFun h (Sum.inr k)
  refine ⟨LinearMap.range L, ?_, ?_⟩
  · rw [LinearMap.finrank_range_of_inj hL]; simp
  · rintro _ ⟨y, rfl⟩ hne
    have hy : y ≠ 0 := by rintro rfl; exact hne (map_zero L)
    have e0 : L y = Sum.elim (-s • (Bᵀ *ᵥ y)) y := rfl
    rw [e0, saddle_form]
    set z := Bᵀ *ᵥ y with hz
    have e1 : y ⬝ᵥ B *ᵥ (-s • z) = -s * (z ⬝ᵥ z) := by
      rw [mulVec_smul, dotProduct_smul, smul_eq_mul, dotProduct_mulVec, ← mulVec_transpose]
    have e2 : (-s • z) ⬝ᵥ A *ᵥ (-s • z) = s * s * (z ⬝ᵥ A *ᵥ z) := by
      rw [mulVec_smul, dotProduct_smul, smul_dotProduct, smul_eq_mul, smul_eq_mul]; ring
    rw [e1, e2]
    have h1 := (abs_le.mp (hbd z)).2
    have hzz : 0 ≤ z ⬝ᵥ z := by
      simp only [dotProduct]; exact Finset.sum_nonneg fun i _ => mul_self_nonneg _
    have h2 : 0 ≤ ∑ k, c k * y k ^ 2 :=
      Finset.sum_nonneg fun k _ => mul_nonneg (hc k) (sq_nonneg _)
    have h3 : s * s * (z ⬝ᵥ A *ᵥ z) ≤ s * (z ⬝ᵥ z) := by
      calc s * s * (z ⬝ᵥ A *ᵥ z) ≤ s * s * (a * (z ⬝ᵥ z)) :=
            mul_le_mul_of_nonneg_left h1 (by positivity)
        _ = (s * (z ⬝ᵥ z)) * (s * a) := by ring
        _ ≤ (s * (z ⬝ᵥ z)) * 1 := mul_le_mul_of_nonneg_left hsa.le (by positivity)
        _ = s * (z ⬝ᵥ z) := mul_one _
    by_cases hz0 : z = 0
    · have h4 : 0 < ∑ k, c k * y k ^ 2 := by
        rcases h2.lt_or_eq with h | h
        · exact h
        · refine absurd (hB y hz0 fun k => ?_) hy
          have := (Finset.sum_eq_zero_iff_of_nonneg
            fun k _ => mul_nonneg (hc k) (sq_nonneg (y k))).mp h.symm k (Finset.mem_univ k)
          rcases mul_eq_zero.mp this with h | h
          · rw [h, zero_mul]
          · rw [pow_eq_zero_iff two_ne_zero] at h
            rw [h, mul_zero]
      simp only [hz0] at h3 ⊢
      simp only [dotProduct_zero, mul_zero, mulVec_zero] at h3 ⊢
      linarith
    · have h4 : 0 < z ⬝ᵥ z := by
        rcases hzz.lt_or_eq with h | h
        · exact h
        · exact absurd (dotProduct_self_eq_zero.mp h.symm) hz0
      have h5 : 0 < s * (z ⬝ᵥ z) := mul_pos hs0 h4
      linarith

/-- **More primal regularization keeps the inertia right.** -/
theorem saddle_mono (A A' : Matrix ι ι ℝ) (hA : A.IsHermitian) (hA' : A'.IsHermitian)
    (B : Matrix κ ι ℝ) (c : κ → ℝ) (hc : ∀ k, 0 ≤ c k)
    (hle : ∀ x, x ⬝ᵥ A *ᵥ x ≤ x ⬝ᵥ A' *ᵥ x) (hd : (saddle A B c).det ≠ 0)
    (hn : negEigs (saddle A B c) (saddle_symm A hA B c) = Fintype.card κ) :
    (saddle A' B c).det ≠ 0 ∧
      negEigs (saddle A' B c) (saddle_symm A' hA' B c) = Fintype.card κ := by
  obtain ⟨Q, hQd, hQ⟩ := saddle_negative A' B c hc (rowsIndep_of_nonsingular A B c hd)
  have hM := saddle_symm A hA B c
  obtain ⟨u, hu, hq⟩ := eigen_form _ hM
  have hne : ∀ k, hM.eigenvalues k ≠ 0 := by
    intro k hk
    refine hd ?_
    rw [hM.det_eq_prod_eigenvalues]
    exact Finset.prod_eq_zero (Finset.mem_univ k) (by simp [hk])
  set P := vanish (Finset.univ.filter fun k => hM.eigenvalues k < 0) u with hP
  have hPd := vanish_finrank (Finset.univ.filter fun k => hM.eigenvalues k < 0) u
  have hPq : ∀ x ∈ P, x ≠ 0 → 0 < x ⬝ᵥ saddle A' B c *ᵥ x := by
    intro x hx h0
    have hsplit : x = Sum.elim (fun i => x (Sum.inl i)) fun k => x (Sum.inr k) := by
      funext k; rcases k with k | k <;> rfl
    rw [mem_vanish] at hx
    have h1 : 0 < x ⬝ᵥ saddle A B c *ᵥ x := by
      have : ∃ k, u k x ≠ 0 := by
        by_contra hcon
        push Not at hcon
        exact h0 (hu x hcon)
      obtain ⟨k, hk⟩ := this
      rw [hq x]
      refine Finset.sum_pos' (fun i _ => ?_) ⟨k, Finset.mem_univ k, ?_⟩
      · rcases lt_or_gt_of_ne (hne i) with h | h
        · rw [hx i (by simp [h])]; simp
        · exact mul_nonneg h.le (sq_nonneg _)
      · rcases lt_or_gt_of_ne (hne k) with h | h
        · exact absurd (hx k (by simp [h])) hk
        · exact mul_pos h (by positivity)
    rw [hsplit, saddle_form] at h1 ⊢
    have := hle fun i => x (Sum.inl i)
    linarith
  have := inertia_of_subspaces (saddle A' B c) (saddle_symm A' hA' B c) P Q hPq hQ (by
    rw [hQd, ← hn]
    exact hPd)
  rw [hQd] at this
  exact this

/-- **Enough primal regularization makes the inertia right**, if the rows are independent or the dual
regularization makes up for it. -/
theorem saddle_regularized (A : Matrix ι ι ℝ) (B : Matrix κ ι ℝ) (c : κ → ℝ) (hc : ∀ k, 0 ≤ c k)
    (hB : RowsIndep B c) (a : ℝ) (hbd : ∀ x, |x ⬝ᵥ A *ᵥ x| ≤ a * (x ⬝ᵥ x))
    (A' : Matrix ι ι ℝ) (hA' : A'.IsHermitian)
    (δ : ℝ) (hδ : a < δ) (hle : ∀ x, x ⬝ᵥ A *ᵥ x + δ * (x ⬝ᵥ x) ≤ x ⬝ᵥ A' *ᵥ x) :
    (saddle A' B c).det ≠ 0 ∧
      negEigs (saddle A' B c) (saddle_symm A' hA' B c) = Fintype.card κ := by
  obtain ⟨Q, hQd, hQ⟩ := saddle_negative A' B c hc hB
  let L : (ι → ℝ) →ₗ[ℝ] (ι ⊕ κ → ℝ) :=
    { toFun := fun x => Sum.elim x 0
      map_add' := by intro p q; funext k; rcases k with k | k <;> simp
      map_smul' := by intro p q; funext k; rcases k with k | k <;> simp }
  have hL : Function.Injective L := by
    intro p q h
    funext k
    simpa [L] using congrFun h (Sum.inl k)
  have := inertia_of_subspaces (saddle A' B c) (saddle_symm A' hA' B c) (LinearMap.range L) Q (by
    rintro _ ⟨x, rfl⟩ hne
    have hx : x ≠ 0 := by rintro rfl; exact hne (map_zero L)
    have e0 : L x = Sum.elim x 0 := rfl
    rw [e0, saddle_form]
    have hxx : 0 < x ⬝ᵥ x := by
      have h0 : 0 ≤ x ⬝ᵥ x := by
        simp only [dotProduct]; exact Finset.sum_nonneg fun i _ => mul_self_nonneg _
      rcases h0.lt_or_eq with h | h
      · exact h
      · exact absurd (dotProduct_self_eq_zero.mp h.symm) hx
    have h1 := (abs_le.mp (hbd x)).1
    have h2 := hle x
    simp only [zero_dotProduct, mul_zero, Pi.zero_apply, ne_eq, OfNat.ofNat_ne_zero, not_false_eq_true,
      zero_pow, Finset.sum_const_zero]
    nlinarith) hQ (by
    rw [hQd, LinearMap.finrank_range_of_inj hL]; simp)
  rw [hQd] at this
  exact this

end Hiop.Lin
