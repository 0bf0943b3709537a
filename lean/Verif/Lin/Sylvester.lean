import Mathlib.Analysis.Matrix.Spectrum
import Mathlib.LinearAlgebra.Matrix.NonsingularInverse
import Mathlib.LinearAlgebra.Dimension.Finrank
import Mathlib.LinearAlgebra.FiniteDimensional.Lemmas
import Mathlib.LinearAlgebra.Matrix.ToLin
import Mathlib.LinearAlgebra.Matrix.ToLinearEquiv

/-! # Sylvester's law of inertia, in the form used for factorizations -/

namespace Hiop.Lin

open Matrix

set_option linter.unusedSectionVars false

variable {ι κ : Type*} [Fintype ι] [DecidableEq ι] [Fintype κ] [DecidableEq κ]

/-- The vectors on which the functionals in `S` vanish. -/
def vanish (S : Finset κ) (l : κ → ((ι → ℝ) →ₗ[ℝ] ℝ)) : Submodule ℝ (ι → ℝ) :=
  LinearMap.ker (LinearMap.pi fun k : S => l k)

theorem mem_vanish (S : Finset κ) (l : κ → ((ι → ℝ) →ₗ[ℝ] ℝ)) (x : ι → ℝ) :
    x ∈ vanish S l ↔ ∀ k ∈ S, l k x = 0 := by
  simp [vanish, LinearMap.mem_ker, funext_iff]

theorem vanish_finrank (S : Finset κ) (l : κ → ((ι → ℝ) →ₗ[ℝ] ℝ)) :
    Fintype.card ι ≤ Module.finrank ℝ (vanish S l) + S.card := by
  have h := LinearMap.finrank_range_add_finrank_ker (LinearMap.pi fun k : S => l k)
  have h1 : Module.finrank ℝ (LinearMap.range (LinearMap.pi fun k : S => l k)) ≤ S.card := by
    have := Submodule.finrank_le (LinearMap.range (LinearMap.pi fun k : S => l k))
    simpa using this
  simp only [Module.finrank_fintype_fun_eq_card] at h
  unfold vanish
  omega

/-- Two subspaces that meet only at zero. -/
theorem finrank_disjoint (U W : Submodule ℝ (ι → ℝ)) (h : ∀ x ∈ U, x ∈ W → x = 0) :
    Module.finrank ℝ U + Module.finrank ℝ W ≤ Fintype.card ι := by
  have h1 := Submodule.finrank_sup_add_finrank_inf_eq U W
  have h2 : U ⊓ W = ⊥ := by
    rw [Submodule.eq_bot_iff]
    rintro x ⟨hu, hw⟩
    exact h x hu hw
  rw [h2, finrank_bot, add_zero] at h1
  rw [← h1]
  have := Submodule.finrank_le (U ⊔ W)
  simpa using this

/-- A quadratic form written in two ways as a combination of squares of as many functionals as the
dimension: if no weight of the first is zero, both have the same number of negative weights. -/
theorem sylvester (l : κ → ((ι → ℝ) →ₗ[ℝ] ℝ)) (u : ι → ((ι → ℝ) →ₗ[ℝ] ℝ)) (w : κ → ℝ) (v : ι → ℝ)
    (hcard : Fintype.card κ = Fintype.card ι)
    (hl : ∀ x, (∀ k, l k x = 0) → x = 0) (hw : ∀ k, w k ≠ 0)
    (hq : ∀ x, ∑ k, w k * l k x ^ 2 = ∑ k, v k * u k x ^ 2) :
    (Finset.univ.filter fun k => v k < 0).card = (Finset.univ.filter fun k => w k < 0).card := by
  have hneg : ∀ x ∈ vanish (Finset.univ.filter fun k => 0 < w k) l,
      x ∈ vanish (Finset.univ.filter fun k => v k < 0) u → x = 0 := by
    intro x hx hy
    rw [mem_vanish] at hx hy
    refine hl x fun k => ?_
    by_contra hk
    have h1 : ∑ k, w k * l k x ^ 2 < 0 := by
      refine Finset.sum_neg' (fun i _ => ?_) ⟨k, Finset.mem_univ k, ?_⟩
      · rcases lt_or_gt_of_ne (hw i) with h | h
        · exact mul_nonpos_of_nonpos_of_nonneg h.le (sq_nonneg _)
        · rw [hx i (by simp [h])]; simp
      · rcases lt_or_gt_of_ne (hw k) with h | h
        · exact mul_neg_of_neg_of_pos h (by positivity)
        · exact absurd (hx k (by simp [h])) hk
    have h2 : 0 ≤ ∑ k, v k * u k x ^ 2 := by
      refine Finset.sum_nonneg fun i _ => ?_
      rcases lt_or_ge (v i) 0 with h | h
      · rw [hy i (by simp [h])]; simp
      · exact mul_nonneg h (sq_nonneg _)
    rw [hq x] at h1
    linarith
  have hpos : ∀ x ∈ vanish (Finset.univ.filter fun k => w k < 0) l,
      x ∈ vanish (Finset.univ.filter fun k => ¬ v k < 0) u → x = 0 := by
    intro x hx hy
    rw [mem_vanish] at hx hy
    refine hl x fun k => ?_
    by_contra hk
    have h1 : 0 < ∑ k, w k * l k x ^ 2 := by
      refine Finset.sum_pos' (fun i _ => ?_) ⟨k, Finset.mem_univ k, ?_⟩
      · rcases lt_or_gt_of_ne (hw i) with h | h
        · rw [hx i (by simp [h])]; simp
        · exact mul_nonneg h.le (sq_nonneg _)
      · rcases lt_or_gt_of_ne (hw k) with h | h
        · exact absurd (hx k (by simp [h])) hk
        · exact mul_pos h (by positivity)
    have h2 : ∑ k, v k * u k x ^ 2 ≤ 0 := by
      refine Finset.sum_nonpos fun i _ => ?_
      rcases lt_or_ge (v i) 0 with h | h
      · exact mul_nonpos_of_nonpos_of_nonneg h.le (sq_nonneg _)
      · rw [hy i (by simp [h])]; simp
    rw [hq x] at h1
    linarith
  have e1 := finrank_disjoint _ _ hneg
  have e2 := finrank_disjoint _ _ hpos
  have a1 := vanish_finrank (Finset.univ.filter fun k => 0 < w k) l
  have a2 := vanish_finrank (Finset.univ.filter fun k => v k < 0) u
  have a3 := vanish_finrank (Finset.univ.filter fun k => w k < 0) l
  have a4 := vanish_finrank (Finset.univ.filter fun k => ¬ v k < 0) u
  have c1 := Finset.card_filter_add_card_filter_not (s := (Finset.univ : Finset ι)) (fun k => v k < 0)
  have c2 := Finset.card_filter_add_card_filter_not (s := (Finset.univ : Finset κ)) (fun k => w k < 0)
  have c3 : (Finset.univ.filter fun k => ¬ w k < 0).card = (Finset.univ.filter fun k => 0 < w k).card := by
    congr 1
    ext k
    simp only [Finset.mem_filter, Finset.mem_univ, true_and, not_lt]
    exact ⟨fun h => lt_of_le_of_ne h (Ne.symm (hw k)), le_of_lt⟩
  simp only [Finset.card_univ] at c1 c2
  omega

/-- The quadratic form of a symmetric matrix in terms of its eigenvalues. -/
theorem eigen_form (M : Matrix ι ι ℝ) (hM : M.IsHermitian) :
    ∃ u : ι → ((ι → ℝ) →ₗ[ℝ] ℝ), (∀ x, (∀ k, u k x = 0) → x = 0) ∧
      ∀ x, x ⬝ᵥ M *ᵥ x = ∑ k, hM.eigenvalues k * u k x ^ 2 := by
  set U : Matrix ι ι ℝ := (hM.eigenvectorUnitary).1 with hU
  refine ⟨fun k => (LinearMap.proj k).comp (Matrix.mulVecLin Uᵀ), fun x hx => ?_, fun x => ?_⟩
  · have h0 : Uᵀ *ᵥ x = 0 := funext fun k => hx k
    have h1 : U * Uᵀ = 1 := by
      have := (Matrix.mem_unitaryGroup_iff (A := U)).mp (hM.eigenvectorUnitary).2
      simpa [star_eq_conjTranspose, conjTranspose_eq_transpose_of_trivial] using this
    calc x = (U * Uᵀ) *ᵥ x := by rw [h1, one_mulVec]
      _ = 0 := by rw [← mulVec_mulVec, h0, mulVec_zero]
  · have hsp : M = U * diagonal hM.eigenvalues * Uᵀ := by
      have := hM.spectral_theorem
      rw [Unitary.conjStarAlgAut_apply] at this
      conv_lhs => rw [this]
      simp only [hU, star_eq_conjTranspose, conjTranspose_eq_transpose_of_trivial]
      rfl
    conv_lhs => rw [hsp]
    rw [← mulVec_mulVec, ← mulVec_mulVec, dotProduct_mulVec, ← mulVec_transpose]
    simp only [dotProduct, mulVec_diagonal, LinearMap.comp_apply, LinearMap.proj_apply, mulVecLin_apply]
    refine Finset.sum_congr rfl fun k _ => ?_
    ring

/-- The number of negative eigenvalues of a real symmetric matrix. -/
noncomputable def negEigs (M : Matrix ι ι ℝ) (hM : M.IsHermitian) : ℕ :=
  (Finset.univ.filter fun k => hM.eigenvalues k < 0).card

/-- The number of negative eigenvalues from any decomposition into squares. -/
theorem neg_eigenvalues (M : Matrix ι ι ℝ) (hM : M.IsHermitian)
    (l : κ → ((ι → ℝ) →ₗ[ℝ] ℝ)) (w : κ → ℝ) (hcard : Fintype.card κ = Fintype.card ι)
    (hl : ∀ x, (∀ k, l k x = 0) → x = 0)
    (hw : ∀ k, w k ≠ 0) (hq : ∀ x, x ⬝ᵥ M *ᵥ x = ∑ k, w k * l k x ^ 2) :
    negEigs M hM = (Finset.univ.filter fun k => w k < 0).card := by
  obtain ⟨u, -, hu⟩ := eigen_form M hM
  exact sylvester l u w hM.eigenvalues hcard hl hw fun x => by rw [← hq x, hu x]

/-- A form that is a combination of squares of independent functionals with nonzero weights belongs
to a nonsingular symmetric matrix. -/
theorem squares_nonsingular (M : Matrix ι ι ℝ) (hM : M.IsHermitian)
    (l : κ → ((ι → ℝ) →ₗ[ℝ] ℝ)) (w : κ → ℝ) (hcard : Fintype.card κ = Fintype.card ι)
    (hl : ∀ x, (∀ k, l k x = 0) → x = 0)
    (hw : ∀ k, w k ≠ 0) (hq : ∀ x, x ⬝ᵥ M *ᵥ x = ∑ k, w k * l k x ^ 2) : M.det ≠ 0 := by
  intro h0
  obtain ⟨x, hx, hMx⟩ := Matrix.exists_mulVec_eq_zero_iff.mpr h0
  set L : (ι → ℝ) →ₗ[ℝ] (κ → ℝ) := LinearMap.pi l with hL
  have hLi : Function.Injective L := by
    rw [← LinearMap.ker_eq_bot, Submodule.eq_bot_iff]
    intro y hy
    exact hl y fun k => by simpa [hL] using congrFun hy k
  obtain ⟨z, hz⟩ := ((LinearMap.injective_iff_surjective_of_finrank_eq_finrank (by simp [hcard])).mp hLi) fun k => w k * l k x
  have hz' : ∀ k, l k z = w k * l k x := fun k => by simpa [hL] using congrFun hz k
  have hsym : z ⬝ᵥ M *ᵥ x = x ⬝ᵥ M *ᵥ z := by
    have ht : Mᵀ = M := by simpa [IsHermitian, conjTranspose_eq_transpose_of_trivial] using hM
    rw [dotProduct_mulVec, ← mulVec_transpose, ht, dotProduct_comm]
  have h1 := hq (x + z)
  have h2 := hq z
  have h3 := hq x
  rw [mulVec_add, dotProduct_add, add_dotProduct, add_dotProduct, hMx, ← hsym, hMx, h2] at h1
  rw [hMx, dotProduct_zero] at h3
  have h4 : ∑ k, w k * (l k (x + z)) ^ 2 =
      ∑ k, w k * l k x ^ 2 + ∑ k, w k * l k z ^ 2 + 2 * ∑ k, (w k * l k x) ^ 2 := by
    rw [Finset.mul_sum, ← Finset.sum_add_distrib, ← Finset.sum_add_distrib]
    refine Finset.sum_congr rfl fun k _ => ?_
    rw [map_add, hz' k]; ring
  simp only [dotProduct_zero] at h1
  rw [h4, ← h3] at h1
  have h5 : ∑ k, (w k * l k x) ^ 2 = 0 := by linarith
  refine hx (hl x fun k => ?_)
  have := (Finset.sum_eq_zero_iff_of_nonneg fun i _ => sq_nonneg _).mp h5 k (Finset.mem_univ k)
  exact (mul_eq_zero.mp (pow_eq_zero_iff (two_ne_zero) |>.mp this)).resolve_left (hw k)

end Hiop.Lin
