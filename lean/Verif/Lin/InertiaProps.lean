import Verif.Lin.Inertia
import Mathlib.LinearAlgebra.Matrix.ToLinearEquiv

/-! # C52: the number of negative eigenvalues reported by the dense solver -/

namespace Hiop.Lin

open Matrix

/-- The factor gives a decomposition of the quadratic form into as many squares as rows, and the
weights have the signs of the quantities the loop looks at. -/
theorem factor_squares {N : ℕ} {M : Matrix (Fin N) (Fin N) ℝ} {F : Factor ℝ} (h : FactorOf N M F)
    (hp : ∀ k < N, pivotAt F k ≠ 0) :
    ∃ (l : Fin N → ((Fin N → ℝ) →ₗ[ℝ] ℝ)) (w : Fin N → ℝ), (∀ x, (∀ k, l k x = 0) → x = 0) ∧
      (∀ k, w k ≠ 0) ∧ (∀ k : Fin N, w k < 0 ↔ pivotAt F k < 0) ∧
      ∀ x, x ⬝ᵥ M *ᵥ x = ∑ k, w k * l k x ^ 2 := by
  obtain ⟨hb, B, hB, hM⟩ := h
  have H : ∀ k, ∃ α β a b a' b' : ℝ, k + 1 < N → secondRow F.ipiv (k + 1) = true →
      (α < 0 ∧ 0 < β ∧ a * b' - a' * b ≠ 0 ∧ ∀ y z, F.fac k k * y ^ 2 + 2 * F.fac k (k + 1) * y * z +
        F.fac (k + 1) (k + 1) * z ^ 2 = α * (a * y + b * z) ^ 2 + β * (a' * y + b' * z) ^ 2) := by
    intro k
    by_cases hk : k + 1 < N ∧ secondRow F.ipiv (k + 1) = true
    · obtain ⟨α, β, a, b, a', b', h⟩ := two_by_two _ _ _ (hb.det k hk.1 hk.2)
      exact ⟨α, β, a, b, a', b', fun _ _ => h⟩
    · exact ⟨0, 0, 0, 0, 0, 0, fun h1 h2 => absurd ⟨h1, h2⟩ hk⟩
  choose α β a b a' b' H using H
  set lf : ℕ → ((Fin N → ℝ) →ₗ[ℝ] ℝ) := fun k =>
    if secondRow F.ipiv k then a' (k - 1) • entryL N (k - 1) + b' (k - 1) • entryL N k
    else if secondRow F.ipiv (k + 1) then a k • entryL N k + b k • entryL N (k + 1)
    else entryL N k with hlf
  set wt : ℕ → ℝ := fun k =>
    if secondRow F.ipiv k then β (k - 1) else if secondRow F.ipiv (k + 1) then α k else F.fac k k
    with hwt
  have hnot : ∀ k, secondRow F.ipiv k = true → secondRow F.ipiv (k + 1) = false := by
    intro k hk
    simp [secondRow, hk]
  have hlt : ∀ k < N, secondRow F.ipiv (k + 1) = true → k + 1 < N := by
    intro k hk hs
    rcases Nat.lt_or_ge (k + 1) N with h | h
    · exact h
    · have : k + 1 = N := by omega
      rw [this, hb.last] at hs; cases hs
  have hfirst : ∀ k, secondRow F.ipiv (k + 1) = true → secondRow F.ipiv k = false := by
    intro k hk
    simp [secondRow] at hk
    exact hk.2
  have hpos0 : ∀ k, secondRow F.ipiv k = true → ∃ j, k = j + 1 := by
    intro k hk
    rcases k with _ | j
    · simp [secondRow] at hk
    · exact ⟨j, rfl⟩
  -- the pivots and the weights
  have hsign : ∀ k < N, wt k ≠ 0 ∧ (wt k < 0 ↔ pivotAt F k < 0) := by
    intro k hk
    by_cases hs : secondRow F.ipiv k = true
    · obtain ⟨j, rfl⟩ := hpos0 k hs
      obtain ⟨-, h2, -⟩ := H j hk hs
      have hw : wt (j + 1) = β j := by simp [hwt, hs]
      have hq : 0 ≤ pivotAt F (j + 1) := by simp [pivotAt, hs]
      rw [hw]
      exact ⟨h2.ne', iff_of_false (not_lt.mpr h2.le) (not_lt.mpr hq)⟩
    · have hs' : secondRow F.ipiv k = false := by simpa using hs
      by_cases hs1 : secondRow F.ipiv (k + 1) = true
      · obtain ⟨h1, -⟩ := H k (hlt k hk hs1) hs1
        have hw : wt k = α k := by simp [hwt, hs', hs1]
        have hip : F.ipiv k ≤ 0 := by simp [secondRow, hs'] at hs1; exact hs1
        have ht : 0 < |F.fac k (k + 1)| := abs_pos.mpr (hb.off k (hlt k hk hs1) hs1)
        have hq : pivotAt F k < 0 := by
          have hd := hb.det k (hlt k hk hs1) hs1
          have : pivotAt F k = (F.fac k k * F.fac (k + 1) (k + 1) - F.fac k (k + 1) ^ 2) /
              |F.fac k (k + 1)| := by
            simp only [pivotAt, hs', hip, if_true]
            rw [← sq_abs (F.fac k (k + 1))]
            simp only [Bool.false_eq_true, if_false]
            field_simp
          rw [this]; exact div_neg_of_neg_of_pos hd ht
        rw [hw]
        exact ⟨h1.ne, iff_of_true h1 hq⟩
      · have hip : ¬ F.ipiv k ≤ 0 := by simpa [secondRow, hs'] using hs1
        have hw : wt k = F.fac k k := by simp [hwt, hs', hs1]
        have hq : pivotAt F k = F.fac k k := by simp [pivotAt, hs', hip]
        rw [hw, ← hq]
        exact ⟨hp k hk, Iff.rfl⟩
  -- the sum of squares
  have hsum : ∀ y : Fin N → ℝ, ∀ m ≤ N, ∑ k ∈ Finset.range m, wt k * lf k y ^ 2 =
      ∑ k ∈ Finset.range m, rowForm F y k +
        if secondRow F.ipiv m then wt (m - 1) * lf (m - 1) y ^ 2 - rowForm F y (m - 1) else 0 := by
    intro y m
    induction m with
    | zero => intro _; simp [secondRow]
    | succ m ih =>
      intro hm
      rw [Finset.sum_range_succ, Finset.sum_range_succ, ih (by omega)]
      by_cases hs1 : secondRow F.ipiv (m + 1) = true
      · have hs := hfirst m hs1
        simp only [hs, hs1, if_true, Nat.add_sub_cancel, Bool.false_eq_true, if_false]
        ring
      · have hs1' : secondRow F.ipiv (m + 1) = false := by simpa using hs1
        by_cases hs : secondRow F.ipiv m = true
        · obtain ⟨j, rfl⟩ := hpos0 m hs
          have hj := hfirst j hs
          obtain ⟨-, -, -, h4⟩ := H j (by omega) hs
          have e1 : wt (j + 1) * lf (j + 1) y ^ 2 =
              β j * (a' j * entry y j + b' j * entry y (j + 1)) ^ 2 := by
            simp [hwt, hlf, hs, entryL_apply]
          have e2 : wt j * lf j y ^ 2 = α j * (a j * entry y j + b j * entry y (j + 1)) ^ 2 := by
            simp [hwt, hlf, hs, hj, entryL_apply]
          have e3 := h4 (entry y j) (entry y (j + 1))
          simp only [hs, hs1', if_true, Nat.add_sub_cancel, Bool.false_eq_true, if_false, e1, e2,
            rowForm]
          linarith
        · have hs' : secondRow F.ipiv m = false := by simpa using hs
          simp [hwt, hlf, hs', hs1', entryL_apply, rowForm]
  have hform : ∀ y : Fin N → ℝ, y ⬝ᵥ (blockDiag N F) *ᵥ y = ∑ k : Fin N, wt k * lf k y ^ 2 := by
    intro y
    rw [blockDiag_form F hb.last, Fin.sum_univ_eq_sum_range (fun k => rowForm F y k),
      Fin.sum_univ_eq_sum_range (fun k => wt k * lf k y ^ 2), hsum y N le_rfl, hb.last]
    simp
  -- injectivity
  have hinj : ∀ y : Fin N → ℝ, (∀ k < N, lf k y = 0) → y = 0 := by
    intro y hy
    have hpair : ∀ k, k + 1 < N → secondRow F.ipiv (k + 1) = true →
        entry y k = 0 ∧ entry y (k + 1) = 0 := by
      intro k hk hs1
      have hs := hfirst k hs1
      obtain ⟨-, -, h3, -⟩ := H k hk hs1
      have e1 := hy k (by omega)
      have e2 := hy (k + 1) hk
      simp [hlf, hs, hs1, entryL_apply] at e1 e2
      constructor
      · have : (a k * b' k - a' k * b k) * entry y k = 0 := by
          linear_combination b' k * e1 - b k * e2
        exact (mul_eq_zero.mp this).resolve_left h3
      · have : (a k * b' k - a' k * b k) * entry y (k + 1) = 0 := by
          linear_combination a k * e2 - a' k * e1
        exact (mul_eq_zero.mp this).resolve_left h3
    have hall : ∀ k < N, entry y k = 0 := by
      intro k hk
      by_cases hs : secondRow F.ipiv k = true
      · obtain ⟨j, rfl⟩ := hpos0 k hs
        exact (hpair j hk hs).2
      · by_cases hs1 : secondRow F.ipiv (k + 1) = true
        · exact (hpair k (hlt k hk hs1) hs1).1
        · have := hy k hk
          simpa [hlf, hs, hs1, entryL_apply] using this
    funext k
    have := hall k k.2
    simpa [entry] using this
  refine ⟨fun k => (lf k).comp (Matrix.mulVecLin Bᵀ), fun k => wt k, ?_, fun k => (hsign k k.2).1,
    fun k => (hsign k k.2).2, ?_⟩
  · intro x hx
    have h0 : Bᵀ *ᵥ x = 0 := hinj _ fun k hk => hx ⟨k, hk⟩
    by_contra hne
    have : Bᵀ.det = 0 := Matrix.exists_mulVec_eq_zero_iff.mp ⟨x, hne, h0⟩
    rw [det_transpose] at this
    exact hB this
  · intro x
    have : x ⬝ᵥ M *ᵥ x = (Bᵀ *ᵥ x) ⬝ᵥ blockDiag N F *ᵥ (Bᵀ *ᵥ x) := by
      rw [hM, ← mulVec_mulVec, ← mulVec_mulVec, dotProduct_mulVec, ← mulVec_transpose]
    rw [this, hform]
    rfl

/-- **C52.** When the dense solver reports a nonnegative number, the matrix is nonsingular and the
number is the number of its negative eigenvalues, whatever pivoting DSYTRF did. -/
theorem C52_inertia {N : ℕ} (M : Matrix (Fin N) (Fin N) ℝ) (hM : M.IsHermitian) (F : Factor ℝ)
    (hF : F.info = 0 → FactorOf N M F) (r : Int) (hr : lapackMatrixChanged N F = some r)
    (h0 : 0 ≤ r) :
    M.det ≠ 0 ∧ r = (negEigs M hM : Int) := by
  rcases Nat.eq_zero_or_pos N with rfl | hN
  · simp only [lapackMatrixChanged, if_true, Option.some.injEq] at hr
    subst hr
    simp [negEigs]
  · have hi : F.info = 0 := by
      by_contra hi
      unfold lapackMatrixChanged at hr
      rw [if_neg (by omega), if_pos hi] at hr
      cases hr; omega
    have hf := hF hi
    rw [lapack_eq hf.blocks hN hi] at hr
    have hnull : ¬ 0 < (stAt F N).null := by
      intro hn
      rw [if_pos hn] at hr; cases hr; omega
    rw [if_neg hnull, Option.some.injEq] at hr
    have hpt : (0 : ℝ) < pivTol := pivTol_pos
    have hpv : ∀ k < N, pivotAt F k < -pivTol ∨ pivTol ≤ pivotAt F k := by
      intro k hk
      by_contra hc
      push Not at hc
      refine hnull ((countTo_pos _ N).mpr ⟨k, hk, ?_⟩)
      simpa using ⟨hc.1, hc.2⟩
    obtain ⟨l, w, h1, h2, h3, h4⟩ := factor_squares hf fun k hk => by
      rcases hpv k hk with h | h
      · exact ne_of_lt (by linarith)
      · exact ne_of_gt (by linarith)
    refine ⟨squares_nonsingular M hM l w rfl h1 h2 h4, ?_⟩
    rw [← hr, neg_eigenvalues M hM l w rfl h1 h2 h4]
    simp only [stAt, countTo_eq_card]
    congr 2
    ext k
    simp only [Finset.mem_filter, Finset.mem_univ, true_and, decide_eq_true_eq]
    rw [h3 k]
    constructor
    · intro h; linarith
    · intro h
      rcases hpv k k.2 with h' | h'
      · exact h'
      · linarith

/-- **C52.** The call never fails an assertion, and it reports `-1` only if DSYTRF reported a problem
or one of the pivot quantities lies between the tolerances. -/
theorem C52_answers {N : ℕ} (M : Matrix (Fin N) (Fin N) ℝ) (F : Factor ℝ)
    (hF : F.info = 0 → FactorOf N M F) :
    ∃ r, lapackMatrixChanged N F = some r ∧ -1 ≤ r ∧
      (r = -1 ↔ 0 < N ∧ (F.info ≠ 0 ∨ ∃ k < N, -pivTol ≤ pivotAt F k ∧ pivotAt F k < pivTol)) := by
  rcases Nat.eq_zero_or_pos N with rfl | hN
  · exact ⟨0, by simp [lapackMatrixChanged], by omega, by simp⟩
  · by_cases hi : F.info = 0
    · refine ⟨_, lapack_eq (hF hi).blocks hN hi, ?_, ?_⟩
      · split <;> omega
      · have hiff : 0 < (stAt F N).null ↔ ∃ k < N, -pivTol ≤ pivotAt F k ∧ pivotAt F k < pivTol := by
          simp only [stAt, countTo_pos, decide_eq_true_eq, not_lt]
        rw [← hiff]
        by_cases hn : 0 < (stAt F N).null
        · simp [hn, hN]
        · rw [if_neg hn]
          simp only [hn, hi, hN, true_and, ne_eq, not_true_eq_false, false_or, iff_false]
          omega
    · refine ⟨-1, ?_, by omega, by simp [hN, hi]⟩
      unfold lapackMatrixChanged
      rw [if_neg (by omega), if_pos hi]

/-- **C52.** A zero pivot reported by DSYTRF (`info > 0`, with the factorization completed) is a
singular matrix, so `-1` is right then. -/
theorem C52_zero_pivot {N : ℕ} (M : Matrix (Fin N) (Fin N) ℝ) (F : Factor ℝ) (hf : FactorOf N M F)
    (k : Fin N) (hk : 0 < F.ipiv k) (hz : F.fac k k = 0) : M.det = 0 := by
  obtain ⟨hb, B, -, rfl⟩ := hf
  have hrow : (blockDiag N F).det = 0 := by
    refine det_eq_zero_of_row_eq_zero k fun j => ?_
    have hk2 : secondRow F.ipiv k ≠ true := fun h => by have := hb.pair k k.2 h; omega
    have hk3 : secondRow F.ipiv (k + 1) ≠ true := by
      simp [secondRow, hk]
    unfold blockDiag
    by_cases h1 : k = j
    · subst h1; simp [hz]
    · by_cases h2 : (k : ℕ) + 1 = j
      · have h3 : ¬ (j : ℕ) + 1 = k := by omega
        rw [← h2]
        simp [h1, hk3]
        omega
      · simp [h1, h2, hk2]
  rw [det_mul, det_mul, hrow]
  simp

/-! ## Examples -/

/-- A factor with a block of size one, `2`, and a block of size two, `[[0, 3], [3, 1]]`. -/
def exFactor : Factor ℝ where
  info := 0
  ipiv := fun k => if k = 0 then 1 else -3
  fac := fun i j => if i = 0 ∧ j = 0 then 2 else if i = 1 ∧ j = 2 then 3 else if i = 2 ∧ j = 2 then 1 else 0

theorem exFactor_blocks : BlocksOk 3 exFactor where
  pair := by
    intro k hk
    interval_cases k <;> simp [exFactor, secondRow]
  last := by simp [exFactor, secondRow]
  off := by
    intro k hk
    have : k < 2 := by omega
    interval_cases k <;> simp [exFactor, secondRow]
  det := by
    intro k hk
    have : k < 2 := by omega
    interval_cases k <;> simp [exFactor, secondRow]

example : FactorOf 3 (blockDiag 3 exFactor) exFactor :=
  ⟨exFactor_blocks, 1, by simp, by simp⟩

example : lapackMatrixChanged 3 exFactor = some 1 := by
  rw [lapack_eq exFactor_blocks (by omega) rfl]
  have h0 : pivotAt exFactor 0 = 2 := by simp [pivotAt, exFactor, secondRow]
  have h1 : pivotAt exFactor 1 = -3 := by simp [pivotAt, exFactor, secondRow]
  have h2 : pivotAt exFactor 2 = 3 := by simp [pivotAt, exFactor, secondRow]
  have hr : List.range 3 = [0, 1, 2] := by decide
  simp only [stAt, countTo, hr, pivTol, List.filter, h0, h1, h2]
  norm_num

/-- A one by one factor. -/
noncomputable def tinyFactor : Factor ℝ where
  info := 0
  ipiv := fun _ => 1
  fac := fun _ _ => 1 / 10 ^ 15

/-- **C52, not true in full.** The tolerance is absolute: a nonsingular matrix with a small entry is
reported singular. -/
theorem C52_small_false : ∃ (M : Matrix (Fin 1) (Fin 1) ℝ) (F : Factor ℝ), M.IsHermitian ∧
    F.info = 0 ∧ FactorOf 1 M F ∧ M.det ≠ 0 ∧ lapackMatrixChanged 1 F = some (-1) := by
  have hb : BlocksOk 1 tinyFactor := by
    refine ⟨?_, ?_, ?_, ?_⟩
    · intro k hk; interval_cases k; simp [tinyFactor, secondRow]
    · simp [tinyFactor, secondRow]
    · intro k hk; omega
    · intro k hk; omega
  refine ⟨blockDiag 1 tinyFactor, tinyFactor, ?_, rfl, ⟨hb, 1, by simp, by simp⟩, ?_, ?_⟩
  · ext i j
    simp [Subsingleton.elim i 0, Subsingleton.elim j 0]
  · rw [det_unique]
    simp [blockDiag, tinyFactor]
  · rw [lapack_eq hb (by omega) rfl]
    have : 0 < (stAt tinyFactor 1).null := by
      rw [show (stAt tinyFactor 1).null = countTo _ 1 from rfl, countTo_pos]
      refine ⟨0, by omega, ?_⟩
      simp [pivotAt, tinyFactor, secondRow, pivTol]
      norm_num
    rw [if_pos this]

end Hiop.Lin
