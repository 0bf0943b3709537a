import Verif.Kkt.Dense

/-!
# Dense assembly of the (x, d, yc, yd) system

Source: `src/Optimization/hiopKKTLinSysDense.hpp`.
-/

set_option linter.unusedSectionVars false

namespace Hiop.Kkt

open Hiop.Vec Hiop.Iterate

variable {K : Type*} [Field K] [LinearOrder K] [IsStrictOrderedRing K] {n mc m : ℕ}

theorem sum_four (f : ℕ → K) (a b c d : ℕ) : ∑ k ∈ Finset.range (a + b + c + d), f k
    = (∑ i : Fin a, f i) + (∑ i : Fin b, f (a + i)) + (∑ i : Fin c, f (a + b + i))
      + ∑ i : Fin d, f (a + b + c + i) := by
  rw [Finset.sum_range_add, sum_three, Finset.sum_range]

theorem pack4_rhs (rx : RVec K n) (rd : RVec K m) (ryc : RVec K mc) (ryd : RVec K m) (buf : ℕ → K) :
    let rhs := copyTo ryd (copyTo ryc (copyTo rd (copyTo rx buf 0) n) (n + m)) (n + m + mc)
    (∀ i : Fin n, rhs i = rx i) ∧ (∀ i : Fin m, rhs (n + i) = rd i) ∧
    (∀ i : Fin mc, rhs (n + m + i) = ryc i) ∧ (∀ i : Fin m, rhs (n + m + mc + i) = ryd i) := by
  intro rhs
  refine ⟨fun i => ?_, fun i => ?_, fun i => ?_, fun i => ?_⟩
  · simp only [rhs]
    rw [copyTo_out _ _ _ _ (Or.inl (by omega)), copyTo_out _ _ _ _ (Or.inl (by omega)),
      copyTo_out _ _ _ _ (Or.inl (by omega))]
    have := copyTo_in rx buf 0 i
    rwa [Nat.zero_add] at this
  · simp only [rhs]
    rw [copyTo_out _ _ _ _ (Or.inl (by omega)), copyTo_out _ _ _ _ (Or.inl (by omega)), copyTo_in]
  · simp only [rhs]
    rw [copyTo_out _ _ _ _ (Or.inl (by omega)), copyTo_in]
  · simp only [rhs]
    rw [copyTo_in]

/-- What the dense (x, d, yc, yd) matrix really is: `delta_cd` shifted into the equality block. -/
theorem denseXDYcYd_exact (M : Mats K n mc m) (dl : Deltas K n mc m) (dx : RVec K n)
    (dd : RVec K m) (lin : (ℕ → K) → Option (ℕ → K)) (buf : ℕ → K)
    (hH : ∀ i j, M.H i j = M.H j i)
    (hl : SymSolves (n + m + mc + m) (denseXDYcYdMatrix M dl dx dd) lin) :
    Solves4 M (fun i => dx i + dl.wx i) (fun i => dd i + dl.wd i) (fun i => at1 dl.cd i)
      (fun i => at1 dl.cd (mc + i)) (pack4 lin buf) := by
  intro rx rd ryc ryd dx' dd' dyc dyd h
  unfold pack4 at h
  simp only at h
  generalize hq : lin (copyTo ryd (copyTo ryc (copyTo rd (copyTo rx buf 0) n) (n + m))
    (n + m + mc)) = ans at h
  match ans, hq, h with
  | some x, hq, h =>
    simp only [Option.some.injEq, Prod.mk.injEq] at h
    obtain ⟨rfl, rfl, rfl, rfl⟩ := h
    obtain ⟨p1, p2, p3, p4⟩ := pack4_rhs rx rd ryc ryd buf
    have e := hl _ x hq
    set W := denseXDYcYdMatrix M dl dx dd with hW
    -- the ten blocks of the upper triangle
    have wA : ∀ i j : Fin n, W (min i.val j.val) (max i.val j.val)
        = M.H i j + if i = j then dx i + dl.wx i else 0 := by
      intro i j
      simp only [hW, denseXDYcYdMatrix, addUpperTri, transAdd, addSubDiag]
      by_cases hij : i = j
      · subst hij
        ents
        simp [add_assoc]
      · have : i.val ≠ j.val := fun e => hij (Fin.ext e)
        ents
        simp [sym_minmax hH]
    have wAB : ∀ (i : Fin n) (j : Fin m), W i (n + j) = 0 := by
      intro i j
      simp only [hW, denseXDYcYdMatrix, addUpperTri, transAdd, addSubDiag]
      ents
      simp
    have wAC : ∀ (i : Fin n) (j : Fin mc), W i (n + m + j) = M.Jc j i := by
      intro i j
      simp only [hW, denseXDYcYdMatrix, addUpperTri, transAdd, addSubDiag]
      ents
      simp
    have wAD : ∀ (i : Fin n) (j : Fin m), W i (n + m + mc + j) = M.Jd j i := by
      intro i j
      simp only [hW, denseXDYcYdMatrix, addUpperTri, transAdd, addSubDiag]
      ents
      simp
    have wB : ∀ i j : Fin m, W (min (n + i.val) (n + j.val)) (max (n + i.val) (n + j.val))
        = if i = j then dd i + dl.wd i else 0 := by
      intro i j
      simp only [hW, denseXDYcYdMatrix, addUpperTri, transAdd, addSubDiag]
      by_cases hij : i = j
      · subst hij
        ents
        simp
      · have : i.val ≠ j.val := fun e => hij (Fin.ext e)
        ents
        simp
    have wBC : ∀ (i : Fin m) (j : Fin mc), W (n + i) (n + m + j) = 0 := by
      intro i j
      simp only [hW, denseXDYcYdMatrix, addUpperTri, transAdd, addSubDiag]
      ents
      simp
    have wBD : ∀ i j : Fin m, W (n + i) (n + m + mc + j) = if i = j then -1 else 0 := by
      intro i j
      simp only [hW, denseXDYcYdMatrix, addUpperTri, transAdd, addSubDiag]
      by_cases hij : i = j
      · subst hij
        ents
        simp
      · have : i.val ≠ j.val := fun e => hij (Fin.ext e)
        ents
        simp
    have wC : ∀ i j : Fin mc, W (min (n + m + i.val) (n + m + j.val))
        (max (n + m + i.val) (n + m + j.val)) = if i = j then - at1 dl.cd i else 0 := by
      intro i j
      simp only [hW, denseXDYcYdMatrix, addUpperTri, transAdd, addSubDiag]
      by_cases hij : i = j
      · subst hij
        ents
        simp
      · have : i.val ≠ j.val := fun e => hij (Fin.ext e)
        ents
        simp
    have wCD : ∀ (i : Fin mc) (j : Fin m), W (n + m + i) (n + m + mc + j) = 0 := by
      intro i j
      simp only [hW, denseXDYcYdMatrix, addUpperTri, transAdd, addSubDiag]
      ents
      simp
    have wD : ∀ i j : Fin m, W (min (n + m + mc + i.val) (n + m + mc + j.val))
        (max (n + m + mc + i.val) (n + m + mc + j.val))
        = if i = j then - at1 dl.cd (mc + i) else 0 := by
      intro i j
      simp only [hW, denseXDYcYdMatrix, addUpperTri, transAdd, addSubDiag]
      by_cases hij : i = j
      · subst hij
        rw [show n + m + mc + i.val = n + m + (mc + i.val) by omega]
        ents
        simp
      · have : i.val ≠ j.val := fun e => hij (Fin.ext e)
        ents
        simp
    have mm : ∀ a c : ℕ, a ≤ c → min a c = a ∧ max a c = c ∧ min c a = a ∧ max c a = c := by
      intro a c h; omega
    refine ⟨fun i => ?_, fun i => ?_, fun i => ?_, fun i => ?_⟩
    · have := e i (by omega)
      rw [p1, sum_four] at this
      rw [← this]
      have q1 : ∀ j : Fin m, min i.val (n + j.val) = i ∧ max i.val (n + j.val) = n + j := by omega
      have q2 : ∀ j : Fin mc, min i.val (n + m + j.val) = i ∧ max i.val (n + m + j.val) = n + m + j := by
        omega
      have q3 : ∀ j : Fin m, min i.val (n + m + mc + j.val) = i ∧
        max i.val (n + m + mc + j.val) = n + m + mc + j := by omega
      simp only [wA, (q1 _).1, (q1 _).2, wAB, (q2 _).1, (q2 _).2, wAC, (q3 _).1, (q3 _).2, wAD,
        copyOut, Nat.zero_add, add_mul, Finset.sum_add_distrib, ite_mul, zero_mul,
        Finset.sum_ite_eq, Finset.mem_univ, if_true, Finset.sum_const_zero, add_zero]
    · have := e (n + i) (by omega)
      rw [p2, sum_four] at this
      rw [← this]
      have q1 : ∀ j : Fin n, min (n + i.val) j.val = j ∧ max (n + i.val) j.val = n + i := by omega
      have q2 : ∀ j : Fin mc, min (n + i.val) (n + m + j.val) = n + i ∧
        max (n + i.val) (n + m + j.val) = n + m + j := by omega
      have q3 : ∀ j : Fin m, min (n + i.val) (n + m + mc + j.val) = n + i ∧
        max (n + i.val) (n + m + mc + j.val) = n + m + mc + j := by omega
      simp only [wB, (q1 _).1, (q1 _).2, wAB, (q2 _).1, (q2 _).2, wBC, (q3 _).1, (q3 _).2, wBD,
        copyOut, ite_mul, zero_mul, Finset.sum_ite_eq, Finset.mem_univ, if_true,
        Finset.sum_const_zero, zero_add, add_zero]
      ring
    · have := e (n + m + i) (by omega)
      rw [p3, sum_four] at this
      rw [← this]
      have q1 : ∀ j : Fin n, min (n + m + i.val) j.val = j ∧ max (n + m + i.val) j.val = n + m + i := by
        omega
      have q2 : ∀ j : Fin m, min (n + m + i.val) (n + j.val) = n + j ∧
        max (n + m + i.val) (n + j.val) = n + m + i := by omega
      have q3 : ∀ j : Fin m, min (n + m + i.val) (n + m + mc + j.val) = n + m + i ∧
        max (n + m + i.val) (n + m + mc + j.val) = n + m + mc + j := by omega
      simp only [wC, (q1 _).1, (q1 _).2, wAC, (q2 _).1, (q2 _).2, wBC, (q3 _).1, (q3 _).2, wCD,
        copyOut, Nat.zero_add, ite_mul, zero_mul, Finset.sum_ite_eq, Finset.mem_univ, if_true,
        Finset.sum_const_zero, add_zero]
      ring
    · have := e (n + m + mc + i) (by omega)
      rw [p4, sum_four] at this
      rw [← this]
      have q1 : ∀ j : Fin n, min (n + m + mc + i.val) j.val = j ∧
        max (n + m + mc + i.val) j.val = n + m + mc + i := by omega
      have q2 : ∀ j : Fin m, min (n + m + mc + i.val) (n + j.val) = n + j ∧
        max (n + m + mc + i.val) (n + j.val) = n + m + mc + i := by omega
      have q3 : ∀ j : Fin mc, min (n + m + mc + i.val) (n + m + j.val) = n + m + j ∧
        max (n + m + mc + i.val) (n + m + j.val) = n + m + mc + i := by omega
      simp only [wD, (q1 _).1, (q1 _).2, wAD, (q2 _).1, (q2 _).2, wBD, (q3 _).1, (q3 _).2, wCD,
        copyOut, Nat.zero_add, ite_mul, zero_mul, Finset.sum_ite_eq, Finset.sum_ite_eq',
        Finset.mem_univ, if_true, Finset.sum_const_zero, add_zero]
      ring

/-- **C19, dense.** The dense (x, d, yc, yd) formulation solves the requested system when there are
no equality constraints or no dual perturbation. -/
theorem C19_dense_partial (M : Mats K n mc m) (dl : Deltas K n mc m) (dx : RVec K n)
    (dd : RVec K m) (lin : (ℕ → K) → Option (ℕ → K)) (buf : ℕ → K)
    (hH : ∀ i j, M.H i j = M.H j i) (hcd : mc = 0 ∨ (∀ i, dl.cc i = 0) ∧ ∀ i, dl.cd i = 0)
    (hl : SymSolves (n + m + mc + m) (denseXDYcYdMatrix M dl dx dd) lin) :
    Solves4 M (fun i => dx i + dl.wx i) (fun i => dd i + dl.wd i) dl.cc dl.cd (pack4 lin buf) := by
  have h := denseXDYcYd_exact M dl dx dd lin buf hH hl
  have e1 : (fun i : Fin mc => at1 dl.cd i) = dl.cc := by
    funext i
    rcases hcd with h0 | ⟨h1, h2⟩
    · exact absurd i.isLt (by omega)
    · simp [at1, h1, h2]
  have e2 : (fun i : Fin m => at1 dl.cd (mc + i)) = dl.cd := by
    funext i
    rcases hcd with h0 | ⟨h1, h2⟩
    · subst h0; rw [Nat.zero_add, at1_fin]
    · simp [at1, h2]
  rw [e1, e2] at h
  exact h

/-- **C19, dense, deviation.** With one equality and one inequality constraint the requested dual
perturbations are not the ones in the matrix. -/
theorem C19_dense_wrong_diagonal (M : Mats K 1 1 1) (dl : Deltas K 1 1 1) (dx dd : RVec K 1)
    (lin : (ℕ → K) → Option (ℕ → K)) (buf : ℕ → K)
    (hl : SymSolves 4 (denseXDYcYdMatrix M dl dx dd) lin)
    (rx rd ryc ryd dx' dd' dyc dyd : RVec K 1)
    (h : pack4 lin buf rx rd ryc ryd = some (dx', dd', dyc, dyd)) :
    (M.Jc 0 0 * dx' 0 - dl.cc 0 * dyc 0) - ryc 0 = (dl.cd 0 - dl.cc 0) * dyc 0 ∧
    (M.Jd 0 0 * dx' 0 - dd' 0 - dl.cd 0 * dyd 0) - ryd 0 = - dl.cd 0 * dyd 0 := by
  have e := denseXDYcYd_exact M dl dx dd lin buf (fun i j => by fin_cases i; fin_cases j; rfl) hl
    _ _ _ _ _ _ _ _ h
  have e1 := e.2.2.1 0
  have e2 := e.2.2.2 0
  simp [at1] at e1 e2
  constructor
  · linear_combination e1
  · linear_combination e2

/-! ## Concrete instances -/

/-- Inverse of the dense (x, d, yc, yd) matrix of the instance,
`[3 0 1 1; 0 2 0 -1; 1 0 -1 0; 1 -1 0 0]`. -/
def exLin4 : (ℕ → ℚ) → Option (ℕ → ℚ) := fun r => some fun k =>
  if k = 0 then r 0 / 6 + r 1 / 6 + r 2 / 6 + r 3 / 3
  else if k = 1 then r 0 / 6 + r 1 / 6 + r 2 / 6 - 2 * r 3 / 3
  else if k = 2 then r 0 / 6 + r 1 / 6 - 5 * r 2 / 6 + r 3 / 3
  else r 0 / 3 - 2 * r 1 / 3 + r 2 / 3 - 4 * r 3 / 3

theorem exLin4_solves :
    SymSolves 4 (denseXDYcYdMatrix exM exDl (fun _ => 1) (fun _ => 1)) exLin4 := by
  intro rhs x h r hr
  simp only [exLin4, Option.some.injEq] at h
  subst h
  interval_cases r <;>
    simp [Finset.sum_range_succ, denseXDYcYdMatrix, addUpperTri, transAdd, addSubDiag, at1, at2,
      exM, exDl] <;> ring

/-- **C19, dense, refuted in general.** For a problem with an equality, an inequality and a dual
perturbation, an exact solver of the assembled matrix does not solve the requested system. -/
theorem C19_dense_refuted : ∃ (M : Mats ℚ 1 1 1) (dl : Deltas ℚ 1 1 1) (dx dd : RVec ℚ 1)
    (lin : (ℕ → ℚ) → Option (ℕ → ℚ)), (∀ i, 0 < dl.cc i ∧ 0 < dl.cd i) ∧
    SymSolves 4 (denseXDYcYdMatrix M dl dx dd) lin ∧
    ¬ Solves4 M (fun i => dx i + dl.wx i) (fun i => dd i + dl.wd i) dl.cc dl.cd
      (pack4 lin fun _ => 0) := by
  refine ⟨exM, exDl, fun _ => 1, fun _ => 1, exLin4, fun i => by simp [exDl], exLin4_solves, ?_⟩
  intro h
  have := (h (fun _ => 6) (fun _ => 0) (fun _ => 0) (fun _ => 0) _ _ _ _ rfl).2.2.2 0
  simp [exLin4, copyOut, copyTo, exM, exDl] at this

end Hiop.Kkt
