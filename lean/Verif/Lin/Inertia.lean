import Verif.Lin.Sylvester
import Mathlib.Data.Matrix.Mul
import Mathlib.Tactic.FieldSimp
import Mathlib.Tactic.LinearCombination

/-! # The inertia computed by the dense LAPACK wrapper

`hiopLinSolverSymDenseLapack::matrixChanged` factorizes the matrix with DSYTRF and then counts the
negative pivots of the block diagonal factor, taking `2 × 2` blocks in two passes with a flag. -/

namespace Hiop.Lin

section model

variable {K : Type*} [Field K] [LinearOrder K] [IsStrictOrderedRing K]

/-- What DSYTRF leaves behind: the value of `info`, the pivot array and the overwritten matrix.
Models the outputs of the call in src/LinAlg/hiopLinSolverSymDenseLapack.hpp:103. `fac k j` is the
entry `MM[k*N+j]`. -/
structure Factor (K : Type*) where
  info : Int
  ipiv : ℕ → Int
  fac : ℕ → ℕ → K

/-- The locals of the counting loop. Models src/LinAlg/hiopLinSolverSymDenseLapack.hpp:127-131. -/
structure InSt (K : Type*) where
  t : K
  neg : ℕ
  null : ℕ
  pos : ℕ

/-- `1e-14`, as in src/LinAlg/hiopLinSolverSymDenseLapack.hpp:155,157. -/
def pivTol : K := 1 / 10 ^ 14

/-- One pass of the counting loop; `none` is the failed assertion `k+1 < N`. Models
src/LinAlg/hiopLinSolverSymDenseLapack.hpp:133-163. -/
def inertiaStep (N : ℕ) (F : Factor K) (s : InSt K) (k : ℕ) : Option (InSt K) := do
  let d := F.fac k k
  let (d, t) ←
    if F.ipiv k ≤ 0 then
      if s.t = 0 then
        if k + 1 < N then
          let t := |F.fac k (k + 1)|
          some ((d / t) * F.fac (k + 1) (k + 1) - t, t)
        else none
      else some (s.t, 0)
    else some (d, s.t)
  if d < -pivTol then some { s with t := t, neg := s.neg + 1 }
  else if d < pivTol then some { s with t := t, null := s.null + 1 }
  else some { s with t := t, pos := s.pos + 1 }

/-- `matrixChanged` of the dense LAPACK wrapper as a function of what DSYTRF returns. Models
src/LinAlg/hiopLinSolverSymDenseLapack.hpp:76-169; the workspace query and the timers are left
out. -/
def lapackMatrixChanged (N : ℕ) (F : Factor K) : Option Int :=
  if N = 0 then some 0
  else if F.info ≠ 0 then some (-1)
  else
    ((List.range N).foldlM (inertiaStep N F) ⟨0, 0, 0, 0⟩).map fun s =>
      if 0 < s.null then -1 else (s.neg : Int)

end model

/-! ## What DSYTRF promises -/

section contract

variable {K : Type*} [Field K] [LinearOrder K] [IsStrictOrderedRing K]

/-- Row `k` is the second row of a `2 × 2` block: a row with a nonpositive pivot index right after
the first row of a block. -/
def secondRow (ipiv : ℕ → Int) : ℕ → Bool
  | 0 => false
  | k + 1 => decide (ipiv k ≤ 0) && !secondRow ipiv k

/-- The block diagonal factor stored in the overwritten matrix. -/
def blockDiag (N : ℕ) (F : Factor K) : Matrix (Fin N) (Fin N) K := fun i j =>
  if i = j then F.fac i i
  else if (i : ℕ) + 1 = j ∧ secondRow F.ipiv j then F.fac i j
  else if (j : ℕ) + 1 = i ∧ secondRow F.ipiv i then F.fac j i
  else 0

/-- The pivot array describes blocks of size one and two that fill the matrix, and the blocks of
size two are those Bunch and Kaufman's pivoting produces: with an off-diagonal entry and a negative
determinant. -/
structure BlocksOk (N : ℕ) (F : Factor K) : Prop where
  pair : ∀ k < N, secondRow F.ipiv k = true → F.ipiv k ≤ 0
  last : secondRow F.ipiv N = false
  off : ∀ k, k + 1 < N → secondRow F.ipiv (k + 1) = true → F.fac k (k + 1) ≠ 0
  det : ∀ k, k + 1 < N → secondRow F.ipiv (k + 1) = true →
    F.fac k k * F.fac (k + 1) (k + 1) - F.fac k (k + 1) ^ 2 < 0

/-- The contract of DSYTRF: when it reports no error, the matrix is congruent to the block diagonal
factor (the permutations and the triangular factor make up `B`). -/
structure FactorOf (N : ℕ) (M : Matrix (Fin N) (Fin N) K) (F : Factor K) : Prop where
  blocks : BlocksOk N F
  congr : ∃ B : Matrix (Fin N) (Fin N) K, B.det ≠ 0 ∧ M = B * blockDiag N F * B.transpose

/-- The quantity the loop compares with the tolerance at row `k`. -/
def pivotAt (F : Factor K) (k : ℕ) : K :=
  if secondRow F.ipiv k then |F.fac (k - 1) k|
  else if F.ipiv k ≤ 0 then
    (F.fac k k / |F.fac k (k + 1)|) * F.fac (k + 1) (k + 1) - |F.fac k (k + 1)|
  else F.fac k k

end contract

/-! ## The loop -/

section loop

variable {K : Type*} [Field K] [LinearOrder K] [IsStrictOrderedRing K]

/-- Number of rows before `k` with a property. -/
def countTo (p : ℕ → Bool) (k : ℕ) : ℕ := ((List.range k).filter p).length

theorem countTo_succ (p : ℕ → Bool) (k : ℕ) : countTo p (k + 1) = countTo p k + if p k then 1 else 0 := by
  unfold countTo
  rw [List.range_succ, List.filter_append, List.length_append]
  by_cases h : p k <;> simp [h]

/-- The state after `k` passes. -/
def stAt (F : Factor K) (k : ℕ) : InSt K where
  t := if secondRow F.ipiv k then |F.fac (k - 1) k| else 0
  neg := countTo (fun j => decide (pivotAt F j < -pivTol)) k
  null := countTo (fun j => decide (¬ pivotAt F j < -pivTol ∧ pivotAt F j < pivTol)) k
  pos := countTo (fun j => decide (¬ pivotAt F j < pivTol)) k

theorem pivTol_pos : (0 : K) < pivTol := by unfold pivTol; positivity

theorem inertiaStep_stAt {N : ℕ} {F : Factor K} (hb : BlocksOk N F) {k : ℕ} (hk : k < N) :
    inertiaStep N F (stAt F k) k = some (stAt F (k + 1)) := by
  have hpt : (0 : K) < pivTol := pivTol_pos
  have core : ∀ d : K, d = pivotAt F k → ∀ t : K, t = (stAt F (k + 1)).t →
      (if d < -pivTol then some { stAt F k with t := t, neg := (stAt F k).neg + 1 }
      else if d < pivTol then some { stAt F k with t := t, null := (stAt F k).null + 1 }
      else some { stAt F k with t := t, pos := (stAt F k).pos + 1 }) = some (stAt F (k + 1)) := by
    rintro d rfl t rfl
    simp only [stAt, countTo_succ]
    by_cases h1 : pivotAt F k < -pivTol
    · have h2 : pivotAt F k < pivTol := by linarith
      simp [h1, h2]
    · by_cases h2 : pivotAt F k < pivTol
      · simp [h1, h2]
      · simp [h1, h2]
  unfold inertiaStep
  by_cases hp : F.ipiv k ≤ 0
  · by_cases hs : secondRow F.ipiv k = true
    · have hk0 : 0 < k := by
        rcases k with _ | k
        · simp [secondRow] at hs
        · omega
      obtain ⟨j, rfl⟩ : ∃ j, k = j + 1 := ⟨k - 1, by omega⟩
      have ht : (stAt F (j + 1)).t = |F.fac j (j + 1)| := by simp [stAt, hs]
      have hne : (stAt F (j + 1)).t ≠ 0 := by
        rw [ht]; exact abs_ne_zero.mpr (hb.off j (by omega) hs)
      simp only [hp, if_true, hne, if_false, Option.bind_eq_bind, Option.bind_some]
      refine core _ ?_ _ ?_
      · rw [ht]; simp [pivotAt, hs]
      · have : secondRow F.ipiv (j + 1 + 1) = false := by rw [secondRow, hs]; simp
        simp [stAt, this]
    · have hs' : secondRow F.ipiv k = false := by simpa using hs
      have ht : (stAt F k).t = 0 := by simp [stAt, hs']
      have hs1 : secondRow F.ipiv (k + 1) = true := by simp [secondRow, hp, hs']
      have hlt : k + 1 < N := by
        rcases Nat.lt_or_ge (k + 1) N with h | h
        · exact h
        · have : k + 1 = N := by omega
          rw [this, hb.last] at hs1
          cases hs1
      simp only [hp, if_true, ht, hlt, Option.bind_eq_bind, Option.bind_some]
      refine core _ ?_ _ ?_
      · simp [pivotAt, hs', hp]
      · simp [stAt, hs1]
  · have hs' : secondRow F.ipiv k = false := by
      cases h : secondRow F.ipiv k
      · rfl
      · exact absurd (hb.pair k hk h) hp
    have ht : (stAt F k).t = 0 := by simp [stAt, hs']
    simp only [hp, if_false, Option.bind_eq_bind, Option.bind_some]
    refine core _ ?_ _ ?_
    · simp [pivotAt, hs', hp]
    · rw [ht]; simp [stAt, secondRow, hp]

theorem inertia_fold {N : ℕ} {F : Factor K} (hb : BlocksOk N F) : ∀ k ≤ N,
    (List.range k).foldlM (inertiaStep N F) ⟨0, 0, 0, 0⟩ = some (stAt F k) := by
  intro k
  induction k with
  | zero => intro _; simp [stAt, secondRow, countTo]
  | succ k ih =>
    intro hk
    rw [List.range_succ, List.foldlM_append, ih (by omega)]
    simp [inertiaStep_stAt hb (show k < N by omega)]

theorem lapack_eq {N : ℕ} {F : Factor K} (hb : BlocksOk N F) (hN : 0 < N) (hi : F.info = 0) :
    lapackMatrixChanged N F = some (if 0 < (stAt F N).null then -1 else ((stAt F N).neg : Int)) := by
  unfold lapackMatrixChanged
  rw [if_neg (by omega), if_neg (by simpa using hi), inertia_fold hb N le_rfl]
  rfl

theorem countTo_pos (p : ℕ → Bool) (k : ℕ) : 0 < countTo p k ↔ ∃ j < k, p j = true := by
  unfold countTo
  rw [List.length_pos_iff_exists_mem]
  simp [List.mem_filter]

theorem countTo_eq_card (p : ℕ → Bool) (N : ℕ) :
    countTo p N = (Finset.univ.filter fun k : Fin N => p k = true).card := by
  rw [Finset.card_filter, Fin.sum_univ_eq_sum_range (fun k => if p k = true then 1 else 0)]
  induction N with
  | zero => simp [countTo]
  | succ k ih => rw [countTo_succ, Finset.sum_range_succ, ih]

end loop

/-! ## The block diagonal factor as a combination of squares -/

/-- A symmetric `2 × 2` block with a negative determinant is a negative and a positive square. -/
theorem two_by_two (d s c : ℝ) (h : d * c - s ^ 2 < 0) :
    ∃ α β a b a' b' : ℝ, α < 0 ∧ 0 < β ∧ a * b' - a' * b ≠ 0 ∧
      ∀ y z, d * y ^ 2 + 2 * s * y * z + c * z ^ 2 = α * (a * y + b * z) ^ 2 + β * (a' * y + b' * z) ^ 2 := by
  rcases lt_trichotomy d 0 with hd | hd | hd
  · have hd' : d ≠ 0 := hd.ne
    refine ⟨d, c - s ^ 2 / d, 1, s / d, 0, 1, hd, ?_, by norm_num, fun y z => by field_simp; ring⟩
    have : c - s ^ 2 / d = (d * c - s ^ 2) / d := by field_simp
    rw [this]; exact div_pos_of_neg_of_neg h hd
  · subst hd
    have hs : s ≠ 0 := by rintro rfl; simp at h
    -- 2 s y z + c z² = z (2 s y + c z)
    refine ⟨-1, 1, s, (c - 1) / 2, s, (c + 1) / 2, by norm_num, by norm_num, ?_, fun y z => by ring⟩
    have : s * ((c + 1) / 2) - s * ((c - 1) / 2) = s := by ring
    rw [this]; exact hs
  · have hd' : d ≠ 0 := hd.ne'
    refine ⟨c - s ^ 2 / d, d, 0, 1, 1, s / d, ?_, hd, by norm_num, fun y z => by field_simp; ring⟩
    have : c - s ^ 2 / d = (d * c - s ^ 2) / d := by field_simp
    rw [this]; exact div_neg_of_neg_of_pos h hd

/-- An entry of a vector, zero outside. -/
def entry {N : ℕ} (y : Fin N → ℝ) (k : ℕ) : ℝ := if h : k < N then y ⟨k, h⟩ else 0

/-- The entry as a linear functional. -/
def entryL (N : ℕ) (k : ℕ) : (Fin N → ℝ) →ₗ[ℝ] ℝ :=
  if h : k < N then LinearMap.proj ⟨k, h⟩ else 0

theorem entryL_apply {N : ℕ} (y : Fin N → ℝ) (k : ℕ) : entryL N k y = entry y k := by
  unfold entryL entry
  split <;> simp

/-- The part of the quadratic form attached to row `k`. -/
def rowForm (F : Factor ℝ) {N : ℕ} (y : Fin N → ℝ) (k : ℕ) : ℝ :=
  F.fac k k * entry y k ^ 2 +
    if secondRow F.ipiv (k + 1) then 2 * F.fac k (k + 1) * entry y k * entry y (k + 1) else 0

theorem blockDiag_form {N : ℕ} (F : Factor ℝ) (hl : secondRow F.ipiv N = false) (y : Fin N → ℝ) :
    y ⬝ᵥ (blockDiag N F).mulVec y = ∑ k : Fin N, rowForm F y k := by
  have hsplit : ∀ i j : Fin N, y i * (blockDiag N F i j * y j) =
      (if i = j then F.fac i i * y i ^ 2 else 0) +
      ((if (i : ℕ) + 1 = j then (if secondRow F.ipiv j then F.fac i j * y i * y j else 0) else 0) +
      (if (j : ℕ) + 1 = i then (if secondRow F.ipiv i then F.fac j i * y j * y i else 0) else 0)) := by
    intro i j
    unfold blockDiag
    by_cases h1 : i = j
    · subst h1; simp; ring
    · by_cases h2 : (i : ℕ) + 1 = j
      · have h3 : ¬ (j : ℕ) + 1 = i := by omega
        by_cases h4 : secondRow F.ipiv j = true
        · simp [h1, h2, h3, h4]; ring
        · simp [h1, h2, h3, h4]
      · by_cases h3 : (j : ℕ) + 1 = i
        · by_cases h4 : secondRow F.ipiv i = true
          · simp [h1, h2, h3, h4]; ring
          · simp [h1, h2, h3, h4]
        · simp [h1, h2, h3]
  have hup : ∀ i : Fin N, (∑ j : Fin N,
      if (i : ℕ) + 1 = j then (if secondRow F.ipiv j then F.fac i j * y i * y j else 0) else 0) =
      if secondRow F.ipiv (i + 1) then F.fac i (i + 1) * entry y i * entry y (i + 1) else 0 := by
    intro i
    have ei : entry y i = y i := by simp [entry]
    by_cases h : (i : ℕ) + 1 < N
    · rw [Finset.sum_eq_single (⟨i + 1, h⟩ : Fin N)]
      · simp [entry, h]
      · intro b _ hb
        rw [if_neg]
        intro hc
        exact hb (Fin.ext hc.symm)
      · simp
    · rw [Finset.sum_eq_zero]
      · have : (i : ℕ) + 1 = N := by omega
        rw [this, hl]; simp
      · intro j _
        rw [if_neg]; omega
  calc y ⬝ᵥ (blockDiag N F).mulVec y
      = ∑ i, ∑ j, y i * (blockDiag N F i j * y j) := by
        simp only [dotProduct, Matrix.mulVec, Finset.mul_sum]
    _ = ∑ i : Fin N, F.fac i i * y i ^ 2 +
        (∑ i : Fin N, ∑ j : Fin N,
          (if (i : ℕ) + 1 = j then (if secondRow F.ipiv j then F.fac i j * y i * y j else 0) else 0) +
        ∑ i : Fin N, ∑ j : Fin N,
          (if (j : ℕ) + 1 = i then (if secondRow F.ipiv i then F.fac j i * y j * y i else 0) else 0)) := by
        simp only [hsplit, Finset.sum_add_distrib, Finset.sum_ite_eq, Finset.mem_univ, if_true]
    _ = ∑ k : Fin N, rowForm F y k := by
        rw [Finset.sum_comm (f := fun i j : Fin N =>
          if (j : ℕ) + 1 = i then (if secondRow F.ipiv i then F.fac j i * y j * y i else 0) else 0)]
        simp only [hup]
        rw [← Finset.sum_add_distrib, ← Finset.sum_add_distrib]
        refine Finset.sum_congr rfl fun i _ => ?_
        have ei : entry y i = y i := by simp [entry]
        unfold rowForm
        rw [ei]
        split <;> ring

end Hiop.Lin
